import Mathlib.Data.Matrix.Mul
import Mathlib.Data.Matrix.Basic
import Mathlib.Analysis.Real.Sqrt
import Mathlib.LinearAlgebra.Matrix.Notation
import Mathlib.Tactic.FieldSimp
import Mathlib.Tactic.LinearCombination
import Verif.Proofs.WordSwap
import Verif.Proofs.Coxeter

/-!
# Young's orthogonal representation on words

The operators act on functions of content vectors; restricted to the contents of the standard tableaux
of a shape they satisfy the Coxeter relations.
-/

namespace Snob

open IP Matrix

/-- off-diagonal coefficient for axial distance `d` -/
noncomputable def offc (d : Int) : ℝ := √(1 - 1 / ((d : ℝ) * d))

/-- diagonal coefficient -/
noncomputable def diagc (d : Int) : ℝ := 1 / (d : ℝ)

theorem offc_neg (d : Int) : offc (-d) = offc d := by simp [offc]

theorem diagc_neg (d : Int) : diagc (-d) = - diagc d := by simp [diagc]

theorem offc_sq (d : Int) (h : d ≠ 0) : offc d * offc d = 1 - diagc d * diagc d := by
  unfold offc diagc
  have h1 : (1 : ℝ) ≤ (d : ℝ) * d := by
    have : (1 : Int) ≤ d * d := by
      rcases lt_or_gt_of_ne h with h | h <;> nlinarith
    exact_mod_cast this
  rw [Real.mul_self_sqrt]
  · field_simp
  · have : 1 / ((d : ℝ) * d) ≤ 1 := by
      rw [div_le_one (by linarith)]; exact h1
    linarith

theorem offc_zero_of_unit {d : Int} (h : d = 1 ∨ d = -1) : offc d = 0 := by
  unfold offc; rcases h with rfl | rfl <;> simp

theorem diagc_of_unit {d : Int} (h : d = 1 ∨ d = -1) : diagc d = d := by
  unfold diagc; rcases h with rfl | rfl <;> simp

/-- a content vector with the contents of `k` and `k+1` exchanged -/
def sw (k : Nat) (α : Nat → Int) : Nat → Int := fun m => α (swp k (k + 1) m)

/-- the generator on functions of content vectors -/
noncomputable def S (k : Nat) (F : (Nat → Int) → ℝ) (α : Nat → Int) : ℝ :=
  diagc (α (k + 1) - α k) * F α + offc (α (k + 1) - α k) * F (sw k α)

theorem sw_lo (k : Nat) (α : Nat → Int) : sw k α k = α (k + 1) := by simp [sw, swp]
theorem sw_hi (k : Nat) (α : Nat → Int) : sw k α (k + 1) = α k := by simp [sw, swp]
theorem sw_ne {k m : Nat} (α : Nat → Int) (h1 : m ≠ k) (h2 : m ≠ k + 1) : sw k α m = α m := by
  simp [sw, swp, h1, h2]
theorem sw_sw (k : Nat) (α : Nat → Int) : sw k (sw k α) = α := by
  funext m; simp [sw, swp_swp]
theorem sw_comm {j k : Nat} (h : j + 2 ≤ k) (α : Nat → Int) : sw j (sw k α) = sw k (sw j α) := by
  funext m; unfold sw swp; congr 1; split_ifs <;> omega
theorem sw_braid (k : Nat) (α : Nat → Int) :
    sw k (sw (k + 1) (sw k α)) = sw (k + 1) (sw k (sw (k + 1) α)) := by
  funext m; unfold sw swp; congr 1; split_ifs <;> omega

theorem S_sq (k : Nat) (F : (Nat → Int) → ℝ) (α : Nat → Int) (h : α (k + 1) ≠ α k) :
    S k (S k F) α = F α := by
  have e : α k - α (k + 1) = -(α (k + 1) - α k) := by ring
  unfold S
  rw [sw_lo, sw_hi, sw_sw, e, diagc_neg, offc_neg]
  have := offc_sq (α (k + 1) - α k) (by omega)
  linear_combination (F α) * this

theorem S_comm {j k : Nat} (h : j + 2 ≤ k) (F : (Nat → Int) → ℝ) (α : Nat → Int) :
    S j (S k F) α = S k (S j F) α := by
  unfold S
  rw [sw_ne (k := j) α (by omega) (by omega), sw_ne (k := j) α (by omega) (by omega),
    sw_ne (k := k) α (by omega) (by omega), sw_ne (k := k) α (by omega) (by omega), sw_comm h]
  ring

theorem S_braid (k : Nat) (F : (Nat → Int) → ℝ) (α : Nat → Int) (h1 : α (k + 1) ≠ α k)
    (h2 : α (k + 2) ≠ α (k + 1)) (h3 : α (k + 2) ≠ α k) :
    S k (S (k + 1) (S k F)) α = S (k + 1) (S k (S (k + 1) F)) α := by
  obtain ⟨a, ha⟩ : ∃ a, a = α (k + 1) - α k := ⟨_, rfl⟩
  obtain ⟨b, hb⟩ : ∃ b, b = α (k + 2) - α (k + 1) := ⟨_, rfl⟩
  have a0 : a ≠ 0 := by omega
  have b0 : b ≠ 0 := by omega
  have ab0 : a + b ≠ 0 := by omega
  have E2 : ∀ β : Nat → Int, sw k β (k + 2) = β (k + 2) := fun β => sw_ne β (by omega) (by omega)
  have E0 : ∀ β : Nat → Int, sw (k + 1) β k = β k := fun β => sw_ne β (by omega) (by omega)
  have E3 : ∀ β : Nat → Int, sw (k + 1) β (k + 2) = β (k + 1) := fun β => sw_hi (k + 1) β
  have E4 : ∀ β : Nat → Int, sw (k + 1) β (k + 1) = β (k + 2) := fun β => sw_lo (k + 1) β
  simp only [S, show k + 1 + 1 = k + 2 from rfl, E2, E0, E3, E4, sw_lo, sw_hi, sw_sw, sw_braid]
  have e1 : α k - α (k + 1) = -a := by omega
  have e2 : α (k + 1) - α (k + 2) = -b := by omega
  have e3 : α (k + 2) - α k = a + b := by omega
  have e4 : α k - α (k + 2) = -(a + b) := by omega
  rw [e1, e2, e3, ← ha, ← hb]
  try rw [e4]
  simp only [diagc_neg, offc_neg]
  have qa := offc_sq a a0
  have qb := offc_sq b b0
  have da : (a : ℝ) ≠ 0 := by exact_mod_cast a0
  have db : (b : ℝ) ≠ 0 := by exact_mod_cast b0
  have dab : (a : ℝ) + b ≠ 0 := by exact_mod_cast ab0
  have hd : diagc (a + b) * (diagc a + diagc b) = diagc a * diagc b := by
    unfold diagc; push_cast; field_simp; ring
  linear_combination (F α * diagc (a + b)) * (qa - qb) +
    (F α * (diagc a - diagc b) + F (sw k α) * offc a - F (sw (k + 1) α) * offc b) * hd * (-1)

/-- the Jucys-Murphy relation on content vectors -/
theorem S_jm (k : Nat) (F : (Nat → Int) → ℝ) (α : Nat → Int) (h : α (k + 1) ≠ α k) :
    S k (fun β => (β k : ℝ) * S k F β) α + S k F α = (α (k + 1) : ℝ) * F α := by
  have e : α k - α (k + 1) = -(α (k + 1) - α k) := by ring
  unfold S
  beta_reduce
  rw [sw_lo, sw_hi, sw_sw, e, diagc_neg, offc_neg]
  have q := offc_sq (α (k + 1) - α k) (by omega)
  have hd : diagc (α (k + 1) - α k) * ((α (k + 1) : ℝ) - α k) = 1 := by
    have : ((α (k + 1) : ℝ) - α k) ≠ 0 := by
      rw [sub_ne_zero]; exact_mod_cast h
    unfold diagc; push_cast; field_simp
  linear_combination (F α * (α (k + 1) : ℝ)) * q +
    (- F α * diagc (α (k + 1) - α k) - F (sw k α) * offc (α (k + 1) - α k)) * hd

/-! ### words of a shape -/

/-- the words of the tableaux of a shape -/
abbrev Wd (n : Nat) (p : List Nat) := {u : List Nat // u ∈ words n p}

theorem contW_injective {u v : List Nat} (hu : Lat u) (hv : Lat v) (hl : u.length = v.length)
    (h : ∀ m, 1 ≤ m → m ≤ u.length → contW u m = contW v m) : u = v := by
  induction u generalizing v with
  | nil => exact (List.length_eq_zero_iff.1 hl.symm).symm
  | cons r u ih =>
    rcases v with _ | ⟨r', v⟩
    · simp at hl
    · have hl' : u.length = v.length := by simpa using hl
      have e : u = v := ih hu.1 hv.1 hl' fun m h1 h2 => by
        have := h m h1 (by rw [List.length_cons]; omega)
        unfold contW at this ⊢
        rwa [posW_cons_ne h2, posW_cons_ne (by omega)] at this
      subst e
      have := h (u.length + 1) (by omega) (by simp)
      unfold contW at this
      rw [posW_cons_top, posW_cons_top] at this
      simp only at this
      rcases Nat.lt_trichotomy r r' with h1 | h1 | h1
      · have := hu.1.content_lt h1; omega
      · rw [h1]
      · have := hu.1.content_lt h1; omega

section
variable {n : Nat} {p : List Nat}

theorem Wd.lat (hp : IsPartition n p) (u : Wd n p) : Lat u.1 := ((mem_words hp u.1).1 u.2).1

theorem Wd.length (hp : IsPartition n p) (u : Wd n p) : u.1.length = n :=
  (toTab_isSYT hp (u.lat hp) ((mem_words hp u.1).1 u.2).2).2

/-- the content vector of a word -/
def Wd.cont (u : Wd n p) : Nat → Int := contW u.1

theorem Wd.cont_injective (hp : IsPartition n p) {u v : Wd n p} (h : u.cont = v.cont) : u = v :=
  Subtype.ext (contW_injective (u.lat hp) (v.lat hp) ((u.length hp).trans (v.length hp).symm)
    fun m _ _ => congrFun h m)

theorem Wd.cont_ne (hp : IsPartition n p) (u : Wd n p) {k : Nat} (h1 : 1 ≤ k) (h2 : k < n) :
    u.cont (k + 1) ≠ u.cont k := by
  have hl := u.length hp
  obtain ⟨T', d, _, e, h0, -⟩ := applyTransp_toTab (u.lat hp) h1 (by omega)
  intro h
  exact h0 (e.trans (sub_eq_zero.2 h))

theorem Wd.cont_ne2 (hp : IsPartition n p) (u : Wd n p) {k : Nat} (h1 : 1 ≤ k) (h2 : k + 1 < n) :
    u.cont (k + 2) ≠ u.cont k := by
  have hl := u.length hp
  have hlat := u.lat hp
  unfold Wd.cont
  obtain ⟨u, hu⟩ := u
  simp only at hl hlat ⊢
  obtain ⟨v, c, b, y, rfl, hy⟩ := split_word (u := u) (i := k + 1) (by omega) (by omega)
  rcases y with _ | ⟨a, x⟩
  · simp at hy; omega
  · have hk : k = x.length + 1 := by simp at hy; omega
    subst hk
    have h3 := contW_upper (v := v) (x := a :: x) (a := b) (b := c)
    have h4 := contW_lower (v := v ++ [c]) (x := x) (a := a) (b := b)
    simp only [List.length_cons, List.append_assoc, List.cons_append, List.nil_append] at h3 h4
    rw [h3, h4]
    exact hlat.cont_ne2

/-- an admissible exchange stays in the shape -/
theorem Wd.exists_sw (hp : IsPartition n p) (u : Wd n p) {k : Nat} (h1 : 1 ≤ k) (h2 : k < n)
    (hd : offc (u.cont (k + 1) - u.cont k) ≠ 0) : ∃ v : Wd n p, v.cont = sw k u.cont := by
  have hl := u.length hp
  obtain ⟨T', d, _, e, h0, _, _, hyes, _⟩ := applyTransp_toTab (u.lat hp) h1 (by omega)
  have hd' : d ≠ 1 ∧ d ≠ -1 := by
    constructor <;> intro h <;> apply hd <;> apply offc_zero_of_unit <;> unfold Wd.cont <;> omega
  obtain ⟨u', hu', _, _, hc, hpos⟩ := hyes hd'
  refine ⟨⟨u', (mem_words hp u').2 ⟨hu', fun i => (hc i).trans (((mem_words hp u.1).1 u.2).2 i)⟩⟩, ?_⟩
  funext m
  unfold Wd.cont sw
  simp only [contW, hpos]

open Classical in
/-- the matrix of the generator exchanging entries `k` and `k+1` -/
noncomputable def yorM (n : Nat) (p : List Nat) (k : Nat) : Matrix (Wd n p) (Wd n p) ℝ :=
  fun u v => if v = u then diagc (u.cont (k + 1) - u.cont k)
    else if v.cont = sw k u.cont then offc (u.cont (k + 1) - u.cont k) else 0

open Classical in
/-- a function of words as a function of content vectors -/
noncomputable def lift (f : Wd n p → ℝ) (α : Nat → Int) : ℝ := ∑ v, if v.cont = α then f v else 0

theorem lift_cont (hp : IsPartition n p) (f : Wd n p → ℝ) (u : Wd n p) : lift f u.cont = f u := by
  classical
  unfold lift
  rw [Finset.sum_eq_single u]
  · rw [if_pos rfl]
  · intro v _ h
    rw [if_neg fun e => h (Wd.cont_injective hp e)]
  · intro h; exact absurd (Finset.mem_univ u) h

theorem yorM_mulVec (hp : IsPartition n p) {k : Nat} (h1 : 1 ≤ k) (h2 : k < n) (f : Wd n p → ℝ)
    (u : Wd n p) : (yorM n p k *ᵥ f) u = S k (lift f) u.cont := by
  classical
  unfold S
  rw [lift_cont hp]
  have hne : ∀ v : Wd n p, v.cont = sw k u.cont → v ≠ u := by
    rintro v h rfl
    have := congrFun h k
    rw [sw_lo] at this
    exact v.cont_ne hp h1 h2 this.symm
  unfold lift
  rw [Matrix.mulVec, dotProduct, Finset.mul_sum]
  have : ∀ v : Wd n p, yorM n p k u v * f v =
      (if v = u then diagc (u.cont (k + 1) - u.cont k) * f u else 0) +
      offc (u.cont (k + 1) - u.cont k) * (if v.cont = sw k u.cont then f v else 0) := by
    intro v
    unfold yorM
    by_cases e : v = u
    · subst e
      have : ¬ v.cont = sw k v.cont := fun h => hne v h rfl
      simp [this]
    · by_cases e' : v.cont = sw k u.cont <;> simp [e, e']
  rw [Finset.sum_congr rfl fun v _ => this v, Finset.sum_add_distrib]
  simp

theorem S_congr (hp : IsPartition n p) {k : Nat} (h1 : 1 ≤ k) (h2 : k < n) {F G : (Nat → Int) → ℝ}
    (h : ∀ v : Wd n p, F v.cont = G v.cont) (u : Wd n p) : S k F u.cont = S k G u.cont := by
  unfold S
  rw [h u]
  by_cases h0 : offc (u.cont (k + 1) - u.cont k) = 0
  · rw [h0]; simp
  · obtain ⟨v, hv⟩ := u.exists_sw hp h1 h2 h0
    rw [← hv, h v]

theorem lift_yorM (hp : IsPartition n p) {k : Nat} (h1 : 1 ≤ k) (h2 : k < n) (f : Wd n p → ℝ)
    (u : Wd n p) : lift (yorM n p k *ᵥ f) u.cont = S k (lift f) u.cont := by
  rw [lift_cont hp, yorM_mulVec hp h1 h2]

theorem mat_ext {m : Type*} [Fintype m] {M N : Matrix m m ℝ} (h : ∀ f u, (M *ᵥ f) u = (N *ᵥ f) u) :
    M = N := by
  classical
  ext u v
  have := h (Pi.single v 1) u
  simpa using this

theorem yorM_sq (hp : IsPartition n p) {k : Nat} (h1 : 1 ≤ k) (h2 : k < n) :
    yorM n p k * yorM n p k = 1 := by
  refine mat_ext fun f u => ?_
  rw [← Matrix.mulVec_mulVec, yorM_mulVec hp h1 h2, S_congr hp h1 h2 (lift_yorM hp h1 h2 f),
    S_sq k _ _ (u.cont_ne hp h1 h2), lift_cont hp, Matrix.one_mulVec]

theorem yorM_comm (hp : IsPartition n p) {j k : Nat} (h1 : 1 ≤ j) (h : j + 2 ≤ k) (h2 : k < n) :
    yorM n p j * yorM n p k = yorM n p k * yorM n p j := by
  refine mat_ext fun f u => ?_
  rw [← Matrix.mulVec_mulVec, ← Matrix.mulVec_mulVec, yorM_mulVec hp h1 (by omega),
    yorM_mulVec hp (by omega) h2, S_congr hp h1 (by omega) (lift_yorM hp (by omega) h2 f),
    S_congr hp (by omega) h2 (lift_yorM hp h1 (by omega) f), S_comm h]

theorem yorM_braid (hp : IsPartition n p) {k : Nat} (h1 : 1 ≤ k) (h2 : k + 1 < n) :
    yorM n p k * yorM n p (k + 1) * yorM n p k =
      yorM n p (k + 1) * yorM n p k * yorM n p (k + 1) := by
  have h3 : k < n := by omega
  have h4 : 1 ≤ k + 1 := by omega
  refine mat_ext fun f u => ?_
  rw [← Matrix.mulVec_mulVec, ← Matrix.mulVec_mulVec, ← Matrix.mulVec_mulVec,
    ← Matrix.mulVec_mulVec, yorM_mulVec hp h1 h3, yorM_mulVec hp h4 h2,
    S_congr hp h1 h3 (G := S (k + 1) (S k (lift f))) (fun v => by
      rw [lift_yorM hp h4 h2]; exact S_congr hp h4 h2 (lift_yorM hp h1 h3 f) v),
    S_congr hp h4 h2 (G := S k (S (k + 1) (lift f))) (fun v => by
      rw [lift_yorM hp h1 h3]; exact S_congr hp h1 h3 (lift_yorM hp h4 h2 f) v)]
  exact S_braid k _ _ (u.cont_ne hp h1 h3) (u.cont_ne hp h4 h2) (u.cont_ne2 hp h1 h2)

theorem yorM_symm (k : Nat) : (yorM n p k)ᵀ = yorM n p k := by
  classical
  ext u v
  rw [Matrix.transpose_apply]
  unfold yorM
  by_cases e : v = u
  · subst e; rfl
  · rw [if_neg e, if_neg (Ne.symm e)]
    by_cases h : u.cont = sw k v.cont
    · have h' : v.cont = sw k u.cont := by rw [h, sw_sw]
      rw [if_pos h, if_pos h', h', sw_lo, sw_hi, ← offc_neg]
      congr 1
      ring
    · rw [if_neg h, if_neg fun h' => h (by rw [h', sw_sw])]

theorem coxeter_yor (hp : IsPartition n p) : Coxeter n (fun k => yorM n p (k + 1)) :=
  ⟨fun _ hk => yorM_sq hp (by omega) (by omega),
    fun _ _ hj hk => yorM_comm hp (by omega) (by omega) (by omega),
    fun _ hk => yorM_braid hp (by omega) (by omega)⟩

/-- Young's orthogonal representation on the words of a shape -/
noncomputable def rho (hp : IsPartition n p) : Equiv.Perm (Fin n) →* Matrix (Wd n p) (Wd n p) ℝ :=
  coxHom (coxeter_yor hp)

theorem rho_adj (hp : IsPartition n p) {k : Nat} (hk : k + 1 < n) :
    rho hp (adj n k) = yorM n p (k + 1) := cox_adj (coxeter_yor hp) k hk

theorem adj_inv (n k : Nat) : (adj n k)⁻¹ = adj n k := by
  unfold adj; split <;> simp

/-- orthogonality -/
theorem rho_inv (hp : IsPartition n p) (σ : Equiv.Perm (Fin n)) : rho hp σ⁻¹ = (rho hp σ)ᵀ := by
  induction σ using perm_induction with
  | h1 => simp
  | hs k σ hk ih =>
    rw [mul_inv_rev, map_mul, map_mul, Matrix.transpose_mul, ih, adj_inv, rho_adj hp hk, yorM_symm]

theorem rho_orthogonal (hp : IsPartition n p) (σ : Equiv.Perm (Fin n)) :
    rho hp σ * (rho hp σ)ᵀ = 1 := by
  rw [← rho_inv, ← map_mul, mul_inv_cancel, map_one]

end

end Snob
