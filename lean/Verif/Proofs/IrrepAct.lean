import Verif.Proofs.Irrep

/-! # The loops over adjacent transpositions compute the representation -/

namespace Snob

open IP Matrix

/-! ### products of consecutive generators -/

theorem map_run {M N : Type*} [Monoid M] [Monoid N] (f : M →* N) (s : Nat → M) (t m : Nat) :
    f (run s t m) = run (fun k => f (s k)) t m := by
  induction m with
  | zero => exact map_one f
  | succ m ih => rw [run_succ, run_succ, map_mul, ih]

theorem run_congr {M : Type*} [Monoid M] {s s' : Nat → M} (t m : Nat)
    (h : ∀ k, t ≤ k → k < t + m → s k = s' k) : run s t m = run s' t m := by
  induction m with
  | zero => rfl
  | succ m ih =>
    rw [run_succ, run_succ, ih fun k h1 h2 => h k h1 (by omega), h (t + m) (by omega) (by omega)]

/-- `s (t+m-1) * ... * s t` -/
def rrun {M : Type*} [Monoid M] (s : Nat → M) (t : Nat) : Nat → M
  | 0 => 1
  | m + 1 => s (t + m) * rrun s t m

theorem run_adj {n t m : Nat} (h : t + m < n) :
    run (adj n) t m = cyc (⟨t, by omega⟩ : Fin n) ⟨t + m, h⟩ := by
  induction m with
  | zero =>
    show (1 : Equiv.Perm (Fin n)) = _
    ext i
    rw [cyc_apply _ _ (by simp)]
    simp only [Nat.add_zero]
    show (i : Nat) = _
    split_ifs <;> omega
  | succ m ih =>
    rw [run_succ, ih (by omega)]
    ext i
    rw [Equiv.Perm.mul_apply, cyc_apply _ _ (by simp [Fin.le_def]), cyc_apply _ _ (by simp [Fin.le_def]),
      adj_val (by omega)]
    simp only
    split_ifs <;> omega

theorem rrun_adj {n t m : Nat} : rrun (adj n) t m = (run (adj n) t m)⁻¹ := by
  induction m with
  | zero => exact inv_one.symm
  | succ m ih => rw [rrun, run_succ, _root_.mul_inv_rev, ih, adj_inv]

theorem map_rrun {M N : Type*} [Monoid M] [Monoid N] (f : M →* N) (s : Nat → M) (t m : Nat) :
    f (rrun s t m) = rrun (fun k => f (s k)) t m := by
  induction m with
  | zero => exact map_one f
  | succ m ih => rw [rrun, rrun, map_mul, ih]

theorem rrun_congr {M : Type*} [Monoid M] {s s' : Nat → M} (t m : Nat)
    (h : ∀ k, t ≤ k → k < t + m → s k = s' k) : rrun s t m = rrun s' t m := by
  induction m with
  | zero => rfl
  | succ m ih =>
    rw [rrun, rrun, ih fun k h1 h2 => h k h1 (by omega), h (t + m) (by omega) (by omega)]

theorem swap_eq_cyc {n : Nat} (a b : Fin n) (h : a < b) :
    Equiv.swap a b = (cyc (⟨a + 1, by have := b.2; have : (a : Nat) < b := h; omega⟩ : Fin n) b)⁻¹ * cyc a b := by
  have hab : (a : Nat) < b := h
  rw [eq_inv_mul_iff_mul_eq]
  ext i
  rw [Equiv.Perm.mul_apply, cyc_apply _ _ (by rw [Fin.le_def]; simp only; omega),
    cyc_apply _ _ (by rw [Fin.le_def]; omega), Equiv.swap_apply_def]
  have : ∀ x y : Fin n, x = y ↔ (x : Nat) = y := fun x y => Fin.ext_iff
  simp only [this]
  split_ifs <;> omega

/-! ### loops -/

theorem iterUp_succ {S : Type} (body : Int → S → Option S) (k : Nat) (i : Int) (s : S) :
    iterUp body (k + 1) i s = (iterUp body k i s).bind (body (i + k)) := by
  induction k generalizing i s with
  | zero => simp [iterUp]
  | succ k ih =>
    rw [iterUp]
    conv_rhs => rw [iterUp]
    cases body i s with
    | none => rfl
    | some s' =>
      simp only [Option.bind_some]
      rw [ih]
      congr 2
      push_cast; ring

/-- `ap k` is the action of the generator `s (k-1)` -/
structure Gen {M X : Type} [Monoid M] (n : Nat) (s : Nat → M) (a : M → X → X)
    (ap : Int → X → Option X) : Prop where
  one : ∀ x, a 1 x = x
  mul : ∀ g g' x, a (g * g') x = a g (a g' x)
  gen : ∀ (k : Nat) x, k + 1 < n → ap ((k : Int) + 1) x = some (a (s k) x)

section
variable {M X : Type} [Monoid M] {n : Nat} {s : Nat → M} {a : M → X → X} {ap : Int → X → Option X}

theorem Gen.down (h : Gen n s a ap) {lo hi : Int} (t m : Nat) (htm : t + m < n) (hlo : lo = t + 1)
    (hhi : hi = t + m) (x : X) : forDown hi lo x ap = some (a (run s t m) x) := by
  subst hlo hhi
  unfold forDown
  have : ((t : Int) + m - (t + 1) + 1).toNat = m := by omega
  rw [this]
  clear this
  induction m generalizing x with
  | zero => simp only [iterDown, run, h.one]
  | succ m ih =>
    have e : ((t : Int) + ((m + 1 : Nat) : Int)) = ((t + m : Nat) : Int) + 1 := by push_cast; ring
    rw [iterDown, e, h.gen (t + m) x (by omega), Option.bind_some]
    have e' : (((t + m : Nat) : Int) + 1 - 1) = (t : Int) + m := by push_cast; ring
    rw [e', ih (by omega), run_succ, h.mul]

theorem Gen.up (h : Gen n s a ap) {lo hi : Int} (t m : Nat) (htm : t + m < n) (hlo : lo = t + 1)
    (hhi : hi = t + m + 1) (x : X) : forUp lo hi x ap = some (a (rrun s t m) x) := by
  subst hlo hhi
  unfold forUp
  have : ((t : Int) + m + 1 - (t + 1)).toNat = m := by omega
  rw [this]
  clear this
  induction m with
  | zero => simp only [iterUp, rrun, h.one]
  | succ m ih =>
    have e : ((t : Int) + 1 + (m : Int)) = ((t + m : Nat) : Int) + 1 := by push_cast; ring
    rw [iterUp_succ, ih (by omega), Option.bind_some, e, h.gen (t + m) _ (by omega), rrun, h.mul]

theorem forDown_empty {hi lo : Int} (h : hi < lo) (x : X) (ap : Int → X → Option X) :
    forDown hi lo x ap = some x := by
  unfold forDown
  have : (hi - lo + 1).toNat = 0 := by omega
  rw [this]; rfl

theorem forUp_empty {hi lo : Int} (h : hi ≤ lo) (x : X) (ap : Int → X → Option X) :
    forUp lo hi x ap = some x := by
  unfold forUp
  have : (hi - lo).toNat = 0 := by omega
  rw [this]; rfl

end

/-! ### the shifts of a permutation -/

/-- the positions (from zero) that the code extracts -/
noncomputable def sh : (n : Nat) → Equiv.Perm (Fin n) → List Nat
  | 0, _ => []
  | n + 1, σ => sh n ((mkEquiv n).symm σ).2 ++ [(((mkEquiv n).symm σ).1 : Nat)]

theorem sh_mk {n : Nat} (t : Fin (n + 1)) (τ : Equiv.Perm (Fin n)) : sh (n + 1) (mk t τ) = sh n τ ++ [(t : Nat)] := by
  rw [sh, mkEquiv_symm_mk]

theorem sh_length : ∀ (n : Nat) (σ : Equiv.Perm (Fin n)), (sh n σ).length = n
  | 0, _ => rfl
  | n + 1, σ => by rw [sh, List.length_append, sh_length n]; rfl

/-- as a buffer -/
noncomputable def shArr (n : Nat) (σ : Equiv.Perm (Fin n)) : Arr := (sh n σ).map fun (t : Nat) => some ((t : Int) + 1)

theorem shiftStep {n : Nat} (t : Fin (n + 1)) (τ : Equiv.Perm (Fin n)) (p : Arr)
    (hp : p.take (n + 1) = enc (mk t τ)) :
    ∃ q, forUp 1 ((n : Int) + 1) p (fun j p => do
      let v ← rd p (j - 1)
      if v > (t : Int) + 1 then wr p (j - 1) (v - 1) else some p) = some q ∧ q.take n = enc τ := by
  have hget : ∀ i (hi : i < n + 1), p[i]? = some (some ((mk t τ ⟨i, hi⟩ : Int) + 1)) := by
    intro i hi
    have := congrArg (fun l : Arr => l[i]?) hp
    simp only [List.getElem?_take, hi, if_true] at this
    rw [this]
    exact enc_get (mk t τ) ⟨i, hi⟩
  have hlen : n + 1 ≤ p.length := by
    by_contra hc
    have := hget p.length (by omega)
    rw [List.getElem?_eq_none (Nat.le_refl _)] at this
    cases this
  obtain ⟨q, hq, hl, h1⟩ := forUp_inv (lo := 1) (hi := (n : Int) + 1) (s := p)
    (body := fun j p => do
      let v ← rd p (j - 1)
      if v > (t : Int) + 1 then wr p (j - 1) (v - 1) else some p)
    (fun j q => q.length = p.length ∧ ∀ i (hi : i < n),
      q[i]? = if (i : Int) + 1 < j then some (some ((τ ⟨i, hi⟩ : Int) + 1)) else p[i]?)
    (by omega) ⟨rfl, fun i hi => by rw [if_neg (by omega)]⟩
    (by
      rintro j q h1 h2 ⟨hl, hq⟩
      obtain ⟨k, rfl⟩ : ∃ k : Nat, j = (k : Int) + 1 := ⟨(j - 1).toNat, by omega⟩
      have hk : k < n := by omega
      have ek : (k : Int) + 1 - 1 = k := by omega
      have hqk : q[k]? = some (some ((mk t τ ⟨k, by omega⟩ : Int) + 1)) := by
        rw [hq k hk, if_neg (by omega)]; exact hget k (by omega)
      have hrd : rd q ((k : Int) + 1 - 1) = some ((mk t τ ⟨k, by omega⟩ : Int) + 1) := by
        rw [ek, rd_ofNat, hqk]; rfl
      have hv := mk_val t τ ⟨k, by omega⟩
      simp only [dif_pos hk] at hv
      simp only [hrd, Option.bind_eq_bind, Option.bind_some]
      by_cases hlt : (τ ⟨k, hk⟩ : Nat) < t
      · rw [if_pos hlt] at hv
        rw [if_neg (by omega)]
        refine ⟨q, rfl, hl, fun i hi => ?_⟩
        by_cases e : i = k
        · subst e
          rw [if_pos (by omega), hqk, hv]
        · rw [hq i hi]
          by_cases h3 : (i : Int) + 1 < k + 1
          · rw [if_pos h3, if_pos (by omega)]
          · rw [if_neg h3, if_neg (by omega)]
      · rw [if_neg hlt] at hv
        rw [if_pos (by omega), ek, wr_ofNat _ _ _ (by omega)]
        refine ⟨_, rfl, by simpa using hl, fun i hi => ?_⟩
        rw [List.getElem?_set]
        by_cases e : k = i
        · subst e
          rw [if_pos rfl, if_pos (by omega), if_pos (by omega), hv]
          congr 2
          push_cast; ring
        · rw [if_neg e, hq i hi]
          by_cases h3 : (i : Int) + 1 < k + 1
          · rw [if_pos h3, if_pos (by omega)]
          · rw [if_neg h3, if_neg (by omega)])
  refine ⟨q, hq, ?_⟩
  refine eq_enc τ (by rw [List.length_take]; omega) fun i => ?_
  rw [List.getElem?_take, if_pos i.2, h1 i i.2, if_pos (by omega)]

theorem shifts_eq {n : Nat} (σ : Equiv.Perm (Fin n)) : IrrepObj.shifts n (enc σ) = some (shArr n σ) := by
  have key : ∀ (k : Nat) (τ : Equiv.Perm (Fin k)) (p : Arr) (rest : Arr), p.take k = enc τ →
      ∃ p', iterDown (fun i (st : Arr × Arr) => (do
        let a ← rd st.1 (i - 1)
        let s ← wr st.2 (i - 1) a
        let p ← forUp 1 i st.1 fun j p => do
          let v ← rd p (j - 1)
          if v > a then wr p (j - 1) (v - 1) else some p
        some (p, s) : Option (Arr × Arr))) k k (p, List.replicate k (some 0) ++ rest) =
          some (p', shArr k τ ++ rest) := by
    intro k
    induction k with
    | zero => intro τ p rest _; exact ⟨p, rfl⟩
    | succ k ih =>
      intro τ p rest hp
      obtain ⟨t, τ', rfl⟩ := exists_mk τ
      have ek : ((k + 1 : Nat) : Int) - 1 = k := by push_cast; ring
      have hrd : rd p ((k : Nat) : Int) = some ((t : Int) + 1) := by
        have h1 : p[k]? = (enc (mk t τ'))[k]? := by rw [← hp, List.getElem?_take, if_pos (by omega)]
        have h2 := enc_get (mk t τ') (Fin.last k)
        rw [Fin.val_last, mk_last] at h2
        rw [rd_ofNat, h1, h2]; rfl
      obtain ⟨q, hq, hqt⟩ := shiftStep t τ' p hp
      obtain ⟨p', hp'⟩ := ih τ' q (some ((t : Int) + 1) :: rest) hqt
      refine ⟨p', ?_⟩
      rw [iterDown]
      simp only [ek, Option.bind_eq_bind, hrd, Option.bind_some]
      rw [wr_ofNat _ _ _ (by simp; omega)]
      have hset : (List.replicate (k + 1) (some (0 : Int)) ++ rest).set k (some ((t : Int) + 1)) =
          List.replicate k (some 0) ++ (some ((t : Int) + 1) :: rest) := by
        rw [List.replicate_succ', List.append_assoc, List.set_append_right _ _ (by simp)]
        simp
      simp only [Option.bind_some, hset]
      have hq' := hq
      simp only [Option.bind_eq_bind] at hq'
      have ek2 : ((k + 1 : Nat) : Int) = (k : Int) + 1 := by push_cast; ring
      rw [ek2, hq', Option.bind_some, Option.bind_some]
      simp only [Option.bind_eq_bind] at hp'
      rw [hp']
      unfold shArr
      rw [sh_mk]
      simp
  obtain ⟨p', hp'⟩ := key n σ (enc σ) [] (by rw [List.take_of_length_le]; simp)
  unfold IrrepObj.shifts forDown
  have : ((n : Int) - 1 + 1).toNat = n := by omega
  simp only [List.append_nil] at hp'
  rw [this, hp']
  simp

theorem cox_adj_self {n : Nat} (σ : Equiv.Perm (Fin n)) : cox (adj n) n σ = σ := by
  induction σ using perm_induction with
  | h1 => exact cox_one _ _
  | hs k σ hk ih => rw [cox_adj_mul (coxeter_adj n) k hk, ih]

/-- the loop over the cycles `(s_i, ..., i)` -/
theorem sigmaLoop {M X : Type} [Monoid M] {n : Nat} {s : Nat → M} {a : M → X → X}
    (one : ∀ x, a 1 x = x) (mul : ∀ g g' x, a (g * g') x = a g (a g' x)) {cy : Int → Int → X → Option X}
    (hcy : ∀ (t m : Nat) x, t + m < n → cy ((t : Int) + 1) ((t : Int) + m + 1) x = some (a (run s t m) x))
    (σ : Equiv.Perm (Fin n)) (x : X) :
    (forUp 2 ((n : Int) + 1) x fun i x => (do
      let b ← rd (shArr n σ) (i - 1)
      cy b i x : Option X)) = some (a (cox s n σ) x) := by
  have key : ∀ (k : Nat) (τ : Equiv.Perm (Fin k)) (rest : Arr), k ≤ n →
      iterUp (fun i x => (do
        let b ← rd (shArr k τ ++ rest) (i - 1)
        cy b i x : Option X)) (k - 1) 2 x = some (a (cox s k τ) x) := by
    intro k
    induction k with
    | zero => intro τ rest _; rw [show cox s 0 τ = 1 from rfl, one]; rfl
    | succ k ih =>
      intro τ rest hk
      obtain ⟨t, τ', rfl⟩ := exists_mk τ
      have ht := t.2
      have harr : shArr (k + 1) (mk t τ') ++ rest = shArr k τ' ++ (some ((t : Int) + 1) :: rest) := by
        unfold shArr; rw [sh_mk]; simp
      rw [harr, cox_mk]
      rcases k with _ | k
      · have : (t : Nat) = 0 := by omega
        rw [this]
        show _ = some (a (1 * 1) x)
        rw [one_mul, one]
        rfl
      · have h1 := ih τ' (some ((t : Int) + 1) :: rest) (by omega)
        have e1 : k + 1 - 1 = k := rfl
        have e2 : k + 1 + 1 - 1 = k + 1 := rfl
        rw [e1] at h1
        rw [e2, iterUp_succ, h1, Option.bind_some]
        have e3 : (2 : Int) + k - 1 = ((k + 1 : Nat) : Int) := by push_cast; ring
        have hrd : rd (shArr (k + 1) τ' ++ some ((t : Int) + 1) :: rest) (2 + (k : Int) - 1) =
            some ((t : Int) + 1) := by
          rw [e3, rd_ofNat, List.getElem?_append_right (by simp [shArr, sh_length])]
          simp [shArr, sh_length]
        simp only [hrd, Option.bind_eq_bind, Option.bind_some]
        have e4 : (2 : Int) + k = (t : Int) + ((k + 1 - (t : Nat) : Nat) : Int) + 1 := by
          rw [Nat.cast_sub (by omega)]; push_cast; ring
        rw [e4, hcy _ _ _ (by omega), mul]
  have := key n σ [] (Nat.le_refl _)
  rw [List.append_nil] at this
  unfold forUp
  have e : ((n : Int) + 1 - 2).toNat = n - 1 := by omega
  rw [e, this]

/-! ### the representation -/

section
variable {n : Nat} {p : List Nat} {hp : IsPartition n p} {R : IrrepObj}

/-- the representation on numbered tableaux -/
noncomputable def Repr'.rep (h : Repr' hp R) : Equiv.Perm (Fin n) →* Matrix (Fin R.d) (Fin R.d) ℝ where
  toFun σ := h.mat (rho hp σ)
  map_one' := by rw [map_one, h.mat_one]
  map_mul' σ τ := by rw [map_mul, h.mat_mul]

theorem Repr'.rep_apply (h : Repr' hp R) (σ : Equiv.Perm (Fin n)) : h.rep σ = h.mat (rho hp σ) := rfl

theorem Repr'.rep_inv (h : Repr' hp R) (σ : Equiv.Perm (Fin n)) : h.rep σ⁻¹ = (h.rep σ)ᵀ := by
  rw [h.rep_apply, rho_inv, h.rep_apply]
  unfold Repr'.mat
  rw [Matrix.transpose_submatrix]

theorem Repr'.rep_adj (h : Repr' hp R) {k : Nat} (hk : k + 1 < n) :
    h.rep (adj n k) = h.mat (yorM n p (k + 1)) := by
  rw [h.rep_apply, rho_adj hp hk]

variable {K : Type} [DecidableEq K]

theorem Repr'.gen (h : Repr' hp R) (cols : List K) (hc : cols.Nodup) :
    Gen (M := Equiv.Perm (Fin n)) n (adj n) (fun σ => act (h.rep σ) cols)
      (fun tau A => R.applyTau cols tau A) where
  one A := by rw [map_one, act_one]
  mul σ τ A := by rw [map_mul, act_mul]
  gen k A hk := by
    rw [h.rep_adj hk]
    exact applyTau_eq (h.slotSpec (tau := k + 1) (by omega) hk) cols hc A

theorem Repr'.applySigma_eq (h : Repr' hp R) (cols : List K) (hc : cols.Nodup) (σ : Equiv.Perm (Fin n))
    (A : Nat → K → ℝ) : R.applySigma cols (enc σ) A = some (act (h.rep σ) cols A) := by
  have g := h.gen cols hc
  unfold IrrepObj.applySigma
  rw [h.n_eq, if_pos (by simp), shifts_eq]
  have := sigmaLoop (s := adj n) (a := fun σ => act (h.rep σ) cols) g.one g.mul
    (cy := fun b i A => forDown (i - 1) b A fun a A => R.applyTau cols a A)
    (fun t m x htm => g.down t m htm rfl (by ring) x) σ A
  rw [cox_adj_self] at this
  exact this

theorem Repr'.applyCycle_up (h : Repr' hp R) (cols : List K) (hc : cols.Nodup) (a b : Fin n) (hab : a ≤ b)
    (A : Nat → K → ℝ) :
    R.applyCycleBlock cols ((a : Nat) + 1) ((b : Nat) + 1) A = some (act (h.rep (cyc a b)) cols A) := by
  have g := h.gen cols hc
  have ha := a.2
  have hb := b.2
  have hab' : (a : Nat) ≤ b := hab
  unfold IrrepObj.applyCycleBlock
  rw [g.down a (b - a) (by omega) rfl (by omega), run_adj (by omega)]
  congr 4
  exact Fin.ext (by simp only; omega)

theorem Repr'.applyCycle_down (h : Repr' hp R) (cols : List K) (hc : cols.Nodup) (a b : Fin n) (hab : a ≤ b)
    (A : Nat → K → ℝ) :
    forUp (((a : Nat) : Int) + 1) ((b : Nat) + 1) A (fun i A => R.applyTau cols i A) =
      some (act (h.rep (cyc a b)⁻¹) cols A) := by
  have g := h.gen cols hc
  have ha := a.2
  have hb := b.2
  have hab' : (a : Nat) ≤ b := hab
  rw [g.up a (b - a) (by omega) rfl (by omega), rrun_adj, run_adj (by omega)]
  congr 5
  exact Fin.ext (by simp only; omega)

theorem Repr'.applyTransposition_eq (h : Repr' hp R) (cols : List K) (hc : cols.Nodup) (a b : Fin n)
    (A : Nat → K → ℝ) :
    R.applyTransposition cols ((a : Nat) + 1) ((b : Nat) + 1) A =
      some (act (h.rep (Equiv.swap a b)) cols A) := by
  have key : ∀ a b : Fin n, a < b → (do
      let A ← forDown (((b : Nat) : Int) + 1 - 1) ((a : Nat) + 1) A fun i A => R.applyTau cols i A
      forUp (((a : Nat) : Int) + 1 + 1) ((b : Nat) + 1) A fun i A => R.applyTau cols i A) =
      some (act (h.rep (Equiv.swap a b)) cols A) := by
    intro a b hab
    have hab' : (a : Nat) < b := hab
    have hb := b.2
    have h1 := h.applyCycle_up cols hc a b (by rw [Fin.le_def]; omega) A
    unfold IrrepObj.applyCycleBlock at h1
    rw [h1]
    simp only [Option.bind_eq_bind, Option.bind_some]
    have h2 := h.applyCycle_down cols hc ⟨a + 1, by omega⟩ b (by rw [Fin.le_def]; simp only; omega)
      (act (h.rep (cyc a b)) cols A)
    simp only [Nat.cast_add, Nat.cast_one] at h2
    rw [h2, swap_eq_cyc a b hab, map_mul, act_mul]
  unfold IrrepObj.applyTransposition
  rcases lt_trichotomy a b with hab | rfl | hab
  · have hab' : (a : Nat) < b := hab
    have e1 : min (((a : Nat) : Int) + 1) ((b : Nat) + 1) = (a : Nat) + 1 := by omega
    have e2 : max (((a : Nat) : Int) + 1) ((b : Nat) + 1) = (b : Nat) + 1 := by omega
    simp only [e1, e2]
    exact key a b hab
  · simp only [min_self, max_self]
    rw [forDown_empty (by omega)]
    simp only [Option.bind_eq_bind, Option.bind_some]
    rw [forUp_empty (by omega), Equiv.swap_self]
    rw [show (Equiv.refl (Fin n)) = 1 from rfl, map_one, act_one]
  · have hab' : (b : Nat) < a := hab
    have e1 : min (((a : Nat) : Int) + 1) ((b : Nat) + 1) = (b : Nat) + 1 := by omega
    have e2 : max (((a : Nat) : Int) + 1) ((b : Nat) + 1) = (a : Nat) + 1 := by omega
    simp only [e1, e2]
    rw [Equiv.swap_comm]
    exact key b a hab

end

end Snob
