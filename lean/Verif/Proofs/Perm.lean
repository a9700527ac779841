import Mathlib.Tactic.Linarith
import Mathlib.Tactic.SplitIfs
import Mathlib.Tactic.Ring
import Mathlib.Logic.Equiv.Fin.Basic
import Mathlib.Data.Fintype.EquivFin
import Verif.Proofs.Mem
import Verif.Model.Perm
import Verif.Spec.Perm

/-! # Refinement lemmas for the permutation model -/

namespace Snob

@[simp] theorem length_enc {n : Nat} (σ : Equiv.Perm (Fin n)) : (enc σ).length = n := by simp [enc]

theorem enc_get {n : Nat} (σ : Equiv.Perm (Fin n)) (i : Fin n) :
    (enc σ)[(i : Nat)]? = some (some ((σ i : Int) + 1)) := by
  simp [enc]

theorem rd_enc {n : Nat} (σ : Equiv.Perm (Fin n)) (i : Fin n) :
    rd (enc σ) ((i : Nat) : Int) = some ((σ i : Int) + 1) := by
  rw [rd_ofNat, enc_get]; rfl

theorem enc_injective {n : Nat} : Function.Injective (enc (n := n)) := by
  intro σ τ h
  ext i
  have := congrArg (fun a : Arr => a[(i : Nat)]?) h
  simp only [enc_get] at this
  have h2 : ((σ i : Nat) : Int) + 1 = (τ i : Nat) + 1 := by simpa using this
  omega

/-- An array of length `n` that agrees with `enc σ` at each index is `enc σ`. -/
theorem eq_enc {n : Nat} {a : Arr} (σ : Equiv.Perm (Fin n)) (hl : a.length = n)
    (h : ∀ i : Fin n, a[(i : Nat)]? = some (some ((σ i : Int) + 1))) : a = enc σ := by
  apply List.ext_getElem?
  intro i
  by_cases hi : i < n
  · rw [h ⟨i, hi⟩, enc_get σ ⟨i, hi⟩]
  · rw [List.getElem?_eq_none (by omega), List.getElem?_eq_none (by simp; omega)]

/-- Rule for the loop `for(i=lo;i<hi;i++) r[t(i)]=v(i)` with injective in-range targets. -/
theorem forUp_scatter {n : Nat} {lo hi : Int} {r0 : Arr} (hle : lo ≤ hi) (hl : r0.length = n)
    {body : Int → Arr → Option Arr} (t : Int → Nat) (v : Int → Int)
    (ht : ∀ i, lo ≤ i → i < hi → t i < n)
    (hinj : ∀ i j, lo ≤ i → i < j → j < hi → t i ≠ t j)
    (hbody : ∀ i r, lo ≤ i → i < hi → r.length = n → body i r = wr r (t i : Int) (v i)) :
    ∃ r, forUp lo hi r0 body = some r ∧ r.length = n ∧
      (∀ i, lo ≤ i → i < hi → r[t i]? = some (some (v i))) ∧
      (∀ j : Nat, (∀ i, lo ≤ i → i < hi → t i ≠ j) → r[j]? = r0[j]?) := by
  obtain ⟨r, h1, h2, h3, h4⟩ := forUp_inv (lo := lo) (hi := hi) (s := r0) (body := body)
    (fun i r => r.length = n ∧
      (∀ k, lo ≤ k → k < i → r[t k]? = some (some (v k))) ∧
      (∀ j : Nat, (∀ k, lo ≤ k → k < i → t k ≠ j) → r[j]? = r0[j]?)) hle
    ⟨hl, by intro k h1 h2; omega, by simp⟩
    (by
      rintro i r hi1 hi2 ⟨hr, hw, hk⟩
      refine ⟨r.set (t i) (some (v i)), ?_, by simpa using hr, ?_, ?_⟩
      · rw [hbody i r hi1 hi2 hr, wr_ofNat _ _ _ (by rw [hr]; exact ht i hi1 hi2)]
      · intro k hk1 hk2
        rw [List.getElem?_set]
        by_cases hki : k = i
        · subst hki
          simp [hr, ht k hi1 hi2]
        · have : t i ≠ t k := fun h => hinj k i hk1 (by omega) hi2 h.symm
          rw [if_neg this]
          exact hw k hk1 (by omega)
      · intro j hj
        rw [List.getElem?_set, if_neg (hj i hi1 (by omega))]
        exact hk j (fun k h1 h2 => hj k h1 (by omega)))
  exact ⟨r, h1, h2, h3, h4⟩

theorem length_raw (n : Nat) : (raw n).length = n := by simp [raw]

theorem cyc_apply {n : Nat} (a b : Fin n) (h : a ≤ b) (i : Fin n) :
    ((cyc a b i : Fin n) : Nat) = if (i : Nat) < a ∨ (b : Nat) < i then (i : Nat)
      else if (i : Nat) = b then (a : Nat) else i + 1 := by
  simp only [cyc, dif_pos h, Equiv.coe_fn_mk, Fin.lt_def, Fin.ext_iff]
  split_ifs <;> rfl

theorem cyc_inv_apply {n : Nat} (a b : Fin n) (h : a ≤ b) (i : Fin n) :
    (((cyc a b)⁻¹ i : Fin n) : Nat) = if (i : Nat) < a ∨ (b : Nat) < i then (i : Nat)
      else if (i : Nat) = a then (b : Nat) else i - 1 := by
  have : ((cyc a b)⁻¹ i : Fin n) = (cyc a b).symm i := rfl
  rw [this]
  simp only [cyc, dif_pos h, Equiv.symm, Equiv.coe_fn_mk, Fin.lt_def, Fin.ext_iff]
  split_ifs <;> rfl

namespace Perm

theorem identity_eq (n : Nat) : identity n = some (enc (1 : Equiv.Perm (Fin n))) := by
  obtain ⟨r, h, hl, hw, -⟩ := forUp_scatter (n := n) (lo := 0) (hi := n) (r0 := raw n) (by omega)
    (length_raw n) (body := fun i p => wr p i (i + 1)) (fun i => i.toNat) (fun i => i + 1)
    (by intro i h1 h2; omega) (by intro i j h1 h2 h3; omega)
    (by intro i r h1 h2 _; rw [Int.toNat_of_nonneg h1])
  unfold identity
  rw [h]
  congr 1
  refine eq_enc _ hl fun i => ?_
  have := hw (i : Nat) (by omega) (by have := i.2; omega)
  simpa using this

theorem bang_eq {n : Nat} (σ : Equiv.Perm (Fin n)) : bang (enc σ) = some (enc σ⁻¹) := by
  have hn : (enc σ).length = n := length_enc σ
  unfold bang
  rw [hn]
  let t : Int → Nat := fun i => if h : i.toNat < n then (σ ⟨i.toNat, h⟩ : Nat) else 0
  obtain ⟨r, h, hl, hw, -⟩ := forUp_scatter (n := n) (lo := 0) (hi := n) (r0 := raw n) (by omega)
    (length_raw n) (body := fun i r => do
      let v ← rd (enc σ) i
      wr r (v - 1) (i + 1)) t (fun i => i + 1)
    (by
      intro i h1 h2
      have : i.toNat < n := by omega
      simp [t, this])
    (by
      intro i j h1 h2 h3 he
      have hi : i.toNat < n := by omega
      have hj : j.toNat < n := by omega
      simp only [t, hi, hj, dif_pos] at he
      have := σ.injective (Fin.ext he)
      simp only [Fin.mk.injEq] at this
      omega)
    (by
      intro i r h1 h2 _
      have hi : i.toNat < n := by omega
      have e := rd_enc σ ⟨i.toNat, hi⟩
      simp only [Int.toNat_of_nonneg h1] at e
      simp [e, t, hi])
  rw [h]
  congr 1
  refine eq_enc _ hl fun i => ?_
  have h1 := hw ((σ⁻¹ i : Fin n) : Nat) (by omega) (by have := (σ⁻¹ i).2; omega)
  simp only [t, Int.toNat_natCast, Fin.is_lt, dif_pos, Fin.eta] at h1
  simpa using h1

theorem inverse_eq {n : Nat} (σ : Equiv.Perm (Fin n)) : inverse (enc σ) = some (enc σ⁻¹) := by
  have hn : (enc σ).length = n := length_enc σ
  unfold inverse
  rw [hn]
  let t : Int → Nat := fun i => if h : (i - 1).toNat < n then (σ ⟨(i - 1).toNat, h⟩ : Nat) else 0
  obtain ⟨r, h, hl, hw, -⟩ := forUp_scatter (n := n) (lo := 1) (hi := n + 1) (r0 := raw n) (by omega)
    (length_raw n) (body := fun i r => do
      let v ← rd (enc σ) (i - 1)
      wr r (v - 1) i) t (fun i => i)
    (by
      intro i h1 h2
      have : (i - 1).toNat < n := by omega
      simp only [t, this, dif_pos, Fin.is_lt])
    (by
      intro i j h1 h2 h3 he
      have hi : (i - 1).toNat < n := by omega
      have hj : (j - 1).toNat < n := by omega
      simp only [t, hi, hj, dif_pos] at he
      have := σ.injective (Fin.ext he)
      simp only [Fin.mk.injEq] at this
      omega)
    (by
      intro i r h1 h2 _
      have hi : (i - 1).toNat < n := by omega
      have e := rd_enc σ ⟨(i - 1).toNat, hi⟩
      have e2 : (((i - 1).toNat : Nat) : Int) = i - 1 := by omega
      rw [e2] at e
      rw [e]
      simp only [t, hi, dif_pos, Option.bind_eq_bind, Option.bind_some]
      congr 1
      ring)
  rw [h]
  congr 1
  refine eq_enc _ hl fun i => ?_
  have h1 := hw (((σ⁻¹ i : Fin n) : Nat) + 1) (by omega) (by have := (σ⁻¹ i).2; omega)
  have e : ((((σ⁻¹ i : Fin n) : Nat) : Int) + 1 - 1).toNat = ((σ⁻¹ i : Fin n) : Nat) := by omega
  simp only [t, e, Fin.is_lt, dif_pos, Fin.eta] at h1
  simpa using h1

theorem mul_eq {n : Nat} (σ τ : Equiv.Perm (Fin n)) : mul (enc σ) (enc τ) = some (enc (σ * τ)) := by
  have hn : (enc σ).length = n := length_enc σ
  unfold mul
  rw [hn]
  let f : Int → Int := fun i => if h : i.toNat < n then (σ (τ ⟨i.toNat, h⟩) : Nat) + 1 else 0
  obtain ⟨r, h, hl, hw, -⟩ := forUp_scatter (n := n) (lo := 0) (hi := n) (r0 := raw n) (by omega)
    (length_raw n) (body := fun i r => do
      let v ← app (enc τ) (i + 1)
      let w ← rd (enc σ) (v - 1)
      wr r i w) (fun i => i.toNat) f
    (by intro i h1 h2; omega) (by intro i j h1 h2 h3; omega)
    (by
      intro i r h1 h2 _
      have hi : i.toNat < n := by omega
      have e := rd_enc τ ⟨i.toNat, hi⟩
      simp only [Int.toNat_of_nonneg h1] at e
      have e2 := rd_enc σ (τ ⟨i.toNat, hi⟩)
      simp [app, e, e2, f, hi, Int.toNat_of_nonneg h1])
  rw [h]
  congr 1
  refine eq_enc _ hl fun i => ?_
  have := hw (i : Nat) (by omega) (by have := i.2; omega)
  simpa [f] using this

theorem mulAssign_eq {n : Nat} (σ τ : Equiv.Perm (Fin n)) :
    mulAssign (enc σ) (enc τ) = some (enc (τ * σ)) := by
  have hn : (enc σ).length = n := length_enc σ
  unfold mulAssign
  rw [hn]
  obtain ⟨r, h, hl, hw, -⟩ := forUp_inv (lo := 0) (hi := n) (s := enc σ)
    (body := fun i p => do
      let v ← rd p i
      let w ← app (enc τ) v
      wr p i w)
    (fun i r => r.length = n ∧
      (∀ k : Fin n, (k : Int) < i → r[(k : Nat)]? = some (some ((τ (σ k) : Int) + 1))) ∧
      (∀ k : Fin n, i ≤ (k : Int) → r[(k : Nat)]? = some (some ((σ k : Int) + 1)))) (by omega)
    ⟨by simp, by intro k hk; omega, fun k _ => enc_get σ k⟩
    (by
      rintro i r h1 h2 ⟨hl, hw, hk⟩
      obtain ⟨m, rfl⟩ := Int.eq_ofNat_of_zero_le h1
      have hm : m < n := by omega
      have e1 : rd r (m : Int) = some ((σ ⟨m, hm⟩ : Int) + 1) := by
        rw [rd_ofNat, hk ⟨m, hm⟩ (by simp)]; rfl
      have e2 := rd_enc τ (σ ⟨m, hm⟩)
      refine ⟨r.set m (some ((τ (σ ⟨m, hm⟩) : Int) + 1)), ?_, by simpa using hl, ?_, ?_⟩
      · simp [e1, app, e2, wr_ofNat _ _ _ (show m < r.length by omega)]
      · intro k hk2
        rw [List.getElem?_set]
        by_cases hkm : m = (k : Nat)
        · subst hkm; simp [hl]
        · rw [if_neg hkm]; exact hw k (by omega)
      · intro k hk2
        rw [List.getElem?_set, if_neg (by omega)]
        exact hk k (by omega))
  rw [h]
  congr 1
  refine eq_enc _ hl fun i => ?_
  have := hw i (by have := i.2; omega)
  simpa using this

theorem transposition_eq {n : Nat} (i j : Fin n) :
    transposition n ((i : Nat) + 1) ((j : Nat) + 1) = some (enc (Equiv.swap i j)) := by
  unfold transposition
  rw [identity_eq]
  have e1 : ((i : Nat) : Int) + 1 - 1 = (i : Nat) := by omega
  have e2 : ((j : Nat) : Int) + 1 - 1 = (j : Nat) := by omega
  simp only [Option.bind_eq_bind, Option.bind_some, e1, e2]
  rw [wr_ofNat _ _ _ (by simp), Option.bind_some, wr_ofNat _ _ _ (by simp)]
  congr 1
  refine eq_enc _ (by simp) fun k => ?_
  rw [List.getElem?_set, List.getElem?_set]
  by_cases hj : j = k
  · subst hj; simp
  · have hj' : (j : Nat) ≠ k := fun h => hj (Fin.ext h)
    by_cases hi : i = k
    · subst hi; simp [hj']
    · have hi' : (i : Nat) ≠ k := fun h => hi (Fin.ext h)
      rw [if_neg hj', if_neg hi', enc_get]
      simp [Equiv.swap_apply_of_ne_of_ne (Ne.symm hi) (Ne.symm hj)]

/-- The four loops of one branch of `contiguous_cycle`, for any middle values. -/
theorem cycle_core {n : Nat} (lo hi : Nat) (h1 : 1 ≤ lo) (_h2 : lo ≤ hi) (h3 : hi ≤ n)
    (off m : Int) (s e : Nat) (hs : lo ≤ s) (hse : s ≤ e) (he : e ≤ hi + 1) (last : Nat)
    (hl1 : lo ≤ last) (hl2 : last ≤ hi) (hlast : ∀ i, lo ≤ i → i ≤ hi → (i = last ↔ ¬ (s ≤ i ∧ i < e))) :
    ∃ r, ((do
      let p ← forUp 1 (lo : Int) (raw n) fun i p => wr p (i - 1) i
      let p ← forUp ((hi : Int) + 1) (n + 1) p fun i p => wr p (i - 1) i
      let p ← forUp (s : Int) (e : Int) p fun i p => wr p (i - 1) (i + off)
      wr p ((last : Int) - 1) m) : Option Arr) = some r ∧ r.length = n ∧
      ∀ i : Nat, i < n → r[i]? = some (some (if i + 1 < lo ∨ hi < i + 1 then (i : Int) + 1
        else if i + 1 = last then m else (i : Int) + 1 + off)) := by
  have key : ∀ (a b : Int) (o : Int) (r0 : Arr), 1 ≤ a → a ≤ b → b ≤ n + 1 → r0.length = n →
      ∃ r, forUp a b r0 (fun i p => wr p (i - 1) (i + o)) = some r ∧ r.length = n ∧
      ∀ i : Nat, i < n → r[i]? = if a ≤ (i : Int) + 1 ∧ (i : Int) + 1 < b then
        some (some ((i : Int) + 1 + o)) else r0[i]? := by
    intro a b o r0 ha hab hb hl
    obtain ⟨r, h, hl, hw, hk⟩ := forUp_scatter (n := n) (lo := a) (hi := b) (r0 := r0) hab hl
      (body := fun i p => wr p (i - 1) (i + o)) (fun i => (i - 1).toNat) (fun i => i + o)
      (by intro i h1 h2; omega) (by intro i j h1 h2 h3; omega)
      (by
        intro i r h1 h2 _
        have : (((i - 1).toNat : Nat) : Int) = i - 1 := by omega
        rw [this])
    refine ⟨r, h, hl, fun i hi => ?_⟩
    by_cases hc : a ≤ (i : Int) + 1 ∧ (i : Int) + 1 < b
    · rw [if_pos hc]
      have := hw ((i : Int) + 1) hc.1 hc.2
      simpa using this
    · rw [if_neg hc]
      exact hk i (fun k h1 h2 h3 => hc ⟨by omega, by omega⟩)
  have key0 : ∀ (a b : Int) (r0 : Arr), 1 ≤ a → a ≤ b → b ≤ n + 1 → r0.length = n →
      ∃ r, forUp a b r0 (fun i p => wr p (i - 1) i) = some r ∧ r.length = n ∧
      ∀ i : Nat, i < n → r[i]? = if a ≤ (i : Int) + 1 ∧ (i : Int) + 1 < b then
        some (some ((i : Int) + 1)) else r0[i]? := by
    intro a b r0 ha hab hb hl
    have := key a b 0 r0 ha hab hb hl
    simpa using this
  obtain ⟨r1, e1, l1, w1⟩ := key0 1 lo (raw n) (by omega) (by omega) (by omega) (length_raw n)
  obtain ⟨r2, e2, l2, w2⟩ := key0 ((hi : Int) + 1) (n + 1) r1 (by omega) (by omega) (by omega) l1
  obtain ⟨r3, e3, l3, w3⟩ := key s e off r2 (by omega) (by omega) (by omega) l2
  have e4 : (last : Int) - 1 = ((last - 1 : Nat) : Int) := by omega
  refine ⟨r3.set (last - 1) (some m), ?_, by simpa using l3, fun i hin => ?_⟩
  · simp only [Option.bind_eq_bind]
    rw [e1, Option.bind_some, e2, Option.bind_some, e3, Option.bind_some, e4, wr_ofNat _ _ _ (by omega)]
  · rw [List.getElem?_set]
    by_cases hb : last - 1 = i
    · have hc : ¬ (i + 1 < lo ∨ hi < i + 1) := by omega
      rw [if_pos hb, if_pos (by omega), if_neg hc, if_pos (by omega)]
    · rw [if_neg hb, w3 i hin, w2 i hin, w1 i hin]
      by_cases hc : i + 1 < lo ∨ hi < i + 1
      · rw [if_pos hc, if_neg (show ¬ ((s : Int) ≤ i + 1 ∧ (i : Int) + 1 < e) by omega)]
        rcases hc with hc | hc
        · rw [if_neg (by omega), if_pos (by omega)]
        · rw [if_pos (by omega)]
      · have := hlast (i + 1) (by omega) (by omega)
        rw [if_pos (show (s : Int) ≤ i + 1 ∧ (i : Int) + 1 < e by omega), if_neg hc,
          if_neg (show ¬ (i + 1 = last) by omega)]

theorem contiguousCycle_up {n : Nat} (a b : Fin n) (h : a ≤ b) :
    contiguousCycle n ((a : Nat) + 1) ((b : Nat) + 1) = some (enc (cyc a b)) := by
  have ha := a.2
  have hb := b.2
  have hab : (a : Nat) ≤ b := h
  rcases Nat.lt_or_eq_of_le hab with hlt | heq
  · obtain ⟨r, e, l, w⟩ := cycle_core (n := n) (a + 1) (b + 1) (by omega) (by omega) (by omega) 1
      ((a : Nat) + 1) (a + 1) (b + 1) (by omega) (by omega) (by omega) (b + 1) (by omega) (by omega)
      (by intro i h1 h2; omega)
    have hc : ((a : Nat) : Int) + 1 < (b : Nat) + 1 := by omega
    unfold contiguousCycle
    rw [if_pos hc]
    push_cast at e
    rw [e]
    congr 1
    refine eq_enc _ l fun i => ?_
    rw [w i i.2]
    congr 2
    simp only [cyc_apply _ _ h]
    split_ifs <;> omega
  · obtain ⟨r, e, l, w⟩ := cycle_core (n := n) (a + 1) (a + 1) (by omega) (by omega) (by omega) (-1)
      ((a : Nat) + 1) (a + 2) (a + 2) (by omega) (by omega) (by omega) (a + 1) (by omega) (by omega)
      (by intro i h1 h2; omega)
    unfold contiguousCycle
    rw [if_neg (by omega)]
    push_cast at e
    rw [← heq]
    have : ((a : Nat) : Int) + 1 + 1 = (a : Nat) + 2 := by ring
    simp only [this, Int.sub_eq_add_neg] at e ⊢
    rw [e]
    congr 1
    refine eq_enc _ l fun i => ?_
    rw [w i i.2]
    congr 2
    simp only [cyc_apply _ _ h]
    split_ifs <;> omega

theorem contiguousCycle_down {n : Nat} (a b : Fin n) (h : b ≤ a) :
    contiguousCycle n ((a : Nat) + 1) ((b : Nat) + 1) = some (enc (cyc b a)⁻¹) := by
  have ha := a.2
  have hb := b.2
  have hab : (b : Nat) ≤ a := h
  obtain ⟨r, e, l, w⟩ := cycle_core (n := n) (b + 1) (a + 1) (by omega) (by omega) (by omega) (-1)
    ((a : Nat) + 1) (b + 2) (a + 2) (by omega) (by omega) (by omega) (b + 1) (by omega) (by omega)
    (by intro i h1 h2; omega)
  unfold contiguousCycle
  rw [if_neg (by omega)]
  push_cast at e
  have e1 : ((b : Nat) : Int) + 1 + 1 = (b : Nat) + 2 := by ring
  have e2 : ((a : Nat) : Int) + 1 + 1 = (a : Nat) + 2 := by ring
  simp only [e1, e2, Int.sub_eq_add_neg] at e ⊢
  rw [e]
  congr 1
  refine eq_enc _ l fun i => ?_
  rw [w i i.2]
  congr 2
  simp only [cyc_inv_apply _ _ h]
  split_ifs <;> omega

end Perm

end Snob
