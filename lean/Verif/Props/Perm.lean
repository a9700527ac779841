import Mathlib.Data.Fin.VecNotation
import Verif.Proofs.PermCheck

/-! # Properties C01 - C06 and C59: permutations -/

namespace Snob.Props

open Snob Snob.Perm

/-- **C01.** For valid permutations `a`, `b` of the same `n`, `a*b` is defined (no out of range access, no
uninitialised read), is a fully written valid permutation of `n`, and its value at every `i` is `a(b(i))`. -/
theorem C01_product_is_composition (n : Nat) (a b : Arr) (ha : IsPerm n a) (hb : IsPerm n b) :
    ∃ c, mul a b = some c ∧ IsPerm n c ∧
      ∀ i : Int, 1 ≤ i → i ≤ n → ∃ j k, app b i = some j ∧ app a j = some k ∧ app c i = some k := by
  obtain ⟨σ, rfl⟩ := ha
  obtain ⟨τ, rfl⟩ := hb
  refine ⟨_, mul_eq σ τ, ⟨_, rfl⟩, fun i h1 h2 => ?_⟩
  obtain ⟨m, rfl⟩ : ∃ m : Nat, i = (m : Int) + 1 := ⟨(i - 1).toNat, by omega⟩
  have hm : m < n := by omega
  have e : ((m : Int) + 1 - 1) = ((⟨m, hm⟩ : Fin n) : Nat) := by simp
  refine ⟨_, _, by rw [app, e]; exact rd_enc τ ⟨m, hm⟩, ?_, by rw [app, e]; exact rd_enc (σ * τ) ⟨m, hm⟩⟩
  have e2 : ((τ ⟨m, hm⟩ : Nat) : Int) + 1 - 1 = ((τ ⟨m, hm⟩ : Fin n) : Nat) := by simp
  rw [app, e2]
  exact rd_enc σ (τ ⟨m, hm⟩)

/-- [2,3,1] and [2,1,3] meet the hypotheses of C01, with product [3,2,1]. -/
example : ∃ a b c : Arr, IsPerm 3 a ∧ IsPerm 3 b ∧ a = [some 2, some 3, some 1] ∧ b = [some 2, some 1, some 3] ∧
    c = [some 3, some 2, some 1] ∧ mul a b = some c :=
  ⟨_, _, _, ⟨cyc 0 2, by decide⟩, ⟨Equiv.swap 0 1, by decide⟩, rfl, rfl, rfl, by decide⟩

/-- **C02.** Associativity, neutral element and inverses; `!p` and `inv()` agree. -/
theorem C02_group_laws (n : Nat) (a b c : Arr) (ha : IsPerm n a) (hb : IsPerm n b) (hc : IsPerm n c) :
    ((mul a b).bind (mul · c) = (mul b c).bind (mul a ·) ∧ ∃ d, (mul a b).bind (mul · c) = some d) ∧
    (∃ e, identity n = some e ∧ IsPerm n e ∧ mul e a = some a ∧ mul a e = some a ∧
      ∃ i, inverse a = some i ∧ bang a = some i ∧ IsPerm n i ∧ mul a i = some e ∧ mul i a = some e) := by
  obtain ⟨σ, rfl⟩ := ha
  obtain ⟨τ, rfl⟩ := hb
  obtain ⟨υ, rfl⟩ := hc
  refine ⟨⟨by simp [mul_eq, mul_assoc], _, by simp only [mul_eq, Option.bind_some]; rfl⟩,
    _, identity_eq n, ⟨1, rfl⟩, by rw [mul_eq, one_mul], by rw [mul_eq, mul_one], _, inverse_eq σ, bang_eq σ,
    ⟨_, rfl⟩, by rw [mul_eq, mul_inv_cancel], by rw [mul_eq, inv_mul_cancel]⟩

/-- A non-commuting triple in S3 meets the hypotheses of C02. -/
example : IsPerm 3 [some 2, some 3, some 1] ∧ IsPerm 3 [some 2, some 1, some 3] ∧ IsPerm 3 [some 3, some 2, some 1] :=
  ⟨⟨cyc 0 2, by decide⟩, ⟨Equiv.swap 0 1, by decide⟩, ⟨Equiv.swap 0 2, by decide⟩⟩

/-- **C03 (negation).** The claim "`a*=b` leaves in `a` the value of `a*b`" is false. -/
theorem C03_mul_assign_wrong_order :
    ¬ ∀ (n : Nat) (a b : Arr), IsPerm n a → IsPerm n b → mulAssign a b = mul a b := by
  intro h
  have := h 3 (enc (cyc 0 2)) (enc (Equiv.swap 0 1)) ⟨_, rfl⟩ ⟨_, rfl⟩
  rw [mulAssign_eq, mul_eq] at this
  exact absurd this (by decide)

/-- **C03 (partial).** What `a*=b` does: it leaves `b*a` in `a`; this is `a*b` exactly when the two commute. Missing
with respect to the full property: agreement with `a*b` for non-commuting pairs, which fails. -/
theorem C03_mul_assign_partial (n : Nat) (a b : Arr) (ha : IsPerm n a) (hb : IsPerm n b) :
    mulAssign a b = mul b a ∧ (mulAssign a b = mul a b ↔ mul a b = mul b a) ∧
      ∃ c, mulAssign a b = some c ∧ IsPerm n c := by
  obtain ⟨σ, rfl⟩ := ha
  obtain ⟨τ, rfl⟩ := hb
  rw [mulAssign_eq, mul_eq, mul_eq]
  exact ⟨rfl, eq_comm, _, rfl, _, rfl⟩

/-- **C03 (negation, aliased).** `a*=a` does not even leave a valid permutation: `[2 3 1]` becomes `[3 1 3]`, because
the updated cells are read again. -/
theorem C03_self_mul_assign_invalid :
    ∃ a, IsPerm 3 a ∧ mulAssignSelf a = some [some 3, some 1, some 3] ∧ ¬ IsPerm 3 [some 3, some 1, some 3] := by
  refine ⟨[some 2, some 3, some 1], ⟨cyc 0 2, by decide⟩, by decide, ?_⟩
  have h : (Snob.Perm.full (n := 3) ![3, 1, 3]) = [some 3, some 1, some 3] := by decide
  rw [← h, isPerm_full]
  rintro ⟨-, hinj⟩
  exact absurd (@hinj 0 2 (by decide)) (by decide)

/-- **C04.** For an arbitrary array of integers the validity check terminates without undefined behaviour and says
`true` exactly if the array is a permutation. -/
theorem C04_check_valid_decides (x : List Int) :
    ∃ b, checkValid (x.map some) = some b ∧ (b = true ↔ IsPerm x.length (x.map some)) := by
  rw [← full_get]
  exact checkValid_full _

/-- **C04**, specification side: being a permutation is being a rearrangement of `1..n`. -/
theorem C04_isPerm_iff (n : Nat) (a : Arr) :
    IsPerm n a ↔ ∃ x : List Int, a = x.map some ∧ x.length = n ∧ x.Nodup ∧ ∀ v ∈ x, 1 ≤ v ∧ v ≤ n := by
  constructor
  · rintro ⟨σ, rfl⟩
    refine ⟨List.ofFn fun i => ((σ i : Nat) : Int) + 1, ?_, by simp, ?_, ?_⟩
    · rw [enc, List.map_ofFn]; rfl
    · rw [List.nodup_ofFn]
      intro i j h
      exact σ.injective (Fin.ext (by simpa using h))
    · intro v hv
      obtain ⟨i, rfl⟩ := (List.mem_ofFn' _ _).1 hv
      have := (σ i).2
      show (1 : Int) ≤ ((σ i : Nat) : Int) + 1 ∧ ((σ i : Nat) : Int) + 1 ≤ n
      omega
  · rintro ⟨x, rfl, rfl, hnd, hr⟩
    rw [← full_get, isPerm_full]
    refine ⟨fun i => hr _ (List.getElem_mem _), fun i j h => ?_⟩
    exact Fin.ext ((List.Nodup.getElem_inj_iff hnd).1 h)

/-- **C04.** `set_value(i,j)` changes the value at `i` to `j` and no other value; it is in range exactly for `1≤i≤n`. -/
theorem C04_set_value (a : Arr) (i j : Int) :
    (1 ≤ i ∧ i ≤ a.length ↔ ∃ b, setValue a i j = some b) ∧
    ∀ b, setValue a i j = some b → b.length = a.length ∧ ∀ k, app b k = if k = i then some j else app a k := by
  unfold setValue wr
  constructor
  · constructor
    · rintro ⟨h1, h2⟩
      exact ⟨_, if_pos ⟨by omega, by omega⟩⟩
    · rintro ⟨b, hb⟩
      split_ifs at hb with h
      omega
  · intro b hb
    split_ifs at hb with h
    obtain rfl := Option.some.inj hb
    refine ⟨by simp, fun k => ?_⟩
    unfold app rd
    by_cases e : k = i
    · subst e
      rw [if_pos h.1, if_pos rfl, List.getElem?_set_self h.2]; rfl
    · rw [if_neg e]
      split_ifs with h3
      · rw [List.getElem?_set_ne (by omega)]
      · rfl

/-- **C04.** One `set_value` on a permutation leaves a permutation only if the value was there already. -/
theorem C04_set_value_valid (n : Nat) (a b : Arr) (i j : Int) (ha : IsPerm n a) (h : setValue a i j = some b) :
    IsPerm n b ↔ app a i = some j := by
  obtain ⟨h1, h2⟩ := C04_set_value a i j
  have hi := h1.2 ⟨b, h⟩
  obtain ⟨hl, hv⟩ := h2 b h
  constructor
  · intro hb
    by_contra hne
    obtain ⟨σ, rfl⟩ := ha
    obtain ⟨τ, rfl⟩ := hb
    have hlen : (enc σ).length = n := by simp [enc]
    have happ : ∀ (ρ : Equiv.Perm (Fin n)) (k : Fin n), app (enc ρ) ((k : Nat) + 1) = some (((ρ k : Nat) : Int) + 1) := by
      intro ρ k
      unfold app rd
      rw [if_pos (by omega), show ((k : Nat) + 1 - 1 : Int).toNat = k by omega]
      simp [enc]
    obtain ⟨i', rfl⟩ : ∃ i' : Fin n, i = ((i' : Nat) : Int) + 1 := ⟨⟨(i - 1).toNat, by omega⟩, by simp; omega⟩
    have hne' : ∀ k : Fin n, k ≠ i' → τ k = σ k := fun k hk => by
      have := hv ((k : Nat) + 1)
      rw [if_neg (by intro e; exact hk (Fin.ext (by omega))), happ, happ] at this
      exact Fin.ext (by simpa using this)
    have hτ : τ i' = σ i' := by
      by_contra hd
      have h3 : σ (σ.symm (τ i')) = τ i' := σ.apply_symm_apply _
      have h4 : σ.symm (τ i') ≠ i' := fun e => hd (by rw [e] at h3; exact h3.symm)
      rw [← hne' _ h4] at h3
      exact h4 (τ.injective h3)
    have := hv (((i' : Nat) : Int) + 1)
    rw [if_pos rfl, happ, hτ] at this
    exact hne (by rw [happ, this])
  · intro e
    have : b = a := by
      refine List.ext_getElem? fun k => ?_
      unfold setValue wr at h
      split_ifs at h with hh
      obtain rfl := Option.some.inj h
      by_cases hk : (i - 1).toNat = k
      · subst hk
        rw [List.getElem?_set_self hh.2]
        unfold app rd at e
        rw [if_pos hh.1, List.getElem?_eq_getElem hh.2] at e
        rw [List.getElem?_eq_getElem hh.2]
        rw [Option.join_some] at e
        rw [e]
      · rw [List.getElem?_set_ne hk]
    rw [this]; exact ha

example : setValue [some 2, some 3, some 1] 2 1 = some [some 2, some 1, some 1] ∧ setValue [some 2, some 3, some 1] 0 1 = none ∧
    setValue [some 2, some 3, some 1] 4 1 = none := by decide

/-- Both answers occur, also for out of range entries. -/
example : checkValid [some 2, some 3, some 1] = some true ∧ checkValid [some 2, some 7, some (-1)] = some false ∧
    checkValid [some 2, some 2, some 1] = some false := by decide

/-- **C05.** Transposition constructor: a valid permutation that exchanges `i` and `j` and fixes the rest. -/
theorem C05_transposition (n : Nat) (i j : Int) (hi : 1 ≤ i ∧ i ≤ n) (hj : 1 ≤ j ∧ j ≤ n) :
    ∃ t, transposition n i j = some t ∧ IsPerm n t ∧ app t i = some j ∧ app t j = some i ∧
      ∀ k : Int, 1 ≤ k → k ≤ n → k ≠ i → k ≠ j → app t k = some k := by
  obtain ⟨u, rfl⟩ : ∃ u : Nat, i = (u : Int) + 1 := ⟨(i - 1).toNat, by omega⟩
  obtain ⟨v, rfl⟩ : ∃ u : Nat, j = (u : Int) + 1 := ⟨(j - 1).toNat, by omega⟩
  have hu : u < n := by omega
  have hv : v < n := by omega
  have key : ∀ (σ : Equiv.Perm (Fin n)) (m : Nat) (hm : m < n),
      app (enc σ) ((m : Int) + 1) = some ((σ ⟨m, hm⟩ : Int) + 1) := by
    intro σ m hm
    have e : ((m : Int) + 1 - 1) = ((⟨m, hm⟩ : Fin n) : Nat) := by simp
    rw [app, e]; exact rd_enc σ ⟨m, hm⟩
  refine ⟨_, transposition_eq ⟨u, hu⟩ ⟨v, hv⟩, ⟨_, rfl⟩, ?_, ?_, ?_⟩
  · rw [key _ u hu]; simp
  · rw [key _ v hv]; simp
  · intro k h1 h2 h3 h4
    obtain ⟨m, rfl⟩ : ∃ u : Nat, k = (u : Int) + 1 := ⟨(k - 1).toNat, by omega⟩
    have hm : m < n := by omega
    rw [key _ m hm, Equiv.swap_apply_of_ne_of_ne]
    · simp only [ne_eq, Fin.mk.injEq]; omega
    · simp only [ne_eq, Fin.mk.injEq]; omega

/-- **C05.** Contiguous cycles: for `a ≤ b` the cycle `a → a+1 → ... → b → a`; with the arguments exchanged the
inverse of that; points outside `[a,b]` are fixed. -/
theorem C05_contiguous_cycle (n : Nat) (a b : Int) (ha : 1 ≤ a) (hab : a ≤ b) (hb : b ≤ n) :
    ∃ c d, contiguousCycle n a b = some c ∧ contiguousCycle n b a = some d ∧ IsPerm n c ∧ IsPerm n d ∧
      inverse c = some d ∧ inverse d = some c ∧ app c b = some a ∧
      (∀ i, a ≤ i → i < b → app c i = some (i + 1)) ∧
      (∀ i : Int, 1 ≤ i → i ≤ n → (i < a ∨ b < i) → app c i = some i ∧ app d i = some i) := by
  obtain ⟨u, rfl⟩ : ∃ u : Nat, a = (u : Int) + 1 := ⟨(a - 1).toNat, by omega⟩
  obtain ⟨v, rfl⟩ : ∃ u : Nat, b = (u : Int) + 1 := ⟨(b - 1).toNat, by omega⟩
  have hu : u < n := by omega
  have hv : v < n := by omega
  have huv : (⟨u, hu⟩ : Fin n) ≤ ⟨v, hv⟩ := by simp only [Fin.mk_le_mk]; omega
  have key : ∀ (σ : Equiv.Perm (Fin n)) (m : Nat) (hm : m < n),
      app (enc σ) ((m : Int) + 1) = some ((σ ⟨m, hm⟩ : Int) + 1) := by
    intro σ m hm
    have e : ((m : Int) + 1 - 1) = ((⟨m, hm⟩ : Fin n) : Nat) := by simp
    rw [app, e]; exact rd_enc σ ⟨m, hm⟩
  refine ⟨_, _, contiguousCycle_up ⟨u, hu⟩ ⟨v, hv⟩ huv, contiguousCycle_down ⟨v, hv⟩ ⟨u, hu⟩ huv, ⟨_, rfl⟩,
    ⟨_, rfl⟩, inverse_eq _, ?_, ?_, ?_, ?_⟩
  · rw [inverse_eq, inv_inv]
  · rw [key _ v hv, cyc_apply _ _ huv]
    have h3 : ¬ (v < u ∨ v < v) := by omega
    simp only [if_neg h3, if_true]
  · intro i h1 h2
    obtain ⟨m, rfl⟩ : ∃ u : Nat, i = (u : Int) + 1 := ⟨(i - 1).toNat, by omega⟩
    have hm : m < n := by omega
    rw [key _ m hm, cyc_apply _ _ huv]
    have h3 : ¬ (m < u ∨ v < m) := by omega
    have h4 : ¬ (m = v) := by omega
    simp [h3, h4]
  · intro i h1 h2 h3
    obtain ⟨m, rfl⟩ : ∃ u : Nat, i = (u : Int) + 1 := ⟨(i - 1).toNat, by omega⟩
    have hm : m < n := by omega
    rw [key _ m hm, cyc_apply _ _ huv, key _ m hm, cyc_inv_apply _ _ huv]
    have h4 : (m < u ∨ v < m) := by omega
    simp [h4]

example : contiguousCycle 5 2 4 = some [some 1, some 3, some 4, some 2, some 5] ∧
    contiguousCycle 5 4 2 = some [some 1, some 4, some 2, some 3, some 5] ∧
    transposition 4 1 3 = some [some 3, some 2, some 1, some 4] := by decide

/-- **C06.** `==` on initialised permutations (of possibly different sizes) holds exactly if they have the same size
and the same value at every point. -/
theorem C06_equality_extensional (x y : List Int) :
    ∃ b, eqb (x.map some) (y.map some) = some b ∧
      (b = true ↔ x.length = y.length ∧
        ∀ i : Int, 1 ≤ i → i ≤ x.length → app (x.map some) i = app (y.map some) i) := by
  have := eqb_full (fun i : Fin x.length => x[i]) (fun i : Fin y.length => y[i])
  rw [full_get, full_get] at this
  obtain ⟨b, h1, h2⟩ := this
  refine ⟨b, h1, h2.trans ⟨fun h => ⟨by simpa using congrArg List.length h, fun i _ _ => by rw [h]⟩, ?_⟩⟩
  rintro ⟨hl, hv⟩
  apply List.ext_getElem?
  intro i
  by_cases hi : i < x.length
  · have := hv ((i : Int) + 1) (by omega) (by omega)
    have e : (i : Int) + 1 - 1 = (i : Int) := by omega
    rw [app, app, e, rd_ofNat, rd_ofNat] at this
    have hy : i < y.length := by omega
    simpa [hi, hy] using this
  · rw [List.getElem?_eq_none (by simpa using hi), List.getElem?_eq_none (by simp; omega)]

example : eqb [some 1, some 2] [some 1, some 2, some 3] = some false ∧
    eqb [some 2, some 1] [some 2, some 1] = some true ∧ eqb [some 2, some 1] [some 1, some 2] = some false := by decide

/-- **C59 (negation).** "Assigning a permutation to itself leaves it a valid permutation" is false: the buffer is
replaced by an uninitialised one before it is copied. -/
theorem C59_self_assignment_loses_value :
    ¬ ∀ (h : Nat → Arr) (l n : Nat), IsPerm n (h l) → assign h l l l = h l := by
  intro H
  have := H (fun _ => enc (1 : Equiv.Perm (Fin 1))) 0 1 ⟨_, rfl⟩
  exact absurd this (by decide)

/-- **C59 (partial).** Assignment between different objects copies the value and changes nothing else. Missing: the
case of self assignment, which fails for every `n ≥ 1`. -/
theorem C59_assignment_copies_partial (h : Nat → Arr) (d s : Nat) (hds : d ≠ s) :
    assign h d s d = h s ∧ ∀ l, l ≠ d → assign h d s l = h l := by
  constructor
  · simp [assign, Ne.symm hds]
  · intro l hl; simp [assign, hl]

end Snob.Props
