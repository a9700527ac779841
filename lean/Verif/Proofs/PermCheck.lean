import Mathlib.Data.Fintype.EquivFin
import Verif.Proofs.Perm

/-! # Equality and validity check of permutations -/

namespace Snob.Perm

open Snob

/-- A buffer of `n` initialised cells. -/
def full {n : Nat} (f : Fin n → Int) : Arr := List.ofFn fun i => some (f i)

theorem length_full {n : Nat} (f : Fin n → Int) : (full f).length = n := by simp [full]

theorem rd_full {n : Nat} (f : Fin n → Int) (i : Nat) (h : i < n) :
    rd (full f) (i : Int) = some (f ⟨i, h⟩) := by
  rw [rd_ofNat]; simp [full, h]

theorem full_injective {n : Nat} {f g : Fin n → Int} (h : full f = full g) : f = g := by
  funext i
  have := congrArg (fun a => rd a ((i : Nat) : Int)) h
  simpa [rd_full _ _ i.2] using this

theorem isPerm_full {n : Nat} (f : Fin n → Int) :
    IsPerm n (full f) ↔ (∀ i, 1 ≤ f i ∧ f i ≤ n) ∧ Function.Injective f := by
  constructor
  · rintro ⟨σ, h⟩
    have hf : f = fun i => ((σ i : Nat) : Int) + 1 := full_injective (g := fun i => ((σ i : Nat) : Int) + 1) h
    refine ⟨fun i => ?_, fun i j hij => ?_⟩
    · rw [hf]; have := (σ i).2; simp only; omega
    · simp only [hf] at hij
      exact σ.injective (Fin.ext (by omega))
  · rintro ⟨hr, hi⟩
    let g : Fin n → Fin n := fun i => ⟨(f i - 1).toNat, by have := hr i; omega⟩
    have hg : Function.Injective g := by
      intro i j hij
      have h1 := hr i
      have h2 := hr j
      simp only [g, Fin.mk.injEq] at hij
      exact hi (by omega)
    refine ⟨Equiv.ofBijective g ((Finite.injective_iff_bijective).1 hg), ?_⟩
    refine eq_enc _ (length_full f) fun i => ?_
    have h1 := hr i
    simp [full, g]
    omega

theorem eqb_full {n m : Nat} (f : Fin n → Int) (g : Fin m → Int) :
    ∃ b, eqb (full f) (full g) = some b ∧ (b = true ↔ full f = full g) := by
  unfold eqb
  rw [length_full, length_full]
  by_cases hnm : n = m
  · subst hnm
    simp only [ne_eq, not_true_eq_false, if_false, Option.bind_eq_bind]
    have := forUpE_inv (R := Bool) (lo := 0) (hi := n) (s := ())
      (body := fun i _ => (rd (full f) i).bind fun u => (rd (full g) i).bind fun v =>
        if ¬ u = v then some (.inl false) else some (.inr ()))
      (fun i _ => ∀ k : Fin n, (k : Int) < i → f k = g k) (fun r => r = false ∧ f ≠ g) (by omega)
      (by intro k hk; omega)
      (by
        intro i _ h1 h2 hp
        obtain ⟨m, rfl⟩ := Int.eq_ofNat_of_zero_le h1
        have hm : m < n := by omega
        rw [rd_full f m hm, rd_full g m hm]
        by_cases he : f ⟨m, hm⟩ = g ⟨m, hm⟩
        · right
          refine ⟨(), by simp [he], fun k hk => ?_⟩
          by_cases hkm : (k : Nat) = m
          · have : k = ⟨m, hm⟩ := Fin.ext hkm
            rw [this]; exact he
          · exact hp k (by omega)
        · left
          exact ⟨false, by simp [he], rfl, fun h => he (by rw [h])⟩)
    rcases this with ⟨r, h, hr, hne⟩ | ⟨s, h, hp⟩
    · refine ⟨false, by rw [h]; simp [hr], ?_⟩
      simp only [Bool.false_eq_true, false_iff]
      exact fun h => hne (full_injective h)
    · refine ⟨true, by rw [h]; simp, ?_⟩
      have : f = g := funext fun k => hp k (by have := k.2; omega)
      simp [this]
  · refine ⟨false, by simp [hnm], ?_⟩
    simp only [Bool.false_eq_true, false_iff]
    intro h
    apply hnm
    have := congrArg List.length h
    simpa [length_full] using this

theorem checkValid_full {n : Nat} (f : Fin n → Int) :
    ∃ b, checkValid (full f) = some b ∧ (b = true ↔ IsPerm n (full f)) := by
  unfold checkValid
  rw [isPerm_full]
  simp only [length_full, Option.bind_eq_bind]
  have := forUpE_inv (R := Bool) (lo := 0) (hi := n) (s := (List.replicate n (some (0 : Int))))
    (body := fun i a => (rd (full f) i).bind fun v =>
      if v < 1 ∨ v > n then some (.inl false)
      else (rd a (v - 1)).bind fun w => if w = 1 then some (.inl false)
        else (wr a (v - 1) 1).bind fun a => some (.inr a))
    (fun i a => a.length = n ∧ (∀ k : Fin n, (k : Int) < i → 1 ≤ f k ∧ f k ≤ n) ∧
      (∀ k l : Fin n, (k : Int) < i → (l : Int) < i → f k = f l → k = l) ∧
      (∀ j : Fin n, (∃ k : Fin n, (k : Int) < i ∧ f k = (j : Nat) + 1) → a[(j : Nat)]? = some (some 1)) ∧
      (∀ j : Fin n, (¬ ∃ k : Fin n, (k : Int) < i ∧ f k = (j : Nat) + 1) → a[(j : Nat)]? = some (some 0)))
    (fun r => r = false ∧ ¬ ((∀ i, 1 ≤ f i ∧ f i ≤ n) ∧ Function.Injective f)) (by omega)
    (by
      refine ⟨by simp, by intro k hk; omega, by intro k l hk; omega, ?_, ?_⟩
      · rintro j ⟨k, hk, _⟩; omega
      · intro j _; simp)
    (by
      rintro i a h1 h2 ⟨hl, hr, hi, hone, hzero⟩
      obtain ⟨m, rfl⟩ := Int.eq_ofNat_of_zero_le h1
      have hm : m < n := by omega
      rw [rd_full f m hm, Option.bind_some]
      by_cases hb : f ⟨m, hm⟩ < 1 ∨ f ⟨m, hm⟩ > n
      · left
        refine ⟨false, by rw [if_pos hb], rfl, ?_⟩
        rintro ⟨h, -⟩
        have := h ⟨m, hm⟩
        omega
      · rw [if_neg hb]
        obtain ⟨v, hv⟩ : ∃ v : Nat, f ⟨m, hm⟩ = (v : Int) + 1 := ⟨(f ⟨m, hm⟩ - 1).toNat, by omega⟩
        have hvn : v < n := by omega
        have e : f ⟨m, hm⟩ - 1 = (v : Int) := by omega
        rw [e, rd_ofNat]
        by_cases hex : ∃ k : Fin n, (k : Int) < m ∧ f k = v + 1
        · left
          have := hone ⟨v, hvn⟩ hex
          refine ⟨false, by simp [this], rfl, ?_⟩
          rintro ⟨-, hinj⟩
          obtain ⟨k, hk, hkv⟩ := hex
          have : k = ⟨m, hm⟩ := hinj (by rw [hkv, hv])
          subst this
          simp at hk
        · right
          have := hzero ⟨v, hvn⟩ hex
          refine ⟨a.set v (some 1), ?_, by simpa using hl, ?_, ?_, ?_, ?_⟩
          · simp [this, wr_ofNat _ _ _ (show v < a.length by omega)]
          · intro k hk
            by_cases hkm : (k : Nat) = m
            · have : k = ⟨m, hm⟩ := Fin.ext hkm
              rw [this]; omega
            · exact hr k (by omega)
          · intro k l hk hll hfe
            by_cases hkm : (k : Nat) = m <;> by_cases hlm : (l : Nat) = m
            · exact Fin.ext (by omega)
            · exfalso
              have : k = ⟨m, hm⟩ := Fin.ext hkm
              exact hex ⟨l, by omega, by rw [← hfe, this, hv]⟩
            · exfalso
              have : l = ⟨m, hm⟩ := Fin.ext hlm
              exact hex ⟨k, by omega, by rw [hfe, this, hv]⟩
            · exact hi k l (by omega) (by omega) hfe
          · rintro j ⟨k, hk, hkj⟩
            rw [List.getElem?_set]
            by_cases hvj : v = (j : Nat)
            · simp [hvj, hl]
            · rw [if_neg hvj]
              refine hone j ⟨k, ?_, hkj⟩
              by_cases hkm : (k : Nat) = m
              · exfalso
                have : k = ⟨m, hm⟩ := Fin.ext hkm
                rw [this, hv] at hkj
                omega
              · omega
          · intro j hj
            have hvj : v ≠ (j : Nat) := fun h => hj ⟨⟨m, hm⟩, by simp, by rw [hv, h]⟩
            rw [List.getElem?_set, if_neg hvj]
            exact hzero j (fun ⟨k, hk, hkj⟩ => hj ⟨k, by omega, hkj⟩))
  rcases this with ⟨r, h, hr, hne⟩ | ⟨s, h, -, hr, hi, -⟩
  · exact ⟨false, by rw [h]; simp [hr], by simpa using hne⟩
  · refine ⟨true, by rw [h]; simp, ?_⟩
    simp only [true_iff]
    exact ⟨fun i => hr i (by have := i.2; omega),
      fun k l hkl => hi k l (by have := k.2; omega) (by have := l.2; omega) hkl⟩

/-- Every list of integers, as a fully written buffer. -/
theorem full_get (x : List Int) : full (fun i : Fin x.length => x[i]) = x.map some := by
  apply List.ext_getElem
  · simp [full]
  · intro i h1 h2; simp [full]

end Snob.Perm
