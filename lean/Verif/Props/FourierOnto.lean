import Mathlib.LinearAlgebra.Matrix.NonsingularInverse
import Verif.Props.FourierOnGroup

/-!
C125: transforms on cyclic and dihedral groups the other way round, their inner products and their products.
-/

namespace Snob

variable {E : Type}

/-- A list of parts of the shapes that a transform has. -/
def PartsOf (P : Irreps E) (F : List CTensor) : Prop :=
  F.length = P.count.toNat ∧ ∀ (i : Nat) (T : CTensor), F[i]? = some T → T.dims = [P.dim i, P.dim i] ∧ T.data.length = P.dim i * P.dim i

/-- Every list of parts is the transform of the function it goes back to. -/
def Onto (P : Irreps E) (N : Nat) : Prop :=
  ∀ F, PartsOf P F → ∃ f, Written N f ∧ iFourier P N F = some f ∧ fourier P N f = some F

/-- The inner product of two functions is the sum of the inner products of the parts of their transforms, weighted with the dimensions over the
order of the group. -/
def KeepsInner (P : Irreps E) (N : Nat) : Prop :=
  ∀ u v : Fin N → ℂ, ∃ F G : List CTensor, fourier P N (List.ofFn fun k => some (u k)) = some F ∧
    fourier P N (List.ofFn fun k => some (v k)) = some G ∧ F.length = P.count.toNat ∧ G.length = P.count.toNat ∧
    ∃ x : Nat → ℂ, (∀ i < P.count.toNat, ∃ A B, F[i]? = some A ∧ G[i]? = some B ∧ A.inp B = some (x i)) ∧
      ∑ i ∈ Finset.range P.count.toNat, x i * ((P.dim i : ℂ) / N) = ∑ k, u k * (starRingEnd ℂ) (v k)

/-- The parts of the transform of the convolution are the products of the parts. -/
def Multiplies {G : Type} [Group G] [Fintype G] {I : GroupI E} (e : Fin I.size ≃ G) (P : Irreps E) : Prop :=
  ∀ f g : G → ℂ, ∃ F G H : List CTensor, fourier P I.size (cellsOf e f) = some F ∧ fourier P I.size (cellsOf e g) = some G ∧
    fourier P I.size (cellsOf e fun x => ∑ y, f (x * y⁻¹) * g y) = some H ∧ H.length = P.count.toNat ∧
    ∀ i < P.count.toNat, ∃ A B C, F[i]? = some A ∧ G[i]? = some B ∧ H[i]? = some C ∧ A.mprod B = some C

end Snob

namespace Snob.FG

open Snob Finset

variable {E : Type}

/-- The squares of the dimensions add up to the order of the group. -/
def Full (P : Irreps E) (N : Nat) : Prop := ∑ i ∈ range P.count.toNat, P.dim i * P.dim i = N

/-- The other kernel. -/
theorem kernel_back {P : Irreps E} {N : Nat} (hK : Kernel P N) (hS : Full P N) :
    ∀ i < P.count.toNat, ∀ a < P.dim i * P.dim i, ∀ i' < P.count.toNat, ∀ b < P.dim i' * P.dim i',
      ∑ k ∈ range N, ent (P.at' i k) a * ((starRingEnd ℂ) (ent (P.at' i' k) b) * ((P.dim i' : ℂ) / N)) =
        if i = i' ∧ a = b then 1 else 0 := by
  classical
  let J := Σ i : Fin P.count.toNat, Fin (P.dim i * P.dim i)
  let A : Matrix J (Fin N) ℂ := fun x k => ent (P.at' (x.1 : Nat) (k : Nat)) x.2
  let B : Matrix (Fin N) J ℂ := fun k x => (starRingEnd ℂ) (ent (P.at' (x.1 : Nat) (k : Nat)) x.2) * ((P.dim (x.1 : Nat) : ℂ) / N)
  have hBA : B * A = 1 := by
    ext j k
    rw [Matrix.mul_apply, Fintype.sum_sigma, Matrix.one_apply]
    have := hK j j.2 k k.2
    simp only [Fin.ext_iff]
    rw [← this, Finset.sum_range]
    refine sum_congr rfl fun i _ => ?_
    rw [Finset.sum_range, sum_mul]
    refine sum_congr rfl fun a _ => ?_
    simp only [A, B]
    ring
  have hcard : Fintype.card J = Fintype.card (Fin N) := by
    rw [Fintype.card_sigma, Fintype.card_fin, ← hS, Finset.sum_range]
    simp
  have hAB : A * B = 1 := (Matrix.mul_eq_one_comm_of_card_eq (m := J) (Fin N) ℂ hcard).2 hBA
  intro i hi a ha i' hi' b hb
  have h1 := congrFun (congrFun hAB ⟨⟨i, hi⟩, ⟨a, ha⟩⟩) ⟨⟨i', hi'⟩, ⟨b, hb⟩⟩
  rw [Matrix.mul_apply, Matrix.one_apply] at h1
  rw [Finset.sum_range]
  refine h1.trans ?_
  by_cases h : i = i' ∧ a = b
  · obtain ⟨rfl, rfl⟩ := h
    simp
  · rw [if_neg h, if_neg]
    intro hh
    apply h
    simp only [Sigma.mk.injEq, Fin.mk.injEq] at hh
    obtain ⟨rfl, h2⟩ := hh
    simpa using h2

theorem onto {P : Irreps E} {N : Nat} (hP : Sized P N) (hK : Kernel P N) (hS : Full P N) : Onto P N := by
  intro F hF
  let Q : Nat → Nat → ℂ := fun i e => ((F[i]?).map fun T => ent T e).getD 0
  have hQ : ∀ (i : Nat) (T : CTensor), F[i]? = some T → T.data = (List.range (P.dim i * P.dim i)).map (Q i) := by
    intro i T hT
    have h2 := (hF.2 i T hT).2
    refine List.ext_getElem (by simp [h2]) fun e h1 _ => ?_
    simp [Q, hT, ent, h1]
  have hi := iFourier_eq hP F Q (fun i hi => by
    have h1 : i < F.length := by rw [hF.1]; exact hi
    exact ⟨F[i], List.getElem?_eq_getElem h1, hQ i _ (List.getElem?_eq_getElem h1)⟩)
  refine ⟨_, ⟨by simp, fun c hc => ?_⟩, hi, ?_⟩
  · obtain ⟨k, -, rfl⟩ := List.mem_map.1 hc
    rfl
  · rw [fourier_eq hP (F := fun k => ∑ i ∈ range P.count.toNat, term P N Q i k) (fun j hj => by
      rw [rdC_ofNat]
      simp [hj])]
    congr 1
    refine List.ext_getElem (by simp [parts, hF.1]) fun i h1 h2 => ?_
    have hic : i < P.count.toNat := by rw [← hF.1]; exact h2
    have hT : F[i]? = some F[i] := List.getElem?_eq_getElem h2
    simp only [parts, List.getElem_map, List.getElem_range]
    have h3 := (hF.2 i _ hT).1
    have h4 := hQ i _ hT
    have : F[i] = ⟨[P.dim i, P.dim i], (List.range (P.dim i * P.dim i)).map (Q i)⟩ := by
      cases hFi : F[i] with
      | mk ds da =>
        rw [hFi] at h3 h4
        simp only at h3 h4
        rw [h3, h4]
    rw [this]
    congr 1
    refine List.map_congr_left fun a ha => ?_
    have ha' := List.mem_range.1 ha
    unfold coef
    have e1 : ∀ k ∈ range N, ent (P.at' i k) a * ∑ i' ∈ range P.count.toNat, term P N Q i' k =
        ∑ i' ∈ range P.count.toNat, ∑ b ∈ range (P.dim i' * P.dim i'), Q i' b *
          (ent (P.at' i k) a * ((starRingEnd ℂ) (ent (P.at' i' k) b) * ((P.dim i' : ℂ) / N))) := by
      intro k _
      rw [mul_sum]
      refine sum_congr rfl fun i' _ => ?_
      rw [term, sum_mul, mul_sum]
      refine sum_congr rfl fun b _ => by ring
    rw [sum_congr rfl e1, sum_comm]
    have e2 : ∀ i' ∈ range P.count.toNat, ∑ k ∈ range N, ∑ b ∈ range (P.dim i' * P.dim i'), Q i' b *
          (ent (P.at' i k) a * ((starRingEnd ℂ) (ent (P.at' i' k) b) * ((P.dim i' : ℂ) / N))) = if i = i' then Q i a else 0 := by
      intro i' hi'
      rw [sum_comm]
      have e3 : ∀ b ∈ range (P.dim i' * P.dim i'), ∑ k ∈ range N, Q i' b *
          (ent (P.at' i k) a * ((starRingEnd ℂ) (ent (P.at' i' k) b) * ((P.dim i' : ℂ) / N))) = if i = i' ∧ a = b then Q i' b else 0 := by
        intro b hb
        rw [← mul_sum, kernel_back hK hS i hic a ha' i' (mem_range.1 hi') b (mem_range.1 hb)]
        split_ifs <;> simp
      rw [sum_congr rfl e3]
      by_cases h : i = i'
      · subst h
        simp only [true_and, if_true]
        rw [sum_ite_eq, if_pos (mem_range.2 ha')]
      · simp [h]
    rw [sum_congr rfl e2, sum_ite_eq, if_pos (mem_range.2 hic)]

theorem keepsInner {P : Irreps E} {N : Nat} (hP : Sized P N) (hK : Kernel P N) : KeepsInner P N := by
  intro u v
  let U : (Fin N → ℂ) → Nat → ℂ := fun u k => if h : k < N then u ⟨k, h⟩ else 0
  have hrd : ∀ u : Fin N → ℂ, ∀ j < N, rdC (List.ofFn fun k => some (u k)) (j : Int) = some (U u j) := by
    intro u j hj
    rw [rdC_ofNat]
    simp [U, hj]
  have hat : ∀ u : Fin N → ℂ, ∀ i < P.count.toNat, (parts P N (U u))[i]? =
      some ⟨[P.dim i, P.dim i], (List.range (P.dim i * P.dim i)).map (coef P N (U u) i)⟩ := by
    intro u i hi
    simp [parts, hi]
  refine ⟨_, _, fourier_eq hP (hrd u), fourier_eq hP (hrd v), by simp [parts], by simp [parts],
    fun i => ∑ e ∈ range (P.dim i * P.dim i), coef P N (U u) i e * (starRingEnd ℂ) (coef P N (U v) i e),
    fun i hi => ⟨_, _, hat u i hi, hat v i hi, ?_⟩, ?_⟩
  · unfold CTensor.inp
    rw [if_pos (by simp)]
    congr 1
    simp only
    rw [← sum_range_list]
    congr 1
    refine List.ext_getElem (by simp) fun e h1 h2 => by simp
  · have e1 : ∀ i ∈ range P.count.toNat, (∑ e ∈ range (P.dim i * P.dim i), coef P N (U u) i e * (starRingEnd ℂ) (coef P N (U v) i e)) *
        ((P.dim i : ℂ) / N) = ∑ k ∈ range N, ∑ j ∈ range N, U u k * (starRingEnd ℂ) (U v j) *
          ((∑ e ∈ range (P.dim i * P.dim i), ent (P.at' i k) e * (starRingEnd ℂ) (ent (P.at' i j) e)) * ((P.dim i : ℂ) / N)) := by
      intro i _
      simp only [coef, map_sum, map_mul, sum_mul, mul_sum]
      rw [sum_comm]
      refine Eq.trans ?_ sum_comm
      refine sum_congr rfl fun j _ => ?_
      rw [sum_comm]
      refine sum_congr rfl fun k _ => sum_congr rfl fun e _ => by ring
    rw [sum_congr rfl e1, sum_comm]
    have e2 : ∀ k ∈ range N, ∑ i ∈ range P.count.toNat, ∑ j ∈ range N, U u k * (starRingEnd ℂ) (U v j) *
          ((∑ e ∈ range (P.dim i * P.dim i), ent (P.at' i k) e * (starRingEnd ℂ) (ent (P.at' i j) e)) * ((P.dim i : ℂ) / N)) =
        U u k * (starRingEnd ℂ) (U v k) := by
      intro k hk
      rw [sum_comm]
      have e3 : ∀ j ∈ range N, ∑ i ∈ range P.count.toNat, U u k * (starRingEnd ℂ) (U v j) *
          ((∑ e ∈ range (P.dim i * P.dim i), ent (P.at' i k) e * (starRingEnd ℂ) (ent (P.at' i j) e)) * ((P.dim i : ℂ) / N)) =
          if k = j then U u k * (starRingEnd ℂ) (U v j) else 0 := by
        intro j hj
        rw [← mul_sum, hK j (mem_range.1 hj) k (mem_range.1 hk)]
        by_cases h : j = k
        · rw [if_pos h, if_pos h.symm, mul_one]
        · rw [if_neg h, if_neg (Ne.symm h), mul_zero]
      rw [sum_congr rfl e3, sum_ite_eq, if_pos hk]
    rw [sum_congr rfl e2, Finset.sum_range]
    refine sum_congr rfl fun k _ => by simp [U]

variable {G : Type} [Group G] {I : GroupI E} {e : Fin I.size ≃ G} {rep : G → E}

theorem hat_convolve [Fintype G] {P : Irreps E} (h : RepsOf I e rep P) (f g : G → ℂ) {i : Nat} (hi : i < P.count.toNat)
    {a b : Nat} (ha : a < P.dim i) (hb : b < P.dim i) :
    hat rep P (fun x => ∑ y, f (x * y⁻¹) * g y) i (a * P.dim i + b) =
      ∑ r ∈ range (P.dim i), hat rep P f i (a * P.dim i + r) * hat rep P g i (r * P.dim i + b) := by
  unfold hat
  have e1 : ∀ x, ent (P.elem i (rep x)) (a * P.dim i + b) * ∑ y, f (x * y⁻¹) * g y =
      ∑ y, ent (P.elem i (rep x)) (a * P.dim i + b) * (f (x * y⁻¹) * g y) := fun x => mul_sum _ _ _
  rw [sum_congr rfl fun x _ => e1 x, sum_comm]
  have e2 : ∀ y, ∑ x, ent (P.elem i (rep x)) (a * P.dim i + b) * (f (x * y⁻¹) * g y) =
      ∑ z, ∑ r ∈ range (P.dim i), ent (P.elem i (rep z)) (a * P.dim i + r) * f z * (ent (P.elem i (rep y)) (r * P.dim i + b) * g y) := by
    intro y
    rw [← Equiv.sum_comp (Equiv.mulRight y)]
    refine sum_congr rfl fun z _ => ?_
    simp only [Equiv.coe_mulRight, mul_inv_cancel_right]
    rw [h.hom i hi z y a ha b hb, sum_mul]
    refine sum_congr rfl fun r _ => by ring
  rw [sum_congr rfl fun y _ => e2 y]
  simp only [sum_mul, mul_sum]
  rw [eq_comm, sum_comm]
  refine sum_congr rfl fun y _ => sum_comm

theorem multiplies [Fintype G] {P : Irreps E} (h : RepsOf I e rep P) : Multiplies e P := by
  intro f g
  refine ⟨_, _, _, fourier_hat h f, fourier_hat h g, fourier_hat h _, by simp, fun i hi => ?_⟩
  have hat : ∀ f : G → ℂ, ((List.range P.count.toNat).map fun (i : Nat) =>
      (⟨[P.dim i, P.dim i], (List.range (P.dim i * P.dim i)).map (hat rep P f i)⟩ : CTensor))[i]? =
      some ⟨[P.dim i, P.dim i], (List.range (P.dim i * P.dim i)).map (hat rep P f i)⟩ := by
    intro f
    simp [hi]
  refine ⟨_, _, _, hat f, hat g, hat _, ?_⟩
  have hent : ∀ (f : G → ℂ) (k : Nat), k < P.dim i * P.dim i →
      ent ⟨[P.dim i, P.dim i], (List.range (P.dim i * P.dim i)).map (FG.hat rep P f i)⟩ k = FG.hat rep P f i k := by
    intro f k hk
    simp [ent, hk]
  have hlt : ∀ a < P.dim i, ∀ b < P.dim i, a * P.dim i + b < P.dim i * P.dim i := by
    intro a ha b hb
    calc a * P.dim i + b < a * P.dim i + P.dim i := by omega
      _ = (a + 1) * P.dim i := by ring
      _ ≤ P.dim i * P.dim i := Nat.mul_le_mul_right _ ha
  have hd := h.pos i hi
  simp only [CTensor.mprod, List.getLast?_cons_cons, List.getLast?_singleton, List.head?_cons, Option.bind_eq_bind, Option.bind_some, if_true,
    List.dropLast_cons_cons, List.dropLast_singleton, List.tail_cons, List.prod_cons, List.prod_nil, mul_one, List.cons_append, List.nil_append]
  congr 2
  refine List.map_congr_left fun k hk => ?_
  have hk' := List.mem_range.1 hk
  have ha : k / P.dim i < P.dim i := Nat.div_lt_of_lt_mul hk'
  have hb : k % P.dim i < P.dim i := Nat.mod_lt _ (by omega)
  rw [sum_range_list]
  have hc := hat_convolve h f g hi ha hb
  rw [Nat.div_add_mod'] at hc
  rw [hc]
  refine sum_congr rfl fun r hr => ?_
  have hr' := mem_range.1 hr
  have h1 := hent f _ (hlt _ ha r hr')
  have h2 := hent g _ (hlt r hr' _ hb)
  unfold ent at h1 h2
  rw [h1, h2]

end Snob.FG

namespace Snob.Props

open Snob FG Finset

theorem cyclic_full (n : Nat) : Full (cyclicReps n) n := by
  simp [Full, cyclicReps, cyclicIrreps]

theorem dih_full {n : Nat} (hn : n % 2 = 1) : Full (dihReps n) (2 * n) := by
  obtain ⟨m, rfl⟩ : ∃ m, n = 2 * m + 1 := ⟨n / 2, by omega⟩
  have hc : (dihReps (2 * m + 1)).count.toNat = m + 2 := by rw [dih_count hn]; omega
  have hd : ∀ i : Nat, (dihReps (2 * m + 1)).dim i = if i < 2 then 1 else 2 := by
    intro i
    show dihDim _ _ = _
    have h1 : Int.tmod ((2 * m + 1 : Nat) : Int) 2 ≠ 0 := by rw [Int.tmod_eq_emod_of_nonneg (by omega)]; omega
    unfold dihDim
    rw [if_neg h1]
    split_ifs <;> omega
  unfold Full
  rw [hc, sum_range_succ', sum_range_succ']
  simp only [hd]
  simp
  ring

/-- **C125.** Full statement: on every group class of the library, every list of parts of the right shapes is the transform of the function
it goes back to. This is false (`C125_onto_fails`). What holds: it is true of the cyclic groups, and of the dihedral groups with an odd number of
rotations. -/
theorem C125_onto_partial (n : Nat) (hn : 1 ≤ n) :
    Onto (cyclicReps n) (cyclicGroup n).size ∧ (n % 2 = 1 → Onto (dihReps n) (dihedralGroup n).size) := by
  have : NeZero n := ⟨by omega⟩
  exact ⟨onto (cyclic_repsOf n).sized (cyclic_kernel n hn) (cyclic_full n),
    fun h => onto (dih_repsOf n h).sized (dih_kernel n h) (dih_full h)⟩

/-- **C125.** Full statement: on every group class of the library, the transform keeps inner products. What holds: it is true of the cyclic groups, and
of the dihedral groups with an odd number of rotations. -/
theorem C125_plancherel_partial (n : Nat) (hn : 1 ≤ n) :
    KeepsInner (cyclicReps n) (cyclicGroup n).size ∧ (n % 2 = 1 → KeepsInner (dihReps n) (dihedralGroup n).size) := by
  have : NeZero n := ⟨by omega⟩
  exact ⟨keepsInner (cyclic_repsOf n).sized (cyclic_kernel n hn), fun h => keepsInner (dih_repsOf n h).sized (dih_kernel n h)⟩

/-- **C125.** Full statement: on every group class of the library, the transform of a convolution is the product of the transforms. What holds: it is
true of the cyclic groups, and of the dihedral groups with an odd number of rotations. -/
theorem C125_convolution_partial (n : Nat) [NeZero n] :
    Multiplies (cycEquiv n) (cyclicReps n) ∧ (n % 2 = 1 → Multiplies (dihEquiv n) (dihReps n)) :=
  ⟨multiplies (cyclic_repsOf n), fun h => multiplies (dih_repsOf n h)⟩

/-- parts filled with ones -/
noncomputable def onesParts {E : Type} (P : Irreps E) : List CTensor :=
  (List.range P.count.toNat).map fun (i : Nat) => ⟨[P.dim i, P.dim i], List.replicate (P.dim i * P.dim i) 1⟩

theorem onesParts_partsOf {E : Type} (P : Irreps E) : PartsOf P (onesParts P) := by
  refine ⟨by simp [onesParts], fun i T hT => ?_⟩
  simp only [onesParts, List.getElem?_map, Option.map_eq_some_iff] at hT
  obtain ⟨j, hj, rfl⟩ := hT
  obtain ⟨h1, h2⟩ := List.getElem?_eq_some_iff.1 hj
  rw [List.getElem_range] at h2
  subst h2
  simp

/-- **C125 (negation).** On the dihedral groups with an even number of rotations no list of parts is the transform of a function, and inner products
have no counterpart; on the product of two cyclic groups parts with a nonzero entry are not transforms, and inner products are not kept. -/
theorem C125_onto_fails :
    (∀ n, 1 ≤ n → n % 2 = 0 → ¬ Onto (dihReps n) (dihedralGroup n).size ∧ ¬ KeepsInner (dihReps n) (dihedralGroup n).size) ∧
    ∀ m n, 1 ≤ m → 1 ≤ n → ¬ Onto (productReps (cyclicReps m) (cyclicReps n)) (m * n) ∧
      ¬ KeepsInner (productReps (cyclicReps m) (cyclicReps n)) (m * n) := by
  refine ⟨fun n hn h2 => ⟨fun h => ?_, fun h => ?_⟩, fun m n hm hn => ?_⟩
  · obtain ⟨f, -, -, h3⟩ := h _ (onesParts_partsOf _)
    rw [(C92_dihedral_even_fails n hn h2 f).1] at h3
    cases h3
  · obtain ⟨F, G, h3, -⟩ := h 0 0
    rw [(C92_dihedral_even_fails n hn h2 _).1] at h3
    cases h3
  · set P := productReps (cyclicReps m) (cyclicReps n) with hPd
    have hmn : 1 ≤ m * n := Nat.mul_pos hm hn
    have hP : Sized P (m * n) := fun i hi j hj => by simp [hPd, productReps, productIrrepAt]
    have hz : ∀ i j e, ent (P.at' i j) e = 0 := by
      intro i j e
      simp only [hPd, ent, productReps, productIrrepAt, List.getD_eq_getElem?_getD, List.getElem?_replicate]
      split_ifs <;> rfl
    have hc : ∀ F : Nat → ℂ, ∀ i e, coef P (m * n) F i e = 0 := by
      intro F i e
      simp [coef, hz]
    have hcount : P.count.toNat = m * n := by
      show ((m : Int) * n).toNat = _
      omega
    have hdim : ∀ i, P.dim i = 1 := fun i => rfl
    constructor
    · intro h
      obtain ⟨f, hf, -, h3⟩ := h _ (onesParts_partsOf _)
      rw [fourier_eq hP (F := fun k => (f.getD k none).getD 0) (fun j hj => by
        have hj' : j < f.length := by rw [hf.1]; exact hj
        obtain ⟨v, hv⟩ := Option.isSome_iff_exists.1 (hf.2 f[j] (List.getElem_mem hj'))
        rw [rdC_ofNat]
        simp [hj', hv])] at h3
      have h4 := congrArg (fun l : List CTensor => l[0]?.map fun T => ent T 0) (Option.some.inj h3)
      have h0 : 0 < P.count.toNat := by omega
      simp [parts, onesParts, h0, hdim, ent, hc] at h4
    · intro h
      obtain ⟨F, G, h1, h2, -, -, x, hx, hs⟩ := h (fun _ => 1) (fun _ => 1)
      have hx0 : ∀ i ∈ range P.count.toNat, x i * ((P.dim i : ℂ) / (m * n : Nat)) = 0 := by
        intro i hi
        obtain ⟨A, B, hA, hB, hAB⟩ := hx i (mem_range.1 hi)
        rw [fourier_eq hP (F := fun _ => 1) (fun j hj => by rw [rdC_ofNat]; simp [hj])] at h1 h2
        cases h1
        cases h2
        have hi' := mem_range.1 hi
        simp only [parts, List.getElem?_map, List.getElem?_range hi', Option.map_some, Option.some.injEq] at hA hB
        subst hA hB
        simp [CTensor.inp, hdim, hc] at hAB
        rw [← hAB, zero_mul]
      rw [sum_eq_zero hx0] at hs
      simp at hs
      omega

/-- The transforms on the group of order 3, on the symmetries of a square and on those of a pentagon. -/
example : (∃ f, Written 3 f ∧ fourier (cyclicReps 3) 3 f = some [⟨[1, 1], [1]⟩, ⟨[1, 1], [2]⟩, ⟨[1, 1], [Complex.I]⟩]) ∧ Onto (cyclicReps 3) 3 ∧ ¬ Onto (dihReps 4) 8 ∧ KeepsInner (dihReps 5) 10 :=
  ⟨by
    obtain ⟨f, h1, -, h2⟩ := (C125_onto_partial 3 (by decide)).1 [⟨[1, 1], [1]⟩, ⟨[1, 1], [2]⟩, ⟨[1, 1], [Complex.I]⟩]
      ⟨rfl, fun i T hT => by
        have hi : i < 3 := (List.getElem?_eq_some_iff.1 hT).1
        interval_cases i <;> simp at hT <;> subst hT <;> exact ⟨rfl, rfl⟩⟩
    exact ⟨f, h1, h2⟩, (C125_onto_partial 3 (by decide)).1, (C125_onto_fails.1 4 (by decide) rfl).1, (C125_plancherel_partial 5 (by decide)).2 rfl⟩

end Snob.Props
