import Verif.Spec.FourierOnGroup
import Verif.Props.Groups

/-! Proofs about Fourier transforms on groups. -/

namespace Snob.FG

open Snob Finset

variable {E : Type}

theorem forUp_seq {S : Type} (N : Nat) (g : Nat → S) (body : Int → S → Option S)
    (h : ∀ i < N, body (i : Int) (g i) = some (g (i + 1))) : forUp 0 N (g 0) body = some (g N) := by
  obtain ⟨s, h1, h2⟩ := forUp_inv (fun i s => s = g i.toNat) (lo := 0) (hi := N) (s := g 0) (body := body) (by omega) rfl
    (fun i s h0 h1 hs => by
      obtain ⟨k, rfl⟩ := Int.eq_ofNat_of_zero_le h0
      refine ⟨g (k + 1), ?_, by rfl⟩
      rw [hs]
      exact h k (by omega))
  rw [h1, h2]
  simp

/-- an entry of a tensor -/
noncomputable def ent (T : CTensor) (e : Nat) : ℂ := T.data.getD e 0

/-- the entries of the transform -/
noncomputable def coef (P : Irreps E) (N : Nat) (F : Nat → ℂ) (i : Nat) (e : Nat) : ℂ := ∑ k ∈ range N, ent (P.at' i k) e * F k

/-- the transform -/
noncomputable def parts (P : Irreps E) (N : Nat) (F : Nat → ℂ) : List CTensor :=
  (List.range P.count.toNat).map fun (i : Nat) => ⟨[P.dim i, P.dim i], (List.range (P.dim i * P.dim i)).map (coef P N F i)⟩

/-- Every matrix has as many entries as declared. -/
def Sized (P : Irreps E) (N : Nat) : Prop :=
  ∀ i < P.count.toNat, ∀ j < N, (P.at' (i : Int) (j : Int)).data.length = P.dim i * P.dim i

theorem forUp_count (P : Irreps E) {S : Type} (s : S) (body : Int → S → Option S) :
    forUp 0 P.count s body = forUp 0 (P.count.toNat : Int) s body := by
  unfold forUp
  congr 1
  omega

theorem push_loop {β : Type} (c : Nat) (g : Nat → β) (body : Int → List β → Option (List β))
    (h : ∀ i < c, ∀ l, body (i : Int) l = some (l ++ [g i])) :
    forUp 0 (c : Int) [] body = some ((List.range c).map g) := by
  have := forUp_seq c (fun i => (List.range i).map g) body (fun i hi => by
    rw [h i hi, List.range_succ, List.map_append]; rfl)
  exact this

theorem fourier_eq {P : Irreps E} {N : Nat} (hP : Sized P N) {f : Cells ℂ} {F : Nat → ℂ}
    (hf : ∀ j < N, rdC f (j : Int) = some (F j)) : fourier P N f = some (parts P N F) := by
  unfold fourier parts
  rw [forUp_count]
  refine push_loop _ _ _ fun i hi l => ?_
  have hin : forUp 0 (N : Int) (⟨[P.dim i, P.dim i], List.replicate (P.dim i * P.dim i) 0⟩ : CTensor) (fun j R => do
      let v ← rdC f j
      R.addScaled (P.at' i j) v) =
      some ⟨[P.dim i, P.dim i], (List.range (P.dim i * P.dim i)).map (coef P N F i)⟩ := by
    have h0 : (⟨[P.dim i, P.dim i], List.replicate (P.dim i * P.dim i) 0⟩ : CTensor) =
        ⟨[P.dim i, P.dim i], (List.range (P.dim i * P.dim i)).map (coef P 0 F i)⟩ := by
      congr 1
      refine List.ext_getElem (by simp) fun e h1 h2 => ?_
      simp [coef]
    rw [h0]
    refine forUp_seq N (fun j => (⟨[P.dim i, P.dim i], (List.range (P.dim i * P.dim i)).map (coef P j F i)⟩ : CTensor)) _ fun j hj => ?_
    simp only [hf j hj, Option.bind_eq_bind, Option.bind_some, CTensor.addScaled]
    have hl := hP i hi j hj
    rw [if_pos (by simp [hl])]
    congr 2
    refine List.ext_getElem (by simp [hl]) fun e h1 h2 => ?_
    simp only [List.length_zipWith, List.length_map, List.length_range, hl, Nat.min_self] at h1
    simp only [List.getElem_zipWith, List.getElem_map, List.getElem_range, coef, sum_range_succ]
    congr 2
    rw [ent, List.getD_eq_getElem?_getD, List.getElem?_eq_getElem (by rw [hl]; exact h1)]; rfl
  change (forUp 0 (N : Int) (⟨[P.dim i, P.dim i], List.replicate (P.dim i * P.dim i) 0⟩ : CTensor) (fun j R => do
      let v ← rdC f j
      R.addScaled (P.at' i j) v)).bind _ = _
  rw [hin]
  rfl

/-- the term of an irrep in the inverse transform of parts with entries `Q i e` -/
noncomputable def term (P : Irreps E) (N : Nat) (Q : Nat → Nat → ℂ) (i k : Nat) : ℂ :=
  (∑ e ∈ range (P.dim i * P.dim i), Q i e * (starRingEnd ℂ) (ent (P.at' i k) e)) * ((P.dim i : ℂ) / N)

theorem iFourier_eq {P : Irreps E} {N : Nat} (hP : Sized P N) (ps : List CTensor) (Q : Nat → Nat → ℂ)
    (hps : ∀ i < P.count.toNat, ∃ T, ps[i]? = some T ∧ T.data = (List.range (P.dim i * P.dim i)).map (Q i)) :
    iFourier P N ps = some ((List.range N).map fun k => some (∑ i ∈ range P.count.toNat, term P N Q i k)) := by
  unfold iFourier
  rw [forUp_count]
  have h0 : List.replicate N (some (0 : ℂ)) = (List.range N).map fun k => some (∑ i ∈ range 0, term P N Q i k) := by
    refine List.ext_getElem (by simp) fun e h1 h2 => ?_
    simp
  rw [h0]
  refine forUp_seq P.count.toNat (fun c => (List.range N).map fun k => some (∑ i ∈ range c, term P N Q i k)) _ fun i hi => ?_
  obtain ⟨T, hT, hTd⟩ := hps i hi
  have h1 : ((List.range N).map fun k => some (∑ i ∈ range i, term P N Q i k)) =
      (List.range N).map fun k => some (∑ i ∈ range i, term P N Q i k + if k < 0 then term P N Q i k else 0) := by simp
  have h2 : ((List.range N).map fun k => some (∑ i ∈ range (i + 1), term P N Q i k)) =
      (List.range N).map fun k => some (∑ i ∈ range i, term P N Q i k + if k < N then term P N Q i k else 0) := by
    refine List.map_congr_left fun k hk => ?_
    rw [sum_range_succ, if_pos (List.mem_range.1 hk)]
  rw [h1, h2]
  refine forUp_seq N (fun j => (List.range N).map fun k => some (∑ i ∈ range i, term P N Q i k + if k < j then term P N Q i k else 0))
    _ fun j hj => ?_
  have hinp : T.inp (P.at' i j) = some (∑ e ∈ range (P.dim i * P.dim i), Q i e * (starRingEnd ℂ) (ent (P.at' i j) e)) := by
    have hl := hP i hi j hj
    unfold CTensor.inp
    rw [if_pos (by rw [hTd, hl]; simp), hTd]
    congr 1
    have : List.zipWith (fun a b => a * (starRingEnd ℂ) b) ((List.range (P.dim i * P.dim i)).map (Q i)) (P.at' i j).data =
        (List.range (P.dim i * P.dim i)).map fun e => Q i e * (starRingEnd ℂ) (ent (P.at' i j) e) := by
      refine List.ext_getElem (by simp [hl]) fun e h1 h2 => ?_
      simp only [List.length_map, List.length_range] at h2
      simp only [List.getElem_zipWith, List.getElem_map, List.getElem_range]
      rw [ent, List.getD_eq_getElem?_getD, List.getElem?_eq_getElem (by rw [hl]; exact h2)]; rfl
    rw [this]
    rw [Finset.sum_range, ← List.sum_ofFn]
    congr 1
    refine List.ext_getElem (by simp) fun e h1 h2 => by simp
  have hrd : rdC ((List.range N).map fun k => some (∑ i ∈ range i, term P N Q i k + if k < j then term P N Q i k else 0)) (j : Int) =
      some (∑ i ∈ range i, term P N Q i j) := by
    rw [rdC_ofNat]
    simp [hj]
  simp only [Int.toNat_natCast, hT, Option.bind_eq_bind, Option.bind_some, hinp, hrd]
  rw [wrC_ofNat _ _ _ (by simpa using hj)]
  congr 1
  refine List.ext_getElem (by simp) fun k h1 h2 => ?_
  simp only [List.length_map, List.length_range] at h2
  rw [List.getElem_set]
  simp only [List.getElem_map, List.getElem_range]
  by_cases hjk : j = k
  · subst hjk
    simp [term]
  · rw [if_neg hjk]
    have : k < j ↔ k < j + 1 := by omega
    simp only [this]

/-- The kernel of the two transforms. -/
def Kernel (P : Irreps E) (N : Nat) : Prop :=
  ∀ j < N, ∀ k < N, ∑ i ∈ range P.count.toNat, (∑ e ∈ range (P.dim i * P.dim i),
    ent (P.at' i k) e * (starRingEnd ℂ) (ent (P.at' i j) e)) * ((P.dim i : ℂ) / N) = if j = k then 1 else 0

theorem inversion {P : Irreps E} {N : Nat} (hP : Sized P N) (hK : Kernel P N) {f : Cells ℂ} (hf : Written N f) :
    ∃ F, fourier P N f = some F ∧ iFourier P N F = some f := by
  obtain ⟨g, hg⟩ : ∃ g : Nat → ℂ, f = (List.range N).map fun k => some (g k) := by
    refine ⟨fun k => (f.getD k none).getD 0, ?_⟩
    refine List.ext_getElem (by simp [hf.1]) fun k h1 h2 => ?_
    have := hf.2 f[k] (List.getElem_mem h1)
    obtain ⟨v, hv⟩ := Option.isSome_iff_exists.1 this
    simp [h1, hv]
  have hrd : ∀ j < N, rdC f (j : Int) = some (g j) := by
    intro j hj
    rw [rdC_ofNat, hg]
    simp [hj]
  refine ⟨_, fourier_eq hP hrd, ?_⟩
  rw [iFourier_eq hP (parts P N g) (coef P N g) (fun i hi => ⟨⟨[P.dim i, P.dim i], (List.range (P.dim i * P.dim i)).map (coef P N g i)⟩, by simp [parts, hi], rfl⟩), hg]
  congr 1
  refine List.map_congr_left fun j hj => ?_
  congr 1
  have hj' := List.mem_range.1 hj
  have e1 : ∀ i ∈ range P.count.toNat, term P N (coef P N g) i j = ∑ k ∈ range N, g k *
      ((∑ e ∈ range (P.dim i * P.dim i), ent (P.at' i k) e * (starRingEnd ℂ) (ent (P.at' i j) e)) * ((P.dim i : ℂ) / N)) := by
    intro i _
    simp only [term, coef, sum_mul, mul_sum]
    rw [sum_comm]
    refine sum_congr rfl fun k _ => sum_congr rfl fun e _ => by ring
  rw [sum_congr rfl e1, sum_comm]
  have e2 : ∀ k ∈ range N, ∑ i ∈ range P.count.toNat, g k *
      ((∑ e ∈ range (P.dim i * P.dim i), ent (P.at' i k) e * (starRingEnd ℂ) (ent (P.at' i j) e)) * ((P.dim i : ℂ) / N)) =
      if j = k then g k else 0 := by
    intro k hk
    rw [← mul_sum, hK j hj' k (mem_range.1 hk)]
    split_ifs <;> simp
  rw [sum_congr rfl e2, sum_ite_eq, if_pos (mem_range.2 hj')]

/-! ### Translations -/

/-- a tensor with `d` rows and columns -/
def Dims (d : Nat) (T : CTensor) : Prop := T.dims = [d, d] ∨ d = 1 ∧ T.dims = [1]

theorem sum_range_list (d : Nat) (g : Nat → ℂ) : ((List.range d).map g).sum = ∑ r ∈ range d, g r := by
  rw [Finset.sum_range, ← List.sum_ofFn]
  congr 1
  refine List.ext_getElem (by simp) fun e h1 h2 => by simp

theorem mprod_data {d : Nat} {x y : CTensor} (hx : Dims d x) (hy : Dims d y) :
    ∃ T, x.mprod y = some T ∧
      T.data = (List.range (d * d)).map fun e => ∑ r ∈ range d, ent x (e / d * d + r) * ent y (r * d + e % d) := by
  rcases hx with hx | ⟨h1, hx⟩ <;> rcases hy with hy | ⟨h2, hy⟩
  · refine ⟨_, by simp [CTensor.mprod, hx, hy]; rfl, ?_⟩
    simp [sum_range_list, ent]
  · subst h2
    refine ⟨_, by simp [CTensor.mprod, hx, hy]; rfl, ?_⟩
    simp [ent]
  · subst h1
    refine ⟨_, by simp [CTensor.mprod, hx, hy]; rfl, ?_⟩
    simp [ent]
  · subst h1
    refine ⟨_, by simp [CTensor.mprod, hx, hy]; rfl, ?_⟩
    simp [ent]

theorem herm_data {d : Nat} {x : CTensor} (hx : x.dims = [d, d]) :
    x.herm = some ⟨[d, d], (List.range (d * d)).map fun e => (starRingEnd ℂ) (ent x (e % d * d + e / d))⟩ := by
  rw [CTensor.herm, hx]
  rfl

variable {G : Type} [Group G] {I : GroupI E} {e : Fin I.size ≃ G} {rep : G → E}

/-- The irreps are unitary representations of the group. -/
structure RepsOf (I : GroupI E) (e : Fin I.size ≃ G) (rep : G → E) (P : Irreps E) : Prop where
  pos : ∀ i < P.count.toNat, 1 ≤ P.dim i
  at_elem : ∀ i < P.count.toNat, ∀ k : Fin I.size, P.at' i ((k : Nat) : Int) = P.elem i (rep (e k))
  sq : ∀ i < P.count.toNat, ∀ x, (P.elem i (rep x)).Square (P.dim i)
  hom : ∀ i < P.count.toNat, ∀ x y, ∀ a < P.dim i, ∀ b < P.dim i, ent (P.elem i (rep (x * y))) (a * P.dim i + b) =
    ∑ r ∈ range (P.dim i), ent (P.elem i (rep x)) (a * P.dim i + r) * ent (P.elem i (rep y)) (r * P.dim i + b)
  inv : ∀ i < P.count.toNat, ∀ x, ∀ a < P.dim i, ∀ b < P.dim i, ent (P.elem i (rep x⁻¹)) (a * P.dim i + b) =
    (starRingEnd ℂ) (ent (P.elem i (rep x)) (b * P.dim i + a))

theorem RepsOf.sized {P : Irreps E} (h : RepsOf I e rep P) : Sized P I.size := fun i hi j hj => by
  have := h.at_elem i hi ⟨j, hj⟩
  simp only at this
  rw [this]
  exact (h.sq i hi _).2

theorem Square.dims' {T : CTensor} {d : Nat} (h : T.Square d) : Dims d T := by
  have := h.1
  split_ifs at this with hd
  · exact Or.inr ⟨hd, this⟩
  · exact Or.inl this

/-- the transform as a sum over the group -/
noncomputable def hat [Fintype G] (rep : G → E) (P : Irreps E) (f : G → ℂ) (i k : Nat) : ℂ := ∑ x, ent (P.elem i (rep x)) k * f x

theorem fourier_hat [Fintype G] {P : Irreps E} (h : RepsOf I e rep P) (f : G → ℂ) :
    fourier P I.size (cellsOf e f) = some ((List.range P.count.toNat).map fun (i : Nat) =>
      (⟨[P.dim i, P.dim i], (List.range (P.dim i * P.dim i)).map (hat rep P f i)⟩ : CTensor)) := by
  rw [fourier_eq h.sized (F := fun j => if hj : j < I.size then f (e ⟨j, hj⟩) else 0)
    (fun j hj => by simpa [hj] using rdC_cellsOf (e := e) f ⟨j, hj⟩)]
  congr 1
  refine List.map_congr_left fun i hi => ?_
  congr 1
  refine List.map_congr_left fun k _ => ?_
  unfold coef hat
  rw [← e.sum_comp, Finset.sum_range]
  refine sum_congr rfl fun j _ => ?_
  rw [h.at_elem i (List.mem_range.1 hi) j]
  simp

theorem push_ok {P : Irreps E} {body : Int → List CTensor → Option (List CTensor)} (g : Nat → CTensor)
    (h : ∀ i < P.count.toNat, ∀ l, body (i : Int) l = some (l ++ [g i])) :
    forUp 0 P.count [] body = some ((List.range P.count.toNat).map g) := by
  rw [forUp_count]
  exact push_loop _ g body h

theorem left_follows [Fintype G] {P : Irreps E} (hI : Implements I e rep) (h : RepsOf I e rep P) (t : G) (f : G → ℂ) :
    Follows P I.size (I.leftTranslate · (rep t)) (fourierLeft P (rep t)) (cellsOf e f) := by
  classical
  have hp : ∀ i : Nat, ∃ T, i < P.count.toNat → (P.elem i (rep t)).mprod
      ⟨[P.dim i, P.dim i], (List.range (P.dim i * P.dim i)).map (hat rep P f i)⟩ = some T ∧
      T.data = (List.range (P.dim i * P.dim i)).map (hat rep P (fun x => f (t⁻¹ * x)) i) := by
    intro i
    by_cases hi : i < P.count.toNat
    · obtain ⟨T, hT, hd⟩ := mprod_data (Square.dims' (h.sq i hi t))
        (y := ⟨[P.dim i, P.dim i], (List.range (P.dim i * P.dim i)).map (hat rep P f i)⟩) (Or.inl rfl)
      refine ⟨T, fun _ => ⟨hT, ?_⟩⟩
      rw [hd]
      refine List.map_congr_left fun k hk => ?_
      have hk' := List.mem_range.1 hk
      have ha : k / P.dim i < P.dim i := Nat.div_lt_of_lt_mul hk'
      have hb : k % P.dim i < P.dim i := Nat.mod_lt _ (h.pos i hi)
      have e1 : ∀ r ∈ range (P.dim i), ent ⟨[P.dim i, P.dim i], (List.range (P.dim i * P.dim i)).map (hat rep P f i)⟩ (r * P.dim i + k % P.dim i) =
          hat rep P f i (r * P.dim i + k % P.dim i) := by
        intro r hr
        have hr' := mem_range.1 hr
        have : r * P.dim i + k % P.dim i < P.dim i * P.dim i := by nlinarith
        simp [ent, List.getD_eq_getElem?_getD, this]
      rw [sum_congr rfl fun r hr => by rw [e1 r hr]]
      simp only [hat, mul_sum]
      rw [sum_comm]
      refine Eq.trans ?_ (Equiv.sum_comp (Equiv.mulLeft t) _)
      refine sum_congr rfl fun x _ => ?_
      have := h.hom i hi t x _ ha _ hb
      rw [Nat.div_add_mod'] at this
      simp only [Equiv.coe_mulLeft, inv_mul_cancel_left, this, sum_mul]
      refine sum_congr rfl fun r _ => by ring
    · exact ⟨⟨[], []⟩, fun hc => absurd hc hi⟩
  choose T hT using hp
  refine ⟨_, _, _, (List.range P.count.toNat).map T, leftTranslate_eq hI f t, fourier_hat h f, fourier_hat h _, ?_, ?_⟩
  · refine push_ok T fun i hi l => ?_
    simp [hi, (hT i hi).1]
  · simp only [List.map_map]
    refine List.map_congr_left fun i hi => ?_
    exact (hT i (List.mem_range.1 hi)).2

theorem right_follows [Fintype G] {P : Irreps E} (hI : Implements I e rep) (h : RepsOf I e rep P) (t : G) (f : G → ℂ) :
    Follows P I.size (I.rightTranslate · (rep t)) (fourierRight P (rep t)) (cellsOf e f) := by
  classical
  have hp : ∀ i : Nat, ∃ T, i < P.count.toNat → (⟨[P.dim i, P.dim i], (List.range (P.dim i * P.dim i)).map (hat rep P f i)⟩ : CTensor).mprod
      (P.elem i (rep t)) = some T ∧
      T.data = (List.range (P.dim i * P.dim i)).map (hat rep P (fun x => f (x * t⁻¹)) i) := by
    intro i
    by_cases hi : i < P.count.toNat
    · obtain ⟨T, hT, hd⟩ := mprod_data 
        (x := ⟨[P.dim i, P.dim i], (List.range (P.dim i * P.dim i)).map (hat rep P f i)⟩) (Or.inl rfl) (Square.dims' (h.sq i hi t))
      refine ⟨T, fun _ => ⟨hT, ?_⟩⟩
      rw [hd]
      refine List.map_congr_left fun k hk => ?_
      have hk' := List.mem_range.1 hk
      have ha : k / P.dim i < P.dim i := Nat.div_lt_of_lt_mul hk'
      have hb : k % P.dim i < P.dim i := Nat.mod_lt _ (h.pos i hi)
      have e1 : ∀ r ∈ range (P.dim i), ent ⟨[P.dim i, P.dim i], (List.range (P.dim i * P.dim i)).map (hat rep P f i)⟩ (k / P.dim i * P.dim i + r) =
          hat rep P f i (k / P.dim i * P.dim i + r) := by
        intro r hr
        have hr' := mem_range.1 hr
        have : k / P.dim i * P.dim i + r < P.dim i * P.dim i := by nlinarith
        simp [ent, List.getD_eq_getElem?_getD, this]
      rw [sum_congr rfl fun r hr => by rw [e1 r hr]]
      simp only [hat, sum_mul]
      rw [sum_comm]
      refine Eq.trans ?_ (Equiv.sum_comp (Equiv.mulRight t) _)
      refine sum_congr rfl fun x _ => ?_
      have := h.hom i hi x t _ ha _ hb
      rw [Nat.div_add_mod'] at this
      simp only [Equiv.coe_mulRight, mul_inv_cancel_right, this, sum_mul]
      refine sum_congr rfl fun r _ => by ring
    · exact ⟨⟨[], []⟩, fun hc => absurd hc hi⟩
  choose T hT using hp
  refine ⟨_, _, _, (List.range P.count.toNat).map T, rightTranslate_eq hI f t, fourier_hat h f, fourier_hat h _, ?_, ?_⟩
  · refine push_ok T fun i hi l => ?_
    simp [hi, (hT i hi).1]
  · simp only [List.map_map]
    refine List.map_congr_left fun i hi => ?_
    exact (hT i (List.mem_range.1 hi)).2

theorem inv_eq [Fintype G] {P : Irreps E} (h : RepsOf I e rep P) (f : G → ℂ) :
    (fourier P I.size (cellsOf e f)).bind (fourierInv P) = fourier P I.size (cellsOf e fun x => (starRingEnd ℂ) (f x⁻¹)) := by
  rw [fourier_hat h, fourier_hat h, Option.bind_some]
  refine push_ok _ fun i hi l => ?_
  simp only [Int.toNat_natCast, List.getElem?_map, List.getElem?_range hi, Option.map_some, Option.bind_eq_bind, Option.bind_some]
  rw [herm_data rfl, Option.bind_some]
  congr 3
  refine congrArg (CTensor.mk _) (List.map_congr_left fun k hk => ?_)
  have hk' := List.mem_range.1 hk
  have ha : k / P.dim i < P.dim i := Nat.div_lt_of_lt_mul hk'
  have hb : k % P.dim i < P.dim i := Nat.mod_lt _ (h.pos i hi)
  have e1 : ent ⟨[P.dim i, P.dim i], (List.range (P.dim i * P.dim i)).map (hat rep P f i)⟩ (k % P.dim i * P.dim i + k / P.dim i) =
      hat rep P f i (k % P.dim i * P.dim i + k / P.dim i) := by
    have : k % P.dim i * P.dim i + k / P.dim i < P.dim i * P.dim i := by nlinarith
    simp [ent, List.getD_eq_getElem?_getD, this]
  rw [e1]
  simp only [hat, map_sum, map_mul]
  refine Eq.trans ?_ (Equiv.sum_comp (Equiv.inv G) _)
  refine sum_congr rfl fun x _ => ?_
  have := h.inv i hi x _ ha _ hb
  rw [Nat.div_add_mod'] at this
  simp only [Equiv.inv_apply, this, inv_inv]

omit [Group G] in
theorem realValued_iff (f : G → ℂ) : RealValued (cellsOf e f) ↔ ∀ x, (starRingEnd ℂ) (f x) = f x := by
  unfold RealValued cellsOf
  constructor
  · intro h x
    refine Complex.conj_eq_iff_im.2 (h _ ?_)
    rw [List.mem_ofFn]
    exact ⟨e.symm x, by simp⟩
  · intro h v hv
    rw [List.mem_ofFn] at hv
    obtain ⟨i, hi⟩ := hv
    rw [← Option.some.inj hi]
    exact Complex.conj_eq_iff_im.1 (h _)

theorem inv_follows_iff [Fintype G] {P : Irreps E} (hI : Implements I e rep) (h : RepsOf I e rep P) (hK : Kernel P I.size) (f : G → ℂ) :
    Follows P I.size I.invert (fourierInv P) (cellsOf e f) ↔ RealValued (cellsOf e f) := by
  have h1 := inv_eq h f
  constructor
  · rintro ⟨g, F, G', A, hg, hF, hG, hA, hd⟩
    rw [invert_eq hI] at hg
    obtain rfl := Option.some.inj hg
    rw [hF, Option.bind_some, hA] at h1
    have hAG : A = G' := by
      rw [fourier_hat h] at h1 hG
      have hA' := Option.some.inj h1
      have hG' := Option.some.inj hG
      subst hA' hG'
      simp only [List.map_map] at hd
      refine List.map_congr_left fun i hi => ?_
      have := (List.map_inj_left.1 hd) i hi
      simp only [Function.comp] at this
      simp only [this]
    subst hAG
    rw [h1] at hG
    obtain ⟨F1, a1, a2⟩ := inversion h.sized hK ((written_iff (e := e) (cellsOf e fun x => f x⁻¹)).2 ⟨_, rfl⟩)
    obtain ⟨F2, b1, b2⟩ := inversion h.sized hK ((written_iff (e := e) (cellsOf e fun x => (starRingEnd ℂ) (f x⁻¹))).2 ⟨_, rfl⟩)
    rw [hG, b1] at a1
    rw [← Option.some.inj a1, b2] at a2
    have := cellsOf_injective (Option.some.inj a2)
    rw [realValued_iff]
    intro x
    have := congrFun this x⁻¹
    simpa using this
  · intro hr
    rw [realValued_iff] at hr
    have e1 : (fun x => (starRingEnd ℂ) (f x⁻¹)) = fun x => f x⁻¹ := funext fun x => hr _
    rw [e1] at h1
    have h2 := fourier_hat h f
    have h3 := fourier_hat h fun x => f x⁻¹
    rw [h2, Option.bind_some, h3] at h1
    exact ⟨_, _, _, _, invert_eq hI f, h2, h3, h1, rfl⟩

end Snob.FG
