import Verif.Proofs.Count
import Verif.Proofs.Kron
import Verif.Proofs.FloatEnergyDown

/-!
The number of operations of one level of the fast Fourier transform.
-/

namespace Snob

open IP
open scoped Nat

/-! ### the number of entries of a vector -/

theorem sum_PL_nat {m n : Nat} (hn : 0 < n) (F : List Nat → Nat) :
    ((PL m n).map F).sum = ∑ p : Pt n, if m ≤ row p.1 0 then F p.1 else 0 := by
  classical
  rw [← List.sum_toFinset F (PL_nodup m n), ← Finset.sum_filter]
  symm
  refine Finset.sum_bij (fun q _ => q.1) (fun q hq => ?_) (fun a _ b _ h => Subtype.ext h) (fun q hq => ?_) (fun _ _ => rfl)
  · rw [List.mem_toFinset, mem_PL hn]; exact ⟨q.2, (Finset.mem_filter.1 hq).2⟩
  · rw [List.mem_toFinset, mem_PL hn] at hq
    exact ⟨⟨q, hq.1⟩, Finset.mem_filter.2 ⟨Finset.mem_univ _, hq.2⟩, rfl⟩

theorem colW_len_succ {m l : Nat} (hm : m ≤ l) {p : List Nat} (hp : IsPartition (l + 1) p) :
    (colW m (l + 1) p).length = ((subsM m p).map fun q => (colW m l q).length).sum := by
  rw [colW_succ hm hp, List.length_flatMap]
  simp only [List.length_map]

/-- the vector of a function on `Sl/Sm` has as many entries as the function has values -/
theorem sum_size {m : Nat} (hm : 0 < m) {l : Nat} (hl : m ≤ l) : ((PL m l).map fun p => dimW l p * (colW m l p).length).sum = l ! / m ! := by
  classical
  induction l, hl using Nat.le_induction with
  | base =>
    rw [PL_self hm, quot_self, List.map_singleton, List.sum_singleton, colW_self hm, dimW, words_self hm]; rfl
  | succ l hl ih =>
    have e : ∀ p : Pt (l + 1), (if m ≤ row p.1 0 then dimW (l + 1) p.1 * (colW m (l + 1) p.1).length else 0) =
        ∑ q : Pt l, if AddsBox q.1 p.1 then (if m ≤ row q.1 0 then (colW m l q.1).length else 0) * dimW (l + 1) p.1 else 0 := by
      intro p
      have e1 : ((subsM m p.1).map fun q => (colW m l q).length).sum =
          ∑ q : Pt l, if AddsBox q.1 p.1 then (if m ≤ row q.1 0 then (colW m l q.1).length else 0) else 0 := by
        rw [← sum_subs p.2 fun q => if m ≤ row q 0 then (colW m l q).length else 0]
        unfold subsM
        generalize subs p.1 = S
        induction S with
        | nil => rfl
        | cons q S ih =>
          rw [List.map_cons, List.sum_cons, ← ih, List.filter_cons]
          by_cases h : m ≤ row q 0
          · simp [h]
          · simp [h]
      rw [colW_len_succ (by omega) p.2, e1]
      by_cases h : m ≤ row p.1 0
      · rw [if_pos h, Finset.mul_sum]
        refine Finset.sum_congr rfl fun q _ => ?_
        split
        · ring
        · ring
      · rw [if_neg h]
        symm
        refine Finset.sum_eq_zero fun q _ => ?_
        split
        · rename_i hb
          have : row q.1 0 ≤ row p.1 0 := by
            obtain ⟨r, hb⟩ := hb
            rw [hb 0]; split <;> omega
          rw [if_neg (by omega), Nat.zero_mul]
        · rfl
    rw [sum_PL_nat (by omega), Finset.sum_congr rfl fun p _ => e p, Finset.sum_comm, quot_succ (by omega), ← ih, sum_PL_nat (by omega),
      Finset.mul_sum]
    refine Finset.sum_congr rfl fun q _ => ?_
    have := sum_covers q
    rw [← Finset.sum_filter] at this ⊢
    rw [← Finset.mul_sum, this]
    split
    · ring
    · ring

theorem colW_pos {m l : Nat} {q : List Nat} (hq : IsPartition l q) (hm : m ≤ row q 0) : 0 < (colW m l q).length := by
  obtain ⟨w, hw⟩ := exists_good hq hm
  exact List.length_pos_of_mem (mem_colW w hw)

/-! ### lists -/

section
variable {α β γ : Type}

theorem forall₂_comp {R : α → β → Prop} {S : β → γ → Prop} {a : List α} {b : List β} {c : List γ} (h1 : List.Forall₂ R a b)
    (h2 : List.Forall₂ S b c) : List.Forall₂ (fun x z => ∃ y, R x y ∧ S y z) a c := by
  induction h1 generalizing c with
  | nil => cases h2; exact .nil
  | cons h _ ih => cases h2 with | cons h' h2 => exact .cons ⟨_, h, h'⟩ (ih h2)

theorem cforall₂_get {R : α → β → Prop} {a : List α} {b : List β} (h : List.Forall₂ R a b) {i : Nat} {x : α} {y : β}
    (hx : a[i]? = some x) (hy : b[i]? = some y) : R x y := by
  induction h generalizing i with
  | nil => simp at hx
  | cons h _ ih =>
    cases i with
    | zero =>
      obtain rfl := Option.some.inj hx
      obtain rfl := Option.some.inj hy
      exact h
    | succ i => exact ih (i := i) (by simpa using hx) (by simpa using hy)

theorem cforall₂_set {R : α → β → Prop} {a : List α} {b : List β} (h : List.Forall₂ R a b) {i : Nat} {x : α} {y : β}
    (hx : a[i]? = some x) (hy : R x y) : List.Forall₂ R a (b.set i y) := by
  induction h generalizing i with
  | nil => simp at hx
  | cons h h' ih =>
    cases i with
    | zero =>
      obtain rfl := Option.some.inj hx
      exact .cons hy h'
    | succ i => exact .cons h (ih (by simpa using hx))

theorem forall₂_mem_right {R : α → β → Prop} {a : List α} {b : List β} (h : List.Forall₂ R a b) {y : β} (hy : y ∈ b) : ∃ x ∈ a, R x y := by
  induction h with
  | nil => simp at hy
  | cons h _ ih =>
    rcases List.mem_cons.1 hy with rfl | hy
    · exact ⟨_, by simp, h⟩
    · obtain ⟨x, hx, hr⟩ := ih hy
      exact ⟨x, by simp [hx], hr⟩

end

/-! ### cycles -/

/-- three operations for each entry -/
def CostOk (apC : ViewActC) (ap : ViewAct) (l : Nat) : Prop :=
  ∀ (p : List Nat) (hp : IsPartition l p) (R : IrrepObj), Repr' hp R → ∀ (cols : List (Nat × Nat)) (tau : Nat), 1 ≤ tau → tau < l →
    ∀ A, Costs (apC R cols tau A) (ap R cols tau A) (3 * (R.d * cols.length)) fun _ => True

theorem matActC_ok (l : Nat) : CostOk matActC matAct l :=
  fun _ _ _ h cols _ h1 h2 A => applyTauC_costs (h.slotSpec h1 h2) cols A

theorem viewActC_ok (l : Nat) : CostOk viewActC viewAct l :=
  fun _ _ R h cols tau _ _ A => applyTauViewC_costs R (by rw [h.tab, List.length_map, h.d_eq]) cols tau A

section
variable {apC : ViewActC} {ap : ViewAct} {l : Nat} (hap : CostOk apC ap (l + 1)) {p : List Nat} {hp : IsPartition (l + 1) p} {R : IrrepObj}
  (h : Repr' hp R) (cols : List (Nat × Nat)) (j : Nat) (hj : j ≤ l) (A : Nat → Nat × Nat → ℝ)
include hap h hj

theorem cycleC_up : Costs (cycleC apC R cols (((l + 1 : Nat) : Int) - (j : Int)) ((l + 1 : Nat) : Int) A)
    (cycleWith ap R cols (((l + 1 : Nat) : Int) - (j : Int)) ((l + 1 : Nat) : Int) A) (j * (3 * (R.d * cols.length))) fun _ => True := by
  unfold cycleC cycleWith
  split
  · unfold forDownC forDown
    have e : (((l + 1 : Nat) : Int) - 1 - (((l + 1 : Nat) : Int) - (j : Int)) + 1).toNat = j := by omega
    rw [e]
    refine Costs.iterDown j _ _ (fun t ht A _ => ?_) trivial
    have e2 : ((l + 1 : Nat) : Int) - 1 - (t : Int) = ((l - t : Nat) : Int) := by omega
    rw [e2]
    exact hap p hp R h cols (l - t) (by omega) (by omega) A
  · unfold forUpC forUp
    have e : (((l + 1 : Nat) : Int) - (j : Int) - ((l + 1 : Nat) : Int)).toNat = 0 := by omega
    rw [e]
    exact (Costs.pure trivial).mono' (Nat.zero_le _)

theorem cycleC_down : Costs (cycleC apC R cols ((l : Int) + 1) ((l : Int) + 1 - (j : Int)) A)
    (cycleWith ap R cols ((l : Int) + 1) ((l : Int) + 1 - (j : Int)) A) (j * (3 * (R.d * cols.length))) fun _ => True := by
  unfold cycleC cycleWith
  rw [if_neg (by omega), if_neg (by omega)]
  unfold forUpC forUp
  have e : ((l : Int) + 1 - ((l : Int) + 1 - (j : Int))).toNat = j := by omega
  rw [e]
  refine (Costs.iterUp (c := fun _ => 3 * (R.d * cols.length)) j _ 0 _ (fun t ht A _ => ?_) trivial).mono' ?_
  · have e2 : (l : Int) + 1 - (j : Int) + (t : Int) = ((l + 1 - j + t : Nat) : Int) := by omega
    rw [e2]
    exact hap p hp R h cols (l + 1 - j + t) (by omega) (by omega) A
  · rw [Finset.sum_const, Finset.card_range, smul_eq_mul]

end

theorem sliceCols_length (newN n m j : Nat) : (sliceCols newN n m j).length = newN * m := by
  unfold sliceCols
  rw [List.length_flatMap]
  simp

theorem sum_triangle (l c : Nat) : ∑ t ∈ Finset.range (l + 1), (0 + t) * c = (l + 1) * l / 2 * c := by
  rw [← Finset.sum_mul]
  simp only [Nat.zero_add]
  rw [Finset.sum_range_id]
  rfl

section
variable {apC : ViewActC} {ap : ViewAct} {l : Nat} (hap : CostOk apC ap (l + 1)) {p : List Nat} {hp : IsPartition (l + 1) p}
  {q : MPart} (h : Repr' hp q.irrep) (newN : Nat)
include hap h

theorem twistUpC_costs : Costs (twistUpC apC (l + 1) newN q) (twistUp ap (l + 1) newN q)
    ((l + 1) * l / 2 * (3 * (q.irrep.d * (newN * q.m)))) fun P => P.N = q.N ∧ P.d = q.d ∧ P.m = q.m ∧ P.irrep = q.irrep := by
  unfold twistUpC twistUp
  refine Costs.bind (Q := fun _ => True) (k := (l + 1) * l / 2 * (3 * (q.irrep.d * (newN * q.m)))) (l := 0) ?_
    fun A _ => Costs.pure ⟨rfl, rfl, rfl, rfl⟩
  unfold forUpC forUp
  have e : (((l + 1 : Nat) : Int) - 0).toNat = l + 1 := by omega
  rw [e, ← sum_triangle]
  refine Costs.iterUp (c := fun t => t * (3 * (q.irrep.d * (newN * q.m)))) (l + 1) 0 0 _ (fun t ht A _ => ?_) trivial
  have := cycleC_up hap h (sliceCols newN (l + 1) q.m t) t (by omega) A
  rw [sliceCols_length] at this
  simpa only [Int.zero_add, Nat.zero_add, Int.toNat_natCast] using this

theorem twistDownC_costs : Costs (twistDownC apC l newN q) (twistDown ap l newN q)
    ((l + 1) * l / 2 * (3 * (q.irrep.d * (newN * q.m)))) fun P => P.N = q.N ∧ P.d = q.d ∧ P.m = q.m ∧ P.irrep = q.irrep := by
  unfold twistDownC twistDown
  refine Costs.bind (Q := fun _ => True) (k := (l + 1) * l / 2 * (3 * (q.irrep.d * (newN * q.m)))) (l := 0) ?_
    fun A _ => Costs.pure ⟨rfl, rfl, rfl, rfl⟩
  unfold forUpC forUp
  have e : ((l : Int) + 1 - 0).toNat = l + 1 := by omega
  rw [e, ← sum_triangle]
  refine Costs.iterUp (c := fun t => t * (3 * (q.irrep.d * (newN * q.m)))) (l + 1) 0 0 _ (fun t ht A _ => ?_) trivial
  have := cycleC_down hap h (sliceCols newN (l + 1) q.m t) t (by omega) A
  rw [sliceCols_length] at this
  simpa only [Int.zero_add, Nat.zero_add, Int.toNat_natCast] using this

end

/-! ### blocks -/

/-- the dimensions of a part -/
def Dim (m l N : Nat) (p : List Nat) (P : MPart) : Prop := P.N = N ∧ P.d = dimW l p ∧ P.m = (colW m l p).length

/-- the dimensions of a vector -/
def DimV (m l N : Nat) (v : List MPart) : Prop := List.Forall₂ (Dim m l N) (PL m l) v

theorem DimV.at {m l N : Nat} {v : List MPart} (h : DimV m l N v) {q : List Nat} (hq : q ∈ PL m l) {M : MPart}
    (hM : v[(PL m l).idxOf q]? = some M) : Dim m l N q M :=
  cforall₂_get h (by rw [List.getElem?_eq_getElem (List.idxOf_lt_length_of_mem hq), List.getElem_idxOf]) hM

theorem blockLoopC_costs {m l N D : Nat} {v : List MPart} (hv : DimV m l N v) (S : List (List Nat)) (hS : ∀ q ∈ S, q ∈ PL m l ∧ dimW l q ≤ D) :
    ∀ (io jo : Nat) (P : MPart), Costs (blockLoopC v (blocksW m l io jo S) P) (blockLoop v (blocksW m l io jo S) P)
      (D * N * (S.map fun q => (colW m l q).length).sum) fun P' => P'.N = P.N ∧ P'.d = P.d ∧ P'.m = P.m ∧ P'.irrep = P.irrep := by
  induction S with
  | nil => intro io jo P; exact (Costs.pure ⟨rfl, rfl, rfl, rfl⟩).mono' (Nat.zero_le _)
  | cons q S ih =>
    intro io jo P
    obtain ⟨hq, hd⟩ := hS q (by simp)
    rw [blocksW, blockLoopC, blockLoop]
    refine (Costs.bind (Costs.free (Q := Dim m l N q) fun M hM => hv.at hq hM) fun M hM => ?_).mono' (k := 0 + (D * N * (colW m l q).length +
      D * N * (S.map fun q => (colW m l q).length).sum)) ?_
    · refine Costs.bind (Q := fun P' => P'.N = P.N ∧ P'.d = P.d ∧ P'.m = P.m ∧ P'.irrep = P.irrep) ?_ fun P' hP' => ?_
      · unfold MPart.addToBlockC
        refine (Costs.tick (Costs.free fun P' hP' => ?_)).mono' (k := M.d * M.N * M.m + 0) ?_
        · unfold MPart.addToBlock at hP'
          split at hP'
          · obtain rfl := Option.some.inj hP'; exact ⟨rfl, rfl, rfl, rfl⟩
          · cases hP'
        · rw [hM.1, hM.2.1, hM.2.2, Nat.add_zero]
          exact Nat.mul_le_mul_right _ (Nat.mul_le_mul_right _ hd)
      · refine (ih (fun q' h => hS q' (by simp [h])) _ _ P').mono (Nat.le_refl _) fun P2 h2 => ?_
        obtain ⟨a1, a2, a3, a4⟩ := hP'
        obtain ⟨b1, b2, b3, b4⟩ := h2
        exact ⟨b1.trans a1, b2.trans a2, b3.trans a3, b4.trans a4⟩
    · rw [List.map_cons, List.sum_cons, Nat.mul_add, Nat.zero_add]

theorem DimV.vecN {m l N : Nat} {v : List MPart} (h : DimV m l N v) {N' : Nat} (hN : vecN v = some N') : N' = N := by
  unfold Snob.vecN at hN
  cases h' : v with
  | nil => rw [h'] at hN; cases hN
  | cons P t =>
    rw [h'] at hN
    obtain rfl := Option.some.inj hN
    have hlen := h.length_eq
    rw [h'] at hlen
    have hpos : 0 < (PL m l).length := by rw [hlen]; simp
    exact (cforall₂_get h (List.getElem?_eq_getElem hpos) (by rw [h']; rfl)).1

/-! ### one level of the forward transform -/

theorem LevelOk.repr {m l : Nat} {L : LevelT} (hL : LevelOk m l L) (hl : 0 < l) {p : PartT} (hp : p ∈ L.parts) :
    ∃ hp' : IsPartition l p.irrep.lambda, m ≤ row p.irrep.lambda 0 ∧ Repr' hp' p.irrep ∧ p.irrep.d = dimW l p.irrep.lambda ∧
      p.m = (colW m l p.irrep.lambda).length := by
  obtain ⟨h1, h2⟩ := hL.mem hl hp
  obtain ⟨i, hi⟩ := List.mem_iff_getElem?.1 hp
  obtain ⟨-, h3, h4, h5⟩ := hL.part i p hi
  obtain ⟨R, hR, -, hrep⟩ := exists_repr hl h1
  obtain rfl : R = p.irrep := Option.some.inj (hR.symm.trans h3)
  exact ⟨h1, h2, hrep, irrep_d hl h1 h3, h5⟩

theorem LevelOk.sum_parts {m l : Nat} {L : LevelT} (hL : LevelOk m l L) (hm : 0 < m) (hl : m ≤ l) :
    (L.parts.map fun p => p.irrep.d * p.m).sum = l ! / m ! := by
  rw [← sum_size hm hl, ← hL.keys, List.map_map]
  congr 1
  refine List.map_congr_left fun p hp => ?_
  obtain ⟨-, -, -, h1, h2⟩ := hL.repr (by omega) hp
  rw [h1, h2]; rfl

/-- the parts with the dimensions that the template says -/
theorem LevelOk.dimV {m l N : Nat} {L : LevelT} (hL : LevelOk m l L) (hl : 0 < l) {w : List MPart}
    (h : List.Forall₂ (fun (p : PartT) (P : MPart) => p ∈ L.parts ∧ P.N = N ∧ P.d = p.irrep.d ∧ P.m = p.m) L.parts w) : DimV m l N w := by
  unfold DimV
  rw [← hL.keys, List.forall₂_map_left_iff]
  refine h.imp fun p P hP => ?_
  obtain ⟨-, -, -, h1, h2⟩ := hL.repr hl hP.1
  exact ⟨hP.2.1, hP.2.2.1.trans h1, hP.2.2.2.trans h2⟩

section
variable {apC : ViewActC} {ap : ViewAct} {m l newN : Nat} (hm : 0 < m) (hl : m ≤ l) (hap : CostOk apC ap (l + 1)) {L' : LevelT}
  (hL' : LevelOk m (l + 1) L') (hB : BlocksOk m l L')
include hm hl hL' hB

theorem subs_mem {p : PartT} (hp : p ∈ L'.parts) : ∀ q ∈ subsM m p.irrep.lambda, q ∈ PL m l ∧ dimW l q ≤ p.irrep.d := by
  intro q hq
  obtain ⟨hp', hrow, hrep, hd, hmm⟩ := hL'.repr (by omega) hp
  obtain ⟨⟨hq', hb⟩, hqr⟩ := (mem_subsM hp' q).1 hq
  exact ⟨(mem_PL (by omega) q).2 ⟨hq', hqr⟩, by rw [hd]; exact dimW_le hp' hq' hb⟩

theorem partUpC_costs {v : List MPart} {N : Nat} (hv : DimV m l N v) {p : PartT} (hp : p ∈ L'.parts) :
    Costs (p.uptransformC v) (p.uptransform v) (p.irrep.d * N * p.m) fun P => P.N = N ∧ P.d = p.irrep.d ∧ P.m = p.m ∧ P.irrep = p.irrep := by
  obtain ⟨hp', hrow, hrep, hd, hmm⟩ := hL'.repr (by omega) hp
  unfold PartT.uptransformC PartT.uptransform
  rw [hB p hp]
  refine (Costs.bind (Costs.free (Q := fun N' => N' = N) fun N' hN' => hv.vecN hN') fun N' hN' => ?_).mono'
    (k := 0 + p.irrep.d * N * p.m) (by omega)
  subst hN'
  rw [hmm, colW_len_succ hl hp']
  exact (blockLoopC_costs hv (subsM m p.irrep.lambda) (subs_mem hm hl hL' hB hp) 0 0 _).mono (Nat.le_refl _) fun P hP =>
    ⟨hP.1, hP.2.1, hP.2.2.1, hP.2.2.2⟩

include hap

theorem levelUpC_costs {v : List MPart} (hv : DimV m l (newN * (l + 1)) v) :
    Costs (L'.uptransformC apC v) (L'.uptransform ap v) (newN * ((l + 1)! / m !) * (3 * ((l + 1) * l / 2) + 2 * l + 1)) (DimV m (l + 1) newN) := by
  unfold LevelT.uptransformC LevelT.uptransform
  refine (Costs.bind (Costs.free (Q := fun N' => N' = newN * (l + 1)) fun N' hN' => hv.vecN hN') fun N' hN' => ?_).mono'
    (k := 0 + newN * ((l + 1)! / m !) * (3 * ((l + 1) * l / 2) + 2 * l + 1)) (by omega)
  subst hN'
  have hn : L'.n = l + 1 := hL'.n_eq
  rw [hn, Nat.mul_div_cancel _ (Nat.succ_pos l)]
  have e : newN * ((l + 1)! / m !) * (3 * ((l + 1) * l / 2) + 2 * l + 1) =
      (L'.parts.map fun p => p.irrep.d * (newN * (l + 1)) * p.m + (l + 1) * l / 2 * (3 * (p.irrep.d * (newN * p.m)))).sum +
        (L'.parts.map fun p => l * (p.irrep.d * newN * p.m)).sum := by
    rw [← List.sum_map_add, ← hL'.sum_parts hm (by omega)]
    have : (fun p : PartT => p.irrep.d * (newN * (l + 1)) * p.m + (l + 1) * l / 2 * (3 * (p.irrep.d * (newN * p.m))) + l * (p.irrep.d * newN * p.m)) =
        fun p => (newN * (3 * ((l + 1) * l / 2) + 2 * l + 1)) * (p.irrep.d * p.m) := by
      funext p; ring
    rw [this, List.sum_map_mul_left]
    ring
  rw [e]
  refine Costs.bind (Q := List.Forall₂ (fun (p : PartT) (P : MPart) => p ∈ L'.parts ∧ P.N = newN * (l + 1) ∧ P.d = p.irrep.d ∧ P.m = p.m ∧ P.irrep = p.irrep)
    L'.parts) (Costs.each _ fun p hp => ?_) fun w hw => ?_
  · refine Costs.bind (partUpC_costs hm hl hL' hB hv hp) fun q hq => ?_
    obtain ⟨q1, q2, q3, q4⟩ := hq
    obtain ⟨hp', hrow, hrep, hd, hmm⟩ := hL'.repr (by omega) hp
    have hrep' : Repr' hp' q.irrep := by rw [q4]; exact hrep
    have := twistUpC_costs hap hrep' newN
    rw [q4, q3] at this
    refine this.mono (Nat.le_refl _) fun P hP => ?_
    obtain ⟨a1, a2, a3, a4⟩ := hP
    exact ⟨hp, a1.trans q1, a2.trans q2, a3, a4⟩
  · have hgood : ∀ P ∈ w, P.N = newN * (l + 1) ∧ IP.getn P.irrep.lambda = l + 1 := by
      intro P hP
      obtain ⟨p, hp, -, h1, -, -, h4⟩ := forall₂_mem_right hw hP
      exact ⟨h1, by rw [h4]; exact hL'.getn (by omega) hp⟩
    refine (Costs.each (g := MPart.reduce) (c := fun P => l * (P.d * newN * P.m)) (Q := fun P P' => P'.N = newN ∧ P'.d = P.d ∧ P'.m = P.m) w
      fun P hP => ?_).mono ?_ fun w' hw' => ?_
    · obtain ⟨h1, h2⟩ := hgood P hP
      unfold MPart.reduceC
      have hb : (P.reduce.bind fun Q => some Q) = P.reduce := by cases P.reduce <;> rfl
      refine Eq.mp (congrArg (fun y => Costs _ y _ _) hb) ?_
      refine (Costs.bind (Costs.free (Q := fun (P' : MPart) => P'.N = newN ∧ P'.d = P.d ∧ P'.m = P.m) fun P' hP' => ?_) fun P' hP' => ?_).mono'
        (k := 0 + (l * (P.d * newN * P.m) + 0)) (l := l * (P.d * newN * P.m)) (by omega)
      · unfold MPart.reduce at hP'
        rw [h2] at hP'
        simp only [Nat.add_eq_zero_iff, one_ne_zero, and_false, if_false] at hP'
        obtain rfl := Option.some.inj hP'
        exact ⟨by rw [h1, Nat.mul_div_cancel _ (Nat.succ_pos l)], rfl, rfl⟩
      · obtain ⟨a1, a2, a3⟩ := hP'
        rw [a1, a2, a3, h2]
        exact Costs.tick (Costs.pure ⟨a1, a2, a3⟩)
    · exact sum_le_of_forall₂ (fun p P hP => by
        obtain ⟨-, -, h1, h2, -⟩ := hP
        rw [h1, h2]) hw
    · refine hL'.dimV (by omega) ((forall₂_comp hw hw').imp fun p P' hP' => ?_)
      obtain ⟨P, ⟨a1, a2, a3, a4, a5⟩, b1, b2, b3⟩ := hP'
      exact ⟨a1, b1, b2.trans a3, b3.trans a4⟩

end

/-! ### one level of the inverse transform -/

/-- a part with its irrep -/
def DimI (m l N : Nat) (p : List Nat) (P : MPart) : Prop := Dim m l N p P ∧ mkIrrep p = some P.irrep

section
variable {apC : ViewActC} {ap : ViewAct} {m l : Nat} (hm : 0 < m) (hl : m ≤ l) (hap : CostOk apC ap (l + 1)) {L L' : LevelT} (hL : LevelOk m l L)
  (hL' : LevelOk m (l + 1) L') (hB : BlocksOk m l L')

theorem unblockLoopC_costs {N D : Nat} {part : MPart} (S : List (List Nat)) (hS : ∀ q ∈ S, q ∈ PL m l ∧ dimW l q ≤ D) (hS' : ∀ q ∈ S, 0 < (colW m l q).length) :
    ∀ (io jo : Nat) (R : List MPart), List.Forall₂ (DimI m l N) (PL m l) R →
      Costs (unblockLoopC l part (blocksW m l io jo S) R) (unblockLoop l part (blocksW m l io jo S) R)
        ((2 * (D * N) + 1) * (S.map fun q => (colW m l q).length).sum) (List.Forall₂ (DimI m l N) (PL m l)) := by
  induction S with
  | nil => intro io jo R hR; exact (Costs.pure hR).mono' (Nat.zero_le _)
  | cons q S ih =>
    intro io jo R hR
    obtain ⟨hq, hd⟩ := hS q (by simp)
    have hc := hS' q (by simp)
    have hget : (PL m l)[(PL m l).idxOf q]? = some q := by
      rw [List.getElem?_eq_getElem (List.idxOf_lt_length_of_mem hq), List.getElem_idxOf]
    rw [blocksW, unblockLoopC, unblockLoop]
    refine (Costs.bind (Costs.free (Q := DimI m l N q) fun M hM => cforall₂_get hR hget hM) fun M hM => Costs.tick ?_).mono' (k := 0 + (1 +
      ((2 * (D * N) * (colW m l q).length) + (2 * (D * N) + 1) * (S.map fun q => (colW m l q).length).sum))) ?_
    · refine Costs.bind (Q := DimI m l N q) ?_ fun M' hM' => ?_
      · unfold MPart.addBlockToC
        refine (Costs.tick (Costs.free fun M' hM' => ?_)).mono' (k := 2 * (M.d * M.N * M.m) + 0) ?_
        · unfold MPart.addBlockTo at hM'
          split at hM'
          · obtain rfl := Option.some.inj hM'; exact hM
          · cases hM'
        · rw [hM.1.1, hM.1.2.1, hM.1.2.2, Nat.add_zero, Nat.mul_assoc 2]
          exact Nat.mul_le_mul_left _ (Nat.mul_le_mul_right _ (Nat.mul_le_mul_right _ hd))
      · exact ih (fun q' h => hS q' (by simp [h])) (fun q' h => hS' q' (by simp [h])) _ _ _ (cforall₂_set hR hget hM')
    · rw [List.map_cons, List.sum_cons, Nat.mul_add]
      nlinarith

include hm hl hL' hB

theorem unpartLoopC_costs {N : Nat} (ps : List PartT) (hps : ∀ p ∈ ps, p ∈ L'.parts) : ∀ (VV R : List MPart), List.Forall₂ (DimI m l N) (PL m l) R →
    Costs (unpartLoopC l ps VV R) (unpartLoop l ps VV R) ((ps.map fun p => (2 * (p.irrep.d * N) + 1) * p.m).sum) (List.Forall₂ (DimI m l N) (PL m l)) := by
  induction ps with
  | nil => intro VV R hR; exact Costs.pure hR
  | cons p ps ih =>
    intro VV R hR
    cases VV with
    | nil => exact Costs.none
    | cons part VV =>
      have hp := hps p (by simp)
      obtain ⟨hp', hrow, hrep, hd, hmm⟩ := hL'.repr (by omega) hp
      rw [unpartLoopC, unpartLoop, List.map_cons, List.sum_cons]
      refine Costs.bind ?_ fun R' hR' => ih (fun p h => hps p (by simp [h])) VV R' hR'
      rw [hB p hp, hmm, colW_len_succ hl hp']
      exact unblockLoopC_costs _ (subs_mem hm hl hL' hB hp) (fun q hq => by
        obtain ⟨⟨hq', -⟩, hqr⟩ := (mem_subsM hp' q).1 hq
        exact colW_pos hq' hqr) 0 0 R hR

include hap hL

theorem levelDownC_costs {N : Nat} (hN : 0 < N) {V : List MPart} (hV : List.Forall₂ (DimI m (l + 1) N) (PL m (l + 1)) V) :
    Costs (L.downtransformC apC L' V) (L.downtransform ap L' V) (N * ((l + 1)! / m !) * (3 * ((l + 1) * l / 2) + 2 * l + 3))
      (List.Forall₂ (DimI m l (N * (l + 1))) (PL m l)) := by
  have hVd : DimV m (l + 1) N V := hV.imp fun _ _ h => h.1
  unfold LevelT.downtransformC LevelT.downtransform
  refine (Costs.bind (Costs.free (Q := fun N' => N' = N) fun N' hN' => hVd.vecN hN') fun N' hN' => ?_).mono'
    (k := 0 + N * ((l + 1)! / m !) * (3 * ((l + 1) * l / 2) + 2 * l + 3)) (by omega)
  subst hN'
  have hn : L.n = l := hL.n_eq
  rw [hn]
  have e : N' * ((l + 1)! / m !) * (3 * ((l + 1) * l / 2) + 2 * l + 3) =
      N' * ((l + 1)! / m !) * (3 * ((l + 1) * l / 2)) + N' * ((l + 1)! / m !) * (2 * l + 3) := by ring
  rw [e]
  have h1 : (V.map fun q => (l + 1) * l / 2 * (3 * (q.irrep.d * (N' * q.m)))).sum ≤ N' * ((l + 1)! / m !) * (3 * ((l + 1) * l / 2)) := by
    refine (sum_le_of_forall₂ (l := PL m (l + 1)) (e := fun p => (l + 1) * l / 2 * (3 * (dimW (l + 1) p * (N' * (colW m (l + 1) p).length)))) (Q := fun p P =>
      p ∈ PL m (l + 1) ∧ DimI m (l + 1) N' p P) (fun p P hP => ?_) ?_).trans ?_
    · obtain ⟨hp, ⟨-, -, h3⟩, h4⟩ := hP
      rw [irrep_d (by omega) ((mem_PL (by omega) _).1 hp).1 h4, h3]
    · exact (List.forall₂_and_left _ _).2 ⟨fun p hp => hp, hV⟩
    · have : (fun p : List Nat => (l + 1) * l / 2 * (3 * (dimW (l + 1) p * (N' * (colW m (l + 1) p).length)))) =
          fun p => (N' * (3 * ((l + 1) * l / 2))) * (dimW (l + 1) p * (colW m (l + 1) p).length) := by funext p; ring
      rw [this, List.sum_map_mul_left, sum_size hm (by omega)]
      exact le_of_eq (by ring)
  have h2 : (L'.parts.map fun p => (2 * (p.irrep.d * (N' * (l + 1))) + 1) * p.m).sum ≤ N' * ((l + 1)! / m !) * (2 * l + 3) := by
    rw [← hL'.sum_parts hm (by omega), Nat.mul_right_comm, ← List.sum_map_mul_left]
    refine List.sum_le_sum fun p hp => ?_
    obtain ⟨hp', hrow, hrep, hd, hmm⟩ := hL'.repr (by omega) hp
    have hdp : 1 ≤ p.irrep.d := by rw [hd]; exact dimW_pos hp'
    have : 1 * p.m ≤ p.irrep.d * N' * p.m := Nat.mul_le_mul_right _ (by nlinarith)
    nlinarith
  refine Costs.bind (Q := fun _ => True) (((Costs.each (Q := fun _ _ => True) (c := fun q : MPart => (l + 1) * l / 2 * (3 * (q.irrep.d * (N' * q.m))))
    V fun q hq => ?_).mono h1 fun _ _ => trivial)) fun VV _ => (unpartLoopC_costs hm hl hL' hB L'.parts (fun _ h => h) VV _ ?_).mono' h2
  · obtain ⟨p, hp, hq⟩ := forall₂_mem_right hV hq
    have hp' := ((mem_PL (by omega) _).1 hp).1
    obtain ⟨R, hR, -, hrep⟩ := exists_repr (by omega) hp'
    obtain rfl : R = q.irrep := Option.some.inj (hR.symm.trans hq.2)
    exact (twistDownC_costs hap (q := q.broadcast (l + 1)) hrep N').mono (Nat.le_refl _) fun _ _ => trivial
  · rw [← hL.keys, List.forall₂_map_left_iff, List.forall₂_map_right_iff, List.forall₂_same]
    intro p hp
    obtain ⟨hp', hrow, hrep, hd, hmm⟩ := hL.repr (by omega) hp
    obtain ⟨i, hi⟩ := List.mem_iff_getElem?.1 hp
    exact ⟨⟨rfl, hd, hmm⟩, (hL.part i p hi).2.1⟩

end

end Snob
