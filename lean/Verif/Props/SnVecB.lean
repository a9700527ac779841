import Verif.Proofs.SnVecB2
import Verif.Proofs.CGVecB2
import Verif.Proofs.CGSign
import Verif.Props.SnVec

/-! # Properties C78-C80: batched vectors -/

namespace Snob.Props

open Snob IP SnVecB

/-- **C78.** Acting on a batch acts on each member. -/
theorem C78_apply (n b : Nat) (hn : 1 ≤ n) (v : SnVecB) (hv : Ok n b v) (a : Arr) (ha : IsPerm n a) :
    ∃ w, SnVecB.apply v a = some w ∧ Ok n b w ∧ ∀ k < b, ∃ u, SnVec.apply (member v k) a = some u ∧ SnVec.obs u = SnVec.obs (member w k) := by
  obtain ⟨σ, rfl⟩ := ha
  exact apply_ok hn σ hv

/-- **C78.** Likewise for a transposition, and it is the same as acting with the permutation. -/
theorem C78_transposition (n b : Nat) (hn : 1 ≤ n) (v : SnVecB) (hv : Ok n b v) (i j : Fin n) :
    ∃ w, SnVecB.applyTransposition v ((i : Nat) + 1) ((j : Nat) + 1) = some w ∧ Ok n b w ∧
      ∀ k < b, ∃ u, SnVec.apply (member v k) (enc (Equiv.swap i j)) = some u ∧ SnVec.obs u = SnVec.obs (member w k) :=
  applyTransposition_ok hn i j hv

/-- **C78.** The type of a batch is the type of each member. -/
theorem C78_type (v : SnVecB) (k : Nat) : SnVec.getType (member v k) = SnVecB.getType v := member_getType v k

/-- **C78.** Restricting a batched part restricts each member. -/
theorem C78_down (n b : Nat) (hn : 1 ≤ n) (P : BPart) (hP : Ok (n + 1) b [P]) :
    ∃ w, SnVecB.down P = some w ∧ Ok n b w ∧ ∀ k, SnVec.downB (P.member k) = some (member w k) :=
  SnVecB.down_ok hn hP

/-- **C78.** `accumulate_up` of batches does for each member what `accumulate_up` of vectors does, and is undefined when that is. -/
theorem C78_accumulate_up (n b : Nat) (R sub : SnVecB) (hR : Ok (n + 1) b R) (hs : Ok n b sub) (offs tau : SnType) (k : Nat) :
    (SnVecB.accumulateUp R offs sub tau).map (fun s => (member s.1 k, s.2)) =
      SnVec.accumulateUp (member R k) offs (member sub k) tau :=
  accumulateUp_member hs.allB k tau R hR.allB offs

/-- **C79.** False as written: when a partition of the type has two corners, `up` of a batch is undefined, though `up` of each
member is defined. -/
theorem C79_up_undefined (n b : Nat) (hn : 1 ≤ n) (v : SnVecB) (hv : Ok n b v) (tau : SnType) (ht : TypeOk (n + 1) tau)
    (hm : ∀ x ∈ parts tau, 0 ≤ mult tau x) (hd : SnType.down tau = SnVecB.getType v) (x mu nu : List Nat) (hx : x ∈ parts tau)
    (h1 : IsPartition n mu) (h2 : IsPartition n nu) (h3 : AddsBox mu x) (h4 : AddsBox nu x) (hne : mu ≠ nu) :
    SnVecB.up tau v = none ∧ ∀ k, ∃ R, SnVec.up tau (member v k) = some R := by
  refine ⟨up_none hn hv ht hm ⟨x, hx, ?_⟩, fun k => ?_⟩
  · have hp := ht.all x hx
    have a := (mem_subs hp mu).2 ⟨h1, h3⟩
    have c := (mem_subs hp nu).2 ⟨h2, h4⟩
    match e : subs x with
    | [] => rw [e] at a; simp at a
    | [y] =>
      rw [e] at a c
      rw [List.mem_singleton] at a c
      exact absurd (a.trans c.symm) hne
    | _ :: _ :: _ => simp
  · obtain ⟨R, -, -, h, -⟩ := C49_down_of_up n hn (member v k) (hv.member k) tau ht hm (by rw [member_getType]; exact hd)
    exact ⟨R, h⟩

/-- **C79.** For types whose partitions have one corner (the rectangles), inducing a batch induces each member. Missing: the other
partitions, for which it is false. -/
theorem C79_up_partial (n b : Nat) (hn : 1 ≤ n) (v : SnVecB) (hv : Ok n b v) (hv0 : v ≠ []) (tau : SnType) (ht : TypeOk (n + 1) tau)
    (hm : ∀ x ∈ parts tau, 0 ≤ mult tau x)
    (h1 : ∀ x ∈ parts tau, ∀ mu nu, IsPartition n mu → IsPartition n nu → AddsBox mu x → AddsBox nu x → mu = nu) (k : Nat) :
    (SnVecB.up tau v).map (fun w => member w k) = SnVec.up tau (member v k) := by
  refine up_member hn hv hv0 ht hm (fun x hx => ?_) k
  have hp := ht.all x hx
  match e : subs x with
  | [] => exact absurd e (subs_ne hn hp)
  | [y] => exact ⟨y, rfl⟩
  | y :: z :: l =>
    have a := (mem_subs hp y).1 (by rw [e]; simp)
    have c := (mem_subs hp z).1 (by rw [e]; simp)
    have := h1 x hx y z a.1 c.1 a.2 c.2
    have hnd := subs_nodup x
    rw [e, this] at hnd
    simp at hnd

theorem mulCol_one {n : Nat} (hn : 1 ≤ n) {x : List Nat} (hx : IsPartition n x) {c : List ℝ} (hc : c.length = dimOf x) :
    SnVec.mulCol (dimOf x) (evalN x (enc (1 : Equiv.Perm (Fin n)))) c = c := by
  unfold SnVec.mulCol
  refine List.ext_getElem (by simp [hc]) fun i h1 h2 => ?_
  have hi : i < dimOf x := by simpa using h1
  rw [List.getElem_map, List.getElem_range, list_sum_range]
  have e : ∀ l : Fin (dimOf x), evalN x (enc (1 : Equiv.Perm (Fin n))) i l * c.getD l 0 = if l = ⟨i, hi⟩ then c.getD l 0 else 0 := by
    intro l
    have e1 : evalN x (enc (1 : Equiv.Perm (Fin n))) i l = (1 : Matrix (Fin (dimOf x)) (Fin (dimOf x)) ℝ) ⟨i, hi⟩ l :=
      ((evalN_spec hn hx 1).2 ⟨i, hi⟩ l).trans (by rw [map_one]; rfl)
    rw [e1, Matrix.one_apply]
    by_cases h : l = ⟨i, hi⟩
    · rw [if_pos h, if_pos h.symm, one_mul]
    · rw [if_neg h, if_neg (Ne.symm h), zero_mul]
  rw [Finset.sum_congr rfl fun l _ => e l]
  simp [h2]

/-- acting with the identity changes nothing -/
theorem obs_apply_one {n : Nat} (hn : 1 ≤ n) {v : SnVec} (hv : SnVec.Ok n v) :
    ∃ u, SnVec.apply v (enc (1 : Equiv.Perm (Fin n))) = some u ∧ SnVec.obs u = SnVec.obs v := by
  obtain ⟨u, h1, -, h2, -⟩ := vecApply_ok hn 1 v hv
  refine ⟨u, h1, ?_⟩
  rw [h2]
  unfold actObs SnVec.obs
  rw [List.map_map]
  refine List.map_congr_left fun P hP => ?_
  simp only [Function.comp, Prod.mk.injEq, true_and]
  refine (List.map_congr_left fun c hc => ?_).trans (List.map_id _)
  refine mulCol_one hn (hv.part P hP).1 ?_
  obtain ⟨j, -, rfl⟩ := List.mem_map.1 hc
  rw [List.length_map, List.length_range]
  exact part_d hv hP

/-- **C80.** What `apply_inplace` does as written: nothing, for every permutation. -/
theorem C80_unchanged (n b : Nat) (hn : 1 ≤ n) (v : SnVecB) (hv : Ok n b v) (a : Arr) (ha : IsPerm n a) :
    SnVecB.applyInplace v a = some v := by
  obtain ⟨σ, rfl⟩ := ha
  obtain ⟨w, h, -⟩ := apply_ok hn σ hv
  exact foldlM_const v v _ h

/-- **C80.** Likewise for a contiguous cycle. -/
theorem C80_unchanged_cycle (n b : Nat) (hn : 1 ≤ n) (v : SnVecB) (hv : Ok n b v) (i j : Fin n) :
    SnVecB.applyInplaceCycle v ((i : Nat) + 1) ((j : Nat) + 1) = some v := by
  obtain ⟨w, h, -⟩ := applyCycle_ok hn i j hv
  exact foldlM_const v v _ h

/-- **C80.** So it is not what `apply` gives: for every n>=2 and every size of the batch there are a batch and a permutation for which
the vectors left by `apply_inplace` and given by `apply` differ in each member. -/
theorem C80_inplace_false (n b : Nat) (hn : 2 ≤ n) : ∃ (v : SnVecB) (a : Arr) (u w : SnVecB), Ok n b v ∧ IsPerm n a ∧
    SnVecB.applyInplace v a = some u ∧ SnVecB.apply v a = some w ∧ ∀ k < b, SnVec.obs (member u k) ≠ SnVec.obs (member w k) := by
  have hcol := isPartition_col n
  set x := List.replicate n 1 with hx
  have hv : SnVecB.Ok n b [mkB b x 1 fun _ _ _ => 1] := ok_of_member (k := 0) (fun P hP => by rw [List.mem_singleton.1 hP]; rfl)
    (ok_map (L := [x]) (by omega) (by simpa using hcol) (by simp) (fun _ => 1) fun _ _ _ => 1)
  set σ : Equiv.Perm (Fin n) := Equiv.swap ⟨0, by omega⟩ ⟨1, by omega⟩ with hσ
  obtain ⟨w, h1, -, h2⟩ := C78_apply n b (by omega) _ hv (enc σ) ⟨σ, rfl⟩
  refine ⟨_, enc σ, _, w, hv, ⟨σ, rfl⟩, C80_unchanged n b (by omega) _ hv _ ⟨σ, rfl⟩, h1, fun k hk h => ?_⟩
  obtain ⟨u, h3, h4⟩ := h2 k hk
  obtain ⟨u', h5, -, h6, -⟩ := vecApply_ok (by omega) σ _ (hv.member k)
  obtain rfl : u' = u := Option.some.inj (h5.symm.trans h3)
  rw [← h4, h6] at h
  have hd : dimOf x = 1 := dimOf_col (by omega)
  have hl : (irrOf x).lambda = x := (irrOf_spec (by omega) hcol).2.1
  have ho : SnVec.obs (member [mkB b x 1 fun _ _ _ => 1] k) = [(x, [[1]])] := by
    have : ((mkB b x 1 fun _ _ _ => 1).member k).cols = [[1]] := by
      unfold VPart.cols
      rw [show ((mkB b x 1 fun _ _ _ => 1).member k).d = 1 from hd, show ((mkB b x 1 fun _ _ _ => 1).member k).m = 1 from rfl]
      simp [List.range_succ, BPart.member, mkB]
    unfold SnVec.obs member
    simp only [List.map_cons, List.map_nil, this]
    rw [show ((mkB b x 1 fun _ _ _ => 1).member k).irrep.lambda = x from hl]
  rw [ho] at h
  unfold actObs at h
  simp only [List.map_cons, List.map_nil, List.cons.injEq, Prod.mk.injEq, true_and, and_true] at h
  have e : SnVec.mulCol (dimOf x) (evalN x (enc σ)) [1] = [-1] := by
    unfold SnVec.mulCol
    rw [hd]
    have := evalN_col (by omega) σ
    rw [hσ, Equiv.Perm.sign_swap (by simp)] at this
    simp [List.range_succ]
    rw [hσ, hx, this]
    norm_num
  rw [e] at h
  norm_num at h

/-- **C80.** It is what `apply` gives when the permutation is the identity. Missing: the others, for which it is false. -/
theorem C80_inplace_partial (n b : Nat) (hn : 1 ≤ n) (v : SnVecB) (hv : Ok n b v) : ∃ u w,
    SnVecB.applyInplace v (enc (1 : Equiv.Perm (Fin n))) = some u ∧ SnVecB.apply v (enc (1 : Equiv.Perm (Fin n))) = some w ∧
      ∀ k < b, SnVec.obs (member u k) = SnVec.obs (member w k) := by
  obtain ⟨w, h1, -, h2⟩ := C78_apply n b hn v hv _ ⟨1, rfl⟩
  refine ⟨v, w, C80_unchanged n b hn v hv _ ⟨1, rfl⟩, h1, fun k hk => ?_⟩
  obtain ⟨u, h3, h4⟩ := h2 k hk
  obtain ⟨u', h5, h6⟩ := obs_apply_one hn (hv.member k)
  obtain rfl : u' = u := Option.some.inj (h5.symm.trans h3)
  rw [← h4, h6]

/-! ## Examples -/

/-- a batch of two vectors over `S_3`, with two columns in the part of (2,1) -/
noncomputable def exBatch : BPart := mkB 2 [2, 1] 2 fun b i j => 100 * b + i + 10 * j

theorem exBatch_ok : Ok 3 2 [exBatch] :=
  ok_of_member (k := 0) (fun P hP => by rw [List.mem_singleton.1 hP]; rfl)
    (ok_map (L := [[2, 1]]) (by norm_num) (by simpa using part21) (by simp) (fun _ => 2) fun _ i j => 100 * (0 : Nat) + i + 10 * j)

theorem exBatch_cols : (exBatch.member 1).cols = [[100, 101], [110, 111]] := by
  unfold VPart.cols
  rw [show (exBatch.member 1).d = 2 from dimOf_ex.1, show (exBatch.member 1).m = 2 from rfl]
  simp [List.range_succ, BPart.member, exBatch, mkB]
  norm_num

/-- acting on it with a cycle -/
example : ∃ w, SnVecB.apply [exBatch] (enc (cyc 0 2 : Equiv.Perm (Fin 3))) = some w ∧ Ok 3 2 w := by
  obtain ⟨w, h1, h2, -⟩ := C78_apply 3 2 (by norm_num) _ exBatch_ok _ ⟨_, rfl⟩
  exact ⟨w, h1, h2⟩

/-- the second member of the restriction -/
example : ∃ w, SnVecB.down exBatch = some w ∧ SnVec.obs (member w 1) = [([2], [[100], [110]]), ([1, 1], [[101], [111]])] := by
  obtain ⟨w, h1, h2, h3⟩ := C78_down 2 2 (by norm_num) exBatch exBatch_ok
  refine ⟨w, h1, ?_⟩
  obtain ⟨R, a1, -, -, a2, -⟩ := downB_ok (by norm_num) (exBatch.member 1) (exBatch_ok.member 1)
  have : R = member w 1 := Option.some.inj (a1.symm.trans (h3 1))
  have hs : subs [2, 1] = [[2], [1, 1]] := by decide +kernel
  have hl : (exBatch.member 1).irrep.lambda = [2, 1] := (irrOf_spec (by norm_num) part21).2.1
  rw [← this, a2, hl, hs, exBatch_cols]
  simp [slice, offOf, dimOf_ex]

/-- the restriction cannot be induced back -/
example : ∃ w, SnVecB.down exBatch = some w ∧ SnVecB.up [([2, 1], 2)] w = none := by
  obtain ⟨w, h1, h2, h3⟩ := C78_down 2 2 (by norm_num) exBatch exBatch_ok
  have hl : exBatch.irrep.lambda = [2, 1] := (irrOf_spec (by norm_num) part21).2.1
  refine ⟨w, h1, (C79_up_undefined 2 2 (by norm_num) w h2 [([2, 1], 2)] ⟨by simpa [parts] using part21, by simp [parts]⟩ (by simp [parts, mult])
    ?_ [2, 1] [2] [1, 1] (by simp [parts]) ?_ ?_ ?_ ?_ (by simp)).1⟩
  · obtain ⟨R, a1, a2, a3, a4, -⟩ := C49_downB 2 (by norm_num) _ (exBatch_ok.member 0)
    have hR : R = member w 0 := Option.some.inj (a1.symm.trans (h3 0))
    have p1 : IP.parents [2, 1] = some [[2], [1, 1]] := by decide +kernel
    rw [← member_getType w 0, ← hR, getType_eq a2, typeOf_obs]
    have h2 : R.map (fun P => (P.irrep.lambda, (P.m : Int))) = (R.map fun P => P.irrep.lambda).map fun x => (x, (2 : Int)) := by
      rw [List.map_map]
      exact List.map_congr_left fun Q hQ => by simp only [Function.comp]; rw [a4 Q hQ]; rfl
    rw [show (exBatch.member 0).irrep.lambda = [2, 1] from hl, p1] at a3
    rw [h2, ← Option.some.inj a3]
    decide +kernel
  · exact (mem_partitions 2 (by norm_num) _).1 (by decide +kernel)
  · exact (mem_partitions 2 (by norm_num) _).1 (by decide +kernel)
  · exact ((mem_subs part21 [2]).1 (by decide +kernel)).2
  · exact ((mem_subs part21 [1, 1]).1 (by decide +kernel)).2

/-- a batch over `S_1` induced to (2) -/
example (k : Nat) : (SnVecB.up [([2], 1)] [mkB 2 [1] 1 fun b _ _ => b]).map (fun w => member w k) = SnVec.up [([2], 1)] [mkP [1] 1 fun _ _ => k] := by
  have p2 : IsPartition 2 [2] := (mem_partitions 2 (by norm_num) _).1 (by decide +kernel)
  refine C79_up_partial 1 2 (by norm_num) [mkB 2 [1] 1 fun b _ _ => b] ?_ (by simp) [([2], 1)] ⟨by simpa [parts] using p2, by simp [parts]⟩
    (by simp [parts, mult]) ?_ k
  · exact ok_of_member (k := 0) (fun P hP => by rw [List.mem_singleton.1 hP]; rfl)
      (ok_map (L := [[1]]) (by norm_num) (by simpa using part_one) (by simp) (fun _ => 1) fun _ _ _ => (0 : Nat))
  · intro x hx mu nu h1 h2 h3 h4
    obtain rfl : x = [2] := by simpa [parts] using hx
    have a := (mem_subs p2 mu).2 ⟨h1, h3⟩
    have c := (mem_subs p2 nu).2 ⟨h2, h4⟩
    rw [show subs [2] = [[1]] by decide +kernel, List.mem_singleton] at a c
    rw [a, c]

example : SnVecB.applyInplace [exBatch] (enc (cyc 0 2 : Equiv.Perm (Fin 3))) = some [exBatch] :=
  C80_unchanged 3 2 (by norm_num) _ exBatch_ok _ ⟨_, rfl⟩

end Snob.Props
