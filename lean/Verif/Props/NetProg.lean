import Verif.Proofs.NetProg
import Verif.Props.CheckCG
import Verif.Props.SnVecAct

/-! # C137: programs with products; products and the permutations of the first three letters -/

namespace Snob.Props

open Snob SnVec Weights Perm

variable {n : Nat}

theorem fixes_of {σ : Equiv.Perm (Fin n)} (h : ∀ i : Int, 4 ≤ i → i ≤ n → app (enc σ) i = some i) (i : Fin n) (hi : 3 ≤ (i : Nat)) : σ i = i := by
  have := h ((i : Int) + 1) (by omega) (by omega)
  unfold app at this
  rw [add_sub_cancel_right, rd_enc] at this
  simp only [Option.some.injEq, add_left_inj, Nat.cast_inj] at this
  exact Fin.ext this

section
variable {eig : Eig} (he : EigOk eig) (hN : n ≤ 1234567)
include he hN

/-- **C73, for any number of letters.** The product commutes with the permutations that move the first three letters only. With three
letters or fewer these are all the permutations; from five on it does not commute with all (`C73_not_equivariant`). -/
theorem C73_first_three_partial (hn : 1 ≤ n) {x y : SnVec} (hx : Ok n x) (hy : Ok n y) (mx : ∀ P ∈ x, P.m = 1) (my : ∀ P ∈ y, P.m = 1) {a : Arr}
    (ha : IsPerm n a) (hfix : ∀ i : Int, 4 ≤ i → i ≤ n → app a i = some i) :
    ∃ S R', (do let x' ← x.apply a; let y' ← y.apply a; cgVec eig x' y') = some S ∧ (do let R ← cgVec eig x y; R.apply a) = some R' ∧ obs S = obs R' := by
  obtain ⟨σ, rfl⟩ := ha
  obtain ⟨x', x1, x2, -⟩ := apply_data hn σ hx
  obtain ⟨y', y1, y2, -⟩ := apply_data hn σ hy
  have ax := acted_of hn hx x1 x2 rfl
  have ay := acted_of hn hy y1 y2 rfl
  obtain ⟨R, r1, r2, -⟩ := vec_ok' hn (accAny_ok he hn hN) hx hy mx my
  obtain ⟨S, s1, s2, -⟩ := vec_ok' hn (accAny_ok he hn hN) x2 y2 (ax.m hx mx) (ay.m hy my)
  obtain ⟨R', t1, t2, t3, -⟩ := vecApply_ok hn σ R r2
  obtain ⟨-, h⟩ := prod_acted hn (accAny_ok he hn hN) (equiFor_three he hn σ (fixes_of hfix)) hx hy mx my ax ay r1 s1
  refine ⟨S, R', ?_, ?_, by rw [t3]; exact h.obs_eq hn r2⟩
  · simp only [x1, y1, Option.bind_eq_bind, Option.bind_some]
    exact s1
  · simp only [Option.bind_eq_bind]
    exact Option.bind_eq_some_iff.2 ⟨R, r1, t1⟩

/-- **C136.** The first two pairs, for the exchanges of 1 and 2 and of 2 and 3, always agree, with any number of letters: only the later ones
can show a disagreement. -/
theorem C136_first_two_partial (hn : 1 ≤ n) {a b : List Nat} {x y : BPart} (hx : x.One n a) (hy : y.One n b) :
    ∃ L, checkCG eig x y = some L ∧ ∀ k < 2, ∀ pr, L[k]? = some pr → obs (SnVecB.member pr.1 0) = obs (SnVecB.member pr.2 0) := by
  obtain ⟨L, h1, h2, -⟩ := checkCG_iff he hn hN hx hy
  refine ⟨L, h1, fun k hk pr hpr => ?_⟩
  have hk' : k + 1 < n := by have := (List.getElem?_eq_some_iff.1 hpr).1; omega
  obtain ⟨X, Y, R0, S, R', g1, g2, g3, g4, g5, g6⟩ := checkCGstep_ok he hn hN hx hy hk'
  have hpr' : pr = (S, R') := by
    unfold checkCG at h1
    have hg : (List.range (IP.getn x.irrep.lambda - 1))[k]? = some k := by
      have hl : IP.getn x.irrep.lambda - 1 = n - 1 := by rw [getn_eq, (hx.1.part x (by simp)).1.sum]
      rw [hl, List.getElem?_range (by omega)]
    obtain ⟨b', e1, e2⟩ := ((mapM_some_iff _ _ _).1 h1).2 k k hg
    rw [hpr] at e1
    cases e1
    exact Option.some.inj (e2.symm.trans g1)
  subst hpr'
  have hΦ := equiFor_three he hn (adj n k) fun i hi => Fin.ext (by rw [adj_val hk', if_neg (by omega), if_neg (by omega)])
  refine (commutes_iff hn (accAny_ok he hn hN) (hx.1.member 0) (hy.1.member 0) hx.2.2 hy.2.2 hx.2.1 hy.2.1 g2 g3 g4 g5 g6).2 ?_
  have ha : IsPartition n a := hx.2.1 ▸ (hx.1.part x (by simp)).1
  have hb : IsPartition n b := hy.2.1 ▸ (hy.1.part y (by simp)).1
  exact equiAt_iff.1 (hΦ a b ha hb) _ _

/-- **C137.** Whether a program with products runs, how many vectors it ends with and their types depend on the types of its inputs only. -/
theorem C137_types (hn : 2 ≤ n) (p : List NStmt) (s t r : List SnVec) (hs : ∀ v ∈ s, Ok n v) (ht : ∀ v ∈ t, Ok n v) (hst : List.Forall₂ SameType s t)
    (h : NStmt.run eig p s = some r) : ∃ r', NStmt.run eig p t = some r' ∧ List.Forall₂ SameType r r' ∧ (∀ v ∈ r, Ok n v) ∧ ∀ v ∈ r', Ok n v := by
  have h0 : List.Forall₂ (Alike n) s t := by
    clear h
    induction hst with
    | nil => exact .nil
    | cons q _ ih => exact .cons ⟨hs _ (by simp), ht _ (by simp), q⟩ (ih (fun v hv => hs v (by simp [hv])) fun v hv => ht v (by simp [hv]))
  have hA : ∀ (p : List NStmt) s, NStmt.Adds eig (fun _ _ => True) p s := by
    intro p
    induction p with
    | nil => exact fun _ => trivial
    | cons c p ih => exact fun s => ⟨fun _ _ _ _ _ _ => trivial, fun s' _ => ih s'⟩
  obtain ⟨r', e1, e2⟩ := (netRel_alike he hn hN).run h0 (hA p s) h
  refine ⟨r', e1, e2.imp fun _ _ q => q.2.2, fun v hv => ?_, fun v hv => ?_⟩
  · obtain ⟨i, hi⟩ := List.mem_iff_getElem?.1 hv
    obtain ⟨w, -, q⟩ := forall₂_get e2 hi
    exact q.1
  · obtain ⟨i, hi⟩ := List.mem_iff_getElem?.1 hv
    obtain ⟨w, -, q⟩ := forall₂_get' e2 hi
    exact q.2.1

/-- **C137.** The full statement would be this one for every permutation: a program with products, run on permuted inputs, ends with the
permuted results. It is proved for the permutations of the first three letters, so for all of them with two or three letters, and for programs
that only add vectors of the same type. From five letters on it is false for all the permutations (`C137_not_equivariant`), and it is false
for sums of vectors of different types (`C137_unlike_sums`). -/
theorem C137_equivariant_partial (hn : 2 ≤ n) (p : List NStmt) (s r : List SnVec) (hs : ∀ v ∈ s, Ok n v) (hA : NStmt.Adds eig SameType p s)
    (h : NStmt.run eig p s = some r) {a : Arr} (ha : IsPerm n a) (hfix : ∀ i : Int, 4 ≤ i → i ≤ n → app a i = some i) :
    ∃ s' t, applyAll a s = some s' ∧ NStmt.run eig p s' = some t ∧ t.length = r.length ∧
      ∀ (i : Nat) (w : SnVec), r[i]? = some w → ∃ w' w'', t[i]? = some w' ∧ w.apply a = some w'' ∧ obs w' = obs w'' := by
  obtain ⟨σ, rfl⟩ := ha
  obtain ⟨s', h1, h2⟩ : ∃ s', applyAll (enc σ) s = some s' ∧ List.Forall₂ (Moved n σ) s s' := by
    clear h hA
    unfold applyAll
    induction s with
    | nil => exact ⟨[], rfl, .nil⟩
    | cons v s ih =>
      obtain ⟨v', x1, x2, -⟩ := apply_data (by omega) σ (hs v (by simp))
      obtain ⟨s', e1, e2⟩ := ih fun w hw => hs w (by simp [hw])
      refine ⟨v' :: s', by rw [List.mapM_cons, x1, e1]; rfl, .cons ⟨hs v (by simp), acted_of (by omega) (hs v (by simp)) x1 x2 rfl⟩ e2⟩
  obtain ⟨t, e1, e2⟩ := (netRel_moved he hn hN (equiFor_three he (by omega) σ (fixes_of hfix))).run h2 hA h
  refine ⟨s', t, h1, e1, e2.length_eq.symm, fun i w hw => ?_⟩
  obtain ⟨w', hw', q⟩ := forall₂_get e2 hw
  obtain ⟨w'', f1, -, f3, -⟩ := vecApply_ok (by omega) σ w q.1
  exact ⟨w', w'', hw', f1, by rw [f3]; exact q.2.obs_eq (by omega) q.1⟩

/-- **C137.** The invariants a program computes, the entries of the parts of `(n)` of its results, do not change when the first three letters
of all its inputs are permuted. -/
theorem C137_invariants_partial (hn : 2 ≤ n) (p : List NStmt) (s r : List SnVec) (hs : ∀ v ∈ s, Ok n v) (hA : NStmt.Adds eig SameType p s)
    (h : NStmt.run eig p s = some r) {a : Arr} (ha : IsPerm n a) (hfix : ∀ i : Int, 4 ≤ i → i ≤ n → app a i = some i) :
    ∃ s' t, applyAll a s = some s' ∧ NStmt.run eig p s' = some t ∧
      ∀ (i : Nat) (w : SnVec), r[i]? = some w → ∃ w', t[i]? = some w' ∧ colsAt (obs w') [n] = colsAt (obs w) [n] := by
  obtain ⟨s', t, h1, h2, -, h3⟩ := C137_equivariant_partial he hN hn p s r hs hA h ha hfix
  refine ⟨s', t, h1, h2, fun i w hw => ?_⟩
  obtain ⟨σ, rfl⟩ := ha
  obtain ⟨w', w'', e1, e2, e3⟩ := h3 i w hw
  have ow : Ok n w := by
    obtain ⟨r', f1, -, f2, -⟩ := C137_types he hN hn p s s r hs hs (List.forall₂_same.2 fun _ _ => rfl) h
    exact f2 w (List.mem_of_getElem? hw)
  refine ⟨w', e1, ?_⟩
  obtain ⟨u, g1, g2, g3, -⟩ := vecApply_ok (by omega) σ w ow
  obtain rfl := Option.some.inj (e2.symm.trans g1)
  rw [e3, g3]
  unfold colsAt actObs
  have d1 : dimOf [n] = 1 := dimOf_row (by omega)
  have key : ∀ c : List ℝ, c.length = 1 → mulCol (dimOf [n]) (evalN [n] (enc σ)) c = c := by
    intro c hc
    obtain ⟨z, rfl⟩ := List.length_eq_one_iff.1 hc
    unfold mulCol
    rw [d1]
    simp [evalN_row (n := n) (by omega) σ]
  have hlen : ∀ e ∈ obs w, e.1 = [n] → ∀ c ∈ e.2, c.length = 1 := by
    intro e he' h1 c hc
    obtain ⟨P, hP, rfl⟩ := List.mem_map.1 he'
    obtain ⟨j, -, rfl⟩ := List.mem_map.1 hc
    rw [List.length_map, List.length_range, part_d ow hP, show P.irrep.lambda = [n] from h1, d1]
  generalize obs w = o at hlen
  induction o with
  | nil => rfl
  | cons e o ih =>
    rw [List.map_cons, List.lookup_cons, List.lookup_cons]
    by_cases hq : [n] = e.1
    · simp only [← hq, beq_self_eq_true, Option.getD_some]
      conv_rhs => rw [← List.map_id e.2]
      exact List.map_congr_left fun c hc => key c (hlen e (by simp) hq.symm c hc)
    · simp only [beq_false_of_ne hq]
      exact ih fun e' he' => hlen e' (by simp [he'])

end

/-- **C137** is false of the code from five letters on, for permutations that move later letters: whatever the solver, there are two
inputs and a permutation for which the program that multiplies the inputs does not commute with the action. -/
theorem C137_not_equivariant {eig : Eig} (he : EigOk eig) {n : Nat} (hn : 5 ≤ n) (hN : n ≤ 1234567) :
    ∃ (s s' r t : List SnVec) (a : Arr) (w w' w'' : SnVec), (∀ v ∈ s, Ok n v) ∧ IsPerm n a ∧ NStmt.run eig [.prod 0 1] s = some r ∧
      applyAll a s = some s' ∧ NStmt.run eig [.prod 0 1] s' = some t ∧ r[2]? = some w ∧ t[2]? = some w' ∧ w.apply a = some w'' ∧ obs w' ≠ obs w'' := by
  obtain ⟨P, Q, a, hP, hQ, mP, mQ, ha, S, R', h1, h2, h3⟩ := C73_not_equivariant he hn hN
  obtain ⟨x', x1, h1⟩ := Option.bind_eq_some_iff.1 h1
  obtain ⟨y', y1, h1⟩ := Option.bind_eq_some_iff.1 h1
  obtain ⟨R, r1, h2⟩ := Option.bind_eq_some_iff.1 h2
  refine ⟨[[P], [Q]], [x', y'], [[P], [Q], R], [x', y', S], a, R, S, R', by simp [hP, hQ], ha, ?_, ?_, ?_, rfl, rfl, h2, h3⟩
  · simp [NStmt.run, NStmt.exec, r1]
  · simp [applyAll, x1, y1]
  · simp [NStmt.run, NStmt.exec, h1]

/-- **C137** is false of the code for programs that add vectors of different types, which is not refused: over `S_2`, the sum of vectors
with a part of `(2)` and with a part of `(1,1)`. -/
theorem C137_unlike_sums (eig : Eig) : ∃ (s s' r t : List SnVec) (a : Arr) (w w' w'' : SnVec), (∀ v ∈ s, Ok 2 v) ∧ IsPerm 2 a ∧
    NStmt.run eig [.lin (.add 0 1)] s = some r ∧ applyAll a s = some s' ∧ NStmt.run eig [.lin (.add 0 1)] s' = some t ∧ r[0]? = some w ∧
      t[0]? = some w' ∧ w.apply a = some w'' ∧ obs w' = [([2], [[0]])] ∧ obs w'' = [([2], [[2]])] := by
  obtain ⟨h1, h2, u, a, v', w', u', u'', e1, e2, e3, e4, e5, e6, e7, e8⟩ := C86_add_false
  refine ⟨[exOne [2] 1, exOne [1, 1] 1], [v', w'], [u, exOne [1, 1] 1], [u'', w'], a, u, u'', u', by simp [h1, h2], ?_, ?_, ?_, ?_, rfl, rfl, e5, e8, e7⟩
  · have : a = enc (Equiv.swap (0 : Fin 2) 1) := Option.some.inj (e2.symm.trans (by decide))
    exact ⟨_, this⟩
  · simp [NStmt.run, NStmt.exec, VStmt.exec, e1]
  · simp [applyAll, e3, e4]
  · simp [NStmt.run, NStmt.exec, VStmt.exec, e6]

/-! ## Examples -/

/-- two vectors are multiplied, the product is doubled, and the first input is put beside it -/
def exNet : List NStmt := [.prod 0 1, .lin (.add 2 2), .lin (.cat 2 [0])]

theorem exNet_adds (eig : Eig) (s : List SnVec) : NStmt.Adds eig SameType exNet s := by
  simp only [exNet, NStmt.Adds, NStmt.sums, List.not_mem_nil, false_implies, implies_true, true_and, List.mem_singleton, and_true, forall_eq]
  intro s' _ u v hu hv
  rw [hu] at hv
  cases hv
  rfl

theorem exNet_run {eig : Eig} (he : EigOk eig) (hn : 1 ≤ n) (hN : n ≤ 1234567) {x y : SnVec} (hx : Ok n x) (hy : Ok n y) (mx : ∀ P ∈ x, P.m = 1)
    (my : ∀ P ∈ y, P.m = 1) : ∃ r w, NStmt.run eig exNet [x, y] = some r ∧ r[3]? = some w := by
  obtain ⟨R, r1, r2, -⟩ := vec_ok' hn (accAny_ok he hn hN) hx hy mx my
  obtain ⟨R2, q1, q2, -⟩ := C86_add_partial r2 r2 rfl
  obtain ⟨t, W, -, -, -, -, w1, -⟩ := cat_ok hn [R2, x] (by simp [q2, hx])
  have r1' : cgVec eig x y = some R := r1
  refine ⟨[x, y, R2, W], W, ?_, rfl⟩
  simp [exNet, NStmt.run, NStmt.exec, VStmt.exec, r1', q1, w1]

/-- with three letters, and the cycle 1→2→3→1 -/
example : ∃ r s' t w w' w'', NStmt.run eigS exNet [exVec 1 2, exVec 3 4] = some r ∧
    applyAll [some 2, some 3, some 1] [exVec 1 2, exVec 3 4] = some s' ∧ NStmt.run eigS exNet s' = some t ∧
    r[3]? = some w ∧ t[3]? = some w' ∧ w.apply [some 2, some 3, some 1] = some w'' ∧ obs w' = obs w'' := by
  obtain ⟨r, w, h, h2⟩ := exNet_run eigS_ok (n := 3) (by norm_num) (by norm_num) (exVec_ok 1 2) (exVec_ok 3 4) (by simp [exVec, mkP]) (by simp [exVec, mkP])
  obtain ⟨s', t, a1, a2, -, a3⟩ := C137_equivariant_partial eigS_ok (n := 3) (by norm_num) (by norm_num) exNet _ r
    (by simp [exVec_ok]) (exNet_adds _ _) h (a := [some 2, some 3, some 1]) ⟨cyc 0 2, by decide⟩ (by intro i h1 h2; norm_num at h2; omega)
  obtain ⟨w', w'', b1, b2, b3⟩ := a3 3 w h2
  exact ⟨r, s', t, w, w', w'', h, a1, a2, h2, b1, b2, b3⟩

/-- with four letters, and the cycle 1→2→3→1 of the first three -/
example (f g : Nat → ℝ) : ∃ S R', (do
      let x' ← SnVec.apply [mkP [3, 1] 1 fun i _ => f i] [some 2, some 3, some 1, some 4]
      let y' ← SnVec.apply [mkP [2, 2] 1 fun i _ => g i] [some 2, some 3, some 1, some 4]
      cgVec eigS x' y') = some S ∧
    (do let R ← cgVec eigS [mkP [3, 1] 1 fun i _ => f i] [mkP [2, 2] 1 fun i _ => g i]; R.apply [some 2, some 3, some 1, some 4]) = some R' ∧
    obs S = obs R' := by
  have h1 : IsPartition 4 [3, 1] := (mem_partitions 4 (by norm_num) _).1 (by decide)
  have h2 : IsPartition 4 [2, 2] := (mem_partitions 4 (by norm_num) _).1 (by decide)
  refine C73_first_three_partial eigS_ok (n := 4) (by norm_num) (by norm_num) (partAt_single (by norm_num) h1 1 _).1 (partAt_single (by norm_num) h2 1 _).1
    (by simp [mkP]) (by simp [mkP]) ⟨cyc 0 2, by decide⟩ fun i h1 h2 => ?_
  obtain rfl : i = 4 := by norm_num at h2; omega
  rfl

end Snob.Props
