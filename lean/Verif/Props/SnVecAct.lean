import Verif.Model.SnVecAct
import Verif.Props.CGVec
import Verif.Props.Irrep
import Verif.Proofs.CGEqui
import Verif.Proofs.CGSign
import Verif.Proofs.CGTriv

/-! # Properties C85, C86: acting on vectors by cycles and transpositions; adding vectors -/

namespace Snob.Props

open Snob SnVec IP Snob.Perm

variable {n : Nat}

theorem mapM_cong {α β : Type} {f g : α → Option β} {l : List α} (h : ∀ x ∈ l, f x = g x) : l.mapM f = l.mapM g := by
  induction l with
  | nil => rfl
  | cons a l ih => rw [List.mapM_cons, List.mapM_cons, h a (by simp), ih fun x hx => h x (by simp [hx])]

/-- the matrix after the action of a permutation -/
theorem part_act (hn : 1 ≤ n) {v : SnVec} (hv : Ok n v) {P : VPart} (hP : P ∈ v) :
    ∃ h : Repr' (hv.part P hP).1 P.irrep, ∀ σ : Equiv.Perm (Fin n),
      P.apply (enc σ) = some { P with data := act (h.rep σ) (List.range P.m) P.data } := by
  obtain ⟨h1, h2, -⟩ := hv.part P hP
  obtain ⟨R, hR, -, h⟩ := exists_repr hn h1
  rw [h2, Option.some.injEq] at hR
  subst hR
  refine ⟨h, fun σ => ?_⟩
  unfold VPart.apply
  rw [h.applySigma_eq _ List.nodup_range]
  rfl

theorem cycle_up (hn : 1 ≤ n) {v : SnVec} (hv : Ok n v) (a b : Fin n) (h : a < b) :
    v.applyCycle ((a : Nat) + 1) ((b : Nat) + 1) = v.apply (enc (cyc a b)) := by
  refine mapM_cong fun P hP => ?_
  obtain ⟨r, h1⟩ := part_act hn hv hP
  have h2 : (a : Nat) < b := h
  have e : P.irrep.applyCycle (List.range P.m) ((a : Nat) + 1) ((b : Nat) + 1) P.data =
      some (act (r.rep (cyc a b)) (List.range P.m) P.data) := by
    unfold IrrepObj.applyCycle
    rw [if_pos (by omega)]
    exact r.applyCycle_up _ List.nodup_range a b (le_of_lt h) P.data
  rw [h1]
  unfold VPart.applyCycle
  rw [e]
  rfl

theorem cycle_down (hn : 1 ≤ n) {v : SnVec} (hv : Ok n v) (a b : Fin n) (h : b ≤ a) :
    v.applyCycle ((a : Nat) + 1) ((b : Nat) + 1) = v.apply (enc (cyc b a)⁻¹) := by
  refine mapM_cong fun P hP => ?_
  obtain ⟨r, h1⟩ := part_act hn hv hP
  have h2 : (b : Nat) ≤ a := h
  have e : P.irrep.applyCycle (List.range P.m) ((a : Nat) + 1) ((b : Nat) + 1) P.data =
      some (act (r.rep (cyc b a)⁻¹) (List.range P.m) P.data) := by
    unfold IrrepObj.applyCycle
    rw [if_neg (by omega)]
    exact r.applyCycle_down _ List.nodup_range b a h P.data
  rw [h1]
  unfold VPart.applyCycle
  rw [e]
  rfl

theorem cycle_inv (hn : 1 ≤ n) {v : SnVec} (hv : Ok n v) (a b : Fin n) (h : a ≤ b) :
    v.applyCycleInv ((a : Nat) + 1) ((b : Nat) + 1) = v.apply (enc (cyc a b)⁻¹) := by
  refine mapM_cong fun P hP => ?_
  obtain ⟨r, h1⟩ := part_act hn hv hP
  have e : P.irrep.applyCycleInv (List.range P.m) ((a : Nat) + 1) ((b : Nat) + 1) P.data = _ :=
    r.applyCycle_down _ List.nodup_range a b h P.data
  rw [h1]
  unfold VPart.applyCycleInv
  rw [e]
  rfl

/-- acting by a permutation and then by its inverse changes nothing -/
theorem apply_undo (hn : 1 ≤ n) {v u : SnVec} (hv : Ok n v) (σ : Equiv.Perm (Fin n)) (hu : v.apply (enc σ) = some u) :
    u.apply (enc σ⁻¹) = some v := by
  have e : ∀ P : VPart, ∃ A : Nat → Nat → ℝ, P ∈ v → P.apply (enc σ) = some { P with data := A } ∧
      ({ P with data := A } : VPart).apply (enc σ⁻¹) = some P := by
    intro P
    by_cases hP : P ∈ v
    · obtain ⟨h, h1⟩ := part_act hn hv hP
      refine ⟨_, fun _ => ⟨h1 _, ?_⟩⟩
      unfold VPart.apply
      simp only
      rw [h.applySigma_eq _ List.nodup_range, ← act_mul, ← map_mul, inv_mul_cancel, map_one, act_one]
      rfl
    · exact ⟨fun _ _ => 0, fun h => absurd h hP⟩
  choose A hA using e
  have e1 : v.apply (enc σ) = some (v.map fun P => { P with data := A P }) := mapM_map _ _ _ fun P hP => (hA P hP).1
  rw [hu, Option.some.injEq] at e1
  subst e1
  have : ∀ l : SnVec, (∀ P ∈ l, P ∈ v) → SnVec.apply (l.map fun P => { P with data := A P }) (enc σ⁻¹) = some l := by
    intro l hl
    induction l with
    | nil => rfl
    | cons P l ih =>
      have ih := ih fun Q hQ => hl Q (by simp [hQ])
      unfold SnVec.apply at ih ⊢
      rw [List.map_cons, List.mapM_cons, (hA P (hl P (by simp))).2, ih]
      rfl
  exact this v fun _ h => h

theorem fin_of {a : Int} (h : 1 ≤ a ∧ a ≤ n) : ∃ x : Fin n, a = ((x : Nat) : Int) + 1 :=
  ⟨⟨(a - 1).toNat, by omega⟩, by simp only; omega⟩

/-- **C85.** Acting on a vector by a contiguous cycle, in either direction, is acting by the permutation. -/
theorem C85_cycle (hn : 1 ≤ n) {v : SnVec} (hv : Ok n v) (a b : Int) (ha : 1 ≤ a ∧ a ≤ n) (hb : 1 ≤ b ∧ b ≤ n) :
    ∃ s w, contiguousCycle n a b = some s ∧ IsPerm n s ∧ v.apply s = some w ∧ v.applyCycle a b = some w := by
  obtain ⟨a, rfl⟩ := fin_of ha
  obtain ⟨b, rfl⟩ := fin_of hb
  by_cases hab : a < b
  · obtain ⟨w, hw, -⟩ := vecApply_ok hn (cyc a b) v hv
    exact ⟨_, w, contiguousCycle_up a b hab.le, ⟨_, rfl⟩, hw, by rw [cycle_up hn hv a b hab, hw]⟩
  · obtain ⟨w, hw, -⟩ := vecApply_ok hn (cyc b a)⁻¹ v hv
    exact ⟨_, w, contiguousCycle_down a b (not_lt.1 hab), ⟨_, rfl⟩, hw, by rw [cycle_down hn hv a b (not_lt.1 hab), hw]⟩

/-- **C85.** Acting on a vector by a transposition is acting by the permutation. -/
theorem C85_transposition (hn : 1 ≤ n) {v : SnVec} (hv : Ok n v) (a b : Int) (ha : 1 ≤ a ∧ a ≤ n) (hb : 1 ≤ b ∧ b ≤ n) :
    ∃ s w, transposition n a b = some s ∧ IsPerm n s ∧ v.apply s = some w ∧ v.applyTransposition a b = some w := by
  obtain ⟨a, rfl⟩ := fin_of ha
  obtain ⟨b, rfl⟩ := fin_of hb
  obtain ⟨w, hw, -⟩ := vecApply_ok hn (Equiv.swap a b) v hv
  refine ⟨_, w, transposition_eq a b, ⟨_, rfl⟩, hw, ?_⟩
  rw [← hw]
  refine mapM_cong fun P hP => ?_
  obtain ⟨h, h1⟩ := part_act hn hv hP
  rw [h1]
  unfold VPart.applyTransposition
  rw [h.applyTransposition_eq _ List.nodup_range a b]
  rfl

/-- **C85 (partial).** `apply_inplace_inv` with an ascending cycle acts by the inverse of the permutation, and after
`apply_inplace` gives back every entry. Missing: descending cycles, where it does nothing (`C85_inv_descending`,
`C85_inv_false`). -/
theorem C85_cycle_inv_partial (hn : 1 ≤ n) {v : SnVec} (hv : Ok n v) (a b : Int) (ha : 1 ≤ a) (hab : a ≤ b) (hb : b ≤ n) :
    ∃ s t w u, contiguousCycle n a b = some s ∧ inverse s = some t ∧ v.apply t = some w ∧ v.applyCycleInv a b = some w ∧
      v.applyCycle a b = some u ∧ u.applyCycleInv a b = some v := by
  obtain ⟨s, u, c1, -, c2, c3⟩ := C85_cycle hn hv a b ⟨ha, by omega⟩ ⟨by omega, hb⟩
  obtain ⟨a, rfl⟩ := fin_of (n := n) (a := a) ⟨ha, by omega⟩
  obtain ⟨b, rfl⟩ := fin_of (n := n) (a := b) ⟨by omega, hb⟩
  have hle : a ≤ b := by rw [Fin.le_def]; omega
  have c0 := contiguousCycle_up a b hle
  rw [c0, Option.some.injEq] at c1
  subst c1
  obtain ⟨w, hw, -⟩ := vecApply_ok hn (cyc a b)⁻¹ v hv
  obtain ⟨u', hu', hu2, -⟩ := vecApply_ok hn (cyc a b) v hv
  rw [c2, Option.some.injEq] at hu'
  subst hu'
  exact ⟨_, _, w, u, c0, inverse_eq _, hw, by rw [cycle_inv hn hv a b hle, hw], c3,
    by rw [cycle_inv hn hu2 a b hle, apply_undo hn hv _ c2]⟩

/-- `apply_inplace_inv` with a descending cycle does nothing, for every vector. -/
theorem C85_inv_descending (v : SnVec) (a b : Int) (hab : b ≤ a) : v.applyCycleInv a b = some v := by
  have : v.applyCycleInv a b = some (v.map id) := by
    refine mapM_map _ _ _ fun P _ => ?_
    unfold VPart.applyCycleInv IrrepObj.applyCycleInv
    rw [forUp_empty (by omega)]
    rfl
  rw [this, List.map_id]

/-- the vector of `S_2` with one part, of the partition `x`, and the only entry `s` -/
noncomputable def exOne (x : List Nat) (s : ℝ) : SnVec := [mkP x 1 fun _ _ => s]

theorem exOne_ok {x : List Nat} (hx : IsPartition 2 x) (s : ℝ) : Ok 2 (exOne x s) :=
  ok_map (L := [x]) (by norm_num) (by simpa using hx) (by simp) (fun _ => 1) fun _ _ _ => s

theorem one_obs {x : List Nat} (hx : IsPartition 2 x) (h1 : dimOf x = 1) (g : Nat → Nat → ℝ) : obs [mkP x 1 g] = [(x, [[g 0 0]])] := by
  unfold obs
  rw [List.map_singleton, cols_mkP, show (irrOf x).d = 1 from h1]
  simp [mkP, (irrOf_spec (by norm_num) hx).2.1]

theorem one_apply {x : List Nat} (hx : IsPartition 2 x) (h1 : dimOf x = 1) (σ : Equiv.Perm (Fin 2)) (f : Nat → Nat → ℝ) :
    ∃ g, SnVec.apply [mkP x 1 f] (enc σ) = some [mkP x 1 g] ∧ g 0 0 = evalN x (enc σ) 0 0 * f 0 0 := by
  obtain ⟨g, h2, h3, -⟩ := applyPart_eq (by norm_num) hx 1 f σ
  refine ⟨g, ?_, ?_⟩
  · unfold SnVec.apply
    rw [List.mapM_cons, h2]
    rfl
  · rw [h3 0 (by omega) 0 (by omega), h1]
    simp

theorem one_add {x y : List Nat} (h1 : dimOf x = 1) (h2 : dimOf y = 1) (f g : Nat → Nat → ℝ) :
    SnVec.add [mkP x 1 f] [mkP y 1 g] = some [mkP x 1 fun i j => f i j + g i j] := by
  unfold SnVec.add
  rw [if_pos (show [mkP x 1 f].length = [mkP y 1 g].length from rfl)]
  unfold SnVec.addLoop VPart.add
  rw [if_pos ⟨h1.trans h2.symm, rfl⟩]
  rfl

theorem sign_two (σ : Equiv.Perm (Fin 2)) (h : Equiv.Perm.sign σ = -1) : evalN [1, 1] (enc σ) 0 0 = -1 := by
  have := evalN_col (n := 2) (by norm_num) σ
  rw [h] at this
  simpa using this

/-- **C85** is false of the code: in the sign representation of `S_2`, acting by the cycle from 2 to 1 on the entry 1
gives -1; `apply_inplace_inv` with the same cycle leaves -1, instead of giving back 1. -/
theorem C85_inv_false : Ok 2 (exOne [1, 1] 1) ∧ ∃ u w, SnVec.applyCycle (exOne [1, 1] 1) 2 1 = some u ∧
    SnVec.applyCycleInv u 2 1 = some w ∧ obs (exOne [1, 1] 1) = [([1, 1], [[1]])] ∧ obs w = [([1, 1], [[-1]])] := by
  have hp : IsPartition 2 [1, 1] := isPartition_col 2
  refine ⟨exOne_ok hp 1, ?_⟩
  obtain ⟨s, u, h1, -, h2, h3⟩ := C85_cycle (by norm_num) (exOne_ok hp 1) 2 1 (by omega) (by omega)
  refine ⟨u, u, h3, C85_inv_descending u 2 1 (by omega), one_obs hp dimOf_ex.2.2 _, ?_⟩
  have e : contiguousCycle 2 2 1 = some (enc (cyc (0 : Fin 2) 1)⁻¹) := contiguousCycle_down (n := 2) 1 0 (by decide)
  have e' : contiguousCycle 2 2 1 = some s := h1
  rw [e, Option.some.injEq] at e'
  subst e'
  obtain ⟨g, hw, hg⟩ := one_apply hp dimOf_ex.2.2 (cyc (0 : Fin 2) 1)⁻¹ fun _ _ => 1
  obtain rfl : u = [mkP [1, 1] 1 g] := Option.some.inj (h2.symm.trans hw)
  rw [one_obs hp dimOf_ex.2.2, hg]
  have := sign_two (cyc (0 : Fin 2) 1)⁻¹ (by decide)
  rw [this, mul_one]

example : ∃ s w, contiguousCycle 3 1 3 = some s ∧ IsPerm 3 s ∧ SnVec.apply [exPart] s = some w ∧ SnVec.applyCycle [exPart] 1 3 = some w :=
  C85_cycle (by norm_num) exPart_ok 1 3 (by norm_num) (by norm_num)

example : ∃ s w, transposition 3 3 1 = some s ∧ IsPerm 3 s ∧ SnVec.apply [exPart] s = some w ∧ SnVec.applyTransposition [exPart] 3 1 = some w :=
  C85_transposition (by norm_num) exPart_ok 3 1 (by norm_num) (by norm_num)

example : ∃ u, SnVec.applyCycle [exPart] 1 3 = some u ∧ SnVec.applyCycleInv u 1 3 = some [exPart] := by
  obtain ⟨-, -, -, u, -, -, -, -, h1, h2⟩ := C85_cycle_inv_partial (by norm_num) exPart_ok 1 3 (by norm_num) (by norm_num) (by norm_num)
  exact ⟨u, h1, h2⟩

/-- adding two vectors of the same type -/
theorem addLoop_eq {v w : SnVec} (h : ∀ (k : Nat) (P Q : VPart), v[k]? = some P → w[k]? = some Q → P.d = Q.d ∧ P.m = Q.m) :
    addLoop v w = some (List.zipWith (fun P Q => { P with data := fun i j => P.data i j + Q.data i j }) v w) := by
  induction v generalizing w with
  | nil => rfl
  | cons P v ih =>
    cases w with
    | nil => rfl
    | cons Q w =>
      unfold addLoop VPart.add
      rw [if_pos (h 0 P Q rfl rfl), ih fun k P' Q' h1 h2 => h (k + 1) P' Q' h1 h2]
      rfl

theorem sameType_parts {v w : SnVec} (hv : Ok n v) (hw : Ok n w) (h : SameType v w) {k : Nat} {P Q : VPart} (hP : v[k]? = some P)
    (hQ : w[k]? = some Q) : P.d = Q.d ∧ P.m = Q.m ∧ P.irrep = Q.irrep := by
  have e := congrArg (·[k]?) h
  simp only [List.getElem?_map, hP, hQ, Option.map_some, Option.some.injEq, Prod.mk.injEq] at e
  obtain ⟨e1, e2⟩ := e
  obtain ⟨-, p2, p3⟩ := hv.part P (List.mem_of_getElem? hP)
  obtain ⟨-, q2, q3⟩ := hw.part Q (List.mem_of_getElem? hQ)
  have : P.irrep = Q.irrep := by
    rw [e1, q2] at p2
    exact (Option.some.inj p2).symm
  exact ⟨by rw [p3, q3, this], e2, this⟩

theorem add_eq {v w : SnVec} (hv : Ok n v) (hw : Ok n w) (h : SameType v w) :
    v.add w = some (List.zipWith (fun P Q => { P with data := fun i j => P.data i j + Q.data i j }) v w) := by
  have hl : v.length = w.length := by simpa using congrArg List.length h
  unfold SnVec.add
  rw [if_pos hl]
  exact addLoop_eq fun k P Q hP hQ => ⟨(sameType_parts hv hw h hP hQ).1, (sameType_parts hv hw h hP hQ).2.1⟩

/-- **C86 (partial).** Adding a vector of the same type adds the entries. Missing: vectors with other partitions, which
are added without a word if the sizes agree (`C86_add_false`). -/
theorem C86_add_partial {v w : SnVec} (hv : Ok n v) (hw : Ok n w) (h : SameType v w) :
    ∃ u, v.add w = some u ∧ Ok n u ∧ IsComb 1 u v w := by
  have hl : v.length = w.length := by simpa using congrArg List.length h
  have e1 : ∀ {β : Type} (f : VPart → β), (∀ (P : VPart) (A : Nat → Nat → ℝ), f { P with data := A } = f P) →
      (List.zipWith (fun P Q => ({ P with data := fun i j => P.data i j + Q.data i j } : VPart)) v w).map f = v.map f := by
    intro β f hf
    refine List.ext_getElem? fun k => ?_
    rw [List.getElem?_map, List.getElem?_map, List.getElem?_zipWith]
    rcases hk : v[k]? with _ | P
    · rfl
    · have : k < w.length := by rw [← hl]; exact (List.getElem?_eq_some_iff.1 hk).1
      rw [List.getElem?_eq_getElem this]
      simp [hf]
  refine ⟨_, add_eq hv hw h, ⟨fun R hR => ?_, ?_⟩, ?_, ?_, ?_⟩
  · obtain ⟨k, hk⟩ := List.mem_iff_getElem?.1 hR
    rw [List.getElem?_zipWith_eq_some] at hk
    obtain ⟨P, Q, hP, hQ, rfl⟩ := hk
    exact hv.part P (List.mem_of_getElem? hP)
  · rw [e1 (fun P => P.irrep.lambda) fun _ _ => rfl]
    exact hv.sorted
  · exact e1 (fun P => (P.irrep.lambda, P.m)) fun _ _ => rfl
  · exact (e1 (fun P => (P.irrep.lambda, P.m)) fun _ _ => rfl).trans h
  · intro k R P Q hR hP hQ i _ j _
    rw [List.getElem?_zipWith, hP, hQ] at hR
    rw [← Option.some.inj (show some _ = some R from hR)]
    simp

/-- **C86.** Acting on a sum of vectors of the same type gives the sum of the results. -/
theorem C86_add_apply (hn : 1 ≤ n) {v w : SnVec} (hv : Ok n v) (hw : Ok n w) (h : SameType v w) (a : Arr) (ha : IsPerm n a) :
    ∃ u v' w' u' u'', v.add w = some u ∧ v.apply a = some v' ∧ w.apply a = some w' ∧ u.apply a = some u' ∧ v'.add w' = some u'' ∧
      obs u'' = obs u' := by
  obtain ⟨σ, rfl⟩ := ha
  obtain ⟨u, hu, hu1, hu2⟩ := C86_add_partial hv hw h
  obtain ⟨v', hv', ov, kv, ev⟩ := apply_data hn σ hv
  obtain ⟨w', hw', ow, kw, ew⟩ := apply_data hn σ hw
  obtain ⟨u', hu', ou, ku, eu⟩ := apply_data hn σ hu1
  have k0 := sameType_keys h
  have k1 := sameType_keys hu2.1
  have k2 := sameType_keys hu2.2.1
  have h' : SameType v' w' := by
    refine sameType_of ov ow (by rw [kv, kw, k0]) fun x hx => ?_
    rw [kv] at hx
    rw [(ev x hx).1, (ew x (k0 ▸ hx)).1, sameType_m hv hw h hx]
  obtain ⟨u'', hu'', ou2, c2⟩ := C86_add_partial ov ow h'
  refine ⟨u, v', w', u', u'', hu, hv', hw', hu', hu'', (obs_data ou2 ou ?_).2 fun x hx => ?_⟩
  · rw [sameType_keys c2.1, kv, ku, k1]
  · have xv : x ∈ vkeys v := by rw [← kv, ← sameType_keys c2.1]; exact hx
    have xu : x ∈ vkeys u := by rw [k1]; exact xv
    have xw : x ∈ vkeys w := k0 ▸ xv
    have m1 : (partAt u'' x).m = (partAt v x).m := by rw [sameType_m ou2 ov c2.1 hx, (ev x xv).1]
    have m2 : (partAt u x).m = (partAt v x).m := sameType_m hu1 hv hu2.1 xu
    have m3 : (partAt v x).m = (partAt w x).m := sameType_m hv hw h xv
    refine ⟨by rw [m1, (eu x xu).1, m2], fun i hi j hj => ?_⟩
    rw [comb_at ou2 ov ow c2 hx i hi j hj]
    rw [m1] at hj
    rw [(eu x xu).2 i hi j (by rw [m2]; exact hj), (ev x xv).2 i hi j hj, (ew x xw).2 i hi j (by rw [← m3]; exact hj), one_mul,
      ← Finset.sum_add_distrib]
    refine Finset.sum_congr rfl fun k hk => ?_
    rw [comb_at hu1 hv hw hu2 xu k (Finset.mem_range.1 hk) j (by rw [m2]; exact hj)]
    ring

/-- **C86** is false of the code for vectors of different types: over `S_2`, adding a vector with a part of `(1,1)` to one
with a part of `(2)` is not refused; the sum is taken for a vector with a part of `(2)`, and acting by the transposition
on the sum does not give the sum of the results. -/
theorem C86_add_false : Ok 2 (exOne [2] 1) ∧ Ok 2 (exOne [1, 1] 1) ∧
    ∃ u s v' w' u' u'', SnVec.add (exOne [2] 1) (exOne [1, 1] 1) = some u ∧ transposition 2 1 2 = some s ∧
      SnVec.apply (exOne [2] 1) s = some v' ∧ SnVec.apply (exOne [1, 1] 1) s = some w' ∧ SnVec.apply u s = some u' ∧
      SnVec.add v' w' = some u'' ∧ obs u' = [([2], [[2]])] ∧ obs u'' = [([2], [[0]])] := by
  have hp : IsPartition 2 [1, 1] := isPartition_col 2
  have hq : IsPartition 2 [2] := isPartition_row (by norm_num)
  obtain ⟨-, d1, d2⟩ := dimOf_ex
  obtain ⟨f, hf, ef⟩ := one_apply hq d1 (Equiv.swap 0 1) fun _ _ => 1
  obtain ⟨g, hg, eg⟩ := one_apply hp d2 (Equiv.swap 0 1) fun _ _ => 1
  obtain ⟨k, hk, ek⟩ := one_apply hq d1 (Equiv.swap 0 1) fun _ _ => 1 + 1
  rw [evalN_row (by norm_num)] at ef ek
  rw [sign_two _ (by decide)] at eg
  refine ⟨exOne_ok hq 1, exOne_ok hp 1, _, _, _, _, _, _, one_add d1 d2 _ _, transposition_eq (n := 2) 0 1, hf, hg, hk,
    one_add d1 d2 f g, ?_, ?_⟩
  · rw [one_obs hq d1, ek]; norm_num
  · rw [one_obs hq d1, ef, eg]; norm_num

/-- adding the columns `(0,1)`, `(10,11)` to themselves -/
example : ∃ u, SnVec.add [exPart] [exPart] = some u ∧ Ok 3 u ∧ IsComb 1 u [exPart] [exPart] := C86_add_partial exPart_ok exPart_ok rfl

end Snob.Props
