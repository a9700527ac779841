import Verif.Spec.SnVecB
import Verif.Proofs.SnVecUp
import Verif.Proofs.ProductRep

/-! Batched parts and vectors, member by member. -/

namespace Snob

theorem foldlM_fails {σ ι : Type} (f : σ → ι → Option σ) (inv : σ → Prop) (h : ∀ s y s', inv s → f s y = some s' → inv s') {x : ι}
    (hx : ∀ s, inv s → f s x = none) (l : List ι) (hl : x ∈ l) (s : σ) (hs : inv s) : l.foldlM f s = none := by
  induction l generalizing s with
  | nil => simp at hl
  | cons y l ih =>
    rw [List.foldlM_cons]
    rcases List.mem_cons.1 hl with rfl | hl
    · rw [hx s hs]; rfl
    · cases e : f s y with
      | none => rfl
      | some s' => exact ih hl s' (h s y s' hs e)

theorem foldlM_keep {σ ι : Type} (f : σ → ι → Option σ) (inv : σ → Prop) (h : ∀ s y s', inv s → f s y = some s' → inv s')
    (l : List ι) (s s' : σ) (hs : inv s) (e : l.foldlM f s = some s') : inv s' := by
  induction l generalizing s with
  | nil => simp only [List.foldlM_nil, Option.pure_def, Option.some.injEq] at e; exact e ▸ hs
  | cons y l ih =>
    rw [List.foldlM_cons] at e
    obtain ⟨u, h1, h2⟩ := Option.bind_eq_some_iff.1 e
    exact ih u (h s y u hs h1) h2

namespace VPart

theorem inc_dims {P Q : VPart} {i j : Nat} {x : ℝ} (h : P.inc i j x = some Q) : Q.d = P.d ∧ Q.m = P.m := by
  unfold VPart.inc at h
  split at h
  · simp only [Option.some.injEq] at h; subst h; exact ⟨rfl, rfl⟩
  · simp at h

theorem incStep_dims {P Q : VPart} {i j : Nat} {o : Option ℝ} (h : (o.bind fun x => P.inc i j x) = some Q) : Q.d = P.d ∧ Q.m = P.m := by
  obtain ⟨x, -, h2⟩ := Option.bind_eq_some_iff.1 h
  exact inc_dims h2

theorem incLoop_none (P : VPart) {ioffs joffs I J : Nat} {f : Nat → Nat → Option ℝ} {i j : Nat} (hi : i < I) (hj : j < J)
    (h : f i j = none ∨ ¬ (i + ioffs < P.d ∧ j + joffs < P.m)) : P.incLoop ioffs joffs I J f = none := by
  have row : ∀ (r : Nat) (s y s'), (s.d = P.d ∧ s.m = P.m) →
      (do let x ← f r y; VPart.inc s (r + ioffs) (y + joffs) x) = some s' → s'.d = P.d ∧ s'.m = P.m := by
    intro r s y s' hs e
    have := incStep_dims e
    exact ⟨this.1.trans hs.1, this.2.trans hs.2⟩
  unfold incLoop
  refine foldlM_fails _ (fun Q => Q.d = P.d ∧ Q.m = P.m) ?_ (x := i) ?_ _ (List.mem_range.2 hi) _ ⟨rfl, rfl⟩
  · intro s y s' hs e
    exact foldlM_keep _ (fun Q => Q.d = P.d ∧ Q.m = P.m) (row y) _ _ _ hs e
  · intro s hs
    refine foldlM_fails _ (fun Q => Q.d = P.d ∧ Q.m = P.m) (row i) (x := j) ?_ _ (List.mem_range.2 hj) _ hs
    intro s hs
    rcases h with h | h
    · rw [h]; rfl
    · cases f i j with
      | none => rfl
      | some x =>
        change VPart.inc s (i + ioffs) (j + joffs) x = none
        unfold VPart.inc
        rw [hs.1, hs.2, if_neg h]

/-- all of `add_to_block_block`, also when it is not defined -/
theorem addToBlockBlock_eq (P : VPart) (ioffs joffs : Nat) (M : VPart) (io jo I J : Nat) :
    P.addToBlockBlock ioffs joffs M io jo I J =
      if ∀ i < I, ∀ j < J, (i + io < M.d ∧ j + jo < M.m) ∧ i + ioffs < P.d ∧ j + joffs < P.m then
        some { P with data := fun i j => P.data i j +
          if (ioffs ≤ i ∧ i < ioffs + I) ∧ joffs ≤ j ∧ j < joffs + J then M.data (i - ioffs + io) (j - joffs + jo) else 0 }
      else none := by
  unfold addToBlockBlock
  by_cases h : ∀ i < I, ∀ j < J, (i + io < M.d ∧ j + jo < M.m) ∧ i + ioffs < P.d ∧ j + joffs < P.m
  · rw [if_pos h]
    rcases Nat.eq_zero_or_pos J with hJ | hJ
    · subst hJ
      unfold incLoop
      have : ∀ (l : List Nat) (Q : VPart), l.foldlM (fun P i => (List.range 0).foldlM (fun P j => do
          let x ← M.get (i + io) (j + jo)
          VPart.inc P (i + ioffs) (j + joffs) x) P) Q = some Q := by
        intro l
        induction l with
        | nil => intro Q; rfl
        | cons y l ih => intro Q; rw [List.foldlM_cons]; exact ih Q
      rw [this]
      refine congrArg some (VPart.ext rfl rfl rfl fun i j => ?_)
      simp only
      rw [if_neg (by omega), add_zero]
    · rcases Nat.eq_zero_or_pos I with hI | hI
      · subst hI
        refine Eq.trans (b := some P) rfl ?_
        refine congrArg some (VPart.ext rfl rfl rfl fun i j => ?_)
        simp only
        rw [if_neg (by omega), add_zero]
      · have h0 := h (I - 1) (by omega) (J - 1) (by omega)
        rw [incLoop_eq P ioffs joffs I J _ (fun i j => M.data (i + io) (j + jo))
          (fun i hi j hj => get_eq M (h i hi j hj).1.1 (h i hi j hj).1.2) (by omega) (by omega)]
  · rw [if_neg h]
    push Not at h
    obtain ⟨i, hi, j, hj, h⟩ := h
    refine incLoop_none P hi hj ?_
    by_cases h1 : i + io < M.d ∧ j + jo < M.m
    · right
      intro h2
      exact absurd h2.2 (by have := h h1 h2.1; omega)
    · left
      exact if_neg h1

theorem addBlockTo_eq (P : VPart) (ioffs joffs : Nat) (M : VPart) :
    P.addBlockTo ioffs joffs M = M.addToBlockBlock 0 0 P ioffs joffs M.d M.m := rfl

end VPart

namespace BPart

theorem member_d (P : BPart) (k : Nat) : (P.member k).d = P.d := rfl
theorem member_m (P : BPart) (k : Nat) : (P.member k).m = P.m := rfl
theorem member_irrep (P : BPart) (k : Nat) : (P.member k).irrep = P.irrep := rfl

theorem member_addBlock (P : BPart) (k ioffs joffs : Nat) (M : BPart) (io jo I J : Nat) (h : M.b = P.b) :
    (P.addBlock ioffs joffs M io jo I J).map (·.member k) = (P.member k).addToBlockBlock ioffs joffs (M.member k) io jo I J := by
  rw [VPart.addToBlockBlock_eq]
  unfold addBlock
  by_cases hc : ∀ i < I, ∀ j < J, (i + io < M.d ∧ j + jo < M.m) ∧ i + ioffs < P.d ∧ j + joffs < P.m
  · rw [if_pos ⟨h, hc⟩]; exact (if_pos hc).symm
  · rw [if_neg fun h => hc h.2]; exact (if_neg hc).symm

theorem addBlock_b {P Q M : BPart} {ioffs joffs io jo I J : Nat} (h : P.addBlock ioffs joffs M io jo I J = some Q) :
    Q.b = P.b ∧ Q.d = P.d ∧ Q.m = P.m ∧ Q.irrep = P.irrep := by
  unfold addBlock at h
  split at h
  · simp only [Option.some.injEq] at h; subst h; exact ⟨rfl, rfl, rfl, rfl⟩
  · simp at h

theorem member_zero (b k : Nat) (x : List Nat) (m : Int) : (zero b x m).map (·.member k) = VPart.zero x m := by
  unfold zero VPart.zero
  cases mkIrrep x with
  | none => rfl
  | some R =>
    simp only [Option.bind_eq_bind, Option.bind_some]
    split_ifs <;> rfl

theorem zero_b {b : Nat} {x : List Nat} {m : Int} {P : BPart} (h : zero b x m = some P) : P.b = b ∧ P.m = m.toNat := by
  unfold zero at h
  obtain ⟨R, -, h⟩ := Option.bind_eq_some_iff.1 h
  split at h
  · simp only [Option.some.injEq] at h; subst h; exact ⟨rfl, rfl⟩
  · simp at h

end BPart

namespace SnVecB

/-- all parts have `b` members -/
def AllB (b : Nat) (v : SnVecB) : Prop := ∀ P ∈ v, P.b = b

theorem member_append (v w : SnVecB) (k : Nat) : member (v ++ w) k = member v k ++ member w k := List.map_append

theorem index_member (v : SnVecB) (k : Nat) (x : List Nat) : SnVec.index (member v k) x = index v x := by
  unfold SnVec.index index member
  rw [List.findIdx?_map]
  rfl

theorem member_get (v : SnVecB) (k i : Nat) : (member v k)[i]? = v[i]?.map (·.member k) := by
  unfold member; rw [List.getElem?_map]

theorem member_set (v : SnVecB) (k i : Nat) (P : BPart) : member (v.set i P) k = (member v k).set i (P.member k) := by
  unfold member; rw [List.map_set]

theorem member_getType (v : SnVecB) (k : Nat) : SnVec.getType (member v k) = getType v := by
  unfold SnVec.getType getType member
  rw [List.foldlM_map]
  rfl

theorem AllB.set {b : Nat} {v : SnVecB} (h : AllB b v) (i : Nat) {P : BPart} (hP : P.b = b) : AllB b (v.set i P) := by
  intro Q hQ
  rcases List.mem_or_eq_of_mem_set hQ with h1 | h1
  · exact h Q h1
  · rw [h1]; exact hP

theorem AllB.get {b : Nat} {v : SnVecB} (h : AllB b v) {i : Nat} {P : BPart} (e : v[i]? = some P) : P.b = b :=
  h P (List.mem_of_getElem? e)

theorem member_zero (b k : Nat) (t : SnType) : (zero b t).map (member · k) = SnVec.zero t := by
  unfold zero SnVec.zero
  induction t with
  | nil => rfl
  | cons p t ih =>
    rw [List.mapM_cons, List.mapM_cons, ← ih, ← BPart.member_zero b k]
    cases BPart.zero b p.1 p.2 with
    | none => rfl
    | some P =>
      cases List.mapM (fun p => BPart.zero b p.1 p.2) t with
      | none => rfl
      | some w => rfl

theorem zero_allB {b : Nat} {t : SnType} {v : SnVecB} (h : zero b t = some v) : AllB b v := by
  unfold zero at h
  induction t generalizing v with
  | nil => simp at h; subst h; intro P hP; simp at hP
  | cons p t ih =>
    rw [List.mapM_cons] at h
    obtain ⟨P, h1, h⟩ := Option.bind_eq_some_iff.1 h
    obtain ⟨w, h2, h⟩ := Option.bind_eq_some_iff.1 h
    simp only [Option.pure_def, Option.some.injEq] at h
    subst h
    intro Q hQ
    rcases List.mem_cons.1 hQ with rfl | hQ
    · exact (BPart.zero_b h1).1
    · exact ih h2 Q hQ

theorem downLoop_member (v : BPart) (k : Nat) (l : List (List Nat)) (R : SnVecB) (offs : Nat) :
    (downLoop v l R offs).map (member · k) = SnVec.downLoop (v.member k) l (member R k) offs := by
  induction l generalizing R offs with
  | nil => rfl
  | cons x l ih =>
    rw [downLoop, SnVec.downLoop, BPart.member_m, ← BPart.member_zero v.b k]
    cases e : BPart.zero v.b x v.m with
    | none => rfl
    | some P =>
      have hP := BPart.zero_b e
      have hm : P.m = v.m := by rw [hP.2]; omega
      simp only [Option.bind_eq_bind, Option.bind_some, Option.map_some, VPart.addBlockTo_eq, BPart.member_d, BPart.member_m]
      rw [← hm, ← BPart.member_addBlock P k 0 0 v offs 0 P.d P.m hP.1.symm]
      cases e2 : P.addBlock 0 0 v offs 0 P.d P.m with
      | none => rfl
      | some Q =>
        simp only [Option.bind_some, Option.map_some]
        rw [ih, member_append]
        rfl

theorem down_member (v : BPart) (k : Nat) : (down v).map (member · k) = SnVec.downB (v.member k) := by
  unfold down SnVec.downB
  rw [BPart.member_irrep]
  cases IP.parents v.irrep.lambda with
  | none => rfl
  | some l => exact downLoop_member v k l [] 0

theorem downLoop_allB {v : BPart} {l : List (List Nat)} {R w : SnVecB} {offs : Nat} (hR : AllB v.b R) (h : downLoop v l R offs = some w) :
    AllB v.b w := by
  induction l generalizing R offs with
  | nil => simp only [downLoop, Option.some.injEq] at h; exact h ▸ hR
  | cons x l ih =>
    rw [downLoop] at h
    obtain ⟨P, h1, h⟩ := Option.bind_eq_some_iff.1 h
    obtain ⟨Q, h2, h⟩ := Option.bind_eq_some_iff.1 h
    refine ih ?_ h
    intro S hS
    rcases List.mem_append.1 hS with hS | hS
    · exact hR S hS
    · rw [List.mem_singleton.1 hS, (BPart.addBlock_b h2).1, (BPart.zero_b h1).1]

theorem down_allB {v : BPart} {w : SnVecB} (h : down v = some w) : AllB v.b w := by
  unfold down at h
  obtain ⟨l, -, h⟩ := Option.bind_eq_some_iff.1 h
  exact downLoop_allB (fun P hP => by simp at hP) h

theorem accInner_member {b : Nat} {sub : SnVecB} (hs : AllB b sub) (k coffs ncols : Nat) (l : List (List Nat)) (target : BPart)
    (ht : target.b = b) (roffs : Nat) (so : SnType) :
    (accInner sub coffs ncols l target roffs so).map (fun s => (s.1.member k, s.2)) =
      SnVec.accInner (member sub k) coffs ncols l (target.member k) roffs so := by
  induction l generalizing target roffs so with
  | nil => rfl
  | cons mu l ih =>
    rw [accInner, SnVec.accInner, index_member]
    cases index sub mu with
    | none => rfl
    | some ix =>
      simp only [Option.bind_eq_bind, Option.bind_some, member_get]
      cases e : sub[ix]? with
      | none => rfl
      | some P =>
        simp only [Option.bind_some, Option.map_some]
        cases SnType.get so mu with
        | none => rfl
        | some q =>
          obtain ⟨so', o⟩ := q
          simp only [Option.bind_some]
          split_ifs with h0
          · rw [BPart.member_d, ← BPart.member_addBlock target k roffs coffs P 0 o.toNat P.d ncols ((hs.get e).trans ht.symm)]
            cases e2 : target.addBlock roffs coffs P 0 o.toNat P.d ncols with
            | none => rfl
            | some T =>
              simp only [Option.bind_some, Option.map_some]
              cases SnType.add so' mu ncols with
              | none => rfl
              | some so2 => exact ih T ((BPart.addBlock_b e2).1.trans ht) _ _
          · rfl

theorem accInner_b {sub : SnVecB} {coffs ncols : Nat} {l : List (List Nat)} {target : BPart}
    {roffs : Nat} {so : SnType} {s : BPart × SnType} (h : accInner sub coffs ncols l target roffs so = some s) : s.1.b = target.b := by
  induction l generalizing target roffs so with
  | nil => simp only [accInner, Option.some.injEq] at h; rw [← h]
  | cons mu l ih =>
    rw [accInner] at h
    obtain ⟨ix, -, h⟩ := Option.bind_eq_some_iff.1 h
    obtain ⟨P, -, h⟩ := Option.bind_eq_some_iff.1 h
    obtain ⟨q, -, h⟩ := Option.bind_eq_some_iff.1 h
    simp only at h
    split at h
    · obtain ⟨T, h1, h⟩ := Option.bind_eq_some_iff.1 h
      obtain ⟨so2, -, h⟩ := Option.bind_eq_some_iff.1 h
      exact (ih h).trans (BPart.addBlock_b h1).1
    · simp at h

theorem accLoop_member {b : Nat} {sub : SnVecB} (hs : AllB b sub) (k : Nat) (t : SnType) (R : SnVecB) (hR : AllB b R) (offs so : SnType) :
    (accLoop sub t R offs so).map (fun s => (member s.1 k, s.2)) = SnVec.accLoop (member sub k) t (member R k) offs so := by
  induction t generalizing R offs so with
  | nil => rfl
  | cons p t ih =>
    rw [accLoop, SnVec.accLoop, index_member]
    cases index R p.1 with
    | none => rfl
    | some ix =>
      simp only [Option.bind_eq_bind, Option.bind_some, member_get]
      cases e : R[ix]? with
      | none => rfl
      | some P =>
        simp only [Option.bind_some, Option.map_some]
        cases SnType.get offs p.1 with
        | none => rfl
        | some q =>
          obtain ⟨offs', co⟩ := q
          simp only [Option.bind_some]
          cases IP.parents p.1 with
          | none => rfl
          | some l =>
            simp only [Option.bind_some]
            split_ifs with h0
            · rw [← accInner_member hs k _ _ l P (hR.get e) 0 so]
              cases e2 : accInner sub co.toNat p.2.toNat l P 0 so with
              | none => rfl
              | some T =>
                simp only [Option.bind_some, Option.map_some]
                cases SnType.add offs' p.1 p.2 with
                | none => rfl
                | some o2 =>
                  simp only [Option.bind_some]
                  rw [ih _ (hR.set ix ((accInner_b e2).trans (hR.get e))), member_set]
            · rfl

theorem accLoop_allB {b : Nat} {sub : SnVecB} {t : SnType} {R : SnVecB} (hR : AllB b R) {offs so : SnType}
    {s : SnVecB × SnType} (h : accLoop sub t R offs so = some s) : AllB b s.1 := by
  induction t generalizing R offs so with
  | nil => simp only [accLoop, Option.some.injEq] at h; rw [← h]; exact hR
  | cons p t ih =>
    rw [accLoop] at h
    obtain ⟨ix, -, h⟩ := Option.bind_eq_some_iff.1 h
    obtain ⟨P, h1, h⟩ := Option.bind_eq_some_iff.1 h
    obtain ⟨q, -, h⟩ := Option.bind_eq_some_iff.1 h
    obtain ⟨l, -, h⟩ := Option.bind_eq_some_iff.1 h
    simp only at h
    split at h
    · obtain ⟨T, h2, h⟩ := Option.bind_eq_some_iff.1 h
      obtain ⟨o2, -, h⟩ := Option.bind_eq_some_iff.1 h
      exact ih (hR.set ix ((accInner_b h2).trans (hR.get h1))) h
    · simp at h

theorem accumulateUp_member {b : Nat} {sub : SnVecB} (hs : AllB b sub) (k : Nat) (t : SnType) (R : SnVecB) (hR : AllB b R) (offs : SnType) :
    (accumulateUp R offs sub t).map (fun s => (member s.1 k, s.2)) = SnVec.accumulateUp (member R k) offs (member sub k) t :=
  accLoop_member hs k t R hR offs []

theorem accumulateUp_allB {b : Nat} {sub : SnVecB} {t : SnType} {R : SnVecB} (hR : AllB b R) {offs : SnType}
    {s : SnVecB × SnType} (h : accumulateUp R offs sub t = some s) : AllB b s.1 := accLoop_allB hR h

end SnVecB

end Snob
