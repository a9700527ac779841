import Verif.Proofs.SnVecB
import Verif.Proofs.SnVecInd
import Verif.Proofs.SnVecAcc
import Verif.Proofs.CGStep

/-! Batched vectors: the action of the group, and induction. -/

namespace Snob

open IP

/-- the batched part of a partition with the given entries -/
noncomputable def mkB (b : Nat) (x : List Nat) (m : Nat) (f : Nat → Nat → Nat → ℝ) : BPart := ⟨b, (irrOf x).d, m, irrOf x, f⟩

theorem cols_act {n : Nat} (hn : 1 ≤ n) {x : List Nat} (hx : IsPartition n x) (m : Nat) (f g : Nat → Nat → ℝ) (σ : Equiv.Perm (Fin n))
    (h : ∀ (i l : Fin (irrOf x).d), ∀ j < m, g i j = ∑ l : Fin (irrOf x).d, ((irrOf_spec hn hx).2.2.2).rep σ i l * f l j) :
    (mkP x m g).cols = (mkP x m f).cols.map (SnVec.mulCol (dimOf x) (evalN x (enc σ))) := by
  obtain ⟨g', h1, h2, h3⟩ := applyPart_eq hn hx m f σ
  rw [← h3]
  refine cols_congr fun i hi j hj => ?_
  rw [h2 i hi j hj, list_sum_range, h ⟨i, hi⟩ ⟨i, hi⟩ j hj]
  exact Finset.sum_congr rfl fun l _ => by
    have := (evalN_spec hn hx σ).2 ⟨i, hi⟩ l
    rw [← this]

/-- the part after a matrix is applied to the view -/
theorem member_setView {n : Nat} (hn : 1 ≤ n) {x : List Nat} (hx : IsPartition n x) (b m : Nat) (f : Nat → Nat → Nat → ℝ)
    (σ : Equiv.Perm (Fin n)) {k : Nat} (hk : k < b) :
    (((mkB b x m f).setView (mulMid (((irrOf_spec hn hx).2.2.2).rep σ) (mkB b x m f).view)).member k).cols =
      ((mkB b x m f).member k).cols.map (SnVec.mulCol (dimOf x) (evalN x (enc σ))) := by
  refine cols_act hn hx m (f k) _ σ fun i _ j hj => ?_
  have h : k < b ∧ (i : Nat) < (irrOf x).d ∧ j < m := ⟨hk, i.2, hj⟩
  exact dif_pos h

namespace SnVecB

theorem Ok.allB {n b : Nat} {v : SnVecB} (h : Ok n b v) : AllB b v := h.size

theorem keys_member (v : SnVecB) (k : Nat) : (member v k).map (fun P => P.irrep.lambda) = v.map fun P => P.irrep.lambda := by
  unfold member; rw [List.map_map]; rfl

theorem Ok.member {n b : Nat} {v : SnVecB} (h : Ok n b v) (k : Nat) : SnVec.Ok n (SnVecB.member v k) where
  part P hP := by
    obtain ⟨Q, hQ, rfl⟩ := List.mem_map.1 hP
    exact h.part Q hQ
  sorted := by rw [keys_member]; exact h.sorted

theorem ok_of_member {n b : Nat} {v : SnVecB} (hb : AllB b v) {k : Nat} (h : SnVec.Ok n (SnVecB.member v k)) : Ok n b v where
  size := hb
  part P hP := h.part (P.member k) (List.mem_map.2 ⟨P, hP, rfl⟩)
  sorted := by rw [← keys_member v k]; exact h.sorted

theorem Ok.eq_mkB {n b : Nat} {v : SnVecB} (h : Ok n b v) {P : BPart} (hP : P ∈ v) : P = mkB b P.irrep.lambda P.m P.data := by
  obtain ⟨-, h2, h3⟩ := h.part P hP
  have h1 := h.size P hP
  have : irrOf P.irrep.lambda = P.irrep := by unfold irrOf; rw [h2]; rfl
  unfold mkB
  rw [this, ← h3, ← h1]

/-- an operation on parts that multiplies the view by the matrix of `σ` -/
theorem mapM_act {n b : Nat} (hn : 1 ≤ n) (σ : Equiv.Perm (Fin n)) (op : BPart → Option BPart)
    (hop : ∀ (x : List Nat) (hx : IsPartition n x) (m : Nat) (f : Nat → Nat → Nat → ℝ), op (mkB b x m f) =
      some ((mkB b x m f).setView (mulMid (((irrOf_spec hn hx).2.2.2).rep σ) (mkB b x m f).view)))
    {v : SnVecB} (hv : Ok n b v) :
    ∃ w, v.mapM op = some w ∧ Ok n b w ∧ ∀ k < b, ∃ u, SnVec.apply (member v k) (enc σ) = some u ∧
      SnVec.obs u = SnVec.obs (member w k) := by
  have : ∀ P : BPart, ∃ Q : BPart, P ∈ v → op P = some Q ∧ Q.irrep = P.irrep ∧ Q.d = P.d ∧ Q.b = P.b ∧
      ∀ k < b, (Q.member k).cols = (P.member k).cols.map (SnVec.mulCol (dimOf P.irrep.lambda) (evalN P.irrep.lambda (enc σ))) := by
    intro P
    by_cases hP : P ∈ v
    · have hx := (hv.part P hP).1
      have e := hv.eq_mkB hP
      obtain ⟨Q, hQ⟩ : ∃ Q, Q = (mkB b P.irrep.lambda P.m P.data).setView
        (mulMid (((irrOf_spec hn hx).2.2.2).rep σ) (mkB b P.irrep.lambda P.m P.data).view) := ⟨_, rfl⟩
      have h1 := hop _ hx P.m P.data
      have h2 : ∀ k < b, _ := fun k hk => member_setView hn hx b P.m P.data σ (k := k) hk
      rw [← hQ] at h1
      simp only [← hQ] at h2
      have h3 : Q.irrep = (mkB b P.irrep.lambda P.m P.data).irrep := by rw [hQ]; rfl
      have h4 : Q.d = (mkB b P.irrep.lambda P.m P.data).d := by rw [hQ]; rfl
      have h5 : Q.b = (mkB b P.irrep.lambda P.m P.data).b := by rw [hQ]; rfl
      rw [← e] at h1 h3 h4 h5
      refine ⟨Q, fun _ => ⟨h1, h3, h4, h5, fun k hk => ?_⟩⟩
      have := h2 k hk
      rw [← e] at this
      exact this
    · exact ⟨P, fun h => absurd h hP⟩
  choose q hq using this
  have hkeys : (v.map q).map (fun P => P.irrep.lambda) = v.map fun P => P.irrep.lambda := by
    rw [List.map_map]
    exact List.map_congr_left fun P hP => by simp only [Function.comp]; rw [(hq P hP).2.1]
  refine ⟨v.map q, mapM_map _ _ _ fun P hP => (hq P hP).1, ⟨?_, ?_, by rw [hkeys]; exact hv.sorted⟩, fun k hk => ?_⟩
  · intro Q hQ
    obtain ⟨P, hP, rfl⟩ := List.mem_map.1 hQ
    rw [(hq P hP).2.2.2.1]; exact hv.size P hP
  · intro Q hQ
    obtain ⟨P, hP, rfl⟩ := List.mem_map.1 hQ
    obtain ⟨-, h1, h2, -, -⟩ := hq P hP
    rw [h1, h2]
    exact hv.part P hP
  · obtain ⟨u, h1, -, h3, -⟩ := vecApply_ok hn σ _ (hv.member k)
    refine ⟨u, h1, ?_⟩
    rw [h3]
    unfold actObs SnVec.obs SnVecB.member
    simp only [List.map_map]
    refine List.map_congr_left fun P hP => ?_
    obtain ⟨-, h4, -, -, h5⟩ := hq P hP
    simp only [Function.comp]
    refine Prod.ext (congrArg (·.lambda) h4).symm ?_
    exact (h5 k hk).symm

theorem apply_ok {n b : Nat} (hn : 1 ≤ n) (σ : Equiv.Perm (Fin n)) {v : SnVecB} (hv : Ok n b v) :
    ∃ w, SnVecB.apply v (enc σ) = some w ∧ Ok n b w ∧ ∀ k < b, ∃ u, SnVec.apply (member v k) (enc σ) = some u ∧
      SnVec.obs u = SnVec.obs (member w k) := by
  refine mapM_act hn σ _ (fun x hx m f => ?_) hv
  unfold BPart.apply
  have h := (irrOf_spec hn hx).2.2.2
  have e : (irrOf x).midSigma (enc σ) (mkB b x m f).view = some (mulMid (h.rep σ) (mkB b x m f).view) := by
    unfold IrrepObj.midSigma
    rw [h.n_eq]
    exact h.genMid.sigma σ _
  exact (if_pos rfl).trans (congrArg (Option.map (mkB b x m f).setView) e)

theorem applyTransposition_ok {n b : Nat} (hn : 1 ≤ n) (i j : Fin n) {v : SnVecB} (hv : Ok n b v) :
    ∃ w, SnVecB.applyTransposition v ((i : Nat) + 1) ((j : Nat) + 1) = some w ∧ Ok n b w ∧ ∀ k < b, ∃ u,
      SnVec.apply (member v k) (enc (Equiv.swap i j)) = some u ∧ SnVec.obs u = SnVec.obs (member w k) := by
  refine mapM_act hn (Equiv.swap i j) _ (fun x hx m f => ?_) hv
  unfold BPart.applyTransposition
  have h := (irrOf_spec hn hx).2.2.2
  exact (if_pos rfl).trans (congrArg (Option.map (mkB b x m f).setView) (h.genMid.swap i j _))

theorem applyCycle_ok {n b : Nat} (hn : 1 ≤ n) (i j : Fin n) {v : SnVecB} (hv : Ok n b v) :
    ∃ w, (v.mapM fun P => P.applyCycle ((i : Nat) + 1) ((j : Nat) + 1)) = some w ∧ Ok n b w ∧ ∀ k < b, ∃ u,
      SnVec.apply (member v k) (enc (cyc2 i j)) = some u ∧ SnVec.obs u = SnVec.obs (member w k) := by
  refine mapM_act hn (cyc2 i j) _ (fun x hx m f => ?_) hv
  unfold BPart.applyCycle
  have h := (irrOf_spec hn hx).2.2.2
  exact (if_pos rfl).trans (congrArg (Option.map (mkB b x m f).setView) (cyc_midCycle h i j _))

/-- a loop over copies changes nothing -/
theorem foldlM_const {α β : Type} (l : List α) (w : β) (op : α → Option α) {l' : List α} (h : l.mapM op = some l') :
    l.foldlM (fun w p => (op p).map fun _ => w) w = some w := by
  induction l generalizing l' with
  | nil => rfl
  | cons x l ih =>
    rw [List.mapM_cons] at h
    obtain ⟨y, h1, h⟩ := Option.bind_eq_some_iff.1 h
    obtain ⟨z, h2, -⟩ := Option.bind_eq_some_iff.1 h
    rw [List.foldlM_cons, h1]
    exact ih h2

theorem down_ok {n b : Nat} (hn : 1 ≤ n) {P : BPart} (hP : Ok (n + 1) b [P]) :
    ∃ w, down P = some w ∧ Ok n b w ∧ ∀ k, SnVec.downB (P.member k) = some (member w k) := by
  have hb := hP.size P (by simp)
  obtain ⟨R, h1, h2, -⟩ := downB_ok hn (P.member 0) (hP.member 0)
  have h3 := down_member P 0
  rw [h1, Option.map_eq_some_iff] at h3
  obtain ⟨w, h4, h5⟩ := h3
  refine ⟨w, h4, ok_of_member (k := 0) (hb ▸ down_allB h4) (by rw [h5]; exact h2), fun k => ?_⟩
  rw [← down_member, h4]
  rfl

/-! ### `up` -/

theorem upInner_dims {v : SnVecB} {m : Nat} {l : List (List Nat)} {dest : BPart} {voffs : Nat} {offs : SnType} {s : BPart × SnType}
    (h : upInner v m l dest voffs offs = some s) : s.1.b = dest.b ∧ s.1.d = dest.d ∧ s.1.m = dest.m ∧ s.1.irrep = dest.irrep := by
  induction l generalizing dest voffs offs with
  | nil => simp only [upInner, Option.some.injEq] at h; rw [← h]; exact ⟨rfl, rfl, rfl, rfl⟩
  | cons mu l ih =>
    rw [upInner] at h
    obtain ⟨ix, -, h⟩ := Option.bind_eq_some_iff.1 h
    obtain ⟨P, -, h⟩ := Option.bind_eq_some_iff.1 h
    obtain ⟨q, -, h⟩ := Option.bind_eq_some_iff.1 h
    simp only at h
    split at h
    · obtain ⟨T, h1, h⟩ := Option.bind_eq_some_iff.1 h
      obtain ⟨so2, -, h⟩ := Option.bind_eq_some_iff.1 h
      obtain ⟨a1, a2, a3, a4⟩ := ih h
      obtain ⟨b1, b2, b3, b4⟩ := BPart.addBlock_b h1
      exact ⟨a1.trans b1, a2.trans b2, a3.trans b3, a4.trans b4⟩
    · simp at h

/-- the parts of the result so far -/
def GoodR (n b : Nat) (R : SnVecB) : Prop := ∀ P ∈ R, P.b = b ∧ IsPartition n P.irrep.lambda ∧ P.d = dimOf P.irrep.lambda

theorem GoodR.set {n b : Nat} {R : SnVecB} (h : GoodR n b R) {ix : Nat} {P Q : BPart} (hP : R[ix]? = some P) (hb : Q.b = P.b)
    (hd : Q.d = P.d) (hi : Q.irrep = P.irrep) : GoodR n b (R.set ix Q) := by
  intro S hS
  rcases List.mem_or_eq_of_mem_set hS with h1 | h1
  · exact h S h1
  · rw [h1, hb, hd, hi]; exact h P (List.mem_of_getElem? hP)

theorem index_get {n : Nat} {v : SnVecB} (hv : ∀ P ∈ v, IsPartition n P.irrep.lambda) {x : List Nat} (hx : IsPartition n x) {ix : Nat}
    (h : index v x = some ix) : ∃ P, v[ix]? = some P ∧ P ∈ v ∧ P.irrep.lambda = x := by
  unfold index at h
  obtain ⟨hlt, h2, -⟩ := List.findIdx?_eq_some_iff_getElem.1 h
  refine ⟨v[ix], List.getElem?_eq_getElem hlt, List.getElem_mem hlt, ?_⟩
  exact IsPartition.ext (hv _ (List.getElem_mem hlt)) hx ((eqb_iff _ _).1 h2)

theorem upLoop_none {n b : Nat} (hn : 1 ≤ n) {v : SnVecB} (hv : Ok n b v) (t : SnType) (ht : ∀ p ∈ t, IsPartition (n + 1) p.1)
    (h2 : ∃ p ∈ t, 2 ≤ (subs p.1).length) (R : SnVecB) (hR : GoodR (n + 1) b R) (offs : SnType) : upLoop v t R offs = none := by
  induction t generalizing R offs with
  | nil => obtain ⟨p, hp, -⟩ := h2; simp at hp
  | cons p t ih =>
    have hx := ht p (by simp)
    rw [upLoop]
    cases e1 : index R p.1 with
    | none => rfl
    | some k =>
      obtain ⟨D, d1, d2, d3⟩ := index_get (fun P hP => (hR P hP).2.1) hx e1
      simp only [Option.bind_eq_bind, Option.bind_some, d1, parents_eq hx (by omega)]
      by_cases hlen : 2 ≤ (subs p.1).length
      · obtain ⟨mu, mu', l, hs⟩ : ∃ mu mu' l, subs p.1 = mu :: mu' :: l := by
          match h : subs p.1, hlen with
          | mu :: mu' :: l, _ => exact ⟨mu, mu', l, rfl⟩
        have hmu : IsPartition n mu := sub_part hx mu (by rw [hs]; simp)
        have hmu' : IsPartition n mu' := sub_part hx mu' (by rw [hs]; simp)
        have hnone : upInner v D.m (subs p.1) D 0 offs = none := by
          rw [hs, upInner]
          cases e2 : index v mu with
          | none => rfl
          | some ix =>
            obtain ⟨P, p1, p2, p3⟩ := index_get (fun P hP => (hv.part P hP).1) hmu e2
            simp only [Option.bind_eq_bind, Option.bind_some, p1]
            cases SnType.get offs mu with
            | none => rfl
            | some q =>
              simp only [Option.bind_some]
              rw [if_neg]
              rintro ⟨-, h, -⟩
              have hd : P.d = dimOf mu := by
                have := hv.eq_mkB p2
                rw [this, ← p3]
                rfl
              rw [hd, (hR D d2).2.2, d3, dimOf_subs hn hx, hs] at h
              have := dimOf_pos hn hmu'
              simp only [List.map_cons, List.sum_cons] at h
              omega
        rw [hnone]
        rfl
      · have h2' : ∃ p ∈ t, 2 ≤ (subs p.1).length := by
          obtain ⟨q, hq, hq2⟩ := h2
          rcases List.mem_cons.1 hq with rfl | hq
          · exact absurd hq2 hlen
          · exact ⟨q, hq, hq2⟩
        cases e3 : upInner v D.m (subs p.1) D 0 offs with
        | none => rfl
        | some s =>
          obtain ⟨a1, a2, a3, a4⟩ := upInner_dims e3
          exact ih (fun q hq => ht q (by simp [hq])) h2' _ (hR.set d1 a1 a2 a4) _

theorem zero_ok {n : Nat} (hn : 1 ≤ n) (b : Nat) {t : SnType} (ht : TypeOk n t) (hm : ∀ x ∈ parts t, 0 ≤ mult t x) :
    zero b t = some ((parts t).map fun x => mkB b x (mult t x).toNat fun _ _ _ => 0) := by
  have h1 : zero b t = some (t.map fun e => mkB b e.1 e.2.toNat fun _ _ _ => 0) := by
    unfold zero
    apply mapM_map
    intro e he
    have hx : e.1 ∈ parts t := List.mem_map.2 ⟨e, he, rfl⟩
    have : 0 ≤ e.2 := by
      have := hm _ hx
      have h2 : mult t e.1 = e.2 := by
        conv at he => rw [ht.eq_map]
        obtain ⟨y, -, rfl⟩ := List.mem_map.1 he
        rfl
      rwa [h2] at this
    unfold BPart.zero
    rw [(irrOf_spec hn (ht.all _ hx)).1]
    simp only [Option.bind_eq_bind, Option.bind_some]
    rw [if_pos this]
    rfl
  rw [h1]
  conv_lhs => rw [ht.eq_map]
  rw [List.map_map]
  rfl

theorem zero_good {n : Nat} (hn : 1 ≤ n) (b : Nat) {t : SnType} (ht : TypeOk n t) :
    GoodR n b ((parts t).map fun x => mkB b x (mult t x).toNat fun _ _ _ => 0) := by
  intro P hP
  obtain ⟨x, hx, rfl⟩ := List.mem_map.1 hP
  have h := irrOf_spec hn (ht.all x hx)
  have : (mkB b x (mult t x).toNat fun _ _ _ => 0).irrep.lambda = x := h.2.1
  rw [this]
  exact ⟨rfl, ht.all x hx, rfl⟩

theorem up_none {n b : Nat} (hn : 1 ≤ n) {v : SnVecB} (hv : Ok n b v) {t : SnType} (ht : TypeOk (n + 1) t)
    (hm : ∀ x ∈ parts t, 0 ≤ mult t x) (h2 : ∃ x ∈ parts t, 2 ≤ (subs x).length) : up t v = none := by
  unfold up
  cases e : getb v with
  | none => rfl
  | some b' =>
    have hb : b' = b := by
      unfold getb at e
      cases v with
      | nil => simp at e
      | cons P v => simp at e; rw [← e]; exact hv.size P (by simp)
    subst hb
    simp only [Option.bind_eq_bind, Option.bind_some, zero_ok (by omega) b' ht hm]
    obtain ⟨x, hx, hx2⟩ := h2
    obtain ⟨p, hp, rfl⟩ := List.mem_map.1 hx
    exact upLoop_none hn hv t (fun p hp => ht.all _ (List.mem_map.2 ⟨p, hp, rfl⟩)) ⟨p, hp, hx2⟩ _ (zero_good (by omega) b' ht) _

/-- the offsets of the two versions of `up` -/
structure OffsRel (n : Nat) (v : SnVecB) (offs : List Nat) (so : SnType) : Prop where
  ok : TypeOk n so
  nonneg : ∀ x, 0 ≤ mult so x
  eq : ∀ (ix : Nat) (P : BPart), v[ix]? = some P → offs[ix]? = some (mult so P.irrep.lambda).toNat

theorem upLoop_member {n b : Nat} (hn : 1 ≤ n) {v : SnVecB} (hv : Ok n b v) (k : Nat) (t : SnType) (ht : ∀ p ∈ t, IsPartition (n + 1) p.1)
    (h1 : ∀ p ∈ t, ∃ mu, subs p.1 = [mu]) (R : SnVecB) (hR : GoodR (n + 1) b R) (offs : List Nat) (so : SnType) (ho : OffsRel n v offs so) :
    (upLoop v t R so).map (member · k) = SnVec.upLoop (member v k) t (member R k) offs := by
  induction t generalizing R offs so with
  | nil => rfl
  | cons p t ih =>
    have hx := ht p (by simp)
    rw [upLoop, SnVec.upLoop, index_member]
    cases e1 : index R p.1 with
    | none => rfl
    | some ix =>
      obtain ⟨D, d1, d2, d3⟩ := index_get (fun P hP => (hR P hP).2.1) hx e1
      obtain ⟨mu, hs⟩ := h1 p (by simp)
      have hmu : IsPartition n mu := sub_part hx mu (by rw [hs]; simp)
      simp only [Option.bind_eq_bind, Option.bind_some, member_get, d1, parents_eq hx (by omega), Option.map_some, hs]
      rw [upInner, SnVec.upInner, index_member]
      cases e2 : index v mu with
      | none => rfl
      | some iy =>
        obtain ⟨P, p1, p2, p3⟩ := index_get (fun P hP => (hv.part P hP).1) hmu e2
        obtain ⟨so1, g1, g2, g3⟩ := SnType.get_ok ho.ok hmu
        obtain ⟨so2, f1, f2, -, f4, -⟩ := SnType.add_ok (D.m : Int) g2 hmu
        have hd : P.d = dimOf mu := by
          have := hv.eq_mkB p2
          rw [this, ← p3]
          rfl
        have hdd : P.d = D.d - 0 := by
          rw [hd, (hR D d2).2.2, d3, dimOf_subs hn hx, hs]; simp
        have ho1 := ho.eq iy P p1
        rw [p3] at ho1
        simp only [Option.bind_eq_bind, Option.bind_some, p1, member_get, Option.map_some, g1, ho1, BPart.member_d]
        rw [if_pos ⟨ho.nonneg mu, hdd, trivial⟩, BPart.member_m,
          ← BPart.member_addBlock D k 0 0 P 0 _ P.d D.m ((hv.size P p2).trans (hR D d2).1.symm)]
        cases e3 : D.addBlock 0 0 P 0 (mult so mu).toNat P.d D.m with
        | none => rfl
        | some T =>
          obtain ⟨b1, b2, b3, b4⟩ := BPart.addBlock_b e3
          simp only [Option.bind_some, Option.map_some, f1, upInner, SnVec.upInner]
          rw [ih (fun q hq => ht q (by simp [hq])) (fun q hq => h1 q (by simp [hq])) _ (hR.set d1 b1 b2 b4)
            (offs.set iy ((mult so mu).toNat + D.m)), member_set]
          refine ⟨f2, fun x => ?_, fun iz Q hQ => ?_⟩
          · rw [f4, g3]
            have := ho.nonneg x
            split_ifs <;> omega
          · rw [List.getElem?_set]
            have hz := ho.eq iz Q hQ
            by_cases e4 : iy = iz
            · subst e4
              rw [p1] at hQ
              obtain rfl := Option.some.inj hQ
              rw [if_pos rfl, if_pos (List.getElem?_eq_some_iff.1 hz).1, f4, g3, p3, if_pos rfl]
              have := ho.nonneg mu
              congr 1
              omega
            · rw [if_neg e4, hz, f4, g3, if_neg, add_zero]
              intro h
              apply e4
              have hnd : (v.map fun P => P.irrep.lambda).Nodup := by
                have := (hv.member 0).nodup
                rwa [keys_member] at this
              have q1 : (v.map fun P => P.irrep.lambda)[iy]? = some mu := by rw [List.getElem?_map, p1, Option.map_some, p3]
              have q2 : (v.map fun P => P.irrep.lambda)[iz]? = some mu := by rw [List.getElem?_map, hQ, Option.map_some, h]
              exact List.getElem?_inj (List.getElem?_eq_some_iff.1 q1).1 hnd |>.1 (q1.trans q2.symm)

theorem up_member {n b : Nat} (hn : 1 ≤ n) {v : SnVecB} (hv : Ok n b v) (hne : v ≠ []) {t : SnType} (ht : TypeOk (n + 1) t)
    (hm : ∀ x ∈ parts t, 0 ≤ mult t x) (h1 : ∀ x ∈ parts t, ∃ mu, subs x = [mu]) (k : Nat) :
    (up t v).map (member · k) = SnVec.up t (member v k) := by
  have hb : getb v = some b := by
    unfold getb
    cases v with
    | nil => exact absurd rfl hne
    | cons P v => simp; exact hv.size P (by simp)
  unfold up SnVec.up
  rw [hb, ← member_zero b k]
  simp only [Option.bind_eq_bind, Option.bind_some, zero_ok (by omega) b ht hm, Option.map_some]
  refine upLoop_member hn hv k t (fun p hp => ht.all _ (List.mem_map.2 ⟨p, hp, rfl⟩))
    (fun p hp => h1 _ (List.mem_map.2 ⟨p, hp, rfl⟩)) _ (zero_good (by omega) b ht) _ _ ⟨typeOk_nil n, fun x => ?_, fun ix P hP => ?_⟩
  · simp [mult]
  · rw [List.getElem?_replicate, if_pos]
    · simp [mult]
    · unfold SnVecB.member
      rw [List.length_map]
      exact (List.getElem?_eq_some_iff.1 hP).1

end SnVecB

end Snob
