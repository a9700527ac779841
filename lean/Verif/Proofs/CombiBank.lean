import Verif.Spec.CombiBank
import Verif.Proofs.Word
import Verif.Proofs.ROrder
import Verif.Proofs.TrivSign

/-! # The combinatorial bank -/

namespace Snob.Combi

open Snob

/-- the partition of the object at a position -/
def lamAt (b : Bank) (n id : Nat) : Option (List Nat) := (obj b n id).map (·.lambda)

structure ObjOk (b : Bank) (n : Nat) (o : PObj) : Prop where
  part : IsPartition (n + 1) o.lambda
  par : ∃ ps, IP.bankParents o.lambda = some ps ∧ o.parents.map (lamAt b (n - 1)) = ps.map some
  tab : o.tableaux = [] ∨ tableaux o.lambda = some o.tableaux

structure Ok (b : Bank) : Prop where
  parts : ∀ (n : Nat) (L : Level), b[n]? = some L → L.partitions = [] ∨ L.partitions = IP.partitions (n + 1)
  ro : ∀ (n : Nat) (L : Level), b[n]? = some L → L.ro = [] ∨ IP.roPartitions (n + 1) = some L.ro
  objs : ∀ (n id : Nat) (o : PObj), obj b n id = some o → ObjOk b n o
  nodup : ∀ (n : Nat) (L : Level), b[n]? = some L → (L.ip.map (·.lambda)).Nodup

def ObjLe (o o' : PObj) : Prop := o'.lambda = o.lambda ∧ o'.parents = o.parents ∧ (o.tableaux = [] ∨ o'.tableaux = o.tableaux)

structure LevLe (L L' : Level) : Prop where
  parts : L.partitions = [] ∨ L'.partitions = L.partitions
  ro : L.ro = [] ∨ L'.ro = L.ro
  ip : ∀ (id : Nat) (o : PObj), L.ip[id]? = some o → ∃ o', L'.ip[id]? = some o' ∧ ObjLe o o'

def Le (b b' : Bank) : Prop := ∀ (n : Nat) (L : Level), b[n]? = some L → ∃ L', b'[n]? = some L' ∧ LevLe L L'

theorem ObjLe.refl (o : PObj) : ObjLe o o := ⟨rfl, rfl, Or.inr rfl⟩

theorem ObjLe.trans {o o' o'' : PObj} (h : ObjLe o o') (h' : ObjLe o' o'') : ObjLe o o'' := by
  obtain ⟨a1, a2, a3⟩ := h
  obtain ⟨b1, b2, b3⟩ := h'
  refine ⟨b1.trans a1, b2.trans a2, ?_⟩
  rcases a3 with a3 | a3
  · exact Or.inl a3
  · rcases b3 with b3 | b3
    · left; rw [← a3, b3]
    · right; rw [b3, a3]

theorem LevLe.refl (L : Level) : LevLe L L := ⟨Or.inr rfl, Or.inr rfl, fun _ o h => ⟨o, h, ObjLe.refl o⟩⟩

theorem LevLe.trans {L L' L'' : Level} (h : LevLe L L') (h' : LevLe L' L'') : LevLe L L'' := by
  refine ⟨?_, ?_, fun id o ho => ?_⟩
  · rcases h.parts with a | a
    · exact Or.inl a
    · rcases h'.parts with c | c
      · left; rw [← a, c]
      · right; rw [c, a]
  · rcases h.ro with a | a
    · exact Or.inl a
    · rcases h'.ro with c | c
      · left; rw [← a, c]
      · right; rw [c, a]
  · obtain ⟨o', h1, h2⟩ := h.ip id o ho
    obtain ⟨o'', h3, h4⟩ := h'.ip id o' h1
    exact ⟨o'', h3, h2.trans h4⟩

theorem Le.refl (b : Bank) : Le b b := fun _ L h => ⟨L, h, LevLe.refl L⟩

theorem Le.trans {b b' b'' : Bank} (h : Le b b') (h' : Le b' b'') : Le b b'' := fun n L hL => by
  obtain ⟨L', h1, h2⟩ := h n L hL
  obtain ⟨L'', h3, h4⟩ := h' n L' h1
  exact ⟨L'', h3, h2.trans h4⟩

theorem Le.obj {b b' : Bank} (h : Le b b') {n id : Nat} {o : PObj} (ho : obj b n id = some o) : ∃ o', obj b' n id = some o' ∧ ObjLe o o' := by
  unfold Combi.obj at ho ⊢
  obtain ⟨L, hL, ho⟩ := Option.bind_eq_some_iff.1 ho
  obtain ⟨L', h1, h2⟩ := h n L hL
  obtain ⟨o', h3, h4⟩ := h2.ip id o ho
  exact ⟨o', by rw [h1, Option.bind_some, h3], h4⟩

theorem Le.lamAt {b b' : Bank} (h : Le b b') {n id : Nat} {l : List Nat} (hl : lamAt b n id = some l) : Combi.lamAt b' n id = some l := by
  unfold Combi.lamAt at hl ⊢
  obtain ⟨o, ho, rfl⟩ := Option.map_eq_some_iff.1 hl
  obtain ⟨o', h1, h2⟩ := h.obj ho
  rw [h1, Option.map_some, h2.1]

theorem Le.map_lamAt {b b' : Bank} (h : Le b b') {n : Nat} {ids : List Nat} {ps : List (List Nat)}
    (hl : ids.map (Combi.lamAt b n) = ps.map some) : ids.map (Combi.lamAt b' n) = ps.map some := by
  rw [← hl]
  refine List.map_congr_left fun id hid => ?_
  have : Combi.lamAt b n id ∈ ps.map some := hl ▸ List.mem_map_of_mem hid
  obtain ⟨l, _, e⟩ := List.mem_map.1 this
  rw [← e, h.lamAt e.symm]

theorem ObjOk.mono {b b' : Bank} (h : Le b b') {n : Nat} {o : PObj} (ho : ObjOk b n o) : ObjOk b' n o := by
  obtain ⟨ps, h1, h2⟩ := ho.par
  exact ⟨ho.part, ⟨ps, h1, h.map_lamAt h2⟩, ho.tab⟩

/-- changes up to level `n`, no change of the restriction ordered lists -/
structure Ext (n : Nat) (b b' : Bank) : Prop where
  le : Le b b'
  len : b'.length = b.length
  above : ∀ m : Nat, n < m → b'[m]? = b[m]?
  ro : ∀ m : Nat, (b'[m]?).map (·.ro) = (b[m]?).map (·.ro)

theorem Ext.refl (n : Nat) (b : Bank) : Ext n b b := ⟨Le.refl b, rfl, fun _ _ => rfl, fun _ => rfl⟩

theorem Ext.trans {n : Nat} {b b' b'' : Bank} (h : Ext n b b') (h' : Ext n b' b'') : Ext n b b'' :=
  ⟨h.le.trans h'.le, h'.len.trans h.len, fun m hm => (h'.above m hm).trans (h.above m hm), fun m => (h'.ro m).trans (h.ro m)⟩

theorem Ext.mono {n k : Nat} (hk : n ≤ k) {b b' : Bank} (h : Ext n b b') : Ext k b b' :=
  ⟨h.le, h.len, fun m hm => h.above m (by omega), h.ro⟩

theorem le_set {b : Bank} {n : Nat} {L L' : Level} (hL : b[n]? = some L) (h : LevLe L L') : Le b (b.set n L') := by
  intro m M hM
  by_cases e : m = n
  · subst e
    obtain rfl := Option.some.inj (hL.symm.trans hM)
    exact ⟨L', by rw [List.getElem?_set_self' , hL]; rfl, h⟩
  · exact ⟨M, by rw [List.getElem?_set_ne (Ne.symm e)]; exact hM, LevLe.refl M⟩

theorem ext_set {b : Bank} {n : Nat} {L L' : Level} (hL : b[n]? = some L) (h : LevLe L L') (hro : L'.ro = L.ro) : Ext n b (b.set n L') := by
  refine ⟨le_set hL h, by simp, fun m hm => by rw [List.getElem?_set_ne (by omega)], fun m => ?_⟩
  by_cases e : m = n
  · subst e
    rw [List.getElem?_set_self', hL]
    simp [hro]
  · rw [List.getElem?_set_ne (Ne.symm e)]

theorem set_self {b : Bank} {n : Nat} {L L' : Level} (hL : b[n]? = some L) : (b.set n L')[n]? = some L' := by
  rw [List.getElem?_set_self', hL]; rfl

theorem Ok.set {b : Bank} (hb : Ok b) {n : Nat} {L L' : Level} (hL : b[n]? = some L) (h : LevLe L L')
    (h1 : L'.partitions = [] ∨ L'.partitions = IP.partitions (n + 1)) (h2 : L'.ro = [] ∨ IP.roPartitions (n + 1) = some L'.ro)
    (h3 : ∀ (id : Nat) (o : PObj), L'.ip[id]? = some o → ObjOk b n o) (h4 : (L'.ip.map (·.lambda)).Nodup) : Ok (b.set n L') := by
  have hle := le_set hL h
  have key : ∀ (m : Nat) (M : Level), (b.set n L')[m]? = some M → (m = n ∧ M = L') ∨ (m ≠ n ∧ b[m]? = some M) := by
    intro m M hM
    by_cases e : m = n
    · subst e
      rw [set_self hL] at hM
      exact Or.inl ⟨rfl, (Option.some.inj hM).symm⟩
    · rw [List.getElem?_set_ne (Ne.symm e)] at hM
      exact Or.inr ⟨e, hM⟩
  refine ⟨fun m M hM => ?_, fun m M hM => ?_, fun m id o ho => ?_, fun m M hM => ?_⟩
  · rcases key m M hM with ⟨rfl, rfl⟩ | ⟨_, hM⟩
    · exact h1
    · exact hb.parts m M hM
  · rcases key m M hM with ⟨rfl, rfl⟩ | ⟨_, hM⟩
    · exact h2
    · exact hb.ro m M hM
  · unfold Combi.obj at ho
    obtain ⟨M, hM, ho'⟩ := Option.bind_eq_some_iff.1 ho
    rcases key m M hM with ⟨rfl, rfl⟩ | ⟨_, hM⟩
    · exact (h3 id o ho').mono hle
    · exact (hb.objs m id o (by unfold Combi.obj; rw [hM, Option.bind_some, ho'])).mono hle
  · rcases key m M hM with ⟨rfl, rfl⟩ | ⟨_, hM⟩
    · exact h4
    · exact hb.nodup m M hM

theorem eqb_part {n : Nat} {p q : List Nat} (hp : IsPartition n p) (hq : IsPartition n q) : IP.eqb p q = true ↔ p = q := by
  rw [eqb_iff]
  exact ⟨fun h => IsPartition.ext hp hq h, fun h _ => by rw [h]⟩

/-! ## Objects -/

theorem parentsLoop_ok {n : Nat} {lam : List Nat} (hp : IsPartition (n + 2) lam)
    (rec : List Nat → Bank → Option (Nat × Bank))
    (hrec : ∀ mu b, Ok b → n < b.length → IsPartition (n + 1) mu → ∃ id b', rec mu b = some (id, b') ∧ Ok b' ∧ Ext n b b' ∧ lamAt b' n id = some mu)
    (c : Nat) (hc : c ≤ lam.length) (b : Bank) (hb : Ok b) (hn : n < b.length) :
    ∃ ids b' ps, parentsLoop rec lam c b = some (ids, b') ∧ Ok b' ∧ Ext n b b' ∧ IP.bankParentsLoop lam c = some ps ∧
      ids.map (lamAt b' n) = ps.map some := by
  induction c generalizing b with
  | zero => exact ⟨[], b, [], rfl, hb, Ext.refl n b, rfl, rfl⟩
  | succ i ih =>
    rw [parentsLoop, IP.bankParentsLoop, shortenable_eq hp (by omega)]
    simp only [Option.bind_eq_bind, Option.bind_some]
    by_cases hs : row lam (i + 1) < row lam i
    · obtain ⟨mu, h1, h2, _⟩ := isPartition_remove hp (r := i) hs
      obtain ⟨id, b1, h3, h4, h5, h6⟩ := hrec mu b hb hn h2
      obtain ⟨ids, b2, ps, h7, h8, h9, h10, h11⟩ := ih (by omega) b1 h4 (by rw [h5.len]; exact hn)
      refine ⟨id :: ids, b2, mu :: ps, ?_, h8, h5.trans h9, ?_, ?_⟩
      · simp only [hs, decide_true, if_true]
        rw [h1, Option.bind_some, h3, Option.bind_some, h7, Option.bind_some]
      · simp only [hs, decide_true]
        rw [h1, h10]
      · rw [List.map_cons, List.map_cons, h11, h9.le.lamAt h6]
    · obtain ⟨ids, b2, ps, h7, h8, h9, h10, h11⟩ := ih (by omega) b hb hn
      refine ⟨ids, b2, ps, ?_, h8, h9, ?_, h11⟩
      · simp only [hs, decide_false, Bool.false_eq_true, if_false]
        exact h7
      · simp only [hs, decide_false]
        exact h10

theorem getObj_ok (n : Nat) : ∀ (lam : List Nat) (b : Bank), Ok b → n < b.length → IsPartition (n + 1) lam →
    ∃ id b', getObj (n + 1) lam b = some (id, b') ∧ Ok b' ∧ Ext n b b' ∧ lamAt b' n id = some lam := by
  induction n with
  | zero =>
    intro lam b hb hn hp
    have hL : b[0]? = some b[0] := List.getElem?_eq_getElem hn
    rw [getObj, getn_eq, hp.sum, if_pos rfl, hL]
    simp only [Option.bind_eq_bind, Option.bind_some]
    cases hf : (b[0]).ip.findIdx? (fun o => IP.eqb o.lambda lam) with
    | some id =>
      obtain ⟨hid, h1, _⟩ := List.findIdx?_eq_some_iff_getElem.1 hf
      have ho : obj b 0 id = some (b[0]).ip[id] := by unfold obj; rw [hL, Option.bind_some, List.getElem?_eq_getElem hid]
      refine ⟨id, b, rfl, hb, Ext.refl _ b, ?_⟩
      unfold lamAt
      rw [ho, Option.map_some, (eqb_part (hb.objs _ _ _ ho).part hp).1 h1]
    | none =>
      rw [List.findIdx?_eq_none_iff] at hf
      simp only [Nat.zero_add, gt_iff_lt, Nat.lt_irrefl, if_false, Option.bind_some, hL]
      have hle : LevLe b[0] { b[0] with ip := (b[0]).ip ++ [⟨lam, [], []⟩] } :=
        ⟨Or.inr rfl, Or.inr rfl, fun id o ho => ⟨o, by
          simp only; rw [List.getElem?_append_left (by obtain ⟨h, _⟩ := List.getElem?_eq_some_iff.1 ho; exact h)]; exact ho, ObjLe.refl o⟩⟩
      refine ⟨_, _, rfl, hb.set hL hle (by have := hb.parts _ _ hL; exact this) (by have := hb.ro _ _ hL; exact this) (fun id o ho => ?_) ?_, ext_set hL hle rfl, ?_⟩
      · simp only at ho
        rcases Nat.lt_or_ge id (b[0]).ip.length with h | h
        · rw [List.getElem?_append_left h] at ho
          exact hb.objs 0 id o (by unfold obj; rw [hL, Option.bind_some, ho])
        · rw [List.getElem?_append_right h] at ho
          have : o = ⟨lam, [], []⟩ := by
            obtain ⟨_, h⟩ := List.getElem?_eq_some_iff.1 ho
            simpa using h.symm
          subst this
          refine ⟨hp, ⟨[], ?_, rfl⟩, Or.inl rfl⟩
          unfold IP.bankParents
          rw [getn_eq, hp.sum, if_neg (by omega)]
      · rw [List.map_append, List.nodup_append]
        refine ⟨hb.nodup _ _ hL, by simp, fun x hx y hy => ?_⟩
        obtain ⟨o, ho, rfl⟩ := List.mem_map.1 hx
        simp only [List.map_cons, List.map_nil, List.mem_singleton] at hy
        subst hy
        intro e
        have := hf o ho
        rw [e, (eqb_iff _ _).2 fun _ => rfl] at this
        exact absurd this (by simp)
      · unfold lamAt obj
        rw [set_self hL, Option.bind_some]
        simp
  | succ n ih =>
    intro lam b hb hn hp
    have hL : b[n + 1]? = some b[n + 1] := List.getElem?_eq_getElem hn
    rw [getObj, getn_eq, hp.sum, if_pos rfl, hL]
    simp only [Option.bind_eq_bind, Option.bind_some]
    cases hf : (b[n + 1]).ip.findIdx? (fun o => IP.eqb o.lambda lam) with
    | some id =>
      obtain ⟨hid, h1, _⟩ := List.findIdx?_eq_some_iff_getElem.1 hf
      have ho : obj b (n + 1) id = some (b[n + 1]).ip[id] := by unfold obj; rw [hL, Option.bind_some, List.getElem?_eq_getElem hid]
      refine ⟨id, b, rfl, hb, Ext.refl _ b, ?_⟩
      unfold lamAt
      rw [ho, Option.map_some, (eqb_part (hb.objs _ _ _ ho).part hp).1 h1]
    | none =>
      rw [List.findIdx?_eq_none_iff] at hf
      obtain ⟨ids, b1, ps, h1, h2, h3, h4, h5⟩ := parentsLoop_ok hp (getObj (n + 1)) ih lam.length (le_refl _) b hb (by omega)
      have hL1 : b1[n + 1]? = some b[n + 1] := by rw [h3.above _ (by omega), hL]
      simp only [gt_iff_lt, show 1 < n + 1 + 1 by omega, if_true, h1, Option.bind_some, hL1]
      have hle : LevLe b[n + 1] { b[n + 1] with ip := (b[n + 1]).ip ++ [⟨lam, ids, []⟩] } :=
        ⟨Or.inr rfl, Or.inr rfl, fun id o ho => ⟨o, by
          simp only; rw [List.getElem?_append_left (by obtain ⟨h, _⟩ := List.getElem?_eq_some_iff.1 ho; exact h)]; exact ho, ObjLe.refl o⟩⟩
      refine ⟨_, _, rfl, h2.set hL1 hle (by have := h2.parts _ _ hL1; exact this) (by have := h2.ro _ _ hL1; exact this) (fun id o ho => ?_) ?_, (h3.mono (Nat.le_succ n)).trans (ext_set hL1 hle rfl), ?_⟩
      · simp only at ho
        rcases Nat.lt_or_ge id (b[n + 1]).ip.length with h | h
        · rw [List.getElem?_append_left h] at ho
          exact h2.objs (n + 1) id o (by unfold obj; rw [hL1, Option.bind_some, ho])
        · rw [List.getElem?_append_right h] at ho
          have : o = ⟨lam, ids, []⟩ := by
            obtain ⟨_, h⟩ := List.getElem?_eq_some_iff.1 ho
            simpa using h.symm
          subst this
          refine ⟨hp, ⟨ps, ?_, h5⟩, Or.inl rfl⟩
          unfold IP.bankParents
          rw [getn_eq, hp.sum, if_pos (by omega), h4]
      · rw [List.map_append, List.nodup_append]
        refine ⟨h2.nodup _ _ hL1, by simp, fun x hx y hy => ?_⟩
        obtain ⟨o, ho, rfl⟩ := List.mem_map.1 hx
        simp only [List.map_cons, List.map_nil, List.mem_singleton] at hy
        subst hy
        intro e
        have := hf o ho
        rw [e, (eqb_iff _ _).2 fun _ => rfl] at this
        exact absurd this (by simp)
      · unfold lamAt obj
        rw [set_self hL1, Option.bind_some]
        simp

/-! ## Lists of partitions -/

theorem getPartitions_ok (n : Nat) : ∀ b : Bank, Ok b → n < b.length →
    ∃ b', getPartitions (n + 1) b = some (IP.partitions (n + 1), b') ∧ Ok b' ∧ Ext n b b' ∧
      ∃ L, b'[n]? = some L ∧ L.partitions = IP.partitions (n + 1) := by
  induction n with
  | zero =>
    intro b hb hn
    have hL : b[0]? = some b[0] := List.getElem?_eq_getElem hn
    rw [getPartitions, hL]
    simp only [Option.bind_eq_bind, Option.bind_some]
    by_cases h : (b[0]).partitions.length = 0
    · have h0 := List.length_eq_zero_iff.1 h
      simp only [h0, List.length_nil, if_true, Nat.zero_add, Option.bind_some, hL, List.nil_append]
      have hle : LevLe b[0] { b[0] with partitions := [[1]] } := ⟨Or.inl h0, Or.inr rfl, fun id o ho => ⟨o, ho, ObjLe.refl o⟩⟩
      refine ⟨_, rfl, hb.set hL hle (Or.inr rfl) (by have := hb.ro _ _ hL; exact this) (fun id o ho => hb.objs 0 id o (by unfold obj; rw [hL, Option.bind_some]; exact ho)) (by have := hb.nodup _ _ hL; exact this), ext_set hL hle rfl, _, set_self hL, rfl⟩
    · rw [if_neg h]
      have : (b[0]).partitions = IP.partitions (0 + 1) := (hb.parts _ _ hL).resolve_left fun h0 => h (by rw [h0]; rfl)
      rw [this]
      exact ⟨b, rfl, hb, Ext.refl 0 b, _, hL, this⟩
  | succ n ih =>
    intro b hb hn
    have hL : b[n + 1]? = some b[n + 1] := List.getElem?_eq_getElem hn
    rw [getPartitions, hL]
    simp only [Option.bind_eq_bind, Option.bind_some]
    by_cases h : (b[n + 1]).partitions.length = 0
    · have h0 := List.length_eq_zero_iff.1 h
      obtain ⟨b1, h1, h2, h3, _⟩ := ih b hb (by omega)
      have hL1 : b1[n + 1]? = some b[n + 1] := by rw [h3.above _ (by omega), hL]
      simp only [h0, List.length_nil, if_true, Option.bind_some, h1, Option.map_some, hL1, List.nil_append, show ¬ (n + 1 + 1 = 1) by omega, if_false]
      have hle : LevLe b[n + 1] { b[n + 1] with partitions := IP.partitionsStep (IP.partitions (n + 1)) } := ⟨Or.inl h0, Or.inr rfl, fun id o ho => ⟨o, ho, ObjLe.refl o⟩⟩
      refine ⟨_, rfl, h2.set hL1 hle (Or.inr rfl) (by have := h2.ro _ _ hL1; exact this) (fun id o ho => h2.objs (n + 1) id o (by unfold obj; rw [hL1, Option.bind_some]; exact ho)) (by have := h2.nodup _ _ hL1; exact this), (h3.mono (Nat.le_succ n)).trans (ext_set hL1 hle rfl), _, set_self hL1, rfl⟩
    · rw [if_neg h]
      have : (b[n + 1]).partitions = IP.partitions (n + 1 + 1) := (hb.parts _ _ hL).resolve_left fun h0 => h (by rw [h0]; rfl)
      rw [this]
      exact ⟨b, rfl, hb, Ext.refl _ b, _, hL, this⟩

/-! ## The restriction order -/

theorem lamAt_inj {b : Bank} (hb : Ok b) {n i j : Nat} {l : List Nat} (hi : lamAt b n i = some l) (hj : lamAt b n j = some l) : i = j := by
  unfold lamAt obj at hi hj
  obtain ⟨o, ho, ei⟩ := Option.map_eq_some_iff.1 hi
  obtain ⟨o', ho', ej⟩ := Option.map_eq_some_iff.1 hj
  obtain ⟨L, hL, hoi⟩ := Option.bind_eq_some_iff.1 ho
  obtain ⟨L', hL', hoj⟩ := Option.bind_eq_some_iff.1 ho'
  obtain rfl := Option.some.inj (hL.symm.trans hL')
  obtain ⟨h1, h2⟩ := List.getElem?_eq_some_iff.1 hoi
  obtain ⟨h3, h4⟩ := List.getElem?_eq_some_iff.1 hoj
  refine (List.Nodup.getElem_inj_iff (hb.nodup n L hL) (hi := by simpa using h1) (hj := by simpa using h3)).1 ?_
  rw [List.getElem_map, List.getElem_map, h2, h4, ei, ej]

/-- comparing pointers is comparing partitions -/
theorem contains_iff {b : Bank} (hb : Ok b) {n : Nat} {xs ys : List Nat} {ps qs : List (List Nat)}
    (hx : xs.map (lamAt b n) = ps.map some) (hy : ys.map (lamAt b n) = qs.map some) :
    ys.all (fun y => xs.contains y) = qs.all (fun q => ps.contains q) := by
  rw [Bool.eq_iff_iff, List.all_eq_true, List.all_eq_true]
  simp only [List.contains_iff_mem]
  constructor
  · intro h q hq
    have : some q ∈ ys.map (lamAt b n) := by rw [hy]; exact List.mem_map_of_mem hq
    obtain ⟨y, hy', e⟩ := List.mem_map.1 this
    have h2 : some q ∈ ps.map some := by rw [← hx, ← e]; exact List.mem_map_of_mem (h y hy')
    obtain ⟨q', hq', e'⟩ := List.mem_map.1 h2
    rw [← Option.some.inj e']; exact hq'
  · intro h y hy'
    have : lamAt b n y ∈ qs.map some := by rw [← hy]; exact List.mem_map_of_mem hy'
    obtain ⟨q, hq, e⟩ := List.mem_map.1 this
    have h2 : some q ∈ xs.map (lamAt b n) := by rw [hx]; exact List.mem_map_of_mem (h q hq)
    obtain ⟨x, hx', e'⟩ := List.mem_map.1 h2
    rw [lamAt_inj hb e.symm e']; exact hx'

/-- object of a listed partition -/
theorem getObj_list {n : Nat} {p : List Nat} (hp : IsPartition (n + 1) p) {b : Bank} (hb : Ok b) (hn : n < b.length) :
    ∃ id b' o ps, getObj (n + 1) p b = some (id, b') ∧ Ok b' ∧ Ext n b b' ∧ obj b' (n + 1 - 1) id = some o ∧
      IP.bankParents p = some ps ∧ o.parents.map (lamAt b' (n - 1)) = ps.map some := by
  obtain ⟨id, b', h1, h2, h3, h4⟩ := getObj_ok n p b hb hn hp
  unfold lamAt at h4
  obtain ⟨o, ho, e⟩ := Option.map_eq_some_iff.1 h4
  obtain ⟨ps, h5, h6⟩ := (h2.objs n id o ho).par
  exact ⟨id, b', o, ps, h1, h2, h3, ho, by rw [← e]; exact h5, h6⟩

theorem roLoop_ok {n : Nat} {L : List (List Nat)} (hps : ∀ p ∈ L, IsPartition (n + 1) p)
    {rec : Nat → IP.ROState × Bank → Option (IP.ROState × Bank)} {rec' : Nat → IP.ROState → Option IP.ROState}
    (hrec : ∀ j st b st', st.used.length = L.length → Ok b → n < b.length → rec' j st = some st' →
      ∃ b', rec j (st, b) = some (st', b') ∧ Ok b' ∧ Ext n b b' ∧ st'.used.length = L.length)
    {i : Nat} {p : List Nat} (hi : L[i]? = some p) {subs : List Nat} {ps : List (List Nat)} (h1 : IP.bankParents p = some ps)
    (js : List Nat) (hjs : ∀ j ∈ js, j < L.length) (st st' : IP.ROState) (hlen : st.used.length = L.length) (b : Bank) (hb : Ok b) (hn : n < b.length)
    (hsub : subs.map (lamAt b (n - 1)) = ps.map some)
    (h : IP.roLoop rec' (IP.roOk L i) js st = some st') :
    ∃ b', roLoop (n + 1) L rec subs js (st, b) = some (st', b') ∧ Ok b' ∧ Ext n b b' ∧ st'.used.length = L.length := by
  induction js generalizing st b with
  | nil =>
    rw [IP.roLoop, Option.some.injEq] at h
    exact ⟨b, by rw [roLoop, h], hb, Ext.refl n b, by rw [← h]; exact hlen⟩
  | cons j js ih =>
    rw [IP.roLoop] at h
    rw [roLoop]
    simp only [Option.bind_eq_bind]
    cases hu : st.used[j]? with
    | none => rw [hu] at h; simp at h
    | some u =>
      rw [hu] at h
      simp only [Option.bind_some]
      cases u with
      | true =>
        simp only [if_true] at h ⊢
        exact ih (fun j hj => hjs j (by simp [hj])) st hlen b hb hn hsub h
      | false =>
        simp only [Bool.false_eq_true, if_false] at h ⊢
        have hj := hjs j (by simp)
        have hq : L[j]? = some L[j] := List.getElem?_eq_getElem hj
        obtain ⟨id, b1, o, qs, a1, a2, a3, a4, a5, a6⟩ := getObj_list (hps _ (List.getElem_mem hj)) hb hn
        rw [hq, Option.bind_some, a1, Option.bind_some]
        simp only [a4, Option.bind_some]
        have hok : IP.roOk L i j = o.parents.all (fun x => subs.contains x) := by
          rw [contains_iff a2 (a3.le.map_lamAt hsub) a6]
          unfold IP.roOk IP.subsumes
          rw [hi, hq]
          simp only [h1, a5]
        rw [hok] at h
        have hn1 : n < b1.length := by rw [a3.len]; exact hn
        by_cases hc : o.parents.all (fun x => subs.contains x) = true
        · rw [if_pos hc] at h ⊢
          cases hr : rec' j st with
          | none => rw [hr] at h; simp at h
          | some st1 =>
            rw [hr] at h
            obtain ⟨b2, c1, c2, c3, c4⟩ := hrec j st b1 st1 hlen a2 hn1 hr
            rw [c1, Option.bind_some]
            obtain ⟨b3, d1, d2, d3, d4⟩ := ih (fun j hj => hjs j (by simp [hj])) st1 c4 b2 c2 (by rw [c3.len]; exact hn1)
              (c3.le.map_lamAt (a3.le.map_lamAt hsub)) h
            exact ⟨b3, d1, d2, (a3.trans c3).trans d3, d4⟩
        · rw [if_neg hc] at h ⊢
          obtain ⟨b3, d1, d2, d3, d4⟩ := ih (fun j hj => hjs j (by simp [hj])) st hlen b1 a2 hn1 (a3.le.map_lamAt hsub) h
          exact ⟨b3, d1, d2, a3.trans d3, d4⟩

theorem proposeRO_ok {n : Nat} {L : List (List Nat)} (hps : ∀ p ∈ L, IsPartition (n + 1) p) (fuel : Nat) :
    ∀ (i : Nat) (st : IP.ROState) (b : Bank) (st' : IP.ROState), st.used.length = L.length → Ok b → n < b.length →
      IP.proposeRO (IP.roOk L) L.length fuel i st = some st' →
      ∃ b', proposeRO (n + 1) L fuel i (st, b) = some (st', b') ∧ Ok b' ∧ Ext n b b' ∧ st'.used.length = L.length := by
  induction fuel with
  | zero => intro i st b st' _ _ _ h; simp [IP.proposeRO] at h
  | succ fuel ih =>
    intro i st b st' hlen hb hn h
    rw [IP.proposeRO] at h
    by_cases hi : i < st.used.length
    · rw [if_pos hi] at h
      rw [proposeRO]
      simp only [Option.bind_eq_bind]
      rw [if_pos hi]
      have hi' : i < L.length := by omega
      have hp : L[i]? = some L[i] := List.getElem?_eq_getElem hi'
      obtain ⟨id, b1, o, ps, a1, a2, a3, a4, a5, a6⟩ := getObj_list (hps _ (List.getElem_mem hi')) hb hn
      cases hr : IP.roLoop (IP.proposeRO (IP.roOk L) L.length fuel) (IP.roOk L i) (List.range' (i + 1) (L.length - (i + 1))) { st with used := st.used.set i true } with
      | none => rw [hr] at h; simp at h
      | some s =>
        rw [hr] at h
        obtain ⟨b2, c1, c2, c3, c4⟩ := roLoop_ok hps ih hp a5 (List.range' (i + 1) (L.length - (i + 1)))
          (fun j hj => by have := List.mem_range'_1.1 hj; omega) _ s (by simpa using hlen) b1 a2 (by rw [a3.len]; exact hn) a6 hr
        rw [hp, Option.bind_some, a1, Option.bind_some]
        simp only [a4, Option.bind_some, c1]
        simp only [Option.some.injEq] at h
        exact ⟨b2, by rw [← h], c2, a3.trans c3, by rw [← h]; exact c4⟩
    · rw [if_neg hi] at h; simp at h

theorem roOuter_ok {n : Nat} {L : List (List Nat)} (hps : ∀ p ∈ L, IsPartition (n + 1) p) (is : List Nat) (st st' : IP.ROState)
    (hlen : st.used.length = L.length) (b : Bank) (hb : Ok b) (hn : n < b.length)
    (h : IP.roOuter (IP.roOk L) L.length is st = some st') :
    ∃ b', roOuter (n + 1) L is (st, b) = some (st', b') ∧ Ok b' ∧ Ext n b b' := by
  induction is generalizing st b with
  | nil =>
    rw [IP.roOuter, Option.some.injEq] at h
    exact ⟨b, by rw [roOuter, h], hb, Ext.refl n b⟩
  | cons i is ih =>
    rw [IP.roOuter] at h
    rw [roOuter]
    simp only [Option.bind_eq_bind]
    cases hu : st.used[i]? with
    | none => rw [hu] at h; simp at h
    | some u =>
      rw [hu] at h
      simp only [Option.bind_some]
      cases u with
      | true =>
        simp only [if_true] at h ⊢
        exact ih st hlen b hb hn h
      | false =>
        simp only [Bool.false_eq_true, if_false] at h ⊢
        cases hr : IP.proposeRO (IP.roOk L) L.length L.length i st with
        | none => rw [hr] at h; simp at h
        | some s =>
          rw [hr] at h
          obtain ⟨b1, c1, c2, c3, c4⟩ := proposeRO_ok hps L.length i st b s hlen hb hn hr
          rw [c1, Option.bind_some]
          obtain ⟨b2, d1, d2, d3⟩ := ih s c4 b1 c2 (by rw [c3.len]; exact hn) h
          exact ⟨b2, d1, d2, c3.trans d3⟩

theorem getRO_ok {n : Nat} {b : Bank} (hb : Ok b) (hn : n < b.length) :
    ∃ l b', getRO (n + 1) b = some (l, b') ∧ IP.roPartitions (n + 1) = some l ∧ Ok b' ∧ Le b b' ∧
      ∃ L, b'[n]? = some L ∧ L.ro = l := by
  have hL : b[n]? = some b[n] := List.getElem?_eq_getElem hn
  obtain ⟨out, hperm, hro, _⟩ := roOrder_spec (IP.partitions (n + 1))
  rw [getRO, Nat.add_sub_cancel, hL]
  simp only [Option.bind_eq_bind, Option.bind_some]
  by_cases h : (b[n]).ro.length = 0
  · have h0 := List.length_eq_zero_iff.1 h
    rw [if_pos h]
    obtain ⟨b1, a1, a2, a3, _⟩ := getPartitions_ok n b hb hn
    rw [a1, Option.bind_some]
    have hro' : IP.roPartitions (n + 1) = some _ := hro
    unfold IP.roOrder at hro
    cases hs : IP.roOuter (IP.roOk (IP.partitions (n + 1))) (IP.partitions (n + 1)).length (List.range (IP.partitions (n + 1)).length)
        ⟨List.replicate (IP.partitions (n + 1)).length false, []⟩ with
    | none => rw [hs] at hro; simp at hro
    | some s =>
      rw [hs] at hro
      obtain ⟨b2, c1, c2, c3⟩ := roOuter_ok (fun p hp => (mem_partitions (n + 1) (by omega) p).1 hp) _ _ s (by simp) b1 a2 (by rw [a3.len]; exact hn) hs
      simp only at hro ⊢
      rw [c1, Option.bind_some]
      simp only
      rw [hro, Option.bind_some]
      have hx := a3.trans c3
      have hr := hx.ro n
      rw [hL] at hr
      obtain ⟨L2, hL2, hr2⟩ := Option.map_eq_some_iff.1 hr
      simp only at hr2
      rw [hL2, Option.bind_some, hr2, h0, List.nil_append]
      have hle : LevLe L2 { L2 with ro := out.filterMap (fun i => (IP.partitions (n + 1))[i]?) } :=
        ⟨Or.inr rfl, Or.inl (by rw [hr2, h0]), fun id o ho => ⟨o, ho, ObjLe.refl o⟩⟩
      exact ⟨_, _, rfl, hro', c2.set hL2 hle (by have := c2.parts _ _ hL2; exact this) (Or.inr hro')
        (fun id o ho => c2.objs n id o (by unfold obj; rw [hL2, Option.bind_some]; exact ho)) (by have := c2.nodup _ _ hL2; exact this),
        hx.le.trans (le_set hL2 hle), _, set_self hL2, rfl⟩
  · rw [if_neg h]
    exact ⟨_, b, rfl, (hb.ro _ _ hL).resolve_left fun h0 => h (by rw [h0]; rfl), hb, Le.refl b, _, hL, rfl⟩

/-! ## Tableaux -/

theorem tabLoop_ok {n : Nat} {lam : List Nat} (rec : Nat → Bank → Option (List Tab × Bank))
    (hrec : ∀ id b mu, Ok b → lamAt b n id = some mu → ∃ ts b', rec id b = some (ts, b') ∧ Tab.makeTableaux (n + 1) mu = some ts ∧ Ok b' ∧ Ext n b b')
    (ids : List Nat) (ps : List (List Nat)) (b : Bank) (hb : Ok b) (h : ids.map (lamAt b n) = ps.map some) (ts : List Tab)
    (hts : Tab.tableauxLoop (Tab.makeTableaux (n + 1)) lam (n + 2) ps = some ts) :
    ∃ b', tabLoop rec (n + 2) lam ids b = some (ts, b') ∧ Ok b' ∧ Ext n b b' := by
  induction ids generalizing ps b ts with
  | nil =>
    obtain rfl : ps = [] := by cases ps with | nil => rfl | cons _ _ => simp at h
    rw [Tab.tableauxLoop, Option.some.injEq] at hts
    exact ⟨b, by rw [tabLoop, hts], hb, Ext.refl n b⟩
  | cons id ids ih =>
    cases ps with
    | nil => simp at h
    | cons mu ps =>
      rw [List.map_cons, List.map_cons, List.cons.injEq] at h
      obtain ⟨h1, h2⟩ := h
      rw [Tab.tableauxLoop] at hts
      obtain ⟨o, ho, e⟩ := Option.map_eq_some_iff.1 (show (obj b n id).map (·.lambda) = some mu from h1)
      cases hi : Tab.newRow mu lam with
      | none => rw [hi] at hts; simp at hts
      | some i =>
        obtain ⟨t1, b1, a1, a2, a3, a4⟩ := hrec id b mu hb h1
        rw [hi, a2] at hts
        cases hr : Tab.tableauxLoop (Tab.makeTableaux (n + 1)) lam (n + 2) ps with
        | none => rw [hr] at hts; simp at hts
        | some t2 =>
          rw [hr] at hts
          simp only [Option.some.injEq] at hts
          obtain ⟨b2, c1, c2, c3⟩ := ih ps b1 a3 (a4.le.map_lamAt h2) t2 hr
          refine ⟨b2, ?_, c2, a4.trans c3⟩
          rw [tabLoop]
          simp only [Option.bind_eq_bind, Nat.add_sub_cancel]
          rw [ho, Option.bind_some, e, hi, Option.bind_some, a1, Option.bind_some]
          simp only
          rw [c1, Option.bind_some, hts]

theorem getTabs_ok (n : Nat) : ∀ (id : Nat) (b : Bank) (lam : List Nat), Ok b → lamAt b n id = some lam →
    ∃ ts b', getTabs (n + 1) id b = some (ts, b') ∧ Tab.makeTableaux (n + 1) lam = some ts ∧ Ok b' ∧ Ext n b b' ∧
      ∃ o, obj b' n id = some o ∧ o.lambda = lam ∧ o.tableaux = ts := by
  induction n with
  | zero =>
    intro id b lam hb hl
    obtain ⟨o, ho, e⟩ := Option.map_eq_some_iff.1 (show (obj b 0 id).map (·.lambda) = some lam from hl)
    have hok := hb.objs _ _ _ ho
    have hp := e ▸ hok.part
    rw [getTabs, ho]
    simp only [Option.bind_eq_bind, Option.bind_some]
    by_cases h : o.tableaux.length = 0
    · have h0 := List.length_eq_zero_iff.1 h
      obtain ⟨L, hL, hoL⟩ := Option.bind_eq_some_iff.1 (show (b[0]?).bind (fun L => L.ip[id]?) = some o from ho)
      rw [if_pos h]
      simp only [Nat.zero_add, if_true, Option.bind_some, hL, hoL, h0, List.nil_append]
      have hid : id < L.ip.length := (List.getElem?_eq_some_iff.1 hoL).1
      have hmk : Tab.makeTableaux 1 lam = some [Tab.ident 1] := rfl
      have hle : LevLe L { L with ip := L.ip.set id { o with tableaux := [Tab.ident 1] } } := by
        refine ⟨Or.inr rfl, Or.inr rfl, fun id' o' ho' => ?_⟩
        by_cases ei : id' = id
        · subst ei
          obtain rfl := Option.some.inj (hoL.symm.trans ho')
          exact ⟨_, List.getElem?_set_self hid, rfl, rfl, Or.inl h0⟩
        · exact ⟨o', by simp only; rw [List.getElem?_set_ne (Ne.symm ei)]; exact ho', ObjLe.refl o'⟩
      have hobj : obj (b.set 0 { L with ip := L.ip.set id { o with tableaux := [Tab.ident 1] } }) 0 id = some { o with tableaux := [Tab.ident 1] } := by
        unfold obj
        rw [set_self hL, Option.bind_some]
        simp only
        rw [List.getElem?_set_self hid]
      refine ⟨_, _, rfl, hmk, hb.set hL hle (by have := hb.parts _ _ hL; exact this) (by have := hb.ro _ _ hL; exact this) (fun id' o' ho' => ?_) ?_, ext_set hL hle rfl, _, hobj, e, rfl⟩
      · by_cases ei : id' = id
        · subst ei
          simp only at ho'
          rw [List.getElem?_set_self hid, Option.some.injEq] at ho'
          subst ho'
          refine ⟨hok.part, hok.par, Or.inr ?_⟩
          simp only
          rw [e]
          unfold tableaux
          rw [getn_eq, hp.sum]
          exact hmk
        · simp only at ho'
          rw [List.getElem?_set_ne (Ne.symm ei)] at ho'
          exact hb.objs 0 id' o' (by unfold obj; rw [hL, Option.bind_some]; exact ho')
      · have : ((L.ip.set id { o with tableaux := [Tab.ident 1] }).map (·.lambda)) = L.ip.map (·.lambda) := by
          rw [List.map_set]
          simp only
          apply List.ext_getElem?
          intro k
          by_cases ek : k = id
          · subst ek
            rw [List.getElem?_set_self (by simpa using hid), List.getElem?_map, hoL]; rfl
          · rw [List.getElem?_set_ne (Ne.symm ek)]
        rw [this]
        exact hb.nodup _ _ hL
    · rw [if_neg h]
      have ht := hok.tab.resolve_left fun h0 => h (by rw [h0]; rfl)
      rw [e] at ht
      unfold tableaux at ht
      rw [getn_eq, hp.sum] at ht
      exact ⟨_, b, rfl, ht, hb, Ext.refl 0 b, o, ho, e, rfl⟩
  | succ n ih =>
    intro id b lam hb hl
    obtain ⟨o, ho, e⟩ := Option.map_eq_some_iff.1 (show (obj b (n + 1) id).map (·.lambda) = some lam from hl)
    have hok := hb.objs _ _ _ ho
    have hp := e ▸ hok.part
    rw [getTabs, ho]
    simp only [Option.bind_eq_bind, Option.bind_some]
    by_cases h : o.tableaux.length = 0
    · have h0 := List.length_eq_zero_iff.1 h
      obtain ⟨L, hL, hoL⟩ := Option.bind_eq_some_iff.1 (show (b[n + 1]?).bind (fun L => L.ip[id]?) = some o from ho)
      have hmk := makeTableaux_eq (by omega) hp
      obtain ⟨ps, g1, g2⟩ := hok.par
      have hts := hmk
      rw [Tab.makeTableaux, ← e, g1] at hts
      simp only at hts
      obtain ⟨b1, a1, a2, a3⟩ := tabLoop_ok (getTabs (n + 1)) (fun id b mu hb hl => by
        obtain ⟨ts, b', x1, x2, x3, x4, _⟩ := ih id b mu hb hl
        exact ⟨ts, b', x1, x2, x3, x4⟩) o.parents ps b hb g2 _ hts
      rw [if_pos h]
      have hL1 : b1[n + 1]? = some L := by rw [a3.above _ (by omega), hL]
      have a1' : tabLoop (getTabs (n + 1)) (n + 1 + 1) o.lambda o.parents b = _ := a1
      simp only [show ¬ (n + 1 + 1 = 1) by omega, if_false, a1', Option.bind_some, hL1, hoL, h0, List.nil_append]
      generalize hT : (words (n + 1 + 1) o.lambda).map toTab = T at *
      have hid : id < L.ip.length := (List.getElem?_eq_some_iff.1 hoL).1
      have hle : LevLe L { L with ip := L.ip.set id { o with tableaux := T } } := by
        refine ⟨Or.inr rfl, Or.inr rfl, fun id' o' ho' => ?_⟩
        by_cases ei : id' = id
        · subst ei
          obtain rfl := Option.some.inj (hoL.symm.trans ho')
          exact ⟨_, List.getElem?_set_self hid, rfl, rfl, Or.inl h0⟩
        · exact ⟨o', by simp only; rw [List.getElem?_set_ne (Ne.symm ei)]; exact ho', ObjLe.refl o'⟩
      have hobj : obj (b1.set (n + 1) { L with ip := L.ip.set id { o with tableaux := T } }) (n + 1) id = some { o with tableaux := T } := by
        unfold obj
        rw [set_self hL1, Option.bind_some]
        simp only
        rw [List.getElem?_set_self hid]
      refine ⟨_, _, rfl, by rw [hmk, ← e, hT], a2.set hL1 hle (by have := a2.parts _ _ hL1; exact this) (by have := a2.ro _ _ hL1; exact this) (fun id' o' ho' => ?_) ?_, (a3.mono (Nat.le_succ n)).trans (ext_set hL1 hle rfl), _, hobj, e, rfl⟩
      · by_cases ei : id' = id
        · subst ei
          simp only at ho'
          rw [List.getElem?_set_self hid, Option.some.injEq] at ho'
          subst ho'
          refine ⟨hok.part, (hok.mono a3.le).par, Or.inr ?_⟩
          simp only
          unfold tableaux
          rw [getn_eq, hok.part.sum, e, hmk, ← e, hT]
        · simp only at ho'
          rw [List.getElem?_set_ne (Ne.symm ei)] at ho'
          exact a2.objs (n + 1) id' o' (by unfold obj; rw [hL1, Option.bind_some]; exact ho')
      · have : ((L.ip.set id { o with tableaux := T }).map (·.lambda)) = L.ip.map (·.lambda) := by
          rw [List.map_set]
          simp only
          apply List.ext_getElem?
          intro k
          by_cases ek : k = id
          · subst ek
            rw [List.getElem?_set_self (by simpa using hid), List.getElem?_map, hoL]; rfl
          · rw [List.getElem?_set_ne (Ne.symm ek)]
        rw [this]
        exact a2.nodup _ _ hL1
    · rw [if_neg h]
      have ht := hok.tab.resolve_left fun h0 => h (by rw [h0]; rfl)
      rw [e] at ht
      unfold tableaux at ht
      rw [getn_eq, hp.sum] at ht
      exact ⟨_, b, rfl, ht, hb, Ext.refl _ b, o, ho, e, rfl⟩

/-! ## Queries and histories -/

theorem Ok.nil : Ok [] := ⟨by simp, by simp, by simp [obj], by simp⟩

theorem level_ok {n : Nat} {b : Bank} (hb : Ok b) : ∃ b', level (n + 1) b = some b' ∧ Ok b' ∧ Le b b' ∧ n < b'.length := by
  rw [level, if_neg (by omega)]
  by_cases h : n + 1 ≤ b.length
  · rw [if_pos h]
    exact ⟨b, rfl, hb, Le.refl b, by omega⟩
  · rw [if_neg h]
    have hle : Le b (b ++ List.replicate (n + 1 - b.length) ({} : Level)) := fun m L hL =>
      ⟨L, by rw [List.getElem?_append_left (List.getElem?_eq_some_iff.1 hL).1, hL], LevLe.refl L⟩
    have key : ∀ (m : Nat) (L : Level), (b ++ List.replicate (n + 1 - b.length) ({} : Level))[m]? = some L → b[m]? = some L ∨ L = ({} : Level) := by
      intro m L hL
      by_cases hm : m < b.length
      · rw [List.getElem?_append_left hm] at hL; exact Or.inl hL
      · rw [List.getElem?_append_right (by omega), List.getElem?_replicate] at hL
        split_ifs at hL
        right; exact (Option.some.inj hL).symm
    refine ⟨_, rfl, ⟨fun m L hL => ?_, fun m L hL => ?_, fun m id o ho => ?_, fun m L hL => ?_⟩, hle, by simp; omega⟩
    · rcases key m L hL with h | rfl
      · exact hb.parts m L h
      · exact Or.inl rfl
    · rcases key m L hL with h | rfl
      · exact hb.ro m L h
      · exact Or.inl rfl
    · obtain ⟨M, hM, ho'⟩ := Option.bind_eq_some_iff.1 (show ((b ++ List.replicate (n + 1 - b.length) ({} : Level))[m]?).bind (fun L => L.ip[id]?) = some o from ho)
      rcases key m M hM with h | rfl
      · exact (hb.objs m id o (by unfold obj; rw [h, Option.bind_some, ho'])).mono hle
      · simp at ho'
    · rcases key m L hL with h | rfl
      · exact hb.nodup m L h
      · simp

theorem find_ip {b : Bank} (hb : Ok b) {n id : Nat} {L : Level} {o : PObj} (hL : b[n]? = some L) (ho : obj b n id = some o)
    {l : List Nat} (hl : IsPartition (n + 1) l) (e : o.lambda = l) : L.ip.find? (fun o => IP.eqb o.lambda l) = some o := by
  unfold obj at ho
  rw [hL, Option.bind_some] at ho
  cases hf : L.ip.find? (fun o => IP.eqb o.lambda l) with
  | none =>
    rw [List.find?_eq_none] at hf
    have := hf o (List.mem_of_getElem? ho)
    rw [e] at this
    exact absurd ((eqb_part hl hl).2 rfl) (by simpa using this)
  | some o' =>
    have h1 := List.find?_some hf
    obtain ⟨id', h2⟩ := List.getElem?_of_mem (List.mem_of_find?_eq_some hf)
    have hp := (hb.objs n id' o' (by unfold obj; rw [hL, Option.bind_some]; exact h2)).part
    have e' := (eqb_part hp hl).1 h1
    have hlt := (List.getElem?_eq_some_iff.1 ho).1
    have : id = id' := (List.getElem?_inj (l := L.ip.map (·.lambda)) (by simpa using hlt) (hb.nodup n L hL)).1
      (by rw [List.getElem?_map, List.getElem?_map, ho, h2]; simp [e, e'])
    subst this
    rw [← ho, h2]

theorem mapM_some {α β : Type} (f : α → Option β) (l : List α) (m : List β) (h : l.map f = m.map some) : l.mapM f = some m := by
  induction l generalizing m with
  | nil => cases m with | nil => rfl | cons _ _ => simp at h
  | cons x l ih =>
    cases m with
    | nil => simp at h
    | cons y m =>
      rw [List.map_cons, List.map_cons, List.cons.injEq] at h
      simp [List.mapM_cons, h.1, ih m h.2]

theorem view_ok {b : Bank} {n : Nat} {o : PObj} (h : ObjOk b n o) : view b (n + 1) o = (IP.bankParents o.lambda).map (.object o.lambda) := by
  obtain ⟨ps, h1, h2⟩ := h.par
  unfold view
  have : o.parents.mapM (fun id => (obj b (n + 1 - 2) id).map (·.lambda)) = some ps := mapM_some _ _ _ h2
  rw [this, h1]
  rfl

/-- the vector a query returns a reference to is there and filled -/
def Filled (b : Bank) : Query → Prop
  | .partitions n => ∃ L, b[n - 1]? = some L ∧ L.partitions ≠ []
  | .ro n => ∃ L, b[n - 1]? = some L ∧ L.ro ≠ []
  | .tableaux l => ∃ id o, obj b (IP.getn l - 1) id = some o ∧ o.lambda = l ∧ o.tableaux ≠ []
  | .object l => ∃ id o, obj b (IP.getn l - 1) id = some o ∧ o.lambda = l

theorem Filled.mono {b b' : Bank} (h : Le b b') {q : Query} (hq : Filled b q) : Filled b' q := by
  cases q with
  | partitions n =>
    obtain ⟨L, h1, h2⟩ := hq
    obtain ⟨L', h3, h4⟩ := h _ L h1
    exact ⟨L', h3, by rw [h4.parts.resolve_left h2]; exact h2⟩
  | ro n =>
    obtain ⟨L, h1, h2⟩ := hq
    obtain ⟨L', h3, h4⟩ := h _ L h1
    exact ⟨L', h3, by rw [h4.ro.resolve_left h2]; exact h2⟩
  | tableaux l =>
    obtain ⟨id, o, h1, h2, h3⟩ := hq
    obtain ⟨o', h4, h5⟩ := h.obj h1
    exact ⟨id, o', h4, h5.1.trans h2, by rw [h5.2.2.resolve_left h3]; exact h3⟩
  | object l =>
    obtain ⟨id, o, h1, h2⟩ := hq
    obtain ⟨o', h4, h5⟩ := h.obj h1
    exact ⟨id, o', h4, h5.1.trans h2⟩

theorem look_ok {b : Bank} (hb : Ok b) {q : Query} (hv : q.Valid) (hq : Filled b q) : look q b = answer q := by
  cases q with
  | partitions n =>
    obtain ⟨L, h1, h2⟩ := hq
    have h3 := (hb.parts _ L h1).resolve_left h2
    change 1 ≤ n at hv
    rw [Nat.sub_add_cancel hv] at h3
    simp only [look, answer, h1, h3, Option.map_some]
  | ro n =>
    obtain ⟨L, h1, h2⟩ := hq
    have h3 := (hb.ro _ L h1).resolve_left h2
    change 1 ≤ n at hv
    rw [Nat.sub_add_cancel hv] at h3
    simp only [look, answer, h1, h3, Option.map_some]
  | tableaux l =>
    obtain ⟨id, o, h1, h2, h3⟩ := hq
    obtain ⟨n, hn, hl⟩ := hv
    obtain ⟨n, rfl⟩ : ∃ m, n = m + 1 := ⟨n - 1, by omega⟩
    have e : IP.getn l = n + 1 := by rw [getn_eq, hl.sum]
    rw [e, Nat.add_sub_cancel] at h1
    obtain ⟨L, hL, _⟩ := Option.bind_eq_some_iff.1 (show (b[n]?).bind (fun L => L.ip[id]?) = some o from h1)
    have h4 := (hb.objs _ _ _ h1).tab.resolve_left h3
    rw [h2] at h4
    simp only [look, answer, e, Nat.add_sub_cancel, hL, Option.bind_eq_bind, Option.bind_some, find_ip hb hL h1 hl h2, h4, Option.map_some]
  | object l =>
    obtain ⟨id, o, h1, h2⟩ := hq
    obtain ⟨n, hn, hl⟩ := hv
    obtain ⟨n, rfl⟩ : ∃ m, n = m + 1 := ⟨n - 1, by omega⟩
    have e : IP.getn l = n + 1 := by rw [getn_eq, hl.sum]
    rw [e, Nat.add_sub_cancel] at h1
    obtain ⟨L, hL, _⟩ := Option.bind_eq_some_iff.1 (show (b[n]?).bind (fun L => L.ip[id]?) = some o from h1)
    simp only [look, answer, e, Nat.add_sub_cancel, hL, Option.bind_eq_bind, Option.bind_some, find_ip hb hL h1 hl h2, view_ok (hb.objs _ _ _ h1), h2]

theorem partitions_ne_nil (n : Nat) (hn : 1 ≤ n) : IP.partitions n ≠ [] := by
  intro h
  have : [n] ∈ IP.partitions n := (mem_partitions n hn [n]).2 ⟨by simp, by simpa using (show 0 < n from hn), by simp⟩
  rw [h] at this
  simp at this

theorem exec_ok {b : Bank} (hb : Ok b) {q : Query} (hv : q.Valid) :
    ∃ a b', exec q b = some (a, b') ∧ answer q = some a ∧ Ok b' ∧ Le b b' ∧ Filled b' q := by
  cases q with
  | partitions n =>
    change 1 ≤ n at hv
    obtain ⟨n, rfl⟩ : ∃ m, n = m + 1 := ⟨n - 1, by omega⟩
    obtain ⟨b1, a1, a2, a3, a4⟩ := level_ok (n := n) hb
    obtain ⟨b2, c1, c2, c3, L, c4, c5⟩ := getPartitions_ok n b1 a2 a4
    refine ⟨_, b2, by simp only [exec, a1, c1, Option.bind_eq_bind, Option.bind_some], rfl, c2, a3.trans c3.le, L, c4, ?_⟩
    rw [c5]
    exact partitions_ne_nil _ hv
  | ro n =>
    change 1 ≤ n at hv
    obtain ⟨n, rfl⟩ : ∃ m, n = m + 1 := ⟨n - 1, by omega⟩
    obtain ⟨b1, a1, a2, a3, a4⟩ := level_ok (n := n) hb
    obtain ⟨l, b2, c1, c0, c2, c3, L, c4, c5⟩ := getRO_ok a2 a4
    refine ⟨.parts l, b2, by simp only [exec, a1, c1, Option.bind_eq_bind, Option.bind_some], by simp only [answer, c0, Option.map_some], c2, a3.trans c3, L, c4, ?_⟩
    rw [c5]
    obtain ⟨out, hperm, hro, _⟩ := roOrder_spec (IP.partitions (n + 1))
    have hr : IP.roPartitions (n + 1) = some _ := hro
    rw [c0, Option.some.injEq] at hr
    intro h0
    rw [hr] at h0
    have h1 : (0 : Nat) ∈ out := hperm.mem_iff.2 (List.mem_range.2 (List.length_pos_of_ne_nil (partitions_ne_nil _ hv)))
    have h2 := List.filterMap_eq_nil_iff.1 h0 0 h1
    rw [List.getElem?_eq_none_iff] at h2
    exact partitions_ne_nil _ hv (List.length_eq_zero_iff.1 (by omega))
  | tableaux l =>
    obtain ⟨n, hn, hl⟩ := hv
    obtain ⟨n, rfl⟩ : ∃ m, n = m + 1 := ⟨n - 1, by omega⟩
    have e : IP.getn l = n + 1 := by rw [getn_eq, hl.sum]
    obtain ⟨b1, a1, a2, a3, a4⟩ := level_ok (n := n) hb
    obtain ⟨id, b2, c1, c2, c3, c4⟩ := getObj_ok n l b1 a2 a4 hl
    obtain ⟨ts, b3, d1, d2, d3, d4, o, d5, d6, d7⟩ := getTabs_ok n id b2 l c2 c4
    refine ⟨.tabs ts, b3, by simp only [exec, e, a1, c1, d1, Option.bind_eq_bind, Option.bind_some], by simp only [answer, tableaux, e, d2, Option.map_some], d3,
      (a3.trans c3.le).trans d4.le, id, o, by rw [e]; exact d5, d6, ?_⟩
    rw [d7]
    rw [makeTableaux_eq hn hl, Option.some.injEq] at d2
    rw [← d2]
    intro h0
    exact words_ne_nil hl (List.map_eq_nil_iff.1 h0)
  | object l =>
    obtain ⟨n, hn, hl⟩ := hv
    obtain ⟨n, rfl⟩ : ∃ m, n = m + 1 := ⟨n - 1, by omega⟩
    have e : IP.getn l = n + 1 := by rw [getn_eq, hl.sum]
    obtain ⟨b1, a1, a2, a3, a4⟩ := level_ok (n := n) hb
    obtain ⟨id, b2, c1, c2, c3, c4⟩ := getObj_ok n l b1 a2 a4 hl
    obtain ⟨o, ho, e'⟩ := Option.map_eq_some_iff.1 (show (obj b2 n id).map (·.lambda) = some l from c4)
    have hok := c2.objs _ _ _ ho
    obtain ⟨ps, g1, _⟩ := hok.par
    have hv := view_ok hok
    rw [g1, Option.map_some] at hv
    refine ⟨.object o.lambda ps, b2, by simp only [exec, e, a1, c1, Nat.add_sub_cancel, ho, hv, Option.bind_eq_bind, Option.bind_some], ?_, c2, a3.trans c3.le, id, o, by rw [e]; exact ho, e'⟩
    rw [e'] at g1
    simp only [answer, g1, Option.map_some, e']

theorem run_ok (qs : List Query) (hq : ∀ q ∈ qs, q.Valid) (b : Bank) (hb : Ok b) : ∃ b', run qs b = some b' ∧ Ok b' ∧ Le b b' := by
  induction qs generalizing b with
  | nil => exact ⟨b, rfl, hb, Le.refl b⟩
  | cons q qs ih =>
    obtain ⟨a, b1, h1, _, h2, h3, _⟩ := exec_ok hb (hq q (by simp))
    obtain ⟨b2, h4, h5, h6⟩ := ih (fun q hq' => hq q (by simp [hq'])) b1 h2
    exact ⟨b2, by simp only [run, h1, Option.bind_eq_bind, Option.bind_some, h4], h5, h3.trans h6⟩

end Snob.Combi
