import Verif.Spec.SnBank
import Verif.Proofs.Character

/-! # The banks: every history of calls -/

namespace Snob

open IP

theorem keyEq_eq {n : Nat} {a b : List Nat} (ha : IsPartition n a) (hb : IsPartition n b) :
    keyEq a b = some (decide (a = b)) := by
  unfold keyEq IP.lt
  rw [if_pos (by rw [getn_eq, getn_eq, ha.sum, hb.sum]), if_pos (by rw [getn_eq, getn_eq, ha.sum, hb.sum])]
  simp only [Option.bind_eq_bind, Option.bind_some, Option.some.injEq]
  by_cases h : a = b
  · subst h
    have : ltLoop a a = false := by
      rw [← Bool.not_eq_true, ltLoop_iff rfl]; exact lexGreater_irrefl a
    simp [this]
  · have h1 := ltLoop_iff (ha.sum.trans hb.sum.symm)
    have h2 := ltLoop_iff (hb.sum.trans ha.sum.symm)
    have : LexGreater a b ∨ LexGreater b a := by
      rcases lexGreater_tri a b with h3 | h3 | h3
      · exact Or.inl h3
      · exact absurd (ha.ext hb h3) h
      · exact Or.inr h3
    simp only [h, decide_false]
    rcases this with h3 | h3
    · rw [h1.2 h3]; rfl
    · rw [h2.2 h3]; simp

theorem mapFind_eq {n : Nat} {x : List Nat} (hx : IsPartition n x) (l : List (List Nat)) (k : Nat)
    (hl : ∀ p ∈ l, IsPartition n p) :
    mapFind (l.zipIdx k) x = some (if x ∈ l then some (k + l.idxOf x) else none) := by
  induction l generalizing k with
  | nil => rfl
  | cons a l ih =>
    rw [List.zipIdx_cons, mapFind, keyEq_eq (hl a (by simp)) hx, ih (k + 1) fun p hp => hl p (by simp [hp])]
    simp only [Option.bind_eq_bind, Option.bind_some, Option.some.injEq, decide_eq_true_eq, List.mem_cons]
    by_cases h : a = x
    · subst h; simp
    · rw [if_neg h, List.idxOf_cons_ne _ h]
      by_cases h' : x ∈ l
      · rw [if_pos h', if_pos (Or.inr h')]; congr 1; omega
      · rw [if_neg h', if_neg]; rintro (e | e)
        · exact h e.symm
        · exact h' e

theorem mapSet_new {n : Nat} {x : List Nat} (hx : IsPartition n x) (l : List (List Nat)) (k v : Nat)
    (hl : ∀ p ∈ l, IsPartition n p) (hn : x ∉ l) : mapSet (l.zipIdx k) x v = some (l.zipIdx k ++ [(x, v)]) := by
  induction l generalizing k with
  | nil => rfl
  | cons a l ih =>
    rw [List.zipIdx_cons, mapSet, keyEq_eq (hl a (by simp)) hx]
    have h : a ≠ x := fun e => hn (by simp [e])
    simp only [Option.bind_eq_bind, Option.bind_some, h, decide_false, Bool.false_eq_true, if_false]
    rw [ih (k + 1) (fun p hp => hl p (by simp [hp])) fun e => hn (by simp [e])]
    rfl

theorem zipIdx_snoc (l : List (List Nat)) (x : List Nat) : (l ++ [x]).zipIdx = l.zipIdx ++ [(x, l.length)] := by
  rw [List.zipIdx_append]; simp

/-! ## One object -/

structure ObjInv (n : Nat) (o : SnObjSt) : Prop where
  pos : 1 ≤ n
  n_eq : o.n = n
  nodup : o.irreps.Nodup
  parts : ∀ p ∈ o.irreps, IsPartition n p
  imap : o.irrepMap = o.irreps.zipIdx
  classes : (o.cclasses = [] ∧ o.cclassMap = []) ∨
    (o.cclasses = partitions n ∧ o.cclassMap = (partitions n).zipIdx)

theorem objInv_new {n : Nat} (hn : 1 ≤ n) : ObjInv n (SnObjSt.new n) :=
  ⟨hn, rfl, List.nodup_nil, by simp [SnObjSt.new], rfl, Or.inl ⟨rfl, rfl⟩⟩

theorem classLoop_eq {n : Nat} (cs l : List (List Nat)) (o : SnObjSt) (hc : o.cclasses = l) (hm : o.cclassMap = l.zipIdx)
    (hp : ∀ p ∈ l ++ cs, IsPartition n p) (hn : (l ++ cs).Nodup) :
    SnObjSt.classLoop cs l.length o =
      some { o with cclasses := l ++ cs, cclassMap := (l ++ cs).zipIdx } := by
  induction cs generalizing l o with
  | nil =>
    subst hc
    rw [SnObjSt.classLoop, List.append_nil, ← hm]
  | cons c cs ih =>
    rw [SnObjSt.classLoop, hm, mapSet_new (hp c (by simp)) l 0 _ (fun p h => hp p (by simp [h]))]
    · simp only [Option.bind_eq_bind, Option.bind_some]
      have := ih (l ++ [c]) { o with cclasses := o.cclasses ++ [c], cclassMap := l.zipIdx ++ [(c, l.length)] }
        (by simp [hc]) (by rw [zipIdx_snoc]) (by simpa using hp) (by simpa using hn)
      rw [List.length_append] at this
      rw [List.append_assoc] at this
      exact this
    · intro h
      have := (List.nodup_append.1 hn).2.2 c h c (by simp)
      exact this rfl

theorem partitions_ne_nil {n : Nat} (hn : 1 ≤ n) : partitions n ≠ [] := by
  intro h
  have := (mem_partitions n hn [n]).2 (isPartition_row hn)
  rw [h] at this
  simp at this

theorem ObjInv.makeCclasses {n : Nat} {o : SnObjSt} (h : ObjInv n o) :
    ∃ o', o.makeCclasses = some o' ∧ ObjInv n o' ∧ o'.irreps = o.irreps ∧ o'.cclasses = partitions n ∧
      o'.cclassMap = (partitions n).zipIdx := by
  unfold SnObjSt.makeCclasses
  rcases h.classes with ⟨h1, h2⟩ | ⟨h1, h2⟩
  · rw [h1, if_neg (by simp), h.n_eq]
    have := classLoop_eq (n := n) (partitions n) [] o h1 h2 (fun p hp => (mem_partitions n h.pos p).1 (by simpa using hp))
      (by simpa using partitions_nodup n)
    rw [List.length_nil, List.nil_append] at this
    exact ⟨_, this, ⟨h.pos, h.n_eq, h.nodup, h.parts, h.imap, Or.inr ⟨rfl, rfl⟩⟩, rfl, rfl, rfl⟩
  · rw [h1, if_pos (List.length_pos_iff.2 (partitions_ne_nil h.pos))]
    exact ⟨o, rfl, h, rfl, h1, h2⟩

/-- A method that leaves the list of irreps as `l'` and returns `a`. -/
def MethodOk {α : Type} (n : Nat) (f : SnObjSt → Option (SnObjSt × α)) (l l' : List (List Nat)) (a : α) : Prop :=
  ∀ o, ObjInv n o → o.irreps = l → ∃ o', f o = some (o', a) ∧ ObjInv n o' ∧ o'.irreps = l'

theorem ncclasses_ok (n : Nat) (l : List (List Nat)) : MethodOk n SnObjSt.ncclasses l l (partitions n).length := by
  intro o h hl
  obtain ⟨o', e, h', hi, hc, _⟩ := h.makeCclasses
  refine ⟨o', ?_, h', hi.trans hl⟩
  unfold SnObjSt.ncclasses
  rw [e]; simp [hc]

theorem cclass_ok (n : Nat) (l : List (List Nat)) {i : Nat} {c : List Nat} (hi : (partitions n)[i]? = some c) :
    MethodOk n (·.cclass i) l l c := by
  intro o h hl
  obtain ⟨o', e, h', hi', hc, _⟩ := h.makeCclasses
  refine ⟨o', ?_, h', hi'.trans hl⟩
  simp only [SnObjSt.cclass, e, Option.bind_eq_bind, Option.bind_some, hc, hi]

theorem index_ok {n : Nat} (l : List (List Nat)) {p : List Nat} (hp : IsPartition n p) :
    MethodOk n (·.index p) l l ((partitions n).idxOf p) := by
  intro o h hl
  obtain ⟨o', e, h', hi', _, hm⟩ := h.makeCclasses
  refine ⟨o', ?_, h', hi'.trans hl⟩
  have := mapFind_eq hp (partitions n) 0 fun q hq => (mem_partitions n h.pos q).1 hq
  rw [if_pos ((mem_partitions n h.pos p).2 hp), Nat.zero_add] at this
  simp only [SnObjSt.index, e, Option.bind_eq_bind, Option.bind_some, hm, this]

theorem ObjInv.getIrrep {n : Nat} {o : SnObjSt} (h : ObjInv n o) {p : List Nat} (hp : IsPartition n p) :
    ∃ o' i, o.getIrrep p = some (o', i) ∧ ObjInv n o' ∧ o'.irreps = addNew o.irreps p ∧ o'.irreps[i]? = some p := by
  unfold SnObjSt.getIrrep
  rw [h.imap, mapFind_eq hp _ _ h.parts]
  by_cases hm : p ∈ o.irreps
  · refine ⟨o, 0 + o.irreps.idxOf p, ?_, h, by rw [addNew, if_pos hm], ?_⟩
    · rw [if_pos hm]; rfl
    · rw [Nat.zero_add, List.getElem?_eq_getElem (List.idxOf_lt_length_of_mem hm), List.getElem_idxOf]
  · rw [if_neg hm]
    refine ⟨{ o with irreps := o.irreps ++ [p], irrepMap := o.irreps.zipIdx ++ [(p, o.irreps.length)] }, o.irreps.length,
      ?_, ⟨h.pos, h.n_eq, ?_, ?_, ?_, h.classes⟩, ?_, ?_⟩
    · simp only [Option.bind_eq_bind, Option.bind_some, mapSet_new hp _ _ _ h.parts hm]
    · exact List.nodup_append.2 ⟨h.nodup, by simp, fun a ha b hb => by
        rw [List.mem_singleton] at hb; rintro rfl; exact hm (hb ▸ ha)⟩
    · intro q hq
      rcases List.mem_append.1 hq with hq | hq
      · exact h.parts q hq
      · rw [List.mem_singleton] at hq; exact hq ▸ hp
    · exact (zipIdx_snoc _ _).symm
    · rw [addNew, if_neg hm]
    · simp

theorem irrep_ok {n : Nat} (l : List (List Nat)) {p : List Nat} (hp : IsPartition n p) :
    MethodOk n (·.irrep p) l (addNew l p) p := by
  intro o h hl
  obtain ⟨o', i, e, h', hi, hg⟩ := h.getIrrep hp
  refine ⟨o', ?_, h', hl ▸ hi⟩
  simp only [SnObjSt.irrep, e, Option.bind_eq_bind, Option.bind_some, hg]

theorem irrepLoop_eq {n : Nat} (cs : List (List Nat)) {o : SnObjSt} (h : ObjInv n o) (hc : ∀ p ∈ cs, IsPartition n p) :
    ∃ o', SnObjSt.irrepLoop cs o = some o' ∧ ObjInv n o' ∧ o'.irreps = addAll o.irreps cs := by
  induction cs generalizing o with
  | nil => exact ⟨o, rfl, h, rfl⟩
  | cons c cs ih =>
    obtain ⟨o', i, e, h', hi, _⟩ := h.getIrrep (hc c (by simp))
    obtain ⟨o'', e', h'', hi'⟩ := ih h' fun p hp => hc p (by simp [hp])
    refine ⟨o'', ?_, h'', ?_⟩
    · rw [SnObjSt.irrepLoop, e]; exact e'
    · rw [hi', hi]; rfl

theorem ObjInv.makeAllIrreps {n : Nat} {o : SnObjSt} (h : ObjInv n o) :
    ∃ o', o.makeAllIrreps = some o' ∧ ObjInv n o' ∧ o'.irreps = addAll o.irreps (partitions n) := by
  unfold SnObjSt.makeAllIrreps
  rw [h.n_eq]
  exact irrepLoop_eq _ h fun p hp => (mem_partitions n h.pos p).1 hp

theorem allIrreps_ok (n : Nat) (l : List (List Nat)) :
    MethodOk n SnObjSt.allIrreps l (addAll l (partitions n)) (addAll l (partitions n)) := by
  intro o h hl
  obtain ⟨o', e, h', hi⟩ := h.makeAllIrreps
  refine ⟨o', ?_, h', hl ▸ hi⟩
  simp only [SnObjSt.allIrreps, e, Option.bind_eq_bind, Option.bind_some, hi, hl]

theorem irrepAt_ok (n : Nat) (l : List (List Nat)) {i : Nat} {c : List Nat} (hi : (addAll l (partitions n))[i]? = some c) :
    MethodOk n (·.irrepAt i) l (addAll l (partitions n)) c := by
  intro o h hl
  obtain ⟨o', e, h', hi'⟩ := h.makeAllIrreps
  refine ⟨o', ?_, h', hl ▸ hi'⟩
  simp only [SnObjSt.irrepAt, e, Option.bind_eq_bind, Option.bind_some, hi', hl, hi]

theorem mem_addNew {l : List (List Nat)} {x y : List Nat} : y ∈ addNew l x ↔ y ∈ l ∨ y = x := by
  unfold addNew
  split_ifs with h
  · exact ⟨Or.inl, fun h' => h'.elim id fun e => e ▸ h⟩
  · simp

theorem mem_addAll {l xs : List (List Nat)} {y : List Nat} : y ∈ addAll l xs ↔ y ∈ l ∨ y ∈ xs := by
  induction xs generalizing l with
  | nil => simp [addAll]
  | cons x xs ih =>
    show y ∈ addAll (addNew l x) xs ↔ _
    rw [ih, mem_addNew, List.mem_cons]; tauto

theorem addNew_nodup {l : List (List Nat)} {x : List Nat} (h : l.Nodup) : (addNew l x).Nodup := by
  unfold addNew
  split_ifs with hx
  · exact h
  · exact List.nodup_append.2 ⟨h, by simp, fun a ha b hb => by
        rw [List.mem_singleton] at hb; rintro rfl; exact hx (hb ▸ ha)⟩

theorem addAll_nodup {l xs : List (List Nat)} (h : l.Nodup) : (addAll l xs).Nodup := by
  induction xs generalizing l with
  | nil => exact h
  | cons x xs ih => exact ih (addNew_nodup h)

theorem addNew_of_mem {l : List (List Nat)} {x : List Nat} (h : x ∈ l) : addNew l x = l := if_pos h

theorem irrepBy_ok {n : Nat} (hn : 1 ≤ n) (l : List (List Nat)) {p : List Nat} (hp : IsPartition n p) :
    MethodOk n (·.irrepBy p) l (addAll l (partitions n)) p := by
  intro o h hl
  obtain ⟨o', e, h', hi'⟩ := h.makeAllIrreps
  obtain ⟨o'', e', h'', hi''⟩ := irrep_ok (addAll l (partitions n)) hp o' h' (hl ▸ hi')
  refine ⟨o'', ?_, h'', ?_⟩
  · simp only [SnObjSt.irrepBy, e, Option.bind_eq_bind, Option.bind_some]; exact e'
  · rw [hi'', addNew_of_mem (mem_addAll.2 (Or.inr ((mem_partitions n hn p).2 hp)))]

/-! ## The world -/

/-- the value of a character at a class -/
noncomputable def chiVal (n : Nat) (p mu : List Nat) : ℝ := open Classical in
  if hp : IsPartition n p then chiAt hp mu else 0

/-- the values of a character -/
noncomputable def chiList (n : Nat) (p : List Nat) : List ℝ := (partitions n).map (chiVal n p)

structure LevelInv (n : Nat) (L : CharLevel) : Prop where
  n_eq : L.n = n
  values : ∀ e ∈ L.chars, IsPartition n e.1 ∧ e.2 = chiList n e.1

structure Rel (w : World) (ir ch : Nat → List (List Nat)) : Prop where
  obj : ∀ i o, w.sn[i]? = some o → ObjInv (i + 1) o ∧ o.irreps = ir (i + 1)
  objNil : ∀ n, w.sn.length < n → ir n = []
  lev : ∀ i L, w.levels[i]? = some L → LevelInv (i + 1) L ∧ L.chars.map Prod.fst = ch (i + 1)
  levNil : ∀ n, w.levels.length < n → ch n = []
  sub : ∀ n p, p ∈ ch n → p ∈ ir n

theorem rel_empty : Rel World.empty (fun _ => []) (fun _ => []) :=
  ⟨by simp [World.empty], fun _ _ => rfl, by simp [World.empty], fun _ _ => rfl, by simp⟩

variable {w : World} {ir ch : Nat → List (List Nat)}

theorem Rel.getSn (h : Rel w ir ch) {n : Nat} (hn : 1 ≤ n) :
    ∃ w', w.getSn n = some w' ∧ Rel w' ir ch ∧ n ≤ w'.sn.length ∧ w'.levels = w.levels := by
  unfold World.getSn
  rw [if_neg (by omega)]
  by_cases hl : n ≤ w.sn.length
  · rw [if_pos hl]; exact ⟨w, rfl, h, hl, rfl⟩
  · rw [if_neg hl]
    refine ⟨_, rfl, ⟨fun i o ho => ?_, fun m hm => h.objNil m ?_, h.lev, h.levNil, h.sub⟩, ?_, rfl⟩
    · by_cases hi : i < w.sn.length
      · rw [List.getElem?_append_left hi] at ho; exact h.obj i o ho
      · rw [List.getElem?_append_right (by omega), List.getElem?_map] at ho
        by_cases hlt : i - w.sn.length < n - w.sn.length
        · rw [List.getElem?_range' hlt] at ho
          simp only [Option.map_some, Option.some.injEq] at ho
          have e : w.sn.length + 1 + 1 * (i - w.sn.length) = i + 1 := by omega
          rw [e] at ho
          subst ho
          exact ⟨objInv_new (by omega), (h.objNil _ (by omega)).symm⟩
        · rw [List.getElem?_eq_none (by simp; omega)] at ho; simp at ho
    · simp at hm; omega
    · simp; omega

theorem Rel.getLevel (h : Rel w ir ch) {n : Nat} (hn : 1 ≤ n) :
    ∃ w', w.getLevel n = some w' ∧ Rel w' ir ch ∧ n ≤ w'.levels.length ∧ w'.sn = w.sn := by
  unfold World.getLevel
  rw [if_neg (by omega)]
  by_cases hl : n ≤ w.levels.length
  · rw [if_pos hl]; exact ⟨w, rfl, h, hl, rfl⟩
  · rw [if_neg hl]
    refine ⟨_, rfl, ⟨h.obj, h.objNil, fun i L hL => ?_, fun m hm => h.levNil m ?_, h.sub⟩, ?_, rfl⟩
    · by_cases hi : i < w.levels.length
      · rw [List.getElem?_append_left hi] at hL; exact h.lev i L hL
      · rw [List.getElem?_append_right (by omega), List.getElem?_map] at hL
        by_cases hlt : i - w.levels.length < n - w.levels.length
        · rw [List.getElem?_range' hlt] at hL
          simp only [Option.map_some, Option.some.injEq] at hL
          have e : w.levels.length + 1 + 1 * (i - w.levels.length) = i + 1 := by omega
          rw [e] at hL
          subst hL
          exact ⟨⟨rfl, by simp⟩, (h.levNil _ (by omega)).symm⟩
        · rw [List.getElem?_eq_none (by simp; omega)] at hL; simp at hL
    · simp at hm; omega
    · simp; omega

theorem Rel.mkSn (h : Rel w ir ch) {n : Nat} (hn : 1 ≤ n) :
    ∃ w', w.mkSn n = some w' ∧ Rel w' ir ch ∧ n ≤ w'.sn.length ∧ n ≤ w'.levels.length := by
  obtain ⟨w1, e1, h1, l1, _⟩ := h.getSn hn
  obtain ⟨w2, e2, h2, l2, s2⟩ := h1.getLevel hn
  refine ⟨w2, ?_, h2, s2 ▸ l1, l2⟩
  simp only [World.mkSn, e1, Option.bind_eq_bind, Option.bind_some, e2]

theorem Rel.onSn (h : Rel w ir ch) {n : Nat} (hn : 1 ≤ n) {α : Type} {f : SnObjSt → Option (SnObjSt × α)}
    {l' : List (List Nat)} {a : α} (hf : MethodOk n f (ir n) l' a) (hsub : ∀ p ∈ ir n, p ∈ l') :
    ∃ w', w.onSn n f = some (w', a) ∧ Rel w' (Function.update ir n l') ch ∧ w'.levels = w.levels := by
  obtain ⟨w1, e1, h1, l1, hl⟩ := h.getSn hn
  have hlt : n - 1 < w1.sn.length := by omega
  have hg := List.getElem?_eq_getElem hlt
  have ho := h1.obj _ _ hg
  rw [show n - 1 + 1 = n by omega] at ho
  obtain ⟨o', e, hinv, hir⟩ := hf _ ho.1 ho.2
  refine ⟨{ w1 with sn := w1.sn.set (n - 1) o' }, ?_, ⟨fun i o hi => ?_, fun m hm => ?_, h1.lev, h1.levNil, fun m p hp => ?_⟩, hl⟩
  · simp only [World.onSn, e1, Option.bind_eq_bind, Option.bind_some, hg, e]
  · by_cases hin : i = n - 1
    · subst hin
      rw [List.getElem?_set_self hlt] at hi
      obtain rfl := Option.some.inj hi
      rw [show n - 1 + 1 = n by omega, Function.update_self]
      exact ⟨hinv, hir⟩
    · rw [List.getElem?_set_ne (by omega)] at hi
      rw [Function.update_of_ne (by omega)]
      exact h1.obj i o hi
  · simp only [List.length_set] at hm
    rw [Function.update_of_ne (by omega)]
    exact h1.objNil m hm
  · by_cases hm : m = n
    · subst hm; rw [Function.update_self]; exact hsub p (h1.sub m p hp)
    · rw [Function.update_of_ne hm]; exact h1.sub m p hp

theorem Rel.onSn_id (h : Rel w ir ch) {n : Nat} (hn : 1 ≤ n) {α : Type} {f : SnObjSt → Option (SnObjSt × α)}
    {a : α} (hf : MethodOk n f (ir n) (ir n) a) :
    ∃ w', w.onSn n f = some (w', a) ∧ Rel w' ir ch ∧ w'.levels = w.levels := by
  have := h.onSn hn hf fun _ hp => hp
  rwa [Function.update_eq_self] at this

theorem Rel.valueLoop (R : IrrepObj) {n : Nat} (hn : 1 ≤ n) (v : List Nat → ℝ)
    (hv : ∀ c ∈ partitions n, R.character c = some (v c)) (k i : Nat) (w : World) (h : Rel w ir ch)
    (hk : i + k = (partitions n).length) :
    ∃ w', World.valueLoop R n k i w = some (w', ((partitions n).drop i).map v) ∧ Rel w' ir ch ∧ w'.levels = w.levels := by
  induction k generalizing i w with
  | zero =>
    refine ⟨w, ?_, h, rfl⟩
    rw [World.valueLoop, List.drop_eq_nil_of_le (by omega)]; rfl
  | succ k ih =>
    have hi : i < (partitions n).length := by omega
    obtain ⟨w1, e1, h1, l1⟩ := h.onSn_id hn (cclass_ok n (ir n) (List.getElem?_eq_getElem hi))
    obtain ⟨w2, e2, h2, l2⟩ := ih (i + 1) w1 h1 (by omega)
    refine ⟨w2, ?_, h2, l2.trans l1⟩
    simp only [World.valueLoop, e1, Option.bind_eq_bind, Option.bind_some, hv _ (List.getElem_mem hi), e2]
    rw [List.drop_eq_getElem_cons hi]; rfl

theorem find_eq {n : Nat} {p : List Nat} (hp : IsPartition n p) (l : List (List Nat × List ℝ))
    (hl : ∀ e ∈ l, IsPartition n e.1 ∧ e.2 = chiList n e.1) :
    (p ∈ l.map Prod.fst ∧ ∃ e, l.find? (fun e => eqb e.1 p) = some e ∧ e.2 = chiList n p) ∨
    (p ∉ l.map Prod.fst ∧ l.find? (fun e => eqb e.1 p) = none) := by
  have key : ∀ e ∈ l, eqb e.1 p = true ↔ e.1 = p := fun e he =>
    ⟨fun h => (hl e he).1.ext hp ((eqb_iff _ _).1 h), fun h => (eqb_iff _ _).2 (by rw [h]; intro; rfl)⟩
  rcases hf : l.find? (fun e => eqb e.1 p) with _ | e
  · right
    refine ⟨fun hm => ?_, hf⟩
    obtain ⟨e, he, rfl⟩ := List.mem_map.1 hm
    have := List.find?_eq_none.1 hf e he
    exact this ((key e he).2 rfl)
  · left
    have he := List.mem_of_find?_eq_some hf
    have h1 := (key e he).1 (by simpa using List.find?_some hf)
    exact ⟨List.mem_map.2 ⟨e, he, h1⟩, e, hf, h1 ▸ (hl e he).2⟩

theorem Rel.levelCharacter (h : Rel w ir ch) {n : Nat} (hn : 1 ≤ n) (hlen : n ≤ w.levels.length) {p : List Nat}
    (hp : IsPartition n p) :
    ∃ w', w.levelCharacter n p = some (w', chiList n p) ∧
      Rel w' (Function.update ir n (addNew (ir n) p)) (Function.update ch n (addNew (ch n) p)) ∧
      n ≤ w'.levels.length := by
  have hlt : n - 1 < w.levels.length := by omega
  have hg := List.getElem?_eq_getElem hlt
  have hL := h.lev _ _ hg
  rw [show n - 1 + 1 = n by omega] at hL
  set L := w.levels[n - 1] with hLdef
  have hsum : getn p = n := by rw [getn_eq, hp.sum]
  unfold World.levelCharacter
  simp only [hg, Option.bind_eq_bind, Option.bind_some, hL.1.n_eq, hsum, ne_eq, not_true_eq_false, if_false]
  rcases find_eq hp L.chars hL.1.values with ⟨hm, e, he, hv⟩ | ⟨hm, he⟩
  · rw [hL.2] at hm
    rw [addNew_of_mem hm, addNew_of_mem (h.sub n p hm), Function.update_eq_self, Function.update_eq_self]
    refine ⟨w, ?_, h, hlen⟩
    rw [he, ← hv]
  · rw [hL.2] at hm
    obtain ⟨w1, e1, h1, l1⟩ := h.onSn_id hn (ncclasses_ok n (ir n))
    obtain ⟨w2, e2, h2, l2⟩ := h1.onSn hn (irrep_ok (ir n) hp) fun q hq => mem_addNew.2 (Or.inl hq)
    obtain ⟨R, hR, _, hrep⟩ := exists_repr hn hp
    have hv : ∀ c ∈ partitions n, R.character c = some (chiVal n p c) := by
      intro c hc
      have hc' := (mem_partitions n hn c).1 hc
      rw [hrep.character_eq hc' _ (hasCycleType_block hc')]
      unfold chiVal
      rw [dif_pos hp]; rfl
    obtain ⟨w3, e3, h3, l3⟩ := Rel.valueLoop R hn (chiVal n p) hv (partitions n).length 0 w2 h2 (by omega)
    rw [he]
    simp only [e1, Option.bind_some, World.bankIrrep, hsum, e2, hR, e3]
    have hl3 : w3.levels = w.levels := l3.trans (l2.trans l1)
    have hlt3 : n - 1 < w3.levels.length := by rw [hl3]; exact hlt
    refine ⟨_, rfl, ⟨h3.obj, h3.objNil, fun i L' hi => ?_, fun m hm' => ?_, fun m q hq => ?_⟩, ?_⟩
    · by_cases hin : i = n - 1
      · subst hin
        rw [List.getElem?_set_self hlt3] at hi
        obtain rfl := Option.some.inj hi
        rw [show n - 1 + 1 = n by omega, Function.update_self]
        refine ⟨⟨hL.1.n_eq ▸ rfl, fun e he' => ?_⟩, ?_⟩
        · rcases List.mem_append.1 he' with he' | he'
          · exact hL.1.values e he'
          · rw [List.mem_singleton] at he'
            subst he'
            exact ⟨hp, rfl⟩
        · rw [List.map_append, hL.2, addNew, if_neg hm]; rfl
      · rw [List.getElem?_set_ne (by omega)] at hi
        rw [Function.update_of_ne (by omega)]
        exact h3.lev i L' hi
    · simp only [List.length_set] at hm'
      rw [Function.update_of_ne (by rw [hl3] at hm'; omega)]
      exact h3.levNil m hm'
    · by_cases hm' : m = n
      · subst hm'
        rw [Function.update_self] at hq ⊢
        rcases mem_addNew.1 hq with hq | hq
        · exact mem_addNew.2 (Or.inl (h.sub m q hq))
        · exact mem_addNew.2 (Or.inr hq)
      · rw [Function.update_of_ne hm'] at hq ⊢
        exact h.sub m q hq
    · simp only [List.length_set]; rw [hl3]; exact hlen

theorem Rel.getCharacter (h : Rel w ir ch) {n : Nat} (hn : 1 ≤ n) {p : List Nat} (hp : IsPartition n p) :
    ∃ w', w.getCharacter p = some (w', chiList n p) ∧
      Rel w' (Function.update ir n (addNew (ir n) p)) (Function.update ch n (addNew (ch n) p)) := by
  have hsum : getn p = n := by rw [getn_eq, hp.sum]
  obtain ⟨w1, e1, h1, l1, _⟩ := h.getLevel hn
  obtain ⟨w2, e2, h2, _⟩ := h1.levelCharacter hn l1 hp
  refine ⟨w2, ?_, h2⟩
  unfold World.getCharacter
  rw [hsum]
  simp only [e1, Option.bind_eq_bind, Option.bind_some, e2]

theorem Rel.makeAllChars {n : Nat} (hn : 1 ≤ n) (cs : List (List Nat)) (hc : ∀ p ∈ cs, IsPartition n p) (w : World)
    (ir ch : Nat → List (List Nat)) (h : Rel w ir ch) (hlen : n ≤ w.levels.length) :
    ∃ w', World.makeAllChars n cs w = some w' ∧
      Rel w' (Function.update ir n (addAll (ir n) cs)) (Function.update ch n (addAll (ch n) cs)) ∧
      n ≤ w'.levels.length := by
  induction cs generalizing w ir ch with
  | nil =>
    refine ⟨w, rfl, ?_, hlen⟩
    show Rel w (Function.update ir n (ir n)) (Function.update ch n (ch n))
    rwa [Function.update_eq_self, Function.update_eq_self]
  | cons c cs ih =>
    obtain ⟨w1, e1, h1, l1⟩ := h.levelCharacter hn hlen (hc c (by simp))
    obtain ⟨w2, e2, h2, l2⟩ := ih (fun p hp => hc p (by simp [hp])) w1 _ _ h1 l1
    refine ⟨w2, ?_, ?_, l2⟩
    · simp only [World.makeAllChars, e1, Option.bind_eq_bind, Option.bind_some, e2]
    · rwa [Function.update_self, Function.update_self, Function.update_idem, Function.update_idem] at h2

/-- What each call returns when `ir`, `ch` have been requested before. -/
noncomputable def result (ir ch : Nat → List (List Nat)) : Call → Val
  | .sn _ => .unit
  | .ncclasses n => .nat (partitions n).length
  | .cclass n i => .part ((partitions n)[i]?.getD [])
  | .cclassOf _ p => .part p
  | .index n p => .nat ((partitions n).idxOf p)
  | .classSize n i => .nat (ccard n ((partitions n)[i]?.getD []))
  | .irrep _ p => .part p
  | .irrepAt n i => .part ((addAll (ir n) (partitions n))[i]?.getD [])
  | .irrepBy _ p => .part p
  | .allIrreps n => .parts (addAll (ir n) (partitions n))
  | .character p => .fn (chiList p.sum p)
  | .characterAt n _ => .fn (chiList n [n])
  | .charactersAt n i => .fn (chiList n ((addAll (ch n) (partitions n))[i]?.getD []))
  | .charactersBy n p => .fn (chiList n p)
  | .value p mu => .real (chiVal p.sum p mu)

/-- the effect of a call on the requests -/
def reqIr (ir : Nat → List (List Nat)) (c : Call) : Nat → List (List Nat) := fun n => addAll (ir n) (c.irrepsOf n)
def reqCh (ch : Nat → List (List Nat)) (c : Call) : Nat → List (List Nat) := fun n => addAll (ch n) (c.charsOf n)

theorem update_ite (f : Nat → List (List Nat)) (n : Nat) (l : Nat → List (List Nat)) :
    Function.update f n (addAll (f n) (l n)) = fun m => addAll (f m) (if n = m then l m else []) := by
  funext m
  by_cases h : m = n
  · subst h; rw [Function.update_self, if_pos rfl]
  · rw [Function.update_of_ne h, if_neg (fun e => h e.symm)]; rfl

theorem nodup_perm_length {n : Nat} (hn : 1 ≤ n) {l : List (List Nat)} (hl : l.Nodup) (hp : ∀ p ∈ l, IsPartition n p) :
    (addAll l (partitions n)).Perm (partitions n) := by
  refine (List.perm_ext_iff_of_nodup (addAll_nodup hl) (partitions_nodup n)).2 fun p => ?_
  rw [mem_addAll]
  exact ⟨fun h => h.elim (fun h => (mem_partitions n hn p).2 (hp p h)) id, Or.inr⟩

theorem Rel.ir_ok (h : Rel w ir ch) {n : Nat} (hn : 1 ≤ n) : (ir n).Nodup ∧ ∀ p ∈ ir n, IsPartition n p := by
  by_cases hl : w.sn.length < n
  · rw [h.objNil n hl]; simp
  · have hlt : n - 1 < w.sn.length := by omega
    have := h.obj _ _ (List.getElem?_eq_getElem hlt)
    rw [show n - 1 + 1 = n by omega] at this
    exact ⟨this.2 ▸ this.1.nodup, this.2 ▸ this.1.parts⟩

theorem Rel.cast {a' b' : Nat → List (List Nat)} (h : Rel w ir ch) (ea : ir = a') (eb : ch = b') : Rel w a' b' := by
  subst ea; subst eb; exact h

theorem Rel.exec (h : Rel w ir ch) (hch : ∀ n, (ch n).Nodup) (c : Call) (hc : c.Valid) :
    ∃ w', w.exec c = some (w', result ir ch c) ∧ Rel w' (reqIr ir c) (reqCh ch c) := by
  have hid : ∀ f : Nat → List (List Nat), (fun n => addAll (f n) []) = f := fun f => rfl
  cases c with
  | sn n =>
    obtain ⟨w1, e1, h1, _⟩ := h.mkSn (n := n) hc
    exact ⟨w1, by simp only [World.exec, e1, Option.bind_eq_bind, Option.bind_some, result], h1⟩
  | ncclasses n =>
    obtain ⟨w1, e1, h1, _⟩ := h.mkSn (n := n) hc
    obtain ⟨w2, e2, h2, _⟩ := h1.onSn_id hc (ncclasses_ok n (ir n))
    exact ⟨w2, by simp only [World.exec, e1, e2, Option.bind_eq_bind, Option.bind_some, result], h2⟩
  | cclass n i =>
    obtain ⟨hn, hi⟩ := hc
    obtain ⟨w1, e1, h1, _⟩ := h.mkSn hn
    obtain ⟨w2, e2, h2, _⟩ := h1.onSn_id hn (cclass_ok n (ir n) (List.getElem?_eq_getElem hi))
    exact ⟨w2, by simp only [World.exec, e1, e2, Option.bind_eq_bind, Option.bind_some, result,
      List.getElem?_eq_getElem hi, Option.getD_some], h2⟩
  | cclassOf n p =>
    obtain ⟨hn, hp⟩ := hc
    obtain ⟨w1, e1, h1, _⟩ := h.mkSn hn
    obtain ⟨w2, e2, h2, _⟩ := h1.onSn_id hn (index_ok (ir n) hp)
    have hm := (mem_partitions n hn p).2 hp
    have hi : (partitions n)[(partitions n).idxOf p]? = some p := by
      rw [List.getElem?_eq_getElem (List.idxOf_lt_length_of_mem hm), List.getElem_idxOf]
    obtain ⟨w3, e3, h3, _⟩ := h2.onSn_id hn (cclass_ok n (ir n) hi)
    exact ⟨w3, by simp only [World.exec, e1, e2, e3, Option.bind_eq_bind, Option.bind_some, result], h3⟩
  | index n p =>
    obtain ⟨hn, hp⟩ := hc
    obtain ⟨w1, e1, h1, _⟩ := h.mkSn hn
    obtain ⟨w2, e2, h2, _⟩ := h1.onSn_id hn (index_ok (ir n) hp)
    exact ⟨w2, by simp only [World.exec, e1, e2, Option.bind_eq_bind, Option.bind_some, result], h2⟩
  | classSize n i =>
    obtain ⟨hn, hi⟩ := hc
    obtain ⟨w1, e1, h1, _⟩ := h.mkSn hn
    obtain ⟨w2, e2, h2, _⟩ := h1.onSn_id hn (cclass_ok n (ir n) (List.getElem?_eq_getElem hi))
    have hp := (mem_partitions n hn _).1 (List.getElem_mem hi)
    exact ⟨w2, by simp only [World.exec, e1, e2, Option.bind_eq_bind, Option.bind_some, result,
      List.getElem?_eq_getElem hi, Option.getD_some, classSize_card hn hp, ccard], h2⟩
  | irrep n p =>
    obtain ⟨hn, hp⟩ := hc
    obtain ⟨w1, e1, h1, _⟩ := h.mkSn hn
    obtain ⟨w2, e2, h2, _⟩ := h1.onSn hn (irrep_ok (ir n) hp) fun q hq => mem_addNew.2 (Or.inl hq)
    refine ⟨w2, by simp only [World.exec, e1, e2, Option.bind_eq_bind, Option.bind_some, result], ?_⟩
    have := update_ite ir n fun _ => [p]
    exact h2.cast this rfl
  | irrepAt n i =>
    obtain ⟨hn, hi⟩ := hc
    obtain ⟨w1, e1, h1, _⟩ := h.mkSn hn
    have hir := h.ir_ok hn
    have hlen := (nodup_perm_length hn hir.1 hir.2).length_eq
    have hi' : i < (addAll (ir n) (partitions n)).length := by omega
    obtain ⟨w2, e2, h2, _⟩ := h1.onSn hn (irrepAt_ok n (ir n) (List.getElem?_eq_getElem hi'))
      fun q hq => mem_addAll.2 (Or.inl hq)
    refine ⟨w2, by simp only [World.exec, e1, e2, Option.bind_eq_bind, Option.bind_some, result,
      List.getElem?_eq_getElem hi', Option.getD_some], ?_⟩
    have := update_ite ir n fun m => partitions m
    exact h2.cast this rfl
  | irrepBy n p =>
    obtain ⟨hn, hp⟩ := hc
    obtain ⟨w1, e1, h1, _⟩ := h.mkSn hn
    obtain ⟨w2, e2, h2, _⟩ := h1.onSn hn (irrepBy_ok hn (ir n) hp) fun q hq => mem_addAll.2 (Or.inl hq)
    refine ⟨w2, by simp only [World.exec, e1, e2, Option.bind_eq_bind, Option.bind_some, result], ?_⟩
    have := update_ite ir n fun m => partitions m
    exact h2.cast this rfl
  | allIrreps n =>
    obtain ⟨w1, e1, h1, _⟩ := h.mkSn (n := n) hc
    obtain ⟨w2, e2, h2, _⟩ := h1.onSn hc (allIrreps_ok n (ir n)) fun q hq => mem_addAll.2 (Or.inl hq)
    refine ⟨w2, by simp only [World.exec, e1, e2, Option.bind_eq_bind, Option.bind_some, result], ?_⟩
    have := update_ite ir n fun m => partitions m
    exact h2.cast this rfl
  | character p =>
    obtain ⟨hn, hp⟩ := hc
    obtain ⟨w1, e1, h1⟩ := h.getCharacter hn hp
    refine ⟨w1, by simp only [World.exec, e1, Option.bind_eq_bind, Option.bind_some, result], ?_⟩
    have e := update_ite ir p.sum fun _ => [p]
    have e' := update_ite ch p.sum fun _ => [p]
    exact h1.cast e e'
  | characterAt n i =>
    obtain ⟨w0, e0, h0, _⟩ := h.mkSn (n := n) hc
    obtain ⟨w1, e1, h1⟩ := h0.getCharacter hc (isPartition_row hc)
    refine ⟨w1, by simp only [World.exec, e0, e1, Option.bind_eq_bind, Option.bind_some, result], ?_⟩
    have e := update_ite ir n fun _ => [[n]]
    have e' := update_ite ch n fun _ => [[n]]
    exact h1.cast e e'
  | charactersAt n i =>
    obtain ⟨hn, hi⟩ := hc
    obtain ⟨w0, e0, h0, _, l0⟩ := h.mkSn hn
    obtain ⟨w1, e1, h1, l1⟩ := Rel.makeAllChars hn (partitions n) (fun p hp => (mem_partitions n hn p).1 hp) w0 _ _ h0 l0
    have hlt : n - 1 < w1.levels.length := by omega
    have hg := List.getElem?_eq_getElem hlt
    have hL := h1.lev _ _ hg
    rw [show n - 1 + 1 = n by omega, Function.update_self] at hL
    have hchp : ∀ p ∈ ch n, IsPartition n p := fun p hp => (h.ir_ok hn).2 p (h.sub n p hp)
    have hlen := (nodup_perm_length hn (hch n) hchp).length_eq
    have hlen' := congrArg List.length hL.2
    rw [List.length_map] at hlen'
    have hi' : i < (w1.levels[n - 1]).chars.length := by omega
    have hge := List.getElem?_eq_getElem hi'
    have hval := hL.1.values _ (List.getElem_mem hi')
    have hkey : (addAll (ch n) (partitions n))[i]? = some ((w1.levels[n - 1]).chars[i]).1 := by
      rw [← hL.2, List.getElem?_map, hge]; rfl
    refine ⟨w1, ?_, ?_⟩
    · simp only [World.exec, e0, e1, Option.bind_eq_bind, Option.bind_some, hg, hge, result, hkey, Option.getD_some, hval.2]
    · have e := update_ite ir n fun m => partitions m
      have e' := update_ite ch n fun m => partitions m
      exact h1.cast e e'
  | charactersBy n p =>
    obtain ⟨hn, hp⟩ := hc
    obtain ⟨w0, e0, h0, _, l0⟩ := h.mkSn hn
    obtain ⟨w1, e1, h1, _⟩ := h0.levelCharacter hn l0 hp
    refine ⟨w1, by simp only [World.exec, e0, e1, Option.bind_eq_bind, Option.bind_some, result], ?_⟩
    have e := update_ite ir n fun _ => [p]
    have e' := update_ite ch n fun _ => [p]
    exact h1.cast e e'
  | value p mu =>
    obtain ⟨hn, hp, hmu⟩ := hc
    obtain ⟨w1, e1, h1⟩ := h.getCharacter hn hp
    have hsum : getn mu = p.sum := by rw [getn_eq, hmu.sum]
    obtain ⟨w2, e2, h2, _⟩ := h1.onSn_id hn (index_ok _ hmu)
    have hm := (mem_partitions _ hn mu).2 hmu
    have hi : (chiList p.sum p)[(partitions p.sum).idxOf mu]? = some (chiVal p.sum p mu) := by
      unfold chiList
      rw [List.getElem?_map, List.getElem?_eq_getElem (List.idxOf_lt_length_of_mem hm), List.getElem_idxOf]; rfl
    refine ⟨w2, by simp only [World.exec, e1, hsum, e2, hi, Option.bind_eq_bind, Option.bind_some, result], ?_⟩
    have e := update_ite ir p.sum fun _ => [p]
    have e' := update_ite ch p.sum fun _ => [p]
    exact h2.cast e e'

/-- every history -/
theorem history (cs : List Call) (hv : ∀ c ∈ cs, c.Valid) :
    ∃ w, World.empty.run cs = some w ∧ Rel w (fun n => requestedIrreps n cs) (fun n => requestedChars n cs) ∧
      ∀ n, (requestedChars n cs).Nodup := by
  have key : ∀ (cs : List Call) (w : World) (ir ch : Nat → List (List Nat)), (∀ c ∈ cs, c.Valid) → Rel w ir ch →
      (∀ n, (ch n).Nodup) → ∃ w', w.run cs = some w' ∧
        Rel w' (fun n => cs.foldl (fun l c => addAll l (c.irrepsOf n)) (ir n))
          (fun n => cs.foldl (fun l c => addAll l (c.charsOf n)) (ch n)) ∧
        ∀ n, (cs.foldl (fun l c => addAll l (c.charsOf n)) (ch n)).Nodup := by
    intro cs
    induction cs with
    | nil => intro w ir ch _ h hch; exact ⟨w, rfl, h, hch⟩
    | cons c cs ih =>
      intro w ir ch hv h hch
      obtain ⟨w1, e1, h1⟩ := h.exec hch c (hv c (by simp))
      obtain ⟨w2, e2, h2, h3⟩ := ih w1 _ _ (fun c hc => hv c (by simp [hc])) h1 fun n => addAll_nodup (hch n)
      refine ⟨w2, ?_, h2, h3⟩
      simp only [World.run, e1, Option.bind_eq_bind, Option.bind_some, e2]
  exact key cs World.empty _ _ hv rel_empty fun _ => List.nodup_nil

theorem history_exec (cs : List Call) (hv : ∀ c ∈ cs, c.Valid) (c : Call) (hc : c.Valid) :
    ∃ w w', World.empty.run cs = some w ∧
      w.exec c = some (w', result (fun n => requestedIrreps n cs) (fun n => requestedChars n cs) c) := by
  obtain ⟨w, e, h, hch⟩ := history cs hv
  obtain ⟨w', e', _⟩ := h.exec hch c hc
  exact ⟨w, w', e, e'⟩

end Snob
