import Verif.Spec.Shallow
import Mathlib.Tactic

/-! Proofs about classes that own tensors through pointers. -/

namespace Snob.Shallow

variable {α : Type}

/-- the pointers of all objects -/
def flat (O : List (Option (List Nat))) : List Nat := O.flatMap fun o => o.getD []

/-- an object and what is expected of it -/
def R (C : List (Option α)) : Option (List Nat) → Option (List α) → Prop
  | none, none => True
  | some ps, some l => List.Forall₂ (fun (a : Nat) x => C[a]? = some (some x)) ps l
  | _, _ => False

/-- every tensor has exactly one owner -/
structure Ok (C : List (Option α)) (O : List (Option (List Nat))) (v : List (Option (List α))) : Prop where
  rel : List.Forall₂ (R C) O v
  nodup : (flat O).Nodup
  live : ∀ a : Nat, a ∈ flat O ↔ ∃ x, C[a]? = some (some x)

theorem split_at {β : Type} {l : List β} {d : Nat} {x : β} (h : l[d]? = some x) :
    ∃ A B, l = A ++ x :: B ∧ A.length = d := by
  obtain ⟨hd, rfl⟩ := List.getElem?_eq_some_iff.1 h
  exact ⟨l.take d, l.drop (d + 1), by simp, by simp; omega⟩

theorem forall2_get {β γ : Type} {P : β → γ → Prop} {l : List β} {l' : List γ} (h : List.Forall₂ P l l') {d : Nat} {y : γ}
    (hy : l'[d]? = some y) : ∃ x, l[d]? = some x ∧ P x y := by
  induction h generalizing d with
  | nil => simp at hy
  | cons h1 _ ih =>
    cases d with
    | zero => simp at hy; subst hy; exact ⟨_, by simp, h1⟩
    | succ d => simpa using ih (by simpa using hy)

theorem forall2_set {β γ : Type} {P : β → γ → Prop} {l : List β} {l' : List γ} (h : List.Forall₂ P l l') (d : Nat) {x : β} {y : γ}
    (hxy : P x y) : List.Forall₂ P (l.set d x) (l'.set d y) := by
  induction h generalizing d with
  | nil => simp
  | cons h1 h2 ih =>
    cases d with
    | zero => simpa using ⟨hxy, h2⟩
    | succ d => simpa using ⟨h1, ih d⟩

theorem R.mono {C C' : List (Option α)} {o : Option (List Nat)} {w : Option (List α)} (h : R C o w)
    (hC : ∀ a x, a ∈ o.getD [] → C[a]? = some (some x) → C'[a]? = some (some x)) : R C' o w := by
  match o, w, h with
  | none, none, _ => trivial
  | some ps, some l, h =>
    simp only [R] at h ⊢
    simp only [Option.getD_some] at hC
    induction h with
    | nil => exact .nil
    | cons h1 _ ih => exact .cons (hC _ _ (by simp) h1) (ih fun a x ha => hC a x (by simp [ha]))

theorem alloc_eq (l : List α) : ∀ (ps : List Nat) (m : Mem α),
    Mem.alloc l ps m = ({ m with cells := m.cells ++ l.map some }, ps ++ List.range' m.cells.length l.length) := by
  induction l with
  | nil => intro ps m; simp [Mem.alloc]
  | cons x l ih =>
    intro ps m
    rw [Mem.alloc, ih]
    simp [List.range'_succ]

theorem make_eq (m : Mem α) (l : List α) :
    m.make l = ⟨m.cells ++ l.map some, m.objs ++ [some (List.range' m.cells.length l.length)]⟩ := by
  unfold Mem.make
  rw [alloc_eq]
  simp

theorem flat_append (A B : List (Option (List Nat))) : flat (A ++ B) = flat A ++ flat B := by simp [flat]

theorem Ok.make {m : Mem α} {v : List (Option (List α))} (h : Ok m.cells m.objs v) (l : List α) :
    Ok (m.make l).cells (m.make l).objs (v ++ [some l]) := by
  rw [make_eq]
  have hlt : ∀ a ∈ flat m.objs, a < m.cells.length := fun a ha => by
    obtain ⟨x, hx⟩ := (h.live a).1 ha
    exact (List.getElem?_eq_some_iff.1 hx).1
  refine ⟨?_, ?_, ?_⟩
  · refine List.rel_append (h.rel.imp fun o w hr => hr.mono fun a x _ hx => ?_) ?_
    · refine .cons ?_ .nil
      simp only [R]
      rw [List.forall₂_iff_get]
      refine ⟨by simp, fun i h1 h2 => ?_⟩
      simp [h2]
    · change (m.cells ++ l.map some)[a]? = _
      rw [List.getElem?_append_left (List.getElem?_eq_some_iff.1 hx).1]; exact hx
  · dsimp only
    rw [flat_append]
    refine List.nodup_append.2 ⟨h.nodup, by simp [flat, List.nodup_range'], ?_⟩
    intro a ha b hb
    have := hlt a ha
    simp [flat, List.mem_range'] at hb
    omega
  · intro a
    dsimp only
    rw [flat_append, List.mem_append, h.live]
    by_cases ha : a < m.cells.length
    · rw [List.getElem?_append_left ha]
      simp [flat, List.mem_range'_1]
      omega
    · rw [List.getElem?_eq_none (by omega), List.getElem?_append_right (by omega)]
      simp [flat, List.mem_range'_1]
      constructor
      · intro hb
        exact ⟨l[a - m.cells.length], by rw [List.getElem?_eq_getElem (by omega)]⟩
      · rintro ⟨x, hx⟩
        have := (List.getElem?_eq_some_iff.1 hx).1
        omega

/-- giving back distinct live tensors -/
theorem deleteLoop_ok : ∀ (ps : List Nat) (m : Mem α), ps.Nodup → (∀ a ∈ ps, ∃ x, m.cells[a]? = some (some x)) →
    ∃ C, Mem.deleteLoop ps m = some { m with cells := C } ∧
      ∀ (a : Nat) x, C[a]? = some (some x) ↔ m.cells[a]? = some (some x) ∧ a ∉ ps := by
  intro ps
  induction ps with
  | nil => intro m _ _; exact ⟨m.cells, rfl, by simp⟩
  | cons a ps ih =>
    intro m hn hl
    obtain ⟨x, hx⟩ := hl a (by simp)
    rw [List.nodup_cons] at hn
    obtain ⟨C, h1, h2⟩ := ih { m with cells := m.cells.set a none } hn.2 (fun b hb => by
      obtain ⟨y, hy⟩ := hl b (by simp [hb])
      refine ⟨y, ?_⟩
      rw [List.getElem?_set, if_neg]
      · exact hy
      · rintro rfl; exact hn.1 hb)
    refine ⟨C, ?_, fun b y => ?_⟩
    · simp only [Mem.deleteLoop, Mem.load, hx, Option.bind_eq_bind, Option.bind_some, id]
      exact h1
    · rw [h2, List.getElem?_set]
      by_cases hab : a = b
      · subst hab
        simp only [if_true, List.mem_cons, true_or, not_true, and_false, iff_false, not_and]
        intro h
        split at h <;> simp at h
      · rw [if_neg hab]
        simp [Ne.symm hab]

theorem Ok.destroy {m : Mem α} {v : List (Option (List α))} (h : Ok m.cells m.objs v) {d : Nat} {l : List α}
    (hd : v[d]? = some (some l)) : ∃ m', m.destroy d = some m' ∧ Ok m'.cells m'.objs (v.set d none) := by
  obtain ⟨o, ho, hr⟩ := forall2_get h.rel hd
  match o, hr with
  | some ps, hr =>
  obtain ⟨A, B, hO, hA⟩ := split_at ho
  have hfl : flat m.objs = flat A ++ (ps ++ flat B) := by rw [hO]; simp [flat]
  have hnd := h.nodup
  rw [hfl, List.nodup_append, List.nodup_append] at hnd
  obtain ⟨n1, ⟨n2, n3, n4⟩, n5⟩ := hnd
  obtain ⟨C, h1, h2⟩ := deleteLoop_ok ps m n2 (fun a ha => (h.live a).1 (by rw [hfl]; simp [ha]))
  have hset : m.objs.set d none = A ++ none :: B := by
    rw [hO, List.set_append_right _ _ (by omega), ← hA]; simp
  have hfl' : flat (m.objs.set d none) = flat A ++ flat B := by rw [hset]; simp [flat]
  refine ⟨⟨C, m.objs.set d none⟩, ?_, ?_, ?_, ?_⟩
  · simp only [Mem.destroy, Mem.obj, ho, Option.bind_eq_bind, Option.bind_some, id, h1]
  · have hrel := forall2_set (P := R m.cells) h.rel d (x := none) (y := none) trivial
    -- pointers of the others are not given back
    have hmem : ∀ o ∈ m.objs.set d none, ∀ a ∈ o.getD [], a ∉ ps := by
      intro o ho a ha hap
      rw [hset] at ho
      rcases List.mem_append.1 ho with h' | h'
      · exact n5 a (List.mem_flatMap.2 ⟨o, h', ha⟩) a (by simp [hap]) rfl
      · rcases List.mem_cons.1 h' with rfl | h'
        · simp at ha
        · exact n4 a hap a (List.mem_flatMap.2 ⟨o, h', ha⟩) rfl
    dsimp only
    generalize m.objs.set d none = L at hrel hmem
    generalize v.set d none = w at hrel
    induction hrel with
    | nil => exact .nil
    | cons a1 _ ih =>
      refine .cons (a1.mono fun a x ha hx => (h2 a x).2 ⟨hx, hmem _ (by simp) a ha⟩) (ih fun o ho => hmem o (by simp [ho]))
  · dsimp only
    rw [hfl', List.nodup_append]
    exact ⟨n1, n3, fun a ha b hb => n5 a ha b (by simp [hb])⟩
  · intro a
    dsimp only
    rw [hfl']
    have := h.live a
    rw [hfl] at this
    constructor
    · intro ha
      have ha' : a ∈ flat A ++ (ps ++ flat B) := by
        rcases List.mem_append.1 ha with h' | h' <;> simp [h']
      obtain ⟨x, hx⟩ := this.1 ha'
      refine ⟨x, (h2 a x).2 ⟨hx, fun hap => ?_⟩⟩
      rcases List.mem_append.1 ha with h' | h'
      · exact n5 a h' a (by simp [hap]) rfl
      · exact n4 a hap a h' rfl
    · rintro ⟨x, hx⟩
      obtain ⟨hx, hap⟩ := (h2 a x).1 hx
      have := this.2 ⟨x, hx⟩
      simp [hap] at this
      simpa using this

theorem flat_get {O : List (Option (List Nat))} {d : Nat} {ps : List Nat} (h : O[d]? = some (some ps)) : ∀ a ∈ ps, a ∈ flat O :=
  fun a ha => List.mem_flatMap.2 ⟨some ps, List.mem_of_getElem? h, by simpa using ha⟩

/-- two objects do not share a tensor -/
theorem Ok.disjoint {C : List (Option α)} {O : List (Option (List Nat))} {v : List (Option (List α))} (h : Ok C O v) {d e : Nat}
    {ps qs : List Nat} (hd : O[d]? = some (some ps)) (he : O[e]? = some (some qs)) (hde : d ≠ e) {a : Nat} (ha : a ∈ ps) : a ∉ qs := by
  intro hb
  obtain ⟨A, B, hO, hA⟩ := split_at hd
  have hnd := h.nodup
  rw [hO] at hnd he
  rw [show flat (A ++ some ps :: B) = flat A ++ (ps ++ flat B) by simp [flat], List.nodup_append, List.nodup_append] at hnd
  obtain ⟨n1, ⟨n2, n3, n4⟩, n5⟩ := hnd
  rcases Nat.lt_or_ge e A.length with h' | h'
  · rw [List.getElem?_append_left h'] at he
    exact n5 a (flat_get he a hb) a (by simp [ha]) rfl
  · rw [List.getElem?_append_right h'] at he
    obtain ⟨k, hk⟩ : ∃ k, e - A.length = k + 1 := ⟨e - A.length - 1, by omega⟩
    rw [hk, List.getElem?_cons_succ] at he
    exact n4 a ha a (flat_get he a hb) rfl

theorem Ok.set {m : Mem α} {v : List (Option (List α))} (h : Ok m.cells m.objs v) {d i : Nat} {l : List α} (x : α)
    (hd : v[d]? = some (some l)) (hi : i < l.length) :
    ∃ m', m.set d i x = some m' ∧ Ok m'.cells m'.objs (v.set d (some (l.set i x))) := by
  obtain ⟨o, ho, hr⟩ := forall2_get h.rel hd
  match o, hr with
  | some ps, hr =>
  simp only [R] at hr
  obtain ⟨a, ha, hax⟩ := forall2_get hr (List.getElem?_eq_getElem hi)
  have hps : ps.Nodup := by
    obtain ⟨A, B, hO, hA⟩ := split_at ho
    have hnd := h.nodup
    rw [hO, show flat (A ++ some ps :: B) = flat A ++ (ps ++ flat B) by simp [flat], List.nodup_append, List.nodup_append] at hnd
    exact hnd.2.1.1
  have haC : a < m.cells.length := (List.getElem?_eq_some_iff.1 hax).1
  refine ⟨⟨m.cells.set a (some x), m.objs⟩, ?_, ?_, h.nodup, ?_⟩
  · simp [Mem.set, Mem.obj, ho, ha, Mem.load, hax]
  · rw [List.forall₂_iff_get]
    have hl := h.rel.length_eq
    refine ⟨by simpa using hl, fun e h1 h2 => ?_⟩
    have hre := (List.forall₂_iff_get.1 h.rel).2 e h1 (by simpa using h2)
    simp only [List.get_eq_getElem] at hre ⊢
    rw [List.getElem_set]
    have hoe : m.objs[e]? = some m.objs[e] := List.getElem?_eq_getElem h1
    by_cases hde : d = e
    · subst hde
      rw [if_pos rfl]
      have : m.objs[d] = some ps := by rw [hoe] at ho; exact Option.some.inj ho
      rw [this]
      simp only [R]
      rw [List.forall₂_iff_get] at hr ⊢
      refine ⟨by simpa using hr.1, fun j j1 j2 => ?_⟩
      have hrj := hr.2 j j1 (by simpa using j2)
      simp only [List.get_eq_getElem] at hrj ⊢
      rw [List.getElem_set, List.getElem?_set]
      obtain ⟨i1, hai⟩ := List.getElem?_eq_some_iff.1 ha
      by_cases hij : i = j
      · subst hij
        rw [if_pos hai.symm, if_pos haC, if_pos rfl]
      · rw [if_neg, if_neg hij]
        · exact hrj
        · intro e1
          rw [← hai] at e1
          exact hij ((List.Nodup.getElem_inj_iff hps).1 e1)
    · rw [if_neg hde]
      refine hre.mono fun b y hb hy => ?_
      rw [List.getElem?_set, if_neg]
      · exact hy
      · rintro rfl
        cases hO : m.objs[e] with
        | none => rw [hO] at hb; simp at hb
        | some qs =>
          rw [hO] at hb
          exact h.disjoint ho (by rw [hoe, hO]) hde (List.mem_of_getElem? ha) (by simpa using hb)
  · intro b
    rw [h.live]
    dsimp only
    rw [List.getElem?_set]
    by_cases hab : a = b
    · subst hab
      rw [if_pos rfl, if_pos haC]
      exact ⟨fun _ => ⟨x, rfl⟩, fun _ => ⟨_, hax⟩⟩
    · rw [if_neg hab]

/-- One statement that does not assign and copies at most an object without tensors. -/
theorem step_ok {m : Mem α} {v w : List (Option (List α))} (h : Ok m.cells m.objs v) {op : Op α} (hw : vstep v op = some w)
    (ha : NoAssign op) (hc : ∀ s l, op = .copy s → v[s]? = some (some l) → l = []) :
    ∃ m', step m op = some m' ∧ Ok m'.cells m'.objs w := by
  cases op with
  | make l =>
    simp only [vstep] at hw
    injection hw with hw
    subst hw
    exact ⟨_, rfl, h.make l⟩
  | copy s =>
    simp only [vstep] at hw
    split at hw
    · rename_i l hl
      injection hw with hw
      subst hw
      obtain rfl := hc s l rfl hl
      obtain ⟨o, ho, hr⟩ := forall2_get h.rel hl
      match o, hr with
      | some ps, hr =>
      simp only [R] at hr
      obtain rfl := List.forall₂_nil_right_iff.1 hr
      refine ⟨⟨m.cells, m.objs ++ [some []]⟩, by simp [step, Mem.copy, Mem.obj, ho], ?_, ?_, ?_⟩
      · exact List.rel_append h.rel (.cons (by simp [R]) .nil)
      · rw [flat_append]; simpa [flat] using h.nodup
      · intro a; rw [flat_append]; simpa [flat] using h.live a
    · simp at hw
  | assign d s => exact absurd ha id
  | set d i x =>
    simp only [vstep] at hw
    split at hw
    · rename_i l hl
      split at hw
      · rename_i hi
        injection hw with hw
        subst hw
        exact h.set x hl hi
      · simp at hw
    · simp at hw
  | destroy d =>
    simp only [vstep] at hw
    split at hw
    · rename_i l hl
      injection hw with hw
      subst hw
      exact h.destroy hl
    · simp at hw

theorem run_ok : ∀ (ops : List (Op α)) {m : Mem α} {v w : List (Option (List α))}, Ok m.cells m.objs v → vrun v ops = some w →
    (∀ op ∈ ops, NoAssign op) → copied v ops = 0 → ∃ m', run m ops = some m' ∧ Ok m'.cells m'.objs w := by
  intro ops
  induction ops with
  | nil =>
    intro m v w h hw _ _
    simp only [vrun, List.foldlM_nil] at hw
    injection hw with hw
    subst hw
    exact ⟨m, rfl, h⟩
  | cons op ops ih =>
    intro m v w h hw ha hc
    simp only [vrun, List.foldlM_cons] at hw
    cases h1 : vstep v op with
    | none => rw [h1] at hw; simp at hw
    | some u =>
      rw [h1] at hw
      simp only [copied, h1, Nat.add_eq_zero_iff] at hc
      obtain ⟨m1, e1, h2⟩ := step_ok h h1 (ha op (by simp)) (by
        rintro s l rfl hl
        have := hc.1
        simp only [weight, hl] at this
        exact List.length_eq_zero_iff.1 this)
      obtain ⟨m2, e2, h3⟩ := ih h2 hw (fun op' h' => ha op' (by simp [h'])) hc.2
      exact ⟨m2, by simp only [run, List.foldlM_cons, e1]; exact e2, h3⟩

theorem ok_nil : Ok (({} : Mem α).cells) (({} : Mem α).objs) [] := ⟨.nil, by simp [flat], by simp [flat]⟩

/-! ### Counting -/

/-- the number of tensors in use -/
def nlive (C : List (Option α)) : Nat := C.countP Option.isSome

theorem deleteLoop_count : ∀ (ps : List Nat) (m m' : Mem α), Mem.deleteLoop ps m = some m' →
    nlive m'.cells + ps.length = nlive m.cells ∧ m'.objs = m.objs := by
  intro ps
  induction ps with
  | nil => intro m m' h; simp [Mem.deleteLoop] at h; subst h; simp
  | cons a ps ih =>
    intro m m' h
    simp only [Mem.deleteLoop, Option.bind_eq_bind] at h
    cases hx : m.load a with
    | none => rw [hx] at h; simp at h
    | some x =>
      rw [hx] at h
      obtain ⟨h1, h2⟩ := ih _ _ h
      refine ⟨?_, h2⟩
      dsimp only at h1
      have hx' : m.cells[a]? = some (some x) := by
        unfold Mem.load at hx
        cases hc : m.cells[a]? with
        | none => rw [hc] at hx; simp at hx
        | some y => rw [hc] at hx; simp at hx; rw [hx]
      obtain ⟨A, B, hC, hA⟩ := split_at hx'
      have : nlive (m.cells.set a none) + 1 = nlive m.cells := by
        rw [hC, List.set_append_right _ _ (by omega), ← hA]
        simp [nlive]
        omega
      rw [List.length_cons]
      omega

/-- the sizes of the objects are as expected -/
def Sz (O : List (Option (List Nat))) (v : List (Option (List α))) : Prop :=
  List.Forall₂ (fun o w => o.map List.length = w.map List.length) O v

theorem step_count {m m' : Mem α} {v w : List (Option (List α))} (hs : Sz m.objs v) {op : Op α} (hw : vstep v op = some w)
    (ha : NoAssign op) (hm : step m op = some m') (k : Nat) (hk : (flat m.objs).length = nlive m.cells + k) :
    Sz m'.objs w ∧ (flat m'.objs).length = nlive m'.cells + (k + weight v op) := by
  cases op with
  | make l =>
    simp only [vstep] at hw
    injection hw with hw
    subst hw
    simp only [step, make_eq] at hm
    injection hm with hm
    subst hm
    refine ⟨List.rel_append hs (.cons (by simp) .nil), ?_⟩
    dsimp only
    rw [flat_append, List.length_append, hk]
    simp [flat, nlive, List.countP_map, weight]
    have : List.countP (Option.isSome ∘ some) l = l.length := by rw [List.countP_eq_length]; simp
    omega
  | copy s =>
    simp only [vstep] at hw
    split at hw
    · rename_i l hl
      injection hw with hw
      subst hw
      obtain ⟨o, ho, hr⟩ := forall2_get hs hl
      match o, hr with
      | some ps, hr =>
      simp only [step, Mem.copy, Mem.obj, ho, Option.bind_eq_bind, Option.bind_some, id] at hm
      injection hm with hm
      subst hm
      refine ⟨List.rel_append hs (.cons hr .nil), ?_⟩
      dsimp only
      rw [flat_append, List.length_append, hk]
      simp at hr
      simp [flat, hr, weight, hl]
      omega
    · simp at hw
  | assign d s => exact absurd ha id
  | set d i x =>
    simp only [vstep] at hw
    split at hw
    · rename_i l hl
      split at hw
      · injection hw with hw
        subst hw
        simp only [step, Mem.set, Option.bind_eq_bind] at hm
        cases h1 : m.obj d with
        | none => rw [h1] at hm; simp at hm
        | some ps =>
          rw [h1, Option.bind_some] at hm
          cases h2 : ps[i]? with
          | none => rw [h2] at hm; simp at hm
          | some a =>
            rw [h2, Option.bind_some] at hm
            cases h3 : m.load a with
            | none => rw [h3] at hm; simp at hm
            | some y =>
              rw [h3, Option.bind_some] at hm
              injection hm with hm
              subst hm
              constructor
              · unfold Sz at hs ⊢
                rw [List.forall₂_iff_get] at hs ⊢
                refine ⟨by simpa using hs.1, fun e e1 e2 => ?_⟩
                have := hs.2 e e1 (by simpa using e2)
                simp only [List.get_eq_getElem] at this ⊢
                rw [List.getElem_set]
                split
                · rename_i he
                  subst he
                  have hv : v[d]'(by simpa using e2) = some l := by
                    obtain ⟨_, h'⟩ := List.getElem?_eq_some_iff.1 hl
                    exact h'
                  rw [hv] at this
                  rw [this]
                  simp
                · exact this
              · have hx' : m.cells[a]? = some (some y) := by
                  unfold Mem.load at h3
                  cases hc : m.cells[a]? with
                  | none => rw [hc] at h3; simp at h3
                  | some z => rw [hc] at h3; simp at h3; rw [h3]
                obtain ⟨A, B, hC, hA⟩ := split_at hx'
                have : nlive (m.cells.set a (some x)) = nlive m.cells := by
                  rw [hC, List.set_append_right _ _ (by omega), ← hA]
                  simp [nlive]
                dsimp only
                rw [hk, this]
                rfl
      · simp at hw
    · simp at hw
  | destroy d =>
    simp only [vstep] at hw
    split at hw
    · rename_i l hl
      injection hw with hw
      subst hw
      obtain ⟨o, ho, hr⟩ := forall2_get hs hl
      match o, hr with
      | some ps, hr =>
      simp only [step, Mem.destroy, Mem.obj, ho, Option.bind_eq_bind, Option.bind_some, id] at hm
      cases h1 : Mem.deleteLoop ps m with
      | none => rw [h1] at hm; simp at hm
      | some m1 =>
        rw [h1, Option.bind_some] at hm
        injection hm with hm
        subst hm
        obtain ⟨c1, c2⟩ := deleteLoop_count ps m m1 h1
        dsimp only
        rw [c2]
        refine ⟨forall2_set hs d rfl, ?_⟩
        obtain ⟨A, B, hO, hA⟩ := split_at ho
        have e1 : flat m.objs = flat A ++ (ps ++ flat B) := by rw [hO]; simp [flat]
        have e2 : flat (m.objs.set d none) = flat A ++ flat B := by
          rw [hO, List.set_append_right _ _ (by omega), ← hA]; simp [flat]
        rw [e1] at hk
        rw [e2]
        simp only [List.length_append, weight] at hk ⊢
        omega
    · simp at hw

theorem run_count : ∀ (ops : List (Op α)) {m m' : Mem α} {v w : List (Option (List α))} (k : Nat), Sz m.objs v →
    vrun v ops = some w → (∀ op ∈ ops, NoAssign op) → run m ops = some m' → (flat m.objs).length = nlive m.cells + k →
    Sz m'.objs w ∧ (flat m'.objs).length = nlive m'.cells + (k + copied v ops) := by
  intro ops
  induction ops with
  | nil =>
    intro m m' v w k hs hw _ hm hk
    simp only [vrun, List.foldlM_nil] at hw
    simp only [run, List.foldlM_nil] at hm
    injection hw with hw
    injection hm with hm
    subst hw hm
    exact ⟨hs, by simpa [copied] using hk⟩
  | cons op ops ih =>
    intro m m' v w k hs hw ha hm hk
    simp only [vrun, List.foldlM_cons] at hw
    simp only [run, List.foldlM_cons] at hm
    cases h1 : vstep v op with
    | none => rw [h1] at hw; simp at hw
    | some u =>
      rw [h1] at hw
      cases h2 : step m op with
      | none => rw [h2] at hm; simp at hm
      | some m1 =>
        rw [h2] at hm
        obtain ⟨s1, s2⟩ := step_count hs h1 (ha op (by simp)) h2 k hk
        obtain ⟨t1, t2⟩ := ih _ s1 hw (fun op' h' => ha op' (by simp [h'])) hm s2
        refine ⟨t1, ?_⟩
        rw [t2]
        simp only [copied, h1]
        omega

end Snob.Shallow
