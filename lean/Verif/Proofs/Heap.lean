import Verif.Spec.Heap
import Mathlib.Tactic

/-! Proofs about the memory of partitions and permutations. -/

namespace Snob.Heap

/-- The object `x` holds the list `l`. -/
def IsVal (B : List (Option Arr)) (x : Obj) (l : List Int) : Prop :=
  x.k = l.length ∧ (x.p = none → l = []) ∧ ∀ a, x.p = some a → B[a]? = some (some (l.map some))

/-- The state of an object is as expected. -/
def St (B : List (Option Arr)) : Option Obj → Val → Prop
  | o, .gone => o = none
  | o, .moved => ∃ k, o = some ⟨k, none⟩
  | o, .val l => ∃ x, o = some x ∧ IsVal B x l

/-- Every live block has exactly one owner, and the objects hold what is expected. -/
structure Ok (B : List (Option Arr)) (O : List (Option Obj)) (v : List Val) : Prop where
  len : O.length = v.length
  st : ∀ (d : Nat) o s, O[d]? = some o → v[d]? = some s → St B o s
  inj : ∀ (d e : Nat) x y a, O[d]? = some (some x) → O[e]? = some (some y) → x.p = some a → y.p = some a → d = e
  cov : ∀ (a : Nat) b, B[a]? = some (some b) → ∃ (d : Nat) (x : Obj), O[d]? = some (some x) ∧ x.p = some a

variable {B : List (Option Arr)} {O : List (Option Obj)} {v : List Val}

theorem Ok.get (h : Ok B O v) {d : Nat} {s : Val} (hs : v[d]? = some s) : ∃ o, O[d]? = some o ∧ St B o s := by
  have hd : d < v.length := (List.getElem?_eq_some_iff.1 hs).1
  have hd' : d < O.length := by rw [h.len]; exact hd
  exact ⟨O[d], List.getElem?_eq_getElem hd', h.st d _ _ (List.getElem?_eq_getElem hd') hs⟩

/-- a pointer of an object points to a live block -/
theorem Ok.live (h : Ok B O v) {d : Nat} {x : Obj} {a : Nat} (hx : O[d]? = some (some x)) (ha : x.p = some a) :
    ∃ b, B[a]? = some (some b) := by
  have hd : d < O.length := (List.getElem?_eq_some_iff.1 hx).1
  have hd' : d < v.length := by rw [← h.len]; exact hd
  have := h.st d _ _ hx (List.getElem?_eq_getElem hd')
  revert this
  cases hv : v[d] with
  | gone => intro h; simp [St] at h
  | moved =>
    rintro ⟨k, hk⟩
    injection hk with hk
    subst hk
    simp at ha
  | val l =>
    rintro ⟨y, hy, _, _, h3⟩
    injection hy with hy
    subst hy
    exact ⟨_, h3 a ha⟩

theorem St.mono {B B' : List (Option Arr)} {o : Option Obj} {s : Val} (h : St B o s)
    (hB : ∀ x a b, o = some x → x.p = some a → B[a]? = some (some b) → B'[a]? = some (some b)) : St B' o s := by
  cases s with
  | gone => exact h
  | moved => exact h
  | val l =>
    obtain ⟨x, rfl, h1, h2, h3⟩ := h
    exact ⟨x, rfl, h1, h2, fun a ha => hB x a _ rfl ha (h3 a ha)⟩

theorem getElem?_push {α : Type} (l : List α) (x : α) (i : Nat) :
    (l ++ [x])[i]? = if i = l.length then some x else l[i]? := by
  rcases Nat.lt_trichotomy i l.length with h | h | h
  · rw [List.getElem?_append_left h, if_neg (by omega)]
  · subst h; simp
  · rw [if_neg (by omega), List.getElem?_eq_none (by simp; omega), List.getElem?_eq_none (by omega)]

theorem Ok.pushGone (h : Ok B O v) : Ok B (O ++ [none]) (v ++ [.gone]) := by
  refine ⟨by simp [h.len], ?_, ?_, ?_⟩
  · intro d o s ho hs
    rw [getElem?_push] at ho hs
    rw [h.len] at ho
    split at ho
    · rename_i e
      rw [if_pos e] at hs
      injection ho with ho; injection hs with hs
      subst ho hs; rfl
    · rename_i e
      rw [if_neg e] at hs
      exact h.st d o s ho hs
  · intro d e x y a hx hy
    rw [getElem?_push] at hx hy
    split at hx
    · simp at hx
    · split at hy
      · simp at hy
      · exact h.inj d e x y a hx hy
  · intro a b hb
    obtain ⟨d, x, hx, hp⟩ := h.cov a b hb
    refine ⟨d, x, ?_, hp⟩
    rw [List.getElem?_append_left (List.getElem?_eq_some_iff.1 hx).1]
    exact hx

theorem Ok.junk (h : Ok B O v) : Ok (B ++ [none]) O v := by
  refine ⟨h.len, ?_, h.inj, ?_⟩
  · intro d o s ho hs
    refine (h.st d o s ho hs).mono fun x a b _ _ hb => ?_
    rw [List.getElem?_append_left (List.getElem?_eq_some_iff.1 hb).1]
    exact hb
  · intro a b hb
    rw [getElem?_push] at hb
    split at hb
    · simp at hb
    · exact h.cov a b hb

/-- the blocks after `delete[] p` -/
def freeB (B : List (Option Arr)) : Option Nat → List (Option Arr)
  | none => B
  | some a => B.set a none

theorem freeB_get (B : List (Option Arr)) (p : Option Nat) (a : Nat) (b : Arr) :
    (freeB B p)[a]? = some (some b) ↔ B[a]? = some (some b) ∧ p ≠ some a := by
  cases p with
  | none => simp [freeB]
  | some c =>
    simp only [freeB, List.getElem?_set]
    by_cases e : c = a
    · subst e
      simp only [if_true]
      split <;> simp
    · simp [e]

theorem freeB_length (B : List (Option Arr)) (p : Option Nat) : (freeB B p).length = B.length := by
  cases p <;> simp [freeB]

theorem Ok.release (h : Ok B O v) {d : Nat} {x : Obj} (hx : O[d]? = some (some x)) :
    Ok (freeB B x.p) (O.set d none) (v.set d .gone) := by
  have hd : d < O.length := (List.getElem?_eq_some_iff.1 hx).1
  refine ⟨by simp [h.len], ?_, ?_, ?_⟩
  · intro e o s ho hs
    rw [List.getElem?_set] at ho hs
    by_cases hde : d = e
    · subst hde
      rw [if_pos rfl, if_pos hd] at ho
      rw [if_pos rfl, if_pos (by rw [← h.len]; exact hd)] at hs
      injection ho with ho; injection hs with hs
      subst ho hs; rfl
    · rw [if_neg hde] at ho hs
      refine (h.st e o s ho hs).mono fun y a b hy hya hb => ?_
      subst hy
      rw [freeB_get]
      refine ⟨hb, fun hxa => hde (h.inj d e x y a hx ho hxa hya)⟩
  · intro e f y z a hy hz
    rw [List.getElem?_set] at hy hz
    by_cases hde : d = e
    · rw [if_pos hde] at hy; split at hy <;> simp at hy
    · by_cases hdf : d = f
      · rw [if_pos hdf] at hz; split at hz <;> simp at hz
      · rw [if_neg hde] at hy; rw [if_neg hdf] at hz
        exact h.inj e f y z a hy hz
  · intro a b hb
    rw [freeB_get] at hb
    obtain ⟨e, y, hy, hp⟩ := h.cov a b hb.1
    refine ⟨e, y, ?_, hp⟩
    rw [List.getElem?_set, if_neg]
    · exact hy
    · rintro rfl
      rw [hx] at hy
      injection hy with hy; injection hy with hy
      subst hy
      exact hb.2 hp

theorem Ok.place (h : Ok B O v) {d : Nat} (hd : v[d]? = some .gone) (l : List Int) :
    Ok (B ++ [some (l.map some)]) (O.set d (some ⟨l.length, some B.length⟩)) (v.set d (.val l)) := by
  have hdv : d < v.length := (List.getElem?_eq_some_iff.1 hd).1
  have hdo : d < O.length := by rw [h.len]; exact hdv
  refine ⟨by simp [h.len], ?_, ?_, ?_⟩
  · intro e o s ho hs
    rw [List.getElem?_set] at ho hs
    by_cases hde : d = e
    · subst hde
      rw [if_pos rfl, if_pos hdo] at ho
      rw [if_pos rfl, if_pos hdv] at hs
      injection ho with ho; injection hs with hs
      subst ho hs
      refine ⟨_, rfl, rfl, by simp, ?_⟩
      intro a ha
      injection ha with ha
      subst ha
      simp
    · rw [if_neg hde] at ho hs
      refine (h.st e o s ho hs).mono fun y a b hy hya hb => ?_
      rw [List.getElem?_append_left (List.getElem?_eq_some_iff.1 hb).1]
      exact hb
  · have key : ∀ e y a, (O.set d (some ⟨l.length, some B.length⟩))[e]? = some (some y) → y.p = some a →
        (e = d ∧ a = B.length) ∨ (e ≠ d ∧ O[e]? = some (some y) ∧ a < B.length) := by
      intro e y a hy hp
      rw [List.getElem?_set] at hy
      by_cases hde : d = e
      · rw [if_pos hde, if_pos hdo] at hy
        injection hy with hy; injection hy with hy
        subst hy
        injection hp with hp
        exact Or.inl ⟨hde.symm, hp.symm⟩
      · rw [if_neg hde] at hy
        obtain ⟨b, hb⟩ := h.live hy hp
        exact Or.inr ⟨Ne.symm hde, hy, (List.getElem?_eq_some_iff.1 hb).1⟩
    intro e f y z a hy hz hya hza
    rcases key e y a hy hya with h1 | h1 <;> rcases key f z a hz hza with h2 | h2
    · rw [h1.1, h2.1]
    · exact absurd h2.2.2 (by rw [h1.2]; exact lt_irrefl _)
    · exact absurd h1.2.2 (by rw [h2.2]; exact lt_irrefl _)
    · exact h.inj e f y z a h1.2.1 h2.2.1 hya hza
  · intro a b hb
    rw [getElem?_push] at hb
    split at hb
    · rename_i e
      exact ⟨d, _, by rw [List.getElem?_set, if_pos rfl, if_pos hdo], by rw [e]⟩
    · obtain ⟨e, y, hy, hp⟩ := h.cov a b hb
      refine ⟨e, y, ?_, hp⟩
      rw [List.getElem?_set, if_neg]
      · exact hy
      · rintro rfl
        have := h.st _ _ _ hy hd
        simp [St] at this

theorem Ok.placeNull (h : Ok B O v) {d : Nat} (hd : v[d]? = some .gone) (k : Nat) (s : Val)
    (hs : St B (some ⟨k, none⟩) s) : Ok B (O.set d (some ⟨k, none⟩)) (v.set d s) := by
  have hdv : d < v.length := (List.getElem?_eq_some_iff.1 hd).1
  have hdo : d < O.length := by rw [h.len]; exact hdv
  refine ⟨by simp [h.len], ?_, ?_, ?_⟩
  · intro e o s' ho hs'
    rw [List.getElem?_set] at ho hs'
    by_cases hde : d = e
    · subst hde
      rw [if_pos rfl, if_pos hdo] at ho
      rw [if_pos rfl, if_pos hdv] at hs'
      injection ho with ho; injection hs' with hs'
      subst ho hs'
      exact hs
    · rw [if_neg hde] at ho hs'
      exact h.st e o s' ho hs'
  · have key : ∀ (e : Nat) (y : Obj) a, (O.set d (some ⟨k, none⟩))[e]? = some (some y) → y.p = some a → O[e]? = some (some y) := by
      intro e y a hy hp
      rw [List.getElem?_set] at hy
      by_cases hde : d = e
      · rw [if_pos hde, if_pos hdo] at hy
        injection hy with hy; injection hy with hy
        subst hy
        simp at hp
      · rwa [if_neg hde] at hy
    intro e f y z a hy hz hya hza
    exact h.inj e f y z a (key e y a hy hya) (key f z a hz hza) hya hza
  · intro a b hb
    obtain ⟨e, y, hy, hp⟩ := h.cov a b hb
    refine ⟨e, y, ?_, hp⟩
    rw [List.getElem?_set, if_neg]
    · exact hy
    · rintro rfl
      have := h.st _ _ _ hy hd
      simp [St] at this

theorem Ok.transfer (h : Ok B O v) {d s : Nat} {x : Obj} {w : Val} (hd : v[d]? = some .gone) (hx : O[s]? = some (some x))
    (hw : v[s]? = some w) : Ok B ((O.set d (some x)).set s (some { x with p := none })) ((v.set d w).set s .moved) := by
  have hdv : d < v.length := (List.getElem?_eq_some_iff.1 hd).1
  have hdo : d < O.length := by rw [h.len]; exact hdv
  have hsv : s < v.length := (List.getElem?_eq_some_iff.1 hw).1
  have hso : s < O.length := by rw [h.len]; exact hsv
  have hds : d ≠ s := by
    rintro rfl
    have := h.st _ _ _ hx hd
    simp [St] at this
  have hO : ∀ e, ((O.set d (some x)).set s (some { x with p := none }))[e]? =
      if s = e then some (some { x with p := none }) else if d = e then some (some x) else O[e]? := by
    intro e
    rw [List.getElem?_set, List.getElem?_set]
    split
    · rw [if_pos (by simpa using hso)]
    · split
      · rfl
      · rfl
  have hv : ∀ e, ((v.set d w).set s .moved)[e]? = if s = e then some .moved else if d = e then some w else v[e]? := by
    intro e
    rw [List.getElem?_set, List.getElem?_set]
    split
    · rw [if_pos (by simpa using hsv)]
    · split
      · rfl
      · rfl
  refine ⟨by simp [h.len], ?_, ?_, ?_⟩
  · intro e o s' ho hs'
    rw [hO] at ho; rw [hv] at hs'
    split at ho
    · rename_i e1
      rw [if_pos e1] at hs'
      injection ho with ho; injection hs' with hs'
      subst ho hs'
      exact ⟨x.k, rfl⟩
    · rename_i e1
      rw [if_neg e1] at hs'
      split at ho
      · rename_i e2
        rw [if_pos e2] at hs'
        injection ho with ho; injection hs' with hs'
        subst ho hs'
        exact h.st s _ _ hx hw
      · rename_i e2
        rw [if_neg e2] at hs'
        exact h.st e o s' ho hs'
  · have key : ∀ e y a, ((O.set d (some x)).set s (some { x with p := none }))[e]? = some (some y) → y.p = some a →
        (e = d ∧ x.p = some a) ∨ (e ≠ d ∧ e ≠ s ∧ O[e]? = some (some y)) := by
      intro e y a hy hp
      rw [hO] at hy
      split at hy
      · injection hy with hy; injection hy with hy
        subst hy
        simp at hp
      · rename_i e1
        split at hy
        · rename_i e2
          injection hy with hy; injection hy with hy
          subst hy
          exact Or.inl ⟨e2.symm, hp⟩
        · rename_i e2
          exact Or.inr ⟨Ne.symm e2, Ne.symm e1, hy⟩
    intro e f y z a hy hz hya hza
    rcases key e y a hy hya with h1 | h1 <;> rcases key f z a hz hza with h2 | h2
    · rw [h1.1, h2.1]
    · exact absurd (h.inj s f x z a hx h2.2.2 h1.2 hza) (Ne.symm h2.2.1)
    · exact absurd (h.inj s e x y a hx h1.2.2 h2.2 hya) (Ne.symm h1.2.1)
    · exact h.inj e f y z a h1.2.2 h2.2.2 hya hza
  · intro a b hb
    obtain ⟨e, y, hy, hp⟩ := h.cov a b hb
    by_cases hes : e = s
    · subst hes
      rw [hx] at hy
      injection hy with hy; injection hy with hy
      subst hy
      exact ⟨d, x, by rw [hO, if_neg (Ne.symm hds), if_pos rfl], hp⟩
    · refine ⟨e, y, ?_, hp⟩
      rw [hO, if_neg (Ne.symm hes), if_neg]
      · exact hy
      · rintro rfl
        have := h.st _ _ _ hy hd
        simp [St] at this

theorem Ok.write (h : Ok B O v) {d : Nat} {x : Obj} {a : Nat} {l l' : List Int} (hx : O[d]? = some (some x))
    (ha : x.p = some a) (hv : v[d]? = some (.val l)) (hl : l'.length = l.length) :
    Ok (B.set a (some (l'.map some))) O (v.set d (.val l')) := by
  have hdv : d < v.length := (List.getElem?_eq_some_iff.1 hv).1
  obtain ⟨b, hb⟩ := h.live hx ha
  have haB : a < B.length := (List.getElem?_eq_some_iff.1 hb).1
  refine ⟨by simp [h.len], ?_, h.inj, ?_⟩
  · intro e o s ho hs
    rw [List.getElem?_set] at hs
    by_cases hde : d = e
    · subst hde
      rw [if_pos rfl, if_pos hdv] at hs
      injection hs with hs
      subst hs
      rw [hx] at ho
      injection ho with ho
      subst ho
      obtain ⟨y, hy, h1, h2, h3⟩ := h.st _ _ _ hx hv
      injection hy with hy
      subst hy
      refine ⟨_, rfl, by rw [h1, hl], fun hn => by rw [ha] at hn; simp at hn, fun c hc => ?_⟩
      rw [ha] at hc
      injection hc with hc
      subst hc
      rw [List.getElem?_set, if_pos rfl, if_pos haB]
    · rw [if_neg hde] at hs
      refine (h.st e o s ho hs).mono fun y c b hy hyc hb => ?_
      subst hy
      rw [List.getElem?_set, if_neg]
      · exact hb
      · rintro rfl
        exact hde (h.inj d e x y a hx ho ha hyc)
  · intro c b hb
    rw [List.getElem?_set] at hb
    by_cases hac : a = c
    · subst hac
      exact ⟨d, x, hx, ha⟩
    · rw [if_neg hac] at hb
      exact h.cov c b hb

/-! ### The loops -/

theorem store_some {m : Mem} {a : Nat} {b : Arr} (hb : m.blocks[a]? = some (some b)) (i : Nat) (hi : i < b.length) (x : Int) :
    m.store (some a) i x = some { m with blocks := m.blocks.set a (some (b.set i (some x))) } := by
  simp [Mem.store, hb, wr, hi]

theorem load_some {m : Mem} {a : Nat} {b : Arr} (hb : m.blocks[a]? = some (some b)) (i : Nat) (x : Int)
    (hi : b[i]? = some (some x)) : m.load (some a) i = some x := by
  simp [Mem.load, hb, rd, hi]

theorem set_mid (p q : List (Option Int)) (y x : Option Int) : (p ++ y :: q).set p.length x = p ++ x :: q := by
  rw [List.set_append_right _ _ (le_refl _)]; simp

theorem fillLoop_eq (a : Nat) : ∀ (l pre : List Int) (m : Mem),
    m.blocks[a]? = some (some (pre.map some ++ raw l.length)) →
    Mem.fillLoop (some a) l pre.length m = some { m with blocks := m.blocks.set a (some ((pre ++ l).map some)) } := by
  intro l
  induction l with
  | nil =>
    intro pre m hm
    have ha : a < m.blocks.length := (List.getElem?_eq_some_iff.1 hm).1
    simp only [raw, List.length_nil, List.replicate_zero, List.append_nil] at hm
    have : m.blocks.set a (some (pre.map some)) = m.blocks := by
      refine List.ext_getElem? fun i => ?_
      rw [List.getElem?_set]
      split
      · rename_i e; subst e; rw [hm]
      · rfl
    simp [Mem.fillLoop, this]
  | cons x l ih =>
    intro pre m hm
    have ha : a < m.blocks.length := (List.getElem?_eq_some_iff.1 hm).1
    rw [Mem.fillLoop, store_some hm pre.length (by simp [raw]) x]
    have e : (pre.map some ++ raw (x :: l).length).set pre.length (some x) = (pre ++ [x]).map some ++ raw l.length := by
      have h0 : raw (x :: l).length = none :: raw l.length := by simp [raw, List.replicate_succ]
      rw [h0]
      have := set_mid (pre.map some) (raw l.length) none (some x)
      rw [List.length_map] at this
      rw [this]
      simp
    rw [e]
    have := ih (pre ++ [x]) { m with blocks := m.blocks.set a (some ((pre ++ [x]).map some ++ raw l.length)) } (by simp [ha])
    simp only [List.length_append, List.length_cons, List.length_nil, List.set_set, List.append_assoc, List.cons_append,
      List.nil_append] at this
    exact this

theorem make_eq (m : Mem) (l : List Int) :
    m.make l = some ⟨m.blocks ++ [some (l.map some)], m.objs ++ [some ⟨l.length, some m.blocks.length⟩]⟩ := by
  unfold Mem.make Mem.alloc
  have := fillLoop_eq m.blocks.length l [] { m with blocks := m.blocks ++ [some (raw l.length)] } (by simp)
  simp only [List.length_nil, List.nil_append] at this
  simp only [this]
  simp [List.set_append_right]

theorem copyLoop_eq (a : Nat) : ∀ (l pre : List Int) (p : Option Nat) (m : Mem), p ≠ some a →
    (pre ++ l ≠ [] → ∃ c, p = some c ∧ m.blocks[c]? = some (some ((pre ++ l).map some))) →
    m.blocks[a]? = some (some (pre.map some ++ raw l.length)) →
    Mem.copyLoop (some a) p (List.range' pre.length l.length) m =
      some { m with blocks := m.blocks.set a (some ((pre ++ l).map some)) } := by
  intro l
  induction l with
  | nil =>
    intro pre p m _ _ hm
    have ha : a < m.blocks.length := (List.getElem?_eq_some_iff.1 hm).1
    simp only [raw, List.length_nil, List.replicate_zero, List.append_nil] at hm
    have : m.blocks.set a (some (pre.map some)) = m.blocks := by
      refine List.ext_getElem? fun i => ?_
      rw [List.getElem?_set]
      split
      · rename_i e; subst e; rw [hm]
      · rfl
    simp [Mem.copyLoop, this]
  | cons x l ih =>
    intro pre p m hp hsrc hm
    have ha : a < m.blocks.length := (List.getElem?_eq_some_iff.1 hm).1
    obtain ⟨c, rfl, hc⟩ := hsrc (by simp)
    have hca : a ≠ c := fun e => hp (by rw [e])
    rw [List.length_cons, List.range'_succ, Mem.copyLoop, load_some hc pre.length x (by simp)]
    change Option.bind (m.store (some a) (pre.length : Int) x) _ = _
    rw [store_some hm pre.length (by simp [raw]) x]
    have e : (pre.map some ++ raw (x :: l).length).set pre.length (some x) = (pre ++ [x]).map some ++ raw l.length := by
      have h0 : raw (x :: l).length = none :: raw l.length := by simp [raw, List.replicate_succ]
      rw [h0]
      have := set_mid (pre.map some) (raw l.length) none (some x)
      rw [List.length_map] at this
      rw [this]
      simp
    rw [e]
    have := ih (pre ++ [x]) (some c) { m with blocks := m.blocks.set a (some ((pre ++ [x]).map some ++ raw l.length)) } hp
      (fun _ => ⟨c, rfl, by
        rw [List.getElem?_set, if_neg hca, hc]
        simp⟩) (by simp [ha])
    simp only [List.length_append, List.length_cons, List.length_nil, List.set_set, List.append_assoc, List.cons_append,
      List.nil_append] at this
    exact this

theorem copyLoop_range {m : Mem} {x : Obj} {l : List Int} (hx : IsVal m.blocks x l) :
    Mem.copyLoop (some m.blocks.length) x.p (List.range x.k) { m with blocks := m.blocks ++ [some (raw x.k)] } =
      some { m with blocks := m.blocks ++ [some (l.map some)] } := by
  obtain ⟨h1, h2, h3⟩ := hx
  have hp : x.p ≠ some m.blocks.length := by
    intro e
    have := h3 _ e
    simp at this
  have := copyLoop_eq m.blocks.length l [] x.p { m with blocks := m.blocks ++ [some (raw x.k)] } hp (by
    intro hl
    cases hxp : x.p with
    | none => exact absurd (h2 hxp) (by simpa using hl)
    | some c =>
      refine ⟨c, rfl, ?_⟩
      have hc := h3 c hxp
      rw [List.getElem?_append_left (List.getElem?_eq_some_iff.1 hc).1, hc]
      simp) (by simp [h1])
  simp only [List.length_nil, List.nil_append] at this
  rw [h1, List.range_eq_range']
  rw [h1] at this
  rw [this]
  simp [List.set_append_right]

theorem copyOf_eq {m : Mem} {x : Obj} {l : List Int} (hx : IsVal m.blocks x l) :
    m.copyOf x = some ({ m with blocks := m.blocks ++ [some (l.map some)] }, ⟨l.length, some m.blocks.length⟩) := by
  unfold Mem.copyOf Mem.alloc
  simp only [copyLoop_range hx]
  simp [hx.1]

theorem free_eq {m : Mem} {p : Option Nat} (h : ∀ a, p = some a → ∃ b, m.blocks[a]? = some (some b)) :
    m.free p = some { m with blocks := freeB m.blocks p } := by
  cases p with
  | none => rfl
  | some a =>
    obtain ⟨b, hb⟩ := h a rfl
    simp [Mem.free, hb, freeB]

theorem obj_eq {m : Mem} {d : Nat} {x : Obj} (h : m.objs[d]? = some (some x)) : m.obj d = some x := by
  simp [Mem.obj, h]

theorem set_nop {α : Type} {l : List α} {d : Nat} {x : α} (h : l[d]? = some x) : l.set d x = l := by
  refine List.ext_getElem? fun i => ?_
  rw [List.getElem?_set]
  split
  · rename_i e; subst e; rw [if_pos (List.getElem?_eq_some_iff.1 h).1, h]
  · rfl

theorem set_push {α : Type} (l : List α) (x y : α) : (l ++ [x]).set l.length y = l ++ [y] := by
  rw [List.set_append_right _ _ (le_refl _)]; simp

/-- One statement. -/
theorem step_ok (c : Cls) {m : Mem} {v w : List Val} (h : Ok m.blocks m.objs v) (op : Op) (hw : vstep c v op = some w) :
    ∃ m', step c m op = some m' ∧ Ok m'.blocks m'.objs w := by
  cases op with
  | default =>
    simp only [vstep] at hw
    split at hw
    · rename_i hc
      injection hw with hw
      subst hw
      refine ⟨m.default, by simp [step, hc], ?_⟩
      have := h.pushGone.placeNull (d := v.length) (by simp) 0 (.val []) ⟨_, rfl, rfl, fun _ => rfl, by simp⟩
      rw [set_push, ← h.len, set_push] at this
      exact this
    · simp at hw
  | make l =>
    simp only [vstep] at hw
    injection hw with hw
    subst hw
    refine ⟨_, make_eq m l, ?_⟩
    have := h.pushGone.place (d := v.length) (by simp) l
    rw [set_push, ← h.len, set_push] at this
    exact this
  | copy s =>
    simp only [vstep] at hw
    split at hw
    · rename_i l hs
      injection hw with hw
      subst hw
      obtain ⟨o, ho, x, rfl, hx⟩ := h.get hs
      refine ⟨⟨m.blocks ++ [some (l.map some)], m.objs ++ [some ⟨l.length, some m.blocks.length⟩]⟩, ?_, ?_⟩
      · simp only [step, Mem.copy, obj_eq ho, Option.bind_eq_bind, Option.bind_some, copyOf_eq hx]
      · have := h.pushGone.place (d := v.length) (by simp) l
        rw [set_push, ← h.len, set_push] at this
        exact this
    · simp at hw
  | move s =>
    have main : ∀ u, v[s]? = some u → u ≠ .gone → ∃ m', step c m (.move s) = some m' ∧
        Ok m'.blocks m'.objs (v.set s .moved ++ [u]) := by
      intro u hu hg
      have hsv : s < v.length := (List.getElem?_eq_some_iff.1 hu).1
      have hso : s < m.objs.length := by rw [h.len]; exact hsv
      obtain ⟨o, ho, hst⟩ := h.get hu
      have : ∃ x, o = some x := by
        cases u with
        | gone => exact absurd rfl hg
        | moved => exact ⟨_, hst.choose_spec⟩
        | val l => exact ⟨_, hst.choose_spec.1⟩
      obtain ⟨x, rfl⟩ := this
      refine ⟨⟨m.blocks, m.objs.set s (some { x with p := none }) ++ [some x]⟩, ?_, ?_⟩
      · simp only [step, Mem.move, obj_eq ho, Option.bind_eq_bind, Option.bind_some]
      · have := h.pushGone.transfer (d := v.length) (s := s) (x := x) (w := u) (by simp)
          (by rw [List.getElem?_append_left hso]; exact ho) (by rw [List.getElem?_append_left hsv]; exact hu)
        rw [set_push, ← h.len, set_push, List.set_append_left _ _ hso, List.set_append_left _ _ hsv] at this
        exact this
    simp only [vstep] at hw
    split at hw
    · rename_i l hs
      injection hw with hw
      subst hw
      exact main _ hs (by simp)
    · rename_i hs
      injection hw with hw
      subst hw
      obtain ⟨m', h1, h2⟩ := main _ hs (by simp)
      rw [set_nop hs] at h2
      exact ⟨m', h1, h2⟩
    · simp at hw
  | assign d s =>
    have main : ∀ u l, v[d]? = some u → u ≠ .gone → v[s]? = some (.val l) → d ≠ s → ∃ m', step c m (.assign d s) = some m' ∧
        Ok m'.blocks m'.objs (v.set d (.val l)) := by
      intro u l hu hg hl hds
      have hdv : d < v.length := (List.getElem?_eq_some_iff.1 hu).1
      have hdo : d < m.objs.length := by rw [h.len]; exact hdv
      obtain ⟨o, ho, hst⟩ := h.get hu
      have : ∃ y, o = some y := by
        cases u with
        | gone => exact absurd rfl hg
        | moved => exact ⟨_, hst.choose_spec⟩
        | val l => exact ⟨_, hst.choose_spec.1⟩
      obtain ⟨y, rfl⟩ := this
      have h1 := h.release ho
      have hs' : (v.set d .gone)[s]? = some (.val l) := by rw [List.getElem?_set, if_neg hds]; exact hl
      obtain ⟨o, hxo, x, rfl, hx⟩ := h1.get hs'
      have hxo' : m.objs[s]? = some (some x) := by rwa [List.getElem?_set, if_neg hds] at hxo
      have h2 := h1.place (d := d) (by simp [hdv]) l
      rw [List.set_set, List.set_set] at h2
      have hfree : m.free y.p = some { m with blocks := freeB m.blocks y.p } := free_eq fun a ha => h.live ho ha
      have hcopy := copyLoop_range (m := ⟨freeB m.blocks y.p, m.objs.set d (some ⟨x.k, some (freeB m.blocks y.p).length⟩)⟩)
        (x := x) hx
      have hobj : Mem.obj ⟨freeB m.blocks y.p ++ [some (raw x.k)], m.objs.set d (some ⟨x.k, some (freeB m.blocks y.p).length⟩)⟩ s =
          some x := obj_eq (by
        change (m.objs.set d _)[s]? = _
        rw [List.getElem?_set, if_neg hds]; exact hxo')
      cases c with
      | partition =>
        refine ⟨⟨freeB m.blocks y.p ++ [some (l.map some)], m.objs.set d (some ⟨l.length, some (freeB m.blocks y.p).length⟩)⟩, ?_, h2⟩
        simp only [step, Mem.assign, obj_eq ho, obj_eq hxo', Option.bind_eq_bind, Option.bind_some, hfree, Mem.alloc, hobj, hcopy]
        rw [hx.1]
      | permutation =>
        have hdd : (v.set d (.val l))[d]? = some (.val l) := by simp [hdv]
        obtain ⟨o, hzo, z, rfl, hz⟩ := h2.get hdd
        have hzz : z = ⟨l.length, some (freeB m.blocks y.p).length⟩ := by
          rw [List.getElem?_set, if_pos rfl, if_pos hdo] at hzo
          injection hzo with hzo; injection hzo with hzo
          exact hzo.symm
        have hcp := copyOf_eq (m := ⟨freeB m.blocks y.p ++ [some (l.map some)], m.objs.set d (some ⟨l.length, some (freeB m.blocks y.p).length⟩)⟩) hz
        have hod : Mem.obj ⟨freeB m.blocks y.p ++ [some (l.map some)], m.objs.set d (some ⟨l.length, some (freeB m.blocks y.p).length⟩)⟩ d =
          some z := obj_eq hzo
        refine ⟨⟨(freeB m.blocks y.p ++ [some (l.map some)]) ++ [none], m.objs.set d (some ⟨l.length, some (freeB m.blocks y.p).length⟩)⟩, ?_, h2.junk⟩
        simp only [step, Mem.assign, obj_eq ho, obj_eq hxo', Option.bind_eq_bind, Option.bind_some, hfree, Mem.alloc, hobj, hcopy]
        rw [hx.1, hod]
        simp only [Option.bind_some, hcp]
        rw [free_eq (by
          intro a ha
          injection ha with ha
          subst ha
          exact ⟨l.map some, by simp⟩)]
        simp only [freeB]
        have hfin : ∀ (L : List (Option Arr)) (x y : Option Arr), (L ++ [x]).set L.length y = L ++ [y] := fun L x y => set_push L x y
        rw [hfin]
    simp only [vstep] at hw
    split at hw
    · simp at hw
    · rename_i u l hu hg hl
      split at hw
      · simp at hw
      · rename_i hds
        injection hw with hw
        subst hw
        exact main u l hg (by rintro rfl; simp_all) hl hds
    · simp at hw
  | moveAssign d s =>
    have hsome : ∀ (i : Nat) u, v[i]? = some u → u ≠ .gone → ∃ y, m.objs[i]? = some (some y) := by
      intro i u hu hg
      obtain ⟨o, ho, hst⟩ := h.get hu
      cases u with
      | gone => exact absurd rfl hg
      | moved => exact ⟨_, by rw [ho, hst.choose_spec]⟩
      | val l => exact ⟨_, by rw [ho, hst.choose_spec.1]⟩
    have main : ∀ u u', v[d]? = some u → u ≠ .gone → v[s]? = some u' → u' ≠ .gone → d ≠ s →
        ∃ m', step c m (.moveAssign d s) = some m' ∧ Ok m'.blocks m'.objs ((v.set d u').set s .moved) := by
      intro u u' hu hg hu' hg' hds
      have hdv : d < v.length := (List.getElem?_eq_some_iff.1 hu).1
      obtain ⟨y, ho⟩ := hsome d u hu hg
      obtain ⟨x, hx⟩ := hsome s u' hu' hg'
      have h1 := (h.release ho).transfer (d := d) (s := s) (x := x) (w := u') (by simp [hdv])
        (by rw [List.getElem?_set, if_neg hds]; exact hx) (by rw [List.getElem?_set, if_neg hds]; exact hu')
      rw [List.set_set, List.set_set] at h1
      refine ⟨⟨freeB m.blocks y.p, (m.objs.set d (some x)).set s (some { x with p := none })⟩, ?_, h1⟩
      simp only [step, Mem.moveAssign, obj_eq ho, obj_eq hx, Option.bind_eq_bind, Option.bind_some, if_neg hds,
        free_eq fun a ha => h.live ho ha]
    have self : ∀ u, v[d]? = some u → u ≠ .gone → ∃ m', step c m (.moveAssign d d) = some m' ∧ Ok m'.blocks m'.objs v := by
      intro u hu hg
      obtain ⟨y, ho⟩ := hsome d u hu hg
      exact ⟨m, by simp [step, Mem.moveAssign, obj_eq ho], h⟩
    simp only [vstep] at hw
    split at hw
    · simp at hw
    · rename_i u l hu hg hl
      split at hw
      · rename_i hds
        injection hw with hw
        subst hw hds
        exact self _ hg (by rintro rfl; simp_all)
      · rename_i hds
        injection hw with hw
        subst hw
        exact main u _ hg (by rintro rfl; simp_all) hl (by simp) hds
    · rename_i u hu hg hl
      injection hw with hw
      subst hw
      by_cases hds : d = s
      · subst hds
        rw [set_nop hl]
        exact self _ hg (by rintro rfl; simp_all)
      · obtain ⟨m', h1, h2⟩ := main u _ hg (by rintro rfl; simp_all) hl (by simp) hds
        have : (v.set d .moved).set s .moved = v.set d .moved := set_nop (by rw [List.getElem?_set, if_neg hds]; exact hl)
        rw [this] at h2
        exact ⟨m', h1, h2⟩
    · simp at hw
  | set d r x =>
    simp only [vstep] at hw
    split at hw
    · rename_i l hl
      split at hw
      · rename_i hr
        injection hw with hw
        subst hw
        obtain ⟨o, ho, y, rfl, hy⟩ := h.get hl
        obtain ⟨r', rfl⟩ := Int.eq_ofNat_of_zero_le hr.1
        have hr' : r' < l.length := by exact_mod_cast hr.2
        cases hp : y.p with
        | none => rw [hy.2.1 hp] at hr'; simp at hr'
        | some a =>
          have hb := hy.2.2 a hp
          refine ⟨⟨m.blocks.set a (some ((l.set r' x).map some)), m.objs⟩, ?_, h.write (l' := l.set r' x) ho hp hl (by simp)⟩
          simp only [step, Mem.set, obj_eq ho, Option.bind_eq_bind, Option.bind_some, hp, store_some hb r' (by simpa using hr') x,
            List.map_set]
      · simp at hw
    · simp at hw
  | destroy d =>
    simp only [vstep] at hw
    split at hw
    · simp at hw
    · rename_i u hg hu
      injection hw with hw
      subst hw
      obtain ⟨o, ho, hst⟩ := h.get hu
      have : ∃ y, o = some y := by
        cases u with
        | gone => simp at hg
        | moved => exact ⟨_, hst.choose_spec⟩
        | val l => exact ⟨_, hst.choose_spec.1⟩
      obtain ⟨y, rfl⟩ := this
      refine ⟨⟨freeB m.blocks y.p, m.objs.set d none⟩, ?_, h.release ho⟩
      simp only [step, Mem.destroy, obj_eq ho, Option.bind_eq_bind, Option.bind_some, free_eq fun a ha => h.live ho ha]
    · simp at hw

/-- A program. -/
theorem run_ok (c : Cls) : ∀ (ops : List Op) {m : Mem} {v w : List Val}, Ok m.blocks m.objs v → vrun c v ops = some w →
    ∃ m', run c m ops = some m' ∧ Ok m'.blocks m'.objs w := by
  intro ops
  induction ops with
  | nil =>
    intro m v w h hw
    simp only [vrun, List.foldlM_nil] at hw
    injection hw with hw
    subst hw
    exact ⟨m, rfl, h⟩
  | cons op ops ih =>
    intro m v w h hw
    simp only [vrun, List.foldlM_cons] at hw
    cases h1 : vstep c v op with
    | none => rw [h1] at hw; simp at hw
    | some u =>
      rw [h1] at hw
      obtain ⟨m1, e1, h2⟩ := step_ok c h op h1
      obtain ⟨m2, e2, h3⟩ := ih h2 hw
      exact ⟨m2, by simp only [run, List.foldlM_cons, e1]; exact e2, h3⟩

theorem ok_nil : Ok (({} : Mem).blocks) (({} : Mem).objs) [] :=
  ⟨rfl, by simp, by simp, by simp⟩

theorem sumLoop_eq {m : Mem} {p : Option Nat} : ∀ (l pre : List Int) (n : Int),
    (pre ++ l ≠ [] → ∃ c, p = some c ∧ m.blocks[c]? = some (some ((pre ++ l).map some))) →
    m.sumLoop p (List.range' pre.length l.length) n = some (n + l.sum) := by
  intro l
  induction l with
  | nil => intro pre n _; simp [Mem.sumLoop]
  | cons x l ih =>
    intro pre n hs
    obtain ⟨c, rfl, hc⟩ := hs (by simp)
    rw [List.length_cons, List.range'_succ, Mem.sumLoop, load_some hc pre.length x (by simp)]
    have := ih (pre ++ [x]) (n + x) (fun _ => ⟨c, rfl, by rw [hc]; simp⟩)
    simp only [List.length_append, List.length_cons, List.length_nil] at this
    change Mem.sumLoop m (some c) _ (n + x) = _
    rw [List.sum_cons, ← add_assoc]
    exact this

theorem getn_eq {m : Mem} {d : Nat} {x : Obj} {l : List Int} (ho : m.objs[d]? = some (some x)) (hx : IsVal m.blocks x l) :
    m.getn d = some l.sum := by
  simp only [Mem.getn, obj_eq ho, Option.bind_eq_bind, Option.bind_some]
  have := sumLoop_eq (m := m) (p := x.p) l [] 0 (by
    intro hl
    cases hxp : x.p with
    | none => exact absurd (hx.2.1 hxp) (by simpa using hl)
    | some c => exact ⟨c, rfl, by rw [hx.2.2 c hxp]; simp⟩)
  rw [hx.1, List.range_eq_range']
  simpa using this

theorem get_eq {m : Mem} {d : Nat} {x : Obj} {l : List Int} (ho : m.objs[d]? = some (some x)) (hx : IsVal m.blocks x l)
    {r : Nat} (hr : r < l.length) : m.get d r = some l[r] := by
  simp only [Mem.get, obj_eq ho, Option.bind_eq_bind, Option.bind_some]
  cases hxp : x.p with
  | none => rw [hx.2.1 hxp] at hr; simp at hr
  | some c => exact load_some (hx.2.2 c hxp) r _ (by simp [hr])

theorem height_eq {m : Mem} {d : Nat} {x : Obj} {l : List Int} (ho : m.objs[d]? = some (some x)) (hx : IsVal m.blocks x l) :
    m.height d = some l.length := by
  simp [Mem.height, obj_eq ho, hx.1]

end Snob.Heap
