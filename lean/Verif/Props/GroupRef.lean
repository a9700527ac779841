import Verif.Spec.GroupRef
import Verif.Props.Groups

/-! # Property C121: products of groups and the lifetime of their factors -/

namespace Snob.Props

open Snob

/-! ### what is in memory -/

/-- The object at a place stands for a group. -/
inductive Stands (mem : Places) : Nat → GroupVal → Prop
  | factor {a f} (h : mem[a]? = some (some (.factor f))) : Stands mem a (.factor f)
  | prod {a b c s t} (h : mem[a]? = some (some (.product b c))) (hb : b < a) (hc : c < a) (h1 : Stands mem b s) (h2 : Stands mem c t) :
      Stands mem a (.prod s t)

theorem Stands.mono {mem mem' : Places} {a : Nat} {t : GroupVal} (h : Stands mem a t) (he : ∀ b ≤ a, mem'[b]? = mem[b]?) :
    Stands mem' a t := by
  induction h with
  | factor h => exact .factor (by rw [he _ (le_refl _), h])
  | prod h hb hc _ _ ih1 ih2 =>
    exact .prod (by rw [he _ (le_refl _), h]) hb hc (ih1 fun x hx => he x (by omega)) (ih2 fun x hx => he x (by omega))

theorem Stands.size {mem : Places} {a : Nat} {t : GroupVal} (h : Stands mem a t) : ∀ d, a < d → sizeAt mem d a = some t.ops.size := by
  induction h with
  | @factor a f h =>
    rintro (_ | d) hd
    · omega
    · unfold sizeAt; rw [h]; cases f <;> rfl
  | prod h hb hc _ _ ih1 ih2 =>
    rintro (_ | d) hd
    · omega
    · unfold sizeAt; rw [h]; simp only [ih1 d (by omega), ih2 d (by omega)]; rfl

theorem Stands.element {mem : Places} {a : Nat} {t : GroupVal} (h : Stands mem a t) :
    ∀ d, a < d → ∀ i : Int, elementAt mem d a i = (t.ops.element i).map t.obj := by
  induction h with
  | @factor a f h =>
    rintro (_ | d) hd i
    · omega
    · unfold elementAt; rw [h]; cases f <;> rfl
  | @prod a b c s t h hb hc _ h2 ih1 ih2 =>
    rintro (_ | d) hd i
    · omega
    · unfold elementAt; rw [h]
      simp only [h2.size d (by omega), ih1 d (by omega), ih2 d (by omega)]
      change _ = Option.map _ ((productGroup s.ops t.ops).element i)
      simp only [productGroup, Option.bind_eq_bind, Option.bind_some]
      cases cdiv i t.ops.size with
      | none => rfl
      | some q =>
        cases cmod i t.ops.size with
        | none => rfl
        | some r =>
          simp only [Option.bind_some]
          cases s.ops.element q with
          | none => rfl
          | some x =>
            simp only [Option.map_some, Option.bind_some]
            cases t.ops.element r <;> rfl

theorem sizeAt_dead {mem : Places} {a : Nat} (h : mem[a]? = some none) (d : Nat) : sizeAt mem d a = none := by
  cases d with
  | zero => rfl
  | succ d => unfold sizeAt; rw [h]

theorem elementAt_dead {mem : Places} {a : Nat} (h : mem[a]? = some none) (d : Nat) (i : Int) : elementAt mem d a i = none := by
  cases d with
  | zero => rfl
  | succ d => unfold elementAt; rw [h]

theorem destroy_length (as : List Nat) (mem : Places) : (destroy as mem).length = mem.length := by
  unfold destroy
  induction as generalizing mem with
  | nil => rfl
  | cons a as ih => rw [List.foldl_cons, ih, List.length_set]

theorem destroy_other {as : List Nat} {b : Nat} (h : b ∉ as) (mem : Places) : (destroy as mem)[b]? = mem[b]? := by
  unfold destroy
  induction as generalizing mem with
  | nil => rfl
  | cons a as ih =>
    rw [List.foldl_cons, ih (fun h' => h (List.mem_cons_of_mem _ h')), List.getElem?_set_ne]
    rintro rfl
    exact h List.mem_cons_self

theorem destroy_dead {b : Nat} {mem : Places} (h : mem[b]? = some none) (as : List Nat) : (destroy as mem)[b]? = some none := by
  unfold destroy
  induction as generalizing mem with
  | nil => exact h
  | cons a as ih =>
    rw [List.foldl_cons]
    refine ih ?_
    rw [List.getElem?_set]
    obtain ⟨hlt, -⟩ := List.getElem?_eq_some_iff.1 h
    by_cases e : a = b
    · rw [if_pos e, if_pos (by omega)]
    · rw [if_neg e, h]

theorem destroy_mem {as : List Nat} {b : Nat} (h : b ∈ as) {mem : Places} (hb : b < mem.length) : (destroy as mem)[b]? = some none := by
  unfold destroy
  induction as generalizing mem with
  | nil => simp at h
  | cons a as ih =>
    rw [List.foldl_cons]
    rcases List.mem_cons.1 h with rfl | h
    · exact destroy_dead (by rw [List.getElem?_set_self hb]) as
    · exact ih h (by rwa [List.length_set])

/-! ### states -/

/-- The state stands for the values. -/
structure StateOk (S : GroupState) (vals : List GroupVal) : Prop where
  len : S.env.length = vals.length
  sorted : S.env.Pairwise (· < ·)
  bound : ∀ a ∈ S.env, a < S.mem.length
  stands : ∀ (x a : Nat) (t : GroupVal), S.env[x]? = some a → vals[x]? = some t → Stands S.mem a t

theorem StateOk.used {S : GroupState} {vals : List GroupVal} (h : StateOk S vals) {x : Nat} {t : GroupVal} (ht : vals[x]? = some t) :
    UsedAs S x t := by
  have hlt : x < S.env.length := by rw [h.len]; exact (List.getElem?_eq_some_iff.1 ht).1
  have he := List.getElem?_eq_getElem hlt
  have hs := h.stands x _ t he ht
  refine ⟨?_, fun i => ?_⟩
  · unfold GroupState.size; rw [he]; exact hs.size _ (by omega)
  · unfold GroupState.element; rw [he]; exact hs.element _ (by omega) i

/-- Adding an object at the end. -/
theorem StateOk.push {S : GroupState} {vals : List GroupVal} (h : StateOk S vals) {mem : Places} (hm : ∀ b < S.mem.length, mem[b]? = S.mem[b]?)
    (hl : S.mem.length < mem.length) {t : GroupVal} (hs : Stands mem (mem.length - 1) t) :
    StateOk ⟨mem, S.env ++ [mem.length - 1]⟩ (vals ++ [t]) := by
  refine ⟨by simp [h.len], ?_, fun a ha => ?_, fun x a s hx hv => ?_⟩
  · rw [List.pairwise_append]
    refine ⟨h.sorted, List.pairwise_singleton _ _, fun a ha b hb => ?_⟩
    rw [List.mem_singleton] at hb
    have := h.bound a ha
    omega
  · simp only [List.mem_append, List.mem_singleton] at ha
    rcases ha with ha | rfl
    · have := h.bound a ha; simp only; omega
    · simp only; omega
  · simp only at hx ⊢
    rcases lt_or_ge x S.env.length with hlt | hge
    · rw [List.getElem?_append_left hlt] at hx
      rw [List.getElem?_append_left (by rw [← h.len]; exact hlt)] at hv
      have hb := h.bound a (List.mem_of_getElem? hx)
      exact (h.stands x a s hx hv).mono fun b hb' => hm b (by omega)
    · rw [List.getElem?_append_right hge] at hx
      rw [List.getElem?_append_right (by rw [← h.len]; exact hge)] at hv
      obtain ⟨hlt, rfl⟩ := List.getElem?_eq_some_iff.1 hx
      obtain ⟨hlt', rfl⟩ := List.getElem?_eq_some_iff.1 hv
      have e1 : x - S.env.length = 0 := by simpa using hlt
      have e2 : x - vals.length = 0 := by simpa using hlt'
      simpa using hs

theorem StateOk.leave {S : GroupState} {vals : List GroupVal} (h : StateOk S vals) (k : Nat) :
    StateOk ⟨destroy (S.env.drop (S.keep k)) S.mem, S.env.take (S.keep k)⟩ (vals.take (vals.length - k)) := by
  have hk : S.keep k = vals.length - k := by unfold GroupState.keep; rw [h.len]
  have hp := h.sorted
  rw [← List.take_append_drop (S.keep k) S.env, List.pairwise_append] at hp
  refine ⟨by simp [hk, h.len], hp.1, fun a ha => ?_, fun x a s hx hv => ?_⟩
  · simp only [destroy_length]
    exact h.bound a (List.mem_of_mem_take ha)
  · simp only at hx ⊢
    have hm := List.mem_of_getElem? hx
    rw [List.getElem?_take] at hx hv
    split at hx
    · rw [if_pos (by omega)] at hv
      refine (h.stands x a s hx hv).mono fun b hb => destroy_other (fun hd => ?_) _
      have := hp.2.2 a hm b hd
      omega
    · cases hx

theorem StateOk.get {S : GroupState} {vals : List GroupVal} (h : StateOk S vals) {x : Nat} {t : GroupVal} (ht : vals[x]? = some t) :
    ∃ a, S.env[x]? = some a ∧ a < S.mem.length ∧ Stands S.mem a t := by
  have hlt : x < S.env.length := by rw [h.len]; exact (List.getElem?_eq_some_iff.1 ht).1
  have he := List.getElem?_eq_getElem hlt
  exact ⟨_, he, h.bound _ (List.mem_of_getElem? he), h.stands x _ t he ht⟩

theorem Stands.alive {mem : Places} {a : Nat} {t : GroupVal} (h : Stands mem a t) : ∃ o, mem[a]? = some (some o) := by
  cases h with
  | factor h => exact ⟨_, h⟩
  | prod h => exact ⟨_, h⟩

theorem StateOk.step {S : GroupState} {vals vals' : List GroupVal} (h : StateOk S vals) {s : GroupStmt} (hf : s.Flat)
    (hv : valueStep vals s = some vals') : ∃ S', S.step s = some S' ∧ StateOk S' vals' := by
  cases s with
  | decl f =>
    obtain rfl := Option.some.inj hv
    refine ⟨_, rfl, ?_⟩
    have := h.push (mem := S.mem ++ [some (.factor f)]) (fun b hb => List.getElem?_append_left hb) (by simp)
      (t := .factor f) (.factor (by simp))
    simpa using this
  | leave k =>
    simp only [valueStep] at hv
    split at hv
    · cases hv
    · obtain rfl := Option.some.inj hv
      refine ⟨_, ?_, h.leave k⟩
      simp only [GroupState.step]
      rw [if_neg (by rw [h.len]; omega)]
  | ret k e =>
    rcases e with x | ⟨x | ⟨_, _⟩, y | ⟨_, _⟩⟩
    · obtain rfl : k = 0 := hf
      simp only [valueStep, Nat.not_lt_zero, if_false, GroupExpr.value, Option.map_eq_some_iff] at hv
      obtain ⟨t, ht, rfl⟩ := hv
      obtain ⟨a, e1, e2, e3⟩ := h.get ht
      obtain ⟨o, ho⟩ := e3.alive
      refine ⟨⟨S.mem ++ [some o], S.env ++ [S.mem.length]⟩, ?_, ?_⟩
      · simp [GroupState.step, GroupExpr.eval, e1, ho, GroupState.keep, destroy]
      · have hst : Stands (S.mem ++ [some o]) ((S.mem ++ [some o]).length - 1) t := by
          have hlast : (S.mem ++ [some o])[(S.mem ++ [some o]).length - 1]? = some (some o) := by simp
          cases e3 with
          | factor h' =>
            rw [h'] at ho
            obtain rfl := Option.some.inj (Option.some.inj ho)
            exact .factor hlast
          | prod h' hb hc h1 h2 =>
            rw [h'] at ho
            obtain rfl := Option.some.inj (Option.some.inj ho)
            have hm : ∀ (o : Option GroupObj), ∀ b < S.mem.length, (S.mem ++ [o])[b]? = S.mem[b]? := fun o b hb => List.getElem?_append_left hb
            exact .prod hlast (by simp; omega) (by simp; omega) (h1.mono fun b hb => hm _ b (by omega)) (h2.mono fun b hb => hm _ b (by omega))
        have := h.push (mem := S.mem ++ [some o]) (fun b hb => List.getElem?_append_left hb) (by simp) hst
        simpa using this
    · obtain rfl : k = 0 := hf
      simp only [valueStep, Nat.not_lt_zero, if_false, GroupExpr.value, Option.map_eq_some_iff, Option.bind_eq_bind, Option.bind_eq_some_iff] at hv
      obtain ⟨t, ⟨s1, hs1, s2, hs2, ht⟩, rfl⟩ := hv
      obtain rfl := Option.some.inj ht
      obtain ⟨a, e1, e2, e3⟩ := h.get hs1
      obtain ⟨b, f1, f2, f3⟩ := h.get hs2
      refine ⟨⟨S.mem ++ [none] ++ [some (.product a b)], S.env ++ [S.mem.length + 1]⟩, ?_, ?_⟩
      · simp [GroupState.step, GroupExpr.eval, e1, f1, GroupState.keep, destroy]
      · have hm : ∀ c < S.mem.length, (S.mem ++ [none] ++ [some (GroupObj.product a b)])[c]? = S.mem[c]? := fun c hc => by
          rw [List.append_assoc, List.getElem?_append_left hc]
        have := h.push (mem := S.mem ++ [none] ++ [some (.product a b)]) hm (by simp) (t := .prod s1 s2)
          (.prod (b := a) (c := b) (by simp) (by simp; omega) (by simp; omega) (e3.mono fun c hc => hm c (by omega))
            (f3.mono fun c hc => hm c (by omega)))
        simpa using this
    · exact absurd hf (by simp [GroupStmt.Flat])
    · exact absurd hf (by simp [GroupStmt.Flat])
    · exact absurd hf (by simp [GroupStmt.Flat])

theorem StateOk.run {prog : List GroupStmt} : ∀ {S : GroupState} {vals vals' : List GroupVal}, StateOk S vals → (∀ s ∈ prog, s.Flat) →
    valueRun vals prog = some vals' → ∃ S', S.run prog = some S' ∧ StateOk S' vals' := by
  induction prog with
  | nil =>
    intro S vals vals' h _ hv
    obtain rfl := Option.some.inj hv
    exact ⟨S, rfl, h⟩
  | cons s ss ih =>
    intro S vals vals' h hf hv
    obtain ⟨v, h1, h2⟩ := Option.bind_eq_some_iff.1 hv
    obtain ⟨S1, k1, k2⟩ := h.step (hf s List.mem_cons_self) h1
    obtain ⟨S2, k3, k4⟩ := ih k2 (fun s' hs' => hf s' (List.mem_cons_of_mem _ hs')) h2
    exact ⟨S2, by unfold GroupState.run; rw [k1]; exact k3, k4⟩

theorem StateOk.init : StateOk ⟨[], []⟩ [] := ⟨rfl, List.Pairwise.nil, by simp, by simp⟩

/-! ### what is destroyed -/

/-- The evaluation only adds objects; a product is one of them. -/
theorem eval_grows {env : GroupEnv} : ∀ (e : GroupExpr) {mem mem' : Places} {a : Nat}, e.eval env mem = some (mem', a) →
    mem.length ≤ mem'.length ∧ (∀ f g, e = .mul f g → mem.length ≤ a ∧ a < mem'.length) ∧ (∀ x, e = .var x → env[x]? = some a) := by
  intro e
  induction e with
  | var x =>
    intro mem mem' a h
    simp only [GroupExpr.eval, Option.map_eq_some_iff, Prod.mk.injEq] at h
    obtain ⟨a', h1, rfl, rfl⟩ := h
    refine ⟨le_refl _, fun f g h => (by cases h), fun y hy => ?_⟩
    cases hy
    exact h1
  | mul e f ihe ihf =>
    intro mem mem' a h
    simp only [GroupExpr.eval, Option.bind_eq_bind, Option.bind_eq_some_iff, Option.some.injEq, Prod.mk.injEq] at h
    obtain ⟨r, h1, s, h2, rfl, rfl⟩ := h
    have h3 := (ihe h1).1
    have h4 := (ihf h2).1
    exact ⟨by simp; omega, fun _ _ _ => ⟨by omega, by simp⟩, fun x hx => by cases hx⟩

/-- After `auto G=e*f;`, with what is returned from a function too: the new object has two references, and each is to a destroyed
object if it is to a temporary or to a local variable. -/
theorem step_product {S S' : GroupState} {k : Nat} {e f : GroupExpr} (h : S.step (.ret k (.mul e f)) = some S')
    (hb : ∀ a ∈ S.env, a < S.mem.length) :
    ∃ a b n, S'.env[S.keep k]? = some n ∧ S'.mem[n]? = some (some (.product a b)) ∧
      ((∃ e1 e2, e = .mul e1 e2) ∨ (∃ x, e = .var x ∧ S.keep k ≤ x) → S'.mem[a]? = some none) ∧
      ((∃ f1 f2, f = .mul f1 f2) ∨ (∃ x, f = .var x ∧ S.keep k ≤ x) → S'.mem[b]? = some none) := by
  simp only [GroupState.step, Option.bind_eq_bind] at h
  split at h
  · cases h
  rename_i hk
  simp only [Option.bind_eq_some_iff, Option.some.injEq] at h
  obtain ⟨r, hr, o, ho, rfl⟩ := h
  simp only [GroupExpr.eval, Option.bind_eq_bind, Option.bind_eq_some_iff, Option.some.injEq] at hr
  obtain ⟨⟨m1, a⟩, h1, ⟨m2, b⟩, h2, rfl⟩ := hr
  simp only [List.getElem?_concat_length, Option.some.injEq] at ho
  subst ho
  have g1 := eval_grows e h1
  have g2 := eval_grows f h2
  simp only at g1 g2 ⊢
  have hlen : ∀ x, (S.mem ++ List.replicate ((m2 ++ [some (GroupObj.product a b)]).length - S.mem.length) (none : Option GroupObj))[x]? = some none ∨
      ¬ (S.mem.length ≤ x ∧ x < m2.length + 1) := fun x => by
    by_cases hx : S.mem.length ≤ x ∧ x < m2.length + 1
    · left
      rw [List.getElem?_append_right hx.1, List.getElem?_replicate, if_pos (by simp; omega)]
    · exact Or.inr hx
  have hdead : ∀ x, S.mem.length ≤ x ∧ x < m2.length + 1 ∨ x ∈ S.env.drop (S.keep k) →
      (destroy (S.env.drop (S.keep k)) (S.mem ++ List.replicate ((m2 ++ [some (GroupObj.product a b)]).length - S.mem.length) none) ++
        [some (GroupObj.product a b)])[x]? = some none := by
    intro x hx
    have : (destroy (S.env.drop (S.keep k)) (S.mem ++ List.replicate ((m2 ++ [some (GroupObj.product a b)]).length - S.mem.length) none))[x]? =
        some none := by
      rcases hx with hx | hx
      · exact destroy_dead ((hlen x).resolve_right (not_not.2 hx)) _
      · refine destroy_mem hx ?_
        have := hb x (List.mem_of_mem_drop hx)
        simp; omega
    rw [List.getElem?_append_left (List.getElem?_eq_some_iff.1 this).1, this]
  have hdrop : ∀ x c, S.env[x]? = some c → S.keep k ≤ x → c ∈ S.env.drop (S.keep k) := fun x c hc hx => by
    rw [List.mem_iff_getElem?]
    exact ⟨x - S.keep k, by rw [List.getElem?_drop, show S.keep k + (x - S.keep k) = x by omega, hc]⟩
  refine ⟨a, b, _, ?_, List.getElem?_concat_length, ?_, ?_⟩
  · rw [List.getElem?_append_right (by simp), List.length_take, show S.keep k - min (S.keep k) S.env.length = 0 by
      unfold GroupState.keep; omega]
    rfl
  · rintro (⟨e1, e2, rfl⟩ | ⟨x, rfl, hx⟩)
    · have := g1.2.1 _ _ rfl
      exact hdead a (Or.inl (by omega))
    · exact hdead a (Or.inr (hdrop x a (g1.2.2 x rfl) hx))
  · rintro (⟨e1, e2, rfl⟩ | ⟨x, rfl, hx⟩)
    · have := g2.2.1 _ _ rfl
      have := g1.1
      exact hdead b (Or.inl (by omega))
    · exact hdead b (Or.inr (hdrop x b (g2.2.2 x rfl) hx))

/-- Variables are alive at any time in any program, also if what they refer to is not. -/
theorem step_bound {S S' : GroupState} {s : GroupStmt} (h : S.step s = some S') (hb : ∀ a ∈ S.env, a < S.mem.length) :
    ∀ a ∈ S'.env, a < S'.mem.length := by
  cases s with
  | decl f =>
    obtain rfl := Option.some.inj h
    intro a ha
    rcases List.mem_append.1 ha with ha | ha
    · have := hb a ha; simp; omega
    · rw [List.mem_singleton] at ha; simp; omega
  | leave k =>
    simp only [GroupState.step] at h
    split at h
    · cases h
    · obtain rfl := Option.some.inj h
      intro a ha
      simp only [destroy_length]
      exact hb a (List.mem_of_mem_take ha)
  | ret k e =>
    simp only [GroupState.step, Option.bind_eq_bind] at h
    split at h
    · cases h
    simp only [Option.bind_eq_some_iff, Option.some.injEq] at h
    obtain ⟨r, -, o, -, rfl⟩ := h
    intro a ha
    rcases List.mem_append.1 ha with ha | ha
    · have := hb a (List.mem_of_mem_take ha)
      simp [destroy_length]; omega
    · rw [List.mem_singleton] at ha
      simp; omega

theorem run_bound {prog : List GroupStmt} : ∀ {S S' : GroupState}, S.run prog = some S' → (∀ a ∈ S.env, a < S.mem.length) →
    ∀ a ∈ S'.env, a < S'.mem.length := by
  induction prog with
  | nil => intro S S' h hb; obtain rfl := Option.some.inj h; exact hb
  | cons s ss ih =>
    intro S S' h hb
    obtain ⟨S1, h1, h2⟩ := Option.bind_eq_some_iff.1 h
    exact ih h2 (step_bound h1 hb)

theorem product_dead {S : GroupState} {x n a b : Nat} (h1 : S.env[x]? = some n) (h2 : S.mem[n]? = some (some (.product a b)))
    (h3 : S.mem[a]? = some none ∨ S.mem[b]? = some none) : S.size x = none ∧ ∀ i, S.element x i = none := by
  refine ⟨?_, fun i => ?_⟩
  · unfold GroupState.size
    rw [h1, Option.bind_some]
    unfold sizeAt
    rw [h2]
    rcases h3 with h3 | h3
    · simp [sizeAt_dead h3]
    · simp [sizeAt_dead h3]
  · unfold GroupState.element
    rw [h1, Option.bind_some]
    unfold elementAt
    rw [h2]
    rcases h3 with h3 | h3
    · simp [elementAt_dead h3]
    · simp [sizeAt_dead h3]

/-! ### the property -/

/-- **C121.** Full statement: in every program that declares groups, multiplies them and passes through scopes, every variable can be
used as the group that it was declared as. This is false (`C121_three_factors`, `C121_returned`). What holds: it is true of the
programs that multiply variables only, each product having a name before it is used in another, and return no product from a
function. -/
theorem C121_variables_partial (prog : List GroupStmt) (hf : ∀ s ∈ prog, s.Flat) (vals : List GroupVal) (hv : valueRun [] prog = some vals) :
    ∃ S, GroupState.run ⟨[], []⟩ prog = some S ∧ S.env.length = vals.length ∧ ∀ x t, vals[x]? = some t → UsedAs S x t := by
  obtain ⟨S, h1, h2⟩ := StateOk.init.run hf hv
  exact ⟨S, h1, h2.len, fun x t ht => h2.used ht⟩

/-- **C121.** With three or more factors in one expression, `auto G=A*B*C;` or `auto G=A*(B*C);`, the new variable cannot be used: in every
program, whatever the factors are, `size()` and `element(i)` read an object that was destroyed at the end of the declaration. -/
theorem C121_three_factors (prog : List GroupStmt) (S S' : GroupState) (hS : GroupState.run ⟨[], []⟩ prog = some S) (k : Nat) (e f : GroupExpr)
    (hef : (∃ e1 e2, e = .mul e1 e2) ∨ (∃ f1 f2, f = .mul f1 f2)) (h : S.step (.ret k (.mul e f)) = some S') :
    S'.size (S.keep k) = none ∧ ∀ i, S'.element (S.keep k) i = none := by
  obtain ⟨a, b, n, h1, h2, h3, h4⟩ := step_product h (run_bound hS (by simp))
  refine product_dead h1 h2 ?_
  rcases hef with he | hf
  · exact Or.inl (h3 (Or.inl he))
  · exact Or.inr (h4 (Or.inl hf))

/-- **C121.** A product of which a factor is a local variable cannot be used after it is returned. -/
theorem C121_returned (prog : List GroupStmt) (S S' : GroupState) (hS : GroupState.run ⟨[], []⟩ prog = some S) (k x y : Nat)
    (hxy : S.keep k ≤ x ∨ S.keep k ≤ y) (h : S.step (.ret k (.mul (.var x) (.var y))) = some S') :
    S'.size (S.keep k) = none ∧ ∀ i, S'.element (S.keep k) i = none := by
  obtain ⟨a, b, n, h1, h2, h3, h4⟩ := step_product h (run_bound hS (by simp))
  refine product_dead h1 h2 ?_
  rcases hxy with hx | hy
  · exact Or.inl (h3 (Or.inr ⟨x, rfl, hx⟩))
  · exact Or.inr (h4 (Or.inr ⟨y, rfl, hy⟩))

theorem value_eval {env : GroupEnv} {vals : List GroupVal} (hl : env.length = vals.length) : ∀ (e : GroupExpr) (mem : Places) {t : GroupVal},
    e.value vals = some t → ∃ r, e.eval env mem = some r := by
  intro e
  induction e with
  | var x =>
    intro mem t h
    have hlt : x < env.length := by rw [hl]; exact (List.getElem?_eq_some_iff.1 h).1
    exact ⟨_, by unfold GroupExpr.eval; rw [List.getElem?_eq_getElem hlt]; rfl⟩
  | mul e f ihe ihf =>
    intro mem t h
    simp only [GroupExpr.value, Option.bind_eq_bind, Option.bind_eq_some_iff] at h
    obtain ⟨s1, h1, s2, h2, -⟩ := h
    obtain ⟨r1, k1⟩ := ihe mem h1
    obtain ⟨r2, k2⟩ := ihf r1.1 h2
    exact ⟨_, by unfold GroupExpr.eval; rw [k1, Option.bind_eq_bind, Option.bind_some, k2]; rfl⟩

/-- **C121.** So after a program of this kind a declaration `auto G=e;` of an expression in the variables gives a variable that can be used
exactly if `e` is a variable or a product of two variables. -/
theorem C121_exact (prog : List GroupStmt) (hf : ∀ s ∈ prog, s.Flat) (vals : List GroupVal) (hv : valueRun [] prog = some vals) (e : GroupExpr)
    (t : GroupVal) (he : e.value vals = some t) :
    ∃ S S', GroupState.run ⟨[], []⟩ prog = some S ∧ S.step (.ret 0 e) = some S' ∧
      (UsedAs S' vals.length t ↔ (∃ x, e = .var x) ∨ ∃ x y, e = .mul (.var x) (.var y)) := by
  obtain ⟨S, h1, h2⟩ := StateOk.init.run hf hv
  have hstep : valueStep vals (.ret 0 e) = some (vals ++ [t]) := by simp [valueStep, he]
  have good : GroupStmt.Flat (.ret 0 e) → ∃ S S', GroupState.run ⟨[], []⟩ prog = some S ∧ S.step (.ret 0 e) = some S' ∧
      UsedAs S' vals.length t := fun hfl => by
    obtain ⟨S', k1, k2⟩ := h2.step hfl hstep
    exact ⟨S, S', h1, k1, k2.used (by simp)⟩
  have bad : ∀ f g, e = .mul f g → ((∃ e1 e2, f = .mul e1 e2) ∨ (∃ f1 f2, g = .mul f1 f2)) →
      ∃ S S', GroupState.run ⟨[], []⟩ prog = some S ∧ S.step (.ret 0 e) = some S' ∧ ¬ UsedAs S' vals.length t := by
    rintro f g rfl hfg
    obtain ⟨r, hr⟩ := value_eval h2.len (.mul f g) S.mem he
    have hs : ∃ S', S.step (.ret 0 (.mul f g)) = some S' := by
      have ho : ∃ o, r.1[r.2]? = some o := by
        have := (eval_grows _ (show (GroupExpr.mul f g).eval S.env S.mem = some (r.1, r.2) from hr)).2.1 _ _ rfl
        exact ⟨_, List.getElem?_eq_getElem this.2⟩
      obtain ⟨o, ho⟩ := ho
      exact Option.isSome_iff_exists.1 (by simp [GroupState.step, hr, ho])
    obtain ⟨S', hs⟩ := hs
    refine ⟨S, S', h1, hs, fun hu => ?_⟩
    have := (C121_three_factors prog S S' h1 0 f g hfg hs).1
    rw [show S.keep 0 = vals.length by unfold GroupState.keep; rw [h2.len]; rfl, hu.1] at this
    cases this
  rcases e with x | ⟨x | ⟨p, q⟩, y | ⟨p', q'⟩⟩
  · obtain ⟨S, S', k1, k2, k3⟩ := good rfl
    exact ⟨S, S', k1, k2, iff_of_true k3 (Or.inl ⟨x, rfl⟩)⟩
  · obtain ⟨S, S', k1, k2, k3⟩ := good rfl
    exact ⟨S, S', k1, k2, iff_of_true k3 (Or.inr ⟨x, y, rfl⟩)⟩
  · obtain ⟨S, S', k1, k2, k3⟩ := bad _ _ rfl (Or.inr ⟨_, _, rfl⟩)
    exact ⟨S, S', k1, k2, iff_of_false k3 (by simp)⟩
  · obtain ⟨S, S', k1, k2, k3⟩ := bad _ _ rfl (Or.inl ⟨_, _, rfl⟩)
    exact ⟨S, S', k1, k2, iff_of_false k3 (by simp)⟩
  · obtain ⟨S, S', k1, k2, k3⟩ := bad _ _ rfl (Or.inl ⟨_, _, rfl⟩)
    exact ⟨S, S', k1, k2, iff_of_false k3 (by simp)⟩

/-- The cyclic and dihedral groups in it are not of order 0. -/
def GroupVal.Proper : GroupVal → Prop
  | .factor (.cyc n) => 1 ≤ n
  | .factor (.dih n) => 1 ≤ n
  | .prod s t => Proper s ∧ Proper t

/-- **C121.** The values are groups: the operations of a value compute in a group, with each element numbered once (C51, C52, C54). -/
theorem C121_values : ∀ (t : GroupVal), GroupVal.Proper t → ∃ (G : Type) (_ : Group G) (e : Fin t.ops.size ≃ G) (rep : G → t.Elem), ImplementsOps t.ops e rep
  | .factor (.cyc n), h => by
    have : NeZero n := ⟨by have : 1 ≤ n := h; omega⟩
    exact ⟨_, inferInstance, _, _, (cyclic_implements n).toImplementsOps⟩
  | .factor (.dih n), h => by
    have : NeZero n := ⟨by have : 1 ≤ n := h; omega⟩
    exact ⟨_, inferInstance, _, _, (dihedral_implements n).toImplementsOps⟩
  | .prod s t, h => by
    obtain ⟨G, i1, e, r, h1⟩ := C121_values s h.1
    obtain ⟨H, i2, e', r', h2⟩ := C121_values t h.2
    exact ⟨G × H, inferInstance, _, _, product_implements h1 h2⟩

/-! ### examples -/

/-- `CyclicGroup A(3); DihedralGroup B(4); auto P=A*B; auto G=P*A;`: 72 elements. -/
example : (GroupState.run ⟨[], []⟩ [.decl (.cyc 3), .decl (.dih 4), .ret 0 (.mul (.var 0) (.var 1)), .ret 0 (.mul (.var 2) (.var 0))]).bind
    (fun S => S.size 3) = some 72 := by decide

/-- `auto G=A*B*A;` -/
example : (GroupState.run ⟨[], []⟩ [.decl (.cyc 3), .decl (.dih 4), .ret 0 (.mul (.mul (.var 0) (.var 1)) (.var 0))]).map
    (fun S => (S.env.length, S.size 2)) = some (3, none) := by decide

/-- A function that returns the product of a group with a local one. -/
example : (GroupState.run ⟨[], []⟩ [.decl (.cyc 3), .decl (.dih 4), .ret 1 (.mul (.var 0) (.var 1))]).map
    (fun S => (S.env.length, S.size 0, S.size 1)) = some (2, some 3, none) := by decide

end Snob.Props
