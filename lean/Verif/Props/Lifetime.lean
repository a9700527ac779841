import Verif.Proofs.Lifetime

/-! # Properties C56, C61: lifetime of the banks and of the tables of irrep objects -/

namespace Snob.Props

open Lifetime

/-- **C56, negation.** There is a history of constructors and destructors (a session, then a `CombinatorialClasses`
object which is destroyed) that leaves a global pointer dangling while the session still exists. -/
theorem C56_false_dangling : ¬ ∀ h r, removed h [] = some r → ∃ l, Lifetime.run h {} = some l ∧ l.Good := by
  intro H
  obtain ⟨l, h1, h2⟩ := H [.mk .session, .mk .comb, .rm 1] [.comb] rfl
  have : Lifetime.run [.mk .session, .mk .comb, .rm 1] {} =
      some { combi := .dangling, snb := .alive, snrep := .alive, snfft := .alive, snchar := .alive, sncg := .alive, objs := [(.session, .alive)] } := by
    decide
  rw [this, Option.some.injEq] at h1
  subst h1
  exact h2.1 rfl

/-- **C56, negation.** Creating and destroying a class set twice deletes the same bank twice. -/
theorem C56_false_double_delete : removed [.mk .sn, .rm 0, .mk .sn, .rm 0] [] = some [.sn, .sn] ∧
    Lifetime.run [.mk .sn, .rm 0, .mk .sn, .rm 0] {} = none := by decide

/-- **C56, exactly when it holds.** After a legal history of constructors and destructors (no object is destroyed that
does not exist) nothing undefined has happened and no global pointer dangles if and only if no class-set object was
destroyed in it. Sessions may be created and destroyed at will. Missing from the property: the histories that destroy a
class-set object. -/
theorem C56_good_iff_partial (h : List Op) (r : List Kind) (hr : removed h [] = some r) :
    (∃ l, Lifetime.run h {} = some l ∧ l.Good) ↔ Kind.comb ∉ r ∧ Kind.sn ∉ r := by
  have := run_inv h {} [] r 0 0 Inv.init hr
  rw [← List.count_eq_zero, ← List.count_eq_zero]
  simp only [Nat.zero_add] at this
  split_ifs at this with hc
  · obtain ⟨l, ks, h1, h2⟩ := this
    rw [← h2.good_iff]
    constructor
    · rintro ⟨l', e, hg⟩
      rwa [Option.some.inj (h1.symm.trans e)]
    · exact fun hg => ⟨l, h1, hg⟩
  · constructor
    · rintro ⟨l, e, _⟩
      rw [this] at e
      cases e
    · rintro ⟨a, b⟩
      omega

/-- **C56.** A legal history deletes a bank twice if and only if it destroys two objects of the same class-set class. -/
theorem C56_defined_iff_partial (h : List Op) (r : List Kind) (hr : removed h [] = some r) :
    Lifetime.run h {} ≠ none ↔ r.count .comb ≤ 1 ∧ r.count .sn ≤ 1 := by
  have := run_inv h {} [] r 0 0 Inv.init hr
  simp only [Nat.zero_add] at this
  split_ifs at this with hc
  · obtain ⟨l, ks, h1, _⟩ := this
    simp [h1, hc]
  · simp [this, hc]

/-- **C56.** If a session is the first object, all six banks are alive after any legal history in which no class-set
object is destroyed. -/
theorem C56_session_first_partial (h : List Op) (r : List Kind) (hr : removed (.mk .session :: h) [] = some r)
    (h1 : Kind.comb ∉ r) (h2 : Kind.sn ∉ r) : ∃ l, Lifetime.run (.mk .session :: h) {} = some l ∧ l.Ready := by
  rw [Lifetime.run]
  rw [removed] at hr
  exact run_ready h _ _ r (Inv.init.create .session) hr (by decide) h1 h2

/-- **C56.** A session created after a `CombinatorialClasses` object leaves the banks of the symmetric groups absent. -/
theorem C56_session_after_classes : ∃ l, Lifetime.run [.mk .comb, .mk .session] {} = some l ∧ l.snb = .null ∧ l.snfft = .null ∧ ¬ l.Ready := by
  exact ⟨_, rfl, by decide, by decide, by decide⟩

/-- Three sessions, one destroyed, and two class sets that live on. -/
example : ∃ l, Lifetime.run [.mk .session, .mk .comb, .mk .session, .mk .sn, .rm 2, .mk .session] {} = some l ∧ l.Good :=
  (C56_good_iff_partial _ [.session] rfl).2 (by decide)

example : Lifetime.run [.mk .session, .mk .comb, .mk .sn, .rm 2, .rm 1] {} ≠ none :=
  (C56_defined_iff_partial _ [.sn, .comb] rfl).2 (by decide)

/-- **C61, negation.** Destroying an irrep object on which no method was called is undefined. -/
theorem C61_false : ¬ ∀ (n : Nat) (cs : List Call), (∀ c ∈ cs, c.Valid n) → ∃ t, calls n cs {} = some t ∧ destructor t ≠ none := by
  intro H
  obtain ⟨t, h1, h2⟩ := H 3 [] (by simp)
  rw [calls, Option.some.injEq] at h1
  subst h1
  exact h2 rfl

/-- **C61, exactly when it holds.** After any history of valid calls of methods of the irrep object of a partition of
`n`, destroying it is defined if and only if some call acted on a matrix by an adjacent transposition. Evaluation at the
identity and the action on tensor views do not count. Missing from the property: all other histories. -/
theorem C61_destructor_iff_partial (n : Nat) (cs : List Call) (hc : ∀ c ∈ cs, c.Valid n) :
    ∃ t, calls n cs {} = some t ∧ (destructor t ≠ none ↔ ∃ c ∈ cs, c.Acts n) := by
  obtain ⟨t, h1, h2⟩ := calls_ok cs hc {} False TInv.init
  exact ⟨t, h1, by rw [h2.destructor, false_or]⟩

/-- Evaluation at a permutation that is not the identity initialises the tables. -/
example : ∃ t, calls 3 [.index, .sigma (enc (Equiv.swap (0 : Fin 3) 2)), .viewTau 1] {} = some t ∧ destructor t ≠ none := by
  obtain ⟨t, h1, h2⟩ := C61_destructor_iff_partial 3 [.index, .sigma (enc (Equiv.swap (0 : Fin 3) 2)), .viewTau 1] (by
    intro c hc
    simp only [List.mem_cons, List.not_mem_nil, or_false] at hc
    rcases hc with rfl | rfl | rfl
    · trivial
    · exact ⟨_, rfl⟩
    · exact ⟨by decide, by decide⟩)
  exact ⟨t, h1, h2.2 ⟨.sigma (enc (Equiv.swap (0 : Fin 3) 2)), by simp, Equiv.swap (0 : Fin 3) 2, rfl, by decide⟩⟩

/-- In the symmetric group of one element no evaluation initialises them. -/
example : ∃ t, calls 1 [.sigma (enc (1 : Equiv.Perm (Fin 1))), .character [1], .jucysMurphy 1] {} = some t ∧ destructor t = none := by
  refine ⟨{ yjm := [1] }, by decide, by decide⟩

end Snob.Props
