import Verif.Proofs.CombiBank

/-! # Property C46: the caches of the combinatorial bank are transparent -/

namespace Snob.Props

open Combi

/-- **C46.** After any history of valid queries, in any order, starting from the empty bank, no assertion has failed
and a further valid query returns what it returns from the empty bank; this is the answer computed without caches. -/
theorem C46_transparent (qs : List Query) (hqs : ∀ q ∈ qs, q.Valid) (q : Query) (hq : q.Valid) :
    ∃ b a b' b'', Combi.run qs [] = some b ∧ exec q b = some (a, b') ∧ exec q [] = some (a, b'') ∧ answer q = some a := by
  obtain ⟨b, h1, h2, _⟩ := run_ok qs hqs [] Ok.nil
  obtain ⟨a, b', h3, h4, _⟩ := exec_ok h2 hq
  obtain ⟨a', b'', h5, h6, _⟩ := exec_ok Ok.nil hq
  obtain rfl : a = a' := Option.some.inj (h4.symm.trans h6)
  exact ⟨b, a, b', b'', h1, h3, h5, h4⟩

/-- **C46.** Earlier answers stay valid: after any history, a query `q` and any further history, the vector to which
`q` returned a reference (or the object to which it returned a pointer) still contains the answer. -/
theorem C46_stable (qs qs' : List Query) (hqs : ∀ q ∈ qs, q.Valid) (hqs' : ∀ q ∈ qs', q.Valid) (q : Query) (hq : q.Valid) :
    ∃ b a b' b'', Combi.run qs [] = some b ∧ exec q b = some (a, b') ∧ Combi.run qs' b' = some b'' ∧ look q b'' = some a := by
  obtain ⟨b, h1, h2, _⟩ := run_ok qs hqs [] Ok.nil
  obtain ⟨a, b', h3, h4, h5, _, h6⟩ := exec_ok h2 hq
  obtain ⟨b'', h7, h8, h9⟩ := run_ok qs' hqs' b' h5
  exact ⟨b, a, b', b'', h1, h3, h7, by rw [look_ok h8 hq (h6.mono h9), h4]⟩

/-- A history which goes up and down: the tableaux of `(2,1)` asked after the partitions of 2, and the restriction
ordered partitions of 4 before those of 3. -/
example : ∃ b a b' b'', Combi.run [.partitions 2, .ro 4, .object [3, 1], .partitions 4, .ro 3] [] = some b ∧
    exec (.tableaux [2, 1]) b = some (a, b') ∧ exec (.tableaux [2, 1]) [] = some (a, b'') ∧ answer (.tableaux [2, 1]) = some a :=
  C46_transparent _ (by
    intro q hq
    simp only [List.mem_cons, List.not_mem_nil, or_false] at hq
    rcases hq with rfl | rfl | rfl | rfl | rfl
    · exact (by decide : 1 ≤ 2)
    · exact (by decide : 1 ≤ 4)
    · exact ⟨4, by decide, by decide, by decide, by decide⟩
    · exact (by decide : 1 ≤ 4)
    · exact (by decide : 1 ≤ 3)) _ ⟨3, by decide, by decide, by decide, by decide⟩

/-- The two answers for `(2,1)`, computed, and its vector looked up after a further query. -/
example : (do
    let b ← Combi.run [.partitions 2, .ro 4] []
    let r ← exec (.tableaux [2, 1]) b
    let b' ← Combi.run [.tableaux [2, 2]] r.2
    look (.tableaux [2, 1]) b') = some (.tabs [[[1, 2], [3]], [[1, 3], [2]]]) := by decide +kernel

end Snob.Props
