import Verif.Proofs.TabEdit
import Verif.Props.Tableau

/-! # Property C128: editing tableaux -/

namespace Snob.Props

open Snob ITab

/-- **C128.** A program that reads and assigns entries of a tableau with `T[r,c]`, `T[r,c]=x` is defined exactly when every key has two
indices and every assignment is to a box of the tableau or to a row that does not exist. -/
theorem C128_defined (t : List (List Int)) (prog : List Stmt) : (exec t prog).isSome ↔ ∀ s ∈ prog, Safe t s := by
  refine ⟨exec_isSome prog t, fun h => ?_⟩
  obtain ⟨t', os, e, -⟩ := exec_eq prog t h
  rw [e]
  rfl

example : (exec [[1, 2], [3]] [.set [0, 1] 7, .get [0, 1], .set [5, 0] 9, .get [-1, 0]]).isSome ∧
    ¬ (exec [[1, 2], [3]] [.set [0, 1] 7, .set [1, 1] 4]).isSome := by decide

/-- **C128.** Full statement: reading or assigning an entry outside the tableau raises `IndexError` and leaves the tableau alone; what is
read is what was last assigned; the shape stays. Proved: all of it except that an assignment to a column that does not exist, of a row that
does, is not caught (`C128_column_unchecked`). -/
theorem C128_history_partial (t : List (List Int)) (prog : List Stmt) (h : ∀ s ∈ prog, Safe t s) :
    ∃ t' os, exec t prog = some (t', os) ∧ t'.map List.length = t.map List.length ∧
      (∀ r c, entry t' r c = (entry t r c).map fun x => (lastWrite prog r c).getD x) ∧
      os.length = prog.length ∧
      (∀ (k : Nat) r c, prog[k]? = some (.get [r, c]) →
        os[k]? = some (shows ((entry t r c).map fun x => (lastWrite (prog.take k) r c).getD x))) ∧
      (∀ (k : Nat) r c x, prog[k]? = some (.set [r, c] x) →
        os[k]? = some (if (entry t r c).isSome then Seen.done else .indexError)) :=
  exec_eq prog t h

example : exec [[1, 2], [3]] [.set [0, 1] 7, .get [0, 1], .set [5, 0] 9, .get [1, 1], .set [1, 0] (-2), .set [0, 1] 8] =
    some ([[1, 8], [-2]], [.done, .read 7, .indexError, .indexError, .done, .done]) := by decide

/-- **C128.** The full statement fails: `T[0,2]=1` on a tableau with rows of length 2 and 1 writes outside the row, although `T[0,2]` raises
`IndexError`; the same for a negative column. -/
theorem C128_column_unchecked : exec [[1, 2], [3]] [.set [0, 2] 1] = none ∧ exec [[1, 2], [3]] [.set [0, -1] 1] = none ∧
    exec [[1, 2], [3]] [.get [0, 2], .get [0, -1]] = some ([[1, 2], [3]], [.indexError, .indexError]) := by decide

/-- **C128.** `T==T'` says whether the tableaux have the same number of rows and the same entries in the same boxes. -/
theorem C128_equal (t t' : List (List Int)) :
    ITab.eq t t' = true ↔ t.length = t'.length ∧ ∀ r c, entry t r c = entry t' r c := by
  rw [eq_iff, ext_iff]

example : ITab.eq [[1, 2], [3]] [[1, 2], [3]] = true ∧ ITab.eq [[1, 2], [3]] [[1, 2]] = false ∧
    ITab.eq [[1, 2], [3]] [[1, 3], [2]] = false := by decide

/-- **C128.** From every standard tableau every other one of the same shape is reached by calls of `apply_transp(i)`, all of which return a
distance other than 1 and -1 and go through standard tableaux only. -/
theorem C128_reach (n : Nat) (p : List Nat) (hp : IsPartition n p) (T T' : Tab) (hT : IsSYT p T) (hT' : IsSYT p T') :
    ∃ is ds, Tab.applyTransps T is = some (T', ds) ∧ (∀ i ∈ is, 1 ≤ i ∧ i < n) ∧ (∀ d ∈ ds, d ≠ 1 ∧ d ≠ -1) ∧
      ∀ k, ∃ U es, Tab.applyTransps T (is.take k) = some (U, es) ∧ IsSYT p U := by
  obtain ⟨u, hu, hc, rfl⟩ := hT.exists_word hp
  obtain ⟨v, hv, hc', rfl⟩ := hT'.exists_word hp
  have key : ∀ a b : Wd n p, Relation.ReflTransGen Step a b → ∃ is ds, Tab.applyTransps (toTab a.1) is = some (toTab b.1, ds) ∧
      (∀ i ∈ is, 1 ≤ i ∧ i < n) ∧ (∀ d ∈ ds, d ≠ 1 ∧ d ≠ -1) ∧
      ∀ k, ∃ U es, Tab.applyTransps (toTab a.1) (is.take k) = some (U, es) ∧ IsSYT p U := by
    intro a b h
    have hs : ∀ w : Wd n p, IsSYT p (toTab w.1) := fun w => (toTab_isSYT hp (w.lat hp) ((mem_words hp w.1).1 w.2).2).1
    induction h using Relation.ReflTransGen.head_induction_on with
    | refl => exact ⟨[], [], rfl, by simp, by simp, fun k => ⟨toTab b.1, [], by simp [Tab.applyTransps], hs b⟩⟩
    | head h1 _ ih =>
      rename_i a c _
      obtain ⟨is, ds, e1, e2, e3, e4⟩ := ih
      obtain ⟨i, d, f1, f2, f3, f4, f5⟩ := step_apply hp h1
      refine ⟨i :: is, d :: ds, by simp [Tab.applyTransps, f3, e1], ?_, ?_, ?_⟩
      · intro j hj
        rcases List.mem_cons.1 hj with rfl | hj
        · exact ⟨f1, f2⟩
        · exact e2 j hj
      · intro j hj
        rcases List.mem_cons.1 hj with rfl | hj
        · exact ⟨f4, f5⟩
        · exact e3 j hj
      · intro k
        cases k with
        | zero => exact ⟨toTab a.1, [], by simp [Tab.applyTransps], hs a⟩
        | succ k =>
          obtain ⟨U, es, g1, g2⟩ := e4 k
          exact ⟨U, d :: es, by simp [Tab.applyTransps, f3, g1], g2⟩
  exact key ⟨u, (mem_words hp u).2 ⟨hu, hc⟩⟩ ⟨v, (mem_words hp v).2 ⟨hv, hc'⟩⟩ (words_connected hp _ _)

example : Tab.applyTransps [[1, 2, 3], [4, 5]] [3, 2, 4] = some ([[1, 3, 5], [2, 4]], [-3, -2, -2]) := by decide

/-- **C128.** What `index` and `apply_transp` do with a number that is not in the tableau: `index` returns the box (0,0), and
`apply_transp(i,j)` then replaces `i` by `j` and puts `i` into the box (0,0), whatever was there; nothing is reported. -/
theorem C128_absent (T : Tab) (hT : T.flatten.Nodup) (i j r c x : Nat) (hi : cell T r c = some i) (hj : j ∉ T.flatten)
    (h0 : cell T 0 0 = some x) (hrc : (r, c) ≠ (0, 0)) :
    Tab.index T j = (0, 0) ∧ ∃ T' d, Tab.applyTransp T i j = some (T', d) ∧ cell T' r c = some j ∧ cell T' 0 0 = some i ∧
      ∀ r' c', (r', c') ≠ (r, c) → (r', c') ≠ (0, 0) → cell T' r' c' = cell T r' c' := by
  have hix : Tab.index T j = (0, 0) := by
    unfold Tab.index
    cases h : Tab.findPos j T with
    | none => rfl
    | some rc =>
      have := findPos_some h
      exact absurd ((mem_flatten_iff T j).2 ⟨_, _, this⟩) hj
  refine ⟨hix, ?_⟩
  have hii := index_of_cell (inj_of_nodup hT) hi
  obtain ⟨t1, e1, s1, c1⟩ := setAt_spec (rc := (r, c)) hi j
  have h01 : cell t1 0 0 = some x := by
    rw [c1, if_neg, h0]
    simpa [eq_comm] using hrc
  obtain ⟨t2, e2, s2, c2⟩ := setAt_spec (rc := (0, 0)) h01 i
  refine ⟨t2, ((0 : Nat) : Int) - (0 : Nat) - ((c : Int) - r), ?_, ?_, ?_, ?_⟩
  · simp only [Tab.applyTransp, hii, hix, e1, e2]
  · rw [c2, if_neg (by simpa [Prod.ext_iff] using hrc), c1, if_pos ⟨rfl, rfl⟩]
  · rw [c2, if_pos ⟨rfl, rfl⟩]
  · intro r' c' h1 h2
    rw [c2, if_neg (by simpa [Prod.ext_iff] using h2), c1, if_neg (by simpa [Prod.ext_iff] using h1)]

example : Tab.applyTransp [[1, 2], [3]] 3 7 = some ([[3, 2], [7]], 1) := by decide

end Snob.Props
