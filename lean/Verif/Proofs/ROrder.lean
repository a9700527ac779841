import Verif.Proofs.PartitionList

namespace Snob

open IP

/-- invariant of the traversal: `S` are the indices in progress -/
structure ROInv (ok : Nat → Nat → Bool) (N : Nat) (S : Nat → Prop) (st : ROState) : Prop where
  len : st.used.length = N
  used : ∀ k, k < N → (st.used[k]? = some true ↔ k ∈ st.out ∨ S k)
  nodup : st.out.Nodup
  lt : ∀ k ∈ st.out, k < N
  disj : ∀ k ∈ st.out, ¬ S k
  closed : ∀ l1 i l2, st.out = l1 ++ i :: l2 → ∀ j, i < j → j < N → ok i j = true → j ∈ l1

theorem roLoop_spec {ok : Nat → Nat → Bool} {N i : Nat} {S : Nat → Prop}
    {rec : Nat → ROState → Option ROState}
    (hrec : ∀ j st, i < j → j < N → ROInv ok N S st → st.used[j]? = some false →
      ∃ st', rec j st = some st' ∧ ROInv ok N S st' ∧ st.out <+: st'.out ∧ j ∈ st'.out)
    (hS : ∀ k, S k → k ≤ i) (js : List Nat) (hjs : ∀ j ∈ js, i < j ∧ j < N) (st : ROState)
    (hinv : ROInv ok N S st) :
    ∃ st', roLoop rec (ok i) js st = some st' ∧ ROInv ok N S st' ∧ st.out <+: st'.out ∧
      ∀ j ∈ js, ok i j = true → j ∈ st'.out := by
  induction js generalizing st with
  | nil => exact ⟨st, rfl, hinv, List.prefix_rfl, by simp⟩
  | cons j js ih =>
    have hj := hjs j (by simp)
    have hjs' : ∀ j ∈ js, i < j ∧ j < N := fun k hk => hjs k (by simp [hk])
    have hlen : j < st.used.length := by rw [hinv.len]; exact hj.2
    rw [roLoop]
    rcases hb : st.used[j] with _ | _
    · have hb' : st.used[j]? = some false := by simp [hlen, hb]
      rw [hb']
      simp only
      by_cases hok : ok i j = true
      · rw [if_pos hok]
        obtain ⟨st1, e1, i1, p1, m1⟩ := hrec j st hj.1 hj.2 hinv hb'
        rw [e1]
        simp only
        obtain ⟨st2, e2, i2, p2, m2⟩ := ih hjs' st1 i1
        refine ⟨st2, e2, i2, p1.trans p2, ?_⟩
        intro k hk hok'
        rcases List.mem_cons.1 hk with rfl | hk
        · exact p2.subset m1
        · exact m2 k hk hok'
      · rw [if_neg hok]
        obtain ⟨st2, e2, i2, p2, m2⟩ := ih hjs' st hinv
        refine ⟨st2, e2, i2, p2, ?_⟩
        intro k hk hok'
        rcases List.mem_cons.1 hk with rfl | hk
        · exact absurd hok' hok
        · exact m2 k hk hok'
    · have hb' : st.used[j]? = some true := by simp [hlen, hb]
      rw [hb']
      simp only
      obtain ⟨st2, e2, i2, p2, m2⟩ := ih hjs' st hinv
      refine ⟨st2, e2, i2, p2, ?_⟩
      intro k hk hok'
      rcases List.mem_cons.1 hk with rfl | hk
      · rcases (hinv.used k hj.2).1 hb' with h | h
        · exact p2.subset h
        · have := hS k h; omega
      · exact m2 k hk hok'

theorem proposeRO_spec {ok : Nat → Nat → Bool} {N : Nat} (fuel i : Nat) (hi : i < N)
    (hf : N ≤ fuel + i) (S : Nat → Prop) (hS : ∀ k, S k → k < i) (st : ROState)
    (hinv : ROInv ok N S st) (hu : st.used[i]? = some false) :
    ∃ st', proposeRO ok N fuel i st = some st' ∧ ROInv ok N S st' ∧ st.out <+: st'.out ∧
      i ∈ st'.out := by
  induction fuel generalizing i S st with
  | zero => omega
  | succ fuel ih =>
    rw [proposeRO, if_pos (by rw [hinv.len]; exact hi)]
    let S' : Nat → Prop := fun k => S k ∨ k = i
    have hnotin : i ∉ st.out := fun hm => by
      have := (hinv.used i hi).2 (Or.inl hm)
      rw [hu] at this; cases this
    have hinv' : ROInv ok N S' { st with used := st.used.set i true } := by
      refine ⟨by simp [hinv.len], ?_, hinv.nodup, hinv.lt, ?_, hinv.closed⟩
      · intro k hk
        simp only [List.getElem?_set]
        by_cases e : i = k
        · subst e
          simp [hinv.len, hi, S']
        · simp only [e, if_false, hinv.used k hk, S']
          constructor
          · rintro (h | h)
            · exact Or.inl h
            · exact Or.inr (Or.inl h)
          · rintro (h | h | h)
            · exact Or.inl h
            · exact Or.inr h
            · exact absurd h.symm e
      · rintro k hk (h | h)
        · exact hinv.disj k hk h
        · subst h; exact hnotin hk
    obtain ⟨st2, e2, i2, p2, m2⟩ := roLoop_spec (ok := ok) (N := N) (i := i) (S := S')
      (rec := proposeRO ok N fuel)
      (fun j st1 hij hj h1 hu1 => ih j hj (by omega) S'
        (by rintro k (h | h)
            · have := hS k h; omega
            · omega) st1 h1 hu1)
      (by rintro k (h | h)
          · have := hS k h; omega
          · omega)
      (List.range' (i + 1) (N - (i + 1)))
      (by intro j hj; rw [List.mem_range'_1] at hj; omega)
      { st with used := st.used.set i true } hinv'
    rw [e2]
    simp only
    have hnot2 : i ∉ st2.out := fun hm => i2.disj i hm (Or.inr rfl)
    refine ⟨_, rfl, ⟨i2.len, ?_, ?_, ?_, ?_, ?_⟩, ?_, by simp⟩
    · intro k hk
      rw [i2.used k hk]
      simp only [List.mem_append, List.mem_singleton, S']
      constructor
      · rintro (h | h | h)
        · exact Or.inl (Or.inl h)
        · exact Or.inr h
        · exact Or.inl (Or.inr h)
      · rintro ((h | h) | h)
        · exact Or.inl h
        · exact Or.inr (Or.inr h)
        · exact Or.inr (Or.inl h)
    · rw [List.nodup_append]
      refine ⟨i2.nodup, by simp, ?_⟩
      intro a ha b hb e
      simp only [List.mem_singleton] at hb
      subst hb; subst e; exact hnot2 ha
    · intro k hk
      rcases List.mem_append.1 hk with h | h
      · exact i2.lt k h
      · simp at h; omega
    · intro k hk hSk
      rcases List.mem_append.1 hk with h | h
      · exact i2.disj k h (Or.inl hSk)
      · simp at h; subst h; have := hS k hSk; omega
    · intro l1 a l2 hl j haj hj hok
      simp only at hl
      rcases List.eq_nil_or_concat l2 with rfl | ⟨l2', b, rfl⟩
      · have hh := List.append_inj' hl (by simp)
        have ha : i = a := by simpa using hh.2
        subst ha
        rw [← hh.1]
        exact m2 j (by rw [List.mem_range'_1]; omega) hok
      · have hl' : st2.out ++ [i] = (l1 ++ a :: l2') ++ [b] := by rw [hl]; simp
        have hh := List.append_inj' hl' (by simp)
        exact i2.closed l1 a l2' hh.1 j haj hj hok
    · exact p2.trans (List.prefix_append _ _)

theorem roOuter_spec {ok : Nat → Nat → Bool} {N : Nat} (is : List Nat) (his : ∀ i ∈ is, i < N)
    (st : ROState) (hinv : ROInv ok N (fun _ => False) st) :
    ∃ st', roOuter ok N is st = some st' ∧ ROInv ok N (fun _ => False) st' ∧ st.out <+: st'.out ∧
      ∀ i ∈ is, i ∈ st'.out := by
  induction is generalizing st with
  | nil => exact ⟨st, rfl, hinv, List.prefix_rfl, by simp⟩
  | cons i is ih =>
    have hi := his i (by simp)
    have his' : ∀ i ∈ is, i < N := fun k hk => his k (by simp [hk])
    have hlen : i < st.used.length := by rw [hinv.len]; exact hi
    rw [roOuter]
    rcases hb : st.used[i] with _ | _
    · have hb' : st.used[i]? = some false := by simp [hlen, hb]
      rw [hb']
      simp only
      obtain ⟨st1, e1, i1, p1, m1⟩ := proposeRO_spec N i hi (by omega) (fun _ => False)
        (fun _ h => h.elim) st hinv hb'
      rw [e1]
      obtain ⟨st2, e2, i2, p2, m2⟩ := ih his' st1 i1
      refine ⟨st2, e2, i2, p1.trans p2, ?_⟩
      intro k hk
      rcases List.mem_cons.1 hk with rfl | hk
      · exact p2.subset m1
      · exact m2 k hk
    · have hb' : st.used[i]? = some true := by simp [hlen, hb]
      rw [hb']
      simp only
      obtain ⟨st2, e2, i2, p2, m2⟩ := ih his' st hinv
      refine ⟨st2, e2, i2, p2, ?_⟩
      intro k hk
      rcases List.mem_cons.1 hk with rfl | hk
      · rcases (hinv.used k hi).1 hb' with h | h
        · exact p2.subset h
        · exact h.elim
      · exact m2 k hk

theorem mapM_getElem? (ps : List (List Nat)) (out : List Nat) (h : ∀ k ∈ out, k < ps.length) :
    ∃ L, out.mapM (fun i => ps[i]?) = some L ∧ L = out.filterMap (fun i => ps[i]?) ∧
      L.length = out.length := by
  induction out with
  | nil => exact ⟨[], rfl, rfl, rfl⟩
  | cons k out ih =>
    obtain ⟨L, h1, h2, h3⟩ := ih fun j hj => h j (by simp [hj])
    have hk := h k (by simp)
    refine ⟨ps[k] :: L, ?_, ?_, by simp [h3]⟩
    · rw [List.mapM_cons, h1]
      simp [hk]
    · simp [hk, h2]

/-- The restriction order of any list. -/
theorem roOrder_spec (ps : List (List Nat)) :
    ∃ out : List Nat, out.Perm (List.range ps.length) ∧
      roOrder ps = some (out.filterMap (fun i => ps[i]?)) ∧
      ∀ l1 i l2, out = l1 ++ i :: l2 → ∀ j, i < j → ∀ (hj : j < ps.length) (hi : i < ps.length),
        subsumes ps[i] ps[j] = true → j ∈ l1 := by
  unfold roOrder
  obtain ⟨st, e, inv, _, m⟩ := roOuter_spec (ok := roOk ps) (N := ps.length) (List.range ps.length)
    (by intro i hi; exact List.mem_range.1 hi) ⟨List.replicate ps.length false, []⟩
    ⟨by simp, by intro k hk; simp [hk], by simp, by simp, by simp, by simp⟩
  refine ⟨st.out, ?_, ?_, ?_⟩
  · rw [List.perm_ext_iff_of_nodup inv.nodup List.nodup_range]
    intro k
    exact ⟨fun h => List.mem_range.2 (inv.lt k h), fun h => m k h⟩
  · rw [e]
    obtain ⟨L, h1, h2, _⟩ := mapM_getElem? ps st.out inv.lt
    simp only
    rw [h1, h2]
  · intro l1 i l2 hl j hij hj hi hs
    refine inv.closed l1 i l2 hl j hij hj ?_
    simp only [roOk, List.getElem?_eq_getElem hi, List.getElem?_eq_getElem hj]
    exact hs

end Snob
