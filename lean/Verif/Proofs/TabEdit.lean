import Verif.Spec.TabEdit
import Verif.Proofs.Schur

/-! # Programs that edit a tableau; tableaux reachable by exchanges -/

namespace Snob

namespace ITab

theorem vecAtE_eq {α : Type} (v : List α) (i : Int) :
    vecAtE v i = match (if 0 ≤ i then v[i.toNat]? else none) with
      | some a => .value a
      | none => .raised := by
  unfold vecAtE
  split <;> rfl

theorem at2_eq (t : List (List Int)) (r c : Int) : at2 t r c = match entry t r c with
    | some x => .value x
    | none => .raised := by
  unfold at2 entry
  rw [vecAtE_eq]
  by_cases hr : 0 ≤ r
  · simp only [hr, if_true, true_and]
    cases h : t[r.toNat]? with
    | none => simp
    | some row =>
      simp only [Option.bind_some]
      rw [vecAtE_eq]
      cases (if 0 ≤ c then row[c.toNat]? else none) <;> rfl
  · simp [hr]

theorem entry_set {t : List (List Int)} {r c : Int} {row : List Int} (hr : 0 ≤ r) (hc : 0 ≤ c) (hrow : t[r.toNat]? = some row)
    (hlt : c.toNat < row.length) (x r' c' : Int) :
    entry (t.set r.toNat (row.set c.toNat x)) r' c' = if r' = r ∧ c' = c then some x else entry t r' c' := by
  have hl : r.toNat < t.length := (List.getElem?_eq_some_iff.1 hrow).1
  unfold entry
  by_cases h0 : 0 ≤ r' ∧ 0 ≤ c'
  · simp only [h0, and_self, if_true]
    by_cases h1 : r' = r
    · subst h1
      rw [List.getElem?_set_self hl, hrow]
      simp only [Option.bind_some, true_and]
      by_cases h2 : c' = c
      · subst h2
        rw [if_pos rfl, List.getElem?_set_self hlt]
      · rw [if_neg h2, List.getElem?_set_ne (by omega)]
    · rw [if_neg (fun h => h1 h.1), List.getElem?_set_ne (by omega)]
  · rw [if_neg h0, if_neg h0, if_neg]
    rintro ⟨rfl, rfl⟩
    exact h0 ⟨hr, hc⟩

theorem setValue_cell {t : List (List Int)} {r c : Int} (h : (entry t r c).isSome) (x : Int) :
    ∃ t', setValue t r c x = some (.value t') ∧ t'.map List.length = t.map List.length ∧
      ∀ r' c', entry t' r' c' = if r' = r ∧ c' = c then some x else entry t r' c' := by
  have h0 : 0 ≤ r ∧ 0 ≤ c := by
    by_contra hn
    simp [entry, hn] at h
  unfold entry at h
  rw [if_pos h0] at h
  cases hrow : t[r.toNat]? with
  | none => simp [hrow] at h
  | some row =>
    rw [hrow, Option.bind_some] at h
    have hlt : c.toNat < row.length := by
      by_contra hn
      rw [List.getElem?_eq_none (by omega)] at h
      simp at h
    refine ⟨_, ?_, ?_, entry_set h0.1 h0.2 hrow hlt x⟩
    · unfold setValue
      rw [vecAtE_eq, if_pos h0.1, hrow]
      simp only
      rw [if_pos ⟨h0.2, hlt⟩]
    · apply List.ext_getElem?
      intro k
      simp only [List.getElem?_map]
      by_cases hk : r.toNat = k
      · subst hk
        rw [List.getElem?_set_self (List.getElem?_eq_some_iff.1 hrow).1, hrow]
        simp
      · rw [List.getElem?_set_ne hk]

theorem setValue_row {t : List (List Int)} {r : Int} (h : ¬ (0 ≤ r ∧ r < t.length)) (c x : Int) :
    setValue t r c x = some .raised := by
  have : (if 0 ≤ r then t[r.toNat]? else none) = none := by
    split
    · rw [List.getElem?_eq_none]; omega
    · rfl
  unfold setValue
  rw [vecAtE_eq, this]

theorem setValue_none {t : List (List Int)} {r c : Int} (h : entry t r c = none) (hr : 0 ≤ r ∧ r < t.length) (x : Int) :
    setValue t r c x = none := by
  have hlt : r.toNat < t.length := by omega
  have hrow := List.getElem?_eq_getElem hlt
  unfold setValue
  rw [vecAtE_eq, if_pos hr.1, hrow]
  simp only
  rw [if_neg]
  rintro ⟨hc, hcl⟩
  unfold entry at h
  rw [if_pos ⟨hr.1, hc⟩, hrow, Option.bind_some, List.getElem?_eq_getElem hcl] at h
  simp at h

theorem entry_row {t : List (List Int)} {r : Int} (h : ¬ (0 ≤ r ∧ r < t.length)) (c : Int) : entry t r c = none := by
  unfold entry
  split
  · rw [List.getElem?_eq_none (by omega)]; rfl
  · rfl

/-- whether a statement is safe depends on the boxes only -/
theorem safe_congr {t t' : List (List Int)} (hs : t'.map List.length = t.map List.length)
    (he : ∀ r c, (entry t' r c).isSome = (entry t r c).isSome) (s : Stmt) : Safe t' s ↔ Safe t s := by
  have hl : t'.length = t.length := by simpa using congrArg List.length hs
  cases s with
  | get v => rfl
  | set v x => simp only [Safe, he, hl]

/-- what one statement does -/
theorem exec1_eq {t : List (List Int)} {s : Stmt} (h : Safe t s) : ∃ t' o, exec1 t s = some (t', o) ∧
    t'.map List.length = t.map List.length ∧
    (∀ r c, entry t' r c = (entry t r c).map fun x => (lastWrite [s] r c).getD x) ∧
    (∀ r c, s = .get [r, c] → o = shows (entry t r c)) ∧
    (∀ r c x, s = .set [r, c] x → o = if (entry t r c).isSome then Seen.done else .indexError) := by
  cases s with
  | get v =>
    obtain ⟨r, c, rfl⟩ := List.length_eq_two.1 h
    refine ⟨t, shows (entry t r c), ?_, rfl, ?_, ?_, ?_⟩
    · simp only [exec1, getItem, at2_eq]
      cases entry t r c <;> rfl
    · intro r' c'
      simp [lastWrite]
    · rintro r' c' e
      simp only [Stmt.get.injEq, List.cons.injEq, and_true] at e
      rw [e.1, e.2]
    · intro r' c' x e
      simp at e
  | set v x =>
    obtain ⟨r, c, rfl, h1 | h1⟩ := h
    · obtain ⟨t', e1, e2, e3⟩ := setValue_cell h1 x
      refine ⟨t', .done, by simp only [exec1, setItem, e1], e2, ?_, by simp, ?_⟩
      · intro r' c'
        rw [e3]
        by_cases hh : r' = r ∧ c' = c
        · rw [if_pos hh, hh.1, hh.2]
          obtain ⟨y, hy⟩ := Option.isSome_iff_exists.1 h1
          simp [hy, lastWrite]
        · rw [if_neg hh]
          have : ¬ ([r, c] = [r', c']) := by
            simp only [List.cons.injEq, and_true]
            rintro ⟨rfl, rfl⟩
            exact hh ⟨rfl, rfl⟩
          simp only [lastWrite, this, if_false, Option.getD_none, Option.map_id']
      · rintro r' c' x' e
        simp only [Stmt.set.injEq, List.cons.injEq, and_true] at e
        rw [← e.1.1, ← e.1.2, if_pos h1]
    · refine ⟨t, .indexError, by simp only [exec1, setItem, setValue_row h1], rfl, ?_, by simp, ?_⟩
      · intro r' c'
        by_cases hh : r' = r
        · rw [hh, entry_row h1]; rfl
        · have : ¬ ([r, c] = [r', c']) := by
            simp only [List.cons.injEq, and_true]
            rintro ⟨rfl, -⟩
            exact hh rfl
          simp only [lastWrite, this, if_false, Option.getD_none, Option.map_id']
      · rintro r' c' x' e
        simp only [Stmt.set.injEq, List.cons.injEq, and_true] at e
        rw [← e.1.1, entry_row h1]
        rfl

theorem exec1_none {t : List (List Int)} {s : Stmt} (h : ¬ Safe t s) : exec1 t s = none := by
  cases s with
  | get v =>
    have : getItem t v = none := by
      unfold getItem
      split
      · exact absurd rfl h
      · rfl
    simp only [exec1, this]
  | set v x =>
    have : setItem t v x = none := by
      unfold setItem
      split
      · rename_i r c
        apply setValue_none
        · by_contra hn
          exact h ⟨r, c, rfl, Or.inl (Option.isSome_iff_ne_none.2 hn)⟩
        · by_contra hn
          exact h ⟨r, c, rfl, Or.inr hn⟩
      · rfl
    simp only [exec1, this]

theorem lastWrite_cons (s : Stmt) (prog : List Stmt) (r c : Int) (x : Int) :
    (lastWrite (s :: prog) r c).getD x = (lastWrite prog r c).getD ((lastWrite [s] r c).getD x) := by
  cases s with
  | get v => simp [lastWrite]
  | set v y =>
    simp only [lastWrite]
    cases lastWrite prog r c <;> simp

/-- what a program does -/
theorem exec_eq (prog : List Stmt) : ∀ t : List (List Int), (∀ s ∈ prog, Safe t s) → ∃ t' os, exec t prog = some (t', os) ∧
    t'.map List.length = t.map List.length ∧
    (∀ r c, entry t' r c = (entry t r c).map fun x => (lastWrite prog r c).getD x) ∧
    os.length = prog.length ∧
    (∀ (k : Nat) r c, prog[k]? = some (.get [r, c]) →
      os[k]? = some (shows ((entry t r c).map fun x => (lastWrite (prog.take k) r c).getD x))) ∧
    (∀ (k : Nat) r c x, prog[k]? = some (.set [r, c] x) →
      os[k]? = some (if (entry t r c).isSome then Seen.done else .indexError)) := by
  induction prog with
  | nil => intro t _; exact ⟨t, [], rfl, rfl, by simp [lastWrite], rfl, by simp, by simp⟩
  | cons s prog ih =>
    intro t h
    obtain ⟨t1, o, e1, e2, e3, e4, e5⟩ := exec1_eq (h s (by simp))
    have hs : ∀ r c, (entry t1 r c).isSome = (entry t r c).isSome := fun r c => by rw [e3]; simp
    obtain ⟨t', os, f1, f2, f3, f4, f5, f6⟩ := ih t1 fun s' hs' => (safe_congr e2 hs s').2 (h s' (by simp [hs']))
    refine ⟨t', o :: os, ?_, f2.trans e2, ?_, by simp [f4], ?_, ?_⟩
    · simp [exec, e1, f1]
    · intro r c
      rw [f3, e3, Option.map_map]
      congr 1
      funext x
      rw [lastWrite_cons]
      rfl
    · intro k r c hk
      cases k with
      | zero =>
        simp only [List.getElem?_cons_zero, Option.some.injEq] at hk
        simp [e4 r c hk, lastWrite]
      | succ k =>
        simp only [List.getElem?_cons_succ] at hk ⊢
        rw [f5 k r c hk, e3, Option.map_map]
        congr 3
        funext x
        rw [List.take_succ_cons, lastWrite_cons]
        rfl
    · intro k r c x hk
      cases k with
      | zero =>
        simp only [List.getElem?_cons_zero, Option.some.injEq] at hk
        simp [e5 r c x hk]
      | succ k =>
        simp only [List.getElem?_cons_succ] at hk ⊢
        rw [f6 k r c x hk, hs]

theorem exec_isSome (prog : List Stmt) : ∀ t : List (List Int), (exec t prog).isSome → ∀ s ∈ prog, Safe t s := by
  induction prog with
  | nil => simp
  | cons s prog ih =>
    intro t h
    by_cases hs : Safe t s
    · obtain ⟨t1, o, e1, e2, e3, e4, e5⟩ := exec1_eq hs
      have hs' : ∀ r c, (entry t1 r c).isSome = (entry t r c).isSome := fun r c => by rw [e3]; simp
      have h1 : (exec t1 prog).isSome := by
        cases he : exec t1 prog with
        | none => simp [exec, e1, he] at h
        | some _ => rfl
      intro s' hs''
      rcases List.mem_cons.1 hs'' with rfl | hm
      · exact hs
      · exact (safe_congr e2 hs' s').1 (ih t1 h1 s' hm)
    · simp [exec, exec1_none hs] at h

theorem rowEq_iff : ∀ x y : List Int, rowEq x y = true ↔ x = y
  | [], [] => by simp [rowEq]
  | [], _ :: _ => by simp [rowEq]
  | _ :: _, [] => by simp [rowEq]
  | a :: x, b :: y => by simp [rowEq, rowEq_iff x y]

theorem eq_iff : ∀ x y : List (List Int), eq x y = true ↔ x = y
  | [], [] => by simp [eq]
  | [], _ :: _ => by simp [eq]
  | _ :: _, [] => by simp [eq]
  | a :: x, b :: y => by simp [eq, eq_iff x y, rowEq_iff]

theorem ext_iff (t t' : List (List Int)) : t = t' ↔ t.length = t'.length ∧ ∀ r c, entry t r c = entry t' r c := by
  constructor
  · rintro rfl; exact ⟨rfl, fun _ _ => rfl⟩
  · rintro ⟨hl, h⟩
    apply List.ext_getElem hl
    intro i h1 h2
    apply List.ext_getElem?
    intro j
    have := h i j
    simpa [entry, List.getElem?_eq_getElem h1, List.getElem?_eq_getElem h2] using this

end ITab

section
variable {n : Nat} {p : List Nat}

/-- `v` comes from `u` by an exchange of two neighbouring entries -/
def Step (u v : Wd n p) : Prop := ∃ k, 1 ≤ k ∧ k < n ∧ v.cont = sw k u.cont ∧ offc (u.cont (k + 1) - u.cont k) ≠ 0

/-- any two words of a shape are connected by exchanges that stay in the shape -/
theorem words_connected (hp : IsPartition n p) (u v : Wd n p) : Relation.ReflTransGen Step u v := by
  classical
  have hsymm : ∀ a b : Wd n p, Step a b → Step b a := by
    rintro a b ⟨k, h1, h2, h, h3⟩
    refine ⟨k, h1, h2, by rw [h, sw_sw], ?_⟩
    rw [h, sw_hi, sw_lo, ← neg_sub, offc_neg]
    exact h3
  set D : Matrix (Wd n p) (Wd n p) ℝ := Matrix.diagonal fun w => if Relation.ReflTransGen Step u w then 1 else 0 with hD
  have hgen : ∀ k, k + 1 < n → rho hp (adj n k) * D = D * rho hp (adj n k) := by
    intro k hk
    rw [rho_adj hp hk]
    ext a b
    rw [hD, Matrix.mul_diagonal, Matrix.diagonal_mul]
    by_cases h0 : yorM n p (k + 1) a b = 0
    · rw [h0]; ring
    · have : Relation.ReflTransGen Step u a ↔ Relation.ReflTransGen Step u b := by
        by_cases hab : b = a
        · rw [hab]
        · have hs : Step a b := by
            by_cases hc : b.cont = sw (k + 1) a.cont
            · refine ⟨k + 1, by omega, hk, hc, fun hz => h0 ?_⟩
              simp only [yorM, if_neg hab, if_pos hc, hz]
            · exact absurd (by simp only [yorM, if_neg hab, if_neg hc]) h0
          exact ⟨fun h => h.tail hs, fun h => h.tail (hsymm _ _ hs)⟩
      simp only [this]
      ring
  have hall : ∀ σ, rho hp σ * D = D * rho hp σ := by
    intro σ
    induction σ using perm_induction with
    | h1 => simp
    | hs k σ hk ih => rw [map_mul, mul_assoc, ih, ← mul_assoc, hgen k hk, mul_assoc]
  obtain ⟨c, hc⟩ := schur_eq hp D hall
  have hu : D u u = 1 := by
    rw [hD, Matrix.diagonal_apply_eq, if_pos Relation.ReflTransGen.refl]
  have hv : D v v = D u u := by rw [hc]; simp
  rw [hu, hD, Matrix.diagonal_apply_eq] at hv
  by_contra hn
  rw [if_neg hn] at hv
  exact zero_ne_one hv

/-- an exchange of words is a call of `apply_transp` with distance other than 1 and -1 -/
theorem step_apply (hp : IsPartition n p) {u v : Wd n p} (h : Step u v) : ∃ (k : Nat) (d : Int), 1 ≤ k ∧ k < n ∧
    Tab.applyTransp (toTab u.1) k (k + 1) = some (toTab v.1, d) ∧ d ≠ 1 ∧ d ≠ -1 := by
  obtain ⟨k, h1, h2, e, h3⟩ := h
  have hl := u.length hp
  obtain ⟨T', d, f, g, h0, _, _, hyes, hno⟩ := applyTransp_toTab (u.lat hp) h1 (by omega)
  have hd : d ≠ 1 ∧ d ≠ -1 := by
    constructor <;> intro hd <;> apply h3 <;> apply offc_zero_of_unit <;> unfold Wd.cont <;> omega
  obtain ⟨u', hu', hT, _, hc, hpos⟩ := hyes hd
  have hw : u' ∈ words n p := (mem_words hp u').2 ⟨hu', fun i => (hc i).trans (((mem_words hp u.1).1 u.2).2 i)⟩
  have : (⟨u', hw⟩ : Wd n p) = v := by
    apply Wd.cont_injective hp
    rw [e]
    funext m
    unfold Wd.cont sw
    simp only [contW, hpos]
  subst this
  exact ⟨k, d, h1, h2, by rw [f, hT], hd.1, hd.2⟩

end

end Snob
