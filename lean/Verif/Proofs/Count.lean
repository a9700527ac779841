import Verif.Model.Count
import Verif.Proofs.FFTDims
import Verif.Proofs.FFTDown
import Verif.Proofs.FFTTmpl
import Verif.Proofs.FloatIFFT
import Mathlib.Tactic.Ring
import Mathlib.Tactic.Linarith

/-!
Counting operations: rules for the counter, and the cost of the action of a transposition.
-/

namespace Snob

open IP
open scoped Nat

variable {α β : Type}

/-- `x` computes `y`; if it ends it takes at most `k` operations and the result satisfies `Q` -/
structure Costs (x : Cnt α) (y : Option α) (k : Nat) (Q : α → Prop) : Prop where
  value : x.value = y
  le : ∀ a c, x = some (a, c) → c ≤ k ∧ Q a

theorem Costs.pure {Q : α → Prop} {a : α} (h : Q a) : Costs (Pure.pure a : Cnt α) (some a) 0 Q :=
  ⟨rfl, fun _ _ e => by obtain ⟨rfl, rfl⟩ := Prod.mk.inj (Option.some.inj e); exact ⟨Nat.le_refl 0, h⟩⟩

theorem Costs.free {Q : α → Prop} {y : Option α} (h : ∀ a, y = some a → Q a) : Costs (Cnt.free y) y 0 Q := by
  cases y with
  | none => exact ⟨rfl, fun _ _ e => by cases e⟩
  | some b => exact ⟨rfl, fun a c e => by obtain ⟨rfl, rfl⟩ := Prod.mk.inj (Option.some.inj e); exact ⟨Nat.le_refl 0, h _ rfl⟩⟩

theorem Costs.none {Q : α → Prop} {k : Nat} : Costs (Cnt.free (none : Option α)) none k Q :=
  ⟨rfl, fun _ _ e => by cases e⟩

theorem Costs.bind {x : Cnt α} {y : Option α} {k l : Nat} {Q : α → Prop} {Q' : β → Prop} {f : α → Cnt β} {g : α → Option β}
    (h : Costs x y k Q) (h' : ∀ a, Q a → Costs (f a) (g a) l Q') : Costs (x >>= f) (y.bind g) (k + l) Q' := by
  have e : (x >>= f) = Cnt.andThen x f := rfl
  rw [e]
  obtain ⟨h1, h2⟩ := h
  cases x with
  | none =>
    obtain rfl : y = .none := h1.symm
    exact ⟨rfl, fun _ _ e => by cases e⟩
  | some r =>
    obtain ⟨a, c⟩ := r
    obtain rfl : y = some a := h1.symm
    obtain ⟨hc, ha⟩ := h2 a c rfl
    obtain ⟨h3, h4⟩ := h' a ha
    show Costs (match f a with | .none => .none | some (b, l) => some (b, c + l)) (g a) _ _
    cases hf : f a with
    | none => rw [hf] at h3; exact ⟨h3, fun _ _ e => by cases e⟩
    | some r =>
      obtain ⟨b, c'⟩ := r
      rw [hf] at h3
      refine ⟨h3, fun a' c'' e => ?_⟩
      obtain ⟨rfl, rfl⟩ := Prod.mk.inj (Option.some.inj e)
      obtain ⟨i1, i2⟩ := h4 _ _ hf
      exact ⟨by omega, i2⟩

theorem Costs.tick {y : Option β} {k l : Nat} {Q : β → Prop} {x : Cnt β} (h : Costs x y l Q) :
    Costs (do Cnt.tick k; x) y (k + l) Q :=
  Costs.bind (x := Cnt.tick k) (y := some ()) (Q := fun _ => True) (g := fun _ => y)
    ⟨rfl, fun _ _ e => by obtain ⟨_, rfl⟩ := Prod.mk.inj (Option.some.inj e); exact ⟨Nat.le_refl _, trivial⟩⟩ fun _ _ => h

theorem Costs.mono {x : Cnt α} {y : Option α} {k l : Nat} {Q Q' : α → Prop} (h : Costs x y k Q) (hkl : k ≤ l) (hQ : ∀ a, Q a → Q' a) :
    Costs x y l Q' :=
  ⟨h.value, fun a c e => ⟨(h.le a c e).1.trans hkl, hQ a (h.le a c e).2⟩⟩

theorem Costs.mono' {x : Cnt α} {y : Option α} {k l : Nat} {Q : α → Prop} (h : Costs x y k Q) (hkl : k ≤ l) : Costs x y l Q :=
  h.mono hkl fun _ => id

/-- a further fact about the result of the computation without counter -/
theorem Costs.and {x : Cnt α} {y : Option α} {k : Nat} {Q Q' : α → Prop} (h : Costs x y k Q) (hQ : ∀ a, y = some a → Q' a) :
    Costs x y k fun a => Q a ∧ Q' a :=
  ⟨h.value, fun a c e => ⟨(h.le a c e).1, (h.le a c e).2, hQ a (by rw [← h.value, e]; rfl)⟩⟩

section
variable {S : Type} {Q : S → Prop}

theorem Costs.iterUp {bC : Int → S → Cnt S} {b : Int → S → Option S} {c : Nat → Nat} (k : Nat) : ∀ (i : Int) (j : Nat) (s : S),
    (∀ t, t < k → ∀ s, Q s → Costs (bC (i + t) s) (b (i + t) s) (c (j + t)) Q) → Q s →
    Costs (iterUpC bC k i s) (iterUp b k i s) (∑ t ∈ Finset.range k, c (j + t)) Q := by
  induction k with
  | zero => intro i j s _ hs; exact Costs.pure hs
  | succ k ih =>
    intro i j s h hs
    rw [Finset.sum_range_succ', Nat.add_comm (∑ k ∈ Finset.range k, c (j + (k + 1)))]
    refine Costs.bind (Q := Q) ?_ fun s' hs' => ?_
    · simpa using h 0 (by omega) s hs
    · have := ih (i + 1) (j + 1) s' (fun t ht s hs => by
        have := h (t + 1) (by omega) s hs
        rw [show i + 1 + (t : Int) = i + ((t + 1 : Nat) : Int) by push_cast; ring, show j + 1 + t = j + (t + 1) by ring]
        exact this) hs'
      simpa only [Nat.add_assoc, Nat.add_comm 1] using this

theorem Costs.iterDown {bC : Int → S → Cnt S} {b : Int → S → Option S} {c : Nat} (k : Nat) : ∀ (i : Int) (s : S),
    (∀ t, t < k → ∀ s, Q s → Costs (bC (i - t) s) (b (i - t) s) c Q) → Q s →
    Costs (iterDownC bC k i s) (iterDown b k i s) (k * c) Q := by
  induction k with
  | zero => intro i s _ hs; rw [Nat.zero_mul]; exact Costs.pure hs
  | succ k ih =>
    intro i s h hs
    rw [Nat.succ_mul, Nat.add_comm (k * c)]
    refine Costs.bind (Q := Q) ?_ fun s' hs' => ?_
    · simpa using h 0 (by omega) s hs
    · exact ih (i - 1) s' (fun t ht s hs => by
        have := h (t + 1) (by omega) s hs
        rw [show i - 1 - (t : Int) = i - ((t + 1 : Nat) : Int) by push_cast; ring]
        exact this) hs'

end

theorem Costs.each {f : α → Cnt β} {g : α → Option β} {c : α → Nat} {Q : α → β → Prop} (l : List α)
    (h : ∀ x ∈ l, Costs (f x) (g x) (c x) (Q x)) :
    Costs (eachC f l) (l.mapM g) ((l.map c).sum) (List.Forall₂ Q l) := by
  induction l with
  | nil => exact Costs.pure .nil
  | cons x xs ih =>
    rw [List.mapM_cons]
    refine Costs.bind (h x (by simp)) fun b hb => ?_
    refine Costs.bind (ih fun x hx => h x (by simp [hx])) (l := 0) fun bs hbs => ?_
    exact Costs.pure (.cons hb hbs)

theorem sum_le_of_forall₂ {Q : α → β → Prop} {c : β → Nat} {e : α → Nat} (h : ∀ x y, Q x y → c y ≤ e x) {l : List α} {w : List β}
    (hw : List.Forall₂ Q l w) : (w.map c).sum ≤ (l.map e).sum := by
  induction hw with
  | nil => exact Nat.le_refl _
  | cons h1 _ ih => simp only [List.map_cons, List.sum_cons]; exact Nat.add_le_add (h _ _ h1) ih

/-! ### the action of a transposition -/

section
variable {K : Type} [DecidableEq K]

theorem scaleRowC_costs (i : Nat) (c1 : ℝ) (cols : List K) : ∀ A : Nat → K → ℝ,
    Costs (IrrepObj.scaleRowC i c1 cols A) (some (IrrepObj.scaleRow i c1 cols A)) cols.length fun _ => True := by
  induction cols with
  | nil => intro A; exact Costs.pure trivial
  | cons k ks ih =>
    intro A
    rw [List.length_cons, Nat.add_comm]
    exact Costs.tick (ih _)

theorem mixRowsC_costs (i i2 : Nat) (c1 c2 : ℝ) (cols : List K) : ∀ A : Nat → K → ℝ,
    Costs (IrrepObj.mixRowsC i i2 c1 c2 cols A) (some (IrrepObj.mixRows i i2 c1 c2 cols A)) (6 * cols.length) fun _ => True := by
  induction cols with
  | nil => intro A; exact Costs.pure trivial
  | cons k ks ih =>
    intro A
    refine (Costs.tick (k := 3) (Costs.tick (k := 3) (ih _))).mono' ?_
    rw [List.length_cons]; omega

theorem scaleSomeC_costs (cols : List K) (xs : List (Nat × ℝ)) : ∀ A : Nat → K → ℝ,
    Costs (IrrepObj.scaleSomeC cols xs A) (some (xs.foldl (fun A (x : Nat × ℝ) => IrrepObj.scaleRow x.1 x.2 cols A) A))
      (xs.length * cols.length) fun _ => True := by
  induction xs with
  | nil => intro A; rw [List.length_nil, Nat.zero_mul]; exact Costs.pure trivial
  | cons x xs ih =>
    intro A
    rw [List.length_cons, Nat.succ_mul, Nat.add_comm]
    exact Costs.bind (scaleRowC_costs _ _ _ _) (g := fun A => some (xs.foldl (fun A (x : Nat × ℝ) => IrrepObj.scaleRow x.1 x.2 cols A) A))
      fun A _ => ih A

theorem givensSomeC_costs (cols : List K) (gs : List GSlot) : ∀ A : Nat → K → ℝ,
    Costs (IrrepObj.givensSomeC cols gs A) (some (gs.foldl (fun A (g : GSlot) => IrrepObj.mixRows g.i g.j g.c1 g.c2 cols A) A))
      (6 * gs.length * cols.length) fun _ => True := by
  induction gs with
  | nil => intro A; rw [List.length_nil, Nat.mul_zero, Nat.zero_mul]; exact Costs.pure trivial
  | cons x xs ih =>
    intro A
    rw [List.length_cons, show 6 * (xs.length + 1) * cols.length = 6 * cols.length + 6 * xs.length * cols.length by ring]
    exact Costs.bind (mixRowsC_costs _ _ _ _ _ _)
      (g := fun A => some (xs.foldl (fun A (g : GSlot) => IrrepObj.mixRows g.i g.j g.c1 g.c2 cols A) A)) fun A _ => ih A

/-- no more scaled slices than slices -/
theorem tensorLoop_diag {ts : List Tab} {tau : Nat} (is : List Nat) : ∀ {st st' : TensorSt}, tensorLoop ts tau is st = some st' →
    st'.diag.length ≤ st.diag.length + is.length := by
  induction is with
  | nil => intro st st' h; obtain rfl := Option.some.inj h; simp
  | cons i is ih =>
    intro st st' h
    unfold tensorLoop at h
    obtain ⟨x, h1, h2⟩ := Option.bind_eq_some_iff.1 h
    have h3 := ih h2
    have h4 : x.diag.length ≤ st.diag.length + 1 := by
      unfold tensorBody at h1
      split at h1
      · obtain rfl := Option.some.inj h1; omega
      · split at h1
        · cases h1
        · split at h1
          · obtain rfl := Option.some.inj h1; simp
          · split at h1
            · cases h1
            · simp only at h1
              split at h1
              · obtain rfl := Option.some.inj h1; simp
              · cases h1
      · cases h1
    rw [List.length_cons]; omega

theorem applyTauViewC_costs (R : IrrepObj) (hd : R.tableaux.length = R.d) (cols : List K) (tau : Int) (A : Nat → K → ℝ) :
    Costs (R.applyTauViewC cols tau A) (R.applyTauView cols tau A) (3 * (R.d * cols.length)) fun _ => True := by
  unfold IrrepObj.applyTauViewC IrrepObj.applyTauView
  split
  · cases hT : computeYORtensors R.n R.tableaux with
    | none => exact Costs.none
    | some tabs =>
      simp only
      cases hs : tabs[(tau - 1).toNat]? with
      | none => exact Costs.none
      | some st =>
        simp only
        have hdl : st.diag.length ≤ R.d := by
          unfold computeYORtensors at hT
          rw [mapM_some_iff] at hT
          have hlt := (List.getElem?_eq_some_iff.1 hs).1
          rw [hT.1] at hlt
          obtain ⟨st', h1, h2⟩ := hT.2 _ _ (List.getElem?_eq_getElem hlt)
          obtain rfl : st' = st := Option.some.inj (h1.symm.trans hs)
          have := tensorLoop_diag _ h2
          rw [List.length_range, hd] at this
          simpa using this
        refine (Costs.bind (scaleSomeC_costs cols st.diag A) (g := fun A => some ((st.givens.take ((R.d - st.diag.length) / 2)).foldl
          (fun A (g : GSlot) => IrrepObj.mixRows g.i g.j g.c1 g.c2 cols A) A)) fun A _ => givensSomeC_costs cols _ A).mono' ?_
        have h3 : (st.givens.take ((R.d - st.diag.length) / 2)).length ≤ (R.d - st.diag.length) / 2 := by
          rw [List.length_take]; exact Nat.min_le_left _ _
        have h4 : st.diag.length + 6 * (st.givens.take ((R.d - st.diag.length) / 2)).length ≤ 3 * R.d := by omega
        calc _ = (st.diag.length + 6 * (st.givens.take ((R.d - st.diag.length) / 2)).length) * cols.length := by ring
          _ ≤ 3 * R.d * cols.length := Nat.mul_le_mul_right _ h4
          _ = _ := by ring
  · exact Costs.none

/-- the rows from `i` on that are not yet done -/
def openRows (d i : Nat) (done : List Bool) : Nat := ((Finset.Ico i d).filter fun r => done[r]? = some false).card

theorem openRows_succ {d i : Nat} {done : List Bool} (hi : i < d) (h : done[i]? = some false) :
    openRows d i done = openRows d (i + 1) done + 1 := by
  unfold openRows
  rw [← Finset.insert_Ico_succ_left_eq_Ico hi, Finset.filter_insert, if_pos h, Finset.card_insert_of_notMem (by simp)]
  rfl

theorem openRows_mono {d i : Nat} (done : List Bool) : openRows d (i + 1) done ≤ openRows d i done :=
  Finset.card_le_card (Finset.filter_subset_filter _ (Finset.Ico_subset_Ico_left (Nat.le_succ i)))

theorem openRows_set {d i j : Nat} {done : List Bool} (hi : i ≤ j) (hj : j < d) (h : done[j]? = some false) :
    openRows d i (done.set j true) + 1 = openRows d i done := by
  unfold openRows
  have hjl := (List.getElem?_eq_some_iff.1 h).1
  have e : ((Finset.Ico i d).filter fun r => (done.set j true)[r]? = some false) =
      ((Finset.Ico i d).filter fun r => done[r]? = some false).erase j := by
    ext r
    simp only [Finset.mem_filter, Finset.mem_erase]
    by_cases e : j = r
    · subst e; simp [hjl]
    · rw [List.getElem?_set_ne e]
      constructor
      · rintro ⟨a, b⟩; exact ⟨Ne.symm e, a, b⟩
      · rintro ⟨_, a, b⟩; exact ⟨a, b⟩
  rw [e, Finset.card_erase_add_one]
  simp only [Finset.mem_filter, Finset.mem_Ico]
  exact ⟨⟨hi, hj⟩, h⟩

theorem tauLoopC_costs {R : IrrepObj} {tau : Int} {M : Matrix (Fin R.d) (Fin R.d) ℝ} (hS : SlotSpec R tau M) (cols : List K) (m : Nat) :
    ∀ (i : Nat) (A : Nat → K → ℝ) (done : List Bool), i + m = R.d → done.length = R.d →
    (∀ r : Nat, done[r]? = some true → ∃ q < i, ∃ s, R.slot tau q = some s ∧ s.t = r) →
    (∀ r s q, r < i → R.slot tau r = some s → s.t = (q : Nat) → q < i ∨ done[q]? = some true) →
    Costs (IrrepObj.tauLoopC R cols tau (List.range' i m) (A, done)) (IrrepObj.tauLoop R cols tau (List.range' i m) (A, done))
      (3 * openRows R.d i done * cols.length) fun _ => True := by
  induction m with
  | zero =>
    intro i A done hi hl h3 h4
    exact (Costs.pure trivial).mono' (Nat.zero_le _)
  | succ m ih =>
    intro i A done hi hl h3 h4
    have hid : i < R.d := by omega
    rw [List.range'_succ, IrrepObj.tauLoop, IrrepObj.tauLoopC]
    unfold IrrepObj.tauBody IrrepObj.tauBodyC
    simp only
    rcases hdi : done[i]? with _ | b
    · rw [List.getElem?_eq_none_iff] at hdi; omega
    · cases b with
      | true =>
        simp only
        have h := ih (i + 1) A done (by omega) hl (fun r hr => by
            obtain ⟨q, hq, s, hs⟩ := h3 r hr
            exact ⟨q, by omega, s, hs⟩) (by
          intro r s q hr hs hq
          rcases Nat.lt_succ_iff_lt_or_eq.1 hr with h | h
          · exact (h4 r s q h hs hq).imp (fun h => by omega) id
          · subst h
            obtain ⟨q', hq', s', hs', e'⟩ := h3 r hdi
            obtain ⟨s'', hs'', hcase⟩ := hS.spec ⟨q', by omega⟩
            rw [hs'] at hs''
            cases hs''
            rcases hcase with ⟨e, _⟩ | ⟨i2, s2, e, _, _, hs2, e2, _⟩
            · omega
            · have : (i2 : Nat) = r := by omega
              rw [this, hs] at hs2
              cases hs2
              left
              simp only at e2
              omega)
        refine (Costs.bind (Costs.pure (Q := fun st => st = (A, done)) rfl) fun st hst => ?_).mono'
          (k := 0 + 3 * openRows R.d (i + 1) done * cols.length) ?_
        · rw [hst]; exact h
        · rw [Nat.zero_add]
          exact Nat.mul_le_mul_right _ (Nat.mul_le_mul_left _ (openRows_mono done))
      | false =>
        obtain ⟨s, hs, hcase⟩ := hS.spec ⟨i, hid⟩
        simp only at hs
        rw [hs]
        simp only
        have ho := openRows_succ hid hdi
        rcases hcase with ⟨et, hM⟩ | ⟨i2, s2, et, hne, hM, hs2, et2, hM2⟩
        · rw [if_pos et, if_pos et]
          have h := fun A' => ih (i + 1) A' done (by omega) hl (fun r hr => by
              obtain ⟨q, hq, s, hs⟩ := h3 r hr
              exact ⟨q, by omega, s, hs⟩) (by
            intro r s' q hr hs' hq
            rcases Nat.lt_succ_iff_lt_or_eq.1 hr with h | h
            · exact (h4 r s' q h hs' hq).imp (fun h => by omega) id
            · subst h
              rw [hs] at hs'
              cases hs'
              omega)
          refine (Costs.bind (Q := fun st => st.2 = done) (k := cols.length + 0) ?_ fun st hst => ?_).mono'
            (k := cols.length + 0 + 3 * openRows R.d (i + 1) done * cols.length) ?_
          · exact Costs.bind (scaleRowC_costs i s.c1 cols A) (g := fun A => some (A, done)) fun A' _ => Costs.pure rfl
          · obtain ⟨A', d'⟩ := st
            obtain rfl : d' = done := hst
            exact h A'
          · rw [ho]; nlinarith
        · have hi2 := i2.2
          have hne' : i ≠ (i2 : Nat) := fun e => hne (Fin.ext e)
          have hi2lt : ¬ (i2 : Nat) < i := fun hlt => by
            rcases h4 i2 s2 i hlt hs2 et2 with h | h
            · omega
            · rw [hdi] at h; cases h
          have hi2done : done[(i2 : Nat)]? ≠ some true := fun hd => by
            obtain ⟨q, hq, s', hs', e'⟩ := h3 i2 hd
            obtain ⟨s'', hs'', hcase⟩ := hS.spec ⟨q, by omega⟩
            rw [hs'] at hs''
            cases hs''
            rcases hcase with ⟨e, _⟩ | ⟨i3, s3, e, _, _, hs3, e3, _⟩
            · omega
            · have : i3 = i2 := Fin.ext (by omega)
              subst this
              rw [hs2] at hs3
              cases hs3
              simp only at e3
              have : q = i := by
                have e4 : (i : Int) = q := et2.symm.trans e3
                omega
              omega
          have hi2f : done[(i2 : Nat)]? = some false := by
            rw [List.getElem?_eq_getElem (by omega)] at hi2done ⊢
            cases hb : done[(i2 : Nat)] with
            | false => rfl
            | true => rw [hb] at hi2done; exact absurd rfl hi2done
          have etn : s.t.toNat = (i2 : Nat) := by omega
          rw [if_neg (by omega), if_pos ⟨by omega, by omega⟩, if_neg (by omega), if_pos ⟨by omega, by omega⟩, etn]
          have hset : ∀ r : Nat, (done.set (i2 : Nat) true)[r]? = some true ↔
              (r = (i2 : Nat) ∨ done[r]? = some true) := by
            intro r
            rw [List.getElem?_set]
            by_cases e : (i2 : Nat) = r
            · rw [if_pos e, if_pos (by omega)]; simp [e]
            · rw [if_neg e]
              constructor
              · exact Or.inr
              · rintro (h | h)
                · exact absurd h.symm e
                · exact h
          have h := fun A' => ih (i + 1) A' (done.set (i2 : Nat) true) (by omega) (by simpa using hl) (by
              intro r hr
              rw [hset] at hr
              rcases hr with rfl | hr
              · exact ⟨i, by omega, s, hs, et⟩
              · obtain ⟨q, hq, s, hs⟩ := h3 r hr
                exact ⟨q, by omega, s, hs⟩) (by
            intro r s' q hr hs' hq
            rw [hset]
            rcases Nat.lt_succ_iff_lt_or_eq.1 hr with h | h
            · rcases h4 r s' q h hs' hq with h | h
              · left; omega
              · right; right; exact h
            · subst h
              rw [hs] at hs'
              cases hs'
              right; left
              omega)
          have ho2 := openRows_set (d := R.d) (i := i + 1) (j := i2) (done := done) (by omega) hi2 hi2f
          refine (Costs.bind (Q := fun st => st.2 = done.set (i2 : Nat) true) (k := 6 * cols.length + 0) ?_ fun st hst => ?_).mono'
            (k := 6 * cols.length + 0 + 3 * openRows R.d (i + 1) (done.set (i2 : Nat) true) * cols.length) ?_
          · exact Costs.bind (mixRowsC_costs i i2 s.c1 s.c2 cols A) (g := fun A => some (A, done.set (i2 : Nat) true))
              fun A' _ => Costs.pure rfl
          · obtain ⟨A', d'⟩ := st
            obtain rfl : d' = done.set (i2 : Nat) true := hst
            exact h A'
          · rw [ho, ← ho2]; nlinarith

theorem applyTauC_costs {R : IrrepObj} {tau : Int} {M : Matrix (Fin R.d) (Fin R.d) ℝ} (hS : SlotSpec R tau M) (cols : List K)
    (A : Nat → K → ℝ) : Costs (R.applyTauC cols tau A) (R.applyTau cols tau A) (3 * (R.d * cols.length)) fun _ => True := by
  have hrep : ∀ r : Nat, (List.replicate R.d false)[r]? ≠ some true := by
    intro r h
    rw [List.getElem?_replicate] at h
    split at h <;> cases h
  have h := tauLoopC_costs hS cols R.d 0 A (List.replicate R.d false) (by omega) (by simp) (fun r h => absurd h (hrep r))
    (fun r s q h => by omega)
  have e : R.applyTau cols tau A = (IrrepObj.tauLoop R cols tau (List.range' 0 R.d) (A, List.replicate R.d false)).bind
      fun st => some st.1 := by
    unfold IrrepObj.applyTau
    rw [List.range_eq_range']
    cases IrrepObj.tauLoop R cols tau (List.range' 0 R.d) (A, List.replicate R.d false) <;> rfl
  rw [e]
  unfold IrrepObj.applyTauC
  rw [List.range_eq_range']
  refine (Costs.bind h fun st _ => Costs.pure trivial).mono' ?_
  have ho : openRows R.d 0 (List.replicate R.d false) ≤ R.d := by
    unfold openRows
    refine (Finset.card_filter_le _ _).trans ?_
    simp
  have := Nat.mul_le_mul_right cols.length (Nat.mul_le_mul_left 3 ho)
  calc _ ≤ 3 * R.d * cols.length := by simpa using this
    _ = _ := by ring

end

end Snob
