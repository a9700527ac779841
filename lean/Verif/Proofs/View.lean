import Verif.Proofs.IrrepSpec
import Verif.Model.View

/-! # The tables for tensor views -/

namespace Snob

open IP Matrix

/-- rows `0..d-1` paired by `q`, with the coefficients of the matrix `M` -/
structure Pairing (ts : List Tab) (tau d : Nat) (q : Nat → Nat) (a b : Nat → ℝ)
    (M : Matrix (Fin d) (Fin d) ℝ) : Prop where
  len : ts.length = d
  inv : ∀ i, i < d → q i < d ∧ q (q i) = i
  body : ∀ i (hi : i < ts.length), ∃ T' delta, Tab.applyTransp ts[i] tau (tau + 1) = some (T', delta) ∧
    delta ≠ 0 ∧
    ((delta = 1 ∨ delta = -1) → q i = i ∧ a i = delta) ∧
    (¬ (delta = 1 ∨ delta = -1) → q i ≠ i ∧ tabIndex ts T' = (q i : Int) ∧ a i = 1 / (delta : ℝ) ∧
      b i = √(1 - 1 / ((delta : ℝ) * delta)))
  diag : ∀ (i : Fin d) (x : Fin d → ℝ), q i = i → ∑ j, M i j * x j = a i * x i
  rot : ∀ (i i2 : Fin d) (x : Fin d → ℝ), q i = i2 → i ≠ i2 →
    ∑ j, M i j * x j = a i * x i + b i * x i2 ∧ ∑ j, M i2 j * x j = -a i * x i2 + b i * x i

theorem Pairing.a_ne {ts : List Tab} {tau d : Nat} {q : Nat → Nat} {a b : Nat → ℝ}
    {M : Matrix (Fin d) (Fin d) ℝ} (h : Pairing ts tau d q a b M) {i : Nat} (hi : i < d) : a i ≠ 0 := by
  obtain ⟨T', delta, _, h0, h1, h2⟩ := h.body i (by rw [h.len]; exact hi)
  have h0' : (delta : ℝ) ≠ 0 := by exact_mod_cast h0
  by_cases e : delta = 1 ∨ delta = -1
  · rw [(h1 e).2]; exact h0'
  · rw [(h2 e).2.2.1]; exact one_div_ne_zero h0'

/-- the partner of a row according to the table -/
noncomputable def IrrepObj.partner (R : IrrepObj) (tau : Int) (i : Nat) : Nat :=
  match R.slot tau i with
  | none => i
  | some s => if s.t = -1 then i else s.t.toNat

noncomputable def IrrepObj.co1 (R : IrrepObj) (tau : Int) (i : Nat) : ℝ :=
  ((R.slot tau i).map YORSlot.c1).getD 0

noncomputable def IrrepObj.co2 (R : IrrepObj) (tau : Int) (i : Nat) : ℝ :=
  ((R.slot tau i).map YORSlot.c2).getD 0

section
variable {n : Nat} {p : List Nat} {hp : IsPartition n p} {R : IrrepObj}

theorem Repr'.pairing (h : Repr' hp R) {tau : Nat} (h1 : 1 ≤ tau) (h2 : tau < n) :
    Pairing R.tableaux tau R.d (R.partner tau) (R.co1 tau) (R.co2 tau) (h.mat (yorM n p tau)) := by
  have hS := (h.slotSpec h1 h2).spec
  have hlen : R.tableaux.length = R.d := by rw [h.tab, h.d_eq, List.length_map]
  have hpart : ∀ i : Fin R.d, ∀ s, R.slot tau i = some s →
      R.partner tau i = if s.t = -1 then (i : Nat) else s.t.toNat := by
    intro i s hs; unfold IrrepObj.partner; rw [hs]
  have hc1 : ∀ i : Fin R.d, ∀ s, R.slot tau i = some s → R.co1 tau i = s.c1 := by
    intro i s hs; unfold IrrepObj.co1; rw [hs]; rfl
  have hc2 : ∀ i : Fin R.d, ∀ s, R.slot tau i = some s → R.co2 tau i = s.c2 := by
    intro i s hs; unfold IrrepObj.co2; rw [hs]; rfl
  refine ⟨hlen, ?_, ?_, ?_, ?_⟩
  · intro i hi
    obtain ⟨s, hs, hc⟩ := hS ⟨i, hi⟩
    have hq := hpart ⟨i, hi⟩ s hs
    rcases hc with ⟨ht, _⟩ | ⟨i2, s2, ht, hne, _, hs2, ht2, _⟩
    · rw [if_pos ht] at hq
      simp only at hq
      rw [hq]; exact ⟨hi, hq⟩
    · rw [if_neg (by omega)] at hq
      have hq' : R.partner tau i = (i2 : Nat) := by simp only at hq; omega
      rw [hq']
      refine ⟨i2.2, ?_⟩
      rw [hpart i2 s2 hs2, if_neg (by omega), ht2]
      simp
  · intro i hi
    have hi' : i < (words n p).length := by rw [h.tab, List.length_map] at hi; exact hi
    have hid : i < R.d := hlen ▸ hi
    have eT : R.tableaux[i] = toTab (words n p)[i] := by simp [h.tab]
    let u : Wd n p := ⟨(words n p)[i], List.getElem_mem hi'⟩
    obtain ⟨T', d, e, hd, h0, _⟩ := applyTransp_toTab (u.lat hp) h1 (by rw [u.length hp]; omega)
    refine ⟨T', d, by rw [eT]; exact e, h0, ?_, ?_⟩
    · intro hu
      have hs : R.slot tau i = some ⟨-1, d, 0⟩ := by
        rw [h.slot i hi' tau h1 h2]
        unfold yorSlot
        have e' : Tab.applyTransp (toTab (words n p)[i]) tau (tau + 1) = some (T', d) := e
        rw [e']
        simp only [if_pos hu]
      refine ⟨?_, ?_⟩
      · rw [hpart ⟨i, hid⟩ _ hs, if_pos rfl]
      · rw [hc1 ⟨i, hid⟩ _ hs]
    · intro hu
      have hs : R.slot tau i = some ⟨tabIndex R.tableaux T', 1 / (d : ℝ), √(1 - 1 / ((d : ℝ) * d))⟩ := by
        rw [h.slot i hi' tau h1 h2]
        unfold yorSlot
        have e' : Tab.applyTransp (toTab (words n p)[i]) tau (tau + 1) = some (T', d) := e
        rw [e']
        simp only [if_neg hu, if_neg h0, h.tab]
      obtain ⟨s, hs', hc⟩ := hS ⟨i, hid⟩
      have hss : s = ⟨tabIndex R.tableaux T', 1 / (d : ℝ), √(1 - 1 / ((d : ℝ) * d))⟩ :=
        Option.some.inj (hs'.symm.trans hs)
      -- the index is found
      have hfound : tabIndex R.tableaux T' ≠ -1 := by
        obtain ⟨T'', d', e2, _, _, _, _, hyes, _⟩ :=
          applyTransp_toTab (u.lat hp) h1 (by rw [u.length hp]; omega)
        rw [e] at e2
        cases e2
        obtain ⟨u', hu', rfl, _, hcnt, _⟩ := hyes (not_or.1 hu)
        have hmem : u' ∈ words n p :=
          (mem_words hp u').2 ⟨hu', fun i => (hcnt i).trans (((mem_words hp u.1).1 u.2).2 i)⟩
        rw [h.tab, tabIndex_toTab hp ⟨u', hmem⟩]
        omega
      rcases hc with ⟨ht, _⟩ | ⟨i2, s2, ht, hne, _, hs2, ht2, _⟩
      · rw [hss] at ht; exact absurd ht hfound
      · have hne' : i ≠ (i2 : Nat) := fun e => hne (Fin.ext e)
        have hq : R.partner tau i = (i2 : Nat) := by
          rw [hpart ⟨i, hid⟩ _ hs', if_neg (by omega)]; omega
        refine ⟨by rw [hq]; exact Ne.symm hne', ?_, ?_, ?_⟩
        · rw [hq, ← ht, hss]
        · rw [hc1 ⟨i, hid⟩ _ hs]
        · rw [hc2 ⟨i, hid⟩ _ hs]
  · intro i x hq
    obtain ⟨s, hs, hc⟩ := hS i
    rcases hc with ⟨ht, hM⟩ | ⟨i2, s2, ht, hne, hM, hs2, ht2, hM2⟩
    · rw [hM, hc1 i s hs]
    · rw [hpart i s hs, if_neg (by omega)] at hq
      exact absurd (Fin.ext (by omega)) hne
  · intro i i2 x hq hne
    obtain ⟨s, hs, hc⟩ := hS i
    rcases hc with ⟨ht, hM⟩ | ⟨i3, s2, ht, _, hM, hs2, ht2, hM2⟩
    · rw [hpart i s hs, if_pos ht] at hq
      exact absurd (Fin.ext hq) hne
    · rw [hpart i s hs, if_neg (by omega)] at hq
      have : i2 = i3 := Fin.ext (by omega)
      subst this
      rw [hM, hM2, hc1 i s hs, hc2 i s hs]
      exact ⟨rfl, rfl⟩

end

/-! ### filling the tables -/

section
variable {ts : List Tab} {tau d : Nat} {q : Nat → Nat} {a b : Nat → ℝ} {M : Matrix (Fin d) (Fin d) ℝ}

/-- no first row of a pair comes after a second row -/
def Packed (d : Nat) (q : Nat → Nat) : Prop := ∀ i j, i < d → j < d → i < q i → q j < j → i < j

/-- the fixed rows below `i` -/
def diags (q : Nat → Nat) (i : Nat) : List Nat := (List.range i).filter fun r => q r = r

/-- the first rows of pairs below `i` -/
def firsts (q : Nat → Nat) (i : Nat) : List Nat := (List.range i).filter fun r => r < q r

/-- the second rows of pairs below `i` -/
def seconds (q : Nat → Nat) (i : Nat) : List Nat := (List.range i).filter fun r => q r < r

theorem count_rows (q : Nat → Nat) (i : Nat) :
    (diags q i).length + (firsts q i).length + (seconds q i).length = i := by
  induction i with
  | zero => rfl
  | succ i ih =>
    unfold diags firsts seconds at ih ⊢
    rw [List.range_succ, List.filter_append, List.filter_append, List.filter_append]
    simp only [List.length_append, List.filter_cons, List.filter_nil]
    rcases Nat.lt_trichotomy (q i) i with h | h | h
    · have h1 : ¬ q i = i := by omega
      have h2 : ¬ i < q i := by omega
      simp [h, h1, h2]; omega
    · have h1 : ¬ q i < i := by omega
      have h2 : ¬ i < q i := by omega
      simp [h, h1, h2]; omega
    · have h1 : ¬ q i = i := by omega
      have h2 : ¬ q i < i := by omega
      simp [h, h1, h2]; omega

theorem diags_succ (q : Nat → Nat) (i : Nat) :
    diags q (i + 1) = if q i = i then diags q i ++ [i] else diags q i := by
  unfold diags
  rw [List.range_succ, List.filter_append]
  by_cases h : q i = i <;> simp [h]

theorem firsts_succ (q : Nat → Nat) (i : Nat) :
    firsts q (i + 1) = if i < q i then firsts q i ++ [i] else firsts q i := by
  unfold firsts
  rw [List.range_succ, List.filter_append]
  by_cases h : i < q i <;> simp [h]

theorem seconds_nil_of_packed (hk : Packed d q) {i : Nat} (hi : i < d) (hf : i < q i) :
    seconds q i = [] := by
  unfold seconds
  rw [List.filter_eq_nil_iff]
  intro r hr hlt
  rw [List.mem_range] at hr
  have := hk i r hi (by omega) hf (by simpa using hlt)
  omega

/-- firsts and seconds are equally many -/
theorem firsts_eq_seconds (h : ∀ i, i < d → q i < d ∧ q (q i) = i) :
    (firsts q d).length = (seconds q d).length := by
  have e1 : (firsts q d).length = ((Finset.range d).filter fun r => r < q r).card := by
    unfold firsts
    rw [← List.toFinset_card_of_nodup (List.Nodup.filter _ List.nodup_range)]
    congr 1; ext r; simp
  have e2 : (seconds q d).length = ((Finset.range d).filter fun r => q r < r).card := by
    unfold seconds
    rw [← List.toFinset_card_of_nodup (List.Nodup.filter _ List.nodup_range)]
    congr 1; ext r; simp
  rw [e1, e2]
  refine Finset.card_bij (fun r _ => q r) ?_ ?_ ?_
  · intro r hr
    simp only [Finset.mem_filter, Finset.mem_range] at hr ⊢
    have := h r hr.1
    omega
  · intro r hr r' hr' e
    simp only [Finset.mem_filter, Finset.mem_range] at hr hr'
    have := (h r hr.1).2
    rw [e, (h r' hr'.1).2] at this
    exact this.symm
  · intro r hr
    simp only [Finset.mem_filter, Finset.mem_range] at hr
    have := h r hr.1
    refine ⟨q r, ?_, this.2⟩
    simp only [Finset.mem_filter, Finset.mem_range]
    omega

/-- the number of rotations that the code applies -/
theorem firsts_length (h : ∀ i, i < d → q i < d ∧ q (q i) = i) :
    (d - (diags q d).length) / 2 = (firsts q d).length := by
  have h1 := count_rows q d
  have h2 := firsts_eq_seconds h
  omega

/-- one step of the loop -/
theorem Pairing.step (h : Pairing ts tau d q a b M) {i : Nat} (hi : i < d) {st : TensorSt}
    (hdl : st.done.length = d) (hdone : st.done[i]? = some (decide (q i < i))) :
    (q i < i → tensorBody ts tau i st = some st) ∧
    (q i = i → tensorBody ts tau i st = some { st with diag := st.diag ++ [(i, a i)] }) ∧
    (i < q i → i - st.diag.length < st.givens.length → tensorBody ts tau i st = some { st with
        givens := st.givens.set (i - st.diag.length) ⟨i, q i, a i, b i⟩
        done := st.done.set (q i) true }) ∧
    (i < q i → ¬ i - st.diag.length < st.givens.length → tensorBody ts tau i st = none) := by
  have hi' : i < ts.length := by rw [h.len]; exact hi
  obtain ⟨T', delta, e, h0, hd1, hd2⟩ := h.body i hi'
  have hq := h.inv i hi
  refine ⟨fun hlt => ?_, fun heq => ?_, fun hlt hk => ?_, fun hlt hk => ?_⟩
  · unfold tensorBody
    rw [hdone, decide_eq_true hlt]
  · unfold tensorBody
    rw [hdone, decide_eq_false (by omega), List.getElem?_eq_getElem hi']
    simp only [e]
    have hu : delta = 1 ∨ delta = -1 := by
      by_contra hu
      exact (hd2 hu).1 heq
    rw [if_pos hu, (hd1 hu).2]
  · unfold tensorBody
    rw [hdone, decide_eq_false (by omega), List.getElem?_eq_getElem hi']
    simp only [e]
    have hu : ¬ (delta = 1 ∨ delta = -1) := fun hu => by
      have := (hd1 hu).1
      omega
    obtain ⟨_, e1, e2, e3⟩ := hd2 hu
    rw [if_neg hu, if_neg h0, e1, if_pos ⟨by omega, by rw [Int.toNat_natCast, hdl]; exact hq.1, hk⟩,
      e2, e3]
    simp
  · unfold tensorBody
    rw [hdone, decide_eq_false (by omega), List.getElem?_eq_getElem hi']
    simp only [e]
    have hu : ¬ (delta = 1 ∨ delta = -1) := fun hu => by
      have := (hd1 hu).1
      omega
    rw [if_neg hu, if_neg h0, if_neg fun hh => hk hh.2.2]

/-- the marks after the rows below `i` -/
structure DoneInv (d : Nat) (q : Nat → Nat) (i : Nat) (st : TensorSt) : Prop where
  len : st.done.length = d
  get : ∀ r, r < d → st.done[r]? = some (decide (q r < i ∧ q r < r))

theorem DoneInv.at (h : DoneInv d q i st) (hi : i < d) : st.done[i]? = some (decide (q i < i)) := by
  rw [h.get i hi]; congr 2; simp

theorem DoneInv.skip {i : Nat} {st st' : TensorSt} (h : DoneInv d q i st) (he : st'.done = st.done)
    (hinv : ∀ i, i < d → q i < d ∧ q (q i) = i) (hq : q i ≤ i) : DoneInv d q (i + 1) st' := by
  refine ⟨by rw [he]; exact h.len, fun r hr => ?_⟩
  rw [he, h.get r hr]
  congr 1
  rw [decide_eq_decide]
  constructor
  · rintro ⟨h1, h2⟩; exact ⟨by omega, h2⟩
  · rintro ⟨h1, h2⟩
    refine ⟨?_, h2⟩
    by_contra hc
    have : q r = i := by omega
    have hr' := (hinv r hr).2
    rw [this] at hr'
    omega

theorem DoneInv.mark {i : Nat} {st st' : TensorSt} (h : DoneInv d q i st)
    (he : st'.done = st.done.set (q i) true)
    (hinv : ∀ i, i < d → q i < d ∧ q (q i) = i) (hi : i < d) (hq : i < q i) : DoneInv d q (i + 1) st' := by
  refine ⟨by rw [he, List.length_set]; exact h.len, fun r hr => ?_⟩
  have h1 := hinv i hi
  have h2 := hinv r hr
  rw [he, List.getElem?_set]
  by_cases e : q i = r
  · rw [if_pos e, if_pos (by rw [h.len]; exact h1.1)]
    have : q r = i := by rw [← e]; exact h1.2
    rw [decide_eq_true ⟨by omega, by omega⟩]
  · rw [if_neg e, h.get r hr]
    congr 1
    rw [decide_eq_decide]
    constructor
    · rintro ⟨h1, h2⟩; exact ⟨by omega, h2⟩
    · rintro ⟨h3, h4⟩
      refine ⟨?_, h4⟩
      by_contra hc
      have : q r = i := by omega
      rw [this] at h2
      exact e h2.2

/-- the loop when the pairs are packed -/
theorem Pairing.loop_packed (h : Pairing ts tau d q a b M) (hk : Packed d q) (m : Nat) :
    ∀ (i : Nat) (st : TensorSt), i + m = d → DoneInv d q i st →
      st.diag = (diags q i).map (fun r => (r, a r)) → st.givens.length = d / 2 + 1 →
      st.givens.take (firsts q i).length = (firsts q i).map (fun r => (⟨r, q r, a r, b r⟩ : GSlot)) →
      ∃ st', tensorLoop ts tau (List.range' i m) st = some st' ∧
        st'.diag = (diags q d).map (fun r => (r, a r)) ∧
        st'.givens.take (firsts q d).length =
          (firsts q d).map (fun r => (⟨r, q r, a r, b r⟩ : GSlot)) := by
  induction m with
  | zero =>
    intro i st hi _ h1 _ h2
    have : i = d := by omega
    subst this
    exact ⟨st, rfl, h1, h2⟩
  | succ m ih =>
    intro i st hi hD h1 hl h2
    have hid : i < d := by omega
    obtain ⟨s1, s2, s3, _⟩ := h.step hid hD.len (hD.at hid)
    rw [List.range'_succ]
    unfold tensorLoop
    have hdl : st.diag.length = (diags q i).length := by rw [h1, List.length_map]
    rcases Nat.lt_trichotomy (q i) i with hlt | heq | hlt
    · rw [s1 hlt, Option.bind_some]
      refine ih (i + 1) st (by omega) (hD.skip rfl h.inv (by omega)) ?_ hl ?_
      · rw [diags_succ, if_neg (by omega)]; exact h1
      · rw [firsts_succ, if_neg (by omega)]; exact h2
    · rw [s2 heq, Option.bind_some]
      refine ih (i + 1) _ (by omega) (hD.skip rfl h.inv (by omega)) ?_ hl ?_
      · rw [diags_succ, if_pos heq, List.map_append, ← h1]; rfl
      · rw [firsts_succ, if_neg (by omega)]; exact h2
    · have hc := count_rows q i
      rw [seconds_nil_of_packed hk hid hlt, List.length_nil] at hc
      have hslot : i - st.diag.length = (firsts q i).length := by omega
      have hlt2 : (firsts q i).length < st.givens.length := by
        have e1 := firsts_length h.inv
        have e2 : (firsts q i).length + 1 ≤ (firsts q d).length := by
          have : (firsts q (i + 1)).Sublist (firsts q d) :=
            List.Sublist.filter _ (List.range_sublist.2 (by omega))
          have := this.length_le
          rw [firsts_succ, if_pos hlt, List.length_append] at this
          simpa using this
        rw [hl]; omega
      rw [s3 hlt (by rw [hslot]; exact hlt2), Option.bind_some]
      refine ih (i + 1) _ (by omega) (hD.mark rfl h.inv hid hlt) ?_ (by rw [List.length_set]; exact hl) ?_
      · rw [diags_succ, if_neg (by omega)]; exact h1
      · rw [firsts_succ, if_pos hlt, hslot, List.length_append, List.length_singleton,
          List.map_append, ← h2, List.take_add_one, List.take_set_of_le (Nat.le_refl _)]
        congr 1
        rw [List.getElem?_set, if_pos rfl, if_pos hlt2]
        rfl


/-- the loop in general: where the entries of the tables end up -/
theorem Pairing.loop_general (h : Pairing ts tau d q a b M) (m : Nat) :
    ∀ (i : Nat) (st : TensorSt), i + m = d → DoneInv d q i st →
      st.diag = (diags q i).map (fun r => (r, a r)) → st.givens.length = d / 2 + 1 →
      (∀ k g, st.givens[k]? = some g → g = GSlot.zero ∨
        ∃ r, r < i ∧ r < q r ∧ k = r - (diags q r).length ∧ g.i = r ∧ g.j = q r) →
      ∀ st', tensorLoop ts tau (List.range' i m) st = some st' →
        st'.diag = (diags q d).map (fun r => (r, a r)) ∧ st'.givens.length = d / 2 + 1 ∧
        (∀ r, i ≤ r → r < d → r < q r → r - (diags q r).length < d / 2 + 1) ∧
        ∀ k g, st'.givens[k]? = some g → g = GSlot.zero ∨
          ∃ r, r < d ∧ r < q r ∧ k = r - (diags q r).length ∧ g.i = r ∧ g.j = q r := by
  induction m with
  | zero =>
    intro i st hi _ h1 hl h2 st' he
    have : i = d := by omega
    subst this
    cases he
    exact ⟨h1, hl, fun r h1 h2 _ => by omega, h2⟩
  | succ m ih =>
    intro i st hi hD h1 hl h2 st' he
    have hid : i < d := by omega
    obtain ⟨s1, s2, s3, s4⟩ := h.step hid hD.len (hD.at hid)
    rw [List.range'_succ] at he
    unfold tensorLoop at he
    have hdl : st.diag.length = (diags q i).length := by rw [h1, List.length_map]
    have weak : ∀ k g, st.givens[k]? = some g → g = GSlot.zero ∨
        ∃ r, r < i + 1 ∧ r < q r ∧ k = r - (diags q r).length ∧ g.i = r ∧ g.j = q r := by
      intro k g hg
      refine (h2 k g hg).imp id ?_
      rintro ⟨r, hr, hh⟩
      exact ⟨r, by omega, hh⟩
    rcases Nat.lt_trichotomy (q i) i with hlt | heq | hlt
    · rw [s1 hlt, Option.bind_some] at he
      obtain ⟨r1, r2, r3, r4⟩ := ih (i + 1) st (by omega) (hD.skip rfl h.inv (by omega))
        (by rw [diags_succ, if_neg (by omega)]; exact h1) hl weak st' he
      refine ⟨r1, r2, fun r hr1 hr2 hr3 => ?_, r4⟩
      rcases Nat.eq_or_lt_of_le hr1 with e | e
      · subst e; omega
      · exact r3 r e hr2 hr3
    · rw [s2 heq, Option.bind_some] at he
      obtain ⟨r1, r2, r3, r4⟩ := ih (i + 1) { st with diag := st.diag ++ [(i, a i)] } (by omega)
        (hD.skip rfl h.inv (by omega)) (by rw [diags_succ, if_pos heq, List.map_append, ← h1]; rfl) hl weak st' he
      refine ⟨r1, r2, fun r hr1 hr2 hr3 => ?_, r4⟩
      rcases Nat.eq_or_lt_of_le hr1 with e | e
      · subst e; omega
      · exact r3 r e hr2 hr3
    · by_cases hk : i - st.diag.length < st.givens.length
      · rw [s3 hlt hk, Option.bind_some] at he
        obtain ⟨r1, r2, r3, r4⟩ := ih (i + 1) _ (by omega) (hD.mark rfl h.inv hid hlt)
          (by rw [diags_succ, if_neg (by omega)]; exact h1) (by rw [List.length_set]; exact hl)
          (by
            intro k g hg
            rw [List.getElem?_set] at hg
            by_cases e : i - st.diag.length = k
            · rw [if_pos e, if_pos hk] at hg
              cases hg
              exact Or.inr ⟨i, by omega, hlt, by rw [← e, hdl], rfl, rfl⟩
            · rw [if_neg e] at hg
              exact weak k g hg) st' he
        refine ⟨r1, r2, fun r hr1 hr2 hr3 => ?_, r4⟩
        rcases Nat.eq_or_lt_of_le hr1 with e | e
        · subst e
          rw [← hdl, ← hl]; exact hk
        · exact r3 r e hr2 hr3
      · rw [s4 hlt hk] at he
        cases he

/-! ### applying the tables -/

variable {K : Type} [DecidableEq K]

theorem foldl_scale (cols : List K) (hc : cols.Nodup) (l : List Nat) (hl : l.Nodup) (f : Nat → ℝ)
    (A : Nat → K → ℝ) (r : Nat) (k : K) :
    (l.map fun r => (r, f r)).foldl (fun A (x : Nat × ℝ) => IrrepObj.scaleRow x.1 x.2 cols A) A r k =
      if r ∈ l ∧ k ∈ cols then f r * A r k else A r k := by
  induction l generalizing A with
  | nil => simp
  | cons x l ih =>
    have hx := List.nodup_cons.1 hl
    rw [List.map_cons, List.foldl_cons, ih hx.2]
    simp only [scaleRow_eq x (f x) cols hc]
    by_cases e : r = x
    · subst e
      simp [hx.1]
    · simp [e]

theorem foldl_mix (cols : List K) (hc : cols.Nodup) (l : List Nat) (hl : l.Nodup) (q : Nat → Nat)
    (a b : Nat → ℝ) (hq : ∀ r ∈ l, r < q r ∧ q (q r) = r) (A : Nat → K → ℝ) (r : Nat) (k : K) :
    (l.map fun r => (⟨r, q r, a r, b r⟩ : GSlot)).foldl
        (fun A (g : GSlot) => IrrepObj.mixRows g.i g.j g.c1 g.c2 cols A) A r k =
      if k ∈ cols then
        if r ∈ l then a r * A r k + b r * A (q r) k
        else if q r ∈ l ∧ q (q r) = r then -a (q r) * A r k + b (q r) * A (q r) k else A r k
      else A r k := by
  induction l generalizing A with
  | nil => simp
  | cons x l ih =>
    have hx := List.nodup_cons.1 hl
    have hqx := hq x (by simp)
    rw [List.map_cons, List.foldl_cons, ih hx.2 fun r hr => hq r (by simp [hr])]
    simp only [mixRows_eq x (q x) (by omega) (a x) (b x) cols hc]
    by_cases hk : k ∈ cols
    · simp only [hk, if_true]
      -- members of l are different from x and q x
      have hne : ∀ y ∈ l, y ≠ x ∧ y ≠ q x ∧ q y ≠ x ∧ q y ≠ q x := by
        intro y hy
        have h1 := hq y (by simp [hy])
        have hyx : y ≠ x := fun e => hx.1 (e ▸ hy)
        refine ⟨hyx, ?_, ?_, ?_⟩
        · intro e; rw [e, hqx.2] at h1; omega
        · intro e; rw [e] at h1; omega
        · intro e
          have := h1.2
          rw [e, hqx.2] at this
          exact hyx this.symm
      by_cases hr : r ∈ l
      · obtain ⟨n1, n2, n3, n4⟩ := hne r hr
        simp [hr, n1, n2, n3, n4]
      · by_cases e1 : r = x
        · subst e1
          have : q r ∉ l := fun h => (hne _ h).2.1 rfl
          simp [hr, this]
        · by_cases e2 : r = q x
          · subst e2
            have h3 : q x ≠ x := by omega
            simp [hr, h3, hqx.2, hx.1]
          · by_cases hq2 : q r ∈ l ∧ q (q r) = r
            · obtain ⟨n1, n2, n3, n4⟩ := hne _ hq2.1
              simp [hr, e1, e2, hq2, n1, n2]
            · have : ¬ (q r = x ∧ q (q r) = r) := by
                rintro ⟨h1, h2⟩
                rw [h1] at h2
                exact e2 h2.symm
              have h4 : ¬ ((q r = x ∨ q r ∈ l) ∧ q (q r) = r) := by tauto
              simp [hr, e1, e2, hq2, h4]
    · simp [hk]

/-- the packed tables act as the matrix -/
theorem Pairing.apply_packed (h : Pairing ts tau d q a b M) (cols : List K) (hc : cols.Nodup)
    (A : Nat → K → ℝ) :
    ((firsts q d).map (fun r => (⟨r, q r, a r, b r⟩ : GSlot))).foldl
        (fun A (g : GSlot) => IrrepObj.mixRows g.i g.j g.c1 g.c2 cols A)
        (((diags q d).map fun r => (r, a r)).foldl
          (fun A (x : Nat × ℝ) => IrrepObj.scaleRow x.1 x.2 cols A) A) = act M cols A := by
  have memF : ∀ r, r ∈ firsts q d ↔ r < d ∧ r < q r := by intro r; simp [firsts]
  have memD : ∀ r, r ∈ diags q d ↔ r < d ∧ q r = r := by intro r; simp [diags]
  have ndF : (firsts q d).Nodup := List.Nodup.filter _ List.nodup_range
  have ndD : (diags q d).Nodup := List.Nodup.filter _ List.nodup_range
  funext r k
  rw [foldl_mix cols hc _ ndF q a b fun r hr => ⟨((memF r).1 hr).2, (h.inv r ((memF r).1 hr).1).2⟩]
  simp only [foldl_scale cols hc _ ndD a]
  unfold act
  by_cases hk : k ∈ cols
  · rw [if_pos hk]
    by_cases hr : r < d
    · rw [dif_pos ⟨hr, hk⟩]
      have hqr := h.inv r hr
      rcases Nat.lt_trichotomy (q r) r with hlt | heq | hlt
      · have h1 : r ∉ firsts q d := fun hh => by have := (memF r).1 hh; omega
        have h2 : q r ∈ firsts q d := (memF _).2 ⟨hqr.1, by omega⟩
        have h3 : r ∉ diags q d := fun hh => by have := (memD r).1 hh; omega
        have h4 : q r ∉ diags q d := fun hh => by have := (memD _).1 hh; omega
        rw [if_neg h1, if_pos ⟨h2, hqr.2⟩, if_neg fun hh => h3 hh.1, if_neg fun hh => h4 hh.1]
        exact (h.rot ⟨q r, hqr.1⟩ ⟨r, hr⟩ (fun j => A j k) hqr.2
          (fun e => by have := congrArg Fin.val e; simp only at this; omega)).2.symm
      · have h1 : r ∉ firsts q d := fun hh => by have := (memF r).1 hh; omega
        have h2 : q r ∉ firsts q d := fun hh => by have := (memF _).1 hh; omega
        rw [if_neg h1, if_neg fun hh => h2 hh.1, if_pos ⟨(memD r).2 ⟨hr, heq⟩, hk⟩]
        exact (h.diag ⟨r, hr⟩ (fun j => A j k) heq).symm
      · have h1 : r ∈ firsts q d := (memF r).2 ⟨hr, hlt⟩
        have h3 : r ∉ diags q d := fun hh => by have := (memD r).1 hh; omega
        have h4 : q r ∉ diags q d := fun hh => by have := (memD _).1 hh; omega
        rw [if_pos h1, if_neg fun hh => h3 hh.1, if_neg fun hh => h4 hh.1]
        exact (h.rot ⟨r, hr⟩ ⟨q r, hqr.1⟩ (fun j => A j k) rfl
          (fun e => by have := congrArg Fin.val e; simp only at this; omega)).1.symm
    · rw [dif_neg fun hh => hr hh.1]
      have h1 : r ∉ firsts q d := fun hh => hr ((memF r).1 hh).1
      have h2 : ¬ (q r ∈ firsts q d ∧ q (q r) = r) := by
        rintro ⟨h3, h4⟩
        have := (h.inv _ ((memF _).1 h3).1).1
        rw [h4] at this
        exact hr this
      have h3 : r ∉ diags q d := fun hh => hr ((memD r).1 hh).1
      rw [if_neg h1, if_neg h2, if_neg fun hh => h3 hh.1]
  · rw [if_neg hk, dif_neg fun hh => hk hh.2, if_neg fun hh => hk hh.2]

/-! ### gaps -/

theorem mix_zero (cols : List K) (A : Nat → K → ℝ) (r : Nat) (k : K) :
    IrrepObj.mixRows 0 0 0 0 cols A r k = if r = 0 ∧ k ∈ cols then 0 else A r k := by
  induction cols generalizing A with
  | nil => simp [IrrepObj.mixRows]
  | cons k0 ks ih =>
    unfold IrrepObj.mixRows
    simp only
    rw [ih]
    unfold setv
    by_cases hr : r = 0
    · by_cases hk : k = k0 <;> by_cases hk2 : k ∈ ks <;> simp [hr, hk, hk2]
    · simp [hr]

/-- after a gap the first row stays zero -/
theorem foldl_gap (cols : List K) (hc : cols.Nodup) (l : List GSlot)
    (hl : ∀ g ∈ l, g = GSlot.zero ∨ (g.i ≠ 0 ∧ g.j ≠ 0 ∧ g.i ≠ g.j)) (A : Nat → K → ℝ) (k : K)
    (hA : A 0 k = 0) :
    l.foldl (fun A (g : GSlot) => IrrepObj.mixRows g.i g.j g.c1 g.c2 cols A) A 0 k = 0 := by
  induction l generalizing A with
  | nil => exact hA
  | cons g l ih =>
    rw [List.foldl_cons]
    refine ih (fun g hg => hl g (by simp [hg])) _ ?_
    rcases hl g (by simp) with rfl | ⟨h1, h2, h3⟩
    · exact (mix_zero cols A 0 k).trans (by split <;> simp [hA])
    · rw [mixRows_eq _ _ h3 _ _ _ hc]
      simp [Ne.symm h1, Ne.symm h2, hA]

theorem diags_length_lt (q : Nat → Nat) {r s : Nat} (h : r < s) (hr : q r ≠ r) :
    r - (diags q r).length < s - (diags q s).length := by
  have key : ∀ m, (diags q (r + 1 + m)).length ≤ (diags q r).length + m := by
    intro m
    induction m with
    | zero => rw [Nat.add_zero, diags_succ, if_neg hr]; exact Nat.le_refl _
    | succ m ih =>
      rw [← Nat.add_assoc, diags_succ]
      split
      · rw [List.length_append, List.length_singleton]; omega
      · omega
  have h1 := key (s - (r + 1))
  have h2 : r + 1 + (s - (r + 1)) = s := by omega
  rw [h2] at h1
  have h3 := count_rows q r
  have h4 := count_rows q s
  omega

/-- some slot that will be used has not been filled -/
theorem exists_gap (hk : ¬ Packed d q) :
    ∃ k, k < (firsts q d).length ∧ ∀ r, r < d → r < q r → k ≠ r - (diags q r).length := by
  unfold Packed at hk
  push Not at hk
  obtain ⟨i, j, hi, hj, hf, hs, hle⟩ := hk
  by_contra hcon
  push Not at hcon
  -- every slot below nf is used
  have memF : ∀ r, r ∈ (Finset.range d).filter (fun r => r < q r) ↔ r < d ∧ r < q r := by
    intro r; simp
  have ecard : (firsts q d).length = ((Finset.range d).filter fun r => r < q r).card := by
    unfold firsts
    rw [← List.toFinset_card_of_nodup (List.Nodup.filter _ List.nodup_range)]
    congr 1; ext r; simp
  have hinj : Set.InjOn (fun r => r - (diags q r).length)
      ((Finset.range d).filter fun r => r < q r : Finset Nat) := by
    intro r hr s hs' e
    have h1 := (memF r).1 hr
    have h2 := (memF s).1 hs'
    simp only at e
    rcases Nat.lt_trichotomy r s with h | h | h
    · have := diags_length_lt q h (by omega); omega
    · exact h
    · have := diags_length_lt q h (by omega); omega
  have himg : ((Finset.range d).filter fun r => r < q r).image (fun r => r - (diags q r).length) =
      Finset.range (firsts q d).length := by
    symm
    apply Finset.eq_of_subset_of_card_le
    · intro k hk
      obtain ⟨r, h1, h2, h3⟩ := hcon k (Finset.mem_range.1 hk)
      exact Finset.mem_image.2 ⟨r, (memF r).2 ⟨h1, h2⟩, h3.symm⟩
    · rw [Finset.card_image_of_injOn hinj, Finset.card_range, ecard]
  -- the pair starting at i lands too far
  have hin : i - (diags q i).length ∈ Finset.range (firsts q d).length := by
    rw [← himg]
    exact Finset.mem_image.2 ⟨i, (memF i).2 ⟨hi, hf⟩, rfl⟩
  -- firsts below i occupy at most slots below that of i, and there are fewer of them
  have hlow : (Finset.range (i - (diags q i).length)) ⊆
      ((Finset.range i).filter fun r => r < q r).image (fun r => r - (diags q r).length) := by
    intro k hk
    have hk1 := Finset.mem_range.1 hk
    have hk2 := Finset.mem_range.1 hin
    obtain ⟨r, h1, h2, h3⟩ := hcon k (by omega)
    have hri : r < i := by
      by_contra hc
      rcases Nat.eq_or_lt_of_le (Nat.le_of_not_lt hc) with e | e
      · subst e; omega
      · have := diags_length_lt q e (by omega); omega
    exact Finset.mem_image.2 ⟨r, by simp; exact ⟨hri, h2⟩, h3.symm⟩
  have hle2 := (Finset.card_le_card hlow).trans Finset.card_image_le
  rw [Finset.card_range] at hle2
  have ecard2 : (firsts q i).length = ((Finset.range i).filter fun r => r < q r).card := by
    unfold firsts
    rw [← List.toFinset_card_of_nodup (List.Nodup.filter _ List.nodup_range)]
    congr 1; ext r; simp
  have hcount := count_rows q i
  have hsec : 1 ≤ (seconds q i).length := by
    have : j ∈ seconds q i := by
      simp only [seconds, List.mem_filter, List.mem_range, decide_eq_true_eq]
      refine ⟨?_, hs⟩
      rcases Nat.eq_or_lt_of_le hle with e | e
      · subst e; omega
      · exact e
    exact List.length_pos_of_mem this
  omega

/-- the unpacked tables make the first row vanish -/
theorem Pairing.gap (h : Pairing ts tau d q a b M) (hk : ¬ Packed d q) (st : TensorSt)
    (hst : tensorLoop ts tau (List.range ts.length)
      ⟨[], List.replicate (ts.length / 2 + 1) GSlot.zero, List.replicate ts.length false⟩ = some st)
    (cols : List K) (hc : cols.Nodup) (A : Nat → K → ℝ) (k : K) (hkc : k ∈ cols) :
    (st.givens.take ((d - st.diag.length) / 2)).foldl
        (fun A (g : GSlot) => IrrepObj.mixRows g.i g.j g.c1 g.c2 cols A) A 0 k = 0 := by
  rw [h.len, List.range_eq_range'] at hst
  obtain ⟨r1, r2, r3, r4⟩ := h.loop_general d 0 _ (by omega)
    ⟨by simp, fun r hr => by simp [hr]⟩ rfl (by simp)
    (by
      intro k g hg
      rw [List.getElem?_replicate] at hg
      split at hg
      · cases hg; exact Or.inl rfl
      · cases hg) st hst
  obtain ⟨k0, hk0, hgap⟩ := exists_gap hk
  have hnf : (d - st.diag.length) / 2 = (firsts q d).length := by
    rw [r1, List.length_map]; exact firsts_length h.inv
  have hnf2 : (firsts q d).length ≤ d / 2 := by
    have := firsts_length h.inv
    omega
  have hk0l : k0 < st.givens.length := by rw [r2]; omega
  have hz : st.givens[k0] = GSlot.zero := by
    rcases r4 k0 _ (List.getElem?_eq_getElem hk0l) with e | ⟨r, h1, h2, h3, _⟩
    · exact e
    · exact absurd h3 (hgap r h1 h2)
  rw [hnf]
  -- split the list at the gap
  have hsplit : st.givens.take (firsts q d).length =
      st.givens.take k0 ++ GSlot.zero :: (st.givens.take (firsts q d).length).drop (k0 + 1) := by
    have hl : k0 < (st.givens.take (firsts q d).length).length := by
      rw [List.length_take]; omega
    have := List.take_append_drop k0 (st.givens.take (firsts q d).length)
    rw [List.drop_eq_getElem_cons hl, List.getElem_take, hz, List.take_take,
      min_eq_left (by omega)] at this
    exact this.symm
  rw [hsplit, List.foldl_append, List.foldl_cons]
  refine foldl_gap cols hc _ ?_ _ k ?_
  · intro g hg
    obtain ⟨m, hm⟩ := List.mem_iff_getElem?.1 hg
    rw [List.getElem?_drop, List.getElem?_take] at hm
    split at hm
    · rcases r4 _ g hm with e | ⟨r, h1, h2, h3, h4, h5⟩
      · exact Or.inl e
      · right
        rw [h4, h5]
        refine ⟨?_, by omega, by omega⟩
        intro e
        subst e
        simp [diags] at h3
    · cases hm
  · exact (mix_zero cols _ 0 k).trans (by rw [if_pos ⟨rfl, hkc⟩])

end

end Snob
