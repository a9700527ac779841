import Verif.Proofs.ViewSpec
import Verif.Proofs.TrivSign

/-! # The action on tensor views shortens columns -/

namespace Snob

open IP Matrix

section
variable {ts : List Tab} {tau d : Nat} {q : Nat → Nat} {a b : Nat → ℝ} {M : Matrix (Fin d) (Fin d) ℝ}

theorem Pairing.unit (h : Pairing ts tau d q a b M) {i : Nat} (hi : i < d) :
    (q i = i → a i * a i = 1) ∧ (q i ≠ i → a i * a i + b i * b i = 1) := by
  obtain ⟨T', delta, -, h0, h1, h2⟩ := h.body i (by rw [h.len]; exact hi)
  by_cases e : delta = 1 ∨ delta = -1
  · refine ⟨fun _ => ?_, fun hne => absurd (h1 e).1 hne⟩
    rw [(h1 e).2]
    rcases e with rfl | rfl <;> norm_num
  · obtain ⟨k1, -, k3, k4⟩ := h2 e
    refine ⟨fun hh => absurd hh k1, fun _ => ?_⟩
    have := offc_sq delta h0
    unfold offc diagc at this
    rw [k3, k4, this]
    ring

/-- the tables in general, with the coefficients -/
theorem Pairing.loop_slots (h : Pairing ts tau d q a b M) (m : Nat) :
    ∀ (i : Nat) (st : TensorSt), i + m = d → DoneInv d q i st →
      st.diag = (diags q i).map (fun r => (r, a r)) → st.givens.length = d / 2 + 1 →
      (∀ k g, st.givens[k]? = some g → g = GSlot.zero ∨
        ∃ r, r < i ∧ r < q r ∧ k = r - (diags q r).length ∧ g = ⟨r, q r, a r, b r⟩) →
      (∀ r, r < i → r < q r → st.givens[r - (diags q r).length]? = some ⟨r, q r, a r, b r⟩) →
      ∀ st', tensorLoop ts tau (List.range' i m) st = some st' →
        st'.diag = (diags q d).map (fun r => (r, a r)) ∧ st'.givens.length = d / 2 + 1 ∧
        (∀ k g, st'.givens[k]? = some g → g = GSlot.zero ∨
          ∃ r, r < d ∧ r < q r ∧ k = r - (diags q r).length ∧ g = ⟨r, q r, a r, b r⟩) ∧
        ∀ r, r < d → r < q r → st'.givens[r - (diags q r).length]? = some ⟨r, q r, a r, b r⟩ := by
  induction m with
  | zero =>
    intro i st hi _ h1 hl h2 h3 st' he
    have : i = d := by omega
    subst this
    cases he
    exact ⟨h1, hl, h2, h3⟩
  | succ m ih =>
    intro i st hi hD h1 hl h2 h3 st' he
    have hid : i < d := by omega
    obtain ⟨s1, s2, s3, s4⟩ := h.step hid hD.len (hD.at hid)
    rw [List.range'_succ] at he
    unfold tensorLoop at he
    have hdl : st.diag.length = (diags q i).length := by rw [h1, List.length_map]
    have weak : ∀ k g, st.givens[k]? = some g → g = GSlot.zero ∨
        ∃ r, r < i + 1 ∧ r < q r ∧ k = r - (diags q r).length ∧ g = ⟨r, q r, a r, b r⟩ := by
      intro k g hg
      refine (h2 k g hg).imp id ?_
      rintro ⟨r, hr, hh⟩
      exact ⟨r, by omega, hh⟩
    have weak3 : ¬ i < q i → ∀ r, r < i + 1 → r < q r → st.givens[r - (diags q r).length]? = some ⟨r, q r, a r, b r⟩ := by
      intro hni r hr hq
      refine h3 r ?_ hq
      rcases Nat.lt_or_ge r i with e | e
      · exact e
      · obtain rfl : r = i := by omega
        exact absurd hq hni
    rcases Nat.lt_trichotomy (q i) i with hlt | heq | hlt
    · rw [s1 hlt, Option.bind_some] at he
      exact ih (i + 1) st (by omega) (hD.skip rfl h.inv (by omega))
        (by rw [diags_succ, if_neg (by omega)]; exact h1) hl weak (weak3 (by omega)) st' he
    · rw [s2 heq, Option.bind_some] at he
      exact ih (i + 1) { st with diag := st.diag ++ [(i, a i)] } (by omega)
        (hD.skip rfl h.inv (by omega)) (by rw [diags_succ, if_pos heq, List.map_append, ← h1]; rfl) hl weak (weak3 (by omega)) st' he
    · by_cases hk : i - st.diag.length < st.givens.length
      · rw [s3 hlt hk, Option.bind_some] at he
        refine ih (i + 1) _ (by omega) (hD.mark rfl h.inv hid hlt)
          (by rw [diags_succ, if_neg (by omega)]; exact h1) (by rw [List.length_set]; exact hl) ?_ ?_ st' he
        · intro k g hg
          rw [List.getElem?_set] at hg
          by_cases e : i - st.diag.length = k
          · rw [if_pos e, if_pos hk] at hg
            cases hg
            exact Or.inr ⟨i, by omega, hlt, by rw [← e, hdl], rfl⟩
          · rw [if_neg e] at hg
            exact weak k g hg
        · intro r hr hq
          rw [List.getElem?_set]
          rcases Nat.lt_or_ge r i with e | e
          · have := diags_length_lt q e (by omega)
            rw [if_neg (by omega)]
            exact h3 r e hq
          · obtain rfl : r = i := by omega
            rw [if_pos (by omega), if_pos hk]
      · rw [s4 hlt hk] at he
        cases he

variable {K : Type} [DecidableEq K]

/-- the square of the length of a column -/
def colNorm (d : Nat) (A : Nat → K → ℝ) (k : K) : ℝ := ∑ r ∈ Finset.range d, A r k * A r k

theorem colNorm_nonneg (d : Nat) (A : Nat → K → ℝ) (k : K) : 0 ≤ colNorm d A k :=
  Finset.sum_nonneg fun _ _ => mul_self_nonneg _

theorem colNorm_scale {d : Nat} {cols : List K} (hc : cols.Nodup) {i : Nat} {c : ℝ} (h : c * c = 1) (A : Nat → K → ℝ) (k : K) :
    colNorm d (IrrepObj.scaleRow i c cols A) k = colNorm d A k := by
  unfold colNorm
  refine Finset.sum_congr rfl fun r _ => ?_
  rw [scaleRow_eq i c cols hc]
  split
  · linear_combination (A r k * A r k) * h
  · rfl

theorem colNorm_mix {d : Nat} {cols : List K} (hc : cols.Nodup) {i j : Nat} (hi : i < d) (hj : j < d) (hij : i ≠ j) {c s : ℝ}
    (h : c * c + s * s = 1) (A : Nat → K → ℝ) (k : K) :
    colNorm d (IrrepObj.mixRows i j c s cols A) k = colNorm d A k := by
  unfold colNorm
  by_cases hk : k ∈ cols
  · have hj' : j ∈ (Finset.range d).erase i := Finset.mem_erase.2 ⟨hij.symm, Finset.mem_range.2 hj⟩
    rw [← Finset.add_sum_erase _ _ (Finset.mem_range.2 hi), ← Finset.add_sum_erase _ _ hj',
      ← Finset.add_sum_erase (Finset.range d) (fun r => A r k * A r k) (Finset.mem_range.2 hi),
      ← Finset.add_sum_erase _ (fun r => A r k * A r k) hj', ← add_assoc, ← add_assoc]
    congr 1
    · simp only [mixRows_eq i j hij c s cols hc]
      simp only [hk, if_true, hij.symm, if_false, and_true]
      linear_combination (A i k * A i k + A j k * A j k) * h
    · refine Finset.sum_congr rfl fun r hr => ?_
      rw [Finset.mem_erase, Finset.mem_erase] at hr
      simp only [mixRows_eq i j hij c s cols hc]
      simp [hr.1, hr.2.1]
  · refine Finset.sum_congr rfl fun r _ => ?_
    simp only [mixRows_eq i j hij c s cols hc]
    simp [hk]

theorem colNorm_zero {d : Nat} (hd : 0 < d) {cols : List K} (A : Nat → K → ℝ) (k : K) (hk : k ∈ cols) :
    colNorm d (IrrepObj.mixRows 0 0 0 0 cols A) k = colNorm d A k - A 0 k * A 0 k := by
  unfold colNorm
  rw [← Finset.add_sum_erase _ _ (Finset.mem_range.2 hd), ← Finset.add_sum_erase (Finset.range d) (fun r => A r k * A r k) (Finset.mem_range.2 hd)]
  rw [mix_zero, if_pos ⟨rfl, hk⟩]
  have : ∑ x ∈ (Finset.range d).erase 0, IrrepObj.mixRows 0 0 0 0 cols A x k * IrrepObj.mixRows 0 0 0 0 cols A x k =
      ∑ x ∈ (Finset.range d).erase 0, A x k * A x k := by
    refine Finset.sum_congr rfl fun r hr => ?_
    rw [mix_zero, if_neg fun h => (Finset.mem_erase.1 hr).1 h.1]
  rw [this]; ring

theorem foldl_scale_norm {d : Nat} {cols : List K} (hc : cols.Nodup) (l : List (Nat × ℝ)) (hl : ∀ x ∈ l, x.2 * x.2 = 1)
    (A : Nat → K → ℝ) (k : K) :
    colNorm d (l.foldl (fun A (x : Nat × ℝ) => IrrepObj.scaleRow x.1 x.2 cols A) A) k = colNorm d A k := by
  induction l generalizing A with
  | nil => rfl
  | cons x l ih =>
    rw [List.foldl_cons, ih (fun y hy => hl y (by simp [hy])), colNorm_scale hc (hl x (by simp))]

/-- a slot that keeps or shortens columns -/
def SlotOk (d : Nat) (g : GSlot) : Prop := g = GSlot.zero ∨ (g.i < d ∧ g.j < d ∧ g.i ≠ g.j ∧ g.c1 * g.c1 + g.c2 * g.c2 = 1)

theorem foldl_mix_norm {d : Nat} (hd : 0 < d) {cols : List K} (hc : cols.Nodup) (l : List GSlot) (hl : ∀ g ∈ l, SlotOk d g)
    (A : Nat → K → ℝ) (k : K) (hk : k ∈ cols) :
    colNorm d (l.foldl (fun A (g : GSlot) => IrrepObj.mixRows g.i g.j g.c1 g.c2 cols A) A) k ≤ colNorm d A k := by
  induction l generalizing A with
  | nil => exact le_refl _
  | cons g l ih =>
    rw [List.foldl_cons]
    refine (ih (fun y hy => hl y (by simp [hy])) _).trans ?_
    rcases hl g (by simp) with rfl | ⟨h1, h2, h3, h4⟩
    · have := colNorm_zero hd A k hk
      have h0 := mul_self_nonneg (A 0 k)
      show colNorm d (IrrepObj.mixRows 0 0 0 0 cols A) k ≤ _
      linarith
    · exact (colNorm_mix hc h1 h2 h3 h4 A k).le

/-- rows that no slot mentions -/
theorem foldl_mix_row {cols : List K} (hc : cols.Nodup) (l : List GSlot) (r : Nat)
    (hl : ∀ g ∈ l, g.i ≠ r ∧ g.j ≠ r ∧ g.i ≠ g.j) (A : Nat → K → ℝ) (k : K) :
    l.foldl (fun A (g : GSlot) => IrrepObj.mixRows g.i g.j g.c1 g.c2 cols A) A r k = A r k := by
  induction l generalizing A with
  | nil => rfl
  | cons g l ih =>
    obtain ⟨h1, h2, h3⟩ := hl g (by simp)
    rw [List.foldl_cons, ih (fun y hy => hl y (by simp [hy])), mixRows_eq _ _ h3 _ _ _ hc]
    simp [Ne.symm h1, Ne.symm h2]

/-- what the tables are when they are filled at all -/
theorem Pairing.tables (h : Pairing ts tau d q a b M) (st : TensorSt)
    (hst : tensorLoop ts tau (List.range ts.length)
      ⟨[], List.replicate (ts.length / 2 + 1) GSlot.zero, List.replicate ts.length false⟩ = some st) :
    st.diag = (diags q d).map (fun r => (r, a r)) ∧ (d - st.diag.length) / 2 = (firsts q d).length ∧ (firsts q d).length ≤ st.givens.length ∧
      (∀ k g, st.givens[k]? = some g → g = GSlot.zero ∨
          ∃ r, r < d ∧ r < q r ∧ k = r - (diags q r).length ∧ g = ⟨r, q r, a r, b r⟩) ∧
        ∀ r, r < d → r < q r → st.givens[r - (diags q r).length]? = some ⟨r, q r, a r, b r⟩ := by
  rw [h.len, List.range_eq_range'] at hst
  obtain ⟨r1, r2, r3, r4⟩ := h.loop_slots d 0 _ (by omega)
    ⟨by simp, fun r hr => by simp [hr]⟩ rfl (by simp)
    (by
      intro k g hg
      rw [List.getElem?_replicate] at hg
      split at hg
      · cases hg; exact Or.inl rfl
      · cases hg) (by intro r hr; omega) st hst
  have e1 : (d - st.diag.length) / 2 = (firsts q d).length := by
    rw [r1, List.length_map]; exact firsts_length h.inv
  exact ⟨r1, e1, by rw [r2]; omega, r3, r4⟩

theorem Pairing.slotOk (h : Pairing ts tau d q a b M) {g : GSlot}
    (hg : g = GSlot.zero ∨ ∃ r, r < d ∧ r < q r ∧ k = r - (diags q r).length ∧ g = ⟨r, q r, a r, b r⟩) : SlotOk d g := by
  rcases hg with e | ⟨r, h1, h2, -, rfl⟩
  · exact Or.inl e
  · exact Or.inr ⟨h1, (h.inv r h1).1, by simp only; omega, (h.unit h1).2 (by omega)⟩

theorem Pairing.norm_le (h : Pairing ts tau d q a b M) (hd : 0 < d) (st : TensorSt)
    (hst : tensorLoop ts tau (List.range ts.length)
      ⟨[], List.replicate (ts.length / 2 + 1) GSlot.zero, List.replicate ts.length false⟩ = some st)
    (cols : List K) (hc : cols.Nodup) (A : Nat → K → ℝ) (k : K) (hk : k ∈ cols) :
    colNorm d ((st.givens.take ((d - st.diag.length) / 2)).foldl
        (fun A (g : GSlot) => IrrepObj.mixRows g.i g.j g.c1 g.c2 cols A)
        (st.diag.foldl (fun A (x : Nat × ℝ) => IrrepObj.scaleRow x.1 x.2 cols A) A)) k ≤ colNorm d A k := by
  obtain ⟨r1, -, -, r4, -⟩ := h.tables st hst
  refine (foldl_mix_norm hd hc _ ?_ _ k hk).trans (foldl_scale_norm hc _ ?_ _ k).le
  · intro g hg
    obtain ⟨i, hi⟩ := List.mem_iff_getElem?.1 (List.mem_of_mem_take hg)
    exact h.slotOk (r4 i g hi)
  · intro x hx
    rw [r1, List.mem_map] at hx
    obtain ⟨r, hr, rfl⟩ := hx
    simp only [diags, List.mem_filter, List.mem_range, decide_eq_true_eq] at hr
    exact (h.unit hr.1).1 hr.2

/-- when the tables have a gap, the entry in the first row is lost -/
theorem Pairing.norm_gap (h : Pairing ts tau d q a b M) (hk : ¬ Packed d q) (hd : 0 < d) (st : TensorSt)
    (hst : tensorLoop ts tau (List.range ts.length)
      ⟨[], List.replicate (ts.length / 2 + 1) GSlot.zero, List.replicate ts.length false⟩ = some st)
    (cols : List K) (hc : cols.Nodup) (A : Nat → K → ℝ) (k : K) (hkc : k ∈ cols) :
    colNorm d ((st.givens.take ((d - st.diag.length) / 2)).foldl
        (fun A (g : GSlot) => IrrepObj.mixRows g.i g.j g.c1 g.c2 cols A)
        (st.diag.foldl (fun A (x : Nat × ℝ) => IrrepObj.scaleRow x.1 x.2 cols A) A)) k +
      (∑ j, M ⟨0, hd⟩ j * A j k) * (∑ j, M ⟨0, hd⟩ j * A j k) ≤ colNorm d A k := by
  obtain ⟨r1, r2, r3, r4, r5⟩ := h.tables st hst
  have hgap := exists_gap hk
  -- the first gap
  have hex : ∃ k0, k0 < (firsts q d).length ∧ st.givens[k0]? = some GSlot.zero := by
    obtain ⟨k0, h1, h2⟩ := hgap
    refine ⟨k0, h1, ?_⟩
    have hl : k0 < st.givens.length := by omega
    rcases r4 k0 _ (List.getElem?_eq_getElem hl) with e | ⟨r, a1, a2, a3, -⟩
    · rw [List.getElem?_eq_getElem hl, e]
    · exact absurd a3 (h2 r a1 a2)
  classical
  obtain ⟨k0, ⟨hk0, hz⟩, hmin⟩ : ∃ k0, (k0 < (firsts q d).length ∧ st.givens[k0]? = some GSlot.zero) ∧
      ∀ k1, k1 < k0 → ¬ (k1 < (firsts q d).length ∧ st.givens[k1]? = some GSlot.zero) :=
    ⟨Nat.find hex, Nat.find_spec hex, fun k1 hk1 => Nat.find_min hex hk1⟩
  have hk0l : k0 < st.givens.length := by omega
  have hz' : st.givens[k0] = GSlot.zero := (List.getElem?_eq_some_iff.1 hz).2
  have hsplit : st.givens.take (firsts q d).length =
      st.givens.take k0 ++ GSlot.zero :: (st.givens.take (firsts q d).length).drop (k0 + 1) := by
    have hl : k0 < (st.givens.take (firsts q d).length).length := by
      rw [List.length_take]; omega
    have := List.take_append_drop k0 (st.givens.take (firsts q d).length)
    rw [List.drop_eq_getElem_cons hl, List.getElem_take, hz', List.take_take,
      min_eq_left (by omega)] at this
    exact this.symm
  have hslots : ∀ g ∈ st.givens, SlotOk d g := by
    intro g hg
    obtain ⟨i, hi⟩ := List.mem_iff_getElem?.1 hg
    exact h.slotOk (r4 i g hi)
  have hpre : ∀ (i : Nat) (g : GSlot), (st.givens.take k0)[i]? = some g → ∃ r, r < d ∧ r < q r ∧ i = r - (diags q r).length ∧ g = ⟨r, q r, a r, b r⟩ := by
    intro i g hg
    rw [List.getElem?_take] at hg
    split at hg
    · rename_i hi
      rcases r4 i g hg with rfl | e
      · exact absurd ⟨by omega, hg⟩ (hmin i hi)
      · exact e
    · cases hg
  have hscale : ∀ r, st.diag.foldl (fun A (x : Nat × ℝ) => IrrepObj.scaleRow x.1 x.2 cols A) A r k =
      if r < d ∧ q r = r then a r * A r k else A r k := by
    intro r
    rw [r1, foldl_scale cols hc (diags q d) (List.Nodup.filter _ List.nodup_range) a]
    simp [diags, hkc]
  have hnorm1 := foldl_scale_norm (d := d) hc st.diag (by
    intro x hx
    rw [r1, List.mem_map] at hx
    obtain ⟨r, hr, rfl⟩ := hx
    simp only [diags, List.mem_filter, List.mem_range, decide_eq_true_eq] at hr
    exact (h.unit hr.1).1 hr.2) A k
  rw [r2, hsplit, List.foldl_append, List.foldl_cons]
  generalize st.diag.foldl (fun A (x : Nat × ℝ) => IrrepObj.scaleRow x.1 x.2 cols A) A = A1 at hscale hnorm1 ⊢
  have hnorm2 := foldl_mix_norm hd hc (st.givens.take k0) (fun g hg => hslots g (List.mem_of_mem_take hg)) A1 k hkc
  -- the first row before the gap
  have hrow : (st.givens.take k0).foldl (fun A (g : GSlot) => IrrepObj.mixRows g.i g.j g.c1 g.c2 cols A) A1 0 k = ∑ j, M ⟨0, hd⟩ j * A j k := by
    by_cases e0 : q 0 = 0
    · rw [foldl_mix_row hc _ 0]
      · rw [hscale 0, if_pos ⟨hd, e0⟩]
        exact (h.diag ⟨0, hd⟩ (fun j => A j k) e0).symm
      · intro g hg
        obtain ⟨i, hi⟩ := List.mem_iff_getElem?.1 hg
        obtain ⟨r, b1, b2, -, rfl⟩ := hpre i g hi
        refine ⟨?_, by simp only; omega, by simp only; omega⟩
        rintro e
        simp only at e
        subst e
        omega
    · have hq0 := h.inv 0 hd
      have hs0 : st.givens[0]? = some ⟨0, q 0, a 0, b 0⟩ := by
        have := r5 0 hd (by omega)
        simpa using this
      have hk1 : 0 < k0 := by
        rcases Nat.eq_zero_or_pos k0 with e | e
        · exfalso
          subst e
          rw [hs0] at hz
          have := congrArg GSlot.j (Option.some.inj hz)
          simp only [GSlot.zero] at this
          exact e0 this
        · exact e
      have hcons : st.givens.take k0 = ⟨0, q 0, a 0, b 0⟩ :: (st.givens.take k0).tail := by
        have hl : 0 < st.givens.length := by omega
        have hl' : 0 < (st.givens.take k0).length := by rw [List.length_take]; omega
        have e1 : (st.givens.take k0)[0] = ⟨0, q 0, a 0, b 0⟩ := by
          rw [List.getElem_take]
          exact (List.getElem?_eq_some_iff.1 hs0).2
        have := List.drop_eq_getElem_cons hl'
        rw [List.drop_zero, e1] at this
        rw [← List.drop_one]
        exact this
      rw [hcons, List.foldl_cons, foldl_mix_row hc _ 0]
      · simp only [mixRows_eq 0 (q 0) (Ne.symm e0) _ _ _ hc]
        rw [if_pos hkc, if_pos trivial, hscale 0, hscale (q 0), if_neg (by omega : ¬ (0 < d ∧ q 0 = 0)), if_neg (by rw [hq0.2]; omega)]
        have := (h.rot ⟨0, hd⟩ ⟨q 0, hq0.1⟩ (fun j => A j k) rfl (fun e => by have := congrArg Fin.val e; simp only at this; omega)).1
        rw [this]
      · intro g hg
        obtain ⟨i, hi⟩ := List.mem_iff_getElem?.1 hg
        rw [← List.drop_one, List.getElem?_drop] at hi
        obtain ⟨r, b1, b2, b3, rfl⟩ := hpre _ g hi
        refine ⟨?_, by simp only; omega, by simp only; omega⟩
        rintro e
        simp only at e
        subst e
        simp [diags] at b3
  rw [← hrow]
  generalize (st.givens.take k0).foldl (fun A (g : GSlot) => IrrepObj.mixRows g.i g.j g.c1 g.c2 cols A) A1 = A2 at hnorm2 ⊢
  have hz3 := colNorm_zero hd A2 k hkc (cols := cols)
  have hpost := foldl_mix_norm hd hc ((st.givens.take (firsts q d).length).drop (k0 + 1))
    (fun g hg => hslots g (List.mem_of_mem_take (List.mem_of_mem_drop hg))) (IrrepObj.mixRows 0 0 0 0 cols A2) k hkc
  show colNorm d (List.foldl _ (IrrepObj.mixRows 0 0 0 0 cols A2) _) k + _ ≤ _
  linarith

end

section
variable {n : Nat} {p : List Nat} {hp : IsPartition n p} {R : IrrepObj} {K : Type} [DecidableEq K]

/-- the tables used by the action -/
theorem Repr'.view_some (h : Repr' hp R) {tau : Int} {cols : List K} {A B : Nat → K → ℝ} (hB : R.applyTauView cols tau A = some B) :
    ∃ t : Nat, tau = t ∧ 1 ≤ t ∧ t < n ∧ ∃ st, tensorLoop R.tableaux t (List.range R.tableaux.length)
      ⟨[], List.replicate (R.tableaux.length / 2 + 1) GSlot.zero, List.replicate R.tableaux.length false⟩ = some st ∧
      B = (st.givens.take ((R.d - st.diag.length) / 2)).foldl
        (fun A (g : GSlot) => IrrepObj.mixRows g.i g.j g.c1 g.c2 cols A)
        (st.diag.foldl (fun A (x : Nat × ℝ) => IrrepObj.scaleRow x.1 x.2 cols A) A) := by
  unfold IrrepObj.applyTauView at hB
  split at hB
  · rename_i htau
    rw [h.n_eq] at htau
    refine ⟨tau.toNat, by omega, by omega, by omega, ?_⟩
    cases htabs : computeYORtensors R.n R.tableaux with
    | none => rw [htabs] at hB; cases hB
    | some tabs =>
      rw [htabs] at hB
      simp only at hB
      unfold computeYORtensors at htabs
      rw [mapM_some_iff] at htabs
      have hi : (tau - 1).toNat = tau.toNat - 1 := by omega
      obtain ⟨st, e1, e2⟩ := htabs.2 (tau.toNat - 1) tau.toNat (by
        rw [h.n_eq, List.getElem?_range' (by omega)]
        congr 1; omega)
      rw [hi, e1] at hB
      simp only at hB
      cases hB
      exact ⟨st, e2, rfl⟩
  · cases hB

theorem Repr'.d_pos (h : Repr' hp R) : 0 < R.d := by
  rw [h.d_eq]; exact List.length_pos_iff.2 (words_ne_nil hp)

theorem Repr'.view_norm (h : Repr' hp R) {tau : Int} {cols : List K} (hc : cols.Nodup) {A B : Nat → K → ℝ}
    (hB : R.applyTauView cols tau A = some B) (k : K) (hk : k ∈ cols) : colNorm R.d B k ≤ colNorm R.d A k := by
  obtain ⟨t, rfl, h1, h2, st, hst, rfl⟩ := h.view_some hB
  exact (h.pairing h1 h2).norm_le h.d_pos st hst cols hc A k hk

theorem Repr'.view_norm_gap (h : Repr' hp R) {tau : Nat} {cols : List K} (hc : cols.Nodup) {A B : Nat → K → ℝ}
    (hB : R.applyTauView cols tau A = some B) (hun : ¬ Packed R.d (R.partner tau)) (k : K) (hk : k ∈ cols) :
    colNorm R.d B k + act (h.mat (yorM n p tau)) cols A 0 k * act (h.mat (yorM n p tau)) cols A 0 k ≤ colNorm R.d A k := by
  obtain ⟨t, e, h1, h2, st, hst, rfl⟩ := h.view_some hB
  obtain rfl : tau = t := by exact_mod_cast e
  have := (h.pairing h1 h2).norm_gap hun h.d_pos st hst cols hc A k hk
  unfold act
  rw [dif_pos ⟨h.d_pos, hk⟩]
  exact this

theorem Repr'.view_packed_one (h : Repr' hp R) {tau : Nat} {cols : List K} (hc : cols.Nodup) {A B : Nat → K → ℝ}
    (hB : R.applyTauView cols tau A = some B) (hpk : Packed R.d (R.partner tau)) : B = act (h.mat (yorM n p tau)) cols A := by
  obtain ⟨t, e, h1, h2, st, hst, rfl⟩ := h.view_some hB
  obtain rfl : tau = t := by exact_mod_cast e
  have P := h.pairing h1 h2
  obtain ⟨st', e1, e2, e3⟩ := P.loop_packed hpk R.d 0
    ⟨[], List.replicate (R.d / 2 + 1) GSlot.zero, List.replicate R.d false⟩ (by omega)
    ⟨by simp, fun r hr => by simp [hr]⟩ rfl (by simp) rfl
  rw [P.len, List.range_eq_range', e1] at hst
  obtain rfl := Option.some.inj hst
  rw [e2, List.length_map, firsts_length P.inv, e3, P.apply_packed cols hc A]

end

end Snob
