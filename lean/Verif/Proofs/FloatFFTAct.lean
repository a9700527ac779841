import Verif.Model.FloatFFT
import Verif.Proofs.FloatChar
import Verif.Proofs.FFTView

/-! # The actions used by the transforms, with rounding -/

namespace Snob

open IP Matrix Snob.Perm

/-! ### lengths of columns -/

theorem nrm_le_mul {d : Nat} {x y : Nat → ℝ} {c : ℝ} (hc : 0 ≤ c) (h : ∀ i, i < d → |x i| ≤ c * |y i|) : nrm d x ≤ c * nrm d y := by
  refine nrm_le_of_sq (mul_nonneg hc (nrm_nonneg _ _)) ?_
  rw [show c * nrm d y * (c * nrm d y) = c * c * (nrm d y * nrm d y) by ring, nrm_sq, Finset.mul_sum]
  refine Finset.sum_le_sum fun i hi => ?_
  have := mul_self_le_mul_self (abs_nonneg _) (h i (Finset.mem_range.1 hi))
  rw [abs_mul_abs_self] at this
  rw [← abs_mul_abs_self (y i)]
  linarith

theorem nrm_zero (d : Nat) : nrm d (fun _ => 0) = 0 := by simp [nrm]

theorem nrm_abs (d : Nat) (x : Nat → ℝ) : nrm d (fun i => |x i|) = nrm d x := by
  unfold nrm
  simp only [abs_mul_abs_self]

theorem nrm_sum (d n : Nat) (x : Nat → Nat → ℝ) : nrm d (fun i => ∑ t ∈ Finset.range n, x t i) ≤ ∑ t ∈ Finset.range n, nrm d (x t) := by
  induction n with
  | zero => simp [nrm_zero]
  | succ n ih =>
    simp only [Finset.sum_range_succ]
    exact (nrm_add d _ _).trans (add_le_add_left ih _)

/-- a column with a block of rows -/
theorem nrm_block {d d' io : Nat} (h : io + d' ≤ d) (x y : Nat → ℝ) (h1 : ∀ i, i < d' → x (io + i) = y i)
    (h2 : ∀ i, i < d → ¬ (io ≤ i ∧ i < io + d') → x i = 0) : nrm d x = nrm d' y := by
  unfold nrm
  congr 1
  have hsub : (Finset.range d').map (addLeftEmbedding io) ⊆ Finset.range d := by
    intro i hi
    obtain ⟨j, hj, rfl⟩ := Finset.mem_map.1 hi
    have := Finset.mem_range.1 hj
    rw [addLeftEmbedding_apply, Finset.mem_range]
    omega
  rw [← Finset.sum_subset hsub, Finset.sum_map]
  · refine Finset.sum_congr rfl fun i hi => ?_
    rw [addLeftEmbedding_apply, h1 i (Finset.mem_range.1 hi)]
  · intro i hi hn
    rw [h2 i (Finset.mem_range.1 hi), zero_mul]
    rintro ⟨a, b⟩
    refine hn (Finset.mem_map.2 ⟨i - io, Finset.mem_range.2 (by omega), ?_⟩)
    rw [addLeftEmbedding_apply]
    omega

/-! ### one step of an action -/

/-- errors of the cells of one step add up to the error of the column -/
theorem Repr'.cell_nrm {n : Nat} {p : List Nat} {hp : IsPartition n p} {R : IrrepObj} (h : Repr' hp R) {κ : ℝ} (hκ : 0 ≤ κ)
    {tau : Nat} (h1 : 1 ≤ tau) (h2 : tau < n) (x e : Nat → ℝ)
    (he : ∀ i, i < R.d → |e i| ≤ κ * (if R.partner tau i = i then |x i| else |R.co1 tau i * x i| + |R.co2 tau i * x (R.partner tau i)|)) :
    nrm R.d e ≤ 3 / 2 * κ * nrm R.d x := by
  have P := h.pairing h1 h2
  have hn := nrm_nonneg R.d x
  refine nrm_le_of_sq (by positivity) ?_
  have cellb : ∀ i ∈ Finset.range R.d, e i * e i ≤ κ * κ * (x i * x i + x (R.partner tau i) * x (R.partner tau i)) := by
    intro i hi
    rw [Finset.mem_range] at hi
    obtain ⟨u1, u2⟩ := P.unit hi
    have sq : ∀ m : ℝ, |e i| ≤ κ * m → e i * e i ≤ κ * κ * (m * m) := by
      intro m he
      have := mul_self_le_mul_self (abs_nonneg (e i)) he
      rw [abs_mul_abs_self] at this
      linarith
    have hi' := he i hi
    by_cases hq : R.partner tau i = i
    · rw [if_pos hq] at hi'
      have := sq _ hi'
      rw [abs_mul_abs_self] at this
      refine this.trans (mul_le_mul_of_nonneg_left ?_ (mul_self_nonneg _))
      linarith [mul_self_nonneg (x (R.partner tau i))]
    · rw [if_neg hq] at hi'
      refine (sq _ hi').trans (mul_le_mul_of_nonneg_left ?_ (mul_self_nonneg _))
      have hu2 := u2 hq
      set a := R.co1 tau i
      set b := R.co2 tau i
      set y := x i
      set z := x (R.partner tau i)
      rw [abs_mul, abs_mul]
      have e1 : |a| * |a| + |b| * |b| = 1 := by rw [abs_mul_abs_self, abs_mul_abs_self]; exact hu2
      have e2 := abs_mul_abs_self y
      have e3 := abs_mul_abs_self z
      rw [← e2, ← e3]
      have e4 : (|y| * |y| + |z| * |z|) - (|a| * |y| + |b| * |z|) * (|a| * |y| + |b| * |z|) =
          (|a| * |z| - |b| * |y|) * (|a| * |z| - |b| * |y|) := by
        linear_combination (-(|y| * |y| + |z| * |z|)) * e1
      linarith [mul_self_nonneg (|a| * |z| - |b| * |y|)]
  refine (Finset.sum_le_sum cellb).trans ?_
  rw [← Finset.mul_sum, Finset.sum_add_distrib, sum_partner P.inv (fun i => x i * x i), ← nrm_sq]
  have e : 0 ≤ κ * κ * (nrm R.d x * nrm R.d x) := by positivity
  linarith

/-- the action `ap` is, up to a relative error `η` per step and column, the one of the irreps of `Sl` with at least `m`
boxes in the first row -/
def FActOk (ap : ViewAct) (η : ℝ) (m l : Nat) : Prop :=
  ∀ (p : List Nat) (hp : IsPartition l p) (R : IrrepObj) (h : Repr' hp R), mkIrrep R.lambda = some R → m ≤ row p 0 →
    ∀ cols : List (Nat × Nat), cols.Nodup → ∀ (k0 : Nat), k0 + 1 < l → ∀ B : Nat → Nat × Nat → ℝ,
      ∃ B', ap R cols ((k0 : Int) + 1) B = some B' ∧
        (∀ k ∈ cols, nrm R.d (fun i => B' i k - act (h.rep (adj l k0)) cols B i k) ≤ η * nrm R.d (fun i => B i k)) ∧
        ∀ k, k ∉ cols → ∀ i, B' i k = B i k

section
variable {F : Rounding} {u v : ℝ}

theorem fmatAct_ok (hs : RelErr u F.s) (hd : RelErr v F.d) (hodd : Odd' F.d) (hu : 0 ≤ u) (h0 : 0 ≤ v) (hv : v ≤ 1 / 2) (m l : Nat) :
    FActOk F.matAct (stepErr u v) m l := by
  intro p hp R h hmk _ cols hc k0 hk B
  refine ⟨fst' F R cols k0 B, ?_, ?_, ?_⟩
  · have := (h.fgen hodd cols hc).gen k0 B hk
    unfold Rounding.matAct
    rw [F.mkIrrep_map, hmk]
    exact this
  · intro k hkc
    refine le_trans (le_of_eq ?_) (h.cell_err hs hd hu h0 hv (tau := k0 + 1) (by omega) hk (fun i => B i k))
    refine nrm_congr fun i hi => ?_
    rw [h.rep_adj hk, h.act_cell (by omega) hk B hi hkc]
    unfold fst' Rounding.step
    rw [if_pos ⟨hi, hkc⟩]
  · intro k hkc i
    unfold fst' Rounding.step
    rw [if_neg fun hh => hkc hh.2]

/-! ### tensor views -/

namespace Rounding

variable (F)

section
variable {K : Type} [DecidableEq K]

theorem scaleSlice_eq (i : Nat) (c1 : ℝ) (cols : List K) (h : cols.Nodup) (A : Nat → K → ℝ) (r : Nat) (k : K) :
    F.scaleSlice i c1 cols A r k = if r = i ∧ k ∈ cols then F.s (c1 * A r k) else A r k := by
  induction cols generalizing A with
  | nil => simp [scaleSlice]
  | cons k0 ks ih =>
    have hk := List.nodup_cons.1 h
    rw [scaleSlice, ih hk.2]
    unfold setv
    by_cases h1 : r = i
    · subst h1
      by_cases h2 : k = k0
      · subst h2; simp [hk.1]
      · simp [h2]
    · simp [h1]

theorem givensSlices_eq (i i2 : Nat) (hi : i ≠ i2) (c1 c2 : ℝ) (cols : List K) (h : cols.Nodup)
    (A : Nat → K → ℝ) (r : Nat) (k : K) :
    F.givensSlices i i2 c1 c2 cols A r k =
      if k ∈ cols then
        if r = i then F.s (F.s (c1 * A i k) + F.s (c2 * A i2 k))
        else if r = i2 then F.s (F.s (-c1 * A i2 k) + F.s (c2 * A i k)) else A r k
      else A r k := by
  induction cols generalizing A with
  | nil => simp [givensSlices]
  | cons k0 ks ih =>
    have hk := List.nodup_cons.1 h
    rw [givensSlices, ih hk.2]
    unfold setv
    by_cases h2 : k = k0
    · subst h2
      simp only [hk.1, if_false, List.mem_cons, true_or, if_true, and_true]
      by_cases h1 : r = i2
      · subst h1
        simp [Ne.symm hi]
      · simp [h1]
    · simp [h2]

theorem foldl_scale (cols : List K) (hc : cols.Nodup) (l : List Nat) (hl : l.Nodup) (f : Nat → ℝ)
    (A : Nat → K → ℝ) (r : Nat) (k : K) :
    (l.map fun r => (r, f r)).foldl (fun A (x : Nat × ℝ) => F.scaleSlice x.1 x.2 cols A) A r k =
      if r ∈ l ∧ k ∈ cols then F.s (f r * A r k) else A r k := by
  induction l generalizing A with
  | nil => simp
  | cons x l ih =>
    have hx := List.nodup_cons.1 hl
    rw [List.map_cons, List.foldl_cons, ih hx.2]
    simp only [F.scaleSlice_eq x (f x) cols hc]
    by_cases e : r = x
    · subst e
      simp [hx.1]
    · simp [e]

theorem foldl_givens (cols : List K) (hc : cols.Nodup) (l : List Nat) (hl : l.Nodup) (q : Nat → Nat)
    (a b : Nat → ℝ) (hq : ∀ r ∈ l, r < q r ∧ q (q r) = r) (A : Nat → K → ℝ) (r : Nat) (k : K) :
    (l.map fun r => (⟨r, q r, a r, b r⟩ : GSlot)).foldl
        (fun A (g : GSlot) => F.givensSlices g.i g.j g.c1 g.c2 cols A) A r k =
      if k ∈ cols then
        if r ∈ l then F.s (F.s (a r * A r k) + F.s (b r * A (q r) k))
        else if q r ∈ l ∧ q (q r) = r then F.s (F.s (-a (q r) * A r k) + F.s (b (q r) * A (q r) k)) else A r k
      else A r k := by
  induction l generalizing A with
  | nil => simp
  | cons x l ih =>
    have hx := List.nodup_cons.1 hl
    have hqx := hq x (by simp)
    rw [List.map_cons, List.foldl_cons, ih hx.2 fun r hr => hq r (by simp [hr])]
    simp only [F.givensSlices_eq x (q x) (by omega) (a x) (b x) cols hc]
    by_cases hk : k ∈ cols
    · simp only [hk, if_true]
      have hne : ∀ y ∈ l, y ≠ x ∧ y ≠ q x ∧ q y ≠ x ∧ q y ≠ q x := by
        intro y hy
        have h1 := hq y (by simp [hy])
        have hyx : y ≠ x := fun e => hx.1 (e ▸ hy)
        refine ⟨hyx, ?_, ?_, ?_⟩
        · intro e; rw [e, hqx.2] at h1; omega
        · intro e; rw [e] at h1; omega
        · intro e
          have := h1.2
          rw [e, hqx.2] at this
          exact hyx this.symm
      by_cases hr : r ∈ l
      · obtain ⟨n1, n2, n3, n4⟩ := hne r hr
        simp [hr, n1, n2, n3, n4]
      · by_cases e1 : r = x
        · subst e1
          have : q r ∉ l := fun h => (hne _ h).2.1 rfl
          simp [hr, this]
        · by_cases e2 : r = q x
          · subst e2
            have h3 : q x ≠ x := by omega
            simp [hr, h3, hqx.2, hx.1]
          · by_cases hq2 : q r ∈ l ∧ q (q r) = r
            · obtain ⟨n1, n2, n3, n4⟩ := hne _ hq2.1
              simp [hr, e1, e2, hq2, n1, n2]
            · have : ¬ (q r = x ∧ q (q r) = r) := by
                rintro ⟨h1, h2⟩
                rw [h1] at h2
                exact e2 h2.symm
              have h4 : ¬ ((q r = x ∨ q r ∈ l) ∧ q (q r) = r) := by tauto
              simp [hr, e1, e2, hq2, h4]
    · simp [hk]

end

/-- the coefficients of the tables with rounding -/
noncomputable def fc2 (c1 : ℝ) : ℝ := F.s (F.d √(F.d (1 - F.d (c1 * c1))))

/-- an entry with rounding -/
noncomputable def gslot (g : GSlot) : GSlot := if g.c1 = 0 then g else ⟨g.i, g.j, F.s (F.d g.c1), F.fc2 g.c1⟩

noncomputable def tst (st : TensorSt) : TensorSt := ⟨st.diag, st.givens.map F.gslot, st.done⟩

theorem tensorBody_map (ts : List Tab) (tau i : Nat) (st : TensorSt) :
    F.tensorBody ts tau i (F.tst st) = (Snob.tensorBody ts tau i st).map F.tst := by
  unfold tensorBody Snob.tensorBody
  simp only [show (F.tst st).done = st.done from rfl, show (F.tst st).diag = st.diag from rfl,
    show (F.tst st).givens = st.givens.map F.gslot from rfl, List.length_map]
  rcases st.done[i]? with _ | b
  · rfl
  · rcases b with _ | _
    · rcases ts[i]? with _ | T
      · rfl
      · simp only
        rcases Tab.applyTransp T tau (tau + 1) with _ | ⟨T', δ⟩
        · rfl
        · simp only
          by_cases h : δ = 1 ∨ δ = -1
          · rw [if_pos h, if_pos h]; rfl
          · rw [if_neg h, if_neg h]
            by_cases h0 : δ = 0
            · rw [if_pos h0, if_pos h0]; rfl
            · rw [if_neg h0, if_neg h0]
              split
              · rw [Option.map_some]
                unfold tst
                simp only [List.map_set]
                congr 3
                unfold gslot fc2
                have : (1 : ℝ) / (δ : ℝ) ≠ 0 := one_div_ne_zero (by exact_mod_cast h0)
                rw [if_neg this]
                simp only
                rw [div_mul_div_comm, one_mul]
              · rfl
    · rfl

theorem tensorLoop_map (ts : List Tab) (tau : Nat) (l : List Nat) (st : TensorSt) :
    F.tensorLoop ts tau l (F.tst st) = (Snob.tensorLoop ts tau l st).map F.tst := by
  induction l generalizing st with
  | nil => rfl
  | cons i l ih =>
    rw [tensorLoop, Snob.tensorLoop, F.tensorBody_map]
    cases Snob.tensorBody ts tau i st with
    | none => rfl
    | some st' => exact ih st'

theorem mapM_map_map {α β : Type} (f : α → Option β) (g : β → β) (l : List α) :
    l.mapM (fun x => (f x).map g) = (l.mapM f).map (List.map g) := by
  induction l with
  | nil => rfl
  | cons x l ih =>
    simp only [List.mapM_cons, ih]
    cases f x <;> simp
    cases List.mapM f l <;> rfl

theorem computeYORtensors_map (n : Nat) (ts : List Tab) :
    F.computeYORtensors n ts = (Snob.computeYORtensors n ts).map (List.map F.tst) := by
  unfold computeYORtensors Snob.computeYORtensors
  rw [← mapM_map_map]
  congr 1
  funext tau
  rw [← F.tensorLoop_map]
  congr 1
  unfold tst
  simp only [List.map_replicate]
  congr 2
  unfold gslot GSlot.zero
  simp

end Rounding

section
variable {n : Nat} {p : List Nat} {hp : IsPartition n p} {R : IrrepObj}

/-- the tables when the pairs are packed -/
theorem Repr'.tables_packed (h : Repr' hp R) (hk : R.AllPacked) {tau : Nat} (h1 : 1 ≤ tau) (h2 : tau < n) :
    ∃ tabs st, computeYORtensors R.n R.tableaux = some tabs ∧ tabs[tau - 1]? = some st ∧
      st.diag = (diags (R.partner tau) R.d).map (fun r => (r, R.co1 tau r)) ∧
      st.givens.take (firsts (R.partner tau) R.d).length =
        (firsts (R.partner tau) R.d).map (fun r => (⟨r, R.partner tau r, R.co1 tau r, R.co2 tau r⟩ : GSlot)) := by
  have key : ∀ t, 1 ≤ t → t < n → ∃ st', tensorLoop R.tableaux t (List.range R.tableaux.length)
      ⟨[], List.replicate (R.tableaux.length / 2 + 1) GSlot.zero,
        List.replicate R.tableaux.length false⟩ = some st' ∧
        st'.diag = (diags (R.partner t) R.d).map (fun r => (r, R.co1 t r)) ∧
        st'.givens.take (firsts (R.partner t) R.d).length =
          (firsts (R.partner t) R.d).map (fun r => (⟨r, R.partner t r, R.co1 t r, R.co2 t r⟩ : GSlot)) := by
    intro t ht1 ht2
    have P := h.pairing ht1 ht2
    have := P.loop_packed (hk t ht1 (by rw [h.n_eq]; exact ht2)) R.d 0
      ⟨[], List.replicate (R.d / 2 + 1) GSlot.zero, List.replicate R.d false⟩ (by omega)
      ⟨by simp, fun r hr => by simp [hr]⟩ rfl (by simp) rfl
    rwa [P.len, List.range_eq_range']
  obtain ⟨tabs, e1, -, e3⟩ := mapM_exists (fun t => tensorLoop R.tableaux t (List.range R.tableaux.length)
      ⟨[], List.replicate (R.tableaux.length / 2 + 1) GSlot.zero, List.replicate R.tableaux.length false⟩)
    (List.range' 1 (n - 1)) (fun _ t st' => st'.diag = (diags (R.partner t) R.d).map (fun r => (r, R.co1 t r)) ∧
        st'.givens.take (firsts (R.partner t) R.d).length =
          (firsts (R.partner t) R.d).map (fun r => (⟨r, R.partner t r, R.co1 t r, R.co2 t r⟩ : GSlot))) (by
    intro i x hx
    have := List.mem_of_getElem? hx
    rw [List.mem_range'_1] at this
    exact key x (by omega) (by omega))
  obtain ⟨st, a1, a2, a3⟩ := e3 (tau - 1) tau (by
    rw [List.getElem?_range' (by omega)]
    congr 1; omega)
  exact ⟨tabs, st, by unfold computeYORtensors; rw [h.n_eq]; exact e1, a1, a2, a3⟩

/-- the relative error of a cell of a tensor view -/
noncomputable def viewErr (u v : ℝ) : ℝ := (1 + 4 * v) * (1 + u) ^ 3 - 1

theorem viewErr_nonneg (hu : 0 ≤ u) (h0 : 0 ≤ v) : 0 ≤ viewErr u v := by
  unfold viewErr
  have : (1 : ℝ) ≤ (1 + u) ^ 3 := one_le_pow₀ (by linarith)
  nlinarith

theorem gprod_err (hs : RelErr u F.s) (hu : 0 ≤ u) {w c c' x : ℝ} (hc : |c' - c| ≤ w * |c|) :
    |F.s (c' * x) - c * x| ≤ ((1 + w) * (1 + u) - 1) * |c * x| := by
  have : |c' * x - c * x| ≤ w * |c * x| := by
    rw [← sub_mul, abs_mul, abs_mul]
    have := mul_le_mul_of_nonneg_right hc (abs_nonneg x)
    linarith
  refine (hs.le hu this le_rfl).trans (mul_le_mul_of_nonneg_right ?_ (abs_nonneg _))
  nlinarith

/-- a rotation in single precision -/
theorem givens_err (hs : RelErr u F.s) (hu : 0 ≤ u) (h0 : 0 ≤ v) {a b a' b' x z : ℝ}
    (ha : |a' - a| ≤ (u + 4 * v * (1 + u)) * |a|) (hb : |b' - b| ≤ (u + 4 * v * (1 + u)) * |b|) :
    |F.s (F.s (a' * x) + F.s (b' * z)) - (a * x + b * z)| ≤ viewErr u v * (|a * x| + |b * z|) := by
  have p1 := gprod_err (x := x) hs hu ha
  have p2 := gprod_err (x := z) hs hu hb
  have p3 : |F.s (a' * x) + F.s (b' * z) - (a * x + b * z)| ≤
      ((1 + (u + 4 * v * (1 + u))) * (1 + u) - 1) * (|a * x| + |b * z|) := by
    have := abs_add_le (F.s (a' * x) - a * x) (F.s (b' * z) - b * z)
    rw [show F.s (a' * x) + F.s (b' * z) - (a * x + b * z) = (F.s (a' * x) - a * x) + (F.s (b' * z) - b * z) by ring]
    linarith
  have hy := abs_add_le (a * x) (b * z)
  refine (hs.le hu p3 hy).trans (le_of_eq ?_)
  unfold viewErr
  ring

theorem coef1_err (hs : RelErr u F.s) (hd : RelErr v F.d) (hu : 0 ≤ u) (h0 : 0 ≤ v) (a : ℝ) :
    |F.s (F.d a) - a| ≤ (u + 4 * v * (1 + u)) * |a| := by
  refine (hs.le hu (hd a) le_rfl).trans (mul_le_mul_of_nonneg_right ?_ (abs_nonneg _))
  nlinarith [mul_nonneg hu h0]

theorem coef2_err (hs : RelErr u F.s) (hd : RelErr v F.d) (hu : 0 ≤ u) (h0 : 0 ≤ v) (hv : v ≤ 1 / 2) {a : ℝ} (ha : |a| ≤ 1 / 2) :
    |F.fc2 a - √(1 - a * a)| ≤ (u + 4 * v * (1 + u)) * |√(1 - a * a)| := by
  have h1 := coef_err hd h0 hv ha
  unfold Rounding.fc2
  refine (hs.le hu h1 (m := √(1 - a * a)) (by rw [abs_of_nonneg (Real.sqrt_nonneg _)])).trans ?_
  rw [abs_of_nonneg (Real.sqrt_nonneg _)]
  refine mul_le_mul_of_nonneg_right ?_ (Real.sqrt_nonneg _)
  nlinarith [mul_nonneg hu h0]

theorem Repr'.co1_ne (h : Repr' hp R) {tau : Nat} (h1 : 1 ≤ tau) (h2 : tau < n) {i : Nat} (hi : i < R.d) : R.co1 tau i ≠ 0 :=
  (h.pairing h1 h2).a_ne hi

theorem Repr'.fview_packed (h : Repr' hp R) (hk : R.AllPacked) {K : Type} [DecidableEq K] (cols : List K) (hc : cols.Nodup)
    {tau : Nat} (h1 : 1 ≤ tau) (h2 : tau < n) (A : Nat → K → ℝ) :
    ∃ B, F.applyTauView R cols tau A = some B ∧ (∀ k, k ∉ cols → ∀ i, B i k = A i k) ∧
      ∀ i, i < R.d → ∀ k ∈ cols,
        (R.partner tau i = i → B i k = F.s (R.co1 tau i * A i k)) ∧
        (i < R.partner tau i → B i k = F.s (F.s (F.s (F.d (R.co1 tau i)) * A i k) + F.s (F.fc2 (R.co1 tau i) * A (R.partner tau i) k))) ∧
        (R.partner tau i < i → B i k = F.s (F.s (-F.s (F.d (R.co1 tau (R.partner tau i))) * A i k) +
          F.s (F.fc2 (R.co1 tau (R.partner tau i)) * A (R.partner tau i) k))) := by
  have P := h.pairing h1 h2
  obtain ⟨tabs, st, e1, e2, e3, e4⟩ := h.tables_packed hk h1 h2
  set q := R.partner tau with hqdef
  have memF : ∀ r, r ∈ firsts q R.d ↔ r < R.d ∧ r < q r := by intro r; simp [firsts]
  have memD : ∀ r, r ∈ diags q R.d ↔ r < R.d ∧ q r = r := by intro r; simp [diags]
  have ndF : (firsts q R.d).Nodup := List.Nodup.filter _ List.nodup_range
  have ndD : (diags q R.d).Nodup := List.Nodup.filter _ List.nodup_range
  have hi : ((tau : Int) - 1).toNat = tau - 1 := by omega
  have hlen : (R.d - (F.tst st).diag.length) / 2 = (firsts q R.d).length := by
    rw [show (F.tst st).diag = st.diag from rfl, e3, List.length_map, firsts_length P.inv]
  have hgiv : (F.tst st).givens.take (firsts q R.d).length =
      (firsts q R.d).map (fun r => (⟨r, q r, F.s (F.d (R.co1 tau r)), F.fc2 (R.co1 tau r)⟩ : GSlot)) := by
    rw [show (F.tst st).givens = st.givens.map F.gslot from rfl, ← List.map_take, e4, List.map_map]
    refine List.map_congr_left fun r hr => ?_
    rw [Function.comp_apply, Rounding.gslot, if_neg (h.co1_ne h1 h2 ((memF r).1 hr).1)]
  refine ⟨((firsts q R.d).map (fun r => (⟨r, q r, F.s (F.d (R.co1 tau r)), F.fc2 (R.co1 tau r)⟩ : GSlot))).foldl
      (fun A (g : GSlot) => F.givensSlices g.i g.j g.c1 g.c2 cols A)
      (((diags q R.d).map fun r => (r, R.co1 tau r)).foldl (fun A (x : Nat × ℝ) => F.scaleSlice x.1 x.2 cols A) A), ?_, ?_, ?_⟩
  · unfold Rounding.applyTauView
    rw [if_pos ⟨by omega, by rw [h.n_eq]; omega⟩, F.computeYORtensors_map, e1, Option.map_some]
    have hget : (tabs.map F.tst)[((tau : Int) - 1).toNat]? = some (F.tst st) := by
      rw [hi, List.getElem?_map, e2]; rfl
    simp only [hget]
    rw [hlen, hgiv, show (F.tst st).diag = st.diag from rfl, e3]
  · intro k hkc i
    rw [F.foldl_givens cols hc _ ndF q _ _ fun r hr => ⟨((memF r).1 hr).2, (P.inv r ((memF r).1 hr).1).2⟩, if_neg hkc,
      F.foldl_scale cols hc _ ndD, if_neg fun hh => hkc hh.2]
  · intro i hid k hkc
    rw [F.foldl_givens cols hc _ ndF q _ _ fun r hr => ⟨((memF r).1 hr).2, (P.inv r ((memF r).1 hr).1).2⟩, if_pos hkc]
    simp only [F.foldl_scale cols hc _ ndD]
    have hqi := P.inv i hid
    refine ⟨fun hq => ?_, fun hq => ?_, fun hq => ?_⟩
    · have a1 : i ∉ firsts q R.d := fun hh => by have := (memF i).1 hh; omega
      have a2 : q i ∉ firsts q R.d := fun hh => by have := (memF _).1 hh; omega
      rw [if_neg a1, if_neg fun hh => a2 hh.1, if_pos ⟨(memD i).2 ⟨hid, hq⟩, hkc⟩]
    · have a1 : i ∈ firsts q R.d := (memF i).2 ⟨hid, hq⟩
      have a3 : i ∉ diags q R.d := fun hh => by have := (memD i).1 hh; omega
      have a4 : q i ∉ diags q R.d := fun hh => by have := (memD _).1 hh; omega
      rw [if_pos a1, if_neg fun hh => a3 hh.1, if_neg fun hh => a4 hh.1]
    · have a1 : i ∉ firsts q R.d := fun hh => by have := (memF i).1 hh; omega
      have a2 : q i ∈ firsts q R.d := (memF _).2 ⟨hqi.1, by omega⟩
      have a3 : i ∉ diags q R.d := fun hh => by have := (memD i).1 hh; omega
      have a4 : q i ∉ diags q R.d := fun hh => by have := (memD _).1 hh; omega
      rw [if_neg a1, if_pos ⟨a2, hqi.2⟩, if_neg fun hh => a3 hh.1, if_neg fun hh => a4 hh.1]

theorem Repr'.fview_err (h : Repr' hp R) (hk : R.AllPacked) (hs : RelErr u F.s) (hd : RelErr v F.d) (hu : 0 ≤ u) (h0 : 0 ≤ v) (hv : v ≤ 1 / 2)
    {K : Type} [DecidableEq K] (cols : List K) (hc : cols.Nodup) {tau : Nat} (h1 : 1 ≤ tau) (h2 : tau < n) (A : Nat → K → ℝ) :
    ∃ B, F.applyTauView R cols tau A = some B ∧ (∀ k, k ∉ cols → ∀ i, B i k = A i k) ∧
      ∀ k ∈ cols, nrm R.d (fun i => B i k - ecell R tau (fun j => A j k) i) ≤ 3 / 2 * viewErr u v * nrm R.d (fun i => A i k) := by
  obtain ⟨B, b1, b2, b3⟩ := h.fview_packed (F := F) hk cols hc h1 h2 A
  have hκ := viewErr_nonneg hu h0
  refine ⟨B, b1, b2, fun k hkc => h.cell_nrm hκ h1 h2 _ _ fun i hi => ?_⟩
  obtain ⟨c1, c2, c3⟩ := b3 i hi k hkc
  have P := h.pairing h1 h2
  obtain ⟨q1, q2⟩ := P.inv i hi
  obtain ⟨d1, d2⟩ := h.coef h1 h2 hi
  unfold ecell
  rcases lt_trichotomy (R.partner tau i) i with hlt | heq | hlt
  · have hne : R.partner tau i ≠ i := by omega
    rw [if_neg hne, if_neg hne, c3 hlt]
    obtain ⟨f1, f2⟩ := d2 hne
    have hneg := h.coef_neg h1 h2 hi hne
    obtain ⟨g1, g2⟩ := (h.coef h1 h2 q1).2 (by rw [q2]; omega)
    refine givens_err hs hu h0 ?_ ?_
    · have := coef1_err hs hd hu h0 (R.co1 tau (R.partner tau i))
      rw [hneg, abs_neg] at this
      rw [hneg]
      rw [show -F.s (F.d (-R.co1 tau i)) - R.co1 tau i = -(F.s (F.d (-R.co1 tau i)) - -R.co1 tau i) by ring, abs_neg]
      exact this
    · have := coef2_err hs hd hu h0 hv g1
      rw [f2]
      rw [show R.co1 tau i * R.co1 tau i = R.co1 tau (R.partner tau i) * R.co1 tau (R.partner tau i) by rw [hneg]; ring]
      exact this
  · rw [if_pos heq, if_pos heq, c1 heq]
    have : |R.co1 tau i * A i k| = |A i k| := by
      rw [abs_mul]
      rcases d1 heq with e | e <;> rw [e] <;> simp
    rw [← this]
    refine (hs _).trans (mul_le_mul_of_nonneg_right ?_ (abs_nonneg _))
    unfold viewErr
    nlinarith [mul_nonneg hu hu, mul_nonneg hu h0, mul_nonneg (mul_nonneg hu hu) hu, mul_nonneg (mul_nonneg hu hu) h0,
      mul_nonneg (mul_nonneg (mul_nonneg hu hu) hu) h0]
  · have hne : R.partner tau i ≠ i := by omega
    rw [if_neg hne, if_neg hne, c2 hlt]
    obtain ⟨f1, f2⟩ := d2 hne
    refine givens_err hs hu h0 (coef1_err hs hd hu h0 _) ?_
    rw [f2]
    exact coef2_err hs hd hu h0 hv f1

end

theorem fviewAct_ok (hs : RelErr u F.s) (hd : RelErr v F.d) (hu : 0 ≤ u) (h0 : 0 ≤ v) (hv : v ≤ 1 / 2) {m l : Nat} (hl : 1 ≤ l)
    (hml : l ≤ 4 ∨ l ≤ m + 1) : FActOk F.viewAct (3 / 2 * viewErr u v) m l := by
  intro p hp R h _ hm cols hc k0 hk B
  have hpk : R.AllPacked := by
    rcases hml with h' | h'
    · exact h.allPacked_small hl h'
    · intro tau h1 h2
      rw [h.n_eq] at h2
      rw [h.packed_words h1 h2]
      exact packed_hook hp (by omega) h1 h2
  obtain ⟨B', b1, b2, b3⟩ := h.fview_err hpk hs hd hu h0 hv cols hc (tau := k0 + 1) (by omega) hk B
  refine ⟨B', by push_cast at b1; exact b1, fun k hkc => ?_, b2⟩
  refine le_trans (le_of_eq ?_) (b3 k hkc)
  refine nrm_congr fun i hi => ?_
  rw [h.rep_adj hk, h.act_cell (by omega) hk B hi hkc]

end

end Snob
