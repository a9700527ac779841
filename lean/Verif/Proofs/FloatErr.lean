import Verif.Proofs.FloatAct
import Verif.Proofs.ViewNorm
import Mathlib.Analysis.InnerProductSpace.PiL2
import Mathlib.Algebra.FreeMonoid.Basic

/-! # How far rounding moves a result -/

namespace Snob

open IP Matrix

/-! ### one operation -/

theorem RelErr.le {u : ℝ} {r : ℝ → ℝ} (h : RelErr u r) {x y m e : ℝ} (hu : 0 ≤ u) (h1 : |x - y| ≤ e * m) (h2 : |y| ≤ m) :
    |r x - y| ≤ (e + u * (1 + e)) * m := by
  have h3 := h x
  have h4 : |x| ≤ |y| + |x - y| := by
    have := abs_add_le y (x - y)
    rwa [add_sub_cancel] at this
  have h5 := abs_sub_le (r x) x y
  have h6 : u * |x| ≤ u * (m + e * m) := mul_le_mul_of_nonneg_left (by linarith) hu
  nlinarith

/-- rounding of one cell, relative -/
noncomputable def cellErr (u v : ℝ) : ℝ := u + 12 * v + 12 * u * v

theorem coef_err {r : ℝ → ℝ} {v a : ℝ} (h : RelErr v r) (h0 : 0 ≤ v) (h1 : v ≤ 1 / 2) (ha : |a| ≤ 1 / 2) :
    |r √(r (1 - r (a * a))) - √(1 - a * a)| ≤ 4 * v * √(1 - a * a) := by
  have haa : a * a ≤ 1 / 4 := by
    have := abs_le.1 ha
    nlinarith
  have haa0 : 0 ≤ a * a := mul_self_nonneg a
  set q := a * a
  have hb : 0 < 1 - q := by linarith
  have e1 := h q
  rw [abs_of_nonneg haa0] at e1
  have e1' := abs_le.1 e1
  have e2 := h (1 - r q)
  have hpos : 0 ≤ 1 - r q := by nlinarith
  rw [abs_of_nonneg hpos] at e2
  set w := r (1 - r q)
  have e3 : |w - (1 - q)| ≤ 2 * v * (1 - q) := by
    have e2' := abs_le.1 e2
    rw [abs_le]
    constructor <;> nlinarith
  have hw : 0 ≤ w := by
    have := (abs_le.1 e3).1
    nlinarith
  set b := √(1 - q)
  have hbpos : 0 < b := Real.sqrt_pos.2 hb
  have hbb : b * b = 1 - q := Real.mul_self_sqrt hb.le
  have hs : √w * √w = w := Real.mul_self_sqrt hw
  have hs0 := Real.sqrt_nonneg w
  have e4 : |√w - b| ≤ 2 * v * b := by
    have : |√w - b| * (√w + b) = |w - (1 - q)| := by
      rw [← abs_of_nonneg (by positivity : 0 ≤ √w + b), ← abs_mul]
      congr 1
      nlinarith
    have h5 : |√w - b| * b ≤ 2 * v * (b * b) := by
      rw [hbb]
      refine le_trans ?_ e3
      rw [← this]
      exact mul_le_mul_of_nonneg_left (by linarith) (abs_nonneg _)
    nlinarith
  have := h.le (m := b) (e := 2 * v) h0 e4 (by rw [abs_of_pos hbpos])
  refine this.trans (mul_le_mul_of_nonneg_right ?_ hbpos.le)
  nlinarith

theorem prod_err {r : ℝ → ℝ} {v c c' x : ℝ} (h : RelErr v r) (h0 : 0 ≤ v) (h1 : v ≤ 1 / 2) (hc : |c' - c| ≤ 4 * v * |c|) :
    |r (c' * x) - c * x| ≤ 7 * v * |c * x| := by
  have : |c' * x - c * x| ≤ 4 * v * |c * x| := by
    rw [← sub_mul, abs_mul, abs_mul]
    have := mul_le_mul_of_nonneg_right hc (abs_nonneg x)
    linarith
  refine (h.le h0 this le_rfl).trans (mul_le_mul_of_nonneg_right ?_ (abs_nonneg _))
  nlinarith

section
variable {F : Rounding} {u v : ℝ}

theorem pair_err (hs : RelErr u F.s) (hd : RelErr v F.d) (hu : 0 ≤ u) (h0 : 0 ≤ v) (h1 : v ≤ 1 / 2) {a b a' b' x z : ℝ}
    (ha : |a' - a| ≤ 4 * v * |a|) (hb : |b' - b| ≤ 4 * v * |b|) :
    |F.s (F.d (F.d (a' * x) + F.d (b' * z))) - (a * x + b * z)| ≤ cellErr u v * (|a * x| + |b * z|) := by
  have p1 := prod_err (x := x) hd h0 h1 ha
  have p2 := prod_err (x := z) hd h0 h1 hb
  have p3 : |F.d (a' * x) + F.d (b' * z) - (a * x + b * z)| ≤ 7 * v * (|a * x| + |b * z|) := by
    have := abs_add_le (F.d (a' * x) - a * x) (F.d (b' * z) - b * z)
    rw [show F.d (a' * x) + F.d (b' * z) - (a * x + b * z) = (F.d (a' * x) - a * x) + (F.d (b' * z) - b * z) by ring]
    linarith
  have hm : 0 ≤ |a * x| + |b * z| := by positivity
  have hy := abs_add_le (a * x) (b * z)
  have p4 := hd.le h0 p3 hy
  have p5 : |F.d (F.d (a' * x) + F.d (b' * z)) - (a * x + b * z)| ≤ 12 * v * (|a * x| + |b * z|) :=
    p4.trans (mul_le_mul_of_nonneg_right (by nlinarith) hm)
  refine (hs.le hu p5 hy).trans (mul_le_mul_of_nonneg_right ?_ hm)
  unfold cellErr
  nlinarith

theorem single_err (hs : RelErr u F.s) (hd : RelErr v F.d) (hu : 0 ≤ u) (h0 : 0 ≤ v) (x : ℝ) :
    |F.s (F.d x) - x| ≤ cellErr u v * |x| := by
  refine (hs.le hu (hd x) le_rfl).trans (mul_le_mul_of_nonneg_right ?_ (abs_nonneg _))
  unfold cellErr
  nlinarith [mul_nonneg hu h0]

end

/-! ### columns -/

/-- the length of a column -/
noncomputable def nrm (d : Nat) (x : Nat → ℝ) : ℝ := √(∑ i ∈ Finset.range d, x i * x i)

theorem nrm_eq (d : Nat) (x : Nat → ℝ) : nrm d x = ‖(WithLp.toLp 2 fun i : Fin d => x i : EuclideanSpace ℝ (Fin d))‖ := by
  unfold nrm
  rw [EuclideanSpace.norm_eq, Finset.sum_range]
  congr 1
  refine Finset.sum_congr rfl fun i _ => ?_
  simp [sq]

theorem nrm_nonneg (d : Nat) (x : Nat → ℝ) : 0 ≤ nrm d x := Real.sqrt_nonneg _

theorem nrm_add (d : Nat) (x y : Nat → ℝ) : nrm d (fun i => x i + y i) ≤ nrm d x + nrm d y := by
  rw [nrm_eq, nrm_eq, nrm_eq]
  exact norm_add_le (WithLp.toLp 2 fun i : Fin d => x i : EuclideanSpace ℝ (Fin d)) (WithLp.toLp 2 fun i : Fin d => y i)

theorem nrm_sq (d : Nat) (x : Nat → ℝ) : nrm d x * nrm d x = ∑ i ∈ Finset.range d, x i * x i :=
  Real.mul_self_sqrt (Finset.sum_nonneg fun i _ => mul_self_nonneg _)

theorem nrm_le_of_sq {d : Nat} {x : Nat → ℝ} {c : ℝ} (hc : 0 ≤ c) (h : ∑ i ∈ Finset.range d, x i * x i ≤ c * c) : nrm d x ≤ c := by
  unfold nrm
  rw [Real.sqrt_le_left hc, sq]
  exact h

theorem abs_le_nrm {d i : Nat} (hi : i < d) (x : Nat → ℝ) : |x i| ≤ nrm d x := by
  refine Real.le_sqrt_of_sq_le ?_
  rw [sq_abs, sq]
  exact Finset.single_le_sum (f := fun i => x i * x i) (fun i _ => mul_self_nonneg _) (Finset.mem_range.2 hi)

theorem sum_partner {d : Nat} {q : Nat → Nat} (hq : ∀ i, i < d → q i < d ∧ q (q i) = i) (f : Nat → ℝ) :
    ∑ i ∈ Finset.range d, f (q i) = ∑ i ∈ Finset.range d, f i := by
  refine Finset.sum_nbij' q q ?_ ?_ ?_ ?_ ?_
  · intro i hi; rw [Finset.mem_range] at *; exact (hq i hi).1
  · intro i hi; rw [Finset.mem_range] at *; exact (hq i hi).1
  · intro i hi; rw [Finset.mem_range] at hi; exact (hq i hi).2
  · intro i hi; rw [Finset.mem_range] at hi; exact (hq i hi).2
  · intro i _; rfl

/-! ### one step -/

namespace Rounding

/-- the rounded coefficients -/
noncomputable def ra (F : Rounding) (R : IrrepObj) (tau : Int) (i : Nat) : ℝ :=
  if R.partner tau i = i then R.co1 tau i else F.d (R.co1 tau i)

noncomputable def rb (F : Rounding) (R : IrrepObj) (tau : Int) (i : Nat) : ℝ :=
  F.d √(F.d (1 - F.d (R.co1 tau i * R.co1 tau i)))

end Rounding

section
variable {n : Nat} {p : List Nat} {hp : IsPartition n p} {R : IrrepObj} {F : Rounding}

theorem Repr'.coef_neg (h : Repr' hp R) {tau : Nat} (h1 : 1 ≤ tau) (h2 : tau < n) {i : Nat} (hi : i < R.d)
    (hq : R.partner tau i ≠ i) : R.co1 tau (R.partner tau i) = -R.co1 tau i := by
  have P := h.pairing h1 h2
  obtain ⟨q1, q2⟩ := P.inv i hi
  have r1 := (P.rot ⟨i, hi⟩ ⟨_, q1⟩ (fun j => if (j : Nat) = R.partner tau i then 1 else 0) rfl (fun e => hq (Fin.ext_iff.1 e).symm)).2
  have r2 := (P.rot ⟨_, q1⟩ ⟨i, hi⟩ (fun j => if (j : Nat) = R.partner tau i then 1 else 0) q2 (fun e => hq (Fin.ext_iff.1 e))).1
  rw [r1] at r2
  simp [Ne.symm hq] at r2
  exact r2.symm

/-- the coefficients of a row -/
theorem Repr'.coef (h : Repr' hp R) {tau : Nat} (h1 : 1 ≤ tau) (h2 : tau < n) {i : Nat} (hi : i < R.d) :
    (R.partner tau i = i → R.co1 tau i = 1 ∨ R.co1 tau i = -1) ∧
    (R.partner tau i ≠ i → |R.co1 tau i| ≤ 1 / 2 ∧ R.co2 tau i = √(1 - R.co1 tau i * R.co1 tau i)) := by
  have P := h.pairing h1 h2
  obtain ⟨T', δ, -, b0, b1, b2⟩ := P.body i (by rw [P.len]; exact hi)
  by_cases e : δ = 1 ∨ δ = -1
  · obtain ⟨c1, c2⟩ := b1 e
    refine ⟨fun _ => ?_, fun hq => absurd c1 hq⟩
    rw [c2]
    rcases e with rfl | rfl <;> simp
  · obtain ⟨c1, -, c3, c4⟩ := b2 e
    refine ⟨fun hq => absurd hq c1, fun _ => ⟨?_, ?_⟩⟩
    · rw [c3, abs_div, abs_one]
      have : (2 : ℤ) ≤ |δ| := by
        rcases le_total 0 δ with ha | ha
        · rw [abs_of_nonneg ha]; omega
        · rw [abs_of_nonpos ha]; omega
      have : (2 : ℝ) ≤ |(δ : ℝ)| := by exact_mod_cast this
      exact one_div_le_one_div_of_le (by norm_num) this
    · rw [c4, c3, div_mul_div_comm, one_mul]

theorem Repr'.fslots (h : Repr' hp R) (hodd : Odd' F.d) {tau : Nat} (h1 : 1 ≤ tau) (h2 : tau < n) :
    Rounding.FSlots (F.round R) tau (R.partner tau) (F.ra R tau) (F.rb R tau) := by
  have P := h.pairing h1 h2
  refine ⟨P.inv, ?_, ?_⟩
  · intro i hi hq
    obtain ⟨q1, q2⟩ := P.inv i hi
    have e := h.coef_neg h1 h2 hi hq
    unfold Rounding.ra Rounding.rb
    rw [if_neg hq, if_neg (by rw [q2]; exact Ne.symm hq), e, hodd, neg_mul_neg]
    exact ⟨rfl, rfl⟩
  · intro i hi
    obtain ⟨s, hs, hc⟩ := (h.slotSpec h1 h2).spec ⟨i, hi⟩
    simp only at hs
    refine ⟨F.rslot s, by rw [F.round_slot, hs]; rfl, ?_⟩
    have e1 : R.co1 tau i = s.c1 := by unfold IrrepObj.co1; rw [hs]; rfl
    have ep : R.partner tau i = if s.t = -1 then i else s.t.toNat := by unfold IrrepObj.partner; rw [hs]
    obtain ⟨c1, c2⟩ := h.coef h1 h2 hi
    have et : (R.partner tau i = i → s.t = -1) ∧ (R.partner tau i ≠ i → s.t = (R.partner tau i : Int)) := by
      rcases hc with ⟨ht, _⟩ | ⟨i2, s2, ht, hne, _⟩
      · rw [if_pos ht] at ep
        exact ⟨fun _ => ht, fun hq => absurd ep hq⟩
      · rw [if_neg (by omega)] at ep
        have : R.partner tau i = (i2 : Nat) := by omega
        refine ⟨fun hq => ?_, fun _ => by rw [this]; exact ht⟩
        exact absurd (Fin.ext (by simp only; omega)) hne
    unfold Rounding.ra Rounding.rb Rounding.rslot
    rw [e1] at c1 c2 ⊢
    by_cases hq : R.partner tau i = i
    · rw [if_pos (c1 hq), if_pos hq]
      exact ⟨rfl, fun _ => et.1 hq, fun hq' => absurd hq hq'⟩
    · have hne : ¬ (s.c1 = 1 ∨ s.c1 = -1) := by
        rintro (e | e) <;> have := (c2 hq).1 <;> rw [e] at this <;> norm_num at this
      rw [if_neg hne, if_neg hq]
      exact ⟨rfl, fun hq' => absurd hq' hq, fun _ => ⟨et.2 hq, rfl⟩⟩

/-- the exact step on a column -/
noncomputable def ecell (R : IrrepObj) (tau : Int) (x : Nat → ℝ) (i : Nat) : ℝ :=
  if R.partner tau i = i then R.co1 tau i * x i else R.co1 tau i * x i + R.co2 tau i * x (R.partner tau i)

theorem Repr'.act_cell (h : Repr' hp R) {tau : Nat} (h1 : 1 ≤ tau) (h2 : tau < n) {K : Type} [DecidableEq K] {cols : List K}
    (A : Nat → K → ℝ) {i : Nat} (hi : i < R.d) {k : K} (hk : k ∈ cols) :
    act (h.mat (yorM n p tau)) cols A i k = ecell R tau (fun j => A j k) i := by
  have P := h.pairing h1 h2
  unfold act ecell
  rw [dif_pos ⟨hi, hk⟩]
  by_cases hq : R.partner tau i = i
  · rw [if_pos hq]
    exact P.diag ⟨i, hi⟩ (fun j => A j k) hq
  · rw [if_neg hq]
    exact (P.rot ⟨i, hi⟩ ⟨_, (P.inv i hi).1⟩ (fun j => A j k) rfl (fun e => hq (Fin.ext_iff.1 e).symm)).1

/-- the exact step keeps the length of a column -/
theorem Repr'.ecell_nrm (h : Repr' hp R) {tau : Nat} (h1 : 1 ≤ tau) (h2 : tau < n) (x : Nat → ℝ) :
    nrm R.d (ecell R tau x) = nrm R.d x := by
  have P := h.pairing h1 h2
  unfold nrm
  congr 1
  -- twice the sum, paired
  have key : ∀ i ∈ Finset.range R.d, ecell R tau x i * ecell R tau x i + ecell R tau x (R.partner tau i) * ecell R tau x (R.partner tau i) =
      x i * x i + x (R.partner tau i) * x (R.partner tau i) := by
    intro i hi
    rw [Finset.mem_range] at hi
    obtain ⟨q1, q2⟩ := P.inv i hi
    obtain ⟨u1, u2⟩ := P.unit hi
    obtain ⟨c1, c2⟩ := h.coef h1 h2 hi
    unfold ecell
    by_cases hq : R.partner tau i = i
    · simp only [hq, if_true]
      have := u1 hq
      linear_combination (2 * (x i * x i)) * this
    · rw [if_neg hq, if_neg (by rw [q2]; exact Ne.symm hq), q2, h.coef_neg h1 h2 hi hq]
      have hb : R.co2 tau (R.partner tau i) = R.co2 tau i := by
        have hq' : R.partner tau (R.partner tau i) ≠ R.partner tau i := by rw [q2]; exact Ne.symm hq
        rw [((h.coef h1 h2 q1).2 hq').2, (c2 hq).2, h.coef_neg h1 h2 hi hq, neg_mul_neg]
      rw [hb]
      have := u2 hq
      linear_combination (x i * x i + x (R.partner tau i) * x (R.partner tau i)) * this
  have s1 := Finset.sum_congr rfl key
  rw [Finset.sum_add_distrib, Finset.sum_add_distrib, sum_partner P.inv (fun i => ecell R tau x i * ecell R tau x i),
    sum_partner P.inv (fun i => x i * x i)] at s1
  linarith

/-- the relative error of one step -/
noncomputable def stepErr (u v : ℝ) : ℝ := 3 / 2 * cellErr u v

theorem cellErr_nonneg {u v : ℝ} (hu : 0 ≤ u) (h0 : 0 ≤ v) : 0 ≤ cellErr u v := by unfold cellErr; positivity

theorem Repr'.cell_err (h : Repr' hp R) {u v : ℝ} (hs : RelErr u F.s) (hd : RelErr v F.d) (hu : 0 ≤ u) (h0 : 0 ≤ v) (hv : v ≤ 1 / 2)
    {tau : Nat} (h1 : 1 ≤ tau) (h2 : tau < n) (x : Nat → ℝ) :
    nrm R.d (fun i => F.cell (R.partner tau) (F.ra R tau) (F.rb R tau) x i - ecell R tau x i) ≤ stepErr u v * nrm R.d x := by
  have P := h.pairing h1 h2
  have hc0 := cellErr_nonneg hu h0
  have hn := nrm_nonneg R.d x
  refine nrm_le_of_sq (mul_nonneg (by unfold stepErr; positivity) hn) ?_
  have cellb : ∀ i ∈ Finset.range R.d, (F.cell (R.partner tau) (F.ra R tau) (F.rb R tau) x i - ecell R tau x i) *
      (F.cell (R.partner tau) (F.ra R tau) (F.rb R tau) x i - ecell R tau x i) ≤
      cellErr u v * cellErr u v * (x i * x i + x (R.partner tau i) * x (R.partner tau i)) := by
    intro i hi
    rw [Finset.mem_range] at hi
    obtain ⟨u1, u2⟩ := P.unit hi
    obtain ⟨c1, c2⟩ := h.coef h1 h2 hi
    have sq : ∀ e m : ℝ, 0 ≤ m → |e| ≤ cellErr u v * m → e * e ≤ cellErr u v * cellErr u v * (m * m) := by
      intro e m hm he
      have := mul_self_le_mul_self (abs_nonneg e) he
      rw [abs_mul_abs_self] at this
      linarith
    unfold Rounding.cell ecell
    by_cases hq : R.partner tau i = i
    · rw [if_pos hq, if_pos hq]
      have hra : F.ra R tau i = R.co1 tau i := by unfold Rounding.ra; rw [if_pos hq]
      rw [hra]
      have := sq _ _ (abs_nonneg _) (single_err hs hd hu h0 (R.co1 tau i * x i))
      rw [abs_mul_abs_self] at this
      refine this.trans (mul_le_mul_of_nonneg_left ?_ (mul_self_nonneg _))
      rw [show R.co1 tau i * x i * (R.co1 tau i * x i) = R.co1 tau i * R.co1 tau i * (x i * x i) by ring, u1 hq, one_mul]
      linarith [mul_self_nonneg (x (R.partner tau i))]
    · rw [if_neg hq, if_neg hq]
      obtain ⟨d1, d2⟩ := c2 hq
      have ha : |F.ra R tau i - R.co1 tau i| ≤ 4 * v * |R.co1 tau i| := by
        unfold Rounding.ra
        rw [if_neg hq]
        refine (hd _).trans (mul_le_mul_of_nonneg_right (by linarith) (abs_nonneg _))
      have hb : |F.rb R tau i - R.co2 tau i| ≤ 4 * v * |R.co2 tau i| := by
        unfold Rounding.rb
        rw [d2, abs_of_nonneg (Real.sqrt_nonneg _)]
        exact coef_err hd h0 hv d1
      have := sq _ _ (by positivity) (pair_err (x := x i) (z := x (R.partner tau i)) hs hd hu h0 hv ha hb)
      refine this.trans (mul_le_mul_of_nonneg_left ?_ (mul_self_nonneg _))
      have hu2 := u2 hq
      set a := R.co1 tau i
      set b := R.co2 tau i
      set y := x i
      set z := x (R.partner tau i)
      rw [abs_mul, abs_mul]
      have e1 : |a| * |a| + |b| * |b| = 1 := by rw [abs_mul_abs_self, abs_mul_abs_self]; exact hu2
      have e2 := abs_mul_abs_self y
      have e3 := abs_mul_abs_self z
      rw [← e2, ← e3]
      have e4 : (|y| * |y| + |z| * |z|) - (|a| * |y| + |b| * |z|) * (|a| * |y| + |b| * |z|) =
          (|a| * |z| - |b| * |y|) * (|a| * |z| - |b| * |y|) := by
        linear_combination (-(|y| * |y| + |z| * |z|)) * e1
      linarith [mul_self_nonneg (|a| * |z| - |b| * |y|)]
  refine (Finset.sum_le_sum cellb).trans ?_
  rw [← Finset.mul_sum, Finset.sum_add_distrib, sum_partner P.inv (fun i => x i * x i), ← nrm_sq]
  unfold stepErr
  have e : 0 ≤ cellErr u v * cellErr u v * (nrm R.d x * nrm R.d x) := by positivity
  linarith

end

end Snob
