import Verif.Spec.CharFn
import Verif.Proofs.Central
import Verif.Props.Function
import Verif.Props.Schur

/-! # Property C102: convolution with the entries and the traces of the irreps -/

namespace Snob

open IP Perm
open scoped Nat

variable {n : Nat} {p q : List Nat}

theorem conv_entry (hp : IsPartition n p) (hq : IsPartition n q) (σ : Equiv.Perm (Fin n)) (a b : Wd n p) (c d : Wd n q) :
    ∑ τ, rho hp (σ * τ⁻¹) a b * rho hq τ c d = ∑ e, rho hp σ a e * ∑ τ, rho hp τ b e * rho hq τ c d := by
  simp only [Finset.mul_sum]
  rw [Finset.sum_comm]
  refine Finset.sum_congr rfl fun τ _ => ?_
  rw [map_mul, rho_inv, Matrix.mul_apply, Finset.sum_mul]
  exact Finset.sum_congr rfl fun e _ => by rw [Matrix.transpose_apply]; ring

theorem conv_entry_ne (hp : IsPartition n p) (hq : IsPartition n q) (hne : p ≠ q) (σ : Equiv.Perm (Fin n)) (a b : Wd n p)
    (c d : Wd n q) : ∑ τ, rho hp (σ * τ⁻¹) a b * rho hq τ c d = 0 := by
  rw [conv_entry]
  exact Finset.sum_eq_zero fun e _ => by rw [orthogonality_ne hp hq hne, mul_zero]

theorem conv_entry_eq (hp : IsPartition n p) (σ : Equiv.Perm (Fin n)) (a b c d : Wd n p) :
    ∑ τ, rho hp (σ * τ⁻¹) a b * rho hp τ c d = if b = c then (n ! : ℝ) / (words n p).length * rho hp σ a d else 0 := by
  rw [conv_entry]
  simp only [orthogonality_eq hp, card_Wd hp]
  split_ifs with h
  · subst h
    simp only [true_and, mul_ite, mul_zero, Finset.sum_ite_eq', Finset.mem_univ, if_true]
    ring
  · simp only [h, false_and, if_false, mul_zero, Finset.sum_const_zero]

theorem conv_chi (hp : IsPartition n p) (hq : IsPartition n q) (σ : Equiv.Perm (Fin n)) :
    ∑ τ, chi hp (σ * τ⁻¹) * chi hq τ = if p = q then (n ! : ℝ) / (words n p).length * chi hp σ else 0 := by
  have e : ∀ τ, chi hp (σ * τ⁻¹) * chi hq τ = ∑ a, ∑ c, rho hp (σ * τ⁻¹) a a * rho hq τ c c := by
    intro τ
    unfold chi Matrix.trace
    rw [Finset.sum_mul_sum]; rfl
  rw [Finset.sum_congr rfl fun τ _ => e τ, Finset.sum_comm]
  have e2 : ∀ a, ∑ τ, ∑ c, rho hp (σ * τ⁻¹) a a * rho hq τ c c = ∑ c, ∑ τ, rho hp (σ * τ⁻¹) a a * rho hq τ c c :=
    fun a => Finset.sum_comm
  rw [Finset.sum_congr rfl fun a _ => e2 a]
  split_ifs with h
  · subst h
    simp only [conv_entry_eq, Finset.sum_ite_eq, Finset.mem_univ, if_true]
    rw [← Finset.mul_sum]; rfl
  · exact Finset.sum_eq_zero fun a _ => Finset.sum_eq_zero fun c _ => conv_entry_ne hp hq h σ a a c c

variable {R S : IrrepObj}

theorem Repr'.trace_range {hp : IsPartition n p} (h : Repr' hp R) {σ : Equiv.Perm (Fin n)} {A : Nat → Nat → ℝ}
    (hA : R.eval (enc σ) = some A) : ∑ i ∈ Finset.range R.d, A i i = chi hp σ := by
  obtain ⟨B, hB, hB'⟩ := h.eval_eq σ
  rw [hA] at hB
  obtain rfl := Option.some.inj hB
  rw [← h.trace_rep, Finset.sum_range]
  exact Finset.sum_congr rfl fun i _ => hB' i i

theorem Repr'.entry_val {hp : IsPartition n p} (h : Repr' hp R) {σ : Equiv.Perm (Fin n)} {A : Nat → Nat → ℝ}
    (hA : R.eval (enc σ) = some A) (i j : Fin R.d) : A i j = rho hp σ (h.eqv i) (h.eqv j) := by
  obtain ⟨B, hB, hB'⟩ := h.eval_eq σ
  rw [hA] at hB
  obtain rfl := Option.some.inj hB
  rw [hB' i j, h.rep_apply]; rfl

theorem traceFn_iff (hn : 1 ≤ n) {hp : IsPartition n p} (h : Repr' hp R) (f : Cells ℝ) :
    TraceFn n R f ↔ f = cellsOf (I := snGroup n) (elemEquiv n) (chi hp) := by
  have hI := snGroup_implements n hn
  constructor
  · rintro ⟨hw, hv⟩
    obtain ⟨g, rfl⟩ := (written_iff (I := snGroup n) (e := elemEquiv n) f).1 hw
    congr 1
    funext σ
    obtain ⟨A, hA, hx⟩ := hv (enc σ) ⟨σ, rfl⟩
    rw [hI.value_eq, h.trace_range hA] at hx
    exact Option.some.inj hx
  · rintro rfl
    refine ⟨(written_iff (I := snGroup n) (e := elemEquiv n) _).2 ⟨_, rfl⟩, ?_⟩
    rintro s ⟨σ, rfl⟩
    obtain ⟨A, hA, _⟩ := h.eval_eq σ
    exact ⟨A, hA, by rw [hI.value_eq, h.trace_range hA]⟩

theorem entryFn_iff (hn : 1 ≤ n) {hp : IsPartition n p} (h : Repr' hp R) (i j : Fin R.d) (f : Cells ℝ) :
    EntryFn n R i j f ↔ f = cellsOf (I := snGroup n) (elemEquiv n) fun σ => rho hp σ (h.eqv i) (h.eqv j) := by
  have hI := snGroup_implements n hn
  constructor
  · rintro ⟨hw, hv⟩
    obtain ⟨g, rfl⟩ := (written_iff (I := snGroup n) (e := elemEquiv n) f).1 hw
    congr 1
    funext σ
    obtain ⟨A, hA, hx⟩ := hv (enc σ) ⟨σ, rfl⟩
    rw [hI.value_eq, h.entry_val hA] at hx
    exact Option.some.inj hx
  · rintro rfl
    refine ⟨(written_iff (I := snGroup n) (e := elemEquiv n) _).2 ⟨_, rfl⟩, ?_⟩
    rintro s ⟨σ, rfl⟩
    obtain ⟨A, hA, _⟩ := h.eval_eq σ
    exact ⟨A, hA, by rw [hI.value_eq, h.entry_val hA]⟩

namespace Props

/-- **C102.** The functions of this property exist. -/
theorem C102_functions (n : Nat) (hn : 1 ≤ n) (p : List Nat) (hp : IsPartition n p) :
    ∃ R, mkIrrep p = some R ∧ (∃! f, TraceFn n R f) ∧ ∀ i j : Fin R.d, ∃! f, EntryFn n R i j f := by
  obtain ⟨R, hR, _, h⟩ := exists_repr hn hp
  exact ⟨R, hR, ⟨_, (traceFn_iff hn h _).2 rfl, fun g hg => (traceFn_iff hn h g).1 hg⟩,
    fun i j => ⟨_, (entryFn_iff hn h i j _).2 rfl, fun g hg => (entryFn_iff hn h i j g).1 hg⟩⟩

/-- **C102.** The entries of one irrep multiply under convolution like matrix units: the convolution of the `(i,j)` entry
with the `(k,l)` entry is `n!/d` times the `(i,l)` entry if `j=k`, and zero otherwise. -/
theorem C102_entries (n : Nat) (hn : 1 ≤ n) (p : List Nat) (hp : IsPartition n p) (R : IrrepObj) (hR : mkIrrep p = some R)
    (i j k l : Nat) (hi : i < R.d) (hj : j < R.d) (hk : k < R.d) (hl : l < R.d) (f g : Cells ℝ)
    (hf : EntryFn n R i j f) (hg : EntryFn n R k l g) :
    ∃ h, (snGroup n).convolve f g = some h ∧ Written (snSize n) h ∧ ∀ s, IsPerm n s → ∃ A, R.eval s = some A ∧
      (snGroup n).value h s = some (if j = k then (n ! : ℝ) / R.d * A i l else 0) := by
  obtain ⟨R', hR', _, h⟩ := exists_repr hn hp
  rw [hR] at hR'
  obtain rfl := Option.some.inj hR'
  have hI := snGroup_implements n hn
  obtain rfl := (entryFn_iff hn h ⟨i, hi⟩ ⟨j, hj⟩ f).1 hf
  obtain rfl := (entryFn_iff hn h ⟨k, hk⟩ ⟨l, hl⟩ g).1 hg
  refine ⟨_, convolve_eq hI _ _, (written_iff (I := snGroup n) (e := elemEquiv n) _).2 ⟨_, rfl⟩, ?_⟩
  rintro s ⟨σ, rfl⟩
  obtain ⟨A, hA, _⟩ := h.eval_eq σ
  refine ⟨A, hA, ?_⟩
  rw [hI.value_eq, conv_entry_eq hp, ← h.d_eq]
  have e : (h.eqv ⟨j, hj⟩ = h.eqv ⟨k, hk⟩) ↔ j = k := by rw [h.eqv.apply_eq_iff_eq, Fin.mk.injEq]
  simp only [e]
  rw [← h.entry_val hA ⟨i, hi⟩ ⟨l, hl⟩]

/-- **C102.** Entries of the irreps of different partitions have the convolution zero. -/
theorem C102_entries_of_different (n : Nat) (hn : 1 ≤ n) (p q : List Nat) (hp : IsPartition n p) (hq : IsPartition n q)
    (hne : p ≠ q) (R S : IrrepObj) (hR : mkIrrep p = some R) (hS : mkIrrep q = some S)
    (i j k l : Nat) (hi : i < R.d) (hj : j < R.d) (hk : k < S.d) (hl : l < S.d) (f g : Cells ℝ)
    (hf : EntryFn n R i j f) (hg : EntryFn n S k l g) :
    ∃ h, (snGroup n).convolve f g = some h ∧ ∀ s, IsPerm n s → (snGroup n).value h s = some 0 := by
  obtain ⟨R', hR', _, h⟩ := exists_repr hn hp
  obtain ⟨S', hS', _, h'⟩ := exists_repr hn hq
  rw [hR] at hR'
  obtain rfl := Option.some.inj hR'
  rw [hS] at hS'
  obtain rfl := Option.some.inj hS'
  have hI := snGroup_implements n hn
  obtain rfl := (entryFn_iff hn h ⟨i, hi⟩ ⟨j, hj⟩ f).1 hf
  obtain rfl := (entryFn_iff hn h' ⟨k, hk⟩ ⟨l, hl⟩ g).1 hg
  refine ⟨_, convolve_eq hI _ _, ?_⟩
  rintro s ⟨σ, rfl⟩
  rw [hI.value_eq, conv_entry_ne hp hq hne]

/-- **C102.** The traces are orthogonal idempotents up to the factor `n!/d`. -/
theorem C102_traces (n : Nat) (hn : 1 ≤ n) (p q : List Nat) (hp : IsPartition n p) (hq : IsPartition n q)
    (R S : IrrepObj) (hR : mkIrrep p = some R) (hS : mkIrrep q = some S) (f g : Cells ℝ) (hf : TraceFn n R f)
    (hg : TraceFn n S g) :
    ∃ h, (snGroup n).convolve f g = some h ∧ Written (snSize n) h ∧ ∀ s, IsPerm n s → ∃ x,
      (snGroup n).value f s = some x ∧ (snGroup n).value h s = some (if p = q then (n ! : ℝ) / R.d * x else 0) := by
  obtain ⟨R', hR', _, h⟩ := exists_repr hn hp
  obtain ⟨S', hS', _, h'⟩ := exists_repr hn hq
  rw [hR] at hR'
  obtain rfl := Option.some.inj hR'
  rw [hS] at hS'
  obtain rfl := Option.some.inj hS'
  have hI := snGroup_implements n hn
  obtain rfl := (traceFn_iff hn h f).1 hf
  obtain rfl := (traceFn_iff hn h' g).1 hg
  refine ⟨_, convolve_eq hI _ _, (written_iff (I := snGroup n) (e := elemEquiv n) _).2 ⟨_, rfl⟩, ?_⟩
  rintro s ⟨σ, rfl⟩
  refine ⟨_, hI.value_eq _ σ, ?_⟩
  rw [hI.value_eq, conv_chi, ← h.d_eq]

/-- **C102.** Convolving a function with the traces, each weighted by `d/n!`, and adding up gives the function back. -/
theorem C102_resolution (n : Nat) (hn : 1 ≤ n) (g : Cells ℝ) (hg : Written (snSize n) g) :
    ∃ (R : List Nat → IrrepObj) (F H : List Nat → Cells ℝ), (∀ p, IsPartition n p → mkIrrep p = some (R p) ∧
        TraceFn n (R p) (F p) ∧ (snGroup n).convolve (F p) g = some (H p)) ∧
      ∀ s, IsPerm n s → ∃ v : List Nat → ℝ, (∀ p, IsPartition n p → (snGroup n).value (H p) s = some (v p)) ∧
        (snGroup n).value g s = some ((partitions n).map fun p => ((R p).d : ℝ) / n ! * v p).sum := by
  classical
  have hI := snGroup_implements n hn
  obtain ⟨g, rfl⟩ := (written_iff (I := snGroup n) (e := elemEquiv n) g).1 hg
  have : ∀ p, ∃ R, IsPartition n p → mkIrrep p = some R ∧ ∃ hp : IsPartition n p, Repr' hp R := by
    intro p
    by_cases hp : IsPartition n p
    · obtain ⟨R, hR, _, h⟩ := exists_repr hn hp
      exact ⟨R, fun _ => ⟨hR, hp, h⟩⟩
    · exact ⟨⟨0, 0, [], [], []⟩, fun h => absurd h hp⟩
  choose R hR using this
  let F : List Nat → Equiv.Perm (Fin n) → ℝ := fun p => if hp : IsPartition n p then chi hp else 0
  have hF : ∀ p (hp : IsPartition n p), F p = chi hp := fun p hp => dif_pos hp
  refine ⟨R, fun p => cellsOf (I := snGroup n) (elemEquiv n) (F p),
    fun p => cellsOf (I := snGroup n) (elemEquiv n) fun x => ∑ y, F p (x * y⁻¹) * g y, fun p hp => ?_, ?_⟩
  · obtain ⟨h1, _, h2⟩ := hR p hp
    refine ⟨h1, (traceFn_iff hn h2 _).2 (by beta_reduce; rw [hF p hp]), convolve_eq hI _ _⟩
  · rintro s ⟨σ, rfl⟩
    refine ⟨fun p => ∑ y, F p (σ * y⁻¹) * g y, fun p _ => hI.value_eq _ σ, ?_⟩
    rw [hI.value_eq]
    congr 1
    rw [sum_partitions (by omega)]
    have hn0 : (n ! : ℝ) ≠ 0 := by exact_mod_cast (Nat.factorial_pos n).ne'
    have e : ∀ p : Pt n, ((R p.1).d : ℝ) / n ! * ∑ y, F p.1 (σ * y⁻¹) * g y =
        ∑ y, ((dimW n p.1 : ℝ) * Matrix.trace (rho p.2 (σ * y⁻¹))) / n ! * g y := by
      intro p
      obtain ⟨_, _, h2⟩ := hR p.1 p.2
      rw [Finset.mul_sum, hF p.1 p.2, h2.d_eq]
      refine Finset.sum_congr rfl fun y _ => ?_
      show (dimW n p.1 : ℝ) / n ! * (Matrix.trace (rho p.2 (σ * y⁻¹)) * g y) = _
      ring
    rw [Finset.sum_congr rfl fun p _ => e p, Finset.sum_comm]
    simp only [← Finset.sum_mul, ← Finset.sum_div, completeness_trace]
    rw [Finset.sum_eq_single σ]
    · simp [hn0]
    · intro y _ hy
      rw [if_neg, zero_div, zero_mul]
      intro h
      exact hy (mul_inv_eq_one.1 h).symm
    · intro h; exact absurd (Finset.mem_univ _) h

/-- **C102.** Convolution by `f` commutes with convolution by every function exactly when `f` is constant on the
conjugacy classes. -/
theorem C102_central (n : Nat) (hn : 1 ≤ n) (f : Cells ℝ) (hf : Written (snSize n) f) :
    (∀ g, Written (snSize n) g → (snGroup n).convolve f g = (snGroup n).convolve g f) ↔ ConstantOnClasses n f := by
  classical
  have hI := snGroup_implements n hn
  obtain ⟨f, rfl⟩ := (written_iff (I := snGroup n) (e := elemEquiv n) f).1 hf
  constructor
  · intro h σ τ
    have h1 := h (cellsOf (I := snGroup n) (elemEquiv n) fun x => if x = τ then 1 else 0)
      ((written_iff (I := snGroup n) (e := elemEquiv n) _).2 ⟨_, rfl⟩)
    rw [convolve_eq hI, convolve_eq hI] at h1
    have h2 := congrArg (fun c : Option (Cells ℝ) => c.bind fun c => (snGroup n).value c (enc (τ * σ))) h1
    simp only [Option.bind_some] at h2
    rw [hI.value_eq, hI.value_eq] at h2
    have h3 := Option.some.inj h2
    rw [Finset.sum_eq_single τ (fun y _ hy => by rw [if_neg hy, mul_zero]) (fun h => absurd (Finset.mem_univ _) h),
      Finset.sum_eq_single σ (fun y _ hy => by
        rw [if_neg, zero_mul]
        intro e
        exact hy (mul_right_cancel (b := y⁻¹) (by
          have : τ * (σ * y⁻¹) = τ * 1 := by rw [← mul_assoc, e, mul_one]
          rw [mul_left_cancel this, mul_inv_cancel]))) (fun h => absurd (Finset.mem_univ _) h),
      if_pos rfl, if_pos (by rw [mul_assoc, mul_inv_cancel, mul_one]), mul_one, one_mul] at h3
    rw [hI.value_eq, hI.value_eq, h3]
  · intro h g hg
    obtain ⟨g, rfl⟩ := (written_iff (I := snGroup n) (e := elemEquiv n) g).1 hg
    have hc : ∀ σ τ, f (τ * σ * τ⁻¹) = f σ := by
      intro σ τ
      have := h σ τ
      rw [hI.value_eq, hI.value_eq] at this
      exact Option.some.inj this
    rw [convolve_eq hI, convolve_eq hI]
    congr 2
    funext x
    refine Eq.trans ?_ (Equiv.sum_comp ((Equiv.inv (Equiv.Perm (Fin n))).trans (Equiv.mulRight x)) _)
    refine Finset.sum_congr rfl fun y _ => ?_
    show f (x * y⁻¹) * g y = g (x * (y⁻¹ * x)⁻¹) * f (y⁻¹ * x)
    rw [mul_inv_rev, inv_inv, ← mul_assoc, mul_inv_cancel, one_mul, mul_comm, ← hc (y⁻¹ * x) y, ← mul_assoc,
      mul_inv_cancel, one_mul]

/-- **C102.** The traces are constant on the classes, so convolution by them commutes with every convolution. -/
theorem C102_traces_central (n : Nat) (hn : 1 ≤ n) (p : List Nat) (hp : IsPartition n p) (R : IrrepObj)
    (hR : mkIrrep p = some R) (f g : Cells ℝ) (hf : TraceFn n R f) (hg : Written (snSize n) g) :
    (snGroup n).convolve f g = (snGroup n).convolve g f := by
  refine (C102_central n hn f hf.1).2 (fun σ τ => ?_) g hg
  obtain ⟨R', hR', _, h⟩ := exists_repr hn hp
  rw [hR] at hR'
  obtain rfl := Option.some.inj hR'
  have hI := snGroup_implements n hn
  obtain rfl := (traceFn_iff hn h f).1 hf
  rw [hI.value_eq, hI.value_eq]
  exact congrArg some (chi_conj hp (isConj_iff.2 ⟨τ⁻¹, by group⟩))

/-- The two-dimensional irrep of `S3`. -/
example : ∃ R f h, mkIrrep [2, 1] = some R ∧ TraceFn 3 R f ∧ (snGroup 3).convolve f f = some h ∧
    ∀ s, IsPerm 3 s → ∃ x, (snGroup 3).value f s = some x ∧ (snGroup 3).value h s = some ((3 ! : ℝ) / R.d * x) := by
  have hp : IsPartition 3 [2, 1] := ⟨by simp, by simp, rfl⟩
  obtain ⟨R, hR, ⟨f, hf, _⟩, _⟩ := C102_functions 3 (by decide) _ hp
  obtain ⟨h, h1, _, h2⟩ := C102_traces 3 (by decide) _ _ hp hp R R hR hR f f hf hf
  refine ⟨R, f, h, hR, hf, h1, fun s hs => ?_⟩
  simpa using h2 s hs

end Props

end Snob
