import Verif.Proofs.FloatErr
import Verif.Proofs.IrrepSpec

/-! # Rounding along the word of a permutation -/

namespace Snob

open IP Matrix

section
variable {X : Type}

/-- a word of steps -/
def wact (st : Nat → X → X) (w : FreeMonoid Nat) (x : X) : X := w.toList.foldr st x

theorem wact_mul (st : Nat → X → X) (w w' : FreeMonoid Nat) (x : X) : wact st (w * w') x = wact st w (wact st w' x) := by
  unfold wact; rw [FreeMonoid.toList_mul, List.foldr_append]

theorem wordGen {n : Nat} {st : Nat → X → X} {ap : Int → X → Option X}
    (h : ∀ (k : Nat) x, k + 1 < n → ap ((k : Int) + 1) x = some (st k x)) :
    Gen n FreeMonoid.of (fun w => wact st w) ap where
  one _ := rfl
  mul := wact_mul st
  gen k x hk := h k x hk

end

theorem map_cox {M N : Type} [Monoid M] [Monoid N] (f : M →* N) (s : Nat → M) (n : Nat) (σ : Equiv.Perm (Fin n)) :
    f (cox s n σ) = cox (fun k => f (s k)) n σ := by
  induction n with
  | zero => exact f.map_one
  | succ n ih => rw [cox, f.map_mul, ih, map_run]; rfl

/-- the word of the block cycles -/
def cycw {M : Type} [Monoid M] (s : Nat → M) : List Nat → Nat → M
  | [], _ => 1
  | x :: mu, a => cycw s mu (a + x) * run s a (x - 1)

theorem map_cycw {M N : Type} [Monoid M] [Monoid N] (f : M →* N) (s : Nat → M) (mu : List Nat) (a : Nat) :
    f (cycw s mu a) = cycw (fun k => f (s k)) mu a := by
  induction mu generalizing a with
  | nil => exact f.map_one
  | cons x mu ih => rw [cycw, f.map_mul, ih, map_run]; rfl

theorem cycw_adj (n : Nat) (mu : List Nat) (a : Nat) : cycw (adj n) mu a = blockPerm n mu a := by
  induction mu generalizing a with
  | nil => rfl
  | cons x mu ih => rw [cycw, ih, blockPerm]

/-- the letters and the length of a word -/
def WordOk (n m : Nat) (w : FreeMonoid Nat) : Prop := (∀ k ∈ w.toList, k + 1 < n) ∧ w.toList.length ≤ m

theorem WordOk.one (n : Nat) : WordOk n 0 1 := ⟨by simp, by simp⟩

theorem WordOk.mul {n a b : Nat} {w w' : FreeMonoid Nat} (h : WordOk n a w) (h' : WordOk n b w') : WordOk n (a + b) (w * w') := by
  refine ⟨fun k hk => ?_, ?_⟩
  · rw [FreeMonoid.toList_mul, List.mem_append] at hk
    exact hk.elim (h.1 k) (h'.1 k)
  · rw [FreeMonoid.toList_mul, List.length_append]
    have := h.2
    have := h'.2
    omega

theorem WordOk.mono {n a b : Nat} {w : FreeMonoid Nat} (h : WordOk n a w) (hab : a ≤ b) : WordOk n b w := ⟨h.1, h.2.trans hab⟩

theorem wordOk_run {n : Nat} (t m : Nat) (h : t + m < n) : WordOk n m (run FreeMonoid.of t m) := by
  induction m generalizing t with
  | zero => exact WordOk.one n
  | succ m ih =>
    rw [run, Nat.add_comm m 1]
    refine WordOk.mul ⟨?_, by simp⟩ (ih (t + 1) (by omega))
    intro k hk
    simp at hk
    omega

theorem wordOk_cox {n k : Nat} (hk : k ≤ n) (σ : Equiv.Perm (Fin k)) : WordOk n (k * (k - 1) / 2) (cox FreeMonoid.of k σ) := by
  induction k with
  | zero => exact WordOk.one n
  | succ k ih =>
    obtain ⟨t, τ, rfl⟩ := exists_mk σ
    have ht := t.2
    rw [cox_mk]
    refine (WordOk.mul (wordOk_run _ _ (by omega)) (ih (by omega) τ)).mono ?_
    have := Nat.triangle_succ k
    omega

theorem wordOk_cycw {n : Nat} (mu : List Nat) (a : Nat) (hpos : ∀ x ∈ mu, 0 < x) (hs : a + mu.sum ≤ n) :
    WordOk n mu.sum (cycw FreeMonoid.of mu a) := by
  induction mu generalizing a with
  | nil => exact WordOk.one n
  | cons x mu ih =>
    have hx := hpos x (by simp)
    rw [List.sum_cons] at hs
    rw [cycw]
    refine (WordOk.mul (ih (a + x) (fun y hy => hpos y (by simp [hy])) (by omega)) (wordOk_run _ _ (by omega))).mono ?_
    rw [List.sum_cons]; omega

section
variable {n : Nat} {p : List Nat} {hp : IsPartition n p} {R : IrrepObj} {F : Rounding} {K : Type} [DecidableEq K]

/-- one rounded step -/
noncomputable def fst' (F : Rounding) (R : IrrepObj) (cols : List K) (k : Nat) : (Nat → K → ℝ) → Nat → K → ℝ :=
  F.step R.d (R.partner ((k + 1 : Nat) : Int)) (F.ra R ((k + 1 : Nat) : Int)) (F.rb R ((k + 1 : Nat) : Int)) cols

theorem Repr'.fgen (h : Repr' hp R) (hodd : Odd' F.d) (cols : List K) (hc : cols.Nodup) :
    Gen n FreeMonoid.of (fun w => wact (fst' F R cols) w) (fun tau A => F.applyTau (F.round R) cols tau A) :=
  wordGen fun k A hk => by
    have := F.applyTau_eq (h.fslots hodd (tau := k + 1) (by omega) hk) cols hc A
    push_cast at this
    exact this

/-- the word of a permutation -/
theorem Repr'.fsigma (h : Repr' hp R) (hodd : Odd' F.d) (cols : List K) (hc : cols.Nodup) (σ : Equiv.Perm (Fin n))
    (A : Nat → K → ℝ) : F.applySigma (F.round R) cols (enc σ) A = some (wact (fst' F R cols) (cox FreeMonoid.of n σ) A) := by
  have g := h.fgen hodd cols hc
  unfold Rounding.applySigma
  have hn : (F.round R).n = n := h.n_eq
  rw [hn, if_pos (by simp), shifts_eq]
  exact sigmaLoop (a := fun w => wact (fst' F R cols) w) g.one g.mul
    (cy := fun b i A => forDown (i - 1) b A fun a A => F.applyTau (F.round R) cols a A)
    (fun t m x htm => g.down t m htm rfl (by ring) x) σ A

theorem Repr'.fcycle (h : Repr' hp R) (hodd : Odd' F.d) (a x : Nat) (hx : 0 < x) (hn : a + x ≤ n) (A : Nat → Nat → ℝ) :
    F.applyCycle (F.round R) (List.range R.d) ((a : Int) + 1) ((a : Int) + 1 + x - 1) A =
      some (wact (fst' F R (List.range R.d)) (run FreeMonoid.of a (x - 1)) A) := by
  unfold Rounding.applyCycle
  by_cases h1 : x = 1
  · subst h1
    rw [if_neg (by omega), forUp_empty (by omega)]
    rfl
  · rw [if_pos (by omega)]
    exact (h.fgen hodd (List.range R.d) List.nodup_range).down a (x - 1) (by omega) rfl (by omega) A

theorem Repr'.fcharLoop (h : Repr' hp R) (hodd : Odd' F.d) (mu : List Nat) (a : Nat) (hpos : ∀ x ∈ mu, 0 < x) (hs : a + mu.sum ≤ n)
    (A : Nat → Nat → ℝ) :
    F.charLoop (F.round R) mu ((a : Int) + 1) A = some (wact (fst' F R (List.range R.d)) (cycw FreeMonoid.of mu a) A) := by
  induction mu generalizing a A with
  | nil => rfl
  | cons x mu ih =>
    simp only [List.sum_cons] at hs
    rw [Rounding.charLoop, show (F.round R).d = R.d from rfl, h.fcycle hodd a x (hpos x (by simp)) (by omega), Option.bind_some]
    have e : (a : Int) + 1 + x = ((a + x : Nat) : Int) + 1 := by push_cast; ring
    rw [e, ih (a + x) (fun y hy => hpos y (by simp [hy])) (by omega), cycw, wact_mul]

/-! ### the error -/

/-- `B` is near `A` -/
structure Near (d : Nat) (cols : List K) (e : ℝ) (A B : Nat → K → ℝ) : Prop where
  near : ∀ k ∈ cols, nrm d (fun i => B i k - A i k) ≤ e * nrm d (fun i => A i k)
  rest : ∀ i k, ¬ (i < d ∧ k ∈ cols) → B i k = A i k

theorem nrm_congr {d : Nat} {x y : Nat → ℝ} (h : ∀ i, i < d → x i = y i) : nrm d x = nrm d y := by
  unfold nrm
  congr 1
  exact Finset.sum_congr rfl fun i hi => by rw [h i (Finset.mem_range.1 hi)]

theorem ecell_sub (R : IrrepObj) (tau : Int) (x y : Nat → ℝ) (i : Nat) :
    ecell R tau x i - ecell R tau y i = ecell R tau (fun j => x j - y j) i := by
  unfold ecell
  split <;> ring

theorem Repr'.act_nrm (h : Repr' hp R) {k0 : Nat} (hk : k0 + 1 < n) (cols : List K) (A : Nat → K → ℝ) (k : K) (hkc : k ∈ cols) :
    nrm R.d (fun i => act (h.rep (adj n k0)) cols A i k) = nrm R.d (fun i => A i k) := by
  rw [h.rep_adj hk, ← h.ecell_nrm (tau := k0 + 1) (by omega) hk (fun i => A i k)]
  exact nrm_congr fun i hi => h.act_cell (by omega) hk A hi hkc

theorem Repr'.near_step (h : Repr' hp R) {u v : ℝ} (hs : RelErr u F.s) (hd : RelErr v F.d) (hu : 0 ≤ u) (h0 : 0 ≤ v) (hv : v ≤ 1 / 2)
    {k0 : Nat} (hk : k0 + 1 < n) {cols : List K} {e : ℝ} {A B : Nat → K → ℝ} (hN : Near R.d cols e A B) :
    Near R.d cols ((1 + stepErr u v) * (1 + e) - 1) (act (h.rep (adj n k0)) cols A) (fst' F R cols k0 B) := by
  constructor
  · intro k hkc
    rw [h.act_nrm hk cols A k hkc]
    have h1 := h.cell_err hs hd hu h0 hv (tau := k0 + 1) (by omega) hk (fun i => B i k)
    have h2 := hN.near k hkc
    have h3 := nrm_add R.d (fun i => A i k) (fun i => B i k - A i k)
    have e3 : nrm R.d (fun i => A i k + (B i k - A i k)) = nrm R.d (fun i => B i k) := nrm_congr fun i _ => by ring
    rw [e3] at h3
    have h4 := nrm_add R.d (fun i => F.cell (R.partner ((k0 + 1 : Nat) : Int)) (F.ra R ((k0 + 1 : Nat) : Int)) (F.rb R ((k0 + 1 : Nat) : Int)) (fun i => B i k) i -
      ecell R ((k0 + 1 : Nat) : Int) (fun i => B i k) i) (ecell R ((k0 + 1 : Nat) : Int) (fun i => B i k - A i k))
    rw [h.ecell_nrm (tau := k0 + 1) (by omega) hk] at h4
    have e5 : nrm R.d (fun i => fst' F R cols k0 B i k - act (h.rep (adj n k0)) cols A i k) =
        nrm R.d (fun i => F.cell (R.partner ((k0 + 1 : Nat) : Int)) (F.ra R ((k0 + 1 : Nat) : Int)) (F.rb R ((k0 + 1 : Nat) : Int)) (fun i => B i k) i -
          ecell R ((k0 + 1 : Nat) : Int) (fun i => B i k) i + ecell R ((k0 + 1 : Nat) : Int) (fun i => B i k - A i k) i) := by
      refine nrm_congr fun i hi => ?_
      rw [h.rep_adj hk, h.act_cell (by omega) hk A hi hkc, ← ecell_sub]
      unfold fst' Rounding.step
      rw [if_pos ⟨hi, hkc⟩]
      ring
    rw [e5]
    have h6 : stepErr u v * nrm R.d (fun i => B i k) ≤ stepErr u v * (nrm R.d (fun i => A i k) + e * nrm R.d (fun i => A i k)) :=
      mul_le_mul_of_nonneg_left (by linarith) (by unfold stepErr; have := cellErr_nonneg hu h0; positivity)
    have e7 : ((1 + stepErr u v) * (1 + e) - 1) * nrm R.d (fun i => A i k) =
        stepErr u v * (nrm R.d (fun i => A i k) + e * nrm R.d (fun i => A i k)) + e * nrm R.d (fun i => A i k) := by ring
    rw [e7]
    linarith
  · intro i k hik
    unfold fst' Rounding.step act
    rw [if_neg hik, dif_neg hik]
    exact hN.rest i k hik

theorem Repr'.near_word (h : Repr' hp R) {u v : ℝ} (hs : RelErr u F.s) (hd : RelErr v F.d) (hu : 0 ≤ u) (h0 : 0 ≤ v) (hv : v ≤ 1 / 2)
    (cols : List K) (A : Nat → K → ℝ) {m : Nat} {w : FreeMonoid Nat} (hw : WordOk n m w) :
    Near R.d cols ((1 + stepErr u v) ^ m - 1) (act (h.rep (FreeMonoid.lift (adj n) w)) cols A) (wact (fst' F R cols) w A) := by
  have hse : 0 ≤ stepErr u v := by unfold stepErr; have := cellErr_nonneg hu h0; positivity
  have key : ∀ l : List Nat, (∀ k ∈ l, k + 1 < n) → Near R.d cols ((1 + stepErr u v) ^ l.length - 1)
      (act (h.rep (l.map (adj n)).prod) cols A) (l.foldr (fst' F R cols) A) := by
    intro l
    induction l with
    | nil =>
      intro _
      refine ⟨fun k _ => ?_, fun i k _ => ?_⟩
      · simp only [List.map_nil, List.prod_nil, map_one, act_one, List.foldr_nil, List.length_nil, pow_zero, sub_self]
        unfold nrm; simp
      · simp only [List.map_nil, List.prod_nil, map_one, act_one, List.foldr_nil]
    | cons k l ih =>
      intro hl
      have := h.near_step hs hd hu h0 hv (hl k (by simp)) (ih fun j hj => hl j (by simp [hj]))
      rw [List.map_cons, List.prod_cons, map_mul, act_mul, List.foldr_cons, List.length_cons, pow_succ']
      rwa [add_sub_cancel] at this
  have := key w.toList hw.1
  rw [← FreeMonoid.lift_apply] at this
  refine ⟨fun k hk => (this.near k hk).trans (mul_le_mul_of_nonneg_right ?_ (nrm_nonneg _ _)), this.rest⟩
  have := pow_le_pow_right₀ (by linarith : (1 : ℝ) ≤ 1 + stepErr u v) hw.2
  linarith

theorem Repr'.act_rep_nrm (h : Repr' hp R) {m : Nat} {w : FreeMonoid Nat} (hw : WordOk n m w) (cols : List K) (A : Nat → K → ℝ) (k : K)
    (hk : k ∈ cols) : nrm R.d (fun i => act (h.rep (FreeMonoid.lift (adj n) w)) cols A i k) = nrm R.d (fun i => A i k) := by
  have key : ∀ l : List Nat, (∀ k ∈ l, k + 1 < n) →
      nrm R.d (fun i => act (h.rep (l.map (adj n)).prod) cols A i k) = nrm R.d (fun i => A i k) := by
    intro l
    induction l with
    | nil => intro _; simp only [List.map_nil, List.prod_nil, map_one, act_one]
    | cons k l ih =>
      intro hl
      rw [List.map_cons, List.prod_cons, map_mul, act_mul, h.act_nrm (hl k (by simp)) cols _ _ hk]
      exact ih fun j hj => hl j (by simp [hj])
  rw [FreeMonoid.lift_apply]
  exact key w.toList hw.1

/-- acting by a permutation -/
theorem Repr'.near_sigma (h : Repr' hp R) (hodd : Odd' F.d) {u v : ℝ} (hs : RelErr u F.s) (hd : RelErr v F.d) (hu : 0 ≤ u) (h0 : 0 ≤ v)
    (hv : v ≤ 1 / 2) (cols : List K) (hc : cols.Nodup) (σ : Equiv.Perm (Fin n)) (A : Nat → K → ℝ) :
    ∃ B, F.applySigma (F.round R) cols (enc σ) A = some B ∧
      Near R.d cols ((1 + stepErr u v) ^ (n * (n - 1) / 2) - 1) (act (h.rep σ) cols A) B ∧
      ∀ k ∈ cols, nrm R.d (fun i => act (h.rep σ) cols A i k) = nrm R.d (fun i => A i k) := by
  have e : FreeMonoid.lift (adj n) (cox FreeMonoid.of n σ) = σ := by
    rw [map_cox, ← cox_adj_self σ]
    simp only [FreeMonoid.lift_eval_of, cox_adj_self]
  have hw := wordOk_cox le_rfl σ
  refine ⟨_, h.fsigma hodd cols hc σ A, ?_, fun k hk => ?_⟩
  · have := h.near_word hs hd hu h0 hv cols A hw
    rwa [e] at this
  · have := h.act_rep_nrm hw cols A k hk
    rwa [e] at this

/-! ### characters -/

theorem sum_err {s : ℝ → ℝ} {u : ℝ} (hs : RelErr u s) (hu : 0 ≤ u) {g : ℝ} (hg : 1 ≤ g) (x y : Nat → ℝ) (d : Nat)
    (h : ∀ i, i < d → |y i - x i| ≤ g - 1 ∧ |x i| ≤ 1) :
    |(List.range d).foldl (fun t i => s (t + y i)) 0 - ∑ i ∈ Finset.range d, x i| ≤ d * ((1 + u) ^ d * g - 1) ∧
      |∑ i ∈ Finset.range d, x i| ≤ d := by
  induction d with
  | zero => simp
  | succ d ih =>
    obtain ⟨h1, h2⟩ := ih fun i hi => h i (by omega)
    obtain ⟨h3, h4⟩ := h d (by omega)
    rw [List.range_succ, List.foldl_append, Finset.sum_range_succ]
    simp only [List.foldl_cons, List.foldl_nil]
    set t := (List.range d).foldl (fun t i => s (t + y i)) 0
    set S := ∑ i ∈ Finset.range d, x i
    have hy : |S + x d| ≤ ((d + 1 : Nat) : ℝ) := by
      have := abs_add_le S (x d)
      push_cast; linarith
    have hp1 : 1 ≤ (1 + u) ^ d := one_le_pow₀ (by linarith)
    have hx : |t + y d - (S + x d)| ≤ ((1 + u) ^ d * g - 1) * ((d + 1 : Nat) : ℝ) := by
      have e : t + y d - (S + x d) = (t - S) + (y d - x d) := by ring
      rw [e]
      have := abs_add_le (t - S) (y d - x d)
      have : g ≤ (1 + u) ^ d * g := by nlinarith
      push_cast
      linarith
    have := hs.le hu hx hy
    refine ⟨this.trans (le_of_eq ?_), hy⟩
    rw [pow_succ]; ring

/-- how far a character can be off -/
noncomputable def charErr (u v : ℝ) (n d : Nat) : ℝ := d * ((1 + u) ^ d * (1 + stepErr u v) ^ n - 1)

theorem Repr'.near_character (h : Repr' hp R) (hodd : Odd' F.d) {u v : ℝ} (hs : RelErr u F.s) (hd : RelErr v F.d) (hu : 0 ≤ u) (h0 : 0 ≤ v)
    (hv : v ≤ 1 / 2) {mu : List Nat} (hmu : IsPartition n mu) :
    ∃ x, F.character (F.round R) mu = some x ∧ |x - chi hp (blockPerm n mu 0)| ≤ charErr u v n R.d := by
  have hsum := hmu.sum
  have hw := wordOk_cycw (n := n) mu 0 hmu.pos (by omega)
  have hl := h.fcharLoop hodd mu 0 hmu.pos (by omega) IrrepObj.identMat
  simp only [Nat.cast_zero, zero_add] at hl
  have e : FreeMonoid.lift (adj n) (cycw FreeMonoid.of mu 0) = blockPerm n mu 0 := by
    rw [map_cycw, ← cycw_adj]
    simp only [FreeMonoid.lift_eval_of]
  have hN := h.near_word hs hd hu h0 hv (List.range R.d) IrrepObj.identMat hw
  have hL : ∀ k ∈ List.range R.d, nrm R.d (fun i => act (h.rep (blockPerm n mu 0)) (List.range R.d) IrrepObj.identMat i k) = 1 := by
    intro k hk
    have := h.act_rep_nrm hw (List.range R.d) IrrepObj.identMat k hk
    rw [e] at this
    rw [this]
    unfold nrm IrrepObj.identMat
    rw [Finset.sum_eq_single k]
    · simp
    · intro i _ hi; simp [hi]
    · intro hk'; exact absurd (Finset.mem_range.2 (List.mem_range.1 hk)) hk'
  rw [e, hsum] at hN
  refine ⟨_, by unfold Rounding.character; rw [hl]; rfl, ?_⟩
  have hse : 0 ≤ stepErr u v := by unfold stepErr; have := cellErr_nonneg hu h0; positivity
  have := (sum_err hs hu (one_le_pow₀ (n := n) (by linarith : (1 : ℝ) ≤ 1 + stepErr u v))
    (fun i => act (h.rep (blockPerm n mu 0)) (List.range R.d) IrrepObj.identMat i i)
    (fun i => wact (fst' F R (List.range R.d)) (cycw FreeMonoid.of mu 0) IrrepObj.identMat i i) R.d ?_).1
  · have e2 : ∑ i ∈ Finset.range R.d, act (h.rep (blockPerm n mu 0)) (List.range R.d) IrrepObj.identMat i i = chi hp (blockPerm n mu 0) := by
      rw [Finset.sum_range, ← h.trace_rep]
      exact Finset.sum_congr rfl fun i _ => h.identMat_act _ i i
    rw [e2] at this
    exact this
  · intro i hi
    have hmem : i ∈ List.range R.d := List.mem_range.2 hi
    have h1 := hN.near i hmem
    rw [hL i hmem, mul_one] at h1
    have h2 := abs_le_nrm hi fun j => wact (fst' F R (List.range R.d)) (cycw FreeMonoid.of mu 0) IrrepObj.identMat j i -
      act (h.rep (blockPerm n mu 0)) (List.range R.d) IrrepObj.identMat j i
    have h3 := abs_le_nrm hi fun j => act (h.rep (blockPerm n mu 0)) (List.range R.d) IrrepObj.identMat j i
    rw [hL i hmem] at h3
    exact ⟨h2.trans h1, h3⟩

end

end Snob
