import Verif.Proofs.FloatFFTAct
import Verif.Proofs.FloatFn
import Verif.Spec.FloatFFT
import Verif.Proofs.FFTForm

/-! # The forward transform with rounding -/

namespace Snob

open IP Matrix Snob.Perm
open scoped Nat

/-! ### loops that go in step -/

theorem iterDown_rel' {S T : Type} (rel : Nat → S → T → Prop) {f : Int → S → Option S} {g : Int → T → Option T} (k : Nat) :
    ∀ (c : Nat) (i : Int) (s : S) (t : T) (s' : S),
      (∀ c j s t s', i - k < j → j ≤ i → rel c s t → f j s = some s' → ∃ t', g j t = some t' ∧ rel (c + 1) s' t') →
      rel c s t → iterDown f k i s = some s' → ∃ t', iterDown g k i t = some t' ∧ rel (c + k) s' t' := by
  induction k with
  | zero => intro c i s t s' _ h e; cases e; exact ⟨t, rfl, h⟩
  | succ k ih =>
    intro c i s t s' hb h e
    rw [iterDown, Option.bind_eq_some_iff] at e
    obtain ⟨s1, e1, e2⟩ := e
    obtain ⟨t1, e3, h1⟩ := hb c i s t s1 (by omega) (by omega) h e1
    obtain ⟨t2, e4, h2⟩ := ih (c + 1) (i - 1) s1 t1 s' (fun c j s t s' a b => hb c j s t s' (by push_cast; omega) (by omega)) h1 e2
    exact ⟨t2, by rw [iterDown, e3]; exact e4, by rw [show c + (k + 1) = c + 1 + k by omega]; exact h2⟩

theorem iterUp_rel' {S T : Type} (rel : Nat → S → T → Prop) {f : Int → S → Option S} {g : Int → T → Option T} (k : Nat) :
    ∀ (c : Nat) (i : Int) (s : S) (t : T) (s' : S),
      (∀ (x : Nat) s t s', x < k → rel (c + x) s t → f (i + x) s = some s' → ∃ t', g (i + x) t = some t' ∧ rel (c + x + 1) s' t') →
      rel c s t → iterUp f k i s = some s' → ∃ t', iterUp g k i t = some t' ∧ rel (c + k) s' t' := by
  induction k with
  | zero => intro c i s t s' _ h e; cases e; exact ⟨t, rfl, h⟩
  | succ k ih =>
    intro c i s t s' hb h e
    rw [iterUp, Option.bind_eq_some_iff] at e
    obtain ⟨s1, e1, e2⟩ := e
    obtain ⟨t1, e3, h1⟩ := hb 0 s t s1 (by omega) h (by simpa using e1)
    obtain ⟨t2, e4, h2⟩ := ih (c + 1) (i + 1) s1 t1 s' (fun x s t s' a b e => by
      have := hb (x + 1) s t s' (by omega) (by rw [show c + (x + 1) = c + 1 + x by omega]; exact b)
        (by rw [show i + ((x + 1 : Nat) : Int) = i + 1 + x by push_cast; ring]; exact e)
      rw [show i + ((x + 1 : Nat) : Int) = i + 1 + x by push_cast; ring, show c + (x + 1) + 1 = c + 1 + x + 1 by omega] at this
      exact this) h1 e2
    refine ⟨t2, ?_, by rw [show c + (k + 1) = c + 1 + k by omega]; exact h2⟩
    have e3' : g i t = some t1 := by simpa using e3
    rw [iterUp, e3']; exact e4

theorem mapM_rel {α β γ : Type} {f : α → Option β} {g : α → Option γ} (rel : β → γ → Prop) (l : List α) (ys : List β)
    (h : ∀ x ∈ l, ∀ y, f x = some y → ∃ z, g x = some z ∧ rel y z) (e : l.mapM f = some ys) :
    ∃ zs, l.mapM g = some zs ∧ List.Forall₂ rel ys zs := by
  induction l generalizing ys with
  | nil => simp at e; subst e; exact ⟨[], rfl, .nil⟩
  | cons a l ih =>
    simp only [List.mapM_cons, Option.bind_eq_bind, Option.bind_eq_some_iff, Option.pure_def] at e
    obtain ⟨y, e1, ys', e2, e3⟩ := e
    cases e3
    obtain ⟨z, e4, h4⟩ := h a (by simp) y e1
    obtain ⟨zs, e5, h5⟩ := ih ys' (fun x hx => h x (by simp [hx])) e2
    exact ⟨z :: zs, by simp [e4, e5], .cons h4 h5⟩

theorem mapM_rel₂ {α α' β γ : Type} {f : α → Option β} {g : α' → Option γ} (rel : α → α' → Prop) (rel' : β → γ → Prop)
    {l : List α} {l' : List α'} (hl : List.Forall₂ rel l l') {ys : List β}
    (h : ∀ x ∈ l, ∀ x' y, rel x x' → f x = some y → ∃ z, g x' = some z ∧ rel' y z) (e : l.mapM f = some ys) :
    ∃ zs, l'.mapM g = some zs ∧ List.Forall₂ rel' ys zs := by
  induction hl generalizing ys with
  | nil => simp at e; subst e; exact ⟨[], rfl, .nil⟩
  | @cons a a' l l' hab _ ih =>
    simp only [List.mapM_cons, Option.bind_eq_bind, Option.bind_eq_some_iff, Option.pure_def] at e
    obtain ⟨y, e1, ys', e2, e3⟩ := e
    cases e3
    obtain ⟨z, e4, h4⟩ := h a (by simp) a' y hab e1
    obtain ⟨zs, e5, h5⟩ := ih (fun x hx => h x (by simp [hx])) e2
    exact ⟨z :: zs, by simp [e4, e5], .cons h4 h5⟩

theorem forall₂_getElem? {α β : Type} {rel : α → β → Prop} {l : List α} {l' : List β} (h : List.Forall₂ rel l l') {i : Nat} {x : α}
    (hx : l[i]? = some x) : ∃ y, l'[i]? = some y ∧ rel x y := by
  induction h generalizing i with
  | nil => simp at hx
  | cons hab _ ih =>
    rcases i with _ | i
    · simp at hx; subst hx; exact ⟨_, rfl, hab⟩
    · simpa using ih (by simpa using hx)

/-! ### one column -/

/-- the column `x` is at most `M` long, and `y` is near it -/
structure ColNear (d : Nat) (E M : ℝ) (x y : Nat → ℝ) : Prop where
  len : nrm d x ≤ M
  err : nrm d (fun i => y i - x i) ≤ (E - 1) * M

theorem ColNear.bound {d : Nat} {E M : ℝ} {x y : Nat → ℝ} (h : ColNear d E M x y) : nrm d y ≤ E * M := by
  have h1 := nrm_add d x (fun i => y i - x i)
  rw [show nrm d (fun i => x i + (y i - x i)) = nrm d y from nrm_congr fun i _ => by ring] at h1
  have := h.len
  have := h.err
  linarith

theorem ColNear.nonneg {d : Nat} {E M : ℝ} {x y : Nat → ℝ} (h : ColNear d E M x y) : 0 ≤ M := (nrm_nonneg _ _).trans h.len

theorem ColNear.mono {d : Nat} {E E' M : ℝ} {x y : Nat → ℝ} (h : ColNear d E M x y) (hE : E ≤ E') : ColNear d E' M x y :=
  ⟨h.len, h.err.trans (mul_le_mul_of_nonneg_right (by linarith) h.nonneg)⟩

theorem ColNear.congr {d : Nat} {E M : ℝ} {x y x' y' : Nat → ℝ} (h : ColNear d E M x y) (hx : ∀ i, i < d → x' i = x i)
    (hy : ∀ i, i < d → y' i = y i) : ColNear d E M x' y' :=
  ⟨by rw [nrm_congr hx]; exact h.len, by rw [nrm_congr (y := fun i => y i - x i) fun i hi => by rw [hx i hi, hy i hi]]; exact h.err⟩

/-- one more error of relative size `η`, after an isometry -/
theorem ColNear.step {d : Nat} {E M η : ℝ} {x y : Nat → ℝ} (h : ColNear d E M x y) (hη : 0 ≤ η) {x' y' z : Nat → ℝ}
    (hx : nrm d x' = nrm d x) (hy : nrm d (fun i => y' i - x' i) = nrm d (fun i => y i - x i))
    (hz : nrm d (fun i => z i - y' i) ≤ η * nrm d y) : ColNear d (E * (1 + η)) M x' z := by
  refine ⟨by rw [hx]; exact h.len, ?_⟩
  have h1 := nrm_add d (fun i => z i - y' i) (fun i => y' i - x' i)
  rw [show nrm d (fun i => z i - y' i + (y' i - x' i)) = nrm d (fun i => z i - x' i) from nrm_congr fun i _ => by ring, hy] at h1
  have h2 := h.err
  have h3 := mul_le_mul_of_nonneg_left h.bound hη
  have h4 : (E * (1 + η) - 1) * M = η * (E * M) + (E - 1) * M := by ring
  linarith

theorem ColNear.round {d : Nat} {E M u : ℝ} {x y z : Nat → ℝ} (h : ColNear d E M x y) (hu : 0 ≤ u)
    (hz : ∀ i, i < d → |z i - y i| ≤ u * |y i|) : ColNear d (E * (1 + u)) M x z :=
  h.step hu rfl rfl (nrm_le_mul hu hz)

/-! ### sums in any order -/

theorem sumTree_err {r : ℝ → ℝ} {u : ℝ} (hr : RelErr u r) (hu : 0 ≤ u) (x : Nat → ℝ) (T : SumTree) :
    |T.sum r x - (T.leaves.map x).sum| ≤ ((1 + u) ^ (T.leaves.length - 1) - 1) * (T.leaves.map fun t => |x t|).sum ∧
      1 ≤ T.leaves.length ∧ |(T.leaves.map x).sum| ≤ (T.leaves.map fun t => |x t|).sum := by
  induction T with
  | leaf t => simp [SumTree.sum, SumTree.leaves]
  | node a b iha ihb =>
    obtain ⟨a1, a2, a3⟩ := iha
    obtain ⟨b1, b2, b3⟩ := ihb
    simp only [SumTree.sum, SumTree.leaves, List.map_append, List.sum_append, List.length_append]
    set A := (a.leaves.map x).sum
    set B := (b.leaves.map x).sum
    set A' := (a.leaves.map fun t => |x t|).sum
    set B' := (b.leaves.map fun t => |x t|).sum
    have hAB : |A + B| ≤ A' + B' := (abs_add_le _ _).trans (add_le_add a3 b3)
    have hA' : 0 ≤ A' := (abs_nonneg _).trans a3
    have hB' : 0 ≤ B' := (abs_nonneg _).trans b3
    refine ⟨?_, by omega, hAB⟩
    have hmono : ∀ c k : Nat, c ≤ k → (1 + u) ^ c - 1 ≤ (1 + u) ^ k - 1 := fun c k h =>
      sub_le_sub_right (pow_le_pow_right₀ (by linarith) h) 1
    have h1 : |a.sum r x + b.sum r x - (A + B)| ≤ ((1 + u) ^ (a.leaves.length + b.leaves.length - 2) - 1) * (A' + B') := by
      rw [show a.sum r x + b.sum r x - (A + B) = (a.sum r x - A) + (b.sum r x - B) by ring, mul_add]
      refine (abs_add_le _ _).trans (add_le_add (a1.trans ?_) (b1.trans ?_))
      · exact mul_le_mul_of_nonneg_right (hmono _ _ (by omega)) hA'
      · exact mul_le_mul_of_nonneg_right (hmono _ _ (by omega)) hB'
    refine (hr.le hu h1 hAB).trans (le_of_eq ?_)
    rw [show a.leaves.length + b.leaves.length - 1 = (a.leaves.length + b.leaves.length - 2) + 1 by omega, pow_succ]
    ring

theorem SumTree.Covers.err {T : SumTree} {n : Nat} (hT : T.Covers n) {r : ℝ → ℝ} {u : ℝ} (hr : RelErr u r) (hu : 0 ≤ u) (x : Nat → ℝ) :
    |T.sum r x - ∑ t ∈ Finset.range n, x t| ≤ ((1 + u) ^ (n - 1) - 1) * ∑ t ∈ Finset.range n, |x t| := by
  have h := (sumTree_err hr hu x T).1
  rw [(hT.map _).sum_eq, (hT.map (fun t => |x t|)).sum_eq, hT.length_eq, List.length_range, list_range_sum, list_range_sum] at h
  exact h

theorem SumTree.inOrder_covers (n : Nat) : (SumTree.inOrder n).Covers (n + 1) := by
  have : (SumTree.inOrder n).leaves = List.range (n + 1) := by
    induction n with
    | zero => rfl
    | succ n ih => rw [SumTree.inOrder, SumTree.leaves, ih, List.range_succ (n := n + 1)]; rfl
  unfold SumTree.Covers
  rw [this]

/-! ### parts -/

/-- the part `Q` is near `P`, slice by slice -/
structure MNear (E : ℝ) (M : Nat → Nat → ℝ) (P Q : MPart) : Prop where
  N : Q.N = P.N
  d : Q.d = P.d
  m : Q.m = P.m
  irrep : Q.irrep = P.irrep
  col : ∀ c < P.N, ∀ j < P.m, ColNear P.d E (M c j) (fun i => P.data i (c, j)) (fun i => Q.data i (c, j))

section
variable {F : Rounding} {u η : ℝ}

/-- one application of an action to the columns of a slice -/
theorem act_near {ap fap : ViewAct} {m l : Nat} (hap : ActOk ap m l) (hfap : FActOk fap η m l) (hη : 0 ≤ η)
    {p : List Nat} {hp : IsPartition l p} {R : IrrepObj} (h : Repr' hp R) (hmk : mkIrrep R.lambda = some R) (hpm : m ≤ row p 0)
    {cols : List (Nat × Nat)} (hc : cols.Nodup) {k0 : Nat} (hk : k0 + 1 < l) {A B A' : Nat → Nat × Nat → ℝ} {E : Nat × Nat → ℝ}
    {M : Nat × Nat → ℝ} (hn : ∀ k ∈ cols, ColNear R.d (E k) (M k) (fun i => A i k) (fun i => B i k))
    (hA : ap R cols ((k0 : Int) + 1) A = some A') :
    ∃ B', fap R cols ((k0 : Int) + 1) B = some B' ∧
      (∀ k ∈ cols, ColNear R.d (E k * (1 + η)) (M k) (fun i => A' i k) (fun i => B' i k)) ∧
      ∀ k, k ∉ cols → ∀ i, A' i k = A i k ∧ B' i k = B i k := by
  obtain ⟨B', b1, b2, b3⟩ := hfap p hp R h hmk hpm cols hc k0 hk B
  have hA2 := (hap p hp R h hpm cols hc).gen k0 A hk
  obtain rfl : act (h.rep (adj l k0)) cols A = A' := Option.some.inj (hA2.symm.trans hA)
  refine ⟨B', b1, fun k hkc => ?_, fun k hkc i => ⟨Repr'.act_row_ne _ _ _ _ _ hkc, b3 k hkc i⟩⟩
  refine (hn k hkc).step hη (h.act_nrm hk cols A k hkc) (y' := fun i => act (h.rep (adj l k0)) cols B i k) ?_ (b2 k hkc)
  rw [← h.act_nrm hk cols (fun i k => B i k - A i k) k hkc]
  refine nrm_congr fun i hi => ?_
  rw [h.rep_adj hk, h.act_cell (by omega) hk _ hi hkc, h.act_cell (by omega) hk _ hi hkc, h.act_cell (by omega) hk _ hi hkc,
    ecell_sub]

/-- a cycle applied to the columns of a slice -/
theorem cycle_near {ap fap : ViewAct} {m l : Nat} (hap : ActOk ap m l) (hfap : FActOk fap η m l) (hη : 0 ≤ η)
    {p : List Nat} {hp : IsPartition l p} {R : IrrepObj} (h : Repr' hp R) (hmk : mkIrrep R.lambda = some R) (hpm : m ≤ row p 0)
    {cols : List (Nat × Nat)} (hc : cols.Nodup) {a b : Int} (ha1 : 1 ≤ a) (ha2 : a ≤ l) (hb1 : 1 ≤ b) (hb2 : b ≤ l)
    {A B A' : Nat → Nat × Nat → ℝ} {E : Nat × Nat → ℝ}
    {M : Nat × Nat → ℝ} (hn : ∀ k ∈ cols, ColNear R.d (E k) (M k) (fun i => A i k) (fun i => B i k))
    (hA : cycleWith ap R cols a b A = some A') :
    ∃ B', cycleWith fap R cols a b B = some B' ∧
      (∀ k ∈ cols, ColNear R.d (E k * (1 + η) ^ (b - a).natAbs) (M k) (fun i => A' i k) (fun i => B' i k)) ∧
      ∀ k, k ∉ cols → ∀ i, A' i k = A i k ∧ B' i k = B i k := by
  let rel : Nat → (Nat → Nat × Nat → ℝ) → (Nat → Nat × Nat → ℝ) → Prop := fun c A1 B1 =>
    (∀ k ∈ cols, ColNear R.d (E k * (1 + η) ^ c) (M k) (fun i => A1 i k) (fun i => B1 i k)) ∧
      ∀ k, k ∉ cols → ∀ i, A1 i k = A i k ∧ B1 i k = B i k
  have hstep : ∀ (c : Nat) (j : Int) (s t s' : Nat → Nat × Nat → ℝ), 1 ≤ j → j < l → rel c s t → ap R cols j s = some s' →
      ∃ t', fap R cols j t = some t' ∧ rel (c + 1) s' t' := by
    intro c j s t s' hj1 hj2 hr hs
    obtain ⟨k0, rfl⟩ : ∃ k0 : Nat, j = (k0 : Int) + 1 := ⟨(j - 1).toNat, by omega⟩
    obtain ⟨B', b1, b2, b3⟩ := act_near hap hfap hη h hmk hpm hc (by omega) hr.1 hs
    refine ⟨B', b1, fun k hk => ?_, fun k hk i => ?_⟩
    · have := b2 k hk
      rw [pow_succ, ← mul_assoc]
      exact this
    · obtain ⟨e1, e2⟩ := b3 k hk i
      obtain ⟨e3, e4⟩ := hr.2 k hk i
      exact ⟨e1.trans e3, e2.trans e4⟩
  have h0 : rel 0 A B := ⟨fun k hk => by rw [pow_zero, mul_one]; exact hn k hk, fun _ _ _ => ⟨rfl, rfl⟩⟩
  unfold cycleWith at hA ⊢
  by_cases hab : a < b
  · rw [if_pos hab] at hA ⊢
    unfold forDown at hA ⊢
    obtain ⟨B', b1, b2, b3⟩ := iterDown_rel' rel _ 0 (b - 1) A B A' (fun c j s t s' e1 e2 e3 e4 =>
      hstep c j s t s' (by omega) (by omega) e3 e4) h0 hA
    refine ⟨B', b1, ?_, b3⟩
    rw [show 0 + (b - 1 - a + 1).toNat = (b - a).natAbs by omega] at b2
    exact b2
  · rw [if_neg hab] at hA ⊢
    unfold forUp at hA ⊢
    obtain ⟨B', b1, b2, b3⟩ := iterUp_rel' rel _ 0 b A B A' (fun x s t s' e1 e2 e3 =>
      hstep _ _ s t s' (by omega) (by omega) e2 e3) h0 hA
    refine ⟨B', b1, ?_, b3⟩
    rw [show 0 + (a - b).toNat = (b - a).natAbs by omega] at b2
    exact b2

/-- the loop over the slices -/
theorem slices_near {ap fap : ViewAct} {m l : Nat} (hap : ActOk ap m (l + 1)) (hfap : FActOk fap η m (l + 1)) (hη : 0 ≤ η)
    {p : List Nat} {hp : IsPartition (l + 1) p} {R : IrrepObj} (h : Repr' hp R) (hmk : mkIrrep R.lambda = some R) (hpm : m ≤ row p 0)
    {newN mm : Nat} (cyc : Int → Int × Int) (hcyc : ∀ j : Nat, j ≤ l → 1 ≤ (cyc j).1 ∧ (cyc j).1 ≤ l + 1 ∧ 1 ≤ (cyc j).2 ∧ (cyc j).2 ≤ l + 1)
    {A B A' : Nat → Nat × Nat → ℝ} {E : ℝ} (hE : 0 ≤ E) {M : Nat → Nat → ℝ}
    (hn : ∀ c < newN * (l + 1), ∀ j < mm, ColNear R.d E (M c j) (fun i => A i (c, j)) (fun i => B i (c, j)))
    (hA : forUp 0 ((l + 1 : Nat) : Int) A (fun j A => cycleWith ap R (sliceCols newN (l + 1) mm j.toNat) (cyc j).1 (cyc j).2 A) = some A') :
    ∃ B', forUp 0 ((l + 1 : Nat) : Int) B (fun j A => cycleWith fap R (sliceCols newN (l + 1) mm j.toNat) (cyc j).1 (cyc j).2 A) = some B' ∧
      ∀ c < newN * (l + 1), ∀ j < mm, ColNear R.d (E * (1 + η) ^ l) (M c j) (fun i => A' i (c, j)) (fun i => B' i (c, j)) := by
  have h1 : (1 : ℝ) ≤ (1 + η) ^ l := one_le_pow₀ (by linarith)
  let rel : Nat → (Nat → Nat × Nat → ℝ) → (Nat → Nat × Nat → ℝ) → Prop := fun x A1 B1 =>
    ∀ c < newN * (l + 1), ∀ j < mm, ColNear R.d (if c % (l + 1) < x then E * (1 + η) ^ l else E) (M c j) (fun i => A1 i (c, j)) (fun i => B1 i (c, j))
  unfold forUp at hA ⊢
  obtain ⟨B', b1, b2⟩ := iterUp_rel' rel _ 0 0 A B A' (f := fun j A => cycleWith ap R (sliceCols newN (l + 1) mm j.toNat) (cyc j).1 (cyc j).2 A)
    (g := fun j A => cycleWith fap R (sliceCols newN (l + 1) mm j.toNat) (cyc j).1 (cyc j).2 A)
    (by
      intro x s t s' hx hr hs
      simp only [Int.zero_add, Int.toNat_natCast, Nat.zero_add] at hs hr ⊢
      have hxl : x < l + 1 := by omega
      obtain ⟨y1, y2, y3, y4⟩ := hcyc x (by omega)
      obtain ⟨t', e1, e2, e3⟩ := cycle_near hap hfap hη h hmk hpm (sliceCols_nodup (newN := newN) (n := l + 1) (M := mm) (j := x) (by omega))
        (by exact y1) (by push_cast; exact y2) (by exact y3) (by push_cast; exact y4) (E := fun _ => E) (M := fun k => M k.1 k.2) (by
          intro k hk
          obtain ⟨k1, k2, k3⟩ := (mem_sliceCols hxl k.1 k.2).1 hk
          have := hr k.1 k1 k.2 k3
          rw [if_neg (by omega)] at this
          exact this) hs
      refine ⟨t', e1, fun c hcN j hj => ?_⟩
      by_cases hcx : c % (l + 1) = x
      · rw [if_pos (by omega)]
        refine (e2 (c, j) ((mem_sliceCols hxl c j).2 ⟨hcN, hcx, hj⟩)).mono ?_
        refine mul_le_mul_of_nonneg_left (pow_le_pow_right₀ (by linarith) ?_) hE
        omega
      · have hcol := e3 (c, j) (fun hm => hcx ((mem_sliceCols hxl c j).1 hm).2.1)
        have := (hr c hcN j hj).congr (x' := fun i => s' i (c, j)) (y' := fun i => t' i (c, j)) (fun i _ => (hcol i).1) (fun i _ => (hcol i).2)
        by_cases hlt : c % (l + 1) < x
        · rw [if_pos hlt] at this; rw [if_pos (by omega)]; exact this
        · rw [if_neg hlt] at this; rw [if_neg (by omega)]; exact this)
    (by intro c hcN j hj; rw [if_neg (by omega)]; exact hn c hcN j hj) hA
  refine ⟨B', b1, fun c hcN j hj => ?_⟩
  have := b2 c hcN j hj
  rw [if_pos (by have := Nat.mod_lt c (show 0 < l + 1 by omega); omega)] at this
  exact this

theorem twistUp_near {ap fap : ViewAct} {m l : Nat} (hap : ActOk ap m (l + 1)) (hfap : FActOk fap η m (l + 1)) (hη : 0 ≤ η)
    {p : List Nat} {hp : IsPartition (l + 1) p} {P Q P' : MPart} (h : Repr' hp P.irrep) (hmk : mkIrrep P.irrep.lambda = some P.irrep)
    (hpm : m ≤ row p 0) {newN : Nat} {E : ℝ} (hE : 0 ≤ E) {M : Nat → Nat → ℝ} (hn : MNear E M P Q) (hN : P.N = newN * (l + 1))
    (hd : P.d = P.irrep.d) (hP : twistUp ap (l + 1) newN P = some P') :
    ∃ Q', twistUp fap (l + 1) newN Q = some Q' ∧ MNear (E * (1 + η) ^ l) M P' Q' ∧ P'.irrep = P.irrep ∧ P'.N = P.N ∧ P'.d = P.d := by
  unfold twistUp at hP ⊢
  simp only [Option.bind_eq_bind, Option.bind_eq_some_iff] at hP
  obtain ⟨A', e1, e2⟩ := hP
  cases e2
  have hcol := hn.col
  rw [hN, hd] at hcol
  obtain ⟨B', b1, b2⟩ := slices_near hap hfap hη h hmk hpm (fun j => (((l + 1 : Nat) : Int) - j, ((l + 1 : Nat) : Int)))
    (by intro j hj; push_cast; omega) hE hcol e1
  refine ⟨{ Q with data := B' }, ?_, ⟨hn.N, hn.d, hn.m, hn.irrep, ?_⟩, rfl, rfl, rfl⟩
  · rw [hn.irrep, hn.m]
    simp only [Option.bind_eq_bind]
    rw [b1]; rfl
  · simp only
    rw [hN, hd]
    exact b2

theorem reduce_near (hs : RelErr u F.s) (hu : 0 ≤ u) {ord : Nat → SumTree} {l : Nat} (hord : (ord (l + 1)).Covers (l + 1))
    {P Q P' : MPart} (hgn : IP.getn P.irrep.lambda = l + 1) {newN : Nat} {E : ℝ} {M : Nat → Nat → ℝ} (hn : MNear E M P Q)
    (hN : P.N = newN * (l + 1)) (hP : P.reduce = some P') :
    ∃ Q', F.reduce ord Q = some Q' ∧ MNear (E * (1 + u) ^ (l + 1)) (fun c j => ∑ t ∈ Finset.range (l + 1), M (c * (l + 1) + t) j) P' Q' := by
  unfold MPart.reduce at hP
  rw [hgn] at hP
  simp only at hP
  rw [if_neg (by omega)] at hP
  cases hP
  unfold Rounding.reduce
  rw [hn.irrep, hgn]
  simp only
  rw [if_neg (by omega)]
  refine ⟨_, rfl, ⟨by simp only; rw [hn.N], hn.d, hn.m, rfl, fun c hc j hj => ?_⟩⟩
  simp only at hc hj ⊢
  rw [hN, Nat.mul_div_cancel _ (by omega)] at hc
  have hlt : ∀ t ∈ Finset.range (l + 1), c * (l + 1) + t < P.N := fun t ht => by
    have ht' := Finset.mem_range.1 ht
    rw [hN]
    calc c * (l + 1) + t < c * (l + 1) + (l + 1) := by omega
      _ = (c + 1) * (l + 1) := by ring
      _ ≤ newN * (l + 1) := Nat.mul_le_mul_right _ hc
  have hcol := fun t (ht : t ∈ Finset.range (l + 1)) => hn.col _ (hlt t ht) j hj
  have hu1 : (1 : ℝ) ≤ (1 + u) ^ l := one_le_pow₀ (by linarith)
  -- the sum of the rounded slices
  set S := ∑ t ∈ Finset.range (l + 1), M (c * (l + 1) + t) j
  have key : ColNear P.d (E * (1 + u) ^ l) S (fun i => ∑ t ∈ Finset.range (l + 1), P.data i (c * (l + 1) + t, j))
      (fun i => (ord (l + 1)).sum F.s fun t => Q.data i (c * (l + 1) + t, j)) := by
    refine ⟨(nrm_sum P.d (l + 1) fun t i => P.data i (c * (l + 1) + t, j)).trans (Finset.sum_le_sum fun t ht => (hcol t ht).len), ?_⟩
    have h1 := nrm_add P.d
      (fun i => ((ord (l + 1)).sum F.s fun t => Q.data i (c * (l + 1) + t, j)) - ∑ t ∈ Finset.range (l + 1), Q.data i (c * (l + 1) + t, j))
      (fun i => ∑ t ∈ Finset.range (l + 1), (Q.data i (c * (l + 1) + t, j) - P.data i (c * (l + 1) + t, j)))
    have e1 : nrm P.d (fun i => ((ord (l + 1)).sum F.s fun t => Q.data i (c * (l + 1) + t, j)) -
        ∑ t ∈ Finset.range (l + 1), P.data i (c * (l + 1) + t, j)) = _ := nrm_congr (d := P.d) (y := fun i =>
        (((ord (l + 1)).sum F.s fun t => Q.data i (c * (l + 1) + t, j)) - ∑ t ∈ Finset.range (l + 1), Q.data i (c * (l + 1) + t, j)) +
      (∑ t ∈ Finset.range (l + 1), (Q.data i (c * (l + 1) + t, j) - P.data i (c * (l + 1) + t, j)))) fun i _ => by
        simp only [Finset.sum_sub_distrib]; ring
    rw [e1]
    refine h1.trans ?_
    have h2 : nrm P.d (fun i => ((ord (l + 1)).sum F.s fun t => Q.data i (c * (l + 1) + t, j)) -
        ∑ t ∈ Finset.range (l + 1), Q.data i (c * (l + 1) + t, j)) ≤ ((1 + u) ^ l - 1) * (E * S) := by
      have hu2 : (0 : ℝ) ≤ (1 + u) ^ l - 1 := by linarith
      refine (nrm_le_mul (y := fun i => ∑ t ∈ Finset.range (l + 1), |Q.data i (c * (l + 1) + t, j)|) hu2
        fun i _ => ?_).trans ?_
      · refine (hord.err hs hu fun t => Q.data i (c * (l + 1) + t, j)).trans (le_of_eq ?_)
        congr 1
        exact (abs_of_nonneg (Finset.sum_nonneg fun _ _ => abs_nonneg _)).symm
      · refine mul_le_mul_of_nonneg_left ?_ (by linarith)
        refine (nrm_sum P.d (l + 1) fun t i => |Q.data i (c * (l + 1) + t, j)|).trans ?_
        rw [Finset.mul_sum]
        refine Finset.sum_le_sum fun t ht => ?_
        rw [nrm_abs]
        exact (hcol t ht).bound
    have h3 : nrm P.d (fun i => ∑ t ∈ Finset.range (l + 1), (Q.data i (c * (l + 1) + t, j) - P.data i (c * (l + 1) + t, j))) ≤ (E - 1) * S := by
      refine (nrm_sum P.d (l + 1) fun t i => Q.data i (c * (l + 1) + t, j) - P.data i (c * (l + 1) + t, j)).trans ?_
      rw [Finset.mul_sum]
      exact Finset.sum_le_sum fun t ht => (hcol t ht).err
    have h4 : (E * (1 + u) ^ l - 1) * S = ((1 + u) ^ l - 1) * (E * S) + (E - 1) * S := by ring
    linarith
  have := key.round hu (z := fun i => F.s (0 + (ord (l + 1)).sum F.s fun t => Q.data i (c * (l + 1) + t, j)))
    (fun i _ => by rw [zero_add]; exact hs _)
  rw [pow_succ, ← mul_assoc]
  exact this.congr (fun i _ => list_range_sum _ _) (fun i _ => rfl)

/-- the loop over the blocks -/
theorem blockLoop_near (hs : RelErr u F.s) (hu : 0 ≤ u) {m l N : Nat} {G : (q : List Nat) → IsPartition l q → Nat → Wd l q → Wd l q → ℝ}
    {v v' : List MPart} (hv : VecOk m l N G v) {E : ℝ} {M : Nat → ℝ} (hvv : List.Forall₂ (MNear E fun c _ => M c) v v')
    (S : List (List Nat)) (hS : ∀ q ∈ S, IsPartition l q ∧ q ∈ PL m l) (io jo : Nat) (P Q P' : MPart) (hN : P.N = N)
    (hnear : MNear (E * (1 + u)) (fun c _ => M c) P Q) (hz : ∀ i c j, jo ≤ j → P.data i (c, j) = 0 ∧ Q.data i (c, j) = 0)
    (hP : blockLoop v (blocksW m l io jo S) P = some P') :
    ∃ Q', F.blockLoop v' (blocksW m l io jo S) Q = some Q' ∧ MNear (E * (1 + u)) (fun c _ => M c) P' Q' ∧ P'.irrep = P.irrep ∧ P'.N = P.N ∧ P'.d = P.d := by
  induction S generalizing io jo P Q with
  | nil =>
    simp only [blocksW, blockLoop, Option.some.injEq] at hP
    subst hP
    exact ⟨Q, rfl, hnear, rfl, rfl, rfl⟩
  | cons q S ih =>
    obtain ⟨hq, hqm⟩ := hS q (by simp)
    obtain ⟨X, hX, hXh⟩ := hv.at hq hqm
    obtain ⟨Y, hY, hYn⟩ := forall₂_getElem? hvv hX
    simp only [blocksW, blockLoop, Option.bind_eq_bind, Option.bind_eq_some_iff] at hP
    obtain ⟨X', e1, P1, e2, e3⟩ := hP
    obtain rfl : X' = X := Option.some.inj (e1.symm.trans hX)
    unfold MPart.addToBlock at e2
    split at e2
    · rename_i hcond
      cases e2
      obtain ⟨c1, c2, c3⟩ := hcond
      have hcond' : Y.N = Q.N ∧ io + Y.d ≤ Q.d ∧ jo + Y.m ≤ Q.m := by
        rw [hYn.N, hYn.d, hYn.m, hnear.N, hnear.d, hnear.m]
        exact ⟨c1, c2, c3⟩
      have hm' : X'.m = (colW m l q).length := hXh.m_eq
      have hd' : X'.d = dimW l q := hXh.d_eq
      obtain ⟨Q', q1, q2, q3, q4, q5⟩ := ih (fun q' hq' => hS q' (by simp [hq'])) (io + dimW l q) (jo + (colW m l q).length) _
        { Q with data := (fun i k =>
            if io ≤ i ∧ i < io + Y.d ∧ jo ≤ k.2 ∧ k.2 < jo + Y.m then F.s (Q.data i k + Y.data (i - io) (k.1, k.2 - jo))
            else Q.data i k) } (by exact hN) (by
          refine ⟨hnear.N, hnear.d, hnear.m, hnear.irrep, fun c hc j hj => ?_⟩
          simp only at hc hj ⊢
          rw [hYn.d, hYn.m]
          by_cases hj2 : jo ≤ j ∧ j < jo + X'.m
          · have hsub := hYn.col c (by rw [c1]; exact hc) (j - jo) (by omega)
            have hb := hsub.round hu (z := fun i => F.s (Y.data i (c, j - jo))) (fun i _ => hs _)
            refine ⟨?_, ?_⟩
            · rw [nrm_block c2 _ (fun i => X'.data i (c, j - jo))]
              · exact hb.len
              · intro i hi
                rw [if_pos ⟨by omega, by omega, hj2⟩, (hz _ _ _ hj2.1).1, zero_add, Nat.add_sub_cancel_left]
              · intro i _ hi
                rw [if_neg fun hh => hi ⟨hh.1, hh.2.1⟩, (hz _ _ _ hj2.1).1]
            · rw [nrm_block c2 _ (fun i => F.s (Y.data i (c, j - jo)) - X'.data i (c, j - jo))]
              · exact hb.err
              · intro i hi
                rw [if_pos ⟨by omega, by omega, hj2⟩, if_pos ⟨by omega, by omega, hj2⟩, (hz _ _ _ hj2.1).1, (hz _ _ _ hj2.1).2,
                  zero_add, zero_add, Nat.add_sub_cancel_left]
              · intro i _ hi
                rw [if_neg fun hh => hi ⟨hh.1, hh.2.1⟩, if_neg fun hh => hi ⟨hh.1, hh.2.1⟩, (hz _ _ _ hj2.1).1, (hz _ _ _ hj2.1).2, sub_zero]
          · refine (hnear.col c hc j hj).congr (fun i _ => ?_) (fun i _ => ?_)
            · rw [if_neg fun hh => hj2 hh.2.2]
            · rw [if_neg fun hh => hj2 hh.2.2])
        (by
          intro i c j hj
          simp only
          rw [hYn.m, if_neg (by omega), if_neg (by omega)]
          exact hz i c j (by omega)) e3
      refine ⟨Q', ?_, q2, q3, q4, q5⟩
      simp only [blocksW, Rounding.blockLoop, Option.bind_eq_bind]
      rw [hY]
      simp only [Option.bind_some]
      unfold Rounding.addToBlock
      rw [if_pos hcond']
      exact q1
    · cases e2

/-- one level of the forward transform -/
theorem up_near (hs : RelErr u F.s) (hu : 0 ≤ u) {ap fap : ViewAct} {m l newN : Nat} (hm : m ≤ l) (hl : 0 < l) (hap : ActOk ap m (l + 1))
    (hfap : FActOk fap η m (l + 1)) (hη : 0 ≤ η) {ord : Nat → SumTree} (hord : (ord (l + 1)).Covers (l + 1)) {L : LevelT}
    (hL : LevelOk m (l + 1) L) (hB : BlocksOk m l L) {G : (q : List Nat) → IsPartition l q → Nat → Wd l q → Wd l q → ℝ} {v v' w : List MPart}
    (hv : VecOk m l (newN * (l + 1)) G v) {E : ℝ} (hE : 1 ≤ E) {M : Nat → ℝ} (hM : ∀ c, 0 ≤ M c) (hvv : List.Forall₂ (MNear E fun c _ => M c) v v')
    (hw : L.uptransform ap v = some w) :
    ∃ w', F.levelUp fap ord L v' = some w' ∧
      List.Forall₂ (MNear (E * ((1 + η) ^ l * (1 + u) ^ (l + 2))) (fun c _ => ∑ t ∈ Finset.range (l + 1), M (c * (l + 1) + t))) w w' := by
  have hN := vecN_eq hm hl hv
  have hN' : vecN v' = some (newN * (l + 1)) := by
    unfold vecN at hN ⊢
    rw [List.head?_eq_getElem?] at hN ⊢
    obtain ⟨P, hP, e⟩ := Option.map_eq_some_iff.1 hN
    obtain ⟨Q, hQ, hn⟩ := forall₂_getElem? hvv hP
    rw [hQ, Option.map_some, hn.N, e]
  have hdiv : newN * (l + 1) / (l + 1) = newN := Nat.mul_div_cancel _ (by omega)
  unfold LevelT.uptransform at hw
  rw [hN, hL.n_eq] at hw
  simp only [Option.bind_eq_bind, Option.bind_some, Option.bind_eq_some_iff] at hw
  rw [hdiv] at hw
  obtain ⟨w1, e1, e2⟩ := hw
  obtain ⟨w1', f1, f2⟩ := mapM_rel (g := fun p => (F.partUp p v').bind (twistUp fap (l + 1) newN))
    (fun P Q => MNear (E * (1 + u) * (1 + η) ^ l) (fun c _ => M c) P Q ∧ IP.getn P.irrep.lambda = l + 1 ∧ P.N = newN * (l + 1)) L.parts w1 (by
    intro p hpL P2 hP2
    simp only [Option.bind_eq_some_iff] at hP2
    obtain ⟨P1, a1, a2⟩ := hP2
    obtain ⟨i, hip⟩ := List.mem_iff_getElem?.1 hpL
    obtain ⟨hp, hrow⟩ := hL.mem (by omega) hpL
    obtain ⟨-, hmk, hd, hcol⟩ := hL.part i p hip
    obtain ⟨R, hR, hlam, hrep⟩ := exists_repr (by omega) hp
    obtain rfl : p.irrep = R := Option.some.inj (hmk.symm.trans hR)
    unfold PartT.uptransform at a1
    rw [hN] at a1
    simp only [Option.bind_eq_bind, Option.bind_some] at a1
    rw [hB p hpL] at a1
    have hS : ∀ q ∈ subsM m p.irrep.lambda, IsPartition l q ∧ q ∈ PL m l := by
      intro q hq
      obtain ⟨⟨b1, b2⟩, b3⟩ := (mem_subsM hp q).1 hq
      exact ⟨b1, (mem_PL hl q).2 ⟨b1, b3⟩⟩
    obtain ⟨Q1, c1, c2, c3, c4, c5⟩ := blockLoop_near hs hu hv hvv _ hS 0 0 (MPart.zero (newN * (l + 1)) p.irrep p.m)
      (MPart.zero (newN * (l + 1)) p.irrep p.m) P1 rfl
      ⟨rfl, rfl, rfl, rfl, fun c _ j _ => ⟨by simp only [MPart.zero]; rw [nrm_zero]; exact hM c, by
        simp only [MPart.zero, sub_self]; rw [nrm_zero]
        refine mul_nonneg ?_ (hM c)
        nlinarith⟩⟩
      (fun i c j _ => ⟨rfl, rfl⟩) a1
    have c3' : P1.irrep = p.irrep := c3
    obtain ⟨Q2, d1, d2, d3, d4, d5⟩ := twistUp_near hap hfap hη (P := P1) (hp := hp) (by rw [c3']; exact hrep) (by rw [c3']; exact hmk) hrow
      (E := E * (1 + u)) (by nlinarith) c2 (c4.trans rfl) (by rw [c5, c3']; rfl) a2
    refine ⟨Q2, ?_, d2, ?_, ?_⟩
    · unfold Rounding.partUp
      rw [hN']
      simp only [Option.bind_eq_bind, Option.bind_some]
      rw [hB p hpL, c1]
      exact d1
    · rw [d3, c3', getn_eq, hp.sum]
    · rw [d4, c4]; rfl) e1
  obtain ⟨w', g1, g2⟩ := mapM_rel₂ _ (MNear (E * ((1 + η) ^ l * (1 + u) ^ (l + 2))) (fun c _ => ∑ t ∈ Finset.range (l + 1), M (c * (l + 1) + t)))
    (g := F.reduce ord) f2 (by
    rintro P _ Q P' ⟨h1, h2, h3⟩ hP
    obtain ⟨Q', k1, k2⟩ := reduce_near hs hu hord h2 h1 h3 hP
    refine ⟨Q', k1, ?_⟩
    rw [show E * ((1 + η) ^ l * (1 + u) ^ (l + 2)) = E * (1 + u) * (1 + η) ^ l * (1 + u) ^ (l + 1) by ring]
    exact k2) e2
  refine ⟨w', ?_, g2⟩
  unfold Rounding.levelUp
  rw [hN', hL.n_eq]
  simp only [Option.bind_eq_bind, Option.bind_some]
  rw [hdiv, f1]
  exact g1

/-- the lengths at level `l` -/
noncomputable def absF (m : Nat) (f : Nat → ℝ) (l c : Nat) : ℝ := ∑ e ∈ Finset.range (l ! / m !), |f (c * (l ! / m !) + e)|

theorem absF_succ {m l : Nat} (hm : m ≤ l) (f : Nat → ℝ) (c : Nat) :
    ∑ t ∈ Finset.range (l + 1), absF m f l (c * (l + 1) + t) = absF m f (l + 1) c := by
  unfold absF
  rw [quot_succ hm, sum_range_mul']
  refine Finset.sum_congr rfl fun t _ => Finset.sum_congr rfl fun e _ => ?_
  congr 2
  ring

/-- the error factor of the levels `m+1,..,n` -/
noncomputable def upErr (u η : ℝ) (m n : Nat) : ℝ := ∏ l ∈ Finset.Ico m n, (1 + η) ^ l * (1 + u) ^ (l + 2)

theorem upLoop_near (hs : RelErr u F.s) (hu : 0 ≤ u) {ap fap : ViewAct} {m n : Nat} (f : Nat → ℝ) (hm : 0 < m) (Ls : List LevelT) {l : Nat}
    {L : LevelT} (hl : m ≤ l) (hn : n = l + Ls.length) (hap : ∀ k, l < k → k ≤ n → ActOk ap m k)
    (hfap : ∀ k, l < k → k ≤ n → FActOk fap η m k) (hη : 0 ≤ η) {ord : Nat → SumTree} (hord : ∀ k, l < k → k ≤ n → (ord k).Covers k)
    (hC : ChainOk m l (L :: Ls)) {v v' w : List MPart} (hv : VecOk m l (n ! / l !) (tF m f l) v) {E : ℝ} (hE : 1 ≤ E)
    (hvv : List.Forall₂ (MNear E fun c _ => absF m f l c) v v') (hw : upLoop ap Ls v = some w) :
    ∃ w', F.upLoop fap ord Ls v' = some w' ∧ List.Forall₂ (MNear (E * upErr u η l n) fun c _ => absF m f n c) w w' := by
  induction Ls generalizing l L v v' E with
  | nil =>
    obtain rfl : n = l := hn
    cases hw
    refine ⟨v', rfl, ?_⟩
    unfold upErr
    rw [Finset.Ico_self, Finset.prod_empty, mul_one]
    exact hvv
  | cons L' Ls ih =>
    simp only [List.length_cons] at hn
    rcases hC with _ | ⟨hL, hB, hC⟩
    have hL' : LevelOk m (l + 1) L' := by
      cases hC <;> assumption
    rw [quot_pred (n := n) (l := l) (by omega)] at hv
    obtain ⟨v1, h1, h2, h3⟩ := up_step hl (by omega) (hap (l + 1) (by omega) (by omega)) hL' hB hv
      (fun p hp => tFup_block m f l p hp)
    have h3' : VecOk m (l + 1) (n ! / (l + 1)!) (tF m f (l + 1)) v1 := by
      refine ⟨h3.len, fun i p hp hi => ?_⟩
      obtain ⟨P, a1, a2⟩ := h3.part i p hp hi
      refine ⟨P, a1, a2.N_eq, a2.d_eq, a2.m_eq, fun u w hw s hs => ?_⟩
      rw [a2.data u w hw s hs, tF_succ hl]
    obtain ⟨v1', k1, k2⟩ := up_near hs hu hl (by omega) (hap (l + 1) (by omega) (by omega)) (hfap (l + 1) (by omega) (by omega)) hη
      (hord (l + 1) (by omega) (by omega)) hL' hB hv hE (fun c => Finset.sum_nonneg fun _ _ => abs_nonneg _) hvv h1
    rw [upLoop, h1, Option.bind_some] at hw
    have habs : (fun c (_ : Nat) => ∑ t ∈ Finset.range (l + 1), absF m f l (c * (l + 1) + t)) = fun c _ => absF m f (l + 1) c :=
      funext fun c => funext fun _ => absF_succ hl f c
    have k2 : List.Forall₂ (MNear (E * ((1 + η) ^ l * (1 + u) ^ (l + 2))) fun c _ => absF m f (l + 1) c) v1 v1' := habs ▸ k2
    have hpos : (1 : ℝ) ≤ (1 + η) ^ l * (1 + u) ^ (l + 2) :=
      one_le_mul_of_one_le_of_one_le (one_le_pow₀ (by linarith)) (one_le_pow₀ (by linarith))
    obtain ⟨w', j1, j2⟩ := ih (by omega) (by omega) (fun k h h' => hap k (by omega) h') (fun k h h' => hfap k (by omega) h')
      (fun k h h' => hord k (by omega) h') hC h3' (one_le_mul_of_one_le_of_one_le hE hpos) k2 hw
    refine ⟨w', by rw [Rounding.upLoop, k1]; exact j1, ?_⟩
    have : upErr u η l n = (1 + η) ^ l * (1 + u) ^ (l + 2) * upErr u η (l + 1) n := by
      unfold upErr
      exact Finset.prod_eq_prod_Ico_succ_bot (by omega) _
    rw [this, ← mul_assoc]
    exact j2

theorem fft_near (hs : RelErr u F.s) (hu : 0 ≤ u) {ap fap : ViewAct} {m n : Nat} (f : Nat → ℝ) (hm : 0 < m) (hn : m ≤ n)
    (hap : ∀ k, m < k → k ≤ n → ActOk ap m k) (hfap : ∀ k, m < k → k ≤ n → FActOk fap η m k) (hη : 0 ≤ η) {ord : Nat → SumTree}
    (hord : ∀ k, m < k → k ≤ n → (ord k).Covers k) {Ls : List LevelT} (hLs : fftLevels n m = some Ls) {ws : List VPart}
    (hws : fftWith ap Ls (n ! / m !) f = some ws) :
    ∃ ws', F.fftWith fap ord Ls (n ! / m !) f = some ws' ∧
      NearVec ((upErr u η m n - 1) * ∑ e ∈ Finset.range (n ! / m !), |f e|) ws ws' ∧
      ∀ W ∈ ws, ∀ j < W.m, nrm W.d (fun i => W.data i j) ≤ ∑ e ∈ Finset.range (n ! / m !), |f e| := by
  obtain ⟨Ls', h1, h2, h3⟩ := fftLevels_ok hm hn
  obtain rfl : Ls' = Ls := Option.some.inj (h1.symm.trans hLs)
  obtain ⟨P, hP, hv⟩ := start_ok (m := m) (N := n ! / m !) hm f
  obtain ⟨L, Lt, rfl⟩ : ∃ L Lt, Ls' = L :: Lt := by
    rcases Ls' with _ | ⟨L, Lt⟩
    · simp at h2
    · exact ⟨L, Lt, rfl⟩
  simp only [List.length_cons] at h2
  unfold fftWith at hws
  rw [hP] at hws
  simp only [Option.bind_eq_bind, Option.bind_some, List.tail_cons, Option.bind_eq_some_iff] at hws
  obtain ⟨v, e1, e2⟩ := hws
  have hPP : MNear 1 (fun c _ => absF m f m c) P P := by
    refine ⟨rfl, rfl, rfl, rfl, fun c hc j hj => ⟨?_, by simp [nrm_zero]⟩⟩
    unfold MPart.ofFunction at hP
    obtain ⟨R, -, rfl⟩ := Option.map_eq_some_iff.1 hP
    simp only
    unfold absF
    rw [quot_self]
    refine nrm_le_of_sq (by simp) ?_
    simp [abs_mul_abs_self]
  obtain ⟨v', k1, k2⟩ := upLoop_near hs hu f hm Lt (Nat.le_refl m) (by omega) hap hfap hη hord h3 hv (le_refl 1)
    (List.Forall₂.cons hPP .nil) e1
  rw [one_mul] at k2
  obtain ⟨ws', w1, w2⟩ := mapM_rel₂ _ (fun W W' : VPart => (W.irrep = W'.irrep ∧ W.d = W'.d ∧ W.m = W'.m ∧
      ∀ j < W.m, √(∑ i ∈ Finset.range W.d, (W'.data i j - W.data i j) ^ 2) ≤ (upErr u η m n - 1) * ∑ e ∈ Finset.range (n ! / m !), |f e|) ∧
      ∀ j < W.m, nrm W.d (fun i => W.data i j) ≤ ∑ e ∈ Finset.range (n ! / m !), |f e|)
    (g := MPart.toPart) k2 (by
    intro P _ Q W hPQ hW
    unfold MPart.toPart at hW ⊢
    split at hW
    · rename_i hN
      cases hW
      rw [if_pos (hPQ.N.trans hN)]
      refine ⟨_, rfl, ⟨hPQ.irrep.symm, hPQ.d.symm, hPQ.m.symm, fun j hj => ?_⟩, fun j hj => ?_⟩
      swap
      · refine (hPQ.col 0 (by omega) j hj).len.trans (le_of_eq ?_)
        unfold absF
        simp
      have := (hPQ.col 0 (by omega) j hj).err
      unfold nrm at this
      simp only [sq]
      refine this.trans (le_of_eq ?_)
      unfold absF
      simp
    · cases hW) e2
  refine ⟨ws', ?_, ⟨w2.length_eq, fun i W W' hW hW' => ?_⟩, fun W hW => ?_⟩
  · unfold Rounding.fftWith
    rw [hP]
    simp only [Option.bind_eq_bind, Option.bind_some, List.tail_cons]
    rw [k1]
    exact w1
  · obtain ⟨W2, hW2, hr⟩ := forall₂_getElem? w2 hW
    obtain rfl : W2 = W' := Option.some.inj (hW2.symm.trans hW')
    exact hr.1
  · obtain ⟨i, hi⟩ := List.mem_iff_getElem?.1 hW
    obtain ⟨W2, -, hr⟩ := forall₂_getElem? w2 hi
    exact hr.2

theorem upErr_eq (u η : ℝ) (m n : Nat) : upErr u η m n = (1 + η) ^ (∑ l ∈ Finset.Ico m n, l) * (1 + u) ^ (∑ l ∈ Finset.Ico m n, (l + 2)) := by
  unfold upErr
  rw [Finset.prod_mul_distrib, Finset.prod_pow_eq_pow_sum, Finset.prod_pow_eq_pow_sum]

end

end Snob
