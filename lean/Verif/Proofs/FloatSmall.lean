import Verif.Proofs.FloatEval

/-!
# All coefficients of one `n` in floating point

From the values of all characters (`CharTable`) the sums for all triples are computed by the kernel.
-/

namespace Snob

open IP
open scoped Nat

theorem rnd_ge {p : Nat} (hp : 1 ≤ p) {x y : ℝ} (hy : IsFloat p y) (h : y ≤ x) : y ≤ rnd p x := by
  have := (rnd_nearest hp).nearest x y hy
  rw [abs_of_nonpos (sub_nonpos.2 h)] at this
  have := neg_abs_le (rnd p x - x)
  linarith

theorem rnd_le {p : Nat} (hp : 1 ≤ p) {x y : ℝ} (hy : IsFloat p y) (h : x ≤ y) : rnd p x ≤ y := by
  have := (rnd_nearest hp).nearest x y hy
  rw [abs_of_nonneg (sub_nonneg.2 h)] at this
  have := le_abs_self (rnd p x - x)
  linarith

namespace FEv

/-- the values of some characters -/
structure SomeChars (n : Nat) (ms : List Nat) (C : List (List Nat × List Sg)) : Prop where
  chars : ∀ x ∈ C, Rounding.ieee.chars n x.1 = some (x.2.map Sg.val)
  sizes : (partitions n).map (classSize n) = ms.map some
  small : ∀ m ∈ ms, m < 2 ^ 24
  len : ∀ x ∈ C, x.2.length = ms.length

/-- the values of all characters -/
structure CharTable (n : Nat) (ms : List Nat) (C : List (List Nat × List Sg)) : Prop extends SomeChars n ms C where
  keys : C.map Prod.fst = partitions n

/-- the summands -/
def zip4 : List Sg → List Sg → List Sg → List Nat → List (Sg × Sg × Sg × Nat)
  | x :: xs, y :: ys, z :: zs, m :: ms => (x, y, z, m) :: zip4 xs ys zs ms
  | _, _, _, _ => []

theorem zip4_eq : ∀ (xs ys zs : List Sg) (ms : List Nat), xs.length = ms.length → ys.length = ms.length → zs.length = ms.length →
    (zip4 xs ys zs ms).map (fun x => x.1) = xs ∧ (zip4 xs ys zs ms).map (fun x => x.2.1) = ys ∧
    (zip4 xs ys zs ms).map (fun x => x.2.2.1) = zs ∧ (zip4 xs ys zs ms).map (fun x => x.2.2.2) = ms
  | [], [], [], [], _, _, _ => ⟨rfl, rfl, rfl, rfl⟩
  | x :: xs, y :: ys, z :: zs, m :: ms, h1, h2, h3 => by
    obtain ⟨a, b, c, d⟩ := zip4_eq xs ys zs ms (by simpa using h1) (by simpa using h2) (by simpa using h3)
    simp only [zip4, List.map_cons, a, b, c, d, and_self]
  | [], _ :: _, _, [], _, h, _ => by simp at h
  | [], _, _ :: _, [], _, _, h => by simp at h
  | [], _, _, _ :: _, h, _, _ => by simp at h
  | _ :: _, _, _, [], h, _, _ => by simp at h
  | _ :: _, [], _, _ :: _, _, h, _ => by simp at h
  | _ :: _, _ :: _, [], _ :: _, _, _, h => by simp at h

/-- The sum divided by `N` is at most one half above an integer that fits into a `float`, or it is between -1/2 and 0. -/
def okSum (N : Nat) : Option Sg → Bool
  | none => false
  | some y => (Bool.not y.s &&
      (Nat.blt (Nat.mul 2 (Nat.mod (Nat.mul y.m (Nat.pow 2 y.e)) (Nat.mul N (Nat.pow 2 200)))) (Nat.mul N (Nat.pow 2 200)) &&
        Nat.blt (Nat.div (Nat.mul y.m (Nat.pow 2 y.e)) (Nat.mul N (Nat.pow 2 200))) 8388608)) ||
    (y.s && Nat.blt (Nat.mul 2 (Nat.mul y.m (Nat.pow 2 y.e))) (Nat.mul N (Nat.pow 2 200)))

theorem okSum_val {N : Nat} (hN : 1 ≤ N) {o : Option Sg} (h : okSum N o = true) :
    ∃ y, o = some y ∧ ((∃ k : Nat, k < 2 ^ 23 ∧ (k : ℝ) ≤ y.val / N ∧ y.val / N ≤ k + 1 / 2) ∨ (-(1 / 2) ≤ y.val / N ∧ y.val / N ≤ 0)) := by
  rcases o with _ | ⟨s, m, e⟩
  · cases h
  refine ⟨_, rfl, ?_⟩
  have hv : (Sg.mk s m e).val = sgn s * ((m * 2 ^ e : Nat) / 2 ^ 200) := by
    unfold Sg.val val0
    rw [show ((-200 : ℤ)) = -((200 : Nat) : ℤ) by norm_num, zpow_neg, zpow_natCast]
    push_cast
    rw [div_eq_mul_inv, mul_assoc]
  have hNp : (0 : ℝ) < N := by exact_mod_cast hN
  have hP : (0 : ℝ) < 2 ^ 200 := by positivity
  simp only [okSum, Bool.and_eq_true, Bool.or_eq_true] at h
  rcases h with ⟨h1, h2, h3⟩ | ⟨h1, h2⟩
  · left
    have hs : s = false := by simpa using h1
    subst hs
    rw [show sgn false = 1 from rfl, one_mul] at hv
    have h2' : 2 * (m * 2 ^ e % (N * 2 ^ 200)) < N * 2 ^ 200 := Nat.le_of_ble_eq_true h2
    have h3' : m * 2 ^ e / (N * 2 ^ 200) < 8388608 := Nat.le_of_ble_eq_true h3
    refine ⟨m * 2 ^ e / (N * 2 ^ 200), ?_⟩
    rw [hv]
    generalize m * 2 ^ e = M at *
    have hd := Nat.div_add_mod M (N * 2 ^ 200)
    generalize M / (N * 2 ^ 200) = k at *
    generalize M % (N * 2 ^ 200) = r at *
    have hM : (M : ℝ) = N * 2 ^ 200 * k + r := by exact_mod_cast hd.symm
    have hr : 2 * (r : ℝ) < N * 2 ^ 200 := by exact_mod_cast h2'
    have hr0 : (0 : ℝ) ≤ r := by positivity
    refine ⟨by simpa using h3', ?_, ?_⟩
    · rw [le_div_iff₀ hNp, le_div_iff₀ hP, hM]
      generalize (2 : ℝ) ^ 200 = P at *
      nlinarith
    · rw [div_le_iff₀ hNp, div_le_iff₀ hP, hM]
      generalize (2 : ℝ) ^ 200 = P at *
      nlinarith
  · right
    have hs : s = true := h1
    subst hs
    rw [show sgn true = -1 from rfl] at hv
    have h2' : 2 * (m * 2 ^ e) < N * 2 ^ 200 := Nat.le_of_ble_eq_true h2
    rw [hv]
    generalize m * 2 ^ e = M at *
    have hr : 2 * (M : ℝ) < N * 2 ^ 200 := by exact_mod_cast h2'
    have hr0 : (0 : ℝ) ≤ M := by positivity
    have h4 : (M : ℝ) / 2 ^ 200 ≤ N / 2 := by
      rw [div_le_iff₀ hP]
      generalize (2 : ℝ) ^ 200 = P at *
      linarith
    have h5 : 0 ≤ (M : ℝ) / 2 ^ 200 := by positivity
    constructor
    · rw [le_div_iff₀ hNp]; linarith
    · rw [div_le_iff₀ hNp]; linarith

/-- all triples -/
def allOk (N : Nat) (ms : List Nat) (C : List (List Nat × List Sg)) : Bool :=
  C.all fun x => C.all fun y => C.all fun z => okSum N (sumK (zip4 x.2 y.2 z.2 ms) false 0 200)

theorem sumLoop_zip {n : Nat} {ms : List Nat} {C : List (List Nat × List Sg)} (h : SomeChars n ms C) {x y z : List Nat × List Sg} (hx : x ∈ C)
    (hy : y ∈ C) (hz : z ∈ C) {v : Sg} (hv : sumK (zip4 x.2 y.2 z.2 ms) false 0 200 = some v) :
    Rounding.ieee.sumLoop n (partitions n) (x.2.map Sg.val) (y.2.map Sg.val) (z.2.map Sg.val) 0 = some v.val := by
  obtain ⟨e1, e2, e3, e4⟩ := zip4_eq x.2 y.2 z.2 ms (h.len x hx) (h.len y hy) (h.len z hz)
  have e0 : (Sg.mk false 0 200).val = 0 := by simp [Sg.val, val0]
  rcases sumK_eq n (partitions n) (zip4 x.2 y.2 z.2 ms) (by
      rw [h.sizes]
      conv_lhs => rw [← e4, List.map_map]
      rfl) (fun a ha => h.small _ (by rw [← e4]; exact List.mem_map_of_mem ha)) false 0 200 with g | ⟨w, g1, g2⟩
  · rw [hv] at g; cases g
  · rw [hv] at g1
    cases g1
    rw [e0] at g2
    rw [← g2, show (zip4 x.2 y.2 z.2 ms).map (fun x => x.1.val) = x.2.map Sg.val from List.map_map.symm.trans (congrArg (List.map Sg.val) e1),
      show (zip4 x.2 y.2 z.2 ms).map (fun x => x.2.1.val) = y.2.map Sg.val from List.map_map.symm.trans (congrArg (List.map Sg.val) e2),
      show (zip4 x.2 y.2 z.2 ms).map (fun x => x.2.2.1.val) = z.2.map Sg.val from List.map_map.symm.trans (congrArg (List.map Sg.val) e3)]

theorem isFloat_nat {p k : Nat} (hk : k < 2 ^ p) : IsFloat p (k : ℝ) :=
  ⟨k, 0, by rw [abs_of_nonneg (by positivity)]; exact_mod_cast hk, by simp⟩

theorem coeffFloat_eq {n : Nat} {ms : List Nat} {C : List (List Nat × List Sg)} (h : SomeChars n ms C) (hf : IsFloat 24 (n ! : ℝ)) {a b c : List Nat}
    (ha : IsPartition n a) {x y z : List Sg} (hx : (a, x) ∈ C) (hy : (b, y) ∈ C) (hz : (c, z) ∈ C) {v : Sg}
    (hv : sumK (zip4 x y z ms) false 0 200 = some v) : Rounding.ieee.coeffFloat a b c = some (rnd 24 (v.val / n !)) := by
  unfold Rounding.coeffFloat
  rw [show getn a = n by rw [getn_eq, ha.sum]]
  have h1 := h.chars _ hx
  have h2 := h.chars _ hy
  have h3 := h.chars _ hz
  simp only at h1 h2 h3
  simp only [h1, h2, h3, Option.bind_eq_bind, Option.bind_some, sumLoop_zip h hx hy hz hv]
  show some (rnd 24 (_ / rnd 24 _)) = _
  rw [rnd_exact (by norm_num) hf]

theorem CharTable.mem {n : Nat} (hn : 1 ≤ n) {ms : List Nat} {C : List (List Nat × List Sg)} (h : CharTable n ms C) {a : List Nat} (ha : IsPartition n a) :
    ∃ x, (a, x) ∈ C := by
  have := (mem_partitions n (by omega) a).2 ha
  rw [← h.keys, List.mem_map] at this
  obtain ⟨⟨a', x⟩, hx, rfl⟩ := this
  exact ⟨x, hx⟩

/-- the `float` lies between an integer and the middle to the next, or is at most one half below zero -/
theorem coeffFloat_ok {n : Nat} (hf : IsFloat 24 (n ! : ℝ)) {ms : List Nat} {C : List (List Nat × List Sg)} (h : SomeChars n ms C)
    {a b c : List Nat} (ha : IsPartition n a) {x y z : List Sg} (hx : (a, x) ∈ C) (hy : (b, y) ∈ C) (hz : (c, z) ∈ C)
    (hok : okSum (n !) (sumK (zip4 x y z ms) false 0 200) = true) :
    ∃ t, Rounding.ieee.coeffFloat a b c = some t ∧ ((∃ k : Nat, (k : ℝ) ≤ t ∧ t ≤ k + 1 / 2) ∨ (-(1 / 2) ≤ t ∧ t ≤ 0)) := by
  obtain ⟨v, hv, hcase⟩ := okSum_val (Nat.factorial_pos n) hok
  refine ⟨_, coeffFloat_eq h hf ha hx hy hz hv, ?_⟩
  rcases hcase with ⟨k, hk, h1, h2⟩ | ⟨h1, h2⟩
  · refine Or.inl ⟨k, rnd_ge (by norm_num) (isFloat_nat (by omega)) h1, rnd_le (by norm_num) ⟨2 * k + 1, -1, ?_, by push_cast; ring⟩ h2⟩
    rw [abs_of_nonneg (by positivity)]
    have : 2 * k + 1 < 2 ^ 24 := by omega
    exact_mod_cast this
  · exact Or.inr ⟨rnd_ge (by norm_num) ⟨-1, -1, by norm_num, by norm_num⟩ h1, rnd_le (by norm_num) ⟨0, 0, by norm_num, by norm_num⟩ h2⟩

/-- the same for all triples -/
theorem coeffFloat_small {n : Nat} (hn : 1 ≤ n) (hf : IsFloat 24 (n ! : ℝ)) {ms : List Nat} {C : List (List Nat × List Sg)} (h : CharTable n ms C)
    (hok : allOk (n !) ms C = true) {a b c : List Nat} (ha : IsPartition n a) (hb : IsPartition n b) (hc : IsPartition n c) :
    ∃ t, Rounding.ieee.coeffFloat a b c = some t ∧ ((∃ k : Nat, (k : ℝ) ≤ t ∧ t ≤ k + 1 / 2) ∨ (-(1 / 2) ≤ t ∧ t ≤ 0)) := by
  obtain ⟨x, hx⟩ := h.mem hn ha
  obtain ⟨y, hy⟩ := h.mem hn hb
  obtain ⟨z, hz⟩ := h.mem hn hc
  simp only [allOk, List.all_eq_true] at hok
  exact coeffFloat_ok hf h.toSomeChars ha hx hy hz (hok _ hx _ hy _ hz)

/-- so the integer made of it is the nearest one -/
theorem toInt_small {t : ℝ} {K : Nat} (h : (∃ k : Nat, (k : ℝ) ≤ t ∧ t ≤ k + 1 / 2) ∨ (-(1 / 2) ≤ t ∧ t ≤ 0)) (hK : |t - K| ≤ 1 / 5) :
    CGState.toInt t = K := by
  rw [abs_le] at hK
  rcases h with ⟨k, h1, h2⟩ | ⟨h1, h2⟩
  · have e : k = K := by
      have a1 : (k : ℝ) < K + 1 := by linarith
      have a2 : (K : ℝ) < k + 1 := by linarith
      have b1 : k < K + 1 := by exact_mod_cast a1
      have b2 : K < k + 1 := by exact_mod_cast a2
      omega
    subst e
    unfold CGState.toInt
    rw [if_pos ((Nat.cast_nonneg k).trans h1), Int.floor_eq_iff]
    push_cast
    constructor <;> linarith
  · have e : K = 0 := by
      have a2 : (K : ℝ) < 0 + 1 := by linarith
      have b2 : K < 0 + 1 := by exact_mod_cast a2
      omega
    subst e
    unfold CGState.toInt
    split
    · next h0 =>
      rw [Int.floor_eq_iff]; push_cast
      constructor <;> linarith
    · rw [Int.ceil_eq_iff]; push_cast
      constructor <;> linarith

end FEv

end Snob
