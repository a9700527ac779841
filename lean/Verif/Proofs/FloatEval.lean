import Verif.Proofs.FloatCG

/-!
# Evaluation of the rounded functions

The functions `…K` compute with numbers `±m*2^e` on natural numbers `m`, `e` in such a way that the kernel can run them. The theorems
say that what they compute are the values of Model/Float.
-/

namespace Snob

open IP

/-! ### rounding and powers of two -/

theorem rnd_at {p : Nat} {x : ℝ} {e : ℤ} (h1 : (2 : ℝ) ^ ((p : ℤ) - 1) ≤ |x / 2 ^ e|) (h2 : |x / 2 ^ e| < 2 ^ (p : ℤ)) :
    rnd p x = halfEven (x / 2 ^ e) * 2 ^ e := by
  have hpos : (0 : ℝ) < 2 ^ e := by positivity
  have hL : Int.log 2 |x| - ((p : ℤ) - 1) = e := by
    rw [abs_div, abs_of_pos hpos, le_div_iff₀ hpos, ← zpow_add₀ (by norm_num)] at h1
    rw [abs_div, abs_of_pos hpos, div_lt_iff₀ hpos, ← zpow_add₀ (by norm_num)] at h2
    have hx : 0 < |x| := lt_of_lt_of_le (by positivity) h1
    have a1 : (p : ℤ) - 1 + e ≤ Int.log 2 |x| := (Int.zpow_le_iff_le_log (b := 2) (by norm_num) hx).1 (by push_cast; exact h1)
    have a2 : Int.log 2 |x| < (p : ℤ) + e := (Int.lt_zpow_iff_log_lt (b := 2) (by norm_num) hx).1 (by push_cast; exact h2)
    omega
  unfold rnd
  simp only [hL]

theorem rnd_mul_zpow (p : Nat) (x : ℝ) (k : ℤ) : rnd p (x * 2 ^ k) = rnd p x * 2 ^ k := by
  by_cases hx : x = 0
  · subst hx; rw [zero_mul, rnd_zero, zero_mul]
  obtain ⟨h1, h2⟩ := rnd_scale (p := p) hx
  have e : x * 2 ^ k / 2 ^ (Int.log 2 |x| - ((p : ℤ) - 1) + k) = x / 2 ^ (Int.log 2 |x| - ((p : ℤ) - 1)) := by
    rw [zpow_add₀ (by norm_num)]
    have : (2 : ℝ) ^ k ≠ 0 := by positivity
    field_simp
  rw [rnd_at (x := x * 2 ^ k) (e := Int.log 2 |x| - ((p : ℤ) - 1) + k) (by rw [e]; exact h1) (by rw [e]; exact h2), e,
    zpow_add₀ (by norm_num), ← mul_assoc]
  rfl

namespace FEv

noncomputable section

/-- `k m`, but the kernel evaluates `m` first -/
def force {α : Type} (m : Nat) (k : Nat → α) : α := Nat.rec (k 0) (fun n _ => k (Nat.succ n)) m

theorem force_eq {α : Type} (m : Nat) (k : Nat → α) : force m k = k m := by cases m <;> rfl

/-- `m*2^e` rounded to `p` digits -/
def rndK {α : Type} (p m e : Nat) (k : Nat → Nat → α) : α :=
  Nat.rec (k m e) (fun l _ =>
    force (Nat.pow 2 l) fun h => force (Nat.mul 2 h) fun b => force (Nat.div m b) fun q => force (Nat.mod m b) fun r =>
    force (Nat.add e (Nat.succ l)) fun e =>
      Bool.rec (k q e)
        (Bool.rec (k (Nat.succ q) e) (Nat.rec (k q e) (fun _ _ => k (Nat.succ q) e) (Nat.mod q 2)) (Nat.ble r h)) (Nat.ble h r))
    (Nat.sub (Nat.succ (Nat.log2 m)) p)

theorem halfEven_div {q r l : Nat} (hr : r < 2 ^ (l + 1)) :
    halfEven ((q : ℝ) + r / 2 ^ (l + 1)) = if 2 ^ l ≤ r then (if r ≤ 2 ^ l then (if q % 2 = 0 then (q : ℤ) else q + 1) else q + 1) else q := by
  have hb : (0 : ℝ) < 2 ^ (l + 1) := by positivity
  have hr' : (r : ℝ) < 2 ^ (l + 1) := by exact_mod_cast hr
  have h0 : (0 : ℝ) ≤ r / 2 ^ (l + 1) := by positivity
  have h1 : (r : ℝ) / 2 ^ (l + 1) < 1 := by rw [div_lt_one hb]; exact hr'
  have hf : ⌊(q : ℝ) + r / 2 ^ (l + 1)⌋ = (q : ℤ) := by
    rw [Int.floor_eq_iff]
    push_cast
    constructor <;> linarith
  have hfr : Int.fract ((q : ℝ) + r / 2 ^ (l + 1)) = r / 2 ^ (l + 1) := by
    unfold Int.fract
    rw [hf]
    push_cast
    ring
  unfold halfEven
  rw [hfr, hf]
  have c1 : (r : ℝ) / 2 ^ (l + 1) < 1 / 2 ↔ r < 2 ^ l := by
    rw [div_lt_div_iff₀ hb (by norm_num), pow_succ, one_mul]
    rw [mul_lt_mul_iff_left₀ (by norm_num)]
    exact_mod_cast Iff.rfl
  have c2 : 1 / 2 < (r : ℝ) / 2 ^ (l + 1) ↔ 2 ^ l < r := by
    rw [div_lt_div_iff₀ (by norm_num) hb, pow_succ, one_mul]
    rw [mul_lt_mul_iff_left₀ (by norm_num)]
    exact_mod_cast Iff.rfl
  have c3 : Even (q : ℤ) ↔ q % 2 = 0 := by
    rw [Int.even_iff]; omega
  simp only [c1, c2, c3]
  split_ifs <;> first | rfl | omega

theorem rndK_eq {α : Type} {p : Nat} (hp : 1 ≤ p) (m e : Nat) (k : Nat → Nat → α) :
    ∃ m' e' : Nat, rndK p m e k = k m' e' ∧ rnd p ((m : ℝ) * 2 ^ e) = m' * 2 ^ e' := by
  unfold rndK
  rcases hl : Nat.sub (Nat.succ (Nat.log2 m)) p with _ | l
  · refine ⟨m, e, rfl, rnd_exact hp ⟨m, e, ?_, by push_cast; simp⟩⟩
    have hl' : m.log2 + 1 - p = 0 := hl
    have h2 : m < 2 ^ p := lt_of_lt_of_le Nat.lt_log2_self (Nat.pow_le_pow_right (by norm_num) (by omega))
    rw [abs_of_nonneg (by positivity)]
    exact_mod_cast h2
  · have hl' : m.log2 + 1 - p = l + 1 := hl
    have hm0 : m ≠ 0 := by rintro rfl; simp at hl'; omega
    have lo : 2 ^ (l + p) ≤ m := by
      have := Nat.log2_self_le hm0
      rwa [show m.log2 = l + p by omega] at this
    have hi : m < 2 ^ (l + p + 1) := by
      have := @Nat.lt_log2_self m
      rwa [show m.log2 = l + p by omega] at this
    have hb : (0 : ℝ) < 2 ^ (l + 1) := by positivity
    have hr : m % 2 ^ (l + 1) < 2 ^ (l + 1) := Nat.mod_lt _ (by positivity)
    have key : (m : ℝ) * 2 ^ e / 2 ^ (((e + (l + 1) : Nat)) : ℤ) = ((m / 2 ^ (l + 1) : Nat) : ℝ) + ((m % 2 ^ (l + 1) : Nat) : ℝ) / 2 ^ (l + 1) := by
      have h := Nat.div_add_mod m (2 ^ (l + 1))
      have h' : (m : ℝ) = 2 ^ (l + 1) * ((m / 2 ^ (l + 1) : Nat) : ℝ) + ((m % 2 ^ (l + 1) : Nat) : ℝ) := by exact_mod_cast h.symm
      rw [zpow_natCast, pow_add]
      have he : (2 : ℝ) ^ e ≠ 0 := by positivity
      rw [mul_comm, mul_div_mul_left _ _ he]
      conv_lhs => rw [h']
      rw [add_div, mul_div_cancel_left₀ _ hb.ne']
    have key2 : (m : ℝ) * 2 ^ e / 2 ^ (((e + (l + 1) : Nat)) : ℤ) = m / 2 ^ (l + 1) := by
      rw [zpow_natCast, pow_add]
      have he : (2 : ℝ) ^ e ≠ 0 := by positivity
      rw [mul_comm, mul_div_mul_left _ _ he]
    have hR : rnd p ((m : ℝ) * 2 ^ e) = halfEven (((m / 2 ^ (l + 1) : Nat) : ℝ) + ((m % 2 ^ (l + 1) : Nat) : ℝ) / 2 ^ (l + 1)) * 2 ^ (e + (l + 1)) := by
      rw [← key, ← zpow_natCast 2 (e + (l + 1))]
      apply rnd_at
      · rw [key2, abs_of_nonneg (by positivity), le_div_iff₀ hb, show ((p : ℤ) - 1) = ((p - 1 : Nat) : ℤ) by omega, zpow_natCast, ← pow_add]
        rw [show p - 1 + (l + 1) = l + p by omega]
        exact_mod_cast lo
      · rw [key2, abs_of_nonneg (by positivity), div_lt_iff₀ hb, zpow_natCast, ← pow_add, show p + (l + 1) = l + p + 1 by omega]
        exact_mod_cast hi
    rw [hR, halfEven_div hr]
    simp only [force_eq]
    have e2 : Nat.mul 2 (Nat.pow 2 l) = 2 ^ (l + 1) := by show 2 * 2 ^ l = _; rw [pow_succ, mul_comm]
    rw [e2]
    show ∃ m' e' : Nat, (Bool.rec (k (m / 2 ^ (l + 1)) (e + (l + 1))) (Bool.rec (k (m / 2 ^ (l + 1) + 1) (e + (l + 1)))
      (Nat.rec (k (m / 2 ^ (l + 1)) (e + (l + 1))) (fun _ _ => k (m / 2 ^ (l + 1) + 1) (e + (l + 1))) (m / 2 ^ (l + 1) % 2))
      (Nat.ble (m % 2 ^ (l + 1)) (2 ^ l))) (Nat.ble (2 ^ l) (m % 2 ^ (l + 1))) : α) = k m' e' ∧ _
    by_cases a1 : 2 ^ l ≤ m % 2 ^ (l + 1)
    · rw [if_pos a1, show Nat.ble (2 ^ l) (m % 2 ^ (l + 1)) = true from Nat.ble_eq_true_of_le a1]
      by_cases a2 : m % 2 ^ (l + 1) ≤ 2 ^ l
      · rw [if_pos a2, show Nat.ble (m % 2 ^ (l + 1)) (2 ^ l) = true from Nat.ble_eq_true_of_le a2]
        by_cases a3 : m / 2 ^ (l + 1) % 2 = 0
        · rw [if_pos a3, a3]
          exact ⟨_, _, rfl, by push_cast; rfl⟩
        · rw [if_neg a3, show m / 2 ^ (l + 1) % 2 = 1 by omega]
          exact ⟨_, _, rfl, by push_cast; rfl⟩
      · rw [if_neg a2, show Nat.ble (m % 2 ^ (l + 1)) (2 ^ l) = false from by rw [Bool.eq_false_iff]; simpa using a2]
        exact ⟨_, _, rfl, by push_cast; rfl⟩
    · rw [if_neg a1, show Nat.ble (2 ^ l) (m % 2 ^ (l + 1)) = false from by rw [Bool.eq_false_iff]; simpa using a1]
      exact ⟨_, _, rfl, by push_cast; rfl⟩

/-! ### signed numbers -/

/-- the sign -/
def sgn (s : Bool) : ℝ := if s then -1 else 1

theorem sgn_xor (s t : Bool) : sgn (Bool.xor s t) = sgn s * sgn t := by cases s <;> cases t <;> norm_num [sgn]

theorem rnd_sgn (p : Nat) (s : Bool) (x : ℝ) : rnd p (sgn s * x) = sgn s * rnd p x := by
  cases s
  · simp [sgn]
  · simp only [sgn, if_true, neg_one_mul]; exact rnd_odd p x

/-- the sum of two numbers with the same exponent -/
def add0K {α : Type} (s : Bool) (a : Nat) (t : Bool) (b : Nat) (k : Bool → Nat → α) : α :=
  Bool.rec (force (Nat.add a b) (k s))
   (Bool.rec (force (Nat.sub b a) (k t)) (force (Nat.sub a b) (k s)) (Nat.ble b a)) (Bool.xor s t)

theorem add0K_eq {α : Type} (s : Bool) (a : Nat) (t : Bool) (b : Nat) (k : Bool → Nat → α) :
    ∃ r c, add0K s a t b k = k r c ∧ sgn r * (c : ℝ) = sgn s * a + sgn t * b := by
  unfold add0K
  simp only [force_eq]
  cases hst : Bool.xor s t
  · refine ⟨s, a + b, rfl, ?_⟩
    have : s = t := by simpa using hst
    subst this
    push_cast; ring
  · have hs : sgn t = -sgn s := by
      revert hst; cases s <;> cases t <;> simp [sgn]
    by_cases h : b ≤ a
    · rw [show Nat.ble b a = true from Nat.ble_eq_true_of_le h]
      refine ⟨s, a - b, rfl, ?_⟩
      rw [Nat.cast_sub h, hs]; ring
    · rw [show Nat.ble b a = false from by rw [Bool.eq_false_iff]; simpa using h]
      refine ⟨t, b - a, rfl, ?_⟩
      rw [Nat.cast_sub (by omega), hs]; ring

/-- the sum of `±a*2^e` and `±b*2^f` -/
def addK {α : Type} (s : Bool) (a e : Nat) (t : Bool) (b f : Nat) (k : Bool → Nat → Nat → α) : α :=
  Nat.rec (k t b f) (fun _ _ =>
    Nat.rec (k s a e) (fun _ _ =>
      Bool.rec (force (Nat.mul a (Nat.pow 2 (Nat.sub e f))) fun a => add0K s a t b fun s m => k s m f)
        (force (Nat.mul b (Nat.pow 2 (Nat.sub f e))) fun b => add0K s a t b fun s m => k s m e) (Nat.ble e f)) b) a

theorem addK_eq {α : Type} (s : Bool) (a e : Nat) (t : Bool) (b f : Nat) (k : Bool → Nat → Nat → α) :
    ∃ r c g, addK s a e t b f k = k r c g ∧ sgn r * ((c : ℝ) * 2 ^ g) = sgn s * (a * 2 ^ e) + sgn t * (b * 2 ^ f) := by
  unfold addK
  cases a with
  | zero => exact ⟨t, b, f, rfl, by simp⟩
  | succ a' =>
    cases b with
    | zero => exact ⟨s, a' + 1, e, rfl, by simp⟩
    | succ b' =>
      simp only [force_eq]
      by_cases h : e ≤ f
      · rw [show Nat.ble e f = true from Nat.ble_eq_true_of_le h]
        obtain ⟨r, c, h1, h2⟩ := add0K_eq s (a' + 1) t ((b' + 1) * 2 ^ (f - e)) fun s m => k s m e
        refine ⟨r, c, e, h1, ?_⟩
        rw [← mul_assoc, h2]
        have : (2 : ℝ) ^ f = 2 ^ (f - e) * 2 ^ e := by rw [← pow_add]; congr 1; omega
        rw [this]
        push_cast; ring
      · rw [show Nat.ble e f = false from by rw [Bool.eq_false_iff]; simpa using h]
        obtain ⟨r, c, h1, h2⟩ := add0K_eq s ((a' + 1) * 2 ^ (e - f)) t (b' + 1) fun s m => k s m f
        refine ⟨r, c, f, h1, ?_⟩
        rw [← mul_assoc, h2]
        have : (2 : ℝ) ^ e = 2 ^ (e - f) * 2 ^ f := by rw [← pow_add]; congr 1; omega
        rw [this]
        push_cast; ring

/-- division by `2^c` -/
def subK {α : Type} (c m e : Nat) (k : Nat → Nat → α) (z : α) : α :=
  Nat.rec (k m 200) (fun _ _ => Bool.rec z (force (Nat.sub e c) fun e => force m fun m => k m e) (Nat.ble c e)) m

theorem subK_eq {α : Type} (c m e : Nat) (k : Nat → Nat → α) (z : α) :
    subK c m e k z = z ∨ ∃ m' e' : Nat, subK c m e k z = k m' e' ∧ (m' : ℝ) * 2 ^ e' * 2 ^ c = m * 2 ^ e := by
  unfold subK
  simp only [force_eq]
  cases m with
  | zero => exact Or.inr ⟨0, 200, rfl, by simp⟩
  | succ m =>
    by_cases h : c ≤ e
    · rw [show Nat.ble c e = true from Nat.ble_eq_true_of_le h]
      refine Or.inr ⟨m + 1, e - c, rfl, ?_⟩
      rw [mul_assoc, ← pow_add]; congr 2; omega
    · rw [show Nat.ble c e = false from by rw [Bool.eq_false_iff]; simpa using h]
      exact Or.inl rfl

end

/-- the number `±m*2^(e-200)` -/
structure Sg where
  s : Bool
  m : Nat
  e : Nat

/-- a row of the table: its sign, or its partner and the coefficients times `2^55` -/
inductive Row where
  | one (s : Bool)
  | two (j : Nat) (s : Bool) (c1 c2 : Nat)
deriving DecidableEq

noncomputable section

/-- the value without the factor `2^(-200)` -/
def val0 (s : Bool) (m e : Nat) : ℝ := sgn s * ((m : ℝ) * 2 ^ e)

def Sg.val (x : Sg) : ℝ := val0 x.s x.m x.e * 2 ^ (-200 : ℤ)

/-- the element at a place -/
def nth {α : Type} (v : List Sg) (i : Nat) (k : Bool → Nat → Nat → α) (e : α) : α :=
  List.rec (motive := fun _ => Nat → α) (fun _ => e) (fun x _ f i => Nat.rec (k x.1 x.2 x.3) (fun i _ => f i) i) v i

theorem nth_eq {α : Type} (v : List Sg) (i : Nat) (k : Bool → Nat → Nat → α) (e : α) :
    nth v i k e = match v[i]? with | none => e | some x => k x.s x.m x.e := by
  induction v generalizing i with
  | nil => rfl
  | cons x v ih =>
    cases i with
    | zero => rfl
    | succ i => exact ih i

/-- the new value of a cell -/
def cellK {α : Type} (v : List Sg) (i : Nat) (r : Row) (k : Bool → Nat → Nat → α) (z : α) : α :=
  nth v i (fun sx x e =>
    Row.rec (fun s => rndK 53 x e fun x e => rndK 24 x e fun x e => k (Bool.xor s sx) x e)
      (fun j s c1 c2 => nth v j (fun sy y f =>
        rndK 53 (Nat.mul c1 x) e fun m1 e1 => rndK 53 (Nat.mul c2 y) f fun m2 e2 =>
          addK (Bool.xor s sx) m1 e1 sy m2 e2 fun s m e => rndK 53 m e fun m e => rndK 24 m e fun m e =>
            subK 55 m e (k s) z) z) r) z

/-- the values of a column -/
def vals (v : List Sg) (i : Nat) : ℝ := ((v[i]?).map Sg.val).getD 0

/-- a row of the tables is right -/
def Row.Ok (q : Nat → Nat) (a b : Nat → ℝ) (i : Nat) : Row → Prop
  | .one s => q i = i ∧ a i = sgn s
  | .two j s c1 c2 => q i = j ∧ j ≠ i ∧ a i = sgn s * (c1 * 2 ^ (-55 : ℤ)) ∧ b i = c2 * 2 ^ (-55 : ℤ)

theorem cellK_eq {α : Type} (v : List Sg) {q : Nat → Nat} {a b : Nat → ℝ} {i : Nat} {r : Row} (h : r.Ok q a b i)
    (k : Bool → Nat → Nat → α) (z : α) :
    cellK v i r k z = z ∨ ∃ s m e, cellK v i r k z = k s m e ∧ (Sg.mk s m e).val = Rounding.ieee.cell q a b (vals v) i := by
  unfold cellK
  rw [nth_eq]
  rcases hv : v[i]? with _ | x
  · exact Or.inl rfl
  obtain ⟨sx, x, e⟩ := x
  have hx : vals v i = val0 sx x e * 2 ^ (-200 : ℤ) := by unfold vals; rw [hv]; rfl
  simp only
  cases r with
  | one s =>
    obtain ⟨h1, h2⟩ := h
    simp only
    obtain ⟨m1, e1, g1, g2⟩ := rndK_eq (p := 53) (by norm_num) x e fun x e => rndK 24 x e fun x e => k (Bool.xor s sx) x e
    obtain ⟨m2, e2, g3, g4⟩ := rndK_eq (p := 24) (by norm_num) m1 e1 fun x e => k (Bool.xor s sx) x e
    refine Or.inr ⟨Bool.xor s sx, m2, e2, g1.trans g3, ?_⟩
    unfold Rounding.cell
    rw [if_pos h1, h2, hx]
    show sgn _ * ((m2 : ℝ) * 2 ^ e2) * _ = rnd 24 (rnd 53 _)
    unfold val0
    rw [← mul_assoc (sgn s), ← mul_assoc (sgn s), ← sgn_xor, rnd_mul_zpow, rnd_sgn, g2, rnd_mul_zpow, rnd_sgn, g4]
  | two j s c1 c2 =>
    obtain ⟨h1, h2, h3, h4⟩ := h
    simp only
    rw [nth_eq]
    rcases hw : v[j]? with _ | y
    · exact Or.inl rfl
    obtain ⟨sy, y, f⟩ := y
    have hy : vals v j = val0 sy y f * 2 ^ (-200 : ℤ) := by unfold vals; rw [hw]; rfl
    simp only
    obtain ⟨m1, e1, g1, r1⟩ := rndK_eq (p := 53) (by norm_num) (Nat.mul c1 x) e fun m1 e1 => rndK 53 (Nat.mul c2 y) f fun m2 e2 =>
          addK (Bool.xor s sx) m1 e1 sy m2 e2 fun s m e => rndK 53 m e fun m e => rndK 24 m e fun m e => subK 55 m e (k s) z
    obtain ⟨m2, e2, g2, r2⟩ := rndK_eq (p := 53) (by norm_num) (Nat.mul c2 y) f fun m2 e2 =>
          addK (Bool.xor s sx) m1 e1 sy m2 e2 fun s m e => rndK 53 m e fun m e => rndK 24 m e fun m e => subK 55 m e (k s) z
    obtain ⟨s3, m3, e3, g3, r3⟩ := addK_eq (Bool.xor s sx) m1 e1 sy m2 e2 fun s m e => rndK 53 m e fun m e => rndK 24 m e fun m e => subK 55 m e (k s) z
    obtain ⟨m4, e4, g4, r4⟩ := rndK_eq (p := 53) (by norm_num) m3 e3 fun m e => rndK 24 m e fun m e => subK 55 m e (k s3) z
    obtain ⟨m5, e5, g5, r5⟩ := rndK_eq (p := 24) (by norm_num) m4 e4 fun m e => subK 55 m e (k s3) z
    rw [g1, g2, g3, g4, g5]
    rcases subK_eq 55 m5 e5 (k s3) z with g6 | ⟨m6, e6, g6, r6⟩
    · exact Or.inl g6
    refine Or.inr ⟨s3, m6, e6, g6, ?_⟩
    unfold Rounding.cell
    rw [h1, if_neg h2, h3, h4, hx, hy]
    show sgn _ * ((m6 : ℝ) * 2 ^ e6) * _ = rnd 24 (rnd 53 (rnd 53 _ + rnd 53 _))
    unfold val0
    have p1 : sgn s * ((c1 : ℝ) * 2 ^ (-55 : ℤ)) * (sgn sx * (x * 2 ^ e) * 2 ^ (-200 : ℤ)) =
        sgn (Bool.xor s sx) * (((Nat.mul c1 x : Nat) : ℝ) * 2 ^ e) * 2 ^ (-255 : ℤ) := by
      rw [sgn_xor, show ((-255 : ℤ)) = -55 + -200 by norm_num, zpow_add₀ (by norm_num)]
      show _ = _ * _ * (((c1 * x : Nat) : ℝ) * _) * _
      push_cast; ring
    have p2 : (c2 : ℝ) * 2 ^ (-55 : ℤ) * (sgn sy * (y * 2 ^ f) * 2 ^ (-200 : ℤ)) =
        sgn sy * (((Nat.mul c2 y : Nat) : ℝ) * 2 ^ f) * 2 ^ (-255 : ℤ) := by
      rw [show ((-255 : ℤ)) = -55 + -200 by norm_num, zpow_add₀ (by norm_num)]
      show _ = _ * (((c2 * y : Nat) : ℝ) * _) * _
      push_cast; ring
    rw [p1, p2, rnd_mul_zpow, rnd_mul_zpow, rnd_sgn, rnd_sgn, r1, r2, ← add_mul, ← r3, rnd_mul_zpow, rnd_sgn, r4, rnd_mul_zpow, rnd_sgn, r5,
      ← r6, show ((-255 : ℤ)) = -55 + -200 by norm_num, zpow_add₀ (by norm_num)]
    have : (2 : ℝ) ^ 55 * 2 ^ (-55 : ℤ) = 1 := by norm_num
    linear_combination (-(sgn s3 * (m6 * 2 ^ e6)) * 2 ^ (-200 : ℤ)) * this

/-- one step on a column -/
def stepK (v : List Sg) : List Row → Nat → (List Sg → Option (List Sg)) → Option (List Sg)
  | [], _, k => k []
  | r :: rs, i, k => stepK v rs (Nat.succ i) fun l => cellK v i r (fun s m e => Bool.rec (k (⟨false, m, e⟩ :: l)) (k (⟨true, m, e⟩ :: l)) s) none

theorem stepK_eq (v : List Sg) {q : Nat → Nat} {a b : Nat → ℝ} (rs : List Row) (i : Nat)
    (h : ∀ j (hj : j < rs.length), rs[j].Ok q a b (i + j)) (k : List Sg → Option (List Sg)) :
    stepK v rs i k = none ∨ ∃ l, stepK v rs i k = k l ∧ l.length = rs.length ∧
      ∀ j, j < rs.length → vals l j = Rounding.ieee.cell q a b (vals v) (i + j) := by
  induction rs generalizing i k with
  | nil => exact Or.inr ⟨[], rfl, rfl, fun j hj => by simp at hj⟩
  | cons r rs ih =>
    rw [stepK]
    rcases ih (i + 1) (fun j hj => by have := h (j + 1) (by simp; omega); rw [show i + 1 + j = i + (j + 1) by omega]; simpa using this)
      (fun l => cellK v i r (fun s m e => Bool.rec (k (⟨false, m, e⟩ :: l)) (k (⟨true, m, e⟩ :: l)) s) none) with h0 | ⟨l, h1, h2, h3⟩
    · exact Or.inl h0
    · rcases cellK_eq v (h 0 (by simp)) (fun s m e => Bool.rec (k (⟨false, m, e⟩ :: l)) (k (⟨true, m, e⟩ :: l)) s) (none : Option (List Sg))
        with h4 | ⟨s, m, e, h4, h5⟩
      · exact Or.inl (h1.trans h4)
      · refine Or.inr ⟨⟨s, m, e⟩ :: l, ?_, by simp [h2], ?_⟩
        · refine h1.trans (h4.trans ?_)
          cases s <;> rfl
        · intro j hj
          cases j with
          | zero => exact h5
          | succ j =>
            have := h3 j (by simpa using hj)
            rw [show i + (j + 1) = i + 1 + j by omega, ← this]
            rfl

/-- the steps of a word -/
def runK : List (List Row) → List Sg → Option (List Sg)
  | [], v => some v
  | rows :: w, v => match stepK v rows 0 some with
    | none => none
    | some v => runK w v

/-- the sum of the diagonal -/
def traceK (w : List (List Row)) : List (Nat × List Sg) → Bool → Nat → Nat → Option Sg
  | [], s, t, f => some ⟨s, t, f⟩
  | (j, v) :: js, s, t, f => match runK w v with
    | none => none
    | some v => nth v j (fun sx x e => addK s t f sx x e fun s m e => rndK 24 m e fun m e => traceK w js s m e) none

/-- the columns of the identity -/
def unitCols (d : Nat) : List (Nat × List Sg) :=
  (List.range d).map fun j => (j, (List.range d).map fun i => ⟨false, if i = j then 1 else 0, 200⟩)

/-- the same number -/
def eqK : Option Sg → Sg → Bool
  | none, _ => false
  | some y, x => (Nat.beq (Nat.mul y.m (Nat.pow 2 y.e)) (Nat.mul x.m (Nat.pow 2 x.e))) && ((y.s == x.s) || Nat.beq x.m 0)

/-- a list of traces -/
def checkK (U : List (Nat × List Sg)) : List (List (List Row) × Sg) → Bool
  | [] => true
  | (w, x) :: l => eqK (traceK w U false 0 200) x && checkK U l

theorem eqK_val {o : Option Sg} {x : Sg} (h : eqK o x = true) : ∃ y, o = some y ∧ y.val = x.val := by
  rcases o with _ | y
  · cases h
  · refine ⟨y, rfl, ?_⟩
    unfold eqK at h
    rw [Bool.and_eq_true, Bool.or_eq_true] at h
    obtain ⟨h1, h2⟩ := h
    have h1' : y.m * 2 ^ y.e = x.m * 2 ^ x.e := Nat.eq_of_beq_eq_true h1
    have h1'' : (y.m : ℝ) * 2 ^ y.e = x.m * 2 ^ x.e := by exact_mod_cast h1'
    unfold Sg.val val0
    rcases h2 with h2 | h2
    · rw [h1'', show y.s = x.s by simpa using h2]
    · have h0 : x.m = 0 := Nat.eq_of_beq_eq_true h2
      rw [h1'', h0]; simp

/-! ### the tables -/

/-- the rounded coefficients times `2^55` for an axial distance -/
def coefK : Int → Option (Bool × Nat × Nat)
  | 2 => some (false, 18014398509481984, 31201853486215848)
  | -2 => some (true, 18014398509481984, 31201853486215848)
  | 3 => some (false, 12009599006321322, 33968275586804120)
  | -3 => some (true, 12009599006321322, 33968275586804120)
  | 4 => some (false, 9007199254740992, 34884732709583720)
  | -4 => some (true, 9007199254740992, 34884732709583720)
  | 5 => some (false, 7205759403792794, 35300867497107752)
  | -5 => some (true, 7205759403792794, 35300867497107752)
  | 6 => some (false, 6004799503160661, 35524872942215408)
  | -6 => some (true, 6004799503160661, 35524872942215408)
  | _ => none

/-- the row of a tableau -/
def rowOf (ts : List Tab) (tau : Nat) (T : Tab) : Option Row :=
  match Tab.applyTransp T tau (tau + 1) with
  | none => none
  | some (T', delta) =>
    if delta = 1 then some (.one false)
    else if delta = -1 then some (.one true)
    else match coefK delta with
      | none => none
      | some (s, c1, c2) => some (.two (tabIndex ts T').toNat s c1 c2)

theorem rnd_sqrt {p : Nat} {x : ℝ} {e m : ℤ} (hm : 1 ≤ m) (hx : 0 ≤ x) (h1 : ((m : ℝ) - 1 / 2) ^ 2 * 2 ^ (2 * e) < x)
    (h2 : x < ((m : ℝ) + 1 / 2) ^ 2 * 2 ^ (2 * e)) (h3 : (2 : ℝ) ^ (2 * ((p : ℤ) - 1 + e)) ≤ x) (h4 : x < (2 : ℝ) ^ (2 * ((p : ℤ) + e))) :
    rnd p √x = m * 2 ^ e := by
  have hm' : (1 : ℝ) ≤ m := by exact_mod_cast hm
  have hpos : (0 : ℝ) < 2 ^ e := by positivity
  have sq : ∀ k : ℤ, (2 : ℝ) ^ (2 * k) = 2 ^ k * 2 ^ k := fun k => by rw [two_mul, zpow_add₀ (by norm_num)]
  have a1 : ((m : ℝ) - 1 / 2) * 2 ^ e < √x := by
    apply Real.lt_sqrt_of_sq_lt
    rw [sq] at h1; nlinarith
  have a2 : √x < ((m : ℝ) + 1 / 2) * 2 ^ e := by
    rw [Real.sqrt_lt' (by positivity)]
    rw [sq] at h2; nlinarith
  have a3 : (2 : ℝ) ^ ((p : ℤ) - 1 + e) ≤ √x := by
    apply Real.le_sqrt_of_sq_le
    rw [sq] at h3; nlinarith
  have a4 : √x < (2 : ℝ) ^ ((p : ℤ) + e) := by
    rw [Real.sqrt_lt' (by positivity)]
    rw [sq] at h4; nlinarith
  have h0 : 0 ≤ √x := Real.sqrt_nonneg x
  apply rnd_of_near
  · rw [abs_lt]
    constructor
    · rw [neg_lt_sub_iff_lt_add, ← sub_lt_iff_lt_add', lt_div_iff₀ hpos]; linarith
    · rw [sub_lt_iff_lt_add', div_lt_iff₀ hpos]; linarith
  · rw [abs_of_nonneg (by positivity), le_div_iff₀ hpos, ← zpow_add₀ (by norm_num)]; exact a3
  · rw [abs_of_nonneg (by positivity), div_lt_iff₀ hpos, ← zpow_add₀ (by norm_num)]; exact a4

/-- the coefficients of the table for a distance -/
def CoefOk (δ : ℝ) (s : Bool) (c1 c2 : Nat) : Prop :=
  rnd 53 (1 / δ) = sgn s * (c1 * 2 ^ (-55 : ℤ)) ∧ rnd 53 √(rnd 53 (1 - rnd 53 (1 / δ * (1 / δ)))) = c2 * 2 ^ (-55 : ℤ)

theorem CoefOk.neg {δ : ℝ} {c1 c2 : Nat} (h : CoefOk δ false c1 c2) : CoefOk (-δ) true c1 c2 := by
  obtain ⟨h1, h2⟩ := h
  constructor
  · rw [one_div_neg_eq_neg_one_div, rnd_odd, h1]; simp [sgn]
  · rw [one_div_neg_eq_neg_one_div, neg_mul_neg]; exact h2

theorem coef2 : CoefOk 2 false 18014398509481984 31201853486215848 := by
  have e1 : rnd 53 (1 / 2) = 1 / 2 := rnd_exact (by norm_num) ⟨1, -1, by norm_num, by norm_num⟩
  have e2 : rnd 53 (1 / 2 * (1 / 2)) = 1 / 4 := by
    rw [rnd_exact (by norm_num) ⟨1, -2, by norm_num, by norm_num⟩]; norm_num
  have e3 : rnd 53 (1 - 1 / 4) = 3 / 4 := by
    rw [rnd_exact (by norm_num) ⟨3, -2, by norm_num, by norm_num⟩]; norm_num
  refine ⟨by rw [e1]; norm_num [sgn], ?_⟩
  rw [e2, e3, rnd_sqrt (e := -53) (m := 7800463371553962) (by norm_num) (by norm_num) (by norm_num) (by norm_num) (by norm_num) (by norm_num)]
  norm_num

theorem coef4 : CoefOk 4 false 9007199254740992 34884732709583720 := by
  have e1 : rnd 53 (1 / 4) = 1 / 4 := rnd_exact (by norm_num) ⟨1, -2, by norm_num, by norm_num⟩
  have e2 : rnd 53 (1 / 4 * (1 / 4)) = 1 / 16 := by
    rw [rnd_exact (by norm_num) ⟨1, -4, by norm_num, by norm_num⟩]; norm_num
  have e3 : rnd 53 (1 - 1 / 16) = 15 / 16 := by
    rw [rnd_exact (by norm_num) ⟨15, -4, by norm_num, by norm_num⟩]; norm_num
  refine ⟨by rw [e1]; norm_num [sgn], ?_⟩
  rw [e2, e3, rnd_sqrt (e := -53) (m := 8721183177395930) (by norm_num) (by norm_num) (by norm_num) (by norm_num) (by norm_num) (by norm_num)]
  norm_num

theorem coef3 : CoefOk 3 false 12009599006321322 33968275586804120 := by
  have e1 : rnd 53 (1 / 3) = (6004799503160661 : ℤ) * 2 ^ (-54 : ℤ) :=
    rnd_of_near (by norm_num) (by norm_num) (by norm_num)
  have e2 : rnd 53 (1 / 3 * (1 / 3)) = (8006399337547548 : ℤ) * 2 ^ (-56 : ℤ) :=
    rnd_of_near (by norm_num) (by norm_num) (by norm_num)
  have e3 : rnd 53 (1 - (8006399337547548 : ℤ) * 2 ^ (-56 : ℤ)) = (8006399337547548 : ℤ) * 2 ^ (-53 : ℤ) := by
    have ht : (1 - ((8006399337547548 : ℤ) : ℝ) * 2 ^ (-56 : ℤ)) / 2 ^ (-53 : ℤ) = ((8006399337547548 : Nat) : ℝ) + ((4 : Nat) : ℝ) / 2 ^ (2 + 1) := by
      norm_num
    rw [rnd_at (e := -53) (by norm_num) (by norm_num), ht, halfEven_div (by norm_num)]
    norm_num
  refine ⟨by rw [e1]; norm_num [sgn], ?_⟩
  rw [e2, e3, rnd_sqrt (e := -53) (m := 8492068896701030) (by norm_num) (by norm_num) (by norm_num) (by norm_num) (by norm_num) (by norm_num)]
  norm_num

theorem coef5 : CoefOk 5 false 7205759403792794 35300867497107752 := by
  have e1 : rnd 53 (1 / 5) = (7205759403792794 : ℤ) * 2 ^ (-55 : ℤ) :=
    rnd_of_near (by norm_num) (by norm_num) (by norm_num)
  have e2 : rnd 53 (1 / 5 * (1 / 5)) = (5764607523034235 : ℤ) * 2 ^ (-57 : ℤ) :=
    rnd_of_near (by norm_num) (by norm_num) (by norm_num)
  have e3 : rnd 53 (1 - (5764607523034235 : ℤ) * 2 ^ (-57 : ℤ)) = (8646911284551352 : ℤ) * 2 ^ (-53 : ℤ) :=
    rnd_of_near (by norm_num) (by norm_num) (by norm_num)
  refine ⟨by rw [e1]; norm_num [sgn], ?_⟩
  rw [e2, e3, rnd_sqrt (e := -53) (m := 8825216874276938) (by norm_num) (by norm_num) (by norm_num) (by norm_num) (by norm_num) (by norm_num)]
  norm_num

theorem coef6 : CoefOk 6 false 6004799503160661 35524872942215408 := by
  have e1 : rnd 53 (1 / 6) = (6004799503160661 : ℤ) * 2 ^ (-55 : ℤ) :=
    rnd_of_near (by norm_num) (by norm_num) (by norm_num)
  have e2 : rnd 53 (1 / 6 * (1 / 6)) = (8006399337547548 : ℤ) * 2 ^ (-58 : ℤ) :=
    rnd_of_near (by norm_num) (by norm_num) (by norm_num)
  have e3 : rnd 53 (1 - (8006399337547548 : ℤ) * 2 ^ (-58 : ℤ)) = (8756999275442631 : ℤ) * 2 ^ (-53 : ℤ) :=
    rnd_of_near (by norm_num) (by norm_num) (by norm_num)
  refine ⟨by rw [e1]; norm_num [sgn], ?_⟩
  rw [e2, e3, rnd_sqrt (e := -53) (m := 8881218235553852) (by norm_num) (by norm_num) (by norm_num) (by norm_num) (by norm_num) (by norm_num)]
  norm_num

theorem coefK_ok {δ : Int} {s : Bool} {c1 c2 : Nat} (h : coefK δ = some (s, c1, c2)) : CoefOk δ s c1 c2 := by
  unfold coefK at h
  split at h <;> simp only [Option.some.injEq, Prod.mk.injEq, reduceCtorEq] at h <;> obtain ⟨rfl, rfl, rfl⟩ := h <;> push_cast
  · exact coef2
  · exact coef2.neg
  · exact coef3
  · exact coef3.neg
  · exact coef4
  · exact coef4.neg
  · exact coef5
  · exact coef5.neg
  · exact coef6
  · exact coef6.neg

section
variable {n : Nat} {p : List Nat} {hp : IsPartition n p} {R : IrrepObj}

/-- a table that agrees with `rowOf` is right -/
theorem rows_ok (h : Repr' hp R) {tau : Nat} (h1 : 1 ≤ tau) (h2 : tau < n) {rs : List Row}
    (hr : ((words n p).map toTab).map (rowOf ((words n p).map toTab) tau) = rs.map some) :
    rs.length = R.d ∧ ∀ i (hi : i < rs.length), rs[i].Ok (R.partner tau) (Rounding.ieee.ra R tau) (Rounding.ieee.rb R tau) i := by
  have hl : rs.length = R.d := by
    have := congrArg List.length hr
    simp only [List.length_map] at this
    rw [h.d_eq]; exact this.symm
  refine ⟨hl, fun i hi => ?_⟩
  have P := h.pairing h1 h2
  obtain ⟨T', δ, b, b0, b1, b2⟩ := P.body i (by rw [P.len]; omega)
  have hT : rowOf R.tableaux tau (R.tableaux[i]'(by rw [P.len]; omega)) = some rs[i] := by
    have e := congrArg (fun l => l[i]?) hr
    rw [← h.tab] at e
    simp only [List.getElem?_map] at e
    rw [List.getElem?_eq_getElem hi, List.getElem?_eq_getElem (by rw [P.len]; omega)] at e
    simpa using e
  unfold rowOf at hT
  rw [b] at hT
  simp only at hT
  by_cases d1 : δ = 1
  · rw [if_pos d1] at hT
    obtain ⟨c1, c2⟩ := b1 (Or.inl d1)
    rw [← Option.some.inj hT]
    refine ⟨c1, ?_⟩
    unfold Rounding.ra
    rw [if_pos c1, c2, d1]; simp [sgn]
  rw [if_neg d1] at hT
  by_cases d2 : δ = -1
  · rw [if_pos d2] at hT
    obtain ⟨c1, c2⟩ := b1 (Or.inr d2)
    rw [← Option.some.inj hT]
    refine ⟨c1, ?_⟩
    unfold Rounding.ra
    rw [if_pos c1, c2, d2]; simp [sgn]
  rw [if_neg d2] at hT
  obtain ⟨q1, q2, q3, -⟩ := b2 (by tauto)
  rcases hc : coefK δ with _ | ⟨s, c1, c2⟩
  · rw [hc] at hT; cases hT
  rw [hc] at hT
  rw [← Option.some.inj hT]
  obtain ⟨k1, k2⟩ := coefK_ok hc
  refine ⟨by rw [q2]; simp, by rw [q2]; simpa using q1, ?_, ?_⟩
  · unfold Rounding.ra
    rw [if_neg q1, q3]; exact k1
  · unfold Rounding.rb
    rw [q3]; exact k2

/-- the tables of a representation -/
structure Tables (n : Nat) (p : List Nat) (tabs : Nat → List Row) : Prop where
  rows : ∀ k, k + 1 < n → ((words n p).map toTab).map (rowOf ((words n p).map toTab) (k + 1)) = (tabs k).map some

theorem cell_congr (F : Rounding) {q : Nat → Nat} {a b x y : Nat → ℝ} {i : Nat} (h1 : x i = y i) (h2 : x (q i) = y (q i)) :
    F.cell q a b x i = F.cell q a b y i := by
  unfold Rounding.cell
  rw [h1, h2]

theorem runK_eq (h : Repr' hp R) {tabs : Nat → List Row} (ht : Tables n p tabs) {K : Type} [DecidableEq K] (cols : List K) {j : K} (hj : j ∈ cols)
    (w : List Nat) (hw : ∀ k ∈ w, k + 1 < n) (v : List Sg) (A : Nat → K → ℝ) (hv : ∀ i, i < R.d → vals v i = A i j) (hl : v.length = R.d) :
    runK (w.map tabs) v = none ∨ ∃ v', runK (w.map tabs) v = some v' ∧ v'.length = R.d ∧
      ∀ i, i < R.d → vals v' i = w.foldl (fun A k => fst' Rounding.ieee R cols k A) A i j := by
  induction w generalizing v A with
  | nil => exact Or.inr ⟨v, rfl, hl, hv⟩
  | cons k w ih =>
    have hk := hw k (by simp)
    obtain ⟨r1, r2⟩ := rows_ok h (tau := k + 1) (by omega) hk (ht.rows k hk)
    rw [List.map_cons, runK]
    rcases stepK_eq v (tabs k) 0 (fun i hi => by rw [zero_add]; exact r2 i hi) some with e | ⟨l, e, el, ev⟩
    · rw [e]; exact Or.inl rfl
    · rw [e]
      simp only
      rw [List.foldl_cons]
      refine ih (fun k hk => hw k (by simp [hk])) l _ (fun i hi => ?_) (el.trans r1)
      rw [ev i (by omega), zero_add]
      unfold fst' Rounding.step
      rw [if_pos ⟨hi, hj⟩]
      have q1 := ((h.pairing (tau := k + 1) (by omega) hk).inv i hi).1
      exact cell_congr _ (hv i hi) (hv _ q1)

theorem traceK_eq (h : Repr' hp R) {tabs : Nat → List Row} (ht : Tables n p tabs) (w : List Nat) (hw : ∀ k ∈ w, k + 1 < n)
    (js : List Nat) (hjs : ∀ j ∈ js, j < R.d) (s : Bool) (t f : Nat) :
    traceK (w.map tabs) (js.map fun j => (j, (List.range R.d).map fun i => ⟨false, if i = j then 1 else 0, 200⟩)) s t f = none ∨
    ∃ y, traceK (w.map tabs) (js.map fun j => (j, (List.range R.d).map fun i => ⟨false, if i = j then 1 else 0, 200⟩)) s t f = some y ∧
      y.val = js.foldl (fun t j => Rounding.ieee.s (t + w.foldl (fun A k => fst' Rounding.ieee R (List.range R.d) k A) IrrepObj.identMat j j))
        (Sg.mk s t f).val := by
  induction js generalizing s t f with
  | nil => exact Or.inr ⟨_, rfl, rfl⟩
  | cons j js ih =>
    have hj := hjs j (by simp)
    rw [List.map_cons, traceK]
    rcases runK_eq h ht (List.range R.d) (List.mem_range.2 hj) w hw ((List.range R.d).map fun i => ⟨false, if i = j then 1 else 0, 200⟩)
      IrrepObj.identMat (fun i hi => by
        unfold vals
        rw [List.getElem?_map, List.getElem?_range hi]
        simp only [Option.map_some, Option.getD_some, Sg.val, val0, IrrepObj.identMat]
        rw [zpow_neg, show sgn false = 1 from rfl]
        by_cases hij : i = j
        · have : (2 : ℝ) ^ (200 : ℤ) = 2 ^ 200 := by norm_cast
          rw [if_pos hij, if_pos hij, this, Nat.cast_one, one_mul, one_mul, mul_inv_cancel₀ (by positivity)]
        · rw [if_neg hij, if_neg hij]; simp) (by simp) with e | ⟨v', e, el, ev⟩
    · rw [e]; exact Or.inl rfl
    · rw [e]
      simp only
      rw [nth_eq, List.getElem?_eq_getElem (by omega)]
      simp only
      obtain ⟨r, c, g, a1, a2⟩ := addK_eq s t f (v'[j]'(by omega)).s (v'[j]'(by omega)).m (v'[j]'(by omega)).e
        fun s m e => rndK 24 m e fun m e => traceK (w.map tabs)
          (js.map fun j => (j, (List.range R.d).map fun i => ⟨false, if i = j then 1 else 0, 200⟩)) s m e
      obtain ⟨m', e', b1, b2⟩ := rndK_eq (p := 24) (by norm_num) c g fun m e => traceK (w.map tabs)
          (js.map fun j => (j, (List.range R.d).map fun i => ⟨false, if i = j then 1 else 0, 200⟩)) r m e
      rw [a1, b1, List.foldl_cons]
      have hval : (Sg.mk r m' e').val = Rounding.ieee.s ((Sg.mk s t f).val +
          w.foldl (fun A k => fst' Rounding.ieee R (List.range R.d) k A) IrrepObj.identMat j j) := by
        rw [← ev j hj]
        unfold vals
        rw [List.getElem?_eq_getElem (by omega)]
        show _ = rnd 24 _
        simp only [Option.map_some, Option.getD_some, Sg.val, val0]
        rw [← add_mul, ← a2, rnd_mul_zpow, rnd_sgn, b2]
      rw [← hval]
      exact ih (fun j hj => hjs j (by simp [hj])) r m' e'

/-- the character computed by the kernel -/
theorem character_eval (h : Repr' hp R) {tabs : Nat → List Row} (ht : Tables n p tabs) {mu : List Nat} (hmu : IsPartition n mu) {w : List Nat}
    (hw : (cycw FreeMonoid.of mu 0).toList.reverse = w) {d : Nat} (hd : (words n p).length = d) {x : Sg}
    (hx : eqK (traceK (w.map tabs) (unitCols d) false 0 200) x = true) :
    Rounding.ieee.character (Rounding.ieee.round R) mu = some x.val := by
  have hok := wordOk_cycw (n := n) mu 0 hmu.pos (by rw [hmu.sum, zero_add])
  have hd' : R.d = d := h.d_eq.trans hd
  obtain ⟨y, hy, hval⟩ := eqK_val hx
  have hc := h.fcharLoop (F := Rounding.ieee) (rnd_odd 53) mu 0 hmu.pos (by rw [hmu.sum, zero_add]) IrrepObj.identMat
  have hf : wact (fst' Rounding.ieee R (List.range R.d)) (cycw FreeMonoid.of mu 0) IrrepObj.identMat =
      w.foldl (fun A k => fst' Rounding.ieee R (List.range R.d) k A) IrrepObj.identMat := by
    unfold wact
    rw [← hw, List.foldl_reverse]
  unfold Rounding.character
  rw [show ((1 : Int)) = ((0 : Nat) : Int) + 1 by norm_num, hc, hf]
  simp only [Option.bind_eq_bind, Option.bind_some, Option.some.injEq]
  rcases traceK_eq h ht w (fun k hk => hok.1 k (by rw [← hw] at hk; simpa using hk)) (List.range R.d) (fun j hj => List.mem_range.1 hj) false 0 200
    with e | ⟨z, e, ez⟩
  · unfold unitCols at hy
    rw [hd'] at e
    rw [e] at hy; cases hy
  · unfold unitCols at hy
    rw [hd'] at e
    rw [e] at hy
    rw [← hval, ← Option.some.inj hy, ez]
    congr 1
    simp [Sg.val, val0]

theorem checkK_mem {U : List (Nat × List Sg)} {L : List (List (List Row) × Sg)} (h : checkK U L = true) :
    ∀ x ∈ L, eqK (traceK x.1 U false 0 200) x.2 = true := by
  induction L with
  | nil => simp
  | cons a L ih =>
    obtain ⟨w, x⟩ := a
    rw [checkK, Bool.and_eq_true] at h
    intro y hy
    rcases List.mem_cons.1 hy with rfl | hy
    · exact h.1
    · exact ih h.2 y hy

/-- the values of a character computed by the kernel -/
theorem chars_eval (hn : 1 ≤ n) (hp : IsPartition n p) {tabs : Nat → List Row} (ht : Tables n p tabs) {d : Nat} (hd : (words n p).length = d)
    (L : List (List Nat × List Nat × Sg)) (hL : partitions n = L.map fun x => x.1)
    (hw : ∀ x ∈ L, (cycw FreeMonoid.of x.1 0).toList.reverse = x.2.1)
    (hc : checkK (unitCols d) (L.map fun x => (x.2.1.map tabs, x.2.2)) = true) :
    Rounding.ieee.chars n p = some (L.map fun x => x.2.2.val) := by
  obtain ⟨R, hR, -, h⟩ := exists_repr hn hp
  unfold Rounding.chars
  rw [Rounding.mkIrrep_map, hR, hL]
  simp only [Option.map_some, Option.bind_eq_bind, Option.bind_some, List.mapM_map]
  refine mapM_map _ _ _ fun x hx => ?_
  have hmu : IsPartition n x.1 := (mem_partitions n hn _).1 (by rw [hL]; exact List.mem_map_of_mem hx)
  exact character_eval h ht hmu (hw x hx) hd (checkK_mem hc _ (List.mem_map_of_mem (f := fun x => (x.2.1.map tabs, x.2.2)) hx))

end

/-! ### the sum over the classes -/

/-- the product of two numbers, rounded -/
def mulK {α : Type} (m e n f : Nat) (k : Nat → Nat → α) (z : α) : α :=
  rndK 24 (Nat.mul m n) (Nat.add e f) fun m e => subK 200 m e k z

theorem mulK_eq {α : Type} (s t : Bool) (m e n f : Nat) (k : Nat → Nat → α) (z : α) :
    mulK m e n f k z = z ∨ ∃ m' e', mulK m e n f k z = k m' e' ∧
      (Sg.mk (Bool.xor s t) m' e').val = rnd 24 ((Sg.mk s m e).val * (Sg.mk t n f).val) := by
  unfold mulK
  obtain ⟨m1, e1, g1, r1⟩ := rndK_eq (p := 24) (by norm_num) (Nat.mul m n) (Nat.add e f) fun m e => subK 200 m e k z
  rw [g1]
  rcases subK_eq 200 m1 e1 k z with g2 | ⟨m2, e2, g2, r2⟩
  · exact Or.inl g2
  refine Or.inr ⟨m2, e2, g2, ?_⟩
  unfold Sg.val val0
  have e : sgn s * ((m : ℝ) * 2 ^ e) * 2 ^ (-200 : ℤ) * (sgn t * (n * 2 ^ f) * 2 ^ (-200 : ℤ)) =
      sgn (Bool.xor s t) * (((Nat.mul m n : Nat) : ℝ) * 2 ^ (Nat.add e f)) * 2 ^ (-400 : ℤ) := by
    rw [sgn_xor, show (-400 : ℤ) = -200 + -200 by norm_num, zpow_add₀ (by norm_num)]
    show _ = _ * _ * (((m * n : Nat) : ℝ) * 2 ^ (e + f)) * _
    rw [pow_add]
    push_cast; ring
  simp only
  rw [e, rnd_mul_zpow, rnd_sgn, r1, ← r2, show (-400 : ℤ) = -200 + -200 by norm_num, zpow_add₀ (by norm_num)]
  have : (2 : ℝ) ^ 200 * 2 ^ (-200 : ℤ) = 1 := by
    rw [zpow_neg, ← zpow_natCast]; exact mul_inv_cancel₀ (by positivity)
  linear_combination (-(sgn (Bool.xor s t) * (m2 * 2 ^ e2)) * 2 ^ (-200 : ℤ)) * this

/-- Sn/SnCGbank.hpp:73-76 on numbers -/
def sumK : List (Sg × Sg × Sg × Nat) → Bool → Nat → Nat → Option Sg
  | [], s, t, f => some ⟨s, t, f⟩
  | (x, y, z, m) :: l, s, t, f =>
    mulK x.m x.e y.m y.e (fun a e => mulK a e z.m z.e (fun a e => mulK a e m 200 (fun a e =>
      addK s t f (Bool.xor (Bool.xor (Bool.xor x.s y.s) z.s) false) a e fun s t f => rndK 24 t f fun t f => sumK l s t f) none) none) none

theorem sumK_eq (n : Nat) (mus : List (List Nat)) (L : List (Sg × Sg × Sg × Nat)) (hm : mus.map (classSize n) = L.map fun x => some x.2.2.2)
    (hs : ∀ x ∈ L, x.2.2.2 < 2 ^ 24) (s : Bool) (t f : Nat) :
    sumK L s t f = none ∨ ∃ y, sumK L s t f = some y ∧
      Rounding.ieee.sumLoop n mus (L.map fun x => x.1.val) (L.map fun x => x.2.1.val) (L.map fun x => x.2.2.1.val) (Sg.mk s t f).val = some y.val := by
  induction L generalizing mus s t f with
  | nil =>
    have : mus = [] := by simpa using hm
    subst this
    exact Or.inr ⟨_, rfl, rfl⟩
  | cons a L ih =>
    obtain ⟨⟨sx, x, ex⟩, ⟨sy, y, ey⟩, ⟨sz, z, ez⟩, m⟩ := a
    rcases mus with _ | ⟨mu, mus⟩
    · simp at hm
    simp only [List.map_cons, List.cons.injEq] at hm
    obtain ⟨hm1, hm2⟩ := hm
    have hmf : Rounding.ieee.s (m : ℝ) = (Sg.mk false m 200).val := by
      have h24 := hs _ (List.mem_cons_self)
      simp only at h24
      show rnd 24 _ = _
      rw [rnd_exact (by norm_num) ⟨m, 0, by rw [abs_of_nonneg (by positivity)]; exact_mod_cast h24, by simp⟩]
      unfold Sg.val val0 sgn
      simp only [Bool.false_eq_true, if_false, one_mul]
      rw [mul_assoc, ← zpow_natCast, ← zpow_add₀ (by norm_num)]; norm_num
    rw [sumK]
    simp only
    rcases mulK_eq sx sy x ex y ey (fun a e => mulK a e z ez (fun a e => mulK a e m 200 (fun a e =>
      addK s t f (Bool.xor (Bool.xor (Bool.xor sx sy) sz) false) a e fun s t f => rndK 24 t f fun t f => sumK L s t f) none) none) none
      with g | ⟨m1, e1, g1, r1⟩
    · exact Or.inl g
    rw [g1]
    rcases mulK_eq (Bool.xor sx sy) sz m1 e1 z ez (fun a e => mulK a e m 200 (fun a e =>
      addK s t f (Bool.xor (Bool.xor (Bool.xor sx sy) sz) false) a e fun s t f => rndK 24 t f fun t f => sumK L s t f) none) none
      with g | ⟨m2, e2, g2, r2⟩
    · exact Or.inl g
    rw [g2]
    rcases mulK_eq (Bool.xor (Bool.xor sx sy) sz) false m2 e2 m 200 (fun a e =>
      addK s t f (Bool.xor (Bool.xor (Bool.xor sx sy) sz) false) a e fun s t f => rndK 24 t f fun t f => sumK L s t f) none
      with g | ⟨m3, e3, g3, r3⟩
    · exact Or.inl g
    rw [g3]
    obtain ⟨s4, m4, e4, g4, r4⟩ := addK_eq s t f (Bool.xor (Bool.xor (Bool.xor sx sy) sz) false) m3 e3
      fun s t f => rndK 24 t f fun t f => sumK L s t f
    obtain ⟨m5, e5, g5, r5⟩ := rndK_eq (p := 24) (by norm_num) m4 e4 fun t f => sumK L s4 t f
    rw [g4, g5, List.map_cons, List.map_cons, List.map_cons, Rounding.sumLoop]
    simp only [hm1, Option.bind_eq_bind, Option.bind_some]
    have hval : Rounding.ieee.s ((Sg.mk s t f).val + Rounding.ieee.s (Rounding.ieee.s (Rounding.ieee.s ((Sg.mk sx x ex).val * (Sg.mk sy y ey).val) *
        (Sg.mk sz z ez).val) * Rounding.ieee.s (m : ℝ))) = (Sg.mk s4 m5 e5).val := by
      rw [hmf]
      show rnd 24 (_ + rnd 24 (rnd 24 (rnd 24 _ * _) * _)) = _
      rw [← r1, ← r2, ← r3]
      unfold Sg.val val0
      simp only
      rw [← add_mul, ← r4, rnd_mul_zpow, rnd_sgn, r5]
    rw [hval]
    exact ih mus hm2 (fun x hx => hs x (by simp [hx])) s4 m5 e5

end

end FEv

end Snob
