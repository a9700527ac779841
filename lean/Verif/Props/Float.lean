import Verif.Proofs.FloatIeee
import Verif.Proofs.FloatSeven
import Verif.Props.CG
import Verif.Proofs.Rational

/-! # Properties C105, C106, C107: what rounding does -/

namespace Snob

open IP
open scoped Nat

theorem kronN_isMultiplicity {n : Nat} (hn : 1 ≤ n) {a b c : List Nat} (ha : IsPartition n a) (hb : IsPartition n b) (hc : IsPartition n c) (K : Nat) :
    IsMultiplicity n a b c K ↔ K = kronN n a b c := by
  obtain ⟨R, hR, -, h⟩ := exists_repr hn ha
  obtain ⟨S, hS, -, g⟩ := exists_repr hn hb
  obtain ⟨T, hT, -, k⟩ := exists_repr hn hc
  constructor
  · rintro ⟨R', S', T', hR', hS', hT', A, B, C, hABC, hK⟩
    rw [hR] at hR'; rw [hS] at hS'; rw [hT] at hT'
    cases hR'; cases hS'; cases hT'
    rw [hK, kronN_invariants h g k]
    · intro σ i j
      obtain ⟨A', e1, e2⟩ := h.eval_eq σ
      rw [(hABC σ).1] at e1
      cases e1; exact e2 i j
    · intro σ i j
      obtain ⟨A', e1, e2⟩ := g.eval_eq σ
      rw [(hABC σ).2.1] at e1
      cases e1; exact e2 i j
    · intro σ i j
      obtain ⟨A', e1, e2⟩ := k.eval_eq σ
      rw [(hABC σ).2.2] at e1
      cases e1; exact e2 i j
  · rintro rfl
    choose A hA hA' using h.eval_eq
    choose B hB hB' using g.eval_eq
    choose C hC hC' using k.eval_eq
    exact ⟨R, S, T, hR, hS, hT, A, B, C, fun σ => ⟨hA σ, hB σ, hC σ⟩, (kronN_invariants h g k hA' hB' hC').symm⟩

theorem coeff_of_float {F : Rounding} {n : Nat} {a b c : List Nat} (ha : IsPartition n a) (hb : IsPartition n b) (hc : IsPartition n c) {t : ℝ}
    (h : F.coeffFloat a b c = some t) : F.coeff a b c = some (CGState.toInt t) := by
  unfold Rounding.coeff
  rw [if_pos ⟨by rw [getn_eq, getn_eq, ha.sum, hb.sum], by rw [getn_eq, getn_eq, ha.sum, hc.sum]⟩, h]
  rfl

section
variable {K : Type} [DecidableEq K]

theorem exact_scaleRow (i : Nat) (c1 : ℝ) (cols : List K) (A : Nat → K → ℝ) :
    Rounding.exact.scaleRow i c1 cols A = IrrepObj.scaleRow i c1 cols A := by
  induction cols generalizing A with
  | nil => rfl
  | cons k cols ih => rw [Rounding.scaleRow, IrrepObj.scaleRow, ih]; rfl

theorem exact_mixRows (i j : Nat) (c1 c2 : ℝ) (cols : List K) (A : Nat → K → ℝ) :
    Rounding.exact.mixRows i j c1 c2 cols A = IrrepObj.mixRows i j c1 c2 cols A := by
  induction cols generalizing A with
  | nil => rfl
  | cons k cols ih => rw [Rounding.mixRows, IrrepObj.mixRows, ih]; rfl

theorem exact_tauLoop (R : IrrepObj) (cols : List K) (tau : Int) (is : List Nat) (st : (Nat → K → ℝ) × List Bool) :
    Rounding.exact.tauLoop R cols tau is st = IrrepObj.tauLoop R cols tau is st := by
  induction is generalizing st with
  | nil => rfl
  | cons i is ih =>
    rw [Rounding.tauLoop, IrrepObj.tauLoop]
    have e : Rounding.exact.tauBody R cols tau i st = IrrepObj.tauBody R cols tau i st := by
      unfold Rounding.tauBody IrrepObj.tauBody
      simp only [exact_scaleRow, exact_mixRows]
      rfl
    rw [e]
    congr 1
    funext st
    exact ih st

theorem exact_applyTau (R : IrrepObj) (cols : List K) (tau : Int) (A : Nat → K → ℝ) :
    Rounding.exact.applyTau R cols tau A = R.applyTau cols tau A := by
  unfold Rounding.applyTau IrrepObj.applyTau
  rw [exact_tauLoop]

theorem exact_applyCycle (R : IrrepObj) (cols : List K) (a b : Int) (A : Nat → K → ℝ) :
    Rounding.exact.applyCycle R cols a b A = R.applyCycle cols a b A := by
  unfold Rounding.applyCycle IrrepObj.applyCycle
  simp only [exact_applyTau]

theorem exact_charLoop (R : IrrepObj) (mu : List Nat) (a : Int) (A : Nat → Nat → ℝ) :
    Rounding.exact.charLoop R mu a A = R.charLoop mu a A := by
  induction mu generalizing a A with
  | nil => rfl
  | cons x mu ih =>
    rw [Rounding.charLoop, IrrepObj.charLoop, exact_applyCycle]
    congr 1
    funext B
    exact ih _ B

end

namespace Props

/-- **C106.** Without rounding the functions of Model/Float are those of Model/Irrep. -/
theorem C106_exact : Rounding.exact.mkIrrep = mkIrrep ∧
    (∀ (R : IrrepObj) (K : Type) [DecidableEq K] (cols : List K) (a : Arr) (A : Nat → K → ℝ),
      Rounding.exact.applySigma R cols a A = R.applySigma cols a A) ∧
    (∀ (R : IrrepObj) (a : Arr), Rounding.exact.eval R a = R.eval a) ∧
    ∀ (R : IrrepObj) (mu : List Nat), Rounding.exact.character R mu = R.character mu := by
  have h2 : ∀ (R : IrrepObj) (K : Type) [DecidableEq K] (cols : List K) (a : Arr) (A : Nat → K → ℝ),
      Rounding.exact.applySigma R cols a A = R.applySigma cols a A := by
    intro R K _ cols a A
    unfold Rounding.applySigma IrrepObj.applySigma
    simp only [exact_applyTau]
  refine ⟨rfl, h2, fun R a => h2 R _ _ a _, fun R mu => ?_⟩
  unfold Rounding.character IrrepObj.character
  rw [exact_charLoop]
  rfl

/-- **C105.** The two roundings of Model/Float are those of the standard: the nearest number with 24 (53) digits, and of two nearest
ones the one whose last digit is zero. -/
theorem C105_rounding :
    RoundsToNearest 24 Rounding.ieee.s ∧ TiesToEven 24 Rounding.ieee.s ∧ RoundsToNearest 53 Rounding.ieee.d ∧ TiesToEven 53 Rounding.ieee.d :=
  ⟨rnd_nearest (by norm_num), rnd_even (by norm_num), rnd_nearest (by norm_num), rnd_even (by norm_num)⟩

/-- a third is not a `float`: it is rounded to `11184811/2^25` -/
example : Rounding.ieee.s (1 / 3) = 11184811 / 33554432 := by
  have : rnd 24 (1 / 3) = (11184811 : ℤ) * 2 ^ (-25 : ℤ) := rnd_of_near (by norm_num) (by norm_num) (by norm_num)
  show rnd 24 (1 / 3) = _
  rw [this]; norm_num

/-- a tie goes to the even neighbour -/
example : Rounding.ieee.s (16777217 : ℝ) = 16777216 := by
  show rnd 24 (16777217 : ℝ) = _
  rw [rnd_at (e := 1) (by norm_num) (by norm_num)]
  have := FEv.halfEven_div (q := 8388608) (r := 1) (l := 0) (by norm_num)
  norm_num at this ⊢
  rw [this]
  norm_num

/-- **C105.** The full statement. -/
def C105_statement : Prop :=
  ∀ (n : Nat) (a b c : List Nat) (K : Nat), 1 ≤ n → IsPartition n a → IsPartition n b → IsPartition n c → IsMultiplicity n a b c K →
    Rounding.ieee.coeff a b c = some (K : Int)

/-- **C105** is false: `coeff((5,2),(2,2,2,1),(2,2,2,1))` computes the `float` `1-2^(-23)` and returns 0; the multiplicity is 1. -/
theorem C105_witness : IsMultiplicity 7 [5, 2] [2, 2, 2, 1] [2, 2, 2, 1] 1 ∧
    Rounding.ieee.coeffFloat [5, 2] [2, 2, 2, 1] [2, 2, 2, 1] = some (1 - 1 / 2 ^ 23) ∧
    Rounding.ieee.coeff [5, 2] [2, 2, 2, 1] [2, 2, 2, 1] = some 0 := by
  have ha := Seven.partition52
  have hb := Seven.partition2221
  have e := Seven.coeffFloat7
  have hw : ∀ {p : List Nat}, IsPartition 7 p → (words 7 p).length ≤ 70 := fun {p} hp => by
    have := dim_sq_le hp
    rw [show (7 ! : Nat) = 5040 from rfl] at this
    by_contra hlt
    push Not at hlt
    have := Nat.mul_le_mul hlt hlt
    omega
  obtain ⟨t, ht, h⟩ := near_coeff (F := Rounding.ieee) (by norm_num) ha hb hb (rnd_odd 53) ieee_s ieee_d (by norm_num) (by norm_num) (by norm_num)
    (by norm_num) (D := 70) (hw ha) (hw hb) (hw hb)
  rw [e] at ht
  have h5 := h.trans (kronErr_nine (n := 7) (by norm_num) (by norm_num) (D := 70) (by decide))
  rw [← Option.some.inj ht, abs_le] at h5
  refine ⟨?_, by rw [e]; norm_num, ?_⟩
  · rw [kronN_isMultiplicity (by norm_num) ha hb hb]
    have h1 : (kronN 7 [5, 2] [2, 2, 2, 1] [2, 2, 2, 1] : ℝ) < 2 := by linarith [h5.1]
    have h2 : (0 : ℝ) < kronN 7 [5, 2] [2, 2, 2, 1] [2, 2, 2, 1] := by
      have := h5.2
      norm_num at this ⊢
      by_contra hz
      push Not at hz
      have hz' : (kronN 7 [5, 2] [2, 2, 2, 1] [2, 2, 2, 1] : ℝ) = 0 := by exact_mod_cast (Nat.le_zero.1 (by exact_mod_cast hz))
      rw [hz'] at this
      norm_num at this
    have h1' : kronN 7 [5, 2] [2, 2, 2, 1] [2, 2, 2, 1] < 2 := by exact_mod_cast h1
    have h2' : 0 < kronN 7 [5, 2] [2, 2, 2, 1] [2, 2, 2, 1] := by exact_mod_cast h2
    omega
  · rw [coeff_of_float ha hb hb e]
    congr 1
    unfold CGState.toInt
    rw [if_pos (by norm_num), Int.floor_eq_iff]
    norm_num

theorem C105_false : ¬ C105_statement := fun h => by
  obtain ⟨h1, -, h3⟩ := C105_witness
  have := h 7 _ _ _ 1 (by norm_num) Seven.partition52 Seven.partition2221 Seven.partition2221 h1
  rw [h3] at this
  norm_num at this

/-- **C105.** What is left of the statement up to `n=10`: the result is the multiplicity or one less; it is never too large, and 0 if
the multiplicity is 0. -/
theorem C105_coeff_partial (n : Nat) (hn : 1 ≤ n) (h10 : n ≤ 10) (a b c : List Nat) (ha : IsPartition n a) (hb : IsPartition n b)
    (hc : IsPartition n c) (K : Nat) (hK : IsMultiplicity n a b c K) :
    Rounding.ieee.coeff a b c = some (K : Int) ∨ (1 ≤ K ∧ Rounding.ieee.coeff a b c = some ((K : Int) - 1)) := by
  rw [kronN_isMultiplicity hn ha hb hc] at hK
  subst hK
  have hsq : ∃ D : Nat, D * D ≤ n ! ∧ (words n a).length ≤ D ∧ (words n b).length ≤ D ∧ (words n c).length ≤ D := by
    refine ⟨max (words n a).length (max (words n b).length (words n c).length), ?_, le_max_left _ _,
      (le_max_left _ _).trans (le_max_right _ _), (le_max_right _ _).trans (le_max_right _ _)⟩
    rcases max_choice (words n a).length (max (words n b).length (words n c).length) with e | e
    · rw [e]; exact dim_sq_le ha
    · rw [e]
      rcases max_choice (words n b).length (words n c).length with e | e
      · rw [e]; exact dim_sq_le hb
      · rw [e]; exact dim_sq_le hc
  obtain ⟨D, hD, d1, d2, d3⟩ := hsq
  obtain ⟨t, ht, h⟩ := near_coeff (F := Rounding.ieee) hn ha hb hc (rnd_odd 53) ieee_s ieee_d (by norm_num) (by norm_num) (by norm_num)
    (by norm_num) d1 d2 d3
  have h1 := lt_of_le_of_lt h (kronErr_ten hn h10 hD)
  rw [coeff_of_float ha hb hc ht]
  rcases toInt_near h1 with e | ⟨e1, e2⟩
  · left; rw [e]
  · right; exact ⟨e1, by rw [e2]⟩

/-- **C105.** Up to `n=9` the `float` is within 1/5 of the multiplicity: rounding it to the nearest integer, instead of cutting it off,
would give the multiplicity. -/
theorem C105_nearest (n : Nat) (hn : 1 ≤ n) (h9 : n ≤ 9) (a b c : List Nat) (ha : IsPartition n a) (hb : IsPartition n b)
    (hc : IsPartition n c) (K : Nat) (hK : IsMultiplicity n a b c K) :
    ∃ t, Rounding.ieee.coeffFloat a b c = some t ∧ |t - K| ≤ 1 / 5 ∧ round t = (K : Int) := by
  rw [kronN_isMultiplicity hn ha hb hc] at hK
  subst hK
  have hsq : ∃ D : Nat, D * D ≤ n ! ∧ (words n a).length ≤ D ∧ (words n b).length ≤ D ∧ (words n c).length ≤ D := by
    refine ⟨max (words n a).length (max (words n b).length (words n c).length), ?_, le_max_left _ _,
      (le_max_left _ _).trans (le_max_right _ _), (le_max_right _ _).trans (le_max_right _ _)⟩
    rcases max_choice (words n a).length (max (words n b).length (words n c).length) with e | e
    · rw [e]; exact dim_sq_le ha
    · rw [e]
      rcases max_choice (words n b).length (words n c).length with e | e
      · rw [e]; exact dim_sq_le hb
      · rw [e]; exact dim_sq_le hc
  obtain ⟨D, hD, d1, d2, d3⟩ := hsq
  obtain ⟨t, ht, h⟩ := near_coeff (F := Rounding.ieee) hn ha hb hc (rnd_odd 53) ieee_s ieee_d (by norm_num) (by norm_num) (by norm_num)
    (by norm_num) d1 d2 d3
  have h1 := h.trans (kronErr_nine hn h9 hD)
  refine ⟨t, ht, h1, ?_⟩
  rw [abs_le] at h1
  rw [round_eq, Int.floor_eq_iff]
  push_cast
  constructor <;> linarith

/-- **C105.** For other roundings and all `n`: if every operation on `float` (`double`) has relative error at most `u` (`v`), the error
of the number from which `coeff` is made is at most the following, where `D` bounds the dimensions of the three irreps. -/
theorem C105_error (F : Rounding) (u v : ℝ) (hs : RelErr u F.s) (hd : RelErr v F.d) (hodd : Odd' F.d) (hu : 0 ≤ u) (hu1 : u < 1) (h0 : 0 ≤ v)
    (hv : v ≤ 1 / 2) (n : Nat) (hn : 1 ≤ n) (a b c : List Nat) (ha : IsPartition n a) (hb : IsPartition n b)
    (hc : IsPartition n c) (D : Nat) (hD : ∀ R, mkIrrep a = some R ∨ mkIrrep b = some R ∨ mkIrrep c = some R → R.d ≤ D)
    (K : Nat) (hK : IsMultiplicity n a b c K) :
    ∃ t, F.coeffFloat a b c = some t ∧
      let δ := D * ((1 + u) ^ D * (1 + 3 / 2 * (u + 12 * v + 12 * u * v)) ^ n - 1)
      |t - K| ≤ ((1 + u) ^ ((partitions n).length + 5) / (1 - u) - 1) * (D + ((1 + δ) ^ 3 - 1)) + ((1 + δ) ^ 3 - 1) := by
  rw [kronN_isMultiplicity hn ha hb hc] at hK
  subst hK
  have hD' : ∀ {p : List Nat} (hp : IsPartition n p), (∀ R, mkIrrep p = some R → R.d ≤ D) → (words n p).length ≤ D := by
    intro p hp h
    obtain ⟨R, hR, -, g⟩ := exists_repr hn hp
    have := h R hR
    rwa [g.d_eq] at this
  exact near_coeff hn ha hb hc hodd hs hd hu hu1 h0 hv (hD' ha fun R h => hD R (Or.inl h)) (hD' hb fun R h => hD R (Or.inr (Or.inl h)))
    (hD' hc fun R h => hD R (Or.inr (Or.inr h)))

/-- **C105.** Without rounding the result is the multiplicity: the error of C105 comes from the arithmetic alone. -/
theorem C105_exact (n : Nat) (hn : 1 ≤ n) (a b c : List Nat) (ha : IsPartition n a) (hb : IsPartition n b)
    (hc : IsPartition n c) (K : Nat) (hK : IsMultiplicity n a b c K) : Rounding.exact.coeff a b c = some (K : Int) := by
  rw [kronN_isMultiplicity hn ha hb hc] at hK
  subst hK
  have hz : ∀ r : ℝ → ℝ, r = id → RelErr 0 r := fun r e x => by rw [e]; simp
  obtain ⟨t, ht, h⟩ := near_coeff (F := Rounding.exact) hn ha hb hc (fun x => rfl) (hz _ rfl) (hz _ rfl) le_rfl (by norm_num) le_rfl (by norm_num)
    (D := max (words n a).length (max (words n b).length (words n c).length)) (le_max_left _ _)
      ((le_max_left _ _).trans (le_max_right _ _)) ((le_max_right _ _).trans (le_max_right _ _))
  have e0 : kronErr 0 0 n (partitions n).length (max (words n a).length (max (words n b).length (words n c).length)) = 0 := by
    unfold kronErr charErr stepErr cellErr; simp
  rw [e0] at h
  have : t = kronN n a b c := by have := abs_nonpos_iff.1 h; linarith
  rw [coeff_of_float ha hb hc ht, this, CGState.toInt_nat]

example := C105_coeff_partial 7 (by norm_num) (by norm_num) _ _ _ Seven.partition52 Seven.partition2221 Seven.partition2221 1 C105_witness.1
example := C105_nearest 7 (by norm_num) (by norm_num) _ _ _ Seven.partition52 Seven.partition2221 Seven.partition2221 1 C105_witness.1
example := C105_exact 7 (by norm_num) _ _ _ Seven.partition52 Seven.partition2221 Seven.partition2221 1 C105_witness.1

/-! ### C106 -/

/-- **C106.** The matrices of the irreps and their action in floating point. If every operation on `float` (`double`) has relative
error at most `u` (`v`), then what `apply_left(A,sigma)` makes of a column differs from what it ought to be by at most
`(1+(3/2)(u+12v+12uv))^(n(n-1)/2)-1` times the length of the column. The rest of the matrix is not touched. -/
theorem C106_apply (F : Rounding) (u v : ℝ) (hs : RelErr u F.s) (hd : RelErr v F.d) (hodd : Odd' F.d) (hu : 0 ≤ u) (h0 : 0 ≤ v)
    (hv : v ≤ 1 / 2) (n : Nat) (hn : 1 ≤ n) (p : List Nat) (hp : IsPartition n p) (K : Type) [DecidableEq K] (cols : List K) (hc : cols.Nodup)
    (A : Nat → K → ℝ) (a : Arr) (ha : IsPerm n a) :
    ∃ R R' B B', mkIrrep p = some R ∧ F.mkIrrep p = some R' ∧ R.applySigma cols a A = some B ∧ F.applySigma R' cols a A = some B' ∧
      (∀ k ∈ cols, √(∑ i ∈ Finset.range R.d, (B' i k - B i k) * (B' i k - B i k)) ≤
        ((1 + 3 / 2 * (u + 12 * v + 12 * u * v)) ^ (n * (n - 1) / 2) - 1) * √(∑ i ∈ Finset.range R.d, A i k * A i k)) ∧
      ∀ i k, ¬ (i < R.d ∧ k ∈ cols) → B' i k = A i k := by
  obtain ⟨σ, rfl⟩ := ha
  obtain ⟨R, hR, -, h⟩ := exists_repr hn hp
  obtain ⟨B', hB', hN, hI⟩ := h.near_sigma hodd hs hd hu h0 hv cols hc σ A
  refine ⟨R, F.round R, _, B', hR, by rw [F.mkIrrep_map, hR]; rfl, h.applySigma_eq cols hc σ A, hB', fun k hk => ?_, fun i k hik => ?_⟩
  · have := hN.near k hk
    rw [hI k hk] at this
    exact this
  · rw [hN.rest i k hik]
    unfold act
    rw [dif_neg hik]

/-- **C106.** With IEEE arithmetic every entry of `rho(sigma)` is within `n(n-1)/2^23` of the exact one, as long as this is at most 1. -/
theorem C106_ieee (n : Nat) (hn : 1 ≤ n) (hb : n * (n - 1) ≤ 2 ^ 23) (p : List Nat) (hp : IsPartition n p) (a : Arr) (ha : IsPerm n a) :
    ∃ R R' B B', mkIrrep p = some R ∧ Rounding.ieee.mkIrrep p = some R' ∧ R.eval a = some B ∧ Rounding.ieee.eval R' a = some B' ∧
      ∀ i j, i < R.d → j < R.d → |B' i j - B i j| ≤ (n * (n - 1 : Nat) : ℝ) / 2 ^ 23 := by
  obtain ⟨R, R', B, B', hR, hR', hB, hB', h, -⟩ := C106_apply Rounding.ieee us ud ieee_s ieee_d (rnd_odd 53) (by norm_num) (by norm_num) (by norm_num)
    n hn p hp Nat ((mkIrrep p).elim [] fun R => List.range R.d) (by cases mkIrrep p; · simp
                                                                    · exact List.nodup_range) IrrepObj.identMat a ha
  rw [hR] at hB hB' h
  have ed : R'.d = R.d := by
    rw [Rounding.mkIrrep_map, hR] at hR'
    rw [← Option.some.inj hR']; rfl
  refine ⟨R, R', B, B', hR, hR', hB, by rw [← hB']; unfold Rounding.eval; rw [ed]; rfl, fun i j hi hj => ?_⟩
  have h1 := h j (List.mem_range.2 hj)
  have e1 : ∑ i ∈ Finset.range R.d, IrrepObj.identMat i j * IrrepObj.identMat i j = 1 := by
    unfold IrrepObj.identMat
    simp [hj]
  rw [e1, Real.sqrt_one, mul_one] at h1
  exact (abs_le_nrm hi fun i => B' i j - B i j).trans (h1.trans (actErr_ieee hb))

example := C106_ieee 7 (by norm_num) (by norm_num) [5, 2] Seven.partition52 _ ⟨Equiv.swap 0 3, rfl⟩
/-- the hypotheses of `C106_apply` are met by IEEE arithmetic -/
example := C106_apply Rounding.ieee us ud ieee_s ieee_d (rnd_odd 53) (by norm_num) (by norm_num) (by norm_num) 7 (by norm_num) [5, 2]
  Seven.partition52 Nat [0, 1, 2] (by decide) (fun i k => i + 3 * k) _ ⟨Equiv.swap 0 3, rfl⟩

/-! ### C107 -/

/-- **C107.** The characters in floating point: `character(mu)` differs from the exact one by at most
`d((1+u)^d(1+(3/2)(u+12v+12uv))^n-1)`. -/
theorem C107_error (F : Rounding) (u v : ℝ) (hs : RelErr u F.s) (hd : RelErr v F.d) (hodd : Odd' F.d) (hu : 0 ≤ u) (h0 : 0 ≤ v)
    (hv : v ≤ 1 / 2) (n : Nat) (hn : 1 ≤ n) (p mu : List Nat) (hp : IsPartition n p) (hmu : IsPartition n mu) :
    ∃ R R' x y, mkIrrep p = some R ∧ F.mkIrrep p = some R' ∧ R.character mu = some x ∧ F.character R' mu = some y ∧
      |y - x| ≤ R.d * ((1 + u) ^ R.d * (1 + 3 / 2 * (u + 12 * v + 12 * u * v)) ^ n - 1) := by
  obtain ⟨R, hR, -, h⟩ := exists_repr hn hp
  obtain ⟨y, hy, hyx⟩ := h.near_character hodd hs hd hu h0 hv hmu
  exact ⟨R, F.round R, _, y, hR, by rw [F.mkIrrep_map, hR]; rfl, h.character_eq hmu _ (hasCycleType_block hmu), hy, hyx⟩

/-- **C107.** With IEEE arithmetic the error is at most `d(d+2n)/2^23`, as long as `d+2n` is at most `2^23`. So if `d(d+2n)<2^22`, the
nearest integer is the character. -/
theorem C107_ieee (n : Nat) (hn : 1 ≤ n) (p mu : List Nat) (hp : IsPartition n p) (hmu : IsPartition n mu) :
    ∃ R R' y, ∃ x : ℤ, mkIrrep p = some R ∧ Rounding.ieee.mkIrrep p = some R' ∧ R.character mu = some (x : ℝ) ∧
      Rounding.ieee.character R' mu = some y ∧
      (R.d + 2 * n ≤ 2 ^ 23 → |y - x| ≤ (R.d * (R.d + 2 * n : Nat) : ℝ) / 2 ^ 23) ∧
      (R.d * (R.d + 2 * n) < 2 ^ 22 → round y = x) := by
  obtain ⟨R, hR, -, h⟩ := exists_repr hn hp
  obtain ⟨y, hy, hyx⟩ := h.near_character (rnd_odd 53) ieee_s ieee_d (by norm_num) (by norm_num) (by norm_num) hmu
  obtain ⟨x, hx⟩ := chi_int hp (blockPerm n mu 0)
  rw [hx] at hyx
  have key : R.d + 2 * n ≤ 2 ^ 23 → |y - x| ≤ (R.d * (R.d + 2 * n : Nat) : ℝ) / 2 ^ 23 := fun hb => hyx.trans (charErr_ieee hb)
  refine ⟨R, Rounding.ieee.round R, y, x, hR, by rw [Rounding.mkIrrep_map, hR]; rfl,
    by rw [h.character_eq hmu _ (hasCycleType_block hmu), hx], hy, key, fun hb => ?_⟩
  have hd : 1 ≤ R.d := h.d_pos
  have h1 := key (by nlinarith)
  have h2 : ((R.d * (R.d + 2 * n : Nat) : ℝ)) / 2 ^ 23 < 1 / 2 := by
    rw [div_lt_iff₀ (by norm_num)]
    have : ((R.d * (R.d + 2 * n) : Nat) : ℝ) < 2 ^ 22 := by exact_mod_cast hb
    push_cast at this ⊢
    linarith
  have h3 := abs_lt.1 (lt_of_le_of_lt h1 h2)
  rw [round_eq, Int.floor_eq_iff]
  constructor <;> linarith [h3.1, h3.2]

/-- **C107.** The full statement: characters are computed exactly (they are integers). -/
def C107_statement : Prop :=
  ∀ (n : Nat) (p mu : List Nat) (R R' : IrrepObj), 1 ≤ n → IsPartition n p → IsPartition n mu → mkIrrep p = some R →
    Rounding.ieee.mkIrrep p = some R' → Rounding.ieee.character R' mu = R.character mu

/-- **C107** is false: the value of the character of `[5,2]` at `[4,1,1,1]` is 0, the code computes `-2^(-24)`. -/
theorem C107_witness : ∃ R R', mkIrrep [5, 2] = some R ∧ Rounding.ieee.mkIrrep [5, 2] = some R' ∧
    R.character [4, 1, 1, 1] = some 0 ∧ Rounding.ieee.character R' [4, 1, 1, 1] = some (-1 / 2 ^ 24) := by
  have hmu : IsPartition 7 [4, 1, 1, 1] := ⟨by simp, by simp, rfl⟩
  obtain ⟨R, hR, -, h⟩ := exists_repr (by norm_num) Seven.partition52
  have hd : R.d = 14 := by rw [h.d_eq]; decide +kernel
  obtain ⟨R1, R2, y, x, e1, e2, e3, e4, -, e6⟩ := C107_ieee 7 (by norm_num) [5, 2] [4, 1, 1, 1] Seven.partition52 hmu
  rw [hR] at e1
  cases e1
  have hv : Rounding.ieee.character (Rounding.ieee.round R) [4, 1, 1, 1] = some (-1 / 2 ^ 24) := by
    have := FEv.character_eval h Seven.tables52 hmu (w := [2, 1, 0]) (by decide +kernel) (d := 14) (by decide +kernel) (x := ⟨true, 1, 176⟩)
      (FEv.checkK_mem Seven.check52 ([2, 1, 0].map Seven.tabs52, ⟨true, 1, 176⟩) (by simp [Seven.L52]))
    rw [this]
    norm_num [FEv.Sg.val, FEv.val0, FEv.sgn]
  have er : Rounding.ieee.mkIrrep [5, 2] = some (Rounding.ieee.round R) := by rw [Rounding.mkIrrep_map, hR]; rfl
  rw [er] at e2
  cases e2
  rw [hv] at e4
  have hx : x = 0 := by
    rw [← e6 (by rw [hd]; norm_num), ← Option.some.inj e4, round_eq, Int.floor_eq_iff]
    norm_num
  exact ⟨R, _, hR, er, by rw [e3, hx]; norm_num, hv⟩

theorem C107_false : ¬ C107_statement := fun hst => by
  obtain ⟨R, R', h1, h2, h3, h4⟩ := C107_witness
  have := hst 7 [5, 2] [4, 1, 1, 1] R R' (by norm_num) Seven.partition52 ⟨by simp, by simp, rfl⟩ h1 h2
  rw [h3, h4] at this
  norm_num at this

example := C107_ieee 7 (by norm_num) [5, 2] [3, 3, 1] Seven.partition52 ⟨by simp, by simp, rfl⟩

end Props

end Snob
