import Verif.Proofs.FloatVec
import Verif.Proofs.FloatIeee

/-! # Property C113: acting on vectors in floating point -/

namespace Snob.Props

open Snob SnVec IP Snob.Perm

variable {n : Nat}

theorem sqrt_nrm (d : Nat) (x : Nat → ℝ) : √(∑ i ∈ Finset.range d, x i ^ 2) = nrm d x := by
  unfold nrm
  simp only [pow_two]

/-- a word on a vector, in floating point and exactly -/
theorem fvec_near (hn : 1 ≤ n) (F : Rounding) {u v : ℝ} (hs : RelErr u F.s) (hd : RelErr v F.d) (hu : 0 ≤ u) (h0 : 0 ≤ v)
    (hv : v ≤ 1 / 2) {x : SnVec} (hx : Ok n x) {N : Nat} {w : FreeMonoid Nat} (hw : WordOk n N w) :
    ∃ y, x.apply (enc (FreeMonoid.lift (adj n) w)) = some y ∧ WithinOf ((1 + stepErr u v) ^ N - 1) x y (fvec F x w) := by
  have e : ∀ P : VPart, ∃ A : Nat → Nat → ℝ, P ∈ x → P.apply (enc (FreeMonoid.lift (adj n) w)) = some { P with data := A } ∧
      ∀ c < P.m, nrm P.d (fun i => wact (fst' F P.irrep (List.range P.m)) w P.data i c - A i c) ≤
        ((1 + stepErr u v) ^ N - 1) * nrm P.d (fun i => P.data i c) := by
    intro P
    by_cases hP : P ∈ x
    · obtain ⟨h, h1⟩ := part_act hn hx hP
      refine ⟨_, fun _ => ⟨h1 _, fun c hc => ?_⟩⟩
      have hc' : c ∈ List.range P.m := List.mem_range.2 hc
      have h2 := (h.near_word (F := F) hs hd hu h0 hv (List.range P.m) P.data hw).near c hc'
      rw [h.act_rep_nrm hw _ _ _ hc'] at h2
      rw [show nrm P.d = nrm P.irrep.d from congrArg nrm (hx.part P hP).2.2]
      exact h2
    · exact ⟨fun _ _ => 0, fun h => absurd h hP⟩
  choose A hA using e
  refine ⟨x.map fun P => { P with data := A P }, mapM_map _ _ _ fun P hP => (hA P hP).1, by simp, by simp [fvec], fun k P Q Q' h1 h2 h3 => ?_⟩
  unfold fvec at h3
  rw [List.getElem?_map, h1, Option.map_some, Option.some.injEq] at h2 h3
  subst h2 h3
  refine ⟨rfl, ⟨rfl, rfl⟩, ⟨rfl, rfl⟩, fun c hc => ?_⟩
  rw [sqrt_nrm, sqrt_nrm]
  exact (hA P (List.mem_of_getElem? h1)).2 c hc

/-- **C113.** Acting on a vector in floating point: any sequence of calls (permutations, contiguous cycles and their undoing,
transpositions), each of which acts by some permutation `σ`, computes the action of the product. If every operation on `float` (`double`)
has relative error at most `u` (`v`), each column is off by at most `(1+(3/2)(u+12v+12uv))^N-1` times its length, where `N` is the number of
adjacent transpositions the calls go through. -/
theorem C113_calls (F : Rounding) (u v : ℝ) (hs : RelErr u F.s) (hd : RelErr v F.d) (hodd : Odd' F.d) (hu : 0 ≤ u) (h0 : 0 ≤ v)
    (hv : v ≤ 1 / 2) (n : Nat) (hn : 1 ≤ n) (x x' : SnVec) (hx : Ok n x) (hx' : SameEntries F x x') (cs : List ActCall)
    (σs : List (Equiv.Perm (Fin n))) (hm : List.Forall₂ (ActCall.Means n) cs σs) :
    ∃ y y', x.apply (enc σs.reverse.prod) = some y ∧ ActCall.run F cs x' = some y' ∧
      WithinOf ((1 + 3 / 2 * (u + 12 * v + 12 * u * v)) ^ (cs.map (ActCall.cost n)).sum - 1) x y y' := by
  obtain rfl := sameEntries_eq hn hx hx'
  obtain ⟨w, h1, h2, h3⟩ := run_vec (F := F) hn hodd hx hm
  obtain ⟨y, h4, h5⟩ := fvec_near hn F hs hd hu h0 hv hx h1
  rw [h2] at h4
  exact ⟨y, _, h4, by rw [h3, mul_one], h5⟩

/-- **C113.** Undoing: if the product of the permutations is the identity, the calls give back the vector up to the same error. -/
theorem C113_undo (F : Rounding) (u v : ℝ) (hs : RelErr u F.s) (hd : RelErr v F.d) (hodd : Odd' F.d) (hu : 0 ≤ u) (h0 : 0 ≤ v)
    (hv : v ≤ 1 / 2) (n : Nat) (hn : 1 ≤ n) (x x' : SnVec) (hx : Ok n x) (hx' : SameEntries F x x') (cs : List ActCall)
    (σs : List (Equiv.Perm (Fin n))) (hm : List.Forall₂ (ActCall.Means n) cs σs) (h1 : σs.reverse.prod = 1) :
    ∃ y', ActCall.run F cs x' = some y' ∧
      WithinOf ((1 + 3 / 2 * (u + 12 * v + 12 * u * v)) ^ (cs.map (ActCall.cost n)).sum - 1) x x y' := by
  obtain ⟨y, y', h2, h3, h4⟩ := C113_calls F u v hs hd hodd hu h0 hv n hn x x' hx hx' cs σs hm
  rw [h1] at h2
  have e : y = x := by
    have h7 : x.apply (enc (1 : Equiv.Perm (Fin n))) = some x := by
      have : x.apply (enc (1 : Equiv.Perm (Fin n))) = some (x.map id) := by
        refine mapM_map _ _ _ fun P hP => ?_
        obtain ⟨h, h8⟩ := part_act hn hx hP
        rw [h8, map_one, act_one]
        rfl
      rwa [List.map_id] at this
    rw [h7] at h2
    exact (Option.some.inj h2).symm
  subst e
  exact ⟨y', h3, h4⟩

/-- **C113.** Two sequences of calls with the same product agree up to the sum of the two errors. -/
theorem C113_agree (F : Rounding) (u v : ℝ) (hs : RelErr u F.s) (hd : RelErr v F.d) (hodd : Odd' F.d) (hu : 0 ≤ u) (h0 : 0 ≤ v)
    (hv : v ≤ 1 / 2) (n : Nat) (hn : 1 ≤ n) (x x' : SnVec) (hx : Ok n x) (hx' : SameEntries F x x') (cs ds : List ActCall)
    (σs τs : List (Equiv.Perm (Fin n))) (hm : List.Forall₂ (ActCall.Means n) cs σs) (hm' : List.Forall₂ (ActCall.Means n) ds τs)
    (he : σs.reverse.prod = τs.reverse.prod) :
    ∃ y z, ActCall.run F cs x' = some y ∧ ActCall.run F ds x' = some z ∧
      WithinOf ((1 + 3 / 2 * (u + 12 * v + 12 * u * v)) ^ (cs.map (ActCall.cost n)).sum - 1 +
        ((1 + 3 / 2 * (u + 12 * v + 12 * u * v)) ^ (ds.map (ActCall.cost n)).sum - 1)) x z y := by
  obtain ⟨a, y, h1, h2, l1, l2, h3⟩ := C113_calls F u v hs hd hodd hu h0 hv n hn x x' hx hx' cs σs hm
  obtain ⟨b, z, k1, k2, m1, m2, k3⟩ := C113_calls F u v hs hd hodd hu h0 hv n hn x x' hx hx' ds τs hm'
  rw [← he, h1, Option.some.injEq] at k1
  subst k1
  refine ⟨y, z, h2, k2, m2, l2, fun k P Q Q' e1 e2 e3 => ?_⟩
  have hk : k < a.length := by rw [l1]; exact (List.getElem?_eq_some_iff.1 e1).1
  have e4 : a[k]? = some a[k] := List.getElem?_eq_getElem hk
  obtain ⟨r1, r2, r3, r4⟩ := h3 k P a[k] Q' e1 e4 e3
  obtain ⟨s1, s2, s3, s4⟩ := k3 k P a[k] Q e1 e4 e2
  refine ⟨by rw [r1, s1], ⟨by rw [r2.1, s2.1], by rw [s2.1, s2.2]⟩, ⟨by rw [r3.1, s3.1], by rw [s3.1, s3.2]⟩, fun c hc => ?_⟩
  have r5 := r4 c hc
  have s5 := s4 c hc
  rw [sqrt_nrm, sqrt_nrm] at r5 s5 ⊢
  have e5 : nrm P.d (fun i => Q'.data i c - Q.data i c) =
      nrm P.d (fun i => Q'.data i c - a[k].data i c + (a[k].data i c - Q.data i c)) := nrm_congr fun i _ => by ring
  have e6 : nrm P.d (fun i => a[k].data i c - Q.data i c) = nrm P.d (fun i => Q.data i c - a[k].data i c) := by
    unfold nrm
    congr 1
    exact Finset.sum_congr rfl fun i _ => by ring
  have := nrm_add P.d (fun i => Q'.data i c - a[k].data i c) (fun i => a[k].data i c - Q.data i c)
  rw [e5, add_mul]
  linarith

theorem nrm_inner (d : Nat) (x y : Nat → ℝ) : |∑ i ∈ Finset.range d, x i * y i| ≤ nrm d x * nrm d y := by
  have h := Finset.sum_mul_sq_le_sq_mul_sq (Finset.range d) x y
  have h1 := nrm_sq d x
  have h2 := nrm_sq d y
  refine abs_le_of_sq_le_sq ?_ (mul_nonneg (nrm_nonneg _ _) (nrm_nonneg _ _))
  rw [mul_pow, pow_two (nrm d x), pow_two (nrm d y), h1, h2]
  simpa only [pow_two] using h

theorem mapM_getElem? {α β : Type} {f : α → Option β} {l : List α} {l' : List β} (h : l.mapM f = some l') {k : Nat} {a : α} {b : β}
    (ha : l[k]? = some a) (hb : l'[k]? = some b) : f a = some b := by
  induction l generalizing l' k with
  | nil => simp at ha
  | cons x l ih =>
    rw [List.mapM_cons] at h
    cases h1 : f x with
    | none => rw [h1] at h; exact absurd h (by simp)
    | some y =>
      cases h2 : l.mapM f with
      | none => rw [h1, h2] at h; exact absurd h (by simp)
      | some ys =>
        rw [h1, h2] at h
        obtain rfl : y :: ys = l' := Option.some.inj h
        cases k with
        | zero =>
          simp only [List.getElem?_cons_zero, Option.some.injEq] at ha hb
          subst ha hb
          exact h1
        | succ k => exact ih h2 (by simpa using ha) (by simpa using hb)

/-- the exact action keeps the scalar products of the columns -/
theorem apply_inner (hn : 1 ≤ n) {x y : SnVec} (hx : Ok n x) (σ : Equiv.Perm (Fin n)) (hy : x.apply (enc σ) = some y) {k : Nat} {P Q : VPart}
    (hP : x[k]? = some P) (hQ : y[k]? = some Q) {c e : Nat} (hc : c < P.m) (he : e < P.m) :
    ∑ i ∈ Finset.range P.d, Q.data i c * Q.data i e = ∑ i ∈ Finset.range P.d, P.data i c * P.data i e := by
  have hmem := List.mem_of_getElem? hP
  obtain ⟨h, h1⟩ := part_act hn hx hmem
  have h2 := mapM_getElem? hy hP hQ
  rw [h1, Option.some.injEq] at h2
  subst h2
  rw [show Finset.range P.d = Finset.range P.irrep.d from congrArg Finset.range (hx.part P hmem).2.2]
  simp only
  have hl : ∀ (X : Nat → ℝ), nrm P.irrep.d (fun i => act (h.rep σ) (List.range 1) (fun i _ => X i) i 0) = nrm P.irrep.d X := by
    intro X
    have hw := wordOk_cox (n := n) le_rfl σ
    have e1 : FreeMonoid.lift (adj n) (cox FreeMonoid.of n σ) = σ := by
      rw [map_cox, ← cox_adj_self σ]
      simp only [FreeMonoid.lift_eval_of, cox_adj_self]
    have := h.act_rep_nrm hw (List.range 1) (fun i _ => X i) 0 (by simp)
    rwa [e1] at this
  have hact : ∀ (X : Nat → ℝ) i, i < P.irrep.d → ∀ (m : Nat) (A : Nat → Nat → ℝ) (c : Nat), c < m → (∀ i, A i c = X i) →
      act (h.rep σ) (List.range m) A i c = act (h.rep σ) (List.range 1) (fun i _ => X i) i 0 := by
    intro X i hi m A c hc hA
    unfold act
    rw [dif_pos ⟨hi, List.mem_range.2 hc⟩, dif_pos ⟨hi, by simp⟩]
    simp only [hA]
  have hadd : ∀ (X Y : Nat → ℝ) i, i < P.irrep.d → act (h.rep σ) (List.range 1) (fun i _ => X i + Y i) i 0 =
      act (h.rep σ) (List.range 1) (fun i _ => X i) i 0 + act (h.rep σ) (List.range 1) (fun i _ => Y i) i 0 := by
    intro X Y i hi
    unfold act
    rw [dif_pos ⟨hi, by simp⟩, dif_pos ⟨hi, by simp⟩, dif_pos ⟨hi, by simp⟩, ← Finset.sum_add_distrib]
    exact Finset.sum_congr rfl fun j _ => by ring
  set X : Nat → ℝ := fun i => P.data i c with hX
  set Y : Nat → ℝ := fun i => P.data i e with hY
  set X' : Nat → ℝ := fun i => act (h.rep σ) (List.range 1) (fun i _ => X i) i 0 with hX'
  set Y' : Nat → ℝ := fun i => act (h.rep σ) (List.range 1) (fun i _ => Y i) i 0 with hY'
  have e1 := nrm_sq P.irrep.d (fun i => X' i + Y' i)
  have e2 := nrm_sq P.irrep.d (fun i => X i + Y i)
  have e3 : nrm P.irrep.d (fun i => X' i + Y' i) = nrm P.irrep.d (fun i => X i + Y i) := by
    rw [← hl fun i => X i + Y i]
    exact nrm_congr fun i hi => (hadd X Y i hi).symm
  have e4 := nrm_sq P.irrep.d X'
  have e5 := nrm_sq P.irrep.d Y'
  have e6 := nrm_sq P.irrep.d X
  have e7 := nrm_sq P.irrep.d Y
  rw [hl X] at e4
  rw [hl Y] at e5
  have e8 : ∀ U V : Nat → ℝ, ∑ i ∈ Finset.range P.irrep.d, (U i + V i) * (U i + V i) = ∑ i ∈ Finset.range P.irrep.d, U i * U i +
      2 * ∑ i ∈ Finset.range P.irrep.d, U i * V i + ∑ i ∈ Finset.range P.irrep.d, V i * V i := by
    intro U V
    rw [Finset.mul_sum, ← Finset.sum_add_distrib, ← Finset.sum_add_distrib]
    exact Finset.sum_congr rfl fun i _ => by ring
  rw [e8] at e1 e2
  rw [e3, e2] at e1
  have e9 : ∑ i ∈ Finset.range P.irrep.d, act (h.rep σ) (List.range P.m) P.data i c * act (h.rep σ) (List.range P.m) P.data i e =
      ∑ i ∈ Finset.range P.irrep.d, X' i * Y' i := by
    refine Finset.sum_congr rfl fun i hi => ?_
    rw [hact X i (Finset.mem_range.1 hi) P.m P.data c hc fun _ => rfl, hact Y i (Finset.mem_range.1 hi) P.m P.data e he fun _ => rfl]
  rw [e9]
  show _ = ∑ i ∈ Finset.range P.irrep.d, X i * Y i
  linarith

/-- **C113.** The scalar products of the columns of each part, which no permutation changes, are changed by at most
`(1+(3/2)(u+12v+12uv))^(2N)-1` times the product of the lengths. -/
theorem C113_inner (F : Rounding) (u v : ℝ) (hs : RelErr u F.s) (hd : RelErr v F.d) (hodd : Odd' F.d) (hu : 0 ≤ u) (h0 : 0 ≤ v)
    (hv : v ≤ 1 / 2) (n : Nat) (hn : 1 ≤ n) (x x' : SnVec) (hx : Ok n x) (hx' : SameEntries F x x') (cs : List ActCall)
    (σs : List (Equiv.Perm (Fin n))) (hm : List.Forall₂ (ActCall.Means n) cs σs) :
    ∃ y, ActCall.run F cs x' = some y ∧ y.length = x.length ∧ ∀ (k : Nat) (P Q : VPart), x[k]? = some P → y[k]? = some Q →
      ∀ c < P.m, ∀ e < P.m, |∑ i ∈ Finset.range P.d, Q.data i c * Q.data i e - ∑ i ∈ Finset.range P.d, P.data i c * P.data i e| ≤
        ((1 + 3 / 2 * (u + 12 * v + 12 * u * v)) ^ (2 * (cs.map (ActCall.cost n)).sum) - 1) *
          (√(∑ i ∈ Finset.range P.d, P.data i c ^ 2) * √(∑ i ∈ Finset.range P.d, P.data i e ^ 2)) := by
  obtain ⟨a, y, h1, h2, l1, l2, h3⟩ := C113_calls F u v hs hd hodd hu h0 hv n hn x x' hx hx' cs σs hm
  refine ⟨y, h2, l2, fun k P Q e1 e2 c hc e he => ?_⟩
  have hk : k < a.length := by rw [l1]; exact (List.getElem?_eq_some_iff.1 e1).1
  have e4 : a[k]? = some a[k] := List.getElem?_eq_getElem hk
  obtain ⟨-, -, -, r4⟩ := h3 k P a[k] Q e1 e4 e2
  have r5 := r4 c hc
  have r6 := r4 e he
  rw [← apply_inner hn hx _ h1 e1 e4 hc he, pow_mul']
  rw [sqrt_nrm, sqrt_nrm] at r5 r6 ⊢
  set g := (1 + 3 / 2 * (u + 12 * v + 12 * u * v)) ^ (cs.map (ActCall.cost n)).sum with hg
  have hg1 : 1 ≤ g := one_le_pow₀ (by nlinarith [mul_nonneg hu h0])
  have ec := apply_inner hn hx _ h1 e1 e4 hc hc
  have ee := apply_inner hn hx _ h1 e1 e4 he he
  have nc : nrm P.d (fun i => a[k].data i c) = nrm P.d (fun i => P.data i c) := congrArg Real.sqrt ec
  have ne : nrm P.d (fun i => a[k].data i e) = nrm P.d (fun i => P.data i e) := congrArg Real.sqrt ee
  set δ : Nat → ℝ := fun i => Q.data i c - a[k].data i c
  set ε : Nat → ℝ := fun i => Q.data i e - a[k].data i e
  have e5 : ∑ i ∈ Finset.range P.d, Q.data i c * Q.data i e - ∑ i ∈ Finset.range P.d, a[k].data i c * a[k].data i e =
      ∑ i ∈ Finset.range P.d, δ i * a[k].data i e + ∑ i ∈ Finset.range P.d, a[k].data i c * ε i + ∑ i ∈ Finset.range P.d, δ i * ε i := by
    rw [← Finset.sum_sub_distrib, ← Finset.sum_add_distrib, ← Finset.sum_add_distrib]
    exact Finset.sum_congr rfl fun i _ => by simp only [δ, ε]; ring
  rw [e5]
  have i1 := nrm_inner P.d δ fun i => a[k].data i e
  have i2 := nrm_inner P.d (fun i => a[k].data i c) ε
  have i3 := nrm_inner P.d δ ε
  rw [ne] at i1
  rw [nc] at i2
  have p1 := nrm_nonneg P.d fun i => P.data i c
  have p2 := nrm_nonneg P.d fun i => P.data i e
  have j1 := mul_le_mul_of_nonneg_right r5 p2
  have j2 := mul_le_mul_of_nonneg_left r6 p1
  have j3 := mul_le_mul r5 r6 (nrm_nonneg _ _) (mul_nonneg (by linarith) p1)
  have t1 := abs_add_le (∑ i ∈ Finset.range P.d, δ i * a[k].data i e + ∑ i ∈ Finset.range P.d, a[k].data i c * ε i) (∑ i ∈ Finset.range P.d, δ i * ε i)
  have t2 := abs_add_le (∑ i ∈ Finset.range P.d, δ i * a[k].data i e) (∑ i ∈ Finset.range P.d, a[k].data i c * ε i)
  have e6 : (g ^ 2 - 1) * (nrm P.d (fun i => P.data i c) * nrm P.d (fun i => P.data i e)) =
      (g - 1) * nrm P.d (fun i => P.data i c) * nrm P.d (fun i => P.data i e) +
      nrm P.d (fun i => P.data i c) * ((g - 1) * nrm P.d (fun i => P.data i e)) +
      (g - 1) * nrm P.d (fun i => P.data i c) * ((g - 1) * nrm P.d (fun i => P.data i e)) := by ring
  rw [e6]
  linarith

/-- **C113.** With IEEE arithmetic a sequence of calls that goes through `N` adjacent transpositions, `N` at most `2^22`, has error at most
`N/2^22`. -/
theorem C113_ieee (n : Nat) (hn : 1 ≤ n) (x x' : SnVec) (hx : Ok n x) (hx' : SameEntries Rounding.ieee x x') (cs : List ActCall)
    (σs : List (Equiv.Perm (Fin n))) (hm : List.Forall₂ (ActCall.Means n) cs σs) (hN : (cs.map (ActCall.cost n)).sum ≤ 2 ^ 22) :
    ∃ y y', x.apply (enc σs.reverse.prod) = some y ∧ ActCall.run Rounding.ieee cs x' = some y' ∧
      WithinOf ((cs.map (ActCall.cost n)).sum / 2 ^ 22) x y y' := by
  obtain ⟨y, y', h1, h2, l1, l2, h3⟩ := C113_calls Rounding.ieee us ud ieee_s ieee_d (rnd_odd 53) (by norm_num) (by norm_num) (by norm_num)
    n hn x x' hx hx' cs σs hm
  refine ⟨y, y', h1, h2, l1, l2, fun k P Q Q' e1 e2 e3 => ?_⟩
  obtain ⟨r1, r2, r3, r4⟩ := h3 k P Q Q' e1 e2 e3
  refine ⟨r1, r2, r3, fun c hc => (r4 c hc).trans (mul_le_mul_of_nonneg_right ?_ (Real.sqrt_nonneg _))⟩
  generalize (cs.map (ActCall.cost n)).sum = N at hN
  have hs0 := stepErr_nonneg (u := us) (v := ud) (by norm_num) (by norm_num)
  have hs1 := stepErr_ieee
  have hN' : (N : ℝ) ≤ 2 ^ 22 := by exact_mod_cast hN
  have hus : us = 1 / 2 ^ 24 := by norm_num [us]
  have e4 : (1 + 3 / 2 * (us + 12 * ud + 12 * us * ud)) = 1 + stepErr us ud := by unfold stepErr cellErr; ring
  rw [e4]
  have hNs : (N : ℝ) * stepErr us ud ≤ N * (1 / 2 ^ 23) := by
    refine mul_le_mul_of_nonneg_left ?_ (by positivity)
    rw [hus] at hs1 ⊢
    linarith
  have := pow_le_linear hs0 (m := N) (by linarith)
  linarith

theorem vecAddLoop_eq (F : Rounding) {v w : SnVec} (h : ∀ (k : Nat) (P Q : VPart), v[k]? = some P → w[k]? = some Q → P.d = Q.d ∧ P.m = Q.m) :
    F.vecAddLoop v w = some (List.zipWith (fun P Q => { P with data := fun i j => F.s (P.data i j + Q.data i j) }) v w) := by
  induction v generalizing w with
  | nil => rfl
  | cons P v ih =>
    cases w with
    | nil => rfl
    | cons Q w =>
      unfold Rounding.vecAddLoop Rounding.partAdd
      rw [if_pos (h 0 P Q rfl rfl), ih fun k P' Q' h1 h2 => h (k + 1) P' Q' h1 h2]
      rfl

/-- **C113.** `add` in floating point: vectors whose parts have the same sizes are added with a relative error of at most `u` in each entry. -/
theorem C113_add (F : Rounding) (u : ℝ) (hs : RelErr u F.s) (v w : SnVec) (hl : v.length = w.length)
    (h : ∀ (k : Nat) (P Q : VPart), v[k]? = some P → w[k]? = some Q → P.d = Q.d ∧ P.m = Q.m) :
    ∃ y, F.vecAdd v w = some y ∧ y.length = v.length ∧ ∀ (k : Nat) (P Q Y : VPart), v[k]? = some P → w[k]? = some Q → y[k]? = some Y →
      Y.irrep = P.irrep ∧ Y.d = P.d ∧ Y.m = P.m ∧ ∀ i j, |Y.data i j - (P.data i j + Q.data i j)| ≤ u * |P.data i j + Q.data i j| := by
  refine ⟨_, by unfold Rounding.vecAdd; rw [if_pos hl]; exact vecAddLoop_eq F h, by simp [hl], fun k P Q Y h1 h2 h3 => ?_⟩
  rw [List.getElem?_zipWith, h1, h2] at h3
  simp only [Option.some.injEq] at h3
  subst h3
  exact ⟨rfl, rfl, rfl, fun i j => hs _⟩

example := C113_add Rounding.ieee us ieee_s [exPart] [exPart] rfl (fun k P Q h1 h2 => by rw [h1] at h2; cases h2; exact ⟨rfl, rfl⟩)

/-- a vector of `S_3` as stored in floating point -/
noncomputable def exPartF : VPart := { exPart with irrep := Rounding.ieee.round exPart.irrep }

theorem exPartF_same : SameEntries Rounding.ieee [exPart] [exPartF] := by
  refine .cons ⟨?_, rfl, rfl, rfl⟩ .nil
  rw [Rounding.mkIrrep_map, (exPart_ok.part exPart (by simp)).2.1]
  rfl

theorem exCalls_mean : List.Forall₂ (ActCall.Means 3) [.cycle 1 3, .swap 2 3, .cycleInv 1 2] [cyc 0 2, Equiv.swap 1 2, (cyc 0 1)⁻¹] :=
  .cons ⟨by norm_num, by norm_num, contiguousCycle_up (n := 3) 0 2 (by decide)⟩ <|
  .cons ⟨by norm_num, by norm_num, transposition_eq (n := 3) 1 2⟩ <|
  .cons ⟨by norm_num, by norm_num, by norm_num, _, contiguousCycle_up (n := 3) 0 1 (by decide), inverse_eq _⟩ .nil

/-- three calls on a vector of `S_3` that cost `2+1+1` adjacent transpositions -/
example : ∃ y y', SnVec.apply [exPart] (enc ([cyc 0 2, Equiv.swap 1 2, (cyc 0 1)⁻¹] : List (Equiv.Perm (Fin 3))).reverse.prod) = some y ∧
    ActCall.run Rounding.ieee [.cycle 1 3, .swap 2 3, .cycleInv 1 2] [exPartF] = some y' ∧ WithinOf (4 / 2 ^ 22) [exPart] y y' := by
  have := C113_ieee 3 (by norm_num) [exPart] [exPartF] exPart_ok exPartF_same _ _ exCalls_mean (by norm_num [ActCall.cost])
  norm_num [ActCall.cost] at this ⊢
  exact this

example := C113_inner Rounding.ieee us ud ieee_s ieee_d (rnd_odd 53) (by norm_num) (by norm_num) (by norm_num) 3 (by norm_num) [exPart] [exPartF]
  exPart_ok exPartF_same _ _ exCalls_mean

/-- a permutation and its inverse -/
example (σ : Equiv.Perm (Fin 3)) := C113_undo Rounding.ieee us ud ieee_s ieee_d (rnd_odd 53) (by norm_num) (by norm_num) (by norm_num) 3 (by norm_num)
  [exPart] [exPartF] exPart_ok exPartF_same [.perm (enc σ), .perm (enc σ⁻¹)] [σ, σ⁻¹] (.cons rfl (.cons rfl .nil)) (by simp)

/-- one permutation after the other, and the product -/
example (σ τ : Equiv.Perm (Fin 3)) := C113_agree Rounding.ieee us ud ieee_s ieee_d (rnd_odd 53) (by norm_num) (by norm_num) (by norm_num) 3
  (by norm_num) [exPart] [exPartF] exPart_ok exPartF_same [.perm (enc σ), .perm (enc τ)] [.perm (enc (τ * σ))] [σ, τ] [τ * σ]
  (.cons rfl (.cons rfl .nil)) (.cons rfl .nil) (by simp)

end Snob.Props
