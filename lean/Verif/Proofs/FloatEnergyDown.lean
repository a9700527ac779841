import Verif.Proofs.FloatEnergy

/-! # The size of the rounding errors of a transform, relative to the function: whole transforms

`FloatEnergy` has one step up.  Here: all steps up, one step down, all steps down. -/

namespace Snob

open IP
open scoped Nat

/-! ## Reindexing over the diagonal blocks -/

open Classical in
theorem sum_blk_good {m l : Nat} {p : List Nat} (hm : m ≤ l) (hp : IsPartition (l + 1) p) (h : Wd (l + 1) p → ℝ) :
    ∑ q : Pt l, ∑ x : Wd l q.1, (if goodW m x.1 = true then blk hp q.2 (fun _ b => h b) x x else 0) =
      ∑ w : Wd (l + 1) p, if goodW m w.1 = true then h w else 0 := by
  have e1 : ∀ (q : Pt l) (x : Wd l q.1), (if goodW m x.1 = true then blk hp q.2 (fun _ b => h b) x x else 0) =
      ∑ w : Wd (l + 1) p, if ∃ r, ∃ hb : AddsBoxAt q.1 p r, w = emb hp q.2 hb x then (if goodW m w.1 = true then h w else 0) else 0 := by
    intro q x
    by_cases hb : AddsBox q.1 p
    · obtain ⟨r, hb⟩ := hb
      rw [blk_eq hp q.2 hb, Finset.sum_eq_single (emb hp q.2 hb x)]
      · have : ∃ r', ∃ hb' : AddsBoxAt q.1 p r', emb hp q.2 hb x = emb hp q.2 hb' x := ⟨r, hb, rfl⟩
        rw [if_pos this, good_emb hp q.2 hb hm]
      · rintro w - hw
        rw [if_neg]
        rintro ⟨r', hb', rfl⟩
        obtain rfl := addsBoxAt_unique hb hb'
        exact hw rfl
      · exact fun h => absurd (Finset.mem_univ _) h
    · rw [blk_none hp q.2 hb, ite_self, Finset.sum_eq_zero]
      intro w _
      rw [if_neg]
      rintro ⟨r, hb', -⟩
      exact hb ⟨r, hb'⟩
  simp only [e1]
  rw [Finset.sum_congr rfl fun q _ => Finset.sum_comm, Finset.sum_comm]
  refine Finset.sum_congr rfl fun w _ => ?_
  obtain ⟨q0, -, hq0, r0, hb0, x0, rfl⟩ := exists_emb hp w
  rw [Finset.sum_eq_single (⟨q0, hq0⟩ : Pt l), Finset.sum_eq_single x0, if_pos ⟨r0, hb0, rfl⟩]
  · rintro x - hx
    rw [if_neg]
    rintro ⟨r', hb', h⟩
    obtain rfl := addsBoxAt_unique hb0 hb'
    exact hx (emb_injective hp hq0 hb0 h).symm
  · exact fun h => absurd (Finset.mem_univ _) h
  · rintro q - hq
    refine Finset.sum_eq_zero fun x _ => ?_
    rw [if_neg]
    rintro ⟨r', hb', h⟩
    have hr : r0 = r' := (List.cons.inj (congrArg Subtype.val h)).1
    subst hr
    exact hq (Subtype.ext (sub_unique q.2 hq0 hb' hb0))
  · exact fun h => absurd (Finset.mem_univ _) h

/-! ## Composition -/

theorem nrm_compose {K : Nat} {f g h : Nat → ℝ} {a b : ℝ} (hb : 0 ≤ b) (h1 : nrm K (fun e => g e - f e) ≤ a * nrm K f)
    (h2 : nrm K (fun e => h e - g e) ≤ b * nrm K g) : nrm K (fun e => h e - f e) ≤ ((1 + a) * (1 + b) - 1) * nrm K f := by
  have e1 : nrm K (fun e => h e - f e) ≤ nrm K (fun e => h e - g e) + nrm K (fun e => g e - f e) := by
    refine le_trans (le_of_eq (nrm_congr fun e _ => ?_)) (nrm_add K _ _)
    ring
  have e2 : nrm K g ≤ nrm K (fun e => g e - f e) + nrm K f := by
    refine le_trans (le_of_eq (nrm_congr fun e _ => ?_)) (nrm_add K _ _)
    ring
  have e3 : b * nrm K g ≤ b * ((1 + a) * nrm K f) := mul_le_mul_of_nonneg_left (by linarith) hb
  nlinarith

section
variable {u η : ℝ} {F : Rounding}

/-- the growth of the relative error over the steps up from `m` to `n` -/
noncomputable def upFac (u η : ℝ) (m n : Nat) : ℝ :=
  ∏ l ∈ Finset.Ico m n, (1 + √((l : ℝ) + 1) * ((1 + η) ^ l * (1 + u) ^ (l + 2) - 1))

/-- the growth of the relative error over the steps down from `n` to `m` -/
noncomputable def downFac (u η : ℝ) (m n : Nat) : ℝ :=
  ∏ l ∈ Finset.Ico m n, (1 + √((l : ℝ) + 1) * ((1 + η) ^ l * (1 + u) ^ (l + 6) - 1))

theorem fac_step_nonneg (hu : 0 ≤ u) (hη : 0 ≤ η) (l k : Nat) : 0 ≤ √((l : ℝ) + 1) * ((1 + η) ^ l * (1 + u) ^ k - 1) := by
  refine mul_nonneg (Real.sqrt_nonneg _) ?_
  have : (1 : ℝ) ≤ (1 + η) ^ l * (1 + u) ^ k :=
    one_le_mul_of_one_le_of_one_le (one_le_pow₀ (by linarith)) (one_le_pow₀ (by linarith))
  linarith

theorem one_le_prod_real {s : Finset Nat} {g : Nat → ℝ} (h : ∀ l ∈ s, 1 ≤ g l) : 1 ≤ ∏ l ∈ s, g l := by
  induction s using Finset.induction_on with
  | empty => simp
  | insert a s ha ih =>
    rw [Finset.prod_insert ha]
    exact one_le_mul_of_one_le_of_one_le (h a (Finset.mem_insert_self _ _)) (ih fun l hl => h l (Finset.mem_insert_of_mem hl))

theorem one_le_upFac (hu : 0 ≤ u) (hη : 0 ≤ η) (m n : Nat) : 1 ≤ upFac u η m n := by
  refine one_le_prod_real fun l _ => ?_
  have := fac_step_nonneg hu hη l (l + 2)
  linarith

theorem one_le_downFac (hu : 0 ≤ u) (hη : 0 ≤ η) (m n : Nat) : 1 ≤ downFac u η m n := by
  refine one_le_prod_real fun l _ => ?_
  have := fac_step_nonneg hu hη l (l + 6)
  linarith

theorem quot_quot {m l n : Nat} (h1 : m ≤ l) (h2 : l ≤ n) : n ! / l ! * (l ! / m !) = n ! / m ! := by
  refine (Nat.div_eq_of_eq_mul_left (Nat.factorial_pos _) ?_).symm
  rw [Nat.mul_assoc, quot_mul h1, quot_mul h2]

/-! ## All steps up -/

theorem upLoop_energy (hs : RelErr u F.s) (hu : 0 ≤ u) {ap fap : ViewAct} {m n : Nat} (hm : 0 < m)
    (Ls : List LevelT) {l : Nat} {L : LevelT} (hl : m ≤ l) (hn : n = l + Ls.length) (hap : ∀ k, l < k → k ≤ n → ActOk ap m k)
    (hfap : ∀ k, l < k → k ≤ n → FActOk fap η m k) (hη : 0 ≤ η) {ord : Nat → SumTree} (hord : ∀ k, l < k → k ≤ n → (ord k).Covers k)
    (hC : ChainOk m l (L :: Ls)) (f : Nat → ℝ) {v : List MPart} (hv : VecOk m l (n ! / l !) (tF m f l) v) :
    ∃ f' v', F.upLoop fap ord Ls v = some v' ∧ VecOk m n 1 (tF m f' n) v' ∧
      nrm (n ! / m !) (fun e => f' e - f e) ≤ (upFac u η l n - 1) * nrm (n ! / m !) f := by
  induction Ls generalizing l L v f with
  | nil =>
    obtain rfl : n = l := hn
    rw [quot_self] at hv
    refine ⟨f, v, rfl, hv, ?_⟩
    unfold upFac
    rw [Finset.Ico_self, Finset.prod_empty]
    simp only [sub_self, zero_mul]
    rw [nrm_zero]
  | cons L' Ls ih =>
    simp only [List.length_cons] at hn
    rcases hC with _ | ⟨hL, hB, hC⟩
    have hL' : LevelOk m (l + 1) L' := by
      cases hC <;> assumption
    rw [quot_pred (n := n) (l := l) (by omega)] at hv
    obtain ⟨f1, v1, h1, h2, -, h4⟩ := up_energy hs hu hm hl (hap (l + 1) (by omega) (by omega)) (hfap (l + 1) (by omega) (by omega)) hη
      (hord (l + 1) (by omega) (by omega)) hL' hB hv
    rw [quot_quot (by omega) (by omega)] at h4
    obtain ⟨f', v', k1, k2, k3⟩ := ih (l := l + 1) (by omega) (by omega) (fun k h h' => hap k (by omega) h')
      (fun k h h' => hfap k (by omega) h') (fun k h h' => hord k (by omega) h') hC f1 h2
    refine ⟨f', v', ?_, k2, ?_⟩
    · rw [Rounding.upLoop, h1]; exact k1
    · have := nrm_compose (by linarith [one_le_upFac hu hη (l + 1) n]) h4 k3
      refine this.trans (le_of_eq ?_)
      have : upFac u η l n = (1 + √((l : ℝ) + 1) * ((1 + η) ^ l * (1 + u) ^ (l + 2) - 1)) * upFac u η (l + 1) n := by
        unfold upFac
        rw [Finset.prod_eq_prod_Ico_succ_bot (by omega)]
      rw [this]
      ring

/-- the computed transform of a function is the exact transform of a function close to it -/
theorem fft_energy (hs : RelErr u F.s) (hu : 0 ≤ u) {ap fap : ViewAct} {m n : Nat} (f : Nat → ℝ) (hm : 0 < m) (hn : m ≤ n)
    (hap : ∀ k, m < k → k ≤ n → ActOk ap m k) (hfap : ∀ k, m < k → k ≤ n → FActOk fap η m k) (hη : 0 ≤ η) {ord : Nat → SumTree}
    (hord : ∀ k, m < k → k ≤ n → (ord k).Covers k) {Ls : List LevelT} (hLs : fftLevels n m = some Ls) :
    ∃ f' ws', F.fftWith fap ord Ls (n ! / m !) f = some ws' ∧ FOk m n (fun p hp u w => tF m f' n p hp 0 u w) ws' ∧
      nrm (n ! / m !) (fun e => f' e - f e) ≤ (upFac u η m n - 1) * nrm (n ! / m !) f := by
  obtain ⟨Ls', h1, h2, h3⟩ := fftLevels_ok hm hn
  obtain rfl : Ls' = Ls := Option.some.inj (h1.symm.trans hLs)
  obtain ⟨P, hP, hv⟩ := start_ok (m := m) (N := n ! / m !) hm f
  obtain ⟨L, Lt, rfl⟩ : ∃ L Lt, Ls' = L :: Lt := by
    rcases Ls' with _ | ⟨L, Lt⟩
    · simp at h2
    · exact ⟨L, Lt, rfl⟩
  simp only [List.length_cons] at h2
  obtain ⟨f', v', k1, k2, k3⟩ := upLoop_energy (ap := ap) hs hu hm Lt (Nat.le_refl m) (by omega) hap hfap hη hord h3 f hv
  obtain ⟨ws, w1, w2, w3⟩ := mapM_exists MPart.toPart v'
    (fun i P W => W = ⟨P.d, P.m, P.irrep, fun i j => P.data i (0, j)⟩) (by
    intro i P hi
    have hi' : i < (PL m n).length := by rw [← k2.len]; exact (List.getElem?_eq_some_iff.1 hi).1
    obtain ⟨hp, -⟩ := (mem_PL (by omega) _).1 (List.getElem_mem hi')
    obtain ⟨P', a1, a2⟩ := k2.part i _ hp (List.getElem?_eq_getElem hi')
    obtain rfl : P' = P := Option.some.inj (a1.symm.trans hi)
    refine ⟨_, ?_, rfl⟩
    unfold MPart.toPart
    rw [if_pos a2.N_eq])
  refine ⟨f', ws, ?_, ⟨w2.trans k2.len, fun i p hp hi => ?_⟩, k3⟩
  · unfold Rounding.fftWith
    rw [hP]
    simp only [Option.bind_eq_bind, Option.bind_some, List.tail_cons]
    rw [k1]
    exact w1
  · obtain ⟨P', a1, a2⟩ := k2.part i p hp hi
    obtain ⟨W, b1, rfl⟩ := w3 i P' a1
    exact ⟨_, b1, a2.d_eq, a2.m_eq, fun u w hw => a2.data u w hw 0 (by omega)⟩

/-! ## One step down -/

theorem wtBound_sq {m l : Nat} (hm : m ≤ l) (hl : 0 < l) {q : List Nat} (hq : IsPartition l q) (x : Wd l q) (hx : goodW m x.1 = true) (s : Nat)
    (M : List Nat → Nat → Nat → ℝ) (h : (p : List Nat) → IsPartition (l + 1) p → Wd (l + 1) p → ℝ)
    (h0 : ∀ p hp w, 0 ≤ h p hp w)
    (hM : ∀ p (hp : IsPartition (l + 1) p), m ≤ row p 0 → ∀ w : Wd (l + 1) p, goodW m w.1 = true →
      M p s (colIx m (l + 1) p w.1) * M p s (colIx m (l + 1) p w.1) = h p hp w) :
    wtBound m l M q s (colIx m l q x.1) (PL m (l + 1)) * wtBound m l M q s (colIx m l q x.1) (PL m (l + 1)) ≤
      ∑ p : Pt (l + 1), wt l p.1 q * blk p.2 hq (fun _ b => h p.1 p.2 b) x x := by
  classical
  have hqm : m ≤ row q 0 := by
    rw [← ((mem_words hq x.1).1 x.2).2 0]
    exact goodW_count hx (by rw [x.length hq]; exact hm)
  have hblk : ∀ p : Pt (l + 1), 0 ≤ blk p.2 hq (fun _ b => h p.1 p.2 b) x x := by
    intro p
    by_cases hb : AddsBox q p.1
    · obtain ⟨r, hb⟩ := hb
      rw [blk_eq p.2 hq hb]
      exact h0 _ _ _
    · rw [blk_none p.2 hq hb]
  have hone := wtSum_one (m := m) hl hq hqm
  unfold wtSum at hone
  unfold wtBound
  rw [sum_PL (by omega)] at hone ⊢
  have key : ∀ p : Pt (l + 1), ((if m ≤ row p.1 0 then (if q ∈ subsM m p.1 then wt l p.1 q * M p.1 s (colIx m l q x.1 + blockOff m l p.1 q) else 0) else 0 : ℝ)) ^ 2 =
      (if m ≤ row p.1 0 then (if q ∈ subsM m p.1 then wt l p.1 q else 0) else 0) *
        (if m ≤ row p.1 0 then (if q ∈ subsM m p.1 then wt l p.1 q * blk p.2 hq (fun _ b => h p.1 p.2 b) x x else 0) else 0) := by
    intro p
    by_cases h1 : m ≤ row p.1 0
    · by_cases h2 : q ∈ subsM m p.1
      · simp only [if_pos h1, if_pos h2]
        obtain ⟨S1, S2, hS⟩ := List.append_of_mem h2
        obtain ⟨⟨-, r, hb⟩, -⟩ := (mem_subsM p.2 q).1 h2
        rw [blk_eq p.2 hq hb, ← hM p.1 p.2 h1 _ (by rw [good_emb p.2 hq hb hm]; exact hx), colIx_emb hm p.2 hq hb x hx hS, blockOff_eq hS,
          Nat.add_comm (colIx m l q x.1)]
        ring
      · simp only [if_pos h1, if_neg h2]; ring
    · simp only [if_neg h1]; ring
  have cs := Finset.sum_sq_le_sum_mul_sum_of_sq_eq_mul (Finset.univ : Finset (Pt (l + 1)))
    (r := fun p => if m ≤ row p.1 0 then (if q ∈ subsM m p.1 then wt l p.1 q * M p.1 s (colIx m l q x.1 + blockOff m l p.1 q) else 0) else 0)
    (f := fun p => if m ≤ row p.1 0 then (if q ∈ subsM m p.1 then wt l p.1 q else 0) else 0)
    (g := fun p => if m ≤ row p.1 0 then (if q ∈ subsM m p.1 then wt l p.1 q * blk p.2 hq (fun _ b => h p.1 p.2 b) x x else 0) else 0)
    (by
      intro p _
      have := (wt_pos p.2 hq).le
      beta_reduce
      split_ifs <;> first | exact this | exact le_refl _)
    (by
      intro p _
      have := mul_nonneg (wt_pos p.2 hq).le (hblk p)
      beta_reduce
      split_ifs <;> first | exact this | exact le_refl _)
    (fun p _ => key p)
  rw [hone, one_mul, sq] at cs
  refine cs.trans (Finset.sum_le_sum fun p _ => ?_)
  have := mul_nonneg (wt_pos p.2 hq).le (hblk p)
  split_ifs <;> first | exact this | exact le_refl _

theorem down_energy (hs : RelErr u F.s) (hu : 0 ≤ u) (hu2 : u ≤ 1 / 2) {ap fap : ViewAct} {m l N : Nat} (hm0 : 0 < m) (hm : m ≤ l)
    (hap : ActOk ap m (l + 1)) (hfap : FActOk fap η m (l + 1)) (hη : 0 ≤ η) {L L' : LevelT}
    (hL : LevelOk m l L) (hL' : LevelOk m (l + 1) L') (hB : BlocksOk m l L') {f : Nat → ℝ} {V : List MPart}
    (hV : VecOk m (l + 1) N (tF m f (l + 1)) V) (hi : IrrOk m (l + 1) V) :
    ∃ f' w', F.levelDown fap L L' V = some w' ∧ IrrOk m l w' ∧ VecOk m l (N * (l + 1)) (tF m f' l) w' ∧
      nrm (N * ((l + 1)! / m !)) (fun e => f' e - f e) ≤
        √((l : ℝ) + 1) * ((1 + η) ^ l * (1 + u) ^ (l + 6) - 1) * nrm (N * ((l + 1)! / m !)) f := by
  classical
  have hl : 0 < l := by omega
  obtain ⟨w, h1, h2, h3⟩ := down_step hm hl hap hL hL' hB hV hi
  have h3' : VecOk m l (N * (l + 1)) (tF m f l) w := by
    refine ⟨h3.len, fun i p hp hi => ?_⟩
    obtain ⟨P, a1, a2⟩ := h3.part i p hp hi
    refine ⟨P, a1, a2.N_eq, a2.d_eq, a2.m_eq, fun u w hw s hs => ?_⟩
    rw [a2.data u w hw s hs, downG_tF hm]
  let M : List Nat → Nat → Nat → ℝ := fun p c j =>
    match V[(PL m (l + 1)).idxOf p]? with
    | some P => nrm P.d (fun i => P.data i (c, j))
    | none => 0
  have hMP : ∀ (i : Nat) (p : List Nat) (P : MPart), (PL m (l + 1))[i]? = some p → V[i]? = some P → ∀ c j, M p c j = nrm P.d (fun i => P.data i (c, j)) := by
    intro i p P hip hP c j
    obtain ⟨hlt, rfl⟩ := List.getElem?_eq_some_iff.1 hip
    have : (PL m (l + 1)).idxOf (PL m (l + 1))[i] = i := (PL_nodup (m := m) (l := l + 1)).idxOf_getElem i hlt
    simp only [M, this, hP]
  have hVV : VNear m (l + 1) 1 M V V := by
    refine ⟨rfl, fun i q P P' h0 h1 h2 => ?_⟩
    obtain rfl : P = P' := Option.some.inj (h1.symm.trans h2)
    refine ⟨rfl, rfl, rfl, rfl, fun c _ j _ => ⟨le_of_eq (hMP i q P h0 h1 c j).symm, ?_⟩⟩
    simp only [sub_self, zero_mul, nrm_zero, le_refl]
  obtain ⟨w', k1, k2⟩ := down_near hs hu hu2 hm hl hap hfap hη hL hL' hB hV hi (le_refl 1) hVV h1
  have hpart : ∀ (i : Nat) (p : List Nat) (Q : MPart), (PL m l)[i]? = some p → w'[i]? = some Q → ∃ P, w[i]? = some P ∧
      MNear (1 * ((1 + η) ^ l * (1 + u) ^ (l + 6))) (fun c j => wtBound m l (fun p c => M p (c / (l + 1))) p c j (PL m (l + 1))) P Q := by
    intro i p Q hip hQ
    have hlt : i < w.length := by rw [k2.1]; exact (List.getElem?_eq_some_iff.1 hQ).1
    exact ⟨_, List.getElem?_eq_getElem hlt, k2.2 i p _ Q hip (List.getElem?_eq_getElem hlt) hQ⟩
  obtain ⟨f', hf'⟩ : ∃ f', VecOk m l (N * (l + 1)) (tF m f' l) w' := by
    refine exists_fun hm0 hm (by rw [← k2.1]; exact h3.len) fun i p Q hip hQ => ?_
    obtain ⟨P, hP, hn⟩ := hpart i p Q hip hQ
    have hp := ((mem_PL hl _).1 (List.mem_of_getElem? hip)).1
    obtain ⟨P2, a1, a2⟩ := h3.part i p hp hip
    obtain rfl : P = P2 := Option.some.inj (hP.symm.trans a1)
    exact ⟨hn.N.trans a2.N_eq, hn.d.trans a2.d_eq, hn.m.trans a2.m_eq⟩
  refine ⟨f', w', k1, fun i q Q hiq hQ => ?_, hf', ?_⟩
  · obtain ⟨P, hP, hn⟩ := hpart i q Q hiq hQ
    rw [hn.irrep]
    exact h2 i q P hiq hP
  have hg : (0 : ℝ) ≤ (1 + η) ^ l * (1 + u) ^ (l + 6) - 1 := by
    have : (1 : ℝ) ≤ (1 + η) ^ l * (1 + u) ^ (l + 6) :=
      one_le_mul_of_one_le_of_one_le (one_le_pow₀ (by linarith)) (one_le_pow₀ (by linarith))
    linarith
  have hK : (0 : ℝ) < (l ! / m ! : ℕ) := by
    exact_mod_cast Nat.div_pos (Nat.factorial_le hm) (Nat.factorial_pos _)
  set C := (1 + η) ^ l * (1 + u) ^ (l + 6) - 1 with hCdef
  have hd := energy_diff hm0 hm h3' hf' (C := C)
    (B := fun q hq s x => wtBound m l (fun p c => M p (c / (l + 1))) q s (colIx m l q x.1) (PL m (l + 1))) (by
    intro i q hq P Q hiq hP hQ s hs x hx
    obtain ⟨P2, hP2, hn⟩ := hpart i q Q hiq hQ
    obtain rfl : P2 = P := Option.some.inj (hP2.symm.trans hP)
    obtain ⟨P3, a1, a2⟩ := h3'.part i q hq hiq
    obtain rfl : P3 = P2 := Option.some.inj (a1.symm.trans hP)
    have := (hn.col s (by rw [a2.N_eq]; exact hs) _ (by rw [a2.m_eq]; exact colIx_lt x hx)).err
    rw [one_mul] at this
    exact this)
  have e0 : N * ((l + 1)! / m !) = N * (l + 1) * (l ! / m !) := by rw [quot_succ hm, Nat.mul_assoc]
  have en := energy hm0 (show m ≤ l + 1 by omega) f N
  refine nrm_le_of_energy hK (mul_nonneg (Real.sqrt_nonneg _) hg) ?_
  rw [e0]
  refine hd.trans ?_
  rw [← e0, show √((l : ℝ) + 1) * C * (√((l : ℝ) + 1) * C) = C * C * (√((l : ℝ) + 1) * √((l : ℝ) + 1)) by ring,
    Real.mul_self_sqrt (by positivity), mul_assoc (C * C)]
  refine mul_le_mul_of_nonneg_left ?_ (mul_self_nonneg C)
  have e2 : ((l : ℝ) + 1) * ((l ! / m ! : ℕ) * ∑ e ∈ Finset.range (N * ((l + 1)! / m !)), f e * f e) =
      ∑ s ∈ Finset.range N, ∑ p : Pt (l + 1), (dimW (l + 1) p.1 : ℝ) * goodDot m (tF m f (l + 1) p.1 p.2 s) (tF m f (l + 1) p.1 p.2 s) := by
    rw [en, ← mul_assoc]
    congr 1
    rw [quot_succ hm]
    push_cast
    ring
  rw [e2, sum_range_mul']
  -- one slice
  have slice : ∀ c < N, ∀ t ∈ Finset.range (l + 1),
      ∑ q : Pt l, (dimW l q.1 : ℝ) * ∑ x : Wd l q.1, (if goodW m x.1 = true then
        wtBound m l (fun p c => M p (c / (l + 1))) q.1 (c * (l + 1) + t) (colIx m l q.1 x.1) (PL m (l + 1)) *
        wtBound m l (fun p c => M p (c / (l + 1))) q.1 (c * (l + 1) + t) (colIx m l q.1 x.1) (PL m (l + 1)) else 0) ≤
      ∑ p : Pt (l + 1), (dimW (l + 1) p.1 : ℝ) / ((l : ℝ) + 1) * goodDot m (tF m f (l + 1) p.1 p.2 c) (tF m f (l + 1) p.1 p.2 c) := by
    intro c hc t ht
    have hct : (c * (l + 1) + t) / (l + 1) = c := by
      rw [Nat.mul_comm, Nat.mul_add_div (by omega), Nat.div_eq_of_lt (Finset.mem_range.1 ht), Nat.add_zero]
    let h : (p : List Nat) → IsPartition (l + 1) p → Wd (l + 1) p → ℝ := fun p hp b => ∑ y, tF m f (l + 1) p hp c y b * tF m f (l + 1) p hp c y b
    have hb : ∀ (q : Pt l) (x : Wd l q.1), (if goodW m x.1 = true then
        wtBound m l (fun p c => M p (c / (l + 1))) q.1 (c * (l + 1) + t) (colIx m l q.1 x.1) (PL m (l + 1)) *
        wtBound m l (fun p c => M p (c / (l + 1))) q.1 (c * (l + 1) + t) (colIx m l q.1 x.1) (PL m (l + 1)) else 0) ≤
        ∑ p : Pt (l + 1), wt l p.1 q.1 * (if goodW m x.1 = true then blk p.2 q.2 (fun _ b => h p.1 p.2 b) x x else 0) := by
      intro q x
      by_cases hx : goodW m x.1 = true
      · simp only [if_pos hx]
        refine wtBound_sq hm hl q.2 x hx _ _ h (fun p hp w => Finset.sum_nonneg fun y _ => mul_self_nonneg _) ?_
        intro p hp hpm b hb
        have hmem : p ∈ PL m (l + 1) := (mem_PL (by omega) p).2 ⟨hp, hpm⟩
        obtain ⟨i, hi'⟩ := List.mem_iff_getElem?.1 hmem
        obtain ⟨P, a1, a2⟩ := hV.part i p hp hi'
        rw [hct, hMP i p P hi' a1, a2.d_eq, nrm_rows hp]
        refine Finset.sum_congr rfl fun y _ => ?_
        rw [a2.data y b hb c hc]
      · simp only [if_neg hx, mul_zero, Finset.sum_const_zero, le_refl]
    calc _ ≤ ∑ q : Pt l, (dimW l q.1 : ℝ) * ∑ x : Wd l q.1, ∑ p : Pt (l + 1), wt l p.1 q.1 *
            (if goodW m x.1 = true then blk p.2 q.2 (fun _ b => h p.1 p.2 b) x x else 0) :=
          Finset.sum_le_sum fun q _ => mul_le_mul_of_nonneg_left (Finset.sum_le_sum fun x _ => hb q x) (Nat.cast_nonneg _)
      _ = ∑ p : Pt (l + 1), (dimW (l + 1) p.1 : ℝ) / ((l : ℝ) + 1) * ∑ q : Pt l, ∑ x : Wd l q.1,
            (if goodW m x.1 = true then blk p.2 q.2 (fun _ b => h p.1 p.2 b) x x else 0) := by
          rw [Finset.sum_congr rfl fun (q : Pt l) _ => congrArg ((dimW l q.1 : ℝ) * ·) Finset.sum_comm]
          simp only [Finset.mul_sum]
          rw [Finset.sum_comm]
          refine Finset.sum_congr rfl fun p _ => Finset.sum_congr rfl fun q _ => Finset.sum_congr rfl fun x _ => ?_
          rw [← mul_assoc]
          congr 1
          unfold wt
          have hq0 : (dimW l q.1 : ℝ) ≠ 0 := by exact_mod_cast (dimW_pos q.2).ne'
          field_simp
      _ = _ := by
          refine Finset.sum_congr rfl fun p _ => ?_
          rw [sum_blk_good hm p.2]
          congr 1
  refine Finset.sum_le_sum fun c hc => ?_
  refine (Finset.sum_le_sum fun t ht => slice c (Finset.mem_range.1 hc) t ht).trans (le_of_eq ?_)
  rw [Finset.sum_const, Finset.card_range, nsmul_eq_mul, Finset.mul_sum]
  refine Finset.sum_congr rfl fun p _ => ?_
  push_cast
  field_simp

/-! ## All steps down -/

theorem downFac_step {l n : Nat} (h : l < n) :
    downFac u η l n = (1 + √((l : ℝ) + 1) * ((1 + η) ^ l * (1 + u) ^ (l + 6) - 1)) * downFac u η (l + 1) n := by
  unfold downFac
  rw [Finset.prod_eq_prod_Ico_succ_bot h]

theorem downLoop_energy (hs : RelErr u F.s) (hu : 0 ≤ u) (hu2 : u ≤ 1 / 2) {ap fap : ViewAct} {m n : Nat} (f : Nat → ℝ) (hm : 0 < m)
    (Ls : List LevelT) {l : Nat} {L : LevelT} (hl : m ≤ l) (hn : n = l + Ls.length) (hap : ∀ k, l < k → k ≤ n → ActOk ap m k)
    (hfap : ∀ k, l < k → k ≤ n → FActOk fap η m k) (hη : 0 ≤ η) (hC : ChainOk m l (L :: Ls)) {V : List MPart}
    (hV : VecOk m n 1 (tF m f n) V) (hi : m < n → IrrOk m n V) :
    ∃ f' v', F.downLoop fap (L :: Ls) V = some v' ∧ (m < n → IrrOk m l v') ∧ VecOk m l (n ! / l !) (tF m f' l) v' ∧
      nrm (n ! / m !) (fun e => f' e - f e) ≤ (downFac u η l n - 1) * nrm (n ! / m !) f := by
  induction Ls generalizing l L with
  | nil =>
    obtain rfl : n = l := hn
    rw [quot_self]
    refine ⟨f, V, by rw [Rounding.downLoop]; simp, hi, hV, ?_⟩
    unfold downFac
    rw [Finset.Ico_self, Finset.prod_empty]
    simp only [sub_self, zero_mul]
    rw [nrm_zero]
  | cons L' Ls ih =>
    simp only [List.length_cons] at hn
    rcases hC with _ | ⟨hL, hB, hC⟩
    have hL' : LevelOk m (l + 1) L' := by
      cases hC <;> assumption
    obtain ⟨f1, v1, k1, k2, k3, k4⟩ := ih (l := l + 1) (by omega) (by omega) (fun k h h' => hap k (by omega) h')
      (fun k h h' => hfap k (by omega) h') hC
    obtain ⟨f', w', j1, j2, j3, j4⟩ := down_energy hs hu hu2 hm hl (hap (l + 1) (by omega) (by omega)) (hfap (l + 1) (by omega) (by omega)) hη
      hL hL' hB k3 (k2 (by omega))
    rw [quot_quot (by omega) (by omega)] at j4
    refine ⟨f', w', ?_, fun _ => j2, ?_, ?_⟩
    · rw [Rounding.downLoop, k1]; exact j1
    · rw [quot_pred (n := n) (l := l) (by omega)]
      exact j3
    · have := nrm_compose (fac_step_nonneg hu hη l (l + 6)) k4 j4
      refine this.trans (le_of_eq ?_)
      rw [downFac_step (show l < n by omega)]
      ring

/-- what the inverse computes from an exact transform is close to the function -/
theorem ifft_energy (hs : RelErr u F.s) (hu : 0 ≤ u) (hu2 : u ≤ 1 / 2) {ap fap : ViewAct} {m n : Nat} (f : Nat → ℝ) (hm : 0 < m)
    (hn : m ≤ n) (hap : ∀ k, m < k → k ≤ n → ActOk ap m k) (hfap : ∀ k, m < k → k ≤ n → FActOk fap η m k) (hη : 0 ≤ η)
    {ws : List VPart} (hw : FOk m n (fun p hp u w => tF m f n p hp 0 u w) ws)
    (hi : m < n → ∀ (i : Nat) (p : List Nat) (W : VPart), (PL m n)[i]? = some p → ws[i]? = some W → mkIrrep p = some W.irrep)
    {Ls : List LevelT} (hLs : fftLevels n m = some Ls) :
    ∃ g, F.ifftWith fap Ls ws = some (n ! / m !, g) ∧
      nrm (n ! / m !) (fun e => g e - f e) ≤ (downFac u η m n - 1) * nrm (n ! / m !) f := by
  obtain ⟨Ls', h1, h2, h3⟩ := fftLevels_ok hm hn
  obtain rfl : Ls' = Ls := Option.some.inj (h1.symm.trans hLs)
  obtain ⟨L, Ls'', rfl⟩ : ∃ L Ls'', Ls' = L :: Ls'' := by
    rcases Ls' with _ | ⟨L, Ls'⟩
    · simp at h2
    · exact ⟨L, Ls', rfl⟩
  simp only [List.length_cons] at h2
  have hlast := chain_last _ _ _ h3
  rw [show m + Ls''.length = n by omega] at hlast
  have hV : VecOk m n 1 (tF m f n) (ws.map MPart.ofPart) := by
    refine ⟨by rw [List.length_map]; exact hw.len, fun i p hp hi => ?_⟩
    obtain ⟨W, a1, a2, a3, a4⟩ := hw.part i p hp hi
    refine ⟨MPart.ofPart W, by rw [List.getElem?_map, a1]; rfl, rfl, a2, a3, fun u w hgw s hs => ?_⟩
    obtain rfl : s = 0 := by omega
    exact a4 u w hgw
  have hI : m < n → IrrOk m n (ws.map MPart.ofPart) := by
    intro hmn i p M h1 h2
    rw [List.getElem?_map] at h2
    obtain ⟨W, hW, rfl⟩ := Option.map_eq_some_iff.1 h2
    exact hi hmn i p W h1 hW
  obtain ⟨f', v', k1, -, k3, k4⟩ := downLoop_energy (ap := ap) hs hu hu2 f hm Ls'' (Nat.le_refl m) (by omega) hap hfap hη h3 hV hI
  have hPL0 : (PL m m)[0]? = some [m] := by rw [PL_self hm]; rfl
  obtain ⟨P, p1, p2⟩ := k3.part 0 [m] (isPartition_row hm) hPL0
  have hd : P.d = 1 := by rw [p2.d_eq]; simp [dimW, words_self hm]
  have hmm : P.m = 1 := by rw [p2.m_eq]; simp [colW_self hm]
  refine ⟨fun e => P.data (e / (P.N * P.m)) (e / P.m % P.N, e % P.m), ?_, ?_⟩
  · unfold Rounding.ifftWith
    rw [List.getLast?_eq_some_getLast (by simp)]
    simp only [Option.bind_eq_bind, Option.bind_some]
    rw [if_pos]
    · rw [k1]
      simp only [Option.bind_some]
      rw [List.head?_eq_getElem?, p1]
      simp only [Option.bind_some]
      rw [hd, hmm, p2.N_eq, Nat.one_mul, Nat.mul_one]
    · rw [dimsOk_iff]
      refine ⟨by rw [hw.len, ← hlast.keys, List.length_map], fun i p w a b => ?_⟩
      have hk : (PL m n)[i]? = some p.irrep.lambda := by
        rw [← hlast.keys, List.getElem?_map, a]; rfl
      have hp := ((mem_PL (by omega) _).1 (List.mem_of_getElem? hk)).1
      obtain ⟨W, a1, a2, a3, -⟩ := hw.part i _ hp hk
      obtain rfl : W = w := Option.some.inj (a1.symm.trans b)
      obtain ⟨-, -, b1, b2⟩ := hlast.part i p a
      exact ⟨a2.trans b1.symm, a3.trans b2.symm⟩
  · refine le_trans (le_of_eq (nrm_congr fun e he => ?_)) k4
    have hu : List.replicate m 0 ∈ words m [m] := by rw [words_self hm]; simp
    have hgood : goodW m (List.replicate m 0) = true := by
      have : List.replicate m 0 ∈ colW m m [m] := by rw [colW_self hm]; simp
      exact (List.mem_filter.1 this).2
    have h := p2.data ⟨_, hu⟩ ⟨_, hu⟩ hgood e he
    have r0 : rowIx m [m] (List.replicate m 0) = 0 := by unfold rowIx; rw [words_self hm]; simp
    have c0 : colIx m m [m] (List.replicate m 0) = 0 := by unfold colIx; rw [colW_self hm]; simp
    simp only at h
    rw [r0, c0] at h
    have hf : f' e = P.data 0 (e, 0) := by
      rw [h]
      simp only [tF, quot_self, Finset.range_one, Finset.sum_singleton, Nat.mul_one, Nat.add_zero]
      rw [rho_row hm, mul_one]
    simp only [hmm, p2.N_eq, Nat.mul_one, Nat.div_one, Nat.mod_one]
    rw [Nat.div_eq_of_lt he, Nat.mod_eq_of_lt he, hf]

end

end Snob
