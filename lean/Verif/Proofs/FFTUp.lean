import Verif.Proofs.FFTBlock
import Verif.Proofs.ViewSpec

/-! # One step of the forward transform -/

namespace Snob

open IP Snob.Perm

theorem mapM_exists {α β : Type} (f : α → Option β) (l : List α) (Q : Nat → α → β → Prop)
    (h : ∀ (i : Nat) (x : α), l[i]? = some x → ∃ y, f x = some y ∧ Q i x y) :
    ∃ ys, l.mapM f = some ys ∧ ys.length = l.length ∧
      ∀ (i : Nat) (x : α), l[i]? = some x → ∃ y, ys[i]? = some y ∧ Q i x y := by
  induction l generalizing Q with
  | nil => exact ⟨[], rfl, rfl, by simp⟩
  | cons a l ih =>
    obtain ⟨y, hy, hQ⟩ := h 0 a rfl
    obtain ⟨ys, h1, h2, h3⟩ := ih (fun i => Q (i + 1)) fun i x hx => h (i + 1) x (by simpa using hx)
    refine ⟨y :: ys, by simp [hy, h1], by simp [h2], fun i x hx => ?_⟩
    rcases i with _ | i
    · simp at hx; subst hx; exact ⟨y, rfl, hQ⟩
    · obtain ⟨z, hz1, hz2⟩ := h3 i x (by simpa using hx)
      exact ⟨z, by simpa using hz1, hz2⟩

/-! ## Slices -/

theorem mem_sliceCols {newN n M j : Nat} (hj : j < n) (s k : Nat) :
    (s, k) ∈ sliceCols newN n M j ↔ s < newN * n ∧ s % n = j ∧ k < M := by
  unfold sliceCols
  simp only [List.mem_flatMap, List.mem_range, List.mem_map, Prod.mk.injEq]
  constructor
  · rintro ⟨c, hc, k', hk, rfl, rfl⟩
    refine ⟨?_, ?_, hk⟩
    · calc c * n + j < c * n + n := by omega
        _ = (c + 1) * n := by ring
        _ ≤ newN * n := Nat.mul_le_mul_right _ hc
    · rw [Nat.add_comm, Nat.add_mul_mod_self_right, Nat.mod_eq_of_lt hj]
  · rintro ⟨h1, h2, h3⟩
    refine ⟨s / n, ?_, k, h3, ?_, rfl⟩
    · exact Nat.div_lt_of_lt_mul (by rw [Nat.mul_comm]; exact h1)
    · rw [← h2]; exact Nat.div_add_mod' s n

theorem sliceCols_nodup {newN n M j : Nat} (hn : 0 < n) : (sliceCols newN n M j).Nodup := by
  unfold sliceCols
  rw [List.nodup_flatMap]
  refine ⟨fun c _ => ?_, ?_⟩
  · refine List.Nodup.map ?_ List.nodup_range
    intro a b h
    exact (Prod.mk.inj h).2
  · refine List.Pairwise.imp ?_ (List.nodup_range (n := newN))
    intro a b hab x hx hy
    obtain ⟨_, _, rfl⟩ := List.mem_map.1 hx
    obtain ⟨_, _, h⟩ := List.mem_map.1 hy
    apply hab
    have := (Prod.mk.inj h).1
    have h2 : b * n = a * n := by omega
    exact (Nat.eq_of_mul_eq_mul_right hn h2).symm

/-! ## The action in terms of words -/

theorem cyc_self {n : Nat} (a : Fin n) : cyc a a = 1 := by
  ext i
  rw [cyc_apply a a (le_refl _)]
  show _ = (i : Nat)
  split_ifs <;> omega

section
variable {n : Nat} {p : List Nat} {hp : IsPartition n p} {R : IrrepObj}

theorem Repr'.eqv_rowIx (h : Repr' hp R) (i : Fin R.d) : rowIx n p (h.eqv i).1 = i := by
  unfold rowIx Repr'.eqv
  have hi : (i : Nat) < (words n p).length := h.d_eq ▸ i.2
  have : ((finCongr h.d_eq).trans (wdEquiv hp) i).1 = (words n p)[(i : Nat)] := rfl
  rw [this]
  exact List.Nodup.idxOf_getElem (words_nodup hp) _ hi

theorem Repr'.rowIx_symm (h : Repr' hp R) (u : Wd n p) : rowIx n p u.1 = (h.eqv.symm u : Nat) := by
  rw [← h.eqv_rowIx, Equiv.apply_symm_apply]

theorem Repr'.act_row (h : Repr' hp R) {K : Type} [DecidableEq K] (σ : Equiv.Perm (Fin n)) (cols : List K) (A : Nat → K → ℝ)
    (u : Wd n p) (k : K) (hk : k ∈ cols) :
    act (h.rep σ) cols A (rowIx n p u.1) k = ∑ v, rho hp σ u v * A (rowIx n p v.1) k := by
  have hlt : rowIx n p u.1 < R.d := by rw [h.rowIx_symm]; exact (h.eqv.symm u).2
  unfold act
  rw [dif_pos ⟨hlt, hk⟩, ← Equiv.sum_comp h.eqv]
  refine Finset.sum_congr rfl fun j _ => ?_
  rw [h.eqv_rowIx]
  congr 1
  have e : (⟨rowIx n p u.1, hlt⟩ : Fin R.d) = h.eqv.symm u := Fin.ext (h.rowIx_symm u)
  rw [e, h.rep_apply]
  show rho hp σ (h.eqv (h.eqv.symm u)) (h.eqv j) = _
  rw [Equiv.apply_symm_apply]

theorem Repr'.act_row_ne {d : Nat} {K : Type} [DecidableEq K] (M : Matrix (Fin d) (Fin d) ℝ) (cols : List K) (A : Nat → K → ℝ)
    (i : Nat) (k : K) (hk : k ∉ cols) : act M cols A i k = A i k := by
  unfold act
  rw [dif_neg fun h => hk h.2]

theorem cycleWith_up {ap : ViewAct} (h : Repr' hp R) {cols : List (Nat × Nat)}
    (g : Gen n (adj n) (fun σ => act (h.rep σ) cols) (fun tau A => ap R cols tau A)) (a b : Fin n) (hab : a ≤ b)
    (A : Nat → Nat × Nat → ℝ) :
    cycleWith ap R cols ((a : Nat) + 1) ((b : Nat) + 1) A = some (act (h.rep (cyc a b)) cols A) := by
  have ha := a.2
  have hb := b.2
  have hab' : (a : Nat) ≤ b := hab
  unfold cycleWith
  by_cases e : (a : Nat) = b
  · obtain rfl : a = b := Fin.ext e
    rw [if_neg (by omega), forUp_empty (by omega), cyc_self, map_one, act_one]
  · rw [if_pos (by omega), g.down a (b - a) (by omega) rfl (by omega), run_adj (by omega)]
    congr 4
    exact Fin.ext (by simp only; omega)

theorem cycleWith_down {ap : ViewAct} (h : Repr' hp R) {cols : List (Nat × Nat)}
    (g : Gen n (adj n) (fun σ => act (h.rep σ) cols) (fun tau A => ap R cols tau A)) (a b : Fin n) (hab : a ≤ b)
    (A : Nat → Nat × Nat → ℝ) :
    cycleWith ap R cols ((b : Nat) + 1) ((a : Nat) + 1) A = some (act (h.rep (cyc a b)⁻¹) cols A) := by
  have ha := a.2
  have hb := b.2
  have hab' : (a : Nat) ≤ b := hab
  unfold cycleWith
  rw [if_neg (by omega), g.up a (b - a) (by omega) rfl (by omega), rrun_adj, run_adj (by omega)]
  congr 5
  exact Fin.ext (by simp only; omega)

/-- the loop over the slices -/
theorem twist_loop (h : Repr' hp R) {newN N' M : Nat} (hN : 0 < N') (g : Nat → Equiv.Perm (Fin n))
    (body : Int → (Nat → Nat × Nat → ℝ) → Option (Nat → Nat × Nat → ℝ))
    (hbody : ∀ (j : Nat) (A : Nat → Nat × Nat → ℝ), j < N' →
      body j A = some (act (h.rep (g j)) (sliceCols newN N' M j) A))
    (A : Nat → Nat × Nat → ℝ) :
    ∃ A', forUp 0 (N' : Int) A body = some A' ∧ ∀ (u : Wd n p) (s k : Nat), s < newN * N' → k < M →
      A' (rowIx n p u.1) (s, k) = ∑ v, rho hp (g (s % N')) u v * A (rowIx n p v.1) (s, k) := by
  obtain ⟨A', h1, h2⟩ := forUp_inv (lo := 0) (hi := (N' : Int)) (s := A) (body := body)
    (fun j A' => ∀ (u : Wd n p) (s k : Nat), s < newN * N' → k < M →
      A' (rowIx n p u.1) (s, k) = if ((s % N' : Nat) : Int) < j then ∑ v, rho hp (g (s % N')) u v * A (rowIx n p v.1) (s, k)
        else A (rowIx n p u.1) (s, k))
    (by omega)
    (by intro u s k _ _; rw [if_neg (by omega)])
    (by
      intro i A1 hi1 hi2 hinv
      obtain ⟨j, rfl⟩ := Int.eq_ofNat_of_zero_le hi1
      have hj : j < N' := by omega
      refine ⟨_, hbody j A1 hj, fun u s k hs hk => ?_⟩
      by_cases e : s % N' = j
      · rw [h.act_row _ _ _ _ _ ((mem_sliceCols hj s k).2 ⟨hs, e, hk⟩), if_pos (by omega), e]
        refine Finset.sum_congr rfl fun v _ => ?_
        rw [hinv v s k hs hk, if_neg (by omega)]
      · rw [Repr'.act_row_ne _ _ _ _ _ fun hm => e ((mem_sliceCols hj s k).1 hm).2.1, hinv u s k hs hk]
        by_cases e' : s % N' < j
        · rw [if_pos (by omega), if_pos (by omega)]
        · rw [if_neg (by omega), if_neg (by omega)])
  refine ⟨A', h1, fun u s k hs hk => ?_⟩
  rw [h2 u s k hs hk, if_pos]
  have := Nat.mod_lt s hN
  omega

end

/-- the action `ap` is the one of the irreps of `Sl` with at least `m` boxes in the first row -/
def ActOk (ap : ViewAct) (m l : Nat) : Prop :=
  ∀ (p : List Nat) (hp : IsPartition l p) (R : IrrepObj) (h : Repr' hp R), m ≤ row p 0 →
    ∀ cols : List (Nat × Nat), cols.Nodup →
      Gen l (adj l) (fun σ => act (h.rep σ) cols) (fun tau A => ap R cols tau A)

theorem matAct_ok (m l : Nat) : ActOk matAct m l := fun _ _ _ h _ cols hc => h.gen cols hc

/-- the permutation by which slice `j` is multiplied -/
def slicePerm (l j : Nat) : Equiv.Perm (Fin (l + 1)) := cyc ⟨l - j, by omega⟩ (Fin.last l)

theorem twistUp_eq {ap : ViewAct} {m l newN : Nat} (hap : ActOk ap m (l + 1)) {p : List Nat} {hp : IsPartition (l + 1) p}
    {R : IrrepObj} (h : Repr' hp R) (hpm : m ≤ row p 0) {G : Nat → Wd (l + 1) p → Wd (l + 1) p → ℝ} {P : MPart}
    (hP : Holds' m (newN * (l + 1)) G P) (hR : P.irrep = R) :
    ∃ P', twistUp ap (l + 1) newN P = some P' ∧ P'.irrep = R ∧
      Holds' m (newN * (l + 1)) (fun s u w => ∑ v, rho hp (slicePerm l (s % (l + 1))) u v * G s v w) P' := by
  subst hR
  obtain ⟨A', h1, h2⟩ := twist_loop h (newN := newN) (N' := l + 1) (M := P.m) (by omega) (slicePerm l)
    (fun j A => cycleWith ap P.irrep (sliceCols newN (l + 1) P.m j.toNat) (((l + 1 : Nat) : Int) - j) ((l + 1 : Nat) : Int) A)
    (by
      intro j A hj
      have := cycleWith_up h (hap p hp P.irrep h hpm (sliceCols newN (l + 1) P.m j) (sliceCols_nodup (by omega)))
        ⟨l - j, by omega⟩ (Fin.last l) (Fin.le_last _) A
      simp only [Int.toNat_natCast]
      rw [← slicePerm] at this
      rw [← this]
      congr 1
      simp only
      omega) P.data
  refine ⟨{ P with data := A' }, ?_, rfl, hP.N_eq, hP.d_eq, hP.m_eq, fun u w hw s hs => ?_⟩
  · unfold twistUp
    rw [h1]; rfl
  · simp only
    rw [h2 u s _ hs (by rw [hP.m_eq]; exact colIx_lt w hw)]
    refine Finset.sum_congr rfl fun v _ => ?_
    rw [hP.data v w hw s hs]

theorem list_range_sum (n : Nat) (f : Nat → ℝ) : ((List.range n).map f).sum = ∑ t ∈ Finset.range n, f t := by
  induction n with
  | zero => simp
  | succ n ih => rw [List.range_succ, List.map_append, List.sum_append, ih, Finset.sum_range_succ]; simp

theorem reduce_eq {m l newN : Nat} {p : List Nat} {hp : IsPartition (l + 1) p} {R : IrrepObj} (hlam : R.lambda = p)
    {G : Nat → Wd (l + 1) p → Wd (l + 1) p → ℝ} {P : MPart} (hP : Holds' m (newN * (l + 1)) G P) (hR : P.irrep = R) :
    ∃ P', P.reduce = some P' ∧ P'.irrep = R ∧
      Holds' m newN (fun s u w => ∑ t ∈ Finset.range (l + 1), G (s * (l + 1) + t) u w) P' := by
  subst hR
  have hn : IP.getn P.irrep.lambda = l + 1 := by rw [hlam, getn_eq, hp.sum]
  refine ⟨{ P with
    N := P.N / (l + 1)
    data := fun i k => ((List.range (l + 1)).map fun t => P.data i (k.1 * (l + 1) + t, k.2)).sum }, ?_, rfl, ?_, hP.d_eq, hP.m_eq,
    fun u w hw s hs => ?_⟩
  · unfold MPart.reduce
    rw [hn]
    simp only
    rw [if_neg (by omega)]
  · simp only
    rw [hP.N_eq, Nat.mul_div_cancel _ (by omega)]
  · simp only
    rw [list_range_sum]
    refine Finset.sum_congr rfl fun t ht => ?_
    have ht' := Finset.mem_range.1 ht
    refine hP.data u w hw _ ?_
    calc s * (l + 1) + t < s * (l + 1) + (l + 1) := by omega
      _ = (s + 1) * (l + 1) := by ring
      _ ≤ newN * (l + 1) := Nat.mul_le_mul_right _ hs

theorem vecN_eq {m l N : Nat} {G : (p : List Nat) → IsPartition l p → Nat → Wd l p → Wd l p → ℝ} {v : List MPart}
    (hm : m ≤ l) (hl : 0 < l) (hv : VecOk m l N G v) : vecN v = some N := by
  have h0 : [l] ∈ PL m l := (mem_PL hl _).2 ⟨isPartition_row hl, by simpa [row] using hm⟩
  have h1 : 0 < (PL m l).length := List.length_pos_of_mem h0
  have h2 : (PL m l)[0]? = some (PL m l)[0] := List.getElem?_eq_getElem h1
  obtain ⟨hp, -⟩ := (mem_PL hl _).1 (List.getElem_mem h1)
  obtain ⟨P, hP, hh⟩ := hv.part 0 _ hp h2
  unfold vecN
  rw [List.head?_eq_getElem?, hP]
  exact congrArg some hh.N_eq

/-- one level of the forward transform -/
theorem up_step {ap : ViewAct} {m l newN : Nat} (hm : m ≤ l) (hl : 0 < l) (hap : ActOk ap m (l + 1)) {L : LevelT}
    (hL : LevelOk m (l + 1) L) (hB : BlocksOk m l L)
    {G : (q : List Nat) → IsPartition l q → Nat → Wd l q → Wd l q → ℝ} {v : List MPart} (hv : VecOk m l (newN * (l + 1)) G v)
    {Gup : (p : List Nat) → IsPartition (l + 1) p → Nat → Wd (l + 1) p → Wd (l + 1) p → ℝ}
    (hG : ∀ p (hp : IsPartition (l + 1) p), BlockDiag m hp G (Gup p hp)) :
    ∃ v', L.uptransform ap v = some v' ∧ v'.map MPart.irrep = L.parts.map PartT.irrep ∧
      VecOk m (l + 1) newN (fun p hp c u w => ∑ t ∈ Finset.range (l + 1), ∑ x, rho hp (slicePerm l t) u x *
        Gup p hp (c * (l + 1) + t) x w) v' := by
  have hN := vecN_eq hm hl hv
  have hdiv : newN * (l + 1) / (l + 1) = newN := Nat.mul_div_cancel _ (by omega)
  -- the first loop
  obtain ⟨w, hw1, hw2, hw3⟩ := mapM_exists (fun p : PartT => do
      let q ← p.uptransform v
      twistUp ap (l + 1) newN q) L.parts
    (fun i p P => P.irrep = p.irrep ∧ ∀ hp : IsPartition (l + 1) p.irrep.lambda, Holds' m (newN * (l + 1))
      (fun s u w => ∑ x, rho hp (slicePerm l (s % (l + 1))) u x * Gup p.irrep.lambda hp s x w) P) (by
    intro i p hip
    have hpm := List.mem_of_getElem? hip
    obtain ⟨hp, hrow⟩ := hL.mem (by omega) hpm
    obtain ⟨-, hmk, hd, hcol⟩ := hL.part i p hip
    obtain ⟨R, hR, hlam, hrep⟩ := exists_repr (by omega) hp
    obtain rfl : p.irrep = R := Option.some.inj (hmk.symm.trans hR)
    obtain ⟨P1, a1, a2, a3⟩ := blockLoop_eq hm hl hp hv (hG _ hp) [] (subsM m p.irrep.lambda) rfl
      (MPart.zero (newN * (l + 1)) p.irrep p.m) ⟨rfl, by rw [MPart.zero, hrep.d_eq]; rfl, hcol, fun u w hw s hs => by simp [MPart.zero]⟩
    obtain ⟨P2, b1, b2, b3⟩ := twistUp_eq hap hrep hrow a3 a2
    refine ⟨P2, ?_, b2, fun _ => b3⟩
    unfold PartT.uptransform
    rw [hN]
    simp only [Option.bind_eq_bind, Option.bind_some]
    rw [hB p hpm]
    rw [show rowOff l [] = 0 from rfl, show colOff m l [] = 0 from rfl] at a1
    rw [a1]
    exact b1)
  -- the second loop
  obtain ⟨v', hv1, hv2, hv3⟩ := mapM_exists MPart.reduce w
    (fun i P P' => P'.irrep = P.irrep ∧ ∀ (p : PartT) (hp : IsPartition (l + 1) p.irrep.lambda), L.parts[i]? = some p →
      Holds' m newN (fun c u w => ∑ t ∈ Finset.range (l + 1), ∑ x, rho hp (slicePerm l t) u x *
        Gup p.irrep.lambda hp (c * (l + 1) + t) x w) P') (by
    intro i P hiP
    have hi : i < L.parts.length := by
      rw [← hw2]
      exact (List.getElem?_eq_some_iff.1 hiP).1
    have hip : L.parts[i]? = some L.parts[i] := List.getElem?_eq_getElem hi
    obtain ⟨y, hy, hirr, hH⟩ := hw3 i _ hip
    obtain rfl : y = P := Option.some.inj (hy.symm.trans hiP)
    obtain ⟨hp, hrow⟩ := hL.mem (by omega) (List.getElem_mem hi)
    obtain ⟨P', c1, c2, c3⟩ := reduce_eq (hp := hp) (R := L.parts[i].irrep) rfl (hH hp) hirr
    refine ⟨P', c1, c2.trans hirr.symm, fun p hp' hip' => ?_⟩
    obtain rfl : L.parts[i] = p := Option.some.inj (hip.symm.trans hip')
    refine ⟨c3.N_eq, c3.d_eq, c3.m_eq, fun u w hw s hs => ?_⟩
    rw [c3.data u w hw s hs]
    refine Finset.sum_congr rfl fun t ht => ?_
    have ht' := Finset.mem_range.1 ht
    rw [Nat.add_comm (s * (l + 1)) t, Nat.add_mul_mod_self_right, Nat.mod_eq_of_lt ht'])
  have hlen : v'.length = L.parts.length := hv2.trans hw2
  refine ⟨v', ?_, ?_, ?_, ?_⟩
  · unfold LevelT.uptransform
    rw [hN, hL.n_eq]
    simp only [Option.bind_eq_bind, Option.bind_some]
    rw [hdiv]
    simp only [Option.bind_eq_bind] at hw1
    rw [hw1]
    exact hv1
  · refine List.ext_getElem? fun i => ?_
    rw [List.getElem?_map, List.getElem?_map]
    rcases h : L.parts[i]? with _ | p
    · have : v'[i]? = none := by
        rw [List.getElem?_eq_none_iff] at h ⊢
        omega
      rw [this]; rfl
    · obtain ⟨y, hy, h1, -⟩ := hw3 i p h
      obtain ⟨z, hz, h2, -⟩ := hv3 i y hy
      rw [hz]
      simp [h1, h2]
  · rw [hlen, ← hL.keys, List.length_map]
  · intro i q hq hi
    rw [← hL.keys, List.getElem?_map] at hi
    obtain ⟨p, hp, rfl⟩ := Option.map_eq_some_iff.1 hi
    obtain ⟨y, hy, -, -⟩ := hw3 i p hp
    obtain ⟨z, hz, -, h2⟩ := hv3 i y hy
    exact ⟨z, hz, h2 p hq hp⟩

end Snob
