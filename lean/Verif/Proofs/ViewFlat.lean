import Verif.Model.ViewFlat
import Verif.Proofs.FFTBad
import Verif.Proofs.FFTDefined

/-! # The tables of the tensor action in memory -/

namespace Snob

open IP
open scoped Nat

/-! ### where the checked model is defined, nothing changes -/

theorem tensorBody_append {ts : List Tab} {tau i : Nat} {st st' : TensorSt} (h : tensorBody ts tau i st = some st') (rest : List GSlot) :
    tensorBody ts tau i ⟨st.diag, st.givens ++ rest, st.done⟩ = some ⟨st'.diag, st'.givens ++ rest, st'.done⟩ ∧
      st'.givens.length = st.givens.length := by
  unfold tensorBody at h ⊢
  simp only
  split at h
  · cases h
    exact ⟨rfl, rfl⟩
  · rename_i T e1 e2
    split at h
    · cases h
    · rename_i T' delta e3
      split at h
      · rename_i e4
        cases h
        rw [if_pos e4]
        exact ⟨rfl, rfl⟩
      · rename_i e4
        rw [if_neg e4]
        split at h
        · cases h
        · rename_i e5
          rw [if_neg e5]
          simp only at h ⊢
          split at h
          · rename_i e6
            cases h
            rw [if_pos ⟨e6.1, e6.2.1, by rw [List.length_append]; omega⟩]
            refine ⟨?_, by simp⟩
            simp only
            rw [List.set_append_left _ _ e6.2.2]
          · cases h
  · cases h

theorem tensorLoop_append {ts : List Tab} {tau : Nat} (is : List Nat) {st st' : TensorSt} (h : tensorLoop ts tau is st = some st')
    (rest : List GSlot) :
    tensorLoop ts tau is ⟨st.diag, st.givens ++ rest, st.done⟩ = some ⟨st'.diag, st'.givens ++ rest, st'.done⟩ ∧
      st'.givens.length = st.givens.length := by
  induction is generalizing st with
  | nil => cases h; exact ⟨rfl, rfl⟩
  | cons i is ih =>
    unfold tensorLoop at h ⊢
    rw [Option.bind_eq_some_iff] at h
    obtain ⟨st1, h1, h2⟩ := h
    obtain ⟨k1, k2⟩ := tensorBody_append h1 rest
    obtain ⟨l1, l2⟩ := ih h2
    rw [k1]
    exact ⟨l1, l2.trans k2⟩

theorem flatLoop_of_checked {ts : List Tab} (m : Nat) : ∀ (a : Nat) (pre : List GSlot) (tabs : List TensorSt), 1 ≤ a →
    pre.length = (a - 1) * rowLen ts.length →
    ((List.range' a m).mapM fun tau => tensorLoop ts tau (List.range ts.length)
      ⟨[], List.replicate (ts.length / 2 + 1) GSlot.zero, List.replicate ts.length false⟩) = some tabs →
    flatLoop ts (List.range' a m) (pre ++ List.replicate (m * rowLen ts.length) GSlot.zero) =
      some (pre ++ (tabs.map TensorSt.givens).flatten, tabs.map TensorSt.diag) ∧ ∀ st ∈ tabs, st.givens.length = rowLen ts.length := by
  induction m with
  | zero =>
    intro a pre tabs _ _ h
    simp at h
    subst h
    simp [flatLoop]
  | succ m ih =>
    intro a pre tabs ha hpre h
    rw [List.range'_succ, List.mapM_cons] at h
    simp only [Option.bind_eq_bind, Option.bind_eq_some_iff] at h
    obtain ⟨st, h1, tabs', h2, h3⟩ := h
    obtain rfl := Option.some.inj h3
    have e : (m + 1) * rowLen ts.length = rowLen ts.length + m * rowLen ts.length := by ring
    obtain ⟨k1, k2⟩ := tensorLoop_append _ h1 (List.replicate (m * rowLen ts.length) GSlot.zero)
    simp only [List.length_replicate] at k2
    have hlen : (pre ++ st.givens).length = (a + 1 - 1) * rowLen ts.length := by
      rw [List.length_append, hpre, k2]
      obtain ⟨b, rfl⟩ : ∃ b, a = b + 1 := ⟨a - 1, by omega⟩
      simp only [Nat.add_sub_cancel]
      unfold rowLen; ring
    obtain ⟨i1, i2⟩ := ih (a + 1) (pre ++ st.givens) tabs' (by omega) hlen h2
    rw [List.range'_succ, flatLoop]
    simp only [Option.bind_eq_bind]
    rw [← hpre, List.drop_left, List.take_left, e, List.replicate_add]
    rw [show rowLen ts.length = ts.length / 2 + 1 from rfl] at k1 i1 ⊢
    rw [k1, Option.bind_some]
    simp only
    rw [← List.append_assoc, i1, Option.bind_some]
    refine ⟨by simp, fun s hs => ?_⟩
    rcases List.mem_cons.1 hs with rfl | hs
    · exact k2
    · exact i2 s hs

theorem take_drop_flatten {α : Type} {w : Nat} (ll : List (List α)) (hw : ∀ l ∈ ll, l.length = w) {i : Nat} {l : List α} (hi : ll[i]? = some l)
    {k : Nat} (hk : k ≤ w) : (ll.flatten.drop (i * w)).take k = l.take k := by
  induction ll generalizing i with
  | nil => cases hi
  | cons a ll ih =>
    have ha := hw a (by simp)
    rcases i with _ | i
    · simp at hi
      subst hi
      rw [Nat.zero_mul, List.drop_zero, List.flatten_cons, List.take_append_of_le_length (by omega)]
    · rw [List.getElem?_cons_succ] at hi
      rw [List.flatten_cons, show (i + 1) * w = a.length + i * w by rw [ha]; ring, List.drop_length_add_append]
      exact ih (fun l hl => hw l (by simp [hl])) hi

variable {K : Type} [DecidableEq K]

/-- where `Model/View` is defined, the tables in memory give the same -/
theorem flat_of_view {R : IrrepObj} (hR : R.d = R.tableaux.length) {cols : List K} {tau : Int} {A B : Nat → K → ℝ}
    (h : R.applyTauView cols tau A = some B) : R.applyTauFlat cols tau A = some B := by
  unfold IrrepObj.applyTauView at h
  unfold IrrepObj.applyTauFlat
  split at h
  · rename_i ht
    rw [if_pos ht]
    cases htabs : computeYORtensors R.n R.tableaux with
    | none => rw [htabs] at h; cases h
    | some tabs =>
      rw [htabs] at h
      simp only at h
      cases hst : tabs[(tau - 1).toNat]? with
      | none => rw [hst] at h; cases h
      | some st =>
        rw [hst] at h
        simp only at h
        obtain ⟨e1, e2⟩ := flatLoop_of_checked (R.n - 1) 1 [] tabs (Nat.le_refl 1) (by simp) htabs
        unfold computeYORflat
        rw [List.nil_append] at e1
        rw [e1]
        simp only [Option.bind_eq_bind, Option.bind_some, List.nil_append]
        rw [List.getElem?_map, hst, Option.map_some, Option.bind_some]
        rw [take_drop_flatten (l := st.givens) _ (by
            intro l hl
            obtain ⟨s, hs, rfl⟩ := List.mem_map.1 hl
            exact e2 s hs) (by rw [List.getElem?_map, hst]; rfl) (by unfold rowLen; omega)]
        exact h
  · cases h

/-! ### when the block is left -/

theorem tensorBody_length {ts : List Tab} {tau i : Nat} {st st' : TensorSt} (h : tensorBody ts tau i st = some st') :
    st'.givens.length = st.givens.length := (tensorBody_append h []).2

theorem tensorLoop_length {ts : List Tab} {tau : Nat} (is : List Nat) {st st' : TensorSt} (h : tensorLoop ts tau is st = some st') :
    st'.givens.length = st.givens.length := (tensorLoop_append is h []).2

section
variable {ts : List Tab} {tau d : Nat} {q : Nat → Nat} {a b : Nat → ℝ} {M : Matrix (Fin d) (Fin d) ℝ}

/-- every slot that is written lies in the memory that is left -/
theorem Pairing.loop_inside (h : Pairing ts tau d q a b M) (m : Nat) :
    ∀ (i : Nat) (st st' : TensorSt), i + m = d → DoneInv d q i st → st.diag.length = (diags q i).length →
      tensorLoop ts tau (List.range' i m) st = some st' → ∀ r, i ≤ r → r < d → r < q r → r - (diags q r).length < st.givens.length := by
  induction m with
  | zero => intro i st st' hi _ _ _ r h1 h2; omega
  | succ m ih =>
    intro i st st' hi hD h1 he r r1 r2 r3
    have hid : i < d := by omega
    obtain ⟨s1, s2, s3, s4⟩ := h.step hid hD.len (hD.at hid)
    rw [List.range'_succ] at he
    unfold tensorLoop at he
    rcases Nat.lt_trichotomy (q i) i with hlt | heq | hlt
    · rw [s1 hlt, Option.bind_some] at he
      rcases Nat.eq_or_lt_of_le r1 with rfl | e
      · omega
      · exact ih (i + 1) st st' (by omega) (hD.skip rfl h.inv (by omega)) (by rw [diags_succ, if_neg (by omega)]; exact h1) he r e r2 r3
    · rw [s2 heq, Option.bind_some] at he
      rcases Nat.eq_or_lt_of_le r1 with rfl | e
      · omega
      · exact ih (i + 1) ⟨st.diag ++ [(i, a i)], st.givens, st.done⟩ st' (by omega) (hD.skip rfl h.inv (by omega))
          (by rw [diags_succ, if_pos heq, List.length_append, List.length_append, h1]; rfl) he r e r2 r3
    · by_cases hk : i - st.diag.length < st.givens.length
      · rw [s3 hlt hk, Option.bind_some] at he
        rcases Nat.eq_or_lt_of_le r1 with rfl | e
        · rw [← h1]; exact hk
        · have := ih (i + 1) _ st' (by omega) (hD.mark rfl h.inv hid hlt) (by rw [diags_succ, if_neg (by omega)]; exact h1) he r e r2 r3
          rwa [List.length_set] at this
      · rw [s4 hlt hk] at he
        cases he

end

theorem flatLoop_some {ts : List Tab} (taus : List Nat) {mem : List GSlot} {r : List GSlot × List (List (Nat × ℝ))}
    (h : flatLoop ts taus mem = some r) (tau : Nat) (ht : tau ∈ taus) (hb : ∀ t ∈ taus, (t - 1) * rowLen ts.length ≤ mem.length) :
    ∃ mem' st, mem'.length = mem.length - (tau - 1) * rowLen ts.length ∧
      tensorLoop ts tau (List.range ts.length) ⟨[], mem', List.replicate ts.length false⟩ = some st := by
  induction taus generalizing mem r with
  | nil => cases ht
  | cons t taus ih =>
    rw [flatLoop] at h
    simp only [Option.bind_eq_bind, Option.bind_eq_some_iff] at h
    obtain ⟨st, h1, r', h2, -⟩ := h
    rcases List.mem_cons.1 ht with rfl | ht
    · exact ⟨_, st, by rw [List.length_drop], h1⟩
    · have hl := tensorLoop_length _ h1
      simp only [List.length_drop] at hl
      have hlen : (List.take ((t - 1) * rowLen ts.length) mem ++ st.givens).length = mem.length := by
        rw [List.length_append, List.length_take, hl]
        have := hb t (by simp)
        omega
      obtain ⟨mem', st', k1, k2⟩ := ih h2 ht (fun t ht => by rw [hlen]; exact hb t (by simp [ht]))
      exact ⟨mem', st', by rw [k1, hlen], k2⟩

theorem flatAct_fails : Fails321 flatAct := by
  intro R hR cols tau A
  obtain ⟨R', hR', _, h⟩ := exists_repr (n := 6) (by omega) Props.isPartition_321
  obtain rfl : R' = R := Option.some.inj (hR'.symm.trans hR)
  have hnone : computeYORflat R'.n R'.tableaux = none := by
    by_contra hne
    obtain ⟨r, hr⟩ := Option.ne_none_iff_exists'.1 hne
    unfold computeYORflat at hr
    have P := h.pairing (tau := 5) (by omega) (by omega)
    have hd : R'.d = 16 := by rw [h.d_eq]; decide +kernel
    obtain ⟨mem, st, e1, e2⟩ := flatLoop_some _ hr 5 (by rw [h.n_eq]; decide) (by
      intro t ht
      rw [h.n_eq, List.mem_range'_1] at ht
      rw [List.length_replicate, h.n_eq]
      exact Nat.mul_le_mul_right _ (by omega))
    rw [P.len, List.range_eq_range'] at e2
    have r3 := P.loop_inside R'.d 0 _ st (by omega) ⟨by simp, fun r hr => by simp [hr]⟩ rfl e2
    have hq : ∀ i, i < 16 → R'.partner 5 i = partnerW (words 6 [3, 2, 1]) 5 i := fun i hi =>
      h.partner_eq (tau := 5) (by omega) (by omega) (by omega)
    have hdg : ∀ j, j ≤ 16 → diags (R'.partner 5) j = diags (partnerW (words 6 [3, 2, 1]) 5) j := by
      intro j hj
      unfold diags
      apply List.filter_congr
      intro r hr
      rw [hq r (by rw [List.mem_range] at hr; omega)]
    have hw : ∃ j < 16, j < partnerW (words 6 [3, 2, 1]) 5 j ∧ 9 ≤ j - (diags (partnerW (words 6 [3, 2, 1]) 5) j).length := by
      decide +kernel
    obtain ⟨j, j1, j2, j3⟩ := hw
    have := r3 j (by omega) (by omega) (by
      show j < R'.partner 5 j
      rw [hq j j1]; exact j2)
    simp only at this
    rw [e1, List.length_replicate, h.n_eq, P.len, hd] at this
    have hdg' : (diags (R'.partner ((5 : Nat) : Int)) j).length =
        (diags (partnerW (words 6 [3, 2, 1]) 5) j).length := congrArg List.length (hdg j (by omega))
    rw [hdg'] at this
    unfold rowLen at this
    omega
  show R'.applyTauFlat cols tau A = none
  unfold IrrepObj.applyTauFlat
  rw [hnone]
  split <;> rfl

/-! ### actions of which one extends another -/

/-- `ap'` gives what `ap` gives wherever `ap` is defined, for irreps with property `S` -/
def Extends (S : IrrepObj → Prop) (ap ap' : ViewAct) : Prop := ∀ R, S R → ∀ cols tau A B, ap R cols tau A = some B → ap' R cols tau A = some B

theorem iterUp_mono {X : Type} {f g : Int → X → Option X} (h : ∀ i x y, f i x = some y → g i x = some y) (m : Nat) (i : Int) (x y : X)
    (hy : iterUp f m i x = some y) : iterUp g m i x = some y := by
  induction m generalizing i x with
  | zero => exact hy
  | succ m ih =>
    rw [iterUp, Option.bind_eq_some_iff] at hy ⊢
    obtain ⟨z, h1, h2⟩ := hy
    exact ⟨z, h _ _ _ h1, ih _ _ h2⟩

theorem iterDown_mono {X : Type} {f g : Int → X → Option X} (h : ∀ i x y, f i x = some y → g i x = some y) (m : Nat) (i : Int) (x y : X)
    (hy : iterDown f m i x = some y) : iterDown g m i x = some y := by
  induction m generalizing i x with
  | zero => exact hy
  | succ m ih =>
    rw [iterDown, Option.bind_eq_some_iff] at hy ⊢
    obtain ⟨z, h1, h2⟩ := hy
    exact ⟨z, h _ _ _ h1, ih _ _ h2⟩

theorem mapM_mono {α β : Type} {f g : α → Option β} (l : List α) (h : ∀ x ∈ l, ∀ y, f x = some y → g x = some y) {ys : List β}
    (hy : l.mapM f = some ys) : l.mapM g = some ys := by
  rw [mapM_some_iff] at hy ⊢
  refine ⟨hy.1, fun i x hx => ?_⟩
  obtain ⟨y, h1, h2⟩ := hy.2 i x hx
  exact ⟨y, h1, h x (List.mem_of_getElem? hx) y h2⟩

section
variable {S : IrrepObj → Prop} {ap ap' : ViewAct} (hE : Extends S ap ap')
include hE

theorem Extends.cycle {R : IrrepObj} (hR : S R) {cols : List (Nat × Nat)} {a b : Int} {A B : Nat → Nat × Nat → ℝ}
    (h : cycleWith ap R cols a b A = some B) : cycleWith ap' R cols a b A = some B := by
  unfold cycleWith at h ⊢
  split at h
  · rename_i e
    rw [if_pos e]
    exact iterDown_mono (fun i x y => hE R hR cols i x y) _ _ _ _ h
  · rename_i e
    rw [if_neg e]
    exact iterUp_mono (fun i x y => hE R hR cols i x y) _ _ _ _ h

theorem Extends.twistUp {n newN : Nat} {q Q : MPart} (hS : S q.irrep) (h : twistUp ap n newN q = some Q) : twistUp ap' n newN q = some Q := by
  unfold Snob.twistUp at h ⊢
  simp only [Option.bind_eq_bind, Option.bind_eq_some_iff] at h ⊢
  obtain ⟨A, h1, h2⟩ := h
  exact ⟨A, iterUp_mono (fun i x y => hE.cycle hS) _ _ _ _ h1, h2⟩

theorem Extends.twistDown {n N : Nat} {q Q : MPart} (hS : S q.irrep) (h : twistDown ap n N q = some Q) : twistDown ap' n N q = some Q := by
  unfold Snob.twistDown at h ⊢
  simp only [Option.bind_eq_bind, Option.bind_eq_some_iff] at h ⊢
  obtain ⟨A, h1, h2⟩ := h
  exact ⟨A, iterUp_mono (fun i x y => hE.cycle hS) _ _ _ _ h1, h2⟩

theorem Extends.levelUp {L : LevelT} (hL : ∀ p ∈ L.parts, S p.irrep) {v w : List MPart} (h : L.uptransform ap v = some w) :
    L.uptransform ap' v = some w := by
  unfold LevelT.uptransform at h ⊢
  simp only [Option.bind_eq_bind, Option.bind_eq_some_iff] at h ⊢
  obtain ⟨N, h1, u, h2, h3⟩ := h
  refine ⟨N, h1, u, mapM_mono _ (fun p hp y hy => ?_) h2, h3⟩
  rw [Option.bind_eq_some_iff] at hy ⊢
  obtain ⟨q, k1, k2⟩ := hy
  exact ⟨q, k1, hE.twistUp (by rw [(partUp_some k1).1]; exact hL p hp) k2⟩

theorem Extends.upLoop (Ls : List LevelT) (hL : ∀ L ∈ Ls, ∀ p ∈ L.parts, S p.irrep) {v w : List MPart} (h : upLoop ap Ls v = some w) :
    upLoop ap' Ls v = some w := by
  induction Ls generalizing v with
  | nil => exact h
  | cons L Ls ih =>
    rw [Snob.upLoop, Option.bind_eq_some_iff] at h ⊢
    obtain ⟨u, h1, h2⟩ := h
    exact ⟨u, hE.levelUp (hL L (by simp)) h1, ih (fun L hL' => hL L (by simp [hL'])) h2⟩

theorem Extends.fft {Ls : List LevelT} (hL : ∀ L ∈ Ls.tail, ∀ p ∈ L.parts, S p.irrep) {N : Nat} {f : Nat → ℝ} {ws : List VPart}
    (h : fftWith ap Ls N f = some ws) : fftWith ap' Ls N f = some ws := by
  unfold fftWith at h ⊢
  simp only [Option.bind_eq_bind, Option.bind_eq_some_iff] at h ⊢
  obtain ⟨P, h1, v, h2, h3⟩ := h
  exact ⟨P, h1, v, hE.upLoop _ hL h2, h3⟩

theorem Extends.levelDown {L L' : LevelT} {V w : List MPart} (hS : ∀ q ∈ V, S q.irrep) (h : L.downtransform ap L' V = some w) :
    L.downtransform ap' L' V = some w := by
  unfold LevelT.downtransform at h ⊢
  simp only [Option.bind_eq_bind, Option.bind_eq_some_iff] at h ⊢
  obtain ⟨N, h1, u, h2, h3⟩ := h
  exact ⟨N, h1, u, mapM_mono _ (fun q hq y hy => hE.twistDown (q := q.broadcast (L.n + 1)) (hS q hq) hy) h2, h3⟩

theorem Extends.downLoop (Ls : List LevelT) (hL : ∀ L ∈ Ls, ∀ p ∈ L.parts, S p.irrep) {v w : List MPart} (hv : ∀ q ∈ v, S q.irrep)
    (h : downLoop ap Ls v = some w) : downLoop ap' Ls v = some w ∧ ∀ q ∈ w, S q.irrep := by
  induction Ls generalizing v w with
  | nil => rw [Snob.downLoop] at h ⊢; · cases h; exact ⟨rfl, hv⟩
           all_goals (intro a b c d; cases d)
  | cons L Ls ih =>
    rcases Ls with _ | ⟨L', Ls⟩
    · rw [Snob.downLoop] at h ⊢; · cases h; exact ⟨rfl, hv⟩
      all_goals (intro a b c d; cases d)
    · rw [Snob.downLoop] at h ⊢
      simp only [Option.bind_eq_bind, Option.bind_eq_some_iff] at h
      obtain ⟨u, h1, h2⟩ := h
      obtain ⟨k1, k2⟩ := ih (fun L hL' => hL L (by simp [hL'])) hv h1
      rw [k1]
      refine ⟨hE.levelDown k2 h2, fun q hq => ?_⟩
      obtain ⟨p, hp, e⟩ := levelDown_irrep_mem h2 q hq
      rw [e]
      exact hL L (by simp) p hp

theorem Extends.ifft {Ls : List LevelT} (hL : ∀ L ∈ Ls, ∀ p ∈ L.parts, S p.irrep) {ws : List VPart} (hw : ∀ W ∈ ws, S W.irrep)
    {r : Nat × (Nat → ℝ)} (h : ifftWith ap Ls ws = some r) : ifftWith ap' Ls ws = some r := by
  unfold ifftWith at h ⊢
  simp only [Option.bind_eq_bind, Option.bind_eq_some_iff] at h ⊢
  obtain ⟨L, h1, h2⟩ := h
  refine ⟨L, h1, ?_⟩
  split at h2
  · rename_i e
    rw [if_pos e]
    rw [Option.bind_eq_some_iff] at h2 ⊢
    obtain ⟨v, h3, h4⟩ := h2
    exact ⟨v, (hE.downLoop _ hL (by
      intro q hq
      obtain ⟨W, hW, rfl⟩ := List.mem_map.1 hq
      exact hw W hW) h3).1, h4⟩
  · cases h2

end

/-! ### the repair -/

section
variable {ts : List Tab} {tau d : Nat} {q : Nat → Nat} {a b : Nat → ℝ} {M : Matrix (Fin d) (Fin d) ℝ}

theorem Pairing.stepNext (h : Pairing ts tau d q a b M) {i : Nat} (hi : i < d) {st : TensorSt}
    (hdl : st.done.length = d) (hdone : st.done[i]? = some (decide (q i < i))) :
    (q i < i → tensorBodyNext ts tau i st = some st) ∧
    (q i = i → tensorBodyNext ts tau i st = some { st with diag := st.diag ++ [(i, a i)] }) ∧
    (i < q i → st.done.count true < st.givens.length → tensorBodyNext ts tau i st = some { st with
        givens := st.givens.set (st.done.count true) ⟨i, q i, a i, b i⟩
        done := st.done.set (q i) true }) := by
  have hi' : i < ts.length := by rw [h.len]; exact hi
  obtain ⟨T', delta, e, h0, hd1, hd2⟩ := h.body i hi'
  have hq := h.inv i hi
  refine ⟨fun hlt => ?_, fun heq => ?_, fun hlt hk => ?_⟩
  · unfold tensorBodyNext
    rw [hdone, decide_eq_true hlt]
  · unfold tensorBodyNext
    rw [hdone, decide_eq_false (by omega), List.getElem?_eq_getElem hi']
    simp only [e]
    have hu : delta = 1 ∨ delta = -1 := by
      by_contra hu
      exact (hd2 hu).1 heq
    rw [if_pos hu, (hd1 hu).2]
  · unfold tensorBodyNext
    rw [hdone, decide_eq_false (by omega), List.getElem?_eq_getElem hi']
    simp only [e]
    have hu : ¬ (delta = 1 ∨ delta = -1) := fun hu => by
      have := (hd1 hu).1
      omega
    obtain ⟨_, e1, e2, e3⟩ := hd2 hu
    rw [if_neg hu, if_neg h0, e1, if_pos ⟨by omega, by rw [Int.toNat_natCast, hdl]; exact hq.1, hk⟩,
      e2, e3]
    simp

theorem count_set_true {l : List Bool} {k : Nat} (h : l[k]? = some false) : (l.set k true).count true = l.count true + 1 := by
  induction l generalizing k with
  | nil => cases h
  | cons x l ih =>
    rcases k with _ | k
    · simp at h
      subst h
      simp
    · rw [List.getElem?_cons_succ] at h
      rw [List.set_cons_succ, List.count_cons, List.count_cons, ih h]
      omega

theorem Pairing.loop_next (h : Pairing ts tau d q a b M) (m : Nat) :
    ∀ (i : Nat) (st : TensorSt), i + m = d → DoneInv d q i st → st.done.count true = (firsts q i).length →
      st.diag = (diags q i).map (fun r => (r, a r)) → st.givens.length = d / 2 + 1 →
      st.givens.take (firsts q i).length = (firsts q i).map (fun r => (⟨r, q r, a r, b r⟩ : GSlot)) →
      ∃ st', tensorLoopNext ts tau (List.range' i m) st = some st' ∧
        st'.diag = (diags q d).map (fun r => (r, a r)) ∧
        st'.givens.take (firsts q d).length =
          (firsts q d).map (fun r => (⟨r, q r, a r, b r⟩ : GSlot)) := by
  induction m with
  | zero =>
    intro i st hi _ _ h1 _ h2
    have : i = d := by omega
    subst this
    exact ⟨st, rfl, h1, h2⟩
  | succ m ih =>
    intro i st hi hD hcnt h1 hl h2
    have hid : i < d := by omega
    obtain ⟨s1, s2, s3⟩ := h.stepNext hid hD.len (hD.at hid)
    rw [List.range'_succ]
    unfold tensorLoopNext
    rcases Nat.lt_trichotomy (q i) i with hlt | heq | hlt
    · rw [s1 hlt, Option.bind_some]
      refine ih (i + 1) st (by omega) (hD.skip rfl h.inv (by omega)) ?_ ?_ hl ?_
      · rw [firsts_succ, if_neg (by omega)]; exact hcnt
      · rw [diags_succ, if_neg (by omega)]; exact h1
      · rw [firsts_succ, if_neg (by omega)]; exact h2
    · rw [s2 heq, Option.bind_some]
      refine ih (i + 1) _ (by omega) (hD.skip rfl h.inv (by omega)) ?_ ?_ hl ?_
      · rw [firsts_succ, if_neg (by omega)]; exact hcnt
      · rw [diags_succ, if_pos heq, List.map_append, ← h1]; rfl
      · rw [firsts_succ, if_neg (by omega)]; exact h2
    · have hlt2 : (firsts q i).length < st.givens.length := by
        have e1 := firsts_length h.inv
        have e2 : (firsts q i).length + 1 ≤ (firsts q d).length := by
          have : (firsts q (i + 1)).Sublist (firsts q d) :=
            List.Sublist.filter _ (List.range_sublist.2 (by omega))
          have := this.length_le
          rw [firsts_succ, if_pos hlt, List.length_append] at this
          simpa using this
        rw [hl]; omega
      rw [s3 hlt (by rw [hcnt]; exact hlt2), Option.bind_some]
      refine ih (i + 1) _ (by omega) (hD.mark rfl h.inv hid hlt) ?_ ?_ (by rw [List.length_set]; exact hl) ?_
      · rw [firsts_succ, if_pos hlt, List.length_append, List.length_singleton, ← hcnt]
        refine count_set_true ?_
        rw [hD.get _ (h.inv i hid).1, (h.inv i hid).2]
        simp
      · rw [diags_succ, if_neg (by omega)]; exact h1
      · rw [firsts_succ, if_pos hlt, hcnt, List.length_append, List.length_singleton,
          List.map_append, ← h2, List.take_add_one, List.take_set_of_le (Nat.le_refl _)]
        congr 1
        rw [List.getElem?_set, if_pos rfl, if_pos hlt2]
        rfl

end

theorem Repr'.next_act {n : Nat} {p : List Nat} {hp : IsPartition n p} {R : IrrepObj} (h : Repr' hp R)
    (cols : List (Nat × Nat)) (hc : cols.Nodup) {tau : Nat} (h1 : 1 ≤ tau) (h2 : tau < n) (A : Nat → Nat × Nat → ℝ) :
    nextAct R cols tau A = some (act (h.mat (yorM n p tau)) cols A) := by
  have key' : ∀ t, ∃ st', (1 ≤ t ∧ t < n) → tensorLoopNext R.tableaux t (List.range R.tableaux.length)
      ⟨[], List.replicate (R.tableaux.length / 2 + 1) GSlot.zero,
        List.replicate R.tableaux.length false⟩ = some st' ∧
        st'.diag = (diags (R.partner t) R.d).map (fun r => (r, R.co1 t r)) ∧
        st'.givens.take (firsts (R.partner t) R.d).length =
          (firsts (R.partner t) R.d).map (fun r => (⟨r, R.partner t r, R.co1 t r, R.co2 t r⟩ : GSlot)) := by
    intro t
    by_cases ht : 1 ≤ t ∧ t < n
    · have P := h.pairing ht.1 ht.2
      obtain ⟨st', hst⟩ := P.loop_next R.d 0
        ⟨[], List.replicate (R.d / 2 + 1) GSlot.zero, List.replicate R.d false⟩ (by omega)
        ⟨by simp, fun r hr => by simp [hr]⟩ (by simp [firsts, List.count_replicate]) rfl (by simp) rfl
      exact ⟨st', fun _ => by rwa [P.len, List.range_eq_range']⟩
    · exact ⟨⟨[], [], []⟩, fun h => absurd h ht⟩
  choose F hF using key'
  have htabs : computeYORnext R.n R.tableaux = some ((List.range' 1 (n - 1)).map F) := by
    unfold computeYORnext
    rw [h.n_eq, mapM_some_iff]
    refine ⟨by simp, ?_⟩
    intro i x hx
    have hx' : 1 ≤ x ∧ x < n := by
      have := List.mem_of_getElem? hx
      rw [List.mem_range'_1] at this
      omega
    exact ⟨F x, by rw [List.getElem?_map, hx]; rfl, (hF x hx').1⟩
  unfold nextAct
  rw [if_pos ⟨by omega, by rw [h.n_eq]; omega⟩, htabs]
  have hi : ((tau : Int) - 1).toNat = tau - 1 := by omega
  have hget : ((List.range' 1 (n - 1)).map F)[((tau : Int) - 1).toNat]? = some (F tau) := by
    rw [hi, List.getElem?_map, List.getElem?_range' (by omega)]
    have : 1 + 1 * (tau - 1) = tau := by omega
    rw [this]; rfl
  simp only [hget, Option.bind_eq_bind, Option.bind_some]
  have P := h.pairing h1 h2
  rw [(hF tau ⟨h1, h2⟩).2.1, List.length_map, firsts_length P.inv, (hF tau ⟨h1, h2⟩).2.2, P.apply_packed cols hc A]

theorem nextAct_ok (m l : Nat) : ActOk nextAct m l := fun _ _ _ h _ cols hc =>
  { one := fun A => by rw [map_one, act_one]
    mul := fun σ τ A => by rw [map_mul, act_mul]
    gen := fun k A hk' => by
      rw [h.rep_adj hk']
      exact h.next_act cols hc (tau := k + 1) (by omega) hk' A }

end Snob
