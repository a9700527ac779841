import Verif.Proofs.FloatFFT
import Verif.Props.FFT

/-! # Where the transforms return something -/

namespace Snob

open IP Snob.Perm
open scoped Nat

/-! ### the tables for `n≤5` -/

/-- no rotation is written outside its table -/
def FitsT (d : Nat) (q : Nat → Nat) : Prop := ∀ i < d, i < q i → i - (diags q i).length < d / 2 + 1

theorem Pairing.loop_fits {ts : List Tab} {tau d : Nat} {q : Nat → Nat} {a b : Nat → ℝ} {M : Matrix (Fin d) (Fin d) ℝ}
    (h : Pairing ts tau d q a b M) (hk : FitsT d q) (m : Nat) :
    ∀ (i : Nat) (st : TensorSt), i + m = d → DoneInv d q i st →
      st.diag = (diags q i).map (fun r => (r, a r)) → st.givens.length = d / 2 + 1 →
      ∃ st', tensorLoop ts tau (List.range' i m) st = some st' := by
  induction m with
  | zero => intro i st _ _ _ _; exact ⟨st, rfl⟩
  | succ m ih =>
    intro i st hi hD h1 hl
    have hid : i < d := by omega
    obtain ⟨s1, s2, s3, _⟩ := h.step hid hD.len (hD.at hid)
    rw [List.range'_succ]
    unfold tensorLoop
    have hdl : st.diag.length = (diags q i).length := by rw [h1, List.length_map]
    rcases Nat.lt_trichotomy (q i) i with hlt | heq | hlt
    · rw [s1 hlt, Option.bind_some]
      refine ih (i + 1) st (by omega) (hD.skip rfl h.inv (by omega)) ?_ hl
      rw [diags_succ, if_neg (by omega)]; exact h1
    · rw [s2 heq, Option.bind_some]
      refine ih (i + 1) _ (by omega) (hD.skip rfl h.inv (by omega)) ?_ hl
      rw [diags_succ, if_pos heq, List.map_append, ← h1]; rfl
    · rw [s3 hlt (by rw [hl, hdl]; exact hk i hid hlt), Option.bind_some]
      refine ih (i + 1) _ (by omega) (hD.mark rfl h.inv hid hlt) ?_ (by rw [List.length_set]; exact hl)
      rw [diags_succ, if_neg (by omega)]; exact h1

theorem Repr'.tables_fit {n : Nat} {p : List Nat} {hp : IsPartition n p} {R : IrrepObj} (h : Repr' hp R)
    (hk : ∀ tau : Nat, 1 ≤ tau → tau < n → FitsT R.d (R.partner tau)) :
    ∃ tabs, computeYORtensors R.n R.tableaux = some tabs ∧ tabs.length = n - 1 := by
  have key : ∀ t, ∃ st', (1 ≤ t ∧ t < n) → tensorLoop R.tableaux t (List.range R.tableaux.length)
      ⟨[], List.replicate (R.tableaux.length / 2 + 1) GSlot.zero, List.replicate R.tableaux.length false⟩ = some st' := by
    intro t
    by_cases ht : 1 ≤ t ∧ t < n
    · have P := h.pairing ht.1 ht.2
      obtain ⟨st', hst⟩ := P.loop_fits (hk t ht.1 ht.2) R.d 0
        ⟨[], List.replicate (R.d / 2 + 1) GSlot.zero, List.replicate R.d false⟩ (by omega)
        ⟨by simp, fun r hr => by simp [hr]⟩ rfl (by simp)
      exact ⟨st', fun _ => by rwa [P.len, List.range_eq_range']⟩
    · exact ⟨⟨[], [], []⟩, fun h => absurd h ht⟩
  choose G hG using key
  refine ⟨(List.range' 1 (n - 1)).map G, ?_, by simp⟩
  unfold computeYORtensors
  rw [h.n_eq, mapM_some_iff]
  refine ⟨by simp, ?_⟩
  intro i x hx
  have hx' : 1 ≤ x ∧ x < n := by
    have := List.mem_of_getElem? hx
    rw [List.mem_range'_1] at this
    omega
  exact ⟨G x, by rw [List.getElem?_map, hx]; rfl, hG x hx'⟩

theorem fits_small : ∀ n ∈ List.range' 1 5, ∀ p ∈ partitions n, ∀ tau ∈ List.range' 1 (n - 1),
    ∀ i < (words n p).length, i < partnerW (words n p) tau i →
      i - (diags (partnerW (words n p) tau) i).length < (words n p).length / 2 + 1 := by
  decide +kernel

/-- an irrep of a group of at most five letters -/
def SmallIrrep (R : IrrepObj) : Prop := ∃ (n : Nat) (p : List Nat) (hp : IsPartition n p), 1 ≤ n ∧ n ≤ 5 ∧ Repr' hp R

theorem SmallIrrep.tables {R : IrrepObj} (h : SmallIrrep R) :
    ∃ tabs, computeYORtensors R.n R.tableaux = some tabs ∧ tabs.length = R.n - 1 := by
  obtain ⟨n, p, hp, h1, h5, hR⟩ := h
  rw [hR.n_eq]
  have := hR.tables_fit (fun tau t1 t2 => ?_)
  · rwa [hR.n_eq] at this
  intro i hi hlt
  have hq : ∀ i, i < R.d → R.partner tau i = partnerW (words n p) tau i := fun i hi => hR.partner_eq t1 t2 hi
  have hdg : diags (R.partner tau) i = diags (partnerW (words n p) tau) i := by
    unfold diags
    apply List.filter_congr
    intro r hr
    rw [hq r (by rw [List.mem_range] at hr; omega)]
  rw [hdg, hR.d_eq]
  rw [hq i hi] at hlt
  exact fits_small n (by rw [List.mem_range'_1]; omega) p ((mem_partitions n h1 p).2 hp) tau (by rw [List.mem_range'_1]; omega) i
    (by rw [← hR.d_eq]; exact hi) hlt

/-! ### actions that are defined when another is -/

/-- the action used for matrices, for `1≤τ<n` only -/
noncomputable def guardAct : ViewAct := fun R cols tau A => if 1 ≤ tau ∧ tau < R.n then matAct R cols tau A else none

theorem guardAct_ok (m l : Nat) : ActOk guardAct m l := by
  intro p hp R h hm cols hc
  obtain ⟨g1, g2, g3⟩ := matAct_ok m l p hp R h hm cols hc
  refine ⟨g1, g2, fun k x hk => ?_⟩
  have := g3 k x hk
  unfold guardAct
  rw [if_pos ⟨by omega, by rw [h.n_eq]; omega⟩]
  exact this

/-- `ap'` returns something for the irreps in `S` where `ap` does -/
def ActFollows (S : IrrepObj → Prop) (ap ap' : ViewAct) : Prop :=
  ∀ R, S R → ∀ cols tau A A' B, ap R cols tau A = some B → ∃ B', ap' R cols tau A' = some B'

theorem viewAct_follows : ActFollows SmallIrrep guardAct viewAct := by
  intro R hR cols tau A A' B h
  unfold guardAct at h
  split at h
  · rename_i ht
    obtain ⟨tabs, h1, h2⟩ := hR.tables
    unfold viewAct IrrepObj.applyTauView
    rw [if_pos ht, h1]
    have : (tau - 1).toNat < tabs.length := by omega
    simp only [List.getElem?_eq_getElem this]
    exact ⟨_, rfl⟩
  · cases h

theorem fviewAct_follows (F : Rounding) : ActFollows SmallIrrep guardAct F.viewAct := by
  intro R hR cols tau A A' B h
  unfold guardAct at h
  split at h
  · rename_i ht
    obtain ⟨tabs, h1, h2⟩ := hR.tables
    unfold Rounding.viewAct Rounding.applyTauView
    rw [if_pos ht, F.computeYORtensors_map, h1]
    simp only [Option.map_some]
    have : (tau - 1).toNat < (tabs.map F.tst).length := by rw [List.length_map]; omega
    simp only [List.getElem?_eq_getElem this]
    exact ⟨_, rfl⟩
  · cases h

/-- of the same size, for the same irrep -/
def Same (P Q : MPart) : Prop := P.irrep = Q.irrep ∧ P.d = Q.d ∧ P.m = Q.m ∧ P.N = Q.N

section
variable {S : IrrepObj → Prop} {ap ap' : ViewAct}

theorem iterUp_some {X Y : Type} {f : Int → X → Option X} {g : Int → Y → Option Y} (h : ∀ i x y x', f i x = some x' → ∃ y', g i y = some y')
    (k : Nat) : ∀ i x y x', iterUp f k i x = some x' → ∃ y', iterUp g k i y = some y' := by
  induction k with
  | zero => intro i x y x' _; exact ⟨y, rfl⟩
  | succ k ih =>
    intro i x y x' e
    rw [iterUp, Option.bind_eq_some_iff] at e
    obtain ⟨x1, e1, e2⟩ := e
    obtain ⟨y1, e3⟩ := h i x y x1 e1
    obtain ⟨y2, e4⟩ := ih _ _ y1 _ e2
    exact ⟨y2, by rw [iterUp, e3]; exact e4⟩

theorem iterDown_some {X Y : Type} {f : Int → X → Option X} {g : Int → Y → Option Y} (h : ∀ i x y x', f i x = some x' → ∃ y', g i y = some y')
    (k : Nat) : ∀ i x y x', iterDown f k i x = some x' → ∃ y', iterDown g k i y = some y' := by
  induction k with
  | zero => intro i x y x' _; exact ⟨y, rfl⟩
  | succ k ih =>
    intro i x y x' e
    rw [iterDown, Option.bind_eq_some_iff] at e
    obtain ⟨x1, e1, e2⟩ := e
    obtain ⟨y1, e3⟩ := h i x y x1 e1
    obtain ⟨y2, e4⟩ := ih _ _ y1 _ e2
    exact ⟨y2, by rw [iterDown, e3]; exact e4⟩

theorem ActFollows.cycle (hF : ActFollows S ap ap') {R : IrrepObj} (hR : S R) {cols : List (Nat × Nat)} {a b : Int} {A A' B : Nat → Nat × Nat → ℝ}
    (h : cycleWith ap R cols a b A = some B) : ∃ B', cycleWith ap' R cols a b A' = some B' := by
  unfold cycleWith at h ⊢
  split at h
  · rw [if_pos (by assumption)]
    unfold forDown at h ⊢
    exact iterDown_some (fun i x y x' => hF R hR cols i x y x') _ _ _ _ _ h
  · rw [if_neg (by assumption)]
    unfold forUp at h ⊢
    exact iterUp_some (fun i x y x' => hF R hR cols i x y x') _ _ _ _ _ h

theorem ActFollows.twistUp (hF : ActFollows S ap ap') {n newN : Nat} {q q' Q : MPart} (hq : Same q q') (hS : S q.irrep)
    (h : twistUp ap n newN q = some Q) : ∃ Q', Snob.twistUp ap' n newN q' = some Q' ∧ Same Q Q' := by
  unfold Snob.twistUp at h ⊢
  simp only [Option.bind_eq_bind, Option.bind_eq_some_iff] at h
  obtain ⟨A, h1, h2⟩ := h
  obtain rfl := Option.some.inj h2
  obtain ⟨s1, s2, s3, s4⟩ := hq
  rw [← s1, ← s3]
  unfold forUp at h1 ⊢
  obtain ⟨A', h3⟩ := iterUp_some (g := fun j A => cycleWith ap' q.irrep (sliceCols newN n q.m j.toNat) ((n : Int) - j) n A)
    (fun i x y x' h => hF.cycle hS h) _ _ _ q'.data _ h1
  exact ⟨{ q' with data := A', irrep := q.irrep, m := q.m }, by rw [h3]; rfl, rfl, s2, rfl, s4⟩

theorem ActFollows.twistDown (hF : ActFollows S ap ap') {n N : Nat} {q q' Q : MPart} (hq : Same q q') (hS : S q.irrep)
    (h : twistDown ap n N q = some Q) : ∃ Q', Snob.twistDown ap' n N q' = some Q' ∧ Same Q Q' := by
  unfold Snob.twistDown at h ⊢
  simp only [Option.bind_eq_bind, Option.bind_eq_some_iff] at h
  obtain ⟨A, h1, h2⟩ := h
  obtain rfl := Option.some.inj h2
  obtain ⟨s1, s2, s3, s4⟩ := hq
  rw [← s1, ← s3]
  unfold forUp at h1 ⊢
  obtain ⟨A', h3⟩ := iterUp_some (g := fun j A => cycleWith ap' q.irrep (sliceCols N (n + 1) q.m j.toNat) ((n : Int) + 1) ((n : Int) + 1 - j) A)
    (fun i x y x' h => hF.cycle hS h) _ _ _ q'.data _ h1
  exact ⟨{ q' with data := A', irrep := q.irrep, m := q.m }, by rw [h3]; rfl, rfl, s2, rfl, s4⟩

theorem Same.refl (P : MPart) : Same P P := ⟨rfl, rfl, rfl, rfl⟩

theorem vecN_same {v v' : List MPart} (h : List.Forall₂ Same v v') : vecN v' = vecN v := by
  cases h with
  | nil => rfl
  | cons h _ => simp [vecN, h.2.2.2]

theorem twistDown_irrep {n N : Nat} {q Q : MPart} (h : twistDown ap n N q = some Q) : Q.irrep = q.irrep := by
  unfold twistDown at h
  simp only [Option.bind_eq_bind, Option.bind_eq_some_iff] at h
  obtain ⟨A, -, h2⟩ := h
  obtain rfl := Option.some.inj h2
  rfl

theorem Same.toPart {P Q : MPart} (h : Same P Q) {W : VPart} (hW : P.toPart = some W) :
    ∃ W', Q.toPart = some W' ∧ W.irrep = W'.irrep ∧ W.d = W'.d ∧ W.m = W'.m := by
  unfold MPart.toPart at hW ⊢
  split at hW
  · rw [if_pos (by rw [← h.2.2.2]; assumption)]
    obtain rfl := Option.some.inj hW
    exact ⟨_, rfl, h.1, h.2.1, h.2.2.1⟩
  · cases hW

theorem forall₂_set {α β : Type} {rel : α → β → Prop} {l : List α} {l' : List β} (h : List.Forall₂ rel l l') (i : Nat) {x : α} {y : β}
    (hxy : rel x y) : List.Forall₂ rel (l.set i x) (l'.set i y) := by
  induction h generalizing i with
  | nil => exact .nil
  | cons hab h ih =>
    rcases i with _ | i
    · exact .cons hxy h
    · exact .cons hab (ih i)

theorem levelDown_irrep_mem {L L' : LevelT} {V R : List MPart} (h : L.downtransform ap L' V = some R) :
    ∀ q ∈ R, ∃ p ∈ L.parts, q.irrep = p.irrep := by
  intro q hq
  have h1 := List.mem_map_of_mem (f := MPart.irrep) hq
  rw [levelDown_irrep h] at h1
  obtain ⟨p, hp, he⟩ := List.mem_map.1 h1
  exact ⟨p, hp, he.symm⟩

theorem addToBlock_same {P P' M M' Q : MPart} {i j : Nat} (hP : Same P P') (hM : Same M M') (h : P.addToBlock i j M = some Q) :
    ∃ Q', P'.addToBlock i j M' = some Q' ∧ Same Q Q' := by
  obtain ⟨s1, s2, s3, s4⟩ := hP
  obtain ⟨t1, t2, t3, t4⟩ := hM
  unfold MPart.addToBlock at h
  split at h
  · obtain rfl := Option.some.inj h
    unfold MPart.addToBlock
    rw [if_pos (by rw [← s2, ← s3, ← s4, ← t2, ← t3, ← t4]; assumption)]
    exact ⟨_, rfl, s1, s2, s3, s4⟩
  · cases h

theorem blockLoop_same {v v' : List MPart} (hv : List.Forall₂ Same v v') (bs : List BlockT) {P P' Q : MPart} (hP : Same P P')
    (h : blockLoop v bs P = some Q) : ∃ Q', blockLoop v' bs P' = some Q' ∧ Same Q Q' := by
  induction bs generalizing P P' with
  | nil => obtain rfl := Option.some.inj h; exact ⟨P', rfl, hP⟩
  | cons b bs ih =>
    unfold blockLoop at h
    unfold blockLoop
    simp only [Option.bind_eq_bind, Option.bind_eq_some_iff] at h ⊢
    obtain ⟨M, hM, P1, hP1, h⟩ := h
    obtain ⟨M', hM', hs⟩ := forall₂_getElem? hv hM
    obtain ⟨P1', h1, h2⟩ := addToBlock_same hP hs hP1
    obtain ⟨Q', h3, h4⟩ := ih h2 h
    exact ⟨Q', ⟨M', hM', P1', h1, h3⟩, h4⟩

theorem partUp_same {v v' : List MPart} (hv : List.Forall₂ Same v v') {p : PartT} {Q : MPart} (h : p.uptransform v = some Q) :
    ∃ Q', p.uptransform v' = some Q' ∧ Same Q Q' := by
  unfold PartT.uptransform at h
  unfold PartT.uptransform
  rw [vecN_same hv]
  simp only [Option.bind_eq_bind, Option.bind_eq_some_iff] at h ⊢
  obtain ⟨N, hN, h⟩ := h
  obtain ⟨Q', h1, h2⟩ := blockLoop_same hv _ (Same.refl _) h
  exact ⟨Q', ⟨N, hN, h1⟩, h2⟩

theorem reduce_same {P P' Q : MPart} (hP : Same P P') (h : P.reduce = some Q) : ∃ Q', P'.reduce = some Q' ∧ Same Q Q' := by
  obtain ⟨s1, s2, s3, s4⟩ := hP
  unfold MPart.reduce at h
  unfold MPart.reduce
  rw [← s1]
  simp only at h ⊢
  split at h
  · cases h
  · obtain rfl := Option.some.inj h
    rw [if_neg (by assumption)]
    exact ⟨_, rfl, rfl, s2, s3, by simp only [s4]⟩

theorem levelUp_same (hF : ActFollows S ap ap') {L : LevelT} (hL : ∀ p ∈ L.parts, S p.irrep) {v v' w : List MPart}
    (hv : List.Forall₂ Same v v') (h : L.uptransform ap v = some w) : ∃ w', L.uptransform ap' v' = some w' ∧ List.Forall₂ Same w w' := by
  unfold LevelT.uptransform at h
  unfold LevelT.uptransform
  rw [vecN_same hv]
  simp only [Option.bind_eq_bind, Option.bind_eq_some_iff] at h
  obtain ⟨N, hN, w1, hw1, h⟩ := h
  obtain ⟨w1', k1, k2⟩ := mapM_rel (g := fun p => p.uptransform v' >>= fun q => twistUp ap' L.n (N / L.n) q) Same _ _ (by
    intro p hp Q hQ
    obtain ⟨q, h1, h2⟩ := Option.bind_eq_some_iff.1 hQ
    obtain ⟨q', h3, h4⟩ := partUp_same hv h1
    have hirr : q.irrep = p.irrep := (partUp_some h1).1
    obtain ⟨Q', h5, h6⟩ := hF.twistUp h4 (by rw [hirr]; exact hL p hp) h2
    exact ⟨Q', Option.bind_eq_some_iff.2 ⟨q', h3, h5⟩, h6⟩) hw1
  obtain ⟨w', k3, k4⟩ := mapM_rel₂ (g := MPart.reduce) Same Same k2 (fun x _ x' y hx h => reduce_same hx h) h
  refine ⟨w', ?_, k4⟩
  rw [hN, Option.bind_eq_bind, Option.bind_some]
  exact Option.bind_eq_some_iff.2 ⟨w1', k1, k3⟩

theorem upLoop_same (hF : ActFollows S ap ap') (Ls : List LevelT) (hL : ∀ L ∈ Ls, ∀ p ∈ L.parts, S p.irrep) {v v' w : List MPart}
    (hv : List.Forall₂ Same v v') (h : upLoop ap Ls v = some w) : ∃ w', upLoop ap' Ls v' = some w' ∧ List.Forall₂ Same w w' := by
  induction Ls generalizing v v' with
  | nil => obtain rfl := Option.some.inj h; exact ⟨v', rfl, hv⟩
  | cons L Ls ih =>
    rw [upLoop, Option.bind_eq_some_iff] at h
    obtain ⟨v1, h1, h2⟩ := h
    obtain ⟨v1', h3, h4⟩ := levelUp_same hF (hL L (by simp)) hv h1
    obtain ⟨w', h5, h6⟩ := ih (fun L hL' => hL L (by simp [hL'])) h4 h2
    exact ⟨w', by rw [upLoop, Option.bind_eq_some_iff]; exact ⟨v1', h3, h5⟩, h6⟩

theorem fftWith_same (hF : ActFollows S ap ap') {Ls : List LevelT} (hL : ∀ L ∈ Ls.tail, ∀ p ∈ L.parts, S p.irrep) {N : Nat} {f f' : Nat → ℝ}
    {ws : List VPart} (h : fftWith ap Ls N f = some ws) :
    ∃ ws', fftWith ap' Ls N f' = some ws' ∧ List.Forall₂ (fun W W' => W.irrep = W'.irrep ∧ W.d = W'.d ∧ W.m = W'.m) ws ws' := by
  unfold fftWith at h
  unfold fftWith
  simp only [Option.bind_eq_bind, Option.bind_eq_some_iff] at h
  obtain ⟨P, hP, v, hv, h⟩ := h
  unfold MPart.ofFunction at hP ⊢
  rw [Option.map_eq_some_iff] at hP
  obtain ⟨R, hR, rfl⟩ := hP
  obtain ⟨v', h1, h2⟩ := upLoop_same hF Ls.tail hL (v := [⟨N, 1, 1, R, fun _ k => f k.1⟩]) (v' := [⟨N, 1, 1, R, fun _ k => f' k.1⟩]) (.cons ⟨rfl, rfl, rfl, rfl⟩ .nil) hv
  obtain ⟨ws', h3, h4⟩ := mapM_rel₂ (g := MPart.toPart) Same _ h2 (fun x _ x' y hx h => hx.toPart h) h
  refine ⟨ws', ?_, h4⟩
  rw [hR, Option.map_some, Option.bind_eq_bind, Option.bind_some]
  exact Option.bind_eq_some_iff.2 ⟨v', h1, h3⟩

theorem addBlockTo_same {P P' M M' Q : MPart} {i j : Nat} {c c' : ℝ} (hP : Same P P') (hM : Same M M')
    (h : P.addBlockTo i j M c = some Q) : ∃ Q', P'.addBlockTo i j M' c' = some Q' ∧ Same Q Q' := by
  obtain ⟨s1, s2, s3, s4⟩ := hP
  obtain ⟨t1, t2, t3, t4⟩ := hM
  unfold MPart.addBlockTo at h
  split at h
  · obtain rfl := Option.some.inj h
    unfold MPart.addBlockTo
    rw [if_pos (by rw [← s2, ← s3, ← s4, ← t2, ← t3, ← t4]; assumption)]
    exact ⟨_, rfl, t1, t2, t3, t4⟩
  · cases h

theorem unblockLoop_same {n : Nat} {part part' : MPart} (hp : Same part part') (bs : List BlockT) {R R' T : List MPart}
    (hR : List.Forall₂ Same R R') (h : unblockLoop n part bs R = some T) :
    ∃ T', unblockLoop n part' bs R' = some T' ∧ List.Forall₂ Same T T' := by
  induction bs generalizing R R' with
  | nil => obtain rfl := Option.some.inj h; exact ⟨R', rfl, hR⟩
  | cons b bs ih =>
    unfold unblockLoop at h
    unfold unblockLoop
    simp only [Option.bind_eq_bind, Option.bind_eq_some_iff] at h ⊢
    obtain ⟨M, hM, M1, hM1, h⟩ := h
    obtain ⟨M', hM', hs⟩ := forall₂_getElem? hR hM
    obtain ⟨M1', h1, h2⟩ := addBlockTo_same hp hs hM1
    obtain ⟨T', h3, h4⟩ := ih (forall₂_set hR b.subix h2) h
    exact ⟨T', ⟨M', hM', M1', h1, h3⟩, h4⟩

theorem unpartLoop_same {n : Nat} (ps : List PartT) {V V' R R' T : List MPart} (hV : List.Forall₂ Same V V')
    (hR : List.Forall₂ Same R R') (h : unpartLoop n ps V R = some T) :
    ∃ T', unpartLoop n ps V' R' = some T' ∧ List.Forall₂ Same T T' := by
  induction ps generalizing V V' R R' with
  | nil =>
    rw [unpartLoop] at h
    obtain rfl := Option.some.inj h
    exact ⟨R', by rw [unpartLoop], hR⟩
  | cons p ps ih =>
    cases hV with
    | nil => cases h
    | cons hab hV =>
      unfold unpartLoop at h
      unfold unpartLoop
      simp only [Option.bind_eq_bind, Option.bind_eq_some_iff] at h ⊢
      obtain ⟨R1, h1, h2⟩ := h
      obtain ⟨R1', h3, h4⟩ := unblockLoop_same hab _ hR h1
      obtain ⟨T', h5, h6⟩ := ih hV h4 h2
      exact ⟨T', ⟨R1', h3, h5⟩, h6⟩

theorem levelDown_same (hF : ActFollows S ap ap') {L L' : LevelT} {V V' w : List MPart} (hS : ∀ q ∈ V, S q.irrep)
    (hv : List.Forall₂ Same V V') (h : L.downtransform ap L' V = some w) :
    ∃ w', L.downtransform ap' L' V' = some w' ∧ List.Forall₂ Same w w' := by
  unfold LevelT.downtransform at h
  unfold LevelT.downtransform
  rw [vecN_same hv]
  simp only [Option.bind_eq_bind, Option.bind_eq_some_iff] at h
  obtain ⟨N, hN, w1, hw1, h⟩ := h
  obtain ⟨w1', k1, k2⟩ := mapM_rel₂ (g := fun q => twistDown ap' L.n N (q.broadcast (L.n + 1))) Same Same hv (by
    intro x hx x' y hs hy
    exact hF.twistDown (q := x.broadcast (L.n + 1)) (q' := x'.broadcast (L.n + 1)) ⟨hs.1, hs.2.1, hs.2.2.1, by simp only [MPart.broadcast, hs.2.2.2]⟩ (hS x hx) hy) hw1
  obtain ⟨w', k3, k4⟩ := unpartLoop_same L'.parts k2
    (List.forall₂_same.2 fun x _ => Same.refl x : List.Forall₂ Same (L.parts.map fun p => MPart.zero (N * (L.n + 1)) p.irrep p.m) _) h
  refine ⟨w', ?_, k4⟩
  rw [hN, Option.bind_eq_bind, Option.bind_some]
  exact Option.bind_eq_some_iff.2 ⟨w1', k1, k3⟩

theorem downLoop_same (hF : ActFollows S ap ap') (Ls : List LevelT) (hL : ∀ L ∈ Ls, ∀ p ∈ L.parts, S p.irrep) {v v' w : List MPart}
    (hS : ∀ q ∈ v, S q.irrep) (hv : List.Forall₂ Same v v') (h : downLoop ap Ls v = some w) :
    ∃ w', downLoop ap' Ls v' = some w' ∧ List.Forall₂ Same w w' ∧ ∀ q ∈ w, S q.irrep := by
  induction Ls generalizing w with
  | nil => rw [downLoop] at h; obtain rfl := Option.some.inj h; exact ⟨v', by rw [downLoop]; rintro _ _ _ ⟨⟩, hv, hS⟩; rintro _ _ _ ⟨⟩
  | cons L Ls ih =>
    rcases Ls with _ | ⟨L', Ls⟩
    · rw [downLoop] at h
      · obtain rfl := Option.some.inj h; exact ⟨v', by rw [downLoop]; rintro _ _ _ ⟨⟩, hv, hS⟩
      · rintro _ _ _ ⟨⟩
    · rw [downLoop] at h
      simp only [Option.bind_eq_bind, Option.bind_eq_some_iff] at h
      obtain ⟨v1, h1, h2⟩ := h
      obtain ⟨v1', h3, h4, h5⟩ := ih (fun L hL' => hL L (by simp [hL'])) h1
      obtain ⟨w', h6, h7⟩ := levelDown_same hF h5 h4 h2
      refine ⟨w', ?_, h7, fun q hq => ?_⟩
      · rw [downLoop]
        exact Option.bind_eq_some_iff.2 ⟨v1', h3, h6⟩
      · obtain ⟨p, hp, he⟩ := levelDown_irrep_mem h2 q hq
        rw [he]; exact hL L (by simp) p hp

theorem ifftWith_same (hF : ActFollows S ap ap') {Ls : List LevelT} (hL : ∀ L ∈ Ls, ∀ p ∈ L.parts, S p.irrep) {ws : List VPart}
    (hS : ∀ W ∈ ws, S W.irrep) {N : Nat} {g : Nat → ℝ} (h : ifftWith ap Ls ws = some (N, g)) :
    ∃ g', ifftWith ap' Ls ws = some (N, g') := by
  unfold ifftWith at h
  unfold ifftWith
  simp only [Option.bind_eq_bind, Option.bind_eq_some_iff] at h
  obtain ⟨L, hLl, h⟩ := h
  rw [hLl, Option.bind_eq_bind, Option.bind_some]
  split at h
  · rename_i hd
    rw [if_pos hd]
    simp only [Option.bind_eq_some_iff] at h
    obtain ⟨v, hv, P, hP, h⟩ := h
    obtain ⟨v', h1, h2, -⟩ := downLoop_same hF Ls hL (v' := ws.map MPart.ofPart) (by
      intro q hq
      obtain ⟨W, hW, rfl⟩ := List.mem_map.1 hq
      exact hS W hW) (List.forall₂_same.2 fun x _ => Same.refl x) hv
    rw [h1, Option.bind_eq_bind, Option.bind_some]
    cases h2 with
    | nil => cases hP
    | cons hab _ =>
      cases hP
      obtain ⟨e1, -⟩ := Prod.mk.inj (Option.some.inj h)
      rw [← e1, hab.2.1, hab.2.2.1, hab.2.2.2]
      exact ⟨_, rfl⟩
  · cases h

/-! ### the same with rounding -/

variable {F : Rounding} {ord : Nat → SumTree}

theorem faddToBlock_same {P P' M M' Q : MPart} {i j : Nat} (hP : Same P P') (hM : Same M M') (h : P.addToBlock i j M = some Q) :
    ∃ Q', F.addToBlock P' i j M' = some Q' ∧ Same Q Q' := by
  obtain ⟨s1, s2, s3, s4⟩ := hP
  obtain ⟨t1, t2, t3, t4⟩ := hM
  unfold MPart.addToBlock at h
  split at h
  · obtain rfl := Option.some.inj h
    unfold Rounding.addToBlock
    rw [if_pos (by rw [← s2, ← s3, ← s4, ← t2, ← t3, ← t4]; assumption)]
    exact ⟨_, rfl, s1, s2, s3, s4⟩
  · cases h

theorem fblockLoop_same {v v' : List MPart} (hv : List.Forall₂ Same v v') (bs : List BlockT) {P P' Q : MPart} (hP : Same P P')
    (h : blockLoop v bs P = some Q) : ∃ Q', F.blockLoop v' bs P' = some Q' ∧ Same Q Q' := by
  induction bs generalizing P P' with
  | nil => obtain rfl := Option.some.inj h; exact ⟨P', rfl, hP⟩
  | cons b bs ih =>
    unfold blockLoop at h
    unfold Rounding.blockLoop
    simp only [Option.bind_eq_bind, Option.bind_eq_some_iff] at h ⊢
    obtain ⟨M, hM, P1, hP1, h⟩ := h
    obtain ⟨M', hM', hs⟩ := forall₂_getElem? hv hM
    obtain ⟨P1', h1, h2⟩ := faddToBlock_same hP hs hP1
    obtain ⟨Q', h3, h4⟩ := ih h2 h
    exact ⟨Q', ⟨M', hM', P1', h1, h3⟩, h4⟩

theorem fpartUp_same {v v' : List MPart} (hv : List.Forall₂ Same v v') {p : PartT} {Q : MPart} (h : p.uptransform v = some Q) :
    ∃ Q', F.partUp p v' = some Q' ∧ Same Q Q' := by
  unfold PartT.uptransform at h
  unfold Rounding.partUp
  rw [vecN_same hv]
  simp only [Option.bind_eq_bind, Option.bind_eq_some_iff] at h ⊢
  obtain ⟨N, hN, h⟩ := h
  obtain ⟨Q', h1, h2⟩ := fblockLoop_same hv _ (Same.refl _) h
  exact ⟨Q', ⟨N, hN, h1⟩, h2⟩

theorem freduce_same {P P' Q : MPart} (hP : Same P P') (h : P.reduce = some Q) : ∃ Q', F.reduce ord P' = some Q' ∧ Same Q Q' := by
  obtain ⟨s1, s2, s3, s4⟩ := hP
  unfold MPart.reduce at h
  unfold Rounding.reduce
  rw [← s1]
  simp only at h ⊢
  split at h
  · cases h
  · obtain rfl := Option.some.inj h
    rw [if_neg (by assumption)]
    exact ⟨_, rfl, rfl, s2, s3, by simp only [s4]⟩

theorem flevelUp_same (hF : ActFollows S ap ap') {L : LevelT} (hL : ∀ p ∈ L.parts, S p.irrep) {v v' w : List MPart}
    (hv : List.Forall₂ Same v v') (h : L.uptransform ap v = some w) : ∃ w', F.levelUp ap' ord L v' = some w' ∧ List.Forall₂ Same w w' := by
  unfold LevelT.uptransform at h
  unfold Rounding.levelUp
  rw [vecN_same hv]
  simp only [Option.bind_eq_bind, Option.bind_eq_some_iff] at h
  obtain ⟨N, hN, w1, hw1, h⟩ := h
  obtain ⟨w1', k1, k2⟩ := mapM_rel (g := fun p => F.partUp p v' >>= fun q => twistUp ap' L.n (N / L.n) q) Same _ _ (by
    intro p hp Q hQ
    obtain ⟨q, h1, h2⟩ := Option.bind_eq_some_iff.1 hQ
    obtain ⟨q', h3, h4⟩ := fpartUp_same hv h1
    have hirr : q.irrep = p.irrep := (partUp_some h1).1
    obtain ⟨Q', h5, h6⟩ := hF.twistUp h4 (by rw [hirr]; exact hL p hp) h2
    exact ⟨Q', Option.bind_eq_some_iff.2 ⟨q', h3, h5⟩, h6⟩) hw1
  obtain ⟨w', k3, k4⟩ := mapM_rel₂ (g := F.reduce ord) Same Same k2 (fun x _ x' y hx h => freduce_same hx h) h
  refine ⟨w', ?_, k4⟩
  rw [hN, Option.bind_eq_bind, Option.bind_some]
  exact Option.bind_eq_some_iff.2 ⟨w1', k1, k3⟩

theorem fupLoop_same (hF : ActFollows S ap ap') (Ls : List LevelT) (hL : ∀ L ∈ Ls, ∀ p ∈ L.parts, S p.irrep) {v v' w : List MPart}
    (hv : List.Forall₂ Same v v') (h : upLoop ap Ls v = some w) : ∃ w', F.upLoop ap' ord Ls v' = some w' ∧ List.Forall₂ Same w w' := by
  induction Ls generalizing v v' with
  | nil => obtain rfl := Option.some.inj h; exact ⟨v', rfl, hv⟩
  | cons L Ls ih =>
    rw [upLoop, Option.bind_eq_some_iff] at h
    obtain ⟨v1, h1, h2⟩ := h
    obtain ⟨v1', h3, h4⟩ := flevelUp_same hF (hL L (by simp)) hv h1
    obtain ⟨w', h5, h6⟩ := ih (fun L hL' => hL L (by simp [hL'])) h4 h2
    exact ⟨w', by rw [Rounding.upLoop, Option.bind_eq_some_iff]; exact ⟨v1', h3, h5⟩, h6⟩

theorem ffftWith_same (hF : ActFollows S ap ap') {Ls : List LevelT} (hL : ∀ L ∈ Ls.tail, ∀ p ∈ L.parts, S p.irrep) {N : Nat} {f f' : Nat → ℝ}
    {ws : List VPart} (h : fftWith ap Ls N f = some ws) :
    ∃ ws', F.fftWith ap' ord Ls N f' = some ws' ∧ List.Forall₂ (fun W W' => W.irrep = W'.irrep ∧ W.d = W'.d ∧ W.m = W'.m) ws ws' := by
  unfold fftWith at h
  unfold Rounding.fftWith
  simp only [Option.bind_eq_bind, Option.bind_eq_some_iff] at h
  obtain ⟨P, hP, v, hv, h⟩ := h
  unfold MPart.ofFunction at hP ⊢
  rw [Option.map_eq_some_iff] at hP
  obtain ⟨R, hR, rfl⟩ := hP
  obtain ⟨v', h1, h2⟩ := fupLoop_same hF Ls.tail hL (v := [⟨N, 1, 1, R, fun _ k => f k.1⟩]) (v' := [⟨N, 1, 1, R, fun _ k => f' k.1⟩]) (.cons ⟨rfl, rfl, rfl, rfl⟩ .nil) hv
  obtain ⟨ws', h3, h4⟩ := mapM_rel₂ (g := MPart.toPart) Same _ h2 (fun x _ x' y hx h => hx.toPart h) h
  refine ⟨ws', ?_, h4⟩
  rw [hR, Option.map_some, Option.bind_eq_bind, Option.bind_some]
  exact Option.bind_eq_some_iff.2 ⟨v', h1, h3⟩

theorem faddBlockTo_same {P P' M M' Q : MPart} {i j : Nat} {c c' : ℝ} (hP : Same P P') (hM : Same M M')
    (h : P.addBlockTo i j M c = some Q) : ∃ Q', F.addBlockTo P' i j M' c' = some Q' ∧ Same Q Q' := by
  obtain ⟨s1, s2, s3, s4⟩ := hP
  obtain ⟨t1, t2, t3, t4⟩ := hM
  unfold MPart.addBlockTo at h
  split at h
  · obtain rfl := Option.some.inj h
    unfold Rounding.addBlockTo
    rw [if_pos (by rw [← s2, ← s3, ← s4, ← t2, ← t3, ← t4]; assumption)]
    exact ⟨_, rfl, t1, t2, t3, t4⟩
  · cases h

theorem funblockLoop_same {n : Nat} {part part' : MPart} (hp : Same part part') (bs : List BlockT) {R R' T : List MPart}
    (hR : List.Forall₂ Same R R') (h : unblockLoop n part bs R = some T) :
    ∃ T', F.unblockLoop n part' bs R' = some T' ∧ List.Forall₂ Same T T' := by
  induction bs generalizing R R' with
  | nil => obtain rfl := Option.some.inj h; exact ⟨R', rfl, hR⟩
  | cons b bs ih =>
    unfold unblockLoop at h
    unfold Rounding.unblockLoop
    simp only [Option.bind_eq_bind, Option.bind_eq_some_iff] at h ⊢
    obtain ⟨M, hM, M1, hM1, h⟩ := h
    obtain ⟨M', hM', hs⟩ := forall₂_getElem? hR hM
    obtain ⟨M1', h1, h2⟩ := faddBlockTo_same hp hs hM1
    obtain ⟨T', h3, h4⟩ := ih (forall₂_set hR b.subix h2) h
    exact ⟨T', ⟨M', hM', M1', h1, h3⟩, h4⟩

theorem funpartLoop_same {n : Nat} (ps : List PartT) {V V' R R' T : List MPart} (hV : List.Forall₂ Same V V')
    (hR : List.Forall₂ Same R R') (h : unpartLoop n ps V R = some T) :
    ∃ T', F.unpartLoop n ps V' R' = some T' ∧ List.Forall₂ Same T T' := by
  induction ps generalizing V V' R R' with
  | nil =>
    rw [unpartLoop] at h
    obtain rfl := Option.some.inj h
    exact ⟨R', by rw [Rounding.unpartLoop], hR⟩
  | cons p ps ih =>
    cases hV with
    | nil => cases h
    | cons hab hV =>
      unfold unpartLoop at h
      unfold Rounding.unpartLoop
      simp only [Option.bind_eq_bind, Option.bind_eq_some_iff] at h ⊢
      obtain ⟨R1, h1, h2⟩ := h
      obtain ⟨R1', h3, h4⟩ := funblockLoop_same hab _ hR h1
      obtain ⟨T', h5, h6⟩ := ih hV h4 h2
      exact ⟨T', ⟨R1', h3, h5⟩, h6⟩

theorem flevelDown_same (hF : ActFollows S ap ap') {L L' : LevelT} {V V' w : List MPart} (hS : ∀ q ∈ V, S q.irrep)
    (hv : List.Forall₂ Same V V') (h : L.downtransform ap L' V = some w) :
    ∃ w', F.levelDown ap' L L' V' = some w' ∧ List.Forall₂ Same w w' := by
  unfold LevelT.downtransform at h
  unfold Rounding.levelDown
  rw [vecN_same hv]
  simp only [Option.bind_eq_bind, Option.bind_eq_some_iff] at h
  obtain ⟨N, hN, w1, hw1, h⟩ := h
  obtain ⟨w1', k1, k2⟩ := mapM_rel₂ (g := fun q => twistDown ap' L.n N (q.broadcast (L.n + 1))) Same Same hv (by
    intro x hx x' y hs hy
    exact hF.twistDown (q := x.broadcast (L.n + 1)) (q' := x'.broadcast (L.n + 1)) ⟨hs.1, hs.2.1, hs.2.2.1, by simp only [MPart.broadcast, hs.2.2.2]⟩ (hS x hx) hy) hw1
  obtain ⟨w', k3, k4⟩ := funpartLoop_same L'.parts k2
    (List.forall₂_same.2 fun x _ => Same.refl x : List.Forall₂ Same (L.parts.map fun p => MPart.zero (N * (L.n + 1)) p.irrep p.m) _) h
  refine ⟨w', ?_, k4⟩
  rw [hN, Option.bind_eq_bind, Option.bind_some]
  exact Option.bind_eq_some_iff.2 ⟨w1', k1, k3⟩

theorem fdownLoop_same (hF : ActFollows S ap ap') (Ls : List LevelT) (hL : ∀ L ∈ Ls, ∀ p ∈ L.parts, S p.irrep) {v v' w : List MPart}
    (hS : ∀ q ∈ v, S q.irrep) (hv : List.Forall₂ Same v v') (h : downLoop ap Ls v = some w) :
    ∃ w', F.downLoop ap' Ls v' = some w' ∧ List.Forall₂ Same w w' ∧ ∀ q ∈ w, S q.irrep := by
  induction Ls generalizing w with
  | nil => rw [downLoop] at h; obtain rfl := Option.some.inj h; exact ⟨v', by rw [Rounding.downLoop]; rintro _ _ _ ⟨⟩, hv, hS⟩; rintro _ _ _ ⟨⟩
  | cons L Ls ih =>
    rcases Ls with _ | ⟨L', Ls⟩
    · rw [downLoop] at h
      · obtain rfl := Option.some.inj h; exact ⟨v', by rw [Rounding.downLoop]; rintro _ _ _ ⟨⟩, hv, hS⟩
      · rintro _ _ _ ⟨⟩
    · rw [downLoop] at h
      simp only [Option.bind_eq_bind, Option.bind_eq_some_iff] at h
      obtain ⟨v1, h1, h2⟩ := h
      obtain ⟨v1', h3, h4, h5⟩ := ih (fun L hL' => hL L (by simp [hL'])) h1
      obtain ⟨w', h6, h7⟩ := flevelDown_same hF h5 h4 h2
      refine ⟨w', ?_, h7, fun q hq => ?_⟩
      · rw [Rounding.downLoop]
        exact Option.bind_eq_some_iff.2 ⟨v1', h3, h6⟩
      · obtain ⟨p, hp, he⟩ := levelDown_irrep_mem h2 q hq
        rw [he]; exact hL L (by simp) p hp

theorem fifftWith_same (hF : ActFollows S ap ap') {Ls : List LevelT} (hL : ∀ L ∈ Ls, ∀ p ∈ L.parts, S p.irrep) {ws : List VPart}
    (hS : ∀ W ∈ ws, S W.irrep) {N : Nat} {g : Nat → ℝ} (h : ifftWith ap Ls ws = some (N, g)) :
    ∃ g', F.ifftWith ap' Ls ws = some (N, g') := by
  unfold ifftWith at h
  unfold Rounding.ifftWith
  simp only [Option.bind_eq_bind, Option.bind_eq_some_iff] at h
  obtain ⟨L, hLl, h⟩ := h
  rw [hLl, Option.bind_eq_bind, Option.bind_some]
  split at h
  · rename_i hd
    rw [if_pos hd]
    simp only [Option.bind_eq_some_iff] at h
    obtain ⟨v, hv, P, hP, h⟩ := h
    obtain ⟨v', h1, h2, -⟩ := fdownLoop_same hF Ls hL (v' := ws.map MPart.ofPart) (by
      intro q hq
      obtain ⟨W, hW, rfl⟩ := List.mem_map.1 hq
      exact hS W hW) (List.forall₂_same.2 fun x _ => Same.refl x) hv
    rw [h1, Option.bind_eq_bind, Option.bind_some]
    cases h2 with
    | nil => cases hP
    | cons hab _ =>
      cases hP
      obtain ⟨e1, -⟩ := Prod.mk.inj (Option.some.inj h)
      rw [← e1, hab.2.1, hab.2.2.1, hab.2.2.2]
      exact ⟨_, rfl⟩
  · cases h
end

end Snob
