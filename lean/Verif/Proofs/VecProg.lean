import Verif.Model.VecProg
import Verif.Props.SnWeights
import Verif.Props.SnVec
import Verif.Props.SnVecAct
import Verif.Props.CGVec

/-! Every vector of a program is a mixture of the columns of its input. -/

namespace Snob

open SnVec Props Weights

variable {n : Nat}

/-- the columns of `w` are mixtures of those of `v`, with the coefficients `F` -/
structure Img (n : Nat) (v : SnVec) (F : List Nat → List (Nat → ℝ)) (w : SnVec) : Prop where
  ok : Ok n w
  keys : vkeys w = vkeys v
  m : ∀ z ∈ vkeys v, (partAt w z).m = (F z).length
  data : ∀ z ∈ vkeys v, ∀ i < dimOf z, ∀ j < (F z).length, (partAt w z).data i j =
    ∑ k ∈ Finset.range (partAt v z).m, (partAt v z).data i k * (F z).getD j 0 k

theorem partAt_d {v : SnVec} (hv : Ok n v) {p : List Nat} (hp : p ∈ vkeys v) : (partAt v p).d = dimOf p := by
  obtain ⟨-, -, -, -, h1, h2⟩ := index_partAt hv hp
  rw [part_d hv h1, h2]

/-- one mixture of the columns -/
noncomputable def mixAt (v : SnVec) (z : List Nat) (c : Nat → ℝ) : List ℝ :=
  (List.range (dimOf z)).map fun i => ∑ k ∈ Finset.range (partAt v z).m, (partAt v z).data i k * c k

theorem Img.cols {v w : SnVec} {F : List Nat → List (Nat → ℝ)} (h : Img n v F w) {z : List Nat} (hz : z ∈ vkeys v) :
    (partAt w z).cols = (F z).map (mixAt v z) := by
  refine List.ext_getElem (by simp [VPart.cols, h.m z hz]) fun j h1 h2 => ?_
  have hj : j < (F z).length := by simpa using h2
  have e : (partAt w z).cols[j] = (List.range (partAt w z).d).map fun i => (partAt w z).data i j := by simp [VPart.cols]
  rw [e, List.getElem_map, partAt_d h.ok (by rw [h.keys]; exact hz)]
  refine List.map_congr_left fun i hi => ?_
  rw [h.data z hz i (List.mem_range.1 hi) j hj]
  simp [List.getD_eq_getElem?_getD, hj]

theorem Img.of_cols {v w : SnVec} {F : List Nat → List (Nat → ℝ)} (hw : Ok n w) (hk : vkeys w = vkeys v)
    (h : ∀ z ∈ vkeys v, (partAt w z).cols = (F z).map (mixAt v z)) : Img n v F w := by
  have hm : ∀ z ∈ vkeys v, (partAt w z).m = (F z).length := fun z hz => by
    simpa [VPart.cols] using congrArg List.length (h z hz)
  refine ⟨hw, hk, hm, fun z hz i hi j hj => ?_⟩
  rw [← cols_get _ (by rw [partAt_d hw (hk ▸ hz)]; exact hi) (by rw [hm z hz]; exact hj), h z hz]
  simp [List.getD_eq_getElem?_getD, mixAt, hi, hj]

theorem img_input {v : SnVec} (hv : Ok n v) {m : List Nat → Nat} (hm : ∀ z ∈ vkeys v, (partAt v z).m = m z) :
    Img n v (fun z => (List.range (m z)).map fun j k => if k = j then 1 else 0) v := by
  refine ⟨hv, rfl, fun z hz => by simp [hm z hz], fun z hz i _ j hj => ?_⟩
  have hj : j < m z := by simpa using hj
  rw [hm z hz, Finset.sum_eq_single j]
  · simp [List.getD_eq_getElem?_getD, hj]
  · intro k _ hk; simp [List.getD_eq_getElem?_getD, hj, hk]
  · intro h; exact absurd (Finset.mem_range.2 hj) h

theorem img_mul (hn : 1 ≤ n) {v w : SnVec} {F : List Nat → List (Nat → ℝ)} (h : Img n v F w) (W : Weights) (r : List Nat → Nat)
    (f : List Nat → Nat → Nat → ℝ) (hW : ∀ z ∈ vkeys v, W z = some (.mat (r z) (F z).length (f z))) :
    ∃ u, mulVec W w = some u ∧
      Img n v (fun z => (List.range (r z)).map fun j k => ∑ l ∈ Finset.range (F z).length, (F z).getD l 0 k * f z j l) u := by
  obtain ⟨u, a1, a2, a3, a4⟩ := mulVec_ok hn h.ok W r f fun z hz => by
    rw [h.keys] at hz
    rw [hW z hz, h.m z hz]
  refine ⟨u, a1, a2, by rw [a3, h.keys], fun z hz => ?_, fun z hz i hi j hj => ?_⟩
  · rw [(a4 z (by rw [h.keys]; exact hz)).1]; simp
  · have hj : j < r z := by simpa using hj
    rw [(a4 z (by rw [h.keys]; exact hz)).2, h.m z hz,
      Finset.sum_congr rfl fun l hl => by rw [h.data z hz i hi l (Finset.mem_range.1 hl), Finset.sum_mul], Finset.sum_comm]
    refine Finset.sum_congr rfl fun k _ => ?_
    simp only [List.getD_eq_getElem?_getD, List.getElem?_map, List.getElem?_range hj, Option.map_some, Option.getD_some]
    rw [Finset.mul_sum]
    exact Finset.sum_congr rfl fun l _ => by ring

theorem img_same {v w w' : SnVec} {F F' : List Nat → List (Nat → ℝ)} (h : Img n v F w) (h' : Img n v F' w')
    (e : ∀ z ∈ vkeys v, (F z).length = (F' z).length) : SameType w w' := by
  refine sameType_of h.ok h'.ok (by rw [h.keys, h'.keys]) fun z hz => ?_
  rw [h.keys] at hz
  rw [h.m z hz, h'.m z hz, e z hz]

theorem img_add {v w w' : SnVec} {F F' : List Nat → List (Nat → ℝ)} (h : Img n v F w) (h' : Img n v F' w')
    (e : ∀ z ∈ vkeys v, (F z).length = (F' z).length) :
    ∃ u, w.add w' = some u ∧ Img n v (fun z => (List.range (F z).length).map fun j k => (F z).getD j 0 k + (F' z).getD j 0 k) u := by
  obtain ⟨u, a1, a2, a3⟩ := C86_add_partial h.ok h'.ok (img_same h h' e)
  have k1 : vkeys u = vkeys v := (sameType_keys a3.1).trans h.keys
  refine ⟨u, a1, a2, k1, fun z hz => ?_, fun z hz i hi j hj => ?_⟩
  · rw [sameType_m a2 h.ok a3.1 (k1 ▸ hz), h.m z hz]; simp
  · have hj : j < (F z).length := by simpa using hj
    rw [comb_at a2 h.ok h'.ok a3 (k1 ▸ hz) i hi j (by rw [sameType_m a2 h.ok a3.1 (k1 ▸ hz), h.m z hz]; exact hj),
      h.data z hz i hi j hj, h'.data z hz i hi j (by rw [← e z hz]; exact hj), one_mul, ← Finset.sum_add_distrib]
    refine Finset.sum_congr rfl fun k _ => ?_
    simp only [List.getD_eq_getElem?_getD, List.getElem?_map, List.getElem?_range hj, Option.map_some, Option.getD_some]
    ring

/-- adding vectors with the same partitions is defined only for vectors of the same type -/
theorem add_same {v w u : SnVec} (h : v.add w = some u) (hk : vkeys v = vkeys w) : SameType v w := by
  unfold SnVec.add at h
  split at h
  · rename_i hl
    clear hl
    induction v generalizing w u with
    | nil => cases w with
      | nil => rfl
      | cons Q w => simp at hk
    | cons P v ih =>
      cases w with
      | nil => simp at hk
      | cons Q w =>
        simp only [vkeys, List.map_cons, List.cons.injEq] at hk
        unfold addLoop at h
        rcases hR : P.add Q with _ | R
        · simp [hR] at h
        · rcases hr : addLoop v w with _ | r
          · simp [hR, hr] at h
          · have := ih hk.2 hr
            unfold SameType at this ⊢
            unfold VPart.add at hR
            split at hR
            · rename_i e
              simp only [List.map_cons, this, hk.1, e.2]
            · cases hR
  · cases h

theorem img_cat (hn : 1 ≤ n) {v : SnVec} (hv : Ok n v) {ws : List SnVec} {Fs : List (List Nat → List (Nat → ℝ))} (hne : ws ≠ [])
    (h : List.Forall₂ (fun F w => Img n v F w) Fs ws) :
    ∃ u, SnVec.cat ws = some u ∧ Img n v (fun z => Fs.flatMap fun F => F z) u := by
  have hk : ∀ w ∈ ws, Ok n w ∧ vkeys w = vkeys v := by
    clear hne
    induction h with
    | nil => simp
    | cons a _ ih =>
      intro w hw
      rcases List.mem_cons.1 hw with rfl | hw
      · exact ⟨a.ok, a.keys⟩
      · exact ih w hw
  obtain ⟨tau, R, -, a2, a3, -, a5, a6, a7⟩ := cat_ok hn ws fun w hw => (hk w hw).1
  have kR : vkeys R = parts tau := by
    have := congrArg (List.map Prod.fst) a7
    unfold obs at this
    rw [List.map_map, List.map_map] at this
    simpa [Function.comp_def] using this
  have kk : vkeys R = vkeys v := by
    have nd : ∀ {l : List (List Nat)}, l.Pairwise LexGreater → l.Nodup := fun h => h.imp fun h => by
      rintro rfl; exact lexGreater_irrefl _ h
    refine ((List.perm_ext_iff_of_nodup (nd a6.sorted) (nd hv.sorted)).2 fun z => ?_).eq_of_pairwise
      (fun _ _ _ _ h h' => absurd h' (lexGreater_asymm h)) a6.sorted hv.sorted
    change z ∈ vkeys R ↔ z ∈ vkeys v
    rw [kR, a3, List.map_flatten, List.mem_flatten]
    constructor
    · rintro ⟨l, hl, hz⟩
      obtain ⟨w, hw, rfl⟩ := List.mem_map.1 hl
      rw [← (hk w hw).2]; exact hz
    · intro hz
      obtain ⟨w, hw⟩ := List.exists_mem_of_ne_nil ws hne
      exact ⟨_, List.mem_map.2 ⟨w, hw, rfl⟩, by rw [← (hk w hw).2] at hz; exact hz⟩
  refine ⟨R, a5, Img.of_cols a6 kk fun z hz => ?_⟩
  have e1 : (partAt R z).cols = colsL z ws.flatten := by
    have hz' : z ∈ vkeys R := kk ▸ hz
    have e : obs R = (vkeys R).map fun p => (p, (partAt R p).cols) := by
      rw [obs_eq_colsL a6]
      exact List.map_congr_left fun p hp => by rw [partAt_cols a6 hp]
    rw [e, ← kR, List.map_inj_left] at a7
    exact (Prod.mk.inj (a7 z hz')).2
  rw [e1, colsL_flatten]
  clear e1 a7 kk kR a6 a5 a3 a2 hne
  induction h with
  | nil => rfl
  | @cons F w Fs ws a _ ih =>
    rw [List.flatMap_cons, List.flatMap_cons, List.map_append, ih fun w hw => hk w (by simp [hw]),
      ← partAt_cols a.ok (by rw [← a.keys] at hz; exact hz), a.cols hz]

/-- the vectors of a program, in terms of its input -/
abbrev Imgs (n : Nat) (v : SnVec) (Fs : List (List Nat → List (Nat → ℝ))) (s : List SnVec) : Prop :=
  List.Forall₂ (fun F w => Img n v F w) Fs s

theorem forall₂_get {α β : Type} {R : α → β → Prop} {as : List α} {bs : List β} (h : List.Forall₂ R as bs) {i : Nat} {a : α}
    (ha : as[i]? = some a) : ∃ b, bs[i]? = some b ∧ R a b := by
  induction h generalizing i with
  | nil => simp at ha
  | cons r _ ih =>
    cases i with
    | zero => simp only [List.getElem?_cons_zero, Option.some.injEq] at ha ⊢; subst ha; exact ⟨_, rfl, r⟩
    | succ i => simpa using ih (by simpa using ha)

theorem forall₂_get' {α β : Type} {R : α → β → Prop} {as : List α} {bs : List β} (h : List.Forall₂ R as bs) {i : Nat} {b : β}
    (hb : bs[i]? = some b) : ∃ a, as[i]? = some a ∧ R a b := by
  obtain ⟨a, h1, h2⟩ := forall₂_get h.flip hb
  exact ⟨a, h1, h2⟩

theorem forall₂_snoc {α β : Type} {R : α → β → Prop} {as : List α} {bs : List β} (h : List.Forall₂ R as bs) {a : α} {b : β}
    (r : R a b) : List.Forall₂ R (as ++ [a]) (bs ++ [b]) := by
  induction h with
  | nil => exact .cons r .nil
  | cons r' _ ih => exact .cons r' ih

theorem forall₂_set {α β : Type} {R : α → β → Prop} {as : List α} {bs : List β} (h : List.Forall₂ R as bs) (i : Nat) {a : α} {b : β}
    (r : R a b) : List.Forall₂ R (as.set i a) (bs.set i b) := by
  induction h generalizing i with
  | nil => exact .nil
  | cons r' h ih =>
    cases i with
    | zero => exact .cons r h
    | succ i => exact .cons r' (ih i)

theorem forall₂_mapM {α β : Type} {R : α → β → Prop} {as : List α} {bs : List β} (h : List.Forall₂ R as bs) {is : List Nat} {xs : List α}
    (hx : is.mapM (fun k => as[k]?) = some xs) : ∃ ys, is.mapM (fun k => bs[k]?) = some ys ∧ List.Forall₂ R xs ys := by
  induction is generalizing xs with
  | nil => cases hx; exact ⟨[], rfl, .nil⟩
  | cons i is ih =>
    rw [List.mapM_cons] at hx
    rcases ha : as[i]? with _ | a
    · simp [ha] at hx
    · rcases hr : is.mapM (fun k => as[k]?) with _ | r
      · simp [ha, hr] at hx
      · simp only [ha, hr, Option.bind_eq_bind, Option.bind_some, Option.pure_def, Option.some.injEq] at hx
        subst hx
        obtain ⟨b, hb, r1⟩ := forall₂_get h ha
        obtain ⟨ys, h1, h2⟩ := ih hr
        exact ⟨b :: ys, by rw [List.mapM_cons, hb, h1]; rfl, .cons r1 h2⟩

/-- one statement: the new coefficients depend on the type of the input only -/
theorem step_img (hn : 1 ≤ n) {x : SnVec} {Fs : List (List Nat → List (Nat → ℝ))} {s s' : List SnVec}
    (hs : Imgs n x Fs s) {c : VStmt} (h : c.exec s = some s') :
    ∃ Fs', ∀ v, Ok n v → SameType v x → ∀ t, Imgs n v Fs t → ∃ t', c.exec t = some t' ∧ Imgs n v Fs' t' := by
  cases c with
  | mul W i =>
    unfold VStmt.exec at h
    rcases hi : s[i]? with _ | w
    · simp [hi] at h
    · rcases hw : mulVec W w with _ | u
      · simp [hi, hw] at h
      · obtain ⟨F, hF, a⟩ := forall₂_get' hs hi
        obtain ⟨r, f, b1, -⟩ := mul_data hn a.ok hw
        refine ⟨Fs ++ [fun z => (List.range (r z)).map fun j k => ∑ l ∈ Finset.range (F z).length, (F z).getD l 0 k * f z j l],
          fun v hv hvx t ht => ?_⟩
        obtain ⟨w', hi', a'⟩ := forall₂_get ht hF
        obtain ⟨u', c1, c2⟩ := img_mul hn a' W r f fun z hz => by
          rw [sameType_keys hvx] at hz
          rw [b1 z (by rw [a.keys]; exact hz), a.m z hz]
        refine ⟨t ++ [u'], ?_, forall₂_snoc ht c2⟩
        unfold VStmt.exec
        simp [hi', c1]
  | cat i is =>
    change (((i :: is).mapM fun k => s[k]?).bind fun vs => (SnVec.cat vs).bind fun w => some (s ++ [w])) = some s' at h
    rcases hi : (i :: is).mapM (fun k => s[k]?) with _ | ws
    · rw [hi] at h; cases h
    · obtain ⟨Gs, hG, a⟩ := forall₂_mapM hs.flip hi
      refine ⟨Fs ++ [fun z => Gs.flatMap fun F => F z], fun v hv hvx t ht => ?_⟩
      obtain ⟨ws', hi', a'⟩ := forall₂_mapM ht hG
      obtain ⟨u, c1, c2⟩ := img_cat hn hv (ws := ws') (by
        rintro rfl
        rw [List.mapM_cons] at hi'
        rcases e1 : t[i]? with _ | y
        · simp [e1] at hi'
        · rcases e2 : is.mapM (fun k => t[k]?) with _ | ys
          · simp [e1, e2] at hi'
          · simp [e1, e2] at hi') a'
      refine ⟨t ++ [u], ?_, forall₂_snoc ht c2⟩
      change (((i :: is).mapM fun k => t[k]?).bind fun vs => (SnVec.cat vs).bind fun w => some (t ++ [w])) = some (t ++ [u])
      rw [hi']
      simp [c1]
  | add i j =>
    unfold VStmt.exec at h
    rcases hi : s[i]? with _ | w
    · simp [hi] at h
    · rcases hj : s[j]? with _ | w2
      · simp [hi, hj] at h
      · rcases hw : w.add w2 with _ | u
        · simp [hi, hj, hw] at h
        · obtain ⟨F, hF, a⟩ := forall₂_get' hs hi
          obtain ⟨G, hG, b⟩ := forall₂_get' hs hj
          have st := add_same hw (by rw [a.keys, b.keys])
          refine ⟨Fs.set i (fun z => (List.range (F z).length).map fun j k => (F z).getD j 0 k + (G z).getD j 0 k), fun v hv hvx t ht => ?_⟩
          obtain ⟨w', hi', a'⟩ := forall₂_get ht hF
          obtain ⟨w2', hj', b'⟩ := forall₂_get ht hG
          obtain ⟨u', c1, c2⟩ := img_add a' b' fun z hz => by
            rw [sameType_keys hvx] at hz
            rw [← a.m z hz, ← b.m z hz]
            exact sameType_m a.ok b.ok st (by rw [a.keys]; exact hz)
          refine ⟨t.set i u', ?_, forall₂_set ht i c2⟩
          unfold VStmt.exec
          simp [hi', hj', c1]

theorem sameType_refl' (v : SnVec) : SameType v v := rfl

theorem run_img (hn : 1 ≤ n) {x : SnVec} (hx : Ok n x) {p : List VStmt} : ∀ {Fs : List (List Nat → List (Nat → ℝ))} {s s' : List SnVec},
    Imgs n x Fs s → VStmt.run p s = some s' →
    ∃ Fs', ∀ v, Ok n v → SameType v x → ∀ t, Imgs n v Fs t → ∃ t', VStmt.run p t = some t' ∧ Imgs n v Fs' t' := by
  induction p with
  | nil => intro Fs s s' _ _; exact ⟨Fs, fun v _ _ t ht => ⟨t, rfl, ht⟩⟩
  | cons c p ih =>
    intro Fs s s' hs h
    unfold VStmt.run at h
    rcases h1 : c.exec s with _ | s1
    · simp [h1] at h
    · rw [h1] at h
      obtain ⟨F1, a⟩ := step_img hn hs h1
      obtain ⟨s1', b1, b2⟩ := a x hx rfl s hs
      rw [h1] at b1
      cases b1
      obtain ⟨F2, b⟩ := ih b2 h
      refine ⟨F2, fun v hv hvx t ht => ?_⟩
      obtain ⟨t1, c1, c2⟩ := a v hv hvx t ht
      obtain ⟨t2, d1, d2⟩ := b v hv hvx t1 c2
      refine ⟨t2, ?_, d2⟩
      unfold VStmt.run
      rw [c1]
      exact d1

end Snob
