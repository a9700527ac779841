import Verif.Proofs.UpDefined
import Verif.Props.VecInner

/-! # Programs over vectors of different numbers of letters are linear (C138) -/

namespace Snob

open SnVec Weights

variable {n m : Nat}

/-- `s` times one column plus another -/
def lc (s : ℝ) (a b : List ℝ) : List ℝ := List.zipWith (fun x y => s * x + y) a b

theorem partAt_colAt {v : SnVec} (hv : Ok n v) {z : List Nat} (hz : z ∈ vkeys v) {j : Nat} (hj : j < (partAt v z).cols.length) :
    (partAt v z).cols[j] = (List.range (dimOf z)).map fun i => (partAt v z).data i j := by
  simp [VPart.cols, partAt_d hv hz]

theorem colsL_nil {v : SnVec} {z : List Nat} (hz : z ∉ vkeys v) : colsL z v = [] := by
  unfold colsL
  rw [List.flatMap_eq_nil_iff]
  intro P hP
  rw [if_neg]
  rintro rfl
  exact hz (List.mem_map_of_mem hP)

theorem comb_colsL {s : ℝ} {u v w : SnVec} (hu : Ok n u) (hv : Ok n v) (hw : Ok n w) (h : IsComb s u v w) (z : List Nat) :
    colsL z u = List.zipWith (lc s) (colsL z v) (colsL z w) := by
  have k1 : vkeys u = vkeys v := Props.sameType_keys h.1
  have k2 : vkeys u = vkeys w := Props.sameType_keys h.2.1
  by_cases hz : z ∈ vkeys u
  · have hzv : z ∈ vkeys v := k1 ▸ hz
    have hzw : z ∈ vkeys w := k2 ▸ hz
    have m1 := Props.sameType_m hu hv h.1 hz
    have m2 := Props.sameType_m hu hw h.2.1 hz
    rw [← partAt_cols hu hz, ← partAt_cols hv hzv, ← partAt_cols hw hzw]
    refine List.ext_getElem (by simp [VPart.cols, m1, ← m2]) fun j h1 h2 => ?_
    rw [List.getElem_zipWith, partAt_colAt hu hz, partAt_colAt hv hzv, partAt_colAt hw hzw]
    unfold lc
    rw [List.zipWith_map, List.zipWith_self]
    refine List.map_congr_left fun i hi => ?_
    exact Props.comb_at hu hv hw h hz i (List.mem_range.1 hi) j (by simpa [VPart.cols] using h1)
  · rw [colsL_nil hz, colsL_nil (k1 ▸ hz), colsL_nil (k2 ▸ hz)]
    rfl

theorem comb_of_colsL {s : ℝ} {u v w : SnVec} (hu : Ok n u) (hv : Ok n v) (hw : Ok n w) (s1 : SameType u v) (s2 : SameType u w)
    (h : ∀ z ∈ vkeys u, colsL z u = List.zipWith (lc s) (colsL z v) (colsL z w)) : IsComb s u v w := by
  have k1 : vkeys u = vkeys v := Props.sameType_keys s1
  have k2 : vkeys u = vkeys w := Props.sameType_keys s2
  refine Props.comb_of hu hv hw s1 s2 fun z hz i hi j hj => ?_
  have hzv : z ∈ vkeys v := k1 ▸ hz
  have hzw : z ∈ vkeys w := k2 ▸ hz
  have m1 := Props.sameType_m hu hv s1 hz
  have m2 := Props.sameType_m hu hw s2 hz
  have e := h z hz
  rw [← partAt_cols hu hz, ← partAt_cols hv hzv, ← partAt_cols hw hzw] at e
  have hj1 : j < (partAt u z).cols.length := by simpa [VPart.cols] using hj
  have hj2 : j < (partAt v z).cols.length := by simpa [VPart.cols, ← m1] using hj
  have hj3 : j < (partAt w z).cols.length := by simpa [VPart.cols, ← m2] using hj
  have e2 := congrArg (fun l => l[j]?) e
  simp only [List.getElem?_zipWith, List.getElem?_eq_getElem hj1, List.getElem?_eq_getElem hj2, List.getElem?_eq_getElem hj3,
    partAt_colAt hu hz, partAt_colAt hv hzv, partAt_colAt hw hzw, Option.some.injEq] at e2
  unfold lc at e2
  rw [List.zipWith_map, List.zipWith_self, List.map_inj_left] at e2
  exact e2 i (List.mem_range.2 hi)

/-- the vectors of three runs -/
def Runs3 (s : ℝ) (n : Nat) (u : SnVec) (p : SnVec × SnVec) : Prop := Ok n u ∧ Ok n p.1 ∧ Ok n p.2 ∧ IsComb s u p.1 p.2

theorem cat_colsL (hn : 1 ≤ n) {vs : List SnVec} (hvs : ∀ v ∈ vs, Ok n v) :
    ∃ u, SnVec.cat vs = some u ∧ Ok n u ∧ ∀ z, colsL z u = vs.flatMap (colsL z) := by
  obtain ⟨T, u, -, h2, h3, h4, h5, h6, h7⟩ := cat_ok hn vs hvs
  refine ⟨u, h5, h6, fun z => ?_⟩
  rw [colsL_obs, h7, List.flatMap_map, ← colsL_flatten]
  have := flatMap_single h2.nodup (fun nu => colsL nu vs.flatten) z
  rw [this]
  split_ifs with hz
  · rfl
  · rw [h3] at hz
    exact (colsL_nil hz).symm

theorem runs3_flat {s : ℝ} {us : List SnVec} {ps : List (SnVec × SnVec)} (h : List.Forall₂ (Runs3 s n) us ps) (z : List Nat) :
    us.flatMap (colsL z) = List.zipWith (lc s) ((ps.map Prod.fst).flatMap (colsL z)) ((ps.map Prod.snd).flatMap (colsL z)) := by
  induction h with
  | nil => rfl
  | @cons u p us ps a _ ih =>
    obtain ⟨a1, a2, a3, a4⟩ := a
    have hl : (colsL z p.1).length = (colsL z p.2).length := by
      rw [← colsL_types a4.1, ← colsL_types a4.2.1]
    rw [List.map_cons, List.map_cons, List.flatMap_cons, List.flatMap_cons, List.flatMap_cons, List.zipWith_append hl, ih, comb_colsL a1 a2 a3 a4]

theorem runs3_same {s : ℝ} {us : List SnVec} {ps : List (SnVec × SnVec)} (h : List.Forall₂ (Runs3 s n) us ps) :
    (∀ u ∈ us, Ok n u) ∧ List.Forall₂ (Alike n) us (ps.map Prod.fst) ∧ List.Forall₂ (Alike n) us (ps.map Prod.snd) := by
  induction h with
  | nil => exact ⟨by simp, .nil, .nil⟩
  | cons a _ ih =>
    obtain ⟨a1, a2, a3, a4⟩ := a
    exact ⟨by simpa using ⟨a1, ih.1⟩, .cons ⟨a1, a2, a4.1⟩ ih.2.1, .cons ⟨a1, a3, a4.2.1⟩ ih.2.2⟩

theorem alike_ok {us vs : List SnVec} (h : List.Forall₂ (Alike n) us vs) : ∀ v ∈ vs, Ok n v := by
  induction h with
  | nil => simp
  | cons a _ ih => simpa using ⟨a.2.1, ih⟩

theorem runs3_cat (hn : 1 ≤ n) {s : ℝ} {us : List SnVec} {ps : List (SnVec × SnVec)} (h : List.Forall₂ (Runs3 s n) us ps) {u : SnVec}
    (hu : SnVec.cat us = some u) :
    ∃ p : SnVec × SnVec, SnVec.cat (ps.map Prod.fst) = some p.1 ∧ SnVec.cat (ps.map Prod.snd) = some p.2 ∧ Runs3 s n u p := by
  obtain ⟨a1, a2, a3⟩ := runs3_same h
  obtain ⟨v, v1, r1⟩ := cat_alike hn a2 hu
  obtain ⟨w, w1, r2⟩ := cat_alike hn a3 hu
  obtain ⟨u0, b1, b2, b3⟩ := cat_colsL hn a1
  obtain ⟨v0, c1, c2, c3⟩ := cat_colsL hn (alike_ok a2)
  obtain ⟨w0, d1, d2, d3⟩ := cat_colsL hn (alike_ok a3)
  obtain rfl := Option.some.inj (hu.symm.trans b1)
  obtain rfl := Option.some.inj (v1.symm.trans c1)
  obtain rfl := Option.some.inj (w1.symm.trans d1)
  exact ⟨(v, w), v1, w1, b2, c2, d2, comb_of_colsL b2 c2 d2 r1.2.2 r2.2.2 fun z _ => by rw [b3, c3, d3]; exact runs3_flat h z⟩

theorem runs3_mul (hn : 1 ≤ n) {s : ℝ} {u : SnVec} {p : SnVec × SnVec} (h : Runs3 s n u p) {W : Weights} {u' : SnVec} (hu : mulVec W u = some u') :
    ∃ p' : SnVec × SnVec, mulVec W p.1 = some p'.1 ∧ mulVec W p.2 = some p'.2 ∧ Runs3 s n u' p' := by
  obtain ⟨h1, h2, h3, h4⟩ := h
  obtain ⟨v', v1, r1⟩ := alike_mul hn ⟨h1, h2, h4.1⟩ hu
  obtain ⟨u0, w', e1, e2, e3⟩ := Props.C75_linear n hn W s u p.1 p.2 v' h1 h2 h3 h4 v1
  obtain rfl := Option.some.inj (hu.symm.trans e1)
  obtain ⟨w0, w1, r2⟩ := alike_mul hn ⟨h1, h3, h4.2.1⟩ hu
  obtain rfl := Option.some.inj (w1.symm.trans e2)
  exact ⟨(v', w0), v1, w1, r1.1, r1.2.1, r2.2.1, e3⟩

theorem runs3_add {s : ℝ} {u u' w : SnVec} {p p' : SnVec × SnVec} (h : Runs3 s n u p) (h' : Runs3 s n u' p') (st : SameType u u')
    (hw : u.add u' = some w) : ∃ q : SnVec × SnVec, p.1.add p'.1 = some q.1 ∧ p.2.add p'.2 = some q.2 ∧ Runs3 s n w q := by
  obtain ⟨a1, a2, a3, a4⟩ := h
  obtain ⟨b1, b2, b3, b4⟩ := h'
  obtain ⟨w0, c1, c2, c3⟩ := Props.C86_add_partial a1 b1 st
  obtain rfl := Option.some.inj (hw.symm.trans c1)
  obtain ⟨x, x1, x2, x3⟩ := Props.C86_add_partial a2 b2 (a4.1.symm.trans (st.trans b4.1))
  obtain ⟨y, y1, y2, y3⟩ := Props.C86_add_partial a3 b3 (a4.2.1.symm.trans (st.trans b4.2.1))
  have s1 : SameType w x := c3.1.trans (a4.1.trans x3.1.symm)
  have s2 : SameType w y := c3.1.trans (a4.2.1.trans y3.1.symm)
  refine ⟨(x, y), x1, y1, c2, x2, y2, Props.comb_of c2 x2 y2 s1 s2 fun z hz i hi j hj => ?_⟩
  have kx : z ∈ vkeys x := Props.sameType_keys s1 ▸ hz
  have ky : z ∈ vkeys y := Props.sameType_keys s2 ▸ hz
  have ku : z ∈ vkeys u := Props.sameType_keys c3.1 ▸ hz
  have ku' : z ∈ vkeys u' := Props.sameType_keys st ▸ ku
  have mx := Props.sameType_m c2 x2 s1 hz
  have my := Props.sameType_m c2 y2 s2 hz
  have mu := Props.sameType_m c2 a1 c3.1 hz
  have mu' := Props.sameType_m a1 b1 st ku
  rw [Props.comb_at c2 a1 b1 c3 hz i hi j hj, Props.comb_at x2 a2 b2 x3 kx i hi j (by omega), Props.comb_at y2 a3 b3 y3 ky i hi j (by omega),
    Props.comb_at a1 a2 a3 a4 ku i hi j (by omega), Props.comb_at b1 b2 b3 b4 ku' i hi j (by omega)]
  ring

theorem runs3_down (hn : 1 ≤ n) {s : ℝ} {u w : SnVec} {ws : List SnVec} {p : SnVec × SnVec} (h : Runs3 s (n + 1) u p)
    (h1 : u.mapM SnVec.downB = some ws) (h2 : SnVec.cat ws = some w) :
    ∃ (ws1 ws2 : List SnVec) (q : SnVec × SnVec), p.1.mapM SnVec.downB = some ws1 ∧ SnVec.cat ws1 = some q.1 ∧
      p.2.mapM SnVec.downB = some ws2 ∧ SnVec.cat ws2 = some q.2 ∧ Runs3 s n w q := by
  obtain ⟨a1, a2, a3, a4⟩ := h
  obtain ⟨_, _, b1, b2, b3, -⟩ := restrict_ok hn a1
  obtain rfl := Option.some.inj (h1.symm.trans b1)
  obtain rfl := Option.some.inj (h2.symm.trans b2)
  obtain ⟨ws1, x, c1, c2, c3, -⟩ := restrict_ok hn a2
  obtain ⟨ws2, y, d1, d2, d3, -⟩ := restrict_ok hn a3
  exact ⟨ws1, ws2, (x, y), c1, c2, d1, d2, b3, c3, d3, Props.C139_linear hn a1 a2 a3 a4 ⟨_, h1, h2⟩ ⟨_, c1, c2⟩ ⟨_, d1, d2⟩⟩

theorem zip_flatMap {s : ℝ} {S : List (List Nat)} {F G H : List Nat → List ℝ} (hl : ∀ mu ∈ S, (G mu).length = (H mu).length)
    (h : ∀ mu ∈ S, F mu = lc s (G mu) (H mu)) : S.flatMap F = lc s (S.flatMap G) (S.flatMap H) := by
  induction S with
  | nil => rfl
  | cons mu S ih =>
    rw [List.flatMap_cons, List.flatMap_cons, List.flatMap_cons, ih (fun z hz => hl z (by simp [hz])) fun z hz => h z (by simp [hz]),
      h mu (by simp)]
    unfold lc
    rw [List.zipWith_append (hl mu (by simp))]

theorem runs3_up (hn : 1 ≤ n) {s : ℝ} {u R : SnVec} {p : SnVec × SnVec} {tau : SnType} (ht : TypeOk (n + 1) tau)
    (hm : ∀ x ∈ parts tau, 0 ≤ mult tau x) (hc : u.Covers tau) (h : Runs3 s n u p) (hR : SnVec.up tau u = some R) :
    ∃ q : SnVec × SnVec, SnVec.up tau p.1 = some q.1 ∧ SnVec.up tau p.2 = some q.2 ∧ Runs3 s (n + 1) R q := by
  obtain ⟨a1, a2, a3, a4⟩ := h
  have hc1 := covers_same a1 a2 a4.1 hc
  have hc2 := covers_same a1 a3 a4.2.1 hc
  obtain ⟨R0, e1, e2, e3⟩ := covers_ok hn a1 ht hm hc
  obtain rfl := Option.some.inj (hR.symm.trans e1)
  obtain ⟨X, f1, f2, f3⟩ := covers_ok hn a2 ht hm hc1
  obtain ⟨Y, g1, g2, g3⟩ := covers_ok hn a3 ht hm hc2
  have st : ∀ {A B v w : SnVec}, obs A = (parts tau).map (fun x => (x, (List.range (mult tau x).toNat).map (upCol v tau x))) →
      obs B = (parts tau).map (fun x => (x, (List.range (mult tau x).toNat).map (upCol w tau x))) → SameType A B := by
    intro A B v w h1 h2
    refine same_of_obs ?_
    rw [h1, h2, List.map_map, List.map_map]
    exact List.map_congr_left fun x _ => by simp
  have cl : ∀ {A v : SnVec}, obs A = (parts tau).map (fun x => (x, (List.range (mult tau x).toNat).map (upCol v tau x))) →
      ∀ z ∈ parts tau, colsL z A = (List.range (mult tau z).toNat).map (upCol v tau z) := by
    intro A v h1 z hz
    have := flatMap_single ht.nodup (fun x => (List.range (mult tau x).toNat).map (upCol v tau x)) z
    rw [if_pos hz] at this
    rw [colsL_obs, h1, List.flatMap_map, this]
  refine ⟨(X, Y), f1, g1, e2, f2, g2, comb_of_colsL e2 f2 g2 (st e3 f3) (st e3 g3) fun z hz => ?_⟩
  have hz' : z ∈ parts tau := by
    have e : vkeys R = (obs R).map Prod.fst := by unfold obs; rw [List.map_map]; rfl
    rw [e, e3, List.map_map] at hz
    simpa [Function.comp_def] using hz
  rw [cl e3 z hz', cl f3 z hz', cl g3 z hz', List.zipWith_map, List.zipWith_self]
  refine List.map_congr_left fun j hj => ?_
  rw [List.mem_range] at hj
  have key : ∀ mu ∈ subs z, mu ∈ vkeys u ∧ colOffs (fun x => (mult tau x).toNat) (parts tau) z mu + j < (colsL mu u).length := by
    intro mu hmu
    obtain ⟨u1, u2⟩ := covers_used a1 ht hm hc z hz' mu hmu
    have hle := colOffs_le (fun x => (mult tau x).toNat) ht.nodup hz' hmu
    refine ⟨u1, ?_⟩
    rw [← partAt_cols a1 u1]
    simp only [VPart.cols, List.length_map, List.length_range]
    omega
  unfold upCol
  refine zip_flatMap (fun mu hmu => ?_) fun mu hmu => ?_
  all_goals
    obtain ⟨u1, u2⟩ := key mu hmu
    have v1 : mu ∈ vkeys p.1 := Props.sameType_keys a4.1 ▸ u1
    have w1 : mu ∈ vkeys p.2 := Props.sameType_keys a4.2.1 ▸ u1
    have l1 := colsL_types a4.1 mu
    have l2 := colsL_types a4.2.1 mu
  · rw [partAt_cols a2 v1, partAt_cols a3 w1, List.getD_eq_getElem?_getD, List.getD_eq_getElem?_getD,
      List.getElem?_eq_getElem (by omega), List.getElem?_eq_getElem (by omega)]
    simp only [Option.getD_some, ← partAt_cols a2 v1, ← partAt_cols a3 w1, partAt_colAt a2 v1, partAt_colAt a3 w1, List.length_map]
  · rw [partAt_cols a1 u1, partAt_cols a2 v1, partAt_cols a3 w1, comb_colsL a1 a2 a3 a4 mu, List.getD_eq_getElem?_getD,
      List.getD_eq_getElem?_getD, List.getD_eq_getElem?_getD, List.getElem?_zipWith, List.getElem?_eq_getElem (by omega),
      List.getElem?_eq_getElem (by omega)]
    rfl

/-- the three runs, over some number of letters -/
def Runs3s (s : ℝ) (m : Nat) : List SnVec → List (SnVec × SnVec) → Prop := List.Forall₂ fun u p => ∃ d, Runs3 s (m + d) u p

theorem Runs3.level {s : ℝ} {k : Nat} {u : SnVec} {p : SnVec × SnVec} (h : Runs3 s k u p) (ho : Ok n u) : Runs3 s n u p :=
  ⟨ho, ok_of_same ho h.2.1 h.2.2.2.1, ok_of_same ho h.2.2.1 h.2.2.2.2.1, h.2.2.2⟩

theorem Runs3s.all {s : ℝ} {us : List SnVec} {ps : List (SnVec × SnVec)} (h : Runs3s s m us ps) :
    (∀ u ∈ us, Ok n u) → List.Forall₂ (Runs3 s n) us ps := by
  unfold Runs3s at h
  induction h with
  | nil => exact fun _ => .nil
  | cons a _ ih =>
    obtain ⟨d, a⟩ := a
    exact fun hok => .cons (a.level (hok _ (by simp))) (ih fun v hv => hok v (by simp [hv]))

theorem mapM_get_proj {α β : Type} (f : α → β) (ps : List α) (is : List Nat) {qs : List α} (h : is.mapM (fun k => ps[k]?) = some qs) :
    is.mapM (fun k => (ps.map f)[k]?) = some (qs.map f) := by
  rw [mapM_some_iff] at h ⊢
  refine ⟨by simpa using h.1, fun i x hx => ?_⟩
  obtain ⟨y, h1, h2⟩ := h.2 i x hx
  exact ⟨f y, by simp [h1], by simp [h2]⟩

theorem runs3_exec {eig : Eig} (hm : 1 ≤ m) {a : ℝ} {c : LStmt} (hp : c.Linear) {s s' : List SnVec} {t : List (SnVec × SnVec)} (hs : Runs3s a m s t)
    (hF : c.Fits m s) (hc : c.exec eig s = some s') :
    ∃ t' : List (SnVec × SnVec), c.exec eig (t.map Prod.fst) = some (t'.map Prod.fst) ∧ c.exec eig (t.map Prod.snd) = some (t'.map Prod.snd) ∧
      Runs3s a m s' t' := by
  have get : ∀ {i : Nat} {q : SnVec × SnVec}, t[i]? = some q → (t.map Prod.fst)[i]? = some q.1 ∧ (t.map Prod.snd)[i]? = some q.2 :=
    fun h => by simp [h]
  rcases c with ((⟨W, i⟩ | ⟨i, is⟩ | ⟨i, j⟩) | ⟨i, j⟩) | i | ⟨tau, i⟩
  · change ((s[i]?).bind fun v => (mulVec W v).bind fun w => some (s ++ [w])) = some s' at hc
    obtain ⟨v, hi, hc⟩ := Option.bind_eq_some_iff.1 hc
    obtain ⟨w, hw, hc⟩ := Option.bind_eq_some_iff.1 hc
    cases hc
    obtain ⟨q, hi', d, r⟩ := forall₂_get hs hi
    obtain ⟨q', e1, e2, r'⟩ := runs3_mul (by omega) r hw
    refine ⟨t ++ [q'], ?_, ?_, forall₂_snoc hs ⟨d, r'⟩⟩
    · change (((t.map Prod.fst)[i]?).bind fun v => (mulVec W v).bind fun w => some (t.map Prod.fst ++ [w])) = _
      rw [(get hi').1, Option.bind_some, e1, List.map_append]; rfl
    · change (((t.map Prod.snd)[i]?).bind fun v => (mulVec W v).bind fun w => some (t.map Prod.snd ++ [w])) = _
      rw [(get hi').2, Option.bind_some, e2, List.map_append]; rfl
  · change (((i :: is).mapM fun k => s[k]?).bind fun vs => (SnVec.cat vs).bind fun w => some (s ++ [w])) = some s' at hc
    obtain ⟨vs, hi, hc⟩ := Option.bind_eq_some_iff.1 hc
    obtain ⟨w, hw, hc⟩ := Option.bind_eq_some_iff.1 hc
    cases hc
    obtain ⟨n, hn, hF⟩ := hF
    obtain ⟨d, rfl⟩ := Nat.exists_eq_add_of_le hn
    obtain ⟨qs, hi', r⟩ := forall₂_mapM hs hi
    have hok : ∀ v ∈ vs, Ok (m + d) v := fun v hv => by
      obtain ⟨q, hq⟩ := List.mem_iff_getElem?.1 hv
      have hl := ((mapM_some_iff _ _ _).1 hi).1
      have hlt : q < (i :: is).length := by have := (List.getElem?_eq_some_iff.1 hq).1; omega
      obtain ⟨b, e1, e2⟩ := ((mapM_some_iff _ _ _).1 hi).2 q _ (List.getElem?_eq_getElem hlt)
      rw [hq] at e1
      cases e1
      exact hF _ (List.getElem_mem hlt) v e2
    obtain ⟨q', e1, e2, r'⟩ := runs3_cat (by omega) (Runs3s.all r hok) hw
    refine ⟨t ++ [q'], ?_, ?_, forall₂_snoc hs ⟨d, r'⟩⟩
    · change (((i :: is).mapM fun k => (t.map Prod.fst)[k]?).bind fun vs => (SnVec.cat vs).bind fun w => some (t.map Prod.fst ++ [w])) = _
      rw [mapM_get_proj _ _ _ hi', Option.bind_some, e1, List.map_append]; rfl
    · change (((i :: is).mapM fun k => (t.map Prod.snd)[k]?).bind fun vs => (SnVec.cat vs).bind fun w => some (t.map Prod.snd ++ [w])) = _
      rw [mapM_get_proj _ _ _ hi', Option.bind_some, e2, List.map_append]; rfl
  · change ((s[i]?).bind fun u => (s[j]?).bind fun v => (u.add v).bind fun w => some (s.set i w)) = some s' at hc
    obtain ⟨u, hi, hc⟩ := Option.bind_eq_some_iff.1 hc
    obtain ⟨v, hj, hc⟩ := Option.bind_eq_some_iff.1 hc
    obtain ⟨w, hw, hc⟩ := Option.bind_eq_some_iff.1 hc
    cases hc
    obtain ⟨q1, hi', d, r⟩ := forall₂_get hs hi
    obtain ⟨q2, hj', e, q⟩ := forall₂_get hs hj
    have st : SameType u v := hF u v hi hj
    obtain ⟨q', e1, e2, r'⟩ := runs3_add r (q.level (ok_of_same r.1 q.1 st)) st hw
    refine ⟨t.set i q', ?_, ?_, forall₂_set hs i ⟨d, r'⟩⟩
    · change (((t.map Prod.fst)[i]?).bind fun u => ((t.map Prod.fst)[j]?).bind fun v => (u.add v).bind fun w => some ((t.map Prod.fst).set i w)) = _
      rw [(get hi').1, Option.bind_some, (get hj').1, Option.bind_some, e1, List.map_set]; rfl
    · change (((t.map Prod.snd)[i]?).bind fun u => ((t.map Prod.snd)[j]?).bind fun v => (u.add v).bind fun w => some ((t.map Prod.snd).set i w)) = _
      rw [(get hi').2, Option.bind_some, (get hj').2, Option.bind_some, e2, List.map_set]; rfl
  · exact hp.elim
  · change ((s[i]?).bind fun v => (v.mapM SnVec.downB).bind fun ws => (SnVec.cat ws).bind fun w => some (s ++ [w])) = some s' at hc
    obtain ⟨v, hi, hc⟩ := Option.bind_eq_some_iff.1 hc
    obtain ⟨ws, hws, hc⟩ := Option.bind_eq_some_iff.1 hc
    obtain ⟨w, hw, hc⟩ := Option.bind_eq_some_iff.1 hc
    cases hc
    obtain ⟨n, hn, hF⟩ := hF
    obtain ⟨d, rfl⟩ := Nat.exists_eq_add_of_le hn
    obtain ⟨q, hi', e, r⟩ := forall₂_get hs hi
    obtain ⟨ws1, ws2, q', e1, e2, e3, e4, r'⟩ := runs3_down (n := m + d) (by omega) (r.level (hF v hi)) hws hw
    refine ⟨t ++ [q'], ?_, ?_, forall₂_snoc hs ⟨d, r'⟩⟩
    · change (((t.map Prod.fst)[i]?).bind fun v => (v.mapM SnVec.downB).bind fun ws => (SnVec.cat ws).bind fun w => some (t.map Prod.fst ++ [w])) = _
      rw [(get hi').1, Option.bind_some, e1, Option.bind_some, e2, List.map_append]; rfl
    · change (((t.map Prod.snd)[i]?).bind fun v => (v.mapM SnVec.downB).bind fun ws => (SnVec.cat ws).bind fun w => some (t.map Prod.snd ++ [w])) = _
      rw [(get hi').2, Option.bind_some, e3, Option.bind_some, e4, List.map_append]; rfl
  · change ((s[i]?).bind fun v => (SnVec.up tau v).bind fun w => some (s ++ [w])) = some s' at hc
    obtain ⟨v, hi, hc⟩ := Option.bind_eq_some_iff.1 hc
    obtain ⟨w, hw, hc⟩ := Option.bind_eq_some_iff.1 hc
    cases hc
    obtain ⟨n, hn, ht, hmu, hF⟩ := hF
    obtain ⟨d, rfl⟩ := Nat.exists_eq_add_of_le hn
    obtain ⟨q, hi', e, r⟩ := forall₂_get hs hi
    obtain ⟨ov, hd⟩ := hF v hi
    obtain ⟨q', e1, e2, r'⟩ := runs3_up (n := m + d) (by omega) ht hmu hd (r.level ov) hw
    refine ⟨t ++ [q'], ?_, ?_, forall₂_snoc hs ⟨d + 1, r'⟩⟩
    · change (((t.map Prod.fst)[i]?).bind fun v => (SnVec.up tau v).bind fun w => some (t.map Prod.fst ++ [w])) = _
      rw [(get hi').1, Option.bind_some, e1, List.map_append]; rfl
    · change (((t.map Prod.snd)[i]?).bind fun v => (SnVec.up tau v).bind fun w => some (t.map Prod.snd ++ [w])) = _
      rw [(get hi').2, Option.bind_some, e2, List.map_append]; rfl

theorem runs3_run {eig : Eig} (hm : 1 ≤ m) {a : ℝ} {p : List LStmt} : (∀ c ∈ p, c.Linear) → ∀ {s s' : List SnVec} {t : List (SnVec × SnVec)},
    Runs3s a m s t → LStmt.AllFit eig m p s → LStmt.run eig p s = some s' →
    ∃ t' : List (SnVec × SnVec), LStmt.run eig p (t.map Prod.fst) = some (t'.map Prod.fst) ∧
      LStmt.run eig p (t.map Prod.snd) = some (t'.map Prod.snd) ∧ Runs3s a m s' t' := by
  induction p with
  | nil => intro _ s s' t hs _ hr; cases hr; exact ⟨t, rfl, rfl, hs⟩
  | cons c p ih =>
    intro hp s s' t hs hA hr
    obtain ⟨s1, h1, h2⟩ := Option.bind_eq_some_iff.1 (show (c.exec eig s).bind (fun s => LStmt.run eig p s) = some s' from hr)
    obtain ⟨t1, e1, e2, r1⟩ := runs3_exec hm (hp c (by simp)) hs hA.1 h1
    obtain ⟨t2, f1, f2, r2⟩ := ih (fun c hc => hp c (by simp [hc])) r1 (hA.2 s1 h1) h2
    exact ⟨t2, show (c.exec eig _).bind (fun s => LStmt.run eig p s) = _ by rw [e1]; exact f1,
      show (c.exec eig _).bind (fun s => LStmt.run eig p s) = _ by rw [e2]; exact f2, r2⟩

end Snob
