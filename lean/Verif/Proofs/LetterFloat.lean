import Verif.Spec.LetterFloat
import Verif.Proofs.FloatProg
import Verif.Proofs.LetterLin

/-! Programs that restrict and induce, run on three vectors at once: exactly, in floating point, and with absolute values. -/

namespace Snob

open SnVec Props Weights

variable {n m : Nat} {R R' : ℝ → ℝ → ℝ → Prop}

/-- three lists of columns whose entries are related -/
def Cols3 (R : ℝ → ℝ → ℝ → Prop) (A B C : List (List ℝ)) : Prop :=
  ∃ T : List (List (ℝ × ℝ × ℝ)), A = T.map (List.map fun t => t.1) ∧ B = T.map (List.map fun t => t.2.1) ∧ C = T.map (List.map fun t => t.2.2) ∧
    ∀ l ∈ T, ∀ t ∈ l, R t.1 t.2.1 t.2.2

theorem Cols3.nil : Cols3 R [] [] [] := ⟨[], rfl, rfl, rfl, by simp⟩

theorem Cols3.append {A B C A' B' C' : List (List ℝ)} (h : Cols3 R A B C) (h' : Cols3 R A' B' C') : Cols3 R (A ++ A') (B ++ B') (C ++ C') := by
  obtain ⟨T, rfl, rfl, rfl, h⟩ := h
  obtain ⟨S, rfl, rfl, rfl, h'⟩ := h'
  refine ⟨T ++ S, by simp, by simp, by simp, fun l hl => ?_⟩
  rcases List.mem_append.1 hl with hl | hl
  exacts [h l hl, h' l hl]

theorem Cols3.flatMap {α : Type} {S : List α} {f g k : α → List (List ℝ)} (h : ∀ x ∈ S, Cols3 R (f x) (g x) (k x)) :
    Cols3 R (S.flatMap f) (S.flatMap g) (S.flatMap k) := by
  induction S with
  | nil => exact Cols3.nil
  | cons x S ih =>
    rw [List.flatMap_cons, List.flatMap_cons, List.flatMap_cons]
    exact (h x (by simp)).append (ih fun y hy => h y (by simp [hy]))

theorem Cols3.slice {A B C : List (List ℝ)} (h : Cols3 R A B C) (S : List (List Nat)) (mu : List Nat) :
    Cols3 R (A.map (slice S mu)) (B.map (slice S mu)) (C.map (slice S mu)) := by
  obtain ⟨T, rfl, rfl, rfl, h⟩ := h
  refine ⟨T.map fun l => (l.drop (offOf S mu)).take (dimOf mu), ?_, ?_, ?_, fun l hl t ht => ?_⟩
  · rw [List.map_map, List.map_map]
    exact List.map_congr_left fun l _ => by simp [Snob.slice, List.map_take, List.map_drop]
  · rw [List.map_map, List.map_map]
    exact List.map_congr_left fun l _ => by simp [Snob.slice, List.map_take, List.map_drop]
  · rw [List.map_map, List.map_map]
    exact List.map_congr_left fun l _ => by simp [Snob.slice, List.map_take, List.map_drop]
  · obtain ⟨l', hl', rfl⟩ := List.mem_map.1 hl
    exact h l' hl' t (List.mem_of_mem_drop (List.mem_of_mem_take ht))

theorem getD_mapCols {α : Type} (T : List (List α)) (f : α → ℝ) (k : Nat) : (T.map (List.map f)).getD k [] = (T.getD k []).map f := by
  rw [List.getD_eq_getElem?_getD, List.getD_eq_getElem?_getD, List.getElem?_map]
  rcases T[k]? with _ | l <;> rfl

/-- the vectors of the three runs -/
structure Floats3 (R : ℝ → ℝ → ℝ → Prop) (n : Nat) (q : SnVec × SnVec × SnVec) : Prop where
  ok1 : Ok n q.1
  ok2 : Ok n q.2.1
  ok3 : Ok n q.2.2
  st2 : SameType q.1 q.2.1
  st3 : SameType q.1 q.2.2
  cols : ∀ z, Cols3 R (colsL z q.1) (colsL z q.2.1) (colsL z q.2.2)

theorem Floats3.of {q : SnVec × SnVec × SnVec} {K : List (List Nat)} (h : Rel3 n R K q) : Floats3 R n q := by
  refine ⟨h.ok1, h.ok2, h.ok3, sameType_of h.ok1 h.ok2 (h.k1.trans h.k2.symm) fun z hz => (h.m2 z (h.k1 ▸ hz)).symm,
    sameType_of h.ok1 h.ok3 (h.k1.trans h.k3.symm) fun z hz => (h.m3 z (h.k1 ▸ hz)).symm, fun z => ?_⟩
  by_cases hz : z ∈ K
  · obtain ⟨T, t1, t2, t3, t4⟩ := h.cols hz
    have z1 : z ∈ vkeys q.1 := h.k1 ▸ hz
    have z2 : z ∈ vkeys q.2.1 := h.k2 ▸ hz
    have z3 : z ∈ vkeys q.2.2 := h.k3 ▸ hz
    rw [← partAt_cols h.ok1 z1, ← partAt_cols h.ok2 z2, ← partAt_cols h.ok3 z3, t1, t2, t3]
    refine ⟨T.map fun t => (List.range (dimOf z)).map fun i => (t.1 i, t.2.1 i, t.2.2 i), ?_, ?_, ?_, fun l hl t ht => ?_⟩
    · rw [List.map_map]; exact List.map_congr_left fun t _ => by simp
    · rw [List.map_map]; exact List.map_congr_left fun t _ => by simp
    · rw [List.map_map]; exact List.map_congr_left fun t _ => by simp
    · obtain ⟨t', ht', rfl⟩ := List.mem_map.1 hl
      obtain ⟨i, hi, rfl⟩ := List.mem_map.1 ht
      exact t4 t' ht' i (List.mem_range.1 hi)
  · rw [colsL_nil (v := q.1) (by rw [h.k1]; exact hz), colsL_nil (v := q.2.1) (by rw [h.k2]; exact hz),
      colsL_nil (v := q.2.2) (by rw [h.k3]; exact hz)]
    exact Cols3.nil

theorem data_of_cols3 {v : SnVec} (hv : Ok n v) {z : List Nat} (hz : z ∈ vkeys v) {T : List (List (ℝ × ℝ × ℝ))} {g : ℝ × ℝ × ℝ → ℝ}
    (h : colsL z v = T.map (List.map g)) {i j : Nat} (hi : i < dimOf z) (hj : j < (partAt v z).m) :
    ∃ l t, T[j]? = some l ∧ l[i]? = some t ∧ (partAt v z).data i j = g t := by
  rw [← partAt_cols hv hz] at h
  have hl : T.length = (partAt v z).m := by simpa [VPart.cols] using (congrArg List.length h).symm
  have hT : T[j]? = some T[j] := List.getElem?_eq_getElem (by omega)
  have hcol : (partAt v z).cols[j]'(by simpa [VPart.cols] using hj) = T[j].map g := by simp [h]
  rw [partAt_colAt hv hz] at hcol
  have hl2 : T[j].length = dimOf z := by simpa using (congrArg List.length hcol).symm
  have hi2 : T[j][i]? = some T[j][i] := List.getElem?_eq_getElem (by omega)
  refine ⟨_, _, hT, hi2, ?_⟩
  have := congrArg (fun l => l[i]?) hcol
  simpa [hi, hl2] using this

theorem Floats3.rel {q : SnVec × SnVec × SnVec} (h : Floats3 R n q) : Rel3 n R (vkeys q.1) q := by
  have k2 := sameType_keys h.st2
  have k3 := sameType_keys h.st3
  refine ⟨h.ok1, h.ok2, h.ok3, rfl, k2.symm, k3.symm, fun z hz => (sameType_m h.ok1 h.ok2 h.st2 hz).symm,
    fun z hz => (sameType_m h.ok1 h.ok3 h.st3 hz).symm, fun z hz i hi j hj => ?_⟩
  obtain ⟨T, t1, t2, t3, t4⟩ := h.cols z
  obtain ⟨l, t, a1, a2, a3⟩ := data_of_cols3 h.ok1 hz (g := fun t => t.1) t1 hi hj
  obtain ⟨l', t', b1, b2, b3⟩ := data_of_cols3 h.ok2 (k2 ▸ hz) (g := fun t => t.2.1) t2 hi (by rw [← sameType_m h.ok1 h.ok2 h.st2 hz]; exact hj)
  obtain ⟨l'', t'', c1, c2, c3⟩ := data_of_cols3 h.ok3 (k3 ▸ hz) (g := fun t => t.2.2) t3 hi (by rw [← sameType_m h.ok1 h.ok3 h.st3 hz]; exact hj)
  cases a1.symm.trans b1
  cases a1.symm.trans c1
  cases a2.symm.trans b2
  cases a2.symm.trans c2
  rw [a3, b3, c3]
  exact t4 l (List.mem_of_getElem? a1) t (List.mem_of_getElem? a2)

theorem Floats3.mono {q : SnVec × SnVec × SnVec} (h : Floats3 R n q) (hR : ∀ x y a, R x y a → R' x y a) : Floats3 R' n q := by
  refine ⟨h.ok1, h.ok2, h.ok3, h.st2, h.st3, fun z => ?_⟩
  obtain ⟨T, t1, t2, t3, t4⟩ := h.cols z
  exact ⟨T, t1, t2, t3, fun l hl t ht => hR _ _ _ (t4 l hl t ht)⟩

theorem Floats3.level {k : Nat} {q : SnVec × SnVec × SnVec} (h : Floats3 R k q) (ho : Ok n q.1) : Floats3 R n q :=
  ⟨ho, ok_of_same ho h.ok2 h.st2, ok_of_same ho h.ok3 h.st3, h.st2, h.st3, h.cols⟩

theorem floats3_cat (hn : 1 ≤ n) {qs : List (SnVec × SnVec × SnVec)} (h : ∀ q ∈ qs, Floats3 R n q) :
    ∃ u u2 u3, SnVec.cat (qs.map fun q => q.1) = some u ∧ SnVec.cat (qs.map fun q => q.2.1) = some u2 ∧
      SnVec.cat (qs.map fun q => q.2.2) = some u3 ∧ Floats3 R n (u, u2, u3) := by
  have mem : ∀ {f : SnVec × SnVec × SnVec → SnVec}, (∀ q ∈ qs, Ok n (f q)) → ∀ v ∈ qs.map f, Ok n v := by
    intro f hf v hv
    obtain ⟨q, hq, rfl⟩ := List.mem_map.1 hv
    exact hf q hq
  obtain ⟨u, a1, a2, a3⟩ := cat_colsL hn (mem fun q hq => (h q hq).ok1)
  obtain ⟨u2, b1, b2, b3⟩ := cat_colsL hn (mem fun q hq => (h q hq).ok2)
  obtain ⟨u3, c1, c2, c3⟩ := cat_colsL hn (mem fun q hq => (h q hq).ok3)
  have al : ∀ {f : SnVec × SnVec × SnVec → SnVec}, (∀ q ∈ qs, Ok n (f q) ∧ SameType q.1 (f q)) →
      List.Forall₂ (Alike n) (qs.map fun q => q.1) (qs.map f) := by
    intro f hf
    rw [List.forall₂_map_left_iff, List.forall₂_map_right_iff, List.forall₂_same]
    exact fun q hq => ⟨(h q hq).ok1, hf q hq⟩
  obtain ⟨v2, d1, d2⟩ := cat_alike hn (al fun q hq => ⟨(h q hq).ok2, (h q hq).st2⟩) a1
  obtain ⟨v3, e1, e2⟩ := cat_alike hn (al fun q hq => ⟨(h q hq).ok3, (h q hq).st3⟩) a1
  obtain rfl := Option.some.inj (b1.symm.trans d1)
  obtain rfl := Option.some.inj (c1.symm.trans e1)
  refine ⟨u, u2, u3, a1, b1, c1, a2, b2, c2, d2.2.2, e2.2.2, fun z => ?_⟩
  simp only
  rw [a3, b3, c3, List.flatMap_map, List.flatMap_map, List.flatMap_map]
  exact Cols3.flatMap fun q hq => (h q hq).cols z

theorem floats3_down (hn : 1 ≤ n) {q : SnVec × SnVec × SnVec} (h : Floats3 R (n + 1) q) :
    ∃ ws ws2 ws3 u u2 u3, q.1.mapM SnVec.downB = some ws ∧ SnVec.cat ws = some u ∧ q.2.1.mapM SnVec.downB = some ws2 ∧ SnVec.cat ws2 = some u2 ∧
      q.2.2.mapM SnVec.downB = some ws3 ∧ SnVec.cat ws3 = some u3 ∧ Floats3 R n (u, u2, u3) := by
  obtain ⟨ws, u, a1, a2, a3, a4, -, a5⟩ := restrict_ok hn h.ok1
  obtain ⟨ws2, u2, b1, b2, b3, b4, -, b5⟩ := restrict_ok hn h.ok2
  obtain ⟨ws3, u3, c1, c2, c3, c4, -, c5⟩ := restrict_ok hn h.ok3
  refine ⟨ws, ws2, ws3, u, u2, u3, a1, a2, b1, b2, c1, c2, a3, b3, c3, ?_, ?_, fun z => ?_⟩
  · rw [← types_of_same h.st2, a5] at b5
    exact same_of_types (Option.some.inj b5)
  · rw [← types_of_same h.st3, a5] at c5
    exact same_of_types (Option.some.inj c5)
  · simp only
    rw [a4, b4, c4, resCols_keys h.ok1, resCols_keys h.ok2, resCols_keys h.ok3, ← sameType_keys h.st2, ← sameType_keys h.st3]
    refine Cols3.flatMap fun x hx => ?_
    split_ifs
    · have x2 : x ∈ vkeys q.2.1 := sameType_keys h.st2 ▸ hx
      have x3 : x ∈ vkeys q.2.2 := sameType_keys h.st3 ▸ hx
      rw [partAt_cols h.ok1 hx, partAt_cols h.ok2 x2, partAt_cols h.ok3 x3]
      exact (h.cols x).slice _ _
    · exact Cols3.nil

theorem floats3_up (hn : 1 ≤ n) {q : SnVec × SnVec × SnVec} {tau : SnType} (ht : TypeOk (n + 1) tau)
    (hm : ∀ x ∈ parts tau, 0 ≤ mult tau x) (hc : q.1.Covers tau) (h : Floats3 R n q) :
    ∃ u u2 u3, SnVec.up tau q.1 = some u ∧ SnVec.up tau q.2.1 = some u2 ∧ SnVec.up tau q.2.2 = some u3 ∧ Floats3 R (n + 1) (u, u2, u3) := by
  have hc2 := covers_same h.ok1 h.ok2 h.st2 hc
  have hc3 := covers_same h.ok1 h.ok3 h.st3 hc
  obtain ⟨u, a1, a2, a3⟩ := covers_ok hn h.ok1 ht hm hc
  obtain ⟨u2, b1, b2, b3⟩ := covers_ok hn h.ok2 ht hm hc2
  obtain ⟨u3, c1, c2, c3⟩ := covers_ok hn h.ok3 ht hm hc3
  have st : ∀ {A B v w : SnVec}, obs A = (parts tau).map (fun x => (x, (List.range (mult tau x).toNat).map (upCol v tau x))) →
      obs B = (parts tau).map (fun x => (x, (List.range (mult tau x).toNat).map (upCol w tau x))) → SameType A B := by
    intro A B v w h1 h2
    refine same_of_obs ?_
    rw [h1, h2, List.map_map, List.map_map]
    exact List.map_congr_left fun x _ => by simp
  have cl : ∀ {A v : SnVec}, obs A = (parts tau).map (fun x => (x, (List.range (mult tau x).toNat).map (upCol v tau x))) →
      ∀ z, colsL z A = if z ∈ parts tau then (List.range (mult tau z).toNat).map (upCol v tau z) else [] := by
    intro A v h1 z
    rw [colsL_obs, h1, List.flatMap_map]
    exact flatMap_single ht.nodup (fun x => (List.range (mult tau x).toNat).map (upCol v tau x)) z
  refine ⟨u, u2, u3, a1, b1, c1, a2, b2, c2, st a3 b3, st a3 c3, fun z => ?_⟩
  simp only
  rw [cl a3, cl b3, cl c3]
  split_ifs with hz
  · choose T t1 t2 t3 t4 using h.cols
    have up : ∀ {v : SnVec} {g : ℝ × ℝ × ℝ → ℝ}, Ok n v → v.Covers tau → (∀ x, colsL x v = (T x).map (List.map g)) → ∀ j,
        upCol v tau z j = ((subs z).flatMap fun mu => (T mu).getD (colOffs (fun x => (mult tau x).toNat) (parts tau) z mu + j) []).map g := by
      intro v g hv hcv hT j
      unfold upCol
      rw [List.map_flatMap]
      refine List.flatMap_congr fun mu hmu => ?_
      rw [partAt_cols hv (covers_used hv ht hm hcv z hz mu hmu).1, hT, getD_mapCols]
    refine ⟨(List.range (mult tau z).toNat).map fun j =>
      (subs z).flatMap fun mu => (T mu).getD (colOffs (fun x => (mult tau x).toNat) (parts tau) z mu + j) [], ?_, ?_, ?_, fun l hl t htl => ?_⟩
    · rw [List.map_map]; exact List.map_congr_left fun j _ => up h.ok1 hc t1 j
    · rw [List.map_map]; exact List.map_congr_left fun j _ => up h.ok2 hc2 t2 j
    · rw [List.map_map]; exact List.map_congr_left fun j _ => up h.ok3 hc3 t3 j
    · obtain ⟨j, -, rfl⟩ := List.mem_map.1 hl
      obtain ⟨mu, -, ht'⟩ := List.mem_flatMap.1 htl
      rw [List.getD_eq_getElem?_getD] at ht'
      rcases e : (T mu)[colOffs (fun x => (mult tau x).toNat) (parts tau) z mu + j]? with _ | l'
      · rw [e] at ht'; simp at ht'
      · rw [e] at ht'
        exact t4 mu l' (List.mem_of_getElem? e) t ht'
  · exact Cols3.nil

/-- the weights of a statement -/
def LStmt.AllW (G : ℝ → Prop) : LStmt → Prop
  | .net (.lin c) => c.AllW G
  | _ => True

section
variable {F : Rounding} {ord : Nat → SumTree} {R : Nat → ℝ → ℝ → ℝ → Prop} {G : ℝ → Prop} {C : Nat} {eig : Eig}

theorem lexec_bound {c : LStmt} (hp : c.Linear) {s s' : List SnVec} (h : c.exec eig s = some s') (hC : ∀ w ∈ s', ∀ P ∈ w, P.m ≤ C) :
    ∀ w ∈ s, ∀ P ∈ w, P.m ≤ C := by
  rcases c with (c | ⟨i, j⟩) | i | ⟨tau, i⟩
  · exact exec_bound (show c.exec s = some s' from h) hC
  · exact hp.elim
  · change ((s[i]?).bind fun v => (v.mapM SnVec.downB).bind fun ws => (SnVec.cat ws).bind fun w => some (s ++ [w])) = some s' at h
    obtain ⟨v, -, h⟩ := Option.bind_eq_some_iff.1 h
    obtain ⟨ws, -, h⟩ := Option.bind_eq_some_iff.1 h
    obtain ⟨w, -, h⟩ := Option.bind_eq_some_iff.1 h
    cases h
    exact fun w hw => hC w (by simp [hw])
  · change ((s[i]?).bind fun v => (SnVec.up tau v).bind fun w => some (s ++ [w])) = some s' at h
    obtain ⟨v, -, h⟩ := Option.bind_eq_some_iff.1 h
    obtain ⟨w, -, h⟩ := Option.bind_eq_some_iff.1 h
    cases h
    exact fun w hw => hC w (by simp [hw])

theorem lrun_bound {p : List LStmt} : (∀ c ∈ p, c.Linear) → ∀ {s s' : List SnVec}, LStmt.run eig p s = some s' →
    (∀ w ∈ s', ∀ P ∈ w, P.m ≤ C) → ∀ w ∈ s, ∀ P ∈ w, P.m ≤ C := by
  induction p with
  | nil => intro _ s s' h hC; cases h; exact hC
  | cons c p ih =>
    intro hp s s' h hC
    obtain ⟨s1, h1, h2⟩ := Option.bind_eq_some_iff.1 (show (c.exec eig s).bind (fun s => LStmt.run eig p s) = some s' from h)
    exact lexec_bound (hp c (by simp)) h1 (ih (fun c hc => hp c (by simp [hc])) h2 hC)

theorem floats3_exec (hm : 1 ≤ m) (hR : ∀ e e' x y a, e ≤ e' → R e x y a → R e' x y a)
    (hmul : ∀ e, ∀ c ≤ C, ∀ x y a f : Nat → ℝ, (∀ k < c, R e (x k) (y k) (a k)) → (∀ k < c, G (f k)) →
      R (e + C) (∑ k ∈ Finset.range c, x k * f k) (F.dot ord c y f) (∑ k ∈ Finset.range c, a k * |f k|))
    (hadd : ∀ e x y a x' y' a', R e x y a → R e x' y' a' → R (e + 1) (x + x') (F.s (y + y')) (a + a'))
    {e : Nat} {t : List (SnVec × SnVec × SnVec)} (ht : ∀ q ∈ t, ∃ d, Floats3 (R e) (m + d) q)
    {c : LStmt} (hp : c.Linear) (hG : c.AllW G) (hC : ∀ q ∈ t, ∀ P ∈ q.1, P.m ≤ C) (hF : c.Fits m (t.map fun q => q.1))
    {s' : List SnVec} (h : c.exec eig (t.map fun q => q.1) = some s') :
    ∃ t' : List (SnVec × SnVec × SnVec), s' = t'.map (fun q => q.1) ∧ F.lexec ord c (t.map fun q => q.2.1) = some (t'.map fun q => q.2.1) ∧
      c.abs.exec eig (t.map fun q => q.2.2) = some (t'.map fun q => q.2.2) ∧ ∀ q ∈ t', ∃ d, Floats3 (R (e + c.cost C)) (m + d) q := by
  have old : ∀ k, ∀ q ∈ t, ∃ d, Floats3 (R (e + k)) (m + d) q := fun k q hq => by
    obtain ⟨d, r⟩ := ht q hq
    exact ⟨d, r.mono fun _ _ _ => hR _ _ _ _ _ (Nat.le_add_right _ _)⟩
  have snoc : ∀ k {q' : SnVec × SnVec × SnVec}, (∃ d, Floats3 (R (e + k)) (m + d) q') → ∀ q ∈ t ++ [q'], ∃ d, Floats3 (R (e + k)) (m + d) q := by
    intro k q' h q hq
    rcases List.mem_append.1 hq with hq | hq
    · exact old k q hq
    · rw [List.mem_singleton.1 hq]; exact h
  have get : ∀ {i : Nat} {v : SnVec}, (t.map fun q => q.1)[i]? = some v → ∃ q, t[i]? = some q ∧ q.1 = v := by
    intro i v hi
    rw [List.getElem?_map, Option.map_eq_some_iff] at hi
    exact hi
  have g2 : ∀ {i : Nat} {q : SnVec × SnVec × SnVec}, t[i]? = some q → (t.map fun q => q.2.1)[i]? = some q.2.1 ∧ (t.map fun q => q.2.2)[i]? = some q.2.2 :=
    fun h => by simp [h]
  rcases c with ((⟨W, i⟩ | ⟨i, is⟩ | ⟨i, j⟩) | ⟨i, j⟩) | i | ⟨tau, i⟩
  · change (((t.map fun q => q.1)[i]?).bind fun v => (mulVec W v).bind fun w => some ((t.map fun q => q.1) ++ [w])) = some s' at h
    obtain ⟨v, hi, h⟩ := Option.bind_eq_some_iff.1 h
    obtain ⟨w, hw, h⟩ := Option.bind_eq_some_iff.1 h
    cases h
    obtain ⟨q, hi', rfl⟩ := get hi
    replace hi := hi'
    have hq := List.mem_of_getElem? hi
    obtain ⟨d, r⟩ := ht q hq
    obtain ⟨u2, u3, a1, a2, a3⟩ := rel3_mul (by omega) (hmul e) r.rel hG (hC q hq) hw
    refine ⟨t ++ [(w, u2, u3)], by simp, ?_, ?_, snoc C ⟨d, Floats3.of a3⟩⟩
    · change (((t.map fun q => q.2.1)[i]?).bind fun v => (F.mulVec ord W v).bind fun w => some ((t.map fun q => q.2.1) ++ [w])) = _
      rw [(g2 hi).1, Option.bind_some, a1, List.map_append]; rfl
    · change (((t.map fun q => q.2.2)[i]?).bind fun v => (mulVec W.absW v).bind fun w => some ((t.map fun q => q.2.2) ++ [w])) = _
      rw [(g2 hi).2, Option.bind_some, a2, List.map_append]; rfl
  · change (((i :: is).mapM fun k => (t.map fun q => q.1)[k]?).bind fun vs => (SnVec.cat vs).bind fun w => some ((t.map fun q => q.1) ++ [w])) =
      some s' at h
    rw [mapM_get_map] at h
    obtain ⟨vs, hvs, h⟩ := Option.bind_eq_some_iff.1 h
    obtain ⟨w, hw, h⟩ := Option.bind_eq_some_iff.1 h
    cases h
    obtain ⟨qs, hi, rfl⟩ := Option.map_eq_some_iff.1 hvs
    obtain ⟨n, hn, hF⟩ := hF
    obtain ⟨d, rfl⟩ := Nat.exists_eq_add_of_le hn
    have hqs : ∀ q ∈ qs, Floats3 (R e) (m + d) q := by
      intro q hq
      obtain ⟨k, hk⟩ := List.mem_iff_getElem?.1 hq
      have hl := ((mapM_some_iff _ _ _).1 hi).1
      have hlt : k < (i :: is).length := by have := (List.getElem?_eq_some_iff.1 hk).1; omega
      obtain ⟨b, e1, e2⟩ := ((mapM_some_iff _ _ _).1 hi).2 k _ (List.getElem?_eq_getElem hlt)
      rw [hk] at e1
      cases e1
      obtain ⟨d', r⟩ := ht q (List.mem_of_getElem? e2)
      exact r.level (hF _ (List.getElem_mem hlt) q.1 (by simp [e2]))
    obtain ⟨u, u2, u3, a1, a2, a3, a4⟩ := floats3_cat (by omega) hqs
    obtain rfl := Option.some.inj (hw.symm.trans a1)
    refine ⟨t ++ [(w, u2, u3)], by simp, ?_, ?_, snoc 0 ⟨d, a4⟩⟩
    · change (((i :: is).mapM fun k => (t.map fun q => q.2.1)[k]?).bind fun vs => (SnVec.cat vs).bind fun w => some ((t.map fun q => q.2.1) ++ [w])) = _
      rw [mapM_get_map, hi, Option.map_some, Option.bind_some, a2, List.map_append]; rfl
    · change (((i :: is).mapM fun k => (t.map fun q => q.2.2)[k]?).bind fun vs => (SnVec.cat vs).bind fun w => some ((t.map fun q => q.2.2) ++ [w])) = _
      rw [mapM_get_map, hi, Option.map_some, Option.bind_some, a3, List.map_append]; rfl
  · change (((t.map fun q => q.1)[i]?).bind fun u => ((t.map fun q => q.1)[j]?).bind fun v => (u.add v).bind fun w =>
      some ((t.map fun q => q.1).set i w)) = some s' at h
    obtain ⟨u, hi, h⟩ := Option.bind_eq_some_iff.1 h
    obtain ⟨v, hj, h⟩ := Option.bind_eq_some_iff.1 h
    obtain ⟨w, hw, h⟩ := Option.bind_eq_some_iff.1 h
    cases h
    have st : SameType u v := hF u v hi hj
    obtain ⟨q, hi', rfl⟩ := get hi
    replace hi := hi'
    obtain ⟨q', hj', rfl⟩ := get hj
    replace hj := hj'
    obtain ⟨d, r⟩ := ht q (List.mem_of_getElem? hi)
    obtain ⟨d', r'⟩ := ht q' (List.mem_of_getElem? hj)
    have r'' := (r'.level (ok_of_same r.ok1 r'.ok1 st)).rel
    rw [← sameType_keys st] at r''
    obtain ⟨u2, u3, a1, a2, a3⟩ := rel3_add (by omega) (hadd e) r.rel r'' hw
    refine ⟨t.set i (w, u2, u3), by rw [List.map_set], ?_, ?_, fun q0 hq => ?_⟩
    · change (((t.map fun q => q.2.1)[i]?).bind fun u => ((t.map fun q => q.2.1)[j]?).bind fun v => (F.addVec u v).bind fun w =>
        some ((t.map fun q => q.2.1).set i w)) = _
      rw [(g2 hi).1, Option.bind_some, (g2 hj).1, Option.bind_some, a1, List.map_set]; rfl
    · change (((t.map fun q => q.2.2)[i]?).bind fun u => ((t.map fun q => q.2.2)[j]?).bind fun v => (u.add v).bind fun w =>
        some ((t.map fun q => q.2.2).set i w)) = _
      rw [(g2 hi).2, Option.bind_some, (g2 hj).2, Option.bind_some, a2, List.map_set]; rfl
    · rcases List.mem_or_eq_of_mem_set hq with hq | rfl
      · exact old 1 q0 hq
      · exact ⟨d, Floats3.of a3⟩
  · exact hp.elim
  · change (((t.map fun q => q.1)[i]?).bind fun v => (v.mapM SnVec.downB).bind fun ws => (SnVec.cat ws).bind fun w =>
      some ((t.map fun q => q.1) ++ [w])) = some s' at h
    obtain ⟨v, hi, h⟩ := Option.bind_eq_some_iff.1 h
    obtain ⟨ws, hws, h⟩ := Option.bind_eq_some_iff.1 h
    obtain ⟨w, hw, h⟩ := Option.bind_eq_some_iff.1 h
    cases h
    obtain ⟨n, hn, hF⟩ := hF
    obtain ⟨d, rfl⟩ := Nat.exists_eq_add_of_le hn
    have ho := hF v hi
    obtain ⟨q, hi', rfl⟩ := get hi
    replace hi := hi'
    obtain ⟨d', r⟩ := ht q (List.mem_of_getElem? hi)
    obtain ⟨ws1, ws2, ws3, u, u2, u3, a1, a2, b1, b2, c1, c2, r'⟩ := floats3_down (n := m + d) (by omega) (r.level ho)
    obtain rfl := Option.some.inj (hws.symm.trans a1)
    obtain rfl := Option.some.inj (hw.symm.trans a2)
    refine ⟨t ++ [(w, u2, u3)], by simp, ?_, ?_, snoc 0 ⟨d, r'⟩⟩
    · change (((t.map fun q => q.2.1)[i]?).bind fun v => (v.mapM SnVec.downB).bind fun ws => (SnVec.cat ws).bind fun w =>
        some ((t.map fun q => q.2.1) ++ [w])) = _
      rw [(g2 hi).1, Option.bind_some, b1, Option.bind_some, b2, List.map_append]; rfl
    · change (((t.map fun q => q.2.2)[i]?).bind fun v => (v.mapM SnVec.downB).bind fun ws => (SnVec.cat ws).bind fun w =>
        some ((t.map fun q => q.2.2) ++ [w])) = _
      rw [(g2 hi).2, Option.bind_some, c1, Option.bind_some, c2, List.map_append]; rfl
  · change (((t.map fun q => q.1)[i]?).bind fun v => (SnVec.up tau v).bind fun w => some ((t.map fun q => q.1) ++ [w])) = some s' at h
    obtain ⟨v, hi, h⟩ := Option.bind_eq_some_iff.1 h
    obtain ⟨w, hw, h⟩ := Option.bind_eq_some_iff.1 h
    cases h
    obtain ⟨n, hn, htau, hmu, hF⟩ := hF
    obtain ⟨d, rfl⟩ := Nat.exists_eq_add_of_le hn
    obtain ⟨ho, hcov⟩ := hF v hi
    obtain ⟨q, hi', rfl⟩ := get hi
    replace hi := hi'
    obtain ⟨d', r⟩ := ht q (List.mem_of_getElem? hi)
    obtain ⟨u, u2, u3, a1, a2, a3, r'⟩ := floats3_up (n := m + d) (by omega) htau hmu hcov (r.level ho)
    obtain rfl := Option.some.inj (hw.symm.trans a1)
    refine ⟨t ++ [(w, u2, u3)], by simp, ?_, ?_, snoc 0 ⟨d + 1, r'⟩⟩
    · change (((t.map fun q => q.2.1)[i]?).bind fun v => (SnVec.up tau v).bind fun w => some ((t.map fun q => q.2.1) ++ [w])) = _
      rw [(g2 hi).1, Option.bind_some, a2, List.map_append]; rfl
    · change (((t.map fun q => q.2.2)[i]?).bind fun v => (SnVec.up tau v).bind fun w => some ((t.map fun q => q.2.2) ++ [w])) = _
      rw [(g2 hi).2, Option.bind_some, a3, List.map_append]; rfl

theorem floats3_run (hm : 1 ≤ m) (hR : ∀ e e' x y a, e ≤ e' → R e x y a → R e' x y a)
    (hmul : ∀ e, ∀ c ≤ C, ∀ x y a f : Nat → ℝ, (∀ k < c, R e (x k) (y k) (a k)) → (∀ k < c, G (f k)) →
      R (e + C) (∑ k ∈ Finset.range c, x k * f k) (F.dot ord c y f) (∑ k ∈ Finset.range c, a k * |f k|))
    (hadd : ∀ e x y a x' y' a', R e x y a → R e x' y' a' → R (e + 1) (x + x') (F.s (y + y')) (a + a'))
    {p : List LStmt} : ∀ {e : Nat} {t : List (SnVec × SnVec × SnVec)}, (∀ q ∈ t, ∃ d, Floats3 (R e) (m + d) q) →
    (∀ c ∈ p, c.Linear ∧ c.AllW G) → LStmt.AllFit eig m p (t.map fun q => q.1) → ∀ {s' : List SnVec}, LStmt.run eig p (t.map fun q => q.1) = some s' →
    (∀ w ∈ s', ∀ P ∈ w, P.m ≤ C) →
    ∃ t' : List (SnVec × SnVec × SnVec), s' = t'.map (fun q => q.1) ∧ F.lrun ord p (t.map fun q => q.2.1) = some (t'.map fun q => q.2.1) ∧
      LStmt.run eig (p.map LStmt.abs) (t.map fun q => q.2.2) = some (t'.map fun q => q.2.2) ∧
      ∀ q ∈ t', ∃ d, Floats3 (R (e + (p.map (LStmt.cost C)).sum)) (m + d) q := by
  induction p with
  | nil =>
    intro e t ht _ _ s' h _
    cases h
    exact ⟨t, rfl, rfl, rfl, by simpa using ht⟩
  | cons c p ih =>
    intro e t ht hG hF s' h hC
    obtain ⟨s1, h1, h2⟩ := Option.bind_eq_some_iff.1
      (show (c.exec eig (t.map fun q => q.1)).bind (fun s => LStmt.run eig p s) = some s' from h)
    have hb := lexec_bound (hG c (by simp)).1 h1 (lrun_bound (fun c hc => (hG c (by simp [hc])).1) h2 hC)
    obtain ⟨t1, a1, a2, a3, a4⟩ := floats3_exec hm hR hmul hadd ht (hG c (by simp)).1 (hG c (by simp)).2
      (fun q hq => hb q.1 (List.mem_map.2 ⟨q, hq, rfl⟩)) hF.1 h1
    subst a1
    obtain ⟨t2, b1, b2, b3, b4⟩ := ih a4 (fun c hc => hG c (by simp [hc])) (hF.2 _ h1) h2 hC
    refine ⟨t2, b1, ?_, ?_, fun q hq => ?_⟩
    · change (F.lexec ord c _).bind (fun s => F.lrun ord p s) = _
      rw [a2]; exact b2
    · rw [List.map_cons]
      change (c.abs.exec eig _).bind (fun s => LStmt.run eig (p.map LStmt.abs) s) = _
      rw [a3]; exact b3
    · have := b4 q hq
      rwa [List.map_cons, List.sum_cons, ← add_assoc]

end

/-- the inputs -/
theorem floats3_input (hm : 1 ≤ m) {x : SnVec} (hmn : m ≤ n) (hx : Ok n x)
    (h : ∀ P ∈ x, ∀ i < P.d, ∀ j < P.m, R (P.data i j) (P.data i j) |P.data i j|) : ∃ d, Floats3 R (m + d) (x, x, x.absVec) := by
  obtain ⟨d, rfl⟩ := Nat.exists_eq_add_of_le hmn
  exact ⟨d, Floats3.of (rel3_input (by omega) hx h)⟩

end Snob
