import Verif.Spec.NetProg
import Verif.Proofs.CGFix
import Verif.Proofs.VecProg

/-! # Programs with products (C137) -/

namespace Snob

open SnVec Weights Props

/-- a relation of vectors that the operations keep -/
structure NetRel (eig : Eig) (A K : SnVec → SnVec → Prop) : Prop where
  mul : ∀ {W v w v'}, K v w → mulVec W v = some v' → ∃ w', mulVec W w = some w' ∧ K v' w'
  cat : ∀ {vs ws v'}, List.Forall₂ K vs ws → SnVec.cat vs = some v' → ∃ w', SnVec.cat ws = some w' ∧ K v' w'
  add : ∀ {u v u' v' w}, K u u' → K v v' → A u v → u.add v = some w → ∃ w', u'.add v' = some w' ∧ K w w'
  prod : ∀ {u v u' v' w}, K u u' → K v v' → cgVec eig u v = some w → ∃ w', cgVec eig u' v' = some w' ∧ K w w'

theorem NetRel.exec {eig : Eig} {A K : SnVec → SnVec → Prop} (h : NetRel eig A K) {c : NStmt} {s t s' : List SnVec} (hs : List.Forall₂ K s t)
    (hA : ∀ e ∈ c.sums, ∀ u v, s[e.1]? = some u → s[e.2]? = some v → A u v) (hc : c.exec eig s = some s') :
    ∃ t', c.exec eig t = some t' ∧ List.Forall₂ K s' t' := by
  rcases c with (⟨W, i⟩ | ⟨i, is⟩ | ⟨i, j⟩) | ⟨i, j⟩
  · change ((s[i]?).bind fun v => (mulVec W v).bind fun w => some (s ++ [w])) = some s' at hc
    obtain ⟨v, hi, hc⟩ := Option.bind_eq_some_iff.1 hc
    obtain ⟨w, hw, hc⟩ := Option.bind_eq_some_iff.1 hc
    cases hc
    obtain ⟨v', hi', r⟩ := forall₂_get hs hi
    obtain ⟨w', hw', r'⟩ := h.mul r hw
    refine ⟨t ++ [w'], ?_, forall₂_snoc hs r'⟩
    change ((t[i]?).bind fun v => (mulVec W v).bind fun w => some (t ++ [w])) = _
    rw [hi', Option.bind_some, hw']; rfl
  · change (((i :: is).mapM fun k => s[k]?).bind fun vs => (SnVec.cat vs).bind fun w => some (s ++ [w])) = some s' at hc
    obtain ⟨vs, hi, hc⟩ := Option.bind_eq_some_iff.1 hc
    obtain ⟨w, hw, hc⟩ := Option.bind_eq_some_iff.1 hc
    cases hc
    obtain ⟨ws, hi', r⟩ := forall₂_mapM hs hi
    obtain ⟨w', hw', r'⟩ := h.cat r hw
    refine ⟨t ++ [w'], ?_, forall₂_snoc hs r'⟩
    change (((i :: is).mapM fun k => t[k]?).bind fun vs => (SnVec.cat vs).bind fun w => some (t ++ [w])) = _
    rw [hi', Option.bind_some, hw']; rfl
  · change ((s[i]?).bind fun u => (s[j]?).bind fun v => (u.add v).bind fun w => some (s.set i w)) = some s' at hc
    obtain ⟨u, hi, hc⟩ := Option.bind_eq_some_iff.1 hc
    obtain ⟨v, hj, hc⟩ := Option.bind_eq_some_iff.1 hc
    obtain ⟨w, hw, hc⟩ := Option.bind_eq_some_iff.1 hc
    cases hc
    obtain ⟨u', hi', r⟩ := forall₂_get hs hi
    obtain ⟨v', hj', q⟩ := forall₂_get hs hj
    obtain ⟨w', hw', r'⟩ := h.add r q (hA (i, j) (by simp [NStmt.sums]) u v hi hj) hw
    refine ⟨t.set i w', ?_, forall₂_set hs i r'⟩
    change ((t[i]?).bind fun u => (t[j]?).bind fun v => (u.add v).bind fun w => some (t.set i w)) = _
    rw [hi', Option.bind_some, hj', Option.bind_some, hw']; rfl
  · change ((s[i]?).bind fun u => (s[j]?).bind fun v => (cgVec eig u v).bind fun w => some (s ++ [w])) = some s' at hc
    obtain ⟨u, hi, hc⟩ := Option.bind_eq_some_iff.1 hc
    obtain ⟨v, hj, hc⟩ := Option.bind_eq_some_iff.1 hc
    obtain ⟨w, hw, hc⟩ := Option.bind_eq_some_iff.1 hc
    cases hc
    obtain ⟨u', hi', r⟩ := forall₂_get hs hi
    obtain ⟨v', hj', q⟩ := forall₂_get hs hj
    obtain ⟨w', hw', r'⟩ := h.prod r q hw
    refine ⟨t ++ [w'], ?_, forall₂_snoc hs r'⟩
    change ((t[i]?).bind fun u => (t[j]?).bind fun v => (cgVec eig u v).bind fun w => some (t ++ [w])) = _
    rw [hi', Option.bind_some, hj', Option.bind_some, hw']; rfl

theorem NetRel.run {eig : Eig} {A K : SnVec → SnVec → Prop} (h : NetRel eig A K) {p : List NStmt} : ∀ {s t s' : List SnVec}, List.Forall₂ K s t →
    NStmt.Adds eig A p s → NStmt.run eig p s = some s' → ∃ t', NStmt.run eig p t = some t' ∧ List.Forall₂ K s' t' := by
  induction p with
  | nil => intro s t s' hs _ hr; cases hr; exact ⟨t, rfl, hs⟩
  | cons c p ih =>
    intro s t s' hs hA hr
    obtain ⟨s1, h1, h2⟩ := Option.bind_eq_some_iff.1 (show (c.exec eig s).bind (fun s => NStmt.run eig p s) = some s' from hr)
    obtain ⟨t1, e1, r1⟩ := h.exec hs hA.1 h1
    obtain ⟨t2, e2, r2⟩ := ih r1 (hA.2 s1 h1) h2
    exact ⟨t2, show (c.exec eig t).bind (fun s => NStmt.run eig p s) = some t2 by rw [e1]; exact e2, r2⟩

section
variable {n : Nat}

theorem colsL_types {vs ws : SnVec} (h : SameType vs ws) (x : List Nat) : (colsL x vs).length = (colsL x ws).length := by
  have e : ∀ v : SnVec, (colsL x v).length = ((v.map fun P => (P.irrep.lambda, P.m)).map fun e => if e.1 = x then e.2 else 0).sum := by
    intro v
    unfold colsL
    rw [List.length_flatMap, List.map_map]
    congr 1
    refine List.map_congr_left fun P _ => ?_
    simp only [Function.comp]
    split_ifs
    · simp [VPart.cols]
    · rfl
  rw [e, e]
  exact congrArg (fun t : List (List Nat × Nat) => (t.map fun e => if e.1 = x then e.2 else 0).sum) h

theorem flatten_same {vs ws : List SnVec} (h : List.Forall₂ SameType vs ws) : SameType vs.flatten ws.flatten := by
  unfold SameType
  induction h with
  | nil => rfl
  | cons r _ ih => rw [List.flatten_cons, List.flatten_cons, List.map_append, List.map_append, ih, r]

theorem same_of_obs {v w : SnVec} (h : (obs v).map (fun e => (e.1, e.2.length)) = (obs w).map fun e => (e.1, e.2.length)) : SameType v w := by
  have e : ∀ v : SnVec, (obs v).map (fun e => (e.1, e.2.length)) = v.map fun P => (P.irrep.lambda, P.m) := fun v => by
    unfold obs
    rw [List.map_map]
    exact List.map_congr_left fun P _ => by simp [VPart.cols]
  unfold SameType
  rw [← e, ← e, h]

/-- vectors of the same type -/
def Alike (n : Nat) (v w : SnVec) : Prop := Ok n v ∧ Ok n w ∧ SameType v w

theorem cat_alike (hn : 1 ≤ n) {vs ws : List SnVec} {v' : SnVec} (h : List.Forall₂ (Alike n) vs ws) (hv : SnVec.cat vs = some v') :
    ∃ w', SnVec.cat ws = some w' ∧ Alike n v' w' := by
  have o1 : ∀ v ∈ vs, Ok n v := fun v hv => by
    obtain ⟨i, hi⟩ := List.mem_iff_getElem?.1 hv
    obtain ⟨w, -, r⟩ := forall₂_get h hi
    exact r.1
  have o2 : ∀ w ∈ ws, Ok n w := fun w hw => by
    obtain ⟨i, hi⟩ := List.mem_iff_getElem?.1 hw
    obtain ⟨v, -, r⟩ := forall₂_get' h hi
    exact r.2.1
  obtain ⟨t, R, -, a2, a3, a4, a5, a6, a7⟩ := cat_ok hn vs o1
  obtain ⟨t', R', -, b2, b3, b4, b5, b6, b7⟩ := cat_ok hn ws o2
  obtain rfl : v' = R := Option.some.inj (hv.symm.trans a5)
  have hs := flatten_same (h.imp fun _ _ r => r.2.2)
  have ht : t' = t := b2.ext a2 (fun x => by
    rw [a3, b3]
    exact iff_of_eq (congrArg (x ∈ ·) (sameType_keys hs).symm)) fun x => by rw [a4, b4, colsL_types hs]
  refine ⟨R', b5, a6, b6, same_of_obs ?_⟩
  rw [a7, b7, ht, List.map_map, List.map_map]
  exact List.map_congr_left fun x _ => by simp only [Function.comp]; rw [colsL_types hs]

theorem addLoop_alike : ∀ {u v u' v' w : SnVec}, Ok n u → Ok n v → Ok n u' → Ok n v' → SameType u u' → SameType v v' → addLoop u v = some w →
    ∃ w', addLoop u' v' = some w' ∧ SameType w w' ∧ (u.length = v.length → SameType w u) := by
  intro u
  induction u with
  | nil =>
    intro v u' v' w _ _ _ _ h1 _ h
    have : u' = [] := by cases u' with
      | nil => rfl
      | cons P u => simp [SameType] at h1
    subst this
    unfold addLoop at h ⊢
    cases h
    exact ⟨[], rfl, rfl, fun _ => rfl⟩
  | cons P u ih =>
    intro v u' v' w o1 o2 o3 o4 h1 h2 h
    cases u' with
    | nil => simp [SameType] at h1
    | cons P' u' =>
      cases v with
      | nil =>
        have : v' = [] := by cases v' with
          | nil => rfl
          | cons P u => simp [SameType] at h2
        subst this
        unfold addLoop at h ⊢
        cases h
        exact ⟨[], rfl, rfl, fun h => by simp at h⟩
      | cons Q v =>
        cases v' with
        | nil => simp [SameType] at h2
        | cons Q' v' =>
          unfold addLoop at h ⊢
          obtain ⟨R, hR, h⟩ := Option.bind_eq_some_iff.1 h
          obtain ⟨r, hr, h⟩ := Option.bind_eq_some_iff.1 h
          cases h
          simp only [SameType, List.map_cons, List.cons.injEq, Prod.mk.injEq] at h1 h2
          have tl : ∀ {A : VPart} {x : SnVec}, Ok n (A :: x) → Ok n x := fun o =>
            ⟨fun B hB => o.part B (List.mem_cons_of_mem _ hB), (List.pairwise_cons.1 (by have := o.sorted; rwa [List.map_cons] at this)).2⟩
          have dd : ∀ {A B : VPart} {x y : SnVec}, Ok n (A :: x) → Ok n (B :: y) → A.irrep.lambda = B.irrep.lambda → A.d = B.d := fun oa ob e => by
            rw [part_d oa (by simp), part_d ob (by simp), e]
          obtain ⟨r', e1, e2, e3⟩ := ih (tl o1) (tl o2) (tl o3) (tl o4) h1.2 h2.2 hr
          unfold VPart.add at hR
          split at hR
          · rename_i hd
            cases hR
            refine ⟨{ P' with data := fun i j => P'.data i j + Q'.data i j } :: r', ?_, ?_, ?_⟩
            · unfold VPart.add
              rw [if_pos ⟨by rw [← dd o1 o3 h1.1.1, ← dd o2 o4 h2.1.1]; exact hd.1, by rw [← h1.1.2, ← h2.1.2]; exact hd.2⟩, e1]
              rfl
            · simp only [SameType, List.map_cons, h1.1.1, h1.1.2, List.cons.injEq, true_and]
              exact e2
            · intro hl
              simp only [SameType, List.map_cons, List.cons.injEq, true_and]
              exact e3 (by simpa using hl)
          · cases hR

theorem addLoop_ok : ∀ {u v w : SnVec}, (∀ P ∈ u, IsPartition n P.irrep.lambda ∧ mkIrrep P.irrep.lambda = some P.irrep ∧ P.d = P.irrep.d) → addLoop u v = some w →
    ∀ R ∈ w, IsPartition n R.irrep.lambda ∧ mkIrrep R.irrep.lambda = some R.irrep ∧ R.d = R.irrep.d := by
  intro u
  induction u with
  | nil => intro v w _ h; unfold addLoop at h; cases h; simp
  | cons P u ih =>
    intro v w hu h
    cases v with
    | nil => unfold addLoop at h; cases h; simp
    | cons Q v =>
      unfold addLoop at h
      obtain ⟨R, hR, h⟩ := Option.bind_eq_some_iff.1 h
      obtain ⟨r, hr, h⟩ := Option.bind_eq_some_iff.1 h
      cases h
      intro S hS
      rcases List.mem_cons.1 hS with rfl | hS
      · unfold VPart.add at hR
        split at hR
        · cases hR; exact hu P (by simp)
        · cases hR
      · exact ih (fun A hA => hu A (List.mem_cons_of_mem _ hA)) hr S hS

theorem add_alike {u v u' v' w : SnVec} (h1 : Alike n u u') (h2 : Alike n v v') (h : u.add v = some w) : ∃ w', u'.add v' = some w' ∧ Alike n w w' := by
  unfold SnVec.add at h ⊢
  split at h
  · rename_i hl
    have l1 : u.length = u'.length := by simpa using congrArg List.length h1.2.2
    have l2 : v.length = v'.length := by simpa using congrArg List.length h2.2.2
    obtain ⟨w', e1, e2, e3⟩ := addLoop_alike h1.1 h2.1 h1.2.1 h2.2.1 h1.2.2 h2.2.2 h
    have s1 : SameType w u := e3 hl
    have s2 : SameType w' u := Eq.trans (Eq.symm e2) s1
    have ok : ∀ {a b c : SnVec}, Ok n a → addLoop a b = some c → vkeys c = vkeys a → Ok n c := fun o e k =>
      ⟨addLoop_ok o.part e, by have := o.sorted; rwa [show (_ : SnVec).map (fun P => P.irrep.lambda) = vkeys _ from rfl, ← k] at this⟩
    refine ⟨w', by rw [if_pos (by omega)]; exact e1, ok h1.1 h (sameType_keys s1), ok h1.2.1 e1 ?_, e2⟩
    rw [sameType_keys s2, sameType_keys h1.2.2]
  · cases h

theorem prod_alike {eig : Eig} (he : EigOk eig) (hn : 2 ≤ n) (hN : n ≤ 1234567) {u v u' v' w : SnVec} (h1 : Alike n u u') (h2 : Alike n v v')
    (h : cgVec eig u v = some w) : ∃ w', cgVec eig u' v' = some w' ∧ Alike n w w' := by
  have hd := (C71_defined_iff he hn hN h1.1 h2.1).1 (by rw [h]; rfl)
  by_cases hu : u = []
  · have hu' : u' = [] := by
      have : u.length = u'.length := by simpa using congrArg List.length h1.2.2
      rw [hu] at this
      exact List.length_eq_zero_iff.1 this.symm
    rw [cgVec_nil (by omega) h1.1 h2.1 (Or.inl hu)] at h
    cases h
    exact ⟨[], cgVec_nil (by omega) h1.2.1 h2.2.1 (Or.inl hu'), hu ▸ h1.1, hu ▸ h1.1, rfl⟩
  by_cases hv : v = []
  · have hv' : v' = [] := by
      have : v.length = v'.length := by simpa using congrArg List.length h2.2.2
      rw [hv] at this
      exact List.length_eq_zero_iff.1 this.symm
    rw [cgVec_nil (by omega) h1.1 h2.1 (Or.inr hv)] at h
    cases h
    exact ⟨[], cgVec_nil (by omega) h1.2.1 h2.2.1 (Or.inr hv'), hv ▸ h2.1, hv ▸ h2.1, rfl⟩
  obtain ⟨P0, hP0⟩ := List.exists_mem_of_ne_nil u hu
  obtain ⟨Q0, hQ0⟩ := List.exists_mem_of_ne_nil v hv
  obtain ⟨R, R', e1, e2, o1, o2, st, -⟩ := C69_inner_products he (by omega) hN h1.1 h2.1 h1.2.1 h2.2.1 (fun P hP => (hd P hP Q0 hQ0).1)
    (fun Q hQ => (hd P0 hP0 Q hQ).2) h1.2.2 h2.2.2
  obtain rfl : w = R := Option.some.inj (h.symm.trans e1)
  exact ⟨R', e2, o1, o2, st⟩

theorem alike_mul (hn : 1 ≤ n) {W : Weights} {v w v' : SnVec} (r : Alike n v w) (h : mulVec W v = some v') :
    ∃ w', mulVec W w = some w' ∧ Alike n v' w' := by
  obtain ⟨f, g, a1, a2, a3, a4⟩ := mul_data (by omega) r.1 h
  have hk := sameType_keys r.2.2
  obtain ⟨w', b1, b2, b3, b4⟩ := mulVec_ok (by omega) r.2.1 W f g fun z hz => by
    rw [a1 z (hk ▸ hz), sameType_m r.1 r.2.1 r.2.2 (hk ▸ hz)]
  refine ⟨w', b1, a2, b2, sameType_of a2 b2 (by rw [a3, b3, hk]) fun z hz => ?_⟩
  rw [a3] at hz
  rw [(a4 z hz).1, (b4 z (hk ▸ hz)).1]

/-- the types of the vectors -/
theorem netRel_alike {eig : Eig} (he : EigOk eig) (hn : 2 ≤ n) (hN : n ≤ 1234567) : NetRel eig (fun _ _ => True) (Alike n) where
  mul := fun r h => alike_mul (by omega) r h
  cat := fun h hv => cat_alike (by omega) h hv
  add := fun r q _ h => add_alike r q h
  prod := fun r q h => prod_alike he hn hN r q h

/-! ## The action -/

theorem Acted.obs_eq (hn : 1 ≤ n) {σ : Equiv.Perm (Fin n)} {v w : SnVec} (hv : Ok n v) (h : Acted n σ v w) : obs w = actObs (enc σ) (obs v) := by
  obtain ⟨u, h1, h2, h3, -⟩ := vecApply_ok hn σ v hv
  obtain ⟨u', a1, a2, a3, a4⟩ := apply_data hn σ hv
  obtain rfl : u = u' := Option.some.inj (h1.symm.trans a1)
  rw [← h3]
  refine (obs_data h.1 h2 (by rw [h.2.1, a3])).2 fun z hz => ?_
  rw [h.2.1] at hz
  refine ⟨by rw [(h.2.2 z hz).1, (a4 z hz).1], fun i hi j hj => ?_⟩
  rw [(h.2.2 z hz).1] at hj
  rw [(h.2.2 z hz).2 i hi j hj, (a4 z hz).2 i hi j hj]

theorem acted_of_obs (hn : 1 ≤ n) {σ : Equiv.Perm (Fin n)} {v w : SnVec} (hv : Ok n v) (hw : Ok n w) (h : obs w = actObs (enc σ) (obs v)) : Acted n σ v w := by
  obtain ⟨u, h1, h2, h3, -⟩ := vecApply_ok hn σ v hv
  exact acted_of hn hv h1 hw (by rw [h3, h])

theorem Acted.same {σ : Equiv.Perm (Fin n)} {v w : SnVec} (hv : Ok n v) (h : Acted n σ v w) : SameType v w :=
  sameType_of hv h.1 h.2.1.symm fun z hz => (h.2.2 z hz).1.symm

/-- the product of vectors acted on by a permutation with which the coefficients are compatible -/
theorem prod_acted {Φ : Coef} {acc : SnVec → SnType → VPart → VPart → Option (SnVec × SnType)} (hn : 1 ≤ n) (hacc : AccSpec n Φ acc)
    {σ : Equiv.Perm (Fin n)} (hΦ : EquiFor n Φ σ) {x y x' y' R S : SnVec} (hx : Ok n x) (hy : Ok n y) (mx : ∀ P ∈ x, P.m = 1) (my : ∀ P ∈ y, P.m = 1)
    (hx' : Acted n σ x x') (hy' : Acted n σ y y') (hR : cgVecWith acc x y = some R) (hS : cgVecWith acc x' y' = some S) :
    Ok n R ∧ Acted n σ R S := by
  obtain ⟨R0, r1, r2, r3, r4, r5⟩ := vec_ok' hn hacc hx hy mx my
  obtain rfl : R = R0 := Option.some.inj (hR.symm.trans r1)
  obtain ⟨S0, s1, s2, s3, s4, s5⟩ := vec_ok' hn hacc hx'.1 hy'.1 (hx'.m hx mx) (hy'.m hy my)
  obtain rfl : S = S0 := Option.some.inj (hS.symm.trans s1)
  obtain ⟨-, x3, x4⟩ := hx'
  obtain ⟨-, y3, y4⟩ := hy'
  rw [x3, y3] at s3 s4 s5
  have hk : vkeys S = vkeys R := by
    refine ((List.perm_ext_iff_of_nodup s2.nodup r2.nodup).2 fun p => ?_).eq_of_pairwise (fun _ _ _ _ h1 h2 => absurd h2 (lexGreater_asymm h1)) s2.sorted r2.sorted
    exact (s3 p).trans (r3 p).symm
  refine ⟨r2, s2, hk, fun p hpR => ?_⟩
  have hp : p ∈ vkeys S := hk ▸ hpR
  refine ⟨by rw [s4 p hp, r4 p hpR], fun i hi c hc => ?_⟩
  rw [r4 p hpR] at hc
  rw [s5 p hp i hi c hc, Finset.sum_congr rfl fun k hk => by rw [r5 p hpR k (Finset.mem_range.1 hk) c hc]]
  have hl := loc_mem hc
  generalize loc n (prs (vkeys x) (vkeys y)) p c = l at hl ⊢
  obtain ⟨⟨a, b⟩, d⟩ := l
  obtain ⟨ha, hb⟩ := mem_prs.1 hl.1
  dsimp only at *
  rw [prodVal_act σ ((partAt x a).data · 0) ((partAt y b).data · 0)]
  · simp only [hΦ a b (vkeys_part hx ha) (vkeys_part hy hb) p (vkeys_part s2 hp) d hl.2 i hi]
    unfold prodVal
    simp only [Finset.sum_mul, Finset.mul_sum]
    rw [Finset.sum_comm]
    exact Finset.sum_congr rfl fun s _ => Finset.sum_congr rfl fun z _ => by ring
  · exact fun k hk => (x4 a ha).2 k hk 0 (by rw [partAt_m hx mx ha]; omega)
  · exact fun k hk => (y4 b hb).2 k hk 0 (by rw [partAt_m hy my hb]; omega)

/-- the vectors of a program that is run on inputs acted on by `σ` -/
def Moved (n : Nat) (σ : Equiv.Perm (Fin n)) (v w : SnVec) : Prop := Ok n v ∧ Acted n σ v w

theorem moved_mul (hn : 1 ≤ n) {σ : Equiv.Perm (Fin n)} {W : Weights} {v w v' : SnVec} (r : Moved n σ v w) (h : mulVec W v = some v') :
    ∃ w', mulVec W w = some w' ∧ Moved n σ v' w' := by
  obtain ⟨f, g, a1, a2, a3, a4⟩ := mul_data (by omega) r.1 h
  obtain ⟨ow, kw, ew⟩ := r.2
  obtain ⟨w', b1, b2, b3, b4⟩ := mulVec_ok (by omega) ow W f g fun z hz => by
    rw [a1 z (kw ▸ hz), (ew z (kw ▸ hz)).1]
  refine ⟨w', b1, a2, b2, by rw [b3, kw, a3], fun z hz => ?_⟩
  rw [a3] at hz
  refine ⟨by rw [(a4 z hz).1, (b4 z (kw ▸ hz)).1], fun i hi j hj => ?_⟩
  rw [(b4 z (kw ▸ hz)).2, (ew z hz).1]
  simp only [(a4 z hz).2, Finset.mul_sum]
  rw [Finset.sum_comm]
  refine Finset.sum_congr rfl fun k hk => ?_
  rw [(ew z hz).2 i hi k (Finset.mem_range.1 hk), Finset.sum_mul]
  exact Finset.sum_congr rfl fun l _ => by ring

theorem moved_cat (hn : 1 ≤ n) {σ : Equiv.Perm (Fin n)} {vs ws : List SnVec} {v' : SnVec} (h : List.Forall₂ (Moved n σ) vs ws)
    (hv : SnVec.cat vs = some v') : ∃ w', SnVec.cat ws = some w' ∧ Moved n σ v' w' := by
  obtain ⟨l, rfl, rfl⟩ : ∃ l : List (SnVec × SnVec), vs = l.map Prod.fst ∧ ws = l.map Prod.snd := by
    refine ⟨vs.zip ws, ?_, ?_⟩
    · rw [List.map_fst_zip (by rw [h.length_eq])]
    · rw [List.map_snd_zip (by rw [h.length_eq])]
  have hl : ∀ e ∈ l, Moved n σ e.1 e.2 := by
    rw [List.forall₂_map_left_iff, List.forall₂_map_right_iff, List.forall₂_same] at h
    exact h
  obtain ⟨R, R', e1, e2, o1, o2, e3⟩ := cat_apply (n := n) (by omega) (enc σ) l Prod.fst Prod.snd (fun e he => (hl e he).1) (fun e he => (hl e he).2.1)
    fun e he => (hl e he).2.obs_eq (by omega) (hl e he).1
  obtain rfl : v' = R := Option.some.inj (hv.symm.trans e1)
  exact ⟨R', e2, o1, acted_of_obs (by omega) o1 o2 e3⟩

theorem moved_add {σ : Equiv.Perm (Fin n)} {u v u' v' w : SnVec} (r : Moved n σ u u') (q : Moved n σ v v') (st : SameType u v)
    (h : u.add v = some w) : ∃ w', u'.add v' = some w' ∧ Moved n σ w w' := by
  obtain ⟨w0, h1, ow, cw⟩ := C86_add_partial r.1 q.1 st
  obtain rfl : w = w0 := Option.some.inj (h.symm.trans h1)
  have st' : SameType u' v' := Eq.trans (Eq.symm (r.2.same r.1)) (Eq.trans st (q.2.same q.1))
  obtain ⟨w', h2, ow', cw'⟩ := C86_add_partial r.2.1 q.2.1 st'
  have k1 := sameType_keys cw.1
  have k2 := sameType_keys cw'.1
  refine ⟨w', h2, ow, ow', by rw [k2, r.2.2.1, k1], fun z hz => ?_⟩
  have zu : z ∈ vkeys u := k1 ▸ hz
  have zv : z ∈ vkeys v := sameType_keys st ▸ zu
  have zw' : z ∈ vkeys w' := by rw [k2, r.2.2.1]; exact zu
  have m1 : (partAt w z).m = (partAt u z).m := sameType_m ow r.1 cw.1 hz
  have m2 : (partAt w' z).m = (partAt u z).m := by rw [sameType_m ow' r.2.1 cw'.1 zw', (r.2.2.2 z zu).1]
  have m3 : (partAt u z).m = (partAt v z).m := sameType_m r.1 q.1 st zu
  refine ⟨by rw [m1, m2], fun i hi j hj => ?_⟩
  rw [comb_at ow' r.2.1 q.2.1 cw' zw' i hi j (by rw [m2, ← m1]; exact hj), (r.2.2.2 z zu).2 i hi j (by rw [← m1]; exact hj),
    (q.2.2.2 z zv).2 i hi j (by rw [← m3, ← m1]; exact hj), one_mul, ← Finset.sum_add_distrib]
  refine Finset.sum_congr rfl fun k hk => ?_
  rw [comb_at ow r.1 q.1 cw hz k (Finset.mem_range.1 hk) j hj]
  ring

theorem moved_prod {eig : Eig} (he : EigOk eig) (hn : 2 ≤ n) (hN : n ≤ 1234567) {σ : Equiv.Perm (Fin n)} (hΦ : EquiFor n (cgPhi eig n) σ)
    {u v u' v' w : SnVec} (r : Moved n σ u u') (q : Moved n σ v v') (h : cgVec eig u v = some w) :
    ∃ w', cgVec eig u' v' = some w' ∧ Moved n σ w w' := by
  obtain ⟨w', h1, a⟩ := prod_alike he hn hN ⟨r.1, r.2.1, r.2.same r.1⟩ ⟨q.1, q.2.1, q.2.same q.1⟩ h
  refine ⟨w', h1, a.1, ?_⟩
  have hd := (C71_defined_iff he hn hN r.1 q.1).1 (by rw [h]; rfl)
  by_cases hz : u = [] ∨ v = []
  · rw [cgVec_nil (by omega) r.1 q.1 hz] at h
    cases h
    have : w' = [] := by have := congrArg List.length a.2.2; simpa using this.symm
    subst this
    exact ⟨a.1, rfl, fun p hp => by simp [vkeys] at hp⟩
  · rw [not_or] at hz
    obtain ⟨P0, hP0⟩ := List.exists_mem_of_ne_nil u hz.1
    obtain ⟨Q0, hQ0⟩ := List.exists_mem_of_ne_nil v hz.2
    exact (prod_acted (by omega) (accAny_ok he (by omega) hN) hΦ r.1 q.1 (fun P hP => (hd P hP Q0 hQ0).1) (fun Q hQ => (hd P0 hP0 Q hQ).2)
      r.2 q.2 h h1).2

theorem netRel_moved {eig : Eig} (he : EigOk eig) (hn : 2 ≤ n) (hN : n ≤ 1234567) {σ : Equiv.Perm (Fin n)} (hΦ : EquiFor n (cgPhi eig n) σ) :
    NetRel eig SameType (Moved n σ) where
  mul := fun r h => moved_mul (by omega) r h
  cat := fun r h => moved_cat (by omega) r h
  add := fun r q st h => moved_add r q st h
  prod := fun r q h => moved_prod he hn hN hΦ r q h

end

end Snob
