import Verif.Spec.LetterProg
import Verif.Proofs.NetProg
import Verif.Props.SnVec

/-! # Programs over vectors of different numbers of letters (C138) -/

namespace Snob

open SnVec Weights Props

variable {n m : Nat}

/-- the permutation with `d` more letters that it fixes -/
def lifted (π : Equiv.Perm (Fin m)) : (d : Nat) → Equiv.Perm (Fin (m + d))
  | 0 => π
  | d + 1 => extend (lifted π d)

theorem enc_lifted (π : Equiv.Perm (Fin m)) (d : Nat) :
    enc (lifted π d) = enc π ++ (List.range d).map fun (i : Nat) => some (((m + i : Nat) : Int) + 1) := by
  induction d with
  | zero => simp [lifted]
  | succ d ih =>
    rw [List.range_succ, List.map_append, ← List.append_assoc, ← ih]
    exact enc_extend (lifted π d)

theorem lifted_fix (π : Equiv.Perm (Fin m)) : ∀ (d : Nat) (i : Fin (m + d)), m ≤ (i : Nat) → lifted π d i = i := by
  intro d
  induction d with
  | zero => intro i hi; have := i.2; omega
  | succ d ih =>
    intro i
    refine Fin.lastCases (n := m + d) ?_ (fun i => ?_) i
    · intro _
      exact extend_last _
    · intro hi
      exact (extend_castSucc (lifted π d) i).trans (congrArg Fin.castSucc (ih i hi))

theorem subs_key (x : List Nat) (u : SnVec) : (∃ P ∈ u, x ∈ subs P.irrep.lambda) ↔ ∃ k ∈ vkeys u, x ∈ subs k := by simp [vkeys]

/-- restriction -/
theorem moved_down (hn : 1 ≤ n) {σ : Equiv.Perm (Fin n)} {v v' w : SnVec} {ws : List SnVec} (r : Moved (n + 1) (extend σ) v v')
    (h1 : v.mapM SnVec.downB = some ws) (h2 : SnVec.cat ws = some w) :
    ∃ ws' w', v'.mapM SnVec.downB = some ws' ∧ SnVec.cat ws' = some w' ∧ Moved n σ w w' := by
  obtain ⟨hv, hr⟩ := r
  obtain ⟨ws0, w0, a1, a2, a3, a4, a5, -⟩ := restrict_ok hn hv
  obtain rfl := Option.some.inj (h1.symm.trans a1)
  obtain rfl := Option.some.inj (h2.symm.trans a2)
  obtain ⟨r, b1, b2, b3, b4, b5, b6⟩ := vecApply_ok hn σ w a3
  obtain ⟨ws', w', d1, d2, d3, d4, d5, -⟩ := restrict_ok hn hr.1
  have c3 := hr.obs_eq (by omega) hv
  have c4 : vkeys v' = vkeys v := hr.2.1
  refine ⟨ws', w', d1, d2, a3, acted_of_obs hn a3 d3 ?_⟩
  rw [← b3]
  refine obs_ext d3 b2 ?_ ?_
  · intro x
    rw [d5, b4, a5, subs_key, subs_key, c4]
  · intro mu
    rw [d4, b6, a4]
    have key : ∀ u : SnVec, resCols mu u =
        (obs u).flatMap fun e => if mu ∈ subs e.1 then e.2.map (slice (subs e.1) mu) else [] := by
      intro u; unfold resCols obs; rw [List.flatMap_map]
    rw [key, key, c3]
    unfold actObs
    rw [List.flatMap_map, List.map_flatMap]
    refine List.flatMap_congr fun e he => ?_
    simp only
    obtain ⟨P, hP, rfl⟩ := List.mem_map.1 he
    simp only
    split_ifs with h
    · rw [List.map_map, List.map_map]
      refine List.map_congr_left fun c _ => ?_
      exact slice_mulCol hn (hv.part P hP).1 σ h c
    · rfl

theorem covers_used {v : SnVec} (hv : Ok n v) {tau : SnType} (ht : TypeOk (n + 1) tau) (hm : ∀ x ∈ parts tau, 0 ≤ mult tau x) (hc : v.Covers tau) :
    ∀ x ∈ parts tau, ∀ mu ∈ subs x, mu ∈ vkeys v ∧ usedBy (fun x => (mult tau x).toNat) (parts tau) mu ≤ (partAt v mu).m := by
  obtain ⟨D, h1, h2⟩ := hc
  obtain ⟨D0, a1, a2, a3, a4, -⟩ := down_ok ht
  obtain rfl := Option.some.inj (h1.symm.trans a1)
  intro x hx mu hmu
  obtain ⟨b1, b2⟩ := h2 mu ((a3 mu).2 ⟨x, hx, hmu⟩)
  have hk : mu ∈ vkeys v := by
    unfold obs at b1
    rwa [List.map_map] at b1
  refine ⟨hk, ?_⟩
  rw [a4, ← usedBy_typeSum ht hm, colsAt_eq hv, ← partAt_cols hv hk] at b2
  simpa [VPart.cols] using b2

theorem covers_ok (hn : 1 ≤ n) {v : SnVec} (hv : Ok n v) {tau : SnType} (ht : TypeOk (n + 1) tau) (hm : ∀ x ∈ parts tau, 0 ≤ mult tau x)
    (hc : v.Covers tau) : ∃ R, SnVec.up tau v = some R ∧ Ok (n + 1) R ∧
      obs R = (parts tau).map fun x => (x, (List.range (mult tau x).toNat).map (upCol v tau x)) :=
  up_ok hn hv ht hm (fun x hx mu hmu => (covers_used hv ht hm hc x hx mu hmu).1) fun x hx mu hmu => (covers_used hv ht hm hc x hx mu hmu).2

/-- a vector of the type of the restriction has enough columns -/
theorem covers_of_down {v : SnVec} (hv : Ok n v) {tau : SnType} (hd : SnType.down tau = getType v) : v.Covers tau := by
  rw [getType_eq hv] at hd
  refine ⟨_, hd, fun mu hmu => ?_⟩
  rw [parts_typeOf] at hmu
  refine ⟨by unfold obs; rw [List.map_map]; exact hmu, ?_⟩
  rw [mult_typeOf' hv, colsAt_eq hv]

theorem covers_same {v w : SnVec} (hv : Ok n v) (hw : Ok n w) (st : SameType v w) {tau : SnType} (h : v.Covers tau) : w.Covers tau := by
  obtain ⟨D, h1, h2⟩ := h
  refine ⟨D, h1, fun mu hmu => ?_⟩
  obtain ⟨a, b⟩ := h2 mu hmu
  have e : ∀ u : SnVec, (obs u).map Prod.fst = vkeys u := fun u => by unfold obs; rw [List.map_map]; rfl
  rw [e, sameType_keys st, ← e] at a
  rw [colsAt_eq hv, colsL_types st, ← colsAt_eq hw] at b
  exact ⟨a, b⟩

/-- induction -/
theorem moved_up (hn : 1 ≤ n) {σ : Equiv.Perm (Fin n)} {v v' R : SnVec} {tau : SnType} (ht : TypeOk (n + 1) tau)
    (hm : ∀ x ∈ parts tau, 0 ≤ mult tau x) (hc : v.Covers tau) (r : Moved n σ v v') (h : SnVec.up tau v = some R) :
    ∃ R', SnVec.up tau v' = some R' ∧ Moved (n + 1) (extend σ) R R' := by
  obtain ⟨hv, hr⟩ := r
  have hc' := covers_same hv hr.1 (hr.same hv) hc
  obtain ⟨R0, e1, e2, e3⟩ := covers_ok hn hv ht hm hc
  obtain rfl := Option.some.inj (h.symm.trans e1)
  obtain ⟨R', k1, k2, k3⟩ := covers_ok hn hr.1 ht hm hc'
  refine ⟨R', k1, e2, acted_of_obs (by omega) e2 k2 ?_⟩
  obtain ⟨q, b1, b2, b3, b4, b5, b6⟩ := vecApply_ok hn σ v hv
  have ho : obs v' = obs q := by rw [b3]; exact hr.obs_eq hn hv
  rw [k3, e3]
  unfold actObs
  rw [List.map_map]
  refine List.map_congr_left fun x hx => ?_
  simp only [Function.comp, List.map_map]
  congr 1
  refine List.map_congr_left fun j hj => ?_
  rw [List.mem_range] at hj
  have hp := ht.all x hx
  have key : ∀ mu ∈ subs x, ∃ c : List ℝ, c.length = dimOf mu ∧
      (partAt v mu).cols.getD (colOffs (fun x => (mult tau x).toNat) (parts tau) x mu + j) [] = c ∧
      (partAt v' mu).cols.getD (colOffs (fun x => (mult tau x).toNat) (parts tau) x mu + j) [] = mulCol (dimOf mu) (evalN mu (enc σ)) c := by
    intro mu hmu
    obtain ⟨u1, u2⟩ := covers_used hv ht hm hc x hx mu hmu
    obtain ⟨u1', -⟩ := covers_used hr.1 ht hm hc' x hx mu hmu
    have hle := colOffs_le (fun x => (mult tau x).toNat) ht.nodup hx hmu
    have hlt : colOffs (fun x => (mult tau x).toNat) (parts tau) x mu + j < (partAt v mu).cols.length := by
      simp only [VPart.cols, List.length_map, List.length_range]
      omega
    have hcols : (partAt v' mu).cols = (partAt v mu).cols.map (mulCol (dimOf mu) (evalN mu (enc σ))) := by
      rw [partAt_cols hr.1 u1', colsL_obs, ho, ← colsL_obs, b6, partAt_cols hv u1]
    refine ⟨_, ?_, rfl, ?_⟩
    · rw [List.getD_eq_getElem?_getD, List.getElem?_eq_getElem hlt]
      simp [VPart.cols, partAt_d hv u1]
    · rw [hcols, List.getD_eq_getElem?_getD, List.getD_eq_getElem?_getD, List.getElem?_map, List.getElem?_eq_getElem hlt]
      rfl
  have hlen : (mulCol (dimOf x) (evalN x (enc (extend σ))) (upCol v tau x j)).length = ((subs x).map dimOf).sum := by
    rw [← dimOf_subs hn hp]
    simp [mulCol]
  change upCol v' tau x j = mulCol (dimOf x) (evalN x (enc (extend σ))) (upCol v tau x j)
  rw [← slices_join (subs_nodup x) _ hlen]
  unfold upCol
  refine List.flatMap_congr fun mu hmu => ?_
  rw [slice_mulCol hn hp σ hmu, slice_join (subs_nodup x) _ (fun nu hnu => ?_) hmu]
  · obtain ⟨c, c1, c2, c3⟩ := key mu hmu
    rw [c2, c3]
  · obtain ⟨c, c1, c2, c3⟩ := key nu hnu
    rw [c2, c1]

theorem colsL_count (v : SnVec) (x : List Nat) :
    (colsL x v).length = ((v.map fun P => (P.irrep.lambda, P.m)).map fun e => if e.1 = x then e.2 else 0).sum := by
  unfold colsL
  rw [List.length_flatMap, List.map_map]
  congr 1
  refine List.map_congr_left fun P _ => ?_
  simp only [Function.comp]
  split_ifs
  · simp [VPart.cols]
  · rfl

/-- the columns of a vector come first in what `cat` puts together -/
theorem cat_first (hn : 1 ≤ n) {v : SnVec} (hv : Ok n v) {ws : List SnVec} (hws : ∀ w ∈ ws, Ok n w) :
    ∃ u, SnVec.cat (v :: ws) = some u ∧ Ok n u ∧ ∀ mu ∈ vkeys v, mu ∈ vkeys u ∧ colsL mu u = colsL mu v ++ colsL mu ws.flatten := by
  obtain ⟨T, u, -, h2, h3, -, h5, h6, h7⟩ := cat_ok hn (v :: ws) (by simpa using ⟨hv, hws⟩)
  refine ⟨u, h5, h6, fun mu hmu => ?_⟩
  have hT : mu ∈ parts T := by
    rw [h3, List.flatten_cons, List.map_append]
    exact List.mem_append_left _ hmu
  have e : vkeys u = (obs u).map Prod.fst := by unfold obs; rw [List.map_map]; rfl
  refine ⟨by rw [e, h7, List.map_map]; simpa [Function.comp_def] using hT, ?_⟩
  rw [colsL_obs, h7, List.flatMap_map]
  have := flatMap_single h2.nodup (fun nu => colsL nu (v :: ws).flatten) mu
  rw [if_pos hT] at this
  rw [this]
  simp [colsL]

theorem covers_cat {v u : SnVec} (hv : Ok n v) (hu : Ok n u) {F : List Nat → List (List ℝ)}
    (h : ∀ mu ∈ vkeys v, mu ∈ vkeys u ∧ colsL mu u = colsL mu v ++ F mu) {tau : SnType} (hc : v.Covers tau) : u.Covers tau := by
  obtain ⟨D, h1, h2⟩ := hc
  refine ⟨D, h1, fun mu hmu => ?_⟩
  obtain ⟨a, b⟩ := h2 mu hmu
  have e : ∀ u : SnVec, (obs u).map Prod.fst = vkeys u := fun u => by unfold obs; rw [List.map_map]; rfl
  rw [e] at a
  obtain ⟨c1, c2⟩ := h mu a
  rw [colsAt_eq hv] at b
  rw [e, colsAt_eq hu, c2, List.length_append]
  exact ⟨c1, by push_cast; omega⟩

/-- the vectors of a program run on inputs acted on by `π` -/
def MovedTo (π : Equiv.Perm (Fin m)) (v w : SnVec) : Prop := ∃ d, Moved (m + d) (lifted π d) v w

theorem MovedTo.at {π : Equiv.Perm (Fin m)} {v w : SnVec} (h : MovedTo π v w) {d : Nat} (hv : Ok (m + d) v) : Moved (m + d) (lifted π d) v w := by
  obtain ⟨e, h1, h2⟩ := h
  cases v with
  | nil =>
    have : w = [] := by have := congrArg List.length h2.2.1; simpa [vkeys] using this
    subst this
    exact ⟨hv, hv, rfl, fun z hz => by simp [vkeys] at hz⟩
  | cons P v =>
    have e1 := (h1.part P (by simp)).1.sum
    have e2 := (hv.part P (by simp)).1.sum
    obtain rfl : d = e := by omega
    exact ⟨h1, h2⟩

theorem ok_of_same {k : Nat} {u v : SnVec} (hu : Ok n u) (hv : Ok k v) (h : SameType u v) : Ok n v := by
  refine ⟨fun P hP => ⟨?_, (hv.part P hP).2⟩, hv.sorted⟩
  have : P.irrep.lambda ∈ vkeys u := by
    rw [sameType_keys h]
    exact List.mem_map_of_mem hP
  exact vkeys_part hu this

/-- relations of vectors over `m + d` letters that the statements keep; products are asked for only if `P` -/
structure LetRel (eig : Eig) (m : Nat) (P : Prop) (K : Nat → SnVec → SnVec → Prop) : Prop where
  ok : ∀ {d v w}, K d v w → Ok (m + d) v
  level : ∀ {d e v w}, K e v w → Ok (m + d) v → K d v w
  mul : ∀ {d W v w v'}, K d v w → mulVec W v = some v' → ∃ w', mulVec W w = some w' ∧ K d v' w'
  cat : ∀ {d vs ws v'}, List.Forall₂ (K d) vs ws → SnVec.cat vs = some v' → ∃ w', SnVec.cat ws = some w' ∧ K d v' w'
  add : ∀ {d u v u' v' w}, K d u u' → K d v v' → SameType u v → u.add v = some w → ∃ w', u'.add v' = some w' ∧ K d w w'
  prod : ∀ {d u v u' v' w}, P → m + d ≤ 1234567 → K d u u' → K d v v' → cgVec eig u v = some w → ∃ w', cgVec eig u' v' = some w' ∧ K d w w'
  down : ∀ {d v v' w ws}, K (d + 1) v v' → v.mapM SnVec.downB = some ws → SnVec.cat ws = some w →
    ∃ ws' w', v'.mapM SnVec.downB = some ws' ∧ SnVec.cat ws' = some w' ∧ K d w w'
  up : ∀ {d v v' R tau}, TypeOk (m + d + 1) tau → (∀ x ∈ parts tau, 0 ≤ mult tau x) → v.Covers tau → K d v v' →
    SnVec.up tau v = some R → ∃ R', SnVec.up tau v' = some R' ∧ K (d + 1) R R'

section
variable {eig : Eig} {P : Prop} {K : Nat → SnVec → SnVec → Prop}

theorem LetRel.all (h : LetRel eig m P K) {d : Nat} {vs ws : List SnVec} (r : List.Forall₂ (fun v w => ∃ d, K d v w) vs ws) :
    (∀ v ∈ vs, Ok (m + d) v) → List.Forall₂ (K d) vs ws := by
  induction r with
  | nil => exact fun _ => .nil
  | cons a _ ih =>
    obtain ⟨e, a⟩ := a
    exact fun hok => .cons (h.level a (hok _ (by simp))) (ih fun v hv => hok v (by simp [hv]))

theorem LetRel.exec (h : LetRel eig m P K) {c : LStmt} (hp : c.Linear ∨ P)
    {s t s' : List SnVec} (hs : List.Forall₂ (fun v w => ∃ d, K d v w) s t) (hF : c.Fits m s) (hc : c.exec eig s = some s') :
    ∃ t', c.exec eig t = some t' ∧ List.Forall₂ (fun v w => ∃ d, K d v w) s' t' := by
  rcases c with ((⟨W, i⟩ | ⟨i, is⟩ | ⟨i, j⟩) | ⟨i, j⟩) | i | ⟨tau, i⟩
  · change ((s[i]?).bind fun v => (mulVec W v).bind fun w => some (s ++ [w])) = some s' at hc
    obtain ⟨v, hi, hc⟩ := Option.bind_eq_some_iff.1 hc
    obtain ⟨w, hw, hc⟩ := Option.bind_eq_some_iff.1 hc
    cases hc
    obtain ⟨v', hi', d, r⟩ := forall₂_get hs hi
    obtain ⟨w', hw', r'⟩ := h.mul r hw
    refine ⟨t ++ [w'], ?_, forall₂_snoc hs ⟨d, r'⟩⟩
    change ((t[i]?).bind fun v => (mulVec W v).bind fun w => some (t ++ [w])) = _
    rw [hi', Option.bind_some, hw']; rfl
  · change (((i :: is).mapM fun k => s[k]?).bind fun vs => (SnVec.cat vs).bind fun w => some (s ++ [w])) = some s' at hc
    obtain ⟨vs, hi, hc⟩ := Option.bind_eq_some_iff.1 hc
    obtain ⟨w, hw, hc⟩ := Option.bind_eq_some_iff.1 hc
    cases hc
    obtain ⟨n, hn, hF⟩ := hF
    obtain ⟨d, rfl⟩ := Nat.exists_eq_add_of_le hn
    obtain ⟨ws, hi', r⟩ := forall₂_mapM hs hi
    have hok : ∀ v ∈ vs, Ok (m + d) v := fun v hv => by
      obtain ⟨q, hq⟩ := List.mem_iff_getElem?.1 hv
      have hl := ((mapM_some_iff _ _ _).1 hi).1
      have hlt : q < (i :: is).length := by have := (List.getElem?_eq_some_iff.1 hq).1; omega
      obtain ⟨b, e1, e2⟩ := ((mapM_some_iff _ _ _).1 hi).2 q _ (List.getElem?_eq_getElem hlt)
      rw [hq] at e1
      cases e1
      exact hF _ (List.getElem_mem hlt) v e2
    have r2 := h.all r hok
    obtain ⟨w', hw', r'⟩ := h.cat r2 hw
    refine ⟨t ++ [w'], ?_, forall₂_snoc hs ⟨d, r'⟩⟩
    change (((i :: is).mapM fun k => t[k]?).bind fun vs => (SnVec.cat vs).bind fun w => some (t ++ [w])) = _
    rw [hi', Option.bind_some, hw']; rfl
  · change ((s[i]?).bind fun u => (s[j]?).bind fun v => (u.add v).bind fun w => some (s.set i w)) = some s' at hc
    obtain ⟨u, hi, hc⟩ := Option.bind_eq_some_iff.1 hc
    obtain ⟨v, hj, hc⟩ := Option.bind_eq_some_iff.1 hc
    obtain ⟨w, hw, hc⟩ := Option.bind_eq_some_iff.1 hc
    cases hc
    obtain ⟨u', hi', d, r⟩ := forall₂_get hs hi
    obtain ⟨v', hj', q⟩ := forall₂_get hs hj
    have st : SameType u v := hF u v hi hj
    obtain ⟨e, q⟩ := q
    obtain ⟨w', hw', r'⟩ := h.add r (h.level q (ok_of_same (h.ok r) (h.ok q) st)) st hw
    refine ⟨t.set i w', ?_, forall₂_set hs i ⟨d, r'⟩⟩
    change ((t[i]?).bind fun u => (t[j]?).bind fun v => (u.add v).bind fun w => some (t.set i w)) = _
    rw [hi', Option.bind_some, hj', Option.bind_some, hw']; rfl
  · have hP : P := hp.resolve_left id
    change ((s[i]?).bind fun u => (s[j]?).bind fun v => (cgVec eig u v).bind fun w => some (s ++ [w])) = some s' at hc
    obtain ⟨u, hi, hc⟩ := Option.bind_eq_some_iff.1 hc
    obtain ⟨v, hj, hc⟩ := Option.bind_eq_some_iff.1 hc
    obtain ⟨w, hw, hc⟩ := Option.bind_eq_some_iff.1 hc
    cases hc
    obtain ⟨n, hn, hN, hF⟩ := hF
    obtain ⟨d, rfl⟩ := Nat.exists_eq_add_of_le hn
    obtain ⟨ou, ov⟩ := hF u v hi hj
    obtain ⟨u', hi', r⟩ := forall₂_get hs hi
    obtain ⟨v', hj', q⟩ := forall₂_get hs hj
    obtain ⟨e1, r⟩ := r
    obtain ⟨e2, q⟩ := q
    obtain ⟨w', hw', r'⟩ := h.prod hP hN (h.level r ou) (h.level q ov) hw
    refine ⟨t ++ [w'], ?_, forall₂_snoc hs ⟨d, r'⟩⟩
    change ((t[i]?).bind fun u => (t[j]?).bind fun v => (cgVec eig u v).bind fun w => some (t ++ [w])) = _
    rw [hi', Option.bind_some, hj', Option.bind_some, hw']; rfl
  · change ((s[i]?).bind fun v => (v.mapM SnVec.downB).bind fun ws => (SnVec.cat ws).bind fun w => some (s ++ [w])) = some s' at hc
    obtain ⟨v, hi, hc⟩ := Option.bind_eq_some_iff.1 hc
    obtain ⟨ws, hws, hc⟩ := Option.bind_eq_some_iff.1 hc
    obtain ⟨w, hw, hc⟩ := Option.bind_eq_some_iff.1 hc
    cases hc
    obtain ⟨n, hn, hF⟩ := hF
    obtain ⟨d, rfl⟩ := Nat.exists_eq_add_of_le hn
    obtain ⟨v', hi', e, r⟩ := forall₂_get hs hi
    obtain ⟨ws', w', e1, e2, r'⟩ := h.down (h.level (d := d + 1) r (hF v hi)) hws hw
    refine ⟨t ++ [w'], ?_, forall₂_snoc hs ⟨d, r'⟩⟩
    change ((t[i]?).bind fun v => (v.mapM SnVec.downB).bind fun ws => (SnVec.cat ws).bind fun w => some (t ++ [w])) = _
    rw [hi', Option.bind_some, e1, Option.bind_some, e2]; rfl
  · change ((s[i]?).bind fun v => (SnVec.up tau v).bind fun w => some (s ++ [w])) = some s' at hc
    obtain ⟨v, hi, hc⟩ := Option.bind_eq_some_iff.1 hc
    obtain ⟨w, hw, hc⟩ := Option.bind_eq_some_iff.1 hc
    cases hc
    obtain ⟨n, hn, ht, hmu, hF⟩ := hF
    obtain ⟨d, rfl⟩ := Nat.exists_eq_add_of_le hn
    obtain ⟨v', hi', e, r⟩ := forall₂_get hs hi
    obtain ⟨ov, hd⟩ := hF v hi
    obtain ⟨w', e1, r'⟩ := h.up ht hmu hd (h.level r ov) hw
    refine ⟨t ++ [w'], ?_, forall₂_snoc hs ⟨d + 1, r'⟩⟩
    change ((t[i]?).bind fun v => (SnVec.up tau v).bind fun w => some (t ++ [w])) = _
    rw [hi', Option.bind_some, e1]; rfl

theorem LetRel.run (h : LetRel eig m P K) {p : List LStmt} :
    (∀ c ∈ p, c.Linear ∨ P) → ∀ {s t s' : List SnVec}, List.Forall₂ (fun v w => ∃ d, K d v w) s t → LStmt.AllFit eig m p s →
      LStmt.run eig p s = some s' → ∃ t', LStmt.run eig p t = some t' ∧ List.Forall₂ (fun v w => ∃ d, K d v w) s' t' := by
  induction p with
  | nil => intro _ s t s' hs _ hr; cases hr; exact ⟨t, rfl, hs⟩
  | cons c p ih =>
    intro hp s t s' hs hA hr
    obtain ⟨s1, h1, h2⟩ := Option.bind_eq_some_iff.1 (show (c.exec eig s).bind (fun s => LStmt.run eig p s) = some s' from hr)
    obtain ⟨t1, e1, r1⟩ := h.exec (hp c (by simp)) hs hA.1 h1
    obtain ⟨t2, e2, r2⟩ := ih (fun c hc => hp c (by simp [hc])) r1 (hA.2 s1 h1) h2
    exact ⟨t2, show (c.exec eig t).bind (fun s => LStmt.run eig p s) = some t2 by rw [e1]; exact e2, r2⟩

end

theorem letRel_moved (eig : Eig) (hm : 1 ≤ m) (π : Equiv.Perm (Fin m)) :
    LetRel eig m (EigOk eig ∧ 2 ≤ m ∧ m ≤ 3) (fun d => Moved (m + d) (lifted π d)) where
  ok := fun h => h.1
  level := fun h ho => MovedTo.at ⟨_, h⟩ ho
  mul := fun r h => moved_mul (by omega) r h
  cat := fun r h => moved_cat (by omega) r h
  add := fun r q st h => moved_add r q st h
  prod := fun {d _ _ _ _ _} hP hN r q h => moved_prod hP.1 (by omega) hN
    (equiFor_three hP.1 (by omega) (lifted π d) fun i hi => lifted_fix π d i (by omega)) r q h
  down := fun {d _ _ _ _} r h1 h2 => moved_down (n := m + d) (by omega) r h1 h2
  up := fun {d _ _ _ _} ht hmu hd r h => moved_up (n := m + d) (by omega) ht hmu hd r h

theorem types_of_same {v w : SnVec} (h : SameType v w) : typeOf (obs v) = typeOf (obs w) := by
  rw [typeOf_obs, typeOf_obs]
  have := congrArg (List.map fun e : List Nat × Nat => (e.1, (e.2 : Int))) h
  rwa [List.map_map, List.map_map] at this

theorem same_of_types {v w : SnVec} (h : typeOf (obs v) = typeOf (obs w)) : SameType v w := by
  rw [typeOf_obs, typeOf_obs] at h
  have := congrArg (List.map fun e : List Nat × Int => (e.1, e.2.toNat)) h
  rwa [List.map_map, List.map_map] at this

/-- the types of the vectors -/
theorem letRel_alike (eig : Eig) (hm : 1 ≤ m) : LetRel eig m (EigOk eig ∧ 2 ≤ m) (fun d => Alike (m + d)) where
  ok := fun h => h.1
  level := fun h ho => ⟨ho, ok_of_same ho h.2.1 h.2.2, h.2.2⟩
  mul := fun r h => alike_mul (by omega) r h
  cat := fun r h => cat_alike (by omega) r h
  add := fun r q _ h => add_alike r q h
  prod := fun hP hN r q h => prod_alike hP.1 (by omega) hN r q h
  down := by
    intro d v v' w ws r h1 h2
    obtain ⟨ws0, w0, a1, a2, a3, -, -, a4⟩ := restrict_ok (n := m + d) (by omega) r.1
    obtain rfl := Option.some.inj (h1.symm.trans a1)
    obtain rfl := Option.some.inj (h2.symm.trans a2)
    obtain ⟨ws', w', b1, b2, b3, -, -, b4⟩ := restrict_ok (n := m + d) (by omega) r.2.1
    exact ⟨ws', w', b1, b2, a3, b3, same_of_types (Option.some.inj (a4.symm.trans ((congrArg SnType.down (types_of_same r.2.2)).trans b4)))⟩
  up := by
    intro d v v' R tau ht hmu hd r h
    obtain ⟨R0, a1, a2, a3⟩ := covers_ok (n := m + d) (by omega) r.1 ht hmu hd
    obtain rfl := Option.some.inj (h.symm.trans a1)
    obtain ⟨R', b1, b2, b3⟩ := covers_ok (n := m + d) (by omega) r.2.1 ht hmu (covers_same r.1 r.2.1 r.2.2 hd)
    refine ⟨R', b1, a2, b2, same_of_obs ?_⟩
    rw [a3, b3, List.map_map, List.map_map]
    exact List.map_congr_left fun x _ => by simp

end Snob
