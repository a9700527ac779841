import Verif.Proofs.LetterProg
import Verif.Proofs.UpDefined
import Verif.Props.NetProg

/-! # C138: programs over vectors of different numbers of letters -/

namespace Snob.Props

open Snob SnVec Weights Perm

variable {n m : Nat}

theorem movedTo_of {π : Equiv.Perm (Fin m)} (hm : 1 ≤ m) {v v' : SnVec} (h : ActedBy m (enc π) v v') : MovedTo π v v' := by
  obtain ⟨d, hv, ha⟩ := h
  rw [← enc_lifted] at ha
  obtain ⟨u, h1, h2, -⟩ := apply_data (by omega) (lifted π d) hv
  obtain rfl := Option.some.inj (ha.symm.trans h1)
  exact ⟨d, hv, acted_of (by omega) hv h1 h2 rfl⟩

theorem actedBy_of {π : Equiv.Perm (Fin m)} (hm : 1 ≤ m) {w w' : SnVec} (h : MovedTo π w w') : ∃ w'', ActedBy m (enc π) w w'' ∧ obs w' = obs w'' := by
  obtain ⟨d, hw, ha⟩ := h
  obtain ⟨w'', f1, -, f3, -⟩ := vecApply_ok (by omega) (lifted π d) w hw
  exact ⟨w'', ⟨d, hw, by rw [← enc_lifted]; exact f1⟩, by rw [f3]; exact ha.obs_eq (by omega) hw⟩

/-- what C138 says of the results `r` and `t` of a program run on inputs and on permuted inputs -/
theorem equivariant_of {eig : Eig} (hm : 1 ≤ m) (p : List LStmt) (hp : ∀ c ∈ p, c.Linear ∨ (EigOk eig ∧ 2 ≤ m ∧ m ≤ 3)) (s s' r : List SnVec)
    (hF : LStmt.AllFit eig m p s) (h : LStmt.run eig p s = some r) {a : Arr} (ha : IsPerm m a) (hs : List.Forall₂ (ActedBy m a) s s') :
    ∃ t, LStmt.run eig p s' = some t ∧ List.Forall₂ (fun w w' => ∃ w'', ActedBy m a w w'' ∧ obs w' = obs w'') r t := by
  obtain ⟨π, rfl⟩ := ha
  obtain ⟨t, e1, e2⟩ := (letRel_moved eig hm π).run hp (hs.imp fun _ _ q => movedTo_of hm q) hF h
  exact ⟨t, e1, e2.imp fun _ _ q => actedBy_of hm q⟩

/-- **C138.** A program without products that restricts and induces vectors, run on inputs in which the first `m` letters are permuted, ends
with the results in which the first `m` letters are permuted, whatever the numbers of letters it passes through, as long as they are at
least `m`. -/
theorem C138_equivariant (eig : Eig) (hm : 1 ≤ m) (p : List LStmt) (hp : ∀ c ∈ p, c.Linear) (s s' r : List SnVec)
    (hF : LStmt.AllFit eig m p s) (h : LStmt.run eig p s = some r) {a : Arr} (ha : IsPerm m a) (hs : List.Forall₂ (ActedBy m a) s s') :
    ∃ t, LStmt.run eig p s' = some t ∧ List.Forall₂ (fun w w' => ∃ w'', ActedBy m a w w'' ∧ obs w' = obs w'') r t :=
  equivariant_of hm p (fun c hc => Or.inl (hp c hc)) s s' r hF h ha hs

/-- **C138, with products.** The full statement would be this one for every `m`. It is proved for `m` two and three; from five letters on it is
false for `m` equal to the number of letters, already without restriction and induction (`C137_not_equivariant`). -/
theorem C138_products_partial {eig : Eig} (he : EigOk eig) (hm : 2 ≤ m) (hm3 : m ≤ 3) (p : List LStmt) (s s' r : List SnVec)
    (hF : LStmt.AllFit eig m p s) (h : LStmt.run eig p s = some r) {a : Arr} (ha : IsPerm m a) (hs : List.Forall₂ (ActedBy m a) s s') :
    ∃ t, LStmt.run eig p s' = some t ∧ List.Forall₂ (fun w w' => ∃ w'', ActedBy m a w w'' ∧ obs w' = obs w'') r t :=
  equivariant_of (by omega) p (fun _ _ => Or.inr ⟨he, hm, hm3⟩) s s' r hF h ha hs

/-- **C138.** Whether such a program runs, how many vectors it ends with and their types depend on the types of its inputs only. -/
theorem C138_types {eig : Eig} (hm : 1 ≤ m) (p : List LStmt) (hp : ∀ c ∈ p, c.Linear ∨ (EigOk eig ∧ 2 ≤ m)) (s t r : List SnVec)
    (hF : LStmt.AllFit eig m p s) (h : LStmt.run eig p s = some r)
    (hst : List.Forall₂ (fun v w => ∃ n, m ≤ n ∧ Ok n v ∧ Ok n w ∧ SameType v w) s t) :
    ∃ r', LStmt.run eig p t = some r' ∧ List.Forall₂ (fun v w => ∃ n, m ≤ n ∧ Ok n v ∧ Ok n w ∧ SameType v w) r r' := by
  obtain ⟨r', e1, e2⟩ := (letRel_alike eig hm).run hp (hst.imp fun _ _ ⟨n, hn, q⟩ => by
    obtain ⟨d, rfl⟩ := Nat.exists_eq_add_of_le hn
    exact ⟨d, q⟩) hF h
  exact ⟨r', e1, e2.imp fun _ _ ⟨d, q⟩ => ⟨m + d, by omega, q⟩⟩

/-- **C138.** Restrictions and inductions that fit are defined: no bounds are checked in `up`, and none are exceeded. -/
theorem C138_defined (eig : Eig) (hm : 1 ≤ m) (s : List SnVec) (i : Nat) (hi : i < s.length) (c : LStmt)
    (hc : c = .down i ∨ ∃ tau, c = .up tau i) (hF : c.Fits m s) : ∃ w, c.exec eig s = some (s ++ [w]) := by
  rcases hc with rfl | ⟨tau, rfl⟩
  · obtain ⟨n, hn, h⟩ := hF
    obtain ⟨ws, w, h1, h2, -⟩ := restrict_ok (by omega) (h _ (List.getElem?_eq_getElem hi))
    refine ⟨w, ?_⟩
    change ((s[i]?).bind fun v => (v.mapM SnVec.downB).bind fun ws => (SnVec.cat ws).bind fun w => some (s ++ [w])) = _
    rw [List.getElem?_eq_getElem hi, Option.bind_some, h1, Option.bind_some, h2]; rfl
  · obtain ⟨n, hn, ht, hmu, h⟩ := hF
    obtain ⟨hv, hd⟩ := h _ (List.getElem?_eq_getElem hi)
    obtain ⟨R, h1, -⟩ := covers_ok (by omega) hv ht hmu hd
    refine ⟨R, ?_⟩
    change ((s[i]?).bind fun v => (SnVec.up tau v).bind fun w => some (s ++ [w])) = _
    rw [List.getElem?_eq_getElem hi, Option.bind_some, h1]; rfl

/-- **C138.** Restricting a vector and inducing the restriction to the type of the vector gives the vector back, wherever it is in a
program. -/
theorem C138_round_trip (eig : Eig) (hn : 1 ≤ n) (s : List SnVec) (i : Nat) (v : SnVec) (hi : s[i]? = some v) (hv : Ok (n + 1) v) :
    ∃ tau w R, getType v = some tau ∧ LStmt.run eig [.down i, .up tau s.length] s = some (s ++ [w, R]) ∧ Ok n w ∧ obs R = obs v := by
  obtain ⟨ws, w, tau, R, h1, h2, h3, h4, h5, h6, h7⟩ := C49_up_of_down n hn v hv
  refine ⟨tau, w, R, h4, ?_, h3, h7⟩
  simp [LStmt.run, LStmt.exec, hi, h1, h2, h6]

/-- **C138.** `up` uses the first columns of a vector that has more than it needs: inducing what `cat` makes of a vector and others is inducing
the vector. -/
theorem C138_up_first (hn : 1 ≤ n) {v : SnVec} (hv : Ok n v) {ws : List SnVec} (hws : ∀ w ∈ ws, Ok n w) {tau : SnType} (ht : TypeOk (n + 1) tau)
    (hm : ∀ x ∈ parts tau, 0 ≤ mult tau x) (hc : v.Covers tau) :
    ∃ u R R', SnVec.cat (v :: ws) = some u ∧ Ok n u ∧ u.Covers tau ∧ SnVec.up tau v = some R ∧ SnVec.up tau u = some R' ∧ obs R' = obs R := by
  obtain ⟨u, u1, u2, u3⟩ := cat_first hn hv hws
  have hcu := covers_cat hv u2 u3 hc
  obtain ⟨R, r1, -, r2⟩ := covers_ok hn hv ht hm hc
  obtain ⟨R', k1, -, k2⟩ := covers_ok hn u2 ht hm hcu
  refine ⟨u, R, R', u1, u2, hcu, r1, k1, ?_⟩
  rw [k2, r2]
  refine List.map_congr_left fun x hx => ?_
  congr 1
  refine List.map_congr_left fun j hj => ?_
  rw [List.mem_range] at hj
  unfold upCol
  refine List.flatMap_congr fun mu hmu => ?_
  obtain ⟨a1, a2⟩ := covers_used hv ht hm hc x hx mu hmu
  obtain ⟨b1, b2⟩ := u3 mu a1
  have hle := colOffs_le (fun x => (mult tau x).toNat) ht.nodup hx hmu
  have hlt : colOffs (fun x => (mult tau x).toNat) (parts tau) x mu + j < (partAt v mu).cols.length := by
    simp only [VPart.cols, List.length_map, List.length_range]
    omega
  rw [partAt_cols u2 b1, b2, ← partAt_cols hv a1, List.getD_eq_getElem?_getD, List.getElem?_append_left hlt, ← List.getD_eq_getElem?_getD]

/-- **C138.** `up(tau,v)` stays within the parts of `v` and the type exactly when no multiplicity is negative and `v` has at least the columns
the restriction of `tau` asks for. The code checks only that `v` has the parts. -/
theorem C138_up_defined_iff (hn : 1 ≤ n) {v : SnVec} (hv : Ok n v) {tau : SnType} (ht : TypeOk (n + 1) tau) :
    (∃ R, SnVec.up tau v = some R) ↔ (∀ x ∈ parts tau, 0 ≤ mult tau x) ∧ v.Covers tau :=
  up_defined_iff hn hv ht

/-! ## Examples -/

/-- one column of each partition of 2 cannot be induced to two columns of (2,1) -/
example {v : SnVec} (hv : Ok 2 v) (h : v.map (fun P => (P.irrep.lambda, P.m)) = [([2], 1), ([1, 1], 1)]) :
    SnVec.up [([2, 1], 2)] v = none := by
  cases e : SnVec.up [([2, 1], 2)] v with
  | none => rfl
  | some R =>
    obtain ⟨-, D, h1, h2⟩ := (C138_up_defined_iff (by norm_num) hv (exType_ok 2)).1 ⟨R, e⟩
    have hD : D = [([2], 2), ([1, 1], 2)] ∨ D = [([1, 1], 2), ([2], 2)] := by
      have : SnType.down [([2, 1], 2)] = some [([2], 2), ([1, 1], 2)] ∨ SnType.down [([2, 1], 2)] = some [([1, 1], 2), ([2], 2)] := by decide
      rcases this with q | q <;> rw [q] at h1 <;> simp_all
    have h3 := (h2 [2] (by rcases hD with rfl | rfl <;> decide)).2
    have h4 : mult D [2] = 2 := by rcases hD with rfl | rfl <;> decide
    rw [h4, colsAt_eq hv, colsL_count, h] at h3
    exact absurd h3 (by decide)

/-- a vector is restricted, put together with another one, and induced to its own type: the vector again -/
example (z : SnVec) (hz : Ok 2 z) : ∃ tau r v, LStmt.run eigS [.down 0, .net (.lin (.cat 2 [1])), .up tau 3] [exVec 1 2, z] = some r ∧
    r[4]? = some v ∧ obs v = obs (exVec 1 2) := by
  obtain ⟨ws, w, tau, R, h1, h2, h3, h4, h5, h6, h7⟩ := C49_up_of_down 2 (by norm_num) (exVec 1 2) (exVec_ok 1 2)
  have ht : tau = typeOf (obs (exVec 1 2)) := by
    rw [getType_eq (exVec_ok 1 2)] at h4
    exact (Option.some.inj h4).symm
  have hd : w.Covers tau := covers_of_down h3 (by rw [h5])
  obtain ⟨u, S, S', q1, -, -, q2, q3, q4⟩ := C138_up_first (by norm_num) h3 (ws := [z]) (by simpa using hz) (ht ▸ typeOf_ok (exVec_ok 1 2))
    (fun x _ => by rw [ht, mult_typeOf' (exVec_ok 1 2)]; positivity) hd
  obtain rfl := Option.some.inj (h6.symm.trans q2)
  exact ⟨tau, [exVec 1 2, z, w, u, S'], S', by simp [LStmt.run, LStmt.exec, NStmt.exec, VStmt.exec, h1, h2, q1, q3], rfl, by rw [q4, h7]⟩

/-- a vector is restricted, the restriction is doubled and induced to the type `tau` -/
def exLetters (tau : SnType) : List LStmt := [.down 0, .net (.lin (.add 1 1)), .up tau 1]

theorem exLetters_runs (eig : Eig) (hn : 1 ≤ n) {v : SnVec} (hv : Ok (n + 1) v) : ∃ tau r, getType v = some tau ∧
    LStmt.run eig (exLetters tau) [v] = some r ∧ LStmt.AllFit eig n (exLetters tau) [v] ∧ r.length = 3 := by
  obtain ⟨ws, w, tau, R, h1, h2, h3, h4, h5, h6, -⟩ := C49_up_of_down n hn v hv
  obtain ⟨u, q1, q2, q3⟩ := C86_add_partial h3 h3 rfl
  have ht : tau = typeOf (obs v) := by
    rw [getType_eq hv] at h4
    exact (Option.some.inj h4).symm
  have hd : SnType.down tau = getType u := by
    rw [h5, getType_eq h3, getType_eq q2, typeOf_obs, typeOf_obs]
    have := congrArg (List.map fun e : List Nat × Nat => (e.1, (e.2 : Int))) q3.1
    rw [List.map_map, List.map_map] at this
    exact congrArg some this.symm
  have hok : TypeOk (n + 1) tau := ht ▸ typeOf_ok hv
  have hmu : ∀ x ∈ parts tau, 0 ≤ mult tau x := by
    intro x _
    rw [ht, mult_typeOf' hv]
    positivity
  obtain ⟨S, s1, -⟩ := upType_ok hn q2 hok hmu (by rw [hd, getType_eq q2])
  have e1 : LStmt.exec eig (.down 0) [v] = some [v, w] := by simp [LStmt.exec, h1, h2]
  have e2 : LStmt.exec eig (.net (.lin (.add 1 1))) [v, w] = some [v, u] := by simp [LStmt.exec, NStmt.exec, VStmt.exec, q1]
  have e3 : LStmt.exec eig (.up tau 1) [v, u] = some [v, u, S] := by simp [LStmt.exec, s1]
  refine ⟨tau, [v, u, S], h4, ?_, ?_, rfl⟩
  · simp [exLetters, LStmt.run, e1, e2, e3]
  · refine ⟨⟨n, le_rfl, by simp [hv]⟩, fun s hs => ?_⟩
    obtain rfl := Option.some.inj (e1.symm.trans hs)
    refine ⟨fun a b ha hb => by rw [ha] at hb; cases hb; rfl, fun s hs => ?_⟩
    obtain rfl := Option.some.inj (e2.symm.trans hs)
    exact ⟨⟨n, le_rfl, hok, hmu, by simp [q2, covers_of_down q2 hd]⟩, fun _ _ => trivial⟩

/-- with three letters, restricted to two, and the exchange of 1 and 2 -/
example : ∃ tau r v' t w w' w'', getType (exVec 1 2) = some tau ∧ LStmt.run eigS (exLetters tau) [exVec 1 2] = some r ∧
    SnVec.apply (exVec 1 2) [some 2, some 1, some 3] = some v' ∧ LStmt.run eigS (exLetters tau) [v'] = some t ∧ r[2]? = some w ∧ t[2]? = some w' ∧
    ActedBy 2 [some 2, some 1] w w'' ∧ obs w' = obs w'' := by
  obtain ⟨tau, r, h1, h2, h3, h4⟩ := exLetters_runs eigS (n := 2) (by norm_num) (exVec_ok 1 2)
  have e3 : enc (Equiv.swap (0 : Fin 3) 1) = [some 2, some 1, some 3] := by decide
  obtain ⟨v', x1, -⟩ := apply_data (n := 3) (by norm_num) (Equiv.swap (0 : Fin 3) 1) (exVec_ok 1 2)
  rw [e3] at x1
  obtain ⟨t, g1, g2⟩ := C138_equivariant eigS (m := 2) (by norm_num) (exLetters tau) (by simp [exLetters, LStmt.Linear]) [exVec 1 2] [v'] r h3 h2
    (a := [some 2, some 1]) ⟨Equiv.swap 0 1, by decide⟩ (.cons ⟨1, exVec_ok 1 2, x1⟩ .nil)
  obtain ⟨w, hw⟩ : ∃ w, r[2]? = some w := ⟨r[2], List.getElem?_eq_getElem (by omega)⟩
  obtain ⟨w', k1, w'', k2, k3⟩ := forall₂_get g2 hw
  exact ⟨tau, r, v', t, w, w', w'', h1, h2, x1, g1, hw, k1, k2, k3⟩

/-- the same program run on two vectors of the same type -/
example : ∃ tau r r', LStmt.run eigS (exLetters tau) [exVec 1 2] = some r ∧ LStmt.run eigS (exLetters tau) [exVec 3 4] = some r' ∧
    r'.length = 3 := by
  obtain ⟨tau, r, h1, h2, h3, h4⟩ := exLetters_runs eigS (n := 2) (by norm_num) (exVec_ok 1 2)
  obtain ⟨r', e1, e2⟩ := C138_types (m := 2) (by norm_num) (exLetters tau) (by simp [exLetters, LStmt.Linear]) [exVec 1 2] [exVec 3 4] r h3 h2
    (.cons ⟨3, by norm_num, exVec_ok 1 2, exVec_ok 3 4, by simp [SameType, exVec, mkP]⟩ .nil)
  exact ⟨tau, r, r', h2, e1, by rw [← e2.length_eq, h4]⟩

/-- two vectors over five letters are multiplied and the product is restricted to four letters; the cycle 1→2→3→1 -/
example {x y x' y' : SnVec} (hx : Ok 5 x) (hy : Ok 5 y) (mx : ∀ P ∈ x, P.m = 1) (my : ∀ P ∈ y, P.m = 1)
    (ax : x.apply [some 2, some 3, some 1, some 4, some 5] = some x') (ay : y.apply [some 2, some 3, some 1, some 4, some 5] = some y') :
    ∃ r t w w' w'', LStmt.run eigS [.net (.prod 0 1), .down 2] [x, y] = some r ∧ LStmt.run eigS [.net (.prod 0 1), .down 2] [x', y'] = some t ∧
      r[3]? = some w ∧ t[3]? = some w' ∧ w.apply [some 2, some 3, some 1, some 4] = some w'' ∧ obs w' = obs w'' := by
  obtain ⟨R, r1, r2, -⟩ := vec_ok' (n := 5) (by norm_num) (accAny_ok eigS_ok (by norm_num) (by norm_num)) hx hy mx my
  have r1' : cgVec eigS x y = some R := r1
  obtain ⟨ws, w, h1, h2, h3, -⟩ := restrict_ok (n := 4) (by norm_num) r2
  have e1 : LStmt.exec eigS (.net (.prod 0 1)) [x, y] = some [x, y, R] := by simp [LStmt.exec, NStmt.exec, r1']
  have hr : LStmt.run eigS [.net (.prod 0 1), .down 2] [x, y] = some [x, y, R, w] := by
    simp [LStmt.run, LStmt.exec, NStmt.exec, r1', h1, h2]
  have hF : LStmt.AllFit eigS 3 [.net (.prod 0 1), .down 2] [x, y] := by
    refine ⟨⟨5, by norm_num, by norm_num, by simp [hx, hy]⟩, fun s hs => ?_⟩
    obtain rfl := Option.some.inj (e1.symm.trans hs)
    exact ⟨⟨4, by norm_num, by simp [r2]⟩, fun _ _ => trivial⟩
  obtain ⟨t, g1, g2⟩ := C138_products_partial eigS_ok (m := 3) (by norm_num) (by norm_num) _ [x, y] [x', y'] _ hF hr
    (a := [some 2, some 3, some 1]) ⟨cyc 0 2, by decide⟩ (.cons ⟨2, hx, ax⟩ (.cons ⟨2, hy, ay⟩ .nil))
  obtain ⟨w', k1, w'', ⟨d, k2, k3⟩, k4⟩ := forall₂_get g2 (show [x, y, R, w][3]? = some w from rfl)
  have hw : w.apply [some 2, some 3, some 1, some 4] = some w'' := by
    cases w with
    | nil => rw [← k3]; rfl
    | cons P w =>
      have e1 := (h3.part P (by simp)).1.sum
      have e2 := (k2.part P (by simp)).1.sum
      obtain rfl : d = 1 := by omega
      exact k3
  exact ⟨_, t, w, w', w'', hr, g1, rfl, k1, hw, k4⟩

end Snob.Props
