import Verif.Proofs.LetterLin
import Verif.Props.LetterProg

/-! # C140: programs that restrict and induce are linear, and those that come back are products with weights -/

namespace Snob.Props

open Snob SnVec Weights Perm

variable {n m : Nat}

theorem fits_types {c : LStmt} {s t : List SnVec} (hst : List.Forall₂ (fun v w => ∃ d, Alike (m + d) v w) s t) (h : c.Fits m s) : c.Fits m t := by
  have back : ∀ {i : Nat} {w : SnVec}, t[i]? = some w → ∃ v d, s[i]? = some v ∧ Alike (m + d) v w := by
    intro i w hi
    obtain ⟨v, h1, d, h2⟩ := forall₂_get' hst hi
    exact ⟨v, d, h1, h2⟩
  rcases c with ((⟨W, i⟩ | ⟨i, is⟩ | ⟨i, j⟩) | ⟨i, j⟩) | i | ⟨tau, i⟩
  · trivial
  · obtain ⟨n, hn, h⟩ := h
    refine ⟨n, hn, fun k hk w hw => ?_⟩
    obtain ⟨v, d, h1, h2⟩ := back hw
    exact ok_of_same (h k hk v h1) h2.2.1 h2.2.2
  · intro a b ha hb
    obtain ⟨v, d, h1, h2⟩ := back ha
    obtain ⟨v', d', h3, h4⟩ := back hb
    exact h2.2.2.symm.trans ((h v v' h1 h3).trans h4.2.2)
  · obtain ⟨n, hn, hN, h⟩ := h
    refine ⟨n, hn, hN, fun a b ha hb => ?_⟩
    obtain ⟨v, d, h1, h2⟩ := back ha
    obtain ⟨v', d', h3, h4⟩ := back hb
    obtain ⟨o1, o2⟩ := h v v' h1 h3
    exact ⟨ok_of_same o1 h2.2.1 h2.2.2, ok_of_same o2 h4.2.1 h4.2.2⟩
  · obtain ⟨n, hn, h⟩ := h
    refine ⟨n, hn, fun w hw => ?_⟩
    obtain ⟨v, d, h1, h2⟩ := back hw
    exact ok_of_same (h v h1) h2.2.1 h2.2.2
  · obtain ⟨n, hn, ht, hmu, h⟩ := h
    refine ⟨n, hn, ht, hmu, fun w hw => ?_⟩
    obtain ⟨v, d, h1, h2⟩ := back hw
    obtain ⟨o1, o2⟩ := h v h1
    have o3 := ok_of_same o1 h2.2.1 h2.2.2
    exact ⟨o3, covers_same o1 o3 h2.2.2 o2⟩

theorem alike_swap {s t : List SnVec} (h : List.Forall₂ (fun v w => ∃ d, Alike (m + d) v w) s t) :
    List.Forall₂ (fun v w => ∃ d, Alike (m + d) v w) t s := by
  induction h with
  | nil => exact .nil
  | cons a _ ih =>
    obtain ⟨d, a⟩ := a
    exact .cons ⟨d, a.2.1, a.1, a.2.2.symm⟩ ih

/-- **C140.** Whether the statements of a program fit depends on the types of its inputs only. -/
theorem C140_fits_types {eig : Eig} (hm : 1 ≤ m) (p : List LStmt) (hp : ∀ c ∈ p, c.Linear ∨ (EigOk eig ∧ 2 ≤ m)) (s t : List SnVec)
    (hst : List.Forall₂ (fun v w => ∃ n, m ≤ n ∧ Ok n v ∧ Ok n w ∧ SameType v w) s t) :
    LStmt.AllFit eig m p s ↔ LStmt.AllFit eig m p t := by
  have key : ∀ {s t : List SnVec}, List.Forall₂ (fun v w => ∃ d, Alike (m + d) v w) s t → LStmt.AllFit eig m p s → LStmt.AllFit eig m p t := by
    clear hst
    induction p with
    | nil => intro s t _ _; trivial
    | cons c p ih =>
      intro s t hst hF
      refine ⟨fits_types hst hF.1, fun t' ht => ?_⟩
      obtain ⟨s', e1, e2⟩ := (letRel_alike eig hm).exec (hp c (by simp)) (alike_swap hst) (fits_types hst hF.1) ht
      exact ih (fun c hc => hp c (by simp [hc])) (alike_swap e2) (hF.2 s' e1)
  have hst' : List.Forall₂ (fun v w => ∃ d, Alike (m + d) v w) s t := hst.imp fun _ _ ⟨n, hn, q⟩ => by
    obtain ⟨d, rfl⟩ := Nat.exists_eq_add_of_le hn
    exact ⟨d, q⟩
  exact ⟨key hst', key (alike_swap hst')⟩

/-- **C140.** A program without products that restricts and induces is linear in all its inputs together: if every input of one run is `a` times
that of a second run plus that of a third, so is every result. -/
theorem C140_linear (eig : Eig) (hm : 1 ≤ m) (p : List LStmt) (hp : ∀ c ∈ p, c.Linear) (a : ℝ) (s r : List SnVec) (t : List (SnVec × SnVec))
    (hs : List.Forall₂ (fun u q => ∃ n, m ≤ n ∧ Ok n u ∧ Ok n q.1 ∧ Ok n q.2 ∧ IsComb a u q.1 q.2) s t)
    (hF : LStmt.AllFit eig m p s) (h : LStmt.run eig p s = some r) :
    ∃ t' : List (SnVec × SnVec), LStmt.run eig p (t.map Prod.fst) = some (t'.map Prod.fst) ∧
      LStmt.run eig p (t.map Prod.snd) = some (t'.map Prod.snd) ∧ List.Forall₂ (fun u q => IsComb a u q.1 q.2) r t' := by
  obtain ⟨t', e1, e2, e3⟩ := runs3_run hm hp (a := a) (hs.imp fun u q ⟨n, hn, b⟩ => by
    obtain ⟨d, rfl⟩ := Nat.exists_eq_add_of_le hn
    exact ⟨d, b⟩) hF h
  exact ⟨t', e1, e2, e3.imp fun _ _ ⟨_, b⟩ => b.2.2.2⟩

theorem runAt {eig : Eig} (hm : 1 ≤ m) {p : List LStmt} (hp : ∀ c ∈ p, c.Linear) {x : SnVec} (hx : Ok m x) (hF : LStmt.AllFit eig m p [x])
    {s : List SnVec} (h : LStmt.run eig p [x] = some s) {i : Nat} {w : SnVec} (hi : s[i]? = some w) (hw : Ok m w) {v : SnVec} (hv : Ok m v)
    (hvx : SameType v x) : LStmt.AllFit eig m p [v] ∧ ∃ t w', LStmt.run eig p [v] = some t ∧ t[i]? = some w' ∧ Ok m w' ∧ SameType w w' := by
  refine ⟨(C140_fits_types hm p (fun c hc => Or.inl (hp c hc)) [x] [v] (.cons ⟨m, le_rfl, hx, hv, hvx.symm⟩ .nil)).1 hF, ?_⟩
  obtain ⟨t, e1, e2⟩ := C138_types hm p (fun c hc => Or.inl (hp c hc)) [x] [v] s hF h (.cons ⟨m, le_rfl, hx, hv, hvx.symm⟩ .nil)
  obtain ⟨w', f1, n, hn, f2, f3, f4⟩ := forall₂_get e2 hi
  exact ⟨t, w', e1, f1, ok_of_same hw f3 f4, f4⟩

/-- **C140.** A program without products that begins and ends with vectors over `m` letters, and passes only through numbers of letters that are
at least `m`, is a single `SnWeights` whenever its result has parts for the same partitions as its input: there are weights whose product with
the input is the result, for all inputs of the type. -/
theorem C140_single (eig : Eig) (hm : 1 ≤ m) (p : List LStmt) (hp : ∀ c ∈ p, c.Linear) (x : SnVec) (hx : Ok m x) (hF : LStmt.AllFit eig m p [x])
    (s : List SnVec) (h : LStmt.run eig p [x] = some s) (i : Nat) (w : SnVec) (hi : s[i]? = some w) (hw : Ok m w)
    (hk : ∀ z, z ∈ (obs w).map Prod.fst ↔ z ∈ (obs x).map Prod.fst) :
    ∃ W, ∀ v, Ok m v → SameType v x → ∃ t w' w'', LStmt.run eig p [v] = some t ∧ t[i]? = some w' ∧ mulVec W v = some w'' ∧ obs w'' = obs w' := by
  have at_ : ∀ v, Ok m v → SameType v x → _ := fun v hv hvx => runAt hm hp hx hF h hi hw hv hvx
  let T : SnVec → SnVec := fun v => (((LStmt.run eig p [v]).bind fun t => t[i]?).getD [])
  have hT : ∀ {v t w'}, LStmt.run eig p [v] = some t → t[i]? = some w' → T v = w' := by
    intro v t w' h1 h2
    simp [T, h1, h2]
  have ty : ∀ {v : SnVec}, Ok m v → getType v = some (typeOf (obs x)) → SameType v x := by
    intro v hv h
    rw [getType_eq hv, Option.some.injEq] at h
    exact same_of_types h
  have e : ∀ u : SnVec, (obs u).map Prod.fst = parts (typeOf (obs u)) := by
    intro u
    rw [parts_typeOf]
    unfold obs
    rw [List.map_map]
    rfl
  have pos : ∀ {u : SnVec}, ∀ q ∈ typeOf (obs u), 0 ≤ q.2 := by
    intro u q hq
    rw [typeOf_obs] at hq
    obtain ⟨P, -, rfl⟩ := List.mem_map.1 hq
    simp
  have hE : IsEquivariant m (typeOf (obs w)) (typeOf (obs x)) T := by
    refine ⟨fun v hv h1 => ?_, fun a u v z hu hv hz h1 hc => ?_, fun a v v' z ha hv h1 h2 h3 => ?_⟩
    · obtain ⟨-, t, w', a1, a2, a3, a4⟩ := at_ v hv (ty hv h1)
      rw [hT a1 a2]
      exact ⟨a3, by rw [getType_eq a3, types_of_same a4]⟩
    · obtain ⟨a0, t, w', a1, a2, a3, a4⟩ := at_ u hu (ty hu h1)
      obtain ⟨t', b1, b2, b3⟩ := C140_linear eig hm p hp a [u] t [(v, z)] (.cons ⟨m, le_rfl, hu, hv, hz, hc⟩ .nil) a0 a1
      obtain ⟨q, c1, c2⟩ := forall₂_get b3 a2
      rw [hT a1 a2, hT b1 (w' := q.1) (by simp [c1]), hT b2 (w' := q.2) (by simp [c1])]
      exact c2
    · obtain ⟨a0, t, w', a1, a2, a3, a4⟩ := at_ v hv (ty hv h1)
      obtain ⟨t', b1, b2⟩ := C138_equivariant eig hm p hp [v] [v'] t a0 a1 ha (.cons ⟨0, hv, by simpa using h2⟩ .nil)
      obtain ⟨y, c1, y', ⟨d, c2, c3⟩, c4⟩ := forall₂_get b2 a2
      rw [hT a1 a2] at h3
      rw [hT b1 c1, c4]
      cases w' with
      | nil =>
        have e1 : z = [] := by simpa [SnVec.apply] using h3.symm
        have e2 : y' = [] := by simpa [SnVec.apply] using c3.symm
        rw [e1, e2]
      | cons P w' =>
        have e1 := (a3.part P (by simp)).1.sum
        have e2 := (c2.part P (by simp)).1.sum
        obtain rfl : d = 0 := by omega
        have e3 : SnVec.apply (P :: w') a = some y' := by simpa using c3
        rw [Option.some.inj (h3.symm.trans e3)]
  obtain ⟨fill, W, -, h2⟩ := C76_complete m hm _ _ (typeOf_ok hw) (typeOf_ok hx) pos pos (fun z => by rw [← e, ← e]; exact hk z) T hE
  refine ⟨W, fun v hv hvx => ?_⟩
  obtain ⟨-, t, w', a1, a2, a3, a4⟩ := at_ v hv hvx
  obtain ⟨w'', b1, b2⟩ := h2 v hv (by rw [getType_eq hv, types_of_same hvx])
  exact ⟨t, w', w'', a1, a2, b1, by rw [b2, hT a1 a2]⟩

/-! ## Examples -/

/-- the program `exLetters`, which restricts, doubles and induces, on `2v+w` -/
example : ∃ tau r t', LStmt.run eigS (exLetters tau) [exVec 5 8] = some r ∧ LStmt.run eigS (exLetters tau) [exVec 1 2] = some (t'.map Prod.fst) ∧
    LStmt.run eigS (exLetters tau) [exVec 3 4] = some (t'.map Prod.snd) ∧ t'.length = 3 ∧ List.Forall₂ (fun u q => IsComb 2 u q.1 q.2) r t' := by
  obtain ⟨tau, r, h1, h2, h3, h4⟩ := exLetters_runs eigS (n := 2) (by norm_num) (exVec_ok 5 8)
  have hc : IsComb 2 (exVec 5 8) (exVec 1 2) (exVec 3 4) := by
    refine ⟨by simp [SameType, exVec, mkP], by simp [SameType, exVec, mkP], fun k P Q R hP hQ hR i _ j _ => ?_⟩
    cases k with
    | zero =>
      simp only [exVec, List.getElem?_cons_zero, Option.some.injEq] at hP hQ hR
      subst hP hQ hR
      simp only [mkP]
      split_ifs <;> norm_num
    | succ k => simp [exVec] at hP
  obtain ⟨t', e1, e2, e3⟩ := C140_linear eigS (m := 2) (by norm_num) (exLetters tau) (by simp [exLetters, LStmt.Linear]) 2 [exVec 5 8] r
    [(exVec 1 2, exVec 3 4)] (.cons ⟨3, by norm_num, exVec_ok 5 8, exVec_ok 1 2, exVec_ok 3 4, hc⟩ .nil) h3 h2
  exact ⟨tau, r, t', h2, e1, e2, by rw [← e3.length_eq, h4], e3⟩

/-- inducing, doubling the result and restricting it is one product with weights -/
example {x : SnVec} (hn : 1 ≤ n) (hx : Ok n x) {tau : SnType} (ht : TypeOk (n + 1) tau) (hm : ∀ z ∈ parts tau, 0 ≤ mult tau z)
    (hd : SnType.down tau = getType x) : ∃ W, ∀ v, Ok n v → SameType v x →
      ∃ t w' w'', LStmt.run eigS [.up tau 0, .net (.lin (.add 1 1)), .down 1] [v] = some t ∧ t[2]? = some w' ∧ mulVec W v = some w'' ∧
        obs w'' = obs w' := by
  obtain ⟨R, -, -, h1, h2, h3, -⟩ := C49_down_of_up n hn x hx tau ht hm hd
  obtain ⟨u, q1, q2, q3⟩ := C86_add_partial h2 h2 rfl
  obtain ⟨ws, w, r1, r2, r3, -, -, r4⟩ := restrict_ok hn q2
  have e1 : LStmt.exec eigS (.up tau 0) [x] = some [x, R] := by simp [LStmt.exec, h1]
  have e2 : LStmt.exec eigS (.net (.lin (.add 1 1))) [x, R] = some [x, u] := by simp [LStmt.exec, NStmt.exec, VStmt.exec, q1]
  have e3 : LStmt.exec eigS (.down 1) [x, u] = some [x, u, w] := by simp [LStmt.exec, r1, r2]
  have hty : typeOf (obs w) = typeOf (obs x) := by
    rw [getType_eq h2, Option.some.injEq] at h3
    rw [types_of_same q3.1, h3, hd, getType_eq hx, Option.some.injEq] at r4
    exact r4.symm
  refine C140_single eigS hn [.up tau 0, .net (.lin (.add 1 1)), .down 1] (by simp [LStmt.Linear]) x hx ⟨⟨n, le_rfl, ht, hm, by simp [hx, covers_of_down hx hd]⟩, fun s hs => ?_⟩ [x, u, w]
    (by simp [LStmt.run, e1, e2, e3]) 2 w rfl r3 fun z => ?_
  · obtain rfl := Option.some.inj (e1.symm.trans hs)
    refine ⟨fun a b ha hb => by rw [ha] at hb; cases hb; rfl, fun s hs => ?_⟩
    obtain rfl := Option.some.inj (e2.symm.trans hs)
    exact ⟨⟨n, le_rfl, by simp [q2]⟩, fun _ _ => trivial⟩
  · have e : ∀ u : SnVec, (obs u).map Prod.fst = parts (typeOf (obs u)) := by
      intro u
      rw [parts_typeOf]
      unfold obs
      rw [List.map_map]
      rfl
    rw [e, e, hty]

end Snob.Props
