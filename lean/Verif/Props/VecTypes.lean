import Verif.Spec.VecTypes
import Verif.Proofs.FloatProg
import Verif.Props.FloatProg

/-! # Property C134: the check of the types of a program decides whether it runs -/

namespace Snob.Props

open Snob SnVec Weights

variable {n : Nat}

theorem mapM_view {α β : Type} {f : α → Option α} {g : α → β} {h : β → Option β} {l : List α} (e : ∀ a ∈ l, (f a).map g = h (g a)) :
    (l.mapM f).map (List.map g) = (l.map g).mapM h := by
  induction l with
  | nil => rfl
  | cons a l ih =>
    rw [List.mapM_cons, List.map_cons, List.mapM_cons, ← ih fun b hb => e b (by simp [hb]), ← e a (by simp)]
    rcases f a with _ | b
    · rfl
    · rcases l.mapM f with _ | r <;> rfl

theorem mul_typeV (W : Weights) (v : SnVec) : (mulVec W v).map typeV = (typeV v).mul W := by
  unfold VType.mul
  refine mapM_view fun P _ => ?_
  unfold getMatrix
  rcases hW : W P.irrep.lambda with _ | M
  · simp [hW]
  · cases M with
    | vec k f => simp [hW, mulPart]
    | mat r c f =>
      by_cases hc : P.m = c
      · simp [hW, mulPart, hc]
      · simp [hW, mulPart, hc, Ne.symm hc]

theorem cols_typeV {v : SnVec} (hv : Ok n v) {z : List Nat} (hz : z ∈ vkeys v) : (typeV v).cols z = (partAt v z).m := by
  obtain ⟨P, hP, rfl⟩ := List.mem_map.1 hz
  rw [partAt_of_mem hv.nodup hP]
  have nd := hv.nodup
  clear hz hv
  unfold VType.cols typeV
  induction v with
  | nil => simp at hP
  | cons Q v ih =>
    rw [List.map_cons, List.lookup_cons]
    rcases List.mem_cons.1 hP with rfl | hP
    · simp
    · have hne : P.irrep.lambda ≠ Q.irrep.lambda := by
        intro h
        rw [List.map_cons, List.nodup_cons] at nd
        exact nd.1 (List.mem_map.2 ⟨P, hP, h⟩)
      rw [beq_false_of_ne hne]
      exact ih hP (List.nodup_cons.1 (by rw [List.map_cons] at nd; exact nd)).2

theorem typeV_eq {v : SnVec} (hv : Ok n v) : typeV v = (vkeys v).map fun z => (z, (partAt v z).m) := by
  unfold typeV vkeys
  rw [List.map_map]
  exact List.map_congr_left fun P hP => by simp only [Function.comp]; rw [partAt_of_mem hv.nodup hP]

theorem cat_typeV (hn : 1 ≤ n) {x v : SnVec} {vs : List SnVec} (hx : Ok n x) (h : ∀ w ∈ v :: vs, Ok n w ∧ vkeys w = vkeys x) :
    ∃ u, SnVec.cat (v :: vs) = some u ∧ typeV u = (typeV v).cat (vs.map typeV) ∧ Ok n u ∧ vkeys u = vkeys x := by
  obtain ⟨u, a1, a2, a3, a4⟩ := cat_cols hn hx (ws := v :: vs) (by simp) h
  refine ⟨u, a1, ?_, a2, a3⟩
  unfold VType.cat
  rw [typeV_eq a2, typeV_eq (h v (by simp)).1, a3, (h v (by simp)).2, List.map_map (l := vkeys x)]
  refine List.map_congr_left fun z hz => ?_
  simp only [Function.comp, Prod.mk.injEq, true_and]
  have := congrArg List.length (a4 z hz)
  rw [List.flatMap_cons, List.length_append, List.length_flatMap] at this
  simp only [VPart.cols, List.length_map, List.length_range] at this
  rw [this, List.map_map]
  congr 2
  refine List.map_congr_left fun w hw => ?_
  simp only [Function.comp]
  rw [cols_typeV (h w (by simp [hw])).1 (by rw [(h w (by simp [hw])).2]; exact hz)]

/-- one statement -/
theorem exec_typeV (hn : 1 ≤ n) {x : SnVec} (hx : Ok n x) (c : VStmt) {s : List SnVec} (hs : ∀ w ∈ s, Ok n w ∧ vkeys w = vkeys x) :
    (c.exec s).map (List.map typeV) = c.check (s.map typeV) ∧ ∀ s', c.exec s = some s' → ∀ w ∈ s', Ok n w ∧ vkeys w = vkeys x := by
  cases c with
  | mul W i =>
    simp only [VStmt.exec, VStmt.check, List.getElem?_map]
    rcases hi : s[i]? with _ | v
    · simp
    · have e := mul_typeV W v
      rcases hw : mulVec W v with _ | w
      · rw [hw] at e
        simp only [Option.map_none] at e
        simp [hw, ← e]
      · rw [hw] at e
        simp only [Option.map_some] at e
        simp only [hw, Option.bind_eq_bind, Option.bind_some, Option.map_some, ← e, List.map_append, List.map_cons, List.map_nil, true_and,
          Option.some.injEq]
        rintro s' rfl w' hw'
        rcases List.mem_append.1 hw' with hw' | hw'
        · exact hs w' hw'
        · rw [List.mem_singleton.1 hw']
          obtain ⟨hv, hk⟩ := hs v (List.mem_of_getElem? hi)
          obtain ⟨r, f, -, b2, b3, -⟩ := mul_data hn hv hw
          exact ⟨b2, b3.trans hk⟩
  | cat i is =>
    have e : VStmt.exec (.cat i is) s = (s[i]?).bind fun v => (is.mapM fun k => s[k]?).bind fun vs => (SnVec.cat (v :: vs)).bind fun w =>
        some (s ++ [w]) := by
      change (((i :: is).mapM fun k => s[k]?).bind fun vs => (SnVec.cat vs).bind fun w => some (s ++ [w])) = _
      rw [List.mapM_cons]
      rcases s[i]? with _ | v
      · rfl
      · rcases is.mapM fun k => s[k]? with _ | vs <;> rfl
    rw [e]
    simp only [VStmt.check, List.getElem?_map]
    have em := mapM_get_map typeV s is
    simp only [List.getElem?_map] at em
    rw [em]
    rcases hi : s[i]? with _ | v
    · simp
    · rcases hvs : is.mapM (fun k => s[k]?) with _ | vs
      · simp
      · have hm : ∀ w ∈ v :: vs, Ok n w ∧ vkeys w = vkeys x := by
          intro w hw
          rcases List.mem_cons.1 hw with rfl | hw
          · exact hs _ (List.mem_of_getElem? hi)
          · exact hs _ (mapM_get_mem hvs w hw)
        obtain ⟨u, a1, a2, a3, a4⟩ := cat_typeV hn hx hm
        simp only [Option.bind_some, Option.map_some, a1, List.map_append, List.map_cons, List.map_nil, a2, true_and, Option.some.injEq]
        rintro s' rfl w hw
        rcases List.mem_append.1 hw with hw | hw
        · exact hs w hw
        · rw [List.mem_singleton.1 hw]; exact ⟨a3, a4⟩
  | add i j =>
    simp only [VStmt.exec, VStmt.check, List.getElem?_map]
    rcases hi : s[i]? with _ | u
    · simp
    · rcases hj : s[j]? with _ | v
      · simp
      · obtain ⟨hu, ku⟩ := hs u (List.mem_of_getElem? hi)
        obtain ⟨hv, kv⟩ := hs v (List.mem_of_getElem? hj)
        simp only [Option.bind_eq_bind, Option.bind_some, Option.map_some]
        rcases hw : u.add v with _ | w
        · have : typeV u ≠ typeV v := by
            intro h
            obtain ⟨w, h1, -⟩ := C86_add_partial hu hv h
            rw [hw] at h1
            cases h1
          simp [this]
        · have st := add_same hw (by rw [ku, kv])
          obtain ⟨w', h1, h2, h3⟩ := C86_add_partial hu hv st
          rw [hw, Option.some.injEq] at h1
          subst h1
          have e1 : typeV u = typeV v := st
          have e2 : typeV w = typeV u := h3.1
          simp only [Option.bind_some, Option.map_some, if_pos e1, Option.some.injEq]
          refine ⟨?_, ?_⟩
          · rw [List.map_set, e2]
            have hi' : (s.map typeV)[i]? = some (typeV u) := by rw [List.getElem?_map, hi]; rfl
            obtain ⟨hl, hg⟩ := List.getElem?_eq_some_iff.1 hi'
            rw [← hg]
            exact List.set_getElem_self hl
          · rintro s' rfl y hy
            rcases List.mem_or_eq_of_mem_set hy with hy | rfl
            · exact hs y hy
            · exact ⟨h2, (sameType_keys h3.1).trans ku⟩

/-- **C134.** The check, which looks at the type of the input and at the sizes of the weights only, succeeds exactly if the program runs, and
predicts the types of all the vectors it ends with. -/
theorem C134_check (n : Nat) (hn : 1 ≤ n) (p : List VStmt) (x : SnVec) (hx : Ok n x) :
    (VStmt.run p [x]).map (List.map typeV) = VStmt.checkAll p [typeV x] := by
  have key : ∀ (p : List VStmt) (s : List SnVec), (∀ w ∈ s, Ok n w ∧ vkeys w = vkeys x) →
      (VStmt.run p s).map (List.map typeV) = VStmt.checkAll p (s.map typeV) := by
    intro p
    induction p with
    | nil => intro s _; rfl
    | cons c p ih =>
      intro s hs
      obtain ⟨h1, h2⟩ := exec_typeV hn hx c hs
      unfold VStmt.run VStmt.checkAll
      rw [← h1]
      rcases hc : c.exec s with _ | s'
      · rfl
      · exact ih s' (h2 s' hc)
  exact key p [x] fun w hw => by rw [List.mem_singleton.1 hw]; exact ⟨hx, rfl⟩

/-- **C134.** If the check fails, there is no input of the type on which the program runs; if it succeeds, the program runs on all of them. -/
theorem C134_decides (n : Nat) (hn : 1 ≤ n) (p : List VStmt) (x : SnVec) (hx : Ok n x) :
    ((VStmt.checkAll p [typeV x]).isSome ↔ ∀ v, Ok n v → typeV v = typeV x → (VStmt.run p [v]).isSome) ∧
    ((VStmt.checkAll p [typeV x]).isNone ↔ ∀ v, Ok n v → typeV v = typeV x → VStmt.run p [v] = none) := by
  have h := fun (v : SnVec) (hv : Ok n v) (e : typeV v = typeV x) => e ▸ C134_check n hn p v hv
  refine ⟨⟨fun h1 v hv e => ?_, fun h1 => ?_⟩, ⟨fun h1 v hv e => ?_, fun h1 => ?_⟩⟩
  · rw [← h v hv e, Option.isSome_map] at h1; exact h1
  · rw [← h x hx rfl, Option.isSome_map]; exact h1 x hx rfl
  · rw [← h v hv e, Option.isNone_map] at h1; exact Option.isNone_iff_eq_none.1 h1
  · rw [← h x hx rfl, h1 x hx rfl]; rfl

theorem exVec_typeV (a b : ℝ) : typeV (exVec a b) = [([2, 1], 1)] := by
  rw [typeV_eq (exVec_ok a b), (exVec_at a b).1]
  simp [(exVec_at a b).2, mkP]

/-- the program of C131 makes vectors with one, two and five columns -/
example : VStmt.checkAll exProg [[([2, 1], 1)]] = some [[([2, 1], 1)], [([2, 1], 2)], [([2, 1], 5)]] := by
  simp [VStmt.checkAll, exProg, VStmt.check, VType.mul, VType.cat, VType.cols]

example (a b : ℝ) : (VStmt.run exProg [exVec a b]).isSome :=
  ((C134_decides 3 (by norm_num) exProg _ (exVec_ok 0 0)).1.1 (by
    rw [exVec_typeV]
    simp [VStmt.checkAll, exProg, VStmt.check, VType.mul, VType.cat, VType.cols])) _ (exVec_ok a b) (by rw [exVec_typeV, exVec_typeV])

/-- adding the result to the input does not pass the check -/
example (a b : ℝ) : VStmt.run (exProg ++ [.add 2 0]) [exVec a b] = none :=
  ((C134_decides 3 (by norm_num) (exProg ++ [.add 2 0]) _ (exVec_ok 0 0)).2.1 (by
    rw [exVec_typeV]
    simp [VStmt.checkAll, exProg, VStmt.check, VType.mul, VType.cat, VType.cols])) _ (exVec_ok a b) (by rw [exVec_typeV, exVec_typeV])

end Snob.Props
