import Verif.Proofs.VecProg

/-! # Property C131: programs that combine vectors -/

namespace Snob.Props

open Snob SnVec Weights

variable {n : Nat}

/-- the vectors of a program, on every input of the type of `x` -/
theorem run_data (hn : 1 ≤ n) {p : List VStmt} {x : SnVec} (hx : Ok n x) {s : List SnVec} (h : VStmt.run p [x] = some s) :
    ∃ Fs, ∀ v, Ok n v → SameType v x → ∃ t, VStmt.run p [v] = some t ∧ Imgs n v Fs t := by
  have key : ∀ v, Ok n v → SameType v x → Imgs n v [fun z => (List.range (partAt x z).m).map fun j k => if k = j then 1 else 0] [v] :=
    fun v hv hvx => .cons (img_input hv fun z hz => sameType_m hv hx hvx hz) .nil
  obtain ⟨Fs, a⟩ := run_img hn hx (key x hx rfl) h
  exact ⟨Fs, fun v hv hvx => a v hv hvx [v] (key v hv hvx)⟩

/-- **C131.** Whether a program runs, how many vectors it ends with and their types depend on the type of its input only. -/
theorem C131_types (n : Nat) (hn : 1 ≤ n) (p : List VStmt) (x v : SnVec) (hx : Ok n x) (hv : Ok n v) (hvx : SameType v x)
    (s : List SnVec) (h : VStmt.run p [x] = some s) : ∃ t, VStmt.run p [v] = some t ∧ List.Forall₂ (fun w w' => Ok n w ∧ SameType w w') t s := by
  obtain ⟨Fs, a⟩ := run_data hn hx h
  obtain ⟨s', b1, b2⟩ := a x hx rfl
  obtain ⟨t, c1, c2⟩ := a v hv hvx
  rw [h] at b1
  cases b1
  refine ⟨t, c1, ?_⟩
  have hk := sameType_keys hvx
  clear h c1 a
  induction c2 generalizing s with
  | nil => cases b2; exact .nil
  | cons r _ ih =>
    cases b2 with
    | cons r' b2 =>
      refine .cons ⟨r.ok, sameType_of r.ok r'.ok (by rw [r.keys, r'.keys, hk]) fun z hz => ?_⟩ (ih _ b2)
      rw [r.keys] at hz
      rw [r.m z hz, r'.m z (hk ▸ hz)]

/-- **C131.** A program with an input of some type is a single `SnWeights`: for each vector it ends with, there are weights
whose product with the input is that vector, for all inputs of the type. -/
theorem C131_collapse (n : Nat) (hn : 1 ≤ n) (p : List VStmt) (x : SnVec) (hx : Ok n x) (s : List SnVec) (h : VStmt.run p [x] = some s)
    (i : Nat) (hi : i < s.length) :
    ∃ W, ∀ v, Ok n v → SameType v x → ∃ t w w', VStmt.run p [v] = some t ∧ t[i]? = some w ∧ mulVec W v = some w' ∧ obs w' = obs w := by
  obtain ⟨Fs, a⟩ := run_data hn hx h
  obtain ⟨s', b1, b2⟩ := a x hx rfl
  rw [h] at b1
  cases b1
  obtain ⟨F, hF, -⟩ := forall₂_get' b2 (List.getElem?_eq_getElem hi)
  refine ⟨fun z => some (.mat (F z).length (partAt x z).m fun j k => (F z).getD j 0 k), fun v hv hvx => ?_⟩
  obtain ⟨t, c1, c2⟩ := a v hv hvx
  obtain ⟨w, hw, g⟩ := forall₂_get c2 hF
  obtain ⟨w', d1, d2, d3, d4⟩ := mulVec_ok hn hv (fun z => some (.mat (F z).length (partAt x z).m fun j k => (F z).getD j 0 k))
    (fun z => (F z).length) (fun z j k => (F z).getD j 0 k) fun z hz => by rw [sameType_m hv hx hvx hz]
  refine ⟨t, w, w', c1, hw, d1, (obs_data d2 g.ok (by rw [d3, g.keys])).2 fun z hz => ?_⟩
  rw [d3] at hz
  refine ⟨by rw [(d4 z hz).1, g.m z hz], fun i hi j hj => ?_⟩
  rw [(d4 z hz).1] at hj
  rw [(d4 z hz).2, g.data z hz i hi j hj]

/-- **C131.** Programs commute with the group: permuting the input permutes every vector the program ends with. -/
theorem C131_equivariant (n : Nat) (hn : 1 ≤ n) (p : List VStmt) (x : SnVec) (hx : Ok n x) (s : List SnVec) (h : VStmt.run p [x] = some s)
    (a : Arr) (ha : IsPerm n a) :
    ∃ x' t, x.apply a = some x' ∧ VStmt.run p [x'] = some t ∧ t.length = s.length ∧
      ∀ (i : Nat) (w : SnVec), s[i]? = some w → ∃ w' w'', t[i]? = some w' ∧ w.apply a = some w'' ∧ obs w' = obs w'' := by
  obtain ⟨Fs, g⟩ := run_data hn hx h
  obtain ⟨s', b1, b2⟩ := g x hx rfl
  rw [h] at b1
  cases b1
  obtain ⟨σ, rfl⟩ := ha
  obtain ⟨x', e1, e2, e3, e4⟩ := apply_data hn σ hx
  obtain ⟨t, c1, c2⟩ := g x' e2 (sameType_of e2 hx e3 fun z hz => (e4 z (e3 ▸ hz)).1)
  refine ⟨x', t, e1, c1, by rw [← c2.length_eq, b2.length_eq], fun i w hw => ?_⟩
  obtain ⟨F, hF, d⟩ := forall₂_get' b2 hw
  obtain ⟨w', hw', d'⟩ := forall₂_get c2 hF
  obtain ⟨w'', f1, f2, f3, f4⟩ := apply_data hn σ d.ok
  refine ⟨w', w'', hw', f1, (obs_data d'.ok f2 (by rw [d'.keys, e3, f3, d.keys])).2 fun z hz => ?_⟩
  rw [d'.keys] at hz
  have hz' : z ∈ vkeys x := e3 ▸ hz
  have hzw : z ∈ vkeys w := by rw [d.keys]; exact hz'
  refine ⟨by rw [d'.m z hz, (f4 z hzw).1, d.m z hz'], fun i hi j hj => ?_⟩
  rw [d'.m z hz] at hj
  rw [d'.data z hz i hi j hj, (f4 z hzw).2 i hi j (by rw [d.m z hz']; exact hj), (e4 z hz').1]
  have e : ∀ k ∈ Finset.range (partAt x z).m, (partAt x' z).data i k * (F z).getD j 0 k =
      ∑ l ∈ Finset.range (dimOf z), evalN z (enc σ) i l * ((partAt x z).data l k * (F z).getD j 0 k) := by
    intro k hk
    rw [(e4 z hz').2 i hi k (Finset.mem_range.1 hk), Finset.sum_mul]
    exact Finset.sum_congr rfl fun l _ => by ring
  rw [Finset.sum_congr rfl e, Finset.sum_comm]
  refine Finset.sum_congr rfl fun l hl => ?_
  rw [d.data z hz' l (Finset.mem_range.1 hl) j hj, Finset.mul_sum]

/-- **C131.** Programs are linear in their input. -/
theorem C131_linear (n : Nat) (hn : 1 ≤ n) (p : List VStmt) (c : ℝ) (u v w : SnVec) (hu : Ok n u) (hv : Ok n v) (hw : Ok n w)
    (hc : IsComb c u v w) (s : List SnVec) (h : VStmt.run p [v] = some s) :
    ∃ su sw, VStmt.run p [u] = some su ∧ VStmt.run p [w] = some sw ∧
      ∀ (i : Nat) (v' : SnVec), s[i]? = some v' → ∃ u' w', su[i]? = some u' ∧ sw[i]? = some w' ∧ IsComb c u' v' w' := by
  obtain ⟨Fs, g⟩ := run_data hn hv h
  obtain ⟨s', b1, b2⟩ := g v hv rfl
  rw [h] at b1
  cases b1
  obtain ⟨su, c1, c2⟩ := g u hu hc.1
  obtain ⟨sw, d1, d2⟩ := g w hw (hc.2.1.symm.trans hc.1)
  have k1 : vkeys u = vkeys v := sameType_keys hc.1
  have k2 : vkeys u = vkeys w := sameType_keys hc.2.1
  refine ⟨su, sw, c1, d1, fun i v' hi => ?_⟩
  obtain ⟨F, hF, e⟩ := forall₂_get' b2 hi
  obtain ⟨u', hu', eu⟩ := forall₂_get c2 hF
  obtain ⟨w', hw', ew⟩ := forall₂_get d2 hF
  refine ⟨u', w', hu', hw', comb_of eu.ok e.ok ew.ok ?_ ?_ fun z hz i hi j hj => ?_⟩
  · refine sameType_of eu.ok e.ok (by rw [eu.keys, e.keys, k1]) fun z hz => ?_
    rw [eu.keys] at hz
    rw [eu.m z hz, e.m z (k1 ▸ hz)]
  · refine sameType_of eu.ok ew.ok (by rw [eu.keys, ew.keys, k2]) fun z hz => ?_
    rw [eu.keys] at hz
    rw [eu.m z hz, ew.m z (k2 ▸ hz)]
  · rw [eu.keys] at hz
    rw [eu.m z hz] at hj
    rw [eu.data z hz i hi j hj, e.data z (k1 ▸ hz) i hi j hj, ew.data z (k2 ▸ hz) i hi j hj, ← sameType_m hu hv hc.1 hz,
      ← sameType_m hu hw hc.2.1 hz, Finset.mul_sum, ← Finset.sum_add_distrib]
    refine Finset.sum_congr rfl fun k hk => ?_
    rw [comb_at hu hv hw hc hz i hi k (Finset.mem_range.1 hk)]
    ring

/-- one column is made into the two columns `5 c` and `7 c`, these are put beside `c` and themselves, and the result is doubled -/
noncomputable def exProg : List VStmt := [.mul (fun _ => some (.mat 2 1 fun j _ => if j = 0 then 5 else 7)) 0, .cat 1 [0, 1], .add 2 2]

theorem exProg_run : ∃ s w, VStmt.run exProg [exVec 3 4] = some s ∧ s.length = 3 ∧ s[2]? = some w ∧ (partAt w [2, 1]).m = 5 ∧
    (partAt w [2, 1]).data 0 1 = 42 ∧ (partAt w [2, 1]).data 1 2 = 8 ∧ ∀ w ∈ s, vkeys w = [[2, 1]] ∧ ∀ P ∈ w, P.m ≤ 5 := by
  have h2 : (mkP [2, 1] 1 fun i _ => if i = 0 then (3 : ℝ) else 4).irrep.lambda = [2, 1] := (irrOf_spec (by norm_num) part21).2.1
  have hp : partAt (exVec 3 4) [2, 1] = mkP [2, 1] 1 fun i _ => if i = 0 then 3 else 4 := by
    have := partAt_of_mem (exVec_ok 3 4).nodup (P := mkP [2, 1] 1 fun i _ => if i = 0 then 3 else 4) (by simp [exVec])
    rwa [h2] at this
  have hk : vkeys (exVec 3 4) = [[2, 1]] := by simp [vkeys, exVec, h2]
  have hd : dimOf [2, 1] = 2 := dimOf_ex.1
  have g0 := img_input (exVec_ok 3 4) (m := fun _ => 1) fun z hz => by
    rw [hk, List.mem_singleton] at hz; rw [hz, hp]; rfl
  obtain ⟨w1, a1, g1⟩ := img_mul (by norm_num) g0 (fun _ => some (.mat 2 1 fun j _ => if j = 0 then 5 else 7)) (fun _ => 2)
    (fun _ j _ => if j = 0 then 5 else 7) fun z _ => by simp
  obtain ⟨w2, a2, g2⟩ := img_cat (by norm_num) (exVec_ok 3 4) (ws := [w1, exVec 3 4, w1]) (by simp) (.cons g1 (.cons g0 (.cons g1 .nil)))
  obtain ⟨w3, a3, g3⟩ := img_add g2 g2 fun _ _ => rfl
  have m21 : [2, 1] ∈ vkeys (exVec 3 4) := by rw [hk]; simp
  have hb : ∀ {F : List Nat → List (Nat → ℝ)} {w : SnVec}, Img 3 (exVec 3 4) F w → (F [2, 1]).length ≤ 5 →
      vkeys w = [[2, 1]] ∧ ∀ P ∈ w, P.m ≤ 5 := by
    intro F w g hF
    refine ⟨by rw [g.keys, hk], fun P hP => ?_⟩
    have hl : P.irrep.lambda ∈ vkeys w := List.mem_map.2 ⟨P, hP, rfl⟩
    rw [g.keys, hk, List.mem_singleton] at hl
    have e := partAt_of_mem g.ok.nodup hP
    rw [hl] at e
    rw [← e, g.m _ m21]
    exact hF
  refine ⟨[exVec 3 4, w1, w3], w3, ?_, rfl, rfl, ?_, ?_, ?_, ?_⟩
  · simp [exProg, VStmt.run, VStmt.exec, a1, a2, a3]
  · rw [g3.m _ m21]; simp
  · rw [g3.data _ m21 0 (by rw [hd]; norm_num) 1 (by simp), hp]
    simp [mkP, List.getD_eq_getElem?_getD]
    norm_num
  · rw [g3.data _ m21 1 (by rw [hd]; norm_num) 2 (by simp), hp]
    simp [mkP, List.getD_eq_getElem?_getD]
    norm_num
  · intro w hw
    simp only [List.mem_cons, List.not_mem_nil, or_false] at hw
    rcases hw with rfl | rfl | rfl
    · exact hb g0 (by simp)
    · exact hb g1 (by simp)
    · exact hb g3 (by simp)

/-- its result commutes with a permutation, and is a single product with weights -/
example : ∃ s x' t w w' w'', VStmt.run exProg [exVec 3 4] = some s ∧ (exVec 3 4).apply [some 2, some 3, some 1] = some x' ∧
    VStmt.run exProg [x'] = some t ∧ s[2]? = some w ∧ t[2]? = some w' ∧ w.apply [some 2, some 3, some 1] = some w'' ∧ obs w' = obs w'' := by
  obtain ⟨s, w, h, -, h2, -⟩ := exProg_run
  obtain ⟨x', t, a1, a2, -, a3⟩ := C131_equivariant 3 (by norm_num) exProg _ (exVec_ok 3 4) s h [some 2, some 3, some 1] ⟨cyc 0 2, by decide⟩
  obtain ⟨w', w'', b1, b2, b3⟩ := a3 2 w h2
  exact ⟨s, x', t, w, w', w'', h, a1, a2, h2, b1, b2, b3⟩

example : ∃ W, ∀ a b : ℝ, ∃ t w w', VStmt.run exProg [exVec a b] = some t ∧ t[2]? = some w ∧ mulVec W (exVec a b) = some w' ∧ obs w' = obs w := by
  obtain ⟨s, w, h, hl, -⟩ := exProg_run
  obtain ⟨W, hW⟩ := C131_collapse 3 (by norm_num) exProg _ (exVec_ok 3 4) s h 2 (by rw [hl]; norm_num)
  exact ⟨W, fun a b => hW _ (exVec_ok a b) rfl⟩

end Snob.Props
