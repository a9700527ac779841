import Verif.Spec.FloatVec
import Verif.Proofs.FloatChar
import Verif.Proofs.ProductRep
import Verif.Props.SnVecAct

/-! # Vectors in floating point -/

namespace Snob

open IP Snob.Perm Snob.Props

section
variable {X : Type}

/-- the loops of a call, over any action of the adjacent transpositions -/
def ActCall.with (n : Nat) (ap : Int → X → Option X) : ActCall → X → Option X
  | perm s, x => if s.length = n then (do
      let sh ← IrrepObj.shifts n s
      forUp 2 ((n : Int) + 1) x fun i x => do
        let b ← rd sh (i - 1)
        forDown (i - 1) b x fun a x => ap a x) else none
  | cycle a b, x => if a < b then forDown (b - 1) a x ap else forUp b a x ap
  | cycleInv a b, x => forUp a b x ap
  | swap x y, z => do
      let z ← forDown (max x y - 1) (min x y) z ap
      forUp (min x y + 1) (max x y) z ap

end

theorem wordOk_rrun {n : Nat} (t m : Nat) (h : t + m < n) : WordOk n m (rrun FreeMonoid.of t m) := by
  induction m with
  | zero => exact WordOk.one n
  | succ m ih =>
    rw [rrun, Nat.add_comm m 1]
    refine WordOk.mul ⟨?_, by simp⟩ (ih (by omega))
    intro k hk
    simp at hk
    omega

theorem lift_run {n t m : Nat} (h : t + m < n) :
    FreeMonoid.lift (adj n) (run FreeMonoid.of t m) = cyc (⟨t, by omega⟩ : Fin n) ⟨t + m, h⟩ := by
  rw [map_run, ← run_adj]
  simp only [FreeMonoid.lift_eval_of]

theorem lift_rrun {n t m : Nat} (h : t + m < n) :
    FreeMonoid.lift (adj n) (rrun FreeMonoid.of t m) = (cyc (⟨t, by omega⟩ : Fin n) ⟨t + m, h⟩)⁻¹ := by
  rw [map_rrun, ← run_adj, ← rrun_adj]
  simp only [FreeMonoid.lift_eval_of]

theorem actCall_word {n : Nat} {c : ActCall} {σ : Equiv.Perm (Fin n)} (hm : c.Means n σ) :
    ∃ w, WordOk n (c.cost n) w ∧ FreeMonoid.lift (adj n) w = σ ∧
      ∀ {X : Type} {a : FreeMonoid Nat → X → X} {ap : Int → X → Option X}, Gen n FreeMonoid.of a ap → ∀ x, c.with n ap x = some (a w x) := by
  cases c with
  | perm s =>
    obtain rfl : s = enc σ := hm
    refine ⟨cox FreeMonoid.of n σ, wordOk_cox le_rfl σ, ?_, fun g x => ?_⟩
    · rw [map_cox, ← cox_adj_self σ]
      simp only [FreeMonoid.lift_eval_of, cox_adj_self]
    · unfold ActCall.with
      simp only
      rw [if_pos (by simp), shifts_eq]
      exact sigmaLoop g.one g.mul (fun t m x htm => g.down t m htm rfl (by ring) x) σ x
  | cycle a b =>
    obtain ⟨ha, hb, he⟩ := hm
    obtain ⟨a, rfl⟩ := fin_of ha
    obtain ⟨b, rfl⟩ := fin_of hb
    have h1 := a.2
    have h2 := b.2
    by_cases hab : a < b
    · have hab' : (a : Nat) < b := hab
      rw [contiguousCycle_up a b hab.le, Option.some.injEq] at he
      have := enc_injective he
      subst this
      refine ⟨run FreeMonoid.of a (b - a), (wordOk_run _ _ (by omega)).mono (by unfold ActCall.cost; simp only; omega), ?_, fun g x => ?_⟩
      · rw [lift_run (by omega)]
        congr 1
        exact Fin.ext (by simp only; omega)
      · unfold ActCall.with
        simp only
        rw [if_pos (by omega)]
        exact g.down a (b - a) (by omega) rfl (by omega) x
    · have hab' : ¬ (a : Nat) < b := hab
      rw [contiguousCycle_down a b (not_lt.1 hab), Option.some.injEq] at he
      have := enc_injective he
      subst this
      refine ⟨rrun FreeMonoid.of b (a - b), (wordOk_rrun _ _ (by omega)).mono (by unfold ActCall.cost; simp only; omega), ?_, fun g x => ?_⟩
      · rw [lift_rrun (by omega)]
        congr 2
        exact Fin.ext (by simp only; omega)
      · unfold ActCall.with
        simp only
        rw [if_neg (by omega)]
        exact g.up b (a - b) (by omega) rfl (by omega) x
  | cycleInv a b =>
    obtain ⟨ha, hab, hb, s, he, hs⟩ := hm
    obtain ⟨a, rfl⟩ := fin_of (n := n) (a := a) ⟨ha, by omega⟩
    obtain ⟨b, rfl⟩ := fin_of (n := n) (a := b) ⟨by omega, hb⟩
    have h1 := a.2
    have h2 := b.2
    have hab' : (a : Nat) ≤ b := by omega
    rw [contiguousCycle_up a b hab', Option.some.injEq] at he
    subst he
    rw [inverse_eq, Option.some.injEq] at hs
    have := enc_injective hs
    subst this
    refine ⟨rrun FreeMonoid.of a (b - a), (wordOk_rrun _ _ (by omega)).mono (by unfold ActCall.cost; simp only; omega), ?_, fun g x => ?_⟩
    · rw [lift_rrun (by omega)]
      congr 2
      exact Fin.ext (by simp only; omega)
    · exact g.up a (b - a) (by omega) rfl (by omega) x
  | swap a b =>
    obtain ⟨ha, hb, he⟩ := hm
    obtain ⟨a, rfl⟩ := fin_of ha
    obtain ⟨b, rfl⟩ := fin_of hb
    rw [transposition_eq, Option.some.injEq] at he
    have := enc_injective he
    subst this
    have key : ∀ a b : Fin n, a < b → ∃ w, WordOk n (2 * ((b : Nat) - a) - 1) w ∧ FreeMonoid.lift (adj n) w = Equiv.swap a b ∧
        ∀ {X : Type} {ac : FreeMonoid Nat → X → X} {ap : Int → X → Option X}, Gen n FreeMonoid.of ac ap → ∀ x, (do
          let z ← forDown (((b : Nat) : Int) + 1 - 1) ((a : Nat) + 1) x ap
          forUp (((a : Nat) : Int) + 1 + 1) ((b : Nat) + 1) z ap) = some (ac w x) := by
      intro a b hab
      have hab' : (a : Nat) < b := hab
      have h1 := a.2
      have h2 := b.2
      refine ⟨rrun FreeMonoid.of (a + 1) (b - a - 1) * run FreeMonoid.of a (b - a),
        ((wordOk_rrun _ _ (by omega)).mul (wordOk_run _ _ (by omega))).mono (by omega), ?_, fun g x => ?_⟩
      · rw [map_mul, lift_rrun (by omega), lift_run (by omega), swap_eq_cyc a b hab]
        congr 2
        · congr 1
          exact Fin.ext (by simp only; omega)
        · exact Fin.ext (by simp only; omega)
      · rw [g.down a (b - a) (by omega) rfl (by omega)]
        simp only [Option.bind_eq_bind, Option.bind_some]
        rw [g.up (a + 1) (b - a - 1) (by omega) (by push_cast; ring) (by omega), g.mul]
    rcases lt_trichotomy a b with hab | rfl | hab
    · have hab' : (a : Nat) < b := hab
      obtain ⟨w, k1, k2, k3⟩ := key a b hab
      have e1 : min (((a : Nat) : Int) + 1) ((b : Nat) + 1) = (a : Nat) + 1 := by omega
      have e2 : max (((a : Nat) : Int) + 1) ((b : Nat) + 1) = (b : Nat) + 1 := by omega
      refine ⟨w, k1.mono (by unfold ActCall.cost; simp only; omega), k2, fun g x => ?_⟩
      unfold ActCall.with
      simp only [e1, e2]
      exact k3 g x
    · refine ⟨1, (WordOk.one n).mono (by omega), by rw [map_one, Equiv.swap_self]; rfl, fun g x => ?_⟩
      unfold ActCall.with
      simp only [min_self, max_self]
      rw [forDown_empty (by omega)]
      simp only [Option.bind_eq_bind, Option.bind_some]
      rw [forUp_empty (by omega), g.one]
    · have hab' : (b : Nat) < a := hab
      obtain ⟨w, k1, k2, k3⟩ := key b a hab
      have e1 : min (((a : Nat) : Int) + 1) ((b : Nat) + 1) = (b : Nat) + 1 := by omega
      have e2 : max (((a : Nat) : Int) + 1) ((b : Nat) + 1) = (a : Nat) + 1 := by omega
      refine ⟨w, k1.mono (by unfold ActCall.cost; simp only; omega), by rw [k2, Equiv.swap_comm], fun g x => ?_⟩
      unfold ActCall.with
      simp only [e1, e2]
      exact k3 g x

section
variable {n : Nat} {F : Rounding}

/-- the calls on one part -/
theorem exec_part {p : List Nat} {hp : IsPartition n p} {R : IrrepObj} (h : Repr' hp R) (F : Rounding) (c : ActCall) (d m : Nat) (A : Nat → Nat → ℝ) :
    (match c with
      | .perm s => F.partApply ⟨d, m, F.round R, A⟩ s
      | .cycle a b => F.partCycle ⟨d, m, F.round R, A⟩ a b
      | .cycleInv a b => F.partCycleInv ⟨d, m, F.round R, A⟩ a b
      | .swap a b => F.partTransposition ⟨d, m, F.round R, A⟩ a b) =
    (c.with n (fun tau A => F.applyTau (F.round R) (List.range m) tau A) A).bind fun B => some ⟨d, m, F.round R, B⟩ := by
  have hn : (F.round R).n = n := h.n_eq
  cases c with
  | perm s =>
    simp only [Rounding.partApply, Rounding.applySigma, ActCall.with, hn]
    rfl
  | cycle a b => rfl
  | cycleInv a b => rfl
  | swap a b => rfl

/-- the vector after the word `w` -/
noncomputable def fvec (F : Rounding) (v : SnVec) (w : FreeMonoid Nat) : SnVec :=
  v.map fun P => ⟨P.d, P.m, F.round P.irrep, wact (fst' F P.irrep (List.range P.m)) w P.data⟩

theorem exec_vec (hn : 1 ≤ n) (hodd : Odd' F.d) {v : SnVec} (hv : SnVec.Ok n v) {c : ActCall} {w : FreeMonoid Nat}
    (hw : ∀ {X : Type} {a : FreeMonoid Nat → X → X} {ap : Int → X → Option X}, Gen n FreeMonoid.of a ap → ∀ x, c.with n ap x = some (a w x))
    (w0 : FreeMonoid Nat) : c.exec F (fvec F v w0) = some (fvec F v (w * w0)) := by
  have e : ∀ P ∈ v, (match c with
      | .perm s => F.partApply ⟨P.d, P.m, F.round P.irrep, wact (fst' F P.irrep (List.range P.m)) w0 P.data⟩ s
      | .cycle a b => F.partCycle ⟨P.d, P.m, F.round P.irrep, wact (fst' F P.irrep (List.range P.m)) w0 P.data⟩ a b
      | .cycleInv a b => F.partCycleInv ⟨P.d, P.m, F.round P.irrep, wact (fst' F P.irrep (List.range P.m)) w0 P.data⟩ a b
      | .swap a b => F.partTransposition ⟨P.d, P.m, F.round P.irrep, wact (fst' F P.irrep (List.range P.m)) w0 P.data⟩ a b) =
      some ⟨P.d, P.m, F.round P.irrep, wact (fst' F P.irrep (List.range P.m)) (w * w0) P.data⟩ := by
    intro P hP
    obtain ⟨h, -⟩ := part_act hn hv hP
    rw [exec_part h, hw (h.fgen hodd _ List.nodup_range), wact_mul]
    rfl
  have key : ∀ (f : VPart → Option VPart) (l : SnVec), (∀ P ∈ l, f ⟨P.d, P.m, F.round P.irrep, wact (fst' F P.irrep (List.range P.m)) w0 P.data⟩ =
      some ⟨P.d, P.m, F.round P.irrep, wact (fst' F P.irrep (List.range P.m)) (w * w0) P.data⟩) →
      (fvec F l w0).mapM f = some (fvec F l (w * w0)) := by
    intro f l hl
    induction l with
    | nil => rfl
    | cons P l ih =>
      unfold fvec at ih ⊢
      rw [List.map_cons, List.mapM_cons, hl P (by simp), ih fun Q hQ => hl Q (by simp [hQ])]
      rfl
  cases c with
  | perm s => exact key _ v e
  | cycle a b => exact key _ v e
  | cycleInv a b => exact key _ v e
  | swap a b => exact key _ v e

/-- a sequence of calls is a word -/
theorem run_vec (hn : 1 ≤ n) (hodd : Odd' F.d) {v : SnVec} (hv : SnVec.Ok n v) {cs : List ActCall} {σs : List (Equiv.Perm (Fin n))}
    (hm : List.Forall₂ (ActCall.Means n) cs σs) : ∃ w, WordOk n (cs.map (ActCall.cost n)).sum w ∧ FreeMonoid.lift (adj n) w = σs.reverse.prod ∧
      ∀ w0, ActCall.run F cs (fvec F v w0) = some (fvec F v (w * w0)) := by
  induction hm with
  | nil => exact ⟨1, WordOk.one n, by simp, fun w0 => by rw [one_mul]; rfl⟩
  | cons h _ ih =>
    obtain ⟨w, h1, h2, h3⟩ := ih
    obtain ⟨w', k1, k2, k3⟩ := actCall_word h
    refine ⟨w * w', by rw [List.map_cons, List.sum_cons, Nat.add_comm]; exact h1.mul k1, ?_, fun w0 => ?_⟩
    · rw [map_mul, h2, k2]; simp
    · rw [ActCall.run, exec_vec hn hodd hv k3, Option.bind_some, h3, mul_assoc]

theorem sameEntries_eq (hn : 1 ≤ n) {v v' : SnVec} (hv : SnVec.Ok n v) (h : SameEntries F v v') : v' = fvec F v 1 := by
  have hv' : ∀ P ∈ v, mkIrrep P.irrep.lambda = some P.irrep := fun P hP => (hv.part P hP).2.1
  clear hv
  induction h with
  | nil => rfl
  | @cons P P' v v' h1 _ ih =>
    unfold fvec
    rw [List.map_cons]
    obtain ⟨e1, e2, e3, e4⟩ := h1
    rw [F.mkIrrep_map, hv' P (by simp), Option.map_some, Option.some.injEq] at e1
    congr 1
    · cases P'
      simp only at e1 e2 e3 e4
      subst e1 e2 e3 e4
      rfl
    · exact ih fun Q hQ => hv' Q (by simp [hQ])

end

end Snob
