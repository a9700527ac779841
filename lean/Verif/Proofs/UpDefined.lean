import Verif.Proofs.LetterProg
import Verif.Proofs.SnVecB
import Verif.Proofs.CGStep

/-! # When `up` is defined (C138) -/

namespace Snob

open SnVec Props

variable {n : Nat}

/-- what follows when the inner loop of `up` comes to its end -/
theorem upInner_conv (hn : 1 ≤ n) {v : SnVec} (hv : Ok n v) {x : List Nat} {m : Nat} {S : List (List Nat)} (hnd : S.Nodup)
    (hS : ∀ mu ∈ S, IsPartition n mu) : ∀ {D : Nat → Nat → ℝ} {voffs : Nat} {O : List Nat → Nat} {s : VPart × List Nat},
    upInner v m S (mkP x m D) voffs ((vkeys v).map O) = some s → (∃ D', s.1 = mkP x m D') ∧
      s.2 = (vkeys v).map (fun mu => O mu + if mu ∈ S then m else 0) ∧
      ∀ mu ∈ S, mu ∈ vkeys v ∧ (0 < m → O mu + m ≤ (partAt v mu).m) := by
  induction S with
  | nil =>
    intro D voffs O s h
    simp only [upInner, Option.some.injEq] at h
    rw [← h]
    exact ⟨⟨D, rfl⟩, by simp, by simp⟩
  | cons mu S ih =>
    intro D voffs O s h
    rw [upInner] at h
    obtain ⟨ix, h1, h⟩ := Option.bind_eq_some_iff.1 h
    obtain ⟨P, h2, h⟩ := Option.bind_eq_some_iff.1 h
    obtain ⟨o, h3, h⟩ := Option.bind_eq_some_iff.1 h
    obtain ⟨T, h4, h⟩ := Option.bind_eq_some_iff.1 h
    have hmu : mu ∈ vkeys v := by
      unfold SnVec.index at h1
      obtain ⟨hlt, q, -⟩ := List.findIdx?_eq_some_iff_getElem.1 h1
      rw [← IsPartition.ext (hv.part _ (List.getElem_mem hlt)).1 (hS mu (by simp)) ((eqb_iff _ _).1 q)]
      exact List.mem_map_of_mem (List.getElem_mem hlt)
    obtain ⟨k, a1, a2, a3, a4, a5⟩ := index_partAt hv hmu
    obtain rfl := Option.some.inj (h1.symm.trans a1)
    obtain rfl := Option.some.inj (h2.symm.trans a2)
    have ho : o = O mu := by
      have : ((vkeys v).map O)[ix]? = some (O mu) := by rw [List.getElem?_map]; exact congrArg (Option.map O) a3
      exact Option.some.inj (h3.symm.trans this)
    subst ho
    rw [VPart.addToBlockBlock_eq] at h4
    split at h4
    case isFalse => simp at h4
    rename_i hb
    rw [Option.some.injEq] at h4
    have hset : ((vkeys v).map O).set ix (O mu + m) = (vkeys v).map fun z => if z = mu then O mu + m else O z := set_map hv.nodup a3 O _
    rw [hset, ← h4] at h
    obtain ⟨c1, c2, c3⟩ := ih (List.nodup_cons.1 hnd).2 (fun z hz => hS z (by simp [hz])) (D := fun i j => D i j + _) h
    refine ⟨c1, ?_, ?_⟩
    · rw [c2]
      refine List.map_congr_left fun z _ => ?_
      by_cases hz : z = mu
      · subst hz
        simp [(List.nodup_cons.1 hnd).1]
      · simp [hz]
    · intro z hz
      rcases List.mem_cons.1 hz with rfl | hz'
      · refine ⟨hmu, fun hm => ?_⟩
        have hd : 0 < (partAt v z).d := by
          rw [partAt_d hv hmu]
          exact dimOf_pos hn (hS z (by simp))
        have := (hb 0 hd (m - 1) (by omega)).1.2
        omega
      · obtain ⟨d1, d2⟩ := c3 z hz'
        have hne : z ≠ mu := fun e => (List.nodup_cons.1 hnd).1 (e ▸ hz')
        rw [if_neg hne] at d2
        exact ⟨d1, d2⟩

/-- and when the outer loop does -/
theorem upLoop_conv (hn : 1 ≤ n) {v : SnVec} (hv : Ok n v) {L : List (List Nat)} (hL : ∀ x ∈ L, IsPartition (n + 1) x) (hnd : L.Nodup)
    (M : List Nat → Nat) (N : List Nat → Int) {L2 : List (List Nat)} (h2 : ∀ x ∈ L2, x ∈ L) : ∀ {D : List Nat → Nat → Nat → ℝ}
    {O : List Nat → Nat} {R : SnVec}, SnVec.upLoop v (L2.map fun x => (x, N x)) (L.map fun x => mkP x (M x) (D x)) ((vkeys v).map O) = some R →
      (∀ x ∈ L2, ∀ mu ∈ subs x, mu ∈ vkeys v) ∧ ∀ mu ∈ vkeys v, O mu ≤ (partAt v mu).m → O mu + usedBy M L2 mu ≤ (partAt v mu).m := by
  induction L2 with
  | nil => intro D O R h; simp [usedBy]
  | cons x L2 ih =>
    intro D O R h
    have hx := h2 x (by simp)
    obtain ⟨k, a1, a2⟩ := index_map (by omega) hL M D hx
    rw [List.map_cons, SnVec.upLoop] at h
    obtain ⟨k', b1, h⟩ := Option.bind_eq_some_iff.1 h
    obtain rfl := Option.some.inj (b1.symm.trans a1)
    obtain ⟨dest, b2, h⟩ := Option.bind_eq_some_iff.1 h
    have hdest : dest = mkP x (M x) (D x) := by
      rw [List.getElem?_map, a2] at b2
      exact (Option.some.inj b2).symm
    subst hdest
    obtain ⟨l, b3, h⟩ := Option.bind_eq_some_iff.1 h
    obtain rfl := Option.some.inj (b3.symm.trans (parents_eq (hL x hx) (by omega)))
    obtain ⟨⟨d', o'⟩, b4, h⟩ := Option.bind_eq_some_iff.1 h
    obtain ⟨⟨D', c1⟩, c2, c3⟩ := upInner_conv hn hv (subs_nodup x) (fun mu hmu => ((mem_subs (hL x hx) mu).1 hmu).1) b4
    have em : (mkP x (M x) (D x)).m = M x := rfl
    simp only [em] at c1 c2 c3 h
    rw [c1, c2, set_map hnd a2] at h
    have e : (L.map fun z => if z = x then mkP x (M x) D' else mkP z (M z) (D z)) =
        L.map fun z => mkP z (M z) ((fun z => if z = x then D' else D z) z) := by
      refine List.map_congr_left fun z _ => ?_
      by_cases hz : z = x
      · subst hz; simp
      · simp [hz]
    rw [e] at h
    obtain ⟨e1, e2⟩ := ih (fun z hz => h2 z (by simp [hz])) h
    refine ⟨?_, ?_⟩
    · intro z hz mu hmu
      rcases List.mem_cons.1 hz with rfl | hz
      · exact (c3 mu hmu).1
      · exact e1 z hz mu hmu
    · intro mu hmu hle
      have := e2 mu hmu
      simp only [usedBy, List.map_cons, List.sum_cons] at this ⊢
      by_cases hs : mu ∈ subs x
      · have q := (c3 mu hs).2
        rw [if_pos hs] at this ⊢
        rcases Nat.eq_zero_or_pos (M x) with h0 | h0
        · have := this (by omega)
          omega
        · have := this (q h0)
          omega
      · rw [if_neg hs] at this ⊢
        have := this (by omega)
        omega

/-- a type with a negative multiplicity has no vector -/
theorem zero_nonneg {tau : SnType} {R : SnVec} (h : SnVec.zero tau = some R) : ∀ e ∈ tau, 0 ≤ e.2 := by
  intro e he
  unfold SnVec.zero at h
  obtain ⟨i, hi, rfl⟩ := List.mem_iff_getElem.1 he
  have h' := (mapM_some_iff _ _ _).1 h
  obtain ⟨P, -, hP⟩ := h'.2 i _ (List.getElem?_eq_getElem hi)
  unfold VPart.zero at hP
  obtain ⟨I, -, hP⟩ := Option.bind_eq_some_iff.1 hP
  split at hP
  · assumption
  · simp at hP

/-- `up` is defined exactly for types without negative multiplicities and vectors with enough columns -/
theorem up_defined_iff (hn : 1 ≤ n) {v : SnVec} (hv : Ok n v) {tau : SnType} (ht : TypeOk (n + 1) tau) :
    (∃ R, SnVec.up tau v = some R) ↔ (∀ x ∈ parts tau, 0 ≤ mult tau x) ∧ v.Covers tau := by
  constructor
  · rintro ⟨R, h⟩
    unfold SnVec.up at h
    obtain ⟨Z, hz, h⟩ := Option.bind_eq_some_iff.1 h
    have hm : ∀ x ∈ parts tau, 0 ≤ mult tau x := by
      intro x hx
      have h0 := zero_nonneg hz
      rw [ht.eq_map] at h0
      exact h0 _ (List.mem_map_of_mem hx)
    obtain rfl := Option.some.inj (hz.symm.trans (vecZero_eq (by omega) ht hm))
    have hr : List.replicate v.length 0 = (vkeys v).map fun _ => 0 := by
      unfold vkeys
      rw [List.map_map]; symm; rw [List.eq_replicate_iff]; simp
    rw [hr] at h
    have he := ht.eq_map
    have h' : SnVec.upLoop v ((parts tau).map fun x => (x, mult tau x)) ((parts tau).map fun x => mkP x (mult tau x).toNat fun _ _ => 0)
        ((vkeys v).map fun _ => 0) = some R := by rw [← he]; exact h
    obtain ⟨c1, c2⟩ := upLoop_conv hn hv ht.all ht.nodup (fun x => (mult tau x).toNat) (mult tau) (fun _ hx => hx)
      (D := fun _ _ _ => 0) h'
    obtain ⟨D, a1, a2, a3, a4, -⟩ := down_ok ht
    refine ⟨hm, D, a1, fun mu hmu => ?_⟩
    obtain ⟨x, hx, hs⟩ := (a3 mu).1 hmu
    have hk := c1 x hx mu hs
    refine ⟨by unfold obs; rw [List.map_map]; exact hk, ?_⟩
    have := c2 mu hk (Nat.zero_le _)
    rw [a4, ← usedBy_typeSum ht hm, colsAt_eq hv, ← partAt_cols hv hk]
    simpa [VPart.cols] using this
  · rintro ⟨hm, hc⟩
    obtain ⟨R, h, -⟩ := covers_ok hn hv ht hm hc
    exact ⟨R, h⟩

end Snob
