import Verif.Proofs.CGStep
import Verif.Proofs.SnVecAcc
import Verif.Proofs.ProductRep

/-! # The loops of `learn` -/

namespace Snob

open IP Matrix

/-! ## The eigenvectors are picked -/

theorem search_eq {d : Nat} (s : Slot d) (target : ℝ) :
    s.search target = ((List.finRange s.k).filter fun i => decide (¬ |s.evals i - target| > 0.001)).head? := by
  unfold Slot.search
  rw [List.head?_filter]

theorem filter_mark {k : Nat} {ev : Fin k → ℝ} {target : ℝ} (ht : |1234567 - target| > 0.001) {i : Fin k} {J : List (Fin k)}
    (hJ : ((List.finRange k).filter fun i => decide (¬ |ev i - target| > 0.001)) = i :: J) :
    ((List.finRange k).filter fun l => decide (¬ |Function.update ev i 1234567 l - target| > 0.001)) = J := by
  have hnd : (i :: J).Nodup := by rw [← hJ]; exact (List.nodup_finRange k).filter _
  obtain ⟨hi, -⟩ := List.nodup_cons.1 hnd
  have e : (fun l => decide (¬ |Function.update ev i 1234567 l - target| > 0.001)) =
      fun l => decide (l ≠ i) && decide (¬ |ev l - target| > 0.001) := by
    funext l
    by_cases h : l = i
    · subst h
      simp only [Function.update_self]
      simp [ht]
    · simp [Function.update_of_ne h, h]
  rw [e, ← List.filter_filter, hJ, List.filter_cons, if_neg (by simp), List.filter_eq_self]
  intro l hl
  simp only [ne_eq, decide_eq_true_eq]
  rintro rfl
  exact hi hl

theorem pick_ok {d dmu k : Nat} {V : Matrix (Fin d) (Fin k) ℝ} {U : Matrix (Fin k) (Fin k) ℝ} {target : ℝ}
    (ht : |1234567 - target| > 0.001) (J : List (Fin k)) (ev : Fin k → ℝ) (F : Matrix (Fin k) (Fin k) ℝ) (t : Nat)
    (hJ : ((List.finRange k).filter fun i => decide (¬ |ev i - target| > 0.001)) = J) (hk : t + J.length ≤ k) :
    ∃ ev' F', Slot.pick target J.length (⟨dmu, k, V, U, ev, F, t⟩ : Slot d) = some ⟨dmu, k, V, U, ev', F', t + J.length⟩ ∧
      (∀ i, (i ∉ J ∧ ev' i = ev i) ∨ (i ∈ J ∧ ev' i = 1234567)) ∧
      (∀ (c : Nat) (hc : c < J.length) (x : Fin k), (x : Nat) = t + c → ∀ j, F' j x = U j J[c]) ∧
      ∀ x : Fin k, (x : Nat) < t → ∀ j, F' j x = F j x := by
  induction J generalizing ev F t with
  | nil => exact ⟨ev, F, rfl, fun i => Or.inl ⟨by simp, rfl⟩, fun c hc => absurd hc (by simp), fun _ _ _ => rfl⟩
  | cons i J ih =>
    rw [List.length_cons] at hk
    obtain ⟨ev', F', h1, h2, h3, h4⟩ := ih (Function.update ev i 1234567) (fun j c => if (c : Nat) = t then U j i else F j c) (t + 1)
      (filter_mark ht hJ) (by omega)
    refine ⟨ev', F', ?_, ?_, ?_, ?_⟩
    · rw [List.length_cons, Slot.pick, search_eq]
      simp only [hJ, List.head?_cons, Option.bind_eq_bind, Option.bind_some]
      rw [if_pos (by omega), h1]
      congr 2
      omega
    · intro l
      rcases h2 l with ⟨a1, a2⟩ | ⟨a1, a2⟩
      · by_cases hl : l = i
        · subst hl
          exact Or.inr ⟨by simp, by rw [a2, Function.update_self]⟩
        · exact Or.inl ⟨by simp [hl, a1], by rw [a2, Function.update_of_ne hl]⟩
      · exact Or.inr ⟨by simp [a1], a2⟩
    · intro c hc x hx j
      cases c with
      | zero =>
        rw [h4 x (by omega) j, if_pos (by omega)]
        rfl
      | succ c =>
        rw [h3 c (by simpa using hc) x (by omega) j]
        rfl
    · intro x hx j
      rw [h4 x (by omega) j, if_neg (by omega)]

/-! ## The state of a slot -/

/-- the columns used for a list of constituents -/
noncomputable abbrev used (n : Nat) (a b : List Nat) (L : List (List Nat)) (mu : List Nat) : Nat := usedBy (kronN (n + 1) a b) L mu

/-- the slot of `mu` when the constituents in `L` are done -/
def CGSlotOk (eig : Eig) (n : Nat) (Φ : Coef) (a b : List Nat) (L : List (List Nat)) (mu : List Nat) (s : Slot ((irrOf a).d * (irrOf b).d)) : Prop :=
  ∃ ev F, s = ⟨dimOf mu, kmul n a b mu, Vm n Φ a b mu, Um eig n Φ a b mu, ev, F, used n a b L mu⟩ ∧
    (∀ i, ev i = Dm eig n Φ a b mu i ∨ (ev i = 1234567 ∧ ∃ x ∈ L, mu ∈ subs x ∧ i ∈ Jm eig n Φ a b x mu)) ∧
    ∀ x ∈ L, mu ∈ subs x → ∀ (c : Fin (kronN (n + 1) a b x)) (y : Fin (kmul n a b mu)),
      (y : Nat) = used n a b (L.takeWhile fun z => decide (z ≠ x)) mu + c → ∀ j, F j y = Fm eig n Φ a b x mu j c

theorem used_snoc {n : Nat} {a b : List Nat} (L : List (List Nat)) {lam mu : List Nat} :
    used n a b (L ++ [lam]) mu = used n a b L mu + if mu ∈ subs lam then kronN (n + 1) a b lam else 0 := by
  unfold used
  rw [usedBy_append]
  simp [usedBy]

theorem takeWhile_snoc {L : List (List Nat)} {lam x : List Nat} (h : x ∈ L) :
    (L ++ [lam]).takeWhile (fun z => decide (z ≠ x)) = L.takeWhile fun z => decide (z ≠ x) := by
  obtain ⟨L1, L2, rfl⟩ := List.append_of_mem h
  induction L1 with
  | nil => simp
  | cons y L1 ih =>
    rw [List.cons_append, List.cons_append, List.takeWhile_cons, List.takeWhile_cons, ih (by simp)]

section
variable {eig : Eig} {n : Nat} {Φ : Coef} {a b : List Nat} {L : List (List Nat)} {lam mu : List Nat} {s : Slot ((irrOf a).d * (irrOf b).d)}

theorem CGSlotOk.skip (hs : CGSlotOk eig n Φ a b L mu s) (hmu : mu ∉ subs lam) : CGSlotOk eig n Φ a b (L ++ [lam]) mu s := by
  obtain ⟨ev, F, rfl, h1, h2⟩ := hs
  refine ⟨ev, F, ?_, ?_, ?_⟩
  · rw [used_snoc, if_neg hmu, add_zero]
  · intro i
    rcases h1 i with h | ⟨h, x, hx, hx'⟩
    · exact Or.inl h
    · exact Or.inr ⟨h, x, by simp [hx], hx'⟩
  · intro x hx hx' c y hy j
    rcases List.mem_append.1 hx with hx | hx
    · rw [takeWhile_snoc hx] at hy
      exact h2 x hx hx' c y hy j
    · rw [List.mem_singleton] at hx
      subst hx
      exact absurd hx' hmu

/-- the slot of `mu` when the eigenvectors for `lam` have been picked -/
def SlotMid (eig : Eig) (n : Nat) (Φ : Coef) (a b : List Nat) (L : List (List Nat)) (lam mu : List Nat)
    (s : Slot ((irrOf a).d * (irrOf b).d)) : Prop :=
  ∃ ev F, s = ⟨dimOf mu, kmul n a b mu, Vm n Φ a b mu, Um eig n Φ a b mu, ev, F, used n a b L mu + kronN (n + 1) a b lam⟩ ∧
    (∀ i, ev i = Dm eig n Φ a b mu i ∨ (ev i = 1234567 ∧ ∃ x ∈ L ++ [lam], mu ∈ subs x ∧ i ∈ Jm eig n Φ a b x mu)) ∧
    (∀ x ∈ L, mu ∈ subs x → ∀ (c : Fin (kronN (n + 1) a b x)) (y : Fin (kmul n a b mu)),
      (y : Nat) = used n a b (L.takeWhile fun z => decide (z ≠ x)) mu + c → ∀ j, F j y = Fm eig n Φ a b x mu j c) ∧
    ∀ (c : Fin (kronN (n + 1) a b lam)) (y : Fin (kmul n a b mu)), (y : Nat) = used n a b L mu + c → ∀ j, F j y = Sm eig n Φ a b lam mu j c

theorem used_take {x : List Nat} (hx : x ∈ L) (hx' : mu ∈ subs x) :
    used n a b (L.takeWhile fun z => decide (z ≠ x)) mu + kronN (n + 1) a b x ≤ used n a b L mu := by
  obtain ⟨L1, L2, e⟩ := List.append_of_mem hx
  have : ∀ L1 : List (List Nat), used n a b ((L1 ++ x :: L2).takeWhile fun z => decide (z ≠ x)) mu + kronN (n + 1) a b x ≤ used n a b (L1 ++ x :: L2) mu := by
    intro L1
    induction L1 with
    | nil => simp [used, usedBy, hx']
    | cons y L1 ih =>
      rw [List.cons_append, List.takeWhile_cons]
      split_ifs with h
      · unfold used usedBy at ih ⊢
        rw [List.map_cons, List.sum_cons, List.map_cons, List.sum_cons]
        omega
      · simp only [ne_eq, decide_not, Bool.not_eq_true, Bool.not_eq_false', decide_eq_true_eq] at h
        subst h
        unfold used usedBy
        rw [List.map_cons, List.sum_cons, if_pos hx']
        simp
  rw [e]
  exact this L1

theorem CGSlotOk.pick (h : Inv n Φ) (he : EigOk eig) (hn : 1 ≤ n) (hN : n < 1234567) (ha : IsPartition (n + 1) a) (hb : IsPartition (n + 1) b)
    (hL : ∀ x ∈ L, IsPartition (n + 1) x) (hl : IsPartition (n + 1) lam) (hlL : lam ∉ L) (hmu : mu ∈ subs lam)
    (hk : used n a b (L ++ [lam]) mu ≤ kmul n a b mu) (hs : CGSlotOk eig n Φ a b L mu s) :
    ∃ s', s.pick (topc lam mu) (kronN (n + 1) a b lam) = some s' ∧ SlotMid eig n Φ a b L lam mu s' := by
  have hm := sub_part hl mu hmu
  rw [used_snoc, if_pos hmu] at hk
  obtain ⟨ev, F, rfl, h1, h2⟩ := hs
  have hlen := Jm_length h he hn ha hb hl hmu
  have hJ : ((List.finRange (kmul n a b mu)).filter fun i => decide (¬ |ev i - topc lam mu| > 0.001)) = Jm eig n Φ a b lam mu := by
    unfold Jm
    refine List.filter_congr fun i _ => ?_
    rw [decide_eq_decide]
    rcases h1 i with e | ⟨e, x, hx, hx', hi⟩
    · rw [e]
    · rw [e]
      have hne : ¬ ¬ |Dm eig n Φ a b mu i - (topc lam mu : ℝ)| > 0.001 := by
        rw [near_iff h he hn ha hb hm, (mem_Jm h he hn ha hb hm x i).1 hi]
        intro e'
        refine topc_ne_sup (hL x hx) hl hx' hmu ?_ (by exact_mod_cast e')
        rintro rfl
        exact hlL hx
      refine iff_of_false ?_ hne
      have := (topc_lt hl hmu).2
      have h3 : (topc lam mu : ℝ) ≤ 1234566 := by
        have : topc lam mu ≤ 1234566 := by omega
        exact_mod_cast this
      rw [not_not, gt_iff_lt, lt_abs]
      left
      norm_num
      linarith
  have ht : |1234567 - (topc lam mu : ℝ)| > 0.001 := by
    have := (topc_lt hl hmu).2
    have h3 : (topc lam mu : ℝ) ≤ 1234566 := by
      have : topc lam mu ≤ 1234566 := by omega
      exact_mod_cast this
    rw [gt_iff_lt, lt_abs]
    left
    norm_num
    linarith
  obtain ⟨ev', F', g1, g2, g3, g4⟩ := pick_ok (dmu := dimOf mu) (V := Vm n Φ a b mu) (U := Um eig n Φ a b mu) ht (Jm eig n Φ a b lam mu) ev F
    (used n a b L mu) hJ (by rw [hlen]; exact hk)
  rw [hlen] at g1
  refine ⟨_, g1, ev', F', rfl, ?_, ?_, ?_⟩
  · intro i
    rcases g2 i with ⟨-, e⟩ | ⟨hi, e⟩
    · rw [e]
      rcases h1 i with e | ⟨e, x, hx, hx'⟩
      · exact Or.inl e
      · exact Or.inr ⟨e, x, by simp [hx], hx'⟩
    · exact Or.inr ⟨e, lam, by simp, hmu, hi⟩
  · intro x hx hx' c y hy j
    have := used_take (n := n) (a := a) (b := b) hx hx'
    rw [g4 y (by have := c.2; omega) j, h2 x hx hx' c y hy j]
  · intro c y hy j
    have hc : (c : Nat) < (Jm eig n Φ a b lam mu).length := by rw [hlen]; exact c.2
    rw [g3 c hc y hy j]
    unfold Sm
    rw [dif_pos hc]

theorem SlotMid.block (hk : used n a b (L ++ [lam]) mu ≤ kmul n a b mu) (hmu : mu ∈ subs lam) (hs : SlotMid eig n Φ a b L lam mu s) :
    ∃ ev F, s = ⟨dimOf mu, kmul n a b mu, Vm n Φ a b mu, Um eig n Φ a b mu, ev, F, used n a b L mu + kronN (n + 1) a b lam⟩ ∧
      Slot.block (⟨dimOf mu, kmul n a b mu, Vm n Φ a b mu, Um eig n Φ a b mu, ev, F, used n a b L mu + kronN (n + 1) a b lam⟩ : Slot ((irrOf a).d * (irrOf b).d))
        (kronN (n + 1) a b lam) = Sm eig n Φ a b lam mu := by
  obtain ⟨ev, F, rfl, h1, h2, h3⟩ := hs
  refine ⟨ev, F, rfl, ?_⟩
  rw [used_snoc, if_pos hmu] at hk
  ext j c
  unfold Slot.block
  have hc := c.2
  rw [dif_pos (show used n a b L mu + kronN (n + 1) a b lam - kronN (n + 1) a b lam + c < kmul n a b mu by omega)]
  exact h3 c _ (by simp) j

theorem SlotMid.done (hmu : mu ∈ subs lam) (hlL : lam ∉ L) (hs : SlotMid eig n Φ a b L lam mu s) (hG : Gm eig n Φ a b lam mu = 1) :
    CGSlotOk eig n Φ a b (L ++ [lam]) mu s := by
  obtain ⟨ev, F, rfl, h1, h2, h3⟩ := hs
  refine ⟨ev, F, by rw [used_snoc, if_pos hmu], h1, ?_⟩
  intro x hx hx' c y hy j
  rcases List.mem_append.1 hx with hx | hx
  · rw [takeWhile_snoc hx] at hy
    exact h2 x hx hx' c y hy j
  · rw [List.mem_singleton] at hx
    subst hx
    rw [takeWhile_split hlL] at hy
    rw [h3 c y hy j]
    unfold Fm
    rw [hG, Matrix.mul_one]

theorem SlotMid.set (hmu : mu ∈ subs lam) (hlL : lam ∉ L) (hk : used n a b (L ++ [lam]) mu ≤ kmul n a b mu) (hs : SlotMid eig n Φ a b L lam mu s) :
    ∃ ev F, s = ⟨dimOf mu, kmul n a b mu, Vm n Φ a b mu, Um eig n Φ a b mu, ev, F, used n a b L mu + kronN (n + 1) a b lam⟩ ∧
      CGSlotOk eig n Φ a b (L ++ [lam]) mu (Slot.setBlock
        (⟨dimOf mu, kmul n a b mu, Vm n Φ a b mu, Um eig n Φ a b mu, ev, F, used n a b L mu + kronN (n + 1) a b lam⟩ : Slot ((irrOf a).d * (irrOf b).d))
        (kronN (n + 1) a b lam) (Fm eig n Φ a b lam mu)) := by
  obtain ⟨ev, F, rfl, h1, h2, h3⟩ := hs
  refine ⟨ev, F, rfl, ?_⟩
  unfold CGSlotOk
  rw [used_snoc, if_pos hmu]
  refine ⟨ev, _, rfl, h1, ?_⟩
  intro x hx hx' c y hy j
  have e : used n a b L mu + kronN (n + 1) a b lam - kronN (n + 1) a b lam = used n a b L mu := by omega
  simp only [e]
  rcases List.mem_append.1 hx with hx | hx
  · rw [takeWhile_snoc hx] at hy
    have := used_take (n := n) (a := a) (b := b) hx hx'
    rw [dif_neg (by have := c.2; omega)]
    exact h2 x hx hx' c y hy j
  · rw [List.mem_singleton] at hx
    subst hx
    rw [takeWhile_split hlL] at hy
    have hc := c.2
    rw [dif_pos ⟨by omega, by omega⟩]
    congr 1
    exact Fin.ext (by simp only; omega)

end

/-! ## The matrices used by `learn` -/

theorem adj_last {n : Nat} (hn : 1 ≤ n) : adj (n + 1) (n - 1) = Equiv.swap (⟨n - 1, by omega⟩ : Fin (n + 1)) ⟨n, by omega⟩ := by
  unfold adj
  rw [dif_pos (by omega)]
  congr 1
  exact Fin.ext (by simp only; omega)

theorem mid_last {n : Nat} (hn : 1 ≤ n) {lam : List Nat} (hl : IsPartition (n + 1) lam) {n0 n2 : Nat} (T : View3 n0 (irrOf lam).d n2) :
    (irrOf lam).midTransposition (((n + 1 : Nat) : Int) - 1) ((n + 1 : Nat) : Int) T =
      some (mulMid (((irrOf_spec (by omega) hl).2.2.2).rep (adj (n + 1) (n - 1))) T) := by
  have g := (((irrOf_spec (by omega) hl).2.2.2).genMid (n0 := n0) (n2 := n2)).swap (⟨n - 1, by omega⟩ : Fin (n + 1)) ⟨n, by omega⟩ T
  rw [← adj_last hn] at g
  have e1 : (((n + 1 : Nat) : Int) - 1) = (((⟨n - 1, by omega⟩ : Fin (n + 1)) : Nat) : Int) + 1 := by simp only; omega
  have e2 : ((n + 1 : Nat) : Int) = (((⟨n, by omega⟩ : Fin (n + 1)) : Nat) : Int) + 1 := by simp only; omega
  rw [e1, e2]
  exact g

theorem tau_last {n : Nat} (hn : 1 ≤ n) {a b : List Nat} (ha : IsPartition (n + 1) a) (hb : IsPartition (n + 1) b) {n0 n2 : Nat}
    (T : View3 n0 (ProductRep.d ⟨irrOf a, irrOf b⟩) n2) :
    (ProductRep.mk (irrOf a) (irrOf b)).applyTau (((n + 1 : Nat) : Int) - 1) T = some (mulMid (pm (n + 1) a b (adj (n + 1) (n - 1))) T) := by
  have g := (genProd (P := ⟨irrOf a, irrOf b⟩) (n0 := n0) (n2 := n2) ((irrOf_spec (by omega) ha).2.2.2) ((irrOf_spec (by omega) hb).2.2.2)).gen
    (n - 1) T (by omega)
  rw [prodMat_pm (by omega) ha hb] at g
  have e : (((n + 1 : Nat) : Int) - 1) = ((n - 1 : Nat) : Int) + 1 := by omega
  rw [e]
  exact g

theorem jm_list {n : Nat} (hn : 1 ≤ n) {lam : List Nat} (hl : IsPartition (n + 1) lam) :
    ∃ jm, (irrOf lam).jucysMurphy (IP.getn lam) = some jm ∧ ∀ mu ∈ subs lam, jm[offOf (subs lam) mu]? = some (topc lam mu : ℝ) := by
  have h := (irrOf_spec (by omega) hl).2.2.2
  obtain ⟨M, hM, hM'⟩ := h.jmMatrix_eq (n + 1) (by omega) (le_refl _)
  have hg : IP.getn lam = n + 1 := by rw [getn_eq, hl.sum]
  refine ⟨(List.range (irrOf lam).d).map fun i => M i i, ?_, ?_⟩
  · unfold IrrepObj.jucysMurphy
    rw [hg, hM]
    rfl
  · intro mu hmu
    have hlt : offOf (subs lam) mu < (irrOf lam).d := offOf_lt hn hl hmu
    rw [List.getElem?_map, List.getElem?_range hlt, Option.map_some]
    have e := hM' ⟨_, hlt⟩ ⟨_, hlt⟩
    simp only [Nat.add_sub_cancel] at e
    rw [h.rep_jm n (by omega), if_pos rfl] at e
    have e2 : ct (n + 1) lam (offOf (subs lam) mu) n = topc lam mu := ct_top hn hl hmu (t := 0) (dimOf_pos hn (sub_part hl mu hmu))
    rw [e, ← e2]
    congr 2
    exact (ct_eq (by omega) hl ⟨_, hlt⟩ n).symm

end Snob
