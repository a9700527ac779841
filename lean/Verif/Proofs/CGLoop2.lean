import Verif.Proofs.CGLoop

/-! # The loops of `learn`: alignment of the blocks -/

namespace Snob

open IP Matrix

section
variable {eig : Eig} {n : Nat} {Φ : Coef} {a b : List Nat} {L : List (List Nat)} {lam mu : List Nat} {s : Slot ((irrOf a).d * (irrOf b).d)}

theorem CGSlotOk.dmu (hs : CGSlotOk eig n Φ a b L mu s) : s.dmu = dimOf mu := by
  obtain ⟨ev, F, rfl, -⟩ := hs
  rfl

theorem SlotMid.dmu (hs : SlotMid eig n Φ a b L lam mu s) : s.dmu = dimOf mu := by
  obtain ⟨ev, F, rfl, -⟩ := hs
  rfl

theorem SlotMid.align (hn : 1 ≤ n) (hl : IsPartition (n + 1) lam) (hlL : lam ∉ L) (hmu : mu ∈ subs lam)
    (hk : used n a b (L ++ [lam]) mu ≤ kmul n a b mu) (hne : mu ≠ mu0 lam) (hm : 0 < kronN (n + 1) a b lam)
    (hs : SlotMid eig n Φ a b L lam mu s) :
    ∃ s', alignBlock (n + 1) (irrOf lam) (offOf (subs lam) mu) (Tm eig n Φ a b lam) s = some s' ∧ CGSlotOk eig n Φ a b (L ++ [lam]) mu s' := by
  have hs0 := hs
  have hlt : offOf (subs lam) mu < (irrOf lam).d := offOf_lt hn hl hmu
  have h0 : 0 < (irrOf lam).d := by omega
  have hA : ∀ c : Fin (kronN (n + 1) a b lam), mulMid (((irrOf_spec (by omega) hl).2.2.2).rep (adj (n + 1) (n - 1)))
      (fun _ i _ => if (i : Nat) = 0 then 1 else 0 : View3 1 (irrOf lam).d (kronN (n + 1) a b lam)) 0 ⟨offOf (subs lam) mu, hlt⟩ c = Am n lam mu := by
    intro c
    unfold mulMid Am
    rw [Finset.sum_eq_single (⟨0, h0⟩ : Fin (irrOf lam).d)]
    · simp only [if_true, mul_one]
      exact ((evalN_spec (by omega) hl _).2 _ _).symm
    · intro j _ hj
      have : ¬ (j : Nat) = 0 := fun h => hj (Fin.ext h)
      simp only [if_neg this, mul_zero]
    · intro h; exact absurd (Finset.mem_univ _) h
  by_cases hc : |Am n lam mu| > 0.0001
  · obtain ⟨ev, F, e1, hok⟩ := hs.set hmu hlL hk
    obtain ⟨ev', F', e2, hbl⟩ := hs.block hk hmu
    rw [e1] at e2
    simp only [Slot.mk.injEq, heq_eq_eq, true_and, and_true] at e2
    obtain ⟨rfl, rfl⟩ := e2
    subst e1
    refine ⟨_, ?_, hok⟩
    unfold alignBlock
    rw [mid_last hn hl]
    simp only [Option.bind_eq_bind, Option.bind_some]
    rw [dif_pos ⟨hlt, hm⟩, hA, if_pos hc, hbl]
    congr 2
    unfold Fm Gm
    rw [if_neg hne, if_pos hc]
    rfl
  · refine ⟨s, ?_, hs0.done hmu hlL (by unfold Gm; rw [if_neg hne, if_neg hc])⟩
    unfold alignBlock
    rw [mid_last hn hl]
    simp only [Option.bind_eq_bind, Option.bind_some]
    rw [dif_pos ⟨hlt, hm⟩, hA, if_neg hc]

/-- the slots when the constituents in `L` are done, and `lam` is for the partitions in `S` -/
def St (eig : Eig) (n : Nat) (Φ : Coef) (a b : List Nat) (D : List (List Nat)) (L : List (List Nat)) (lam : List Nat) (S : List (List Nat))
    (sl : Slots ((irrOf a).d * (irrOf b).d)) : Prop :=
  ∀ mu ∈ D, ∃ s, sl mu = some s ∧ (mu ∈ S → CGSlotOk eig n Φ a b (L ++ [lam]) mu s) ∧ (mu ∉ S → CGSlotOk eig n Φ a b L mu s)

theorem St.update {D S : List (List Nat)} {sl : Slots ((irrOf a).d * (irrOf b).d)} (hst : St eig n Φ a b D L lam S sl)
    (hs : CGSlotOk eig n Φ a b (L ++ [lam]) mu s) : St eig n Φ a b D L lam (S ++ [mu]) (Function.update sl mu (some s)) := by
  intro nu hnu
  by_cases h : nu = mu
  · subst h
    exact ⟨s, by rw [Function.update_self], fun _ => hs, fun h => absurd (by simp) h⟩
  · obtain ⟨s', e, h1, h2⟩ := hst nu hnu
    refine ⟨s', by rw [Function.update_of_ne h]; exact e, fun h' => h1 ?_, fun h' => h2 ?_⟩
    · rcases List.mem_append.1 h' with h' | h'
      · exact h'
      · exact absurd (List.mem_singleton.1 h') h
    · exact fun h3 => h' (by simp [h3])

theorem subLoop_tail (h : Inv n Φ) (he : EigOk eig) (hn : 1 ≤ n) (hN : n < 1234567) (ha : IsPartition (n + 1) a) (hb : IsPartition (n + 1) b)
    (hL : ∀ x ∈ L, IsPartition (n + 1) x) (hl : IsPartition (n + 1) lam) (hlL : lam ∉ L) (hm : 0 < kronN (n + 1) a b lam)
    (hk : ∀ mu ∈ subs lam, used n a b (L ++ [lam]) mu ≤ kmul n a b mu) {D : List (List Nat)} (hD : ∀ mu ∈ subs lam, mu ∈ D) {jm : List ℝ}
    (hjm : ∀ mu ∈ subs lam, jm[offOf (subs lam) mu]? = some (topc lam mu : ℝ)) (S1 S2 : List (List Nat)) (hS : subs lam = S1 ++ S2) (h1 : S1 ≠ [])
    (sl : Slots ((irrOf a).d * (irrOf b).d)) (hst : St eig n Φ a b D L lam S1 sl) :
    ∃ sl', subLoop ⟨irrOf a, irrOf b⟩ (n + 1) (irrOf lam) jm (kronN (n + 1) a b lam) S2 sl (S1.map dimOf).sum (some (Tm eig n Φ a b lam)) = some sl' ∧
      St eig n Φ a b D L lam (subs lam) sl' := by
  induction S2 generalizing S1 sl with
  | nil =>
    rw [List.append_nil] at hS
    exact ⟨sl, rfl, by rw [hS]; exact hst⟩
  | cons mu S2 ih =>
    have hmu : mu ∈ subs lam := by rw [hS]; simp
    have hnd := subs_nodup lam
    rw [hS] at hnd
    have hmu1 : mu ∉ S1 := fun h' => (List.nodup_append.1 hnd).2.2 mu h' mu (by simp) rfl
    have hoff : (S1.map dimOf).sum = offOf (subs lam) mu := by
      unfold offOf
      rw [hS, takeWhile_split hmu1]
    have hne : mu ≠ mu0 lam := by
      rintro rfl
      apply hmu1
      unfold mu0
      rw [hS]
      cases S1 with
      | nil => exact absurd rfl h1
      | cons y S1 => simp
    obtain ⟨s, e, -, hs⟩ := hst mu (hD mu hmu)
    obtain ⟨s1, e1, hs1⟩ := (hs hmu1).pick h he hn hN ha hb hL hl hlL hmu (hk mu hmu)
    obtain ⟨s2, e2, hs2⟩ := hs1.align hn hl hlL hmu (hk mu hmu) hne hm
    obtain ⟨sl', e3, hst'⟩ := ih (S1 ++ [mu]) (by rw [hS]; simp) (by simp) _ (hst.update hs2)
    refine ⟨sl', ?_, hst'⟩
    unfold subLoop
    rw [hoff, hjm mu hmu]
    simp only [Option.bind_eq_bind, Option.bind_some]
    rw [e]
    simp only [Option.bind_some]
    rw [e1]
    simp only [Option.bind_some]
    rw [e2]
    simp only [Option.bind_some]
    rw [← e3, hs2.dmu, ← hoff]
    simp

theorem subLoop_ok (h : Inv n Φ) (he : EigOk eig) (hn : 1 ≤ n) (hN : n < 1234567) (ha : IsPartition (n + 1) a) (hb : IsPartition (n + 1) b)
    (hL : ∀ x ∈ L, IsPartition (n + 1) x) (hl : IsPartition (n + 1) lam) (hlL : lam ∉ L) (hm : 0 < kronN (n + 1) a b lam)
    (hk : ∀ mu ∈ subs lam, used n a b (L ++ [lam]) mu ≤ kmul n a b mu) {D : List (List Nat)} (hD : ∀ mu ∈ subs lam, mu ∈ D) {jm : List ℝ}
    (hjm : ∀ mu ∈ subs lam, jm[offOf (subs lam) mu]? = some (topc lam mu : ℝ))
    (sl : Slots ((irrOf a).d * (irrOf b).d)) (hst : ∀ mu ∈ D, ∃ s, sl mu = some s ∧ CGSlotOk eig n Φ a b L mu s) :
    ∃ sl', subLoop ⟨irrOf a, irrOf b⟩ (n + 1) (irrOf lam) jm (kronN (n + 1) a b lam) (subs lam) sl 0 none = some sl' ∧
      ∀ mu ∈ D, ∃ s, sl' mu = some s ∧ CGSlotOk eig n Φ a b (L ++ [lam]) mu s := by
  have h0 := mu0_mem hn hl
  obtain ⟨S2, hS⟩ : ∃ S2, subs lam = mu0 lam :: S2 := by
    unfold mu0 at h0 ⊢
    cases hS : subs lam with
    | nil => rw [hS] at h0; simp at h0
    | cons x S => exact ⟨S, rfl⟩
  obtain ⟨s, e, hs⟩ := hst _ (hD _ h0)
  obtain ⟨s1, e1, hs1⟩ := hs.pick h he hn hN ha hb hL hl hlL h0 (hk _ h0)
  have hs2 := hs1.done h0 hlL (by unfold Gm; rw [if_pos rfl])
  have hst0 : St eig n Φ a b D L lam [] sl := fun mu hmu => by
    obtain ⟨s, e, hs⟩ := hst mu hmu
    exact ⟨s, e, fun h => absurd h (by simp), fun _ => hs⟩
  obtain ⟨sl', e3, hst'⟩ := subLoop_tail h he hn hN ha hb hL hl hlL hm hk hD hjm [mu0 lam] S2 hS (by simp) _ (hst0.update hs2)
  refine ⟨sl', ?_, fun mu hmu => ?_⟩
  · obtain ⟨ev, F, e4, hbl⟩ := hs1.block (hk _ h0) h0
    subst e4
    have hd := hjm _ h0
    rw [mu0_off h0] at hd
    rw [hS]
    unfold subLoop
    rw [hd]
    simp only [Option.bind_eq_bind, Option.bind_some]
    rw [e]
    simp only [Option.bind_some]
    rw [e1]
    simp only [Option.bind_some]
    rw [hbl, tau_last hn ha hb]
    simp only [Option.bind_some]
    rw [← e3]
    have : (0 : Nat) + dimOf (mu0 lam) = (([mu0 lam] : List (List Nat)).map dimOf).sum := by simp
    rw [← this]
    rfl
  · obtain ⟨s, e, h1, h2⟩ := hst' mu hmu
    by_cases hmem : mu ∈ subs lam
    · exact ⟨s, e, h1 hmem⟩
    · exact ⟨s, e, (h2 hmem).skip hmem⟩

theorem tauLoop_ok (h : Inv n Φ) (he : EigOk eig) (hn : 1 ≤ n) (hN : n < 1234567) (ha : IsPartition (n + 1) a) (hb : IsPartition (n + 1) b)
    {D : List (List Nat)} (L2 : List (List Nat)) (L : List (List Nat)) (hL : ∀ x ∈ L ++ L2, IsPartition (n + 1) x) (hnd : (L ++ L2).Nodup)
    (hm : ∀ x ∈ L2, 0 < kronN (n + 1) a b x) (hk : ∀ mu, used n a b (L ++ L2) mu ≤ kmul n a b mu) (hD : ∀ x ∈ L2, ∀ mu ∈ subs x, mu ∈ D)
    (sl : Slots ((irrOf a).d * (irrOf b).d)) (hst : ∀ mu ∈ D, ∃ s, sl mu = some s ∧ CGSlotOk eig n Φ a b L mu s) :
    ∃ sl', tauLoop ⟨irrOf a, irrOf b⟩ (n + 1) (L2.map fun x => (x, (kronN (n + 1) a b x : Int))) sl = some sl' ∧
      ∀ mu ∈ D, ∃ s, sl' mu = some s ∧ CGSlotOk eig n Φ a b (L ++ L2) mu s := by
  induction L2 generalizing L sl with
  | nil => exact ⟨sl, rfl, by rw [List.append_nil]; exact hst⟩
  | cons lam L2 ih =>
    have hl : IsPartition (n + 1) lam := hL lam (by simp)
    have hlL : lam ∉ L := fun h' => (List.nodup_append.1 hnd).2.2 lam h' lam (by simp) rfl
    have e : L ++ lam :: L2 = (L ++ [lam]) ++ L2 := by simp
    obtain ⟨jm, ej, hjm⟩ := jm_list hn hl
    obtain ⟨sl1, e1, hs1⟩ := subLoop_ok h he hn hN ha hb (fun x hx => hL x (by simp [hx])) hl hlL (hm lam (by simp)) (fun mu _ => by
      refine le_trans ?_ (hk mu)
      rw [e]
      unfold used
      rw [usedBy_append _ (L ++ [lam])]
      omega) (hD lam (by simp)) hjm sl hst
    obtain ⟨sl2, e2, hs2⟩ := ih (L ++ [lam]) (by rw [← e]; exact hL) (by rw [← e]; exact hnd) (fun x hx => hm x (by simp [hx]))
      (by rw [← e]; exact hk) (fun x hx => hD x (by simp [hx])) sl1 hs1
    refine ⟨sl2, ?_, by rw [e]; exact hs2⟩
    rw [List.map_cons]
    unfold tauLoop
    rw [(irrOf_spec (by omega) hl).1]
    simp only [Option.bind_eq_bind, Option.bind_some]
    rw [ej]
    simp only [Option.bind_some]
    rw [parents_eq hl (by omega)]
    simp only [Option.bind_some]
    rw [Int.toNat_natCast, e1]
    exact e2

end

end Snob
