import Verif.Proofs.CGAcc2
import Verif.Props.CG

/-! # Products of vectors: the recursion -/

namespace Snob

open IP Matrix SnVec

theorem part_one : IsPartition 1 [1] := ⟨by simp, by simp, by simp⟩

theorem dimOf_one : dimOf [1] = 1 := by
  rw [dimOf_eq (le_refl 1) part_one]
  rfl

theorem kronN_one : kronN 1 [1] [1] [1] = 1 := by
  rw [kronN_row (le_refl 1) part_one part_one, if_pos rfl]

theorem ct_one : ct 1 [1] 0 0 = 0 := by
  unfold ct; decide

theorem card_XI (a b : List Nat) : Fintype.card (XI a b) = dimOf a * dimOf b := Fintype.card_fin _

theorem inv_one : Inv 1 fun _ _ _ _ _ _ _ => 1 := by
  constructor
  · intro a b p q ha hb hp hq c d r s hc hd hr hs
    rw [isPartition_one ha, isPartition_one hb, isPartition_one hp] at hc
    rw [isPartition_one ha, isPartition_one hb, isPartition_one hq] at hd
    rw [isPartition_one hp, dimOf_one] at hr
    rw [isPartition_one hq, dimOf_one] at hs
    rw [kronN_one] at hc hd
    have := isPartition_one ha; subst this
    have := isPartition_one hb; subst this
    rw [if_pos ⟨by rw [isPartition_one hp, isPartition_one hq], by omega, by omega⟩, Finset.sum_const, Finset.card_univ, card_XI, dimOf_one]
    simp
  · intro a b p ha hb hp c hc k hk x
    have : k = 0 := by omega
    subst this
    rw [isPartition_one hp, ct_one]
    simp [jmX]

theorem inv_cgPhi {eig : Eig} (he : EigOk eig) {n : Nat} (hn : 1 ≤ n) : Inv n (cgPhi eig n) := by
  induction n, hn using Nat.le_induction with
  | base => exact inv_one
  | succ n hn ih =>
    obtain ⟨m, rfl⟩ : ∃ m, n = m + 1 := ⟨n - 1, by omega⟩
    exact ih.next he hn

theorem acc_one (eig : Eig) : AccSpec 1 (fun _ _ _ _ _ _ _ => 1) (cgAcc eig 1) := by
  intro a b ha hb f g R offs hR ho ho0 hK h1
  have := isPartition_one ha; subst this
  have := isPartition_one hb; subst this
  obtain ⟨k1, k2⟩ := hK [1] part_one (by rw [kronN_one]; omega)
  rw [h1 rfl, kronN_one] at k2
  have hR1 : R = [partAt R [1]] := by
    have hlen : R.length ≤ 1 := by
      have hnd := hR.nodup
      have hs : vkeys R ⊆ [[1]] := by
        intro x hx
        obtain ⟨P, hP, rfl⟩ := List.mem_map.1 hx
        rw [isPartition_one (hR.part P hP).1]; simp
      have := (List.subperm_of_subset hnd hs).length_le
      simpa using this
    obtain ⟨-, -, -, -, hm, -⟩ := index_partAt hR k1
    match R, hlen, hm with
    | [], _, h => simp at h
    | [P], _, h => rw [List.mem_singleton] at h; rw [h]
    | _ :: _ :: _, h, _ => simp at h
  obtain ⟨-, -, -, -, hmem, hlam⟩ := index_partAt hR k1
  have hd : (partAt R [1]).d = 1 := by rw [part_d hR hmem, hlam, dimOf_one]
  obtain ⟨offs', o1, o2, -, o4, -⟩ := SnType.add_ok (1 : Int) ho part_one
  have hl1 : (mkP [1] 1 g).irrep.lambda = [1] := (irrOf_spec (le_refl 1) part_one).2.1
  set P' : VPart := { partAt R [1] with data := fun i' j' => if i' = 0 ∧ j' = 0 then (partAt R [1]).data i' j' + f 0 0 * g 0 0 else (partAt R [1]).data i' j' } with hP'
  have hat : partAt [P'] [1] = P' := by
    have : P'.irrep.lambda = [1] := hlam
    unfold partAt
    simp [this]
  refine ⟨[P'], offs', ?_, ?_, ?_, o2, ?_, ?_, ?_⟩
  · have hx1 : (mkP [1] 1 f).get 0 0 = some (f 0 0) := VPart.get_eq _ (by show 0 < dimOf [1]; rw [dimOf_one]; omega) (by show 0 < 1; omega)
    have hy1 : (mkP [1] 1 g).get 0 0 = some (g 0 0) := VPart.get_eq _ (by show 0 < dimOf [1]; rw [dimOf_one]; omega) (by show 0 < 1; omega)
    have hinc : (partAt R [1]).inc 0 0 (f 0 0 * g 0 0) = some P' := if_pos ⟨by omega, by omega⟩
    have hget : R[0]? = some (partAt R [1]) := (congrArg (fun l : SnVec => l[0]?) hR1).trans rfl
    have hset : R.set 0 P' = [P'] := by rw [hR1]; rfl
    show (if IP.getn (mkP [1] 1 g).irrep.lambda = 1 then _ else _) = _
    rw [hl1, if_pos (by rfl)]
    simp only [Option.bind_eq_bind]
    refine Option.bind_eq_some_iff.2 ⟨_, hget, ?_⟩
    refine Option.bind_eq_some_iff.2 ⟨P', ?_, ?_⟩
    · show ((List.range 1).foldlM (fun P i => (List.range 1).foldlM (fun P j => ((mkP [1] 1 f).get 0 i).bind fun u =>
        ((mkP [1] 1 g).get 0 j).bind fun v => P.inc 0 (i * 1 + j) (u * v)) P) (partAt R [1])) = some P'
      simp [List.range_one, hx1, hy1, hinc]
    · refine Option.bind_eq_some_iff.2 ⟨offs', o1, ?_⟩
      rw [hset]
  · constructor
    · intro P hP
      rw [List.mem_singleton] at hP
      subst hP
      exact (hR.part (partAt R [1]) hmem : _)
    · simp
  · rw [hR1]; rfl
  · intro x hx
    rw [isPartition_one hx, o4, if_pos rfl, kronN_one]; rfl
  · intro x; rw [o4]; have := ho0 x; split_ifs <;> omega
  · intro x hx
    have hx1 : x = [1] := by
      obtain ⟨P, hP, rfl⟩ := List.mem_map.1 hx
      exact isPartition_one (hR.part P hP).1
    subst hx1
    rw [hat]
    refine ⟨rfl, fun r hr c => ?_⟩
    rw [dimOf_one] at hr
    have : r = 0 := by omega
    subst this
    rw [h1 rfl, kronN_one, hP']
    simp only [true_and]
    by_cases hc : c = 0
    · subst hc
      rw [if_pos rfl, if_pos (by simp)]
      unfold prodVal
      congr 1
      have e : ∀ y : XI [1] [1], (1 : ℝ) * (f (fstIx (a := (irrOf [1]).d) (b := (irrOf [1]).d) y) 0 * g (sndIx (a := (irrOf [1]).d) (b := (irrOf [1]).d) y) 0) = f 0 0 * g 0 0 := by
        intro y
        have y1 : ((fstIx (a := (irrOf [1]).d) (b := (irrOf [1]).d) y) : Nat) < dimOf [1] := (fstIx (a := (irrOf [1]).d) (b := (irrOf [1]).d) y).2
        have y2 : ((sndIx (a := (irrOf [1]).d) (b := (irrOf [1]).d) y) : Nat) < dimOf [1] := (sndIx (a := (irrOf [1]).d) (b := (irrOf [1]).d) y).2
        rw [dimOf_one] at y1 y2
        rw [Nat.lt_one_iff.1 y1, Nat.lt_one_iff.1 y2, one_mul]
      rw [Finset.sum_congr rfl fun y _ => e y, Finset.sum_const, Finset.card_univ, card_XI, dimOf_one]
      simp
    · rw [if_neg hc, if_neg (by simp; omega), add_zero]

theorem acc_step {eig : Eig} (he : EigOk eig) {n : Nat} (hn : 1 ≤ n) (hN : n < 1234567) {Φ : Coef} (h : Inv n Φ) (hacc : AccSpec n Φ (cgAcc eig n)) :
    AccSpec (n + 1) (nextPhi eig n Φ) (cgAcc eig (n + 1)) := by
  intro a b ha hb f g R offs hR ho ho0 hK _
  obtain ⟨s', tau, et, ht, -⟩ := CGState.ok_empty.product (by omega : 1 ≤ n + 1) ha hb
  obtain ⟨xs, ys, S, e1, e2, e3, s1, s2, s3, s4⟩ := sub_ok hn hacc ha hb f g
  obtain ⟨dt, d1, d2, d3, d4⟩ := down_tau hn ha hb ht
  obtain ⟨sl, l1, l2⟩ := learn_ok h he hn hN hacc ha hb ht d2 d3 d4
  have hF : ∀ mu, ∃ F : Matrix (Fin (kmul n a b mu)) (Fin (kmul n a b mu)) ℝ, mu ∈ parts dt →
      (∃ dm V U ev tk, sl mu = some ⟨dm, kmul n a b mu, V, U, ev, F, tk⟩) ∧
      ∀ x ∈ parts tau, mu ∈ subs x → ∀ (c : Fin (kronN (n + 1) a b x)) (y : Fin (kmul n a b mu)),
        (y : Nat) = used n a b ((parts tau).takeWhile fun z => decide (z ≠ x)) mu + c → ∀ j, F j y = Fm eig n Φ a b x mu j c := by
    intro mu
    by_cases hmu : mu ∈ parts dt
    · obtain ⟨s, es, ev, F, rfl, -, hF⟩ := l2 mu hmu
      exact ⟨F, fun _ => ⟨⟨_, _, _, _, _, es⟩, hF⟩⟩
    · exact ⟨0, fun h => absurd h hmu⟩
  choose F hF using hF
  have hkey : ∀ mu ∈ parts dt, mu ∈ vkeys S ∧ (partAt S mu).m = kmul n a b mu := by
    intro mu hmu
    obtain ⟨p, h1, h2⟩ := (d3 mu).1 hmu
    have := (s2 mu).2 (kmul_pos hn ha hb ht h1 h2)
    exact ⟨this, s3 mu this⟩
  have tw := twist_ok hn s1 d2 sl (kmul n a b) F hkey (fun mu hmu => (hF mu hmu).1)
  set D : List Nat → Nat → Nat → ℝ := fun mu i c =>
    if h : c < kmul n a b mu then ∑ j : Fin (kmul n a b mu), (partAt S mu).data i j * F mu j ⟨c, h⟩ else 0 with hD
  set st : SnVec := (parts dt).map fun mu => mkP mu (kmul n a b mu) (D mu) with hst
  have ost : Ok n st := ok_map hn d2.all d2.sorted (kmul n a b) D
  have kst : vkeys st = parts dt := keys_map hn d2.all (kmul n a b) D
  have ast : ∀ mu ∈ parts dt, partAt st mu = mkP mu (kmul n a b mu) (D mu) := by
    intro mu hmu
    have := partAt_of_mem ost.nodup (P := mkP mu (kmul n a b mu) (D mu)) (List.mem_map.2 ⟨mu, hmu, rfl⟩)
    rwa [show (mkP mu (kmul n a b mu) (D mu)).irrep.lambda = mu from (irrOf_spec hn (d2.all mu hmu)).2.1] at this
  have hmt : ∀ x ∈ parts tau, mult tau x = kronN (n + 1) a b x := fun x hx => ht.mult x (ht.ok.all x hx)
  have hus : ∀ (l : List (List Nat)), (∀ x ∈ l, x ∈ parts tau) → ∀ mu, usedBy (fun x => (mult tau x).toNat) l mu = used n a b l mu := by
    intro l hl mu
    unfold used usedBy
    congr 1
    refine List.map_congr_left fun y hy => ?_
    beta_reduce
    rw [hmt y (hl y hy), Int.toNat_natCast]
  obtain ⟨R', offs', a1, a2, a3, a4, a5, a6⟩ := accumulate_ok hn hR ost ho ht.ok (fun x hx => by rw [hmt x hx]; positivity) ho0
    (fun x hx => (hK x (ht.ok.all x hx) ((ht.mem x).1 hx).2).1)
    (fun x hx => by rw [hmt x hx]; exact (hK x (ht.ok.all x hx) ((ht.mem x).1 hx).2).2)
    (fun x hx mu hmu => by
      have : mu ∈ vkeys st := by rw [kst]; exact (d3 mu).2 ⟨x, hx, hmu⟩
      exact this)
    (fun x hx mu hmu => by
      rw [hus _ (fun _ h => h), used_parts hn ha hb ht (sub_part (ht.ok.all x hx) mu hmu), ast mu ((d3 mu).2 ⟨x, hx, hmu⟩)]
      exact le_refl _)
  have mtau : ∀ x, IsPartition (n + 1) x → mult tau x = kronN (n + 1) a b x := ht.mult
  refine ⟨R', offs', ?_, a2, a3, a4, fun x hx => by rw [a5 x, mtau x hx], fun x => ?_, fun x hx => ⟨(a6 x hx).1, fun r hr c => ?_⟩⟩
  · obtain ⟨m, rfl⟩ : ∃ m, n = m + 1 := ⟨n - 1, by omega⟩
    have hla : (mkP a 1 f).irrep.lambda = a := (irrOf_spec (by omega) ha).2.1
    have hlb : (mkP b 1 g).irrep.lambda = b := (irrOf_spec (by omega) hb).2.1
    show (if IP.getn (mkP b 1 g).irrep.lambda = m + 2 then _ else _) = _
    rw [hla, hlb, if_pos (by rw [getn_eq]; exact hb.sum)]
    simp only [Option.bind_eq_bind]
    refine Option.bind_eq_some_iff.2 ⟨_, e1, ?_⟩
    refine Option.bind_eq_some_iff.2 ⟨_, e2, ?_⟩
    refine Option.bind_eq_some_iff.2 ⟨_, e3, ?_⟩
    refine Option.bind_eq_some_iff.2 ⟨_, (by unfold cgTau; rw [et]; rfl), ?_⟩
    refine Option.bind_eq_some_iff.2 ⟨_, d1, ?_⟩
    refine Option.bind_eq_some_iff.2 ⟨_, l1, ?_⟩
    refine Option.bind_eq_some_iff.2 ⟨_, tw, ?_⟩
    exact a1
  · rw [a5 x]
    have h0 := ho0 x
    by_cases hx : x ∈ parts tau
    · rw [hmt x hx]; positivity
    · rw [mult_of_not_mem hx]; omega
  · rw [(a6 x hx).2 r c]
    congr 1
    have hxp : IsPartition (n + 1) x := by
      obtain ⟨P, hP, rfl⟩ := List.mem_map.1 hx
      exact (hR.part P hP).1
    by_cases hxt : x ∈ parts tau
    · by_cases hc : (mult offs x).toNat ≤ c ∧ c < (mult offs x).toNat + kronN (n + 1) a b x
      · rw [if_pos ⟨hxt, hc.1⟩, if_pos hc]
        unfold upD
        rw [hmt x hxt, Int.toNat_natCast, if_pos (by omega)]
        obtain ⟨mu, hmu, t, htt, rfl⟩ := exists_block hn hxp hr
        have hmd : mu ∈ parts dt := (d3 mu).2 ⟨x, hxt, hmu⟩
        rw [rowsOf_off (subs_nodup x) hmu htt]
        simp only [Option.map_some, Option.getD_some]
        rw [ast mu hmd]
        unfold colOffs
        rw [hus _ (fun y hy => (List.takeWhile_sublist _).mem hy)]
        have hle := used_take (n := n) (a := a) (b := b) hxt hmu
        rw [used_parts hn ha hb ht (d2.all mu hmd)] at hle
        set c' := c - (mult offs x).toNat with hc'
        have hcl : c' < kronN (n + 1) a b x := by omega
        have hlt : used n a b ((parts tau).takeWhile fun z => decide (z ≠ x)) mu + c' < kmul n a b mu := by omega
        have hgoal : D mu t (used n a b ((parts tau).takeWhile fun z => decide (z ≠ x)) mu + c') = prodVal (nextPhi eig n Φ) a b x (offOf (subs x) mu + t) c' (f · 0) (g · 0) := by
          rw [hD]
          simp only
          rw [dif_pos hlt]
          unfold prodVal
          have e4 : ∀ j : Fin (kmul n a b mu), (partAt S mu).data t j * F mu j ⟨_, hlt⟩ =
              ∑ y : XI a b, psi n Φ a b mu t j (fstIx y) (sndIx y) * Fm eig n Φ a b x mu j ⟨c', hcl⟩ * (f (fstIx y) 0 * g (sndIx y) 0) := by
            intro j
            rw [s4 mu (hkey mu hmd).1 t htt j j.2, (hF mu hmd).2 x hxt hmu ⟨c', hcl⟩ ⟨_, hlt⟩ rfl j, Finset.sum_mul]
            exact Finset.sum_congr rfl fun y _ => by ring
          rw [Finset.sum_congr rfl fun j _ => e4 j, Finset.sum_comm]
          refine Finset.sum_congr rfl fun y _ => ?_
          rw [nextPhi_off hmu htt]
          unfold nextB
          rw [dif_pos hcl, Finset.sum_mul]
        exact hgoal
      · rw [if_neg hc]
        split_ifs with h'
        · unfold upD
          rw [hmt x hxt, Int.toNat_natCast, if_neg]
          intro h''
          exact hc ⟨h'.2, by omega⟩
        · rfl
    · rw [if_neg fun h' => hxt h'.1]
      have : kronN (n + 1) a b x = 0 := by
        by_contra h0
        exact hxt ((ht.mem x).2 ⟨hxp, Nat.pos_of_ne_zero h0⟩)
      rw [this, if_neg (by omega)]

/-- the coefficients are those the code computes -/
theorem acc_ok {eig : Eig} (he : EigOk eig) {n : Nat} (hn : 1 ≤ n) (hN : n ≤ 1234567) : AccSpec n (cgPhi eig n) (cgAcc eig n) := by
  induction n, hn using Nat.le_induction with
  | base => exact acc_one eig
  | succ n hn ih =>
    have : AccSpec (n + 1) (nextPhi eig n (cgPhi eig n)) (cgAcc eig (n + 1)) := acc_step he hn (by omega) (inv_cgPhi he hn) (ih (by omega))
    obtain ⟨m, rfl⟩ : ∃ m, n = m + 1 := ⟨n - 1, by omega⟩
    exact fun {a b} => this

end Snob
