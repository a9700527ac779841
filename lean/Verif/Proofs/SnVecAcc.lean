import Verif.Proofs.SnVecInd

/-! Vectors: `accumulate_up` (C68). -/

namespace Snob

open SnVec (Ok obs typeOf mulCol)

theorem SnType.get_ok {n : Nat} {t : SnType} (ht : TypeOk n t) {x : List Nat} (hx : IsPartition n x) :
    ∃ t', SnType.get t x = some (t', mult t x) ∧ TypeOk n t' ∧ ∀ y, mult t' y = mult t y := by
  obtain ⟨t', a1, a2, a3, a4, -⟩ := SnType.upd_ok id ht hx
  have h4 : ∀ y, mult t' y = mult t y := by
    intro y; rw [a4]; split_ifs with h
    · rw [h]; rfl
    · rfl
  refine ⟨t', ?_, a2, h4⟩
  unfold SnType.get
  rw [a1]
  simp only [Option.bind_eq_bind, Option.bind_some]
  rw [SnType.find_ok a2 hx, if_pos ((a3 x).2 (Or.inl rfl))]
  simp only [Option.bind_some]
  rw [h4]

/-- entries after the blocks of a list have been added at column `o` -/
noncomputable def accD (E : Nat → Nat → ℝ) (v : SnVec) (o m : Nat) (O : List Nat → Nat) (S : List (List Nat)) (i j : Nat) : ℝ :=
  E i j + if o ≤ j then upD v m O S i (j - o) else 0

theorem accInner_ok {n : Nat} {v : SnVec} (hv : Ok n v) {x : List Nat} (N : Nat) (E : Nat → Nat → ℝ) (o m : Nat) (ho : o + m ≤ N)
    (O : List Nat → Nat)
    {S : List (List Nat)} (hS : ∀ mu ∈ S, mu ∈ v.map fun P => P.irrep.lambda) (hd : (S.map dimOf).sum ≤ dimOf x)
    (hO : ∀ mu ∈ S, O mu + m ≤ (partAt v mu).m) (S1 S2 : List (List Nat)) (hnd : (S1 ++ S2).Nodup) (e : S = S1 ++ S2)
    {so : SnType} (hso : TypeOk n so) (hmso : ∀ mu, mult so mu = ((O mu + if mu ∈ S1 then m else 0 : Nat) : Int)) :
    ∃ so', SnVec.accInner v o m S2 (mkP x N (accD E v o m O S1)) (S1.map dimOf).sum so =
        some (mkP x N (accD E v o m O S), so') ∧ TypeOk n so' ∧
      ∀ mu, mult so' mu = ((O mu + if mu ∈ S then m else 0 : Nat) : Int) := by
  induction S2 generalizing S1 so with
  | nil => rw [List.append_nil] at e; rw [← e] at *; exact ⟨so, rfl, hso, hmso⟩
  | cons mu S2 ih =>
    have h1 : mu ∉ S1 := fun h => (List.nodup_append.1 hnd).2.2 mu h mu (by simp) rfl
    have hmu : mu ∈ S := by rw [e]; simp
    have hle : (S1.map dimOf).sum + dimOf mu ≤ dimOf x := by
      refine le_trans ?_ hd
      rw [e, List.map_append, List.sum_append, List.map_cons, List.sum_cons]; omega
    obtain ⟨k, a1, a2, a3, a4, a5⟩ := index_partAt hv (hS mu hmu)
    have hPd : (partAt v mu).d = dimOf mu := by
      have := part_d hv a4
      rw [a5] at this; exact this
    have hpart : IsPartition n mu := by have := (hv.part _ a4).1; rw [a5] at this; exact this
    have hP : (mkP x N (accD E v o m O S1)).addToBlockBlock (S1.map dimOf).sum o (partAt v mu) 0 (O mu) (dimOf mu) m =
        some (mkP x N (accD E v o m O (S1 ++ [mu]))) := by
      unfold VPart.addToBlockBlock
      have hO' := hO mu hmu
      rw [VPart.incLoop_eq _ _ _ _ _ _ (fun i j => (partAt v mu).data (i + 0) (j + O mu)) (fun i hi j hj => by
        rw [VPart.get_eq]
        · omega
        · omega) hle (Or.inr (Or.inr ho))]
      rw [Option.some.injEq]
      refine VPart.ext rfl rfl rfl fun i j => ?_
      simp only [mkP, accD]
      rw [add_assoc]
      congr 1
      by_cases hj : o ≤ j
      · rw [if_pos hj, if_pos hj, upD_snoc]
        congr 1
        by_cases hc : ((S1.map dimOf).sum ≤ i ∧ i < (S1.map dimOf).sum + dimOf mu) ∧ o ≤ j ∧ j < o + m
        · rw [if_pos hc, if_pos ⟨hc.1, by omega, by omega⟩]; rfl
        · rw [if_neg hc, if_neg (by omega)]
      · rw [if_neg hj, if_neg hj, if_neg (by omega), add_zero]
    obtain ⟨so1, b1, b2, b3⟩ := SnType.get_ok hso hpart
    obtain ⟨so2, c1, c2, -, c4, -⟩ := SnType.add_ok (m : Int) b2 hpart
    have hmu0 : mult so mu = (O mu : Int) := by rw [hmso, if_neg h1, add_zero]
    obtain ⟨so', d1, d2, d3⟩ := ih (S1 ++ [mu]) (by simpa using hnd) (by simpa using e) c2 (by
      intro y
      rw [c4, b3, hmso]
      by_cases hy : y = mu
      · subst hy; simp [h1]
      · simp [hy])
    refine ⟨so', ?_, d2, d3⟩
    unfold SnVec.accInner
    rw [a1]
    simp only [Option.bind_eq_bind, Option.bind_some]
    rw [a2]
    simp only [Option.bind_some]
    rw [b1]
    simp only [Option.bind_some]
    rw [hmu0, if_pos (by omega), Int.toNat_natCast, hPd, hP]
    simp only [Option.bind_some]
    rw [c1]
    simp only [Option.bind_some]
    rw [← d1]
    simp

theorem accLoop_ok {n : Nat} (hn : 1 ≤ n) {v : SnVec} (hv : Ok n v) {K L : List (List Nat)} (N T o : List Nat → Nat)
    (E : List Nat → Nat → Nat → ℝ) (hK : ∀ x ∈ K, IsPartition (n + 1) x) (hndK : K.Nodup) (hLK : ∀ x ∈ L, x ∈ K) (hnd : L.Nodup)
    (hS : ∀ x ∈ L, ∀ mu ∈ subs x, mu ∈ v.map fun P => P.irrep.lambda)
    (hO : ∀ x ∈ L, ∀ mu ∈ subs x, usedBy T L mu ≤ (partAt v mu).m) (ho : ∀ x ∈ L, o x + T x ≤ N x)
    (L1 L2 : List (List Nat)) (e : L = L1 ++ L2) {offs so : SnType} (hoffs : TypeOk (n + 1) offs)
    (hmoffs : ∀ x, mult offs x = ((o x + if x ∈ L1 then T x else 0 : Nat) : Int)) (hso : TypeOk n so)
    (hmso : ∀ mu, mult so mu = (usedBy T L1 mu : Int)) :
    ∃ offs', SnVec.accLoop v (L2.map fun x => (x, (T x : Int)))
        (K.map fun x => mkP x (N x) (if x ∈ L1 then accD (E x) v (o x) (T x) (colOffs T L x) (subs x) else E x)) offs so =
      some (K.map fun x => mkP x (N x) (if x ∈ L then accD (E x) v (o x) (T x) (colOffs T L x) (subs x) else E x), offs') ∧
      TypeOk (n + 1) offs' ∧ ∀ x, mult offs' x = ((o x + if x ∈ L then T x else 0 : Nat) : Int) := by
  induction L2 generalizing L1 offs so with
  | nil =>
    rw [List.append_nil] at e
    rw [← e] at *
    exact ⟨offs, rfl, hoffs, hmoffs⟩
  | cons x L2 ih =>
    have hx : x ∈ L := by rw [e]; simp
    have hxp := hK x (hLK x hx)
    have h1 : x ∉ L1 := by
      rw [e] at hnd
      exact fun h => (List.nodup_append.1 hnd).2.2 x h x (by simp) rfl
    obtain ⟨k, a1, a2⟩ := index_map (by omega) hK N
      (fun x => if x ∈ L1 then accD (E x) v (o x) (T x) (colOffs T L x) (subs x) else E x) (hLK x hx)
    have hoff : colOffs T L x = usedBy T L1 := by
      funext mu
      unfold colOffs
      rw [e, takeWhile_split h1]
    have hzero : E x = accD (E x) v (o x) (T x) (usedBy T L1) [] := by
      funext i j; simp [accD, upD, rowsOf]
    obtain ⟨so', b1, b2, b3⟩ := accInner_ok hv (x := x) (N x) (E x) (o x) (T x) (ho x hx) (usedBy T L1) (S := subs x) (hS x hx)
      (dimOf_subs hn hxp).ge
      (fun mu hmu => by
        refine le_trans ?_ (hO x hx mu hmu)
        rw [e, usedBy_append]
        have : T x ≤ usedBy T (x :: L2) mu := by
          unfold usedBy; rw [List.map_cons, List.sum_cons, if_pos hmu]; omega
        omega) [] (subs x) (subs_nodup x) rfl hso (by simpa using hmso)
    simp only [List.map_nil, List.sum_nil] at b1
    rw [← hzero] at b1
    obtain ⟨of1, c1, c2, c3⟩ := SnType.get_ok hoffs hxp
    obtain ⟨of2, d1, d2, -, d4, -⟩ := SnType.add_ok (T x : Int) c2 hxp
    have hmx : mult offs x = (o x : Int) := by rw [hmoffs, if_neg h1, add_zero]
    obtain ⟨of', f1, f2, f3⟩ := ih (L1 ++ [x]) (by simpa using e) d2 (by
        intro y
        rw [d4, c3, hmoffs]
        by_cases hy : y = x
        · subst hy; simp [h1]
        · simp [hy]) b2 (by
        intro mu
        rw [b3, usedBy_append]
        simp [usedBy])
    refine ⟨of', ?_, f2, f3⟩
    rw [List.map_cons]
    unfold SnVec.accLoop
    rw [a1]
    simp only [Option.bind_eq_bind, Option.bind_some, List.getElem?_map, a2, Option.map_some, if_neg h1]
    rw [c1]
    simp only [Option.bind_some]
    rw [parents_eq hxp (by omega)]
    simp only [Option.bind_some]
    rw [hmx, if_pos (by omega), Int.toNat_natCast, Int.toNat_natCast, b1]
    simp only [Option.bind_some]
    rw [d1]
    simp only [Option.bind_some]
    rw [← f1, set_map hndK a2]
    congr 1
    refine List.map_congr_left fun z _ => ?_
    by_cases hz : z = x
    · subst hz; simp [hoff]
    · simp [hz]

theorem vec_eq_map {n : Nat} {R : SnVec} (hR : Ok n R) :
    R = (R.map fun P => P.irrep.lambda).map fun x => mkP x (partAt R x).m (partAt R x).data := by
  rw [List.map_map]
  conv_lhs => rw [← List.map_id R]
  refine List.map_congr_left fun P hP => ?_
  simp only [Function.comp, id]
  rw [partAt_of_mem hR.nodup hP]
  exact lookup_irr hR hP

/-- `accumulate_up` on vectors with enough columns -/
theorem accumulate_ok {n : Nat} (hn : 1 ≤ n) {R v : SnVec} (hR : Ok (n + 1) R) (hv : Ok n v) {offs tau : SnType}
    (hoffs : TypeOk (n + 1) offs) (ht : TypeOk (n + 1) tau) (hm : ∀ x ∈ parts tau, 0 ≤ mult tau x)
    (ho : ∀ x, 0 ≤ mult offs x) (hK : ∀ x ∈ parts tau, x ∈ R.map fun P => P.irrep.lambda)
    (hN : ∀ x ∈ parts tau, mult offs x + mult tau x ≤ (partAt R x).m)
    (hS : ∀ x ∈ parts tau, ∀ mu ∈ subs x, mu ∈ v.map fun P => P.irrep.lambda)
    (hO : ∀ x ∈ parts tau, ∀ mu ∈ subs x, usedBy (fun x => (mult tau x).toNat) (parts tau) mu ≤ (partAt v mu).m) :
    ∃ R' offs', SnVec.accumulateUp R offs v tau = some (R', offs') ∧ Ok (n + 1) R' ∧
      R'.map (fun P => P.irrep.lambda) = R.map (fun P => P.irrep.lambda) ∧ TypeOk (n + 1) offs' ∧
      (∀ x, mult offs' x = mult offs x + mult tau x) ∧
      ∀ x ∈ R.map fun P => P.irrep.lambda, (partAt R' x).m = (partAt R x).m ∧
        ∀ i j, (partAt R' x).data i j = (partAt R x).data i j +
          if x ∈ parts tau ∧ (mult offs x).toNat ≤ j then
            upD v (mult tau x).toNat (colOffs (fun x => (mult tau x).toNat) (parts tau) x) (subs x) i (j - (mult offs x).toNat) else 0 := by
  have hKp : ∀ x ∈ R.map (fun P => P.irrep.lambda), IsPartition (n + 1) x := by
    intro x hx
    obtain ⟨P, hP, rfl⟩ := List.mem_map.1 hx
    exact (hR.part P hP).1
  obtain ⟨offs', h1, h2, h3⟩ := accLoop_ok hn hv (fun x => (partAt R x).m) (fun x => (mult tau x).toNat) (fun x => (mult offs x).toNat)
    (fun x => (partAt R x).data) hKp hR.nodup hK ht.nodup hS hO (by
      intro x hx
      have := hN x hx
      have := hm x hx
      have := ho x
      omega) [] (parts tau) rfl hoffs (by
      intro x
      have := ho x
      simp [this]) (typeOk_nil n) (by intro mu; simp [usedBy, mult])
  have et : ((parts tau).map fun x => (x, ((mult tau x).toNat : Int))) = tau := by
    conv_rhs => rw [ht.eq_map]
    exact List.map_congr_left fun x hx => by rw [Int.toNat_of_nonneg (hm x hx)]
  rw [et] at h1
  simp only [List.not_mem_nil, if_false] at h1
  rw [← vec_eq_map hR] at h1
  have hok := ok_map (by omega) hKp hR.sorted (fun x => (partAt R x).m) fun x => if x ∈ parts tau then
    accD (partAt R x).data v (mult offs x).toNat (mult tau x).toNat (colOffs (fun x => (mult tau x).toNat) (parts tau) x) (subs x)
    else (partAt R x).data
  have hkeys := keys_map (by omega) hKp (fun x => (partAt R x).m) fun x => if x ∈ parts tau then
    accD (partAt R x).data v (mult offs x).toNat (mult tau x).toNat (colOffs (fun x => (mult tau x).toNat) (parts tau) x) (subs x)
    else (partAt R x).data
  refine ⟨_, offs', h1, hok, hkeys, h2, ?_, ?_⟩
  · intro x
    rw [h3]
    have := ho x
    by_cases hx : x ∈ parts tau
    · rw [if_pos hx]
      have := hm x hx
      push_cast
      rw [Int.toNat_of_nonneg (ho x), Int.toNat_of_nonneg this]
    · rw [if_neg hx]
      have h0 : mult tau x = 0 := by
        unfold mult
        have : tau.lookup x = none := by
          rw [List.lookup_eq_none_iff]
          intro e he
          have hne : x ≠ e.1 := by rintro rfl; exact hx (List.mem_map.2 ⟨e, he, rfl⟩)
          simpa using hne
        rw [this]; rfl
      rw [h0]; simp [this]
  · intro x hx
    have hp := partAt_of_mem hok.nodup (List.mem_map.2 ⟨x, hx, rfl⟩)
    have hl : ∀ f, (mkP x (partAt R x).m f).irrep.lambda = x := fun f => (irrOf_spec (by omega) (hKp x hx)).2.1
    rw [hl] at hp
    rw [hp]
    refine ⟨rfl, fun i j => ?_⟩
    simp only [mkP]
    by_cases h : x ∈ parts tau
    · rw [if_pos h]
      unfold accD
      simp only [h, true_and]
    · rw [if_neg h, if_neg (fun h' => h h'.1), add_zero]

end Snob
