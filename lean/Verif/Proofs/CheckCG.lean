import Verif.Spec.CheckCG
import Verif.Proofs.CGSmall
import Verif.Proofs.Coxeter
import Verif.Props.CGVecB

/-! # What `CheckCG` compares (C136) -/

namespace Snob

open Matrix IP SnVec

/-- what the coefficients of the product of the parts of `a` and `b` have to satisfy for `σ` -/
def EquiAt (n : Nat) (Φ : Coef) (a b : List Nat) (σ : Equiv.Perm (Fin n)) : Prop := ∀ p, IsPartition n p → ∀ c < kronN n a b p, ∀ r < dimOf p,
  ∀ x : XI a b, ∑ y, pm n a b σ y x * Φ a b p r c (fstIx y) (sndIx y) =
    ∑ s ∈ Finset.range (dimOf p), evalN p (enc σ) r s * Φ a b p s c (fstIx x) (sndIx x)

theorem evalN_mul {n : Nat} (hn : 1 ≤ n) {p : List Nat} (hp : IsPartition n p) (σ τ : Equiv.Perm (Fin n)) {i j : Nat} (hi : i < dimOf p) (hj : j < dimOf p) :
    evalN p (enc (σ * τ)) i j = ∑ k ∈ Finset.range (dimOf p), evalN p (enc σ) i k * evalN p (enc τ) k j := by
  rw [evalN_rho hn hp (σ * τ) ⟨i, hi⟩ ⟨j, hj⟩, map_mul, Matrix.mul_apply, Finset.sum_range]
  refine (Fintype.sum_equiv (eqvR hn hp) _ _ fun k => ?_).symm
  rw [← evalN_rho hn hp σ ⟨i, hi⟩ k, ← evalN_rho hn hp τ k ⟨j, hj⟩]

theorem evalN_id {n : Nat} (hn : 1 ≤ n) {p : List Nat} (hp : IsPartition n p) {i j : Nat} (hi : i < dimOf p) (hj : j < dimOf p) :
    evalN p (enc (1 : Equiv.Perm (Fin n))) i j = if i = j then 1 else 0 := by
  rw [evalN_rho hn hp 1 ⟨i, hi⟩ ⟨j, hj⟩, map_one, Matrix.one_apply]
  by_cases h : i = j
  · subst h; rw [if_pos rfl, if_pos rfl]
  · rw [if_neg h, if_neg]
    intro h'
    exact h (congrArg Fin.val ((eqvR hn hp).injective h'))

section
variable {n : Nat} {Φ : Coef} {a b : List Nat}

theorem equiAt_one (hn : 1 ≤ n) (ha : IsPartition n a) (hb : IsPartition n b) : EquiAt n Φ a b 1 := by
  intro p hp c hc r hr x
  rw [Finset.sum_eq_single x, Finset.sum_eq_single r, evalN_id hn hp hr hr, if_pos rfl]
  · congr 1
    unfold pm
    rw [evalN_id hn ha (fstIx x).2 (fstIx x).2, evalN_id hn hb (sndIx x).2 (sndIx x).2]
    simp
  · intro s hs h
    rw [evalN_id hn hp hr (Finset.mem_range.1 hs), if_neg (Ne.symm h), zero_mul]
  · intro h
    exact absurd (Finset.mem_range.2 hr) h
  · intro y _ h
    have : pm n a b 1 y x = 0 := by
      unfold pm
      rw [evalN_id hn ha (fstIx y).2 (fstIx x).2, evalN_id hn hb (sndIx y).2 (sndIx x).2]
      by_cases h1 : (fstIx (a := (irrOf a).d) (b := (irrOf b).d) y : Nat) = fstIx (a := (irrOf a).d) (b := (irrOf b).d) x
      · rw [if_neg (c := (sndIx (a := (irrOf a).d) (b := (irrOf b).d) y : Nat) = _), mul_zero]
        intro h2
        exact h ((fuseEquiv (irrOf a).d (irrOf b).d).injective (Prod.ext (Fin.ext h1) (Fin.ext h2)))
      · rw [if_neg h1, zero_mul]
    rw [this, zero_mul]
  · simp

theorem equiAt_mul (hn : 1 ≤ n) (ha : IsPartition n a) (hb : IsPartition n b) {σ τ : Equiv.Perm (Fin n)} (hσ : EquiAt n Φ a b σ) (hτ : EquiAt n Φ a b τ) :
    EquiAt n Φ a b (σ * τ) := by
  intro p hp c hc r hr x
  rw [pm_mul hn ha hb]
  have e1 : ∑ y, (pm n a b σ * pm n a b τ) y x * Φ a b p r c (fstIx y) (sndIx y) =
      ∑ w, pm n a b τ w x * ∑ y, pm n a b σ y w * Φ a b p r c (fstIx y) (sndIx y) := by
    simp only [Matrix.mul_apply, Finset.sum_mul, Finset.mul_sum]
    rw [Finset.sum_comm]
    exact Finset.sum_congr rfl fun w _ => Finset.sum_congr rfl fun y _ => by ring
  rw [e1, Finset.sum_congr rfl fun w _ => by rw [hσ p hp c hc r hr w]]
  have e2 : ∑ w, pm n a b τ w x * ∑ s ∈ Finset.range (dimOf p), evalN p (enc σ) r s * Φ a b p s c (fstIx w) (sndIx w) =
      ∑ s ∈ Finset.range (dimOf p), evalN p (enc σ) r s * ∑ w, pm n a b τ w x * Φ a b p s c (fstIx w) (sndIx w) := by
    simp only [Finset.mul_sum]
    rw [Finset.sum_comm]
    exact Finset.sum_congr rfl fun w _ => Finset.sum_congr rfl fun y _ => by ring
  rw [e2, Finset.sum_congr rfl fun s hs => by rw [hτ p hp c hc s (Finset.mem_range.1 hs) x]]
  simp only [Finset.mul_sum]
  rw [Finset.sum_comm]
  refine Finset.sum_congr rfl fun t ht => ?_
  rw [evalN_mul hn hp σ τ hr (Finset.mem_range.1 ht), Finset.sum_mul]
  exact Finset.sum_congr rfl fun s _ => by ring

/-- adjacent transpositions are enough -/
theorem equiAt_all (hn : 1 ≤ n) (ha : IsPartition n a) (hb : IsPartition n b) (h : ∀ k, k + 1 < n → EquiAt n Φ a b (adj n k)) (σ : Equiv.Perm (Fin n)) :
    EquiAt n Φ a b σ :=
  perm_induction (equiAt_one hn ha hb) (fun k _ hk hσ => equiAt_mul hn ha hb (h k hk) hσ) σ

/-- `w` is `v` acted on by `σ` -/
def Acted (n : Nat) (σ : Equiv.Perm (Fin n)) (v w : SnVec) : Prop :=
  Ok n w ∧ vkeys w = vkeys v ∧ ∀ p ∈ vkeys v, (partAt w p).m = (partAt v p).m ∧
    ∀ i < dimOf p, ∀ j < (partAt v p).m, (partAt w p).data i j = ∑ k ∈ Finset.range (dimOf p), evalN p (enc σ) i k * (partAt v p).data k j

theorem vkeys_of_obs {v w : SnVec} (h : obs v = obs w) : vkeys v = vkeys w := by
  have := congrArg (List.map Prod.fst) h
  simpa [obs, vkeys, List.map_map, Function.comp_def] using this

theorem acted_of (hn : 1 ≤ n) {σ : Equiv.Perm (Fin n)} {v u w : SnVec} (hv : Ok n v) (h : v.apply (enc σ) = some u) (hw : Ok n w) (ho : obs u = obs w) :
    Acted n σ v w := by
  obtain ⟨u', h1, h2, h3, h4⟩ := apply_data hn σ hv
  obtain rfl : u = u' := Option.some.inj (h.symm.trans h1)
  have hk := vkeys_of_obs ho
  refine ⟨hw, by rw [← hk, h3], fun p hp => ?_⟩
  obtain ⟨a1, a2⟩ := h4 p hp
  obtain ⟨b1, b2⟩ := (obs_data h2 hw hk).1 ho p (by rw [h3]; exact hp)
  exact ⟨by rw [← b1, a1], fun i hi j hj => by rw [← b2 i hi j (by rw [a1]; exact hj), a2 i hi j hj]⟩

theorem Acted.m {σ : Equiv.Perm (Fin n)} {v w : SnVec} (h : Acted n σ v w) (hv : Ok n v) (mv : ∀ P ∈ v, P.m = 1) : ∀ P ∈ w, P.m = 1 := fun P hP => by
  have hk : P.irrep.lambda ∈ vkeys w := List.mem_map.2 ⟨P, hP, rfl⟩
  rw [← partAt_of_mem h.1.nodup hP, (h.2.2 _ (h.2.1 ▸ hk)).1, partAt_m hv mv (h.2.1 ▸ hk)]

variable {acc : SnVec → SnType → VPart → VPart → Option (SnVec × SnType)}

/-- by how much the coefficients fail to be compatible with `σ` -/
noncomputable def defect (n : Nat) (Φ : Coef) (a b : List Nat) (σ : Equiv.Perm (Fin n)) (p : List Nat) (c r : Nat) (x : XI a b) : ℝ :=
  ∑ y, pm n a b σ y x * Φ a b p r c (fstIx y) (sndIx y) - ∑ s ∈ Finset.range (dimOf p), evalN p (enc σ) r s * Φ a b p s c (fstIx x) (sndIx x)

/-- the bilinear form that vanishes when the product of two parts commutes with `σ` -/
noncomputable def defectForm (n : Nat) (Φ : Coef) (a b : List Nat) (σ : Equiv.Perm (Fin n)) (f g : Nat → ℝ) (p : List Nat) (c r : Nat) : ℝ :=
  ∑ x : XI a b, defect n Φ a b σ p c r x * (f (fstIx x) * g (sndIx x))

/-- the product of two parts commutes with `σ` exactly when a bilinear form vanishes -/
theorem commutes_iff (hn : 1 ≤ n) (hacc : AccSpec n Φ acc) {P Q : VPart} {x' y' R R' S : SnVec} (hx : Ok n [P]) (hy : Ok n [Q]) (mx : P.m = 1)
    (my : Q.m = 1) (ea : P.irrep.lambda = a) (eb : Q.irrep.lambda = b) {σ : Equiv.Perm (Fin n)} (hx' : Acted n σ [P] x') (hy' : Acted n σ [Q] y')
    (hR : cgVecWith acc [P] [Q] = some R) (hR' : Acted n σ R R') (hS : cgVecWith acc x' y' = some S) :
    obs S = obs R' ↔ ∀ p, IsPartition n p → ∀ c < kronN n a b p, ∀ r < dimOf p, defectForm n Φ a b σ (P.data · 0) (Q.data · 0) p c r = 0 := by
  have mx0 : ∀ A ∈ [P], A.m = 1 := by simpa using mx
  have my0 : ∀ A ∈ [Q], A.m = 1 := by simpa using my
  obtain ⟨R0, r1, r2, r3, r4, r5⟩ := vec_ok' hn hacc hx hy mx0 my0
  obtain rfl : R = R0 := Option.some.inj (hR.symm.trans r1)
  obtain ⟨S0, s1, s2, s3, s4, s5⟩ := vec_ok' hn hacc hx'.1 hy'.1 (hx'.m hx mx0) (hy'.m hy my0)
  obtain rfl : S = S0 := Option.some.inj (hS.symm.trans s1)
  obtain ⟨-, x3, x4⟩ := hx'
  obtain ⟨-, y3, y4⟩ := hy'
  obtain ⟨t2, t3, t4⟩ := hR'
  have kx : vkeys [P] = [a] := by simp [vkeys, ea]
  have ky : vkeys [Q] = [b] := by simp [vkeys, eb]
  have px : partAt [P] a = P := by rw [← ea]; exact partAt_of_mem hx.nodup (by simp)
  have py : partAt [Q] b = Q := by rw [← eb]; exact partAt_of_mem hy.nodup (by simp)
  rw [x3, y3] at s3 s4 s5
  have hpr : prs (vkeys [P]) (vkeys [Q]) = [(a, b)] := by rw [kx, ky]; rfl
  rw [hpr] at s3 s4 s5 r3 r4 r5
  have ht : ∀ p, tot n [(a, b)] p = kronN n a b p := fun p => by simp [tot]
  have hk : vkeys S = vkeys R := by
    refine ((List.perm_ext_iff_of_nodup s2.nodup r2.nodup).2 fun p => ?_).eq_of_pairwise (fun _ _ _ _ h1 h2 => absurd h2 (lexGreater_asymm h1)) s2.sorted r2.sorted
    exact (s3 p).trans (r3 p).symm
  have key : ∀ p ∈ vkeys S, ∀ r < dimOf p, ∀ c < kronN n a b p, ((partAt S p).data r c = (partAt R' p).data r c ↔
      defectForm n Φ a b σ (P.data · 0) (Q.data · 0) p c r = 0) := by
    intro p hpS r hr c hc
    have hpR : p ∈ vkeys R := hk ▸ hpS
    rw [s5 p hpS r hr c (by rw [ht]; exact hc), (t4 p hpR).2 r hr c (by rw [r4 p hpR, ht]; exact hc),
      Finset.sum_congr rfl fun k hk => by rw [r5 p hpR k (Finset.mem_range.1 hk) c (by rw [ht]; exact hc)]]
    rw [loc_pair hc]
    dsimp only
    rw [prodVal_act σ ((partAt [P] a).data · 0) ((partAt [Q] b).data · 0) _ _ (fun k hk => (x4 a (by rw [kx]; simp)).2 k hk 0 (by rw [px, mx]; exact Nat.one_pos))
      (fun k hk => (y4 b (by rw [ky]; simp)).2 k hk 0 (by rw [py, my]; exact Nat.one_pos)), px, py, ← sub_eq_zero]
    refine Eq.congr_left ?_
    unfold prodVal defectForm defect
    simp only [sub_mul, Finset.sum_sub_distrib]
    congr 1
    simp only [Finset.sum_mul, Finset.mul_sum]
    rw [Finset.sum_comm]
    exact Finset.sum_congr rfl fun s _ => Finset.sum_congr rfl fun z _ => by ring
  rw [obs_data s2 t2 (by rw [t3, hk])]
  constructor
  · intro h p hp c hc r hr
    have hpS : p ∈ vkeys S := (s3 p).2 ⟨hp, by rw [ht]; omega⟩
    exact (key p hpS r hr c hc).1 ((h p hpS).2 r hr c (by rw [s4 p hpS, ht]; exact hc))
  · intro h p hp
    have hpR : p ∈ vkeys R := hk ▸ hp
    refine ⟨by rw [s4 p hp, (t4 p hpR).1, r4 p hpR], fun r hr c hc => ?_⟩
    rw [s4 p hp, ht] at hc
    exact (key p hp r hr c hc).2 (h p (vkeys_part s2 hp) c hc r hr)

/-- the forms all vanish exactly when the coefficients are compatible -/
theorem equiAt_iff {σ : Equiv.Perm (Fin n)} :
    EquiAt n Φ a b σ ↔ ∀ f g p, IsPartition n p → ∀ c < kronN n a b p, ∀ r < dimOf p, defectForm n Φ a b σ f g p c r = 0 := by
  constructor
  · intro h f g p hp c hc r hr
    refine Finset.sum_eq_zero fun x _ => ?_
    rw [defect, sub_eq_zero.2 (h p hp c hc r hr x), zero_mul]
  · intro h p hp c hc r hr z
    have h1 := h (fun i => if i = (fstIx (a := (irrOf a).d) (b := (irrOf b).d) z : Nat) then (1 : ℝ) else 0)
      (fun i => if i = (sndIx (a := (irrOf a).d) (b := (irrOf b).d) z : Nat) then (1 : ℝ) else 0) p hp c hc r hr
    have e : ∀ w : XI a b, ((if (fstIx (a := (irrOf a).d) (b := (irrOf b).d) w : Nat) = (fstIx (a := (irrOf a).d) (b := (irrOf b).d) z : Nat) then (1 : ℝ) else 0) *
        if (sndIx (a := (irrOf a).d) (b := (irrOf b).d) w : Nat) = (sndIx (a := (irrOf a).d) (b := (irrOf b).d) z : Nat) then (1 : ℝ) else 0) =
        if w = z then 1 else 0 := by
      intro w
      by_cases hw : w = z
      · subst hw; simp
      · rw [if_neg hw]
        by_cases h1 : (fstIx (a := (irrOf a).d) (b := (irrOf b).d) w : Nat) = fstIx (a := (irrOf a).d) (b := (irrOf b).d) z
        · rw [if_neg (c := (sndIx (a := (irrOf a).d) (b := (irrOf b).d) w : Nat) = _), mul_zero]
          intro h2
          exact hw ((fuseEquiv (irrOf a).d (irrOf b).d).injective (Prod.ext (Fin.ext h1) (Fin.ext h2)))
        · rw [if_neg h1, zero_mul]
    unfold defectForm at h1
    simp only [e, mul_ite, mul_one, mul_zero, Finset.sum_ite_eq', Finset.mem_univ, if_true] at h1
    exact sub_eq_zero.1 h1

/-- four values of a bilinear form -/
theorem defectForm_four (σ : Equiv.Perm (Fin n)) (f g f0 g0 : Nat → ℝ) (t : ℝ) (p : List Nat) (c r : Nat) :
    defectForm n Φ a b σ (fun i => f i + t * f0 i) (fun i => g i + t * g0 i) p c r - defectForm n Φ a b σ (fun i => f i + t * f0 i) g p c r -
      defectForm n Φ a b σ f (fun i => g i + t * g0 i) p c r + defectForm n Φ a b σ f g p c r = t * t * defectForm n Φ a b σ f0 g0 p c r := by
  unfold defectForm
  rw [Finset.mul_sum, ← Finset.sum_sub_distrib, ← Finset.sum_sub_distrib, ← Finset.sum_add_distrib]
  exact Finset.sum_congr rfl fun x _ => by ring

end

/-! ## One step of `CheckCG` -/

theorem BPart.applyTransposition_same {x x' : BPart} {i j : Int} (h : x.applyTransposition i j = some x') :
    x'.b = x.b ∧ x'.m = x.m ∧ x'.irrep = x.irrep := by
  unfold BPart.applyTransposition at h
  split at h
  · obtain ⟨T, -, rfl⟩ := Option.map_eq_some_iff.1 h
    exact ⟨rfl, rfl, rfl⟩
  · exact absurd h (by simp)

theorem one_act {n : Nat} (hn : 1 ≤ n) {a : List Nat} {x : BPart} (hx : x.One n a) {k : Nat} (hk : k + 1 < n) :
    ∃ x', x.applyTransposition ((k : Int) + 1) ((k : Int) + 1 + 1) = some x' ∧ x'.One n a ∧ Acted n (adj n k) [x.member 0] [x'.member 0] := by
  obtain ⟨w, h1, h2, h3⟩ := SnVecB.applyTransposition_ok hn ⟨k, by omega⟩ ⟨k + 1, hk⟩ hx.1
  simp only [SnVecB.applyTransposition, List.mapM_cons, List.mapM_nil] at h1
  obtain ⟨x', e1, h1⟩ := Option.bind_eq_some_iff.1 h1
  obtain rfl : [x'] = w := by simpa using h1
  obtain ⟨u, u1, u2⟩ := h3 0 Nat.one_pos
  obtain ⟨-, m1, i1⟩ := BPart.applyTransposition_same e1
  refine ⟨x', by push_cast at e1; exact e1, ⟨h2, by rw [i1]; exact hx.2.1, by rw [m1]; exact hx.2.2⟩, ?_⟩
  refine acted_of hn (hx.1.member 0) (u := u) ?_ (h2.member 0) u2
  unfold adj
  rw [dif_pos hk]
  exact u1

/-- the two vectors that are printed, as the members they have -/
theorem checkCGstep_ok {eig : Eig} (he : EigOk eig) {n : Nat} (hn : 1 ≤ n) (hN : n ≤ 1234567) {a b : List Nat} {x y : BPart} (hx : x.One n a)
    (hy : y.One n b) {k : Nat} (hk : k + 1 < n) :
    ∃ X Y R0 S R', checkCGstep eig x y ((k : Int) + 1) = some (S, R') ∧ Acted n (adj n k) [x.member 0] X ∧ Acted n (adj n k) [y.member 0] Y ∧
      cgVec eig [x.member 0] [y.member 0] = some R0 ∧ Acted n (adj n k) R0 (SnVecB.member R' 0) ∧ cgVec eig X Y = some (SnVecB.member S 0) := by
  obtain ⟨x', x1, x2, x3⟩ := one_act hn hx hk
  obtain ⟨y', y1, y2, y3⟩ := one_act hn hy hk
  have prod : ∀ {u v : BPart}, u.One n a → v.One n b → ∃ R, cgPartsB eig u v = some R ∧ SnVecB.Ok n 1 R ∧
      cgVec eig [u.member 0] [v.member 0] = some (SnVecB.member R 0) := by
    intro u v hu hv
    obtain ⟨p1, p2⟩ := Props.C81_parts eig n 1 hn u v hu.1 hv.1
    have hu' : Ok n [u.member 0] := hu.1.member 0
    have hv' : Ok n [v.member 0] := hv.1.member 0
    obtain ⟨c1, R, c2, -⟩ := Props.C69_parts he hn hN hu' hv' hu.2.2 hv.2.2
    have p3 := p1 0 Nat.one_pos
    rw [c2] at p3
    obtain ⟨w, w1, w2⟩ := Option.map_eq_some_iff.1 p3
    have hc : cgVec eig [u.member 0] [v.member 0] = some (SnVecB.member w 0) := by rw [← c1, c2, w2]
    refine ⟨w, w1, ?_, hc⟩
    obtain ⟨R0, r1, r2, -⟩ := vec_ok' hn (accAny_ok he hn hN) hu' hv' (fun P hP => by rw [List.mem_singleton.1 hP]; exact hu.2.2)
      (fun P hP => by rw [List.mem_singleton.1 hP]; exact hv.2.2)
    obtain rfl : R0 = SnVecB.member w 0 := Option.some.inj (r1.symm.trans hc)
    exact SnVecB.ok_of_member (p2 w w1) r2
  obtain ⟨S, s1, -, s3⟩ := prod x2 y2
  obtain ⟨R, r1, r2, r3⟩ := prod hx hy
  obtain ⟨R', t1, t2, t3⟩ := SnVecB.applyTransposition_ok hn ⟨k, by omega⟩ ⟨k + 1, hk⟩ r2
  obtain ⟨u, u1, u2⟩ := t3 0 Nat.one_pos
  push_cast at t1
  refine ⟨_, _, _, S, R', ?_, x3, y3, r3, ?_, s3⟩
  · unfold checkCGstep
    simp only [x1, y1, s1, r1, t1, Option.bind_eq_bind, Option.bind_some]
  · refine acted_of hn (r2.member 0) (u := u) ?_ (t2.member 0) u2
    unfold adj
    rw [dif_pos hk]
    exact u1

/-- the check agrees exactly when the forms of the adjacent transpositions vanish -/
theorem checkCG_iff {eig : Eig} (he : EigOk eig) {n : Nat} (hn : 1 ≤ n) (hN : n ≤ 1234567) {a b : List Nat} {x y : BPart} (hx : x.One n a)
    (hy : y.One n b) : ∃ L, checkCG eig x y = some L ∧ L.length = n - 1 ∧ (Agree L ↔ ∀ k, k + 1 < n → ∀ p, IsPartition n p → ∀ c < kronN n a b p,
      ∀ r < dimOf p, defectForm n (cgPhi eig n) a b (adj n k) (x.data 0 · 0) (y.data 0 · 0) p c r = 0) := by
  have hlen : IP.getn x.irrep.lambda - 1 = n - 1 := by rw [getn_eq, (hx.1.part x (by simp)).1.sum]
  have hstep : ∀ k, k + 1 < n → ∃ pr, checkCGstep eig x y ((k : Int) + 1) = some pr ∧ (obs (SnVecB.member pr.1 0) = obs (SnVecB.member pr.2 0) ↔
      ∀ p, IsPartition n p → ∀ c < kronN n a b p, ∀ r < dimOf p, defectForm n (cgPhi eig n) a b (adj n k) (x.data 0 · 0) (y.data 0 · 0) p c r = 0) := by
    intro k hk
    obtain ⟨X, Y, R0, S, R', h1, h2, h3, h4, h5, h6⟩ := checkCGstep_ok he hn hN hx hy hk
    exact ⟨(S, R'), h1, commutes_iff hn (accAny_ok he hn hN) (hx.1.member 0) (hy.1.member 0) hx.2.2 hy.2.2 hx.2.1 hy.2.1 h2 h3 h4 h5 h6⟩
  choose! pr h1 h2 using hstep
  refine ⟨(List.range (n - 1)).map pr, ?_, by simp, ?_⟩
  · unfold checkCG
    rw [hlen]
    refine (mapM_some_iff _ _ _).2 ⟨by simp, fun i z hi => ?_⟩
    obtain ⟨hi', rfl⟩ := List.getElem?_eq_some_iff.1 hi
    have hi2 : i < n - 1 := by simpa using hi'
    refine ⟨pr i, ?_, ?_⟩
    · rw [List.getElem?_map, hi]
      exact congrArg (fun k => some (pr k)) (List.getElem_range _)
    · rw [List.getElem_range]
      exact h1 i (by omega)
  · constructor
    · intro h k hk
      exact (h2 k hk).1 (h _ (List.mem_map.2 ⟨k, List.mem_range.2 (by omega), rfl⟩))
    · intro h q hq
      obtain ⟨k, hk, rfl⟩ := List.mem_map.1 hq
      have := List.mem_range.1 hk
      exact (h2 k (by omega)).2 (h k (by omega))

/-- commuting with one permutation, in terms of the forms -/
theorem cgCommutes_iff {eig : Eig} (he : EigOk eig) {n : Nat} (hn : 1 ≤ n) (hN : n ≤ 1234567) {a b : List Nat} (ha : IsPartition n a)
    (hb : IsPartition n b) (σ : Equiv.Perm (Fin n)) : CGCommutes eig n a b (enc σ) ↔ EquiAt n (cgPhi eig n) a b σ := by
  have run : ∀ P Q : VPart, Ok n [P] → Ok n [Q] → P.irrep.lambda = a → Q.irrep.lambda = b → P.m = 1 → Q.m = 1 →
      ∃ S R', (do let x' ← SnVec.apply [P] (enc σ); let y' ← SnVec.apply [Q] (enc σ); cgVec eig x' y') = some S ∧
        (do let R ← cgVec eig [P] [Q]; R.apply (enc σ)) = some R' ∧ (obs S = obs R' ↔
          ∀ p, IsPartition n p → ∀ c < kronN n a b p, ∀ r < dimOf p, defectForm n (cgPhi eig n) a b σ (P.data · 0) (Q.data · 0) p c r = 0) := by
    intro P Q hP hQ eP eQ mP mQ
    have mP0 : ∀ A ∈ [P], A.m = 1 := by simpa using mP
    have mQ0 : ∀ A ∈ [Q], A.m = 1 := by simpa using mQ
    obtain ⟨x', x1, x2, -⟩ := apply_data hn σ hP
    obtain ⟨y', y1, y2, -⟩ := apply_data hn σ hQ
    have ax := acted_of hn hP x1 x2 rfl
    have ay := acted_of hn hQ y1 y2 rfl
    obtain ⟨R, r1, r2, -⟩ := vec_ok' hn (accAny_ok he hn hN) hP hQ mP0 mQ0
    obtain ⟨S, s1, s2, -⟩ := vec_ok' hn (accAny_ok he hn hN) x2 y2 (ax.m hP mP0) (ay.m hQ mQ0)
    obtain ⟨R', t1, t2, -⟩ := apply_data hn σ r2
    refine ⟨S, R', ?_, ?_, commutes_iff hn (accAny_ok he hn hN) hP hQ mP mQ eP eQ ax ay r1 (acted_of hn r2 t1 t2 rfl) s1⟩
    · simp only [x1, y1, Option.bind_eq_bind, Option.bind_some]
      exact s1
    · simp only [Option.bind_eq_bind]
      exact Option.bind_eq_some_iff.2 ⟨R, r1, t1⟩
  rw [equiAt_iff]
  constructor
  · intro h f g
    obtain ⟨hx, -⟩ := partAt_single hn ha 1 fun i _ => f i
    obtain ⟨hy, -⟩ := partAt_single hn hb 1 fun i _ => g i
    have la : (mkP a 1 fun i _ => f i).irrep.lambda = a := (irrOf_spec hn ha).2.1
    have lb : (mkP b 1 fun i _ => g i).irrep.lambda = b := (irrOf_spec hn hb).2.1
    obtain ⟨S, R', h1, h2, h3⟩ := run _ _ hx hy la lb rfl rfl
    obtain ⟨S', R'', h4, h5, h6⟩ := h _ _ hx hy la lb rfl rfl
    obtain rfl := Option.some.inj (h1.symm.trans h4)
    obtain rfl := Option.some.inj (h2.symm.trans h5)
    exact h3.1 h6
  · intro h P Q hP hQ eP eQ mP mQ
    obtain ⟨S, R', h1, h2, h3⟩ := run P Q hP hQ eP eQ mP mQ
    exact ⟨S, R', h1, h2, h3.2 (h _ _)⟩

end Snob
