import Verif.Proofs.CGAcc3
import Mathlib.LinearAlgebra.Matrix.InvariantBasisNumber

/-! # Products of vectors: inner products -/

namespace Snob

open IP Matrix SnVec

/-- the rows of all copies of the constituents -/
abbrev AllR (n : Nat) (a b : List Nat) := Σ p : Pt n, Fin (kronN n a b p.1) × Fin (irrOf p.1).d

section
variable {n : Nat} {a b : List Nat}

theorem card_AllR (hn : 1 ≤ n) (ha : IsPartition n a) (hb : IsPartition n b) : Fintype.card (XI a b) = Fintype.card (AllR n a b) := by
  obtain ⟨E, hE⟩ := exists_Ref hn ha hb
  let Q : Matrix (XI a b) (AllR n a b) ℝ := fun x i => E i.1.1 i.2.1 i.2.2 x
  refine Matrix.square_of_invertible (R := ℝ) Q Qᵀ ?_ ?_
  · ext x y
    rw [Matrix.mul_apply, Matrix.one_apply, ← hE.comp x y, Fintype.sum_sigma]
    refine Finset.sum_congr rfl fun p _ => ?_
    rw [Fintype.sum_prod_type]
    rfl
  · ext ⟨p, c, r⟩ ⟨q, d, s⟩
    rw [Matrix.mul_apply, Matrix.one_apply]
    refine (hE.orth p.2 q.2 c.2 r.2 d.2 s.2).trans (if_congr ?_ rfl rfl)
    constructor
    · rintro ⟨e1, e2, e3⟩
      have : p = q := Subtype.ext e1
      subst this
      rw [Fin.ext e2, Fin.ext e3]
    · intro h
      have : p = q := congrArg Sigma.fst h
      subst this
      simp only [Sigma.mk.injEq, heq_eq_eq, true_and, Prod.mk.injEq] at h
      exact ⟨rfl, congrArg Fin.val h.1, congrArg Fin.val h.2⟩

theorem inv_comp {Φ : Coef} (h : Inv n Φ) (hn : 1 ≤ n) (ha : IsPartition n a) (hb : IsPartition n b) (x y : XI a b) :
    ∑ i : AllR n a b, Φ a b i.1.1 i.2.2 i.2.1 (fstIx x) (sndIx x) * Φ a b i.1.1 i.2.2 i.2.1 (fstIx y) (sndIx y) = if x = y then 1 else 0 := by
  let Q : Matrix (XI a b) (AllR n a b) ℝ := fun x i => Φ a b i.1.1 i.2.2 i.2.1 (fstIx x) (sndIx x)
  have h1 : Qᵀ * Q = 1 := by
    ext ⟨p, c, r⟩ ⟨q, d, s⟩
    rw [Matrix.mul_apply, Matrix.one_apply]
    refine (h.orth ha hb p.2 q.2 c.2 d.2 r.2 s.2).trans (if_congr ?_ rfl rfl)
    constructor
    · rintro ⟨e1, e2, e3⟩
      have : p = q := Subtype.ext e1
      subst this
      rw [Fin.ext e2, Fin.ext e3]
    · intro h
      have : p = q := congrArg Sigma.fst h
      subst this
      simp only [Sigma.mk.injEq, heq_eq_eq, true_and, Prod.mk.injEq] at h
      exact ⟨rfl, congrArg Fin.val h.1, congrArg Fin.val h.2⟩
  have h2 : Q * Qᵀ = 1 := (Matrix.mul_eq_one_comm_of_card_eq (R := ℝ) (eq := (card_AllR hn ha hb).symm)).1 h1
  have := congrFun (congrFun h2 x) y
  rw [Matrix.mul_apply, Matrix.one_apply] at this
  exact this

/-- the product of two columns keeps inner products -/
theorem prodVal_dot {Φ : Coef} (h : Inv n Φ) (hn : 1 ≤ n) (ha : IsPartition n a) (hb : IsPartition n b) (f g f' g' : Nat → ℝ) :
    ∑ p : Pt n, ∑ r ∈ Finset.range (dimOf p.1), ∑ c ∈ Finset.range (kronN n a b p.1), prodVal Φ a b p.1 r c f g * prodVal Φ a b p.1 r c f' g' =
      (∑ i ∈ Finset.range (dimOf a), f i * f' i) * ∑ j ∈ Finset.range (dimOf b), g j * g' j := by
  have e1 : ∑ p : Pt n, ∑ r ∈ Finset.range (dimOf p.1), ∑ c ∈ Finset.range (kronN n a b p.1), prodVal Φ a b p.1 r c f g * prodVal Φ a b p.1 r c f' g' =
      ∑ i : AllR n a b, prodVal Φ a b i.1.1 i.2.2 i.2.1 f g * prodVal Φ a b i.1.1 i.2.2 i.2.1 f' g' := by
    rw [Fintype.sum_sigma]
    refine Finset.sum_congr rfl fun p _ => ?_
    rw [Fintype.sum_prod_type, Finset.sum_comm, Finset.sum_range]
    refine Finset.sum_congr rfl fun c _ => ?_
    rw [Finset.sum_range]
    rfl
  rw [e1]
  unfold prodVal
  have e2 : ∀ i : AllR n a b, (∑ y : XI a b, Φ a b i.1.1 i.2.2 i.2.1 (fstIx y) (sndIx y) * (f (fstIx y) * g (sndIx y))) *
      (∑ y : XI a b, Φ a b i.1.1 i.2.2 i.2.1 (fstIx y) (sndIx y) * (f' (fstIx y) * g' (sndIx y))) =
      ∑ y : XI a b, ∑ z : XI a b, (Φ a b i.1.1 i.2.2 i.2.1 (fstIx y) (sndIx y) * Φ a b i.1.1 i.2.2 i.2.1 (fstIx z) (sndIx z)) *
        ((f (fstIx y) * g (sndIx y)) * (f' (fstIx z) * g' (sndIx z))) := by
    intro i
    rw [Finset.sum_mul_sum]
    exact Finset.sum_congr rfl fun y _ => Finset.sum_congr rfl fun z _ => by ring
  rw [Finset.sum_congr rfl fun i _ => e2 i, Finset.sum_comm]
  have e3 : ∀ y : XI a b, ∑ i : AllR n a b, ∑ z : XI a b, (Φ a b i.1.1 i.2.2 i.2.1 (fstIx y) (sndIx y) * Φ a b i.1.1 i.2.2 i.2.1 (fstIx z) (sndIx z)) *
        ((f (fstIx y) * g (sndIx y)) * (f' (fstIx z) * g' (sndIx z))) = (f (fstIx y) * f' (fstIx y)) * (g (sndIx y) * g' (sndIx y)) := by
    intro y
    rw [Finset.sum_comm]
    have : ∀ z : XI a b, ∑ i : AllR n a b, (Φ a b i.1.1 i.2.2 i.2.1 (fstIx y) (sndIx y) * Φ a b i.1.1 i.2.2 i.2.1 (fstIx z) (sndIx z)) *
        ((f (fstIx y) * g (sndIx y)) * (f' (fstIx z) * g' (sndIx z))) = if y = z then (f (fstIx y) * g (sndIx y)) * (f' (fstIx z) * g' (sndIx z)) else 0 := by
      intro z
      rw [← Finset.sum_mul, inv_comp h hn ha hb]
      split_ifs <;> simp
    rw [Finset.sum_congr rfl fun z _ => this z, Finset.sum_ite_eq]
    simp only [Finset.mem_univ, if_true]
    ring
  rw [Finset.sum_congr rfl fun y _ => e3 y, sum_XI (fun i j => (f i * f' i) * (g j * g' j)), Finset.sum_mul_sum]

theorem sum_loc {n : Nat} (L : List (List Nat × List Nat)) (mu : List Nat) (F : (List Nat × List Nat) × Nat → ℝ) :
    ∑ c ∈ Finset.range (tot n L mu), F (loc n L mu c) = (L.map fun e => ∑ c ∈ Finset.range (kronN n e.1 e.2 mu), F (e, c)).sum := by
  induction L with
  | nil => simp [tot_nil]
  | cons e L ih =>
    rw [tot_cons, Finset.sum_range_add, List.map_cons, List.sum_cons, ← ih]
    congr 1
    · refine Finset.sum_congr rfl fun c hc => ?_
      rw [Finset.mem_range] at hc
      rw [loc, if_pos hc]
    · refine Finset.sum_congr rfl fun c _ => ?_
      rw [loc, if_neg (by omega), Nat.add_sub_cancel_left]

theorem dot_eq {n : Nat} {v w : SnVec} (hv : Ok n v) (hw : Ok n w) (hk : vkeys v = vkeys w) :
    dot v w = ((vkeys v).map fun x => ∑ i ∈ Finset.range (dimOf x), ∑ j ∈ Finset.range (partAt v x).m,
      (partAt v x).data i j * (partAt w x).data i j).sum := by
  unfold dot
  conv_lhs => rw [vec_eq_map hv, vec_eq_map hw, ← show vkeys v = w.map (fun P => P.irrep.lambda) from hk]
  rw [List.zipWith_map, List.zipWith_self]
  rfl

theorem vkeys_part {n : Nat} {v : SnVec} (hv : Ok n v) {x : List Nat} (hx : x ∈ vkeys v) : IsPartition n x := by
  obtain ⟨P, hP, rfl⟩ := List.mem_map.1 hx
  exact (hv.part P hP).1

theorem partAt_m {n : Nat} {v : SnVec} (hv : Ok n v) {m : Nat} (h : ∀ P ∈ v, P.m = m) {x : List Nat} (hx : x ∈ vkeys v) : (partAt v x).m = m := by
  obtain ⟨-, -, -, -, h1, -⟩ := index_partAt hv hx
  exact h _ h1

/-- what is multiplied by a function that satisfies `AccSpec` -/
theorem vec_ok' {n : Nat} (hn : 1 ≤ n) {Φ : Coef} {acc : SnVec → SnType → VPart → VPart → Option (SnVec × SnType)} (hacc : AccSpec n Φ acc)
    {x y : SnVec} (hx : Ok n x) (hy : Ok n y) (mx : ∀ P ∈ x, P.m = 1) (my : ∀ P ∈ y, P.m = 1) :
    ∃ R, cgVecWith acc x y = some R ∧ Ok n R ∧
      (∀ p, p ∈ vkeys R ↔ IsPartition n p ∧ 0 < tot n (prs (vkeys x) (vkeys y)) p) ∧
      (∀ p ∈ vkeys R, (partAt R p).m = tot n (prs (vkeys x) (vkeys y)) p) ∧
      ∀ p ∈ vkeys R, ∀ r < dimOf p, ∀ c < tot n (prs (vkeys x) (vkeys y)) p, (partAt R p).data r c =
        prodVal Φ (loc n (prs (vkeys x) (vkeys y)) p c).1.1 (loc n (prs (vkeys x) (vkeys y)) p c).1.2 p r (loc n (prs (vkeys x) (vkeys y)) p c).2
          ((partAt x (loc n (prs (vkeys x) (vkeys y)) p c).1.1).data · 0) ((partAt y (loc n (prs (vkeys x) (vkeys y)) p c).1.2).data · 0) := by
  have e : ∀ {v : SnVec}, Ok n v → (∀ P ∈ v, P.m = 1) → v = (vkeys v).map fun p => mkP p 1 (partAt v p).data := by
    intro v hv mv
    conv_lhs => rw [vec_eq_map hv]
    exact List.map_congr_left fun p hp => by rw [partAt_m hv mv hp]
  have := vec_ok hn hacc (fun p => (partAt x p).data) (fun p => (partAt y p).data) (fun p h => vkeys_part hx h) (fun p h => vkeys_part hy h)
    hx.sorted hy.sorted
  rwa [← e hx mx, ← e hy my] at this

theorem vec_dot {n : Nat} (hn : 1 ≤ n) {Φ : Coef} (h : Inv n Φ) {x y x' y' R R' : SnVec} (hx : Ok n x) (hy : Ok n y)
    (hx' : Ok n x') (hy' : Ok n y') (mx : ∀ P ∈ x, P.m = 1) (my : ∀ P ∈ y, P.m = 1)
    (kx : vkeys x = vkeys x') (ky : vkeys y = vkeys y') (hR : Ok n R) (hR' : Ok n R')
    (h1 : ∀ p, p ∈ vkeys R ↔ IsPartition n p ∧ 0 < tot n (prs (vkeys x) (vkeys y)) p) (hk : vkeys R = vkeys R')
    (h2 : ∀ p ∈ vkeys R, (partAt R p).m = tot n (prs (vkeys x) (vkeys y)) p)
    (h3 : ∀ p ∈ vkeys R, ∀ r < dimOf p, ∀ c < tot n (prs (vkeys x) (vkeys y)) p, (partAt R p).data r c =
        prodVal Φ (loc n (prs (vkeys x) (vkeys y)) p c).1.1 (loc n (prs (vkeys x) (vkeys y)) p c).1.2 p r (loc n (prs (vkeys x) (vkeys y)) p c).2
          ((partAt x (loc n (prs (vkeys x) (vkeys y)) p c).1.1).data · 0) ((partAt y (loc n (prs (vkeys x) (vkeys y)) p c).1.2).data · 0))
    (h4 : ∀ p ∈ vkeys R, ∀ r < dimOf p, ∀ c < tot n (prs (vkeys x) (vkeys y)) p, (partAt R' p).data r c =
        prodVal Φ (loc n (prs (vkeys x) (vkeys y)) p c).1.1 (loc n (prs (vkeys x) (vkeys y)) p c).1.2 p r (loc n (prs (vkeys x) (vkeys y)) p c).2
          ((partAt x' (loc n (prs (vkeys x) (vkeys y)) p c).1.1).data · 0) ((partAt y' (loc n (prs (vkeys x) (vkeys y)) p c).1.2).data · 0)) :
    dot R R' = dot x x' * dot y y' := by
  rw [dot_eq hR hR' hk, dot_eq hx hx' kx, dot_eq hy hy' ky]
  set L := prs (vkeys x) (vkeys y) with hL
  obtain ⟨G, hG⟩ : ∃ G : List Nat → Nat → (List Nat × List Nat) × Nat → ℝ, ∀ p r l, G p r l =
    prodVal Φ l.1.1 l.1.2 p r l.2 ((partAt x l.1.1).data · 0) ((partAt y l.1.2).data · 0) *
      prodVal Φ l.1.1 l.1.2 p r l.2 ((partAt x' l.1.1).data · 0) ((partAt y' l.1.2).data · 0) := ⟨_, fun _ _ _ => rfl⟩
  have s1 : ((vkeys R).map fun p => ∑ i ∈ Finset.range (dimOf p), ∑ j ∈ Finset.range (partAt R p).m, (partAt R p).data i j * (partAt R' p).data i j) =
      (vkeys R).map fun p => ∑ i ∈ Finset.range (dimOf p), (L.map fun e => ∑ c ∈ Finset.range (kronN n e.1 e.2 p), G p i (e, c)).sum := by
    refine List.map_congr_left fun p hp => Finset.sum_congr rfl fun i hi => ?_
    rw [Finset.mem_range] at hi
    rw [h2 p hp, ← sum_loc L p (G p i)]
    refine Finset.sum_congr rfl fun c hc => ?_
    rw [Finset.mem_range] at hc
    rw [h3 p hp i hi c hc, h4 p hp i hi c hc, hG]
  rw [s1]
  have s2 : ∀ p, IsPartition n p → p ∉ vkeys R → ∑ i ∈ Finset.range (dimOf p), (L.map fun e => ∑ c ∈ Finset.range (kronN n e.1 e.2 p), G p i (e, c)).sum = 0 := by
    intro p hp hpR
    have h0 : tot n L p = 0 := by
      by_contra h0
      exact hpR ((h1 p).2 ⟨hp, Nat.pos_of_ne_zero h0⟩)
    refine Finset.sum_eq_zero fun i _ => ?_
    rw [← sum_loc L p (G p i), h0, Finset.sum_range_zero]
  have s3 : ((vkeys R).map fun p => ∑ i ∈ Finset.range (dimOf p), (L.map fun e => ∑ c ∈ Finset.range (kronN n e.1 e.2 p), G p i (e, c)).sum).sum =
      ∑ p : Pt n, ∑ i ∈ Finset.range (dimOf p.1), (L.map fun e => ∑ c ∈ Finset.range (kronN n e.1 e.2 p.1), G p.1 i (e, c)).sum := by
    rw [← List.sum_toFinset _ hR.nodup]
    have : ∑ p : Pt n, ∑ i ∈ Finset.range (dimOf p.1), (L.map fun e => ∑ c ∈ Finset.range (kronN n e.1 e.2 p.1), G p.1 i (e, c)).sum =
        ∑ p ∈ (Finset.univ : Finset (Pt n)).map ⟨Subtype.val, Subtype.val_injective⟩, ∑ i ∈ Finset.range (dimOf p), (L.map fun e => ∑ c ∈ Finset.range (kronN n e.1 e.2 p), G p i (e, c)).sum := by
      rw [Finset.sum_map]; rfl
    rw [this]
    refine Finset.sum_subset ?_ ?_
    · intro p hp
      exact Finset.mem_map.2 ⟨⟨p, vkeys_part hR (List.mem_toFinset.1 hp)⟩, Finset.mem_univ _, rfl⟩
    · intro p hp hp'
      obtain ⟨⟨q, hq⟩, -, rfl⟩ := Finset.mem_map.1 hp
      rw [List.mem_toFinset] at hp'
      exact s2 q hq hp'
  rw [s3]
  have swap : ∀ (l : List (List Nat × List Nat)) (H : List Nat × List Nat → Pt n → Nat → ℝ),
      ∑ p : Pt n, ∑ i ∈ Finset.range (dimOf p.1), (l.map fun e => H e p i).sum = (l.map fun e => ∑ p : Pt n, ∑ i ∈ Finset.range (dimOf p.1), H e p i).sum := by
    intro l H
    induction l with
    | nil => simp
    | cons e l ih => simp only [List.map_cons, List.sum_cons, Finset.sum_add_distrib, ih]
  rw [swap L (fun e p i => ∑ c ∈ Finset.range (kronN n e.1 e.2 p.1), G p.1 i (e, c))]
  have s4 : (L.map fun e => ∑ p : Pt n, ∑ i ∈ Finset.range (dimOf p.1), ∑ c ∈ Finset.range (kronN n e.1 e.2 p.1), G p.1 i (e, c)) =
      L.map fun e => (∑ i ∈ Finset.range (dimOf e.1), (partAt x e.1).data i 0 * (partAt x' e.1).data i 0) *
        ∑ i ∈ Finset.range (dimOf e.2), (partAt y e.2).data i 0 * (partAt y' e.2).data i 0 := by
    refine List.map_congr_left fun e he => ?_
    simp only [hG]
    exact prodVal_dot h hn (vkeys_part hx (mem_prs.1 he).1) (vkeys_part hy (mem_prs.1 he).2) _ _ _ _
  rw [s4]
  have s5 : ∀ (A B : List (List Nat)) (u w : List Nat → ℝ), ((prs A B).map fun e => u e.1 * w e.2).sum = (A.map u).sum * (B.map w).sum := by
    intro A B u w
    induction A with
    | nil => simp [prs]
    | cons p A ih =>
      have : prs (p :: A) B = B.map (fun y => (p, y)) ++ prs A B := rfl
      rw [this, List.map_append, List.sum_append, ih, List.map_cons, List.sum_cons, add_mul, List.map_map]
      congr 1
      rw [← List.sum_map_mul_left]
      rfl
  rw [hL, s5 (vkeys x) (vkeys y) (fun p => ∑ i ∈ Finset.range (dimOf p), (partAt x p).data i 0 * (partAt x' p).data i 0)
    (fun p => ∑ i ∈ Finset.range (dimOf p), (partAt y p).data i 0 * (partAt y' p).data i 0)]
  congr 2
  · refine List.map_congr_left fun p hp => Finset.sum_congr rfl fun i _ => ?_
    rw [partAt_m hx mx hp, Finset.sum_range_one]
  · refine List.map_congr_left fun p hp => Finset.sum_congr rfl fun i _ => ?_
    rw [partAt_m hy my hp, Finset.sum_range_one]

/-- the function called by users -/
theorem accAny_ok {eig : Eig} (he : EigOk eig) {n : Nat} (hn : 1 ≤ n) (hN : n ≤ 1234567) : AccSpec n (cgPhi eig n) (cgAccAny eig) := by
  intro a b ha hb f g R offs
  have : cgAccAny eig R offs (mkP a 1 f) (mkP b 1 g) = cgAcc eig n R offs (mkP a 1 f) (mkP b 1 g) := by
    unfold cgAccAny
    rw [show (mkP a 1 f).irrep.lambda = a from (irrOf_spec hn ha).2.1, getn_eq, ha.sum]
  rw [this]
  exact acc_ok he hn hN ha hb f g R offs

end

end Snob
