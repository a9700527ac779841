import Verif.Proofs.CGVecB
import Verif.Proofs.CGCols

/-! `learn` with batched products is the same as with the products one by one. -/

namespace Snob

open IP SnVecB

/-- the units up to a row of the batch -/
noncomputable def unitsUpTo (d1 d2 : Nat) (R : IrrepObj) (f : Nat → Nat → Nat) (t : Nat) : BPart :=
  ⟨d1 * d2, R.d, 1, R, fun b i j => if b < t ∧ i = f (b / d2) (b % d2) ∧ j = 0 then 1 else 0⟩

theorem BPart.ext' {P Q : BPart} (h0 : P.b = Q.b) (h1 : P.d = Q.d) (h2 : P.m = Q.m) (h3 : P.irrep = Q.irrep)
    (h4 : ∀ b i j, P.data b i j = Q.data b i j) : P = Q := by
  cases P; cases Q; simp only at h0 h1 h2 h3 h4
  subst h0 h1 h2 h3
  congr
  funext b i j; exact h4 b i j

theorem units_inner {d1 d2 : Nat} {R : IrrepObj} {f : Nat → Nat → Nat} (hf : ∀ i < d1, ∀ j < d2, f i j < R.d) {i : Nat} (hi : i < d1) {J : Nat}
    (hJ : J ≤ d2) :
    (List.range J).foldlM (fun P j => P.set (i * d2 + j) (f i j) 0 1) (unitsUpTo d1 d2 R f (i * d2)) =
      some (unitsUpTo d1 d2 R f (i * d2 + J)) := by
  induction J with
  | zero => rfl
  | succ J ih =>
    rw [List.range_succ, List.foldlM_append, ih (by omega)]
    simp only [Option.bind_eq_bind, Option.bind_some, List.foldlM_cons, List.foldlM_nil]
    have hlt : i * d2 + J < d1 * d2 := by
      calc i * d2 + J < i * d2 + d2 := by omega
        _ = (i + 1) * d2 := by ring
        _ ≤ d1 * d2 := Nat.mul_le_mul_right _ (by omega)
    have hd : (i * d2 + J) / d2 = i := by
      rw [Nat.mul_comm, Nat.mul_add_div (by omega), Nat.div_eq_of_lt (by omega), Nat.add_zero]
    have hm : (i * d2 + J) % d2 = J := by
      rw [Nat.mul_comm, Nat.mul_add_mod, Nat.mod_eq_of_lt (by omega)]
    unfold BPart.set
    rw [if_pos (show i * d2 + J < (unitsUpTo d1 d2 R f (i * d2 + J)).b ∧ f i J < (unitsUpTo d1 d2 R f (i * d2 + J)).d ∧
      0 < (unitsUpTo d1 d2 R f (i * d2 + J)).m from ⟨hlt, hf i hi J (by omega), Nat.one_pos⟩)]
    simp only [Option.bind_some, Option.pure_def, Option.some.injEq]
    refine BPart.ext' rfl rfl rfl rfl fun b i' j' => ?_
    simp only [unitsUpTo]
    by_cases hb : b = i * d2 + J
    · subst hb
      rw [hd, hm]
      by_cases h : i' = f i J ∧ j' = 0
      · rw [if_pos ⟨rfl, h.1, h.2⟩, if_pos ⟨by omega, h.1, h.2⟩]
      · rw [if_neg (by tauto), if_neg (by omega), if_neg (by tauto)]
    · rw [if_neg (by tauto)]
      by_cases h : b < i * d2 + J
      · by_cases h' : i' = f (b / d2) (b % d2) ∧ j' = 0
        · rw [if_pos ⟨h, h'⟩, if_pos ⟨by omega, h'⟩]
        · rw [if_neg (by tauto), if_neg (by tauto)]
      · rw [if_neg (by tauto), if_neg (by omega)]

theorem units_loop {d1 d2 : Nat} {R : IrrepObj} {f : Nat → Nat → Nat} (hf : ∀ i < d1, ∀ j < d2, f i j < R.d) {I : Nat} (hI : I ≤ d1) :
    (List.range I).foldlM (fun P i => (List.range d2).foldlM (fun P j => BPart.set P (i * d2 + j) (f i j) 0 1) P) (unitsUpTo d1 d2 R f 0) =
      some (unitsUpTo d1 d2 R f (I * d2)) := by
  induction I with
  | zero => simp
  | succ I ih =>
    rw [List.range_succ, List.foldlM_append, ih (by omega)]
    simp only [Option.bind_eq_bind, Option.bind_some, List.foldlM_cons, List.foldlM_nil]
    rw [units_inner hf (by omega) (le_refl _), Option.bind_some, Nat.succ_mul]
    rfl

theorem unitsB_eq {lam : List Nat} {R : IrrepObj} (hR : mkIrrep lam = some R) {d1 d2 : Nat} {f : Nat → Nat → Nat}
    (hf : ∀ i < d1, ∀ j < d2, f i j < R.d) : unitsB lam d1 d2 f = some (unitsUpTo d1 d2 R f (d1 * d2)) := by
  unfold unitsB BPart.zero
  rw [hR]
  simp only [Option.bind_eq_bind, Option.bind_some]
  rw [if_pos (by norm_num)]
  simp only [Option.bind_some]
  rw [← units_loop hf (le_refl _)]
  congr 1

theorem unitPart_eq {lam : List Nat} {R : IrrepObj} (hR : mkIrrep lam = some R) {d1 d2 : Nat} (f : Nat → Nat → Nat) {x : Nat} (hx : x < d1 * d2) :
    unitPart lam (f (x / d2) (x % d2)) = some ((unitsUpTo d1 d2 R f (d1 * d2)).member x) := by
  unfold unitPart VPart.zero
  rw [hR]
  simp only [Option.bind_eq_bind, Option.bind_some]
  rw [if_pos (by norm_num)]
  simp only [Option.bind_some, Option.some.injEq]
  refine VPart.ext rfl rfl rfl fun i j => ?_
  simp only [unitsUpTo, BPart.member]
  by_cases h : i = f (x / d2) (x % d2) ∧ j = 0
  · rw [if_pos h, if_pos ⟨hx, h⟩]
  · rw [if_neg h, if_neg (by tauto)]

theorem mkSlotB_eq (eig : Eig) {d : Nat} (hd : 0 < d) (JM : Matrix (Fin d) (Fin d) ℝ) {sub : SnVecB} (hs : AllB d sub) (dt : SnType)
    (f : Fin d → SnVec) (hf : ∀ x, f x = member sub x) : mkSlotB eig JM sub dt = mkSlot eig JM f dt := by
  funext mu
  unfold mkSlotB mkSlot
  cases dt.lookup mu with
  | none => rfl
  | some K =>
    simp only [Option.bind_eq_bind, Option.bind_some]
    have hp : ∀ x, partOf (f x) mu = (partOfB sub mu).map (·.member x) := fun x => by rw [hf, partOf_member]
    cases e : partOfB sub mu with
    | none =>
      have : ((List.finRange d).mapM fun b => partOf (f b) mu) = none :=
        mapM_none (List.mem_finRange (⟨0, hd⟩ : Fin d)) (by rw [hp, e]; rfl)
      rw [this]
      rfl
    | some P =>
      have hP : ∀ x, partOf (f x) mu = some (P.member x) := fun x => by rw [hp, e]; rfl
      have : ((List.finRange d).mapM fun b => partOf (f b) mu) = some ((List.finRange d).map fun b : Fin d => P.member b) :=
        mapM_map _ _ _ fun b _ => hP b
      rw [this]
      have hhead : ((List.finRange d).map fun b : Fin d => P.member b).head? = some (P.member 0) := by
        obtain ⟨d', rfl⟩ : ∃ d', d = d' + 1 := ⟨d - 1, by omega⟩
        rw [List.finRange_succ]
        rfl
      simp only [Option.bind_some, hhead]
      by_cases hK : (P.m : Int) = K
      · rw [if_pos ⟨partOfB_b hs e, hK⟩, if_pos]
        · have hV : (fun b c => P.data b 0 c : Matrix (Fin d) (Fin K.toNat) ℝ) =
              fun (b : Fin d) (c : Fin K.toNat) => ((partOf (f b) mu).map fun q => q.data 0 c).getD 0 := by
            funext b c
            rw [hP b]
            rfl
          rw [hV]
          rfl
        · rw [List.all_eq_true]
          intro q hq
          obtain ⟨b, -, rfl⟩ := List.mem_map.1 hq
          exact decide_eq_true hK
      · rw [if_neg fun h => hK h.2, if_neg]
        rw [List.all_eq_true]
        intro h
        have := h (P.member (⟨0, hd⟩ : Fin d)) (List.mem_map.2 ⟨_, List.mem_finRange _, rfl⟩)
        exact hK (of_decide_eq_true this)

theorem subs_ne {n : Nat} (hn : 1 ≤ n) {a : List Nat} (ha : IsPartition (n + 1) a) : subs a ≠ [] := by
  intro h
  have h1 := dimOf_subs hn ha
  have h2 := dimOf_pos (by omega) ha
  rw [h] at h1
  simp at h1
  omega

theorem down_ne {n b : Nat} (hn : 1 ≤ n) {P : BPart} (hP : Ok (n + 1) b [P]) {w : SnVecB} (h : down P = some w) : w ≠ [] := by
  obtain ⟨R, h1, -, h3, -⟩ := downB_ok hn (P.member 0) (hP.member 0)
  have h4 := down_member P 0
  rw [h, h1] at h4
  have h5 := Option.some.inj h4
  intro hw
  rw [hw] at h5
  rw [← h5] at h3
  exact subs_ne hn (hP.part P (by simp)).1 h3.symm

theorem ok_single {n b : Nat} {P : BPart} (hb : P.b = b) (h1 : IsPartition n P.irrep.lambda) (h2 : mkIrrep P.irrep.lambda = some P.irrep)
    (h3 : P.d = P.irrep.d) : Ok n b [P] where
  size Q hQ := by rw [List.mem_singleton.1 hQ]; exact hb
  part Q hQ := by rw [List.mem_singleton.1 hQ]; exact ⟨h1, h2, h3⟩
  sorted := by simp

theorem learnB_eq (eig : Eig) {n : Nat} (hn : 1 ≤ n) {accB : SnVecB → SnType → BPart → BPart → Option (SnVecB × SnType)}
    {acc : SnVec → SnType → VPart → VPart → Option (SnVec × SnType)} (hacc : SimAcc n accB acc) {a b : List Nat} (ha : IsPartition (n + 1) a)
    (hb : IsPartition (n + 1) b) (tau dt : SnType) :
    learnB eig (cgVecWithB accB) (n + 1) a b tau dt = learn eig (cgVecWith acc) (n + 1) a b tau dt := by
  obtain ⟨ia, la, -, -⟩ := irrOf_spec (by omega) ha
  obtain ⟨ib, lb, -, -⟩ := irrOf_spec (by omega) hb
  have da : 0 < (irrOf a).d := dimOf_pos (by omega) ha
  have db : 0 < (irrOf b).d := dimOf_pos (by omega) hb
  have hd : 0 < (irrOf a).d * (irrOf b).d := Nat.mul_pos da db
  unfold learnB learn
  rw [ia, ib]
  simp only [Option.bind_eq_bind, Option.bind_some]
  cases (ProductRep.mk (irrOf a) (irrOf b)).jucysMurphy (n + 1 : Nat) with
  | none => rfl
  | some JM =>
    simp only [Option.bind_some]
    rw [unitsB_eq ia (d1 := (irrOf a).d) (d2 := (irrOf b).d) (f := fun i _ => i) (fun i hi j _ => hi),
      unitsB_eq ib (d1 := (irrOf a).d) (d2 := (irrOf b).d) (f := fun _ j => j) (fun i _ j hj => hj)]
    simp only [Option.bind_some]
    obtain ⟨p1, hp1⟩ : ∃ p1, p1 = unitsUpTo (irrOf a).d (irrOf b).d (irrOf a) (fun i _ => i) ((irrOf a).d * (irrOf b).d) := ⟨_, rfl⟩
    obtain ⟨p2, hp2⟩ : ∃ p2, p2 = unitsUpTo (irrOf a).d (irrOf b).d (irrOf b) (fun _ j => j) ((irrOf a).d * (irrOf b).d) := ⟨_, rfl⟩
    have o1 : Ok (n + 1) ((irrOf a).d * (irrOf b).d) [p1] := by
      rw [hp1]
      exact ok_single rfl (by show IsPartition (n + 1) (irrOf a).lambda; rw [la]; exact ha)
        (by show mkIrrep (irrOf a).lambda = _; rw [la]; exact ia) rfl
    have o2 : Ok (n + 1) ((irrOf a).d * (irrOf b).d) [p2] := by
      rw [hp2]
      exact ok_single rfl (by show IsPartition (n + 1) (irrOf b).lambda; rw [lb]; exact hb)
        (by show mkIrrep (irrOf b).lambda = _; rw [lb]; exact ib) rfl
    obtain ⟨xs, x1, x2, x3⟩ := SnVecB.down_ok hn o1
    obtain ⟨ys, y1, y2, y3⟩ := SnVecB.down_ok hn o2
    obtain ⟨v1, v2⟩ := cgVecWithB_member hacc x2 y2 (down_ne hn o1 x1) (down_ne hn o2 y1)
    rw [← hp1, ← hp2, x1, y1]
    simp only [Option.bind_some]
    have hsub : ∀ x : Fin ((irrOf a).d * (irrOf b).d), subProduct (cgVecWith acc) a b (fstIx (a := (irrOf a).d) (b := (irrOf b).d) x)
        (sndIx (a := (irrOf a).d) (b := (irrOf b).d) x) = (cgVecWithB accB xs ys).map (member · x) := by
      intro x
      have u1 := unitPart_eq ia (d1 := (irrOf a).d) (d2 := (irrOf b).d) (fun i _ => i) x.2
      have u2 := unitPart_eq ib (d1 := (irrOf a).d) (d2 := (irrOf b).d) (fun _ j => j) x.2
      rw [← hp1] at u1
      rw [← hp2] at u2
      have f1 : ((fstIx (a := (irrOf a).d) (b := (irrOf b).d) x : Fin _) : Nat) = x / (irrOf b).d := rfl
      have f2 : ((sndIx (a := (irrOf a).d) (b := (irrOf b).d) x : Fin _) : Nat) = x % (irrOf b).d := rfl
      unfold subProduct
      rw [f1, f2, u1, u2]
      simp only [Option.bind_eq_bind, Option.bind_some, x3, y3]
      exact (v1 x x.2).symm
    cases e : cgVecWithB accB xs ys with
    | none =>
      have : ((List.finRange (ProductRep.mk (irrOf a) (irrOf b)).d).mapM fun x => subProduct (cgVecWith acc) a b
          (fstIx (a := (irrOf a).d) (b := (irrOf b).d) x) (sndIx (a := (irrOf a).d) (b := (irrOf b).d) x)) = none :=
        mapM_none (List.mem_finRange (⟨0, hd⟩ : Fin ((irrOf a).d * (irrOf b).d))) (by rw [hsub, e]; rfl)
      rw [this]
      rfl
    | some sub =>
      have : ((List.finRange (ProductRep.mk (irrOf a) (irrOf b)).d).mapM fun x => subProduct (cgVecWith acc) a b
          (fstIx (a := (irrOf a).d) (b := (irrOf b).d) x) (sndIx (a := (irrOf a).d) (b := (irrOf b).d) x)) =
          some ((List.finRange (ProductRep.mk (irrOf a) (irrOf b)).d).map fun x : Fin _ => member sub x) :=
        mapM_map _ _ _ fun x _ => by rw [hsub x, e]; rfl
      rw [this]
      simp only [Option.bind_some]
      have hslot := mkSlotB_eq eig (d := (ProductRep.mk (irrOf a) (irrOf b)).d) hd JM (v2 sub e) dt
        (fun x => ((List.finRange (ProductRep.mk (irrOf a) (irrOf b)).d).map fun x : Fin _ => member sub x).getD x []) (fun x => by
          rw [List.getD_eq_getElem?_getD, List.getElem?_map, List.getElem?_eq_getElem (by rw [List.length_finRange]; exact x.2)]
          simp)
      rw [hslot]

end Snob
