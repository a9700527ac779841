import Verif.Proofs.KronInv
import Verif.Proofs.SnType
import Verif.Spec.CG

/-! # The multiplicities computed by the bank -/

namespace Snob

open IP
open scoped Nat

/-! ## The exact values -/

section
variable {n : Nat}

/-- the tensor product of three matrix representations -/
noncomputable def tens {ι κ μ : Type} [Fintype ι] [DecidableEq ι] [Fintype κ] [DecidableEq κ] [Fintype μ] [DecidableEq μ]
    (A : Equiv.Perm (Fin n) →* Matrix ι ι ℝ) (B : Equiv.Perm (Fin n) →* Matrix κ κ ℝ) (C : Equiv.Perm (Fin n) →* Matrix μ μ ℝ) :
    Equiv.Perm (Fin n) →* Matrix (ι × κ × μ) (ι × κ × μ) ℝ where
  toFun σ := Matrix.kroneckerMap (· * ·) (A σ) (Matrix.kroneckerMap (· * ·) (B σ) (C σ))
  map_one' := by rw [map_one, map_one, map_one, Matrix.one_kronecker_one, Matrix.one_kronecker_one]
  map_mul' σ τ := by
    rw [map_mul, map_mul, map_mul, Matrix.mul_kronecker_mul, Matrix.mul_kronecker_mul]

theorem finrank_tens {ι κ μ : Type} [Fintype ι] [DecidableEq ι] [Fintype κ] [DecidableEq κ] [Fintype μ] [DecidableEq μ]
    (A : Equiv.Perm (Fin n) →* Matrix ι ι ℝ) (B : Equiv.Perm (Fin n) →* Matrix κ κ ℝ) (C : Equiv.Perm (Fin n) →* Matrix μ μ ℝ) :
    (Module.finrank ℝ (fixedVecs (tens A B C)) : ℝ) = (∑ σ, Matrix.trace (A σ) * Matrix.trace (B σ) * Matrix.trace (C σ)) / n ! := by
  rw [finrank_fixed]
  congr 1
  refine Finset.sum_congr rfl fun σ _ => ?_
  show Matrix.trace (Matrix.kroneckerMap (· * ·) (A σ) (Matrix.kroneckerMap (· * ·) (B σ) (C σ))) = _
  rw [Matrix.trace_kronecker, Matrix.trace_kronecker, mul_assoc]

open Classical in
/-- the multiplicity -/
noncomputable def kronN (n : Nat) (a b c : List Nat) : Nat :=
  if h : IsPartition n a ∧ IsPartition n b ∧ IsPartition n c then
    Module.finrank ℝ (fixedVecs (tens (rho h.1) (rho h.2.1) (rho h.2.2))) else 0

variable {a b c : List Nat}

theorem kronN_eq (ha : IsPartition n a) (hb : IsPartition n b) (hc : IsPartition n c) : (kronN n a b c : ℝ) = kron ha hb hc := by
  unfold kronN
  rw [dif_pos ⟨ha, hb, hc⟩, finrank_tens]; rfl

theorem kronN_swap12 (n : Nat) (a b c : List Nat) : kronN n a b c = kronN n b a c := by
  by_cases h : IsPartition n a ∧ IsPartition n b ∧ IsPartition n c
  · obtain ⟨ha, hb, hc⟩ := h
    have : (kronN n a b c : ℝ) = kronN n b a c := by
      rw [kronN_eq ha hb hc, kronN_eq hb ha hc]
      unfold kron
      congr 1
      exact Finset.sum_congr rfl fun σ _ => by ring
    exact_mod_cast this
  · unfold kronN
    rw [dif_neg h, dif_neg (by tauto)]

theorem kronN_swap23 (n : Nat) (a b c : List Nat) : kronN n a b c = kronN n a c b := by
  by_cases h : IsPartition n a ∧ IsPartition n b ∧ IsPartition n c
  · obtain ⟨ha, hb, hc⟩ := h
    have : (kronN n a b c : ℝ) = kronN n a c b := by
      rw [kronN_eq ha hb hc, kronN_eq ha hc hb]
      unfold kron
      congr 1
      exact Finset.sum_congr rfl fun σ _ => by ring
    exact_mod_cast this
  · unfold kronN
    rw [dif_neg h, dif_neg (by tauto)]

theorem kronN_zero (hn : 1 ≤ n) (ha : IsPartition n a) (hb : IsPartition n b) (hc : IsPartition n c)
    (h : row c 0 + n < row a 0 + row b 0) : kronN n a b c = 0 := by
  have := kronN_eq ha hb hc
  rw [kron_zero ha hb hc h hn] at this
  exact_mod_cast this

theorem sum_pt (hn : 1 ≤ n) (f : List Nat → ℝ) : ((partitions n).map f).sum = ∑ p : Pt n, f p.1 := by
  rw [← List.sum_toFinset f (partitions_nodup n)]
  symm
  refine Finset.sum_bij (fun q _ => q.1) (fun q _ => ?_) (fun a _ b _ h => Subtype.ext h) (fun q hq => ?_) (fun _ _ => rfl)
  · rw [List.mem_toFinset, mem_partitions n hn]; exact q.2
  · rw [List.mem_toFinset, mem_partitions n hn] at hq
    exact ⟨⟨q, hq⟩, Finset.mem_univ _, rfl⟩

theorem chiVal_at {p : List Nat} (hp : IsPartition n p) (mu : List Nat) : chiVal n p mu = chiAt hp mu := by
  unfold chiVal; rw [dif_pos hp]

/-- the sum over the classes is the multiplicity -/
theorem classSum_eq (hn : 1 ≤ n) (ha : IsPartition n a) (hb : IsPartition n b) (hc : IsPartition n c) :
    ((partitions n).map fun mu => chiVal n a mu * chiVal n b mu * chiVal n c mu * (ccard n mu : ℝ)).sum / n ! = kronN n a b c := by
  rw [kronN_eq ha hb hc, sum_pt hn]
  unfold kron
  congr 1
  rw [sum_by_class]
  refine Finset.sum_congr rfl fun mu _ => ?_
  rw [Finset.sum_congr rfl (g := fun _ => chiAt ha mu.1 * chiAt hb mu.1 * chiAt hc mu.1), Finset.sum_const, nsmul_eq_mul,
    chiVal_at ha, chiVal_at hb, chiVal_at hc, mul_comm]
  · rfl
  · intro σ hσ
    have hσ' := (hasCycleType_iff mu.2 σ).2 (Finset.mem_filter.1 hσ).2
    rw [chi_class ha mu.2 hσ' (hasCycleType_block mu.2), chi_class hb mu.2 hσ' (hasCycleType_block mu.2),
      chi_class hc mu.2 hσ' (hasCycleType_block mu.2)]
    rfl

/-- the product of two characters is the sum of the characters of the constituents -/
theorem sum_kron_chi (ha : IsPartition n a) (hb : IsPartition n b) (σ : Equiv.Perm (Fin n)) :
    ∑ r : Pt n, (kronN n a b r.1 : ℝ) * chi r.2 σ = chi ha σ * chi hb σ := by
  classical
  have hf : (n ! : ℝ) ≠ 0 := by exact_mod_cast (Nat.factorial_pos n).ne'
  obtain ⟨nu, hnu⟩ := exists_cycleType σ
  have e : ∀ r : Pt n, (kronN n a b r.1 : ℝ) * chi r.2 σ =
      ∑ mu : Pt n, ((ccard n mu.1 : ℝ) * (chiAt ha mu.1 * chiAt hb mu.1) / n !) * (chiAt r.2 mu.1 * chiAt r.2 nu.1) := by
    intro r
    rw [kronN_eq ha hb r.2, chi_class r.2 nu.2 hnu (hasCycleType_block nu.2)]
    unfold kron
    rw [sum_by_class, div_mul_eq_mul_div, Finset.sum_mul, Finset.sum_div]
    refine Finset.sum_congr rfl fun mu _ => ?_
    rw [Finset.sum_congr rfl (g := fun _ => chiAt ha mu.1 * chiAt hb mu.1 * chiAt r.2 mu.1), Finset.sum_const, nsmul_eq_mul]
    · have h1 : ((Finset.univ.filter fun σ : Equiv.Perm (Fin n) => σ.cycleType = big mu.1).card : ℝ) = ccard n mu.1 := rfl
      have h2 : chi r.2 (blockPerm n nu.1 0) = chiAt r.2 nu.1 := rfl
      rw [h1, h2]; ring
    · intro τ hτ
      have hτ' := (hasCycleType_iff mu.2 τ).2 (Finset.mem_filter.1 hτ).2
      rw [chi_class ha mu.2 hτ' (hasCycleType_block mu.2), chi_class hb mu.2 hτ' (hasCycleType_block mu.2),
        chi_class r.2 mu.2 hτ' (hasCycleType_block mu.2)]
      rfl
  rw [Finset.sum_congr rfl fun r _ => e r, Finset.sum_comm]
  have e2 : ∀ mu : Pt n, ∑ r : Pt n, ((ccard n mu.1 : ℝ) * (chiAt ha mu.1 * chiAt hb mu.1) / n !) * (chiAt r.2 mu.1 * chiAt r.2 nu.1) =
      if mu = nu then chiAt ha nu.1 * chiAt hb nu.1 else 0 := by
    intro mu
    rw [← Finset.mul_sum, chi_columns]
    split_ifs with h
    · subst h
      have : (ccard n mu.1 : ℝ) * zee mu.1 = n ! := by exact_mod_cast ccard_mul_zee mu.2
      rw [← this] at hf ⊢
      rw [div_mul_eq_mul_div, div_eq_iff hf]
      ring
    · simp
  rw [Finset.sum_congr rfl fun mu _ => e2 mu, Finset.sum_ite_eq', if_pos (Finset.mem_univ _),
    chi_class ha nu.2 hnu (hasCycleType_block nu.2), chi_class hb nu.2 hnu (hasCycleType_block nu.2)]
  rfl

end

/-! ## The banks -/

/-- the banks are in a state that some history of calls leads to -/
def WorldOk (w : World) : Prop := ∃ ir ch, Rel w ir ch ∧ ∀ n, (ch n).Nodup

theorem worldOk_empty : WorldOk World.empty := ⟨_, _, rel_empty, fun _ => List.nodup_nil⟩

theorem WorldOk.exec {w : World} (h : WorldOk w) {c : Call} (hc : c.Valid) : ∃ w' v, w.exec c = some (w', v) ∧ WorldOk w' := by
  obtain ⟨ir, ch, hr, hn⟩ := h
  obtain ⟨w', e, h'⟩ := hr.exec hn c hc
  exact ⟨w', _, e, _, _, h', fun n => addAll_nodup (hn n)⟩

theorem WorldOk.mkSn {w : World} (h : WorldOk w) {n : Nat} (hn : 1 ≤ n) : ∃ w', w.mkSn n = some w' ∧ WorldOk w' := by
  obtain ⟨ir, ch, hr, hd⟩ := h
  obtain ⟨w', e, h', _⟩ := hr.mkSn hn
  exact ⟨w', e, _, _, h', hd⟩

theorem WorldOk.getCharacter {w : World} (h : WorldOk w) {n : Nat} (hn : 1 ≤ n) {p : List Nat} (hp : IsPartition n p) :
    ∃ w', w.getCharacter p = some (w', chiList n p) ∧ WorldOk w' := by
  obtain ⟨ir, ch, hr, hd⟩ := h
  obtain ⟨w', e, h'⟩ := hr.getCharacter hn hp
  refine ⟨w', e, _, _, h', fun m => ?_⟩
  by_cases e : m = n
  · subst e; rw [Function.update_self]; exact addNew_nodup (hd m)
  · rw [Function.update_of_ne e]; exact hd m

theorem WorldOk.cclass {w : World} (h : WorldOk w) {n : Nat} (hn : 1 ≤ n) {i : Nat} {c : List Nat} (hi : (partitions n)[i]? = some c) :
    ∃ w', w.onSn n (·.cclass i) = some (w', c) ∧ WorldOk w' := by
  obtain ⟨ir, ch, hr, hd⟩ := h
  obtain ⟨w', e, h', _⟩ := hr.onSn_id hn (cclass_ok n (ir n) hi)
  exact ⟨w', e, _, _, h', hd⟩

namespace CGState

theorem sumLoop_ok {n : Nat} (hn : 1 ≤ n) (a b c : List Nat) (k i : Nat) (hk : i + k = (partitions n).length) (w : World)
    (hw : WorldOk w) (t : ℝ) :
    ∃ w', sumLoop n (chiList n a) (chiList n b) (chiList n c) k i w t = some (w', t + (((partitions n).drop i).map fun mu =>
      chiVal n a mu * chiVal n b mu * chiVal n c mu * (ccard n mu : ℝ)).sum) ∧ WorldOk w' := by
  induction k generalizing i w t with
  | zero =>
    refine ⟨w, ?_, hw⟩
    rw [sumLoop, List.drop_eq_nil_of_le (by omega)]
    simp
  | succ k ih =>
    have hi : i < (partitions n).length := by omega
    have hget : (partitions n)[i]? = some (partitions n)[i] := List.getElem?_eq_getElem hi
    have hch : ∀ p, (chiList n p)[i]? = some (chiVal n p (partitions n)[i]) := by
      intro p
      unfold chiList
      rw [List.getElem?_map, hget]; rfl
    obtain ⟨w1, e1, h1⟩ := hw.cclass hn hget
    have e2 : classSize n (partitions n)[i] = some (ccard n (partitions n)[i]) :=
      classSize_card hn ((mem_partitions n hn _).1 (List.getElem_mem hi))
    obtain ⟨w2, e3, h2⟩ := ih (i + 1) (by omega) w1 h1 (t + chiVal n a (partitions n)[i] * chiVal n b (partitions n)[i] *
      chiVal n c (partitions n)[i] * (ccard n (partitions n)[i] : ℝ))
    refine ⟨w2, ?_, h2⟩
    rw [sumLoop]
    simp only [hch, e1, e2, Option.bind_eq_bind, Option.bind_some, e3]
    rw [List.drop_eq_getElem_cons hi, List.map_cons, List.sum_cons]
    simp only [Option.some.injEq, Prod.mk.injEq, true_and]
    ring

theorem toInt_nat (k : Nat) : toInt (k : ℝ) = k := by
  unfold toInt
  rw [if_pos (Nat.cast_nonneg _)]
  exact Int.floor_natCast k

/-- `t` lists the constituents of the product of `a` and `b` -/
structure IsProd (n : Nat) (a b : List Nat) (t : SnType) : Prop where
  ok : TypeOk n t
  mem : ∀ r, r ∈ parts t ↔ IsPartition n r ∧ 0 < kronN n a b r
  mult : ∀ r, IsPartition n r → mult t r = kronN n a b r

/-- what holds after every history -/
structure Ok (s : CGState) : Prop where
  w : WorldOk s.w
  coeffs : ∀ e ∈ s.coeffs, ∃ n, IsPartition n e.1.1 ∧ IsPartition n e.1.2.1 ∧ IsPartition n e.1.2.2 ∧
    e.2 = kronN n e.1.1 e.1.2.1 e.1.2.2
  taus : ∀ e ∈ s.taus, ∃ n, IsPartition n e.1.1 ∧ IsPartition n e.1.2 ∧ IsProd n e.1.1 e.1.2 e.2

theorem ok_empty : Ok CGState.empty := ⟨worldOk_empty, by simp [empty], by simp [empty]⟩

theorem eqb_part {n m : Nat} {a b : List Nat} (ha : IsPartition n a) (hb : IsPartition m b) : eqb a b = true ↔ a = b := by
  rw [eqb_iff]
  constructor
  · intro h
    have hs : m = n := by
      rw [← ha.sum, ← hb.sum]
      have e : ∀ l : List Nat, (∀ i, l.length ≤ i → row l i = 0) := fun l i hi => row_of_ge hi
      have key : ∀ (l l' : List Nat), (∀ i, row l i = row l' i) → l.sum = l'.sum := by
        intro l
        induction l with
        | nil =>
          intro l' h'
          have : ∀ x ∈ l', x = 0 := by
            intro x hx
            obtain ⟨i, hi, rfl⟩ := List.getElem_of_mem hx
            have := h' i
            rw [row_of_lt hi] at this
            simpa [row] using this.symm
          rw [List.sum_nil, List.sum_eq_zero this]
        | cons x l ih =>
          intro l' h'
          cases l' with
          | nil =>
            have h0 := h' 0
            have : l.sum = ([] : List Nat).sum := ih [] fun i => by have := h' (i + 1); simpa [row] using this
            simp only [List.sum_cons, this, List.sum_nil]
            simpa [row] using h0
          | cons y l' =>
            have h0 : x = y := by have := h' 0; simpa [row] using this
            rw [List.sum_cons, List.sum_cons, h0, ih l' fun i => by have := h' (i + 1); simpa [row] using this]
      exact (key a b h).symm
    subst hs
    exact ha.ext hb h
  · rintro rfl _; rfl

theorem orderP_perm {n : Nat} {a b c : List Nat} (ha : IsPartition n a) (hb : IsPartition n b) (hc : IsPartition n c) :
    ∃ x y z, orderP a b c = some (x, y, z) ∧ IsPartition n x ∧ IsPartition n y ∧ IsPartition n z ∧
      kronN n x y z = kronN n a b c := by
  have hs : IP.getn a = IP.getn b ∧ IP.getn a = IP.getn c := by
    rw [getn_eq, getn_eq, getn_eq, ha.sum, hb.sum, hc.sum]; exact ⟨rfl, rfl⟩
  unfold orderP
  rw [if_pos hs]
  unfold order3
  split_ifs
  · exact ⟨_, _, _, rfl, ha, hb, hc, rfl⟩
  · exact ⟨_, _, _, rfl, ha, hc, hb, kronN_swap23 _ _ _ _⟩
  · exact ⟨_, _, _, rfl, hc, ha, hb, by rw [kronN_swap12, kronN_swap23]⟩
  · exact ⟨_, _, _, rfl, hb, ha, hc, kronN_swap12 _ _ _ _⟩
  · exact ⟨_, _, _, rfl, hb, hc, ha, by rw [kronN_swap23, kronN_swap12]⟩
  · exact ⟨_, _, _, rfl, hc, ha, hb, by rw [kronN_swap12, kronN_swap23]⟩

theorem Ok.coeff {s : CGState} (h : Ok s) {n : Nat} (hn : 1 ≤ n) {a b c : List Nat} (ha : IsPartition n a) (hb : IsPartition n b)
    (hc : IsPartition n c) : ∃ s', s.coeff a b c = some (s', (kronN n a b c : Int)) ∧ Ok s' := by
  obtain ⟨x, y, z, eo, hx, hy, hz, ek⟩ := orderP_perm ha hb hc
  unfold CGState.coeff
  rw [eo]
  simp only [Option.bind_eq_bind, Option.bind_some]
  cases hf : s.coeffs.find? (fun e => tripleEq e.1 (x, y, z)) with
  | some e =>
    refine ⟨s, ?_, h⟩
    obtain ⟨m, h1, h2, h3, h4⟩ := h.coeffs e (List.mem_of_find?_eq_some hf)
    have hp := List.find?_some hf
    simp only [tripleEq, Bool.and_eq_true] at hp
    have e1 := (eqb_part h1 hx).1 hp.1.1
    have e2 := (eqb_part h2 hy).1 hp.1.2
    have e3 := (eqb_part h3 hz).1 hp.2
    have em : m = n := by rw [← h1.sum, e1, hx.sum]
    subst em
    simp only [h4, e1, e2, e3, ek]
  | none =>
    have hsum : IP.getn a = n := by rw [getn_eq, ha.sum]
    simp only [hsum]
    obtain ⟨w1, e1, h1⟩ := h.w.mkSn hn
    obtain ⟨w2, e2, h2⟩ := h1.getCharacter hn ha
    obtain ⟨w3, e3, h3⟩ := h2.getCharacter hn hb
    obtain ⟨w4, e4, h4⟩ := h3.getCharacter hn hc
    obtain ⟨w5, e5, h5⟩ := sumLoop_ok hn a b c (partitions n).length 0 (by omega) w4 h4 0
    have hlen : (chiList n a).length = (partitions n).length := by simp [chiList]
    rw [List.drop_zero, zero_add] at e5
    simp only [e1, e2, e3, e4, hlen, e5, Option.bind_some]
    rw [classSum_eq hn ha hb hc, toInt_nat]
    refine ⟨_, rfl, ⟨h5, ?_, h.taus⟩⟩
    intro e he
    rcases List.mem_append.1 he with he | he
    · exact h.coeffs e he
    · rw [List.mem_singleton] at he
      subst he
      exact ⟨n, hx, hy, hz, by rw [ek]⟩

theorem row_zero_eq {n : Nat} {p : List Nat} (hn : 1 ≤ n) (hp : IsPartition n p) : p[0]? = some (row p 0) := by
  cases p with
  | nil => have := hp.sum; simp at this; omega
  | cons x p => rfl

theorem productLoop_ok {n : Nat} (hn : 1 ≤ n) {a b : List Nat} (ha : IsPartition n a) (hb : IsPartition n b) {bound : Int}
    (hbd : bound = (row a 0 : Int) + row b 0 - n) (l : List (List Nat)) (hl : ∀ p ∈ l, IsPartition n p) (hd : l.Nodup)
    (s : CGState) (hs : Ok s) (t : SnType) (ht : TypeOk n t) (hdis : ∀ p ∈ l, p ∉ parts t) :
    ∃ s' t', productLoop a b bound l s t = some (s', t') ∧ Ok s' ∧ TypeOk n t' ∧
      (∀ r, r ∈ parts t' ↔ r ∈ parts t ∨ (r ∈ l ∧ 0 < kronN n a b r)) ∧
      (∀ r, mult t' r = if r ∈ l then (kronN n a b r : Int) else mult t r) := by
  induction l generalizing s t with
  | nil => exact ⟨s, t, rfl, hs, ht, by simp, by simp⟩
  | cons p l ih =>
    have hp := hl p (by simp)
    rw [List.nodup_cons] at hd
    rw [productLoop, row_zero_eq hn hp]
    simp only [Option.bind_eq_bind, Option.bind_some]
    have hpt := hdis p (by simp)
    -- one step: the entry for `p` is added if its multiplicity is positive
    obtain ⟨s1, t1, hstep, hs1, ht1, hm1, hv1⟩ : ∃ s1 t1, (if ((row p 0 : Nat) : Int) ≥ bound then
        (s.coeff a b p).bind fun x => if x.2 > 0 then (SnType.add t p x.2).bind fun t' => productLoop a b bound l x.1 t'
          else productLoop a b bound l x.1 t
        else productLoop a b bound l s t) = productLoop a b bound l s1 t1 ∧ Ok s1 ∧ TypeOk n t1 ∧
        (∀ r, r ∈ parts t1 ↔ r ∈ parts t ∨ (r = p ∧ 0 < kronN n a b p)) ∧
        (∀ r, mult t1 r = if r = p then (kronN n a b p : Int) else mult t r) := by
      by_cases hc : ((row p 0 : Nat) : Int) ≥ bound
      · obtain ⟨s1, e1, hs1⟩ := hs.coeff hn ha hb hp
        rw [if_pos hc, e1, Option.bind_some]
        by_cases hpos : 0 < kronN n a b p
        · obtain ⟨t1, a1, a2, a3, a4, _⟩ := SnType.add_ok (kronN n a b p : Int) ht hp
          refine ⟨s1, t1, ?_, hs1, a2, fun r => ?_, fun r => ?_⟩
          · have hpos' : ((kronN n a b p : Nat) : Int) > 0 := by exact_mod_cast hpos
            simp only [if_pos hpos', a1, Option.bind_some]
          · rw [a3]; tauto
          · rw [a4]
            split_ifs with e
            · subst e; rw [mult_of_not_mem hpt, zero_add]
            · rw [add_zero]
        · refine ⟨s1, t, ?_, hs1, ht, fun r => ?_, fun r => ?_⟩
          · have hpos' : ¬ ((kronN n a b p : Nat) : Int) > 0 := by exact_mod_cast hpos
            simp only [if_neg hpos']
          · tauto
          · split_ifs with e
            · subst e
              rw [mult_of_not_mem hpt, Nat.eq_zero_of_not_pos hpos]; rfl
            · rfl
      · have hz : kronN n a b p = 0 := kronN_zero hn ha hb hp (by omega)
        rw [if_neg hc]
        refine ⟨s, t, rfl, hs, ht, fun r => ?_, fun r => ?_⟩
        · rw [hz]; simp
        · split_ifs with e
          · subst e
            rw [mult_of_not_mem hpt, hz]; rfl
          · rfl
    obtain ⟨s2, t2, e2, hs2, ht2, hm2, hv2⟩ := ih (fun q hq => hl q (by simp [hq])) hd.2 s1 hs1 t1 ht1 (by
      intro q hq h
      rcases (hm1 q).1 h with h | ⟨rfl, -⟩
      · exact hdis q (by simp [hq]) h
      · exact hd.1 hq)
    refine ⟨s2, t2, ?_, hs2, ht2, fun r => ?_, fun r => ?_⟩
    · rw [← e2, ← hstep]
    · rw [hm2, hm1]
      simp only [List.mem_cons]
      constructor
      · rintro ((h | ⟨rfl, h⟩) | h)
        · exact Or.inl h
        · exact Or.inr ⟨Or.inl rfl, h⟩
        · exact Or.inr ⟨Or.inr h.1, h.2⟩
      · rintro (h | ⟨rfl | h, h'⟩)
        · exact Or.inl (Or.inl h)
        · exact Or.inl (Or.inr ⟨rfl, h'⟩)
        · exact Or.inr ⟨h, h'⟩
    · rw [hv2, hv1]
      by_cases e1 : r ∈ l
      · rw [if_pos e1, if_pos (by simp [e1])]
      · by_cases e2 : r = p
        · subst e2; simp [e1]
        · rw [if_neg e1, if_neg e2, if_neg (by simp [e1, e2])]

theorem Ok.product {s : CGState} (h : Ok s) {n : Nat} (hn : 1 ≤ n) {a b : List Nat} (ha : IsPartition n a) (hb : IsPartition n b) :
    ∃ s' t, s.product a b = some (s', t) ∧ IsProd n a b t ∧ Ok s' := by
  unfold CGState.product
  cases hf : s.taus.find? (fun e => IP.eqb e.1.1 a && IP.eqb e.1.2 b) with
  | some e =>
    refine ⟨s, e.2, rfl, ?_, h⟩
    obtain ⟨m, h1, h2, h3⟩ := h.taus e (List.mem_of_find?_eq_some hf)
    have hp := List.find?_some hf
    simp only [Bool.and_eq_true] at hp
    have e1 := (eqb_part h1 ha).1 hp.1
    have e2 := (eqb_part h2 hb).1 hp.2
    have em : m = n := by rw [← h1.sum, e1, ha.sum]
    subst em
    rwa [e1, e2] at h3
  | none =>
    have hsum : IP.getn a = n := by rw [getn_eq, ha.sum]
    simp only [hsum, row_zero_eq hn ha, row_zero_eq hn hb, Option.bind_eq_bind, Option.bind_some]
    obtain ⟨s', t', e1, h1, h2, h3, h4⟩ := productLoop_ok hn ha hb (bound := (n : Int) - (2 * n - row a 0 - row b 0)) (by ring)
      (partitions n) (fun p hp => (mem_partitions n hn p).1 hp) (partitions_nodup n) s h [] (typeOk_nil n) (by simp [parts])
    have hprod : IsProd n a b t' := by
      refine ⟨h2, fun r => ?_, fun r hr => ?_⟩
      · rw [h3, mem_partitions n hn]; simp [parts]
      · rw [h4, if_pos ((mem_partitions n hn r).2 hr)]
    refine ⟨{ s' with taus := s'.taus ++ [((a, b), t')] }, t', by rw [e1]; rfl, hprod, ⟨h1.w, h1.coeffs, ?_⟩⟩
    intro e he
    rcases List.mem_append.1 he with he | he
    · exact h1.taus e he
    · rw [List.mem_singleton] at he
      subst he
      exact ⟨n, ha, hb, hprod⟩

theorem Ok.typesInner {n : Nat} (hn : 1 ≤ n) {p : List Nat} (hp : IsPartition n p) (m : Int) (u : SnType) (hu : TypeOk n u)
    (s : CGState) (hs : Ok s) (R : SnType) (hR : TypeOk n R) :
    ∃ s' R', typesInner p m u s R = some (s', R') ∧ Ok s' ∧ TypeOk n R' ∧
      (∀ r, r ∈ parts R' ↔ r ∈ parts R ∨ (IsPartition n r ∧ ∃ q ∈ parts u, 0 < kronN n p q r)) ∧
      (∀ r, IsPartition n r → mult R' r = mult R r + m * typeSum (fun q => kronN n p q r) u) := by
  induction u generalizing s R with
  | nil => exact ⟨s, R, rfl, hs, hR, by simp [parts], by simp [typeSum]⟩
  | cons e u ih =>
    obtain ⟨q, k⟩ := e
    obtain ⟨hq, -, hu'⟩ := typeOk_cons.1 hu
    obtain ⟨s1, t, e1, h1, hs1⟩ := hs.product hn hp hq
    obtain ⟨R1, e2, h2, h3, h4, -⟩ := SnType.addType_ok (m * k) hR h1.ok
    obtain ⟨s2, R2, e3, hs2, h5, h6, h7⟩ := ih hu' s1 hs1 R1 h2
    refine ⟨s2, R2, ?_, hs2, h5, fun r => ?_, fun r hr => ?_⟩
    · simp only [CGState.typesInner, e1, e2, e3, Option.bind_eq_bind, Option.bind_some]
    · rw [h6, h3, h1.mem]
      have e : parts ((q, k) :: u) = q :: parts u := rfl
      rw [e]
      simp only [List.mem_cons, exists_eq_or_imp]
      tauto
    · rw [h7 r hr, h4, h1.mult r hr]
      have e : typeSum (fun q => (kronN n p q r : Int)) ((q, k) :: u) = k * kronN n p q r + typeSum (fun q => (kronN n p q r : Int)) u := by
        simp [typeSum]
      rw [e]; ring

theorem Ok.typesOuter {n : Nat} (hn : 1 ≤ n) {u : SnType} (hu : TypeOk n u) (t : SnType) (ht : TypeOk n t)
    (s : CGState) (hs : Ok s) (R : SnType) (hR : TypeOk n R) :
    ∃ s' R', typesOuter u t s R = some (s', R') ∧ Ok s' ∧ TypeOk n R' ∧
      (∀ r, r ∈ parts R' ↔ r ∈ parts R ∨ (IsPartition n r ∧ ∃ p ∈ parts t, ∃ q ∈ parts u, 0 < kronN n p q r)) ∧
      (∀ r, IsPartition n r → mult R' r = mult R r + typeSum (fun p => typeSum (fun q => kronN n p q r) u) t) := by
  induction t generalizing s R with
  | nil => exact ⟨s, R, rfl, hs, hR, by simp [parts], by simp [typeSum]⟩
  | cons e t ih =>
    obtain ⟨p, m⟩ := e
    obtain ⟨hp, -, ht'⟩ := typeOk_cons.1 ht
    obtain ⟨s1, R1, e1, hs1, h1, h2, h3⟩ := Ok.typesInner hn hp m u hu s hs R hR
    obtain ⟨s2, R2, e2, hs2, h4, h5, h6⟩ := ih ht' s1 hs1 R1 h1
    refine ⟨s2, R2, ?_, hs2, h4, fun r => ?_, fun r hr => ?_⟩
    · simp only [CGState.typesOuter, e1, e2, Option.bind_eq_bind, Option.bind_some]
    · rw [h5, h2]
      have e : parts ((p, m) :: t) = p :: parts t := rfl
      rw [e]
      simp only [List.mem_cons, exists_eq_or_imp]
      constructor
      · rintro ((h | ⟨a, b⟩) | ⟨a, b⟩)
        · exact Or.inl h
        · exact Or.inr ⟨a, Or.inl b⟩
        · exact Or.inr ⟨a, Or.inr b⟩
      · rintro (h | ⟨a, b | b⟩)
        · exact Or.inl (Or.inl h)
        · exact Or.inl (Or.inr ⟨a, b⟩)
        · exact Or.inr ⟨a, b⟩
    · rw [h6 r hr, h3 r hr]
      have e : ∀ d, typeSum d ((p, m) :: t) = m * d p + typeSum d t := by
        intro d; simp [typeSum]
      rw [e]; ring

theorem Ok.productTypes {s : CGState} (h : Ok s) {n : Nat} (hn : 1 ≤ n) {t u : SnType} (ht : TypeOk n t) (hu : TypeOk n u) :
    ∃ s' R, s.productTypes t u = some (s', R) ∧ Ok s' ∧ TypeOk n R ∧
      (∀ r, r ∈ parts R ↔ (IsPartition n r ∧ ∃ p ∈ parts t, ∃ q ∈ parts u, 0 < kronN n p q r)) ∧
      (∀ r, IsPartition n r → mult R r = typeSum (fun p => typeSum (fun q => kronN n p q r) u) t) := by
  obtain ⟨s', R, e, h1, h2, h3, h4⟩ := Ok.typesOuter hn hu t ht s h [] (typeOk_nil n)
  refine ⟨s', R, e, h1, h2, fun r => ?_, fun r hr => ?_⟩
  · rw [h3]; simp [parts]
  · rw [h4 r hr]
    have : mult [] r = 0 := rfl
    rw [this, zero_add]

theorem Ok.exec {s : CGState} (h : Ok s) {c : CGCall} (hc : c.Valid) : ∃ s' v, s.exec c = some (s', v) ∧ Ok s' := by
  cases c with
  | base c =>
    obtain ⟨w', v, e, h'⟩ := h.w.exec hc
    exact ⟨{ s with w := w' }, .base v, by simp only [CGState.exec, e, Option.bind_eq_bind, Option.bind_some], h', h.coeffs, h.taus⟩
  | coeff a b c =>
    obtain ⟨n, hn, ha, hb, hc⟩ := hc
    obtain ⟨s', e, h'⟩ := h.coeff hn ha hb hc
    exact ⟨s', .int (kronN n a b c), by simp only [CGState.exec, e, Option.bind_eq_bind, Option.bind_some], h'⟩
  | product a b =>
    obtain ⟨n, hn, ha, hb⟩ := hc
    obtain ⟨s', t, e, _, h'⟩ := h.product hn ha hb
    exact ⟨s', .type t, by simp only [CGState.exec, e, Option.bind_eq_bind, Option.bind_some], h'⟩
  | productTypes t u =>
    obtain ⟨n, hn, ht, hu⟩ := hc
    obtain ⟨s', R, e, h', _⟩ := h.productTypes hn ht hu
    exact ⟨s', .type R, by simp only [CGState.exec, e, Option.bind_eq_bind, Option.bind_some], h'⟩

theorem Ok.run {s : CGState} (h : Ok s) (cs : List CGCall) (hc : ∀ c ∈ cs, c.Valid) : ∃ s', s.run cs = some s' ∧ Ok s' := by
  induction cs generalizing s with
  | nil => exact ⟨s, rfl, h⟩
  | cons c cs ih =>
    obtain ⟨s1, v, e, h1⟩ := h.exec (hc c (by simp))
    obtain ⟨s2, e2, h2⟩ := ih h1 fun c hc' => hc c (by simp [hc'])
    exact ⟨s2, by simp only [CGState.run, e, Option.bind_eq_bind, Option.bind_some, e2], h2⟩

end CGState

end Snob
