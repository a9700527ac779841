import Verif.Proofs.CG
import Verif.Proofs.IrrepSpec
import Verif.Proofs.TrivSign
import Verif.Proofs.FFTForm

/-! # Properties C35, C36: multiplicities in tensor products -/

namespace Snob

open IP
open scoped Nat

theorem typeSum_real {n : Nat} {t : SnType} (ht : TypeOk n t) (f : List Nat → ℝ) :
    ∑ r : Pt n, (mult t r.1 : ℝ) * f r.1 = (t.map fun e => (e.2 : ℝ) * f e.1).sum := by
  classical
  induction t with
  | nil => simp [mult]
  | cons e t ih =>
    obtain ⟨k, v⟩ := e
    obtain ⟨h1, h2, h3⟩ := typeOk_cons.1 ht
    have hk : k ∉ parts t := fun h => lexGreater_irrefl _ (h2 k h)
    rw [List.map_cons, List.sum_cons, ← ih h3]
    have : ∀ r : Pt n, (mult ((k, v) :: t) r.1 : ℝ) * f r.1 = (if r = (⟨k, h1⟩ : Pt n) then (v : ℝ) * f k else 0) + (mult t r.1 : ℝ) * f r.1 := by
      intro r
      rw [mult_cons]
      by_cases e : r.1 = k
      · have e' : r = (⟨k, h1⟩ : Pt n) := Subtype.ext e
        rw [if_pos e, if_pos e', e, mult_of_not_mem hk]; simp
      · have e' : r ≠ (⟨k, h1⟩ : Pt n) := fun h => e (congrArg Subtype.val h)
        rw [if_neg e, if_neg e', zero_add]
    rw [Finset.sum_congr rfl fun r _ => this r, Finset.sum_add_distrib, Finset.sum_ite_eq', if_pos (Finset.mem_univ _)]

/-- the multiplicity is the dimension of the space of invariants of the matrices that the irreps return -/
theorem kronN_invariants {n : Nat} {a b c : List Nat} {ha : IsPartition n a} {hb : IsPartition n b} {hc : IsPartition n c}
    {R S T : IrrepObj} (h : Repr' ha R) (g : Repr' hb S) (k : Repr' hc T) {A B C : Equiv.Perm (Fin n) → Nat → Nat → ℝ}
    (hA : ∀ σ (i j : Fin R.d), A σ i j = h.rep σ i j) (hB : ∀ σ (i j : Fin S.d), B σ i j = g.rep σ i j)
    (hC : ∀ σ (i j : Fin T.d), C σ i j = k.rep σ i j) :
    Module.finrank ℝ (tripleInvariants R.d S.d T.d A B C) = kronN n a b c := by
  have e : tripleInvariants R.d S.d T.d A B C = fixedVecs (tens h.rep g.rep k.rep) := by
    ext x
    have hx : ∀ (σ : Equiv.Perm (Fin n)) (i : Fin R.d) (j : Fin S.d) (l : Fin T.d),
        (tens h.rep g.rep k.rep σ).mulVec x (i, j, l) = ∑ i' : Fin R.d, ∑ j' : Fin S.d, ∑ k' : Fin T.d,
          A σ i i' * B σ j j' * C σ l k' * x (i', j', k') := by
      intro σ i j l
      show ∑ y, Matrix.kroneckerMap (· * ·) (h.rep σ) (Matrix.kroneckerMap (· * ·) (g.rep σ) (k.rep σ)) (i, j, l) y * x y = _
      rw [Fintype.sum_prod_type]
      refine Finset.sum_congr rfl fun i' _ => ?_
      rw [Fintype.sum_prod_type]
      refine Finset.sum_congr rfl fun j' _ => Finset.sum_congr rfl fun k' _ => ?_
      rw [Matrix.kroneckerMap_apply, Matrix.kroneckerMap_apply, hA, hB, hC]
      ring
    constructor
    · intro hm σ
      funext y
      obtain ⟨i, j, l⟩ := y
      rw [hx]; exact hm σ i j l
    · intro hm σ i j l
      rw [← hx]; exact congrFun (hm σ) (i, j, l)
  have : (Module.finrank ℝ (tripleInvariants R.d S.d T.d A B C) : ℝ) = kronN n a b c := by
    rw [e, finrank_tens, kronN_eq ha hb hc]
    unfold kron
    congr 1
    refine Finset.sum_congr rfl fun σ _ => ?_
    rw [← h.trace_rep, ← g.trace_rep, ← k.trace_rep]; rfl
  exact_mod_cast this

theorem chi_row {n : Nat} (hn : 1 ≤ n) (σ : Equiv.Perm (Fin n)) : chi (isPartition_row hn) σ = 1 := by
  show ∑ u, rho (isPartition_row hn) σ u u = 1
  rw [Finset.sum_congr rfl (g := fun _ => (1 : ℝ)) fun u _ => rho_row hn σ u u, Finset.sum_const, Finset.card_univ, card_Wd (isPartition_row hn),
    words_self hn]
  simp

theorem kronN_row {n : Nat} (hn : 1 ≤ n) {p q : List Nat} (hp : IsPartition n p) (hq : IsPartition n q) :
    kronN n [n] p q = if p = q then 1 else 0 := by
  have : (kronN n [n] p q : ℝ) = if p = q then 1 else 0 := by
    rw [kronN_eq (isPartition_row hn) hp hq]
    unfold kron
    rw [Finset.sum_congr rfl (g := fun σ => chi hp σ * chi hq σ) fun σ _ => by rw [chi_row hn, one_mul], chi_orthogonality]
    have hf : (n ! : ℝ) ≠ 0 := by exact_mod_cast (Nat.factorial_pos n).ne'
    split_ifs <;> simp [hf]
  exact_mod_cast this

namespace Props

/-- **C35.** After any history of calls, `coeff` returns the dimension of the space of invariants of the tensor product
of the three irreps, a natural number. -/
theorem C35_coeff (n : Nat) (hn : 1 ≤ n) (a b c : List Nat) (ha : IsPartition n a) (hb : IsPartition n b) (hc : IsPartition n c) :
    ∃ R S T, mkIrrep a = some R ∧ mkIrrep b = some S ∧ mkIrrep c = some T ∧
      ∃ A B C : Equiv.Perm (Fin n) → Nat → Nat → ℝ,
        (∀ σ, R.eval (enc σ) = some (A σ) ∧ S.eval (enc σ) = some (B σ) ∧ T.eval (enc σ) = some (C σ)) ∧
        ∀ cs : List CGCall, (∀ x ∈ cs, x.Valid) → ∃ s s', CGState.empty.run cs = some s ∧
          s.exec (.coeff a b c) = some (s', .int (Module.finrank ℝ (tripleInvariants R.d S.d T.d A B C))) := by
  obtain ⟨R, hR, _, h⟩ := exists_repr hn ha
  obtain ⟨S, hS, _, g⟩ := exists_repr hn hb
  obtain ⟨T, hT, _, k⟩ := exists_repr hn hc
  choose A hA hA' using h.eval_eq
  choose B hB hB' using g.eval_eq
  choose C hC hC' using k.eval_eq
  refine ⟨R, S, T, hR, hS, hT, A, B, C, fun σ => ⟨hA σ, hB σ, hC σ⟩, fun cs hcs => ?_⟩
  obtain ⟨s, e, hs⟩ := CGState.ok_empty.run cs hcs
  obtain ⟨s', e', _⟩ := hs.coeff hn ha hb hc
  refine ⟨s, s', e, ?_⟩
  rw [kronN_invariants h g k hA' hB' hC']
  simp only [CGState.exec, e', Option.bind_eq_bind, Option.bind_some]

/-- **C35.** The value does not depend on the order of the three arguments, nor on what was called before. -/
theorem C35_symmetric (n : Nat) (hn : 1 ≤ n) (a b c : List Nat) (ha : IsPartition n a) (hb : IsPartition n b) (hc : IsPartition n c) :
    ∃ K : Nat, ∀ x y z, [x, y, z].Perm [a, b, c] → ∀ cs : List CGCall, (∀ x ∈ cs, x.Valid) →
      ∃ s s', CGState.empty.run cs = some s ∧ s.exec (.coeff x y z) = some (s', .int K) := by
  classical
  refine ⟨kronN n a b c, fun x y z hp cs hcs => ?_⟩
  have hall : ∀ u ∈ [x, y, z], IsPartition n u := by
    intro u hu
    have := hp.mem_iff.1 hu
    simp only [List.mem_cons, List.not_mem_nil, or_false] at this
    rcases this with rfl | rfl | rfl <;> assumption
  have hx := hall x (by simp)
  have hy := hall y (by simp)
  have hz := hall z (by simp)
  have hk : kronN n x y z = kronN n a b c := by
    have h1 : (kronN n x y z : ℝ) = kronN n a b c := by
      have e : ∀ {a b c : List Nat} (ha : IsPartition n a) (hb : IsPartition n b) (hc : IsPartition n c),
          (kronN n a b c : ℝ) = (∑ σ, (([a, b, c].map fun p => if h : IsPartition n p then chi h σ else 0).prod)) / n ! := by
        intro a b c ha hb hc
        rw [kronN_eq ha hb hc]
        unfold kron
        congr 1
        refine Finset.sum_congr rfl fun σ _ => ?_
        simp only [List.map_cons, List.map_nil, List.prod_cons, List.prod_nil, dif_pos ha, dif_pos hb, dif_pos hc]
        ring
      rw [e hx hy hz, e ha hb hc]
      congr 1
      exact Finset.sum_congr rfl fun σ _ => (hp.map _).prod_eq
    exact_mod_cast h1
  obtain ⟨s, e, hs⟩ := CGState.ok_empty.run cs hcs
  obtain ⟨s', e', _⟩ := hs.coeff hn hx hy hz
  refine ⟨s, s', e, ?_⟩
  rw [← hk]
  simp only [CGState.exec, e', Option.bind_eq_bind, Option.bind_some]

/-- The calls of the following example respect the preconditions. -/
example : CGCall.Valid (.coeff [2, 1] [2, 1] [1, 1, 1]) ∧ CGCall.Valid (.product [2, 2] [3, 1]) :=
  ⟨⟨3, by decide, ⟨by decide, by decide, rfl⟩, ⟨by decide, by decide, rfl⟩, ⟨by decide, by decide, rfl⟩⟩,
    ⟨4, by decide, ⟨by decide, by decide, rfl⟩, ⟨by decide, by decide, rfl⟩⟩⟩

/-- **C36.** After any history of calls, `CGproduct(a,b)` lists exactly the partitions of `n` of positive multiplicity,
each with the value that `coeff` returns; its characters add up to the product of the characters, and its dimensions to
the product of the dimensions. -/
theorem C36_product (n : Nat) (hn : 1 ≤ n) (a b : List Nat) (ha : IsPartition n a) (hb : IsPartition n b) :
    ∃ t, TypeOk n t ∧
      (∀ cs : List CGCall, (∀ x ∈ cs, x.Valid) → ∃ s s', CGState.empty.run cs = some s ∧
        s.exec (.product a b) = some (s', .type t) ∧
        ∀ r, IsPartition n r → ∃ s'', s.exec (.coeff a b r) = some (s'', .int (mult t r))) ∧
      (∀ r, r ∈ parts t ↔ IsPartition n r ∧ 0 < mult t r) ∧
      (∃ X : List Nat → List Nat → ℝ, (∀ r mu, IsPartition n r → IsPartition n mu →
          ∃ R, mkIrrep r = some R ∧ R.character mu = some (X r mu)) ∧
        ∀ mu, IsPartition n mu → (t.map fun e => (e.2 : ℝ) * X e.1 mu).sum = X a mu * X b mu) ∧
      ∃ d : List Nat → Nat, (∀ r, IsPartition n r → ∃ R, mkIrrep r = some R ∧ R.d = d r) ∧
        typeSum (fun r => d r) t = d a * d b := by
  obtain ⟨_, t, _, ht, _⟩ := CGState.ok_empty.product hn ha hb
  have hm : ∀ r : Pt n, ((mult t r.1 : Int) : ℝ) = (kronN n a b r.1 : ℝ) := by
    intro r; rw [ht.mult r.1 r.2]; norm_cast
  refine ⟨t, ht.ok, fun cs hcs => ?_, fun r => ?_, ⟨chiVal n, fun r mu hr hmu => ?_, fun mu hmu => ?_⟩,
    dimW n, fun r hr => ?_, ?_⟩
  · obtain ⟨s, e, hs⟩ := CGState.ok_empty.run cs hcs
    obtain ⟨s', t', e', ht', _⟩ := hs.product hn ha hb
    have htt : t' = t := ht'.ok.ext ht.ok (fun x => by rw [ht'.mem, ht.mem]) (fun x => by
      by_cases hx : IsPartition n x
      · rw [ht'.mult x hx, ht.mult x hx]
      · rw [mult_of_not_mem fun h => hx (ht'.ok.all x h), mult_of_not_mem fun h => hx (ht.ok.all x h)])
    refine ⟨s, s', e, ?_, fun r hr => ?_⟩
    · simp only [CGState.exec, e', Option.bind_eq_bind, Option.bind_some, htt]
    · obtain ⟨s'', e'', _⟩ := hs.coeff hn ha hb hr
      refine ⟨s'', ?_⟩
      simp only [CGState.exec, e'', Option.bind_eq_bind, Option.bind_some, ht.mult r hr]
  · rw [ht.mem]
    constructor
    · rintro ⟨h1, h2⟩; exact ⟨h1, by rw [ht.mult r h1]; exact_mod_cast h2⟩
    · rintro ⟨h1, h2⟩
      rw [ht.mult r h1] at h2
      exact ⟨h1, by exact_mod_cast h2⟩
  · obtain ⟨R, hR, _, h⟩ := exists_repr hn hr
    exact ⟨R, hR, by rw [h.character_eq hmu _ (hasCycleType_block hmu), chiVal_at hr]; rfl⟩
  · rw [← typeSum_real ht.ok fun r => chiVal n r mu, chiVal_at ha, chiVal_at hb]
    rw [Finset.sum_congr rfl (g := fun r : Pt n => (kronN n a b r.1 : ℝ) * chi r.2 (blockPerm n mu 0)), sum_kron_chi ha hb]
    · rfl
    · intro r _
      rw [hm, chiVal_at r.2]; rfl
  · obtain ⟨R, hR, _, h⟩ := exists_repr hn hr
    exact ⟨R, hR, by rw [h.d_eq]; rfl⟩
  · have h1 := typeSum_real ht.ok fun r => (dimW n r : ℝ)
    rw [Finset.sum_congr rfl (g := fun r : Pt n => kron ha hb r.2 * dimW n r.1), sum_kron_dim ha hb] at h1
    · have h2 : ((typeSum (fun r => (dimW n r : Int)) t : Int) : ℝ) = (t.map fun e => (e.2 : ℝ) * (dimW n e.1 : ℝ)).sum := by
        unfold typeSum
        rw [Int.cast_list_sum, List.map_map]
        congr 1
        refine List.map_congr_left fun e _ => ?_
        simp
      rw [← h1] at h2
      exact_mod_cast h2
    · intro r _
      rw [hm, kronN_eq ha hb r.2]

/-- **C36.** The product of the trivial irrep with an irrep is this irrep. -/
theorem C36_trivial (n : Nat) (hn : 1 ≤ n) (p : List Nat) (hp : IsPartition n p) (cs : List CGCall) (hcs : ∀ x ∈ cs, x.Valid) :
    ∃ s s', CGState.empty.run cs = some s ∧ s.exec (.product [n] p) = some (s', .type [(p, 1)]) := by
  obtain ⟨s, e, hs⟩ := CGState.ok_empty.run cs hcs
  obtain ⟨s', t, e', ht, _⟩ := hs.product hn (isPartition_row hn) hp
  have h1 : TypeOk n [(p, 1)] := typeOk_cons.2 ⟨hp, by simp [parts], typeOk_nil n⟩
  have htt : t = [(p, 1)] := ht.ok.ext h1 (fun x => by
    rw [ht.mem]
    simp only [parts, List.map_cons, List.map_nil, List.mem_singleton]
    constructor
    · rintro ⟨h1, h2⟩
      rw [kronN_row hn hp h1] at h2
      split_ifs at h2 with h
      · exact h.symm
      · omega
    · rintro rfl; exact ⟨hp, by rw [kronN_row hn hp hp]; simp⟩) (fun x => by
    by_cases hx : IsPartition n x
    · rw [ht.mult x hx, kronN_row hn hp hx, mult_cons]
      by_cases e : x = p
      · simp [e]
      · rw [if_neg e, if_neg (fun h => e h.symm)]; rfl
    · rw [mult_of_not_mem fun h => hx (ht.ok.all x h), mult_of_not_mem fun h => hx (h1.all x h)])
  refine ⟨s, s', e, ?_⟩
  simp only [CGState.exec, e', Option.bind_eq_bind, Option.bind_some, htt]

/-- After asking for another product and a coefficient, the product of `{3}` and `{2,1}` is `{2,1}`. -/
example : ∃ s s', CGState.empty.run [.product [2, 1] [2, 1], .coeff [2, 2] [3, 1] [4]] = some s ∧
    s.exec (.product [3] [2, 1]) = some (s', .type [([2, 1], 1)]) :=
  C36_trivial 3 (by decide) [2, 1] ⟨by decide, by decide, rfl⟩ _ (by
    intro x hx
    simp only [List.mem_cons, List.not_mem_nil, or_false] at hx
    rcases hx with rfl | rfl
    · exact ⟨3, by decide, ⟨by decide, by decide, rfl⟩, ⟨by decide, by decide, rfl⟩⟩
    · exact ⟨4, by decide, ⟨by decide, by decide, rfl⟩, ⟨by decide, by decide, rfl⟩, ⟨by decide, by decide, rfl⟩⟩)

/-- **C36.** `CGproduct` of types is bilinear in the multiplicities: the multiplicity of `r` in `CGproduct(t,u)` is the
sum over the entries of `t` and `u` of the product of their multiplicities with the value of `coeff`. -/
theorem C36_types (n : Nat) (hn : 1 ≤ n) (t u : SnType) (ht : TypeOk n t) (hu : TypeOk n u) :
    ∃ (R : SnType) (K : List Nat → List Nat → List Nat → Nat), TypeOk n R ∧
      (∀ cs : List CGCall, (∀ x ∈ cs, x.Valid) → ∃ s s', CGState.empty.run cs = some s ∧
        s.exec (.productTypes t u) = some (s', .type R) ∧
        ∀ p q r, IsPartition n p → IsPartition n q → IsPartition n r →
          ∃ s'', s.exec (.coeff p q r) = some (s'', .int (K p q r))) ∧
      (∀ r, IsPartition n r → mult R r = typeSum (fun p => typeSum (fun q => K p q r) u) t) ∧
      (∀ r, r ∈ parts R ↔ IsPartition n r ∧ ∃ p ∈ parts t, ∃ q ∈ parts u, 0 < K p q r) := by
  obtain ⟨_, R, _, _, h1, h2, h3⟩ := CGState.ok_empty.productTypes hn ht hu
  refine ⟨R, kronN n, h1, fun cs hcs => ?_, h3, h2⟩
  obtain ⟨s, e, hs⟩ := CGState.ok_empty.run cs hcs
  obtain ⟨s', R', e', _, h1', h2', h3'⟩ := hs.productTypes hn ht hu
  have hRR : R' = R := h1'.ext h1 (fun x => by rw [h2', h2]) (fun x => by
    by_cases hx : IsPartition n x
    · rw [h3' x hx, h3 x hx]
    · rw [mult_of_not_mem fun h => hx (h1'.all x h), mult_of_not_mem fun h => hx (h1.all x h)])
  refine ⟨s, s', e, ?_, fun p q r hp hq hr => ?_⟩
  · simp only [CGState.exec, e', Option.bind_eq_bind, Option.bind_some, hRR]
  · obtain ⟨s'', e'', _⟩ := hs.coeff hn hp hq hr
    exact ⟨s'', by simp only [CGState.exec, e'', Option.bind_eq_bind, Option.bind_some]⟩

/-- A type to which the theorem applies: `{3,1}` twice and `{2,2}` once. -/
example : TypeOk 4 [([3, 1], 2), ([2, 2], 1)] :=
  typeOk_cons.2 ⟨⟨by decide, by decide, rfl⟩, by
    intro x hx
    simp only [parts, List.map_cons, List.map_nil, List.mem_singleton] at hx
    subst hx
    exact ⟨0, by decide, by decide⟩, typeOk_cons.2 ⟨⟨by decide, by decide, rfl⟩, by simp [parts], typeOk_nil 4⟩⟩

end Props

end Snob
