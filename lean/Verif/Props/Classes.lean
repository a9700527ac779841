import Verif.Proofs.SnBank

/-! # Properties C33, C34, C43, C44, C45, C63: conjugacy classes, characters and the banks -/

namespace Snob

open IP

theorem partitions_head {n : Nat} (hn : 1 ≤ n) : (partitions n)[0]? = some [n] := by
  have hm := (mem_partitions n hn [n]).2 (isPartition_row hn)
  obtain ⟨j, hj, e⟩ := List.getElem_of_mem hm
  have h0 : 0 < (partitions n).length := by omega
  rcases Nat.eq_zero_or_pos j with rfl | hpos
  · rw [List.getElem?_eq_getElem hj, e]
  · have hlex := List.pairwise_iff_getElem.1 (partitions_pairwise n) 0 j h0 hj hpos
    have hp := (mem_partitions n hn _).1 (List.getElem_mem h0)
    rw [e] at hlex
    have h := (ltLoop_iff (hp.sum.trans (by simp))).2 hlex
    generalize (partitions n)[0] = p at h hp
    cases p with
    | nil => simp [ltLoop] at h
    | cons a q =>
      have hs := hp.sum
      simp only [List.sum_cons] at hs
      have ha : ¬ a > n := by omega
      rw [ltLoop, if_neg ha] at h
      split_ifs at h
      cases q <;> simp [ltLoop] at h

theorem addAll_prefix (l xs : List (List Nat)) : l <+: addAll l xs := by
  induction xs generalizing l with
  | nil => exact List.prefix_refl _
  | cons x xs ih =>
    refine List.IsPrefix.trans ?_ (ih (addNew l x))
    unfold addNew
    split_ifs
    · exact List.prefix_refl _
    · exact List.prefix_append _ _

theorem addAll_self (l xs : List (List Nat)) (h : ∀ x ∈ xs, x ∈ l) : addAll l xs = l := by
  induction xs with
  | nil => rfl
  | cons x xs ih =>
    show addAll (addNew l x) xs = l
    rw [addNew_of_mem (h x (by simp))]
    exact ih fun y hy => h y (by simp [hy])

theorem addAll_disjoint (l xs : List (List Nat)) (h : (l ++ xs).Nodup) : addAll l xs = l ++ xs := by
  induction xs generalizing l with
  | nil => simp [addAll]
  | cons x xs ih =>
    show addAll (addNew l x) xs = _
    have hx : x ∉ l := fun hx => (List.nodup_append.1 h).2.2 x hx x (by simp) rfl
    rw [addNew, if_neg hx, ih _ (by simpa using h)]
    simp

theorem addAll_eq_iff {l xs : List (List Nat)} (h : xs.Nodup) : addAll l xs = xs ↔ l <+: xs := by
  constructor
  · intro e; rw [← e]; exact addAll_prefix l xs
  · rintro ⟨r, rfl⟩
    have : addAll l (l ++ r) = addAll (addAll l l) r := by unfold addAll; rw [List.foldl_append]
    rw [this, addAll_self l l fun _ h => h, addAll_disjoint l r h]

theorem chiVal_eq {n : Nat} {p : List Nat} (hp : IsPartition n p) (mu : List Nat) : chiVal n p mu = chiAt hp mu := by
  unfold chiVal; rw [dif_pos hp]

theorem chiVal_orthonormal {n : Nat} {p q : List Nat} (hn : 1 ≤ n) (hp : IsPartition n p) (hq : IsPartition n q) :
    ((partitions n).map fun mu => (ccard n mu : ℝ) * (chiVal n p mu * chiVal n q mu)).sum =
      if p = q then (n.factorial : ℝ) else 0 := by
  rw [← chi_orthonormal hp hq]
  have e : ∀ f : List Nat → ℝ, ((partitions n).map f).sum = ∑ p : Pt n, f p.1 := by
    intro f
    rw [← List.sum_toFinset f (partitions_nodup n)]
    symm
    refine Finset.sum_bij (fun q _ => q.1) (fun q _ => ?_) (fun a _ b _ h => Subtype.ext h) (fun q hq => ?_) (fun _ _ => rfl)
    · rw [List.mem_toFinset, mem_partitions n hn]; exact q.2
    · rw [List.mem_toFinset, mem_partitions n hn] at hq
      exact ⟨⟨q, hq⟩, Finset.mem_univ _, rfl⟩
  rw [e]
  simp only [chiVal_eq hp, chiVal_eq hq]

theorem chiList_injective {n : Nat} {p q : List Nat} (hn : 1 ≤ n) (hp : IsPartition n p) (hq : IsPartition n q)
    (h : chiList n p = chiList n q) : p = q := by
  by_contra hne
  have h1 := chiVal_orthonormal hn hp hp
  have h2 := chiVal_orthonormal hn hp hq
  rw [if_pos rfl] at h1
  rw [if_neg hne] at h2
  have hv : ∀ mu ∈ partitions n, chiVal n p mu = chiVal n q mu := List.map_inj_left.1 h
  have : ((partitions n).map fun mu => (ccard n mu : ℝ) * (chiVal n p mu * chiVal n p mu)) =
      ((partitions n).map fun mu => (ccard n mu : ℝ) * (chiVal n p mu * chiVal n q mu)) :=
    List.map_congr_left fun mu hmu => by rw [hv mu hmu]
  rw [this, h2] at h1
  have := Nat.factorial_pos n
  have : (n.factorial : ℝ) = 0 := h1.symm
  norm_cast at this
  omega

theorem ccard_eq {n : Nat} {mu : List Nat} (h : IsPartition n mu) [DecidablePred fun σ : Equiv.Perm (Fin n) => HasCycleType σ mu] :
    ccard n mu = (Finset.univ.filter fun σ : Equiv.Perm (Fin n) => HasCycleType σ mu).card := by
  unfold ccard
  congr 1
  ext σ
  simp only [Finset.mem_filter, Finset.mem_univ, true_and, hasCycleType_iff h]

namespace Props

open scoped Nat

open Classical in
/-- **C34.** `class_size(mu)` is the number of permutations of cycle type `mu`. -/
theorem C34_class_size (n : Nat) (hn : 1 ≤ n) (mu : List Nat) (h : IsPartition n mu) :
    classSize n mu = some (Finset.univ.filter fun σ : Equiv.Perm (Fin n) => HasCycleType σ mu).card := by
  rw [← ccard_eq h]
  exact classSize_card hn h

example : classSize 5 [3, 1, 1] = some 20 ∧ classSize 5 [2, 2, 1] = some 15 := by decide

/-- **C34.** Every permutation has exactly one cycle type, and every class has a permutation. -/
theorem C34_classes (n : Nat) (hn : 1 ≤ n) :
    (∀ σ : Equiv.Perm (Fin n), ∃! mu, mu ∈ partitions n ∧ HasCycleType σ mu) ∧
    (∀ mu ∈ partitions n, ∃ σ : Equiv.Perm (Fin n), HasCycleType σ mu) ∧
    (∀ (σ τ : Equiv.Perm (Fin n)) (mu nu : List Nat), mu ∈ partitions n → nu ∈ partitions n → HasCycleType σ mu →
      HasCycleType τ nu → (mu = nu ↔ IsConj σ τ)) := by
  refine ⟨fun σ => ?_, fun mu hmu => ?_, fun σ τ mu nu hmu hnu h h' => ?_⟩
  · obtain ⟨p, hp⟩ := exists_cycleType σ
    refine ⟨p.1, ⟨(mem_partitions n hn _).2 p.2, hp⟩, fun q hq => ?_⟩
    exact cycleType_unique ((mem_partitions n hn _).1 hq.1) p.2 hq.2 hp
  · exact ⟨_, hasCycleType_block ((mem_partitions n hn mu).1 hmu)⟩
  · have hm := (mem_partitions n hn mu).1 hmu
    have hm' := (mem_partitions n hn nu).1 hnu
    rw [Equiv.Perm.isConj_iff_cycleType_eq]
    constructor
    · rintro rfl
      rw [(hasCycleType_iff hm σ).1 h, (hasCycleType_iff hm τ).1 h']
    · intro e
      refine cycleType_unique hm hm' h ((hasCycleType_iff hm' σ).2 ?_)
      rw [e]; exact (hasCycleType_iff hm' τ).1 h'

example : HasCycleType (Equiv.swap (0 : Fin 3) 2) [2, 1] := by
  unfold HasCycleType
  decide

/-- **C34.** The class sizes add up to `n!`. -/
theorem C34_sizes_sum (n : Nat) (hn : 1 ≤ n) :
    ∃ L, (partitions n).mapM (classSize n) = some L ∧ L.sum = n ! := by
  refine ⟨(partitions n).map (ccard n), mapM_map _ _ _ fun p hp => classSize_card hn ((mem_partitions n hn p).1 hp), ?_⟩
  have h : ((partitions n).map (ccard n)).sum = ∑ p : Pt n, ccard n p.1 := by
    rw [← List.sum_toFinset _ (partitions_nodup n)]
    symm
    refine Finset.sum_bij (fun q _ => q.1) (fun q _ => ?_) (fun a _ b _ h => Subtype.ext h) (fun q hq => ?_) (fun _ _ => rfl)
    · rw [List.mem_toFinset, mem_partitions n hn]; exact q.2
    · rw [List.mem_toFinset, mem_partitions n hn] at hq
      exact ⟨⟨q, hq⟩, Finset.mem_univ _, rfl⟩
  have h2 := sum_by_class (n := n) fun _ => (1 : ℝ)
  simp only [Finset.sum_const, Finset.card_univ, nsmul_eq_mul, mul_one, Fintype.card_perm, Fintype.card_fin] at h2
  rw [h]
  exact_mod_cast h2.symm

example : (partitions 4).mapM (classSize 4) = some [6, 8, 3, 6, 1] := by decide

/-- **C34.** `class_size(i)` is the size of the class of the `i`-th partition, whatever was called before. -/
theorem C34_class_size_index (cs : List Call) (hv : ∀ c ∈ cs, c.Valid) (n i : Nat) (hn : 1 ≤ n)
    (hi : i < (partitions n).length) :
    ∃ w w' k, World.empty.run cs = some w ∧ w.exec (.classSize n i) = some (w', .nat k) ∧
      classSize n (partitions n)[i] = some k := by
  obtain ⟨w, w', e, e'⟩ := history_exec cs hv (.classSize n i) ⟨hn, hi⟩
  refine ⟨w, w', _, e, e', ?_⟩
  rw [List.getElem?_eq_getElem hi, Option.getD_some]
  exact classSize_card hn ((mem_partitions n hn _).1 (List.getElem_mem hi))

/-- **C33.** After every history of calls, the value of `SnCharacter(p)` at the class `mu` is the trace of the matrix
that the irrep of `p` returns for any permutation of cycle type `mu`. -/
theorem C33_character_value (cs : List Call) (hv : ∀ c ∈ cs, c.Valid) (n : Nat) (hn : 1 ≤ n) (p mu : List Nat)
    (hp : IsPartition n p) (hmu : IsPartition n mu) :
    ∃ w w' x R, World.empty.run cs = some w ∧ w.exec (.value p mu) = some (w', .real x) ∧ mkIrrep p = some R ∧
      ∀ σ : Equiv.Perm (Fin n), HasCycleType σ mu → ∃ A, R.eval (enc σ) = some A ∧ x = ∑ i : Fin R.d, A i i := by
  obtain rfl := hp.sum
  obtain ⟨w, w', e, e'⟩ := history_exec cs hv (.value p mu) ⟨hn, hp, hmu⟩
  obtain ⟨R, hR, _, h⟩ := exists_repr hn hp
  refine ⟨w, w', _, R, e, e', hR, fun σ hσ => ?_⟩
  obtain ⟨A, hA, hA'⟩ := h.eval_eq σ
  refine ⟨A, hA, ?_⟩
  rw [chiVal_eq hp, Finset.sum_congr rfl fun i _ => hA' i i, h.trace_rep]
  exact chi_class hp hmu (hasCycleType_block hmu) hσ

/-- **C33.** The characters are orthonormal for the inner product weighted by the class sizes. -/
theorem C33_orthonormal (n : Nat) (hn : 1 ≤ n) : ∃ X : List Nat → List Nat → ℝ, ∃ c : List Nat → Nat,
    (∀ cs : List Call, (∀ c ∈ cs, c.Valid) → ∀ p mu, IsPartition n p → IsPartition n mu →
      ∃ w w', World.empty.run cs = some w ∧ w.exec (.value p mu) = some (w', .real (X p mu))) ∧
    (∀ mu, IsPartition n mu → classSize n mu = some (c mu)) ∧
    (∀ p q, IsPartition n p → IsPartition n q →
      ((partitions n).map fun mu => (c mu : ℝ) * (X p mu * X q mu)).sum = if p = q then (n ! : ℝ) else 0) ∧
    (∀ mu nu, IsPartition n mu → IsPartition n nu →
      c mu * ((partitions n).map fun p => X p mu * X p nu).sum = if mu = nu then (n ! : ℝ) else 0) := by
  refine ⟨chiVal n, ccard n, fun cs hv p mu hp hmu => ?_, fun mu h => classSize_card hn h,
    fun p q hp hq => chiVal_orthonormal hn hp hq, fun mu nu hmu hnu => ?_⟩
  · obtain rfl := hp.sum
    exact history_exec cs hv (.value p mu) ⟨hn, hp, hmu⟩
  · have h := chi_columns (n := n) ⟨mu, hmu⟩ ⟨nu, hnu⟩
    have e : ((partitions n).map fun p => chiVal n p mu * chiVal n p nu).sum =
        ∑ p : Pt n, chiAt p.2 mu * chiAt p.2 nu := by
      rw [← List.sum_toFinset _ (partitions_nodup n)]
      symm
      refine Finset.sum_bij (fun q _ => q.1) (fun q _ => ?_) (fun a _ b _ h => Subtype.ext h) (fun q hq => ?_)
        (fun q _ => by rw [chiVal_eq q.2, chiVal_eq q.2])
      · rw [List.mem_toFinset, mem_partitions n hn]; exact q.2
      · rw [List.mem_toFinset, mem_partitions n hn] at hq
        exact ⟨⟨q, hq⟩, Finset.mem_univ _, rfl⟩
    rw [e, h]
    simp only [Subtype.mk.injEq]
    split_ifs
    · exact_mod_cast ccard_mul_zee hmu
    · simp

/-- **C33.** The character of `{n}` is one everywhere; that of `{1,...,1}` is the sign. -/
theorem C33_trivial_sign (cs : List Call) (hv : ∀ c ∈ cs, c.Valid) (n : Nat) (hn : 1 ≤ n) (σ : Equiv.Perm (Fin n))
    (mu : List Nat) (hmu : IsPartition n mu) (hσ : HasCycleType σ mu) :
    ∃ w w' w'', World.empty.run cs = some w ∧ w.exec (.value [n] mu) = some (w', .real 1) ∧
      w.exec (.value (List.replicate n 1) mu) = some (w'', .real ((Equiv.Perm.sign σ : Int) : ℝ)) := by
  obtain ⟨w, e, h, hch⟩ := history cs hv
  have s1 : [n].sum = n := by simp
  have s2 : (List.replicate n 1).sum = n := by simp
  have hr := isPartition_row hn
  have hc := isPartition_col n
  obtain ⟨w', e', _⟩ := h.exec hch (.value [n] mu)
    ⟨by rw [s1]; exact hn, by rw [s1]; exact hr, by rw [s1]; exact hmu⟩
  obtain ⟨w'', e'', _⟩ := h.exec hch (.value (List.replicate n 1) mu)
    ⟨by rw [s2]; exact hn, by rw [s2]; exact hc, by rw [s2]; exact hmu⟩
  refine ⟨w, w', w'', e, ?_, ?_⟩
  · rw [e', result, s1, chiVal_eq hr]
    have : chiAt hr mu = 1 := by
      unfold chiAt chi Matrix.trace
      have hs := wd_subsingleton_of_cont hr _ (fun u m h1 h2 => cont_row hn u h1 h2)
      obtain ⟨u⟩ := Fintype.card_pos_iff.1 (card_Wd_pos hr)
      rw [Fintype.sum_eq_single u fun x hx => absurd (hs x u) hx]
      exact rho_row hn _ u u
    rw [this]
  · rw [e'', result, s2, chiVal_eq hc]
    have : chiAt hc mu = ((Equiv.Perm.sign σ : Int) : ℝ) := by
      unfold chiAt
      rw [chi_class hc hmu (hasCycleType_block hmu) hσ]
      unfold chi Matrix.trace
      have hs := wd_subsingleton_of_cont hc _ (fun u m h1 h2 => cont_col u h1 h2)
      obtain ⟨u⟩ := Fintype.card_pos_iff.1 (card_Wd_pos hc)
      rw [Fintype.sum_eq_single u fun x hx => absurd (hs x u) hx]
      exact rho_col _ u u
    rw [this]

/-- two calls that respect the preconditions, and the sign of a transposition -/
theorem C33_example_valid : ∀ c ∈ [Call.cclass 3 1, Call.irrep 3 [1, 1, 1]], c.Valid := by
  intro c hc
  rw [List.mem_cons, List.mem_singleton] at hc
  rcases hc with rfl | rfl
  · exact ⟨by decide, by decide⟩
  · exact ⟨by decide, by simp, by simp, rfl⟩

example : ∃ w w', World.empty.run [.cclass 3 1, .irrep 3 [1, 1, 1]] = some w ∧
    w.exec (.value [1, 1, 1] [2, 1]) = some (w', .real (-1)) := by
  obtain ⟨w, _, w'', e, _, e''⟩ := C33_trivial_sign _ C33_example_valid 3 (by decide) (Equiv.swap 0 2) [2, 1]
    ⟨by simp, by simp, rfl⟩ (by unfold HasCycleType; decide)
  refine ⟨w, w'', e, ?_⟩
  have : List.replicate 3 1 = [1, 1, 1] := rfl
  rw [this] at e''
  rw [e'', Equiv.Perm.sign_swap (by decide)]
  norm_num

/-- **C43.** After every history of calls: `cclass(i)` is the class of the `i`-th partition, `index` inverts it and
`cclass(mu)` is the class of `mu`. -/
theorem C43_class_index (cs : List Call) (hv : ∀ c ∈ cs, c.Valid) (n : Nat) (hn : 1 ≤ n) :
    ∃ w, World.empty.run cs = some w ∧
      (∃ w', w.exec (.ncclasses n) = some (w', .nat (partitions n).length)) ∧
      (∀ i (hi : i < (partitions n).length), ∃ w' w'',
        w.exec (.cclass n i) = some (w', .part (partitions n)[i]) ∧
        w'.exec (.index n (partitions n)[i]) = some (w'', .nat i)) ∧
      (∀ mu, IsPartition n mu → (∃ w', w.exec (.cclassOf n mu) = some (w', .part mu)) ∧
        ∃ w' i, w.exec (.index n mu) = some (w', .nat i) ∧ (partitions n)[i]? = some mu) := by
  obtain ⟨w, e, h, hch⟩ := history cs hv
  refine ⟨w, e, ?_, fun i hi => ?_, fun mu hmu => ⟨?_, ?_⟩⟩
  · obtain ⟨w', e', _⟩ := h.exec hch (.ncclasses n) hn
    exact ⟨w', e'⟩
  · obtain ⟨w', e', h'⟩ := h.exec hch (.cclass n i) ⟨hn, hi⟩
    have hp := (mem_partitions n hn _).1 (List.getElem_mem hi)
    obtain ⟨w'', e'', _⟩ := h'.exec hch (.index n (partitions n)[i]) ⟨hn, hp⟩
    refine ⟨w', w'', ?_, ?_⟩
    · rw [e', result, List.getElem?_eq_getElem hi, Option.getD_some]
    · rw [e'', result, (partitions_nodup n).idxOf_getElem]
  · obtain ⟨w', e', _⟩ := h.exec hch (.cclassOf n mu) ⟨hn, hmu⟩
    exact ⟨w', e'⟩
  · obtain ⟨w', e', _⟩ := h.exec hch (.index n mu) ⟨hn, hmu⟩
    have hm := (mem_partitions n hn mu).2 hmu
    refine ⟨w', _, e', ?_⟩
    rw [List.getElem?_eq_getElem (List.idxOf_lt_length_of_mem hm), List.getElem_idxOf]

/-- index of a class after two other calls -/
example : ∃ w w', World.empty.run [.cclass 3 1, .irrep 3 [1, 1, 1]] = some w ∧
    w.exec (.index 3 [2, 1]) = some (w', .nat 1) := by
  obtain ⟨w, w', e, e'⟩ := history_exec _ C33_example_valid (.index 3 [2, 1]) ⟨by decide, by simp, by simp, rfl⟩
  refine ⟨w, w', e, ?_⟩
  rw [e']
  have : (partitions 3).idxOf [2, 1] = 1 := by decide
  simp only [result, this]

/-- **C44**, what holds. After every history of calls, `irreps[lambda]` and `irrep(lambda)` are the irrep of `lambda`;
the vector `irreps` has every partition once; and `irreps[i]` is the irrep of the `i`-th partition for all `i` exactly
if the irreps requested earlier, in order, are the first partitions of the list. -/
theorem C44_irreps_order_partial (cs : List Call) (hv : ∀ c ∈ cs, c.Valid) (n : Nat) (hn : 1 ≤ n) :
    ∃ w, World.empty.run cs = some w ∧
      (∀ p, IsPartition n p → (∃ w', w.exec (.irrep n p) = some (w', .part p)) ∧
        ∃ w', w.exec (.irrepBy n p) = some (w', .part p)) ∧
      (∃ w' l, w.exec (.allIrreps n) = some (w', .parts l) ∧ l.Perm (partitions n) ∧
        ∀ i (hi : i < l.length), ∃ w', w.exec (.irrepAt n i) = some (w', .part l[i])) ∧
      ((∀ i (hi : i < (partitions n).length), ∃ w', w.exec (.irrepAt n i) = some (w', .part (partitions n)[i])) ↔
        requestedIrreps n cs <+: partitions n) := by
  obtain ⟨w, e, h, hch⟩ := history cs hv
  have hir := h.ir_ok hn
  have hperm := nodup_perm_length hn hir.1 hir.2
  have hat : ∀ i (hi : i < (addAll (requestedIrreps n cs) (partitions n)).length), ∃ w',
      w.exec (.irrepAt n i) = some (w', .part (addAll (requestedIrreps n cs) (partitions n))[i]) := by
    intro i hi
    obtain ⟨w', e', _⟩ := h.exec hch (.irrepAt n i) ⟨hn, by rw [← hperm.length_eq]; exact hi⟩
    exact ⟨w', by rw [e', result, List.getElem?_eq_getElem hi, Option.getD_some]⟩
  refine ⟨w, e, fun p hp => ⟨?_, ?_⟩, ?_, ?_⟩
  · obtain ⟨w', e', _⟩ := h.exec hch (.irrep n p) ⟨hn, hp⟩
    exact ⟨w', e'⟩
  · obtain ⟨w', e', _⟩ := h.exec hch (.irrepBy n p) ⟨hn, hp⟩
    exact ⟨w', e'⟩
  · obtain ⟨w', e', _⟩ := h.exec hch (.allIrreps n) hn
    exact ⟨w', _, e', hperm, hat⟩
  · rw [← addAll_eq_iff (partitions_nodup n)]
    constructor
    · intro hall
      refine List.ext_getElem hperm.length_eq fun i h1 h2 => ?_
      obtain ⟨w1, e1⟩ := hat i h1
      obtain ⟨w2, e2⟩ := hall i h2
      rw [e1] at e2
      simpa using (Prod.mk.inj (Option.some.inj e2)).2
    · intro he i hi
      have := hat i (by rw [he]; exact hi)
      simpa only [he] using this

/-- a history after which the order is right, and one after which it is not -/
example : requestedIrreps 3 [.irrep 3 [3], .irrep 3 [2, 1], .irrep 4 [1, 1, 1, 1]] <+: partitions 3 ∧
    ¬ requestedIrreps 3 [.irrep 3 [2, 1]] <+: partitions 3 := by decide

/-- **C44** is false of the code: after `Sn(3).irrep({2,1})`, `Sn(3).irreps[0]` is the irrep of `{2,1}`, but the first
partition is `{3}`. -/
theorem C44_irreps_order_false : ∃ w w', World.empty.run [.irrep 3 [2, 1]] = some w ∧
    w.exec (.irrepAt 3 0) = some (w', .part [2, 1]) ∧ (partitions 3)[0]? = some [3] := by
  obtain ⟨w, w', e, e'⟩ := history_exec [.irrep 3 [2, 1]]
    (by
      intro c hc
      rw [List.mem_singleton] at hc
      subst hc
      exact ⟨by decide, by simp, by simp, rfl⟩) (.irrepAt 3 0) ⟨by decide, by decide⟩
  refine ⟨w, w', e, ?_, by decide⟩
  rw [e']
  have : (addAll (requestedIrreps 3 [.irrep 3 [2, 1]]) (partitions 3))[0]?.getD [] = [2, 1] := by decide
  simp only [result, this]

/-- **C45**, what holds: `character(i)` is the trivial character for every `i`, which is the `i`-th character for
`i = 0`. -/
theorem C45_character_index_partial (cs : List Call) (hv : ∀ c ∈ cs, c.Valid) (n i : Nat) (hn : 1 ≤ n) :
    ∃ w w' w'' l, World.empty.run cs = some w ∧ w.exec (.characterAt n i) = some (w', .fn l) ∧
      (partitions n)[0]? = some [n] ∧ w.exec (.character [n]) = some (w'', .fn l) := by
  obtain ⟨w, e, h, hch⟩ := history cs hv
  obtain ⟨w', e', _⟩ := h.exec hch (.characterAt n i) hn
  have hs : [n].sum = n := by simp
  obtain ⟨w'', e'', _⟩ := h.exec hch (.character [n]) ⟨by rw [hs]; exact hn, by rw [hs]; exact isPartition_row hn⟩
  refine ⟨w, w', w'', _, e, e', partitions_head hn, ?_⟩
  rw [e'', result, hs]

/-- **C45** is false of the code: for every `i ≥ 1`, after every history, `character(i)` is not the character of the
`i`-th partition. -/
theorem C45_character_index_false (cs : List Call) (hv : ∀ c ∈ cs, c.Valid) (n i : Nat) (hi : 1 ≤ i)
    (hi' : i < (partitions n).length) (hn : 1 ≤ n) :
    ∃ w w' w'' l l', World.empty.run cs = some w ∧ w.exec (.characterAt n i) = some (w', .fn l) ∧
      w.exec (.character (partitions n)[i]) = some (w'', .fn l') ∧ l ≠ l' := by
  obtain ⟨w, e, h, hch⟩ := history cs hv
  obtain ⟨w', e', _⟩ := h.exec hch (.characterAt n i) hn
  have hp := (mem_partitions n hn _).1 (List.getElem_mem hi')
  obtain ⟨w'', e'', _⟩ := h.exec hch (.character (partitions n)[i]) ⟨by rw [hp.sum]; exact hn, by rw [hp.sum]; exact hp⟩
  refine ⟨w, w', w'', _, _, e, e', e'', fun he => ?_⟩
  rw [hp.sum] at he
  have := chiList_injective hn (isPartition_row hn) hp he
  have h0 := partitions_head hn
  rw [this, List.getElem?_eq_getElem (by omega)] at h0
  have := (partitions_nodup n).getElem_inj_iff.1 (Option.some.inj h0)
  omega

/-- the partition list of 4 has five entries -/
example : 1 < (partitions 4).length := by decide

/-- **C63**, what holds. After every history of calls, `characters[lambda]` is the character of `lambda`, and
`characters[i]` is the character of the `i`-th partition for all `i` exactly if the characters requested earlier, in
order, are those of the first partitions of the list. -/
theorem C63_characters_order_partial (cs : List Call) (hv : ∀ c ∈ cs, c.Valid) (n : Nat) (hn : 1 ≤ n) :
    ∃ w, World.empty.run cs = some w ∧ ∃ X : List Nat → List ℝ,
      (∀ p, IsPartition n p → (∃ w', w.exec (.character p) = some (w', .fn (X p))) ∧
        (∃ w', w.exec (.charactersBy n p) = some (w', .fn (X p))) ∧
        ∀ (i : Nat) (mu : List Nat), (partitions n)[i]? = some mu →
          ∃ w' x, w.exec (.value p mu) = some (w', .real x) ∧ (X p)[i]? = some x) ∧
      ((∀ i (hi : i < (partitions n).length), ∃ w', w.exec (.charactersAt n i) = some (w', .fn (X (partitions n)[i]))) ↔
        requestedChars n cs <+: partitions n) := by
  obtain ⟨w, e, h, hch⟩ := history cs hv
  have hchp : ∀ p ∈ requestedChars n cs, IsPartition n p := fun p hp => (h.ir_ok hn).2 p (h.sub n p hp)
  have hperm := nodup_perm_length hn (hch n) hchp
  have hat : ∀ i (hi : i < (addAll (requestedChars n cs) (partitions n)).length), ∃ w',
      w.exec (.charactersAt n i) = some (w', .fn (chiList n (addAll (requestedChars n cs) (partitions n))[i])) := by
    intro i hi
    obtain ⟨w', e', _⟩ := h.exec hch (.charactersAt n i) ⟨hn, by rw [← hperm.length_eq]; exact hi⟩
    exact ⟨w', by rw [e', result, List.getElem?_eq_getElem hi, Option.getD_some]⟩
  refine ⟨w, e, chiList n, fun p hp => ⟨?_, ?_, ?_⟩, ?_⟩
  · obtain ⟨w', e', _⟩ := h.exec hch (.character p) ⟨by rw [hp.sum]; exact hn, by rw [hp.sum]; exact hp⟩
    exact ⟨w', by rw [e', result, hp.sum]⟩
  · obtain ⟨w', e', _⟩ := h.exec hch (.charactersBy n p) ⟨hn, hp⟩
    exact ⟨w', e'⟩
  · intro i mu hmu
    have hm := (mem_partitions n hn mu).1 (List.mem_of_getElem? hmu)
    obtain ⟨w', e', _⟩ := h.exec hch (.value p mu) ⟨by rw [hp.sum]; exact hn, by rw [hp.sum]; exact hp, by rw [hp.sum]; exact hm⟩
    refine ⟨w', _, e', ?_⟩
    unfold chiList
    rw [List.getElem?_map, hmu, hp.sum]; rfl
  · rw [← addAll_eq_iff (partitions_nodup n)]
    constructor
    · intro hall
      refine List.ext_getElem hperm.length_eq fun i h1 h2 => ?_
      obtain ⟨w1, e1⟩ := hat i h1
      obtain ⟨w2, e2⟩ := hall i h2
      rw [e1] at e2
      have e3 := Val.fn.inj (Prod.mk.inj (Option.some.inj e2)).2
      refine chiList_injective hn ?_ ?_ e3
      · exact (mem_partitions n hn _).1 (hperm.mem_iff.1 (List.getElem_mem h1))
      · exact (mem_partitions n hn _).1 (List.getElem_mem h2)
    · intro he i hi
      have := hat i (by rw [he]; exact hi)
      simpa only [he] using this

/-- **C63** is false of the code: after `SnCharacter({2,1})`, `Sn(3).characters[0]` is the character of `{2,1}` and not
that of `{3}`. -/
theorem C63_characters_order_false : ∃ w w' l l', World.empty.run [.character [2, 1]] = some w ∧
    w.exec (.charactersAt 3 0) = some (w', .fn l) ∧ (partitions 3)[0]? = some [3] ∧
    (∃ w'', w.exec (.character [3]) = some (w'', .fn l')) ∧ l ≠ l' := by
  have h21 : IsPartition 3 [2, 1] := ⟨by simp, by simp, rfl⟩
  have h3 : IsPartition 3 [3] := ⟨by simp, by simp, rfl⟩
  obtain ⟨w, e, h, hch⟩ := history [.character [2, 1]]
    (by
      intro c hc
      rw [List.mem_singleton] at hc
      subst hc
      exact ⟨by decide, h21⟩)
  obtain ⟨w', e', _⟩ := h.exec hch (.charactersAt 3 0) ⟨by decide, by decide⟩
  obtain ⟨w'', e'', _⟩ := h.exec hch (.character [3]) ⟨by decide, h3⟩
  have : (addAll (requestedChars 3 [.character [2, 1]]) (partitions 3))[0]?.getD [] = [2, 1] := by decide
  refine ⟨w, w', _, _, e, e', by decide, ⟨w'', e''⟩, ?_⟩
  rw [this]
  intro he
  have := chiList_injective (by decide) h21 h3 he
  simp at this

end Props

end Snob
