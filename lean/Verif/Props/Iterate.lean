import Mathlib.Algebra.Group.Conj
import Mathlib.SetTheory.Cardinal.Finite
import Verif.Proofs.Iterate
import Verif.Props.SnElements

/-! # Properties C100, C101: loops over the members of `Sn`, and `random()` -/

namespace Snob

open IP

open scoped Nat

theorem card_conjClasses {n : Nat} (hn : 1 ≤ n) : Nat.card (ConjClasses (Equiv.Perm (Fin n))) = (partitions n).length := by
  classical
  obtain ⟨h1, h2, h3⟩ := Props.C34_classes n hn
  choose f hf using h2
  have hb : Function.Bijective fun i : Fin (partitions n).length =>
      ConjClasses.mk (f (partitions n)[i] (List.getElem_mem i.2)) := by
    constructor
    · intro i j hij
      have := (h3 _ _ _ _ (List.getElem_mem i.2) (List.getElem_mem j.2) (hf _ _) (hf _ _)).2 (ConjClasses.mk_eq_mk_iff_isConj.1 hij)
      exact Fin.ext ((partitions_nodup n).getElem_inj_iff.1 this)
    · intro c
      obtain ⟨σ, rfl⟩ := ConjClasses.exists_rep c
      obtain ⟨mu, ⟨hmu, hσ⟩, _⟩ := h1 σ
      obtain ⟨i, hi, rfl⟩ := List.getElem_of_mem hmu
      exact ⟨⟨i, hi⟩, ConjClasses.mk_eq_mk_iff_isConj.2 ((h3 _ _ _ _ hmu hmu (hf _ _) hσ).1 rfl)⟩
  rw [← Nat.card_congr (Equiv.ofBijective _ hb), Nat.card_fin]

namespace Props

/-- **C100.** `G.cclasses.size()`, `G.irreps.size()` and `G.characters.size()` are the number of conjugacy classes of
the group, whatever was called before. -/
theorem C100_sizes (cs : List Call) (hv : ∀ c ∈ cs, c.Valid) (n : Nat) (hn : 1 ≤ n) :
    ∃ w, World.empty.run cs = some w ∧
      ∀ r, ∃ w', w.rangeSize n r = some (w', Nat.card (ConjClasses (Equiv.Perm (Fin n)))) := by
  obtain ⟨w, e, h, hch⟩ := history cs hv
  refine ⟨w, e, fun r => ?_⟩
  obtain ⟨w', e', _⟩ := h.rangeSize hch hn r
  exact ⟨w', by rw [e', card_conjClasses hn]⟩

/-- **C100.** After any calls, with any calls in its body, the loop over `G.cclasses` visits the classes in the order
of the list of partitions. -/
theorem C100_cclasses (cs : List Call) (hv : ∀ c ∈ cs, c.Valid) (n : Nat) (hn : 1 ≤ n) (body : Val → List Call)
    (hb : ∀ v, ∀ c ∈ body v, c.Valid) :
    ∃ w w', World.empty.run cs = some w ∧ w.forEach n .cclasses body = some (w', (partitions n).map .part) := by
  obtain ⟨w, e, h, hch⟩ := history cs hv
  obtain ⟨w', e', _⟩ := h.forEach hch hn .cclasses body hb
  exact ⟨w, w', e, e'⟩

/-- **C100.** After any calls, with any calls in its body, the loop over `G.irreps` visits the irrep of every partition
of `n`, and each once. -/
theorem C100_irreps (cs : List Call) (hv : ∀ c ∈ cs, c.Valid) (n : Nat) (hn : 1 ≤ n) (body : Val → List Call)
    (hb : ∀ v, ∀ c ∈ body v, c.Valid) :
    ∃ (w w' : World) (l : List (List Nat)), World.empty.run cs = some w ∧ w.forEach n .irreps body = some (w', l.map .part) ∧
      l.Nodup ∧ ∀ p, p ∈ l ↔ IsPartition n p := by
  obtain ⟨w, e, h, hch⟩ := history cs hv
  obtain ⟨w', e', _⟩ := h.forEach hch hn .irreps body hb
  have hp := h.listOf_perm hch hn .irreps
  exact ⟨w, w', _, e, e', hp.nodup_iff.2 (partitions_nodup n), fun p => hp.mem_iff.trans (mem_partitions n hn p)⟩

/-- **C100.** After any calls, with any calls in its body, the loop over `G.characters` visits the character of every
partition of `n`, and each once: what is visited in the `i`-th step is what `SnCharacter(p)` gives for the `i`-th member of a
list of all partitions, and no two steps give the same function. -/
theorem C100_characters (cs : List Call) (hv : ∀ c ∈ cs, c.Valid) (n : Nat) (hn : 1 ≤ n) (body : Val → List Call)
    (hb : ∀ v, ∀ c ∈ body v, c.Valid) :
    ∃ (w w' : World) (l : List (List Nat)) (xs : List Val), World.empty.run cs = some w ∧ w.forEach n .characters body = some (w', xs) ∧
      l.Nodup ∧ (∀ p, p ∈ l ↔ IsPartition n p) ∧ xs.length = l.length ∧ xs.Nodup ∧
      ∀ (i : Nat) (p : List Nat), l[i]? = some p → ∃ w'' v, w.exec (.character p) = some (w'', v) ∧ xs[i]? = some v := by
  obtain ⟨w, e, h, hch⟩ := history cs hv
  obtain ⟨w', e', _⟩ := h.forEach hch hn .characters body hb
  have hp := h.listOf_perm hch hn .characters
  have hnd := hp.nodup_iff.2 (partitions_nodup n)
  have hmem : ∀ p, p ∈ listOf n _ _ .characters ↔ IsPartition n p := fun p => hp.mem_iff.trans (mem_partitions n hn p)
  refine ⟨w, w', _, _, e, e', hnd, hmem, List.length_map .., ?_, fun i p hi => ?_⟩
  · refine hnd.map_on fun p hp q hq hpq => ?_
    exact chiList_injective hn ((hmem p).1 hp) ((hmem q).1 hq) (Val.fn.inj hpq)
  · have hpp := (hmem p).1 (List.mem_of_getElem? hi)
    obtain ⟨w'', e'', _⟩ := h.exec hch (.character p) ⟨by rw [hpp.sum]; exact hn, by rw [hpp.sum]; exact hpp⟩
    refine ⟨w'', _, e'', ?_⟩
    rw [List.getElem?_map, hi]
    show some (Val.fn (chiList n p)) = some (Val.fn (chiList p.sum p))
    rw [hpp.sum]

/-- A history that changes the order in which the irreps of `S3` are visited. -/
example : ∃ (w w' : World) (l : List (List Nat)), World.empty.run [.irrep 3 [2, 1]] = some w ∧
    w.forEach 3 .irreps (fun _ => [.character [1, 1, 1], .irrepAt 4 0]) = some (w', l.map .part) ∧
    l.length = 3 := by
  obtain ⟨w, w', l, e, e', hnd, hm⟩ := C100_irreps [.irrep 3 [2, 1]]
    (by intro c hc; rw [List.mem_singleton] at hc; subst hc; exact ⟨by decide, by simp, by simp, rfl⟩) 3 (by decide)
    (fun _ => [.character [1, 1, 1], .irrepAt 4 0])
    (by
      intro v c hc
      simp only [List.mem_cons, List.not_mem_nil, or_false] at hc
      rcases hc with rfl | rfl
      · exact ⟨by decide, by simp, by simp, rfl⟩
      · exact ⟨by decide, by decide⟩)
  refine ⟨w, w', l, e, e', ?_⟩
  have := (List.perm_ext_iff_of_nodup hnd (partitions_nodup 3)).2 fun p => (hm p).trans (mem_partitions 3 (by decide) p).symm
  rw [this.length_eq]; decide

/-- **C100.** The loop over `G.elements` visits every permutation once. -/
theorem C100_elements (n : Nat) (hn : 1 ≤ n) :
    ∃ l, forElements n = some l ∧ l.Nodup ∧ l.length = n ! ∧ ∀ a, a ∈ l ↔ IsPerm n a := by
  obtain ⟨φ, h1, h2⟩ := C07_enumeration_bijective n hn
  have hlen : (List.ofFn fun i => (φ i).1).length = n ! := by rw [List.length_ofFn]; rfl
  refine ⟨List.ofFn fun i => (φ i).1, ?_, ?_, hlen, fun a => ?_⟩
  · unfold forElements
    rw [mapM_map _ (fun e : Nat => (element n e).getD []) _ fun e he => ?_]
    · congr 1
      refine List.ext_getElem (by simp) fun i hi hj => ?_
      have h := h1 ⟨i, by simpa using hj⟩
      simp only [List.getElem_map, List.getElem_range, List.getElem_ofFn]
      rw [show element n ((i : Nat) : Int) = _ from h]; rfl
    · rw [show element n ((e : Nat) : Int) = _ from h1 ⟨e, List.mem_range.1 he⟩]; rfl
  · exact List.nodup_ofFn.2 fun i j h => φ.injective (Subtype.ext h)
  · rw [List.mem_ofFn]
    exact ⟨fun ⟨i, hi⟩ => hi ▸ (φ i).2, fun ha => ⟨φ.symm ⟨a, ha⟩, by simp⟩⟩

example : forElements 3 = some [[some 1, some 2, some 3], [some 2, some 1, some 3], [some 1, some 3, some 2],
    [some 2, some 3, some 1], [some 3, some 1, some 2], [some 3, some 2, some 1]] := by decide

open Classical in
/-- **C101.** `random()` is uniform: of the numbers that the distribution draws from, every permutation is given by exactly
one, and nothing but permutations is given. -/
theorem C101_random (n : Nat) (hn : 1 ≤ n) :
    (∀ e, e < snSize n → ∃ a, randomElement n e = some a ∧ IsPerm n a) ∧
    ∀ a, IsPerm n a → ((Finset.range (snSize n)).filter fun e => randomElement n e = some a).card = 1 := by
  obtain ⟨φ, h1, h2⟩ := C07_enumeration_bijective n hn
  refine ⟨fun e he => ⟨_, h1 ⟨e, he⟩, (φ ⟨e, he⟩).2⟩, fun a ha => ?_⟩
  rw [Finset.card_eq_one]
  refine ⟨φ.symm ⟨a, ha⟩, Finset.ext fun e => ?_⟩
  rw [Finset.mem_filter, Finset.mem_range, Finset.mem_singleton]
  constructor
  · rintro ⟨he, h⟩
    have := h1 ⟨e, he⟩
    unfold randomElement at h
    rw [this] at h
    have : φ ⟨e, he⟩ = ⟨a, ha⟩ := Subtype.ext (Option.some.inj h)
    rw [← this]; simp
  · rintro rfl
    refine ⟨(φ.symm ⟨a, ha⟩).2, ?_⟩
    unfold randomElement
    rw [h1]; simp

open Classical in
/-- **C101.** `random()` is in the conjugacy class of `mu` for `class_size(mu)` of the numbers that the distribution draws
from. -/
theorem C101_random_class (n : Nat) (hn : 1 ≤ n) (mu : List Nat) (hmu : IsPartition n mu) :
    ∃ k, classSize n mu = some k ∧
      ((Finset.range (snSize n)).filter fun e => ∃ σ : Equiv.Perm (Fin n), randomElement n e = some (enc σ) ∧
        HasCycleType σ mu).card = k := by
  refine ⟨_, C34_class_size n hn mu hmu, ?_⟩
  obtain ⟨φ, h1, h2⟩ := C07_enumeration_bijective n hn
  symm
  refine Finset.card_bij (fun σ _ => ((φ.symm ⟨enc σ, σ, rfl⟩ : Fin (snSize n)) : Nat)) ?_ ?_ ?_
  · intro σ hσ
    rw [Finset.mem_filter] at hσ
    rw [Finset.mem_filter, Finset.mem_range]
    refine ⟨(φ.symm _).2, σ, ?_, hσ.2⟩
    unfold randomElement
    rw [h1]; simp
  · intro σ _ τ _ h
    have := φ.symm.injective (Fin.ext h)
    exact enc_injective (congrArg Subtype.val this)
  · intro e he
    rw [Finset.mem_filter, Finset.mem_range] at he
    obtain ⟨he, σ, hσ, hc⟩ := he
    refine ⟨σ, by rw [Finset.mem_filter]; exact ⟨Finset.mem_univ _, hc⟩, ?_⟩
    have := h1 ⟨e, he⟩
    unfold randomElement at hσ
    rw [this] at hσ
    have : φ ⟨e, he⟩ = ⟨enc σ, σ, rfl⟩ := Subtype.ext (Option.some.inj hσ)
    rw [← this]; simp

example : randomElement 3 4 = some [some 3, some 1, some 2] ∧ classSize 3 [3] = some 2 := by decide

end Props

end Snob
