import Verif.Spec.Hook
import Verif.Proofs.Machine
import Verif.Props.Tableau
import Verif.Props.Irrep
import Verif.Props.Classes
import Verif.Props.SnElements

/-! # Properties C16, C57: hook lengths and 32 bit arithmetic -/

namespace Snob

open IP
open scoped Nat

theorem hookLen_zero (x : Nat) (xs : List Nat) (c : Nat) : hookLen (x :: xs) 0 c = (x - (c + 1)) + IP.below xs (c + 1) + 1 := by
  have h : ((List.range (x :: xs).length).filter fun r' => decide (0 < r' ∧ c < row (x :: xs) r')).length = IP.below xs (c + 1) := by
    rw [List.length_cons, List.range_succ_eq_map, List.filter_cons_of_neg (by simp), List.filter_map, List.length_map, below_eq]
    induction xs with
    | nil => simp
    | cons y ys ih =>
      rw [List.length_cons, List.range_succ_eq_map, List.filter_cons, List.filter_map, List.map_cons, List.sum_cons]
      have e : ((fun r' => decide (0 < r' ∧ c < row (x :: y :: ys) r')) ∘ Nat.succ) ∘ Nat.succ =
          (fun r' => decide (0 < r' ∧ c < row (x :: ys) r')) ∘ Nat.succ := by
        funext i
        simp [row]
      rw [e]
      have h0 : row (x :: y :: ys) (Nat.succ 0) = y := rfl
      simp only [Function.comp_apply, h0]
      split_ifs with h1 h2 h2
      · rw [List.length_cons, List.length_map, ih]; omega
      · simp at h1; omega
      · simp at h1; omega
      · rw [List.length_map, ih]; omega
  unfold hookLen
  rw [h]
  have : row (x :: xs) 0 = x := rfl
  rw [this]; omega

theorem hookLen_succ (x : Nat) (xs : List Nat) (r c : Nat) : hookLen (x :: xs) (r + 1) c = hookLen xs r c := by
  unfold hookLen
  rw [List.length_cons, List.range_succ_eq_map, List.filter_cons_of_neg (by simp), List.filter_map, List.length_map]
  congr 2
  refine List.filter_congr fun i _ => ?_
  rw [Function.comp_apply, decide_eq_decide]
  have : row (x :: xs) (Nat.succ i) = row xs i := rfl
  rw [this]
  omega

theorem hookList_eq (p : List Nat) : hookList p = hooks p := by
  induction p with
  | nil => rfl
  | cons x xs ih =>
    rw [hooks, ← ih]
    unfold hookList
    rw [List.length_cons, List.range_succ_eq_map, List.flatMap_cons, List.flatMap_map]
    congr 1
    · unfold rowHooks
      rw [List.range'_eq_map_range, List.map_map]
      refine List.map_congr_left fun c _ => ?_
      rw [hookLen_zero, Function.comp_apply, Nat.add_comm 1 c]
    · refine List.flatMap_congr fun r _ => List.map_congr_left fun c _ => hookLen_succ x xs r c

end Snob

namespace Snob.Props

open Snob Snob.IP Snob.Perm
open scoped Nat

/-- **C16.** `hooklength()` is the number of standard tableaux of the shape: the length of the list the library
computes, and of any list that has every standard tableau exactly once. -/
theorem C16_number_of_tableaux (n : Nat) (hn : 1 ≤ n) (p : List Nat) (hp : IsPartition n p) :
    (∃ L, tableaux p = some L ∧ hooklength p = L.length) ∧
    ∀ L : List (List (List Nat)), L.Nodup → (∀ T, T ∈ L ↔ IsSYT p T) → hooklength p = L.length := by
  obtain ⟨L0, h1, h2, h3⟩ := C19_tableaux_complete n hn p hp
  have h4 : hooklength p = L0.length := by
    rw [tableaux_eq hn hp, Option.some.injEq] at h1
    rw [hooklength_eq hp, ← h1, List.length_map]
    rfl
  refine ⟨⟨L0, h1, h4⟩, fun L hL hm => ?_⟩
  rw [h4]
  exact ((List.perm_ext_iff_of_nodup h2 hL).2 fun T => by rw [h3, hm]).length_eq

example : hooklength [3, 2, 1] = 16 ∧ IsPartition 6 [3, 2, 1] := by
  refine ⟨by decide, ⟨by decide, by decide, by decide⟩⟩

/-- **C16.** It is the dimension of the irrep. -/
theorem C16_dimension (n : Nat) (hn : 1 ≤ n) (p : List Nat) (hp : IsPartition n p) :
    ∃ R, mkIrrep p = some R ∧ R.d = hooklength p := by
  obtain ⟨R, h1, _, h2⟩ := exists_repr hn hp
  exact ⟨R, h1, by rw [hooklength_eq hp]; exact h2.d_eq⟩

example : ∃ R, mkIrrep [2, 2, 1] = some R ∧ R.d = 5 := by
  obtain ⟨R, h, hd⟩ := C16_dimension 5 (by decide) [2, 2, 1] ⟨by decide, by decide, by decide⟩
  exact ⟨R, h, by rw [hd]; decide⟩

/-- **C16.** The function divides `n!` by the hook lengths of the boxes in reading order, and every one of these
integer divisions leaves no remainder. -/
theorem C16_exact_divisions (n : Nat) (p : List Nat) (hp : IsPartition n p) :
    hooklength p = (hookList p).foldl (· / ·) n ! ∧ hooklength p * (hookList p).prod = n ! ∧
    ∀ l h l', hookList p = l ++ h :: l' → 0 < h ∧ h ∣ l.foldl (· / ·) n ! := by
  have hd := dimW_mul_hooks hp
  have hpos : 0 < (hooks p).prod := Nat.pos_of_ne_zero fun h0 => by rw [h0, mul_zero] at hd; exact (Nat.factorial_pos n).ne hd
  rw [hookList_eq]
  refine ⟨?_, by rw [hooklength_eq hp, hd], fun l h l' e => ?_⟩
  · rw [hooklength, hookLoop_eq, getn_eq, hp.sum, factorial_eq]
  · rw [e, List.prod_append, List.prod_cons] at hpos hd
    have h0 := Nat.pos_of_mul_pos_right hpos
    have h1 : 0 < h := Nat.pos_of_ne_zero fun h0 => by rw [h0] at hpos; simp at hpos
    refine ⟨h1, ?_⟩
    rw [foldl_div, ← hd]
    have h2 : 0 < l.prod := Nat.pos_of_ne_zero fun h0 => by rw [h0] at hpos; simp at hpos
    rw [show dimW n p * (l.prod * (h * l'.prod)) = l.prod * (h * (dimW n p * l'.prod)) by ring, Nat.mul_div_cancel_left _ h2]
    exact Dvd.intro _ rfl

example : hookList [3, 2, 1] = [5, 3, 1, 3, 1, 1] ∧ hooklength [3, 2, 1] * 45 = 6 ! := by decide

/-! ### C57 -/

open Machine in
/-- **C57.** For `n ≤ 12` no `int` operation overflows: the order of the group, the dimension, the size of every
class, and the enumeration of the elements in both directions are computed exactly. -/
theorem C57_exact (n : Nat) (hn : 1 ≤ n) (h : n ≤ 12) :
    Machine.order ck n = some (Fintype.card (Equiv.Perm (Fin n)) : Int) ∧
    (∀ p, IsPartition n p → ∃ L, tableaux p = some L ∧ Machine.hooklength ck p = some (L.length : Int)) ∧
    (∀ mu, IsPartition n mu → ∃ c : Nat, Machine.classSize ck n mu = some (c : Int) ∧
      ∀ L : List (Equiv.Perm (Fin n)), L.Nodup → (∀ σ, σ ∈ L ↔ HasCycleType σ mu) → c = L.length) ∧
    (∀ e : Nat, e < n ! → Machine.element ck n e = element n e) ∧
    (∀ σ : Arr, IsPerm n σ → Machine.index ck n σ = index n σ ∧ index n σ ≠ none) := by
  refine ⟨?_, fun p hp => ?_, fun mu hmu => ?_, fun e he => element_ok exact_ck h e he, ?_⟩
  · rw [Machine.order, factorial_ok exact_ck h, Fintype.card_perm, Fintype.card_fin]
  · obtain ⟨⟨L, h1, h2⟩, _⟩ := C16_number_of_tableaux n hn p hp
    exact ⟨L, h1, by rw [hooklength_ok exact_ck hp h, ← h2, hooklength_eq hp]⟩
  · obtain ⟨c, h1, h2⟩ := classSize_ok exact_ck hn h hmu
    refine ⟨c, h2, fun L hL hm => ?_⟩
    rw [classSize_card hn hmu, Option.some.injEq] at h1
    rw [← h1, ← List.toFinset_card_of_nodup hL]
    congr 1
    ext σ
    rw [List.mem_toFinset, hm, hasCycleType_iff hmu]
    simp
  · rintro _ ⟨σ, rfl⟩
    obtain ⟨e, he, rfl⟩ := exists_elem n σ
    rw [Machine.index_ok exact_ck hn h e he, index_elem n hn e he]
    simp

example : Machine.order Machine.ck 12 = some 479001600 ∧ Machine.hooklength Machine.ck [4, 4, 4] = some 462 ∧
    Machine.classSize Machine.ck 12 [3, 3, 3, 3] = some 246400 ∧ Machine.index Machine.ck 3 [some 3, some 2, some 1] = index 3 [some 3, some 2, some 1] := by
  refine ⟨by decide, by decide +kernel, by decide +kernel, by decide +kernel⟩

open Machine in
/-- **C57.** From `n = 13` on the order of the group is not an `int`: creating `Sn(n)` and calling `hooklength()` of
any partition overflow, which is undefined; and some elements have no `int` index. -/
theorem C57_overflow (n : Nat) (h : 13 ≤ n) :
    ¬ Fits (Fintype.card (Equiv.Perm (Fin n)) : Int) ∧ Machine.order ck n = none ∧
    (∀ p, IsPartition n p → Machine.hooklength ck p = none) ∧
    ∃ σ, IsPerm n σ ∧ index n σ ≠ none ∧ Machine.index ck n σ ≠ index n σ := by
  have hb := factorial_ge_13 h
  refine ⟨fun hf => ?_, factorial_none h, fun p hp => hooklength_none hp h, ?_⟩
  · rw [Fintype.card_perm, Fintype.card_fin] at hf
    have := hf.2
    have h2 : (((n ! : Nat)) : Int) < ((2 ^ 31 : Nat) : Int) := by exact_mod_cast this
    omega
  · have he := index_elem n (by omega) (2 ^ 31) hb
    refine ⟨enc (elem n (2 ^ 31)), ⟨_, rfl⟩, by rw [he]; simp, fun e => ?_⟩
    rw [he] at e
    have := index_fits n _ _ e
    revert this
    decide

example : ¬ Machine.Fits (13 ! : Nat) ∧ Machine.hooklength Machine.ck [13] = none := by
  refine ⟨by decide, by decide +kernel⟩

/-- **C57.** With wrap-around instead of undefined behaviour, `hooklength()` is too small for every partition of
every `n ≥ 13` (as long as `2n+1` fits). -/
theorem C57_wrapped (n : Nat) (h : 13 ≤ n) (hn : 2 * n + 1 < 2 ^ 31) (p : List Nat) (hp : IsPartition n p) :
    ∃ x L, Machine.hooklength Machine.wrap p = some x ∧ tableaux p = some L ∧ x < (L.length : Int) := by
  obtain ⟨⟨L, h1, h2⟩, _⟩ := C16_number_of_tableaux n (by omega) p hp
  obtain ⟨x, h3, h4⟩ := Machine.hooklength_wrap hp h hn
  exact ⟨x, L, h3, h1, by rw [← h2, hooklength_eq hp]; exact h4⟩

example : Machine.hooklength Machine.wrap [13] = some 0 ∧ Machine.hooklength Machine.wrap [12, 1] = some 3 ∧ hooklength [12, 1] = 12 := by
  refine ⟨by decide +kernel, by decide +kernel, by decide +kernel⟩

end Snob.Props
