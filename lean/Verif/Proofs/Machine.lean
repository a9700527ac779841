import Verif.Model.Machine
import Verif.Proofs.Hook
import Verif.Proofs.Classes

/-! # Proofs about 32 bit arithmetic -/

namespace Snob.Machine

open Snob Snob.IP
open scoped Nat

/-- a reduction that changes nothing that fits -/
def Exact (red : Int → Option Int) : Prop := ∀ x, Fits x → red x = some x

theorem exact_ck : Exact ck := fun x h => if_pos h

theorem exact_wrap : Exact wrap := fun x h => by
  unfold wrap
  congr 1
  obtain ⟨h1, h2⟩ := h
  exact Int.bmod_eq_of_le (by simpa using h1) (by simpa using h2)

theorem fits_nat {x : Nat} (h : x < 2 ^ 31) : Fits (x : Int) := ⟨by omega, by exact_mod_cast h⟩

theorem factorial_12 : (12 ! : Nat) < 2 ^ 31 := by decide

theorem factorial_13 : 2 ^ 31 < (13 ! : Nat) := by decide

theorem factorial_le_12 {n : Nat} (h : n ≤ 12) : n ! < 2 ^ 31 := (Nat.factorial_le h).trans_lt factorial_12

theorem factorial_ge_13 {n : Nat} (h : 13 ≤ n) : 2 ^ 31 < n ! := factorial_13.trans_le (Nat.factorial_le h)

theorem factorial_ok {red : Int → Option Int} (hr : Exact red) {n : Nat} (h : n ≤ 12) : factorial red n = some (n ! : Int) := by
  induction n with
  | zero => rfl
  | succ n ih =>
    rw [factorial, ih (by omega), Option.bind_some, ← Nat.cast_mul, ← Nat.factorial_succ]
    exact hr _ (fits_nat (factorial_le_12 h))

theorem factorial_none {n : Nat} (h : 13 ≤ n) : factorial ck n = none := by
  induction n, h using Nat.le_induction with
  | base => decide
  | succ n _ ih => rw [factorial, ih]; rfl

theorem factorial_wrap (n : Nat) : ∃ w : Int, factorial wrap n = some w ∧ Fits w := by
  induction n with
  | zero => exact ⟨1, rfl, by decide⟩
  | succ n ih =>
    obtain ⟨w, h, _⟩ := ih
    refine ⟨_, by rw [factorial, h]; rfl, ?_⟩
    have h1 := Int.le_bmod (x := ((n + 1 : Nat) : Int) * w) (m := 2 ^ 32) (by decide)
    have h2 := Int.bmod_lt (x := ((n + 1 : Nat) : Int) * w) (m := 2 ^ 32) (by decide)
    unfold Fits
    norm_num at h1 h2 ⊢
    omega

theorem foldlM_add {red : Int → Option Int} (hr : Exact red) (g : Nat → Nat) (l : List Nat) (a : Nat) (h : a + (l.map g).sum < 2 ^ 31) :
    l.foldlM (fun n (x : Nat) => red (n + (g x : Int))) (a : Int) = some ((a + (l.map g).sum : Nat) : Int) := by
  induction l generalizing a with
  | nil => simp
  | cons x l ih =>
    rw [List.map_cons, List.sum_cons] at h ⊢
    rw [List.foldlM_cons, ← Nat.cast_add, hr _ (fits_nat (by omega)), Option.bind_eq_bind, Option.bind_some, ih _ (by omega), Nat.add_assoc]

theorem getn_ok {red : Int → Option Int} (hr : Exact red) {p : List Nat} (h : p.sum < 2 ^ 31) : getn red p = some (p.sum : Int) := by
  have := foldlM_add hr id p 0 (by simpa using h)
  simpa [getn] using this

theorem below_ok {red : Int → Option Int} (hr : Exact red) (rows : List Nat) (c : Nat) (h : IP.below rows c < 2 ^ 31) :
    below red rows c = some (IP.below rows c : Int) := by
  rw [below_eq] at h ⊢
  have := foldlM_add hr (fun x => if c ≤ x then 1 else 0) rows 0 (by simpa using h)
  rw [Nat.zero_add] at this
  rw [← this]
  unfold below
  congr 1
  funext n x
  split_ifs <;> rfl

theorem fits_tdiv {x d : Int} (hx : Fits x) (hd : 0 < d) : Fits (Int.tdiv x d) := by
  obtain ⟨h1, h2⟩ := hx
  have h3 : (Int.tdiv x d).natAbs ≤ x.natAbs := by rw [Int.natAbs_tdiv]; exact Nat.div_le_self _ _
  unfold Fits
  rcases le_or_gt 0 x with h | h
  · have := Int.tdiv_nonneg h hd.le
    omega
  · have h4 : Int.tdiv x d ≤ 0 := by
      have : 0 ≤ Int.tdiv (-x) d := Int.tdiv_nonneg (by omega) hd.le
      rw [Int.neg_tdiv] at this; omega
    omega

theorem tdiv_tdiv (x : Int) (a b : Nat) : Int.tdiv (Int.tdiv x a) b = Int.tdiv x ((a * b : Nat) : Int) := by
  obtain ⟨m, rfl | rfl⟩ := x.eq_nat_or_neg
  · rw [← Int.ofNat_tdiv, ← Int.ofNat_tdiv, ← Int.ofNat_tdiv, Nat.div_div_eq_div_mul]
  · rw [Int.neg_tdiv, Int.neg_tdiv, Int.neg_tdiv, ← Int.ofNat_tdiv, ← Int.ofNat_tdiv, ← Int.ofNat_tdiv, Nat.div_div_eq_div_mul]

/-- division by one number after the other -/
theorem foldlM_tdiv {red : Int → Option Int} (hr : Exact red) (step : Int → Nat → Option Int) (g : Nat → Nat) (l : List Nat)
    (hs : ∀ res, Fits res → ∀ c ∈ l, step res c = red (Int.tdiv res (g c))) (hg : ∀ c ∈ l, 0 < g c) (res : Int) (hf : Fits res) :
    l.foldlM step res = some (Int.tdiv res ((l.map g).prod : Nat)) ∧ Fits (Int.tdiv res ((l.map g).prod : Nat)) := by
  induction l generalizing res with
  | nil => simpa using hf
  | cons c l ih =>
    have h1 := fits_tdiv hf (d := g c) (by have := hg c (by simp); omega)
    rw [List.foldlM_cons, hs res hf c (by simp), hr _ h1, Option.bind_eq_bind, Option.bind_some, List.map_cons, List.prod_cons]
    have := ih (fun res hf c hc => hs res hf c (by simp [hc])) (fun c hc => hg c (by simp [hc])) _ h1
    rwa [tdiv_tdiv] at this

theorem below_le (rows : List Nat) (c : Nat) : IP.below rows c ≤ rows.length := by
  rw [below_eq]
  induction rows with
  | nil => simp
  | cons x l ih => rw [List.map_cons, List.sum_cons, List.length_cons]; split_ifs <;> omega

theorem hookRow_ok {red : Int → Option Int} (hr : Exact red) (x : Nat) (xs : List Nat) (h : x + xs.length + 1 < 2 ^ 31) (res : Int) (hf : Fits res) :
    hookRow red x xs res = some (Int.tdiv res ((rowHooks x xs).prod : Nat)) ∧ Fits (Int.tdiv res ((rowHooks x xs).prod : Nat)) := by
  refine foldlM_tdiv hr _ (fun c => (x - c) + IP.below xs c + 1) (List.range' 1 x) (fun res hf c hc => ?_) (fun c _ => by omega) res hf
  have hb := below_le xs c
  have hc' := List.mem_range'_1.1 hc
  rw [show (x : Int) - (c : Int) = ((x - c : Nat) : Int) by omega, hr _ (fits_nat (by omega)), below_ok hr xs c (by omega)]
  simp only [Option.bind_eq_bind, Option.bind_some]
  rw [← Nat.cast_add, hr _ (fits_nat (by omega)), Option.bind_some, show (((x - c + IP.below xs c : Nat) : Int) + 1) = ((x - c + IP.below xs c + 1 : Nat) : Int) by push_cast; ring,
    hr _ (fits_nat (by omega)), Option.bind_some, if_neg (by omega)]

theorem hookLoop_ok {red : Int → Option Int} (hr : Exact red) (p : List Nat) (h : p.sum + p.length + 1 < 2 ^ 31) (res : Int) (hf : Fits res) :
    hookLoop red p res = some (Int.tdiv res ((hooks p).prod : Nat)) := by
  induction p generalizing res with
  | nil => simp [hookLoop, hooks]
  | cons x xs ih =>
    rw [List.sum_cons, List.length_cons] at h
    obtain ⟨h1, h2⟩ := hookRow_ok hr x xs (by omega) res hf
    rw [hookLoop, h1, Option.bind_some, ih (by omega) _ h2, hooks, List.prod_append, tdiv_tdiv]

theorem hooklength_of {red : Int → Option Int} (hr : Exact red) {n : Nat} {p : List Nat} (hp : IsPartition n p) (hn : 2 * n + 1 < 2 ^ 31) (w : Int)
    (hw : factorial red n = some w) (hf : Fits w) : hooklength red p = some (Int.tdiv w ((hooks p).prod : Nat)) := by
  have hl := hp.length_le
  unfold hooklength
  rw [getn_ok hr (by rw [hp.sum]; omega), hp.sum]
  simp only [Option.bind_eq_bind, Option.bind_some]
  rw [if_neg (by omega), Int.toNat_natCast, hw, Option.bind_some]
  exact hookLoop_ok hr p (by rw [hp.sum]; omega) w hf

theorem hooklength_ok {red : Int → Option Int} (hr : Exact red) {n : Nat} {p : List Nat} (hp : IsPartition n p) (h : n ≤ 12) :
    hooklength red p = some (dimW n p : Int) := by
  have hd := dimW_mul_hooks hp
  have hpos : 0 < (hooks p).prod := Nat.pos_of_ne_zero fun h0 => by rw [h0, mul_zero] at hd; exact (Nat.factorial_pos n).ne hd
  rw [hooklength_of hr hp (by omega) _ (factorial_ok hr h) (fits_nat (factorial_le_12 h)), ← Int.ofNat_tdiv, ← hd, Nat.mul_div_cancel _ hpos]

theorem hooklength_none {n : Nat} {p : List Nat} (hp : IsPartition n p) (h : 13 ≤ n) : hooklength ck p = none := by
  unfold hooklength
  cases hg : getn ck p with
  | none => rfl
  | some m =>
    have hm : m = n := by
      have : ∀ (l : List Nat) (a m : Int), l.foldlM (fun n (x : Nat) => ck (n + (x : Int))) a = some m → m = a + l.sum := by
        intro l
        induction l with
        | nil => intro a m h; simp at h; simp [h]
        | cons x l ih =>
          intro a m h
          rw [List.foldlM_cons] at h
          unfold ck at h
          split_ifs at h with h1
          · have := ih _ _ h; rw [List.sum_cons, Nat.cast_add]; linarith
          · simp at h
      have := this p 0 m hg
      rw [hp.sum] at this; simpa using this
    subst hm
    simp only [Option.bind_eq_bind, Option.bind_some]
    rw [if_neg (by omega), Int.toNat_natCast, factorial_none h]
    rfl

theorem hooklength_wrap {n : Nat} {p : List Nat} (hp : IsPartition n p) (h : 13 ≤ n) (hn : 2 * n + 1 < 2 ^ 31) :
    ∃ x, hooklength wrap p = some x ∧ x < dimW n p := by
  obtain ⟨w, hw, hf⟩ := factorial_wrap n
  have hd := dimW_mul_hooks hp
  have hpos : 0 < (hooks p).prod := Nat.pos_of_ne_zero fun h0 => by rw [h0, mul_zero] at hd; exact (Nat.factorial_pos n).ne hd
  refine ⟨_, hooklength_of exact_wrap hp hn w hw hf, ?_⟩
  rcases lt_or_ge w 0 with h0 | h0
  · have : 0 ≤ Int.tdiv (-w) ((hooks p).prod : Nat) := Int.tdiv_nonneg (by omega) (by omega)
    rw [Int.neg_tdiv] at this
    have h1 : 0 < dimW n p := Nat.pos_of_ne_zero fun h0 => by rw [h0, zero_mul] at hd; exact (Nat.factorial_pos n).ne hd
    omega
  · obtain ⟨v, rfl⟩ := Int.eq_ofNat_of_zero_le h0
    rw [← Int.ofNat_tdiv]
    have h1 := factorial_ge_13 h
    have h2 : v < n ! := by have := hf.2; omega
    have : v / (hooks p).prod < dimW n p := (Nat.div_lt_iff_lt_mul hpos).2 (by rw [hd]; exact h2)
    exact_mod_cast this

/-! ## Elements and indices -/

theorem iterDown_sim {S : Type} {b b' : Int → S → Option S} (P : Int → S → Prop) (k : Nat) : ∀ (i : Int) (s : S), P i s →
    (∀ j s, i - k < j → j ≤ i → P j s → b' j s = b j s ∧ ∀ s', b j s = some s' → P (j - 1) s') →
    iterDown b' k i s = iterDown b k i s := by
  induction k with
  | zero => intro i s _ _; rfl
  | succ k ih =>
    intro i s h0 hb
    obtain ⟨h1, h2⟩ := hb i s (by omega) (by omega) h0
    rw [iterDown, iterDown, h1]
    cases hs : b i s with
    | none => rfl
    | some s' => exact ih (i - 1) s' (h2 s' hs) fun j s hj1 hj2 => hb j s (by omega) (by omega)

theorem digitLoop_ok {red : Int → Option Int} (hr : Exact red) {n : Nat} (h : n ≤ 12) (e : Nat) (he : e < n !) :
    digitLoop red n 0 e = Snob.digitLoop n 0 e := by
  unfold digitLoop Snob.digitLoop forDown
  refine iterDown_sim (fun i se => 0 ≤ se.2 ∧ se.2 < (((i.toNat)! : Nat) : Int)) _ _ _ ⟨by simp, by simpa using he⟩ ?_
  rintro j ⟨s, r⟩ h1 h2 ⟨h3, h4⟩
  obtain ⟨i, rfl⟩ : ∃ i : Nat, j = ((i + 1 : Nat) : Int) := ⟨(j - 1).toNat, by omega⟩
  obtain ⟨m, rfl⟩ := Int.eq_ofNat_of_zero_le h3
  have hi : i + 1 ≤ n := by omega
  have e1 : (((i + 1 : Nat) : Int) - 1).toNat = i := by omega
  simp only [Int.toNat_natCast] at h4 ⊢
  rw [e1, factorial_ok hr (by omega)]
  simp only [Option.bind_eq_bind, Option.bind_some]
  have hm : m < (i + 1)! := by exact_mod_cast h4
  have hq : m / i ! ≤ i := by
    rw [Nat.factorial_succ] at hm
    have := (Nat.div_lt_iff_lt_mul (Nat.factorial_pos i)).2 hm
    omega
  have hv : i + 1 - m / i ! ≤ i + 1 := Nat.sub_le _ _
  have hmod : m % i ! < i ! := Nat.mod_lt _ (Nat.factorial_pos i)
  have hlt := factorial_le_12 (by omega : i ≤ 12)
  rw [← Int.ofNat_tdiv, ← Int.ofNat_tmod, hr _ (fits_nat (by omega)), Option.bind_some,
    show ((i + 1 : Nat) : Int) - ((m / i ! : Nat) : Int) = ((i + 1 - m / i ! : Nat) : Int) by omega, hr _ (fits_nat (by omega)), Option.bind_some,
    hr _ (fits_nat (by omega))]
  refine ⟨rfl, ?_⟩
  intro s' hs'
  cases hw : wr s (((i + 1 : Nat) : Int) - 1) ((i + 1 - m / i ! : Nat) : Int) with
  | none => rw [hw] at hs'; simp at hs'
  | some a =>
    rw [hw, Option.bind_some, Option.some.injEq] at hs'
    subst hs'
    have hmod' : ((m % i ! : Nat) : Int) < ((i ! : Nat) : Int) := by exact_mod_cast hmod
    exact ⟨by simp only; omega, hmod'⟩

theorem element_ok {red : Int → Option Int} (hr : Exact red) {n : Nat} (h : n ≤ 12) (e : Nat) (he : e < n !) :
    element red n e = Snob.element n e := by
  unfold element Snob.element
  rw [digitLoop_ok hr h e he]

theorem index_ok {red : Int → Option Int} (hr : Exact red) {n : Nat} (hn : 1 ≤ n) (h : n ≤ 12) (e : Nat) (he : e < n !) :
    index red n (enc (elem n e)) = some (e : Int) := by
  induction n generalizing e with
  | zero => omega
  | succ n ih =>
    rcases n with _ | n
    · have : e = 0 := by simpa using he
      subst this
      rfl
    · have hlt : e % (n + 1)! < (n + 1)! := Nat.mod_lt _ (Nat.factorial_pos _)
      have hd : e / (n + 1)! ≤ n + 1 := by
        rw [Nat.factorial_succ (n + 1)] at he
        have := (Nat.div_lt_iff_lt_mul (Nat.factorial_pos (n + 1))).2 he
        omega
      have hl : (enc (elem (n + 2) e)).length = n + 2 := length_enc _
      have hb := factorial_le_12 h
      have h0 : ¬ ((enc (elem (n + 2) e)).length ≠ n + 2) := by omega
      rw [index]
      simp only [if_neg h0, Option.bind_eq_bind]
      rw [elem, splitTop_ins]
      simp only [Option.bind_some]
      rw [ih (by omega) (by omega) _ hlt, Option.bind_some, factorial_ok hr (by omega), Option.bind_some]
      have h1 : (((n + 1 : Nat) : Int)) - ((n + 1 - e / (n + 1)! : Nat) : Int) = ((e / (n + 1)! : Nat) : Int) := by omega
      rw [h1, ← Nat.cast_mul]
      have h2 := Nat.mod_add_div e (n + 1)!
      rw [Nat.mul_comm] at h2
      rw [hr _ (fits_nat (by omega)), Option.bind_some, ← Nat.cast_add, h2]
      exact hr _ (fits_nat (by omega))

theorem index_fits (n : Nat) (a : Arr) (x : Int) (h : index ck n a = some x) : Fits x := by
  match n with
  | 0 => simp [index] at h
  | 1 => simp [index] at h; subst h; decide
  | n + 2 =>
    rw [index] at h
    split_ifs at h with hl
    · simp at h
    simp only [Option.bind_eq_bind, Option.bind_eq_some_iff] at h
    obtain ⟨_, _, _, _, _, _, _, _, h⟩ := h
    unfold ck at h
    split_ifs at h with h1
    simp at h
    rwa [← h]

/-! ## Class sizes -/

theorem classSizeLoop_dvd (xs : List Nat) (prev count t : Nat) : t ∣ Snob.classSizeLoop xs prev count t := by
  induction xs generalizing prev count t with
  | nil => exact Dvd.intro _ rfl
  | cons x xs ih =>
    rw [Snob.classSizeLoop]
    split_ifs
    · exact ih _ _ _
    · exact (Dvd.intro _ rfl).trans (ih _ _ _)

theorem classSizeLoop_ok {red : Int → Option Int} (hr : Exact red) (xs : List Nat) (prev count t : Nat) (hpos : 0 < Snob.classSizeLoop xs prev count t)
    (hlt : Snob.classSizeLoop xs prev count t < 2 ^ 31) (hc : count + xs.length ≤ 12) :
    classSizeLoop red xs prev count t = some (Snob.classSizeLoop xs prev count t : Int) := by
  induction xs generalizing prev count t with
  | nil =>
    simp only [List.length_nil, Nat.add_zero] at hc
    rw [classSizeLoop, factorial_ok hr hc]
    simp only [Option.bind_eq_bind, Option.bind_some]
    rw [Snob.classSizeLoop] at hlt ⊢
    rw [← Nat.cast_mul, ← Nat.cast_mul]
    exact hr _ (fits_nat hlt)
  | cons x xs ih =>
    rw [List.length_cons] at hc
    rw [classSizeLoop]
    rw [Snob.classSizeLoop] at hpos hlt ⊢
    split_ifs at hpos hlt ⊢ with h
    · exact ih _ _ _ hpos hlt (by omega)
    · rw [factorial_ok hr (by omega)]
      simp only [Option.bind_eq_bind, Option.bind_some]
      rw [← Nat.cast_mul, ← Nat.cast_mul]
      have h1 := Nat.le_of_dvd hpos (classSizeLoop_dvd xs x 1 (t * (prev ^ count * count !)))
      rw [hr _ (fits_nat (by omega)), Option.bind_some]
      exact ih _ _ _ hpos hlt (by omega)

theorem classSize_ok {red : Int → Option Int} (hr : Exact red) {n : Nat} (hn : 1 ≤ n) (h : n ≤ 12) {p : List Nat} (hp : IsPartition n p) :
    ∃ c : Nat, Snob.classSize n p = some c ∧ classSize red n p = some (c : Int) := by
  rcases p with _ | ⟨x, xs⟩
  · have := hp.sum; simp at this; omega
  · have e : Snob.classSizeLoop xs x 1 1 = zee ((x :: xs : List Nat) : Multiset Nat) := by
      rw [classSizeLoop_eq xs x 1 1 hp.sorted, one_mul, Multiset.replicate_one, Multiset.singleton_add, ← Multiset.cons_coe]
    have hz : 0 < zee ((x :: xs : List Nat) : Multiset Nat) := zee_pos (by simpa using hp.pos)
    have hzle : zee ((x :: xs : List Nat) : Multiset Nat) ≤ n ! := Nat.le_of_dvd (Nat.factorial_pos n) (Dvd.intro_left _ (zee_mul_card hp))
    have hb := factorial_le_12 h
    have hl := hp.length_le
    rw [List.length_cons] at hl
    refine ⟨n ! / zee ((x :: xs : List Nat) : Multiset Nat), classSize_eq hn hp, ?_⟩
    rw [classSize]
    rw [show (1 : Int) = ((1 : Nat) : Int) from rfl, classSizeLoop_ok hr xs x 1 1 (by omega) (by omega) (by omega), factorial_ok hr h]
    simp only [Option.bind_eq_bind, Option.bind_some, e]
    rw [if_neg (by omega), ← Int.ofNat_tdiv]
    exact hr _ (fits_nat ((Nat.div_le_self _ _).trans_lt hb))

end Snob.Machine
