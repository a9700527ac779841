import Verif.Model.PySeq
import Verif.Proofs.SnElements
import Verif.Proofs.IrrepAct

/-! # Loops of Python over the classes with `__getitem__`: helper lemmas -/

namespace Snob

open scoped Nat

variable {α : Type}

/-- `obj[i]` is the `i`-th member of `l`, and undefined at the length of `l` -/
structure Lists (get : Int → Option (PyGet α)) (l : List α) : Prop where
  at' : ∀ i (h : i < l.length), get (i : Int) = some (.item l[i])
  beyond : get (l.length : Int) = none

theorem Lists.range {get : Int → Option (PyGet α)} {l : List α} (h : Lists get l) (k i : Nat) (hk : i + k ≤ l.length) :
    pyRange get k (i : Int) = some ((l.drop i).take k) := by
  induction k generalizing i with
  | zero => simp [pyRange]
  | succ k ih =>
    have hi : i < l.length := by omega
    have e := ih (i + 1) (by omega)
    rw [Nat.cast_add, Nat.cast_one] at e
    simp only [pyRange, h.at' i hi, Option.bind_eq_bind, Option.bind_some, e]
    rw [List.drop_eq_getElem_cons hi, List.take_succ_cons]

theorem Lists.loop {get : Int → Option (PyGet α)} {l : List α} (h : Lists get l) (k i : Nat) (hk : i + k ≤ l.length) :
    pyLoop get k (i : Int) = some ((l.drop i).take k, false) := by
  induction k generalizing i with
  | zero => simp [pyLoop]
  | succ k ih =>
    have hi : i < l.length := by omega
    have e := ih (i + 1) (by omega)
    rw [Nat.cast_add, Nat.cast_one] at e
    simp only [pyLoop, h.at' i hi, Option.bind_eq_bind, Option.bind_some, e]
    rw [List.drop_eq_getElem_cons hi, List.take_succ_cons]

theorem Lists.loop_none {get : Int → Option (PyGet α)} {l : List α} (h : Lists get l) (k i : Nat) (hi : i ≤ l.length) (hk : l.length < i + k) :
    pyLoop get k (i : Int) = none := by
  induction k generalizing i with
  | zero => omega
  | succ k ih =>
    by_cases hi' : i < l.length
    · have e := ih (i + 1) (by omega) (by omega)
      rw [Nat.cast_add, Nat.cast_one] at e
      simp only [pyLoop, h.at' i hi', Option.bind_eq_bind, Option.bind_some, e, Option.bind_none]
    · obtain rfl : i = l.length := by omega
      simp only [pyLoop, h.beyond, Option.bind_eq_bind, Option.bind_none]

theorem Lists.in_true {get : Int → Option (PyGet α)} {l : List α} (h : Lists get l) {eq : α → Option Bool} (c i : Nat) (hic : i ≤ c) (hc : c < l.length)
    (hf : ∀ j, i ≤ j → j < c → ∀ (hj : j < l.length), eq l[j] = some false) (ht : eq l[c] = some true) :
    pyIn get eq (c + 1 - i) (i : Int) = some (some true) := by
  induction hd : c - i generalizing i with
  | zero =>
    obtain rfl : i = c := by omega
    have : i + 1 - i = 0 + 1 := by omega
    rw [this]
    simp only [pyIn, h.at' i hc, Option.bind_eq_bind, Option.bind_some, ht, if_true]
  | succ d ih =>
    have e := ih (i + 1) (by omega) (fun j h1 h2 hj => hf j (by omega) h2 hj) (by omega)
    rw [Nat.cast_add, Nat.cast_one] at e
    have : c + 1 - i = (c + 1 - (i + 1)) + 1 := by omega
    rw [this]
    simp only [pyIn, h.at' i (by omega), Option.bind_eq_bind, Option.bind_some, hf i (le_refl i) (by omega) (by omega), e]
    rfl

theorem Lists.in_none {get : Int → Option (PyGet α)} {l : List α} (h : Lists get l) {eq : α → Option Bool} (k i : Nat) (hi : i ≤ l.length) (hk : l.length < i + k)
    (hf : ∀ j, ∀ (hj : j < l.length), eq l[j] = some false) : pyIn get eq k (i : Int) = none := by
  induction k generalizing i with
  | zero => omega
  | succ k ih =>
    by_cases hi' : i < l.length
    · have e := ih (i + 1) (by omega) (by omega)
      rw [Nat.cast_add, Nat.cast_one] at e
      simp only [pyIn, h.at' i hi', Option.bind_eq_bind, Option.bind_some, hf i hi', e]
      rfl
    · obtain rfl : i = l.length := by omega
      simp only [pyIn, h.beyond, Option.bind_eq_bind, Option.bind_none]

theorem lists_vec (l : List α) : Lists (fun i => (vecAt l i).map .item) l where
  at' i h := by simp [vecAt, List.getElem?_eq_getElem h]
  beyond := by simp [vecAt]

/-! ### elements beyond the order of the group -/

theorem iterDown_none {S : Type} {body : Int → S → Option S} (j : Nat) (k : Nat) (i : Int) (hj : j < k) (hb : ∀ s, body (i - j) s = none) (s : S) :
    iterDown body k i s = none := by
  induction j generalizing k i s with
  | zero =>
    obtain ⟨k, rfl⟩ : ∃ k', k = k' + 1 := ⟨k - 1, by omega⟩
    have := hb s
    rw [Nat.cast_zero, sub_zero] at this
    rw [iterDown, this, Option.bind_none]
  | succ j ih =>
    obtain ⟨k, rfl⟩ : ∃ k', k = k' + 1 := ⟨k - 1, by omega⟩
    rw [iterDown]
    cases body i s with
    | none => rfl
    | some s' =>
      rw [Option.bind_some]
      exact ih k (i - 1) (by omega) (fun s => by
        have := hb s
        push_cast at this
        rw [show i - 1 - (j : Int) = i - (j + 1) by ring]
        exact this) s'

theorem insertStep_none (p : Arr) {i : Nat} (hi : 1 ≤ i) {t : Int} (ht : t ≤ 0) : insertStep p i t = none := by
  unfold insertStep forDown
  rw [iterDown_none (i - 1) _ _ (by omega) (fun s => ?_)]
  · rfl
  · have : (i : Int) - ((i - 1 : Nat) : Int) = 1 := by omega
    rw [this]
    rfl

/-- the digit loop leaves the first digit that it writes -/
theorem digitLoop_first {n : Nat} (hn : 1 ≤ n) (e : Int) {s : Arr × Int} (h : digitLoop n 0 e = some s) :
    rd s.1 ((n : Int) - 1) = some ((n : Int) - Int.tdiv e (((n - 1)! : Nat) : Int)) := by
  unfold digitLoop forDown at h
  obtain ⟨m, rfl⟩ : ∃ m, n = m + 1 := ⟨n - 1, by omega⟩
  have e1 : (((m + 1 : Nat) : Int) - (((0 : Nat) : Int) + 1) + 1).toNat = m + 1 := by omega
  rw [e1, iterDown] at h
  have e2 : ((m + 1 : Nat) : Int) - 1 = (m : Int) := by omega
  simp only [Option.bind_eq_bind, e2, Int.toNat_natCast] at h
  rw [wr_ofNat _ _ _ (by simp)] at h
  simp only [Option.bind_some] at h
  -- the invariant of the other steps
  have key : ∀ (k : Nat) (i : Int) (se : Arr × Int), i ≤ m → rd se.1 (m : Int) = some (((m + 1 : Nat) : Int) - Int.tdiv e ((m ! : Nat) : Int)) →
      iterDown (fun i se => do
        let f : Int := (Nat.factorial (i - 1).toNat : Nat)
        let s ← wr se.1 (i - 1) (i - Int.tdiv se.2 f)
        some (s, Int.tmod se.2 f)) k i se = some s →
      rd s.1 (m : Int) = some (((m + 1 : Nat) : Int) - Int.tdiv e ((m ! : Nat) : Int)) := by
    intro k
    induction k with
    | zero =>
      intro i se _ hs hk
      rw [iterDown] at hk
      obtain rfl := Option.some.inj hk
      exact hs
    | succ k ih =>
      intro i se hi hs hk
      rw [iterDown] at hk
      simp only [Option.bind_eq_bind] at hk
      unfold wr at hk
      by_cases hc : 0 ≤ i - 1 ∧ (i - 1).toNat < se.1.length
      · rw [if_pos hc] at hk
        simp only [Option.bind_some] at hk
        refine ih (i - 1) _ (by omega) ?_ hk
        rw [rd_ofNat] at hs ⊢
        simp only
        rw [List.getElem?_set_ne (by omega)]
        exact hs
      · rw [if_neg hc] at hk
        simp at hk
  have := key m (m : Int) _ (le_refl _) (by
    rw [rd_ofNat]
    simp) h
  rw [e2]
  exact this

theorem insertLoop_none {n : Nat} (hn : 2 ≤ n) (s p : Arr) {t : Int} (hs : rd s ((n : Int) - 1) = some t) (ht : t ≤ 0) : insertLoop n 2 s p = none := by
  unfold insertLoop forUp
  have e1 : (((n : Int) + 1) - ((2 : Nat) : Int)).toNat = (n - 2) + 1 := by omega
  rw [e1, iterUp_succ]
  cases iterUp _ (n - 2) ((2 : Nat) : Int) p with
  | none => rfl
  | some q =>
    rw [Option.bind_some]
    have e2 : ((2 : Nat) : Int) + ((n - 2 : Nat) : Int) = (n : Int) := by omega
    simp only [e2, Option.bind_eq_bind]
    rw [hs, Option.bind_some]
    exact insertStep_none q (by omega) ht

theorem element_beyond {n : Nat} (hn : 2 ≤ n) {e : Nat} (he : n ! ≤ e) : element n (e : Int) = none := by
  unfold element
  simp only [Option.bind_eq_bind]
  cases Perm.identity n with
  | none => rfl
  | some p =>
    rw [Option.bind_some]
    cases hd : digitLoop n 0 (e : Int) with
    | none => rfl
    | some s =>
      rw [Option.bind_some]
      refine insertLoop_none hn s.1 p (digitLoop_first (by omega) _ hd) ?_
      rw [← Int.ofNat_tdiv]
      have : n ≤ e / (n - 1)! := by
        rw [Nat.le_div_iff_mul_le (Nat.factorial_pos _), Nat.mul_factorial_pred (by omega)]
        exact he
      omega

/-! ### the index `-1` -/

theorem insertStep_end (p : Arr) {i t : Int} (h : i ≤ t) : insertStep p i t = wr p (t - 1) i := by
  unfold insertStep forDown
  have : (i - (t + 1) + 1).toNat = 0 := by omega
  rw [this]
  rfl

theorem digitLoop_minus {n : Nat} (hn : 1 ≤ n) :
    ∃ s : Arr × Int, digitLoop n 0 (-1) = some s ∧ ∀ j : Nat, 2 ≤ j → j ≤ n → rd s.1 ((j : Int) - 1) = some (if j = 2 then 3 else (j : Int)) := by
  obtain ⟨s, h, -, -, hs⟩ := forDown_inv (lo := ((0 : Nat) : Int) + 1) (hi := n)
    (s := ((List.replicate n (some (0 : Int)) : Arr), (-1 : Int)))
    (body := fun i se => do
      let f : Int := (Nat.factorial (i - 1).toNat : Nat)
      let s ← wr se.1 (i - 1) (i - Int.tdiv se.2 f)
      some (s, Int.tmod se.2 f))
    (fun i se => se.1.length = n ∧ (2 ≤ i → se.2 = -1) ∧
      ∀ j : Nat, 2 ≤ j → i < j → j ≤ n → rd se.1 ((j : Int) - 1) = some (if j = 2 then 3 else (j : Int)))
    (by omega)
    ⟨by simp, fun _ => rfl, by intro j h1 h2; omega⟩
    (by
      rintro i ⟨s, e1⟩ h1 h2 ⟨hl, he, hs⟩
      obtain ⟨k, rfl⟩ : ∃ k : Nat, i = (k : Int) + 1 := ⟨(i - 1).toNat, by omega⟩
      have ek : ((k : Int) + 1 - 1) = (k : Int) := by omega
      simp only at hl he hs
      simp only [ek, Int.toNat_natCast, Option.bind_eq_bind]
      rw [wr_ofNat _ _ _ (by omega), Option.bind_some]
      refine ⟨_, rfl, by simpa using hl, fun hk => ?_, fun j hj1 hj2 hj3 => ?_⟩
      · have hk2 : 2 ≤ k := by omega
        have hf : 2 ≤ k ! := le_trans hk2 (Nat.self_le_factorial k)
        show Int.tmod e1 _ = -1
        rw [he (by omega), Int.neg_tmod, Int.tmod_eq_of_lt (by omega) (by omega)]
      · have ej : (j : Int) - 1 = ((j - 1 : Nat) : Int) := by omega
        rw [ej, rd_ofNat]
        simp only
        rw [List.getElem?_set]
        by_cases hjk : k = j - 1
        · rw [if_pos hjk, if_pos (by omega)]
          have e2 : e1 = -1 := he (by omega)
          subst e2
          show some _ = _
          rw [Int.neg_tdiv]
          by_cases hj : j = 2
          · rw [if_pos hj]
            obtain rfl : k = 1 := by omega
            rfl
          · rw [if_neg hj]
            have hk2 : 2 ≤ k := by omega
            have hf : 2 ≤ k ! := le_trans hk2 (Nat.self_le_factorial k)
            rw [Int.tdiv_eq_zero_of_lt (by omega) (by omega)]
            congr 1
            omega
        · rw [if_neg hjk, ← rd_ofNat, ← ej]
          exact hs j hj1 (by omega) hj3)
  exact ⟨s, h, fun j h1 h2 => hs j h1 (by omega) h2⟩

theorem enc_one_set {n : Nat} (k : Nat) (x : Option Int) : ((enc (1 : Equiv.Perm (Fin n))).set k x).set k (some ((k : Int) + 1)) = enc (1 : Equiv.Perm (Fin n)) := by
  rw [List.set_set]
  refine List.ext_getElem (by simp) fun i h1 h2 => ?_
  rw [List.getElem_set]
  by_cases hi : k = i
  · subst hi
    rw [if_pos rfl]
    simp [enc]
  · rw [if_neg hi]

theorem element_minus {n : Nat} (hn : 3 ≤ n) : element n (-1) = some (enc (1 : Equiv.Perm (Fin n))) := by
  obtain ⟨s, hd, hs⟩ := digitLoop_minus (n := n) (by omega)
  have hlen : (enc (1 : Equiv.Perm (Fin n))).length = n := by simp [enc]
  unfold element
  simp only [Option.bind_eq_bind]
  rw [Perm.identity_eq, Option.bind_some, hd, Option.bind_some]
  unfold insertLoop forUp
  have e1 : (((n : Int) + 1) - ((2 : Nat) : Int)).toNat = (n - 3) + 1 + 1 := by omega
  have h2 := hs 2 (le_refl 2) (by omega)
  have h3 := hs 3 (by omega) hn
  rw [e1, iterUp]
  simp only [Option.bind_eq_bind]
  rw [h2, Option.bind_some, if_pos rfl, insertStep_end _ (by decide), show ((3 : Int) - 1) = ((2 : Nat) : Int) from rfl, wr_ofNat _ _ _ (by omega),
    Option.bind_some, iterUp, show (((2 : Nat) : Int) + 1) = ((3 : Nat) : Int) from rfl, h3, Option.bind_some, if_neg (by decide), insertStep_end _ (le_refl _),
    show (((3 : Nat) : Int) - 1) = ((2 : Nat) : Int) from rfl, wr_ofNat _ _ _ (by simp only [List.length_set]; omega), Option.bind_some]
  have e4 : (((3 : Nat) : Int)) = ((2 : Nat) : Int) + 1 := rfl
  rw [e4, enc_one_set]
  obtain ⟨p, hp, rfl⟩ := iterUp_inv (fun _ p => p = enc (1 : Equiv.Perm (Fin n)))
    (body := fun i p => (rd s.1 (i - 1)).bind fun t => insertStep p i t) (n - 3) (((2 : Nat) : Int) + 1 + 1) (enc (1 : Equiv.Perm (Fin n))) rfl
    (by
      rintro j _ h1 h2 rfl
      obtain ⟨k, rfl⟩ : ∃ k : Nat, j = (k : Int) := ⟨j.toNat, by omega⟩
      refine ⟨_, ?_, rfl⟩
      rw [hs k (by omega) (by omega), Option.bind_some, if_neg (by omega), insertStep_end _ (le_refl _)]
      have e5 : (k : Int) - 1 = ((k - 1 : Nat) : Int) := by omega
      rw [e5, wr_ofNat _ _ _ (by omega)]
      have := enc_one_set (n := n) (k - 1) (some (k : Int))
      rw [List.set_set] at this
      have e6 : (k : Int) = ((k - 1 : Nat) : Int) + 1 := by omega
      rw [e6, this])
  exact hp

end Snob
