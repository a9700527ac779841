import Verif.Proofs.SnBank
import Verif.Spec.SnType

/-! # Types -/

namespace Snob

open IP

variable {n : Nat}

theorem lt_eq {a b : List Nat} (ha : IsPartition n a) (hb : IsPartition n b) : IP.lt a b = some (ltLoop a b) := by
  unfold IP.lt
  rw [if_pos (by rw [getn_eq, getn_eq, ha.sum, hb.sum])]

theorem lt_cases {a b : List Nat} (ha : IsPartition n a) (hb : IsPartition n b) :
    (IP.lt a b = some true ∧ LexGreater a b) ∨ (IP.lt a b = some false ∧ IP.lt b a = some true ∧ LexGreater b a) ∨
      (IP.lt a b = some false ∧ IP.lt b a = some false ∧ a = b) := by
  rw [lt_eq ha hb, lt_eq hb ha]
  have h1 := ltLoop_iff (ha.sum.trans hb.sum.symm)
  have h2 := ltLoop_iff (hb.sum.trans ha.sum.symm)
  rcases lexGreater_tri a b with h | h | h
  · exact Or.inl ⟨by rw [h1.2 h], h⟩
  · right; right
    obtain rfl := ha.ext hb h
    have : ltLoop a a = false := by
      rw [← Bool.not_eq_true, ltLoop_iff rfl]; exact lexGreater_irrefl a
    simp [this]
  · right; left
    refine ⟨?_, by rw [h2.2 h], h⟩
    rw [Option.some.injEq, ← Bool.not_eq_true, h1]
    exact lexGreater_asymm h

theorem typeOk_nil (n : Nat) : TypeOk n [] := ⟨by simp [parts], List.Pairwise.nil⟩

theorem typeOk_cons {k : List Nat} {v : Int} {t : SnType} :
    TypeOk n ((k, v) :: t) ↔ IsPartition n k ∧ (∀ x ∈ parts t, LexGreater k x) ∧ TypeOk n t := by
  constructor
  · rintro ⟨h1, h2⟩
    simp only [parts, List.map_cons, List.pairwise_cons] at h1 h2
    exact ⟨h1 k (by simp), h2.1, fun x hx => h1 x (by simp only [parts] at hx; simp [hx]), h2.2⟩
  · rintro ⟨h1, h2, h3⟩
    refine ⟨?_, ?_⟩
    · intro x hx
      simp only [parts, List.map_cons, List.mem_cons] at hx
      rcases hx with rfl | hx
      · exact h1
      · exact h3.all x hx
    · simp only [parts, List.map_cons, List.pairwise_cons]
      exact ⟨h2, h3.sorted⟩

theorem mult_cons (k : List Nat) (v : Int) (t : SnType) (x : List Nat) :
    mult ((k, v) :: t) x = if x = k then v else mult t x := by
  unfold mult
  rw [List.lookup_cons]
  by_cases h : x = k
  · simp [h]
  · have : (x == k) = false := by simpa using h
    simp [h, this]

theorem mult_of_not_mem {t : SnType} {x : List Nat} (h : x ∉ parts t) : mult t x = 0 := by
  induction t with
  | nil => rfl
  | cons e t ih =>
    obtain ⟨k, v⟩ := e
    simp only [parts, List.map_cons, List.mem_cons, not_or] at h
    rw [mult_cons, if_neg h.1, ih h.2]

/-- a type is given by its partitions and their multiplicities -/
theorem TypeOk.ext {t u : SnType} (ht : TypeOk n t) (hu : TypeOk n u) (hp : ∀ x, x ∈ parts t ↔ x ∈ parts u)
    (hm : ∀ x, mult t x = mult u x) : t = u := by
  have hk : parts t = parts u :=
    ((List.perm_ext_iff_of_nodup (ht.sorted.imp fun h => by rintro rfl; exact lexGreater_irrefl _ h)
      (hu.sorted.imp fun h => by rintro rfl; exact lexGreater_irrefl _ h)).2 hp).eq_of_pairwise
      (fun a b _ _ h h' => absurd h' (lexGreater_asymm h)) ht.sorted hu.sorted
  have hv : ∀ t : SnType, TypeOk n t → t = (parts t).map fun x => (x, mult t x) := by
    intro t
    induction t with
    | nil => intro _; rfl
    | cons e t ih =>
      intro h
      obtain ⟨k, v⟩ := e
      obtain ⟨_, h2, h3⟩ := typeOk_cons.1 h
      simp only [parts, List.map_cons, mult_cons, if_true]
      congr 1
      conv_lhs => rw [ih h3]
      refine List.map_congr_left fun x hx => ?_
      rw [if_neg]
      rintro rfl
      exact lexGreater_irrefl _ (h2 x hx)
  rw [hv t ht, hv u hu, hk]
  exact List.map_congr_left fun x _ => by rw [hm]

namespace SnType

theorem upd_ok (f : Int → Int) {t : SnType} (ht : TypeOk n t) {x : List Nat} (hx : IsPartition n x) :
    ∃ t', upd f t x = some t' ∧ TypeOk n t' ∧ (∀ y, y ∈ parts t' ↔ y = x ∨ y ∈ parts t) ∧
      (∀ y, mult t' y = if y = x then f (mult t x) else mult t y) ∧
      (∀ d, typeSum d t' = typeSum d t + (f (mult t x) - mult t x) * d x) := by
  induction t with
  | nil =>
    refine ⟨[(x, f 0)], rfl, typeOk_cons.2 ⟨hx, by simp [parts], typeOk_nil n⟩, by simp [parts], fun y => ?_, fun d => ?_⟩
    · rw [mult_cons]; rfl
    · simp [typeSum, mult]
  | cons e t ih =>
    obtain ⟨k, v⟩ := e
    obtain ⟨h1, h2, h3⟩ := typeOk_cons.1 ht
    rw [upd]
    rcases lt_cases h1 hx with ⟨e1, l⟩ | ⟨e1, e2, l⟩ | ⟨e1, e2, rfl⟩
    · have hne : x ≠ k := by rintro rfl; exact lexGreater_irrefl _ l
      obtain ⟨t', a1, a2, a3, a4, a5⟩ := ih h3
      refine ⟨(k, v) :: t', by simp [e1, a1], typeOk_cons.2 ⟨h1, fun y hy => ?_, a2⟩, fun y => ?_, fun y => ?_, fun d => ?_⟩
      · rcases (a3 y).1 hy with rfl | hy
        · exact l
        · exact h2 y hy
      · have := a3 y
        simp only [parts, List.map_cons, List.mem_cons] at this ⊢
        rw [this]
        tauto
      · rw [mult_cons, mult_cons, mult_cons, a4 y, if_neg hne]
        by_cases e : y = k
        · subst e; rw [if_pos rfl, if_neg (Ne.symm hne), if_pos rfl]
        · rw [if_neg e, if_neg e]
      · have := a5 d
        simp only [typeSum, List.map_cons, List.sum_cons] at this ⊢
        rw [mult_cons, if_neg hne, this]; ring
    · have hne : ∀ y ∈ parts ((k, v) :: t), LexGreater x y := by
        intro y hy
        simp only [parts, List.map_cons, List.mem_cons] at hy
        rcases hy with rfl | hy
        · exact l
        · exact lexGreater_trans l (h2 y hy)
      have hnot : x ∉ parts ((k, v) :: t) := fun h => lexGreater_irrefl _ (hne x h)
      refine ⟨(x, f 0) :: (k, v) :: t, by simp [e1, e2], typeOk_cons.2 ⟨hx, hne, ht⟩, fun y => ?_, fun y => ?_, fun d => ?_⟩
      · simp [parts]
      · rw [mult_cons, mult_of_not_mem hnot]
      · rw [mult_of_not_mem hnot]
        simp only [typeSum, List.map_cons, List.sum_cons]; ring
    · refine ⟨(k, f v) :: t, by simp [e1], typeOk_cons.2 ⟨h1, h2, h3⟩, fun y => ?_, fun y => ?_, fun d => ?_⟩
      · simp [parts]
      · rw [mult_cons, mult_cons, mult_cons, if_pos rfl]
        split_ifs <;> rfl
      · rw [mult_cons, if_pos rfl]
        simp only [typeSum, List.map_cons, List.sum_cons]; ring

theorem find_ok {t : SnType} (ht : TypeOk n t) {x : List Nat} (hx : IsPartition n x) :
    find t x = some (if x ∈ parts t then some (mult t x) else none) := by
  induction t with
  | nil => rfl
  | cons e t ih =>
    obtain ⟨k, v⟩ := e
    obtain ⟨h1, h2, h3⟩ := typeOk_cons.1 ht
    rw [find]
    rcases lt_cases h1 hx with ⟨e1, l⟩ | ⟨e1, e2, l⟩ | ⟨e1, e2, rfl⟩
    · have hne : x ≠ k := by rintro rfl; exact lexGreater_irrefl _ l
      have e : parts ((k, v) :: t) = k :: parts t := rfl
      simp [e1, ih h3, mult_cons, hne, e]
    · have hnot : x ∉ parts ((k, v) :: t) := by
        intro hy
        simp only [parts, List.map_cons, List.mem_cons] at hy
        rcases hy with rfl | hy
        · exact lexGreater_irrefl _ l
        · exact lexGreater_irrefl _ (lexGreater_trans l (h2 x hy))
      rw [if_neg hnot]
      simp [e1, e2]
    · simp [e1, mult_cons, parts]

theorem add_ok (m : Int) {t : SnType} (ht : TypeOk n t) {x : List Nat} (hx : IsPartition n x) :
    ∃ t', add t x m = some t' ∧ TypeOk n t' ∧ (∀ y, y ∈ parts t' ↔ y = x ∨ y ∈ parts t) ∧
      (∀ y, mult t' y = mult t y + if y = x then m else 0) ∧ ∀ d, typeSum d t' = typeSum d t + m * d x := by
  obtain ⟨t', a1, a2, a3, a4, a5⟩ := upd_ok (· + m) ht hx
  refine ⟨t', a1, a2, a3, fun y => ?_, fun d => ?_⟩
  · rw [a4]
    by_cases e : y = x
    · subst e; simp
    · simp [e]
  · rw [a5]; simp

theorem addType_ok (m : Int) {t x : SnType} (ht : TypeOk n t) (hx : TypeOk n x) :
    ∃ t', addType t x m = some t' ∧ TypeOk n t' ∧ (∀ y, y ∈ parts t' ↔ y ∈ parts x ∨ y ∈ parts t) ∧
      (∀ y, mult t' y = mult t y + m * mult x y) ∧ ∀ d, typeSum d t' = typeSum d t + m * typeSum d x := by
  induction x generalizing t with
  | nil => exact ⟨t, rfl, ht, by simp [parts], fun y => by simp [mult], fun d => by simp [typeSum]⟩
  | cons e x ih =>
    obtain ⟨k, v⟩ := e
    obtain ⟨h1, h2, h3⟩ := typeOk_cons.1 hx
    obtain ⟨t1, a1, a2, a3, a4, a5⟩ := add_ok (m * v) ht h1
    obtain ⟨t2, b1, b2, b3, b4, b5⟩ := ih a2 h3
    refine ⟨t2, by rw [addType]; simp [a1, b1], b2, fun y => ?_, fun y => ?_, fun d => ?_⟩
    · rw [b3, a3]
      simp only [parts, List.map_cons, List.mem_cons]
      tauto
    · rw [b4, a4, mult_cons]
      by_cases e : y = k
      · subst e
        rw [if_pos rfl, if_pos rfl, mult_of_not_mem (t := x)]
        · ring
        · intro hy; exact lexGreater_irrefl _ (h2 y hy)
      · rw [if_neg e, if_neg e]; ring
    · rw [b5, a5]
      simp only [typeSum, List.map_cons, List.sum_cons]; ring

end SnType

end Snob
