import Verif.Proofs.SnType
import Verif.Proofs.Complete

/-! # Restriction and induction of types; the bank of representations -/

namespace Snob

open IP

theorem typeSum_cons (d : List Nat → Int) (k : List Nat) (v : Int) (t : SnType) : typeSum d ((k, v) :: t) = v * d k + typeSum d t := by
  simp [typeSum]

theorem mult_eq_typeSum {n : Nat} {t : SnType} (ht : TypeOk n t) (x : List Nat) :
    mult t x = typeSum (fun q => if q = x then 1 else 0) t := by
  induction t with
  | nil => rfl
  | cons e t ih =>
    obtain ⟨k, v⟩ := e
    obtain ⟨h1, h2, h3⟩ := typeOk_cons.1 ht
    rw [mult_cons, typeSum_cons, ← ih h3]
    by_cases e : x = k
    · subst e
      rw [mult_of_not_mem fun h => lexGreater_irrefl _ (h2 x h)]; simp
    · rw [if_neg e, if_neg (fun h => e h.symm)]; ring

theorem typeSum_add (f g : List Nat → Int) (t : SnType) : typeSum (fun q => f q + g q) t = typeSum f t + typeSum g t := by
  induction t with
  | nil => rfl
  | cons e t ih =>
    obtain ⟨k, v⟩ := e
    rw [typeSum_cons, typeSum_cons, typeSum_cons, ih]; ring

theorem typeSum_congr {f g : List Nat → Int} {t : SnType} (h : ∀ x ∈ parts t, f x = g x) : typeSum f t = typeSum g t := by
  induction t with
  | nil => rfl
  | cons e t ih =>
    obtain ⟨k, v⟩ := e
    have e : parts ((k, v) :: t) = k :: parts t := rfl
    rw [e] at h
    rw [typeSum_cons, typeSum_cons, h k (by simp), ih fun x hx => h x (by simp [hx])]

theorem typeSum_mul (c : Int) (f : List Nat → Int) (t : SnType) : typeSum (fun q => c * f q) t = c * typeSum f t := by
  induction t with
  | nil => simp [typeSum]
  | cons e t ih =>
    obtain ⟨k, v⟩ := e
    rw [typeSum_cons, typeSum_cons, ih]; ring

theorem sum_mult {n : Nat} {u : SnType} (hu : TypeOk n u) {l : List (List Nat)} (hl : l.Nodup) :
    (l.map (mult u)).sum = typeSum (fun q => if q ∈ l then 1 else 0) u := by
  induction l with
  | nil => simpa using (typeSum_mul 0 (fun _ => 0) u).symm
  | cons x l ih =>
    rw [List.nodup_cons] at hl
    rw [List.map_cons, List.sum_cons, ih hl.2, mult_eq_typeSum hu, ← typeSum_add]
    refine typeSum_congr fun q _ => ?_
    by_cases e : q = x
    · subst e; simp [hl.1]
    · simp [e]

namespace SnType

/-- `R[mu]+=m` for all `mu` of `F lambda`, for all entries `lambda,m` -/
def foldLoop (F : List Nat → List (List Nat)) : SnType → SnType → Option SnType
  | [], R => some R
  | (k, v) :: t, R => do
    let R ← addAllSubs R (F k) v
    foldLoop F t R

theorem addAllSubs_ok {n : Nat} (m : Int) (l : List (List Nat)) (hl : ∀ x ∈ l, IsPartition n x) (hd : l.Nodup) {t : SnType} (ht : TypeOk n t) :
    ∃ t', addAllSubs t l m = some t' ∧ TypeOk n t' ∧ (∀ y, y ∈ parts t' ↔ y ∈ l ∨ y ∈ parts t) ∧
      (∀ y, mult t' y = mult t y + m * if y ∈ l then 1 else 0) ∧ ∀ d, typeSum d t' = typeSum d t + m * (l.map d).sum := by
  induction l generalizing t with
  | nil => exact ⟨t, rfl, ht, by simp, by simp, by simp⟩
  | cons x l ih =>
    rw [List.nodup_cons] at hd
    obtain ⟨t1, a1, a2, a3, a4, a5⟩ := add_ok m ht (hl x (by simp))
    obtain ⟨t2, b1, b2, b3, b4, b5⟩ := ih (fun y hy => hl y (by simp [hy])) hd.2 a2
    refine ⟨t2, by rw [addAllSubs]; simp [a1, b1], b2, fun y => ?_, fun y => ?_, fun d => ?_⟩
    · rw [b3, a3, List.mem_cons]; tauto
    · rw [b4, a4]
      by_cases e : y = x
      · subst e; simp [hd.1]
      · simp [e]
    · rw [b5, a5, List.map_cons, List.sum_cons]; ring

theorem foldLoop_ok {n m : Nat} (F : List Nat → List (List Nat)) (t : SnType) (ht : TypeOk m t)
    (hF : ∀ p, IsPartition m p → (F p).Nodup ∧ ∀ x ∈ F p, IsPartition n x) {R : SnType} (hR : TypeOk n R) :
    ∃ R', foldLoop F t R = some R' ∧ TypeOk n R' ∧ (∀ y, y ∈ parts R' ↔ y ∈ parts R ∨ ∃ p ∈ parts t, y ∈ F p) ∧
      (∀ y, mult R' y = mult R y + typeSum (fun p => if y ∈ F p then 1 else 0) t) ∧
      ∀ d, typeSum d R' = typeSum d R + typeSum (fun p => ((F p).map d).sum) t := by
  induction t generalizing R with
  | nil => exact ⟨R, rfl, hR, by simp [parts], by simp [typeSum], by simp [typeSum]⟩
  | cons e t ih =>
    obtain ⟨k, v⟩ := e
    obtain ⟨h1, h2, h3⟩ := typeOk_cons.1 ht
    obtain ⟨R1, a1, a2, a3, a4, a5⟩ := addAllSubs_ok v (F k) (hF k h1).2 (hF k h1).1 hR
    obtain ⟨R2, b1, b2, b3, b4, b5⟩ := ih h3 a2
    refine ⟨R2, by rw [foldLoop]; simp [a1, b1], b2, fun y => ?_, fun y => ?_, fun d => ?_⟩
    · have e : parts ((k, v) :: t) = k :: parts t := rfl
      rw [b3, a3, e]
      simp only [List.mem_cons, exists_eq_or_imp]; tauto
    · rw [b4, a4, typeSum_cons]; ring
    · rw [b5, a5, typeSum_cons]; ring

theorem downLoop_eq {n : Nat} (t : SnType) (ht : TypeOk (n + 1) t) (R : SnType) : downLoop t R = foldLoop subs t R := by
  induction t generalizing R with
  | nil => rfl
  | cons e t ih =>
    obtain ⟨k, v⟩ := e
    obtain ⟨h1, h2, h3⟩ := typeOk_cons.1 ht
    rw [downLoop, foldLoop, parents_eq h1 (by omega)]
    simp only [Option.bind_eq_bind, Option.bind_some]
    exact congrArg _ (funext fun R => ih h3 R)

theorem ofList_ok {n : Nat} (l : SnType) (hl : TypeOk n l) (t : SnType) (ht : TypeOk n t) (hd : ∀ x ∈ parts l, x ∉ parts t) :
    ∃ t', ofList l t = some t' ∧ TypeOk n t' ∧ (∀ y, y ∈ parts t' ↔ y ∈ parts l ∨ y ∈ parts t) ∧
      ∀ y, mult t' y = if y ∈ parts l then mult l y else mult t y := by
  induction l generalizing t with
  | nil => exact ⟨t, rfl, ht, by simp [parts], by simp [parts]⟩
  | cons e l ih =>
    obtain ⟨k, v⟩ := e
    obtain ⟨h1, h2, h3⟩ := typeOk_cons.1 hl
    have e : parts ((k, v) :: l) = k :: parts l := rfl
    rw [e] at hd ⊢
    obtain ⟨t1, a1, a2, a3, a4, _⟩ := upd_ok (fun _ => v) ht h1
    obtain ⟨t2, b1, b2, b3, b4⟩ := ih h3 t1 a2 (by
      intro x hx hx'
      rcases (a3 x).1 hx' with rfl | hx'
      · exact lexGreater_irrefl _ (h2 x hx)
      · exact hd x (by simp [hx]) hx')
    refine ⟨t2, by rw [ofList]; simp [SnType.set, a1, b1], b2, fun y => ?_, fun y => ?_⟩
    · rw [b3, a3, List.mem_cons]; tauto
    · rw [b4, a4, mult_cons]
      by_cases e1 : y = k
      · subst e1
        rw [if_neg (fun h => lexGreater_irrefl _ (h2 y h)), if_pos rfl, if_pos (by simp), if_pos rfl]
      · simp [e1]

theorem ofList_self {n : Nat} {t : SnType} (ht : TypeOk n t) : ofList t [] = some t := by
  obtain ⟨t', a1, a2, a3, a4⟩ := ofList_ok t ht [] (typeOk_nil n) (by simp [parts])
  rw [a1]
  congr 1
  refine a2.ext ht (fun x => by rw [a3]; simp [parts]) fun x => ?_
  rw [a4]
  split_ifs with h
  · rfl
  · rw [mult_of_not_mem h]; rfl

end SnType

/-- the partitions that arise by adding a box, in the order of the code -/
def covers (p : List Nat) : List (List Nat) :=
  ((List.range p.length).filter fun i => decide (i = 0 ∨ row p i < row p (i - 1))).map (fun i => p.set i (row p i + 1)) ++
    [IP.add p p.length]

theorem mem_covers {n : Nat} {p : List Nat} (hp : IsPartition n p) (q : List Nat) :
    q ∈ covers p ↔ IsPartition (n + 1) q ∧ AddsBox p q := by
  have hset : ∀ i, i < p.length → p.set i (row p i + 1) = add p i 1 := by
    intro i hi
    unfold add
    rw [if_pos hi]
    apply List.ext_getElem
    · simp
    · intro j h1 h2
      rw [List.getElem_set, List.getElem_modify]
      have := row_of_lt hi
      by_cases e : i = j
      · subst e; simp [row_of_lt hi]
      · simp [e]
  have hmem : ∀ i, CanAdd p i → IsPartition (n + 1) (add p i 1) ∧ AddsBox p (add p i 1) := fun i hc =>
    ⟨isPartition_add hp hc, i, fun j => by rw [row_add p i 1 j hc.le_length]⟩
  unfold covers
  rw [List.mem_append, List.mem_map, List.mem_singleton]
  simp only [List.mem_filter, List.mem_range, decide_eq_true_eq]
  constructor
  · rintro (⟨i, ⟨hi, hc⟩, rfl⟩ | rfl)
    · rw [hset i hi]
      refine hmem i ?_
      rcases Nat.eq_zero_or_pos i with h | h
      · exact Or.inl h
      · exact hc.imp id fun h' => ⟨h, h'⟩
    · exact hmem _ (canAdd_length hp)
  · rintro ⟨hq, r, hr⟩
    have hc := canAdd_of_addsBoxAt hq.sorted hr
    have e : q = add p r 1 := hq.ext (isPartition_add hp hc) fun i => by rw [hr i, row_add p r 1 i hc.le_length]
    rcases Nat.lt_or_ge r p.length with h | h
    · exact Or.inl ⟨r, ⟨h, hc.imp id And.right⟩, by rw [hset r h, e]⟩
    · have : r = p.length := le_antisymm hc.le_length h
      subst this
      exact Or.inr e

theorem covers_nodup {n : Nat} {p : List Nat} (hp : IsPartition n p) : (covers p).Nodup := by
  have key : ∀ i j, i < p.length → j < p.length → p.set i (row p i + 1) = p.set j (row p j + 1) → i = j := by
    intro i j hi hj h
    by_contra hne
    have := congrArg (fun l => row l i) h
    simp only [row_set hi, row_set hj, if_neg hne] at this
    simp at this
  unfold covers
  rw [List.nodup_append]
  refine ⟨?_, by simp, ?_⟩
  · rw [List.nodup_map_iff_inj_on (List.nodup_range.filter _)]
    intro i hi j hj h
    simp only [List.mem_filter, List.mem_range] at hi hj
    exact key i j hi.1 hj.1 h
  · intro a ha b hb
    rw [List.mem_singleton] at hb
    subst hb
    rintro rfl
    rw [List.mem_map] at ha
    obtain ⟨i, -, hi⟩ := ha
    have h1 := congrArg List.length hi
    unfold IP.add at h1
    simp at h1

open Classical in
theorem sum_covers_list {n : Nat} {q : List Nat} (hq : IsPartition n q) :
    ((covers q).map (dimW (n + 1))).sum = (n + 1) * dimW n q := by
  rw [← sum_covers ⟨q, hq⟩, ← List.sum_toFinset _ (covers_nodup hq), ← Finset.sum_filter]
  refine Finset.sum_bij' (fun x hx => ⟨x, ((mem_covers hq x).1 (List.mem_toFinset.1 hx)).1⟩) (fun x _ => x.1) ?_ ?_ ?_ ?_ ?_
  · intro x hx
    simp only [Finset.mem_filter, Finset.mem_univ, true_and]
    exact ((mem_covers hq x).1 (List.mem_toFinset.1 hx)).2
  · intro x hx
    rw [List.mem_toFinset, mem_covers hq]
    exact ⟨x.2, (Finset.mem_filter.1 hx).2⟩
  · intro x _; rfl
  · intro x _; rfl
  · intro x _; rfl

theorem sum_subs_list {n : Nat} {p : List Nat} (hp : IsPartition (n + 1) p) : ((subs p).map (dimW n)).sum = dimW (n + 1) p := by
  rw [dimW_succ hp, sum_subs hp]

namespace RepObj

open SnType

theorem addIso_eq {n : Nat} {r : RepObj} (hr : TypeOk n r) {x : List Nat} (hx : IsPartition n x) (m : Int) :
    addIso r x m = SnType.add r x m := by
  unfold addIso
  rw [find_ok hr hx]
  by_cases h : x ∈ parts r
  · rw [if_pos h]; simp
  · rw [if_neg h]
    obtain ⟨r1, a1, a2, a3, a4, _⟩ := upd_ok (fun _ => 0) hr hx
    obtain ⟨r2, b1, b2, b3, b4, _⟩ := add_ok m a2 hx
    obtain ⟨r3, c1, c2, c3, c4, _⟩ := add_ok m hr hx
    have e : r2 = r3 := b2.ext c2 (fun y => by rw [b3, a3, c3]; tauto) (fun y => by
      rw [b4, a4, c4]
      by_cases e : y = x
      · subst e; rw [mult_of_not_mem h]; simp
      · simp [e])
    simp [SnType.set, a1, b1, c1, e]

theorem addIsos_cons {n : Nat} {r : RepObj} (hr : TypeOk n r) {x : List Nat} (hx : IsPartition n x) (m : Int) (l : List (List Nat)) :
    addAllSubs r (x :: l) m = (addIso r x m).bind fun r => addAllSubs r l m := by
  rw [addIso_eq hr hx]; rfl

theorem growLoop_eq {n : Nat} {p : List Nat} (m : Int) (c i : Nat) (hc : i + c = p.length) (tail : List (List Nat))
    (hmem : ∀ q ∈ ((List.range' i c).filter fun i => decide (i = 0 ∨ row p i < row p (i - 1))).map (fun i => p.set i (row p i + 1)),
      IsPartition n q) (r : RepObj) (hr : TypeOk n r) :
    addAllSubs r (((List.range' i c).filter fun i => decide (i = 0 ∨ row p i < row p (i - 1))).map (fun i => p.set i (row p i + 1)) ++ tail) m =
      (growLoop p m c i r).bind fun r => addAllSubs r tail m := by
  induction c generalizing i r with
  | zero => rfl
  | succ c ih =>
    rw [List.range'_succ, List.filter_cons] at hmem ⊢
    rw [growLoop, getElem?_eq_row (by omega : i < p.length)]
    have hcond : (i = 0 ∨ ∃ y ∈ p[i - 1]?, row p i < y) ↔ (i = 0 ∨ row p i < row p (i - 1)) := by
      rw [getElem?_eq_row (by omega : i - 1 < p.length)]; simp
    simp only [Option.bind_eq_bind, Option.bind_some]
    by_cases h : i = 0 ∨ row p i < row p (i - 1)
    · rw [if_pos (by simpa using h)] at hmem ⊢
      rw [if_pos (hcond.2 h)]
      rw [List.map_cons] at hmem ⊢
      have hx := hmem _ (List.mem_cons_self ..)
      rw [List.cons_append, addIsos_cons hr hx, addIso_eq hr hx]
      obtain ⟨r1, a1, a2, -⟩ := add_ok m hr hx
      rw [a1, Option.bind_some, Option.bind_some]
      exact ih (i + 1) (by omega) (fun q hq => hmem q (by simp only [List.mem_cons]; exact Or.inr hq)) r1 a2
    · rw [if_neg (by simpa using h)] at hmem ⊢
      rw [if_neg (fun h' => h (hcond.1 h'))]
      exact ih (i + 1) (by omega) hmem r hr

theorem inducedLoop_eq {n : Nat} (t : RepObj) (ht : TypeOk n t) (r : RepObj) (hr : TypeOk (n + 1) r) :
    inducedLoop t r = foldLoop covers t r := by
  induction t generalizing r with
  | nil => rfl
  | cons e t ih =>
    obtain ⟨p, m⟩ := e
    obtain ⟨h1, h2, h3⟩ := typeOk_cons.1 ht
    have hall : ∀ q ∈ covers p, IsPartition (n + 1) q := fun q hq => ((mem_covers h1 q).1 hq).1
    obtain ⟨r1, a1, a2, -⟩ := addAllSubs_ok m (covers p) hall (covers_nodup h1) hr
    have hg := growLoop_eq (n := n + 1) (p := p) m p.length 0 (by omega) [IP.add p p.length] (by
      intro q hq
      refine hall q ?_
      unfold covers
      rw [List.mem_append, List.range_eq_range']
      exact Or.inl hq) r hr
    have hcov : covers p = ((List.range' 0 p.length).filter fun i => decide (i = 0 ∨ row p i < row p (i - 1))).map
        (fun i => p.set i (row p i + 1)) ++ [IP.add p p.length] := by
      unfold covers; rw [List.range_eq_range']
    rw [← hcov, a1] at hg
    rw [inducedLoop, foldLoop, a1]
    cases hgl : growLoop p m p.length 0 r with
    | none => rw [hgl] at hg; simp at hg
    | some r' =>
      rw [hgl, Option.bind_some] at hg
      simp only [Option.bind_eq_bind, Option.bind_some]
      have hadd : addIso r' (IP.add p p.length) m = some r1 := by
        -- the map after the loop over the rows
        have hr' : TypeOk (n + 1) r' := by
          have h2 := growLoop_eq (n := n + 1) (p := p) m p.length 0 (by omega) [] (by
            intro q hq
            refine hall q ?_
            unfold covers
            rw [List.mem_append, List.range_eq_range']
            exact Or.inl hq) r hr
          rw [hgl, Option.bind_some, List.append_nil] at h2
          obtain ⟨r2, b1, b2, -⟩ := addAllSubs_ok m (((List.range' 0 p.length).filter fun i => decide (i = 0 ∨ row p i < row p (i - 1))).map
            (fun i => p.set i (row p i + 1))) (fun q hq => hall q (by rw [hcov, List.mem_append]; exact Or.inl hq))
            (by have := covers_nodup h1; rw [hcov, List.nodup_append] at this; exact this.1) hr
          rw [h2] at b1
          obtain rfl : r' = r2 := Option.some.inj b1
          exact b2
        rw [addIsos_cons hr' (hall _ (by unfold covers; simp))] at hg
        cases hx : addIso r' (IP.add p p.length) m with
        | none => rw [hx] at hg; simp at hg
        | some r3 => rw [hx] at hg; exact hg.symm
      rw [hadd, Option.bind_some]
      exact ih h3 r1 a2

end RepObj

/-! ## The bank of representations -/

theorem pairLt_cases {n : Nat} {a b : List Nat × Int} (ha : IsPartition n a.1) (hb : IsPartition n b.1) :
    ∃ x, pairLt a b = some x := by
  unfold pairLt
  rw [lt_eq ha hb, lt_eq hb ha]
  simp only [Option.bind_eq_bind, Option.bind_some]
  split_ifs <;> exact ⟨_, rfl⟩

theorem pairLt_eq {n : Nat} {a b : List Nat × Int} (ha : IsPartition n a.1) (hb : IsPartition n b.1)
    (h1 : pairLt a b = some false) (h2 : pairLt b a = some false) : a = b := by
  unfold pairLt at h1 h2
  rcases lt_cases ha hb with ⟨e1, -⟩ | ⟨e1, e2, -⟩ | ⟨e1, e2, e3⟩
  · simp [e1] at h1
  · simp [e2] at h2
  · simp only [e1, e2, Option.bind_eq_bind, Option.bind_some, Bool.false_eq_true, if_false, Option.some.injEq, decide_eq_false_iff_not] at h1 h2
    exact Prod.ext e3 (by omega)

theorem pairLt_ne {m n : Nat} {a b : List Nat × Int} (ha : IsPartition m a.1) (hb : IsPartition n b.1) (hne : m ≠ n) : pairLt a b = none := by
  unfold pairLt
  have : IP.lt a.1 b.1 = none := by
    unfold IP.lt
    rw [if_neg]
    rw [getn_eq, getn_eq, ha.sum, hb.sum]; exact_mod_cast hne
  simp [this]

theorem typeLt_cases {n : Nat} {s t : SnType} (hs : TypeOk n s) (ht : TypeOk n t) : ∃ x, typeLt s t = some x := by
  induction s generalizing t with
  | nil => cases t with
    | nil => exact ⟨_, rfl⟩
    | cons => exact ⟨_, rfl⟩
  | cons a s ih =>
    cases t with
    | nil => exact ⟨_, rfl⟩
    | cons b t =>
      obtain ⟨h1, _, h3⟩ := typeOk_cons.1 hs
      obtain ⟨g1, _, g3⟩ := typeOk_cons.1 ht
      obtain ⟨x, hx⟩ := pairLt_cases (a := a) (b := b) h1 g1
      obtain ⟨y, hy⟩ := pairLt_cases (a := b) (b := a) g1 h1
      obtain ⟨z, hz⟩ := ih h3 g3
      rw [typeLt, hx, hy, hz]
      cases x <;> cases y <;> exact ⟨_, rfl⟩

theorem typeLt_eq {n : Nat} {s t : SnType} (hs : TypeOk n s) (ht : TypeOk n t) (h1 : typeLt s t = some false)
    (h2 : typeLt t s = some false) : s = t := by
  induction s generalizing t with
  | nil => cases t with
    | nil => rfl
    | cons => simp [typeLt] at h1
  | cons a s ih =>
    cases t with
    | nil => simp [typeLt] at h2
    | cons b t =>
      obtain ⟨a1, _, a3⟩ := typeOk_cons.1 hs
      obtain ⟨b1, _, b3⟩ := typeOk_cons.1 ht
      obtain ⟨x, hx⟩ := pairLt_cases (a := a) (b := b) a1 b1
      obtain ⟨y, hy⟩ := pairLt_cases (a := b) (b := a) b1 a1
      rw [typeLt, hx, hy] at h1
      rw [typeLt, hx, hy] at h2
      cases x with
      | true => simp at h1
      | false =>
        cases y with
        | true => simp at h2
        | false =>
          simp only [Option.bind_eq_bind, Option.bind_some, Bool.false_eq_true, if_false] at h1 h2
          rw [pairLt_eq a1 b1 hx hy, ih a3 b3 h1 h2]

theorem typeLt_ne {m n : Nat} {s t : SnType} (hs : TypeOk m s) (ht : TypeOk n t) (hne : m ≠ n) (h1 : s ≠ []) (h2 : t ≠ []) :
    typeLt s t = none := by
  cases s with
  | nil => exact absurd rfl h1
  | cons a s =>
    cases t with
    | nil => exact absurd rfl h2
    | cons b t =>
      rw [typeLt, pairLt_ne (typeOk_cons.1 hs).1 (typeOk_cons.1 ht).1 hne]; rfl

namespace RepBank

/-- every entry is what its key describes -/
def BankOk (n : Nat) (b : RepBank) : Prop := ∀ e ∈ b, TypeOk n e.1 ∧ e.2 = e.1

theorem ofType_eq {n : Nat} {t : SnType} (ht : TypeOk n t) : RepObj.ofType t = some t := SnType.ofList_self ht

theorem getRep_ok {n : Nat} {b : RepBank} (hb : BankOk n b) {t : SnType} (ht : TypeOk n t) :
    ∃ b', getRep b t = some (b', t) ∧ BankOk n b' ∧ (∀ e ∈ b, e ∈ b') ∧ (t, t) ∈ b' := by
  induction b with
  | nil => exact ⟨[(t, t)], by simp [getRep, ofType_eq ht], by simp [BankOk, ht], by simp, by simp⟩
  | cons e b ih =>
    obtain ⟨k, r⟩ := e
    obtain ⟨hk, hr⟩ := hb _ (List.mem_cons_self ..)
    simp only at hk hr
    subst hr
    obtain ⟨b', e1, e2, e3, e4⟩ := ih fun e he => hb e (by simp [he])
    obtain ⟨x, hx⟩ := typeLt_cases hk ht
    obtain ⟨y, hy⟩ := typeLt_cases ht hk
    rw [getRep, hx]
    cases x with
    | true =>
      refine ⟨(r, r) :: b', by simp [e1], ?_, ?_, by simp [e4]⟩
      · intro e he
        rcases List.mem_cons.1 he with rfl | he
        · exact ⟨hk, rfl⟩
        · exact e2 e he
      · intro e he
        rcases List.mem_cons.1 he with rfl | he
        · simp
        · simp [e3 e he]
    | false =>
      cases y with
      | true =>
        refine ⟨(t, t) :: (r, r) :: b, by simp [hy, ofType_eq ht], ?_, fun e he => by simp only [List.mem_cons] at he ⊢; tauto, by simp⟩
        intro e he
        rcases List.mem_cons.1 he with rfl | he
        · exact ⟨ht, rfl⟩
        · exact hb e he
      | false =>
        obtain rfl := typeLt_eq hk ht hx hy
        exact ⟨(r, r) :: b, by simp [hx], hb, fun e he => he, by simp⟩

theorem getRep_none {m n : Nat} {b : RepBank} (hb : BankOk m b) {t : SnType} (ht : TypeOk n t) (hne : m ≠ n) (h1 : t ≠ [])
    (h2 : ∃ e ∈ b, e.1 ≠ []) : getRep b t = none := by
  induction b with
  | nil => obtain ⟨e, he, _⟩ := h2; simp at he
  | cons e b ih =>
    obtain ⟨k, r⟩ := e
    obtain ⟨hk, -⟩ := hb _ (List.mem_cons_self ..)
    rw [getRep]
    by_cases hk0 : k = []
    · subst hk0
      have : typeLt [] t = some true := by
        cases t with
        | nil => exact absurd rfl h1
        | cons => rfl
      rw [this]
      simp only [Option.bind_eq_bind, Option.bind_some, if_true]
      rw [ih (fun e he => hb e (by simp [he])) (by
        obtain ⟨e, he, he'⟩ := h2
        rcases List.mem_cons.1 he with rfl | he
        · exact absurd rfl he'
        · exact ⟨e, he, he'⟩)]
      rfl
    · rw [typeLt_ne hk ht hne hk0 h1]; rfl

end RepBank

end Snob
