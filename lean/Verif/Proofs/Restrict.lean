import Verif.Proofs.JM

/-! # Restriction to the permutations fixing the last point -/

namespace Snob

open IP Matrix

section
variable {n : Nat} {p q q' : List Nat} {r r' : Nat}

theorem cons_mem_words (hp : IsPartition (n + 1) p) (hq : IsPartition n q) (hb : AddsBoxAt q p r)
    (u : Wd n q) : r :: u.1 ∈ words (n + 1) p := by
  obtain ⟨h1, h2⟩ := (mem_words hq u.1).1 u.2
  refine (mem_words hp _).2 ⟨⟨h1, ?_⟩, fun i => ?_⟩
  · have := canAdd_of_addsBoxAt hp.sorted hb
    unfold CanAdd at this
    rw [h2, h2]; exact this
  · rw [hb i, List.count_cons, h2]
    by_cases e : i = r
    · simp [e]
    · simp [e, Ne.symm e]

/-- the word of a sub-shape with the removed box added -/
def emb (hp : IsPartition (n + 1) p) (hq : IsPartition n q) (hb : AddsBoxAt q p r) (u : Wd n q) :
    Wd (n + 1) p := ⟨r :: u.1, cons_mem_words hp hq hb u⟩

theorem emb_injective (hp : IsPartition (n + 1) p) (hq : IsPartition n q) (hb : AddsBoxAt q p r) :
    Function.Injective (emb hp hq hb) := by
  intro u v h
  have := congrArg Subtype.val h
  exact Subtype.ext (List.cons.inj this).2

theorem exists_emb (hp : IsPartition (n + 1) p) (w : Wd (n + 1) p) :
    ∃ q ∈ subs p, ∃ (hq : IsPartition n q) (r : Nat) (hb : AddsBoxAt q p r) (u : Wd n q), w = emb hp hq hb u := by
  obtain ⟨w, hw⟩ := w
  have hw' := hw
  simp only [words, List.mem_flatMap, List.mem_map] at hw'
  obtain ⟨q, hq, u, hu, rfl⟩ := hw'
  obtain ⟨h1, r, hb⟩ := (mem_subs hp q).1 hq
  have hr := growRow_eq h1 hp hb
  exact ⟨q, hq, h1, growRow q p, hr.symm ▸ hb, ⟨u, hu⟩, rfl⟩

theorem cont_emb (hp : IsPartition (n + 1) p) (hq : IsPartition n q) (hb : AddsBoxAt q p r) (u : Wd n q)
    {m : Nat} (hm : m ≤ n) : (emb hp hq hb u).cont m = u.cont m := by
  show contW (r :: u.1) m = contW u.1 m
  unfold contW
  rw [posW, if_neg (by rw [u.length hq]; omega)]

theorem cont_emb_top (hp : IsPartition (n + 1) p) (hq : IsPartition n q) (hb : AddsBoxAt q p r) (u : Wd n q) :
    (emb hp hq hb u).cont (n + 1) = (row p r : Int) - 1 - r := by
  show contW (r :: u.1) (n + 1) = _
  unfold contW
  rw [posW, if_pos (by rw [u.length hq])]
  rw [hb r, ((mem_words hq u.1).1 u.2).2 r]
  simp

theorem cont_large (u : Wd n q) (hq : IsPartition n q) {m : Nat} (hm : n < m) : u.cont m = 0 := by
  show contW u.1 m = 0
  have key : ∀ (l : List Nat) (m : Nat), l.length < m → posW l m = (0, 0) := by
    intro l
    induction l with
    | nil => intro m _; rfl
    | cons a l ih =>
      intro m hm
      simp only [List.length_cons] at hm
      rw [posW, if_neg (by omega), ih m (by omega)]
  unfold contW
  rw [key _ _ (by rw [u.length hq]; omega)]
  rfl

theorem cont_top_ne (hp : IsPartition (n + 1) p) (h : r ≠ r') : (row p r : Int) - 1 - r ≠ (row p r' : Int) - 1 - r' := by
  rcases Nat.lt_or_gt_of_ne h with h | h
  · have := row_anti hp.sorted (i := r) (j := r') (by omega)
    omega
  · have := row_anti hp.sorted (i := r') (j := r) (by omega)
    omega

theorem sub_unique (hq : IsPartition n q) (hq' : IsPartition n q')
    (hb : AddsBoxAt q p r) (hb' : AddsBoxAt q' p r) : q = q' := by
  refine hq.ext hq' fun i => ?_
  have h1 := hb i
  have h2 := hb' i
  split_ifs at h1 h2 <;> omega

theorem emb_sw_iff (hp : IsPartition (n + 1) p) (hq : IsPartition n q) (hb : AddsBoxAt q p r) (u v : Wd n q)
    {k : Nat} (hk : k < n) :
    (emb hp hq hb v).cont = sw k (emb hp hq hb u).cont ↔ v.cont = sw k u.cont := by
  have hn : ∀ x : Wd n q, ∀ m, n < m → x.cont m = 0 := fun x m hm => cont_large x hq hm
  constructor
  · intro h
    funext m
    by_cases hm : m ≤ n
    · have := congrFun h m
      rw [cont_emb hp hq hb v hm] at this
      rw [this]
      unfold sw swp
      split_ifs <;> exact cont_emb hp hq hb u (by omega)
    · unfold sw swp
      rw [hn v m (by omega)]
      split_ifs
      · omega
      · omega
      · rw [hn u m (by omega)]
  · intro h
    funext m
    by_cases hm : m ≤ n
    · rw [cont_emb hp hq hb v hm, h]
      unfold sw swp
      split_ifs <;> exact (cont_emb hp hq hb u (by omega)).symm
    · have e : sw k (emb hp hq hb u).cont m = (emb hp hq hb u).cont m := by
        unfold sw swp
        rw [if_neg (by omega), if_neg (by omega)]
      rw [e]
      by_cases hm' : m = n + 1
      · subst hm'
        rw [cont_emb_top, cont_emb_top]
      · rw [cont_large _ hp (by omega : n + 1 < m), cont_large _ hp (by omega : n + 1 < m)]

open Classical in
/-- the inclusion of the block of a sub-shape -/
noncomputable def incl (hp : IsPartition (n + 1) p) (hq : IsPartition n q) (hb : AddsBoxAt q p r) :
    Matrix (Wd (n + 1) p) (Wd n q) ℝ := fun w u => if w = emb hp hq hb u then 1 else 0

theorem yorM_incl (hp : IsPartition (n + 1) p) (hq : IsPartition n q) (hb : AddsBoxAt q p r) {k : Nat}
    (hk : k < n) :
    yorM (n + 1) p k * incl hp hq hb = incl hp hq hb * yorM n q k := by
  classical
  ext w v
  have hl : (yorM (n + 1) p k * incl hp hq hb) w v = yorM (n + 1) p k w (emb hp hq hb v) := by
    rw [Matrix.mul_apply, Finset.sum_eq_single (emb hp hq hb v)]
    · unfold incl; rw [if_pos rfl, mul_one]
    · intro b _ hne; unfold incl; rw [if_neg hne, mul_zero]
    · intro h; exact absurd (Finset.mem_univ _) h
  rw [hl, Matrix.mul_apply]
  obtain ⟨q', _, hq', r', hb', u, rfl⟩ := exists_emb hp w
  by_cases e : r' = r
  · subst e
    have := sub_unique hq hq' hb hb'
    subst this
    rw [Finset.sum_eq_single u]
    · unfold incl yorM
      rw [if_pos rfl, one_mul, cont_emb hp hq hb u (by omega), cont_emb hp hq hb u (by omega)]
      by_cases h2 : v = u
      · rw [if_pos h2, if_pos (by rw [h2])]
      · rw [if_neg h2, if_neg fun h => h2 (emb_injective hp hq hb h)]
        by_cases h3 : v.cont = sw k u.cont
        · rw [if_pos h3, if_pos ((emb_sw_iff hp hq hb u v hk).2 h3)]
        · rw [if_neg h3, if_neg fun h => h3 ((emb_sw_iff hp hq hb u v hk).1 h)]
    · intro b _ hne
      unfold incl
      rw [if_neg fun h => hne (emb_injective hp hq hb h).symm, zero_mul]
    · intro h; exact absurd (Finset.mem_univ _) h
  · have hne : ∀ x : Wd n q, emb hp hq' hb' u ≠ emb hp hq hb x := by
      intro x h
      have := congrArg Subtype.val h
      exact e (List.cons.inj this).1
    rw [Finset.sum_eq_zero fun x _ => by unfold incl; rw [if_neg (hne x), zero_mul]]
    unfold yorM
    rw [if_neg fun h => hne v h.symm, if_neg]
    intro h
    have := congrFun h (n + 1)
    rw [sw_ne _ (by omega) (by omega), cont_emb_top, cont_emb_top] at this
    exact cont_top_ne hp (Ne.symm e) this

theorem rho_incl (hp : IsPartition (n + 1) p) (hq : IsPartition n q) (hb : AddsBoxAt q p r)
    (σ : Equiv.Perm (Fin n)) :
    rho hp (extend σ) * incl hp hq hb = incl hp hq hb * rho hq σ := by
  induction σ using perm_induction with
  | h1 => rw [extend_one, map_one, map_one, Matrix.one_mul, Matrix.mul_one]
  | hs k σ hk ih =>
    rw [extend_mul, extend_adj hk, map_mul, map_mul, rho_adj hp (by omega), rho_adj hq hk, Matrix.mul_assoc, ih,
      ← Matrix.mul_assoc, yorM_incl hp hq hb hk, Matrix.mul_assoc]

theorem rho_emb (hp : IsPartition (n + 1) p) (hq : IsPartition n q) (hb : AddsBoxAt q p r)
    (σ : Equiv.Perm (Fin n)) (u v : Wd n q) :
    rho hp (extend σ) (emb hp hq hb u) (emb hp hq hb v) = rho hq σ u v := by
  classical
  have h := congrFun (congrFun (rho_incl hp hq hb σ) (emb hp hq hb u)) v
  rw [Matrix.mul_apply, Matrix.mul_apply, Finset.sum_eq_single (emb hp hq hb v), Finset.sum_eq_single u] at h
  · unfold incl at h
    rw [if_pos rfl, if_pos rfl, mul_one, one_mul] at h
    exact h
  · intro b _ hne
    unfold incl
    rw [if_neg fun h => hne (emb_injective hp hq hb h).symm, zero_mul]
  · intro h; exact absurd (Finset.mem_univ _) h
  · intro b _ hne; unfold incl; rw [if_neg hne, mul_zero]
  · intro h; exact absurd (Finset.mem_univ _) h

theorem rho_emb_ne (hp : IsPartition (n + 1) p) (hq : IsPartition n q) (hb : AddsBoxAt q p r)
    (hq' : IsPartition n q') (hb' : AddsBoxAt q' p r') (hr : r ≠ r')
    (σ : Equiv.Perm (Fin n)) (u : Wd n q') (v : Wd n q) :
    rho hp (extend σ) (emb hp hq' hb' u) (emb hp hq hb v) = 0 := by
  classical
  have h := congrFun (congrFun (rho_incl hp hq hb σ) (emb hp hq' hb' u)) v
  rw [Matrix.mul_apply, Matrix.mul_apply, Finset.sum_eq_single (emb hp hq hb v)] at h
  · rw [Finset.sum_eq_zero] at h
    · unfold incl at h
      rwa [if_pos rfl, mul_one] at h
    · intro x _
      unfold incl
      rw [if_neg, zero_mul]
      intro h
      have := congrArg Subtype.val h
      exact hr (List.cons.inj this).1.symm
  · intro b _ hne; unfold incl; rw [if_neg hne, mul_zero]
  · intro h; exact absurd (Finset.mem_univ _) h

end

end Snob
