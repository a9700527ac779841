import Verif.Proofs.IrrepSpec

/-! # The trivial and the sign representation -/

namespace Snob

open IP Matrix

theorem isPartition_row {n : Nat} (hn : 1 ≤ n) : IsPartition n [n] := ⟨by simp, by simp; omega, by simp⟩

theorem isPartition_col (n : Nat) : IsPartition n (List.replicate n 1) :=
  ⟨by rw [List.pairwise_replicate]; simp, by intro x hx; rw [List.eq_of_mem_replicate hx]; omega, by simp⟩

theorem row_single (n i : Nat) : row [n] i = if i = 0 then n else 0 := by
  rcases i with _ | i <;> simp [row]

theorem row_replicate (n i : Nat) : row (List.replicate n 1) i = if i < n then 1 else 0 := by
  unfold row
  rw [List.getElem?_replicate]
  split_ifs <;> rfl

/-- one row: the content of entry `m` is `m-1` -/
theorem cont_row {n : Nat} (hn : 1 ≤ n) (u : Wd n [n]) {m : Nat} (h1 : 1 ≤ m) (h2 : m ≤ n) :
    u.cont m = (m : Int) - 1 := by
  have hp := isPartition_row hn
  have hr : (posW u.1 m).1 = 0 := by
    have h := posW_lt (u := u.1) h1 (by rw [u.length hp]; exact h2)
    rw [((mem_words hp u.1).1 u.2).2, row_single] at h
    split_ifs at h with h3
    · exact h3
    · omega
  have hu : u.1 = List.replicate n 0 := by
    rw [List.eq_replicate_iff]
    refine ⟨u.length hp, fun x hx => ?_⟩
    by_contra hne
    have := ((mem_words hp u.1).1 u.2).2 x
    rw [row_single, if_neg hne] at this
    exact absurd (List.count_pos_iff.2 hx) (by omega)
  have key : ∀ n m, 1 ≤ m → m ≤ n → posW (List.replicate n 0) m = (0, m - 1) := by
    intro n
    induction n with
    | zero => intro m h1 h2; omega
    | succ n ih =>
      intro m h1 h2
      rw [List.replicate_succ, posW]
      by_cases e : m = n + 1
      · subst e
        rw [if_pos (by simp)]
        simp
      · rw [if_neg (by simpa using e), ih m h1 (by omega)]
  show contW u.1 m = _
  unfold contW
  rw [hu, key n m h1 h2]
  simp only
  omega

/-- one column: the content of entry `m` is `1-m` -/
theorem cont_col {n : Nat} (u : Wd n (List.replicate n 1)) {m : Nat} (h1 : 1 ≤ m) (h2 : m ≤ n) :
    u.cont m = 1 - (m : Int) := by
  induction n generalizing m with
  | zero => omega
  | succ n ih =>
    have hp := isPartition_col (n + 1)
    obtain ⟨q, _, hq, r, hb, v, rfl⟩ := exists_emb hp u
    have hrem := canRem_of_addsBoxAt hq.sorted hb
    unfold CanRem at hrem
    rw [row_replicate, row_replicate] at hrem
    have hr : r = n := by split_ifs at hrem <;> omega
    subst hr
    have hqe : q = List.replicate r 1 := by
      refine hq.ext (isPartition_col r) fun i => ?_
      have := hb i
      rw [row_replicate] at this
      rw [row_replicate]
      split_ifs at this ⊢ <;> omega
    subst hqe
    by_cases e : m = r + 1
    · subst e
      rw [cont_emb_top, row_replicate, if_pos (by omega)]
      push_cast; ring
    · rw [cont_emb hp hq hb v (by omega)]
      exact ih v h1 (by omega)

theorem wd_subsingleton_of_cont {n : Nat} {p : List Nat} (hp : IsPartition n p) (f : Nat → Int)
    (h : ∀ (u : Wd n p) m, 1 ≤ m → m ≤ n → u.cont m = f m) (u v : Wd n p) : u = v := by
  apply Wd.cont_injective hp
  funext m
  by_cases hm : 1 ≤ m ∧ m ≤ n
  · rw [h u m hm.1 hm.2, h v m hm.1 hm.2]
  · by_cases h0 : m = 0
    · subst h0
      have key : ∀ l : List Nat, posW l 0 = (0, 0) := by
        intro l
        induction l with
        | nil => rfl
        | cons a l ih => rw [posW, if_neg (by omega), ih]
      show contW u.1 0 = contW v.1 0
      unfold contW
      rw [key, key]
    · rw [cont_large u hp (by omega), cont_large v hp (by omega)]

theorem sum_subsingleton {α : Type*} [Fintype α] (h : ∀ u v : α, u = v) (f : α → ℝ) (u : α) : ∑ v, f v = f u := by
  rw [Finset.sum_eq_single u]
  · intro b _ hne; exact absurd (h b u) hne
  · intro h'; exact absurd (Finset.mem_univ u) h'

theorem rho_row {n : Nat} (hn : 1 ≤ n) (σ : Equiv.Perm (Fin n)) (u v : Wd n [n]) :
    rho (isPartition_row hn) σ u v = 1 := by
  have hs := wd_subsingleton_of_cont (isPartition_row hn) _ (fun u m h1 h2 => cont_row hn u h1 h2)
  rw [hs v u]
  induction σ using perm_induction with
  | h1 => rw [map_one, Matrix.one_apply_eq]
  | hs k σ hk ih =>
    rw [map_mul, Matrix.mul_apply, sum_subsingleton hs _ u, ih, rho_adj _ hk]
    unfold yorM
    rw [if_pos rfl, cont_row hn u (by omega) (by omega), cont_row hn u (by omega) (by omega)]
    have : ((k + 1 + 1 : Nat) : Int) - 1 - (((k + 1 : Nat) : Int) - 1) = 1 := by push_cast; ring
    rw [this]
    simp [diagc]

theorem rho_col {n : Nat} (σ : Equiv.Perm (Fin n)) (u v : Wd n (List.replicate n 1)) :
    rho (isPartition_col n) σ u v = ((Equiv.Perm.sign σ : Int) : ℝ) := by
  have hs := wd_subsingleton_of_cont (isPartition_col n) _ (fun u m h1 h2 => cont_col u h1 h2)
  rw [hs v u]
  induction σ using perm_induction with
  | h1 => rw [map_one, Matrix.one_apply_eq]; simp
  | hs k σ hk ih =>
    rw [map_mul, Matrix.mul_apply, sum_subsingleton hs _ u, ih, rho_adj _ hk]
    unfold yorM
    rw [if_pos rfl, cont_col u (by omega) (by omega), cont_col u (by omega) (by omega)]
    have : 1 - ((k + 1 + 1 : Nat) : Int) - (1 - ((k + 1 : Nat) : Int)) = -1 := by push_cast; ring
    have hsg : Equiv.Perm.sign (adj n k) = -1 := by
      unfold adj
      rw [dif_pos hk, Equiv.Perm.sign_swap]
      simp
    rw [this, map_mul, hsg]
    simp [diagc]

theorem words_length_of_subsingleton {n : Nat} {p : List Nat} (hp : IsPartition n p) (h : ∀ u v : Wd n p, u = v) :
    (words n p).length ≤ 1 := by
  by_contra hne
  have := h ⟨(words n p)[0], List.getElem_mem (by omega)⟩ ⟨(words n p)[1], List.getElem_mem (by omega)⟩
  have h2 := (List.Nodup.getElem_inj_iff (words_nodup hp)).1 (congrArg Subtype.val this)
  omega

/-- every shape has a tableau -/
theorem words_ne_nil {n : Nat} {p : List Nat} (hp : IsPartition n p) : words n p ≠ [] := by
  induction n generalizing p with
  | zero => simp [words]
  | succ n ih =>
    obtain ⟨hd, h0⟩ : ∃ r, CanRem p r := by
      have hl := hp.length_pos (by omega)
      refine ⟨p.length - 1, ?_⟩
      unfold CanRem
      rw [row_of_ge (p := p) (i := p.length - 1 + 1) (by omega)]
      exact (row_pos_iff hp _).2 (by omega)
    obtain ⟨q, _, hq, hb⟩ := isPartition_remove hp h0
    obtain ⟨u, hu⟩ := List.exists_mem_of_ne_nil _ (ih hq)
    exact List.ne_nil_of_mem (cons_mem_words hp hq hb ⟨u, hu⟩)

end Snob
