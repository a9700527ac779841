import Verif.Proofs.Restrict
import Verif.Spec.Irrep

/-! # From the words to the specification -/

namespace Snob

open IP Matrix

section
variable {n : Nat} {p : List Nat} {hp : IsPartition n p} {R : IrrepObj}

theorem exists_repr (hn : 1 ≤ n) (hp : IsPartition n p) :
    ∃ R, mkIrrep p = some R ∧ R.lambda = p ∧ Repr' hp R := by
  obtain ⟨R, h1, h2, h3, h4, h5, h6⟩ := mkIrrep_eq hn hp
  exact ⟨R, h1, h4, ⟨h2, h3, h5, h6⟩⟩

theorem hasContent_iff (hp : IsPartition n p) (u : Wd n p) {m : Nat} (h1 : 1 ≤ m) (h2 : m ≤ n) (z : Int) :
    HasContent (toTab u.1) m z ↔ z = u.cont m := by
  unfold HasContent
  constructor
  · rintro ⟨r, c, h, rfl⟩
    rw [cell_toTab (u.lat hp)] at h
    show _ = contW u.1 m
    unfold contW
    rw [h.2.2]
  · rintro rfl
    exact ⟨(posW u.1 m).1, (posW u.1 m).2, (cell_toTab (u.lat hp) _ _ _).2 ⟨h1, by rw [u.length hp]; exact h2, rfl⟩, rfl⟩

theorem Repr'.tab_get (h : Repr' hp R) (i : Fin R.d) : R.tableaux[(i : Nat)]? = some (toTab (h.eqv i).1) := by
  have hi : (i : Nat) < (words n p).length := by rw [← h.d_eq]; exact i.2
  rw [h.tab, List.getElem?_map, List.getElem?_eq_getElem hi]
  rfl

theorem exchanged_cont (hp : IsPartition n p) (u v : Wd n p) {k : Nat} (hk1 : 1 ≤ k) (hk : k < n)
    (h : Exchanged k (toTab u.1) (toTab v.1)) : v.cont = sw k u.cont := by
  have hpos : ∀ m, 1 ≤ m → m ≤ n → posW v.1 m = posW u.1 (swp k (k + 1) m) := by
    intro m h1 h2
    have hl := u.length hp
    have hm' : 1 ≤ swp k (k + 1) m ∧ swp k (k + 1) m ≤ n := by unfold swp; split_ifs <;> omega
    have e := (cell_toTab (u.lat hp) (posW u.1 (swp k (k + 1) m)).1 (posW u.1 (swp k (k + 1) m)).2
      (swp k (k + 1) m)).2 ⟨hm'.1, by omega, rfl⟩
    have h3 := h (posW u.1 (swp k (k + 1) m)).1 (posW u.1 (swp k (k + 1) m)).2
    rw [e, Option.map_some] at h3
    have h4 : (if swp k (k + 1) m = k then k + 1 else if swp k (k + 1) m = k + 1 then k else swp k (k + 1) m) = m := by
      unfold swp; split_ifs <;> omega
    rw [h4, cell_toTab (v.lat hp)] at h3
    exact h3.2.2
  funext m
  by_cases hm : 1 ≤ m ∧ m ≤ n
  · show contW v.1 m = contW u.1 _
    unfold contW
    rw [hpos m hm.1 hm.2]
  · by_cases hm0 : m = 0
    · subst hm0
      have key : ∀ l : List Nat, posW l 0 = (0, 0) := by
        intro l
        induction l with
        | nil => rfl
        | cons a l ih => rw [posW, if_neg (by omega), ih]
      rw [sw_ne _ (by omega) (by omega)]
      show contW v.1 0 = contW u.1 0
      unfold contW
      rw [key, key]
    · rw [sw_ne _ (by omega) (by omega), cont_large v hp (by omega), cont_large u hp (by omega)]

theorem Repr'.isYOR (h : Repr' hp R) : IsYOR R.tableaux (fun σ => h.rep σ) := by
  classical
  refine ⟨by rw [h.tab, List.length_map, h.d_eq], ?_⟩
  intro k hk i j T T' z z' hT hT' hz hz'
  rw [h.tab_get, Option.some.injEq] at hT hT'
  subst hT hT'
  rw [hasContent_iff hp _ (by omega) (by omega)] at hz hz'
  subst hz hz'
  have hadj : Equiv.swap (⟨k, by omega⟩ : Fin n) ⟨k + 1, hk⟩ = adj n k := by unfold adj; rw [dif_pos hk]
  have hcast : ((h.eqv i).cont (k + 2) : ℝ) - (h.eqv i).cont (k + 1) =
      (((h.eqv i).cont (k + 1 + 1) - (h.eqv i).cont (k + 1) : Int) : ℝ) := by push_cast; rfl
  rw [hadj]
  beta_reduce
  rw [h.rep_adj hk]
  show yorM n p (k + 1) (h.eqv i) (h.eqv j) = _
  unfold yorM
  by_cases e : i = j
  · subst e
    rw [if_pos rfl, if_pos rfl, hcast]
    rfl
  · rw [if_neg fun e' => e (h.eqv.injective e').symm, if_neg e]
    by_cases hex : Exchanged (k + 1) (toTab (h.eqv i).1) (toTab (h.eqv j).1)
    · rw [if_pos hex, if_pos (exchanged_cont hp _ _ (by omega) hk hex), hcast]
      unfold offc
      rw [sq]
    · rw [if_neg hex]
      by_cases hsw : (h.eqv j).cont = sw (k + 1) (h.eqv i).cont
      · rw [if_pos hsw]
        -- then the distance is a unit
        obtain ⟨T', d, _, hd, h0, _, _, hyes, _⟩ :=
          applyTransp_toTab ((h.eqv i).lat hp) (i := k + 1) (by omega) (by rw [(h.eqv i).length hp]; omega)
        have hd' : d = (h.eqv i).cont (k + 1 + 1) - (h.eqv i).cont (k + 1) := hd
        by_cases hu : d = 1 ∨ d = -1
        · rw [← hd']; exact offc_zero_of_unit hu
        · exfalso
          obtain ⟨u', hu', _, _, hc, hpos⟩ := hyes (not_or.1 hu)
          have hmem : u' ∈ words n p :=
            (mem_words hp u').2 ⟨hu', fun x => (hc x).trans (((mem_words hp (h.eqv i).1).1 (h.eqv i).2).2 x)⟩
          have huj : (⟨u', hmem⟩ : Wd n p) = h.eqv j := by
            apply Wd.cont_injective hp
            rw [hsw]
            funext m
            unfold Wd.cont sw
            simp only [contW, hpos]
          apply hex
          intro r c
          rw [← huj]
          simp only
          have hl : u'.length = n := Wd.length hp ⟨u', hmem⟩
          have hli : (h.eqv i).1.length = n := (h.eqv i).length hp
          cases hcell : cell (toTab (h.eqv i).1) r c with
          | none =>
            rw [Option.map_none]
            by_contra hne
            obtain ⟨m, hm⟩ := Option.ne_none_iff_exists'.1 hne
            rw [cell_toTab hu', hpos] at hm
            have hm' : 1 ≤ swp (k + 1) (k + 1 + 1) m ∧ swp (k + 1) (k + 1 + 1) m ≤ n := by
              unfold swp; split_ifs <;> omega
            have := (cell_toTab ((h.eqv i).lat hp) r c (swp (k + 1) (k + 1 + 1) m)).2
              ⟨hm'.1, by omega, hm.2.2⟩
            rw [hcell] at this
            cases this
          | some m =>
            rw [Option.map_some, cell_toTab hu', hpos]
            rw [cell_toTab ((h.eqv i).lat hp)] at hcell
            have hm' : swp (k + 1) (k + 1 + 1) (if m = k + 1 then k + 1 + 1 else if m = k + 1 + 1 then k + 1 else m) = m := by
              unfold swp; split_ifs <;> omega
            rw [hm']
            refine ⟨?_, ?_, hcell.2.2⟩
            · split_ifs <;> omega
            · split_ifs <;> omega
      · rw [if_neg hsw]

theorem leftMul_act {K : Type} [DecidableEq K] {d : Nat} (M : Matrix (Fin d) (Fin d) ℝ) (A : Nat → Nat → ℝ)
    (hA : ∀ i j : Fin d, A i j = M i j) (cols : List K) (X : Nat → K → ℝ) :
    LeftMul d A cols X (act M cols X) := by
  constructor
  · intro i k hi hk
    unfold act
    rw [dif_pos ⟨hi, hk⟩]
    exact Finset.sum_congr rfl fun j _ => by rw [← hA]
  · intro i k h
    unfold act
    rw [dif_neg h]

theorem Repr'.eval_eq (h : Repr' hp R) (σ : Equiv.Perm (Fin n)) :
    ∃ A, R.eval (enc σ) = some A ∧ ∀ i j : Fin R.d, A i j = h.rep σ i j :=
  ⟨_, h.applySigma_eq _ List.nodup_range σ _, h.identMat_act σ⟩

/-! ### strided blocks -/

theorem act_append {K : Type} [DecidableEq K] {d : Nat} (M : Matrix (Fin d) (Fin d) ℝ) (c1 c2 : List K)
    (hd : ∀ k ∈ c1, k ∉ c2) (X : Nat → K → ℝ) : act M c2 (act M c1 X) = act M (c1 ++ c2) X := by
  funext i k
  unfold act
  by_cases hi : i < d
  · by_cases h2 : k ∈ c2
    · have h1 : k ∉ c1 := fun h => hd k h h2
      simp [hi, h1, h2]
    · by_cases h1 : k ∈ c1 <;> simp [hi, h1, h2]
  · simp [hi]

/-- the columns `beg+j*stride .. end+j*stride-1`, `j<N` -/
def stridedCols (N beg end' stride : Nat) : List Nat :=
  (List.range N).flatMap fun j => List.range' (beg + j * stride) (end' - beg)

theorem mem_stridedCols (N beg end' stride k : Nat) : k ∈ stridedCols N beg end' stride ↔
    ∃ j < N, beg + j * stride ≤ k ∧ k < end' + j * stride := by
  unfold stridedCols
  simp only [List.mem_flatMap, List.mem_range, List.mem_range'_1]
  constructor
  · rintro ⟨j, h1, h2, h3⟩; exact ⟨j, h1, h2, by omega⟩
  · rintro ⟨j, h1, h2, h3⟩; exact ⟨j, h1, h2, by omega⟩

theorem stridedCols_succ (N beg end' stride : Nat) : stridedCols (N + 1) beg end' stride =
    stridedCols N beg end' stride ++ List.range' (beg + N * stride) (end' - beg) := by
  unfold stridedCols
  rw [List.range_succ, List.flatMap_append]
  simp

theorem Repr'.strided_cycle (h : Repr' hp R) (N beg end' stride : Nat) (hs : end' ≤ stride)
    (t m : Nat) (htm : t + m < n) (X : Nat → Nat → ℝ) :
    (forUp 0 (N : Int) X fun j X =>
        R.applyCycleBlock (List.range' (beg + j.toNat * stride) (end' - beg)) ((t : Int) + 1) ((t : Int) + m + 1) X) =
      some (act (h.rep (run (adj n) t m)) (stridedCols N beg end' stride) X) := by
  unfold forUp
  have e : ((N : Int) - 0).toNat = N := by omega
  rw [e]
  clear e
  induction N with
  | zero =>
    simp only [iterUp, stridedCols, List.range_zero, List.flatMap_nil]
    congr 1
    funext i k
    simp [act]
  | succ N ih =>
    rw [iterUp_succ, ih, Option.bind_some]
    have e : ((0 : Int) + N).toNat = N := by omega
    rw [e]
    have h1 := h.applyCycle_up (List.range' (beg + N * stride) (end' - beg)) (List.nodup_range') ⟨t, by omega⟩
      ⟨t + m, htm⟩ (by rw [Fin.le_def]; simp) (act (h.rep (run (adj n) t m)) (stridedCols N beg end' stride) X)
    simp only [Nat.cast_add] at h1
    rw [h1, ← run_adj htm, act_append, stridedCols_succ]
    intro k hk hk'
    rw [mem_stridedCols] at hk
    obtain ⟨j, hj, h2, h3⟩ := hk
    rw [List.mem_range'_1] at hk'
    have h4 : (j + 1) * stride ≤ N * stride := Nat.mul_le_mul_right _ hj
    rw [Nat.succ_mul] at h4
    omega

theorem Repr'.applySigmaStrided_eq (h : Repr' hp R) (J beg end' stride : Nat) (h0 : stride ≠ 0) (hs : end' ≤ stride)
    (σ : Equiv.Perm (Fin n)) (X : Nat → Nat → ℝ) :
    R.applySigmaStrided J beg end' stride (enc σ) X =
      some (act (h.rep σ) (stridedCols (J / stride) beg end' stride) X) := by
  unfold IrrepObj.applySigmaStrided
  rw [h.n_eq, if_pos ⟨by simp, h0⟩, shifts_eq]
  have := sigmaLoop (s := adj n) (a := fun σ => act (h.rep σ) (stridedCols (J / stride) beg end' stride))
    (fun x => by simp only [map_one, act_one]) (fun g g' x => by simp only [map_mul, act_mul])
    (cy := fun b i A => forUp 0 ((J / stride : Nat) : Int) A fun j A =>
        R.applyCycleBlock (List.range' (beg + j.toNat * stride) (end' - beg)) b i A)
    (fun t m x htm => h.strided_cycle _ _ _ _ hs t m htm x) σ X
  rw [cox_adj_self] at this
  exact this

end

theorem enc_extend {n : Nat} (σ : Equiv.Perm (Fin n)) : enc (extend σ) = enc σ ++ [some ((n : Int) + 1)] := by
  symm
  refine eq_enc _ (by simp) fun i => ?_
  refine Fin.lastCases ?_ (fun i => ?_) i
  · rw [extend_last, List.getElem?_append_right (by simp)]
    simp
  · rw [extend_castSucc, List.getElem?_append_left (by simp)]
    exact enc_get σ i

theorem getElem?_flatMap_off {α β : Type} (f : α → List β) (l : List α) (a i : Nat) (x : α) (hx : l[a]? = some x)
    (hi : i < (f x).length) :
    (l.flatMap f)[((l.take a).map fun y => (f y).length).sum + i]? = (f x)[i]? := by
  induction l generalizing a with
  | nil => simp at hx
  | cons y l ih =>
    rw [List.flatMap_cons]
    rcases a with _ | a
    · simp only [List.getElem?_cons_zero, Option.some.injEq] at hx
      subst hx
      rw [List.getElem?_append_left (by simpa using hi)]
      simp
    · rw [List.getElem?_cons_succ] at hx
      rw [List.take_succ_cons, List.map_cons, List.sum_cons, List.getElem?_append_right (by omega), ← ih a hx]
      congr 1
      omega

theorem mapM_map {α β : Type} (f : α → Option β) (g : α → β) (l : List α) (h : ∀ x ∈ l, f x = some (g x)) :
    l.mapM f = some (l.map g) := by
  induction l with
  | nil => rfl
  | cons a l ih => simp [List.mapM_cons, h a (by simp), ih fun x hx => h x (by simp [hx])]

end Snob
