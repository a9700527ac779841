import Verif.Proofs.View
import Verif.Spec.View

/-! # When the tables for tensor views are right -/

namespace Snob

open IP Matrix

theorem mapM_some_iff {α β : Type} (f : α → Option β) (l : List α) (ys : List β) :
    l.mapM f = some ys ↔ ys.length = l.length ∧
      ∀ (i : Nat) (x : α), l[i]? = some x → ∃ y, ys[i]? = some y ∧ f x = some y := by
  induction l generalizing ys with
  | nil =>
    simp only [List.mapM_nil]
    constructor
    · intro h; cases h; simp
    · rintro ⟨h, _⟩; rw [List.length_eq_zero_iff.1 h]; rfl
  | cons a l ih =>
    rw [List.mapM_cons]
    constructor
    · intro h
      cases ha : f a with
      | none => rw [ha] at h; cases h
      | some y =>
        rw [ha] at h
        cases hl : l.mapM f with
        | none => rw [hl] at h; cases h
        | some ys' =>
          rw [hl] at h
          cases h
          obtain ⟨h1, h2⟩ := (ih ys').1 hl
          refine ⟨by simp [h1], ?_⟩
          intro i x hx
          rcases i with _ | i
          · simp at hx; subst hx; exact ⟨y, by simp, ha⟩
          · simpa using h2 i x (by simpa using hx)
    · rintro ⟨h1, h2⟩
      rcases ys with _ | ⟨y, ys⟩
      · simp at h1
      · obtain ⟨y', e1, e2⟩ := h2 0 a (by simp)
        simp at e1
        subst e1
        have := (ih ys).2 ⟨by simpa using h1, fun i x hx => by
          simpa using h2 (i + 1) x (by simpa using hx)⟩
        rw [e2, this]; rfl

section
variable {n : Nat} {p : List Nat} {hp : IsPartition n p} {R : IrrepObj}

/-- partners are the exchanged tableaux -/
theorem Repr'.partner_iff (h : Repr' hp R) {tau : Nat} (h1 : 1 ≤ tau) (h2 : tau < n) (i j : Fin R.d) :
    (R.partner tau i = j ∧ i ≠ j) ↔ Exchanged tau (toTab (h.eqv i).1) (toTab (h.eqv j).1) := by
  have P := h.pairing h1 h2
  have htl : ∀ i : Fin R.d, (i : Nat) < R.tableaux.length := fun i => by rw [P.len]; exact i.2
  have hget : ∀ i : Fin R.d, R.tableaux[(i : Nat)]'(htl i) = toTab (h.eqv i).1 := fun i => by
    have := h.tab_get i
    rw [List.getElem?_eq_getElem (htl i)] at this
    exact Option.some.inj this
  have hnd : R.tableaux.Nodup := by rw [h.tab]; exact toTab_nodup hp
  obtain ⟨T', d, e, hd, h0, hsh, hcell, hyes, hno⟩ :=
    applyTransp_toTab ((h.eqv i).lat hp) h1 (by rw [(h.eqv i).length hp]; omega)
  obtain ⟨T'', d', e', _, hb1, hb2⟩ := P.body i (htl i)
  rw [hget, e] at e'
  cases e'
  have hswp : ∀ T : Tab, (∀ r c, cell T r c = (cell (toTab (h.eqv i).1) r c).map (swp tau (tau + 1))) ↔
      Exchanged tau (toTab (h.eqv i).1) T := fun T => Iff.rfl
  constructor
  · rintro ⟨hq, hne⟩
    have hu : ¬ (d = 1 ∨ d = -1) := fun hu => by
      have := (hb1 hu).1
      exact hne (Fin.ext (this.symm.trans hq))
    obtain ⟨_, hix, _⟩ := hb2 hu
    obtain ⟨u', hu', rfl, _, hcnt, _⟩ := hyes (not_or.1 hu)
    have hmem : u' ∈ words n p :=
      (mem_words hp u').2 ⟨hu', fun x => (hcnt x).trans (((mem_words hp (h.eqv i).1).1 (h.eqv i).2).2 x)⟩
    have hj : h.eqv.symm ⟨u', hmem⟩ = j := by
      apply Fin.ext
      rw [h.tab, tabIndex_toTab hp ⟨u', hmem⟩, hq] at hix
      have : ((h.eqv.symm ⟨u', hmem⟩ : Fin R.d) : Nat) = ((wdEquiv hp).symm ⟨u', hmem⟩ : Nat) := by
        unfold Repr'.eqv; simp
      omega
    have : (h.eqv j) = ⟨u', hmem⟩ := by rw [← hj, Equiv.apply_symm_apply]
    rw [this]
    exact (hswp _).1 hcell
  · intro hex
    have hT : toTab (h.eqv j).1 = T' := by
      refine tab_ext ?_ fun r c => (hex r c).trans (hcell r c).symm
      rw [hsh]
      exact (toTab_isSYT hp ((h.eqv j).lat hp) ((mem_words hp _).1 (h.eqv j).2).2).1.shape.trans
        (toTab_isSYT hp ((h.eqv i).lat hp) ((mem_words hp _).1 (h.eqv i).2).2).1.shape.symm
    have hu : ¬ (d = 1 ∨ d = -1) := fun hu => by
      refine hno hu p ?_
      rw [← hT]
      exact (toTab_isSYT hp ((h.eqv j).lat hp) ((mem_words hp _).1 (h.eqv j).2).2).1
    obtain ⟨hne, hix, _⟩ := hb2 hu
    have hq : R.partner tau i = j := by
      rw [← hT, ← hget j, tabIndex_getElem hnd (htl j)] at hix
      omega
    exact ⟨hq, fun e => hne (by rw [hq, e])⟩

theorem Repr'.packed_iff (h : Repr' hp R) {tau : Nat} (h1 : 1 ≤ tau) (h2 : tau < n) :
    Packed R.d (R.partner tau) ↔ PackedPairs R.tableaux tau := by
  have P := h.pairing h1 h2
  have hget : ∀ (i : Nat) (T : Tab), R.tableaux[i]? = some T → ∃ hi : i < R.d, T = toTab (h.eqv ⟨i, hi⟩).1 := by
    intro i T hT
    obtain ⟨hi, _⟩ := List.getElem?_eq_some_iff.1 hT
    rw [P.len] at hi
    refine ⟨hi, ?_⟩
    have := h.tab_get ⟨i, hi⟩
    rw [hT] at this
    exact Option.some.inj this
  constructor
  · intro hk i j i' j' T1 T2 T1' T2' e1 e2 e3 e4 x1 x2 l1 l2
    obtain ⟨hi, rfl⟩ := hget i _ e1
    obtain ⟨hj, rfl⟩ := hget j _ e2
    obtain ⟨hi', rfl⟩ := hget i' _ e3
    obtain ⟨hj', rfl⟩ := hget j' _ e4
    have q1 := ((h.partner_iff h1 h2 ⟨i, hi⟩ ⟨j, hj⟩).2 x1).1
    have q2 := ((h.partner_iff h1 h2 ⟨i', hi'⟩ ⟨j', hj'⟩).2 x2).1
    simp only at q1 q2
    have q3 := (P.inv i' hi').2
    rw [q2] at q3
    exact hk i j' hi hj' (by omega) (by omega)
  · intro hk i j hi hj h3 h4
    have hqi := P.inv i hi
    have hqj := P.inv j hj
    have x1 := (h.partner_iff h1 h2 ⟨i, hi⟩ ⟨R.partner tau i, hqi.1⟩).1
      ⟨rfl, fun e => by have := congrArg Fin.val e; simp only at this; omega⟩
    have x2 := (h.partner_iff h1 h2 ⟨R.partner tau j, hqj.1⟩ ⟨j, hj⟩).1
      ⟨hqj.2, fun e => by have := congrArg Fin.val e; simp only at this; omega⟩
    exact hk _ _ _ _ _ _ _ _ (h.tab_get ⟨i, hi⟩) (h.tab_get _) (h.tab_get _) (h.tab_get ⟨j, hj⟩) x1 x2 h3 h4

/-- all tables of the object are packed -/
def IrrepObj.AllPacked (R : IrrepObj) : Prop :=
  ∀ tau : Nat, 1 ≤ tau → tau < R.n → Packed R.d (R.partner tau)

variable {K : Type} [DecidableEq K]

theorem Repr'.view_packed (h : Repr' hp R) (hk : R.AllPacked) (cols : List K) (hc : cols.Nodup)
    {tau : Nat} (h1 : 1 ≤ tau) (h2 : tau < n) (A : Nat → K → ℝ) :
    R.applyTauView cols tau A = some (act (h.mat (yorM n p tau)) cols A) := by
  have key : ∀ t, 1 ≤ t → t < n → ∃ st', tensorLoop R.tableaux t (List.range R.tableaux.length)
      ⟨[], List.replicate (R.tableaux.length / 2 + 1) GSlot.zero,
        List.replicate R.tableaux.length false⟩ = some st' ∧
        st'.diag = (diags (R.partner t) R.d).map (fun r => (r, R.co1 t r)) ∧
        st'.givens.take (firsts (R.partner t) R.d).length =
          (firsts (R.partner t) R.d).map (fun r => (⟨r, R.partner t r, R.co1 t r, R.co2 t r⟩ : GSlot)) := by
    intro t ht1 ht2
    have P := h.pairing ht1 ht2
    have := P.loop_packed (hk t ht1 (by rw [h.n_eq]; exact ht2)) R.d 0
      ⟨[], List.replicate (R.d / 2 + 1) GSlot.zero, List.replicate R.d false⟩ (by omega)
      ⟨by simp, fun r hr => by simp [hr]⟩ rfl (by simp) rfl
    rwa [P.len, List.range_eq_range']
  have key' : ∀ t, ∃ st', (1 ≤ t ∧ t < n) → tensorLoop R.tableaux t (List.range R.tableaux.length)
      ⟨[], List.replicate (R.tableaux.length / 2 + 1) GSlot.zero,
        List.replicate R.tableaux.length false⟩ = some st' ∧
        st'.diag = (diags (R.partner t) R.d).map (fun r => (r, R.co1 t r)) ∧
        st'.givens.take (firsts (R.partner t) R.d).length =
          (firsts (R.partner t) R.d).map (fun r => (⟨r, R.partner t r, R.co1 t r, R.co2 t r⟩ : GSlot)) := by
    intro t
    by_cases ht : 1 ≤ t ∧ t < n
    · obtain ⟨st', hst⟩ := key t ht.1 ht.2
      exact ⟨st', fun _ => hst⟩
    · exact ⟨⟨[], [], []⟩, fun h => absurd h ht⟩
  choose F hF using key'
  have htabs : computeYORtensors R.n R.tableaux = some ((List.range' 1 (n - 1)).map F) := by
    unfold computeYORtensors
    rw [h.n_eq, mapM_some_iff]
    refine ⟨by simp, ?_⟩
    intro i x hx
    have hx' : 1 ≤ x ∧ x < n := by
      have := List.mem_of_getElem? hx
      rw [List.mem_range'_1] at this
      omega
    exact ⟨F x, by rw [List.getElem?_map, hx]; rfl, (hF x hx').1⟩
  unfold IrrepObj.applyTauView
  rw [if_pos ⟨by omega, by rw [h.n_eq]; omega⟩, htabs]
  have hi : ((tau : Int) - 1).toNat = tau - 1 := by omega
  have hget : ((List.range' 1 (n - 1)).map F)[((tau : Int) - 1).toNat]? = some (F tau) := by
    rw [hi, List.getElem?_map, List.getElem?_range' (by omega)]
    have : 1 + 1 * (tau - 1) = tau := by omega
    rw [this]; rfl
  simp only [hget]
  have P := h.pairing h1 h2
  rw [(hF tau ⟨h1, h2⟩).2.1, List.length_map, firsts_length P.inv, (hF tau ⟨h1, h2⟩).2.2, P.apply_packed cols hc A]

theorem Repr'.view_gap (h : Repr' hp R) {tau : Nat} (h1 : 1 ≤ tau) (h2 : tau < n)
    (hk : ¬ Packed R.d (R.partner tau)) (cols : List K) (hc : cols.Nodup) (A B : Nat → K → ℝ)
    (hB : R.applyTauView cols tau A = some B) (k : K) (hkc : k ∈ cols) : B 0 k = 0 := by
  have P := h.pairing h1 h2
  unfold IrrepObj.applyTauView at hB
  rw [if_pos ⟨by omega, by rw [h.n_eq]; omega⟩] at hB
  cases htabs : computeYORtensors R.n R.tableaux with
  | none => rw [htabs] at hB; cases hB
  | some tabs =>
    rw [htabs] at hB
    simp only at hB
    unfold computeYORtensors at htabs
    rw [mapM_some_iff] at htabs
    have hi : ((tau : Int) - 1).toNat = tau - 1 := by omega
    obtain ⟨st, e1, e2⟩ := htabs.2 (tau - 1) tau (by
      rw [h.n_eq, List.getElem?_range' (by omega)]
      congr 1; omega)
    rw [hi, e1] at hB
    simp only at hB
    cases hB
    exact P.gap hk st e2 cols hc _ k hkc

/-- if all tables are packed, the tensor view action is the matrix action, for cycles as well -/
theorem Repr'.genView (h : Repr' hp R) (hk : R.AllPacked) (cols : List K) (hc : cols.Nodup) :
    Gen (M := Equiv.Perm (Fin n)) n (adj n) (fun σ => act (h.rep σ) cols)
      (fun tau A => R.applyTauView cols tau A) where
  one A := by rw [map_one, act_one]
  mul σ τ A := by rw [map_mul, act_mul]
  gen k A hk' := by
    rw [h.rep_adj hk']
    exact h.view_packed hk cols hc (tau := k + 1) (by omega) hk' A

/-! ### computing partners on words -/

/-- the word with the letters of `tau` and `tau+1` exchanged -/
def swapWord (tau : Nat) (u : List Nat) : List Nat :=
  match u.drop (u.length - tau - 1) with
  | b :: a :: x => u.take (u.length - tau - 1) ++ a :: b :: x
  | _ => u

theorem swapWord_eq (v x : List Nat) (a b : Nat) :
    swapWord (x.length + 1) (v ++ b :: a :: x) = v ++ a :: b :: x := by
  unfold swapWord
  have : (v ++ b :: a :: x).length - (x.length + 1) - 1 = v.length := by simp; omega
  rw [this, List.drop_left, List.take_left]

/-- position of the exchanged word -/
def partnerW (ws : List (List Nat)) (tau i : Nat) : Nat :=
  match ws[i]? with
  | none => i
  | some u => let j := ws.idxOf (swapWord tau u); if j < ws.length then j else i

theorem Repr'.partner_eq (h : Repr' hp R) {tau : Nat} (h1 : 1 ≤ tau) (h2 : tau < n) {i : Nat} (hi : i < R.d) :
    R.partner tau i = partnerW (words n p) tau i := by
  have P := h.pairing h1 h2
  have hi' : i < R.tableaux.length := by rw [P.len]; exact hi
  have hiw : i < (words n p).length := by rw [← h.d_eq]; exact hi
  have hget : R.tableaux[i] = toTab (words n p)[i] := by simp [h.tab]
  let u : Wd n p := ⟨(words n p)[i], List.getElem_mem hiw⟩
  have hlat := u.lat hp
  have hlen := u.length hp
  obtain ⟨T', d, e, hd, h0, hsh, hcell, hyes, hno⟩ := applyTransp_toTab hlat h1 (by rw [hlen]; omega)
  obtain ⟨T'', d', e', _, hb1, hb2⟩ := P.body i hi'
  have e2 : Tab.applyTransp R.tableaux[i] tau (tau + 1) = some (T', d) := by rw [hget]; exact e
  rw [e2] at e'
  cases e'
  unfold partnerW
  rw [List.getElem?_eq_getElem hiw]
  simp only
  have hu1 : u.1 = (words n p)[i] := rfl
  rw [← hu1]
  have hmemu := u.2
  have hixu : (words n p).idxOf u.1 = i := by
    rw [hu1]; exact (words_nodup hp).idxOf_getElem i hiw
  have hcntu := ((mem_words hp u.1).1 u.2).2
  obtain ⟨v, b, a, x, he, hx⟩ := split_word (u := u.1) (i := tau) h1 (by rw [hlen]; omega)
  subst hx
  have hdd : d = ((a :: x).count b : Int) - b - ((x.count a : Int) - a) := by
    rw [hd, he, contW_lower]
    have := contW_upper (v := v) (b := b) (a := a) (x := x)
    show contW _ (x.length + 2) - _ = _
    rw [this]
  rw [he] at hlat hixu hmemu ⊢
  rw [swapWord_eq]
  rcases hlat.cases with ⟨hab, hdv⟩ | ⟨hab, hc, hdv⟩ | ⟨hab, hl', hc, hdv⟩
  · subst hab
    rw [(hb1 (by omega)).1, hixu, if_pos hiw]
  · rw [(hb1 (by omega)).1, if_neg]
    intro hlt
    rw [List.idxOf_lt_length_iff] at hlt
    have hlat2 := ((mem_words hp _).1 hlt).1
    have := hlat2.suffix.1.2
    subst hab
    rcases this with h | ⟨_, h⟩
    · omega
    · simp at h; omega
  · obtain ⟨_, hix, _⟩ := hb2 (by omega)
    have hmem : v ++ a :: b :: x ∈ words n p := by
      refine (mem_words hp _).2 ⟨hl', fun r => ?_⟩
      rw [← hcntu r, he]
      simp only [List.count_append, List.count_cons]
      omega
    have hlt : (words n p).idxOf (v ++ a :: b :: x) < (words n p).length := List.idxOf_lt_length_iff.2 hmem
    rw [if_pos hlt]
    obtain ⟨u', hu', rfl, hl2, hcnt, hpos⟩ := hyes (by omega)
    have hu'' : u' = v ++ a :: b :: x := by
      refine contW_injective hu' hl' (by rw [hl2, he]; simp) ?_
      intro m _ _
      unfold contW
      rw [hpos, posW_swap hab, he]
    rw [h.tab, hu''] at hix
    have := tabIndex_getElem (toTab_nodup hp) (j := (words n p).idxOf (v ++ a :: b :: x))
      (by rw [List.length_map]; exact hlt)
    rw [List.getElem_map, List.getElem_idxOf hlt, hix] at this
    exact_mod_cast this

instance (d : Nat) (q : Nat → Nat) : Decidable (∀ i < d, ∀ j < d, i < q i → q j < j → i < j) :=
  inferInstance

theorem Repr'.packed_words (h : Repr' hp R) {tau : Nat} (h1 : 1 ≤ tau) (h2 : tau < n) :
    Packed R.d (R.partner tau) ↔ ∀ i < (words n p).length, ∀ j < (words n p).length,
      i < partnerW (words n p) tau i → partnerW (words n p) tau j < j → i < j := by
  unfold Packed
  rw [h.d_eq]
  constructor
  · intro hk i hi j hj h3 h4
    rw [← h.partner_eq h1 h2 (by rw [h.d_eq]; exact hi)] at h3
    rw [← h.partner_eq h1 h2 (by rw [h.d_eq]; exact hj)] at h4
    exact hk i j hi hj h3 h4
  · intro hk i j hi hj h3 h4
    rw [h.partner_eq h1 h2 (by rw [h.d_eq]; exact hi)] at h3
    rw [h.partner_eq h1 h2 (by rw [h.d_eq]; exact hj)] at h4
    exact hk i hi j hj h3 h4

end

end Snob
