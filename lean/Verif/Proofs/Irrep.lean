import Verif.Proofs.YOR
import Verif.Model.Irrep
import Mathlib.Data.List.NodupEquivFin

/-! # The tables and the in-place action of an irrep object -/

namespace Snob

open IP Matrix

/-! ### lists -/

theorem tabIndex_getElem {ts : List Tab} (h : ts.Nodup) {j : Nat} (hj : j < ts.length) :
    tabIndex ts ts[j] = j := by
  induction ts generalizing j with
  | nil => simp at hj
  | cons p ts ih =>
    rcases j with _ | j
    · simp [tabIndex]
    · have hj' : j < ts.length := by simpa using hj
      have hne : p ≠ ts[j] := fun e => (List.nodup_cons.1 h).1 (e ▸ List.getElem_mem hj')
      simp only [List.getElem_cons_succ, tabIndex, if_neg hne, ih (List.nodup_cons.1 h).2 hj']
      split
      · omega
      · push_cast; rfl

theorem mapM_id_map_some {α : Type} (l : List α) : (l.map some).mapM id = some l := by
  induction l with
  | nil => rfl
  | cons a l ih => simp [List.mapM_cons, ih]

theorem getElem?_flatMap_const {α β : Type} (f : α → List β) (m : Nat) (l : List α)
    (hf : ∀ a ∈ l, (f a).length = m) (i j : Nat) (hj : j < m) :
    (l.flatMap f)[i * m + j]? = (l[i]?).bind fun a => (f a)[j]? := by
  induction l generalizing i with
  | nil => simp
  | cons a l ih =>
    have h1 := hf a (by simp)
    rw [List.flatMap_cons]
    rcases i with _ | i
    · rw [Nat.zero_mul, Nat.zero_add, List.getElem?_append_left (by omega)]
      simp
    · rw [List.getElem?_append_right (by rw [h1, Nat.succ_mul]; omega)]
      have : (i + 1) * m + j - (f a).length = i * m + j := by
        rw [h1, Nat.succ_mul]; omega
      rw [this, ih fun b hb => hf b (by simp [hb])]
      simp

/-! ### row operations -/

section
variable {K : Type} [DecidableEq K]

theorem scaleRow_eq (i : Nat) (c1 : ℝ) (cols : List K) (h : cols.Nodup) (A : Nat → K → ℝ) (r : Nat) (k : K) :
    IrrepObj.scaleRow i c1 cols A r k = if r = i ∧ k ∈ cols then c1 * A r k else A r k := by
  induction cols generalizing A with
  | nil => simp [IrrepObj.scaleRow]
  | cons k0 ks ih =>
    have hk := List.nodup_cons.1 h
    rw [IrrepObj.scaleRow, ih hk.2]
    unfold setv
    by_cases h1 : r = i
    · subst h1
      by_cases h2 : k = k0
      · subst h2; simp [hk.1]
      · simp [h2]
    · simp [h1]

theorem mixRows_eq (i i2 : Nat) (hi : i ≠ i2) (c1 c2 : ℝ) (cols : List K) (h : cols.Nodup)
    (A : Nat → K → ℝ) (r : Nat) (k : K) :
    IrrepObj.mixRows i i2 c1 c2 cols A r k =
      if k ∈ cols then
        if r = i then c1 * A i k + c2 * A i2 k
        else if r = i2 then -c1 * A i2 k + c2 * A i k else A r k
      else A r k := by
  induction cols generalizing A with
  | nil => simp [IrrepObj.mixRows]
  | cons k0 ks ih =>
    have hk := List.nodup_cons.1 h
    rw [IrrepObj.mixRows, ih hk.2]
    unfold setv
    by_cases h2 : k = k0
    · subst h2
      simp only [hk.1, if_false, List.mem_cons, true_or, if_true, and_true]
      by_cases h1 : r = i2
      · subst h1
        simp [Ne.symm hi]
      · simp [h1]
    · simp [h2]

/-- a matrix acting on the given columns -/
noncomputable def act {d : Nat} (M : Matrix (Fin d) (Fin d) ℝ) (cols : List K) (A : Nat → K → ℝ) :
    Nat → K → ℝ :=
  fun i k => if h : i < d ∧ k ∈ cols then ∑ j, M ⟨i, h.1⟩ j * A j k else A i k

theorem act_one {d : Nat} (cols : List K) (A : Nat → K → ℝ) :
    act (1 : Matrix (Fin d) (Fin d) ℝ) cols A = A := by
  funext i k
  unfold act
  split
  · simp [Matrix.one_apply]
  · rfl

theorem act_mul {d : Nat} (M N : Matrix (Fin d) (Fin d) ℝ) (cols : List K) (A : Nat → K → ℝ) :
    act (M * N) cols A = act M cols (act N cols A) := by
  funext i k
  unfold act
  by_cases h : i < d ∧ k ∈ cols
  · simp only [dif_pos h]
    have : ∀ j : Fin d, (if h : (j : Nat) < d ∧ k ∈ cols then ∑ j', N ⟨j, h.1⟩ j' * A j' k else A j k) =
        ∑ j', N j j' * A j' k := fun j => by rw [dif_pos ⟨j.2, h.2⟩]
    simp only [this, Matrix.mul_apply, Finset.sum_mul, Finset.mul_sum]
    rw [Finset.sum_comm]
    exact Finset.sum_congr rfl fun j _ => Finset.sum_congr rfl fun j' _ => mul_assoc _ _ _
  · simp only [dif_neg h]

/-- what the table must say about the matrix `M` of the generator `tau` -/
structure SlotSpec (R : IrrepObj) (tau : Int) (M : Matrix (Fin R.d) (Fin R.d) ℝ) : Prop where
  spec : ∀ i : Fin R.d, ∃ s, R.slot tau i = some s ∧
    ((s.t = -1 ∧ ∀ x : Fin R.d → ℝ, ∑ j, M i j * x j = s.c1 * x i) ∨
     ∃ (i2 : Fin R.d) (s2 : YORSlot), s.t = (i2 : Nat) ∧ i ≠ i2 ∧
      (∀ x : Fin R.d → ℝ, ∑ j, M i j * x j = s.c1 * x i + s.c2 * x i2) ∧
      R.slot tau i2 = some s2 ∧ s2.t = (i : Nat) ∧
      (∀ x : Fin R.d → ℝ, ∑ j, M i2 j * x j = -s.c1 * x i2 + s.c2 * x i))

theorem tauLoop_eq {R : IrrepObj} {tau : Int} {M : Matrix (Fin R.d) (Fin R.d) ℝ}
    (hS : SlotSpec R tau M) (cols : List K) (hc : cols.Nodup) (A : Nat → K → ℝ) (m : Nat) :
    ∀ (i : Nat) (A' : Nat → K → ℝ) (done : List Bool), i + m = R.d → done.length = R.d →
    (∀ r k, r < R.d → k ∈ cols → (r < i ∨ done[r]? = some true) → A' r k = act M cols A r k) →
    (∀ r k, ¬ (r < R.d ∧ k ∈ cols ∧ (r < i ∨ done[r]? = some true)) → A' r k = A r k) →
    (∀ r : Nat, done[r]? = some true → ∃ q < i, ∃ s, R.slot tau q = some s ∧ s.t = r) →
    (∀ r s q, r < i → R.slot tau r = some s → s.t = (q : Nat) → q < i ∨ done[q]? = some true) →
    ∃ done', IrrepObj.tauLoop R cols tau (List.range' i m) (A', done) = some (act M cols A, done') := by
  induction m with
  | zero =>
    intro i A' done hi hl h1 h2 h3 h4
    refine ⟨done, ?_⟩
    have : A' = act M cols A := by
      funext r k
      by_cases h : r < R.d ∧ k ∈ cols
      · exact h1 r k h.1 h.2 (Or.inl (by omega))
      · rw [h2 r k fun h' => h ⟨h'.1, h'.2.1⟩]
        unfold act; rw [dif_neg h]
    rw [this]; rfl
  | succ m ih =>
    intro i A' done hi hl h1 h2 h3 h4
    have hid : i < R.d := by omega
    rw [List.range'_succ, IrrepObj.tauLoop]
    unfold IrrepObj.tauBody
    simp only
    rcases hdi : done[i]? with _ | b
    · rw [List.getElem?_eq_none_iff] at hdi; omega
    · cases b with
      | true =>
        simp only [Option.bind_some]
        refine ih (i + 1) A' done (by omega) hl ?_ ?_ ?_ ?_
        · intro r k hr hk h
          refine h1 r k hr hk ?_
          rcases h with h | h
          · rcases Nat.lt_succ_iff_lt_or_eq.1 h with h | h
            · exact Or.inl h
            · exact Or.inr (h ▸ hdi)
          · exact Or.inr h
        · intro r k h
          exact h2 r k fun h' => h ⟨h'.1, h'.2.1, h'.2.2.imp (fun h => by omega) id⟩
        · intro r hr
          obtain ⟨q, hq, s, hs⟩ := h3 r hr
          exact ⟨q, by omega, s, hs⟩
        · intro r s q hr hs hq
          rcases Nat.lt_succ_iff_lt_or_eq.1 hr with h | h
          · exact (h4 r s q h hs hq).imp (fun h => by omega) id
          · subst h
            -- partner of a done row was processed before
            obtain ⟨q', hq', s', hs', e'⟩ := h3 r hdi
            obtain ⟨s'', hs'', hcase⟩ := hS.spec ⟨q', by omega⟩
            rw [hs'] at hs''
            cases hs''
            rcases hcase with ⟨e, _⟩ | ⟨i2, s2, e, _, _, hs2, e2, _⟩
            · omega
            · have : (i2 : Nat) = r := by omega
              rw [this, hs] at hs2
              cases hs2
              left
              simp only at e2
              omega
      | false =>
        obtain ⟨s, hs, hcase⟩ := hS.spec ⟨i, hid⟩
        simp only at hs
        rw [hs]
        simp only
        -- row i has not been touched
        have hA'i : ∀ k, A' i k = A i k := fun k => h2 i k fun h' => by
          rcases h'.2.2 with h | h
          · omega
          · rw [hdi] at h; cases h
        rcases hcase with ⟨et, hM⟩ | ⟨i2, s2, et, hne, hM, hs2, et2, hM2⟩
        · rw [if_pos et, Option.bind_some]
          refine ih (i + 1) _ done (by omega) hl ?_ ?_ ?_ ?_
          · intro r k hr hk h
            rw [scaleRow_eq _ _ _ hc]
            by_cases e : r = i
            · subst e
              rw [if_pos ⟨rfl, hk⟩, hA'i]
              unfold act
              rw [dif_pos ⟨hr, hk⟩, hM fun j => A j k]
            · rw [if_neg fun h => e h.1]
              exact h1 r k hr hk (h.imp (fun h => by omega) id)
          · intro r k h
            rw [scaleRow_eq _ _ _ hc]
            by_cases e : r = i ∧ k ∈ cols
            · exact absurd ⟨by omega, e.2, Or.inl (by omega)⟩ h
            · rw [if_neg e]
              exact h2 r k fun h' => h ⟨h'.1, h'.2.1, h'.2.2.imp (fun h => by omega) id⟩
          · intro r hr
            obtain ⟨q, hq, s, hs⟩ := h3 r hr
            exact ⟨q, by omega, s, hs⟩
          · intro r s' q hr hs' hq
            rcases Nat.lt_succ_iff_lt_or_eq.1 hr with h | h
            · exact (h4 r s' q h hs' hq).imp (fun h => by omega) id
            · subst h
              rw [hs] at hs'
              cases hs'
              omega
        · have hi2 := i2.2
          have hne' : i ≠ (i2 : Nat) := fun e => hne (Fin.ext e)
          have hi2lt : ¬ (i2 : Nat) < i := fun hlt => by
            rcases h4 i2 s2 i hlt hs2 et2 with h | h
            · omega
            · rw [hdi] at h; cases h
          have hi2done : done[(i2 : Nat)]? ≠ some true := fun hd => by
            obtain ⟨q, hq, s', hs', e'⟩ := h3 i2 hd
            obtain ⟨s'', hs'', hcase⟩ := hS.spec ⟨q, by omega⟩
            rw [hs'] at hs''
            cases hs''
            rcases hcase with ⟨e, _⟩ | ⟨i3, s3, e, _, _, hs3, e3, _⟩
            · omega
            · have : i3 = i2 := Fin.ext (by omega)
              subst this
              rw [hs2] at hs3
              cases hs3
              simp only at e3
              have : q = i := by
                have e4 : (i : Int) = q := et2.symm.trans e3
                omega
              omega
          have hA'i2 : ∀ k, A' i2 k = A i2 k := fun k => h2 i2 k fun h' => by
            rcases h'.2.2 with h | h
            · exact hi2lt h
            · exact hi2done h
          have etn : s.t.toNat = (i2 : Nat) := by omega
          rw [if_neg (by omega), if_pos ⟨by omega, by omega⟩, Option.bind_some, etn]
          have hset : ∀ r : Nat, (done.set (i2 : Nat) true)[r]? = some true ↔
              (r = (i2 : Nat) ∨ done[r]? = some true) := by
            intro r
            rw [List.getElem?_set]
            by_cases e : (i2 : Nat) = r
            · rw [if_pos e, if_pos (by omega)]; simp [e]
            · rw [if_neg e]
              constructor
              · exact Or.inr
              · rintro (h | h)
                · exact absurd h.symm e
                · exact h
          refine ih (i + 1) _ _ (by omega) (by simpa using hl) ?_ ?_ ?_ ?_
          · intro r k hr hk h
            rw [mixRows_eq _ _ hne' _ _ _ hc, if_pos hk]
            by_cases e : r = i
            · subst e
              rw [if_pos rfl, hA'i, hA'i2]
              unfold act
              rw [dif_pos ⟨hr, hk⟩, hM fun j => A j k]
            · rw [if_neg e]
              by_cases e2 : r = (i2 : Nat)
              · subst e2
                rw [if_pos rfl, hA'i, hA'i2]
                unfold act
                rw [dif_pos ⟨hr, hk⟩, hM2 fun j => A j k]
              · rw [if_neg e2]
                refine h1 r k hr hk ?_
                rw [hset] at h
                rcases h with h | h | h
                · left; omega
                · exact absurd h e2
                · right; exact h
          · intro r k h
            rw [hset] at h
            rw [mixRows_eq _ _ hne' _ _ _ hc]
            by_cases hk : k ∈ cols
            · rw [if_pos hk]
              have e : r ≠ i := fun e => h ⟨by omega, hk, Or.inl (by omega)⟩
              have e2 : r ≠ (i2 : Nat) := fun e => h ⟨by omega, hk, Or.inr (Or.inl e)⟩
              rw [if_neg e, if_neg e2]
              exact h2 r k fun h' => h ⟨h'.1, h'.2.1, h'.2.2.imp (fun h => by omega) Or.inr⟩
            · rw [if_neg hk]
              exact h2 r k fun h' => hk h'.2.1
          · intro r hr
            rw [hset] at hr
            rcases hr with rfl | hr
            · exact ⟨i, by omega, s, hs, et⟩
            · obtain ⟨q, hq, s, hs⟩ := h3 r hr
              exact ⟨q, by omega, s, hs⟩
          · intro r s' q hr hs' hq
            rw [hset]
            rcases Nat.lt_succ_iff_lt_or_eq.1 hr with h | h
            · rcases h4 r s' q h hs' hq with h | h
              · left; omega
              · right; right; exact h
            · subst h
              rw [hs] at hs'
              cases hs'
              right; left
              omega

theorem applyTau_eq {R : IrrepObj} {tau : Int} {M : Matrix (Fin R.d) (Fin R.d) ℝ}
    (hS : SlotSpec R tau M) (cols : List K) (hc : cols.Nodup) (A : Nat → K → ℝ) :
    R.applyTau cols tau A = some (act M cols A) := by
  have hrep : ∀ r : Nat, (List.replicate R.d false)[r]? ≠ some true := by
    intro r h
    rw [List.getElem?_replicate] at h
    split at h <;> cases h
  obtain ⟨done', h⟩ := tauLoop_eq hS cols hc A R.d 0 A (List.replicate R.d false) (by omega) (by simp)
    (fun r k _ _ h => by
      rcases h with h | h
      · omega
      · exact absurd h (hrep r))
    (fun r k _ => rfl) (fun r h => absurd h (hrep r)) (fun r s q h => by omega)
  unfold IrrepObj.applyTau
  rw [List.range_eq_range', h]
  rfl

end

/-! ### the tables -/

section
variable {n : Nat} {p : List Nat}

/-- the numbering of the words -/
def wdEquiv (hp : IsPartition n p) : Fin (words n p).length ≃ Wd n p :=
  (words_nodup hp).getEquiv _

theorem wdEquiv_val (hp : IsPartition n p) (i : Fin (words n p).length) :
    (wdEquiv hp i).1 = (words n p)[i] := rfl

theorem toTab_nodup (hp : IsPartition n p) : ((words n p).map toTab).Nodup := by
  refine (words_nodup hp).map_on ?_
  intro u hu v hv h
  exact toTab_injective ((mem_words hp u).1 hu).1 ((mem_words hp v).1 hv).1 h

theorem tabIndex_toTab (hp : IsPartition n p) (u : Wd n p) :
    tabIndex ((words n p).map toTab) (toTab u.1) = ((wdEquiv hp).symm u : Nat) := by
  obtain ⟨i, rfl⟩ := (wdEquiv hp).surjective u
  rw [Equiv.symm_apply_apply, wdEquiv_val]
  have := tabIndex_getElem (toTab_nodup hp) (j := i) (by rw [List.length_map]; exact i.2)
  rwa [List.getElem_map] at this

/-- the slot of a word -/
theorem yorSlot_eq (hp : IsPartition n p) (u : Wd n p) {tau : Nat} (h1 : 1 ≤ tau) (h2 : tau < n) :
    ∃ s, yorSlot ((words n p).map toTab) (toTab u.1) tau = some s ∧
      ((s.t = -1 ∧ offc (u.cont (tau + 1) - u.cont tau) = 0 ∧
          s.c1 = diagc (u.cont (tau + 1) - u.cont tau)) ∨
       ∃ v : Wd n p, v.cont = sw tau u.cont ∧ s.t = ((wdEquiv hp).symm v : Nat) ∧
          s.c1 = diagc (u.cont (tau + 1) - u.cont tau) ∧
          s.c2 = offc (u.cont (tau + 1) - u.cont tau)) := by
  obtain ⟨T', d, e, hd, h0, _, _, hyes, _⟩ :=
    applyTransp_toTab (u.lat hp) h1 (by rw [u.length hp]; omega)
  have hd' : d = u.cont (tau + 1) - u.cont tau := hd
  unfold yorSlot
  rw [e]
  simp only
  by_cases hu : d = 1 ∨ d = -1
  · rw [if_pos hu]
    refine ⟨_, rfl, Or.inl ⟨rfl, ?_, ?_⟩⟩
    · rw [← hd']; exact offc_zero_of_unit hu
    · rw [← hd']; exact (diagc_of_unit hu).symm
  · rw [if_neg hu, if_neg h0]
    obtain ⟨u', hu', rfl, _, hc, hpos⟩ := hyes (not_or.1 hu)
    have hmem : u' ∈ words n p :=
      (mem_words hp u').2 ⟨hu', fun i => (hc i).trans (((mem_words hp u.1).1 u.2).2 i)⟩
    refine ⟨_, rfl, Or.inr ⟨⟨u', hmem⟩, ?_, tabIndex_toTab hp ⟨u', hmem⟩, ?_, ?_⟩⟩
    · funext m
      unfold Wd.cont sw
      simp only [contW, hpos]
    · rw [← hd']; rfl
    · rw [← hd']; rfl

/-- the object made for a partition -/
theorem mkIrrep_eq (hn : 1 ≤ n) (hp : IsPartition n p) :
    ∃ R, mkIrrep p = some R ∧ R.n = n ∧ R.d = (words n p).length ∧ R.lambda = p ∧
      R.tableaux = (words n p).map toTab ∧
      ∀ (i : Nat) (hi : i < (words n p).length) (tau : Nat), 1 ≤ tau → tau < n →
        R.slot tau i = yorSlot ((words n p).map toTab) (toTab (words n p)[i]) tau := by
  let ts := (words n p).map toTab
  have hslot : ∀ T ∈ ts, ∀ tau ∈ List.range' 1 (n - 1), (yorSlot ts T tau).isSome := by
    intro T hT tau htau
    obtain ⟨u, hu, rfl⟩ := List.mem_map.1 hT
    rw [List.mem_range'_1] at htau
    obtain ⟨s, hs, _⟩ := yorSlot_eq hp ⟨u, hu⟩ (tau := tau) (by omega) (by omega)
    rw [hs]; rfl
  let f : Tab → List YORSlot := fun T => (List.range' 1 (n - 1)).map fun tau =>
    (yorSlot ts T tau).getD ⟨0, 0, 0⟩
  have hcomp : computeYOR n ts = some (ts.flatMap f) := by
    unfold computeYOR
    rw [← mapM_id_map_some (ts.flatMap f)]
    congr 1
    rw [List.map_flatMap]
    have key : ∀ l : List Tab, (∀ T ∈ l, T ∈ ts) →
        (l.flatMap fun T => (List.range' 1 (n - 1)).map fun tau => yorSlot ts T tau) =
          l.flatMap fun T => (f T).map some := by
      intro l hl
      induction l with
      | nil => rfl
      | cons T l ih =>
        rw [List.flatMap_cons, List.flatMap_cons, ih fun T' h => hl T' (by simp [h])]
        congr 1
        simp only [f, List.map_map]
        apply List.map_congr_left
        intro tau htau
        have := hslot T (hl T (by simp)) tau htau
        obtain ⟨s, hs⟩ := Option.isSome_iff_exists.1 this
        simp [hs]
    exact key ts fun _ h => h
  refine ⟨⟨n, ts.length, p, ts, ts.flatMap f⟩, ?_, rfl, by simp [ts], rfl, rfl, ?_⟩
  · unfold mkIrrep
    rw [tableaux_eq hn hp, getn_eq, hp.sum]
    simp only [Option.bind_eq_bind, Option.bind_some]
    rw [hcomp]
    rfl
  · intro i hi tau h1 h2
    unfold IrrepObj.slot
    simp only
    have e : (i : Int) * ((n : Int) - 1) + tau - 1 = ((i * (n - 1) + (tau - 1) : Nat) : Int) := by
      push_cast
      rw [Nat.cast_sub (by omega), Nat.cast_sub h1]
      push_cast; ring
    rw [e, if_pos (by omega), Int.toNat_natCast,
      getElem?_flatMap_const f (n - 1) ts (by intro T _; simp [f]) i (tau - 1) (by omega)]
    have hi' : i < ts.length := by simpa [ts] using hi
    rw [List.getElem?_eq_getElem hi', Option.bind_some]
    have : ts[i] = toTab (words n p)[i] := by simp [ts]
    rw [this]
    have ht : tau - 1 < (List.range' 1 (n - 1)).length := by simp; omega
    simp only [f, List.getElem?_map, List.getElem?_eq_getElem ht, Option.map_some,
      List.getElem_range']
    have et : 1 + 1 * (tau - 1) = tau := by omega
    rw [et]
    have := hslot (toTab (words n p)[i]) (List.mem_map.2 ⟨_, List.getElem_mem hi, rfl⟩) tau
      (by rw [List.mem_range'_1]; omega)
    obtain ⟨s, hs⟩ := Option.isSome_iff_exists.1 this
    exact (congrArg some (by rw [hs]; rfl)).trans hs.symm

/-- the object `R` represents the shape `p` -/
structure Repr' (hp : IsPartition n p) (R : IrrepObj) : Prop where
  n_eq : R.n = n
  d_eq : R.d = (words n p).length
  tab : R.tableaux = (words n p).map toTab
  slot : ∀ (i : Nat) (hi : i < (words n p).length) (tau : Nat), 1 ≤ tau → tau < n →
        R.slot tau i = yorSlot ((words n p).map toTab) (toTab (words n p)[i]) tau

/-- the numbering of the words by `Fin R.d` -/
def Repr'.eqv {hp : IsPartition n p} {R : IrrepObj} (h : Repr' hp R) : Fin R.d ≃ Wd n p :=
  (finCongr h.d_eq).trans (wdEquiv hp)

/-- a matrix on words as a matrix on numbers -/
noncomputable def Repr'.mat {hp : IsPartition n p} {R : IrrepObj} (h : Repr' hp R)
    (M : Matrix (Wd n p) (Wd n p) ℝ) : Matrix (Fin R.d) (Fin R.d) ℝ := M.submatrix h.eqv h.eqv

theorem Repr'.mat_one {hp : IsPartition n p} {R : IrrepObj} (h : Repr' hp R) : h.mat 1 = 1 := by
  unfold Repr'.mat; simp

theorem Repr'.mat_mul {hp : IsPartition n p} {R : IrrepObj} (h : Repr' hp R)
    (M N : Matrix (Wd n p) (Wd n p) ℝ) : h.mat (M * N) = h.mat M * h.mat N := by
  unfold Repr'.mat; rw [Matrix.submatrix_mul_equiv]

theorem Repr'.slotSpec {hp : IsPartition n p} {R : IrrepObj} (h : Repr' hp R) {tau : Nat}
    (h1 : 1 ≤ tau) (h2 : tau < n) : SlotSpec R tau (h.mat (yorM n p tau)) := by
  classical
  -- the row of a word
  have row_sum : ∀ (i : Fin R.d) (x : Fin R.d → ℝ),
      ∑ j, h.mat (yorM n p tau) i j * x j =
        S tau (lift (x ∘ h.eqv.symm)) (h.eqv i).cont := by
    intro i x
    rw [← yorM_mulVec hp h1 h2, Matrix.mulVec, dotProduct, ← Equiv.sum_comp h.eqv]
    refine Finset.sum_congr rfl fun j _ => ?_
    simp [Repr'.mat]
  have slot_eq : ∀ i : Fin R.d, R.slot tau i =
      yorSlot ((words n p).map toTab) (toTab (h.eqv i).1) tau :=
    fun i => h.slot i (by rw [← h.d_eq]; exact i.2) tau h1 h2
  constructor
  intro i
  obtain ⟨s, hs, hcase⟩ := yorSlot_eq hp (h.eqv i) h1 h2
  refine ⟨s, (slot_eq i).trans hs, ?_⟩
  rcases hcase with ⟨ht, h0, hc⟩ | ⟨v, hv, ht, hc1, hc2⟩
  · left
    refine ⟨ht, fun x => ?_⟩
    rw [row_sum]
    unfold S
    rw [h0, lift_cont hp, hc]
    simp
  · right
    have hsym : (h.eqv i).cont = sw tau v.cont := by rw [hv, sw_sw]
    obtain ⟨s2, hs2, hcase2⟩ := yorSlot_eq hp v h1 h2
    have hvi : h.eqv (h.eqv.symm v) = v := h.eqv.apply_symm_apply v
    have hrow1 : ∀ x : Fin R.d → ℝ, ∑ j, h.mat (yorM n p tau) i j * x j =
        s.c1 * x i + s.c2 * x (h.eqv.symm v) := by
      intro x
      rw [row_sum]
      unfold S
      rw [← hv, lift_cont hp, lift_cont hp, hc1, hc2]
      simp
    have hne : i ≠ h.eqv.symm v := by
      intro e
      rw [← e] at hvi
      rw [← hvi] at hv
      have := congrFun hv tau
      rw [sw_lo] at this
      exact (h.eqv i).cont_ne hp h1 h2 this.symm
    have hdist : v.cont (tau + 1) - v.cont tau =
        -((h.eqv i).cont (tau + 1) - (h.eqv i).cont tau) := by
      rw [hv, sw_lo, sw_hi]; ring
    refine ⟨h.eqv.symm v, s2, ?_, hne, hrow1, ?_, ?_, ?_⟩
    · rw [ht]
      unfold Repr'.eqv
      simp
    · rw [slot_eq, hvi]; exact hs2
    · rcases hcase2 with ⟨_, h0, _⟩ | ⟨w, hw, hwt, _⟩
      · exfalso
        rw [hdist, offc_neg] at h0
        -- distance of absolute value one cannot have a partner
        obtain ⟨T', d, e, hd, hd0, _, _, hyes, hno⟩ :=
          applyTransp_toTab ((h.eqv i).lat hp) h1 (by rw [(h.eqv i).length hp]; omega)
        have hd' : d = (h.eqv i).cont (tau + 1) - (h.eqv i).cont tau := hd
        have hu : d = 1 ∨ d = -1 := by
          have hq := offc_sq d hd0
          rw [← hd'] at h0
          rw [h0] at hq
          unfold diagc at hq
          have hd0' : (d : ℝ) ≠ 0 := by exact_mod_cast hd0
          field_simp at hq
          have h3 : (d : ℝ) ^ 2 = 1 := by linarith
          have h4 : d ^ 2 = 1 := by exact_mod_cast h3
          rcases Int.isUnit_iff.1 (IsUnit.of_mul_eq_one d (by rw [← h4]; ring)) with h5 | h5
          · exact Or.inl h5
          · exact Or.inr h5
        unfold yorSlot at hs
        rw [e] at hs
        simp only [if_pos hu] at hs
        cases hs
        simp only at ht
        omega
      · have : w = h.eqv i := Wd.cont_injective hp (by rw [hw, hsym])
        subst this
        rw [hwt]
        unfold Repr'.eqv
        simp
    · intro x
      rw [row_sum]
      unfold S
      rw [hvi, ← hsym, hdist, diagc_neg, offc_neg, lift_cont hp, lift_cont hp, hc1, hc2]
      simp

end

end Snob
