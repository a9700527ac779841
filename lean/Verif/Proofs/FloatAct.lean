import Verif.Proofs.FloatRnd
import Verif.Proofs.View
import Verif.Proofs.Character

/-! # The in-place action with rounding -/

namespace Snob

open IP Matrix

namespace Rounding

variable (F : Rounding)

/-! ### the tables -/

/-- the rounded slot -/
noncomputable def rslot (s : YORSlot) : YORSlot :=
  if s.c1 = 1 ∨ s.c1 = -1 then s else ⟨s.t, F.d s.c1, F.d √(F.d (1 - F.d (s.c1 * s.c1)))⟩

theorem one_div_ne {δ : ℤ} (h : ¬ (δ = 1 ∨ δ = -1)) (h0 : δ ≠ 0) : ¬ ((1 / (δ : ℝ)) = 1 ∨ (1 / (δ : ℝ)) = -1) := by
  have h0' : (δ : ℝ) ≠ 0 := by exact_mod_cast h0
  rintro (e | e)
  · rw [div_eq_iff h0'] at e
    exact h (Or.inl (by have : (δ : ℝ) = 1 := by linarith
                        exact_mod_cast this))
  · rw [div_eq_iff h0'] at e
    exact h (Or.inr (by have : (δ : ℝ) = -1 := by linarith
                        exact_mod_cast this))

theorem yorSlot_map (ts : List Tab) (T : Tab) (tau : Nat) : F.yorSlot ts T tau = (Snob.yorSlot ts T tau).map F.rslot := by
  unfold yorSlot Snob.yorSlot
  rcases Tab.applyTransp T tau (tau + 1) with _ | ⟨T', δ⟩
  · rfl
  · simp only
    by_cases h : δ = 1 ∨ δ = -1
    · rw [if_pos h, if_pos h, Option.map_some]
      unfold rslot
      rw [if_pos]
      rcases h with rfl | rfl <;> simp
    · rw [if_neg h, if_neg h]
      by_cases h0 : δ = 0
      · rw [if_pos h0, if_pos h0]; rfl
      · rw [if_neg h0, if_neg h0, Option.map_some]
        unfold rslot
        rw [if_neg (one_div_ne h h0)]
        simp only
        rw [div_mul_div_comm, one_mul]

theorem mapM_id_map {α : Type} (g : α → α) (l : List (Option α)) :
    (l.map (Option.map g)).mapM id = (l.mapM id).map (List.map g) := by
  induction l with
  | nil => rfl
  | cons x l ih =>
    simp only [List.map_cons, List.mapM_cons, ih, id]
    cases x <;> simp
    cases List.mapM id l <;> rfl

theorem computeYOR_map (n : Nat) (ts : List Tab) : F.computeYOR n ts = (Snob.computeYOR n ts).map (List.map F.rslot) := by
  unfold computeYOR Snob.computeYOR
  rw [← mapM_id_map]
  congr 1
  simp only [List.map_flatMap, List.map_map]
  congr 1
  funext T
  apply List.map_congr_left
  intro tau _
  exact F.yorSlot_map ts T tau

/-- the object with the rounded tables -/
noncomputable def round (R : IrrepObj) : IrrepObj := { R with yor := R.yor.map F.rslot }

theorem mkIrrep_map (p : List Nat) : F.mkIrrep p = (Snob.mkIrrep p).map F.round := by
  unfold mkIrrep Snob.mkIrrep
  cases tableaux p with
  | none => rfl
  | some ts =>
    simp only [Option.bind_eq_bind, Option.bind_some, F.computeYOR_map]
    cases Snob.computeYOR (getn p) ts <;> rfl

theorem round_slot (R : IrrepObj) (tau : Int) (i : Nat) : (F.round R).slot tau i = (R.slot tau i).map F.rslot := by
  unfold IrrepObj.slot round
  simp only
  split <;> simp

/-! ### row operations -/

section
variable {K : Type} [DecidableEq K]

theorem scaleRow_eq (i : Nat) (c1 : ℝ) (cols : List K) (h : cols.Nodup) (A : Nat → K → ℝ) (r : Nat) (k : K) :
    F.scaleRow i c1 cols A r k = if r = i ∧ k ∈ cols then F.s (F.d (c1 * A r k)) else A r k := by
  induction cols generalizing A with
  | nil => simp [scaleRow]
  | cons k0 ks ih =>
    have hk := List.nodup_cons.1 h
    rw [scaleRow, ih hk.2]
    unfold setv
    by_cases h1 : r = i
    · subst h1
      by_cases h2 : k = k0
      · subst h2; simp [hk.1]
      · simp [h2]
    · simp [h1]

theorem mixRows_eq (i i2 : Nat) (hi : i ≠ i2) (c1 c2 : ℝ) (cols : List K) (h : cols.Nodup)
    (A : Nat → K → ℝ) (r : Nat) (k : K) :
    F.mixRows i i2 c1 c2 cols A r k =
      if k ∈ cols then
        if r = i then F.s (F.d (F.d (c1 * A i k) + F.d (c2 * A i2 k)))
        else if r = i2 then F.s (F.d (F.d (-c1 * A i2 k) + F.d (c2 * A i k))) else A r k
      else A r k := by
  induction cols generalizing A with
  | nil => simp [mixRows]
  | cons k0 ks ih =>
    have hk := List.nodup_cons.1 h
    rw [mixRows, ih hk.2]
    unfold setv
    by_cases h2 : k = k0
    · subst h2
      simp only [hk.1, if_false, List.mem_cons, true_or, if_true, and_true]
      by_cases h1 : r = i2
      · subst h1
        simp [Ne.symm hi]
      · simp [h1]
    · simp [h2]

/-- rows paired by `q`, with the coefficients of the tables -/
structure FSlots (R : IrrepObj) (tau : Int) (q : Nat → Nat) (a b : Nat → ℝ) : Prop where
  inv : ∀ i, i < R.d → q i < R.d ∧ q (q i) = i
  neg : ∀ i, i < R.d → q i ≠ i → a (q i) = -a i ∧ b (q i) = b i
  slot : ∀ i, i < R.d → ∃ s, R.slot tau i = some s ∧ s.c1 = a i ∧ (q i = i → s.t = -1) ∧
    (q i ≠ i → s.t = (q i : Int) ∧ s.c2 = b i)

/-- the new value of a cell -/
noncomputable def cell (q : Nat → Nat) (a b : Nat → ℝ) (x : Nat → ℝ) (i : Nat) : ℝ :=
  if q i = i then F.s (F.d (a i * x i)) else F.s (F.d (F.d (a i * x i) + F.d (b i * x (q i))))

/-- one step on all columns -/
noncomputable def step (d : Nat) (q : Nat → Nat) (a b : Nat → ℝ) (cols : List K) (A : Nat → K → ℝ) : Nat → K → ℝ :=
  fun i k => if i < d ∧ k ∈ cols then F.cell q a b (fun j => A j k) i else A i k

theorem tauLoop_eq {R : IrrepObj} {tau : Int} {q : Nat → Nat} {a b : Nat → ℝ}
    (hS : FSlots R tau q a b) (cols : List K) (hc : cols.Nodup) (A : Nat → K → ℝ) (m : Nat) :
    ∀ (i : Nat) (A' : Nat → K → ℝ) (done : List Bool), i + m = R.d → done.length = R.d →
    (∀ r k, r < R.d → k ∈ cols → (r < i ∨ done[r]? = some true) → A' r k = F.step R.d q a b cols A r k) →
    (∀ r k, ¬ (r < R.d ∧ k ∈ cols ∧ (r < i ∨ done[r]? = some true)) → A' r k = A r k) →
    (∀ r : Nat, r < R.d → (done[r]? = some true ↔ q r < i ∧ q r < r)) →
    ∃ done', F.tauLoop R cols tau (List.range' i m) (A', done) = some (F.step R.d q a b cols A, done') := by
  induction m with
  | zero =>
    intro i A' done hi hl h1 h2 h3
    refine ⟨done, ?_⟩
    have : A' = F.step R.d q a b cols A := by
      funext r k
      by_cases h : r < R.d ∧ k ∈ cols
      · exact h1 r k h.1 h.2 (Or.inl (by omega))
      · rw [h2 r k fun h' => h ⟨h'.1, h'.2.1⟩]
        unfold step; rw [if_neg h]
    rw [this]; rfl
  | succ m ih =>
    intro i A' done hi hl h1 h2 h3
    have hid : i < R.d := by omega
    obtain ⟨hq1, hq2⟩ := hS.inv i hid
    rw [List.range'_succ, tauLoop]
    unfold tauBody
    simp only
    rcases hdi : done[i]? with _ | b'
    · rw [List.getElem?_eq_none_iff] at hdi; omega
    · cases b' with
      | true =>
        simp only [Option.bind_some]
        have hqi := (h3 i hid).1 hdi
        refine ih (i + 1) A' done (by omega) hl ?_ ?_ ?_
        · intro r k hr hk h
          refine h1 r k hr hk ?_
          rcases h with h | h
          · rcases Nat.lt_succ_iff_lt_or_eq.1 h with h | h
            · exact Or.inl h
            · exact Or.inr (h ▸ hdi)
          · exact Or.inr h
        · intro r k h
          exact h2 r k fun h' => h ⟨h'.1, h'.2.1, h'.2.2.imp (fun h => by omega) id⟩
        · intro r hr
          rw [h3 r hr]
          constructor
          · rintro ⟨e1, e2⟩; exact ⟨by omega, e2⟩
          · rintro ⟨e1, e2⟩
            refine ⟨?_, e2⟩
            rcases Nat.lt_succ_iff_lt_or_eq.1 e1 with h | h
            · exact h
            · exfalso
              -- then `r` is the partner of `i`, which is smaller
              have : r = q i := by rw [← h, (hS.inv r hr).2]
              omega
      | false =>
        have hndi : ¬ (q i < i ∧ q i < i) := fun h => by
          have := (h3 i hid).2 h
          rw [hdi] at this; cases this
        obtain ⟨s, hs, hsc, hs1, hs2⟩ := hS.slot i hid
        rw [hs]
        simp only
        -- row i has not been touched
        have hA'i : ∀ k, A' i k = A i k := fun k => h2 i k fun h' => by
          rcases h'.2.2 with h | h
          · omega
          · rw [hdi] at h; cases h
        by_cases hqi : q i = i
        · rw [if_pos (hs1 hqi), Option.bind_some]
          refine ih (i + 1) _ done (by omega) hl ?_ ?_ ?_
          · intro r k hr hk h
            rw [F.scaleRow_eq _ _ _ hc]
            by_cases e : r = i
            · subst e
              rw [if_pos ⟨rfl, hk⟩, hA'i, hsc]
              unfold step cell
              rw [if_pos ⟨hr, hk⟩, if_pos hqi]
            · rw [if_neg fun h => e h.1]
              exact h1 r k hr hk (h.imp (fun h => by omega) id)
          · intro r k h
            rw [F.scaleRow_eq _ _ _ hc]
            by_cases e : r = i ∧ k ∈ cols
            · exact absurd ⟨by omega, e.2, Or.inl (by omega)⟩ h
            · rw [if_neg e]
              exact h2 r k fun h' => h ⟨h'.1, h'.2.1, h'.2.2.imp (fun h => by omega) id⟩
          · intro r hr
            rw [h3 r hr]
            constructor
            · rintro ⟨e1, e2⟩; exact ⟨by omega, e2⟩
            · rintro ⟨e1, e2⟩
              refine ⟨?_, e2⟩
              rcases Nat.lt_succ_iff_lt_or_eq.1 e1 with h | h
              · exact h
              · exfalso
                have : r = q i := by rw [← h, (hS.inv r hr).2]
                rw [hqi] at this
                omega
        · obtain ⟨et, es2⟩ := hs2 hqi
          have hgt : i < q i := by omega
          have hi2done : done[q i]? ≠ some true := fun hd => by
            have := (h3 _ hq1).1 hd
            rw [hq2] at this; omega
          have hA'i2 : ∀ k, A' (q i) k = A (q i) k := fun k => h2 _ k fun h' => by
            rcases h'.2.2 with h | h
            · omega
            · exact hi2done h
          have etn : s.t.toNat = q i := by omega
          rw [if_neg (by omega), if_pos ⟨by omega, by omega⟩, Option.bind_some, etn]
          have hset : ∀ r : Nat, (done.set (q i) true)[r]? = some true ↔
              (r = q i ∨ done[r]? = some true) := by
            intro r
            rw [List.getElem?_set]
            by_cases e : q i = r
            · rw [if_pos e, if_pos (by omega)]; simp [e]
            · rw [if_neg e]
              constructor
              · exact Or.inr
              · rintro (h | h)
                · exact absurd h.symm e
                · exact h
          obtain ⟨na, nb⟩ := hS.neg i hid hqi
          refine ih (i + 1) _ _ (by omega) (by simpa using hl) ?_ ?_ ?_
          · intro r k hr hk h
            rw [F.mixRows_eq _ _ (Ne.symm hqi) _ _ _ hc, if_pos hk]
            by_cases e : r = i
            · subst e
              rw [if_pos rfl, hA'i, hA'i2, hsc, es2]
              unfold step cell
              rw [if_pos ⟨hr, hk⟩, if_neg hqi]
            · rw [if_neg e]
              by_cases e2 : r = q i
              · subst e2
                rw [if_pos rfl, hA'i, hA'i2, hsc, es2]
                unfold step cell
                rw [if_pos ⟨hr, hk⟩, if_neg (by rw [hq2]; exact Ne.symm hqi), hq2, na, nb]
              · rw [if_neg e2]
                refine h1 r k hr hk ?_
                rw [hset] at h
                rcases h with h | h | h
                · left; omega
                · exact absurd h e2
                · right; exact h
          · intro r k h
            rw [hset] at h
            rw [F.mixRows_eq _ _ (Ne.symm hqi) _ _ _ hc]
            by_cases hk : k ∈ cols
            · rw [if_pos hk]
              have e : r ≠ i := fun e => h ⟨by omega, hk, Or.inl (by omega)⟩
              have e2 : r ≠ q i := fun e => h ⟨by omega, hk, Or.inr (Or.inl e)⟩
              rw [if_neg e, if_neg e2]
              exact h2 r k fun h' => h ⟨h'.1, h'.2.1, h'.2.2.imp (fun h => by omega) Or.inr⟩
            · rw [if_neg hk]
              exact h2 r k fun h' => hk h'.2.1
          · intro r hr
            rw [hset, h3 r hr]
            constructor
            · rintro (rfl | ⟨e1, e2⟩)
              · rw [hq2]; omega
              · exact ⟨by omega, e2⟩
            · rintro ⟨e1, e2⟩
              rcases Nat.lt_succ_iff_lt_or_eq.1 e1 with h | h
              · exact Or.inr ⟨h, e2⟩
              · left; rw [← h, (hS.inv r hr).2]

theorem applyTau_eq {R : IrrepObj} {tau : Int} {q : Nat → Nat} {a b : Nat → ℝ}
    (hS : FSlots R tau q a b) (cols : List K) (hc : cols.Nodup) (A : Nat → K → ℝ) :
    F.applyTau R cols tau A = some (F.step R.d q a b cols A) := by
  have hrep : ∀ r : Nat, (List.replicate R.d false)[r]? ≠ some true := by
    intro r h
    rw [List.getElem?_replicate] at h
    split at h <;> cases h
  obtain ⟨done', h⟩ := F.tauLoop_eq hS cols hc A R.d 0 A (List.replicate R.d false) (by omega) (by simp)
    (fun r k _ _ h => by
      rcases h with h | h
      · omega
      · exact absurd h (hrep r))
    (fun r k _ => rfl) (fun r hr => ⟨fun h => absurd h (hrep r), fun h => by omega⟩)
  unfold applyTau
  rw [List.range_eq_range', h]
  rfl

end

end Rounding

end Snob
