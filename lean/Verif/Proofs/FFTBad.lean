import Verif.Proofs.FFTView
import Verif.Props.View

/-! # The transforms with the action on tensor views: where they fail -/

namespace Snob

open IP Snob.Perm
open scoped Nat

theorem mapM_none {α β : Type} {f : α → Option β} {l : List α} {x : α} (hx : x ∈ l) (h : f x = none) : l.mapM f = none := by
  cases e : l.mapM f with
  | none => rfl
  | some ys =>
    obtain ⟨i, hi⟩ := List.mem_iff_getElem?.1 hx
    obtain ⟨y, -, hy⟩ := ((mapM_some_iff f l ys).1 e).2 i x hi
    rw [h] at hy
    cases hy

theorem mapM_mem {α β : Type} {f : α → Option β} {l : List α} {ys : List β} (h : l.mapM f = some ys) {y : β} (hy : y ∈ ys) :
    ∃ x ∈ l, f x = some y := by
  obtain ⟨h1, h2⟩ := (mapM_some_iff f l ys).1 h
  obtain ⟨i, hi⟩ := List.mem_iff_getElem?.1 hy
  have hl : i < l.length := by rw [← h1]; exact (List.getElem?_eq_some_iff.1 hi).1
  obtain ⟨y', e1, e2⟩ := h2 i _ (List.getElem?_eq_getElem hl)
  obtain rfl : y' = y := Option.some.inj (e1.symm.trans hi)
  exact ⟨_, List.getElem_mem hl, e2⟩

/-! ## Loops that end -/

section
variable {S : Type}

theorem iterUp_pres (P : Int → S → Prop) {body : Int → S → Option S} (k : Nat) :
    ∀ (i : Int) (s s' : S), iterUp body k i s = some s' → P i s →
    (∀ j s s', i ≤ j → j < i + k → P j s → body j s = some s' → P (j + 1) s') → P (i + k) s' := by
  induction k with
  | zero =>
    intro i s s' h hP _
    obtain rfl := Option.some.inj h
    simpa using hP
  | succ k ih =>
    intro i s s' h hP hb
    rw [iterUp, Option.bind_eq_some_iff] at h
    obtain ⟨s1, h1, h2⟩ := h
    have := ih (i + 1) s1 s' h2 (hb i s s1 (le_refl _) (by push_cast; omega) hP h1)
      (fun j s s' a b => hb j s s' (by omega) (by push_cast; omega))
    have e : i + ((k + 1 : Nat) : Int) = i + 1 + k := by push_cast; ring
    rw [e]; exact this

theorem forUp_pres (P : Int → S → Prop) {lo hi : Int} {s s' : S} {body : Int → S → Option S} (hle : lo ≤ hi)
    (h : forUp lo hi s body = some s') (h0 : P lo s)
    (hb : ∀ j s s', lo ≤ j → j < hi → P j s → body j s = some s' → P (j + 1) s') : P hi s' := by
  have := iterUp_pres P _ lo s s' h h0 (fun j s s' a b => hb j s s' a (by omega))
  have e : lo + ((hi - lo).toNat : Int) = hi := by omega
  rw [e] at this; exact this

theorem iterUp_keep (P : S → Prop) {body : Int → S → Option S} (hb : ∀ j s s', P s → body j s = some s' → P s') (k : Nat) :
    ∀ (i : Int) (s s' : S), iterUp body k i s = some s' → P s → P s' := by
  induction k with
  | zero => intro i s s' h hP; obtain rfl := Option.some.inj h; exact hP
  | succ k ih =>
    intro i s s' h hP
    rw [iterUp, Option.bind_eq_some_iff] at h
    obtain ⟨s1, h1, h2⟩ := h
    exact ih _ _ _ h2 (hb _ _ _ hP h1)

theorem iterDown_keep (P : S → Prop) {body : Int → S → Option S} (hb : ∀ j s s', P s → body j s = some s' → P s') (k : Nat) :
    ∀ (i : Int) (s s' : S), iterDown body k i s = some s' → P s → P s' := by
  induction k with
  | zero => intro i s s' h hP; obtain rfl := Option.some.inj h; exact hP
  | succ k ih =>
    intro i s s' h hP
    rw [iterDown, Option.bind_eq_some_iff] at h
    obtain ⟨s1, h1, h2⟩ := h
    exact ih _ _ _ h2 (hb _ _ _ hP h1)

theorem iterDown_last {body : Int → S → Option S} (k : Nat) :
    ∀ (i : Int) (s s' : S), iterDown body (k + 1) i s = some s' → ∃ s0, body (i - k) s0 = some s' := by
  induction k with
  | zero =>
    intro i s s' h
    rw [iterDown, Option.bind_eq_some_iff] at h
    obtain ⟨s1, h1, h2⟩ := h
    obtain rfl := Option.some.inj h2
    exact ⟨s, by simpa using h1⟩
  | succ k ih =>
    intro i s s' h
    rw [iterDown, Option.bind_eq_some_iff] at h
    obtain ⟨s1, h1, h2⟩ := h
    obtain ⟨s0, h3⟩ := ih _ _ _ h2
    refine ⟨s0, ?_⟩
    have e : i - ((k + 1 : Nat) : Int) = i - 1 - k := by push_cast; ring
    rw [e]; exact h3

end

theorem cycleWith_keep {ap : ViewAct} {R : IrrepObj} {cols : List (Nat × Nat)} {a b : Int} {A B : Nat → Nat × Nat → ℝ}
    (P : (Nat → Nat × Nat → ℝ) → Prop) (hap : ∀ tau A B, P A → ap R cols tau A = some B → P B)
    (h : cycleWith ap R cols a b A = some B) (hA : P A) : P B := by
  unfold cycleWith at h
  split at h
  · exact iterDown_keep P (fun j s s' => hap j s s') _ _ _ _ h hA
  · exact iterUp_keep P (fun j s s' => hap j s s') _ _ _ _ h hA

/-! ## Columns under the action on tensor views -/

section
variable {K : Type} [DecidableEq K]

theorem setv_other (A : Nat → K → ℝ) (i : Nat) {k0 k : K} (x : ℝ) (r : Nat) (h : k ≠ k0) : setv A i k0 x r k = A r k := by
  unfold setv; simp [h]

theorem scaleRow_out (i : Nat) (c : ℝ) (cols : List K) (A : Nat → K → ℝ) {k : K} (hk : k ∉ cols) (r : Nat) :
    IrrepObj.scaleRow i c cols A r k = A r k := by
  induction cols generalizing A with
  | nil => rfl
  | cons k0 ks ih =>
    rw [List.mem_cons, not_or] at hk
    rw [IrrepObj.scaleRow, ih _ hk.2, setv_other _ _ _ _ hk.1]

theorem mixRows_out (i i2 : Nat) (c1 c2 : ℝ) (cols : List K) (A : Nat → K → ℝ) {k : K} (hk : k ∉ cols) (r : Nat) :
    IrrepObj.mixRows i i2 c1 c2 cols A r k = A r k := by
  induction cols generalizing A with
  | nil => rfl
  | cons k0 ks ih =>
    rw [List.mem_cons, not_or] at hk
    rw [IrrepObj.mixRows]
    rw [ih _ hk.2, setv_other _ _ _ _ hk.1, setv_other _ _ _ _ hk.1]

theorem setv_zero (A : Nat → K → ℝ) (i : Nat) {k0 k : K} {x : ℝ} (hA : ∀ r, A r k = 0) (h : k = k0 → x = 0) (r : Nat) :
    setv A i k0 x r k = 0 := by
  unfold setv
  split
  · rename_i e
    exact h (by simpa using e.2)
  · exact hA r

theorem scaleRow_zero (i : Nat) (c : ℝ) (cols : List K) (A : Nat → K → ℝ) {k : K} (hA : ∀ r, A r k = 0) (r : Nat) :
    IrrepObj.scaleRow i c cols A r k = 0 := by
  induction cols generalizing A with
  | nil => exact hA r
  | cons k0 ks ih =>
    rw [IrrepObj.scaleRow]
    exact ih _ (setv_zero A i hA (fun e => by rw [← e, hA]; ring))

theorem mixRows_zero (i i2 : Nat) (c1 c2 : ℝ) (cols : List K) (A : Nat → K → ℝ) {k : K} (hA : ∀ r, A r k = 0) (r : Nat) :
    IrrepObj.mixRows i i2 c1 c2 cols A r k = 0 := by
  induction cols generalizing A with
  | nil => exact hA r
  | cons k0 ks ih =>
    rw [IrrepObj.mixRows]
    have h1 : ∀ r, setv A i k0 (c1 * A i k0 + c2 * A i2 k0) r k = 0 :=
      setv_zero A i hA (fun e => by rw [← e, hA, hA]; ring)
    refine ih _ (setv_zero _ i2 h1 (fun e => ?_))
    subst e
    rw [h1, hA]; ring

theorem applyTauView_keep {R : IrrepObj} {cols : List K} {tau : Int} {A B : Nat → K → ℝ} (P : (Nat → K → ℝ) → Prop)
    (h1 : ∀ A i c, P A → P (IrrepObj.scaleRow i c cols A)) (h2 : ∀ A i j c d, P A → P (IrrepObj.mixRows i j c d cols A))
    (h : R.applyTauView cols tau A = some B) (hA : P A) : P B := by
  unfold IrrepObj.applyTauView at h
  split at h
  · cases e1 : computeYORtensors R.n R.tableaux with
    | none => rw [e1] at h; cases h
    | some tabs =>
      rw [e1] at h
      simp only at h
      cases e2 : tabs[(tau - 1).toNat]? with
      | none => rw [e2] at h; cases h
      | some st =>
        rw [e2] at h
        simp only at h
        obtain rfl := Option.some.inj h
        have hs : ∀ (l : List (Nat × ℝ)) A, P A → P (l.foldl (fun A (x : Nat × ℝ) => IrrepObj.scaleRow x.1 x.2 cols A) A) := by
          intro l
          induction l with
          | nil => intro A hA; exact hA
          | cons x l ih => intro A hA; exact ih _ (h1 _ _ _ hA)
        have hg : ∀ (l : List GSlot) A, P A → P (l.foldl (fun A (g : GSlot) => IrrepObj.mixRows g.i g.j g.c1 g.c2 cols A) A) := by
          intro l
          induction l with
          | nil => intro A hA; exact hA
          | cons x l ih => intro A hA; exact ih _ (h2 _ _ _ _ _ hA)
        exact hg _ _ (hs _ _ hA)
  · cases h

theorem applyTauView_zero {R : IrrepObj} {cols : List K} {tau : Int} {A B : Nat → K → ℝ} {k : K}
    (h : R.applyTauView cols tau A = some B) (hA : ∀ r, A r k = 0) : ∀ r, B r k = 0 :=
  applyTauView_keep (fun A => ∀ r, A r k = 0) (fun A i c hA => scaleRow_zero i c cols A hA)
    (fun A i j c d hA => mixRows_zero i j c d cols A hA) h hA

theorem applyTauView_out {R : IrrepObj} {cols : List K} {tau : Int} {A B : Nat → K → ℝ} {k : K} (hk : k ∉ cols) {r : Nat} {x : ℝ}
    (h : R.applyTauView cols tau A = some B) (hA : A r k = x) : B r k = x :=
  applyTauView_keep (fun A => A r k = x) (fun A i c hA => (scaleRow_out i c cols A hk r).trans hA)
    (fun A i j c d hA => (mixRows_out i j c d cols A hk r).trans hA) h hA

end

/-! ## Zero slices stay zero -/

theorem addToBlock_some {P M Q : MPart} {i j : Nat} (h : P.addToBlock i j M = some Q) :
    Q.irrep = P.irrep ∧ Q.m = P.m ∧ Q.N = P.N ∧
      ∀ s k, (∀ r, P.data r (s, k) = 0) → (∀ r k', M.data r (s, k') = 0) → ∀ r, Q.data r (s, k) = 0 := by
  unfold MPart.addToBlock at h
  split at h
  · obtain rfl := Option.some.inj h
    refine ⟨rfl, rfl, rfl, fun s k h1 h2 r => ?_⟩
    simp only
    split
    · rw [h1, h2]; ring
    · exact h1 r
  · cases h

theorem blockLoop_some {v : List MPart} (bs : List BlockT) {P Q : MPart} (h : blockLoop v bs P = some Q) :
    Q.irrep = P.irrep ∧ Q.m = P.m ∧ Q.N = P.N ∧
      ∀ s k, (∀ r, P.data r (s, k) = 0) → (∀ M ∈ v, ∀ r k', M.data r (s, k') = 0) → ∀ r, Q.data r (s, k) = 0 := by
  induction bs generalizing P with
  | nil => obtain rfl := Option.some.inj h; exact ⟨rfl, rfl, rfl, fun s k h1 _ => h1⟩
  | cons b bs ih =>
    unfold blockLoop at h
    simp only [Option.bind_eq_bind, Option.bind_eq_some_iff] at h
    obtain ⟨M, hM, P1, hP1, h⟩ := h
    obtain ⟨a1, a2, a3, a4⟩ := addToBlock_some hP1
    obtain ⟨b1, b2, b3, b4⟩ := ih h
    exact ⟨b1.trans a1, b2.trans a2, b3.trans a3, fun s k h1 h2 =>
      b4 s k (a4 s k h1 (h2 M (List.mem_of_getElem? hM))) h2⟩

theorem partUp_some {p : PartT} {v : List MPart} {Q : MPart} (h : p.uptransform v = some Q) :
    Q.irrep = p.irrep ∧ Q.m = p.m ∧ vecN v = some Q.N ∧
      ∀ s k, (∀ M ∈ v, ∀ r k', M.data r (s, k') = 0) → ∀ r, Q.data r (s, k) = 0 := by
  unfold PartT.uptransform at h
  simp only [Option.bind_eq_bind, Option.bind_eq_some_iff] at h
  obtain ⟨N, hN, h⟩ := h
  obtain ⟨a1, a2, a3, a4⟩ := blockLoop_some _ h
  exact ⟨a1, a2, by rw [hN, a3]; rfl, fun s k h2 => a4 s k (fun _ => rfl) h2⟩

theorem twistUp_some {ap : ViewAct} {n newN : Nat} {q Q : MPart} (h : twistUp ap n newN q = some Q) :
    Q.irrep = q.irrep ∧ Q.m = q.m ∧ Q.N = q.N ∧
      forUp 0 n q.data (fun j A => cycleWith ap q.irrep (sliceCols newN n q.m j.toNat) ((n : Int) - j) n A) = some Q.data := by
  unfold twistUp at h
  simp only [Option.bind_eq_bind, Option.bind_eq_some_iff] at h
  obtain ⟨A, hA, h⟩ := h
  obtain rfl := Option.some.inj h
  exact ⟨rfl, rfl, rfl, hA⟩

theorem twistUp_zero {n newN : Nat} {q Q : MPart} (h : twistUp viewAct n newN q = some Q) {x : Nat × Nat}
    (hq : ∀ r, q.data r x = 0) : ∀ r, Q.data r x = 0 := by
  obtain ⟨-, -, -, h⟩ := twistUp_some h
  exact iterUp_keep (fun A => ∀ r, A r x = 0)
    (fun j A B hA h => cycleWith_keep (fun A => ∀ r, A r x = 0) (fun _ A B hA h => applyTauView_zero h hA) h hA) _ _ _ _ h hq

theorem reduce_some {P Q : MPart} (h : P.reduce = some Q) : Q.irrep = P.irrep ∧ Q.m = P.m ∧
    Q.N = P.N / IP.getn P.irrep.lambda ∧
    ∀ i k, Q.data i k = ((List.range (IP.getn P.irrep.lambda)).map fun t => P.data i (k.1 * IP.getn P.irrep.lambda + t, k.2)).sum := by
  unfold MPart.reduce at h
  simp only at h
  split at h
  · cases h
  · obtain rfl := Option.some.inj h
    exact ⟨rfl, rfl, rfl, fun _ _ => rfl⟩

/-- what is known of one part of an `uptransform` that ends -/
theorem levelUp_some {ap : ViewAct} {L : LevelT} {v w : List MPart} (h : L.uptransform ap v = some w) {P : MPart} (hP : P ∈ w) :
    ∃ p ∈ L.parts, ∃ N q Q, vecN v = some N ∧ p.uptransform v = some q ∧ twistUp ap L.n (N / L.n) q = some Q ∧ Q.reduce = some P := by
  unfold LevelT.uptransform at h
  simp only [Option.bind_eq_bind, Option.bind_eq_some_iff] at h
  obtain ⟨N, hN, w', hw', h⟩ := h
  obtain ⟨Q, hQ, hQP⟩ := mapM_mem h hP
  obtain ⟨p, hp, hpq⟩ := mapM_mem hw' hQ
  rw [Option.bind_eq_some_iff] at hpq
  obtain ⟨q, h1, h2⟩ := hpq
  exact ⟨p, hp, N, q, Q, hN, h1, h2, hQP⟩

theorem sum_map_zero (l : List Nat) (g : Nat → ℝ) (h : ∀ t ∈ l, g t = 0) : (l.map g).sum = 0 := by
  induction l with
  | nil => rfl
  | cons a l ih => simp [h a (by simp), ih (fun t ht => h t (by simp [ht]))]

theorem LevelOk.getn {m l : Nat} {L : LevelT} (h : LevelOk m l L) (hl : 0 < l) {p : PartT} (hp : p ∈ L.parts) :
    IP.getn p.irrep.lambda = l := by
  have : p.irrep.lambda ∈ PL m l := by rw [← h.keys]; exact List.mem_map_of_mem hp
  rw [getn_eq, ((mem_PL hl _).1 this).1.sum]

theorem levelUp_zero {m l : Nat} {L : LevelT} (hL : LevelOk m (l + 1) L) {v w : List MPart} (h : L.uptransform viewAct v = some w)
    {c : Nat} (hv : ∀ M ∈ v, ∀ t < l + 1, ∀ r k, M.data r (c * (l + 1) + t, k) = 0) :
    ∀ P ∈ w, ∀ r k, P.data r (c, k) = 0 := by
  intro P hP r k
  obtain ⟨p, hp, N, q, Q, -, h1, h2, h3⟩ := levelUp_some h hP
  obtain ⟨a1, -, -, a4⟩ := partUp_some h1
  obtain ⟨b1, -⟩ := twistUp_some h2
  obtain ⟨-, -, -, c4⟩ := reduce_some h3
  rw [b1, a1, hL.getn (by omega) hp] at c4
  rw [c4]
  refine sum_map_zero _ _ fun t ht => ?_
  exact twistUp_zero h2 (a4 _ _ (fun M hM => hv M hM t (List.mem_range.1 ht))) r

/-- the last level: the slice of an unpacked transposition loses its first row -/
theorem levelUp_lost {m l : Nat} {L : LevelT} (hL : LevelOk m (l + 1) L) {v w : List MPart} (h : L.uptransform viewAct v = some w)
    {p : List Nat} (hp : IsPartition (l + 1) p) {tau : Nat} (ht1 : 1 ≤ tau) (ht2 : tau < l + 1)
    (hun : ∀ R, Repr' hp R → ¬ Packed R.d (R.partner tau))
    (hv : ∀ M ∈ v, ∀ t < l + 1, t ≠ l + 1 - tau → ∀ r k, M.data r (t, k) = 0) :
    ∀ P ∈ w, P.irrep.lambda = p → P.N = 1 → ∀ k < P.m, P.data 0 (0, k) = 0 := by
  intro P hP hlam hN1 k hk
  obtain ⟨pp, hpp, N, q, Q, hN, h1, h2, h3⟩ := levelUp_some h hP
  obtain ⟨a1, a2, a3, a4⟩ := partUp_some h1
  obtain ⟨b1, b2, b3, b4⟩ := twistUp_some h2
  obtain ⟨c1, c2, c3, c4⟩ := reduce_some h3
  rw [b1, a1, hL.getn (by omega) hpp] at c4 c3
  obtain rfl : N = q.N := Option.some.inj (hN.symm.trans a3)
  rw [b3] at c3
  have hnew : q.N / (l + 1) = 1 := by rw [← c3, hN1]
  rw [hL.n_eq, hnew] at b4
  rw [hL.n_eq] at h2
  rw [c4]
  refine sum_map_zero _ _ fun t ht => ?_
  have ht := List.mem_range.1 ht
  simp only [Nat.zero_mul, Nat.zero_add]
  by_cases hteq : t = l + 1 - tau
  · have hR : mkIrrep q.irrep.lambda = some q.irrep := by
      obtain ⟨i, hi⟩ := List.mem_iff_getElem?.1 hpp
      rw [a1]
      exact (hL.part i pp hi).2.1
    obtain ⟨R, hmk, -, hrep⟩ := exists_repr (by omega) hp
    have hlq : q.irrep.lambda = p := by rw [← hlam, c1, b1]
    obtain rfl : R = q.irrep := by rw [hlq, hmk] at hR; exact Option.some.inj hR
    have hkm : k < q.m := by rw [← b2, ← c2]; exact hk
    have := forUp_pres (fun j (A : Nat → Nat × Nat → ℝ) => (t : Int) < j → A 0 (t, k) = 0) (by omega) b4
      (fun hh => by omega) (by
        intro j A B hj1 hj2 hA hB hlt
        by_cases e : j = (t : Int)
        · subst e
          have hlt' : ((l + 1 : Nat) : Int) - (t : Int) < ((l + 1 : Nat) : Int) := by omega
          unfold cycleWith at hB
          rw [if_pos hlt'] at hB
          unfold forDown at hB
          obtain ⟨k', hk'⟩ : ∃ k', (((l + 1 : Nat) : Int) - 1 - (((l + 1 : Nat) : Int) - (t : Int)) + 1).toNat = k' + 1 := ⟨t - 1, by omega⟩
          rw [hk'] at hB
          obtain ⟨A0, hA0⟩ := iterDown_last _ _ _ _ hB
          have e2 : ((l + 1 : Nat) : Int) - 1 - (k' : Int) = (tau : Int) := by omega
          rw [e2] at hA0
          refine hrep.view_gap ht1 ht2 (hun _ hrep) _ (sliceCols_nodup (by omega)) A0 B hA0 (t, k) ?_
          rw [Int.toNat_natCast, mem_sliceCols ht]
          exact ⟨by omega, Nat.mod_eq_of_lt ht, hkm⟩
        · have hA' := hA (by omega)
          refine cycleWith_keep (fun A => A 0 (t, k) = 0) (fun _ A B hA h => applyTauView_out ?_ h hA) hB hA'
          rw [mem_sliceCols (by omega)]
          rintro ⟨-, h5, -⟩
          rw [Nat.mod_eq_of_lt ht] at h5
          omega)
    exact this (by omega)
  · exact twistUp_zero h2 (a4 _ _ (fun M hM => hv M hM t ht hteq)) 0

theorem upLoop_lost {m n : Nat} {p : List Nat} (hp : IsPartition n p) {tau : Nat} (ht1 : 1 ≤ tau) (ht2 : tau < n)
    (hun : ∀ R, Repr' hp R → ¬ Packed R.d (R.partner tau)) (Ls : List LevelT) {l : Nat} {L : LevelT} (hl : m ≤ l)
    (hn : n = l + Ls.length) (hne : Ls ≠ []) (hC : ChainOk m l (L :: Ls)) {v v' : List MPart} (h : upLoop viewAct Ls v = some v')
    (hv : ∀ M ∈ v, ∀ s, s / ((n - 1)! / l !) ≠ n - tau → ∀ r k, M.data r (s, k) = 0) :
    ∀ P ∈ v', P.irrep.lambda = p → P.N = 1 → ∀ k < P.m, P.data 0 (0, k) = 0 := by
  induction Ls generalizing l L v with
  | nil => exact absurd rfl hne
  | cons L' Ls ih =>
    rw [upLoop, Option.bind_eq_some_iff] at h
    obtain ⟨v1, h1, h2⟩ := h
    rcases hC with _ | ⟨hL, hB, hC⟩
    have hL' : LevelOk m (l + 1) L' := by
      cases hC <;> assumption
    simp only [List.length_cons] at hn
    rcases Ls with _ | ⟨L'', Ls⟩
    · obtain rfl := Option.some.inj h2
      obtain rfl : n = l + 1 := by simpa using hn
      refine levelUp_lost hL' h1 hp ht1 ht2 hun fun M hM t ht hne r k => hv M hM t ?_ r k
      rw [Nat.add_sub_cancel, Nat.div_self (Nat.factorial_pos l), Nat.div_one]
      exact hne
    · simp only [List.length_cons] at hn
      refine ih (l := l + 1) (L := L') (by omega) (by simp only [List.length_cons]; omega) (by simp) hC h2 ?_
      intro P hP s hs r k
      refine levelUp_zero hL' h1 (c := s) (fun M hM t ht r k => hv M hM _ ?_ r k) P hP r k
      have hq : (n - 1)! / l ! = (l + 1) * ((n - 1)! / (l + 1)!) := by
        obtain ⟨x, hx⟩ := Nat.factorial_dvd_factorial (show l + 1 ≤ n - 1 by omega)
        rw [hx, Nat.mul_div_cancel_left _ (Nat.factorial_pos _), Nat.factorial_succ, Nat.mul_assoc, Nat.mul_comm (l !) x, ← Nat.mul_assoc,
          Nat.mul_div_cancel _ (Nat.factorial_pos _)]
      rw [hq, ← Nat.div_div_eq_div_mul]
      have : (s * (l + 1) + t) / (l + 1) = s := by
        rw [Nat.add_comm, Nat.add_mul_div_right _ _ (by omega), Nat.div_eq_of_lt ht]; omega
      rw [this]; exact hs

/-- If the pairs of `tau` are not packed for the shape `p`, then for a function that is zero outside the block with
number `n-tau` the first row of the part at `p` is zero. -/
theorem row_lost {m n : Nat} (hm : 0 < m) (hn : m < n) {p : List Nat} (hp : IsPartition n p) {tau : Nat} (ht1 : 1 ≤ tau) (ht2 : tau < n)
    (hun : ∀ R, Repr' hp R → ¬ Packed R.d (R.partner tau)) {Ls : List LevelT} (hLs : fftLevels n m = some Ls) (N : Nat) {f : Nat → ℝ}
    (hf : ∀ e, e / ((n - 1)! / m !) ≠ n - tau → f e = 0) {ws : List VPart} (h : fftWith viewAct Ls N f = some ws) :
    ∀ W ∈ ws, W.irrep.lambda = p → ∀ k < W.m, W.data 0 k = 0 := by
  obtain ⟨Ls', e1, e2, e3⟩ := fftLevels_ok hm (show m ≤ n by omega)
  obtain rfl : Ls' = Ls := Option.some.inj (e1.symm.trans hLs)
  unfold fftWith at h
  simp only [Option.bind_eq_bind, Option.bind_eq_some_iff] at h
  obtain ⟨P, hP, v, hv, hw⟩ := h
  intro W hW hlam k hk
  obtain ⟨Q, hQ, hQW⟩ := mapM_mem hw hW
  unfold MPart.toPart at hQW
  split at hQW
  · rename_i hQ1
    obtain rfl := Option.some.inj hQW
    obtain ⟨L, Ls, rfl⟩ : ∃ L Ls, Ls' = L :: Ls := by
      rcases Ls' with _ | ⟨L, Ls⟩
      · simp at e2
      · exact ⟨L, Ls, rfl⟩
    simp only [List.length_cons] at e2
    refine upLoop_lost hp ht1 ht2 hun Ls (Nat.le_refl m) (by omega) (by rintro rfl; simp at e2; omega) e3 hv ?_ Q hQ hlam hQ1 k hk
    intro M hM s hs r k
    rw [List.mem_singleton] at hM
    subst hM
    unfold MPart.ofFunction at hP
    rw [Option.map_eq_some_iff] at hP
    obtain ⟨R, -, rfl⟩ := hP
    exact hf s hs
  · cases hQW

/-! ## The shape `[3,2,1]` -/

/-- the action is undefined for the shape `[3,2,1]` -/
def Fails321 (ap : ViewAct) : Prop := ∀ R, mkIrrep [3, 2, 1] = some R → ∀ cols tau A, ap R cols tau A = none

theorem viewAct_fails : Fails321 viewAct := by
  intro R hR cols tau A
  obtain ⟨R', h1, h2⟩ := Props.C32_view_action_out_of_bounds
  obtain rfl : R' = R := Option.some.inj (h1.symm.trans hR)
  exact h2 cols A tau

section
variable {ap : ViewAct} (hbad : Fails321 ap)
include hbad

theorem twistUp_321 {R : IrrepObj} (hR : mkIrrep [3, 2, 1] = some R) {newN : Nat} {q : MPart} (hq : q.irrep = R) :
    twistUp ap 6 newN q = none := by
  cases h : twistUp ap 6 newN q with
  | none => rfl
  | some Q =>
    obtain ⟨-, -, -, h4⟩ := twistUp_some h
    unfold forUp at h4
    have e : (((6 : Nat) : Int) - 0).toNat = 4 + 1 + 1 := rfl
    rw [e, iterUp, Option.bind_eq_some_iff] at h4
    obtain ⟨A, -, h5⟩ := h4
    rw [iterUp, Option.bind_eq_some_iff] at h5
    obtain ⟨B, h6, -⟩ := h5
    exfalso
    simp only [cycleWith] at h6
    have e2 : (((6 : Nat) : Int) - 1 - (((6 : Nat) : Int) - (0 + 1)) + 1).toNat = 0 + 1 := rfl
    rw [if_pos (by norm_num)] at h6
    unfold forDown at h6
    rw [e2] at h6
    obtain ⟨A0, hA0⟩ := iterDown_last _ _ _ _ h6
    rw [hq, hbad R hR] at hA0
    cases hA0

theorem levelUp_321 {m : Nat} (hm : m ≤ 3) {L : LevelT} (hL : LevelOk m 6 L) (v : List MPart) : L.uptransform ap v = none := by
  have h1 : [3, 2, 1] ∈ PL m 6 := (mem_PL (by omega) _).2 ⟨Props.isPartition_321, by simpa [row] using hm⟩
  rw [← hL.keys, List.mem_map] at h1
  obtain ⟨p, hp, hlam⟩ := h1
  obtain ⟨i, hi⟩ := List.mem_iff_getElem?.1 hp
  have hR := (hL.part i p hi).2.1
  rw [hlam] at hR
  unfold LevelT.uptransform
  cases hN : vecN v with
  | none => rfl
  | some N =>
    simp only [Option.bind_eq_bind, Option.bind_some]
    rw [mapM_none hp]
    · rfl
    · cases hq : p.uptransform v with
      | none => rfl
      | some q =>
        rw [Option.bind_some, hL.n_eq]
        exact twistUp_321 hbad hR (partUp_some hq).1

theorem upLoop_321 {m : Nat} (hm : m ≤ 3) (Ls : List LevelT) {l : Nat} {L : LevelT} (hl : l < 6) (hn : 6 ≤ l + Ls.length)
    (hC : ChainOk m l (L :: Ls)) (v : List MPart) : upLoop ap Ls v = none := by
  induction Ls generalizing l L v with
  | nil => simp at hn; omega
  | cons L' Ls ih =>
    rcases hC with _ | ⟨hL, hB, hC⟩
    have hL' : LevelOk m (l + 1) L' := by
      cases hC <;> assumption
    simp only [List.length_cons] at hn
    rw [upLoop]
    by_cases e : l + 1 = 6
    · rw [e] at hL'
      rw [levelUp_321 hbad hm hL']; rfl
    · cases h : L'.uptransform ap v with
      | none => rfl
      | some v1 => exact ih (by omega) (by omega) hC v1

theorem fftWith_321_of {m n : Nat} (hm : 0 < m) (hm3 : m ≤ 3) (hn : 6 ≤ n) {Ls : List LevelT} (hLs : fftLevels n m = some Ls) (N : Nat) (f : Nat → ℝ) :
    fftWith ap Ls N f = none := by
  obtain ⟨Ls', e1, e2, e3⟩ := fftLevels_ok hm (show m ≤ n by omega)
  obtain rfl : Ls' = Ls := Option.some.inj (e1.symm.trans hLs)
  obtain ⟨L, Ls, rfl⟩ : ∃ L Ls, Ls' = L :: Ls := by
    rcases Ls' with _ | ⟨L, Ls⟩
    · simp at e2
    · exact ⟨L, Ls, rfl⟩
  simp only [List.length_cons] at e2
  unfold fftWith
  cases hP : MPart.ofFunction N f with
  | none => rfl
  | some P =>
    simp only [Option.bind_eq_bind, Option.bind_some, List.tail_cons]
    rw [upLoop_321 hbad hm3 Ls (by omega) (by omega) e3]; rfl

/-! ### the inverse transform -/

theorem twistDown_321 {R : IrrepObj} (hR : mkIrrep [3, 2, 1] = some R) {N : Nat} {q : MPart} (hq : q.irrep = R) :
    twistDown ap 5 N q = none := by
  cases h : twistDown ap 5 N q with
  | none => rfl
  | some Q =>
    unfold twistDown at h
    simp only [Option.bind_eq_bind, Option.bind_eq_some_iff] at h
    obtain ⟨A, h4, -⟩ := h
    unfold forUp at h4
    have e : (((5 : Nat) : Int) + 1 - 0).toNat = 4 + 1 + 1 := rfl
    rw [e, iterUp, Option.bind_eq_some_iff] at h4
    obtain ⟨A, -, h5⟩ := h4
    rw [iterUp, Option.bind_eq_some_iff] at h5
    obtain ⟨B, h6, -⟩ := h5
    exfalso
    simp only [cycleWith] at h6
    have e2 : (((5 : Nat) : Int) + 1 - (((5 : Nat) : Int) + 1 - (0 + 1))).toNat = 0 + 1 := rfl
    rw [if_neg (by norm_num)] at h6
    unfold forUp at h6
    rw [e2, iterUp, Option.bind_eq_some_iff] at h6
    obtain ⟨A0, hA0, -⟩ := h6
    rw [hq, hbad R hR] at hA0
    cases hA0

theorem levelDown_321 {L L' : LevelT} (hL : L.n = 5) {V : List MPart} {R : IrrepObj} (hR : mkIrrep [3, 2, 1] = some R)
    (hV : ∃ q ∈ V, q.irrep = R) : L.downtransform ap L' V = none := by
  obtain ⟨q, hq, hqR⟩ := hV
  unfold LevelT.downtransform
  cases hN : vecN V with
  | none => rfl
  | some N =>
    simp only [Option.bind_eq_bind, Option.bind_some]
    rw [mapM_none hq]
    · rfl
    · rw [hL]
      exact twistDown_321 hbad hR hqR

omit hbad in
theorem unblockLoop_irrep {n : Nat} {part : MPart} (bs : List BlockT) {R R' : List MPart} (h : unblockLoop n part bs R = some R') :
    R'.map MPart.irrep = R.map MPart.irrep := by
  induction bs generalizing R with
  | nil => obtain rfl := Option.some.inj h; rfl
  | cons b bs ih =>
    unfold unblockLoop at h
    simp only [Option.bind_eq_bind, Option.bind_eq_some_iff] at h
    obtain ⟨M, hM, M', hM', h⟩ := h
    rw [ih h, List.map_set]
    have : M'.irrep = M.irrep := by
      unfold MPart.addBlockTo at hM'
      split at hM'
      · obtain rfl := Option.some.inj hM'; rfl
      · cases hM'
    rw [this]
    refine List.ext_getElem (by simp) fun i h1 h2 => ?_
    rw [List.getElem_set]
    split
    · rename_i e
      subst e
      obtain ⟨_, hg⟩ := List.getElem?_eq_some_iff.1 hM
      rw [List.getElem_map, hg]
    · rfl

omit hbad in
theorem unpartLoop_irrep {n : Nat} (ps : List PartT) (VV : List MPart) {R R' : List MPart} (h : unpartLoop n ps VV R = some R') :
    R'.map MPart.irrep = R.map MPart.irrep := by
  induction ps generalizing VV R with
  | nil => obtain rfl := Option.some.inj h; rfl
  | cons p ps ih =>
    rcases VV with _ | ⟨V, VV⟩
    · cases h
    · unfold unpartLoop at h
      simp only [Option.bind_eq_bind, Option.bind_eq_some_iff] at h
      obtain ⟨R1, h1, h2⟩ := h
      rw [ih _ h2, unblockLoop_irrep _ h1]

omit hbad in
theorem levelDown_irrep {L L' : LevelT} {V R : List MPart} (h : L.downtransform ap L' V = some R) :
    R.map MPart.irrep = L.parts.map PartT.irrep := by
  unfold LevelT.downtransform at h
  simp only [Option.bind_eq_bind, Option.bind_eq_some_iff] at h
  obtain ⟨N, -, VV, -, h⟩ := h
  rw [unpartLoop_irrep _ _ h, List.map_map]
  rfl

theorem downLoop_321 {m : Nat} (hm : m ≤ 3) (Ls : List LevelT) {l : Nat} {L : LevelT} (hl : l < 6) (hn : 6 ≤ l + Ls.length)
    (hC : ChainOk m l (L :: Ls)) {R : IrrepObj} (hR : mkIrrep [3, 2, 1] = some R) (v : List MPart)
    (hv : l + Ls.length = 6 → ∃ q ∈ v, q.irrep = R) : downLoop ap (L :: Ls) v = none := by
  induction Ls generalizing l L with
  | nil => simp at hn; omega
  | cons L' Ls ih =>
    rcases hC with _ | ⟨hL, hB, hC⟩
    have hL' : LevelOk m (l + 1) L' := by
      cases hC <;> assumption
    simp only [List.length_cons] at hn hv
    rw [downLoop]
    by_cases e : l + 1 = 6
    · cases h : downLoop ap (L' :: Ls) v with
      | none => rfl
      | some v1 =>
        rw [Option.bind_eq_bind, Option.bind_some]
        refine levelDown_321 hbad (by rw [hL.n_eq]; omega) hR ?_
        rcases Ls with _ | ⟨L'', Ls⟩
        · rw [downLoop] at h
          · obtain rfl := Option.some.inj h
            exact hv (by simp; omega)
          · intro a b c d; cases d
        · rw [downLoop] at h
          simp only [Option.bind_eq_bind, Option.bind_eq_some_iff] at h
          obtain ⟨v0, -, h⟩ := h
          have hir := levelDown_irrep h
          have h1 : [3, 2, 1] ∈ PL m 6 := (mem_PL (by omega) _).2 ⟨Props.isPartition_321, by simpa [row] using hm⟩
          rw [← e, ← hL'.keys, List.mem_map] at h1
          obtain ⟨p, hp, hlam⟩ := h1
          obtain ⟨i, hi⟩ := List.mem_iff_getElem?.1 hp
          have hRp := (hL'.part i p hi).2.1
          rw [hlam, hR] at hRp
          have hmem : R ∈ v1.map MPart.irrep := by
            rw [hir, Option.some.inj hRp]; exact List.mem_map_of_mem hp
          obtain ⟨q, hq1, hq2⟩ := List.mem_map.1 hmem
          exact ⟨q, hq1, hq2⟩
    · rw [ih (by omega) (by omega) hC (fun hh => hv (by omega))]; rfl

theorem ifftWith_321_of {m n : Nat} (hm : 0 < m) (hm3 : m ≤ 3) (hn : 6 ≤ n) {Ls : List LevelT} (hLs : fftLevels n m = some Ls)
    {ws : List VPart} (hw : ∃ W ∈ ws, mkIrrep [3, 2, 1] = some W.irrep ∨ 6 < n) : ifftWith ap Ls ws = none := by
  obtain ⟨Ls', e1, e2, e3⟩ := fftLevels_ok hm (show m ≤ n by omega)
  obtain rfl : Ls' = Ls := Option.some.inj (e1.symm.trans hLs)
  obtain ⟨L, Ls, rfl⟩ : ∃ L Ls, Ls' = L :: Ls := by
    rcases Ls' with _ | ⟨L, Ls⟩
    · simp at e2
    · exact ⟨L, Ls, rfl⟩
  simp only [List.length_cons] at e2
  obtain ⟨R, hR, -⟩ := Props.C32_view_action_out_of_bounds
  unfold ifftWith
  cases hl : (L :: Ls).getLast? with
  | none => rfl
  | some Lst =>
    simp only [Option.bind_eq_bind, Option.bind_some]
    split
    · rw [downLoop_321 hbad hm3 Ls (by omega) (by omega) e3 hR _ (fun hh => ?_)]
      · rfl
      · obtain ⟨W, hW, h | h⟩ := hw
        · exact ⟨MPart.ofPart W, List.mem_map_of_mem hW, (Option.some.inj (hR.symm.trans h)).symm⟩
        · omega
    · rfl

end

theorem fftWith_321 {m n : Nat} (hm : 0 < m) (hm3 : m ≤ 3) (hn : 6 ≤ n) {Ls : List LevelT} (hLs : fftLevels n m = some Ls) (N : Nat) (f : Nat → ℝ) :
    fftWith viewAct Ls N f = none := fftWith_321_of viewAct_fails hm hm3 hn hLs N f

theorem ifftWith_321 {m n : Nat} (hm : 0 < m) (hm3 : m ≤ 3) (hn : 6 ≤ n) {Ls : List LevelT} (hLs : fftLevels n m = some Ls)
    {ws : List VPart} (hw : ∃ W ∈ ws, mkIrrep [3, 2, 1] = some W.irrep ∨ 6 < n) : ifftWith viewAct Ls ws = none :=
  ifftWith_321_of viewAct_fails hm hm3 hn hLs hw

end Snob
