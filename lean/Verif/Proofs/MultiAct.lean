import Verif.Model.MultiAct
import Verif.Spec.MultiAct
import Verif.Proofs.IrrepSpec
import Verif.Proofs.FFTBad
import Verif.Proofs.Lifetime

/-! # The group actions of `SnMultiPart` -/

namespace Snob.MPart

variable {P : MPart}

theorem blockCols_eq {o s : Nat} (h : o + s ≤ P.N) : P.blockCols o s = some (List.range' (o * P.m) (s * P.m)) := if_pos h

theorem div_mod {m c k : Nat} (hk : k < m) : (c * m + k) / m = c ∧ (c * m + k) % m = k := by
  rw [Nat.add_comm, Nat.mul_comm]
  exact ⟨by rw [Nat.add_mul_div_left _ _ (by omega), Nat.div_eq_of_lt hk, Nat.zero_add],
    by rw [Nat.add_mul_mod_self_left, Nat.mod_eq_of_lt hk]⟩

theorem col_iff {m c k o s : Nat} (hk : k < m) : c * m + k ∈ List.range' (o * m) (s * m) ↔ o ≤ c ∧ c < o + s := by
  rw [List.mem_range'_1, ← Nat.add_mul]
  constructor
  · rintro ⟨h1, h2⟩
    constructor
    · by_contra h
      have : (c + 1) * m ≤ o * m := Nat.mul_le_mul_right _ (by omega)
      rw [Nat.add_mul] at this; omega
    · by_contra h
      have : (o + s) * m ≤ c * m := Nat.mul_le_mul_right _ (by omega)
      omega
  · rintro ⟨h1, h2⟩
    have h3 : o * m ≤ c * m := Nat.mul_le_mul_right _ h1
    have h4 : (c + 1) * m ≤ (o + s) * m := Nat.mul_le_mul_right _ (by omega)
    rw [Nat.add_mul] at h4
    omega

theorem acts_ofMatrix {A Y : Nat → Nat → ℝ} {o s : Nat} (hd : P.d = P.irrep.d)
    (h : LeftMul P.irrep.d A (List.range' (o * P.m) (s * P.m)) P.toMatrix Y) : ActsOnCopies A o s P (P.ofMatrix Y) := by
  refine ⟨rfl, rfl, rfl, rfl, fun i c k hi hc hk => ?_⟩
  obtain ⟨e1, e2⟩ := div_mod (c := c) hk
  show (if c < P.N ∧ k < P.m then Y i (c * P.m + k) else _) = _
  rw [if_pos ⟨hc, hk⟩]
  by_cases hm : o ≤ c ∧ c < o + s
  · rw [if_pos hm, h.1 i _ (hd ▸ hi) ((col_iff hk).2 hm)]
    simp only [toMatrix, e1, e2]
    rw [← hd]
  · rw [if_neg hm, h.2 i _ (fun h => hm ((col_iff hk).1 h.2))]
    simp only [toMatrix, e1, e2]

/-! ### memory -/

/-- the memory `v` holds the entries `A` -/
def Holds (P : MPart) (v : List ℝ) (A : Nat → Nat × Nat → ℝ) : Prop :=
  v.length = P.d * (P.N * P.m) ∧ ∀ i c k, i < P.d → c < P.N → k < P.m → v[P.addr3 i c k]? = some (A i (c, k))

theorem addr3_lt {i c k : Nat} (hi : i < P.d) (hc : c < P.N) (hk : k < P.m) : P.addr3 i c k < P.d * (P.N * P.m) := by
  unfold addr3
  rw [← Nat.mul_assoc]
  have h1 : (i + 1) * P.N ≤ P.d * P.N := Nat.mul_le_mul_right _ hi
  rw [Nat.add_mul] at h1
  have h2 : (i * P.N + c + 1) * P.m ≤ P.d * P.N * P.m := Nat.mul_le_mul_right _ (by omega)
  rw [Nat.add_mul _ 1] at h2
  omega

theorem addr3_div {i c k : Nat} (hc : c < P.N) (hk : k < P.m) :
    P.addr3 i c k / P.m / P.N = i ∧ P.addr3 i c k / P.m % P.N = c ∧ P.addr3 i c k % P.m = k := by
  unfold addr3
  obtain ⟨e1, e2⟩ := div_mod (c := i * P.N + c) hk
  obtain ⟨e3, e4⟩ := div_mod (c := i) hc
  rw [e1, e2]
  exact ⟨e3, e4, rfl⟩

theorem addr2_eq (i j : Nat) : P.addr2 i j = P.addr3 i j 0 := by
  unfold addr2 addr3
  ring

theorem addr3_inj {i c k i' c' k' : Nat} (hc : c < P.N) (hk : k < P.m) (hc' : c' < P.N) (hk' : k' < P.m)
    (h : P.addr3 i c k = P.addr3 i' c' k') : i = i' ∧ c = c' ∧ k = k' := by
  obtain ⟨a1, a2, a3⟩ := addr3_div (P := P) (i := i) hc hk
  obtain ⟨b1, b2, b3⟩ := addr3_div (P := P) (i := i') hc' hk'
  rw [h] at a1 a2 a3
  exact ⟨by rw [← a1, b1], by rw [← a2, b2], by rw [← a3, b3]⟩

theorem holds_memory : P.Holds P.memory P.data := by
  refine ⟨by simp [memory], fun i c k hi hc hk => ?_⟩
  obtain ⟨e1, e2, e3⟩ := addr3_div (P := P) (i := i) hc hk
  rw [memory, List.getElem?_map, List.getElem?_range (addr3_lt hi hc hk), Option.map_some, e1, e2, e3]

theorem Holds.get {v A} (h : P.Holds v A) {i j : Nat} (hi : i < P.d) (hj : j < P.N) (hm : 0 < P.m) :
    v[P.addr2 i j]? = some (A i (j, 0)) := by rw [addr2_eq, h.2 i j 0 hi hj hm]

theorem Holds.put {v A} (h : P.Holds v A) {i j : Nat} (hi : i < P.d) (hj : j < P.N) (hm : 0 < P.m) (x : ℝ) :
    ∃ v', MPart.put v (P.addr2 i j) x = some v' ∧ P.Holds v' (setv A i (j, 0) x) := by
  have hl : P.addr3 i j 0 < v.length := by rw [h.1]; exact addr3_lt hi hj hm
  refine ⟨v.set (P.addr3 i j 0) x, by rw [addr2_eq, MPart.put, if_pos hl], by simp [h.1], fun i' c k hi' hc hk => ?_⟩
  unfold setv
  by_cases e : P.addr3 i j 0 = P.addr3 i' c k
  · obtain ⟨rfl, rfl, rfl⟩ := addr3_inj hj hm hc hk e
    rw [List.getElem?_set_self hl, if_pos ⟨rfl, rfl⟩]
  · rw [List.getElem?_set_ne e, h.2 i' c k hi' hc hk, if_neg]
    rintro ⟨rfl, h2⟩
    obtain ⟨rfl, rfl⟩ := Prod.mk.inj h2
    exact e rfl

/-- the columns as pairs -/
abbrev pairs (cols : List Nat) : List (Nat × Nat) := cols.map fun j => (j, 0)

theorem Holds.scale {i : Nat} (hi : i < P.d) (hm : 0 < P.m) (c1 : ℝ) (cols : List Nat) (hc : ∀ j ∈ cols, j < P.N) :
    ∀ {v A}, P.Holds v A → ∃ v', scaleF P i c1 cols v = some v' ∧ P.Holds v' (IrrepObj.scaleRow i c1 (pairs cols) A) := by
  induction cols with
  | nil => intro v A h; exact ⟨v, rfl, h⟩
  | cons j js ih =>
    intro v A h
    have hj := hc j (by simp)
    obtain ⟨v1, e1, h1⟩ := h.put hi hj hm (c1 * A i (j, 0))
    obtain ⟨v2, e2, h2⟩ := ih (fun k hk => hc k (by simp [hk])) h1
    refine ⟨v2, ?_, h2⟩
    rw [scaleF, h.get hi hj hm]
    simp only [Option.bind_eq_bind, Option.bind_some, e1, e2]

theorem Holds.mix {i i2 : Nat} (hi : i < P.d) (hi2 : i2 < P.d) (hm : 0 < P.m) (c1 c2 : ℝ) (cols : List Nat)
    (hc : ∀ j ∈ cols, j < P.N) :
    ∀ {v A}, P.Holds v A →
      ∃ v', mixF P i i2 c1 c2 cols v = some v' ∧ P.Holds v' (IrrepObj.mixRows i i2 c1 c2 (pairs cols) A) := by
  induction cols with
  | nil => intro v A h; exact ⟨v, rfl, h⟩
  | cons j js ih =>
    intro v A h
    have hj := hc j (by simp)
    obtain ⟨v1, e1, h1⟩ := h.put hi hj hm (c1 * A i (j, 0) + c2 * A i2 (j, 0))
    obtain ⟨v2, e2, h2⟩ := h1.put hi2 hj hm (-c1 * setv A i (j, 0) (c1 * A i (j, 0) + c2 * A i2 (j, 0)) i2 (j, 0) + c2 * A i (j, 0))
    obtain ⟨v3, e3, h3⟩ := ih (fun k hk => hc k (by simp [hk])) h2
    refine ⟨v3, ?_, h3⟩
    rw [mixF, h.get hi hj hm, h.get hi2 hj hm]
    simp only [Option.bind_eq_bind, Option.bind_some, e1]
    rw [h1.get hi2 hj hm]
    simp only [Option.bind_some, e2, e3]

theorem Holds.body (hd : P.d = P.irrep.d) (hm : 0 < P.m) {cols : List Nat} (hc : ∀ j ∈ cols, j < P.N) {tau : Int} {i : Nat}
    (hi : i < P.d) {v : List ℝ} {A A' : Nat → Nat × Nat → ℝ} {done done' : List Bool} (h : P.Holds v A)
    (hb : P.irrep.tauBody (pairs cols) tau i (A, done) = some (A', done')) :
    ∃ v', P.tauBodyF cols tau i (v, done) = some (v', done') ∧ P.Holds v' A' := by
  unfold IrrepObj.tauBody at hb
  unfold tauBodyF
  simp only at hb ⊢
  split at hb
  · cases hb
  · rename_i e
    rw [e]
    cases hb
    exact ⟨v, rfl, h⟩
  · rename_i e
    rw [e]
    simp only
    split at hb
    · cases hb
    · rename_i s es
      rw [es]
      simp only
      by_cases ht : s.t = -1
      · rw [if_pos ht] at hb ⊢
        cases hb
        obtain ⟨v', e', h'⟩ := h.scale hi hm s.c1 cols hc
        exact ⟨v', by rw [e']; rfl, h'⟩
      · rw [if_neg ht] at hb ⊢
        by_cases ht' : 0 ≤ s.t ∧ s.t.toNat < P.irrep.d
        · rw [if_pos ht'] at hb ⊢
          cases hb
          obtain ⟨v', e', h'⟩ := h.mix hi (hd ▸ ht'.2) hm s.c1 s.c2 cols hc
          exact ⟨v', by rw [e']; rfl, h'⟩
        · rw [if_neg ht'] at hb; cases hb

theorem Holds.loop (hd : P.d = P.irrep.d) (hm : 0 < P.m) {cols : List Nat} (hc : ∀ j ∈ cols, j < P.N) {tau : Int}
    (is : List Nat) (his : ∀ i ∈ is, i < P.d) :
    ∀ {v : List ℝ} {A A' : Nat → Nat × Nat → ℝ} {done done' : List Bool}, P.Holds v A →
      P.irrep.tauLoop (pairs cols) tau is (A, done) = some (A', done') →
      ∃ v', P.tauLoopF cols tau is (v, done) = some (v', done') ∧ P.Holds v' A' := by
  induction is with
  | nil =>
    intro v A A' done done' h hb
    cases hb
    exact ⟨v, rfl, h⟩
  | cons i is ih =>
    intro v A A' done done' h hb
    rw [IrrepObj.tauLoop, Option.bind_eq_some_iff] at hb
    obtain ⟨⟨A1, d1⟩, h1, h2⟩ := hb
    obtain ⟨v1, e1, h3⟩ := h.body hd hm hc (his i (by simp)) h1
    obtain ⟨v2, e2, h4⟩ := ih (fun j hj => his j (by simp [hj])) h3 h2
    exact ⟨v2, by rw [tauLoopF, e1]; exact e2, h4⟩

theorem Holds.tau (hd : P.d = P.irrep.d) (hm : 0 < P.m) {cols : List Nat} (hc : ∀ j ∈ cols, j < P.N) {tau : Int}
    {v : List ℝ} {A A' : Nat → Nat × Nat → ℝ} (h : P.Holds v A) (hb : P.irrep.applyTau (pairs cols) tau A = some A') :
    ∃ v', P.tauF cols tau v = some v' ∧ P.Holds v' A' := by
  unfold IrrepObj.applyTau at hb
  rw [Option.map_eq_some_iff] at hb
  obtain ⟨⟨A1, d1⟩, h1, rfl⟩ := hb
  obtain ⟨v', e', h'⟩ := h.loop hd hm hc (List.range P.irrep.d) (fun i hi => by rw [hd]; exact List.mem_range.1 hi) h1
  exact ⟨v', by rw [tauF, e']; rfl, h'⟩

/-- two loops that go in step -/
theorem iterDown_rel {S T : Type} (rel : S → T → Prop) {f : Int → S → Option S} {g : Int → T → Option T}
    (hb : ∀ i s t s', rel s t → f i s = some s' → ∃ t', g i t = some t' ∧ rel s' t') (k : Nat) :
    ∀ (i : Int) (s : S) (t : T) (s' : S), rel s t → iterDown f k i s = some s' → ∃ t', iterDown g k i t = some t' ∧ rel s' t' := by
  induction k with
  | zero => intro i s t s' h e; cases e; exact ⟨t, rfl, h⟩
  | succ k ih =>
    intro i s t s' h e
    rw [iterDown, Option.bind_eq_some_iff] at e
    obtain ⟨s1, e1, e2⟩ := e
    obtain ⟨t1, e3, h1⟩ := hb i s t s1 h e1
    obtain ⟨t2, e4, h2⟩ := ih (i - 1) s1 t1 s' h1 e2
    exact ⟨t2, by rw [iterDown, e3]; exact e4, h2⟩

theorem iterUp_rel {S T : Type} (rel : S → T → Prop) {f : Int → S → Option S} {g : Int → T → Option T}
    (hb : ∀ i s t s', rel s t → f i s = some s' → ∃ t', g i t = some t' ∧ rel s' t') (k : Nat) :
    ∀ (i : Int) (s : S) (t : T) (s' : S), rel s t → iterUp f k i s = some s' → ∃ t', iterUp g k i t = some t' ∧ rel s' t' := by
  induction k with
  | zero => intro i s t s' h e; cases e; exact ⟨t, rfl, h⟩
  | succ k ih =>
    intro i s t s' h e
    rw [iterUp, Option.bind_eq_some_iff] at e
    obtain ⟨s1, e1, e2⟩ := e
    obtain ⟨t1, e3, h1⟩ := hb i s t s1 h e1
    obtain ⟨t2, e4, h2⟩ := ih (i + 1) s1 t1 s' h1 e2
    exact ⟨t2, by rw [iterUp, e3]; exact e4, h2⟩

theorem Holds.sigma (hd : P.d = P.irrep.d) (hm : 0 < P.m) {cols : List Nat} (hc : ∀ j ∈ cols, j < P.N) {sigma : Arr}
    {v : List ℝ} {A A' : Nat → Nat × Nat → ℝ} (h : P.Holds v A) (hb : P.irrep.applySigma (pairs cols) sigma A = some A') :
    ∃ v', P.sigmaF cols sigma v = some v' ∧ P.Holds v' A' := by
  unfold IrrepObj.applySigma at hb
  unfold sigmaF
  by_cases hl : sigma.length = P.irrep.n
  · rw [if_pos hl] at hb ⊢
    rw [Option.bind_eq_bind, Option.bind_eq_some_iff] at hb
    obtain ⟨s, e, hb⟩ := hb
    rw [e]
    simp only [Option.bind_eq_bind, Option.bind_some]
    refine iterUp_rel (fun A v => P.Holds v A) ?_ _ 2 A v A' h hb
    intro i s1 t1 s' h1 h2
    rw [Option.bind_eq_bind, Option.bind_eq_some_iff] at h2
    obtain ⟨b, eb, h2⟩ := h2
    simp only [eb, Option.bind_some]
    refine iterDown_rel (fun A v => P.Holds v A) (f := fun a A => P.irrep.applyTau (pairs cols) a A) ?_ _ (i - 1) s1 t1 s' h1 h2
    exact fun i s t s' h e => h.tau hd hm hc e
  · rw [if_neg hl] at hb; cases hb

/-! ### outside the memory -/

theorem put_length {v v' : List ℝ} {a : Nat} {x : ℝ} (h : MPart.put v a x = some v') : v'.length = v.length ∧ a < v.length := by
  unfold MPart.put at h
  by_cases ha : a < v.length
  · rw [if_pos ha] at h; cases h; exact ⟨by simp, ha⟩
  · rw [if_neg ha] at h; cases h

theorem scaleF_some {i : Nat} {c1 : ℝ} (cols : List Nat) :
    ∀ {v v' : List ℝ}, scaleF P i c1 cols v = some v' → v'.length = v.length ∧ ∀ j ∈ cols, P.addr2 i j < v.length := by
  induction cols with
  | nil => intro v v' h; cases h; exact ⟨rfl, by simp⟩
  | cons j js ih =>
    intro v v' h
    simp only [scaleF, Option.bind_eq_bind, Option.bind_eq_some_iff] at h
    obtain ⟨x, _, v1, h1, h2⟩ := h
    obtain ⟨l1, a1⟩ := put_length h1
    obtain ⟨l2, a2⟩ := ih h2
    refine ⟨l2.trans l1, fun k hk => ?_⟩
    rcases List.mem_cons.1 hk with rfl | hk
    · exact a1
    · rw [← l1]; exact a2 k hk

theorem mixF_some {i i2 : Nat} {c1 c2 : ℝ} (cols : List Nat) :
    ∀ {v v' : List ℝ}, mixF P i i2 c1 c2 cols v = some v' →
      v'.length = v.length ∧ (∀ j ∈ cols, P.addr2 i j < v.length) ∧ ∀ j ∈ cols, P.addr2 i2 j < v.length := by
  induction cols with
  | nil => intro v v' h; cases h; exact ⟨rfl, by simp, by simp⟩
  | cons j js ih =>
    intro v v' h
    simp only [mixF, Option.bind_eq_bind, Option.bind_eq_some_iff] at h
    obtain ⟨t, _, x, _, v1, h1, y, _, v2, h2, h3⟩ := h
    obtain ⟨l1, a1⟩ := put_length h1
    obtain ⟨l2, a2⟩ := put_length h2
    obtain ⟨l3, a3, a4⟩ := ih h3
    rw [l1] at a2 l2
    rw [l2] at a3 a4 l3
    refine ⟨l3, fun k hk => ?_, fun k hk => ?_⟩
    · rcases List.mem_cons.1 hk with rfl | hk
      · exact a1
      · exact a3 k hk
    · rcases List.mem_cons.1 hk with rfl | hk
      · exact a2
      · exact a4 k hk

theorem tauBodyF_some {cols : List Nat} {tau : Int} {i L : Nat} {v v' : List ℝ} {done done' : List Bool} (hl : v.length = L)
    (hD : ∀ r, done[r]? = some true → ∀ j ∈ cols, P.addr2 r j < L)
    (h : P.tauBodyF cols tau i (v, done) = some (v', done')) :
    v'.length = L ∧ (∀ r, done'[r]? = some true → ∀ j ∈ cols, P.addr2 r j < L) ∧ ∀ j ∈ cols, P.addr2 i j < L := by
  unfold tauBodyF at h
  simp only at h
  split at h
  · cases h
  · rename_i e
    cases h
    exact ⟨hl, hD, hD i e⟩
  · split at h
    · cases h
    · rename_i s es
      by_cases ht : s.t = -1
      · rw [if_pos ht, Option.map_eq_some_iff] at h
        obtain ⟨v1, h1, h2⟩ := h
        cases h2
        obtain ⟨l1, a1⟩ := scaleF_some cols h1
        rw [hl] at l1 a1
        exact ⟨l1, hD, a1⟩
      · rw [if_neg ht] at h
        by_cases ht' : 0 ≤ s.t ∧ s.t.toNat < P.irrep.d
        · rw [if_pos ht', Option.map_eq_some_iff] at h
          obtain ⟨v1, h1, h2⟩ := h
          cases h2
          obtain ⟨l1, a1, a2⟩ := mixF_some cols h1
          rw [hl] at l1 a1 a2
          refine ⟨l1, fun r hr => ?_, a1⟩
          by_cases e : s.t.toNat = r
          · subst e; exact a2
          · rw [List.getElem?_set_ne e] at hr; exact hD r hr
        · rw [if_neg ht'] at h; cases h

theorem tauLoopF_some {cols : List Nat} {tau : Int} {L : Nat} (is : List Nat) :
    ∀ {v v' : List ℝ} {done done' : List Bool}, v.length = L →
      (∀ r, done[r]? = some true → ∀ j ∈ cols, P.addr2 r j < L) →
      P.tauLoopF cols tau is (v, done) = some (v', done') →
      v'.length = L ∧ ∀ i ∈ is, ∀ j ∈ cols, P.addr2 i j < L := by
  induction is with
  | nil => intro v v' done done' hl hD h; cases h; exact ⟨hl, by simp⟩
  | cons i is ih =>
    intro v v' done done' hl hD h
    rw [tauLoopF, Option.bind_eq_some_iff] at h
    obtain ⟨⟨v1, d1⟩, h1, h2⟩ := h
    obtain ⟨l1, D1, a1⟩ := tauBodyF_some hl hD h1
    obtain ⟨l2, a2⟩ := ih l1 D1 h2
    refine ⟨l2, fun k hk => ?_⟩
    rcases List.mem_cons.1 hk with rfl | hk
    · exact a1
    · exact a2 k hk

theorem tauF_some {cols : List Nat} {tau : Int} {v v' : List ℝ} (h : P.tauF cols tau v = some v') :
    v'.length = v.length ∧ ∀ i < P.irrep.d, ∀ j ∈ cols, P.addr2 i j < v.length := by
  unfold tauF at h
  rw [Option.map_eq_some_iff] at h
  obtain ⟨⟨v1, d1⟩, h1, rfl⟩ := h
  obtain ⟨l, a⟩ := tauLoopF_some (L := v.length) _ rfl (fun r hr => by
    rw [List.getElem?_replicate] at hr
    split at hr <;> cases hr) h1
  exact ⟨l, fun i hi => a i (List.mem_range.2 hi)⟩

/-- the last column of the block is outside the memory -/
theorem tauF_none (hd : P.d = P.irrep.d) (hd0 : 0 < P.d) {o s : Nat} (hs : 0 < s) (hm : 0 < P.m)
    (ho : P.N < (o + s) * P.m) {tau : Int} {v : List ℝ} (hv : v.length = P.d * (P.N * P.m)) :
    P.tauF (List.range' (o * P.m) (s * P.m)) tau v = none := by
  cases e : P.tauF (List.range' (o * P.m) (s * P.m)) tau v with
  | none => rfl
  | some v' =>
    exfalso
    have h2 : 0 < s * P.m := Nat.mul_pos hs hm
    have := (tauF_some e).2 (P.d - 1) (by omega) ((o + s) * P.m - 1) (by
      rw [List.mem_range'_1, Nat.add_mul]; omega)
    rw [hv] at this
    unfold addr2 at this
    have h3 : P.N * P.m ≤ ((o + s) * P.m - 1) * P.m := Nat.mul_le_mul_right _ (by omega)
    have h4 : P.d * (P.N * P.m) = (P.d - 1) * (P.N * P.m) + P.N * P.m := by
      conv_lhs => rw [show P.d = P.d - 1 + 1 by omega, Nat.add_mul, Nat.one_mul]
    omega

/-- a permutation that is not the identity has a shift -/
theorem exists_shift {n : Nat} {σ : Equiv.Perm (Fin n)} (hσ : σ ≠ 1) :
    ∃ i : Int, 2 ≤ i ∧ i < (n : Int) + 1 ∧ ∀ b, rd (shArr n σ) (i - 1) = some b → b ≤ i - 1 := by
  by_contra hcon
  push Not at hcon
  apply hσ
  let a : Multiplicative Nat → Nat → Nat := fun m x => Multiplicative.toAdd m + x
  have g : Gen n (fun _ => Multiplicative.ofAdd (1 : Nat)) a (fun _ x => some (1 + x)) :=
    ⟨fun x => by simp [a], fun g g' x => by simp [a, Nat.add_assoc], fun k x _ => rfl⟩
  have h1 := sigmaLoop g.one g.mul (cy := fun b i A => forDown (i - 1) b A fun _ x => some (1 + x))
    (fun t m x htm => g.down t m htm rfl (by ring) x) σ 0
  rw [← Lifetime.cox_count]
  by_cases hn : (2 : Int) ≤ (n : Int) + 1
  · obtain ⟨s', h2, h3⟩ := forUp_inv (fun _ s => s = 0) (lo := 2) (hi := (n : Int) + 1) (s := 0)
      (body := fun i x => (do
        let b ← rd (shArr n σ) (i - 1)
        forDown (i - 1) b x fun _ x => some (1 + x) : Option Nat)) hn rfl (fun i s hi1 hi2 hs => by
        obtain ⟨b, hb, hlt⟩ := hcon i hi1 hi2
        refine ⟨s, ?_, hs⟩
        simp only [hb, Option.bind_eq_bind, Option.bind_some]
        exact forDown_empty (by omega) _ _)
    rw [h2, Option.some.injEq] at h1
    subst h3
    exact Multiplicative.toAdd.injective (by simpa [a] using h1.symm)
  · have : n = 0 := by omega
    subst this
    rfl

theorem sigmaF_none (hd : P.d = P.irrep.d) (hd0 : 0 < P.d) {o s : Nat} (hs : 0 < s) (hm : 0 < P.m)
    (ho : P.N < (o + s) * P.m) {n : Nat} (hn : P.irrep.n = n) {σ : Equiv.Perm (Fin n)} (hσ : σ ≠ 1) {v : List ℝ}
    (hv : v.length = P.d * (P.N * P.m)) :
    P.sigmaF (List.range' (o * P.m) (s * P.m)) (enc σ) v = none := by
  cases e : P.sigmaF (List.range' (o * P.m) (s * P.m)) (enc σ) v with
  | none => rfl
  | some v' =>
    exfalso
    unfold sigmaF at e
    rw [hn, if_pos (by simp), shifts_eq] at e
    simp only [Option.bind_eq_bind, Option.bind_some] at e
    obtain ⟨i0, h1, h2, h3⟩ := exists_shift hσ
    have key := forUp_pres (fun i (w : List ℝ) => w.length = P.d * (P.N * P.m) ∧ i ≤ i0) (by omega) e ⟨hv, h1⟩
      (fun i w w' hi1 hi2 hw hbody => by
        rw [Option.bind_eq_some_iff] at hbody
        obtain ⟨b, hb, hbody⟩ := hbody
        by_cases hlt : i - 1 < b
        · rw [forDown_empty hlt] at hbody
          cases hbody
          refine ⟨hw.1, ?_⟩
          by_contra hc
          have : i = i0 := by omega
          subst this
          have := h3 b hb
          omega
        · exfalso
          unfold forDown at hbody
          obtain ⟨k, hk⟩ : ∃ k, (i - 1 - b + 1).toNat = k + 1 := ⟨(i - 1 - b).toNat, by omega⟩
          rw [hk, iterDown, tauF_none hd hd0 hs hm ho hw.1] at hbody
          cases hbody)
    omega

end Snob.MPart
