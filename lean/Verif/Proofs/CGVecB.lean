import Verif.Model.CGVecB
import Verif.Proofs.SnVecB2
import Verif.Proofs.CG
import Verif.Proofs.CGSplit

/-! Clebsch-Gordan products of batched vectors, member by member. -/

namespace Snob

open IP SnVecB

theorem foldlM_proj {σ τ ι : Type} (π : σ → τ) (f : σ → ι → Option σ) (g : τ → ι → Option τ) (inv : σ → Prop) (l : List ι)
    (h : ∀ s, inv s → ∀ y ∈ l, (f s y).map π = g (π s) y) (hi : ∀ s, inv s → ∀ y ∈ l, ∀ s', f s y = some s' → inv s') (s : σ) (hs : inv s) :
    (l.foldlM f s).map π = l.foldlM g (π s) := by
  induction l generalizing s with
  | nil => rfl
  | cons y l ih =>
    rw [List.foldlM_cons, List.foldlM_cons, ← h s hs y (by simp)]
    cases e : f s y with
    | none => rfl
    | some s' =>
      exact ih (fun s hs z hz => h s hs z (by simp [hz])) (fun s hs z hz => hi s hs z (by simp [hz])) s' (hi s hs y (by simp) s' e)

theorem foldlM_some {σ ι : Type} (f : σ → ι → Option σ) (inv : σ → Prop) (l : List ι)
    (h : ∀ s, inv s → ∀ y ∈ l, ∃ s', f s y = some s' ∧ inv s') (s : σ) (hs : inv s) : ∃ s', l.foldlM f s = some s' ∧ inv s' := by
  induction l generalizing s with
  | nil => exact ⟨s, rfl, hs⟩
  | cons y l ih =>
    obtain ⟨s', h1, h2⟩ := h s hs y (by simp)
    rw [List.foldlM_cons, h1]
    exact ih (fun s hs z hz => h s hs z (by simp [hz])) s' h2

/-! ### the case of `S_1` -/

/-- the loop over the columns for one member of the batch -/
noncomputable def oneB (x y : BPart) (b : Nat) (P : BPart) : Option BPart :=
  (List.range x.m).foldlM (fun P i =>
    (List.range y.m).foldlM (fun P j => do
      let u ← x.get b 0 i
      let v ← y.get b 0 j
      P.inc b 0 (i * y.m + j) (u * v)) P) P

/-- the loop over the columns -/
noncomputable def oneV (x y : VPart) (P : VPart) : Option VPart :=
  (List.range x.m).foldlM (fun P i =>
    (List.range y.m).foldlM (fun P j => do
      let u ← x.get 0 i
      let v ← y.get 0 j
      P.inc 0 (i * y.m + j) (u * v)) P) P

theorem BPart.inc_b {P Q : BPart} {b i j : Nat} {x : ℝ} (h : P.inc b i j x = some Q) : Q.b = P.b ∧ Q.d = P.d ∧ Q.m = P.m := by
  unfold BPart.inc at h
  split at h
  · simp only [Option.some.injEq] at h; subst h; exact ⟨rfl, rfl, rfl⟩
  · simp at h

theorem BPart.inc_other {P Q : BPart} {b i j k : Nat} {x : ℝ} (h : P.inc b i j x = some Q) (hk : k ≠ b) : Q.member k = P.member k := by
  unfold BPart.inc at h
  split at h
  · simp only [Option.some.injEq] at h; subst h
    refine VPart.ext rfl rfl rfl fun i' j' => ?_
    simp only [BPart.member]
    rw [if_neg fun h => hk h.1]
  · simp at h

theorem BPart.inc_member {P : BPart} {b i j : Nat} {x : ℝ} (hb : b < P.b) :
    (P.inc b i j x).map (·.member b) = (P.member b).inc i j x := by
  unfold BPart.inc VPart.inc
  by_cases h : i < P.d ∧ j < P.m
  · rw [if_pos ⟨hb, h⟩, if_pos (show i < (P.member b).d ∧ j < (P.member b).m from h)]
    refine congrArg some (VPart.ext rfl rfl rfl fun i' j' => ?_)
    simp [BPart.member]
  · rw [if_neg fun h' => h h'.2, if_neg (show ¬ (i < (P.member b).d ∧ j < (P.member b).m) from h)]
    rfl

theorem BPart.get_member {P : BPart} {b i j : Nat} (hb : b < P.b) : (P.member b).get i j = P.get b i j := by
  unfold BPart.get VPart.get
  by_cases h : i < P.d ∧ j < P.m
  · rw [if_pos (show i < (P.member b).d ∧ j < (P.member b).m from h), if_pos ⟨hb, h⟩]; rfl
  · rw [if_neg (show ¬ (i < (P.member b).d ∧ j < (P.member b).m) from h), if_neg fun h' => h h'.2]

theorem incB_step {o p : Option ℝ} {P Q : BPart} {b i j : Nat} (h : (o.bind fun u => p.bind fun v => P.inc b i j (u * v)) = some Q) :
    ∃ x, P.inc b i j x = some Q := by
  obtain ⟨u, -, h⟩ := Option.bind_eq_some_iff.1 h
  obtain ⟨v, -, h⟩ := Option.bind_eq_some_iff.1 h
  exact ⟨_, h⟩

/-- dimensions equal to those of `P` -/
def SameDim (P Q : BPart) : Prop := Q.b = P.b ∧ Q.d = P.d ∧ Q.m = P.m

theorem oneB_keep {x y : BPart} {b : Nat} {P Q : BPart} (h : oneB x y b P = some Q) : SameDim P Q ∧ ∀ k, k ≠ b → Q.member k = P.member k := by
  refine foldlM_keep _ (fun Q => SameDim P Q ∧ ∀ k, k ≠ b → Q.member k = P.member k) ?_ _ _ _ ⟨⟨rfl, rfl, rfl⟩, fun _ _ => rfl⟩ h
  intro s i s' hs e
  refine foldlM_keep _ (fun Q => SameDim P Q ∧ ∀ k, k ≠ b → Q.member k = P.member k) ?_ _ _ _ hs e
  intro s j s' hs e
  obtain ⟨u, hu⟩ := incB_step e
  obtain ⟨h1, h2, h3⟩ := BPart.inc_b hu
  exact ⟨⟨h1.trans hs.1.1, h2.trans hs.1.2.1, h3.trans hs.1.2.2⟩, fun k hk => (BPart.inc_other hu hk).trans (hs.2 k hk)⟩

theorem oneB_member {x y : BPart} {k : Nat} {P : BPart} (hx : k < x.b) (hy : k < y.b) (hP : k < P.b) :
    (oneB x y k P).map (·.member k) = oneV (x.member k) (y.member k) (P.member k) := by
  have hinv : ∀ (i : Nat) (s : BPart), k < s.b → ∀ j s', (do
      let u ← x.get k 0 i
      let v ← y.get k 0 j
      BPart.inc s k 0 (i * y.m + j) (u * v)) = some s' → k < s'.b := by
    intro i s hs j s' e
    obtain ⟨u, hu⟩ := incB_step e
    rw [(BPart.inc_b hu).1]; exact hs
  have hin : ∀ (i : Nat) (s : BPart), k < s.b → ((List.range y.m).foldlM (fun P j => do
      let u ← x.get k 0 i
      let v ← y.get k 0 j
      BPart.inc P k 0 (i * y.m + j) (u * v)) s).map (fun P : BPart => P.member k) = (List.range y.m).foldlM (fun P j => do
      let u ← (x.member k).get 0 i
      let v ← (y.member k).get 0 j
      VPart.inc P 0 (i * y.m + j) (u * v)) (s.member k) := by
    intro i s hs
    refine foldlM_proj (fun P : BPart => P.member k) _ _ (fun s => k < s.b) _ (fun s hs j _ => ?_) (fun s hs j _ s' e => hinv i s hs j s' e) s hs
    rw [BPart.get_member hx, BPart.get_member hy]
    cases x.get k 0 i with
    | none => rfl
    | some u =>
      cases y.get k 0 j with
      | none => rfl
      | some v => exact BPart.inc_member hs
  unfold oneB oneV
  refine foldlM_proj (fun P : BPart => P.member k) _ _ (fun s => k < s.b) _ (fun s hs i _ => hin i s hs) (fun s hs i _ s' e => ?_) P hP
  exact foldlM_keep _ (fun s => k < s.b) (fun s j s' hs e => hinv i s hs j s' e) _ _ _ hs e

/-- whether the loop stays within the tensors -/
def OneOk (x y P : BPart) : Prop := ∀ i < x.m, ∀ j < y.m, 0 < x.d ∧ 0 < y.d ∧ 0 < P.d ∧ i * y.m + j < P.m

theorem oneB_some {x y : BPart} {b : Nat} {P : BPart} (hx : b < x.b) (hy : b < y.b) (hP : b < P.b) (h : OneOk x y P) :
    ∃ Q, oneB x y b P = some Q := by
  obtain ⟨Q, hQ, -⟩ := foldlM_some (fun P i => (List.range y.m).foldlM (fun P j => do
      let u ← x.get b 0 i
      let v ← y.get b 0 j
      BPart.inc P b 0 (i * y.m + j) (u * v)) P) (SameDim P) (List.range x.m) (fun s hs i hi =>
      foldlM_some _ (SameDim P) _ (fun s hs j hj => by
        obtain ⟨h1, h2, h3, h4⟩ := h i (List.mem_range.1 hi) j (List.mem_range.1 hj)
        have g1 : x.get b 0 i = some (x.data b 0 i) := if_pos ⟨hx, h1, List.mem_range.1 hi⟩
        have g2 : y.get b 0 j = some (y.data b 0 j) := if_pos ⟨hy, h2, List.mem_range.1 hj⟩
        rw [g1, g2]
        have hc : b < s.b ∧ 0 < s.d ∧ i * y.m + j < s.m := by rw [hs.1, hs.2.1, hs.2.2]; exact ⟨hP, h3, h4⟩
        exact ⟨_, if_pos hc, hs⟩) s hs) P ⟨rfl, rfl, rfl⟩
  exact ⟨Q, hQ⟩

theorem oneB_none {x y : BPart} {b : Nat} {P : BPart} (h : ¬ OneOk x y P) : oneB x y b P = none := by
  unfold OneOk at h
  push Not at h
  obtain ⟨i, hi, j, hj, h⟩ := h
  have row : ∀ (i : Nat) (s y' s'), SameDim P s → (do
      let u ← x.get b 0 i
      let v ← y.get b 0 y'
      BPart.inc s b 0 (i * y.m + y') (u * v)) = some s' → SameDim P s' := by
    intro i s y' s' hs e
    obtain ⟨u, hu⟩ := incB_step e
    obtain ⟨h1, h2, h3⟩ := BPart.inc_b hu
    exact ⟨h1.trans hs.1, h2.trans hs.2.1, h3.trans hs.2.2⟩
  refine foldlM_fails _ (SameDim P) ?_ (x := i) ?_ _ (List.mem_range.2 hi) _ ⟨rfl, rfl, rfl⟩
  · intro s y' s' hs e
    exact foldlM_keep _ (SameDim P) (row y') _ _ _ hs e
  · intro s hs
    refine foldlM_fails _ (SameDim P) (row i) (x := j) ?_ _ (List.mem_range.2 hj) _ hs
    intro s hs
    unfold BPart.get
    by_cases h1 : b < x.b ∧ 0 < x.d ∧ i < x.m
    · by_cases h2 : b < y.b ∧ 0 < y.d ∧ j < y.m
      · rw [if_pos h1, if_pos h2]
        refine if_neg ?_
        rintro ⟨-, h3, h4⟩
        rw [hs.2.1] at h3
        rw [hs.2.2] at h4
        have := h h1.2.1 h2.2.1 h3
        omega
      · rw [if_pos h1, if_neg h2]; rfl
    · rw [if_neg h1]; rfl

theorem oneLoop_member {x y P : BPart} {nb : Nat} (hx : x.b = nb) (hy : y.b = nb) (hP : P.b = nb) {k : Nat} (hk : k < nb) :
    ((List.range nb).foldlM (fun P b => oneB x y b P) P).map (·.member k) = oneV (x.member k) (y.member k) (P.member k) ∧
      ∀ Q, (List.range nb).foldlM (fun P b => oneB x y b P) P = some Q → Q.b = nb := by
  have hkeep : ∀ s b' s', SameDim P s → oneB x y b' s = some s' → SameDim P s' := by
    intro s b' s' hs e
    obtain ⟨⟨h1, h2, h3⟩, -⟩ := oneB_keep e
    exact ⟨h1.trans hs.1, h2.trans hs.2.1, h3.trans hs.2.2⟩
  refine ⟨?_, fun Q e => ?_⟩
  · by_cases h : OneOk x y P
    · have key : ∀ (l : List Nat), (∀ b ∈ l, b < nb) → l.Nodup → ∀ s, SameDim P s →
          (l.foldlM (fun P b => oneB x y b P) s).map (·.member k) =
            if k ∈ l then oneV (x.member k) (y.member k) (s.member k) else some (s.member k) := by
        intro l
        induction l with
        | nil => intro _ _ s _; rfl
        | cons b l ih =>
          intro hl hnd s hs
          have hOk : OneOk x y s := by
            intro i hi j hj
            obtain ⟨h1, h2, h3, h4⟩ := h i hi j hj
            rw [hs.2.1, hs.2.2]; exact ⟨h1, h2, h3, h4⟩
          have hb := hl b (by simp)
          obtain ⟨Q, hQ⟩ := oneB_some (b := b) (by omega) (by omega) (by rw [hs.1]; omega) hOk
          obtain ⟨hQ1, hQ2⟩ := oneB_keep hQ
          rw [List.nodup_cons] at hnd
          rw [List.foldlM_cons, hQ]
          have := ih (fun b hb => hl b (by simp [hb])) hnd.2 Q (hkeep s b Q hs hQ)
          refine this.trans ?_
          by_cases e : k = b
          · subst e
            rw [if_neg hnd.1, if_pos (by simp), ← oneB_member (by omega) (by omega) (by rw [hs.1]; omega), hQ]
            rfl
          · rw [hQ2 k e]
            by_cases hkl : k ∈ l
            · rw [if_pos hkl, if_pos (by simp [hkl])]
            · rw [if_neg hkl, if_neg (by simp [hkl, e])]
      rw [key _ (fun b hb => List.mem_range.1 hb) List.nodup_range P ⟨rfl, rfl, rfl⟩, if_pos (List.mem_range.2 hk)]
    · have h0 : (List.range nb).foldlM (fun P b => oneB x y b P) P = none := by
        refine foldlM_fails _ (SameDim P) (fun s b' s' hs e => hkeep s b' s' hs e) (x := k) (fun s hs => ?_) _ (List.mem_range.2 hk) _ ⟨rfl, rfl, rfl⟩
        apply oneB_none
        intro h'
        apply h
        intro i hi j hj
        have := h' i hi j hj
        rwa [hs.2.1, hs.2.2] at this
      rw [h0, ← oneB_member (by omega) (by omega) (by omega), oneB_none h]
  · have := foldlM_keep _ (SameDim P) (fun s b' s' hs e => hkeep s b' s' hs e) _ _ _ ⟨rfl, rfl, rfl⟩ e
    rw [this.1]; exact hP

/-! ### parts and vectors -/

theorem partOf_member (v : SnVecB) (k : Nat) (mu : List Nat) : partOf (member v k) mu = (partOfB v mu).map (·.member k) := by
  unfold partOf partOfB
  rw [index_member]
  cases SnVecB.index v mu with
  | none => rfl
  | some ix => exact member_get v k ix

theorem partOfB_b {b : Nat} {v : SnVecB} (hv : AllB b v) {mu : List Nat} {P : BPart} (h : partOfB v mu = some P) : P.b = b := by
  unfold partOfB at h
  obtain ⟨ix, -, h⟩ := Option.bind_eq_some_iff.1 h
  exact hv.get h

theorem twistB_member {d b : Nat} {sub : SnVecB} (hs : AllB b sub) (sl : Slots d) (dt : SnType) (k : Nat) :
    (twistB sub sl dt).map (member · k) = twist (member sub k) sl dt ∧ ∀ w, twistB sub sl dt = some w → AllB b w := by
  unfold twistB twist
  induction dt with
  | nil => exact ⟨rfl, fun w h => by simp at h; subst h; intro P hP; simp at hP⟩
  | cons e dt ih =>
    rw [List.mapM_cons, List.mapM_cons, partOf_member, ← ih.1]
    cases e1 : partOfB sub e.1 with
    | none => exact ⟨rfl, fun w h => by simp at h⟩
    | some P =>
      cases sl e.1 with
      | none => exact ⟨rfl, fun w h => by simp at h⟩
      | some s =>
        cases mkIrrep e.1 with
        | none => exact ⟨rfl, fun w h => by simp at h⟩
        | some rho =>
          simp only [Option.bind_eq_bind, Option.bind_some, Option.map_some]
          by_cases hm : P.m = s.k
          · rw [if_pos hm, if_pos (show (P.member k).m = s.k from hm)]
            simp only [Option.bind_some]
            constructor
            · generalize List.mapM (m := Option) _ dt = o
              cases o with
              | none => rfl
              | some w => rfl
            · intro w h
              obtain ⟨w', h1, h2⟩ := Option.bind_eq_some_iff.1 h
              simp only [Option.pure_def, Option.some.injEq] at h2
              subst h2
              intro Q hQ
              rcases List.mem_cons.1 hQ with rfl | hQ
              · have := partOfB_b hs e1
                exact this
              · exact ih.2 w' h1 Q hQ
          · rw [if_neg hm, if_neg (show ¬ (P.member k).m = s.k from hm)]
            exact ⟨rfl, fun w h => by simp at h⟩

/-- what the recursion says: the functions for parts agree member by member, on parts over `S_n` -/
def SimAcc (n : Nat) (accB : SnVecB → SnType → BPart → BPart → Option (SnVecB × SnType))
    (acc : SnVec → SnType → VPart → VPart → Option (SnVec × SnType)) : Prop :=
  ∀ {b : Nat}, ∀ {x y : BPart}, x.b = b → y.b = b → IsPartition n x.irrep.lambda → IsPartition n y.irrep.lambda →
    mkIrrep x.irrep.lambda = some x.irrep → mkIrrep y.irrep.lambda = some y.irrep → x.d = x.irrep.d → y.d = y.irrep.d →
    ∀ (R : SnVecB), AllB b R → ∀ (offs : SnType),
      (∀ k < b, (accB R offs x y).map (fun s => (member s.1 k, s.2)) = acc (member R k) offs (x.member k) (y.member k)) ∧
      ∀ s, accB R offs x y = some s → AllB b s.1

theorem getb_eq {n b : Nat} {v : SnVecB} (hv : Ok n b v) (hne : v ≠ []) : getb v = some b := by
  unfold getb
  cases v with
  | nil => exact absurd rfl hne
  | cons P v => simp; exact hv.size P (by simp)

theorem cgVecWithB_member {n b : Nat} {accB : SnVecB → SnType → BPart → BPart → Option (SnVecB × SnType)}
    {acc : SnVec → SnType → VPart → VPart → Option (SnVec × SnType)} (ha : SimAcc n accB acc) {x y : SnVecB} (hx : Ok n b x) (hy : Ok n b y)
    (hx0 : x ≠ []) (hy0 : y ≠ []) :
    (∀ k < b, (cgVecWithB accB x y).map (member · k) = cgVecWith acc (member x k) (member y k)) ∧
      ∀ w, cgVecWithB accB x y = some w → AllB b w := by
  have hsb : sameb2 x y = some b := by
    unfold sameb2
    rw [getb_eq hx hx0, getb_eq hy hy0]
    simp
  have step : ∀ P ∈ x, ∀ Q ∈ y, ∀ (R : SnVecB) (offs : SnType), AllB b R →
      (∀ k < b, (accB R offs P Q).map (fun s => (member s.1 k, s.2)) = acc (member R k) offs (P.member k) (Q.member k)) ∧
      ∀ s, accB R offs P Q = some s → AllB b s.1 := by
    intro P hP Q hQ R offs hR
    obtain ⟨p1, p2, p3⟩ := hx.part P hP
    obtain ⟨q1, q2, q3⟩ := hy.part Q hQ
    exact ha (hx.size P hP) (hy.size Q hQ) p1 q1 p2 q2 p3 q3 R hR offs
  have inner : ∀ P ∈ x, ∀ s : SnVecB × SnType, AllB b s.1 →
      (∀ k < b, (y.foldlM (fun s Q => accB s.1 s.2 P Q) s).map (fun s => (member s.1 k, s.2)) =
        (member y k).foldlM (fun s Q => acc s.1 s.2 (P.member k) Q) (member s.1 k, s.2)) ∧
      ∀ s', y.foldlM (fun s Q => accB s.1 s.2 P Q) s = some s' → AllB b s'.1 := by
    intro P hP s hs
    constructor
    · intro k hk
      unfold member
      rw [List.foldlM_map]
      refine foldlM_proj (fun s : SnVecB × SnType => (member s.1 k, s.2)) _ _ (fun s => AllB b s.1) y (fun s hs Q hQ => ?_)
        (fun s hs Q hQ s' e => (step P hP Q hQ s.1 s.2 hs).2 s' e) s hs
      exact (step P hP Q hQ s.1 s.2 hs).1 k hk
    · intro s' e
      have : ∀ (l : List BPart), (∀ Q ∈ l, Q ∈ y) → ∀ s : SnVecB × SnType, AllB b s.1 → ∀ s', l.foldlM (fun s Q => accB s.1 s.2 P Q) s = some s' →
          AllB b s'.1 := by
        intro l
        induction l with
        | nil => intro _ s hs s' e; simp at e; rw [← e]; exact hs
        | cons Q l ih =>
          intro hl s hs s' e
          rw [List.foldlM_cons] at e
          obtain ⟨u, e1, e2⟩ := Option.bind_eq_some_iff.1 e
          exact ih (fun Q hQ => hl Q (by simp [hQ])) u ((step P hP Q (hl Q (by simp)) s.1 s.2 hs).2 u e1) s' e2
      exact this y (fun _ h => h) s hs s' e
  unfold cgVecWithB cgVecWith
  rw [hsb]
  simp only [Option.bind_eq_bind, Option.bind_some, member_getType]
  cases getType x with
  | none => exact ⟨fun k _ => rfl, fun w h => by simp at h⟩
  | some tx =>
    cases getType y with
    | none => exact ⟨fun k _ => rfl, fun w h => by simp at h⟩
    | some ty =>
      simp only [Option.bind_some]
      cases cgTypes tx ty with
      | none => exact ⟨fun k _ => rfl, fun w h => by simp at h⟩
      | some t =>
        simp only [Option.bind_some]
        cases e : SnVecB.zero b t with
        | none =>
          refine ⟨fun k _ => ?_, fun w h => by simp at h⟩
          rw [← member_zero b k, e]; rfl
        | some R =>
          have hR := zero_allB e
          simp only [Option.bind_some]
          constructor
          · intro k hk
            rw [← member_zero b k, e]
            simp only [Option.map_some, Option.bind_some]
            have h1 := foldlM_proj (fun s : SnVecB × SnType => (member s.1 k, s.2))
              (fun s P => y.foldlM (fun s Q => accB s.1 s.2 P Q) s)
              (fun s P => (member y k).foldlM (fun s Q => acc s.1 s.2 (P.member k) Q) s) (fun s => AllB b s.1) x
              (fun s hs P hP => (inner P hP s hs).1 k hk) (fun s hs P hP s' e => (inner P hP s hs).2 s' e) (R, []) hR
            have h2 : (member x k).foldlM (fun s P => (member y k).foldlM (fun s Q => acc s.1 s.2 P Q) s) (member R k, []) =
                x.foldlM (fun s P => (member y k).foldlM (fun s Q => acc s.1 s.2 (P.member k) Q) s) (member R k, []) := by
              conv_lhs => rw [show member x k = x.map fun P => P.member k from rfl]
              rw [List.foldlM_map]
            rw [h2, ← h1]
            cases x.foldlM (fun s P => y.foldlM (fun s Q => accB s.1 s.2 P Q) s) (R, []) with
            | none => rfl
            | some s => rfl
          · intro w h
            obtain ⟨s, h1, h2⟩ := Option.bind_eq_some_iff.1 h
            rw [Option.some.injEq] at h2
            rw [← h2]
            have : ∀ (l : List BPart), (∀ Q ∈ l, Q ∈ x) → ∀ s : SnVecB × SnType, AllB b s.1 → ∀ s',
                l.foldlM (fun s P => y.foldlM (fun s Q => accB s.1 s.2 P Q) s) s = some s' → AllB b s'.1 := by
              intro l
              induction l with
              | nil => intro _ s hs s' e; simp at e; rw [← e]; exact hs
              | cons P l ih =>
                intro hl s hs s' e
                rw [List.foldlM_cons] at e
                obtain ⟨u, e1, e2⟩ := Option.bind_eq_some_iff.1 e
                exact ih (fun Q hQ => hl Q (by simp [hQ])) u ((inner P (hl P (by simp)) s hs).2 u e1) s' e2
            exact this x (fun _ h => h) (R, []) hR s h1

end Snob
