import Verif.Spec.SnVec
import Verif.Spec.SnType
import Verif.Proofs.SnRep
import Verif.Proofs.IrrepSpec
import Verif.Props.Irrep

/-! Vectors: restriction, induction, concatenation (C49, C50). -/

namespace Snob

namespace VPart

theorem ext {P Q : VPart} (h1 : P.d = Q.d) (h2 : P.m = Q.m) (h3 : P.irrep = Q.irrep)
    (h4 : ∀ i j, P.data i j = Q.data i j) : P = Q := by
  cases P; cases Q; simp only at h1 h2 h3 h4
  subst h1 h2 h3
  congr
  funext i j; exact h4 i j

theorem innerLoop_eq (P : VPart) (r joffs J : Nat) (f : Nat → Option ℝ) (g : Nat → ℝ)
    (hf : ∀ j < J, f j = some (g j)) (hr : J = 0 ∨ r < P.d) (hj : J = 0 ∨ joffs + J ≤ P.m) :
    (List.range J).foldlM (fun P j => do
      let x ← f j
      VPart.inc P r (j + joffs) x) P =
    some { P with data := fun i j => P.data i j + if i = r ∧ joffs ≤ j ∧ j < joffs + J then g (j - joffs) else 0 } := by
  induction J with
  | zero =>
    simp only [List.range_zero, List.foldlM_nil, Option.pure_def, Option.some.injEq]
    refine VPart.ext rfl rfl rfl fun i j => ?_
    simp only
    rw [if_neg (by omega), add_zero]
  | succ J ih =>
    rw [List.range_succ, List.foldlM_append, ih (fun j h => hf j (by omega)) (by omega) (by omega)]
    simp only [Option.bind_eq_bind, Option.bind_some, List.foldlM_cons, List.foldlM_nil, hf J (by omega), VPart.inc]
    rw [if_pos (by constructor <;> omega)]
    simp only [Option.bind_some, Option.pure_def, Option.some.injEq]
    refine VPart.ext rfl rfl rfl fun i j => ?_
    simp only
    by_cases h : i = r
    · subst h
      rcases Nat.lt_trichotomy j (J + joffs) with h1 | h1 | h1
      · rw [if_neg (by omega)]
        by_cases h2 : joffs ≤ j
        · rw [if_pos (by omega), if_pos (by omega)]
        · rw [if_neg (by omega), if_neg (by omega)]
      · subst h1
        rw [if_pos ⟨rfl, rfl⟩, if_neg (by omega), if_pos (by omega), add_zero]
        congr 2
        omega
      · rw [if_neg (by omega), if_neg (by omega), if_neg (by omega)]
    · rw [if_neg (by omega), if_neg (by omega), if_neg (by omega)]

theorem incLoop_eq (P : VPart) (ioffs joffs I J : Nat) (f : Nat → Nat → Option ℝ) (g : Nat → Nat → ℝ)
    (hf : ∀ i < I, ∀ j < J, f i j = some (g i j)) (hI : ioffs + I ≤ P.d) (hJ : I = 0 ∨ J = 0 ∨ joffs + J ≤ P.m) :
    P.incLoop ioffs joffs I J f =
      some { P with data := fun i j => P.data i j +
        if (ioffs ≤ i ∧ i < ioffs + I) ∧ joffs ≤ j ∧ j < joffs + J then g (i - ioffs) (j - joffs) else 0 } := by
  unfold incLoop
  induction I with
  | zero =>
    simp only [List.range_zero, List.foldlM_nil, Option.pure_def, Option.some.injEq]
    refine VPart.ext rfl rfl rfl fun i j => ?_
    simp only
    rw [if_neg (by omega), add_zero]
  | succ I ih =>
    rw [List.range_succ, List.foldlM_append, ih (fun i h => hf i (by omega)) (by omega) (by omega)]
    simp only [Option.bind_eq_bind, Option.bind_some, List.foldlM_cons, List.foldlM_nil]
    have := innerLoop_eq { P with data := fun i j => P.data i j +
        if (ioffs ≤ i ∧ i < ioffs + I) ∧ joffs ≤ j ∧ j < joffs + J then g (i - ioffs) (j - joffs) else 0 }
        (I + ioffs) joffs J (f I) (g I) (hf I (by omega)) (Or.inr (by simp only; omega)) (by simp only; omega)
    simp only [Option.bind_eq_bind] at this
    rw [this]
    simp only [Option.bind_some, Option.pure_def, Option.some.injEq]
    refine VPart.ext rfl rfl rfl fun i j => ?_
    simp only
    rcases Nat.lt_trichotomy i (I + ioffs) with h1 | h1 | h1
    · rw [if_neg (c := i = _ ∧ _) (by omega), add_zero]
      by_cases h2 : ioffs ≤ i ∧ joffs ≤ j ∧ j < joffs + J
      · rw [if_pos (by omega), if_pos (by omega)]
      · rw [if_neg (by omega), if_neg (by omega)]
    · subst h1
      rw [if_neg (c := (_ ∧ _) ∧ _) (by omega), add_zero]
      by_cases h2 : joffs ≤ j ∧ j < joffs + J
      · rw [if_pos (by omega), if_pos (by omega)]
        congr 2
        omega
      · rw [if_neg (by omega), if_neg (by omega)]
    · rw [if_neg (by omega), if_neg (by omega), if_neg (by omega), add_zero]

theorem get_eq (P : VPart) {i j : Nat} (hi : i < P.d) (hj : j < P.m) : P.get i j = some (P.data i j) :=
  if_pos ⟨hi, hj⟩

end VPart

/-! ### parts in normal form -/

/-- the irrep of a partition -/
noncomputable def irrOf (x : List Nat) : IrrepObj := (mkIrrep x).getD ⟨0, 0, [], [], []⟩

/-- the part of a partition with the given columns -/
noncomputable def mkP (x : List Nat) (m : Nat) (f : Nat → Nat → ℝ) : VPart := ⟨(irrOf x).d, m, irrOf x, f⟩

theorem irrOf_spec {n : Nat} (hn : 1 ≤ n) {x : List Nat} (hx : IsPartition n x) :
    mkIrrep x = some (irrOf x) ∧ (irrOf x).lambda = x ∧ (irrOf x).d = dimW n x ∧ Repr' hx (irrOf x) := by
  obtain ⟨R, hR, hl, h⟩ := exists_repr hn hx
  have : irrOf x = R := by unfold irrOf; rw [hR]; rfl
  rw [this]
  exact ⟨hR, hl, h.d_eq, h⟩

theorem zero_eq {n : Nat} (hn : 1 ≤ n) {x : List Nat} (hx : IsPartition n x) (m : Nat) :
    VPart.zero x m = some (mkP x m fun _ _ => 0) := by
  unfold VPart.zero
  rw [(irrOf_spec hn hx).1]
  simp [mkP]

theorem lookup_irr {n : Nat} {v : SnVec} (hv : SnVec.Ok n v) {P : VPart} (hP : P ∈ v) :
    P = mkP P.irrep.lambda P.m P.data := by
  obtain ⟨-, h2, h3⟩ := hv.part P hP
  have : irrOf P.irrep.lambda = P.irrep := by unfold irrOf; rw [h2]; rfl
  unfold mkP
  rw [this, ← h3]

/-- the columns of a part as lists -/
theorem cols_mkP (x : List Nat) (m : Nat) (f : Nat → Nat → ℝ) :
    (mkP x m f).cols = (List.range m).map fun j => (List.range (irrOf x).d).map fun i => f i j := rfl

theorem cols_congr {x : List Nat} {m : Nat} {f g : Nat → Nat → ℝ} (h : ∀ i < (irrOf x).d, ∀ j < m, f i j = g i j) :
    (mkP x m f).cols = (mkP x m g).cols := by
  rw [cols_mkP, cols_mkP]
  refine List.map_congr_left fun j hj => List.map_congr_left fun i hi => ?_
  exact h i (List.mem_range.1 hi) j (List.mem_range.1 hj)

/-! ### positions -/

theorem set_map {α β : Type} [DecidableEq α] {L : List α} (hL : L.Nodup) {k : Nat} {y : α} (hk : L[k]? = some y) (f : α → β) (x : β) :
    (L.map f).set k x = L.map fun z => if z = y then x else f z := by
  apply List.ext_getElem?
  intro i
  obtain ⟨hlt, hv⟩ := List.getElem?_eq_some_iff.1 hk
  rw [List.getElem?_set, List.getElem?_map, List.getElem?_map, List.length_map]
  by_cases h : k = i
  · subst h
    rw [if_pos rfl, if_pos hlt, hk]
    simp
  · rw [if_neg h]
    cases hz : L[i]? with
    | none => rfl
    | some z =>
      rw [Option.map_some, Option.map_some, if_neg]
      rintro rfl
      exact h ((List.getElem?_inj (l := L) hlt hL).1 (hk.trans hz.symm))

theorem vecIndex_ok {n : Nat} {v : SnVec} (hv : ∀ P ∈ v, IsPartition n P.irrep.lambda) {y : List Nat} (hy : IsPartition n y)
    (hm : y ∈ v.map fun P => P.irrep.lambda) :
    ∃ k P, SnVec.index v y = some k ∧ v[k]? = some P ∧ P.irrep.lambda = y := by
  obtain ⟨P, hP, hPy⟩ := List.mem_map.1 hm
  have h1 : (v.findIdx? fun P => IP.eqb P.irrep.lambda y) ≠ none := by
    rw [Ne, List.findIdx?_eq_none_iff]
    intro h
    have := h P hP
    rw [hPy] at this
    exact absurd ((eqb_iff y y).2 fun _ => rfl) (by rw [this]; decide)
  obtain ⟨k, hk⟩ := Option.ne_none_iff_exists'.1 h1
  obtain ⟨hlt, h2, -⟩ := List.findIdx?_eq_some_iff_getElem.1 hk
  refine ⟨k, v[k], hk, List.getElem?_eq_getElem hlt, ?_⟩
  exact (hv _ (List.getElem_mem hlt)).ext hy ((eqb_iff _ _).1 h2)

theorem index_map {n : Nat} (hn : 1 ≤ n) {L : List (List Nat)} (hL : ∀ x ∈ L, IsPartition n x) (M : List Nat → Nat)
    (D : List Nat → Nat → Nat → ℝ) {y : List Nat} (hy : y ∈ L) :
    ∃ k, SnVec.index (L.map fun x => mkP x (M x) (D x)) y = some k ∧ L[k]? = some y := by
  have hl : ∀ x ∈ L, (mkP x (M x) (D x)).irrep.lambda = x := fun x hx => (irrOf_spec hn (hL x hx)).2.1
  obtain ⟨k, P, h1, h2, h3⟩ := vecIndex_ok (n := n) (v := L.map fun x => mkP x (M x) (D x)) (by
      intro P hP
      obtain ⟨x, hx, rfl⟩ := List.mem_map.1 hP
      rw [hl x hx]; exact hL x hx) (hL y hy) (by
      rw [List.map_map]
      exact List.mem_map.2 ⟨y, hy, hl y hy⟩)
  refine ⟨k, h1, ?_⟩
  rw [List.getElem?_map, Option.map_eq_some_iff] at h2
  obtain ⟨x, hx, rfl⟩ := h2
  rw [hl x (List.mem_of_getElem? hx)] at h3
  rw [hx, h3]

theorem foldlM_flatten {α σ : Type} (f : σ → α → Option σ) (ls : List (List α)) (s : σ) :
    ls.foldlM (fun s l => l.foldlM f s) s = ls.flatten.foldlM f s := by
  induction ls generalizing s with
  | nil => rfl
  | cons l ls ih => rw [List.foldlM_cons, List.flatten_cons, List.foldlM_append]; simp only [ih]

/-! ### `cat` -/

/-- all columns of the part of `x` in a list of parts -/
def colsL (x : List Nat) (ps : List VPart) : List (List ℝ) :=
  ps.flatMap fun P => if P.irrep.lambda = x then P.cols else []

/-- the same as functions of the row -/
def colF (x : List Nat) (ps : List VPart) : List (Nat → ℝ) :=
  ps.flatMap fun P => if P.irrep.lambda = x then (List.range P.m).map (fun j i => P.data i j) else []

theorem colF_append (x : List Nat) (ps qs : List VPart) : colF x (ps ++ qs) = colF x ps ++ colF x qs := by
  unfold colF; rw [List.flatMap_append]

theorem colF_single (x : List Nat) (P : VPart) :
    colF x [P] = if P.irrep.lambda = x then (List.range P.m).map (fun j i => P.data i j) else [] := by
  unfold colF; simp

theorem colF_single_length (x : List Nat) (P : VPart) :
    (colF x [P]).length = if P.irrep.lambda = x then P.m else 0 := by
  rw [colF_single]; split_ifs <;> simp

/-- entries of the columns entered so far -/
noncomputable def catD (ps : List VPart) (x : List Nat) (i j : Nat) : ℝ :=
  if i < (irrOf x).d then ((colF x ps)[j]?.map fun c => c i).getD 0 else 0

theorem catType_ok {n : Nat} (ps : List VPart) (hps : ∀ P ∈ ps, IsPartition n P.irrep.lambda) (t : SnType) (ht : TypeOk n t) :
    ∃ t', ps.foldlM (fun tau P => SnType.add tau P.irrep.lambda P.m) t = some t' ∧ TypeOk n t' ∧
      (∀ y, y ∈ parts t' ↔ y ∈ parts t ∨ y ∈ ps.map fun P => P.irrep.lambda) ∧
      ∀ y, mult t' y = mult t y + ((colF y ps).length : Int) := by
  induction ps generalizing t with
  | nil => exact ⟨t, rfl, ht, by simp, by simp [colF]⟩
  | cons P ps ih =>
    obtain ⟨t1, a1, a2, a3, a4, -⟩ := SnType.add_ok (P.m : Int) ht (hps P (by simp))
    obtain ⟨t2, b1, b2, b3, b4⟩ := ih (fun Q hQ => hps Q (by simp [hQ])) t1 a2
    refine ⟨t2, ?_, b2, ?_, ?_⟩
    · rw [List.foldlM_cons, a1]; exact b1
    · intro y
      rw [b3, a3, List.map_cons, List.mem_cons]
      tauto
    · intro y
      rw [b4, a4]
      have := colF_append y [P] ps
      rw [List.singleton_append] at this
      rw [this, List.length_append, colF_single_length]
      by_cases h : y = P.irrep.lambda
      · rw [if_pos h, if_pos h.symm]; push_cast; ring
      · rw [if_neg h, if_neg (Ne.symm h)]; push_cast; ring

theorem lookup_of_mem {t : SnType} (hnd : (parts t).Nodup) {e : List Nat × Int} (he : e ∈ t) : mult t e.1 = e.2 := by
  induction t with
  | nil => simp at he
  | cons a t ih =>
    unfold parts at hnd
    rw [List.map_cons, List.nodup_cons] at hnd
    unfold mult
    rw [List.lookup_cons]
    rcases List.mem_cons.1 he with rfl | h
    · simp
    · have hne : e.1 ≠ a.1 := by
        intro h'
        exact hnd.1 (h' ▸ List.mem_map.2 ⟨e, h, rfl⟩)
      have : (e.1 == a.1) = false := by simpa using hne
      rw [this]
      exact ih hnd.2 h

theorem TypeOk.nodup {n : Nat} {t : SnType} (ht : TypeOk n t) : (parts t).Nodup := by
  refine ht.sorted.imp ?_
  rintro a b ⟨i, -, h⟩ rfl
  omega

theorem TypeOk.eq_map {n : Nat} {t : SnType} (ht : TypeOk n t) : t = (parts t).map fun x => (x, mult t x) := by
  unfold parts
  rw [List.map_map]
  conv_lhs => rw [← List.map_id t]
  refine List.map_congr_left fun e he => ?_
  simp only [id, Function.comp]
  rw [lookup_of_mem ht.nodup he]

theorem vecZero_eq {n : Nat} (hn : 1 ≤ n) {t : SnType} (ht : TypeOk n t) (hm : ∀ x ∈ parts t, 0 ≤ mult t x) :
    SnVec.zero t = some ((parts t).map fun x => mkP x (mult t x).toNat fun _ _ => 0) := by
  have h1 : SnVec.zero t = some (t.map fun e => mkP e.1 e.2.toNat fun _ _ => 0) := by
    unfold SnVec.zero
    apply mapM_map
    intro e he
    have hx : e.1 ∈ parts t := List.mem_map.2 ⟨e, he, rfl⟩
    have h0 := hm _ hx
    rw [lookup_of_mem ht.nodup he] at h0
    obtain ⟨k, hk⟩ := Int.eq_ofNat_of_zero_le h0
    rw [hk, Int.toNat_natCast]
    exact zero_eq hn (ht.all _ hx) k
  rw [h1]
  unfold parts
  rw [List.map_map]
  congr 1
  refine List.map_congr_left fun e he => ?_
  simp only [Function.comp]
  rw [lookup_of_mem ht.nodup he]

theorem catD_snoc {ps : List VPart} {x : List Nat} {P : VPart} (hP : P.d = (irrOf P.irrep.lambda).d) (i j : Nat) :
    catD (ps ++ [P]) x i j = catD ps x i j +
      if P.irrep.lambda = x ∧ (0 ≤ i ∧ i < 0 + P.d) ∧ (colF x ps).length ≤ j ∧ j < (colF x ps).length + P.m then
        P.data (i - 0) (j - (colF x ps).length) else 0 := by
  unfold catD
  rw [colF_append, colF_single]
  by_cases hx : P.irrep.lambda = x
  · rw [← hx, ← hP]
    by_cases hi : i < P.d
    · rw [if_pos hi, if_pos hi, if_pos rfl]
      rcases Nat.lt_or_ge j (colF P.irrep.lambda ps).length with h | h
      · rw [if_neg (by omega), add_zero, List.getElem?_append_left h]
      · rw [List.getElem?_append_right h, List.getElem?_eq_none h]
        rcases Nat.lt_or_ge j ((colF P.irrep.lambda ps).length + P.m) with h' | h'
        · rw [if_pos ⟨rfl, by omega, h, h'⟩, List.getElem?_map, List.getElem?_range (by omega)]
          simp
        · rw [if_neg (by omega), List.getElem?_eq_none (by simp; omega)]
          simp
    · rw [if_neg hi, if_neg hi, if_neg (by omega), add_zero]
  · rw [if_neg hx, List.append_nil, if_neg (c := _ ∧ _) (fun h => hx h.1), add_zero]

theorem catLoop_eq {n : Nat} (hn : 1 ≤ n) {L : List (List Nat)} (hL : ∀ x ∈ L, IsPartition n x) (hnd : L.Nodup)
    (M : List Nat → Nat) (qs ps : List VPart) (hps : ∀ P ∈ qs, P.irrep.lambda ∈ L ∧ P.d = (irrOf P.irrep.lambda).d)
    (hM : ∀ x ∈ L, (colF x (ps ++ qs)).length ≤ M x) :
    qs.foldlM SnVec.catStep (L.map (fun x => mkP x (M x) (catD ps x)), L.map fun x => (colF x ps).length) =
      some (L.map (fun x => mkP x (M x) (catD (ps ++ qs) x)), L.map fun x => (colF x (ps ++ qs)).length) := by
  induction qs generalizing ps with
  | nil => simp
  | cons P qs ih =>
    obtain ⟨hP, hd⟩ := hps P (by simp)
    obtain ⟨k, h1, h2⟩ := index_map hn hL M (catD ps) hP
    have hlen : (colF P.irrep.lambda ps).length + P.m ≤ M P.irrep.lambda := by
      refine le_trans ?_ (hM _ hP)
      have := colF_append P.irrep.lambda [P] qs
      rw [List.singleton_append] at this
      rw [colF_append, this, List.length_append, List.length_append, colF_single_length, if_pos rfl]
      omega
    have hstep : SnVec.catStep (L.map (fun x => mkP x (M x) (catD ps x)), L.map fun x => (colF x ps).length) P =
        some (L.map (fun x => mkP x (M x) (catD (ps ++ [P]) x)), L.map fun x => (colF x (ps ++ [P])).length) := by
      unfold SnVec.catStep
      simp only [h1, List.getElem?_map, h2, Option.map_some, Option.bind_eq_bind, Option.bind_some]
      unfold VPart.addToBlock
      rw [VPart.incLoop_eq _ _ _ _ _ _ P.data (fun i hi j hj => P.get_eq hi hj)
        (by show 0 + P.d ≤ (irrOf _).d; omega) (Or.inr (Or.inr hlen))]
      simp only [Option.bind_some, Option.some.injEq, Prod.mk.injEq]
      rw [set_map hnd h2, set_map hnd h2]
      refine ⟨List.map_congr_left fun x _ => ?_, List.map_congr_left fun x _ => ?_⟩
      · by_cases hx : x = P.irrep.lambda
        · subst hx
          rw [if_pos rfl]
          refine VPart.ext rfl rfl rfl fun i j => ?_
          simp only [mkP]
          rw [catD_snoc hd]
          simp
        · rw [if_neg hx]
          refine VPart.ext rfl rfl rfl fun i j => ?_
          simp only [mkP]
          rw [catD_snoc hd, if_neg (fun h => hx h.1.symm), add_zero]
      · rw [colF_append, List.length_append, colF_single_length]
        by_cases hx : x = P.irrep.lambda
        · subst hx; rw [if_pos rfl, if_pos rfl]
        · rw [if_neg hx, if_neg (Ne.symm hx), add_zero]
    rw [List.foldlM_cons, hstep]
    simp only [Option.bind_eq_bind, Option.bind_some]
    rw [ih (ps ++ [P]) (fun Q hQ => hps Q (by simp [hQ])) (by simpa using hM)]
    simp

theorem colsL_eq {x : List Nat} {ps : List VPart} (h : ∀ P ∈ ps, P.d = (irrOf P.irrep.lambda).d) :
    colsL x ps = (colF x ps).map fun c => (List.range (irrOf x).d).map c := by
  unfold colsL colF
  rw [List.map_flatMap]
  refine List.flatMap_congr fun P hP => ?_
  by_cases hx : P.irrep.lambda = x
  · rw [if_pos hx, if_pos hx, List.map_map, ← hx, ← h P hP]; rfl
  · rw [if_neg hx, if_neg hx]; rfl

/-- `cat` on vectors over `S_n` -/
theorem cat_ok {n : Nat} (hn : 1 ≤ n) (vs : List SnVec) (hvs : ∀ v ∈ vs, SnVec.Ok n v) :
    ∃ tau R, SnVec.catType vs = some tau ∧ TypeOk n tau ∧
      (∀ y, y ∈ parts tau ↔ y ∈ vs.flatten.map fun P => P.irrep.lambda) ∧
      (∀ y, mult tau y = ((colsL y vs.flatten).length : Int)) ∧
      SnVec.cat vs = some R ∧ SnVec.Ok n R ∧
      SnVec.obs R = (parts tau).map fun x => (x, colsL x vs.flatten) := by
  have hpart : ∀ P ∈ vs.flatten, IsPartition n P.irrep.lambda ∧ P.d = (irrOf P.irrep.lambda).d := by
    intro P hP
    obtain ⟨v, hv, hP⟩ := List.mem_flatten.1 hP
    refine ⟨((hvs v hv).part P hP).1, ?_⟩
    have := lookup_irr (hvs v hv) hP
    conv_lhs => rw [this]
    rfl
  obtain ⟨tau, a1, a2, a3, a4⟩ := catType_ok vs.flatten (fun P hP => (hpart P hP).1) [] (typeOk_nil n)
  have hcl : ∀ x, (colsL x vs.flatten) = (colF x vs.flatten).map fun c => (List.range (irrOf x).d).map c :=
    fun x => colsL_eq fun P hP => (hpart P hP).2
  have hmult : ∀ y, mult tau y = ((colF y vs.flatten).length : Int) := by
    intro y; rw [a4]; simp [mult]
  have hmem : ∀ y, y ∈ parts tau ↔ y ∈ vs.flatten.map fun P => P.irrep.lambda := by
    intro y; rw [a3]; simp [parts]
  have htype : SnVec.catType vs = some tau := by
    unfold SnVec.catType; rw [foldlM_flatten]; exact a1
  have hz := vecZero_eq hn a2 (fun x _ => by rw [hmult]; omega)
  have hM : ∀ x, (mult tau x).toNat = (colF x vs.flatten).length := by intro x; rw [hmult]; simp
  have hloop := catLoop_eq hn a2.all a2.nodup (fun x => (mult tau x).toNat) vs.flatten []
    (fun P hP => ⟨(hmem _).2 (List.mem_map.2 ⟨P, hP, rfl⟩), (hpart P hP).2⟩)
    (fun x _ => by rw [hM, List.nil_append])
  have h0 : ∀ x, catD [] x = fun _ _ => (0 : ℝ) := by
    intro x; funext i j; simp [catD, colF]
  have hr : List.replicate (parts tau).length 0 = (parts tau).map fun x => (colF x []).length := by
    simp [colF, List.map_const']
  refine ⟨tau, (parts tau).map (fun x => mkP x (mult tau x).toNat (catD vs.flatten x)), htype, a2, hmem, ?_, ?_, ?_, ?_⟩
  · intro y; rw [hmult, hcl, List.length_map]
  · unfold SnVec.cat
    rw [htype]
    simp only [Option.bind_eq_bind, Option.bind_some, hz, foldlM_flatten, List.length_map]
    rw [hr]
    simp only [h0] at hloop
    rw [hloop]
    simp
  · have hl : ∀ x ∈ parts tau, (irrOf x).lambda = x := fun x hx => (irrOf_spec hn (a2.all x hx)).2.1
    constructor
    · intro P hP
      obtain ⟨x, hx, rfl⟩ := List.mem_map.1 hP
      obtain ⟨b1, b2, b3, b4⟩ := irrOf_spec hn (a2.all x hx)
      simp only [mkP]
      rw [b2]
      exact ⟨a2.all x hx, b1, trivial⟩
    · rw [List.map_map]
      have : List.map ((fun P => P.irrep.lambda) ∘ fun x => mkP x (mult tau x).toNat (catD vs.flatten x)) (parts tau) = parts tau := by
        conv_rhs => rw [← List.map_id (parts tau)]
        exact List.map_congr_left fun x hx => hl x hx
      rw [this]
      exact a2.sorted
  · unfold SnVec.obs
    rw [List.map_map]
    refine List.map_congr_left fun x hx => ?_
    simp only [Function.comp]
    refine Prod.ext (irrOf_spec hn (a2.all x hx)).2.1 ?_
    simp only
    rw [cols_mkP, hcl, hM]
    apply List.ext_getElem (by simp)
    intro j h1 h2
    simp only [List.length_map, List.length_range] at h1
    simp only [List.getElem_map, List.getElem_range]
    refine List.map_congr_left fun i hi => ?_
    unfold catD
    rw [if_pos (List.mem_range.1 hi), List.getElem?_eq_getElem h1]
    rfl

end Snob
