import Verif.Spec.SnWeights
import Verif.Proofs.CGEqui
import Verif.Proofs.SnType

/-! # Weights: the constructors and the product -/

namespace Snob

open IP SnVec

variable {n : Nat}

namespace Weights

theorem ofTypesLoop_ok (fill : List Nat → Nat → Nat → ℝ) {x : SnType} (hx : TypeOk n x) (px : ∀ e ∈ x, 0 ≤ e.2) :
    ∀ {y : SnType}, TypeOk n y → (∀ z, 0 ≤ mult y z) → ∀ W, ∃ y', ofTypesLoop fill x y W =
      some (fun z => if z ∈ parts x then some (.mat (mult x z).toNat (mult y z).toNat (fill z)) else W z, y') ∧ TypeOk n y' ∧
      (∀ z, mult y' z = mult y z) ∧ ∀ z, z ∈ parts y' ↔ z ∈ parts x ∨ z ∈ parts y := by
  induction x with
  | nil => intro y hy py W; exact ⟨y, by simp [ofTypesLoop, parts], hy, fun _ => rfl, by simp [parts]⟩
  | cons e x ih =>
    intro y hy py W
    obtain ⟨h1, h2, h3⟩ := typeOk_cons.1 hx
    obtain ⟨k, v⟩ := e
    have hv : 0 ≤ v := px (k, v) (by simp)
    obtain ⟨y1, a1, a2, a3, a4, -⟩ := SnType.upd_ok id hy h1
    have hg : SnType.get y k = some (y1, mult y k) := by
      unfold SnType.get
      rw [a1]
      simp only [Option.bind_eq_bind, Option.bind_some]
      rw [SnType.find_ok a2 h1, if_pos ((a3 k).2 (Or.inl rfl)), a4 k, if_pos rfl]
      rfl
    have a4' : ∀ z, mult y1 z = mult y z := by
      intro z
      rw [a4 z]
      by_cases h : z = k
      · subst h; rw [if_pos rfl]; rfl
      · rw [if_neg h]
    obtain ⟨y', b1, b2, b3, b4⟩ := ih h3 (fun e he => px e (by simp [he])) a2 (fun z => by rw [a4']; exact py z)
      (Function.update W k (some (.mat v.toNat (mult y k).toNat (fill k))))
    refine ⟨y', ?_, b2, fun z => by rw [b3, a4'], fun z => ?_⟩
    · rw [ofTypesLoop, hg]
      simp only [Option.bind_eq_bind, Option.bind_some]
      rw [if_pos ⟨hv, py k⟩, b1]
      refine congrArg some (Prod.ext ?_ rfl)
      funext z
      simp only
      have hk : k ∉ parts x := fun h => lexGreater_irrefl _ (h2 k h)
      by_cases hz : z = k
      · subst hz
        rw [if_neg hk, if_pos (by simp [parts]), Function.update_self, mult_cons, if_pos rfl]
      · rw [mult_cons, if_neg hz, a4', Function.update_of_ne hz]
        have : z ∈ parts ((k, v) :: x) ↔ z ∈ parts x := by simp [parts, hz]
        by_cases h : z ∈ parts x
        · rw [if_pos h, if_pos (this.2 h)]
        · rw [if_neg h, if_neg (fun h' => h (this.1 h'))]
    · rw [b4, a3]
      simp only [parts, List.map_cons, List.mem_cons]
      tauto

/-- the constructor from types -/
theorem ofTypes_ok (fill : List Nat → Nat → Nat → ℝ) {x y : SnType} (hx : TypeOk n x) (px : ∀ e ∈ x, 0 ≤ e.2) (hy : TypeOk n y)
    (py : ∀ z, 0 ≤ mult y z) : ∃ y', ofTypes fill x y =
      some (fun z => if z ∈ parts x then some (.mat (mult x z).toNat (mult y z).toNat (fill z)) else none, y') ∧ TypeOk n y' ∧
      (∀ z, mult y' z = mult y z) ∧ ∀ z, z ∈ parts y' ↔ z ∈ parts x ∨ z ∈ parts y :=
  ofTypesLoop_ok fill hx px hy py _

end Weights

/-- the vector with the given parts -/
noncomputable def mkV (L : List (List Nat)) (M : List Nat → Nat) (D : List Nat → Nat → Nat → ℝ) : SnVec := L.map fun x => mkP x (M x) (D x)

theorem partAt_mkV (hn : 1 ≤ n) {L : List (List Nat)} (hL : ∀ x ∈ L, IsPartition n x) (hs : L.Pairwise LexGreater) (M : List Nat → Nat)
    (D : List Nat → Nat → Nat → ℝ) : Ok n (mkV L M D) ∧ vkeys (mkV L M D) = L ∧ ∀ x ∈ L, partAt (mkV L M D) x = mkP x (M x) (D x) := by
  have h := ok_map hn hL hs M D
  refine ⟨h, keys_map hn hL M D, fun x hx => ?_⟩
  have := partAt_of_mem h.nodup (P := mkP x (M x) (D x)) (List.mem_map.2 ⟨x, hx, rfl⟩)
  have e : (mkP x (M x) (D x)).irrep.lambda = x := (irrOf_spec hn (hL x hx)).2.1
  rwa [e] at this

theorem eq_mkV {v : SnVec} (hv : Ok n v) : v = mkV (vkeys v) (fun x => (partAt v x).m) fun x => (partAt v x).data := vec_eq_map hv

theorem vkeys_sorted {v : SnVec} (hv : Ok n v) : (vkeys v).Pairwise LexGreater := hv.sorted

namespace Weights

theorem mulVec_map (hn : 1 ≤ n) {L : List (List Nat)} (hL : ∀ x ∈ L, IsPartition n x) (M : List Nat → Nat)
    (D : List Nat → Nat → Nat → ℝ) (W : Weights) (r : List Nat → Nat) (f : List Nat → Nat → Nat → ℝ)
    (h : ∀ x ∈ L, W x = some (.mat (r x) (M x) (f x))) :
    mulVec W (mkV L M D) = some (mkV L r fun x i j => ∑ k ∈ Finset.range (M x), D x i k * f x j k) := by
  have e : ∀ P ∈ mkV L M D, (do let Q ← W.getMatrix P.irrep.lambda; mulPart Q P) =
      some (⟨P.d, r P.irrep.lambda, P.irrep, fun i j => ∑ k ∈ Finset.range P.m, P.data i k * f P.irrep.lambda j k⟩ : VPart) := by
    intro P hP
    obtain ⟨x, hx, rfl⟩ := List.mem_map.1 hP
    have hl : (mkP x (M x) (D x)).irrep.lambda = x := (irrOf_spec hn (hL x hx)).2.1
    rw [hl]
    unfold getMatrix
    rw [h x hx]
    simp only [Option.bind_eq_bind, Option.bind_some, mulPart]
    have hm : (mkP x (M x) (D x)).m = M x := rfl
    rw [if_pos hm, hm]
    simp only [list_range_sum]
  refine (mapM_map _ _ _ e).trans (congrArg some ?_)
  unfold mkV
  rw [List.map_map]
  refine List.map_congr_left fun x hx => ?_
  have hl : (mkP x (M x) (D x)).irrep.lambda = x := (irrOf_spec hn (hL x hx)).2.1
  simp only [Function.comp]
  rw [hl]
  rfl

/-- the product with a vector -/
theorem mulVec_ok (hn : 1 ≤ n) {v : SnVec} (hv : Ok n v) (W : Weights) (r : List Nat → Nat) (f : List Nat → Nat → Nat → ℝ)
    (h : ∀ x ∈ vkeys v, W x = some (.mat (r x) (partAt v x).m (f x))) :
    ∃ w, mulVec W v = some w ∧ Ok n w ∧ vkeys w = vkeys v ∧ ∀ x ∈ vkeys v, (partAt w x).m = r x ∧ ∀ i j, (partAt w x).data i j =
      ∑ k ∈ Finset.range (partAt v x).m, (partAt v x).data i k * f x j k := by
  have hL : ∀ x ∈ vkeys v, IsPartition n x := fun x hx => vkeys_part hv hx
  obtain ⟨a1, a2, a3⟩ := partAt_mkV hn hL (vkeys_sorted hv) r (fun x i j => ∑ k ∈ Finset.range (partAt v x).m, (partAt v x).data i k * f x j k)
  refine ⟨_, ?_, a1, a2, fun x hx => ?_⟩
  · conv_lhs => rw [eq_mkV hv]
    exact mulVec_map hn hL _ _ W r f h
  · rw [a3 x hx]
    exact ⟨rfl, fun _ _ => rfl⟩

/-- when the product is defined -/
theorem mulVec_def {v w : SnVec} {W : Weights} (h : mulVec W v = some w) : ∀ P ∈ v, ∃ r f, W P.irrep.lambda = some (.mat r P.m f) := by
  induction v generalizing w with
  | nil => simp
  | cons P v ih =>
    unfold mulVec at h ih
    rw [List.mapM_cons] at h
    obtain ⟨Q, hQ, h⟩ := Option.bind_eq_some_iff.1 h
    obtain ⟨u, hu, -⟩ := Option.bind_eq_some_iff.1 h
    obtain ⟨M, hM, hQ⟩ := Option.bind_eq_some_iff.1 hQ
    intro R hR
    rcases List.mem_cons.1 hR with rfl | hR
    · cases M with
      | vec k f => simp [mulPart] at hQ
      | mat r c f =>
        by_cases hm : R.m = c
        · subst hm; exact ⟨r, f, hM⟩
        · simp [mulPart, hm] at hQ
    · exact ih hu R hR

end Weights

end Snob
