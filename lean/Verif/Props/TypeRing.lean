import Verif.Proofs.TypeRing
import Verif.Proofs.CGSmall

/-! # Property C118: arithmetic of types -/

namespace Snob.Props

open Snob Snob.IP Snob.TypeRing
open scoped Nat

/-- **C118.** `CGproduct` of types is commutative: both orders return the same type, after any history of calls. -/
theorem C118_commutative (n : Nat) (hn : 1 ≤ n) (t u : SnType) (ht : TypeOk n t) (hu : TypeOk n u) :
    ∃ R, TypeOk n R ∧ Always (.productTypes t u) (.type R) ∧ Always (.productTypes u t) (.type R) := by
  obtain ⟨f, F, dt⟩ := exists_desc ht
  obtain ⟨g, G, du⟩ := exists_desc hu
  obtain ⟨R, h1, h2⟩ := desc_prod hn dt du
  obtain ⟨R', h1', h2'⟩ := desc_prod hn du dt
  rw [conv_comm g f, conv_comm G F] at h2'
  exact ⟨R, h2.ok, h1, h2.ext h2' ▸ h1'⟩

/-- **C118.** `CGproduct` of types is associative. -/
theorem C118_associative (n : Nat) (hn : 1 ≤ n) (t u v : SnType) (ht : TypeOk n t) (hu : TypeOk n u) (hv : TypeOk n v) :
    ∃ tu uv R, Always (.productTypes t u) (.type tu) ∧ Always (.productTypes u v) (.type uv) ∧ TypeOk n tu ∧ TypeOk n uv ∧ TypeOk n R ∧
      Always (.productTypes tu v) (.type R) ∧ Always (.productTypes t uv) (.type R) := by
  obtain ⟨f, F, dt⟩ := exists_desc ht
  obtain ⟨g, G, du⟩ := exists_desc hu
  obtain ⟨h, H, dv⟩ := exists_desc hv
  obtain ⟨tu, a1, a2⟩ := desc_prod hn dt du
  obtain ⟨uv, b1, b2⟩ := desc_prod hn du dv
  obtain ⟨R, c1, c2⟩ := desc_prod hn a2 dv
  obtain ⟨R', d1, d2⟩ := desc_prod hn dt b2
  rw [← conv_assoc, ← conv_assoc] at d2
  exact ⟨tu, uv, R, a1, b1, a2.ok, b2.ok, c2.ok, c1, c2.ext d2 ▸ d1⟩

/-- **C118.** The type of the trivial representation is the unit of `CGproduct`. -/
theorem C118_unit (n : Nat) (hn : 1 ≤ n) (t : SnType) (ht : TypeOk n t) :
    Always (.productTypes [([n], 1)] t) (.type t) ∧ Always (.productTypes t [([n], 1)]) (.type t) := by
  classical
  obtain ⟨f, F, dt⟩ := exists_desc ht
  set e : Pt n := ⟨[n], isPartition_row hn⟩
  have du : Desc (n := n) [([n], 1)] (fun r => if r = e then 1 else 0) (fun r => if r = e then 1 else 0) := by
    have he : ∀ r : Pt n, r.1 = [n] ↔ r = e := fun r => ⟨fun h => Subtype.ext h, fun h => by rw [h]⟩
    refine ⟨typeOk_cons.2 ⟨isPartition_row hn, by simp [parts], typeOk_nil n⟩, fun r => ?_, fun r => by split_ifs <;> norm_num, fun r => ?_⟩
    · rw [mult_cons]
      by_cases h : r = e
      · rw [if_pos ((he r).2 h), if_pos h]; norm_num
      · rw [if_neg fun h' => h ((he r).1 h'), if_neg h]; simp [mult]
    · simp only [parts, List.map_cons, List.map_nil, List.mem_singleton]
      rw [he]
      split_ifs with h <;> simp [h]
  have hc : ∀ f : Pt n → ℝ, conv (fun r => if r = e then 1 else 0) f = f := fun f => char_inj fun σ => by
    rw [char_conv]
    have : char (fun r : Pt n => if r = e then (1 : ℝ) else 0) σ = 1 := by
      unfold char
      simp only [ite_mul, one_mul, zero_mul]
      rw [Finset.sum_ite_eq', if_pos (Finset.mem_univ _)]
      exact chi_row hn σ
    rw [this, one_mul]
  obtain ⟨R, h1, h2⟩ := desc_prod hn du dt
  obtain ⟨R', h1', h2'⟩ := desc_prod hn dt du
  rw [conv_comm f, conv_comm F, hc, hc] at h2'
  rw [hc, hc] at h2
  exact ⟨h2.ext dt ▸ h1, h2'.ext dt ▸ h1'⟩

/-- **C118.** `CGproduct` distributes over the sum `t.add(u,m)` of types. -/
theorem C118_distributive (n : Nat) (hn : 1 ≤ n) (t u v : SnType) (m : Int) (ht : TypeOk n t) (hu : TypeOk n u) (hv : TypeOk n v) :
    ∃ w tv uv R, SnType.addType t u m = some w ∧ Always (.productTypes t v) (.type tv) ∧ Always (.productTypes u v) (.type uv) ∧
      SnType.addType tv uv m = some R ∧ Always (.productTypes w v) (.type R) := by
  obtain ⟨f, F, dt⟩ := exists_desc ht
  obtain ⟨g, G, du⟩ := exists_desc hu
  obtain ⟨h, H, dv⟩ := exists_desc hv
  obtain ⟨w, a1, a2⟩ := desc_add dt du m
  obtain ⟨tv, b1, b2⟩ := desc_prod hn dt dv
  obtain ⟨uv, c1, c2⟩ := desc_prod hn du dv
  obtain ⟨R, d1, d2⟩ := desc_add b2 c2 m
  obtain ⟨R', e1, e2⟩ := desc_prod hn a2 dv
  rw [conv_add, conv_add] at e2
  exact ⟨w, tv, uv, R, a1, b1, c1, d1, d2.ext e2 ▸ e1⟩

/-- **C118.** Dimensions multiply. -/
theorem C118_dimension (n : Nat) (hn : 1 ≤ n) (t u : SnType) (ht : TypeOk n t) (hu : TypeOk n u) :
    ∃ (R : SnType) (d : List Nat → Nat), Always (.productTypes t u) (.type R) ∧
      (∀ r, IsPartition n r → ∃ O, mkIrrep r = some O ∧ O.d = d r) ∧
      typeSum (fun r => d r) R = typeSum (fun r => d r) t * typeSum (fun r => d r) u := by
  obtain ⟨f, F, dt⟩ := exists_desc ht
  obtain ⟨g, G, du⟩ := exists_desc hu
  obtain ⟨R, h1, h2⟩ := desc_prod hn dt du
  refine ⟨R, dimW n, h1, fun r hr => ?_, ?_⟩
  · obtain ⟨O, hO, _, h⟩ := exists_repr hn hr
    exact ⟨O, hO, by rw [h.d_eq]; rfl⟩
  · have e : ∀ {t : SnType} {f F : Pt n → ℝ}, Desc t f F → (typeSum (fun r => (dimW n r : Int)) t : ℝ) = char f 1 := fun h => by
      rw [h.sum]
      unfold char
      exact Finset.sum_congr rfl fun r _ => by rw [chi_id]; simp [dimW]
    have := e h2
    rw [char_conv, ← e dt, ← e du] at this
    exact_mod_cast this

/-- **C118.** Restricting a product gives the product of the restrictions. -/
theorem C118_restriction (n : Nat) (hn : 1 ≤ n) (t u : SnType) (ht : TypeOk (n + 1) t) (hu : TypeOk (n + 1) u) :
    ∃ R D Dt Du, Always (.productTypes t u) (.type R) ∧ SnType.down R = some D ∧ SnType.down t = some Dt ∧ SnType.down u = some Du ∧
      Always (.productTypes Dt Du) (.type D) := by
  obtain ⟨f, F, dt⟩ := exists_desc ht
  obtain ⟨g, G, du⟩ := exists_desc hu
  obtain ⟨R, h1, h2⟩ := desc_prod (by omega) dt du
  obtain ⟨D, a1, a2⟩ := desc_down h2
  obtain ⟨Dt, b1, b2⟩ := desc_down dt
  obtain ⟨Du, c1, c2⟩ := desc_down du
  obtain ⟨D', d1, d2⟩ := desc_prod hn b2 c2
  rw [res_conv hn, res_conv hn] at a2
  exact ⟨R, D, Dt, Du, h1, a1, b1, c1, a2.ext d2 ▸ d1⟩

/-- **C118.** Inducing the product of a restriction with `u` gives the product with the induced type of `u`. -/
theorem C118_projection (n : Nat) (hn : 1 ≤ n) (t u : SnType) (ht : TypeOk (n + 1) t) (hu : TypeOk n u) :
    ∃ Dt P I Iu, SnType.down t = some Dt ∧ Always (.productTypes Dt u) (.type P) ∧
      (RepObj.ofType P).bind (fun r => (RepObj.induced r).bind RepObj.getType) = some I ∧
      (RepObj.ofType u).bind (fun r => (RepObj.induced r).bind RepObj.getType) = some Iu ∧ Always (.productTypes t Iu) (.type I) := by
  obtain ⟨f, F, dt⟩ := exists_desc ht
  obtain ⟨g, G, du⟩ := exists_desc hu
  obtain ⟨Dt, a1, a2⟩ := desc_down dt
  obtain ⟨P, b1, b2⟩ := desc_prod hn a2 du
  obtain ⟨I, c1, c2⟩ := desc_ind b2
  obtain ⟨Iu, d1, d2⟩ := desc_ind du
  obtain ⟨I', e1, e2⟩ := desc_prod (by omega) dt d2
  rw [ind_conv hn, ind_conv hn] at c2
  exact ⟨Dt, P, I, Iu, a1, b1, c1, d1, c2.ext e2 ▸ e1⟩

/-- types with a negative and with a zero multiplicity are included -/
example : TypeOk 4 [([3, 1], 2), ([2, 2], -1), ([2, 1, 1], 0)] := by
  refine typeOk_cons.2 ⟨⟨by decide, by decide, rfl⟩, ?_, typeOk_cons.2 ⟨⟨by decide, by decide, rfl⟩, ?_, typeOk_cons.2
    ⟨⟨by decide, by decide, rfl⟩, by simp [parts], typeOk_nil 4⟩⟩⟩
  · intro x hx
    simp only [parts, List.map_cons, List.map_nil, List.mem_cons, List.not_mem_nil, or_false] at hx
    rcases hx with rfl | rfl <;> exact ⟨0, by decide, by decide⟩
  · intro x hx
    simp only [parts, List.map_cons, List.map_nil, List.mem_cons, List.not_mem_nil, or_false] at hx
    subst hx
    exact ⟨1, by decide, by decide⟩

/-- the trivial type of S3 times `{2,1}` twice, after a call about S4 -/
example : ∃ s s', CGState.empty.run [.coeff [2, 2] [3, 1] [4]] = some s ∧ s.exec (.productTypes [([3], 1)] [([2, 1], 2)]) = some (s', .type [([2, 1], 2)]) :=
  (C118_unit 3 (by decide) [([2, 1], 2)] (typeOk_cons.2 ⟨⟨by decide, by decide, rfl⟩, by simp [parts], typeOk_nil 3⟩)).1 _ (by
    intro x hx
    rw [List.mem_singleton] at hx
    subst hx
    exact ⟨4, by decide, ⟨by decide, by decide, rfl⟩, ⟨by decide, by decide, rfl⟩, ⟨by decide, by decide, rfl⟩⟩)

end Snob.Props
