import Verif.Proofs.LetterFloat
import Verif.Props.VecInner
import Mathlib.Algebra.Order.BigOperators.Ring.Finset

/-! Lengths of vectors, and of the difference of a result in floating point and the result for permuted inputs. -/

namespace Snob

open SnVec Props

variable {n : Nat}

/-- `s` times one vector plus another -/
theorem exists_comb (hn : 1 ≤ n) (s : ℝ) {v w : SnVec} (hv : Ok n v) (hw : Ok n w) (st : SameType v w) : ∃ u, Ok n u ∧ IsComb s u v w := by
  obtain ⟨a1, a2, a3⟩ := partAt_mkV hn (fun x hx => vkeys_part hv hx) (vkeys_sorted hv) (fun x => (partAt v x).m)
    fun x i j => s * (partAt v x).data i j + (partAt w x).data i j
  have s1 : SameType (mkV (vkeys v) (fun x => (partAt v x).m) fun x i j => s * (partAt v x).data i j + (partAt w x).data i j) v :=
    sameType_of a1 hv a2 fun x hx => by rw [a3 x (a2 ▸ hx)]; rfl
  refine ⟨_, a1, Props.comb_of a1 hv hw s1 (s1.trans st) fun x hx i _ j _ => ?_⟩
  rw [a3 x (a2 ▸ hx)]
  rfl

/-- the positions of the entries of a vector -/
noncomputable def places (v : SnVec) : Finset ((_ : List Nat) × Nat × Nat) :=
  (vkeys v).toFinset.sigma fun x => Finset.range (dimOf x) ×ˢ Finset.range (partAt v x).m

/-- its entries -/
noncomputable def entry (v : SnVec) (c : (_ : List Nat) × Nat × Nat) : ℝ := (partAt v c.1).data c.2.1 c.2.2

theorem mem_places {v : SnVec} {c : (_ : List Nat) × Nat × Nat} :
    c ∈ places v ↔ c.1 ∈ vkeys v ∧ c.2.1 < dimOf c.1 ∧ c.2.2 < (partAt v c.1).m := by
  simp [places]

theorem places_same {v w : SnVec} (hv : Ok n v) (hw : Ok n w) (st : SameType v w) : places v = places w := by
  ext c
  rw [mem_places, mem_places, sameType_keys st]
  refine and_congr_right fun hc => ?_
  rw [sameType_m hv hw st (by rw [sameType_keys st]; exact hc)]

theorem dot_places {v w : SnVec} (hv : Ok n v) (hw : Ok n w) (st : SameType v w) : dot v w = ∑ c ∈ places v, entry v c * entry w c := by
  have nd : (vkeys v).Nodup := (vkeys_sorted hv).imp fun h => by rintro rfl; exact lexGreater_irrefl _ h
  rw [dot_eq hv hw (sameType_keys st), ← List.sum_toFinset _ nd]
  unfold places
  rw [Finset.sum_sigma]
  refine Finset.sum_congr rfl fun x _ => ?_
  rw [Finset.sum_product]
  rfl

theorem dot_self {v : SnVec} (hv : Ok n v) : dot v v = ∑ c ∈ places v, entry v c ^ 2 := by
  rw [dot_places hv hv rfl]
  exact Finset.sum_congr rfl fun c _ => (sq _).symm

theorem dot_self_nonneg {v : SnVec} (hv : Ok n v) : 0 ≤ dot v v := by
  rw [dot_self hv]
  exact Finset.sum_nonneg fun c _ => sq_nonneg _

theorem comb_entry {s : ℝ} {u v w : SnVec} (hu : Ok n u) (hv : Ok n v) (hw : Ok n w) (h : IsComb s u v w) {c : (_ : List Nat) × Nat × Nat}
    (hc : c ∈ places u) : entry u c = s * entry v c + entry w c := by
  obtain ⟨h1, h2, h3⟩ := mem_places.1 hc
  exact Props.comb_at hu hv hw h h1 _ h2 _ h3

/-- the triangle inequality -/
theorem sqrt_dot_sub {d x y : SnVec} (hd : Ok n d) (hx : Ok n x) (hy : Ok n y) (h : IsComb (-1) d x y) : √(dot d d) ≤ √(dot x x) + √(dot y y) := by
  have p1 := places_same hd hx h.1
  have p2 := places_same hd hy h.2.1
  refine Real.sqrt_le_iff.2 ⟨by positivity, ?_⟩
  have hcs := Finset.sum_mul_sq_le_sq_mul_sq (places d) (fun c => entry x c) fun c => entry y c
  have nx := dot_self_nonneg hx
  have ny := dot_self_nonneg hy
  rw [add_sq, Real.sq_sqrt nx, Real.sq_sqrt ny, mul_assoc, ← Real.sqrt_mul nx, dot_self hd, dot_self hx, dot_self hy, ← p1, ← p2]
  have e : ∑ c ∈ places d, entry d c ^ 2 = ∑ c ∈ places d, entry x c ^ 2 - 2 * ∑ c ∈ places d, entry x c * entry y c + ∑ c ∈ places d, entry y c ^ 2 := by
    rw [Finset.mul_sum, ← Finset.sum_sub_distrib, ← Finset.sum_add_distrib]
    refine Finset.sum_congr rfl fun c hc => ?_
    rw [comb_entry hd hx hy h hc]
    ring
  have h2 : -∑ c ∈ places d, entry x c * entry y c ≤ √((∑ c ∈ places d, entry x c ^ 2) * ∑ c ∈ places d, entry y c ^ 2) :=
    (neg_le_abs _).trans (Real.abs_le_sqrt hcs)
  rw [e]
  linarith

/-- entries that are small in comparison -/
theorem sqrt_dot_le {e a : SnVec} (he : Ok n e) (ha : Ok n a) (st : SameType e a) {ε : ℝ} (hε : 0 ≤ ε) (h : ∀ c ∈ places e, |entry e c| ≤ ε * entry a c) :
    √(dot e e) ≤ ε * √(dot a a) := by
  rw [← Real.sqrt_sq hε, ← Real.sqrt_mul (sq_nonneg ε)]
  refine Real.sqrt_le_sqrt ?_
  rw [dot_self he, dot_self ha, ← places_same he ha st, Finset.mul_sum]
  refine Finset.sum_le_sum fun c hc => ?_
  rw [← mul_pow, ← sq_abs]
  exact pow_le_pow_left₀ (abs_nonneg _) (h c hc) 2

theorem acted_comb (hn : 1 ≤ n) {σ : Equiv.Perm (Fin n)} {s : ℝ} {u v w u' v' w' : SnVec} (hu : Ok n u) (hv : Ok n v) (hw : Ok n w)
    (h : IsComb s u v w) (a1 : Acted n σ u u') (a2 : Acted n σ v v') (a3 : Acted n σ w w') : IsComb s u' v' w' := by
  have s1 : SameType u' v' := (a1.same hu).symm.trans (h.1.trans (a2.same hv))
  have s2 : SameType u' w' := (a1.same hu).symm.trans (h.2.1.trans (a3.same hw))
  refine Props.comb_of a1.1 a2.1 a3.1 s1 s2 fun x hx i hi j hj => ?_
  have xu : x ∈ vkeys u := a1.2.1 ▸ hx
  have xv : x ∈ vkeys v := sameType_keys h.1 ▸ xu
  have xw : x ∈ vkeys w := sameType_keys h.2.1 ▸ xu
  rw [(a1.2.2 x xu).1] at hj
  rw [(a1.2.2 x xu).2 i hi j hj, (a2.2.2 x xv).2 i hi j (by rw [← sameType_m hu hv h.1 xu]; exact hj),
    (a3.2.2 x xw).2 i hi j (by rw [← sameType_m hu hw h.2.1 xu]; exact hj), Finset.mul_sum, ← Finset.sum_add_distrib]
  refine Finset.sum_congr rfl fun k hk => ?_
  rw [Props.comb_at hu hv hw h xu k (Finset.mem_range.1 hk) j hj]
  ring

theorem dot_acted (hn : 1 ≤ n) {σ : Equiv.Perm (Fin n)} {v v' : SnVec} (hv : Ok n v) (h : Acted n σ v v') : dot v' v' = dot v v := by
  obtain ⟨a, b, h1, h2, h3⟩ := C139_action_isometry hn hv hv rfl ⟨σ, rfl⟩
  obtain rfl := Option.some.inj (h1.symm.trans h2)
  obtain ⟨u, c1, c2, c3, -⟩ := vecApply_ok hn σ v hv
  obtain rfl := Option.some.inj (h1.symm.trans c1)
  have ho : obs v' = obs a := by rw [h.obs_eq hn hv, c3]
  rw [← h3]
  exact dot_congr h.1 h.1 c2 c2 rfl ho ho

/-- a result and the result for permuted inputs, both with errors -/
theorem close_acted (hn : 1 ≤ n) {ε : ℝ} (hε : 0 ≤ ε) {σ : Equiv.Perm (Fin n)} {q q' : SnVec × SnVec × SnVec}
    (h : Floats3 (fun x y a => |x| ≤ a ∧ |y - x| ≤ ε * a) n q) (h' : Floats3 (fun x y a => |x| ≤ a ∧ |y - x| ≤ ε * a) n q')
    (ha : Acted n σ q.1 q'.1) : ∃ z d, q.2.1.apply (enc σ) = some z ∧ Ok n z ∧ Ok n d ∧ IsComb (-1) d z q'.2.1 ∧
      √(dot d d) ≤ ε * (√(dot q.2.2 q.2.2) + √(dot q'.2.2 q'.2.2)) := by
  have err : ∀ {q : SnVec × SnVec × SnVec}, Floats3 (fun x y a => |x| ≤ a ∧ |y - x| ≤ ε * a) n q →
      ∃ e, Ok n e ∧ IsComb (-1) e q.1 q.2.1 ∧ √(dot e e) ≤ ε * √(dot q.2.2 q.2.2) := by
    intro q h
    obtain ⟨e, e1, e2⟩ := exists_comb hn (-1) h.ok1 h.ok2 h.st2
    refine ⟨e, e1, e2, sqrt_dot_le e1 h.ok3 (e2.1.trans h.st3) hε fun c hc => ?_⟩
    rw [comb_entry e1 h.ok1 h.ok2 e2 hc]
    rw [places_same e1 h.ok1 e2.1] at hc
    obtain ⟨c1, c2, c3⟩ := mem_places.1 hc
    have := (h.rel.data _ c1 _ c2 _ c3).2
    rw [neg_one_mul, neg_add_eq_sub]
    exact this
  obtain ⟨e, e1, e2, e3⟩ := err h
  obtain ⟨e', f1, f2, f3⟩ := err h'
  obtain ⟨z, z1, z2, z3, -⟩ := vecApply_ok hn σ q.2.1 h.ok2
  have az := acted_of_obs hn h.ok2 z2 z3
  obtain ⟨g, g1, g2, g3, -⟩ := vecApply_ok hn σ e e1
  have ag := acted_of_obs hn e1 g2 g3
  have hg := acted_comb hn e1 h.ok1 h.ok2 e2 ag ha az
  have st : SameType z q'.2.1 := (az.same h.ok2).symm.trans (h.st2.symm.trans ((ha.same h.ok1).trans h'.st2))
  obtain ⟨d, d1, d2⟩ := exists_comb hn (-1) z2 h'.ok2 st
  have sg : SameType d g := d2.1.trans hg.2.1.symm
  have sf : SameType d e' := d2.2.1.trans f2.2.1.symm
  have hd : IsComb (-1) d g e' := Props.comb_of d1 g2 f1 sg sf fun x hx i hi j hj => by
    have xg : x ∈ vkeys g := sameType_keys sg ▸ hx
    have xf : x ∈ vkeys e' := sameType_keys sf ▸ hx
    rw [Props.comb_at d1 z2 h'.ok2 d2 hx i hi j hj, Props.comb_at g2 h'.ok1 z2 hg xg i hi j (by rw [← sameType_m d1 g2 sg hx]; exact hj),
      Props.comb_at f1 h'.ok1 h'.ok2 f2 xf i hi j (by rw [← sameType_m d1 f1 sf hx]; exact hj)]
    ring
  refine ⟨z, d, z1, z2, d1, d2, (sqrt_dot_sub d1 g2 f1 hd).trans ?_⟩
  rw [dot_acted hn e1 ag, mul_add]
  exact add_le_add e3 f3

end Snob
