import Verif.Proofs.CGAcc
import Verif.Props.SnType

/-! # Products of vectors: one level of the recursion -/

namespace Snob

open IP Matrix SnVec

theorem partOf_eq {n : Nat} {v : SnVec} (hv : Ok n v) {mu : List Nat} (h : mu ∈ vkeys v) : partOf v mu = some (partAt v mu) := by
  obtain ⟨k, h1, h2, -⟩ := index_partAt hv h
  unfold partOf
  rw [h1]
  exact h2

/-- `lookup` of a key -/
theorem lookup_parts {n : Nat} {t : SnType} (ht : TypeOk n t) {x : List Nat} (hx : x ∈ parts t) : t.lookup x = some (mult t x) := by
  obtain ⟨e, he, rfl⟩ := List.mem_map.1 hx
  have : t.lookup e.1 ≠ none := by
    intro h
    rw [List.lookup_eq_none_iff] at h
    have := h e he
    simp at this
  obtain ⟨v, hv⟩ := Option.ne_none_iff_exists'.1 this
  unfold mult
  rw [hv]; rfl

section
variable {n : Nat} {Φ : Coef} {eig : Eig} {a b : List Nat} {acc : SnVec → SnType → VPart → VPart → Option (SnVec × SnType)}

/-- the product of the restrictions of two parts -/
theorem sub_ok (hn : 1 ≤ n) (hacc : AccSpec n Φ acc) (ha : IsPartition (n + 1) a) (hb : IsPartition (n + 1) b) (f g : Nat → Nat → ℝ) :
    ∃ xs ys R, downB (mkP a 1 f) = some xs ∧ downB (mkP b 1 g) = some ys ∧ cgVecWith acc xs ys = some R ∧ Ok n R ∧
      (∀ mu, mu ∈ vkeys R ↔ IsPartition n mu ∧ 0 < kmul n a b mu) ∧ (∀ mu ∈ vkeys R, (partAt R mu).m = kmul n a b mu) ∧
      ∀ mu ∈ vkeys R, ∀ r < dimOf mu, ∀ k < kmul n a b mu, (partAt R mu).data r k = ∑ x : XI a b, psi n Φ a b mu r k (fstIx x) (sndIx x) *
        (f (fstIx x) 0 * g (sndIx x) 0) := by
  obtain ⟨R, h1, h2, h3, h4, h5⟩ := vec_ok hn hacc (fun mu => downD (subs a) 1 f mu) (fun mu => downD (subs b) 1 g mu)
    (sub_part ha) (sub_part hb) (subs_pairwise a) (subs_pairwise b)
  refine ⟨_, _, R, downB_eq hn ha 1 f, downB_eq hn hb 1 g, h1, h2, h3, h4, ?_⟩
  intro mu hmu r hr k hk
  rw [h5 mu hmu r hr k hk]
  have hl := loc_mem (L := sprs a b) hk
  rw [← sprs_eq]
  unfold psi
  generalize loc n (sprs a b) mu k = l at hl ⊢
  obtain ⟨e, c⟩ := l
  simp only at hl ⊢
  have hs := sum_embP hn ha hb hl.1 (fun t u => Φ e.1 e.2 mu r c t u * (f (t + offOf (subs a) e.1) 0 * g (u + offOf (subs b) e.2) 0))
  unfold prodVal
  have e1 : ∀ y : XI e.1 e.2, Φ e.1 e.2 mu r c (fstIx y) (sndIx y) * (downD (subs a) 1 f e.1 (fstIx y) 0 * downD (subs b) 1 g e.2 (sndIx y) 0) =
      Φ e.1 e.2 mu r c (fstIx y) (sndIx y) * (f (fstIx y + offOf (subs a) e.1) 0 * g (sndIx y + offOf (subs b) e.2) 0) := by
    intro y
    unfold downD
    rw [if_pos ⟨(fstIx y).2, by omega⟩, if_pos ⟨(sndIx y).2, by omega⟩]
  rw [Finset.sum_congr rfl fun y _ => e1 y, ← hs]
  refine Finset.sum_congr rfl fun x _ => ?_
  unfold embP
  by_cases hc : InBlk (subs a) e.1 (fstIx x) ∧ InBlk (subs b) e.2 (sndIx x)
  · rw [if_pos hc, if_pos hc]
    obtain ⟨c1, c2⟩ := hc
    unfold InBlk at c1 c2
    beta_reduce
    rw [Nat.sub_add_cancel c1.1, Nat.sub_add_cancel c2.1]
  · rw [if_neg hc, if_neg hc, zero_mul]

/-- the constituents that contain `mu` -/
theorem used_parts (hn : 1 ≤ n) (ha : IsPartition (n + 1) a) (hb : IsPartition (n + 1) b) {tau : SnType} (ht : CGState.IsProd (n + 1) a b tau)
    {mu : List Nat} (hmu : IsPartition n mu) : used n a b (parts tau) mu = kmul n a b mu := by
  rw [kmul_eq hn ha hb hmu]
  unfold used usedBy
  have hnd := ht.ok.nodup
  rw [← List.sum_toFinset _ hnd]
  have : ∑ x : Pt (n + 1), (if mu ∈ subs x.1 then kronN (n + 1) a b x.1 else 0) =
      ∑ x ∈ (Finset.univ : Finset (Pt (n + 1))).map ⟨Subtype.val, Subtype.val_injective⟩, (if mu ∈ subs x then kronN (n + 1) a b x else 0) := by
    rw [Finset.sum_map]; rfl
  rw [this]
  refine Finset.sum_subset ?_ ?_
  · intro x hx
    rw [Finset.mem_map]
    exact ⟨⟨x, ht.ok.all x (List.mem_toFinset.1 hx)⟩, Finset.mem_univ _, rfl⟩
  · intro x hx hx'
    obtain ⟨⟨y, hy⟩, -, rfl⟩ := Finset.mem_map.1 hx
    rw [List.mem_toFinset, ht.mem] at hx'
    simp only [Function.Embedding.coeFn_mk]
    have h0 : kronN (n + 1) a b y = 0 := by
      by_contra h
      exact hx' ⟨hy, Nat.pos_of_ne_zero h⟩
    rw [h0, ite_self]

/-- the restriction of the type of the product -/
theorem down_tau (hn : 1 ≤ n) (ha : IsPartition (n + 1) a) (hb : IsPartition (n + 1) b) {tau : SnType} (ht : CGState.IsProd (n + 1) a b tau) :
    ∃ dt, SnType.down tau = some dt ∧ TypeOk n dt ∧ (∀ mu, mu ∈ parts dt ↔ ∃ p ∈ parts tau, mu ∈ subs p) ∧
      ∀ mu, IsPartition n mu → mult dt mu = kmul n a b mu := by
  obtain ⟨D, a1, a2, a3, a4, -⟩ := down_ok ht.ok
  refine ⟨D, a1, a2, a3, fun mu hmu => ?_⟩
  rw [a4 mu, ← used_parts hn ha hb ht hmu]
  have : ∀ t : SnType, (∀ e ∈ t, e.2 = (kronN (n + 1) a b e.1 : Int)) → typeSum (fun p => if mu ∈ subs p then 1 else 0) t = (used n a b (parts t) mu : Int) := by
    intro t
    induction t with
    | nil => intro _; rfl
    | cons e t ih =>
      intro h
      obtain ⟨p, m⟩ := e
      have h1 := h (p, m) (by simp)
      simp only at h1
      rw [typeSum_cons, ih fun e he => h e (by simp [he]), h1]
      unfold used usedBy parts
      rw [List.map_cons, List.map_cons, List.sum_cons]
      push_cast
      split_ifs <;> simp
  refine this tau fun e he => ?_
  rw [← lookup_of_mem ht.ok.nodup he]
  exact ht.mult _ (ht.ok.all _ (List.mem_map.2 ⟨e, he, rfl⟩))

theorem kmul_pos (hn : 1 ≤ n) (ha : IsPartition (n + 1) a) (hb : IsPartition (n + 1) b) {tau : SnType} (ht : CGState.IsProd (n + 1) a b tau)
    {p mu : List Nat} (hp : p ∈ parts tau) (hmu : mu ∈ subs p) : IsPartition n mu ∧ 0 < kmul n a b mu := by
  have hp' := (ht.mem p).1 hp
  have h1 := sub_part hp'.1 mu hmu
  refine ⟨h1, ?_⟩
  rw [kmul_eq hn ha hb h1]
  refine lt_of_lt_of_le ?_ (Finset.single_le_sum (f := fun x : Pt (n + 1) => if mu ∈ subs x.1 then kronN (n + 1) a b x.1 else 0) (fun _ _ => Nat.zero_le _)
    (Finset.mem_univ (⟨p, hp'.1⟩ : Pt (n + 1))))
  simp only [if_pos hmu]
  exact hp'.2

/-- the product of the restrictions of two basis vectors -/
theorem subProduct_ok (hn : 1 ≤ n) (hacc : AccSpec n Φ acc) (ha : IsPartition (n + 1) a) (hb : IsPartition (n + 1) b) (x : XI a b) :
    ∃ R, subProduct (cgVecWith acc) a b (fstIx x) (sndIx x) = some R ∧ Ok n R ∧
      (∀ mu, mu ∈ vkeys R ↔ IsPartition n mu ∧ 0 < kmul n a b mu) ∧ (∀ mu ∈ vkeys R, (partAt R mu).m = kmul n a b mu) ∧
      ∀ mu ∈ vkeys R, ∀ r < dimOf mu, ∀ k < kmul n a b mu, (partAt R mu).data r k = psi n Φ a b mu r k (fstIx x) (sndIx x) := by
  obtain ⟨xs, ys, R, e1, e2, e3, h1, h2, h3, h4⟩ := sub_ok hn hacc ha hb (fun i' j' => if i' = (fstIx x : Nat) ∧ j' = 0 then 1 else 0)
    (fun i' j' => if i' = (sndIx x : Nat) ∧ j' = 0 then 1 else 0)
  refine ⟨R, ?_, h1, h2, h3, ?_⟩
  · unfold subProduct unitPart
    rw [show VPart.zero a 1 = _ from zero_eq (by omega) ha 1, show VPart.zero b 1 = _ from zero_eq (by omega) hb 1]
    simp only [Option.bind_eq_bind, Option.bind_some]
    have e1' : downB { mkP a 1 fun _ _ => 0 with data := fun i' j' => if i' = (fstIx x : Nat) ∧ j' = 0 then 1 else 0 } = some xs := e1
    have e2' : downB { mkP b 1 fun _ _ => 0 with data := fun i' j' => if i' = (sndIx x : Nat) ∧ j' = 0 then 1 else 0 } = some ys := e2
    rw [e1', e2']
    exact e3
  · intro mu hmu r hr k hk
    rw [h4 mu hmu r hr k hk]
    rw [Finset.sum_eq_single x]
    · simp
    · intro y _ hy
      have : ¬ ((fstIx y : Nat) = fstIx x ∧ (sndIx y : Nat) = sndIx x) := by
        rintro ⟨h1, h2⟩
        apply hy
        rw [← fuse_fst_snd y, ← fuse_fst_snd x, Fin.ext h1, Fin.ext h2]
      by_cases h1 : (fstIx y : Nat) = fstIx x
      · have h2 : ¬ (sndIx y : Nat) = sndIx x := fun h => this ⟨h1, h⟩
        simp [h2]
      · simp [h1]
    · intro h; exact absurd (Finset.mem_univ _) h

/-- the slot of a partition at the start -/
theorem mkSlot_ok (hn : 1 ≤ n) (ha : IsPartition (n + 1) a) (hb : IsPartition (n + 1) b) {dt : SnType} (hdt : TypeOk n dt)
    (sub : XI a b → SnVec) (hs : ∀ x, Ok n (sub x) ∧ (∀ mu, mu ∈ vkeys (sub x) ↔ IsPartition n mu ∧ 0 < kmul n a b mu) ∧
      (∀ mu ∈ vkeys (sub x), (partAt (sub x) mu).m = kmul n a b mu) ∧
      ∀ mu ∈ vkeys (sub x), ∀ r < dimOf mu, ∀ k < kmul n a b mu, (partAt (sub x) mu).data r k = psi n Φ a b mu r k (fstIx x) (sndIx x))
    {mu : List Nat} (hmu : mu ∈ parts dt) (hpos : 0 < kmul n a b mu) (hm : mult dt mu = kmul n a b mu) :
    ∃ s, mkSlot eig (jmX (n + 1) a b n) sub dt mu = some s ∧ CGSlotOk eig n Φ a b [] mu s := by
  have hp := hdt.all mu hmu
  have hk : ∀ x, mu ∈ vkeys (sub x) := fun x => ((hs x).2.1 mu).2 ⟨hp, hpos⟩
  have hpo : ∀ x, partOf (sub x) mu = some (partAt (sub x) mu) := fun x => partOf_eq (hs x).1 (hk x)
  have hd0 : 0 < (irrOf a).d * (irrOf b).d := Nat.mul_pos (dimOf_pos (by omega) ha) (dimOf_pos (by omega) hb)
  have hd : ∀ x, (partAt (sub x) mu).d = dimOf mu := by
    intro x
    obtain ⟨-, -, -, -, h1, h2⟩ := index_partAt (hs x).1 (hk x)
    rw [part_d (hs x).1 h1, h2]
  refine ⟨⟨dimOf mu, kmul n a b mu, Vm n Φ a b mu, Um eig n Φ a b mu, Dm eig n Φ a b mu, 1, 0⟩, ?_, ?_⟩
  · unfold mkSlot
    rw [lookup_parts hdt hmu, hm]
    simp only [Option.bind_eq_bind, Option.bind_some]
    rw [mapM_map _ (fun x => partAt (sub x) mu) _ (fun x _ => hpo x)]
    simp only [Option.bind_some]
    have hh : ((List.finRange ((irrOf a).d * (irrOf b).d)).map fun x => partAt (sub x) mu).head? = some (partAt (sub ⟨0, hd0⟩) mu) := by
      rw [List.head?_map]
      have : (List.finRange ((irrOf a).d * (irrOf b).d)).head? = some ⟨0, hd0⟩ := by
        rw [List.head?_eq_getElem?, List.getElem?_eq_getElem (by simpa using hd0)]
        simp
      rw [this]; rfl
    rw [hh]
    simp only [Option.bind_some]
    rw [if_pos (by
      rw [List.all_eq_true]
      intro q hq
      obtain ⟨x, -, rfl⟩ := List.mem_map.1 hq
      rw [(hs x).2.2.1 mu (hk x)]; simp)]
    have hV : (fun (x : XI a b) (c : Fin (kmul n a b mu)) => ((partOf (sub x) mu).map fun q => q.data 0 c).getD 0) = Vm n Φ a b mu := by
      funext x c
      rw [hpo x]
      exact (hs x).2.2.2 mu (hk x) 0 (dimOf_pos hn hp) c c.2
    have hV' : (fun (x : XI a b) (c : Fin ((kmul n a b mu : Int).toNat)) => ((partOf (sub x) mu).map fun q => q.data 0 c).getD 0) = Vm n Φ a b mu := hV
    rw [hV', hd]
    rfl
  · exact ⟨_, _, rfl, fun i => Or.inl rfl, fun x hx => absurd hx (by simp)⟩

/-- the Jucys-Murphy element -/
theorem prodJM_eq (hn : 1 ≤ n) (ha : IsPartition (n + 1) a) (hb : IsPartition (n + 1) b) :
    (⟨irrOf a, irrOf b⟩ : ProductRep).jucysMurphy ((n + 1 : Nat) : Int) = some (jmX (n + 1) a b n) := by
  have h := prodJM (P := ⟨irrOf a, irrOf b⟩) (irrOf_spec (by omega) ha).2.2.2 (irrOf_spec (by omega) hb).2.2.2 n (by omega)
  rw [show ((n + 1 : Nat) : Int) = (n : Int) + 1 by push_cast; rfl, h]
  congr 1
  funext x y
  unfold jmX
  rw [Matrix.sum_apply]
  refine Finset.sum_congr rfl fun i _ => ?_
  rw [prodMat_pm (by omega) ha hb]

theorem learn_ok (h : Inv n Φ) (he : EigOk eig) (hn : 1 ≤ n) (hN : n < 1234567) (hacc : AccSpec n Φ acc) (ha : IsPartition (n + 1) a)
    (hb : IsPartition (n + 1) b) {tau dt : SnType} (ht : CGState.IsProd (n + 1) a b tau) (hdt : TypeOk n dt)
    (hp : ∀ mu, mu ∈ parts dt ↔ ∃ p ∈ parts tau, mu ∈ subs p) (hm : ∀ mu, IsPartition n mu → mult dt mu = kmul n a b mu) :
    ∃ sl : Slots ((irrOf a).d * (irrOf b).d), learn eig (cgVecWith acc) (n + 1) a b tau dt = some ⟨(irrOf a).d * (irrOf b).d, sl⟩ ∧
      ∀ mu ∈ parts dt, ∃ s, sl mu = some s ∧ CGSlotOk eig n Φ a b (parts tau) mu s := by
  choose S hS using subProduct_ok hn hacc ha hb
  have hpos : ∀ mu ∈ parts dt, 0 < kmul n a b mu := by
    intro mu hmu
    obtain ⟨p, h1, h2⟩ := (hp mu).1 hmu
    exact (kmul_pos hn ha hb ht h1 h2).2
  obtain ⟨sl, e1, h1⟩ := tauLoop_ok h he hn hN ha hb (D := parts dt) (parts tau) [] ht.ok.all ht.ok.nodup (fun x hx => ((ht.mem x).1 hx).2) (by
    intro mu
    by_cases hmu : IsPartition n mu
    · exact (used_parts hn ha hb ht hmu).le
    · have : used n a b ([] ++ parts tau) mu = 0 := by
        unfold used usedBy
        rw [List.sum_eq_zero]
        intro k hk
        obtain ⟨y, hy, rfl⟩ := List.mem_map.1 hk
        rw [if_neg fun h' => hmu (sub_part (ht.ok.all y hy) mu h')]
      omega) (fun x hx mu hmu => (hp mu).2 ⟨x, hx, hmu⟩)
    (mkSlot eig (jmX (n + 1) a b n) S dt) (fun mu hmu => mkSlot_ok hn ha hb hdt S (fun x => (hS x).2) hmu (hpos mu hmu) (hm mu (hdt.all mu hmu)))
  refine ⟨sl, ?_, h1⟩
  have el : (List.finRange (⟨irrOf a, irrOf b⟩ : ProductRep).d).mapM (fun x => subProduct (cgVecWith acc) a b
      (fstIx (a := (irrOf a).d) (b := (irrOf b).d) x) (sndIx (a := (irrOf a).d) (b := (irrOf b).d) x)) =
      some ((List.finRange ((irrOf a).d * (irrOf b).d)).map S) := mapM_map _ S _ fun x _ => (hS x).1
  have eS : (fun x : XI a b => ((List.finRange ((irrOf a).d * (irrOf b).d)).map S).getD x []) = S := by
    funext x
    rw [List.getD_eq_getElem?_getD, List.getElem?_map, List.getElem?_eq_getElem (by simp)]
    simp
  have et : tau = (parts tau).map fun x => (x, (kronN (n + 1) a b x : Int)) := by
    conv_lhs => rw [ht.ok.eq_map]
    exact List.map_congr_left fun x hx => by rw [ht.mult x (ht.ok.all x hx)]
  rw [← et] at e1
  have e1' : tauLoop ⟨irrOf a, irrOf b⟩ (n + 1) tau (mkSlot eig (jmX (n + 1) a b n)
      (fun x : XI a b => ((List.finRange ((irrOf a).d * (irrOf b).d)).map S).getD x []) dt) = some sl := by rw [eS]; exact e1
  unfold learn
  simp only [Option.bind_eq_bind]
  refine Option.bind_eq_some_iff.2 ⟨_, (irrOf_spec (by omega) ha).1, ?_⟩
  refine Option.bind_eq_some_iff.2 ⟨_, (irrOf_spec (by omega) hb).1, ?_⟩
  refine Option.bind_eq_some_iff.2 ⟨_, prodJM_eq hn ha hb, ?_⟩
  refine Option.bind_eq_some_iff.2 ⟨_, el, ?_⟩
  exact Option.bind_eq_some_iff.2 ⟨_, e1', rfl⟩

/-- `sub_tilde` -/
theorem twist_ok (hn : 1 ≤ n) {sub : SnVec} (hs : Ok n sub) {dt : SnType} (hdt : TypeOk n dt) {d : Nat} (sl : Slots d) (K : List Nat → Nat)
    (F : (mu : List Nat) → Matrix (Fin (K mu)) (Fin (K mu)) ℝ) (hk : ∀ mu ∈ parts dt, mu ∈ vkeys sub ∧ (partAt sub mu).m = K mu)
    (hsl : ∀ mu ∈ parts dt, ∃ dm V U ev tk, sl mu = some ⟨dm, K mu, V, U, ev, F mu, tk⟩) :
    twist sub sl dt = some ((parts dt).map fun mu => mkP mu (K mu) fun i c =>
      if h : c < K mu then ∑ j : Fin (K mu), (partAt sub mu).data i j * F mu j ⟨c, h⟩ else 0) := by
  unfold twist
  rw [mapM_map _ (fun e => mkP e.1 (K e.1) fun i c => if h : c < K e.1 then ∑ j : Fin (K e.1), (partAt sub e.1).data i j * F e.1 j ⟨c, h⟩ else 0)]
  · unfold parts
    rw [List.map_map]
    rfl
  · intro e he
    have hmu : e.1 ∈ parts dt := List.mem_map.2 ⟨e, he, rfl⟩
    obtain ⟨dm, V, U, ev, tk, es⟩ := hsl _ hmu
    rw [partOf_eq hs (hk _ hmu).1, es, (irrOf_spec hn (hdt.all _ hmu)).1]
    simp only [Option.bind_eq_bind, Option.bind_some]
    rw [if_pos (hk _ hmu).2]
    obtain ⟨-, -, -, -, h1, h2⟩ := index_partAt hs (hk _ hmu).1
    rw [part_d hs h1, h2]
    rfl

end

end Snob
