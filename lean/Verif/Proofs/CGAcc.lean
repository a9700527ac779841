import Verif.Proofs.CGLoop2
import Verif.Proofs.CG
import Verif.Proofs.SnVecInd

/-! # Products of vectors: the loops over the pairs of parts -/

namespace Snob

open IP Matrix SnVec

/-- the keys of a vector -/
abbrev vkeys (v : SnVec) : List (List Nat) := v.map fun P => P.irrep.lambda

theorem tot_append (n : Nat) (L1 L2 : List (List Nat × List Nat)) (mu : List Nat) :
    tot n (L1 ++ L2) mu = tot n L1 mu + tot n L2 mu := by
  unfold tot; rw [List.map_append, List.sum_append]

theorem tot_cons (n : Nat) (e : List Nat × List Nat) (L : List (List Nat × List Nat)) (mu : List Nat) :
    tot n (e :: L) mu = kronN n e.1 e.2 mu + tot n L mu := by
  unfold tot; rw [List.map_cons, List.sum_cons]

theorem tot_nil (n : Nat) (mu : List Nat) : tot n [] mu = 0 := rfl

theorem loc_append_left {n : Nat} {L1 L2 : List (List Nat × List Nat)} {mu : List Nat} {k : Nat} (h : k < tot n L1 mu) :
    loc n (L1 ++ L2) mu k = loc n L1 mu k := by
  induction L1 generalizing k with
  | nil => simp [tot_nil] at h
  | cons e L ih =>
    rw [List.cons_append, loc, loc]
    split_ifs with hk
    · rfl
    · exact ih (by rw [tot_cons] at h; omega)

theorem loc_append_right {n : Nat} {L1 L2 : List (List Nat × List Nat)} {mu : List Nat} {k : Nat} (h : tot n L1 mu ≤ k) :
    loc n (L1 ++ L2) mu k = loc n L2 mu (k - tot n L1 mu) := by
  induction L1 generalizing k with
  | nil => rfl
  | cons e L ih =>
    rw [tot_cons] at h
    rw [List.cons_append, loc, if_neg (by omega), ih (by omega), tot_cons]
    congr 1; omega

theorem loc_single {n : Nat} {e : List Nat × List Nat} {mu : List Nat} {k : Nat} (h : k < kronN n e.1 e.2 mu) :
    loc n [e] mu k = (e, k) := by
  rw [loc, if_pos h]

/-- the pairs in the order of the loops -/
def prs (Kx Ky : List (List Nat)) : List (List Nat × List Nat) := Kx.flatMap fun x => Ky.map fun y => (x, y)

theorem sprs_eq (a b : List Nat) : sprs a b = prs (subs a) (subs b) := rfl

theorem mem_prs {Kx Ky : List (List Nat)} {e : List Nat × List Nat} : e ∈ prs Kx Ky ↔ e.1 ∈ Kx ∧ e.2 ∈ Ky := by
  unfold prs
  simp only [List.mem_flatMap, List.mem_map]
  constructor
  · rintro ⟨x, hx, y, hy, rfl⟩; exact ⟨hx, hy⟩
  · rintro ⟨h1, h2⟩; exact ⟨_, h1, _, h2, rfl⟩

theorem foldlM_prs {σ : Type} (f : σ → List Nat → List Nat → Option σ) (Kx Ky : List (List Nat)) (s : σ) :
    Kx.foldlM (fun s x => Ky.foldlM (fun s y => f s x y) s) s = (prs Kx Ky).foldlM (fun s e => f s e.1 e.2) s := by
  induction Kx generalizing s with
  | nil => rfl
  | cons x Kx ih =>
    have : prs (x :: Kx) Ky = Ky.map (fun y => (x, y)) ++ prs Kx Ky := rfl
    rw [this, List.foldlM_cons, List.foldlM_append, List.foldlM_map]
    congr 1
    funext s'
    exact ih s'

/-- the entry of a product of two columns -/
noncomputable def prodVal (Φ : Coef) (a b p : List Nat) (r c : Nat) (f g : Nat → ℝ) : ℝ :=
  ∑ y : XI a b, Φ a b p r c (fstIx (a := (irrOf a).d) (b := (irrOf b).d) y) (sndIx (a := (irrOf a).d) (b := (irrOf b).d) y) *
    (f (fstIx (a := (irrOf a).d) (b := (irrOf b).d) y) * g (sndIx (a := (irrOf a).d) (b := (irrOf b).d) y))

/-- what a function that multiplies two parts with one column has to do -/
def AccSpec (n : Nat) (Φ : Coef) (acc : SnVec → SnType → VPart → VPart → Option (SnVec × SnType)) : Prop :=
  ∀ {a b : List Nat}, IsPartition n a → IsPartition n b → ∀ (f g : Nat → Nat → ℝ) (R : SnVec) (offs : SnType),
    Ok n R → TypeOk n offs → (∀ x, 0 ≤ mult offs x) →
    (∀ x, IsPartition n x → 0 < kronN n a b x → x ∈ vkeys R ∧ mult offs x + kronN n a b x ≤ (partAt R x).m) →
    (n = 1 → mult offs [1] = 0) →
    ∃ R' offs', acc R offs (mkP a 1 f) (mkP b 1 g) = some (R', offs') ∧ Ok n R' ∧ vkeys R' = vkeys R ∧ TypeOk n offs' ∧
      (∀ x, IsPartition n x → mult offs' x = mult offs x + kronN n a b x) ∧ (∀ x, 0 ≤ mult offs' x) ∧
      ∀ x ∈ vkeys R, (partAt R' x).m = (partAt R x).m ∧ ∀ r < dimOf x, ∀ c, (partAt R' x).data r c = (partAt R x).data r c +
        if (mult offs x).toNat ≤ c ∧ c < (mult offs x).toNat + kronN n a b x then
          prodVal Φ a b x r (c - (mult offs x).toNat) (f · 0) (g · 0) else 0

/-- the loop over the pairs -/
theorem pairLoop_ok {n : Nat} {Φ : Coef} {acc : SnVec → SnType → VPart → VPart → Option (SnVec × SnType)} (hacc : AccSpec n Φ acc)
    (F G : List Nat → Nat → Nat → ℝ) {L : List (List Nat × List Nat)} (hL : ∀ e ∈ L, IsPartition n e.1 ∧ IsPartition n e.2)
    (hone : n = 1 → L.length ≤ 1) {K : List (List Nat)} (hK : ∀ x, IsPartition n x → 0 < tot n L x → x ∈ K)
    (L1 L2 : List (List Nat × List Nat)) (hLe : L = L1 ++ L2) (R : SnVec) (offs : SnType) (hR : Ok n R) (hk : vkeys R = K)
    (ho : TypeOk n offs) (ho0 : ∀ x, 0 ≤ mult offs x) (hom : ∀ x, IsPartition n x → mult offs x = tot n L1 x)
    (hm : ∀ x ∈ K, (partAt R x).m = tot n L x) 
    (hd : ∀ x ∈ K, ∀ r < dimOf x, ∀ c, (partAt R x).data r c = if c < tot n L1 x then
      prodVal Φ (loc n L1 x c).1.1 (loc n L1 x c).1.2 x r (loc n L1 x c).2 (F (loc n L1 x c).1.1 · 0) (G (loc n L1 x c).1.2 · 0) else 0) :
    ∃ R' offs', L2.foldlM (fun s e => acc s.1 s.2 (mkP e.1 1 (F e.1)) (mkP e.2 1 (G e.2))) (R, offs) = some (R', offs') ∧
      Ok n R' ∧ vkeys R' = K ∧ (∀ x ∈ K, (partAt R' x).m = tot n L x) ∧
      ∀ x ∈ K, ∀ r < dimOf x, ∀ c < tot n L x, (partAt R' x).data r c =
        prodVal Φ (loc n L x c).1.1 (loc n L x c).1.2 x r (loc n L x c).2 (F (loc n L x c).1.1 · 0) (G (loc n L x c).1.2 · 0) := by
  induction L2 generalizing L1 R offs with
  | nil =>
    rw [List.append_nil] at hLe
    subst hLe
    refine ⟨R, offs, rfl, hR, hk, hm, fun x hx r hr c hc => ?_⟩
    rw [hd x hx r hr c, if_pos hc]
  | cons e L2 ih =>
    have he : e ∈ L := by rw [hLe]; simp
    obtain ⟨R', offs', h1, h2, h3, h4, h5, h6, h7⟩ := hacc (hL e he).1 (hL e he).2 (F e.1) (G e.2) R offs hR ho ho0 (by
      intro x hx h0
      have hx' : x ∈ K := hK x hx (by rw [hLe, tot_append, tot_cons]; omega)
      refine ⟨hk ▸ hx', ?_⟩
      rw [hm x hx', hom x hx, hLe, tot_append, tot_cons]
      push_cast; omega) (by
      intro h
      have := hone h
      rw [hLe, List.length_append, List.length_cons] at this
      have h0 : L1 = [] := List.eq_nil_of_length_eq_zero (by omega)
      rw [hom _ (by subst h; exact ⟨by simp, by simp, by simp⟩), h0]; rfl)
    rw [List.foldlM_cons, h1]
    obtain ⟨R2, offs2, e2, rest⟩ := ih (L1 ++ [e]) (by rw [hLe, List.append_assoc]; rfl) R' offs' h2 (h3.trans hk) h4 h6 (by
      intro x hx
      rw [h5 x hx, hom x hx, tot_append, tot_cons, tot_nil]; push_cast; ring) (by
      intro x hx
      rw [(h7 x (hk ▸ hx)).1]; exact hm x hx) (by
      intro x hx r hr c
      have hxp : IsPartition n x := by
        rw [← hk] at hx
        obtain ⟨P, hP, rfl⟩ := List.mem_map.1 hx
        exact (hR.part P hP).1
      rw [(h7 x (hk ▸ hx)).2 r hr c, hd x hx r hr c, hom x hxp, tot_append, tot_cons, tot_nil, Int.toNat_natCast, add_zero]
      by_cases hc : c < tot n L1 x
      · rw [if_pos hc, if_neg (by omega), add_zero, if_pos (by omega), loc_append_left hc]
      · rw [if_neg hc, zero_add]
        by_cases hc2 : c < tot n L1 x + kronN n e.1 e.2 x
        · rw [if_pos ⟨by omega, hc2⟩, if_pos hc2, loc_append_right (by omega), loc_single (by omega)]
        · rw [if_neg (by omega), if_neg hc2])
    exact ⟨R2, offs2, e2, rest⟩

theorem typeSum_one {t : SnType} (L : List (List Nat)) (h : t = L.map fun x => (x, (1 : Int))) (d : List Nat → Int) :
    typeSum d t = (L.map d).sum := by
  subst h
  unfold typeSum
  rw [List.map_map]
  congr 1
  exact List.map_congr_left fun x _ => by simp

theorem tot_prs (n : Nat) (Kx Ky : List (List Nat)) (r : List Nat) :
    (tot n (prs Kx Ky) r : Int) = (Kx.map fun p => (Ky.map fun q => (kronN n p q r : Int)).sum).sum := by
  induction Kx with
  | nil => rfl
  | cons x Kx ih =>
    have : prs (x :: Kx) Ky = Ky.map (fun y => (x, y)) ++ prs Kx Ky := rfl
    rw [this, tot_append, Nat.cast_add, ih, List.map_cons, List.sum_cons]
    congr 1
    unfold tot
    rw [List.map_map]
    clear ih this
    induction Ky with
    | nil => rfl
    | cons y Ky ih2 => 
      simp only [List.map_cons, List.sum_cons, Nat.cast_add, Function.comp] at ih2 ⊢
      rw [ih2]
theorem isPartition_one {x : List Nat} (h : IsPartition 1 x) : x = [1] := by
  obtain ⟨-, h2, h1⟩ := h
  match x with
  | [] => simp at h1
  | [a] => simpa using h1
  | a :: b :: l =>
    have ha := h2 a (by simp)
    have hb := h2 b (by simp)
    simp only [List.sum_cons] at h1
    omega

theorem lexGreater_nodup {L : List (List Nat)} (h : L.Pairwise LexGreater) : L.Nodup :=
  h.imp (by rintro a b hab rfl; exact lexGreater_irrefl _ hab)

theorem prs_length_le {Kx Ky : List (List Nat)} (hx : ∀ x ∈ Kx, IsPartition 1 x) (hy : ∀ x ∈ Ky, IsPartition 1 x) (h1 : Kx.Nodup)
    (h2 : Ky.Nodup) : (prs Kx Ky).length ≤ 1 := by
  have key : ∀ {L : List (List Nat)}, (∀ x ∈ L, IsPartition 1 x) → L.Nodup → L.length ≤ 1 := by
    intro L h hd
    have : L ⊆ [[1]] := fun x hx => by rw [isPartition_one (h x hx)]; simp
    exact (List.subperm_of_subset hd this).length_le
  have a := key hx h1
  have b := key hy h2
  have : (prs Kx Ky).length = Kx.length * Ky.length := by
    unfold prs
    rw [List.length_flatMap]
    simp
  rw [this]
  calc _ ≤ 1 * 1 := Nat.mul_le_mul a b
    _ = 1 := rfl

theorem vec_ok {n : Nat} (hn : 1 ≤ n) {Φ : Coef} {acc : SnVec → SnType → VPart → VPart → Option (SnVec × SnType)} (hacc : AccSpec n Φ acc)
    (F G : List Nat → Nat → Nat → ℝ) {Kx Ky : List (List Nat)} (hx : ∀ x ∈ Kx, IsPartition n x) (hy : ∀ x ∈ Ky, IsPartition n x)
    (sx : Kx.Pairwise LexGreater) (sy : Ky.Pairwise LexGreater) :
    ∃ R, cgVecWith acc (Kx.map fun x => mkP x 1 (F x)) (Ky.map fun x => mkP x 1 (G x)) = some R ∧ Ok n R ∧
      (∀ x, x ∈ vkeys R ↔ IsPartition n x ∧ 0 < tot n (prs Kx Ky) x) ∧
      (∀ x ∈ vkeys R, (partAt R x).m = tot n (prs Kx Ky) x) ∧
      ∀ x ∈ vkeys R, ∀ r < dimOf x, ∀ c < tot n (prs Kx Ky) x, (partAt R x).data r c =
        prodVal Φ (loc n (prs Kx Ky) x c).1.1 (loc n (prs Kx Ky) x c).1.2 x r (loc n (prs Kx Ky) x c).2
          (F (loc n (prs Kx Ky) x c).1.1 · 0) (G (loc n (prs Kx Ky) x c).1.2 · 0) := by
  have ox := ok_map hn hx sx (fun _ => 1) F
  have oy := ok_map hn hy sy (fun _ => 1) G
  have kx := keys_map hn hx (fun _ => 1) F
  have ky := keys_map hn hy (fun _ => 1) G
  have tx : typeOf (obs (Kx.map fun x => mkP x 1 (F x))) = Kx.map fun x => (x, (1 : Int)) := by
    rw [typeOf_obs, List.map_map]
    exact List.map_congr_left fun x h => Prod.ext (irrOf_spec hn (hx x h)).2.1 rfl
  have ty : typeOf (obs (Ky.map fun x => mkP x 1 (G x))) = Ky.map fun x => (x, (1 : Int)) := by
    rw [typeOf_obs, List.map_map]
    exact List.map_congr_left fun x h => Prod.ext (irrOf_spec hn (hy x h)).2.1 rfl
  obtain ⟨s', T, e1, -, hT, hp, hmu⟩ := CGState.ok_empty.productTypes hn (typeOf_ok ox) (typeOf_ok oy)
  have hmt : ∀ r, IsPartition n r → mult T r = tot n (prs Kx Ky) r := by
    intro r hr
    rw [hmu r hr, typeSum_one Kx tx, tot_prs]
    congr 1
    exact List.map_congr_left fun p _ => typeSum_one Ky ty _
  have hT0 : ∀ x ∈ parts T, 0 ≤ mult T x := fun x h => by rw [hmt x (hT.all x h)]; positivity
  have hz := vecZero_eq hn hT hT0
  have hkp : ∀ x, x ∈ parts T ↔ IsPartition n x ∧ 0 < tot n (prs Kx Ky) x := by
    intro x
    rw [hp x, parts_typeOf, parts_typeOf, kx, ky]
    refine and_congr_right fun _ => ?_
    unfold tot
    rw [List.sum_pos_iff_exists_pos_nat]
    constructor
    · rintro ⟨p, h1, q, h2, h3⟩
      exact ⟨_, List.mem_map.2 ⟨(p, q), mem_prs.2 ⟨h1, h2⟩, rfl⟩, h3⟩
    · rintro ⟨k, hk, h3⟩
      obtain ⟨e, he, rfl⟩ := List.mem_map.1 hk
      exact ⟨_, (mem_prs.1 he).1, _, (mem_prs.1 he).2, h3⟩
  have oz := ok_map hn hT.all hT.sorted (fun x => (mult T x).toNat) (fun _ _ _ => 0)
  have kz := keys_map hn hT.all (fun x => (mult T x).toNat) (fun _ _ _ => 0)
  have hat : ∀ x ∈ parts T, partAt ((parts T).map fun x => mkP x (mult T x).toNat fun _ _ => 0) x = mkP x (mult T x).toNat fun _ _ => 0 := by
    intro x h
    have := partAt_of_mem oz.nodup (P := mkP x (mult T x).toNat fun _ _ => 0) (List.mem_map.2 ⟨x, h, rfl⟩)
    rwa [show (mkP x (mult T x).toNat fun _ _ => 0).irrep.lambda = x from (irrOf_spec hn (hT.all x h)).2.1] at this
  obtain ⟨R, offs, e2, h1, h2, h3, h4⟩ := pairLoop_ok hacc F G (L := prs Kx Ky) (fun e he => ⟨hx _ (mem_prs.1 he).1, hy _ (mem_prs.1 he).2⟩)
    (by rintro rfl; exact prs_length_le hx hy (lexGreater_nodup sx) (lexGreater_nodup sy))
    (K := parts T) (fun x h h0 => (hkp x).2 ⟨h, h0⟩) [] (prs Kx Ky) rfl _ [] oz kz (typeOk_nil n) (by intro x; simp [mult])
    (by intro x _; simp [mult, tot_nil]) (by
      intro x h
      rw [hat x h]
      show (mult T x).toNat = _
      rw [hmt x (hT.all x h), Int.toNat_natCast]) (by
      intro x h r _ c
      rw [hat x h, tot_nil, if_neg (by omega)]; rfl)
  refine ⟨R, ?_, h1, ?_, ?_, ?_⟩
  · unfold cgVecWith cgTypes
    rw [getType_eq ox, getType_eq oy]
    simp only [Option.bind_eq_bind, Option.bind_some, e1, Option.map_some, hz]
    rw [List.foldlM_map]
    have : ∀ s : SnVec × SnType, (fun (s : SnVec × SnType) (x : List Nat) => (Ky.map fun x => mkP x 1 (G x)).foldlM (fun s Q => acc s.1 s.2 (mkP x 1 (F x)) Q) s) =
        fun s x => Ky.foldlM (fun s y => acc s.1 s.2 (mkP x 1 (F x)) (mkP y 1 (G y))) s := by
      intro _; funext s x; rw [List.foldlM_map]
    rw [this (([], []) : SnVec × SnType), foldlM_prs (fun s x y => acc s.1 s.2 (mkP x 1 (F x)) (mkP y 1 (G y))), e2]
    rfl
  · intro x; rw [h2]; exact hkp x
  · rw [h2]; exact h3
  · rw [h2]; exact h4

end Snob
