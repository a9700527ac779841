import Verif.Spec.Lifetime
import Verif.Proofs.IrrepAct

/-! # Lifetime of banks and tables -/

namespace Snob.Lifetime

open Snob

/-! ## Banks -/

/-- what a legal history keeps: the objects, and which banks were deleted (`c`, `s`: numbers of destroyed class sets) -/
structure Inv (l : Lib) (ks : List Kind) (c s : Nat) : Prop where
  objs : l.objs.map Prod.fst = ks
  ses : ∀ p, (Kind.session, p) ∈ l.objs → p = .alive
  combi : (c = 0 ∧ (l.combi = .alive ∨ l.combi = .null ∧ Kind.comb ∉ ks)) ∨ (c = 1 ∧ l.combi = .dangling)
  snb : (s = 0 ∧ (l.snb = .alive ∨ l.snb = .null ∧ Kind.sn ∉ ks)) ∨ (s = 1 ∧ l.snb = .dangling)
  snrep : l.snrep = l.snb
  oth : ∀ p ∈ [l.snfft, l.snchar, l.sncg], p = .null ∨ p = .alive

theorem st_new {c : Nat} {p : Ptr} {A B : Prop} (h : (c = 0 ∧ (p = .alive ∨ p = .null ∧ A)) ∨ (c = 1 ∧ p = .dangling)) (e : p = .null) :
    (c = 0 ∧ (Ptr.alive = .alive ∨ Ptr.alive = .null ∧ B)) ∨ (c = 1 ∧ Ptr.alive = .dangling) := by
  subst e
  rcases h with ⟨h, _⟩ | ⟨_, h⟩
  · exact Or.inl ⟨h, Or.inl rfl⟩
  · cases h

theorem st_old {c : Nat} {p : Ptr} {A B : Prop} (h : (c = 0 ∧ (p = .alive ∨ p = .null ∧ A)) ∨ (c = 1 ∧ p = .dangling)) (e : p ≠ .null) :
    (c = 0 ∧ (p = .alive ∨ p = .null ∧ B)) ∨ (c = 1 ∧ p = .dangling) := by
  rcases h with ⟨h, h' | ⟨h', _⟩⟩ | h
  · exact Or.inl ⟨h, Or.inl h'⟩
  · exact absurd h' e
  · exact Or.inr h

theorem Inv.create {l : Lib} {ks : List Kind} {c s : Nat} (h : Inv l ks c s) (k : Kind) : Inv (create k l) (ks ++ [k]) c s := by
  obtain ⟨h1, h2, h3, h4, h5, h6⟩ := h
  have hses : ∀ k p, (k = Kind.session → p = Ptr.alive) → ∀ q, (Kind.session, q) ∈ l.objs ++ [(k, p)] → q = .alive := by
    intro k p hp q hq
    rcases List.mem_append.1 hq with hq | hq
    · exact h2 q hq
    · obtain ⟨rfl, rfl⟩ := Prod.mk.inj (List.mem_singleton.1 hq)
      exact hp rfl
  have hobj : ∀ k p, (l.objs ++ [(k, p)]).map Prod.fst = ks ++ [k] := fun k p => by rw [List.map_append, h1]; rfl
  have hnot : ∀ k k' : Kind, k ≠ k' → (k ∉ ks ↔ k ∉ ks ++ [k']) := fun k k' hk => by simp [hk]
  cases k <;> unfold Lifetime.create <;> simp only
  · have h3' := h3
    have h4' := h4
    rw [hnot .comb .session (by decide)] at h3'
    rw [hnot .sn .session (by decide)] at h4'
    by_cases a : l.combi = .null
    · rw [if_neg (not_not.2 a)]
      by_cases b : l.snb = .null
      · rw [if_neg (not_not.2 b)]
        exact ⟨hobj _ _, hses _ _ (fun _ => rfl), st_new h3 a, st_new h4 b, rfl, by simp⟩
      · rw [if_pos b]
        exact ⟨hobj _ _, hses _ _ (fun _ => rfl), st_new h3 a, h4', h5, h6⟩
    · rw [if_pos a]
      exact ⟨hobj _ _, hses _ _ (fun _ => rfl), h3', h4', h5, h6⟩
  · have h4' := h4
    rw [hnot .sn .comb (by decide)] at h4'
    by_cases a : l.combi = .null
    · rw [if_neg (not_not.2 a)]
      exact ⟨hobj _ _, hses _ _ (fun h => by cases h), st_new h3 a, h4', h5, h6⟩
    · rw [if_pos a]
      exact ⟨hobj _ _, hses _ _ (fun h => by cases h), st_old h3 a, h4', h5, h6⟩
  · have h3' := h3
    rw [hnot .comb .sn (by decide)] at h3'
    by_cases a : l.snb = .null
    · rw [if_neg (not_not.2 a)]
      exact ⟨hobj _ _, hses _ _ (fun h => by cases h), h3', st_new h4 a, rfl, h6⟩
    · rw [if_pos a]
      exact ⟨hobj _ _, hses _ _ (fun h => by cases h), h3', st_old h4 a, h5, h6⟩

theorem erase_not_mem {ks : List Kind} {k : Kind} (h : k ∉ ks) (i : Nat) : k ∉ ks.eraseIdx i :=
  fun h' => h (List.mem_of_mem_eraseIdx h')

/-- a destructor: undefined iff a class set of this kind was destroyed before -/
theorem Inv.destroy {l : Lib} {ks : List Kind} {c s : Nat} (h : Inv l ks c s) {i : Nat} {k : Kind} (hk : ks[i]? = some k) :
    match k with
    | .session => ∃ l', destroy i l = some l' ∧ Inv l' (ks.eraseIdx i) c s
    | .comb => if c = 0 then ∃ l', destroy i l = some l' ∧ Inv l' (ks.eraseIdx i) 1 s else destroy i l = none
    | .sn => if s = 0 then ∃ l', destroy i l = some l' ∧ Inv l' (ks.eraseIdx i) c 1 else destroy i l = none := by
  obtain ⟨h1, h2, h3, h4, h5, h6⟩ := h
  have hk' := hk
  rw [← h1, List.getElem?_map] at hk'
  obtain ⟨⟨k', p⟩, ho, e⟩ := Option.map_eq_some_iff.1 hk'
  simp only at e
  subst e
  have h1' : ((l.objs.eraseIdx i).map Prod.fst) = ks.eraseIdx i := by rw [← List.eraseIdx_map, h1]
  have h2' : ∀ p, (Kind.session, p) ∈ l.objs.eraseIdx i → p = .alive := fun p hp => h2 p (List.mem_of_mem_eraseIdx hp)
  have h3' : (c = 0 ∧ (l.combi = .alive ∨ l.combi = .null ∧ Kind.comb ∉ ks.eraseIdx i)) ∨ (c = 1 ∧ l.combi = .dangling) := by
    rcases h3 with ⟨a, b | ⟨b, d⟩⟩ | b
    · exact Or.inl ⟨a, Or.inl b⟩
    · exact Or.inl ⟨a, Or.inr ⟨b, erase_not_mem d i⟩⟩
    · exact Or.inr b
  have h4' : (s = 0 ∧ (l.snb = .alive ∨ l.snb = .null ∧ Kind.sn ∉ ks.eraseIdx i)) ∨ (s = 1 ∧ l.snb = .dangling) := by
    rcases h4 with ⟨a, b | ⟨b, d⟩⟩ | b
    · exact Or.inl ⟨a, Or.inl b⟩
    · exact Or.inl ⟨a, Or.inr ⟨b, erase_not_mem d i⟩⟩
    · exact Or.inr b
  have hmem := List.mem_of_getElem? hk
  unfold Lifetime.destroy
  rw [ho]
  simp only [Option.bind_eq_bind, Option.bind_some]
  cases k' with
  | session =>
    simp only [h2 p (List.mem_of_getElem? ho), Ptr.delete, Option.bind_some]
    exact ⟨_, rfl, h1', h2', h3', h4', h5, h6⟩
  | comb =>
    simp only
    rcases h3 with ⟨a, b | ⟨b, d⟩⟩ | ⟨a, b⟩
    · rw [if_pos a]
      simp only [b, Ptr.delete, Option.bind_some]
      exact ⟨_, rfl, h1', h2', Or.inr ⟨rfl, rfl⟩, h4', h5, h6⟩
    · exact absurd hmem d
    · rw [if_neg (by omega)]
      simp only [b, Ptr.delete, Option.bind_none]
  | sn =>
    simp only
    rcases h4 with ⟨a, b | ⟨b, d⟩⟩ | ⟨a, b⟩
    · rw [if_pos a]
      simp only [h5, b, Ptr.delete, Option.bind_some]
      exact ⟨_, rfl, h1', h2', h3', Or.inr ⟨rfl, rfl⟩, rfl, h6⟩
    · exact absurd hmem d
    · rw [if_neg (by omega)]
      simp only [b, Ptr.delete, Option.bind_none]

theorem run_inv (h : List Op) (l : Lib) (ks r : List Kind) (c s : Nat) (hi : Inv l ks c s) (hr : removed h ks = some r) :
    if c + r.count .comb ≤ 1 ∧ s + r.count .sn ≤ 1 then ∃ l' ks', run h l = some l' ∧ Inv l' ks' (c + r.count .comb) (s + r.count .sn)
    else run h l = none := by
  have hc : c ≤ 1 := by rcases hi.combi with h | h <;> omega
  have hs : s ≤ 1 := by rcases hi.snb with h | h <;> omega
  induction h generalizing l ks r c s with
  | nil =>
    rw [removed, Option.some.injEq] at hr
    subst hr
    rw [if_pos (by simpa using ⟨hc, hs⟩)]
    exact ⟨l, ks, rfl, by simpa using hi⟩
  | cons op h ih =>
    cases op with
    | mk k =>
      rw [removed] at hr
      exact ih _ _ _ _ _ (hi.create k) hr hc hs
    | rm i =>
      rw [removed] at hr
      cases hk : ks[i]? with
      | none => rw [hk] at hr; simp at hr
      | some k =>
        rw [hk] at hr
        cases hr' : removed h (ks.eraseIdx i) with
        | none => rw [hr'] at hr; simp at hr
        | some r' =>
          rw [hr'] at hr
          simp only [Option.bind_eq_bind, Option.bind_some, Option.some.injEq] at hr
          subst hr
          have hd := hi.destroy hk
          rw [run]
          cases k with
          | session =>
            obtain ⟨l', e, hi'⟩ := hd
            rw [e, Option.bind_some, List.count_cons_of_ne (by simp), List.count_cons_of_ne (by simp)]
            exact ih _ _ _ _ _ hi' hr' hc hs
          | comb =>
            simp only at hd
            rw [List.count_cons_self, List.count_cons_of_ne (by simp)]
            by_cases h0 : c = 0
            · rw [if_pos h0] at hd
              obtain ⟨l', e, hi'⟩ := hd
              rw [e, Option.bind_some]
              have := ih _ _ _ _ _ hi' hr' (by omega) hs
              rw [h0, show 0 + (List.count Kind.comb r' + 1) = 1 + List.count Kind.comb r' by omega]
              exact this
            · rw [if_neg h0] at hd
              rw [hd, Option.bind_none, if_neg (by omega)]
          | sn =>
            simp only at hd
            rw [List.count_cons_self, List.count_cons_of_ne (by simp)]
            by_cases h0 : s = 0
            · rw [if_pos h0] at hd
              obtain ⟨l', e, hi'⟩ := hd
              rw [e, Option.bind_some]
              have := ih _ _ _ _ _ hi' hr' hc (by omega)
              rw [h0, show 0 + (List.count Kind.sn r' + 1) = 1 + List.count Kind.sn r' by omega]
              exact this
            · rw [if_neg h0] at hd
              rw [hd, Option.bind_none, if_neg (by omega)]

theorem Inv.init : Inv {} [] 0 0 := ⟨rfl, by simp, by simp, by simp, rfl, by simp⟩

theorem Inv.good_iff {l : Lib} {ks : List Kind} {c s : Nat} (h : Inv l ks c s) : l.Good ↔ c = 0 ∧ s = 0 := by
  obtain ⟨h1, h2, h3, h4, h5, h6⟩ := h
  unfold Lib.Good
  rw [h5]
  have a := h6 l.snfft (by simp)
  have b := h6 l.snchar (by simp)
  have d := h6 l.sncg (by simp)
  have key : ∀ p : Ptr, p = .null ∨ p = .alive → p ≠ .dangling := by rintro p (rfl | rfl) <;> simp
  constructor
  · rintro ⟨g1, g2, _⟩
    refine ⟨?_, ?_⟩
    · rcases h3 with ⟨x, _⟩ | ⟨_, x⟩
      · exact x
      · exact absurd x g1
    · rcases h4 with ⟨x, _⟩ | ⟨_, x⟩
      · exact x
      · exact absurd x g2
  · rintro ⟨rfl, rfl⟩
    have e1 : l.combi ≠ .dangling := by
      rcases h3 with ⟨_, x | ⟨x, _⟩⟩ | ⟨x, _⟩
      · simp [x]
      · simp [x]
      · simp at x
    have e2 : l.snb ≠ .dangling := by
      rcases h4 with ⟨_, x | ⟨x, _⟩⟩ | ⟨x, _⟩
      · simp [x]
      · simp [x]
      · simp at x
    exact ⟨e1, e2, e2, key _ a, key _ b, key _ d⟩

/-- ready banks stay ready without destruction of class sets -/
theorem run_ready (h : List Op) (l : Lib) (ks r : List Kind) (hi : Inv l ks 0 0) (hr : removed h ks = some r) (hl : l.Ready)
    (h1 : Kind.comb ∉ r) (h2 : Kind.sn ∉ r) : ∃ l', run h l = some l' ∧ l'.Ready := by
  induction h generalizing l ks r with
  | nil => exact ⟨l, rfl, hl⟩
  | cons op h ih =>
    cases op with
    | mk k =>
      rw [removed] at hr
      rw [run]
      refine ih _ _ _ (hi.create k) hr ?_ h1 h2
      obtain ⟨a, b, c⟩ := hl
      cases k <;> simp only [create]
      · rw [if_pos (by simp [a])]; exact ⟨a, b, c⟩
      · rw [if_pos (by simp [a])]; exact ⟨a, b, c⟩
      · rw [if_pos (by simp [b])]; exact ⟨a, b, c⟩
    | rm i =>
      rw [removed] at hr
      cases hk : ks[i]? with
      | none => rw [hk] at hr; simp at hr
      | some k =>
        rw [hk] at hr
        cases hr' : removed h (ks.eraseIdx i) with
        | none => rw [hr'] at hr; simp at hr
        | some r' =>
          rw [hr'] at hr
          simp only [Option.bind_eq_bind, Option.bind_some, Option.some.injEq] at hr
          subst hr
          simp only [List.mem_cons, not_or] at h1 h2
          have hd := hi.destroy hk
          cases k with
          | session =>
            obtain ⟨l', e, hi'⟩ := hd
            rw [run, e, Option.bind_some]
            refine ih _ _ _ hi' hr' ?_ h1.2 h2.2
            unfold destroy at e
            cases ho : l.objs[i]? with
            | none => rw [ho] at e; simp at e
            | some o =>
              have hkind : o.1 = .session := by
                have := hi.objs
                rw [← this, List.getElem?_map, ho] at hk
                simpa using hk
              rw [ho] at e
              simp only [Option.bind_eq_bind, Option.bind_some, hkind] at e
              obtain ⟨_, _, e⟩ := Option.bind_eq_some_iff.1 e
              rw [← Option.some.inj e]
              exact hl
          | comb => simp at h1
          | sn => simp at h2

/-! ## Tables -/

/-- the two states of the tables -/
structure TInv (t : Tables) (touched : Prop) : Prop where
  yor : (touched ∧ t.yorT = .alive ∧ t.yor1 = .alive ∧ t.yor2 = .alive) ∨ (¬ touched ∧ t.yorT = .null ∧ t.yor1 = .uninit ∧ t.yor2 = .uninit)
  ten : (t.ndiags = .null ∨ t.ndiags = .alive) ∧ (t.diagIndices = .null ∨ t.diagIndices = .alive) ∧ (t.diagCoeffs = .null ∨ t.diagCoeffs = .alive) ∧
    (t.givensIndices = .null ∨ t.givensIndices = .alive) ∧ (t.givensCoeffs = .null ∨ t.givensCoeffs = .alive)
  yjm : ∀ k ∈ t.yjm, 2 ≤ k → touched

theorem TInv.congr {t : Tables} {p q : Prop} (h : TInv t p) (e : p ↔ q) : TInv t q := by
  rwa [← propext e]

theorem TInv.computeYOR {t : Tables} {p : Prop} (h : TInv t p) : TInv (computeYOR t) True := by
  unfold Lifetime.computeYOR
  rcases h.yor with ⟨a, b, c, d⟩ | ⟨a, b, c, d⟩
  · rw [if_pos (by simp [b])]
    exact ⟨Or.inl ⟨trivial, b, c, d⟩, h.ten, fun _ _ _ => trivial⟩
  · rw [if_neg (by simp [b])]
    exact ⟨Or.inl ⟨trivial, rfl, rfl, rfl⟩, h.ten, fun _ _ _ => trivial⟩

theorem iterDown_yor (k : Nat) (i : Int) (t : Tables) (p : Prop) (h : TInv t p) :
    ∃ t', iterDown (fun _ t => some (computeYOR t)) k i t = some t' ∧ TInv t' (p ∨ 0 < k) := by
  induction k generalizing i t p with
  | zero => exact ⟨t, rfl, h.congr (by simp)⟩
  | succ k ih =>
    rw [iterDown, Option.bind_some]
    obtain ⟨t', h1, h2⟩ := ih (i - 1) _ _ h.computeYOR
    exact ⟨t', h1, h2.congr (by simp)⟩

theorem iterUp_yor (k : Nat) (i : Int) (t : Tables) (p : Prop) (h : TInv t p) :
    ∃ t', iterUp (fun _ t => some (computeYOR t)) k i t = some t' ∧ TInv t' (p ∨ 0 < k) := by
  induction k generalizing i t p with
  | zero => exact ⟨t, rfl, h.congr (by simp)⟩
  | succ k ih =>
    rw [iterUp, Option.bind_some]
    obtain ⟨t', h1, h2⟩ := ih (i + 1) _ _ h.computeYOR
    exact ⟨t', h1, h2.congr (by simp)⟩

theorem forDown_yor (hi lo : Int) (t : Tables) (p : Prop) (h : TInv t p) :
    ∃ t', forDown hi lo t (fun _ t => some (computeYOR t)) = some t' ∧ TInv t' (p ∨ lo ≤ hi) := by
  obtain ⟨t', h1, h2⟩ := iterDown_yor (hi - lo + 1).toNat hi t p h
  exact ⟨t', h1, h2.congr (or_congr_right (by omega))⟩

theorem forUp_yor (lo hi : Int) (t : Tables) (p : Prop) (h : TInv t p) :
    ∃ t', forUp lo hi t (fun _ t => some (computeYOR t)) = some t' ∧ TInv t' (p ∨ lo < hi) := by
  obtain ⟨t', h1, h2⟩ := iterUp_yor (hi - lo).toNat lo t p h
  exact ⟨t', h1, h2.congr (or_congr_right (by omega))⟩

theorem cycleT_ok (a b : Int) (t : Tables) (p : Prop) (h : TInv t p) : ∃ t', cycleT a b t = some t' ∧ TInv t' (p ∨ a ≠ b) := by
  unfold cycleT
  split_ifs with hab
  · obtain ⟨t', h1, h2⟩ := forDown_yor (b - 1) a t p h
    exact ⟨t', h1, h2.congr (or_congr_right (by omega))⟩
  · obtain ⟨t', h1, h2⟩ := forUp_yor b a t p h
    exact ⟨t', h1, h2.congr (or_congr_right (by omega))⟩

theorem charT_ok (mu : List Nat) (a : Int) (t : Tables) (p : Prop) (h : TInv t p) : ∃ t', charT mu a t = some t' ∧ TInv t' (p ∨ ∃ x ∈ mu, x ≠ 1) := by
  induction mu generalizing a t p with
  | nil => exact ⟨t, rfl, h.congr (by simp)⟩
  | cons x mu ih =>
    obtain ⟨t1, h1, h2⟩ := cycleT_ok a (a + x - 1) t p h
    obtain ⟨t2, h3, h4⟩ := ih (a + x) t1 _ h2
    refine ⟨t2, by rw [charT, h1, Option.bind_some, h3], h4.congr ?_⟩
    rw [or_assoc, List.exists_mem_cons_iff, show (a ≠ a + x - 1) ↔ x ≠ 1 from by omega]

open Classical in
/-- the count of generators in the standard word -/
theorem cox_count {n : Nat} (σ : Equiv.Perm (Fin n)) : cox (fun _ => Multiplicative.ofAdd (1 : Nat)) n σ = 1 ↔ σ = 1 := by
  induction n with
  | zero => exact ⟨fun _ => Subsingleton.elim _ _, fun _ => rfl⟩
  | succ n ih =>
    obtain ⟨t, τ, rfl⟩ := exists_mk σ
    have hrun : ∀ (m t : Nat), Snob.run (fun _ => Multiplicative.ofAdd (1 : Nat)) t m = Multiplicative.ofAdd m := by
      intro m
      induction m with
      | zero => intro t; rfl
      | succ m ih => intro t; rw [Snob.run, ih, ← ofAdd_add, Nat.add_comm]
    rw [cox_mk, hrun]
    constructor
    · intro h
      have h' : (n - (t : Nat)) + Multiplicative.toAdd (cox (fun _ => Multiplicative.ofAdd (1 : Nat)) n τ) = 0 := congrArg Multiplicative.toAdd h
      have h1 : Multiplicative.toAdd (cox (fun _ => Multiplicative.ofAdd (1 : Nat)) n τ) = 0 := by omega
      have h2 : t = Fin.last n := Fin.ext (by have := t.2; simp only [Fin.val_last]; omega)
      rw [h2, (ih τ).1 (by rw [← ofAdd_toAdd (cox _ n τ), h1]; rfl), mk_one]
    · intro h
      have h2 : t = Fin.last n := by rw [← mk_last t τ, h]; rfl
      have h3 : τ = 1 := by
        have := (mk_bijective n).1 (a₁ := (t, τ)) (a₂ := (Fin.last n, 1)) (by simp only; rw [h, mk_one])
        exact (Prod.mk.inj this).2
      rw [h2, h3, (ih 1).2 rfl]
      simp

open Classical in
theorem sigma_ok {n : Nat} (σ : Equiv.Perm (Fin n)) (t : Tables) (p : Prop) (h : TInv t p) :
    ∃ t', call n (.sigma (enc σ)) t = some t' ∧ TInv t' (p ∨ σ ≠ 1) := by
  have key : ∀ t, computeYOR (computeYOR t) = computeYOR t := by
    intro t
    unfold computeYOR
    by_cases h : t.yorT = .null <;> simp [h]
  let a : Multiplicative Nat → Tables → Tables := fun m t => if m = 1 then t else computeYOR t
  have one : ∀ x, a 1 x = x := fun x => if_pos rfl
  have mul : ∀ g g' x, a (g * g') x = a g (a g' x) := by
    intro g g' x
    have : g * g' = 1 ↔ g = 1 ∧ g' = 1 := by
      show (Multiplicative.toAdd g + Multiplicative.toAdd g' = 0) ↔ (Multiplicative.toAdd g = 0 ∧ Multiplicative.toAdd g' = 0)
      omega
    simp only [a, this]
    by_cases h1 : g = 1 <;> by_cases h2 : g' = 1 <;> simp [h1, h2, key]
  have g : Gen n (fun _ => Multiplicative.ofAdd (1 : Nat)) a (fun _ t => some (computeYOR t)) :=
    ⟨one, mul, fun k x _ => by simp only [a]; rw [if_neg (by decide)]⟩
  have := sigmaLoop g.one g.mul (cy := fun b i A => forDown (i - 1) b A fun _ t => some (computeYOR t))
    (fun t m x htm => g.down t m htm rfl (by ring) x) σ t
  rw [call, if_pos (by simp), shifts_eq]
  refine ⟨_, this, ?_⟩
  simp only [a, cox_count]
  by_cases hσ : σ = 1
  · rw [if_pos hσ]; exact h.congr (by simp [hσ])
  · rw [if_neg hσ]; exact h.computeYOR.congr (by simp [hσ])

theorem jm_loop (k : Int) (j : Nat) (i : Int) (t : Tables) (p : Prop) (h : TInv t p) :
    ∃ t', iterDown (fun i t => forUp (i + 1) k (computeYOR t) fun _ t => some (computeYOR t)) j i t = some t' ∧ TInv t' (p ∨ 0 < j) := by
  induction j generalizing i t p with
  | zero => exact ⟨t, rfl, h.congr (by simp)⟩
  | succ j ih =>
    obtain ⟨t1, h1, h2⟩ := forUp_yor (i + 1) k _ _ h.computeYOR
    obtain ⟨t2, h3, h4⟩ := ih (i - 1) t1 _ h2
    exact ⟨t2, by rw [iterDown, h1, Option.bind_some, h3], h4.congr (by simp)⟩

theorem call_ok {n : Nat} (c : Call) (hc : c.Valid n) (t : Tables) (p : Prop) (h : TInv t p) :
    ∃ t', call n c t = some t' ∧ TInv t' (p ∨ c.Acts n) := by
  cases c with
  | index => exact ⟨t, rfl, h.congr (by simp [Call.Acts])⟩
  | tau i => exact ⟨_, rfl, h.computeYOR.congr (by simp [Call.Acts])⟩
  | sigma s =>
    obtain ⟨σ, rfl⟩ := hc
    obtain ⟨t', h1, h2⟩ := sigma_ok σ t p h
    refine ⟨t', h1, h2.congr (or_congr_right ⟨fun h => ⟨σ, rfl, h⟩, ?_⟩)⟩
    rintro ⟨τ, e, hτ⟩
    rwa [enc_injective e]
  | cycle a b => exact cycleT_ok a b t p h
  | transposition i j =>
    obtain ⟨t1, h1, h2⟩ := forDown_yor (max i j - 1) (min i j) t p h
    obtain ⟨t2, h3, h4⟩ := forUp_yor (min i j + 1) (max i j) t1 _ h2
    refine ⟨t2, by rw [call, h1]; exact h3, h4.congr ?_⟩
    rw [or_assoc]
    refine or_congr_right ?_
    show _ ↔ i ≠ j
    omega
  | character mu => exact charT_ok mu 1 t p h
  | jucysMurphy k =>
    have hk : k ≤ n := hc.2
    rw [call, if_pos hk]
    by_cases hm : t.yjm.contains k = true
    · rw [if_pos hm]
      refine ⟨t, rfl, h.congr ⟨Or.inl, ?_⟩⟩
      rintro (hp | h2)
      · exact hp
      · exact h.yjm k (by simpa using hm) h2
    · rw [if_neg hm]
      obtain ⟨t', h1, h2⟩ := jm_loop k (k - 1 - 1 + 1).toNat (k - 1) t p h
      refine ⟨{ t' with yjm := t'.yjm ++ [k] }, by
        have : forDown (k - 1) 1 t (fun i t => forUp (i + 1) k (computeYOR t) fun _ t => some (computeYOR t)) = some t' := h1
        rw [this]; rfl, ?_⟩
      have h3 := h2.congr (q := p ∨ (Call.jucysMurphy k).Acts n) (or_congr_right (by show _ ↔ 2 ≤ k; omega))
      refine ⟨h3.yor, h3.ten, fun x hx h2x => ?_⟩
      rcases List.mem_append.1 hx with hx | hx
      · exact h3.yjm x hx h2x
      · rw [List.mem_singleton] at hx
        subst hx
        exact Or.inr h2x
  | viewTau i =>
    refine ⟨_, rfl, TInv.congr (p := p) ?_ (by simp [Call.Acts])⟩
    unfold computeYORtensors
    split_ifs with hn
    · exact h
    · exact ⟨h.yor, by simp, h.yjm⟩

theorem calls_ok {n : Nat} (cs : List Call) (hc : ∀ c ∈ cs, c.Valid n) (t : Tables) (p : Prop) (h : TInv t p) :
    ∃ t', calls n cs t = some t' ∧ TInv t' (p ∨ ∃ c ∈ cs, c.Acts n) := by
  induction cs generalizing t p with
  | nil => exact ⟨t, rfl, h.congr (by simp)⟩
  | cons c cs ih =>
    obtain ⟨t1, h1, h2⟩ := call_ok c (hc c (by simp)) t p h
    obtain ⟨t2, h3, h4⟩ := ih (fun c h => hc c (by simp [h])) t1 _ h2
    exact ⟨t2, by rw [calls, h1, Option.bind_some, h3], h4.congr (by rw [or_assoc, List.exists_mem_cons_iff])⟩

theorem TInv.init : TInv {} False := ⟨Or.inr ⟨id, rfl, rfl, rfl⟩, by simp, by simp⟩

theorem TInv.destructor {t : Tables} {p : Prop} (h : TInv t p) : destructor t ≠ none ↔ p := by
  have key : ∀ q : Ptr, q = .null ∨ q = .alive → ∃ q', q.delete = some q' := by rintro q (rfl | rfl) <;> exact ⟨_, rfl⟩
  obtain ⟨a, b, c, d, e⟩ := h.ten
  obtain ⟨_, a⟩ := key _ a
  obtain ⟨_, b⟩ := key _ b
  obtain ⟨_, c⟩ := key _ c
  obtain ⟨_, d⟩ := key _ d
  obtain ⟨_, e⟩ := key _ e
  unfold Lifetime.destructor
  rcases h.yor with ⟨hp, x, y, z⟩ | ⟨hp, x, y, z⟩
  · have f : Ptr.alive.delete = some .dangling := rfl
    simp only [x, y, z, a, b, c, d, e, f, Option.bind_eq_bind, Option.bind_some]
    simp [hp]
  · simp [x, y, z, Ptr.delete, hp]

end Snob.Lifetime
