import Verif.Proofs.SnRep
import Verif.Proofs.IrrepSpec

/-! # Properties C47, C48, C66, C67: types and representations -/

namespace Snob

open IP SnType

theorem down_ok {n : Nat} {t : SnType} (ht : TypeOk (n + 1) t) :
    ∃ D, down t = some D ∧ TypeOk n D ∧ (∀ y, y ∈ parts D ↔ ∃ p ∈ parts t, y ∈ subs p) ∧
      (∀ y, mult D y = typeSum (fun p => if y ∈ subs p then 1 else 0) t) ∧
      ∀ d, typeSum d D = typeSum (fun p => ((subs p).map d).sum) t := by
  obtain ⟨D, a1, a2, a3, a4, a5⟩ := foldLoop_ok (n := n) subs t ht
    (fun p hp => ⟨subs_nodup p, fun x hx => ((mem_subs hp x).1 hx).1⟩) (typeOk_nil n)
  refine ⟨D, by rw [down, downLoop_eq t ht, a1], a2, fun y => ?_, fun y => ?_, fun d => ?_⟩
  · rw [a3]; simp [parts]
  · rw [a4]; simp [mult]
  · rw [a5]; simp [typeSum]

theorem induced_ok {n : Nat} {t : SnType} (ht : TypeOk n t) :
    ∃ D, RepObj.induced t = some D ∧ TypeOk (n + 1) D ∧ (∀ y, y ∈ parts D ↔ ∃ p ∈ parts t, y ∈ covers p) ∧
      (∀ y, mult D y = typeSum (fun p => if y ∈ covers p then 1 else 0) t) ∧
      ∀ d, typeSum d D = typeSum (fun p => ((covers p).map d).sum) t := by
  obtain ⟨D, a1, a2, a3, a4, a5⟩ := foldLoop_ok (n := n + 1) covers t ht
    (fun p hp => ⟨covers_nodup hp, fun x hx => ((mem_covers hp x).1 hx).1⟩) (typeOk_nil (n + 1))
  refine ⟨D, by rw [RepObj.induced, RepObj.inducedLoop_eq t ht [] (typeOk_nil _), a1], a2, fun y => ?_, fun y => ?_, fun d => ?_⟩
  · rw [a3]; simp [parts]
  · rw [a4]; simp [mult]
  · rw [a5]; simp [typeSum]

theorem typeSum_subs {n : Nat} {t : SnType} (ht : TypeOk (n + 1) t) :
    typeSum (fun p => ((subs p).map fun q => (dimW n q : Int)).sum) t = typeSum (fun p => dimW (n + 1) p) t := by
  refine typeSum_congr fun p hp => ?_
  rw [← sum_subs_list (ht.all p hp)]
  simp [Nat.cast_list_sum, List.map_map, Function.comp_def]

theorem typeSum_covers {n : Nat} {t : SnType} (ht : TypeOk n t) :
    typeSum (fun p => ((covers p).map fun q => (dimW (n + 1) q : Int)).sum) t = (n + 1) * typeSum (fun p => dimW n p) t := by
  rw [← typeSum_mul]
  refine typeSum_congr fun p hp => ?_
  have := sum_covers_list (ht.all p hp)
  have h2 : ((((covers p).map (dimW (n + 1))).sum : Nat) : Int) = (n + 1) * dimW n p := by rw [this]; push_cast; ring
  rw [← h2]
  simp [Nat.cast_list_sum, List.map_map, Function.comp_def]

namespace Props

/-- **C47** is false of the code: looking up the multiplicity of `{2,1}` in the type with the single entry `{3}` adds an
entry. -/
theorem C47_lookup_false : ∃ t x t' v, TypeOk 3 t ∧ IsPartition 3 x ∧ SnType.get t x = some (t', v) ∧ parts t' ≠ parts t := by
  refine ⟨[([3], 2)], [2, 1], [([3], 2), ([2, 1], 0)], 0,
    typeOk_cons.2 ⟨⟨by decide, by decide, rfl⟩, by simp [parts], typeOk_nil 3⟩, ⟨by decide, by decide, rfl⟩, by decide, by decide⟩

/-- **C47**, what holds: the lookup returns the multiplicity and changes no multiplicity; it leaves the type as it is if
the partition has an entry, and otherwise adds an entry with multiplicity zero. Missing: the type is unchanged in the
second case, which is false. -/
theorem C47_lookup_partial (n : Nat) (t : SnType) (x : List Nat) (ht : TypeOk n t) (hx : IsPartition n x) :
    ∃ t', SnType.get t x = some (t', mult t x) ∧ TypeOk n t' ∧ (∀ y, mult t' y = mult t y) ∧
      (∀ y, y ∈ parts t' ↔ y = x ∨ y ∈ parts t) ∧ (x ∈ parts t → t' = t) := by
  obtain ⟨t', a1, a2, a3, a4, _⟩ := upd_ok id ht hx
  have hm : ∀ y, mult t' y = mult t y := by
    intro y
    rw [a4]
    split_ifs with h
    · rw [h]; rfl
    · rfl
  refine ⟨t', ?_, a2, hm, a3, fun h => a2.ext ht (fun y => by rw [a3]; constructor
                                                              · rintro (rfl | h')
                                                                · exact h
                                                                · exact h'
                                                              · exact Or.inr) hm⟩
  rw [SnType.get, a1]
  simp only [Option.bind_eq_bind, Option.bind_some]
  rw [find_ok a2 hx, if_pos ((a3 x).2 (Or.inl rfl))]
  simp [hm]

/-- Setting a multiplicity is seen by later lookups, and only by those of the same partition. -/
theorem C47_set_get (n : Nat) (t : SnType) (x y : List Nat) (m : Int) (ht : TypeOk n t) (hx : IsPartition n x) (hy : IsPartition n y) :
    ∃ t' t'', SnType.set t x m = some t' ∧ TypeOk n t' ∧ SnType.get t' y = some (t'', if y = x then m else mult t y) := by
  obtain ⟨t', a1, a2, _, a4, _⟩ := upd_ok (fun _ => m) ht hx
  obtain ⟨t'', b1, _⟩ := C47_lookup_partial n t' y a2 hy
  exact ⟨t', t'', a1, a2, by rw [b1, a4]⟩

example : ∃ t', SnType.get [([3], 2)] [3] = some (t', 2) ∧ t' = [([3], 2)] := ⟨_, by decide, rfl⟩

/-- **C48.** Restriction of a type over `S(n+1)`: the multiplicity of `mu` is the sum of the multiplicities of the
partitions that arise from `mu` by adding a box, and exactly the `mu` that arise by removing a box are listed. -/
theorem C48_down (n : Nat) (t : SnType) (ht : TypeOk (n + 1) t) :
    ∃ D, SnType.down t = some D ∧ TypeOk n D ∧
      (∀ mu, mu ∈ parts D ↔ IsPartition n mu ∧ ∃ p ∈ parts t, AddsBox mu p) ∧
      ∀ mu, IsPartition n mu → ∀ l : List (List Nat), l.Nodup → (∀ p, p ∈ l ↔ IsPartition (n + 1) p ∧ AddsBox mu p) →
        mult D mu = (l.map (mult t)).sum := by
  obtain ⟨D, a1, a2, a3, a4, _⟩ := down_ok ht
  refine ⟨D, a1, a2, fun mu => ?_, fun mu hmu l hl hl' => ?_⟩
  · rw [a3]
    constructor
    · rintro ⟨p, hp, h⟩
      have := (mem_subs (ht.all p hp) mu).1 h
      exact ⟨this.1, p, hp, this.2⟩
    · rintro ⟨h1, p, hp, h⟩
      exact ⟨p, hp, (mem_subs (ht.all p hp) mu).2 ⟨h1, h⟩⟩
  · rw [a4, sum_mult ht hl]
    refine typeSum_congr fun p hp => ?_
    have h1 := mem_subs (ht.all p hp) mu
    have h2 := hl' p
    have hp' := ht.all p hp
    by_cases h : AddsBox mu p
    · rw [if_pos (h1.2 ⟨hmu, h⟩), if_pos (h2.2 ⟨hp', h⟩)]
    · rw [if_neg (fun x => h (h1.1 x).2), if_neg (fun x => h (h2.1 x).2)]

open Classical in
/-- **C48.** Frobenius reciprocity for one partition each: the multiplicity of `mu` in the restriction of `lambda` is
that of `lambda` in the representation induced from `mu`. -/
theorem C48_frobenius (n : Nat) (lambda mu : List Nat) (hl : IsPartition (n + 1) lambda) (hm : IsPartition n mu) :
    ∃ D r I, SnType.downP lambda = some D ∧ RepObj.ofType [(mu, 1)] = some r ∧
      (RepObj.induced r).bind RepObj.getType = some I ∧ mult D mu = mult I lambda ∧
      mult D mu = if (∃ i, AddsBoxAt mu lambda i) then 1 else 0 := by
  have ht : TypeOk n [(mu, 1)] := typeOk_cons.2 ⟨hm, by simp [parts], typeOk_nil n⟩
  obtain ⟨D, a1, a2, a3, a4, _⟩ := addAllSubs_ok 1 (subs lambda) (fun x hx => ((mem_subs hl x).1 hx).1) (subs_nodup lambda) (typeOk_nil n)
  obtain ⟨I, b1, b2, b3, b4, _⟩ := induced_ok ht
  have e1 : mult D mu = if mu ∈ subs lambda then 1 else 0 := by
    rw [a4]
    have : mult [] mu = 0 := rfl
    rw [this, zero_add, one_mul]
  have e2 : mult I lambda = if lambda ∈ covers mu then 1 else 0 := by
    rw [b4]; simp [typeSum]
  refine ⟨D, [(mu, 1)], I, ?_, RepBank.ofType_eq ht, ?_, ?_, ?_⟩
  · rw [downP, parents_eq hl (by omega)]
    exact a1
  · rw [b1, Option.bind_some]
    exact ofList_self b2
  · rw [e1, e2]
    refine if_congr ?_ rfl rfl
    rw [mem_subs hl, mem_covers hm]
    exact ⟨fun h => ⟨hl, h.2⟩, fun h => ⟨hm, h.2⟩⟩
  · rw [e1]
    refine if_congr ?_ rfl rfl
    rw [mem_subs hl]
    exact ⟨fun h => h.2, fun h => ⟨hm, h⟩⟩

/-- **C48.** Frobenius reciprocity for types: with `t` over `S(n+1)` and `u` over `Sn`, the pairing of the restriction
of `t` with `u` is the pairing of `t` with the representation induced from `u`. -/
theorem C48_adjoint (n : Nat) (t u : SnType) (ht : TypeOk (n + 1) t) (hu : TypeOk n u) :
    ∃ D r I, SnType.down t = some D ∧ RepObj.ofType u = some r ∧ (RepObj.induced r).bind RepObj.getType = some I ∧
      typeSum (mult u) D = typeSum (mult I) t := by
  obtain ⟨D, a1, a2, a3, a4, a5⟩ := down_ok ht
  obtain ⟨I, b1, b2, b3, b4, _⟩ := induced_ok hu
  refine ⟨D, u, I, a1, RepBank.ofType_eq hu, by rw [b1, Option.bind_some]; exact ofList_self b2, ?_⟩
  rw [a5]
  refine typeSum_congr fun p hp => ?_
  rw [b4, sum_mult hu (subs_nodup p)]
  refine typeSum_congr fun q hq => ?_
  have h1 := mem_subs (ht.all p hp) q
  have h2 := mem_covers (hu.all q hq) p
  have hp' := ht.all p hp
  have hq' := hu.all q hq
  by_cases h : AddsBox q p
  · rw [if_pos (h1.2 ⟨hq', h⟩), if_pos (h2.2 ⟨hp', h⟩)]
  · rw [if_neg (fun x => h (h1.1 x).2), if_neg (fun x => h (h2.1 x).2)]

/-- **C48.** Dimensions: restriction preserves the dimension, induction multiplies it by `n+1`. -/
theorem C48_dim (n : Nat) (hn : 1 ≤ n) : ∃ d : List Nat → Nat,
    (∀ r, IsPartition n r ∨ IsPartition (n + 1) r → ∃ R, mkIrrep r = some R ∧ R.d = d r) ∧
    (∀ t, TypeOk (n + 1) t → ∃ D, SnType.down t = some D ∧ typeSum (fun r => d r) D = typeSum (fun r => d r) t) ∧
    ∀ u, TypeOk n u → ∃ r I, RepObj.ofType u = some r ∧ (RepObj.induced r).bind RepObj.getType = some I ∧
      typeSum (fun r => d r) I = (n + 1) * typeSum (fun r => d r) u := by
  have hd : ∀ {m : Nat} {t : SnType}, TypeOk m t → typeSum (fun r => ((dimW r.sum r : Nat) : Int)) t = typeSum (fun r => dimW m r) t :=
    fun ht => typeSum_congr fun p hp => by rw [(ht.all p hp).sum]
  refine ⟨fun r => dimW r.sum r, fun r hr => ?_, fun t ht => ?_, fun u hu => ?_⟩
  · rcases hr with hr | hr
    · obtain ⟨R, hR, _, h⟩ := exists_repr hn hr
      exact ⟨R, hR, by rw [h.d_eq]; simp only [hr.sum]; rfl⟩
    · obtain ⟨R, hR, _, h⟩ := exists_repr (by omega) hr
      exact ⟨R, hR, by rw [h.d_eq]; simp only [hr.sum]; rfl⟩
  · obtain ⟨D, a1, a2, a3, a4, a5⟩ := down_ok ht
    exact ⟨D, a1, by rw [hd a2, hd ht, a5, typeSum_subs ht]⟩
  · obtain ⟨I, b1, b2, b3, b4, b5⟩ := induced_ok hu
    exact ⟨u, I, RepBank.ofType_eq hu, by rw [b1, Option.bind_some]; exact ofList_self b2, by rw [hd b2, hd hu, b5, typeSum_covers hu]⟩

/-- The restriction of `2·{2,1}+{3}` and the representation induced from `{2}+{1,1}`. -/
example : SnType.down [([3], 1), ([2, 1], 2)] = some [([2], 3), ([1, 1], 2)] ∧
    RepObj.induced [([2], 1), ([1, 1], 1)] = some [([3], 1), ([2, 1], 2), ([1, 1, 1], 1)] := by decide

/-- **C66** is false of the code: `restricted()` of an induced representation is not its restriction; for every
representation of positive dimension the dimension is wrong. -/
theorem C66_restricted_false (n : Nat) (hn : 1 ≤ n) : ∃ d : List Nat → Nat,
    (∀ r, IsPartition n r ∨ IsPartition (n + 1) r → ∃ R, mkIrrep r = some R ∧ R.d = d r) ∧
    ∀ u, TypeOk n u → 0 < typeSum (fun r => d r) u → ∃ r s s' D, RepObj.ofType u = some r ∧ (RepVal.ofType r).induced = some s ∧
      s.restricted = some s' ∧ SnType.down s.obj = some D ∧
      typeSum (fun r => d r) D = (n + 1) * typeSum (fun r => d r) u ∧ typeSum (fun r => d r) s'.obj = typeSum (fun r => d r) u ∧
      s'.obj ≠ D := by
  obtain ⟨d, h1, h2, h3⟩ := C48_dim n hn
  refine ⟨d, h1, fun u hu hpos => ?_⟩
  obtain ⟨r, I, e1, e2, e3⟩ := h3 u hu
  have hr : r = u := by rw [RepBank.ofType_eq hu] at e1; exact (Option.some.inj e1).symm
  subst hr
  obtain ⟨I', b1, b2, -⟩ := induced_ok hu
  have hI : I' = I := by
    rw [b1, Option.bind_some] at e2
    exact Option.some.inj ((ofList_self b2).symm.trans e2)
  subst hI
  obtain ⟨D, a1, a2⟩ := h2 I' b2
  refine ⟨r, .ofInduced I' (.ofType r), .ofType r, D, e1, by simp [RepVal.induced, RepVal.obj, b1], rfl, a1, by rw [a2, e3], rfl, ?_⟩
  rintro rfl
  simp only [RepVal.obj] at a2
  rw [e3] at a2
  have : (n : Int) * typeSum (fun r => (d r : Int)) r = 0 := by linarith
  rcases mul_eq_zero.1 this with h | h
  · omega
  · omega

/-- **C66**, what holds: `restricted()` of an induced representation is the representation it was induced from, and
`restricted()` of a representation made from a type stops the program. Missing: that it is the restriction, which is
false. -/
theorem C66_restricted_partial (n : Nat) (u : SnType) (hu : TypeOk n u) : ∃ r s, RepObj.ofType u = some r ∧
    (RepVal.ofType r).induced = some s ∧ s.restricted = some (.ofType r) ∧ RepObj.getType r = some u ∧
    (RepVal.ofType r).restricted = none := by
  obtain ⟨I, b1, b2, -⟩ := induced_ok hu
  exact ⟨u, .ofInduced I (.ofType u), RepBank.ofType_eq hu, by simp [RepVal.induced, RepVal.obj, b1], rfl, ofList_self hu, rfl⟩

/-- The representation of `S1` induced to `S2` has restriction `2·{1}`, but `restricted()` gives `{1}`. -/
example : ((RepVal.ofType [([1], 1)]).induced.bind fun s => SnType.down s.obj) = some [([1], 2)] ∧
    ((RepVal.ofType [([1], 1)]).induced.bind fun s => s.restricted.map RepVal.obj) = some [([1], 1)] := by decide

/-- A sequence of requests to the bank of representations. -/
def requests : RepBank → List SnType → Option RepBank
  | b, [] => some b
  | b, t :: l => do
    let (b, _) ← RepBank.getRep b t
    requests b l

theorem requests_ok {n : Nat} (ts : List SnType) (ht : ∀ t ∈ ts, TypeOk n t) (b : RepBank) (hb : RepBank.BankOk n b) :
    ∃ b', requests b ts = some b' ∧ RepBank.BankOk n b' ∧ (∀ e ∈ b, e ∈ b') ∧ ∀ t ∈ ts, (t, t) ∈ b' := by
  induction ts generalizing b with
  | nil => exact ⟨b, rfl, hb, fun _ h => h, by simp⟩
  | cons t ts ih =>
    obtain ⟨b1, e1, h1, h2, h3⟩ := RepBank.getRep_ok hb (ht t (by simp))
    obtain ⟨b2, e2, h4, h5, h6⟩ := ih (fun t h => ht t (by simp [h])) b1 h1
    refine ⟨b2, by simp only [requests, e1, Option.bind_eq_bind, Option.bind_some, e2], h4, fun e he => h5 e (h2 e he), ?_⟩
    intro x hx
    rcases List.mem_cons.1 hx with rfl | hx
    · exact h5 _ h3
    · exact h6 x hx

/-- **C67** is false of the code: after any requests over `Sm`, at least one of them not empty, a request for a
representation of `Sn`, `n≠m`, that is not empty stops the program. -/
theorem C67_bank_false (m n : Nat) (hne : m ≠ n) (ts : List SnType) (hts : ∀ t ∈ ts, TypeOk m t) (hnil : ∃ t ∈ ts, t ≠ [])
    (u : SnType) (hu : TypeOk n u) (hu' : u ≠ []) :
    ∃ b, requests [] ts = some b ∧ RepBank.getRep b u = none ∧ ∃ b', RepBank.getRep [] u = some (b', u) := by
  obtain ⟨b, e, hb, -, h⟩ := requests_ok ts hts [] (by simp [RepBank.BankOk])
  obtain ⟨t, ht, ht'⟩ := hnil
  obtain ⟨b', e', -⟩ := RepBank.getRep_ok (b := []) (by simp [RepBank.BankOk]) hu
  exact ⟨b, e, RepBank.getRep_none hb hu hne hu' ⟨_, h t ht, ht'⟩, b', e'⟩

/-- **C67**, what holds: as long as all requests concern one `Sn`, every request returns the representation of the type
that was asked for, whatever was asked before. Missing: requests over several `Sn`, for which it is false. -/
theorem C67_bank_partial (n : Nat) (ts : List SnType) (hts : ∀ t ∈ ts, TypeOk n t) (u : SnType) (hu : TypeOk n u) :
    ∃ b b' r, requests [] ts = some b ∧ RepBank.getRep b u = some (b', r) ∧ RepObj.ofType u = some r ∧ RepObj.getType r = some u := by
  obtain ⟨b, e, hb, -⟩ := requests_ok ts hts [] (by simp [RepBank.BankOk])
  obtain ⟨b', e', -⟩ := RepBank.getRep_ok hb hu
  exact ⟨b, b', u, e, e', RepBank.ofType_eq hu, ofList_self hu⟩

/-- A representation of `S2`, then one of `S3`. -/
example : ∃ b, requests [] [[([2], 1)]] = some b ∧ RepBank.getRep b [([3], 1)] = none := ⟨_, rfl, by decide⟩

end Props

end Snob
