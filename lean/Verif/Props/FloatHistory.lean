import Verif.Props.Float
import Verif.Proofs.FloatCache
import Verif.Proofs.FloatTab1
import Verif.Proofs.FloatTab2
import Verif.Proofs.FloatTab3
import Verif.Proofs.FloatTab4
import Verif.Proofs.FloatTab5
import Verif.Proofs.FloatTab6
import Verif.Proofs.FloatTab7

/-! # Property C108: what rounding does to a program; C105 up to `n=6` -/

namespace Snob

open IP
open scoped Nat

theorem mult_le_cases {n : Nat} (h6 : n ≤ 6) (hn : 1 ≤ n) : n = 1 ∨ n = 2 ∨ n = 3 ∨ n = 4 ∨ n = 5 ∨ n = 6 := by omega

namespace Props

/-- **C105.** Up to `n=6` the statement holds. -/
theorem C105_small (n : Nat) (hn : 1 ≤ n) (h6 : n ≤ 6) (a b c : List Nat) (ha : IsPartition n a) (hb : IsPartition n b)
    (hc : IsPartition n c) (K : Nat) (hK : IsMultiplicity n a b c K) : Rounding.ieee.coeff a b c = some (K : Int) := by
  have key : ∃ t, Rounding.ieee.coeffFloat a b c = some t ∧ ((∃ k : Nat, (k : ℝ) ≤ t ∧ t ≤ k + 1 / 2) ∨ (-(1 / 2) ≤ t ∧ t ≤ 0)) := by
    have hf : n ! < 2 ^ 24 := by
      have := Nat.factorial_le h6
      have h720 : 6 ! = 720 := rfl
      omega
    rcases mult_le_cases h6 hn with rfl | rfl | rfl | rfl | rfl | rfl
    · exact FEv.coeffFloat_small hn (FEv.isFloat_nat hf) Six.table1 Six.ok1 ha hb hc
    · exact FEv.coeffFloat_small hn (FEv.isFloat_nat hf) Six.table2 Six.ok2 ha hb hc
    · exact FEv.coeffFloat_small hn (FEv.isFloat_nat hf) Six.table3 Six.ok3 ha hb hc
    · exact FEv.coeffFloat_small hn (FEv.isFloat_nat hf) Six.table4 Six.ok4 ha hb hc
    · exact FEv.coeffFloat_small hn (FEv.isFloat_nat hf) Six.table5 Six.ok5 ha hb hc
    · exact FEv.coeffFloat_small hn (FEv.isFloat_nat hf) Six.table6 Six.ok6 ha hb hc
  obtain ⟨t, ht, hcase⟩ := key
  obtain ⟨t', ht', h5, -⟩ := C105_nearest n hn (by omega) a b c ha hb hc K hK
  rw [ht] at ht'
  cases ht'
  rw [coeff_of_float ha hb hc ht, FEv.toInt_small hcase h5]

/-- the multiplicity of `(4,2)` in the square of `(3,2,1)` -/
example (K : Nat) (hK : IsMultiplicity 6 [3, 2, 1] [3, 2, 1] [4, 2] K) : Rounding.ieee.coeff [3, 2, 1] [3, 2, 1] [4, 2] = some (K : Int) :=
  C105_small 6 (by norm_num) (by norm_num) _ _ _ ⟨by simp, by simp, rfl⟩ ⟨by simp, by simp, rfl⟩ ⟨by simp, by simp, rfl⟩ K hK

end Props

theorem ieee_total : Rounding.ieee.CoeffTotal := by
  intro n hn a b c ha hb hc
  obtain ⟨t, ht, -⟩ := near_coeff (F := Rounding.ieee) hn ha hb hc (rnd_odd 53) ieee_s ieee_d (by norm_num) (by norm_num) (by norm_num) (by norm_num)
    (D := max (words n a).length (max (words n b).length (words n c).length)) (le_max_left _ _)
      ((le_max_left _ _).trans (le_max_right _ _)) ((le_max_right _ _).trans (le_max_right _ _))
  exact ⟨_, coeff_of_float ha hb hc ht⟩

theorem exact_right {n : Nat} (hn : 1 ≤ n) : Rounding.exact.CoeffRight n := fun a b c ha hb hc =>
  Props.C105_exact n hn a b c ha hb hc _ ((kronN_isMultiplicity hn ha hb hc _).2 rfl)

theorem exact_total : Rounding.exact.CoeffTotal := fun _ hn a b c ha hb hc => ⟨_, exact_right hn a b c ha hb hc⟩

theorem ieee_right {n : Nat} (hn : 1 ≤ n) (h6 : n ≤ 6) : Rounding.ieee.CoeffRight n := fun a b c ha hb hc =>
  Props.C105_small n hn h6 a b c ha hb hc _ ((kronN_isMultiplicity hn ha hb hc _).2 rfl)

theorem at_valid {n : Nat} (hn : 1 ≤ n) {c : CGAsk} (h : c.At n) : c.call.Valid := by
  cases c with
  | coeff a b c => exact ⟨n, hn, h⟩
  | product a b => exact ⟨n, hn, h⟩
  | productTypes t u => exact ⟨n, hn, h⟩

theorem ValidProgram.valid {cs : List CGAsk} (h : ValidProgram cs) : ∀ c ∈ cs, c.call.Valid := fun c hc => by
  obtain ⟨n, hn, h⟩ := h c hc
  exact at_valid hn h

/-- If all coefficients of `n` are right, the answers are those of exact arithmetic. -/
theorem answer_right {F : Rounding} (hF : F.CoeffTotal) {n : Nat} (hn : 1 ≤ n) (hr : F.CoeffRight n) {cs : List CGAsk} (hcs : ValidProgram cs)
    {ds : List CGCall} (hds : ∀ d ∈ ds, d.Valid) {c : CGAsk} (hc : c.At n) :
    ∃ s v, CGState.empty.run ds = some s ∧ (s.exec c.call).map Prod.snd = some v ∧ F.answer cs c = some v := by
  obtain ⟨s, e, hs⟩ := CGState.ok_empty.run ds hds
  obtain ⟨t, e', ht⟩ := Rounding.cacheOk_empty.run hF cs hcs.valid
  unfold Rounding.answer
  rw [e', Option.bind_some]
  cases c with
  | coeff a b c =>
    obtain ⟨ha, hb, hc⟩ := hc
    obtain ⟨s1, e1, -⟩ := hs.coeff hn ha hb hc
    obtain ⟨t1, k, e2, ho, -⟩ := ht.coeff hF hn ha hb hc
    refine ⟨s, .int (kronN n a b c), e, ?_, ?_⟩
    · simp only [CGAsk.call, CGState.exec, e1, Option.bind_eq_bind, Option.bind_some, Option.map_some]
    · simp only [Rounding.cgExec, e2, Option.bind_eq_bind, Option.bind_some, Option.map_some, ho.right hr ha hb hc]
  | product a b =>
    obtain ⟨ha, hb⟩ := hc
    obtain ⟨s1, R, e1, h1, -⟩ := hs.product hn ha hb
    obtain ⟨t1, R', e2, h2, -⟩ := ht.product hF hn ha hb
    have h2 := h2.right hr ha hb
    have hRR : R' = R := h2.ok.ext h1.ok (fun x => by rw [h1.mem, h2.mem]) (fun x => by
      by_cases hx : IsPartition n x
      · rw [h1.mult x hx, h2.mult x hx]
      · rw [mult_of_not_mem fun h => hx (h1.ok.all x h), mult_of_not_mem fun h => hx (h2.ok.all x h)])
    refine ⟨s, .type R, e, ?_, ?_⟩
    · simp only [CGAsk.call, CGState.exec, e1, Option.bind_eq_bind, Option.bind_some, Option.map_some]
    · simp only [Rounding.cgExec, e2, Option.bind_eq_bind, Option.bind_some, Option.map_some, hRR]
  | productTypes v u =>
    obtain ⟨hv, hu⟩ := hc
    obtain ⟨s1, R, e1, -, h1, h2, h3⟩ := hs.productTypes hn hv hu
    obtain ⟨t1, R', e2, -, h4, h5⟩ := Rounding.CacheOk.outer hF hn hu v hv t ht [] (typeOk_nil n)
    obtain ⟨h5, h6⟩ := h5 hr
    have hRR : R' = R := h4.ext h1 (fun x => by rw [h5, h2]; simp [parts]) (fun x => by
      by_cases hx : IsPartition n x
      · rw [h6 x hx, h3 x hx]; simp [mult]
      · rw [mult_of_not_mem fun h => hx (h4.all x h), mult_of_not_mem fun h => hx (h1.all x h)])
    refine ⟨s, .type R, e, ?_, ?_⟩
    · simp only [CGAsk.call, CGState.exec, e1, Option.bind_eq_bind, Option.bind_some, Option.map_some]
    · simp only [Rounding.cgExec, e2, Option.bind_eq_bind, Option.bind_some, Option.map_some, hRR]

/-! ### `n=7` -/

namespace Seven

theorem partition511 : IsPartition 7 [5, 1, 1] := ⟨by simp, by simp, rfl⟩
theorem partition322 : IsPartition 7 [3, 2, 2] := ⟨by simp, by simp, rfl⟩
theorem partition22111 : IsPartition 7 [2, 2, 1, 1, 1] := ⟨by simp, by simp, rfl⟩

theorem fact7 : IsFloat 24 ((7 ! : Nat) : ℝ) := FEv.isFloat_nat (by decide)

theorem bad_of {a b c : List Nat} {x y z : List FEv.Sg} (ha : IsPartition 7 a) (hx : (a, x) ∈ Six.C7) (hy : (b, y) ∈ Six.C7) (hz : (c, z) ∈ Six.C7)
    (h : FEv.eqK (FEv.sumK (FEv.zip4 x y z Six.M7) false 0 200) ⟨false, 10321919, 189⟩ = true) :
    Rounding.ieee.coeffFloat a b c = some (16777214 / 16777216) := by
  obtain ⟨v, hv, e⟩ := FEv.eqK_val h
  have e1 : v.val = 10321919 / 2048 := by
    rw [e]
    norm_num [FEv.Sg.val, FEv.val0, FEv.sgn]
  have hd : rnd 24 ((10321919 : ℝ) / 2048 / (7 ! : Nat)) = (16777214 : ℤ) * 2 ^ (-24 : ℤ) := by
    rw [show ((7 ! : Nat) : ℝ) = 5040 by norm_num [Nat.factorial]]
    exact rnd_of_near (by norm_num) (by norm_num) (by norm_num)
  rw [FEv.coeffFloat_eq Six.table7 fact7 ha hx hy hz hv, e1, hd]
  norm_num

theorem badFloat : Rounding.ieee.coeffFloat [5, 1, 1] [2, 2, 1, 1, 1] [3, 2, 2] = some (16777214 / 16777216) :=
  bad_of partition511 (by simp) (by simp) (by simp) Six.bad7a

theorem badFloat' : Rounding.ieee.coeffFloat [2, 2, 1, 1, 1] [3, 2, 2] [5, 1, 1] = some (16777214 / 16777216) :=
  bad_of partition22111 (by simp) (by simp) (by simp) Six.bad7b

theorem bad_coeff {a b c : List Nat} (ha : IsPartition 7 a) (hb : IsPartition 7 b) (hc : IsPartition 7 c)
    (h : Rounding.ieee.coeffFloat a b c = some (16777214 / 16777216)) : Rounding.ieee.coeff a b c = some 0 ∧ kronN 7 a b c = 1 := by
  refine ⟨?_, ?_⟩
  · rw [coeff_of_float ha hb hc h]
    congr 1
    unfold CGState.toInt
    rw [if_pos (by norm_num), Int.floor_eq_iff]
    norm_num
  · obtain ⟨t, ht, h5, -⟩ := Props.C105_nearest 7 (by norm_num) (by norm_num) a b c ha hb hc _ ((kronN_isMultiplicity (by norm_num) ha hb hc _).2 rfl)
    rw [h] at ht
    cases ht
    rw [abs_le] at h5
    have h1 : (kronN 7 a b c : ℝ) < 2 := by linarith [h5.1]
    have h2 : (0 : ℝ) < kronN 7 a b c := by linarith [h5.2]
    have h1' : kronN 7 a b c < 2 := by exact_mod_cast h1
    have h2' : 0 < kronN 7 a b c := by exact_mod_cast h2
    omega

theorem good_coeff : Rounding.ieee.coeff [5, 1, 1] [3, 2, 2] [2, 2, 1, 1, 1] = some 1 := by
  have hk : kronN 7 [5, 1, 1] [3, 2, 2] [2, 2, 1, 1, 1] = 1 := by
    rw [kronN_swap23]
    exact (bad_coeff partition511 partition22111 partition322 badFloat).2
  obtain ⟨t, ht, hcase⟩ := FEv.coeffFloat_ok fact7 Six.table7 (a := [5, 1, 1]) (b := [3, 2, 2]) (c := [2, 2, 1, 1, 1]) partition511 (by simp) (by simp)
    (by simp) Six.good7
  obtain ⟨t', ht', h5, -⟩ := Props.C105_nearest 7 (by norm_num) (by norm_num) _ _ _ partition511 partition322 partition22111 _
    ((kronN_isMultiplicity (by norm_num) partition511 partition322 partition22111 _).2 hk.symm)
  rw [ht] at ht'
  cases ht'
  rw [coeff_of_float partition511 partition322 partition22111 ht, FEv.toInt_small hcase h5]
  rfl

theorem badA : Rounding.ieee.coeff [5, 1, 1] [2, 2, 1, 1, 1] [3, 2, 2] = some 0 := (bad_coeff partition511 partition22111 partition322 badFloat).1
theorem badB : Rounding.ieee.coeff [2, 2, 1, 1, 1] [3, 2, 2] [5, 1, 1] = some 0 := (bad_coeff partition22111 partition322 partition511 badFloat').1

theorem multiplicity : IsMultiplicity 7 [5, 1, 1] [3, 2, 2] [2, 2, 1, 1, 1] 1 := by
  rw [kronN_isMultiplicity (by norm_num) partition511 partition322 partition22111, kronN_swap23]
  exact (bad_coeff partition511 partition22111 partition322 badFloat).2.symm

end Seven

namespace Props

open Seven

/-- **C108.** The full statement: what `coeff` returns depends neither on the calls made before nor on the order of its arguments. -/
def C108_statement : Prop :=
  ∀ (n : Nat) (a b c x y z : List Nat) (cs cs' : List CGAsk), 1 ≤ n → IsPartition n a → IsPartition n b → IsPartition n c →
    [x, y, z].Perm [a, b, c] → ValidProgram cs → ValidProgram cs' →
    Rounding.ieee.answer cs (.coeff a b c) = Rounding.ieee.answer cs' (.coeff x y z)

theorem key_ABC : CGState.orderP [5, 1, 1] [3, 2, 2] [2, 2, 1, 1, 1] = some ([5, 1, 1], [3, 2, 2], [2, 2, 1, 1, 1]) := by decide +kernel
theorem key_ACB : CGState.orderP [5, 1, 1] [2, 2, 1, 1, 1] [3, 2, 2] = some ([5, 1, 1], [3, 2, 2], [2, 2, 1, 1, 1]) := by decide +kernel
theorem key_CBA : CGState.orderP [2, 2, 1, 1, 1] [3, 2, 2] [5, 1, 1] = some ([5, 1, 1], [2, 2, 1, 1, 1], [3, 2, 2]) := by decide +kernel

/-- **C108** is false. (1) The history: in a new program `coeff((5,1,1),(2,2,1,1,1),(3,2,2))` is 0; after a call with the last two
arguments exchanged it is 1, the multiplicity. (2) The order: in one and the same program `coeff((5,1,1),(3,2,2),(2,2,1,1,1))` is 1 and
then `coeff((2,2,1,1,1),(3,2,2),(5,1,1))` is 0. -/
theorem C108_witness :
    IsMultiplicity 7 [5, 1, 1] [3, 2, 2] [2, 2, 1, 1, 1] 1 ∧
    Rounding.ieee.answer [] (.coeff [5, 1, 1] [2, 2, 1, 1, 1] [3, 2, 2]) = some (.int 0) ∧
    Rounding.ieee.answer [.coeff [5, 1, 1] [3, 2, 2] [2, 2, 1, 1, 1]] (.coeff [5, 1, 1] [2, 2, 1, 1, 1] [3, 2, 2]) = some (.int 1) ∧
    Rounding.ieee.answer [] (.coeff [5, 1, 1] [3, 2, 2] [2, 2, 1, 1, 1]) = some (.int 1) ∧
    Rounding.ieee.answer [.coeff [5, 1, 1] [3, 2, 2] [2, 2, 1, 1, 1]] (.coeff [2, 2, 1, 1, 1] [3, 2, 2] [5, 1, 1]) = some (.int 0) := by
  have t1 : CGState.tripleEq ([5, 1, 1], [3, 2, 2], [2, 2, 1, 1, 1]) ([5, 1, 1], [3, 2, 2], [2, 2, 1, 1, 1]) = true := by decide +kernel
  have t2 : CGState.tripleEq ([5, 1, 1], [3, 2, 2], [2, 2, 1, 1, 1]) ([5, 1, 1], [2, 2, 1, 1, 1], [3, 2, 2]) = false := by decide +kernel
  refine ⟨multiplicity, ?_, ?_, ?_, ?_⟩ <;>
  simp only [Rounding.answer, Rounding.cgRun, Rounding.cgExec, Rounding.cgCoeff, CGCache.empty, key_ABC, key_ACB, key_CBA, good_coeff, badA, badB,
    List.find?_nil, List.find?_cons, List.nil_append, List.append_nil, t1, t2, Option.bind_eq_bind, Option.bind_some, Option.map_some]

theorem C108_false : ¬ C108_statement := fun h => by
  obtain ⟨-, h1, -, h2, -⟩ := C108_witness
  have := h 7 _ _ _ _ _ _ [] [] (by norm_num) partition511 partition22111 partition322 ((List.Perm.swap _ _ []).cons _) (by intro c hc; cases hc)
    (by intro c hc; cases hc)
  rw [h1, h2] at this
  simp at this

/-- **C108.** The types go wrong in the same way: in a new program `CGproduct((5,1,1),(2,2,1,1,1))` does not list `(3,2,2)`, which is in
the product once; after a call of `coeff` it does. -/
theorem C108_product_witness : ∃ t t',
    Rounding.ieee.answer [] (.product [5, 1, 1] [2, 2, 1, 1, 1]) = some (.type t) ∧ [3, 2, 2] ∉ parts t ∧
    Rounding.ieee.answer [.coeff [5, 1, 1] [3, 2, 2] [2, 2, 1, 1, 1]] (.product [5, 1, 1] [2, 2, 1, 1, 1]) = some (.type t') ∧
    [3, 2, 2] ∈ parts t' ∧ mult t' [3, 2, 2] = 1 := by
  have t1 : CGState.tripleEq ([5, 1, 1], [3, 2, 2], [2, 2, 1, 1, 1]) ([5, 1, 1], [3, 2, 2], [2, 2, 1, 1, 1]) = true := by decide +kernel
  obtain ⟨s', t, e, h1, -, h2, -⟩ := Rounding.cacheOk_empty.product ieee_total (n := 7) (by norm_num) partition511 partition22111
  have hv : ValidProgram [.coeff [5, 1, 1] [3, 2, 2] [2, 2, 1, 1, 1]] := by
    intro c hc
    rw [List.mem_singleton] at hc
    subst hc
    exact ⟨7, by norm_num, partition511, partition322, partition22111⟩
  obtain ⟨u, eu, hu⟩ := Rounding.cacheOk_empty.run ieee_total _ hv.valid
  obtain ⟨u', t', e', h1', -, -, h2'⟩ := hu.product ieee_total (n := 7) (by norm_num) partition511 partition22111
  have eu' : u = ⟨[(([5, 1, 1], [3, 2, 2], [2, 2, 1, 1, 1]), 1)], []⟩ := by
    simp only [Rounding.cgRun, Rounding.cgExec, Rounding.cgCoeff, CGCache.empty, key_ABC, good_coeff, List.find?_nil, List.nil_append,
      Option.bind_eq_bind, Option.bind_some, Option.some.injEq] at eu
    exact eu.symm
  refine ⟨t, t', ?_, fun hm => ?_, ?_, ?_⟩
  · simp only [Rounding.answer, Rounding.cgRun, Rounding.cgExec, e, Option.bind_eq_bind, Option.bind_some, Option.map_some]
  · obtain ⟨k, hk, hm'⟩ := h2 rfl [3, 2, 2] partition322 (by simp [CGCache.empty]) (by decide)
    rw [badA] at hk
    cases hk
    have := ((h1.mem _).1 hm).2
    rw [hm'] at this
    exact absurd this (by decide)
  · simp only [Rounding.answer, eu, Rounding.cgExec, e', Option.bind_eq_bind, Option.bind_some, Option.map_some]
  · have hm : mult t' [3, 2, 2] = 1 := by
      refine h2' (by rw [eu']; rfl) [3, 2, 2] partition322 (by decide) 1 ?_
      rw [eu']
      simp only [Rounding.cgCoeff, key_ACB, List.find?_cons, t1, Option.bind_eq_bind, Option.bind_some]
    exact ⟨(h1'.mem [3, 2, 2]).2 ⟨partition322, by rw [hm]; decide⟩, hm⟩

/-- **C108.** What is left of the statement: the first answer to a call stays the answer, whatever is called later. (For all roundings.) -/
theorem C108_stable (F : Rounding) (cs cs' : List CGAsk) (c : CGAsk) (v : CGVal) (h : F.answer cs c = some v)
    (h' : (F.cgRun CGCache.empty (cs ++ c :: cs')).isSome) : F.answer (cs ++ c :: cs') c = some v := by
  obtain ⟨s, e, h⟩ := Option.bind_eq_some_iff.1 h
  obtain ⟨⟨s1, w⟩, e1, rfl⟩ := Option.map_eq_some_iff.1 h
  obtain ⟨s2, e2⟩ := Option.isSome_iff_exists.1 h'
  have e3 : F.cgRun s1 cs' = some s2 := by
    rw [Rounding.run_append, e, Option.bind_some, Rounding.cgRun, e1] at e2
    exact e2
  unfold Rounding.answer
  rw [e2, Option.bind_some, (Rounding.grows_exec e1).2 s2 (Rounding.grows_run e3)]
  rfl

/-- **C108.** What is left of the statement up to `n=6`: after every program (which may deal with larger `n`, too) the answers to all
calls are those of exact arithmetic after any other program. -/
theorem C108_small_partial (n : Nat) (hn : 1 ≤ n) (h6 : n ≤ 6) (cs : List CGAsk) (hcs : ValidProgram cs) (c : CGAsk) (hc : c.At n)
    (ds : List CGCall) (hds : ∀ d ∈ ds, d.Valid) :
    ∃ s v, CGState.empty.run ds = some s ∧ (s.exec c.call).map Prod.snd = some v ∧ Rounding.ieee.answer cs c = some v :=
  answer_right ieee_total hn (ieee_right hn h6) hcs hds hc

/-- **C108.** Without rounding this holds for all `n`: the caches of Model/Float are those of Model/CG. -/
theorem C108_exact (n : Nat) (hn : 1 ≤ n) (cs : List CGAsk) (hcs : ValidProgram cs) (c : CGAsk) (hc : c.At n)
    (ds : List CGCall) (hds : ∀ d ∈ ds, d.Valid) :
    ∃ s v, CGState.empty.run ds = some s ∧ (s.exec c.call).map Prod.snd = some v ∧ Rounding.exact.answer cs c = some v :=
  answer_right exact_total hn (exact_right hn) hcs hds hc

/-- **C108.** Up to `n=10`: after every program the answer of `coeff` is the multiplicity or one less, and so are the multiplicities of
`CGproduct`, which lists no partition whose multiplicity is 0. -/
theorem C108_ten (n : Nat) (hn : 1 ≤ n) (h10 : n ≤ 10) (cs : List CGAsk) (hcs : ValidProgram cs) (a b : List Nat) (ha : IsPartition n a)
    (hb : IsPartition n b) :
    (∀ c, IsPartition n c → ∀ K, IsMultiplicity n a b c K → ∃ k, Rounding.ieee.answer cs (.coeff a b c) = some (.int k) ∧
      (k = K ∨ (1 ≤ K ∧ k = (K : Int) - 1))) ∧
    ∃ t, Rounding.ieee.answer cs (.product a b) = some (.type t) ∧ TypeOk n t ∧
      ∀ c, IsPartition n c → ∀ K, IsMultiplicity n a b c K → (c ∈ parts t ↔ 0 < mult t c) ∧ (mult t c = K ∨ (1 ≤ K ∧ mult t c = (K : Int) - 1)) := by
  have hout : ∀ c, IsPartition n c → ∀ K, IsMultiplicity n a b c K → ∀ k, Rounding.ieee.Outcome a b c k → k = K ∨ (1 ≤ K ∧ k = (K : Int) - 1) := by
    intro c hc K hK k ⟨x, y, z, hp, e⟩
    obtain ⟨hx, hy, hz⟩ := Rounding.perm_partition hp ha hb hc
    rw [kronN_isMultiplicity hn ha hb hc] at hK
    rw [← Rounding.kronN_perm hp ha hb hc] at hK
    rw [← kronN_isMultiplicity hn hx hy hz] at hK
    rcases C105_coeff_partial n hn h10 x y z hx hy hz K hK with h | ⟨h1, h⟩
    · rw [h] at e; cases e; exact Or.inl rfl
    · rw [h] at e; cases e; exact Or.inr ⟨h1, rfl⟩
  obtain ⟨s, e, hs⟩ := Rounding.cacheOk_empty.run ieee_total cs hcs.valid
  refine ⟨fun c hc K hK => ?_, ?_⟩
  · obtain ⟨s', k, e1, ho, -⟩ := hs.coeff ieee_total hn ha hb hc
    exact ⟨k, by simp only [Rounding.answer, e, Rounding.cgExec, e1, Option.bind_eq_bind, Option.bind_some, Option.map_some], hout c hc K hK k ho⟩
  · obtain ⟨s', t, e1, h1, -⟩ := hs.product ieee_total hn ha hb
    refine ⟨t, by simp only [Rounding.answer, e, Rounding.cgExec, e1, Option.bind_eq_bind, Option.bind_some, Option.map_some], h1.ok, fun c hc K hK => ⟨?_, ?_⟩⟩
    · rw [h1.mem]; exact ⟨fun h => h.2, fun h => ⟨hc, h⟩⟩
    · rcases h1.mult c hc with ⟨k, ho, hm⟩ | ⟨hm, hz⟩
      · rcases hout c hc K hK k ho with h | ⟨h, h'⟩
        · left; rw [hm, h]; exact max_eq_left (by positivity)
        · right; exact ⟨h, by rw [hm, h']; exact max_eq_left (by omega)⟩
      · left
        rw [kronN_isMultiplicity hn ha hb hc, hz] at hK
        rw [hm, hK]; rfl

/-- the wrong answer of the new program stays, even after a call that would have made it right -/
example : Rounding.ieee.answer ([] ++ CGAsk.coeff [5, 1, 1] [2, 2, 1, 1, 1] [3, 2, 2] :: [.coeff [5, 1, 1] [3, 2, 2] [2, 2, 1, 1, 1]])
    (.coeff [5, 1, 1] [2, 2, 1, 1, 1] [3, 2, 2]) = some (.int 0) :=
  C108_stable _ _ _ _ _ C108_witness.2.1 (by
    obtain ⟨s, e, -⟩ := Rounding.cacheOk_empty.run ieee_total
      ([] ++ CGAsk.coeff [5, 1, 1] [2, 2, 1, 1, 1] [3, 2, 2] :: [.coeff [5, 1, 1] [3, 2, 2] [2, 2, 1, 1, 1]]) (by
        intro c hc
        simp only [List.nil_append, List.mem_cons, List.not_mem_nil, or_false] at hc
        rcases hc with rfl | rfl
        · exact ⟨7, by norm_num, partition511, partition22111, partition322⟩
        · exact ⟨7, by norm_num, partition511, partition322, partition22111⟩)
    rw [e]; rfl)

/-- after a call for `n=7` the product of `(2,1)` with itself is right -/
example := C108_small_partial 3 (by norm_num) (by norm_num) [.coeff [5, 1, 1] [2, 2, 1, 1, 1] [3, 2, 2]] (by
    intro c hc
    rw [List.mem_singleton] at hc
    subst hc
    exact ⟨7, by norm_num, partition511, partition22111, partition322⟩) (.product [2, 1] [2, 1])
  ⟨⟨by simp, by simp, rfl⟩, ⟨by simp, by simp, rfl⟩⟩ [] (by simp)

example := C108_ten 7 (by norm_num) (by norm_num) [] (by intro c hc; cases hc) [5, 1, 1] [2, 2, 1, 1, 1] partition511 partition22111

end Props

end Snob
