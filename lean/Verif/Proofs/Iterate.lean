import Verif.Model.Iterate
import Verif.Props.Classes

/-! # The loops over the members of `Sn` -/

namespace Snob

open IP

variable {w : World} {ir ch : Nat → List (List Nat)}

theorem irrepsOf_mem {n : Nat} (hn : 1 ≤ n) (c : Call) (hc : c.Valid) : ∀ p ∈ c.irrepsOf n, p ∈ partitions n := by
  intro p hp
  cases c <;> simp only [Call.irrepsOf, List.not_mem_nil] at hp <;> simp only [Call.Valid] at hc <;> split_ifs at hp with e <;>
    first
    | exact absurd hp List.not_mem_nil
    | exact hp
    | skip
  all_goals
    rw [List.mem_singleton] at hp
    subst hp
    first
    | (subst e; exact (mem_partitions _ hn _).2 hc.2)
    | (subst e; exact (mem_partitions _ hn _).2 hc.2.1)
    | (subst e; exact (mem_partitions _ hn _).2 (isPartition_row hn))

theorem charsOf_mem {n : Nat} (hn : 1 ≤ n) (c : Call) (hc : c.Valid) : ∀ p ∈ c.charsOf n, p ∈ partitions n := by
  intro p hp
  refine irrepsOf_mem hn c hc p ?_
  cases c <;> simp only [Call.charsOf, List.not_mem_nil] at hp <;> exact hp

/-- Everything has been made: the list that the loop goes through is `L`, and it stays `L`. -/
def Full (n : Nat) (L : List (List Nat)) (ir ch : Nat → List (List Nat)) : Range → Prop
  | .cclasses => L = partitions n
  | .irreps => ir n = L ∧ L.Perm (partitions n)
  | .characters => ch n = L ∧ L.Perm (partitions n)

theorem Full.perm {n : Nat} {L : List (List Nat)} {r : Range} (h : Full n L ir ch r) : L.Perm (partitions n) := by
  cases r
  · exact h ▸ List.Perm.refl _
  · exact h.2
  · exact h.2

theorem Full.req {n : Nat} (hn : 1 ≤ n) {L : List (List Nat)} {r : Range} (h : Full n L ir ch r) (c : Call) (hc : c.Valid) :
    Full n L (reqIr ir c) (reqCh ch c) r := by
  cases r
  · exact h
  · refine ⟨?_, h.2⟩
    show addAll (ir n) _ = L
    rw [h.1]
    exact addAll_self _ _ fun x hx => h.2.mem_iff.2 (irrepsOf_mem hn c hc x hx)
  · refine ⟨?_, h.2⟩
    show addAll (ch n) _ = L
    rw [h.1]
    exact addAll_self _ _ fun x hx => h.2.mem_iff.2 (charsOf_mem hn c hc x hx)

/-- the state during a loop -/
def LoopInv (n : Nat) (L : List (List Nat)) (r : Range) (w : World) : Prop :=
  ∃ ir ch, Rel w ir ch ∧ (∀ m, (ch m).Nodup) ∧ Full n L ir ch r

/-- the object at a place of the list -/
noncomputable def shown (n : Nat) : Range → List Nat → Val
  | .cclasses, p => .part p
  | .irreps, p => .part p
  | .characters, p => .fn (chiList n p)

theorem LoopInv.exec {n : Nat} (hn : 1 ≤ n) {L : List (List Nat)} {r : Range} (h : LoopInv n L r w) (c : Call)
    (hc : c.Valid) : ∃ w' v, w.exec c = some (w', v) ∧ LoopInv n L r w' := by
  obtain ⟨ir, ch, hr, hch, hf⟩ := h
  obtain ⟨w', e, h'⟩ := hr.exec hch c hc
  exact ⟨w', _, e, _, _, h', fun m => addAll_nodup (hch m), hf.req hn c hc⟩

theorem LoopInv.run {n : Nat} (hn : 1 ≤ n) {L : List (List Nat)} {r : Range} (cs : List Call) (hc : ∀ c ∈ cs, c.Valid)
    (w : World) (h : LoopInv n L r w) : ∃ w', w.run cs = some w' ∧ LoopInv n L r w' := by
  induction cs generalizing w with
  | nil => exact ⟨w, rfl, h⟩
  | cons c cs ih =>
    obtain ⟨w1, v, e1, h1⟩ := h.exec hn c (hc c (by simp))
    obtain ⟨w2, e2, h2⟩ := ih (fun c hc' => hc c (by simp [hc'])) w1 h1
    exact ⟨w2, by simp only [World.run, e1, Option.bind_eq_bind, Option.bind_some, e2], h2⟩

theorem LoopInv.at {n : Nat} (hn : 1 ≤ n) {L : List (List Nat)} {r : Range} (h : LoopInv n L r w) {i : Nat} {p : List Nat}
    (hi : L[i]? = some p) : ∃ w', w.exec (World.rangeAt n r i) = some (w', shown n r p) ∧ LoopInv n L r w' := by
  obtain ⟨ir, ch, hr, hch, hf⟩ := h
  have hlt : i < (partitions n).length := by
    rw [← hf.perm.length_eq]; exact (List.getElem?_eq_some_iff.1 hi).1
  have hv : (World.rangeAt n r i).Valid := by cases r <;> exact ⟨hn, hlt⟩
  obtain ⟨w', e, h'⟩ := hr.exec hch _ hv
  refine ⟨w', ?_, _, _, h', fun m => addAll_nodup (hch m), hf.req hn _ hv⟩
  rw [e]
  congr 2
  cases r with
  | cclasses =>
    have hL : L = partitions n := hf
    show Val.part ((partitions n)[i]?.getD []) = _
    rw [← hL, hi]; rfl
  | irreps =>
    show Val.part ((addAll (ir n) (partitions n))[i]?.getD []) = _
    rw [hf.1, addAll_self _ _ fun x hx => hf.2.mem_iff.2 hx, hi]; rfl
  | characters =>
    show Val.fn (chiList n ((addAll (ch n) (partitions n))[i]?.getD [])) = _
    rw [hf.1, addAll_self _ _ fun x hx => hf.2.mem_iff.2 hx, hi]; rfl

theorem visit_eq {n : Nat} (hn : 1 ≤ n) {L : List (List Nat)} {r : Range} (body : Val → List Call)
    (hb : ∀ v, ∀ c ∈ body v, c.Valid) (k i : Nat) (w : World) (h : LoopInv n L r w) (hk : i + k = L.length) :
    ∃ w', World.visit n r body k i w = some (w', (L.drop i).map (shown n r)) ∧ LoopInv n L r w' := by
  induction k generalizing i w with
  | zero =>
    refine ⟨w, ?_, h⟩
    rw [World.visit, List.drop_of_length_le (by omega)]; rfl
  | succ k ih =>
    have hi : i < L.length := by omega
    obtain ⟨w1, e1, h1⟩ := h.at hn (List.getElem?_eq_getElem hi)
    obtain ⟨w2, e2, h2⟩ := LoopInv.run hn (body (shown n r L[i])) (hb _) w1 h1
    obtain ⟨w3, e3, h3⟩ := ih (i + 1) w2 h2 (by omega)
    refine ⟨w3, ?_, h3⟩
    rw [List.drop_eq_getElem_cons hi, List.map_cons]
    simp only [World.visit, e1, e2, e3, Option.bind_eq_bind, Option.bind_some]

/-- the list the loop will go through -/
def listOf (n : Nat) (ir ch : Nat → List (List Nat)) : Range → List (List Nat)
  | .cclasses => partitions n
  | .irreps => addAll (ir n) (partitions n)
  | .characters => addAll (ch n) (partitions n)

theorem Rel.ch_ok (h : Rel w ir ch) {n : Nat} (hn : 1 ≤ n) : ∀ p ∈ ch n, IsPartition n p :=
  fun p hp => (h.ir_ok hn).2 p (h.sub n p hp)

theorem Rel.listOf_perm (h : Rel w ir ch) (hch : ∀ m, (ch m).Nodup) {n : Nat} (hn : 1 ≤ n) (r : Range) :
    (listOf n ir ch r).Perm (partitions n) := by
  cases r
  · exact List.Perm.refl _
  · exact nodup_perm_length hn (h.ir_ok hn).1 (h.ir_ok hn).2
  · exact nodup_perm_length hn (hch n) (h.ch_ok hn)

theorem Rel.rangeSize (h : Rel w ir ch) (hch : ∀ m, (ch m).Nodup) {n : Nat} (hn : 1 ≤ n) (r : Range) :
    ∃ w', w.rangeSize n r = some (w', (partitions n).length) ∧ LoopInv n (listOf n ir ch r) r w' := by
  have hp := h.listOf_perm hch hn r
  cases r with
  | cclasses =>
    obtain ⟨w1, e1, h1, _⟩ := h.mkSn hn
    obtain ⟨w2, e2, h2, _⟩ := h1.onSn_id hn (ncclasses_ok n (ir n))
    exact ⟨w2, by simp only [World.rangeSize, e1, e2, Option.bind_eq_bind, Option.bind_some], _, _, h2, hch, rfl⟩
  | irreps =>
    obtain ⟨w1, e1, h1, _⟩ := h.mkSn hn
    have hm : MethodOk n (fun o => do
        let o ← o.makeAllIrreps
        some (o, o.irreps.length)) (ir n) (addAll (ir n) (partitions n)) (partitions n).length := by
      intro o ho hl
      obtain ⟨o', e, h', hi⟩ := ho.makeAllIrreps
      refine ⟨o', ?_, h', hl ▸ hi⟩
      have hlen : o'.irreps.length = (partitions n).length := by
        rw [hi, hl]; exact hp.length_eq
      simp only [e, Option.bind_eq_bind, Option.bind_some, hlen]
    obtain ⟨w2, e2, h2, _⟩ := h1.onSn hn hm fun q hq => mem_addAll.2 (Or.inl hq)
    refine ⟨w2, by simp only [World.rangeSize, e1, Option.bind_eq_bind, Option.bind_some]; exact e2, _, _, h2, hch, ?_, hp⟩
    rw [Function.update_self]; rfl
  | characters =>
    obtain ⟨w0, e0, h0, _, l0⟩ := h.mkSn hn
    obtain ⟨w1, e1, h1, l1⟩ := Rel.makeAllChars hn (partitions n) (fun p hp => (mem_partitions n hn p).1 hp) w0 _ _ h0 l0
    have hlt : n - 1 < w1.levels.length := by omega
    have hg := List.getElem?_eq_getElem hlt
    have hL := h1.lev _ _ hg
    rw [show n - 1 + 1 = n by omega, Function.update_self] at hL
    have hlen' := congrArg List.length hL.2
    rw [List.length_map] at hlen'
    have hlen : (w1.levels[n - 1]).chars.length = (partitions n).length := hlen'.trans hp.length_eq
    refine ⟨w1, ?_, _, _, h1, fun m => ?_, ?_, hp⟩
    · simp only [World.rangeSize, e0, e1, Option.bind_eq_bind, Option.bind_some, hg, hlen]
    · by_cases hm : m = n
      · subst hm; rw [Function.update_self]; exact addAll_nodup (hch m)
      · rw [Function.update_of_ne hm]; exact hch m
    · rw [Function.update_self]; rfl

theorem Rel.forEach (h : Rel w ir ch) (hch : ∀ m, (ch m).Nodup) {n : Nat} (hn : 1 ≤ n) (r : Range)
    (body : Val → List Call) (hb : ∀ v, ∀ c ∈ body v, c.Valid) :
    ∃ w', w.forEach n r body = some (w', (listOf n ir ch r).map (shown n r)) ∧
      LoopInv n (listOf n ir ch r) r w' := by
  obtain ⟨w1, e1, h1⟩ := h.rangeSize hch hn r
  obtain ⟨w2, e2, h2⟩ := visit_eq hn body hb (partitions n).length 0 w1 h1
    (by rw [Nat.zero_add]; exact (h.listOf_perm hch hn r).length_eq.symm)
  refine ⟨w2, ?_, h2⟩
  simp only [World.forEach, e1, Option.bind_eq_bind, Option.bind_some]
  rw [e2, List.drop_zero]

end Snob
