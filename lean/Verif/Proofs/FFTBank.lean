import Verif.Spec.FFTRequests

/-!
The cache of transforms.
-/

namespace Snob

theorem fftKeyEq_iff (x y : Int × Int) : fftKeyEq x y = true ↔ x = y := by
  unfold fftKeyEq
  rcases x with ⟨a, b⟩
  rcases y with ⟨c, d⟩
  by_cases h : a = c <;> by_cases h' : b = d <;> simp [h, h']

/-- the world after the requests `rs` -/
structure FFTWorld.Ok (W : FFTWorld) (rs : List (Int × Int)) : Prop where
  entry : ∀ e ∈ W.bank.ffts, ∃ t, FFTObj.make e.1.1 e.1.2 = some t ∧ W.bank.objs[e.2]? = some t
  len : W.held.length = rs.length
  held : ∀ (i p : Nat) (k : Int × Int), rs[i]? = some k → W.held[i]? = some p →
    W.bank.ffts.find? (fun e => fftKeyEq e.1 k) = some (k, p)

theorem FFTWorld.ok_start : FFTWorld.start.Ok [] := by
  refine ⟨fun e he => ?_, rfl, fun i p k h => ?_⟩
  · simp [FFTWorld.start, FFTBank.empty] at he
  · simp at h

theorem FFTWorld.Ok.obj {W : FFTWorld} {rs : List (Int × Int)} (h : W.Ok rs) {i : Nat} {k : Int × Int} (hi : rs[i]? = some k) :
    ∃ t, FFTObj.make k.1 k.2 = some t ∧ W.obj i = some t := by
  have hlt := (List.getElem?_eq_some_iff.1 hi).1
  have hp := List.getElem?_eq_getElem (show i < W.held.length by rw [h.len]; exact hlt)
  have hf := h.held i _ k hi hp
  obtain ⟨t, h1, h2⟩ := h.entry _ (List.mem_of_find?_eq_some hf)
  exact ⟨t, h1, by simp only [FFTWorld.obj, hp, Option.bind_eq_bind, Option.bind_some]; exact h2⟩

theorem FFTWorld.Ok.hold {W W' : FFTWorld} {rs : List (Int × Int)} (h : W.Ok rs) {n m : Int} {r : FFTRet}
    (hs : W.hold n m = some (W', r)) : W'.Ok (rs ++ [(n, m)]) := by
  unfold FFTWorld.hold FFTBank.getFFT at hs
  rcases hf : W.bank.ffts.find? (fun e => fftKeyEq e.1 (n, m)) with _ | e
  · rw [hf] at hs
    simp only [Option.bind_eq_bind, Option.bind_eq_some_iff] at hs
    obtain ⟨x, ⟨t, ht, hx⟩, hs⟩ := hs
    cases hx
    cases hs
    refine ⟨fun e he => ?_, by simp [h.len], fun i p k hi hp => ?_⟩
    · simp only [List.mem_append, List.mem_singleton] at he
      rcases he with he | rfl
      · obtain ⟨t', h1, h2⟩ := h.entry e he
        exact ⟨t', h1, by simp only; rw [List.getElem?_append_left (List.getElem?_eq_some_iff.1 h2).1]; exact h2⟩
      · exact ⟨t, ht, by simp⟩
    · simp only at hp ⊢
      rw [List.find?_append]
      by_cases hl : i < rs.length
      · rw [List.getElem?_append_left hl] at hi
        rw [List.getElem?_append_left (by rw [h.len]; exact hl)] at hp
        rw [h.held i p k hi hp]
        rfl
      · have hl' : ¬ i < W.held.length := by rw [h.len]; exact hl
        rw [List.getElem?_append_right (by omega)] at hi hp
        have hi0 : i - rs.length = 0 := by
          have := (List.getElem?_eq_some_iff.1 hi).1
          simp only [List.length_singleton] at this; omega
        rw [hi0] at hi
        rw [h.len, hi0] at hp
        simp only [List.getElem?_cons_zero, Option.some.injEq] at hi hp
        subst hi hp
        rw [hf]
        simp [fftKeyEq_iff]
  · rw [hf] at hs
    simp only [Option.bind_eq_bind, Option.bind_some, Option.some.injEq, Prod.mk.injEq] at hs
    obtain ⟨rfl, _⟩ := hs
    have hek : e.1 = (n, m) := by
      have := List.find?_some hf
      exact (fftKeyEq_iff _ _).1 this
    refine ⟨h.entry, by simp [h.len], fun i p k hi hp => ?_⟩
    simp only at hp ⊢
    by_cases hl : i < rs.length
    · rw [List.getElem?_append_left hl] at hi
      rw [List.getElem?_append_left (by rw [h.len]; exact hl)] at hp
      exact h.held i p k hi hp
    · have hl' : ¬ i < W.held.length := by rw [h.len]; exact hl
      rw [List.getElem?_append_right (by omega)] at hi hp
      have hi0 : i - rs.length = 0 := by
        have := (List.getElem?_eq_some_iff.1 hi).1
        simp only [List.length_singleton] at this; omega
      rw [hi0] at hi
      rw [h.len, hi0] at hp
      simp only [List.getElem?_cons_zero, Option.some.injEq] at hi hp
      subst hi hp
      rw [hf, ← hek]

theorem FFTWorld.Ok.step {W W' : FFTWorld} {rs : List (Int × Int)} (h : W.Ok rs) {c : FFTCall} {r : FFTRet}
    (hs : W.step c = some (W', r)) : W'.Ok (rs ++ c.req.toList) := by
  cases c with
  | new1 n => exact h.hold hs
  | new2 n m => exact h.hold hs
  | apply i N f =>
    simp only [FFTWorld.step, Option.bind_eq_bind, Option.bind_eq_some_iff] at hs
    obtain ⟨t, _, w, _, hs⟩ := hs
    cases hs
    simpa [FFTCall.req] using h
  | inv i w =>
    simp only [FFTWorld.step, Option.bind_eq_bind, Option.bind_eq_some_iff] at hs
    obtain ⟨t, _, w, _, hs⟩ := hs
    cases hs
    simpa [FFTCall.req] using h
  | invSnSm i w =>
    simp only [FFTWorld.step, Option.bind_eq_bind, Option.bind_eq_some_iff] at hs
    obtain ⟨t, _, w, _, hs⟩ := hs
    cases hs
    simpa [FFTCall.req] using h

theorem FFTWorld.Ok.run {cs : List FFTCall} : ∀ {W W' : FFTWorld} {rs : List (Int × Int)}, W.Ok rs → W.run cs = some W' →
    W'.Ok (rs ++ cs.filterMap FFTCall.req) := by
  induction cs with
  | nil =>
    intro W W' rs h hs
    cases hs
    simpa using h
  | cons c cs ih =>
    intro W W' rs h hs
    simp only [FFTWorld.run, Option.bind_eq_some_iff] at hs
    obtain ⟨x, h1, h2⟩ := hs
    have := ih (h.step h1) h2
    rw [List.filterMap_cons]
    rcases hc : c.req with _ | k
    · simpa [hc] using this
    · simpa [hc] using this

end Snob
