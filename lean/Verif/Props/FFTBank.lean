import Verif.Props.FFT
import Verif.Proofs.FFTLinDown
import Verif.Proofs.FFTBank

/-! # Properties C97, C98: linearity of the Fourier transform, and transforms kept by the program -/

namespace Snob.Props

open Snob Snob.Perm Snob.IP
open scoped Nat

/-- **C97.** The forward transform on `Sn` as coded: if the `n!` values of `h` are those of `a f + b g`, the transform of
`h` is defined exactly if those of `f` and `g` are, and it is then `a` times the transform of `f` plus `b` times the
transform of `g`, entry by entry. This holds for all `n`, also where the transform is not the Fourier transform
(C37). -/
theorem C97_forward (n : Nat) (a b : ℝ) (f g h : Nat → ℝ) (hh : ∀ e < n !, h e = a * f e + b * g e) :
    fft n h = (fft n f).bind fun F => (fft n g).map fun G => combine a b F G := by
  unfold fft
  rcases fftLevels n 1 with _ | Ls
  · rfl
  · exact fft_combine Ls _ f g h hh

/-- **C97.** The same for the transform on `Sn/Sm`. -/
theorem C97_forward_snsm (n m : Nat) (a b : ℝ) (f g h : Nat → ℝ) (hh : ∀ e < n ! / m !, h e = a * f e + b * g e) :
    fftSnSm n m h = (fftSnSm n m f).bind fun F => (fftSnSm n m g).map fun G => combine a b F G := by
  unfold fftSnSm
  rcases fftLevels n m with _ | Ls
  · rfl
  · exact fft_combine Ls _ f g h hh

/-- **C97.** Whether the transform is defined does not depend on the function, and neither does the type of the result.
-/
theorem C97_same_type (n m : Nat) (f g : Nat → ℝ) (F : List VPart) (hF : fftSnSm n m f = some F) :
    ∃ G, fftSnSm n m g = some G ∧ SameType F G := by
  unfold fftSnSm at hF ⊢
  revert hF
  rcases fftLevels n m with _ | Ls <;> intro hF
  · exact absurd hF (by simp)
  · simp only [Option.bind_eq_bind, Option.bind_some] at hF ⊢
    obtain ⟨G, _, hG, _⟩ := tri_fft (a := 0) (b := 0) Ls _ (f2 := g) (f3 := fun _ => 0) (fun e _ => by simp) hF
    exact ⟨G, hG, fft_sameType Ls _ hF hG⟩

/-- **C97.** The inverse transform on `Sn` as coded: for two vectors of the same type, `inv` of `a F + b G` is defined
exactly if `inv` of `F` is, has the same label and number of values, and its values are those of `a inv(F) + b inv(G)`.
-/
theorem C97_inverse (n : Nat) (a b : ℝ) (F G : List VPart) (hs : SameType F G) :
    match ifft n F, ifft n G, ifft n (combine a b F G) with
    | some f, some g, some h => g.1 = f.1 ∧ h.1 = f.1 ∧ g.2.1 = f.2.1 ∧ h.2.1 = f.2.1 ∧
        ∀ e < f.2.1, h.2.2 e = a * f.2.2 e + b * g.2.2 e
    | none, none, none => True
    | _, _, _ => False := by
  unfold ifft
  rcases fftLevels n 1 with _ | Ls
  · trivial
  rcases h1 : ifftWith viewAct Ls F with _ | r1
  · have h2 : ifftWith viewAct Ls G = none := by
      rcases h2 : ifftWith viewAct Ls G with _ | r2
      · rfl
      · have hs' : SameType G F := ⟨hs.1.symm, fun i P Q hP hQ =>
          have := hs.2 i Q P hQ hP
          ⟨this.1.symm, this.2.1.symm, this.2.2.symm⟩⟩
        obtain ⟨x, _, e, _⟩ := tri_ifft (a := 0) (b := 0) Ls hs' h2
        rw [h1] at e; cases e
    have h3 : ifftWith viewAct Ls (combine a b F G) = none := by
      rcases h3 : ifftWith viewAct Ls (combine a b F G) with _ | r3
      · rfl
      · have hc := sameType_combine (a := a) (b := b) hs
        have hs' : SameType (combine a b F G) F := ⟨hc.1.symm, fun i P Q hP hQ =>
          have := hc.2 i Q P hQ hP
          ⟨this.1.symm, this.2.1.symm, this.2.2.symm⟩⟩
        obtain ⟨x, _, e, _⟩ := tri_ifft (a := 0) (b := 0) Ls hs' h3
        rw [h1] at e; cases e
    simp [h1, h2, h3]
  · obtain ⟨r2, r3, h2, h3, e2, e3, he⟩ := tri_ifft (a := a) (b := b) Ls hs h1
    simp only [Option.bind_eq_bind, Option.bind_some, h1, h2, h3]
    exact ⟨trivial, trivial, e2, e3, he⟩

/-- **C97.** The same for `inv_snsm`. -/
theorem C97_inverse_snsm (n m : Nat) (a b : ℝ) (F G : List VPart) (hs : SameType F G) (f : (Nat × Nat) × Nat × (Nat → ℝ))
    (hf : ifftSnSm n m F = some f) :
    ∃ g h, ifftSnSm n m G = some g ∧ ifftSnSm n m (combine a b F G) = some h ∧ g.2.1 = f.2.1 ∧ h.2.1 = f.2.1 ∧
      ∀ e < f.2.1, h.2.2 e = a * f.2.2 e + b * g.2.2 e := by
  unfold ifftSnSm at hf ⊢
  revert hf
  rcases fftLevels n m with _ | Ls <;> intro hf
  · exact absurd hf (by simp)
  · simp only [Option.bind_eq_bind, Option.bind_some] at hf ⊢
    rw [Option.bind_eq_some_iff] at hf
    obtain ⟨r1, h1, hf⟩ := hf
    obtain rfl := Option.some.inj hf
    obtain ⟨r2, r3, h2, h3, e2, e3, he⟩ := tri_ifft (a := a) (b := b) Ls hs h1
    exact ⟨((n, m), r2), ((n, m), r3), by simp only [h2, Option.bind_some], by simp only [h3, Option.bind_some], e2, e3, he⟩

/-- Not vacuous: the transform on `S4` of a sum of two functions. -/
example (f g : Nat → ℝ) : ∃ F G, fft 4 f = some F ∧ fft 4 g = some G ∧
    fft 4 (fun e => f e + 2 * g e) = some (combine 1 2 F G) := by
  obtain ⟨F, hF, _⟩ := C37_fft_partial 4 (by omega) (by omega) f
  obtain ⟨G, hG, _⟩ := C37_fft_partial 4 (by omega) (by omega) g
  refine ⟨F, G, hF, hG, ?_⟩
  rw [C97_forward 4 1 2 f g _ (fun e _ => by ring), hF, hG]
  rfl

section
variable {cs : List FFTCall} {W : FFTWorld}

/-- **C98.** After every program, a request succeeds exactly if it is valid. -/
theorem C98_request (hW : FFTWorld.start.run cs = some W) (n m : Int) :
    (∃ W', W.step (.new2 n m) = some (W', .object)) ↔ ValidRequest (n, m) := by
  have hmk : (∃ t, FFTObj.make n m = some t) ↔ ValidRequest (n, m) := by
    unfold FFTObj.make ValidRequest
    simp only
    split
    · by_cases hv : 0 < m.toNat ∧ m.toNat ≤ n.toNat
      · obtain ⟨Ls, hLs, _⟩ := fftLevels_ok (n := n.toNat) (m := m.toNat) hv.1 hv.2
        rw [hLs]
        simp only [Option.map_some, Option.some.injEq, exists_eq', true_iff]
        omega
      · have hn : fftLevels n.toNat m.toNat = none := by
          unfold fftLevels
          rw [if_neg (fun h => hv ⟨h.2, h.1⟩)]
        rw [hn]
        simp only [Option.map_none, reduceCtorEq, exists_false, false_iff]
        omega
    · by_cases hv : 1 ≤ n.toNat
      · obtain ⟨Ls, hLs, _⟩ := fftLevels_ok (n := n.toNat) (m := 1) (by omega) hv
        rw [hLs]
        simp only [Option.map_some, Option.some.injEq, exists_eq', true_iff]
        omega
      · have hn : fftLevels n.toNat 1 = none := by
          unfold fftLevels
          rw [if_neg (fun h => hv h.1)]
        rw [hn]
        simp only [Option.map_none, reduceCtorEq, exists_false, false_iff]
        omega
  simp only [FFTWorld.step, FFTWorld.hold, FFTBank.getFFT]
  rw [← hmk]
  rcases hf : W.bank.ffts.find? (fun e => fftKeyEq e.1 (n, m)) with _ | e
  · rcases FFTObj.make n m with _ | t <;> simp [hf]
  · have hok := FFTWorld.ok_start.run hW
    obtain ⟨t, ht, _⟩ := hok.entry e (List.mem_of_find?_eq_some hf)
    have hk := List.find?_some hf
    rw [(fftKeyEq_iff e.1 (n, m)).1 hk] at ht
    simp [ht, hf]

/-- **C98.** After every program, the object made by the `i`-th request, if this was `ClausenFFT(n)`, transforms
functions on `Sn` as a new object does: the forward transform is that of C37. -/
theorem C98_forward (hW : FFTWorld.start.run cs = some W) (i n : Nat) (hi : (fftRequests cs)[i]? = some ((n : Int), -1)) (f : Nat → ℝ) :
    W.step (.apply i (n !) f) = (fft n f).map fun F => (W, .vec F) := by
  obtain ⟨t, ht, ho⟩ := (FFTWorld.ok_start.run hW).obj (i := i) (k := ((n : Int), -1)) (by simpa [fftRequests] using hi)
  unfold FFTObj.make at ht
  rw [if_neg (by simp)] at ht
  simp only [Int.toNat_natCast] at ht
  obtain ⟨Ls, hLs, rfl⟩ := Option.map_eq_some_iff.1 ht
  simp only [FFTWorld.step, ho, fft, hLs, Option.bind_eq_bind, Option.bind_some]
  cases fftWith viewAct Ls (n !) f <;> rfl

/-- **C98.** The same for `inv`. -/
theorem C98_inverse (hW : FFTWorld.start.run cs = some W) (i n : Nat) (hi : (fftRequests cs)[i]? = some ((n : Int), -1)) (F : List VPart) :
    W.step (.inv i F) = (ifft n F).map fun r => (W, .fn r.1 r.2.1 r.2.2) := by
  obtain ⟨t, ht, ho⟩ := (FFTWorld.ok_start.run hW).obj (i := i) (k := ((n : Int), -1)) (by simpa [fftRequests] using hi)
  unfold FFTObj.make at ht
  rw [if_neg (by simp)] at ht
  simp only [Int.toNat_natCast] at ht
  obtain ⟨Ls, hLs, rfl⟩ := Option.map_eq_some_iff.1 ht
  simp only [FFTWorld.step, ho, ifft, hLs, Option.bind_eq_bind, Option.bind_some]
  cases ifftWith viewAct Ls F <;> rfl

/-- **C98.** The same for `ClausenFFT(n,m)` and functions on `Sn/Sm`. -/
theorem C98_forward_snsm (hW : FFTWorld.start.run cs = some W) (i n m : Nat) (hi : (fftRequests cs)[i]? = some ((n : Int), (m : Int)))
    (f : Nat → ℝ) : W.step (.apply i (n ! / m !) f) = (fftSnSm n m f).map fun F => (W, .vec F) := by
  obtain ⟨t, ht, ho⟩ := (FFTWorld.ok_start.run hW).obj (i := i) (k := ((n : Int), (m : Int))) (by simpa [fftRequests] using hi)
  unfold FFTObj.make at ht
  rw [if_pos (by simp only; omega)] at ht
  simp only [Int.toNat_natCast] at ht
  obtain ⟨Ls, hLs, rfl⟩ := Option.map_eq_some_iff.1 ht
  simp only [FFTWorld.step, ho, fftSnSm, hLs, Option.bind_eq_bind, Option.bind_some]
  cases fftWith viewAct Ls (n ! / m !) f <;> rfl

/-- **C98.** The same for `inv_snsm`. -/
theorem C98_inverse_snsm (hW : FFTWorld.start.run cs = some W) (i n m : Nat) (hi : (fftRequests cs)[i]? = some ((n : Int), (m : Int)))
    (F : List VPart) : W.step (.invSnSm i F) = (ifftSnSm n m F).map fun r => (W, .fnSnSm r.1.1 r.1.2 r.2.1 r.2.2) := by
  obtain ⟨t, ht, ho⟩ := (FFTWorld.ok_start.run hW).obj (i := i) (k := ((n : Int), (m : Int))) (by simpa [fftRequests] using hi)
  unfold FFTObj.make at ht
  rw [if_pos (by simp only; omega)] at ht
  simp only [Int.toNat_natCast] at ht
  obtain ⟨Ls, hLs, rfl⟩ := Option.map_eq_some_iff.1 ht
  simp only [FFTWorld.step, ho, ifftSnSm, hLs, Option.bind_eq_bind, Option.bind_some]
  cases ifftWith viewAct Ls F <;> rfl

/-- **C98.** Two equal requests give the same object, however many requests lie between them. -/
theorem C98_shared (hW : FFTWorld.start.run cs = some W) (i j : Nat) (k : Int × Int) (hi : (fftRequests cs)[i]? = some k)
    (hj : (fftRequests cs)[j]? = some k) : ∃ p, W.held[i]? = some p ∧ W.held[j]? = some p := by
  have hok := FFTWorld.ok_start.run hW
  simp only [List.nil_append] at hok
  have hi' := List.getElem?_eq_getElem (show i < W.held.length by rw [hok.len]; exact (List.getElem?_eq_some_iff.1 hi).1)
  have hj' := List.getElem?_eq_getElem (show j < W.held.length by rw [hok.len]; exact (List.getElem?_eq_some_iff.1 hj).1)
  have e := (hok.held i _ k hi hi').symm.trans (hok.held j _ k hj hj')
  simp only [Option.some.injEq, Prod.mk.injEq, true_and] at e
  exact ⟨_, hi', by rw [hj', e]⟩

/-- Not vacuous: a program with four requests; the first and the last give the same object. -/
example : ∃ W, FFTWorld.start.run [.new2 3 2, .new1 3, .new2 3 1, .new2 3 2] = some W ∧ W.held = [0, 1, 2, 0] := by
  obtain ⟨L1, h1, _⟩ := fftLevels_ok (n := 3) (m := 2) (by omega) (by omega)
  obtain ⟨L2, h2, _⟩ := fftLevels_ok (n := 3) (m := 1) (by omega) (by omega)
  simp [FFTWorld.run, FFTWorld.step, FFTWorld.hold, FFTBank.getFFT, FFTWorld.start, FFTBank.empty, FFTObj.make, h1, h2, fftKeyEq]

end

end Snob.Props
