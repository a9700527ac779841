import Verif.Spec.Like

/-! Calls on vectors that differ in their numbers only are defined or undefined together (property C146). -/

namespace Snob

section
variable {α β γ δ : Type} {r : α → β → Prop} {s : γ → δ → Prop}

theorem rel_bind {a : Option α} {b : Option β} {f : α → Option γ} {g : β → Option δ} (h : Option.Rel r a b)
    (hf : ∀ x y, r x y → Option.Rel s (f x) (g y)) : Option.Rel s (a.bind f) (b.bind g) := by
  cases h with
  | some h => exact hf _ _ h
  | none => exact .none

theorem rel_same (a : Option α) : Option.Rel Eq a a := by cases a <;> constructor; rfl

theorem rel_bind_same (a : Option α) {f : α → Option γ} {g : α → Option δ} (hf : ∀ x, Option.Rel s (f x) (g x)) :
    Option.Rel s (a.bind f) (a.bind g) := rel_bind (rel_same a) fun x y h => h ▸ hf x

theorem rel_map {a : Option α} {b : Option β} {f : α → γ} {g : β → δ} (h : Option.Rel r a b)
    (hf : ∀ x y, r x y → s (f x) (g y)) : Option.Rel s (a.map f) (b.map g) := by
  cases h with
  | some h => exact .some (hf _ _ h)
  | none => exact .none

theorem rel_mapM {l : List α} {l' : List β} {f : α → Option γ} {g : β → Option δ} (h : List.Forall₂ r l l')
    (hf : ∀ x y, r x y → Option.Rel s (f x) (g y)) : Option.Rel (List.Forall₂ s) (l.mapM f) (l'.mapM g) := by
  induction h with
  | nil => exact .some .nil
  | cons h _ ih =>
    rw [List.mapM_cons, List.mapM_cons]
    exact rel_bind (hf _ _ h) fun x y hxy => rel_bind ih fun xs ys hs => .some (.cons hxy hs)

theorem rel_foldlM {l : List α} {l' : List β} {f : γ → α → Option γ} {g : δ → β → Option δ} (h : List.Forall₂ r l l')
    (hf : ∀ x y, r x y → ∀ a b, s a b → Option.Rel s (f a x) (g b y)) {a : γ} {b : δ} (hab : s a b) :
    Option.Rel s (l.foldlM f a) (l'.foldlM g b) := by
  induction h generalizing a b with
  | nil => exact .some hab
  | cons h _ ih =>
    rw [List.foldlM_cons, List.foldlM_cons]
    exact rel_bind (hf _ _ h _ _ hab) fun x y hxy => ih hxy

theorem forall₂_same (l : List α) : List.Forall₂ Eq l l := by
  induction l with
  | nil => exact .nil
  | cons a l ih => exact .cons rfl ih

theorem rel_get {l : List α} {l' : List β} (h : List.Forall₂ r l l') (i : Nat) : Option.Rel r l[i]? l'[i]? := by
  induction h generalizing i with
  | nil => exact .none
  | cons h _ ih =>
    rcases i with _ | i
    · exact .some h
    · simpa using ih i

theorem rel_set {l : List α} {l' : List β} (h : List.Forall₂ r l l') (i : Nat) {x : α} {y : β} (hxy : r x y) :
    List.Forall₂ r (l.set i x) (l'.set i y) := by
  induction h generalizing i with
  | nil => exact .nil
  | cons hab h ih =>
    rcases i with _ | i
    · exact .cons hxy h
    · exact .cons hab (ih i)

theorem rel_append {l k : List α} {l' k' : List β} (h : List.Forall₂ r l l') (h' : List.Forall₂ r k k') :
    List.Forall₂ r (l ++ k) (l' ++ k') := by
  induction h with
  | nil => exact h'
  | cons hab _ ih => exact .cons hab ih

theorem rel_if {p q : Prop} [Decidable p] [Decidable q] (hpq : p ↔ q) {a : α} {b : β} (h : r a b) :
    Option.Rel r (if p then some a else none) (if q then some b else none) := by
  by_cases hp : p
  · rw [if_pos hp, if_pos (hpq.1 hp)]; exact .some h
  · rw [if_neg hp, if_neg (fun hq => hp (hpq.2 hq))]; exact .none

theorem rel_iterUp {f : Int → α → Option α} {g : Int → β → Option β} (h : ∀ i x y, r x y → Option.Rel r (f i x) (g i y)) (k : Nat) :
    ∀ i x y, r x y → Option.Rel r (iterUp f k i x) (iterUp g k i y) := by
  induction k with
  | zero => intro i x y hxy; exact .some hxy
  | succ k ih => intro i x y hxy; exact rel_bind (h i x y hxy) (ih _)

theorem rel_iterDown {f : Int → α → Option α} {g : Int → β → Option β} (h : ∀ i x y, r x y → Option.Rel r (f i x) (g i y)) (k : Nat) :
    ∀ i x y, r x y → Option.Rel r (iterDown f k i x) (iterDown g k i y) := by
  induction k with
  | zero => intro i x y hxy; exact .some hxy
  | succ k ih => intro i x y hxy; exact rel_bind (h i x y hxy) (ih _)

end

theorem VPart.Like.refl (P : VPart) : P.Like P := ⟨rfl, rfl, rfl⟩

theorem SnVec.Like.refl (v : SnVec) : v.Like v := by
  induction v with
  | nil => exact .nil
  | cons P v ih => exact .cons (VPart.Like.refl P) ih

theorem like_index {v w : SnVec} (h : v.Like w) (z : List Nat) : v.index z = w.index z := by
  unfold SnVec.index
  induction h with
  | nil => rfl
  | cons h _ ih => rw [List.findIdx?_cons, List.findIdx?_cons, ih, h.2.2]

theorem like_get {P Q : VPart} (h : P.Like Q) (i j : Nat) : Option.Rel (fun _ _ => True) (P.get i j) (Q.get i j) :=
  rel_if (by rw [h.1, h.2.1]) trivial

theorem like_inc {P Q : VPart} (h : P.Like Q) (i j : Nat) (x y : ℝ) : Option.Rel VPart.Like (P.inc i j x) (Q.inc i j y) :=
  rel_if (by rw [h.1, h.2.1]) h

theorem like_incLoop {P Q : VPart} (h : P.Like Q) (io jo I J : Nat) {f g : Nat → Nat → Option ℝ}
    (hfg : ∀ i j, Option.Rel (fun _ _ => True) (f i j) (g i j)) : Option.Rel VPart.Like (P.incLoop io jo I J f) (Q.incLoop io jo I J g) := by
  unfold VPart.incLoop
  refine rel_foldlM (forall₂_same _) (fun i i' hi A B hAB => ?_) h
  subst hi
  refine rel_foldlM (forall₂_same _) (fun j j' hj A B hAB => ?_) hAB
  subst hj
  exact rel_bind (hfg i j) fun x y _ => like_inc hAB _ _ x y

theorem like_downLoop {P Q : VPart} (h : P.Like Q) (l : List (List Nat)) {R S : SnVec} (hRS : R.Like S) (o : Nat) :
    Option.Rel SnVec.Like (SnVec.downLoop P l R o) (SnVec.downLoop Q l S o) := by
  induction l generalizing R S o with
  | nil => exact .some hRS
  | cons z l ih =>
    unfold SnVec.downLoop
    rw [h.2.1]
    refine rel_bind_same _ fun Z => ?_
    refine rel_bind (r := VPart.Like) ?_ fun A B hAB => ?_
    · exact like_incLoop (VPart.Like.refl Z) _ _ _ _ fun i j => like_get h _ _
    · rw [hAB.1]
      exact ih (rel_append hRS (.cons hAB .nil)) _

theorem like_downB {P Q : VPart} (h : P.Like Q) : Option.Rel SnVec.Like (SnVec.downB P) (SnVec.downB Q) := by
  unfold SnVec.downB
  rw [h.2.2]
  exact rel_bind_same _ fun l => like_downLoop h l .nil 0

theorem like_upInner {v w : SnVec} (h : v.Like w) (m : Nat) (l : List (List Nat)) {D E : VPart} (hDE : D.Like E) (vo : Nat) (offs : List Nat) :
    Option.Rel (fun a b => a.1.Like b.1 ∧ a.2 = b.2) (SnVec.upInner v m l D vo offs) (SnVec.upInner w m l E vo offs) := by
  induction l generalizing D E vo offs with
  | nil => exact .some ⟨hDE, rfl⟩
  | cons z l ih =>
    unfold SnVec.upInner
    rw [like_index h]
    refine rel_bind_same _ fun ix => ?_
    refine rel_bind (rel_get h ix) fun P Q hPQ => ?_
    refine rel_bind_same _ fun o => ?_
    rw [hPQ.1]
    exact rel_bind (like_incLoop hDE _ _ _ _ fun i j => like_get hPQ _ _) fun A B hAB => ih hAB _ _

theorem like_upLoop {v w : SnVec} (h : v.Like w) (t : SnType) {R S : SnVec} (hRS : R.Like S) (offs : List Nat) :
    Option.Rel SnVec.Like (SnVec.upLoop v t R offs) (SnVec.upLoop w t S offs) := by
  induction t generalizing R S offs with
  | nil => exact .some hRS
  | cons p t ih =>
    unfold SnVec.upLoop
    rw [like_index hRS]
    refine rel_bind_same _ fun ix => ?_
    refine rel_bind (rel_get hRS ix) fun D E hDE => ?_
    refine rel_bind_same _ fun l => ?_
    rw [hDE.2.1]
    refine rel_bind (like_upInner h _ l hDE 0 offs) fun a b hab => ?_
    obtain ⟨D', o⟩ := a
    obtain ⟨E', o'⟩ := b
    obtain ⟨h1, rfl⟩ : D'.Like E' ∧ o = o' := hab
    exact ih (rel_set hRS _ h1) _

theorem like_up (tau : SnType) {v w : SnVec} (h : v.Like w) : Option.Rel SnVec.Like (SnVec.up tau v) (SnVec.up tau w) := by
  unfold SnVec.up
  rw [List.Forall₂.length_eq h]
  exact rel_bind_same _ fun R => like_upLoop h tau (SnVec.Like.refl R) _

theorem like_catType {vs ws : List SnVec} (h : List.Forall₂ SnVec.Like vs ws) : SnVec.catType vs = SnVec.catType ws := by
  have key : Option.Rel Eq (SnVec.catType vs) (SnVec.catType ws) := by
    unfold SnVec.catType
    refine rel_foldlM h (fun v w hvw a b hab => ?_) rfl
    refine rel_foldlM hvw (fun P Q hPQ a b hab => ?_) hab
    rw [hab, hPQ.2.2, hPQ.2.1]
    exact rel_same _
  generalize SnVec.catType vs = a at key
  generalize SnVec.catType ws = b at key
  cases key with
  | some h => rw [h]
  | none => rfl

theorem like_cat {vs ws : List SnVec} (h : List.Forall₂ SnVec.Like vs ws) : Option.Rel SnVec.Like (SnVec.cat vs) (SnVec.cat ws) := by
  unfold SnVec.cat
  rw [like_catType h]
  refine rel_bind_same _ fun tau => rel_bind_same _ fun R => ?_
  refine rel_bind (r := fun a b : SnVec × List Nat => a.1.Like b.1 ∧ a.2 = b.2) ?_ fun a b hab => .some hab.1
  refine rel_foldlM h (fun v w hvw a b hab => ?_) ⟨SnVec.Like.refl R, rfl⟩
  refine rel_foldlM hvw (fun P Q hPQ a b hab => ?_) hab
  unfold SnVec.catStep
  rw [like_index hab.1, hab.2, hPQ.2.2]
  refine rel_bind_same _ fun ix => ?_
  refine rel_bind (rel_get hab.1 ix) fun A B hAB => ?_
  refine rel_bind_same _ fun o => ?_
  refine rel_bind (r := VPart.Like) ?_ fun C D hCD => .some ⟨rel_set hab.1 _ hCD, by rw [hPQ.2.1]⟩
  unfold VPart.addToBlock
  rw [hPQ.1, hPQ.2.1]
  exact like_incLoop hAB _ _ _ _ fun i j => like_get hPQ i j

theorem like_addLoop {v v' : SnVec} (hv : v.Like v') {w w' : SnVec} (hw : w.Like w') :
    Option.Rel SnVec.Like (SnVec.addLoop v w) (SnVec.addLoop v' w') := by
  induction hv generalizing w w' with
  | nil => cases hw <;> exact .some .nil
  | cons h _ ih =>
    cases hw with
    | nil => exact .some .nil
    | cons h' hw =>
      unfold SnVec.addLoop
      exact rel_bind (r := VPart.Like) (rel_if (by rw [h.1, h.2.1, h'.1, h'.2.1]) h) fun A B hAB =>
        rel_bind (ih hw) fun u u' hu => .some (.cons hAB hu)

theorem like_add {v v' : SnVec} (hv : v.Like v') {w w' : SnVec} (hw : w.Like w') : Option.Rel SnVec.Like (v.add w) (v'.add w') := by
  unfold SnVec.add
  rw [List.Forall₂.length_eq hv, List.Forall₂.length_eq hw]
  split
  · exact like_addLoop hv hw
  · exact .none

section
variable (F G : Rounding) (ord ord' : Nat → SumTree)

theorem like_mulVec {W W' : Weights} (hW : W.Like W') {v w : SnVec} (h : v.Like w) :
    Option.Rel SnVec.Like (F.mulVec ord W v) (G.mulVec ord' W' w) := by
  unfold Rounding.mulVec
  refine rel_mapM h fun P Q hPQ => ?_
  rw [hPQ.2.2]
  refine rel_bind (hW Q.irrep.lambda) fun M M' hM => ?_
  rcases M with ⟨a, c, f⟩ | ⟨k, f⟩ <;> rcases M' with ⟨a', c', f'⟩ | ⟨k', f'⟩
  · obtain ⟨rfl, rfl⟩ : a = a' ∧ c = c' := hM
    exact rel_if (by rw [hPQ.2.1]) ⟨hPQ.1, rfl, hPQ.2.2⟩
  · exact hM.elim
  · exact hM.elim
  · exact .none

theorem like_addVec {v v' : SnVec} (hv : v.Like v') {w w' : SnVec} (hw : w.Like w') :
    Option.Rel SnVec.Like (F.addVec v w) (G.addVec v' w') := by
  unfold Rounding.addVec
  refine rel_bind (like_add hv hw) fun u u' hu => .some ?_
  induction hu with
  | nil => exact .nil
  | cons h _ ih => exact .cons h ih

theorem like_lexec {c c' : LStmt} (hc : c.Like c') {s t : List SnVec} (h : List.Forall₂ SnVec.Like s t) :
    Option.Rel (List.Forall₂ SnVec.Like) (F.lexec ord c s) (G.lexec ord' c' t) := by
  rcases c with ((⟨W, i⟩ | ⟨i, is⟩ | ⟨i, j⟩) | ⟨i, j⟩) | i | ⟨tau, i⟩
  · obtain ⟨W', rfl, hW⟩ := hc
    exact rel_bind (rel_get h i) fun v w hvw => rel_bind (like_mulVec F G ord ord' hW hvw) fun a b hab => .some (rel_append h (.cons hab .nil))
  · obtain rfl := hc
    exact rel_bind (rel_mapM (forall₂_same (i :: is)) fun k k' hk => hk ▸ rel_get h k) fun vs ws hvs =>
      rel_bind (like_cat hvs) fun a b hab => .some (rel_append h (.cons hab .nil))
  · obtain rfl := hc
    exact rel_bind (rel_get h i) fun v w hvw => rel_bind (rel_get h j) fun v' w' hvw' =>
      rel_bind (like_addVec F G hvw hvw') fun a b hab => .some (rel_set h _ hab)
  · obtain rfl := hc
    exact .none
  · obtain rfl := hc
    exact rel_bind (rel_get h i) fun v w hvw => rel_bind (rel_mapM hvw fun P Q hPQ => like_downB hPQ) fun vs ws hvs =>
      rel_bind (like_cat hvs) fun a b hab => .some (rel_append h (.cons hab .nil))
  · obtain rfl := hc
    exact rel_bind (rel_get h i) fun v w hvw => rel_bind (like_up tau hvw) fun a b hab => .some (rel_append h (.cons hab .nil))

end

section
variable (F G : Rounding) {K : Type} [DecidableEq K] (R : IrrepObj) (cols : List K)

theorem rel_applyTau (tau : Int) (A B : Nat → K → ℝ) : Option.Rel (fun _ _ => True) (F.applyTau R cols tau A) (G.applyTau R cols tau B) := by
  have key : ∀ is (st st' : (Nat → K → ℝ) × List Bool), st.2 = st'.2 →
      Option.Rel (fun a b => a.2 = b.2) (F.tauLoop R cols tau is st) (G.tauLoop R cols tau is st') := by
    intro is
    induction is with
    | nil => intro st st' h; exact .some h
    | cons i is ih =>
      intro st st' h
      refine rel_bind ?_ fun a b hab => ih a b hab
      unfold Rounding.tauBody
      rw [h]
      rcases st'.2[i]? with _ | _ | _
      · exact .none
      · dsimp only
        rcases R.slot tau i with _ | s
        · exact .none
        · dsimp only
          split
          · exact .some rfl
          · exact rel_if Iff.rfl rfl
      · exact .some h
  exact rel_map (key _ _ _ rfl) fun _ _ _ => trivial

theorem rel_applyCycle (a b : Int) (A B : Nat → K → ℝ) : Option.Rel (fun _ _ => True) (F.applyCycle R cols a b A) (G.applyCycle R cols a b B) := by
  unfold Rounding.applyCycle
  split
  · exact rel_iterDown (fun i x y _ => rel_applyTau F G R cols i x y) _ _ _ _ trivial
  · exact rel_iterUp (fun i x y _ => rel_applyTau F G R cols i x y) _ _ _ _ trivial

theorem rel_applyCycleInv (a b : Int) (A B : Nat → K → ℝ) :
    Option.Rel (fun _ _ => True) (F.applyCycleInv R cols a b A) (G.applyCycleInv R cols a b B) :=
  rel_iterUp (fun i x y _ => rel_applyTau F G R cols i x y) _ _ _ _ trivial

theorem rel_applyTransposition (a b : Int) (A B : Nat → K → ℝ) :
    Option.Rel (fun _ _ => True) (F.applyTransposition R cols a b A) (G.applyTransposition R cols a b B) :=
  rel_bind (rel_iterDown (r := fun _ _ => True) (fun i x y _ => rel_applyTau F G R cols i x y) _ _ _ _ trivial) fun x y _ =>
    rel_iterUp (fun i x y _ => rel_applyTau F G R cols i x y) _ _ _ _ trivial

theorem rel_applySigma (sigma : Arr) (A B : Nat → K → ℝ) : Option.Rel (fun _ _ => True) (F.applySigma R cols sigma A) (G.applySigma R cols sigma B) := by
  unfold Rounding.applySigma
  split
  · refine rel_bind_same _ fun s => ?_
    refine rel_iterUp (fun i x y _ => ?_) _ _ _ _ trivial
    exact rel_bind_same _ fun b => rel_iterDown (fun i x y _ => rel_applyTau F G R cols i x y) _ _ _ _ trivial
  · exact .none

end

end Snob
