import Mathlib.Data.List.Basic

/-! # Printing tells objects apart -/

namespace Snob

/-- Different objects are printed differently. -/
def TellsApart {α : Type} (f : α → List Char) : Prop := ∀ a b, f a = f b → a = b

/-- Different objects are printed differently even if more text follows, and one sees where the object ends. -/
def SelfDelimiting {α : Type} (f : α → List Char) : Prop := ∀ a b x y, f a ++ x = f b ++ y → a = b ∧ x = y

end Snob
