import Verif.Spec.LineEnd

/-!
# Case folding and white space
-/

namespace Hongdown.Spec
open Model

/-- Folding leaves white space alone, makes none and loses no character, as that of Unicode does. -/
structure FoldsSpace (f : Char → List Char) : Prop where
  keeps : ∀ c, isWs c = true → f c = [c]
  some : ∀ c, f c ≠ []
  visible : ∀ c, isWs c = false → ∀ d ∈ f c, isWs d = false

end Hongdown.Spec
