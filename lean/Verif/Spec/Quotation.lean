import Verif.Spec.Typography

/-!
# Quotations that run over markup and line breaks
-/

namespace Hongdown.Spec

/-- Every straight quotation mark stands where a quotation can begin or where one can end, not both and
not neither. -/
def ClearQuotes (s : List Char) : Prop := ∀ a b, s = a ++ '"' :: b → (QuoteMayOpen a ↔ ¬ QuoteMayClose b)

/-- Curly quotation marks come in pairs, an opening one and a closing one. -/
def quotesPaired : Bool → List Char → Bool
  | inside, [] => !inside
  | inside, c :: cs =>
    if c = '“' then !inside && quotesPaired true cs
    else if c = '”' then inside && quotesPaired false cs
    else quotesPaired inside cs

end Hongdown.Spec
