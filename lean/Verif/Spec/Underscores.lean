import Verif.Model.Ast

namespace Hongdown.Spec
open Model

/-- Text, soft breaks and hard line breaks. -/
def textOrBreak : Node → Bool
  | .mk (.text _) _ _ => true
  | .mk .softBreak _ _ => true
  | .mk .lineBreak _ _ => true
  | _ => false

end Hongdown.Spec
