import Verif.Str

/-!
# Places in a text
-/

namespace Hongdown.Spec

/-- The number of the line on which the text after `before` begins; lines count from 1. -/
def lineAfter (before : List Char) : Nat := 1 + before.count '\n'

/-- The number of bytes of `before` on that line. -/
def bytesAfter (before : List Char) : Nat := byteLen (before.reverse.takeWhile (· ≠ '\n')).reverse

end Hongdown.Spec
