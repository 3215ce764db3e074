import Verif.Pauli

/-!
# Specification: the letters a character stands for
-/

namespace Spec

open Blueqat (PLetter)

/-- The Pauli letter of a character, in either case: `none` for a character that is none of X, Y, Z, I;
`some none` for the identity. -/
def charLetter : Char → Option (Option PLetter)
  | 'X' | 'x' => some (some .X)
  | 'Y' | 'y' => some (some .Y)
  | 'Z' | 'z' => some (some .Z)
  | 'I' | 'i' => some none
  | _ => none

end Spec
