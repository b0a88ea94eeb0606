/-!
# Specification: options on a command line

Independent of the model.
-/

namespace Utreexo
namespace Spec

/-- The name of an argument: what is before its first `=`. -/
def nameOf (a : List Char) : List Char := a.takeWhile (· != '=')

/-- The text of an argument: what is after its first `=`. -/
def textOf (a : List Char) : List Char := (a.dropWhile (· != '=')).drop 1

/-- The text of the last argument with the given name. -/
def lastText (args : List (List Char)) (name : List Char) : Option (List Char) :=
  (args.reverse.find? fun a => nameOf a == name).map textOf

/-- The number written with decimal digits. -/
def decimalValue (ds : List Char) : Nat := ds.foldl (fun n c => 10 * n + (c.toNat - 48)) 0

/-- The text begins with the number `z`, after some white space and perhaps a sign. -/
def BeginsWith (v : List Char) (z : Int) : Prop :=
  ∃ ws sign ds rest, v = ws ++ sign ++ ds ++ rest ∧ (∀ c ∈ ws, c ∈ [' ', '\t', '\n', '\x0b', '\x0c', '\r']) ∧
    (sign = [] ∨ sign = ['+'] ∨ sign = ['-']) ∧ ds ≠ [] ∧ (∀ c ∈ ds, c.isDigit = true) ∧
    (∀ c, rest.head? = some c → c.isDigit = false) ∧ z = if sign = ['-'] then - (decimalValue ds : Int) else decimalValue ds

/-- The decimal digits of a number. -/
def decimal (n : Nat) : List Char :=
  if n < 10 then [Char.ofNat (48 + n)] else decimal (n / 10) ++ [Char.ofNat (48 + n % 10)]

/-- An integer as text. -/
def integerText (z : Int) : List Char := if z < 0 then '-' :: decimal z.natAbs else decimal z.natAbs

/-- A number in positional notation: the digits before and after the point, and whether it is negative. It is
`decimalValue (whole ++ part)` divided by 10 to the number of digits in `part`. -/
structure Numeral where
  sign : List Char
  whole : List Char
  part : List Char

/-- The sign is empty, `+` or `-`, there is a digit before the point, and all digits are digits. -/
def Numeral.Good (x : Numeral) : Prop :=
  (x.sign = [] ∨ x.sign = ['+'] ∨ x.sign = ['-']) ∧ x.whole ≠ [] ∧ (∀ c ∈ x.whole, c.isDigit = true) ∧ ∀ c ∈ x.part, c.isDigit = true

/-- The numeral as text; the point is written only if there are digits after it. -/
def Numeral.text (x : Numeral) : List Char := x.sign ++ x.whole ++ (if x.part = [] then [] else '.' :: x.part)

/-- All digits as one number, with the sign. -/
def Numeral.digits (x : Numeral) : Int :=
  if x.sign = ['-'] then -(decimalValue (x.whole ++ x.part) : Int) else decimalValue (x.whole ++ x.part)

/-- The texts with a comma between each two of them. -/
def commaList : List (List Char) → List Char
  | [] => []
  | [t] => t
  | t :: ts => t ++ ',' :: commaList ts

end Spec
end Utreexo
