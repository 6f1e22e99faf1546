import Mathlib.Data.Nat.Digits.Defs
import Mathlib.Data.List.Sort
import Verif.Basic.Py

/-!
# Text operations used by the workspace commands

Texts are lists of characters.  `int(text)` is modelled for ASCII text: other digits and blanks of Unicode are left out.
-/

namespace Verif
namespace Workspace

/-- a digit printed -/
def digitChar (d : Nat) : Char := Char.ofNat (48 + d)

/-- a natural number printed -/
def showNat (n : Nat) : List Char := if n = 0 then ['0'] else (Nat.digits 10 n).reverse.map digitChar

/-- `f"{n}"` for an integer -/
def showInt : Int → List Char
  | .ofNat n => showNat n
  | .negSucc n => '-' :: showNat (n + 1)

/-- the value of a digit -/
def digitVal (c : Char) : Option Nat := if 48 ≤ c.toNat ∧ c.toNat ≤ 57 then some (c.toNat - 48) else none

/-- digits with single underscores between them; `prev` tells whether the last character was a digit -/
def parseDigits : Nat → Bool → List Char → Option Nat
  | acc, prev, [] => if prev then some acc else none
  | acc, prev, c :: s =>
    if c = '_' then (if prev then parseDigits acc false s else none)
    else match digitVal c with
      | none => none
      | some d => parseDigits (10 * acc + d) true s

/-- a blank -/
def isBlank (c : Char) : Bool := c = ' ' || (9 ≤ c.toNat && c.toNat ≤ 13)

/-- a text without blanks at both ends -/
def strip (s : List Char) : List Char := ((s.dropWhile isBlank).reverse.dropWhile isBlank).reverse

/-- an integer with an optional sign -/
def parseSigned : List Char → Option Int
  | '-' :: s => (parseDigits 0 false s).map (fun n => - (n : Int))
  | '+' :: s => (parseDigits 0 false s).map (fun n => (n : Int))
  | s => (parseDigits 0 false s).map (fun n => (n : Int))

/-- `int(text)`; `none` is a `ValueError` -/
def pyInt (s : List Char) : Option Int := parseSigned (strip s)

/-- `text.split(sep)` for one separating character -/
def splitAtChar (sep : Char) : List Char → List (List Char)
  | [] => [[]]
  | c :: s =>
    if c = sep then [] :: splitAtChar sep s
    else match splitAtChar sep s with
      | [] => [[c]]
      | x :: l => (c :: x) :: l

/-- `sep.join(parts)` for one separating character -/
def joinWith (sep : Char) : List (List Char) → List Char
  | [] => []
  | [x] => x
  | x :: y :: l => x ++ sep :: joinWith sep (y :: l)

/-- `text.startswith(p)` -/
def startsWith (p s : List Char) : Bool := p.isPrefixOf s

/-- `text.endswith(p)` -/
def endsWith (p s : List Char) : Bool := p.isSuffixOf s

end Workspace
end Verif
