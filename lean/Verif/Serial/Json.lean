import Mathlib.Data.List.Sort
import Mathlib.Data.String.Basic
import Verif.Basic.Py

/-!
# The text that `hash_dictionary` hashes (causy/graph_utils.py:55-69)

`json.dumps(dct, ensure_ascii=False, sort_keys=True, indent=None, separators=(",", ":"))` for values made of `None`, booleans,
numbers, strings, lists and dictionaries with string keys.  A number is identified with its python representation.
The SHA-256 of the text is not modelled.
-/

namespace Verif
namespace Serial

/-- a JSON value; `num t` is a number printed as `t` -/
inductive Json
  | null
  | bool (b : Bool)
  | num (t : List Char)
  | str (s : String)
  | arr (l : List Json)
  | obj (l : List (String × Json))

/-- a hexadecimal digit -/
def hexDigit (n : Nat) : Char := "0123456789abcdef".toList.getD n '0'

/-- how one character of a string is printed (CPython, `json.encoder.ESCAPE_DCT`, with `ensure_ascii=False`) -/
def escape (c : Char) : List Char :=
  if c = '"' then ['\\', '"']
  else if c = '\\' then ['\\', '\\']
  else if c = '\n' then ['\\', 'n']
  else if c = '\r' then ['\\', 'r']
  else if c = '\t' then ['\\', 't']
  else if c = Char.ofNat 8 then ['\\', 'b']
  else if c = Char.ofNat 12 then ['\\', 'f']
  else if c.toNat < 32 then ['\\', 'u', '0', '0', hexDigit (c.toNat / 16), hexDigit (c.toNat % 16)]
  else [c]

/-- a printed string -/
def quote (s : String) : List Char := '"' :: s.toList.flatMap escape ++ ['"']

/-- `",".join(...)` -/
def commaJoin : List (List Char) → List Char
  | [] => []
  | [x] => x
  | x :: y :: l => x ++ ',' :: commaJoin (y :: l)

mutual
/-- `json.dumps` (graph_utils.py:62-68) -/
def dumps : Json → List Char
  | .null => "null".toList
  | .bool true => "true".toList
  | .bool false => "false".toList
  | .num t => t
  | .str s => quote s
  | .arr l => '[' :: commaJoin (dumpsList l) ++ [']']
  | .obj l =>
    '{' :: commaJoin (((dumpsItems l).insertionSort (fun a b => a.1 ≤ b.1)).map (fun p => quote p.1 ++ ':' :: p.2)) ++ ['}']

/-- the elements of a list -/
def dumpsList : List Json → List (List Char)
  | [] => []
  | x :: l => dumps x :: dumpsList l

/-- the items of a dictionary, before sorting -/
def dumpsItems : List (String × Json) → List (String × List Char)
  | [] => []
  | p :: l => dumpsItem p :: dumpsItems l

/-- one item -/
def dumpsItem : String × Json → String × List Char
  | (k, v) => (k, dumps v)
end

/-- `hash_dictionary` with the digest as a parameter -/
def hashDictionary {H : Type} (sha : List Char → H) (d : Json) : H := sha (dumps d)

end Serial
end Verif
