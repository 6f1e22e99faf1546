import Verif.Basic.Py

/-!
# Model of the path checks of file references (causy/serialization.py:51-60, causy/ui/server.py:124-140)

An absolute path is the list of its components; `pathText` is the string that python handles.  The working directory that
`os.getcwd()` returns and the result of `os.path.realpath` are of this form.  Opening and parsing the file is not modelled:
the check ends with the path that would be opened.
-/

namespace Verif
namespace Serial

/-- an absolute path as a string -/
def pathText : List (List Char) → List Char
  | [] => ['/']
  | c :: l => (c :: l).flatMap (fun x => '/' :: x)

/-- `os.path.commonprefix` of two strings, compared character by character (CPython `genericpath.py`) -/
def commonPrefix : List Char → List Char → List Char
  | c :: s, d :: t => if c = d then c :: commonPrefix s t else []
  | _, _ => []

/-- serialization.py:53-61: the check of a file reference.  `real` is `os.path.realpath` in the working directory `cwd`. -/
def openedFile (real : List Char → List (List Char)) (cwd : List (List Char)) (reference : List Char) :
    Except PyErr (List (List Char)) :=
  if commonPrefix (pathText cwd) (pathText (real reference)) ≠ pathText cwd then .error .valueError
  else .ok (real reference)

/-- `s.split("/")` -/
def splitSlash : List Char → List (List Char)
  | [] => [[]]
  | c :: s =>
    if c = '/' then [] :: splitSlash s
    else match splitSlash s with
      | [] => [[c]]
      | x :: l => (c :: x) :: l

/-- one component of a path walked from the directory `d` (CPython `posixpath._joinrealpath`), no symbolic links -/
def walk (d : List (List Char)) (name : List Char) : List (List Char) :=
  if name = [] ∨ name = ['.'] then d
  else if name = ['.', '.'] then d.dropLast
  else d ++ [name]

/-- `os.path.realpath` in the working directory `cwd` of a file system without symbolic links -/
def resolve (cwd : List (List Char)) (reference : List Char) : List (List Char) :=
  (splitSlash reference).foldl walk (if reference.head? = some '/' then [] else cwd)

/-- `".." in reference` -/
def hasDotDot : List Char → Bool
  | '.' :: '.' :: _ => true
  | _ :: s => hasDotDot s
  | [] => false

/-- ui/server.py:124-140 for the reference type "file": `none` is a response with status 400 -/
def servedFile (real : List Char → List (List Char)) (cwd : List (List Char)) (reference : List Char) :
    Option (List (List Char)) :=
  if reference.head? = some '/' ∨ hasDotDot reference = true then none
  else match openedFile real cwd reference with
    | .ok p => some p
    | .error _ => none

end Serial
end Verif
