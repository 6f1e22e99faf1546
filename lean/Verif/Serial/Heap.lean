import Verif.Basic.Py

/-!
# Model of `deserialize_variable_references` (causy/variables.py:249-268)

Python objects with a `__dict__` live in a heap and refer to each other.  The function descends into every attribute whose
value has a `__dict__` and assigns the same object again, so it also writes to objects that were never meant to be settings:
classes, enumeration members, functions.  `fuel` is python's recursion limit.
-/

namespace Verif
namespace Serial

/-- the value of an attribute -/
inductive Attr
  | plain                      -- no `__dict__`, and no dictionary with `"type": "reference"`
  | refDict (name : String)    -- `{"type": "reference", "name": name}`
  | reference (name : String)  -- a `VariableReference`; its own `__dict__` holds only a string
  | object (i : Nat)           -- any other object with a `__dict__`
  deriving DecidableEq

/-- an object with a `__dict__`; `locked` is the exception that `setattr` raises, if any; `steps` is the attribute
`pipeline_steps`, if it has one -/
structure HObj where
  attrs : List (String × Attr)
  locked : Option PyErr
  steps : Option (List Nat)
  deriving DecidableEq

abbrev Heap := Nat → HObj

/-- `setattr(element, attribute, value)` -/
def setAttr (h : Heap) (i : Nat) (a : String) (v : Attr) : Except PyErr Heap :=
  match (h i).locked with
  | some e => .error e
  | none => .ok (fun j => if j = i then { h i with attrs := assocSet a v (h i).attrs } else h j)

/-- the loop over the attributes (variables.py:255-260); `visit` is the recursive call.  The attributes are those at the
start of the loop: the keys do not change, and the values change only to what is written here. -/
def visitAttrs (visit : Heap → Nat → Except PyErr Heap) (i : Nat) : List (String × Attr) → Heap → Except PyErr Heap
  | [], h => .ok h
  | (_, .plain) :: l, h => visitAttrs visit i l h
  | (a, .refDict n) :: l, h =>
    match setAttr h i a (.reference n) with
    | .error e => .error e
    | .ok h => visitAttrs visit i l h
  | (a, .reference n) :: l, h =>
    match setAttr h i a (.reference n) with
    | .error e => .error e
    | .ok h => visitAttrs visit i l h
  | (a, .object j) :: l, h =>
    match visit h j with
    | .error e => .error e
    | .ok h => match setAttr h i a (.object j) with
      | .error e => .error e
      | .ok h => visitAttrs visit i l h

/-- the list comprehension over `pipeline_steps` (variables.py:263-266) -/
def visitSteps (visit : Heap → Nat → Except PyErr Heap) : List Nat → Heap → Except PyErr Heap
  | [], h => .ok h
  | j :: l, h =>
    match visit h j with
    | .error e => .error e
    | .ok h => visitSteps visit l h

/-- `deserialize_variable_references` (variables.py:249-268) -/
def visit : Nat → Heap → Nat → Except PyErr Heap
  | 0, _, _ => .error .recursionError
  | fuel + 1, h, i =>
    match visitAttrs (visit fuel) i (h i).attrs h with
    | .error e => .error e
    | .ok g => match (h i).steps with
      | none => .ok g
      | some js => match visitSteps (visit fuel) js g with
        | .error e => .error e
        | .ok g => match (g i).locked with
          | some e => .error e
          | none => .ok g

end Serial
end Verif
