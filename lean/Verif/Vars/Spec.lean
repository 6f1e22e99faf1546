import Verif.Vars.Model

/-!
# What variables are supposed to do
-/

namespace Verif
namespace Vars

/-- the declared type of a value, exactly -/
def typeOf : Val → VarType
  | .str _ => .string
  | .int _ => .integer
  | .float _ => .float
  | .bool _ => .bool

/-- two values are the same text or the same number -/
def SameValue (a b : Val) : Prop :=
  match a.number, b.number with
  | some q, some r => q = r
  | none, none => a = b
  | _, _ => False

/-- the value has the declared type and, if there is a non-empty list of choices, is one of them -/
def Allowed (x : Variable) (v : Val) : Prop :=
  typeOf v = x.type ∧ ∀ cs, x.choices = some cs → cs ≠ [] → ∃ c ∈ cs, SameValue v c

/-- `x` is the declaration in force for the name `n`: the last one with that name -/
def Declares (declared : List Variable) (n : String) (x : Variable) : Prop :=
  ∃ before after, declared = before ++ x :: after ∧ x.name = n ∧ ∀ y ∈ after, y.name ≠ n

/-- the step at a position: an index into the pipeline, then indices into the `pipeline_steps` of the steps above it -/
def stepAt (steps : List Obj) : List Nat → Option Obj
  | [] => none
  | i :: is =>
    match steps[i]? with
    | none => none
    | some s =>
      match is with
      | [] => some s
      | _ =>
        match s with
        | .inst _ attrs =>
          match assoc "pipeline_steps" attrs with
          | some (.list items) => stepAt items is
          | _ => none
        | _ => none

/-- the value found by following attribute names; enum members and variable declarations (things with a `value`) are not
entered -/
def follow (attrs : List (String × Obj)) : List String → Option Obj
  | [] => none
  | a :: p =>
    match assoc a attrs with
    | none => none
    | some x =>
      match p with
      | [] => some x
      | _ =>
        match x with
        | .inst _ attrs' => if hasValue attrs' then none else follow attrs' p
        | _ => none

/-- the value at a place of the pipeline: a step and a path of attributes (generators, comparison settings, exit conditions,
plain settings) -/
def valueAt (steps : List Obj) (is : List Nat) (p : List String) : Option Obj :=
  match stepAt steps is with
  | some (.inst _ attrs) => follow attrs p
  | _ => none

/-- what one place may turn into: a reference becomes the variable's value; an object keeps its class and its attributes'
names (their values are found further along the path); everything else stays exactly as it was -/
inductive Filled (vars : Dict String Val) : Obj → Obj → Prop
  | ref {n v} : vars.get? n = some v → Filled vars (.ref n) (.val v)
  | inst {c attrs attrs'} : hasValue attrs = false → attrs'.map Prod.fst = attrs.map Prod.fst →
      Filled vars (.inst c attrs) (.inst c attrs')
  | frozen {c attrs} : hasValue attrs = true → Filled vars (.inst c attrs) (.inst c attrs)
  | plain {x} : (∀ n, x ≠ .ref n) → (∀ c attrs, x ≠ .inst c attrs) → Filled vars x x

/-- the attributes of an object are a dictionary: their names are distinct in everything that can be reached -/
def DistinctAttrs (attrs : List (String × Obj)) : Prop :=
  (attrs.map Prod.fst).Nodup ∧ ∀ p c attrs', follow attrs p = some (.inst c attrs') → (attrs'.map Prod.fst).Nodup

/-- the pipeline is made of step objects all the way down: every `pipeline_steps` attribute is a list of step objects -/
def Regular (steps : List Obj) : Prop :=
  ∀ is s, stepAt steps is = some s → ∃ c attrs, s = .inst c attrs ∧ DistinctAttrs attrs ∧
    ∀ x, assoc "pipeline_steps" attrs = some x → ∃ items, x = .list items

/-- some place holds a reference to `n` -/
def Refers (steps : List Obj) (n : String) : Prop := ∃ is p, valueAt steps is p = some (.ref n)

end Vars
end Verif
