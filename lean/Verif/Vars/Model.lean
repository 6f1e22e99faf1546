import Verif.Basic.Py

/-!
# Variables (causy/variables.py)

Values are strings, integers, floats and booleans.  Floats are rationals: every finite float is one; infinities and NaN are
left out.  A missing `variables` list (`None`) is the empty list.
-/

namespace Verif
namespace Vars

/-- `VariableType = Union[str, int, float, bool]` (variables.py:11) -/
inductive Val
  | str (s : String)
  | int (i : Int)
  | float (q : Rat)
  | bool (b : Bool)
  deriving DecidableEq, Repr

/-- the number a value is for python's `==`; strings are none -/
def Val.number : Val → Option Rat
  | .str _ => none
  | .int i => some i
  | .float q => some q
  | .bool b => some (if b then 1 else 0)

/-- python's `==`: numbers of different types are compared by value, `1 == 1.0 == True` -/
def pyEq : Val → Val → Bool
  | .str s, .str t => s == t
  | .str _, _ => false
  | _, .str _ => false
  | a, b => a.number == b.number

/-- `VariableTypes` (variables.py:14-18) -/
inductive VarType
  | string
  | integer
  | float
  | bool
  deriving DecidableEq, Repr

/-- `isinstance(value, _PYTHON_TYPE)` (variables.py:46); in python a `bool` is an `int` -/
def isInstance : Val → VarType → Bool
  | .str _, .string => true
  | .int _, .integer => true
  | .bool _, .integer => true
  | .float _, .float => true
  | .bool _, .bool => true
  | _, _ => false

/-- a declared variable (variables.py:21-124) -/
structure Variable where
  name : String
  type : VarType
  value : Val
  choices : Option (List Val)
  deriving DecidableEq, Repr

/-- `BaseVariable.validate_value` (variables.py:45-55) -/
def baseValidate (x : Variable) (v : Val) : Except PyErr Unit :=
  if isInstance v x.type = false then .error .valueError
  else
    match x.choices with
    | none => .ok ()
    | some [] => .ok ()
    | some cs => if cs.any (fun c => pyEq v c) then .ok () else .error .valueError

/-- `validate_value`, with the override of `IntegerVariable` (variables.py:90-98) -/
def validateValue (x : Variable) (v : Val) : Except PyErr Unit :=
  match x.type, v with
  | .integer, .bool _ => .error .valueError
  | _, _ => baseValidate x v

/-- `{avar.name: avar for avar in algorithm.variables}` (variables.py:161) -/
def byName (declared : List Variable) : Dict String Variable :=
  declared.foldl (fun d x => d.set x.name x) Dict.empty

/-- the loop of `validate_variable_values` (variables.py:163-168) -/
def validateItems (names : Dict String Variable) : List (String × Val) → Except PyErr Bool
  | [] => .ok true
  | (n, v) :: l =>
    match names.get? n with
    | none => .error .valueError
    | some x =>
      match validateValue x v with
      | .error e => .error e
      | .ok () => validateItems names l

/-- `validate_variable_values` (variables.py:154-170) -/
def validateVariableValues (declared : List Variable) (values : Dict String Val) : Except PyErr Bool :=
  validateItems (byName declared) values.items

/-- `resolve_variables` (variables.py:173-189) -/
def resolveVariables (declared : List Variable) (values : Dict String Val) : Dict String Val :=
  declared.foldl (fun d x =>
    match values.get? x.name with
    | some v => d.set x.name v
    | none => d.set x.name x.value) Dict.empty

/-! ### Objects with references -/

/-- A python value as `resolve_variable_to_object` sees it: a plain value, `None`, a `VariableReference`, something it never
looks into (an enum member, a dictionary, a tensor), a list, or an instance with its `__dict__`. -/
inductive Obj
  | val (v : Val)
  | null
  | ref (name : String)
  | other (tag : Nat)
  | list (items : List Obj)
  | inst (cls : String) (attrs : List (String × Obj))

/-- `hasattr(value, "value")` for an instance (variables.py:208) -/
def hasValue (attrs : List (String × Obj)) : Bool := (assoc "value" attrs).isSome

mutual
/-- the treatment of one attribute value in `resolve_variable_to_object` (variables.py:200-211) -/
def resolveValue (vars : Dict String Val) : Obj → Except PyErr Obj
  | .ref n =>
    match vars.get? n with
    | some v => .ok (.val v)
    | none => .error .valueError
  | .inst c attrs =>
    if hasValue attrs then .ok (.inst c attrs)
    else
      match resolveAttrs vars attrs with
      | .ok attrs' => .ok (.inst c attrs')
      | .error e => .error e
  | .val v => .ok (.val v)
  | .null => .ok .null
  | .other t => .ok (.other t)
  | .list items => .ok (.list items)

/-- the loop over `obj.__dict__.items()` (variables.py:199) -/
def resolveAttrs (vars : Dict String Val) : List (String × Obj) → Except PyErr (List (String × Obj))
  | [] => .ok []
  | p :: rest =>
    match resolveAttr vars p with
    | .error e => .error e
    | .ok p' =>
      match resolveAttrs vars rest with
      | .error e => .error e
      | .ok rest' => .ok (p' :: rest')

/-- one item of the loop -/
def resolveAttr (vars : Dict String Val) : String × Obj → Except PyErr (String × Obj)
  | (a, x) =>
    match resolveValue vars x with
    | .error e => .error e
    | .ok x' => .ok (a, x')
end

mutual
/-- one round of `resolve_variables_to_algorithm_for_pipeline_steps` (variables.py:222-230).  The attribute `pipeline_steps` is
read from the object before its attributes are resolved: resolving leaves lists alone.  Anything but a list there is a
`TypeError` (a reference to a string variable, which python would iterate, is not told apart). -/
def resolveStep (vars : Dict String Val) : Obj → Except PyErr Obj
  | .inst c attrs =>
    match resolveAttrs vars attrs with
    | .error e => .error e
    | .ok attrs' =>
      match nestedSteps vars attrs with
      | .error e => .error e
      | .ok none => .ok (.inst c attrs')
      | .ok (some items) => .ok (.inst c (assocSet "pipeline_steps" (.list items) attrs'))
  | _ => .error .attributeError

/-- `hasattr(pipeline_step, "pipeline_steps")` and the recursive call (variables.py:225-230) -/
def nestedSteps (vars : Dict String Val) : List (String × Obj) → Except PyErr (Option (List Obj))
  | [] => .ok none
  | p :: rest =>
    if p.1 = "pipeline_steps" then nestedAttr vars p else nestedSteps vars rest

/-- the recursive call on the list found -/
def nestedAttr (vars : Dict String Val) : String × Obj → Except PyErr (Option (List Obj))
  | (_, x) => nestedOf vars x

/-- the recursive call on the list found -/
def nestedOf (vars : Dict String Val) : Obj → Except PyErr (Option (List Obj))
  | .list items =>
    match resolveSteps vars items with
    | .error e => .error e
    | .ok items' => .ok (some items')
  | _ => .error .typeError

/-- `resolve_variables_to_algorithm_for_pipeline_steps` (variables.py:215-232) -/
def resolveSteps (vars : Dict String Val) : List Obj → Except PyErr (List Obj)
  | [] => .ok []
  | s :: rest =>
    match resolveStep vars s with
    | .error e => .error e
    | .ok s' =>
      match resolveSteps vars rest with
      | .error e => .error e
      | .ok rest' => .ok (s' :: rest')
end

/-- an algorithm, as far as variables are concerned (models.py:77-86) -/
structure Algorithm where
  declared : List Variable
  steps : List Obj

/-- the variable part of `graph_model_factory` (graph_model.py:529-547): the pipeline steps of the model -/
def factorySteps (a : Algorithm) (given : Option (Dict String Val)) : Except PyErr (List Obj) :=
  let vars := match given with
    | none => resolveVariables a.declared Dict.empty
    | some d => d
  if vars.items.length > 0 then resolveSteps vars a.steps else .ok a.steps

/-- the variable part of `_execute_experiment` (workspaces/cli.py:269-283): the steps that are run and the variables that are
stored in the result.  The model factory gets the experiment's own variables, not the resolved ones. -/
def executeSteps (a : Algorithm) (experiment : Dict String Val) : Except PyErr (List Obj × Dict String Val) :=
  match validateVariableValues a.declared experiment with
  | .error e => .error e
  | .ok _ =>
    let resolved := resolveVariables a.declared experiment
    match factorySteps a (some experiment) with
    | .error e => .error e
    | .ok steps => .ok (steps, resolved)

end Vars
end Verif
