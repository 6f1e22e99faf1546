import Verif.Basic.Py

/-!
# Model of dumping and loading pipelines

causy/interfaces.py:297-400 (generators and steps), 457-510 (logic steps); causy/generators.py:57-76, 97-113, 189-215;
causy/graph_utils.py:19-41; causy/serialization.py:29-48; causy/graph_model.py:548-558.

Simplifications.  A `VariableReference` is dumped as a dictionary and turned back by pydantic or by
`deserialize_variable_references`; here it is one value (that part is `Verif/Serial/Heap.lean`).  Importing a class by its
dotted name is a lookup in an environment.  Exit conditions are their class: no exit condition in /repo has fields, and
fields of a custom one are not dumped.
-/

namespace Verif
namespace Serial

/-- a parameter value -/
inductive PVal
  | none
  | bool (b : Bool)
  | int (i : Int)
  | float (num : Int) (den : Nat)  -- the fraction in lowest terms
  | str (s : String)
  | ref (name : String)    -- a `VariableReference`
  | enum (s : String)      -- a member of an enumeration, e.g. `KEEP_FIRST` (orientation_rules/pc.py:65-75)
  deriving DecidableEq

/-- python truth value; a member of a `str` enumeration is a string -/
def PVal.truthy : PVal → Bool
  | .none => false
  | .bool b => b
  | .int i => i != 0
  | .float n _ => n != 0
  | .str s => s != ""
  | .ref _ => true
  | .enum s => s != ""

/-- the generator classes of generators.py; only `PairsWithEdgesInBetweenGenerator` has a field of its own -/
inductive GenClass
  | allCombinations
  | pairsWithEdges (chunkSize : PVal)
  | pairsWithNeighbours
  | randomSample
  deriving DecidableEq

/-- the name of the class -/
inductive GenTag
  | allCombinations | pairsWithEdges | pairsWithNeighbours | randomSample
  deriving DecidableEq

def GenClass.tag : GenClass → GenTag
  | .allCombinations => .allCombinations
  | .pairsWithEdges _ => .pairsWithEdges
  | .pairsWithNeighbours => .pairsWithNeighbours
  | .randomSample => .randomSample

/-- the fields declared in `GeneratorInterface` (interfaces.py:297-302) besides the nested generator -/
structure GenAttrs where
  settings : Option (PVal × PVal)
  chunked : PVal
  everyNth : PVal
  shuffle : PVal
  deriving DecidableEq

/-- a dumped generator: the attribute is declared as `GeneratorInterface`, so only its fields and the name are dumped -/
inductive GenDict
  | leaf (t : GenTag) (a : GenAttrs)
  | nest (t : GenTag) (a : GenAttrs) (inner : GenDict)
  deriving DecidableEq

/-- a generator object; `raw` has a dictionary where its nested generator should be -/
inductive Gen
  | leaf (c : GenClass) (a : GenAttrs)
  | nest (c : GenClass) (a : GenAttrs) (inner : Gen)
  | raw (c : GenClass) (a : GenAttrs) (inner : GenDict)
  deriving DecidableEq

/-- `model_dump` of a generator held by a step -/
def Gen.dump : Gen → GenDict
  | .leaf c a => .leaf c.tag a
  | .nest c a g => .nest c.tag a g.dump
  | .raw c a d => .nest c.tag a d

/-- `v if v is not None else default` -/
def PVal.orDefault (v d : PVal) : PVal := if v = .none then d else v

/-- the class with its own fields at their defaults (generators.py:63) -/
def GenTag.fresh : GenTag → GenClass
  | .allCombinations => .allCombinations
  | .pairsWithEdges => .pairsWithEdges (.int 100)
  | .pairsWithNeighbours => .pairsWithNeighbours
  | .randomSample => .randomSample

/-- class default of `chunked` (interfaces.py:299, generators.py:106); `PairsWithEdgesInBetweenGenerator` takes over `None`
(generators.py:74) -/
def GenTag.chunkedDefault : GenTag → PVal
  | .pairsWithEdges => .none
  | .pairsWithNeighbours => .bool true
  | .allCombinations => .bool false
  | .randomSample => .bool false

/-- class default of `shuffle_combinations` (interfaces.py:302, generators.py:105) -/
def GenTag.shuffleDefault : GenTag → PVal
  | .pairsWithNeighbours => .bool true
  | _ => .none

/-- the common fields after construction (interfaces.py:307-337, generators.py:66-76) -/
def initAttrs (t : GenTag) (a : GenAttrs) : GenAttrs :=
  { settings := a.settings
    chunked := a.chunked.orDefault t.chunkedDefault
    everyNth := a.everyNth
    shuffle := a.shuffle.orDefault t.shuffleDefault }

/-- `load_pipeline_artefact_by_definition` of a generator (graph_utils.py:19-31, generators.py:201-215): only
`RandomSampleGenerator` loads its nested generator, the other classes store the dictionary -/
def loadGen : GenDict → Except PyErr Gen
  | .leaf .randomSample _ => .error .valueError
  | .leaf t a => .ok (.leaf t.fresh (initAttrs t a))
  | .nest .randomSample a d =>
    match loadGen d with
    | .ok g => .ok (.nest .randomSample (initAttrs .randomSample a) g)
    | .error e => .error e
  | .nest t a d => .ok (.raw t.fresh (initAttrs t a) d)

/-- the value of a field of a step -/
inductive SVal
  | val (v : PVal)
  | gen (g : Gen)
  deriving DecidableEq

/-- a dumped value -/
inductive DVal
  | val (v : PVal)
  | gen (d : GenDict)
  deriving DecidableEq

def SVal.dump : SVal → DVal
  | .val v => .val v
  | .gen g => .gen g.dump

/-- a generator is dumped as a non-empty dictionary -/
def DVal.truthy : DVal → Bool
  | .val v => v.truthy
  | .gen _ => true

/-- the parameters of `PipelineStepInterface.__init__` (interfaces.py:361-370) -/
def stepParams : List String :=
  ["threshold", "generator", "chunk_size_parallel_processing", "apply_synchronous", "parallel", "display_name"]

/-- a step class: its fields and their defaults -/
abbrev StepClass := List (String × SVal)

/-- a pipeline step or logic step object (interfaces.py:343-400, 457-510) -/
inductive Step
  | simple (cls : String) (values : List (String × SVal))
  | logic (cls : String) (steps : List Step) (exit : Option String) (display : PVal)

/-- a dumped step -/
inductive StepDict
  | simple (cls : String) (values : List (String × DVal))
  | logic (cls : String) (steps : List StepDict) (exit : Option String) (display : PVal)

mutual
/-- `model_dump` of a step; the computed field `name` names the class -/
def Step.dump : Step → StepDict
  | .simple cls values => .simple cls (values.map (fun p => (p.1, p.2.dump)))
  | .logic cls steps exit display => .logic cls (dumpSteps steps) exit display

def dumpSteps : List Step → List StepDict
  | [] => []
  | s :: l => s.dump :: dumpSteps l
end

/-- one field after `PipelineStepInterface.__init__(**kwargs)` (interfaces.py:371-392): a parameter is taken over if it is
truthy; every other keyword argument is swallowed by `**kwargs` -/
def initField (kwargs : List (String × DVal)) (field : String) (default : SVal) : Except PyErr SVal :=
  if field ∈ stepParams then
    match assoc field kwargs with
    | some v =>
      if v.truthy then
        match v with
        | .val w => .ok (.val w)
        | .gen d => match loadGen d with
          | .ok g => .ok (.gen g)
          | .error e => .error e
      else .ok default
    | none => .ok default
  else .ok default

/-- all fields, in declaration order -/
def initFields (kwargs : List (String × DVal)) : StepClass → Except PyErr (List (String × SVal))
  | [] => .ok []
  | (f, d) :: l =>
    match initField kwargs f d with
    | .error e => .error e
    | .ok v => match initFields kwargs l with
      | .error e => .error e
      | .ok r => .ok ((f, v) :: r)

def SVal.isEnum : SVal → Bool
  | .val (.enum _) => true
  | _ => false

/-- `deserialize_variable_references` of a loaded step (variables.py:249-268): it descends into every attribute that has a
`__dict__`; from a member of an enumeration it gets to the class `str`, whose attributes cannot be set: `TypeError`
(`Verif/Serial/Heap.lean`) -/
def checkEnums (values : List (String × SVal)) : Except PyErr (List (String × SVal)) :=
  if values.any (fun p => p.2.isEnum) then .error .typeError else .ok values

mutual
/-- one turn of `load_pipeline_steps_by_definition` (graph_utils.py:34-41) -/
def loadStep (env : String → Option StepClass) : StepDict → Except PyErr Step
  | .simple cls kwargs =>
    match env cls with
    | none => .error .importError
    | some c => match initFields kwargs c with
      | .error e => .error e
      | .ok values => match checkEnums values with
        | .error e => .error e
        | .ok values => .ok (.simple cls values)
  | .logic cls steps exit display =>
    match loadSteps env steps with
    | .error e => .error e
    | .ok steps => .ok (.logic cls steps exit (if display.truthy then display else .none))

/-- `load_pipeline_steps_by_definition` (graph_utils.py:34-41) -/
def loadSteps (env : String → Option StepClass) : List StepDict → Except PyErr (List Step)
  | [] => .ok []
  | d :: l =>
    match loadStep env d with
    | .error e => .error e
    | .ok s => match loadSteps env l with
      | .error e => .error e
      | .ok r => .ok (s :: r)
end

/-- an entry of `Algorithm.edge_types`: an edge type object, or the dictionary it is dumped to -/
inductive ETypeEntry
  | object (name : String)
  | dict (name : String)
  deriving DecidableEq

/-- the parts of `Algorithm` (models.py:73-81) that matter here -/
structure AlgObj where
  name : String
  steps : List Step
  edgeTypes : List ETypeEntry

/-- `model_dump` of an algorithm -/
structure AlgDict where
  name : String
  steps : List StepDict
  edgeTypes : List String

def AlgObj.dump (a : AlgObj) : AlgDict :=
  ⟨a.name, dumpSteps a.steps, a.edgeTypes.map (fun e => match e with | .object n => n | .dict n => n)⟩

/-- `load_algorithm_from_specification` (serialization.py:29-48); the edge types have no declared class, so they stay
dictionaries (models.py:77).  Extensions and variables are left out. -/
def loadAlg (env : String → Option StepClass) (d : AlgDict) : Except PyErr AlgObj :=
  match loadSteps env d.steps with
  | .error e => .error e
  | .ok steps => .ok ⟨d.name, steps, d.edgeTypes.map .dict⟩

/-- the part of `graph_model_factory` that collects the access mixins (graph_model.py:548-553): a dictionary has no
`GraphAccessMixin` -/
def collectMixins : List ETypeEntry → Except PyErr (List String)
  | [] => .ok []
  | .dict _ :: _ => .error .attributeError
  | .object n :: l =>
    match collectMixins l with
    | .error e => .error e
    | .ok r => .ok (n :: r)

end Serial
end Verif
