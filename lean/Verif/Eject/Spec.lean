import Verif.Eject.Model
import Verif.Serial.StepsSpec

/-!
# Notions used in the statements about ejected algorithms
-/

namespace Verif
namespace Serial
namespace Eject

/-- the step, or a step inside it, is an object of this class -/
inductive HasClass (cls : String) : Step → Prop
  | here (values) : HasClass cls (.simple cls values)
  | inside (c steps exit display s) (hs : s ∈ steps) (h : HasClass cls s) : HasClass cls (.logic c steps exit display)

/-- a class with a field whose default is a member of an enumeration and which the constructor does not set -/
def EnumDefault (classes : String → Option StepClass) (cls : String) : Prop :=
  ∃ c f s, classes cls = some c ∧ (f, SVal.val (.enum s)) ∈ c ∧ f ∉ stepParams

/-- the attributes of a generator -/
def attrVals (a : GenAttrs) : List PVal :=
  (match a.settings with | none => [] | some (lo, hi) => [lo, hi]) ++ [a.chunked, a.everyNth, a.shuffle]

/-- the own field of a generator -/
def classVals : GenClass → List PVal
  | .pairsWithEdges k => [k]
  | _ => []

/-- a value is held by a generator or by the generator inside it -/
inductive GenHolds (v : PVal) : Gen → Prop
  | leafClass (c a) (h : v ∈ classVals c) : GenHolds v (.leaf c a)
  | leaf (c a) (h : v ∈ attrVals a) : GenHolds v (.leaf c a)
  | nestClass (c a g) (h : v ∈ classVals c) : GenHolds v (.nest c a g)
  | nest (c a g) (h : v ∈ attrVals a) : GenHolds v (.nest c a g)
  | inner (c a g) (h : GenHolds v g) : GenHolds v (.nest c a g)
  | rawClass (c a d) (h : v ∈ classVals c) : GenHolds v (.raw c a d)
  | raw (c a d) (h : v ∈ attrVals a) : GenHolds v (.raw c a d)

/-- a value is held by a step, by its generator, or by a step inside it -/
inductive StepHolds (v : PVal) : Step → Prop
  | field (cls values f) (h : (f, SVal.val v) ∈ values) : StepHolds v (.simple cls values)
  | gen (cls values f g) (h : (f, SVal.gen g) ∈ values) (hg : GenHolds v g) : StepHolds v (.simple cls values)
  | display (cls steps exit) : StepHolds v (.logic cls steps exit v)
  | inside (cls steps exit display s) (hs : s ∈ steps) (h : StepHolds v s) : StepHolds v (.logic cls steps exit display)

/-- the values of variables are values, not references -/
def PlainValues (vars : List (String × PVal)) : Prop := ∀ p ∈ vars, ∀ n, p.2 ≠ .ref n

/-- every variable the steps refer to is declared -/
def Declared (vars : List (String × PVal)) (steps : List Step) : Prop :=
  ∀ n, (∃ s ∈ steps, StepHolds (.ref n) s) → n ∈ vars.map Prod.fst

/-- steps of known classes that come back from a file as they were (C57) -/
def Survives (classes : String → Option StepClass) (steps : List Step) : Prop :=
  ∀ s ∈ steps, WellFormed classes s ∧ StepKept classes s

/-- the same outcome, except for what the result says about where the model came from -/
inductive SameOutcome {ι δ : Type} : Except PyErr (Cli.Report ι δ) → Except PyErr (Cli.Report ι δ) → Prop
  | error (e) : SameOutcome (.error e) (.error e)
  | ok (r r') (h1 : r'.printed = r.printed) (h2 : r'.nodes = r.nodes) (h3 : r'.edges = r.edges)
      (h4 : r'.history = r.history) (h5 : r'.saved = r.saved) : SameOutcome (.ok r) (.ok r')

end Eject
end Serial
end Verif
