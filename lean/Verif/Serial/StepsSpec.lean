import Verif.Serial.Steps

/-!
# Which pipelines survive dumping and loading
-/

namespace Verif
namespace Serial

/-- the settings of a generator that are dumped and that its constructor does not replace -/
def KeptAttrs (c : GenClass) (a : GenAttrs) : Prop :=
  match c with
  | .pairsWithEdges k => k = .int 100
  | .pairsWithNeighbours => a.chunked ≠ .none ∧ a.shuffle ≠ .none
  | _ => a.chunked ≠ .none

/-- generators that come back as they were: no lost chunk size, no setting that is `None` where the class has another default,
and a nested generator only inside a random sample (which must have one) -/
inductive GenKept : Gen → Prop
  | leaf {c a} : c ≠ .randomSample → KeptAttrs c a → GenKept (.leaf c a)
  | nest {a g} : KeptAttrs .randomSample a → GenKept g → GenKept (.nest .randomSample a g)
  | raw {c a d} : c ≠ .randomSample → KeptAttrs c a → GenKept (.raw c a d)  -- holds a dictionary before and after

/-- python truth value of a field of a step -/
def SVal.true' : SVal → Prop
  | .val v => v.truthy = true
  | .gen _ => True

/-- a field that comes back as it was: a truthy constructor parameter (a generator must itself survive), or the class default;
and not a member of an enumeration -/
def FieldKept (field : String) (default v : SVal) : Prop :=
  (∀ s, v ≠ .val (.enum s)) ∧
  ((field ∈ stepParams ∧ v.true' ∧ ∀ g, v = .gen g → GenKept g) ∨ ((field ∉ stepParams ∨ ¬ v.true') ∧ v = default))

/-- the values of a step object: one for every field of its class, in order -/
def HasFields (c : StepClass) (values : List (String × SVal)) : Prop :=
  values.map Prod.fst = c.map Prod.fst ∧ (c.map Prod.fst).Nodup

/-- step objects of known classes -/
inductive WellFormed (env : String → Option StepClass) : Step → Prop
  | simple {cls c values} : env cls = some c → HasFields c values → WellFormed env (.simple cls values)
  | logic {cls steps exit display} : (∀ s ∈ steps, WellFormed env s) → WellFormed env (.logic cls steps exit display)

/-- steps that come back as they were -/
inductive StepKept (env : String → Option StepClass) : Step → Prop
  | simple {cls c values} : env cls = some c → List.Forall₂ (fun p q => FieldKept p.1 p.2 q.2) c values →
      StepKept env (.simple cls values)
  | logic {cls steps exit display} : (∀ s ∈ steps, StepKept env s) → (display = .none ∨ display.truthy = true) →
      StepKept env (.logic cls steps exit display)

end Serial
end Verif
