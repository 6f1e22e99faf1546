import Verif.Serial.Heap
import Mathlib.Logic.Relation

/-!
# Objects reachable from a step
-/

namespace Verif
namespace Serial

/-- the object `i` holds the object `j`, as an attribute or in its `pipeline_steps` -/
def Child (h : Heap) (i j : Nat) : Prop :=
  (∃ a, (a, Attr.object j) ∈ (h i).attrs) ∨ ∃ js, (h i).steps = some js ∧ j ∈ js

/-- `j` can be reached from `i` -/
def Reach (h : Heap) : Nat → Nat → Prop := Relation.ReflTransGen (Child h)

/-- the object holds something that gets assigned: another object, a reference, or pipeline steps -/
def Written (o : HObj) : Prop := (∃ a v, (a, v) ∈ o.attrs ∧ v ≠ Attr.plain) ∨ o.steps.isSome = true

/-- a reference dictionary replaced by the reference -/
def Attr.restored : Attr → Attr
  | .refDict n => .reference n
  | v => v

/-- an object with all its reference dictionaries replaced -/
def HObj.restored (o : HObj) : HObj := { o with attrs := o.attrs.map (fun p => (p.1, p.2.restored)) }

/-- attribute names are unique -/
def UniqueAttrs (h : Heap) : Prop := ∀ i, ((h i).attrs.map Prod.fst).Nodup

end Serial
end Verif
