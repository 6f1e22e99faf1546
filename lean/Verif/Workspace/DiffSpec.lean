import Verif.Workspace.Diff
import Verif.Workspace.Spec

/-!
# What `causy workspace diff` is supposed to show
-/

namespace Verif
namespace Workspace
open Serial (REdge)
variable {μ : Type}

/-- the edge joins nodes with these names, in either direction -/
def Joins (e : REdge μ) (a b : String) : Prop :=
  (e.u.name = a ∧ e.v.name = b) ∨ (e.u.name = b ∧ e.v.name = a)

instance (e : REdge μ) (a b : String) : Decidable (Joins e a b) := by unfold Joins; infer_instance

/-- the same two names, in either order -/
def SameNames (p q : String × String) : Prop := p = q ∨ p = (q.2, q.1)

/-- the first edge between two names in the results with a label -/
def edgeOf (xs : List (Compared μ)) (label a b : String) : Option (REdge μ) :=
  ((xs.filter (fun x => x.1 = label)).flatMap Prod.snd).find? (fun e => Joins e a b)

/-- the first edge between two names, in the order of the compared experiments -/
def firstShown (xs : List (Compared μ)) (a b : String) : Option (REdge μ) :=
  (xs.map Prod.fst).findSome? (fun l => edgeOf xs l a b)

/-- every compared experiment has an edge between the two names, and all of them equal the first one -/
def Agree (xs : List (Compared μ)) (a b : String) : Prop :=
  ∀ l ∈ xs.map Prod.fst, ∃ e f, edgeOf xs l a b = some e ∧ firstShown xs a b = some f ∧ e.eq f = true

end Workspace
end Verif
