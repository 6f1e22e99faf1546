import Mathlib.Logic.Relation
import Mathlib.Data.List.Chain

/-!
# Textbook definitions about directed graphs

`E a b` means that `a → b` is an edge.  Nothing here refers to the code.
-/

namespace Verif
namespace Dag
variable {ι : Type} (E : ι → ι → Prop)

/-- no directed cycle -/
def Acyclic : Prop := ∀ a, ¬ Relation.TransGen E a a

/-- adjacency in the skeleton -/
def Adj (a b : ι) : Prop := E a b ∨ E b a

/-- `b` is a descendant of `a` (every node is a descendant of itself) -/
def Desc (a b : ι) : Prop := Relation.ReflTransGen E a b

/-- a path in the skeleton from `u` to `v`: pairwise distinct, consecutively adjacent nodes -/
def IsPath (u v : ι) (p : List ι) : Prop :=
  p.head? = some u ∧ p.getLast? = some v ∧ p.Nodup ∧ p.IsChain (Adj E)

/-- `a → b ← c` -/
def Collider (a b c : ι) : Prop := E a b ∧ E c b

/-- a path is blocked by `Z`: it has a collider without a descendant in `Z`, or a non-collider in `Z` -/
def Blocked (Z : List ι) (p : List ι) : Prop :=
  ∃ a b c, [a, b, c] <:+: p ∧
    ((Collider E a b c ∧ ∀ d, Desc E b d → d ∉ Z) ∨ (¬ Collider E a b c ∧ b ∈ Z))

/-- d-separation -/
def DSep (u v : ι) (Z : List ι) : Prop := ∀ p, IsPath E u v p → Blocked E Z p

/-- `a → b ← c` with `a`, `c` not adjacent -/
def VStructure (a b c : ι) : Prop := Collider E a b c ∧ a ≠ c ∧ ¬ Adj E a c

/-- the same adjacencies and the same unshielded colliders -/
def Equivalent (E' : ι → ι → Prop) : Prop :=
  (∀ a b, Adj E a b ↔ Adj E' a b) ∧ ∀ a b c, VStructure E a b c ↔ VStructure E' a b c

/-- `a → b` in every acyclic graph with the same adjacencies and unshielded colliders as `E` -/
def Compelled (a b : ι) : Prop := ∀ E', Acyclic E' → Equivalent E E' → E' a b

end Dag
end Verif
