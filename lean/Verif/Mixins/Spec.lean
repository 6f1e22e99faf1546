import Verif.Mixins.Model

/-!
# What the query methods of a graph should be
-/

namespace Verif
namespace Mixins
variable {γ : Type} [DecidableEq γ]

/-- the mixin gives its objects a method of this name, itself or by inheritance -/
def Provides (w : World γ) (c : γ) (name : String) : Prop := ∃ d ∈ w.order c, w.defines d name = true

/-- A class is a mixin of one of the algorithms: of an edge type or of an extension, and not an abstract class. -/
def Declared (w : World γ) (hist : List (Alg γ)) (c : γ) : Prop :=
  ∃ a ∈ hist, w.isAbstract c = false ∧ (c ∈ a.edgeTypes ∨ ∃ es, a.extensions = some es ∧ c ∈ es)

/-- There is an order of classes that respects all given orders: no two of them disagree. -/
def Compatible (ls : List (List γ)) : Prop := ∃ L : List γ, L.Nodup ∧ ∀ l ∈ ls, l.Sublist L

/-- None of the classes inherits from another one, and their own ancestors come in one order. -/
def Unrelated (w : World γ) (P : γ → Prop) : Prop :=
  ∃ T : List γ, T.Nodup ∧ ∀ c, P c → c ∉ T ∧ ∃ r, w.order c = c :: r ∧ r.Sublist T

end Mixins
end Verif
