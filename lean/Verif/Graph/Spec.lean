import Verif.Graph.Cmd

/-!
# Specification vocabulary for the graph store

These definitions are independent of the helper lemmas: histories of API calls, the plain-relation
reading of an edit, and prefix order on edge histories.
-/

namespace Verif
namespace Graph
variable {ι δ : Type} [DecidableEq ι]

/-- States reachable from a new graph by any sequence of `GraphManager` calls, some of which may have
raised exceptions that were caught. -/
def Reachable (g : Graph ι δ) : Prop := ∃ cs : List (Cmd ι δ), g = Cmd.runAll cs Graph.empty

/-- A history in which no hard `remove_edge` hits a connection stored in one direction only. -/
def CleanHistory : List (Cmd ι δ) → Graph ι δ → Prop
  | [], _ => True
  | c :: cs, g => ¬ c.isOneWayHardRemove g ∧ CleanHistory cs (c.run g).2

/-- States reachable by such histories. -/
def ReachableClean (g : Graph ι δ) : Prop :=
  ∃ cs : List (Cmd ι δ), CleanHistory cs Graph.empty ∧ g = Cmd.runAll cs Graph.empty

/-- What an edit is supposed to do to the set of live directed edges. -/
def specEdges (c : Cmd ι δ) (L : ι → ι → Prop) : ι → ι → Prop := fun a b =>
  match c with
  | .addEdge u v _ _ | .restoreEdge u v => (a = u ∧ b = v) ∨ (a = v ∧ b = u) ∨ L a b
  | .addDirectedEdge u v _ _ | .restoreDirectedEdge u v => (a = u ∧ b = v) ∨ L a b
  | .removeEdge u v _ => L a b ∧ ¬ (a = u ∧ b = v) ∧ ¬ (a = v ∧ b = u)
  | .removeDirectedEdge u v _ => L a b ∧ ¬ (a = u ∧ b = v)
  | _ => L a b

/-- A history in which every call succeeds. -/
def AllSucceed : List (Cmd ι δ) → Graph ι δ → Prop
  | [], _ => True
  | c :: cs, g => (c.run g).1 = .ok () ∧ AllSucceed cs (c.run g).2

/-- `g'` only appends to the edge histories of `g`. -/
def HistExtends (g g' : Graph ι δ) : Prop :=
  ∀ p l, g.hist.get? p = some l → ∃ l', g'.hist.get? p = some (l ++ l')

end Graph
end Verif
