import Mathlib.Algebra.BigOperators.Fin
import Mathlib.Data.Real.Basic
import Verif.Effects.Model
import Verif.Graph.Spec
import Verif.Orient.Spec

/-!
# Specification vocabulary: least-squares regression without intercept
-/

namespace Verif
namespace Effects
open Graph
variable {κ : Type} {n : ℕ}

/-- sum of the squared residuals of `y` after subtracting the `β`-weighted columns in `P` -/
def residual (P : Finset κ) (X : κ → Fin n → ℝ) (y : Fin n → ℝ) (β : κ → ℝ) : ℝ :=
  ∑ i, (y i - ∑ p ∈ P, β p * X p i) ^ 2

/-- no other weights have smaller residuals -/
def BestFit (P : Finset κ) (X : κ → Fin n → ℝ) (y : Fin n → ℝ) (β : κ → ℝ) : Prop :=
  ∀ γ, residual P X y β ≤ residual P X y γ

/-- a best fit with the smallest sum of squared weights -/
def ShortestFit (P : Finset κ) (X : κ → Fin n → ℝ) (y : Fin n → ℝ) (β : κ → ℝ) : Prop :=
  BestFit P X y β ∧ ∀ γ, BestFit P X y γ → ∑ p ∈ P, β p ^ 2 ≤ ∑ p ∈ P, γ p ^ 2

/-- no column in `P` is a combination of the others -/
def Independent (P : Finset κ) (X : κ → Fin n → ℝ) : Prop :=
  ∀ γ : κ → ℝ, (∀ i, ∑ p ∈ P, γ p * X p i = 0) → ∀ p ∈ P, γ p = 0

/-- the solver returns the shortest best fit -/
def LeastSquares (lstsq : List (List ℝ) → List ℝ → List ℝ) : Prop :=
  ∀ (k n : ℕ) (cols : Fin k → Fin n → ℝ) (y : Fin n → ℝ), ∃ b : Fin k → ℝ,
    lstsq (List.ofFn (fun j => List.ofFn (cols j))) (List.ofFn y) = List.ofFn b ∧ ShortestFit Finset.univ cols y b

/-- the solver returns the shortest best fit, when numbers are written as `num` of a real -/
def LeastSquaresIn {ρ : Type} (num : ℝ → ρ) (lstsq : List (List ρ) → List ρ → List ρ) : Prop :=
  ∀ (k n : ℕ) (cols : Fin k → Fin n → ℝ) (y : Fin n → ℝ), ∃ b : Fin k → ℝ,
    lstsq (List.ofFn (fun j => List.ofFn (fun i => num (cols j i)))) (List.ofFn (fun i => num (y i))) =
      List.ofFn (fun j => num (b j)) ∧ ShortestFit Finset.univ cols y b

variable {ι δ : Type} [DecidableEq ι]

/-- the variables with a live edge into `v`, one-way or not -/
def into (g : Graph ι δ) (v : ι) : Finset ι := g.nodes.toFinset.filter (fun u => g.directedEdgeExists u v = true)

/-- every variable of the graph has a column of `n` values -/
def Columns {ρ : Type} (D : Source ι ρ) (g : Graph ι δ) (X : ι → Fin n → ρ) : Prop :=
  ∀ p ∈ g.nodes, D.values p = some (List.ofFn (X p))

/-- `g'` is `g` with direct effects: the same nodes, edges, edge types and removal records; the metadata of `a → b` gains the
weight of `a` in the regression of `b` on all variables with an edge into `b`; the metadata of `a – b` stays. -/
structure WithEffects (X : ι → Fin n → ℝ) (g g' : CI.CGraph ι ℝ) : Prop where
  nodes : g'.nodes = g.nodes
  edges : ∀ a b, g'.directedEdgeExists a b = g.directedEdgeExists a b
  types : ∀ a b, g.directedEdgeExists a b = true → g'.edgeType a b = g.edgeType a b
  lines : ∀ a b, g.Line a b → g'.edgeValue a b = g.edgeValue a b
  arrows : ∀ a b, g.Arrow a b → ∃ m β, g.edgeValue a b = .ok (some m) ∧ ShortestFit (into g b) X (X b) β ∧
    g'.edgeValue a b = .ok (some { m with effect := some (β a) })
  records : ∀ a b act, act ≠ .updateEdgeDirected → g'.retrieveEdgeHistory a b act = g.retrieveEdgeHistory a b act

/-- `WithEffects`, when numbers are written as `num` of a real -/
structure WithEffectsIn {ρ : Type} (num : ℝ → ρ) (X : ι → Fin n → ℝ) (g g' : CI.CGraph ι ρ) : Prop where
  nodes : g'.nodes = g.nodes
  edges : ∀ a b, g'.directedEdgeExists a b = g.directedEdgeExists a b
  types : ∀ a b, g.directedEdgeExists a b = true → g'.edgeType a b = g.edgeType a b
  lines : ∀ a b, g.Line a b → g'.edgeValue a b = g.edgeValue a b
  arrows : ∀ a b, g.Arrow a b → ∃ m β, g.edgeValue a b = .ok (some m) ∧ ShortestFit (into g b) X (X b) β ∧
    g'.edgeValue a b = .ok (some { m with effect := some (num (β a)) })
  records : ∀ a b act, act ≠ .updateEdgeDirected → g'.retrieveEdgeHistory a b act = g.retrieveEdgeHistory a b act

/-- the effect stored on `a → b` is `z` -/
def HasEffect (g : CI.CGraph ι ℝ) (a b : ι) (z : ℝ) : Prop := ∃ m, g.edgeValue a b = .ok (some m) ∧ m.effect = some z

end Effects
end Verif
