import Mathlib.Probability.Moments.Variance
import Mathlib.Probability.Moments.Covariance
import Verif.Sample.Spec
import Verif.Sample.Initial

/-!
# Specification: stable models, steady series
-/

namespace Verif
namespace Sample
open Matrix MeasureTheory ProbabilityTheory Filter Topology
variable {ι : Type} [DecidableEq ι]

/-- `P` is the Moore-Penrose inverse of `M` -/
structure IsPinv {N : Type} [Fintype N] (M P : Matrix N N ℝ) : Prop where
  mpm : M * P * M = M
  pmp : P * M * P = P
  symm_mp : (M * P)ᵀ = M * P
  symm_pm : (P * M)ᵀ = P * M

/-- what the edges contribute to the variable `v` at the time `t`, if the variables have the values `x` -/
def inflow (edges : List (SEdge ι ℝ)) (x : ι → ℤ → ℝ) (v : ι) (t : ℤ) : ℝ :=
  ((edges.filter (fun e => e.dst = v)).map (fun e => e.value * x e.src (t + e.time))).sum

/-- Without noise every series dies out, whatever its past. -/
def Stable (edges : List (SEdge ι ℝ)) : Prop :=
  ∀ x : ι → ℤ → ℝ, (∀ v t, 0 ≤ t → x v t = inflow edges x v t) → ∀ v, Tendsto (fun k : ℕ => x v k) atTop (𝓝 0)

/-- no two edges agree in source, target and time -/
def Distinct (edges : List (SEdge ι ℝ)) : Prop :=
  edges.Pairwise (fun e f => ¬ (e.src = f.src ∧ e.dst = f.dst ∧ e.time = f.time))

/-- The value of every variable at time 0 is given by the edges and noise of variance 1, uncorrelated between the variables
and with the last `L` values; moving the window of `L` values one step on changes no covariance. -/
structure Steady {Ω : Type} [MeasurableSpace Ω] (edges : List (SEdge ι ℝ)) (L : ℕ) (μ : Measure Ω) (X : ι → ℤ → Ω → ℝ)
    (ε : ι → Ω → ℝ) : Prop where
  square : ∀ v, Mentioned edges v → ∀ t, -(L : ℤ) ≤ t → t < 0 → MemLp (X v t) 2 μ
  squareNoise : ∀ v, Mentioned edges v → MemLp (ε v) 2 μ
  equation : ∀ v, Mentioned edges v → ∀ ω, X v 0 ω = inflow edges (fun w t => X w t ω) v 0 + ε v ω
  white : ∀ v w, Mentioned edges v → Mentioned edges w → cov[ε v, ε w; μ] = if v = w then 1 else 0
  fresh : ∀ v w, Mentioned edges v → Mentioned edges w → ∀ t, -(L : ℤ) ≤ t → t < 0 → cov[X v t, ε w; μ] = 0
  shift : ∀ v w, Mentioned edges v → Mentioned edges w → ∀ s t, -(L : ℤ) ≤ s → s < 0 → -(L : ℤ) ≤ t → t < 0 →
    cov[X v (s + 1), X w (t + 1); μ] = cov[X v s, X w t; μ]

/-- What is drawn to generate a series: the initial values have the standard deviations `σ`, the noise has variance 1, and all
of them are uncorrelated.  The series draws `size - 1` times noise for every variable. -/
structure Draws {Ω : Type} [MeasurableSpace Ω] (vars : List ι) (size : ℕ) (σ : Fin vars.length → ℝ) (μ : Measure Ω)
    (init : ι → Ω → ℝ) (rand : ℕ → Ω → ℝ) : Prop where
  squareInit : ∀ i : Fin vars.length, MemLp (init vars[i]) 2 μ
  squareNoise : ∀ k, k < (size - 1) * vars.length → MemLp (rand k) 2 μ
  initial : ∀ i j : Fin vars.length, cov[init vars[i], init vars[j]; μ] = if i = j then σ i ^ 2 else 0
  noise : ∀ k k', k < (size - 1) * vars.length → k' < (size - 1) * vars.length →
    cov[rand k, rand k'; μ] = if k = k' then 1 else 0
  fresh : ∀ i : Fin vars.length, ∀ k, k < (size - 1) * vars.length → cov[init vars[i], rand k; μ] = 0

/-- `X v t` is the entry at time `t` of the column `v` of the generated data, for every outcome -/
def Generated {Ω : Type} (edges : List (SEdge ι ℝ)) (vars : List ι) (size : ℕ) (init : ι → Ω → ℝ) (rand : ℕ → Ω → ℝ)
    (X : ι → ℕ → Ω → ℝ) : Prop :=
  ∀ ω, ∃ out, tsData (fun v => init v ω) (fun k => rand k ω) edges vars size = .ok out ∧
    ∀ v ∈ vars, ∃ l, out.get? v = some l ∧ l.length = size ∧ ∀ t, t < size → l[t]? = some (X v t ω)

end Sample
end Verif
