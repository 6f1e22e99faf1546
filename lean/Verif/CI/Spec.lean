import Verif.CI.Model
import Verif.Pipeline.Inv

/-!
# Specification vocabulary for the independence-test phase
-/

namespace Verif
open Graph
variable {ι ρ : Type} [DecidableEq ι]

/-- The numerical code reported `x` independent of `y` given exactly the variables `S`: the marginal test on their
correlation, the triple test on the three pairwise correlations, or one of the tests on the data columns. -/
inductive Reported (T : Tests ι ρ) (x y : ι) : List ι → Prop
  | marginal (h : T.t0 x y (T.pearson x y) = .ok true) : Reported T x y []
  | triple (z : ι) (h : T.t1 1 x y z (T.pearson x y) (T.pearson x z) (T.pearson y z) = .ok (some true)) :
      Reported T x y [z]
  | matrix (S : List ι) (h : T.tm (x :: y :: S) = .ok (some true)) : Reported T x y S
  | regression (S : List ι) (h : T.reg (x :: y :: S) = .ok true) : Reported T x y S

/-- `r` records that an edge between `a` and `b` was removed because they were reported independent given the recorded
set, which consists of variables in `N` and contains neither of the two. -/
def Certificate (T : Tests ι ρ) (N : List ι) (a b : ι) (r : TestResult ι (Info ι ρ)) : Prop :=
  r.action = .removeEdgeUndirected ∧ ((r.u = a ∧ r.v = b) ∨ (r.u = b ∧ r.v = a)) ∧
    ∃ d S, r.data = some d ∧ d.sep = some S ∧ S.Nodup ∧ (∀ z ∈ S, z ∈ N) ∧ a ∉ S ∧ b ∉ S ∧
      Reported T r.u r.v S

/-- the steps of the phase, with any configuration of the generators -/
inductive CITest (ι : Type)
  | pearson
  | correlation
  | partialCorrelation
  | matrix (cfg : NbCfg ι)
  | regression (cfg : NbCfg ι)

/-- the configured step -/
def CITest.step (T : Tests ι ρ) : CITest ι → Step ι (Info ι ρ)
  | .pearson => CI.pearsonStep T
  | .correlation => CI.corrStep T
  | .partialCorrelation => CI.partialStep T
  | .matrix cfg => CI.matrixStep T cfg
  | .regression cfg => CI.regressionStep T cfg

/-- the unspecified orders of the generators are orders -/
def CITest.Valid : CITest ι → Prop
  | .matrix cfg => cfg.Valid
  | .regression cfg => cfg.Valid
  | _ => True

/-- the generator accepts the configured sizes: at least two nodes, and at least three if it hands out single
combinations; the regression needs a variable to regress on -/
def CITest.Sized : CITest ι → Prop
  | .matrix cfg => 2 ≤ cfg.settings.min ∧ (cfg.chunked = true ∨ 3 ≤ cfg.settings.min)
  | .regression cfg => 3 ≤ cfg.settings.min
  | _ => True

/-- a test that conditions on other variables -/
def CITest.Conditional : CITest ι → Prop
  | .pearson => False
  | .correlation => False
  | _ => True

/-- the numerical code answers every question about distinct variables of `N` and their correlations -/
structure Tests.Total (T : Tests ι ρ) (N : List ι) : Prop where
  t0 : ∀ x y, x ∈ N → y ∈ N → x ≠ y → ∃ b, T.t0 x y (T.pearson x y) = .ok b
  t1 : ∀ x y z, x ∈ N → y ∈ N → z ∈ N → x ≠ y → x ≠ z → y ≠ z →
    ∃ o, T.t1 1 x y z (T.pearson x y) (T.pearson x z) (T.pearson y z) = .ok o
  tm : ∀ x y S, (x :: y :: S).Nodup → (∀ z ∈ x :: y :: S, z ∈ N) → ∃ o, T.tm (x :: y :: S) = .ok o
  reg : ∀ x y S, S ≠ [] → (x :: y :: S).Nodup → (∀ z ∈ x :: y :: S, z ∈ N) → ∃ b, T.reg (x :: y :: S) = .ok b

/-- a pipeline made of independence-test steps only, plain or inside `Loop` or `ApplyActionsTogether` -/
def CIPipeline (T : Tests ι ρ) (ps : List (PStep ι (Info ι ρ))) : Prop :=
  ∀ p ∈ ps, ∀ s ∈ p.steps, ∃ t : CITest ι, t.Valid ∧ s = t.step T

end Verif
