import Verif.PC.Model
import Verif.CI.Spec
import Verif.Dag.Spec

/-!
# Specification vocabulary: independence tests that answer d-separation
-/

namespace Verif
namespace PC
open Graph CI
variable {ι ρ : Type} [DecidableEq ι]

/-- The tests are a perfect oracle for the directed acyclic graph `E` over the variables `N`: they never raise, and asked
about distinct variables of `N` they report independence exactly if the two are d-separated in `E` by the others. -/
structure Oracle (T : Tests ι ρ) (E : ι → ι → Prop) (N : List ι) : Prop where
  acyclic : Dag.Acyclic E
  edges : ∀ a b, E a b → a ∈ N ∧ b ∈ N
  total : T.Total N
  sym : ∀ a b, T.pearson a b = T.pearson b a
  marginal : ∀ x y, x ∈ N → y ∈ N → x ≠ y → (T.t0 x y (T.pearson x y) = .ok true ↔ Dag.DSep E x y [])
  triple : ∀ x y z, x ∈ N → y ∈ N → z ∈ N → x ≠ y → x ≠ z → y ≠ z →
    ∃ b, T.t1 1 x y z (T.pearson x y) (T.pearson x z) (T.pearson y z) = .ok (some b) ∧ (b = true ↔ Dag.DSep E x y [z])
  matrix : ∀ x y S, (x :: y :: S).Nodup → (∀ z ∈ x :: y :: S, z ∈ N) →
    ∃ b, T.tm (x :: y :: S) = .ok (some b) ∧ (b = true ↔ Dag.DSep E x y S)
  regression : ∀ x y S, (x :: y :: S).Nodup → (∀ z ∈ x :: y :: S, z ∈ N) →
    (T.reg (x :: y :: S) = .ok true ↔ Dag.DSep E x y S)

/-- the order function only orders sets -/
def NbOrd.Valid (ord : NbOrd ι) : Prop := ∀ k x y, SetOrder (ord k x y)

end PC
end Verif
