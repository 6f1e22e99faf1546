import Verif.PC.Stable
import Verif.CI.Spec

/-!
# Specification vocabulary for `PCStable`
-/

namespace Verif
namespace PC
open Graph CI
variable {ι ρ : Type} [DecidableEq ι]

/-- the answer "independent" to the question whether `x` and `y` are independent given the listed variables: no variable is the
question of the marginal test, one variable that of the triple test, more that of the extended test -/
def Says (T : Tests ι ρ) (x y : ι) : List ι → Prop
  | [] => T.t0 x y (T.pearson x y) = .ok true
  | [z] => T.t1 1 x y z (T.pearson x y) (T.pearson x z) (T.pearson y z) = .ok (some true)
  | S => T.tm (x :: y :: S) = .ok (some true)

/-- some set of other variables of `N` is reported to separate `x` and `y` -/
def Separable (T : Tests ι ρ) (N : List ι) (x y : ι) : Prop :=
  ∃ S : List ι, (x :: y :: S).Nodup ∧ (∀ z ∈ S, z ∈ N) ∧ Says T x y S

/-- Tests that never raise, whose triple test always decides, and whose answers depend neither on which of the two variables
is named first nor on the order of the conditioning variables. -/
structure Steady (T : Tests ι ρ) (N : List ι) : Prop where
  total : T.Total N
  sym : ∀ a b, T.pearson a b = T.pearson b a
  decides : ∀ x y z, x ∈ N → y ∈ N → z ∈ N → x ≠ y → x ≠ z → y ≠ z →
    T.t1 1 x y z (T.pearson x y) (T.pearson x z) (T.pearson y z) ≠ .ok none
  swap : ∀ x y S, (x :: y :: S).Nodup → (∀ z ∈ x :: y :: S, z ∈ N) → Says T x y S → Says T y x S
  perm : ∀ x y S S', (x :: y :: S).Nodup → (∀ z ∈ x :: y :: S, z ∈ N) → S.Perm S' → Says T x y S → Says T x y S'

end PC
end Verif
