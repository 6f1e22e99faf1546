import Verif.Rename.Spec
import Verif.PC.Parallel
import Verif.PC.Stable
import Verif.Effects.Model

/-!
# Specification vocabulary: corresponding tests, set orders and shuffles
-/

namespace Verif
open Graph CI Orient PC
variable {ι ρ ι' : Type}

/-- The relabelling that renames the nodes by `e`, also in the recorded separating sets, and changes the stored correlation
of the edge between `u` and `v` by `h u v`. -/
def renamed (e : ι → ι') (he : Function.Injective e) (h : ι → ι → ρ → ρ) (hs : ∀ u v, h u v = h v u) :
    Relabel ι (Info ι ρ) ι' (Info ι' ρ) where
  name := e
  inj := he
  info u v m := { corr := m.corr.map (h u v), effect := m.effect, sep := m.sep.map (List.map e), mark := m.mark }
  symm u v m := by rw [hs u v]

/-- The tests `T'` on the renamed nodes answer as the tests `T`, with correlations changed by `h`. -/
structure SameTests (W : PyErr → PyErr → Prop) (e : ι → ι') (h : ι → ι → ρ → ρ) (T : Tests ι ρ) (T' : Tests ι' ρ) : Prop where
  pearson : ∀ x y, T'.pearson (e x) (e y) = h x y (T.pearson x y)
  t0 : ∀ x y r, Agree W Eq (T.t0 x y r) (T'.t0 (e x) (e y) (h x y r))
  t1 : ∀ k x y z a b d, Agree W Eq (T.t1 k x y z a b d) (T'.t1 k (e x) (e y) (e z) (h x y a) (h x z b) (h y z d))
  tm : ∀ c, Agree W Eq (T.tm c) (T'.tm (c.map e))

/-- the sets of the rule are iterated in corresponding orders -/
def SameOrd (M : Relabel ι (Info ι ρ) ι' (Info ι' ρ)) (o : Ord ι ρ) (o' : Ord ι' ρ) : Prop :=
  ∀ g x y l, o' (M.graph g) (M.name x) (M.name y) (l.map M.name) = (o g x y l).map M.name

/-- the same for the four rules of the loop -/
structure SameOrds (M : Relabel ι (Info ι ρ) ι' (Info ι' ρ)) (o : Ords ι ρ) (o' : Ords ι' ρ) : Prop where
  r1 : SameOrd M o.r1 o'.r1
  r3 : SameOrd M o.r3 o'.r3
  r4 : SameOrd M o.r4 o'.r4

/-- the sets of the generator are iterated in corresponding orders -/
def SameNbOrd (e : ι → ι') (o : NbOrd ι) (o' : NbOrd ι') : Prop := ∀ k x y l, o' k (e x) (e y) (l.map e) = (o k x y l).map e

/-- the shuffles correspond -/
def SameShuf (e : ι → ι') (s : Shuf ι) (s' : Shuf ι') : Prop :=
  ∀ k x y l, s' k (e x) (e y) (l.map (List.map e)) = (s k x y l).map (List.map e)

/-- all choices of `ParallelPC` correspond -/
structure SameChoice (M : Relabel ι (Info ι ρ) ι' (Info ι' ρ)) (c : ParChoice ι) (c' : ParChoice ι') : Prop where
  ord1 : SameNbOrd M.name c.ord1 c'.ord1
  shuf1 : SameShuf M.name c.shuf1 c'.shuf1
  keep : ∀ i ys, c'.keep i (ys.map M.yield) = (c.keep i ys).map M.yield
  ord2 : SameNbOrd M.name c.ord2 c'.ord2
  shuf2 : SameShuf M.name c.shuf2 c'.shuf2

/-- the last step reads the same values under the new names -/
structure SameSource (e : ι → ι') (D : Effects.Source ι ρ) (D' : Effects.Source ι' ρ) : Prop where
  values : ∀ v, D'.values (e v) = D.values v
  lstsq : D'.lstsq = D.lstsq

end Verif
