import Verif.Heap.Spec
import Verif.PC.Stable
import Verif.Effects.Model
import Verif.Fci.Model

/-!
# The shipped algorithms with shared dictionaries
-/

namespace Verif
namespace Heap
open Graph CI Orient PC Effects
variable {ι ρ δ : Type} [DecidableEq ι]

/-- the order in which python iterates a set does not depend on the metadata of edges -/
def OrdOk (o : Ord ι ρ) : Prop := ∀ d g x y, Seen id d g → o d x y = o g x y

/-- a configured step that does not write into stored dictionaries -/
def quiet : PStep ι δ → HPStep ι δ
  | .plain s => .plain ⟨s, false⟩
  | .loop n ss exit => .loop n (ss.map (fun s => ⟨s, false⟩)) exit
  | .together n ss => .together n (ss.map (fun s => ⟨s, false⟩))

/-- A pipeline in which the correlation step and the effect step write into the stored dictionaries: `pearsonStep`, then
`ps`, then `effectStep` (algorithms/pc.py:63-149) -/
def shared (T : Tests ι ρ) (ps : List (PStep ι (Info ι ρ))) (D : Source ι ρ) : List (HPStep ι (Info ι ρ)) :=
  [.plain ⟨pearsonStep T, true⟩] ++ ps.map quiet ++ [.plain ⟨effectStep D, true⟩]

/-- the keys no step overwrites in place -/
def neither (m : Info ι ρ) : Option (List ι) × Bool := (m.sep, m.mark)

/-- the steps of the shipped algorithms between the first and the last -/
inductive Middle : PStep ι (Info ι ρ) → Prop
  | corr (T : Tests ι ρ) : Middle (.plain (corrStep T))
  | triples (T : Tests ι ρ) : Middle (.plain (partialStep T))
  | matrix (T : Tests ι ρ) (cfg : NbCfg ι) : Middle (.plain (matrixStep T cfg))
  | regression (T : Tests ι ρ) (cfg : NbCfg ι) : Middle (.plain (regressionStep T cfg))
  | together (name : String) (T : Tests ι ρ) (cfg : NbCfg ι) :
      Middle (.together name [corrStep T, partialStep T, matrixStep T cfg])
  | collider (o : Ord ι ρ) : OrdOk o → Middle (.plain (colliderStep .keepFirst o))
  | rules (o : Ords ι ρ) : OrdOk o.r1 → OrdOk o.r3 → OrdOk o.r4 → Middle (ruleLoop o)
  | fci (o : Ord ι ρ) : OrdOk o → Middle (.plain (Fci.fciStep o))

end Heap
end Verif
