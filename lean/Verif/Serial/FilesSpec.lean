import Verif.Serial.Files

/-!
# Containment of paths
-/

namespace Verif
namespace Serial

/-- components of real paths: not empty and without a slash -/
def Proper (p : List (List Char)) : Prop := ∀ c ∈ p, c ≠ [] ∧ '/' ∉ c

/-- the path `p` is the directory `d` or lies below it -/
def Below (d p : List (List Char)) : Prop := ∃ rest, p = d ++ rest

/-- the path `p` is, or lies below, a sibling of `d` whose name is the name of `d` with something appended -/
def InLongerSibling (d p : List (List Char)) : Prop :=
  ∃ parent name suffix rest, d = parent ++ [name] ∧ suffix ≠ [] ∧ p = parent ++ (name ++ suffix) :: rest

end Serial
end Verif
