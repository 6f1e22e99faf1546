import Verif.Serial.Json

/-!
# Reordering the keys of nested dictionaries
-/

namespace Verif
namespace Serial

/-- `b` arises from `a` by reordering the entries of dictionaries, at any nesting level -/
inductive Reorder : Json → Json → Prop
  | refl (a) : Reorder a a
  | trans {a b c} : Reorder a b → Reorder b c → Reorder a c
  | keys {l l'} : l.Perm l' → Reorder (.obj l) (.obj l')
  | inObj {k v v'} (l r) : Reorder v v' → Reorder (.obj (l ++ (k, v) :: r)) (.obj (l ++ (k, v') :: r))
  | inArr {v v'} (l r) : Reorder v v' → Reorder (.arr (l ++ v :: r)) (.arr (l ++ v' :: r))

/-- the printed form of a number: not empty, without list or dictionary punctuation, and not starting like any other value -/
def NumberText (t : List Char) : Prop :=
  (∀ c ∈ t, c ≠ ',' ∧ c ≠ ']' ∧ c ≠ '}') ∧ ∃ c r, t = c :: r ∧ c ∉ ['n', 't', 'f', '"', '[', '{']

/-- a python value: keys of dictionaries are distinct at every level, numbers print as numbers -/
inductive Valid : Json → Prop
  | null : Valid .null
  | bool (b) : Valid (.bool b)
  | num {t} : NumberText t → Valid (.num t)
  | str (s) : Valid (.str s)
  | arr {l} : (∀ x ∈ l, Valid x) → Valid (.arr l)
  | obj {l} : (l.map Prod.fst).Nodup → (∀ k x, (k, x) ∈ l → Valid x) → Valid (.obj l)

end Serial
end Verif
