import Verif.Data.Model

/-!
# What loading data is supposed to do
-/

namespace Verif
namespace Data
variable {ι R : Type} [LinearOrder ι]

/-- `col` is the column `k` of the table: its `i`-th entry is what the `i`-th row holds under `k`, and every row holds
something there -/
def IsColumn (rows : List (Row ι R)) (k : ι) (col : List R) : Prop :=
  List.Forall₂ (fun r x => Dict.get? r k = some x) rows col

/-- some row has no value for a column of the first row -/
def Incomplete (first : Row ι R) (rows : List (Row ι R)) : Prop :=
  ∃ r ∈ rows, ∃ k ∈ Dict.keys first, Dict.get? r k = none

/-- the dictionary of columns `d` and the table `first :: rows` hold the same data -/
def SameData (d : Dict ι (List R)) (first : Row ι R) (rows : List (Row ι R)) : Prop :=
  (∀ k, k ∈ d.keys ↔ k ∈ Dict.keys first) ∧ ∀ k col, d.get? k = some col → IsColumn (first :: rows) k col

end Data
end Verif
