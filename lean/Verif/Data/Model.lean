import Mathlib.Data.List.Sort
import Verif.Basic.Py

/-!
# Loading data into a graph (causy/graph_model.py:101-183, causy/data_loader.py)

Column names are a linearly ordered type `ι` (python compares strings by code points), numbers an arbitrary type `R`.
Only the nodes of the graph matter here: a graph is the list of its node ids with their values, in insertion order.  The
conversion of the values to tensors is not modelled.
-/

namespace Verif
namespace Data
variable {ι R : Type} [LinearOrder ι]

/-- a row of a table: a python dictionary from column names to numbers -/
abbrev Row (ι R : Type) := Dict ι R

/-- the nodes of a graph with their values -/
abbrev Nodes (ι R : Type) := List (ι × List R)

/-- `graph.add_node(key, values, id_=key)` (graph.py:975-1012) -/
def addNode (key : ι) (values : List R) (g : Nodes ι R) : Except PyErr (Nodes ι R) :=
  if key ∈ g.map Prod.fst then .error .valueError else .ok (g ++ [(key, values)])

/-- `for key, values in ...: graph.add_node(...)` -/
def addNodes : List (ι × List R) → Nodes ι R → Except PyErr (Nodes ι R)
  | [], g => .ok g
  | (k, v) :: l, g =>
    match addNode k v g with
    | .ok g' => addNodes l g'
    | .error e => .error e

/-- `__create_graph_from_dict` (graph_model.py:101-110).  The keys of a dictionary are distinct, so sorting the items compares
keys only. -/
def fromDict (data : Dict ι (List R)) : Except PyErr (Nodes ι R) :=
  addNodes (data.items.insertionSort (fun a b => a.1 ≤ b.1)) []

/-- `for key in keys: nodes[key].append(row[key])` (graph_model.py:126-127, 154-155) -/
def appendRow (row : Row ι R) : List ι → Dict ι (List R) → Except PyErr (Dict ι (List R))
  | [], nodes => .ok nodes
  | k :: ks, nodes =>
    match nodes.get? k, row.get? k with
    | some col, some x => appendRow row ks (nodes.set k (col ++ [x]))
    | _, _ => .error .keyError

/-- the loop over the rows (graph_model.py:125-127) -/
def appendRows (keys : List ι) : List (Row ι R) → Dict ι (List R) → Except PyErr (Dict ι (List R))
  | [], nodes => .ok nodes
  | row :: rows, nodes =>
    match appendRow row keys nodes with
    | .ok nodes' => appendRows keys rows nodes'
    | .error e => .error e

/-- `for key in sorted(keys): nodes[key] = []` (graph_model.py:121-122, 151-152) -/
def emptyColumns (keys : List ι) : Dict ι (List R) :=
  (keys.insertionSort (· ≤ ·)).foldl (fun d k => d.set k []) Dict.empty

/-- `for key in keys: graph.add_node(key, nodes[key], id_=key)` (graph_model.py:130-131, 158-159) -/
def nodesOf (nodes : Dict ι (List R)) : List ι → Nodes ι R → Except PyErr (Nodes ι R)
  | [], g => .ok g
  | k :: ks, g =>
    match nodes.get? k with
    | none => .error .keyError
    | some v =>
      match addNode k v g with
      | .ok g' => nodesOf nodes ks g'
      | .error e => .error e

/-- `__create_graph_from_list` (graph_model.py:112-134) -/
def fromList (data : List (Row ι R)) : Except PyErr (Nodes ι R) :=
  match data with
  | [] => .error .indexError
  | row :: _ =>
    match appendRows row.keys data (emptyColumns row.keys) with
    | .error e => .error e
    | .ok nodes => nodesOf nodes row.keys []

/-- what a data loader yields: a row, or a dictionary with the entry `_dict` whose value is a dictionary of columns -/
inductive Item (ι R : Type)
  | row (r : Row ι R)
  | columns (d : Dict ι (List R))

/-- the loop of `_create_from_data_loader` (graph_model.py:146-155) over the items the loader yields; `acc` is `keys` and
`nodes` once the first row has been read.  The outer result is a `return` from inside the loop. -/
def loaderLoop : List (Item ι R) → Option (List ι × Dict ι (List R)) →
    Except PyErr (Nodes ι R ⊕ Option (List ι × Dict ι (List R)))
  | [], acc => .ok (.inr acc)
  | .columns d :: _, _ =>
    match fromDict d with
    | .ok g => .ok (.inl g)
    | .error e => .error e
  | .row r :: items, acc =>
    let (keys, nodes) := match acc with
      | some kn => kn
      | none => (r.keys, emptyColumns r.keys)
    match appendRow r keys nodes with
    | .error e => .error e
    | .ok nodes' => loaderLoop items (some (keys, nodes'))

/-- `_create_from_data_loader` (graph_model.py:136-163); without any item `keys` is still `None` -/
def fromLoader (items : List (Item ι R)) : Except PyErr (Nodes ι R) :=
  match loaderLoop items none with
  | .error e => .error e
  | .ok (.inl g) => .ok g
  | .ok (.inr none) => .error .typeError
  | .ok (.inr (some (keys, nodes))) => nodesOf nodes keys []

/-- the content of a JSON file, as far as `JSONDataLoader` distinguishes it -/
inductive Json (ι R : Type)
  | list (rows : List (Row ι R))
  | dict (d : Dict ι (List R))
  | other

/-- `JSONDataLoader.load` (data_loader.py:76-90) -/
def jsonLoad : Json ι R → Except PyErr (List (Item ι R))
  | .list rows => .ok (rows.map .row)
  | .dict d => .ok [.columns d]
  | .other => .error .valueError

/-- the argument of `create_graph_from_data` -/
inductive Input (ι R : Type)
  | loader (items : List (Item ι R))
  | dict (d : Dict ι (List R))
  | list (rows : List (Row ι R))

/-- `create_graph_from_data` (graph_model.py:165-183) -/
def createGraph : Input ι R → Except PyErr (Nodes ι R)
  | .loader items => fromLoader items
  | .dict d => fromDict d
  | .list rows => fromList rows

/-- `DataLoaderType` (data_loader.py:13-16) -/
inductive LoaderType
  | dynamic
  | json
  | jsonl
  deriving DecidableEq

/-- `DataLoaderReference` (data_loader.py:19-27); `O` is the type of option dictionaries -/
structure LoaderRef (O : Type) where
  type : LoaderType
  reference : String
  options : Option O

/-- a constructed loader: one of the two file loaders, or a dynamic loader around an object `L` built by user code -/
inductive Loader (O L : Type)
  | file (jsonl : Bool) (reference : String) (options : Option O)
  | dynamic (reference : String) (inner : L) (options : Option O)

/-- `DynamicDataLoader.__init__` (data_loader.py:112-124).  `modules` maps a module name to its `DataLoader` class, taken as a
function of the keyword arguments.  `_load_data_loader` runs before `self.options` is assigned, so it sees the class attribute
`AbstractDataLoader.options`, which is `None` (data_loader.py:36), and `**None` is a `TypeError`. -/
def dynamicInit {O L : Type} (modules : String → Option (O → Except PyErr L)) (reference : String) (options : Option O) :
    Except PyErr (Loader O L) :=
  let selfOptions : Option O := none
  match modules reference with
  | none => .error .importError
  | some cls =>
    match selfOptions with
    | none => .error .typeError
    | some o =>
      match cls o with
      | .ok l => .ok (.dynamic reference l options)
      | .error e => .error e

/-- `load_data_loader` (data_loader.py:139-146); constructing a file loader only stores its arguments
(data_loader.py:63-65) -/
def loadDataLoader {O L : Type} (modules : String → Option (O → Except PyErr L)) (r : LoaderRef O) :
    Except PyErr (Loader O L) :=
  match r.type with
  | .json => .ok (.file false r.reference r.options)
  | .jsonl => .ok (.file true r.reference r.options)
  | .dynamic => dynamicInit modules r.reference r.options

/-- `hash` of a loader (data_loader.py:55-56, 69-73, 129-130).  `files` gives the bytes of a file, `digest` is SHA-256 in
hexadecimal over bytes, `optHash` is `hash_dictionary` (of `None` too), `inner` the hash of a user-written loader.  Hashes are
lists of characters. -/
def loaderHash {O L B : Type} (files : String → Option B) (digest : B → List Char) (optHash : Option O → List Char)
    (inner : L → List Char) : Loader O L → Except PyErr (List Char)
  | .file _ reference options =>
    match files reference with
    | none => .error .fileNotFound
    | some b => .ok (digest b ++ '_' :: optHash options)
  | .dynamic _ l options => .ok (inner l ++ '_' :: optHash options)

end Data
end Verif
