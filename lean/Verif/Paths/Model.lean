import Verif.Graph.Model

/-!
# Path searches and d-separation queries (causy/graph.py:257-275, 304-567, causy/edge_types.py:63-81)

Conventions of this file:
* Recursion in the code is not structural, so every recursive search takes `fuel`, the allowed recursion
  depth; running out of fuel is `none` (or `PyErr.recursionError`).  The theorems show for which graphs a
  sufficient depth exists.
* Nodes are represented by ids.  `node_by_id(x)` is `None` for an unknown `x`; in these searches this can
  only happen for an unknown start node, where the model returns the id itself.
* `list(set(...))` has an arbitrary order: the parameter `ord`.
-/

namespace Verif
namespace Graph
variable {ι δ : Type} [DecidableEq ι]

/-- `list(set(l))` for some iteration order: no duplicates, same elements. -/
def SetOrder (ord : List ι → List ι) : Prop := ∀ l, (ord l).Nodup ∧ ∀ x, x ∈ ord l ↔ x ∈ l

/-! ## descendants_of_node -/

/-- The loop over the children in `descendants_of_node` (causy/graph.py:329-334).  `rec` is the recursive
call, which returns its result together with the mutated `visited` set. -/
def descLoop (g : Graph ι δ) (u : ι) (rec : ι → List ι → Option (List ι × List ι)) :
    List ι → List ι → List ι → Option (List ι × List ι)
  | [], acc, vis => some (acc, vis)
  | child :: rest, acc, vis =>
    if g.directedEdgeExists u child && !g.directedEdgeExists child u then
      if child ∉ vis then
        match rec child vis with
        | none => none
        | some (ds, vis') => descLoop g u rec rest (acc ++ ds) vis'
      else descLoop g u rec rest acc vis
    else descLoop g u rec rest acc vis

/-- `descendants_of_node` with an explicit `visited` (causy/graph.py:304-336). -/
def descAux (g : Graph ι δ) (ord : List ι → List ι) : Nat → ι → List ι → Option (List ι × List ι)
  | 0, _, _ => none
  | fuel + 1, u, vis =>
    if u ∈ vis then some ([], vis)
    else
      match g.edges.get? u with
      | none => some ([u], u :: vis)
      | some row =>
        match descLoop g u (descAux g ord fuel) row.keys [u] (u :: vis) with
        | none => none
        | some (acc, vis') => some (ord acc, vis')

/-- `descendants_of_node(u)` (causy/graph.py:304-336). -/
def descendantsOfNode (g : Graph ι δ) (ord : List ι → List ι) (fuel : Nat) (u : ι) : Option (List ι) :=
  (descAux g ord fuel u []).map Prod.fst

/-! ## all_paths_on_underlying_undirected_graph -/

/-- concatenate the yields of the recursive generators -/
def collect {α β : Type} (f : α → Option (List β)) : List α → Option (List β)
  | [] => some []
  | a :: as =>
    match f a with
    | none => none
    | some x =>
      match collect f as with
      | none => none
      | some y => some (x ++ y)

/-- `all_paths_on_underlying_undirected_graph` with explicit `visited` and `path` (causy/graph.py:536-567).
The code shares one mutable `visited` and one `path` and undoes its changes before returning (lines
565-567); the model passes values. -/
def allPathsAux (g : Graph ι δ) (v : ι) : Nat → ι → List ι → List ι → Option (List (List ι))
  | 0, _, _, _ => none
  | fuel + 1, u, vis, path =>
    if u = v then some [path ++ [u]]
    else
      collect (fun n =>
        if n ∉ u :: vis && g.edgeExists u n then allPathsAux g v fuel n (u :: vis) (path ++ [u])
        else some []) g.nodes

/-- `list(all_paths_on_underlying_undirected_graph(u, v))` -/
def allPaths (g : Graph ι δ) (fuel : Nat) (u v : ι) : Option (List (List ι)) := allPathsAux g v fuel u [] []

/-! ## d-separation -/

/-- An element of a conditioning set: a `Node` object or an id string.  A node and a string are never
equal. -/
inductive Ref (ι : Type)
  | node (a : ι)
  | id (a : ι)
  deriving DecidableEq, Repr

/-- `_is_collider` (causy/graph.py:470-482). -/
def isCollider (g : Graph ι δ) (u v w : ι) : Bool :=
  g.edgeOfTypeExists u v .directed && g.edgeOfTypeExists w v .directed

/-- `_is_a_collider_blocking` (causy/graph.py:338-351): `acc` is the variable `is_path_blocked`. -/
def colliderBlockingGo (g : Graph ι δ) (ord : List ι → List ι) (fuel : Nat) (cs : List (Ref ι)) :
    Bool → List ι → Option Bool
  | acc, a :: b :: c :: rest =>
    if g.isCollider a b c then
      match g.descendantsOfNode ord fuel b with
      | none => none
      | some ds => colliderBlockingGo g ord fuel cs (!ds.any (fun d => decide (Ref.node d ∈ cs))) (b :: c :: rest)
    else colliderBlockingGo g ord fuel cs acc (b :: c :: rest)
  | acc, _ => some acc

/-- `_is_a_collider_blocking` (causy/graph.py:338-351). -/
def isAColliderBlocking (g : Graph ι δ) (ord : List ι → List ι) (fuel : Nat) (cs : List (Ref ι)) (path : List ι) :
    Option Bool := colliderBlockingGo g ord fuel cs false path

/-- `_is_a_non_collider_in_conditioning_set` (causy/graph.py:353-372). -/
def isANonColliderInConditioningSet (g : Graph ι δ) (cs : List (Ref ι)) : List ι → Bool
  | a :: b :: c :: rest =>
    (decide (Ref.node b ∈ cs) && !(g.edgeOfTypeExists a b .directed && g.edgeOfTypeExists c b .directed)) ||
      isANonColliderInConditioningSet g cs (b :: c :: rest)
  | _ => false

/-- The loop over the paths of `are_nodes_d_separated_dag` and `_cpdag` (causy/graph.py:402-421 and
450-468): `blocked` computes `is_path_blocked`, `res` is `list_of_results_for_paths`. -/
def dsepLoop (blocked : List ι → Option Bool) : List (List ι) → List Bool → Except PyErr Bool
  | [], res => .ok (!res.contains false)
  | p :: ps, res =>
    if p.length = 2 then .ok false
    else
      match blocked p with
      | none => .error .recursionError
      | some b => dsepLoop blocked ps (res ++ [b])

/-- `are_nodes_d_separated_dag` (causy/graph.py:374-421). -/
def areNodesDSeparatedDag (g : Graph ι δ) (ord : List ι → List ι) (fuel : Nat) (u v : ι) (cs : List (Ref ι)) :
    Except PyErr Bool :=
  if Ref.id u ∈ cs ∨ Ref.id v ∈ cs then .error .valueError
  else
    match g.allPaths fuel u v with
    | none => .error .recursionError
    | some [] => .ok true
    | some ps =>
      dsepLoop (fun p =>
        match g.isAColliderBlocking ord fuel cs p with
        | none => none
        | some b => some (b || g.isANonColliderInConditioningSet cs p)) ps []

/-- `_is_definite_noncollider` (causy/graph.py:484-500). -/
def isDefiniteNoncollider (g : Graph ι δ) (u v w : ι) : Bool :=
  if g.edgeOfTypeExists v u .directed || g.edgeOfTypeExists v w .directed then true
  else if !g.edgeExists u w && !g.isCollider u v w then true
  else false

/-- `_is_path_of_definite_status` (causy/graph.py:502-517). -/
def isPathOfDefiniteStatus (g : Graph ι δ) : List ι → Bool
  | a :: b :: c :: rest =>
    if g.isCollider a b c then isPathOfDefiniteStatus g (b :: c :: rest)
    else if g.isDefiniteNoncollider a b c then isPathOfDefiniteStatus g (b :: c :: rest)
    else false
  | _ => true

/-- `_is_definite_noncollider_in_conditioning_set` (causy/graph.py:519-534). -/
def isDefiniteNoncolliderInConditioningSet (g : Graph ι δ) (cs : List (Ref ι)) : List ι → Bool
  | a :: b :: c :: rest =>
    (decide (Ref.node b ∈ cs) && g.isDefiniteNoncollider a b c) ||
      isDefiniteNoncolliderInConditioningSet g cs (b :: c :: rest)
  | _ => false

/-- `are_nodes_d_separated_cpdag` (causy/graph.py:423-468). -/
def areNodesDSeparatedCpdag (g : Graph ι δ) (ord : List ι → List ι) (fuel : Nat) (u v : ι) (cs : List (Ref ι)) :
    Except PyErr Bool :=
  if Ref.id u ∈ cs ∨ Ref.id v ∈ cs then .error .valueError
  else
    match g.allPaths fuel u v with
    | none => .error .recursionError
    | some [] => .ok true
    | some ps =>
      dsepLoop (fun p =>
        if g.isPathOfDefiniteStatus p then
          match g.isAColliderBlocking ord fuel cs p with
          | none => none
          | some b => some (g.isDefiniteNoncolliderInConditioningSet cs p || b)
        else some false) ps []

/-! ## directed_path_exists and directed_paths -/

/-- The loop `for w in self.edges[u]` of `directed_path_exists` (causy/graph.py:272-275). -/
def anyPath (g : Graph ι δ) (rec : ι → Except PyErr Bool) : List ι → Except PyErr Bool
  | [] => .ok false
  | w :: ws =>
    if w ∉ g.nodes then .error .keyError
    else
      match rec w with
      | .error e => .error e
      | .ok true => .ok true
      | .ok false => anyPath g rec ws

/-- `directed_path_exists` (causy/graph.py:257-275). -/
def directedPathExists (g : Graph ι δ) (v : ι) : Nat → ι → Except PyErr Bool
  | 0, _ => .error .recursionError
  | fuel + 1, u =>
    if g.directedEdgeExists u v then .ok true
    else
      match g.edges.get? u with
      | none => .error .keyError
      | some row => anyPath g (directedPathExists g v fuel) row.keys

/-- The loop `for w in self.edges[u.id]` of `directed_paths` (causy/edge_types.py:77-80). -/
def pathsLoop (g : Graph ι δ) (u : ι) (rec : ι → Except PyErr (List (List (ι × ι)))) :
    List ι → Except PyErr (List (List (ι × ι)))
  | [] => .ok []
  | w :: ws =>
    if w ∉ g.nodes then .error .keyError
    else if g.directedEdgeExists u w then
      match rec w with
      | .error e => .error e
      | .ok ps =>
        match pathsLoop g u rec ws with
        | .error e => .error e
        | .ok qs => .ok (ps.map (fun p => (u, w) :: p) ++ qs)
    else pathsLoop g u rec ws

/-- `directed_paths` (causy/edge_types.py:63-81).  An unknown start id resolves to `None`, whose attribute
`id` does not exist. -/
def directedPaths (g : Graph ι δ) (v : ι) : Nat → ι → Except PyErr (List (List (ι × ι)))
  | 0, _ => .error .recursionError
  | fuel + 1, u =>
    if g.directedEdgeExists u v then .ok [[(u, v)]]
    else if u ∉ g.nodes then .error .attributeError
    else
      match g.edges.get? u with
      | none => .error .keyError
      | some row => pathsLoop g u (directedPaths g v fuel) row.keys

end Graph
end Verif
