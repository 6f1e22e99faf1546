import Verif.CI.Model

/-!
# Orientation rules (causy/causal_discovery/constraint/orientation_rules/pc.py)

The collider test and the four propagation rules, each as a `Step` with its default generator, and the loop in which
the shipped algorithms run the propagation rules (causy/causal_discovery/constraint/algorithms/pc.py:40-52).

Simplifications:
* The data of proposed orientations (`between`, `orientation_conflict`) is never read by the modelled steps and is the
  empty dictionary here.
* Python iterates sets in an order that depends on hashes and on how the set was built: the order is a parameter of each
  rule, chosen freely per graph and pair.
* Nodes are compared by id (pydantic compares all fields of two nodes; the id is one of them).
-/

namespace Verif
namespace Orient
open Graph CI
variable {ι ρ : Type} [DecidableEq ι]

/-- the iteration orders of the sets built by a rule -/
abbrev Ord (ι ρ : Type) := CGraph ι ρ → ι → ι → List ι → List ι

/-- the order function only orders sets -/
def Ord.Valid (o : Ord ι ρ) : Prop := ∀ g x y, SetOrder (o g x y)

/-- `TestResult(u=u, v=v, action=REMOVE_EDGE_DIRECTED, data={...})` -/
def cut (u v : ι) : CResult ι ρ := ⟨u, v, .removeEdgeDirected, some {}⟩

/-- `TestResult(u=u, v=v, action=DO_NOTHING, data={...})` -/
def stay (u v : ι) : CResult ι ρ := ⟨u, v, .doNothing, some {}⟩

/-- `TestResult(u=u, v=v, action=RESTORE_EDGE_DIRECTED, data={})` -/
def undo (u v : ι) : CResult ι ρ := ⟨u, v, .restoreEdgeDirected, some {}⟩

/-- `set(graph.edges[x.id].keys()).intersection(set(graph.edges[y.id].keys()))` (pc.py:120-122, 247-249), as the list
from which the set is built.  Soft-deleted edges are included. -/
def commonKeys (g : CGraph ι ρ) (x y : ι) : Except PyErr (List ι) :=
  if !g.edges.has x then .error .keyError
  else if !g.edges.has y then .error .keyError
  else .ok ((g.edges.keys2 x).filter (fun z => decide (z ∈ g.edges.keys2 y)))

/-! ## the collider test -/

/-- `conflict_resolution_strategy` (pc.py:65-75, 87-89).  It is compared with `is`, so a plain string matches neither
branch (`other`). -/
inductive Strategy
  | keepFirst
  | keepLast
  | other
  deriving DecidableEq, Repr

/-- `filter_unapplied_actions` (pc.py:25-40); iterating `None` raises `TypeError` -/
def filterUnapplied (un : Option (Results ι (Info ι ρ))) (u v : ι) : Except PyErr (List (CResult ι ρ)) :=
  match un with
  | none => .error .typeError
  | some rs => .ok ((rs.flatMap (fun o => o.getD [])).filter (fun r => decide (r.u = u) && decide (r.v = v)))

/-- `generate_restores` (pc.py:43-62) -/
def restores (rs : List (CResult ι ρ)) : List (CResult ι ρ) :=
  (rs.filter (fun r => decide (r.action = .removeEdgeDirected))).map (fun r => undo r.u r.v)

/-- the ids under `separatedBy` of the recorded removals (pc.py:133-136); `"separatedBy" in None` raises
`TypeError` -/
def separators : List (CResult ι ρ) → Except PyErr (List ι)
  | [] => .ok []
  | a :: as =>
    match a.data with
    | none => .error .typeError
    | some d =>
      match separators as with
      | .error e => .error e
      | .ok l => .ok (d.sep.getD [] ++ l)

/-- what is proposed for a common neighbour `z` outside the separating sets (pc.py:145-213), given the pending results
on `(x, z)` and `(y, z)` -/
def colliderAt (st : Strategy) (x y z : ι) (xz yz : List (CResult ι ρ)) : List (CResult ι ρ) :=
  if !yz.isEmpty || !xz.isEmpty then
    match st with
    | .keepFirst => (if !yz.isEmpty then [stay z y] else []) ++ (if !xz.isEmpty then [stay z x] else [])
    | .keepLast => restores xz ++ restores yz ++ [cut z x] ++ [cut z y]
    | .other => []
  else [cut z x, cut z y]

/-- the loop over the common neighbours (pc.py:130-213); `actions` are the recorded removals of the pair, `un` the
pending results -/
def colliderLoop (st : Strategy) (g : CGraph ι ρ) (x y : ι) (actions : List (CResult ι ρ))
    (un : Option (Results ι (Info ι ρ))) : List ι → Except PyErr (List (CResult ι ρ))
  | [] => .ok []
  | z :: zs =>
    if z ∉ g.nodes then .error .keyError
    else match separators actions with
      | .error e => .error e
      | .ok seps =>
        if z ∈ seps then colliderLoop st g x y actions un zs
        else match filterUnapplied un x z with
          | .error e => .error e
          | .ok xz =>
            match filterUnapplied un y z with
            | .error e => .error e
            | .ok yz =>
              match colliderLoop st g x y actions un zs with
              | .error e => .error e
              | .ok rest => .ok (colliderAt st x y z xz yz ++ rest)

/-- `ColliderTest.process` (pc.py:93-214) -/
def colliderProcess (st : Strategy) (o : Ord ι ρ) (c : List ι) (g : CGraph ι ρ) (un : Option (Results ι (Info ι ρ))) :
    Except PyErr (Option (List (CResult ι ρ))) :=
  match c with
  | x :: y :: _ =>
    if x ∉ g.nodes then .error .keyError
    else if y ∉ g.nodes then .error .keyError
    else if g.undirectedEdgeExists x y then .ok none
    else match commonKeys g x y with
      | .error e => .error e
      | .ok zs =>
        match colliderLoop st g x y (g.retrieveEdgeHistory x y .removeEdgeUndirected) un (o g x y zs) with
        | .error e => .error e
        | .ok rs => .ok (some rs)
  | _ => .error .indexError

/-! ## the propagation rules -/

/-- the test of the loop that sets `breakflag` (pc.py:263-267 and 283-287): some node points at `a` one-way and is not
adjacent to `z` -/
def guarded (g : CGraph ι ρ) (a z : ι) : Bool :=
  g.nodes.any (fun n => g.onlyDirectedEdgeExists n a && !g.edgeExists n z)

/-- the loop of `NonColliderTest.process` (pc.py:253-305); it returns at the first match -/
def nonColliderLoop (g : CGraph ι ρ) (x y : ι) : List ι → Except PyErr (Option (List (CResult ι ρ)))
  | [] => .ok none
  | z :: zs =>
    if z ∉ g.nodes then .error .keyError
    else if g.onlyDirectedEdgeExists x z && g.undirectedEdgeExists z y then
      .ok (some [if guarded g y z then stay y z else cut y z])
    else if g.onlyDirectedEdgeExists y z && g.undirectedEdgeExists z x then
      .ok (some [if guarded g x z then stay x z else cut x z])
    else nonColliderLoop g x y zs

/-- `NonColliderTest.process` (pc.py:227-305) -/
def nonColliderProcess (o : Ord ι ρ) (c : List ι) (g : CGraph ι ρ) : Except PyErr (Option (List (CResult ι ρ))) :=
  match c with
  | x :: y :: _ =>
    if x ∉ g.nodes then .error .keyError
    else if y ∉ g.nodes then .error .keyError
    else if g.edgeExists x y then .ok none
    else match commonKeys g x y with
      | .error e => .error e
      | .ok zs => nonColliderLoop g x y (o g x y zs)
  | _ => .error .indexError

/-- one round of the loop of `FurtherOrientTripleTest.process` (pc.py:336-362) -/
def tripleAt (g : CGraph ι ρ) (x y z : ι) : List (CResult ι ρ) :=
  (if g.undirectedEdgeExists x y && g.onlyDirectedEdgeExists x z && g.onlyDirectedEdgeExists z y then [cut y x] else [])
    ++ (if g.undirectedEdgeExists x y && g.onlyDirectedEdgeExists y z && g.onlyDirectedEdgeExists z x then [cut x y]
        else [])

/-- `FurtherOrientTripleTest.process` (pc.py:318-363) -/
def tripleProcess (c : List ι) (g : CGraph ι ρ) : Except PyErr (Option (List (CResult ι ρ))) :=
  match c with
  | x :: y :: _ =>
    if x ∉ g.nodes then .error .keyError
    else if y ∉ g.nodes then .error .keyError
    else .ok (some ((g.nodes.filter (fun z => g.edgeExists y z && g.edgeExists x z)).flatMap (tripleAt g x y)))
  | _ => .error .indexError

/-- one round of the loop of `OrientQuadrupleTest.process` (pc.py:398-430) -/
def quadAt (g : CGraph ι ρ) (y w x z : ι) : List (CResult ι ρ) :=
  (if !g.edgeExists y w && g.onlyDirectedEdgeExists y z && g.onlyDirectedEdgeExists w z
      && g.undirectedEdgeExists x y && g.undirectedEdgeExists x w && g.undirectedEdgeExists x z then [cut z x] else [])
    ++ (if !g.edgeExists y w && g.onlyDirectedEdgeExists y x && g.onlyDirectedEdgeExists w x
        && g.undirectedEdgeExists y z && g.undirectedEdgeExists w z && g.undirectedEdgeExists x z then [cut x z] else [])

/-- one round of the loop of `FurtherOrientQuadrupleTest.process` (pc.py:466-530) -/
def furtherQuadAt (g : CGraph ι ρ) (x w y z : ι) : List (CResult ι ρ) :=
  if !g.edgeExists y z && g.undirectedEdgeExists x z && g.undirectedEdgeExists x w && g.undirectedEdgeExists x y
      && g.onlyDirectedEdgeExists y w && g.onlyDirectedEdgeExists w z then [cut z x]
  else if !g.edgeExists z y && g.undirectedEdgeExists x y && g.undirectedEdgeExists x w && g.undirectedEdgeExists x z
      && g.onlyDirectedEdgeExists z w && g.onlyDirectedEdgeExists w y then [cut y x]
  else if !g.edgeExists y z && g.undirectedEdgeExists w z && g.undirectedEdgeExists x w && g.undirectedEdgeExists w y
      && g.onlyDirectedEdgeExists y x && g.onlyDirectedEdgeExists x z then [cut z w]
  else if !g.edgeExists z y && g.undirectedEdgeExists w y && g.undirectedEdgeExists x w && g.undirectedEdgeExists w z
      && g.onlyDirectedEdgeExists z x && g.onlyDirectedEdgeExists x y then [cut y w]
  else []

/-- `for zs in itertools.combinations(potential_zs, 2): a, b = zs` (pc.py:398-399, 466-467) -/
def overPairs (body : ι → ι → List (CResult ι ρ)) : List (List ι) → List (CResult ι ρ)
  | [] => []
  | [a, b] :: rest => body a b ++ overPairs body rest
  | _ :: rest => overPairs body rest

/-- the common part of the two quadruple rules (pc.py:386-398, 454-466) -/
def quadLoop (body : CGraph ι ρ → ι → ι → ι → ι → List (CResult ι ρ)) (o : Ord ι ρ) (c : List ι) (g : CGraph ι ρ) :
    Except PyErr (Option (List (CResult ι ρ))) :=
  match c with
  | y :: w :: _ =>
    if y ∉ g.nodes then .error .keyError
    else if w ∉ g.nodes then .error .keyError
    else .ok (some (overPairs (body g y w)
      (combinations (o g y w (g.nodes.filter (fun z => g.edgeExists y z && g.edgeExists z w))) 2)))
  | _ => .error .indexError

/-- `OrientQuadrupleTest.process` (pc.py:376-431) -/
def quadProcess (o : Ord ι ρ) : List ι → CGraph ι ρ → Except PyErr (Option (List (CResult ι ρ))) := quadLoop quadAt o

/-- `FurtherOrientQuadrupleTest.process` (pc.py:444-531) -/
def furtherQuadProcess (o : Ord ι ρ) : List ι → CGraph ι ρ → Except PyErr (Option (List (CResult ι ρ))) :=
  quadLoop furtherQuadAt o

/-! ## the steps -/

/-- `ColliderTest` (pc.py:77-91) -/
def colliderStep (st : Strategy) (o : Ord ι ρ) : Step ι (Info ι ρ) where
  name := "ColliderTest"
  chunked := false
  needsUnapplied := true
  applySync := false
  gen := allGen ⟨2, 2⟩
  process := colliderProcess st o

/-- a propagation rule with the generator all four share (pc.py:220-224, 311-315, 369-373, 437-441) -/
def ruleStep (name : String) (process : List ι → CGraph ι ρ → Except PyErr (Option (List (CResult ι ρ)))) :
    Step ι (Info ι ρ) where
  name := name
  chunked := false
  needsUnapplied := false
  applySync := false
  gen := allGen ⟨2, 2⟩
  process := fun c g _ => process c g

/-- `NonColliderTest` (pc.py:217-225) -/
def nonColliderStep (o : Ord ι ρ) : Step ι (Info ι ρ) := ruleStep "NonColliderTest" (nonColliderProcess o)

/-- `FurtherOrientTripleTest` (pc.py:308-316) -/
def tripleStep : Step ι (Info ι ρ) := ruleStep "FurtherOrientTripleTest" tripleProcess

/-- `OrientQuadrupleTest` (pc.py:366-374) -/
def quadStep (o : Ord ι ρ) : Step ι (Info ι ρ) := ruleStep "OrientQuadrupleTest" (quadProcess o)

/-- `FurtherOrientQuadrupleTest` (pc.py:434-442) -/
def furtherQuadStep (o : Ord ι ρ) : Step ι (Info ι ρ) := ruleStep "FurtherOrientQuadrupleTest" (furtherQuadProcess o)

/-- the set orders of the four rules -/
structure Ords (ι ρ : Type) where
  r1 : Ord ι ρ
  r3 : Ord ι ρ
  r4 : Ord ι ρ

/-- all of them only order sets -/
def Ords.Valid (o : Ords ι ρ) : Prop := o.r1.Valid ∧ o.r3.Valid ∧ o.r4.Valid

/-- the steps inside the loop (algorithms/pc.py:43-48) -/
def rules (o : Ords ι ρ) : List (Step ι (Info ι ρ)) := [nonColliderStep o.r1, tripleStep, quadStep o.r3, furtherQuadStep o.r4]

/-- the loop (algorithms/pc.py:42-51) -/
def ruleLoop (o : Ords ι ρ) : PStep ι (Info ι ρ) := .loop "Orientation Rules Loop" (rules o) exitOnNoActions

/-- `PC_ORIENTATION_RULES` (algorithms/pc.py:40-52) -/
def orientationPhase (oc : Ord ι ρ) (o : Ords ι ρ) : List (PStep ι (Info ι ρ)) :=
  [.plain (colliderStep .keepFirst oc), ruleLoop o]

end Orient
end Verif
