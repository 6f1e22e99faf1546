import Verif.Hooks.Model

/-!
# What is said about hooks

`Watching`, `LogsEdgeHooks`, `Rewrites` and `LogsUpdates` describe hooks; `Called` says which hooks of edge types a batch of actions calls,
in terms of the batch without hooks; `HistRec.recorded` lists the actions of a history entry.
-/

namespace Verif
variable {ι δ ω : Type} [DecidableEq ι]

/-- hooks that only watch: those of the edge types leave the graph alone (and may raise), the update hooks neither change the
graph nor the list they are given, and do not raise -/
structure Hooks.Watching (H : Hooks ι δ ω) : Prop where
  edge : ∀ h t r s, (H.edge h t r s).2.1 = s.1
  pre : ∀ f ∈ H.pre, ∀ rs s, (f rs s).1 = .ok rs ∧ (f rs s).2.1 = s.1
  post : ∀ f ∈ H.post, ∀ rs s, (f rs s).1 = .ok () ∧ (f rs s).2.1 = s.1

/-- a call of a hook: which one, of which edge type, with which action -/
abbrev HookCall (ι δ : Type) := EdgeHook × EType × TestResult ι δ

/-- every hook of an edge type notes that it was called, leaves the graph alone, and then returns or raises -/
structure Hooks.LogsEdgeHooks (H : Hooks ι δ (List (HookCall ι δ))) : Prop where
  edge : ∀ h t r s, (H.edge h t r s).2 = (s.1, s.2 ++ [(h, t, r)])
  pre : H.pre = []
  post : H.post = []

/-- the hook called before an action is applied and the hook called afterwards -/
def Action.hooks : Action → Option (EdgeHook × EdgeHook)
  | .removeEdgeUndirected | .removeEdgeDirected => some (.preRemove, .postRemove)
  | .updateEdge | .updateEdgeDirected => some (.preUpdate, .postUpdate)
  | .updateEdgeType | .updateEdgeTypeDirected => some (.preTypeChange, .postTypeChange)
  | .restoreEdge | .restoreEdgeDirected | .doNothing => none

/-- the call of `h` for the edge of `r`, if this edge is stored (removed or not) -/
def Graph.callOf (g : Graph ι δ) (h : EdgeHook) (r : TestResult ι δ) : List (HookCall ι δ) :=
  match g.edges.get2 r.u r.v with
  | some e => [(h, e.etype, r)]
  | none => []

/-- Starting from `g`, applying the actions one after the other leads to these calls: around every action that is applied, one
hook of the stored edge's type before and one after; none for actions that are skipped or restore an edge.  If an action
raises, the hook before it was called and nothing after that. -/
inductive Called : Graph ι δ → List (TestResult ι δ) → List (HookCall ι δ) → Prop
  | nil (g) : Called g [] []
  | skipped {g r rs l} (h : Graph.applyOne r g = (.ok false, g)) (rest : Called g rs l) : Called g (r :: rs) l
  | applied {g g' r rs a b l} (h : Graph.applyOne r g = (.ok true, g')) (hh : r.action.hooks = some (a, b))
      (rest : Called g' rs l) : Called g (r :: rs) (g.callOf a r ++ g'.callOf b r ++ l)
  | restored {g g' r rs l} (h : Graph.applyOne r g = (.ok true, g')) (hh : r.action.hooks = none) (rest : Called g' rs l) :
      Called g (r :: rs) l
  | raised {g g' e r rs a b} (h : Graph.applyOne r g = (.error e, g')) (hh : r.action.hooks = some (a, b)) :
      Called g (r :: rs) (g.callOf a r)
  | raisedRestoring {g g' e r rs} (h : Graph.applyOne r g = (.error e, g')) (hh : r.action.hooks = none) :
      Called g (r :: rs) []

/-- Together the pre-update hooks replace every list of proposals `l` by `φ l`.  They leave the graph alone, do not raise and
decide by the list alone.  The other hooks only watch. -/
structure Hooks.Rewrites (H : Hooks ι δ ω) (φ : List (TestResult ι δ) → List (TestResult ι δ)) : Prop where
  edge : ∀ h t r s, (H.edge h t r s).2.1 = s.1
  pre : ∀ l s, (runPre H.pre (some l) s).1 = .ok (some (φ l)) ∧ (runPre H.pre (some l) s).2.1 = s.1
  post : ∀ f ∈ H.post, ∀ rs s, (f rs s).1 = .ok () ∧ (f rs s).2.1 = s.1

/-- the step whose `process` returns the rewritten list -/
def Step.rewritten (s : Step ι δ) (φ : List (TestResult ι δ) → List (TestResult ι δ)) : Step ι δ :=
  { s with process := fun c g u =>
      match s.process c g u with
      | .error e => .error e
      | .ok r => .ok (r.map φ) }

/-- the pipeline step whose steps return the rewritten lists -/
def PStep.rewritten (φ : List (TestResult ι δ) → List (TestResult ι δ)) : PStep ι δ → PStep ι δ
  | .plain s => .plain (s.rewritten φ)
  | .loop n ss e => .loop n (ss.map (fun s => s.rewritten φ)) e
  | .together n ss => .together n (ss.map (fun s => s.rewritten φ))

/-- the pipeline step is not `ApplyActionsTogether` -/
def PStep.appliesAtOnce : PStep ι δ → Prop
  | .together _ _ => False
  | _ => True

/-- the steps a pipeline step consists of -/
def PStep.allSteps : PStep ι δ → List (Step ι δ)
  | .plain s => [s]
  | .loop _ ss _ => ss
  | .together _ ss => ss

/-- the hook that notes what it is told -/
def noteUpdates (rs : List (TestResult ι δ)) : PyM (Graph ι δ × List (List (TestResult ι δ))) Unit :=
  PyM.mod (fun s => (s.1, s.2 ++ [rs]))

/-- one post-update hook, which notes what it is told; the other hooks leave the notes and the graph alone -/
structure Hooks.LogsUpdates (H : Hooks ι δ (List (List (TestResult ι δ)))) : Prop where
  edge : ∀ h t r s, (H.edge h t r s).2 = s
  pre : H.pre = []
  post : H.post = [noteUpdates]

/-- the actions a history entry lists as taken -/
def HistRec.recorded : HistRec ι δ → List (TestResult ι δ)
  | .plain r => r.actions
  | .logic _ rs => rs.flatMap (fun r => r.actions)

end Verif
