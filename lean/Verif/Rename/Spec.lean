import Verif.Pipeline.Model

/-!
# Specification vocabulary: the same graph under other names

A relabelling renames the nodes and changes the metadata of each edge.  It is applied to graphs, actions and history
entries place by place; nothing is added, dropped or reordered.
-/

namespace Verif

/-- the dictionary with renamed keys and changed values, in the same order -/
def Dict.relabel {κ κ' α α' : Type} (e : κ → κ') (he : Function.Injective e) (φ : κ → α → α') (d : Dict κ α) : Dict κ' α' where
  items := d.items.map (fun p => (e p.1, φ p.1 p.2))
  nodup := by
    have h := d.nodup.map he
    simpa [List.map_map, Function.comp_def] using h

/-- new names for the nodes, and a change of the metadata of each edge that is the same in both directions -/
structure Relabel (ι δ ι' δ' : Type) where
  name : ι → ι'
  inj : Function.Injective name
  info : ι → ι → δ → δ'
  symm : ∀ u v m, info u v m = info v u m

namespace Relabel
variable {ι δ ι' δ' : Type} (M : Relabel ι δ ι' δ')

/-- the edge object stored at `(u, v)` -/
def edge (u v : ι) (x : Edge ι δ) : Edge ι' δ' := ⟨M.name x.u, M.name x.v, x.etype, M.info u v x.metadata, x.deleted⟩

/-- the nested dictionary with entries at `(u, v)` -/
def rows (d : Dict ι (Dict ι (Edge ι δ))) : Dict ι' (Dict ι' (Edge ι' δ')) :=
  d.relabel M.name M.inj (fun u r => r.relabel M.name M.inj (fun v => M.edge u v))

/-- an action -/
def result (r : TestResult ι δ) : TestResult ι' δ' := ⟨M.name r.u, M.name r.v, r.action, r.data.map (M.info r.u r.v)⟩

theorem pair_inj : Function.Injective (fun p : ι × ι => (M.name p.1, M.name p.2)) := by
  rintro ⟨a, b⟩ ⟨c, d⟩ h
  simp only [Prod.mk.injEq] at h
  rw [M.inj h.1, M.inj h.2]

/-- a graph -/
def graph (g : Graph ι δ) : Graph ι' δ' where
  nodes := g.nodes.map M.name
  edges := M.rows g.edges
  rev := M.rows g.rev
  del := M.rows g.del
  hist := g.hist.relabel (fun p => (M.name p.1, M.name p.2)) M.pair_inj (fun _ l => l.map M.result)

/-- the answers of `process` -/
def results (l : Results ι δ) : Results ι' δ' := l.map (Option.map (List.map M.result))

/-- what a generator yields -/
def yield : Yield ι → Yield ι'
  | .chunk cs => .chunk (cs.map (List.map M.name))
  | .single c => .single (c.map M.name)

/-- a record of a plain step -/
def stepRec (r : StepRec ι δ) : StepRec ι' δ' := ⟨r.name, r.actions.map M.result, r.proposed.map M.result⟩

/-- an entry of the action history -/
def histRec : HistRec ι δ → HistRec ι' δ'
  | .plain r => .plain (M.stepRec r)
  | .logic n rs => .logic n (rs.map M.stepRec)

/-- the state of a run -/
def model (m : GModel ι δ) : GModel ι' δ' := ⟨M.graph m.graph, m.history.map M.histRec⟩

end Relabel

/-- Two outcomes agree: both are results and these are related by `R`, or both are exceptions and these are related by
`W`. -/
inductive Agree {α α' : Type} (W : PyErr → PyErr → Prop) (R : α → α' → Prop) : Except PyErr α → Except PyErr α' → Prop
  | ok {a a'} (h : R a a') : Agree W R (.ok a) (.ok a')
  | error {e e'} (h : W e e') : Agree W R (.error e) (.error e')

end Verif
