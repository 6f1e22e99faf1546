import Verif.Graph.Model

/-!
# Helper lemmas about the stored graph: invariants and exact effects of the edits
-/

namespace Verif
namespace Graph
variable {ι δ : Type} [DecidableEq ι]

/-- Invariant of every state reachable by edits (including failing edits). -/
structure WF0 (g : Graph ι δ) : Prop where
  nodup : g.nodes.Nodup
  keysR : g.rev.keys = g.edges.keys
  keysD : g.del.keys = g.edges.keys
  rowsN : ∀ u, g.edges.has u = true → u ∈ g.nodes
  edge : ∀ u v e, g.edges.get2 u v = some e →
    e.u = u ∧ e.v = v ∧ u ≠ v ∧ g.edges.has v = true ∧ g.rev.get2 v u = some e
  revE : ∀ v u e, g.rev.get2 v u = some e → u ≠ v ∧ g.edges.has u = true
  delE : ∀ u v e, g.del.get2 u v = some e → u ≠ v ∧ g.edges.has v = true
  histK : ∀ u v, g.edges.has2 u v = true → g.hist.has (u, v) = true ∧ g.hist.has (v, u) = true

/-- The reverse index contains nothing but the stored edges. -/
def RevExact (g : Graph ι δ) : Prop := ∀ u v, g.rev.get2 v u = g.edges.get2 u v

theorem WF0.hasR {g : Graph ι δ} (h : WF0 g) (u : ι) : g.rev.has u = g.edges.has u :=
  Dict.has_eq_of_keys_eq h.keysR u

theorem WF0.hasD {g : Graph ι δ} (h : WF0 g) (u : ι) : g.del.has u = g.edges.has u :=
  Dict.has_eq_of_keys_eq h.keysD u

theorem wf0_empty : WF0 (empty : Graph ι δ) := by
  constructor <;> intros <;> simp_all [empty, Dict.get2, Dict.has2, Dict.has, Dict.keys, Dict.empty, Dict.get?, assoc]

theorem revExact_empty : RevExact (empty : Graph ι δ) := by
  intro u v; rfl

theorem get2_isSome_has {α : Type} {d : Dict ι (Dict ι α)} {u v : ι} {x : α} (h : d.get2 u v = some x) :
    d.has u = true := Dict.has_of_has2 (v := v) (by simp [Dict.has2, h])

theorem has2_iff {α : Type} {d : Dict ι (Dict ι α)} {u v : ι} :
    d.has2 u v = true ↔ ∃ x, d.get2 u v = some x := by
  simp [Dict.has2, Option.isSome_iff_exists]

theorem has2_false_iff {α : Type} {d : Dict ι (Dict ι α)} {u v : ι} :
    d.has2 u v = false ↔ d.get2 u v = none := by
  simp [Dict.has2]

/-! ## Pure descriptions of the elementary writes -/

/-- write an edge object at `edges[u][v]` and `_reverse_edges[v][u]` -/
def putBoth (g : Graph ι δ) (u v : ι) (e : Edge ι δ) : Graph ι δ :=
  { g with edges := g.edges.set2 u v e, rev := g.rev.set2 v u e }

/-- create the row of a node -/
def rowG (g : Graph ι δ) (u : ι) : Graph ι δ :=
  if g.edges.has u then g
  else { g with edges := g.edges.set u Dict.empty, rev := g.rev.set u Dict.empty, del := g.del.set u Dict.empty }

/-- create the history entry of a pair -/
def histG (g : Graph ι δ) (u v : ι) : Graph ι δ :=
  if g.hist.has (u, v) then g else { g with hist := g.hist.set (u, v) [] }

/-- the effect of `_init_edge` -/
def initG (g : Graph ι δ) (u v : ι) : Graph ι δ := histG (histG (rowG (rowG g u) v) u v) v u

theorem initEdge_run (u v : ι) (g : Graph ι δ) : initEdge u v g = (.ok (), initG g u v) := by
  have h1 : ∀ a (g : Graph ι δ), initRow a g = (.ok (), rowG g a) := by
    intro a g; unfold initRow rowG; split <;> rfl
  have h2 : ∀ a b (g : Graph ι δ), initHist a b g = (.ok (), histG g a b) := by
    intro a b g; unfold initHist histG; split <;> rfl
  unfold initEdge
  rw [PyM.bind_ok (h1 _ _), PyM.bind_ok (h1 _ _), PyM.bind_ok (h2 _ _ _), h2]
  rfl

section init
variable (g : Graph ι δ) (u v : ι)

@[simp] theorem nodes_rowG : (rowG g u).nodes = g.nodes := by unfold rowG; split <;> rfl
@[simp] theorem nodes_histG : (histG g u v).nodes = g.nodes := by unfold histG; split <;> rfl
@[simp] theorem edges_histG : (histG g u v).edges = g.edges := by unfold histG; split <;> rfl
@[simp] theorem rev_histG : (histG g u v).rev = g.rev := by unfold histG; split <;> rfl
@[simp] theorem del_histG : (histG g u v).del = g.del := by unfold histG; split <;> rfl
@[simp] theorem hist_rowG : (rowG g u).hist = g.hist := by unfold rowG; split <;> rfl

theorem has_rowG (a : ι) : (rowG g u).edges.has a = (decide (u = a) || g.edges.has a) := by
  unfold rowG
  split
  · by_cases h : u = a
    · subst h; simp_all
    · simp [h]
  · simp [Dict.has_set]

theorem get2_edges_rowG (a b : ι) : (rowG g u).edges.get2 a b = g.edges.get2 a b := by
  unfold rowG
  split
  · rfl
  · exact Dict.get2_set_empty _ _ _ _ (by simpa using ‹¬ g.edges.has u = true›)

theorem get2_rev_rowG (h : WF0 g) (a b : ι) : (rowG g u).rev.get2 a b = g.rev.get2 a b := by
  unfold rowG
  split
  · rfl
  · exact Dict.get2_set_empty _ _ _ _ (by rw [h.hasR]; simpa using ‹¬ g.edges.has u = true›)

theorem get2_del_rowG (h : WF0 g) (a b : ι) : (rowG g u).del.get2 a b = g.del.get2 a b := by
  unfold rowG
  split
  · rfl
  · exact Dict.get2_set_empty _ _ _ _ (by rw [h.hasD]; simpa using ‹¬ g.edges.has u = true›)

end init

theorem WF0.rowG {g : Graph ι δ} (h : WF0 g) {u : ι} (hu : u ∈ g.nodes) : WF0 (rowG g u) := by
  by_cases hr : g.edges.has u = true
  · have : Graph.rowG g u = g := by unfold Graph.rowG; simp [hr]
    rwa [this]
  · have hr' : g.edges.has u = false := by simpa using hr
    have hk : ¬ u ∈ g.edges.keys := by rw [← Dict.has_iff]; exact hr
    have hg : Graph.rowG g u = { g with edges := g.edges.set u Dict.empty, rev := g.rev.set u Dict.empty, del := g.del.set u Dict.empty } := by
      unfold Graph.rowG; simp [hr']
    have hE := get2_edges_rowG g u
    have hR := get2_rev_rowG g u h
    have hD := get2_del_rowG g u h
    have hH := has_rowG g u
    constructor
    · simpa using h.nodup
    · rw [hg]
      show (g.rev.set u Dict.empty).keys = (g.edges.set u Dict.empty).keys
      rw [Dict.keys_set, Dict.keys_set, h.keysR]
    · rw [hg]
      show (g.del.set u Dict.empty).keys = (g.edges.set u Dict.empty).keys
      rw [Dict.keys_set, Dict.keys_set, h.keysD]
    · intro a ha
      rw [hH] at ha
      rw [nodes_rowG]
      rcases Bool.or_eq_true _ _ |>.mp ha with ha | ha
      · have : u = a := by simpa using ha
        exact this ▸ hu
      · exact h.rowsN a ha
    · intro a b e he
      rw [hE] at he
      obtain ⟨h1, h2, h3, h4, h5⟩ := h.edge a b e he
      refine ⟨h1, h2, h3, ?_, ?_⟩
      · rw [hH, h4]; simp
      · rw [hR]; exact h5
    · intro a b e he
      rw [hR] at he
      obtain ⟨h1, h2⟩ := h.revE a b e he
      exact ⟨h1, by rw [hH, h2]; simp⟩
    · intro a b e he
      rw [hD] at he
      obtain ⟨h1, h2⟩ := h.delE a b e he
      exact ⟨h1, by rw [hH, h2]; simp⟩
    · intro a b hab
      rw [hist_rowG]
      apply h.histK
      rw [has2_iff] at hab ⊢
      simpa [hE] using hab

theorem WF0.histG {g : Graph ι δ} (h : WF0 g) (u v : ι) : WF0 (histG g u v) := by
  constructor <;> simp only [nodes_histG, edges_histG, rev_histG, del_histG]
  · exact h.nodup
  · exact h.keysR
  · exact h.keysD
  · exact h.rowsN
  · exact h.edge
  · exact h.revE
  · exact h.delE
  · intro a b hab
    have := h.histK a b hab
    unfold Graph.histG
    split
    · exact this
    · simp [Dict.has_set, this]

theorem has_initG (g : Graph ι δ) (u v a : ι) :
    (initG g u v).edges.has a = (decide (u = a) || decide (v = a) || g.edges.has a) := by
  unfold initG
  simp only [edges_histG, has_rowG]
  cases decide (u = a) <;> cases decide (v = a) <;> simp

theorem hist_initG_has (g : Graph ι δ) (u v : ι) :
    (initG g u v).hist.has (u, v) = true ∧ (initG g u v).hist.has (v, u) = true := by
  have key : ∀ (g : Graph ι δ) a b c d, g.hist.has (c, d) = true → (histG g a b).hist.has (c, d) = true := by
    intro g a b c d h
    unfold histG; split
    · exact h
    · simp [Dict.has_set, h]
  have self : ∀ (g : Graph ι δ) a b, (histG g a b).hist.has (a, b) = true := by
    intro g a b
    unfold histG; split
    · assumption
    · simp [Dict.has_set]
  unfold initG
  exact ⟨key _ _ _ _ _ (self _ _ _), self _ _ _⟩

@[simp] theorem nodes_initG (g : Graph ι δ) (u v : ι) : (initG g u v).nodes = g.nodes := by
  simp [initG]

theorem WF0.initG {g : Graph ι δ} (h : WF0 g) {u v : ι} (hu : u ∈ g.nodes) (hv : v ∈ g.nodes) :
    WF0 (initG g u v) :=
  (((h.rowG hu).rowG (by simpa using hv)).histG u v).histG v u

theorem get2_edges_initG (g : Graph ι δ) (u v a b : ι) :
    (initG g u v).edges.get2 a b = g.edges.get2 a b := by
  simp [initG, get2_edges_rowG]

theorem get2_rev_initG {g : Graph ι δ} (h : WF0 g) {u v : ι} (hu : u ∈ g.nodes) (a b : ι) :
    (initG g u v).rev.get2 a b = g.rev.get2 a b := by
  simp [initG, get2_rev_rowG _ _ h, get2_rev_rowG _ _ (h.rowG hu)]

theorem get2_del_initG {g : Graph ι δ} (h : WF0 g) {u v : ι} (hu : u ∈ g.nodes) (a b : ι) :
    (initG g u v).del.get2 a b = g.del.get2 a b := by
  simp [initG, get2_del_rowG _ _ h, get2_del_rowG _ _ (h.rowG hu)]

/-! ## `putBoth` -/

section putBoth
variable {g : Graph ι δ} {u v : ι} {e : Edge ι δ}

@[simp] theorem nodes_putBoth : (putBoth g u v e).nodes = g.nodes := rfl
@[simp] theorem hist_putBoth : (putBoth g u v e).hist = g.hist := rfl
@[simp] theorem del_putBoth : (putBoth g u v e).del = g.del := rfl
@[simp] theorem has_putBoth (a : ι) : (putBoth g u v e).edges.has a = g.edges.has a := by
  simp [putBoth]
@[simp] theorem hasR_putBoth (a : ι) : (putBoth g u v e).rev.has a = g.rev.has a := by
  simp [putBoth]
theorem get2_putBoth (hu : g.edges.has u = true) (a b : ι) :
    (putBoth g u v e).edges.get2 a b = if u = a ∧ v = b then some e else g.edges.get2 a b :=
  Dict.get2_set2 _ _ _ _ _ _ hu
theorem get2R_putBoth (hv : g.rev.has v = true) (a b : ι) :
    (putBoth g u v e).rev.get2 a b = if v = a ∧ u = b then some e else g.rev.get2 a b :=
  Dict.get2_set2 _ _ _ _ _ _ hv

theorem WF0.putBoth (h : WF0 g) (hu : g.edges.has u = true) (hv : g.edges.has v = true)
    (huv : u ≠ v) (he1 : e.u = u) (he2 : e.v = v)
    (hh : g.hist.has (u, v) = true ∧ g.hist.has (v, u) = true) : WF0 (putBoth g u v e) := by
  have hvR : g.rev.has v = true := by rw [h.hasR]; exact hv
  have hE := @get2_putBoth _ _ _ g u v e hu
  have hR := @get2R_putBoth _ _ _ g u v e hvR
  constructor
  · exact h.nodup
  · show (g.rev.set2 v u e).keys = (g.edges.set2 u v e).keys
    rw [Dict.keys_set2, Dict.keys_set2, h.keysR]
  · show g.del.keys = (g.edges.set2 u v e).keys
    rw [Dict.keys_set2, h.keysD]
  · intro a ha
    rw [has_putBoth] at ha
    exact h.rowsN a ha
  · intro a b e' he'
    rw [hE] at he'
    rw [hR, has_putBoth]
    by_cases hc : u = a ∧ v = b
    · obtain ⟨rfl, rfl⟩ := hc
      simp only [and_self, if_true, Option.some.injEq] at he'
      subst he'
      simp [he1, he2, huv, hv]
    · rw [if_neg hc] at he'
      obtain ⟨h1, h2, h3, h4, h5⟩ := h.edge a b e' he'
      have hc' : ¬ (v = b ∧ u = a) := fun x => hc ⟨x.2, x.1⟩
      simp [h1, h2, h3, h4, h5, hc']
  · intro a b e' he'
    rw [hR] at he'
    rw [has_putBoth]
    by_cases hc : v = a ∧ u = b
    · obtain ⟨rfl, rfl⟩ := hc
      exact ⟨huv, hu⟩
    · rw [if_neg hc] at he'
      exact h.revE a b e' he'
  · intro a b e' he'
    rw [has_putBoth]
    exact h.delE a b e' he'
  · intro a b hab
    rw [hist_putBoth]
    rw [has2_iff] at hab
    obtain ⟨x, hx⟩ := hab
    rw [hE] at hx
    by_cases hc : u = a ∧ v = b
    · obtain ⟨rfl, rfl⟩ := hc; exact hh
    · rw [if_neg hc] at hx
      exact h.histK a b (has2_iff.2 ⟨x, hx⟩)

theorem RevExact.putBoth (h : WF0 g) (hr : RevExact g) (hu : g.edges.has u = true) (hv : g.edges.has v = true) :
    RevExact (putBoth g u v e) := by
  intro a b
  have hvR : g.rev.has v = true := by rw [h.hasR]; exact hv
  rw [get2_putBoth hu, get2R_putBoth hvR, hr a b]
  by_cases hc : u = a ∧ v = b
  · simp [hc.1, hc.2]
  · have hc' : ¬ (v = b ∧ u = a) := fun x => hc ⟨x.2, x.1⟩
    simp [hc, hc']

end putBoth

/-! ## Running the elementary statements -/

theorem setE_run {g : Graph ι δ} {u : ι} (h : g.edges.has u = true) (v : ι) (e : Edge ι δ) :
    setE u v e g = (.ok (), { g with edges := g.edges.set2 u v e }) := by simp [setE, h]

theorem setR_run {g : Graph ι δ} {u : ι} (h : g.rev.has u = true) (v : ι) (e : Edge ι δ) :
    setR u v e g = (.ok (), { g with rev := g.rev.set2 u v e }) := by simp [setR, h]

theorem putBoth_run {g : Graph ι δ} {u v : ι} (hu : g.edges.has u = true) (hv : g.rev.has v = true)
    (e : Edge ι δ) {β : Type} (k : PyM (Graph ι δ) β) :
    (setE u v e >>= fun _ => setR v u e >>= fun _ => k) g = k (putBoth g u v e) := by
  rw [PyM.bind_ok (setE_run hu v e)]
  rw [PyM.bind_ok (setR_run (by exact hv) u e)]
  rfl

theorem putBoth_run' {g : Graph ι δ} {u v : ι} (hu : g.edges.has u = true) (hv : g.rev.has v = true)
    (e : Edge ι δ) :
    (setE u v e >>= fun _ => setR v u e) g = (.ok (), putBoth g u v e) := by
  rw [PyM.bind_ok (setE_run hu v e)]
  rw [setR_run (by exact hv) u e]
  rfl

/-- The shared object of `u -> v` after `f` was applied to it. -/
def modBoth (g : Graph ι δ) (u v : ι) (f : Edge ι δ → Edge ι δ) : Graph ι δ :=
  match g.edges.get2 u v with
  | some e => putBoth g u v (f e)
  | none => g

theorem modBoth_of_some {g : Graph ι δ} {u v : ι} {e : Edge ι δ} (he : g.edges.get2 u v = some e)
    (f : Edge ι δ → Edge ι δ) : modBoth g u v f = putBoth g u v (f e) := by
  simp [modBoth, he]

theorem modE_run {g : Graph ι δ} {u v : ι} {e : Edge ι δ} (he : g.edges.get2 u v = some e)
    (f : Edge ι δ → Edge ι δ) :
    modE u v f g = (.ok (), { g with edges := g.edges.set2 u v (f e) }) := by
  unfold modE
  rw [PyM.bind_ok (a := e) (s' := g) (by simp [getE, he])]
  exact setE_run (get2_isSome_has he) v _

theorem modR_run {g : Graph ι δ} {u v : ι} {e : Edge ι δ} (he : g.rev.get2 u v = some e)
    (f : Edge ι δ → Edge ι δ) :
    modR u v f g = (.ok (), { g with rev := g.rev.set2 u v (f e) }) := by
  unfold modR
  rw [PyM.bind_ok (a := e) (s' := g) (by simp [getR, he])]
  exact setR_run (get2_isSome_has he) v _

theorem modBoth_run {g : Graph ι δ} (h : WF0 g) {u v : ι} {e : Edge ι δ}
    (he : g.edges.get2 u v = some e) (f : Edge ι δ → Edge ι δ) :
    (modE u v f >>= fun _ => modR v u f) g = (.ok (), modBoth g u v f) := by
  rw [PyM.bind_ok (modE_run he f)]
  obtain ⟨_, _, _, _, h5⟩ := h.edge u v e he
  rw [modR_run (g := { g with edges := g.edges.set2 u v (f e) }) h5 f, modBoth_of_some he]
  rfl

section modBoth
variable {g : Graph ι δ} {u v : ι} {f : Edge ι δ → Edge ι δ}

theorem nodes_modBoth : (modBoth g u v f).nodes = g.nodes := by
  unfold modBoth; split <;> rfl
theorem hist_modBoth : (modBoth g u v f).hist = g.hist := by
  unfold modBoth; split <;> rfl
theorem del_modBoth : (modBoth g u v f).del = g.del := by
  unfold modBoth; split <;> rfl
theorem has_modBoth (a : ι) : (modBoth g u v f).edges.has a = g.edges.has a := by
  unfold modBoth; split <;> simp
theorem keys_modBoth : (modBoth g u v f).edges.keys = g.edges.keys := by
  unfold modBoth; split
  · exact Dict.keys_set2 _ _ _ _
  · rfl
theorem keys2_modBoth (a : ι) : (modBoth g u v f).edges.keys2 a = g.edges.keys2 a := by
  unfold modBoth
  split
  · rename_i e he
    exact Dict.keys2_set2_of_has2 _ _ _ _ _ (has2_iff.2 ⟨e, he⟩)
  · rfl
theorem get2_modBoth (a b : ι) :
    (modBoth g u v f).edges.get2 a b =
      if u = a ∧ v = b then (g.edges.get2 u v).map f else g.edges.get2 a b := by
  unfold modBoth
  split
  · rename_i e he
    rw [get2_putBoth (get2_isSome_has he), he]; rfl
  · rename_i he
    by_cases hc : u = a ∧ v = b
    · obtain ⟨rfl, rfl⟩ := hc; simp [he]
    · simp [hc]

theorem WF0.modBoth (h : WF0 g) (hf : ∀ e, (f e).u = e.u ∧ (f e).v = e.v) : WF0 (modBoth g u v f) := by
  unfold Graph.modBoth
  split
  · rename_i e he
    obtain ⟨h1, h2, h3, h4, h5⟩ := h.edge u v e he
    refine h.putBoth (get2_isSome_has he) h4 h3 (by rw [(hf e).1, h1]) (by rw [(hf e).2, h2]) ?_
    exact h.histK u v (has2_iff.2 ⟨e, he⟩)
  · exact h

theorem RevExact.modBoth (h : WF0 g) (hr : RevExact g) : RevExact (modBoth g u v f) := by
  unfold Graph.modBoth
  split
  · rename_i e he
    obtain ⟨h1, h2, h3, h4, h5⟩ := h.edge u v e he
    exact RevExact.putBoth h hr (get2_isSome_has he) h4
  · exact hr

end modBoth

/-! ## Dropping an entry -/

/-- effect of a hard `remove_directed_edge` on a stored edge `e` -/
def dropBoth (g : Graph ι δ) (u v : ι) (e : Edge ι δ) : Graph ι δ :=
  { g with del := g.del.set2 u v e, edges := g.edges.del2 u v, rev := g.rev.del2 v u }

section dropBoth
variable {g : Graph ι δ} {u v : ι} {e : Edge ι δ}

theorem WF0.dropBoth (h : WF0 g) (he : g.edges.get2 u v = some e) : WF0 (dropBoth g u v e) := by
  obtain ⟨e1, e2, e3, e4, e5⟩ := h.edge u v e he
  have hu := get2_isSome_has he
  have hE : ∀ a b, (Graph.dropBoth g u v e).edges.get2 a b = if u = a ∧ v = b then none else g.edges.get2 a b :=
    fun a b => Dict.get2_del2 _ _ _ _ _
  have hR : ∀ a b, (Graph.dropBoth g u v e).rev.get2 a b = if v = a ∧ u = b then none else g.rev.get2 a b :=
    fun a b => Dict.get2_del2 _ _ _ _ _
  have hD : ∀ a b, (Graph.dropBoth g u v e).del.get2 a b = if u = a ∧ v = b then some e else g.del.get2 a b :=
    fun a b => Dict.get2_set2 _ _ _ _ _ _ (by rw [h.hasD]; exact hu)
  have hH : ∀ a, (Graph.dropBoth g u v e).edges.has a = g.edges.has a := fun a => Dict.has_del2 _ _ _ _
  constructor
  · exact h.nodup
  · show (g.rev.del2 v u).keys = (g.edges.del2 u v).keys
    rw [Dict.keys_del2, Dict.keys_del2, h.keysR]
  · show (g.del.set2 u v e).keys = (g.edges.del2 u v).keys
    rw [Dict.keys_set2, Dict.keys_del2, h.keysD]
  · intro a ha; rw [hH] at ha; exact h.rowsN a ha
  · intro a b e' he'
    rw [hE] at he'
    rw [hR, hH]
    by_cases hc : u = a ∧ v = b
    · simp [hc] at he'
    · rw [if_neg hc] at he'
      have hc' : ¬ (v = b ∧ u = a) := fun x => hc ⟨x.2, x.1⟩
      rw [if_neg hc']
      exact h.edge a b e' he'
  · intro a b e' he'
    rw [hR] at he'
    rw [hH]
    by_cases hc : v = a ∧ u = b
    · simp [hc] at he'
    · rw [if_neg hc] at he'
      exact h.revE a b e' he'
  · intro a b e' he'
    rw [hD] at he'
    rw [hH]
    by_cases hc : u = a ∧ v = b
    · obtain ⟨rfl, rfl⟩ := hc; exact ⟨e3, e4⟩
    · rw [if_neg hc] at he'
      exact h.delE a b e' he'
  · intro a b hab
    show g.hist.has _ = true ∧ g.hist.has _ = true
    apply h.histK
    rw [has2_iff] at hab ⊢
    obtain ⟨x, hx⟩ := hab
    rw [hE] at hx
    by_cases hc : u = a ∧ v = b
    · simp [hc] at hx
    · exact ⟨x, by rwa [if_neg hc] at hx⟩

theorem RevExact.dropBoth (hr : RevExact g) : RevExact (dropBoth g u v e) := by
  intro a b
  show (g.rev.del2 v u).get2 b a = (g.edges.del2 u v).get2 a b
  rw [Dict.get2_del2, Dict.get2_del2, hr a b]
  by_cases hc : u = a ∧ v = b
  · simp [hc.1, hc.2]
  · have hc' : ¬ (v = b ∧ u = a) := fun x => hc ⟨x.2, x.1⟩
    simp [hc, hc']

end dropBoth

/-- forgetting a deleted edge -/
def forgetD (g : Graph ι δ) (u v : ι) : Graph ι δ := { g with del := g.del.del2 u v }

theorem WF0.forgetD {g : Graph ι δ} (h : WF0 g) (u v : ι) : WF0 (forgetD g u v) := by
  constructor
  · exact h.nodup
  · exact h.keysR
  · show (g.del.del2 u v).keys = _
    rw [Dict.keys_del2]; exact h.keysD
  · exact h.rowsN
  · exact h.edge
  · exact h.revE
  · intro a b e he
    have he' : (g.del.del2 u v).get2 a b = some e := he
    rw [Dict.get2_del2] at he'
    by_cases hc : u = a ∧ v = b
    · simp [hc] at he'
    · rw [if_neg hc] at he'; exact h.delE a b e he'
  · exact h.histK

/-! ## Exact results of the edits -/

section runs
variable {g : Graph ι δ} {u v : ι}

theorem addNode_run (id : ι) : (addNode id g) =
    if id ∈ g.nodes then (.error .valueError, g) else (.ok (), { g with nodes := g.nodes ++ [id] }) := rfl

/-- The graph after a successful `add_directed_edge`. -/
def addDirG (g : Graph ι δ) (u v : ι) (m : δ) (t : EType) : Graph ι δ :=
  putBoth (initG g u v) u v ⟨u, v, t, m, false⟩

/-- The graph after a successful `add_edge`. -/
def addG (g : Graph ι δ) (u v : ι) (m : δ) (t : EType) : Graph ι δ :=
  putBoth (addDirG g u v m t) v u ⟨v, u, t, m, false⟩

theorem has_initG_left : (initG g u v).edges.has u = true := by simp [has_initG]
theorem has_initG_right : (initG g u v).edges.has v = true := by simp [has_initG]

theorem WF0.addDirG (h : WF0 g) (hu : u ∈ g.nodes) (hv : v ∈ g.nodes) (huv : u ≠ v) (m : δ) (t : EType) :
    WF0 (addDirG g u v m t) :=
  (h.initG hu hv).putBoth has_initG_left has_initG_right huv rfl rfl (hist_initG_has g u v)

theorem WF0.addG (h : WF0 g) (hu : u ∈ g.nodes) (hv : v ∈ g.nodes) (huv : u ≠ v) (m : δ) (t : EType) :
    WF0 (addG g u v m t) :=
  (h.addDirG hu hv huv m t).putBoth
    (by simp only [Graph.addDirG, has_putBoth]; exact has_initG_right)
    (by simp only [Graph.addDirG, has_putBoth]; exact has_initG_left)
    (Ne.symm huv) rfl rfl (hist_initG_has g u v).symm

theorem RevExact.initG (h : WF0 g) (hr : RevExact g) (hu : u ∈ g.nodes) : RevExact (initG g u v) := by
  intro a b
  rw [get2_edges_initG, get2_rev_initG h hu, hr a b]

theorem RevExact.addDirG (h : WF0 g) (hr : RevExact g) (hu : u ∈ g.nodes) (hv : v ∈ g.nodes) (m : δ) (t : EType) :
    RevExact (addDirG g u v m t) :=
  RevExact.putBoth (h.initG hu hv) (RevExact.initG h hr hu) has_initG_left has_initG_right

theorem RevExact.addG (h : WF0 g) (hr : RevExact g) (hu : u ∈ g.nodes) (hv : v ∈ g.nodes) (huv : u ≠ v)
    (m : δ) (t : EType) : RevExact (addG g u v m t) :=
  RevExact.putBoth (h.addDirG hu hv huv m t) (RevExact.addDirG h hr hu hv m t)
    (by simp only [Graph.addDirG, has_putBoth]; exact has_initG_right)
    (by simp only [Graph.addDirG, has_putBoth]; exact has_initG_left)

theorem get2_addDirG (m : δ) (t : EType) (a b : ι) :
    (addDirG g u v m t).edges.get2 a b =
      if u = a ∧ v = b then some ⟨u, v, t, m, false⟩ else g.edges.get2 a b := by
  unfold addDirG
  rw [get2_putBoth has_initG_left, get2_edges_initG]

theorem get2_addG (huv : u ≠ v) (m : δ) (t : EType) (a b : ι) :
    (addG g u v m t).edges.get2 a b =
      if u = a ∧ v = b then some ⟨u, v, t, m, false⟩
      else if v = a ∧ u = b then some ⟨v, u, t, m, false⟩ else g.edges.get2 a b := by
  unfold addG
  rw [get2_putBoth (by simp only [addDirG, has_putBoth]; exact has_initG_right), get2_addDirG]
  by_cases h1 : u = a ∧ v = b
  · obtain ⟨rfl, rfl⟩ := h1
    have : ¬ (v = u ∧ u = v) := fun x => huv x.2
    simp [this]
  · simp [h1]

@[simp] theorem nodes_addDirG (m : δ) (t : EType) : (addDirG g u v m t).nodes = g.nodes := by simp [addDirG]
@[simp] theorem nodes_addG (m : δ) (t : EType) : (addG g u v m t).nodes = g.nodes := by simp [addG]

theorem addDirectedEdge_run (h : WF0 g) (m : δ) (t : EType) : addDirectedEdge u v m t g =
    if u ∉ g.nodes ∨ v ∉ g.nodes ∨ u = v then (.error .graphError, g)
    else (.ok (), addDirG g u v m t) := by
  unfold addDirectedEdge
  rw [PyM.bind_ok (PyM.get_run g)]
  by_cases hu : u ∈ g.nodes
  · by_cases hv : v ∈ g.nodes
    · by_cases huv : u = v
      · simp [huv]
      · simp only [hu, hv, huv, not_true, if_false, or_self]
        rw [PyM.bind_ok (initEdge_run u v g)]
        have hw := h.initG hu hv
        rw [putBoth_run' has_initG_left (by rw [hw.hasR]; exact has_initG_right)]
        rfl
    · simp [hu, hv]
  · simp [hu]

theorem addEdge_run (h : WF0 g) (m : δ) (t : EType) : addEdge u v m t g =
    if u ∉ g.nodes ∨ v ∉ g.nodes ∨ u = v then (.error .graphError, g)
    else (.ok (), addG g u v m t) := by
  unfold addEdge
  rw [PyM.bind_ok (PyM.get_run g)]
  by_cases hu : u ∈ g.nodes
  · by_cases hv : v ∈ g.nodes
    · by_cases huv : u = v
      · simp [huv]
      · simp only [hu, hv, huv, not_true, if_false, or_self]
        rw [PyM.bind_ok (initEdge_run u v g)]
        have hw := h.initG hu hv
        rw [putBoth_run has_initG_left (by rw [hw.hasR]; exact has_initG_right)]
        rw [putBoth_run' (by rw [has_putBoth]; exact has_initG_right)
          (by rw [hasR_putBoth, hw.hasR]; exact has_initG_left)]
        rfl
    · simp [hu, hv]
  · simp [hu]

theorem removeDirectedEdge_soft_run (h : WF0 g) : removeDirectedEdge u v true g =
    if u ∉ g.nodes ∨ v ∉ g.nodes then (.error .graphError, g)
    else (.ok (), modBoth g u v (fun e => { e with deleted := true })) := by
  unfold removeDirectedEdge
  rw [PyM.bind_ok (PyM.get_run g)]
  by_cases hu : u ∈ g.nodes <;> by_cases hv : v ∈ g.nodes <;> simp only [hu, hv, not_true, if_false, or_self,
    not_false_eq_true, if_true, true_or, or_true, PyM.raise_run]
  cases hs : g.edges.get2 u v with
  | none =>
    have : g.edges.has2 u v = false := by simp [Dict.has2, hs]
    simp only [this, modBoth, hs]
    by_cases h1 : g.edges.has u = true <;> simp [h1]
  | some e =>
    have h2 : g.edges.has2 u v = true := by simp [Dict.has2, hs]
    have h1 : g.edges.has u = true := get2_isSome_has hs
    simp only [h1, h2, Bool.not_true, Bool.false_eq_true, if_false]
    exact modBoth_run h hs _

/-- The graph after a hard `remove_directed_edge`. -/
def dropG (g : Graph ι δ) (u v : ι) : Graph ι δ :=
  match g.edges.get2 u v with
  | some e => dropBoth g u v e
  | none => g

theorem removeDirectedEdge_hard_run (h : WF0 g) : removeDirectedEdge u v false g =
    if u ∉ g.nodes ∨ v ∉ g.nodes then (.error .graphError, g)
    else (.ok (), dropG g u v) := by
  unfold removeDirectedEdge
  rw [PyM.bind_ok (PyM.get_run g)]
  by_cases hu : u ∈ g.nodes <;> by_cases hv : v ∈ g.nodes <;> simp only [hu, hv, not_true, if_false, or_self,
    not_false_eq_true, if_true, true_or, or_true, PyM.raise_run]
  cases hs : g.edges.get2 u v with
  | none =>
    have : g.edges.has2 u v = false := by simp [Dict.has2, hs]
    simp only [this, dropG, hs]
    by_cases h1 : g.edges.has u = true <;> simp [h1]
  | some e =>
    have h2 : g.edges.has2 u v = true := by simp [Dict.has2, hs]
    have h1 : g.edges.has u = true := get2_isSome_has hs
    obtain ⟨_, _, _, h4, h5⟩ := h.edge u v e hs
    simp only [h1, h2, Bool.not_true, Bool.false_eq_true, if_false, dropG, hs]
    rw [PyM.bind_ok (a := e) (s' := g) (by simp [getE, hs])]
    rw [PyM.bind_ok (a := ()) (s' := { g with del := g.del.set2 u v e }) (by simp [setD, h.hasD, h1])]
    rw [PyM.bind_ok (a := ()) (s' := { g with del := g.del.set2 u v e, edges := g.edges.del2 u v })
      (by simp [delE, h2])]
    have h6 : g.rev.has2 v u = true := by simp [Dict.has2, h5]
    simp [delR, h6, dropBoth]

theorem nodes_dropG : (dropG g u v).nodes = g.nodes := by unfold dropG; split <;> rfl
theorem hist_dropG : (dropG g u v).hist = g.hist := by unfold dropG; split <;> rfl
theorem keys_dropG : (dropG g u v).edges.keys = g.edges.keys := by
  unfold dropG; split
  · exact Dict.keys_del2 _ _ _
  · rfl
theorem get2_dropG (a b : ι) : (dropG g u v).edges.get2 a b =
    if u = a ∧ v = b then none else g.edges.get2 a b := by
  unfold dropG
  split
  · exact Dict.get2_del2 _ _ _ _ _
  · rename_i hn
    by_cases hc : u = a ∧ v = b
    · obtain ⟨rfl, rfl⟩ := hc; simp [hn]
    · simp [hc]
theorem WF0.dropG (h : WF0 g) : WF0 (dropG g u v) := by
  unfold Graph.dropG
  split
  · exact h.dropBoth ‹_›
  · exact h
theorem RevExact.dropG (hr : RevExact g) : RevExact (dropG g u v) := by
  unfold Graph.dropG
  split
  · exact RevExact.dropBoth hr
  · exact hr

theorem softMark_run (h : WF0 g) : softMark u v g =
    (.ok (), modBoth g u v (fun e => { e with deleted := true })) := by
  unfold softMark
  rw [PyM.bind_ok (PyM.get_run g)]
  cases hs : g.edges.get2 u v with
  | none =>
    have : g.edges.has2 u v = false := by simp [Dict.has2, hs]
    simp [this, modBoth, hs]
  | some e =>
    have h2 : g.edges.has2 u v = true := by simp [Dict.has2, hs]
    simp only [h2, if_true]
    exact modBoth_run h hs _

theorem removeEdge_soft_run (h : WF0 g) : removeEdge u v true g =
    if u ∉ g.nodes ∨ v ∉ g.nodes then (.error .graphError, g)
    else (.ok (), modBoth (modBoth g u v (fun e => { e with deleted := true })) v u
      (fun e => { e with deleted := true })) := by
  unfold removeEdge
  rw [PyM.bind_ok (PyM.get_run g)]
  by_cases hu : u ∈ g.nodes <;> by_cases hv : v ∈ g.nodes <;> simp only [hu, hv, not_true, if_false, or_self,
    not_false_eq_true, if_true, true_or, or_true, PyM.raise_run]
  rw [PyM.bind_ok (softMark_run h)]
  exact softMark_run (h.modBoth (fun _ => ⟨rfl, rfl⟩))

/-- One hard half of `remove_edge` on a graph in which the entry is stored. -/
theorem hardDel_run_some {e : Edge ι δ} (hs : g.edges.get2 u v = some e) (hd : g.del.has u = true) :
    hardDel u v g = if g.rev.has2 u v then
      (.ok (), { g with del := g.del.set2 u v e, edges := g.edges.del2 u v, rev := g.rev.del2 u v })
    else (.error .keyError, { g with del := g.del.set2 u v e, edges := g.edges.del2 u v }) := by
  unfold hardDel
  rw [PyM.bind_ok (PyM.get_run g)]
  have h2 : g.edges.has2 u v = true := by simp [Dict.has2, hs]
  simp only [h2, if_true]
  rw [PyM.bind_ok (a := e) (s' := g) (by simp [getE, hs])]
  rw [PyM.bind_ok (a := ()) (s' := { g with del := g.del.set2 u v e }) (by simp [setD, hd])]
  rw [PyM.bind_ok (a := ()) (s' := { g with del := g.del.set2 u v e, edges := g.edges.del2 u v })
    (by simp [delE, h2])]
  simp only [delR]

theorem hardDel_run_none (hs : g.edges.get2 u v = none) : hardDel u v g = (.ok (), g) := by
  unfold hardDel
  rw [PyM.bind_ok (PyM.get_run g)]
  have h2 : g.edges.has2 u v = false := by simp [Dict.has2, hs]
  simp [h2]

/-- The graph after a hard `remove_edge` on an edge stored in both directions. -/
def dropTwo (g : Graph ι δ) (u v : ι) (e e' : Edge ι δ) : Graph ι δ :=
  { g with
    del := (g.del.set2 u v e).set2 v u e'
    edges := (g.edges.del2 u v).del2 v u
    rev := (g.rev.del2 u v).del2 v u }

theorem removeEdge_hard_run_two (h : WF0 g) {e e' : Edge ι δ} (he : g.edges.get2 u v = some e)
    (he' : g.edges.get2 v u = some e') : removeEdge u v false g = (.ok (), dropTwo g u v e e') := by
  obtain ⟨_, _, h3, h4, h5⟩ := h.edge u v e he
  obtain ⟨_, _, _, h4', h5'⟩ := h.edge v u e' he'
  have hu := h.rowsN u h4'
  have hv := h.rowsN v h4
  have hvu : ¬ (u = v ∧ v = u) := fun x => h3 x.1
  unfold removeEdge
  rw [PyM.bind_ok (PyM.get_run g)]
  simp only [hu, hv, not_true, if_false, Bool.false_eq_true]
  have hr : g.rev.has2 u v = true := by simp [Dict.has2, h5']
  rw [PyM.bind_ok (by rw [hardDel_run_some he (by rw [h.hasD]; exact h4')]; rw [if_pos hr])]
  rw [hardDel_run_some (e := e')]
  · rw [if_pos]
    · rfl
    · simp only [Dict.has2, Dict.get2_del2, hvu, if_false, h5]
      rfl
  · simp only [Dict.get2_del2, hvu, if_false]
    exact he'
  · simp [h.hasD, h4]

/-- one-direction case: what a hard `remove_edge` leaves behind -/
def dropHalf (g : Graph ι δ) (u v : ι) (e : Edge ι δ) : Graph ι δ :=
  { g with del := g.del.set2 u v e, edges := g.edges.del2 u v, rev := g.rev.del2 u v }

theorem del2_of_none {α : Type} (d : Dict ι (Dict ι α)) (u v : ι) (h : d.get2 u v = none) : d.del2 u v = d := by
  unfold Dict.del2
  cases hd : d.get? u with
  | none => rfl
  | some r =>
    have hv : r.get? v = none := by simpa [Dict.get2, hd] using h
    have hdel : ∀ (l : List (ι × α)), assoc v l = none → assocDel v l = l := by
      intro l
      induction l with
      | nil => intro _; rfl
      | cons p l ih =>
        obtain ⟨k, x⟩ := p
        by_cases hk : k = v
        · simp [assoc, hk]
        · simp only [assoc, hk, if_false, assocDel]
          intro hh; rw [ih hh]
    have hset : ∀ (l : List (ι × Dict ι α)) (x : Dict ι α), assoc u l = some x → assocSet u x l = l := by
      intro l x
      induction l with
      | nil => intro hh; simp [assoc] at hh
      | cons p l ih =>
        obtain ⟨k, y⟩ := p
        by_cases hk : k = u
        · intro hh
          simp only [assoc, hk, if_true, Option.some.injEq] at hh
          simp [assocSet, hk, hh]
        · simp only [assoc, hk, if_false, assocSet]
          intro hh; rw [ih hh]
    have hr : r.del v = r := Dict.ext (hdel r.items hv)
    show d.set u (r.del v) = d
    rw [hr]
    exact Dict.ext (hset d.items r hd)

theorem removeEdge_hard_run_one (h : WF0 g) {e : Edge ι δ} (he : g.edges.get2 u v = some e)
    (he' : g.edges.get2 v u = none) :
    removeEdge u v false g =
      (if g.rev.has2 u v then .ok () else .error .keyError, dropHalf g u v e) := by
  obtain ⟨_, _, h3, h4, h5⟩ := h.edge u v e he
  have hu := h.rowsN u (get2_isSome_has he)
  have hv := h.rowsN v h4
  have hvu : ¬ (u = v ∧ v = u) := fun x => h3 x.1
  unfold removeEdge
  rw [PyM.bind_ok (PyM.get_run g)]
  simp only [hu, hv, not_true, if_false, Bool.false_eq_true]
  rw [PyM.bind_run, hardDel_run_some he (by rw [h.hasD]; exact get2_isSome_has he)]
  by_cases hr : g.rev.has2 u v = true
  · simp only [hr, if_true]
    rw [hardDel_run_none]
    · rfl
    · simp only [Dict.get2_del2, hvu, if_false]
      exact he'
  · simp only [hr]
    unfold dropHalf
    rw [del2_of_none g.rev u v (has2_false_iff.1 (by simpa using hr))]
    rfl

theorem removeEdge_hard_run_one' (h : WF0 g) {e : Edge ι δ} (he : g.edges.get2 u v = none)
    (he' : g.edges.get2 v u = some e) :
    removeEdge u v false g =
      (if g.rev.has2 v u then .ok () else .error .keyError, dropHalf g v u e) := by
  obtain ⟨_, _, h3, h4, h5⟩ := h.edge v u e he'
  have hv := h.rowsN v (get2_isSome_has he')
  have hu := h.rowsN u h4
  unfold removeEdge
  rw [PyM.bind_ok (PyM.get_run g)]
  simp only [hu, hv, not_true, if_false, Bool.false_eq_true]
  rw [PyM.bind_ok (hardDel_run_none he), hardDel_run_some he' (by rw [h.hasD]; exact get2_isSome_has he')]
  by_cases hr : g.rev.has2 v u = true
  · simp only [hr, if_true]; rfl
  · simp only [hr]
    unfold dropHalf
    rw [del2_of_none g.rev v u (has2_false_iff.1 (by simpa using hr))]
    rfl

theorem removeEdge_hard_run_zero (hu : u ∈ g.nodes) (hv : v ∈ g.nodes) (he : g.edges.get2 u v = none)
    (he' : g.edges.get2 v u = none) : removeEdge u v false g = (.ok (), g) := by
  unfold removeEdge
  rw [PyM.bind_ok (PyM.get_run g)]
  simp only [hu, hv, not_true, if_false, Bool.false_eq_true]
  rw [PyM.bind_ok (hardDel_run_none he), hardDel_run_none he']

theorem removeEdge_unknown (hn : u ∉ g.nodes ∨ v ∉ g.nodes) (s : Bool) :
    removeEdge u v s g = (.error .graphError, g) := by
  unfold removeEdge
  rw [PyM.bind_ok (PyM.get_run g)]
  by_cases hu : u ∈ g.nodes
  · have hv : v ∉ g.nodes := hn.resolve_left (fun x => x hu)
    simp [hu, hv]
  · simp [hu]

theorem WF0.dropTwo (h : WF0 g) {e e' : Edge ι δ} (he : g.edges.get2 u v = some e)
    (he' : g.edges.get2 v u = some e') : WF0 (dropTwo g u v e e') := by
  obtain ⟨_, _, h3, h4, h5⟩ := h.edge u v e he
  obtain ⟨_, _, _, h4', h5'⟩ := h.edge v u e' he'
  have hE : ∀ a b, (Graph.dropTwo g u v e e').edges.get2 a b =
      if v = a ∧ u = b then none else if u = a ∧ v = b then none else g.edges.get2 a b := by
    intro a b
    show ((g.edges.del2 u v).del2 v u).get2 a b = _
    rw [Dict.get2_del2, Dict.get2_del2]
  have hR : ∀ a b, (Graph.dropTwo g u v e e').rev.get2 a b =
      if v = a ∧ u = b then none else if u = a ∧ v = b then none else g.rev.get2 a b := by
    intro a b
    show ((g.rev.del2 u v).del2 v u).get2 a b = _
    rw [Dict.get2_del2, Dict.get2_del2]
  have hD : ∀ a b, (Graph.dropTwo g u v e e').del.get2 a b =
      if v = a ∧ u = b then some e' else if u = a ∧ v = b then some e else g.del.get2 a b := by
    intro a b
    show ((g.del.set2 u v e).set2 v u e').get2 a b = _
    rw [Dict.get2_set2 _ _ _ _ _ _ (by simp [h.hasD, h4]), Dict.get2_set2 _ _ _ _ _ _ (by simp [h.hasD, h4'])]
  have hH : ∀ a, (Graph.dropTwo g u v e e').edges.has a = g.edges.has a := by
    intro a
    show ((g.edges.del2 u v).del2 v u).has a = _
    simp
  constructor
  · exact h.nodup
  · show ((g.rev.del2 u v).del2 v u).keys = ((g.edges.del2 u v).del2 v u).keys
    simp only [Dict.keys_del2, h.keysR]
  · show ((g.del.set2 u v e).set2 v u e').keys = ((g.edges.del2 u v).del2 v u).keys
    simp only [Dict.keys_del2, Dict.keys_set2, h.keysD]
  · intro a ha; rw [hH] at ha; exact h.rowsN a ha
  · intro a b x hx
    rw [hE] at hx
    rw [hR, hH]
    by_cases c1 : v = a ∧ u = b
    · simp [c1] at hx
    · by_cases c2 : u = a ∧ v = b
      · simp [c2] at hx
      · rw [if_neg c1, if_neg c2] at hx
        rw [if_neg (fun c => c2 ⟨c.2, c.1⟩), if_neg (fun c => c1 ⟨c.2, c.1⟩)]
        exact h.edge a b x hx
  · intro a b x hx
    rw [hR] at hx
    rw [hH]
    by_cases c1 : v = a ∧ u = b
    · simp [c1] at hx
    · by_cases c2 : u = a ∧ v = b
      · simp [c2] at hx
      · rw [if_neg c1, if_neg c2] at hx
        exact h.revE a b x hx
  · intro a b x hx
    rw [hD] at hx
    rw [hH]
    by_cases c1 : v = a ∧ u = b
    · obtain ⟨rfl, rfl⟩ := c1; exact ⟨Ne.symm h3, h4'⟩
    · by_cases c2 : u = a ∧ v = b
      · obtain ⟨rfl, rfl⟩ := c2; exact ⟨h3, h4⟩
      · rw [if_neg c1, if_neg c2] at hx
        exact h.delE a b x hx
  · intro a b hab
    show g.hist.has _ = true ∧ g.hist.has _ = true
    apply h.histK
    rw [has2_iff] at hab ⊢
    obtain ⟨x, hx⟩ := hab
    rw [hE] at hx
    by_cases c1 : v = a ∧ u = b
    · simp [c1] at hx
    · by_cases c2 : u = a ∧ v = b
      · simp [c2] at hx
      · rw [if_neg c1, if_neg c2] at hx
        exact ⟨x, hx⟩

theorem RevExact.dropTwo (hr : RevExact g) {e e' : Edge ι δ} : RevExact (dropTwo g u v e e') := by
  intro a b
  show ((g.rev.del2 u v).del2 v u).get2 b a = ((g.edges.del2 u v).del2 v u).get2 a b
  rw [Dict.get2_del2, Dict.get2_del2, Dict.get2_del2, Dict.get2_del2, hr a b]
  by_cases c1 : v = a ∧ u = b
  · simp [c1.1, c1.2]
  · by_cases c2 : u = a ∧ v = b
    · simp [c2.1, c2.2]
    · have c3 : ¬ (v = b ∧ u = a) := fun c => c2 ⟨c.2, c.1⟩
      have c4 : ¬ (u = b ∧ v = a) := fun c => c1 ⟨c.2, c.1⟩
      simp [c1, c2, c3, c4]

theorem WF0.dropHalf (h : WF0 g) {e : Edge ι δ} (he : g.edges.get2 u v = some e)
    (he' : g.edges.get2 v u = none) : WF0 (dropHalf g u v e) := by
  obtain ⟨_, _, h3, h4, h5⟩ := h.edge u v e he
  have hu := get2_isSome_has he
  have hE : ∀ a b, (Graph.dropHalf g u v e).edges.get2 a b =
      if u = a ∧ v = b then none else g.edges.get2 a b := fun a b => Dict.get2_del2 _ _ _ _ _
  have hR : ∀ a b, (Graph.dropHalf g u v e).rev.get2 a b =
      if u = a ∧ v = b then none else g.rev.get2 a b := fun a b => Dict.get2_del2 _ _ _ _ _
  have hD : ∀ a b, (Graph.dropHalf g u v e).del.get2 a b =
      if u = a ∧ v = b then some e else g.del.get2 a b :=
    fun a b => Dict.get2_set2 _ _ _ _ _ _ (by rw [h.hasD]; exact hu)
  have hH : ∀ a, (Graph.dropHalf g u v e).edges.has a = g.edges.has a := fun a => Dict.has_del2 _ _ _ _
  constructor
  · exact h.nodup
  · show (g.rev.del2 u v).keys = (g.edges.del2 u v).keys
    simp only [Dict.keys_del2, h.keysR]
  · show (g.del.set2 u v e).keys = (g.edges.del2 u v).keys
    simp only [Dict.keys_del2, Dict.keys_set2, h.keysD]
  · intro a ha; rw [hH] at ha; exact h.rowsN a ha
  · intro a b x hx
    rw [hE] at hx
    rw [hR, hH]
    by_cases c2 : u = a ∧ v = b
    · simp [c2] at hx
    · rw [if_neg c2] at hx
      have c1 : ¬ (u = b ∧ v = a) := by
        rintro ⟨rfl, rfl⟩
        rw [he'] at hx; cases hx
      rw [if_neg c1]
      exact h.edge a b x hx
  · intro a b x hx
    rw [hR] at hx
    rw [hH]
    by_cases c2 : u = a ∧ v = b
    · simp [c2] at hx
    · rw [if_neg c2] at hx
      exact h.revE a b x hx
  · intro a b x hx
    rw [hD] at hx
    rw [hH]
    by_cases c2 : u = a ∧ v = b
    · obtain ⟨rfl, rfl⟩ := c2; exact ⟨h3, h4⟩
    · rw [if_neg c2] at hx
      exact h.delE a b x hx
  · intro a b hab
    show g.hist.has _ = true ∧ g.hist.has _ = true
    apply h.histK
    rw [has2_iff] at hab ⊢
    obtain ⟨x, hx⟩ := hab
    rw [hE] at hx
    by_cases c2 : u = a ∧ v = b
    · simp [c2] at hx
    · rw [if_neg c2] at hx
      exact ⟨x, hx⟩

end runs
end Graph
end Verif
