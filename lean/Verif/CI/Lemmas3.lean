import Verif.CI.Lemmas2
import Verif.Graph.Props

/-!
# Helper lemmas: start of the phase, and runs without exception
-/

namespace Verif
open Graph
variable {ι ρ δ : Type} [DecidableEq ι]

theorem createAll_reachable {g : Graph ι δ} (hg : Reachable g) (m0 : δ) :
    Reachable (createAllPossibleEdges m0 g).2 := by
  unfold createAllPossibleEdges
  rw [PyM.bind_ok (PyM.get_run g)]
  refine PyM.forEach_invariant Reachable _ _ ?_ g hg
  intro u _ g hg
  refine PyM.forEach_invariant Reachable _ _ ?_ g hg
  intro v _ g hg
  by_cases h : u = v
  · rw [if_pos h]; exact hg
  · rw [if_neg h]
    obtain ⟨ds, hds⟩ := hg
    refine ⟨ds ++ [.addEdge u v m0 .undirected], ?_⟩
    rw [hds]
    simp [Cmd.runAll, List.foldl_append, Cmd.run]

theorem retrieve_histG (g : Graph ι δ) (u v a b : ι) (act : Action) :
    (histG g u v).retrieveEdgeHistory a b act = g.retrieveEdgeHistory a b act := by
  simp only [retrieveEdgeHistory_eq]
  unfold histG
  split
  · rfl
  · rename_i h
    by_cases hab : (u, v) = (a, b)
    · obtain ⟨rfl, rfl⟩ := Prod.mk.inj hab
      cases hx : g.hist.get? (u, v) with
      | none => simp
      | some l => exact absurd ((Dict.has_iff_exists _ _).2 ⟨l, hx⟩) h
    · rw [Dict.get?_set, if_neg hab]

theorem retrieve_addG (g : Graph ι δ) (u v a b : ι) (m : δ) (t : EType) (act : Action) :
    (addG g u v m t).retrieveEdgeHistory a b act = g.retrieveEdgeHistory a b act := by
  have h1 : (addG g u v m t).retrieveEdgeHistory a b act = (initG g u v).retrieveEdgeHistory a b act := rfl
  rw [h1]
  unfold initG
  rw [retrieve_histG, retrieve_histG, retrieveEdgeHistory_eq, retrieveEdgeHistory_eq, hist_rowG, hist_rowG]

/-- creating all edges leaves the recorded actions -/
theorem createAll_history {g : Graph ι δ} (hg : Reachable g) (m0 : δ) (a b : ι) (act : Action) :
    (createAllPossibleEdges m0 g).2.retrieveEdgeHistory a b act = g.retrieveEdgeHistory a b act := by
  unfold createAllPossibleEdges
  rw [PyM.bind_ok (PyM.get_run g)]
  refine (PyM.forEach_invariant (fun g' : Graph ι δ => WF0 g' ∧
    g'.retrieveEdgeHistory a b act = g.retrieveEdgeHistory a b act) _ _ ?_ g ⟨hg.wf, rfl⟩).2
  intro u _ g1 hg1
  refine PyM.forEach_invariant (fun g' : Graph ι δ => WF0 g' ∧
    g'.retrieveEdgeHistory a b act = g.retrieveEdgeHistory a b act) _ _ ?_ g1 hg1
  intro v _ g2 hg2
  by_cases h : u = v
  · rw [if_pos h]; exact hg2
  · rw [if_neg h]
    refine ⟨run_wf hg2.1 (.addEdge u v m0 .undirected), ?_⟩
    rw [addEdge_run hg2.1]
    split
    · exact hg2.2
    · rw [retrieve_addG]; exact hg2.2

/-- the graph store after adding the given nodes (`create_graph_from_dict`, causy/graph_model.py:101-110) -/
def nodesOnly (ids : List ι) : Graph ι δ := Cmd.runAll (ids.map .addNode) Graph.empty

theorem nodesOnly_reachable (ids : List ι) : Reachable (nodesOnly ids : Graph ι δ) := ⟨_, rfl⟩

theorem nodesOnly_facts (ids : List ι) (hn : ids.Nodup) : (nodesOnly ids : Graph ι δ).nodes = ids ∧
    (nodesOnly ids : Graph ι δ).hist = Dict.empty := by
  have : ∀ (g : Graph ι δ), (∀ x ∈ ids, x ∉ g.nodes) → g.hist = Dict.empty →
      (Cmd.runAll (ids.map .addNode) g).nodes = g.nodes ++ ids ∧ (Cmd.runAll (ids.map .addNode) g).hist = Dict.empty := by
    induction ids with
    | nil => intro g _ hh; exact ⟨by simp [Cmd.runAll], hh⟩
    | cons x xs ih =>
      intro g h hh
      rw [List.nodup_cons] at hn
      have hrun : Cmd.runAll ((x :: xs).map .addNode) g = Cmd.runAll (xs.map .addNode) { g with nodes := g.nodes ++ [x] } := by
        show Cmd.runAll (xs.map .addNode) (addNode x g).2 = _
        rw [addNode_run, if_neg (h x List.mem_cons_self)]
      rw [hrun]
      obtain ⟨h1, h2⟩ := ih hn.2 { g with nodes := g.nodes ++ [x] } (by
        intro y hy hm
        rcases List.mem_append.1 hm with hm | hm
        · exact h y (List.mem_cons_of_mem _ hy) hm
        · rw [List.mem_singleton] at hm; subst hm; exact hn.1 hy) hh
      exact ⟨by rw [h1]; simp, h2⟩
  obtain ⟨h1, h2⟩ := this Graph.empty (by intro x _ h; cases h) rfl
  exact ⟨by unfold nodesOnly; rw [h1]; rfl, h2⟩

theorem nodesOnly_history (ids : List ι) (hn : ids.Nodup) (a b : ι) (act : Action) :
    (nodesOnly ids : Graph ι δ).retrieveEdgeHistory a b act = [] := by
  rw [retrieveEdgeHistory_eq, (nodesOnly_facts ids hn).2]
  rfl

namespace CI

/-- every pair of distinct nodes is joined -/
def Complete (g : CGraph ι ρ) : Prop := ∀ a ∈ g.nodes, ∀ b ∈ g.nodes, a ≠ b → g.live a b = true

/-- every stored edge carries a correlation -/
def HasCorr (g : CGraph ι ρ) : Prop := ∀ a b e, g.edges.get2 a b = some e → e.metadata.corr ≠ none

theorem start_facts (gn : CGraph ι ρ) (hgn : Reachable gn) (T : Tests ι ρ) :
    let g0 := (createAllPossibleEdges ({} : Info ι ρ) gn).2
    Inv T g0 g0 ∧ g0.nodes = gn.nodes ∧ Complete g0 := by
  intro g0
  have hwf : WF0 g0 := (createAll_reachable hgn _).wf
  obtain ⟨_, h1, h2, h3, h4⟩ := C13_complete_graph gn hgn ({} : Info ι ρ)
  have hget : ∀ a b e, g0.edges.get2 a b = some e → e.etype = .undirected ∧ e.metadata.corr = none := by
    intro a b e he
    have hn := hwf.edge_nodes he
    have hne := (hwf.edge a b e he).2.2.1
    have := h4 a (by rw [← h1]; exact hn.1) b (by rw [← h1]; exact hn.2) hne
    rw [getEdge_eq] at this
    have he' : (createAllPossibleEdges ({} : Info ι ρ) gn).2.edges.get2 a b = some e := he
    rw [he'] at this
    simp only [Option.elim_some, Except.ok.injEq] at this
    rw [this]
    exact ⟨rfl, rfl⟩
  have hlive : ∀ a b, g0.live a b = true ↔ a ∈ gn.nodes ∧ b ∈ gn.nodes ∧ a ≠ b := by
    intro a b
    constructor
    · intro hl
      have := hwf.live_nodes hl
      rw [← h1]
      exact ⟨this.1, this.2, hwf.live_ne hl⟩
    · intro hh
      have := (h2 a b).2 hh
      rw [undirected_eq hwf, Bool.and_eq_true] at this
      exact this.1
  refine ⟨⟨hwf, rfl, ?_, fun a b e he => (hget a b e he).1, fun a b e he => Or.inl (hget a b e he).2, fun _ _ h => h,
    fun _ _ _ => rfl, ?_⟩, h1, ?_⟩
  · intro a b hl
    have := (hlive a b).1 hl
    exact (hlive b a).2 ⟨this.2.1, this.1, this.2.2.symm⟩
  · intro a b h h'; rw [h] at h'; cases h'
  · intro a ha b hb hne
    exact (hlive a b).2 ⟨h1 ▸ ha, h1 ▸ hb, hne⟩

theorem Inv.applyTotal {T : Tests ι ρ} {g0 : CGraph ι ρ} : ApplyTotal (Inv T g0) (Proposal T g0.nodes) := by
  intro r g hg hr
  rcases hr with hr | ⟨hr, m, hm⟩ | ⟨hr, hc⟩
  · exact ⟨_, _, applyOne_doNothing hr⟩
  · rw [applyOne_update hg.wf hr]
    split
    · rename_i hl
      rw [if_pos]
      · exact ⟨_, _, rfl⟩
      · have hb : g.live r.u r.v = true ∧ g.live r.v r.u = true := by
          rw [Bool.or_eq_true] at hl
          rcases hl with hl | hl
          · exact ⟨hl, hg.sym _ _ hl⟩
          · exact ⟨hg.sym _ _ hl, hl⟩
        obtain ⟨e1, h1, _⟩ := live_iff.1 hb.1
        obtain ⟨e2, h2, _⟩ := live_iff.1 hb.2
        simp [Dict.has2, h1, h2]
    · exact ⟨_, _, rfl⟩
  · rw [applyOne_removeUndirected hg.wf hr]
    split <;> exact ⟨_, _, rfl⟩

omit [DecidableEq ι] in
theorem allGen_total {s : Settings} (hs : 0 ≤ s.min) (g : Graph ι δ) : ∃ ts, allGen s g = .ok ts := by
  unfold allGen allCombinations
  cases hb : s.bounds g.nodes.length with
  | none => exact ⟨_, rfl⟩
  | some p =>
    obtain ⟨a, b⟩ := p
    have ha : a = s.min := (s.bounds_fst _ _ _ hb).1
    simp only
    rw [combosOfSizes_ok _ _ (fun k hk => by rw [mem_pyRange] at hk; omega)]
    exact ⟨_, rfl⟩

omit [DecidableEq ι] in
theorem allGen_single {s : Settings} {g0 : Graph ι δ} {ts : List (Graph ι δ → List (Yield ι))} (h : allGen s g0 = .ok ts)
    {t : Graph ι δ → List (Yield ι)} (ht : t ∈ ts) {g : Graph ι δ} {y : Yield ι} (hy : y ∈ t g) : ∃ c, y = .single c := by
  obtain ⟨cs, h1, rfl⟩ := allGen_combos h
  rw [List.mem_singleton] at ht
  subst ht
  obtain ⟨c', hc', rfl⟩ := List.mem_map.1 hy
  exact ⟨c', rfl⟩

theorem edgeExists_of_live {g : Graph ι δ} (h : WF0 g) {a b : ι} (hl : g.live a b = true) : g.edgeExists a b = true := by
  rw [edgeExists_eq h, hl]; rfl

theorem edgeValue_live {g : CGraph ι ρ} (h : WF0 g) {a b : ι} (hl : g.live a b = true) :
    ∃ e, g.edges.get2 a b = some e ∧ g.edgeValue a b = .ok (some e.metadata) := by
  obtain ⟨e, he, _⟩ := live_iff.1 hl
  refine ⟨e, he, ?_⟩
  unfold edgeValue
  simp [edgeExists_of_live h hl, he]

/-- the mark an update leaves: the entries of its pair carry a correlation -/
def Marked (r : CResult ι ρ) (g : CGraph ι ρ) : Prop :=
  (∀ e, g.edges.get2 r.u r.v = some e → e.metadata.corr ≠ none) ∧
  (∀ e, g.edges.get2 r.v r.u = some e → e.metadata.corr ≠ none)

/-- an update of the phase -/
def Update (T : Tests ι ρ) (r : CResult ι ρ) : Prop :=
  r.action = .updateEdge ∧ ∃ m : Info ι ρ, r.data = some { m with corr := some (T.pearson r.u r.v) }

/-- applying an update leaves the live edges and gives entries of its pair the correlation -/
theorem update_spec {T : Tests ι ρ} {g : CGraph ι ρ} (h : WF0 g) (hsym : ∀ a b, g.live a b = true → g.live b a = true)
    {r : CResult ι ρ} (hr : Update T r) : (∀ a b, (applyOne r g).2.live a b = g.live a b) ∧
    (∀ a b e, (applyOne r g).2.edges.get2 a b = some e → (∃ e', g.edges.get2 a b = some e' ∧
      (e.metadata.corr ≠ none ∨ e = e'))) ∧ (g.live r.u r.v = true → Marked r (applyOne r g).2) := by
  obtain ⟨hr, m, hm⟩ := hr
  rw [applyOne_update h hr]
  have hs : ∀ e : Edge ι (Info ι ρ), (setMeta r.data e).metadata.corr ≠ none := by
    intro e; rw [hm]; simp [setMeta]
  split
  · rename_i hl
    split
    · have hget : ∀ a b, (addH r.v r.u r (addH r.u r.v r (modBoth (modBoth g r.u r.v (setMeta r.data)) r.v r.u
          (setMeta r.data)))).edges.get2 a b = if (r.v = a ∧ r.u = b) ∨ (r.u = a ∧ r.v = b) then
            (g.edges.get2 a b).map (setMeta r.data) else g.edges.get2 a b := by
        intro a b
        simp only [edges_addH]
        rw [get2_modBoth]
        by_cases h1 : r.v = a ∧ r.u = b
        · obtain ⟨rfl, rfl⟩ := h1
          rw [if_pos ⟨rfl, rfl⟩, if_pos (Or.inl ⟨rfl, rfl⟩), get2_modBoth]
          by_cases h2 : r.u = r.v ∧ r.v = r.u
          · exfalso
            rw [Bool.or_eq_true] at hl
            rcases hl with hl | hl
            · exact h.live_ne hl h2.1
            · exact h.live_ne hl h2.2
          · rw [if_neg h2]
        · rw [if_neg h1, get2_modBoth]
          by_cases h2 : r.u = a ∧ r.v = b
          · obtain ⟨rfl, rfl⟩ := h2
            rw [if_pos ⟨rfl, rfl⟩, if_pos (Or.inr ⟨rfl, rfl⟩)]
          · rw [if_neg h2, if_neg (by tauto)]
      refine ⟨?_, ?_, ?_⟩
      · intro a b
        simp only [live_addH]
        rw [live_same _ (fun e => by unfold setMeta; split <;> rfl),
          live_same _ (fun e => by unfold setMeta; split <;> rfl)]
      · intro a b e he
        rw [hget] at he
        split at he
        · cases hx : g.edges.get2 a b with
          | none => rw [hx] at he; cases he
          | some e' =>
            rw [hx] at he
            simp only [Option.map_some, Option.some.injEq] at he
            exact ⟨e', rfl, Or.inl (he ▸ hs e')⟩
        · exact ⟨e, he, Or.inr rfl⟩
      · intro _
        constructor
        · intro e he
          rw [hget, if_pos (Or.inr ⟨rfl, rfl⟩)] at he
          cases hx : g.edges.get2 r.u r.v with
          | none => rw [hx] at he; cases he
          | some e' =>
            rw [hx] at he
            simp only [Option.map_some, Option.some.injEq] at he
            exact he ▸ hs e'
        · intro e he
          rw [hget, if_pos (Or.inl ⟨rfl, rfl⟩)] at he
          cases hx : g.edges.get2 r.v r.u with
          | none => rw [hx] at he; cases he
          | some e' =>
            rw [hx] at he
            simp only [Option.map_some, Option.some.injEq] at he
            exact he ▸ hs e'
    · rename_i hh
      exfalso
      apply hh
      have hb : g.live r.u r.v = true ∧ g.live r.v r.u = true := by
        rw [Bool.or_eq_true] at hl
        rcases hl with hl | hl
        · exact ⟨hl, hsym _ _ hl⟩
        · exact ⟨hsym _ _ hl, hl⟩
      obtain ⟨e1, h1, _⟩ := live_iff.1 hb.1
      obtain ⟨e2, h2, _⟩ := live_iff.1 hb.2
      simp [Dict.has2, h1, h2]
  · rename_i hl
    refine ⟨fun _ _ => rfl, fun a b e he => ⟨e, he, Or.inr rfl⟩, ?_⟩
    intro hh
    simp [hh] at hl

end CI
end Verif
