import Verif.Cli.Model
import Verif.Cli.Spec
import Verif.Pipeline.Props
import Verif.Par.Props
import Verif.Data.Props
import Verif.PC.ParLemmas

/-!
# Lemmas for `causy execute`
-/

namespace Verif
namespace Cli
open Graph Data
variable {ι R δ : Type} [LinearOrder ι]

/-! ## Steps keep the nodes -/

theorem applyOne_nodes {g : Graph ι δ} (h : WF0 g) (r : TestResult ι δ) : (applyOne r g).2.nodes = g.nodes := by
  cases hr : r.action.isRestore with
  | false => exact (applyOne_keys h hr).2.2.1
  | true =>
    cases ha : r.action <;> rw [ha] at hr <;> try (cases hr)
    · rw [applyOne_restore h ha]
      split
      · rfl
      · have hone := run_nodes h (.restoreEdge r.u r.v : Cmd ι δ)
        change (restoreEdge r.u r.v g).2.nodes = _ at hone
        generalize restoreEdge r.u r.v g = x at hone
        obtain ⟨e | a, g'⟩ := x
        · exact hone
        · simpa using hone
    · rw [applyOne_restoreDirected h ha]
      split
      · rfl
      · have hone := run_nodes h (.restoreDirectedEdge r.u r.v : Cmd ι δ)
        change (restoreDirectedEdge r.u r.v g).2.nodes = _ at hone
        generalize restoreDirectedEdge r.u r.v g = x at hone
        obtain ⟨e | a, g'⟩ := x
        · exact hone
        · simpa using hone

/-- reachable, with these nodes -/
def Over (N : List ι) (g : Graph ι δ) : Prop := Reachable g ∧ g.nodes = N

theorem over_take {N : List ι} {g : Graph ι δ} (hg : Over N g) (rs : List (Option (List (TestResult ι δ)))) :
    Over N (takeAction false rs g).2 := by
  refine ⟨C11_actions_reachable g hg.1 false rs, ?_⟩
  rw [takeAction_snd]
  exact (takeItems_inv (fun g => WF0 g ∧ g.nodes = N) (flatten rs)
    (fun r _ g h => ⟨applyOne_wf h.1, (applyOne_nodes h.1 r).trans h.2⟩) ⟨hg.1.wf, hg.2⟩).2

theorem over_execute {N : List ι} {g : Graph ι δ} (hg : Over N g) (s : Step ι δ) : Over N (s.execute false g).2 :=
  Step.execute_inv (Over N) s false (fun rs _ hg => over_take hg rs) hg

theorem over_purge {N : List ι} {g : Graph ι δ} (hg : Over N g) : Over N (purge g).2 := by
  constructor
  · obtain ⟨ds, hds⟩ := hg.1
    refine ⟨ds ++ [.purge], ?_⟩
    rw [hds]
    simp [Cmd.runAll, List.foldl_append, Cmd.run]
  · exact (run_nodes hg.1.wf (.purge : Cmd ι δ)).trans hg.2

theorem over_effect {N : List ι} {p : PStep ι δ} {g g' : Graph ι δ} {e : HistRec ι δ} (h : StepEffect p g e g')
    (hg : Over N g) : Over N g' := by
  cases h with
  | plain s _ g1 _ t p hx hp =>
    have hr := over_execute hg s
    rw [stepRuns_iff.2 hx] at hr
    have := over_purge hr
    rwa [hp] at this
  | loop _ steps exit _ _ rs hx =>
    obtain ⟨fuel, hx⟩ := rounds_iff.2 hx
    have := loopGo_inv (Over N) steps exit (fun s _ g hg => over_execute hg s) fuel 0 none hg
    rwa [hx] at this
  | together _ steps _ _ rs ts t p hx ht =>
    have hr2 := over_take hg [some ts]
    rwa [ht] at hr2

theorem over_par {N : List ι} {s : Step ι δ} {size : Nat} {g : Graph ι δ} {out : Except PyErr (List (TestResult ι δ) × List (TestResult ι δ)) × Graph ι δ} (hg : Over N g)
    (h : Par.Run s false size g out) : Over N out.2 := by
  have hstar : ∀ ts st, Par.Trans.Star s false size (.init g ts) st → Over N st.graph := by
    intro ts st hr
    refine Par.star_inv (fun st => Over N st.graph) ?_ hr hg
    intro st st' h ht
    cases ht with
    | generate => exact h
    | send => exact h
    | receive => exact h
    | apply r rs t p g' hc ha =>
      have := over_take h (Par.asList r)
      rwa [ha] at this
  cases h with
  | badSize _ => exact hg
  | badGen _ _ _ => exact hg
  | done _ ts _ st hr _ => exact hstar ts st hr
  | raised _ ts _ st hr e g' hf =>
    cases hf with
    | batch l1 e l2 hc hs => exact hstar ts st hr
    | apply r rs e g' hc ha =>
      have := over_take (hstar ts st hr) (Par.asList r)
      rwa [ha] at this

/-! ## Runs that succeed -/

theorem stepEffect_name {p : PStep ι δ} {g g' : Graph ι δ} {e : HistRec ι δ} (h : StepEffect p g e g') : e.name = p.name := by
  cases h <;> rfl

/-- a successful step -/
theorem stage_ok {N : List ι} {fuel : Nat} {x : Stage ι δ} {m m' : GModel ι δ} (h : x.Run fuel m (.ok (), m'))
    (hg : Over N m.graph) :
    Over N m'.graph ∧ (∃ e : HistRec ι δ, m'.history = m.history ++ [e] ∧ e.name = stageName x) ∧
    (isPlain x → ∀ u v e, m'.graph.getEdge u v = .ok e → e.deleted = false) := by
  generalize ho : (Except.ok (), m') = out at h
  cases h with
  | seq p m =>
    obtain ⟨e, h1, h2⟩ := PStep.run_ok fuel p m m' ho.symm
    refine ⟨over_effect h2 hg, ⟨e, h1, stepEffect_name h2⟩, fun hp => ?_⟩
    cases p with
    | plain s => exact C33_purged_after_plain s _ _ _ hg.1 h2
    | loop => exact hp.elim
    | together => exact hp.elim
  | par s size m t p g' hr =>
    have hg' : Over N g' := over_par hg hr
    have h5 := C05_purge_invisible g' hg'.1
    rw [PyM.bind_run] at ho
    simp only [appendHistory, PyM.mod_run, onGraph_run] at ho
    simp only [Prod.mk.injEq] at ho
    obtain ⟨-, rfl⟩ := ho
    exact ⟨over_purge hg', ⟨_, rfl, rfl⟩, fun _ => h5.2.2.2.2.2.2.2.2.1⟩
  | raised => cases ho

theorem stages_ok {N : List ι} {fuel : Nat} {xs : List (Stage ι δ)} {m m' : GModel ι δ} (h : Stages.Run fuel xs m (.ok (), m'))
    (hg : Over N m.graph) :
    Over N m'.graph ∧ m'.history.map HistRec.name = m.history.map HistRec.name ++ xs.map stageName ∧
    (∀ x, xs.getLast? = some x → isPlain x → ∀ u v e, m'.graph.getEdge u v = .ok e → e.deleted = false) := by
  induction xs generalizing m with
  | nil =>
    generalize ho : (Except.ok (), m') = out at h
    cases h
    simp only [Prod.mk.injEq, true_and] at ho
    subst ho
    exact ⟨hg, by simp, by simp⟩
  | cons x xs ih =>
    generalize ho : (Except.ok (), m') = out at h
    cases h with
    | cons _ _ _ m1 _ h1 hs =>
      subst ho
      obtain ⟨a1, ⟨e, a2, a3⟩, a4⟩ := stage_ok h1 hg
      obtain ⟨b1, b2, b3⟩ := ih hs a1
      refine ⟨b1, by rw [b2, a2]; simp [a3], ?_⟩
      intro y hy hp
      cases xs with
      | nil =>
        simp only [List.getLast?_singleton, Option.some.injEq] at hy
        subst hy
        generalize ho : (Except.ok (), m') = out at hs
        cases hs
        simp only [Prod.mk.injEq, true_and] at ho
        subst ho
        exact a4 hp
      | cons z zs => exact b3 y (by simpa using hy) hp
    | raised => cases ho

/-! ## The report -/

theorem printEdges_ok {g : Graph ι δ} (hw : WF0 g) (l : List (ι × ι × Edge ι δ)) (hl : ∀ t ∈ l, t ∈ g.storedList) :
    printEdges g (l.map (fun t => (t.1, t.2.1))) = .ok (l.map (fun t => t.2.2)) := by
  induction l with
  | nil => rfl
  | cons t l ih =>
    obtain ⟨u, v, e⟩ := t
    have he := (mem_storedList g u v e).1 (hl _ List.mem_cons_self)
    have hn := hw.edge u v e he
    simp only [List.map_cons]
    unfold printEdges
    have hu : g.edges.has u = true := by
      unfold Dict.get2 at he
      rw [Dict.has_iff_exists]
      cases hr : g.edges.get? u with
      | none => rw [hr] at he; cases he
      | some r => exact ⟨r, rfl⟩
    rw [if_pos ⟨hw.rowsN u hu, hw.rowsN v hn.2.2.2.1⟩, he]
    simp only
    rw [ih (fun t ht => hl t (List.mem_cons_of_mem _ ht))]

theorem report_ok {o : Options} {ref : Ref} {m : GModel ι δ} (hg : Reachable m.graph) :
    report o ref m = .ok ⟨m.graph.storedList.map (fun t => t.2.2), ref, m.graph.nodes,
      (m.graph.storedList.filter (fun t => !t.2.2.deleted)).map (fun t => t.2.2), m.history, given o.outputFile⟩ := by
  unfold report storedPairs
  rw [printEdges_ok hg.wf _ (fun t ht => ht), retrieveEdges_eq hg.wf]

/-- the columns of a data file have different names -/
theorem loadData_nodup {env : Env ι R δ} {nodes : Nodes ι R} (h : loadData env = .ok nodes) : (nodes.map Prod.fst).Nodup := by
  unfold loadData at h
  cases hd : env.document with
  | error e => rw [hd] at h; cases h
  | ok j =>
    rw [hd] at h
    cases j with
    | other => cases h
    | dict d =>
      obtain ⟨g, h1, h2, -⟩ := C52_dict d
      have h' : createGraph (.loader [.columns d]) = .ok nodes := h
      rw [C52_loader.2.1 d [], h1] at h'
      cases h'
      exact h2.imp (fun h => ne_of_lt h)
    | list rows =>
      have h' : createGraph (.loader (rows.map .row)) = .ok nodes := h
      cases rows with
      | nil => rw [List.map_nil, C52_loader.2.2] at h'; cases h'
      | cons first rows =>
        rw [C52_loader.1 first rows] at h'
        rw [((C52_rows first rows nodes).1 h').1]
        exact first.nodup_keys

theorem start_ok (m0 : δ) {nodes : Nodes ι R} (hn : (nodes.map Prod.fst).Nodup) :
    ∃ g, startModel m0 nodes = (.ok (), ⟨g, []⟩) ∧ Over (nodes.map Prod.fst) g := by
  have h := C13_complete_graph (nodesOnly (nodes.map Prod.fst) : Graph ι δ) (nodesOnly_reachable _) m0
  unfold startModel
  refine ⟨(createAllPossibleEdges m0 (nodesOnly (nodes.map Prod.fst))).2, ?_, createAll_reachable (nodesOnly_reachable _) m0,
    h.2.1.trans (nodesOnly_facts _ hn).1⟩
  simp only [h.1]

theorem start_complete (m0 : δ) {nodes : Nodes ι R} (hn : (nodes.map Prod.fst).Nodup) :
    ∃ g, startModel m0 nodes = (.ok (), ⟨g, []⟩) ∧ Over (nodes.map Prod.fst) g ∧ Complete m0 (nodes.map Prod.fst) g := by
  obtain ⟨g, h1, h2⟩ := start_ok m0 hn
  refine ⟨g, h1, h2, h2.2, ?_⟩
  have h := C13_complete_graph (nodesOnly (nodes.map Prod.fst) : Graph ι δ) (nodesOnly_reachable _) m0
  have hg : (createAllPossibleEdges m0 (nodesOnly (nodes.map Prod.fst))).2 = g := by
    have := congrArg (fun x => x.2.graph) h1
    exact this
  simp only [hg, (nodesOnly_facts (nodes.map Prod.fst) hn).1] at h
  refine ⟨h.2.2.2.1, h.2.2.2.2, fun a b act => ?_⟩
  rw [← hg, createAll_history (nodesOnly_reachable _) m0]
  unfold retrieveEdgeHistory
  rw [(nodesOnly_facts (nodes.map Prod.fst) hn).2]
  rfl

omit [LinearOrder ι] in
theorem given_iff (o : Option String) (s : String) : given o = some s ↔ o = some s ∧ s ≠ "" := by
  unfold given
  rw [Option.filter_eq_some_iff]
  simp

omit [LinearOrder ι] in
theorem given_none (o : Option String) : given o = none ↔ absent o := by
  unfold given absent
  rw [Option.filter_eq_none_iff]
  cases o <;> simp

omit [LinearOrder ι] in
theorem selects_iff (env : Env ι R δ) (o : Options) (c : ModelClass ι R δ) (ref : Ref) :
    choose env o = .ok (c, ref) ↔ Selects env o c ref := by
  unfold choose
  constructor
  · intro h
    cases hp : given o.pipeline with
    | some path =>
      rw [hp] at h
      have hq := (given_iff _ _).1 hp
      cases hl : env.load path with
      | error e => simp only [hl] at h; cases h
      | ok m =>
        simp only [hl] at h
        cases h
        exact .file path _ hq.1 hq.2 hl
    | none =>
      rw [hp] at h
      simp only at h
      cases ha : given o.algorithm with
      | none => rw [ha] at h; cases h
      | some a =>
        rw [ha] at h
        have hq := (given_iff _ _).1 ha
        cases hl : env.available a with
        | none => simp only [hl] at h; cases h
        | some m =>
          simp only [hl] at h
          cases h
          exact .name a _ ((given_none _).1 hp) hq.1 hq.2 hl
  · intro h
    cases h with
    | file path c h hne hl => simp only [(given_iff _ _).2 ⟨h, hne⟩, hl]
    | name a c h ha hne hl => simp only [(given_none _).2 h, (given_iff _ _).2 ⟨ha, hne⟩, hl]

theorem loadData_iff (env : Env ι R δ) (j : Json ι R) (nodes : Nodes ι R) (hj : env.document = .ok j) :
    loadData env = .ok nodes ↔ Holds j nodes := by
  unfold loadData
  rw [hj]
  cases j with
  | other => constructor <;> intro h <;> cases h
  | dict d =>
    show createGraph (.loader [.columns d]) = .ok nodes ↔ _
    rw [C52_loader.2.1 d []]
    obtain ⟨g, h1, h2, h3⟩ := C52_dict d
    rw [h1]
    constructor
    · intro h
      cases h
      exact .columns d nodes h2 h3
    · intro h
      cases h with
      | columns _ _ hk hc =>
        have hl : ∀ (l : Nodes ι R), (l.map Prod.fst).Pairwise (· < ·) → l.Pairwise (fun a b => a.1 < b.1) := fun l h =>
          List.pairwise_map.1 h
        have : g = nodes := by
          refine List.Perm.eq_of_pairwise (le := fun a b => a.1 < b.1) ?_ (hl g h2) (hl nodes hk) ?_
          · intro a b _ _ hab hba
            exact absurd (hab.trans hba) (lt_irrefl _)
          · rw [List.perm_ext_iff_of_nodup]
            · rintro ⟨k, col⟩
              exact (h3 k col).trans (hc k col).symm
            · exact (hl g h2).imp (fun h e => by rw [e] at h; exact lt_irrefl _ h)
            · exact (hl nodes hk).imp (fun h e => by rw [e] at h; exact lt_irrefl _ h)
        rw [this]
  | list rows =>
    show createGraph (.loader (rows.map .row)) = .ok nodes ↔ _
    cases rows with
    | nil =>
      rw [List.map_nil, C52_loader.2.2]
      constructor <;> intro h <;> cases h
    | cons first rows =>
      rw [C52_loader.1 first rows, C52_rows first rows nodes]
      constructor
      · rintro ⟨h1, h2⟩
        exact .rows first rows nodes h1 h2
      · intro h
        cases h with
        | rows _ _ _ h1 h2 => exact ⟨h1, h2⟩

end Cli
end Verif
