import Verif.Action.Model
import Verif.Graph.Lemmas4

/-!
# Helper lemmas about applying actions
-/

namespace Verif

/-- Two dictionaries with the same keys in the same order and the same values are equal. -/
theorem Dict.ext_keys {κ α : Type} [DecidableEq κ] (d d' : Dict κ α) (hk : d.keys = d'.keys)
    (hg : ∀ k, d.get? k = d'.get? k) : d = d' := by
  have key : ∀ (l l' : List (κ × α)), (l.map Prod.fst).Nodup → l.map Prod.fst = l'.map Prod.fst →
      (∀ k, assoc k l = assoc k l') → l = l' := by
    intro l
    induction l with
    | nil => intro l' _ h _; cases l' with
      | nil => rfl
      | cons p l' => simp at h
    | cons p l ih =>
      intro l' hn h hg
      cases l' with
      | nil => simp at h
      | cons p' l' =>
        obtain ⟨a, x⟩ := p
        obtain ⟨a', x'⟩ := p'
        simp only [List.map_cons, List.cons.injEq] at h
        obtain ⟨rfl, h⟩ := h
        simp only [List.map_cons, List.nodup_cons] at hn
        have hx : x = x' := by simpa [assoc] using hg a
        subst hx
        congr 1
        refine ih l' hn.2 h ?_
        intro k
        by_cases hk : a = k
        · subst hk
          have h1 : assoc a l = none := by
            rw [← Option.not_isSome_iff_eq_none]
            intro hs
            obtain ⟨y, hy⟩ := Option.isSome_iff_exists.1 hs
            exact hn.1 ((assoc_isSome_iff a l).1 (by rw [hy]; rfl))
          have h2 : assoc a l' = none := by
            rw [← Option.not_isSome_iff_eq_none]
            intro hs
            exact hn.1 (by rw [h]; exact (assoc_isSome_iff a l').1 hs)
          rw [h1, h2]
        · simpa [assoc, hk] using hg k
  exact Dict.ext (key d.items d'.items d.nodup hk hg)

theorem Dict.ext_keys2 {ι α : Type} [DecidableEq ι] (d d' : Dict ι (Dict ι α)) (hk : d.keys = d'.keys)
    (hk2 : ∀ u, d.keys2 u = d'.keys2 u) (hg : ∀ u v, d.get2 u v = d'.get2 u v) : d = d' := by
  refine Dict.ext_keys d d' hk ?_
  intro u
  cases h : d.get? u with
  | none =>
    have : d'.has u = false := by
      rw [← Dict.has_eq_of_keys_eq hk]; simp [Dict.has, h]
    cases h' : d'.get? u with
    | none => rfl
    | some r => simp [Dict.has, h'] at this
  | some r =>
    cases h' : d'.get? u with
    | none =>
      have : d.has u = false := by
        rw [Dict.has_eq_of_keys_eq hk]; simp [Dict.has, h']
      simp [Dict.has, h] at this
    | some r' =>
      congr 1
      refine Dict.ext_keys r r' ?_ ?_
      · have := hk2 u
        simpa [Dict.keys2, h, h'] using this
      · intro v
        have := hg u v
        simpa [Dict.get2, h, h'] using this

namespace Graph
variable {ι δ : Type} [DecidableEq ι] {g : Graph ι δ} {r : TestResult ι δ}

/-- append to the history -/
def addH (u v : ι) (r : TestResult ι δ) (g : Graph ι δ) : Graph ι δ := (addEdgeHistory u v r g).2

theorem addH_run (u v : ι) (r : TestResult ι δ) (g : Graph ι δ) :
    addEdgeHistory u v r g = (.ok (), addH u v r g) := by
  unfold addH; rw [addEdgeHistory_run]

theorem WF0.addH (h : WF0 g) (u v : ι) (r : TestResult ι δ) : WF0 (addH u v r g) := addEdgeHistory_wf h u v r
@[simp] theorem nodes_addH (u v : ι) : (addH u v r g).nodes = g.nodes := by simp [addH, addEdgeHistory_run]
@[simp] theorem edges_addH (u v : ι) : (addH u v r g).edges = g.edges := by simp [addH, addEdgeHistory_run]
@[simp] theorem rev_addH (u v : ι) : (addH u v r g).rev = g.rev := by simp [addH, addEdgeHistory_run]
@[simp] theorem del_addH (u v : ι) : (addH u v r g).del = g.del := by simp [addH, addEdgeHistory_run]
@[simp] theorem live_addH (u v a b : ι) : (addH u v r g).live a b = g.live a b := by simp [live]

theorem hist_addH (u v : ι) (p : ι × ι) : (addH u v r g).hist.get? p =
    if (u, v) = p then some ((g.hist.get? p).getD [] ++ [r]) else g.hist.get? p := by
  simp only [addH, addEdgeHistory_run, Dict.get?_set]
  split
  · rename_i hp; rw [hp]
  · rfl

/-- soft-delete one stored entry -/
abbrev markG (g : Graph ι δ) (u v : ι) : Graph ι δ := modBoth g u v (fun e => { e with deleted := true })

theorem WF0.markG (h : WF0 g) (u v : ι) : WF0 (markG g u v) := h.modBoth (fun _ => ⟨rfl, rfl⟩)

/-- change the type of one stored entry -/
abbrev typeG (g : Graph ι δ) (u v : ι) (t : EType) : Graph ι δ := modBoth g u v (fun e => { e with etype := t })

theorem WF0.typeG (h : WF0 g) (u v : ι) (t : EType) : WF0 (typeG g u v t) := h.modBoth (fun _ => ⟨rfl, rfl⟩)

theorem undirected_eq (h : WF0 g) (u v : ι) : g.undirectedEdgeExists u v = (g.live u v && g.live v u) := by
  unfold undirectedEdgeExists; rw [directedEdgeExists_eq h, directedEdgeExists_eq h]

theorem onlyDirected_eq (h : WF0 g) (u v : ι) : g.onlyDirectedEdgeExists u v = (g.live u v && !g.live v u) := by
  unfold onlyDirectedEdgeExists; rw [directedEdgeExists_eq h, directedEdgeExists_eq h]

theorem applyOne_doNothing (hr : r.action = .doNothing) : applyOne r g = (.ok false, g) := by
  unfold applyOne
  rw [PyM.bind_ok (PyM.get_run g), hr]
  rfl

theorem applyOne_removeUndirected (h : WF0 g) (hr : r.action = .removeEdgeUndirected) :
    applyOne r g = if g.live r.u r.v && g.live r.v r.u then
      (.ok true, addH r.v r.u r (addH r.u r.v r (markG (markG g r.u r.v) r.v r.u))) else (.ok false, g) := by
  unfold applyOne
  rw [PyM.bind_ok (PyM.get_run g), hr]
  simp only
  rw [undirected_eq h]
  cases hl : (g.live r.u r.v && g.live r.v r.u) with
  | false => simp
  | true =>
    simp only [Bool.not_true, Bool.false_eq_true, if_false, if_true]
    rw [Bool.and_eq_true] at hl
    have hn := h.live_nodes hl.1
    have h1 : removeEdge r.u r.v true g = (.ok (), markG (markG g r.u r.v) r.v r.u) := by
      rw [removeEdge_soft_run h]; simp [hn]
    rw [PyM.bind_ok h1, PyM.bind_ok (addH_run _ _ _ _), PyM.bind_ok (addH_run _ _ _ _)]
    rfl

/-- the graph after `REMOVE_EDGE_DIRECTED(u, v)` was taken, before the history entry -/
def orientG (g : Graph ι δ) (u v : ι) : Graph ι δ :=
  if g.live v u then typeG (markG g u v) v u .directed else markG g u v

theorem WF0.orientG (h : WF0 g) (u v : ι) : WF0 (orientG g u v) := by
  unfold Graph.orientG; split
  · exact (h.markG u v).typeG v u _
  · exact h.markG u v

theorem applyOne_removeDirected (h : WF0 g) (hr : r.action = .removeEdgeDirected) :
    applyOne r g = if g.live r.u r.v || g.live r.v r.u then
      (.ok true, addH r.u r.v r (orientG g r.u r.v)) else (.ok false, g) := by
  unfold applyOne
  rw [PyM.bind_ok (PyM.get_run g), hr]
  simp only
  rw [edgeExists_eq h, directedEdgeExists_eq h]
  have hcond : (!g.live r.u r.v && !(g.live r.u r.v || g.live r.v r.u)) =
      !(g.live r.u r.v || g.live r.v r.u) := by
    cases g.live r.u r.v <;> cases g.live r.v r.u <;> rfl
  rw [hcond]
  cases hl : (g.live r.u r.v || g.live r.v r.u) with
  | false => simp
  | true =>
    simp only [Bool.not_true, Bool.false_eq_true, if_false, if_true]
    have hn : r.u ∈ g.nodes ∧ r.v ∈ g.nodes ∧ r.u ≠ r.v := by
      rw [Bool.or_eq_true] at hl
      rcases hl with hl | hl
      · exact ⟨(h.live_nodes hl).1, (h.live_nodes hl).2, h.live_ne hl⟩
      · exact ⟨(h.live_nodes hl).2, (h.live_nodes hl).1, (h.live_ne hl).symm⟩
    have h1 : removeDirectedEdge r.u r.v true g = (.ok (), markG g r.u r.v) := by
      rw [removeDirectedEdge_soft_run h]; simp [hn]
    rw [PyM.bind_ok h1, PyM.bind_ok (PyM.get_run _)]
    have hw := h.markG r.u r.v
    have hmark1 : (markG g r.u r.v).live r.v r.u = g.live r.v r.u := by
      rw [live_mark]
      have : ¬ (r.u = r.v ∧ r.v = r.u) := fun hh => hn.2.2 hh.1
      simp [this]
    have hmark2 : (markG g r.u r.v).live r.u r.v = false := by rw [live_mark]; simp
    have h2 : PyM.when ((markG g r.u r.v).edgeExists r.v r.u)
        (updateDirectedEdge r.v r.u none (some .directed)) (markG g r.u r.v)
        = (.ok (), orientG g r.u r.v) := by
      rw [edgeExists_eq hw, hmark1, hmark2, Bool.or_false]
      unfold orientG
      cases hv : g.live r.v r.u with
      | false => simp [PyM.when]; rfl
      | true =>
        simp only [PyM.when, if_true]
        rw [updateDirectedEdge_run hw]
        have : (markG g r.u r.v).edges.has2 r.v r.u = true := by
          rw [hv] at hmark1
          obtain ⟨e, he, _⟩ := live_iff.1 hmark1
          exact has2_iff.2 ⟨e, he⟩
        rw [if_pos ⟨by rw [nodes_modBoth]; exact hn.2.1, by rw [nodes_modBoth]; exact hn.1, this⟩]
        congr 1
        rw [modBoth_id hw (setMeta none) (fun e => rfl)]
        rfl
    rw [PyM.bind_ok h2, PyM.bind_ok (addH_run _ _ _ _)]
    rfl

theorem applyOne_updateDirected (h : WF0 g) (hr : r.action = .updateEdgeDirected) :
    applyOne r g = if g.live r.u r.v then
      (.ok true, addH r.u r.v r (modBoth g r.u r.v (setMeta r.data))) else (.ok false, g) := by
  unfold applyOne
  rw [PyM.bind_ok (PyM.get_run g), hr]
  simp only
  rw [directedEdgeExists_eq h]
  cases hl : g.live r.u r.v with
  | false => simp
  | true =>
    simp only [Bool.not_true, Bool.false_eq_true, if_false, if_true]
    have hn := h.live_nodes hl
    obtain ⟨e, he, _⟩ := live_iff.1 hl
    have h1 : updateDirectedEdge r.u r.v r.data none g = (.ok (), modBoth g r.u r.v (setMeta r.data)) := by
      rw [updateDirectedEdge_run h, if_pos ⟨hn.1, hn.2, has2_iff.2 ⟨e, he⟩⟩]
      congr 1
      exact modBoth_id (h.modBoth (fun e => setMeta_ids _ e)) _ (fun e => rfl)
    rw [PyM.bind_ok h1, PyM.bind_ok (addH_run _ _ _ _)]
    rfl

theorem applyOne_update (h : WF0 g) (hr : r.action = .updateEdge) :
    applyOne r g = if g.live r.u r.v || g.live r.v r.u then
      (if g.edges.has2 r.u r.v ∧ g.edges.has2 r.v r.u then
        (.ok true, addH r.v r.u r (addH r.u r.v r
          (modBoth (modBoth g r.u r.v (setMeta r.data)) r.v r.u (setMeta r.data))))
       else (.error .graphError, g)) else (.ok false, g) := by
  unfold applyOne
  rw [PyM.bind_ok (PyM.get_run g), hr]
  simp only
  rw [edgeExists_eq h]
  cases hl : (g.live r.u r.v || g.live r.v r.u) with
  | false => simp
  | true =>
    simp only [Bool.not_true, Bool.false_eq_true, if_false, if_true]
    have hn : r.u ∈ g.nodes ∧ r.v ∈ g.nodes := by
      rw [Bool.or_eq_true] at hl
      rcases hl with hl | hl
      · exact h.live_nodes hl
      · exact (h.live_nodes hl).symm
    have hw1 : WF0 (modBoth g r.u r.v (setMeta r.data)) := h.modBoth (fun e => setMeta_ids _ e)
    have hw2 : WF0 (modBoth (modBoth g r.u r.v (setMeta r.data)) r.v r.u (setMeta r.data)) :=
      hw1.modBoth (fun e => setMeta_ids _ e)
    by_cases hc : g.edges.has2 r.u r.v = true ∧ g.edges.has2 r.v r.u = true
    · rw [if_pos hc]
      have h1 : updateEdge r.u r.v r.data none g = (.ok (),
          modBoth (modBoth g r.u r.v (setMeta r.data)) r.v r.u (setMeta r.data)) := by
        rw [updateEdge_run h, if_pos ⟨hn.1, hn.2, hc.1, hc.2⟩]
        congr 1
        rw [modBoth_id hw2 (setType none) (fun e => rfl), modBoth_id hw2 (setType none) (fun e => rfl)]
      rw [PyM.bind_ok h1, PyM.bind_ok (addH_run _ _ _ _), PyM.bind_ok (addH_run _ _ _ _)]
      rfl
    · rw [if_neg hc]
      have h1 : updateEdge r.u r.v r.data none g = (.error .graphError, g) := by
        rw [updateEdge_run h, if_neg]
        rintro ⟨_, _, h1, h2⟩; exact hc ⟨h1, h2⟩
      rw [PyM.bind_error h1]

theorem applyOne_updateType (h : WF0 g) (hr : r.action = .updateEdgeType) :
    applyOne r g = if g.live r.u r.v || g.live r.v r.u then (.error .attributeError, g) else (.ok false, g) := by
  unfold applyOne
  rw [PyM.bind_ok (PyM.get_run g), hr]
  simp only
  rw [edgeExists_eq h]
  cases (g.live r.u r.v || g.live r.v r.u) <;> rfl

theorem applyOne_updateTypeDirected (h : WF0 g) (hr : r.action = .updateEdgeTypeDirected) :
    applyOne r g = if g.live r.u r.v then (.error .attributeError, g) else (.ok false, g) := by
  unfold applyOne
  rw [PyM.bind_ok (PyM.get_run g), hr]
  simp only
  rw [directedEdgeExists_eq h]
  cases g.live r.u r.v <;> rfl

theorem applyOne_restore (h : WF0 g) (hr : r.action = .restoreEdge) :
    applyOne r g = if g.live r.u r.v || g.live r.v r.u then (.ok false, g) else
      match restoreEdge r.u r.v g with
      | (.ok _, g') => (.ok true, addH r.v r.u r (addH r.u r.v r g'))
      | (.error e, g') => (.error e, g') := by
  unfold applyOne
  rw [PyM.bind_ok (PyM.get_run g), hr]
  simp only
  rw [edgeExists_eq h]
  cases (g.live r.u r.v || g.live r.v r.u) with
  | true => rfl
  | false =>
    simp only [Bool.false_eq_true, if_false]
    rw [PyM.bind_run]
    generalize restoreEdge r.u r.v g = x
    obtain ⟨e | a, g'⟩ := x
    · rfl
    · simp only
      rw [PyM.bind_ok (addH_run _ _ _ _), PyM.bind_ok (addH_run _ _ _ _)]; rfl

theorem applyOne_restoreDirected (h : WF0 g) (hr : r.action = .restoreEdgeDirected) :
    applyOne r g = if g.live r.u r.v then (.ok false, g) else
      match restoreDirectedEdge r.u r.v g with
      | (.ok _, g') => (.ok true, addH r.u r.v r g')
      | (.error e, g') => (.error e, g') := by
  unfold applyOne
  rw [PyM.bind_ok (PyM.get_run g), hr]
  simp only
  rw [directedEdgeExists_eq h]
  cases g.live r.u r.v with
  | true => rfl
  | false =>
    simp only [Bool.false_eq_true, if_false]
    rw [PyM.bind_run]
    generalize restoreDirectedEdge r.u r.v g = x
    obtain ⟨e | a, g'⟩ := x
    · rfl
    · simp only
      rw [PyM.bind_ok (addH_run _ _ _ _)]; rfl

/-- Every applied action is a finite sequence of edits, so all invariants of edits carry over. -/
theorem applyOne_cmds (h : WF0 g) : ∃ cs : List (Cmd ι δ), (applyOne r g).2 = Cmd.runAll cs g ∧
    CleanHistory cs g := by
  have hnot : ∀ (c : Cmd ι δ) (g : Graph ι δ), (∀ u v, c ≠ .removeEdge u v false) → ¬ c.isOneWayHardRemove g := by
    rintro c g hc ⟨u, v, hcv, _⟩; exact hc u v hcv
  have hist1 : ∀ (u v : ι) (g : Graph ι δ), ∃ cs : List (Cmd ι δ), addH u v r g = Cmd.runAll cs g ∧ CleanHistory cs g :=
    fun u v g => ⟨[.addEdgeHistory u v r], rfl, hnot _ _ (by intros; simp), trivial⟩
  have trans : ∀ (g1 g2 g3 : Graph ι δ), (∃ cs : List (Cmd ι δ), g2 = Cmd.runAll cs g1 ∧ CleanHistory cs g1) →
      (∃ cs : List (Cmd ι δ), g3 = Cmd.runAll cs g2 ∧ CleanHistory cs g2) →
      ∃ cs : List (Cmd ι δ), g3 = Cmd.runAll cs g1 ∧ CleanHistory cs g1 := by
    rintro g1 g2 g3 ⟨cs, rfl, hc⟩ ⟨ds, rfl, hd⟩
    refine ⟨cs ++ ds, by simp [Cmd.runAll, List.foldl_append], ?_⟩
    clear hist1
    induction cs generalizing g1 with
    | nil => exact hd
    | cons c cs ih => exact ⟨hc.1, ih _ hc.2 hd⟩
  have one : ∀ (c : Cmd ι δ) (g g' : Graph ι δ), (c.run g).2 = g' → (∀ u v, c ≠ .removeEdge u v false) →
      ∃ cs : List (Cmd ι δ), g' = Cmd.runAll cs g ∧ CleanHistory cs g :=
    fun c g g' hc hne => ⟨[c], hc.symm, hnot _ _ hne, trivial⟩
  have none' : ∃ cs : List (Cmd ι δ), g = Cmd.runAll cs g ∧ CleanHistory cs g := ⟨[], rfl, trivial⟩
  have nodesOr : ∀ {u v}, (g.live u v || g.live v u) = true → u ∈ g.nodes ∧ v ∈ g.nodes := by
    intro u v hl
    rw [Bool.or_eq_true] at hl
    rcases hl with hl | hl
    · exact h.live_nodes hl
    · exact (h.live_nodes hl).symm
  have mark : ∀ {u v}, u ∈ g.nodes → v ∈ g.nodes →
      ∃ cs : List (Cmd ι δ), markG g u v = Cmd.runAll cs g ∧ CleanHistory cs g := by
    intro u v hu hv
    refine one (.removeDirectedEdge u v true) _ _ ?_ (by intros; simp)
    show (removeDirectedEdge u v true g).2 = _
    rw [removeDirectedEdge_soft_run h]; simp [hu, hv]
  cases ha : r.action with
  | doNothing => rw [applyOne_doNothing ha]; exact none'
  | removeEdgeUndirected =>
    rw [applyOne_removeUndirected h ha]
    split
    · rename_i hl
      rw [Bool.and_eq_true] at hl
      refine trans _ _ _ (trans _ _ _ ?_ (hist1 _ _ _)) (hist1 _ _ _)
      refine one (.removeEdge r.u r.v true) _ _ ?_ (by intro u v; simp)
      show (removeEdge r.u r.v true g).2 = _
      rw [removeEdge_soft_run h]; simp [h.live_nodes hl.1]
    · exact none'
  | removeEdgeDirected =>
    rw [applyOne_removeDirected h ha]
    split
    · rename_i hl
      have hn := nodesOr hl
      refine trans _ _ _ ?_ (hist1 _ _ _)
      unfold orientG
      split
      · rename_i hv
        refine trans _ _ _ (mark hn.1 hn.2) ?_
        refine one (.updateDirectedEdge r.v r.u none (some .directed)) _ _ ?_ (by intros; simp)
        show (updateDirectedEdge r.v r.u none (some .directed) (markG g r.u r.v)).2 = _
        have hw := h.markG r.u r.v
        rw [updateDirectedEdge_run hw, if_pos]
        · simp only
          rw [modBoth_id hw (setMeta none) (fun e => rfl)]
          rfl
        · refine ⟨by rw [nodes_modBoth]; exact hn.2, by rw [nodes_modBoth]; exact hn.1, ?_⟩
          obtain ⟨e, he, _⟩ := live_iff.1 hv
          rw [has2_iff, get2_modBoth]
          split
          · rename_i hc; rw [hc.1] at he; rw [hc.1, he]; exact ⟨_, rfl⟩
          · exact ⟨e, he⟩
      · exact mark hn.1 hn.2
    · exact none'
  | updateEdgeDirected =>
    rw [applyOne_updateDirected h ha]
    split
    · rename_i hl
      refine trans _ _ _ ?_ (hist1 _ _ _)
      refine one (.updateDirectedEdge r.u r.v r.data none) _ _ ?_ (by intros; simp)
      show (updateDirectedEdge r.u r.v r.data none g).2 = _
      obtain ⟨e, he, _⟩ := live_iff.1 hl
      have hn := h.live_nodes hl
      rw [updateDirectedEdge_run h, if_pos ⟨hn.1, hn.2, has2_iff.2 ⟨e, he⟩⟩]
      exact modBoth_id (h.modBoth (fun e => setMeta_ids _ e)) _ (fun e => rfl)
    · exact none'
  | updateEdge =>
    rw [applyOne_update h ha]
    split
    · rename_i hl
      split
      · rename_i hc
        refine trans _ _ _ (trans _ _ _ ?_ (hist1 _ _ _)) (hist1 _ _ _)
        refine one (.updateEdge r.u r.v r.data none) _ _ ?_ (by intros; simp)
        show (updateEdge r.u r.v r.data none g).2 = _
        have hn := nodesOr hl
        rw [updateEdge_run h, if_pos ⟨hn.1, hn.2, hc.1, hc.2⟩]
        have hw2 : WF0 (modBoth (modBoth g r.u r.v (setMeta r.data)) r.v r.u (setMeta r.data)) :=
          (h.modBoth (fun e => setMeta_ids _ e)).modBoth (fun e => setMeta_ids _ e)
        simp only
        rw [modBoth_id hw2 (setType none) (fun e => rfl), modBoth_id hw2 (setType none) (fun e => rfl)]
      · exact none'
    · exact none'
  | updateEdgeType =>
    rw [applyOne_updateType h ha]; split <;> exact none'
  | updateEdgeTypeDirected =>
    rw [applyOne_updateTypeDirected h ha]; split <;> exact none'
  | restoreEdge =>
    rw [applyOne_restore h ha]
    split
    · exact none'
    · have hone := one (.restoreEdge r.u r.v) g _ rfl (by intros; simp)
      change ∃ cs : List (Cmd ι δ), (restoreEdge r.u r.v g).2 = _ ∧ _ at hone
      generalize restoreEdge r.u r.v g = x at hone
      obtain ⟨e | a, g'⟩ := x
      · exact hone
      · exact trans _ _ _ (trans _ _ _ hone (hist1 _ _ _)) (hist1 _ _ _)
  | restoreEdgeDirected =>
    rw [applyOne_restoreDirected h ha]
    split
    · exact none'
    · have hone := one (.restoreDirectedEdge r.u r.v) g _ rfl (by intros; simp)
      change ∃ cs : List (Cmd ι δ), (restoreDirectedEdge r.u r.v g).2 = _ ∧ _ at hone
      generalize restoreDirectedEdge r.u r.v g = x at hone
      obtain ⟨e | a, g'⟩ := x
      · exact hone
      · exact trans _ _ _ hone (hist1 _ _ _)

theorem applyOne_wf (h : WF0 g) : WF0 (applyOne r g).2 := by
  obtain ⟨cs, hcs, _⟩ := applyOne_cmds (r := r) h
  rw [hcs]; exact runAll_wf h cs

theorem applyOne_revExact (h : WF0 g) (hr : RevExact g) : RevExact (applyOne r g).2 := by
  obtain ⟨cs, hcs, hc⟩ := applyOne_cmds (r := r) h
  rw [hcs]; exact clean_revExact cs h hr hc

theorem runAll_hist (h : WF0 g) (cs : List (Cmd ι δ)) : HistExtends g (Cmd.runAll cs g) := by
  induction cs generalizing g with
  | nil => exact HistExtends.refl g
  | cons c cs ih => exact (run_hist h c).trans (ih (run_wf h c))

theorem applyOne_hist (h : WF0 g) : HistExtends g (applyOne r g).2 := by
  obtain ⟨cs, hcs, _⟩ := applyOne_cmds (r := r) h
  rw [hcs]; exact runAll_hist h cs

/-- A skipped action changes nothing. -/
theorem applyOne_skip (h : WF0 g) (hs : (applyOne r g).1 = .ok false) : (applyOne r g).2 = g := by
  cases ha : r.action with
  | doNothing => rw [applyOne_doNothing ha]
  | removeEdgeUndirected =>
    rw [applyOne_removeUndirected h ha] at hs ⊢
    split
    · rename_i hc; rw [if_pos hc] at hs; simp at hs
    · rfl
  | removeEdgeDirected =>
    rw [applyOne_removeDirected h ha] at hs ⊢
    split
    · rename_i hc; rw [if_pos hc] at hs; simp at hs
    · rfl
  | updateEdgeDirected =>
    rw [applyOne_updateDirected h ha] at hs ⊢
    split
    · rename_i hc; rw [if_pos hc] at hs; simp at hs
    · rfl
  | updateEdge =>
    rw [applyOne_update h ha] at hs ⊢
    split
    · rename_i hc
      rw [if_pos hc] at hs
      split
      · rename_i hc'; rw [if_pos hc'] at hs; simp at hs
      · rfl
    · rfl
  | updateEdgeType => rw [applyOne_updateType h ha]; split <;> rfl
  | updateEdgeTypeDirected => rw [applyOne_updateTypeDirected h ha]; split <;> rfl
  | restoreEdge =>
    rw [applyOne_restore h ha] at hs ⊢
    split
    · rfl
    · rename_i hc
      rw [if_neg hc] at hs
      generalize restoreEdge r.u r.v g = x at hs
      obtain ⟨e | a, g'⟩ := x <;> simp at hs
  | restoreEdgeDirected =>
    rw [applyOne_restoreDirected h ha] at hs ⊢
    split
    · rfl
    · rename_i hc
      rw [if_neg hc] at hs
      generalize restoreDirectedEdge r.u r.v g = x at hs
      obtain ⟨e | a, g'⟩ := x <;> simp at hs

/-! ## effect of non-restoring actions on live edges and keys -/

/-- the two restoring actions -/
def _root_.Verif.Action.isRestore : Action → Bool
  | .restoreEdge | .restoreEdgeDirected => true
  | _ => false

theorem live_orientG (u v a b : ι) : (orientG g u v).live a b = (g.live a b && !decide (u = a ∧ v = b)) := by
  unfold orientG
  split
  · rw [live_same (fun e => { e with etype := .directed }) (fun _ => rfl), live_mark]
  · rw [live_mark]

theorem applyOne_live_le (h : WF0 g) (hr : r.action.isRestore = false) {a b : ι}
    (hl : (applyOne r g).2.live a b = true) : g.live a b = true := by
  cases ha : r.action with
  | doNothing => rwa [applyOne_doNothing ha] at hl
  | removeEdgeUndirected =>
    rw [applyOne_removeUndirected h ha] at hl
    split at hl
    · simp only [live_addH] at hl
      rw [live_mark, live_mark] at hl
      simp only [Bool.and_eq_true] at hl
      exact hl.1.1
    · exact hl
  | removeEdgeDirected =>
    rw [applyOne_removeDirected h ha] at hl
    split at hl
    · simp only [live_addH] at hl
      rw [live_orientG, Bool.and_eq_true] at hl
      exact hl.1
    · exact hl
  | updateEdgeDirected =>
    rw [applyOne_updateDirected h ha] at hl
    split at hl
    · simp only [live_addH] at hl
      rwa [live_same _ (setMeta_del _)] at hl
    · exact hl
  | updateEdge =>
    rw [applyOne_update h ha] at hl
    split at hl
    · split at hl
      · simp only [live_addH] at hl
        rwa [live_same _ (setMeta_del _), live_same _ (setMeta_del _)] at hl
      · exact hl
    · exact hl
  | updateEdgeType =>
    rw [applyOne_updateType h ha] at hl; split at hl <;> exact hl
  | updateEdgeTypeDirected =>
    rw [applyOne_updateTypeDirected h ha] at hl; split at hl <;> exact hl
  | restoreEdge => rw [ha] at hr; cases hr
  | restoreEdgeDirected => rw [ha] at hr; cases hr

theorem keys_orientG (u v : ι) : (orientG g u v).edges.keys = g.edges.keys := by
  unfold orientG; split
  · rw [keys_modBoth, keys_modBoth]
  · rw [keys_modBoth]

theorem keys2_orientG (u v a : ι) : (orientG g u v).edges.keys2 a = g.edges.keys2 a := by
  unfold orientG; split
  · rw [keys2_modBoth, keys2_modBoth]
  · rw [keys2_modBoth]

theorem applyOne_keys (h : WF0 g) (hr : r.action.isRestore = false) :
    (applyOne r g).2.edges.keys = g.edges.keys ∧ (∀ a, (applyOne r g).2.edges.keys2 a = g.edges.keys2 a) ∧
    (applyOne r g).2.nodes = g.nodes ∧ (applyOne r g).2.del = g.del := by
  cases ha : r.action with
  | doNothing => rw [applyOne_doNothing ha]; exact ⟨rfl, fun _ => rfl, rfl, rfl⟩
  | removeEdgeUndirected =>
    rw [applyOne_removeUndirected h ha]
    split
    · refine ⟨?_, ?_, ?_, ?_⟩
      · simp only [edges_addH, keys_modBoth]
      · intro a; simp only [edges_addH, keys2_modBoth]
      · simp only [nodes_addH, nodes_modBoth]
      · simp only [del_addH, del_modBoth]
    · exact ⟨rfl, fun _ => rfl, rfl, rfl⟩
  | removeEdgeDirected =>
    rw [applyOne_removeDirected h ha]
    split
    · refine ⟨?_, ?_, ?_, ?_⟩
      · simp only [edges_addH, keys_orientG]
      · intro a; simp only [edges_addH, keys2_orientG]
      · simp only [nodes_addH]
        unfold orientG; split <;> simp only [nodes_modBoth]
      · simp only [del_addH]
        unfold orientG; split <;> simp only [del_modBoth]
    · exact ⟨rfl, fun _ => rfl, rfl, rfl⟩
  | updateEdgeDirected =>
    rw [applyOne_updateDirected h ha]
    split
    · refine ⟨?_, ?_, ?_, ?_⟩
      · simp only [edges_addH, keys_modBoth]
      · intro a; simp only [edges_addH, keys2_modBoth]
      · simp only [nodes_addH, nodes_modBoth]
      · simp only [del_addH, del_modBoth]
    · exact ⟨rfl, fun _ => rfl, rfl, rfl⟩
  | updateEdge =>
    rw [applyOne_update h ha]
    split
    · split
      · refine ⟨?_, ?_, ?_, ?_⟩
        · simp only [edges_addH, keys_modBoth]
        · intro a; simp only [edges_addH, keys2_modBoth]
        · simp only [nodes_addH, nodes_modBoth]
        · simp only [del_addH, del_modBoth]
      · exact ⟨rfl, fun _ => rfl, rfl, rfl⟩
    · exact ⟨rfl, fun _ => rfl, rfl, rfl⟩
  | updateEdgeType =>
    rw [applyOne_updateType h ha]; split <;> exact ⟨rfl, fun _ => rfl, rfl, rfl⟩
  | updateEdgeTypeDirected =>
    rw [applyOne_updateTypeDirected h ha]; split <;> exact ⟨rfl, fun _ => rfl, rfl, rfl⟩
  | restoreEdge => rw [ha] at hr; cases hr
  | restoreEdgeDirected => rw [ha] at hr; cases hr

/-! ## lists of actions -/

theorem takeItems_cons (r : TestResult ι δ) (rs : List (TestResult ι δ)) (g : Graph ι δ) :
    takeItems false (r :: rs) g = match applyOne r g with
      | (.ok b, g') => (match takeItems false rs g' with
        | (.ok t, g'') => (.ok (if b then r :: t else t), g'')
        | (.error e, g'') => (.error e, g''))
      | (.error e, g') => (.error e, g') := by
  show ((applyOne r >>= fun b => takeItems false rs >>= fun rest => pure (if b then r :: rest else rest)) g) = _
  rw [PyM.bind_run]
  generalize applyOne r g = x
  obtain ⟨e | b, g'⟩ := x
  · rfl
  · simp only
    rw [PyM.bind_run]
    generalize takeItems false rs g' = y
    obtain ⟨e | t, g''⟩ := y <;> rfl

theorem takeItems_dry (rs : List (TestResult ι δ)) (g : Graph ι δ) : takeItems true rs g = (.ok rs, g) := by
  induction rs with
  | nil => rfl
  | cons r rs ih =>
    show ((takeItems true rs >>= fun rest => pure (r :: rest)) g) = _
    rw [PyM.bind_ok ih]; rfl

/-- An invariant preserved by each applied action holds after a list of actions. -/
theorem takeItems_inv (P : Graph ι δ → Prop) (rs : List (TestResult ι δ))
    (hstep : ∀ r ∈ rs, ∀ g, P g → P (applyOne r g).2) (hg : P g) : P (takeItems false rs g).2 := by
  induction rs generalizing g with
  | nil => exact hg
  | cons r rs ih =>
    rw [takeItems_cons]
    have h1 := hstep r List.mem_cons_self g hg
    generalize applyOne r g = x at h1
    obtain ⟨e | b, g'⟩ := x
    · exact h1
    · have h2 := ih (fun r hr => hstep r (List.mem_cons_of_mem _ hr)) h1
      simp only at h2 ⊢
      generalize takeItems false rs g' = y at h2
      obtain ⟨e | t, g''⟩ := y <;> exact h2

theorem takeAction_cons (dry : Bool) (items : List (TestResult ι δ)) (rest : List (Option (List (TestResult ι δ))))
    (g : Graph ι δ) :
    takeAction dry (some items :: rest) g = match takeItems dry items g with
      | (.ok t, g') => (match takeAction dry rest g' with
        | (.ok (ts, as), g'') => (.ok (t ++ ts, items ++ as), g'')
        | (.error e, g'') => (.error e, g''))
      | (.error e, g') => (.error e, g') := by
  show ((takeItems dry items >>= fun t => takeAction dry rest >>= fun x =>
    pure (t ++ x.1, items ++ x.2)) g) = _
  rw [PyM.bind_run]
  generalize takeItems dry items g = x
  obtain ⟨e | t, g'⟩ := x
  · rfl
  · simp only
    rw [PyM.bind_run]
    generalize takeAction dry rest g' = y
    obtain ⟨e | ⟨ts, as⟩, g''⟩ := y <;> rfl

/-- the flat list of proposed actions -/
def flatten (rs : List (Option (List (TestResult ι δ)))) : List (TestResult ι δ) :=
  rs.flatMap (fun o => o.getD [])

/-- `_take_action` on nested results is the inner loop on the flat list. -/
theorem takeAction_flat (dry : Bool) (rs : List (Option (List (TestResult ι δ)))) (g : Graph ι δ) :
    takeAction dry rs g = match takeItems dry (flatten rs) g with
      | (.ok t, g') => (.ok (t, flatten rs), g')
      | (.error e, g') => (.error e, g') := by
  have app : ∀ (xs ys : List (TestResult ι δ)) (g : Graph ι δ), takeItems dry (xs ++ ys) g =
      match takeItems dry xs g with
      | (.ok t, g') => (match takeItems dry ys g' with
        | (.ok t', g'') => (.ok (t ++ t'), g'')
        | (.error e, g'') => (.error e, g''))
      | (.error e, g') => (.error e, g') := by
    intro xs ys
    cases dry with
    | true => intro g; simp only [takeItems_dry]
    | false =>
      induction xs with
      | nil =>
        intro g
        rw [show takeItems false ([] : List (TestResult ι δ)) g = (.ok [], g) from rfl]
        simp only [List.nil_append]
        generalize takeItems false ys g = y
        obtain ⟨e | t, g''⟩ := y <;> rfl
      | cons r xs ih =>
        intro g
        rw [List.cons_append, takeItems_cons, takeItems_cons]
        generalize applyOne r g = x
        obtain ⟨e | b, g'⟩ := x
        · rfl
        · simp only
          rw [ih]
          generalize takeItems false xs g' = y
          obtain ⟨e | t, g''⟩ := y
          · rfl
          · simp only
            generalize takeItems false ys g'' = z
            obtain ⟨e | t', g'''⟩ := z
            · rfl
            · cases b <;> rfl
  induction rs generalizing g with
  | nil =>
    have : takeItems dry ([] : List (TestResult ι δ)) g = (.ok [], g) := rfl
    show ((.ok ([], []), g) : Except PyErr (List (TestResult ι δ) × List (TestResult ι δ)) × Graph ι δ) = _
    rw [show flatten ([] : List (Option (List (TestResult ι δ)))) = [] from rfl, this]
  | cons o rs ih =>
    cases o with
    | none =>
      show takeAction dry rs g = _
      rw [ih]; rfl
    | some items =>
      rw [takeAction_cons]
      have hf : flatten (some items :: rs) = items ++ flatten rs := rfl
      rw [hf, app]
      generalize takeItems dry items g = y
      obtain ⟨e | t, g''⟩ := y
      · rfl
      · simp only
        rw [ih]
        generalize takeItems dry (flatten rs) g'' = z
        obtain ⟨e | t', g'''⟩ := z <;> rfl

theorem takeAction_snd (dry : Bool) (rs : List (Option (List (TestResult ι δ)))) (g : Graph ι δ) :
    (takeAction dry rs g).2 = (takeItems dry (flatten rs) g).2 := by
  rw [takeAction_flat]
  generalize takeItems dry (flatten rs) g = y
  obtain ⟨e | t, g''⟩ := y <;> rfl

end Graph
end Verif
