import Verif.Action.Lemmas2

/-!
# Properties C11 (actions) and C21–C28: applying proposed actions

A list of results has type `List (Option (List TestResult))`: `none` for a `None` result.
`takeAction dry rs g` returns `(actions taken, all proposed actions)` and the new graph, or the exception
and the graph at that moment.
-/

namespace Verif
open Graph
variable {ι δ : Type} [DecidableEq ι]

/-- The proposed actions, in order. -/
def proposed (rs : List (Option (List (TestResult ι δ)))) : List (TestResult ι δ) :=
  rs.flatMap (fun o => o.getD [])

/-- A graph used in the examples: the complete undirected graph on 0, 1, 2. -/
def exK3 : Graph Nat Nat := Cmd.runAll [.addNode 0, .addNode 1, .addNode 2, .addEdge 0 1 10 .undirected,
  .addEdge 0 2 20 .undirected, .addEdge 1 2 30 .undirected] Graph.empty

theorem exK3_reachable : Reachable exK3 := ⟨_, rfl⟩

/-! ## C11 -/

/-- C11 for pipeline actions: whatever is applied (even if an action raises), every recorded history is a
prefix of the new one. -/
theorem C11_actions_append_only (g : Graph ι δ) (hg : Reachable g) (dry : Bool)
    (rs : List (Option (List (TestResult ι δ)))) (u v : ι) (l : List (TestResult ι δ))
    (hl : g.retrieveEdgeHistoryAll u v = .ok l) :
    ∃ l', (takeAction dry rs g).2.retrieveEdgeHistoryAll u v = .ok (l ++ l') := by
  have key : HistExtends g (takeAction dry rs g).2 := by
    rw [takeAction_snd]
    cases dry with
    | true => rw [takeItems_dry]; exact HistExtends.refl g
    | false => exact takeItems_hist hg.wf _
  unfold retrieveEdgeHistoryAll at hl ⊢
  cases hx : g.hist.get? (u, v) with
  | none => rw [hx] at hl; cases hl
  | some l0 =>
    rw [hx] at hl
    injection hl with hl
    subst hl
    obtain ⟨l', hl'⟩ := key (u, v) _ hx
    exact ⟨l', by rw [hl']⟩

/-- Applying actions stays within the reachable states, so all C01–C12 invariants hold after it. -/
theorem C11_actions_reachable (g : Graph ι δ) (hg : Reachable g) (dry : Bool)
    (rs : List (Option (List (TestResult ι δ)))) : Reachable (takeAction dry rs g).2 := by
  rw [takeAction_snd]
  cases dry with
  | true => rw [takeItems_dry]; exact hg
  | false =>
    refine takeItems_inv Reachable _ ?_ hg
    intro r _ g hg
    obtain ⟨cs, hcs, _⟩ := applyOne_cmds (r := r) hg.wf
    obtain ⟨ds, hds⟩ := hg
    refine ⟨ds ++ cs, ?_⟩
    rw [hcs]
    conv_lhs => rw [hds]
    simp [Cmd.runAll, List.foldl_append]

/-! ## C21 -/

/-- C21: a dry run leaves the graph unchanged and reports every proposed action as taken. -/
theorem C21_dry_run_pure (g : Graph ι δ) (rs : List (Option (List (TestResult ι δ)))) :
    takeAction true rs g = (.ok (proposed rs, proposed rs), g) := by
  rw [takeAction_flat, takeItems_dry]; rfl

example : (takeAction true [some [⟨0, 1, .removeEdgeUndirected, none⟩], none] exK3).2.edgeExists 0 1 = true ∧
    (takeAction false [some [⟨0, 1, .removeEdgeUndirected, none⟩], none] exK3).2.edgeExists 0 1 = false := by
  decide +kernel

/-! ## C22 -/

/-- C22: the taken actions are a subsequence of the proposed ones, contain no DO_NOTHING, and determine
the final graph (replaying just them gives the same graph and takes all of them). -/
theorem C22_taken_subsequence (g : Graph ι δ) (hg : Reachable g) (rs : List (Option (List (TestResult ι δ))))
    (taken all : List (TestResult ι δ)) (g' : Graph ι δ) (hrun : takeAction false rs g = (.ok (taken, all), g')) :
    all = proposed rs ∧ taken.Sublist all ∧ (∀ r ∈ taken, r.action ≠ .doNothing) ∧
    takeAction false [some taken] g = (.ok (taken, taken), g') := by
  rw [takeAction_flat] at hrun
  cases hx : takeItems false (flatten rs) g with
  | mk x g1 =>
    rw [hx] at hrun
    cases x with
    | error e => simp at hrun
    | ok t =>
      simp only [Prod.mk.injEq, Except.ok.injEq] at hrun
      obtain ⟨⟨rfl, rfl⟩, rfl⟩ := hrun
      obtain ⟨h1, h2, h3⟩ := takeItems_replay hg.wf _ _ _ hx
      refine ⟨rfl, h2, h3, ?_⟩
      rw [takeAction_flat]
      have : flatten [some t] = t := by simp [flatten]
      rw [this, h1]

/-- C22: an action that is skipped leaves the graph completely unchanged. -/
theorem C22_skipped_leaves_no_trace (g : Graph ι δ) (hg : Reachable g) (r : TestResult ι δ)
    (all : List (TestResult ι δ)) (g' : Graph ι δ) (hrun : takeAction false [some [r]] g = (.ok ([], all), g')) :
    g' = g := by
  rw [takeAction_single] at hrun
  have hs := applyOne_skip (r := r) hg.wf
  cases hx : applyOne r g with
  | mk x g1 =>
    rw [hx] at hrun hs
    cases x with
    | error e => simp at hrun
    | ok b =>
      cases b with
      | true => simp at hrun
      | false =>
        simp only [Prod.mk.injEq] at hrun
        rw [← hrun.2]; exact hs rfl

/-- one action taken, one skipped, one ignored -/
example : (takeAction false [some [⟨0, 1, .removeEdgeUndirected, none⟩], none,
      some [⟨1, 0, .removeEdgeUndirected, none⟩, ⟨0, 2, .doNothing, none⟩]] exK3).1 =
    .ok ([⟨0, 1, .removeEdgeUndirected, none⟩],
      [⟨0, 1, .removeEdgeUndirected, none⟩, ⟨1, 0, .removeEdgeUndirected, none⟩, ⟨0, 2, .doNothing, none⟩]) := by
  decide +kernel

/-! ## C23 -/

/-- C23: removal actions never raise, on any reachable graph and for any nodes. -/
theorem C23_removals_never_raise (g : Graph ι δ) (hg : Reachable g) (rs : List (Option (List (TestResult ι δ))))
    (hr : ∀ r ∈ proposed rs, r.action = .removeEdgeUndirected ∨ r.action = .removeEdgeDirected ∨
      r.action = .doNothing) : ∃ taken g', takeAction false rs g = (.ok (taken, proposed rs), g') := by
  obtain ⟨t, g', h⟩ := takeItems_removals_ok hg.wf (flatten rs) hr
  exact ⟨t, g', by rw [takeAction_flat, h]; rfl⟩

/-- C23: effect of one REMOVE_EDGE_UNDIRECTED. -/
theorem C23_remove_undirected_effect (g : Graph ι δ) (hg : Reachable g) (u v : ι) (d : Option δ) :
    let g' := (takeAction false [some [⟨u, v, .removeEdgeUndirected, d⟩]] g).2
    (g.undirectedEdgeExists u v = true → ∀ a b, g'.directedEdgeExists a b = true ↔
      g.directedEdgeExists a b = true ∧ ¬ (a = u ∧ b = v) ∧ ¬ (a = v ∧ b = u)) ∧
    (g.undirectedEdgeExists u v = false → g' = g) := by
  have h := hg.wf
  simp only
  rw [takeAction_snd]
  have hf : flatten [some [(⟨u, v, .removeEdgeUndirected, d⟩ : TestResult ι δ)]] = [⟨u, v, .removeEdgeUndirected, d⟩] := rfl
  have hs : (takeItems false [(⟨u, v, .removeEdgeUndirected, d⟩ : TestResult ι δ)] g).2 =
      (applyOne ⟨u, v, .removeEdgeUndirected, d⟩ g).2 := by
    rw [takeItems_cons]
    generalize applyOne (⟨u, v, .removeEdgeUndirected, d⟩ : TestResult ι δ) g = x
    obtain ⟨e | b, g1⟩ := x <;> rfl
  rw [hf, hs, undirected_eq h]
  have hw := applyOne_wf (r := ⟨u, v, .removeEdgeUndirected, d⟩) h
  constructor
  · intro hl a b
    rw [directedEdgeExists_eq h, directedEdgeExists_eq hw, applyOne_removeUndirected h rfl, if_pos hl]
    simp only [live_addH, live_mark, Bool.and_eq_true, Bool.not_eq_true', decide_eq_false_iff_not]
    grind
  · intro hl
    rw [applyOne_removeUndirected h rfl, if_neg (by simp [hl])]

/-- C23: effect of one REMOVE_EDGE_DIRECTED: `u → v` is absent afterwards, `v → u`, if present, has type
DIRECTED, all other stored edges are unchanged. -/
theorem C23_remove_directed_effect (g : Graph ι δ) (hg : Reachable g) (u v : ι) (d : Option δ) :
    let g' := (takeAction false [some [⟨u, v, .removeEdgeDirected, d⟩]] g).2
    (∀ a b, g'.directedEdgeExists a b = true ↔ g.directedEdgeExists a b = true ∧ ¬ (a = u ∧ b = v)) ∧
    (g.directedEdgeExists v u = true → g'.edgeType v u = .ok (some .directed)) ∧
    (∀ a b, ¬ (a = u ∧ b = v) → ¬ (a = v ∧ b = u) → g'.getEdge a b = g.getEdge a b) ∧
    (g.edgeExists u v = false → g' = g) := by
  have h := hg.wf
  simp only
  rw [takeAction_snd]
  have hf : flatten [some [(⟨u, v, .removeEdgeDirected, d⟩ : TestResult ι δ)]] = [⟨u, v, .removeEdgeDirected, d⟩] := rfl
  have hs : (takeItems false [(⟨u, v, .removeEdgeDirected, d⟩ : TestResult ι δ)] g).2 =
      (applyOne ⟨u, v, .removeEdgeDirected, d⟩ g).2 := by
    rw [takeItems_cons]
    generalize applyOne (⟨u, v, .removeEdgeDirected, d⟩ : TestResult ι δ) g = x
    obtain ⟨e | b, g1⟩ := x <;> rfl
  rw [hf, hs]
  have hw := applyOne_wf (r := ⟨u, v, .removeEdgeDirected, d⟩) h
  refine ⟨?_, ?_, ?_, ?_⟩
  · intro a b
    rw [directedEdgeExists_eq h, directedEdgeExists_eq hw, applyOne_removeDirected_live h rfl]
    simp only [Bool.and_eq_true, Bool.not_eq_true', decide_eq_false_iff_not]
    grind
  · intro hl
    rw [directedEdgeExists_eq h] at hl
    have hne : v ≠ u := h.live_ne hl
    have hl' : (applyOne ⟨u, v, .removeEdgeDirected, d⟩ g).2.live v u = true := by
      rw [applyOne_removeDirected_live h rfl]; simp [hl, Ne.symm hne]
    unfold edgeType
    rw [edgeExists_eq hw, hl']
    rw [applyOne_removeDirected h rfl]
    simp only [hl, Bool.or_true, if_true, edges_addH, orientG, Bool.true_or, Bool.not_true, Bool.false_eq_true,
      if_false]
    obtain ⟨e, he, _⟩ := live_iff.1 hl
    rw [get2_modBoth, get2_modBoth]
    simp [he, Ne.symm hne]
  · intro a b h1 h2
    rw [getEdge_eq, getEdge_eq]
    congr 1
    rw [applyOne_removeDirected h rfl]
    have h1' : ¬ (u = a ∧ v = b) := fun hh => h1 ⟨hh.1.symm, hh.2.symm⟩
    have h2' : ¬ (v = a ∧ u = b) := fun hh => h2 ⟨hh.1.symm, hh.2.symm⟩
    split
    · simp only [edges_addH, orientG]
      split
      · simp only [get2_modBoth, h1', h2', if_false]
      · simp only [get2_modBoth, h1', if_false]
    · rfl
  · intro hl
    rw [edgeExists_eq h] at hl
    rw [applyOne_removeDirected h rfl, if_neg (by simp [hl])]

example : (takeAction false [some [⟨0, 1, .removeEdgeDirected, none⟩]] exK3).2.edgeType 1 0 =
    .ok (some .directed) ∧ exK3.edgeType 1 0 = .ok (some .undirected) := by decide +kernel

/-! ## C24 -/

/-- C24: without restore actions no edge becomes live, in any direction, even if an action raises midway. -/
theorem C24_only_restores_create (g : Graph ι δ) (hg : Reachable g) (rs : List (Option (List (TestResult ι δ))))
    (hr : ∀ r ∈ proposed rs, r.action ≠ .restoreEdge ∧ r.action ≠ .restoreEdgeDirected) (a b : ι)
    (hl : (takeAction false rs g).2.directedEdgeExists a b = true) : g.directedEdgeExists a b = true := by
  have h := hg.wf
  rw [takeAction_snd, directedEdgeExists_eq (takeItems_wf h _)] at hl
  rw [directedEdgeExists_eq h]
  refine takeItems_live_le h (flatten rs) ?_ hl
  intro r hr'
  have := hr r hr'
  cases ha : r.action <;> simp_all [Action.isRestore]

/-- restore actions do create edges, so the hypothesis is needed -/
example : (takeAction false [some [⟨0, 1, .removeEdgeUndirected, none⟩, ⟨0, 1, .restoreEdge, none⟩]] exK3).2.edgeExists
    0 1 = true := by decide +kernel

/-! ## C25 -/

/-- C25: exact live edges after a batch of orientations. -/
theorem C25_orientation_batch_effect (g : Graph ι δ) (hg : Reachable g)
    (rs : List (Option (List (TestResult ι δ))))
    (hr : ∀ r ∈ proposed rs, r.action = .removeEdgeDirected ∨ r.action = .doNothing) (a b : ι) :
    (takeAction false rs g).2.directedEdgeExists a b = true ↔
      g.directedEdgeExists a b = true ∧
      ∀ r ∈ proposed rs, r.action = .removeEdgeDirected → ¬ (r.u = a ∧ r.v = b) := by
  have h := hg.wf
  rw [takeAction_snd, directedEdgeExists_eq (takeItems_wf h _), directedEdgeExists_eq h]
  exact takeItems_removeDirected_live h (flatten rs) hr a b

/-- C25: a batch of orientations that never proposes both directions of a pair keeps every undirected
connection adjacent.  The proviso cannot be dropped, see
`C25_opposite_orientations_delete`. -/
theorem C25_orientation_keeps_adjacency (g : Graph ι δ) (hg : Reachable g)
    (rs : List (Option (List (TestResult ι δ))))
    (hr : ∀ r ∈ proposed rs, r.action = .removeEdgeDirected ∨ r.action = .doNothing)
    (hopp : ∀ r ∈ proposed rs, ∀ r' ∈ proposed rs, r.action = .removeEdgeDirected →
      r'.action = .removeEdgeDirected → ¬ (r'.u = r.v ∧ r'.v = r.u)) (a b : ι)
    (hl : g.undirectedEdgeExists a b = true) : (takeAction false rs g).2.edgeExists a b = true := by
  have h := hg.wf
  have hw : WF0 (takeAction false rs g).2 := by rw [takeAction_snd]; exact takeItems_wf h _
  have eff := C25_orientation_batch_effect g hg rs hr
  simp only [directedEdgeExists_eq hw, directedEdgeExists_eq h] at eff
  rw [undirected_eq h, Bool.and_eq_true] at hl
  rw [edgeExists_eq hw, Bool.or_eq_true, eff, eff]
  by_cases hx : ∀ r ∈ proposed rs, r.action = .removeEdgeDirected → ¬ (r.u = a ∧ r.v = b)
  · exact Or.inl ⟨hl.1, hx⟩
  · push Not at hx
    obtain ⟨r, hr1, hr2, rfl, rfl⟩ := hx
    exact Or.inr ⟨hl.2, fun r' h1 h2 => hopp r hr1 r' h1 hr2 h2⟩

/-- C25 without the proviso is false, and an orientation of an already removed direction is reported as
taken. -/
theorem C25_opposite_orientations_delete : ∃ g : Graph Nat Nat, Reachable g ∧
    g.undirectedEdgeExists 0 1 = true ∧
    (takeAction false [some [⟨0, 1, .removeEdgeDirected, none⟩, ⟨1, 0, .removeEdgeDirected, none⟩]] g).2.edgeExists 0 1
      = false ∧
    (takeAction false [some [⟨0, 1, .removeEdgeDirected, none⟩, ⟨0, 1, .removeEdgeDirected, none⟩]] g).1.toOption.map
      (fun p => p.1.length) = some 2 :=
  ⟨exK3, exK3_reachable, by decide +kernel⟩

example : ∀ r ∈ proposed [some [(⟨0, 1, .removeEdgeDirected, none⟩ : TestResult Nat Nat)], none,
      some [⟨2, 1, .removeEdgeDirected, none⟩]], ∀ r' ∈ proposed [some [(⟨0, 1, .removeEdgeDirected, none⟩ :
      TestResult Nat Nat)], none, some [⟨2, 1, .removeEdgeDirected, none⟩]], ¬ (r'.u = r.v ∧ r'.v = r.u) := by
  decide +kernel

/-! ## C26 -/

/-- C26: UPDATE_EDGE_TYPE and UPDATE_EDGE_TYPE_DIRECTED never change anything: they raise AttributeError on
an existing edge and are skipped otherwise. -/
theorem C26_update_edge_type_raises (g : Graph ι δ) (hg : Reachable g) (u v : ι) (d : Option δ) :
    takeAction false [some [⟨u, v, .updateEdgeType, d⟩]] g =
      (if g.edgeExists u v then (.error .attributeError, g)
       else (.ok ([], [⟨u, v, .updateEdgeType, d⟩]), g)) ∧
    takeAction false [some [⟨u, v, .updateEdgeTypeDirected, d⟩]] g =
      (if g.directedEdgeExists u v then (.error .attributeError, g)
       else (.ok ([], [⟨u, v, .updateEdgeTypeDirected, d⟩]), g)) := by
  have h := hg.wf
  constructor
  · rw [takeAction_single, applyOne_updateType h rfl, edgeExists_eq h]
    simp only
    cases (g.live u v || g.live v u) <;> rfl
  · rw [takeAction_single, applyOne_updateTypeDirected h rfl, directedEdgeExists_eq h]
    simp only
    cases g.live u v <;> rfl

example : (takeAction false [some [⟨0, 1, .updateEdgeType, none⟩]] exK3).1 = .error .attributeError := by
  decide +kernel

/-! ## C27 -/

/-- C27: without restores no applied action changes the keys of `edges` or of any row, or their order. -/
theorem C27_keys_stable (g : Graph ι δ) (hg : Reachable g) (rs : List (Option (List (TestResult ι δ))))
    (hr : ∀ r ∈ proposed rs, r.action ≠ .restoreEdge ∧ r.action ≠ .restoreEdgeDirected) :
    (takeAction false rs g).2.edges.keys = g.edges.keys ∧
    (∀ u, ((takeAction false rs g).2.edges.get? u).map Dict.keys = (g.edges.get? u).map Dict.keys) ∧
    (takeAction false rs g).2.nodes = g.nodes := by
  rw [takeAction_snd]
  have hk := takeItems_keys hg.wf (flatten rs) (by
    intro r hr'
    have := hr r hr'
    cases ha : r.action <;> simp_all [Action.isRestore])
  refine ⟨hk.1, ?_, hk.2.2⟩
  intro u
  have h1 := hk.2.1 u
  have h2 := Dict.has_eq_of_keys_eq hk.1 u
  unfold Dict.keys2 at h1
  unfold Dict.has at h2
  revert h1 h2
  cases (takeItems false (flatten rs) g).2.edges.get? u <;> cases g.edges.get? u <;> simp

/-- restores do add keys -/
example : let g := (purge (takeAction false [some [⟨0, 1, .removeEdgeUndirected, none⟩]] exK3).2).2
    (takeAction false [some [⟨0, 1, .restoreEdge, none⟩]] g).2.edges.keys2 0 ≠ g.edges.keys2 0 := by decide +kernel

/-! ## C28 -/

/-- C28: two orderings of the same undirected removals give the same stored edges (types, metadata and
deletion flags included). -/
theorem C28_removal_order_irrelevant (g : Graph ι δ) (hg : Reachable g)
    (rs rs' : List (Option (List (TestResult ι δ)))) (hperm : (proposed rs).Perm (proposed rs'))
    (hr : ∀ r ∈ proposed rs, r.action = .removeEdgeUndirected ∨ r.action = .doNothing) :
    (takeAction false rs g).2.edges = (takeAction false rs' g).2.edges ∧
    (takeAction false rs g).2.nodes = (takeAction false rs' g).2.nodes := by
  have h := hg.wf
  have hr' : ∀ r ∈ proposed rs', r.action = .removeEdgeUndirected ∨ r.action = .doNothing :=
    fun r hm => hr r (hperm.mem_iff.2 hm)
  have nr : ∀ {l : List (TestResult ι δ)}, (∀ r ∈ l, r.action = .removeEdgeUndirected ∨ r.action = .doNothing) →
      ∀ r ∈ l, r.action.isRestore = false := by
    intro l hl r hm
    rcases hl r hm with ha | ha <;> rw [ha] <;> rfl
  rw [takeAction_snd, takeAction_snd]
  have k1 := takeItems_keys h (flatten rs) (nr hr)
  have k2 := takeItems_keys h (flatten rs') (nr hr')
  refine ⟨?_, k1.2.2.trans k2.2.2.symm⟩
  refine Dict.ext_keys2 _ _ (k1.1.trans k2.1.symm) (fun u => (k1.2.1 u).trans (k2.2.1 u).symm) ?_
  intro a b
  rw [takeItems_removeUndirected_get2 h (flatten rs) hr, takeItems_removeUndirected_get2 h (flatten rs') hr']
  have hiff : ∀ (P : TestResult ι δ → Prop), (∃ r ∈ flatten rs, P r) ↔ (∃ r ∈ flatten rs', P r) := by
    intro P
    constructor
    · rintro ⟨r, hm, hp⟩; exact ⟨r, hperm.mem_iff.1 hm, hp⟩
    · rintro ⟨r, hm, hp⟩; exact ⟨r, hperm.mem_iff.2 hm, hp⟩
  simp only [hiff]

/-- C28: the recorded separating set does depend on the order: only the first applied result is recorded. -/
theorem C28_recorded_sepset_order_dependent : ∃ g : Graph Nat Nat, Reachable g ∧
    (takeAction false [some [⟨0, 1, .removeEdgeUndirected, some 5⟩], some [⟨0, 1, .removeEdgeUndirected, some 6⟩]]
      g).2.retrieveEdgeHistory 0 1 .removeEdgeUndirected = [⟨0, 1, .removeEdgeUndirected, some 5⟩] ∧
    (takeAction false [some [⟨0, 1, .removeEdgeUndirected, some 6⟩], some [⟨0, 1, .removeEdgeUndirected, some 5⟩]]
      g).2.retrieveEdgeHistory 0 1 .removeEdgeUndirected = [⟨0, 1, .removeEdgeUndirected, some 6⟩] :=
  ⟨exK3, exK3_reachable, by decide +kernel⟩

end Verif
