import Verif.Pipeline.Lemmas2
import Verif.Gen.Props
import Verif.Graph.Props
import Verif.Paths.Spec

/-!
# Properties C33 and C36: running a pipeline
-/

namespace Verif
open Graph
variable {ι δ : Type} [DecidableEq ι]

/-! ## C33 -/

/-- executing a step keeps the graph reachable by edits -/
theorem StepEffect.reachable {p : PStep ι δ} {g g' : Graph ι δ} {e : HistRec ι δ}
    (h : StepEffect p g e g') (hg : Reachable g) : Reachable g' := by
  cases h with
  | plain s _ g1 _ t p hx hp =>
    have hr := s.execute_reachable false hg
    rw [stepRuns_iff.2 hx] at hr
    have hr' : Reachable g1 := hr
    obtain ⟨ds, hds⟩ := hr'
    refine ⟨ds ++ [.purge], ?_⟩
    have hp' : (purge g1).2 = g' := by rw [hp]
    rw [← hp', hds]
    simp [Cmd.runAll, List.foldl_append, Cmd.run]
  | loop _ steps exit _ _ rs hx =>
    obtain ⟨fuel, hx⟩ := rounds_iff.2 hx
    have := loopGo_inv Reachable steps exit (fun s _ g hg => s.execute_reachable false hg) fuel 0 none hg
    rwa [hx] at this
  | together _ steps _ _ rs ts t p hx ht =>
    have hr2 := C11_actions_reachable g hg false [some ts]
    rwa [ht] at hr2

/-- one successful step of the model -/
theorem PStep.run_ok (fuel : Nat) (p : PStep ι δ) (m m' : GModel ι δ) (h : p.run fuel m = (.ok (), m')) :
    ∃ e, m'.history = m.history ++ [e] ∧ StepEffect p m.graph e m'.graph := by
  cases p with
  | plain s =>
    rw [PStep.run_plain] at h
    rw [PyM.bind_run, onGraph_run] at h
    generalize hx : s.execute false m.graph = x at h
    obtain ⟨e | ⟨t, p⟩, g1⟩ := x
    · cases h
    · simp only at h
      rw [PyM.bind_run] at h
      simp only [appendHistory, PyM.mod_run, onGraph_run] at h
      generalize hy : purge g1 = y at h
      obtain ⟨e | u, g2⟩ := y
      · cases h
      · simp only [Prod.mk.injEq] at h
        obtain ⟨_, rfl⟩ := h
        exact ⟨_, rfl, .plain s m.graph g1 g2 t p (stepRuns_iff.1 hx) hy⟩
  | loop name steps exit =>
    rw [PStep.run_loop] at h
    rw [PyM.bind_run, onGraph_run] at h
    generalize hx : loopGo steps exit fuel 0 none m.graph = x at h
    obtain ⟨e | rs, g1⟩ := x
    · cases h
    · simp only [appendHistory, PyM.mod_run, Prod.mk.injEq] at h
      obtain ⟨_, rfl⟩ := h
      exact ⟨_, rfl, .loop name steps exit m.graph g1 rs (rounds_iff.1 ⟨fuel, hx⟩)⟩
  | together name steps =>
    rw [PStep.run_together] at h
    rw [PyM.bind_run, onGraph_run] at h
    generalize hx : runTogether steps m.graph = x at h
    obtain ⟨e | rs, g1⟩ := x
    · cases h
    · simp only [appendHistory, PyM.mod_run, Prod.mk.injEq] at h
      obtain ⟨_, rfl⟩ := h
      obtain ⟨ts, t, p, h1, h2⟩ := together_iff.1 hx
      exact ⟨_, rfl, .together name steps m.graph g1 rs ts t p h1 h2⟩

/-- C33: a run without exception executes each configured step exactly once, in order, and appends exactly one history
entry per step, in that order and under its name.  What running a step, a round of a loop or the inner steps of a logic step
means, and what is recorded for them, is `StepRuns`, `Rounds` and `InnerRuns` of `Pipeline/Spec.lean`. -/
theorem C33_steps_once_in_order (fuel : Nat) (ps : List (PStep ι δ)) (m m' : GModel ι δ)
    (h : runPipeline fuel ps m = (.ok (), m')) :
    ∃ es, m'.history = m.history ++ es ∧ es.map HistRec.name = ps.map PStep.name ∧
      RunsInOrder ps m.graph es m'.graph := by
  unfold runPipeline at h
  induction ps generalizing m with
  | nil =>
    simp only [PyM.forEach_nil, Prod.mk.injEq, true_and] at h
    subst h
    exact ⟨[], by simp, rfl, .nil _⟩
  | cons p ps ih =>
    rw [PyM.forEach_cons, PyM.bind_run] at h
    generalize hx : p.run fuel m = x at h
    obtain ⟨e | u, m1⟩ := x
    · cases h
    · simp only at h
      obtain ⟨e, h1, h2⟩ := PStep.run_ok fuel p m m1 hx
      obtain ⟨es, h3, h4, h5⟩ := ih m1 h
      refine ⟨e :: es, by rw [h3, h1]; simp, ?_, .cons h2 h5⟩
      simp only [List.map_cons, h4, List.cons.injEq, and_true]
      cases h2 <;> rfl

/-- C33 if a step raises: the entries recorded are those of an initial segment of the configured steps. -/
theorem C33_failure_records_prefix (fuel : Nat) (ps : List (PStep ι δ)) (m m' : GModel ι δ) (hm : Reachable m.graph)
    (err : PyErr) (h : runPipeline fuel ps m = (.error err, m')) :
    ∃ done p rest, ps = done ++ p :: rest ∧
      ∃ es mid, m'.history = m.history ++ es ∧ es.map HistRec.name = done.map PStep.name ∧
        RunsInOrder done m.graph es mid := by
  unfold runPipeline at h
  induction ps generalizing m with
  | nil => cases h
  | cons p ps ih =>
    rw [PyM.forEach_cons, PyM.bind_run] at h
    generalize hx : p.run fuel m = x at h
    obtain ⟨e | u, m1⟩ := x
    · simp only [Prod.mk.injEq] at h
      obtain ⟨_, rfl⟩ := h
      refine ⟨[], p, ps, rfl, [], m.graph, ?_, rfl, .nil _⟩
      rw [List.append_nil]
      cases p with
      | plain s =>
        rw [PStep.run_plain] at hx
        rw [PyM.bind_run, onGraph_run] at hx
        have hr := s.execute_reachable false hm
        generalize s.execute false m.graph = x at hx hr
        obtain ⟨e' | ⟨t, p⟩, g1⟩ := x
        · simp only [Prod.mk.injEq] at hx
          rw [← hx.2]
        · simp only at hx
          rw [PyM.bind_run] at hx
          simp only [appendHistory, PyM.mod_run, onGraph_run] at hx
          rw [purge_run hr.wf] at hx
          cases hx
      | loop name steps exit =>
        rw [PStep.run_loop] at hx
        rw [PyM.bind_run, onGraph_run] at hx
        generalize loopGo steps exit fuel 0 none m.graph = x at hx
        obtain ⟨e' | rs, g1⟩ := x
        · simp only [Prod.mk.injEq] at hx
          rw [← hx.2]
        · cases hx
      | together name steps =>
        rw [PStep.run_together] at hx
        rw [PyM.bind_run, onGraph_run] at hx
        generalize runTogether steps m.graph = x at hx
        obtain ⟨e' | rs, g1⟩ := x
        · simp only [Prod.mk.injEq] at hx
          rw [← hx.2]
        · cases hx
    · simp only at h
      obtain ⟨e, h1, h2⟩ := PStep.run_ok fuel p m m1 hx
      have hm1 : Reachable m1.graph := h2.reachable hm
      obtain ⟨done, q, rest, hps, es, mid, h3, h4, h5⟩ := ih m1 hm1 h
      refine ⟨p :: done, q, rest, by rw [hps]; rfl, e :: es, mid, by rw [h3, h1]; simp, ?_, .cons h2 h5⟩
      simp only [List.map_cons, h4, List.cons.injEq, and_true]
      cases h2 <;> rfl

/-- C33: after a non-logic step no soft-deleted edge is left. -/
theorem C33_purged_after_plain (s : Step ι δ) (g g' : Graph ι δ) (e : HistRec ι δ) (hg : Reachable g)
    (h : StepEffect (.plain s) g e g') : Purged g' := by
  cases h with
  | plain _ _ g1 _ t p hx hp =>
    have hr := s.execute_reachable false hg
    rw [stepRuns_iff.2 hx] at hr
    have h5 := (C05_purge_invisible g1 hr).2.2.2.2.2.2.2.2.1
    rw [hp] at h5
    exact h5

/-- An example step: for every ordered pair it proposes to remove the edge if `v` is adjacent to node 2. -/
def exStep (name : String) (k : Nat) : Step Nat Nat where
  name := name
  chunked := false
  needsUnapplied := false
  applySync := false
  gen := fun g => .ok [fun _ => (g.nodes.map (fun u => Yield.single [u, k]))]
  process := fun c g _ => match c with
    | [u, v] => .ok (if g.edgeExists v 2 then some [⟨u, v, .removeEdgeUndirected, none⟩] else none)
    | _ => .error .valueError

/-- A run of three steps on the complete graph on 0, 1, 2: the first removes both edges at 1, so the second one, which
looks at the edge 1–2, proposes nothing, and the third removes the edge 0–2 again. -/
example : ((runPipeline 9 [.plain (exStep "a" 1), .plain (exStep "b" 1), .together "t" [exStep "c" 0]]
      ⟨exK3, []⟩).1 = .ok ()) ∧
    ((runPipeline 9 [.plain (exStep "a" 1), .plain (exStep "b" 1), .together "t" [exStep "c" 0]]
      ⟨exK3, []⟩).2.history.map (fun e => match e with
        | .plain r => (r.name, r.actions.length, r.proposed.length)
        | .logic n rs => (n, rs.length, (rs.flatMap (·.proposed)).length)) =
      [("a", 2, 3), ("b", 0, 0), ("t", 1, 3)]) := by decide +kernel

/-- A loop over the same step: two rounds are recorded, the second took nothing; a synchronous step asked about
2 – 1 first sees that this edge is gone and proposes nothing more. -/
example : ((runPipeline 9 [.loop "l" [exStep "a" 1] exitOnNoActions] ⟨exK3, []⟩).2.history.map (fun e => match e with
        | .plain r => (r.name, [(r.name, r.actions.length, r.proposed.length)])
        | .logic n rs => (n, rs.map (fun r => (r.name, r.actions.length, r.proposed.length)))) =
      [("l", [("a", 2, 3), ("a", 0, 0)])]) ∧
    ((runPipeline 9 [.plain { exStep "a" 1 with
        applySync := true, gen := fun g => .ok [fun _ => (g.nodes.reverse.map (fun u => Yield.single [u, 1]))] }] ⟨exK3, []⟩).2.history.map (fun e => match e with
        | .plain r => (r.name, r.actions.length, r.proposed.length)
        | .logic n rs => (n, rs.length, 0)) = [("a", 1, 1)]) := by decide +kernel

/-- an example step whose `process` raises -/
def exRaise : Step Nat Nat := { exStep "raise" 1 with process := fun _ _ _ => .error .typeError }

/-- A run which fails in its second step keeps the first step's history entry only. -/
example : ((runPipeline 9 [.plain (exStep "a" 1), .plain exRaise, .plain (exStep "b" 0)] ⟨exK3, []⟩).1 =
      .error .typeError) ∧
    ((runPipeline 9 [.plain (exStep "a" 1), .plain exRaise, .plain (exStep "b" 0)] ⟨exK3, []⟩).2.history.map
      HistRec.name = ["a"]) := by decide +kernel

/-! ## C36 -/

/-- C36: `ApplyActionsTogether` evaluates every inner step on the graph as it was at entry (nothing is applied while
they run), and the graph afterwards is the entry graph with all proposed actions applied in order. -/
theorem C36_together_frozen (steps : List (Step ι δ)) (g g' : Graph ι δ) (rs : List (StepRec ι δ))
    (h : runTogether steps g = (.ok rs, g')) :
    List.Forall₂ (fun s r => r.name = s.name ∧ StepRuns s true g r.actions r.proposed g ∧
      r.actions = r.proposed ∧
      ∀ a ∈ r.proposed, ∃ c u as, s.Generates g c ∧ s.process c g u = .ok (some as) ∧ a ∈ as) steps rs ∧
    (takeAction false [some (rs.flatMap (fun r => r.proposed))] g).2 = g' := by
  unfold runTogether at h
  rw [PyM.bind_run] at h
  have hd := runInner_dry_snd steps g
  generalize hx : runInner true steps g = x at h hd
  obtain ⟨e | ⟨rs', as⟩, g1⟩ := x
  · cases h
  · simp only at hd
    subst hd
    obtain ⟨h1, h2⟩ := runInner_dry steps g1 rs' as g1 hx
    simp only at h
    rw [PyM.bind_run] at h
    generalize hy : takeAction false (as.map (fun a => some [a])) g1 = y at h
    obtain ⟨e | tp, g2⟩ := y
    · cases h
    · simp only [PyM.pure_run, Prod.mk.injEq, Except.ok.injEq] at h
      obtain ⟨rfl, rfl⟩ := h
      constructor
      · refine h1.imp ?_
        intro s r ⟨hn, hex⟩
        obtain ⟨h3, h4⟩ := s.execute_dry g1 _ _ _ hex
        exact ⟨hn, stepRuns_iff.1 hex, h3, h4⟩
      · have hy2 : (takeAction false (as.map (fun a => some [a])) g1).2 = g2 := by rw [hy]
        rw [← hy2, takeAction_snd, takeAction_snd, ← h2]
        congr 2
        simp [flatten, List.flatMap_map]

/-- C36: if an inner step raises, the graph is untouched. -/
theorem C36_inner_failure_leaves_graph (steps : List (Step ι δ)) (g g' : Graph ι δ) (e : PyErr)
    (h : runInner true steps g = (.error e, g')) : runTogether steps g = (.error e, g) := by
  have hd := runInner_dry_snd steps g
  rw [h] at hd
  simp only at hd
  subst hd
  unfold runTogether
  rw [PyM.bind_run, h]

/-- The first inner step proposes removals, the second raises. -/
example : (runInner true [exStep "a" 1, exRaise] exK3).1.isOk = false ∧
    (runTogether [exStep "a" 1, exRaise] exK3).2 = exK3 := by decide +kernel

/-- Both inner steps see the complete graph: the second proposes removals although the first has already proposed to
remove the edge it looks at. -/
example : ((runTogether [exStep "a" 1, exStep "b" 1] exK3).1.map (fun rs => rs.map (fun r => r.proposed.length)) =
    .ok [3, 3]) ∧ (runTogether [exStep "a" 1, exStep "b" 1] exK3).2.edgeExists 1 2 = false ∧
    (runTogether [exStep "a" 1, exStep "b" 1] exK3).2.edgeExists 0 2 = true := by decide +kernel

end Verif
