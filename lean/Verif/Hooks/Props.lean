import Verif.Hooks.Lemmas3
import Verif.Pipeline.Props

/-!
# Properties of hooks (C95 to C98)

The words used here are defined in `Verif/Hooks/Spec`.
-/

namespace Verif
variable {ι δ ω : Type} [DecidableEq ι]

/-! ## C95: hooks that only watch change nothing -/

/-- **C95.**  Hooks that only watch, whatever else they do and even if those of the edge types raise, change neither the
outcome of a run nor its graph and history. -/
theorem C95_watching_hooks_change_nothing (H : Hooks ι δ ω) (hH : H.Watching) (fuel : Nat) (ps : List (PStep ι δ))
    (m : GModel ι δ) (w : ω) :
    (H.runPipeline fuel ps (m, w)).1 = (runPipeline fuel ps m).1 ∧
      (H.runPipeline fuel ps (m, w)).2.1 = (runPipeline fuel ps m).2 :=
  Hooks.runPipeline_erases hH fuel ps m w

/-- **C95**, one batch of actions: hooks that only watch change neither the actions reported nor the graph. -/
theorem C95_batch (H : Hooks ι δ ω) (hH : H.Watching) (dry : Bool) (rs : Results ι δ) (g : Graph ι δ) (w : ω) :
    (H.takeAction dry rs (g, w)).1 = (Graph.takeAction dry rs g).1 ∧
      (H.takeAction dry rs (g, w)).2.1 = (Graph.takeAction dry rs g).2 :=
  Hooks.takeAction_erases hH dry rs g w

/-- example hooks: they count their calls; those of the edge types always raise -/
def exWatch : Hooks Nat Nat Nat where
  edge := fun _ _ _ s => (.error .runtimeError, (s.1, s.2 + 1))
  pre := [fun rs s => (.ok rs, (s.1, s.2 + 10))]
  post := [fun _ s => (.ok (), (s.1, s.2 + 100))]

theorem exWatch_watching : exWatch.Watching where
  edge := fun _ _ _ _ => rfl
  pre := fun f hf rs s => by
    rcases List.mem_singleton.1 hf with rfl
    exact ⟨rfl, rfl⟩
  post := fun f hf rs s => by
    rcases List.mem_singleton.1 hf with rfl
    exact ⟨rfl, rfl⟩

/-- The hooks were called (two removals with two calls each, three lists of proposals), raised, and the run ended as without
them, having removed edges. -/
example : (exWatch.runPipeline 9 [.plain (exStep "a" 1)] (⟨exK3, []⟩, 0)).2.2 = 334 ∧
    (exWatch.runPipeline 9 [.plain (exStep "a" 1)] (⟨exK3, []⟩, 0)).1 = .ok () ∧
    (exWatch.runPipeline 9 [.plain (exStep "a" 1)] (⟨exK3, []⟩, 0)).2.1.graph.edgeExists 0 1 = false := by
  refine ⟨?_, ?_, ?_⟩ <;> decide +kernel

/-- If a hook of an edge type changes the graph, the run does end differently: it removes the edge 0–2 as well. -/
def exMeddle : Hooks Nat Nat Nat where
  edge := fun _ _ _ s => (.ok (), ((Graph.removeEdge 0 2 true s.1).2, s.2))

example : (exMeddle.runPipeline 9 [.plain (exStep "a" 1)] (⟨exK3, []⟩, 0)).2.1.graph.edgeExists 0 2 = false ∧
    (runPipeline 9 [.plain (exStep "a" 1)] ⟨exK3, []⟩).2.graph.edgeExists 0 2 = true := by
  refine ⟨?_, ?_⟩ <;> decide +kernel

/-! ## C96: which hooks of edge types are called -/

/-- **C96.**  Applying a batch calls the hooks of edge types that `Called` lists, in this order: around every action that is
applied the pre- and the post-hook of the stored edge's type, and none for actions that are skipped. -/
theorem C96_hooks_called (H : Hooks ι δ (List (HookCall ι δ))) (hH : H.LogsEdgeHooks) (rs : Results ι δ)
    (g : Graph ι δ) (w : List (HookCall ι δ)) :
    ∃ l, (H.takeAction false rs (g, w)).2.2 = w ++ l ∧ Called g (rs.flatMap (fun r => r.getD [])) l := by
  rw [Hooks.takeAction_flat hH]
  exact Hooks.takeItems_called hH _ g w

/-- **C96**: `Called` leaves no choice. -/
theorem C96_called_unique {g : Graph ι δ} {rs : List (TestResult ι δ)} {l l' : List (HookCall ι δ)} (h : Called g rs l)
    (h' : Called g rs l') : l = l' := by
  induction h generalizing l' with
  | nil g => cases h'; rfl
  | skipped h _ ih => cases h' <;> first | exact ih (by assumption) | simp_all
  | applied h hh _ ih =>
    cases h' with
    | skipped h2 _ => simp_all
    | applied h2 hh2 rest =>
      rw [h] at h2; rw [hh] at hh2
      cases h2; cases hh2
      rw [ih rest]
    | restored _ hh2 _ => simp_all
    | raised h2 _ => simp_all
    | raisedRestoring h2 _ => simp_all
  | restored h hh _ ih =>
    cases h' with
    | skipped h2 _ => simp_all
    | applied _ hh2 _ => simp_all
    | restored h2 hh2 rest =>
      rw [h] at h2
      cases h2
      exact ih rest
    | raised h2 _ => simp_all
    | raisedRestoring h2 _ => simp_all
  | raised h hh => cases h' <;> simp_all
  | raisedRestoring h hh => cases h' <;> simp_all

/-- **C96**: a dry run calls no hook of an edge type. -/
theorem C96_dry_run_calls_none (H : Hooks ι δ (List (HookCall ι δ))) (hH : H.LogsEdgeHooks) (rs : Results ι δ)
    (g : Graph ι δ) (w : List (HookCall ι δ)) : (H.takeAction true rs (g, w)).2 = (g, w) := by
  rw [Hooks.takeAction_flat hH, Hooks.takeItems_dry_log]

/-- **C96**: the hook after a change of the edge type is never called (such an action always raises; see C26). -/
theorem C96_post_type_change_never_called {g : Graph ι δ} {rs : List (TestResult ι δ)} {l : List (HookCall ι δ)}
    (h : Called g rs l) : ∀ c ∈ l, c.1 ≠ .postTypeChange := by
  have hc : ∀ (g : Graph ι δ) h (r : TestResult ι δ), ∀ c ∈ g.callOf h r, c.1 = h := by
    intro g h r c hc
    unfold Graph.callOf at hc
    split at hc
    · rcases List.mem_singleton.1 hc with rfl; rfl
    · cases hc
  induction h with
  | nil g => intro c hc; cases hc
  | skipped _ _ ih => exact ih
  | applied h hh _ ih =>
    rename_i r _ a b _ _
    have ha : a ≠ .postTypeChange ∧ b ≠ .postTypeChange := by
      cases hr : r.action <;> rw [hr] at hh <;> simp only [Action.hooks, Option.some.injEq, Prod.mk.injEq, reduceCtorEq] at hh
      all_goals first
        | (obtain ⟨rfl, rfl⟩ := hh; exact ⟨by decide, by decide⟩)
        | skip
      all_goals
        exfalso
        revert h
        simp only [Graph.applyOne, hr, PyM.bind_run, PyM.get]
        split <;> simp [PyM.raise, pure, PyM.pure]
    intro c hm
    rcases List.mem_append.1 hm with hm | hm
    · rcases List.mem_append.1 hm with hm | hm
      · rw [hc _ _ _ c hm]; exact ha.1
      · rw [hc _ _ _ c hm]; exact ha.2
    · exact ih c hm
  | restored _ _ _ ih => exact ih
  | raised h hh =>
    rename_i r _ a b
    intro c hm
    rw [hc _ _ _ c hm]
    revert hh
    cases r.action <;> simp [Action.hooks] <;> (rintro rfl _; decide)
  | raisedRestoring => intro c hc; cases hc

/-- example hooks that note their calls and raise -/
def exLog : Hooks Nat Nat (List (HookCall Nat Nat)) where
  edge := fun h t r s => (.error .runtimeError, (s.1, s.2 ++ [(h, t, r)]))

theorem exLog_logs : exLog.LogsEdgeHooks where
  edge := fun _ _ _ _ => rfl
  pre := rfl
  post := rfl

/-- A removal is applied, a second removal of the same edge is skipped, an edge is oriented, the removed edge is restored, a
metadata update is applied: six calls. -/
example : (exLog.takeAction false [some [⟨0, 1, .removeEdgeUndirected, none⟩, ⟨1, 0, .removeEdgeUndirected, none⟩], none,
      some [⟨0, 2, .removeEdgeDirected, none⟩, ⟨0, 1, .restoreEdge, none⟩, ⟨2, 1, .updateEdge, some 3⟩]] (exK3, [])).2.2.map
        (fun c => (c.1, c.2.2.u, c.2.2.v)) =
      [(.preRemove, 0, 1), (.postRemove, 0, 1), (.preRemove, 0, 2), (.postRemove, 0, 2), (.preUpdate, 2, 1),
        (.postUpdate, 2, 1)] := by decide +kernel

/-! ## C97: pre-update hooks rewrite what is proposed -/

/-- **C97**, without `ApplyActionsTogether`, for steps whose test does not read the results so far: a run with pre-update
hooks that replace every list of proposals `l` by `φ l` ends as the run, without hooks, of the steps that propose `φ l`. -/
theorem C97_pre_hooks_rewrite_partial (H : Hooks ι δ ω) (φ : List (TestResult ι δ) → List (TestResult ι δ))
    (hH : H.Rewrites φ) (fuel : Nat) (ps : List (PStep ι δ)) (hp : ∀ p ∈ ps, p.appliesAtOnce)
    (hs : ∀ p ∈ ps, ∀ s ∈ p.allSteps, s.needsUnapplied = false) (m : GModel ι δ) (w : ω) :
    (H.runPipeline fuel ps (m, w)).1 = (runPipeline fuel (ps.map (PStep.rewritten φ)) m).1 ∧
      (H.runPipeline fuel ps (m, w)).2.1 = (runPipeline fuel (ps.map (PStep.rewritten φ)) m).2 :=
  Hooks.runPipeline_rewrites hH fuel ps hp hs m w

/-- **C97**, hooks that drop proposals: here the pipeline may use `ApplyActionsTogether`. -/
theorem C97_filters_partial (H : Hooks ι δ ω) (p : TestResult ι δ → Bool) (hH : H.Rewrites (List.filter p)) (fuel : Nat)
    (ps : List (PStep ι δ)) (hs : ∀ p ∈ ps, ∀ s ∈ p.allSteps, s.needsUnapplied = false) (m : GModel ι δ) (w : ω) :
    (H.runPipeline fuel ps (m, w)).1 = (runPipeline fuel (ps.map (PStep.rewritten (List.filter p))) m).1 ∧
      (H.runPipeline fuel ps (m, w)).2.1 = (runPipeline fuel (ps.map (PStep.rewritten (List.filter p))) m).2 :=
  Hooks.runPipeline_filters hH fuel ps hs m w

/-- the hooks consisting of one pre-update hook -/
def Hooks.ofPre (φ : List (TestResult ι δ) → List (TestResult ι δ)) : Hooks ι δ Unit where
  edge := fun _ _ _ s => (.ok (), s)
  pre := [fun rs s => (.ok (rs.map φ), s)]

theorem Hooks.ofPre_rewrites (φ : List (TestResult ι δ) → List (TestResult ι δ)) : (Hooks.ofPre φ).Rewrites φ where
  edge := fun _ _ _ _ => rfl
  pre := fun _ _ => ⟨rfl, rfl⟩
  post := fun _ hf => by cases hf

/-- a hook that protects the edge 0–1 -/
def exKeep (r : TestResult Nat Nat) : Bool := !(r.u == 0 && r.v == 1)

/-- With this hook the example step removes the edge 2–1, but leaves 0–1; also inside `ApplyActionsTogether`. -/
example : ((Hooks.ofPre (List.filter exKeep)).runPipeline 9 [.plain (exStep "a" 1)] (⟨exK3, []⟩, ())).2.1.graph.edgeExists 0 1 =
      true ∧
    ((Hooks.ofPre (List.filter exKeep)).runPipeline 9 [.plain (exStep "a" 1)] (⟨exK3, []⟩, ())).2.1.graph.edgeExists 2 1 =
      false ∧
    ((Hooks.ofPre (List.filter exKeep)).runPipeline 9 [.together "t" [exStep "a" 1]] (⟨exK3, []⟩, ())).2.1.graph.edgeExists 0 1 =
      true ∧
    (runPipeline 9 [.plain (exStep "a" 1)] ⟨exK3, []⟩).2.graph.edgeExists 0 1 = false := by
  refine ⟨?_, ?_, ?_, ?_⟩ <;> decide +kernel

/-- a hook that swaps the nodes 0 and 2 as first ends of proposals -/
def exSwap (rs : List (TestResult Nat Nat)) : List (TestResult Nat Nat) :=
  rs.map (fun r => { r with u := if r.u = 0 then 2 else if r.u = 2 then 0 else r.u })

/-- a step that proposes to remove the edge 0–1 -/
def exRemove01 : Step Nat Nat where
  name := "r"
  chunked := false
  needsUnapplied := false
  applySync := false
  gen := fun _ => .ok [fun _ => [Yield.single [0, 1]]]
  process := fun _ _ _ => .ok (some [⟨0, 1, .removeEdgeUndirected, none⟩])

/-- **C97**, the claim without restrictions fails: inside `ApplyActionsTogether` the hooks rewrite a proposal twice. -/
theorem C97_full_statement_fails : ¬ ∀ (H : Hooks Nat Nat Unit) (φ : List (TestResult Nat Nat) → List (TestResult Nat Nat)),
    H.Rewrites φ → ∀ (fuel : Nat) (ps : List (PStep Nat Nat)) (m : GModel Nat Nat),
      (H.runPipeline fuel ps (m, ())).2.1 = (runPipeline fuel (ps.map (PStep.rewritten φ)) m).2 := by
  intro h
  have h1 := h (Hooks.ofPre exSwap) exSwap (Hooks.ofPre_rewrites exSwap) 1 [.together "t" [exRemove01]] ⟨exK3, []⟩
  have h2 := congrArg (fun m => m.graph.edgeExists 0 1) h1
  have h3 : ((Hooks.ofPre exSwap).runPipeline 1 [.together "t" [exRemove01]] (⟨exK3, []⟩, ())).2.1.graph.edgeExists 0 1 =
      false := by decide +kernel
  have h4 : (runPipeline 1 ([.together "t" [exRemove01]].map (PStep.rewritten exSwap)) ⟨exK3, []⟩).2.graph.edgeExists 0 1 =
      true := by decide +kernel
  simp only [h3, h4] at h2
  cases h2

/-- a step that reads the results so far: it proposes to remove 0–1 and 0–2, each unless something was proposed before -/
def exFirstOnly : Step Nat Nat where
  name := "f"
  chunked := false
  needsUnapplied := true
  applySync := false
  gen := fun _ => .ok [fun _ => [Yield.single [0, 1], Yield.single [0, 2]]]
  process := fun c _ u => match c with
    | [x, y] => .ok (some (if (u.getD []).any (fun r => match r with
        | some (_ :: _) => true
        | _ => false) then [] else [⟨x, y, .removeEdgeUndirected, none⟩]))
    | _ => .error .valueError

/-- **C97**, the other restriction is needed too: a test that reads the results so far sees them before the hooks. -/
theorem C97_unapplied_fails : ¬ ∀ (H : Hooks Nat Nat Unit) (φ : List (TestResult Nat Nat) → List (TestResult Nat Nat)),
    H.Rewrites φ → ∀ (fuel : Nat) (ps : List (PStep Nat Nat)) (_ : ∀ p ∈ ps, p.appliesAtOnce) (m : GModel Nat Nat),
      (H.runPipeline fuel ps (m, ())).2.1 = (runPipeline fuel (ps.map (PStep.rewritten φ)) m).2 := by
  intro h
  have h1 := h (Hooks.ofPre (List.filter exKeep)) _ (Hooks.ofPre_rewrites _) 1 [.plain exFirstOnly]
    (fun p hp => by rcases List.mem_singleton.1 hp with rfl; trivial) ⟨exK3, []⟩
  have h2 := congrArg (fun m => m.graph.edgeExists 0 2) h1
  have h3 : ((Hooks.ofPre (List.filter exKeep)).runPipeline 1 [.plain exFirstOnly] (⟨exK3, []⟩, ())).2.1.graph.edgeExists 0 2 =
      true := by decide +kernel
  have h4 : (runPipeline 1 ([.plain exFirstOnly].map (PStep.rewritten (List.filter exKeep))) ⟨exK3, []⟩).2.graph.edgeExists 0 2 =
      false := by decide +kernel
  simp only [h3, h4] at h2
  cases h2

/-! ## C98: post-update hooks are told what the history lists -/

/-- **C98**, without `ApplyActionsTogether`: during a run that ends without an error the post-update hook is told, in order,
exactly the actions the new history entries list. -/
theorem C98_post_hooks_told_history_partial (H : Hooks ι δ (List (List (TestResult ι δ)))) (hH : H.LogsUpdates) (fuel : Nat)
    (ps : List (PStep ι δ)) (hp : ∀ p ∈ ps, p.appliesAtOnce) (m m' : GModel ι δ) (w w' : List (List (TestResult ι δ)))
    (h : H.runPipeline fuel ps (m, w) = (.ok (), (m', w'))) :
    ∃ rs, m'.history = m.history ++ rs ∧ w'.flatten = w.flatten ++ rs.flatMap HistRec.recorded :=
  Hooks.runPipeline_notes hH fuel ps hp m m' w w' h

/-- example hooks: one post-update hook, which notes what it is told -/
def exNote : Hooks Nat Nat (List (List (TestResult Nat Nat))) where
  edge := fun _ _ _ s => (.ok (), s)
  post := [noteUpdates]

theorem exNote_logs : exNote.LogsUpdates where
  edge := fun _ _ _ _ => rfl
  pre := rfl
  post := rfl

/-- The example step takes two of its three proposals; the hook is told the three lists, one of them empty. -/
example : (exNote.runPipeline 9 [.plain (exStep "a" 1), .loop "l" [exStep "b" 0] exitOnNoActions] (⟨exK3, []⟩, [])).1 =
      .ok () ∧
    (exNote.runPipeline 9 [.plain (exStep "a" 1)] (⟨exK3, []⟩, [])).2.2.map (fun l => l.map (fun r => (r.u, r.v))) =
      [[(0, 1)], [], [(2, 1)]] := by
  refine ⟨?_, ?_⟩ <;> decide +kernel

/-- **C98**, the claim for all pipelines fails: `ApplyActionsTogether` tells the hook an action twice, the first time before
it is applied. -/
theorem C98_full_statement_fails : ¬ ∀ (H : Hooks Nat Nat (List (List (TestResult Nat Nat)))), H.LogsUpdates →
    ∀ (fuel : Nat) (ps : List (PStep Nat Nat)) (m m' : GModel Nat Nat) (w' : List (List (TestResult Nat Nat))),
      H.runPipeline fuel ps (m, []) = (.ok (), (m', w')) →
        ∃ rs, m'.history = m.history ++ rs ∧ w'.flatten = rs.flatMap HistRec.recorded := by
  intro h
  have h0 : (exNote.runPipeline 1 [.together "t" [exRemove01]] (⟨exK3, []⟩, [])).1 = .ok () := by decide +kernel
  have h1 : (exNote.runPipeline 1 [.together "t" [exRemove01]] (⟨exK3, []⟩, [])).2.2.flatten.length = 2 := by decide +kernel
  have h2 : ((exNote.runPipeline 1 [.together "t" [exRemove01]] (⟨exK3, []⟩, [])).2.1.history.flatMap
      HistRec.recorded).length = 1 := by decide +kernel
  have h3 := h exNote exNote_logs 1 [.together "t" [exRemove01]] ⟨exK3, []⟩
  revert h0 h1 h2 h3
  generalize exNote.runPipeline 1 [.together "t" [exRemove01]] (⟨exK3, []⟩, []) = x
  obtain ⟨r, m', w'⟩ := x
  rintro rfl h1 h2 h3
  obtain ⟨rs, h4, h5⟩ := h3 m' w' rfl
  simp only [List.nil_append] at h4
  simp only at h1 h2
  rw [h5, ← h4, h2] at h1
  cases h1

end Verif
