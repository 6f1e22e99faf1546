import Verif.Par.Lemmas4
import Verif.CI.Props

/-!
# Properties C77 to C81: pipeline steps run in a pool of worker processes

`Par.Run s dry size g out` holds if some schedule of the feeder thread, the workers and the main thread lets the step end with
`out`.  All theorems quantify over schedules by quantifying over runs.
-/

namespace Verif
open Graph
variable {ι δ : Type} [DecidableEq ι]

/-- what a step returns and leaves behind -/
abbrev Outcome (ι δ : Type) := Except PyErr (List (TestResult ι δ) × List (TestResult ι δ)) × Graph ι δ

/-! ## a concrete parallel step: the triple test of `exTests` on a triangle and a fourth node -/

/-- the graph the step starts on: 0 – 1, 1 – 2, 0 – 2 with their correlations, and the isolated node 3 -/
def exParGraph : CI.CGraph Nat Int := Cmd.runAll [.addNode 0, .addNode 1, .addNode 2, .addNode 3,
  .addEdge 0 1 { corr := some 5 } .undirected, .addEdge 1 2 { corr := some 4 } .undirected,
  .addEdge 0 2 { corr := some 2 } .undirected] Graph.empty

theorem exParGraph_reachable : Reachable exParGraph := ⟨_, rfl⟩

/-! ## C77 -/

/-- **C77, no endless schedule.** A parallel step with a positive batch size makes only finitely many moves, whatever the
step, the graph and the schedule. -/
theorem C77_no_endless_schedule (s : Step ι δ) (dry : Bool) (size : Nat) (hsize : size ≠ 0) (f : Nat → Par.State ι δ) :
    ¬ ∀ n, Par.Trans s dry size (f n) (f (n + 1)) := by
  intro h
  have key : ∀ st : Par.State ι δ, ∀ n, f n ≠ st := by
    intro st
    induction st using (Par.trans_wf s dry hsize).induction with
    | _ st ih =>
      intro n e
      exact ih (f (n + 1)) (e ▸ h n) (n + 1) rfl
  exact key (f 0) 0 rfl

/-- **C77, no deadlock.** Whatever was scheduled so far, the step is finished, raises, or can go on; and it can be completed
from there: some outcome of the whole step is still possible. -/
theorem C77_no_deadlock (s : Step ι δ) (dry : Bool) (size : Nat) (hsize : size ≠ 0) (g : Graph ι δ)
    (ts : List (Graph ι δ → List (Yield ι))) (hgen : s.gen g = .ok ts) (st : Par.State ι δ)
    (h : Par.Trans.Star s dry size (.init g ts) st) :
    (st.Finished ∨ (∃ st', Par.Trans s dry size st st') ∨ ∃ e g', Par.Raises dry st e g') ∧
    ∃ st', Par.Trans.Star s dry size st st' ∧
      ((st'.Finished ∧ Par.Run s dry size g (.ok (st'.taken, st'.proposed), st'.graph)) ∨
        ∃ e g', Par.Raises dry st' e g' ∧ Par.Run s dry size g (.error e, g')) :=
  ⟨Par.progress s dry hsize st, Par.exists_run_from s dry hsize hgen h⟩

/-- **C77, outcome.** Every parallel step has an outcome from every graph, for every batch size. -/
theorem C77_some_outcome (s : Step ι δ) (dry : Bool) (size : Nat) (g : Graph ι δ) : ∃ out, Par.Run s dry size g out :=
  Par.exists_run s dry size g

/-- the hypotheses are met and the start is not already the end: the step of the example can move from its first state -/
example : ∃ ts st, (CI.partialStep exTests).gen exParGraph = .ok ts ∧
    Par.Trans (CI.partialStep exTests) false 1 (.init exParGraph ts) st := by
  have : ∃ cs, CI.allGen ⟨3, 3⟩ exParGraph = .ok [fun _ => List.map Yield.single cs] := by
    obtain ⟨ts, hts⟩ := CI.allGen_total (s := ⟨3, 3⟩) (by decide) exParGraph
    obtain ⟨cs, _, rfl⟩ := CI.allGen_combos hts
    exact ⟨cs, hts⟩
  obtain ⟨cs, hcs⟩ := this
  exact ⟨_, _, hcs, .generate _ _ _ rfl Nat.zero_lt_one⟩

/-- **C77, batch size zero.** With batch size zero the step always fails with `ValueError` and changes nothing. -/
theorem C77_zero_batch_size (s : Step ι δ) (dry : Bool) (g : Graph ι δ) (out : Outcome ι δ) :
    Par.Run s dry 0 g out ↔ out = (.error .valueError, g) := by
  constructor
  · intro h
    cases h with
    | badSize _ => rfl
    | badGen h => exact absurd rfl h
    | done h => exact absurd rfl h
    | raised h => exact absurd rfl h
  · rintro rfl
    exact .badSize rfl

/-! ## C78 -/

/-- **C78.** If all combinations of a step fit into one batch, running it in parallel has exactly one outcome, namely that of
running it in the main process: same graph, same recorded actions, same exception. -/
theorem C78_one_batch_is_sequential (s : Step ι δ) (dry : Bool) (size : Nat) (g : Graph ι δ)
    (ts : List (Graph ι δ → List (Yield ι))) (hgen : s.gen g = .ok ts) (hfit : (ts.flatMap (fun t => t g)).length < size)
    (hu : s.needsUnapplied = false) (hc : s.chunked = false) (hy : s.applySync = false) (out : Outcome ι δ) :
    Par.Run s dry size g out ↔ out = s.execute dry g := by
  have hsize : size ≠ 0 := by omega
  constructor
  · exact fun h => Par.run_one_batch hsize hgen (Par.fits_of_lt hfit) hu hc hy h
  · rintro rfl
    obtain ⟨out, h⟩ := Par.exists_run s dry size g
    rwa [← Par.run_one_batch hsize hgen (Par.fits_of_lt hfit) hu hc hy h]

/-- the four triples of the example fit into a batch of five, and the step removes 0 – 2 -/
example : (match (CI.partialStep exTests).gen exParGraph with
    | .ok ts => decide ((ts.flatMap (fun t => t exParGraph)).length = 4)
    | .error _ => false) = true ∧
    exParGraph.edgeExists 0 2 = true ∧ ((CI.partialStep exTests).execute false exParGraph).2.edgeExists 0 2 = false := by
  refine ⟨?_, ?_, ?_⟩ <;> decide +kernel

/-! ## C79 -/

/-- **C79.** Whatever the step proposes, whatever the schedule and whatever the outcome: the graph left behind by a parallel
step is one that edit operations produce, so all consistency properties of such graphs hold (C01 to C15). -/
theorem C79_parallel_keeps_consistency (s : Step ι δ) (dry : Bool) (size : Nat) (g : Graph ι δ) (hg : Reachable g)
    (out : Outcome ι δ) (h : Par.Run s dry size g out) : Reachable out.2 := by
  have hstar : ∀ ts st, Par.Trans.Star s dry size (.init g ts) st → Reachable st.graph := by
    intro ts st hr
    refine Par.star_inv (fun st => Reachable st.graph) ?_ hr hg
    intro st st' h ht
    cases ht with
    | generate => exact h
    | send => exact h
    | receive => exact h
    | apply r rs t p g' hc ha =>
      have := C11_actions_reachable st.graph h dry (Par.asList r)
      rwa [ha] at this
  cases h with
  | badSize _ => exact hg
  | badGen _ _ _ => exact hg
  | done _ ts _ st hr _ => exact hstar ts st hr
  | raised _ ts _ st hr e g' hf =>
    cases hf with
    | batch l1 e l2 hc hs => exact hstar ts st hr
    | apply r rs e g' hc ha =>
      have := C11_actions_reachable st.graph (hstar ts st hr) dry (Par.asList r)
      rwa [ha] at this

/-- the graph of the example is such a graph -/
example : Reachable exParGraph ∧ ∃ out, Par.Run (CI.partialStep exTests) false 1 exParGraph out :=
  ⟨exParGraph_reachable, Par.exists_run _ _ _ _⟩

/-! ## C80 -/

/-- **C80.** The actions a finished parallel step records as taken were proposed, in the recorded order, and taking just them
in that order in the main process leads from the graph before to the graph after, whatever the schedule was. -/
theorem C80_recorded_actions_replay (s : Step ι δ) (size : Nat) (g : Graph ι δ) (hg : Reachable g)
    (taken all : List (TestResult ι δ)) (g' : Graph ι δ) (h : Par.Run s false size g (.ok (taken, all), g')) :
    taken.Sublist all ∧ (∀ r ∈ taken, r.action ≠ .doNothing) ∧
    takeAction false [some taken] g = (.ok (taken, taken), g') := by
  generalize hout : ((.ok (taken, all), g') : Outcome ι δ) = out at h
  cases h with
  | badSize _ => cases hout
  | badGen _ _ _ => cases hout
  | raised => cases hout
  | done _ ts _ st hr hf =>
    cases hout
    have hrec := Par.recorded_star hg hr
    refine ⟨hrec.sub, hrec.acts, ?_⟩
    rw [takeAction_flat]
    have : Graph.flatten [some st.taken] = st.taken := by simp [Graph.flatten]
    rw [this, hrec.replay]

/-! ## C81 -/

/-- **C81.** A finished parallel step has evaluated every combination its generator produced exactly once and has applied
every answer exactly once: there is a list of evaluations whose combinations are, in order, those handed out by the
generator's positions `ts` (each forced on some graph `gs` of the main process), whose answers are those of `process` on a
graph of the main process, and the recorded proposals are exactly their answers, in some order.  Each of those graphs is the
one some initial part of the recorded actions leads to: no worker sees a half-applied action or an action that was not
recorded. -/
theorem C81_every_combination_once (s : Step ι δ) (size : Nat) (g : Graph ι δ) (hg : Reachable g)
    (taken all : List (TestResult ι δ)) (g' : Graph ι δ) (h : Par.Run s false size g (.ok (taken, all), g')) :
    ∃ (ts : List (Graph ι δ → List (Yield ι))) (gs : List (Graph ι δ))
      (evs : List (List ι × Graph ι δ × Option (List (TestResult ι δ)))),
      s.gen g = .ok ts ∧ gs.length = ts.length ∧
      (List.zipWith (fun t h => t h) ts gs).flatten = evs.map (fun e => .single e.1) ∧
      (∀ e ∈ evs, s.process e.1 e.2.1 none = .ok e.2.2) ∧
      (∀ h, (h ∈ gs ∨ ∃ e ∈ evs, h = e.2.1) → ∃ n, (takeAction false [some (taken.take n)] g).2 = h) ∧
      (proposed (evs.map (fun e => e.2.2))).Perm all := by
  generalize hout : ((.ok (taken, all), g') : Outcome ι δ) = out at h
  cases h with
  | badSize _ => cases hout
  | badGen _ _ _ => cases hout
  | raised => cases hout
  | done _ ts hgen st hr hf =>
    cases hout
    obtain ⟨f1, f2, f3, f4⟩ := hf
    rcases Par.logged_star hg hr with ⟨e, he⟩ | ⟨ts', gs, evs, h1, h2, h3, h4, h5, h6⟩
    · rw [f3] at he; cases he
    rw [f1, List.append_nil] at h1
    subst h1
    rw [f2, List.append_nil] at h3
    rw [f3, f4] at h6
    have hsingle : ∀ e ∈ evs, ∃ c, e.1 = .single c ∧ s.process c e.2.1 none = .ok e.2.2 := by
      intro e he
      have := (h5 e he).2
      cases hy : e.1 with
      | chunk cs => rw [hy] at this; cases this
      | single c => rw [hy] at this; exact ⟨c, rfl, this⟩
    let unY : Yield ι → List ι := fun y => match y with | .single c => c | .chunk _ => []
    refine ⟨ts, gs, evs.map (fun e => (unY e.1, e.2)), hgen, h2, ?_, ?_, ?_, ?_⟩
    · rw [h3, List.map_map]
      refine List.map_congr_left ?_
      intro e he
      obtain ⟨c, hc, _⟩ := hsingle e he
      simp [hc, unY]
    · intro e he
      obtain ⟨e', he', rfl⟩ := List.mem_map.1 he
      obtain ⟨c, hc, hp⟩ := hsingle e' he'
      simp only [hc, unY]
      exact hp
    · rintro h (hh | ⟨e, he, rfl⟩)
      · exact h4 h hh
      · obtain ⟨e', he', rfl⟩ := List.mem_map.1 he
        exact (h5 e' he').1
    · rw [List.map_map]
      have e0 : Graph.flatten ([] : Results ι δ) = [] := rfl
      simp only [e0, Par.oks, List.flatMap_nil, List.append_nil] at h6
      exact h6

/-- a finished run of the example with one removal -/
example : ∃ taken all g', Par.Run (CI.partialStep exTests) false 5 exParGraph (.ok (taken, all), g') ∧
    taken = [CI.removal 0 2 [1]] ∧ all.length = 3 := by
  have hg : (match (CI.partialStep exTests).gen exParGraph with
    | .ok ts => decide ((ts.flatMap (fun t => t exParGraph)).length < 5)
    | .error _ => false) = true := by decide +kernel
  cases hx : (CI.partialStep exTests).gen exParGraph with
  | error e => rw [hx] at hg; cases hg
  | ok ts =>
    rw [hx] at hg
    have h := (C78_one_batch_is_sequential (CI.partialStep exTests) false 5 exParGraph ts hx (by simpa using hg) rfl rfl rfl
      _).2 rfl
    have hv : (match (CI.partialStep exTests).execute false exParGraph with
      | (.ok (t, a), _) => decide (t = [CI.removal 0 2 [1]] ∧ a.length = 3)
      | _ => false) = true := by decide +kernel
    generalize (CI.partialStep exTests).execute false exParGraph = y at h hv
    obtain ⟨e | ⟨t, a⟩, g'⟩ := y
    · cases hv
    · exact ⟨t, a, g', h, by simpa using hv⟩

end Verif
