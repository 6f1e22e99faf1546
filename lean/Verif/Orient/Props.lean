import Verif.Orient.Lemmas9
import Verif.CI.Props
import Verif.Pipeline.Props
import Verif.Dag.Spec

/-!
# Properties of the orientation phase (C34, C35, C37, C41 to C44, C47)
-/

namespace Verif
open Graph CI Orient
variable {ι ρ : Type} [DecidableEq ι]

/-! ## graphs used in the examples -/

/-- some order of sets -/
def exSetOrd : Ord Nat Int := fun _ _ _ l => l.dedup

theorem exSetOrd_valid : exSetOrd.Valid := fun _ _ _ l => ⟨l.nodup_dedup, fun _ => List.mem_dedup⟩

/-- the same order in all rules -/
def exSetOrds : Ords Nat Int := ⟨exSetOrd, exSetOrd, exSetOrd⟩

theorem exSetOrds_valid : exSetOrds.Valid := ⟨exSetOrd_valid, exSetOrd_valid, exSetOrd_valid⟩

/-- `0 → 1 – 2 – 3`: two rounds of rule 1 orient the whole chain -/
def exHalfChain : CGraph Nat Int := Cmd.runAll [.addNode 0, .addNode 1, .addNode 2, .addNode 3,
  .addDirectedEdge 0 1 {} .directed, .addEdge 1 2 {} .undirected, .addEdge 2 3 {} .undirected] Graph.empty

theorem exHalfChain_reachable : Reachable exHalfChain := ⟨_, rfl⟩

theorem exHalfChain_rows : Rows exHalfChain := by unfold Rows; decide +kernel

/-- `0 – 2 – 1` and `3 – 2` with the separating set of 0 and 1 recorded as empty, that of 0 and 3 as `{2}` and that of 1
and 3 as empty -/
def exCollStar : CGraph Nat Int := Cmd.runAll [.addNode 0, .addNode 1, .addNode 2, .addNode 3,
  .addEdge 0 2 {} .undirected, .addEdge 1 2 {} .undirected, .addEdge 3 2 {} .undirected,
  .addEdgeHistory 0 1 (removal 0 1 []), .addEdgeHistory 0 3 (removal 0 3 [2]),
  .addEdgeHistory 1 3 (removal 1 3 [])] Graph.empty

theorem exCollStar_reachable : Reachable exCollStar := ⟨_, rfl⟩

/-! ## C34 -/

/-- **C34.** On every graph and with every iteration order of Python's sets, the loop ends: after at most (number of live
directed edges + 1) rounds of four steps, or with a `KeyError` in the very first step, which happens only if there are two
nodes one of which never had an edge. -/
theorem C34_loop_terminates (o : Ords ι ρ) (ho : o.Valid) (g : CGraph ι ρ) (hg : Reachable g)
    (h : List (HistRec ι (Info ι ρ))) (fuel : Nat) (hf : g.liveCount + 2 ≤ fuel) :
    (∃ recs g', (ruleLoop o).run fuel ⟨g, h⟩ = (.ok (), ⟨g', h ++ [.logic "Orientation Rules Loop" recs]⟩) ∧
      recs.length ≤ 4 * (g.liveCount + 1)) ∨
    (¬ Rows g ∧ (ruleLoop o).run fuel ⟨g, h⟩ = (.error .keyError, ⟨g, h⟩)) := by
  by_cases hr : Rows g
  · obtain ⟨recs, g', h1, _, _, _, h2, _⟩ := loopGo_rules (rules o) (rules_are ho) g.liveCount fuel 0 none g hg.wf hr
      (Nat.le_refl _) hf (Or.inl rfl)
    refine Or.inl ⟨recs, g', ?_, h2⟩
    unfold ruleLoop
    rw [PStep.run_loop, PyM.bind_run, onGraph_run, h1]
    rfl
  · refine Or.inr ⟨hr, ?_⟩
    obtain ⟨f, rfl⟩ : ∃ f, fuel = f + 1 := ⟨fuel - 1, by omega⟩
    unfold ruleLoop
    rw [PStep.run_loop, PyM.bind_run, onGraph_run, loop_noRows hg.wf o hr f]

/-- a run with two rounds that orient something and a third that finds nothing: twelve records -/
example : ((ruleLoop exSetOrds).run 7 ⟨exHalfChain, []⟩).1 = .ok () ∧ exHalfChain.liveCount = 5 ∧
    (((ruleLoop exSetOrds).run 7 ⟨exHalfChain, []⟩).2.history.map (fun r => match r with
      | .logic _ recs => recs.map (fun s => s.actions.length)
      | .plain _ => [])) = [[1, 0, 0, 0, 1, 0, 0, 0, 0, 0, 0, 0]] := by decide +kernel

/-- the `KeyError`: node 2 never had an edge -/
example : let g : CGraph Nat Int := Cmd.runAll [.addNode 0, .addNode 1, .addNode 2, .addEdge 0 1 {} .undirected] Graph.empty
    ((ruleLoop exSetOrds).run 7 ⟨g, []⟩).1 = .error .keyError := by decide +kernel

/-- **C34, in the algorithms.** After any independence-test and orientation steps on the complete start graph, also after a
run that raised, the exceptional case cannot occur. -/
theorem C34_rows_in_algorithms (gn : CGraph ι ρ) (hgn : Reachable gn) (fuel : Nat) (ps : List (PStep ι (Info ι ρ)))
    (hps : ∀ p ∈ ps, ∀ s ∈ p.steps, (∃ (T : Tests ι ρ) (t : CITest ι), s = t.step T) ∨
      (∃ st o, st ≠ .keepLast ∧ s = colliderStep st o) ∨ ∃ o, s ∈ rules o)
    (h : List (HistRec ι (Info ι ρ))) : Rows (graphAfter fuel ps ⟨startGraph gn, h⟩) := by
  refine (runPipeline_kept rows_kept fuel ps ?_ (m := ⟨startGraph gn, h⟩)
    ⟨(createAll_reachable hgn _).wf, startGraph_rows hgn⟩).2
  intro p hp s hs
  rcases hps p hp s hs with ⟨T, t, rfl⟩ | ⟨st, o, hst, rfl⟩ | ⟨o, ho⟩
  · exact (test_onlyPC T t).safe _
  · exact (collider_onlyPC hst o).safe _
  · exact (rules_onlyPC o s ho).safe _

/-! ## C35 -/

/-- **C35.** Whenever the loop ends normally, running any of its four rules on the resulting graph proposes no
orientation. -/
theorem C35_exit_means_no_proposal (o : Ords ι ρ) (ho : o.Valid) (g : CGraph ι ρ) (hg : Reachable g)
    (h : List (HistRec ι (Info ι ρ))) (fuel : Nat) (m : GModel ι (Info ι ρ))
    (hrun : (ruleLoop o).run fuel ⟨g, h⟩ = (.ok (), m)) (s : Step ι (Info ι ρ)) (hs : s ∈ rules o) :
    ∃ pr, s.execute true m.graph = (.ok (pr, pr), m.graph) ∧ ∀ r ∈ pr, r.action = .doNothing := by
  obtain ⟨recs, h1⟩ := loop_run_ok hrun
  have h2 := loopGo_mono h1 (g.liveCount + 2)
  have hr : Rows g := by
    by_contra hr
    have := loop_noRows hg.wf o hr (fuel + g.liveCount + 1)
    rw [show fuel + g.liveCount + 1 + 1 = fuel + (g.liveCount + 2) by omega, h2] at this
    cases this
  obtain ⟨recs', g', e1, _, _, _, _, e2⟩ := loopGo_rules (rules o) (rules_are ho) g.liveCount (fuel + (g.liveCount + 2)) 0
    none g hg.wf hr (Nat.le_refl _) (by omega) (Or.inl rfl)
  rw [h2] at e1
  simp only [Prod.mk.injEq] at e1
  rw [e1.2]
  exact e2 s hs

/-- **C35, in terms of Meek's rules.** At the exit no premise of rules 2, 3 and 4 is left, and wherever rule 1 could still
apply, it would have had to orient some edge both ways. -/
theorem C35_exit_closed (o : Ords ι ρ) (ho : o.Valid) (g : CGraph ι ρ) (hg : Reachable g)
    (h : List (HistRec ι (Info ι ρ))) (fuel : Nat) (m : GModel ι (Info ι ρ))
    (hrun : (ruleLoop o).run fuel ⟨g, h⟩ = (.ok (), m)) :
    (∀ a b, ¬ m.graph.Meek2 a b) ∧ (∀ a b, ¬ m.graph.Meek3 a b) ∧ (∀ a b, ¬ m.graph.Meek4 a b) ∧
    ((∃ a b, m.graph.Meek1 a b) → ∃ c d, m.graph.Meek1 c d ∧ m.graph.Meek1 d c) := by
  have hq := C35_exit_means_no_proposal o ho g hg h fuel m hrun
  obtain ⟨recs, h1⟩ := loop_run_ok hrun
  have h2 := loopGo_mono h1 (g.liveCount + 2)
  have hr : Rows g := by
    by_contra hr
    have := loop_noRows hg.wf o hr (fuel + g.liveCount + 1)
    rw [show fuel + g.liveCount + 1 + 1 = fuel + (g.liveCount + 2) by omega, h2] at this
    cases this
  obtain ⟨recs', g', e1, e3, e4, _, _, e2⟩ := loopGo_rules (rules o) (rules_are ho) g.liveCount (fuel + (g.liveCount + 2)) 0
    none g hg.wf hr (Nat.le_refl _) (by omega) (Or.inl rfl)
  rw [h2] at e1
  simp only [Prod.mk.injEq] at e1
  rw [e1.2]
  have hc := quiet_closed ho e3 e4 e2
  refine ⟨hc.r2, hc.r3, hc.r4, ?_⟩
  rintro ⟨a, b, hab⟩
  obtain ⟨c, d, hcd, n, hn1, hn2⟩ := hc.r1 a b hab
  exact ⟨c, d, hcd, hcd.1.symm, n, hn1, fun hh => hn1.not_line (hh ▸ hcd.1.symm).symm, hn2⟩

/-- the chain ends fully oriented -/
example : let g := ((ruleLoop exSetOrds).run 7 ⟨exHalfChain, []⟩).2.graph
    g.onlyDirectedEdgeExists 0 1 = true ∧ g.onlyDirectedEdgeExists 1 2 = true ∧ g.onlyDirectedEdgeExists 2 3 = true := by
  decide +kernel

/-! ## C41 -/

/-- **C41, only.** Every removal the collider step proposes is that of `z → x` for a node `x` with a partner `y`: both point
at `z`, they are not connected by a line, and `z` is in no separating set recorded for the ordered pair the generator handed
out. -/
theorem C41_proposals_are_justified (st : Strategy) (o : Ord ι ρ) (ho : o.Valid) (g g' : CGraph ι ρ) (hg : Reachable g)
    (hp : Purged g) (dry : Bool) (t pr : List (CResult ι ρ))
    (h : (colliderStep st o).execute dry g = (.ok (t, pr), g')) (r : CResult ι ρ) (hr : r ∈ pr)
    (ha : r.action = .removeEdgeDirected) :
    ∃ y ∈ g.nodes, r.v ∈ g.nodes ∧ r.v ≠ y ∧ ¬ g.Line r.v y ∧ g.directedEdgeExists r.v r.u = true ∧
      g.directedEdgeExists y r.u = true ∧ (¬ SepRecorded g r.v y r.u ∨ ¬ SepRecorded g y r.v r.u) := by
  obtain ⟨cs, hgen, hcs, _⟩ := allGen_pairs g hg.wf.nodup
  obtain ⟨c, hc, u, rs, h1, h2, h3⟩ := proposed_from (s := colliderStep st o) rfl rfl hgen h r hr
  obtain ⟨un, rfl⟩ := h3 rfl
  obtain ⟨x, y, rfl, hxy, hx, hy⟩ := hcs c hc
  have h1' : colliderProcess st o [x, y] g (some un) = .ok (some rs) := h1
  obtain ⟨z, hz1, hz2, hz3, hz4⟩ := (colliderProcess_result ho h1' r).1 h2
  have hl : ¬ g.Line x y := fun hh => by
    have := colliderProcess_line h1'
    rw [und_iff.2 hh] at this; cases this
  rw [purged_keys2 hg.wf hp] at hz1 hz2
  rcases cut_colliderAt hz4 ha with rfl | rfl
  · exact ⟨y, hy, hx, hxy, hl, hz1, hz2, Or.inl hz3⟩
  · exact ⟨x, hx, hy, hxy.symm, fun hh => hl hh.symm, hz2, hz1, Or.inr hz3⟩

/-- **C41, exactly.** One call of `process` on two different nodes with any list of pending actions: it does nothing if
they are connected by a line; otherwise it succeeds, and for every common neighbour `z` outside the recorded separating sets
for which nothing is pending, it proposes both removals; with `KEEP_FIRST` these are all removals proposed. -/
theorem C41_process_exact (st : Strategy) (o : Ord ι ρ) (ho : o.Valid) (g : CGraph ι ρ) (hg : Reachable g) (hp : Purged g)
    (hrows : Rows g) (hd : RemovalsHaveData g) (un : Results ι (Info ι ρ)) (x y : ι) (hx : x ∈ g.nodes) (hy : y ∈ g.nodes)
    (hxy : x ≠ y) :
    (g.Line x y → colliderProcess st o [x, y] g (some un) = .ok none) ∧
    (¬ g.Line x y → ∃ rs, colliderProcess st o [x, y] g (some un) = .ok (some rs) ∧
      (∀ z, g.directedEdgeExists x z = true → g.directedEdgeExists y z = true → ¬ SepRecorded g x y z →
        ¬ Waiting un x z → ¬ Waiting un y z → cut z x ∈ rs ∧ cut z y ∈ rs) ∧
      (st = .keepFirst → ∀ r ∈ rs, r.action = .removeEdgeDirected → ∃ z, (r = cut z x ∨ r = cut z y) ∧
        g.directedEdgeExists x z = true ∧ g.directedEdgeExists y z = true ∧ ¬ SepRecorded g x y z ∧
        ¬ Waiting un x z ∧ ¬ Waiting un y z)) := by
  obtain ⟨h1, h2⟩ := collider_process hg.wf hrows st ho un hx hy hxy (hd x hx y hy hxy)
  refine ⟨h1, fun hl => ?_⟩
  obtain ⟨zs, _, hzs, hproc⟩ := h2 hl
  refine ⟨_, hproc, ?_, ?_⟩
  · intro z hxz hyz hs hw1 hw2
    rw [waiting_iff, not_not] at hw1 hw2
    have hz : z ∈ zs := (hzs z).2 ⟨(purged_keys2 hg.wf hp).2 hxz, (purged_keys2 hg.wf hp).2 hyz, hs⟩
    constructor
    · exact List.mem_flatMap.2 ⟨z, hz, by rw [hw1, hw2]; simp [colliderAt]⟩
    · exact List.mem_flatMap.2 ⟨z, hz, by rw [hw1, hw2]; simp [colliderAt]⟩
  · rintro rfl r hr ha
    obtain ⟨z, hz, hrz⟩ := List.mem_flatMap.1 hr
    obtain ⟨z1, z2, z3⟩ := (hzs z).1 hz
    refine ⟨z, cut_colliderAt hrz ha, (purged_keys2 hg.wf hp).1 z1, (purged_keys2 hg.wf hp).1 z2, z3, ?_⟩
    rw [waiting_iff, waiting_iff, not_not, not_not]
    unfold colliderAt at hrz
    split at hrz
    · simp only [List.mem_append] at hrz
      rcases hrz with hrz | hrz
      · split at hrz
        · rw [List.mem_singleton] at hrz; subst hrz; cases ha
        · cases hrz
      · split at hrz
        · rw [List.mem_singleton] at hrz; subst hrz; cases ha
        · cases hrz
    · rename_i hc
      simpa [and_comm] using hc

/-- the star: 0 and 1 collide at 2, and so do 1 and 3, but not 0 and 3 -/
example : colliderProcess .keepFirst exSetOrd [0, 1] exCollStar (some []) = .ok (some [cut 2 0, cut 2 1]) ∧
    colliderProcess .keepFirst exSetOrd [0, 3] exCollStar (some []) = .ok (some []) ∧
    colliderProcess .keepFirst exSetOrd [1, 3] exCollStar (some [some [cut 2 0, cut 2 1]]) = .ok (some [cut 2 1, cut 2 3]) ∧
    colliderProcess .keepLast exSetOrd [1, 3] exCollStar (some [some [cut 1 2]]) = .ok (some [undo 1 2, cut 2 1, cut 2 3]) ∧
    colliderProcess .keepFirst exSetOrd [1, 3] exCollStar (some [some [cut 1 2]]) = .ok (some [stay 2 1]) := by
  refine ⟨?_, ?_, ?_, ?_, ?_⟩ <;> decide +kernel

/-- the star meets the hypotheses -/
example : Reachable exCollStar ∧ Purged exCollStar ∧ Rows exCollStar ∧ RemovalsHaveData exCollStar := by
  refine ⟨exCollStar_reachable, ?_, by unfold Rows; decide +kernel, ?_⟩
  · exact purged_of_entries (by decide +kernel)
  · exact removals_of_entries (by decide +kernel)

/-! ## C42 -/

/-- **C42.** The collider step on any undirected skeleton, under every conflict strategy, however many conflicts occur and in
whatever order sets are iterated: it does not raise, and exactly the same pairs of nodes are adjacent afterwards. -/
theorem C42_collider_keeps_skeleton (st : Strategy) (o : Ord ι ρ) (ho : o.Valid) (g : CGraph ι ρ) (hg : Reachable g)
    (hp : Purged g) (hu : ∀ a b, g.directedEdgeExists a b = g.directedEdgeExists b a) (hrows : Rows g)
    (hd : RemovalsHaveData g) :
    ∃ t pr g', (colliderStep st o).execute false g = (.ok (t, pr), g') ∧ g'.nodes = g.nodes ∧
      ∀ a b, g'.edgeExists a b = g.edgeExists a b := by
  have hsk := collider_skeleton hg.wf hp hu
  obtain ⟨t, pr, g', h1, _, h2⟩ := collider_execute st ho hg.wf hrows hd hsk (fun _ => True) trivial
    (fun _ _ _ _ _ _ _ _ _ _ _ => trivial)
  refine ⟨t, pr, g', h1, h2.app.nodes, ?_⟩
  intro a b
  rw [edgeExists_eq h2.app.wf, edgeExists_eq hg.wf, h2.app.live, h2.app.live]
  have hs := hu a b
  rw [directedEdgeExists_eq hg.wf, directedEdgeExists_eq hg.wf] at hs
  rw [← hs]
  cases hl : g.live a b with
  | false => rfl
  | true =>
    cases hda : dead (fun _ _ => false) pr a b with
    | false => rfl
    | true => rw [h2.app.asym a b hda]; rfl

/-- a skeleton with a real conflict: the path 0 – 2 – 1 – 3 in which both 2 and 1 want to be colliders -/
def exConflict : CGraph Nat Int := Cmd.runAll [.addNode 0, .addNode 1, .addNode 2, .addNode 3,
  .addEdge 0 2 {} .undirected, .addEdge 2 1 {} .undirected, .addEdge 1 3 {} .undirected,
  .addEdgeHistory 0 1 (removal 0 1 []), .addEdgeHistory 2 3 (removal 2 3 [])] Graph.empty

/-- both strategies keep all three adjacencies and differ in the direction of the middle one -/
example : let run := fun st => ((colliderStep st exSetOrd).execute false exConflict).2
    (run .keepFirst).edgeExists 0 2 = true ∧ (run .keepFirst).edgeExists 1 3 = true ∧
    (run .keepFirst).onlyDirectedEdgeExists 1 2 = true ∧ (run .keepLast).onlyDirectedEdgeExists 2 1 = true ∧
    (run .keepLast).edgeExists 0 2 = true ∧ (run .keepLast).edgeExists 1 3 = true := by
  decide +kernel

/-- the path meets the hypotheses -/
example : Reachable exConflict ∧ Purged exConflict ∧ Rows exConflict ∧ RemovalsHaveData exConflict ∧
    ∀ a ∈ exConflict.nodes, ∀ b ∈ exConflict.nodes, exConflict.directedEdgeExists a b = exConflict.directedEdgeExists b a :=
  ⟨⟨_, rfl⟩, purged_of_entries (by decide +kernel), by unfold Rows; decide +kernel, removals_of_entries (by decide +kernel),
    by decide +kernel⟩

/-! ## C43 -/

/-- what a rule may propose: notes without effect, or removals of the backward direction `b → a` of a line for which the
premises hold -/
def FollowsRule (M : CGraph ι ρ → ι → ι → Prop) (g : CGraph ι ρ) (pr : List (CResult ι ρ)) : Prop :=
  ∀ r ∈ pr, r.action = .doNothing ∨ (r.action = .removeEdgeDirected ∧ M g r.v r.u)

/-- every pair for which the premises hold gets its orientation proposed -/
def AppliesRule (M : CGraph ι ρ → ι → ι → Prop) (g : CGraph ι ρ) (pr : List (CResult ι ρ)) : Prop :=
  ∀ a b, M g a b → ∃ r ∈ pr, r.action = .removeEdgeDirected ∧ r.u = b ∧ r.v = a

/-- **C43, rule 1.** `NonColliderTest` proposes only orientations according to Meek's first rule. -/
theorem C43_rule1 (o : Ord ι ρ) (ho : o.Valid) (g g' : CGraph ι ρ) (hg : Reachable g) (dry : Bool)
    (t pr : List (CResult ι ρ)) (h : (nonColliderStep o).execute dry g = (.ok (t, pr), g')) : FollowsRule Meek1 g pr := by
  by_cases hr : Rows g
  · obtain ⟨_, _, hrun⟩ := rule_same (rule_execute (nonCollider_rule ho) "NonColliderTest" hg.wf hr) h
    exact hrun.answer
  · rw [nonCollider_noRows hg.wf o hr] at h; cases h

/-- **C43, rule 1, conversely.** If the premises of the first rule hold somewhere, `NonColliderTest` proposes an
orientation, unless it would also have to orient the same edge the other way. -/
theorem C43_rule1_applies (o : Ord ι ρ) (ho : o.Valid) (g g' : CGraph ι ρ) (hg : Reachable g) (dry : Bool)
    (t pr : List (CResult ι ρ)) (h : (nonColliderStep o).execute dry g = (.ok (t, pr), g'))
    (hex : ∃ a b, g.Meek1 a b) (hno : ∀ a b, g.Meek1 a b → ¬ g.Meek1 b a) :
    ∃ r ∈ pr, r.action = .removeEdgeDirected ∧ g.Meek1 r.v r.u := by
  by_cases hr : Rows g
  · obtain ⟨_, _, hrun⟩ := rule_same (rule_execute (nonCollider_rule ho) "NonColliderTest" hg.wf hr) h
    obtain ⟨a, b, hab⟩ := hex
    obtain ⟨r, hr', h1, h2⟩ := nonCollider_answers ho hg.wf hr hrun hab
    refine ⟨r, hr', h2.2 ?_, h1⟩
    rintro ⟨n, hn1, hn2⟩
    exact hno _ _ h1 ⟨h1.1.symm, n, hn1, fun hh => hn1.not_line (hh ▸ h1.1.symm).symm, hn2⟩
  · rw [nonCollider_noRows hg.wf o hr] at h; cases h

/-- **C43, rule 2.** `FurtherOrientTripleTest` proposes exactly the orientations of Meek's second rule, and never raises. -/
theorem C43_rule2 (g : CGraph ι ρ) (hg : Reachable g) (dry : Bool) :
    ∃ t pr g', (tripleStep (ι := ι) (ρ := ρ)).execute dry g = (.ok (t, pr), g') ∧ FollowsRule Meek2 g pr ∧
      AppliesRule Meek2 g pr := by
  obtain ⟨t, pr, g', h1, h2, h3⟩ := rule_execute_local (p := tripleProcess) (M := Meek2) "FurtherOrientTripleTest" hg.wf
    (fun x y hx hy _ => by
      obtain ⟨rs, h1, h2, _⟩ := triple_spec hg.wf hx hy
      exact ⟨_, h1, fun r hr => Or.inr (h2 r hr)⟩) (fun _ _ _ h => h.1)
  cases dry with
  | false => exact ⟨t, pr, g', h1, h3.answer, fun a b hm => triple_complete hg.wf h3 hm⟩
  | true => exact ⟨pr, pr, g, h2, h3.answer, fun a b hm => triple_complete hg.wf h3 hm⟩

/-- **C43, rule 3.** `OrientQuadrupleTest` proposes exactly the orientations of Meek's third rule, and never raises. -/
theorem C43_rule3 (o : Ord ι ρ) (ho : o.Valid) (g : CGraph ι ρ) (hg : Reachable g) (dry : Bool) :
    ∃ t pr g', (quadStep o).execute dry g = (.ok (t, pr), g') ∧ FollowsRule Meek3 g pr ∧ AppliesRule Meek3 g pr := by
  obtain ⟨t, pr, g', h1, h2, h3⟩ := rule_execute_local (p := quadProcess o) (M := Meek3) "OrientQuadrupleTest" hg.wf
    (fun y w hy hw hyw => by
      obtain ⟨rs, h1, h2⟩ := quad_spec hg.wf ho hy hw
      refine ⟨_, h1, fun r hr => ?_⟩
      obtain ⟨a, b, rfl, h3, h4, h5, h6, h7, h8⟩ := (h2 r).1 hr
      exact Or.inr ⟨rfl, h8, y, w, hyw, h3, h6, h7, h4, h5⟩) (fun _ _ _ h => h.1)
  cases dry with
  | false => exact ⟨t, pr, g', h1, h3.answer, fun a b hm => quad_complete ho hg.wf h3 hm⟩
  | true => exact ⟨pr, pr, g, h2, h3.answer, fun a b hm => quad_complete ho hg.wf h3 hm⟩

/-- **C43, rule 4.** `FurtherOrientQuadrupleTest` proposes exactly the orientations of Meek's fourth rule, and never
raises. -/
theorem C43_rule4 (o : Ord ι ρ) (ho : o.Valid) (g : CGraph ι ρ) (hg : Reachable g) (dry : Bool) :
    ∃ t pr g', (furtherQuadStep o).execute dry g = (.ok (t, pr), g') ∧ FollowsRule Meek4 g pr ∧
      AppliesRule Meek4 g pr := by
  obtain ⟨t, pr, g', h1, h2, h3⟩ := rule_execute_local (p := furtherQuadProcess o) (M := Meek4) "FurtherOrientQuadrupleTest"
    hg.wf (fun x w hx hw _ => by
      obtain ⟨rs, h1, h2⟩ := furtherQuad_spec hg.wf ho hx hw
      refine ⟨_, h1, fun r hr => ?_⟩
      obtain ⟨y, z, ⟨rfl, h⟩ | ⟨rfl, h⟩⟩ := (h2 r).1 hr
      · exact Or.inr ⟨rfl, h.meek⟩
      · exact Or.inr ⟨rfl, h.meek⟩) (fun _ _ _ h => h.1)
  cases dry with
  | false => exact ⟨t, pr, g', h1, h3.answer, fun a b hm => furtherQuad_complete ho hg.wf h3 hm⟩
  | true => exact ⟨pr, pr, g, h2, h3.answer, fun a b hm => furtherQuad_complete ho hg.wf h3 hm⟩

/-- `0 → 2 → 1`, `0 – 1` -/
def exMeek2 : CGraph Nat Int := Cmd.runAll [.addNode 0, .addNode 1, .addNode 2, .addDirectedEdge 0 2 {} .directed,
  .addDirectedEdge 2 1 {} .directed, .addEdge 0 1 {} .undirected] Graph.empty

/-- `0 – 2 → 1`, `0 – 3 → 1`, `0 – 1` -/
def exMeek3 : CGraph Nat Int := Cmd.runAll [.addNode 0, .addNode 1, .addNode 2, .addNode 3, .addEdge 0 2 {} .undirected,
  .addEdge 0 3 {} .undirected, .addEdge 0 1 {} .undirected, .addDirectedEdge 2 1 {} .directed,
  .addDirectedEdge 3 1 {} .directed] Graph.empty

/-- `0 – 3 → 2 → 1`, `0 – 2`, `0 – 1` -/
def exMeek4 : CGraph Nat Int := Cmd.runAll [.addNode 0, .addNode 1, .addNode 2, .addNode 3, .addEdge 0 2 {} .undirected,
  .addEdge 0 3 {} .undirected, .addEdge 0 1 {} .undirected, .addDirectedEdge 3 2 {} .directed,
  .addDirectedEdge 2 1 {} .directed] Graph.empty

/-- each rule orients `0 → 1` on its graph -/
example : ((nonColliderStep exSetOrd).execute true exHalfChain).1 = .ok ([cut 2 1], [cut 2 1]) ∧
    (tripleStep.execute true exMeek2).1 = .ok ([cut 1 0], [cut 1 0]) ∧
    ((quadStep exSetOrd).execute true exMeek3).1 = .ok ([cut 1 0], [cut 1 0]) ∧
    ((furtherQuadStep exSetOrd).execute true exMeek4).1 = .ok ([cut 1 0], [cut 1 0]) := by
  refine ⟨?_, ?_, ?_, ?_⟩ <;> decide +kernel

/-! ## C44 -/

/-- **C44, rule 1.** On every graph a `NonColliderTest` step leaves exactly the same pairs adjacent. -/
theorem C44_rule1_keeps_adjacency (o : Ord ι ρ) (ho : o.Valid) (g : CGraph ι ρ) (hg : Reachable g) (a b : ι) :
    ((nonColliderStep o).execute false g).2.edgeExists a b = g.edgeExists a b := by
  by_cases hr : Rows g
  · obtain ⟨t, pr, g', h1, _, h3⟩ := rule_execute (nonCollider_rule ho) "NonColliderTest" hg.wf hr
    rw [show (nonColliderStep o).execute false g = _ from h1]
    refine h3.adj_kept hg.wf (fun _ _ _ h => h.1) ?_ a b
    intro r hr1 r' hr2 ha ha' e1 e2
    obtain ⟨x, y, q, hx, hy, hxy, hq, hm⟩ := h3.from_ r hr1
    obtain ⟨q', hq', hs, _⟩ := nonCollider_spec hg.wf hr ho hx hy hxy
    rw [hq] at hq'; cases hq'
    obtain ⟨x', y', q', hx', hy', hxy', hq', hm'⟩ := h3.from_ r' hr2
    obtain ⟨q'', hq'', hs', _⟩ := nonCollider_spec hg.wf hr ho hx' hy' hxy'
    rw [hq'] at hq''; cases hq''
    obtain ⟨_, c, hc1, _, hc2⟩ := (hs' r' hm').2.1
    exact (hs r hm).2.2.1 ha ⟨c, e2 ▸ hc1, e1 ▸ hc2⟩
  · rw [nonCollider_noRows hg.wf o hr]

/-- **C44, rule 2.** A `FurtherOrientTripleTest` step leaves the same pairs adjacent if the one-way edges have no directed
cycle. -/
theorem C44_rule2_keeps_adjacency (g : CGraph ι ρ) (hg : Reachable g) (hac : Dag.Acyclic g.Arrow) (a b : ι) :
    ((tripleStep (ι := ι) (ρ := ρ)).execute false g).2.edgeExists a b = g.edgeExists a b := by
  obtain ⟨t, pr, g', h1, _, h3⟩ := rule_execute_local (p := tripleProcess) (M := Meek2) "FurtherOrientTripleTest" hg.wf
    (fun x y hx hy _ => by
      obtain ⟨rs, h1, h2, _⟩ := triple_spec hg.wf hx hy
      exact ⟨_, h1, fun r hr => Or.inr (h2 r hr)⟩) (fun _ _ _ h => h.1)
  rw [show (tripleStep (ι := ι) (ρ := ρ)).execute false g = _ from h1]
  refine h3.adj_kept hg.wf (fun _ _ _ h => h.1) ?_ a b
  intro r hr1 r' hr2 ha ha' e1 e2
  rcases h3.answer r hr1 with h | ⟨_, _, c, hc1, hc2⟩
  · rw [ha] at h; cases h
  rcases h3.answer r' hr2 with h | ⟨_, _, d, hd1, hd2⟩
  · rw [ha'] at h; cases h
  rw [e2] at hd1
  rw [e1] at hd2
  exact hac r.v (((Relation.TransGen.single hc1).tail hc2).tail hd1 |>.tail hd2)

/-- a graph without directed cycle on which both rules have something to do -/
example : exMeek2.edgeExists 0 1 = true ∧ (tripleStep.execute false exMeek2).2.onlyDirectedEdgeExists 0 1 = true ∧
    ((nonColliderStep exSetOrd).execute false exHalfChain).2.onlyDirectedEdgeExists 1 2 = true := by
  decide +kernel

/-- `exMeek2` has no directed cycle -/
example : Dag.Acyclic exMeek2.Arrow := by
  have key : ∀ a b, exMeek2.Arrow a b → (a = 0 ∧ b = 2) ∨ (a = 2 ∧ b = 1) := by
    intro a b h
    have hr : Reachable exMeek2 := ⟨_, rfl⟩
    obtain ⟨h1, h2⟩ := hr.wf.adj_nodes h.adj
    have : ∀ a ∈ exMeek2.nodes, ∀ b ∈ exMeek2.nodes,
        exMeek2.onlyDirectedEdgeExists a b = true → (a = 0 ∧ b = 2) ∨ (a = 2 ∧ b = 1) := by decide +kernel
    exact this a h1 b h2 (only_iff.2 h)
  have hlt : ∀ a b, Relation.TransGen exMeek2.Arrow a b → (a = 0 ∧ b ≠ 0) ∨ (a = 2 ∧ b = 1) := by
    intro a b h
    induction h with
    | single h => rcases key _ _ h with ⟨rfl, rfl⟩ | ⟨rfl, rfl⟩ <;> simp
    | tail _ h ih => rcases key _ _ h with ⟨rfl, rfl⟩ | ⟨rfl, rfl⟩ <;> omega
  intro a h
  have := hlt a a h
  omega

/-- the graph for rule 3: `2, 3 → 1` and `4, 5 → 0`, lines 0 – 1, 0 – 2, 0 – 3, 1 – 4, 1 – 5 -/
def exClash3 : CGraph Nat Int := Cmd.runAll [.addNode 0, .addNode 1, .addNode 2, .addNode 3, .addNode 4, .addNode 5,
  .addEdge 0 1 {} .undirected, .addEdge 0 2 {} .undirected, .addEdge 0 3 {} .undirected, .addEdge 1 4 {} .undirected,
  .addEdge 1 5 {} .undirected, .addDirectedEdge 2 1 {} .directed, .addDirectedEdge 3 1 {} .directed,
  .addDirectedEdge 4 0 {} .directed, .addDirectedEdge 5 0 {} .directed] Graph.empty

/-- the graph for rule 4 -/
def exClash4 : CGraph Nat Int := Cmd.runAll [.addNode 0, .addNode 1, .addNode 2, .addNode 3, .addNode 4, .addNode 5,
  .addEdge 0 1 {} .undirected, .addEdge 0 2 {} .undirected, .addEdge 0 3 {} .undirected, .addEdge 1 4 {} .undirected,
  .addEdge 1 5 {} .undirected, .addDirectedEdge 3 2 {} .directed, .addDirectedEdge 2 1 {} .directed,
  .addDirectedEdge 5 4 {} .directed, .addDirectedEdge 4 0 {} .directed] Graph.empty

/-- the graph for rule 2 with a directed cycle: `0 → 2 → 1 → 3 → 0` and 0 – 1 -/
def exClash2 : CGraph Nat Int := Cmd.runAll [.addNode 0, .addNode 1, .addNode 2, .addNode 3, .addEdge 0 1 {} .undirected,
  .addDirectedEdge 0 2 {} .directed, .addDirectedEdge 2 1 {} .directed, .addDirectedEdge 1 3 {} .directed,
  .addDirectedEdge 3 0 {} .directed] Graph.empty

/-- **C44, the unconditional claim is false for rules 2, 3 and 4.** Each of these steps can delete the adjacency of 0 and 1
by orienting it both ways in one batch. -/
theorem C44_rules_can_delete_adjacency :
    (Reachable exClash2 ∧ exClash2.edgeExists 0 1 = true ∧ (tripleStep.execute false exClash2).2.edgeExists 0 1 = false) ∧
    (Reachable exClash3 ∧ exClash3.edgeExists 0 1 = true ∧
      ((quadStep exSetOrd).execute false exClash3).2.edgeExists 0 1 = false) ∧
    (Reachable exClash4 ∧ exClash4.edgeExists 0 1 = true ∧
      ((furtherQuadStep exSetOrd).execute false exClash4).2.edgeExists 0 1 = false) :=
  ⟨⟨⟨_, rfl⟩, by decide +kernel⟩, ⟨⟨_, rfl⟩, by decide +kernel⟩, ⟨⟨_, rfl⟩, by decide +kernel⟩⟩

/-- **C44, rules 3 and 4 (partial).** They leave the same pairs adjacent if the premises never hold for both directions of
an edge; every graph whose orientations agree with some directed acyclic graph is of this kind (see C46). -/
theorem C44_rules_keep_adjacency_partial (o : Ord ι ρ) (ho : o.Valid) (g : CGraph ι ρ) (hg : Reachable g) (a b : ι) :
    ((∀ a b, g.Meek3 a b → ¬ g.Meek3 b a) → ((quadStep o).execute false g).2.edgeExists a b = g.edgeExists a b) ∧
    ((∀ a b, g.Meek4 a b → ¬ g.Meek4 b a) →
      ((furtherQuadStep o).execute false g).2.edgeExists a b = g.edgeExists a b) := by
  constructor
  · intro hno
    obtain ⟨t, pr, g', h1, _, h3⟩ := rule_execute_local (p := quadProcess o) (M := Meek3) "OrientQuadrupleTest" hg.wf
      (fun y w hy hw hyw => by
        obtain ⟨rs, h1, h2⟩ := quad_spec hg.wf ho hy hw
        refine ⟨_, h1, fun r hr => ?_⟩
        obtain ⟨a, b, rfl, h3, h4, h5, h6, h7, h8⟩ := (h2 r).1 hr
        exact Or.inr ⟨rfl, h8, y, w, hyw, h3, h6, h7, h4, h5⟩) (fun _ _ _ h => h.1)
    rw [show (quadStep o).execute false g = _ from h1]
    refine h3.adj_kept hg.wf (fun _ _ _ h => h.1) ?_ a b
    intro r hr1 r' hr2 ha ha' e1 e2
    rcases h3.answer r hr1 with h | ⟨_, h⟩
    · rw [ha] at h; cases h
    rcases h3.answer r' hr2 with h' | ⟨_, h'⟩
    · rw [ha'] at h'; cases h'
    rw [e1, e2] at h'
    exact hno _ _ h h'
  · intro hno
    obtain ⟨t, pr, g', h1, _, h3⟩ := rule_execute_local (p := furtherQuadProcess o) (M := Meek4)
      "FurtherOrientQuadrupleTest" hg.wf (fun x w hx hw _ => by
        obtain ⟨rs, h1, h2⟩ := furtherQuad_spec hg.wf ho hx hw
        refine ⟨_, h1, fun r hr => ?_⟩
        obtain ⟨y, z, ⟨rfl, h⟩ | ⟨rfl, h⟩⟩ := (h2 r).1 hr
        · exact Or.inr ⟨rfl, h.meek⟩
        · exact Or.inr ⟨rfl, h.meek⟩) (fun _ _ _ h => h.1)
    rw [show (furtherQuadStep o).execute false g = _ from h1]
    refine h3.adj_kept hg.wf (fun _ _ _ h => h.1) ?_ a b
    intro r hr1 r' hr2 ha ha' e1 e2
    rcases h3.answer r hr1 with h | ⟨_, h⟩
    · rw [ha] at h; cases h
    rcases h3.answer r' hr2 with h' | ⟨_, h'⟩
    · rw [ha'] at h'; cases h'
    rw [e1, e2] at h'
    exact hno _ _ h h'

/-- `exMeek3` and `exMeek4` are oriented and keep their adjacency -/
example : ((quadStep exSetOrd).execute false exMeek3).2.onlyDirectedEdgeExists 0 1 = true ∧
    ((furtherQuadStep exSetOrd).execute false exMeek4).2.onlyDirectedEdgeExists 0 1 = true := by
  decide +kernel

/-! ## C47 -/

/-- **C47.** From the complete undirected graph, after any sequence of independence-test steps, collider steps with the
default strategy and propagation rules, in any arrangement, and also after a run that raised, edge types match the stored
structure. -/
theorem C47_types_match (gn : CGraph ι ρ) (hgn : Reachable gn) (fuel : Nat) (ps : List (PStep ι (Info ι ρ)))
    (hps : ∀ p ∈ ps, ∀ s ∈ p.steps, (∃ (T : Tests ι ρ) (t : CITest ι), s = t.step T) ∨
      (∃ st o, st ≠ .keepLast ∧ s = colliderStep st o) ∨ ∃ o, s ∈ rules o)
    (h : List (HistRec ι (Info ι ρ))) : TypesMatch (graphAfter fuel ps ⟨startGraph gn, h⟩) := by
  refine (runPipeline_kept typed_kept fuel ps ?_ (m := ⟨startGraph gn, h⟩) (startGraph_typed hgn)).types
  intro p hp s hs
  rcases hps p hp s hs with ⟨T, t, rfl⟩ | ⟨st, o, hst, rfl⟩ | ⟨o, ho⟩
  · exact (test_onlyPC T t).safe _
  · exact (collider_onlyPC hst o).safe _
  · exact (rules_onlyPC o s ho).safe _

/-- **C47, any actions.** The same for any list of proposed actions without restorations and type updates applied to a
graph whose types match. -/
theorem C47_types_match_actions (g : CGraph ι ρ) (hg : Reachable g) (hm : TypesMatch g) (rs : List (CResult ι ρ))
    (hrs : ∀ r ∈ rs, r.action = .doNothing ∨ r.action = .removeEdgeUndirected ∨ r.action = .removeEdgeDirected ∨
      r.action = .updateEdge ∨ r.action = .updateEdgeDirected) :
    TypesMatch (takeAction false [some rs] g).2 := by
  refine Typed.types ?_
  refine typed_kept.takeAction false _ ?_ (hm.typed hg.wf)
  intro l hl r hr
  rw [List.mem_singleton] at hl
  cases hl
  exact hrs r hr

/-- **C47, both strategies.** A collider step with any strategy on an undirected skeleton with matching types. -/
theorem C47_types_match_collider (st : Strategy) (o : Ord ι ρ) (ho : o.Valid) (g : CGraph ι ρ) (hg : Reachable g)
    (hp : Purged g) (hu : ∀ a b, g.directedEdgeExists a b = g.directedEdgeExists b a) (hrows : Rows g)
    (hd : RemovalsHaveData g) (hm : TypesMatch g) : TypesMatch ((colliderStep st o).execute false g).2 := by
  have hsk := collider_skeleton hg.wf hp hu
  obtain ⟨t, pr, g', h1, _, h2⟩ := collider_execute st ho hg.wf hrows hd hsk (fun _ => True) trivial
    (fun _ _ _ _ _ _ _ _ _ _ _ => trivial)
  rw [h1]
  exact (collider_typed hsk (hm.typed hg.wf) h2).types

/-- the types on the conflict path, and an edge of the chain before and after a rule -/
example : let run := fun st => ((colliderStep st exSetOrd).execute false exConflict).2
    ((run .keepLast).getEdge 2 1).map (fun e => e.etype) = .ok .directed ∧
    ((run .keepLast).getEdge 0 2).map (fun e => e.etype) = .ok .directed ∧
    ((run .keepFirst).getEdge 1 2).map (fun e => e.etype) = .ok .directed ∧
    (exHalfChain.getEdge 1 2).map (fun e => e.etype) = .ok .undirected ∧
    (((nonColliderStep exSetOrd).execute false exHalfChain).2.getEdge 1 2).map (fun e => e.etype) = .ok .directed ∧
    (((nonColliderStep exSetOrd).execute false exHalfChain).2.getEdge 2 3).map (fun e => e.etype) = .ok .undirected := by
  refine ⟨?_, ?_, ?_, ?_, ?_, ?_⟩ <;> decide +kernel

/-! ## C37 -/

/-- an oracle for three variables of which only 1 and 2 are dependent -/
def exPair : Tests Nat Int where
  pearson a b := if a + b = 3 ∧ a ≠ 0 ∧ b ≠ 0 then 5 else 0
  t0 _ _ r := .ok (r == 0)
  t1 _ _ _ _ a b d := .ok (some (a * 10 == b * d))
  tm c := .ok (match c with
    | a :: b :: _ => some (!(a + b == 3 && a != 0 && b != 0))
    | _ => none)
  reg _ := .ok false

/-- `PCStable` up to the orientation (causy/causal_discovery/constraint/algorithms/pc.py:121-137) -/
def exStable : List (PStep Nat (Info Nat Int)) :=
  .plain (pearsonStep exPair) :: .together "ApplyActionsTogether" [corrStep exPair, partialStep exPair,
    matrixStep exPair exCfg] :: orientationPhase exSetOrd exSetOrds

/-- `PC` up to the orientation (causy/causal_discovery/constraint/algorithms/pc.py:63-80) -/
def exPC : List (PStep Nat (Info Nat Int)) :=
  .plain (pearsonStep exPair) :: .plain (corrStep exPair) :: .plain (partialStep exPair) ::
    .plain (matrixStep exPair exCfg) :: orientationPhase exSetOrd exSetOrds

/-- **C37 is false.** `PCStable` on three variables of which only 1 and 2 are dependent: node 0 ends isolated, and still
1 – 2, which is in no triple at all, loses one direction.  `PC` leaves it undirected. -/
theorem C37_deferred_removals_visible :
    (runPipeline 9 exStable ⟨startGraph (nodesOnly [0, 1, 2]), []⟩).1 = .ok () ∧
    (let g := graphAfter 9 exStable ⟨startGraph (nodesOnly [0, 1, 2]), []⟩
     g.edgeExists 0 1 = false ∧ g.edgeExists 0 2 = false ∧ g.edgeExists 1 2 = true ∧ g.undirectedEdgeExists 1 2 = false) ∧
    (graphAfter 9 exPC ⟨startGraph (nodesOnly [0, 1, 2]), []⟩).undirectedEdgeExists 1 2 = true := by
  decide +kernel

/-- **C37 (partial).** After a step that is not a logic step the claim holds: nothing removed is left in the stored graph,
so no step can see it; a removed pair has no edge object and is in nobody's neighbour dictionary. -/
theorem C37_plain_step_partial (s : Step ι (Info ι ρ)) (g g' : CGraph ι ρ) (e : HistRec ι (Info ι ρ))
    (hg : Reachable g) (h : StepEffect (.plain s) g e g') (a b : ι) (hno : g'.directedEdgeExists a b = false) :
    (∀ e, g'.getEdge a b ≠ .ok e) ∧ b ∉ g'.edges.keys2 a := by
  have hp := C33_purged_after_plain s g g' e hg h
  have hr : Reachable g' := h.reachable hg
  have hk : b ∉ g'.edges.keys2 a := fun hb => by
    rw [purged_keys2 hr.wf hp, hno] at hb; cases hb
  refine ⟨fun e' he' => hk ?_, hk⟩
  rw [getEdge_eq] at he'
  cases hx : g'.edges.get2 a b with
  | none => rw [hx] at he'; cases he'
  | some e'' => exact (mem_keys2_iff a b).2 ⟨e'', hx⟩

/-- in the run of `PC` the removed neighbour 0 of 1 is gone after the marginal test -/
example : (graphAfter 9 (exPC.take 1) ⟨startGraph (nodesOnly [0, 1, 2]), []⟩).edges.keys2 1 = [0, 2] ∧
    (graphAfter 9 (exPC.take 2) ⟨startGraph (nodesOnly [0, 1, 2]), []⟩).edges.keys2 1 = [2] ∧
    (graphAfter 9 (exStable.take 2) ⟨startGraph (nodesOnly [0, 1, 2]), []⟩).edges.keys2 1 = [0, 2] := by
  decide +kernel

end Verif
