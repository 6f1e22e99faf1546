import Mathlib.Tactic.FieldSimp
import Verif.Effects.Lemmas2
import Verif.Sample.Props
import Verif.PC.Props

/-!
# Helper lemmas: the whole step, and where the graphs come from
-/

namespace Verif
namespace Effects
open Graph CI
variable {ι ρ : Type} [DecidableEq ι] {n : ℕ}

/-- `WithEffectsIn`, when the weights have the property `Fit` -/
structure WithFits (num : ℝ → ρ) (Fit : Finset ι → ι → (ι → ℝ) → Prop) (g g' : CGraph ι ρ) : Prop where
  nodes : g'.nodes = g.nodes
  edges : ∀ a b, g'.directedEdgeExists a b = g.directedEdgeExists a b
  types : ∀ a b, g.directedEdgeExists a b = true → g'.edgeType a b = g.edgeType a b
  lines : ∀ a b, g.Line a b → g'.edgeValue a b = g.edgeValue a b
  arrows : ∀ a b, g.Arrow a b → ∃ m β, g.edgeValue a b = .ok (some m) ∧ Fit (into g b) b β ∧
    g'.edgeValue a b = .ok (some { m with effect := some (num (β a)) })
  records : ∀ a b act, act ≠ .updateEdgeDirected → g'.retrieveEdgeHistory a b act = g.retrieveEdgeHistory a b act

theorem WithFits.effects {num : ℝ → ρ} {X : ι → Fin n → ℝ} {g g' : CGraph ι ρ}
    (h : WithFits num (fun P y β => ShortestFit P X (X y) β) g g') : WithEffectsIn num X g g' :=
  ⟨h.nodes, h.edges, h.types, h.lines, h.arrows, h.records⟩

theorem Written.with {num : ℝ → ρ} {Fit : Finset ι → ι → (ι → ℝ) → Prop} {g g' : CGraph ι ρ} (h : WF0 g) {F : ι → ι → ρ} {l : List (ι × ι)}
    (hw : Written g F l g') (hl : ∀ a b, (a, b) ∈ l ↔ g.live a b = true ∧ g.live b a = false)
    (hF : ∀ a b, (a, b) ∈ l → ∃ β, Fit (into g b) b β ∧ F a b = num (β a)) : WithFits num Fit g g' := by
  refine ⟨hw.nodes, ?_, ?_, ?_, ?_, hw.removed⟩
  · intro a b
    rw [directedEdgeExists_eq hw.wf, directedEdgeExists_eq h, hw.live]
  · intro a b hab
    rw [directedEdgeExists_eq h] at hab
    obtain ⟨e, he, _⟩ := live_iff.1 hab
    unfold edgeType
    rw [edgeExists_eq hw.wf, edgeExists_eq h, hw.live, hw.live]
    by_cases hm : (a, b) ∈ l
    · rw [(hw.get a b).1 hm, he]; rfl
    · rw [(hw.get a b).2 hm]
  · intro a b hab
    have hab' := (line_iff h).1 hab
    have hm : (a, b) ∉ l := by
      intro hm
      have := ((hl a b).1 hm).2
      rw [hab'.2] at this; cases this
    unfold edgeValue
    rw [edgeExists_eq hw.wf, edgeExists_eq h, hw.live, hw.live, (hw.get a b).2 hm]
  · intro a b hab
    have hab' := (arrow_iff h).1 hab
    obtain ⟨e, he, _⟩ := live_iff.1 hab'.1
    have hm := (hl a b).2 hab'
    obtain ⟨β, hβ, hFβ⟩ := hF a b hm
    refine ⟨e.metadata, β, edgeValue_live h he hab'.1, hβ, ?_⟩
    rw [← hFβ]
    have hget := (hw.get a b).1 hm
    rw [he] at hget
    rw [edgeValue_live hw.wf hget (by rw [hw.live]; exact hab'.1)]

theorem WithFits.purge {num : ℝ → ρ} {Fit : Finset ι → ι → (ι → ℝ) → Prop} {g g' : CGraph ι ρ} (h' : WF0 g')
    (hw : WithFits num Fit g g') : WithFits num Fit g (purgeG g') := by
  have hd : ∀ a b, (purgeG g').directedEdgeExists a b = g'.directedEdgeExists a b := by
    intro a b
    rw [directedEdgeExists_eq h', directedEdgeExists_eq h'.purgeG, live_purgeG]
  have hget : ∀ a b, g'.directedEdgeExists a b = true → (purgeG g').edges.get2 a b = g'.edges.get2 a b := by
    intro a b hab
    rw [directedEdgeExists_eq h'] at hab
    obtain ⟨e, he, hdel⟩ := live_iff.1 hab
    rw [get2_purgeG, he]
    simp [hdel]
  have hex : ∀ a b, (purgeG g').edgeExists a b = g'.edgeExists a b := by
    intro a b
    rw [edgeExists_eq h', edgeExists_eq h'.purgeG, live_purgeG, live_purgeG]
  have hval : ∀ a b, g'.directedEdgeExists a b = true → (purgeG g').edgeValue a b = g'.edgeValue a b := by
    intro a b hab
    unfold edgeValue
    rw [hex, hget a b hab]
  refine ⟨by rw [nodes_purgeG]; exact hw.nodes, fun a b => (hd a b).trans (hw.edges a b), ?_, ?_, ?_, ?_⟩
  · intro a b hab
    rw [← hw.types a b hab]
    unfold edgeType
    rw [hex, hget a b (by rw [hw.edges]; exact hab)]
  · intro a b hab
    rw [← hw.lines a b hab, hval a b (by rw [hw.edges]; exact hab.1)]
  · intro a b hab
    obtain ⟨m, β, h1, h2, h3⟩ := hw.arrows a b hab
    exact ⟨m, β, h1, h2, by rw [← h3, hval a b (by rw [hw.edges]; exact hab.1)]⟩
  · intro a b act hact
    rw [retrieve_purgeG]; exact hw.records a b act hact

theorem step_run_fits {num : ℝ → ρ} {D : Source ι ρ} {g : CGraph ι ρ} (h : WF0 g) (hr : RevExact g)
    {Fit : Finset ι → ι → (ι → ℝ) → Prop} (hF : Regressions num D g Fit) :
    ∃ tp g', (effectStep D).execute false g = (.ok tp, g') ∧ WF0 g' ∧ WithFits num Fit g g' := by
  obtain ⟨F, l, ps, g', h1, h2, h3, h4⟩ := effect_execute h hr hF
  exact ⟨_, g', h1, h2.wf, h2.with h h3 h4⟩

theorem step_run_in {num : ℝ → ρ} {D : Source ι ρ} (hls : LeastSquaresIn num D.lstsq) {g : CGraph ι ρ} (h : WF0 g) (hr : RevExact g)
    {X : ι → Fin n → ℝ} (hX : Columns D g (fun p i => num (X p i))) :
    ∃ tp g', (effectStep D).execute false g = (.ok tp, g') ∧ WF0 g' ∧ WithEffectsIn num X g g' := by
  obtain ⟨tp, g', h1, h2, h3⟩ := step_run_fits h hr (regressions hls hX)
  exact ⟨tp, g', h1, h2, h3.effects⟩

theorem WithEffectsIn.real {X : ι → Fin n → ℝ} {g g' : CGraph ι ℝ} (h : WithEffectsIn (fun x => x) X g g') :
    WithEffects X g g' := ⟨h.nodes, h.edges, h.types, h.lines, h.arrows, h.records⟩

theorem step_run {D : Source ι ℝ} (hls : LeastSquares D.lstsq) {g : CGraph ι ℝ} (h : WF0 g) (hr : RevExact g)
    {X : ι → Fin n → ℝ} (hX : Columns D g X) :
    ∃ tp g', (effectStep D).execute false g = (.ok tp, g') ∧ WF0 g' ∧ WithEffects X g g' := by
  obtain ⟨tp, g', h1, h2, h3⟩ := step_run_in (num := fun x => x) hls h hr hX
  exact ⟨tp, g', h1, h2, h3.real⟩

/-- every pipeline keeps the two invariants -/
theorem runPipeline_clean {δ : Type} (fuel : Nat) (ps : List (PStep ι δ)) (m : GModel ι δ) (h : WF0 m.graph)
    (hr : RevExact m.graph) : WF0 (runPipeline fuel ps m).2.graph ∧ RevExact (runPipeline fuel ps m).2.graph := by
  have k : Kept (fun g : Graph ι δ => WF0 g ∧ RevExact g) (fun _ => True) := by
    refine ⟨?_, ?_⟩
    · intro r g hg _
      exact ⟨applyOne_wf hg.1, applyOne_revExact hg.1 hg.2⟩
    · intro g hg
      rw [purge_run hg.1]
      exact ⟨hg.1.purgeG, hg.2.purgeG⟩
  refine runPipeline_kept k fuel ps ?_ ⟨h, hr⟩
  intro p _ s _
  exact ⟨fun _ => True, by intros; trivial, by intros; trivial⟩


/-- the hypotheses of `step_run_fits` for the last step of a run -/
theorem last_run_fits {num : ℝ → ρ} {D : Source ι ρ} (fuel : Nat) (ps : List (PStep ι (Info ι ρ)))
    (m : GModel ι (Info ι ρ)) (hwf : WF0 m.graph) (hrev : RevExact m.graph) (hok : (runPipeline fuel ps m).1 = .ok ())
    {Fit : Finset ι → ι → (ι → ℝ) → Prop} (hF : Regressions num D (graphAfter fuel ps m) Fit) :
    (runPipeline fuel (ps ++ [.plain (effectStep D)]) m).1 = .ok () ∧
    WithFits num Fit (graphAfter fuel ps m) (graphAfter fuel (ps ++ [.plain (effectStep D)]) m) := by
  have hc := runPipeline_clean fuel ps m hwf hrev
  unfold graphAfter at hF ⊢
  generalize hx : runPipeline fuel ps m = x at *
  obtain ⟨r, m1⟩ := x
  simp only at hok hc hF ⊢
  subst hok
  obtain ⟨tp, g', h1, h2, h3⟩ := step_run_fits hc.1 hc.2 hF
  have hrun : runPipeline fuel (ps ++ [.plain (effectStep D)]) m =
      (.ok (), ⟨purgeG g', m1.history ++ [.plain ⟨(effectStep D).name, tp.1, tp.2⟩]⟩) := by
    unfold runPipeline at hx ⊢
    rw [PyM.forEach_append_ok hx, PyM.forEach_cons, PyM.bind_run, run_plain_ok fuel h1 h2]
    rfl
  rw [hrun]
  exact ⟨rfl, h3.purge h2⟩

theorem last_run_in {num : ℝ → ρ} {D : Source ι ρ} (hls : LeastSquaresIn num D.lstsq) (fuel : Nat) (ps : List (PStep ι (Info ι ρ)))
    (m : GModel ι (Info ι ρ)) (hwf : WF0 m.graph) (hrev : RevExact m.graph) (hok : (runPipeline fuel ps m).1 = .ok ())
    {X : ι → Fin n → ℝ} (hX : Columns D (graphAfter fuel ps m) (fun p i => num (X p i))) :
    (runPipeline fuel (ps ++ [.plain (effectStep D)]) m).1 = .ok () ∧
    WithEffectsIn num X (graphAfter fuel ps m) (graphAfter fuel (ps ++ [.plain (effectStep D)]) m) :=
  have h := last_run_fits fuel ps m hwf hrev hok (regressions hls hX)
  ⟨h.1, h.2.effects⟩

theorem last_run {D : Source ι ℝ} (hls : LeastSquares D.lstsq) (fuel : Nat) (ps : List (PStep ι (Info ι ℝ)))
    (m : GModel ι (Info ι ℝ)) (hwf : WF0 m.graph) (hrev : RevExact m.graph) (hok : (runPipeline fuel ps m).1 = .ok ())
    {X : ι → Fin n → ℝ} (hX : Columns D (graphAfter fuel ps m) X) :
    (runPipeline fuel (ps ++ [.plain (effectStep D)]) m).1 = .ok () ∧
    WithEffects X (graphAfter fuel ps m) (graphAfter fuel (ps ++ [.plain (effectStep D)]) m) :=
  have h := last_run_in (num := fun x => x) hls fuel ps m hwf hrev hok hX
  ⟨h.1, h.2.real⟩

theorem clean_history_append {δ : Type} (cs ds : List (Cmd ι δ)) (g : Graph ι δ) :
    CleanHistory (cs ++ ds) g ↔ CleanHistory cs g ∧ CleanHistory ds (Cmd.runAll cs g) := by
  induction cs generalizing g with
  | nil => exact ⟨fun h => ⟨trivial, h⟩, fun h => h.2⟩
  | cons c cs ih =>
    show _ ∧ CleanHistory (cs ++ ds) _ ↔ _
    rw [ih]
    exact and_assoc.symm

theorem clean_step {δ : Type} {g : Graph ι δ} (hg : ReachableClean g) (c : Cmd ι δ) (hc : ¬ c.isOneWayHardRemove g) :
    ReachableClean (c.run g).2 := by
  obtain ⟨cs, h1, rfl⟩ := hg
  refine ⟨cs ++ [c], (clean_history_append _ _ _).2 ⟨h1, hc, trivial⟩, ?_⟩
  simp [Cmd.runAll, List.foldl_append]

/-- the graph the algorithms start from -/
theorem createAll_clean {δ : Type} {g : Graph ι δ} (hg : ReachableClean g) (m0 : δ) :
    ReachableClean (createAllPossibleEdges m0 g).2 := by
  unfold createAllPossibleEdges
  rw [PyM.bind_ok (PyM.get_run g)]
  refine PyM.forEach_invariant ReachableClean _ _ ?_ g hg
  intro u _ g hg
  refine PyM.forEach_invariant ReachableClean _ _ ?_ g hg
  intro v _ g hg
  by_cases h : u = v
  · rw [if_pos h]; exact hg
  · rw [if_neg h]
    exact clean_step hg (.addEdge u v m0 .undirected) (by simp [Cmd.isOneWayHardRemove])

/-- the graph of `IIDSampleGenerator` -/
theorem iidGraph_clean {R δ : Type} (m0 : δ) (edges : List (Sample.SEdge ι R)) (vars : List ι) :
    ReachableClean (Sample.iidGraph m0 edges vars (Graph.empty : Graph ι δ)).2 := by
  have h0 : ReachableClean (PyM.forEach vars Graph.addNode (Graph.empty : Graph ι δ)).2 := by
    refine PyM.forEach_invariant ReachableClean _ _ ?_ _ ⟨[], trivial, rfl⟩
    intro u _ g hg
    exact clean_step hg (.addNode u) (by simp [Cmd.isOneWayHardRemove])
  unfold Sample.iidGraph
  rw [PyM.bind_run]
  generalize PyM.forEach vars Graph.addNode (Graph.empty : Graph ι δ) = x at *
  obtain ⟨r, g⟩ := x
  cases r with
  | error e => exact h0
  | ok _ =>
    refine PyM.forEach_invariant ReachableClean _ _ ?_ _ h0
    intro e _ g hg
    rw [PyM.bind_ok (PyM.get_run g)]
    by_cases h : e.src ∉ g.nodes ∨ e.dst ∉ g.nodes
    · rw [if_pos h]; exact hg
    · rw [if_neg h]
      exact clean_step hg (.addDirectedEdge e.src e.dst m0 .directed) (by simp [Cmd.isOneWayHardRemove])

theorem iidGenerate_clean [Add ρ] [Mul ρ] {δ : Type} {m0 : δ} {size : ℕ} {rand : ℕ → ρ} {edges : List (Sample.SEdge ι ρ)}
    {vars : List ι} {out : Dict ι (Fin size → ρ)} {g : Graph ι δ} (h : Sample.iidGenerate m0 size rand edges vars = .ok (out, g)) :
    ReachableClean g := by
  have := iidGraph_clean m0 edges vars (δ := δ)
  unfold Sample.iidGenerate at h
  split at h
  · cases h
  · split at h
    · rename_i hg
      rw [hg] at this
      cases h
      exact this
    · cases h

/-! ### Failures -/

omit [DecidableEq ι] in
theorem evalSeq_ok_all {δ : Type} {s : Step ι δ} (hs : s.needsUnapplied = false) {g : Graph ι δ} {ys : List (Yield ι)}
    {loc rs : Results ι δ} (h : s.evalSeq g ys loc = .ok rs) {c : List ι} (hc : Yield.single c ∈ ys) :
    ∃ r, s.process c g none = .ok r := by
  induction ys generalizing loc with
  | nil => cases hc
  | cons y ys ih =>
    unfold Step.evalSeq at h
    cases hy : s.evalOne g y loc with
    | error e => rw [hy] at h; cases h
    | ok r =>
      rw [hy] at h
      rcases List.mem_cons.1 hc with rfl | hc
      · unfold Step.evalOne at hy
        rw [hs] at hy
        exact ⟨r, hy⟩
      · exact ih h hc

omit [DecidableEq ι] in
theorem coefficient_missing {D : Source ι ρ} {others : List ι} {x y : ι} (h : D.values x = none ∨ D.values y = none) :
    ∃ e, coefficient D others x y = .error e := by
  unfold coefficient
  cases hst : stack ((x :: others).map D.values) with
  | error e => exact ⟨e, rfl⟩
  | ok cols =>
    rcases h with h | h
    · exfalso
      unfold stack at hst
      rw [if_pos (by simp [h])] at hst
      cases hst
    · exact ⟨_, by simp only [h]; rfl⟩

theorem process_missing {D : Source ι ρ} {g : CGraph ι ρ} (h : WF0 g) {a b : ι} (hab : g.live a b = true)
    (hba : g.live b a = false) (hv : D.values a = none ∨ D.values b = none) : ∃ e, effectProcess D [a, b] g = .error e := by
  obtain ⟨ha, hb⟩ := h.live_nodes hab
  obtain ⟨e, he, _⟩ := live_iff.1 hab
  unfold effectProcess
  simp only [hb, ha, not_true, if_false]
  rw [if_neg (by unfold undirectedEdgeExists; rw [directedEdgeExists_eq h, directedEdgeExists_eq h, hba, hab]; simp),
    edgeValue_live h he hab]
  simp only
  cases g.parentsOfNode b with
  | error e => exact ⟨e, rfl⟩
  | ok ps =>
    obtain ⟨e, he⟩ := coefficient_missing (others := ps.filter (fun p => decide (p ≠ a))) hv
    exact ⟨e, by simp only [he]⟩

/-! ### Rescaled columns -/

theorem bestFit_scale {P : Finset ι} {X : ι → Fin n → ℝ} {y : Fin n → ℝ} {β : ι → ℝ} (s : ι → ℝ) (t : ℝ)
    (hs : ∀ p ∈ P, s p ≠ 0) (h : BestFit P X y β) :
    BestFit P (fun p i => s p * X p i) (fun i => t * y i) (fun p => t / s p * β p) := by
  refine Normal.best ?_
  intro p hp
  have h1 := h.normal p hp
  have h2 : ∀ i, (t * y i - ∑ q ∈ P, t / s q * β q * (s q * X q i)) * (s p * X p i) =
      t * s p * ((y i - ∑ q ∈ P, β q * X q i) * X p i) := by
    intro i
    have : ∑ q ∈ P, t / s q * β q * (s q * X q i) = t * ∑ q ∈ P, β q * X q i := by
      rw [Finset.mul_sum]
      refine Finset.sum_congr rfl (fun q hq => ?_)
      have := hs q hq
      field_simp
    rw [this]; ring
  simp only [h2]
  rw [← Finset.mul_sum, h1, mul_zero]

omit [DecidableEq ι] in
theorem independent_scale {P : Finset ι} {X : ι → Fin n → ℝ} (s : ι → ℝ) (hs : ∀ p ∈ P, s p ≠ 0) (h : Independent P X) :
    Independent P (fun p i => s p * X p i) := by
  intro γ hγ p hp
  have := h (fun p => γ p * s p) (fun i => by rw [← hγ i]; exact Finset.sum_congr rfl (fun q _ => by ring)) p hp
  exact (mul_eq_zero.1 this).resolve_right (hs p hp)

omit [DecidableEq ι] in
/-- in exact data the residual is orthogonal to the columns -/
theorem bestFit_zero {P : Finset ι} {X : ι → Fin n → ℝ} {ε : Fin n → ℝ} (h : ∀ p ∈ P, ∑ i, ε i * X p i = 0) :
    BestFit P X ε (fun _ => 0) := by
  refine Normal.best ?_
  intro p hp
  simpa using h p hp

end Effects
end Verif
