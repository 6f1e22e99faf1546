import Verif.Heap.Lemmas5
import Verif.CI.Lemmas3

/-!
# Helper lemmas: the start of a run, and the growth of the records
-/

namespace Verif
open Graph CI
variable {ι δ τ : Type} [DecidableEq ι]

namespace Heap

theorem runAll_addNode (ids : List ι) (g : Graph ι δ) (h : (g.nodes ++ ids).Nodup) :
    Cmd.runAll (ids.map .addNode) g = { g with nodes := g.nodes ++ ids } := by
  induction ids generalizing g with
  | nil => simp [Cmd.runAll]
  | cons x ids ih =>
    have hx : x ∉ g.nodes := fun hx => by
      have := (List.nodup_append.1 h).2.2 x hx x List.mem_cons_self
      exact this rfl
    have e1 : Cmd.runAll ((x :: ids).map .addNode) g = Cmd.runAll (ids.map .addNode) ((Cmd.addNode x).run g).2 := rfl
    have e2 : ((Cmd.addNode x).run g).2 = { g with nodes := g.nodes ++ [x] } := by
      show (Graph.addNode x g).2 = _
      unfold Graph.addNode
      rw [if_neg hx]
    rw [e1, e2, ih _ (by simpa using h)]
    simp

theorem nodesOnly_eq {ids : List ι} (h : ids.Nodup) : (nodesOnly ids : Graph ι δ) = { (Graph.empty : Graph ι δ) with nodes := ids } := by
  unfold nodesOnly
  rw [runAll_addNode ids Graph.empty (by simpa [Graph.empty] using h)]
  rfl

theorem before_rel {κ : δ → τ} {nodes : List ι} (hn : nodes.Nodup) (m0 : δ) (c : Ref → δ) :
    ∃ P, Rel κ P [] (before nodes m0 c) ⟨(Graph.createAllPossibleEdges m0 (nodesOnly nodes)).2, []⟩ := by
  obtain ⟨σ', P', h1, h2, h3, _⟩ := begin_createAll (begin_start hn c) m0
  have h2' : Graph.createAllPossibleEdges m0 (nodesOnly nodes) = (.ok (), P'.map Prod.snd) := by
    rw [nodesOnly_eq hn]
    exact h2
  refine ⟨P', ?_⟩
  unfold before
  rw [h1, h2']
  exact h3.rel

/-- the history of the model without sharing only grows -/
theorem history_grows (fuel : Nat) (ps : List (PStep ι δ)) (V : GModel ι δ) (h : WF0 V.graph) :
    V.history <+: (runPipeline fuel ps V).2.history ∧ HistExtends V.graph (runPipeline fuel ps V).2.graph := by
  constructor
  · unfold runPipeline
    refine PyM.forEach_invariant (fun m => V.history <+: m.history) (PStep.run fuel) ps (fun p _ m hm => ?_) V List.prefix_rfl
    cases p with
    | loop name ss exit =>
      show V.history <+: ((onGraph (Verif.loopGo ss exit fuel 0 none) >>= fun rs => Verif.appendHistory (.logic name rs)) m).2.history
      rw [PyM.bind_run, onGraph_run]
      generalize Verif.loopGo ss exit fuel 0 none m.graph = x
      obtain ⟨x1, x2⟩ := x
      cases x1 with
      | error e => exact hm
      | ok rs => exact hm.trans (List.prefix_append _ _)
    | together name ss =>
      show V.history <+: ((onGraph (Verif.runTogether ss) >>= fun rs => Verif.appendHistory (.logic name rs)) m).2.history
      rw [PyM.bind_run, onGraph_run]
      generalize Verif.runTogether ss m.graph = x
      obtain ⟨x1, x2⟩ := x
      cases x1 with
      | error e => exact hm
      | ok rs => exact hm.trans (List.prefix_append _ _)
    | plain s =>
      show V.history <+: ((onGraph (s.execute false) >>= fun p =>
        Verif.appendHistory (.plain ⟨s.name, p.1, p.2⟩) >>= fun _ => onGraph Graph.purge) m).2.history
      rw [PyM.bind_run, onGraph_run]
      generalize s.execute false m.graph = x
      obtain ⟨x1, x2⟩ := x
      cases x1 with
      | error e => exact hm
      | ok rs => exact hm.trans (List.prefix_append _ _)
  · have k : Kept (fun g : Graph ι δ => WF0 g ∧ HistExtends V.graph g) (fun _ => True) :=
      ⟨fun r g hg _ => ⟨applyOne_wf hg.1, hg.2.trans (applyOne_hist hg.1)⟩,
        fun g hg => by
          rw [purge_run hg.1]
          exact ⟨hg.1.purgeG, hg.2.trans (HistExtends.of_eq hist_purgeG)⟩⟩
    exact (runPipeline_kept k fuel ps (fun _ _ s _ => ⟨fun _ => True, ⟨fun _ _ _ _ _ _ _ _ _ _ _ _ => trivial, fun _ _ _ _ _ _ _ _ _ => trivial⟩⟩)
      (m := V) ⟨h, HistExtends.refl _⟩).2

omit [DecidableEq ι] in
theorem blur_id_inj : Function.Injective (blur (id : δ → δ) : TestResult ι δ → _) := by
  rintro ⟨u, v, a, d⟩ ⟨u', v', a', d'⟩ h
  simp only [blur, TestResult.map, TestResult.mk.injEq] at h
  obtain ⟨rfl, rfl, rfl, h⟩ := h
  cases d <;> cases d' <;> simp only [Option.map_none, Option.map_some, reduceCtorEq, Option.some.injEq] at h
  · rfl
  · cases ha : a.isUpdate <;> rw [ha] at h <;> simp at h <;> rw [h]

omit [DecidableEq ι] in
theorem blurStep_id_inj : Function.Injective (blurStep (id : δ → δ) : StepRec ι δ → _) := by
  rintro ⟨n, a, p⟩ ⟨n', a', p'⟩ h
  simp only [blurStep, StepRec.mk.injEq] at h
  obtain ⟨rfl, h1, h2⟩ := h
  rw [blur_id_inj.list_map h1, blur_id_inj.list_map h2]

omit [DecidableEq ι] in
theorem blurRec_id_inj : Function.Injective (blurRec (id : δ → δ) : HistRec ι δ → _) := by
  intro r r' h
  cases r <;> cases r' <;> simp only [blurRec, HistRec.plain.injEq, HistRec.logic.injEq, reduceCtorEq] at h
  · rw [blurStep_id_inj h]
  · rw [h.1, blurStep_id_inj.list_map h.2]

theorem prefix_of_map {α β : Type} {f : α → β} (hf : Function.Injective f) {l l' : List α} (h : l.map f <+: l'.map f) : l <+: l' := by
  obtain ⟨t, ht⟩ := h
  have h1 : (l'.take l.length).map f = l.map f := by
    rw [List.map_take, ← ht, List.take_left' (by simp)]
  rw [← hf.list_map h1]
  exact List.take_prefix _ _

end Heap

end Verif
