import Verif.EndToEnd.CommandSpec
import Verif.EndToEnd.WholeProps
import Verif.Cli.Props
import Verif.Orient.Props
import Verif.Par.Props

/-!
# Lemmas for `causy execute` on data from linear equations
-/

namespace Verif
open Graph CI PC Linear Stats Sample EndToEnd Cli Data Orient

section general
variable {ι δ : Type} [DecidableEq ι]

/-- the steps a stage consists of -/
def Stage.inner : Stage ι δ → List (Step ι δ)
  | .seq p => p.steps
  | .par s _ => [s]

theorem stages_kept {P : Graph ι δ → Prop} {Q : TestResult ι δ → Prop} (k : Kept P Q) {fuel : Nat} {xs : List (Stage ι δ)}
    (hs : ∀ x ∈ xs, ∀ s ∈ x.inner, s.Safe P Q) {m : GModel ι δ} {out : Except PyErr Unit × GModel ι δ}
    (h : Stages.Run fuel xs m out) (hm : P m.graph) : P out.2.graph := by
  have one : ∀ (x : Stage ι δ) (m : GModel ι δ) out, (∀ s ∈ x.inner, s.Safe P Q) → x.Run fuel m out → P m.graph →
      P out.2.graph := by
    intro x m out hs hx hm
    cases hx with
    | seq p m => exact PStep.run_kept k fuel p hs hm
    | par s size m t p g' hp => exact k.purge g' (Par.run_kept k (hs s List.mem_cons_self) hm hp)
    | raised s size m e g' hp => exact Par.run_kept k (hs s List.mem_cons_self) hm hp
  induction h with
  | nil m => exact hm
  | cons x xs m m' out hx _ ih =>
    exact ih (fun y hy => hs y (List.mem_cons_of_mem _ hy)) (one x m _ (hs x List.mem_cons_self) hx hm)
  | raised x xs m e m' hx => exact one x m _ (hs x List.mem_cons_self) hx hm

theorem effect_onlyPC {ρ : Type} (D : Effects.Source ι ρ) : (Effects.effectStep D).OnlyPC := by
  intro c g u rs h r hr
  change Effects.effectProcess D c g = _ at h
  unfold Effects.effectProcess at h
  have key : rs = [r] → r.action = .updateEdgeDirected → PCAction r := fun _ h => .inr (.inr (.inr (.inr h)))
  split at h
  · split at h
    · cases h
    · split at h
      · cases h
      · split at h
        · split at h <;> cases h
        · split at h
          · cases h
          · split at h
            · cases h
            · split at h
              · cases h
              · split at h
                · cases h
                · cases h
                  rw [List.mem_singleton] at hr
                  subst hr
                  exact key rfl rfl
  · cases h

end general

variable {ι : Type} [LinearOrder ι]

theorem pc_steps_onlyPC (M : Machine ι) (nodes : Nodes ι ℝ) (c : ModelClass ι ℝ (Info ι (Option ℝ)))
    (hc : c = M.pc ∨ c = M.parallelPC) : ∀ x ∈ c nodes, ∀ s ∈ x.inner, s.OnlyPC := by
  have orient : ∀ p ∈ orientationPhase M.oc M.o, ∀ s ∈ p.steps, s.OnlyPC := by
    intro p hp s hs
    simp only [orientationPhase, List.mem_cons, List.not_mem_nil, or_false] at hp
    rcases hp with rfl | rfl
    · simp only [PStep.steps, List.mem_singleton] at hs
      subst hs
      exact collider_onlyPC (by decide) _
    · exact rules_onlyPC M.o s (by simpa [ruleLoop, PStep.steps] using hs)
  have effects : ∀ s ∈ (M.effects nodes).steps, s.OnlyPC := by
    intro s hs
    simp only [Machine.effects, PStep.steps, List.mem_singleton] at hs
    subst hs
    exact effect_onlyPC _
  rcases hc with rfl | rfl
  · intro x hx s hs
    simp only [Machine.pc, PC.pc, pcSkeleton, List.mem_map, List.mem_append, List.mem_cons, List.not_mem_nil, or_false] at hx
    obtain ⟨p, ((rfl | rfl | rfl | rfl) | hp) | rfl, rfl⟩ := hx
    · simp only [Stage.inner, PStep.steps, List.mem_singleton] at hs; subst hs; exact test_onlyPC _ .pearson
    · simp only [Stage.inner, PStep.steps, List.mem_singleton] at hs; subst hs; exact test_onlyPC _ .correlation
    · simp only [Stage.inner, PStep.steps, List.mem_singleton] at hs; subst hs; exact test_onlyPC _ .partialCorrelation
    · simp only [Stage.inner, PStep.steps, List.mem_singleton] at hs; subst hs; exact test_onlyPC _ (.matrix _)
    · exact orient p hp s hs
    · exact effects s hs
  · intro x hx s hs
    simp only [Machine.parallelPC, PC.parallelPC, parallelSkeleton, List.mem_map, List.mem_append, List.mem_cons,
      List.not_mem_nil, or_false] at hx
    rcases hx with ((rfl | rfl | rfl | rfl | rfl) | ⟨p, hp, rfl⟩) | rfl
    · simp only [Stage.inner, PStep.steps, List.mem_singleton] at hs; subst hs; exact test_onlyPC _ .pearson
    · simp only [Stage.inner, PStep.steps, List.mem_singleton] at hs; subst hs; exact test_onlyPC _ .correlation
    · simp only [Stage.inner, List.mem_singleton] at hs; subst hs; exact test_onlyPC _ .partialCorrelation
    · simp only [Stage.inner, List.mem_singleton] at hs
      subst hs
      exact fun c g u rs h => test_onlyPC _ (.matrix (shuffled M.choice.ord1 M.choice.shuf1)) c g u rs h
    · simp only [Stage.inner, List.mem_singleton] at hs; subst hs; exact test_onlyPC _ (.matrix _)
    · exact orient p hp s hs
    · exact effects s hs

/-- from a graph to the report -/
theorem reports_of_learned {edges : List (SEdge ι ℝ)} {g : CGraph ι (Option ℝ)} (hg : Reachable g) (hl : Learned edges g)
    (ht : TypesMatch g) {r : Report ι (Info ι (Option ℝ))} (hn : (r.edges.map (fun e => (e.u, e.v))).Nodup)
    (hi : ∀ a b, (∃ e ∈ r.edges, e.u = a ∧ e.v = b) ↔ g.directedEdgeExists a b = true)
    (he : ∀ e ∈ r.edges, g.getEdge e.u e.v = .ok e) : Reports edges r := by
  have hwf := hg.wf
  have hL : ∀ a b, Lists r a b ↔ g.directedEdgeExists a b = true := hi
  have hEx : ∀ a b, g.edgeExists a b = true ↔ Lists r a b ∨ Lists r b a := by
    intro a b
    rw [hL, hL, edgeExists_eq hwf, directedEdgeExists_eq hwf, directedEdgeExists_eq hwf, Bool.or_eq_true]
  have hA : ∀ a b, g.Arrow a b ↔ Lists r a b ∧ ¬ Lists r b a := by
    intro a b
    unfold Graph.Arrow
    rw [hL, hL, Bool.not_eq_true]
  have htype : ∀ e ∈ r.edges, e.etype = if g.directedEdgeExists e.v e.u then .undirected else .directed := by
    intro e hm
    have hd := (hi e.u e.v).1 ⟨e, hm, rfl, rfl⟩
    refine ht e.u e.v e (he e hm) ?_
    have := he e hm
    rw [getEdge_eq] at this
    rw [directedEdgeExists_eq hwf] at hd
    obtain ⟨e', h1, h2⟩ := live_iff.1 hd
    rw [h1] at this
    cases this
    exact h2
  refine ⟨hn, fun a b => (hEx a b).symm.trans (hl.adjacent a b), fun a b => (hA a b).symm.trans (hl.arrows a b), ?_, ?_, ?_⟩
  · intro e hm
    rw [htype e hm, hL]
    split <;> simp_all
  · intro e hm
    rw [htype e hm, hL]
    split <;> simp_all
  · intro e hm h1 h2
    have hd : Lists r e.u e.v := ⟨e, hm, rfl, rfl⟩
    obtain ⟨m, hv, hm'⟩ := hl.effects e.u e.v ((hA _ _).2 ⟨hd, h1⟩) (by
      intro c hc
      refine h2 c ?_
      unfold Graph.Line at hc
      rw [hL, hL]
      exact hc)
    have := he e hm
    unfold Graph.edgeValue at hv
    rw [getEdge_eq] at this
    split at hv
    · cases hv
    · cases h : g.edges.get2 e.u e.v with
      | none => rw [h] at this; cases this
      | some e' =>
        rw [h] at this hv
        cases this
        cases hv
        exact hm'

theorem mem_of_assoc {α β : Type} [DecidableEq α] {k : α} {v : β} : ∀ {l : List (α × β)}, assoc k l = some v → (k, v) ∈ l
  | [], h => nomatch h
  | (a, b) :: l, h => by
    unfold assoc at h
    split at h
    · rename_i e
      cases h
      subst e
      exact List.mem_cons_self
    · exact List.mem_cons_of_mem _ (mem_of_assoc h)

/-- the values of the nodes as the last step reads them -/
theorem effectData_of_nodes {n : ℕ} (M : Machine ι) (hM : M.Valid) {nodes : Nodes ι ℝ} (hr : ∀ p ∈ nodes, p.2.length = n) :
    EffectData ⟨fun v => (assoc v nodes).map (fun col => col.map some), M.lstsq⟩ (nodeValues (n := n) nodes)
      (nodes.map Prod.fst) := by
  refine ⟨?_, hM.solver⟩
  intro v hv
  cases ha : assoc v nodes with
  | none => exact absurd hv ((assoc_eq_none_iff _ _).1 ha)
  | some col =>
    have hl : col.length = n := hr (v, col) (mem_of_assoc ha)
    subst hl
    simp only [ha, Option.map_some, Option.some.injEq]
    refine List.ext_getElem (by simp) ?_
    intro i h1 h2
    simp only [List.getElem_map, List.getElem_ofFn, nodeValues, ha, Option.bind_some]
    rw [List.getElem?_eq_getElem (by simpa using h1)]
    rfl

/-- the command, if the steps of the model cannot fail and end with a learned graph -/
theorem command_reports {edges : List (SEdge ι ℝ)} {fuel : Nat} {env : Env ι ℝ (Info ι (Option ℝ))} {o : Options}
    {M : Machine ι} {name : String} {c : ModelClass ι ℝ (Info ι (Option ℝ))} {j : Json ι ℝ} {nodes : Nodes ι ℝ}
    (hsel : Selects env o c (.name name)) (hj : env.document = .ok j) (hd : Holds j nodes) (hc : c = M.pc ∨ c = M.parallelPC)
    (hrun : ∀ out, Stages.Run fuel (c nodes) ⟨startGraph (loadedGraph nodes), []⟩ out →
      out.1 = .ok () ∧ Learned edges out.2.graph) :
    (∃ r, Executes {} fuel env o (.ok r)) ∧
    ∀ out, Executes {} fuel env o out → ∃ r, out = .ok r ∧ Reports edges r ∧ Delivers o name nodes r := by
  have hnd := loadData_nodup ((loadData_iff env j nodes hj).2 hd)
  obtain ⟨g, h1, h2⟩ := start_ok ({} : Info ι (Option ℝ)) hnd
  have hg : g = startGraph (loadedGraph nodes) := by
    have := congrArg (fun x => x.2.graph) h1
    exact this.symm
  subst hg
  have hsel' := (selects_iff env o c (.name name)).2 hsel
  have hload := (loadData_iff env j nodes hj).2 hd
  have hlast : (c nodes).getLast? = some (.seq (M.effects nodes)) := by
    rcases hc with rfl | rfl
    · simp [Machine.pc]
    · simp [Machine.parallelPC]
  have hsafe := pc_steps_onlyPC M nodes c hc
  constructor
  · obtain ⟨⟨r, m'⟩, hr⟩ := stages_exists fuel (c nodes) ⟨startGraph (loadedGraph nodes), []⟩
    obtain ⟨rfl, -⟩ : r = .ok () ∧ _ := hrun _ hr
    have := Executes.done (m0 := ({} : Info ι (Option ℝ))) (fuel := fuel) (env := env) (o := o) (c, .name name) nodes _ m'
      hsel' hload h1 hr
    rw [report_ok (stages_ok hr h2).1.1] at this
    exact ⟨_, this⟩
  · intro out hout
    have hall := hout
    cases hout with
    | noModel e h => rw [hsel'] at h; cases h
    | noData c' e h hd' => rw [hload] at hd'; cases hd'
    | noEdges c' _ _ _ h hd' hs => rw [hload] at hd'; cases hd'; rw [h1] at hs; cases hs
    | stepFailed c' n m e m' h hd' hs hr =>
      rw [hsel'] at h
      cases h
      rw [hload] at hd'
      cases hd'
      rw [h1] at hs
      cases hs
      cases (hrun _ hr).1
    | done c' n m m' h hd' hs hr =>
      rw [hsel'] at h
      cases h
      rw [hload] at hd'
      cases hd'
      rw [h1] at hs
      cases hs
      obtain ⟨a1, a2, a3⟩ := stages_ok hr h2
      rw [report_ok a1.1] at hall ⊢
      obtain ⟨l, b1, b2, b3, b4⟩ := C12_retrieve_edges_exact m'.graph a1.1
      rw [retrieveEdges_eq a1.1.wf] at b1
      cases b1
      have ht : TypesMatch m'.graph := (stages_kept typed_kept (fun x hx s hs => (hsafe x hx s hs).safe _) hr
        (startGraph_typed (nodesOnly_reachable _))).types
      refine ⟨_, rfl, reports_of_learned a1.1 (hrun _ hr).2 ht b2 (fun a b => ⟨?_, fun h => b4 a b h⟩) (fun e he => (b3 e he).2.1),
        ⟨?_, rfl, a1.2, fun f => given_iff _ f⟩⟩
      · rintro ⟨e, he, rfl, rfl⟩
        exact (b3 e he).1
      · exact (C113_shown_is_saved_partial _ fuel env o _ hall).2.2 c (.name name) j nodes _ hsel hj hd hlast trivial

end Verif
