import Verif.CI.Spec
import Verif.Gen.Props

/-!
# Helper lemmas for the independence-test phase
-/

namespace Verif
open Graph
variable {ι ρ δ : Type} [DecidableEq ι]

namespace Graph

theorem retrieveEdgeHistory_eq (g : Graph ι δ) (a b : ι) (act : Action) : g.retrieveEdgeHistory a b act =
    ((g.hist.get? (a, b)).getD []).filter (fun r => decide (r.action = act)) := by
  unfold retrieveEdgeHistory
  cases g.hist.get? (a, b) <;> rfl

theorem retrieve_addH (g : Graph ι δ) (u v a b : ι) (r : TestResult ι δ) (act : Action) :
    (addH u v r g).retrieveEdgeHistory a b act = if (u = a ∧ v = b) ∧ r.action = act
      then g.retrieveEdgeHistory a b act ++ [r] else g.retrieveEdgeHistory a b act := by
  simp only [retrieveEdgeHistory_eq, hist_addH, Prod.mk.injEq]
  by_cases h1 : u = a ∧ v = b
  · by_cases h2 : r.action = act <;> simp [h1, h2]
  · simp [h1]

theorem retrieve_modBoth (g : Graph ι δ) (u v a b : ι) (f : Edge ι δ → Edge ι δ) (act : Action) :
    (modBoth g u v f).retrieveEdgeHistory a b act = g.retrieveEdgeHistory a b act := by
  simp only [retrieveEdgeHistory_eq, hist_modBoth]

theorem retrieve_purgeG (g : Graph ι δ) (a b : ι) (act : Action) :
    (purgeG g).retrieveEdgeHistory a b act = g.retrieveEdgeHistory a b act := by
  simp only [retrieveEdgeHistory_eq, hist_purgeG]

end Graph

namespace CI

/-- what the steps of the phase propose -/
def Proposal (T : Tests ι ρ) (N : List ι) (r : CResult ι ρ) : Prop :=
  r.action = .doNothing ∨
  (r.action = .updateEdge ∧ ∃ m : Info ι ρ, r.data = some { m with corr := some (T.pearson r.u r.v) }) ∨
  Certificate T N r.u r.v r

/-- The invariant of the phase, relative to the graph `g0` at its beginning. -/
structure Inv (T : Tests ι ρ) (g0 g : CGraph ι ρ) : Prop where
  wf : WF0 g
  nodes : g.nodes = g0.nodes
  sym : ∀ a b, g.live a b = true → g.live b a = true
  typ : ∀ a b e, g.edges.get2 a b = some e → e.etype = .undirected
  corr : ∀ a b e, g.edges.get2 a b = some e → e.metadata.corr = none ∨ e.metadata.corr = some (T.pearson a b)
  le : ∀ a b, g.live a b = true → g0.live a b = true
  same : ∀ a b, g.live a b = true → g.retrieveEdgeHistory a b .removeEdgeUndirected =
    g0.retrieveEdgeHistory a b .removeEdgeUndirected
  cert : ∀ a b, g0.live a b = true → g.live a b = false → ∃ r, Certificate T g0.nodes a b r ∧
    g.retrieveEdgeHistory a b .removeEdgeUndirected = g0.retrieveEdgeHistory a b .removeEdgeUndirected ++ [r] ∧
    g.retrieveEdgeHistory b a .removeEdgeUndirected = g0.retrieveEdgeHistory b a .removeEdgeUndirected ++ [r]

theorem Inv.purge {T : Tests ι ρ} {g0 g : CGraph ι ρ} (h : Inv T g0 g) : Inv T g0 (Graph.purge g).2 := by
  rw [purge_run h.wf]
  have hg : ∀ a b e, (purgeG g).edges.get2 a b = some e → g.edges.get2 a b = some e := by
    intro a b e he
    rw [get2_purgeG] at he
    cases hx : g.edges.get2 a b with
    | none => rw [hx] at he; cases he
    | some e' =>
      rw [hx] at he
      simp only at he
      split at he
      · cases he
      · exact he
  refine ⟨h.wf.purgeG, by rw [nodes_purgeG]; exact h.nodes, ?_, fun a b e he => h.typ a b e (hg a b e he),
    fun a b e he => h.corr a b e (hg a b e he), ?_, ?_, ?_⟩
  · intro a b; simp only [live_purgeG]; exact h.sym a b
  · intro a b; simp only [live_purgeG]; exact h.le a b
  · intro a b; simp only [live_purgeG, retrieve_purgeG]; exact h.same a b
  · intro a b; simp only [live_purgeG, retrieve_purgeG]; exact h.cert a b

theorem Inv.apply {T : Tests ι ρ} (hsym : ∀ a b, T.pearson a b = T.pearson b a) {g0 g : CGraph ι ρ} (h : Inv T g0 g)
    {r : CResult ι ρ} (hr : Proposal T g0.nodes r) : Inv T g0 (applyOne r g).2 := by
  rcases hr with hr | ⟨hr, m, hm⟩ | ⟨hr, hc⟩
  · rw [applyOne_doNothing hr]; exact h
  · rw [applyOne_update h.wf hr]
    split
    · split
      · have hlive : ∀ a b, (addH r.v r.u r (addH r.u r.v r (modBoth (modBoth g r.u r.v (setMeta r.data)) r.v r.u
            (setMeta r.data)))).live a b = g.live a b := by
          intro a b
          simp only [live_addH]
          rw [live_same _ (fun e => by unfold setMeta; split <;> rfl),
            live_same _ (fun e => by unfold setMeta; split <;> rfl)]
        have hget : ∀ a b e, (addH r.v r.u r (addH r.u r.v r (modBoth (modBoth g r.u r.v (setMeta r.data)) r.v r.u
            (setMeta r.data)))).edges.get2 a b = some e → ∃ e', g.edges.get2 a b = some e' ∧
              e.etype = e'.etype ∧ (e.metadata = e'.metadata ∨ e.metadata.corr = some (T.pearson a b)) := by
          intro a b e he
          simp only [edges_addH] at he
          rw [get2_modBoth] at he
          by_cases h1 : r.v = a ∧ r.u = b
          · rw [if_pos h1, get2_modBoth] at he
            by_cases h2 : r.u = r.v ∧ r.v = r.u
            · rw [if_pos h2] at he
              have hne : r.u ≠ r.v := by
                intro heq
                cases hx : g.edges.get2 r.u r.v with
                | none => rw [hx] at he; cases he
                | some e' => exact (h.wf.edge _ _ _ hx).2.2.1 heq
              exact absurd h2.1 hne
            · rw [if_neg h2] at he
              cases hx : g.edges.get2 r.v r.u with
              | none => rw [hx] at he; cases he
              | some e' =>
                rw [hx] at he
                simp only [Option.map_some, Option.some.injEq] at he
                refine ⟨e', by rw [← h1.1, ← h1.2]; exact hx, ?_, Or.inr ?_⟩
                · rw [← he, hm]; rfl
                · rw [← he, hm, ← h1.1, ← h1.2, hsym]; rfl
          · rw [if_neg h1, get2_modBoth] at he
            by_cases h2 : r.u = a ∧ r.v = b
            · rw [if_pos h2] at he
              cases hx : g.edges.get2 r.u r.v with
              | none => rw [hx] at he; cases he
              | some e' =>
                rw [hx] at he
                simp only [Option.map_some, Option.some.injEq] at he
                refine ⟨e', by rw [← h2.1, ← h2.2]; exact hx, ?_, Or.inr ?_⟩
                · rw [← he, hm]; rfl
                · rw [← he, hm, ← h2.1, ← h2.2]; rfl
            · rw [if_neg h2] at he
              exact ⟨e, he, rfl, Or.inl rfl⟩
        have hret : ∀ a b, (addH r.v r.u r (addH r.u r.v r (modBoth (modBoth g r.u r.v (setMeta r.data)) r.v r.u
            (setMeta r.data)))).retrieveEdgeHistory a b .removeEdgeUndirected =
              g.retrieveEdgeHistory a b .removeEdgeUndirected := by
          intro a b
          simp only [retrieve_addH, retrieve_modBoth, hr, reduceCtorEq, and_false, if_false]
        have hwf : WF0 (addH r.v r.u r (addH r.u r.v r (modBoth (modBoth g r.u r.v (setMeta r.data)) r.v r.u
            (setMeta r.data)))) := by
          refine WF0.addH (WF0.addH ?_ _ _ _) _ _ _
          exact (h.wf.modBoth (fun e => by unfold setMeta; split <;> exact ⟨rfl, rfl⟩)).modBoth
            (fun e => by unfold setMeta; split <;> exact ⟨rfl, rfl⟩)
        refine ⟨hwf, by simp only [nodes_addH, nodes_modBoth]; exact h.nodes, ?_, ?_, ?_, ?_, ?_, ?_⟩
        · intro a b; rw [hlive, hlive]; exact h.sym a b
        · intro a b e he
          obtain ⟨e', he', ht, _⟩ := hget a b e he
          rw [ht]; exact h.typ a b e' he'
        · intro a b e he
          obtain ⟨e', he', _, hm' | hm'⟩ := hget a b e he
          · rw [hm']; exact h.corr a b e' he'
          · exact Or.inr hm'
        · intro a b; rw [hlive]; exact h.le a b
        · intro a b; rw [hlive, hret]; exact h.same a b
        · intro a b; rw [hlive, hret, hret]; exact h.cert a b
      · exact h
    · exact h
  · rw [applyOne_removeUndirected h.wf hr]
    split
    · rename_i hl
      rw [Bool.and_eq_true] at hl
      have hne := h.wf.live_ne hl.1
      have hlive : ∀ a b, (addH r.v r.u r (addH r.u r.v r (markG (markG g r.u r.v) r.v r.u))).live a b =
          (g.live a b && !decide ((r.u = a ∧ r.v = b) ∨ (r.u = b ∧ r.v = a))) := by
        intro a b
        simp only [live_addH, live_mark]
        by_cases h1 : r.u = a ∧ r.v = b
        · simp [h1]
        · by_cases h2 : r.u = b ∧ r.v = a
          · simp [h2]
          · have h3 : ¬ (r.v = a ∧ r.u = b) := fun hh => h2 ⟨hh.2, hh.1⟩
            simp [h1, h2, h3]
      have hget : ∀ a b e, (addH r.v r.u r (addH r.u r.v r (markG (markG g r.u r.v) r.v r.u))).edges.get2 a b = some e →
          ∃ e', g.edges.get2 a b = some e' ∧ e.etype = e'.etype ∧ e.metadata = e'.metadata := by
        intro a b e he
        simp only [edges_addH, get2_modBoth] at he
        by_cases h1 : r.v = a ∧ r.u = b
        · rw [if_pos h1] at he
          have h2 : ¬ (r.u = r.v ∧ r.v = r.u) := fun hh => hne hh.1
          rw [if_neg h2, h1.1, h1.2] at he
          cases hx : g.edges.get2 a b with
          | none => rw [hx] at he; cases he
          | some e' =>
            rw [hx] at he
            simp only [Option.map_some, Option.some.injEq] at he
            exact ⟨e', rfl, by rw [← he], by rw [← he]⟩
        · rw [if_neg h1] at he
          by_cases h2 : r.u = a ∧ r.v = b
          · rw [if_pos h2, h2.1, h2.2] at he
            cases hx : g.edges.get2 a b with
            | none => rw [hx] at he; cases he
            | some e' =>
              rw [hx] at he
              simp only [Option.map_some, Option.some.injEq] at he
              exact ⟨e', rfl, by rw [← he], by rw [← he]⟩
          · rw [if_neg h2] at he
            exact ⟨e, he, rfl, rfl⟩
      have hret : ∀ a b, (addH r.v r.u r (addH r.u r.v r (markG (markG g r.u r.v) r.v r.u))).retrieveEdgeHistory a b
          .removeEdgeUndirected = if (r.u = a ∧ r.v = b) ∨ (r.u = b ∧ r.v = a) then
            g.retrieveEdgeHistory a b .removeEdgeUndirected ++ [r] else g.retrieveEdgeHistory a b .removeEdgeUndirected := by
        intro a b
        simp only [retrieve_addH, retrieve_modBoth, hr, and_true]
        by_cases h1 : r.u = a ∧ r.v = b
        · have h2 : ¬ (r.v = a ∧ r.u = b) := fun hh => hne (h1.1.trans hh.1.symm)
          simp [h1]
          intro h3 h4
          exact absurd h4 (fun h4 => h2 ⟨by rw [h1.2]; exact h3, by rw [h1.1]; exact h4⟩)
        · by_cases h2 : r.u = b ∧ r.v = a
          · have h3 : r.v = a ∧ r.u = b := ⟨h2.2, h2.1⟩
            rw [if_pos h3, if_neg h1, if_pos (Or.inr h2)]
          · have h3 : ¬ (r.v = a ∧ r.u = b) := fun hh => h2 ⟨hh.2, hh.1⟩
            rw [if_neg h3, if_neg h1, if_neg (by tauto)]
      refine ⟨((h.wf.markG _ _).markG _ _ |>.addH _ _ _).addH _ _ _,
        by simp only [nodes_addH, nodes_modBoth]; exact h.nodes, ?_, ?_, ?_, ?_, ?_, ?_⟩
      · intro a b hab
        rw [hlive, Bool.and_eq_true] at hab ⊢
        refine ⟨h.sym a b hab.1, ?_⟩
        have := hab.2
        simp only [Bool.not_eq_true', decide_eq_false_iff_not] at this ⊢
        tauto
      · intro a b e he
        obtain ⟨e', he', ht, _⟩ := hget a b e he
        rw [ht]; exact h.typ a b e' he'
      · intro a b e he
        obtain ⟨e', he', _, hm'⟩ := hget a b e he
        rw [hm']; exact h.corr a b e' he'
      · intro a b hab
        rw [hlive, Bool.and_eq_true] at hab
        exact h.le a b hab.1
      · intro a b hab
        rw [hlive, Bool.and_eq_true] at hab
        have h2 := hab.2
        simp only [Bool.not_eq_true', decide_eq_false_iff_not] at h2
        rw [hret, if_neg h2]
        exact h.same a b hab.1
      · intro a b h0 hab
        rw [hlive] at hab
        by_cases hc' : (r.u = a ∧ r.v = b) ∨ (r.u = b ∧ r.v = a)
        · have hlab : g.live a b = true ∧ g.live b a = true := by
            rcases hc' with ⟨h1, h2⟩ | ⟨h1, h2⟩
            · rw [← h1, ← h2]; exact hl
            · rw [← h1, ← h2]; exact hl.symm
          refine ⟨r, ⟨hr, hc', ?_⟩, ?_, ?_⟩
          · obtain ⟨_, d, S, h1, h2, h3, h0', h4, h5, h6⟩ := hc
            refine ⟨d, S, h1, h2, h3, h0', ?_, ?_, h6⟩
            · rcases hc' with ⟨h7, h8⟩ | ⟨h7, h8⟩
              · rw [← h7]; exact h4
              · rw [← h8]; exact h5
            · rcases hc' with ⟨h7, h8⟩ | ⟨h7, h8⟩
              · rw [← h8]; exact h5
              · rw [← h7]; exact h4
          · rw [hret, if_pos hc', h.same a b hlab.1]
          · rw [hret, if_pos hc'.symm, h.same b a hlab.2]
        · have hd : g.live a b = false := by simpa [hc'] using hab
          obtain ⟨r', h1, h2, h3⟩ := h.cert a b h0 hd
          refine ⟨r', h1, ?_, ?_⟩
          · rw [hret, if_neg hc']; exact h2
          · rw [hret, if_neg (fun hh => hc' hh.symm)]; exact h3
    · exact h

theorem inv_kept {T : Tests ι ρ} (hsym : ∀ a b, T.pearson a b = T.pearson b a) (g0 : CGraph ι ρ) :
    Kept (Inv T g0) (Proposal T g0.nodes) := ⟨fun _ _ hg hr => hg.apply hsym hr, fun _ hg => hg.purge⟩

end CI
end Verif
