import Verif.Orient.Lemmas2

/-!
# Helper lemmas: the loop of propagation rules
-/

namespace Verif
open Graph CI
variable {ι ρ : Type} [DecidableEq ι]

namespace Orient

/-- a step that is a propagation rule -/
def IsRule (s : Step ι (Info ι ρ)) : Prop := ∃ name p M, s = ruleStep name p ∧ Rule M p

/-- run on `g` the step proposes no orientation -/
def Quiet (s : Step ι (Info ι ρ)) (g : CGraph ι ρ) : Prop :=
  ∃ pr, s.execute true g = (.ok (pr, pr), g) ∧ ∀ r ∈ pr, r.action = .doNothing

theorem runInner_rules (ss : List (Step ι (Info ι ρ))) (hs : ∀ s ∈ ss, IsRule s) {g : CGraph ι ρ} (hwf : WF0 g)
    (hrows : Rows g) : ∃ rs ts g', runInner false ss g = (.ok (rs, ts), g') ∧ WF0 g' ∧ Rows g' ∧ g'.nodes = g.nodes ∧
      rs.length = ss.length ∧
      ((ts = [] ∧ g' = g ∧ ∀ s ∈ ss, Quiet s g) ∨ (ts ≠ [] ∧ g'.liveCount < g.liveCount)) := by
  induction ss generalizing g with
  | nil => exact ⟨[], [], g, rfl, hwf, hrows, rfl, rfl, Or.inl ⟨rfl, rfl, by simp⟩⟩
  | cons s ss ih =>
    obtain ⟨name, p, M, rfl, hp⟩ := hs s List.mem_cons_self
    obtain ⟨t, pr, g1, h1, h2, h3⟩ := rule_execute hp name hwf hrows
    obtain ⟨rs, ts, g2, e1, e2, e3, e4, e5, e6⟩ := ih (fun s hs' => hs s (List.mem_cons_of_mem _ hs')) h3.wf (h3.rows hrows)
    refine ⟨⟨(ruleStep name p).name, t, pr⟩ :: rs, t ++ ts, g2, ?_, e2, e3, e4.trans h3.nodes, by simp [e5], ?_⟩
    · rw [runInner_cons, h1]
      simp only
      rw [e1]
    · rcases h3.progress with ⟨p1, p2, p3⟩ | ⟨p1, p2⟩
      · subst p1 p2
        rcases e6 with ⟨q1, q2, q3⟩ | ⟨q1, q2⟩
        · refine Or.inl ⟨by simpa using q1, q2, ?_⟩
          intro s' hs'
          rcases List.mem_cons.1 hs' with rfl | hs'
          · exact ⟨pr, h2, p3⟩
          · exact q3 s' hs'
        · exact Or.inr ⟨by simpa using q1, q2⟩
      · refine Or.inr ⟨by simp [p1], ?_⟩
        rcases e6 with ⟨_, q2, _⟩ | ⟨_, q2⟩
        · rw [q2]; exact p2
        · omega

theorem loopGo_rules (ss : List (Step ι (Info ι ρ))) (hs : ∀ s ∈ ss, IsRule s) (k : Nat) :
    ∀ (fuel n : Nat) (taken : Option (List (CResult ι ρ))) (g : CGraph ι ρ), WF0 g → Rows g → g.liveCount ≤ k →
      k + 2 ≤ fuel → (n = 0 ∨ ∃ ts, taken = some ts ∧ ts ≠ []) →
      ∃ recs g', loopGo ss exitOnNoActions fuel n taken g = (.ok recs, g') ∧ WF0 g' ∧ Rows g' ∧ g'.nodes = g.nodes ∧
        recs.length ≤ ss.length * (k + 1) ∧ ∀ s ∈ ss, Quiet s g' := by
  induction k with
  | zero =>
    intro fuel n taken g hwf hrows hk hf hn
    obtain ⟨fuel, rfl⟩ : ∃ f, fuel = f + 2 := ⟨fuel - 2, by omega⟩
    have hexit : exitOnNoActions g taken n = .ok false := by
      unfold exitOnNoActions
      rcases hn with rfl | ⟨ts, rfl, hts⟩
      · simp
      · cases ts <;> simp_all
    obtain ⟨rs, ts, g1, e1, e2, e3, e4, e5, e6⟩ := runInner_rules ss hs hwf hrows
    rcases e6 with ⟨rfl, rfl, q⟩ | ⟨_, q⟩
    · refine ⟨rs, g1, ?_, e2, e3, rfl, by simp [e5], q⟩
      unfold loopGo
      rw [hexit]
      simp only
      rw [e1]
      simp only
      unfold loopGo exitOnNoActions
      simp
    · omega
  | succ k ih =>
    intro fuel n taken g hwf hrows hk hf hn
    obtain ⟨fuel, rfl⟩ : ∃ f, fuel = f + 2 := ⟨fuel - 2, by omega⟩
    have hexit : exitOnNoActions g taken n = .ok false := by
      unfold exitOnNoActions
      rcases hn with rfl | ⟨ts, rfl, hts⟩
      · simp
      · cases ts <;> simp_all
    obtain ⟨rs, ts, g1, e1, e2, e3, e4, e5, e6⟩ := runInner_rules ss hs hwf hrows
    rcases e6 with ⟨rfl, rfl, q⟩ | ⟨q1, q2⟩
    · refine ⟨rs, g1, ?_, e2, e3, rfl, ?_, q⟩
      · unfold loopGo
        rw [hexit]
        simp only
        rw [e1]
        simp only
        unfold loopGo exitOnNoActions
        simp
      · rw [e5]
        exact Nat.le_mul_of_pos_right _ (by omega)
    · obtain ⟨recs, g2, f1, f2, f3, f4, f5, f6⟩ := ih (fuel + 1) (n + 1) (some ts) g1 e2 e3 (by omega) (by omega)
        (Or.inr ⟨ts, rfl, q1⟩)
      refine ⟨rs ++ recs, g2, ?_, f2, f3, f4.trans e4, ?_, f6⟩
      · unfold loopGo
        rw [hexit]
        simp only
        rw [e1]
        simp only
        rw [f1]
      · rw [List.length_append, e5]
        have : ss.length * (k + 1 + 1) = ss.length * (k + 1) + ss.length := Nat.mul_succ _ _
        omega

theorem rules_are {o : Ords ι ρ} (ho : o.Valid) : ∀ s ∈ rules o, IsRule s := by
  intro s hs
  simp only [rules, List.mem_cons, List.not_mem_nil, or_false] at hs
  rcases hs with rfl | rfl | rfl | rfl
  · exact ⟨_, _, _, rfl, nonCollider_rule ho.1⟩
  · exact ⟨_, _, _, rfl, triple_rule⟩
  · exact ⟨_, _, _, rfl, quad_rule ho.2.1⟩
  · exact ⟨_, _, _, rfl, furtherQuad_rule ho.2.2⟩

/-- a graph on which the four rules propose nothing -/
structure Closed (g : CGraph ι ρ) : Prop where
  r1 : ∀ a b, Meek1 g a b → ∃ c d, Meek1 g c d ∧ ∃ n, g.Arrow n d ∧ ¬ g.Adj n c
  r2 : ∀ a b, ¬ Meek2 g a b
  r3 : ∀ a b, ¬ Meek3 g a b
  r4 : ∀ a b, ¬ Meek4 g a b

theorem quiet_closed {o : Ords ι ρ} (ho : o.Valid) {g : CGraph ι ρ} (hwf : WF0 g) (hrows : Rows g)
    (hq : ∀ s ∈ rules o, Quiet s g) : Closed g := by
  have gen : ∀ {M : CGraph ι ρ → ι → ι → Prop} {p name}, Rule M p → Quiet (ruleStep name p) g →
      ∃ t g' pr, RuleRun M p g g' t pr ∧ ∀ r ∈ pr, r.action = .doNothing := by
    intro M p name hp hq
    obtain ⟨t, pr, g1, h1, h2, h3⟩ := rule_execute hp name hwf hrows
    obtain ⟨pr', h4, h5⟩ := hq
    rw [h2] at h4
    simp only [Prod.mk.injEq, Except.ok.injEq] at h4
    obtain ⟨⟨_, rfl⟩, _⟩ := h4
    exact ⟨t, g1, pr, h3, h5⟩
  refine ⟨?_, ?_, ?_, ?_⟩
  · intro a b hm
    obtain ⟨t, g', pr, h1, h2⟩ := gen (nonCollider_rule ho.1) (hq _ (by simp [rules, nonColliderStep]; left; rfl))
    obtain ⟨r, hr, h3, h4⟩ := nonCollider_answers ho.1 hwf hrows h1 hm
    refine ⟨r.v, r.u, h3, ?_⟩
    by_contra hc
    have := h4.2 hc
    rw [h2 r hr] at this
    cases this
  · intro a b hm
    obtain ⟨t, g', pr, h1, h2⟩ := gen triple_rule (hq tripleStep (by simp [rules]))
    obtain ⟨r, hr, h3, _⟩ := triple_complete hwf h1 hm
    rw [h2 r hr] at h3; cases h3
  · intro a b hm
    obtain ⟨t, g', pr, h1, h2⟩ := gen (quad_rule ho.2.1) (hq (quadStep o.r3) (by simp [rules]))
    obtain ⟨r, hr, h3, _⟩ := quad_complete ho.2.1 hwf h1 hm
    rw [h2 r hr] at h3; cases h3
  · intro a b hm
    obtain ⟨t, g', pr, h1, h2⟩ := gen (furtherQuad_rule ho.2.2) (hq (furtherQuadStep o.r4) (by simp [rules]))
    obtain ⟨r, hr, h3, _⟩ := furtherQuad_complete ho.2.2 hwf h1 hm
    rw [h2 r hr] at h3; cases h3

end Orient
end Verif
