import Verif.Orient.Lemmas
import Mathlib.Data.List.ProdSigma

/-!
# Helper lemmas: running a propagation rule and the loop
-/

namespace Verif
open Graph CI
variable {ι ρ δ : Type} [DecidableEq ι]

namespace Graph

theorem liveCount_lt {g g' : Graph ι δ} (hwf : WF0 g) (hwf' : WF0 g') (hn : g'.nodes = g.nodes)
    (hle : ∀ a b, g'.live a b = true → g.live a b = true) {u v : ι} (h1 : g.live u v = true)
    (h2 : g'.live u v = false) : g'.liveCount < g.liveCount := by
  unfold liveCount
  rw [hn]
  have hm : (u, v) ∈ g.nodes ×ˢ g.nodes := List.pair_mem_product.2 (hwf.live_nodes h1)
  simp only [directedEdgeExists_eq hwf, directedEdgeExists_eq hwf']
  generalize g.nodes ×ˢ g.nodes = l at hm
  have key : ∀ l : List (ι × ι), (l.filter (fun p => g'.live p.1 p.2)).length ≤ (l.filter (fun p => g.live p.1 p.2)).length := by
    intro l
    induction l with
    | nil => simp
    | cons p l ih =>
      simp only [List.filter_cons]
      cases hx : g'.live p.1 p.2 with
      | true => rw [hle _ _ hx]; simpa using ih
      | false => cases g.live p.1 p.2 <;> simp <;> omega
  induction l with
  | nil => cases hm
  | cons p l ih =>
    rcases List.mem_cons.1 hm with rfl | hm
    · simp only [List.filter_cons, h1, h2, if_true, Bool.false_eq_true, if_false, List.length_cons]
      have := key l
      omega
    · have := ih hm
      simp only [List.filter_cons]
      cases hx : g'.live p.1 p.2 with
      | true => rw [hle _ _ hx]; simpa using this
      | false => cases g.live p.1 p.2 <;> simp <;> omega

/-- a batch of notes and orientations of existing edges changes the graph iff it contains an orientation -/
theorem takeItems_orient_taken {g g' : Graph ι δ} (hwf : WF0 g) (rs t : List (TestResult ι δ))
    (hr : ∀ r ∈ rs, r.action = .doNothing ∨ (r.action = .removeEdgeDirected ∧ g.live r.u r.v = true))
    (h : takeItems false rs g = (.ok t, g')) :
    (t = [] ∧ g' = g ∧ ∀ r ∈ rs, r.action = .doNothing) ∨
      (t ≠ [] ∧ ∃ r ∈ rs, r.action = .removeEdgeDirected ∧ g.live r.u r.v = true) := by
  induction rs generalizing t with
  | nil =>
    have hh : ((.ok [], g) : Except PyErr (List (TestResult ι δ)) × Graph ι δ) = (.ok t, g') := h
    cases hh
    exact Or.inl ⟨rfl, rfl, by simp⟩
  | cons r rs ih =>
    rw [takeItems_cons] at h
    rcases hr r List.mem_cons_self with ha | ⟨ha, hl⟩
    · rw [applyOne_doNothing ha] at h
      simp only at h
      generalize hx : takeItems false rs g = x at h
      obtain ⟨e | t1, g1⟩ := x
      · cases h
      · simp only [Bool.false_eq_true, if_false, Prod.mk.injEq, Except.ok.injEq] at h
        obtain ⟨rfl, rfl⟩ := h
        rcases ih t1 (fun r hr' => hr r (List.mem_cons_of_mem _ hr')) hx with ⟨h1, h2, h3⟩ | ⟨h1, r', h2, h3⟩
        · refine Or.inl ⟨h1, h2, ?_⟩
          intro r' hr'
          rcases List.mem_cons.1 hr' with rfl | hr'
          · exact ha
          · exact h3 r' hr'
        · exact Or.inr ⟨h1, r', List.mem_cons_of_mem _ h2, h3⟩
    · refine Or.inr ⟨?_, r, List.mem_cons_self, ha, hl⟩
      rw [applyOne_removeDirected hwf ha] at h
      simp only [hl, Bool.true_or, if_true] at h
      generalize takeItems false rs _ = x at h
      obtain ⟨e | t1, g1⟩ := x
      · cases h
      · simp only [Prod.mk.injEq, Except.ok.injEq] at h
        rw [← h.1]; simp

theorem rows_keys {g g' : Graph ι δ} (hk : g'.edges.keys = g.edges.keys) (hn : g'.nodes = g.nodes) (h : Rows g) :
    Rows g' := by
  intro x hx y hy hxy
  rw [Dict.has_eq_of_keys_eq hk]
  exact h x (hn ▸ hx) y (hn ▸ hy) hxy

end Graph

namespace Orient

/-- a propagation rule that never raises and only proposes orientations of lines for which `M` holds -/
structure Rule (M : CGraph ι ρ → ι → ι → Prop) (p : List ι → CGraph ι ρ → Except PyErr (Option (List (CResult ι ρ)))) :
    Prop where
  spec : ∀ g, WF0 g → Rows g → ∀ x y, x ∈ g.nodes → y ∈ g.nodes → x ≠ y →
    ∃ a, p [x, y] g = .ok a ∧ ∀ r ∈ a.getD [], Answer M g r
  line : ∀ g a b, M g a b → g.Line a b

/-- what one run of a rule does -/
structure RuleRun (M : CGraph ι ρ → ι → ι → Prop) (p : List ι → CGraph ι ρ → Except PyErr (Option (List (CResult ι ρ))))
    (g g' : CGraph ι ρ) (t pr : List (CResult ι ρ)) : Prop where
  wf : WF0 g'
  rows : Rows g → Rows g'
  nodes : g'.nodes = g.nodes
  keys2 : ∀ a, g'.edges.keys2 a = g.edges.keys2 a
  answer : ∀ r ∈ pr, Answer M g r
  live : ∀ a b, g'.live a b = true ↔ g.live a b = true ∧ ∀ r ∈ pr, r.action = .removeEdgeDirected → ¬ (r.u = a ∧ r.v = b)
  progress : (t = [] ∧ g' = g ∧ ∀ r ∈ pr, r.action = .doNothing) ∨ (t ≠ [] ∧ g'.liveCount < g.liveCount)
  asked : ∀ x y, x ∈ g.nodes → y ∈ g.nodes → x ≠ y → ∃ c a, (c = [x, y] ∨ c = [y, x]) ∧ p c g = .ok a ∧
    ∀ r ∈ a.getD [], r ∈ pr
  from_ : ∀ r ∈ pr, ∃ x y a, x ∈ g.nodes ∧ y ∈ g.nodes ∧ x ≠ y ∧ p [x, y] g = .ok a ∧ r ∈ a.getD []

theorem rule_execute_local {M : CGraph ι ρ → ι → ι → Prop}
    {p : List ι → CGraph ι ρ → Except PyErr (Option (List (CResult ι ρ)))} (name : String)
    {g : CGraph ι ρ} (hwf : WF0 g)
    (hspec : ∀ x y, x ∈ g.nodes → y ∈ g.nodes → x ≠ y → ∃ a, p [x, y] g = .ok a ∧ ∀ r ∈ a.getD [], Answer M g r)
    (hline : ∀ g a b, M g a b → g.Line a b) : ∃ t pr g', (ruleStep name p).execute false g = (.ok (t, pr), g') ∧
      (ruleStep name p).execute true g = (.ok (pr, pr), g) ∧ RuleRun M p g g' t pr := by
  obtain ⟨cs, hgen, hcs, hcov⟩ := allGen_pairs g hwf.nodup
  have hf : ∀ c ∈ cs, ∃ x y a, c = [x, y] ∧ x ≠ y ∧ x ∈ g.nodes ∧ y ∈ g.nodes ∧ p c g = .ok a ∧
      ((p c g).toOption).join = a ∧ ∀ r ∈ a.getD [], Answer M g r := by
    intro c hc
    obtain ⟨x, y, rfl, hxy, hx, hy⟩ := hcs c hc
    obtain ⟨a, h1, h2⟩ := hspec x y hx hy hxy
    exact ⟨x, y, a, rfl, hxy, hx, hy, h1, by rw [h1]; rfl, h2⟩
  have hb : ∀ dry, (ruleStep name p).execute dry g =
      takeAction dry (cs.map (fun c => ((p c g).toOption).join)) g := by
    intro dry
    refine Step.execute_batch rfl rfl cs hgen _ ?_ dry
    intro c hc u
    obtain ⟨x, y, a, _, _, _, _, h1, h2, _⟩ := hf c hc
    show p c g = _
    rw [h2]; exact h1
  have hans : ∀ r ∈ flatten (cs.map (fun c => ((p c g).toOption).join)), ∃ x y a, x ∈ g.nodes ∧ y ∈ g.nodes ∧ x ≠ y ∧
      p [x, y] g = .ok a ∧ r ∈ a.getD [] ∧ Answer M g r := by
    intro r hr
    obtain ⟨o, ho, hr⟩ := List.mem_flatMap.1 hr
    obtain ⟨c, hc, rfl⟩ := List.mem_map.1 ho
    obtain ⟨x, y, a, rfl, hxy, hx, hy, h1, h2, h3⟩ := hf c hc
    rw [h2] at hr
    exact ⟨x, y, a, hx, hy, hxy, h1, hr, h3 r hr⟩
  have hany : ∀ r ∈ flatten (cs.map (fun c => ((p c g).toOption).join)), Answer M g r := by
    intro r hr
    obtain ⟨_, _, _, _, _, _, _, _, h⟩ := hans r hr
    exact h
  have hasked : ∀ x y, x ∈ g.nodes → y ∈ g.nodes → x ≠ y → ∃ c a, (c = [x, y] ∨ c = [y, x]) ∧ p c g = .ok a ∧
      ∀ r ∈ a.getD [], r ∈ flatten (cs.map (fun c => ((p c g).toOption).join)) := by
    intro x y hx hy hxy
    have : ∃ c ∈ cs, c = [x, y] ∨ c = [y, x] := by
      rcases hcov x hx y hy hxy with h | h
      · exact ⟨_, h, Or.inl rfl⟩
      · exact ⟨_, h, Or.inr rfl⟩
    obtain ⟨c, hc, hc'⟩ := this
    obtain ⟨_, _, a, _, _, _, _, h1, h2, _⟩ := hf c hc
    refine ⟨c, a, hc', h1, ?_⟩
    intro r hr
    refine List.mem_flatMap.2 ⟨a, List.mem_map.2 ⟨c, hc, h2⟩, hr⟩
  generalize hrs : flatten (cs.map (fun c => ((p c g).toOption).join)) = rs at *
  have hact : ∀ r ∈ rs, r.action = .removeEdgeDirected ∨ r.action = .doNothing := by
    intro r hr
    rcases hany r hr with h | h
    · exact Or.inr h
    · exact Or.inl h.1
  have hnr : ∀ r ∈ rs, r.action.isRestore = false := by
    intro r hr
    rcases hact r hr with h | h <;> rw [h] <;> rfl
  obtain ⟨t, g', ht⟩ := takeItems_removals_ok hwf rs (fun r hr => Or.inr (hact r hr))
  have hex : ∀ dry, (ruleStep name p).execute dry g = match takeItems dry rs g with
      | (.ok t, g') => (.ok (t, rs), g')
      | (.error e, g') => (.error e, g') := by
    intro dry; rw [hb, takeAction_flat, hrs]
    generalize takeItems dry rs g = x
    obtain ⟨e | t, g'⟩ := x <;> rfl
  have hw' := takeItems_wf hwf rs
  have hk := takeItems_keys hwf rs hnr
  have hl := takeItems_removeDirected_live hwf rs hact
  have hle := fun a b => takeItems_live_le hwf rs hnr (a := a) (b := b)
  rw [ht] at hw' hk hl hle
  refine ⟨t, rs, g', by rw [hex, ht], by rw [hex, takeItems_dry], hw', rows_keys hk.1 hk.2.2, hk.2.2, hk.2.1, hany,
    hl, ?_, hasked, ?_⟩
  · rcases takeItems_orient_taken hwf rs t (fun r hr => by
      rcases hany r hr with h | ⟨h, hm⟩
      · exact Or.inl h
      · exact Or.inr ⟨h, ((line_iff hwf).1 (hline g _ _ hm)).2⟩) ht with h | ⟨h1, r, h2, h3, h4⟩
    · exact Or.inl h
    · refine Or.inr ⟨h1, liveCount_lt hwf hw' hk.2.2 hle h4 ?_⟩
      cases hx : g'.live r.u r.v with
      | false => rfl
      | true => exact absurd ⟨rfl, rfl⟩ (((hl _ _).1 hx).2 r h2 h3)
  · intro r hr
    obtain ⟨x, y, a, h1, h2, h3, h4, h5, _⟩ := hans r hr
    exact ⟨x, y, a, h1, h2, h3, h4, h5⟩

theorem rule_execute {M : CGraph ι ρ → ι → ι → Prop}
    {p : List ι → CGraph ι ρ → Except PyErr (Option (List (CResult ι ρ)))} (hp : Rule M p) (name : String)
    {g : CGraph ι ρ} (hwf : WF0 g) (hrows : Rows g) : ∃ t pr g', (ruleStep name p).execute false g = (.ok (t, pr), g') ∧
      (ruleStep name p).execute true g = (.ok (pr, pr), g) ∧ RuleRun M p g g' t pr :=
  rule_execute_local name hwf (hp.spec g hwf hrows) hp.line

/-! ### the four rules -/

theorem nonCollider_rule {o : Ord ι ρ} (ho : o.Valid) : Rule (ι := ι) (ρ := ρ) Meek1 (nonColliderProcess o) := by
  refine ⟨?_, fun _ _ _ h => h.1⟩
  intro g hwf hrows x y hx hy hxy
  obtain ⟨a, h1, h2, _⟩ := nonCollider_spec hwf hrows ho hx hy hxy
  refine ⟨a, h1, fun r hr => ?_⟩
  obtain ⟨h3, h4, _⟩ := h2 r hr
  rcases h3 with h3 | h3
  · exact Or.inl h3
  · exact Or.inr ⟨h3, h4⟩

theorem triple_rule : Rule (ι := ι) (ρ := ρ) Meek2 tripleProcess := by
  refine ⟨?_, fun _ _ _ h => h.1⟩
  intro g hwf _ x y hx hy _
  obtain ⟨rs, h1, h2, _⟩ := triple_spec hwf hx hy
  exact ⟨_, h1, fun r hr => Or.inr (h2 r hr)⟩

theorem quad_rule {o : Ord ι ρ} (ho : o.Valid) : Rule (ι := ι) (ρ := ρ) Meek3 (quadProcess o) := by
  refine ⟨?_, fun _ _ _ h => h.1⟩
  intro g hwf _ y w hy hw hyw
  obtain ⟨rs, h1, h2⟩ := quad_spec hwf ho hy hw
  refine ⟨_, h1, fun r hr => ?_⟩
  obtain ⟨a, b, rfl, h3, h4, h5, h6, h7, h8⟩ := (h2 r).1 hr
  exact Or.inr ⟨rfl, h8, y, w, hyw, h3, h6, h7, h4, h5⟩

theorem Prem4.meek {g : CGraph ι ρ} {x w y z : ι} (h : Prem4 g x w y z) : Meek4 g x z :=
  ⟨h.2.1, w, y, by rintro rfl; exact h.2.2.2.2.1.asymm h.2.2.2.2.2, h.1, h.2.2.1, h.2.2.2.1, h.2.2.2.2.1, h.2.2.2.2.2⟩

theorem furtherQuad_rule {o : Ord ι ρ} (ho : o.Valid) : Rule (ι := ι) (ρ := ρ) Meek4 (furtherQuadProcess o) := by
  refine ⟨?_, fun _ _ _ h => h.1⟩
  intro g hwf _ x w hx hw _
  obtain ⟨rs, h1, h2⟩ := furtherQuad_spec hwf ho hx hw
  refine ⟨_, h1, fun r hr => ?_⟩
  obtain ⟨y, z, ⟨rfl, h⟩ | ⟨rfl, h⟩⟩ := (h2 r).1 hr
  · exact Or.inr ⟨rfl, h.meek⟩
  · exact Or.inr ⟨rfl, h.meek⟩

/-! ### completeness of rules 2 to 4 -/

theorem triple_complete {g g' : CGraph ι ρ} {t pr : List (CResult ι ρ)} (hwf : WF0 g)
    (h : RuleRun Meek2 tripleProcess g g' t pr) {a b : ι} (hm : Meek2 g a b) :
    ∃ r ∈ pr, r.action = .removeEdgeDirected ∧ r.u = b ∧ r.v = a := by
  have hn := hwf.adj_nodes hm.1.adj
  obtain ⟨c, o, hc, ho, hr⟩ := h.asked a b hn.1 hn.2 (hwf.adj_ne hm.1.adj)
  rcases hc with rfl | rfl
  · obtain ⟨rs, h1, _, h2, _⟩ := triple_spec hwf hn.1 hn.2
    rw [h1] at ho; cases ho
    exact ⟨_, hr _ (h2 hm), rfl, rfl, rfl⟩
  · obtain ⟨rs, h1, _, _, h2⟩ := triple_spec hwf hn.2 hn.1
    rw [h1] at ho; cases ho
    exact ⟨_, hr _ (h2 hm), rfl, rfl, rfl⟩

theorem quad_complete {g g' : CGraph ι ρ} {t pr : List (CResult ι ρ)} {o : Ord ι ρ} (ho : o.Valid) (hwf : WF0 g)
    (h : RuleRun Meek3 (quadProcess o) g g' t pr) {a b : ι} (hm : Meek3 g a b) :
    ∃ r ∈ pr, r.action = .removeEdgeDirected ∧ r.u = b ∧ r.v = a := by
  obtain ⟨hl, y, w, hyw, hna, h1, h2, h3, h4⟩ := hm
  have hy := (hwf.adj_nodes h3.adj).1
  have hw := (hwf.adj_nodes h4.adj).1
  obtain ⟨c, x, hc, hx, hr⟩ := h.asked y w hy hw hyw
  rcases hc with rfl | rfl
  · obtain ⟨rs, e1, e2⟩ := quad_spec hwf ho hy hw
    rw [e1] at hx; cases hx
    exact ⟨cut b a, hr _ ((e2 _).2 ⟨a, b, rfl, hna, h3, h4, h1, h2, hl⟩), rfl, rfl, rfl⟩
  · obtain ⟨rs, e1, e2⟩ := quad_spec hwf ho hw hy
    rw [e1] at hx; cases hx
    exact ⟨cut b a, hr _ ((e2 _).2 ⟨a, b, rfl, fun hh => hna hh.symm, h4, h3, h2, h1, hl⟩), rfl, rfl, rfl⟩

theorem furtherQuad_complete {g g' : CGraph ι ρ} {t pr : List (CResult ι ρ)} {o : Ord ι ρ} (ho : o.Valid) (hwf : WF0 g)
    (h : RuleRun Meek4 (furtherQuadProcess o) g g' t pr) {a b : ι} (hm : Meek4 g a b) :
    ∃ r ∈ pr, r.action = .removeEdgeDirected ∧ r.u = b ∧ r.v = a := by
  obtain ⟨hl, w, y, hyb, hna, h1, h2, h3, h4⟩ := hm
  have hn := hwf.adj_nodes h1.adj
  have hp : Prem4 g a w y b := ⟨hna, hl, h1, h2, h3, h4⟩
  obtain ⟨c, x, hc, hx, hr⟩ := h.asked a w hn.1 hn.2 (hwf.adj_ne h1.adj)
  rcases hc with rfl | rfl
  · obtain ⟨rs, e1, e2⟩ := furtherQuad_spec hwf ho hn.1 hn.2
    rw [e1] at hx; cases hx
    exact ⟨cut b a, hr _ ((e2 _).2 ⟨y, b, Or.inl ⟨rfl, hp⟩⟩), rfl, rfl, rfl⟩
  · obtain ⟨rs, e1, e2⟩ := furtherQuad_spec hwf ho hn.2 hn.1
    rw [e1] at hx; cases hx
    exact ⟨cut b a, hr _ ((e2 _).2 ⟨y, b, Or.inr ⟨rfl, hp⟩⟩), rfl, rfl, rfl⟩

/-- rule 1 answers something for every line it applies to -/
theorem nonCollider_answers {g g' : CGraph ι ρ} {t pr : List (CResult ι ρ)} {o : Ord ι ρ} (ho : o.Valid) (hwf : WF0 g)
    (hrows : Rows g) (h : RuleRun Meek1 (nonColliderProcess o) g g' t pr) {a b : ι} (hm : Meek1 g a b) :
    ∃ r ∈ pr, Meek1 g r.v r.u ∧ (r.action = .removeEdgeDirected ↔ ¬ ∃ n, g.Arrow n r.u ∧ ¬ g.Adj n r.v) := by
  obtain ⟨hl, c, hc, hcb, hna⟩ := hm
  have hcn := (hwf.adj_nodes hc.adj).1
  have hbn := (hwf.adj_nodes hl.adj).2
  obtain ⟨cc, x, hcc, hx, hr⟩ := h.asked c b hcn hbn hcb
  rcases hcc with rfl | rfl
  · obtain ⟨a', h1, h2, h3⟩ := nonCollider_spec hwf hrows ho hcn hbn hcb
    rw [h1] at hx; cases hx
    obtain ⟨r, rfl⟩ := h3 ⟨hna, a, Or.inl ⟨hc, hl⟩⟩
    exact ⟨r, hr r (by simp), (h2 r (by simp)).2⟩
  · obtain ⟨a', h1, h2, h3⟩ := nonCollider_spec hwf hrows ho hbn hcn hcb.symm
    rw [h1] at hx; cases hx
    obtain ⟨r, rfl⟩ := h3 ⟨fun hh => hna hh.symm, a, Or.inr ⟨hc, hl⟩⟩
    exact ⟨r, hr r (by simp), (h2 r (by simp)).2⟩

end Orient
end Verif
