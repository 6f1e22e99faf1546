import Verif.PC.Lemmas4
import Verif.CI.Props
import Verif.Orient.Props

/-!
# Helper lemmas: the whole run of `PC` and `PCClassic`
-/

namespace Verif

theorem PyM.forEach_append_ok {σ β : Type} {xs ys : List β} {body : β → PyM σ Unit} {s s' : σ}
    (h : PyM.forEach xs body s = (.ok (), s')) : PyM.forEach (xs ++ ys) body s = PyM.forEach ys body s' := by
  induction xs generalizing s with
  | nil => cases h; rfl
  | cons x xs ih =>
    rw [List.cons_append]
    rw [PyM.forEach_cons, PyM.bind_run] at h ⊢
    generalize body x s = y at h ⊢
    obtain ⟨e | _, s1⟩ := y
    · cases h
    · exact ih h

namespace PC
open Graph CI Orient
variable {ι ρ : Type} [DecidableEq ι] {T : Tests ι ρ} {E : ι → ι → Prop}

theorem sound_purge {g : CGraph ι ρ} (h : Sound E g) : Sound E (purgeG g) := by
  have hw := h.wf.purgeG
  refine ⟨hw, ?_, ?_, ?_⟩
  · intro a b
    rw [← h.adj, adj_iff hw, adj_iff h.wf, live_purgeG, live_purgeG]
  · intro a b hab
    refine h.arrow a b ?_
    rw [arrow_iff hw, live_purgeG, live_purgeG] at hab
    exact (arrow_iff h.wf).2 hab
  · intro a b c hv
    have := (arrow_iff h.wf).1 (h.coll a b c hv)
    rw [arrow_iff hw, live_purgeG, live_purgeG]
    exact this

theorem ready {gn g : CGraph ι ρ} (hgn : Reachable gn) (hfresh : ∀ a b, gn.retrieveEdgeHistory a b .removeEdgeUndirected = [])
    (hO : Oracle T E gn.nodes) (hs : SkelDone T E (startGraph gn) g) (hp : ∃ g1, g = purgeG g1) (hr : Rows g) :
    Ready E g := by
  obtain ⟨_, h1, h2⟩ := start_facts gn hgn T
  have hn : (startGraph gn).nodes = gn.nodes := h1
  have hO' : Oracle T E (startGraph gn).nodes := h1 ▸ hO
  obtain ⟨hi, hl⟩ := hs
  have hadj : ∀ a b, g.live a b = true ↔ Dag.Adj E a b := by
    intro a b
    constructor
    · intro h
      have := hi.wf.live_nodes h
      rw [hi.nodes] at this
      exact (hl a b this.1 this.2 (hi.wf.live_ne h)).1 h
    · exact fun h => adj_live hO' h2 hi h
  have hist : ∀ a b, (startGraph gn).retrieveEdgeHistory a b .removeEdgeUndirected = [] := by
    intro a b
    rw [createAll_history hgn]; exact hfresh a b
  refine ⟨hi.wf, ?_, hr, ?_, hadj, ?_⟩
  · intro a b hb
    have : g.live a b = true := by
      obtain ⟨e, he⟩ := (mem_keys2_iff a b).1 hb
      obtain ⟨g1, rfl⟩ := hp
      rw [get2_purgeG] at he
      cases hx : g1.edges.get2 a b with
      | none => rw [hx] at he; cases he
      | some e' =>
        rw [hx] at he
        simp only at he
        split at he
        · cases he
        · rename_i hd
          rw [live_purgeG]
          exact live_iff.2 ⟨e', hx, by simpa using hd⟩
    exact ⟨this, hi.sym _ _ this⟩
  · intro x hx' y hy' hxy r hr'
    rw [hi.nodes] at hx' hy'
    cases hx : g.live x y with
    | true => rw [hi.same x y hx, hist] at hr'; cases hr'
    | false =>
      obtain ⟨r', ⟨_, _, d, S, hd, _⟩, he, _⟩ := hi.cert x y (h2 x hx' y hy' hxy) hx
      rw [he, hist] at hr'
      simp only [List.nil_append, List.mem_singleton] at hr'
      subst hr'
      rw [hd]; rfl
  · intro x y hx hy hxy hna
    rw [hi.nodes] at hx hy
    have hd : g.live x y = false := by
      cases h : g.live x y with
      | false => rfl
      | true => exact absurd ((hadj x y).1 h) hna
    obtain ⟨r, hc, he, _⟩ := hi.cert x y (h2 x hx y hy hxy) hd
    obtain ⟨d, S, h3, h4, _, _, h5⟩ := certificate_dsep hO' hc hx hy hxy
    refine ⟨S, h5, ?_⟩
    intro z
    unfold SepRecorded
    rw [he, hist]
    simp only [List.nil_append, List.mem_singleton, exists_eq_left]
    constructor
    · rintro ⟨d', S', e1, e2, hz⟩
      rw [h3] at e1
      cases e1
      rw [h4] at e2
      cases e2
      exact hz
    · exact fun hz => ⟨d, S, h3, h4, hz⟩

theorem liveCount_le (g : CGraph ι ρ) : g.liveCount ≤ g.nodes.length * g.nodes.length := by
  unfold liveCount
  refine Nat.le_trans (List.length_filter_le _ _) ?_
  rw [List.length_product]

/-- what the orientation phase ends with -/
structure Oriented (E : ι → ι → Prop) (N : List ι) (fuel : Nat) (x : Except PyErr Unit × GModel ι (Info ι ρ)) : Prop where
  sound : Sound E x.2.graph
  equiv : ∀ E', Dag.Acyclic E' → Dag.Equivalent E E' → Sound E' x.2.graph
  nodes : x.2.graph.nodes = N
  ends : N.length * N.length + 2 ≤ fuel → x.1 = .ok ()
  closed : x.1 = .ok () → ∀ a b, ¬ Meek1 x.2.graph a b ∧ ¬ Meek2 x.2.graph a b ∧ ¬ Meek3 x.2.graph a b ∧
    ¬ Meek4 x.2.graph a b

theorem Sound.closed (hac : Dag.Acyclic E) {g : CGraph ι ρ} (h : Sound E g) (hc : Closed g) (a b : ι) :
    ¬ Meek1 g a b ∧ ¬ Meek2 g a b ∧ ¬ Meek3 g a b ∧ ¬ Meek4 g a b := by
  refine ⟨?_, hc.r2 a b, hc.r3 a b, hc.r4 a b⟩
  intro hm
  obtain ⟨c, d, hcd, n, hn1, hn2⟩ := hc.r1 a b hm
  have : Meek1 g d c := ⟨hcd.1.symm, n, hn1, fun hh => hn1.not_line (hh ▸ hcd.1.symm).symm, hn2⟩
  exact hac.asymm (h.meek1 hcd) (h.meek1 this)

theorem orientation_run (hac : Dag.Acyclic E) {g : CGraph ι ρ} (hr : Ready E g) {oc : Ord ι ρ} (hoc : oc.Valid)
    {o : Ords ι ρ} (ho : o.Valid) (fuel : Nat) (h : List (HistRec ι (Info ι ρ))) :
    Oriented E g.nodes fuel (runPipeline fuel (orientationPhase oc o) ⟨g, h⟩) := by
  obtain ⟨t, pr, g1, e1, s1, r1, n1, v1⟩ := collider_sound hac hr hoc
  have s1' := sound_purge s1
  have r1' : Rows (purgeG g1) := by
    have := rows_purge s1.wf r1
    rwa [purge_run s1.wf] at this
  unfold orientationPhase runPipeline
  rw [PyM.forEach_cons_ok (run_plain_ok fuel (s := colliderStep .keepFirst oc) (m := ⟨g, h⟩) e1 s1.wf)]
  unfold ruleLoop
  rw [PyM.forEach_cons, PyM.bind_run, PStep.run_loop, PyM.bind_run, onGraph_run]
  obtain ⟨s2, n2⟩ := loopGo_sound hac (rules o) (rules_sound hac ho) (exit := exitOnNoActions) fuel 0 none (purgeG g1) s1' r1'
  have s3 : ∀ E', Dag.Acyclic E' → Dag.Equivalent E E' →
      Sound E' (loopGo (rules o) exitOnNoActions fuel 0 none (purgeG g1)).2 := by
    intro E' hac' he
    refine (loopGo_sound hac' (rules o) (rules_sound hac' ho) fuel 0 none (purgeG g1) (sound_purge ⟨s1.wf, ?_, ?_, ?_⟩) r1').1
    · intro a b; rw [s1.adj, he.1]
    · intro a b hab
      obtain ⟨c, hv⟩ := v1 a b hab
      exact ((he.2 a b c).1 hv).1.1
    · intro a b c hv; exact s1.coll a b c ((he.2 a b c).2 hv)
  have hN : (purgeG g1).nodes = g.nodes := by rw [nodes_purgeG, n1]
  have hends : g.nodes.length * g.nodes.length + 2 ≤ fuel →
      ∃ recs, (loopGo (rules o) exitOnNoActions fuel 0 none (purgeG g1)).1 = .ok recs := by
    intro hf
    have hle := liveCount_le (purgeG g1)
    rw [hN] at hle
    obtain ⟨recs, g', h1, _⟩ := loopGo_rules (rules o) (rules_are ho) (purgeG g1).liveCount fuel 0 none (purgeG g1) s1'.wf r1'
      (Nat.le_refl _) (by omega) (Or.inl rfl)
    exact ⟨recs, by rw [h1]⟩
  have hcl : ∀ recs g2, loopGo (rules o) exitOnNoActions fuel 0 none (purgeG g1) = (.ok recs, g2) → Closed g2 := by
    intro recs g2 he
    have h2 := loopGo_mono he ((purgeG g1).liveCount + 2)
    obtain ⟨recs', g', h1, w', r', _, _, q'⟩ := loopGo_rules (rules o) (rules_are ho) (purgeG g1).liveCount
      (fuel + ((purgeG g1).liveCount + 2)) 0 none (purgeG g1) s1'.wf r1' (Nat.le_refl _) (by omega) (Or.inl rfl)
    rw [h2] at h1
    simp only [Prod.mk.injEq] at h1
    rw [h1.2]
    exact quiet_closed ho w' r' q'
  rw [hN] at n2
  generalize loopGo (rules o) exitOnNoActions fuel 0 none (purgeG g1) = x at s2 s3 n2 hends hcl ⊢
  obtain ⟨e | recs, g2⟩ := x
  · refine ⟨s2, s3, n2, ?_, ?_⟩
    · intro hf
      obtain ⟨recs, hh⟩ := hends hf
      cases hh
    · intro hh; cases hh
  · exact ⟨s2, s3, n2, fun _ => rfl, fun _ => s2.closed hac (hcl recs g2 rfl)⟩

theorem skeleton_rows {gn : CGraph ι ρ} (hgn : Reachable gn) (fuel : Nat) (ps : List (PStep ι (Info ι ρ)))
    (hps : ∀ p ∈ ps, ∀ s ∈ p.steps, ∃ t : CITest ι, s = t.step T) (h : List (HistRec ι (Info ι ρ))) :
    Rows (graphAfter fuel ps ⟨startGraph gn, h⟩) :=
  C34_rows_in_algorithms gn hgn fuel ps (fun p hp s hs => by
    obtain ⟨t, e⟩ := hps p hp s hs
    exact Or.inl ⟨T, t, e⟩) h

theorem pcSkeleton_tests (T : Tests ι ρ) (ord : NbOrd ι) : ∀ p ∈ pcSkeleton T ord, ∀ s ∈ p.steps, ∃ t : CITest ι, s = t.step T := by
  intro p hp s hs
  simp only [pcSkeleton, List.mem_cons, List.not_mem_nil, or_false] at hp
  rcases hp with rfl | rfl | rfl | rfl <;> simp only [PStep.steps, List.mem_singleton] at hs <;> subst hs
  · exact ⟨.pearson, rfl⟩
  · exact ⟨.correlation, rfl⟩
  · exact ⟨.partialCorrelation, rfl⟩
  · exact ⟨.matrix _, rfl⟩

theorem classicSkeleton_tests (T : Tests ι ρ) (ord : NbOrd ι) :
    ∀ p ∈ classicSkeleton T ord, ∀ s ∈ p.steps, ∃ t : CITest ι, s = t.step T := by
  intro p hp s hs
  simp only [classicSkeleton, List.mem_cons, List.not_mem_nil, or_false] at hp
  rcases hp with rfl | rfl | rfl <;> simp only [PStep.steps, List.mem_singleton] at hs <;> subst hs
  · exact ⟨.pearson, rfl⟩
  · exact ⟨.correlation, rfl⟩
  · exact ⟨.matrix _, rfl⟩

/-- the skeleton phase of either algorithm -/
theorem skeleton_run {gn : CGraph ι ρ} (hgn : Reachable gn) (hO : Oracle T E gn.nodes) {ord : NbOrd ι}
    (ho : NbOrd.Valid ord) {sk : List (PStep ι (Info ι ρ))} (hsk : sk = pcSkeleton T ord ∨ sk = classicSkeleton T ord)
    (fuel : Nat) (h : List (HistRec ι (Info ι ρ))) : ∃ g h', runPipeline fuel sk ⟨startGraph gn, h⟩ = (.ok (), ⟨g, h'⟩) ∧
      SkelDone T E (startGraph gn) g ∧ (∃ g1, g = purgeG g1) ∧ Rows g := by
  have key : ∃ g h', runPipeline fuel sk ⟨startGraph gn, h⟩ = (.ok (), ⟨g, h'⟩) ∧
      SkelDone T E (startGraph gn) g ∧ (∃ g1, g = purgeG g1) := by
    rcases hsk with rfl | rfl
    · obtain ⟨g, h', h1, h2, h3⟩ := pc_skeleton hgn hO ho fuel h []
      rw [List.append_nil] at h1
      exact ⟨g, h', h1, h2, h3⟩
    · obtain ⟨g, h', h1, h2, h3⟩ := classic_skeleton hgn hO ho fuel h []
      rw [List.append_nil] at h1
      exact ⟨g, h', h1, h2, h3⟩
  obtain ⟨g, h', h1, h2, h3⟩ := key
  refine ⟨g, h', h1, h2, h3, ?_⟩
  have := skeleton_rows (T := T) hgn fuel sk (by
    rcases hsk with rfl | rfl
    · exact pcSkeleton_tests T ord
    · exact classicSkeleton_tests T ord) h
  unfold graphAfter at this
  rwa [h1] at this

/-- the whole run -/
theorem whole_run {gn : CGraph ι ρ} (hgn : Reachable gn) (hfresh : ∀ a b, gn.retrieveEdgeHistory a b .removeEdgeUndirected = [])
    (hO : Oracle T E gn.nodes) {ord : NbOrd ι} (ho : NbOrd.Valid ord) {sk : List (PStep ι (Info ι ρ))}
    (hsk : sk = pcSkeleton T ord ∨ sk = classicSkeleton T ord) {oc : Ord ι ρ} (hoc : oc.Valid) {o : Ords ι ρ} (ho' : o.Valid)
    (fuel : Nat) (h : List (HistRec ι (Info ι ρ))) :
    Oriented E gn.nodes fuel (runPipeline fuel (sk ++ orientationPhase oc o) ⟨startGraph gn, h⟩) := by
  obtain ⟨g, h', h1, h2, h3, h4⟩ := skeleton_run hgn hO ho hsk fuel h
  have hn : g.nodes = gn.nodes := by
    rw [h2.1.nodes]; exact (start_facts gn hgn T).2.1
  unfold runPipeline at h1 ⊢
  rw [PyM.forEach_append_ok h1, ← hn]
  exact orientation_run hO.acyclic (ready hgn hfresh hO h2 h3 h4) hoc ho' fuel h'

end PC
end Verif
