import Verif.CI.Lemmas3

/-!
# Helper lemmas: the phase never raises
-/

namespace Verif
open Graph
variable {ι ρ δ : Type} [DecidableEq ι]

/-- every set of elements of a list without duplicates is handed out in list order -/
theorem sublist_perm {l c : List ι} (hl : l.Nodup) (hc : c.Nodup) (hs : ∀ x ∈ c, x ∈ l) :
    ∃ c' : List ι, c'.Sublist l ∧ c'.Perm c := by
  refine ⟨l.filter (fun x => decide (x ∈ c)), List.filter_sublist, ?_⟩
  rw [List.perm_ext_iff_of_nodup (hl.filter _) hc]
  intro x
  simp only [List.mem_filter, decide_eq_true_eq]
  exact ⟨fun h => h.2, fun h => ⟨hs x h, h⟩⟩

omit [DecidableEq ι] in
/-- an unchunked step whose `process` answers every combination with `f` -/
theorem Step.evalSeq_map {s : Step ι δ} {g : Graph ι δ} (cs : List (List ι))
    (f : List ι → Option (List (TestResult ι δ))) (hf : ∀ c ∈ cs, ∀ u, s.process c g u = .ok (f c)) (loc : Results ι δ) :
    s.evalSeq g (cs.map .single) loc = .ok (loc ++ cs.map f) := by
  induction cs generalizing loc with
  | nil => simp [Step.evalSeq]
  | cons c cs ih =>
    simp only [List.map_cons]
    unfold Step.evalSeq Step.evalOne
    simp only
    rw [hf c List.mem_cons_self]
    simp only
    rw [ih (fun c hc => hf c (List.mem_cons_of_mem _ hc))]
    simp

/-- one batch: an unchunked step over a fixed list of combinations -/
theorem Step.execute_batch {s : Step ι δ} {g : Graph ι δ} (h1 : s.chunked = false) (h2 : s.applySync = false)
    (cs : List (List ι)) (hgen : s.gen g = .ok [fun _ => cs.map .single])
    (f : List ι → Option (List (TestResult ι δ))) (hf : ∀ c ∈ cs, ∀ u, s.process c g u = .ok (f c)) (dry : Bool) :
    s.execute dry g = Graph.takeAction dry (cs.map f) g := by
  unfold Step.execute
  rw [hgen]
  simp only [h1, h2, Bool.false_eq_true, if_false, forceOn, List.flatMap_cons, List.flatMap_nil, List.append_nil]
  rw [Step.evalSeq_map cs f hf]
  simp

namespace CI

/-- the pairs handed out by the default generator of the pair steps -/
theorem allGen_pairs (g : Graph ι δ) (hn : g.nodes.Nodup) : ∃ cs : List (List ι), allGen ⟨2, 2⟩ g = .ok [fun _ => cs.map .single] ∧
    (∀ c ∈ cs, ∃ x y, c = [x, y] ∧ x ≠ y ∧ x ∈ g.nodes ∧ y ∈ g.nodes) ∧
    (∀ x ∈ g.nodes, ∀ y ∈ g.nodes, x ≠ y → [x, y] ∈ cs ∨ [y, x] ∈ cs) := by
  obtain ⟨ts, hts⟩ := allGen_total (s := ⟨2, 2⟩) (by decide) g
  obtain ⟨cs, hcs, rfl⟩ := allGen_combos hts
  have hmem := allCombinations_mem hn hcs (by decide)
  refine ⟨cs, hts, ?_, ?_⟩
  · intro c hc
    obtain ⟨h1, h2, h3⟩ := (hmem c).1 hc
    obtain ⟨x, y, rfl, hxy⟩ := isPair_of (h1.nodup hn) (by simp only at h2 h3; omega)
    exact ⟨x, y, rfl, hxy, h1.subset (by simp), h1.subset (by simp)⟩
  · intro x hx y hy hxy
    obtain ⟨c', h1, h2⟩ := sublist_perm hn (c := [x, y]) (by simp [hxy]) (by simp [hx, hy])
    have hl := h2.length_eq
    obtain ⟨a, b, rfl⟩ := List.length_eq_two.1 hl
    have hab : (a = x ∧ b = y) ∨ (a = y ∧ b = x) := by
      have ha : a ∈ [x, y] := h2.subset (by simp)
      have hb : b ∈ [x, y] := h2.subset (by simp)
      have hne : a ≠ b := by have := h1.nodup hn; simp at this; exact this
      simp only [List.mem_cons, List.not_mem_nil, or_false] at ha hb
      rcases ha with rfl | rfl <;> rcases hb with rfl | rfl <;> simp_all
    rcases hab with ⟨rfl, rfl⟩ | ⟨rfl, rfl⟩
    · exact Or.inl ((hmem _).2 ⟨h1, by simp, by simp⟩)
    · exact Or.inr ((hmem _).2 ⟨h1, by simp, by simp⟩)

/-- the first step of the phase: every edge gets its correlation -/
theorem pearson_phase {T : Tests ι ρ} (hsym : ∀ a b, T.pearson a b = T.pearson b a) {g0 g : CGraph ι ρ}
    (h : Inv T g0 g) (hc : Complete g) : ∃ tp g', (pearsonStep T).execute false g = (.ok tp, g') ∧ Inv T g0 g' ∧
      Complete g' ∧ HasCorr g' := by
  obtain ⟨cs, hgen, hcs, hcov⟩ := allGen_pairs g h.wf.nodup
  have hval : ∀ c ∈ cs, ∃ x y m, c = [x, y] ∧ x ≠ y ∧ x ∈ g.nodes ∧ y ∈ g.nodes ∧ g.edgeValue x y = .ok (some m) := by
    intro c hcc
    obtain ⟨x, y, rfl, hxy, hx, hy⟩ := hcs c hcc
    obtain ⟨e, _, he⟩ := edgeValue_live h.wf (hc x hx y hy hxy)
    exact ⟨x, y, _, rfl, hxy, hx, hy, he⟩
  have hf : ∀ c ∈ cs, ∀ u, (pearsonStep T).process c g u = .ok (((pearsonProcess T c g).toOption).join) := by
    intro c hcc u
    obtain ⟨x, y, m, rfl, hxy, hx, hy, he⟩ := hval c hcc
    simp [pearsonStep, pearsonProcess, hx, hy, he, Except.toOption]
  rw [Step.execute_batch rfl rfl cs hgen _ hf]
  have hk := inv_kept hsym g0
  have hrs : ∀ r ∈ flatten (cs.map (fun c => ((pearsonProcess T c g).toOption).join)), Update T r ∧
      r.u ∈ g.nodes ∧ r.v ∈ g.nodes ∧ r.u ≠ r.v := by
    intro r hr
    obtain ⟨o, ho, hr⟩ := List.mem_flatMap.1 hr
    obtain ⟨c, hcc, rfl⟩ := List.mem_map.1 ho
    obtain ⟨x, y, m, rfl, hxy, hx, hy, he⟩ := hval c hcc
    simp [pearsonProcess, hx, hy, he, Except.toOption] at hr
    subst hr
    exact ⟨⟨rfl, m, rfl⟩, hx, hy, hxy⟩
  -- the state while the updates are applied
  let P : CGraph ι ρ → Prop := fun g' => Inv T g0 g' ∧ ∀ a b, g'.live a b = g.live a b
  let Q : CResult ι ρ → Prop := fun r => Update T r ∧ r.u ∈ g.nodes ∧ r.v ∈ g.nodes ∧ r.u ≠ r.v
  have hprop : ∀ r, Update T r → Proposal T g0.nodes r := fun r hr => Or.inr (Or.inl hr)
  have kP : Kept P Q := by
    refine ⟨?_, ?_⟩
    · intro r g' hg' hr
      refine ⟨hk.apply r g' hg'.1 (hprop r hr.1), ?_⟩
      intro a b
      rw [(update_spec hg'.1.wf hg'.1.sym hr.1).1, hg'.2]
    · intro g' hg'
      refine ⟨hk.purge g' hg'.1, ?_⟩
      intro a b
      rw [purge_run hg'.1.wf, live_purgeG, hg'.2]
  have hat : ApplyTotal P Q := fun r g' hg' hr => Inv.applyTotal r g' hg'.1 (hprop r hr.1)
  obtain ⟨t, g', ht⟩ := takeItems_ok hat kP _ hrs (g := g) ⟨h, fun _ _ => rfl⟩
  have hP : P g' := by
    have := kP.takeItems false _ hrs (g := g) ⟨h, fun _ _ => rfl⟩
    rwa [ht] at this
  have hmark := takeItems_each kP Marked
    (fun r g' hg' hr => (update_spec hg'.1.wf hg'.1.sym hr.1).2.2
      (by rw [hg'.2]; exact hc _ hr.2.1 _ hr.2.2.1 hr.2.2.2))
    (by
      intro r r' g' hg' hr' hm
      have hsp := (update_spec hg'.1.wf hg'.1.sym hr'.1).2.1
      constructor
      · intro e he
        obtain ⟨e', he', hh | rfl⟩ := hsp _ _ e he
        · exact hh
        · exact hm.1 _ he'
      · intro e he
        obtain ⟨e', he', hh | rfl⟩ := hsp _ _ e he
        · exact hh
        · exact hm.2 _ he')
    _ hrs (g := g) ⟨h, fun _ _ => rfl⟩ t ht
  refine ⟨(t, flatten (cs.map (fun c => ((pearsonProcess T c g).toOption).join))), g', ?_, hP.1, ?_, ?_⟩
  · rw [takeAction_flat, ht]
  · intro a ha b hb hab
    rw [hP.2]
    rw [hP.1.nodes, ← h.nodes] at ha hb
    exact hc a ha b hb hab
  · intro a b e he
    have hn := hP.1.wf.edge_nodes he
    have hne := (hP.1.wf.edge a b e he).2.2.1
    rw [hP.1.nodes, ← h.nodes] at hn
    have hprop' : ∀ x y, [x, y] ∈ cs → ∃ r ∈ flatten (cs.map (fun c => ((pearsonProcess T c g).toOption).join)),
        r.u = x ∧ r.v = y := by
      intro x y hxy
      obtain ⟨x', y', m, heq, hxy', hx, hy, he⟩ := hval _ hxy
      simp only [List.cons.injEq, and_true] at heq
      obtain ⟨rfl, rfl⟩ := heq
      refine ⟨⟨x, y, .updateEdge, some { m with corr := some (T.pearson x y) }⟩, ?_, rfl, rfl⟩
      refine List.mem_flatMap.2 ⟨_, List.mem_map.2 ⟨_, hxy, rfl⟩, ?_⟩
      simp [pearsonProcess, hx, hy, he, Except.toOption]
    rcases hcov a hn.1 b hn.2 hne with hh | hh
    · obtain ⟨r, hr, rfl, rfl⟩ := hprop' _ _ hh
      exact (hmark r hr).1 e he
    · obtain ⟨r, hr, rfl, rfl⟩ := hprop' _ _ hh
      exact (hmark r hr).2 e he

omit [DecidableEq ι] in
theorem _root_.Verif.Tests.Total.mono {T : Tests ι ρ} {N N' : List ι} (h : T.Total N) (hm : ∀ z, z ∈ N' → z ∈ N) : T.Total N' :=
  ⟨fun x y hx hy => h.t0 x y (hm x hx) (hm y hy), fun x y z hx hy hz => h.t1 x y z (hm x hx) (hm y hy) (hm z hz),
    fun x y S hnd hn => h.tm x y S hnd (fun z hz => hm z (hn z hz)),
    fun x y S h0 hnd hn => h.reg x y S h0 hnd (fun z hz => hm z (hn z hz))⟩

/-- the second step of the phase -/
theorem corr_phase {T : Tests ι ρ} {g0 g : CGraph ι ρ} (hT : T.Total g0.nodes) (hsym : ∀ a b, T.pearson a b = T.pearson b a)
    (h : Inv T g0 g) (hc : Complete g) (hh : HasCorr g) : ∃ tp g', (corrStep T).execute false g = (.ok tp, g') ∧
      Inv T g0 g' := by
  obtain ⟨cs, hgen, hcs, hcov⟩ := allGen_pairs g h.wf.nodup
  have hf : ∀ c ∈ cs, ∀ u, (corrStep T).process c g u = .ok (((corrProcess T c g).toOption).join) := by
    intro c hcc u
    obtain ⟨x, y, rfl, hxy, hx, hy⟩ := hcs c hcc
    obtain ⟨e, he, hv⟩ := edgeValue_live h.wf (hc x hx y hy hxy)
    have hm := hh x y e he
    cases hr : e.metadata.corr with
    | none => exact absurd hr hm
    | some r =>
      obtain ⟨b, hb⟩ := hT.t0 x y (h.nodes ▸ hx) (h.nodes ▸ hy) hxy
      have hp : r = T.pearson x y := by
        rcases h.corr x y e he with h1 | h1
        · exact absurd h1 hm
        · rw [hr] at h1; exact Option.some.inj h1
      rw [← hp] at hb
      simp [corrStep, corrProcess, hx, hy, hv, hr, hb, Except.toOption]
  have hsafe := (corr_safe T g0).execute (inv_kept hsym g0) false h
  suffices hs : ∃ tp g', (corrStep T).execute false g = (.ok tp, g') by
    obtain ⟨tp, g', hs⟩ := hs
    rw [hs] at hsafe
    exact ⟨tp, g', hs, hsafe⟩
  rw [Step.execute_batch rfl rfl cs hgen _ hf]
  refine takeAction_ok Inv.applyTotal (inv_kept hsym g0) _ ?_ h
  intro l hl r hr
  obtain ⟨c, hcc, hl⟩ := List.mem_map.1 hl
  obtain ⟨R, hR⟩ := corr_safe T g0
  have := hf c hcc none
  simp only [hl] at this
  exact hR.process c g none l h (hR.gen g _ h hgen _ List.mem_cons_self g h (.single c)
    (List.mem_map.2 ⟨c, hcc, rfl⟩) c (by simp [Yield.combos])) this r hr

theorem partialLoop_total {T : Tests ι ρ} {g0 g : CGraph ι ρ} (hT : T.Total g0.nodes) (hg : Inv T g0 g) {c : List ι}
    (hc : IsTriple c) (hn : ∀ z ∈ c, z ∈ g0.nodes) (zs : List ι) (hzs : ∀ z ∈ zs, z ∈ c) (acc : List (CResult ι ρ)) (done : List (ι × ι)) :
    ∃ o, partialLoop T g c zs acc done = .ok o := by
  induction zs generalizing acc done with
  | nil => exact ⟨_, rfl⟩
  | cons z zs ih =>
    have hz := hzs z List.mem_cons_self
    have hfilter : ∃ x y, c.filter (fun n => decide (n ≠ z)) = [x, y] ∧ x ∈ c ∧ y ∈ c ∧ x ≠ y ∧ x ≠ z ∧ y ≠ z := by
      obtain ⟨a, b, d, rfl, h1, h2, h3⟩ := hc
      obtain ⟨f1, f2, f3⟩ := filter_triple h1 h2 h3
      simp only [List.mem_cons, List.not_mem_nil, or_false] at hz
      rcases hz with rfl | rfl | rfl
      · exact ⟨_, _, f1, by simp, by simp, h3, h1.symm, h2.symm⟩
      · exact ⟨_, _, f2, by simp, by simp, h2, h1, h3.symm⟩
      · exact ⟨_, _, f3, by simp, by simp, h1, h2, h3⟩
    obtain ⟨x, y, hf, hxc, hyc, hxy, hxz, hyz⟩ := hfilter
    have hlen : c.length - 2 = 1 := by
      obtain ⟨a, b, d, rfl, h1, h2, h3⟩ := hc
      rfl
    have ih' := fun acc done => ih (fun z hz => hzs z (List.mem_cons_of_mem _ hz)) acc done
    unfold partialLoop
    rw [hf]
    simp only
    split
    · exact ih' _ _
    · split
      · rename_i a b d ha hb hd
        obtain ⟨o, ho⟩ := hT.t1 x y z (hn x hxc) (hn y hyc) (hn z hz) hxy hxz hyz
        rw [hlen, corrOf_eq hg ha, corrOf_eq hg hb, corrOf_eq hg hd, ho]
        rcases o with _ | _ | _
        · exact ⟨_, rfl⟩
        · exact ih' _ _
        · exact ih' _ _
      · exact ⟨_, rfl⟩

omit [DecidableEq ι] in
theorem Step.SafeFor.and' {R R' : List ι → Prop} {P : Graph ι δ → Prop} {Q : TestResult ι δ → Prop} {s : Step ι δ}
    (h : s.SafeFor R P Q)
    (h' : ∀ g0 ts, P g0 → s.gen g0 = .ok ts → ∀ t ∈ ts, ∀ g, P g → ∀ y ∈ t g, ∀ c ∈ y.combos, R' c) :
    s.SafeFor (fun c => R c ∧ R' c) P Q :=
  ⟨fun g0 ts h0 hts t ht g hg y hy c hc => ⟨h.gen g0 ts h0 hts t ht g hg y hy c hc, h' g0 ts h0 hts t ht g hg y hy c hc⟩,
    fun c g u rs hg hc => h.process c g u rs hg hc.1⟩

theorem nb_gen_nodes {cfg : NbCfg ι} (hv : cfg.Valid) {T : Tests ι ρ} {g0 : CGraph ι ρ} :
    ∀ g1 ts, Inv T g0 g1 → pairsWithNeighbours cfg g1 = .ok ts → ∀ t ∈ ts, ∀ g, Inv T g0 g → ∀ y ∈ t g, ∀ c ∈ y.combos,
      ∃ a b S, c = a :: b :: S ∧ (∀ z ∈ c, z ∈ g0.nodes) ∧ c.Nodup ∧ (3 ≤ cfg.settings.min → S ≠ []) := by
  intro g1 ts _ hts t ht g hg y hy c hc
  obtain ⟨k, a, b, ⟨hk, hmin⟩, rfl⟩ := pairsWithNeighbours_mem hts ht
  obtain ⟨hl, S, hS, rfl⟩ := (nbBody_mem hg.wf hv hk).1 ⟨y, hy, hc⟩
  obtain ⟨hsub, hlen⟩ := (mem_combinations _ _ _).1 hS
  refine ⟨a, b, S, rfl, ?_, by obtain ⟨_, _, _, e, hnd⟩ := isCombo_of_nbBody hg.wf hv hk hy hc; exact e ▸ hnd, fun h3 h0 => ?_⟩
  swap
  · subst h0
    simp only [List.length_nil] at hlen
    omega
  intro z hz
  rw [← hg.nodes]
  rcases List.mem_cons.1 hz with rfl | hz
  · exact (hg.wf.live_nodes hl).1
  · rcases List.mem_cons.1 hz with rfl | hz
    · exact (hg.wf.live_nodes hl).2
    · exact (hg.wf.live_nodes ((mem_others hg.wf hv k a b z).1 (hsub.subset hz)).1).1

theorem nb_gen_total {cfg : NbCfg ι} (h2 : 2 ≤ cfg.settings.min) (g : Graph ι δ) :
    ∃ ts, pairsWithNeighbours cfg g = .ok ts := by
  unfold pairsWithNeighbours
  cases hb : cfg.settings.bounds g.nodes.length with
  | none => exact ⟨_, rfl⟩
  | some p =>
    obtain ⟨a, b⟩ := p
    have ha := (cfg.settings.bounds_fst _ _ _ hb).1
    simp only
    rw [if_neg (by omega)]
    exact ⟨_, rfl⟩

theorem nb_shape {cfg : NbCfg ι} (h2 : cfg.chunked = true ∨ 3 ≤ cfg.settings.min) {g0 : Graph ι δ}
    {ts : List (Graph ι δ → List (Yield ι))} (h : pairsWithNeighbours cfg g0 = .ok ts)
    {t : Graph ι δ → List (Yield ι)} (ht : t ∈ ts) (g : Graph ι δ) : ∀ y ∈ t g,
      if cfg.chunked then ∃ cs, y = .chunk cs else ∃ c, y = .single c := by
  unfold pairsWithNeighbours at h
  cases hb : cfg.settings.bounds g0.nodes.length with
  | none =>
    rw [hb] at h
    simp only [Except.ok.injEq] at h
    subst h; cases ht
  | some p =>
    obtain ⟨start, stop⟩ := p
    rw [hb] at h
    simp only at h
    have ha := (cfg.settings.bounds_fst _ _ _ hb).1
    by_cases hs : start < 2
    · rw [if_pos hs] at h; cases h
    · rw [if_neg hs] at h
      simp only [Except.ok.injEq] at h
      subst h
      obtain ⟨⟨k, x, y⟩, hp, rfl⟩ := List.mem_map.1 ht
      have hk := (mem_nbPositions g0 start stop k (by omega) x y).1 hp
      intro w hw
      unfold nbBody at hw
      simp only at hw
      split at hw
      · cases hw
      · split at hw
        · rename_i hk2
          rw [List.mem_singleton] at hw
          subst hw
          have : cfg.chunked = true := by
            rcases h2 with h2 | h2
            · exact h2
            · omega
          rw [if_pos this]
          exact ⟨_, rfl⟩
        · by_cases hch : cfg.chunked = true
          · rw [if_pos hch] at hw ⊢
            rw [List.mem_singleton] at hw
            exact ⟨_, hw⟩
          · rw [if_neg hch] at hw ⊢
            obtain ⟨S, _, rfl⟩ := List.mem_map.1 hw
            exact ⟨_, rfl⟩

theorem Inv.live_of_exists {T : Tests ι ρ} {g0 g : CGraph ι ρ} {x y : ι} (hg : Inv T g0 g) (he : g.edgeExists x y = true) :
    g.live x y = true ∧ g.live y x = true := by
  rw [edgeExists_eq hg.wf, Bool.or_eq_true] at he
  rcases he with he | he
  · exact ⟨he, hg.sym _ _ he⟩
  · exact ⟨hg.sym _ _ he, he⟩

/-- the triple test is safe and total on the graphs of the phase -/
theorem partial_parts {T : Tests ι ρ} (g0 : CGraph ι ρ) (hT : T.Total g0.nodes) : ∃ R,
    (partialStep T).SafeFor R (Inv T g0) (Proposal T g0.nodes) ∧ (partialStep T).TotalFor R (Inv T g0) := by
  obtain ⟨R, hR⟩ := partial_safe T g0
  have hR' := Step.SafeFor.and' (R' := fun c => IsTriple c ∧ ∀ z ∈ c, z ∈ g0.nodes) hR (by
    intro g1 ts hg1 hts t ht g _ y hy c hc
    obtain ⟨h1, hm, h2, h3⟩ := allGen_mem hg1.wf.nodup (by decide) hts ht hy hc
    exact ⟨isTriple_of h1 (by simp only at h2 h3; omega), fun z hz => hg1.nodes ▸ hm z hz⟩)
  refine ⟨_, hR', rfl, fun g _ => allGen_total (by decide) g, ?_, ?_⟩
  · intro g1 ts _ hts t ht g _ y hy
    exact allGen_single hts ht hy
  · intro c g u hg hcc
    simp only [partialStep, partialProcess]
    rw [if_pos (by
      rw [List.all_eq_true]
      intro z hz
      simp only [decide_eq_true_eq]
      rw [hg.nodes]
      exact hcc.2.2 z hz)]
    exact partialLoop_total hT hg hcc.2.1 hcc.2.2 c (fun _ hz => hz) [] []

/-- the extended test is safe and total on the graphs of the phase -/
theorem matrix_parts {T : Tests ι ρ} (g0 : CGraph ι ρ) (hT : T.Total g0.nodes) {cfg : NbCfg ι} (hv : cfg.Valid)
    (hz : 2 ≤ cfg.settings.min ∧ (cfg.chunked = true ∨ 3 ≤ cfg.settings.min)) : ∃ R,
    (matrixStep T cfg).SafeFor R (Inv T g0) (Proposal T g0.nodes) ∧ (matrixStep T cfg).TotalFor R (Inv T g0) := by
  obtain ⟨R, hR⟩ := matrix_safe T g0 cfg hv
  have hR' := Step.SafeFor.and' hR (nb_gen_nodes hv)
  refine ⟨_, hR', rfl, fun g _ => nb_gen_total hz.1 g, ?_, ?_⟩
  · intro g1 ts _ hts t ht g _
    exact nb_shape hz.2 hts ht g
  · intro c g u hg hcc
    obtain ⟨_, a, b, S, rfl, hn, hnd, _⟩ := hcc
    have ha : a ∈ g.nodes := hg.nodes ▸ hn a (by simp)
    have hb : b ∈ g.nodes := hg.nodes ▸ hn b (by simp)
    simp only [matrixStep, matrixProcess]
    rw [if_neg (by simp [ha]), if_neg (by simp [hb])]
    by_cases he : g.edgeExists a b = true
    · obtain ⟨h1, h2⟩ := hg.live_of_exists he
      obtain ⟨e1, he1, _⟩ := live_iff.1 h1
      have hmem : b ∈ g.otherNeighbours a := by
        unfold otherNeighbours
        rw [List.mem_filter]
        exact ⟨(mem_keys2_iff a b).2 ⟨_, he1⟩, by rw [directedEdgeExists_eq hg.wf]; exact h2⟩
      rw [if_neg (by simp [he]), if_neg (by simp [get2_isSome_has he1]), if_neg (by simp [hmem])]
      split
      · exact ⟨_, rfl⟩
      · obtain ⟨o, ho⟩ := hT.tm a b S hnd hn
        rw [ho]
        rcases o with _ | o
        · exact ⟨_, rfl⟩
        · exact ⟨_, rfl⟩
    · rw [if_pos (by simpa using he)]
      exact ⟨_, rfl⟩

/-- every conditional test finishes on every graph of the phase -/
theorem conditional_phase {T : Tests ι ρ} {g0 g : CGraph ι ρ} (hT : T.Total g0.nodes) (hsym : ∀ a b, T.pearson a b = T.pearson b a)
    (h : Inv T g0 g) (t : CITest ι) (hv : t.Valid) (hc : t.Conditional) (hz : t.Sized) :
    ∃ tp g', (t.step T).execute false g = (.ok tp, g') ∧ Inv T g0 g' := by
  have hk := inv_kept hsym g0
  have hlive : ∀ {g : CGraph ι ρ} {x y : ι}, Inv T g0 g → g.edgeExists x y = true →
      g.live x y = true ∧ g.live y x = true := fun hg he => hg.live_of_exists he
  cases t with
  | pearson => exact hc.elim
  | correlation => exact hc.elim
  | partialCorrelation =>
    obtain ⟨R, hR, ht⟩ := partial_parts g0 hT
    exact Step.execute_ok Inv.applyTotal hk hR ht h
  | matrix cfg =>
    obtain ⟨R, hR, ht⟩ := matrix_parts g0 hT hv hz
    exact Step.execute_ok Inv.applyTotal hk hR ht h
  | regression cfg =>
    obtain ⟨R, hR⟩ := regression_safe T g0 cfg hv
    have hR' := Step.SafeFor.and' hR (nb_gen_nodes hv)
    refine Step.execute_ok Inv.applyTotal hk hR' ⟨rfl, fun g _ => nb_gen_total (by have : (3 : Int) ≤ cfg.settings.min := hz; omega) g, ?_, ?_⟩ h
    · intro g1 ts _ hts t ht g _
      exact nb_shape (Or.inr hz) hts ht g
    · intro c g u hg hcc
      obtain ⟨_, a, b, S, rfl, hn, hnd, hS0⟩ := hcc
      have ha : a ∈ g.nodes := hg.nodes ▸ hn a (by simp)
      have hb : b ∈ g.nodes := hg.nodes ▸ hn b (by simp)
      simp only [regressionStep, regressionProcess]
      rw [if_neg (by simp [ha]), if_neg (by simp [hb])]
      by_cases he : g.edgeExists a b = true
      · obtain ⟨h1, h2⟩ := hlive hg he
        obtain ⟨e1, he1, _⟩ := live_iff.1 h1
        have hS : S.all (fun z => decide (z ∈ g.nodes)) = true := by
          rw [List.all_eq_true]
          intro z hz
          simp only [decide_eq_true_eq]
          rw [hg.nodes]
          exact hn z (by simp [hz])
        rw [if_neg (by simp [he]), if_neg (by simp [get2_isSome_has he1]), if_neg (by simp [Dict.has2, he1]),
          if_neg (by simp [hS])]
        obtain ⟨o, ho⟩ := hT.reg a b S (hS0 hz) hnd hn
        rw [ho]
        exact ⟨_, rfl⟩
      · rw [if_pos (by simpa using he)]
        exact ⟨_, rfl⟩

/-- running a plain step that finishes -/
theorem run_plain_ok {s : Step ι δ} {m : GModel ι δ} (fuel : Nat) {tp : List (TestResult ι δ) × List (TestResult ι δ)}
    {g' : Graph ι δ} (h : s.execute false m.graph = (.ok tp, g')) (hwf : WF0 g') :
    PStep.run fuel (.plain s) m = (.ok (), ⟨purgeG g', m.history ++ [.plain ⟨s.name, tp.1, tp.2⟩]⟩) := by
  rw [PStep.run_plain, PyM.bind_run, onGraph_run, h]
  obtain ⟨t, p⟩ := tp
  simp only
  rw [PyM.bind_run]
  simp only [appendHistory, PyM.mod_run, onGraph_run]
  rw [purge_run hwf]

end CI
end Verif
