import Verif.PC.Parallel
import Verif.PC.Lemmas5
import Verif.Par.Lemmas2
import Mathlib.Data.Nat.Choose.Basic

/-!
# Helper lemmas: every schedule of `ParallelPC`
-/

namespace Verif
open Graph
variable {ι δ : Type} [DecidableEq ι]

theorem stages_append {fuel : Nat} {xs ys : List (Stage ι δ)} {m : GModel ι δ} {out : Except PyErr Unit × GModel ι δ} :
    Stages.Run fuel (xs ++ ys) m out ↔ (∃ m', Stages.Run fuel xs m (.ok (), m') ∧ Stages.Run fuel ys m' out) ∨
      ∃ e m', Stages.Run fuel xs m (.error e, m') ∧ out = (.error e, m') := by
  induction xs generalizing m with
  | nil =>
    constructor
    · intro h; exact .inl ⟨m, .nil m, h⟩
    · rintro (⟨m', h1, h2⟩ | ⟨e, m', h1, _⟩)
      · cases h1; exact h2
      · cases h1
  | cons x xs ih =>
    constructor
    · intro h
      cases h with
      | cons _ _ _ m1 _ h hs =>
        rcases ih.1 hs with ⟨m', h1, h2⟩ | ⟨e, m', h1, h2⟩
        · exact .inl ⟨m', .cons _ _ _ _ _ h h1, h2⟩
        · exact .inr ⟨e, m', .cons _ _ _ _ _ h h1, h2⟩
      | raised _ _ _ e m1 h => exact .inr ⟨e, m1, .raised _ _ _ _ _ h, rfl⟩
    · rintro (⟨m', h1, h2⟩ | ⟨e, m', h1, rfl⟩)
      · cases h1 with
        | cons _ _ _ m1 _ h hs => exact .cons _ _ _ _ _ h (ih.2 (.inl ⟨m', hs, h2⟩))
      · cases h1 with
        | cons _ _ _ m1 _ h hs => exact .cons _ _ _ _ _ h (ih.2 (.inr ⟨e, m', hs, rfl⟩))
        | raised _ _ _ _ _ h => exact .raised _ _ _ _ _ h

/-- steps that do not use the pool run as before -/
theorem stages_seq {fuel : Nat} {ps : List (PStep ι δ)} {m : GModel ι δ} {out : Except PyErr Unit × GModel ι δ} :
    Stages.Run fuel (ps.map .seq) m out ↔ out = runPipeline fuel ps m := by
  induction ps generalizing m with
  | nil =>
    constructor
    · intro h; cases h; rfl
    · rintro rfl; exact .nil m
  | cons p ps ih =>
    unfold runPipeline
    rw [PyM.forEach_cons, PyM.bind_run]
    constructor
    · intro h
      cases h with
      | cons _ _ _ m1 _ h hs =>
        generalize hx : (Except.ok (), m1) = x at h
        cases h
        rw [← hx]
        exact ih.1 hs
      | raised _ _ _ e m1 h =>
        generalize hx : (Except.error e, m1) = x at h
        cases h
        rw [← hx]
    · intro h
      have hr := Stage.Run.seq (fuel := fuel) p m
      generalize p.run fuel m = x at h hr
      obtain ⟨e | u, m1⟩ := x
      · subst h; exact .raised _ _ _ _ _ hr
      · exact .cons _ _ _ _ _ hr (ih.2 h)

/-- every stage has a run -/
theorem stage_exists (fuel : Nat) (x : Stage ι δ) (m : GModel ι δ) : ∃ out, x.Run fuel m out := by
  cases x with
  | seq p => exact ⟨_, .seq p m⟩
  | par s size =>
    obtain ⟨⟨e | ⟨t, p⟩, g'⟩, h⟩ := Par.exists_run s false size m.graph
    · exact ⟨_, .raised s size m e g' h⟩
    · exact ⟨_, .par s size m t p g' h⟩

theorem stages_exists (fuel : Nat) (xs : List (Stage ι δ)) (m : GModel ι δ) : ∃ out, Stages.Run fuel xs m out := by
  induction xs generalizing m with
  | nil => exact ⟨_, .nil m⟩
  | cons x xs ih =>
    obtain ⟨⟨e | u, m'⟩, h⟩ := stage_exists fuel x m
    · exact ⟨_, .raised _ _ _ _ _ h⟩
    · obtain ⟨out, h'⟩ := ih m'
      exact ⟨out, .cons _ _ _ _ _ h h'⟩

namespace PC
open CI Orient
variable {ρ : Type} {T : Tests ι ρ} {E : ι → ι → Prop}

/-- the shuffles only permute and the dice only drop combinations -/
structure ParChoice.Valid (c : ParChoice ι) : Prop where
  ord1 : NbOrd.Valid c.ord1
  shuf1 : ∀ k x y l, (c.shuf1 k x y l).Perm l
  keep : ∀ i l, (c.keep i l).Sublist l
  ord2 : NbOrd.Valid c.ord2
  shuf2 : ∀ k x y l, (c.shuf2 k x y l).Perm l

omit [DecidableEq ι] in
theorem sampleGen_mem {keep : Nat → List (Yield ι) → List (Yield ι)} (hk : ∀ i l, (keep i l).Sublist l)
    {gen : Graph ι δ → Except PyErr (List (Graph ι δ → List (Yield ι)))} {g : Graph ι δ}
    {ts : List (Graph ι δ → List (Yield ι))} (h : sampleGen keep gen g = .ok ts) : ∃ ts', gen g = .ok ts' ∧
      ∀ t ∈ ts, ∃ t' ∈ ts', ∀ g, ∀ y ∈ t g, y ∈ t' g := by
  unfold sampleGen at h
  cases hg : gen g with
  | error e => rw [hg] at h; cases h
  | ok ts' =>
    rw [hg] at h
    simp only [Except.ok.injEq] at h
    subst h
    refine ⟨ts', rfl, ?_⟩
    intro t ht
    obtain ⟨i, hi, rfl⟩ := List.mem_mapIdx.1 ht
    exact ⟨ts'[i], List.getElem_mem _, fun g y hy => (hk i _).subset hy⟩

theorem sampled_parts (g0 : CGraph ι ρ) (hT : T.Total g0.nodes) {cfg : NbCfg ι} (hv : cfg.Valid) (hz : 3 ≤ cfg.settings.min)
    {keep : Nat → List (Yield ι) → List (Yield ι)} (hk : ∀ i l, (keep i l).Sublist l) : ∃ R,
    (sampledStep T cfg keep).SafeFor R (Inv T g0) (Proposal T g0.nodes) ∧
      (sampledStep T cfg keep).TotalFor R (Inv T g0) := by
  obtain ⟨R, hs, ht⟩ := matrix_parts g0 hT hv ⟨by omega, .inr hz⟩
  refine ⟨R, ⟨?_, hs.process⟩, rfl, ?_, ?_, ht.process⟩
  · intro g1 ts hg1 hts t htt g hg y hy c hc
    obtain ⟨ts', h1, h2⟩ := sampleGen_mem hk (show sampleGen keep (pairsWithNeighbours cfg) g1 = .ok ts from hts)
    obtain ⟨t', ht', h3⟩ := h2 t htt
    exact hs.gen g1 ts' hg1 h1 t' ht' g hg y (h3 g y hy) c hc
  · intro g hg
    obtain ⟨ts, hts⟩ := ht.gen g hg
    refine ⟨ts.mapIdx (fun i t g => keep i (t g)), ?_⟩
    show sampleGen keep (pairsWithNeighbours cfg) g = _
    unfold sampleGen
    rw [show pairsWithNeighbours cfg g = .ok ts from hts]
  · intro g1 ts hg1 hts t htt g hg y hy
    obtain ⟨ts', h1, h2⟩ := sampleGen_mem hk (show sampleGen keep (pairsWithNeighbours cfg) g1 = .ok ts from hts)
    obtain ⟨t', ht', h3⟩ := h2 t htt
    exact ht.shape g1 ts' hg1 h1 t' ht' g hg y (h3 g y hy)

omit [DecidableEq ι] in
theorem shuffled_valid {ord : NbOrd ι} {shuf : Shuf ι} (ho : NbOrd.Valid ord) (hs : ∀ k x y l, (shuf k x y l).Perm l) :
    (shuffled ord shuf).Valid := ⟨ho, hs⟩

/-- a parallel stage of the skeleton phase: whatever the schedule, it does not raise and keeps the invariant -/
theorem par_stage {g0 : CGraph ι ρ} (hsym : ∀ a b, T.pearson a b = T.pearson b a) {s : Step ι (Info ι ρ)} {R : List ι → Prop}
    (hs : s.SafeFor R (Inv T g0) (Proposal T g0.nodes)) (ht : s.TotalFor R (Inv T g0)) (hc : s.chunked = false)
    (hpc : s.OnlyPC) {size : Nat} (hsize : size ≠ 0) {fuel : Nat} {m : GModel ι (Info ι ρ)} (hm : Inv T g0 m.graph)
    {out : Except PyErr Unit × GModel ι (Info ι ρ)} (h : Stage.Run fuel (.par s size) m out) :
    ∃ t p g' h', out = (.ok (), ⟨purgeG g', h'⟩) ∧ Par.Run s false size m.graph (.ok (t, p), g') ∧ Inv T g0 g' ∧
      (Rows m.graph → Rows (purgeG g')) := by
  cases h with
  | raised _ _ _ e g' h =>
    obtain ⟨tp, h'⟩ := Par.run_ok Inv.applyTotal (inv_kept hsym g0) hs ht hc hsize hm h
    cases h'
  | par _ _ _ t p g' h =>
    have hi : Inv T g0 g' := Par.run_kept (inv_kept hsym g0) ⟨R, hs⟩ hm h
    refine ⟨t, p, g', m.history ++ [.plain ⟨s.name, t, p⟩], ?_, h, hi, ?_⟩
    · show (appendHistory _ >>= fun _ => onGraph Graph.purge) _ = _
      rw [PyM.bind_run]
      simp only [appendHistory, PyM.mod_run, onGraph_run]
      rw [purge_run hi.wf]
    · intro hr
      have h1 := Par.run_kept rows_kept (hpc.safe _) (g := m.graph) ⟨hm.wf, hr⟩ h
      have h2 := rows_kept.purge _ h1
      rw [purge_run hi.wf] at h2
      exact h2.2

theorem dead_run (hsym : ∀ a b, T.pearson a b = T.pearson b a) {g0 g g' : CGraph ι ρ} (h : Inv T g0 g) {s : Step ι (Info ι ρ)}
    (hs : s.Safe (Inv T g0) (Proposal T g0.nodes)) {u v : ι} (hd : g.live u v = false) {size : Nat}
    {o : Except PyErr (List (CResult ι ρ) × List (CResult ι ρ))} (hr : Par.Run s false size g (o, g')) :
    g'.live u v = false :=
  (Par.run_kept (dead_kept hsym g0 u v) (hs.weaken (fun _ hg => hg.1)) ⟨h, hd⟩ hr).2

/-- in every schedule the extended test removes a pair that a set of neighbours of its first node separates -/
theorem par_matrix_done {g0 g g' : CGraph ι ρ} (hO : Oracle T E g0.nodes) (hc0 : Complete g0) (h : Inv T g0 g) {cfg : NbCfg ι}
    (hcfg : cfg.Valid) (hch : cfg.chunked = false) (h2 : 3 ≤ cfg.settings.min) (hmax : cfg.settings.max = 0) {size : Nat}
    {tp : List (CResult ι ρ) × List (CResult ι ρ)} (he : Par.Run (matrixStep T cfg) false size g (.ok tp, g')) {u v : ι}
    (hu : u ∈ g0.nodes) (hv : v ∈ g0.nodes) (huv : u ≠ v) {Z : List ι} (hZ : Z.Nodup) (hZu : ∀ z ∈ Z, Dag.Adj E z u)
    (hvZ : v ∉ Z) (hmin : cfg.settings.min ≤ Z.length + 2) (hd : Dag.DSep E u v Z) : g'.live u v = false := by
  have hsafe := matrix_safe T g0 cfg hcfg
  have hZn : ∀ z ∈ Z, z ∈ g0.nodes := by
    intro z hz
    rcases hZu z hz with e | e
    · exact (hO.edges _ _ e).1
    · exact (hO.edges _ _ e).2
  have huZ : u ∉ Z := by
    intro hz
    rcases hZu u hz with e | e <;> exact hO.acyclic.irrefl _ e
  by_cases hl : g.live u v = true
  swap
  · exact dead_run hO.sym h hsafe (by simpa using hl) he
  have hk : Z.length + 2 ≤ g.nodes.length := by
    have : (u :: v :: Z).length ≤ g.nodes.length := by
      refine (List.subperm_of_subset (by simp [huv, huZ, hvZ, hZ]) ?_).length_le
      intro z hz
      rw [h.nodes]
      rcases List.mem_cons.1 hz with rfl | hz
      · exact hu
      rcases List.mem_cons.1 hz with rfl | hz
      · exact hv
      · exact hZn z hz
    simpa using this
  obtain ⟨start, stop, hb, hb1, hb2⟩ := (cfg.settings.bounds_iff g.nodes.length (Z.length + 2)).2
    ⟨hk, by push_cast; exact hmin, Or.inl hmax⟩
  have hst := (cfg.settings.bounds_fst _ _ _ hb).1
  have hgen : (matrixStep T cfg).gen g = .ok ((g.nbPositions start stop).map (fun p => nbBody cfg p.1 p.2.1 p.2.2)) := by
    show pairsWithNeighbours cfg g = _
    unfold pairsWithNeighbours
    rw [hb]
    simp only
    rw [if_neg (by omega)]
  obtain ⟨e0, he0, _⟩ := live_iff.1 hl
  have hpos : (Z.length + 2, u, v) ∈ g.nbPositions start stop :=
    (mem_nbPositions g start stop _ (by omega) u v).2 ⟨hb1, hb2, (mem_keys2_iff u v).2 ⟨_, he0⟩⟩
  obtain ⟨R, hR⟩ := hsafe
  refine Par.run_establishes (inv_kept hO.sym g0) hR h hgen (fun g => g.live u v = false)
    (fun r => r.action = .removeEdgeUndirected ∧ r.u = u ∧ r.v = v) ?_ ?_ (List.mem_map.2 ⟨_, hpos, rfl⟩ :
    nbBody cfg (Z.length + 2) u v ∈ (g.nbPositions start stop).map (fun p => nbBody cfg p.1 p.2.1 p.2.2)) ?_ he
  · intro r g hg hr hd
    exact dead_stays hO.sym hg hr hd
  · rintro r g hg hr ⟨ha, rfl, rfl⟩
    rw [applyOne_removeUndirected hg.wf ha]
    split
    · simp only [live_addH, live_mark]
      simp
    · rename_i hl
      cases hx : g.live r.u r.v with
      | false => rfl
      | true => simp [hx, hg.sym _ _ hx] at hl
  · intro g1 i1
    by_cases hl1 : g1.live u v = true
    swap
    · exact .inl (by simpa using hl1)
    right
    obtain ⟨S, hSsub, hSperm⟩ := sublist_perm (l := others cfg (Z.length + 2) u v g1) (c := Z) (nodup_others hcfg _ _ _) hZ (by
      intro z hz
      have hlz := adj_live hO hc0 i1 (hZu z hz)
      obtain ⟨e, he, _⟩ := live_iff.1 (i1.sym _ _ hlz)
      exact (mem_others i1.wf hcfg _ _ _ _).2 ⟨hlz, (mem_keys2_iff u z).2 ⟨_, he⟩, fun e => hvZ (e ▸ hz)⟩)
    have hSin : S ∈ combinations (others cfg (Z.length + 2) u v g1) (Z.length + 2 - 2) :=
      (mem_combinations _ _ _).2 ⟨hSsub, by rw [hSperm.length_eq]; omega⟩
    obtain ⟨w, hw, hwc⟩ := (nbBody_mem i1.wf hcfg (k := Z.length + 2) (by omega) (x := u) (y := v) (c := u :: v :: S)).2
      ⟨hl1, S, hSin, rfl⟩
    have hsh := nb_shape (.inr h2) (show pairsWithNeighbours cfg g = .ok _ from hgen)
      (List.mem_map.2 ⟨_, hpos, rfl⟩ : nbBody cfg (Z.length + 2) u v ∈ _) g1 w hw
    rw [hch] at hsh
    simp only [Bool.false_eq_true, if_false] at hsh
    obtain ⟨c, rfl⟩ := hsh
    simp only [Yield.combos, List.mem_singleton] at hwc
    subst hwc
    refine ⟨_, hw, ?_⟩
    intro g2 i2
    by_cases hl2 : g2.live u v = true
    swap
    · exact .inl (by simpa using hl2)
    right
    have hnd : (u :: v :: S).Nodup := by
      have := hSperm.mem_iff (a := u)
      have := hSperm.mem_iff (a := v)
      simp_all [hSperm.nodup_iff]
    have hres := matrix_removes hO i2 cfg hl2 hnd
      (fun z hz => adj_live hO hc0 i2 (hZu z (hSperm.mem_iff.1 hz))) (hd.congr (fun z => (hSperm.mem_iff (a := z)).symm))
    exact ⟨_, _, hres, List.mem_singleton_self _, rfl, rfl, rfl⟩

/-- a graph as the phase leaves it after every step: consistent, purged and with all rows -/
structure Between (T : Tests ι ρ) (g0 g : CGraph ι ρ) : Prop where
  inv : Inv T g0 g
  purged : ∃ g1, g = purgeG g1
  rows : Rows g

/-- the run of the first two steps -/
theorem par_first {gn : CGraph ι ρ} (hgn : Reachable gn) (hO : Oracle T E gn.nodes) (fuel : Nat)
    (h : List (HistRec ι (Info ι ρ))) {rest : List (Stage ι (Info ι ρ))} {out : Except PyErr Unit × GModel ι (Info ι ρ)}
    (hrun : Stages.Run fuel (.seq (.plain (pearsonStep T)) :: .seq (.plain (corrStep T)) :: rest) ⟨startGraph gn, h⟩ out) :
    ∃ g h', Stages.Run fuel rest ⟨g, h'⟩ out ∧ Between T (startGraph gn) g ∧ HasCorr g ∧
      ∀ x y, x ∈ gn.nodes → y ∈ gn.nodes → x ≠ y → (g.live x y = false ↔ Dag.DSep E x y []) := by
  obtain ⟨g, h', e, i, hc, hd⟩ := first_steps hgn hO fuel h []
  have hrows := skeleton_rows (T := T) hgn fuel [.plain (pearsonStep T), .plain (corrStep T)] (by
    intro p hp s hs
    simp only [List.mem_cons, List.not_mem_nil, or_false] at hp
    rcases hp with rfl | rfl <;> simp only [PStep.steps, List.mem_singleton] at hs <;> subst hs
    · exact ⟨.pearson, rfl⟩
    · exact ⟨.correlation, rfl⟩) h
  unfold graphAfter at hrows
  rw [e] at hrows
  have hp : ∃ g1, g = purgeG g1 := by
    obtain ⟨h0, h1, h2⟩ := start_facts gn hgn T
    unfold runPipeline at e
    obtain ⟨tp1, g1, e1, i1, c1, hc1⟩ := pearson_phase hO.sym h0 h2
    rw [PyM.forEach_cons_ok (run_plain_ok fuel (s := pearsonStep T) (m := ⟨startGraph gn, h⟩) e1 i1.wf)] at e
    obtain ⟨tp2, g2, e2, i2⟩ := corr_phase (by rw [h1]; exact hO.total) hO.sym (inv_purgeG i1) (complete_purge c1) (hasCorr_purgeG i1.wf hc1)
    rw [PyM.forEach_cons_ok (run_plain_ok fuel (s := corrStep T) (m := ⟨purgeG g1, _⟩) e2 i2.wf)] at e
    have := congrArg (fun x => x.2.graph) e
    exact ⟨g2, this.symm⟩
  have hsplit : Stages.Run fuel (([.plain (pearsonStep T), .plain (corrStep T)] : List (PStep ι (Info ι ρ))).map .seq ++ rest)
      ⟨startGraph gn, h⟩ out := hrun
  rcases stages_append.1 hsplit with ⟨m', h1, h2⟩ | ⟨er, m', h1, h2⟩
  · have := stages_seq.1 h1
    rw [e] at this
    cases this
    exact ⟨g, h', h2, ⟨i, hp, hrows⟩, hc, hd⟩
  · have := stages_seq.1 h1
    rw [e] at this
    cases this

/-- one parallel stage followed by others -/
theorem par_next {g0 : CGraph ι ρ} (hsym : ∀ a b, T.pearson a b = T.pearson b a) {s : Step ι (Info ι ρ)} {R : List ι → Prop}
    (hs : s.SafeFor R (Inv T g0) (Proposal T g0.nodes)) (ht : s.TotalFor R (Inv T g0)) (hc : s.chunked = false)
    (hpc : s.OnlyPC) {size : Nat} (hsize : size ≠ 0) {fuel : Nat} {m : GModel ι (Info ι ρ)} (hm : Between T g0 m.graph)
    {rest : List (Stage ι (Info ι ρ))} {out : Except PyErr Unit × GModel ι (Info ι ρ)}
    (h : Stages.Run fuel (.par s size :: rest) m out) :
    ∃ t p g' h', Stages.Run fuel rest ⟨purgeG g', h'⟩ out ∧ Par.Run s false size m.graph (.ok (t, p), g') ∧ Inv T g0 g' ∧
      Between T g0 (purgeG g') := by
  cases h with
  | cons _ _ _ m' _ h hr =>
    obtain ⟨t, p, g', h', h1, h2, h3, h4⟩ := par_stage hsym hs ht hc hpc hsize hm.inv h
    cases h1
    exact ⟨t, p, g', h', hr, h2, h3, inv_purgeG h3, ⟨g', rfl⟩, h4 hm.rows⟩
  | raised _ _ _ e m' h =>
    obtain ⟨t, p, g', h', h1, _⟩ := par_stage hsym hs ht hc hpc hsize hm.inv h
    cases h1

theorem sampled_onlyPC (T : Tests ι ρ) (cfg : NbCfg ι) (keep : Nat → List (Yield ι) → List (Yield ι)) :
    (sampledStep T cfg keep).OnlyPC := fun c g u rs h => test_onlyPC T (.matrix cfg) c g u rs h

/-- the sizes are positive -/
def Sizes.Pos (z : Sizes) : Prop := z.triples ≠ 0 ∧ z.sampled ≠ 0 ∧ z.extended ≠ 0

/-- the skeleton phase of `ParallelPC`, taken apart -/
theorem par_skeleton_split {gn : CGraph ι ρ} (hgn : Reachable gn) (hO : Oracle T E gn.nodes) {z : Sizes} (hz : z.Pos)
    {c : ParChoice ι} (hv : c.Valid) {fuel : Nat} {h : List (HistRec ι (Info ι ρ))} {rest : List (Stage ι (Info ι ρ))}
    {out : Except PyErr Unit × GModel ι (Info ι ρ)}
    (hrun : Stages.Run fuel (parallelSkeleton T z c ++ rest) ⟨startGraph gn, h⟩ out) :
    ∃ g1 tp2 g2 tp3 g3 tp4 g4 h', Between T (startGraph gn) g1 ∧ HasCorr g1 ∧
      (∀ x y, x ∈ gn.nodes → y ∈ gn.nodes → x ≠ y → (g1.live x y = false ↔ Dag.DSep E x y [])) ∧
      Par.Run (partialStep T) false z.triples g1 (.ok tp2, g2) ∧ Inv T (startGraph gn) g2 ∧
      Par.Run (sampledStep T (shuffled c.ord1 c.shuf1) c.keep) false z.sampled (purgeG g2) (.ok tp3, g3) ∧
      Inv T (startGraph gn) g3 ∧
      Par.Run (matrixStep T (shuffled c.ord2 c.shuf2)) false z.extended (purgeG g3) (.ok tp4, g4) ∧
      Inv T (startGraph gn) g4 ∧ Between T (startGraph gn) (purgeG g4) ∧ Stages.Run fuel rest ⟨purgeG g4, h'⟩ out := by
  obtain ⟨g1, h1, r1, b1, c1, d1⟩ := par_first hgn hO fuel h (show Stages.Run fuel (.seq (.plain (pearsonStep T)) ::
    .seq (.plain (corrStep T)) :: (.par (partialStep T) z.triples ::
    .par (sampledStep T (shuffled c.ord1 c.shuf1) c.keep) z.sampled ::
    .par (matrixStep T (shuffled c.ord2 c.shuf2)) z.extended :: rest)) _ _ from hrun)
  have hT0 : T.Total (startGraph gn).nodes := by
    rw [show (startGraph gn).nodes = gn.nodes from (start_facts gn hgn T).2.1]; exact hO.total
  obtain ⟨R2, s2, t2⟩ := partial_parts (startGraph gn) hT0
  obtain ⟨ta2, pr2, g2, h2, r2, p2, i2, b2⟩ := par_next hO.sym s2 t2 rfl (test_onlyPC T .partialCorrelation) hz.1 b1 r1
  have v1 := shuffled_valid hv.ord1 hv.shuf1
  have v2 := shuffled_valid hv.ord2 hv.shuf2
  obtain ⟨R3, s3, t3⟩ := sampled_parts (startGraph gn) hT0 v1 (show (3 : Int) ≤ 4 by decide) hv.keep
  obtain ⟨ta3, pr3, g3, h3, r3, p3, i3, b3⟩ := par_next hO.sym s3 t3 rfl (sampled_onlyPC T _ _) hz.2.1 b2 r2
  obtain ⟨R4, s4, t4⟩ := matrix_parts (startGraph gn) hT0 v2 ⟨show (2 : Int) ≤ 4 by decide, .inr (show (3 : Int) ≤ 4 by decide)⟩
  obtain ⟨ta4, pr4, g4, h4, r4, p4, i4, b4⟩ := par_next hO.sym s4 t4 rfl (test_onlyPC T (.matrix _)) hz.2.2 b3 r3
  exact ⟨g1, _, g2, _, g3, _, g4, h4, b1, c1, d1, p2, i2, p3, i3, p4, i4, b4, r4⟩

theorem length_combinations {α : Type} (l : List α) (k : Nat) : (combinations l k).length = l.length.choose k := by
  induction l generalizing k with
  | nil => cases k <;> simp [combinations]
  | cons x xs ih =>
    cases k with
    | zero => simp [combinations]
    | succ k => simp [combinations, ih, Nat.choose_succ_succ]

theorem allCombinations_three {α : Type} (l : List α) : allCombinations ⟨3, 3⟩ l = .ok (combinations l 3) := by
  by_cases hn : l.length < 3
  · have h0 : combinations l 3 = [] := by
      rw [← List.length_eq_zero_iff, length_combinations]
      exact Nat.choose_eq_zero_of_lt hn
    rw [h0]
    unfold allCombinations Settings.bounds
    rw [if_pos (by simp only; omega)]
  · have hb : Settings.bounds ⟨3, 3⟩ l.length = some (3, 4) := by
      unfold Settings.bounds
      rw [if_neg (by simp only; omega)]
      simp only [show (3 : Int) ≠ 0 by decide, if_false, Int.reduceAdd]
      rw [if_neg (by omega : ¬ (4 : Int) > (l.length : Int) + 1)]
      rfl
    unfold allCombinations
    rw [hb]
    simp only
    rw [show pyRange 3 4 = [3] from rfl]
    unfold combosOfSizes combosOfSizes
    simp

/-- if the triples fit into one batch, the triple test is the same in every schedule -/
theorem par_partial_eq {g g' : CGraph ι ρ} {size : Nat} (hsize : size ≠ 0)
    (hfit : g.nodes.length.choose 3 ≤ size)
    {tp : List (CResult ι ρ) × List (CResult ι ρ)} (he : Par.Run (partialStep T) false size g (.ok tp, g')) :
    (partialStep T).execute false g = (.ok tp, g') := by
  have hts : (partialStep T).gen g = .ok [fun _ => (combinations g.nodes 3).map .single] := by
    show allGen ⟨3, 3⟩ g = _
    unfold allGen
    rw [allCombinations_three]
  refine (Par.run_one_batch hsize hts (Par.fits_single hsize ?_) rfl rfl rfl he).symm
  rw [List.length_map, length_combinations]
  exact hfit

/-- In every schedule: if the triples fit into one batch, the skeleton phase of `ParallelPC` ends with the skeleton. -/
theorem par_skeleton_done {gn : CGraph ι ρ} (hgn : Reachable gn) (hO : Oracle T E gn.nodes) {z : Sizes} (hz : z.Pos)
    (hfit : gn.nodes.length.choose 3 ≤ z.triples)
    {c : ParChoice ι} (hv : c.Valid) {fuel : Nat} {h : List (HistRec ι (Info ι ρ))} {rest : List (Stage ι (Info ι ρ))}
    {out : Except PyErr Unit × GModel ι (Info ι ρ)}
    (hrun : Stages.Run fuel (parallelSkeleton T z c ++ rest) ⟨startGraph gn, h⟩ out) :
    ∃ g h', SkelDone T E (startGraph gn) g ∧ Between T (startGraph gn) g ∧ Stages.Run fuel rest ⟨g, h'⟩ out := by
  obtain ⟨g1, tp2, g2, tp3, g3, tp4, g4, h', b1, c1, d1, p2, i2, p3, i3, p4, i4, b4, r4⟩ :=
    par_skeleton_split hgn hO hz hv hrun
  obtain ⟨_, hn', hc0⟩ := start_facts gn hgn T
  have hn : (startGraph gn).nodes = gn.nodes := hn'
  have hO' : Oracle T E (startGraph gn).nodes := hn' ▸ hO
  refine ⟨purgeG g4, h', ⟨b4.inv, ?_⟩, b4, r4⟩
  have e2 := par_partial_eq hz.1 (by rw [b1.inv.nodes, hn]; exact hfit) p2
  have v1 := shuffled_valid hv.ord1 hv.shuf1
  have v2 := shuffled_valid hv.ord2 hv.shuf2
  obtain ⟨R3, s3, _⟩ := sampled_parts (startGraph gn) hO'.total v1 (show (3 : Int) ≤ 4 by decide) hv.keep
  -- what the triple test removed stays removed
  have stays : ∀ u v, g2.live u v = false → g4.live u v = false := by
    intro u v hd
    have h3 := dead_run hO.sym (inv_purgeG i2) ⟨R3, s3⟩ (u := u) (v := v) (by rw [live_purgeG]; exact hd) p3
    exact dead_run hO.sym (inv_purgeG i3) (matrix_safe T _ _ v2) (u := u) (v := v) (by rw [live_purgeG]; exact h3) p4
  intro x y hx hy hxy
  rw [live_purgeG]
  refine ⟨fun hl => ?_, fun ha => adj_live hO' hc0 i4 ha⟩
  by_contra hna
  obtain ⟨Zx, hZx, hmx⟩ := Dag.exists_parents i4.wf.nodup (by rw [i4.nodes]; exact hO'.edges) x
  obtain ⟨Zy, hZy, hmy⟩ := Dag.exists_parents i4.wf.nodup (by rw [i4.nodes]; exact hO'.edges) y
  have key : ∀ u v, u ∈ (startGraph gn).nodes → v ∈ (startGraph gn).nodes → u ≠ v → ¬ Dag.Adj E u v → ∀ Z : List ι, Z.Nodup →
      (∀ z, z ∈ Z ↔ E z u) → Dag.DSep E u v Z → g4.live u v = false := by
    intro u v hu hv' huv hna Z hZ hm hd
    have hvZ : v ∉ Z := fun hz => hna (Or.inr ((hm v).1 hz))
    have huZ : u ∉ Z := fun hz => hO.acyclic.irrefl _ ((hm u).1 hz)
    match Z, hm, hd, hZ, hvZ, huZ with
    | [], hm, hd, _, _, _ =>
      refine stays u v ?_
      have := dead_execute hO.sym b1.inv (partial_safe T _) ((d1 u v (hn ▸ hu) (hn ▸ hv') huv).2 hd)
      rwa [e2] at this
    | [p], hm, hd, _, hvZ, huZ =>
      simp only [List.mem_singleton] at huZ hvZ
      exact stays u v (partial_done hO' b1.inv c1 (by rw [hn]; exact d1) e2 hu hv'
        ((hO'.edges _ _ ((hm p).1 (by simp))).1) huv huZ hvZ hd)
    | a :: b :: Z, hm, hd, hZ, hvZ, _ =>
      exact par_matrix_done hO' hc0 (inv_purgeG i3) v2 rfl (show (3 : Int) ≤ 4 by decide) rfl p4 hu hv' huv hZ
        (fun z hz => Or.inl ((hm z).1 hz)) hvZ (show (4 : Int) ≤ _ by simp only [List.length_cons]; push_cast; omega) hd
  rcases Dag.dsep_of_not_adj hO.acyclic hxy hna hmx hmy with hd | hd
  · rw [key x y hx hy hxy hna Zx hZx hmx hd] at hl; cases hl
  · have := key y x hy hx hxy.symm (fun ha => hna ha.symm) Zy hZy hmy hd.symm
    rw [dead_symm i4 this] at hl
    cases hl

/-- `ParallelPC`, all of it -/
theorem par_whole {gn : CGraph ι ρ} (hgn : Reachable gn) (hfresh : ∀ a b, gn.retrieveEdgeHistory a b .removeEdgeUndirected = [])
    (hO : Oracle T E gn.nodes) {z : Sizes} (hz : z.Pos) (hfit : gn.nodes.length.choose 3 ≤ z.triples)
    {c : ParChoice ι} (hv : c.Valid) {oc : Ord ι ρ} (hoc : oc.Valid) {o : Ords ι ρ} (ho : o.Valid) {fuel : Nat}
    {h : List (HistRec ι (Info ι ρ))} {out : Except PyErr Unit × GModel ι (Info ι ρ)}
    (hrun : Stages.Run fuel (parallelPC T z c oc o) ⟨startGraph gn, h⟩ out) : Oriented E gn.nodes fuel out := by
  obtain ⟨g, h', hs, hb, hr⟩ := par_skeleton_done hgn hO hz hfit hv hrun
  have hn : g.nodes = gn.nodes := by rw [hs.1.nodes]; exact (start_facts gn hgn T).2.1
  rw [stages_seq] at hr
  rw [hr, ← hn]
  exact orientation_run hO.acyclic (ready hgn hfresh hO hs hb.purged hb.rows) hoc ho fuel h'

end PC
end Verif
