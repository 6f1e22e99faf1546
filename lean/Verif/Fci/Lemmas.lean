import Verif.Fci.Model
import Verif.Fci.Spec
import Verif.Orient.Lemmas9
import Verif.PC.Lemmas5

/-!
# Lemmas on the FCI collider rule
-/

namespace Verif.Fci
open Graph CI Orient
variable {ι ρ : Type} [DecidableEq ι]

theorem fciLoop_ok {g : CGraph ι ρ} {x y : ι} (zs : List ι) (hz : ∀ z ∈ zs, z ∈ g.nodes)
    (hd : ∀ r ∈ g.retrieveEdgeHistory x y .removeEdgeUndirected, r.data.isSome = true) :
    ∃ rs, fciLoop g x y (g.retrieveEdgeHistory x y .removeEdgeUndirected) zs = .ok rs ∧
      ∀ r, r ∈ rs ↔ ∃ z ∈ zs, ¬ SepRecorded g x y z ∧ (r = arrowMark x z ∨ r = arrowMark y z) := by
  obtain ⟨seps, hs⟩ := separators_ok _ hd
  have hm := separators_mem _ _ hs
  induction zs with
  | nil => exact ⟨[], rfl, by simp⟩
  | cons z zs ih =>
    obtain ⟨rs, h1, h2⟩ := ih (fun z hz' => hz z (List.mem_cons_of_mem _ hz'))
    unfold fciLoop
    rw [if_neg (by simpa using hz z List.mem_cons_self), hs, h1]
    refine ⟨_, rfl, fun r => ?_⟩
    by_cases hsep : z ∈ seps
    · have h' : SepRecorded g x y z := (hm z).1 hsep
      rw [if_pos hsep, h2]
      simp [h']
    · have h' : ¬ SepRecorded g x y z := fun h => hsep ((hm z).2 h)
      rw [if_neg hsep]
      simp only [List.mem_cons, h2, exists_eq_or_imp, h', not_false_eq_true, true_and, or_assoc]

theorem fci_process {g : CGraph ι ρ} (hwf : WF0 g) (hrows : Rows g) {x y : ι} {o : Ord ι ρ} (ho : o.Valid)
    (hx : x ∈ g.nodes) (hy : y ∈ g.nodes) (hxy : x ≠ y)
    (hd : ∀ r ∈ g.retrieveEdgeHistory x y .removeEdgeUndirected, r.data.isSome = true) :
    ∃ a, fciProcess o [x, y] g = .ok a ∧ ∀ r, r ∈ a.getD [] ↔ ¬ g.Line x y ∧ ∃ z, z ∈ g.edges.keys2 x ∧
      z ∈ g.edges.keys2 y ∧ ¬ SepRecorded g x y z ∧ (r = arrowMark x z ∨ r = arrowMark y z) := by
  unfold fciProcess
  simp only [hx, hy, not_true_eq_false, if_false]
  by_cases hl : g.Line x y
  · rw [if_pos (und_iff.2 hl)]
    exact ⟨none, rfl, by simp [hl]⟩
  · rw [if_neg (fun h => hl (und_iff.1 h)), commonKeys_ok hrows hx hy hxy]
    have hmem : ∀ z, z ∈ o g x y ((g.edges.keys2 x).filter (fun z => decide (z ∈ g.edges.keys2 y))) ↔
        z ∈ g.edges.keys2 x ∧ z ∈ g.edges.keys2 y := by
      intro z; rw [(ho g x y _).2 z]; simp
    obtain ⟨rs, h1, h2⟩ := fciLoop_ok (x := x) (y := y) (o g x y ((g.edges.keys2 x).filter (fun z => decide (z ∈ g.edges.keys2 y))))
      (fun z hz => (keys2_nodes hwf ((hmem z).1 hz).1).1) hd
    refine ⟨some rs, ?_, fun r => ?_⟩
    · simp only [h1]
    · simp only [Option.getD_some, h2, hmem, hl, not_false_eq_true, true_and, and_assoc]

theorem arrowMark_inj {a b c d : ι} : (arrowMark a b : CResult ι ρ) = arrowMark c d ↔ a = c ∧ b = d := by
  simp [arrowMark]

open Classical in
/-- what a list of marks does to the graph -/
theorem marks_apply (L : List (CResult ι ρ)) : ∀ {g : CGraph ι ρ}, WF0 g → (∀ r ∈ L, ∃ a b, r = arrowMark a b ∧ g.live a b = true) →
    ∃ g', takeItems false L g = (.ok L, g') ∧ WF0 g' ∧ g'.nodes = g.nodes ∧ g'.edges.keys = g.edges.keys ∧
      (∀ a b, g'.live a b = g.live a b) ∧
      (∀ a b, g'.edges.get2 a b = (g.edges.get2 a b).map (fun e =>
        if arrowMark a b ∈ L then { e with metadata := { mark := true } } else e)) ∧
      ∀ p : ι × ι, g'.hist.get? p = if (L.filter (fun r => decide (r.u = p.1 ∧ r.v = p.2))) = [] then g.hist.get? p else
        some ((g.hist.get? p).getD [] ++ L.filter (fun r => decide (r.u = p.1 ∧ r.v = p.2))) := by
  induction L with
  | nil =>
    intro g hwf _
    refine ⟨g, rfl, hwf, rfl, rfl, fun _ _ => rfl, fun a b => ?_, fun p => ?_⟩ <;> simp
  | cons r L ih =>
    intro g hwf hL
    obtain ⟨u, v, rfl, hl⟩ := hL r List.mem_cons_self
    have happ : applyOne (arrowMark u v : CResult ι ρ) g = (.ok true, addH u v (arrowMark u v)
        (modBoth g u v (setMeta (arrowMark u v : CResult ι ρ).data))) := by
      rw [applyOne_updateDirected hwf rfl]
      exact if_pos hl
    set r : CResult ι ρ := arrowMark u v with hr
    rw [takeItems_cons, happ]
    have hwf1 : WF0 (addH u v r (modBoth g u v (setMeta r.data))) := by
      have := applyOne_wf (r := r) hwf
      rw [happ] at this
      exact this
    have hlive : ∀ a b, (addH u v r (modBoth g u v (setMeta r.data))).live a b = g.live a b := by
      intro a b
      rw [live_addH]
      exact live_same (setMeta r.data) (fun e => rfl) a b
    obtain ⟨g', h1, h2, h3, h4, h5, h6, h7⟩ := ih hwf1 (fun s hs => by
      obtain ⟨a, b, e, h⟩ := hL s (List.mem_cons_of_mem _ hs)
      exact ⟨a, b, e, (hlive a b).trans h⟩)
    refine ⟨g', ?_, h2, ?_, ?_, fun a b => (h5 a b).trans (hlive a b), fun a b => ?_, fun p => ?_⟩
    · simp only [h1, if_true]
    · rw [h3, nodes_addH, nodes_modBoth]
    · rw [h4, edges_addH, keys_modBoth]
    · rw [h6, edges_addH, get2_modBoth]
      by_cases hc : u = a ∧ v = b
      · obtain ⟨rfl, rfl⟩ := hc
        simp only [and_self, if_true, Option.map_map, List.mem_cons, hr, true_or]
        congr 1
        funext e
        simp only [Function.comp]
        split <;> rfl
      · have : (arrowMark a b : CResult ι ρ) ≠ r := fun h => hc ⟨(arrowMark_inj.1 h).1.symm, (arrowMark_inj.1 h).2.symm⟩
        simp [hc, this]
    · rw [h7, hist_addH, hist_modBoth]
      by_cases hc : u = p.1 ∧ v = p.2
      · have hp : (u, v) = p := Prod.ext hc.1 hc.2
        have hf : (r :: L).filter (fun r => decide (r.u = p.1 ∧ r.v = p.2)) =
            r :: L.filter (fun r => decide (r.u = p.1 ∧ r.v = p.2)) :=
          List.filter_cons_of_pos (decide_eq_true hc)
        rw [hf, if_pos hp]
        simp only [Option.getD_some, List.append_assoc, List.singleton_append, reduceCtorEq, if_false]
        split
        · rename_i h; rw [h]
        · rfl
      · have hf : (r :: L).filter (fun r => decide (r.u = p.1 ∧ r.v = p.2)) =
            L.filter (fun r => decide (r.u = p.1 ∧ r.v = p.2)) :=
          List.filter_cons_of_neg (fun h => hc (of_decide_eq_true h))
        have hne : ¬ (u, v) = p := fun h => hc ⟨congrArg Prod.fst h, congrArg Prod.snd h⟩
        simp only [hf, hne, if_false]

/-- the combinations the generator hands out -/
theorem allGen_two (g : CGraph ι ρ) (hn : g.nodes.Nodup) : ∃ cs : List (List ι),
    allGen ⟨2, 2⟩ g = .ok [fun _ => cs.map .single] ∧
    ∀ c, c ∈ cs ↔ ∃ x y, c = [x, y] ∧ [x, y].Sublist g.nodes := by
  obtain ⟨ts, hts⟩ := allGen_total (s := ⟨2, 2⟩) (by decide) g
  obtain ⟨cs, hcs, rfl⟩ := allGen_combos hts
  have hmem := allCombinations_mem hn hcs (by decide)
  refine ⟨cs, hts, fun c => ?_⟩
  rw [hmem]
  constructor
  · rintro ⟨h1, h2, h3⟩
    obtain ⟨x, y, rfl⟩ := List.length_eq_two.1 (show c.length = 2 by simp only at h2 h3; omega)
    exact ⟨x, y, rfl, h1⟩
  · rintro ⟨x, y, rfl, h⟩
    exact ⟨h, by simp, by simp⟩

/-- one run of the rule on a graph without soft-deleted edges -/
theorem fci_execute {g : CGraph ι ρ} (hwf : WF0 g) (hrows : Rows g) (hp : Purged g) (hd : RemovalsHaveData g) {o : Ord ι ρ}
    (ho : o.Valid) : ∃ L g', (fciStep o).execute false g = (.ok (L, L), g') ∧ takeItems false L g = (.ok L, g') ∧
      (fciStep o).execute true g = (.ok (L, L), g) ∧
      (∀ r ∈ L, ∃ a b, r = arrowMark a b ∧ g.live a b = true) ∧ ∀ a b, arrowMark a b ∈ L ↔ ArrowheadAt g a b := by
  obtain ⟨cs, hgen, hcs⟩ := allGen_two g hwf.nodup
  have hpair : ∀ x y, [x, y].Sublist g.nodes → x ∈ g.nodes ∧ y ∈ g.nodes ∧ x ≠ y := by
    intro x y h
    have := h.nodup hwf.nodup
    exact ⟨h.subset (by simp), h.subset (by simp), by simpa using this⟩
  have hproc : ∀ x y, [x, y].Sublist g.nodes → _ := fun x y h =>
    fci_process hwf hrows ho (hpair x y h).1 (hpair x y h).2.1 (hpair x y h).2.2
      (hd x (hpair x y h).1 y (hpair x y h).2.1 (hpair x y h).2.2)
  have hb : ∀ dry, (fciStep o).execute dry g = takeAction dry (cs.map (fun c => ((fciProcess o c g).toOption).join)) g := by
    intro dry
    refine Step.execute_batch rfl rfl cs hgen _ ?_ dry
    intro c hc u
    obtain ⟨x, y, rfl, h⟩ := (hcs c).1 hc
    obtain ⟨a, h1, -⟩ := hproc x y h
    show fciProcess o [x, y] g = _
    rw [h1]; rfl
  set L := flatten (cs.map (fun c => ((fciProcess o c g).toOption).join)) with hLdef
  have hmem : ∀ r, r ∈ L ↔ ∃ x y, [x, y].Sublist g.nodes ∧ ¬ g.Line x y ∧ ∃ z, g.directedEdgeExists x z = true ∧
      g.directedEdgeExists y z = true ∧ ¬ SepRecorded g x y z ∧ (r = arrowMark x z ∨ r = arrowMark y z) := by
    intro r
    simp only [hLdef, flatten, List.mem_flatMap, List.mem_map]
    constructor
    · rintro ⟨_, ⟨c, hc, rfl⟩, hr⟩
      obtain ⟨x, y, rfl, h⟩ := (hcs c).1 hc
      obtain ⟨a, h1, h2⟩ := hproc x y h
      rw [h1] at hr
      obtain ⟨h3, z, h4, h5, h6⟩ := (h2 r).1 hr
      exact ⟨x, y, h, h3, z, (purged_keys2 hwf hp).1 h4, (purged_keys2 hwf hp).1 h5, h6⟩
    · rintro ⟨x, y, h, h3, z, h4, h5, h6⟩
      obtain ⟨a, h1, h2⟩ := hproc x y h
      refine ⟨_, ⟨[x, y], (hcs _).2 ⟨x, y, rfl, h⟩, rfl⟩, ?_⟩
      rw [h1]
      exact (h2 r).2 ⟨h3, z, (purged_keys2 hwf hp).2 h4, (purged_keys2 hwf hp).2 h5, h6⟩
  have hmarks : ∀ r ∈ L, ∃ a b, r = arrowMark a b ∧ g.live a b = true := by
    intro r hr
    obtain ⟨x, y, -, -, z, h4, h5, -, rfl | rfl⟩ := (hmem r).1 hr
    · exact ⟨x, z, rfl, by rwa [directedEdgeExists_eq hwf] at h4⟩
    · exact ⟨y, z, rfl, by rwa [directedEdgeExists_eq hwf] at h5⟩
  obtain ⟨g', ht, -⟩ := marks_apply L hwf hmarks
  refine ⟨L, g', ?_, ht, ?_, hmarks, ?_⟩
  · rw [hb, takeAction_flat, ← hLdef, ht]
  · rw [hb, takeAction_flat, ← hLdef, takeItems_dry]
  · intro a z
    rw [hmem]
    constructor
    · rintro ⟨x, y, h, h3, z', h4, h5, h6, e | e⟩
      · obtain ⟨rfl, rfl⟩ := arrowMark_inj.1 e
        exact ⟨y, h3, h4, h5, Or.inl ⟨h, h6⟩⟩
      · obtain ⟨rfl, rfl⟩ := arrowMark_inj.1 e
        exact ⟨x, fun hl => h3 ⟨hl.2, hl.1⟩, h5, h4, Or.inr ⟨h, h6⟩⟩
    · rintro ⟨b, h1, h2, h3, ⟨h4, h5⟩ | ⟨h4, h5⟩⟩
      · exact ⟨a, b, h4, h1, z, h2, h3, h5, Or.inl rfl⟩
      · exact ⟨b, a, h4, fun hl => h1 ⟨hl.2, hl.1⟩, z, h3, h2, h5, Or.inr rfl⟩

theorem pair_of_sublist {l : List ι} (hn : l.Nodup) {x y : ι} (h : [x, y].Sublist l) : x ∈ l ∧ y ∈ l ∧ x ≠ y := by
  have := h.nodup hn
  exact ⟨h.subset (by simp), h.subset (by simp), by simpa using this⟩

theorem pair_sublist {l : List ι} (hn : l.Nodup) {x y : ι} (hx : x ∈ l) (hy : y ∈ l) (hxy : x ≠ y) :
    [x, y].Sublist l ∨ [y, x].Sublist l := by
  obtain ⟨c', h1, h2⟩ := sublist_perm hn (c := [x, y]) (by simp [hxy]) (by simp [hx, hy])
  obtain ⟨a, b, rfl⟩ := List.length_eq_two.1 h2.length_eq
  obtain ⟨ha, hb, hne⟩ := pair_of_sublist hn h1
  have ha : a ∈ [x, y] := h2.subset (by simp)
  have hb : b ∈ [x, y] := h2.subset (by simp)
  simp only [List.mem_cons, List.not_mem_nil, or_false] at ha hb
  rcases ha with rfl | rfl <;> rcases hb with rfl | rfl
  · exact absurd rfl hne
  · exact Or.inl h1
  · exact Or.inr h1
  · exact absurd rfl hne

/-- all edges carry their correlation after the tests of `PC` and `PCClassic` -/
theorem skeleton_hasCorr {T : Tests ι ρ} {E : ι → ι → Prop} {gn : CGraph ι ρ} (hgn : Reachable gn)
    (hO : PC.Oracle T E gn.nodes) {ord : PC.NbOrd ι} (ho : ord.Valid) {sk : List (PStep ι (Info ι ρ))}
    (hsk : sk = PC.pcSkeleton T ord ∨ sk = PC.classicSkeleton T ord) (fuel : Nat) (h : List (HistRec ι (Info ι ρ))) :
    HasCorr (graphAfter fuel sk ⟨startGraph gn, h⟩) := by
  obtain ⟨rest, rfl, hrest⟩ : ∃ rest, sk = .plain (pearsonStep T) :: rest ∧
      ∀ p ∈ rest, ∀ s ∈ p.steps, ∃ t : CITest ι, t.Valid ∧ s = t.step T := by
    rcases hsk with rfl | rfl
    · refine ⟨_, rfl, ?_⟩
      intro p hp s hs
      simp only [List.mem_cons, List.not_mem_nil, or_false] at hp
      rcases hp with rfl | rfl | rfl <;> simp only [PStep.steps, List.mem_singleton] at hs <;> subst hs
      · exact ⟨.correlation, trivial, rfl⟩
      · exact ⟨.partialCorrelation, trivial, rfl⟩
      · exact ⟨.matrix _, PC.neighbours_valid ho, rfl⟩
    · refine ⟨_, rfl, ?_⟩
      intro p hp s hs
      simp only [List.mem_cons, List.not_mem_nil, or_false] at hp
      rcases hp with rfl | rfl <;> simp only [PStep.steps, List.mem_singleton] at hs <;> subst hs
      · exact ⟨.correlation, trivial, rfl⟩
      · exact ⟨.matrix _, PC.neighbours_valid ho, rfl⟩
  obtain ⟨h0, h1, h2⟩ := start_facts gn hgn T
  obtain ⟨tp1, g1, e1, i1, c1, hc1⟩ := pearson_phase hO.sym h0 h2
  unfold graphAfter runPipeline
  rw [PyM.forEach_cons_ok (run_plain_ok fuel (s := pearsonStep T) (m := ⟨startGraph gn, h⟩) e1 i1.wf)]
  exact (runPipeline_kept (PC.invc_kept hO.sym (startGraph gn)) fuel rest (fun p hp s hs => by
    obtain ⟨t, ht, rfl⟩ := hrest p hp s hs
    exact (test_safe T _ t ht).weaken (fun g hg => hg.1)) (m := ⟨purgeG g1, _⟩)
    ⟨PC.inv_purgeG i1, PC.hasCorr_purgeG i1.wf hc1⟩).2

theorem dirPath_trans {δ : Type} {g : Graph ι δ} {v : ι} : ∀ {u : ι} {p : List (ι × ι)}, IsDirPath g v u p →
    Relation.TransGen (Live g) u v
  | _, [], h => h.elim
  | _, [_], h => .single h.2
  | _, _ :: _ :: _, h => .head h.2.1 (dirPath_trans h.2.2)

/-- without directed cycles an inducing path is a direct edge -/
theorem inducing_iff {δ : Type} (g : Graph ι δ) (hac : Dag.Acyclic (Live g)) (u v : ι) :
    (∃ p, InducingPath g u v p) ↔ Live g u v := by
  constructor
  · rintro ⟨p, h1, h2⟩
    match p, h1, h2 with
    | [e], h1, _ => exact h1.2
    | e :: e' :: rest, h1, h2 =>
      have h3 := h2 e e' ⟨[], rest, by simp⟩
      exfalso
      obtain ⟨-, -, h4⟩ := h1
      match rest, h4 with
      | [], h4 =>
        obtain ⟨rfl, h5⟩ := h4
        exact hac _ (Relation.TransGen.tail (Relation.TransGen.single h5) h3)
      | _ :: _, h4 =>
        obtain ⟨h6, h5, -⟩ := h4
        rw [← h6] at h5
        exact hac _ (Relation.TransGen.tail (Relation.TransGen.single h5) h3)
  · intro h
    refine ⟨[(u, v)], ⟨rfl, h⟩, ?_⟩
    intro e e' hi
    have := hi.length_le
    simp at this

end Verif.Fci
