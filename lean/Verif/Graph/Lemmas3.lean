import Verif.Graph.Spec
import Verif.Graph.Lemmas2

/-!
# Helper lemmas: reachability, effects on the live relation, histories, listing
-/

namespace Verif
namespace Graph
variable {ι δ : Type} [DecidableEq ι] {g : Graph ι δ}

theorem Reachable.wf (h : Reachable g) : WF0 g := by
  obtain ⟨cs, rfl⟩ := h
  exact runAll_wf wf0_empty cs

theorem clean_revExact (cs : List (Cmd ι δ)) (h : WF0 g) (hr : RevExact g) (hc : CleanHistory cs g) :
    RevExact (Cmd.runAll cs g) := by
  induction cs generalizing g with
  | nil => exact hr
  | cons c cs ih => exact ih (run_wf h c) (run_revExact h hr c hc.1) hc.2

theorem ReachableClean.reachable (h : ReachableClean g) : Reachable g := by
  obtain ⟨cs, _, rfl⟩ := h; exact ⟨cs, rfl⟩

theorem ReachableClean.revExact (h : ReachableClean g) : RevExact g := by
  obtain ⟨cs, hc, rfl⟩ := h
  exact clean_revExact cs wf0_empty revExact_empty hc

theorem Reachable.run (h : Reachable g) (c : Cmd ι δ) : Reachable (c.run g).2 := by
  obtain ⟨cs, rfl⟩ := h
  refine ⟨cs ++ [c], ?_⟩
  simp [Cmd.runAll, List.foldl_append]

/-! ## live relation after each elementary change -/

theorem live_modBoth {u v : ι} (f : Edge ι δ → Edge ι δ) (a b : ι) :
    (modBoth g u v f).live a b =
      if u = a ∧ v = b then (match g.edges.get2 u v with | some e => !(f e).deleted | none => false)
      else g.live a b := by
  unfold live
  rw [get2_modBoth]
  by_cases hc : u = a ∧ v = b
  · simp only [hc, and_self, if_true]
    cases g.edges.get2 a b <;> simp
  · simp only [hc, if_false]

theorem live_mark {u v : ι} (a b : ι) :
    (modBoth g u v (fun e => { e with deleted := true })).live a b =
      (g.live a b && !decide (u = a ∧ v = b)) := by
  rw [live_modBoth]
  by_cases hc : u = a ∧ v = b
  · simp only [hc, and_self, if_true, decide_true, Bool.not_true, Bool.and_false]
    cases g.edges.get2 a b <;> simp
  · simp [hc]

theorem live_unmark {u v : ι} {e : Edge ι δ} (he : g.edges.get2 u v = some e) (a b : ι) :
    (modBoth g u v (fun e => { e with deleted := false })).live a b =
      (g.live a b || decide (u = a ∧ v = b)) := by
  rw [live_modBoth]
  by_cases hc : u = a ∧ v = b
  · obtain ⟨rfl, rfl⟩ := hc; simp [he]
  · simp [hc]

theorem live_same {u v : ι} (f : Edge ι δ → Edge ι δ) (hf : ∀ e, (f e).deleted = e.deleted) (a b : ι) :
    (modBoth g u v f).live a b = g.live a b := by
  rw [live_modBoth]
  by_cases hc : u = a ∧ v = b
  · obtain ⟨rfl, rfl⟩ := hc
    unfold live
    cases g.edges.get2 u v <;> simp [hf]
  · simp [hc]

theorem live_dropG {u v : ι} (a b : ι) : (dropG g u v).live a b =
    (g.live a b && !decide (u = a ∧ v = b)) := by
  unfold live
  rw [get2_dropG]
  by_cases hc : u = a ∧ v = b <;> simp [hc]

theorem live_addDirG {u v : ι} (m : δ) (t : EType) (a b : ι) : (addDirG g u v m t).live a b =
    (g.live a b || decide (u = a ∧ v = b)) := by
  unfold live
  rw [get2_addDirG]
  by_cases hc : u = a ∧ v = b <;> simp [hc]

theorem live_addG {u v : ι} (huv : u ≠ v) (m : δ) (t : EType) (a b : ι) : (addG g u v m t).live a b =
    (g.live a b || decide (u = a ∧ v = b) || decide (v = a ∧ u = b)) := by
  unfold live
  rw [get2_addG huv]
  by_cases hc : u = a ∧ v = b
  · simp [hc]
  · by_cases hc' : v = a ∧ u = b
    · obtain ⟨rfl, rfl⟩ := hc'; simp [hc]
    · simp [hc, hc']

theorem live_forgetD {u v : ι} (a b : ι) : (forgetD g u v).live a b = g.live a b := rfl

theorem live_dropTwo {u v : ι} {e e' : Edge ι δ} (a b : ι) : (dropTwo g u v e e').live a b =
    (g.live a b && !decide (u = a ∧ v = b) && !decide (v = a ∧ u = b)) := by
  unfold live
  have : (dropTwo g u v e e').edges.get2 a b =
      if v = a ∧ u = b then none else if u = a ∧ v = b then none else g.edges.get2 a b := by
    show ((g.edges.del2 u v).del2 v u).get2 a b = _
    rw [Dict.get2_del2, Dict.get2_del2]
  rw [this]
  by_cases hc : u = a ∧ v = b
  · simp [hc]
  · by_cases hc' : v = a ∧ u = b <;> simp [hc, hc']

theorem live_dropHalf {u v : ι} {e : Edge ι δ} (a b : ι) : (dropHalf g u v e).live a b =
    (g.live a b && !decide (u = a ∧ v = b)) := by
  unfold live
  have : (dropHalf g u v e).edges.get2 a b =
      if u = a ∧ v = b then none else g.edges.get2 a b := Dict.get2_del2 _ _ _ _ _
  rw [this]
  by_cases hc : u = a ∧ v = b <;> simp [hc]

theorem live_none {a b : ι} (h : g.edges.get2 a b = none) : g.live a b = false := by simp [live, h]

omit [DecidableEq ι] in
theorem setMeta_del (m : Option δ) (e : Edge ι δ) : (setMeta m e).deleted = e.deleted := by
  cases m <;> rfl
omit [DecidableEq ι] in
theorem setType_del (t : Option EType) (e : Edge ι δ) : (setType t e).deleted = e.deleted := by
  cases t <;> rfl

/-- Effect of a hard or soft `remove_edge` on the live relation, in every case, even if it raises. -/
theorem live_removeEdge (h : WF0 g) {u v : ι} (hu : u ∈ g.nodes) (hv : v ∈ g.nodes) (s : Bool) (a b : ι) :
    (removeEdge u v s g).2.live a b =
      (g.live a b && !decide (u = a ∧ v = b) && !decide (v = a ∧ u = b)) := by
  cases s with
  | true =>
    rw [removeEdge_soft_run h]
    simp only [hu, hv, not_true, or_self, if_false]
    rw [live_mark, live_mark]
  | false =>
    cases h1 : g.edges.get2 u v with
    | none =>
      cases h2 : g.edges.get2 v u with
      | none =>
        rw [removeEdge_hard_run_zero hu hv h1 h2]
        by_cases c1 : u = a ∧ v = b
        · obtain ⟨rfl, rfl⟩ := c1; simp [live_none h1]
        · by_cases c2 : v = a ∧ u = b
          · obtain ⟨rfl, rfl⟩ := c2; simp [live_none h2]
          · simp [c1, c2]
      | some e =>
        rw [removeEdge_hard_run_one' h h1 h2]
        simp only [live_dropHalf]
        by_cases c1 : u = a ∧ v = b
        · obtain ⟨rfl, rfl⟩ := c1; simp [live_none h1]
        · simp [c1]
    | some e =>
      cases h2 : g.edges.get2 v u with
      | none =>
        rw [removeEdge_hard_run_one h h1 h2]
        simp only [live_dropHalf]
        by_cases c2 : v = a ∧ u = b
        · obtain ⟨rfl, rfl⟩ := c2; simp [live_none h2]
        · simp [c2]
      | some e' =>
        rw [removeEdge_hard_run_two h h1 h2]
        simp only [live_dropTwo]

/-- One half of `restore_edge`: what is live afterwards if it succeeds. -/
theorem restoreHalf_live (h : WF0 g) {u v : ι} (hu : u ∈ g.nodes) (hv : v ∈ g.nodes)
    (hok : (restoreHalf u v g).1 = .ok ()) (a b : ι) :
    ((restoreHalf u v g).2.live a b = (g.live a b || decide (u = a ∧ v = b))) ∨
    ((restoreHalf u v g).2.live a b = (g.live a b || decide (u = a ∧ v = b) || decide (v = a ∧ u = b))) := by
  rw [restoreHalf_run h hu hv] at hok ⊢
  cases he : g.edges.get2 u v with
  | some e => left; exact live_unmark he a b
  | none =>
    simp only [he] at hok ⊢
    cases hd : g.del.get2 u v with
    | none => simp [hd] at hok
    | some e =>
      right
      simp only
      rw [live_forgetD, live_addG (h.delE u v e hd).1]

theorem restoreEdge_live (h : WF0 g) {u v : ι} (hok : (restoreEdge u v g).1 = .ok ()) (a b : ι) :
    (restoreEdge u v g).2.live a b =
      (g.live a b || decide (u = a ∧ v = b) || decide (v = a ∧ u = b)) := by
  rw [restoreEdge_run] at hok ⊢
  by_cases hn : u ∉ g.nodes ∨ v ∉ g.nodes
  · simp [hn] at hok
  · rw [if_neg hn] at hok ⊢
    push Not at hn
    rw [PyM.bind_run] at hok ⊢
    have w1 := restoreHalf_wf h hn.1 hn.2
    have l1 := restoreHalf_live h hn.1 hn.2
    generalize restoreHalf u v g = r at w1 l1 hok ⊢
    obtain ⟨x | x, g'⟩ := r
    · simp at hok
    · simp only at hok w1 l1 ⊢
      have l2 := restoreHalf_live w1.1 (u := v) (v := u) (w1.2.1 ▸ hn.2) (w1.2.1 ▸ hn.1) hok a b
      have l1' := l1 (by trivial) a b
      by_cases c1 : u = a ∧ v = b <;> by_cases c2 : v = a ∧ u = b <;>
        rcases l1' with l1' | l1' <;> rcases l2 with l2 | l2 <;> rw [l2, l1'] <;> simp [c1, c2]

theorem run_live (h : WF0 g) (c : Cmd ι δ) (hok : (c.run g).1 = .ok ()) (a b : ι) :
    (c.run g).2.live a b = true ↔ specEdges c (fun a b => g.live a b = true) a b := by
  cases c with
  | addNode id =>
    change (addNode id g).1 = _ at hok
    show (addNode id g).2.live a b = true ↔ _
    rw [addNode_run] at hok ⊢
    split
    · simp [specEdges]
    · rfl
  | addEdge u v m t =>
    change (addEdge u v m t g).1 = _ at hok
    show (addEdge u v m t g).2.live a b = true ↔ _
    rw [addEdge_run h] at hok ⊢
    split
    · rename_i hn; simp [hn] at hok
    · rename_i hn; push Not at hn
      rw [live_addG hn.2.2]
      simp only [specEdges, Bool.or_eq_true, decide_eq_true_eq]
      grind
  | addDirectedEdge u v m t =>
    change (addDirectedEdge u v m t g).1 = _ at hok
    show (addDirectedEdge u v m t g).2.live a b = true ↔ _
    rw [addDirectedEdge_run h] at hok ⊢
    split
    · rename_i hn; simp [hn] at hok
    · rw [live_addDirG]
      simp only [specEdges, Bool.or_eq_true, decide_eq_true_eq]
      grind
  | addEdgeHistory u v r =>
    show (addEdgeHistory u v r g).2.live a b = true ↔ _
    rw [addEdgeHistory_run]; rfl
  | removeEdge u v s =>
    change (removeEdge u v s g).1 = _ at hok
    show (removeEdge u v s g).2.live a b = true ↔ _
    by_cases hn : u ∉ g.nodes ∨ v ∉ g.nodes
    · rw [removeEdge_unknown hn] at hok; simp at hok
    · push Not at hn
      rw [live_removeEdge h hn.1 hn.2]
      simp only [specEdges, Bool.and_eq_true, Bool.not_eq_true', decide_eq_false_iff_not]
      grind
  | restoreEdge u v =>
    change (restoreEdge u v g).1 = _ at hok
    show (restoreEdge u v g).2.live a b = true ↔ _
    rw [restoreEdge_live h hok]
    simp only [specEdges, Bool.or_eq_true, decide_eq_true_eq]
    grind
  | removeDirectedEdge u v s =>
    change (removeDirectedEdge u v s g).1 = _ at hok
    show (removeDirectedEdge u v s g).2.live a b = true ↔ _
    cases s with
    | true =>
      rw [removeDirectedEdge_soft_run h] at hok ⊢
      split
      · rename_i hn; simp [hn] at hok
      · rw [live_mark]
        simp only [specEdges, Bool.and_eq_true, Bool.not_eq_true', decide_eq_false_iff_not]
        grind
    | false =>
      rw [removeDirectedEdge_hard_run h] at hok ⊢
      split
      · rename_i hn; simp [hn] at hok
      · rw [live_dropG]
        simp only [specEdges, Bool.and_eq_true, Bool.not_eq_true', decide_eq_false_iff_not]
        grind
  | restoreDirectedEdge u v =>
    change (restoreDirectedEdge u v g).1 = _ at hok
    show (restoreDirectedEdge u v g).2.live a b = true ↔ _
    rw [restoreDirectedEdge_run h] at hok ⊢
    by_cases hn : u ∉ g.nodes ∨ v ∉ g.nodes
    · simp [hn] at hok
    · rw [if_neg hn] at hok ⊢
      cases he : g.edges.get2 u v with
      | some e =>
        simp only
        rw [live_unmark he]
        simp only [specEdges, Bool.or_eq_true, decide_eq_true_eq]
        grind
      | none =>
        cases hd : g.del.get2 u v with
        | none => simp [he, hd] at hok
        | some e =>
          simp only
          rw [live_forgetD, live_addDirG]
          simp only [specEdges, Bool.or_eq_true, decide_eq_true_eq]
          grind
  | updateEdge u v m t =>
    show (updateEdge u v m t g).2.live a b = true ↔ _
    rw [updateEdge_run h]
    split
    · rw [live_same _ (setType_del t), live_same _ (setType_del t), live_same _ (setMeta_del m),
        live_same _ (setMeta_del m)]
      rfl
    · rfl
  | updateDirectedEdge u v m t =>
    show (updateDirectedEdge u v m t g).2.live a b = true ↔ _
    rw [updateDirectedEdge_run h]
    split
    · rw [live_same _ (setType_del t), live_same _ (setMeta_del m)]
      rfl
    · rfl
  | purge =>
    show (purge g).2.live a b = true ↔ _
    rw [purge_run h]
    simp only [live_purgeG]
    rfl

/-! ## histories -/

theorem HistExtends.refl (g : Graph ι δ) : HistExtends g g := fun _ l hl => ⟨[], by simpa using hl⟩

theorem HistExtends.trans {g1 g2 g3 : Graph ι δ} (h1 : HistExtends g1 g2) (h2 : HistExtends g2 g3) :
    HistExtends g1 g3 := by
  intro p l hl
  obtain ⟨l1, h1⟩ := h1 p l hl
  obtain ⟨l2, h2⟩ := h2 p _ h1
  exact ⟨l1 ++ l2, by rw [h2, List.append_assoc]⟩

theorem HistExtends.of_eq {g g' : Graph ι δ} (h : g'.hist = g.hist) : HistExtends g g' :=
  fun _ l hl => ⟨[], by rw [h]; simpa using hl⟩

theorem histExtends_histG (u v : ι) : HistExtends g (histG g u v) := by
  intro p l hl
  unfold histG
  split
  · exact ⟨[], by simpa using hl⟩
  · rename_i hn
    refine ⟨[], ?_⟩
    have hne : (u, v) ≠ p := by
      rintro rfl
      simp [Dict.has, hl] at hn
    simp [Dict.get?_set, hne, hl]

theorem histExtends_initG (u v : ι) : HistExtends g (initG g u v) := by
  unfold initG
  refine (HistExtends.of_eq ?_).trans ((histExtends_histG u v).trans (histExtends_histG v u))
  simp

theorem histExtends_addEdgeHistory (u v : ι) (r : TestResult ι δ) :
    HistExtends g (addEdgeHistory u v r g).2 := by
  intro p l hl
  rw [addEdgeHistory_run]
  by_cases hp : (u, v) = p
  · subst hp
    exact ⟨[r], by simp [hl]⟩
  · exact ⟨[], by simp [Dict.get?_set, hp, hl]⟩

theorem histExtends_addDirG (u v : ι) (m : δ) (t : EType) : HistExtends g (addDirG g u v m t) :=
  (histExtends_initG u v).trans (HistExtends.of_eq rfl)

theorem histExtends_addG (u v : ι) (m : δ) (t : EType) : HistExtends g (addG g u v m t) :=
  (histExtends_addDirG u v m t).trans (HistExtends.of_eq rfl)

theorem histExtends_forgetD (u v : ι) : HistExtends g (forgetD g u v) := HistExtends.of_eq rfl

theorem restoreHalf_hist (h : WF0 g) {u v : ι} (hu : u ∈ g.nodes) (hv : v ∈ g.nodes) :
    HistExtends g (restoreHalf u v g).2 := by
  rw [restoreHalf_run h hu hv]
  split
  · exact HistExtends.of_eq hist_modBoth
  · split
    · exact (histExtends_addG u v _ _).trans (histExtends_forgetD u v)
    · exact HistExtends.refl g

theorem run_hist (h : WF0 g) (c : Cmd ι δ) : HistExtends g (c.run g).2 := by
  cases c with
  | addNode id =>
    show HistExtends g (addNode id g).2
    rw [addNode_run]; split <;> exact HistExtends.of_eq rfl
  | addEdge u v m t =>
    show HistExtends g (addEdge u v m t g).2
    rw [addEdge_run h]; split
    · exact HistExtends.refl g
    · exact histExtends_addG _ _ _ _
  | addDirectedEdge u v m t =>
    show HistExtends g (addDirectedEdge u v m t g).2
    rw [addDirectedEdge_run h]; split
    · exact HistExtends.refl g
    · exact histExtends_addDirG _ _ _ _
  | addEdgeHistory u v r => exact histExtends_addEdgeHistory u v r
  | removeEdge u v s =>
    show HistExtends g (removeEdge u v s g).2
    by_cases hn : u ∉ g.nodes ∨ v ∉ g.nodes
    · rw [removeEdge_unknown hn]; exact HistExtends.refl g
    · push Not at hn
      cases s with
      | true =>
        rw [removeEdge_soft_run h]
        simp only [hn.1, hn.2, not_true, or_self, if_false]
        exact HistExtends.of_eq (hist_modBoth.trans hist_modBoth)
      | false =>
        cases h1 : g.edges.get2 u v with
        | none =>
          cases h2 : g.edges.get2 v u with
          | none => rw [removeEdge_hard_run_zero hn.1 hn.2 h1 h2]; exact HistExtends.refl g
          | some e => rw [removeEdge_hard_run_one' h h1 h2]; exact HistExtends.of_eq rfl
        | some e =>
          cases h2 : g.edges.get2 v u with
          | none => rw [removeEdge_hard_run_one h h1 h2]; exact HistExtends.of_eq rfl
          | some e' => rw [removeEdge_hard_run_two h h1 h2]; exact HistExtends.of_eq rfl
  | restoreEdge u v =>
    show HistExtends g (restoreEdge u v g).2
    rw [restoreEdge_run]
    split
    · exact HistExtends.refl g
    · rename_i hn
      push Not at hn
      have h1 := restoreHalf_wf h hn.1 hn.2
      have h2 := restoreHalf_hist h hn.1 hn.2
      rw [PyM.bind_run]
      generalize restoreHalf u v g = r at h1 h2
      obtain ⟨x | x, g'⟩ := r
      · exact h2
      · exact h2.trans (restoreHalf_hist h1.1 (h1.2.1 ▸ hn.2) (h1.2.1 ▸ hn.1))
  | removeDirectedEdge u v s =>
    show HistExtends g (removeDirectedEdge u v s g).2
    cases s with
    | true =>
      rw [removeDirectedEdge_soft_run h]; split
      · exact HistExtends.refl g
      · exact HistExtends.of_eq hist_modBoth
    | false =>
      rw [removeDirectedEdge_hard_run h]; split
      · exact HistExtends.refl g
      · exact HistExtends.of_eq hist_dropG
  | restoreDirectedEdge u v =>
    show HistExtends g (restoreDirectedEdge u v g).2
    rw [restoreDirectedEdge_run h]
    split
    · exact HistExtends.refl g
    · split
      · exact HistExtends.of_eq hist_modBoth
      · split
        · exact (histExtends_addDirG u v _ _).trans (histExtends_forgetD u v)
        · exact HistExtends.refl g
  | updateEdge u v m t =>
    show HistExtends g (updateEdge u v m t g).2
    rw [updateEdge_run h]; split
    · exact HistExtends.of_eq (hist_modBoth.trans (hist_modBoth.trans (hist_modBoth.trans hist_modBoth)))
    · exact HistExtends.refl g
  | updateDirectedEdge u v m t =>
    show HistExtends g (updateDirectedEdge u v m t g).2
    rw [updateDirectedEdge_run h]; split
    · exact HistExtends.of_eq (hist_modBoth.trans hist_modBoth)
    · exact HistExtends.refl g
  | purge =>
    show HistExtends g (purge g).2
    rw [purge_run h]; exact HistExtends.of_eq hist_purgeG

/-! ## nodes -/

theorem run_nodes (h : WF0 g) (c : Cmd ι δ) :
    (c.run g).2.nodes = match c with
      | .addNode id => if id ∈ g.nodes then g.nodes else g.nodes ++ [id]
      | _ => g.nodes := by
  cases c with
  | addNode id =>
    show (addNode id g).2.nodes = _
    rw [addNode_run]; simp only; split <;> rfl
  | addEdge u v m t =>
    show (addEdge u v m t g).2.nodes = _
    rw [addEdge_run h]; split <;> simp
  | addDirectedEdge u v m t =>
    show (addDirectedEdge u v m t g).2.nodes = _
    rw [addDirectedEdge_run h]; split <;> simp
  | addEdgeHistory u v r =>
    show (addEdgeHistory u v r g).2.nodes = _
    rw [addEdgeHistory_run]
  | removeEdge u v s =>
    show (removeEdge u v s g).2.nodes = _
    by_cases hn : u ∉ g.nodes ∨ v ∉ g.nodes
    · rw [removeEdge_unknown hn]
    · push Not at hn
      cases s with
      | true =>
        rw [removeEdge_soft_run h]
        simp only [hn.1, hn.2, not_true, or_self, if_false]
        exact nodes_modBoth.trans nodes_modBoth
      | false =>
        cases h1 : g.edges.get2 u v with
        | none =>
          cases h2 : g.edges.get2 v u with
          | none => rw [removeEdge_hard_run_zero hn.1 hn.2 h1 h2]
          | some e => rw [removeEdge_hard_run_one' h h1 h2]; rfl
        | some e =>
          cases h2 : g.edges.get2 v u with
          | none => rw [removeEdge_hard_run_one h h1 h2]; rfl
          | some e' => rw [removeEdge_hard_run_two h h1 h2]; rfl
  | restoreEdge u v =>
    show (restoreEdge u v g).2.nodes = _
    rw [restoreEdge_run]
    split
    · rfl
    · rename_i hn
      push Not at hn
      have h1 := restoreHalf_wf h hn.1 hn.2
      rw [PyM.bind_run]
      generalize restoreHalf u v g = r at h1
      obtain ⟨x | x, g'⟩ := r
      · exact h1.2.1
      · exact (restoreHalf_wf h1.1 (h1.2.1 ▸ hn.2) (h1.2.1 ▸ hn.1)).2.1.trans h1.2.1
  | removeDirectedEdge u v s =>
    show (removeDirectedEdge u v s g).2.nodes = _
    cases s with
    | true =>
      rw [removeDirectedEdge_soft_run h]; split
      · rfl
      · exact nodes_modBoth
    | false =>
      rw [removeDirectedEdge_hard_run h]; split
      · rfl
      · exact nodes_dropG
  | restoreDirectedEdge u v =>
    show (restoreDirectedEdge u v g).2.nodes = _
    rw [restoreDirectedEdge_run h]
    split
    · rfl
    · split
      · exact nodes_modBoth
      · split
        · simp [forgetD]
        · rfl
  | updateEdge u v m t =>
    show (updateEdge u v m t g).2.nodes = _
    rw [updateEdge_run h]; split
    · exact nodes_modBoth.trans (nodes_modBoth.trans (nodes_modBoth.trans nodes_modBoth))
    · rfl
  | updateDirectedEdge u v m t =>
    show (updateDirectedEdge u v m t g).2.nodes = _
    rw [updateDirectedEdge_run h]; split
    · exact nodes_modBoth.trans nodes_modBoth
    · rfl
  | purge =>
    show (purge g).2.nodes = _
    rw [purge_run h]; exact nodes_purgeG

/-! ## listing -/

omit [DecidableEq ι] in
theorem nodup_storedPairs (g : Graph ι δ) : (g.storedList.map (fun t => (t.1, t.2.1))).Nodup := by
  have key : ∀ l : List (ι × Dict ι (Edge ι δ)), (l.map Prod.fst).Nodup →
      ((l.flatMap (fun p => p.2.items.map (fun q => (p.1, q.1, q.2)))).map (fun t => (t.1, t.2.1))).Nodup := by
    intro l
    induction l with
    | nil => intro _; simp
    | cons p l ih =>
      intro hl
      simp only [List.map_cons, List.nodup_cons] at hl
      rw [List.flatMap_cons, List.map_append, List.nodup_append]
      refine ⟨?_, ih hl.2, ?_⟩
      · have : (p.2.items.map (fun q => (p.1, q.1, q.2))).map (fun t => (t.1, t.2.1))
            = (p.2.items.map Prod.fst).map (fun k => (p.1, k)) := by
          simp [List.map_map, Function.comp_def]
        rw [this]
        exact p.2.nodup.map (fun a b hab => by injection hab)
      · intro x hx y hy hxy
        subst hxy
        simp only [List.map_map, List.mem_map, Function.comp_apply, List.mem_flatMap] at hx hy
        obtain ⟨q, _, rfl⟩ := hx
        obtain ⟨t, ⟨p', hp', q', hq', rfl⟩, heq⟩ := hy
        injection heq with h1 h2
        apply hl.1
        exact List.mem_map.2 ⟨p', hp', h1⟩
  exact key g.edges.items g.edges.nodup

theorem storedList_dropG {u v : ι} : (dropG g u v).storedList =
    g.storedList.filter (fun t => !decide (t.1 = u ∧ t.2.1 = v)) := by
  unfold dropG
  cases he : g.edges.get2 u v with
  | none =>
    symm
    simp only
    rw [List.filter_eq_self]
    rintro ⟨a, b, e⟩ hm
    rw [mem_storedList] at hm
    have : ¬ (a = u ∧ b = v) := by
      rintro ⟨rfl, rfl⟩; rw [he] at hm; cases hm
    simp [this]
  | some e =>
    simp only
    show (g.edges.del2 u v).items.flatMap _ = (g.edges.items.flatMap _).filter _
    cases hr : g.edges.get? u with
    | none => simp [Dict.get2, hr] at he
    | some row =>
      have hdel : g.edges.del2 u v = g.edges.set u (row.del v) := by simp [Dict.del2, hr]
      rw [hdel]
      show (assocSet u (row.del v) g.edges.items).flatMap _ = _
      have hrow : ∀ (k : ι) (l : List (ι × Edge ι δ)), (l.map Prod.fst).Nodup →
          (assocDel v l).map (fun q => (u, q.1, q.2)) =
            (l.map (fun q => (u, q.1, q.2))).filter (fun t => !decide (t.1 = u ∧ t.2.1 = v)) := by
        intro _ l
        induction l with
        | nil => intro _; rfl
        | cons q l ih =>
          obtain ⟨b, x⟩ := q
          intro hl
          simp only [List.map_cons, List.nodup_cons] at hl
          by_cases hb : b = v
          · subst hb
            simp only [assocDel, if_true, List.map_cons, List.filter_cons, decide_true, and_self,
              Bool.not_true, Bool.false_eq_true, if_false]
            symm
            rw [List.filter_eq_self]
            intro t ht
            simp only [List.mem_map] at ht
            obtain ⟨q, hq, rfl⟩ := ht
            have : q.1 ≠ b := by
              rintro rfl; exact hl.1 (List.mem_map_of_mem hq)
            simp [this]
          · have := ih hl.2
            simp [assocDel, hb, this]
      have hout : ∀ l : List (ι × Dict ι (Edge ι δ)), (l.map Prod.fst).Nodup → assoc u l = some row →
          (assocSet u (row.del v) l).flatMap (fun p => p.2.items.map (fun q => (p.1, q.1, q.2))) =
          (l.flatMap (fun p => p.2.items.map (fun q => (p.1, q.1, q.2)))).filter
            (fun t => !decide (t.1 = u ∧ t.2.1 = v)) := by
        intro l
        induction l with
        | nil => intro _ hh; simp [assoc] at hh
        | cons p l ih =>
          obtain ⟨k, r⟩ := p
          intro hl hh
          simp only [List.map_cons, List.nodup_cons] at hl
          by_cases hk : k = u
          · subst hk
            simp only [assoc, if_true, Option.some.injEq] at hh
            subst hh
            simp only [assocSet, if_true, List.flatMap_cons, List.filter_append]
            congr 1
            · exact hrow v r.items r.nodup
            · symm
              rw [List.filter_eq_self]
              intro t ht
              simp only [List.mem_flatMap, List.mem_map] at ht
              obtain ⟨p', hp', q, _, rfl⟩ := ht
              have : p'.1 ≠ k := by
                rintro rfl; exact hl.1 (List.mem_map_of_mem hp')
              simp [this]
          · simp only [assoc, hk, if_false] at hh
            simp only [assocSet, hk, if_false, List.flatMap_cons, List.filter_append]
            rw [ih hl.2 hh]
            congr 1
            symm
            rw [List.filter_eq_self]
            intro t ht
            simp only [List.mem_map] at ht
            obtain ⟨q, _, rfl⟩ := ht
            simp [hk]
      exact hout g.edges.items g.edges.nodup hr

theorem storedList_dropList (l : List (ι × ι)) : (dropList g l).storedList =
    g.storedList.filter (fun t => !decide ((t.1, t.2.1) ∈ l)) := by
  induction l generalizing g with
  | nil =>
    simp [dropList]
  | cons p l ih =>
    show (dropList (dropG g p.1 p.2) l).storedList = _
    rw [ih, storedList_dropG, List.filter_filter]
    congr 1
    funext t
    obtain ⟨p1, p2⟩ := p
    by_cases h1 : (t.1, t.2.1) ∈ l
    · simp [h1]
    · by_cases h2 : t.1 = p1 ∧ t.2.1 = p2
      · obtain ⟨rfl, rfl⟩ := h2; simp
      · have : ¬ ((t.1, t.2.1) = (p1, p2)) := by
          intro hh; injection hh with x y; exact h2 ⟨x, y⟩
        simp [h1, h2, this]

theorem storedList_purgeG : (purgeG g).storedList = g.storedList.filter (fun t => !t.2.2.deleted) := by
  unfold purgeG
  rw [storedList_dropList]
  apply List.filter_congr
  rintro ⟨a, b, e⟩ hm
  rw [mem_storedList] at hm
  have := mem_softDeletedList g (a, b)
  simp only [hm] at this
  by_cases hd : e.deleted = true
  · have hmem : (a, b) ∈ g.softDeletedList := this.2 ⟨e, rfl, hd⟩
    simp [hmem, hd]
  · have hmem : (a, b) ∉ g.softDeletedList := by
      intro hh
      obtain ⟨e', he', hd'⟩ := this.1 hh
      injection he' with he'; subst he'; exact hd hd'
    simp [hmem, hd]

theorem retrieveEdges_eq (h : WF0 g) : g.retrieveEdges =
    .ok ((g.storedList.filter (fun t => !t.2.2.deleted)).map (fun t => t.2.2)) := by
  unfold retrieveEdges
  have hall : g.storedList.all (fun t => decide (t.1 ∈ g.nodes) && decide (t.2.1 ∈ g.nodes)) = true := by
    rw [List.all_eq_true]
    rintro ⟨a, b, e⟩ hm
    rw [mem_storedList] at hm
    simp [h.edge_nodes hm]
  rw [if_pos hall]
  congr 2
  apply List.filter_congr
  rintro ⟨a, b, e⟩ hm
  rw [mem_storedList] at hm
  simp [softDeleted_eq, hm]

/-! ## parents -/

theorem parentsOfNode_eq (h : WF0 g) (v : ι) : g.parentsOfNode v =
    if g.edges.has v then .ok ((g.rev.keys2 v).filter (fun n => !g.softDeleted n v)) else .error .keyError := by
  unfold parentsOfNode
  have hk : g.rev.has v = g.edges.has v := h.hasR v
  cases hr : g.rev.get? v with
  | none =>
    have : g.edges.has v = false := by rw [← hk]; simp [Dict.has, hr]
    simp [this]
  | some row =>
    have hv : g.edges.has v = true := by rw [← hk]; simp [Dict.has, hr]
    have hk2 : g.rev.keys2 v = row.keys := by simp [Dict.keys2, hr]
    simp only [hv, if_true, hk2]
    rw [if_pos]
    rw [List.all_eq_true]
    intro n hn
    rw [List.mem_filter] at hn
    have h2 : g.rev.has2 v n = true := by
      rw [Dict.has2_iff_mem_keys2, hk2]; exact hn.1
    obtain ⟨e, he⟩ := has2_iff.1 h2
    have := h.rowsN n (h.revE v n e he).2
    simp [this]

end Graph
end Verif
