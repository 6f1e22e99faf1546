import Verif.Graph.Lemmas3
import Mathlib.Tactic.Tauto

/-!
# Helper lemmas: round trips, atomicity, the complete graph
-/

namespace Verif

section
variable {κ α : Type} [DecidableEq κ]

theorem assocSet_twice (k : κ) (x y : α) (l : List (κ × α)) :
    assocSet k y (assocSet k x l) = assocSet k y l := by
  induction l with
  | nil => simp [assocSet]
  | cons p l ih =>
    obtain ⟨a, b⟩ := p
    by_cases h : a = k <;> simp [assocSet, h, ih]

theorem Dict.set_set (d : Dict κ α) (k : κ) (x y : α) : (d.set k x).set k y = d.set k y :=
  Dict.ext (assocSet_twice k x y d.items)

theorem assocDel_set (k : κ) (x : α) (l : List (κ × α)) (h : k ∈ l.map Prod.fst) :
    assocDel k (assocSet k x l) = assocDel k l := by
  induction l with
  | nil => simp at h
  | cons p l ih =>
    obtain ⟨a, b⟩ := p
    by_cases hk : a = k
    · simp [assocSet, assocDel, hk]
    · have : k ∈ l.map Prod.fst := by
        simp only [List.map_cons, List.mem_cons] at h
        exact h.resolve_left (fun hh => hk hh.symm)
      simp [assocSet, assocDel, hk, ih this]

theorem Dict.del_set (d : Dict κ α) (k : κ) (x : α) (h : k ∈ d.keys) : (d.set k x).del k = d.del k :=
  Dict.ext (assocDel_set k x d.items h)

end

section
variable {ι α : Type} [DecidableEq ι]

theorem Dict.set2_twice (d : Dict ι (Dict ι α)) (u v : ι) (x y : α) :
    (d.set2 u v x).set2 u v y = d.set2 u v y := by
  unfold Dict.set2
  cases h : d.get? u with
  | none => simp [h]
  | some row => simp [Dict.set_set]

theorem Dict.del2_set2 (d : Dict ι (Dict ι α)) (u v : ι) (x : α) (h : d.has2 u v = true) :
    (d.set2 u v x).del2 u v = d.del2 u v := by
  unfold Dict.set2 Dict.del2
  cases hr : d.get? u with
  | none => simp [hr]
  | some row =>
    have hk : v ∈ row.keys := by
      have := Dict.has2_iff_mem_keys2 d u v
      rw [h] at this
      simpa [Dict.keys2, hr] using this
    simp [Dict.set_set, Dict.del_set _ _ _ hk]

theorem Dict.keys2_del2 (d : Dict ι (Dict ι α)) (u v a : ι) :
    (d.del2 u v).keys2 a = if a = u then (d.keys2 a).filter (fun k => !decide (k = v)) else d.keys2 a := by
  unfold Dict.del2 Dict.keys2
  cases hr : d.get? u with
  | none =>
    by_cases h : a = u
    · subst h; simp [hr]
    · simp [h]
  | some row =>
    by_cases h : a = u
    · subst h
      simp only [Dict.get?_set, if_true, hr, Dict.keys_del]
      rw [row.nodup_keys.erase_eq_filter]
      apply List.filter_congr
      intro k _
      by_cases hk : k = v <;> simp [hk]
    · have : ¬ u = a := fun hh => h hh.symm
      simp [Dict.get?_set, h, this]

end

namespace Graph
variable {ι δ : Type} [DecidableEq ι] {g : Graph ι δ}

/-- Marking a live edge as deleted and then as not deleted changes nothing. -/
theorem mark_unmark (h : WF0 g) {u v : ι} (hl : g.live u v = true) :
    modBoth (modBoth g u v (fun e => { e with deleted := true })) u v (fun e => { e with deleted := false }) = g := by
  obtain ⟨e, he, hd⟩ := live_iff.1 hl
  have hu := get2_isSome_has he
  have h1 : (modBoth g u v (fun e => { e with deleted := true })).edges.get2 u v
      = some { e with deleted := true } := by rw [get2_modBoth]; simp [he]
  rw [modBoth_of_some h1, modBoth_of_some he]
  have hr : g.rev.get2 v u = some e := (h.edge u v e he).2.2.2.2
  unfold putBoth
  apply Graph.ext
  · rfl
  · show (g.edges.set2 u v _).set2 u v _ = g.edges
    rw [Dict.set2_twice, set2_same]
    rw [he]; cases e; simp_all
  · show (g.rev.set2 v u _).set2 v u _ = g.rev
    rw [Dict.set2_twice, set2_same]
    rw [hr]; cases e; simp_all
  · rfl
  · rfl

theorem purgeG_keys2_rev (v : ι) : (purgeG g).rev.keys2 v =
    (g.rev.keys2 v).filter (fun n => !g.softDeleted n v) := by
  have step : ∀ (l : List (ι × ι)) (g : Graph ι δ), (dropList g l).rev.keys2 v =
      (g.rev.keys2 v).filter (fun n => !decide ((n, v) ∈ l ∧ (g.edges.get2 n v).isSome)) := by
    intro l
    induction l with
    | nil => intro g; simp [dropList]
    | cons p l ih =>
      intro g
      show (dropList (dropG g p.1 p.2) l).rev.keys2 v = _
      rw [ih]
      have hd : (dropG g p.1 p.2).rev.keys2 v = (g.rev.keys2 v).filter
          (fun n => !decide (n = p.1 ∧ v = p.2 ∧ (g.edges.get2 n v).isSome)) := by
        unfold dropG
        cases he : g.edges.get2 p.1 p.2 with
        | none =>
          symm; rw [List.filter_eq_self]
          intro n _
          by_cases hc : n = p.1 ∧ v = p.2
          · obtain ⟨rfl, rfl⟩ := hc; simp [he]
          · simp; tauto
        | some e =>
          show (g.rev.del2 p.2 p.1).keys2 v = _
          rw [Dict.keys2_del2]
          by_cases hv : v = p.2
          · subst hv
            rw [if_pos rfl]
            apply List.filter_congr
            intro n _
            by_cases hn : n = p.1
            · subst hn; simp [he]
            · simp [hn]
          · rw [if_neg hv]
            symm; rw [List.filter_eq_self]
            intro n _; simp [hv]
      rw [hd, List.filter_filter]
      apply List.filter_congr
      intro n _
      rw [get2_dropG]
      by_cases hc : n = p.1 ∧ v = p.2
      · obtain ⟨rfl, rfl⟩ := hc
        by_cases hs : (g.edges.get2 p.1 p.2).isSome <;> simp [hs]
      · have hc' : ¬ (p.1 = n ∧ p.2 = v) := fun hh => hc ⟨hh.1.symm, hh.2.symm⟩
        have hm : ((n, v) ∈ p :: l) ↔ (n, v) ∈ l := by
          constructor
          · intro hh
            rcases List.mem_cons.1 hh with hh | hh
            · exact absurd ⟨congrArg Prod.fst hh, congrArg Prod.snd hh⟩ hc
            · exact hh
          · exact List.mem_cons_of_mem _
        have hc2 : ¬ (n = p.1 ∧ v = p.2 ∧ (g.edges.get2 n v).isSome = true) := fun hh => hc ⟨hh.1, hh.2.1⟩
        simp only [hc', if_false, hm, hc2, decide_false, Bool.not_false, Bool.and_true]
  unfold purgeG
  rw [step]
  apply List.filter_congr
  intro n _
  have hm := mem_softDeletedList g (n, v)
  simp only at hm
  rw [softDeleted_eq]
  cases he : g.edges.get2 n v with
  | none => simp
  | some e =>
    rw [he] at hm
    by_cases hd : e.deleted = true
    · have : (n, v) ∈ g.softDeletedList := hm.2 ⟨e, rfl, hd⟩
      simp [hd, this]
    · have : (n, v) ∉ g.softDeletedList := by
        intro hh
        obtain ⟨e', he', hd'⟩ := hm.1 hh
        injection he' with he'; subst he'; exact hd hd'
      simp [hd, this]

theorem keys_dropList (l : List (ι × ι)) : (dropList g l).edges.keys = g.edges.keys := by
  induction l generalizing g with
  | nil => rfl
  | cons p l ih =>
    show (dropList (dropG g p.1 p.2) l).edges.keys = _
    rw [ih, keys_dropG]

theorem purgeG_has (v : ι) : (purgeG g).edges.has v = g.edges.has v :=
  Dict.has_eq_of_keys_eq (keys_dropList _) v

theorem softDeletedList_purgeG : (purgeG g).softDeletedList = [] := by
  unfold softDeletedList
  rw [storedList_purgeG, List.filter_filter]
  rw [List.filter_eq_nil_iff.2]
  · rfl
  · intro t _; cases t.2.2.deleted <;> simp

theorem purge_of_nil (hg : g.softDeletedList = []) : purge g = (.ok (), g) := by
  unfold purge
  rw [PyM.bind_ok (PyM.get_run g)]
  rw [hg]; rfl

/-! ## atomicity -/

theorem run_error_eq (h : WF0 g) (c : Cmd ι δ) (hc : ∀ u v, c ≠ .removeEdge u v false)
    (hc' : ∀ u v, c ≠ .restoreEdge u v) {er : PyErr} (her : (c.run g).1 = .error er) : (c.run g).2 = g := by
  cases c with
  | addNode id =>
    change (addNode id g).1 = _ at her
    show (addNode id g).2 = _
    rw [addNode_run] at her ⊢; split <;> simp_all
  | addEdge u v m t =>
    change (addEdge u v m t g).1 = _ at her
    show (addEdge u v m t g).2 = _
    rw [addEdge_run h] at her ⊢
    split
    · rfl
    · rename_i hn; rw [if_neg hn] at her; simp at her
  | addDirectedEdge u v m t =>
    change (addDirectedEdge u v m t g).1 = _ at her
    show (addDirectedEdge u v m t g).2 = _
    rw [addDirectedEdge_run h] at her ⊢
    split
    · rfl
    · rename_i hn; rw [if_neg hn] at her; simp at her
  | addEdgeHistory u v r =>
    change (addEdgeHistory u v r g).1 = _ at her
    rw [addEdgeHistory_run] at her; simp at her
  | removeEdge u v s =>
    cases s with
    | false => exact absurd rfl (hc u v)
    | true =>
      change (removeEdge u v true g).1 = _ at her
      show (removeEdge u v true g).2 = _
      rw [removeEdge_soft_run h] at her ⊢
      split
      · rfl
      · rename_i hn; rw [if_neg hn] at her; simp at her
  | restoreEdge u v => exact absurd rfl (hc' u v)
  | removeDirectedEdge u v s =>
    change (removeDirectedEdge u v s g).1 = _ at her
    show (removeDirectedEdge u v s g).2 = _
    cases s with
    | true =>
      rw [removeDirectedEdge_soft_run h] at her ⊢
      split
      · rfl
      · rename_i hn; rw [if_neg hn] at her; simp at her
    | false =>
      rw [removeDirectedEdge_hard_run h] at her ⊢
      split
      · rfl
      · rename_i hn; rw [if_neg hn] at her; simp at her
  | restoreDirectedEdge u v =>
    change (restoreDirectedEdge u v g).1 = _ at her
    show (restoreDirectedEdge u v g).2 = _
    rw [restoreDirectedEdge_run h] at her ⊢
    by_cases hn : u ∉ g.nodes ∨ v ∉ g.nodes
    · rw [if_pos hn]
    · rw [if_neg hn] at her ⊢
      cases he : g.edges.get2 u v with
      | some e => simp [he] at her
      | none =>
        cases hd : g.del.get2 u v with
        | none => rfl
        | some e => simp [he, hd] at her
  | updateEdge u v m t =>
    change (updateEdge u v m t g).1 = _ at her
    show (updateEdge u v m t g).2 = _
    rw [updateEdge_run h] at her ⊢
    split
    · rename_i hn; rw [if_pos hn] at her; simp at her
    · rfl
  | updateDirectedEdge u v m t =>
    change (updateDirectedEdge u v m t g).1 = _ at her
    show (updateDirectedEdge u v m t g).2 = _
    rw [updateDirectedEdge_run h] at her ⊢
    split
    · rename_i hn; rw [if_pos hn] at her; simp at her
    · rfl
  | purge =>
    change (purge g).1 = _ at her
    rw [purge_run h] at her; simp at her

/-- If `restore_edge` raises, then either nothing changed or only `u → v` was un-deleted. -/
theorem restoreEdge_error (h : WF0 g) {u v : ι} {er : PyErr} (her : (restoreEdge u v g).1 = .error er) :
    (restoreEdge u v g).2 = g ∨
    (restoreEdge u v g).2 = modBoth g u v (fun e => { e with deleted := false }) := by
  rw [restoreEdge_run] at her ⊢
  by_cases hn : u ∉ g.nodes ∨ v ∉ g.nodes
  · rw [if_pos hn]; left; rfl
  · rw [if_neg hn] at her ⊢
    push Not at hn
    cases he : g.edges.get2 u v with
    | some e =>
      have hr : restoreHalf u v g = (.ok (), modBoth g u v (fun e => { e with deleted := false })) := by
        rw [restoreHalf_run h hn.1 hn.2, he]
      have hw : WF0 (modBoth g u v (fun e => { e with deleted := false })) :=
        h.modBoth (fun _ => ⟨rfl, rfl⟩)
      rw [PyM.bind_ok hr] at her ⊢
      rw [restoreHalf_run hw (by rw [nodes_modBoth]; exact hn.2) (by rw [nodes_modBoth]; exact hn.1)] at her ⊢
      right
      split
      · rename_i e' he'; simp [he'] at her
      · rename_i he'
        split
        · rename_i e' hd'; simp [he', hd'] at her
        · rfl
    | none =>
      cases hd : g.del.get2 u v with
      | none =>
        left
        have hr : restoreHalf u v g = (.error .keyError, g) := by
          rw [restoreHalf_run h hn.1 hn.2]; simp [he, hd]
        rw [PyM.bind_run, hr]
      | some e =>
        exfalso
        have hr : restoreHalf u v g = (.ok (), forgetD (addG g u v e.metadata .undirected) u v) := by
          rw [restoreHalf_run h hn.1 hn.2]; simp [he, hd]
        have huv := (h.delE u v e hd).1
        have hw : WF0 (forgetD (addG g u v e.metadata .undirected) u v) :=
          (h.addG hn.1 hn.2 huv _ _).forgetD _ _
        rw [PyM.bind_ok hr] at her
        rw [restoreHalf_run hw (by simp [forgetD, hn.2]) (by simp [forgetD, hn.1])] at her
        have : (forgetD (addG g u v e.metadata .undirected) u v).edges.get2 v u
            = some ⟨v, u, .undirected, e.metadata, false⟩ := by
          show (addG g u v e.metadata .undirected).edges.get2 v u = _
          rw [get2_addG huv]
          simp [huv]
        rw [this] at her
        simp at her

/-! ## the complete graph -/

/-- the entry written by `add_edge(u, v, {})` -/
def Full (m0 : δ) (g : Graph ι δ) (a b : ι) : Prop :=
  g.edges.get2 a b = some ⟨a, b, .undirected, m0, false⟩

theorem complete_inner (m0 : δ) {u : ι} (l : List ι) (h : WF0 g) (hu : u ∈ g.nodes) (hl : ∀ v ∈ l, v ∈ g.nodes) :
    ∃ g', PyM.forEach l (fun v => if u = v then pure () else addEdge u v m0) g = (.ok (), g') ∧ WF0 g' ∧
      g'.nodes = g.nodes ∧ (∀ a b, Full m0 g a b → Full m0 g' a b) ∧
      (∀ v ∈ l, u ≠ v → Full m0 g' u v ∧ Full m0 g' v u) ∧
      (RevExact g → RevExact g') := by
  induction l generalizing g with
  | nil => exact ⟨g, rfl, h, rfl, fun _ _ hh => hh, by simp, id⟩
  | cons v l ih =>
    rw [PyM.forEach_cons]
    by_cases huv : u = v
    · rw [PyM.bind_ok (s' := g) (a := ()) (by rw [if_pos huv]; rfl)]
      obtain ⟨g', h1, h2, h3, h4, h5, h6⟩ := ih h hu (fun w hw => hl w (List.mem_cons_of_mem _ hw))
      refine ⟨g', h1, h2, h3, h4, ?_, h6⟩
      intro w hw hne
      rcases List.mem_cons.1 hw with rfl | hw
      · exact absurd huv hne
      · exact h5 w hw hne
    · have hv := hl v List.mem_cons_self
      have hrun : (if u = v then (pure () : PyM (Graph ι δ) Unit) else addEdge u v m0) g =
          (.ok (), addG g u v m0 .undirected) := by
        rw [if_neg huv, addEdge_run h]
        simp [hu, hv, huv]
      rw [PyM.bind_ok hrun]
      obtain ⟨g', h1, h2, h3, h4, h5, h6⟩ := ih (h.addG hu hv huv m0 .undirected)
        (by simp [hu]) (fun w hw => by simp [hl w (List.mem_cons_of_mem _ hw)])
      refine ⟨g', h1, h2, by rw [h3]; simp, ?_, ?_, ?_⟩
      · intro a b hab
        apply h4
        unfold Full at hab ⊢
        rw [get2_addG huv]
        split
        · rename_i hc; rw [hc.1, hc.2]
        · split
          · rename_i hc; rw [hc.1, hc.2]
          · exact hab
      · intro w hw hne
        rcases List.mem_cons.1 hw with rfl | hw
        · constructor <;> apply h4 <;> unfold Full <;> rw [get2_addG huv] <;> simp [huv]
        · exact h5 w hw hne
      · intro hr; exact h6 (RevExact.addG h hr hu hv huv _ _)

theorem complete_outer (m0 : δ) (ns l : List ι) (h : WF0 g) (hn : g.nodes = ns) (hl : ∀ v ∈ l, v ∈ ns) :
    ∃ g', PyM.forEach l (fun u => PyM.forEach ns (fun v => if u = v then pure () else addEdge u v m0)) g
        = (.ok (), g') ∧ WF0 g' ∧ g'.nodes = g.nodes ∧ (∀ a b, Full m0 g a b → Full m0 g' a b) ∧
      (∀ u ∈ l, ∀ v ∈ ns, u ≠ v → Full m0 g' u v) ∧ (RevExact g → RevExact g') := by
  induction l generalizing g with
  | nil => exact ⟨g, rfl, h, rfl, fun _ _ hh => hh, by simp, id⟩
  | cons u l ih =>
    rw [PyM.forEach_cons]
    obtain ⟨g1, a1, a2, a3, a4, a5, a6⟩ := complete_inner (u := u) m0 ns h (hn ▸ hl u List.mem_cons_self)
      (fun v hv => hn ▸ hv)
    rw [PyM.bind_ok a1]
    obtain ⟨g', b1, b2, b3, b4, b5, b6⟩ := ih a2 (a3.trans hn) (fun w hw => hl w (List.mem_cons_of_mem _ hw))
    refine ⟨g', b1, b2, b3.trans a3, fun a b hh => b4 a b (a4 a b hh), ?_, fun hr => b6 (a6 hr)⟩
    intro w hw v hv hne
    rcases List.mem_cons.1 hw with rfl | hw
    · exact b4 _ _ (a5 v hv hne).1
    · exact b5 w hw v hv hne

theorem createAll_spec (m0 : δ) (h : WF0 g) :
    ∃ g', createAllPossibleEdges m0 g = (.ok (), g') ∧ WF0 g' ∧ g'.nodes = g.nodes ∧
      (∀ u ∈ g.nodes, ∀ v ∈ g.nodes, u ≠ v → Full m0 g' u v) ∧ (RevExact g → RevExact g') := by
  unfold createAllPossibleEdges
  rw [PyM.bind_ok (PyM.get_run g)]
  obtain ⟨g', b1, b2, b3, _, b5, b6⟩ := complete_outer m0 g.nodes g.nodes h rfl (fun _ hv => hv)
  exact ⟨g', b1, b2, b3, b5, b6⟩

end Graph
end Verif
