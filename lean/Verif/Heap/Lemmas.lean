import Verif.Heap.Spec
import Verif.Action.Lemmas2

/-!
# Helper lemmas: where the metadata of a graph comes from after actions
-/

namespace Verif
namespace Heap
open Graph
variable {ι δ : Type} [DecidableEq ι]

/-- the update `r` writes the metadata of `a -> b` -/
def Covers (r : TestResult ι δ) (a b : ι) : Prop :=
  (r.action.isUpdate = true ∧ r.u = a ∧ r.v = b) ∨ (r.action = .updateEdge ∧ r.u = b ∧ r.v = a)

theorem Covers.update {r : TestResult ι δ} {a b : ι} (h : Covers r a b) : r.action.isUpdate = true := by
  rcases h with h | h
  · exact h.1
  · rw [h.1]; rfl

theorem Covers.ends {r : TestResult ι δ} {a b : ι} (h : Covers r a b) :
    (r.u = a ∧ r.v = b) ∨ (r.u = b ∧ r.v = a) := h.imp (fun h => h.2) (fun h => h.2)

/-- the edges of `g'` are those of `g`, with the old metadata or that of a covering result in `rs` -/
def EdgesFrom (rs : List (TestResult ι δ)) (g g' : Graph ι δ) : Prop :=
  ∀ a b e', g'.edges.get2 a b = some e' → ∃ e, g.edges.get2 a b = some e ∧
    (e'.metadata = e.metadata ∨ ∃ r ∈ rs, Covers r a b ∧ r.data = some e'.metadata)

/-- the recorded actions of `g'` are those of `g` and some in `rs` -/
def RecordsFrom (rs : List (TestResult ι δ)) (g g' : Graph ι δ) : Prop :=
  ∀ k l' r, g'.hist.get? k = some l' → r ∈ l' → (∃ l, g.hist.get? k = some l ∧ r ∈ l) ∨ r ∈ rs

theorem EdgesFrom.refl (rs : List (TestResult ι δ)) (g : Graph ι δ) : EdgesFrom rs g g := fun _ _ e' h => ⟨e', h, .inl rfl⟩

theorem RecordsFrom.refl (rs : List (TestResult ι δ)) (g : Graph ι δ) : RecordsFrom rs g g :=
  fun _ l' _ h hr => .inl ⟨l', h, hr⟩

theorem EdgesFrom.trans {rs : List (TestResult ι δ)} {g g1 g2 : Graph ι δ} (h1 : EdgesFrom rs g g1) (h2 : EdgesFrom rs g1 g2) :
    EdgesFrom rs g g2 := by
  intro a b e2 he2
  obtain ⟨e1, he1, h⟩ := h2 a b e2 he2
  obtain ⟨e, he, h'⟩ := h1 a b e1 he1
  refine ⟨e, he, ?_⟩
  rcases h with h | h
  · rw [h]; exact h'
  · exact .inr h

theorem RecordsFrom.trans {rs : List (TestResult ι δ)} {g g1 g2 : Graph ι δ} (h1 : RecordsFrom rs g g1)
    (h2 : RecordsFrom rs g1 g2) : RecordsFrom rs g g2 := by
  intro k l2 r hl hr
  rcases h2 k l2 r hl hr with ⟨l1, hl1, hr1⟩ | h
  · exact h1 k l1 r hl1 hr1
  · exact .inr h

theorem EdgesFrom.mono {rs rs' : List (TestResult ι δ)} {g g' : Graph ι δ} (hs : ∀ r ∈ rs, r ∈ rs') (h : EdgesFrom rs g g') :
    EdgesFrom rs' g g' := by
  intro a b e' he'
  obtain ⟨e, he, h⟩ := h a b e' he'
  exact ⟨e, he, h.imp_right (fun ⟨r, hr, h⟩ => ⟨r, hs r hr, h⟩)⟩

theorem RecordsFrom.mono {rs rs' : List (TestResult ι δ)} {g g' : Graph ι δ} (hs : ∀ r ∈ rs, r ∈ rs')
    (h : RecordsFrom rs g g') : RecordsFrom rs' g g' := fun k l' r hl hr => (h k l' r hl hr).imp_right (hs r)

/-- changing edges without touching metadata -/
theorem edgesFrom_modBoth (rs : List (TestResult ι δ)) {g : Graph ι δ} {u v : ι} {f : Edge ι δ → Edge ι δ}
    (hf : ∀ e, (f e).metadata = e.metadata) : EdgesFrom rs g (modBoth g u v f) := by
  intro a b e' he'
  rw [get2_modBoth] at he'
  split at he'
  · rename_i hc
    obtain ⟨rfl, rfl⟩ := hc
    rw [Option.map_eq_some_iff] at he'
    obtain ⟨e, he, rfl⟩ := he'
    exact ⟨e, he, .inl (hf e)⟩
  · exact ⟨e', he', .inl rfl⟩

theorem edgesFrom_markG (rs : List (TestResult ι δ)) (g : Graph ι δ) (u v : ι) : EdgesFrom rs g (markG g u v) :=
  edgesFrom_modBoth rs (f := fun e => { e with deleted := true }) (fun _ => rfl)

theorem edgesFrom_typeG (rs : List (TestResult ι δ)) (g : Graph ι δ) (u v : ι) (t : EType) :
    EdgesFrom rs g (typeG g u v t) :=
  edgesFrom_modBoth rs (f := fun e => { e with etype := t }) (fun _ => rfl)

theorem edgesFrom_setMeta {rs : List (TestResult ι δ)} {r : TestResult ι δ} (hr : r ∈ rs) {g : Graph ι δ} {u v : ι}
    (hc : Covers r u v) : EdgesFrom rs g (modBoth g u v (setMeta r.data)) := by
  intro a b e' he'
  rw [get2_modBoth] at he'
  split at he'
  · rename_i hc
    obtain ⟨rfl, rfl⟩ := hc
    rw [Option.map_eq_some_iff] at he'
    obtain ⟨e, he, rfl⟩ := he'
    refine ⟨e, he, ?_⟩
    cases hd : r.data with
    | none => exact .inl rfl
    | some m => exact .inr ⟨r, hr, hc, by rw [hd]; rfl⟩
  · exact ⟨e', he', .inl rfl⟩

theorem edgesFrom_addH (rs : List (TestResult ι δ)) {g : Graph ι δ} (u v : ι) (r : TestResult ι δ) :
    EdgesFrom rs g (addH u v r g) := by
  intro a b e' he'
  rw [edges_addH] at he'
  exact ⟨e', he', .inl rfl⟩

theorem recordsFrom_hist {rs : List (TestResult ι δ)} {g g' : Graph ι δ} (h : g'.hist = g.hist) : RecordsFrom rs g g' := by
  intro k l' r hl hr
  rw [h] at hl
  exact .inl ⟨l', hl, hr⟩

theorem recordsFrom_addH {rs : List (TestResult ι δ)} {g : Graph ι δ} {u v : ι} {r : TestResult ι δ} (hr : r ∈ rs) :
    RecordsFrom rs g (addH u v r g) := by
  intro k l' r' hl hr'
  rw [hist_addH] at hl
  split at hl
  · injection hl with hl
    subst hl
    rw [List.mem_append, List.mem_singleton] at hr'
    rcases hr' with h | h
    · cases hh : g.hist.get? k with
      | none => rw [hh] at h; cases h
      | some l => rw [hh] at h; exact .inl ⟨l, rfl, h⟩
    · rw [h]; exact .inr hr
  · exact .inl ⟨l', hl, hr'⟩

theorem edgesFrom_orientG (rs : List (TestResult ι δ)) (g : Graph ι δ) (u v : ι) : EdgesFrom rs g (orientG g u v) := by
  unfold orientG
  split
  · exact (edgesFrom_markG rs g u v).trans (edgesFrom_typeG rs _ _ _ _)
  · exact edgesFrom_markG rs g u v

theorem hist_orientG (g : Graph ι δ) (u v : ι) : (orientG g u v).hist = g.hist := by
  unfold orientG
  split
  · rw [hist_modBoth, hist_modBoth]
  · rw [hist_modBoth]

theorem applyOne_from {rs : List (TestResult ι δ)} {r : TestResult ι δ} (hm : r ∈ rs) {g : Graph ι δ} (h : WF0 g)
    (hr : r.action.isRestore = false) : EdgesFrom rs g (applyOne r g).2 ∧ RecordsFrom rs g (applyOne r g).2 := by
  cases ha : r.action with
  | doNothing => rw [applyOne_doNothing ha]; exact ⟨.refl _ _, .refl _ _⟩
  | removeEdgeUndirected =>
    rw [applyOne_removeUndirected h ha]
    split
    · refine ⟨?_, ?_⟩
      · exact (((edgesFrom_markG rs g _ _).trans (edgesFrom_markG rs _ _ _)).trans
          (edgesFrom_addH rs _ _ _)).trans (edgesFrom_addH rs _ _ _)
      · exact ((recordsFrom_hist (by rw [hist_modBoth, hist_modBoth])).trans (recordsFrom_addH hm)).trans
          (recordsFrom_addH hm)
    · exact ⟨.refl _ _, .refl _ _⟩
  | removeEdgeDirected =>
    rw [applyOne_removeDirected h ha]
    split
    · exact ⟨(edgesFrom_orientG rs _ _ _).trans (edgesFrom_addH rs _ _ _),
        (recordsFrom_hist (hist_orientG _ _ _)).trans (recordsFrom_addH hm)⟩
    · exact ⟨.refl _ _, .refl _ _⟩
  | updateEdgeDirected =>
    rw [applyOne_updateDirected h ha]
    split
    · exact ⟨(edgesFrom_setMeta hm (.inl ⟨by rw [ha]; rfl, rfl, rfl⟩)).trans (edgesFrom_addH rs _ _ _),
        (recordsFrom_hist hist_modBoth).trans (recordsFrom_addH hm)⟩
    · exact ⟨.refl _ _, .refl _ _⟩
  | updateEdge =>
    rw [applyOne_update h ha]
    split
    · split
      · refine ⟨?_, ?_⟩
        · exact (((edgesFrom_setMeta hm (.inl ⟨by rw [ha]; rfl, rfl, rfl⟩)).trans
            (edgesFrom_setMeta hm (.inr ⟨ha, rfl, rfl⟩))).trans (edgesFrom_addH rs _ _ _)).trans (edgesFrom_addH rs _ _ _)
        · exact ((recordsFrom_hist (by rw [hist_modBoth, hist_modBoth])).trans (recordsFrom_addH hm)).trans
            (recordsFrom_addH hm)
      · exact ⟨.refl _ _, .refl _ _⟩
    · exact ⟨.refl _ _, .refl _ _⟩
  | updateEdgeType =>
    rw [applyOne_updateType h ha]; split <;> exact ⟨.refl _ _, .refl _ _⟩
  | updateEdgeTypeDirected =>
    rw [applyOne_updateTypeDirected h ha]; split <;> exact ⟨.refl _ _, .refl _ _⟩
  | restoreEdge => rw [ha] at hr; cases hr
  | restoreEdgeDirected => rw [ha] at hr; cases hr

theorem takeItems_from {g : Graph ι δ} (h : WF0 g) (rs : List (TestResult ι δ))
    (hr : ∀ r ∈ rs, r.action.isRestore = false) :
    EdgesFrom rs g (takeItems false rs g).2 ∧ RecordsFrom rs g (takeItems false rs g).2 := by
  have := takeItems_inv (g := g) (fun g' => WF0 g' ∧ EdgesFrom rs g g' ∧ RecordsFrom rs g g') rs (fun r hm g' ⟨h1, h2, h3⟩ => by
    have := applyOne_from hm h1 (hr r hm)
    exact ⟨applyOne_wf h1, h2.trans this.1, h3.trans this.2⟩) ⟨h, .refl _ _, .refl _ _⟩
  exact this.2

/-! ## lists of updates -/

/-- the update `r` can be applied -/
def Fits (g : Graph ι δ) (r : TestResult ι δ) : Prop :=
  (r.action = .updateEdge ∧ (g.live r.u r.v = true ∨ g.live r.v r.u = true)) ∨
    (r.action = .updateEdgeDirected ∧ g.live r.u r.v = true)

theorem applyOne_update_live {g : Graph ι δ} (h : WF0 g) {r : TestResult ι δ} (hu : r.action.isUpdate = true) (a b : ι) :
    (applyOne r g).2.live a b = g.live a b := by
  cases ha : r.action <;> rw [ha] at hu <;> try cases hu
  · rw [applyOne_update h ha]
    split
    · split
      · simp only [live_addH]
        rw [live_same _ (setMeta_del _), live_same _ (setMeta_del _)]
      · rfl
    · rfl
  · rw [applyOne_updateDirected h ha]
    split
    · simp only [live_addH]
      rw [live_same _ (setMeta_del _)]
    · rfl

/-- after an update that was applied the edges it covers have its data -/
theorem applyOne_covers {g : Graph ι δ} (h : WF0 g) {r : TestResult ι δ} (hf : Fits g r) {m : δ} (hd : r.data = some m)
    {b' : Bool} (ho : (applyOne r g).1 = .ok b') {a b : ι} (hc : Covers r a b) {e : Edge ι δ}
    (he : (applyOne r g).2.edges.get2 a b = some e) : e.metadata = m := by
  rcases hf with ⟨ha, hl⟩ | ⟨ha, hl⟩
  · rw [applyOne_update h ha] at ho he
    have hl' : (g.live r.u r.v || g.live r.v r.u) = true := by rw [Bool.or_eq_true]; exact hl
    rw [if_pos hl'] at ho he
    by_cases h2 : g.edges.has2 r.u r.v = true ∧ g.edges.has2 r.v r.u = true
    · rw [if_pos h2] at he
      simp only [edges_addH, get2_modBoth, hd, setMeta] at he
      rcases hc.ends with ⟨rfl, rfl⟩ | ⟨rfl, rfl⟩
      · by_cases hx : r.v = r.u ∧ r.u = r.v
        · rw [if_pos hx] at he
          rw [Option.map_eq_some_iff] at he
          obtain ⟨e0, _, rfl⟩ := he
          rfl
        · rw [if_neg hx, if_pos ⟨rfl, rfl⟩, Option.map_eq_some_iff] at he
          obtain ⟨e0, _, rfl⟩ := he
          rfl
      · rw [if_pos ⟨rfl, rfl⟩, Option.map_eq_some_iff] at he
        obtain ⟨e0, _, rfl⟩ := he
        rfl
    · rw [if_neg h2] at ho; cases ho
  · rw [applyOne_updateDirected h ha, if_pos hl] at he
    simp only [edges_addH, get2_modBoth, hd, setMeta] at he
    rcases hc with ⟨_, rfl, rfl⟩ | ⟨hx, _⟩
    · rw [if_pos ⟨rfl, rfl⟩, Option.map_eq_some_iff] at he
      obtain ⟨e0, _, rfl⟩ := he
      rfl
    · rw [ha] at hx; cases hx

/-- after a list of fitting updates that did not raise every covered edge has the data of one that covers it -/
theorem takeItems_covers {g : Graph ι δ} (h : WF0 g) (rs : List (TestResult ι δ))
    (hf : ∀ r ∈ rs, Fits g r ∧ ∃ m, r.data = some m) {t : List (TestResult ι δ)} {g' : Graph ι δ}
    (ho : takeItems false rs g = (.ok t, g')) {a b : ι} (hc : ∃ r ∈ rs, Covers r a b) {e : Edge ι δ}
    (he : g'.edges.get2 a b = some e) : ∃ r ∈ rs, Covers r a b ∧ r.data = some e.metadata := by
  induction rs generalizing g t with
  | nil => obtain ⟨r, hr, _⟩ := hc; cases hr
  | cons r rs ih =>
    have hwf := applyOne_wf (r := r) h
    have hr := hf r List.mem_cons_self
    obtain ⟨m, hd⟩ := hr.2
    have hu : r.action.isUpdate = true := by
      rcases hr.1 with ⟨h, _⟩ | ⟨h, _⟩ <;> rw [h] <;> rfl
    have hlive := fun a b => applyOne_update_live h hu a b
    have hcov := fun b' (ho : (applyOne r g).1 = .ok b') (e : Edge ι δ) (hc : Covers r a b)
      (he : (applyOne r g).2.edges.get2 a b = some e) => applyOne_covers h hr.1 hd ho hc he
    rw [takeItems_cons] at ho
    generalize applyOne r g = x at ho hwf hlive hcov
    obtain ⟨er | b', g1⟩ := x
    · cases ho
    · simp only at ho hwf hlive hcov
      have hres : ∀ r' ∈ rs, r'.action.isRestore = false := by
        intro r' hr'
        rcases (hf r' (List.mem_cons_of_mem _ hr')).1 with ⟨h, _⟩ | ⟨h, _⟩ <;> rw [h] <;> rfl
      have hfrom := (takeItems_from hwf rs hres).1
      have hf' : ∀ r' ∈ rs, Fits g1 r' ∧ ∃ m, r'.data = some m := by
        intro r' hr'
        have := hf r' (List.mem_cons_of_mem _ hr')
        refine ⟨?_, this.2⟩
        unfold Fits
        rw [hlive, hlive]
        exact this.1
      have ih' := fun t (ho : takeItems false rs g1 = (.ok t, g')) hc => ih (t := t) hwf hf' ho hc
      generalize hy : takeItems false rs g1 = y at ho hfrom ih'
      obtain ⟨er | t', g2⟩ := y
      · cases ho
      · simp only at ho
        injection ho with ho1 ho2
        subst ho2
        by_cases hc' : ∃ r' ∈ rs, Covers r' a b
        · obtain ⟨r', hr', h'⟩ := ih' t' rfl hc'
          exact ⟨r', List.mem_cons_of_mem _ hr', h'⟩
        · obtain ⟨e1, he1, hm⟩ := hfrom a b e he
          have hcr : Covers r a b := by
            obtain ⟨r', hr', h'⟩ := hc
            rcases List.mem_cons.1 hr' with rfl | hr'
            · exact h'
            · exact absurd ⟨r', hr', h'⟩ hc'
          rcases hm with hm | ⟨r', hr', h', _⟩
          · refine ⟨r, List.mem_cons_self, hcr, ?_⟩
            rw [hd, hm, hcov b' rfl e1 hcr he1]
          · exact absurd ⟨r', hr', h'⟩ hc'

end Heap
end Verif
