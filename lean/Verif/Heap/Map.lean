import Verif.Pipeline.Model

/-!
# Renaming the metadata of a graph

The graph operations never look into the metadata.  `Graph.map f` replaces every piece of metadata; all edits, actions and
the purge commute with it (`SimAt`).
-/

namespace Verif

section Maps
variable {κ ι α β γ : Type}

/-- apply a function to the values of a dictionary -/
def Dict.map (f : α → β) (d : Dict κ α) : Dict κ β :=
  ⟨d.items.map (fun p => (p.1, f p.2)), by simpa [List.map_map, Function.comp_def] using d.nodup⟩

/-- replace the metadata of an edge -/
def Edge.map (f : α → β) (e : Edge ι α) : Edge ι β := ⟨e.u, e.v, e.etype, f e.metadata, e.deleted⟩

/-- replace the data of a result -/
def TestResult.map (f : α → β) (r : TestResult ι α) : TestResult ι β := ⟨r.u, r.v, r.action, r.data.map f⟩

/-- replace all metadata of a graph -/
def Graph.map (f : α → β) (g : Graph ι α) : Graph ι β where
  nodes := g.nodes
  edges := g.edges.map (Dict.map (Edge.map f))
  rev := g.rev.map (Dict.map (Edge.map f))
  del := g.del.map (Dict.map (Edge.map f))
  hist := g.hist.map (List.map (TestResult.map f))

/-- replace the data of what `process` returned -/
def mapResult (f : α → β) (r : Option (List (TestResult ι α))) : Option (List (TestResult ι β)) :=
  r.map (List.map (TestResult.map f))

/-- replace the data of many results -/
def mapResults (f : α → β) (rs : Results ι α) : Results ι β := rs.map (mapResult f)

/-- replace the data of a pair of lists of actions -/
def mapPair (f : α → β) (p : List (TestResult ι α) × List (TestResult ι α)) :
    List (TestResult ι β) × List (TestResult ι β) := (p.1.map (TestResult.map f), p.2.map (TestResult.map f))

theorem Edge.map_map (f : α → β) (h : β → γ) (e : Edge ι α) : (e.map f).map h = e.map (h ∘ f) := rfl

theorem TestResult.map_map (f : α → β) (h : β → γ) (r : TestResult ι α) : (r.map f).map h = r.map (h ∘ f) := by
  simp [TestResult.map, Option.map_map]

theorem Dict.map_map (f : α → β) (h : β → γ) (d : Dict κ α) : (d.map f).map h = d.map (h ∘ f) := by
  simp [Dict.map, List.map_map, Function.comp_def]

theorem Graph.map_map (f : α → β) (h : β → γ) (g : Graph ι α) : (g.map f).map h = g.map (h ∘ f) := by
  have e : ∀ d : Dict ι (Dict ι (Edge ι α)), (d.map (Dict.map (Edge.map f))).map (Dict.map (Edge.map h)) =
      d.map (Dict.map (Edge.map (h ∘ f))) := by
    intro d
    rw [Dict.map_map]
    congr 1
    funext r
    exact Dict.map_map _ _ _
  unfold Graph.map
  simp only [e]
  congr 1
  rw [Dict.map_map]
  congr 1
  funext l
  simp [TestResult.map, List.map_map, Function.comp_def, Option.map_map]

theorem mapResult_mapResult (f : α → β) (h : β → γ) (r : Option (List (TestResult ι α))) :
    mapResult h (mapResult f r) = mapResult (h ∘ f) r := by
  cases r with
  | none => rfl
  | some l => simp [mapResult, List.map_map, Function.comp_def, TestResult.map_map]

theorem mapResults_mapResults (f : α → β) (h : β → γ) (rs : Results ι α) :
    mapResults h (mapResults f rs) = mapResults (h ∘ f) rs := by
  simp [mapResults, List.map_map, Function.comp_def, mapResult_mapResult]

theorem mapPair_mapPair (f : α → β) (h : β → γ) (p : List (TestResult ι α) × List (TestResult ι α)) :
    mapPair h (mapPair f p) = mapPair (h ∘ f) p := by
  simp [mapPair, List.map_map, Function.comp_def, TestResult.map_map]

theorem Dict.keys_map (f : α → β) (d : Dict κ α) : (d.map f).keys = d.keys := by
  simp [Dict.map, Dict.keys, List.map_map, Function.comp_def]

variable [DecidableEq κ] [DecidableEq ι]

theorem assoc_map (f : α → β) (k : κ) (l : List (κ × α)) :
    assoc k (l.map (fun p => (p.1, f p.2))) = (assoc k l).map f := by
  induction l with
  | nil => rfl
  | cons p l ih =>
    obtain ⟨k', v⟩ := p
    simp only [List.map_cons, assoc]
    split
    · rfl
    · exact ih

theorem assocSet_map (f : α → β) (k : κ) (v : α) (l : List (κ × α)) :
    assocSet k (f v) (l.map (fun p => (p.1, f p.2))) = (assocSet k v l).map (fun p => (p.1, f p.2)) := by
  induction l with
  | nil => rfl
  | cons p l ih =>
    obtain ⟨k', v'⟩ := p
    simp only [List.map_cons, assocSet]
    split
    · rfl
    · rw [ih]; rfl

theorem assocDel_map (f : α → β) (k : κ) (l : List (κ × α)) :
    assocDel k (l.map (fun p => (p.1, f p.2))) = (assocDel k l).map (fun p => (p.1, f p.2)) := by
  induction l with
  | nil => rfl
  | cons p l ih =>
    obtain ⟨k', v'⟩ := p
    simp only [List.map_cons, assocDel]
    split
    · rfl
    · rw [ih]; rfl

namespace Dict

theorem get?_map (f : α → β) (d : Dict κ α) (k : κ) : (d.map f).get? k = (d.get? k).map f := assoc_map f k d.items

theorem has_map (f : α → β) (d : Dict κ α) (k : κ) : (d.map f).has k = d.has k := by
  simp [Dict.has, get?_map]

theorem set_map (f : α → β) (d : Dict κ α) (k : κ) (v : α) : (d.map f).set k (f v) = (d.set k v).map f := by
  simp only [Dict.map, Dict.set, assocSet_map]

theorem del_map (f : α → β) (d : Dict κ α) (k : κ) : (d.map f).del k = (d.del k).map f := by
  simp only [Dict.map, Dict.del, assocDel_map]

theorem empty_map (f : α → β) : (Dict.empty : Dict κ α).map f = Dict.empty := rfl

theorem get2_map (f : α → β) (d : Dict ι (Dict ι α)) (u v : ι) :
    (d.map (Dict.map f)).get2 u v = (d.get2 u v).map f := by
  unfold get2
  rw [get?_map]
  cases d.get? u with
  | none => rfl
  | some r => exact get?_map f r v

theorem has2_map (f : α → β) (d : Dict ι (Dict ι α)) (u v : ι) : (d.map (Dict.map f)).has2 u v = d.has2 u v := by
  simp [has2, get2_map]

theorem keys2_map (f : α → β) (d : Dict ι (Dict ι α)) (u : ι) : (d.map (Dict.map f)).keys2 u = d.keys2 u := by
  unfold keys2
  rw [get?_map]
  cases d.get? u with
  | none => rfl
  | some r => exact keys_map f r

theorem set2_map (f : α → β) (d : Dict ι (Dict ι α)) (u v : ι) (x : α) :
    (d.map (Dict.map f)).set2 u v (f x) = (d.set2 u v x).map (Dict.map f) := by
  unfold set2
  rw [get?_map]
  cases d.get? u with
  | none => rfl
  | some r =>
    show (d.map (Dict.map f)).set u ((r.map f).set v (f x)) = _
    rw [set_map f r, set_map]

theorem del2_map (f : α → β) (d : Dict ι (Dict ι α)) (u v : ι) :
    (d.map (Dict.map f)).del2 u v = (d.del2 u v).map (Dict.map f) := by
  unfold del2
  rw [get?_map]
  cases d.get? u with
  | none => rfl
  | some r =>
    show (d.map (Dict.map f)).set u ((r.map f).del v) = _
    rw [del_map f r, set_map]

end Dict

namespace Graph

/-! ## queries -/

theorem softDeleted_map (f : α → β) (g : Graph ι α) (u v : ι) : (g.map f).softDeleted u v = g.softDeleted u v := by
  unfold softDeleted
  simp only [Graph.map, Dict.get?_map]
  cases g.edges.get? u with
  | none => rfl
  | some r =>
    simp only [Option.map_some, Dict.get?_map]
    cases r.get? v <;> rfl

theorem edgeExists_map (f : α → β) (g : Graph ι α) (u v : ι) : (g.map f).edgeExists u v = g.edgeExists u v := by
  unfold edgeExists
  simp only [softDeleted_map]
  simp only [Graph.map, Dict.has2_map]

theorem directedEdgeExists_map (f : α → β) (g : Graph ι α) (u v : ι) :
    (g.map f).directedEdgeExists u v = g.directedEdgeExists u v := by
  unfold directedEdgeExists
  simp only [softDeleted_map]
  simp only [Graph.map, Dict.has2_map, Dict.has_map]

theorem undirectedEdgeExists_map (f : α → β) (g : Graph ι α) (u v : ι) :
    (g.map f).undirectedEdgeExists u v = g.undirectedEdgeExists u v := by
  simp only [undirectedEdgeExists, directedEdgeExists_map]

theorem storedList_map (f : α → β) (g : Graph ι α) :
    (g.map f).storedList = g.storedList.map (fun t => (t.1, t.2.1, t.2.2.map f)) := by
  simp only [storedList, Graph.map, Dict.map, List.flatMap_map, List.map_flatMap, List.map_map, Function.comp_def]

theorem softDeletedList_map (f : α → β) (g : Graph ι α) : (g.map f).softDeletedList = g.softDeletedList := by
  simp only [softDeletedList, storedList_map, List.filter_map, List.map_map, Function.comp_def, Edge.map]

/-! ## edits -/

/-- running `m'` on the renamed graph is running `m` and renaming afterwards -/
def SimAt {A B : Type} (f : α → β) (fa : A → B) (m : PyM (Graph ι α) A) (m' : PyM (Graph ι β) B) (g : Graph ι α) : Prop :=
  m' (g.map f) = ((m g).1.map fa, (m g).2.map f)

/-- the same for every graph -/
def Sim {A B : Type} (f : α → β) (fa : A → B) (m : PyM (Graph ι α) A) (m' : PyM (Graph ι β) B) : Prop :=
  ∀ g, SimAt f fa m m' g

section
variable {A B A' B' : Type} {f : α → β} {fa : A → B} {fb : A' → B'}
omit [DecidableEq ι]

theorem Sim.pure (a : A) : Sim (ι := ι) f fa (Pure.pure a) (Pure.pure (fa a)) := fun _ => rfl

theorem Sim.raise (e : PyErr) : Sim (ι := ι) f fa (PyM.raise e) (PyM.raise e) := fun _ => rfl

theorem SimAt.bind {m : PyM (Graph ι α) A} {m' : PyM (Graph ι β) B} {k : A → PyM (Graph ι α) A'}
    {k' : B → PyM (Graph ι β) B'} {g : Graph ι α} (h : SimAt f fa m m' g)
    (hk : ∀ a g', SimAt f fb (k a) (k' (fa a)) g') : SimAt f fb (m >>= k) (m' >>= k') g := by
  unfold SimAt at h ⊢
  rw [PyM.bind_run, PyM.bind_run, h]
  generalize m g = x
  obtain ⟨e | a, g'⟩ := x
  · rfl
  · exact hk a g'

theorem Sim.bind {m : PyM (Graph ι α) A} {m' : PyM (Graph ι β) B} {k : A → PyM (Graph ι α) A'}
    {k' : B → PyM (Graph ι β) B'} (h : Sim f fa m m')
    (hk : ∀ a, Sim f fb (k a) (k' (fa a))) : Sim f fb (m >>= k) (m' >>= k') := fun g => (h g).bind hk

theorem Sim.get_bind {k : Graph ι α → PyM (Graph ι α) A'} {k' : Graph ι β → PyM (Graph ι β) B'}
    (hk : ∀ g, SimAt f fb (k g) (k' (g.map f)) g) : Sim f fb (PyM.get >>= k) (PyM.get >>= k') := fun g => hk g

theorem SimAt.ite {c c' : Prop} [Decidable c] [Decidable c'] {m n : PyM (Graph ι α) A} {m' n' : PyM (Graph ι β) B}
    {g : Graph ι α} (hc : c ↔ c') (h : SimAt f fa m m' g) (h' : SimAt f fa n n' g) :
    SimAt f fa (if c then m else n) (if c' then m' else n') g := by
  by_cases h0 : c
  · rw [if_pos h0, if_pos (hc.1 h0)]; exact h
  · rw [if_neg h0, if_neg (fun h1 => h0 (hc.2 h1))]; exact h'

theorem Sim.forEach {X : Type} (l : List X) {m : X → PyM (Graph ι α) Unit} {m' : X → PyM (Graph ι β) Unit}
    (h : ∀ x, Sim f id (m x) (m' x)) : Sim f id (PyM.forEach l m) (PyM.forEach l m') := by
  induction l with
  | nil => exact Sim.pure ()
  | cons x l ih => exact Sim.bind (h x) (fun _ => ih)

theorem Sim.whenSome {X Y : Type} {fx : X → Y} (o : Option X) {m : X → PyM (Graph ι α) Unit}
    {m' : Y → PyM (Graph ι β) Unit} (h : ∀ x, Sim f id (m x) (m' (fx x))) :
    Sim f id (PyM.whenSome o m) (PyM.whenSome (o.map fx) m') := by
  cases o with
  | none => exact Sim.pure ()
  | some x => exact h x

theorem Sim.whenSome' {X : Type} (o : Option X) {m : X → PyM (Graph ι α) Unit}
    {m' : X → PyM (Graph ι β) Unit} (h : ∀ x, Sim f id (m x) (m' x)) :
    Sim f id (PyM.whenSome o m) (PyM.whenSome o m') := by
  cases o with
  | none => exact Sim.pure ()
  | some x => exact h x

end

variable (f : α → β)

theorem sim_getE (u v : ι) : Sim f (Edge.map f) (getE u v) (getE u v) := by
  intro g
  show (getE u v (g.map f)) = _
  simp only [getE, Graph.map, Dict.get2_map]
  cases g.edges.get2 u v <;> rfl

theorem sim_getR (u v : ι) : Sim f (Edge.map f) (getR u v) (getR u v) := by
  intro g
  show (getR u v (g.map f)) = _
  simp only [getR, Graph.map, Dict.get2_map]
  cases g.rev.get2 u v <;> rfl

theorem sim_getD (u v : ι) : Sim f (Edge.map f) (getD u v) (getD u v) := by
  intro g
  show (getD u v (g.map f)) = _
  simp only [getD, Graph.map, Dict.get2_map]
  cases g.del.get2 u v <;> rfl

theorem sim_setE (u v : ι) (e : Edge ι α) : Sim f id (setE u v e) (setE u v (e.map f)) := by
  intro g
  show (setE u v (e.map f) (g.map f)) = _
  simp only [setE, Graph.map, Dict.has_map, Dict.set2_map]
  split <;> rfl

theorem sim_setR (u v : ι) (e : Edge ι α) : Sim f id (setR u v e) (setR u v (e.map f)) := by
  intro g
  show (setR u v (e.map f) (g.map f)) = _
  simp only [setR, Graph.map, Dict.has_map, Dict.set2_map]
  split <;> rfl

theorem sim_setD (u v : ι) (e : Edge ι α) : Sim f id (setD u v e) (setD u v (e.map f)) := by
  intro g
  show (setD u v (e.map f) (g.map f)) = _
  simp only [setD, Graph.map, Dict.has_map, Dict.set2_map]
  split <;> rfl

theorem sim_delE (u v : ι) : Sim f id (delE (δ := α) u v) (delE u v) := by
  intro g
  show (delE u v (g.map f)) = _
  simp only [delE, Graph.map, Dict.has2_map, Dict.del2_map]
  split <;> rfl

theorem sim_delR (u v : ι) : Sim f id (delR (δ := α) u v) (delR u v) := by
  intro g
  show (delR u v (g.map f)) = _
  simp only [delR, Graph.map, Dict.has2_map, Dict.del2_map]
  split <;> rfl

theorem sim_delD (u v : ι) : Sim f id (delD (δ := α) u v) (delD u v) := by
  intro g
  show (delD u v (g.map f)) = _
  simp only [delD, Graph.map, Dict.has2_map, Dict.del2_map]
  split <;> rfl

theorem sim_modE (u v : ι) {h : Edge ι α → Edge ι α} {h' : Edge ι β → Edge ι β} (hh : ∀ e, h' (e.map f) = (h e).map f) :
    Sim f id (modE u v h) (modE u v h') :=
  Sim.bind (sim_getE f u v) (fun e => by rw [hh]; exact sim_setE f u v _)

theorem sim_modR (u v : ι) {h : Edge ι α → Edge ι α} {h' : Edge ι β → Edge ι β} (hh : ∀ e, h' (e.map f) = (h e).map f) :
    Sim f id (modR u v h) (modR u v h') :=
  Sim.bind (sim_getR f u v) (fun e => by rw [hh]; exact sim_setR f u v _)

theorem sim_initRow (u : ι) : Sim f id (initRow (δ := α) u) (initRow u) := by
  intro g
  show (initRow u (g.map f)) = _
  simp only [initRow]
  have h0 : (g.map f).edges.has u = g.edges.has u := Dict.has_map _ _ _
  rw [h0]
  split
  · rfl
  · refine Prod.ext rfl (Graph.ext rfl ?_ ?_ ?_ rfl)
    · exact Dict.set_map (Dict.map (Edge.map f)) g.edges u Dict.empty
    · exact Dict.set_map (Dict.map (Edge.map f)) g.rev u Dict.empty
    · exact Dict.set_map (Dict.map (Edge.map f)) g.del u Dict.empty

theorem sim_initHist (u v : ι) : Sim f id (initHist (δ := α) u v) (initHist u v) := by
  intro g
  show (initHist u v (g.map f)) = _
  simp only [initHist]
  have h0 : (g.map f).hist.has (u, v) = g.hist.has (u, v) := Dict.has_map _ _ _
  rw [h0]
  split
  · rfl
  · exact Prod.ext rfl (Graph.ext rfl rfl rfl rfl (Dict.set_map (List.map (TestResult.map f)) g.hist (u, v) []))

theorem sim_initEdge (u v : ι) : Sim f id (initEdge (δ := α) u v) (initEdge u v) :=
  Sim.bind (sim_initRow f u) (fun _ => Sim.bind (sim_initRow f v) (fun _ =>
    Sim.bind (sim_initHist f u v) (fun _ => sim_initHist f v u)))

theorem sim_addEdge (u v : ι) (m : α) (t : EType) : Sim f id (addEdge u v m t) (addEdge u v (f m) t) := by
  refine Sim.get_bind (fun g => ?_)
  refine SimAt.ite Iff.rfl (Sim.raise _ g) (SimAt.ite Iff.rfl (Sim.raise _ g) (SimAt.ite Iff.rfl (Sim.raise _ g) ?_))
  exact Sim.bind (sim_initEdge f u v) (fun _ => Sim.bind (sim_setE f u v ⟨u, v, t, m, false⟩) (fun _ =>
    Sim.bind (sim_setR f v u ⟨u, v, t, m, false⟩) (fun _ => Sim.bind (sim_setE f v u ⟨v, u, t, m, false⟩) (fun _ =>
      sim_setR f u v ⟨v, u, t, m, false⟩)))) g

theorem sim_addDirectedEdge (u v : ι) (m : α) (t : EType) :
    Sim f id (addDirectedEdge u v m t) (addDirectedEdge u v (f m) t) := by
  refine Sim.get_bind (fun g => ?_)
  refine SimAt.ite Iff.rfl (Sim.raise _ g) (SimAt.ite Iff.rfl (Sim.raise _ g) (SimAt.ite Iff.rfl (Sim.raise _ g) ?_))
  exact Sim.bind (sim_initEdge f u v) (fun _ => Sim.bind (sim_setE f u v ⟨u, v, t, m, false⟩) (fun _ =>
    sim_setR f v u ⟨u, v, t, m, false⟩)) g

theorem sim_addEdgeHistory (u v : ι) (r : TestResult ι α) :
    Sim f id (addEdgeHistory u v r) (addEdgeHistory u v (r.map f)) := by
  intro g
  show (addEdgeHistory u v (r.map f) (g.map f)) = _
  simp only [addEdgeHistory]
  have h0 : (g.map f).hist.get? (u, v) = (g.hist.get? (u, v)).map (List.map (TestResult.map f)) := Dict.get?_map _ _ _
  rw [h0]
  cases g.hist.get? (u, v) with
  | none => exact Prod.ext rfl (Graph.ext rfl rfl rfl rfl (Dict.set_map (List.map (TestResult.map f)) g.hist (u, v) [r]))
  | some l =>
    refine Prod.ext rfl (Graph.ext rfl rfl rfl rfl ?_)
    have := Dict.set_map (List.map (TestResult.map f)) g.hist (u, v) (l ++ [r])
    rw [List.map_append] at this
    exact this

theorem sim_softMark (u v : ι) : Sim f id (softMark (δ := α) u v) (softMark u v) := by
  refine Sim.get_bind (fun g => ?_)
  refine SimAt.ite (by simp [Graph.map, Dict.has2_map]) ?_ (Sim.pure () g)
  exact Sim.bind (sim_modE f u v (fun _ => rfl)) (fun _ => sim_modR f v u (fun _ => rfl)) g

theorem sim_hardDel (u v : ι) : Sim f id (hardDel (δ := α) u v) (hardDel u v) := by
  refine Sim.get_bind (fun g => ?_)
  refine SimAt.ite (by simp [Graph.map, Dict.has2_map]) ?_ (Sim.pure () g)
  exact Sim.bind (sim_getE f u v) (fun e => Sim.bind (sim_setD f u v e) (fun _ =>
    Sim.bind (sim_delE f u v) (fun _ => sim_delR f u v))) g

theorem sim_removeEdge (u v : ι) (soft : Bool) : Sim f id (removeEdge (δ := α) u v soft) (removeEdge u v soft) := by
  refine Sim.get_bind (fun g => ?_)
  refine SimAt.ite Iff.rfl (Sim.raise _ g) (SimAt.ite Iff.rfl (Sim.raise _ g) (SimAt.ite Iff.rfl ?_ ?_))
  · exact Sim.bind (sim_softMark f u v) (fun _ => sim_softMark f v u) g
  · exact Sim.bind (sim_hardDel f u v) (fun _ => sim_hardDel f v u) g

theorem sim_restoreHalf (u v : ι) : Sim f id (restoreHalf (δ := α) u v) (restoreHalf u v) := by
  refine Sim.get_bind (fun g => ?_)
  refine SimAt.ite (by simp [Graph.map, Dict.has2_map]) ?_ ?_
  · exact Sim.bind (sim_modE f u v (fun _ => rfl)) (fun _ => sim_modR f v u (fun _ => rfl)) g
  · exact Sim.bind (sim_getD f u v) (fun e => Sim.bind (sim_addEdge f u v _ _) (fun _ => sim_delD f u v)) g

theorem sim_restoreEdge (u v : ι) : Sim f id (restoreEdge (δ := α) u v) (restoreEdge u v) := by
  refine Sim.get_bind (fun g => ?_)
  refine SimAt.ite Iff.rfl (Sim.raise _ g) (SimAt.ite Iff.rfl (Sim.raise _ g) ?_)
  exact Sim.bind (sim_restoreHalf f u v) (fun _ => sim_restoreHalf f v u) g

theorem sim_removeDirectedEdge (u v : ι) (soft : Bool) :
    Sim f id (removeDirectedEdge (δ := α) u v soft) (removeDirectedEdge u v soft) := by
  refine Sim.get_bind (fun g => ?_)
  refine SimAt.ite Iff.rfl (Sim.raise _ g) (SimAt.ite Iff.rfl (Sim.raise _ g) (SimAt.ite (by simp [Graph.map, Dict.has_map])
    (Sim.pure () g) (SimAt.ite (by simp [Graph.map, Dict.has2_map]) (Sim.pure () g) (SimAt.ite Iff.rfl ?_ ?_))))
  · exact Sim.bind (sim_modE f u v (fun _ => rfl)) (fun _ => sim_modR f v u (fun _ => rfl)) g
  · exact Sim.bind (sim_getE f u v) (fun e => Sim.bind (sim_setD f u v e) (fun _ =>
      Sim.bind (sim_delE f u v) (fun _ => sim_delR f v u))) g

theorem sim_restoreDirectedEdge (u v : ι) : Sim f id (restoreDirectedEdge (δ := α) u v) (restoreDirectedEdge u v) := by
  refine Sim.get_bind (fun g => ?_)
  refine SimAt.ite Iff.rfl (Sim.raise _ g) (SimAt.ite Iff.rfl (Sim.raise _ g) (SimAt.ite (by simp [Graph.map, Dict.has2_map])
    ?_ ?_))
  · exact Sim.bind (sim_modE f u v (fun _ => rfl)) (fun _ => sim_modR f v u (fun _ => rfl)) g
  · exact Sim.bind (sim_getD f u v) (fun e => Sim.bind (sim_addDirectedEdge f u v _ _) (fun _ => sim_delD f u v)) g

theorem sim_updateEdge (u v : ι) (m : Option α) (t : Option EType) :
    Sim f id (updateEdge u v m t) (updateEdge u v (m.map f) t) := by
  refine Sim.get_bind (fun g => ?_)
  refine SimAt.ite Iff.rfl (Sim.raise _ g) (SimAt.ite Iff.rfl (Sim.raise _ g) (SimAt.ite (by simp [Graph.map, Dict.has_map])
    (Sim.raise _ g) (SimAt.ite (by simp [Graph.map, Dict.has_map]) (Sim.raise _ g)
      (SimAt.ite (by simp [Graph.map, Dict.has2_map]) (Sim.raise _ g)
        (SimAt.ite (by simp [Graph.map, Dict.has2_map]) (Sim.raise _ g) ?_)))))
  have h1 : ∀ t : EType, Sim f id (do
      modE (δ := α) u v (fun e => { e with etype := t })
      modE v u (fun e => { e with etype := t })
      modR u v (fun e => { e with etype := t })
      modR v u (fun e => { e with etype := t })) (do
      modE u v (fun e => { e with etype := t })
      modE v u (fun e => { e with etype := t })
      modR u v (fun e => { e with etype := t })
      modR v u (fun e => { e with etype := t })) := fun t =>
    Sim.bind (sim_modE f u v (fun _ => rfl)) (fun _ => Sim.bind (sim_modE f v u (fun _ => rfl)) (fun _ =>
      Sim.bind (sim_modR f u v (fun _ => rfl)) (fun _ => sim_modR f v u (fun _ => rfl))))
  have h2 := Sim.whenSome' t h1
  refine Sim.bind (Sim.whenSome m (fun m => ?_)) (fun _ => h2) g
  exact Sim.bind (sim_modE f u v (fun _ => rfl)) (fun _ => Sim.bind (sim_modE f v u (fun _ => rfl)) (fun _ =>
      Sim.bind (sim_modR f u v (fun _ => rfl)) (fun _ => sim_modR f v u (fun _ => rfl))))

theorem sim_updateDirectedEdge (u v : ι) (m : Option α) (t : Option EType) :
    Sim f id (updateDirectedEdge u v m t) (updateDirectedEdge u v (m.map f) t) := by
  refine Sim.get_bind (fun g => ?_)
  refine SimAt.ite Iff.rfl (Sim.raise _ g) (SimAt.ite Iff.rfl (Sim.raise _ g) (SimAt.ite (by simp [Graph.map, Dict.has_map])
    (Sim.raise _ g) (SimAt.ite (by simp [Graph.map, Dict.has2_map]) (Sim.raise _ g) ?_)))
  have h1 : ∀ t : EType, Sim f id (do
      modE (δ := α) u v (fun e => { e with etype := t })
      modR v u (fun e => { e with etype := t })) (do
      modE u v (fun e => { e with etype := t })
      modR v u (fun e => { e with etype := t })) := fun t =>
    Sim.bind (sim_modE f u v (fun _ => rfl)) (fun _ => sim_modR f v u (fun _ => rfl))
  have h2 := Sim.whenSome' t h1
  refine Sim.bind (Sim.whenSome m (fun m => ?_)) (fun _ => h2) g
  exact Sim.bind (sim_modE f u v (fun _ => rfl)) (fun _ => sim_modR f v u (fun _ => rfl))

theorem sim_purge : Sim (ι := ι) f id purge purge := by
  refine Sim.get_bind (fun g => ?_)
  rw [softDeletedList_map]
  exact SimAt.ite Iff.rfl (Sim.forEach _ (fun p : ι × ι => sim_removeDirectedEdge f p.1 p.2 false) g) (Sim.raise _ g)

/-! ## actions -/

theorem sim_applyOne (r : TestResult ι α) : Sim f id (applyOne r) (applyOne (r.map f)) := by
  refine Sim.get_bind (fun g => ?_)
  obtain ⟨u, v, a, d⟩ := r
  cases a with
  | removeEdgeUndirected =>
    refine SimAt.ite (by simp [undirectedEdgeExists_map, TestResult.map]) (Sim.pure false g) ?_
    exact Sim.bind (sim_removeEdge f u v true) (fun _ => Sim.bind (sim_addEdgeHistory f u v _) (fun _ =>
      Sim.bind (sim_addEdgeHistory f v u _) (fun _ => Sim.pure true))) g
  | updateEdge =>
    refine SimAt.ite (by simp [edgeExists_map, TestResult.map]) (Sim.pure false g) ?_
    exact Sim.bind (sim_updateEdge f u v d none) (fun _ => Sim.bind (sim_addEdgeHistory f u v _) (fun _ =>
      Sim.bind (sim_addEdgeHistory f v u _) (fun _ => Sim.pure true))) g
  | updateEdgeDirected =>
    refine SimAt.ite (by simp [directedEdgeExists_map, TestResult.map]) (Sim.pure false g) ?_
    exact Sim.bind (sim_updateDirectedEdge f u v d none) (fun _ => Sim.bind (sim_addEdgeHistory f u v _) (fun _ =>
      Sim.pure true)) g
  | doNothing => exact Sim.pure false g
  | removeEdgeDirected =>
    refine SimAt.ite (by simp [directedEdgeExists_map, edgeExists_map, TestResult.map]) (Sim.pure false g) ?_
    refine Sim.bind (sim_removeDirectedEdge f u v true) (fun _ => Sim.get_bind (fun g1 => ?_)) g
    refine SimAt.bind (fa := id) ?_ (fun _ g2 => Sim.bind (sim_addEdgeHistory f u v _) (fun _ => Sim.pure true) g2)
    simp only [PyM.when]
    refine SimAt.ite (by simp [edgeExists_map, TestResult.map]) ?_ (Sim.pure () g1)
    exact sim_updateDirectedEdge f v u none (some .directed) g1
  | updateEdgeType =>
    exact SimAt.ite (by simp [edgeExists_map, TestResult.map]) (Sim.pure false g) (Sim.raise _ g)
  | updateEdgeTypeDirected =>
    exact SimAt.ite (by simp [directedEdgeExists_map, TestResult.map]) (Sim.pure false g) (Sim.raise _ g)
  | restoreEdge =>
    refine SimAt.ite (by simp [edgeExists_map, TestResult.map]) (Sim.pure false g) ?_
    exact Sim.bind (sim_restoreEdge f u v) (fun _ => Sim.bind (sim_addEdgeHistory f u v _) (fun _ =>
      Sim.bind (sim_addEdgeHistory f v u _) (fun _ => Sim.pure true))) g
  | restoreEdgeDirected =>
    refine SimAt.ite (by simp [directedEdgeExists_map, TestResult.map]) (Sim.pure false g) ?_
    exact Sim.bind (sim_restoreDirectedEdge f u v) (fun _ => Sim.bind (sim_addEdgeHistory f u v _) (fun _ =>
      Sim.pure true)) g

theorem sim_takeItems (dry : Bool) (rs : List (TestResult ι α)) :
    Sim f (List.map (TestResult.map f)) (takeItems dry rs) (takeItems dry (rs.map (TestResult.map f))) := by
  induction rs with
  | nil => exact Sim.pure []
  | cons r rs ih =>
    intro g
    refine SimAt.ite Iff.rfl ?_ ?_
    · exact Sim.bind ih (fun rest => Sim.pure (r :: rest)) g
    · refine Sim.bind (sim_applyOne f r) (fun b => Sim.bind ih (fun rest => ?_)) g
      have := Sim.pure (ι := ι) (f := f) (fa := List.map (TestResult.map f)) (if b then r :: rest else rest)
      cases b <;> exact this

theorem sim_takeAction (dry : Bool) (rs : Results ι α) :
    Sim f (mapPair f) (takeAction dry rs) (takeAction dry (mapResults f rs)) := by
  induction rs with
  | nil => exact Sim.pure ([], [])
  | cons o rs ih =>
    cases o with
    | none => exact ih
    | some items =>
      refine Sim.bind (sim_takeItems f dry items) (fun t => Sim.bind ih (fun p => ?_))
      have := Sim.pure (ι := ι) (f := f) (fa := mapPair f) (t ++ p.1, items ++ p.2)
      simpa only [mapPair, List.map_append] using this

end Graph
end Maps
end Verif
