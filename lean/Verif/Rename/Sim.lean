import Verif.Rename.Lemmas

/-!
# Computations commute with a relabelling: lemmas
-/

namespace Verif

/-- the two computations agree on corresponding states -/
def PSim {σ σ' α α' : Type} (W : PyErr → PyErr → Prop) (F : σ → σ') (R : α → α' → Prop) (m : PyM σ α) (m' : PyM σ' α') :
    Prop :=
  ∀ s, Agree W R (m s).1 (m' (F s)).1 ∧ (m' (F s)).2 = F (m s).2

theorem Agree.mono {α α' : Type} {W W' : PyErr → PyErr → Prop} {R R' : α → α' → Prop} {x : Except PyErr α} {y : Except PyErr α'}
    (h : Agree W R x y) (hW : ∀ e e', W e e' → W' e e') (hR : ∀ a a', R a a' → R' a a') : Agree W' R' x y := by
  cases h with
  | ok h => exact .ok (hR _ _ h)
  | error h => exact .error (hW _ _ h)

section PSim
variable {σ σ' : Type} {W : PyErr → PyErr → Prop} {F : σ → σ'}

theorem PSim.pure {α α' : Type} {R : α → α' → Prop} {a : α} {a' : α'} (h : R a a') :
    PSim W F R (Pure.pure a : PyM σ α) (Pure.pure a' : PyM σ' α') := fun _ => ⟨.ok h, rfl⟩

theorem PSim.bind {α α' β β' : Type} {R : α → α' → Prop} {R' : β → β' → Prop} {m : PyM σ α} {m' : PyM σ' α'}
    {f : α → PyM σ β} {f' : α' → PyM σ' β'} (h : PSim W F R m m') (hf : ∀ a a', R a a' → PSim W F R' (f a) (f' a')) :
    PSim W F R' (m >>= f) (m' >>= f') := by
  intro s
  obtain ⟨h1, h2⟩ := h s
  rw [PyM.bind_run, PyM.bind_run]
  generalize hx : m s = x at h1 h2
  generalize hy : m' (F s) = y at h1 h2
  obtain ⟨x1, x2⟩ := x
  obtain ⟨y1, y2⟩ := y
  simp only at h1 h2
  subst h2
  cases h1 with
  | ok h => exact hf _ _ h x2
  | error h => exact ⟨.error h, rfl⟩

theorem PSim.raise {α α' : Type} {R : α → α' → Prop} (hW : ∀ e, W e e) (e : PyErr) :
    PSim W F R (PyM.raise e : PyM σ α) (PyM.raise e : PyM σ' α') := fun _ => ⟨.error (hW e), rfl⟩

theorem PSim.get : PSim W F (fun s s' => s' = F s) (PyM.get : PyM σ σ) PyM.get := fun _ => ⟨.ok rfl, rfl⟩

/-- `let s ← get; body s` -/
theorem PSim.get_bind {β β' : Type} {R : β → β' → Prop} {f : σ → PyM σ β} {f' : σ' → PyM σ' β'}
    (hf : ∀ s, PSim W F R (f s) (f' (F s))) : PSim W F R (PyM.get >>= f) (PyM.get >>= f') :=
  PSim.get.bind (fun s s' h => h ▸ hf s)

theorem PSim.ite {α α' : Type} {R : α → α' → Prop} {c c' : Prop} [Decidable c] [Decidable c'] {m1 m2 : PyM σ α}
    {m1' m2' : PyM σ' α'} (hc : c' ↔ c) (h1 : PSim W F R m1 m1') (h2 : PSim W F R m2 m2') :
    PSim W F R (if c then m1 else m2) (if c' then m1' else m2') := by
  by_cases h : c
  · rw [if_pos h, if_pos (hc.2 h)]; exact h1
  · rw [if_neg h, if_neg (fun h' => h (hc.1 h'))]; exact h2

theorem PSim.seq {α α' β β' : Type} {R : α → α' → Prop} {R' : β → β' → Prop} {m : PyM σ α} {m' : PyM σ' α'}
    {k : PyM σ β} {k' : PyM σ' β'} (h : PSim W F R m m') (hk : PSim W F R' k k') :
    PSim W F R' (m >>= fun _ => k) (m' >>= fun _ => k') := h.bind (fun _ _ _ => hk)

theorem PSim.forEach {β β' : Type} (φ : β → β') {body : β → PyM σ Unit} {body' : β' → PyM σ' Unit}
    (h : ∀ x, PSim W F Eq (body x) (body' (φ x))) (l : List β) :
    PSim W F Eq (PyM.forEach l body) (PyM.forEach (l.map φ) body') := by
  induction l with
  | nil => exact PSim.pure rfl
  | cons x xs ih => exact (h x).seq ih

theorem PSim.whenSome {β β' : Type} (φ : β → β') {body : β → PyM σ Unit} {body' : β' → PyM σ' Unit}
    (h : ∀ x, PSim W F Eq (body x) (body' (φ x))) (o : Option β) :
    PSim W F Eq (PyM.whenSome o body) (PyM.whenSome (o.map φ) body') := by
  cases o with
  | none => exact PSim.pure rfl
  | some x => exact h x

theorem PSim.when {b b' : Bool} (hb : b' = b) {m : PyM σ Unit} {m' : PyM σ' Unit} (h : PSim W F Eq m m') :
    PSim W F Eq (PyM.when b m) (PyM.when b' m') := by
  subst hb
  exact PSim.ite Iff.rfl h (PSim.pure rfl)

end PSim

namespace Relabel
variable {ι δ ι' δ' : Type} [DecidableEq ι] [DecidableEq ι'] (M : Relabel ι δ ι' δ') {W : PyErr → PyErr → Prop}
  (hW : ∀ e, W e e)
include hW

theorem getE (u v : ι) : PSim W M.graph (fun x x' => x' = M.edge u v x) (Graph.getE u v) (Graph.getE (M.name u) (M.name v)) := by
  intro g
  unfold Graph.getE
  rw [graph_edges, rows_get2]
  cases g.edges.get2 u v with
  | none => exact ⟨.error (hW _), rfl⟩
  | some x => exact ⟨.ok rfl, rfl⟩

theorem getR (u v : ι) : PSim W M.graph (fun x x' => x' = M.edge u v x) (Graph.getR u v) (Graph.getR (M.name u) (M.name v)) := by
  intro g
  unfold Graph.getR
  rw [graph_rev, rows_get2]
  cases g.rev.get2 u v with
  | none => exact ⟨.error (hW _), rfl⟩
  | some x => exact ⟨.ok rfl, rfl⟩

theorem getD (u v : ι) : PSim W M.graph (fun x x' => x' = M.edge u v x) (Graph.getD u v) (Graph.getD (M.name u) (M.name v)) := by
  intro g
  unfold Graph.getD
  rw [graph_del, rows_get2]
  cases g.del.get2 u v with
  | none => exact ⟨.error (hW _), rfl⟩
  | some x => exact ⟨.ok rfl, rfl⟩

theorem setE (u v : ι) (x : Edge ι δ) :
    PSim W M.graph Eq (Graph.setE u v x) (Graph.setE (M.name u) (M.name v) (M.edge u v x)) := by
  intro g
  unfold Graph.setE
  rw [graph_edges, rows_has]
  by_cases h : g.edges.has u = true
  · rw [if_pos h, if_pos h]
    refine ⟨.ok rfl, ?_⟩
    simp [Relabel.graph]
  · rw [if_neg h, if_neg h]
    exact ⟨.error (hW _), rfl⟩

theorem setR (u v : ι) (x : Edge ι δ) :
    PSim W M.graph Eq (Graph.setR u v x) (Graph.setR (M.name u) (M.name v) (M.edge u v x)) := by
  intro g
  unfold Graph.setR
  rw [graph_rev, rows_has]
  by_cases h : g.rev.has u = true
  · rw [if_pos h, if_pos h]
    refine ⟨.ok rfl, ?_⟩
    simp [Relabel.graph]
  · rw [if_neg h, if_neg h]
    exact ⟨.error (hW _), rfl⟩

theorem setD (u v : ι) (x : Edge ι δ) :
    PSim W M.graph Eq (Graph.setD u v x) (Graph.setD (M.name u) (M.name v) (M.edge u v x)) := by
  intro g
  unfold Graph.setD
  rw [graph_del, rows_has]
  by_cases h : g.del.has u = true
  · rw [if_pos h, if_pos h]
    refine ⟨.ok rfl, ?_⟩
    simp [Relabel.graph]
  · rw [if_neg h, if_neg h]
    exact ⟨.error (hW _), rfl⟩

theorem delE (u v : ι) : PSim W M.graph Eq (Graph.delE u v) (Graph.delE (M.name u) (M.name v)) := by
  intro g
  unfold Graph.delE
  rw [graph_edges, rows_has2]
  by_cases h : g.edges.has2 u v = true
  · rw [if_pos h, if_pos h]
    refine ⟨.ok rfl, ?_⟩
    simp [Relabel.graph]
  · rw [if_neg h, if_neg h]
    exact ⟨.error (hW _), rfl⟩

theorem delR (u v : ι) : PSim W M.graph Eq (Graph.delR u v) (Graph.delR (M.name u) (M.name v)) := by
  intro g
  unfold Graph.delR
  rw [graph_rev, rows_has2]
  by_cases h : g.rev.has2 u v = true
  · rw [if_pos h, if_pos h]
    refine ⟨.ok rfl, ?_⟩
    simp [Relabel.graph]
  · rw [if_neg h, if_neg h]
    exact ⟨.error (hW _), rfl⟩

theorem delD (u v : ι) : PSim W M.graph Eq (Graph.delD u v) (Graph.delD (M.name u) (M.name v)) := by
  intro g
  unfold Graph.delD
  rw [graph_del, rows_has2]
  by_cases h : g.del.has2 u v = true
  · rw [if_pos h, if_pos h]
    refine ⟨.ok rfl, ?_⟩
    simp [Relabel.graph]
  · rw [if_neg h, if_neg h]
    exact ⟨.error (hW _), rfl⟩

theorem modE (u v : ι) {f : Edge ι δ → Edge ι δ} {f' : Edge ι' δ' → Edge ι' δ'} (hf : ∀ x, f' (M.edge u v x) = M.edge u v (f x)) :
    PSim W M.graph Eq (Graph.modE u v f) (Graph.modE (M.name u) (M.name v) f') :=
  (M.getE hW u v).bind (fun x x' h => by subst h; rw [hf]; exact M.setE hW u v (f x))

theorem modR (u v : ι) {f : Edge ι δ → Edge ι δ} {f' : Edge ι' δ' → Edge ι' δ'} (hf : ∀ x, f' (M.edge u v x) = M.edge u v (f x)) :
    PSim W M.graph Eq (Graph.modR u v f) (Graph.modR (M.name u) (M.name v) f') :=
  (M.getR hW u v).bind (fun x x' h => by subst h; rw [hf]; exact M.setR hW u v (f x))

omit hW in
theorem initRow (u : ι) : PSim W M.graph Eq (Graph.initRow u) (Graph.initRow (M.name u)) := by
  intro g
  unfold Graph.initRow
  rw [graph_edges, rows_has]
  by_cases h : g.edges.has u = true
  · rw [if_pos h, if_pos h]
    exact ⟨.ok rfl, rfl⟩
  · rw [if_neg h, if_neg h]
    refine ⟨.ok rfl, ?_⟩
    simp [Relabel.graph]

omit hW in
theorem initHist (u v : ι) : PSim W M.graph Eq (Graph.initHist u v) (Graph.initHist (M.name u) (M.name v)) := by
  intro g
  unfold Graph.initHist
  rw [hist_has]
  by_cases h : g.hist.has (u, v) = true
  · rw [if_pos h, if_pos h]
    exact ⟨.ok rfl, rfl⟩
  · rw [if_neg h, if_neg h]
    refine ⟨.ok rfl, ?_⟩
    have := M.hist_set g u v []
    rw [List.map_nil] at this
    simp only [this]
    rfl

omit hW in
theorem initEdge (u v : ι) : PSim W M.graph Eq (Graph.initEdge u v) (Graph.initEdge (M.name u) (M.name v)) :=
  (M.initRow u).seq ((M.initRow v).seq ((M.initHist u v).seq (M.initHist v u)))

omit hW in
theorem addEdgeHistory (u v : ι) (r : TestResult ι δ) :
    PSim W M.graph Eq (Graph.addEdgeHistory u v r) (Graph.addEdgeHistory (M.name u) (M.name v) (M.result r)) := by
  intro g
  unfold Graph.addEdgeHistory
  rw [hist_get?]
  cases g.hist.get? (u, v) with
  | none =>
    refine ⟨.ok rfl, ?_⟩
    have := M.hist_set g u v [r]
    rw [List.map_singleton] at this
    simp only [this, Option.map_none]
    rfl
  | some l =>
    refine ⟨.ok rfl, ?_⟩
    have := M.hist_set g u v (l ++ [r])
    rw [List.map_append, List.map_singleton] at this
    simp only [this, Option.map_some]
    rfl

/-- the three checks at the start of most edits -/
theorem checked {α α' : Type} {R : α → α' → Prop} (g : Graph ι δ) (u v : ι) {k : PyM (Graph ι δ) α} {k' : PyM (Graph ι' δ') α'}
    (h : PSim W M.graph R k k') :
    PSim W M.graph R (if u ∉ g.nodes then PyM.raise .graphError else if v ∉ g.nodes then PyM.raise .graphError else k)
      (if M.name u ∉ (M.graph g).nodes then PyM.raise .graphError
        else if M.name v ∉ (M.graph g).nodes then PyM.raise .graphError else k') :=
  PSim.ite (by simp) (PSim.raise hW _) (PSim.ite (by simp) (PSim.raise hW _) h)

theorem addEdge (u v : ι) (m : δ) (t : EType) :
    PSim W M.graph Eq (Graph.addEdge u v m t) (Graph.addEdge (M.name u) (M.name v) (M.info u v m) t) := by
  refine PSim.get_bind (fun g => M.checked hW g u v (PSim.ite (by simp) (PSim.raise hW _) ?_))
  refine (M.initEdge u v).seq ((M.setE hW u v ⟨u, v, t, m, false⟩).seq ?_)
  have e1 : (⟨M.name u, M.name v, t, M.info u v m, false⟩ : Edge ι' δ') = M.edge v u ⟨u, v, t, m, false⟩ := by
    simp [Relabel.edge, M.symm v u]
  have e2 : (⟨M.name v, M.name u, t, M.info u v m, false⟩ : Edge ι' δ') = M.edge v u ⟨v, u, t, m, false⟩ := by
    simp [Relabel.edge, M.symm v u]
  have e3 : (⟨M.name v, M.name u, t, M.info u v m, false⟩ : Edge ι' δ') = M.edge u v ⟨v, u, t, m, false⟩ := rfl
  rw [e1]
  refine (M.setR hW v u _).seq ?_
  have h4 := M.setR hW u v ⟨v, u, t, m, false⟩
  rw [← e3] at h4
  have h3 := M.setE hW v u ⟨v, u, t, m, false⟩
  rw [← e2] at h3
  exact h3.seq h4

theorem addDirectedEdge (u v : ι) (m : δ) (t : EType) :
    PSim W M.graph Eq (Graph.addDirectedEdge u v m t) (Graph.addDirectedEdge (M.name u) (M.name v) (M.info u v m) t) := by
  refine PSim.get_bind (fun g => M.checked hW g u v (PSim.ite (by simp) (PSim.raise hW _) ?_))
  refine (M.initEdge u v).seq ((M.setE hW u v ⟨u, v, t, m, false⟩).seq ?_)
  have e1 : (⟨M.name u, M.name v, t, M.info u v m, false⟩ : Edge ι' δ') = M.edge v u ⟨u, v, t, m, false⟩ := by
    simp [Relabel.edge, M.symm v u]
  rw [e1]
  exact M.setR hW v u _

theorem softMark (u v : ι) : PSim W M.graph Eq (Graph.softMark u v) (Graph.softMark (M.name u) (M.name v)) :=
  PSim.get_bind (fun _ => PSim.ite (by simp)
    ((M.modE hW u v (fun _ => rfl)).seq (M.modR hW v u (fun _ => rfl))) (PSim.pure rfl))

theorem hardDel (u v : ι) : PSim W M.graph Eq (Graph.hardDel u v) (Graph.hardDel (M.name u) (M.name v)) :=
  PSim.get_bind (fun _ => PSim.ite (by simp)
    ((M.getE hW u v).bind (fun x x' h => by
      subst h
      exact (M.setD hW u v x).seq ((M.delE hW u v).seq (M.delR hW u v)))) (PSim.pure rfl))

theorem removeEdge (u v : ι) (soft : Bool) :
    PSim W M.graph Eq (Graph.removeEdge u v soft) (Graph.removeEdge (M.name u) (M.name v) soft) :=
  PSim.get_bind (fun g => M.checked hW g u v (PSim.ite Iff.rfl
    ((M.softMark hW u v).seq (M.softMark hW v u)) ((M.hardDel hW u v).seq (M.hardDel hW v u))))

theorem restoreHalf (u v : ι) : PSim W M.graph Eq (Graph.restoreHalf u v) (Graph.restoreHalf (M.name u) (M.name v)) :=
  PSim.get_bind (fun _ => PSim.ite (by simp)
    ((M.modE hW u v (fun _ => rfl)).seq (M.modR hW v u (fun _ => rfl)))
    ((M.getD hW u v).bind (fun x x' h => by
      subst h
      exact (M.addEdge hW u v x.metadata _).seq (M.delD hW u v))))

theorem restoreEdge (u v : ι) : PSim W M.graph Eq (Graph.restoreEdge u v) (Graph.restoreEdge (M.name u) (M.name v)) :=
  PSim.get_bind (fun g => M.checked hW g u v ((M.restoreHalf hW u v).seq (M.restoreHalf hW v u)))

theorem removeDirectedEdge (u v : ι) (soft : Bool) :
    PSim W M.graph Eq (Graph.removeDirectedEdge u v soft) (Graph.removeDirectedEdge (M.name u) (M.name v) soft) :=
  PSim.get_bind (fun g => M.checked hW g u v (PSim.ite (by simp) (PSim.pure rfl) (PSim.ite (by simp) (PSim.pure rfl)
    (PSim.ite Iff.rfl ((M.modE hW u v (fun _ => rfl)).seq (M.modR hW v u (fun _ => rfl)))
      ((M.getE hW u v).bind (fun x x' h => by
        subst h
        exact (M.setD hW u v x).seq ((M.delE hW u v).seq (M.delR hW v u))))))))

theorem restoreDirectedEdge (u v : ι) :
    PSim W M.graph Eq (Graph.restoreDirectedEdge u v) (Graph.restoreDirectedEdge (M.name u) (M.name v)) :=
  PSim.get_bind (fun g => M.checked hW g u v (PSim.ite (by simp)
    ((M.modE hW u v (fun _ => rfl)).seq (M.modR hW v u (fun _ => rfl)))
    ((M.getD hW u v).bind (fun x x' h => by
      subst h
      exact (M.addDirectedEdge hW u v x.metadata _).seq (M.delD hW u v)))))

theorem updateEdge (u v : ι) (m : Option δ) (t : Option EType) :
    PSim W M.graph Eq (Graph.updateEdge u v m t) (Graph.updateEdge (M.name u) (M.name v) (m.map (M.info u v)) t) := by
  refine PSim.get_bind (fun g => M.checked hW g u v (PSim.ite (by simp) (PSim.raise hW _) (PSim.ite (by simp) (PSim.raise hW _)
    (PSim.ite (by simp) (PSim.raise hW _) (PSim.ite (by simp) (PSim.raise hW _) ?_)))))
  refine (PSim.whenSome (M.info u v) (fun m => ?_) m).seq ?_
  · exact (M.modE hW u v (fun _ => rfl)).seq ((M.modE hW v u (fun _ => by simp [Relabel.edge, M.symm v u])).seq
      ((M.modR hW u v (fun _ => rfl)).seq (M.modR hW v u (fun _ => by simp [Relabel.edge, M.symm v u]))))
  · have h := PSim.whenSome (W := W) (F := M.graph) id
      (body := fun t => do
        Graph.modE u v (fun e => { e with etype := t })
        Graph.modE v u (fun e => { e with etype := t })
        Graph.modR u v (fun e => { e with etype := t })
        Graph.modR v u (fun e => { e with etype := t }))
      (body' := fun t => do
        Graph.modE (M.name u) (M.name v) (fun e => { e with etype := t })
        Graph.modE (M.name v) (M.name u) (fun e => { e with etype := t })
        Graph.modR (M.name u) (M.name v) (fun e => { e with etype := t })
        Graph.modR (M.name v) (M.name u) (fun e => { e with etype := t }))
      (fun t => (M.modE hW u v (fun _ => rfl)).seq ((M.modE hW v u (fun _ => rfl)).seq
        ((M.modR hW u v (fun _ => rfl)).seq (M.modR hW v u (fun _ => rfl))))) t
    rwa [Option.map_id, id] at h

theorem updateDirectedEdge (u v : ι) (m : Option δ) (t : Option EType) :
    PSim W M.graph Eq (Graph.updateDirectedEdge u v m t)
      (Graph.updateDirectedEdge (M.name u) (M.name v) (m.map (M.info u v)) t) := by
  refine PSim.get_bind (fun g => M.checked hW g u v (PSim.ite (by simp) (PSim.raise hW _) (PSim.ite (by simp) (PSim.raise hW _) ?_)))
  refine (PSim.whenSome (M.info u v) (fun m => ?_) m).seq ?_
  · exact (M.modE hW u v (fun _ => rfl)).seq (M.modR hW v u (fun _ => by simp [Relabel.edge, M.symm v u]))
  · have h := PSim.whenSome (W := W) (F := M.graph) id
      (body := fun t => do
        Graph.modE u v (fun e => { e with etype := t })
        Graph.modR v u (fun e => { e with etype := t }))
      (body' := fun t => do
        Graph.modE (M.name u) (M.name v) (fun e => { e with etype := t })
        Graph.modR (M.name v) (M.name u) (fun e => { e with etype := t }))
      (fun t => (M.modE hW u v (fun _ => rfl)).seq (M.modR hW v u (fun _ => rfl))) t
    rwa [Option.map_id, id] at h

theorem purge : PSim W M.graph Eq (Graph.purge : PyM (Graph ι δ) Unit) Graph.purge := by
  refine PSim.get_bind (fun g => ?_)
  rw [softDeletedList]
  refine PSim.ite ?_ (PSim.forEach (fun p : ι × ι => (M.name p.1, M.name p.2)) (fun p => M.removeDirectedEdge hW p.1 p.2 false) _) (PSim.raise hW _)
  rw [List.all_map]
  simp [Function.comp_def]

theorem createAllPossibleEdges (m0 : δ) (m0' : δ') (hm : ∀ u v, M.info u v m0 = m0') :
    PSim W M.graph Eq (Graph.createAllPossibleEdges m0 : PyM (Graph ι δ) Unit) (Graph.createAllPossibleEdges m0') := by
  refine PSim.get_bind (fun g => ?_)
  rw [graph_nodes]
  refine PSim.forEach M.name (fun u => PSim.forEach M.name (fun v => PSim.ite (by simp) (PSim.pure rfl) ?_) _) _
  have h := M.addEdge hW u v m0 .undirected
  rwa [hm u v] at h

theorem applyOne (r : TestResult ι δ) : PSim W M.graph Eq (Graph.applyOne r) (Graph.applyOne (M.result r)) := by
  refine PSim.get_bind (fun g => ?_)
  obtain ⟨u, v, a, d⟩ := r
  have H1 := M.addEdgeHistory (W := W) u v ⟨u, v, a, d⟩
  have H2 := M.addEdgeHistory (W := W) v u ⟨u, v, a, d⟩
  have P : ∀ b : Bool, PSim W M.graph Eq (Pure.pure b : PyM (Graph ι δ) Bool) (Pure.pure b) := fun b => PSim.pure rfl
  cases a with
  | removeEdgeUndirected =>
    exact PSim.ite (by simp [Relabel.result]) (P _) ((M.removeEdge hW u v true).seq (H1.seq (H2.seq (P _))))
  | updateEdge =>
    exact PSim.ite (by simp [Relabel.result]) (P _) ((M.updateEdge hW u v d none).seq (H1.seq (H2.seq (P _))))
  | updateEdgeDirected =>
    exact PSim.ite (by simp [Relabel.result]) (P _) ((M.updateDirectedEdge hW u v d none).seq (H1.seq (P _)))
  | doNothing => exact P _
  | removeEdgeDirected =>
    refine PSim.ite (by simp [Relabel.result]) (P _) ((M.removeDirectedEdge hW u v true).seq (PSim.get_bind (fun g => ?_)))
    exact (PSim.when (by simp [Relabel.result]) (M.updateDirectedEdge hW v u none (some .directed))).seq (H1.seq (P _))
  | updateEdgeType => exact PSim.ite (by simp [Relabel.result]) (P _) (PSim.raise hW _)
  | updateEdgeTypeDirected => exact PSim.ite (by simp [Relabel.result]) (P _) (PSim.raise hW _)
  | restoreEdge =>
    exact PSim.ite (by simp [Relabel.result]) (P _) ((M.restoreEdge hW u v).seq (H1.seq (H2.seq (P _))))
  | restoreEdgeDirected =>
    exact PSim.ite (by simp [Relabel.result]) (P _) ((M.restoreDirectedEdge hW u v).seq (H1.seq (P _)))

theorem takeItems (dry : Bool) (rs : List (TestResult ι δ)) :
    PSim W M.graph (fun l l' => l' = l.map M.result) (Graph.takeItems dry rs) (Graph.takeItems dry (rs.map M.result)) := by
  induction rs with
  | nil => exact PSim.pure rfl
  | cons r rs ih =>
    refine PSim.ite Iff.rfl ?_ ?_
    · exact ih.bind (fun l l' h => PSim.pure (by rw [h]; rfl))
    · refine (M.applyOne hW r).bind (fun b b' hb => ih.bind (fun l l' h => PSim.pure ?_))
      subst hb
      subst h
      cases b <;> rfl

theorem takeAction (dry : Bool) (rs : Results ι δ) :
    PSim W M.graph (fun p p' => p' = (p.1.map M.result, p.2.map M.result)) (Graph.takeAction dry rs)
      (Graph.takeAction dry (M.results rs)) := by
  induction rs with
  | nil => exact PSim.pure rfl
  | cons r rs ih =>
    cases r with
    | none => exact ih
    | some items =>
      refine (M.takeItems hW dry items).bind (fun t t' ht => ih.bind (fun p p' h => PSim.pure ?_))
      subst ht
      subst h
      simp [List.map_append]

end Relabel
end Verif
