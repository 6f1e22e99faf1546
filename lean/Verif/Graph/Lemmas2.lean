import Verif.Graph.Lemmas
import Verif.Graph.Cmd

/-!
# Helper lemmas: restore, update, purge and the command language
-/

namespace Verif

section comm
variable {κ α : Type} [DecidableEq κ]

theorem assocSet_comm (k k' : κ) (x y : α) (l : List (κ × α)) (hk : k ≠ k') (h : k ∈ l.map Prod.fst)
    (h' : k' ∈ l.map Prod.fst) :
    assocSet k' y (assocSet k x l) = assocSet k x (assocSet k' y l) := by
  induction l with
  | nil => simp at h
  | cons p l ih =>
    obtain ⟨k0, v0⟩ := p
    by_cases h1 : k0 = k
    · subst h1
      simp [assocSet, hk]
    · by_cases h2 : k0 = k'
      · subst h2
        have : ¬ k0 = k := h1
        simp [assocSet, this]
      · have a1 : k ∈ l.map Prod.fst := by
          simp only [List.map_cons, List.mem_cons] at h
          exact h.resolve_left (fun e => h1 e.symm)
        have a2 : k' ∈ l.map Prod.fst := by
          simp only [List.map_cons, List.mem_cons] at h'
          exact h'.resolve_left (fun e => h2 e.symm)
        simp [assocSet, h1, h2, ih a1 a2]

theorem Dict.set_comm (d : Dict κ α) (k k' : κ) (x y : α) (hk : k ≠ k') (h : k ∈ d.keys) (h' : k' ∈ d.keys) :
    (d.set k x).set k' y = (d.set k' y).set k x :=
  Dict.ext (assocSet_comm k k' x y d.items hk h h')

theorem Dict.set2_of_none {ι α : Type} [DecidableEq ι] {d : Dict ι (Dict ι α)} {u v : ι} {x : α}
    (h : d.get? u = none) : d.set2 u v x = d := by
  unfold Dict.set2; rw [h]

theorem Dict.set2_comm {ι α : Type} [DecidableEq ι] (d : Dict ι (Dict ι α)) (u v a b : ι) (x y : α)
    (h : u ≠ a) : (d.set2 u v x).set2 a b y = (d.set2 a b y).set2 u v x := by
  cases hu : d.get? u with
  | none =>
    have e1 : d.set2 u v x = d := by simp [Dict.set2, hu]
    rw [e1]
    have : (d.set2 a b y).get? u = none := by
      unfold Dict.set2
      cases ha : d.get? a with
      | none => exact hu
      | some r => simp [Dict.get?_set, hu, Ne.symm h]
    rw [Dict.set2_of_none this]
  | some r =>
    cases ha : d.get? a with
    | none =>
      have e1 : d.set2 a b y = d := by simp [Dict.set2, ha]
      rw [e1]
      have : (d.set2 u v x).get? a = none := by
        unfold Dict.set2
        simp [hu, Dict.get?_set, ha, h]
      rw [Dict.set2_of_none this]
    | some r' =>
      have e1 : d.set2 u v x = d.set u (r.set v x) := by simp [Dict.set2, hu]
      have e2 : d.set2 a b y = d.set a (r'.set b y) := by simp [Dict.set2, ha]
      rw [e1, e2]
      have e3 : (d.set u (r.set v x)).get? a = some r' := by simp [Dict.get?_set, ha, h]
      have e4 : (d.set a (r'.set b y)).get? u = some r := by simp [Dict.get?_set, hu, Ne.symm h]
      simp only [Dict.set2, e3, e4]
      exact Dict.set_comm _ _ _ _ _ h ((Dict.mem_keys_iff _ _).2 (by simp [hu]))
        ((Dict.mem_keys_iff _ _).2 (by simp [ha]))

end comm

namespace Graph
variable {ι δ : Type} [DecidableEq ι]
variable {g : Graph ι δ} {u v : ι}

/-! ## restore -/

theorem restoreDirectedEdge_run (h : WF0 g) : restoreDirectedEdge u v g =
    if u ∉ g.nodes ∨ v ∉ g.nodes then (.error .graphError, g)
    else match g.edges.get2 u v with
      | some _ => (.ok (), modBoth g u v (fun e => { e with deleted := false }))
      | none => match g.del.get2 u v with
        | some e => (.ok (), forgetD (addDirG g u v e.metadata .directed) u v)
        | none => (.error .keyError, g) := by
  unfold restoreDirectedEdge
  rw [PyM.bind_ok (PyM.get_run g)]
  by_cases hu : u ∈ g.nodes <;> by_cases hv : v ∈ g.nodes <;> simp only [hu, hv, not_true, if_false, or_self,
    not_false_eq_true, if_true, true_or, or_true, PyM.raise_run]
  cases hs : g.edges.get2 u v with
  | some e =>
    have h2 : g.edges.has2 u v = true := by simp [Dict.has2, hs]
    simp only [h2, if_true]
    exact modBoth_run h hs _
  | none =>
    have h2 : g.edges.has2 u v = false := by simp [Dict.has2, hs]
    simp only [h2, Bool.false_eq_true, if_false]
    cases hd : g.del.get2 u v with
    | none => rw [PyM.bind_error (s' := g) (e := .keyError) (by simp [getD, hd])]
    | some e =>
      rw [PyM.bind_ok (a := e) (s' := g) (by simp [getD, hd])]
      have huv := (h.delE u v e hd).1
      rw [PyM.bind_ok (a := ()) (s' := addDirG g u v e.metadata .directed)
        (by rw [addDirectedEdge_run h]; simp [hu, hv, huv])]
      have : (addDirG g u v e.metadata .directed).del.has2 u v = true := by
        unfold addDirG
        rw [del_putBoth]
        rw [Dict.has2, get2_del_initG h hu, hd]; rfl
      simp [delD, this, forgetD]

theorem restoreHalf_run (h : WF0 g) (hu : u ∈ g.nodes) (hv : v ∈ g.nodes) : restoreHalf u v g =
    match g.edges.get2 u v with
      | some _ => (.ok (), modBoth g u v (fun e => { e with deleted := false }))
      | none => match g.del.get2 u v with
        | some e => (.ok (), forgetD (addG g u v e.metadata .undirected) u v)
        | none => (.error .keyError, g) := by
  unfold restoreHalf
  rw [PyM.bind_ok (PyM.get_run g)]
  cases hs : g.edges.get2 u v with
  | some e =>
    have h2 : g.edges.has2 u v = true := by simp [Dict.has2, hs]
    simp only [h2, if_true]
    exact modBoth_run h hs _
  | none =>
    have h2 : g.edges.has2 u v = false := by simp [Dict.has2, hs]
    simp only [h2, Bool.false_eq_true, if_false]
    cases hd : g.del.get2 u v with
    | none => rw [PyM.bind_error (s' := g) (e := .keyError) (by simp [getD, hd])]
    | some e =>
      rw [PyM.bind_ok (a := e) (s' := g) (by simp [getD, hd])]
      have huv := (h.delE u v e hd).1
      rw [PyM.bind_ok (a := ()) (s' := addG g u v e.metadata .undirected)
        (by rw [addEdge_run h]; simp [hu, hv, huv])]
      have : (addG g u v e.metadata .undirected).del.has2 u v = true := by
        unfold addG addDirG
        rw [del_putBoth, del_putBoth]
        rw [Dict.has2, get2_del_initG h hu, hd]; rfl
      simp [delD, this, forgetD]

theorem restoreEdge_run : restoreEdge u v g =
    if u ∉ g.nodes ∨ v ∉ g.nodes then (.error .graphError, g)
    else (restoreHalf u v >>= fun _ => restoreHalf v u) g := by
  unfold restoreEdge
  rw [PyM.bind_ok (PyM.get_run g)]
  by_cases hu : u ∈ g.nodes <;> by_cases hv : v ∈ g.nodes <;> simp only [hu, hv, not_true, if_false, or_self,
    not_false_eq_true, if_true, true_or, or_true, PyM.raise_run]

theorem RevExact.forgetD (h : RevExact g) (u v : ι) : RevExact (forgetD g u v) := h

theorem restoreHalf_wf (h : WF0 g) (hu : u ∈ g.nodes) (hv : v ∈ g.nodes) :
    WF0 (restoreHalf u v g).2 ∧ (restoreHalf u v g).2.nodes = g.nodes ∧
      (RevExact g → RevExact (restoreHalf u v g).2) := by
  rw [restoreHalf_run h hu hv]
  split
  · exact ⟨h.modBoth (fun _ => ⟨rfl, rfl⟩), nodes_modBoth, fun hr => RevExact.modBoth h hr⟩
  · split
    · rename_i e hd
      have huv := (h.delE u v e hd).1
      exact ⟨(h.addG hu hv huv _ _).forgetD u v, by simp [forgetD], fun hr => RevExact.addG h hr hu hv huv _ _⟩
    · exact ⟨h, rfl, id⟩

/-! ## update -/

/-- the metadata part of an update -/
def setMeta (m : Option δ) (e : Edge ι δ) : Edge ι δ :=
  match m with
  | some m => { e with metadata := m }
  | none => e

/-- the type part of an update -/
def setType (t : Option EType) (e : Edge ι δ) : Edge ι δ :=
  match t with
  | some t => { e with etype := t }
  | none => e

omit [DecidableEq ι] in
theorem setMeta_ids (m : Option δ) (e : Edge ι δ) : (setMeta m e).u = e.u ∧ (setMeta m e).v = e.v := by
  cases m <;> exact ⟨rfl, rfl⟩

omit [DecidableEq ι] in
theorem setType_ids (t : Option EType) (e : Edge ι δ) : (setType t e).u = e.u ∧ (setType t e).v = e.v := by
  cases t <;> exact ⟨rfl, rfl⟩

theorem set_same {κ α : Type} [DecidableEq κ] (d : Dict κ α) (k : κ) (x : α) (h : d.get? k = some x) : d.set k x = d := by
  have hset : ∀ (l : List (κ × α)), assoc k l = some x → assocSet k x l = l := by
    intro l
    induction l with
    | nil => intro hh; simp [assoc] at hh
    | cons p l ih =>
      obtain ⟨k', y⟩ := p
      by_cases hk : k' = k
      · intro hh
        simp only [assoc, hk, if_true, Option.some.injEq] at hh
        simp [assocSet, hk, hh]
      · simp only [assoc, hk, if_false, assocSet]
        intro hh; rw [ih hh]
  exact Dict.ext (hset d.items h)

theorem set2_same {α : Type} (d : Dict ι (Dict ι α)) (u v : ι) (x : α) (h : d.get2 u v = some x) :
    d.set2 u v x = d := by
  unfold Dict.set2
  cases hd : d.get? u with
  | none => rfl
  | some r =>
    have hr : r.get? v = some x := by simpa [Dict.get2, hd] using h
    show d.set u (r.set v x) = d
    rw [set_same r v x hr]
    exact set_same d u r hd

theorem modBoth_id (h : WF0 g) (f : Edge ι δ → Edge ι δ) (hf : ∀ e, f e = e) : modBoth g u v f = g := by
  unfold modBoth
  split
  · rename_i e he
    obtain ⟨_, _, _, _, h5⟩ := h.edge u v e he
    unfold putBoth
    rw [hf e, set2_same _ _ _ _ he, set2_same _ _ _ _ h5]
  · rfl

/-- writing four times in the order of `update_edge` is updating both objects -/
theorem four_run (h : WF0 g) {e e' : Edge ι δ} (he : g.edges.get2 u v = some e)
    (he' : g.edges.get2 v u = some e') (f : Edge ι δ → Edge ι δ) :
    (modE u v f >>= fun _ => modE v u f >>= fun _ => modR u v f >>= fun _ => modR v u f) g
      = (.ok (), modBoth (modBoth g u v f) v u f) := by
  obtain ⟨_, _, h3, h4, h5⟩ := h.edge u v e he
  obtain ⟨_, _, _, h4', h5'⟩ := h.edge v u e' he'
  have hne : ¬ (u = v ∧ v = u) := fun x => h3 x.1
  have hne' : ¬ (v = u ∧ u = v) := fun x => h3 x.2
  rw [PyM.bind_ok (modE_run he f)]
  rw [PyM.bind_ok (modE_run (e := e') (by
    show (g.edges.set2 u v (f e)).get2 v u = _
    rw [Dict.get2_set2 _ _ _ _ _ _ h4']; simp [hne, he']) f)]
  rw [PyM.bind_ok (modR_run (e := e') (by exact h5') f)]
  rw [modR_run (e := e) (by
    show (g.rev.set2 u v (f e')).get2 v u = _
    rw [Dict.get2_set2 _ _ _ _ _ _ (get2_isSome_has h5')]; simp [hne, h5]) f]
  rw [modBoth_of_some he, modBoth_of_some (e := e')]
  · unfold putBoth
    simp only
    rw [Dict.set2_comm g.rev u v v u (f e') (f e) h3]
  · rw [get2_putBoth h4']; simp [hne, he']

theorem updateDirectedEdge_run (h : WF0 g) (m : Option δ) (t : Option EType) :
    updateDirectedEdge u v m t g =
      if u ∈ g.nodes ∧ v ∈ g.nodes ∧ g.edges.has2 u v = true then
        (.ok (), modBoth (modBoth g u v (setMeta m)) u v (setType t))
      else (.error .graphError, g) := by
  unfold updateDirectedEdge
  rw [PyM.bind_ok (PyM.get_run g)]
  by_cases hu : u ∈ g.nodes <;> by_cases hv : v ∈ g.nodes <;> simp only [hu, hv, not_true, if_false,
    not_false_eq_true, if_true, PyM.raise_run, true_and, false_and]
  cases hs : g.edges.get2 u v with
  | none =>
    have h2 : g.edges.has2 u v = false := by simp [Dict.has2, hs]
    by_cases h1 : g.edges.has u = true <;> simp [h1, h2]
  | some e =>
    have h2 : g.edges.has2 u v = true := by simp [Dict.has2, hs]
    have h1 : g.edges.has u = true := get2_isSome_has hs
    simp only [h1, h2, Bool.not_true, Bool.false_eq_true, if_false, if_true]
    have key1 : (PyM.whenSome m (fun m => do
          modE u v (fun e => { e with metadata := m })
          modR v u (fun e => { e with metadata := m })) : PyM (Graph ι δ) Unit) g = (.ok (), modBoth g u v (setMeta m)) := by
      cases m with
      | none =>
        rw [modBoth_id h (setMeta none) (fun _ => rfl)]; rfl
      | some m => exact modBoth_run h hs _
    refine (PyM.bind_ok key1).trans ?_
    have hw : WF0 (modBoth g u v (setMeta m)) := h.modBoth (setMeta_ids m)
    cases t with
    | none => rw [modBoth_id hw (setType none) (fun _ => rfl)]; rfl
    | some t =>
      refine modBoth_run (e := setMeta m e) hw ?_ _
      rw [get2_modBoth, hs]; simp

theorem updateEdge_run (h : WF0 g) (m : Option δ) (t : Option EType) :
    updateEdge u v m t g =
      if u ∈ g.nodes ∧ v ∈ g.nodes ∧ g.edges.has2 u v = true ∧ g.edges.has2 v u = true then
        (.ok (), modBoth (modBoth (modBoth (modBoth g u v (setMeta m)) v u (setMeta m))
          u v (setType t)) v u (setType t))
      else (.error .graphError, g) := by
  unfold updateEdge
  rw [PyM.bind_ok (PyM.get_run g)]
  by_cases hu : u ∈ g.nodes <;> by_cases hv : v ∈ g.nodes <;> simp only [hu, hv, not_true, if_false,
    not_false_eq_true, if_true, PyM.raise_run, true_and, false_and]
  cases hs : g.edges.get2 u v with
  | none =>
    have h2 : g.edges.has2 u v = false := by simp [Dict.has2, hs]
    by_cases h1 : g.edges.has u = true <;> by_cases h3 : g.edges.has v = true <;>
      by_cases h4 : g.edges.has2 v u = true <;> simp [h1, h2, h3, h4]
  | some e =>
    have h2 : g.edges.has2 u v = true := by simp [Dict.has2, hs]
    have h1 : g.edges.has u = true := get2_isSome_has hs
    cases hs' : g.edges.get2 v u with
    | none =>
      have h2' : g.edges.has2 v u = false := by simp [Dict.has2, hs']
      by_cases h3 : g.edges.has v = true <;> simp [h1, h2, h2', h3]
    | some e' =>
      have h2' : g.edges.has2 v u = true := by simp [Dict.has2, hs']
      have h1' : g.edges.has v = true := get2_isSome_has hs'
      simp only [h1, h2, h1', h2', Bool.not_true, Bool.false_eq_true, if_false, if_true, and_self]
      have key1 : (PyM.whenSome m (fun m => do
            modE u v (fun e => { e with metadata := m })
            modE v u (fun e => { e with metadata := m })
            modR u v (fun e => { e with metadata := m })
            modR v u (fun e => { e with metadata := m })) : PyM (Graph ι δ) Unit) g
          = (.ok (), modBoth (modBoth g u v (setMeta m)) v u (setMeta m)) := by
        cases m with
        | none =>
          rw [modBoth_id h (setMeta none) (fun _ => rfl), modBoth_id h (setMeta none) (fun _ => rfl)]; rfl
        | some m => exact four_run h hs hs' _
      refine (PyM.bind_ok key1).trans ?_
      have hw : WF0 (modBoth (modBoth g u v (setMeta m)) v u (setMeta m)) :=
        (h.modBoth (setMeta_ids m)).modBoth (setMeta_ids m)
      cases t with
      | none => rw [modBoth_id hw (setType none) (fun _ => rfl), modBoth_id hw (setType none) (fun _ => rfl)]; rfl
      | some t =>
        have hne := (h.edge u v e hs).2.2.1
        refine four_run (e := setMeta m e) (e' := setMeta m e') hw ?_ ?_ _
        · have : ¬ (v = u ∧ u = v) := fun x => hne x.2
          simp only [get2_modBoth, hs, this, if_false]; simp
        · have : ¬ (u = v ∧ v = u) := fun x => hne x.1
          simp only [get2_modBoth, hs', this, if_false]; simp

/-! ## stored entries and purge -/

theorem mem_storedList (g : Graph ι δ) (a b : ι) (e : Edge ι δ) :
    (a, b, e) ∈ g.storedList ↔ g.edges.get2 a b = some e := by
  unfold storedList
  simp only [List.mem_flatMap, List.mem_map, Prod.mk.injEq, Prod.exists]
  unfold Dict.get2
  constructor
  · rintro ⟨a', row, hm, b', e', hm', rfl, rfl, rfl⟩
    rw [Dict.mem_items_iff] at hm hm'
    simp [hm, hm']
  · intro hh
    cases hd : g.edges.get? a with
    | none => simp [hd] at hh
    | some row =>
      simp only [hd, Option.bind_some] at hh
      exact ⟨a, row, (Dict.mem_items_iff _ _ _).2 hd, b, e, (Dict.mem_items_iff _ _ _).2 hh, rfl, rfl, rfl⟩

theorem mem_softDeletedList (g : Graph ι δ) (p : ι × ι) :
    p ∈ g.softDeletedList ↔ ∃ e, g.edges.get2 p.1 p.2 = some e ∧ e.deleted = true := by
  obtain ⟨a, b⟩ := p
  unfold softDeletedList
  simp only [List.mem_map, List.mem_filter, Prod.exists, Prod.mk.injEq]
  constructor
  · rintro ⟨a', b', e, ⟨hm, hd⟩, rfl, rfl⟩
    exact ⟨e, (mem_storedList g _ _ _).1 hm, hd⟩
  · rintro ⟨e, he, hd⟩
    exact ⟨a, b, e, ⟨(mem_storedList g _ _ _).2 he, hd⟩, rfl, rfl⟩

theorem WF0.edge_nodes (h : WF0 g) {a b : ι} {e : Edge ι δ} (he : g.edges.get2 a b = some e) :
    a ∈ g.nodes ∧ b ∈ g.nodes :=
  ⟨h.rowsN a (get2_isSome_has he), h.rowsN b (h.edge a b e he).2.2.2.1⟩

/-- dropping a list of pairs -/
def dropList (g : Graph ι δ) (l : List (ι × ι)) : Graph ι δ := l.foldl (fun g p => dropG g p.1 p.2) g

theorem WF0.dropList (h : WF0 g) (l : List (ι × ι)) : WF0 (dropList g l) := by
  induction l generalizing g with
  | nil => exact h
  | cons p l ih => exact ih h.dropG

theorem RevExact.dropList (h : RevExact g) (l : List (ι × ι)) : RevExact (dropList g l) := by
  induction l generalizing g with
  | nil => exact h
  | cons p l ih => exact ih (RevExact.dropG h)

theorem nodes_dropList (l : List (ι × ι)) : (dropList g l).nodes = g.nodes := by
  induction l generalizing g with
  | nil => rfl
  | cons p l ih => exact (ih (g := dropG g p.1 p.2)).trans nodes_dropG

theorem hist_dropList (l : List (ι × ι)) : (dropList g l).hist = g.hist := by
  induction l generalizing g with
  | nil => rfl
  | cons p l ih => exact (ih (g := dropG g p.1 p.2)).trans hist_dropG

theorem get2_dropList (l : List (ι × ι)) (a b : ι) : (dropList g l).edges.get2 a b =
    if (a, b) ∈ l then none else g.edges.get2 a b := by
  induction l generalizing g with
  | nil => simp [dropList]
  | cons p l ih =>
    have := ih (g := dropG g p.1 p.2)
    rw [get2_dropG] at this
    show (dropList (dropG g p.1 p.2) l).edges.get2 a b = _
    rw [this]
    obtain ⟨p1, p2⟩ := p
    by_cases h1 : (a, b) ∈ l
    · simp [h1]
    · by_cases h2 : p1 = a ∧ p2 = b
      · obtain ⟨rfl, rfl⟩ := h2; simp
      · have : ¬ ((a, b) = (p1, p2)) := by
          rintro ⟨⟩; exact h2 ⟨rfl, rfl⟩
        simp [h1, h2, this]

theorem forEach_drop (h : WF0 g) (l : List (ι × ι)) (hl : ∀ p ∈ l, p.1 ∈ g.nodes ∧ p.2 ∈ g.nodes) :
    PyM.forEach l (fun p => removeDirectedEdge p.1 p.2) g = (.ok (), dropList g l) := by
  induction l generalizing g with
  | nil => rfl
  | cons p l ih =>
    rw [PyM.forEach_cons]
    have hp := hl p (by simp)
    rw [PyM.bind_ok (a := ()) (s' := dropG g p.1 p.2) (by rw [removeDirectedEdge_hard_run h]; simp [hp.1, hp.2])]
    rw [ih h.dropG (fun q hq => by rw [nodes_dropG]; exact hl q (by simp [hq]))]
    rfl

/-- The graph after `purge_soft_deleted_edges`. -/
def purgeG (g : Graph ι δ) : Graph ι δ := dropList g g.softDeletedList

theorem purge_run (h : WF0 g) : purge g = (.ok (), purgeG g) := by
  unfold purge
  rw [PyM.bind_ok (PyM.get_run g)]
  have hl : ∀ p ∈ g.softDeletedList, p.1 ∈ g.nodes ∧ p.2 ∈ g.nodes := by
    intro p hp
    obtain ⟨e, he, _⟩ := (mem_softDeletedList g p).1 hp
    exact h.edge_nodes he
  have : g.softDeletedList.all (fun p => decide (p.1 ∈ g.nodes) && decide (p.2 ∈ g.nodes)) = true := by
    rw [List.all_eq_true]
    intro p hp
    simp [hl p hp]
  simp only [this, if_true]
  exact forEach_drop h _ hl

theorem get2_purgeG (a b : ι) : (purgeG g).edges.get2 a b =
    match g.edges.get2 a b with
    | some e => if e.deleted then none else some e
    | none => none := by
  unfold purgeG
  rw [get2_dropList]
  cases he : g.edges.get2 a b with
  | none => simp
  | some e =>
    by_cases hd : e.deleted = true
    · have : (a, b) ∈ g.softDeletedList := (mem_softDeletedList g (a, b)).2 ⟨e, he, hd⟩
      simp [this, hd]
    · have : (a, b) ∉ g.softDeletedList := by
        intro hm
        obtain ⟨e', he', hd'⟩ := (mem_softDeletedList g (a, b)).1 hm
        rw [he] at he'; injection he' with he'; subst he'; exact hd hd'
      simp [this, hd]

theorem WF0.purgeG (h : WF0 g) : WF0 (purgeG g) := h.dropList _
theorem RevExact.purgeG (h : RevExact g) : RevExact (purgeG g) := RevExact.dropList h _
theorem nodes_purgeG : (purgeG g).nodes = g.nodes := nodes_dropList _
theorem hist_purgeG : (purgeG g).hist = g.hist := hist_dropList _

/-! ## Queries in terms of the stored entries -/

/-- A stored, not soft-deleted entry. -/
def live (g : Graph ι δ) (u v : ι) : Bool :=
  match g.edges.get2 u v with
  | some e => !e.deleted
  | none => false

theorem softDeleted_eq (g : Graph ι δ) (u v : ι) : g.softDeleted u v =
    match g.edges.get2 u v with
    | some e => e.deleted
    | none => false := by
  unfold softDeleted Dict.get2
  cases hd : g.edges.get? u with
  | none => rfl
  | some row =>
    simp only [Option.bind_some]
    cases row.get? v <;> rfl

theorem directedEdgeExists_eq (h : WF0 g) (u v : ι) : g.directedEdgeExists u v = g.live u v := by
  unfold directedEdgeExists live
  cases he : g.edges.get2 u v with
  | none =>
    have h2 : g.edges.has2 u v = false := by simp [Dict.has2, he]
    simp [h2]
  | some e =>
    obtain ⟨hu, hv⟩ := h.edge_nodes he
    have h1 := get2_isSome_has he
    have h2 : g.edges.has2 u v = true := by simp [Dict.has2, he]
    simp only [hu, hv, h1, h2, not_true, if_false, Bool.not_true, Bool.false_eq_true, softDeleted_eq, he]
    cases e.deleted <;> rfl

theorem edgeExists_eq (h : WF0 g) (u v : ι) : g.edgeExists u v = (g.live u v || g.live v u) := by
  unfold edgeExists
  have key : ∀ a b, (g.edges.has2 a b && !g.softDeleted a b) = g.live a b := by
    intro a b
    unfold live
    rw [softDeleted_eq, Dict.has2]
    cases g.edges.get2 a b with
    | none => rfl
    | some e => simp
  simp only [key]
  by_cases hu : u ∈ g.nodes
  · by_cases hv : v ∈ g.nodes
    · simp only [hu, hv, not_true, if_false]
      cases g.live u v <;> cases g.live v u <;> rfl
    · have h1 : g.live u v = false := by
        unfold live
        cases he : g.edges.get2 u v with
        | none => rfl
        | some e => exact absurd (h.edge_nodes he).2 hv
      have h2 : g.live v u = false := by
        unfold live
        cases he : g.edges.get2 v u with
        | none => rfl
        | some e => exact absurd (h.edge_nodes he).1 hv
      simp [hu, hv, h1, h2]
  · have h1 : g.live u v = false := by
      unfold live
      cases he : g.edges.get2 u v with
      | none => rfl
      | some e => exact absurd (h.edge_nodes he).1 hu
    have h2 : g.live v u = false := by
      unfold live
      cases he : g.edges.get2 v u with
      | none => rfl
      | some e => exact absurd (h.edge_nodes he).2 hu
    simp [hu, h1, h2]

theorem live_iff {u v : ι} : g.live u v = true ↔ ∃ e, g.edges.get2 u v = some e ∧ e.deleted = false := by
  unfold live
  cases g.edges.get2 u v with
  | none => simp
  | some e => cases hd : e.deleted <;> simp [hd]

theorem WF0.live_nodes (h : WF0 g) {a b : ι} (hl : g.live a b = true) : a ∈ g.nodes ∧ b ∈ g.nodes := by
  obtain ⟨e, he, _⟩ := live_iff.1 hl
  exact h.edge_nodes he

theorem WF0.live_ne (h : WF0 g) {a b : ι} (hl : g.live a b = true) : a ≠ b := by
  obtain ⟨e, he, _⟩ := live_iff.1 hl
  exact (h.edge a b e he).2.2.1

theorem live_purgeG (a b : ι) : (purgeG g).live a b = g.live a b := by
  unfold live
  rw [get2_purgeG]
  cases g.edges.get2 a b with
  | none => rfl
  | some e => cases hd : e.deleted <;> simp [hd]

theorem addEdgeHistory_run (u v : ι) (r : TestResult ι δ) (g : Graph ι δ) : addEdgeHistory u v r g =
    (.ok (), { g with hist := g.hist.set (u, v) (((g.hist.get? (u, v)).getD []) ++ [r]) }) := by
  unfold addEdgeHistory
  cases g.hist.get? (u, v) <;> rfl

theorem addEdgeHistory_wf (h : WF0 g) (u v : ι) (r : TestResult ι δ) : WF0 (addEdgeHistory u v r g).2 := by
  rw [addEdgeHistory_run]
  refine ⟨h.nodup, h.keysR, h.keysD, h.rowsN, h.edge, h.revE, h.delE, ?_⟩
  intro a b hab
  have := h.histK a b hab
  simp [Dict.has_set, this]

theorem addNode_wf (h : WF0 g) (id : ι) : WF0 (addNode id g).2 := by
  rw [addNode_run]
  split
  · exact h
  · rename_i hid
    refine ⟨?_, h.keysR, h.keysD, ?_, h.edge, h.revE, h.delE, h.histK⟩
    · show (g.nodes ++ [id]).Nodup
      rw [List.nodup_append]
      refine ⟨h.nodup, by simp, ?_⟩
      intro a ha b hb hab
      simp only [List.mem_singleton] at hb
      subst hb; subst hab; exact hid ha
    · intro a ha
      have := h.rowsN a ha
      simp [this]

theorem removeEdge_wf (h : WF0 g) (u v : ι) (s : Bool) : WF0 (removeEdge u v s g).2 := by
  by_cases hn : u ∉ g.nodes ∨ v ∉ g.nodes
  · rw [removeEdge_unknown hn]; exact h
  · push Not at hn
    cases s with
    | true =>
      rw [removeEdge_soft_run h]
      simp only [hn.1, hn.2, not_true, or_self, if_false]
      refine WF0.modBoth (WF0.modBoth h ?_) ?_ <;> intro _ <;> exact ⟨rfl, rfl⟩
    | false =>
      cases h1 : g.edges.get2 u v with
      | none =>
        cases h2 : g.edges.get2 v u with
        | none => rw [removeEdge_hard_run_zero hn.1 hn.2 h1 h2]; exact h
        | some e => rw [removeEdge_hard_run_one' h h1 h2]; exact h.dropHalf h2 h1
      | some e =>
        cases h2 : g.edges.get2 v u with
        | none => rw [removeEdge_hard_run_one h h1 h2]; exact h.dropHalf h1 h2
        | some e' => rw [removeEdge_hard_run_two h h1 h2]; exact h.dropTwo h1 h2

theorem restoreEdge_wf (h : WF0 g) (u v : ι) : WF0 (restoreEdge u v g).2 := by
  rw [restoreEdge_run]
  split
  · exact h
  · rename_i hn
    push Not at hn
    have h1 := restoreHalf_wf h hn.1 hn.2
    rw [PyM.bind_run]
    generalize restoreHalf u v g = r at h1
    obtain ⟨x | x, g'⟩ := r
    · exact h1.1
    · exact (restoreHalf_wf h1.1 (h1.2.1 ▸ hn.2) (h1.2.1 ▸ hn.1)).1

theorem run_wf (h : WF0 g) (c : Cmd ι δ) : WF0 (c.run g).2 := by
  cases c with
  | addNode id => exact addNode_wf h id
  | addEdge u v m t =>
    show WF0 (addEdge u v m t g).2
    rw [addEdge_run h]; split
    · exact h
    · rename_i hn; push Not at hn; exact h.addG hn.1 hn.2.1 hn.2.2 _ _
  | addDirectedEdge u v m t =>
    show WF0 (addDirectedEdge u v m t g).2
    rw [addDirectedEdge_run h]; split
    · exact h
    · rename_i hn; push Not at hn; exact h.addDirG hn.1 hn.2.1 hn.2.2 _ _
  | addEdgeHistory u v r => exact addEdgeHistory_wf h u v r
  | removeEdge u v s => exact removeEdge_wf h u v s
  | restoreEdge u v => exact restoreEdge_wf h u v
  | removeDirectedEdge u v s =>
    show WF0 (removeDirectedEdge u v s g).2
    cases s with
    | true =>
      rw [removeDirectedEdge_soft_run h]; split
      · exact h
      · exact h.modBoth (fun _ => ⟨rfl, rfl⟩)
    | false =>
      rw [removeDirectedEdge_hard_run h]; split
      · exact h
      · exact h.dropG
  | restoreDirectedEdge u v =>
    show WF0 (restoreDirectedEdge u v g).2
    rw [restoreDirectedEdge_run h]
    split
    · exact h
    · rename_i hn; push Not at hn
      split
      · exact h.modBoth (fun _ => ⟨rfl, rfl⟩)
      · split
        · rename_i e hd
          exact (h.addDirG hn.1 hn.2 (h.delE u v e hd).1 _ _).forgetD _ _
        · exact h
  | updateEdge u v m t =>
    show WF0 (updateEdge u v m t g).2
    rw [updateEdge_run h]; split
    · exact (((h.modBoth (setMeta_ids m)).modBoth (setMeta_ids m)).modBoth (setType_ids t)).modBoth (setType_ids t)
    · exact h
  | updateDirectedEdge u v m t =>
    show WF0 (updateDirectedEdge u v m t g).2
    rw [updateDirectedEdge_run h]; split
    · exact (h.modBoth (setMeta_ids m)).modBoth (setType_ids t)
    · exact h
  | purge =>
    show WF0 (purge g).2
    rw [purge_run h]; exact h.purgeG

theorem runAll_wf (h : WF0 g) (cs : List (Cmd ι δ)) : WF0 (Cmd.runAll cs g) := by
  induction cs generalizing g with
  | nil => exact h
  | cons c cs ih => exact ih (run_wf h c)

theorem run_revExact (h : WF0 g) (hr : RevExact g) (c : Cmd ι δ) (hc : ¬ c.isOneWayHardRemove g) :
    RevExact (c.run g).2 := by
  cases c with
  | addNode id =>
    show RevExact (addNode id g).2
    rw [addNode_run]; split
    · exact hr
    · exact hr
  | addEdge u v m t =>
    show RevExact (addEdge u v m t g).2
    rw [addEdge_run h]; split
    · exact hr
    · rename_i hn; push Not at hn; exact RevExact.addG h hr hn.1 hn.2.1 hn.2.2 _ _
  | addDirectedEdge u v m t =>
    show RevExact (addDirectedEdge u v m t g).2
    rw [addDirectedEdge_run h]; split
    · exact hr
    · rename_i hn; push Not at hn; exact RevExact.addDirG h hr hn.1 hn.2.1 _ _
  | addEdgeHistory u v r =>
    show RevExact (addEdgeHistory u v r g).2
    rw [addEdgeHistory_run]; exact hr
  | removeEdge u v s =>
    show RevExact (removeEdge u v s g).2
    by_cases hn : u ∉ g.nodes ∨ v ∉ g.nodes
    · rw [removeEdge_unknown hn]; exact hr
    · push Not at hn
      cases s with
      | true =>
        rw [removeEdge_soft_run h]
        simp only [hn.1, hn.2, not_true, or_self, if_false]
        exact RevExact.modBoth (h.modBoth (fun _ => ⟨rfl, rfl⟩)) (RevExact.modBoth h hr)
      | false =>
        cases h1 : g.edges.get2 u v with
        | none =>
          cases h2 : g.edges.get2 v u with
          | none => rw [removeEdge_hard_run_zero hn.1 hn.2 h1 h2]; exact hr
          | some e => exact absurd ⟨u, v, rfl, by simp [Dict.has2, h1, h2]⟩ hc
        | some e =>
          cases h2 : g.edges.get2 v u with
          | none => exact absurd ⟨u, v, rfl, by simp [Dict.has2, h1, h2]⟩ hc
          | some e' => rw [removeEdge_hard_run_two h h1 h2]; exact RevExact.dropTwo hr
  | restoreEdge u v =>
    show RevExact (restoreEdge u v g).2
    rw [restoreEdge_run]
    split
    · exact hr
    · rename_i hn
      push Not at hn
      have h1 := restoreHalf_wf h hn.1 hn.2
      rw [PyM.bind_run]
      generalize restoreHalf u v g = r at h1
      obtain ⟨x | x, g'⟩ := r
      · exact h1.2.2 hr
      · exact (restoreHalf_wf h1.1 (h1.2.1 ▸ hn.2) (h1.2.1 ▸ hn.1)).2.2 (h1.2.2 hr)
  | removeDirectedEdge u v s =>
    show RevExact (removeDirectedEdge u v s g).2
    cases s with
    | true =>
      rw [removeDirectedEdge_soft_run h]; split
      · exact hr
      · exact RevExact.modBoth h hr
    | false =>
      rw [removeDirectedEdge_hard_run h]; split
      · exact hr
      · exact RevExact.dropG hr
  | restoreDirectedEdge u v =>
    show RevExact (restoreDirectedEdge u v g).2
    rw [restoreDirectedEdge_run h]
    split
    · exact hr
    · rename_i hn; push Not at hn
      split
      · exact RevExact.modBoth h hr
      · split
        · exact RevExact.addDirG h hr hn.1 hn.2 _ _
        · exact hr
  | updateEdge u v m t =>
    show RevExact (updateEdge u v m t g).2
    rw [updateEdge_run h]; split
    · have w1 := h.modBoth (u := u) (v := v) (setMeta_ids m)
      have w2 := w1.modBoth (u := v) (v := u) (setMeta_ids m)
      have w3 := w2.modBoth (u := u) (v := v) (setType_ids t)
      exact RevExact.modBoth w3 (RevExact.modBoth w2 (RevExact.modBoth w1 (RevExact.modBoth h hr)))
    · exact hr
  | updateDirectedEdge u v m t =>
    show RevExact (updateDirectedEdge u v m t g).2
    rw [updateDirectedEdge_run h]; split
    · exact RevExact.modBoth (h.modBoth (setMeta_ids m)) (RevExact.modBoth h hr)
    · exact hr
  | purge =>
    show RevExact (purge g).2
    rw [purge_run h]; exact RevExact.purgeG hr

end Graph
end Verif
