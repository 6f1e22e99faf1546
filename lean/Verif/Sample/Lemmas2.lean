import Verif.Sample.Lemmas

/-!
# Helper lemmas: the graphs of the generators, time series
-/

namespace Verif

namespace PyM
variable {σ β γ : Type}

theorem forEach_append (a b : List β) (body : β → PyM σ Unit) :
    forEach (a ++ b) body = (forEach a body >>= fun _ => forEach b body) := by
  induction a with
  | nil => rfl
  | cons x xs ih =>
    funext s
    rw [List.cons_append, forEach_cons, forEach_cons, bind_run, bind_run, bind_run]
    generalize body x s = r
    obtain ⟨e | u, s'⟩ := r
    · rfl
    · simp only
      rw [ih, bind_run]

theorem forEach_flatMap (l : List β) (f : β → List γ) (body : γ → PyM σ Unit) :
    forEach l (fun x => forEach (f x) body) = forEach (l.flatMap f) body := by
  induction l with
  | nil => rfl
  | cons x xs ih => rw [forEach_cons, List.flatMap_cons, forEach_append, ih]

theorem forEach_map (l : List β) (f : β → γ) (body : γ → PyM σ Unit) :
    forEach l (fun x => body (f x)) = forEach (l.map f) body := by
  induction l with
  | nil => rfl
  | cons x xs ih => rw [forEach_cons, List.map_cons, forEach_cons, ih]

theorem forEach_skip (l : List β) (c : β → Prop) [DecidablePred c] (body : β → PyM σ Unit) :
    forEach l (fun x => if c x then Pure.pure () else body x) = forEach (l.filter (fun x => ¬ c x)) body := by
  induction l with
  | nil => rfl
  | cons x xs ih =>
    rw [forEach_cons, ih]
    by_cases h : c x
    · simp only [h, if_true, not_true, decide_false, List.filter_cons, Bool.false_eq_true, if_false]
      rfl
    · simp only [h, if_false, not_false_eq_true, decide_true, List.filter_cons, if_true, forEach_cons]

end PyM

namespace Sample
variable {κ δ : Type} [DecidableEq κ]
open Graph

theorem addNodes_ok (l : List κ) (g : Graph κ δ) (hg : WF0 g) (hl : l.Nodup) (hd : ∀ x ∈ l, x ∉ g.nodes) :
    PyM.forEach l Graph.addNode g = (.ok (), { g with nodes := g.nodes ++ l }) := by
  induction l generalizing g with
  | nil => simp
  | cons x xs ih =>
    rw [List.nodup_cons] at hl
    have hx : x ∉ g.nodes := hd x (by simp)
    rw [PyM.forEach_cons_ok (s' := { g with nodes := g.nodes ++ [x] }) (by rw [addNode_run, if_neg hx])]
    have hg' : WF0 { g with nodes := g.nodes ++ [x] } :=
      { nodup := by
          show (g.nodes ++ [x]).Nodup
          rw [List.nodup_append]
          refine ⟨hg.nodup, by simp, ?_⟩
          intro a ha b hb hab
          have : b = x := by simpa using hb
          exact hx (by rw [← this, ← hab]; exact ha)
        keysR := hg.keysR
        keysD := hg.keysD
        rowsN := fun u hu => List.mem_append_left _ (hg.rowsN u hu)
        edge := hg.edge
        revE := hg.revE
        delE := hg.delE
        histK := hg.histK }
    rw [ih _ hg' hl.2 (fun y hy => by
      show y ∉ g.nodes ++ [x]
      simp only [List.mem_append, List.mem_singleton, not_or]
      exact ⟨hd y (by simp [hy]), fun e => hl.1 (e ▸ hy)⟩)]
    simp

theorem wf0_nodes (l : List κ) (hl : l.Nodup) : WF0 ({ (Graph.empty : Graph κ δ) with nodes := l }) :=
  { nodup := hl
    keysR := rfl
    keysD := rfl
    rowsN := fun u hu => by cases hu
    edge := fun u v e h => by cases h
    revE := fun v u e h => by cases h
    delE := fun u v e h => by cases h
    histK := fun u v h => by cases h }

/-- the loop adding edges, as a loop over ordered pairs -/
def addPair (m0 : δ) (p : κ × κ) : PyM (Graph κ δ) Unit := do
  let g ← PyM.get
  if p.1 ∉ g.nodes ∨ p.2 ∉ g.nodes then PyM.raise .keyError
  else Graph.addDirectedEdge p.1 p.2 m0

theorem addPairs_ok (m0 : δ) (l : List (κ × κ)) (g : Graph κ δ) (hg : WF0 g)
    (hl : ∀ p ∈ l, p.1 ∈ g.nodes ∧ p.2 ∈ g.nodes ∧ p.1 ≠ p.2) :
    ∃ g', PyM.forEach l (addPair m0) g = (.ok (), g') ∧ WF0 g' ∧ g'.nodes = g.nodes ∧
      ∀ a b, ((a, b) ∈ l → g'.edges.get2 a b = some ⟨a, b, .directed, m0, false⟩) ∧
        ((a, b) ∉ l → g'.edges.get2 a b = g.edges.get2 a b) := by
  induction l generalizing g with
  | nil => exact ⟨g, rfl, hg, rfl, by simp⟩
  | cons p ps ih =>
    obtain ⟨h1, h2, h3⟩ := hl p (by simp)
    have hstep : addPair m0 p g = (.ok (), addDirG g p.1 p.2 m0 .directed) := by
      unfold addPair
      rw [PyM.bind_ok (PyM.get_run g)]
      rw [PyM.ite_run, if_neg (by simp [h1, h2]), addDirectedEdge_run hg, if_neg (by simp [h1, h2, h3])]
    rw [PyM.forEach_cons_ok hstep]
    obtain ⟨g', e1, e2, e3, e4⟩ := ih (addDirG g p.1 p.2 m0 .directed) (hg.addDirG h1 h2 h3 _ _) (fun q hq => by
      rw [nodes_addDirG]
      exact hl q (by simp [hq]))
    refine ⟨g', e1, e2, by rw [e3, nodes_addDirG], fun a b => ?_⟩
    obtain ⟨f1, f2⟩ := e4 a b
    obtain ⟨u, v⟩ := p
    constructor
    · intro h
      by_cases hab : (a, b) ∈ ps
      · exact f1 hab
      · rw [f2 hab, get2_addDirG]
        rcases List.mem_cons.1 h with h | h
        · rw [Prod.mk.injEq] at h
          obtain ⟨rfl, rfl⟩ := h
          simp
        · exact absurd h hab
    · intro h
      rw [List.mem_cons, not_or, Prod.mk.injEq] at h
      rw [f2 h.2, get2_addDirG, if_neg (fun e => h.1 ⟨e.1.symm, e.2.symm⟩)]

theorem graph_ok (m0 : δ) (nodes : List κ) (hn : nodes.Nodup) (l : List (κ × κ))
    (hl : ∀ p ∈ l, p.1 ∈ nodes ∧ p.2 ∈ nodes ∧ p.1 ≠ p.2) :
    ∃ g, (do PyM.forEach nodes Graph.addNode; PyM.forEach l (addPair m0) : PyM (Graph κ δ) Unit) Graph.empty = (.ok (), g) ∧
      WF0 g ∧ g.nodes = nodes ∧
      ∀ a b, ((a, b) ∈ l → g.edges.get2 a b = some ⟨a, b, .directed, m0, false⟩) ∧
        ((a, b) ∉ l → g.edges.get2 a b = none) := by
  have hwe : WF0 (Graph.empty : Graph κ δ) := wf0_nodes [] (by simp)
  have h0 := addNodes_ok nodes (Graph.empty : Graph κ δ) hwe hn (by simp [Graph.empty])
  have hg : WF0 ({ (Graph.empty : Graph κ δ) with nodes := [] ++ nodes }) := by
    rw [List.nil_append]
    exact wf0_nodes nodes hn
  obtain ⟨g, e1, e2, e3, e4⟩ := addPairs_ok m0 l _ hg hl
  refine ⟨g, ?_, e2, e3, ?_⟩
  · rw [PyM.bind_ok h0]
    exact e1
  · exact e4

variable {ι R : Type} [DecidableEq ι]

theorem iidGraph_ok (m0 : δ) (edges : List (SEdge ι R)) {vars : List ι} (hn : vars.Nodup)
    (hv : ∀ x, Mentioned edges x → x ∈ vars) (hne : ∀ e ∈ edges, e.src ≠ e.dst) :
    ∃ g : Graph ι δ, iidGraph m0 edges vars Graph.empty = (.ok (), g) ∧ WF0 g ∧ g.nodes = vars ∧
      ∀ a b, ((a, b) ∈ edges.map (fun e => (e.src, e.dst)) → g.edges.get2 a b = some ⟨a, b, .directed, m0, false⟩) ∧
        ((a, b) ∉ edges.map (fun e => (e.src, e.dst)) → g.edges.get2 a b = none) := by
  have : iidGraph (δ := δ) m0 edges vars
      = (do PyM.forEach vars Graph.addNode; PyM.forEach (edges.map (fun e => (e.src, e.dst))) (addPair m0)) := by
    unfold iidGraph
    rw [← PyM.forEach_map]
    rfl
  rw [this]
  refine graph_ok m0 vars hn _ ?_
  intro p hp
  obtain ⟨e, he, rfl⟩ := List.mem_map.1 hp
  exact ⟨hv _ ⟨e, he, Or.inl rfl⟩, hv _ ⟨e, he, Or.inr rfl⟩, hne e he⟩

/-- the edges of the graph of a time series -/
def tsPairs (edges : List (SEdge ι R)) (size : ℕ) : List ((ι × ℕ) × (ι × ℕ)) :=
  (List.range' 1 (size - 1)).flatMap (fun t =>
    (edges.filter (fun e => ¬ t < e.time.natAbs)).map (fun e => ((e.src, t - e.time.natAbs), (e.dst, t))))

omit [DecidableEq ι] in
theorem mem_tsPairs {edges : List (SEdge ι R)} {size : ℕ} {a b : ι × ℕ} : (a, b) ∈ tsPairs edges size ↔
    1 ≤ b.2 ∧ b.2 < size ∧ ∃ e ∈ edges, e.src = a.1 ∧ e.dst = b.1 ∧ a.2 + e.time.natAbs = b.2 := by
  obtain ⟨a, s⟩ := a
  obtain ⟨b, t⟩ := b
  unfold tsPairs
  simp only [List.mem_flatMap, List.mem_range'_1, List.mem_map, List.mem_filter, decide_eq_true_eq, Prod.mk.injEq]
  constructor
  · rintro ⟨t', ⟨h1, h2⟩, e, ⟨he, h3⟩, ⟨rfl, rfl⟩, rfl, rfl⟩
    exact ⟨h1, by omega, e, he, rfl, rfl, by omega⟩
  · rintro ⟨h1, h2, e, he, rfl, rfl, h3⟩
    exact ⟨t, ⟨h1, by omega⟩, e, ⟨he, by omega⟩, ⟨rfl, by omega⟩, rfl, rfl⟩

theorem tsGraph_ok (m0 : δ) (edges : List (SEdge ι R)) {vars : List ι} (hn : vars.Nodup)
    (hv : ∀ x, Mentioned edges x → x ∈ vars) (size : ℕ) (hl : ∀ e ∈ edges, e.time = 0 → e.src ≠ e.dst) :
    ∃ g : Graph (ι × ℕ) δ, tsGraph m0 edges vars size Graph.empty = (.ok (), g) ∧ WF0 g ∧
      g.nodes = vars.flatMap (fun v => (List.range size).map (fun t => (v, t))) ∧
      ∀ a b, ((a, b) ∈ tsPairs edges size → g.edges.get2 a b = some ⟨a, b, .directed, m0, false⟩) ∧
        ((a, b) ∉ tsPairs edges size → g.edges.get2 a b = none) := by
  have : tsGraph (δ := δ) m0 edges vars size
      = (do PyM.forEach (vars.flatMap (fun v => (List.range size).map (fun t => (v, t)))) Graph.addNode
            PyM.forEach (tsPairs edges size) (addPair m0)) := by
    unfold tsGraph tsPairs
    rw [← PyM.forEach_flatMap, ← PyM.forEach_flatMap]
    simp only [← PyM.forEach_map]
    congr 1
    funext _
    congr 1
    funext t
    rw [PyM.forEach_skip]
    congr 1
    funext e g
    unfold addPair
    rw [PyM.bind_run, PyM.bind_run]
    simp only [PyM.get_run, PyM.ite_run]
  rw [this]
  refine graph_ok m0 _ ?_ _ ?_
  · rw [List.nodup_flatMap]
    refine ⟨fun v _ => List.Nodup.map (fun a b h => (Prod.mk.inj h).2) List.nodup_range, ?_⟩
    refine hn.imp (fun {a b} hab => ?_)
    intro x hx hx'
    obtain ⟨t, -, rfl⟩ := List.mem_map.1 hx
    obtain ⟨t', -, h⟩ := List.mem_map.1 hx'
    exact hab (Prod.mk.inj h).1.symm
  · rintro ⟨⟨a, s⟩, ⟨b, t⟩⟩ hp
    obtain ⟨h1, h2, e, he, h3, h4, h5⟩ := mem_tsPairs.1 hp
    simp only at h1 h2 h3 h4 h5
    simp only [List.mem_flatMap, List.mem_map, List.mem_range, Prod.mk.injEq]
    refine ⟨⟨a, hv _ ⟨e, he, Or.inl h3⟩, s, by omega, rfl, rfl⟩, ⟨b, hv _ ⟨e, he, Or.inr h4⟩, t, h2, rfl, rfl⟩, ?_⟩
    rintro h
    by_cases ht : e.time = 0
    · exact hl e he ht (by rw [h3, h4]; exact (Prod.mk.inj h).1)
    · have := (Prod.mk.inj h).2
      have : e.time.natAbs ≠ 0 := by omega
      omega

end Sample
end Verif
