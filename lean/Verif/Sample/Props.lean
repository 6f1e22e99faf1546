import Verif.Sample.Lemmas3
import Mathlib.Algebra.BigOperators.Group.List.Basic

/-!
# C50, C51, C69: the sample generators
-/

namespace Verif
namespace Sample
variable {ι R : Type} [DecidableEq ι]

/-- **C50 (acyclic models).** For an acyclic list of edges the constructor of `IIDSampleGenerator` finishes (after as many
rounds of the loop as there are variables) with a topological order, however `sorted` arranges the variables. -/
theorem C50_topological_order (edges : List (SEdge ι R)) (hac : Dag.Acyclic (HasEdge edges)) (sorted : List ι → List ι)
    (hs : ∀ l, (sorted l).Perm l) :
    ∃ l, TopologicalOrder edges l ∧
      ∀ fuel, (variableSet edges).length ≤ fuel → iidVariables sorted fuel edges = some l := by
  have hp := hs (variableSet edges)
  obtain ⟨l, hl⟩ := topologicSort_complete hac (fuel := (variableSet edges).length) (nodes := sorted (variableSet edges))
    (sorted := []) hp.length_eq.le (fun a b hab => Or.inr (hp.mem_iff.2 (mem_variableSet.2 (mentioned_src hab))))
  obtain ⟨h1, h2⟩ := topologicSort_sound (hl 0) (fun l1 x l2 e => by simp at e)
  rw [List.nil_append] at h1
  have hperm := h1.trans hp
  have hn : l.Nodup := hperm.nodup_iff.2 (List.nodup_dedup _)
  have hm : ∀ x, x ∈ l ↔ Mentioned edges x := fun x => by rw [hperm.mem_iff, mem_variableSet]
  refine ⟨l, ⟨hn, hm, fun a b hab => prefixClosed_idx hn h2 ((hm b).2 (mentioned_dst hab)) hab⟩, fun fuel hf => ?_⟩
  have := hl (fuel - (variableSet edges).length)
  rwa [show (variableSet edges).length + (fuel - (variableSet edges).length) = fuel by omega] at this

/-- **C50 (cyclic models).** For a list of edges with a cycle (for example an edge from a variable to itself) the constructor
never finishes. -/
theorem C50_cycle_never_returns (edges : List (SEdge ι R)) (hc : ¬ Dag.Acyclic (HasEdge edges)) (sorted : List ι → List ι)
    (hs : ∀ l, (sorted l).Perm l) (fuel : ℕ) : iidVariables sorted fuel edges = none := by
  by_contra h
  obtain ⟨l, hl⟩ := Option.ne_none_iff_exists'.1 h
  have hp := hs (variableSet edges)
  obtain ⟨h1, h2⟩ := topologicSort_sound hl (fun l1 x l2 e => by simp at e)
  rw [List.nil_append] at h1
  have hperm := h1.trans hp
  have hn : l.Nodup := hperm.nodup_iff.2 (List.nodup_dedup _)
  have hm : ∀ x, x ∈ l ↔ Mentioned edges x := fun x => by rw [hperm.mem_iff, mem_variableSet]
  exact hc (TopologicalOrder.acyclic
    ⟨hn, hm, fun a b hab => prefixClosed_idx hn h2 ((hm b).2 (mentioned_dst hab)) hab⟩)

/-- **C50 (order of the edges).** Listing the same edges in another order, repeating them or changing the coefficients does not
change the order of the variables, if `sorted` returns the same list for lists with the same members. -/
theorem C50_edge_order_irrelevant (edges edges' : List (SEdge ι R)) (h : ∀ a b, HasEdge edges a b ↔ HasEdge edges' a b)
    (sorted : List ι → List ι) (hs : ∀ l l', l.Perm l' → sorted l = sorted l') (fuel : ℕ) :
    iidVariables sorted fuel edges = iidVariables sorted fuel edges' := by
  have hset : (variableSet edges).Perm (variableSet edges') := by
    refine (List.perm_ext_iff_of_nodup (List.nodup_dedup _) (List.nodup_dedup _)).2 (fun x => ?_)
    change x ∈ variableSet edges ↔ x ∈ variableSet edges'
    rw [mem_variableSet, mem_variableSet]
    have key : ∀ es : List (SEdge ι R), Mentioned es x ↔ (∃ b, HasEdge es x b) ∨ ∃ a, HasEdge es a x := by
      intro es
      constructor
      · rintro ⟨e, he, h | h⟩
        · exact Or.inl ⟨e.dst, e, he, h, rfl⟩
        · exact Or.inr ⟨e.src, e, he, rfl, h⟩
      · rintro (⟨b, h⟩ | ⟨a, h⟩)
        · exact mentioned_src h
        · exact mentioned_dst h
    simp only [key, h]
  have hr : ∀ srt v, ready edges srt v = ready edges' srt v := fun srt v => by
    rw [Bool.eq_iff_iff, ready_iff, ready_iff]
    simp only [h]
  unfold iidVariables
  rw [hs _ _ hset]
  generalize sorted (variableSet edges') = nodes
  generalize ([] : List ι) = srt
  induction fuel generalizing nodes srt with
  | zero => cases nodes <;> rfl
  | succ fuel ih =>
    cases nodes with
    | nil => rfl
    | cons n ns =>
      unfold topologicSort
      rw [show ready edges srt = ready edges' srt from funext (hr srt)]
      split
      · exact ih _ _
      · exact ih _ _

/-- **C51 (data).** In the order the constructor computes, `_generate_data` succeeds; its columns, one per variable, satisfy the
structural equations, where the noise of the `k`-th variable is the `k`-th block of `size` random numbers; and no other
columns satisfy them.  No law of arithmetic is assumed, so this includes rounding. -/
theorem C51_structural_equations [Add R] [Mul R] (edges : List (SEdge ι R)) {vars : List ι} (hv : TopologicalOrder edges vars)
    (size : ℕ) (rand : ℕ → R) :
    ∃ (out : Dict ι (Fin size → R)) (col : ι → Fin size → R), iidData size rand edges vars = .ok out ∧
      out.keys = vars ∧ (∀ v ∈ vars, out.get? v = some (col v)) ∧
      Structural edges (fun v i => rand (vars.idxOf v * size + i)) col ∧
      ∀ col', Structural edges (fun v i => rand (vars.idxOf v * size + i)) col' → ∀ v ∈ vars, col' v = col v := by
  have hpc := idx_prefixClosed hv
  obtain ⟨d', col, h1, h2, h3, h4⟩ := addAllIncoming_ok edges (fun v (i : Fin size) => rand (vars.idxOf v * size + i)) [] vars
    hv.1 hpc (initNoise size rand vars 0 Dict.empty) (fun _ _ => rand 0) (by simp)
    (fun v hm => by rw [initNoise_get _ _ _ hv.1, if_pos hm]; simp) (by simp)
  have hst : Structural edges (fun v i => rand (vars.idxOf v * size + i)) col :=
    fun v hm => h4 v (by simpa using (hv.2.1 v).2 hm)
  refine ⟨d', col, h1, ?_, by simpa using h3, hst, fun col' h v hm => structural_unique hv h hst v ((hv.2.1 v).1 hm)⟩
  rw [h2, initNoise_keys _ _ _ hv.1 _ _ (by simp [Dict.empty, Dict.keys])]
  simp [Dict.empty, Dict.keys]

/-- **C51 (linear form).** With commutative addition the equation reads: noise plus the sum, over the incoming edges, of
coefficient times source. -/
theorem C51_linear_form [AddCommMonoid R] [Mul R] {size : ℕ} (edges : List (SEdge ι R)) (noise col : ι → Fin size → R)
    (h : Structural edges noise col) (v : ι) (hv : Mentioned edges v) (i : Fin size) :
    col v i = noise v i + ((edges.filter (fun e => e.dst = v)).map (fun e => e.value * col e.src i)).sum := by
  rw [h v hv i]
  generalize edges.filter (fun e => e.dst = v) = es
  generalize noise v i = a
  induction es generalizing a with
  | nil => simp
  | cons e es ih => rw [List.foldl_cons, ih, List.map_cons, List.sum_cons, add_assoc]

/-- **C51 (graph).** `generate` succeeds and the returned graph has the variables as nodes and exactly the given edges, all of
them one-way and of type `DIRECTED`. -/
theorem C51_graph [Add R] [Mul R] {δ : Type} (m0 : δ) (edges : List (SEdge ι R)) {vars : List ι}
    (hv : TopologicalOrder edges vars) (size : ℕ) (rand : ℕ → R) :
    ∃ out g, iidGenerate m0 size rand edges vars = .ok (out, g) ∧ iidData size rand edges vars = .ok out ∧ g.nodes = vars ∧
      (∀ a b, g.directedEdgeExists a b = true ↔ HasEdge edges a b) ∧
      (∀ a b, HasEdge edges a b → g.onlyDirectedEdgeExists a b = true ∧ g.edgeType a b = .ok (some .directed)) := by
  obtain ⟨out, col, h1, -⟩ := C51_structural_equations edges hv size rand
  have hac := hv.acyclic
  obtain ⟨g, e1, e2, e3, e4⟩ := iidGraph_ok m0 edges hv.1 (fun x hx => (hv.2.1 x).2 hx)
    (fun e he h => hac e.src (.single ⟨e, he, rfl, h.symm⟩))
  have hmem : ∀ a b, (a, b) ∈ edges.map (fun e => (e.src, e.dst)) ↔ HasEdge edges a b := by
    intro a b
    simp [HasEdge]
  have hlive : ∀ a b, g.live a b = true ↔ HasEdge edges a b := by
    intro a b
    rw [← hmem]
    by_cases h : (a, b) ∈ edges.map (fun e => (e.src, e.dst))
    · simp [Graph.live, (e4 a b).1 h, h]
    · simp [Graph.live, (e4 a b).2 h, h]
  refine ⟨out, g, ?_, h1, e3, fun a b => by rw [Graph.directedEdgeExists_eq e2, hlive], fun a b hab => ⟨?_, ?_⟩⟩
  · unfold iidGenerate
    rw [h1, e1]
  · unfold Graph.onlyDirectedEdgeExists
    rw [Graph.directedEdgeExists_eq e2, Graph.directedEdgeExists_eq e2]
    have hba : g.live b a = false := by
      rw [← Bool.not_eq_true, hlive]
      exact fun h => hac a (.tail (.single hab) h)
    simp [(hlive a b).2 hab, hba]
  · unfold Graph.edgeType
    have hed := (e4 a b).1 ((hmem a b).2 hab)
    have hex : g.edgeExists a b = true := by rw [Graph.edgeExists_eq e2, (hlive a b).2 hab, Bool.true_or]
    simp [hex, hed]

/-- `X → Y` (5), `X → Z` (2), `Y → Z` (7), listed against the direction of the arrows -/
def exEdges : List (SEdge ℕ Int) := [⟨1, 2, 7, 0⟩, ⟨0, 2, 2, 0⟩, ⟨0, 1, 5, 0⟩]

example : iidVariables (fun l => l.insertionSort (· ≤ ·)) 3 exEdges = some [0, 1, 2] := by decide +kernel

example : TopologicalOrder exEdges [0, 1, 2] := by
  have hac : Dag.Acyclic (HasEdge exEdges) := by
    have key : ∀ a b, Relation.TransGen (HasEdge exEdges) a b → a < b := by
      intro a b h
      have base : ∀ a b, HasEdge exEdges a b → a < b := by
        rintro a b ⟨e, he, rfl, rfl⟩
        revert e
        decide
      induction h with
      | single e => exact base _ _ e
      | tail _ e ih => exact ih.trans (base _ _ e)
    exact fun a h => lt_irrefl _ (key a a h)
  obtain ⟨l, h1, h2⟩ := C50_topological_order exEdges hac (fun l => l.insertionSort (· ≤ ·)) (fun l => List.perm_insertionSort _ l)
  have := h2 3 (by decide)
  rw [show iidVariables (fun l => l.insertionSort (· ≤ ·)) 3 exEdges = some [0, 1, 2] from by decide +kernel] at this
  cases this
  exact h1

example : (iidData 2 (fun k => (k : Int)) exEdges [0, 1, 2]).toOption.map (fun d => d.items.map (fun p => (p.1, p.2 0, p.2 1)))
    = some [(0, 0, 1), (1, 2, 8), (2, 18, 63)] := by decide +kernel

example : ¬ Dag.Acyclic (HasEdge ([⟨0, 1, 1, 0⟩, ⟨1, 0, 1, 0⟩] : List (SEdge ℕ Int))) := fun h =>
  h 0 (.tail (.single ⟨_, List.mem_cons_self, rfl, rfl⟩) ⟨⟨1, 0, 1, 0⟩, by simp, rfl, rfl⟩)

/-! ### time series -/

/-- **C69 (data).** If every edge of a time series points to the past and there is at least one time step, `_generate_data`
succeeds for every order in which python iterates over the set of variables; every column has `size` entries, starts with the
initial value and satisfies the equations of the series. -/
theorem C69_time_series [Add R] [Mul R] [Zero R] (edges : List (SEdge ι R)) (hl : ∀ e ∈ edges, e.time < 0) (init : ι → R)
    (rand : ℕ → R) {vars : List ι} (hn : vars.Nodup) (hv : ∀ x, x ∈ vars ↔ Mentioned edges x) {size : ℕ} (hs : 1 ≤ size) :
    ∃ (out : Dict ι (List R)) (col : ι → ℕ → R), tsData init rand edges vars size = .ok out ∧ out.keys = vars ∧
      (∀ v ∈ vars, out.get? v = some ((List.range size).map (col v))) ∧
      TimeSeries edges size init (fun v t => rand ((t - 1) * vars.length + vars.idxOf v)) col := by
  obtain ⟨d, col, h1, h2, h3, h4, h5⟩ := tsData_ok edges hl init rand vars
    (fun e he => (hv _).2 ⟨e, he, Or.inl rfl⟩) hn hs
  exact ⟨d, col, h1, h2, h3, fun v hm => ⟨h4 v ((hv v).2 hm), fun t ht1 ht2 => h5 v ((hv v).2 hm) t ht1 ht2⟩⟩

/-- **C69 (graph).** The returned graph has one node per variable and time; its edges are exactly the given edges shifted to
every time at which source and target exist (and the target is not at time 0), all one-way, and lead forward in time. -/
theorem C69_graph [Add R] [Mul R] [Zero R] {δ : Type} (m0 : δ) (edges : List (SEdge ι R)) (he : edges ≠ [])
    (hl : ∀ e ∈ edges, e.time < 0) (init : ι → R) (rand : ℕ → R) {vars : List ι} (hn : vars.Nodup)
    (hv : ∀ x, x ∈ vars ↔ Mentioned edges x) {size : ℕ} (hs : 1 ≤ size) :
    ∃ out g, tsGenerate m0 init rand edges vars size = .ok (out, g) ∧ tsData init rand edges vars size = .ok out ∧
      (∀ v t, (v, t) ∈ g.nodes ↔ Mentioned edges v ∧ t < size) ∧ g.nodes.Nodup ∧
      (∀ a s b t, g.directedEdgeExists (a, s) (b, t) = true ↔
        t < size ∧ ∃ e ∈ edges, e.src = a ∧ e.dst = b ∧ (s : Int) = t + e.time) ∧
      (∀ a s b t, g.directedEdgeExists (a, s) (b, t) = true → s < t) := by
  obtain ⟨out, col, h1, -⟩ := C69_time_series edges hl init rand hn hv hs
  obtain ⟨g, e1, e2, e3, e4⟩ := tsGraph_ok m0 edges hn (fun x hx => (hv x).2 hx) size
    (fun e h h0 => by have := hl e h; omega)
  have hlive : ∀ p q, g.live p q = true ↔ (p, q) ∈ tsPairs edges size := by
    intro p q
    by_cases h : (p, q) ∈ tsPairs edges size
    · simp [Graph.live, (e4 p q).1 h, h]
    · simp [Graph.live, (e4 p q).2 h, h]
  have hedge : ∀ a s b t, g.directedEdgeExists (a, s) (b, t) = true ↔
      t < size ∧ ∃ e ∈ edges, e.src = a ∧ e.dst = b ∧ (s : Int) = t + e.time := by
    intro a s b t
    rw [Graph.directedEdgeExists_eq e2, hlive, mem_tsPairs]
    constructor
    · rintro ⟨h1, h2, e, h3, h4, h5, h6⟩
      have := hl e h3
      simp only at h6
      exact ⟨h2, e, h3, h4, h5, by omega⟩
    · rintro ⟨h2, e, h3, h4, h5, h6⟩
      have := hl e h3
      exact ⟨by simp only; omega, h2, e, h3, h4, h5, by simp only; omega⟩
  refine ⟨out, g, ?_, h1, fun v t => ?_, e2.nodup, hedge, fun a s b t h => ?_⟩
  · unfold tsGenerate
    rw [if_neg he, h1, e1]
  · rw [e3]
    simp only [List.mem_flatMap, List.mem_map, List.mem_range, Prod.mk.injEq, ← hv]
    constructor
    · rintro ⟨w, hw, t', ht', rfl, rfl⟩
      exact ⟨hw, ht'⟩
    · rintro ⟨hw, ht⟩
      exact ⟨v, hw, t, ht, rfl, rfl⟩
  · obtain ⟨-, e, h3, -, -, h6⟩ := (hedge a s b t).1 h
    have := hl e h3
    omega

/-- **C69 (contemporaneous edges).** The restriction to edges from the past is needed: with an edge at the same time the
outcome depends on the order in which python iterates over the set of variables. -/
theorem C69_contemporaneous_edge_depends_on_set_order :
    let edges : List (SEdge ℕ Int) := [⟨0, 1, 2, 0⟩]
    (tsData (fun _ => 1) (fun k => (k : Int)) edges [0, 1] 2).toOption.isSome = true ∧
    tsData (fun _ => 1) (fun k => (k : Int)) edges [1, 0] 2 = .error .indexError := by
  refine ⟨by decide +kernel, ?_⟩
  rfl

/-- an autoregressive model with lags 1 and 2, and its first four values -/
example : (tsData (fun v => (v + 1 : Int)) (fun k => (k : Int)) [⟨0, 0, 2, -1⟩, ⟨0, 1, 3, -2⟩] [1, 0] 4).toOption.map
    (fun d => d.items) = some [(1, [2, 3, 5, 13]), (0, [1, 3, 9, 23])] := by decide +kernel

end Sample
end Verif
