import Verif.PC.StableLemmas
import Verif.PC.Props

/-!
# Properties of the algorithm `PCStable` (C86 to C88)
-/

namespace Verif
open Graph CI Orient PC
variable {ι ρ : Type} [DecidableEq ι]

/-! ## perfect oracles are steady -/

omit [DecidableEq ι] in
theorem PC.says_dsep {T : Tests ι ρ} {E : ι → ι → Prop} {N : List ι} (hO : Oracle T E N) {x y : ι} {S : List ι}
    (hnd : (x :: y :: S).Nodup) (hn : ∀ z ∈ x :: y :: S, z ∈ N) : Says T x y S ↔ Dag.DSep E x y S := by
  have hx := hn x (by simp)
  have hy := hn y (by simp)
  match S, hnd, hn with
  | [], hnd, _ =>
    simp only [List.nodup_cons, List.mem_cons, not_or] at hnd
    exact hO.marginal x y hx hy hnd.1.1
  | [z], hnd, hn =>
    simp only [List.nodup_cons, List.mem_cons, List.not_mem_nil, or_false, not_or] at hnd
    obtain ⟨b, hb, hd⟩ := hO.triple x y z hx hy (hn z (by simp)) hnd.1.1 hnd.1.2 hnd.2.1
    rw [← hd]
    simp only [Says, hb, Except.ok.injEq, Option.some.injEq]
  | s1 :: s2 :: S, hnd, hn =>
    obtain ⟨b, hb, hd⟩ := hO.matrix x y _ hnd hn
    rw [← hd]
    simp only [Says, hb, Except.ok.injEq, Option.some.injEq]

omit [DecidableEq ι] in
theorem PC.Oracle.steady {T : Tests ι ρ} {E : ι → ι → Prop} {N : List ι} (hO : Oracle T E N) : Steady T N where
  total := hO.total
  sym := hO.sym
  decides := by
    intro x y z hx hy hz h1 h2 h3 e
    obtain ⟨b, hb, _⟩ := hO.triple x y z hx hy hz h1 h2 h3
    rw [hb] at e
    cases e
  swap := by
    intro x y S hnd hn hs
    have hp : (x :: y :: S).Perm (y :: x :: S) := List.Perm.swap _ _ _
    exact (says_dsep hO (hp.nodup_iff.1 hnd) (fun z hz => hn z (hp.mem_iff.2 hz))).2 ((says_dsep hO hnd hn).1 hs).symm
  perm := by
    intro x y S S' hnd hn hp hs
    have hp' : (x :: y :: S).Perm (x :: y :: S') := .cons _ (.cons _ hp)
    exact (says_dsep hO (hp'.nodup_iff.1 hnd) (fun z hz => hn z (hp'.mem_iff.2 hz))).2
      (((says_dsep hO hnd hn).1 hs).congr (fun z => hp.mem_iff))

omit [DecidableEq ι] in
theorem PC.Oracle.separable {T : Tests ι ρ} {E : ι → ι → Prop} {N : List ι} (hO : Oracle T E N) (hN : N.Nodup) {x y : ι}
    (hx : x ∈ N) (hy : y ∈ N) (hxy : x ≠ y) : Separable T N x y ↔ ¬ Dag.Adj E x y := by
  have all : ∀ {a b : ι} {S : List ι}, a ∈ N → b ∈ N → (∀ z ∈ S, z ∈ N) → ∀ z ∈ a :: b :: S, z ∈ N := by
    intro a b S ha hb hS z hz
    rcases List.mem_cons.1 hz with rfl | hz
    · exact ha
    rcases List.mem_cons.1 hz with rfl | hz
    · exact hb
    · exact hS z hz
  constructor
  · rintro ⟨S, hnd, hS, hs⟩ ha
    exact ha.not_dsep hxy S ((says_dsep hO hnd (all hx hy hS)).1 hs)
  · intro hna
    obtain ⟨Zx, hZx, hmx⟩ := Dag.exists_parents hN hO.edges x
    obtain ⟨Zy, hZy, hmy⟩ := Dag.exists_parents hN hO.edges y
    have nd : ∀ {u v : ι} {Z : List ι}, u ≠ v → ¬ Dag.Adj E u v → Z.Nodup → (∀ z, z ∈ Z ↔ E z u) →
        (u :: v :: Z).Nodup := by
      intro u v Z huv hna hZ hm
      simp only [List.nodup_cons, List.mem_cons, not_or]
      exact ⟨⟨huv, fun hz => hO.acyclic.irrefl _ ((hm u).1 hz)⟩, fun hz => hna (Or.inr ((hm v).1 hz)), hZ⟩
    have sub : ∀ {u : ι} {Z : List ι}, (∀ z, z ∈ Z ↔ E z u) → ∀ z ∈ Z, z ∈ N :=
      fun hm z hz => (hO.edges _ _ ((hm z).1 hz)).1
    rcases Dag.dsep_of_not_adj hO.acyclic hxy hna hmx hmy with hd | hd
    · have h1 := nd hxy hna hZx hmx
      exact ⟨Zx, h1, sub hmx, (says_dsep hO h1 (all hx hy (sub hmx))).2 hd⟩
    · have h1 := nd hxy.symm (fun h => hna h.symm) hZy hmy
      have hp : (y :: x :: Zy).Perm (x :: y :: Zy) := List.Perm.swap _ _ _
      exact ⟨Zy, hp.nodup_iff.1 h1, sub hmy, (says_dsep hO (hp.nodup_iff.1 h1) (all hx hy (sub hmy))).2 hd⟩

/-! ## C86 -/

/-- **C86, the skeleton.** For any steady tests (also ones that contradict each other) and whatever the iteration orders, the
test phase of `PCStable` does not raise, and two variables end adjacent exactly if no set of other variables is reported to
separate them. -/
theorem C86_stable_skeleton (T : Tests ι ρ) (gn : CGraph ι ρ) (hgn : Reachable gn) (hT : Steady T gn.nodes)
    (ord : NbOrd ι) (ho : ord.Valid) (fuel : Nat) (h : List (HistRec ι (Info ι ρ))) :
    (runPipeline fuel (stableSkeleton T ord) ⟨startGraph gn, h⟩).1 = .ok () ∧
    (graphAfter fuel (stableSkeleton T ord) ⟨startGraph gn, h⟩).nodes = gn.nodes ∧
    ∀ x y, (graphAfter fuel (stableSkeleton T ord) ⟨startGraph gn, h⟩).edgeExists x y = true ↔
      x ∈ gn.nodes ∧ y ∈ gn.nodes ∧ x ≠ y ∧ ¬ Separable T gn.nodes x y := by
  obtain ⟨g, h', h1, h2, h3⟩ := stable_skeleton hgn hT ho fuel h
  obtain ⟨_, hn, hc⟩ := start_facts gn hgn T
  have hn' : g.nodes = gn.nodes := h2.nodes.trans hn
  unfold graphAfter
  rw [h1]
  refine ⟨rfl, hn', ?_⟩
  intro x y
  constructor
  · intro he
    obtain ⟨l1, l2⟩ := h2.live_of_exists he
    have hxy := h2.wf.live_nodes l1
    rw [hn'] at hxy
    refine ⟨hxy.1, hxy.2, h2.wf.live_ne l1, fun hs => ?_⟩
    rw [(h3 x y hxy.1 hxy.2 (h2.wf.live_ne l1)).2 hs] at l1
    cases l1
  · rintro ⟨hx, hy, hxy, hns⟩
    refine edgeExists_of_live h2.wf ?_
    cases hl : g.live x y with
    | true => rfl
    | false => exact absurd ((h3 x y hx hy hxy).1 hl) hns

/-- **C86, order independence.** The same variables in another order, with other iteration orders of the sets, give the same
adjacencies. -/
theorem C86_order_independent (T : Tests ι ρ) (gn gn' : CGraph ι ρ) (hgn : Reachable gn) (hgn' : Reachable gn')
    (hperm : gn.nodes.Perm gn'.nodes) (hT : Steady T gn.nodes) (ord ord' : NbOrd ι) (ho : ord.Valid) (ho' : ord'.Valid)
    (fuel fuel' : Nat) (h h' : List (HistRec ι (Info ι ρ))) (x y : ι) :
    (graphAfter fuel (stableSkeleton T ord) ⟨startGraph gn, h⟩).edgeExists x y =
      (graphAfter fuel' (stableSkeleton T ord') ⟨startGraph gn', h'⟩).edgeExists x y := by
  have hm : ∀ z, z ∈ gn'.nodes ↔ z ∈ gn.nodes := fun z => hperm.symm.mem_iff
  have hT' : Steady T gn'.nodes :=
    ⟨hT.total.mono (fun z hz => (hm z).1 hz), hT.sym, fun x y z hx hy hz => hT.decides x y z ((hm _).1 hx) ((hm _).1 hy) ((hm _).1 hz),
      fun x y S hnd hn => hT.swap x y S hnd (fun z hz => (hm _).1 (hn z hz)),
      fun x y S S' hnd hn => hT.perm x y S S' hnd (fun z hz => (hm _).1 (hn z hz))⟩
  rw [Bool.eq_iff_iff, (C86_stable_skeleton T gn hgn hT ord ho fuel h).2.2,
    (C86_stable_skeleton T gn' hgn' hT' ord' ho' fuel' h').2.2]
  unfold Separable
  simp only [hm]

/-- tests that contradict each other: the pairs among 0, 1, 2 are reported independent given two others, and nothing else is -/
def exClash : Tests Nat Int where
  pearson _ _ := 1
  t0 _ _ _ := .ok false
  t1 _ _ _ _ _ _ _ := .ok (some false)
  tm c := match c with
    | x :: y :: _ => .ok (some (x != 3 && y != 3))
    | _ => .ok none
  reg _ := .ok false

theorem exClash_steady (N : List Nat) : Steady exClash N where
  total := ⟨fun _ _ _ _ _ => ⟨_, rfl⟩, fun _ _ _ _ _ _ _ _ _ => ⟨_, rfl⟩, fun _ _ _ _ _ => ⟨_, rfl⟩,
    fun _ _ _ _ _ _ => ⟨_, rfl⟩⟩
  sym := fun _ _ => rfl
  decides := by intro _ _ _ _ _ _ _ _ _ e; cases e
  swap := by
    intro x y S _ _ hs
    match S, hs with
    | [], hs => exact hs
    | [_], hs => exact hs
    | _ :: _ :: _, hs =>
      simp only [Says, exClash, Except.ok.injEq, Option.some.injEq] at hs ⊢
      rw [Bool.and_comm]; exact hs
  perm := by
    intro x y S S' _ _ hp hs
    have hl := hp.length_eq
    match S, S', hs, hl with
    | [], [], hs, _ => exact hs
    | [_], [_], hs, _ => exact hs
    | _ :: _ :: _, _ :: _ :: _, hs, _ => exact hs

/-- **C86, not so for `PC`.** With the same tests `PC` keeps 1 – 2 and drops 0 – 2 if the variables are listed as 0, 1, 2, 3,
and the other way round if they are listed as 1, 2, 0, 3; `PCStable` drops both each time. -/
theorem C86_pc_depends_on_order :
    let f := fun sk N => [(0, 1), (0, 2), (1, 2), (0, 3), (1, 3), (2, 3)].filter (fun p =>
      (graphAfter 0 sk ⟨startGraph (nodesOnly (δ := Info Nat Int) N), []⟩).edgeExists p.1 p.2)
    f (pcSkeleton exClash exNbOrd) [0, 1, 2, 3] = [(1, 2), (0, 3), (1, 3), (2, 3)] ∧
    f (pcSkeleton exClash exNbOrd) [1, 2, 0, 3] = [(0, 2), (0, 3), (1, 3), (2, 3)] ∧
    f (stableSkeleton exClash exNbOrd) [0, 1, 2, 3] = [(0, 3), (1, 3), (2, 3)] ∧
    f (stableSkeleton exClash exNbOrd) [1, 2, 0, 3] = [(0, 3), (1, 3), (2, 3)] := by
  decide +kernel

/-! ## C87 -/

/-- **C87.** With a perfect oracle for any DAG over the variables, whatever the iteration orders, the test phase of `PCStable`
does not raise and ends with exactly the adjacencies of the DAG. -/
theorem C87_stable_recovers (T : Tests ι ρ) (E : ι → ι → Prop) (gn : CGraph ι ρ) (hgn : Reachable gn)
    (hO : Oracle T E gn.nodes) (ord : NbOrd ι) (ho : ord.Valid) (fuel : Nat) (h : List (HistRec ι (Info ι ρ))) :
    (runPipeline fuel (stableSkeleton T ord) ⟨startGraph gn, h⟩).1 = .ok () ∧
    ∀ x y, (graphAfter fuel (stableSkeleton T ord) ⟨startGraph gn, h⟩).edgeExists x y = true ↔ Dag.Adj E x y := by
  obtain ⟨h1, _, h3⟩ := C86_stable_skeleton T gn hgn hO.steady ord ho fuel h
  refine ⟨h1, fun x y => ?_⟩
  rw [h3]
  constructor
  · rintro ⟨hx, hy, hxy, hns⟩
    rw [hO.separable hgn.wf.nodup hx hy hxy, not_not] at hns
    exact hns
  · intro ha
    have hne : x ≠ y := by
      rintro rfl
      rcases ha with e | e <;> exact hO.acyclic.irrefl _ e
    have hn : x ∈ gn.nodes ∧ y ∈ gn.nodes := by
      rcases ha with e | e
      · exact hO.edges _ _ e
      · exact (hO.edges _ _ e).symm
    refine ⟨hn.1, hn.2, hne, ?_⟩
    rw [hO.separable hgn.wf.nodup hn.1 hn.2 hne, not_not]
    exact ha

/-- the DAG `0 → 2 ← 1`, `2 → 3 → 4` -/
example : ([0, 1, 2, 3, 4] ×ˢ [0, 1, 2, 3, 4]).filter (fun p =>
      (graphAfter 0 (stableSkeleton exOracle exNbOrd) ⟨startGraph exPcNodes, []⟩).edgeExists p.1 p.2 && decide (p.1 < p.2)) =
    [(0, 2), (1, 2), (2, 3), (3, 4)] := by
  decide +kernel

/-! ## C88 -/

/-- the DAG `2 → 1` over three variables -/
def exLone : Nat → Nat → Prop := fun a b => a = 2 ∧ b = 1

instance : DecidableRel exLone := fun a b => inferInstanceAs (Decidable (a = 2 ∧ b = 1))

theorem exLone_oracle : Oracle (exactTests exLone [0, 1, 2] : Tests Nat Int) exLone [0, 1, 2] := by
  refine exactTests_oracle exLone _ (Dag.acyclic_of_lt (fun a => 5 - a) ?_) ?_
  · rintro a b ⟨rfl, rfl⟩; decide
  · rintro a b ⟨rfl, rfl⟩; decide

/-- **C88 is false.** A perfect oracle for the DAG `2 → 1` with an isolated 0: `PCStable` reports `1 → 2`. -/
theorem C88_full_statement_fails :
    Oracle (exactTests exLone [0, 1, 2] : Tests Nat Int) exLone (nodesOnly (δ := Info Nat Int) [0, 1, 2]).nodes ∧
    (let g := graphAfter 11 (pcStable (exactTests exLone [0, 1, 2]) exNbOrd exSetOrd exSetOrds)
      ⟨startGraph (nodesOnly [0, 1, 2]), []⟩
     g.Arrow 1 2 ∧ ¬ exLone 1 2) := by
  have hn : (nodesOnly (δ := Info Nat Int) [0, 1, 2]).nodes = [0, 1, 2] := by decide +kernel
  refine ⟨by rw [hn]; exact exLone_oracle, ?_, by decide⟩
  constructor <;> decide +kernel

/-- one conditional test after the test phase of `PCStable` -/
theorem PC.stable_then {T : Tests ι ρ} {E : ι → ι → Prop} {gn : CGraph ι ρ} (hgn : Reachable gn) (hO : Oracle T E gn.nodes)
    {ord : NbOrd ι} (ho : ord.Valid) (t : CITest ι) (hv : t.Valid) (hc : t.Conditional) (hz : t.Sized) (fuel : Nat)
    (h : List (HistRec ι (Info ι ρ))) : ∃ g h', runPipeline fuel (stableSkeleton T ord ++ [.plain (t.step T)])
      ⟨startGraph gn, h⟩ = (.ok (), ⟨g, h'⟩) ∧ SkelDone T E (startGraph gn) g ∧ ∃ g1, g = purgeG g1 := by
  obtain ⟨g, h', h1, h2, h3⟩ := stable_skeleton hgn hO.steady ho fuel h
  obtain ⟨_, hn, hcomp⟩ := start_facts gn hgn T
  have hO' : Oracle T E (startGraph gn).nodes := hn ▸ hO
  obtain ⟨tp, g2, e2, i2⟩ := conditional_phase hO'.total hO.sym h2 t hv hc hz
  have i2' := inv_purgeG i2
  unfold runPipeline at h1 ⊢
  rw [PyM.forEach_append_ok h1, PyM.forEach_cons_ok (run_plain_ok fuel (s := t.step T) (m := ⟨g, h'⟩) e2 i2.wf)]
  refine ⟨_, _, rfl, ⟨i2', ?_⟩, _, rfl⟩
  intro x y hx hy hxy
  refine ⟨fun hl => ?_, fun ha => adj_live hO' hcomp i2' ha⟩
  by_contra hna
  rw [show (startGraph gn).nodes = gn.nodes from hn] at hx hy
  have hd := (h3 x y hx hy hxy).2 ((hO.separable hgn.wf.nodup hx hy hxy).2 hna)
  rw [live_purgeG] at hl
  have hs : (t.step T).Safe (Inv T (startGraph gn)) (Proposal T (startGraph gn).nodes) := by
    cases t with
    | pearson => exact hc.elim
    | correlation => exact hc.elim
    | partialCorrelation => exact partial_safe T _
    | matrix cfg => exact matrix_safe T _ cfg hv
    | regression cfg => exact regression_safe T _ cfg hv
  have := dead_execute hO.sym h2 hs hd
  rw [e2] at this
  rw [show g2.live x y = false from this] at hl
  cases hl

/-- the complete run of `PCStable` with one more conditional test -/
theorem PC.stable_then_run {T : Tests ι ρ} {E : ι → ι → Prop} {gn : CGraph ι ρ} (hgn : Reachable gn)
    (hfresh : ∀ a b, gn.retrieveEdgeHistory a b .removeEdgeUndirected = [])
    (hO : Oracle T E gn.nodes) {ord : NbOrd ι} (ho : ord.Valid) {oc : Ord ι ρ} (hoc : oc.Valid) {o : Ords ι ρ} (ho' : o.Valid)
    (t : CITest ι) (hv : t.Valid) (hc : t.Conditional) (hz : t.Sized) (fuel : Nat) (h : List (HistRec ι (Info ι ρ))) :
    Oriented E gn.nodes fuel (runPipeline fuel (stableSkeleton T ord ++ [.plain (t.step T)] ++ orientationPhase oc o)
      ⟨startGraph gn, h⟩) := by
  obtain ⟨g1, h', h1, h2, h3⟩ := stable_then hgn hO ho t hv hc hz fuel h
  have hn : g1.nodes = gn.nodes := by
    rw [h2.1.nodes]; exact (start_facts gn hgn T).2.1
  have hrows : Rows g1 := by
    have := skeleton_rows (T := T) hgn fuel (stableSkeleton T ord ++ [.plain (t.step T)]) (by
      intro p hp s hs
      simp only [stableSkeleton, stableTests, List.cons_append, List.nil_append, List.mem_cons, List.not_mem_nil,
        or_false] at hp
      rcases hp with rfl | rfl | rfl
      · simp only [PStep.steps, List.mem_singleton] at hs
        exact ⟨.pearson, hs⟩
      · simp only [PStep.steps, List.mem_cons, List.not_mem_nil, or_false] at hs
        rcases hs with rfl | rfl | rfl
        · exact ⟨.correlation, rfl⟩
        · exact ⟨.partialCorrelation, rfl⟩
        · exact ⟨.matrix _, rfl⟩
      · simp only [PStep.steps, List.mem_singleton] at hs
        exact ⟨t, hs⟩) h
    unfold graphAfter at this
    rwa [h1] at this
  unfold runPipeline at h1 ⊢
  rw [PyM.forEach_append_ok h1, ← hn]
  exact orientation_run hO.acyclic (ready hgn hfresh hO h2 h3 hrows) hoc ho' fuel h'

/-- **C88 (partial).** `PCStable` with one more conditional independence test (any, with any valid settings) between its test
phase and the orientation, which makes the framework drop the removed edges, does what C46 says of `PC`: exactly the
adjacencies of the DAG, every one-way edge points as in the DAG, every unshielded collider is oriented, the loop exits within
(number of variables)² + 2 checks, and then none of Meek's rules applies. -/
theorem C88_purged_orientation_partial (T : Tests ι ρ) (E : ι → ι → Prop) (gn : CGraph ι ρ) (hgn : Reachable gn)
    (hfresh : ∀ a b, gn.retrieveEdgeHistory a b .removeEdgeUndirected = [])
    (hO : Oracle T E gn.nodes) (ord : NbOrd ι) (ho : ord.Valid) (oc : Ord ι ρ) (hoc : oc.Valid) (o : Ords ι ρ) (ho' : o.Valid)
    (t : CITest ι) (hv : t.Valid) (hc : t.Conditional) (hz : t.Sized) (fuel : Nat) (h : List (HistRec ι (Info ι ρ))) :
    let alg := stableSkeleton T ord ++ [.plain (t.step T)] ++ orientationPhase oc o
    let g := graphAfter fuel alg ⟨startGraph gn, h⟩
    (∀ x y, g.edgeExists x y = true ↔ Dag.Adj E x y) ∧
    (∀ x y, g.Arrow x y → E x y) ∧
    (∀ x z y, Dag.VStructure E x z y → g.Arrow x z ∧ g.Arrow y z) ∧
    (gn.nodes.length * gn.nodes.length + 2 ≤ fuel → (runPipeline fuel alg ⟨startGraph gn, h⟩).1 = .ok () ∧
      ∀ a b, ¬ g.Meek1 a b ∧ ¬ g.Meek2 a b ∧ ¬ g.Meek3 a b ∧ ¬ g.Meek4 a b) := by
  intro alg g
  have hr : Oriented E gn.nodes fuel (runPipeline fuel alg ⟨startGraph gn, h⟩) :=
    stable_then_run hgn hfresh hO ho hoc ho' t hv hc hz fuel h
  have hs : Sound E g := hr.sound
  refine ⟨fun x y => by rw [edge_iff hs.wf, hs.adj], hs.arrow, ?_, fun hf => ⟨hr.ends hf, hr.closed (hr.ends hf)⟩⟩
  rintro x z y hvs
  exact ⟨hs.coll x z y hvs, hs.coll y z x ⟨⟨hvs.1.2, hvs.1.1⟩, hvs.2.1.symm, fun hh => hvs.2.2 hh.symm⟩⟩

/-- with the triple test once more, the edge of the counterexample stays undirected, and the v-structure of the other example
is found -/
example :
    (graphAfter 11 (stableSkeleton (exactTests exLone [0, 1, 2]) exNbOrd ++
      [.plain (CITest.partialCorrelation.step (exactTests exLone [0, 1, 2]))] ++ orientationPhase exSetOrd exSetOrds)
      ⟨startGraph (nodesOnly [0, 1, 2]), []⟩).undirectedEdgeExists 1 2 = true ∧
    (let g := graphAfter 27 (stableSkeleton exOracle exNbOrd ++ [.plain (CITest.partialCorrelation.step exOracle)] ++
      orientationPhase exSetOrd exSetOrds) ⟨startGraph exPcNodes, []⟩
     g.onlyDirectedEdgeExists 0 2 = true ∧ g.onlyDirectedEdgeExists 1 2 = true ∧ g.onlyDirectedEdgeExists 3 4 = true) := by
  constructor <;> decide +kernel

end Verif
