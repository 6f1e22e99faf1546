import Verif.Effects.Lemmas
import Verif.CI.Lemmas4
import Verif.Orient.Lemmas

/-!
# Helper lemmas: the step
-/

namespace Verif
namespace Effects
open Graph CI
variable {ι ρ : Type} [DecidableEq ι] {n : ℕ}

/-! ## from columns in a list to columns in a set -/

omit [DecidableEq ι] in
theorem stack_columns (v : ι → Option (List ρ)) (X : ι → Fin n → ρ) (x : ι) (L : List ι)
    (h : ∀ p ∈ x :: L, v p = some (List.ofFn (X p))) :
    stack ((x :: L).map v) = .ok ((x :: L).map (fun p => List.ofFn (X p))) := by
  have hm : (x :: L).map v = ((x :: L).map (fun p => List.ofFn (X p))).map some := by
    rw [List.map_map]
    exact List.map_congr_left h
  unfold stack
  rw [hm, if_neg (by simp)]
  have : (((x :: L).map (fun p => List.ofFn (X p))).map some).filterMap id = (x :: L).map (fun p => List.ofFn (X p)) := by
    rw [List.filterMap_map]; simp
  rw [this]
  simp

theorem list_sum (L : List ι) (hL : L.Nodup) (f : ι → ℝ) : ∑ p ∈ L.toFinset, f p = ∑ j : Fin L.length, f L[j] := by
  rw [List.sum_toFinset f hL, ← Fin.sum_univ_fun_getElem]
  rfl

/-- weights by position as weights by name -/
def named (L : List ι) (b : Fin L.length → ℝ) (p : ι) : ℝ := if h : p ∈ L then b ⟨L.idxOf p, List.idxOf_lt_length_of_mem h⟩ else 0

theorem named_get (L : List ι) (hL : L.Nodup) (b : Fin L.length → ℝ) (j : Fin L.length) : named L b L[j] = b j := by
  unfold named
  have hj : L[j] ∈ L := List.getElem_mem _
  rw [dif_pos hj]
  congr 1
  apply Fin.ext
  exact hL.idxOf_getElem j.1 j.2

theorem residual_list (L : List ι) (hL : L.Nodup) (X : ι → Fin n → ℝ) (y : Fin n → ℝ) (γ : ι → ℝ) :
    residual L.toFinset X y γ = residual Finset.univ (fun j : Fin L.length => X L[j]) y (fun j => γ L[j]) := by
  unfold residual
  refine Finset.sum_congr rfl (fun i _ => ?_)
  rw [list_sum L hL (fun p => γ p * X p i)]

theorem bestFit_list (L : List ι) (hL : L.Nodup) (X : ι → Fin n → ℝ) (y : Fin n → ℝ) (γ : ι → ℝ) :
    BestFit L.toFinset X y γ ↔ BestFit Finset.univ (fun j : Fin L.length => X L[j]) y (fun j => γ L[j]) := by
  constructor
  · intro h c
    have := h (named L c)
    rw [residual_list L hL, residual_list L hL] at this
    simpa only [named_get L hL] using this
  · intro h γ'
    rw [residual_list L hL, residual_list L hL]
    exact h _

theorem shortestFit_list (L : List ι) (hL : L.Nodup) (X : ι → Fin n → ℝ) (y : Fin n → ℝ) (b : Fin L.length → ℝ)
    (h : ShortestFit Finset.univ (fun j : Fin L.length => X L[j]) y b) : ShortestFit L.toFinset X y (named L b) := by
  refine ⟨(bestFit_list L hL X y _).2 (by simpa only [named_get L hL] using h.1), ?_⟩
  intro γ hγ
  rw [list_sum L hL, list_sum L hL]
  simp only [named_get L hL]
  exact h.2 _ ((bestFit_list L hL X y γ).1 hγ)

omit [DecidableEq ι] in
theorem columns_list (X : ι → Fin n → ρ) (l : List ι) :
    List.ofFn (fun j : Fin l.length => List.ofFn (X l[j])) = l.map (fun p => List.ofFn (X p)) := by
  apply List.ext_getElem
  · simp
  · intro i h1 h2; simp

/-- the coefficient is the weight of `x` in the shortest best fit -/
theorem coefficient_spec {num : ℝ → ρ} {D : Source ι ρ} (hls : LeastSquaresIn num D.lstsq) (X : ι → Fin n → ℝ) (x y : ι) (L : List ι)
    (hL : (x :: L).Nodup) (h : ∀ p ∈ x :: L, D.values p = some (List.ofFn fun i => num (X p i))) (hy : D.values y = some (List.ofFn fun i => num (X y i))) :
    ∃ β, ShortestFit (x :: L).toFinset X (X y) β ∧ coefficient D L x y = .ok (num (β x)) := by
  obtain ⟨b, hb, hs⟩ := hls (x :: L).length n (fun j => X (x :: L)[j]) (X y)
  refine ⟨named (x :: L) b, shortestFit_list _ hL X _ b hs, ?_⟩
  have hl := columns_list (fun p i => num (X p i)) (x :: L)
  unfold coefficient
  rw [stack_columns D.values (fun p i => num (X p i)) x L h]
  simp only
  rw [hy]
  simp only
  rw [if_pos (by simp), ← hl, hb]
  have h0 : List.ofFn (fun j => num (b j)) = num (b ⟨0, by simp⟩) :: List.ofFn (fun i : Fin L.length => num (b i.succ)) :=
    List.ofFn_succ (f := fun j => num (b j))
  rw [h0]
  simp only
  have := named_get (x :: L) hL b ⟨0, by simp⟩
  rw [← this]
  rfl

/-! ## the proposals -/

theorem mem_into {δ : Type} {g : Graph ι δ} (h : WF0 g) {u v : ι} : u ∈ into g v ↔ g.live u v = true := by
  unfold into
  rw [Finset.mem_filter, directedEdgeExists_eq h, List.mem_toFinset]
  exact ⟨fun hh => hh.2, fun hh => ⟨(h.live_nodes hh).1, hh⟩⟩

theorem parents_list {δ : Type} {g : Graph ι δ} (h : WF0 g) (hr : RevExact g) {a b : ι} (hl : g.live a b = true) :
    ∃ ps, g.parentsOfNode b = .ok ps ∧ ps.Nodup ∧ ∀ u, u ∈ ps ↔ g.live u b = true := by
  have hb : g.edges.has b = true := by
    obtain ⟨e, he, _⟩ := live_iff.1 hl
    exact (h.edge a b e he).2.2.2.1
  rw [parentsOfNode_eq h, if_pos hb]
  refine ⟨_, rfl, (Dict.nodup_keys2 _ _).filter _, ?_⟩
  intro u
  rw [List.mem_filter, ← Dict.has2_iff_mem_keys2]
  have h2 : g.rev.get2 b u = g.edges.get2 u b := hr u b
  rw [Dict.has2, h2, softDeleted_eq]
  unfold live
  cases g.edges.get2 u b with
  | none => simp
  | some e => simp

theorem edgeValue_live {δ : Type} {g : Graph ι δ} (h : WF0 g) {a b : ι} {e : Edge ι δ} (he : g.edges.get2 a b = some e)
    (hl : g.live a b = true) : g.edgeValue a b = .ok (some e.metadata) := by
  unfold edgeValue
  rw [edgeExists_eq h, hl, he]
  rfl

/-- what is known of the regressions on a graph: the first weight is that of `x` in weights with the property `Fit` -/
def Regressions (num : ℝ → ρ) (D : Source ι ρ) (g : CGraph ι ρ) (Fit : Finset ι → ι → (ι → ℝ) → Prop) : Prop :=
  ∀ x y L, (x :: L).Nodup → (∀ p ∈ x :: L, p ∈ g.nodes) → y ∈ g.nodes →
    ∃ β, Fit (x :: L).toFinset y β ∧ coefficient D L x y = .ok (num (β x))

theorem regressions {num : ℝ → ρ} {D : Source ι ρ} (hls : LeastSquaresIn num D.lstsq) {g : CGraph ι ρ}
    {X : ι → Fin n → ℝ} (hX : Columns D g (fun p i => num (X p i))) :
    Regressions num D g (fun P y β => ShortestFit P X (X y) β) :=
  fun x y L hL hp hy => coefficient_spec hls X x y L hL (fun p h => hX p (hp p h)) (hX y hy)

/-- what the step proposes for a one-way edge -/
theorem process_arrow {num : ℝ → ρ} {D : Source ι ρ} {g : CGraph ι ρ} (h : WF0 g) (hr : RevExact g)
    {Fit : Finset ι → ι → (ι → ℝ) → Prop} (hF : Regressions num D g Fit) {a b : ι} {e : Edge ι (Info ι ρ)} (he : g.edges.get2 a b = some e)
    (hab : g.live a b = true) (hba : g.live b a = false) :
    ∃ β, Fit (into g b) b β ∧ effectProcess D [a, b] g =
      .ok (some [⟨a, b, .updateEdgeDirected, some { e.metadata with effect := some (num (β a)) }⟩]) := by
  obtain ⟨ps, hps, hnd, hmem⟩ := parents_list h hr hab
  obtain ⟨ha, hb⟩ := h.live_nodes hab
  have hL : (a :: ps.filter (fun p => decide (p ≠ a))).Nodup := by
    rw [List.nodup_cons]
    exact ⟨by simp, hnd.filter _⟩
  have hset : (a :: ps.filter (fun p => decide (p ≠ a))).toFinset = into g b := by
    ext u
    rw [mem_into h, List.mem_toFinset, List.mem_cons, List.mem_filter, hmem, decide_eq_true_iff]
    constructor
    · rintro (rfl | hh)
      · exact hab
      · exact hh.1
    · intro hu
      by_cases hua : u = a
      · exact Or.inl hua
      · exact Or.inr ⟨hu, hua⟩
  have hv : ∀ p ∈ a :: ps.filter (fun p => decide (p ≠ a)), p ∈ g.nodes := by
    intro p hp
    have : p ∈ into g b := by rw [← hset]; exact List.mem_toFinset.2 hp
    exact (h.live_nodes ((mem_into h).1 this)).1
  obtain ⟨β, hβ, hc⟩ := hF a b _ hL hv hb
  rw [hset] at hβ
  refine ⟨β, hβ, ?_⟩
  unfold effectProcess
  simp only [hb, ha, not_true, if_false]
  rw [if_neg (by unfold undirectedEdgeExists; rw [directedEdgeExists_eq h, directedEdgeExists_eq h, hba]; simp),
    edgeValue_live h he hab, hps]
  simp only
  rw [hc]

theorem process_line {D : Source ι ρ} {g : CGraph ι ρ} (h : WF0 g) {a b : ι} (hab : g.live a b = true)
    (hba : g.live b a = true) : effectProcess D [a, b] g = .ok none := by
  obtain ⟨ha, hb⟩ := h.live_nodes hab
  obtain ⟨e, he, _⟩ := live_iff.1 hab
  unfold effectProcess
  simp only [hb, ha, not_true, if_false]
  rw [if_pos (by unfold undirectedEdgeExists; rw [directedEdgeExists_eq h, directedEdgeExists_eq h, hba, hab]; rfl),
    edgeValue_live h he hab]

/-! ## applying them -/

/-- `g'` is `g` with the effects `F` written on the pairs in `l` -/
structure Written (g : CGraph ι ρ) (F : ι → ι → ρ) (l : List (ι × ι)) (g' : CGraph ι ρ) : Prop where
  wf : WF0 g'
  rev : RevExact g'
  nodes : g'.nodes = g.nodes
  hist : HistExtends g g'
  removed : ∀ a b act, act ≠ .updateEdgeDirected → g'.retrieveEdgeHistory a b act = g.retrieveEdgeHistory a b act
  get : ∀ a b, ((a, b) ∈ l → g'.edges.get2 a b =
      (g.edges.get2 a b).map (fun e => { e with metadata := { e.metadata with effect := some (F a b) } })) ∧
    ((a, b) ∉ l → g'.edges.get2 a b = g.edges.get2 a b)

theorem Written.live {g g' : CGraph ι ρ} {F : ι → ι → ρ} {l : List (ι × ι)} (h : Written g F l g') (a b : ι) :
    g'.live a b = g.live a b := by
  unfold Graph.live
  by_cases hl : (a, b) ∈ l
  · rw [(h.get a b).1 hl]
    cases g.edges.get2 a b <;> rfl
  · rw [(h.get a b).2 hl]

theorem written_all {g : CGraph ι ρ} (F : ι → ι → ρ) (rs : List (CResult ι ρ))
    (hrs : ∀ r ∈ rs, r.action = .updateEdgeDirected ∧ g.live r.u r.v = true ∧ ∃ e, g.edges.get2 r.u r.v = some e ∧
      r.data = some { e.metadata with effect := some (F r.u r.v) })
    (l : List (ι × ι)) (g1 : CGraph ι ρ) (h1 : Written g F l g1) :
    ∃ g', takeItems false rs g1 = (.ok rs, g') ∧ Written g F (l ++ rs.map (fun r => (r.u, r.v))) g' := by
  induction rs generalizing l g1 with
  | nil => exact ⟨g1, rfl, by simpa using h1⟩
  | cons r rs ih =>
    obtain ⟨ha, hlive, e, he, hd⟩ := hrs r List.mem_cons_self
    have hap := applyOne_updateDirected h1.wf ha
    rw [h1.live, if_pos hlive] at hap
    have h2 : Written g F (l ++ [(r.u, r.v)]) (addH r.u r.v r (modBoth g1 r.u r.v (setMeta r.data))) := by
      refine ⟨?_, ?_, ?_, ?_, ?_, ?_⟩
      · have := applyOne_wf (r := r) h1.wf; rwa [hap] at this
      · have := applyOne_revExact (r := r) h1.wf h1.rev; rwa [hap] at this
      · rw [nodes_addH, nodes_modBoth]; exact h1.nodes
      · refine h1.hist.trans ?_
        have := applyOne_hist (r := r) h1.wf; rwa [hap] at this
      · intro a b act hact
        rw [retrieve_addH, retrieve_modBoth, if_neg (by rintro ⟨_, hh⟩; exact hact (by rw [← hh, ha]))]
        exact h1.removed a b act hact
      · intro a b
        simp only [edges_addH]
        rw [get2_modBoth]
        have hdata : ∀ e' : Edge ι (Info ι ρ), setMeta r.data e' =
            { e' with metadata := { e.metadata with effect := some (F r.u r.v) } } := by
          intro e'; rw [hd]; rfl
        by_cases hab : r.u = a ∧ r.v = b
        · rw [if_pos hab]
          obtain ⟨rfl, rfl⟩ := hab
          refine ⟨fun _ => ?_, fun hn => absurd (by simp) hn⟩
          by_cases hin : (r.u, r.v) ∈ l
          · rw [(h1.get _ _).1 hin, he]
            simp only [Option.map_some, hdata]
          · rw [(h1.get _ _).2 hin, he]
            simp only [Option.map_some, hdata]
        · rw [if_neg hab]
          have hm : (a, b) ∈ l ++ [(r.u, r.v)] ↔ (a, b) ∈ l := by
            simp only [List.mem_append, List.mem_singleton, Prod.mk.injEq, or_iff_left_iff_imp]
            rintro ⟨rfl, rfl⟩; exact absurd ⟨rfl, rfl⟩ hab
          rw [hm]
          exact h1.get a b
    obtain ⟨g', hg', hw⟩ := ih (fun r hr => hrs r (List.mem_cons_of_mem _ hr)) _ _ h2
    refine ⟨g', ?_, ?_⟩
    · rw [takeItems_cons, hap]
      simp only
      rw [hg']
      rfl
    · simpa using hw

/-- the step writes the effects on the one-way edges -/
theorem effect_execute {num : ℝ → ρ} {D : Source ι ρ} {g : CGraph ι ρ} (h : WF0 g) (hr : RevExact g)
    {Fit : Finset ι → ι → (ι → ℝ) → Prop} (hF : Regressions num D g Fit) :
    ∃ (F : ι → ι → ρ) (l : List (ι × ι)) (ps : List (CResult ι ρ)) (g' : CGraph ι ρ),
      (effectStep D).execute false g = (.ok (ps, ps), g') ∧ Written g F l g' ∧
      (∀ a b, (a, b) ∈ l ↔ g.live a b = true ∧ g.live b a = false) ∧
      (∀ a b, (a, b) ∈ l → ∃ β, Fit (into g b) b β ∧ F a b = num (β a)) := by
  have hch : ∀ a b, ∃ β : ι → ℝ, g.live a b = true ∧ g.live b a = false →
      Fit (into g b) b β ∧ ∀ e, g.edges.get2 a b = some e → effectProcess D [a, b] g =
        .ok (some [⟨a, b, .updateEdgeDirected, some { e.metadata with effect := some (num (β a)) }⟩]) := by
    intro a b
    by_cases hab : g.live a b = true ∧ g.live b a = false
    · obtain ⟨e, he, _⟩ := live_iff.1 hab.1
      obtain ⟨β, h1, h2⟩ := process_arrow h hr hF he hab.1 hab.2
      refine ⟨β, fun _ => ⟨h1, fun e' he' => ?_⟩⟩
      rw [he] at he'; cases he'; exact h2
    · exact ⟨fun _ => 0, fun hh => absurd hh hab⟩
  choose B hB using hch
  let f : List ι → Option (List (CResult ι ρ)) := fun c => ((effectProcess D c g).toOption).join
  let cs := g.liveEdgeList.map (fun e => [e.1, e.2])
  have hf : ∀ c ∈ cs, ∀ u, (effectStep D).process c g u = .ok (f c) := by
    intro c hc u
    obtain ⟨⟨a, b⟩, hab, rfl⟩ := List.mem_map.1 hc
    have hab' := (mem_liveEdgeList h a b).1 hab
    show effectProcess D [a, b] g = .ok (((effectProcess D [a, b] g).toOption).join)
    cases hba : g.live b a with
    | true => rw [process_line h hab' hba]; rfl
    | false =>
      obtain ⟨e, he, _⟩ := live_iff.1 hab'
      rw [(hB a b ⟨hab', hba⟩).2 e he]; rfl
  have hmem : ∀ r, r ∈ flatten (cs.map f) ↔ ∃ a b e, g.live a b = true ∧ g.live b a = false ∧
      g.edges.get2 a b = some e ∧ r = ⟨a, b, .updateEdgeDirected, some { e.metadata with effect := some (num (B a b a)) }⟩ := by
    intro r
    constructor
    · intro hr
      obtain ⟨o, ho, hr⟩ := List.mem_flatMap.1 hr
      obtain ⟨c, hc, rfl⟩ := List.mem_map.1 ho
      obtain ⟨⟨a, b⟩, hab, rfl⟩ := List.mem_map.1 hc
      have hab' := (mem_liveEdgeList h a b).1 hab
      obtain ⟨e, he, _⟩ := live_iff.1 hab'
      cases hba : g.live b a with
      | true =>
        have : f [a, b] = none := by show ((effectProcess D [a, b] g).toOption).join = _; rw [process_line h hab' hba]; rfl
        simp only [this] at hr
        cases hr
      | false =>
        have : f [a, b] = some [⟨a, b, .updateEdgeDirected, some { e.metadata with effect := some (num (B a b a)) }⟩] := by
          show ((effectProcess D [a, b] g).toOption).join = _
          rw [(hB a b ⟨hab', hba⟩).2 e he]; rfl
        simp only [this] at hr
        exact ⟨a, b, e, hab', hba, he, List.mem_singleton.1 hr⟩
    · rintro ⟨a, b, e, hab, hba, he, rfl⟩
      refine List.mem_flatMap.2 ⟨f [a, b], List.mem_map.2 ⟨[a, b], List.mem_map.2 ⟨(a, b), (mem_liveEdgeList h a b).2 hab, rfl⟩, rfl⟩, ?_⟩
      have : f [a, b] = some [⟨a, b, .updateEdgeDirected, some { e.metadata with effect := some (num (B a b a)) }⟩] := by
        show ((effectProcess D [a, b] g).toOption).join = _
        rw [(hB a b ⟨hab, hba⟩).2 e he]; rfl
      rw [this]
      exact List.mem_singleton.2 rfl
  have hw0 : Written g (fun a b => num (B a b a)) [] g := ⟨h, hr, rfl, HistExtends.refl g, fun _ _ _ _ => rfl,
    fun a b => ⟨fun hh => (by cases hh), fun _ => rfl⟩⟩
  obtain ⟨g', hg', hw⟩ := written_all (fun a b => num (B a b a)) (flatten (cs.map f)) (by
    intro r hr
    obtain ⟨a, b, e, hab, hba, he, rfl⟩ := (hmem r).1 hr
    exact ⟨rfl, hab, e, he, rfl⟩) [] g hw0
  refine ⟨fun a b => num (B a b a), [] ++ (flatten (cs.map f)).map (fun r => (r.u, r.v)), flatten (cs.map f), g', ?_, hw, ?_, ?_⟩
  · have hgen : (effectStep D).gen g = .ok ((cs.map Yield.single).map (fun y _ => [y])) := rfl
    have hforce : forceOn g ((cs.map Yield.single).map (fun y (_ : CGraph ι ρ) => [y])) = cs.map Yield.single := by
      unfold forceOn
      rw [List.flatMap_map]
      generalize cs.map Yield.single = ys
      induction ys with
      | nil => rfl
      | cons y ys ih => rw [List.flatMap_cons, ih]; rfl
    unfold Step.execute
    rw [hgen]
    simp only
    rw [hforce]
    have := Step.evalSeq_map (s := effectStep D) (g := g) cs f hf []
    simp only [effectStep, Bool.false_eq_true, if_false] at this ⊢
    rw [this]
    simp only [List.nil_append]
    rw [takeAction_flat, hg']
  · intro a b
    rw [List.nil_append, List.mem_map]
    constructor
    · rintro ⟨r, hr, hrab⟩
      obtain ⟨a', b', e, h1, h2, _, rfl⟩ := (hmem r).1 hr
      cases hrab
      exact ⟨h1, h2⟩
    · rintro ⟨h1, h2⟩
      obtain ⟨e, he, _⟩ := live_iff.1 h1
      exact ⟨_, (hmem _).2 ⟨a, b, e, h1, h2, he, rfl⟩, rfl⟩
  · intro a b hab
    rw [List.nil_append, List.mem_map] at hab
    obtain ⟨r, hr, hrab⟩ := hab
    obtain ⟨a', b', e, h1, h2, _, rfl⟩ := (hmem r).1 hr
    cases hrab
    exact ⟨B a' b', (hB a' b' ⟨h1, h2⟩).1, rfl⟩

/-- a solver with the assumed property exists -/
theorem leastSquares_exists : ∃ lstsq, LeastSquares lstsq := by
  classical
  let Sol (cols : List (List ℝ)) (y b : List ℝ) : Prop := ∃ (k n : ℕ) (c : Fin k → Fin n → ℝ) (t : Fin n → ℝ) (b' : Fin k → ℝ),
    cols = List.ofFn (fun j => List.ofFn (c j)) ∧ y = List.ofFn t ∧ b = List.ofFn b' ∧ ShortestFit Finset.univ c t b'
  refine ⟨fun cols y => if h : ∃ b, Sol cols y b then h.choose else [], ?_⟩
  intro k n cols y
  obtain ⟨β, hβ⟩ := exists_shortest k n cols y
  have hex : ∃ b, Sol (List.ofFn (fun j => List.ofFn (cols j))) (List.ofFn y) b := ⟨List.ofFn β, k, n, cols, y, β, rfl, rfl, rfl, hβ⟩
  simp only [dif_pos hex]
  obtain ⟨k', n', c, t, b', h1, h2, h3, h4⟩ := hex.choose_spec
  have hk : k = k' := by have := congrArg List.length h1; simpa using this
  have hn : n = n' := by have := congrArg List.length h2; simpa using this
  subst hk; subst hn
  have ht : y = t := List.ofFn_injective h2
  have hc : cols = c := by
    have := List.ofFn_injective h1
    funext j
    exact List.ofFn_injective (congrFun this j)
  subst ht; subst hc
  exact ⟨b', h3, h4⟩

end Effects
end Verif
