import Mathlib.Data.Fin.VecNotation
import Mathlib.Tactic.NormNum
import Mathlib.Tactic.FinCases
import Verif.Effects.Lemmas3

/-!
# C89 to C92: direct effects
-/

namespace Verif
namespace Effects
open Graph CI Orient PC
variable {ι ρ : Type} [DecidableEq ι] {n : ℕ}

/-! ## C89 -/

/-- **C89.** On every graph reached without one-way hard removals, whose variables all have values, the step succeeds and
adds to each one-way edge the regression weight of its source among everything with an edge into its target; nothing else
changes. -/
theorem C89_effects (D : Source ι ℝ) (hls : LeastSquares D.lstsq) (g : CGraph ι ℝ) (hg : ReachableClean g)
    (X : ι → Fin n → ℝ) (hX : Columns D g X) :
    ∃ tp g', (effectStep D).execute false g = (.ok tp, g') ∧ WithEffects X g g' := by
  obtain ⟨tp, g', h1, _, h2⟩ := step_run hls hg.reachable.wf hg.revExact hX
  exact ⟨tp, g', h1, h2⟩

/-- **C89, algorithms.** If an algorithm ends without exception, so does the algorithm followed by the step, with the same
graph up to the effects. -/
theorem C89_last_step (D : Source ι ℝ) (hls : LeastSquares D.lstsq) (fuel : Nat) (ps : List (PStep ι (Info ι ℝ)))
    (m : GModel ι (Info ι ℝ)) (hm : ReachableClean m.graph) (hok : (runPipeline fuel ps m).1 = .ok ())
    (X : ι → Fin n → ℝ) (hX : Columns D (graphAfter fuel ps m) X) :
    (runPipeline fuel (ps ++ [.plain (effectStep D)]) m).1 = .ok () ∧
    WithEffects X (graphAfter fuel ps m) (graphAfter fuel (ps ++ [.plain (effectStep D)]) m) := by
  exact last_run hls fuel ps m hm.reachable.wf hm.revExact hok hX

/-- **C89, uniqueness.** The weights are determined by the columns and the set of regressors: neither the order of the edges
nor collinear columns leave a choice. -/
theorem C89_determined (P : Finset ι) (X : ι → Fin n → ℝ) (y : Fin n → ℝ) (β γ : ι → ℝ) (hβ : ShortestFit P X y β)
    (hγ : ShortestFit P X y γ) : ∀ p ∈ P, β p = γ p := hβ.unique hγ

/-- **C89, missing values.** If either end of a one-way edge has no values, the step raises. -/
theorem C89_missing_values (D : Source ι ρ) (g : CGraph ι ρ) (hg : Reachable g) (a b : ι) (hab : g.Arrow a b)
    (hv : D.values a = none ∨ D.values b = none) : ∃ e, ((effectStep D).execute false g).1 = .error e := by
  have hab' := (arrow_iff hg.wf).1 hab
  obtain ⟨e, he⟩ := process_missing hg.wf hab'.1 hab'.2 hv
  have hgen : (effectStep D).gen g =
      .ok (((g.liveEdgeList.map (fun e => [e.1, e.2])).map Yield.single).map (fun y _ => [y])) := rfl
  unfold Step.execute
  rw [hgen]
  simp only [show (effectStep D).chunked = false from rfl, show (effectStep D).applySync = false from rfl, Bool.false_eq_true,
    if_false]
  cases hev : (effectStep D).evalSeq g (forceOn g (((g.liveEdgeList.map (fun e => [e.1, e.2])).map Yield.single).map
    (fun y (_ : CGraph ι ρ) => [y]))) [] with
  | error e => exact ⟨e, rfl⟩
  | ok rs =>
    exfalso
    obtain ⟨r, hr⟩ := evalSeq_ok_all rfl hev (c := [a, b]) (by
      unfold forceOn
      refine List.mem_flatMap.2 ⟨fun _ => [.single [a, b]], List.mem_map.2 ⟨.single [a, b], List.mem_map.2 ⟨[a, b],
        List.mem_map.2 ⟨(a, b), (mem_liveEdgeList hg.wf a b).2 hab'.1, rfl⟩, rfl⟩, rfl⟩, List.mem_singleton.2 rfl⟩)
    have : effectProcess D [a, b] g = .ok r := hr
    rw [he] at this
    cases this

/-! ## C90 -/

/-- **C90.** If the values of `b` are a combination of the values of the variables with an edge into it, plus noise, then
the effect on `a → b` is the coefficient of `a` plus its weight in the regression of the noise. -/
theorem C90_coefficient_plus_noise (X : ι → Fin n → ℝ) (g g' : CGraph ι ℝ) (hw : WithEffects X g g') (a b : ι)
    (hab : g.Arrow a b) (w : ι → ℝ) (ε : Fin n → ℝ) (hb : ∀ i, X b i = ∑ p ∈ into g b, w p * X p i + ε i) :
    ∃ c, BestFit (into g b) X ε c ∧ HasEffect g' a b (w a + c a) := by
  obtain ⟨m, β, _, hβ, he⟩ := hw.arrows a b hab
  exact ⟨fun p => β p - w p, (BestFit.shift hb).1 hβ.1, _, he, by simp⟩

/-- **C90, exact recovery.** If moreover none of these variables is a combination of the others and the noise is orthogonal to
each of them (in particular without noise), the effect is the coefficient. -/
theorem C90_exact (X : ι → Fin n → ℝ) (g g' : CGraph ι ℝ) (hg : Reachable g) (hw : WithEffects X g g') (a b : ι)
    (hab : g.Arrow a b) (w : ι → ℝ) (ε : Fin n → ℝ) (hb : ∀ i, X b i = ∑ p ∈ into g b, w p * X p i + ε i)
    (hind : Independent (into g b) X) (hε : ∀ p ∈ into g b, ∑ i, ε i * X p i = 0) : HasEffect g' a b (w a) := by
  obtain ⟨c, hc, he⟩ := C90_coefficient_plus_noise X g g' hw a b hab w ε hb
  have ha : a ∈ into g b := (mem_into hg.wf).2 ((arrow_iff hg.wf).1 hab).1
  have := hind.unique hc (bestFit_zero hε) a ha
  rwa [this, add_zero] at he

/-- **C90, generated data.** On the graph and the data of `IIDSampleGenerator`, for any acyclic edges and any random
numbers, the step stores on every edge `a → b` the sum of the coefficients the user gave for it, plus the weight of `a` in the
regression of the random numbers of `b` on the parents of `b`. -/
theorem C90_generated (edges : List (Sample.SEdge ι ℝ)) (vars : List ι) (hv : Sample.TopologicalOrder edges vars) (size : ℕ)
    (rand : ℕ → ℝ) (m0 : Info ι ℝ) (lstsq : List (List ℝ) → List ℝ → List ℝ) (hls : LeastSquares lstsq) :
    ∃ out col g tp g', Sample.iidGenerate m0 size rand edges vars = .ok (out, g) ∧
      (∀ v ∈ vars, out.get? v = some (col v)) ∧
      (effectStep ⟨fun v => (out.get? v).map List.ofFn, lstsq⟩).execute false g = (.ok tp, g') ∧
      ∀ a b, Sample.HasEdge edges a b → ∃ c, BestFit (into g b) col (fun i => rand (vars.idxOf b * size + i)) c ∧
        HasEffect g' a b (((edges.filter (fun e => e.src = a ∧ e.dst = b)).map (·.value)).sum + c a) := by
  obtain ⟨out, g, e1, e2, e3, e4, e5⟩ := Sample.C51_graph m0 edges hv size rand
  obtain ⟨out', col, f1, -, f3, f4, -⟩ := Sample.C51_structural_equations edges hv size rand
  rw [e2] at f1; cases f1
  have hcl := iidGenerate_clean e1
  obtain ⟨tp, g', h1, h2⟩ := C89_effects ⟨fun v => (out.get? v).map List.ofFn, lstsq⟩ hls g hcl col (by
    intro p hp; rw [e3] at hp; simp only [f3 p hp]; rfl)
  refine ⟨out, col, g, tp, g', e1, f3, h1, ?_⟩
  intro a b hab
  have harr : g.Arrow a b := by
    have := (e5 a b hab).1
    unfold onlyDirectedEdgeExists at this
    simp only [Bool.and_eq_true, Bool.not_eq_true'] at this
    exact ⟨this.1, this.2⟩
  have hbm : Sample.Mentioned edges b := by
    obtain ⟨e, he, _, h⟩ := hab
    exact ⟨e, he, Or.inr h⟩
  obtain ⟨c, hc, he⟩ := C90_coefficient_plus_noise col g g' h2 a b harr
    (fun p => ((edges.filter (fun e => e.src = p ∧ e.dst = b)).map (·.value)).sum)
    (fun i => rand (vars.idxOf b * size + i)) (by
      intro i
      rw [Sample.C51_linear_form edges _ col f4 b hbm i, add_comm]
      congr 1
      have hin : ∀ e ∈ edges, e.dst = b → e.src ∈ into g b := by
        intro e he hd
        have hh : Sample.HasEdge edges e.src b := ⟨e, he, rfl, hd⟩
        have hl := (e4 e.src b).2 hh
        rw [directedEdgeExists_eq hcl.reachable.wf] at hl
        exact (mem_into hcl.reachable.wf).2 hl
      clear e1 e2 e4 e5 f4 h1 h2 harr hab hbm hv
      induction edges with
      | nil => simp
      | cons e es ih =>
        have ih' := ih (fun x hx => hin x (List.mem_cons_of_mem _ hx))
        by_cases hd : e.dst = b
        · rw [List.filter_cons_of_pos (by simpa using hd), List.map_cons, List.sum_cons, ih']
          have hsum : ∀ p, ((List.filter (fun e => decide (e.src = p ∧ e.dst = b)) (e :: es)).map (·.value)).sum =
              (if e.src = p then e.value else 0) +
                ((List.filter (fun e => decide (e.src = p ∧ e.dst = b)) es).map (·.value)).sum := by
            intro p
            by_cases hp : e.src = p
            · rw [List.filter_cons_of_pos (by simp [hp, hd]), if_pos hp, List.map_cons, List.sum_cons]
            · rw [List.filter_cons_of_neg (by simp [hp]), if_neg hp, zero_add]
          simp only [hsum, add_mul, Finset.sum_add_distrib]
          congr 1
          simp [Finset.sum_ite_eq, hin e List.mem_cons_self hd]
        · rw [List.filter_cons_of_neg (by simpa using hd), ih']
          refine Finset.sum_congr rfl (fun p _ => ?_)
          rw [List.filter_cons_of_neg (by simp [hd])])
  exact ⟨c, hc, he⟩

/-! ## C91 -/

/-- **C91, units (partial).** Measuring every variable `p` in another unit (multiplying its values by `s p ≠ 0`) multiplies the
effect on `a → b` by `s b / s a`, if no parent of `b` is a combination of the others.  Missing: a change of origin. -/
theorem C91_units_partial (X : ι → Fin n → ℝ) (s : ι → ℝ) (hs : ∀ p, s p ≠ 0) (g g₁ g₂ : CGraph ι ℝ) (hg : Reachable g)
    (h₁ : WithEffects X g g₁) (h₂ : WithEffects (fun p i => s p * X p i) g g₂) (a b : ι) (hab : g.Arrow a b)
    (hind : Independent (into g b) X) (z : ℝ) (hz : HasEffect g₁ a b z) : HasEffect g₂ a b (s b / s a * z) := by
  obtain ⟨m, β, _, hβ, he⟩ := h₁.arrows a b hab
  obtain ⟨m', γ, _, hγ, he'⟩ := h₂.arrows a b hab
  obtain ⟨m'', h3, h4⟩ := hz
  rw [he] at h3
  cases h3
  cases h4
  have ha : a ∈ into g b := (mem_into hg.wf).2 ((arrow_iff hg.wf).1 hab).1
  have := (independent_scale s (fun p _ => hs p) hind).unique (bestFit_scale s (s b) (fun p _ => hs p) hβ.1) hγ.1 a ha
  exact ⟨_, he', by rw [← this]⟩

/-- a cause and its effect -/
def exPair : CGraph Nat ℝ := Cmd.runAll [.addNode 0, .addNode 1, .addDirectedEdge 0 1 {} .directed] Graph.empty

theorem exPair_clean : ReachableClean exPair := by
  refine ⟨[.addNode 0, .addNode 1, .addDirectedEdge 0 1 {} .directed], ?_, rfl⟩
  simp [CleanHistory, Cmd.isOneWayHardRemove]

theorem exPair_into : into exPair 1 = {0} := by
  have h : exPair.nodes = [0, 1] ∧ exPair.directedEdgeExists 0 1 = true ∧ exPair.directedEdgeExists 1 1 = false := by
    refine ⟨?_, ?_, ?_⟩ <;> decide +kernel
  ext u
  unfold into
  rw [Finset.mem_filter, h.1]
  simp only [List.mem_toFinset, List.mem_cons, List.not_mem_nil, or_false, Finset.mem_singleton]
  constructor
  · rintro ⟨rfl | rfl, hu⟩
    · rfl
    · rw [h.2.2] at hu; cases hu
  · rintro rfl; exact ⟨Or.inl rfl, h.2.1⟩

theorem exPair_arrow : exPair.Arrow 0 1 := by
  refine ⟨?_, ?_⟩ <;> decide +kernel

/-- two observations of both -/
def exPairX (d : ℝ) : Nat → Fin 2 → ℝ := fun p => if p = 0 then ![1, 2] else ![1 + d, 2 + d]

theorem exPair_independent (d : ℝ) : Independent (into exPair 1) (exPairX d) := by
  rw [exPair_into]
  intro γ h p hp
  rw [Finset.mem_singleton] at hp
  subst hp
  have := h 0
  simpa [exPairX] using this

/-- **C91, origins.** The regression has no intercept, so moving the origin of the effect variable changes the reported effect:
the values `1, 2` of the cause and `1, 2` of the effect give `1`, but with `2, 3` for the effect (the same slope) the reported
effect is `8/5`. -/
theorem C91_origin_matters (g₁ g₂ : CGraph Nat ℝ) (h₁ : WithEffects (exPairX 0) exPair g₁)
    (h₂ : WithEffects (exPairX 1) exPair g₂) : HasEffect g₁ 0 1 1 ∧ HasEffect g₂ 0 1 (8 / 5) := by
  refine ⟨C90_exact (exPairX 0) exPair g₁ exPair_clean.reachable h₁ 0 1 exPair_arrow (fun _ => 1) (fun _ => 0) ?_
      (exPair_independent 0) ?_,
    C90_exact (exPairX 1) exPair g₂ exPair_clean.reachable h₂ 0 1 exPair_arrow (fun _ => 8 / 5) ![2 / 5, - (1 / 5)] ?_
      (exPair_independent 1) ?_⟩
  · rw [exPair_into]; intro i; fin_cases i <;> norm_num [exPairX]
  · rw [exPair_into]; intro p hp; simp
  · rw [exPair_into]; intro i; fin_cases i <;> norm_num [exPairX]
  · rw [exPair_into]; intro p hp
    rw [Finset.mem_singleton] at hp
    subst hp
    norm_num [exPairX, Fin.sum_univ_two]

/-- both runs exist, for any exact solver -/
example : ∃ lstsq, LeastSquares lstsq ∧ ∀ d, ∃ tp g',
    (effectStep ⟨fun p => some (List.ofFn (exPairX d p)), lstsq⟩).execute false exPair = (.ok tp, g') ∧
    WithEffects (exPairX d) exPair g' := by
  obtain ⟨lstsq, hls⟩ := leastSquares_exists
  exact ⟨lstsq, hls, fun d => C89_effects ⟨_, lstsq⟩ hls exPair exPair_clean (exPairX d) (fun _ _ => rfl)⟩

/-! ## C92 -/

theorem full_run (T : Tests ι ℝ) (E : ι → ι → Prop) (gn : CGraph ι ℝ) (hgn : ReachableClean gn)
    (hfresh : ∀ a b, gn.retrieveEdgeHistory a b .removeEdgeUndirected = [])
    (hO : Oracle T E gn.nodes) (ord : NbOrd ι) (ho : ord.Valid) (oc : Orient.Ord ι ℝ) (hoc : oc.Valid) (o : Ords ι ℝ) (ho' : o.Valid)
    (alg : List (PStep ι (Info ι ℝ))) (halg : alg = pc T ord oc o ∨ alg = pcClassic T ord oc o) (fuel : Nat)
    (hf : gn.nodes.length * gn.nodes.length + 2 ≤ fuel) (h : List (HistRec ι (Info ι ℝ)))
    (D : Source ι ℝ) (hls : LeastSquares D.lstsq) (X : ι → Fin n → ℝ) (hX : Columns D gn X) :
    (runPipeline fuel (alg ++ [.plain (effectStep D)]) ⟨startGraph gn, h⟩).1 = .ok () ∧
    WithEffects X (graphAfter fuel alg ⟨startGraph gn, h⟩) (graphAfter fuel (alg ++ [.plain (effectStep D)]) ⟨startGraph gn, h⟩) := by
  have hr : Oriented E gn.nodes fuel (runPipeline fuel alg ⟨startGraph gn, h⟩) := by
    rcases halg with rfl | rfl
    · exact whole_run hgn.reachable hfresh hO ho (Or.inl rfl) hoc ho' fuel h
    · exact whole_run hgn.reachable hfresh hO ho (Or.inr rfl) hoc ho' fuel h
  have hcl := createAll_clean hgn ({} : Info ι ℝ)
  have hnodes : (graphAfter fuel alg ⟨startGraph gn, h⟩).nodes = gn.nodes := hr.nodes
  exact last_run hls fuel alg ⟨startGraph gn, h⟩ hcl.reachable.wf hcl.revExact (hr.ends hf) (X := X)
    (by intro p hp; rw [hnodes] at hp; exact hX p hp)

/-- **C92 (partial).** With a perfect oracle for a DAG from which the data arises by linear equations, `PC` and `PCClassic` with
all their steps end without exception, and the effect on each one-way edge `a → b` whose target has no undirected edge is the
coefficient of `a` in the equation of `b`, plus the weight of `a` in the regression of the noise of `b` on the parents of `b` in
the DAG.  Missing: targets with an undirected edge, where it fails (`C92_undirected_confounds`). -/
theorem C92_structural_coefficient_partial (T : Tests ι ℝ) (E : ι → ι → Prop) (gn : CGraph ι ℝ) (hgn : ReachableClean gn)
    (hfresh : ∀ a b, gn.retrieveEdgeHistory a b .removeEdgeUndirected = [])
    (hO : Oracle T E gn.nodes) (ord : NbOrd ι) (ho : ord.Valid) (oc : Orient.Ord ι ℝ) (hoc : oc.Valid) (o : Ords ι ℝ) (ho' : o.Valid)
    (alg : List (PStep ι (Info ι ℝ))) (halg : alg = pc T ord oc o ∨ alg = pcClassic T ord oc o) (fuel : Nat)
    (hf : gn.nodes.length * gn.nodes.length + 2 ≤ fuel) (h : List (HistRec ι (Info ι ℝ)))
    (D : Source ι ℝ) (hls : LeastSquares D.lstsq) (X : ι → Fin n → ℝ) (hX : Columns D gn X) :
    let full := alg ++ [.plain (effectStep D)]
    let g := graphAfter fuel full ⟨startGraph gn, h⟩
    (runPipeline fuel full ⟨startGraph gn, h⟩).1 = .ok () ∧
    ∀ a b, g.Arrow a b → (∀ c, ¬ g.Line c b) →
      E a b ∧ ∀ (P : Finset ι), (∀ p, p ∈ P ↔ E p b) → ∀ (w : ι → ℝ) (ε : Fin n → ℝ), (∀ i, X b i = ∑ p ∈ P, w p * X p i + ε i) →
        (∃ c, BestFit P X ε c ∧ HasEffect g a b (w a + c a)) ∧
        (Independent P X → (∀ p ∈ P, ∑ i, ε i * X p i = 0) → HasEffect g a b (w a)) := by
  intro full g
  have hr : Oriented E gn.nodes fuel (runPipeline fuel alg ⟨startGraph gn, h⟩) := by
    rcases halg with rfl | rfl
    · exact whole_run hgn.reachable hfresh hO ho (Or.inl rfl) hoc ho' fuel h
    · exact whole_run hgn.reachable hfresh hO ho (Or.inr rfl) hoc ho' fuel h
  have hsound : Sound E (graphAfter fuel alg ⟨startGraph gn, h⟩) := hr.sound
  obtain ⟨h1, h2⟩ := full_run T E gn hgn hfresh hO ord ho oc hoc o ho' alg halg fuel hf h D hls X hX
  refine ⟨h1, ?_⟩
  intro a b hab hnl
  have hnl' : ∀ c, ¬ (graphAfter fuel alg ⟨startGraph gn, h⟩).Line c b := by
    intro c hc
    exact hnl c ⟨by rw [h2.edges]; exact hc.1, by rw [h2.edges]; exact hc.2⟩
  have hab' : (graphAfter fuel alg ⟨startGraph gn, h⟩).Arrow a b := by
    refine ⟨by rw [← h2.edges]; exact hab.1, by rw [← h2.edges]; exact hab.2⟩
  have hinto : ∀ p, p ∈ into (graphAfter fuel alg ⟨startGraph gn, h⟩) b ↔ E p b := by
    intro p
    rw [mem_into hsound.wf]
    constructor
    · intro hp
      cases hbp : (graphAfter fuel alg ⟨startGraph gn, h⟩).live b p with
      | true => exact absurd ((line_iff hsound.wf).2 ⟨hp, hbp⟩) (hnl' p)
      | false => exact hsound.arrow p b ((arrow_iff hsound.wf).2 ⟨hp, hbp⟩)
    · intro hp
      cases hl : (graphAfter fuel alg ⟨startGraph gn, h⟩).live p b with
      | true => rfl
      | false =>
        exfalso
        have hadj := (adj_iff hsound.wf).1 ((hsound.adj p b).2 (Or.inl hp))
        rw [hl] at hadj
        have hbp : (graphAfter fuel alg ⟨startGraph gn, h⟩).live b p = true := by simpa using hadj
        exact hO.acyclic p (.tail (.single hp) (hsound.arrow b p ((arrow_iff hsound.wf).2 ⟨hbp, hl⟩)))
  refine ⟨hsound.arrow a b hab', ?_⟩
  intro P hP w ε hb
  have hPe : P = into (graphAfter fuel alg ⟨startGraph gn, h⟩) b := by
    ext p; rw [hP, hinto]
  subst hPe
  obtain ⟨c, hc, he⟩ := C90_coefficient_plus_noise X _ _ h2 a b hab' w ε hb
  refine ⟨⟨c, hc, he⟩, ?_⟩
  intro hind hε
  have ha : a ∈ into (graphAfter fuel alg ⟨startGraph gn, h⟩) b := (hinto a).2 (hsound.arrow a b hab')
  have := hind.unique hc (bestFit_zero hε) a ha
  rwa [this, add_zero] at he

/-- `0 → 2 ← 1` -/
def exFork : Nat → Nat → Prop := fun a b => (a, b) ∈ [(0, 2), (1, 2)]

instance : DecidableRel exFork := fun a b => inferInstanceAs (Decidable ((a, b) ∈ [(0, 2), (1, 2)]))

/-- some order of sets -/
def exRealOrd : Orient.Ord Nat ℝ := fun _ _ _ l => l.dedup

theorem exRealOrd_valid : exRealOrd.Valid := fun _ _ _ l => ⟨l.nodup_dedup, fun _ => List.mem_dedup⟩

theorem nodesOnly_clean {δ : Type} (l : List ι) : ReachableClean (nodesOnly l : Graph ι δ) := by
  refine ⟨l.map .addNode, ?_, rfl⟩
  have : ∀ g : Graph ι δ, CleanHistory (l.map .addNode) g := by
    induction l with
    | nil => intro g; trivial
    | cons x l ih => intro g; exact ⟨by simp [Cmd.isOneWayHardRemove], ih _⟩
  exact this _

/-- the hypotheses hold for it, and in the run the target `2` has two one-way edges and no undirected one -/
example : ReachableClean (nodesOnly [0, 1, 2] : CGraph Nat ℝ) ∧
    (∀ a b, (nodesOnly [0, 1, 2] : CGraph Nat ℝ).retrieveEdgeHistory a b .removeEdgeUndirected = []) ∧
    Oracle (exactTests exFork [0, 1, 2] : Tests Nat ℝ) exFork [0, 1, 2] ∧
    let g := graphAfter 11 (pc (exactTests exFork [0, 1, 2] : Tests Nat ℝ) exNbOrd exRealOrd ⟨exRealOrd, exRealOrd, exRealOrd⟩)
      ⟨startGraph (nodesOnly [0, 1, 2]), []⟩
    ([0, 1, 2].product [0, 1, 2]).filter (fun p => g.directedEdgeExists p.1 p.2) = [(0, 2), (1, 2)] := by
  refine ⟨nodesOnly_clean _, fun a b => nodesOnly_history _ (by decide) a b _, exactTests_oracle exFork _ ?_ ?_, ?_⟩
  · refine Dag.acyclic_of_lt id ?_
    intro a b h
    simp only [exFork, List.mem_cons, Prod.mk.injEq, List.not_mem_nil, or_false] at h
    simp only [id]
    omega
  · intro a b h
    simp only [exFork, List.mem_cons, Prod.mk.injEq, List.not_mem_nil, or_false] at h
    simp only [List.mem_cons, List.not_mem_nil, or_false]
    omega
  · decide +kernel

/-! ### The witness: two causes of an undirected pair -/

/-- `0` and `1` cause `2` and `3`, and `2` causes `3`; the direction of `2 → 3` cannot be learned -/
def exConf : Nat → Nat → Prop := fun a b => (a, b) ∈ [(0, 2), (1, 2), (0, 3), (1, 3), (2, 3)]

instance : DecidableRel exConf := fun a b => inferInstanceAs (Decidable ((a, b) ∈ [(0, 2), (1, 2), (0, 3), (1, 3), (2, 3)]))

theorem exConf_acyclic : Dag.Acyclic exConf := by
  refine Dag.acyclic_of_lt id ?_
  intro a b h
  simp only [exConf, List.mem_cons, Prod.mk.injEq, List.not_mem_nil, or_false] at h
  simp only [id]
  omega

theorem exConf_nodes : ∀ a b, exConf a b → a ∈ [0, 1, 2, 3] ∧ b ∈ [0, 1, 2, 3] := by
  intro a b h
  simp only [exConf, List.mem_cons, Prod.mk.injEq, List.not_mem_nil, or_false] at h
  simp only [List.mem_cons, List.not_mem_nil, or_false]
  omega

/-- the perfect tests for it -/
noncomputable def exConfTests : Tests Nat ℝ := exactTests exConf [0, 1, 2, 3]

/-- the algorithm without the effects -/
noncomputable def exConfAlg : List (PStep Nat (Info Nat ℝ)) :=
  pc exConfTests exNbOrd exRealOrd ⟨exRealOrd, exRealOrd, exRealOrd⟩

/-- the variables it starts from -/
def exConfNodes : CGraph Nat ℝ := nodesOnly [0, 1, 2, 3]

/-- the graph it ends with -/
noncomputable def exConfGraph : CGraph Nat ℝ := graphAfter 18 exConfAlg ⟨startGraph exConfNodes, []⟩

theorem exConf_graph : exConfGraph.nodes = [0, 1, 2, 3] ∧
    (([0, 1, 2, 3].product [0, 1, 2, 3]).filter (fun p => exConfGraph.directedEdgeExists p.1 p.2)) =
      [(0, 2), (0, 3), (1, 2), (1, 3), (2, 3), (3, 2)] := by
  refine ⟨?_, ?_⟩ <;> decide +kernel

/-- four observations: `2` is `0 + 1` plus noise, `3` is `0 + 1 + 2` plus noise -/
def exConfX : Nat → Fin 4 → ℝ := fun p =>
  if p = 0 then ![1, 1, 1, 1] else if p = 1 then ![1, -1, 1, -1] else if p = 2 then ![3, 1, 1, -1] else ![6, 0, 2, 0]

/-- the noise of `2` and `3` -/
def exConfNoise : Nat → Fin 4 → ℝ := fun p => if p = 2 then ![1, 1, -1, -1] else ![1, -1, -1, 1]

theorem exConf_into : into exConfGraph 2 = {0, 1, 3} := by
  have h := exConf_graph
  have hd : ∀ a b, a ∈ [0, 1, 2, 3] → b ∈ [0, 1, 2, 3] → (exConfGraph.directedEdgeExists a b = true ↔
      (a, b) ∈ [(0, 2), (0, 3), (1, 2), (1, 3), (2, 3), (3, 2)]) := by
    intro a b ha hb
    rw [← h.2, List.mem_filter]
    exact ⟨fun hh => ⟨List.mem_product.2 ⟨ha, hb⟩, hh⟩, fun hh => hh.2⟩
  ext u
  unfold into
  rw [Finset.mem_filter, h.1, List.mem_toFinset]
  constructor
  · rintro ⟨hu, hh⟩
    have := (hd u 2 hu (by simp)).1 hh
    simp at this ⊢
    omega
  · intro hu
    simp only [Finset.mem_insert, Finset.mem_singleton] at hu
    have hm : u ∈ [0, 1, 2, 3] := by simp; omega
    refine ⟨hm, (hd u 2 hm (by simp)).2 ?_⟩
    simp; omega

theorem exConf_oracle : Oracle exConfTests exConf exConfNodes.nodes := by
  rw [show exConfNodes.nodes = [0, 1, 2, 3] from (nodesOnly_facts _ (by decide)).1]; exact exactTests_oracle exConf _ exConf_acyclic exConf_nodes

theorem exConfNodes_clean : ReachableClean exConfNodes := nodesOnly_clean _

theorem exConfNodes_nodes : exConfNodes.nodes = [0, 1, 2, 3] := (nodesOnly_facts _ (by decide)).1

theorem exConfNodes_fresh : ∀ a b, exConfNodes.retrieveEdgeHistory a b .removeEdgeUndirected = [] :=
  fun a b => nodesOnly_history _ (by decide) a b _

theorem exConf_run (lstsq : List (List ℝ) → List ℝ → List ℝ) (hls : LeastSquares lstsq) :
    let D : Source Nat ℝ := ⟨fun p => some (List.ofFn (exConfX p)), lstsq⟩
    (runPipeline 18 (exConfAlg ++ [.plain (effectStep D)]) ⟨startGraph exConfNodes, []⟩).1 = .ok () ∧
    WithEffects exConfX exConfGraph (graphAfter 18 (exConfAlg ++ [.plain (effectStep D)]) ⟨startGraph exConfNodes, []⟩) := by
  intro D
  exact full_run exConfTests exConf exConfNodes exConfNodes_clean exConfNodes_fresh exConf_oracle exNbOrd exNbOrd_valid exRealOrd
    exRealOrd_valid ⟨exRealOrd, exRealOrd, exRealOrd⟩ ⟨exRealOrd_valid, exRealOrd_valid, exRealOrd_valid⟩ exConfAlg (Or.inl rfl) 18
    (by rw [exConfNodes_nodes]; decide) [] D hls exConfX (fun _ _ => rfl)

/-- **C92, the missing case.** With perfect tests, and data that satisfies the equations of the DAG with noise orthogonal to
the parents, the whole of `PC` can report a wrong effect: here `0 → 2` has the coefficient `1`, but since `2 – 3` stays
undirected, the effect variable `3` enters the regression and the reported effect is `0`. -/
theorem C92_undirected_confounds (lstsq : List (List ℝ) → List ℝ → List ℝ) (hls : LeastSquares lstsq) :
    let r := runPipeline 18 (exConfAlg ++ [.plain (effectStep ⟨fun p => some (List.ofFn (exConfX p)), lstsq⟩)]) ⟨startGraph exConfNodes, []⟩
    Oracle exConfTests exConf exConfNodes.nodes ∧
    (∀ i, exConfX 2 i = 1 * exConfX 0 i + 1 * exConfX 1 i + exConfNoise 2 i) ∧
    (∀ i, exConfX 3 i = 1 * exConfX 0 i + 1 * exConfX 1 i + 1 * exConfX 2 i + exConfNoise 3 i) ∧
    (∀ a b, exConf a b → ∑ i, exConfNoise b i * exConfX a i = 0) ∧
    r.1 = .ok () ∧ r.2.graph.Arrow 0 2 ∧ HasEffect r.2.graph 0 2 0 := by
  obtain ⟨h1, h2⟩ := exConf_run lstsq hls
  unfold graphAfter at h2
  generalize runPipeline 18 (exConfAlg ++ [.plain (effectStep ⟨fun p => some (List.ofFn (exConfX p)), lstsq⟩)]) ⟨startGraph exConfNodes, []⟩ = r
    at h1 h2 ⊢
  intro r
  have hg := exConf_graph
  have harr : exConfGraph.Arrow 0 2 := by
    refine ⟨?_, ?_⟩
    · have : (0, 2) ∈ [(0, 2), (0, 3), (1, 2), (1, 3), (2, 3), (3, 2)] := by simp
      rw [← hg.2, List.mem_filter] at this
      exact this.2
    · rw [← Bool.not_eq_true]
      intro hh
      have : (2, 0) ∈ [(0, 2), (0, 3), (1, 2), (1, 3), (2, 3), (3, 2)] := by
        rw [← hg.2, List.mem_filter]
        exact ⟨List.mem_product.2 ⟨by simp, by simp⟩, hh⟩
      simp at this
  refine ⟨exConf_oracle, ?_, ?_, ?_, h1, ⟨by rw [h2.edges]; exact harr.1, by rw [h2.edges]; exact harr.2⟩, ?_⟩
  · intro i; fin_cases i <;> norm_num [exConfX, exConfNoise]
  · intro i; fin_cases i <;> norm_num [exConfX, exConfNoise]
  · intro a b hab
    simp only [exConf, List.mem_cons, Prod.mk.injEq, List.not_mem_nil, or_false] at hab
    rcases hab with ⟨rfl, rfl⟩ | ⟨rfl, rfl⟩ | ⟨rfl, rfl⟩ | ⟨rfl, rfl⟩ | ⟨rfl, rfl⟩ <;>
      norm_num [exConfX, exConfNoise, Fin.sum_univ_succ]
  · obtain ⟨c, hc, he⟩ := C90_coefficient_plus_noise exConfX exConfGraph r.2.graph h2 0 2 harr
      (fun p => if p = 3 then 1 / 2 else 0) ![0, 1, 0, -1] (by
        rw [exConf_into]; intro i; fin_cases i <;> norm_num [exConfX])
    rw [exConf_into] at hc
    have hz : BestFit {0, 1, 3} exConfX ![0, 1, 0, -1] (fun _ => 0) := by
      refine bestFit_zero ?_
      intro p hp
      simp only [Finset.mem_insert, Finset.mem_singleton] at hp
      rcases hp with rfl | rfl | rfl <;> norm_num [exConfX, Fin.sum_univ_succ]
    have hind : Independent {0, 1, 3} exConfX := by
      intro γ hγ
      have e0 := hγ 0
      have e1 := hγ 1
      have e2 := hγ 2
      norm_num [exConfX] at e0 e1 e2
      rw [show (![1, 1, 1, 1] : Fin 4 → ℝ) 2 = 1 from rfl, show (![1, -1, 1, -1] : Fin 4 → ℝ) 2 = 1 from rfl,
        show (![6, 0, 2, 0] : Fin 4 → ℝ) 2 = 2 from rfl] at e2
      intro p hp
      simp only [Finset.mem_insert, Finset.mem_singleton] at hp
      rcases hp with rfl | rfl | rfl <;> linarith
    have := hind.unique hc hz 0 (by simp)
    rw [this] at he
    simpa using he

end Effects
end Verif
