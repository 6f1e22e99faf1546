import Verif.EndToEnd.WholeSpec
import Verif.Effects.Props
import Verif.Linear.Props
import Verif.Linear.RegressionProps
import Verif.PC.ParProps

/-!
# Helper lemmas: the complete algorithms on data from linear equations
-/

namespace Verif
open Graph CI PC Effects
variable {ι ρ : Type} [DecidableEq ι] {n : ℕ}

/-! ## the parallel stages keep the invariants of the last step -/

theorem stages_clean {δ : Type} {fuel : Nat} {xs : List (Stage ι δ)} {m : GModel ι δ} {out : Except PyErr Unit × GModel ι δ}
    (hr : Stages.Run fuel xs m out) (h : WF0 m.graph ∧ RevExact m.graph) : WF0 out.2.graph ∧ RevExact out.2.graph := by
  have k : Kept (fun g : Graph ι δ => WF0 g ∧ RevExact g) (fun _ => True) := by
    refine ⟨?_, ?_⟩
    · intro r g hg _
      exact ⟨applyOne_wf hg.1, applyOne_revExact hg.1 hg.2⟩
    · intro g hg
      rw [purge_run hg.1]
      exact ⟨hg.1.purgeG, hg.2.purgeG⟩
  have one : ∀ (x : Stage ι δ) (m : GModel ι δ) out, x.Run fuel m out → WF0 m.graph ∧ RevExact m.graph →
      WF0 out.2.graph ∧ RevExact out.2.graph := by
    intro x m out hx h
    cases hx with
    | seq p m =>
      have := runPipeline_clean fuel [p] m h.1 h.2
      unfold runPipeline at this
      rw [PyM.forEach_cons, PyM.bind_run] at this
      generalize p.run fuel m = y at this ⊢
      obtain ⟨e | u, m'⟩ := y
      · exact this
      · exact this
    | par s size m t p g' hp =>
      have hk := Par.run_kept k ⟨fun _ => True, by intros; trivial, by intros; trivial⟩ h hp
      show WF0 (Graph.purge g').2 ∧ RevExact (Graph.purge g').2
      exact k.purge g' hk
    | raised s size m e g' hp =>
      exact Par.run_kept k ⟨fun _ => True, by intros; trivial, by intros; trivial⟩ h hp
  induction hr with
  | nil m => exact h
  | cons x xs m m' out hx _ ih => exact ih (one x m _ hx h)
  | raised x xs m e m' hx => exact one x m _ hx h

/-! ## effects on an oriented graph -/

theorem sound_into {E : ι → ι → Prop} (hac : Dag.Acyclic E) {g : CGraph ι ρ} (h : Sound E g) {b : ι}
    (hnl : ∀ c, ¬ g.Line c b) (p : ι) : p ∈ into g b ↔ E p b := by
  rw [mem_into h.wf]
  constructor
  · intro hp
    cases hbp : g.live b p with
    | true => exact absurd ((line_iff h.wf).2 ⟨hp, hbp⟩) (hnl p)
    | false => exact h.arrow p b ((arrow_iff h.wf).2 ⟨hp, hbp⟩)
  · intro hp
    cases hl : g.live p b with
    | true => rfl
    | false =>
      exfalso
      have hadj := (adj_iff h.wf).1 ((h.adj p b).2 (Or.inl hp))
      rw [hl] at hadj
      have hbp : g.live b p = true := by simpa using hadj
      exact hac p (.tail (.single hp) (h.arrow b p ((arrow_iff h.wf).2 ⟨hbp, hl⟩)))

theorem withEffects_coefficient {num : ℝ → ρ} {X : ι → Fin n → ℝ} {g g' : CGraph ι ρ} (hwf : WF0 g)
    (hw : WithEffectsIn num X g g') {a b : ι} (hab : g.Arrow a b) {w : ι → ℝ} {ε : Fin n → ℝ}
    (hb : ∀ i, X b i = ∑ p ∈ into g b, w p * X p i + ε i) (hind : Independent (into g b) X)
    (hε : ∀ p ∈ into g b, ∑ i, ε i * X p i = 0) :
    ∃ m, g'.edgeValue a b = .ok (some m) ∧ m.effect = some (num (w a)) := by
  obtain ⟨m, β, _, hβ, he⟩ := hw.arrows a b hab
  have ha : a ∈ into g b := (mem_into hwf).2 ((arrow_iff hwf).1 hab).1
  have := hind.unique ((BestFit.shift hb).1 hβ.1) (bestFit_zero hε) a ha
  have e : β a = w a := by simpa [sub_eq_zero] using this
  exact ⟨_, he, by rw [e]⟩

namespace Linear
open Sample Stats

theorem sum_parents (x : ι → ℝ) (b : ι) (P : Finset ι) (edges : List (SEdge ι ℝ)) (hin : ∀ e ∈ edges, e.dst = b → e.src ∈ P) :
    ((edges.filter (fun e => e.dst = b)).map (fun e => e.value * x e.src)).sum = ∑ p ∈ P, weight edges p b * x p := by
  unfold weight
  induction edges with
  | nil => simp
  | cons e es ih =>
    have ih' := ih (fun x hx => hin x (List.mem_cons_of_mem _ hx))
    by_cases hd : e.dst = b
    · rw [List.filter_cons_of_pos (by simpa using hd), List.map_cons, List.sum_cons, ih']
      have hsum : ∀ p, ((List.filter (fun e => decide (e.src = p ∧ e.dst = b)) (e :: es)).map (·.value)).sum =
          (if e.src = p then e.value else 0) +
            ((List.filter (fun e => decide (e.src = p ∧ e.dst = b)) es).map (·.value)).sum := by
        intro p
        by_cases hp : e.src = p
        · rw [List.filter_cons_of_pos (by simp [hp, hd]), if_pos hp, List.map_cons, List.sum_cons]
        · rw [List.filter_cons_of_neg (by simp [hp]), if_neg hp, zero_add]
      simp only [hsum, add_mul, Finset.sum_add_distrib]
      congr 1
      simp [Finset.sum_ite_eq, hin e List.mem_cons_self hd]
    · rw [List.filter_cons_of_neg (by simpa using hd), ih']
      refine Finset.sum_congr rfl (fun p _ => ?_)
      rw [List.filter_cons_of_neg (by simp [hd])]

/-- a linear functional that vanishes on the noise of `v` and the columns of its parents vanishes on the column of `v` -/
theorem functional_zero {edges : List (SEdge ι ℝ)} {noise col : ι → Fin n → ℝ} (hst : Structural edges noise col) (f : Fin n → ℝ)
    {vars : List ι} (hv : TopologicalOrder edges vars) (k : ℕ)
    (hf : ∀ v ∈ vars, vars.idxOf v < k → ∑ i, f i * noise v i = 0) :
    ∀ v ∈ vars, vars.idxOf v < k → ∑ i, f i * col v i = 0 := by
  have : ∀ j, ∀ v ∈ vars, vars.idxOf v < j → vars.idxOf v < k → ∑ i, f i * col v i = 0 := by
    intro j
    induction j with
    | zero => intro v _ h; omega
    | succ j ih =>
      intro v hvm hj hk
      have hm := (hv.2.1 v).1 hvm
      have e1 : ∀ i, f i * col v i = f i * noise v i +
          ((edges.filter (fun e => e.dst = v)).map (fun e => e.value * (f i * col e.src i))).sum := by
        intro i
        rw [C51_linear_form edges noise col hst v hm i, mul_add, ← List.sum_map_mul_left]
        congr 2
        apply List.map_congr_left
        intros; ring
      simp only [e1, Finset.sum_add_distrib, hf v hvm hk, zero_add]
      have hes : ∀ e ∈ edges.filter (fun e => e.dst = v), ∑ i, f i * col e.src i = 0 := by
        intro e he
        obtain ⟨he, hd⟩ := List.mem_filter.1 he
        have hd : e.dst = v := by simpa using hd
        have hlt := hv.2.2 e.src v ⟨e, he, rfl, hd⟩
        exact ih e.src ((hv.2.1 _).2 ⟨e, he, Or.inl rfl⟩) (by omega) (by omega)
      generalize edges.filter (fun e => e.dst = v) = es at hes
      induction es with
      | nil => simp
      | cons e es ih2 =>
        simp only [List.map_cons, List.sum_cons, Finset.sum_add_distrib, ← Finset.mul_sum]
        rw [hes e List.mem_cons_self, mul_zero, zero_add]
        exact ih2 (fun e he => hes e (List.mem_cons_of_mem _ he))
  exact fun v hv hk => this k v hv hk hk

theorem order_exists {edges : List (SEdge ι ℝ)} (hac : Dag.Acyclic (HasEdge edges)) : ∃ vars, TopologicalOrder edges vars :=
  let ⟨l, hl, _⟩ := C50_topological_order edges hac id (fun l => .refl l)
  ⟨l, hl⟩

variable {edges : List (SEdge ι ℝ)} {noise col : ι → Fin n → ℝ} {N : List ι}

theorem LinearData.meanZero (hd : LinearData edges noise col N) (hm : ∀ v ∈ N, MeanZero (noise v)) :
    ∀ v ∈ N, MeanZero (col v) := by
  obtain ⟨vars, hv⟩ := order_exists hd.acyclic
  intro v hvN
  have := functional_zero hd.equations (fun _ => 1) hv vars.length (fun v hv' _ => by
    simpa [MeanZero] using hm v ((hd.vars v).2 ((hv.2.1 v).1 hv'))) v ((hv.2.1 v).2 ((hd.vars v).1 hvN))
    (List.idxOf_lt_length_iff.2 ((hv.2.1 v).2 ((hd.vars v).1 hvN)))
  simpa [MeanZero] using this

theorem LinearData.orthogonal (hd : LinearData edges noise col N) (hm : ∀ v ∈ N, MeanZero (noise v)) {p b : ι}
    (h : HasEdge edges p b) : ∑ i, noise b i * col p i = 0 := by
  obtain ⟨vars, hv⟩ := order_exists hd.acyclic
  have hb : b ∈ N := (hd.vars b).2 (mentioned_dst h)
  refine functional_zero hd.equations (noise b) hv (vars.idxOf b) (fun v hv' hlt => ?_) p
    ((hv.2.1 p).2 (mentioned_src h)) (hv.2.2 p b h)
  have hvN : v ∈ N := (hd.vars v).2 ((hv.2.1 v).1 hv')
  have := hd.uncorrelated b hb v hvN (by rintro rfl; omega)
  unfold Uncorrelated at this
  rwa [(hm b hb).centred, (hm v hvN).centred] at this

theorem LinearData.independent (hd : LinearData edges noise col N) (hm : ∀ v ∈ N, MeanZero (noise v)) {P : Finset ι}
    (hP : ∀ p ∈ P, p ∈ N) : Effects.Independent P col := by
  have hN := structural_noRelation hd.acyclic hd.equations hd.vars hd.uncorrelated hd.varies
  have hc := hd.meanZero hm
  intro γ hγ p hp
  have := hN (fun v => if v ∈ P then γ v else 0) (fun i => by
    simp only [ite_mul, zero_mul]
    rw [← Finset.sum_filter]
    refine Eq.trans ?_ (hγ i)
    refine Finset.sum_congr ?_ (fun v hv => ?_)
    · ext v
      simp only [Finset.mem_filter, List.mem_toFinset]
      exact ⟨fun h => h.2, fun h => ⟨hP v h, h⟩⟩
    · rw [(hc v (hP v hv)).centred]) p (hP p hp)
  simpa [hp] using this

theorem LinearData.equation (hd : LinearData edges noise col N) {b : ι} (hb : b ∈ N) {P : Finset ι}
    (hP : ∀ p, p ∈ P ↔ HasEdge edges p b) (i : Fin n) : col b i = ∑ p ∈ P, weight edges p b * col p i + noise b i := by
  rw [C51_linear_form edges noise col hd.equations b ((hd.vars b).1 hb) i, add_comm]
  congr 1
  exact sum_parents (fun p => col p i) b P edges (fun e he hde => (hP _).2 ⟨e, he, rfl, hde⟩)

/-- what the last step adds to the result of an algorithm on such data -/
theorem LinearData.effects (hd : LinearData edges noise col N) (hm : ∀ v ∈ N, MeanZero (noise v)) {num : ℝ → ρ}
    {g g' : CGraph ι ρ} (hs : Sound (HasEdge edges) g) (hw : WithEffectsIn num col g g') {a b : ι} (hab : g'.Arrow a b)
    (hnl : ∀ c, ¬ g'.Line c b) :
    ∃ m, g'.edgeValue a b = .ok (some m) ∧ m.effect = some (num (weight edges a b)) := by
  have hnl' : ∀ c, ¬ g.Line c b := fun c hc => hnl c ⟨by rw [hw.edges]; exact hc.1, by rw [hw.edges]; exact hc.2⟩
  have hab' : g.Arrow a b := ⟨by rw [← hw.edges]; exact hab.1, by rw [← hw.edges]; exact hab.2⟩
  have hinto := sound_into hd.acyclic hs hnl'
  have hE := hs.arrow a b hab'
  exact withEffects_coefficient hs.wf hw hab' (w := fun p => weight edges p b) (ε := noise b)
    (hd.equation ((hd.vars b).2 (mentioned_dst hE)) hinto)
    (hd.independent hm (fun p hp => (hd.vars p).2 (mentioned_src ((hinto p).1 hp))))
    (fun p hp => hd.orthogonal hm ((hinto p).1 hp))

end Linear
end Verif
