import Verif.Rounding.Limits
import Verif.EndToEnd.Props

/-!
# The sample generator with rounding errors
-/

namespace Verif
namespace Rounding
open Filter Topology Sample
variable {ι : Type} [DecidableEq ι] {n : ℕ} {Φ : ℝ → ℝ}

/-- `IIDSampleGenerator.generate` (sample_generator.py:160-229) with the additions and multiplications of an arithmetic; the
model is that of exact arithmetic, which leaves open what the two operations are -/
def generate (A : Arith) {δ : Type} (m0 : δ) (size : ℕ) (rand : ℕ → ℝ) (edges : List (SEdge ι ℝ)) (vars : List ι) :
    Except PyErr (Dict ι (Fin size → ℝ) × Graph ι δ) :=
  @iidGenerate ι ℝ _ ⟨A.add⟩ ⟨A.mul⟩ δ m0 size rand edges vars

/-- the equations of the generator with rounding: the terms are added in the order of the edges, and every product and every
sum is rounded -/
def RoundedEquations (A : Arith) (edges : List (SEdge ι ℝ)) (noise col : ι → Fin n → ℝ) : Prop :=
  ∀ v, Mentioned edges v → ∀ i, col v i =
    (edges.filter (fun e => e.dst = v)).foldl (fun acc e => A.add acc (A.mul e.value (col e.src i))) (noise v i)

/-- the generator does not raise, whatever the arithmetic, and its columns satisfy the equations with rounding -/
theorem generate_ok (A : Arith) {δ : Type} (m0 : δ) {edges : List (SEdge ι ℝ)} {vars : List ι} (hv : TopologicalOrder edges vars)
    (rand : ℕ → ℝ) :
    ∃ (out : Dict ι (Fin n → ℝ)) (sample : Graph ι δ) (col : ι → Fin n → ℝ), generate A m0 n rand edges vars = .ok (out, sample) ∧
      (∀ a b, sample.directedEdgeExists a b = true ↔ HasEdge edges a b) ∧ out.keys = vars ∧
      (∀ v ∈ vars, out.get? v = some (col v)) ∧ RoundedEquations A edges (EndToEnd.draws n rand vars) col := by
  obtain ⟨out, sample, h1, h2, h3, h4, h5⟩ := @C51_graph ι ℝ _ ⟨A.add⟩ ⟨A.mul⟩ δ m0 edges vars hv n rand
  obtain ⟨out', col, g1, g2, g3, g4, g5⟩ := @C51_structural_equations ι ℝ _ ⟨A.add⟩ ⟨A.mul⟩ edges vars hv n rand
  obtain rfl : out = out' := by
    rw [h2] at g1
    cases g1
    rfl
  exact ⟨out, sample, col, h1, h4, g2, g3, g4⟩

/-- with increasing precision the columns converge to the exact ones -/
theorem columns_tendsto {κ : Type} {l : Filter κ} {A : κ → Arith} {u : κ → ℝ} (h : Improving l A u Φ)
    {edges : List (SEdge ι ℝ)} {vars : List ι} (hv : TopologicalOrder edges vars) {noise col : ι → Fin n → ℝ}
    (hst : Structural edges noise col) {noise' col' : κ → ι → Fin n → ℝ}
    (hst' : ∀ k, RoundedEquations (A k) edges (noise' k) (col' k))
    (hn : ∀ v ∈ vars, ∀ i, Tendsto (fun k => noise' k v i) l (𝓝 (noise v i))) :
    ∀ v ∈ vars, ∀ i, Tendsto (fun k => col' k v i) l (𝓝 (col v i)) := by
  have key : ∀ m, ∀ v ∈ vars, vars.idxOf v < m → ∀ i, Tendsto (fun k => col' k v i) l (𝓝 (col v i)) := by
    intro m
    induction m with
    | zero => intro v _ hm; omega
    | succ m ih =>
      intro v hvm hm i
      have hmen := (hv.2.1 v).1 hvm
      have hsrc : ∀ e ∈ edges.filter (fun e => e.dst = v), Tendsto (fun k => col' k e.src i) l (𝓝 (col e.src i)) := by
        intro e he
        obtain ⟨he, hd⟩ := List.mem_filter.1 he
        have hd' : e.dst = v := by simpa using hd
        have hlt := hv.2.2 e.src v ⟨e, he, rfl, hd'⟩
        exact ih e.src ((hv.2.1 _).2 ⟨e, he, Or.inl rfl⟩) (by omega) i
      have hfold : ∀ es : List (SEdge ι ℝ), (∀ e ∈ es, Tendsto (fun k => col' k e.src i) l (𝓝 (col e.src i))) →
          ∀ (a' : κ → ℝ) (a : ℝ), Tendsto a' l (𝓝 a) →
          Tendsto (fun k => es.foldl (fun acc e => (A k).add acc ((A k).mul e.value (col' k e.src i))) (a' k)) l
            (𝓝 (es.foldl (fun acc e => acc + e.value * col e.src i) a)) := by
        intro es
        induction es with
        | nil => intro _ a' a ha; exact ha
        | cons e es ihe =>
          intro hes a' a ha
          exact ihe (fun e' he' => hes e' (List.mem_cons_of_mem _ he')) _ _
            (h.add ha (h.mul tendsto_const_nhds (hes e List.mem_cons_self)))
      rw [hst v hmen i]
      simp only [hst' _ v hmen i]
      exact hfold _ hsrc _ _ (hn v hvm i)
  exact fun v hvm i => key _ v hvm (Nat.lt_succ_self _) i

/-- The same with numbers. -/
theorem columns_delta {edges : List (SEdge ι ℝ)} {vars : List ι} (hv : TopologicalOrder edges vars) {noise col : ι → Fin n → ℝ}
    (hst : Structural edges noise col) {η : ℝ} (hη : 0 < η) :
    ∃ δ > 0, ∀ (A : Arith) (u : ℝ), 0 < u → u < δ → A.Precise Φ u → ∀ noise' col' : ι → Fin n → ℝ,
      (∀ v ∈ vars, ∀ i, |noise' v i - noise v i| < δ) → RoundedEquations A edges noise' col' →
      ∀ v ∈ vars, ∀ i, |col' v i - col v i| < η := by
  by_contra hno
  push Not at hno
  have hk : ∀ k : ℕ, (0 : ℝ) < 1 / (k + 1) := fun k => by positivity
  choose A u hu1 hu2 hA noise' col' hnoise heq v hvm i hbad using fun k : ℕ => hno (1 / (k + 1)) (hk k)
  have hlim : Tendsto (fun k : ℕ => 1 / ((k : ℝ) + 1)) atTop (𝓝 0) := tendsto_one_div_add_atTop_nhds_zero_nat
  have himp : Improving atTop A u Φ :=
    ⟨hu1, squeeze_zero (fun k => (hu1 k).le) (fun k => (hu2 k).le) hlim, hA⟩
  have ht := columns_tendsto himp hv hst heq (fun w hw j => by
    have h0 : Tendsto (fun k => noise' k w j - noise w j) atTop (𝓝 0) :=
      squeeze_zero_norm (fun k => (hnoise k w hw j).le) hlim
    simpa using h0.add_const (noise w j))
  have hall : ∀ᶠ k in atTop, ∀ w ∈ vars.toFinset, ∀ j ∈ (Finset.univ : Finset (Fin n)), |col' k w j - col w j| < η := by
    refine (Filter.eventually_all_finset _).2 (fun w hw => (Filter.eventually_all_finset _).2 (fun j _ => ?_))
    have := (ht w (List.mem_toFinset.1 hw) j).sub_const (col w j)
    rw [sub_self] at this
    have h2 := this.abs
    rw [abs_zero] at h2
    exact h2.eventually (gt_mem_nhds hη)
  obtain ⟨k, hk⟩ := hall.exists
  exact absurd (hk (v k) (List.mem_toFinset.2 (hvm k)) (i k) (Finset.mem_univ _)) (not_lt.2 (hbad k))

end Rounding
end Verif
