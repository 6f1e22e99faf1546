import Verif.Sample.InitialLemmas4

/-!
# Properties of the initial values of time series

C99: the scale of the initial values.  C100, C101: the variance of the generated values.
-/

namespace Verif
namespace Sample
open Matrix Filter Topology MeasureTheory ProbabilityTheory
variable {ι : Type} [DecidableEq ι]

/-! ## C99: the scale of the initial values -/

/-- **C99 (scale).** For a stable model whose edges point to the past and are distinct, and for every order in which python
iterates over the set of variables, the scales passed to the initial distribution are numbers, at least 1, and equal to the
standard deviation of the variable in every steady series of the model. -/
theorem C99_stationary_scale {edges : List (SEdge ι ℝ)} (hne : edges ≠ []) (hl : ∀ e ∈ edges, e.time < 0)
    (hd : Distinct edges) (hs : Stable edges) {vars : List ι} (hn : vars.Nodup) (hv : ∀ x, x ∈ vars ↔ Mentioned edges x)
    (pinv : PinvFn) (hp : ∀ L n M, IsPinv M (pinv L n M)) :
    ∃ σ : Fin vars.length → ℝ, initialScales pinv edges vars = .ok (fun i => some (σ i)) ∧ (∀ i, 1 ≤ σ i) ∧
      ∀ L : ℕ, (∀ e ∈ edges, -(L : ℤ) ≤ e.time) → ∀ (Ω : Type) [MeasurableSpace Ω] (μ : Measure Ω) [IsProbabilityMeasure μ]
        (X : ι → ℤ → Ω → ℝ) (ε : ι → Ω → ℝ), Steady edges L μ X ε → ∀ i, Var[X vars[i] 0; μ] = σ i ^ 2 := by
  obtain ⟨hL, m, hc, hA, h1⟩ := initialScales_ok hne hl hd hs hn hv pinv hp
  obtain ⟨S, hS⟩ := exists_solution pinv hp hA
  refine ⟨fun i => √(S (⟨0, hL⟩, i) (⟨0, hL⟩, i)), (h1 S hS).2, fun i => ?_, fun L hLe Ω _ μ _ X ε hX i => ?_⟩
  · have := (h1 S hS).1 i
    rwa [Real.one_le_sqrt]
  · have hLL : longestLag edges ≤ L := longestLag_le (fun e he => by
      have := hLe e he
      have := hl e he
      omega)
    have hX' := hX.mono hLL
    rw [hX'.variance_zero hl (fun e he => by have := le_longestLag he; have := hl e he; omega) hL vars[i]
      ((hc.mem _).1 (List.getElem_mem _))]
    have h2 := solution_unique hA (steady_solves hc hX') hS
    have h3 := congrFun (congrFun h2 (⟨0, hL⟩, i)) (⟨0, hL⟩, i)
    simp only [Matrix.of_apply, Nat.cast_zero, sub_zero] at h3
    have h4 := (h1 S hS).1 i
    rw [Real.sq_sqrt (by linarith)]
    exact h3

/-- **C99 (steady series exist).** Every such model has a steady series, for every window. -/
theorem C99_steady_exists {edges : List (SEdge ι ℝ)} (hne : edges ≠ []) (hl : ∀ e ∈ edges, e.time < 0)
    (hd : Distinct edges) (hs : Stable edges) {vars : List ι} (hn : vars.Nodup) (hv : ∀ x, x ∈ vars ↔ Mentioned edges x)
    (L : ℕ) (hL : ∀ e ∈ edges, -(L : ℤ) ≤ e.time) :
    ∃ (Ω : Type) (_ : MeasurableSpace Ω) (μ : Measure Ω) (_ : IsProbabilityMeasure μ) (X : ι → ℤ → Ω → ℝ) (ε : ι → Ω → ℝ),
      Steady edges L μ X ε := by
  obtain ⟨m, hc⟩ := coeffs_at hl hL hd hn hv
  have hL0 : 0 < L := by
    obtain ⟨e, he⟩ := List.exists_mem_of_ne_nil edges hne
    have := hL e he
    have := hl e he
    omega
  have hA := powers_vanish hc hs hL0
  obtain ⟨pinv, hp⟩ := exists_pinvFn
  obtain ⟨S, hS⟩ := exists_solution pinv hp hA
  exact exists_steady hl hL0 hc hA hS

/-- **C99 (one variable).** For a single variable that depends on its last value with the coefficient `a`, the scale is
`√(1 / (1 - a²))`; it is 0 if `a` is 1 or -1, and not a number beyond. -/
theorem C99_single (v : ι) (a : ℝ) (pinv : PinvFn) (hp : ∀ L n M, IsPinv M (pinv L n M)) :
    initialScales pinv [⟨v, v, a, -1⟩] [v] = .ok (fun _ =>
      if |a| < 1 then some (√(1 / (1 - a ^ 2))) else if |a| = 1 then some 0 else none) := by
  have hL : longestLag ([⟨v, v, a, -1⟩] : List (SEdge ι ℝ)) = 1 := rfl
  unfold initialScales
  rw [if_neg (by simp)]
  simp only [coefficients]
  rw [pyIndex_lag (by norm_num) (by rw [hL]; norm_num)]
  simp only
  rw [dif_pos (by rw [hL]; norm_num)]
  congr 1
  funext i
  rw [single_cov hL rfl hp]
  have hi : [v][i] = v := List.mem_singleton.1 (List.getElem_mem _)
  simp only [companion, Matrix.of_apply]
  have h2 : |a| < 1 ↔ a ^ 2 < 1 := (sq_lt_one_iff_abs_lt_one a).symm
  have h3 : |a| = 1 ↔ a ^ 2 = 1 := by
    rw [← sq_abs, show (1 : ℝ) = 1 ^ 2 by norm_num, sq_eq_sq₀ (abs_nonneg a) (by norm_num), one_pow]
  simp only [hi, h2, h3, true_and, and_self, if_true]
  rw [if_pos (show 0 = Int.natAbs (-1) - 1 ∧ True from ⟨rfl, trivial⟩)]
  rcases lt_trichotomy (a ^ 2) 1 with h | h | h
  · have h4 : 0 < (1 - a ^ 2)⁻¹ := inv_pos.2 (by linarith)
    rw [if_neg (not_lt.2 h4.le), if_pos h, one_div]
  · rw [h]
    simp
  · have h4 : (1 - a ^ 2)⁻¹ < 0 := inv_lt_zero.2 (by linarith)
    rw [if_pos h4, if_neg (by linarith), if_neg (by linarith)]

/-- the hypotheses of C99 hold for a variable that depends on its last value with the coefficient 1/2 -/
example : ∃ pinv : PinvFn, (∀ L n M, IsPinv M (pinv L n M)) ∧
    Distinct ([⟨0, 0, 1 / 2, -1⟩] : List (SEdge ℕ ℝ)) ∧ Stable ([⟨0, 0, 1 / 2, -1⟩] : List (SEdge ℕ ℝ)) ∧
    (∀ x, x ∈ [0] ↔ Mentioned ([⟨0, 0, 1 / 2, -1⟩] : List (SEdge ℕ ℝ)) x) ∧
    initialScales pinv [⟨0, 0, 1 / 2, -1⟩] [0] = .ok (fun _ => some (√(4 / 3))) := by
  obtain ⟨pinv, hp⟩ := exists_pinvFn
  have ha : |(1 / 2 : ℝ)| < 1 := by rw [abs_of_pos] <;> norm_num
  refine ⟨pinv, hp, by simp [Distinct], stable_single 0 ha, fun x => by simp [Mentioned, eq_comm], ?_⟩
  rw [C99_single 0 (1 / 2) pinv hp]
  simp only [ha, if_true]
  norm_num

/-- **C99 (edges alike).** The restriction to distinct edges is needed: of two edges with the same source, target and lag the
scale takes only the last into account, but the data add both. -/
theorem C99_edges_alike_fail : ∃ (edges : List (SEdge ℕ ℝ)) (σ : ℝ), edges ≠ [] ∧ (∀ e ∈ edges, e.time < 0) ∧ Stable edges ∧
    (∀ x, x ∈ [0] ↔ Mentioned edges x) ∧
    (∀ pinv : PinvFn, (∀ L n M, IsPinv M (pinv L n M)) → initialScales pinv edges [0] = .ok (fun _ => some σ)) ∧
    ∃ (Ω : Type) (_ : MeasurableSpace Ω) (μ : Measure Ω) (_ : IsProbabilityMeasure μ) (X : ℕ → ℤ → Ω → ℝ) (ε : ℕ → Ω → ℝ),
      Steady edges 1 μ X ε ∧ Var[X 0 0; μ] ≠ σ ^ 2 := by
  let e1 : List (SEdge ℕ ℝ) := [⟨0, 0, 1 / 2, -1⟩, ⟨0, 0, 1 / 4, -1⟩]
  let e2 : List (SEdge ℕ ℝ) := [⟨0, 0, 3 / 4, -1⟩]
  have hin : ∀ x v t, inflow e1 x v t = inflow e2 x v t := by
    intro x v t
    by_cases h : 0 = v
    · simp only [inflow, e1, e2, h, List.filter_cons, decide_true, if_true, List.filter_nil, List.map_cons, List.map_nil,
        List.sum_cons, List.sum_nil]
      ring
    · simp [inflow, e1, e2, h]
  have hme : ∀ v, Mentioned e1 v ↔ Mentioned e2 v := fun v => by simp [Mentioned, e1, e2]
  have ha : |(3 / 4 : ℝ)| < 1 := by rw [abs_of_pos] <;> norm_num
  have hs2 : Stable e2 := stable_single 0 ha
  have hv2 : ∀ x, x ∈ [0] ↔ Mentioned e2 x := fun x => by simp [Mentioned, e2, eq_comm]
  have hd2 : Distinct e2 := by simp [Distinct, e2]
  obtain ⟨pinv, hp⟩ := exists_pinvFn
  obtain ⟨σ, h1, -, h2⟩ := C99_stationary_scale (edges := e2) (by simp [e2]) (by simp [e2]) hd2 hs2 (vars := [0]) (by simp)
    hv2 pinv hp
  obtain ⟨Ω, i1, μ, i2, X, ε, hX⟩ := C99_steady_exists (edges := e2) (by simp [e2]) (by simp [e2]) hd2 hs2 (vars := [0])
    (by simp) hv2 1 (by simp [e2])
  have hX1 : Steady e1 1 μ X ε :=
    ⟨fun v hv => hX.square v ((hme v).1 hv), fun v hv => hX.squareNoise v ((hme v).1 hv),
      fun v hv ω => by rw [hin]; exact hX.equation v ((hme v).1 hv) ω,
      fun v w hv hw => hX.white v w ((hme v).1 hv) ((hme w).1 hw),
      fun v w hv hw => hX.fresh v w ((hme v).1 hv) ((hme w).1 hw),
      fun v w hv hw => hX.shift v w ((hme v).1 hv) ((hme w).1 hw)⟩
  refine ⟨e1, √(16 / 15), by simp [e1], by simp [e1], fun x hx => hs2 x (fun v t ht => by rw [hx v t ht, hin]),
    fun x => by rw [hme]; exact hv2 x, fun pinv hp => ?_, Ω, i1, μ, i2, X, ε, hX1, ?_⟩
  · have h3 : initialScales pinv e1 [0] = initialScales pinv [⟨0, 0, 1 / 4, -1⟩] [0] := by
      unfold initialScales
      rw [if_neg (by simp [e1]), if_neg (by simp)]
      have hL : longestLag e1 = longestLag ([⟨0, 0, 1 / 4, -1⟩] : List (SEdge ℕ ℝ)) := rfl
      rw [hL]
      have hc : coefficients (longestLag ([⟨0, 0, 1 / 4, -1⟩] : List (SEdge ℕ ℝ))) e1 (fun _ _ _ => 0) =
          coefficients (longestLag ([⟨0, 0, 1 / 4, -1⟩] : List (SEdge ℕ ℝ))) [⟨0, 0, 1 / 4, -1⟩] (fun _ _ _ => 0) := by
        simp only [e1, coefficients]
        rw [pyIndex_lag (by norm_num) (by rw [show longestLag ([⟨0, 0, 1 / 4, -1⟩] : List (SEdge ℕ ℝ)) = 1 from rfl]; norm_num)]
        simp only
        congr 1
        funext l a b
        split <;> rfl
      rw [hc]
    have ha' : |(1 / 4 : ℝ)| < 1 := by rw [abs_of_pos] <;> norm_num
    rw [h3, C99_single 0 (1 / 4) pinv hp]
    simp only [ha', if_true]
    norm_num
  · have h5 := h2 1 (by simp [e2]) Ω μ X ε hX ⟨0, by simp⟩
    simp only [Fin.getElem_fin, List.getElem_cons_zero] at h5
    rw [h5]
    rw [C99_single 0 (3 / 4) pinv hp] at h1
    simp only [ha, if_true] at h1
    have h4 := congrFun (Except.ok.inj h1) ⟨0, by simp⟩
    simp only [Option.some.injEq] at h4
    rw [← h4, Real.sq_sqrt (by norm_num), Real.sq_sqrt (by norm_num)]
    norm_num

/-! ## C100, C101: the variance of the generated values -/

/-- **C100 (partial).** For a stable model in which every lag is one and no two edges have the same source, every variable of
the generated series has the same variance at all times, namely the square of the scale of its initial value. -/
theorem C100_constant_variance_partial {edges : List (SEdge ι ℝ)} (hne : edges ≠ []) (h1 : ∀ e ∈ edges, e.time = -1)
    (hsrc : edges.Pairwise (fun e f => e.src ≠ f.src)) (hs : Stable edges) {vars : List ι} (hn : vars.Nodup)
    (hv : ∀ x, x ∈ vars ↔ Mentioned edges x) (pinv : PinvFn) (hp : ∀ L n M, IsPinv M (pinv L n M)) :
    ∃ σ : Fin vars.length → ℝ, initialScales pinv edges vars = .ok (fun i => some (σ i)) ∧
      ∀ (size : ℕ) (Ω : Type) [MeasurableSpace Ω] (μ : Measure Ω) [IsProbabilityMeasure μ] (init : ι → Ω → ℝ)
        (rand : ℕ → Ω → ℝ) (X : ι → ℕ → Ω → ℝ), Draws vars size σ μ init rand → Generated edges vars size init rand X →
        ∀ t, t < size → ∀ i : Fin vars.length, Var[X vars[i] t; μ] = σ i ^ 2 := by
  have hl : ∀ e ∈ edges, e.time < 0 := fun e he => by rw [h1 e he]; norm_num
  have hd := distinct_of_sources hsrc
  obtain ⟨hL, m, hc, hA, h2⟩ := initialScales_ok hne hl hd hs hn hv pinv hp
  obtain ⟨S, hS⟩ := exists_solution pinv hp hA
  have hL1 : longestLag edges = 1 := by
    have : longestLag edges ≤ 1 := longestLag_le (fun e he => by rw [h1 e he]; norm_num)
    omega
  have hSd : ∀ p q, p ≠ q → S p q = 0 := fun p q hpq =>
    solution_diagonal hA hS (noiseBlock_off _ _) (companion_diagonal hL1 hsrc hc) hpq
  have hsq : ∀ i, √(S (⟨0, hL⟩, i) (⟨0, hL⟩, i)) ^ 2 = S (⟨0, hL⟩, i) (⟨0, hL⟩, i) := fun i =>
    Real.sq_sqrt (by have := (h2 S hS).1 i; linarith)
  refine ⟨fun i => √(S (⟨0, hL⟩, i) (⟨0, hL⟩, i)), (h2 S hS).2, fun size Ω _ μ _ init rand X hdr hX t ht i => ?_⟩
  have hc1 : Coeffs edges 1 vars m := by rw [← hL1]; exact hc
  obtain ⟨h3, h4, -⟩ := lagOne_cov (μ := μ) h1 hc1 (d := fun i => S (⟨0, hL⟩, i) (⟨0, hL⟩, i))
    (fun i i' => diagonal_equation hL1 hS hSd i i' hL) (size := size) (init := init) (rand := rand)
    (col := fun ω v t => X v t ω) hdr.squareInit hdr.squareNoise (fun i j => by rw [hdr.initial i j, hsq]) hdr.noise hdr.fresh
    (fun ω => hX.timeSeries hl hn hv (by omega) ω) t ht
  have h5 := h4 i i
  rw [if_pos rfl] at h5
  beta_reduce
  rw [hsq, ← h5, covariance_self (h3 i).1.aemeasurable]

/-- a chain `0 → 1 → 2` satisfies the hypotheses of `C100_constant_variance_partial`, and draws and data exist for it -/
example (pinv : PinvFn) (hp : ∀ L n M, IsPinv M (pinv L n M)) :
    let edges : List (SEdge ℕ ℝ) := [⟨0, 1, 2, -1⟩, ⟨1, 2, 3, -1⟩]
    (∀ e ∈ edges, e.time = -1) ∧ edges.Pairwise (fun e f => e.src ≠ f.src) ∧ Stable edges ∧
    (∀ x, x ∈ [0, 1, 2] ↔ Mentioned edges x) ∧
    ∃ σ, initialScales pinv edges [0, 1, 2] = .ok (fun i => some (σ i)) ∧
      ∃ (Ω : Type) (_ : MeasurableSpace Ω) (μ : Measure Ω) (_ : IsProbabilityMeasure μ) (init : ℕ → Ω → ℝ) (rand : ℕ → Ω → ℝ)
        (X : ℕ → ℕ → Ω → ℝ), Draws [0, 1, 2] 100 σ μ init rand ∧ Generated edges [0, 1, 2] 100 init rand X ∧
        ∀ t, t < 100 → Var[X 2 t; μ] = σ ⟨2, by simp⟩ ^ 2 := by
  intro edges
  have h1 : ∀ e ∈ edges, e.time = -1 := by simp [edges]
  have h2 : edges.Pairwise (fun e f => e.src ≠ f.src) := by simp [edges]
  have h3 : Stable edges := by
    intro x hx v
    have e0 : ∀ t, 0 ≤ t → x 0 t = 0 := fun t ht => by rw [hx 0 t ht]; simp [inflow, edges]
    have e1 : ∀ t, 1 ≤ t → x 1 t = 0 := fun t ht => by
      rw [hx 1 t (by omega)]; simp [inflow, edges, e0 (t + -1) (by omega)]
    have e2 : ∀ t, 2 ≤ t → x 2 t = 0 := fun t ht => by
      rw [hx 2 t (by omega)]; simp [inflow, edges, e1 (t + -1) (by omega)]
    refine tendsto_of_zero_from 2 (fun k hk => ?_)
    by_cases hv : v = 0 ∨ v = 1 ∨ v = 2
    · rcases hv with rfl | rfl | rfl
      · exact e0 _ (by omega)
      · exact e1 _ (by omega)
      · exact e2 _ (by omega)
    · rw [hx v _ (by omega)]
      have : ¬ 1 = v ∧ ¬ 2 = v := by omega
      simp [inflow, edges, this]
  have h4 : ∀ x, x ∈ [0, 1, 2] ↔ Mentioned edges x := by
    intro x
    simp only [Mentioned, edges, List.mem_cons, List.not_mem_nil, or_false, exists_eq_or_imp, exists_eq_left]
    omega
  obtain ⟨σ, h5, h6⟩ := C100_constant_variance_partial (edges := edges) (by simp [edges]) h1 h2 h3 (vars := [0, 1, 2])
    (by simp) h4 pinv hp
  obtain ⟨Ω, i1, μ, i2, init, rand, h7⟩ := exists_draws (vars := [0, 1, 2]) (by simp) 100 σ
  obtain ⟨X, h8⟩ := generated_exists (edges := edges) (fun e he => by rw [h1 e he]; norm_num) (vars := [0, 1, 2]) (by simp) h4
    (size := 100) (by norm_num) init rand
  exact ⟨h1, h2, h3, h4, σ, h5, Ω, i1, μ, i2, init, rand, X, h7, h8,
    fun t ht => h6 100 Ω μ init rand X h7 h8 t ht ⟨2, by simp⟩⟩

/-- **C101 (in the long run).** For every stable model with distinct edges to the past, whatever its lags, the variance of every
variable of the generated series tends to the square of the scale of its initial value. -/
theorem C101_variance_converges {edges : List (SEdge ι ℝ)} (hne : edges ≠ []) (hl : ∀ e ∈ edges, e.time < 0)
    (hd : Distinct edges) (hs : Stable edges) {vars : List ι} (hn : vars.Nodup) (hv : ∀ x, x ∈ vars ↔ Mentioned edges x)
    (pinv : PinvFn) (hp : ∀ L n M, IsPinv M (pinv L n M)) :
    ∃ σ : Fin vars.length → ℝ, initialScales pinv edges vars = .ok (fun i => some (σ i)) ∧
      ∀ δ > 0, ∃ T : ℕ, ∀ (size : ℕ) (Ω : Type) [MeasurableSpace Ω] (μ : Measure Ω) [IsProbabilityMeasure μ] (init : ι → Ω → ℝ)
        (rand : ℕ → Ω → ℝ) (X : ι → ℕ → Ω → ℝ), Draws vars size σ μ init rand → Generated edges vars size init rand X →
        ∀ t, T ≤ t → t < size → ∀ i : Fin vars.length, |Var[X vars[i] t; μ] - σ i ^ 2| < δ := by
  obtain ⟨hL, m, hc, hA, h2⟩ := initialScales_ok hne hl hd hs hn hv pinv hp
  obtain ⟨S, hS⟩ := exists_solution pinv hp hA
  refine ⟨fun i => √(S (⟨0, hL⟩, i) (⟨0, hL⟩, i)), (h2 S hS).2, fun δ hδ => ?_⟩
  let σ : Fin vars.length → ℝ := fun i => √(S (⟨0, hL⟩, i) (⟨0, hL⟩, i))
  have hsq : ∀ i, σ i ^ 2 = S (⟨0, hL⟩, i) (⟨0, hL⟩, i) := fun i =>
    Real.sq_sqrt (by have := (h2 S hS).1 i; linarith)
  let C : Matrix (Idx (longestLag edges) vars.length) (Idx (longestLag edges) vars.length) ℝ :=
    (Matrix.of fun p q => if p.2 = q.2 then σ p.2 ^ 2 else 0) - S
  have hlim := tendsto_sandwich hA C
  have hev : ∀ i : Fin vars.length, ∃ T : ℕ, ∀ t, T ≤ t → |(companion (longestLag edges) vars m ^ t * C *
      (companion (longestLag edges) vars m ^ t)ᵀ) (⟨0, hL⟩, i) (⟨0, hL⟩, i)| < δ := by
    intro i
    have h3 := (((continuous_apply ((⟨0, hL⟩, i) : Idx (longestLag edges) vars.length)).comp
      (continuous_apply ((⟨0, hL⟩, i) : Idx (longestLag edges) vars.length))).tendsto
        (0 : Matrix (Idx (longestLag edges) vars.length) (Idx (longestLag edges) vars.length) ℝ)).comp hlim
    obtain ⟨T, hT⟩ := Metric.tendsto_atTop.1 h3 δ hδ
    refine ⟨T, fun t ht => ?_⟩
    have := hT t ht
    rw [Real.dist_eq] at this
    have h4 : |(companion (longestLag edges) vars m ^ t * C * (companion (longestLag edges) vars m ^ t)ᵀ) (⟨0, hL⟩, i) (⟨0, hL⟩, i)
      - 0| < δ := this
    rwa [sub_zero] at h4
  choose T hT using hev
  refine ⟨Finset.univ.sup T, fun size Ω _ μ _ init rand X hdr hX t ht1 ht2 i => ?_⟩
  obtain ⟨h3, -, h4⟩ := window_cov hl hc hdr (fun ω => hX.timeSeries hl hn hv (by omega) ω) hS t ht2
  have h5 := congrFun (congrFun h4 (⟨0, hL⟩, i)) (⟨0, hL⟩, i)
  rw [Matrix.add_apply] at h5
  simp only [Matrix.of_apply, Nat.sub_zero] at h5
  have h6 := h3 (⟨0, hL⟩, i)
  simp only [Nat.sub_zero] at h6
  rw [covariance_self h6.1.aemeasurable] at h5
  have h7 := hT i t ((Finset.le_sup (Finset.mem_univ i)).trans ht1)
  rw [h5]
  have h8 := hsq i
  simp only [σ] at h8
  rw [h8, add_sub_cancel_left]
  exact h7

/-- **C100 (two lags).** With longer lags the claim fails: where `1` depends on the last two values of `0`, its variance changes
after the first step, because the values before the start are all taken to be the same initial value. -/
theorem C100_two_lags_fail (pinv : PinvFn) (hp : ∀ L n M, IsPinv M (pinv L n M)) :
    let edges : List (SEdge ℕ ℝ) := [⟨0, 1, 1, -1⟩, ⟨0, 1, 1, -2⟩]
    Distinct edges ∧ Stable edges ∧ (∀ x, x ∈ [0, 1] ↔ Mentioned edges x) ∧
    ∃ σ, initialScales pinv edges [0, 1] = .ok (fun i => some (σ i)) ∧
      (∃ (Ω : Type) (_ : MeasurableSpace Ω) (μ : Measure Ω) (_ : IsProbabilityMeasure μ) (init : ℕ → Ω → ℝ) (rand : ℕ → Ω → ℝ)
        (X : ℕ → ℕ → Ω → ℝ), Draws [0, 1] 2 σ μ init rand ∧ Generated edges [0, 1] 2 init rand X) ∧
      ∀ (Ω : Type) [MeasurableSpace Ω] (μ : Measure Ω) [IsProbabilityMeasure μ] (init : ℕ → Ω → ℝ) (rand : ℕ → Ω → ℝ)
        (X : ℕ → ℕ → Ω → ℝ), Draws [0, 1] 2 σ μ init rand → Generated edges [0, 1] 2 init rand X →
        Var[X 1 0; μ] = 3 ∧ Var[X 1 1; μ] = 5 := by
  intro edges
  have hl : ∀ e ∈ edges, e.time < 0 := by simp [edges]
  have hd : Distinct edges := by simp [Distinct, edges]
  have hs : Stable edges := by
    intro x hx v
    have e0 : ∀ t, 0 ≤ t → x 0 t = 0 := fun t ht => by rw [hx 0 t ht]; simp [inflow, edges]
    have e1 : ∀ t, 2 ≤ t → x 1 t = 0 := fun t ht => by
      rw [hx 1 t (by omega)]; simp [inflow, edges, e0 (t + -1) (by omega), e0 (t + -2) (by omega)]
    refine tendsto_of_zero_from 2 (fun k hk => ?_)
    by_cases hv : v = 0 ∨ v = 1
    · rcases hv with rfl | rfl
      · exact e0 _ (by omega)
      · exact e1 _ (by omega)
    · rw [hx v _ (by omega)]
      have : ¬ 1 = v := by omega
      simp [inflow, edges, this]
  have hv : ∀ x, x ∈ [0, 1] ↔ Mentioned edges x := by
    intro x
    simp only [Mentioned, edges, List.mem_cons, List.not_mem_nil, or_false, exists_eq_or_imp, exists_eq_left]
    omega
  have m0 : Mentioned edges 0 := (hv 0).1 (by simp)
  have m1 : Mentioned edges 1 := (hv 1).1 (by simp)
  obtain ⟨σ, h1, -, h2⟩ := C99_stationary_scale (by simp [edges]) hl hd hs (vars := [0, 1]) (by simp) hv pinv hp
  have hL : ∀ e ∈ edges, -((2 : ℕ) : ℤ) ≤ e.time := by simp [edges]
  have hσ : σ ⟨0, by simp⟩ ^ 2 = 1 ∧ σ ⟨1, by simp⟩ ^ 2 = 3 := by
    obtain ⟨Ω, i1, μ, i2, X, ε, hX⟩ := C99_steady_exists (by simp [edges]) hl hd hs (vars := [0, 1]) (by simp) hv 2 hL
    have g0 := h2 2 hL Ω μ X ε hX ⟨0, by simp⟩
    have g1 := h2 2 hL Ω μ X ε hX ⟨1, by simp⟩
    simp only [Fin.getElem_fin, List.getElem_cons_zero, List.getElem_cons_succ] at g0 g1
    have x0 : X 0 0 = ε 0 := funext fun ω => by rw [hX.equation 0 m0 ω]; simp [inflow, edges]
    have x1 : X 1 0 = fun ω => X 0 (-1) ω + X 0 (-2) ω + ε 1 ω := funext fun ω => by
      rw [hX.equation 1 m1 ω]; simp [inflow, edges]
    have s1 := hX.shift 0 0 m0 m0 (-1) (-1) (by norm_num) (by norm_num) (by norm_num) (by norm_num)
    have s2 := hX.shift 0 0 m0 m0 (-2) (-2) (by norm_num) (by norm_num) (by norm_num) (by norm_num)
    have s3 := hX.shift 0 0 m0 m0 (-1) (-2) (by norm_num) (by norm_num) (by norm_num) (by norm_num)
    norm_num at s1 s2 s3
    have w0 := hX.white 0 0 m0 m0
    have w1 := hX.white 1 1 m1 m1
    have f0 := hX.fresh 0 0 m0 m0 (-1) (by norm_num) (by norm_num)
    have f1 := hX.fresh 0 1 m0 m1 (-1) (by norm_num) (by norm_num)
    have f2 := hX.fresh 0 1 m0 m1 (-2) (by norm_num) (by norm_num)
    rw [x0, w0, if_pos rfl] at s1
    rw [x0, covariance_comm, f0] at s3
    rw [if_pos rfl] at w1
    refine ⟨?_, ?_⟩
    · rw [← g0, x0, ← covariance_self (hX.squareNoise 0 m0).1.aemeasurable, w0, if_pos rfl]
    · rw [← g1, x1, var3 (hX.square 0 m0 (-1) (by norm_num) (by norm_num)) (hX.square 0 m0 (-2) (by norm_num) (by norm_num))
        (hX.squareNoise 1 m1), ← s2, ← s1, ← s3, w1, f1, f2]
      norm_num
  refine ⟨hd, hs, hv, σ, h1, ?_, fun Ω _ μ _ init rand X hdr hX => ?_⟩
  · obtain ⟨Ω, i1, μ, i2, init, rand, h7⟩ := exists_draws (vars := [0, 1]) (by simp) 2 σ
    obtain ⟨X, h8⟩ := generated_exists hl (vars := [0, 1]) (by simp) hv (size := 2) (by norm_num) init rand
    exact ⟨Ω, i1, μ, i2, init, rand, X, h7, h8⟩
  · have hT := hX.timeSeries hl (by simp) hv (by norm_num)
    have d0 := hdr.initial ⟨0, by simp⟩ ⟨0, by simp⟩
    have d1 := hdr.initial ⟨1, by simp⟩ ⟨1, by simp⟩
    have q0 := hdr.squareInit ⟨0, by simp⟩
    have q1 := hdr.squareInit ⟨1, by simp⟩
    have qr := hdr.squareNoise 1 (by simp)
    have dr := hdr.noise 1 1 (by simp) (by simp)
    have df := hdr.fresh ⟨0, by simp⟩ 1 (by simp)
    simp only [Fin.getElem_fin, List.getElem_cons_zero, List.getElem_cons_succ, if_true] at d0 d1 q0 q1 qr dr df
    have x0 : X 1 0 = init 1 := funext fun ω => (hT ω 1 m1).1
    have x1 : X 1 1 = fun ω => init 0 ω + init 0 ω + rand 1 ω := funext fun ω => by
      have := (hT ω 1 m1).2 1 (by norm_num) (by norm_num)
      have h0 := (hT ω 0 m0).1
      simp only [edges] at this
      refine this.trans ?_
      norm_num
      exact h0
    refine ⟨?_, ?_⟩
    · rw [x0, ← covariance_self q1.1.aemeasurable, d1, hσ.2]
    · rw [x1, var3 q0 q0 qr, d0, hσ.1, dr, df]
      norm_num

/-- **C100 (common source).** With two edges from the same source the claim fails even if every lag is one: where `3` depends on
`1` and `2`, which both depend on `0`, its variance changes after the first step, because the initial values of `1` and `2` are
drawn independently. -/
theorem C100_common_source_fail (pinv : PinvFn) (hp : ∀ L n M, IsPinv M (pinv L n M)) :
    let edges : List (SEdge ℕ ℝ) := [⟨0, 1, 1, -1⟩, ⟨0, 2, 1, -1⟩, ⟨1, 3, 1, -1⟩, ⟨2, 3, 1, -1⟩]
    Distinct edges ∧ Stable edges ∧ (∀ x, x ∈ [0, 1, 2, 3] ↔ Mentioned edges x) ∧
    ∃ σ, initialScales pinv edges [0, 1, 2, 3] = .ok (fun i => some (σ i)) ∧
      (∃ (Ω : Type) (_ : MeasurableSpace Ω) (μ : Measure Ω) (_ : IsProbabilityMeasure μ) (init : ℕ → Ω → ℝ) (rand : ℕ → Ω → ℝ)
        (X : ℕ → ℕ → Ω → ℝ), Draws [0, 1, 2, 3] 2 σ μ init rand ∧ Generated edges [0, 1, 2, 3] 2 init rand X) ∧
      ∀ (Ω : Type) [MeasurableSpace Ω] (μ : Measure Ω) [IsProbabilityMeasure μ] (init : ℕ → Ω → ℝ) (rand : ℕ → Ω → ℝ)
        (X : ℕ → ℕ → Ω → ℝ), Draws [0, 1, 2, 3] 2 σ μ init rand → Generated edges [0, 1, 2, 3] 2 init rand X →
        Var[X 3 0; μ] = 7 ∧ Var[X 3 1; μ] = 5 := by
  intro edges
  have hl : ∀ e ∈ edges, e.time < 0 := by simp [edges]
  have hd : Distinct edges := by simp [Distinct, edges]
  have hs : Stable edges := by
    intro x hx v
    have e0 : ∀ t, 0 ≤ t → x 0 t = 0 := fun t ht => by rw [hx 0 t ht]; simp [inflow, edges]
    have e1 : ∀ t, 1 ≤ t → x 1 t = 0 := fun t ht => by
      rw [hx 1 t (by omega)]; simp [inflow, edges, e0 (t + -1) (by omega)]
    have e2 : ∀ t, 1 ≤ t → x 2 t = 0 := fun t ht => by
      rw [hx 2 t (by omega)]; simp [inflow, edges, e0 (t + -1) (by omega)]
    have e3 : ∀ t, 2 ≤ t → x 3 t = 0 := fun t ht => by
      rw [hx 3 t (by omega)]; simp [inflow, edges, e1 (t + -1) (by omega), e2 (t + -1) (by omega)]
    refine tendsto_of_zero_from 2 (fun k hk => ?_)
    by_cases hv : v = 0 ∨ v = 1 ∨ v = 2 ∨ v = 3
    · rcases hv with rfl | rfl | rfl | rfl
      · exact e0 _ (by omega)
      · exact e1 _ (by omega)
      · exact e2 _ (by omega)
      · exact e3 _ (by omega)
    · rw [hx v _ (by omega)]
      have : ¬ 1 = v ∧ ¬ 2 = v ∧ ¬ 3 = v := by omega
      simp [inflow, edges, this]
  have hv : ∀ x, x ∈ [0, 1, 2, 3] ↔ Mentioned edges x := by
    intro x
    simp only [Mentioned, edges, List.mem_cons, List.not_mem_nil, or_false, exists_eq_or_imp, exists_eq_left]
    omega
  have m0 : Mentioned edges 0 := (hv 0).1 (by simp)
  have m1 : Mentioned edges 1 := (hv 1).1 (by simp)
  have m2 : Mentioned edges 2 := (hv 2).1 (by simp)
  have m3 : Mentioned edges 3 := (hv 3).1 (by simp)
  obtain ⟨σ, h1, -, h2⟩ := C99_stationary_scale (by simp [edges]) hl hd hs (vars := [0, 1, 2, 3]) (by simp) hv pinv hp
  have hL : ∀ e ∈ edges, -((1 : ℕ) : ℤ) ≤ e.time := by simp [edges]
  have hσ : σ ⟨1, by simp⟩ ^ 2 = 2 ∧ σ ⟨2, by simp⟩ ^ 2 = 2 ∧ σ ⟨3, by simp⟩ ^ 2 = 7 := by
    obtain ⟨Ω, i1, μ, i2, X, ε, hX⟩ := C99_steady_exists (by simp [edges]) hl hd hs (vars := [0, 1, 2, 3]) (by simp) hv 1 hL
    have g1 := h2 1 hL Ω μ X ε hX ⟨1, by simp⟩
    have g2 := h2 1 hL Ω μ X ε hX ⟨2, by simp⟩
    have g3 := h2 1 hL Ω μ X ε hX ⟨3, by simp⟩
    simp only [Fin.getElem_fin, List.getElem_cons_zero, List.getElem_cons_succ] at g1 g2 g3
    have x0 : X 0 0 = ε 0 := funext fun ω => by rw [hX.equation 0 m0 ω]; simp [inflow, edges]
    have x1 : X 1 0 = X 0 (-1) + ε 1 := funext fun ω => by rw [hX.equation 1 m1 ω]; simp [inflow, edges]
    have x2 : X 2 0 = X 0 (-1) + ε 2 := funext fun ω => by rw [hX.equation 2 m2 ω]; simp [inflow, edges]
    have x3 : X 3 0 = fun ω => X 1 (-1) ω + X 2 (-1) ω + ε 3 ω := funext fun ω => by
      rw [hX.equation 3 m3 ω]; simp [inflow, edges]
    have sh := fun v w (hv : Mentioned edges v) (hw : Mentioned edges w) =>
      hX.shift v w hv hw (-1) (-1) (by norm_num) (by norm_num) (by norm_num) (by norm_num)
    simp only [Int.reduceNeg, neg_add_cancel] at sh
    have fr := fun v w (hv : Mentioned edges v) (hw : Mentioned edges w) =>
      hX.fresh v w hv hw (-1) (by norm_num) (by norm_num)
    have sq := fun v (hv : Mentioned edges v) => hX.square v hv (-1) (by norm_num) (by norm_num)
    have sn := hX.squareNoise
    have c0 : cov[X 0 (-1), X 0 (-1); μ] = 1 := by rw [← sh 0 0 m0 m0, x0, hX.white 0 0 m0 m0, if_pos rfl]
    have cc : ∀ v w, Mentioned edges v → Mentioned edges w →
        cov[X 0 (-1) + ε v, X 0 (-1) + ε w; μ] = 1 + if v = w then 1 else 0 := by
      intro v w hv hw
      rw [covariance_add_left (sq 0 m0) (sn v hv) ((sq 0 m0).add (sn w hw)),
        covariance_add_right (sq 0 m0) (sq 0 m0) (sn w hw), covariance_add_right (sn v hv) (sq 0 m0) (sn w hw),
        c0, fr 0 w m0 hw, covariance_comm (X := ε v) (Y := X 0 (-1)), fr 0 v m0 hv, hX.white v w hv hw]
      ring
    have c11 : cov[X 1 (-1), X 1 (-1); μ] = 2 := by rw [← sh 1 1 m1 m1, x1, cc 1 1 m1 m1]; norm_num
    have c22 : cov[X 2 (-1), X 2 (-1); μ] = 2 := by rw [← sh 2 2 m2 m2, x2, cc 2 2 m2 m2]; norm_num
    have c12 : cov[X 1 (-1), X 2 (-1); μ] = 1 := by rw [← sh 1 2 m1 m2, x1, x2, cc 1 2 m1 m2]; norm_num
    refine ⟨?_, ?_, ?_⟩
    · rw [← g1, hX.variance_zero hl hL (by norm_num) 1 m1, c11]
    · rw [← g2, hX.variance_zero hl hL (by norm_num) 2 m2, c22]
    · rw [← g3, x3, var3 (sq 1 m1) (sq 2 m2) (sn 3 m3), c11, c22, c12, fr 1 3 m1 m3, fr 2 3 m2 m3, hX.white 3 3 m3 m3]
      norm_num
  refine ⟨hd, hs, hv, σ, h1, ?_, fun Ω _ μ _ init rand X hdr hX => ?_⟩
  · obtain ⟨Ω, i1, μ, i2, init, rand, h7⟩ := exists_draws (vars := [0, 1, 2, 3]) (by simp) 2 σ
    obtain ⟨X, h8⟩ := generated_exists hl (vars := [0, 1, 2, 3]) (by simp) hv (size := 2) (by norm_num) init rand
    exact ⟨Ω, i1, μ, i2, init, rand, X, h7, h8⟩
  · have hT := hX.timeSeries hl (by simp) hv (by norm_num)
    have d1 := hdr.initial ⟨1, by simp⟩ ⟨1, by simp⟩
    have d2 := hdr.initial ⟨2, by simp⟩ ⟨2, by simp⟩
    have d3 := hdr.initial ⟨3, by simp⟩ ⟨3, by simp⟩
    have d12 := hdr.initial ⟨1, by simp⟩ ⟨2, by simp⟩
    have q1 := hdr.squareInit ⟨1, by simp⟩
    have q2 := hdr.squareInit ⟨2, by simp⟩
    have q3 := hdr.squareInit ⟨3, by simp⟩
    have qr := hdr.squareNoise 3 (by simp)
    have dr := hdr.noise 3 3 (by simp) (by simp)
    have df1 := hdr.fresh ⟨1, by simp⟩ 3 (by simp)
    have df2 := hdr.fresh ⟨2, by simp⟩ 3 (by simp)
    rw [if_neg (by simp)] at d12
    simp only [Fin.getElem_fin, List.getElem_cons_zero, List.getElem_cons_succ, if_true] at d1 d2 d3 d12 q1 q2 q3 qr dr df1 df2
    have x0 : X 3 0 = init 3 := funext fun ω => (hT ω 3 m3).1
    have x1 : X 3 1 = fun ω => init 1 ω + init 2 ω + rand 3 ω := funext fun ω => by
      have := (hT ω 3 m3).2 1 (by norm_num) (by norm_num)
      have g1 := (hT ω 1 m1).1
      have g2 := (hT ω 2 m2).1
      simp only [edges] at this
      refine this.trans ?_
      norm_num
      exact congrArg₂ (· + ·) g1 g2
    refine ⟨?_, ?_⟩
    · rw [x0, ← covariance_self q3.1.aemeasurable, d3, hσ.2.2]
    · rw [x1, var3 q1 q2 qr, d1, d2, d12, hσ.1, hσ.2.1, dr, df1, df2]
      norm_num

end Sample
end Verif
