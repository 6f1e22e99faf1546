import Verif.Sample.InitialLemmas2
import Verif.Sample.Steady

/-!
# Consequences for the properties
-/

namespace Verif
namespace Sample
open Matrix Filter Topology MeasureTheory ProbabilityTheory
variable {ι : Type} [DecidableEq ι]

theorem Steady.mono {Ω : Type} [MeasurableSpace Ω] {edges : List (SEdge ι ℝ)} {L L' : ℕ} (h : L' ≤ L) {μ : Measure Ω}
    {X : ι → ℤ → Ω → ℝ} {ε : ι → Ω → ℝ} (hX : Steady edges L μ X ε) : Steady edges L' μ X ε where
  square v hv t h1 h2 := hX.square v hv t (by omega) h2
  squareNoise := hX.squareNoise
  equation := hX.equation
  white := hX.white
  fresh v w hv hw t h1 h2 := hX.fresh v w hv hw t (by omega) h2
  shift v w hv hw s t h1 h2 h3 h4 := hX.shift v w hv hw s t (by omega) h2 (by omega) h4

theorem coeffs_at {edges : List (SEdge ι ℝ)} (hl : ∀ e ∈ edges, e.time < 0) {L : ℕ} (hL : ∀ e ∈ edges, -(L : ℤ) ≤ e.time)
    (hd : Distinct edges) {vars : List ι} (hn : vars.Nodup) (hv : ∀ x, x ∈ vars ↔ Mentioned edges x) :
    ∃ m, Coeffs edges L vars m := by
  have hL' : ∀ e ∈ edges, e.time.natAbs ≤ L := fun e he => by
    have := hL e he
    have := hl e he
    omega
  obtain ⟨m, h1, h2⟩ := coefficients_ok L edges (fun _ _ _ => 0) hl hL' hd (fun _ _ => rfl)
  exact ⟨m, hn, hv, fun x v t => sum_coefficients _ edges m hl hL' vars hn
    (fun e he => (hv _).2 ⟨e, he, Or.inl rfl⟩) (fun l a b => by rw [h2, zero_add]) x v t⟩

/-- the value at time 0 is square integrable -/
theorem Steady.memLp_zero {Ω : Type} [MeasurableSpace Ω] {edges : List (SEdge ι ℝ)} {L : ℕ} {μ : Measure Ω}
    {X : ι → ℤ → Ω → ℝ} {ε : ι → Ω → ℝ} (hX : Steady edges L μ X ε) (hl : ∀ e ∈ edges, e.time < 0)
    (hL : ∀ e ∈ edges, -(L : ℤ) ≤ e.time) (v : ι) (hv : Mentioned edges v) : MemLp (X v 0) 2 μ := by
  have h1 : X v 0 = fun ω => inflow edges (fun w t => X w t ω) v 0 + ε v ω := funext (hX.equation v hv)
  rw [h1]
  refine MemLp.add ?_ (hX.squareNoise v hv)
  unfold inflow
  have key : ∀ es : List (SEdge ι ℝ), (∀ e ∈ es, e ∈ edges) →
      MemLp (fun ω => (es.map (fun e => e.value * X e.src (0 + e.time) ω)).sum) 2 μ := by
    intro es hes
    induction es with
    | nil => simp
    | cons e es ih =>
      simp only [List.map_cons, List.sum_cons]
      have he := hes e List.mem_cons_self
      refine MemLp.add ?_ (ih (fun f hf => hes f (List.mem_cons_of_mem _ hf)))
      have := hl e he
      have := hL e he
      exact (hX.square e.src ⟨e, he, Or.inl rfl⟩ (0 + e.time) (by omega) (by omega)).const_mul _
  exact key _ (fun e he => (List.mem_filter.1 he).1)

/-- the variance at time 0 is the variance at time -1 -/
theorem Steady.variance_zero {Ω : Type} [MeasurableSpace Ω] {edges : List (SEdge ι ℝ)} {L : ℕ} {μ : Measure Ω}
    {X : ι → ℤ → Ω → ℝ} {ε : ι → Ω → ℝ} (hX : Steady edges L μ X ε) (hl : ∀ e ∈ edges, e.time < 0)
    (hL : ∀ e ∈ edges, -(L : ℤ) ≤ e.time) (hL0 : 0 < L) (v : ι) (hv : Mentioned edges v) :
    Var[X v 0; μ] = cov[X v (-1), X v (-1); μ] := by
  rw [← covariance_self (hX.memLp_zero hl hL v hv).1.aemeasurable]
  exact hX.shift v v hv hv (-1) (-1) (by omega) (by omega) (by omega) (by omega)

/-- in a model with one lag where no two edges share a source, the matrix keeps diagonal matrices diagonal -/
theorem companion_diagonal {edges : List (SEdge ι ℝ)} {L : ℕ} (hL : L = 1) (hsrc : edges.Pairwise (fun e f => e.src ≠ f.src))
    {vars : List ι} {m : ℕ → ι → ι → ℝ} (hc : Coeffs edges L vars m) (D : Matrix (Idx L vars.length) (Idx L vars.length) ℝ)
    (hD : ∀ p q, p ≠ q → D p q = 0) (p q : Idx L vars.length) (hpq : p ≠ q) :
    (companion L vars m * D * (companion L vars m)ᵀ) p q = 0 := by
  subst hL
  simp only [mul_apply, transpose_apply, Finset.sum_mul]
  refine Finset.sum_eq_zero (fun r _ => Finset.sum_eq_zero (fun s _ => ?_))
  by_cases hrs : s = r
  · subst hrs
    obtain ⟨l, i⟩ := p
    obtain ⟨l', j⟩ := q
    obtain ⟨k, x⟩ := s
    have hl : l = 0 := Subsingleton.elim _ _
    have hl' : l' = 0 := Subsingleton.elim _ _
    have hk : k = 0 := Subsingleton.elim _ _
    subst hl hl' hk
    have hij : i ≠ j := fun h => hpq (by rw [h])
    simp only [companion, Matrix.of_apply, Fin.val_zero, if_true]
    by_cases h1 : m 0 vars[i] vars[x] = 0
    · rw [h1]; ring
    · by_cases h2 : m 0 vars[j] vars[x] = 0
      · rw [h2]; ring
      · exfalso
        obtain ⟨e, he, e1, e2⟩ := coeff_edge hc (0 : Fin 1) vars[i] x h1
        obtain ⟨f, hf, f1, f2⟩ := coeff_edge hc (0 : Fin 1) vars[j] x h2
        have hef : e ≠ f := by
          rintro rfl
          have h3 : vars[i] = vars[j] := e1.symm.trans f1
          rw [Fin.getElem_fin, Fin.getElem_fin, hc.nodup.getElem_inj_iff] at h3
          exact hij (Fin.ext h3)
        have : Std.Symm (fun e f : SEdge ι ℝ => e.src ≠ f.src) := ⟨fun _ _ h => h.symm⟩
        exact hsrc.forall he hf hef (e2.trans f2.symm)
  · rw [hD s r hrs]
    ring

theorem distinct_of_sources {edges : List (SEdge ι ℝ)} (h : edges.Pairwise (fun e f => e.src ≠ f.src)) : Distinct edges :=
  h.imp (fun h h' => h h'.1)

/-- the equation for the diagonal of a diagonal solution -/
theorem diagonal_equation {L : ℕ} (hL : L = 1) {vars : List ι} {m : ℕ → ι → ι → ℝ}
    {S : Matrix (Idx L vars.length) (Idx L vars.length) ℝ}
    (hS : S = companion L vars m * S * (companion L vars m)ᵀ + noiseBlock L vars.length)
    (hD : ∀ p q, p ≠ q → S p q = 0) (i i' : Fin vars.length) (h0 : 0 < L) :
    (if i = i' then S (⟨0, h0⟩, i) (⟨0, h0⟩, i) else 0) =
      (∑ j : Fin vars.length, m 0 vars[i] vars[j] * m 0 vars[i'] vars[j] * S (⟨0, h0⟩, j) (⟨0, h0⟩, j)) +
        if i = i' then 1 else 0 := by
  subst hL
  have h1 := congrFun (congrFun hS (0, i)) (0, i')
  have h2 : S (0, i) (0, i') = if i = i' then S (0, i) (0, i) else 0 := by
    by_cases h : i = i'
    · subst h; simp
    · rw [if_neg h]
      exact hD _ _ (fun h' => h (Prod.ext_iff.1 h').2)
  refine Eq.trans (Eq.trans h2.symm h1) ?_
  rw [Matrix.add_apply]
  congr 1
  · simp only [mul_apply, transpose_apply, Fintype.sum_prod_type, Fin.sum_univ_one, companion, Matrix.of_apply, Fin.val_zero,
      if_true]
    refine Finset.sum_congr rfl (fun j _ => ?_)
    rw [Finset.sum_eq_single j]
    · rw [show (⟨0, h0⟩ : Fin 1) = 0 from rfl]; ring
    · intro k _ hk
      rw [hD _ _ (fun h => hk (Prod.ext_iff.1 h).2), mul_zero]
    · simp
  · simp [noiseBlock]

/-- the covariance matrix of a model with one variable and one lag -/
theorem single_cov {L n : ℕ} (hL : L = 1) (hn : n = 1) {pinv : PinvFn} (hp : ∀ L n M, IsPinv M (pinv L n M))
    (A : Matrix (Idx L n) (Idx L n) ℝ) (p : Idx L n) : covarianceMatrix pinv A p p = (1 - A p p ^ 2)⁻¹ := by
  subst hL hn
  have hpinv := hp 1 1 (1 - kroneckerMap (· * ·) A A)
  have h1 := congrFun (congrFun hpinv.mpm (p, p)) (p, p)
  have h2 := congrFun (congrFun hpinv.pmp (p, p)) (p, p)
  have hu : ∀ f : Idx 1 1 × Idx 1 1 → ℝ, ∑ x, f x = f (p, p) := by
    intro f
    rw [Fintype.sum_eq_single (p, p) (fun x hx => absurd (Subsingleton.elim _ _) hx)]
  simp only [mul_apply, hu, Matrix.sub_apply, Matrix.one_apply_eq, kroneckerMap_apply] at h1 h2
  simp only [covarianceMatrix, Matrix.of_apply, mulVec, dotProduct, hu]
  have h3 : noiseBlock 1 1 p p = 1 := by
    simp only [noiseBlock, Matrix.of_apply]
    rw [if_pos]
    have : p.1 = 0 := Subsingleton.elim _ _
    simp [this]
  rw [h3, mul_one, pow_two]
  by_cases h0 : 1 - A p p * A p p = 0
  · rw [h0] at h2 ⊢
    rw [_root_.inv_zero, ← h2]
    ring
  · refine eq_inv_of_mul_eq_one_left (mul_left_cancel₀ h0 ?_)
    rw [mul_one, ← mul_assoc]
    exact h1

/-- a model with one variable and coefficients between -1 and 1 is stable -/
theorem stable_single (v : ι) {a : ℝ} (ha : |a| < 1) : Stable ([⟨v, v, a, -1⟩] : List (SEdge ι ℝ)) := by
  intro x hx w
  by_cases hw : v = w
  · subst hw
    have h1 : ∀ k : ℕ, x v k = a ^ (k + 1) * x v (-1) := by
      intro k
      induction k with
      | zero => rw [hx v _ (by omega)]; simp [inflow]
      | succ k ih =>
        rw [hx v _ (by omega)]
        simp only [inflow, List.filter_cons, decide_true, if_true, List.filter_nil, List.map_cons, List.map_nil, List.sum_cons,
          List.sum_nil, add_zero]
        rw [show ((k + 1 : ℕ) : ℤ) + -1 = k by push_cast; ring, ih]
        ring
    simp only [h1]
    have h2 := ((tendsto_pow_atTop_nhds_zero_of_abs_lt_one ha).comp (tendsto_add_atTop_nat 1)).mul_const (x v (-1))
    simpa using h2
  · have h1 : ∀ k : ℕ, x w k = 0 := by
      intro k
      rw [hx w _ (by omega)]
      simp [inflow, hw]
    simp only [h1]
    exact tendsto_const_nhds

/-- what is generated exists, and satisfies the equations of the series -/
theorem generated_exists {Ω : Type} {edges : List (SEdge ι ℝ)} (hl : ∀ e ∈ edges, e.time < 0) {vars : List ι} (hn : vars.Nodup)
    (hv : ∀ x, x ∈ vars ↔ Mentioned edges x) {size : ℕ} (hs : 1 ≤ size) (init : ι → Ω → ℝ) (rand : ℕ → Ω → ℝ) :
    ∃ X, Generated edges vars size init rand X := by
  choose out col h1 _ h2 _ using fun ω => C69_time_series edges hl (fun v => init v ω) (fun k => rand k ω) hn hv hs
  exact ⟨fun v t ω => col ω v t, fun ω => ⟨out ω, h1 ω, fun v hv => ⟨_, h2 ω v hv, by simp, fun t ht => by simp [ht]⟩⟩⟩

theorem Generated.timeSeries {Ω : Type} {edges : List (SEdge ι ℝ)} (hl : ∀ e ∈ edges, e.time < 0) {vars : List ι}
    (hn : vars.Nodup) (hv : ∀ x, x ∈ vars ↔ Mentioned edges x) {size : ℕ} (hs : 1 ≤ size) {init : ι → Ω → ℝ}
    {rand : ℕ → Ω → ℝ} {X : ι → ℕ → Ω → ℝ} (h : Generated edges vars size init rand X) (ω : Ω) :
    TimeSeries edges size (fun v => init v ω) (fun v t => rand ((t - 1) * vars.length + vars.idxOf v) ω) (fun v t => X v t ω) := by
  obtain ⟨out, col, h1, -, h2, h3⟩ := C69_time_series edges hl (fun v => init v ω) (fun k => rand k ω) hn hv hs
  obtain ⟨out', h4, h5⟩ := h ω
  rw [h1] at h4
  cases h4
  have key : ∀ v, Mentioned edges v → ∀ t, t < size → X v t ω = col v t := by
    intro v hm t ht
    obtain ⟨l, h6, -, h7⟩ := h5 v ((hv v).2 hm)
    rw [h2 v ((hv v).2 hm)] at h6
    cases h6
    have := h7 t ht
    simp [ht] at this
    exact this.symm
  intro v hm
  refine ⟨(key v hm 0 (by omega)).trans (h3 v hm).1, fun t ht1 ht2 => ?_⟩
  beta_reduce
  rw [key v hm t ht2, (h3 v hm).2 t ht1 ht2]
  congr 1
  apply List.foldl_ext
  intro acc e he
  split
  · next hle =>
    rw [key e.src ⟨e, (List.mem_filter.1 he).1, Or.inl rfl⟩ _ (by omega)]
  · rfl

theorem var3 {Ω : Type} [MeasurableSpace Ω] {μ : Measure Ω} [IsProbabilityMeasure μ] {U V W : Ω → ℝ} (hU : MemLp U 2 μ)
    (hV : MemLp V 2 μ) (hW : MemLp W 2 μ) : Var[fun ω => U ω + V ω + W ω; μ] =
      cov[U, U; μ] + cov[V, V; μ] + cov[W, W; μ] + 2 * cov[U, V; μ] + 2 * cov[U, W; μ] + 2 * cov[V, W; μ] := by
  have h1 := variance_add (μ := μ) (hU.add hV) hW
  rw [variance_add hU hV, covariance_add_left hU hV hW] at h1
  rw [covariance_self hU.1.aemeasurable, covariance_self hV.1.aemeasurable, covariance_self hW.1.aemeasurable]
  refine Eq.trans h1 ?_
  ring

/-- draws exist -/
theorem exists_draws {vars : List ι} (hn : vars.Nodup) (size : ℕ) (σ : Fin vars.length → ℝ) :
    ∃ (Ω : Type) (_ : MeasurableSpace Ω) (μ : Measure Ω) (_ : IsProbabilityMeasure μ) (init : ι → Ω → ℝ) (rand : ℕ → Ω → ℝ),
      Draws vars size σ μ init rand := by
  let K := (size - 1) * vars.length
  let init : ι → (Fin vars.length ⊕ Fin K → ℝ) → ℝ := fun v ω =>
    if hv : v ∈ vars then σ ⟨_, List.idxOf_lt_length_of_mem hv⟩ * ω (Sum.inl ⟨_, List.idxOf_lt_length_of_mem hv⟩) else 0
  let rand : ℕ → (Fin vars.length ⊕ Fin K → ℝ) → ℝ := fun k ω => if hk : k < K then ω (Sum.inr ⟨k, hk⟩) else 0
  have hi : ∀ i : Fin vars.length, init vars[i] = fun ω => σ i * ω (Sum.inl i) := by
    intro i
    funext ω
    have h1 : vars[i] ∈ vars := List.getElem_mem _
    have h2 : vars.idxOf vars[i] = i := hn.idxOf_getElem i i.2
    simp only [init, h1, dite_true, h2]
  have hr : ∀ k (hk : k < K), rand k = fun ω => ω (Sum.inr ⟨k, hk⟩) := by
    intro k hk
    funext ω
    simp only [rand, hk, dite_true]
  refine ⟨_, inferInstance, white (Fin vars.length ⊕ Fin K), inferInstance, init, rand, ⟨fun i => ?_, fun k hk => ?_,
    fun i j => ?_, fun k k' hk hk' => ?_, fun i k hk => ?_⟩⟩
  · rw [hi]
    exact (white_memLp _).const_mul _
  · rw [hr k hk]
    exact white_memLp _
  · rw [hi, hi, covariance_const_mul_left, covariance_const_mul_right, white_cov]
    by_cases h : i = j
    · subst h; simp [pow_two]
    · simp [h]
  · rw [hr k hk, hr k' hk', white_cov]
    simp only [Sum.inr.injEq, Fin.mk.injEq]
  · rw [hi, hr k hk, covariance_const_mul_left, white_cov]
    simp

theorem tendsto_of_zero_from {f : ℕ → ℝ} (K : ℕ) (h : ∀ k, K ≤ k → f k = 0) : Tendsto f atTop (𝓝 0) :=
  tendsto_const_nhds.congr' (eventually_atTop.2 ⟨K, fun k hk => (h k hk).symm⟩)

end Sample
end Verif
