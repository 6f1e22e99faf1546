import Verif.Linear.Regression
import Verif.Linear.Props

/-!
# Properties of the regression test (C105)
-/

namespace Verif
open Graph CI PC Linear Stats Sample
variable {ι : Type} [DecidableEq ι] {n : ℕ}

/-- **C105 (partial: only for columns with average zero).** On columns with average zero and without linear relation,
`ExtendedPartialCorrelationTestLinearRegression` reports independence exactly if the t statistic of the partial correlation,
the same number that the other tests use, is below the critical value; provided there is at least one conditioning variable,
a positive number of degrees of freedom, and the partial correlation is not within 0.00005 of 1 or -1.

Missing: columns with another average, for which the claim is false (`C105_shift_changes_verdict`). -/
theorem C105_regression_partial (Φ : ℝ → ℝ) (Q : ℝ → ℕ → ℝ) (solve : Solver n) (hsol : Solves solve) (threshold : ℝ)
    (col : ι → Fin n → ℝ) (N : List ι) (h : NoRelation col N) (hm : ∀ v ∈ N, MeanZero (col v)) (x y : ι) (S : List ι)
    (hS : S ≠ []) (hq : Question N x y S) (hn : S.length + 3 ≤ n) (r : ℝ) (hr : PartialCorr col x y S r)
    (hr1 : |r| < 0.99995) :
    ∃ b, (dataTests Φ Q solve threshold col).reg (x :: y :: S) = .ok b ∧
      (b = true ↔ tStatistic n S.length r < Q (1 - threshold / 2) (n - 2 - S.length)) := by
  have e : (dataTests Φ Q solve threshold col).reg (x :: y :: S)
      = tIndependent Q threshold n S.length (regParCorr solve (col x) (col y) (fun j => col (S.get j))) := by
    cases S with
    | nil => exact absurd rfl hS
    | cons z S => rfl
  rw [e, regParCorr_eq hsol h hm hq (by omega) hr]
  have hr2 : r ^ 2 < 1 := by
    rw [sq_lt_one_iff_abs_lt_one]
    exact hr1.trans (by norm_num)
  have hdof : (0 : ℝ) ≤ (n : ℝ) - 2 - S.length := by
    have : ((S.length : ℝ) + 3) ≤ n := by exact_mod_cast hn
    linarith
  unfold tIndependent
  simp only
  rw [if_neg (fun hh => absurd hh.1 (not_le.2 hr1)), if_neg (not_lt.2 (div_nonneg hdof (by linarith))), if_neg (by omega)]
  refine ⟨_, rfl, ?_⟩
  rw [decide_eq_true_eq, abs_mul, abs_of_nonneg (Real.sqrt_nonneg _), tStatistic]

/-- **C105 (near 1).** If the partial correlation is within 0.00005 of 1 or -1, it reports dependence. -/
theorem C105_nearly_perfect (Φ : ℝ → ℝ) (Q : ℝ → ℕ → ℝ) (solve : Solver n) (hsol : Solves solve) (threshold : ℝ)
    (col : ι → Fin n → ℝ) (N : List ι) (h : NoRelation col N) (hm : ∀ v ∈ N, MeanZero (col v)) (x y : ι) (S : List ι)
    (hS : S ≠ []) (hq : Question N x y S) (hn : 2 ≤ n) (r : ℝ) (hr : PartialCorr col x y S r) (hr1 : 0.99995 ≤ |r|) :
    (dataTests Φ Q solve threshold col).reg (x :: y :: S) = .ok false := by
  have e : (dataTests Φ Q solve threshold col).reg (x :: y :: S)
      = tIndependent Q threshold n S.length (regParCorr solve (col x) (col y) (fun j => col (S.get j))) := by
    cases S with
    | nil => exact absurd rfl hS
    | cons z S => rfl
  rw [e, regParCorr_eq hsol h hm hq hn hr]
  obtain ⟨r', _, h2, _, hu⟩ := partialCorr_unique hn h hq
  have hr2 : |r| ≤ 1.00005 := by
    rw [hu r hr]
    exact h2.le.trans (by norm_num)
  unfold tIndependent
  simp only
  rw [if_pos ⟨hr1, hr2⟩]

/-- **C105 (separated variables).** On data from linear equations with noise that is uncorrelated in the sample, with columns
of average zero and a positive critical value, it reports independence of variables that are d-separated by `S`. -/
theorem C105_separated {edges : List (SEdge ι ℝ)} {noise col : ι → Fin n → ℝ} {N : List ι}
    (hd : LinearData edges noise col N) (hm : ∀ v ∈ N, MeanZero (col v)) (Φ : ℝ → ℝ) (Q : ℝ → ℕ → ℝ) (solve : Solver n)
    (hsol : Solves solve) (threshold : ℝ) (x y : ι) (S : List ι) (hS : S ≠ []) (hq : Question N x y S)
    (hn : S.length + 3 ≤ n) (hQ : 0 < Q (1 - threshold / 2) (n - 2 - S.length)) (hs : Dag.DSep (HasEdge edges) x y S) :
    (dataTests Φ Q solve threshold col).reg (x :: y :: S) = .ok true := by
  have hN := structural_noRelation hd.acyclic hd.equations hd.vars hd.uncorrelated hd.varies
  have hr := (C102_partial_correlation_zero hd (by omega) x y S hq hs 0).2 rfl
  obtain ⟨b, hb, hi⟩ := C105_regression_partial Φ Q solve hsol threshold col N hN hm x y S hS hq hn 0 hr (by norm_num)
  rw [hb, hi.2 (by simpa [tStatistic] using hQ)]

omit [DecidableEq ι] in
/-- **C105 (no conditioning variable).** Asked about two variables without conditioning variables, it raises. -/
theorem C105_no_controls_raises (Φ : ℝ → ℝ) (Q : ℝ → ℕ → ℝ) (solve : Solver n) (threshold : ℝ) (col : ι → Fin n → ℝ)
    (x y : ι) : (dataTests Φ Q solve threshold col).reg [x, y] = .error .runtimeError := rfl

/-- the answer of the regression test on integers, if the last column is orthogonal to the others -/
theorem regression_on_integers {solve : Solver 8} (hsol : Solves solve) (Φ : ℝ → ℝ) (Q : ℝ → ℕ → ℝ) (threshold : ℝ)
    {col : ℕ → Fin 8 → ℝ} {w : ℕ → Fin 8 → ℤ} (hw : ∀ v, col v = fun i => (w v i : ℝ)) (h0 : ∑ i, w 0 i * w 2 i = 0)
    (h1 : ∑ i, w 1 i * w 2 i = 0) (h2 : 0 < ∑ i, w 2 i * w 2 i) {p q : ℤ} (hp : ∑ i, w 0 i * w 1 i = p)
    (hq0 : ∑ i, w 0 i * w 0 i = q) (hq1 : ∑ i, w 1 i * w 1 i = q) (hq : 0 < q) :
    (dataTests Φ Q solve threshold col).reg [0, 1, 2] = tIndependent Q threshold 8 1 (some ((p : ℝ) / q)) := by
  have cast : ∀ a b : ℕ, ∑ i, col a i * col b i = ((∑ i, w a i * w b i : ℤ) : ℝ) := by
    intro a b
    rw [hw, hw]
    push_cast
    rfl
  have eZ : (fun j : Fin [2].length => col ([2].get j)) = fun _ => col 2 := by
    funext j
    rw [show j = 0 from Fin.ext (by have := j.2; simp at this; simp [this])]
    rfl
  have key : ∀ v, ∑ i, w v i * w 2 i = 0 → rawResidual (solve 1 (fun _ => col 2) (col v)) (fun _ => col 2) (col v) = col v := by
    intro v hv
    have h := hsol 1 (fun _ => col 2) (col v) 0
    simp only [Fin.sum_univ_one] at h
    generalize hβ : solve 1 (fun _ => col 2) (col v) = β at h ⊢
    have e3 : ∑ i, (col v i - β 0 * col 2 i) * col 2 i = ∑ i, col v i * col 2 i - β 0 * ∑ i, col 2 i * col 2 i := by
      rw [Finset.mul_sum, ← Finset.sum_sub_distrib]
      exact Finset.sum_congr rfl (fun i _ => by ring)
    rw [e3, cast, cast, hv, Int.cast_zero, zero_sub, neg_eq_zero] at h
    have hb : β 0 = 0 := by
      rcases mul_eq_zero.1 h with h | h
      · exact h
      · exact absurd (Int.cast_eq_zero.1 h) h2.ne'
    funext i
    simp [rawResidual, hb]
  show tIndependent Q threshold 8 1 (regParCorr solve (col 0) (col 1) (fun j : Fin [2].length => col ([2].get j))) = _
  rw [eZ]
  congr 1
  unfold regParCorr
  simp only
  have k0 := key 0 h0
  have k1 := key 1 h1
  change rawResidual (solve [2].length (fun _ => col 2) (col 0)) (fun _ => col 2) (col 0) = col 0 at k0
  change rawResidual (solve [2].length (fun _ => col 2) (col 1)) (fun _ => col 2) (col 1) = col 1 at k1
  have hqr : (0 : ℝ) < q := by exact_mod_cast hq
  rw [k0, k1, cast, cast, cast, hp, hq0, hq1, Real.mul_self_sqrt hqr.le, if_neg hqr.ne']

/-- **C105 (what is needed).** The verdict depends on the zero point of the units: there are three columns such that, for every
critical value in `(0, 4]`, the first two are reported independent given the third, but not after 3 is added to all entries
of these two. -/
theorem C105_shift_changes_verdict :
    ∃ (col : ℕ → Fin 8 → ℝ) (shift : ℕ → ℝ), ∀ (Φ : ℝ → ℝ) (Q : ℝ → ℕ → ℝ) (solve : Solver 8), Solves solve →
      ∀ threshold, 0 < Q (1 - threshold / 2) 5 → Q (1 - threshold / 2) 5 ≤ 4 →
        (dataTests Φ Q solve threshold col).reg [0, 1, 2] = .ok true ∧
        (dataTests Φ Q solve threshold (fun v i => col v i + shift v)).reg [0, 1, 2] = .ok false := by
  refine ⟨fun v i => (exSigns v i : ℝ), fun v => if v = 2 then 0 else 3, ?_⟩
  intro Φ Q solve hsol threshold h0 h4
  constructor
  · rw [regression_on_integers hsol Φ Q threshold (w := exSigns) (p := 0) (q := 8) (fun v => rfl) (by decide) (by decide)
      (by decide) (by decide) (by decide) (by decide) (by decide)]
    unfold tIndependent
    norm_num
    exact h0
  · rw [regression_on_integers hsol Φ Q threshold (w := fun v i => exSigns v i + if v = 2 then 0 else 3) (p := 72) (q := 80)
      (fun v => by funext i; push_cast; rfl) (by decide) (by decide) (by decide) (by decide) (by decide) (by decide) (by decide)]
    unfold tIndependent
    norm_num
    have h1 : (40 / 9 : ℝ) ≤ √500 / √19 := by
      rw [le_div_iff₀ (Real.sqrt_pos.2 (by norm_num))]
      refine Real.le_sqrt_of_sq_le ?_
      rw [mul_pow, Real.sq_sqrt (by norm_num)]
      norm_num
    have h2 := le_abs_self (√500 / √19 : ℝ)
    linarith

/-- `0 → 2 → 1` -/
def exChainEdges : List (SEdge ℕ ℝ) := [⟨0, 2, 1, 0⟩, ⟨2, 1, 1, 0⟩]

/-- its data -/
def exChainTable : ℕ → Fin 8 → ℤ
  | 0 => exSigns 0
  | 1 => fun i => exSigns 0 i + exSigns 1 i + exSigns 2 i
  | _ => fun i => exSigns 0 i + exSigns 2 i

theorem exChain_edge (a b : ℕ) : HasEdge exChainEdges a b ↔ (a, b) ∈ [(0, 2), (2, 1)] := by
  simp [HasEdge, exChainEdges, eq_comm]

theorem exChain_data : LinearData exChainEdges (fun v i => (exSigns v i : ℝ)) (fun v i => (exChainTable v i : ℝ)) [0, 1, 2] where
  acyclic := Dag.acyclic_of_lt (fun v => if v = 0 then 0 else if v = 2 then 1 else 2) (by
    intro a b h
    rw [exChain_edge] at h
    simp only [List.mem_cons, Prod.mk.injEq, List.not_mem_nil, or_false] at h
    rcases h with ⟨rfl, rfl⟩ | ⟨rfl, rfl⟩ <;> decide)
  vars := by
    intro v
    simp [Mentioned, exChainEdges]
    omega
  equations := by
    intro v hv i
    have : v = 0 ∨ v = 1 ∨ v = 2 := by
      simp [Mentioned, exChainEdges] at hv
      omega
    rcases this with rfl | rfl | rfl <;> simp [exChainEdges, exChainTable] <;> ring
  uncorrelated := exLin_data.uncorrelated
  varies := exLin_data.varies

/-- hypotheses of `C105_regression_partial` and `C105_separated`: columns of average zero, and a solver -/
example : (∃ solve : Solver 8, Solves solve) ∧ (∀ v ∈ [0, 1, 2], MeanZero (fun i => (exChainTable v i : ℝ))) ∧
    NoRelation (fun v i => (exChainTable v i : ℝ)) [0, 1, 2] ∧ Question [0, 1, 2] 0 1 [2] ∧
    Dag.DSep (HasEdge exChainEdges) 0 1 [2] ∧
    ∃ r, PartialCorr (fun v i => (exChainTable v i : ℝ)) 0 1 [2] r ∧ |r| < 0.99995 := by
  have hN := structural_noRelation exChain_data.acyclic exChain_data.equations exChain_data.vars exChain_data.uncorrelated
    exChain_data.varies
  have hq : Question [0, 1, 2] 0 1 [2] := ⟨by decide, by decide⟩
  have hs : Dag.DSep (HasEdge exChainEdges) 0 1 [2] := by
    have hE : HasEdge exChainEdges = pairs [(0, 2), (2, 1)] := by
      funext a b
      exact propext (exChain_edge a b)
    have hac := exChain_data.acyclic
    rw [hE] at hac ⊢
    refine (Dag.dsep_iff (N := [0, 1, 2]) hac ?_ (by decide)).1 (by decide +kernel)
    intro a b h
    simp only [pairs, List.mem_cons, Prod.mk.injEq, List.not_mem_nil, or_false] at h ⊢
    omega
  refine ⟨exists_solves 8, ?_, hN, hq, hs, 0, ?_, by norm_num⟩
  · intro v hv
    unfold MeanZero
    rw [← Int.cast_sum, Int.cast_eq_zero]
    revert v
    decide
  · exact (C102_partial_correlation_zero exChain_data (by norm_num) 0 1 [2] hq hs 0).2 rfl

/-- `0 → 1 ← 2` with a strong first influence -/
def exStrongEdges : List (SEdge ℕ ℝ) := [⟨0, 1, 1000, 0⟩, ⟨2, 1, 1, 0⟩]

/-- its data -/
def exStrongTable : ℕ → Fin 8 → ℤ
  | 1 => fun i => 1000 * exSigns 0 i + exSigns 2 i + exSigns 1 i
  | v => exSigns v

theorem exStrong_data : LinearData exStrongEdges (fun v i => (exSigns v i : ℝ)) (fun v i => (exStrongTable v i : ℝ)) [0, 1, 2] where
  acyclic := Dag.acyclic_of_lt (fun v => if v = 1 then 1 else 0) (by
    intro a b h
    simp only [HasEdge, exStrongEdges, List.mem_cons, List.not_mem_nil, or_false] at h
    obtain ⟨e, rfl | rfl, rfl, rfl⟩ := h <;> decide)
  vars := by
    intro v
    simp [Mentioned, exStrongEdges]
    omega
  equations := by
    intro v hv i
    have : v = 0 ∨ v = 1 ∨ v = 2 := by
      simp [Mentioned, exStrongEdges] at hv
      omega
    rcases this with rfl | rfl | rfl <;> simp [exStrongEdges, exStrongTable] <;> ring
  uncorrelated := exLin_data.uncorrelated
  varies := exLin_data.varies

theorem exStrong_zero : ∀ v ∈ [0, 1, 2], MeanZero (fun i => (exStrongTable v i : ℝ)) := by
  intro v hv
  unfold MeanZero
  rw [← Int.cast_sum, Int.cast_eq_zero]
  revert v
  decide

/-- hypotheses of `C105_nearly_perfect` -/
example : NoRelation (fun v i => (exStrongTable v i : ℝ)) [0, 1, 2] ∧ Question [0, 1, 2] 0 1 [2] ∧
    ∃ r, PartialCorr (fun v i => (exStrongTable v i : ℝ)) 0 1 [2] r ∧ 0.99995 ≤ |r| := by
  have eq2 : ∀ s : Fin [2].length, [2].get s = 2 := by decide
  have hz : ∀ s : Fin [2].length, MeanZero (fun i => (exStrongTable ([2].get s) i : ℝ)) := fun s => by
    rw [eq2 s]; exact exStrong_zero 2 (by simp)
  have hx : rawResidual (fun _ : Fin [2].length => 0) (fun s i => (exStrongTable ([2].get s) i : ℝ))
      (fun i => (exStrongTable 0 i : ℝ)) = fun i => (exStrongTable 0 i : ℝ) := by
    funext i; simp [rawResidual]
  have hy : rawResidual (fun _ : Fin [2].length => 1) (fun s i => (exStrongTable ([2].get s) i : ℝ))
      (fun i => (exStrongTable 1 i : ℝ)) = fun i => ((exStrongTable 1 i - exStrongTable 2 i : ℤ) : ℝ) := by
    funext i
    unfold rawResidual
    simp only [eq2]
    simp
  refine ⟨structural_noRelation exStrong_data.acyclic exStrong_data.equations exStrong_data.vars exStrong_data.uncorrelated
    exStrong_data.varies, ⟨by decide, by decide⟩, 1000 / √1000001, ⟨fun _ => 0, fun _ => 1, ?_, ?_, ?_⟩, ?_⟩
  · intro s
    rw [residual_raw (exStrong_zero 0 (by simp)) hz, (hz s).centred, eq2 s, hx]
    beta_reduce
    exact_mod_cast (by decide : ∑ i, exStrongTable 0 i * exStrongTable 2 i = 0)
  · intro s
    rw [residual_raw (exStrong_zero 1 (by simp)) hz, (hz s).centred, eq2 s, hy]
    beta_reduce
    exact_mod_cast (by decide : ∑ i, (exStrongTable 1 i - exStrongTable 2 i) * exStrongTable 2 i = 0)
  · rw [residual_raw (exStrong_zero 0 (by simp)) hz, residual_raw (exStrong_zero 1 (by simp)) hz, hx, hy]
    unfold cosine
    have e1 : ∑ i, (exStrongTable 0 i : ℝ) * ((exStrongTable 1 i - exStrongTable 2 i : ℤ) : ℝ) = 8000 := by
      exact_mod_cast (by decide : ∑ i, exStrongTable 0 i * (exStrongTable 1 i - exStrongTable 2 i) = 8000)
    have e2 : ∑ i, (exStrongTable 0 i : ℝ) * (exStrongTable 0 i : ℝ) = 8 := by
      exact_mod_cast (by decide : ∑ i, exStrongTable 0 i * exStrongTable 0 i = 8)
    have e3 : ∑ i, ((exStrongTable 1 i - exStrongTable 2 i : ℤ) : ℝ) * ((exStrongTable 1 i - exStrongTable 2 i : ℤ) : ℝ)
        = 8000008 := by
      exact_mod_cast (by decide : ∑ i, (exStrongTable 1 i - exStrongTable 2 i) * (exStrongTable 1 i - exStrongTable 2 i)
        = 8000008)
    rw [e1, e2, e3, show (8 * 8000008 : ℝ) = 8 ^ 2 * 1000001 by norm_num, Real.sqrt_mul (by norm_num),
      Real.sqrt_sq (by norm_num), show (8000 : ℝ) = 8 * 1000 by norm_num, mul_div_mul_left _ _ (by norm_num)]
  · rw [abs_of_nonneg (by positivity), le_div_iff₀ (Real.sqrt_pos.2 (by norm_num))]
    have : √(1000001 : ℝ) ≤ 1000.01 := Real.sqrt_le_iff.2 ⟨by norm_num, by norm_num⟩
    linarith

end Verif
