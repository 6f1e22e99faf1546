import Verif.Stats.Lemmas3
import Mathlib.Tactic.FinCases
import Mathlib.Data.Fin.VecNotation

/-!
# C48, C49, C67, C68: the numbers behind the tests, in exact arithmetic
-/

namespace Verif
namespace Stats
variable {n : ℕ}

/-- **C48 (value).** For two columns that both vary, `CalculatePearsonCorrelations` stores the cosine of the centred
columns, which is the textbook correlation. -/
theorem C48_value {x y : Fin n → ℝ} (hx : Varies x) (hy : Varies y) :
    pearson x y = some (cosine (centred x) (centred y)) := by
  obtain ⟨i, j, h⟩ := hx
  obtain ⟨k, l, h'⟩ := hy
  exact pearson_eq (gram_self_pos h) (gram_self_pos h')

/-- **C48 (range).** The stored value lies in `[-1, 1]` and is the value before clamping: the clamping never applies. -/
theorem C48_range {x y : Fin n → ℝ} (hx : Varies x) (hy : Varies y) :
    ∃ r, pearson x y = some r ∧ -1 ≤ r ∧ r ≤ 1 ∧ pearsonRaw x y = some r := by
  obtain ⟨i, j, h⟩ := hx
  obtain ⟨k, l, h'⟩ := hy
  have hb := abs_le.1 (abs_ratio_le x y)
  exact ⟨_, pearson_eq (gram_self_pos h) (gram_self_pos h'), hb.1, hb.2, pearsonRaw_eq (gram_self_pos h) (gram_self_pos h')⟩

/-- **C48 (clamping).** Whatever value comes in, in particular one that rounding has pushed out of the range: the stored value
is the nearest number in `[-1, 1]`. -/
theorem C48_clamping (r : ℝ) : (-1 ≤ clamp r ∧ clamp r ≤ 1) ∧ ∀ c, -1 ≤ c → c ≤ 1 → |r - clamp r| ≤ |r - c| := by
  unfold clamp
  split_ifs with h1 h2
  · refine ⟨by norm_num, fun c h3 h4 => ?_⟩
    rw [abs_of_nonpos (by linarith), abs_of_nonpos (by linarith)]
    linarith
  · refine ⟨by norm_num, fun c h3 h4 => ?_⟩
    rw [abs_of_nonneg (by linarith), abs_of_nonneg (by linarith)]
    linarith
  · refine ⟨⟨by linarith, by linarith⟩, fun c h3 h4 => ?_⟩
    rw [sub_self, abs_zero]
    exact abs_nonneg _

/-- **C48 (symmetry)**, for all columns. -/
theorem C48_symmetric (x y : Fin n → ℝ) : pearson x y = pearson y x := by
  have : covPop x y = covPop y x := by rw [covPop_eq, covPop_eq, gram_comm]
  unfold pearson pearsonRaw
  rw [this, mul_comm]

/-- **C48 (units).** Rescaling and shifting the columns does not change the stored value, for all columns and all positive
factors. -/
theorem C48_affine (x y : Fin n → ℝ) {a c : ℝ} (b d : ℝ) (ha : 0 < a) (hc : 0 < c) :
    pearson (fun i => a * x i + b) (fun i => c * y i + d) = pearson x y := by
  have e1 : ∀ (z : Fin n → ℝ) (a b : ℝ), 0 < a → stdPop (fun i => a * z i + b) = a * stdPop z := by
    intro z a b ha
    rw [stdPop_eq, stdPop_eq, gram_affine, mul_div_assoc, Real.sqrt_mul (mul_self_nonneg a), Real.sqrt_mul_self ha.le]
  have e2 : covPop (fun i => a * x i + b) (fun i => c * y i + d) = a * c * covPop x y := by
    rw [covPop_eq, covPop_eq, gram_affine, mul_div_assoc]
  have hac := (mul_pos ha hc).ne'
  unfold pearson pearsonRaw
  rw [e1 x a b ha, e1 y c d hc, e2, mul_mul_mul_comm]
  simp only [mul_eq_zero, ha.ne', hc.ne', false_or]
  rw [mul_div_mul_left _ _ hac]

/-- **C48 (self).** A column that varies has correlation 1 with itself. -/
theorem C48_self {x : Fin n → ℝ} (hx : Varies x) : pearson x x = some 1 := by
  obtain ⟨i, j, h⟩ := hx
  have hp := gram_self_pos h
  rw [pearson_eq hp hp, Real.sqrt_mul_self hp.le, div_self hp.ne']

/-- **C48 (constant columns).** If one of the columns is constant the stored value is NaN. -/
theorem C48_constant {x y : Fin n → ℝ} (h : ¬ Varies x ∨ ¬ Varies y) : pearson x y = none := by
  have key : ∀ z : Fin n → ℝ, ¬ Varies z → stdPop z = 0 := by
    intro z hz
    have hd : ∀ i, dev z i = 0 := by
      intro i
      have hc : ∀ j, z j = z i := fun j => by
        by_contra hne
        exact hz ⟨j, i, hne⟩
      have hn : (n : ℝ) ≠ 0 := by
        have : n ≠ 0 := by rintro rfl; exact i.elim0
        exact_mod_cast this
      unfold dev mean
      simp only [hc, Finset.sum_const, Finset.card_univ, Fintype.card_fin, nsmul_eq_mul]
      field_simp
      ring
    rw [stdPop_eq, gram_self_eq_zero.2 hd]
    simp
  unfold pearson pearsonRaw
  rcases h with h | h <;> rw [key _ h] <;> simp

example : Varies (![0, 1, 2] : Fin 3 → ℝ) ∧ Varies (![0, 2, 4] : Fin 3 → ℝ) ∧ ¬ Varies (![5, 5, 5] : Fin 3 → ℝ) := by
  refine ⟨⟨0, 1, by norm_num⟩, ⟨0, 1, by norm_num⟩, ?_⟩
  rintro ⟨i, j, h⟩
  fin_cases i <;> fin_cases j <;> simp at h

example : pearson (![0, 1, 2] : Fin 3 → ℝ) ![3, 5, 1] = some (-1 / 2) := by
  rw [C48_value ⟨0, 1, by norm_num⟩ ⟨0, 1, by norm_num⟩]
  congr 1
  unfold cosine centred
  simp only [Fin.sum_univ_three, show (![0, 1, 2] : Fin 3 → ℝ) 0 = 0 from rfl,
    show (![0, 1, 2] : Fin 3 → ℝ) 1 = 1 from rfl, show (![0, 1, 2] : Fin 3 → ℝ) 2 = 2 from rfl,
    show (![3, 5, 1] : Fin 3 → ℝ) 0 = 3 from rfl, show (![3, 5, 1] : Fin 3 → ℝ) 1 = 5 from rfl,
    show (![3, 5, 1] : Fin 3 → ℝ) 2 = 1 from rfl]
  norm_num
  rw [show (16 : ℝ) = 4 ^ 2 by norm_num, Real.sqrt_sq (by norm_num)]
  norm_num

/-- **C49 (singular data).** `ExtendedPartialCorrelationTestMatrix` returns without a result exactly if the columns satisfy a
linear relation. -/
theorem C49_singular {k : ℕ} (cols : Fin (k + 2) → Fin n → ℝ) (hn : 2 ≤ n) :
    matrixParCorr (torchCov cols) = none ↔ ¬ NoLinearRelation cols := by
  refine ⟨fun h hL => ?_, matrixParCorr_none hn⟩
  obtain ⟨β, γ, -, -, e⟩ := parCorr_exists hn hL
  rw [e] at h
  cases h

/-- **C49 (rescaling).** For any number of variables the rescaling by the roots of the diagonal cancels: the value is minus
the quotient of the entries of the inverse covariance matrix. -/
theorem C49_rescaling_cancels {k : ℕ} {cols : Fin (k + 2) → Fin n → ℝ} (hn : 2 ≤ n) (h : NoLinearRelation cols) :
    matrixParCorr (torchCov cols)
      = some (-(torchCov cols)⁻¹ 0 1 / √((torchCov cols)⁻¹ 0 0 * (torchCov cols)⁻¹ 1 1)) :=
  matrixParCorr_eq (torchCov_posDef_of hn h)

/-- **C49 (meaning).** The value is the correlation of what is left of the two columns after a linear regression on the
conditioning columns. -/
theorem C49_residuals {k : ℕ} {cols : Fin (k + 2) → Fin n → ℝ} (hn : 2 ≤ n) (h : NoLinearRelation cols) :
    (∃ β, LeastSquares (cols 0) (fun s => cols s.succ.succ) β) ∧
    (∃ γ, LeastSquares (cols 1) (fun s => cols s.succ.succ) γ) ∧
    ∀ β γ, LeastSquares (cols 0) (fun s => cols s.succ.succ) β → LeastSquares (cols 1) (fun s => cols s.succ.succ) γ →
      matrixParCorr (torchCov cols) = some (cosine (residual (cols 0) (fun s => cols s.succ.succ) β)
        (residual (cols 1) (fun s => cols s.succ.succ) γ)) :=
  ⟨exists_leastSquares _ hn (noRelation_tail h), exists_leastSquares _ hn (noRelation_tail h),
    fun _ _ hβ hγ => residual_corr hn (torchCov_posDef_of hn h) hβ hγ⟩

/-- **C49 (triples).** For three columns without a linear relation, the formula of `PartialCorrelationTest`, applied to the
stored correlations, gives the value `ExtendedPartialCorrelationTestMatrix` computes. -/
theorem C49_triple_eq_matrix {cols : Fin 3 → Fin n → ℝ} (hn : 2 ≤ n) (h : NoLinearRelation cols) :
    ∃ xy xz yz, pearson (cols 0) (cols 1) = some xy ∧ pearson (cols 0) (cols 2) = some xz ∧
      pearson (cols 1) (cols 2) = some yz ∧ tripleParCorr xy xz yz = matrixParCorr (torchCov cols) ∧
      ∀ Φ threshold, tripleDecision Φ threshold n xy xz yz = matrixDecision Φ threshold cols := by
  have g0 := varies_of_noRelation h 0
  have g1 := varies_of_noRelation h 1
  have g2 := varies_of_noRelation h 2
  have e := triple_eq hn h (pearson_eq g0 g1) (pearson_eq g0 g2) (pearson_eq g1 g2)
  refine ⟨_, _, _, pearson_eq g0 g1, pearson_eq g0 g2, pearson_eq g1 g2, e, fun Φ t => ?_⟩
  unfold tripleDecision matrixDecision
  rw [e]

/-- **C49 (pairs).** Without conditioning columns the value is the stored correlation. -/
theorem C49_pair_eq_matrix {cols : Fin 2 → Fin n → ℝ} (hn : 2 ≤ n) (h : NoLinearRelation cols) :
    matrixParCorr (torchCov cols) = pearson (cols 0) (cols 1) := by
  rw [pearson_eq (varies_of_noRelation h 0) (varies_of_noRelation h 1)]
  have e := residual_corr (k := 0) hn (torchCov_posDef_of hn h) (β := Fin.elim0) (γ := Fin.elim0)
    (fun s => s.elim0) (fun s => s.elim0)
  rw [e]
  have hr : ∀ x : Fin n → ℝ, residual x (fun s : Fin 0 => cols s.succ.succ) Fin.elim0 = dev x := by
    intro x
    funext i
    simp [residual, centred_eq]
  rw [hr, hr]
  rfl

/-- **C49 (range).** The value is strictly between -1 and 1, so the transformation applied next is defined. -/
theorem C49_range {k : ℕ} {cols : Fin (k + 2) → Fin n → ℝ} (hn : 2 ≤ n) {r : ℝ}
    (h : matrixParCorr (torchCov cols) = some r) : -1 < r ∧ r < 1 :=
  abs_lt.1 (parCorr_abs_lt hn h)

/-- three columns of four samples without a linear relation -/
def exCols : Fin 3 → Fin 4 → ℝ := ![![1, -1, 1, -1], ![1, 1, -1, -1], ![2, 0, 1, -3]]

theorem exCols_noRelation : NoLinearRelation exCols := by
  intro a ha
  have h0 := ha 0
  have h1 := ha 1
  have h2 := ha 2
  unfold centred exCols at h0 h1 h2
  simp [Fin.sum_univ_succ] at h0 h1 h2
  funext j
  fin_cases j <;> simp <;> linarith

example : ∃ xy xz yz, tripleParCorr xy xz yz = matrixParCorr (torchCov exCols) ∧ (matrixParCorr (torchCov exCols)).isSome := by
  obtain ⟨xy, xz, yz, -, -, -, e, -⟩ := C49_triple_eq_matrix (by norm_num) exCols_noRelation
  refine ⟨xy, xz, yz, e, ?_⟩
  rw [C49_rescaling_cancels (by norm_num) exCols_noRelation]
  rfl

/-- a linear relation: the third column is the sum of the other two -/
example : matrixParCorr (torchCov (![![1, -1, 0, 0], ![0, 0, 1, -1], ![1, -1, 1, -1]] : Fin 3 → Fin 4 → ℝ)) = none := by
  rw [C49_singular _ (by norm_num)]
  intro h
  have := h ![1, 1, -1] (fun i => by
    fin_cases i <;> simp [centred, Fin.sum_univ_succ])
  have := congrFun this 0
  simp at this

/-- **C67 (errors).** The decision is an answer exactly if `|r| < 1` and there are at least `controls + 3` samples; otherwise
the test raises an error. -/
theorem C67_defined (Φ : ℝ → ℝ) (threshold : ℝ) (samples controls : ℕ) (r : ℝ) :
    (∃ b, independent Φ threshold samples controls r = .ok b) ↔ |r| < 1 ∧ controls + 3 ≤ samples := by
  constructor
  · rintro ⟨b, h⟩
    rcases lt_or_ge |r| 1 with hr | hr
    · refine ⟨hr, ?_⟩
      unfold independent at h
      rw [fisherZ_ok hr] at h
      simp only at h
      split at h
      · cases h
      · rename_i hm
        have : (controls : ℝ) + 3 ≤ samples := by linarith
        exact_mod_cast this
    · obtain ⟨e, he⟩ := fisherZ_error hr
      unfold independent at h
      rw [he] at h
      cases h
  · rintro ⟨hr, hm⟩
    exact ⟨_, independent_ok hr hm⟩

/-- **C67 (two-sided test).** If `q` is the quantile of `1 - threshold / 2`, the nodes are declared independent exactly if the
absolute Fisher z score is below `q`. -/
theorem C67_critical_value {Φ : ℝ → ℝ} (hΦ : StrictMono Φ) {threshold q : ℝ} (hq : Φ q = 1 - threshold / 2)
    {samples controls : ℕ} {r : ℝ} (hr : |r| < 1) (hm : controls + 3 ≤ samples) :
    independent Φ threshold samples controls r = .ok true ↔
      |1 / 2 * Real.log ((1 + r) / (1 - r))| * √((samples : ℝ) - controls - 3) < q := by
  have e : |1 / 2 * Real.log ((1 + r) / (1 - r))| = fz |r| := by
    rw [← abs_fz hr]
    unfold fz
    norm_num
  rw [independent_ok hr hm, e, Except.ok.injEq, decide_eq_true_eq, ← hΦ.lt_iff_lt (b := q), hq]
  constructor <;> intro h <;> linarith

/-- **C67 (sign).** The sign of the correlation does not matter. -/
theorem C67_sign (Φ : ℝ → ℝ) (threshold : ℝ) (samples controls : ℕ) {r : ℝ} (hr : |r| < 1) :
    independent Φ threshold samples controls (-r) = independent Φ threshold samples controls r :=
  independent_abs (by rwa [abs_neg]) (abs_neg r)

/-- **C67 (strength).** If two nodes are declared independent, they are also declared independent for a weaker correlation,
for fewer samples (as long as the test is defined), with more controls and for a smaller threshold. -/
theorem C67_monotone {Φ : ℝ → ℝ} (hΦ : Monotone Φ) {t t' : ℝ} {m m' c c' : ℕ} {r r' : ℝ}
    (h : independent Φ t m c r = .ok true) (ht : t' ≤ t) (hr : |r'| ≤ |r|) (hm : m' ≤ m) (hc : c ≤ c')
    (hd : c' + 3 ≤ m') : independent Φ t' m' c' r' = .ok true := by
  obtain ⟨h1, h2⟩ := (C67_defined Φ t m c r).1 ⟨_, h⟩
  rw [independent_ok h1 h2, Except.ok.injEq, decide_eq_true_eq] at h
  rw [independent_ok (lt_of_le_of_lt hr h1) hd, Except.ok.injEq, decide_eq_true_eq]
  have hm' : (m' : ℝ) ≤ m := by exact_mod_cast hm
  have hc' : (c : ℝ) ≤ c' := by exact_mod_cast hc
  have hle : fz |r'| * √((m' : ℝ) - c' - 3) ≤ fz |r| * √((m : ℝ) - c - 3) :=
    mul_le_mul (fz_mono (abs_nonneg _) hr h1) (Real.sqrt_le_sqrt (by linarith)) (Real.sqrt_nonneg _)
      (fz_nonneg (abs_nonneg _) h1)
  have := hΦ hle
  linarith

/-- uncorrelated nodes are declared independent for every threshold below 1, if `Φ 0 = 1 / 2` -/
example {Φ : ℝ → ℝ} (h0 : Φ 0 = 1 / 2) : independent Φ 0.01 100 2 0 = .ok true := by
  rw [independent_ok (by norm_num) (by norm_num)]
  simp [fz, h0]
  norm_num

/-- **C68 (order).** The decision of `ExtendedPartialCorrelationTestMatrix` on the first two of a list of nodes does not
change if these two are exchanged or the other nodes are listed in a different order. -/
theorem C68_order (Φ : ℝ → ℝ) (threshold : ℝ) {k : ℕ} (cols : Fin (k + 2) → Fin n → ℝ) (hn : 2 ≤ n)
    (σ : Equiv.Perm (Fin (k + 2))) (hσ : σ 0 = 0 ∧ σ 1 = 1 ∨ σ 0 = 1 ∧ σ 1 = 0) :
    matrixDecision Φ threshold (fun j => cols (σ j)) = matrixDecision Φ threshold cols :=
  matrixDecision_congr hn (by rw [parCorr_perm cols hn σ hσ])

/-- **C68 (units).** Nor does it change if columns are shifted, rescaled or change sign. -/
theorem C68_units (Φ : ℝ → ℝ) (threshold : ℝ) {k : ℕ} (cols : Fin (k + 2) → Fin n → ℝ) (hn : 2 ≤ n)
    (a b : Fin (k + 2) → ℝ) (ha : ∀ j, a j ≠ 0) :
    matrixDecision Φ threshold (fun j i => a j * cols j i + b j) = matrixDecision Φ threshold cols :=
  matrixDecision_congr hn (parCorr_scale cols hn ha)

/-- **C68 (never an error).** With enough samples the numerical part of the test does not raise an error. -/
theorem C68_total (Φ : ℝ → ℝ) (threshold : ℝ) {k : ℕ} (cols : Fin (k + 2) → Fin n → ℝ) (hn : k + 3 ≤ n) :
    ∃ d, matrixDecision Φ threshold cols = .ok d ∧ (d = none ↔ ¬ NoLinearRelation cols) := by
  have hn' : 2 ≤ n := by omega
  have hs := C49_singular cols hn'
  unfold matrixDecision
  rcases h : matrixParCorr (torchCov cols) with _ | r
  · exact ⟨_, rfl, iff_of_true rfl (hs.1 h)⟩
  · obtain ⟨b, hb⟩ := (C67_defined Φ threshold n k r).2 ⟨parCorr_abs_lt hn' h, hn⟩
    refine ⟨some b, ?_, iff_of_false (by simp) (fun hc => ?_)⟩
    · simp only [hb]
    · rw [hs.2 hc] at h
      cases h

example (Φ : ℝ → ℝ) :
    matrixDecision Φ 0.01 (fun j => exCols (Equiv.swap 0 1 j)) = matrixDecision Φ 0.01 exCols ∧
    ∃ b, matrixDecision Φ 0.01 exCols = .ok (some b) := by
  refine ⟨C68_order Φ _ exCols (by norm_num) _ (Or.inr ⟨by simp, by simp⟩), ?_⟩
  obtain ⟨d, h1, h2⟩ := C68_total Φ 0.01 exCols (by norm_num)
  rcases d with _ | b
  · exact absurd exCols_noRelation (h2.1 rfl)
  · exact ⟨b, h1⟩

end Stats
end Verif
