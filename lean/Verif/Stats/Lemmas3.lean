import Verif.Stats.Lemmas2

/-!
# Helper lemmas: the formula for triples, invariances, the decision
-/

namespace Verif
namespace Stats
variable {n : ℕ}

theorem varies_of_noRelation {k : ℕ} {cols : Fin k → Fin n → ℝ} (h : NoLinearRelation cols) (j : Fin k) :
    0 < gram (cols j) (cols j) := by
  refine lt_of_le_of_ne (gram_self_nonneg _) (fun h0 => ?_)
  have hz := gram_self_eq_zero.1 h0.symm
  have := h (Pi.single j 1) (fun i => by
    rw [Finset.sum_eq_single j]
    · rw [centred_eq, hz i, mul_zero]
    · intro b _ hb
      rw [Pi.single_eq_of_ne hb, zero_mul]
    · intro hj
      exact absurd (Finset.mem_univ j) hj)
  have hj := congrFun this j
  simp at hj

theorem triple_alg {s t w x y z U V N : ℝ} (hs : 0 < s) (ht : 0 < t) (hw : 0 < w) (hU : 0 < U) (hV : 0 < V)
    (eU : U = s ^ 2 - y ^ 2 / w ^ 2) (eV : V = t ^ 2 - z ^ 2 / w ^ 2) (eN : N = x - y * z / w ^ 2) :
    tripleParCorr (x / √(s ^ 2 * t ^ 2)) (y / √(s ^ 2 * w ^ 2)) (z / √(t ^ 2 * w ^ 2)) = some (N / √(U * V)) := by
  have e1 : √(s ^ 2 * t ^ 2) = s * t := by
    rw [show s ^ 2 * t ^ 2 = (s * t) ^ 2 by ring, Real.sqrt_sq (by positivity)]
  have e2 : √(s ^ 2 * w ^ 2) = s * w := by
    rw [show s ^ 2 * w ^ 2 = (s * w) ^ 2 by ring, Real.sqrt_sq (by positivity)]
  have e3 : √(t ^ 2 * w ^ 2) = t * w := by
    rw [show t ^ 2 * w ^ 2 = (t * w) ^ 2 by ring, Real.sqrt_sq (by positivity)]
  rw [e1, e2, e3]
  have h1 : (1 - (y / (s * w)) ^ 2) * (1 - (z / (t * w)) ^ 2) = U * V / (s * t) ^ 2 := by
    rw [eU, eV]
    field_simp
  have h2 : √((1 - (y / (s * w)) ^ 2) * (1 - (z / (t * w)) ^ 2)) = √(U * V) / (s * t) := by
    rw [h1, Real.sqrt_div' _ (sq_nonneg _), Real.sqrt_sq (mul_pos hs ht).le]
  have hp : 0 < √(U * V) := Real.sqrt_pos.2 (mul_pos hU hV)
  unfold tripleParCorr
  rw [h2, if_neg (div_pos hp (mul_pos hs ht)).ne']
  congr 1
  rw [eN]
  field_simp

theorem triple_eq {cols : Fin 3 → Fin n → ℝ} (hn : 2 ≤ n) (h : NoLinearRelation cols) {xy xz yz : ℝ}
    (hxy : pearson (cols 0) (cols 1) = some xy) (hxz : pearson (cols 0) (cols 2) = some xz)
    (hyz : pearson (cols 1) (cols 2) = some yz) :
    tripleParCorr xy xz yz = matrixParCorr (torchCov cols) := by
  have g0 := varies_of_noRelation h 0
  have g1 := varies_of_noRelation h 1
  have g2 := varies_of_noRelation h 2
  rw [pearson_eq g0 g1] at hxy
  rw [pearson_eq g0 g2] at hxz
  rw [pearson_eq g1 g2] at hyz
  cases hxy
  cases hxz
  cases hyz
  let β : Fin 1 → ℝ := fun _ => gram (cols 0) (cols 2) / gram (cols 2) (cols 2)
  let γ : Fin 1 → ℝ := fun _ => gram (cols 1) (cols 2) / gram (cols 2) (cols 2)
  -- products of residuals
  have prod : ∀ (p q : Fin 3) (a b : ℝ),
      ∑ i, (dev (cols p) i - a * dev (cols 2) i) * (dev (cols q) i - b * dev (cols 2) i)
        = gram (cols p) (cols q) - b * gram (cols p) (cols 2) - a * gram (cols q) (cols 2)
          + a * b * gram (cols 2) (cols 2) := by
    intro p q a b
    unfold gram
    simp only [Finset.mul_sum, ← Finset.sum_add_distrib, ← Finset.sum_sub_distrib]
    exact Finset.sum_congr rfl (fun i _ => by ring)
  have res : ∀ (p : Fin 3) (b : Fin 1 → ℝ), residual (cols p) (fun s : Fin 1 => cols s.succ.succ) b
      = fun i => dev (cols p) i - b 0 * dev (cols 2) i := by
    intro p b
    funext i
    simp [residual, centred_eq]
  have ls : ∀ (p : Fin 3), LeastSquares (cols p) (fun s : Fin 1 => cols s.succ.succ)
      (fun _ => gram (cols p) (cols 2) / gram (cols 2) (cols 2)) := by
    intro p s
    rw [res]
    have e := prod p 2 (gram (cols p) (cols 2) / gram (cols 2) (cols 2)) 0
    have hs : (s.succ.succ : Fin 3) = 2 := by
      obtain rfl : s = 0 := Subsingleton.elim _ _
      rfl
    simp only [zero_mul, sub_zero, mul_zero, add_zero] at e
    simp only [hs, centred_eq]
    rw [e]
    field_simp
    ring
  rw [residual_corr hn (torchCov_posDef_of hn h) (ls 0) (ls 1)]
  obtain ⟨hU, hV, -⟩ := resid_strict h β γ
  unfold cosine
  rw [res, prod] at hU hV
  rw [res, res, prod, prod, prod]
  obtain ⟨s, hs, es⟩ : ∃ s, 0 < s ∧ gram (cols 0) (cols 0) = s ^ 2 := ⟨√_, Real.sqrt_pos.2 g0, (Real.sq_sqrt g0.le).symm⟩
  obtain ⟨t, ht, et⟩ : ∃ s, 0 < s ∧ gram (cols 1) (cols 1) = s ^ 2 := ⟨√_, Real.sqrt_pos.2 g1, (Real.sq_sqrt g1.le).symm⟩
  obtain ⟨w, hw, ew⟩ : ∃ s, 0 < s ∧ gram (cols 2) (cols 2) = s ^ 2 := ⟨√_, Real.sqrt_pos.2 g2, (Real.sq_sqrt g2.le).symm⟩
  simp only [β, γ] at hU hV
  rw [es, ew] at hU
  rw [et, ew] at hV
  rw [es, et, ew]
  refine triple_alg hs ht hw hU hV ?_ ?_ ?_
  · field_simp
    ring
  · field_simp
    ring
  · field_simp
    ring

/-! ### invariances -/

theorem noRelation_scale {k : ℕ} {cols : Fin k → Fin n → ℝ} {a b : Fin k → ℝ} (ha : ∀ j, a j ≠ 0) :
    NoLinearRelation (fun j i => a j * cols j i + b j) ↔ NoLinearRelation cols := by
  constructor
  · intro h c hc
    have := h (fun j => c j / a j) (fun i => by
      rw [← hc i]
      refine Finset.sum_congr rfl (fun j _ => ?_)
      rw [centred_eq, dev_affine, centred_eq, ← mul_assoc, div_mul_cancel₀ _ (ha j)])
    funext j
    have hj := congrFun this j
    simpa [ha j] using hj
  · intro h c hc
    have := h (fun j => c j * a j) (fun i => by
      rw [← hc i]
      refine Finset.sum_congr rfl (fun j _ => ?_)
      rw [centred_eq, centred_eq, dev_affine, mul_assoc])
    funext j
    have hj := congrFun this j
    simpa [ha j] using hj

theorem residual_scale {k : ℕ} {x : Fin n → ℝ} {S : Fin k → Fin n → ℝ} {β : Fin k → ℝ} {a b : ℝ} {c d : Fin k → ℝ}
    (hc : ∀ s, c s ≠ 0) :
    residual (fun i => a * x i + b) (fun s i => c s * S s i + d s) (fun s => a * β s / c s)
      = fun i => a * residual x S β i := by
  funext i
  unfold residual
  rw [centred_eq, dev_affine, mul_sub, Finset.mul_sum]
  congr 1
  refine Finset.sum_congr rfl (fun s _ => ?_)
  rw [centred_eq, dev_affine, centred_eq]
  have := hc s
  field_simp

theorem leastSquares_scale {k : ℕ} {x : Fin n → ℝ} {S : Fin k → Fin n → ℝ} {β : Fin k → ℝ} {a b : ℝ} {c d : Fin k → ℝ}
    (hc : ∀ s, c s ≠ 0) (h : LeastSquares x S β) :
    LeastSquares (fun i => a * x i + b) (fun s i => c s * S s i + d s) (fun s => a * β s / c s) := by
  intro s
  rw [residual_scale hc]
  have e : ∀ i, a * residual x S β i * centred (fun i => c s * S s i + d s) i
      = a * c s * (residual x S β i * centred (S s) i) := by
    intro i
    rw [centred_eq, dev_affine, centred_eq]
    ring
  simp only [e]
  rw [← Finset.mul_sum, h s, mul_zero]

theorem parCorr_scale {k : ℕ} (cols : Fin (k + 2) → Fin n → ℝ) (hn : 2 ≤ n) {a b : Fin (k + 2) → ℝ}
    (ha : ∀ j, a j ≠ 0) :
    (matrixParCorr (torchCov (fun j i => a j * cols j i + b j))).map (|·|)
      = (matrixParCorr (torchCov cols)).map (|·|) := by
  by_cases h : NoLinearRelation cols
  · obtain ⟨β, γ, hβ, hγ, e⟩ := parCorr_exists hn h
    have h' := (noRelation_scale (b := b) ha).2 h
    have hb := leastSquares_scale (a := a 0) (b := b 0) (c := fun s : Fin k => a s.succ.succ)
      (d := fun s => b s.succ.succ) (fun s => ha _) hβ
    have hg := leastSquares_scale (a := a 1) (b := b 1) (c := fun s : Fin k => a s.succ.succ)
      (d := fun s => b s.succ.succ) (fun s => ha _) hγ
    rw [e, residual_corr hn (torchCov_posDef_of hn h') hb hg]
    rw [residual_scale (fun s => ha _), residual_scale (fun s => ha _), Option.map_some, Option.map_some,
      cosine_scale_abs (ha 0) (ha 1)]
  · rw [matrixParCorr_none hn h, matrixParCorr_none hn (fun h' => h ((noRelation_scale ha).1 h'))]

theorem parCorr_abs_lt {k : ℕ} {cols : Fin (k + 2) → Fin n → ℝ} (hn : 2 ≤ n) {r : ℝ}
    (h : matrixParCorr (torchCov cols) = some r) : |r| < 1 := by
  have hL : NoLinearRelation cols := by
    by_contra hc
    rw [matrixParCorr_none hn hc] at h
    exact Option.some_ne_none _ h.symm
  obtain ⟨β, γ, -, -, e⟩ := parCorr_exists hn hL
  rw [e] at h
  cases h
  obtain ⟨h1, h2, h3⟩ := resid_strict hL β γ
  exact cosine_abs_lt h1 h2 h3

theorem noRelation_perm {k : ℕ} {cols : Fin k → Fin n → ℝ} (σ : Equiv.Perm (Fin k)) (h : NoLinearRelation cols) :
    NoLinearRelation (fun j => cols (σ j)) := by
  intro a ha
  have := h (fun j => a (σ.symm j)) (fun i => by
    rw [← ha i, ← Equiv.sum_comp σ]
    simp)
  funext j
  have hj := congrFun this (σ j)
  simpa using hj

theorem noRelation_perm_iff {k : ℕ} {cols : Fin k → Fin n → ℝ} (σ : Equiv.Perm (Fin k)) :
    NoLinearRelation (fun j => cols (σ j)) ↔ NoLinearRelation cols := by
  refine ⟨fun h => ?_, noRelation_perm σ⟩
  have := noRelation_perm σ.symm h
  simpa using this

theorem residual_perm {k : ℕ} {x : Fin n → ℝ} {S : Fin k → Fin n → ℝ} {β : Fin k → ℝ} (τ : Equiv.Perm (Fin k)) :
    residual x (fun s => S (τ s)) (fun s => β (τ s)) = residual x S β := by
  funext i
  unfold residual
  congr 1
  exact Equiv.sum_comp τ (fun s => β s * centred (S s) i)

theorem leastSquares_perm {k : ℕ} {x : Fin n → ℝ} {S : Fin k → Fin n → ℝ} {β : Fin k → ℝ} (τ : Equiv.Perm (Fin k))
    (h : LeastSquares x S β) : LeastSquares x (fun s => S (τ s)) (fun s => β (τ s)) := by
  intro s
  rw [residual_perm]
  exact h (τ s)

/-- a list of columns with first entries `x`, `y` and the rest `S` -/
theorem split_cols {k : ℕ} (σ : Equiv.Perm (Fin (k + 2)))
    (h : ∀ s : Fin k, ∃ t : Fin k, σ s.succ.succ = t.succ.succ) :
    ∃ τ : Equiv.Perm (Fin k), ∀ s, σ s.succ.succ = (τ s).succ.succ := by
  choose f hf using h
  have hi : Function.Injective f := by
    intro s t e
    have := σ.injective ((hf s).trans ((congrArg (fun t => Fin.succ (Fin.succ t)) e).trans (hf t).symm))
    simpa using this
  exact ⟨Equiv.ofBijective f (Finite.injective_iff_bijective.1 hi), hf⟩

theorem parCorr_perm {k : ℕ} (cols : Fin (k + 2) → Fin n → ℝ) (hn : 2 ≤ n) (σ : Equiv.Perm (Fin (k + 2)))
    (hσ : σ 0 = 0 ∧ σ 1 = 1 ∨ σ 0 = 1 ∧ σ 1 = 0) :
    matrixParCorr (torchCov (fun j => cols (σ j))) = matrixParCorr (torchCov cols) := by
  have hrest : ∀ s : Fin k, ∃ t : Fin k, σ s.succ.succ = t.succ.succ := by
    intro s
    have n0 : σ s.succ.succ ≠ 0 := by
      intro e
      rcases hσ with ⟨a, -⟩ | ⟨-, a⟩
      · have := σ.injective (e.trans a.symm)
        exact Fin.succ_ne_zero _ this
      · have := σ.injective (e.trans a.symm)
        exact Fin.succ_ne_zero s (Fin.succ_injective _ this)
    have n1 : σ s.succ.succ ≠ 1 := by
      intro e
      rcases hσ with ⟨-, a⟩ | ⟨a, -⟩
      · have := σ.injective (e.trans a.symm)
        exact Fin.succ_ne_zero s (Fin.succ_injective _ this)
      · have := σ.injective (e.trans a.symm)
        exact Fin.succ_ne_zero _ this
    obtain ⟨t, ht⟩ := Fin.exists_succ_eq.2 n0
    obtain ⟨u, hu⟩ := Fin.exists_succ_eq.2 (show t ≠ 0 from fun e => n1 (by rw [← ht, e]; rfl))
    exact ⟨u, by rw [← ht, hu]⟩
  obtain ⟨τ, hτ⟩ := split_cols σ hrest
  by_cases h : NoLinearRelation cols
  · obtain ⟨β, γ, hβ, hγ, e⟩ := parCorr_exists hn h
    have h' := noRelation_perm σ h
    have hC := torchCov_posDef_of hn h'
    have hS : (fun s : Fin k => cols (σ s.succ.succ)) = fun s => (fun t : Fin k => cols t.succ.succ) (τ s) := by
      funext s
      rw [hτ]
    have hb := leastSquares_perm τ hβ
    have hg := leastSquares_perm τ hγ
    rw [← hS] at hb hg
    have rb := residual_perm (x := cols 0) (β := β) (S := fun t : Fin k => cols t.succ.succ) τ
    have rg := residual_perm (x := cols 1) (β := γ) (S := fun t : Fin k => cols t.succ.succ) τ
    rw [← hS] at rb rg
    rcases hσ with ⟨s0, s1⟩ | ⟨s0, s1⟩
    · rw [e, residual_corr (cols := fun j => cols (σ j)) (β := fun s => β (τ s)) (γ := fun s => γ (τ s)) hn hC
        (by rw [s0]; exact hb) (by rw [s1]; exact hg)]
      simp only [s0, s1]
      rw [rb, rg]
    · rw [e, residual_corr (cols := fun j => cols (σ j)) (β := fun s => γ (τ s)) (γ := fun s => β (τ s)) hn hC
        (by rw [s0]; exact hg) (by rw [s1]; exact hb)]
      simp only [s0, s1]
      rw [rb, rg, cosine_comm]
  · rw [matrixParCorr_none hn h, matrixParCorr_none hn (fun h' => h ((noRelation_perm_iff σ).1 h'))]

/-! ### the decision -/

/-- Fisher's transformation -/
noncomputable def fz (r : ℝ) : ℝ := 0.5 * Real.log ((1 + r) / (1 - r))

theorem fisherZ_ok {r : ℝ} (h : |r| < 1) : fisherZ r = .ok (fz r) := by
  obtain ⟨h1, h2⟩ := abs_lt.1 h
  unfold fisherZ
  have : 0 < (1 + r) / (1 - r) := div_pos (by linarith) (by linarith)
  rw [if_neg (by linarith), if_neg (not_le.2 this)]
  rfl

theorem fisherZ_error {r : ℝ} (h : 1 ≤ |r|) : ∃ e, fisherZ r = .error e := by
  unfold fisherZ
  by_cases h1 : 1 - r = 0
  · exact ⟨_, if_pos h1⟩
  · rw [if_neg h1, if_pos]
    · exact ⟨_, rfl⟩
    · rcases le_abs.1 h with h2 | h2
      · exact div_nonpos_of_nonneg_of_nonpos (by linarith) (by linarith)
      · exact div_nonpos_of_nonpos_of_nonneg (by linarith) (by linarith)

theorem fz_neg (r : ℝ) : fz (-r) = -fz r := by
  unfold fz
  rw [show (1 + -r) / (1 - -r) = ((1 + r) / (1 - r))⁻¹ by rw [inv_div]; ring, Real.log_inv]
  ring

theorem fz_nonneg {r : ℝ} (h0 : 0 ≤ r) (h1 : r < 1) : 0 ≤ fz r := by
  unfold fz
  refine mul_nonneg (by norm_num) (Real.log_nonneg ?_)
  rw [le_div_iff₀ (by linarith)]
  linarith

theorem fz_mono {r s : ℝ} (h0 : 0 ≤ r) (h : r ≤ s) (h1 : s < 1) : fz r ≤ fz s := by
  unfold fz
  refine mul_le_mul_of_nonneg_left (Real.log_le_log (div_pos (by linarith) (by linarith)) ?_) (by norm_num)
  exact div_le_div₀ (by linarith) (by linarith) (by linarith) (by linarith)

theorem abs_fz {r : ℝ} (h : |r| < 1) : |fz r| = fz |r| := by
  rcases le_total 0 r with h0 | h0
  · rw [abs_of_nonneg h0] at *
    exact abs_of_nonneg (fz_nonneg h0 h)
  · rw [abs_of_nonpos h0] at *
    rw [← abs_neg, ← fz_neg]
    exact abs_of_nonneg (fz_nonneg (by linarith) h)

theorem independent_ok {Φ : ℝ → ℝ} {t : ℝ} {m c : ℕ} {r : ℝ} (hr : |r| < 1) (hm : c + 3 ≤ m) :
    independent Φ t m c r = .ok (decide (t < 2 * (1 - Φ (fz |r| * √((m : ℝ) - c - 3))))) := by
  have : ((c : ℝ) + 3) ≤ m := by exact_mod_cast hm
  unfold independent
  rw [fisherZ_ok hr]
  simp only
  rw [if_neg (by linarith), abs_fz hr]

theorem independent_abs {Φ : ℝ → ℝ} {t : ℝ} {m c : ℕ} {r s : ℝ} (hr : |r| < 1) (h : |r| = |s|) :
    independent Φ t m c r = independent Φ t m c s := by
  unfold independent
  rw [fisherZ_ok hr, fisherZ_ok (h ▸ hr)]
  simp only
  rw [abs_fz hr, abs_fz (h ▸ hr), h]

theorem matrixDecision_congr {Φ : ℝ → ℝ} {t : ℝ} {k : ℕ} {c d : Fin (k + 2) → Fin n → ℝ} (hn : 2 ≤ n)
    (h : (matrixParCorr (torchCov c)).map (|·|) = (matrixParCorr (torchCov d)).map (|·|)) :
    matrixDecision Φ t c = matrixDecision Φ t d := by
  unfold matrixDecision
  rcases hc : matrixParCorr (torchCov c) with _ | r <;> rcases hd : matrixParCorr (torchCov d) with _ | s
  · rfl
  · rw [hc, hd] at h
    cases h
  · rw [hc, hd] at h
    cases h
  · rw [hc, hd] at h
    have : |r| = |s| := Option.some.inj h
    simp only
    rw [independent_abs (parCorr_abs_lt hn hc) this]

end Stats
end Verif
