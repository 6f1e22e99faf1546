import Mathlib.Analysis.Complex.ExponentialBounds
import Verif.Linear.Lemmas2
import Verif.Dag.Decide

/-!
# Lemmas: statistics of concrete data
-/

namespace Verif
namespace Linear
open Dag Stats
variable {ι : Type} [DecidableEq ι] {n : ℕ}

theorem half_le_abs_cosine {u v : Fin n → ℝ} (h : 0 < (∑ i, u i * u i) * ∑ i, v i * v i)
    (h4 : (∑ i, u i * u i) * (∑ i, v i * v i) ≤ 4 * (∑ i, u i * v i) ^ 2) : 1 / 2 ≤ |cosine u v| := by
  unfold cosine
  rw [abs_div, abs_of_nonneg (Real.sqrt_nonneg _), le_div_iff₀ (Real.sqrt_pos.2 h)]
  have : √((∑ i, u i * u i) * ∑ i, v i * v i) ≤ 2 * |∑ i, u i * v i| := by
    rw [Real.sqrt_le_left (by positivity)]
    rw [mul_pow, sq_abs]
    linarith
  linarith

/-- a correlation of at least one half is visible with few samples -/
theorem one_le_statistic {c : ℕ} {r : ℝ} (hr : |r| < 1) (h : 1 / 2 ≤ |r|) (hc : c + 7 ≤ n) : 1 ≤ statistic n c r := by
  unfold statistic
  have hlog : (1 : ℝ) ≤ Real.log 3 := by
    rw [Real.le_log_iff_exp_le (by norm_num)]
    exact (Real.exp_one_lt_d9.trans (by norm_num)).le
  have key : ∀ s : ℝ, 1 / 2 ≤ s → s < 1 → (1 : ℝ) ≤ Real.log ((1 + s) / (1 - s)) := by
    intro s h1 h2
    refine hlog.trans (Real.log_le_log (by norm_num) ?_)
    rw [le_div_iff₀ (by linarith)]
    linarith
  have h1 : 1 / 2 ≤ |1 / 2 * Real.log ((1 + r) / (1 - r))| := by
    rw [abs_mul, abs_of_pos (by norm_num : (0 : ℝ) < 1 / 2)]
    rcases le_total 0 r with h0 | h0
    · rw [abs_of_nonneg h0] at h hr
      have := le_abs_self (Real.log ((1 + r) / (1 - r)))
      linarith [key r h hr]
    · rw [abs_of_nonpos h0] at h hr
      have e : (1 + r) / (1 - r) = ((1 + -r) / (1 - -r))⁻¹ := by
        rw [inv_div]
        congr 1 <;> ring
      rw [e, Real.log_inv, abs_neg]
      have := le_abs_self (Real.log ((1 + -r) / (1 - -r)))
      linarith [key (-r) h hr]
  have h2 : 2 ≤ √((n : ℝ) - c - 3) := by
    refine Real.le_sqrt_of_sq_le ?_
    have : ((c : ℝ) + 7) ≤ n := by exact_mod_cast hc
    linarith
  nlinarith [Real.sqrt_nonneg ((n : ℝ) - c - 3)]

theorem marginal_visible {col : ι → Fin n → ℝ} {N : List ι} (hn : 7 ≤ n) (h : NoRelation col N) {x y : ι}
    (hq : Question N x y []) (h4 : gram (col x) (col x) * gram (col y) (col y) ≤ 4 * gram (col x) (col y) ^ 2) {r : ℝ}
    (hr : PartialCorr col x y [] r) : 1 ≤ statistic n 0 r := by
  obtain ⟨r', h1, h2, h3, hu⟩ := partialCorr_unique (by omega) h hq
  obtain rfl := hu r hr
  have hl : NoLinearRelation (colsOf col x y []) := h.list hq.1 hq.2
  have gx : 0 < gram (col x) (col x) := varies_of_noRelation hl 0
  have gy : 0 < gram (col y) (col y) := varies_of_noRelation hl 1
  obtain ⟨β, γ, _, _, rfl⟩ := hr
  have e : ∀ (w : Fin n → ℝ) (δ : Fin 0 → ℝ), residual w (fun s => col (([] : List ι).get s)) δ = dev w := by
    intro w δ
    funext i
    simp only [Stats.residual]
    rw [Finset.sum_eq_zero (fun s _ => absurd s.2 (by simp)), sub_zero]
    rfl
  refine one_le_statistic h2 ?_ (by omega)
  rw [e, e]
  exact half_le_abs_cosine (mul_pos gx gy) h4

theorem triple_visible {col : ι → Fin n → ℝ} {N : List ι} (hn : 8 ≤ n) (h : NoRelation col N) {x y z : ι}
    (hq : Question N x y [z])
    (h4 : (gram (col x) (col x) * gram (col z) (col z) - gram (col x) (col z) ^ 2) *
        (gram (col y) (col y) * gram (col z) (col z) - gram (col y) (col z) ^ 2) ≤
      4 * (gram (col x) (col y) * gram (col z) (col z) - gram (col x) (col z) * gram (col y) (col z)) ^ 2) {r : ℝ}
    (hr : PartialCorr col x y [z] r) : 1 ≤ statistic n 1 r := by
  obtain ⟨r', h1, h2, h3, hu⟩ := partialCorr_unique (by omega) h hq
  have hl : NoLinearRelation (colsOf col x y [z]) := h.list hq.1 hq.2
  have gz : 0 < gram (col z) (col z) := varies_of_noRelation hl 2
  -- the residuals with explicit coefficients
  have sums : ∀ (a b : Fin n → ℝ) (s t : ℝ), ∑ i, (dev a i - s * dev (col z) i) * (dev b i - t * dev (col z) i)
      = gram a b - t * gram a (col z) - s * gram b (col z) + s * t * gram (col z) (col z) := by
    intro a b s t
    unfold gram
    simp only [Finset.mul_sum]
    rw [← Finset.sum_sub_distrib, ← Finset.sum_sub_distrib, ← Finset.sum_add_distrib]
    exact Finset.sum_congr rfl (fun i _ => by ring)
  have res : ∀ (w : Fin n → ℝ) (s : ℝ), residual w (fun j : Fin [z].length => col ([z].get j)) (fun _ => s)
      = fun i => dev w i - s * dev (col z) i := by
    intro w s
    funext i
    unfold Stats.residual
    rw [show (Finset.univ : Finset (Fin [z].length)) = {0} from rfl, Finset.sum_singleton]
    rfl
  have ls : ∀ w : Fin n → ℝ, LeastSquares w (fun j : Fin [z].length => col ([z].get j))
      (fun _ => gram w (col z) / gram (col z) (col z)) := by
    intro w j
    rw [res]
    have hj : ([z].get j) = z := by
      have : j = 0 := Fin.ext (by have := j.2; simp at this; simp [this])
      rw [this]; rfl
    simp only [hj]
    have e : ∑ i, (dev w i - gram w (col z) / gram (col z) (col z) * dev (col z) i) * centred (col z) i
        = gram w (col z) - gram w (col z) / gram (col z) (col z) * gram (col z) (col z) := by
      unfold gram
      simp only [Finset.mul_sum]
      rw [← Finset.sum_sub_distrib]
      exact Finset.sum_congr rfl (fun i _ => by rw [centred_eq]; ring)
    rw [e, div_mul_cancel₀ _ gz.ne', sub_self]
  have hr' : PartialCorr col x y [z] _ := ⟨_, _, ls (col x), ls (col y), rfl⟩
  have e1 := hu _ hr'
  have e2 := hu r hr
  obtain ⟨px, py, _⟩ := resid_strict hl (fun _ => gram (col x) (col z) / gram (col z) (col z))
    (fun _ => gram (col y) (col z) / gram (col z) (col z))
  refine one_le_statistic (by rw [e2]; exact h2) ?_ (by omega)
  rw [e2, ← e1]
  refine half_le_abs_cosine (mul_pos px py) ?_
  rw [res, res]
  simp only [sums]
  generalize gram (col z) (col z) = g at gz h4
  generalize gram (col x) (col z) = a at h4
  generalize gram (col y) (col z) = b at h4
  have k : ∀ p a b : ℝ, p - b / g * a - a / g * b + a / g * (b / g) * g = (p * g - a * b) / g := by
    intro p a b
    field_simp
    ring
  rw [k, k, k, div_mul_div_comm, div_pow, ← mul_div_assoc, ← pow_two g]
  exact div_le_div_of_nonneg_right (by simpa [pow_two] using h4) (by positivity)

/-- columns of integers with sum zero -/
theorem gram_int {s t : Fin n → ℤ} (hs : ∑ i, s i = 0) (ht : ∑ i, t i = 0) :
    gram (fun i => (s i : ℝ)) (fun i => (t i : ℝ)) = ((∑ i, s i * t i : ℤ) : ℝ) := by
  have d : ∀ {t : Fin n → ℤ}, ∑ i, t i = 0 → dev (fun i => (t i : ℝ)) = fun i => (t i : ℝ) := by
    intro t ht
    funext i
    unfold dev mean
    rw [← Int.cast_sum, ht]
    simp
  unfold gram
  rw [d hs, d ht]
  push_cast
  rfl

/-- three variables, two of them separated by nothing, all correlations at least one half -/
theorem three_visible {E : ℕ → ℕ → Prop} {col : ℕ → Fin n → ℝ} (hn : 8 ≤ n) (hN : NoRelation col [0, 1, 2])
    (h0 : ∀ x ∈ [0, 1, 2], ∀ y ∈ [0, 1, 2], x ≠ y → ¬ DSep E x y [] →
      gram (col x) (col x) * gram (col y) (col y) ≤ 4 * gram (col x) (col y) ^ 2)
    (h1 : ∀ x ∈ [0, 1, 2], ∀ y ∈ [0, 1, 2], ∀ z ∈ [0, 1, 2], x ≠ y → x ≠ z → y ≠ z →
      (gram (col x) (col x) * gram (col z) (col z) - gram (col x) (col z) ^ 2) *
        (gram (col y) (col y) * gram (col z) (col z) - gram (col y) (col z) ^ 2) ≤
      4 * (gram (col x) (col y) * gram (col z) (col z) - gram (col x) (col z) * gram (col y) (col z)) ^ 2) :
    Visible E [0, 1, 2] 1 col := by
  intro x y S hq hs r hr
  have hl := hq.length_le
  obtain ⟨hnd, hm⟩ := id hq
  match S, hl with
  | [], _ =>
    refine marginal_visible (by omega) hN hq ?_ hr
    exact h0 x (hm x (by simp)) y (hm y (by simp)) (by simp at hnd; exact hnd) hs
  | [z], _ =>
    refine triple_visible hn hN hq ?_ hr
    simp only [List.nodup_cons, List.mem_cons, List.not_mem_nil, or_false, not_or, not_false_eq_true, List.nodup_nil,
      and_true] at hnd
    exact h1 x (hm x (by simp)) y (hm y (by simp)) z (hm z (by simp)) hnd.1.1 hnd.1.2 hnd.2
  | _ :: _ :: _, hl => simp at hl

/-- the relation given by a list of pairs -/
def pairs (L : List (ℕ × ℕ)) : ℕ → ℕ → Prop := fun a b => (a, b) ∈ L

instance (L : List (ℕ × ℕ)) : DecidableRel (pairs L) := fun a b => inferInstanceAs (Decidable ((a, b) ∈ L))

/-- the same for a table of integers with computable conditions -/
theorem table_visible {edges : List (Sample.SEdge ℕ ℝ)} {noise : ℕ → Fin n → ℝ} {t : ℕ → Fin n → ℤ} (hn : 8 ≤ n)
    (L : List (ℕ × ℕ)) (hE : ∀ a b, Sample.HasEdge edges a b ↔ (a, b) ∈ L)
    (hd : LinearData edges noise (fun v i => (t v i : ℝ)) [0, 1, 2]) (hsum : ∀ v ∈ [0, 1, 2], ∑ i, t v i = 0)
    (h0 : ∀ x ∈ [0, 1, 2], ∀ y ∈ [0, 1, 2], x ≠ y → dsep (pairs L) [0, 1, 2] x y [] = false →
      (∑ i, t x i * t x i) * (∑ i, t y i * t y i) ≤ 4 * (∑ i, t x i * t y i) ^ 2)
    (h1 : ∀ x ∈ [0, 1, 2], ∀ y ∈ [0, 1, 2], ∀ z ∈ [0, 1, 2], x ≠ y → x ≠ z → y ≠ z →
      ((∑ i, t x i * t x i) * (∑ i, t z i * t z i) - (∑ i, t x i * t z i) ^ 2) *
        ((∑ i, t y i * t y i) * (∑ i, t z i * t z i) - (∑ i, t y i * t z i) ^ 2) ≤
      4 * ((∑ i, t x i * t y i) * (∑ i, t z i * t z i) - (∑ i, t x i * t z i) * (∑ i, t y i * t z i)) ^ 2) :
    Visible (Sample.HasEdge edges) [0, 1, 2] 1 (fun v i => (t v i : ℝ)) := by
  have hE' : Sample.HasEdge edges = pairs L := by
    funext a b
    exact propext (hE a b)
  have hac := hd.acyclic
  have hmem : ∀ a b, pairs L a b → a ∈ [0, 1, 2] ∧ b ∈ [0, 1, 2] := by
    intro a b h
    rw [← hE'] at h
    obtain ⟨e, he, rfl, rfl⟩ := h
    exact ⟨(hd.vars _).2 ⟨e, he, Or.inl rfl⟩, (hd.vars _).2 ⟨e, he, Or.inr rfl⟩⟩
  have hG : ∀ v ∈ [0, 1, 2], ∀ w ∈ [0, 1, 2], gram (fun i => (t v i : ℝ)) (fun i => (t w i : ℝ))
      = ((∑ i, t v i * t w i : ℤ) : ℝ) := fun v hv w hw => gram_int (hsum v hv) (hsum w hw)
  refine three_visible hn (structural_noRelation hd.acyclic hd.equations hd.vars hd.uncorrelated hd.varies) ?_ ?_
  · intro x hx y hy hxy hs
    have := h0 x hx y hy hxy (by
      rw [hE'] at hs hac
      rw [← Bool.not_eq_true, Dag.dsep_iff hac hmem hx]
      exact hs)
    rw [hG x hx x hx, hG y hy y hy, hG x hx y hy]
    exact_mod_cast this
  · intro x hx y hy z hz h2 h3 h4
    rw [hG x hx x hx, hG y hy y hy, hG x hx y hy, hG x hx z hz, hG y hy z hz, hG z hz z hz]
    exact_mod_cast h1 x hx y hy z hz h2 h3 h4

end Linear
end Verif
