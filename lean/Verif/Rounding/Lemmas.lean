import Verif.Rounding.Limits

/-!
# Lemmas: the answers of the tests with rounding errors
-/

namespace Verif
namespace Rounding
open Filter Topology Linear
variable {κ : Type} {l : Filter κ} {A : κ → Arith} {u : κ → ℝ} {Φ : ℝ → ℝ} {n : ℕ}

theorem pearson_comm {A : Arith} {u : ℝ} (h : A.Precise Φ u) (x y : Fin n → ℝ) : pearson A x y = pearson A y x := by
  have e : covPop A x y = covPop A y x := by
    unfold covPop
    congr 1
    funext i
    exact h.mul_comm _ _
  unfold pearson
  rw [e, h.mul_comm (A.std x)]

namespace Improving
variable (h : Improving l A u Φ)
include h

theorem mean {a : κ → Fin n → ℝ} {x : Fin n → ℝ} (ha : ∀ i, Tendsto (fun k => a k i) l (𝓝 (x i))) (hn : n ≠ 0) :
    Tendsto (fun k => Rounding.mean (A k) (a k)) l (𝓝 (Stats.mean x)) :=
  h.div (h.sum ha) tendsto_const_nhds (by exact_mod_cast hn)

theorem covPop {a b : κ → Fin n → ℝ} {x y : Fin n → ℝ} (ha : ∀ i, Tendsto (fun k => a k i) l (𝓝 (x i)))
    (hb : ∀ i, Tendsto (fun k => b k i) l (𝓝 (y i))) (hn : n ≠ 0) :
    Tendsto (fun k => Rounding.covPop (A k) (a k) (b k)) l (𝓝 (Stats.covPop x y)) :=
  h.mean (fun i => h.mul (h.sub (ha i) (h.mean ha hn)) (h.sub (hb i) (h.mean hb hn))) hn

theorem pearson {a b : κ → Fin n → ℝ} {x y : Fin n → ℝ} (ha : ∀ i, Tendsto (fun k => a k i) l (𝓝 (x i)))
    (hb : ∀ i, Tendsto (fun k => b k i) l (𝓝 (y i))) (hn : n ≠ 0) {r : ℝ} (hr : Stats.pearson x y = some r) :
    ∃ s : κ → ℝ, (∀ᶠ k in l, Rounding.pearson (A k) (a k) (b k) = some (s k)) ∧ Tendsto s l (𝓝 r) := by
  unfold Stats.pearson Stats.pearsonRaw at hr
  split at hr
  · simp at hr
  case isFalse hne =>
    simp only [Option.map_some, Option.some.injEq] at hr
    have hs := h.mul (h.std ha) (h.std hb)
    have hq := h.div (h.covPop ha hb hn) hs hne
    have hc : Continuous Stats.clamp := by
      have : Stats.clamp = fun r => max (-1) (min 1 r) := by
        funext r
        unfold Stats.clamp
        split
        · rw [min_eq_right (by linarith), max_eq_left (by linarith)]
        · split
          · rw [min_eq_left (by linarith), max_eq_right (by norm_num)]
          · rw [min_eq_right (by linarith), max_eq_right (by linarith)]
      rw [this]
      fun_prop
    refine ⟨fun k => Stats.clamp ((A k).div (Rounding.covPop (A k) (a k) (b k)) ((A k).mul ((A k).std (a k)) ((A k).std (b k)))),
      ?_, hr ▸ (hc.tendsto _).comp hq⟩
    filter_upwards [hs.eventually_ne hne] with k hk
    unfold Rounding.pearson
    exact if_neg hk

theorem tripleParCorr {a b c : κ → ℝ} {x y z r : ℝ} (ha : Tendsto a l (𝓝 x)) (hb : Tendsto b l (𝓝 y))
    (hc : Tendsto c l (𝓝 z)) (hr : Stats.tripleParCorr x y z = some r) :
    ∃ s : κ → ℝ, (∀ᶠ k in l, Rounding.tripleParCorr (A k) (a k) (b k) (c k) = some (s k)) ∧ Tendsto s l (𝓝 r) := by
  unfold Stats.tripleParCorr at hr
  split at hr
  · simp at hr
  case isFalse hne =>
    rw [Option.some.injEq, pow_two, pow_two] at hr
    rw [pow_two, pow_two] at hne
    have hp : 0 < (1 - y * y) * (1 - z * z) := by
      by_contra hh
      exact hne (Real.sqrt_eq_zero'.2 (not_lt.1 hh))
    have hd := h.sqrt (h.mul (h.sub tendsto_const_nhds (h.mul hb hb)) (h.sub tendsto_const_nhds (h.mul hc hc))) hp
    refine ⟨_, ?_, hr ▸ h.div (h.sub ha (h.mul hb hc)) hd hne⟩
    filter_upwards [hd.eventually_ne hne] with k hk
    unfold Rounding.tripleParCorr
    exact if_neg hk

theorem diff {e c : κ → ℝ} {B : ℝ} (he : ∀ᶠ k in l, |e k| ≤ B) (hc : ∀ k, Computes (u k) (e k) (c k)) :
    Tendsto (fun k => c k - e k) l (𝓝 0) := by
  refine squeeze_zero_norm' ?_ (h.small (tendsto_const_nhds (x := B)))
  filter_upwards [he, h.large (tendsto_const_nhds (x := B))] with k h1 h2
  exact (hc k (h1.trans h2)).trans (mul_le_mul_of_nonneg_left (by linarith) (h.pos k).le)

/-- the computed p value differs less and less from the one of the computed statistic -/
theorem pValue (hΦ : Monotone Φ) {a : κ → ℝ} {x : ℝ} (ha : Tendsto a l (𝓝 x)) :
    Tendsto (fun k => (A k).mul 2 ((A k).sub 1 ((A k).cdf (a k))) - 2 * (1 - Φ (a k))) l (𝓝 0) := by
  let B := |Φ (x - 1)| + |Φ (x + 1)|
  have hb : ∀ᶠ k in l, |Φ (a k)| ≤ B := by
    filter_upwards [ha.eventually (lt_mem_nhds (show x - 1 < x by linarith)),
      ha.eventually (gt_mem_nhds (show x < x + 1 by linarith))] with k h1 h2
    rw [abs_le]
    have e1 := hΦ h1.le
    have e2 := hΦ h2.le
    have e3 := neg_abs_le (Φ (x - 1))
    have e4 := le_abs_self (Φ (x + 1))
    have e5 := abs_nonneg (Φ (x - 1))
    have e6 := abs_nonneg (Φ (x + 1))
    exact ⟨by simp only [B]; linarith, by simp only [B]; linarith⟩
  have h1 : Tendsto (fun k => (A k).cdf (a k) - Φ (a k)) l (𝓝 0) :=
    squeeze_zero_norm' (.of_forall fun k => (h.precise k).cdf _) h.zero
  have b1 : ∀ᶠ k in l, |1 - (A k).cdf (a k)| ≤ B + 2 := by
    filter_upwards [hb, h1.abs.eventually (gt_mem_nhds (show |(0 : ℝ)| < 1 by simp))] with k e1 e2
    rw [abs_le] at e1 ⊢
    rw [abs_lt] at e2
    constructor <;> linarith [e1.1, e1.2, e2.1, e2.2]
  have h2 := h.diff b1 (fun k => (h.precise k).sub 1 ((A k).cdf (a k)))
  have b2 : ∀ᶠ k in l, |2 * (A k).sub 1 ((A k).cdf (a k))| ≤ 2 * (B + 3) := by
    filter_upwards [b1, h2.abs.eventually (gt_mem_nhds (show |(0 : ℝ)| < 1 by simp))] with k e1 e2
    rw [abs_le] at e1 ⊢
    rw [abs_lt] at e2
    constructor <;> linarith [e1.1, e1.2, e2.1, e2.2]
  have h3 := h.diff b2 (fun k => (h.precise k).mul 2 ((A k).sub 1 ((A k).cdf (a k))))
  have := (h3.add (h2.const_mul 2)).sub (h1.const_mul 2)
  simp only [mul_zero, add_zero, sub_zero] at this
  refine this.congr (fun k => ?_)
  ring

theorem pAbove (hΦ : StrictMono Φ) {threshold q : ℝ} (hq : Φ q = 1 - threshold / 2) {c : ℕ} (hm : c + 3 ≤ n)
    {a : κ → ℝ} {x : ℝ} (ha : Tendsto a l (𝓝 x)) (hne : |x| * √((n : ℝ) - c - 3) ≠ q) :
    ∀ᶠ k in l, Rounding.pAbove (A k) threshold n c (a k) = .ok (decide (|x| * √((n : ℝ) - c - 3) < q)) := by
  have h0 : 0 ≤ (n : ℝ) - c - 3 := by
    have : ((c : ℝ) + 3) ≤ n := by exact_mod_cast hm
    linarith
  have hz := h.mul ha.abs (h.sqrt_const h0)
  have hp := h.pValue hΦ.monotone hz
  have key : ∀ᶠ k in l, (threshold < (A k).mul 2 ((A k).sub 1 ((A k).cdf ((A k).mul |a k| ((A k).sqrt ((n : ℝ) - c - 3)))))
      ↔ |x| * √((n : ℝ) - c - 3) < q) := by
    rcases lt_or_gt_of_ne hne with hlt | hgt
    · obtain ⟨s, hs1, hs2⟩ := exists_between hlt
      have hm := hΦ hs2
      filter_upwards [hz.eventually (gt_mem_nhds hs1), hp.eventually (lt_mem_nhds (show -(Φ q - Φ s) < 0 by linarith))] with k e1 e2
      have := hΦ.monotone e1.le
      exact ⟨fun _ => hlt, fun _ => by linarith⟩
    · obtain ⟨s, hs1, hs2⟩ := exists_between hgt
      have hm := hΦ hs1
      filter_upwards [hz.eventually (lt_mem_nhds hs2), hp.eventually (gt_mem_nhds (show 0 < Φ s - Φ q by linarith))] with k e1 e2
      have := hΦ.monotone e1.le
      exact ⟨fun h => by exfalso; linarith, fun h => by exfalso; linarith⟩
  filter_upwards [key] with k hk
  unfold Rounding.pAbove
  rw [if_neg (not_lt.2 h0)]
  congr 1
  exact decide_eq_decide.2 hk

theorem independent (hΦ : StrictMono Φ) {threshold q : ℝ} (hq : Φ q = 1 - threshold / 2) {c : ℕ} (hm : c + 3 ≤ n)
    {a : κ → ℝ} {r : ℝ} (ha : Tendsto a l (𝓝 r)) (hr : |r| < 1) (hne : statistic n c r ≠ q) :
    ∀ᶠ k in l, Rounding.independent (A k) threshold n c (a k) = .ok (decide (statistic n c r < q)) := by
  obtain ⟨hr1, hr2⟩ := abs_lt.1 hr
  have h1 := h.sub tendsto_const_nhds ha (x := 1)
  have h2 := h.add tendsto_const_nhds ha (x := 1)
  have hd := h.div h2 h1 (by linarith : (1 : ℝ) - r ≠ 0)
  have hpos : 0 < (1 + r) / (1 - r) := div_pos (by linarith) (by linarith)
  have hz := h.mul tendsto_const_nhds (h.log hd hpos) (x := 0.5)
  have e : |0.5 * Real.log ((1 + r) / (1 - r))| * √((n : ℝ) - c - 3) = statistic n c r := by
    unfold statistic
    norm_num
  have hp := h.pAbove hΦ hq hm hz (by rw [e]; exact hne)
  rw [e] at hp
  filter_upwards [h1.eventually_ne (by linarith : (1 : ℝ) - r ≠ 0), hd.eventually (lt_mem_nhds hpos), hp] with k e1 e2 e3
  unfold Rounding.independent fisherZ
  rw [if_neg e1, if_neg (not_le.2 e2)]
  exact e3

theorem tensorIndependent (hΦ : StrictMono Φ) {threshold q : ℝ} (hq : Φ q = 1 - threshold / 2) {c : ℕ} (hm : c + 3 ≤ n)
    {a : κ → ℝ} {r : ℝ} (ha : Tendsto a l (𝓝 r)) (hr : |r| < 1) (hne : statistic n c r ≠ q) :
    ∀ᶠ k in l, Rounding.tensorIndependent (A k) threshold n c (a k) = .ok (decide (statistic n c r < q)) := by
  obtain ⟨hr1, hr2⟩ := abs_lt.1 hr
  have h1 := h.sub tendsto_const_nhds ha (x := 1)
  filter_upwards [h1.eventually_ne (by linarith : (1 : ℝ) - r ≠ 0), h.independent hΦ hq hm ha hr hne] with k e1 e2
  unfold Rounding.tensorIndependent
  rw [if_neg e1]
  exact e2

theorem mm {m : ℕ} {X Y : κ → Matrix (Fin m) (Fin m) ℝ} {X' Y' : Matrix (Fin m) (Fin m) ℝ}
    (hX : ∀ i j, Tendsto (fun k => X k i j) l (𝓝 (X' i j))) (hY : ∀ i j, Tendsto (fun k => Y k i j) l (𝓝 (Y' i j)))
    (i j : Fin m) : Tendsto (fun k => Rounding.mm (A k) (X k) (Y k) i j) l (𝓝 ((X' * Y') i j)) := by
  rw [Matrix.mul_apply]
  exact h.sum (fun p => h.mul (hX i p) (hY p j))

theorem scaled {m : ℕ} {K : κ → Matrix (Fin m) (Fin m) ℝ} {K' : Matrix (Fin m) (Fin m) ℝ}
    (hK : ∀ i j, Tendsto (fun k => K k i j) l (𝓝 (K' i j))) (hpos : ∀ i, 0 < K' i i) (i j : Fin m) :
    Tendsto (fun k => Rounding.scaled (A k) (K k) i j) l
      (𝓝 ((Matrix.diagonal (fun i => √(K' i i)) * K' * Matrix.diagonal (fun i => √(K' i i))) i j)) := by
  have hD : ∀ i j, Tendsto (fun k => (A k).sqrt (if i = j then K k i i else 0)) l
      (𝓝 (Matrix.diagonal (fun i => √(K' i i)) i j)) := by
    intro i j
    by_cases hij : i = j
    · subst hij
      simp only [if_true, Matrix.diagonal_apply_eq]
      exact h.sqrt (hK i i) (hpos i)
    · simp only [if_neg hij, Matrix.diagonal_apply_ne _ hij]
      have := h.sqrt_const (le_refl (0 : ℝ))
      rwa [Real.sqrt_zero] at this
  exact h.mm (fun i j => h.mm hD hK i j) hD i j

theorem matrixDecision (hΦ : StrictMono Φ) {threshold q : ℝ} (hq : Φ q = 1 - threshold / 2) {m : ℕ} (hm : m + 3 ≤ n)
    {a : κ → Fin (m + 2) → Fin n → ℝ} {x : Fin (m + 2) → Fin n → ℝ} (ha : ∀ v i, Tendsto (fun k => a k v i) l (𝓝 (x v i)))
    (hx : Stats.NoLinearRelation x) {r : ℝ} (hr : Stats.matrixParCorr (Stats.torchCov x) = some r) (hlt : |r| < 1)
    (hne : statistic n m r ≠ q) :
    ∀ᶠ k in l, Rounding.matrixDecision (A k) threshold (a k) = .ok (some (decide (statistic n m r < q))) := by
  have hP := Stats.torchCov_posDef_of (by omega : 2 ≤ n) hx
  have hdet := hP.det_pos.ne'
  have hI := hP.inv
  have hC : Tendsto (fun k => (A k).cov (a k)) l (𝓝 (Stats.torchCov x)) :=
    tendsto_pi_nhds.2 fun p => tendsto_pi_nhds.2 fun q => h.cov ha p q
  have hd := h.det hC
  have hK := h.inv hC hdet
  have hS := h.scaled hK (fun i => hI.diag_pos)
  have e00 : ∀ p q, (Matrix.diagonal (fun i => √((Stats.torchCov x)⁻¹ i i)) * (Stats.torchCov x)⁻¹ *
      Matrix.diagonal (fun i => √((Stats.torchCov x)⁻¹ i i))) p q
      = √((Stats.torchCov x)⁻¹ p p) * (Stats.torchCov x)⁻¹ p q * √((Stats.torchCov x)⁻¹ q q) := by
    intro p q
    rw [Matrix.mul_diagonal, Matrix.diagonal_mul]
  have hpos : ∀ p, 0 < (Matrix.diagonal (fun i => √((Stats.torchCov x)⁻¹ i i)) * (Stats.torchCov x)⁻¹ *
      Matrix.diagonal (fun i => √((Stats.torchCov x)⁻¹ i i))) p p := by
    intro p
    rw [e00]
    have : 0 < (Stats.torchCov x)⁻¹ p p := hI.diag_pos
    exact mul_pos (mul_pos (Real.sqrt_pos.2 this) this) (Real.sqrt_pos.2 this)
  have hprod := h.mul (hS 0 0) (hS 1 1)
  have hpp := mul_pos (hpos 0) (hpos 1)
  have hroot := h.sqrt hprod hpp
  have hrr := h.div (h.mul (tendsto_const_nhds (x := (-1 : ℝ))) (hS 0 1)) hroot (Real.sqrt_pos.2 hpp).ne'
  unfold Stats.matrixParCorr at hr
  rw [if_neg hdet] at hr
  simp only [Option.some.injEq] at hr
  rw [hr] at hrr
  filter_upwards [hd.eventually_ne hdet, (hK 0 0).eventually (lt_mem_nhds hI.diag_pos),
    (hK 1 1).eventually (lt_mem_nhds hI.diag_pos), hprod.eventually (lt_mem_nhds hpp),
    hroot.eventually_ne (Real.sqrt_pos.2 hpp).ne', h.tensorIndependent hΦ hq hm hrr hlt hne] with k e1 e2 e3 e4 e5 e6
  unfold Rounding.matrixDecision
  rw [if_neg e1]
  unfold Rounding.matrixParCorr
  simp only
  rw [if_neg (by
    rintro (h | h | h | h)
    · exact absurd e2 (not_lt.2 h.le)
    · exact absurd e3 (not_lt.2 h.le)
    · exact absurd e4 (not_lt.2 h.le)
    · exact e5 h)]
  simp only
  rw [e6]

end Improving

end Rounding
end Verif
