import Verif.Rounding.Spec
import Verif.Linear.Robust

/-!
# Lemmas: computed values converge to the exact ones as the precision increases
-/

namespace Verif
namespace Rounding
open Filter Topology
variable {κ : Type} {l : Filter κ} {A : κ → Arith} {u : κ → ℝ} {Φ : ℝ → ℝ} {n : ℕ}

/-- a family of arithmetics with increasing precision -/
structure Improving (l : Filter κ) (A : κ → Arith) (u : κ → ℝ) (Φ : ℝ → ℝ) : Prop where
  pos : ∀ k, 0 < u k
  zero : Tendsto u l (𝓝 0)
  precise : ∀ k, (A k).Precise Φ (u k)

namespace Improving
variable (h : Improving l A u Φ)
include h

theorem large {e : κ → ℝ} {x : ℝ} (he : Tendsto e l (𝓝 x)) : ∀ᶠ k in l, e k ≤ 1 / u k := by
  have h1 : Tendsto (fun k => e k * u k) l (𝓝 (x * 0)) := he.mul h.zero
  rw [mul_zero] at h1
  filter_upwards [h1.eventually (gt_mem_nhds one_pos)] with k hk
  rw [le_div_iff₀ (h.pos k)]
  exact hk.le

theorem small {e : κ → ℝ} {x : ℝ} (he : Tendsto e l (𝓝 x)) : Tendsto (fun k => u k * (1 + e k)) l (𝓝 0) := by
  have := h.zero.mul (he.const_add 1)
  rwa [zero_mul] at this

theorem near {e c s : κ → ℝ} {x y : ℝ} (he : Tendsto e l (𝓝 x)) (hs : Tendsto s l (𝓝 y))
    (hc : ∀ᶠ k in l, |c k - e k| ≤ u k * (1 + s k)) : Tendsto c l (𝓝 x) := by
  have h0 : Tendsto (fun k => c k - e k) l (𝓝 0) :=
    squeeze_zero_norm' (by filter_upwards [hc] with k hk; exact hk) (h.small hs)
  have := h0.add he
  simpa using this

theorem computes {e c : κ → ℝ} {x : ℝ} (he : Tendsto e l (𝓝 x)) (hc : ∀ᶠ k in l, Computes (u k) (e k) (c k)) :
    Tendsto c l (𝓝 x) := by
  refine h.near he he.abs ?_
  filter_upwards [hc, h.large he.abs] with k hk hb using hk hb

variable {a b : κ → ℝ} {x y : ℝ}

theorem add (ha : Tendsto a l (𝓝 x)) (hb : Tendsto b l (𝓝 y)) : Tendsto (fun k => (A k).add (a k) (b k)) l (𝓝 (x + y)) :=
  h.computes (ha.add hb) (.of_forall fun k => (h.precise k).add _ _)

theorem sub (ha : Tendsto a l (𝓝 x)) (hb : Tendsto b l (𝓝 y)) : Tendsto (fun k => (A k).sub (a k) (b k)) l (𝓝 (x - y)) :=
  h.computes (ha.sub hb) (.of_forall fun k => (h.precise k).sub _ _)

theorem mul (ha : Tendsto a l (𝓝 x)) (hb : Tendsto b l (𝓝 y)) : Tendsto (fun k => (A k).mul (a k) (b k)) l (𝓝 (x * y)) :=
  h.computes (ha.mul hb) (.of_forall fun k => (h.precise k).mul _ _)

theorem div (ha : Tendsto a l (𝓝 x)) (hb : Tendsto b l (𝓝 y)) (hy : y ≠ 0) :
    Tendsto (fun k => (A k).div (a k) (b k)) l (𝓝 (x / y)) :=
  h.computes (ha.div hb hy) (by filter_upwards [hb.eventually_ne hy] with k hk using (h.precise k).div _ _ hk)

theorem sqrt (ha : Tendsto a l (𝓝 x)) (hx : 0 < x) : Tendsto (fun k => (A k).sqrt (a k)) l (𝓝 (√x)) :=
  h.computes ha.sqrt (by filter_upwards [ha.eventually (lt_mem_nhds hx)] with k hk using (h.precise k).sqrt _ hk.le)

theorem sqrt_const (hx : 0 ≤ x) : Tendsto (fun k => (A k).sqrt x) l (𝓝 (√x)) :=
  h.computes tendsto_const_nhds (.of_forall fun k => (h.precise k).sqrt _ hx)

theorem log (ha : Tendsto a l (𝓝 x)) (hx : 0 < x) : Tendsto (fun k => (A k).log (a k)) l (𝓝 (Real.log x)) :=
  h.computes (ha.log hx.ne') (by filter_upwards [ha.eventually (lt_mem_nhds hx)] with k hk using (h.precise k).log _ hk)

theorem sum {m : ℕ} {a : κ → Fin m → ℝ} {x : Fin m → ℝ} (ha : ∀ i, Tendsto (fun k => a k i) l (𝓝 (x i))) :
    Tendsto (fun k => (A k).sum (a k)) l (𝓝 (∑ i, x i)) := by
  have hs : Tendsto (fun k => ∑ i, |a k i|) l (𝓝 (∑ i, |x i|)) := tendsto_finsetSum _ (fun i _ => (ha i).abs)
  refine h.near (tendsto_finsetSum _ (fun i _ => ha i)) hs ?_
  filter_upwards [h.large hs] with k hk using (h.precise k).sum _ hk

theorem std {m : ℕ} {a : κ → Fin m → ℝ} {x : Fin m → ℝ} (ha : ∀ i, Tendsto (fun k => a k i) l (𝓝 (x i))) :
    Tendsto (fun k => (A k).std (a k)) l (𝓝 (Stats.stdPop x)) := by
  have hs : Tendsto (fun k => ∑ i, |a k i|) l (𝓝 (∑ i, |x i|)) := tendsto_finsetSum _ (fun i _ => (ha i).abs)
  have hc : Continuous (fun x : Fin m → ℝ => Stats.stdPop x) := by
    unfold Stats.stdPop Stats.dev Stats.mean
    fun_prop
  refine h.near (hc.continuousAt.tendsto.comp (tendsto_pi_nhds.2 ha)) hs ?_
  filter_upwards [h.large hs] with k hk using (h.precise k).std _ hk

theorem cov {m j : ℕ} {a : κ → Fin j → Fin m → ℝ} {x : Fin j → Fin m → ℝ}
    (ha : ∀ v i, Tendsto (fun k => a k v i) l (𝓝 (x v i))) (p q : Fin j) :
    Tendsto (fun k => (A k).cov (a k) p q) l (𝓝 (Stats.torchCov x p q)) := by
  have hs : Tendsto (fun k => size (Matrix.of (a k))) l (𝓝 (size (Matrix.of x))) :=
    tendsto_finsetSum _ (fun v _ => tendsto_finsetSum _ (fun i _ => (ha v i).abs))
  have hc : Continuous (fun x : Fin j → Fin m → ℝ => Stats.torchCov x p q) := Linear.continuous_torchCov.matrix_elem p q
  refine h.near (hc.continuousAt.tendsto.comp (tendsto_pi_nhds.2 fun v => tendsto_pi_nhds.2 (ha v))) (hs.mul hs) ?_
  filter_upwards [h.large hs] with k hk using (h.precise k).cov _ hk p q

theorem backward {m j : ℕ} {C C' : κ → Matrix (Fin m) (Fin j) ℝ} {X : Matrix (Fin m) (Fin j) ℝ} (hC : Tendsto C l (𝓝 X))
    (hb : ∀ᶠ k in l, Backward (u k) (C k) (C' k)) : Tendsto C' l (𝓝 X) := by
  have he : ∀ p q, Tendsto (fun k => C k p q) l (𝓝 (X p q)) := fun p q =>
    (tendsto_pi_nhds.1 (tendsto_pi_nhds.1 hC p) q)
  have hs : Tendsto (fun k => size (C k)) l (𝓝 (size X)) :=
    tendsto_finsetSum _ (fun v _ => tendsto_finsetSum _ (fun i _ => (he v i).abs))
  refine tendsto_pi_nhds.2 fun p => tendsto_pi_nhds.2 fun q => h.near (he p q) hs ?_
  filter_upwards [hb] with k hk using hk p q

theorem size_large {m j : ℕ} {C : κ → Matrix (Fin m) (Fin j) ℝ} {X : Matrix (Fin m) (Fin j) ℝ} (hC : Tendsto C l (𝓝 X)) :
    ∀ᶠ k in l, size (C k) ≤ 1 / u k :=
  h.large (x := size X) (tendsto_finsetSum _ fun p _ => tendsto_finsetSum _ fun q _ =>
    (tendsto_pi_nhds.1 (tendsto_pi_nhds.1 hC p) q).abs)

theorem det {m : ℕ} {C : κ → Matrix (Fin m) (Fin m) ℝ} {X : Matrix (Fin m) (Fin m) ℝ} (hC : Tendsto C l (𝓝 X)) :
    Tendsto (fun k => (A k).det (C k)) l (𝓝 X.det) := by
  have hex : ∀ k, ∃ C', size (C k) ≤ 1 / u k → Backward (u k) (C k) C' ∧ Computes (u k) C'.det ((A k).det (C k)) := by
    intro k
    by_cases hk : size (C k) ≤ 1 / u k
    · obtain ⟨C', h1⟩ := (h.precise k).det (C k) hk
      exact ⟨C', fun _ => h1⟩
    · exact ⟨0, fun h => absurd h hk⟩
  choose C' hC' using hex
  have hl := h.size_large hC
  have hb := h.backward hC (C' := C') (by filter_upwards [hl] with k hk using (hC' k hk).1)
  refine h.computes (e := fun k => (C' k).det) ?_ (by filter_upwards [hl] with k hk using (hC' k hk).2)
  exact ((continuous_id.matrix_det).tendsto X).comp hb

theorem inv {m : ℕ} {C : κ → Matrix (Fin m) (Fin m) ℝ} {X : Matrix (Fin m) (Fin m) ℝ} (hC : Tendsto C l (𝓝 X))
    (hX : X.det ≠ 0) (p q : Fin m) : Tendsto (fun k => (A k).inv (C k) p q) l (𝓝 (X⁻¹ p q)) := by
  have hex : ∀ k, ∃ C', size (C k) ≤ 1 / u k → (A k).det (C k) ≠ 0 → Backward (u k) (C k) C' ∧
      C'.mulVec (fun i => (A k).inv (C k) i q) = fun i => if i = q then 1 else 0 := by
    intro k
    by_cases hk : size (C k) ≤ 1 / u k ∧ (A k).det (C k) ≠ 0
    · obtain ⟨C', h1⟩ := (h.precise k).inv (C k) hk.1 hk.2 q
      exact ⟨C', fun _ _ => h1⟩
    · exact ⟨0, fun h1 h2 => absurd ⟨h1, h2⟩ hk⟩
  choose C' hC' using hex
  have hl := h.size_large hC
  have hd := (h.det hC).eventually_ne hX
  have hb := h.backward hC (C' := C') (by filter_upwards [hl, hd] with k hk hk' using (hC' k hk hk').1)
  have hdet' : Tendsto (fun k => (C' k).det) l (𝓝 X.det) := ((continuous_id.matrix_det).tendsto X).comp hb
  have hadj : Tendsto (fun k => (C' k).adjugate p q) l (𝓝 (X.adjugate p q)) :=
    ((continuous_id.matrix_adjugate.matrix_elem p q).tendsto X).comp hb
  have hinv : Tendsto (fun k => (C' k)⁻¹ p q) l (𝓝 (X⁻¹ p q)) := by
    have e : ∀ Y : Matrix (Fin m) (Fin m) ℝ, Y⁻¹ p q = (Y.det)⁻¹ * Y.adjugate p q := by
      intro Y
      rw [Matrix.inv_def, Ring.inverse_eq_inv', Matrix.smul_apply, smul_eq_mul]
    simp only [e]
    exact (hdet'.inv₀ hX).mul hadj
  refine hinv.congr' ?_
  filter_upwards [hl, hd, hdet'.eventually_ne hX] with k hk hk' hk''
  have e := (hC' k hk hk').2
  have e2 : (fun i => (A k).inv (C k) i q) = (C' k)⁻¹.mulVec (fun i => if i = q then 1 else 0) := by
    rw [← e, Matrix.mulVec_mulVec, Matrix.nonsing_inv_mul _ (isUnit_iff_ne_zero.2 hk''), Matrix.one_mulVec]
  have e3 := congrFun e2 p
  rw [e3]
  simp [Matrix.mulVec, dotProduct]

end Improving

end Rounding
end Verif
