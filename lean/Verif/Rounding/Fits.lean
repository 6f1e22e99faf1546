import Verif.Rounding.Limits
import Verif.EndToEnd.WholeProps

/-!
# Lemmas: least squares fits depend continuously on the data
-/

namespace Verif
namespace Rounding
open Filter Topology Effects
variable {ι : Type} [DecidableEq ι] {n : ℕ} {P : Finset ι}

/-- the matrix of the normal equations -/
def gram (P : Finset ι) (X : ι → Fin n → ℝ) : Matrix P P ℝ := fun p q => ∑ i, X q i * X p i

/-- and their right hand side -/
def rhs (P : Finset ι) (X : ι → Fin n → ℝ) (y : Fin n → ℝ) : P → ℝ := fun p => ∑ i, y i * X p i

theorem gram_fit {X : ι → Fin n → ℝ} {y : Fin n → ℝ} {β : ι → ℝ} (h : BestFit P X y β) :
    (gram P X).mulVec (fun p => β p) = rhs P X y := by
  funext p
  have h1 := h.normal p p.2
  simp only [sub_mul, Finset.sum_sub_distrib, sub_eq_zero] at h1
  show ∑ q : P, (∑ i, X q i * X p i) * β q = ∑ i, y i * X p i
  rw [h1]
  simp only [← Finset.sum_coe_sort P, Finset.sum_mul]
  rw [Finset.sum_comm]
  exact Finset.sum_congr rfl (fun i _ => Finset.sum_congr rfl (fun q _ => by ring))

theorem gram_solve {X : ι → Fin n → ℝ} {y : Fin n → ℝ} {β : ι → ℝ} (h : BestFit P X y β) (p : P) :
    (gram P X).det * β p = (gram P X).adjugate.mulVec (rhs P X y) p := by
  rw [← gram_fit h, Matrix.mulVec_mulVec, Matrix.adjugate_mul, Matrix.smul_mulVec, Matrix.one_mulVec]
  rfl

omit [DecidableEq ι] in
theorem gram_det [DecidableEq ι] {X : ι → Fin n → ℝ} (h : Independent P X) : (gram P X).det ≠ 0 := by
  intro h0
  obtain ⟨v, hv, hm⟩ := Matrix.exists_mulVec_eq_zero_iff.2 h0
  let γ : ι → ℝ := fun p => if hp : p ∈ P then v ⟨p, hp⟩ else 0
  have hγ : ∀ p : P, γ p = v p := fun p => by simp [γ]
  have hs : ∀ i, ∑ p ∈ P, γ p * X p i = ∑ p : P, v p * X p i := by
    intro i
    rw [← Finset.sum_coe_sort P]
    exact Finset.sum_congr rfl (fun p _ => by rw [hγ])
  have hz : ∑ i, (∑ p : P, v p * X p i) ^ 2 = 0 := by
    have : ∑ p : P, v p * (gram P X).mulVec v p = ∑ i, (∑ p : P, v p * X p i) ^ 2 := by
      show ∑ p : P, v p * ∑ q : P, (∑ i, X q i * X p i) * v q = _
      have e1 : ∀ p : P, v p * ∑ q : P, (∑ i, X q i * X p i) * v q = ∑ i, v p * X p i * ∑ q : P, v q * X q i := by
        intro p
        simp only [Finset.mul_sum, Finset.sum_mul]
        rw [Finset.sum_comm]
        exact Finset.sum_congr rfl (fun i _ => Finset.sum_congr rfl (fun q _ => by ring))
      simp only [e1]
      rw [Finset.sum_comm]
      exact Finset.sum_congr rfl (fun i _ => by rw [← Finset.sum_mul, sq])
    rw [← this, hm]
    simp
  have := h γ (fun i => by
    rw [hs]
    exact pow_eq_zero_iff two_ne_zero |>.1
      ((Finset.sum_eq_zero_iff_of_nonneg (fun i _ => sq_nonneg _)).1 hz i (Finset.mem_univ i)))
  apply hv
  funext p
  rw [← hγ, this p p.2]
  rfl

theorem det_limit {m κ : Type} [Fintype m] [DecidableEq m] {l : Filter κ} {C : κ → Matrix m m ℝ} {Y : Matrix m m ℝ}
    (h : Tendsto C l (𝓝 Y)) : Tendsto (fun k => (C k).det) l (𝓝 Y.det) :=
  have hc : Continuous (fun Y : Matrix m m ℝ => Y.det) := continuous_id.matrix_det
  (hc.tendsto Y).comp h

theorem adjugate_limit {m κ : Type} [Fintype m] [DecidableEq m] {l : Filter κ} {C : κ → Matrix m m ℝ} {Y : Matrix m m ℝ}
    (h : Tendsto C l (𝓝 Y)) (a b : m) : Tendsto (fun k => (C k).adjugate a b) l (𝓝 (Y.adjugate a b)) :=
  have hc : Continuous (fun Y : Matrix m m ℝ => Y.adjugate a b) := continuous_id.matrix_adjugate.matrix_elem a b
  (hc.tendsto Y).comp h

/-- fits to converging data converge to the fit, if that is unique -/
theorem bestFit_limit {κ : Type} {l : Filter κ} {X : ι → Fin n → ℝ} {y : Fin n → ℝ} {X' : κ → ι → Fin n → ℝ}
    {y' : κ → Fin n → ℝ} (hX : ∀ p ∈ P, ∀ i, Tendsto (fun k => X' k p i) l (𝓝 (X p i)))
    (hy : ∀ i, Tendsto (fun k => y' k i) l (𝓝 (y i))) (hind : Independent P X) {β : κ → ι → ℝ} {w : ι → ℝ}
    (hβ : ∀ᶠ k in l, BestFit P (X' k) (y' k) (β k)) (hw : BestFit P X y w) :
    ∀ p ∈ P, Tendsto (fun k => β k p) l (𝓝 (w p)) := by
  intro p hp
  have hg : Tendsto (fun k => gram P (X' k)) l (𝓝 (gram P X)) :=
    tendsto_pi_nhds.2 fun a => tendsto_pi_nhds.2 fun b => tendsto_finsetSum _ fun i _ => (hX b b.2 i).mul (hX a a.2 i)
  have hr : ∀ a, Tendsto (fun k => rhs P (X' k) (y' k) a) l (𝓝 (rhs P X y a)) :=
    fun a => tendsto_finsetSum _ fun i _ => (hy i).mul (hX a a.2 i)
  have hd : Tendsto (fun k => (gram P (X' k)).det) l (𝓝 (gram P X).det) := det_limit hg
  have ha : Tendsto (fun k => (gram P (X' k)).adjugate.mulVec (rhs P (X' k) (y' k)) ⟨p, hp⟩) l
      (𝓝 ((gram P X).adjugate.mulVec (rhs P X y) ⟨p, hp⟩)) := by
    have hadj : ∀ a, Tendsto (fun k => (gram P (X' k)).adjugate ⟨p, hp⟩ a) l (𝓝 ((gram P X).adjugate ⟨p, hp⟩ a)) := fun a =>
      adjugate_limit hg _ _
    show Tendsto (fun k => ∑ a, (gram P (X' k)).adjugate ⟨p, hp⟩ a * rhs P (X' k) (y' k) a) l
      (𝓝 (∑ a, (gram P X).adjugate ⟨p, hp⟩ a * rhs P X y a))
    exact tendsto_finsetSum _ fun a _ => (hadj a).mul (hr a)
  have h0 := gram_det hind
  have hq := ha.div hd h0
  rw [show w p = (gram P X).adjugate.mulVec (rhs P X y) ⟨p, hp⟩ / (gram P X).det by
    rw [eq_div_iff h0, mul_comm]; exact gram_solve hw ⟨p, hp⟩]
  refine hq.congr' ?_
  filter_upwards [hβ, hd.eventually_ne h0] with k h1 h2
  rw [Pi.div_apply, div_eq_iff h2, mul_comm]
  exact (gram_solve h1 ⟨p, hp⟩).symm

theorem nearFit_limit {κ : Type} {l : Filter κ} {u : κ → ℝ} (hu : Tendsto u l (𝓝 0)) {X : ι → Fin n → ℝ}
    {y : Fin n → ℝ} {X' : κ → ι → Fin n → ℝ} {y' : κ → Fin n → ℝ}
    (hX : ∀ p ∈ P, ∀ i, Tendsto (fun k => X' k p i) l (𝓝 (X p i)))
    (hy : ∀ i, Tendsto (fun k => y' k i) l (𝓝 (y i))) (hind : Independent P X) {β : κ → ι → ℝ} {w : ι → ℝ}
    (hβ : ∀ k, NearFit (u k) P (X' k) (y' k) (β k)) (hw : BestFit P X y w) :
    ∀ p ∈ P, Tendsto (fun k => β k p) l (𝓝 (w p)) := by
  choose X'' y'' h1 h2 h3 using hβ
  have near : ∀ {c e s : κ → ℝ} {x t : ℝ}, Tendsto e l (𝓝 x) → Tendsto s l (𝓝 t) → (∀ k, |c k - e k| ≤ u k * (1 + s k)) →
      Tendsto c l (𝓝 x) := by
    intro c e s x t he hs hc
    have hb : Tendsto (fun k => u k * (1 + s k)) l (𝓝 0) := by
      have := hu.mul (hs.const_add 1)
      rwa [zero_mul] at this
    have h0 : Tendsto (fun k => c k - e k) l (𝓝 0) := squeeze_zero_norm hc hb
    simpa using h0.add he
  refine bestFit_limit (X' := X'') (y' := y'') ?_ ?_ hind (.of_forall h3) hw
  · intro p hp i
    exact near (hX p hp i) (tendsto_finsetSum _ fun q hq => tendsto_finsetSum _ fun j _ => (hX q hq j).abs)
      (fun k => h1 k p hp i)
  · intro i
    exact near (hy i) (tendsto_finsetSum _ fun j _ => (hy j).abs) (fun k => h2 k i)

/-- The same with a number. -/
theorem nearFit_delta {X : ι → Fin n → ℝ} {y : ι} (hind : Independent P X) {w : ι → ℝ} (hw : BestFit P X (X y) w)
    {ε : ℝ} (hε : 0 < ε) :
    ∃ δ > 0, ∀ u, 0 < u → u < δ → ∀ X' : ι → Fin n → ℝ, (∀ p ∈ insert y P, ∀ i, |X' p i - X p i| < δ) →
      ∀ β, NearFit u P X' (X' y) β → ∀ p ∈ P, |β p - w p| < ε := by
  by_contra hno
  push Not at hno
  have hk : ∀ k : ℕ, (0 : ℝ) < 1 / (k + 1) := fun k => by positivity
  choose u hu1 hu2 X' hX' β hβ p hp hbad using fun k : ℕ => hno (1 / (k + 1)) (hk k)
  have hlim : Tendsto (fun k : ℕ => 1 / ((k : ℝ) + 1)) atTop (𝓝 0) := tendsto_one_div_add_atTop_nhds_zero_nat
  have hu : Tendsto u atTop (𝓝 0) := squeeze_zero (fun k => (hu1 k).le) (fun k => (hu2 k).le) hlim
  have hc : ∀ v ∈ insert y P, ∀ i, Tendsto (fun k => X' k v i) atTop (𝓝 (X v i)) := by
    intro v hv i
    have h0 : Tendsto (fun k => X' k v i - X v i) atTop (𝓝 0) := squeeze_zero_norm (fun k => (hX' k v hv i).le) hlim
    simpa using h0.add_const (X v i)
  have hl := nearFit_limit hu (X' := X') (y' := fun k => X' k y) (fun p hp => hc p (Finset.mem_insert_of_mem hp))
    (fun i => hc y (Finset.mem_insert_self _ _) i) hind hβ hw
  have hall : ∀ᶠ k in atTop, ∀ q ∈ P, |β k q - w q| < ε := by
    refine (Filter.eventually_all_finset _).2 fun q hq => ?_
    exact (Metric.tendsto_nhds.1 (hl q hq) ε hε)
  obtain ⟨k, hk⟩ := hall.exists
  exact absurd (hk _ (hp k)) (not_lt.2 (hbad k))

/-! ## the last step -/

theorem nearFit_list {u : ℝ} (L : List ι) (hL : L.Nodup) (X : ι → Fin n → ℝ) (y : Fin n → ℝ) (b : Fin L.length → ℝ)
    (h : NearFit u Finset.univ (fun j : Fin L.length => X L[j]) y b) : NearFit u L.toFinset X y (named L b) := by
  obtain ⟨X', y', h1, h2, h3⟩ := h
  let X'' : ι → Fin n → ℝ := fun p i => if hp : p ∈ L then X' ⟨L.idxOf p, List.idxOf_lt_length_of_mem hp⟩ i else 0
  have hX : ∀ j : Fin L.length, X'' L[j] = X' j := by
    intro j
    funext i
    have hj : L[j] ∈ L := List.getElem_mem _
    show (if hp : L[j] ∈ L then _ else _) = _
    rw [dif_pos hj]
    congr 1
    apply Fin.ext
    exact hL.idxOf_getElem j.1 j.2
  refine ⟨X'', y', ?_, h2, ?_⟩
  · intro p hp i
    rw [list_sum L hL (fun p => ∑ j, |X p j|)]
    obtain ⟨j, hj, rfl⟩ := List.getElem_of_mem (List.mem_toFinset.1 hp)
    have := h1 ⟨j, hj⟩ (Finset.mem_univ _) i
    rw [← hX] at this
    exact this
  · rw [bestFit_list L hL]
    simpa only [named_get L hL, hX] using h3

theorem near_regressions {u : ℝ} {D : Source ι (Option ℝ)} (hls : LeastSquaresUpTo u D.lstsq) {g : CI.CGraph ι (Option ℝ)}
    {X : ι → Fin n → ℝ} (hX : Columns D g (fun p i => some (X p i))) (hs : ∑ v ∈ g.nodes.toFinset, ∑ i, |X v i| ≤ 1 / u) :
    Regressions some D g (fun P y β => NearFit u P X (X y) β) := by
  intro x y L hL hp hy
  have hpos : ∀ v : ι, 0 ≤ ∑ i, |X v i| := fun v => Finset.sum_nonneg fun i _ => abs_nonneg _
  obtain ⟨b, hb, hf⟩ := hls (x :: L).length n (fun j => X (x :: L)[j]) (X y) (by
    rw [← list_sum (x :: L) hL (fun p => ∑ j, |X p j|)]
    refine (Finset.sum_le_sum_of_subset_of_nonneg ?_ fun v _ _ => hpos v).trans hs
    intro v hv
    exact List.mem_toFinset.2 (hp v (List.mem_toFinset.1 hv))) ((Finset.single_le_sum (fun v _ => hpos v)
      (List.mem_toFinset.2 hy)).trans hs)
  refine ⟨named (x :: L) b, nearFit_list _ hL X _ b hf, ?_⟩
  have hl := columns_list (fun p i => some (X p i)) (x :: L)
  unfold coefficient
  rw [stack_columns D.values (fun p i => some (X p i)) x L (fun p h => hX p (hp p h))]
  simp only
  rw [hX y hy]
  simp only
  rw [if_pos (by simp), ← hl, hb]
  have h0 : List.ofFn (fun j => some (b j)) = some (b ⟨0, by simp⟩) :: List.ofFn (fun i : Fin L.length => some (b i.succ)) :=
    List.ofFn_succ (f := fun j => some (b j))
  rw [h0]
  simp only
  have := named_get (x :: L) hL b ⟨0, by simp⟩
  rw [← this]
  rfl

end Rounding
end Verif
