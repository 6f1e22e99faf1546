import Verif.Sample.Lyapunov
import Verif.Sample.Lemmas3
import Mathlib.Tactic.Abel

/-!
# The coefficient matrix and the companion matrix
-/

namespace Verif
namespace Sample
open Matrix Filter Topology MeasureTheory ProbabilityTheory
variable {ι : Type} [DecidableEq ι]

theorem le_longestLag {edges : List (SEdge ι ℝ)} {e : SEdge ι ℝ} (h : e ∈ edges) : e.time.natAbs ≤ longestLag edges := by
  unfold longestLag
  induction edges with
  | nil => cases h
  | cons a l ih =>
    simp only [List.map_cons, List.foldr_cons]
    rcases List.mem_cons.1 h with rfl | h
    · exact le_max_left _ _
    · exact (ih h).trans (le_max_right _ _)

theorem longestLag_le {edges : List (SEdge ι ℝ)} {L : ℕ} (h : ∀ e ∈ edges, e.time.natAbs ≤ L) : longestLag edges ≤ L := by
  unfold longestLag
  induction edges with
  | nil => simp
  | cons a l ih =>
    simp only [List.map_cons, List.foldr_cons]
    exact max_le (h a List.mem_cons_self) (ih (fun e he => h e (List.mem_cons_of_mem _ he)))

theorem pyIndex_lag {L : ℕ} {t : ℤ} (h : t < 0) (hL : t.natAbs ≤ L) :
    pyIndex (List.range L) (t * -1 - 1) = .ok (t.natAbs - 1) := by
  unfold pyIndex
  have h1 : ¬ (t * -1 - 1 < 0) := by omega
  simp only [h1, if_false]
  have h2 : (t * -1 - 1).toNat = t.natAbs - 1 := by omega
  rw [h2, List.getElem?_range (by omega)]

/-- the coefficients are the values of the edges, if no two edges write to the same entry -/
theorem coefficients_ok (L : ℕ) (es : List (SEdge ι ℝ)) (m0 : ℕ → ι → ι → ℝ) (hl : ∀ e ∈ es, e.time < 0)
    (hL : ∀ e ∈ es, e.time.natAbs ≤ L) (hd : Distinct es) (h0 : ∀ e ∈ es, m0 (e.time.natAbs - 1) e.dst e.src = 0) :
    ∃ m, coefficients L es m0 = .ok m ∧ ∀ l a b, m l a b =
      m0 l a b + (es.map (fun e => if l = e.time.natAbs - 1 ∧ a = e.dst ∧ b = e.src then e.value else 0)).sum := by
  induction es generalizing m0 with
  | nil => exact ⟨m0, rfl, by simp⟩
  | cons e es ih =>
    unfold coefficients
    rw [pyIndex_lag (hl e List.mem_cons_self) (hL e List.mem_cons_self)]
    have hd' := List.pairwise_cons.1 hd
    obtain ⟨m, h1, h2⟩ := ih (fun l' a b => if l' = e.time.natAbs - 1 ∧ a = e.dst ∧ b = e.src then e.value else m0 l' a b)
      (fun f hf => hl f (List.mem_cons_of_mem _ hf)) (fun f hf => hL f (List.mem_cons_of_mem _ hf)) hd'.2
      (fun f hf => by
        have h3 := hd'.1 f hf
        have h4 := hl f (List.mem_cons_of_mem _ hf)
        have h5 := hl e List.mem_cons_self
        have : ¬ (f.time.natAbs - 1 = e.time.natAbs - 1 ∧ f.dst = e.dst ∧ f.src = e.src) := by
          rintro ⟨h6, h7, h8⟩
          exact h3 ⟨h8.symm, h7.symm, by omega⟩
        simp only [this, if_false]
        exact h0 f (List.mem_cons_of_mem _ hf))
    refine ⟨m, h1, fun l a b => ?_⟩
    rw [h2, List.map_cons, List.sum_cons]
    by_cases hc : l = e.time.natAbs - 1 ∧ a = e.dst ∧ b = e.src
    · have := h0 e List.mem_cons_self
      obtain ⟨rfl, rfl, rfl⟩ := hc
      simp [this]
    · simp [hc]

/-- the rows of the coefficient matrix compute what the edges contribute -/
theorem sum_coefficients (L : ℕ) (es : List (SEdge ι ℝ)) (m : ℕ → ι → ι → ℝ) (hl : ∀ e ∈ es, e.time < 0)
    (hL : ∀ e ∈ es, e.time.natAbs ≤ L) (vars : List ι) (hn : vars.Nodup) (hv : ∀ e ∈ es, e.src ∈ vars)
    (hm : ∀ l a b, m l a b = (es.map (fun e => if l = e.time.natAbs - 1 ∧ a = e.dst ∧ b = e.src then e.value else 0)).sum)
    (x : ι → ℤ → ℝ) (v : ι) (t : ℤ) :
    inflow es x v t = ∑ l : Fin L, ∑ j : Fin vars.length, m l v vars[j] * x vars[j] (t - 1 - l) := by
  simp only [hm]
  clear hm
  unfold inflow
  induction es with
  | nil => simp
  | cons e es ih =>
    have ih' := ih (fun f hf => hl f (List.mem_cons_of_mem _ hf)) (fun f hf => hL f (List.mem_cons_of_mem _ hf))
      (fun f hf => hv f (List.mem_cons_of_mem _ hf))
    simp only [List.map_cons, List.sum_cons, add_mul, Finset.sum_add_distrib]
    rw [← ih']
    have he := hl e List.mem_cons_self
    have heL := hL e List.mem_cons_self
    have hev := hv e List.mem_cons_self
    have hone : ∑ l : Fin L, ∑ j : Fin vars.length,
        (if (l : ℕ) = e.time.natAbs - 1 ∧ v = e.dst ∧ vars[j] = e.src then e.value else 0) * x vars[j] (t - 1 - l) =
        if v = e.dst then e.value * x e.src (t + e.time) else 0 := by
      have hi : vars.idxOf e.src < vars.length := List.idxOf_lt_length_of_mem hev
      rw [Finset.sum_eq_single (⟨e.time.natAbs - 1, by omega⟩ : Fin L)]
      · rw [Finset.sum_eq_single (⟨vars.idxOf e.src, hi⟩ : Fin vars.length)]
        · have h1 : vars[vars.idxOf e.src] = e.src := List.getElem_idxOf hi
          have h2 : (t - 1 - ((e.time.natAbs - 1 : ℕ) : ℤ)) = t + e.time := by omega
          simp only [Fin.getElem_fin, h1, h2]
          by_cases hve : v = e.dst <;> simp [hve]
        · intro j _ hj
          have : ¬ vars[j] = e.src := fun h => hj (by
            apply Fin.ext
            simp only
            rw [← h]
            exact (hn.idxOf_getElem j j.2).symm)
          simp only [this, and_false, if_false, zero_mul]
        · simp
      · intro l _ hl'
        have : ¬ (l : ℕ) = e.time.natAbs - 1 := fun h => hl' (Fin.ext h)
        simp [this]
      · simp
    rw [hone]
    by_cases hve : e.dst = v
    · simp [hve]
    · have : ¬ v = e.dst := fun h => hve h.symm
      simp [hve, this]

theorem companion_mulVec (L : ℕ) (vars : List ι) (m : ℕ → ι → ι → ℝ) (w : Idx L vars.length → ℝ) (l : Fin L)
    (i : Fin vars.length) :
    (companion L vars m *ᵥ w) (l, i) =
      if h : l.val = 0 then ∑ l' : Fin L, ∑ j : Fin vars.length, m l' vars[i] vars[j] * w (l', j)
      else w (⟨l.val - 1, by omega⟩, i) := by
  simp only [mulVec, dotProduct, companion, Matrix.of_apply, Fintype.sum_prod_type]
  by_cases h : l.val = 0
  · simp only [h, if_true, dite_true]
  · simp only [h, if_false, dite_false]
    rw [Finset.sum_eq_single (⟨l.val - 1, by omega⟩ : Fin L)]
    · rw [Finset.sum_eq_single i]
      · have : l.val = l.val - 1 + 1 := by omega
        simp [← this]
      · intro j _ hj
        have : ¬ i = j := fun h => hj h.symm
        simp [this]
      · simp
    · intro l' _ hl'
      have : ¬ l.val = l'.val + 1 := fun h => hl' (Fin.ext (by simp only; omega))
      simp [this]
    · simp

/-- the last `L` values before time `t` -/
def window (L : ℕ) (vars : List ι) (x : ι → ℤ → ℝ) (t : ℤ) : Idx L vars.length → ℝ := fun p => x vars[p.2] (t - 1 - p.1)

/-- the matrices this section is about -/
structure Coeffs (edges : List (SEdge ι ℝ)) (L : ℕ) (vars : List ι) (m : ℕ → ι → ι → ℝ) : Prop where
  nodup : vars.Nodup
  mem : ∀ x, x ∈ vars ↔ Mentioned edges x
  sum : ∀ (x : ι → ℤ → ℝ) (v : ι) (t : ℤ),
    inflow edges x v t = ∑ l : Fin L, ∑ j : Fin vars.length, m l v vars[j] * x vars[j] (t - 1 - l)

theorem coeffs_of {edges : List (SEdge ι ℝ)} (hl : ∀ e ∈ edges, e.time < 0) (hd : Distinct edges) {vars : List ι}
    (hn : vars.Nodup) (hv : ∀ x, x ∈ vars ↔ Mentioned edges x) :
    ∃ m, coefficients (longestLag edges) edges (fun _ _ _ => 0) = .ok m ∧ Coeffs edges (longestLag edges) vars m := by
  obtain ⟨m, h1, h2⟩ := coefficients_ok (longestLag edges) edges (fun _ _ _ => 0) hl (fun e he => le_longestLag he) hd
    (fun _ _ => rfl)
  exact ⟨m, h1, hn, hv, fun x v t => sum_coefficients _ edges m hl (fun e he => le_longestLag he) vars hn
    (fun e he => (hv _).2 ⟨e, he, Or.inl rfl⟩) (fun l a b => by rw [h2, zero_add]) x v t⟩

theorem inflow_eq_zero {edges : List (SEdge ι ℝ)} {v : ι} (h : ¬ Mentioned edges v) (x : ι → ℤ → ℝ) (t : ℤ) :
    inflow edges x v t = 0 := by
  unfold inflow
  rw [List.filter_eq_nil_iff.2 (fun e he => by
    simp only [decide_eq_true_eq]
    exact fun hd => h ⟨e, he, Or.inr hd⟩)]
  rfl

theorem powers_vanish {edges : List (SEdge ι ℝ)} {L : ℕ} {vars : List ι} {m : ℕ → ι → ι → ℝ} (hc : Coeffs edges L vars m)
    (hs : Stable edges) (hL : 0 < L) : Tendsto (fun k : ℕ => companion L vars m ^ k) atTop (𝓝 0) := by
  have key : ∀ (s : Idx L vars.length → ℝ) (p : Idx L vars.length),
      Tendsto (fun k : ℕ => (companion L vars m ^ k *ᵥ s) p) atTop (𝓝 0) := by
    intro s p
    let x : ι → ℤ → ℝ := fun v t =>
      if hv : v ∈ vars then
        if 0 ≤ t then (companion L vars m ^ (t.toNat + 1) *ᵥ s) (⟨0, hL⟩, ⟨vars.idxOf v, List.idxOf_lt_length_of_mem hv⟩)
        else if hl : (-1 - t).toNat < L then s (⟨(-1 - t).toNat, hl⟩, ⟨vars.idxOf v, List.idxOf_lt_length_of_mem hv⟩)
        else 0
      else 0
    have hx : ∀ i : Fin vars.length, ∀ t, x vars[i] t =
        if 0 ≤ t then (companion L vars m ^ (t.toNat + 1) *ᵥ s) (⟨0, hL⟩, i)
        else if hl : (-1 - t).toNat < L then s (⟨(-1 - t).toNat, hl⟩, i) else 0 := by
      intro i t
      have h1 : vars[i] ∈ vars := List.getElem_mem _
      have h2 : vars.idxOf vars[i] = i := hc.nodup.idxOf_getElem i i.2
      simp only [x, h1, dite_true, h2, Fin.eta]
    have hw : ∀ k : ℕ, window L vars x k = companion L vars m ^ k *ᵥ s := by
      intro k
      induction k with
      | zero =>
        funext ⟨l, i⟩
        simp only [window, pow_zero, one_mulVec]
        rw [hx]
        have h1 : ¬ (0 : ℤ) ≤ ((0 : ℕ) : ℤ) - 1 - l := by omega
        have h2 : (-1 - (((0 : ℕ) : ℤ) - 1 - l)).toNat = l := by omega
        simp only [h1, if_false, h2, Fin.is_lt, dite_true, Fin.eta]
      | succ k ih =>
        funext ⟨l, i⟩
        by_cases h0 : l.val = 0
        · simp only [window]
          rw [hx]
          have h1 : (0 : ℤ) ≤ ((k + 1 : ℕ) : ℤ) - 1 - l := by omega
          have h2 : ((((k + 1 : ℕ) : ℤ) - 1 - l).toNat + 1) = k + 1 := by omega
          have h3 : l = ⟨0, hL⟩ := Fin.ext h0
          simp only [h1, if_true, h2]
          rw [h3]
        · rw [pow_succ', ← mulVec_mulVec, ← ih, companion_mulVec]
          simp only [h0, dite_false, window]
          congr 1
          omega
    have heq : ∀ v t, 0 ≤ t → x v t = inflow edges x v t := by
      intro v t ht
      obtain ⟨k, rfl⟩ := Int.eq_ofNat_of_zero_le ht
      by_cases hv : v ∈ vars
      · obtain ⟨i, hi, rfl⟩ := List.getElem_of_mem hv
        have h1 := hx ⟨i, hi⟩ k
        simp only [Fin.getElem_fin] at h1
        rw [h1, hc.sum]
        simp only [Int.natCast_nonneg, if_true, Int.toNat_natCast]
        rw [pow_succ', ← mulVec_mulVec, ← hw, companion_mulVec]
        simp only [dite_true, window, Fin.getElem_fin]
      · rw [inflow_eq_zero (fun h => hv ((hc.mem v).2 h))]
        simp only [x, hv, dite_false]
    have hlim := hs x heq
    obtain ⟨l, i⟩ := p
    rw [← tendsto_add_atTop_iff_nat (l.val + 1)]
    refine (hlim vars[i]).congr (fun k => ?_)
    rw [← hw]
    simp only [window]
    congr 1
    push_cast
    omega
  refine tendsto_pi_nhds.2 (fun p => tendsto_pi_nhds.2 (fun q => ?_))
  refine (key (Pi.single q 1) p).congr (fun k => ?_)
  simp

/-- the covariances of the last `L` values of a steady series solve the equation of the companion matrix -/
theorem steady_solves {Ω : Type} [MeasurableSpace Ω] {μ : Measure Ω} [IsProbabilityMeasure μ] {edges : List (SEdge ι ℝ)}
    {L : ℕ} {vars : List ι} {m : ℕ → ι → ι → ℝ} (hc : Coeffs edges L vars m) {X : ι → ℤ → Ω → ℝ} {ε : ι → Ω → ℝ}
    (hX : Steady edges L μ X ε) :
    let S : Matrix (Idx L vars.length) (Idx L vars.length) ℝ := .of fun p q =>
      cov[X vars[p.2] (-1 - (p.1 : ℤ)), X vars[q.2] (-1 - (q.1 : ℤ)); μ]
    S = companion L vars m * S * (companion L vars m)ᵀ + noiseBlock L vars.length := by
  intro S
  have hmem : ∀ i : Fin vars.length, Mentioned edges vars[i] := fun i => (hc.mem _).1 (List.getElem_mem _)
  let A := companion L vars m
  let W : Idx L vars.length → Ω → ℝ := fun p => X vars[p.2] (-1 - (p.1 : ℤ))
  let η : Idx L vars.length → Ω → ℝ := fun p => if p.1.val = 0 then ε vars[p.2] else fun _ => 0
  have hW : ∀ p, MemLp (W p) 2 μ := fun p => hX.square _ (hmem _) _ (by omega) (by omega)
  have hη : ∀ p, MemLp (η p) 2 μ := by
    intro p
    by_cases h : p.1.val = 0
    · simp only [η, h, if_true]; exact hX.squareNoise _ (hmem _)
    · simp only [η, h, if_false]; exact memLp_const 0
  have hstep : ∀ p : Idx L vars.length, X vars[p.2] (-1 - (p.1 : ℤ) + 1) = fun ω => (∑ r, A p r * W r ω) + η p ω := by
    rintro ⟨l, i⟩
    funext ω
    have h1 := companion_mulVec L vars m (fun r => W r ω) l i
    simp only [mulVec, dotProduct] at h1
    rw [show (∑ r, A (l, i) r * W r ω) = _ from h1]
    by_cases h0 : l.val = 0
    · have h2 : (-1 - ((l : ℕ) : ℤ) + 1) = 0 := by omega
      simp only [h0, dite_true, η, if_true]
      rw [h0] at h2
      rw [h2, hX.equation _ (hmem i), hc.sum]
      simp only [W]
      congr 1
    · simp only [h0, dite_false, η, if_false, add_zero, W]
      congr 1
      push_cast [Nat.one_le_iff_ne_zero.2 h0]
      ring
  have hAW : ∀ p, ∀ r, MemLp (fun ω => A p r * W r ω) 2 μ := fun p r => (hW r).const_mul _
  have hsum : ∀ p, MemLp (fun ω => ∑ r, A p r * W r ω) 2 μ := fun p =>
    memLp_finset_sum _ (fun r _ => hAW p r)
  have hWη : ∀ r q, cov[W r, η q; μ] = 0 := by
    intro r q
    by_cases h : q.1.val = 0
    · simp only [η, h, if_true]
      exact hX.fresh _ _ (hmem _) (hmem _) _ (by omega) (by omega)
    · simp only [η, h, if_false]
      exact covariance_const_right 0
  have hsη : ∀ p q, cov[fun ω => ∑ r, A p r * W r ω, η q; μ] = 0 := by
    intro p q
    rw [covariance_fun_sum_left (fun r => hAW p r) (hη q)]
    exact Finset.sum_eq_zero (fun r _ => by rw [covariance_const_mul_left, hWη, mul_zero])
  have hηη : ∀ p q, cov[η p, η q; μ] = noiseBlock L vars.length p q := by
    intro p q
    simp only [noiseBlock, Matrix.of_apply]
    by_cases h : p.1.val = 0
    · by_cases h' : q.1.val = 0
      · simp only [η, h, h', if_true, true_and]
        rw [hX.white _ _ (hmem _) (hmem _)]
        have : vars[p.2] = vars[q.2] ↔ p.2 = q.2 := by
          rw [Fin.getElem_fin, Fin.getElem_fin, hc.nodup.getElem_inj_iff]
          exact Fin.ext_iff.symm
        simp only [this]
      · simp only [η, h, h', if_true, if_false, true_and, false_and]
        exact covariance_const_right 0
    · simp only [η, h, if_false, false_and]
      exact covariance_const_left 0
  ext p q
  have h1 : S p q = cov[X vars[p.2] (-1 - (p.1 : ℤ) + 1), X vars[q.2] (-1 - (q.1 : ℤ) + 1); μ] :=
    (hX.shift _ _ (hmem _) (hmem _) _ _ (by omega) (by omega) (by omega) (by omega)).symm
  rw [h1, hstep p, hstep q]
  have h2 : cov[fun ω => (∑ r, A p r * W r ω) + η p ω, fun ω => (∑ r, A q r * W r ω) + η q ω; μ] =
      cov[fun ω => ∑ r, A p r * W r ω, fun ω => ∑ r, A q r * W r ω; μ] + noiseBlock L vars.length p q := by
    have e1 := covariance_add_left (μ := μ) (hsum p) (hη p) ((hsum q).add (hη q))
    have e2 := covariance_add_right (μ := μ) (hsum p) (hsum q) (hη q)
    have e3 := covariance_add_right (μ := μ) (hη p) (hsum q) (hη q)
    rw [hsη, add_zero] at e2
    rw [hηη, covariance_comm (X := η p) (Y := fun ω => ∑ r, A q r * W r ω), hsη, zero_add] at e3
    rw [e2, e3] at e1
    exact e1
  rw [h2, Matrix.add_apply]
  congr 1
  rw [covariance_fun_sum_fun_sum (fun r => hAW p r) (fun r => hAW q r)]
  simp only [mul_apply, transpose_apply, Finset.sum_mul]
  rw [Finset.sum_comm]
  refine Finset.sum_congr rfl (fun s _ => Finset.sum_congr rfl (fun r _ => ?_))
  rw [covariance_const_mul_left, covariance_const_mul_right]
  simp only [S, W, Matrix.of_apply, A]
  ring

end Sample
end Verif

namespace Verif
namespace Sample
open Matrix Filter Topology MeasureTheory ProbabilityTheory
variable {ι : Type} [DecidableEq ι]

theorem noiseBlock_off (L n : ℕ) (p q : Idx L n) (h : p ≠ q) : noiseBlock L n p q = 0 := by
  simp only [noiseBlock, Matrix.of_apply]
  rw [if_neg]
  rintro ⟨h1, h2, h3⟩
  exact h (Prod.ext (Fin.ext (h1.trans h2.symm)) h3)

theorem noiseBlock_nonneg (L n : ℕ) (p : Idx L n) : 0 ≤ noiseBlock L n p p := by
  simp only [noiseBlock, Matrix.of_apply]
  split <;> norm_num

/-- what `initialScales` returns for stable models, in terms of any solution of the equation -/
theorem initialScales_ok {edges : List (SEdge ι ℝ)} (hne : edges ≠ []) (hl : ∀ e ∈ edges, e.time < 0) (hd : Distinct edges)
    (hs : Stable edges) {vars : List ι} (hn : vars.Nodup) (hv : ∀ x, x ∈ vars ↔ Mentioned edges x) (pinv : PinvFn)
    (hp : ∀ L n M, IsPinv M (pinv L n M)) :
    ∃ (h : 0 < longestLag edges) (m : ℕ → ι → ι → ℝ), Coeffs edges (longestLag edges) vars m ∧
      Tendsto (fun k : ℕ => companion (longestLag edges) vars m ^ k) atTop (𝓝 0) ∧
      ∀ S : Matrix (Idx (longestLag edges) vars.length) (Idx (longestLag edges) vars.length) ℝ,
        S = companion (longestLag edges) vars m * S * (companion (longestLag edges) vars m)ᵀ + noiseBlock _ _ →
        (∀ i, 1 ≤ S (⟨0, h⟩, i) (⟨0, h⟩, i)) ∧
        initialScales pinv edges vars = .ok (fun i => some (√(S (⟨0, h⟩, i) (⟨0, h⟩, i)))) := by
  have hL : 0 < longestLag edges := by
    obtain ⟨e, he⟩ := List.exists_mem_of_ne_nil edges hne
    have := le_longestLag he
    have := hl e he
    omega
  obtain ⟨m, h1, h2⟩ := coeffs_of hl hd hn hv
  have hA := powers_vanish h2 hs hL
  refine ⟨hL, m, h2, hA, fun S hS => ?_⟩
  have hS' : S = covarianceMatrix pinv (companion (longestLag edges) vars m) :=
    solution_unique hA hS (pinv_solves hA (hp _ _ _))
  have h3 : ∀ i, 1 ≤ S (⟨0, hL⟩, i) (⟨0, hL⟩, i) := by
    intro i
    have := le_solution hA hS (noiseBlock_off _ _) (noiseBlock_nonneg _ _) (⟨0, hL⟩, i)
    simpa [noiseBlock] using this
  refine ⟨h3, ?_⟩
  unfold initialScales
  rw [if_neg hne, h1]
  simp only [hL, dite_true, ← hS']
  congr 1
  funext i
  rw [if_neg (by linarith [h3 i])]

/-- there is a solution -/
theorem exists_solution {L : ℕ} {vars : List ι} {m : ℕ → ι → ι → ℝ} (pinv : PinvFn)
    (hp : ∀ L n M, IsPinv M (pinv L n M)) (hA : Tendsto (fun k : ℕ => companion L vars m ^ k) atTop (𝓝 0)) :
    ∃ S, S = companion L vars m * S * (companion L vars m)ᵀ + noiseBlock L vars.length :=
  ⟨_, pinv_solves hA (hp _ _ _)⟩

end Sample
end Verif
