import Verif.Linear.Markov
import Verif.Linear.Spec
import Verif.Linear.Model
import Verif.Stats.Lemmas3
import Verif.Sample.Spec

/-!
# Lemmas: columns that solve linear equations
-/

namespace Verif
namespace Linear
open Dag Stats
variable {ι : Type} [DecidableEq ι] {E : ι → ι → Prop} {n m : ℕ}

/-- the coefficient of the edges from `p` to `v` -/
def coeff (edges : List (Sample.SEdge ι ℝ)) (p v : ι) : ℝ :=
  ((edges.filter (fun e => e.dst = v)).filter (fun e => e.src = p)).map (fun e => e.value) |>.sum

theorem sum_edges (N : Finset ι) (es : List (Sample.SEdge ι ℝ)) (h : ∀ e ∈ es, e.src ∈ N) (y : ι → ℝ) :
    (es.map (fun e => e.value * y e.src)).sum
      = ∑ p ∈ N, ((es.filter (fun e => e.src = p)).map (fun e => e.value)).sum * y p := by
  induction es with
  | nil => simp
  | cons e es ih =>
    rw [List.map_cons, List.sum_cons, ih (fun e' he => h e' (List.mem_cons_of_mem _ he))]
    have : ∀ p, (((e :: es).filter (fun e => e.src = p)).map (fun e => e.value)).sum
        = (if e.src = p then e.value else 0) + ((es.filter (fun e => e.src = p)).map (fun e => e.value)).sum := by
      intro p
      by_cases hp : e.src = p
      · rw [List.filter_cons_of_pos (by simpa using hp), if_pos hp, List.map_cons, List.sum_cons]
      · rw [List.filter_cons_of_neg (by simpa using hp), if_neg hp, zero_add]
    simp only [this, add_mul, Finset.sum_add_distrib]
    congr 1
    rw [Finset.sum_eq_single e.src]
    · rw [if_pos rfl]
    · intro p _ hp
      rw [if_neg (Ne.symm hp), zero_mul]
    · intro hh
      exact absurd (h e List.mem_cons_self) hh

theorem coeff_edge {edges : List (Sample.SEdge ι ℝ)} {p v : ι} (h : coeff edges p v ≠ 0) : Sample.HasEdge edges p v := by
  by_contra hn
  apply h
  unfold coeff
  have : (edges.filter (fun e => e.dst = v)).filter (fun e => e.src = p) = [] := by
    rw [List.filter_eq_nil_iff]
    intro e he
    rw [List.mem_filter] at he
    intro hs
    exact hn ⟨e, he.1, by simpa using hs, by simpa using he.2⟩
  rw [this]
  rfl

/-- centring is linear -/
theorem centred_linear {N : Finset ι} {b : ι → ℝ} {x : ι → Fin n → ℝ} {y e : Fin n → ℝ}
    (h : ∀ i, y i = e i + ∑ p ∈ N, b p * x p i) : centred y = centred e + ∑ p ∈ N, b p • centred (x p) := by
  funext i
  rw [Pi.add_apply, Finset.sum_apply]
  simp only [Pi.smul_apply, smul_eq_mul, centred]
  simp only [h, Finset.sum_add_distrib, mul_sub, Finset.sum_sub_distrib]
  rw [Finset.sum_comm, add_div]
  have : ∑ p ∈ N, b p * ((∑ j, x p j) / n) = (∑ p ∈ N, ∑ j, b p * x p j) / n := by
    rw [Finset.sum_div]
    refine Finset.sum_congr rfl (fun p _ => ?_)
    rw [← Finset.mul_sum, mul_div_assoc]
  rw [this]
  ring

/-- the centred columns solve the equations with the centred noise -/
theorem structural_centred {edges : List (Sample.SEdge ι ℝ)} {noise col : ι → Fin n → ℝ}
    (h : Sample.Structural edges noise col) {N : Finset ι} (hN : ∀ v, v ∈ N ↔ Sample.Mentioned edges v) :
    ∀ v ∈ N, centred (col v) = centred (noise v) + ∑ p ∈ N, coeff edges p v • centred (col p) := by
  intro v hv
  refine centred_linear (fun i => ?_)
  rw [h v ((hN v).1 hv) i]
  have hs : ∀ (es : List (Sample.SEdge ι ℝ)) (a : ℝ), es.foldl (fun acc e => acc + e.value * col e.src i) a
      = a + (es.map (fun e => e.value * col e.src i)).sum := by
    intro es
    induction es with
    | nil => simp
    | cons e es ih => intro a; rw [List.foldl_cons, ih, List.map_cons, List.sum_cons, add_assoc]
  rw [hs, sum_edges N _ (fun e he => (hN _).2 ⟨e, (List.mem_filter.1 he).1, Or.inl rfl⟩) (fun p => col p i)]
  rfl

/-- for any prescribed values there is a vector with these inner products -/
theorem exists_dual (hac : Acyclic E) {N : Finset ι} (hN : ∀ a b, E a b → a ∈ N ∧ b ∈ N) {x e : ι → Fin m → ℝ} {b : ι → ι → ℝ}
    (hb : ∀ p v, b p v ≠ 0 → E p v) (hx : ∀ v ∈ N, x v = e v + ∑ p ∈ N, b p v • x p)
    (he : ∀ v ∈ N, ∀ w ∈ N, v ≠ w → e v ⬝ᵥ e w = 0) (hpos : ∀ v ∈ N, e v ⬝ᵥ e v ≠ 0) (c : ι → ℝ) :
    ∃ r : Fin m → ℝ, ∀ a ∈ N, r ⬝ᵥ x a = c a := by
  have hwf : WellFounded E := Dag.wellFounded hac (N := N.toList) (by simpa using hN)
  refine ⟨∑ s ∈ N, ((c s - ∑ p ∈ N, b p s * c p) / (e s ⬝ᵥ e s)) • e s, fun a => ?_⟩
  generalize hr : (∑ s ∈ N, ((c s - ∑ p ∈ N, b p s * c p) / (e s ⬝ᵥ e s)) • e s) = r
  induction a using hwf.induction with
  | _ a ih =>
    intro ha
    have hre : r ⬝ᵥ e a = c a - ∑ p ∈ N, b p a * c p := by
      rw [← hr, sum_dotProduct, Finset.sum_eq_single a]
      · rw [smul_dotProduct, smul_eq_mul]
        exact div_mul_cancel₀ _ (hpos a ha)
      · intro s hs hsa
        rw [smul_dotProduct, he s hs a ha hsa, smul_zero]
      · intro h; exact absurd ha h
    rw [hx a ha, dotProduct_add, hre, dotProduct_sum]
    have : ∑ p ∈ N, r ⬝ᵥ b p a • x p = ∑ p ∈ N, b p a * c p := by
      refine Finset.sum_congr rfl (fun p _ => ?_)
      rw [dotProduct_smul, smul_eq_mul]
      by_cases hp : b p a = 0
      · rw [hp, zero_mul, zero_mul]
      · have ep := hb p a hp
        rw [ih p ep (hN p a ep).1]
    rw [this]
    ring

/-- columns with varying, uncorrelated noise have no linear relation -/
theorem structural_noRelation {edges : List (Sample.SEdge ι ℝ)} (hac : Acyclic (Sample.HasEdge edges))
    {noise col : ι → Fin n → ℝ} (h : Sample.Structural edges noise col) {N : List ι}
    (hN : ∀ v, v ∈ N ↔ Sample.Mentioned edges v) (hun : ∀ v ∈ N, ∀ w ∈ N, v ≠ w → Uncorrelated (noise v) (noise w))
    (hvar : ∀ v ∈ N, Varies (noise v)) : NoRelation col N := by
  intro a ha v hv
  have hN' : ∀ v, v ∈ N.toFinset ↔ Sample.Mentioned edges v := fun v => by rw [List.mem_toFinset, hN]
  obtain ⟨r, hr⟩ := exists_dual hac (N := N.toFinset)
    (fun a b ⟨e, he, h1, h2⟩ => ⟨(hN' a).2 ⟨e, he, Or.inl h1⟩, (hN' b).2 ⟨e, he, Or.inr h2⟩⟩)
    (fun p v hp => coeff_edge hp) (structural_centred h hN')
    (fun v hv w hw hne => hun v (List.mem_toFinset.1 hv) w (List.mem_toFinset.1 hw) hne)
    (fun v hv h0 => by
      obtain ⟨i, j, hij⟩ := hvar v (List.mem_toFinset.1 hv)
      exact (gram_self_pos hij).ne' h0) (fun w => if w = v then 1 else 0)
  have hz : ∑ w ∈ N.toFinset, a w • centred (col w) = 0 := by
    funext i
    rw [Finset.sum_apply]
    simpa using ha i
  have := congrArg (fun y => r ⬝ᵥ y) hz
  simp only [dotProduct_sum, dotProduct_smul, dotProduct_zero] at this
  rw [Finset.sum_eq_single v] at this
  · rw [hr v (List.mem_toFinset.2 hv), if_pos rfl] at this
    simpa using this
  · intro w hw hne
    rw [hr w hw, if_neg hne, smul_zero]
  · intro hh; exact absurd (List.mem_toFinset.2 hv) hh

/-- no relation among the columns of any list of distinct variables -/
theorem NoRelation.list {col : ι → Fin n → ℝ} {N : List ι} (h : NoRelation col N) {l : List ι} (hl : l.Nodup)
    (hm : ∀ v ∈ l, v ∈ N) : NoLinearRelation (fun j : Fin l.length => col (l.get j)) := by
  intro a ha
  have key := h (fun v => ∑ j : Fin l.length, if l.get j = v then a j else 0) (fun i => ?_)
  · funext j
    have := key (l.get j) (hm _ (l.get_mem j))
    rw [Finset.sum_eq_single j] at this
    · simpa using this
    · intro k _ hk
      exact if_neg (fun hh => hk (hl.injective_get hh))
    · simp
  · simp only [Finset.sum_mul]
    rw [Finset.sum_comm]
    refine Eq.trans (Finset.sum_congr rfl (fun j _ => ?_)) (ha i)
    rw [Finset.sum_eq_single (l.get j)]
    · rw [if_pos rfl]
    · intro w _ hw
      rw [if_neg (Ne.symm hw), zero_mul]
    · intro hh
      exact absurd (List.mem_toFinset.2 (hm _ (l.get_mem j))) hh

/-! ### partial correlations -/

theorem residual_dot {k : ℕ} {x y : Fin n → ℝ} {S : Fin k → Fin n → ℝ} {β γ : Fin k → ℝ} (h : LeastSquares x S β) :
    ∑ i, residual x S β i * residual y S γ i = ∑ i, residual x S β i * centred y i := by
  have : ∑ i, residual x S β i * residual y S γ i
      = ∑ i, residual x S β i * centred y i - ∑ s, γ s * ∑ i, residual x S β i * centred (S s) i := by
    simp only [Finset.mul_sum]
    rw [Finset.sum_comm, ← Finset.sum_sub_distrib]
    refine Finset.sum_congr rfl (fun i _ => ?_)
    conv_lhs => rw [show residual y S γ i = centred y i - ∑ s, γ s * centred (S s) i from rfl]
    rw [mul_sub, Finset.mul_sum]
    congr 1
    exact Finset.sum_congr rfl (fun s _ => by ring)
  rw [this]
  simp [h _]

/-- **the Markov property of the data**: d-separated variables have partial correlation zero -/
theorem partialCorr_zero {edges : List (Sample.SEdge ι ℝ)} (hac : Acyclic (Sample.HasEdge edges))
    {noise col : ι → Fin n → ℝ} (h : Sample.Structural edges noise col) {N : List ι}
    (hN : ∀ v, v ∈ N ↔ Sample.Mentioned edges v) (hun : ∀ v ∈ N, ∀ w ∈ N, v ≠ w → Uncorrelated (noise v) (noise w))
    {x y : ι} {S : List ι} (hq : Question N x y S) (hs : DSep (Sample.HasEdge edges) x y S) {r : ℝ}
    (hr : PartialCorr col x y S r) : r = 0 := by
  obtain ⟨β, γ, h1, h2, rfl⟩ := hr
  obtain ⟨hnd, hm⟩ := hq
  simp only [List.nodup_cons, List.mem_cons, not_or] at hnd
  have hN' : ∀ v, v ∈ N.toFinset ↔ Sample.Mentioned edges v := fun v => by rw [List.mem_toFinset, hN]
  have := markov hac (N := N.toFinset) (x := fun v => centred (col v)) (e := fun v => centred (noise v))
    (fun a b ⟨e, he, h1, h2⟩ => ⟨(hN' a).2 ⟨e, he, Or.inl h1⟩, (hN' b).2 ⟨e, he, Or.inr h2⟩⟩)
    (fun p v hp => coeff_edge hp) (structural_centred h hN')
    (fun v hv w hw hne => hun v (List.mem_toFinset.1 hv) w (List.mem_toFinset.1 hw) hne)
    (u := x) (v := y) (Z := S) (List.mem_toFinset.2 (hm x (by simp))) (List.mem_toFinset.2 (hm y (by simp)))
    (fun z hz => List.mem_toFinset.2 (hm z (by simp [hz]))) hnd.1.1 hnd.1.2 hnd.2.1 hs
    (f := residual (col x) (fun s => col (S.get s)) β) (zs := fun s => S.get s) (fun j => S.get_mem j) (β := β)
    (by
      funext i
      rw [Pi.sub_apply, Finset.sum_apply]
      rfl)
    (fun z hz => by
      obtain ⟨j, rfl⟩ := List.get_of_mem hz
      exact h1 j)
  unfold cosine
  rw [residual_dot h1, show ∑ i, residual (col x) (fun s => col (S.get s)) β i * centred (col y) i = 0 from this, zero_div]

end Linear
end Verif
