import Mathlib.Data.Matrix.Mul
import Mathlib.LinearAlgebra.Matrix.DotProduct
import Mathlib.Algebra.Order.BigOperators.Ring.Finset
import Mathlib.Data.Real.Basic
import Mathlib.Tactic.Linarith
import Mathlib.Tactic.FieldSimp
import Verif.Dag.Ball
import Verif.Dag.Meek

/-!
# Linear equations along a DAG: d-separated variables have orthogonal residuals

If every vector is its own noise plus a combination of the vectors of its parents, and the noise vectors are orthogonal, then
what is left of `x u` after a regression on the `x z`, `z ∈ Z`, is orthogonal to `x v` whenever `u` and `v` are d-separated
by `Z`.  The noise vectors may be zero.
-/

namespace Verif
namespace Linear
open Dag
variable {ι : Type} [DecidableEq ι] {E : ι → ι → Prop} {m : ℕ}

/-- the ancestors of `u`, `v` and `Z` -/
def Anc (E : ι → ι → Prop) (u v : ι) (Z : List ι) (a : ι) : Prop := Desc E a u ∨ Desc E a v ∨ ∃ z ∈ Z, Desc E a z

omit [DecidableEq ι] in
theorem Anc.parent {u v : ι} {Z : List ι} {a p : ι} (h : Anc E u v Z a) (e : E p a) : Anc E u v Z p := by
  rcases h with h | h | ⟨z, hz, h⟩
  · exact Or.inl (h.head e)
  · exact Or.inr (Or.inl (h.head e))
  · exact Or.inr (Or.inr ⟨z, hz, h.head e⟩)

omit [DecidableEq ι] in
/-- a ball that is at `a`, outside `Z`, rolls down to every descendant or meets `Z` -/
theorem ball_falls {u a t : ι} {Z : List ι} {d : Bool} (h : Ball E Z u a d) (ht : Desc E a t) :
    (∃ d, Ball E Z u t d) ∨ ∃ z ∈ Z, Desc E a z := by
  induction ht using Relation.ReflTransGen.head_induction_on generalizing d with
  | refl => exact Or.inl ⟨d, h⟩
  | @head a c e _ ih =>
    by_cases ha : a ∈ Z
    · exact Or.inr ⟨a, ha, .refl⟩
    · rcases ih (.down h ha e) with h' | ⟨z, hz, h'⟩
      · exact Or.inl h'
      · exact Or.inr ⟨z, hz, h'.head e⟩

omit [DecidableEq ι] in
/-- the start can be reached backwards from each of its ancestors, unless `Z` is in between -/
theorem ball_climbs {u a : ι} {Z : List ι} (ht : Desc E a u) : Ball E Z u a false ∨ ∃ z ∈ Z, Desc E a z := by
  induction ht using Relation.ReflTransGen.head_induction_on with
  | refl => exact Or.inl .start
  | @head a c e _ ih =>
    by_cases hc : c ∈ Z
    · exact Or.inr ⟨c, hc, .single e⟩
    · rcases ih with h | ⟨z, hz, h⟩
      · exact Or.inl (.up h hc e)
      · exact Or.inr ⟨z, hz, h.head e⟩

omit [DecidableEq ι] in
/-- a ball that falls onto an ancestor of `u`, `v` or `Z` outside `Z` rolls up to all parents, if it never gets to `v` -/
theorem ball_to_parent {u v s p : ι} {Z : List ι} (hv : ∀ d, ¬ Ball E Z u v d) (ha : Anc E u v Z s) {d : Bool}
    (h : Ball E Z u s d) (hd : s ∈ Z → d = true) (e : E p s) : Ball E Z u p false := by
  by_cases hs : s ∈ Z
  · rw [hd hs] at h
    exact .bounce h hs e
  · cases d with
    | false => exact .up h hs e
    | true =>
      have hz : (∃ z ∈ Z, Desc E s z) → Ball E Z u p false := fun ⟨z, hz, hsz⟩ => Ball.back hsz hz h e
      rcases ha with ha | ha | ha
      · rcases ball_climbs (Z := Z) ha with h' | h'
        · exact .up h' hs e
        · exact hz h'
      · rcases ball_falls h ha with ⟨d, h'⟩ | h'
        · exact absurd h' (hv d)
        · exact hz h'
      · exact hz ha

omit [DecidableEq ι] in
/-- if the ball gets to one member outside `Z` of the family of `s`, it gets to all of them -/
theorem ball_family {u v s a w : ι} {Z : List ι} (hv : ∀ d, ¬ Ball E Z u v d) (hs : Anc E u v Z s)
    (ha : a = s ∨ E a s) (hw : w = s ∨ E w s) (hZ : w ∉ Z) (h : ∃ d, Ball E Z u w d) : ∃ d, Ball E Z u a d := by
  obtain ⟨d, h⟩ := h
  rcases hw with rfl | e
  · rcases ha with rfl | e
    · exact ⟨d, h⟩
    · exact ⟨_, ball_to_parent hv hs h (fun hz => absurd hz hZ) e⟩
  · have h' := h.down hZ e
    rcases ha with rfl | e
    · exact ⟨_, h'⟩
    · exact ⟨_, ball_to_parent hv hs h' (fun _ => rfl) e⟩

/-- d-separated variables have orthogonal residuals -/
theorem markov (hac : Acyclic E) {N : Finset ι} (hN : ∀ a b, E a b → a ∈ N ∧ b ∈ N) {x e : ι → Fin m → ℝ} {b : ι → ι → ℝ}
    (hb : ∀ p v, b p v ≠ 0 → E p v) (hx : ∀ v ∈ N, x v = e v + ∑ p ∈ N, b p v • x p)
    (he : ∀ v ∈ N, ∀ w ∈ N, v ≠ w → e v ⬝ᵥ e w = 0) {u v : ι} {Z : List ι} (hu : u ∈ N) (hv : v ∈ N) (hZN : ∀ z ∈ Z, z ∈ N)
    (hne : u ≠ v) (huZ : u ∉ Z) (hvZ : v ∉ Z) (hsep : DSep E u v Z) {f : Fin m → ℝ} {k : ℕ} {zs : Fin k → ι}
    (hzs : ∀ j, zs j ∈ Z) {β : Fin k → ℝ} (hf : f = x u - ∑ j, β j • x (zs j)) (horth : ∀ z ∈ Z, f ⬝ᵥ x z = 0) :
    f ⬝ᵥ x v = 0 := by
  classical
  have hball : ∀ d, ¬ Ball E Z u v d := fun d h => (not_dsep_iff_ball hac hne huZ).2 ⟨d, h⟩ hsep
  have hwf : WellFounded E := Dag.wellFounded hac (N := N.toList) (by simpa using hN)
  let A : Finset ι := N.filter (Anc E u v Z)
  have hA : ∀ a, a ∈ A ↔ a ∈ N ∧ Anc E u v Z a := fun a => Finset.mem_filter
  let W : ι → Prop := fun a => a ∈ A ∧ a ∉ Z ∧ ∀ d, ¬ Ball E Z u a d
  let c : ι → ℝ := fun a => if W a then f ⬝ᵥ x a else 0
  let t : ι → ℝ := fun s => c s - ∑ p ∈ N, b p s * c p
  have heq : ∀ s ∈ N, f ⬝ᵥ e s = f ⬝ᵥ x s - ∑ p ∈ N, b p s * f ⬝ᵥ x p := by
    intro s hs
    conv_rhs => rw [hx s hs]
    rw [dotProduct_add, dotProduct_sum]
    simp only [dotProduct_smul, smul_eq_mul]
    ring
  have h1 : ∀ s ∈ A, t s = 0 ∨ t s = f ⬝ᵥ e s := by
    intro s hs
    obtain ⟨hsN, hsA⟩ := (hA s).1 hs
    by_cases hex : ∃ a, (a = s ∨ E a s) ∧ W a
    · right
      obtain ⟨a, ha, hWa⟩ := hex
      have hc : ∀ w, (w = s ∨ E w s) → c w = f ⬝ᵥ x w := by
        intro w hw
        have hwA : w ∈ A := by
          rcases hw with rfl | e
          · exact hs
          · exact (hA w).2 ⟨(hN w s e).1, hsA.parent e⟩
        by_cases hwZ : w ∈ Z
        · rw [horth w hwZ]
          exact if_neg (fun h => h.2.1 hwZ)
        · refine if_pos ⟨hwA, hwZ, fun d hd => ?_⟩
          obtain ⟨d', h'⟩ := ball_family hball hsA ha hw hwZ ⟨d, hd⟩
          exact hWa.2.2 d' h'
      rw [heq s hsN]
      simp only [t]
      rw [hc s (Or.inl rfl)]
      congr 1
      refine Finset.sum_congr rfl (fun p _ => ?_)
      by_cases hp : b p s = 0
      · rw [hp, zero_mul, zero_mul]
      · rw [hc p (Or.inr (hb p s hp))]
    · left
      have hc : ∀ w, (w = s ∨ E w s) → c w = 0 := fun w hw => if_neg (fun h => hex ⟨w, hw, h⟩)
      simp only [t]
      rw [hc s (Or.inl rfl), zero_sub, neg_eq_zero]
      refine Finset.sum_eq_zero (fun p _ => ?_)
      by_cases hp : b p s = 0
      · rw [hp, zero_mul]
      · rw [hc p (Or.inr (hb p s hp)), mul_zero]
  have hzero : ∀ s ∈ A, e s ⬝ᵥ e s = 0 → t s = 0 := by
    intro s hs h0
    rcases h1 s hs with h | h
    · exact h
    · rw [h, dotProduct_self_eq_zero.1 h0, dotProduct_zero]
  let r : Fin m → ℝ := ∑ s ∈ A, (t s / (e s ⬝ᵥ e s)) • e s
  have h2 : ∀ a, a ∈ A → r ⬝ᵥ x a = c a := by
    intro a
    induction a using hwf.induction with
    | _ a ih =>
      intro ha
      obtain ⟨haN, haA⟩ := (hA a).1 ha
      have hre : r ⬝ᵥ e a = t a := by
        simp only [r]
        rw [sum_dotProduct, Finset.sum_eq_single a]
        · rw [smul_dotProduct, smul_eq_mul]
          by_cases h0 : e a ⬝ᵥ e a = 0
          · rw [hzero a ha h0, h0, mul_zero]
          · exact div_mul_cancel₀ _ h0
        · intro s hs hsa
          rw [smul_dotProduct, he s ((hA s).1 hs).1 a haN hsa, smul_zero]
        · intro h; exact absurd ha h
      rw [hx a haN, dotProduct_add, hre, dotProduct_sum]
      have : ∑ p ∈ N, r ⬝ᵥ b p a • x p = ∑ p ∈ N, b p a * c p := by
        refine Finset.sum_congr rfl (fun p _ => ?_)
        rw [dotProduct_smul, smul_eq_mul]
        by_cases hp : b p a = 0
        · rw [hp, zero_mul, zero_mul]
        · have ep := hb p a hp
          rw [ih p ep ((hA p).2 ⟨(hN p a ep).1, haA.parent ep⟩)]
      rw [this]
      simp only [t]
      ring
  have huA : u ∈ A := (hA u).2 ⟨hu, Or.inl .refl⟩
  have hvA : v ∈ A := (hA v).2 ⟨hv, Or.inr (Or.inl .refl)⟩
  have hzA : ∀ z ∈ Z, z ∈ A := fun z hz => (hA z).2 ⟨hZN z hz, Or.inr (Or.inr ⟨z, hz, .refl⟩)⟩
  have h3 : r ⬝ᵥ f = 0 := by
    rw [hf, dotProduct_sub, dotProduct_sum, h2 u huA]
    have hcu : c u = 0 := if_neg (fun h => h.2.2 _ .start)
    rw [hcu, zero_sub, neg_eq_zero]
    refine Finset.sum_eq_zero (fun j _ => ?_)
    rw [dotProduct_smul, h2 _ (hzA _ (hzs j))]
    have : c (zs j) = 0 := if_neg (fun h => h.2.1 (hzs j))
    rw [this, smul_zero]
  have h4 : r ⬝ᵥ f = ∑ s ∈ A, t s ^ 2 / (e s ⬝ᵥ e s) := by
    simp only [r]
    rw [sum_dotProduct]
    refine Finset.sum_congr rfl (fun s hs => ?_)
    rw [smul_dotProduct, smul_eq_mul, dotProduct_comm (e s) f]
    rcases h1 s hs with h | h
    · rw [h]; simp
    · rw [← h]; ring
  have h5 : ∀ s ∈ A, t s = 0 := by
    intro s hs
    by_cases h0 : e s ⬝ᵥ e s = 0
    · exact hzero s hs h0
    · have hnn : ∀ s ∈ A, 0 ≤ t s ^ 2 / (e s ⬝ᵥ e s) := fun s _ =>
        div_nonneg (sq_nonneg _) (Finset.sum_nonneg (fun i _ => mul_self_nonneg _))
      have := (Finset.sum_eq_zero_iff_of_nonneg hnn).1 (h4.symm.trans h3) s hs
      rcases div_eq_zero_iff.1 this with h | h
      · exact pow_eq_zero_iff (two_ne_zero) |>.1 h
      · exact absurd h h0
  have h6 : r = 0 := Finset.sum_eq_zero (fun s hs => by rw [h5 s hs, zero_div, zero_smul])
  have hcv : c v = f ⬝ᵥ x v := if_pos ⟨hvA, hvZ, hball⟩
  rw [← hcv, ← h2 v hvA, h6, zero_dotProduct]

end Linear
end Verif
