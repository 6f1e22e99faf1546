import Verif.Linear.Lemmas2
import Verif.CI.Props
import Verif.PC.Lemmas5

/-!
# Constant columns (C106)
-/

namespace Verif
open Graph CI PC Linear Stats
variable {ι : Type} [DecidableEq ι] {n : ℕ}

/-- a pipeline made of independence-test steps other than the regression test -/
def CIPipelineNoRegression {ρ : Type} (T : Tests ι ρ) (ps : List (PStep ι (Info ι ρ))) : Prop :=
  ∀ p ∈ ps, ∀ s ∈ p.steps, ∃ t : CITest ι, t.Valid ∧ (∀ cfg, t ≠ .regression cfg) ∧ s = t.step T

theorem nanDecision_ne (samples controls : ℕ) : nanDecision samples controls ≠ .ok true := by
  unfold nanDecision
  split <;> simp

theorem torchCov_constant {k : ℕ} (cols : Fin (k + 2) → Fin n → ℝ) (j : Fin (k + 2)) (h : ¬ Varies (cols j)) :
    (torchCov cols).det = 0 := by
  have hd : ∀ i, dev (cols j) i = 0 := by
    intro i
    have hc : ∀ l, cols j l = cols j i := fun l => by
      by_contra hne
      exact h ⟨l, i, hne⟩
    have hn : (n : ℝ) ≠ 0 := by
      have : n ≠ 0 := by rintro rfl; exact i.elim0
      exact_mod_cast this
    unfold dev mean
    simp only [hc, Finset.sum_const, Finset.card_univ, Fintype.card_fin, nsmul_eq_mul]
    field_simp
    simp
  refine Matrix.det_eq_zero_of_row_eq_zero j (fun i => ?_)
  unfold torchCov
  simp [hd]

omit [DecidableEq ι] in
/-- **C106 (tests).** No test that involves a variable which is constant in the data, be it one of the two variables in
question or a conditioning variable, reports independence: the correlation is NaN, and the covariance matrix is singular. -/
theorem C106_never_reported (Φ : ℝ → ℝ) (Q : ℝ → ℕ → ℝ) (solve : Solver n) (threshold : ℝ) (col : ι → Fin n → ℝ) (c : ι)
    (hc : ¬ Varies (col c)) :
    let T := dataTests Φ Q solve threshold col
    (∀ x y, c ∈ [x, y] → T.t0 x y (T.pearson x y) ≠ .ok true) ∧
    (∀ x y z, c ∈ [x, y, z] → T.t1 1 x y z (T.pearson x y) (T.pearson x z) (T.pearson y z) ≠ .ok (some true)) ∧
    (∀ x y S, c ∈ x :: y :: S → T.tm (x :: y :: S) ≠ .ok (some true)) := by
  have hp : ∀ x y, c = x ∨ c = y → Stats.pearson (col x) (col y) = none := by
    rintro x y (rfl | rfl)
    · exact C48_constant (Or.inl hc)
    · exact C48_constant (Or.inr hc)
  refine ⟨?_, ?_, ?_⟩
  · intro x y h
    simp only [List.mem_cons, List.not_mem_nil, or_false] at h
    show marginalAnswer Φ threshold n (Stats.pearson (col x) (col y)) ≠ _
    rw [hp x y h]
    exact nanDecision_ne _ _
  · intro x y z h
    simp only [List.mem_cons, List.not_mem_nil, or_false] at h
    show tripleAnswer Φ threshold n 1 (Stats.pearson (col x) (col y)) (Stats.pearson (col x) (col z))
      (Stats.pearson (col y) (col z)) ≠ _
    have key : ∀ a b d : Option ℝ, b = none ∨ d = none → tripleAnswer Φ threshold n 1 a b d ≠ .ok (some true) := by
      intro a b d hbd
      have e : tripleAnswer Φ threshold n 1 a b d = match nanDecision n 1 with
          | .error e => .error e
          | .ok ans => .ok (some ans) := by
        rcases hbd with rfl | rfl
        · rfl
        · cases b <;> rfl
      rw [e]
      have := nanDecision_ne n 1
      cases hd : nanDecision n 1 with
      | error e => simp
      | ok b => rw [hd] at this; simpa using this
    refine key _ _ _ ?_
    rcases h with h | h | h
    · exact Or.inl (hp x z (Or.inl h))
    · exact Or.inr (hp y z (Or.inl h))
    · exact Or.inl (hp x z (Or.inr h))
  · intro x y S h
    obtain ⟨j, hj⟩ := List.get_of_mem h
    show matrixDecision Φ threshold (k := S.length) (fun j => col ((x :: y :: S).get j)) ≠ _
    have : matrixParCorr (torchCov (k := S.length + 2) (fun j => col ((x :: y :: S).get j))) = none := by
      unfold matrixParCorr
      rw [if_pos (torchCov_constant _ j (by rw [hj]; exact hc))]
    unfold matrixDecision
    rw [this]
    simp

/-- **C106.** A variable that is constant in the data keeps its edges to all other variables, whatever tests are run on these
data (other than the regression test), in whatever order, and wherever the run stops; and it is in no separating set: for two
variables that are not adjacent any more, neither of which is then constant, there is a recorded removal whose separating set
does not contain it. -/
theorem C106_constant_stays_connected (Φ : ℝ → ℝ) (Q : ℝ → ℕ → ℝ) (solve : Solver n) (threshold : ℝ) (col : ι → Fin n → ℝ)
    (c : ι) (hc : ¬ Varies (col c)) (gn : CGraph ι (Option ℝ)) (hgn : Reachable gn) (fuel : Nat)
    (ps : List (PStep ι (Info ι (Option ℝ)))) (hps : CIPipelineNoRegression (dataTests Φ Q solve threshold col) ps)
    (h : List (HistRec ι (Info ι (Option ℝ)))) (x y : ι) (hx : x ∈ gn.nodes) (hy : y ∈ gn.nodes) (hxy : x ≠ y)
    (hno : (graphAfter fuel ps ⟨startGraph gn, h⟩).edgeExists x y = false) :
    x ≠ c ∧ y ≠ c ∧ ∃ r ∈ (graphAfter fuel ps ⟨startGraph gn, h⟩).retrieveEdgeHistory x y .removeEdgeUndirected,
      ∃ d S, r.data = some d ∧ d.sep = some S ∧ c ∉ S := by
  let T' : Tests ι (Option ℝ) := { dataTests Φ Q solve threshold col with reg := fun _ => .ok false }
  have hstep : ∀ t : CITest ι, (∀ cfg, t ≠ .regression cfg) → t.step (dataTests Φ Q solve threshold col) = t.step T' := by
    intro t ht
    cases t with
    | pearson => rfl
    | correlation => rfl
    | partialCorrelation =>
      show CI.partialStep _ = CI.partialStep _
      unfold CI.partialStep CI.partialProcess
      simp only [T', partialLoop_reg]
    | matrix cfg => rfl
    | regression cfg => exact absurd rfl (ht cfg)
  have hps' : CIPipeline T' ps := by
    intro p hp s hs
    obtain ⟨t, h1, h2, h3⟩ := hps p hp s hs
    exact ⟨t, h1, h3.trans (hstep t h2)⟩
  obtain ⟨r, hr, -, hrr, d, S, h1, h2, -, -, -, -, hrep⟩ := C38_missing_adjacency_certified T'
    (fun a b => C48_symmetric (col a) (col b)) gn hgn fuel ps hps' h x y hx hy hxy hno
  obtain ⟨k0, k1, k2⟩ := C106_never_reported Φ Q solve threshold col c hc
  have key : c ∉ r.u :: r.v :: S := by
    intro hmem
    cases hrep with
    | marginal h => exact k0 _ _ hmem h
    | triple z h => exact k1 _ _ _ hmem h
    | matrix S h => exact k2 _ _ _ hmem h
    | regression S h => cases h
  simp only [List.mem_cons, not_or] at key
  refine ⟨?_, ?_, r, hr, d, S, h1, h2, key.2.2⟩
  · rintro rfl
    rcases hrr with ⟨e, -⟩ | ⟨-, e⟩
    · exact key.1 e.symm
    · exact key.2.1 e.symm
  · rintro rfl
    rcases hrr with ⟨-, e⟩ | ⟨e, -⟩
    · exact key.2.1 e.symm
    · exact key.1 e.symm

/-- the tests of `PC` and of `PCClassic` are such a pipeline -/
example (T : Tests ι (Option ℝ)) (ord : NbOrd ι) (ho : ord.Valid) :
    CIPipelineNoRegression T (pcSkeleton T ord) ∧ CIPipelineNoRegression T (classicSkeleton T ord) := by
  constructor
  · intro p hp s hs
    simp only [pcSkeleton, List.mem_cons, List.not_mem_nil, or_false] at hp
    rcases hp with rfl | rfl | rfl | rfl <;> simp only [PStep.steps, List.mem_singleton] at hs <;> subst hs
    · exact ⟨.pearson, trivial, by simp, rfl⟩
    · exact ⟨.correlation, trivial, by simp, rfl⟩
    · exact ⟨.partialCorrelation, trivial, by simp, rfl⟩
    · exact ⟨.matrix _, neighbours_valid ho, by simp, rfl⟩
  · intro p hp s hs
    simp only [classicSkeleton, List.mem_cons, List.not_mem_nil, or_false] at hp
    rcases hp with rfl | rfl | rfl <;> simp only [PStep.steps, List.mem_singleton] at hs <;> subst hs
    · exact ⟨.pearson, trivial, by simp, rfl⟩
    · exact ⟨.correlation, trivial, by simp, rfl⟩
    · exact ⟨.matrix _, neighbours_valid ho, by simp, rfl⟩

/-- a constant column beside one that varies -/
def exConstant (v : ℕ) (i : Fin 8) : ℝ := if v = 0 then 7 else (i.val : ℝ)

example : ¬ Varies (exConstant 0) ∧ Varies (exConstant 1) := by
  refine ⟨?_, 0, 1, by norm_num [exConstant]⟩
  rintro ⟨i, j, h⟩
  exact h rfl

end Verif
