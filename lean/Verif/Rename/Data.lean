import Verif.Rename.Tests
import Verif.Linear.Model
import Verif.Stats.Props

/-!
# The tests on data under other names, units, origins and orders of samples: lemmas
-/

namespace Verif
open Graph CI Orient PC Linear Stats
variable {ι ι' : Type} [DecidableEq ι] [DecidableEq ι'] {n : ℕ}

/-! ## the order of the samples -/

theorem mean_samples (x : Fin n → ℝ) (σ : Equiv.Perm (Fin n)) : mean (fun i => x (σ i)) = mean x := by
  unfold mean
  rw [Equiv.sum_comp σ x]

theorem gram_samples (x y : Fin n → ℝ) (σ : Equiv.Perm (Fin n)) :
    gram (fun i => x (σ i)) (fun i => y (σ i)) = gram x y := by
  unfold gram dev
  rw [mean_samples, mean_samples]
  exact Equiv.sum_comp σ (fun i => (x i - mean x) * (y i - mean y))

theorem torchCov_samples {k : ℕ} (cols : Fin k → Fin n → ℝ) (σ : Equiv.Perm (Fin n)) :
    torchCov (fun j i => cols j (σ i)) = torchCov cols := by
  funext a b
  have := gram_samples (cols a) (cols b) σ
  unfold gram at this
  simp only [torchCov, Matrix.of_apply, this]

/-! ## units -/

/-- the sign of a factor -/
noncomputable def sgn (a : ℝ) : ℝ := if 0 < a then 1 else -1

theorem sgn_cases (a : ℝ) : sgn a = 1 ∨ sgn a = -1 := by
  unfold sgn
  split <;> simp

theorem sgn_sq (a : ℝ) : sgn a * sgn a = 1 := by rcases sgn_cases a with h | h <;> rw [h] <;> norm_num

theorem sgn_mul_abs {a : ℝ} (h : a ≠ 0) : sgn a * |a| = a := by
  unfold sgn
  split
  · rw [abs_of_pos ‹_›, one_mul]
  · rw [abs_of_nonpos (not_lt.1 ‹_›)]
    ring

theorem clamp_neg (r : ℝ) : clamp (-r) = -clamp r := by
  unfold clamp
  split_ifs <;> linarith

theorem clamp_sign {s : ℝ} (hs : s = 1 ∨ s = -1) (r : ℝ) : clamp (s * r) = s * clamp r := by
  rcases hs with rfl | rfl
  · simp
  · simp [clamp_neg]

theorem pearson_data (x y : Fin n → ℝ) (σ : Equiv.Perm (Fin n)) {a c : ℝ} (b d : ℝ) (ha : a ≠ 0) (hc : c ≠ 0) :
    pearson (fun i => a * x (σ i) + b) (fun i => c * y (σ i) + d) = (pearson x y).map (fun r => sgn a * sgn c * r) := by
  have e1 : ∀ (z : Fin n → ℝ) (a b : ℝ), stdPop (fun i => a * z (σ i) + b) = |a| * stdPop z := by
    intro z a b
    rw [stdPop_eq, stdPop_eq, gram_affine (fun i => z (σ i)) (fun i => z (σ i)), gram_samples, mul_div_assoc,
      Real.sqrt_mul (mul_self_nonneg a), Real.sqrt_mul_self_eq_abs]
  have e2 : covPop (fun i => a * x (σ i) + b) (fun i => c * y (σ i) + d) = a * c * covPop x y := by
    rw [covPop_eq, covPop_eq, gram_affine (fun i => x (σ i)) (fun i => y (σ i)), gram_samples, mul_div_assoc]
  have hac : |a| * |c| ≠ 0 := mul_ne_zero (abs_ne_zero.2 ha) (abs_ne_zero.2 hc)
  have e3 : a * c = (|a| * |c|) * (sgn a * sgn c) := by
    conv_lhs => rw [← sgn_mul_abs ha, ← sgn_mul_abs hc]
    ring
  unfold pearson pearsonRaw
  rw [e1, e1, e2, mul_mul_mul_comm]
  simp only [mul_eq_zero, abs_eq_zero, ha, hc, false_or]
  split
  · rfl
  · rw [Option.map_some, Option.map_some, Option.map_some, e3, mul_assoc (|a| * |c|), mul_div_mul_left _ _ hac, mul_div_assoc]
    rw [clamp_sign]
    rcases sgn_cases a with h | h <;> rcases sgn_cases c with h' | h' <;> rw [h, h'] <;> norm_num

theorem det_few {k : ℕ} (cols : Fin (k + 2) → Fin n → ℝ) (hn : ¬ 2 ≤ n) : (torchCov cols).det = 0 := by
  have hd : ∀ (x : Fin n → ℝ) i, dev x i = 0 := by
    intro x i
    have h1 : n = 1 := by
      have := i.pos
      omega
    subst h1
    unfold dev mean
    simp [Subsingleton.elim i 0]
  refine Matrix.det_eq_zero_of_row_eq_zero 0 (fun j => ?_)
  simp [torchCov, hd]

theorem matrixDecision_few (Φ : ℝ → ℝ) (t : ℝ) {k : ℕ} (cols : Fin (k + 2) → Fin n → ℝ) (hn : ¬ 2 ≤ n) :
    matrixDecision Φ t cols = .ok none := by
  unfold matrixDecision matrixParCorr
  rw [if_pos (det_few cols hn)]

theorem matrixDecision_data (Φ : ℝ → ℝ) (t : ℝ) {k : ℕ} (cols : Fin (k + 2) → Fin n → ℝ) (σ : Equiv.Perm (Fin n))
    (a b : Fin (k + 2) → ℝ) (ha : ∀ j, a j ≠ 0) :
    matrixDecision Φ t (fun j i => a j * cols j (σ i) + b j) = matrixDecision Φ t cols := by
  by_cases hn : 2 ≤ n
  · rw [C68_units Φ t (fun j i => cols j (σ i)) hn a b ha]
    unfold matrixDecision
    rw [torchCov_samples]
  · rw [matrixDecision_few _ _ _ hn, matrixDecision_few _ _ _ hn]

theorem independent_sign (Φ : ℝ → ℝ) (t : ℝ) (m c : ℕ) {s : ℝ} (hs : s = 1 ∨ s = -1) (r : ℝ) :
    Agree (fun _ _ => True) Eq (independent Φ t m c r) (independent Φ t m c (s * r)) := by
  have habs : |r| = |s * r| := by rcases hs with rfl | rfl <;> simp
  by_cases hr : |r| < 1
  · rw [independent_abs hr habs]
    cases independent Φ t m c (s * r) with
    | error e => exact .error trivial
    | ok b => exact .ok rfl
  · obtain ⟨e1, h1⟩ := fisherZ_error (not_lt.1 hr)
    obtain ⟨e2, h2⟩ := fisherZ_error (habs ▸ not_lt.1 hr)
    unfold independent
    rw [h1, h2]
    exact .error trivial

theorem agree_refl {α : Type} {W : PyErr → PyErr → Prop} (hW : ∀ e, W e e) (x : Except PyErr α) : Agree W Eq x x := by
  cases x with
  | error e => exact .error (hW e)
  | ok a => exact .ok rfl

/-- how the stored correlation of `u` and `v` changes -/
noncomputable def signed (a : ι → ℝ) (u v : ι) (r : Option ℝ) : Option ℝ := r.map (fun r => sgn (a u) * sgn (a v) * r)

omit [DecidableEq ι] in
theorem signed_symm (a : ι → ℝ) (u v : ι) : signed a u v = signed a v u := by
  funext r
  simp only [signed, mul_comm (sgn (a u))]

theorem tripleAnswer_sign (Φ : ℝ → ℝ) (t : ℝ) (m c : ℕ) {p q s : ℝ} (hp : p = 1 ∨ p = -1) (hq : q = 1 ∨ q = -1)
    (hs : s = 1 ∨ s = -1) (a b d : Option ℝ) :
    Agree (fun _ _ => True) Eq (tripleAnswer Φ t m c a b d)
      (tripleAnswer Φ t m c (a.map (fun r => p * q * r)) (b.map (fun r => p * s * r)) (d.map (fun r => q * s * r))) := by
  have hpq : p * q = 1 ∨ p * q = -1 := by rcases hp with rfl | rfl <;> rcases hq with rfl | rfl <;> norm_num
  have hps : (p * s) ^ 2 = 1 := by rcases hp with rfl | rfl <;> rcases hs with rfl | rfl <;> norm_num
  have hqs : (q * s) ^ 2 = 1 := by rcases hq with rfl | rfl <;> rcases hs with rfl | rfl <;> norm_num
  have hss : s * s = 1 := by rcases hs with rfl | rfl <;> norm_num
  cases b with
  | none => exact agree_refl (fun _ => trivial) _
  | some b =>
    cases d with
    | none => exact agree_refl (fun _ => trivial) _
    | some d =>
      cases a with
      | none =>
        simp only [tripleAnswer, Option.map_some, Option.map_none, mul_pow (p * s), mul_pow (q * s), hps, hqs, one_mul]
        exact agree_refl (fun _ => trivial) _
      | some a =>
        simp only [tripleAnswer, Option.map_some, tripleParCorr, mul_pow (p * s), mul_pow (q * s), hps, hqs, one_mul]
        by_cases h0 : √((1 - b ^ 2) * (1 - d ^ 2)) = 0
        · simp only [if_pos h0]
          exact .ok rfl
        · simp only [if_neg h0]
          have e : (p * q * a - p * s * b * (q * s * d)) / √((1 - b ^ 2) * (1 - d ^ 2)) =
              p * q * ((a - b * d) / √((1 - b ^ 2) * (1 - d ^ 2))) := by
            rw [← mul_div_assoc]
            congr 1
            linear_combination (-(p * q * b * d)) * hss
          rw [e]
          have h1 := independent_sign Φ t m c hpq ((a - b * d) / √((1 - b ^ 2) * (1 - d ^ 2)))
          generalize independent Φ t m c ((a - b * d) / √((1 - b ^ 2) * (1 - d ^ 2))) = x at h1
          generalize independent Φ t m c (p * q * _) = y at h1
          cases h1 with
          | error h1 => exact .error trivial
          | ok h1 => subst h1; exact .ok rfl

omit [DecidableEq ι] [DecidableEq ι'] in
theorem matrixAnswer_data (Φ : ℝ → ℝ) (t : ℝ) {e : ι → ι'} {col : ι → Fin n → ℝ} {col' : ι' → Fin n → ℝ} {a b : ι → ℝ}
    (ha : ∀ v, a v ≠ 0) (σ : Equiv.Perm (Fin n)) (hcol : ∀ v i, col' (e v) i = a v * col v (σ i) + b v) (c : List ι) :
    matrixAnswer Φ t col' (c.map e) = matrixAnswer Φ t col c := by
  match c with
  | [] => rfl
  | [_] => rfl
  | x :: y :: S =>
    have key : ∀ {k k' : ℕ} (h : k' = k) (f : Fin (k + 2) → Fin n → ℝ) (f' : Fin (k' + 2) → Fin n → ℝ),
        (∀ j, f' j = f (Fin.cast (by rw [h]) j)) → matrixDecision Φ t f' = matrixDecision Φ t f := by
      intro k k' h f f' hf
      subst h
      congr 1
      funext j
      exact hf j
    simp only [List.map_cons, matrixAnswer]
    rw [← matrixDecision_data Φ t (fun j => col ((x :: y :: S).get j)) σ (fun j => a ((x :: y :: S).get j))
      (fun j => b ((x :: y :: S).get j)) (fun j => ha _)]
    refine key (by simp) _ _ (fun j => ?_)
    funext i
    rw [← hcol]
    congr 1
    exact List.getElem_map (l := x :: y :: S) e

omit [DecidableEq ι] [DecidableEq ι'] in
/-- all tests on the data under other names, units, origins and order of samples -/
theorem sameTests_data (Φ : ℝ → ℝ) (Q : ℝ → ℕ → ℝ) (solve : Solver n) (t : ℝ) {e : ι → ι'} {col : ι → Fin n → ℝ}
    {col' : ι' → Fin n → ℝ} {a b : ι → ℝ} (ha : ∀ v, a v ≠ 0) (σ : Equiv.Perm (Fin n))
    (hcol : ∀ v i, col' (e v) i = a v * col v (σ i) + b v) :
    SameTests (fun _ _ => True) e (signed a) (dataTests Φ Q solve t col) (dataTests Φ Q solve t col') where
  pearson x y := by
    have h1 : col' (e x) = fun i => a x * col x (σ i) + b x := funext (hcol x)
    have h2 : col' (e y) = fun i => a y * col y (σ i) + b y := funext (hcol y)
    simp only [dataTests, h1, h2]
    exact pearson_data _ _ σ _ _ (ha x) (ha y)
  t0 x y r := by
    simp only [dataTests, signed]
    cases r with
    | none => exact agree_refl (fun _ => trivial) _
    | some r =>
      refine independent_sign Φ t n 0 ?_ r
      rcases sgn_cases (a x) with h | h <;> rcases sgn_cases (a y) with h' | h' <;> rw [h, h'] <;> norm_num
  t1 k x y z p q r := tripleAnswer_sign Φ t n k (sgn_cases _) (sgn_cases _) (sgn_cases _) p q r
  tm c := by
    simp only [dataTests]
    rw [matrixAnswer_data Φ t ha σ hcol]
    exact agree_refl (fun _ => trivial) _

omit [DecidableEq ι] [DecidableEq ι'] in
/-- with positive factors even the exceptions are the same -/
theorem sameTests_positive (Φ : ℝ → ℝ) (Q : ℝ → ℕ → ℝ) (solve : Solver n) (t : ℝ) {e : ι → ι'} {col : ι → Fin n → ℝ}
    {col' : ι' → Fin n → ℝ} {a b : ι → ℝ} (ha : ∀ v, 0 < a v) (σ : Equiv.Perm (Fin n))
    (hcol : ∀ v i, col' (e v) i = a v * col v (σ i) + b v) :
    SameTests Eq e (fun _ _ r => r) (dataTests Φ Q solve t col) (dataTests Φ Q solve t col') where
  pearson x y := by
    have h1 : col' (e x) = fun i => a x * col x (σ i) + b x := funext (hcol x)
    have h2 : col' (e y) = fun i => a y * col y (σ i) + b y := funext (hcol y)
    simp only [dataTests, h1, h2]
    rw [pearson_data _ _ σ _ _ (ha x).ne' (ha y).ne']
    unfold sgn
    rw [if_pos (ha x), if_pos (ha y)]
    cases pearson (col x) (col y) <;> simp
  t0 x y r := agree_refl (fun _ => rfl) _
  t1 k x y z p q r := agree_refl (fun _ => rfl) _
  tm c := by
    simp only [dataTests]
    rw [matrixAnswer_data Φ t (fun v => (ha v).ne') σ hcol]
    exact agree_refl (fun _ => rfl) _

/-! ## the relabelling that changes nothing -/

theorem Dict.relabel_id {κ α : Type} (φ : κ → α → α) (hφ : ∀ k x, φ k x = x) (d : Dict κ α) :
    d.relabel (fun k => k) (fun _ _ h => h) φ = d := by
  apply Dict.ext
  simp [Dict.relabel, hφ]

section identity
variable {ρ : Type} (he : Function.Injective (fun v : ι => v)) (hs)

/-- the relabelling that keeps all names and correlations -/
abbrev same : Relabel ι (Info ι ρ) ι (Info ι ρ) := renamed (fun v => v) (fun _ _ h => h) (fun _ _ r => r) (fun _ _ => rfl)

omit [DecidableEq ι] in
theorem same_info (u v : ι) (m : Info ι ρ) : (same : Relabel ι (Info ι ρ) ι (Info ι ρ)).info u v m = m := by
  obtain ⟨c, f, s, k⟩ := m
  have h1 : c.map (fun r => r) = c := by cases c <;> rfl
  have h2 : s.map (List.map (fun v : ι => v)) = s := by
    cases s with
    | none => rfl
    | some l => exact congrArg some (List.map_id' l)
  show (⟨c.map (fun r => r), f, s.map (List.map (fun v : ι => v)), k⟩ : Info ι ρ) = _
  rw [h1, h2]

omit [DecidableEq ι] in
theorem same_result (r : CResult ι ρ) : (same : Relabel ι (Info ι ρ) ι (Info ι ρ)).result r = r := by
  obtain ⟨u, v, a, d⟩ := r
  simp only [Relabel.result]
  congr 1
  cases d with
  | none => rfl
  | some m => exact congrArg some (same_info u v m)

omit [DecidableEq ι] in
theorem same_results (l : List (CResult ι ρ)) : l.map (same : Relabel ι (Info ι ρ) ι (Info ι ρ)).result = l := by
  rw [show (same : Relabel ι (Info ι ρ) ι (Info ι ρ)).result = id from funext same_result, List.map_id]

omit [DecidableEq ι] in
theorem same_rows (d) : (same : Relabel ι (Info ι ρ) ι (Info ι ρ)).rows d = d := by
  refine Dict.relabel_id _ (fun u r => Dict.relabel_id _ (fun v x => ?_) r) d
  obtain ⟨p, q, t, m, b⟩ := x
  simp only [Relabel.edge]
  congr 1
  exact same_info u v m

omit [DecidableEq ι] in
theorem same_graph (g : CGraph ι ρ) : (same : Relabel ι (Info ι ρ) ι (Info ι ρ)).graph g = g := by
  obtain ⟨nodes, edges, rev, del, hist⟩ := g
  simp only [Relabel.graph, same_rows]
  congr 1
  · exact List.map_id' nodes
  · exact Dict.relabel_id _ (fun _ l => same_results l) hist

omit [DecidableEq ι] in
theorem same_model (m : GModel ι (Info ι ρ)) : (same : Relabel ι (Info ι ρ) ι (Info ι ρ)).model m = m := by
  obtain ⟨g, l⟩ := m
  simp only [Relabel.model, same_graph]
  congr 1
  have h1 : ∀ r : StepRec ι (Info ι ρ), (same : Relabel ι (Info ι ρ) ι (Info ι ρ)).stepRec r = r := by
    intro r
    simp only [Relabel.stepRec, same_results]
  have h2 : ∀ r : HistRec ι (Info ι ρ), (same : Relabel ι (Info ι ρ) ι (Info ι ρ)).histRec r = r := by
    intro r
    cases r with
    | plain r => simp only [Relabel.histRec, h1]
    | logic n rs =>
      simp only [Relabel.histRec]
      rw [show (same : Relabel ι (Info ι ρ) ι (Info ι ρ)).stepRec = id from funext h1, List.map_id]
  rw [show (same : Relabel ι (Info ι ρ) ι (Info ι ρ)).histRec = id from funext h2, List.map_id]

omit [DecidableEq ι] in
theorem same_yields (ys : List (Yield ι)) : ys.map (same : Relabel ι (Info ι ρ) ι (Info ι ρ)).yield = ys := by
  have h1 : ∀ c : List ι, c.map (fun v => v) = c := fun c => List.map_id' c
  have : ∀ y : Yield ι, (same : Relabel ι (Info ι ρ) ι (Info ι ρ)).yield y = y := by
    intro y
    cases y with
    | single c => exact congrArg Yield.single (h1 c)
    | chunk cs =>
      refine congrArg Yield.chunk ?_
      show cs.map (List.map (fun v => v)) = cs
      rw [show (List.map (fun v : ι => v)) = id from funext h1, List.map_id]
  rw [show (same : Relabel ι (Info ι ρ) ι (Info ι ρ)).yield = id from funext this, List.map_id]

end identity
end Verif
