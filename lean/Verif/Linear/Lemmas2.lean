import Verif.Linear.Lemmas
import Verif.Stats.Props
import Verif.PC.Spec

/-!
# Lemmas: the answers of the tests on data, and when they are perfect
-/

namespace Verif
namespace Linear
open Dag Stats
variable {ι : Type} [DecidableEq ι] {E : ι → ι → Prop} {n : ℕ}

/-- the columns of a question -/
abbrev colsOf (col : ι → Fin n → ℝ) (x y : ι) (S : List ι) : Fin (S.length + 2) → Fin n → ℝ :=
  fun j => col ((x :: y :: S).get j)

theorem Question.length_le {N : List ι} {x y : ι} {S : List ι} (h : Question N x y S) : S.length + 2 ≤ N.length := by
  have h1 : (x :: y :: S).toFinset ⊆ N.toFinset := fun z hz => List.mem_toFinset.2 (h.2 z (List.mem_toFinset.1 hz))
  have h2 := Finset.card_le_card h1
  rw [List.toFinset_card_of_nodup h.1] at h2
  exact h2.trans (List.toFinset_card_le _)

/-- there is exactly one partial correlation, it is the one of the code, and it is strictly between -1 and 1 -/
theorem partialCorr_unique {col : ι → Fin n → ℝ} {N : List ι} (hn : 2 ≤ n) (h : NoRelation col N) {x y : ι} {S : List ι}
    (hq : Question N x y S) : ∃ r, PartialCorr col x y S r ∧ |r| < 1 ∧ matrixParCorr (torchCov (colsOf col x y S)) = some r ∧
      ∀ r', PartialCorr col x y S r' → r' = r := by
  have hl : NoLinearRelation (colsOf col x y S) := h.list hq.1 hq.2
  obtain ⟨⟨β, hβ⟩, ⟨γ, hγ⟩, hall⟩ := C49_residuals hn hl
  have e := hall β γ hβ hγ
  refine ⟨_, ⟨β, γ, hβ, hγ, rfl⟩, parCorr_abs_lt hn e, e, ?_⟩
  rintro r' ⟨β', γ', h1, h2, rfl⟩
  have := hall β' γ' h1 h2
  rw [e] at this
  exact (Option.some.inj this).symm

theorem independent_iff {Φ : ℝ → ℝ} (hΦ : StrictMono Φ) {threshold q : ℝ} (hq : Φ q = 1 - threshold / 2) {c : ℕ} {r : ℝ}
    (hr : |r| < 1) (hm : c + 3 ≤ n) :
    ∃ b, independent Φ threshold n c r = .ok b ∧ (b = true ↔ statistic n c r < q) := by
  obtain ⟨b, hb⟩ := (C67_defined Φ threshold n c r).2 ⟨hr, hm⟩
  refine ⟨b, hb, ?_⟩
  have := C67_critical_value hΦ hq hr hm
  rw [hb, Except.ok.injEq] at this
  exact this

section answers
variable {Φ : ℝ → ℝ} {Q : ℝ → ℕ → ℝ} {solve : Solver n} {threshold : ℝ} {col : ι → Fin n → ℝ} {N : List ι} {x y z : ι}
  {S : List ι}

/-- the extended test decides by the partial correlation -/
theorem matrix_ind (h : NoRelation col N) (hq : Question N x y S) (hn : S.length + 3 ≤ n) {r : ℝ}
    (hr : PartialCorr col x y S r) {b : Bool} (hb : independent Φ threshold n S.length r = .ok b) :
    (dataTests Φ Q solve threshold col).tm (x :: y :: S) = .ok (some b) := by
  obtain ⟨r', _, h2, h3, h4⟩ := partialCorr_unique (by omega) h hq
  obtain rfl := h4 r hr
  show matrixDecision Φ threshold (colsOf col x y S) = _
  unfold matrixDecision
  rw [h3]
  simp only
  rw [hb]

/-- so does the marginal test -/
theorem marginal_ind (h : NoRelation col N) (hq : Question N x y []) (hn : 3 ≤ n) {r : ℝ}
    (hr : PartialCorr col x y [] r) {b : Bool} (hb : independent Φ threshold n 0 r = .ok b) :
    (dataTests Φ Q solve threshold col).t0 x y ((dataTests Φ Q solve threshold col).pearson x y) = .ok b := by
  obtain ⟨r', _, h2, h3, h4⟩ := partialCorr_unique (by omega) h hq
  obtain rfl := h4 r hr
  have hp : pearson (col x) (col y) = some r := by
    rw [← h3]
    exact (C49_pair_eq_matrix (cols := colsOf col x y []) (by omega) (h.list hq.1 hq.2)).symm
  show marginalAnswer Φ threshold n (pearson (col x) (col y)) = _
  rw [hp]
  exact hb

/-- and the triple test -/
theorem triple_ind (h : NoRelation col N) (hq : Question N x y [z]) (hn : 4 ≤ n) {r : ℝ}
    (hr : PartialCorr col x y [z] r) {b : Bool} (hb : independent Φ threshold n 1 r = .ok b) :
    (dataTests Φ Q solve threshold col).t1 1 x y z ((dataTests Φ Q solve threshold col).pearson x y)
      ((dataTests Φ Q solve threshold col).pearson x z) ((dataTests Φ Q solve threshold col).pearson y z) = .ok (some b) := by
  obtain ⟨r', _, h2, h3, h4⟩ := partialCorr_unique (by omega) h hq
  obtain rfl := h4 r hr
  obtain ⟨xy, xz, yz, e1, e2, e3, e4, _⟩ := C49_triple_eq_matrix (cols := colsOf col x y [z]) (by omega) (h.list hq.1 hq.2)
  show tripleAnswer Φ threshold n 1 (pearson (col x) (col y)) (pearson (col x) (col z)) (pearson (col y) (col z)) = _
  rw [show pearson (col x) (col y) = some xy from e1, show pearson (col x) (col z) = some xz from e2,
    show pearson (col y) (col z) = some yz from e3]
  unfold tripleAnswer
  simp only
  rw [e4, h3]
  simp only
  rw [hb]

end answers

/-- the statistics of all partial correlations are on the right side of the critical value -/
def Right (E : ι → ι → Prop) (N : List ι) (q : ℝ) (col : ι → Fin n → ℝ) : Prop :=
  ∀ x y S, Question N x y S → ∀ r, PartialCorr col x y S r → (statistic n S.length r < q ↔ DSep E x y S)

open Classical in
/-- the tests of the data, with a perfect regression test in place of the one that `PC` does not use -/
noncomputable def withoutRegression (T : Tests ι (Option ℝ)) (E : ι → ι → Prop) : Tests ι (Option ℝ) :=
  { T with reg := fun c => match c with
      | x :: y :: S => .ok (decide (DSep E x y S))
      | _ => .ok false }

theorem partialLoop_reg {ρ : Type} (T : Tests ι ρ) (r : List ι → Except PyErr Bool) (g : CI.CGraph ι ρ) (c zs : List ι) (acc done) :
    CI.partialLoop { T with reg := r } g c zs acc done = CI.partialLoop T g c zs acc done := by
  induction zs generalizing acc done with
  | nil => rfl
  | cons z zs ih =>
    unfold CI.partialLoop
    simp only [ih]

/-- neither algorithm uses the regression test -/
theorem reg_unused {ρ : Type} (T : Tests ι ρ) (r : List ι → Except PyErr Bool) (ord : PC.NbOrd ι)
    (oc : Orient.Ord ι ρ) (o : Orient.Ords ι ρ) :
    PC.pc { T with reg := r } ord oc o = PC.pc T ord oc o ∧ PC.pcClassic { T with reg := r } ord oc o = PC.pcClassic T ord oc o := by
  have h : CI.partialStep { T with reg := r } = CI.partialStep T := by
    unfold CI.partialStep CI.partialProcess
    simp only [partialLoop_reg]
  refine ⟨?_, rfl⟩
  unfold PC.pc PC.pcSkeleton
  rw [h]
  rfl

/-- if all statistics are on the right side, the tests are a perfect oracle -/
theorem data_oracle {Φ : ℝ → ℝ} {Q : ℝ → ℕ → ℝ} {solve : Solver n} {threshold q : ℝ} {col : ι → Fin n → ℝ} {N : List ι}
    (hΦ : StrictMono Φ) (hqΦ : Φ q = 1 - threshold / 2) (hac : Acyclic E) (hE : ∀ a b, E a b → a ∈ N ∧ b ∈ N)
    (h : NoRelation col N) (hn : N.length + 1 ≤ n) (hR : Right E N q col) :
    PC.Oracle (withoutRegression (dataTests Φ Q solve threshold col) E) E N := by
  have q0 : ∀ {x y}, x ∈ N → y ∈ N → x ≠ y → Question N x y [] := by
    intro x y hx hy hxy
    refine ⟨by simp [hxy], ?_⟩
    intro w hw
    simp only [List.mem_cons, List.not_mem_nil, or_false] at hw
    rcases hw with rfl | rfl <;> assumption
  have q1 : ∀ {x y z}, x ∈ N → y ∈ N → z ∈ N → x ≠ y → x ≠ z → y ≠ z → Question N x y [z] := by
    intro x y z hx hy hz hxy hxz hyz
    refine ⟨by simp [hxy, hxz, hyz], ?_⟩
    intro w hw
    simp only [List.mem_cons, List.not_mem_nil, or_false] at hw
    rcases hw with rfl | rfl | rfl <;> assumption
  have a0 : ∀ x y, x ∈ N → y ∈ N → x ≠ y → ∃ b, (dataTests Φ Q solve threshold col).t0 x y
      ((dataTests Φ Q solve threshold col).pearson x y) = .ok b ∧ (b = true ↔ DSep E x y []) := by
    intro x y hx hy hxy
    have hq := q0 hx hy hxy
    have hle := hq.length_le
    simp only [List.length_nil] at hle
    obtain ⟨r, hr, hlt, _⟩ := partialCorr_unique (by omega) h hq
    obtain ⟨b, hb, hi⟩ := independent_iff hΦ hqΦ hlt (show 0 + 3 ≤ n by omega)
    exact ⟨b, marginal_ind h hq (by omega) hr hb, hi.trans (hR x y [] hq r hr)⟩
  have a1 : ∀ x y z, x ∈ N → y ∈ N → z ∈ N → x ≠ y → x ≠ z → y ≠ z → ∃ b, (dataTests Φ Q solve threshold col).t1 1 x y z
      ((dataTests Φ Q solve threshold col).pearson x y) ((dataTests Φ Q solve threshold col).pearson x z)
      ((dataTests Φ Q solve threshold col).pearson y z) = .ok (some b) ∧ (b = true ↔ DSep E x y [z]) := by
    intro x y z hx hy hz hxy hxz hyz
    have hq := q1 hx hy hz hxy hxz hyz
    have hle := hq.length_le
    simp only [List.length_nil, List.length_cons] at hle
    obtain ⟨r, hr, hlt, _⟩ := partialCorr_unique (by omega) h hq
    obtain ⟨b, hb, hi⟩ := independent_iff hΦ hqΦ hlt (show 1 + 3 ≤ n by omega)
    exact ⟨b, triple_ind h hq (by omega) hr hb, hi.trans (hR x y [z] hq r hr)⟩
  have am : ∀ x y S, (x :: y :: S).Nodup → (∀ z ∈ x :: y :: S, z ∈ N) → ∃ b,
      (dataTests Φ Q solve threshold col).tm (x :: y :: S) = .ok (some b) ∧ (b = true ↔ DSep E x y S) := by
    intro x y S hnd hm
    have hq : Question N x y S := ⟨hnd, hm⟩
    have hle := hq.length_le
    obtain ⟨r, hr, hlt, _⟩ := partialCorr_unique (by omega) h hq
    obtain ⟨b, hb, hi⟩ := independent_iff hΦ hqΦ hlt (show S.length + 3 ≤ n by omega)
    exact ⟨b, matrix_ind h hq (by omega) hr hb, hi.trans (hR x y S hq r hr)⟩
  refine ⟨hac, hE, ⟨?_, ?_, ?_, ?_⟩, fun a b => C48_symmetric _ _, ?_, a1, am, ?_⟩
  · intro x y hx hy hxy
    obtain ⟨b, hb, _⟩ := a0 x y hx hy hxy
    exact ⟨b, hb⟩
  · intro x y z hx hy hz hxy hxz hyz
    obtain ⟨b, hb, _⟩ := a1 x y z hx hy hz hxy hxz hyz
    exact ⟨_, hb⟩
  · intro x y S hnd hm
    obtain ⟨b, hb, _⟩ := am x y S hnd hm
    exact ⟨_, hb⟩
  · intro x y S _ _ _
    exact ⟨_, rfl⟩
  · intro x y hx hy hxy
    obtain ⟨b, hb, hi⟩ := a0 x y hx hy hxy
    rw [show (withoutRegression (dataTests Φ Q solve threshold col) E).t0 x y
      ((withoutRegression (dataTests Φ Q solve threshold col) E).pearson x y) = .ok b from hb, Except.ok.injEq, hi]
  · intro x y S _ _
    simp [withoutRegression]

/-- linear data with uncorrelated noise whose dependences are visible -/
theorem right_of_linear {edges : List (Sample.SEdge ι ℝ)} (hac : Acyclic (Sample.HasEdge edges))
    {noise col : ι → Fin n → ℝ} (h : Sample.Structural edges noise col) {N : List ι}
    (hN : ∀ v, v ∈ N ↔ Sample.Mentioned edges v) (hun : ∀ v ∈ N, ∀ w ∈ N, v ≠ w → Uncorrelated (noise v) (noise w))
    {q : ℝ} (hq : 0 < q) (hv : Visible (Sample.HasEdge edges) N q col) : Right (Sample.HasEdge edges) N q col := by
  intro x y S hqu r hr
  constructor
  · intro hlt
    by_contra hn
    exact absurd (hv x y S hqu hn r hr) (not_le.2 hlt)
  · intro hs
    rw [partialCorr_zero hac h hN hun hqu hs hr]
    simpa [statistic] using hq

theorem critical_pos {Φ : ℝ → ℝ} (hΦ : NormalLike Φ) {threshold q : ℝ} (ht : threshold < 1) (hq : Φ q = 1 - threshold / 2) :
    0 < q := by
  rw [← hΦ.mono.lt_iff_lt, hΦ.half, hq]
  linarith

end Linear
end Verif
