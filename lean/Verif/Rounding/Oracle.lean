import Verif.Rounding.Lemmas
import Verif.Linear.Props

/-!
# Lemmas: with enough precision the tests are a perfect oracle
-/

namespace Verif
namespace Rounding
open Filter Topology Linear Dag PC
variable {ι : Type} [DecidableEq ι] {E : ι → ι → Prop} {n : ℕ} {Φ : ℝ → ℝ}

theorem _root_.Verif.PC.Oracle.congr {ρ : Type} {T : Tests ι ρ} {N N' : List ι} (h : Oracle T E N) (hN : ∀ x, x ∈ N ↔ x ∈ N') :
    Oracle T E N' := by
  have hS : ∀ {x y : ι} {S : List ι}, (∀ z ∈ x :: y :: S, z ∈ N') → ∀ z ∈ x :: y :: S, z ∈ N :=
    fun h z hz => (hN z).2 (h z hz)
  refine ⟨h.acyclic, fun a b he => ⟨(hN a).1 (h.edges a b he).1, (hN b).1 (h.edges a b he).2⟩, ?_, h.sym, ?_, ?_, ?_, ?_⟩
  · exact h.total.mono (fun z hz => (hN z).2 hz)
  · exact fun x y hx hy => h.marginal x y ((hN x).2 hx) ((hN y).2 hy)
  · exact fun x y z hx hy hz => h.triple x y z ((hN x).2 hx) ((hN y).2 hy) ((hN z).2 hz)
  · exact fun x y S h1 h2 => h.matrix x y S h1 (hS h2)
  · exact fun x y S h1 h2 => h.regression x y S h1 (hS h2)

/-- the answers of all tests that can be asked about `x`, `y` and `S` are `b` -/
def Answers (T : Tests ι (Option ℝ)) (x y : ι) (S : List ι) (b : Bool) : Prop :=
  (S = [] → T.t0 x y (T.pearson x y) = .ok b) ∧
  (∀ z, S = [z] → T.t1 1 x y z (T.pearson x y) (T.pearson x z) (T.pearson y z) = .ok (some b)) ∧
  T.tm (x :: y :: S) = .ok (some b)

theorem answers {κ : Type} {l : Filter κ} {A : κ → Arith} {u : κ → ℝ} (h : Improving l A u Φ) (hΦ : StrictMono Φ)
    {threshold q : ℝ} (hq : Φ q = 1 - threshold / 2) {col : ι → Fin n → ℝ} {N : List ι} (hN : NoRelation col N)
    {col' : κ → ι → Fin n → ℝ} (hcol : ∀ v ∈ N, ∀ i, Tendsto (fun k => col' k v i) l (𝓝 (col v i)))
    (reg : List ι → Except PyErr Bool) {x y : ι} {S : List ι} (hQ : Question N x y S) (hm : S.length + 3 ≤ n) {r : ℝ}
    (hr : PartialCorr col x y S r) (hne : statistic n S.length r ≠ q) :
    ∀ᶠ k in l, Answers (tests (A k) reg threshold (col' k)) x y S (decide (statistic n S.length r < q)) := by
  obtain ⟨r', _, hlt, hmat, hu⟩ := partialCorr_unique (by omega) hN hQ
  obtain rfl := hu r hr
  have hl := hN.list hQ.1 hQ.2
  have hc : ∀ v ∈ x :: y :: S, ∀ i, Tendsto (fun k => col' k v i) l (𝓝 (col v i)) := fun v hv => hcol v (hQ.2 v hv)
  have h0 : ∀ᶠ k in l, S = [] → (tests (A k) reg threshold (col' k)).t0 x y ((tests (A k) reg threshold (col' k)).pearson x y)
      = .ok (decide (statistic n S.length r < q)) := by
    by_cases hS : S = []
    · subst hS
      have hp : Stats.pearson (col x) (col y) = some r := by
        rw [← hmat]
        exact (Stats.C49_pair_eq_matrix (cols := colsOf col x y []) (by omega) hl).symm
      obtain ⟨s, hs1, hs2⟩ := h.pearson (hc x (by simp)) (hc y (by simp)) (by omega) hp
      filter_upwards [hs1, h.independent hΦ hq hm hs2 hlt hne] with k e1 e2 _
      show marginalAnswer (A k) threshold n (pearson (A k) (col' k x) (col' k y)) = _
      rw [e1]
      exact e2
    · exact .of_forall fun _ h => absurd h hS
  have h1 : ∀ᶠ k in l, ∀ z, S = [z] → (tests (A k) reg threshold (col' k)).t1 1 x y z
      ((tests (A k) reg threshold (col' k)).pearson x y) ((tests (A k) reg threshold (col' k)).pearson x z)
      ((tests (A k) reg threshold (col' k)).pearson y z) = .ok (some (decide (statistic n S.length r < q))) := by
    by_cases hS : ∃ z, S = [z]
    · obtain ⟨z, rfl⟩ := hS
      obtain ⟨xy, xz, yz, e1, e2, e3, e4, _⟩ := Stats.C49_triple_eq_matrix (cols := colsOf col x y [z]) (by simp at hm; omega) hl
      have e1 : Stats.pearson (col x) (col y) = some xy := e1
      have e2 : Stats.pearson (col x) (col z) = some xz := e2
      have e3 : Stats.pearson (col y) (col z) = some yz := e3
      obtain ⟨a, ha1, ha2⟩ := h.pearson (hc x (by simp)) (hc y (by simp)) (by omega) e1
      obtain ⟨b, hb1, hb2⟩ := h.pearson (hc x (by simp)) (hc z (by simp)) (by omega) e2
      obtain ⟨d, hd1, hd2⟩ := h.pearson (hc y (by simp)) (hc z (by simp)) (by omega) e3
      obtain ⟨s, hs1, hs2⟩ := h.tripleParCorr ha2 hb2 hd2 (e4.trans hmat)
      filter_upwards [ha1, hb1, hd1, hs1, h.independent hΦ hq hm hs2 hlt hne] with k f1 f2 f3 f4 f5 z' hz'
      cases hz'
      show tripleAnswer (A k) threshold n 1 (pearson (A k) (col' k x) (col' k y)) (pearson (A k) (col' k x) (col' k z))
        (pearson (A k) (col' k y) (col' k z)) = _
      rw [f1, f2, f3]
      unfold tripleAnswer
      simp only
      rw [f4]
      simp only
      rw [show independent (A k) threshold n 1 (s k) = _ from f5]
    · exact .of_forall fun _ z h => absurd ⟨z, h⟩ hS
  have h2 := h.matrixDecision hΦ hq hm (a := fun k => colsOf (col' k) x y S) (x := colsOf col x y S)
    (fun v i => hc _ (List.get_mem _ _) i) hl hmat hlt hne
  filter_upwards [h0, h1, h2] with k e0 e1 e2
  exact ⟨e0, e1, e2⟩

/-- with answers that agree with d-separation, the tests are a perfect oracle -/
theorem oracle_of_answers {A : Arith} {u : ℝ} (hA : A.Precise Φ u) {reg : List ι → Except PyErr Bool} {threshold : ℝ}
    {col : ι → Fin n → ℝ} {N : List ι} (hac : Acyclic E) (hE : ∀ a b, E a b → a ∈ N ∧ b ∈ N)
    (h : ∀ x y S, Question N x y S → ∃ b, Answers (tests A reg threshold col) x y S b ∧ (b = true ↔ DSep E x y S)) :
    Oracle (withoutRegression (tests A reg threshold col) E) E N := by
  have q0 : ∀ {x y}, x ∈ N → y ∈ N → x ≠ y → Question N x y [] := by
    intro x y hx hy hxy
    refine ⟨by simp [hxy], ?_⟩
    intro w hw
    simp only [List.mem_cons, List.not_mem_nil, or_false] at hw
    rcases hw with rfl | rfl <;> assumption
  have q1 : ∀ {x y z}, x ∈ N → y ∈ N → z ∈ N → x ≠ y → x ≠ z → y ≠ z → Question N x y [z] := by
    intro x y z hx hy hz hxy hxz hyz
    refine ⟨by simp [hxy, hxz, hyz], ?_⟩
    intro w hw
    simp only [List.mem_cons, List.not_mem_nil, or_false] at hw
    rcases hw with rfl | rfl | rfl <;> assumption
  have a0 : ∀ x y, x ∈ N → y ∈ N → x ≠ y → ∃ b, (tests A reg threshold col).t0 x y ((tests A reg threshold col).pearson x y)
      = .ok b ∧ (b = true ↔ DSep E x y []) := by
    intro x y hx hy hxy
    obtain ⟨b, hb, hi⟩ := h x y [] (q0 hx hy hxy)
    exact ⟨b, hb.1 rfl, hi⟩
  have a1 : ∀ x y z, x ∈ N → y ∈ N → z ∈ N → x ≠ y → x ≠ z → y ≠ z → ∃ b, (tests A reg threshold col).t1 1 x y z
      ((tests A reg threshold col).pearson x y) ((tests A reg threshold col).pearson x z)
      ((tests A reg threshold col).pearson y z) = .ok (some b) ∧ (b = true ↔ DSep E x y [z]) := by
    intro x y z hx hy hz hxy hxz hyz
    obtain ⟨b, hb, hi⟩ := h x y [z] (q1 hx hy hz hxy hxz hyz)
    exact ⟨b, hb.2.1 z rfl, hi⟩
  have am : ∀ x y S, (x :: y :: S).Nodup → (∀ z ∈ x :: y :: S, z ∈ N) → ∃ b,
      (tests A reg threshold col).tm (x :: y :: S) = .ok (some b) ∧ (b = true ↔ DSep E x y S) := by
    intro x y S hnd hm
    obtain ⟨b, hb, hi⟩ := h x y S ⟨hnd, hm⟩
    exact ⟨b, hb.2.2, hi⟩
  refine ⟨hac, hE, ⟨?_, ?_, ?_, ?_⟩, fun a b => pearson_comm hA _ _, ?_, a1, am, ?_⟩
  · intro x y hx hy hxy
    obtain ⟨b, hb, _⟩ := a0 x y hx hy hxy
    exact ⟨b, hb⟩
  · intro x y z hx hy hz hxy hxz hyz
    obtain ⟨b, hb, _⟩ := a1 x y z hx hy hz hxy hxz hyz
    exact ⟨_, hb⟩
  · intro x y S hnd hm
    obtain ⟨b, hb, _⟩ := am x y S hnd hm
    exact ⟨_, hb⟩
  · intro x y S _ _ _
    exact ⟨_, rfl⟩
  · intro x y hx hy hxy
    obtain ⟨b, hb, hi⟩ := a0 x y hx hy hxy
    rw [show (withoutRegression (tests A reg threshold col) E).t0 x y
      ((withoutRegression (tests A reg threshold col) E).pearson x y) = .ok b from hb, Except.ok.injEq, hi]
  · intro x y S _ _
    simp [withoutRegression]

/-- there is a precision from which on the tests are a perfect oracle -/
theorem oracle_improving {κ : Type} {l : Filter κ} {A : κ → Arith} {u : κ → ℝ} (h : Improving l A u Φ) (hΦ : StrictMono Φ)
    {threshold q : ℝ} (hq : Φ q = 1 - threshold / 2) {col : ι → Fin n → ℝ} {N : List ι} (hac : Acyclic E)
    (hE : ∀ a b, E a b → a ∈ N ∧ b ∈ N) (hN : NoRelation col N) (hn : N.length + 1 ≤ n) (hR : Right E N q col)
    (hne : ∀ x y S, Question N x y S → ∀ r, PartialCorr col x y S r → statistic n S.length r ≠ q)
    {col' : κ → ι → Fin n → ℝ} (hcol : ∀ v ∈ N, ∀ i, Tendsto (fun k => col' k v i) l (𝓝 (col v i))) :
    ∀ᶠ k in l, ∀ reg, Oracle (withoutRegression (tests (A k) reg threshold (col' k)) E) E N := by
  have hall : ∀ᶠ k in l, ∀ t ∈ (N.sublists.flatMap List.permutations).toFinset, ∀ x y S, t = x :: y :: S → Question N x y S →
      ∃ b, Answers (tests (A k) (fun _ => .ok false) threshold (col' k)) x y S b ∧ (b = true ↔ DSep E x y S) := by
    refine (Filter.eventually_all_finset _).2 (fun t _ => ?_)
    by_cases ht : ∃ x y S, t = x :: y :: S ∧ Question N x y S
    · obtain ⟨x, y, S, rfl, hQ⟩ := ht
      have hle := hQ.length_le
      obtain ⟨r, hr, _⟩ := partialCorr_unique (by omega) hN hQ
      filter_upwards [answers h hΦ hq hN hcol (fun _ => .ok false) hQ (by omega) hr (hne x y S hQ r hr)] with k hk
      intro x' y' S' he _
      cases he
      exact ⟨_, hk, by rw [decide_eq_true_iff]; exact hR x y S hQ r hr⟩
    · exact .of_forall fun k x y S he hQ => absurd ⟨x, y, S, he, hQ⟩ ht
  filter_upwards [hall] with k hk reg
  refine oracle_of_answers (h.precise k) hac hE (fun x y S hQ => ?_)
  obtain ⟨b, h1, h2⟩ := hk _ (List.mem_toFinset.2 (question_mem hQ)) x y S rfl hQ
  exact ⟨b, ⟨h1.1, h1.2.1, h1.2.2⟩, h2⟩

/-- The same with a number: there is a `δ` such that every arithmetic of precision better than `δ` will do on all data closer
than `δ` to the given ones. -/
theorem oracle_delta (hΦ : StrictMono Φ) {threshold q : ℝ} (hq : Φ q = 1 - threshold / 2) {col : ι → Fin n → ℝ} {N : List ι}
    (hac : Acyclic E) (hE : ∀ a b, E a b → a ∈ N ∧ b ∈ N) (hN : NoRelation col N) (hn : N.length + 1 ≤ n) (hR : Right E N q col)
    (hne : ∀ x y S, Question N x y S → ∀ r, PartialCorr col x y S r → statistic n S.length r ≠ q) :
    ∃ δ > 0, ∀ (A : Arith) (u : ℝ), 0 < u → u < δ → A.Precise Φ u → ∀ col' : ι → Fin n → ℝ,
      (∀ v ∈ N, ∀ i, |col' v i - col v i| < δ) → ∀ reg, Oracle (withoutRegression (tests A reg threshold col') E) E N := by
  by_contra hno
  push Not at hno
  have hk : ∀ k : ℕ, (0 : ℝ) < 1 / (k + 1) := fun k => by positivity
  choose A u hu1 hu2 hA col' hcol reg hbad using fun k : ℕ => hno (1 / (k + 1)) (hk k)
  have hlim : Tendsto (fun k : ℕ => 1 / ((k : ℝ) + 1)) atTop (𝓝 0) := tendsto_one_div_add_atTop_nhds_zero_nat
  have himp : Improving atTop A u Φ :=
    ⟨hu1, squeeze_zero (fun k => (hu1 k).le) (fun k => (hu2 k).le) hlim, hA⟩
  have := oracle_improving himp hΦ hq hac hE hN hn hR hne (col' := col') (fun v hv i => by
    have h0 : Tendsto (fun k => col' k v i - col v i) atTop (𝓝 0) :=
      squeeze_zero_norm (fun k => (hcol k v hv i).le) hlim
    simpa using h0.add_const (col v i))
  obtain ⟨k, hk⟩ := this.exists
  exact hbad k (hk _)

end Rounding
end Verif
