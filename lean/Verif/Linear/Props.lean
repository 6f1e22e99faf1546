import Verif.Linear.Robust
import Verif.Linear.Lemmas3
import Verif.Linear.Normal
import Verif.PC.CpdagProps

/-!
# Properties of the algorithms on data from linear equations (C102, C103, C104)

The tests are those of the code, computed from the data in exact arithmetic.
-/

namespace Verif
open Graph CI PC Linear Stats Sample
variable {ι : Type} [DecidableEq ι] {n : ℕ}

/-! ## C102 -/

/-- **C102.** Data from linear equations along a DAG, with noise that is uncorrelated in the sample: if `x` and `y` are
d-separated by `S`, their partial correlation given `S` is zero, exactly. -/
theorem C102_partial_correlation_zero {edges : List (SEdge ι ℝ)} {noise col : ι → Fin n → ℝ} {N : List ι}
    (hd : LinearData edges noise col N) (hn : 2 ≤ n) (x y : ι) (S : List ι) (hq : Question N x y S)
    (hs : Dag.DSep (HasEdge edges) x y S) (r : ℝ) : PartialCorr col x y S r ↔ r = 0 := by
  have h0 : ∀ r, PartialCorr col x y S r → r = 0 :=
    fun r hr => partialCorr_zero hd.acyclic hd.equations hd.vars hd.uncorrelated hq hs hr
  refine ⟨h0 r, ?_⟩
  rintro rfl
  obtain ⟨r', hr', _⟩ := partialCorr_unique hn
    (structural_noRelation hd.acyclic hd.equations hd.vars hd.uncorrelated hd.varies) hq
  exact h0 r' hr' ▸ hr'

/-- **C102 (tests).** So, with at least `|S| + 3` samples and any threshold below one, each of the three tests of `PC` that can
be asked about `x`, `y` and `S` reports independence. -/
theorem C102_tests_report_independence {edges : List (SEdge ι ℝ)} {noise col : ι → Fin n → ℝ} {N : List ι}
    (hd : LinearData edges noise col N) (Φ : ℝ → ℝ) (hΦ : NormalLike Φ) (Q : ℝ → ℕ → ℝ) (solve : Solver n) (threshold : ℝ)
    (ht : threshold < 1) (x y : ι) (S : List ι) (hq : Question N x y S) (hn : S.length + 3 ≤ n)
    (hs : Dag.DSep (HasEdge edges) x y S) :
    let T := dataTests Φ Q solve threshold col
    T.tm (x :: y :: S) = .ok (some true) ∧
    (S = [] → T.t0 x y (T.pearson x y) = .ok true) ∧
    (∀ z, S = [z] → T.t1 1 x y z (T.pearson x y) (T.pearson x z) (T.pearson y z) = .ok (some true)) := by
  have hN := structural_noRelation hd.acyclic hd.equations hd.vars hd.uncorrelated hd.varies
  have hr := (C102_partial_correlation_zero hd (by omega) x y S hq hs 0).2 rfl
  have hb : independent Φ threshold n S.length 0 = .ok true := by
    obtain ⟨b, hb⟩ := (C67_defined Φ threshold n S.length 0).2 ⟨by simp, hn⟩
    rw [hb]
    unfold independent fisherZ at hb
    rw [if_neg (by norm_num), if_neg (by norm_num)] at hb
    simp only at hb
    rw [if_neg (by
      have : ((S.length : ℝ) + 3) ≤ n := by exact_mod_cast hn
      linarith)] at hb
    rw [← hb]
    congr 1
    rw [decide_eq_true_eq]
    simp [hΦ.half]
    linarith
  refine ⟨matrix_ind hN hq hn hr hb, ?_, ?_⟩
  · rintro rfl
    exact marginal_ind hN hq hn hr hb
  · rintro z rfl
    exact triple_ind hN hq hn hr hb

/-! ## C103 -/

theorem run_on_data {E : ι → ι → Prop} {col : ι → Fin n → ℝ} {Φ : ℝ → ℝ} (hΦ : StrictMono Φ) {Q : ℝ → ℕ → ℝ}
    {solve : Solver n} {threshold q : ℝ} (hqΦ : Φ q = 1 - threshold / 2) {gn : CGraph ι (Option ℝ)}
    (hac : Dag.Acyclic E) (hE : ∀ a b, E a b → a ∈ gn.nodes ∧ b ∈ gn.nodes)
    (h : NoRelation col gn.nodes) (hn : gn.nodes.length + 1 ≤ n) (hR : Right E gn.nodes q col)
    (hgn : Reachable gn) (hfresh : ∀ a b, gn.retrieveEdgeHistory a b .removeEdgeUndirected = [])
    {ord : NbOrd ι} (ho : ord.Valid) {oc : Orient.Ord ι (Option ℝ)} (hoc : oc.Valid) {o : Orient.Ords ι (Option ℝ)}
    (ho' : o.Valid) {alg : List (PStep ι (Info ι (Option ℝ)))}
    (halg : alg = pc (dataTests Φ Q solve threshold col) ord oc o ∨
      alg = pcClassic (dataTests Φ Q solve threshold col) ord oc o)
    {fuel : Nat} (hf : gn.nodes.length * gn.nodes.length + 2 ≤ fuel) (hist : List (HistRec ι (Info ι (Option ℝ)))) :
    (runPipeline fuel alg ⟨startGraph gn, hist⟩).1 = .ok () ∧
    (∀ a b, (graphAfter fuel alg ⟨startGraph gn, hist⟩).edgeExists a b = true ↔ Dag.Adj E a b) ∧
    ∀ a b, (graphAfter fuel alg ⟨startGraph gn, hist⟩).Arrow a b ↔ Dag.Compelled E a b := by
  have hO := data_oracle (Q := Q) (solve := solve) hΦ hqΦ hac hE h hn hR
  have halg' : alg = pc (withoutRegression (dataTests Φ Q solve threshold col) E) ord oc o ∨
      alg = pcClassic (withoutRegression (dataTests Φ Q solve threshold col) E) ord oc o := by
    unfold withoutRegression
    rw [(reg_unused _ _ _ _ _).1, (reg_unused _ _ _ _ _).2]
    exact halg
  exact ⟨(C46_loop_exits_closed _ E gn hgn hfresh hO ord ho oc hoc o ho' alg halg' fuel hf hist).1,
    (C46_orientation_sound _ E gn hgn hfresh hO ord ho oc hoc o ho' alg halg' fuel hist).1,
    C93_compelled_edges _ E gn hgn hfresh hO ord ho oc hoc o ho' alg halg' fuel hf hist⟩

/-- **C103.** End to end: on data from linear equations with noise that is uncorrelated in the sample, with more samples than
variables, and with no dependence hidden from the tests at the configured threshold, `PC` and `PCClassic` do not raise; the
result has exactly the adjacencies of the DAG that generated the data, and directs exactly the edges that have the same
direction in all DAGs with its adjacencies and v-structures. -/
theorem C103_pc_recovers_cpdag {edges : List (SEdge ι ℝ)} {noise col : ι → Fin n → ℝ} (gn : CGraph ι (Option ℝ))
    (hd : LinearData edges noise col gn.nodes) (Φ : ℝ → ℝ) (hΦ : NormalLike Φ) (Q : ℝ → ℕ → ℝ) (solve : Solver n)
    (threshold q : ℝ) (ht : threshold < 1) (hqΦ : Φ q = 1 - threshold / 2)
    (hv : Visible (HasEdge edges) gn.nodes q col) (hn : gn.nodes.length + 1 ≤ n)
    (hgn : Reachable gn) (hfresh : ∀ a b, gn.retrieveEdgeHistory a b .removeEdgeUndirected = [])
    (ord : NbOrd ι) (ho : ord.Valid) (oc : Orient.Ord ι (Option ℝ)) (hoc : oc.Valid) (o : Orient.Ords ι (Option ℝ))
    (ho' : o.Valid) (alg : List (PStep ι (Info ι (Option ℝ))))
    (halg : alg = pc (dataTests Φ Q solve threshold col) ord oc o ∨
      alg = pcClassic (dataTests Φ Q solve threshold col) ord oc o)
    (fuel : Nat) (hf : gn.nodes.length * gn.nodes.length + 2 ≤ fuel) (hist : List (HistRec ι (Info ι (Option ℝ)))) :
    let g := graphAfter fuel alg ⟨startGraph gn, hist⟩
    (runPipeline fuel alg ⟨startGraph gn, hist⟩).1 = .ok () ∧
    (∀ a b, g.edgeExists a b = true ↔ Dag.Adj (HasEdge edges) a b) ∧
    ∀ a b, g.Arrow a b ↔ Dag.Compelled (HasEdge edges) a b := by
  have hE : ∀ a b, HasEdge edges a b → a ∈ gn.nodes ∧ b ∈ gn.nodes := by
    rintro a b ⟨e, he, rfl, rfl⟩
    exact ⟨(hd.vars _).2 ⟨e, he, Or.inl rfl⟩, (hd.vars _).2 ⟨e, he, Or.inr rfl⟩⟩
  have hN := structural_noRelation hd.acyclic hd.equations hd.vars hd.uncorrelated hd.varies
  have hR := right_of_linear hd.acyclic hd.equations hd.vars hd.uncorrelated (critical_pos hΦ ht hqΦ) hv
  exact run_on_data hΦ.mono hqΦ hd.acyclic hE hN hn hR hgn hfresh ho hoc ho' halg hf hist

/-! ## C104 -/

/-- **C104.** The result of C103 is robust: if the statistics of all dependences exceed the critical value by some margin,
there is a distance such that on all data within that distance of the ideal data, of whatever origin, `PC` and `PCClassic`
still do not raise and return exactly the same graph. -/
theorem C104_robust {edges : List (SEdge ι ℝ)} {noise col : ι → Fin n → ℝ} {N : List ι}
    (hd : LinearData edges noise col N) (Φ : ℝ → ℝ) (hΦ : NormalLike Φ) (threshold q q' : ℝ) (ht : threshold < 1)
    (hqΦ : Φ q = 1 - threshold / 2) (hqq : q < q') (hv : Visible (HasEdge edges) N q' col) (hn : N.length + 1 ≤ n) :
    ∃ δ > 0, ∀ col' : ι → Fin n → ℝ, (∀ v ∈ N, ∀ i, |col' v i - col v i| < δ) →
      ∀ (Q : ℝ → ℕ → ℝ) (solve : Solver n) (gn : CGraph ι (Option ℝ)), gn.nodes.Perm N → Reachable gn →
      (∀ a b, gn.retrieveEdgeHistory a b .removeEdgeUndirected = []) →
      ∀ (ord : NbOrd ι), ord.Valid → ∀ (oc : Orient.Ord ι (Option ℝ)), oc.Valid → ∀ (o : Orient.Ords ι (Option ℝ)), o.Valid →
      ∀ (alg : List (PStep ι (Info ι (Option ℝ)))), alg = pc (dataTests Φ Q solve threshold col') ord oc o ∨
        alg = pcClassic (dataTests Φ Q solve threshold col') ord oc o →
      ∀ (fuel : Nat), N.length * N.length + 2 ≤ fuel → ∀ (hist : List (HistRec ι (Info ι (Option ℝ)))),
        let g := graphAfter fuel alg ⟨startGraph gn, hist⟩
        (runPipeline fuel alg ⟨startGraph gn, hist⟩).1 = .ok () ∧
        (∀ a b, g.edgeExists a b = true ↔ Dag.Adj (HasEdge edges) a b) ∧
        ∀ a b, g.Arrow a b ↔ Dag.Compelled (HasEdge edges) a b := by
  have hE : ∀ a b, HasEdge edges a b → a ∈ N ∧ b ∈ N := by
    rintro a b ⟨e, he, rfl, rfl⟩
    exact ⟨(hd.vars _).2 ⟨e, he, Or.inl rfl⟩, (hd.vars _).2 ⟨e, he, Or.inr rfl⟩⟩
  have hN := structural_noRelation hd.acyclic hd.equations hd.vars hd.uncorrelated hd.varies
  have hq0 := critical_pos hΦ ht hqΦ
  have hv' : Visible (HasEdge edges) N q col := fun x y S hq hs r hr => hqq.le.trans (hv x y S hq hs r hr)
  have hR := right_of_linear hd.acyclic hd.equations hd.vars hd.uncorrelated hq0 hv'
  have hne : ∀ x y S, Question N x y S → ∀ r, PartialCorr col x y S r → statistic n S.length r ≠ q := by
    intro x y S hq r hr
    by_cases hs : Dag.DSep (HasEdge edges) x y S
    · exact ((hR x y S hq r hr).2 hs).ne
    · exact (hqq.trans_le (hv x y S hq hs r hr)).ne'
  have perm_rel : ∀ {M : List ι} {c : ι → Fin n → ℝ}, M.Perm N → NoRelation c N → NoRelation c M := by
    intro M c hp h a ha v hv
    rw [List.toFinset_eq_of_perm _ _ hp] at ha
    exact h a ha v (hp.mem_iff.1 hv)
  have perm_right : ∀ {M : List ι} {c : ι → Fin n → ℝ}, M.Perm N → Right (HasEdge edges) N q c →
      Right (HasEdge edges) M q c :=
    fun hp h x y S hq => h x y S ⟨hq.1, fun z hz => hp.mem_iff.1 (hq.2 z hz)⟩
  have perm_edges : ∀ {M : List ι}, M.Perm N → ∀ a b, HasEdge edges a b → a ∈ M ∧ b ∈ M :=
    fun hp a b h => ⟨hp.mem_iff.2 (hE a b h).1, hp.mem_iff.2 (hE a b h).2⟩
  by_cases hN0 : 2 ≤ n
  · obtain ⟨δ, hδ, hall⟩ := right_stays hN0 hN hR hne
    refine ⟨δ, hδ, ?_⟩
    intro col' hc Q solve gn hp hgn hfresh ord ho oc hoc o ho' alg halg fuel hf hist
    obtain ⟨h1, h2⟩ := hall col' hc
    exact run_on_data hΦ.mono hqΦ hd.acyclic (perm_edges hp) (perm_rel hp h1) (by rw [hp.length_eq]; exact hn)
      (perm_right hp h2) hgn hfresh ho hoc ho' halg (by rw [hp.length_eq]; exact hf) hist
  · have : N = [] := List.length_eq_zero_iff.1 (by omega)
    subst this
    refine ⟨1, one_pos, ?_⟩
    intro col' hc Q solve gn hgnN hgn hfresh ord ho oc hoc o ho' alg halg fuel hf hist
    rw [List.perm_nil] at hgnN
    refine run_on_data (E := HasEdge edges) hΦ.mono hqΦ hd.acyclic (by rw [hgnN]; exact hE) ?_ (by rw [hgnN]; exact hn) ?_ hgn hfresh ho hoc ho'
      halg (by rw [hgnN]; exact hf) hist
    · rw [hgnN]
      intro a _ v hv
      cases hv
    · rw [hgnN]
      intro x y S hq
      have := hq.2 x (by simp)
      cases this

/-! ## examples -/

/-- three uncorrelated columns with average zero -/
def exSigns : ℕ → Fin 8 → ℤ
  | 0 => ![1, 1, 1, 1, -1, -1, -1, -1]
  | 1 => ![1, 1, -1, -1, 1, 1, -1, -1]
  | _ => ![1, -1, 1, -1, 1, -1, 1, -1]

/-- `0 → 2 ← 1`, all coefficients 1 -/
def exLinEdges : List (SEdge ℕ ℝ) := [⟨0, 2, 1, 0⟩, ⟨1, 2, 1, 0⟩]

/-- its data: the columns 0 and 1 are noise, the column 2 is the sum of the three noise columns -/
def exLinTable : ℕ → Fin 8 → ℤ
  | 0 => exSigns 0
  | 1 => exSigns 1
  | _ => fun i => exSigns 0 i + exSigns 1 i + exSigns 2 i

theorem exLin_edge (a b : ℕ) : HasEdge exLinEdges a b ↔ (a, b) ∈ [(0, 2), (1, 2)] := by
  simp [HasEdge, exLinEdges, eq_comm]

theorem exLin_data : LinearData exLinEdges (fun v i => (exSigns v i : ℝ)) (fun v i => (exLinTable v i : ℝ)) [0, 1, 2] where
  acyclic := Dag.acyclic_of_lt id (by
    intro a b h
    rw [exLin_edge] at h
    simp at h ⊢
    omega)
  vars := by
    intro v
    simp [Mentioned, exLinEdges]
    omega
  equations := by
    intro v hv i
    have : v = 0 ∨ v = 1 ∨ v = 2 := by
      simp [Mentioned, exLinEdges] at hv
      omega
    rcases this with rfl | rfl | rfl
    · simp [exLinEdges, exLinTable]
    · simp [exLinEdges, exLinTable]
    · simp [exLinEdges, exLinTable]
      ring
  uncorrelated := by
    intro v hv w hw hne
    simp only [List.mem_cons, List.not_mem_nil, or_false] at hv hw
    refine (gram_int ?_ ?_).trans ?_
    · rcases hv with rfl | rfl | rfl <;> decide
    · rcases hw with rfl | rfl | rfl <;> decide
    · rw [Int.cast_eq_zero]
      rcases hv with rfl | rfl | rfl <;> rcases hw with rfl | rfl | rfl <;> first | exact absurd rfl hne | decide
  varies := by
    intro v hv
    simp only [List.mem_cons, List.not_mem_nil, or_false] at hv
    rcases hv with rfl | rfl | rfl <;> exact ⟨0, 7, fun h => absurd (Int.cast_injective h) (by decide)⟩

/-- no dependence is hidden at the critical value 1 -/
theorem exLin_visible : Visible (HasEdge exLinEdges) [0, 1, 2] 1 (fun v i => (exLinTable v i : ℝ)) :=
  table_visible (le_refl _) [(0, 2), (1, 2)] exLin_edge exLin_data (by decide +kernel) (by decide +kernel) (by decide +kernel)

/-- the significance level with the critical value `q` -/
noncomputable def levelOf (q : ℝ) : ℝ := 2 * (1 - normalCdf q)

theorem levelOf_eq (q : ℝ) : normalCdf q = 1 - levelOf q / 2 := by
  unfold levelOf
  ring

theorem levelOf_lt {q : ℝ} (h : 0 < q) : 0 < levelOf q ∧ levelOf q < 1 := by
  have h1 := normalCdf_strictMono h
  have h2 := normalCdf_lt_one q
  rw [normalCdf_half] at h1
  unfold levelOf
  constructor <;> linarith

/-- orders of sets for the examples -/
def exLinOrd : Orient.Ord ℕ (Option ℝ) := fun _ _ _ l => l.dedup

theorem exLinOrd_valid : exLinOrd.Valid := fun _ _ _ l => ⟨l.nodup_dedup, fun _ => List.mem_dedup⟩

/-- hypotheses of C102: 0 and 1 are d-separated by nothing -/
example : LinearData exLinEdges (fun v i => (exSigns v i : ℝ)) (fun v i => (exLinTable v i : ℝ)) [0, 1, 2] ∧
    Question [0, 1, 2] 0 1 [] ∧ ([] : List ℕ).length + 3 ≤ 8 ∧ Dag.DSep (HasEdge exLinEdges) 0 1 [] ∧ NormalLike normalCdf := by
  refine ⟨exLin_data, ⟨by decide, by decide⟩, by decide, ?_, normalCdf_normalLike⟩
  have hE : HasEdge exLinEdges = pairs [(0, 2), (1, 2)] := by
    funext a b
    exact propext (exLin_edge a b)
  have hac := exLin_data.acyclic
  rw [hE] at hac ⊢
  refine (Dag.dsep_iff (N := [0, 1, 2]) hac ?_ (by decide)).1 (by decide +kernel)
  intro a b h
  simp only [pairs, List.mem_cons, Prod.mk.injEq, List.not_mem_nil, or_false] at h ⊢
  omega

/-- hypotheses of C103 and C104: significance level 32% (critical value 1) and 62% (critical value 1/2) -/
example : let gn : CGraph ℕ (Option ℝ) := nodesOnly [0, 1, 2]
    gn.nodes = [0, 1, 2] ∧ LinearData exLinEdges (fun v i => (exSigns v i : ℝ)) (fun v i => (exLinTable v i : ℝ)) gn.nodes ∧
    NormalLike normalCdf ∧ levelOf 1 < 1 ∧ normalCdf 1 = 1 - levelOf 1 / 2 ∧ levelOf (1 / 2) < 1 ∧
    normalCdf (1 / 2) = 1 - levelOf (1 / 2) / 2 ∧ Visible (HasEdge exLinEdges) gn.nodes 1 (fun v i => (exLinTable v i : ℝ)) ∧
    Reachable gn ∧ (∀ a b, gn.retrieveEdgeHistory a b .removeEdgeUndirected = []) ∧ exNbOrd.Valid ∧ exLinOrd.Valid := by
  intro gn
  have hn : gn.nodes = [0, 1, 2] := (nodesOnly_facts [0, 1, 2] (by decide)).1
  refine ⟨hn, ?_, normalCdf_normalLike, (levelOf_lt one_pos).2, levelOf_eq 1, (levelOf_lt (by norm_num)).2, levelOf_eq _, ?_,
    nodesOnly_reachable _, fun a b => nodesOnly_history _ (by decide) a b _, exNbOrd_valid, exLinOrd_valid⟩
  · rw [hn]; exact exLin_data
  · rw [hn]; exact exLin_visible

/-- `0 → 1` (1), `1 → 2` (1), `0 → 2` (-1): the two ways from 0 to 2 cancel -/
def exHiddenEdges : List (SEdge ℕ ℝ) := [⟨0, 1, 1, 0⟩, ⟨1, 2, 1, 0⟩, ⟨0, 2, -1, 0⟩]

/-- its data -/
def exHiddenTable : ℕ → Fin 8 → ℤ
  | 0 => fun i => 2 * exSigns 0 i
  | 1 => fun i => 2 * exSigns 0 i + 2 * exSigns 1 i
  | _ => fun i => 2 * exSigns 1 i + 2 * exSigns 2 i

/-- `0 → 1 ← 2`, the equations that explain the same data -/
noncomputable def exFalseEdges : List (SEdge ℕ ℝ) := [⟨0, 1, 1, 0⟩, ⟨2, 1, 1 / 2, 0⟩]

/-- with this noise -/
def exFalseNoise : ℕ → Fin 8 → ℤ
  | 0 => fun i => 2 * exSigns 0 i
  | 1 => fun i => exSigns 1 i - exSigns 2 i
  | _ => fun i => 2 * exSigns 1 i + 2 * exSigns 2 i

theorem exHidden_data : LinearData exHiddenEdges (fun v i => 2 * (exSigns v i : ℝ)) (fun v i => (exHiddenTable v i : ℝ))
    [0, 1, 2] where
  acyclic := Dag.acyclic_of_lt id (by
    rintro a b ⟨e, he, rfl, rfl⟩
    simp [exHiddenEdges] at he
    rcases he with rfl | rfl | rfl <;> simp)
  vars := by
    intro v
    simp [Mentioned, exHiddenEdges]
    omega
  equations := by
    intro v hv i
    have : v = 0 ∨ v = 1 ∨ v = 2 := by
      simp [Mentioned, exHiddenEdges] at hv
      omega
    rcases this with rfl | rfl | rfl <;> simp [exHiddenEdges, exHiddenTable] <;> ring
  uncorrelated := by
    intro v hv w hw hne
    simp only [List.mem_cons, List.not_mem_nil, or_false] at hv hw
    have e : ∀ v, (fun i => 2 * (exSigns v i : ℝ)) = fun i => ((2 * exSigns v i : ℤ) : ℝ) := by
      intro v
      funext i
      push_cast
      rfl
    unfold Uncorrelated
    rw [e, e]
    refine (gram_int ?_ ?_).trans ?_
    · rcases hv with rfl | rfl | rfl <;> decide
    · rcases hw with rfl | rfl | rfl <;> decide
    · rw [Int.cast_eq_zero]
      rcases hv with rfl | rfl | rfl <;> rcases hw with rfl | rfl | rfl <;> first | exact absurd rfl hne | decide
  varies := by
    intro v hv
    simp only [List.mem_cons, List.not_mem_nil, or_false] at hv
    rcases hv with rfl | rfl | rfl <;>
      exact ⟨0, 7, fun h => absurd (Int.cast_injective (mul_left_cancel₀ two_ne_zero h)) (by decide)⟩

theorem exFalse_edge (a b : ℕ) : HasEdge exFalseEdges a b ↔ (a, b) ∈ [(0, 1), (2, 1)] := by
  simp [HasEdge, exFalseEdges, eq_comm]

theorem exFalse_data : LinearData exFalseEdges (fun v i => (exFalseNoise v i : ℝ)) (fun v i => (exHiddenTable v i : ℝ))
    [0, 1, 2] where
  acyclic := Dag.acyclic_of_lt (fun v => if v = 1 then 1 else 0) (by
    intro a b h
    rw [exFalse_edge] at h
    simp at h ⊢
    split <;> split <;> omega)
  vars := by
    intro v
    simp [Mentioned, exFalseEdges]
    omega
  equations := by
    intro v hv i
    have : v = 0 ∨ v = 1 ∨ v = 2 := by
      simp [Mentioned, exFalseEdges] at hv
      omega
    rcases this with rfl | rfl | rfl <;> simp [exFalseEdges, exHiddenTable, exFalseNoise]
    ring
  uncorrelated := by
    intro v hv w hw hne
    simp only [List.mem_cons, List.not_mem_nil, or_false] at hv hw
    refine (gram_int ?_ ?_).trans ?_
    · rcases hv with rfl | rfl | rfl <;> decide
    · rcases hw with rfl | rfl | rfl <;> decide
    · rw [Int.cast_eq_zero]
      rcases hv with rfl | rfl | rfl <;> rcases hw with rfl | rfl | rfl <;> first | exact absurd rfl hne | decide
  varies := by
    intro v hv
    simp only [List.mem_cons, List.not_mem_nil, or_false] at hv
    rcases hv with rfl | rfl | rfl
    · exact ⟨0, 7, fun h => absurd (Int.cast_injective h) (by decide)⟩
    · exact ⟨1, 2, fun h => absurd (Int.cast_injective h) (by decide)⟩
    · exact ⟨0, 7, fun h => absurd (Int.cast_injective h) (by decide)⟩

theorem exFalse_visible : Visible (HasEdge exFalseEdges) [0, 1, 2] 1 (fun v i => (exHiddenTable v i : ℝ)) :=
  table_visible (le_refl _) [(0, 1), (2, 1)] exFalse_edge exFalse_data (by decide +kernel) (by decide +kernel)
    (by decide +kernel)

/-- **C103 (what is needed).** Visibility cannot be dropped: on data generated by `0 → 1 → 2` and `0 → 2`, whose two influences
of 0 on 2 cancel, `PC` and `PCClassic` do not raise, report no edge between 0 and 2, and direct the edge `1 → 2` the wrong
way round. -/
theorem C103_hidden_dependence_reverses_arrow :
    ∃ (edges : List (SEdge ℕ ℝ)) (noise col : ℕ → Fin 8 → ℝ), LinearData edges noise col [0, 1, 2] ∧
      HasEdge edges 0 2 ∧ HasEdge edges 1 2 ∧
      ∀ (Φ : ℝ → ℝ), NormalLike Φ → ∀ (Q : ℝ → ℕ → ℝ) (solve : Solver 8) (threshold : ℝ), threshold < 1 →
        Φ 1 = 1 - threshold / 2 → ∀ (ord : NbOrd ℕ), ord.Valid → ∀ (oc : Orient.Ord ℕ (Option ℝ)), oc.Valid →
        ∀ (o : Orient.Ords ℕ (Option ℝ)), o.Valid → ∀ (alg : List (PStep ℕ (Info ℕ (Option ℝ)))),
        alg = pc (dataTests Φ Q solve threshold col) ord oc o ∨ alg = pcClassic (dataTests Φ Q solve threshold col) ord oc o →
        ∀ (fuel : Nat), 11 ≤ fuel →
          (runPipeline fuel alg ⟨startGraph (nodesOnly [0, 1, 2]), []⟩).1 = .ok () ∧
          (graphAfter fuel alg ⟨startGraph (nodesOnly [0, 1, 2]), []⟩).edgeExists 0 2 = false ∧
          (graphAfter fuel alg ⟨startGraph (nodesOnly [0, 1, 2]), []⟩).Arrow 2 1 := by
  refine ⟨exHiddenEdges, _, _, exHidden_data, ⟨⟨0, 2, -1, 0⟩, by simp [exHiddenEdges], rfl, rfl⟩,
    ⟨⟨1, 2, 1, 0⟩, by simp [exHiddenEdges], rfl, rfl⟩, ?_⟩
  intro Φ hΦ Q solve threshold ht hq ord ho oc hoc o ho' alg halg fuel hf
  have hn : (nodesOnly (δ := Info ℕ (Option ℝ)) [0, 1, 2]).nodes = [0, 1, 2] := (nodesOnly_facts [0, 1, 2] (by decide)).1
  obtain ⟨h1, h2, h3⟩ := C103_pc_recovers_cpdag (nodesOnly [0, 1, 2]) (by rw [hn]; exact exFalse_data) Φ hΦ Q solve threshold 1 ht hq
    (by rw [hn]; exact exFalse_visible) (by rw [hn]; decide) (nodesOnly_reachable _)
    (fun a b => nodesOnly_history _ (by decide) a b _) ord ho oc hoc o ho' alg halg fuel (by rw [hn]; exact hf) []
  refine ⟨h1, ?_, ?_⟩
  · rw [← Bool.not_eq_true, h2]
    simp only [Dag.Adj, exFalse_edge]
    decide
  · rw [h3]
    intro E' _ he
    refine ((he.2 0 1 2).1 ⟨⟨?_, ?_⟩, by decide, ?_⟩).1.2
    · rw [exFalse_edge]; decide
    · rw [exFalse_edge]; decide
    · simp only [Dag.Adj, exFalse_edge]; decide

end Verif
