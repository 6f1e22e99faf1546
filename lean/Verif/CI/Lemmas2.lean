import Verif.CI.Lemmas

/-!
# Helper lemmas: what the steps of the phase propose
-/

namespace Verif
open Graph
variable {ι ρ δ : Type} [DecidableEq ι]

namespace CI

/-- shape of the combinations of the pair steps -/
def IsPair (c : List ι) : Prop := ∃ x y, c = [x, y] ∧ x ≠ y
/-- shape of the combinations of the triple steps -/
def IsTriple (c : List ι) : Prop := ∃ x y z, c = [x, y, z] ∧ x ≠ y ∧ x ≠ z ∧ y ≠ z
/-- shape of the combinations of the extended steps -/
def IsCombo (c : List ι) : Prop := ∃ x y S, c = x :: y :: S ∧ (x :: y :: S).Nodup

omit [DecidableEq ι] in
theorem allCombinations_mem {s : Settings} {nodes : List ι} (hn : nodes.Nodup) {out : List (List ι)}
    (h : allCombinations s nodes = .ok out) (hmax : s.max ≠ 0) (c : List ι) : c ∈ out ↔ c.Sublist nodes ∧
      s.min ≤ c.length ∧ (c.length : Int) ≤ s.max := by
  rw [(C29_all_combinations_exact s nodes hn out h).2 c]
  simp [hmax]

omit [DecidableEq ι] in
theorem allGen_combos {s : Settings} {g0 : Graph ι δ} {ts : List (Graph ι δ → List (Yield ι))}
    (h : allGen s g0 = .ok ts) : ∃ cs, allCombinations s g0.nodes = .ok cs ∧ ts = [fun _ => cs.map .single] := by
  unfold allGen at h
  cases hx : allCombinations s g0.nodes with
  | error e => rw [hx] at h; cases h
  | ok cs =>
    rw [hx] at h
    simp only [Except.ok.injEq] at h
    exact ⟨cs, rfl, h.symm⟩

omit [DecidableEq ι] in
theorem allGen_mem {s : Settings} {g0 : Graph ι δ} (hn : g0.nodes.Nodup) (hmax : s.max ≠ 0)
    {ts : List (Graph ι δ → List (Yield ι))} (h : allGen s g0 = .ok ts) {t : Graph ι δ → List (Yield ι)} (ht : t ∈ ts)
    {g : Graph ι δ} {y : Yield ι} (hy : y ∈ t g) {c : List ι} (hc : c ∈ y.combos) :
    c.Nodup ∧ (∀ x ∈ c, x ∈ g0.nodes) ∧ s.min ≤ c.length ∧ (c.length : Int) ≤ s.max := by
  obtain ⟨cs, h1, rfl⟩ := allGen_combos h
  rw [List.mem_singleton] at ht
  subst ht
  obtain ⟨c', hc', rfl⟩ := List.mem_map.1 hy
  simp only [Yield.combos, List.mem_singleton] at hc
  subst hc
  have := (allCombinations_mem hn h1 hmax c).1 hc'
  exact ⟨this.1.nodup hn, fun x hx => this.1.subset hx, this.2⟩

omit [DecidableEq ι] in
theorem isPair_of {c : List ι} (hn : c.Nodup) (hl : c.length = 2) : IsPair c := by
  match c, hl with
  | [x, y], _ =>
    simp only [List.nodup_cons, List.mem_singleton] at hn
    exact ⟨x, y, rfl, hn.1⟩

omit [DecidableEq ι] in
theorem isTriple_of {c : List ι} (hn : c.Nodup) (hl : c.length = 3) : IsTriple c := by
  match c, hl with
  | [x, y, z], _ =>
    simp only [List.nodup_cons, List.mem_cons, not_or] at hn
    exact ⟨x, y, z, rfl, hn.1.1, hn.1.2.1, hn.2.1.1⟩

/-- everything one position of the neighbour generator yields on a well-formed graph -/
theorem nbBody_mem {g : Graph ι δ} (h : WF0 g) {cfg : NbCfg ι} (hv : cfg.Valid) {k : Nat} (hk : 2 ≤ k) {x y : ι}
    {c : List ι} : (∃ w ∈ nbBody cfg k x y g, c ∈ w.combos) ↔
      g.live x y = true ∧ ∃ S ∈ combinations (others cfg k x y g) (k - 2), c = x :: y :: S := by
  have hp := (nbBody_combos hv k hk x y g).mem_iff (a := c)
  rw [List.mem_flatMap] at hp
  rw [hp, directedEdgeExists_eq h]
  cases g.live x y with
  | false => simp
  | true => simp [eq_comm]

theorem isCombo_of_nbBody {g : Graph ι δ} (h : WF0 g) {cfg : NbCfg ι} (hv : cfg.Valid) {k : Nat} (hk : 2 ≤ k) {x y : ι}
    {c : List ι} {w : Yield ι} (hw : w ∈ nbBody cfg k x y g) (hc : c ∈ w.combos) : IsCombo c := by
  obtain ⟨hl, S, hS, rfl⟩ := (nbBody_mem h hv hk).1 ⟨w, hw, hc⟩
  have hsub := ((mem_combinations _ _ _).1 hS).1
  refine ⟨x, y, S, rfl, ?_⟩
  have hno := hsub.nodup (nodup_others hv k x y)
  have hm : ∀ z ∈ S, z ≠ x ∧ z ≠ y := by
    intro z hz
    have := (mem_others h hv k x y z).1 (hsub.subset hz)
    exact ⟨h.live_ne this.1, this.2.2⟩
  simp only [List.nodup_cons, List.mem_cons, not_or]
  exact ⟨⟨h.live_ne hl, fun hx => (hm x hx).1 rfl⟩, fun hy => (hm y hy).2 rfl, hno⟩

theorem pairsWithNeighbours_mem {cfg : NbCfg ι} {g0 : Graph ι δ} {ts : List (Graph ι δ → List (Yield ι))}
    (h : pairsWithNeighbours cfg g0 = .ok ts) {t : Graph ι δ → List (Yield ι)} (ht : t ∈ ts) :
    ∃ (k : Nat) (x y : ι), (2 ≤ k ∧ cfg.settings.min ≤ k) ∧ t = nbBody cfg k x y := by
  unfold pairsWithNeighbours at h
  cases hb : cfg.settings.bounds g0.nodes.length with
  | none =>
    rw [hb] at h
    simp only [Except.ok.injEq] at h
    subst h; cases ht
  | some p =>
    obtain ⟨start, stop⟩ := p
    rw [hb] at h
    simp only at h
    by_cases hs : start < 2
    · rw [if_pos hs] at h; cases h
    · rw [if_neg hs] at h
      simp only [Except.ok.injEq] at h
      subst h
      obtain ⟨⟨k, x, y⟩, hp, rfl⟩ := List.mem_map.1 ht
      have := (mem_nbPositions g0 start stop k (by omega) x y).1 hp
      have hmin := (cfg.settings.bounds_fst _ _ _ hb).1
      exact ⟨k, x, y, ⟨by omega, by omega⟩, rfl⟩

theorem sepOf_eq {x y : ι} {S : List ι} (h : (x :: y :: S).Nodup) : sepOf x y S = S := by
  simp only [List.nodup_cons, List.mem_cons, not_or] at h
  unfold sepOf
  rw [h.2.2.dedup, List.filter_eq_self]
  intro z hz
  simp only [ne_eq, Bool.and_eq_true, decide_eq_true_eq]
  exact ⟨fun e => h.1.2 (e ▸ hz), fun e => h.2.1 (e ▸ hz)⟩

omit [DecidableEq ι] in
theorem removal_cert {T : Tests ι ρ} {x y : ι} {N S : List ι} (h : (x :: y :: S).Nodup) (hN : ∀ z ∈ S, z ∈ N)
    (hr : Reported T x y S) : Certificate T N x y (removal x y S : CResult ι ρ) := by
  simp only [List.nodup_cons, List.mem_cons, not_or] at h
  exact ⟨rfl, Or.inl ⟨rfl, rfl⟩, { sep := some S }, S, rfl, rfl, h.2.2, hN, h.1.2, h.2.1, hr⟩

omit [DecidableEq ι] in
theorem proposal_ite {T : Tests ι ρ} {x y : ι} {N S : List ι} (h : (x :: y :: S).Nodup) (hN : ∀ z ∈ S, z ∈ N) (b : Bool)
    (hr : b = true → Reported T x y S) : Proposal T N (if b then removal x y S else keep x y : CResult ι ρ) := by
  cases b with
  | true => exact Or.inr (Or.inr (removal_cert h hN (hr rfl)))
  | false => exact Or.inl rfl

theorem edgeValue_ok {g : CGraph ι ρ} {x y : ι} {m : Info ι ρ} (h : g.edgeValue x y = .ok (some m)) :
    ∃ e, g.edges.get2 x y = some e ∧ e.metadata = m := by
  unfold edgeValue at h
  split at h
  · cases h
  · split at h
    · cases h
    · rename_i e he
      simp only [Except.ok.injEq, Option.some.injEq] at h
      exact ⟨e, he, h⟩

theorem corrOf_eq {T : Tests ι ρ} {g0 g : CGraph ι ρ} (h : Inv T g0 g) {x y : ι} {a : ρ} (ha : corrOf g x y = some a) :
    a = T.pearson x y := by
  unfold corrOf at ha
  split at ha
  · rename_i m hm
    obtain ⟨e, he, rfl⟩ := edgeValue_ok hm
    rcases h.corr x y e he with hc | hc
    · rw [hc] at ha; cases ha
    · rw [hc] at ha
      simp only [Option.some.injEq] at ha
      exact ha.symm
  · cases ha

theorem pearson_safe (T : Tests ι ρ) (g0 : CGraph ι ρ) : (pearsonStep T).Safe (Inv T g0) (Proposal T g0.nodes) := by
  refine ⟨fun _ => True, fun _ _ _ _ _ _ _ _ _ _ _ _ => trivial, ?_⟩
  intro c g u rs hg _ h
  simp only [pearsonStep, pearsonProcess] at h
  split at h
  · split at h
    · cases h
    · split at h
      · cases h
      · split at h
        · cases h
        · cases h
        · simp only [Except.ok.injEq, Option.some.injEq] at h
          subst h
          intro r hr
          rw [List.mem_singleton] at hr
          subst hr
          exact Or.inr (Or.inl ⟨rfl, _, rfl⟩)
  · cases h

theorem corr_safe (T : Tests ι ρ) (g0 : CGraph ι ρ) : (corrStep T).Safe (Inv T g0) (Proposal T g0.nodes) := by
  refine ⟨IsPair, ?_, ?_⟩
  · intro g1 ts hg1 hts t ht g _ y hy c hc
    obtain ⟨h1, _, h2, h3⟩ := allGen_mem hg1.wf.nodup (by decide) hts ht hy hc
    exact isPair_of h1 (by simp only at h2 h3; omega)
  · intro c g u rs hg hR h
    obtain ⟨x, y, rfl, hxy⟩ := hR
    simp only [corrStep, corrProcess] at h
    split at h
    · cases h
    · split at h
      · cases h
      · split at h
        · cases h
        · cases h
        · rename_i m hm
          split at h
          · cases h
          · rename_i r hr
            split at h
            · cases h
            · rename_i b hb
              simp only [Except.ok.injEq, Option.some.injEq] at h
              subst h
              intro r' hr'
              rw [List.mem_singleton] at hr'
              subst hr'
              refine proposal_ite (by simp [hxy]) (by simp) b ?_
              intro hbt
              subst hbt
              have : r = T.pearson x y := corrOf_eq hg (by unfold corrOf; rw [hm]; exact hr)
              rw [this] at hb
              exact .marginal hb

theorem filter_triple {x y z : ι} (h1 : x ≠ y) (h2 : x ≠ z) (h3 : y ≠ z) :
    [x, y, z].filter (fun n => decide (n ≠ x)) = [y, z] ∧ [x, y, z].filter (fun n => decide (n ≠ y)) = [x, z] ∧
      [x, y, z].filter (fun n => decide (n ≠ z)) = [x, y] := by
  simp [h1, h2, h3, h1.symm, h2.symm, h3.symm]

/-- the loop only proposes certified removals -/
theorem partialLoop_safe {T : Tests ι ρ} {g0 g : CGraph ι ρ} (hg : Inv T g0 g) {c : List ι} (hc : IsTriple c)
    (hcn : ∀ z ∈ c, z ∈ g0.nodes) (zs : List ι) (hzs : ∀ z ∈ zs, z ∈ c) (acc : List (CResult ι ρ)) (done : List (ι × ι)) (hacc : ∀ r ∈ acc, Proposal T g0.nodes r)
    (rs : List (CResult ι ρ)) (h : partialLoop T g c zs acc done = .ok (some rs)) : ∀ r ∈ rs, Proposal T g0.nodes r := by
  induction zs generalizing acc done with
  | nil =>
    simp only [partialLoop, Except.ok.injEq, Option.some.injEq] at h
    subst h; exact hacc
  | cons z zs ih =>
    have hfilter : ∃ x y, c.filter (fun n => decide (n ≠ z)) = [x, y] ∧ (x :: y :: [z]).Nodup := by
      obtain ⟨a, b, d, rfl, h1, h2, h3⟩ := hc
      obtain ⟨f1, f2, f3⟩ := filter_triple h1 h2 h3
      have hz := hzs z List.mem_cons_self
      simp only [List.mem_cons, List.not_mem_nil, or_false] at hz
      rcases hz with rfl | rfl | rfl
      · exact ⟨_, _, f1, by simp [h3, h1.symm, h2.symm]⟩
      · exact ⟨_, _, f2, by simp [h2, h1, h3.symm]⟩
      · exact ⟨_, _, f3, by simp [h1, h2, h3]⟩
    obtain ⟨x, y, hf, hnd⟩ := hfilter
    have hlen : c.length - 2 = 1 := by obtain ⟨a, b, d, rfl, _⟩ := hc; rfl
    unfold partialLoop at h
    rw [hf] at h
    simp only at h
    have ih' := fun acc done => ih (fun z hz => hzs z (List.mem_cons_of_mem _ hz)) acc done
    split at h
    · exact ih' acc done hacc h
    · split at h
      · rename_i a b d ha hb hd
        rw [hlen] at h
        split at h
        · cases h
        · cases h
        · rename_i ht
          refine ih' _ _ ?_ h
          intro r hr
          rcases List.mem_append.1 hr with hr | hr
          · exact hacc r hr
          · rw [List.mem_singleton] at hr
            subst hr
            rw [corrOf_eq hg ha, corrOf_eq hg hb, corrOf_eq hg hd] at ht
            exact Or.inr (Or.inr (removal_cert hnd (by
              intro w hw
              rw [List.mem_singleton] at hw
              subst hw
              exact hcn _ (hzs _ List.mem_cons_self)) (.triple z ht)))
        · refine ih' _ _ ?_ h
          intro r hr
          rcases List.mem_append.1 hr with hr | hr
          · exact hacc r hr
          · rw [List.mem_singleton] at hr
            subst hr
            exact Or.inl rfl
      · cases h

theorem partial_safe (T : Tests ι ρ) (g0 : CGraph ι ρ) : (partialStep T).Safe (Inv T g0) (Proposal T g0.nodes) := by
  refine ⟨IsTriple, ?_, ?_⟩
  · intro g1 ts hg1 hts t ht g _ y hy c hc
    obtain ⟨h1, _, h2, h3⟩ := allGen_mem hg1.wf.nodup (by decide) hts ht hy hc
    exact isTriple_of h1 (by simp only at h2 h3; omega)
  · intro c g u rs hg hR h
    simp only [partialStep, partialProcess] at h
    split at h
    · rename_i hall
      rw [List.all_eq_true] at hall
      exact partialLoop_safe hg hR (fun z hz => hg.nodes ▸ of_decide_eq_true (hall z hz)) c (fun _ hz => hz) [] [] (by simp) rs h
    · cases h

theorem matrix_safe (T : Tests ι ρ) (g0 : CGraph ι ρ) (cfg : NbCfg ι) (hv : cfg.Valid) :
    (matrixStep T cfg).Safe (Inv T g0) (Proposal T g0.nodes) := by
  refine ⟨IsCombo, ?_, ?_⟩
  · intro g1 ts _ hts t ht g hg y hy c hc
    obtain ⟨k, a, b, ⟨hk, _⟩, rfl⟩ := pairsWithNeighbours_mem hts ht
    exact isCombo_of_nbBody hg.wf hv hk hy hc
  · intro c g u rs hg hR h
    obtain ⟨x, y, S, rfl, hnd⟩ := hR
    simp only [matrixStep, matrixProcess] at h
    repeat' split at h
    all_goals cases h
    all_goals
      intro r hr
      rw [List.mem_singleton] at hr
      subst hr
    · rw [sepOf_eq hnd]
      exact Or.inr (Or.inr (removal_cert hnd (by
        have hall : S.all (fun z => decide (z ∈ g.otherNeighbours x) && decide (z ≠ y)) = true := by
          by_contra hcon
          simp_all
        intro z hz
        rw [List.all_eq_true] at hall
        have := hall z hz
        rw [Bool.and_eq_true, decide_eq_true_eq] at this
        have hl := (List.mem_filter.1 this.1).2
        rw [directedEdgeExists_eq hg.wf] at hl
        exact hg.nodes ▸ (hg.wf.live_nodes hl).1) (.matrix S (by simp_all [removal]))))
    · exact Or.inl rfl

theorem regression_safe (T : Tests ι ρ) (g0 : CGraph ι ρ) (cfg : NbCfg ι) (hv : cfg.Valid) :
    (regressionStep T cfg).Safe (Inv T g0) (Proposal T g0.nodes) := by
  refine ⟨IsCombo, ?_, ?_⟩
  · intro g1 ts _ hts t ht g hg y hy c hc
    obtain ⟨k, a, b, ⟨hk, _⟩, rfl⟩ := pairsWithNeighbours_mem hts ht
    exact isCombo_of_nbBody hg.wf hv hk hy hc
  · intro c g u rs hg hR h
    obtain ⟨x, y, S, rfl, hnd⟩ := hR
    simp only [regressionStep, regressionProcess] at h
    repeat' split at h
    all_goals cases h
    all_goals
      intro r hr
      rw [List.mem_singleton] at hr
      subst hr
    · rw [sepOf_eq hnd]
      exact Or.inr (Or.inr (removal_cert hnd (by
        have hall : S.all (fun z => decide (z ∈ g.nodes)) = true := by
          by_contra hcon
          simp_all
        intro z hz
        rw [List.all_eq_true] at hall
        exact hg.nodes ▸ of_decide_eq_true (hall z hz)) (.regression S (by simp_all [removal]))))
    · exact Or.inl rfl

theorem test_safe (T : Tests ι ρ) (g0 : CGraph ι ρ) (t : CITest ι) (hv : t.Valid) :
    (t.step T).Safe (Inv T g0) (Proposal T g0.nodes) := by
  cases t with
  | pearson => exact pearson_safe T g0
  | correlation => exact corr_safe T g0
  | partialCorrelation => exact partial_safe T g0
  | matrix cfg => exact matrix_safe T g0 cfg hv
  | regression cfg => exact regression_safe T g0 cfg hv

/-- the invariant holds after any run of any pipeline of the phase -/
theorem pipeline_inv (T : Tests ι ρ) (hsym : ∀ a b, T.pearson a b = T.pearson b a) (g0 : CGraph ι ρ) (fuel : Nat)
    (ps : List (PStep ι (Info ι ρ))) (hps : CIPipeline T ps) {m : GModel ι (Info ι ρ)} (hm : Inv T g0 m.graph) :
    Inv T g0 (runPipeline fuel ps m).2.graph := by
  refine runPipeline_kept (inv_kept hsym g0) fuel ps ?_ hm
  intro p hp s hs
  obtain ⟨t, hv, rfl⟩ := hps p hp s hs
  exact test_safe T g0 t hv

end CI
end Verif
