import Verif.Fci.Lemmas

/-!
# Lemmas: the independence tests set no marks
-/

namespace Verif
open Graph CI
variable {ι ρ : Type} [DecidableEq ι]

/-- no stored edge carries the mark of the FCI rule -/
def NoMark (g : CGraph ι ρ) : Prop := ∀ a b e, g.edges.get2 a b = some e → e.metadata.mark = false

/-- the result carries no mark -/
def PlainResult (r : CResult ι ρ) : Prop := ∀ m, r.data = some m → m.mark = false

theorem noMark_apply {T : Tests ι ρ} {g0 g : CGraph ι ρ} (h : Inv T g0 g) (hc : NoMark g) {r : CResult ι ρ}
    (hr : Proposal T g0.nodes r) (hp : PlainResult r) : NoMark (applyOne r g).2 := by
  have hmod : ∀ {k : CGraph ι ρ} (_ : NoMark k) (u v : ι) (f : Edge ι (Info ι ρ) → Edge ι (Info ι ρ))
      (_ : ∀ e, e.metadata.mark = false → (f e).metadata.mark = false), NoMark (modBoth k u v f) := by
    intro k hk u v f hf a b e he
    rw [get2_modBoth] at he
    split at he
    · cases hx : k.edges.get2 u v with
      | none => rw [hx] at he; cases he
      | some e' =>
        rw [hx] at he
        simp only [Option.map_some, Option.some.injEq] at he
        subst he
        exact hf _ (hk _ _ _ hx)
    · exact hk a b e he
  have hadd : ∀ {k : CGraph ι ρ} (_ : NoMark k) (u v : ι) (r : CResult ι ρ), NoMark (addH u v r k) := by
    intro k hk u v r a b e he
    rw [edges_addH] at he
    exact hk a b e he
  have hset : ∀ e : Edge ι (Info ι ρ), e.metadata.mark = false → (setMeta r.data e).metadata.mark = false := by
    intro e he
    cases hd : r.data with
    | none => exact he
    | some m => exact hp m hd
  rcases hr with hr | ⟨hr, _⟩ | ⟨hr, _⟩
  · rw [applyOne_doNothing hr]; exact hc
  · rw [applyOne_update h.wf hr]
    split
    · split
      · exact hadd (hadd (hmod (hmod hc _ _ _ hset) _ _ _ hset) _ _ _) _ _ _
      · exact hc
    · exact hc
  · rw [applyOne_removeUndirected h.wf hr]
    split
    · intro a b e he
      simp only [edges_addH] at he
      exact hmod (hmod hc _ _ (fun e => { e with deleted := true }) (fun _ h => h)) _ _ (fun e => { e with deleted := true })
        (fun _ h => h) a b e he
    · exact hc

theorem noMark_purge {g : CGraph ι ρ} (hwf : WF0 g) (hc : NoMark g) : NoMark (Graph.purge g).2 := by
  rw [purge_run hwf]
  intro a b e he
  rw [get2_purgeG] at he
  cases hx : g.edges.get2 a b with
  | none => rw [hx] at he; cases he
  | some e' =>
    rw [hx] at he
    simp only at he
    split at he
    · cases he
    · cases he; exact hc a b e hx

theorem noMark_kept {T : Tests ι ρ} (hsym : ∀ a b, T.pearson a b = T.pearson b a) (g0 : CGraph ι ρ) :
    Kept (fun g => Inv T g0 g ∧ NoMark g) (fun r => Proposal T g0.nodes r ∧ PlainResult r) :=
  ⟨fun _ _ hg hr => ⟨hg.1.apply hsym hr.1, noMark_apply hg.1 hg.2 hr.1 hr.2⟩,
    fun _ hg => ⟨hg.1.purge, noMark_purge hg.1.wf hg.2⟩⟩

theorem partialLoop_plain (T : Tests ι ρ) (g : CGraph ι ρ) (c zs : List ι) (acc : List (CResult ι ρ)) (done : List (ι × ι))
    (hacc : ∀ r ∈ acc, PlainResult r) (rs : List (CResult ι ρ)) (h : partialLoop T g c zs acc done = .ok (some rs)) :
    ∀ r ∈ rs, PlainResult r := by
  induction zs generalizing acc done with
  | nil =>
    simp only [partialLoop, Except.ok.injEq, Option.some.injEq] at h
    subst h; exact hacc
  | cons z zs ih =>
    have happ : ∀ x : CResult ι ρ, PlainResult x → ∀ r ∈ acc ++ [x], PlainResult r := by
      intro x hx r hr
      rcases List.mem_append.1 hr with hr | hr
      · exact hacc r hr
      · rw [List.mem_singleton] at hr
        subst hr
        exact hx
    unfold partialLoop at h
    repeat' split at h
    all_goals first
      | exact ih acc done hacc h
      | exact ih _ _ (happ _ (fun m hm => by cases hm; rfl)) h
      | exact ih _ _ (happ _ (fun m hm => by cases hm)) h
      | cases h

theorem test_plain (T : Tests ι ρ) (t : CITest ι) (c : List ι) (g : CGraph ι ρ) (u : Option (Results ι (Info ι ρ)))
    (hg : NoMark g) (rs : List (CResult ι ρ)) (h : (t.step T).process c g u = .ok (some rs)) : ∀ r ∈ rs, PlainResult r := by
  have hone : ∀ (b : Bool) (x y : ι) (S : List ι), ∀ r ∈ [if b then removal x y S else keep x y],
      PlainResult (r : CResult ι ρ) := by
    intro b x y S r hr m hm
    rw [List.mem_singleton] at hr
    subst hr
    cases b <;> cases hm <;> rfl
  cases t with
  | pearson =>
    simp only [CITest.step, pearsonStep, pearsonProcess] at h
    repeat' split at h
    all_goals first
      | (cases h; done)
      | skip
    rename_i m hm
    cases h
    intro r hr m' hm'
    rw [List.mem_singleton] at hr
    subst hr
    cases hm'
    obtain ⟨e, he, rfl⟩ := edgeValue_ok hm
    exact hg _ _ e he
  | correlation =>
    simp only [CITest.step, corrStep, corrProcess] at h
    repeat' split at h
    all_goals first
      | (cases h; done)
      | (simp only [Except.ok.injEq, Option.some.injEq] at h; subst h
         first
           | exact hone true _ _ _
           | exact hone false _ _ [])
  | partialCorrelation =>
    simp only [CITest.step, partialStep, partialProcess] at h
    split at h
    · exact partialLoop_plain T g c c [] [] (by simp) rs h
    · cases h
  | matrix cfg =>
    simp only [CITest.step, matrixStep, matrixProcess] at h
    split at h
    · split at h
      · cases h
      split at h
      · cases h
      split at h
      · cases h
      split at h
      · cases h
      split at h
      · cases h
      split at h
      · cases h
      split at h
      · cases h
      · cases h
      · simp only [Except.ok.injEq, Option.some.injEq] at h; subst h; exact hone _ _ _ _
    · cases h
  | regression cfg =>
    simp only [CITest.step, regressionStep, regressionProcess] at h
    split at h
    · split at h
      · cases h
      split at h
      · cases h
      split at h
      · cases h
      split at h
      · cases h
      split at h
      · cases h
      split at h
      · cases h
      split at h
      · cases h
      · simp only [Except.ok.injEq, Option.some.injEq] at h; subst h; exact hone _ _ _ _
    · cases h

/-- the tests of a pipeline set no marks -/
theorem pipeline_noMark (T : Tests ι ρ) (hsym : ∀ a b, T.pearson a b = T.pearson b a) {gn : CGraph ι ρ} (hgn : Reachable gn)
    (fuel : Nat) (ps : List (PStep ι (Info ι ρ))) (hps : CIPipeline T ps) (h : List (HistRec ι (Info ι ρ))) :
    NoMark (graphAfter fuel ps ⟨startGraph gn, h⟩) := by
  have hstart : NoMark (startGraph gn) := by
    intro a b e he
    have hwf : WF0 (startGraph gn) := (createAll_reachable hgn _).wf
    obtain ⟨_, h1, _, _, h4⟩ := C13_complete_graph gn hgn ({} : Info ι ρ)
    have hn := hwf.edge_nodes he
    have hne := (hwf.edge a b e he).2.2.1
    have := h4 a (by rw [← h1]; exact hn.1) b (by rw [← h1]; exact hn.2) hne
    rw [getEdge_eq] at this
    have he' : (createAllPossibleEdges ({} : Info ι ρ) gn).2.edges.get2 a b = some e := he
    rw [he'] at this
    simp only [Option.elim_some, Except.ok.injEq] at this
    rw [this]
  refine (runPipeline_kept (noMark_kept hsym (startGraph gn)) fuel ps ?_ (m := ⟨startGraph gn, h⟩)
    ⟨(start_facts gn hgn T).1, hstart⟩).2
  intro p hp s hs
  obtain ⟨t, hv, rfl⟩ := hps p hp s hs
  obtain ⟨R, hR⟩ := test_safe T (startGraph gn) t hv
  exact ⟨R, fun g1 ts h0 hts t ht g hg => hR.gen g1 ts h0.1 hts t ht g hg.1,
    fun c g u rs hg hc hrs r hr => ⟨hR.process c g u rs hg.1 hc hrs r hr, test_plain T t c g u hg.2 rs hrs r hr⟩⟩

end Verif
