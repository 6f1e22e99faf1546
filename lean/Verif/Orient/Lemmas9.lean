import Verif.Orient.Lemmas8

/-!
# Helper lemmas: what a single call of the collider test proposes
-/

namespace Verif
open Graph CI
variable {ι ρ δ : Type} [DecidableEq ι]

namespace Orient

omit [DecidableEq ι] in
theorem flatten_nil_iff (un : Results ι (Info ι ρ)) (r : CResult ι ρ) :
    r ∈ flatten un ↔ ∃ rs, some rs ∈ un ∧ r ∈ rs := by
  unfold flatten
  rw [List.mem_flatMap]
  constructor
  · rintro ⟨o, ho, hr⟩
    cases o with
    | none => cases hr
    | some rs => exact ⟨rs, ho, hr⟩
  · rintro ⟨rs, h1, h2⟩; exact ⟨some rs, h1, h2⟩

theorem waiting_iff (un : Results ι (Info ι ρ)) (u v : ι) : Waiting un u v ↔ pend un u v ≠ [] := by
  constructor
  · rintro ⟨rs, h1, r, h2, h3⟩ h
    have : r ∈ pend un u v := mem_pend.2 ⟨(flatten_nil_iff un r).2 ⟨rs, h1, h2⟩, h3⟩
    rw [h] at this; cases this
  · intro h
    obtain ⟨r, hr⟩ := List.exists_mem_of_ne_nil _ h
    obtain ⟨h1, h2⟩ := mem_pend.1 hr
    obtain ⟨rs, h3, h4⟩ := (flatten_nil_iff un r).1 h1
    exact ⟨rs, h3, r, h4, h2⟩

theorem colliderLoop_result {st : Strategy} {g : CGraph ι ρ} {x y : ι} {acts : List (CResult ι ρ)}
    {un : Results ι (Info ι ρ)} {zs : List ι} {rs : List (CResult ι ρ)}
    (h : colliderLoop st g x y acts (some un) zs = .ok rs) (r : CResult ι ρ) :
    r ∈ rs ↔ ∃ z ∈ zs, (¬ ∃ a ∈ acts, ∃ d S, a.data = some d ∧ d.sep = some S ∧ z ∈ S) ∧
      r ∈ colliderAt st x y z (pend un x z) (pend un y z) := by
  induction zs generalizing rs with
  | nil => simp only [colliderLoop, Except.ok.injEq] at h; subst h; simp
  | cons z zs ih =>
    unfold colliderLoop at h
    split at h
    · cases h
    split at h
    · cases h
    rename_i seps hs
    have hm := separators_mem _ _ hs z
    split at h
    · rename_i hz
      rw [ih h]
      simp only [List.mem_cons]
      constructor
      · rintro ⟨w, h1, h2⟩; exact ⟨w, Or.inr h1, h2⟩
      · rintro ⟨w, rfl | h1, h2⟩
        · exact absurd (hm.1 hz) h2.1
        · exact ⟨w, h1, h2⟩
    · rename_i hz
      simp only [filterUnapplied] at h
      split at h
      · cases h
      rename_i rest hrest
      cases h
      rw [List.mem_append, ih hrest]
      simp only [List.mem_cons]
      constructor
      · rintro (h1 | ⟨w, h1, h2⟩)
        · exact ⟨z, Or.inl rfl, fun hh => hz (hm.2 hh), h1⟩
        · exact ⟨w, Or.inr h1, h2⟩
      · rintro ⟨w, rfl | h1, h2⟩
        · exact Or.inl h2.2
        · exact Or.inr ⟨w, h1, h2⟩

theorem colliderProcess_result {st : Strategy} {o : Ord ι ρ} (ho : o.Valid) {g : CGraph ι ρ} {x y : ι}
    {un : Results ι (Info ι ρ)} {rs : List (CResult ι ρ)} (h : colliderProcess st o [x, y] g (some un) = .ok (some rs))
    (r : CResult ι ρ) : r ∈ rs ↔ ∃ z, z ∈ g.edges.keys2 x ∧ z ∈ g.edges.keys2 y ∧ ¬ SepRecorded g x y z ∧
      r ∈ colliderAt st x y z (pend un x z) (pend un y z) := by
  unfold colliderProcess at h
  simp only at h
  split at h
  · cases h
  split at h
  · cases h
  split at h
  · cases h
  split at h
  · cases h
  rename_i zs hzs
  split at h
  · cases h
  rename_i l hl
  cases h
  rw [colliderLoop_result hl]
  have hmem : ∀ z, z ∈ o g x y zs ↔ z ∈ g.edges.keys2 x ∧ z ∈ g.edges.keys2 y := by
    intro z
    rw [(ho g x y zs).2 z]
    unfold commonKeys at hzs
    split at hzs
    · cases hzs
    split at hzs
    · cases hzs
    cases hzs
    simp
  constructor
  · rintro ⟨z, h1, h2, h3⟩; exact ⟨z, ((hmem z).1 h1).1, ((hmem z).1 h1).2, h2, h3⟩
  · rintro ⟨z, h1, h2, h3, h4⟩; exact ⟨z, (hmem z).2 ⟨h1, h2⟩, h3, h4⟩

theorem colliderProcess_line {st : Strategy} {o : Ord ι ρ} {g : CGraph ι ρ} {x y : ι} {un : Option (Results ι (Info ι ρ))}
    {rs : List (CResult ι ρ)} (h : colliderProcess st o [x, y] g un = .ok (some rs)) : g.undirectedEdgeExists x y = false := by
  unfold colliderProcess at h
  simp only at h
  split at h
  · cases h
  split at h
  · cases h
  split at h
  · cases h
  · rename_i hl; simpa using hl

/-- the proposals of a step that neither chunks nor applies immediately come from calls of `process` on the graph -/
theorem proposed_from {s : Step ι δ} {g g' : Graph ι δ} (h1 : s.chunked = false) (h2 : s.applySync = false) {dry : Bool}
    {cs : List (List ι)} (hgen : s.gen g = .ok [fun _ => cs.map .single]) {t pr : List (TestResult ι δ)}
    (h : s.execute dry g = (.ok (t, pr), g')) : ∀ r ∈ pr, ∃ c ∈ cs, ∃ u rs, s.process c g u = .ok (some rs) ∧ r ∈ rs ∧
      (s.needsUnapplied = true → ∃ loc, u = some loc) := by
  have key : ∀ ys loc out, s.evalSeq g ys loc = .ok out → ∃ new, out = loc ++ new ∧
      ∀ r ∈ new, ∃ c u, Yield.single c ∈ ys ∧ s.process c g u = .ok r ∧ (s.needsUnapplied = true → ∃ loc, u = some loc) := by
    intro ys
    induction ys with
    | nil => intro loc out h; simp only [Step.evalSeq, Except.ok.injEq] at h; exact ⟨[], by simp [h]⟩
    | cons y ys ih =>
      intro loc out h
      unfold Step.evalSeq at h
      cases hp : s.evalOne g y loc with
      | error e => rw [hp] at h; cases h
      | ok r =>
        rw [hp] at h
        obtain ⟨new, e1, e2⟩ := ih _ _ h
        refine ⟨r :: new, by simp [e1], ?_⟩
        intro r' hr'
        rcases List.mem_cons.1 hr' with rfl | hr'
        · unfold Step.evalOne at hp
          cases y with
          | chunk cs => cases hp
          | single c => exact ⟨c, _, List.mem_cons_self, hp, fun hn => ⟨loc, by simp [hn]⟩⟩
        · obtain ⟨c, u, hc, h', h''⟩ := e2 r' hr'
          exact ⟨c, u, List.mem_cons_of_mem _ hc, h', h''⟩
  unfold Step.execute at h
  rw [hgen] at h
  simp only [h1, h2, Bool.false_eq_true, if_false, forceOn, List.flatMap_cons, List.flatMap_nil, List.append_nil] at h
  cases hx : s.evalSeq g (cs.map .single) [] with
  | error e => rw [hx] at h; cases h
  | ok rs =>
    rw [hx] at h
    simp only at h
    rw [takeAction_flat] at h
    have hpr : pr = flatten rs := by
      generalize takeItems dry (flatten rs) g = x at h
      obtain ⟨e | t', g1⟩ := x
      · cases h
      · simp only [Prod.mk.injEq, Except.ok.injEq] at h
        exact h.1.2.symm
    obtain ⟨new, e1, e2⟩ := key _ _ _ hx
    rw [List.nil_append] at e1
    subst e1 hpr
    intro r hr
    obtain ⟨ro, hro, hr⟩ := List.mem_flatMap.1 hr
    cases ro with
    | none => cases hr
    | some l =>
      obtain ⟨c, u, hc, h', h''⟩ := e2 _ hro
      obtain ⟨c', hc', hcc⟩ := List.mem_map.1 hc
      cases hcc
      exact ⟨_, hc', u, l, h', hr, h''⟩

theorem collider_skeleton {g : CGraph ι ρ} (hwf : WF0 g) (hp : Purged g)
    (hu : ∀ a b, g.directedEdgeExists a b = g.directedEdgeExists b a) : Skeleton g := by
  intro a b hb
  obtain ⟨e, he⟩ := (mem_keys2_iff a b).1 hb
  have : g.live a b = true := live_iff.2 ⟨e, he, hp a b e (by rw [getEdge_eq, he]; rfl)⟩
  refine ⟨this, ?_⟩
  have := hu a b
  rw [directedEdgeExists_eq hwf, directedEdgeExists_eq hwf] at this
  rw [← this]; assumption

theorem collider_typed {Q : List (CResult ι ρ) → Prop} {g g' : CGraph ι ρ} {pr : List (CResult ι ρ)} (hsk : Skeleton g)
    (ht : Typed g) (h : ColliderRun Q g g' pr) : Typed g' := by
  refine ⟨h.app.wf, ?_⟩
  intro a b e he hd
  have hl : g'.live a b = true := live_iff.2 ⟨e, he, hd⟩
  rw [h.app.live, Bool.and_eq_true, Bool.not_eq_true'] at hl
  have hb : b ∈ g.edges.keys2 a := mem_keys2_live hl.1
  have hba := (hsk a b hb).2
  rw [h.app.live, hba]
  simp only [Bool.true_and]
  cases hdd : dead (fun _ _ => false) pr b a with
  | true => simpa using h.app.typ a b e hdd he
  | false =>
    simp only [Bool.not_false, if_true]
    have : g'.edges.get2 a b = g.edges.get2 a b := by
      apply h.same
      intro r hr hn
      have := h.loc.touched r hr hn
      constructor
      · rintro ⟨rfl, rfl⟩
        rw [hl.2, hdd] at this
        simp at this
      · rintro ⟨rfl, rfl⟩
        rw [hl.2, hdd] at this
        simp at this
    rw [this] at he
    rw [ht.typ a b e he hd, hba]; rfl

/-! ### loops -/

theorem loopGo_mono {ss : List (Step ι δ)} {exit : Graph ι δ → Option (List (TestResult ι δ)) → Nat → Except PyErr Bool}
    {fuel n : Nat} {taken : Option (List (TestResult ι δ))} {g g' : Graph ι δ} {recs : List (StepRec ι δ)}
    (h : loopGo ss exit fuel n taken g = (.ok recs, g')) (k : Nat) :
    loopGo ss exit (fuel + k) n taken g = (.ok recs, g') := by
  induction fuel generalizing n taken g recs g' with
  | zero => unfold loopGo at h; cases h
  | succ fuel ih =>
    rw [Nat.succ_add]
    unfold loopGo at h ⊢
    cases hx : exit g taken n with
    | error e => rw [hx] at h; cases h
    | ok b =>
      rw [hx] at h
      cases b with
      | true => exact h
      | false =>
        simp only at h ⊢
        generalize runInner false ss g = x at h ⊢
        obtain ⟨e | ⟨rs, ts⟩, g1⟩ := x
        · cases h
        · simp only at h ⊢
          generalize hy : loopGo ss exit fuel (n + 1) (some ts) g1 = y at h
          obtain ⟨e | more, g2⟩ := y
          · cases h
          · rw [ih hy]; exact h

theorem loop_run_ok {o : Ords ι ρ} {fuel : Nat} {g : CGraph ι ρ} {h : List (HistRec ι (Info ι ρ))}
    {m : GModel ι (Info ι ρ)} (hrun : (ruleLoop o).run fuel ⟨g, h⟩ = (.ok (), m)) :
    ∃ recs, loopGo (rules o) exitOnNoActions fuel 0 none g = (.ok recs, m.graph) := by
  unfold ruleLoop at hrun
  rw [PStep.run_loop, PyM.bind_run, onGraph_run] at hrun
  generalize loopGo (rules o) exitOnNoActions fuel 0 none g = x at hrun ⊢
  obtain ⟨e | recs, g1⟩ := x
  · cases hrun
  · simp only [appendHistory, PyM.mod_run, Prod.mk.injEq, true_and] at hrun
    subst hrun
    exact ⟨recs, rfl⟩

theorem rule_same {M : CGraph ι ρ → ι → ι → Prop} {p : List ι → CGraph ι ρ → Except PyErr (Option (List (CResult ι ρ)))}
    {name : String} {g g' : CGraph ι ρ} {t pr : List (CResult ι ρ)} {dry : Bool}
    (hex : ∃ t pr g', (ruleStep name p).execute false g = (.ok (t, pr), g') ∧
      (ruleStep name p).execute true g = (.ok (pr, pr), g) ∧ RuleRun M p g g' t pr)
    (h : (ruleStep name p).execute dry g = (.ok (t, pr), g')) : ∃ t0 g0, RuleRun M p g g0 t0 pr := by
  obtain ⟨t0, pr0, g0, h1, h2, h3⟩ := hex
  cases dry with
  | false =>
    rw [h1] at h
    simp only [Prod.mk.injEq, Except.ok.injEq] at h
    obtain ⟨⟨_, rfl⟩, _⟩ := h
    exact ⟨_, _, h3⟩
  | true =>
    rw [h2] at h
    simp only [Prod.mk.injEq, Except.ok.injEq] at h
    obtain ⟨⟨_, rfl⟩, _⟩ := h
    exact ⟨_, _, h3⟩

theorem RuleRun.adj_kept {M : CGraph ι ρ → ι → ι → Prop}
    {p : List ι → CGraph ι ρ → Except PyErr (Option (List (CResult ι ρ)))} {g g' : CGraph ι ρ} {t pr : List (CResult ι ρ)}
    (h : RuleRun M p g g' t pr) (hwf : WF0 g) (hline : ∀ g a b, M g a b → g.Line a b)
    (hno : ∀ r ∈ pr, ∀ r' ∈ pr, r.action = .removeEdgeDirected → r'.action = .removeEdgeDirected → r'.u = r.v → r'.v = r.u →
      False) (a b : ι) : g'.edgeExists a b = g.edgeExists a b := by
  rw [Bool.eq_iff_iff, edge_iff h.wf, edge_iff hwf, adj_iff h.wf, adj_iff hwf, h.live, h.live]
  constructor
  · rintro (h | h)
    · exact Or.inl h.1
    · exact Or.inr h.1
  · intro hadj
    have hl : ∀ r ∈ pr, r.action = .removeEdgeDirected → g.live r.u r.v = true ∧ g.live r.v r.u = true := by
      intro r hr ha
      rcases h.answer r hr with h1 | ⟨_, h1⟩
      · rw [ha] at h1; cases h1
      · exact ((line_iff hwf).1 (hline _ _ _ h1)).symm
    by_cases h1 : ∃ r ∈ pr, r.action = .removeEdgeDirected ∧ r.u = a ∧ r.v = b
    · obtain ⟨r, hr, ha, rfl, rfl⟩ := h1
      exact Or.inr ⟨(hl r hr ha).2, fun r' hr' ha' he => hno r hr r' hr' ha ha' he.1 he.2⟩
    · by_cases h2 : ∃ r ∈ pr, r.action = .removeEdgeDirected ∧ r.u = b ∧ r.v = a
      · obtain ⟨r, hr, ha, rfl, rfl⟩ := h2
        exact Or.inl ⟨(hl r hr ha).2, fun r' hr' ha' he => hno r hr r' hr' ha ha' he.1 he.2⟩
      · rcases hadj with hh | hh
        · exact Or.inl ⟨hh, fun r hr ha he => h1 ⟨r, hr, ha, he⟩⟩
        · exact Or.inr ⟨hh, fun r hr ha he => h2 ⟨r, hr, ha, he⟩⟩

/-! ### entries of concrete graphs -/

theorem purged_keys2 {g : CGraph ι ρ} (hwf : WF0 g) (hp : Purged g) {a b : ι} :
    b ∈ g.edges.keys2 a ↔ g.directedEdgeExists a b = true := by
  rw [directedEdgeExists_eq hwf]
  constructor
  · intro hb
    obtain ⟨e, he⟩ := (mem_keys2_iff a b).1 hb
    exact live_iff.2 ⟨e, he, hp a b e (by rw [getEdge_eq, he]; rfl)⟩
  · exact mem_keys2_live

theorem purged_of_entries {g : CGraph ι ρ} (h : ∀ p ∈ g.edges.items, ∀ q ∈ p.2.items, q.2.deleted = false) : Purged g := by
  intro u v e he
  rw [getEdge_eq] at he
  cases hx : g.edges.get2 u v with
  | none => rw [hx] at he; cases he
  | some e' =>
    rw [hx] at he
    simp only [Option.elim_some, Except.ok.injEq] at he
    subst he
    unfold Dict.get2 at hx
    cases hr : g.edges.get? u with
    | none => rw [hr] at hx; cases hx
    | some row =>
      rw [hr] at hx
      exact h (u, row) ((Dict.mem_items_iff _ _ _).2 hr) (v, e') ((Dict.mem_items_iff _ _ _).2 hx)

theorem removals_of_entries {g : CGraph ι ρ} (h : ∀ p ∈ g.hist.items, ∀ r ∈ p.2, r.data.isSome = true) :
    RemovalsHaveData g := by
  intro x _ y _ _ r hr
  rw [retrieveEdgeHistory_eq] at hr
  cases hx : g.hist.get? (x, y) with
  | none => rw [hx] at hr; simp at hr
  | some l =>
    rw [hx] at hr
    exact h ((x, y), l) ((Dict.mem_items_iff _ _ _).2 hx) r (List.mem_filter.1 hr).1

theorem _root_.Verif.Graph.Typed.types {g : CGraph ι ρ} (h : Typed g) : TypesMatch g := by
  intro a b e he hd
  rw [getEdge_eq] at he
  cases hx : g.edges.get2 a b with
  | none => rw [hx] at he; cases he
  | some e' =>
    rw [hx] at he
    simp only [Option.elim_some, Except.ok.injEq] at he
    subst he
    rw [directedEdgeExists_eq h.wf]
    exact h.typ a b e' hx hd

theorem TypesMatch.typed {g : CGraph ι ρ} (h : TypesMatch g) (hwf : WF0 g) : Typed g := by
  refine ⟨hwf, fun a b e he hd => ?_⟩
  rw [← directedEdgeExists_eq hwf]
  exact h a b e (by rw [getEdge_eq, he]; rfl) hd

end Orient
end Verif
