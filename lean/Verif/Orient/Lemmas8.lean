import Verif.Orient.Lemmas7

/-!
# Helper lemmas: edge types, rows, and graphs without rows
-/

namespace Verif
open Graph CI
variable {ι ρ δ : Type} [DecidableEq ι]

namespace Graph

/-- a live edge is undirected if the opposite edge is live and directed otherwise -/
structure Typed (g : Graph ι δ) : Prop where
  wf : WF0 g
  typ : ∀ a b e, g.edges.get2 a b = some e → e.deleted = false →
    e.etype = if g.live b a then .undirected else .directed

/-- the actions proposed by the steps of the PC algorithms -/
def PCAction (r : TestResult ι δ) : Prop :=
  r.action = .doNothing ∨ r.action = .removeEdgeUndirected ∨ r.action = .removeEdgeDirected ∨ r.action = .updateEdge ∨
    r.action = .updateEdgeDirected

omit [DecidableEq ι] in
theorem PCAction.notRestore {r : TestResult ι δ} (h : PCAction r) : r.action.isRestore = false := by
  rcases h with h | h | h | h | h <;> rw [h] <;> rfl

theorem Typed.setMeta {g : Graph ι δ} (h : Typed g) (u v : ι) (m : Option δ) : Typed (modBoth g u v (Graph.setMeta m)) := by
  have hs : ∀ e : Edge ι δ, (Graph.setMeta m e).u = e.u ∧ (Graph.setMeta m e).v = e.v ∧
      (Graph.setMeta m e).deleted = e.deleted ∧ (Graph.setMeta m e).etype = e.etype := by
    intro e; cases m <;> exact ⟨rfl, rfl, rfl, rfl⟩
  refine ⟨h.wf.modBoth (fun e => ⟨(hs e).1, (hs e).2.1⟩), ?_⟩
  intro a b e he hd
  rw [live_same _ (fun e => (hs e).2.2.1)]
  rw [get2_modBoth] at he
  split at he
  · rename_i hc
    obtain ⟨rfl, rfl⟩ := hc
    cases hx : g.edges.get2 u v with
    | none => rw [hx] at he; cases he
    | some e0 =>
      rw [hx] at he
      simp only [Option.map_some, Option.some.injEq] at he
      subst he
      rw [(hs e0).2.2.2]
      exact h.typ u v e0 hx (by rw [← (hs e0).2.2.1]; exact hd)
  · exact h.typ a b e he hd

theorem Typed.addH {g : Graph ι δ} (h : Typed g) (u v : ι) (r : TestResult ι δ) : Typed (Graph.addH u v r g) :=
  ⟨h.wf.addH _ _ _, by intro a b e; rw [edges_addH, live_addH]; exact h.typ a b e⟩

theorem Typed.purge {g : Graph ι δ} (h : Typed g) : Typed (Graph.purge g).2 := by
  rw [purge_run h.wf]
  refine ⟨h.wf.purgeG, ?_⟩
  intro a b e he hd
  rw [live_purgeG]
  rw [get2_purgeG] at he
  cases hx : g.edges.get2 a b with
  | none => rw [hx] at he; cases he
  | some e0 =>
    rw [hx] at he
    simp only at he
    split at he
    · cases he
    · cases he; exact h.typ a b e hx hd

theorem Typed.apply {g : Graph ι δ} (h : Typed g) {r : TestResult ι δ} (hr : PCAction r) : Typed (applyOne r g).2 := by
  rcases hr with hr | hr | hr | hr | hr
  · rw [applyOne_doNothing hr]; exact h
  · rw [applyOne_removeUndirected h.wf hr]
    split
    · apply Typed.addH
      apply Typed.addH
      refine ⟨(h.wf.markG _ _).markG _ _, ?_⟩
      intro a b e he hd
      rw [get2_modBoth] at he
      split at he
      · cases hx : (markG g r.u r.v).edges.get2 r.v r.u with
        | none => rw [hx] at he; cases he
        | some e0 => rw [hx] at he; cases he; cases hd
      · rename_i h1
        rw [get2_modBoth] at he
        split at he
        · cases hx : g.edges.get2 r.u r.v with
          | none => rw [hx] at he; cases he
          | some e0 => rw [hx] at he; cases he; cases hd
        · rename_i h2
          rw [h.typ a b e he hd, live_mark, live_mark]
          have h3 : decide (r.v = b ∧ r.u = a) = false := by
            rw [decide_eq_false_iff_not]; rintro ⟨h3, h4⟩; exact h2 ⟨h4, h3⟩
          have h4 : decide (r.u = b ∧ r.v = a) = false := by
            rw [decide_eq_false_iff_not]; rintro ⟨h3, h4⟩; exact h1 ⟨h4, h3⟩
          rw [h3, h4]; simp
    · exact h
  · rw [applyOne_removeDirected h.wf hr]
    split
    · apply Typed.addH
      refine ⟨h.wf.orientG _ _, ?_⟩
      intro a b e he hd
      rw [live_orientG]
      by_cases hba : r.u = b ∧ r.v = a
      · obtain ⟨rfl, rfl⟩ := hba
        simp only [and_self, decide_true, Bool.not_true, Bool.and_false, Bool.false_eq_true, if_false]
        unfold Graph.orientG at he
        split at he
        · rw [get2_modBoth, if_pos ⟨rfl, rfl⟩] at he
          cases hx : (markG g r.u r.v).edges.get2 r.v r.u with
          | none => rw [hx] at he; cases he
          | some e0 => rw [hx] at he; cases he; rfl
        · rename_i hl
          exfalso
          apply hl
          rw [get2_modBoth] at he
          split at he
          · cases hx : g.edges.get2 r.u r.v with
            | none => rw [hx] at he; cases he
            | some e0 => rw [hx] at he; cases he; cases hd
          · exact live_iff.2 ⟨e, he, hd⟩
      · have h4 : decide (r.u = b ∧ r.v = a) = false := by rw [decide_eq_false_iff_not]; exact hba
        rw [h4]
        simp only [Bool.not_false, Bool.and_true]
        have hm : ∀ e, (markG g r.u r.v).edges.get2 a b = some e → e.deleted = false →
            e.etype = if g.live b a then .undirected else .directed := by
          intro e he hd
          rw [get2_modBoth] at he
          split at he
          · cases hx : g.edges.get2 r.u r.v with
            | none => rw [hx] at he; cases he
            | some e0 => rw [hx] at he; cases he; cases hd
          · exact h.typ a b e he hd
        unfold Graph.orientG at he
        split at he
        · rw [get2_modBoth, if_neg (by rintro ⟨h1, h2⟩; exact hba ⟨h2, h1⟩)] at he
          exact hm e he hd
        · exact hm e he hd
    · exact h
  · rw [applyOne_update h.wf hr]
    split
    · split
      · exact (((h.setMeta _ _ _).setMeta _ _ _).addH _ _ _).addH _ _ _
      · exact h
    · exact h
  · rw [applyOne_updateDirected h.wf hr]
    split
    · exact (h.setMeta _ _ _).addH _ _ _
    · exact h

theorem typed_kept : Kept (Typed (ι := ι) (δ := δ)) PCAction := ⟨fun _ _ h hr => h.apply hr, fun _ h => h.purge⟩

theorem rows_purge {g : Graph ι δ} (hwf : WF0 g) (h : Rows g) : Rows (Graph.purge g).2 := by
  rw [purge_run hwf]
  intro x hx y hy hxy
  rw [nodes_purgeG] at hx hy
  rw [purgeG_has]
  exact h x hx y hy hxy

theorem rows_kept : Kept (fun g : Graph ι δ => WF0 g ∧ Rows g) PCAction := by
  refine ⟨?_, ?_⟩
  · rintro r g ⟨h1, h2⟩ hr
    have := applyOne_keys (r := r) h1 hr.notRestore
    exact ⟨applyOne_wf h1, rows_keys this.1 this.2.2.1 h2⟩
  · rintro g ⟨h1, h2⟩
    exact ⟨by rw [purge_run h1]; exact h1.purgeG, rows_purge h1 h2⟩

end Graph

/-! ### every step of the PC algorithms only proposes such actions -/

/-- whatever the graph, the step only proposes actions of the PC algorithms -/
def Step.OnlyPC (s : Step ι δ) : Prop := ∀ c g u rs, s.process c g u = .ok (some rs) → ∀ r ∈ rs, PCAction r

omit [DecidableEq ι] in
theorem Step.OnlyPC.safe {s : Step ι δ} (h : s.OnlyPC) (P : Graph ι δ → Prop) : s.Safe P PCAction :=
  ⟨fun _ => True, fun _ _ _ _ _ _ _ _ _ _ _ _ => trivial, fun c g u rs _ _ => h c g u rs⟩

omit [DecidableEq ι] in
theorem pca_ite (b : Bool) (x y : ι) (S : List ι) : PCAction (if b then removal x y S else keep x y : CResult ι ρ) := by
  cases b
  · exact Or.inl rfl
  · exact Or.inr (Or.inl rfl)

theorem partialLoop_pca (T : Tests ι ρ) (g : CGraph ι ρ) (c zs : List ι) (acc : List (CResult ι ρ)) (done : List (ι × ι))
    (hacc : ∀ r ∈ acc, PCAction r) (rs : List (CResult ι ρ)) (h : partialLoop T g c zs acc done = .ok (some rs)) :
    ∀ r ∈ rs, PCAction r := by
  induction zs generalizing acc done with
  | nil =>
    simp only [partialLoop, Except.ok.injEq, Option.some.injEq] at h
    subst h; exact hacc
  | cons z zs ih =>
    unfold partialLoop at h
    split at h
    · rename_i x y tl _
      split at h
      · exact ih acc done hacc h
      · split at h
        · split at h
          · cases h
          · cases h
          · refine ih _ _ ?_ h
            intro r hr
            rcases List.mem_append.1 hr with hr | hr
            · exact hacc r hr
            · rw [List.mem_singleton] at hr; subst hr; exact pca_ite true x y [z]
          · refine ih _ _ ?_ h
            intro r hr
            rcases List.mem_append.1 hr with hr | hr
            · exact hacc r hr
            · rw [List.mem_singleton] at hr; subst hr; exact pca_ite false x y [z]
        · cases h
    · cases h

theorem test_onlyPC (T : Tests ι ρ) (t : CITest ι) : (t.step T).OnlyPC := by
  intro c g u rs h
  cases t with
  | pearson =>
    change pearsonProcess T c g = _ at h
    unfold pearsonProcess at h
    (repeat' split at h) <;> cases h
    intro r hr
    rw [List.mem_singleton] at hr; subst hr
    exact Or.inr (Or.inr (Or.inr (Or.inl rfl)))
  | correlation =>
    change corrProcess T c g = _ at h
    unfold corrProcess at h
    split at h
    · split at h
      · cases h
      split at h
      · cases h
      split at h
      · cases h
      · cases h
      · split at h
        · cases h
        · split at h
          · cases h
          · cases h
            intro r hr
            rw [List.mem_singleton] at hr; subst hr
            exact pca_ite _ _ _ _
    · cases h
  | partialCorrelation =>
    change partialProcess T c g = _ at h
    unfold partialProcess at h
    split at h
    · exact partialLoop_pca T g c c [] [] (by simp) rs h
    · cases h
  | matrix cfg =>
    change matrixProcess T c g = _ at h
    unfold matrixProcess at h
    split at h
    · split at h
      · cases h
      split at h
      · cases h
      split at h
      · cases h
      split at h
      · cases h
      split at h
      · cases h
      split at h
      · cases h
      split at h
      · cases h
      · cases h
      · cases h
        intro r hr
        rw [List.mem_singleton] at hr; subst hr
        exact pca_ite _ _ _ _
    · cases h
  | regression cfg =>
    change regressionProcess T c g = _ at h
    unfold regressionProcess at h
    split at h
    · split at h
      · cases h
      split at h
      · cases h
      split at h
      · cases h
      split at h
      · cases h
      split at h
      · cases h
      split at h
      · cases h
      split at h
      · cases h
      · cases h
        intro r hr
        rw [List.mem_singleton] at hr; subst hr
        exact pca_ite _ _ _ _
    · cases h

namespace Orient

omit [DecidableEq ι] in
theorem pca_cut (u v : ι) : PCAction (cut u v : CResult ι ρ) := Or.inr (Or.inr (Or.inl rfl))

omit [DecidableEq ι] in
theorem pca_stay (u v : ι) : PCAction (stay u v : CResult ι ρ) := Or.inl rfl

omit [DecidableEq ι] in
theorem colliderAt_pca {st : Strategy} (hst : st ≠ .keepLast) {x y z : ι} {xz yz : List (CResult ι ρ)} :
    ∀ r ∈ colliderAt st x y z xz yz, PCAction r := by
  intro r h
  unfold colliderAt at h
  split at h
  · cases st with
    | keepFirst =>
      simp only [List.mem_append] at h
      rcases h with h | h
      · split at h
        · rw [List.mem_singleton] at h; subst h; exact pca_stay _ _
        · cases h
      · split at h
        · rw [List.mem_singleton] at h; subst h; exact pca_stay _ _
        · cases h
    | keepLast => exact absurd rfl hst
    | other => cases h
  · simp only [List.mem_cons, List.not_mem_nil, or_false] at h
    rcases h with rfl | rfl
    · exact pca_cut _ _
    · exact pca_cut _ _

theorem colliderLoop_pca {st : Strategy} (hst : st ≠ .keepLast) (g : CGraph ι ρ) (x y : ι) (acts : List (CResult ι ρ))
    (un : Option (Results ι (Info ι ρ))) (zs : List ι) (rs : List (CResult ι ρ))
    (h : colliderLoop st g x y acts un zs = .ok rs) : ∀ r ∈ rs, PCAction r := by
  induction zs generalizing rs with
  | nil => simp only [colliderLoop, Except.ok.injEq] at h; subst h; simp
  | cons z zs ih =>
    unfold colliderLoop at h
    split at h
    · cases h
    split at h
    · cases h
    split at h
    · exact ih rs h
    split at h
    · cases h
    split at h
    · cases h
    split at h
    · cases h
    · rename_i rest hrest
      cases h
      intro r hr
      rcases List.mem_append.1 hr with hr | hr
      · exact colliderAt_pca hst r hr
      · exact ih rest hrest r hr

theorem collider_onlyPC {st : Strategy} (hst : st ≠ .keepLast) (o : Ord ι ρ) : (colliderStep st o).OnlyPC := by
  intro c g u rs h
  change colliderProcess st o c g u = _ at h
  unfold colliderProcess at h
  split at h
  · split at h
    · cases h
    split at h
    · cases h
    split at h
    · cases h
    split at h
    · cases h
    split at h
    · cases h
    · rename_i hl
      cases h
      exact colliderLoop_pca hst _ _ _ _ _ _ _ hl
  · cases h

omit [DecidableEq ι] in
theorem overPairs_pca (body : ι → ι → List (CResult ι ρ)) (hb : ∀ a b, ∀ r ∈ body a b, PCAction r) (l : List (List ι)) :
    ∀ r ∈ overPairs body l, PCAction r := by
  induction l with
  | nil => intro r hr; cases hr
  | cons p l ih =>
    intro r hr
    match p, hr with
    | [], hr => exact ih r hr
    | [_], hr => exact ih r hr
    | [a, b], hr =>
      simp only [overPairs, List.mem_append] at hr
      rcases hr with hr | hr
      · exact hb a b r hr
      · exact ih r hr
    | _ :: _ :: _ :: _, hr => exact ih r hr

theorem rules_onlyPC (o : Ords ι ρ) : ∀ s ∈ rules o, s.OnlyPC := by
  have hone : ∀ (c : Prop) [Decidable c] (u v : ι), ∀ r ∈ (if c then [cut u v] else [] : List (CResult ι ρ)), PCAction r := by
    intro c _ u v r hr
    split at hr
    · rw [List.mem_singleton] at hr; subst hr; exact pca_cut _ _
    · cases hr
  have hquad : ∀ (body : CGraph ι ρ → ι → ι → ι → ι → List (CResult ι ρ)) (o : Ord ι ρ),
      (∀ g a b c d, ∀ r ∈ body g a b c d, PCAction r) → ∀ c g rs, quadLoop body o c g = .ok (some rs) → ∀ r ∈ rs, PCAction r := by
    intro body o hb c g rs h
    unfold quadLoop at h
    split at h
    · split at h
      · cases h
      split at h
      · cases h
      · cases h
        exact overPairs_pca _ (fun a b => hb g _ _ a b) _
    · cases h
  intro s hs c g u rs h
  simp only [rules, List.mem_cons, List.not_mem_nil, or_false] at hs
  rcases hs with rfl | rfl | rfl | rfl
  · change nonColliderProcess o.r1 c g = _ at h
    unfold nonColliderProcess at h
    split at h
    · rename_i x y _
      split at h
      · cases h
      split at h
      · cases h
      split at h
      · cases h
      split at h
      · cases h
      · rename_i zs _
        generalize o.r1 g x y zs = l at h
        induction l with
        | nil => cases h
        | cons z l ih =>
          unfold nonColliderLoop at h
          split at h
          · cases h
          split at h
          · cases h
            intro r hr
            rw [List.mem_singleton] at hr; subst hr
            split
            · exact pca_stay _ _
            · exact pca_cut _ _
          split at h
          · cases h
            intro r hr
            rw [List.mem_singleton] at hr; subst hr
            split
            · exact pca_stay _ _
            · exact pca_cut _ _
          · exact ih h
    · cases h
  · change tripleProcess c g = _ at h
    unfold tripleProcess at h
    split at h
    · split at h
      · cases h
      split at h
      · cases h
      · cases h
        intro r hr
        obtain ⟨z, _, hr⟩ := List.mem_flatMap.1 hr
        unfold tripleAt at hr
        rcases List.mem_append.1 hr with hr | hr
        · exact hone _ _ _ r hr
        · exact hone _ _ _ r hr
    · cases h
  · refine hquad quadAt o.r3 ?_ c g rs h
    intro g a b c d r hr
    unfold quadAt at hr
    rcases List.mem_append.1 hr with hr | hr
    · exact hone _ _ _ r hr
    · exact hone _ _ _ r hr
  · refine hquad furtherQuadAt o.r4 ?_ c g rs h
    intro g a b c d r hr
    unfold furtherQuadAt at hr
    split at hr
    · rw [List.mem_singleton] at hr; subst hr; exact pca_cut _ _
    split at hr
    · rw [List.mem_singleton] at hr; subst hr; exact pca_cut _ _
    split at hr
    · rw [List.mem_singleton] at hr; subst hr; exact pca_cut _ _
    split at hr
    · rw [List.mem_singleton] at hr; subst hr; exact pca_cut _ _
    · cases hr

/-! ### graphs with missing rows -/

omit [DecidableEq ι] in
theorem evalSeq_raises {s : Step ι δ} {g : Graph ι δ} {e : PyErr} (cs : List (List ι))
    (hall : ∀ c ∈ cs, ∀ u, (∃ r, s.process c g u = .ok r) ∨ s.process c g u = .error e)
    (hex : ∃ c ∈ cs, ∀ u, s.process c g u = .error e) (loc : Results ι δ) :
    s.evalSeq g (cs.map .single) loc = .error e := by
  induction cs generalizing loc with
  | nil => obtain ⟨c, hc, _⟩ := hex; cases hc
  | cons c cs ih =>
    rw [List.map_cons]
    unfold Step.evalSeq Step.evalOne
    simp only
    rcases hall c List.mem_cons_self (if s.needsUnapplied then some loc else none) with ⟨r, hr⟩ | hr
    · rw [hr]
      simp only
      refine ih (fun c' hc' => hall c' (List.mem_cons_of_mem _ hc')) ?_ _
      obtain ⟨c', hc', h⟩ := hex
      rcases List.mem_cons.1 hc' with rfl | hc'
      · rw [h] at hr; cases hr
      · exact ⟨c', hc', h⟩
    · rw [hr]

theorem nonColliderLoop_keyError (g : CGraph ι ρ) (x y : ι) (zs : List ι) :
    (∃ r, nonColliderLoop g x y zs = .ok r) ∨ nonColliderLoop g x y zs = .error .keyError := by
  induction zs with
  | nil => exact Or.inl ⟨_, rfl⟩
  | cons z zs ih =>
    unfold nonColliderLoop
    split
    · exact Or.inr rfl
    split
    · exact Or.inl ⟨_, rfl⟩
    split
    · exact Or.inl ⟨_, rfl⟩
    · exact ih

theorem nonCollider_noRows {g : CGraph ι ρ} (hwf : WF0 g) (o : Ord ι ρ) (h : ¬ Rows g) (dry : Bool) :
    (nonColliderStep o).execute dry g = (.error .keyError, g) := by
  obtain ⟨cs, hgen, hcs, hcov⟩ := allGen_pairs g hwf.nodup
  have hc1 : ∀ x y, commonKeys g x y = .error .keyError ∨ ∃ l, commonKeys g x y = .ok l := by
    intro x y
    unfold commonKeys
    split
    · exact Or.inl rfl
    split
    · exact Or.inl rfl
    · exact Or.inr ⟨_, rfl⟩
  have hall : ∀ c ∈ cs, ∀ u, (∃ r, (nonColliderStep o).process c g u = .ok r) ∨
      (nonColliderStep o).process c g u = .error .keyError := by
    intro c hc u
    obtain ⟨x, y, rfl, hxy, hx, hy⟩ := hcs c hc
    show (∃ r, nonColliderProcess o [x, y] g = .ok r) ∨ nonColliderProcess o [x, y] g = .error .keyError
    unfold nonColliderProcess
    simp only [hx, hy, not_true_eq_false, if_false]
    split
    · exact Or.inl ⟨_, rfl⟩
    · rcases hc1 x y with h | ⟨l, h⟩ <;> rw [h]
      · exact Or.inr rfl
      · exact nonColliderLoop_keyError g x y _
  have hex : ∃ c ∈ cs, ∀ u, (nonColliderStep o).process c g u = .error .keyError := by
    unfold Rows at h
    push Not at h
    obtain ⟨x, hx, y, hy, hxy, hr⟩ := h
    have hrow : g.edges.has x = false := by simpa using hr
    have hno : ∀ b, g.live x b = false ∧ g.live b x = false := by
      intro b
      constructor
      · cases hl : g.live x b with
        | false => rfl
        | true => obtain ⟨e, he, _⟩ := live_iff.1 hl; rw [get2_isSome_has he] at hrow; cases hrow
      · cases hl : g.live b x with
        | false => rfl
        | true => obtain ⟨e, he, _⟩ := live_iff.1 hl; rw [(hwf.edge _ _ _ he).2.2.2.1] at hrow; cases hrow
    have hp : nonColliderProcess o [x, y] g = .error .keyError ∧ nonColliderProcess o [y, x] g = .error .keyError := by
      unfold nonColliderProcess
      simp only [hx, hy, not_true_eq_false, if_false]
      rw [edgeExists_eq hwf, edgeExists_eq hwf, (hno y).1, (hno y).2]
      unfold commonKeys
      simp only [hrow]
      constructor
      · simp
      · cases g.edges.has y <;> simp
    rcases hcov x hx y hy hxy with hc | hc
    · exact ⟨_, hc, fun _ => hp.1⟩
    · exact ⟨_, hc, fun _ => hp.2⟩
  unfold Step.execute
  rw [show (nonColliderStep o).gen g = _ from hgen]
  have h1 := evalSeq_raises (s := nonColliderStep o) cs hall hex []
  simp only [nonColliderStep, ruleStep, Bool.false_eq_true, if_false, forceOn, List.flatMap_cons, List.flatMap_nil,
    List.append_nil] at h1 ⊢
  rw [h1]

theorem loop_noRows {g : CGraph ι ρ} (hwf : WF0 g) (o : Ords ι ρ) (h : ¬ Rows g) (fuel : Nat) :
    loopGo (rules o) exitOnNoActions (fuel + 1) 0 none g = (.error .keyError, g) := by
  unfold loopGo
  have : exitOnNoActions g (none : Option (List (CResult ι ρ))) 0 = .ok false := by simp [exitOnNoActions]
  rw [this]
  simp only [rules]
  rw [runInner_cons, nonCollider_noRows hwf o.r1 h]

/-! ### the start graph -/

theorem start_live {gn : CGraph ι ρ} (hgn : Reachable gn) (a b : ι) :
    (createAllPossibleEdges ({} : Info ι ρ) gn).2.live a b = true ↔ a ∈ gn.nodes ∧ b ∈ gn.nodes ∧ a ≠ b := by
  have hwf := (createAll_reachable hgn ({} : Info ι ρ)).wf
  obtain ⟨_, h1, h2, h3, h4⟩ := C13_complete_graph gn hgn ({} : Info ι ρ)
  constructor
  · intro hl
    have := hwf.live_nodes hl
    rw [← h1]
    exact ⟨this.1, this.2, hwf.live_ne hl⟩
  · intro hh
    have := (h2 a b).2 hh
    rw [undirected_eq hwf, Bool.and_eq_true] at this
    exact this.1

theorem startGraph_rows {gn : CGraph ι ρ} (hgn : Reachable gn) : Rows (createAllPossibleEdges ({} : Info ι ρ) gn).2 := by
  obtain ⟨_, h1, _⟩ := C13_complete_graph gn hgn ({} : Info ι ρ)
  intro x hx y hy hxy
  rw [h1] at hx hy
  obtain ⟨e, he, _⟩ := live_iff.1 ((start_live hgn x y).2 ⟨hx, hy, hxy⟩)
  exact get2_isSome_has he

theorem startGraph_typed {gn : CGraph ι ρ} (hgn : Reachable gn) : Typed (createAllPossibleEdges ({} : Info ι ρ) gn).2 := by
  have hwf := (createAll_reachable hgn ({} : Info ι ρ)).wf
  obtain ⟨_, h1, h2, h3, h4⟩ := C13_complete_graph gn hgn ({} : Info ι ρ)
  refine ⟨hwf, ?_⟩
  intro a b e he hd
  obtain ⟨n1, n2, n3⟩ := (start_live hgn a b).1 (live_iff.2 ⟨e, he, hd⟩)
  rw [(start_live hgn b a).2 ⟨n2, n1, n3.symm⟩]
  have := h4 a n1 b n2 n3
  rw [getEdge_eq, he] at this
  simp only [Option.elim_some, Except.ok.injEq] at this
  rw [this]; rfl

end Orient
end Verif
