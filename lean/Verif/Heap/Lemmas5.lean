import Verif.Heap.Lemmas4
import Verif.Pipeline.Inv

/-!
# Helper lemmas: whole runs with references follow whole runs with values
-/

namespace Verif
namespace Heap
open Graph
variable {ι δ τ : Type} [DecidableEq ι]

/-- the results of a history entry -/
def HistAll (Q : TestResult ι δ → Prop) : HistRec ι δ → Prop
  | .plain r => RecAll Q r
  | .logic _ rs => ∀ r ∈ rs, RecAll Q r

omit [DecidableEq ι] in
theorem HistAll.mono {Q Q' : TestResult ι δ → Prop} (h : ∀ q, Q q → Q' q) {r : HistRec ι δ} (hr : HistAll Q r) : HistAll Q' r := by
  cases r with
  | plain r => exact ⟨fun q hq => h q (hr.1 q hq), fun q hq => h q (hr.2 q hq)⟩
  | logic n rs => exact fun r hm => ⟨fun q hq => h q ((hr r hm).1 q hq), fun q hq => h q ((hr r hm).2 q hq)⟩

/-- the two models are at corresponding points -/
structure Rel (κ : δ → τ) (P : Graph ι (Ref × δ)) (H : List (HistRec ι (Ref × δ))) (M : HModel ι δ) (V : GModel ι δ) : Prop where
  pre : Pre κ M.state P
  graph : V.graph = P.map Prod.snd
  hist1 : M.history = H.map (HistRec.map Prod.fst)
  hist2 : V.history = H.map (HistRec.map Prod.snd)
  kept : ∀ r ∈ H, HistAll (KeptR κ M.state P) r

/-- the same exception, or corresponding models -/
def OutM (κ : δ → τ) (h : Except PyErr Unit × HModel ι δ) (v : Except PyErr Unit × GModel ι δ) : Prop :=
  (∃ e, h.1 = .error e ∧ v.1 = .error e) ∨ ∃ P H, h.1 = .ok () ∧ v.1 = .ok () ∧ Rel κ P H h.2 v.2

theorem Rel.append {κ : δ → τ} {P P' : Graph ι (Ref × δ)} {H : List (HistRec ι (Ref × δ))} {M : HModel ι δ} {V : GModel ι δ}
    (h : Rel κ P H M V) {σ' : HState ι δ} (hp : Pre κ σ' P') (ht : Tr κ M.state P σ' P') {r : HistRec ι (Ref × δ)}
    (hr : HistAll (KeptR κ σ' P') r) :
    Rel κ P' (H ++ [r]) ⟨σ', M.history ++ [r.map Prod.fst]⟩ ⟨P'.map Prod.snd, V.history ++ [r.map Prod.snd]⟩ where
  pre := hp
  graph := rfl
  hist1 := by rw [h.hist1, List.map_append]; rfl
  hist2 := by rw [h.hist2, List.map_append]; rfl
  kept := by
    intro x hx
    rcases List.mem_append.1 hx with hx | hx
    · exact (h.kept x hx).mono (fun q hq => hq.tr ht)
    · rw [List.mem_singleton.1 hx]; exact hr

theorem DoneLogic.tr {κ : δ → τ} {σ σ' : HState ι δ} {P P' : Graph ι (Ref × δ)} {rs : List (StepRec ι (Ref × δ))}
    (h : DoneLogic κ σ P rs σ' P') : Tr κ σ P σ' P' :=
  ⟨h.next, fun r hr => by rw [h.frame r hr], fun r hr _ => h.frame r hr, h.fresh⟩

omit [DecidableEq ι] in
theorem onS_run {α : Type} (m : PyM (HState ι δ) α) (s : HModel ι δ) :
    onS m s = ((m s.state).1, { s with state := (m s.state).2 }) := rfl

/-- a logic step -/
theorem logic_rel {κ : δ → τ} {P : Graph ι (Ref × δ)} {H : List (HistRec ι (Ref × δ))} {M : HModel ι δ} {V : GModel ι δ}
    (h : Rel κ P H M V) (name : String) {m : PyM (HState ι δ) (List (StepRec ι Ref))} {m' : PyM (Graph ι δ) (List (StepRec ι δ))}
    (ho : Out (List.map (StepRec.map Prod.fst)) (List.map (StepRec.map Prod.snd)) (DoneLogic κ M.state P) (m M.state) (m' (P.map Prod.snd))) :
    OutM κ ((onS m >>= fun rs => appendHistory (.logic name rs)) M) ((onGraph m' >>= fun rs => Verif.appendHistory (.logic name rs)) V) := by
  rw [PyM.bind_run, PyM.bind_run, onGraph_run, h.graph]
  unfold onS
  rcases ho with ⟨e, h1, h2⟩ | ⟨rs, σ', P', h1, h2, h3⟩
  · rw [h1, h2]
    exact .inl ⟨e, rfl, rfl⟩
  · rw [h1, h2]
    refine .inr ⟨P', H ++ [.logic name rs], rfl, rfl, ?_⟩
    exact h.append h3.pre h3.tr (r := .logic name rs)
      (fun r hr => ⟨fun q hq => ((h3.recs r hr).1 q hq).kept, fun q hq => ((h3.recs r hr).2 q hq).kept⟩)

theorem pre_purge {κ : δ → τ} {σ : HState ι δ} {P : Graph ι (Ref × δ)} (hg : P.map Prod.fst = σ.graph)
    (hi : Inv κ σ.cells σ.next (Graph.purge P).2) : Pre κ { σ with graph := (Graph.purge σ.graph).2 } (Graph.purge P).2 := by
  refine ⟨?_, hi⟩
  have := sim_purge Prod.fst P
  unfold SimAt at this
  show _ = (Graph.purge σ.graph).2
  rw [← hg, this]

/-- one configured step -/
theorem step_rel {κ : δ → τ} (fuel : Nat) {p : HPStep ι δ} (ha : Admissible κ p) {P : Graph ι (Ref × δ)}
    {H : List (HistRec ι (Ref × δ))} {M : HModel ι δ} {V : GModel ι δ} (h : Rel κ P H M V) :
    OutM κ (p.run fuel M) (p.forget.run fuel V) := by
  cases p with
  | loop name ss exit =>
    exact logic_rel h name (loopGo_done ss ha.1 ha.2 fuel 0 none M.state P h.pre (fun _ hq => absurd hq List.not_mem_nil))
  | together name ss => exact logic_rel h name (runTogether_done ss ha M.state P h.pre)
  | plain s =>
    have key : Out (mapPair Prod.fst) (mapPair Prod.snd) (DoneHalf κ M.state P) (s.execute false M.state)
        (s.step.execute false (P.map Prod.snd)) := by
      rcases ha with ⟨hi, hp⟩ | ⟨hi, τ', κ', hw, hκ⟩
      · rcases execute_done hi hp false M.state P h.pre with he | ⟨x, σ', P', h1, h2, h3⟩
        · exact .inl he
        · refine .inr ⟨x, σ', P', h1, h2, h3.pre.graph, h3.pre.inv.wf, h3.pre.inv.purge,
            ⟨h3.next, fun r hr => by rw [h3.frame r hr], fun r hr _ => h3.frame r hr, h3.fresh⟩,
            fun q hq => (h3.ok1 q hq).kept, fun q hq => (h3.ok2 q hq).kept⟩
      · exact writes_done hi hw hκ M.state P h.pre
    show OutM κ ((onS (s.execute false) >>= fun p => appendHistory (.plain ⟨s.step.name, p.1, p.2⟩) >>= fun _ => onS (onG Graph.purge)) M) _
    show OutM κ _ ((onGraph (s.step.execute false) >>= fun p =>
      Verif.appendHistory (.plain ⟨s.step.name, p.1, p.2⟩) >>= fun _ => onGraph Graph.purge) V)
    rw [PyM.bind_run, PyM.bind_run, onGraph_run, onS_run, h.graph]
    rcases key with ⟨e, h1, h2⟩ | ⟨x, σ', P', h1, h2, h3⟩
    · rw [h1, h2]
      exact .inl ⟨e, rfl, rfl⟩
    · rw [h1, h2]
      simp only
      rw [PyM.bind_run, PyM.bind_run]
      simp only [appendHistory, Verif.appendHistory, PyM.mod_run, onGraph_run, onS_run, onG]
      have hs1 := sim_purge Prod.fst P'
      have hs2 := sim_purge Prod.snd P'
      unfold SimAt at hs1 hs2
      have hp := purge_run h3.wf
      have htr : Tr κ σ' P' { σ' with graph := (Graph.purge σ'.graph).2 } (Graph.purge P').2 :=
        ⟨Nat.le_refl _, fun _ _ => rfl, fun _ _ _ => rfl, fresh_purge _ h3.wf⟩
      have hrel := h.append (pre_purge h3.graph h3.inv) (h3.tr.trans htr) (r := .plain ⟨s.step.name, x.1, x.2⟩)
        ⟨fun q hq => (h3.ok1 q hq).tr htr, fun q hq => (h3.ok2 q hq).tr htr⟩
      refine .inr ⟨(Graph.purge P').2, H ++ [.plain ⟨s.step.name, x.1, x.2⟩], ?_, ?_, ?_⟩
      · show (Graph.purge σ'.graph).1 = _
        rw [← h3.graph, hs1, hp]
        rfl
      · show (Graph.purge (P'.map Prod.snd)).1 = _
        rw [hs2, hp]
        rfl
      · have e2 : (Graph.purge (P'.map Prod.snd)).2 = (Graph.purge P').2.map Prod.snd := by rw [hs2]
        show Rel κ _ _ _ ⟨(Graph.purge (P'.map Prod.snd)).2, _⟩
        rw [e2]
        exact hrel

theorem run_rel {κ : δ → τ} (fuel : Nat) (ps : List (HPStep ι δ)) (ha : ∀ p ∈ ps, Admissible κ p) {P : Graph ι (Ref × δ)}
    {H : List (HistRec ι (Ref × δ))} {M : HModel ι δ} {V : GModel ι δ} (h : Rel κ P H M V) :
    OutM κ (run fuel ps M) (runPipeline fuel (ps.map HPStep.forget) V) := by
  unfold run runPipeline
  induction ps generalizing P H M V with
  | nil => exact .inr ⟨P, H, rfl, rfl, h⟩
  | cons p ps ih =>
    rw [List.map_cons, PyM.forEach_cons, PyM.forEach_cons, PyM.bind_run, PyM.bind_run]
    have h1 := step_rel fuel (ha p List.mem_cons_self) h
    generalize p.run fuel M = x at h1
    generalize p.forget.run fuel V = y at h1
    obtain ⟨x1, x2⟩ := x
    obtain ⟨y1, y2⟩ := y
    rcases h1 with ⟨e, a, b⟩ | ⟨P', H', a, b, h2⟩
    · simp only at a b
      subst a b
      exact .inl ⟨e, rfl, rfl⟩
    · simp only at a b h2
      subst a b
      exact ih (fun p hp => ha p (List.mem_cons_of_mem _ hp)) h2

/-! ## what corresponding models have in common -/

omit [DecidableEq ι] in
theorem blur_eq {κ : δ → τ} {c : Ref → δ} {q : TestResult ι (Ref × δ)} (h : ∀ d, q.data = some d → κ (c d.1) = κ d.2 ∧
    (q.action.isUpdate = false → c d.1 = d.2)) : blur κ ((q.map Prod.fst).map c) = blur κ (q.map Prod.snd) := by
  obtain ⟨u, v, a, d⟩ := q
  cases d with
  | none => rfl
  | some d =>
    obtain ⟨h1, h2⟩ := h d rfl
    simp only [blur, TestResult.map, Option.map_some, TestResult.mk.injEq, true_and, Option.some.injEq]
    simp only at h2
    cases hu : a.isUpdate with
    | true => exact congrArg Sum.inr h1
    | false => exact congrArg Sum.inl (h2 hu)

omit [DecidableEq ι] in
theorem blur_list {κ : δ → τ} {c : Ref → δ} (l : List (TestResult ι (Ref × δ))) (h : ∀ q ∈ l, ∀ d, q.data = some d →
    κ (c d.1) = κ d.2 ∧ (q.action.isUpdate = false → c d.1 = d.2)) :
    ((l.map (TestResult.map Prod.fst)).map (TestResult.map c)).map (blur κ) = (l.map (TestResult.map Prod.snd)).map (blur κ) := by
  rw [List.map_map, List.map_map, List.map_map]
  exact List.map_congr_left (fun q hq => blur_eq (h q hq))

theorem blur_step {κ : δ → τ} {σ : HState ι δ} {P : Graph ι (Ref × δ)} {r : StepRec ι (Ref × δ)} (h : RecAll (KeptR κ σ P) r) :
    blurStep κ ((r.map Prod.fst).map σ.cells) = blurStep κ (r.map Prod.snd) := by
  have h1 := blur_list (c := σ.cells) (κ := κ) r.actions (fun q hq d hd => ⟨(h.1 q hq d hd).2.1, fun hu => ((h.1 q hq d hd).2.2 hu).1⟩)
  have h2 := blur_list (c := σ.cells) (κ := κ) r.proposed (fun q hq d hd => ⟨(h.2 q hq d hd).2.1, fun hu => ((h.2 q hq d hd).2.2 hu).1⟩)
  simp only [blurStep, StepRec.map]
  rw [h1, h2]

theorem Rel.agree {κ : δ → τ} {P : Graph ι (Ref × δ)} {H : List (HistRec ι (Ref × δ))} {M : HModel ι δ} {V : GModel ι δ}
    (h : Rel κ P H M V) : Agree κ M V where
  nodes := by rw [h.pre.deref, h.graph]; rfl
  edges := by
    intro u v
    rw [h.pre.deref, h.graph]
    simp only [Graph.map, Dict.get2_map]
    cases he : P.edges.get2 u v with
    | none => rfl
    | some e =>
      have := h.pre.inv.exact u v e he
      simp only [Option.map_some, Edge.map, Function.comp_apply, this]
  records := by
    intro u v
    rw [HState.deref, ← h.pre.graph, h.graph]
    simp only [Graph.map, Dict.get?_map]
    cases hl : P.hist.get? (u, v) with
    | none => rfl
    | some l =>
      simp only [Option.map_some, Option.some.injEq]
      exact blur_list l (fun q hq d hd => ⟨(h.pre.inv.all.record hl hq d hd).2, fun hu => h.pre.inv.recExact _ l q d hl hq hu hd⟩)
  rest := by
    rw [h.pre.deref, h.graph, Graph.map_map, Graph.map_map]
    exact h.pre.inv.all.map_congr (fun p hp => hp.2)
  history := by
    rw [HModel.entries, h.hist1, h.hist2, List.map_map, List.map_map, List.map_map]
    refine List.map_congr_left (fun r hr => ?_)
    have hk := h.kept r hr
    cases r with
    | plain r => exact congrArg HistRec.plain (blur_step hk)
    | logic n rs =>
      refine congrArg (HistRec.logic n) ?_
      rw [List.map_map, List.map_map, List.map_map]
      exact List.map_congr_left (fun r hr => blur_step (hk r hr))

/-! ## the start -/

/-- `add_edge` on the graph of pairs -/
def addP (n : Ref) (m : δ) (u v : ι) : PyM (Graph ι (Ref × δ)) Unit :=
  Graph.addEdge u v (n, m) .undirected >>= fun _ =>
    modE v u (fun e => { e with metadata := (n + 1, m) }) >>= fun _ => modR u v (fun e => { e with metadata := (n + 1, m) })

theorem sim_addP {β : Type} (f : Ref × δ → β) (n : Ref) (m : δ) (u v : ι) : Sim f id (addP n m u v)
    (Graph.addEdge u v (f (n, m)) .undirected >>= fun _ =>
      modE v u (fun e => { e with metadata := f (n + 1, m) }) >>= fun _ => modR u v (fun e => { e with metadata := f (n + 1, m) })) :=
  Sim.bind (sim_addEdge f u v (n, m) .undirected) (fun _ =>
    Sim.bind (sim_modE f v u (fun _ => rfl)) (fun _ => sim_modR f u v (fun _ => rfl)))

theorem addP_run {α : Type} {g : Graph ι α} (h : WF0 g) {u v : ι} (hu : u ∈ g.nodes) (hv : v ∈ g.nodes) (huv : u ≠ v) (x y : α) :
    (Graph.addEdge u v x .undirected >>= fun _ =>
      modE v u (fun e => { e with metadata := y }) >>= fun _ => modR u v (fun e => { e with metadata := y })) g =
    (.ok (), modBoth (addG g u v x .undirected) v u (fun e => { e with metadata := y })) := by
  have h1 : Graph.addEdge u v x .undirected g = (.ok (), addG g u v x .undirected) := by
    rw [addEdge_run h, if_neg (by simp [hu, hv, huv])]
  rw [PyM.bind_ok h1]
  have hne : ¬ (u = v ∧ v = u) := fun h => huv h.1
  have h2 : (addG g u v x .undirected).edges.get2 v u = some ⟨v, u, .undirected, x, false⟩ := by
    rw [get2_addG huv, if_neg hne, if_pos ⟨rfl, rfl⟩]
  exact modBoth_run (h.addG hu hv huv x .undirected) h2 _

/-- all recorded lists are empty -/
def NoRecords {α : Type} (g : Graph ι α) : Prop := ∀ k l, g.hist.get? k = some l → l = []

theorem noRecords_initG {α : Type} {g : Graph ι α} (h : NoRecords g) (u v : ι) : NoRecords (initG g u v) := by
  have h1 : ∀ (g : Graph ι α) a b, NoRecords g → NoRecords (histG g a b) := by
    intro g a b hg k l hl
    unfold histG at hl
    split at hl
    · exact hg k l hl
    · simp only at hl
      rw [Dict.get?_set] at hl
      split at hl
      · injection hl with hl; exact hl.symm
      · exact hg k l hl
  unfold initG
  refine h1 _ _ _ (h1 _ _ _ ?_)
  intro k l hl
  rw [hist_rowG, hist_rowG] at hl
  exact h k l hl

/-- the start of a run: no records yet -/
structure Begin (σ : HState ι δ) (P : Graph ι (Ref × δ)) : Prop where
  pre : Pre (id : δ → δ) σ P
  empty : NoRecords P

theorem cases_add {P P' : Graph ι (Ref × δ)} {n : Ref} {m : δ} {u v : ι}
    (hget : ∀ a b, P'.edges.get2 a b = if u = a ∧ v = b then some ⟨u, v, .undirected, (n, m), false⟩ else
      if v = a ∧ u = b then some ⟨v, u, .undirected, (n + 1, m), false⟩ else P.edges.get2 a b) :
    ∀ a b e, P'.edges.get2 a b = some e → e.metadata = (n, m) ∨ e.metadata = (n + 1, m) ∨ P.edges.get2 a b = some e := by
  intro a b e he
  rw [hget] at he
  by_cases h1 : u = a ∧ v = b
  · rw [if_pos h1] at he
    injection he with he
    exact .inl (by rw [← he])
  · rw [if_neg h1] at he
    by_cases h2 : v = a ∧ u = b
    · rw [if_pos h2] at he
      injection he with he
      exact .inr (.inl (by rw [← he]))
    · rw [if_neg h2] at he
      exact .inr (.inr he)

theorem share_add {P P' : Graph ι (Ref × δ)} {n : Ref} {m : δ} {u v : ι}
    (hget : ∀ a b, P'.edges.get2 a b = if u = a ∧ v = b then some ⟨u, v, .undirected, (n, m), false⟩ else
      if v = a ∧ u = b then some ⟨v, u, .undirected, (n + 1, m), false⟩ else P.edges.get2 a b)
    (hlt : ∀ a b e, P.edges.get2 a b = some e → e.metadata.1 < n)
    (hshare : ∀ a b e a' b' e', P.edges.get2 a b = some e → P.edges.get2 a' b' = some e' → e.metadata.1 = e'.metadata.1 →
      (a = a' ∧ b = b') ∨ (a = b' ∧ b = a')) :
    ∀ a b e a' b' e', P'.edges.get2 a b = some e → P'.edges.get2 a' b' = some e' → e.metadata.1 = e'.metadata.1 →
      (a = a' ∧ b = b') ∨ (a = b' ∧ b = a') := by
  have hcase : ∀ a b e, P'.edges.get2 a b = some e → (((u = a ∧ v = b) ∨ (v = a ∧ u = b)) ∧ n ≤ e.metadata.1) ∨
      P.edges.get2 a b = some e := by
    intro a b e he
    rw [hget] at he
    by_cases h1 : u = a ∧ v = b
    · rw [if_pos h1] at he
      injection he with he
      exact .inl ⟨.inl h1, by rw [← he]⟩
    · rw [if_neg h1] at he
      by_cases h2 : v = a ∧ u = b
      · rw [if_pos h2] at he
        injection he with he
        exact .inl ⟨.inr h2, by rw [← he]; exact Nat.le_succ _⟩
      · rw [if_neg h2] at he
        exact .inr he
  intro a b e a' b' e' he he' hs
  rcases hcase a b e he with ⟨h1, h2⟩ | h1 <;> rcases hcase a' b' e' he' with ⟨h3, h4⟩ | h3
  · rcases h1 with ⟨rfl, rfl⟩ | ⟨rfl, rfl⟩ <;> rcases h3 with ⟨rfl, rfl⟩ | ⟨rfl, rfl⟩
    · exact .inl ⟨rfl, rfl⟩
    · exact .inr ⟨rfl, rfl⟩
    · exact .inr ⟨rfl, rfl⟩
    · exact .inl ⟨rfl, rfl⟩
  · exact (ref_ne (hlt _ _ _ h3) h2 hs.symm).elim
  · exact (ref_ne (hlt _ _ _ h1) h4 hs).elim
  · exact hshare a b e a' b' e' h1 h3 hs

theorem begin_addEdge {σ : HState ι δ} {P : Graph ι (Ref × δ)} (h : Begin σ P) (m : δ) {u v : ι} (hu : u ∈ P.nodes)
    (hv : v ∈ P.nodes) (huv : u ≠ v) :
    ∃ σ' P', addEdge m u v σ = (.ok (), σ') ∧ Graph.addEdge u v m .undirected (P.map Prod.snd) = (.ok (), P'.map Prod.snd) ∧
      Begin σ' P' ∧ P'.nodes = P.nodes := by
  have hwf := h.pre.inv.wf
  have hrun := addP_run hwf hu hv huv (σ.next, m) (σ.next + 1, m)
  generalize hP' : modBoth (addG P u v (σ.next, m) .undirected) v u (fun e => { e with metadata := (σ.next + 1, m) }) = P' at hrun
  have hne : ¬ (u = v ∧ v = u) := fun h => huv h.1
  have hwf' : WF0 P' := by
    rw [← hP']
    exact (hwf.addG hu hv huv _ _).modBoth (fun _ => ⟨rfl, rfl⟩)
  have hget : ∀ a b, P'.edges.get2 a b = if u = a ∧ v = b then some ⟨u, v, .undirected, (σ.next, m), false⟩ else
      if v = a ∧ u = b then some ⟨v, u, .undirected, (σ.next + 1, m), false⟩ else P.edges.get2 a b := by
    intro a b
    have h2 : (addG P u v (σ.next, m) .undirected).edges.get2 v u = some ⟨v, u, .undirected, (σ.next, m), false⟩ := by
      rw [get2_addG huv, if_neg hne, if_pos ⟨rfl, rfl⟩]
    rw [← hP', get2_modBoth, h2, get2_addG huv]
    by_cases h1 : v = a ∧ u = b
    · obtain ⟨rfl, rfl⟩ := h1
      rw [if_pos ⟨rfl, rfl⟩, if_neg hne, if_pos ⟨rfl, rfl⟩]
      rfl
    · rw [if_neg h1, if_neg h1, if_neg h1]
  have hrec : NoRecords P' := by
    rw [← hP']
    intro k l hl
    rw [hist_modBoth] at hl
    exact noRecords_initG h.empty u v k l hl
  have hnodes : P'.nodes = P.nodes := by
    rw [← hP', show (modBoth (addG P u v (σ.next, m) .undirected) v u _).nodes = (addG P u v (σ.next, m) .undirected).nodes from
      nodes_modBoth, nodes_addG]
  -- the heap
  have hgr : σ.graph = P.map Prod.fst := h.pre.graph.symm
  have hgwf : WF0 σ.graph := by rw [hgr]; exact wf_map _ hwf
  have hu' : u ∈ σ.graph.nodes := by rw [hgr]; exact hu
  have hv' : v ∈ σ.graph.nodes := by rw [hgr]; exact hv
  have hsimf := sim_addP Prod.fst σ.next m u v P
  have hsims := sim_addP Prod.snd σ.next m u v P
  unfold SimAt at hsimf hsims
  have hrun' : addP σ.next m u v P = (.ok (), P') := hrun
  rw [hrun'] at hsimf hsims
  simp only [Except.map] at hsimf hsims
  let σ' : HState ι δ := ⟨P'.map Prod.fst, poke (poke σ.cells σ.next m) (σ.next + 1) m, σ.next + 2⟩
  refine ⟨σ', P', ?_, ?_, ⟨⟨rfl, ?_⟩, hrec⟩, hnodes⟩
  · have h1 : Graph.addEdge u v σ.next .undirected σ.graph = (.ok (), addG σ.graph u v σ.next .undirected) := by
      rw [addEdge_run hgwf, if_neg (by simp [hu', hv', huv])]
    rw [← hgr, PyM.bind_ok h1] at hsimf
    unfold addEdge
    rw [h1]
    simp only [onG]
    have h2 := congrArg Prod.fst hsimf
    have h3 := congrArg Prod.snd hsimf
    simp only at h2 h3
    refine Prod.ext h2 ?_
    exact congrArg (fun g => HState.mk g (poke (poke σ.cells σ.next m) (σ.next + 1) m) (σ.next + 2)) h3
  · have hw := wf_map Prod.snd hwf
    have hu2 : u ∈ (P.map Prod.snd).nodes := hu
    have hv2 : v ∈ (P.map Prod.snd).nodes := hv
    rw [addP_run hw hu2 hv2 huv] at hsims
    rw [addEdge_run hw, if_neg (by simp [hu2, hv2, huv])]
    have h3 := congrArg Prod.snd hsims
    simp only at h3
    rw [← h3]
    refine Prod.ext rfl ?_
    show addG (P.map Prod.snd) u v m .undirected = modBoth _ v u _
    have h2 : (addG (P.map Prod.snd) u v m .undirected).edges.get2 v u = some ⟨v, u, .undirected, m, false⟩ := by
      rw [get2_addG huv, if_neg hne, if_pos ⟨rfl, rfl⟩]
    obtain ⟨_, _, _, _, h5⟩ := (hw.addG hu2 hv2 huv m .undirected).edge v u _ h2
    rw [modBoth_of_some h2]
    unfold putBoth
    rw [set2_same _ _ _ _ h2, set2_same _ _ _ _ h5]
  · have hold : ∀ r, r < σ.next → σ'.cells r = σ.cells r := by
      intro r hr
      show poke (poke σ.cells σ.next m) (σ.next + 1) m r = _
      unfold poke
      rw [if_neg (Nat.ne_of_lt (Nat.lt_succ_of_lt hr)), if_neg (Nat.ne_of_lt hr)]
    have hc0 : σ'.cells σ.next = m := by
      show poke (poke σ.cells σ.next m) (σ.next + 1) m σ.next = _
      unfold poke
      rw [if_neg (Nat.ne_of_lt (Nat.lt_succ_self _)), if_pos rfl]
    have hc1 : σ'.cells (σ.next + 1) = m := if_pos rfl
    have hinv := h.pre.inv.frame hold (Nat.le_add_right σ.next 2)
    refine ⟨hwf', ?_, ?_, ?_, ?_, ?_⟩
    · obtain ⟨P0, hP0⟩ := hinv.all
      have n0 : Near (id : δ → δ) σ'.cells σ'.next (σ.next, m) := ⟨Nat.lt_succ_of_lt (Nat.lt_succ_self _), hc0⟩
      have n1 : Near (id : δ → δ) σ'.cells σ'.next (σ.next + 1, m) := ⟨Nat.lt_succ_self _, hc1⟩
      have hs : Sim (ι := ι) (Subtype.val : {p // Near (id : δ → δ) σ'.cells σ'.next p} → Ref × δ) id
          (Graph.addEdge u v ⟨(σ.next, m), n0⟩ .undirected >>= fun _ =>
            modE v u (fun e => { e with metadata := ⟨(σ.next + 1, m), n1⟩ }) >>= fun _ =>
              modR u v (fun e => { e with metadata := ⟨(σ.next + 1, m), n1⟩ }))
          (addP σ.next m u v) :=
        Sim.bind (sim_addEdge _ u v _ .undirected) (fun _ =>
          Sim.bind (sim_modE _ v u (fun _ => rfl)) (fun _ => sim_modR _ u v (fun _ => rfl)))
      have hx := hs P0
      unfold SimAt at hx
      rw [hP0, hrun'] at hx
      exact ⟨_, (congrArg Prod.snd hx).symm⟩
    · intro a b e he
      rcases cases_add hget a b e he with h1 | h1 | h1
      · rw [h1]; exact hc0
      · rw [h1]; exact hc1
      · exact hinv.exact a b e h1
    · intro k l r d hl hr
      rw [hrec k l hl] at hr
      cases hr
    · exact share_add hget (fun a b e he => (h.pre.inv.all.edge he).1) h.pre.inv.share
    · intro k l r d a b e hl hr
      rw [hrec k l hl] at hr
      cases hr

theorem begin_start {nodes : List ι} (hn : nodes.Nodup) (c : Ref → δ) :
    Begin (start nodes c) { (Graph.empty : Graph ι (Ref × δ)) with nodes := nodes } := by
  have hget : ∀ (a b : ι), ({ (Graph.empty : Graph ι (Ref × δ)) with nodes := nodes }).edges.get2 a b = none := fun _ _ => rfl
  refine ⟨⟨rfl, ⟨?_, ⟨{ (Graph.empty : Graph ι _) with nodes := nodes }, rfl⟩, ?_, ?_, ?_, ?_⟩⟩, fun k l hl => by cases hl⟩
  · refine ⟨hn, rfl, rfl, fun u h => ?_, fun u v e h => ?_, fun u v e h => ?_, fun u v e h => ?_, fun u v h => ?_⟩ <;> cases h
  · intro a b e he; cases he
  · intro k l r d hl; cases hl
  · intro a b e a' b' e' he; cases he
  · intro k l r d a b e hl; cases hl

theorem begin_forEach {X : Type} (l : List X) {m : X → PyM (HState ι δ) Unit} {m' : X → PyM (Graph ι δ) Unit} (ns : List ι)
    (hm : ∀ x ∈ l, ∀ σ P, Begin σ P → P.nodes = ns → ∃ σ' P', m x σ = (.ok (), σ') ∧ m' x (P.map Prod.snd) = (.ok (), P'.map Prod.snd) ∧
      Begin σ' P' ∧ P'.nodes = ns) (σ : HState ι δ) (P : Graph ι (Ref × δ)) (h : Begin σ P) (hn : P.nodes = ns) :
    ∃ σ' P', PyM.forEach l m σ = (.ok (), σ') ∧ PyM.forEach l m' (P.map Prod.snd) = (.ok (), P'.map Prod.snd) ∧ Begin σ' P' ∧ P'.nodes = ns := by
  induction l generalizing σ P with
  | nil => exact ⟨σ, P, rfl, rfl, h, hn⟩
  | cons x l ih =>
    obtain ⟨σ1, P1, h1, h2, h3, h4⟩ := hm x List.mem_cons_self σ P h hn
    rw [PyM.forEach_cons, PyM.forEach_cons, PyM.bind_ok h1, PyM.bind_ok h2]
    exact ih (fun x hx => hm x (List.mem_cons_of_mem _ hx)) σ1 P1 h3 h4

theorem begin_createAll {σ : HState ι δ} {P : Graph ι (Ref × δ)} (h : Begin σ P) (m : δ) :
    ∃ σ' P', createAllPossibleEdges m σ = (.ok (), σ') ∧ Graph.createAllPossibleEdges m (P.map Prod.snd) = (.ok (), P'.map Prod.snd) ∧
      Begin σ' P' ∧ P'.nodes = P.nodes := by
  have hn : σ.graph.nodes = P.nodes := by rw [← h.pre.graph]; rfl
  have e1 : createAllPossibleEdges m σ = PyM.forEach σ.graph.nodes (fun u =>
    PyM.forEach σ.graph.nodes (fun v => if u = v then pure () else addEdge m u v)) σ := rfl
  have e2 : Graph.createAllPossibleEdges m (P.map Prod.snd) = PyM.forEach P.nodes (fun u =>
    PyM.forEach P.nodes (fun v => if u = v then pure () else Graph.addEdge u v m)) (P.map Prod.snd) := rfl
  rw [e1, e2, hn]
  generalize hns : P.nodes = ns
  refine begin_forEach ns ns (fun u hu σ P h hn => ?_) σ P h hns
  refine begin_forEach ns ns (fun v hv σ P h hn => ?_) σ P h hn
  by_cases huv : u = v
  · rw [if_pos huv, if_pos huv]
    exact ⟨σ, P, rfl, rfl, h, hn⟩
  · rw [if_neg huv, if_neg huv]
    obtain ⟨σ', P', h1, h2, h3, h4⟩ := begin_addEdge h m (by rw [hn]; exact hu) (by rw [hn]; exact hv) huv
    exact ⟨σ', P', h1, h2, h3, h4.trans hn⟩

theorem Inv.coarser {κ : δ → τ} {c : Ref → δ} {n : Ref} {P : Graph ι (Ref × δ)} (h : Inv (id : δ → δ) c n P) : Inv κ c n P :=
  ⟨h.wf, h.all.mono (fun p hp => ⟨hp.1, congrArg κ hp.2⟩), h.exact, h.recExact, h.share, h.apart⟩

theorem Begin.rel {κ : δ → τ} {σ : HState ι δ} {P : Graph ι (Ref × δ)} (h : Begin σ P) :
    Rel κ P [] ⟨σ, []⟩ ⟨P.map Prod.snd, []⟩ :=
  ⟨⟨h.pre.graph, h.pre.inv.coarser⟩, rfl, rfl, rfl, fun _ h => absurd h List.not_mem_nil⟩

end Heap
end Verif
