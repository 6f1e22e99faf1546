import Verif.Heap.Lemmas3

/-!
# Helper lemmas: logic steps, steps that write into stored dictionaries, whole runs
-/

namespace Verif
namespace Heap
open Graph
variable {ι δ τ : Type} [DecidableEq ι]

/-- the results of a history entry -/
def RecAll (Q : TestResult ι δ → Prop) (r : StepRec ι δ) : Prop := (∀ q ∈ r.actions, Q q) ∧ ∀ q ∈ r.proposed, Q q

/-! ## logic steps -/

/-- replace the data in what `runInner` returns -/
def mapInner {α β : Type} (f : α → β) (p : List (StepRec ι α) × List (TestResult ι α)) :
    List (StepRec ι β) × List (TestResult ι β) := (p.1.map (StepRec.map f), p.2.map (TestResult.map f))

/-- the state after the inner steps of a logic step -/
structure DoneInner (κ : δ → τ) (dry : Bool) (σ : HState ι δ) (P : Graph ι (Ref × δ))
    (p : List (StepRec ι (Ref × δ)) × List (TestResult ι (Ref × δ))) (σ' : HState ι δ) (P' : Graph ι (Ref × δ)) : Prop where
  pre : Pre κ σ' P'
  next : σ.next ≤ σ'.next
  frame : ∀ r, r < σ.next → σ'.cells r = σ.cells r
  fresh : FreshFrom σ.next P P'
  recs : ∀ r ∈ p.1, RecAll (Sure σ' P') r
  ok : ∀ q ∈ p.2, Sure σ' P' q
  inert : dry = true → P' = P ∧ (∀ r ∈ p.1, RecAll (fun q => q ∈ p.2) r) ∧ Pend σ'.cells σ.next σ'.next p.2 ∧ NoRes p.2

theorem runInner_done {κ : δ → τ} (dry : Bool) (ss : List (HStep ι δ)) (hs : ∀ s ∈ ss, s.inPlace = false ∧ Plain s.step)
    (σ : HState ι δ) (P : Graph ι (Ref × δ)) (h : Pre κ σ P) :
    Out (mapInner Prod.fst) (mapInner Prod.snd) (DoneInner κ dry σ P) (runInner dry ss σ)
      (Verif.runInner dry (ss.map HStep.step) (P.map Prod.snd)) := by
  induction ss generalizing σ P with
  | nil =>
    exact .inr ⟨([], []), σ, P, rfl, rfl, h, Nat.le_refl _, fun _ _ => rfl, .refl _ _, fun _ h => absurd h List.not_mem_nil,
      fun _ h => absurd h List.not_mem_nil, fun _ => ⟨rfl, fun _ h => absurd h List.not_mem_nil, .nil _ _ _,
        fun _ h => absurd h List.not_mem_nil⟩⟩
  | cons s ss ih =>
    obtain ⟨hi, hp⟩ := hs s List.mem_cons_self
    refine Out.bind (execute_done hi hp dry σ P h) (fun p σ1 P1 h1 => ?_)
    refine Out.bind (ih (fun s hs' => hs s (List.mem_cons_of_mem _ hs')) σ1 P1 h1.pre) (fun q σ2 P2 h2 => ?_)
    refine .inr ⟨(⟨s.step.name, p.1, p.2⟩ :: q.1, p.1 ++ q.2), σ2, P2, ?_, ?_, ?_⟩
    · simp only [mapInner, List.map_cons, List.map_append]; rfl
    · simp only [mapInner, List.map_cons, List.map_append]; rfl
    · refine ⟨h2.pre, Nat.le_trans h1.next h2.next,
        fun r hr => (h2.frame r (Nat.lt_of_lt_of_le hr h1.next)).trans (h1.frame r hr), h1.fresh.trans h1.next h2.fresh, ?_, ?_, ?_⟩
      · intro r hr
        rcases List.mem_cons.1 hr with rfl | hr
        · exact ⟨fun q hq => (h1.ok1 q hq).keep h2.next h2.frame h2.fresh, fun q hq => (h1.ok2 q hq).keep h2.next h2.frame h2.fresh⟩
        · exact h2.recs r hr
      · intro x hx
        rcases List.mem_append.1 hx with hx | hx
        · exact (h1.ok1 x hx).keep h2.next h2.frame h2.fresh
        · exact h2.ok x hx
      · intro hd
        obtain ⟨e1, e1', p1, n1⟩ := h1.inert hd
        obtain ⟨e2, m2, p2, n2⟩ := h2.inert hd
        refine ⟨e2.trans e1, ?_, p1.append p2 (fun r _ hr => h2.frame r hr) h1.next h2.next, n1.append n2⟩
        intro r hr
        rcases List.mem_cons.1 hr with rfl | hr
        · exact ⟨fun q hq => List.mem_append_left _ hq, fun q hq => List.mem_append_left _ (by rw [← e1']; exact hq)⟩
        · exact ⟨fun q hq => List.mem_append_right _ ((m2 r hr).1 q hq), fun q hq => List.mem_append_right _ ((m2 r hr).2 q hq)⟩

/-- the state after a logic step -/
structure DoneLogic (κ : δ → τ) (σ : HState ι δ) (P : Graph ι (Ref × δ)) (rs : List (StepRec ι (Ref × δ))) (σ' : HState ι δ)
    (P' : Graph ι (Ref × δ)) : Prop where
  pre : Pre κ σ' P'
  next : σ.next ≤ σ'.next
  frame : ∀ r, r < σ.next → σ'.cells r = σ.cells r
  fresh : FreshFrom σ.next P P'
  recs : ∀ r ∈ rs, RecAll (Sure σ' P') r

omit [DecidableEq ι] in
theorem mapResult_congr {f f' : Ref × δ → δ} (y : Option (List (TestResult ι (Ref × δ))))
    (h : ∀ q ∈ y.getD [], ∀ d, q.data = some d → f d = f' d) : mapResult f y = mapResult f' y := by
  cases y with
  | none => rfl
  | some l =>
    simp only [mapResult, Option.map_some, Option.some.injEq]
    exact List.map_congr_left (fun q hq => testResult_map_congr (h q hq))

theorem loopGo_done {κ : δ → τ} (ss : List (HStep ι δ)) (hs : ∀ s ∈ ss, s.inPlace = false ∧ Plain s.step)
    {exit : Graph ι δ → Option (List (TestResult ι δ)) → Nat → Except PyErr Bool} (he : ExitOk exit) (fuel n : Nat)
    (taken : Option (List (TestResult ι (Ref × δ)))) (σ : HState ι δ) (P : Graph ι (Ref × δ)) (h : Pre κ σ P)
    (ht : ∀ q ∈ taken.getD [], Sure σ P q) :
    Out (List.map (StepRec.map Prod.fst)) (List.map (StepRec.map Prod.snd)) (DoneLogic κ σ P)
      (loopGo ss exit fuel n (mapResult Prod.fst taken) σ)
      (Verif.loopGo (ss.map HStep.step) exit fuel n (mapResult Prod.snd taken) (P.map Prod.snd)) := by
  induction fuel generalizing n taken σ P with
  | zero => exact .inl ⟨.recursionError, rfl, rfl⟩
  | succ fuel ih =>
    unfold loopGo Verif.loopGo
    have e1 : mapResult σ.cells (mapResult Prod.fst taken) = mapResult Prod.snd taken := by
      rw [mapResult_mapResult]
      exact mapResult_congr taken (fun q hq d hd => (ht q hq d hd).2.1)
    rw [e1, he _ _ _ _ h.seen]
    cases exit (P.map Prod.snd) (mapResult Prod.snd taken) n with
    | error e => exact .inl ⟨e, rfl, rfl⟩
    | ok b =>
      cases b with
      | true =>
        exact .inr ⟨[], σ, P, rfl, rfl, h, Nat.le_refl _, fun _ _ => rfl, .refl _ _, fun _ h => absurd h List.not_mem_nil⟩
      | false =>
        have hv : ∀ g : Graph ι δ, (Verif.runInner false (ss.map HStep.step) >>= fun p =>
              Verif.loopGo (ss.map HStep.step) exit fuel (n + 1) (some p.2) >>= fun more => pure (p.1 ++ more)) g =
            (match Verif.runInner false (ss.map HStep.step) g with
            | (.error e, g') => (Except.error e, g')
            | (.ok (rs, ts), g') =>
              match Verif.loopGo (ss.map HStep.step) exit fuel (n + 1) (some ts) g' with
              | (.error e, g'') => (.error e, g'')
              | (.ok more, g'') => (.ok (rs ++ more), g'')) := by
          intro g
          rw [PyM.bind_run]
          generalize Verif.runInner false (ss.map HStep.step) g = x
          obtain ⟨e | ⟨rs, ts⟩, g'⟩ := x
          · rfl
          · simp only
            rw [PyM.bind_run]
            generalize Verif.loopGo (ss.map HStep.step) exit fuel (n + 1) (some ts) g' = y
            obtain ⟨e | more, g''⟩ := y <;> rfl
        have hv' := hv (P.map Prod.snd)
        simp only
        refine Eq.subst (motive := fun z => Out _ _ _ _ z) hv' ?_
        refine Out.bind (runInner_done false ss hs σ P h) (fun p σ1 P1 h1 => ?_)
        refine Out.bind (ih (n + 1) (some p.2) σ1 P1 h1.pre h1.ok) (fun more σ2 P2 h2 => ?_)
        refine .inr ⟨p.1 ++ more, σ2, P2, ?_, ?_, h2.pre, Nat.le_trans h1.next h2.next,
          fun r hr => (h2.frame r (Nat.lt_of_lt_of_le hr h1.next)).trans (h1.frame r hr), h1.fresh.trans h1.next h2.fresh, ?_⟩
        · simp only [mapInner, List.map_append]; rfl
        · simp only [mapInner, List.map_append]; rfl
        · intro r hr
          rcases List.mem_append.1 hr with hr | hr
          · exact ⟨fun q hq => ((h1.recs r hr).1 q hq).keep h2.next h2.frame h2.fresh,
              fun q hq => ((h1.recs r hr).2 q hq).keep h2.next h2.frame h2.fresh⟩
          · exact h2.recs r hr

theorem runTogether_done {κ : δ → τ} (ss : List (HStep ι δ)) (hs : ∀ s ∈ ss, s.inPlace = false ∧ Plain s.step)
    (σ : HState ι δ) (P : Graph ι (Ref × δ)) (h : Pre κ σ P) :
    Out (List.map (StepRec.map Prod.fst)) (List.map (StepRec.map Prod.snd)) (DoneLogic κ σ P)
      (runTogether ss σ) (Verif.runTogether (ss.map HStep.step) (P.map Prod.snd)) := by
  refine Out.bind (runInner_done true ss hs σ P h) (fun p σ1 P1 h1 => ?_)
  obtain ⟨rfl, hm, hp, hr⟩ := h1.inert rfl
  have ew : ∀ {β : Type} (f : Ref × δ → β), (mapInner f p).2.map (fun a => some [a]) =
      mapResults f (p.2.map (fun a => some [a])) := by
    intro β f
    simp only [mapInner, mapResults, List.map_map]
    rfl
  have ef : flatten (p.2.map (fun a => some [a])) = p.2 := by
    generalize p.2 = l
    induction l with
    | nil => rfl
    | cons a l ih => rw [List.map_cons, flatten_cons', ih]; rfl
  refine Out.bind (fA := mapPair Prod.fst) (fB := mapPair Prod.snd) (G := fun _ σ' P' => DoneLogic κ σ P1 p.1 σ' P') ?_ (fun x σ2 P2 h2 => ?_)
  · show Out _ _ _ (onG (takeAction false ((mapInner Prod.fst p).2.map (fun a => some [a]))) σ1)
      (takeAction false ((mapInner Prod.snd p).2.map (fun a => some [a])) (P1.map Prod.snd))
    rw [ew Prod.fst, ew Prod.snd]
    refine take_out false _ h1.pre.graph (fun t P' ht => ?_)
    rw [ef] at ht
    have hinv := (h.inv.frame h1.frame (Nat.le_refl _)).take hp h1.next hr
    obtain ⟨hF, hap⟩ := take_fresh h.inv hp hr
    rw [ht] at hinv hF hap
    have hex : ∀ q ∈ p.2, Sure { σ1 with graph := P'.map Prod.fst } P' q := fun q hq d hd =>
      ⟨(hp.data q hq d hd).2.1, (hp.data q hq d hd).2.2, fun hu => hap q hq hu d hd⟩
    exact ⟨⟨rfl, hinv⟩, h1.next, h1.frame, hF,
      fun r hr => ⟨fun q hq => hex q ((hm r hr).1 q hq), fun q hq => hex q ((hm r hr).2 q hq)⟩⟩
  · exact .inr ⟨p.1, σ2, P2, rfl, rfl, h2⟩

/-! ## steps that write into stored dictionaries -/

/-- what may change: existing dictionaries keep what `κ` keeps, those that are not stored in an edge do not change -/
structure Tr (κ : δ → τ) (σ : HState ι δ) (P : Graph ι (Ref × δ)) (σ' : HState ι δ) (P' : Graph ι (Ref × δ)) : Prop where
  next : σ.next ≤ σ'.next
  keep : ∀ r, r < σ.next → κ (σ'.cells r) = κ (σ.cells r)
  still : ∀ r, r < σ.next → (∀ a b e, P.edges.get2 a b = some e → r ≠ e.metadata.1) → σ'.cells r = σ.cells r
  fresh : FreshFrom σ.next P P'

/-- a recorded result: its data are what they were up to what `κ` forgets, exactly what they were unless it is an update -/
def KeptR (κ : δ → τ) (σ : HState ι δ) (P : Graph ι (Ref × δ)) (q : TestResult ι (Ref × δ)) : Prop :=
  ∀ d, q.data = some d → d.1 < σ.next ∧ κ (σ.cells d.1) = κ d.2 ∧
    (q.action.isUpdate = false → σ.cells d.1 = d.2 ∧ ∀ a b e, P.edges.get2 a b = some e → d.1 ≠ e.metadata.1)

theorem Sure.kept {κ : δ → τ} {σ : HState ι δ} {P : Graph ι (Ref × δ)} {q : TestResult ι (Ref × δ)} (h : Sure σ P q) :
    KeptR κ σ P q := fun d hd => ⟨(h d hd).1, by rw [(h d hd).2.1], fun hu => ⟨(h d hd).2.1, (h d hd).2.2 hu⟩⟩

theorem KeptR.tr {κ : δ → τ} {σ σ' : HState ι δ} {P P' : Graph ι (Ref × δ)} {q : TestResult ι (Ref × δ)} (h : KeptR κ σ P q)
    (ht : Tr κ σ P σ' P') : KeptR κ σ' P' q := by
  intro d hd
  obtain ⟨h1, h2, h3⟩ := h d hd
  refine ⟨Nat.lt_of_lt_of_le h1 ht.next, (ht.keep _ h1).trans h2, fun hu => ?_⟩
  obtain ⟨h4, h5⟩ := h3 hu
  refine ⟨(ht.still _ h1 h5).trans h4, fun a b e he hx => ?_⟩
  rcases ht.fresh a b e he with ⟨e0, he0, hm⟩ | hm
  · exact h5 a b e0 he0 (by rw [hx, hm])
  · exact ref_ne h1 hm hx

theorem Tr.trans {κ : δ → τ} {σ σ1 σ2 : HState ι δ} {P P1 P2 : Graph ι (Ref × δ)} (h1 : Tr κ σ P σ1 P1) (h2 : Tr κ σ1 P1 σ2 P2) :
    Tr κ σ P σ2 P2 where
  next := Nat.le_trans h1.next h2.next
  keep := fun r hr => (h2.keep r (Nat.lt_of_lt_of_le hr h1.next)).trans (h1.keep r hr)
  still := by
    intro r hr hs
    refine (h2.still r (Nat.lt_of_lt_of_le hr h1.next) (fun a b e he hx => ?_)).trans (h1.still r hr hs)
    rcases h1.fresh a b e he with ⟨e0, he0, hm⟩ | hm
    · exact hs a b e0 he0 (by rw [hx, hm])
    · exact ref_ne hr hm hx
  fresh := h1.fresh.trans h1.next h2.fresh

theorem Tr.refl (κ : δ → τ) (σ : HState ι δ) (P : Graph ι (Ref × δ)) : Tr κ σ P σ P :=
  ⟨Nat.le_refl _, fun _ _ => rfl, fun _ _ _ => rfl, .refl _ _⟩

theorem get2_purge_sub {α : Type} {P : Graph ι α} (h : WF0 P) {a b : ι} {e : Edge ι α}
    (he : (Graph.purge P).2.edges.get2 a b = some e) : P.edges.get2 a b = some e ∧ e.deleted = false := by
  rw [purge_run h, get2_purgeG] at he
  cases hp : P.edges.get2 a b with
  | none => rw [hp] at he; cases he
  | some e0 =>
    rw [hp] at he
    simp only at he
    split at he
    · cases he
    · rename_i hd
      injection he with he
      subst he
      exact ⟨rfl, by simpa using hd⟩

theorem fresh_purge (n : Ref) {P : Graph ι (Ref × δ)} (h : WF0 P) : FreshFrom n P (Graph.purge P).2 :=
  fun _ _ e he => .inl ⟨e, (get2_purge_sub h he).1, rfl⟩

theorem directed_map {α β : Type} (f : α → β) {P : Graph ι α} (h : WF0 P) (a b : ι) :
    (P.map f).directedEdgeExists a b = P.live a b := by
  rw [directedEdgeExists_map, directedEdgeExists_eq h]

/-- the state after a step that writes into stored dictionaries; only removing the soft-deleted edges restores the invariant -/
structure DoneHalf (κ : δ → τ) (σ : HState ι δ) (P : Graph ι (Ref × δ))
    (p : List (TestResult ι (Ref × δ)) × List (TestResult ι (Ref × δ))) (σ' : HState ι δ) (P' : Graph ι (Ref × δ)) : Prop where
  graph : P'.map Prod.fst = σ'.graph
  wf : WF0 P'
  inv : Inv κ σ'.cells σ'.next (Graph.purge P').2
  tr : Tr κ σ P σ' P'
  ok1 : ∀ q ∈ p.1, KeptR κ σ' P' q
  ok2 : ∀ q ∈ p.2, KeptR κ σ' P' q

theorem writes_done {κ : δ → τ} {τ' : Type} {κ' : δ → τ'} {s : HStep ι δ} (hi : s.inPlace = true) (hs : WritesKey κ' s.step)
    (hκ : ∀ a b, κ' a = κ' b → κ a = κ b) (σ : HState ι δ) (P : Graph ι (Ref × δ)) (h : Pre κ σ P) :
    Out (mapPair Prod.fst) (mapPair Prod.snd) (DoneHalf κ σ P) (s.execute false σ) (s.step.execute false (P.map Prod.snd)) := by
  unfold HStep.execute Step.execute
  rw [hs.gen _ _ h.seen]
  cases hg : s.step.gen (P.map Prod.snd) with
  | error e => exact .inl ⟨e, rfl, rfl⟩
  | ok ts =>
    have hforce : Graph.forceOn σ.deref ts = Graph.forceOn (P.map Prod.snd) ts := by
      unfold Graph.forceOn
      refine List.flatMap_congr (fun t ht => ?_)
      exact hs.thunk _ ts hg t ht _ _ h.seen
    simp only
    have hn1 : ¬ s.step.chunked = true := by rw [hs.unchunked]; simp
    have hn2 : ¬ s.step.applySync = true := by rw [hs.notSync]; simp
    simp only [if_neg hn1, if_neg hn2]
    rw [hforce, PyM.bind_run]
    generalize hit : Graph.forceOn (P.map Prod.snd) ts = items
    -- what a written dictionary contains
    have hwrote : ∀ (A : Results ι (Ref × δ)) (σ1 : HState ι δ), Ev true σ σ1 (flatten A) →
        (∀ q ∈ flatten A, From (fun c => Yield.single c ∈ items) s.step (P.map Prod.snd) q) → ∀ r, r < σ.next → σ1.cells r = σ.cells r ∨
          ∃ q ∈ flatten A, ∃ e, P.edges.get2 q.u q.v = some e ∧ e.metadata.1 = r ∧ κ' (σ1.cells r) = κ' (σ.cells r) ∧
            ((q.action = .updateEdge ∧ (P.live q.u q.v = true ∨ P.live q.v q.u = true)) ∨
              (q.action = .updateEdgeDirected ∧ P.live q.u q.v = true ∧ P.live q.v q.u = false)) ∧
            ∃ d, q.data = some d := by
      intro A σ1 he hF r hr
      rcases he.old r hr with hx | ⟨_, q, hq, e, d, hge, hm, hd, hc⟩
      · exact .inl hx
      · rw [← h.graph] at hge
        simp only [Graph.map, Dict.get2_map, Option.map_eq_some_iff] at hge
        obtain ⟨e0, he0, rfl⟩ := hge
        obtain ⟨c, loc, l, hC, hp, hml⟩ := hF q hq
        obtain ⟨m, e1, hmd, he1, hk, hact⟩ := hs.updates c _ ts loc l hg (by rw [hit]; exact hC) hp _ hml
        simp only [TestResult.map, hd, Option.map_some, Option.some.injEq] at hmd
        subst hmd
        simp only [Graph.map, Dict.get2_map, Option.map_eq_some_iff] at he1
        obtain ⟨e1', he1', rfl⟩ := he1
        have : e1' = e0 := by
          have h2 : P.edges.get2 q.u q.v = some e1' := he1'
          rw [he0] at h2
          injection h2 with h2
          exact h2.symm
        subst this
        refine .inr ⟨q, hq, e1', he0, hm, ?_, ?_, d, hd⟩
        · rw [hc]
          refine hk.trans ?_
          show κ' e1'.metadata.2 = _
          rw [← h.inv.exact _ _ _ he0]
          have hm' : e1'.metadata.1 = r := hm
          rw [hm']
        · rcases hact with ⟨h1, h2⟩ | ⟨h1, h2, h3⟩
          · refine .inl ⟨h1, ?_⟩
            rw [edgeExists_map, edgeExists_eq h.inv.wf, Bool.or_eq_true] at h2
            exact h2
          · rw [directed_map _ h.inv.wf] at h2 h3
            exact .inr ⟨h1, h2, h3⟩
    have hupd : ∀ (A : Results ι (Ref × δ)), (∀ q ∈ flatten A, From (fun c => Yield.single c ∈ items) s.step (P.map Prod.snd) q) → ∀ q ∈ flatten A,
        (Fits P q ∧ ∃ d, q.data = some d) ∧ q.action.isUpdate = true := by
      intro A hF q hq
      obtain ⟨c, loc, l, hC, hp, hml⟩ := hF q hq
      obtain ⟨m, e1, hmd, he1, hk, hact⟩ := hs.updates c _ ts loc l hg (by rw [hit]; exact hC) hp _ hml
      simp only [TestResult.map, Option.map_eq_some_iff] at hmd
      obtain ⟨d, hd, _⟩ := hmd
      rcases hact with ⟨h1, h2⟩ | ⟨h1, h2, h3⟩
      · rw [edgeExists_map, edgeExists_eq h.inv.wf, Bool.or_eq_true] at h2
        have h1' : q.action = .updateEdge := h1
        exact ⟨⟨.inl ⟨h1', h2⟩, d, hd⟩, by rw [h1']; rfl⟩
      · rw [directed_map _ h.inv.wf] at h2
        have h1' : q.action = .updateEdgeDirected := h1
        exact ⟨⟨.inr ⟨h1', h2⟩, d, hd⟩, by rw [h1']; rfl⟩
    have hproc : ∀ (A : Results ι (Ref × δ)) (σ1 : HState ι δ) (c : List ι), Ev s.inPlace σ σ1 (flatten A) →
        (∀ q ∈ flatten A, From (fun c => Yield.single c ∈ items) s.step (P.map Prod.snd) q) →
        s.step.process c σ1.deref ((if s.step.needsUnapplied then some (mapResults Prod.fst A) else none).map (mapResults σ1.cells)) =
          s.step.process c (P.map Prod.snd) (if s.step.needsUnapplied then some (mapResults Prod.snd A) else none) := by
      intro A σ1 c he hF
      rw [hi] at he
      have hn : ¬ s.step.needsUnapplied = true := by rw [hs.noPending]; simp
      rw [if_neg hn, if_neg hn]
      refine hs.process _ _ c _ ?_
      have hd : σ1.deref = P.map (σ1.cells ∘ Prod.fst) := by
        rw [HState.deref, he.graph, ← h.graph, Graph.map_map]
      rw [hd]
      refine ⟨by rw [Graph.map_map, Graph.map_map]; rfl, ?_, ?_⟩
      · intro u v e e' h1 h2
        simp only [Graph.map, Dict.get2_map, Option.map_eq_some_iff] at h1 h2
        obtain ⟨e0, h0, rfl⟩ := h1
        obtain ⟨e1, h1, rfl⟩ := h2
        rw [h0] at h1
        injection h1 with h1
        subst h1
        show κ' (σ1.cells e0.metadata.1) = κ' e0.metadata.2
        rw [← h.inv.exact u v e0 h0]
        rcases hwrote A σ1 he hF _ (h.inv.all.edge h0).1 with hx | ⟨_, _, _, _, _, hx, _⟩
        · rw [hx]
        · exact hx
      · intro u v a ha
        rw [retrieve_map, retrieve_map]
        refine List.map_congr_left (fun r hr => testResult_map_congr (fun d hd => ?_))
        unfold retrieveEdgeHistory at hr
        cases hl : P.hist.get? (u, v) with
        | none => rw [hl] at hr; cases hr
        | some l =>
          rw [hl] at hr
          simp only [List.mem_filter, decide_eq_true_eq] at hr
          have hu : r.action.isUpdate = false := by rw [hr.2]; exact ha
          have hold := h.inv.recExact _ l r d hl hr.1 hu hd
          show σ1.cells d.1 = d.2
          rw [← hold]
          rcases hwrote A σ1 he hF _ (h.inv.all.record hl hr.1 d hd).1 with hx | ⟨q, _, e, hge, hm, _⟩
          · exact hx
          · exact (h.inv.apart _ l r d _ _ e hl hr.1 hu hd hge hm.symm).elim
    rcases evalSeq_spec _ s (P.map Prod.snd) h.stored hproc items (fun _ hc => hc) [] σ
      (.refl _ _) (fun _ h => absurd h List.not_mem_nil) with ⟨e, h1, h2⟩ | ⟨A, σ1, h1, h2, h3, h4⟩
    · have h1' : (s.evalSeq items [] σ).1 = .error e := h1
      have h2' : s.step.evalSeq (P.map Prod.snd) items [] = .error e := h2
      rw [h2']
      refine .inl ⟨e, ?_, rfl⟩
      generalize s.evalSeq items [] σ = x at h1'
      obtain ⟨x1, x2⟩ := x
      simp only at h1'
      subst h1'
      rfl
    · have h1' : s.evalSeq items [] σ = (.ok (mapResults Prod.fst A), σ1) := h1
      have h2' : s.step.evalSeq (P.map Prod.snd) items [] = .ok (mapResults Prod.snd A) := h2
      rw [h1', h2']
      rw [hi] at h3
      have hw := hwrote A σ1 h3 h4
      have hU := hupd A h4
      have hr : NoRes (flatten A) := by
        intro q hq
        have := (hU q hq).2
        cases ha : q.action <;> rw [ha] at this <;> first | rfl | cases this
      refine take_out false A (h.graph.trans h3.graph.symm) (fun t P' ht => ?_)
      -- the old contents, and the new dictionaries
      let c0 : Ref → δ := fun r => if r < σ.next then σ.cells r else σ1.cells r
      have hc0 : ∀ r, r < σ.next → c0 r = σ.cells r := fun r hr => if_pos hr
      have hc1 : ∀ r, σ.next ≤ r → c0 r = σ1.cells r := fun r hr => if_neg (Nat.not_lt.2 hr)
      have hpend : Pend c0 σ.next σ1.next (flatten A) := h3.pend.frame (fun r h1 _ => hc1 r h1)
      have hinv := (h.inv.frame hc0 (Nat.le_refl _)).take hpend h3.next hr
      obtain ⟨hE, hR⟩ := takeItems_from h.inv.wf (flatten A) hr
      obtain ⟨hF, _⟩ := take_fresh h.inv h3.pend hr
      have hlive : ∀ a b, P'.live a b = P.live a b := by
        have := takeItems_inv (g := P) (fun g => WF0 g ∧ ∀ a b, g.live a b = P.live a b) (flatten A)
          (fun q hq g hg => ⟨applyOne_wf hg.1, fun a b => (applyOne_update_live hg.1 (hU q hq).2 a b).trans (hg.2 a b)⟩)
          ⟨h.inv.wf, fun _ _ => rfl⟩
        rw [ht] at this
        exact this.2
      have hcov := fun a b e => takeItems_covers h.inv.wf (flatten A) (fun q hq => (hU q hq).1) ht (a := a) (b := b) (e := e)
      rw [ht] at hinv hE hR hF
      simp only at hinv hE hR hF
      have hkeep : ∀ r, r < σ.next → κ (σ1.cells r) = κ (σ.cells r) := by
        intro r hr
        rcases hw r hr with hx | ⟨_, _, _, _, _, hx, _⟩
        · rw [hx]
        · exact hκ _ _ hx
      have hnear : ∀ r, κ (σ1.cells r) = κ (c0 r) := by
        intro r
        by_cases hlt : r < σ.next
        · rw [hc0 r hlt]; exact hkeep r hlt
        · rw [hc1 r (Nat.le_of_not_lt hlt)]
      have hstill : ∀ r, r < σ.next → (∀ a b e, P.edges.get2 a b = some e → r ≠ e.metadata.1) → σ1.cells r = σ.cells r := by
        intro r hr hst
        rcases hw r hr with hx | ⟨q, _, e, hge, hm, _⟩
        · exact hx
        · exact (hst _ _ e hge hm.symm).elim
      have hpinv := hinv.purge
      refine ⟨rfl, hinv.wf, ?_, ⟨h3.next, hkeep, hstill, hF⟩, ?_, ?_⟩
      · refine ⟨hpinv.wf, hpinv.all.mono (fun p hp => ⟨hp.1, by rw [hnear]; exact hp.2⟩), ?_, ?_, hpinv.share, hpinv.apart⟩
        · intro a b e he
          have hx := hpinv.exact a b e he
          show σ1.cells e.metadata.1 = e.metadata.2
          rw [← hx]
          by_cases hlt : e.metadata.1 < σ.next
          · rw [hc0 _ hlt]
            rcases hw _ hlt with hy | ⟨q, hq, e1, hge, hm, _, hact, _⟩
            · exact hy
            · exfalso
              obtain ⟨he', hdel⟩ := get2_purge_sub hinv.wf he
              -- a covered edge got a new dictionary
              have hnc : ¬ ∃ r ∈ flatten A, Covers r a b := by
                intro hc
                obtain ⟨r, hr, _, hd⟩ := hcov a b e hc he'
                exact ref_ne hlt (h3.pend.data r hr _ hd).1 rfl
              obtain ⟨e2, he2, hx | ⟨r, hr, hc, _⟩⟩ := hE a b e he'
              · have hsh := h.inv.share _ _ e1 _ _ e2 hge he2 (by rw [hm, hx])
                rcases hsh with ⟨hqa, hqb⟩ | ⟨hqa, hqb⟩
                · exact hnc ⟨q, hq, .inl ⟨(hU q hq).2, hqa, hqb⟩⟩
                · rcases hact with ⟨h1, _⟩ | ⟨_, _, h1⟩
                  · exact hnc ⟨q, hq, .inr ⟨h1, hqa, hqb⟩⟩
                  · rw [hqa, hqb, ← hlive] at h1
                    unfold live at h1
                    rw [he'] at h1
                    simp [hdel] at h1
              · exact hnc ⟨r, hr, hc⟩
          · exact (hc1 _ (Nat.le_of_not_lt hlt)).symm
        · intro k l r d hl hm hu hd
          have hx := hpinv.recExact k l r d hl hm hu hd
          show σ1.cells d.1 = d.2
          rw [← hx]
          rw [purge_run hinv.wf, show (purgeG P').hist = P'.hist from hist_purgeG] at hl
          rcases hR k l r hl hm with ⟨l0, hl0, hm0⟩ | hm0
          · have hlt := (h.inv.all.record hl0 hm0 d hd).1
            rw [hc0 _ hlt]
            exact hstill _ hlt (fun a b e he => h.inv.apart k l0 r d a b e hl0 hm0 hu hd he)
          · rw [(hU r hm0).2] at hu; cases hu
      · intro q hq d hd
        have hq' := takeItems_sub _ ht q hq
        refine ⟨(h3.pend.data q hq' d hd).2.1, by rw [show ({ σ1 with graph := P'.map Prod.fst } : HState ι δ).cells = σ1.cells from rfl, (h3.pend.data q hq' d hd).2.2], fun hu => ?_⟩
        rw [(hU q hq').2] at hu
        cases hu
      · intro q hq d hd
        refine ⟨(h3.pend.data q hq d hd).2.1, by rw [show ({ σ1 with graph := P'.map Prod.fst } : HState ι δ).cells = σ1.cells from rfl, (h3.pend.data q hq d hd).2.2], fun hu => ?_⟩
        rw [(hU q hq).2] at hu
        cases hu

end Heap
end Verif
