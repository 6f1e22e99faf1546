import Verif.Heap.Lemmas2

/-!
# Helper lemmas: steps with references follow steps with values
-/

namespace Verif
namespace Heap
open Graph
variable {ι δ τ : Type} [DecidableEq ι]

/-! ## evaluating `process` -/

/-- the dictionary `r` is stored and got the data of a result -/
def Wrote (G : Graph ι Ref) (rs : List (TestResult ι (Ref × δ))) (c : Ref → δ) (r : Ref) : Prop :=
  ∃ q ∈ rs, ∃ e d, G.edges.get2 q.u q.v = some e ∧ e.metadata = r ∧ q.data = some d ∧ c r = d.2

/-- the dictionaries of the stored edges exist -/
def Stored (σ : HState ι δ) : Prop := ∀ a b e, σ.graph.edges.get2 a b = some e → e.metadata < σ.next

/-- between `σ` and `σ'` the results `rs` were created, and nothing else happened except writing them back -/
structure Ev (ip : Bool) (σ σ' : HState ι δ) (rs : List (TestResult ι (Ref × δ))) : Prop where
  graph : σ'.graph = σ.graph
  next : σ.next ≤ σ'.next
  pend : Pend σ'.cells σ.next σ'.next rs
  old : ∀ r, r < σ.next → σ'.cells r = σ.cells r ∨ (ip = true ∧ Wrote σ.graph rs σ'.cells r)

theorem Ev.refl (ip : Bool) (σ : HState ι δ) : Ev ip σ σ [] := ⟨rfl, Nat.le_refl _, .nil _ _ _, fun _ _ => .inl rfl⟩

theorem Ev.trans {ip : Bool} {σ σ1 σ2 : HState ι δ} {A B : List (TestResult ι (Ref × δ))} (hs : Stored σ) (h1 : Ev ip σ σ1 A)
    (h2 : Ev ip σ1 σ2 B) : Ev ip σ σ2 (A ++ B) where
  graph := h2.graph.trans h1.graph
  next := Nat.le_trans h1.next h2.next
  pend := h1.pend.append h2.pend (by
    intro r hlo hr
    rcases h2.old r hr with h | ⟨_, q, _, e, d, he, hm, _⟩
    · exact h
    · rw [h1.graph] at he
      exact (ref_ne (hs _ _ _ he) hlo hm).elim) h1.next h2.next
  old := by
    intro r hr
    rcases h2.old r (Nat.lt_of_lt_of_le hr h1.next) with h | ⟨hip, q, hq, e, d, he, hm, hd, hc⟩
    · rcases h1.old r hr with h' | ⟨hip, q, hq, e, d, he, hm, hd, hc⟩
      · exact .inl (h.trans h')
      · exact .inr ⟨hip, q, List.mem_append_left _ hq, e, d, he, hm, hd, h.trans hc⟩
    · rw [h1.graph] at he
      exact .inr ⟨hip, q, List.mem_append_right _ hq, e, d, he, hm, hd, hc⟩

theorem newResult_spec (ip : Bool) (r : TestResult ι δ) {σ : HState ι δ} (hs : Stored σ) :
    ∃ q : TestResult ι (Ref × δ), q.map Prod.fst = (newResult r (if ip then writeBack r σ else σ)).1 ∧ q.map Prod.snd = r ∧
      Ev ip σ (newResult r (if ip then writeBack r σ else σ)).2 [q] := by
  obtain ⟨u, v, a, d⟩ := r
  cases d with
  | none =>
    have hw : writeBack ⟨u, v, a, none⟩ σ = σ := rfl
    refine ⟨⟨u, v, a, none⟩, ?_, rfl, ?_⟩
    · cases ip <;> rfl
    · have : (newResult (⟨u, v, a, none⟩ : TestResult ι δ) (if ip then writeBack ⟨u, v, a, none⟩ σ else σ)).2 = σ := by
        cases ip <;> rfl
      rw [this]
      refine ⟨rfl, Nat.le_refl _, ⟨?_, ?_⟩, fun _ _ => .inl rfl⟩
      · intro r hr d hd
        rw [List.mem_singleton.1 hr] at hd
        cases hd
      · intro r hr r' hr' _ _ _ _ _
        rw [List.mem_singleton.1 hr, List.mem_singleton.1 hr']
  | some m =>
    have key : ∀ σ1 : HState ι δ, σ1.graph = σ.graph → σ1.next = σ.next →
        (∀ r, r < σ.next → σ1.cells r = σ.cells r ∨ (ip = true ∧ ∃ e, σ.graph.edges.get2 u v = some e ∧ e.metadata = r ∧
          σ1.cells r = m)) →
        ∃ q : TestResult ι (Ref × δ), q.map Prod.fst = (newResult ⟨u, v, a, some m⟩ σ1).1 ∧ q.map Prod.snd = ⟨u, v, a, some m⟩ ∧
          Ev ip σ (newResult ⟨u, v, a, some m⟩ σ1).2 [q] := by
      intro σ1 hg hn hc
      refine ⟨⟨u, v, a, some (σ1.next, m)⟩, rfl, rfl, hg, ?_, ⟨?_, ?_⟩, ?_⟩
      · show σ.next ≤ σ1.next + 1
        rw [hn]; exact Nat.le_succ _
      · intro r hr d hd
        rw [List.mem_singleton.1 hr] at hd
        injection hd with hd
        subst hd
        refine ⟨Nat.le_of_eq hn.symm, Nat.lt_succ_self _, ?_⟩
        show poke σ1.cells σ1.next m σ1.next = m
        exact if_pos rfl
      · intro r hr r' hr' _ _ _ _ _
        rw [List.mem_singleton.1 hr, List.mem_singleton.1 hr']
      · intro r hr
        have hne : r ≠ σ1.next := by rw [hn]; exact Nat.ne_of_lt hr
        have hp : (newResult (⟨u, v, a, some m⟩ : TestResult ι δ) σ1).2.cells r = σ1.cells r := if_neg hne
        rcases hc r hr with h | ⟨hip, e, he, hm, hx⟩
        · exact .inl (hp.trans h)
        · exact .inr ⟨hip, _, List.mem_singleton.2 rfl, e, _, he, hm, rfl, hp.trans hx⟩
    cases ip with
    | false => exact key σ rfl rfl (fun _ _ => .inl rfl)
    | true =>
      refine key (writeBack ⟨u, v, a, some m⟩ σ) ?_ ?_ ?_
      · unfold writeBack
        split <;> rfl
      · unfold writeBack
        split <;> rfl
      · intro r hr
        unfold writeBack
        cases he : σ.graph.edges.get2 u v with
        | none => exact .inl rfl
        | some e =>
          simp only
          by_cases h : r = e.metadata
          · refine .inr ⟨by first | rfl | trivial, e, rfl, h.symm, if_pos h⟩
          · exact .inl (if_neg h)

theorem Stored.ev {ip : Bool} {σ σ' : HState ι δ} {rs : List (TestResult ι (Ref × δ))} (h : Stored σ) (he : Ev ip σ σ' rs) :
    Stored σ' := by
  intro a b e h'
  rw [he.graph] at h'
  exact Nat.lt_of_lt_of_le (h a b e h') he.next

theorem newResults_spec (ip : Bool) (rs : List (TestResult ι δ)) {σ : HState ι δ} (hs : Stored σ) :
    ∃ Q : List (TestResult ι (Ref × δ)), Q.map (TestResult.map Prod.fst) = (newResults ip rs σ).1 ∧
      Q.map (TestResult.map Prod.snd) = rs ∧ Ev ip σ (newResults ip rs σ).2 Q := by
  induction rs generalizing σ with
  | nil => exact ⟨[], rfl, rfl, .refl _ _⟩
  | cons r rs ih =>
    obtain ⟨q, h1, h2, h3⟩ := newResult_spec ip r hs
    obtain ⟨Q, h4, h5, h6⟩ := ih (hs.ev h3)
    refine ⟨q :: Q, ?_, ?_, h3.trans hs h6⟩
    · rw [List.map_cons, h1, h4]; rfl
    · rw [List.map_cons, h2, h5]

/-- `q` is what `process` returned for one of the combinations `C` on the graph with values -/
def From (C : List ι → Prop) (s : Step ι δ) (g : Graph ι δ) (q : TestResult ι (Ref × δ)) : Prop :=
  ∃ c loc rs, C c ∧ s.process c g loc = .ok (some rs) ∧ q.map Prod.snd ∈ rs

/-- one call of `process` -/
theorem eval_spec (C : List ι → Prop) (s : HStep ι δ) (c : List ι) (loc : Option (Results ι Ref)) (lv : Option (Results ι δ)) (g : Graph ι δ)
    {σ : HState ι δ} (hs : Stored σ)
    (hC : C c)
    (hp : s.step.process c σ.deref (loc.map (mapResults σ.cells)) = s.step.process c g lv) :
    (∃ e, (s.eval c loc σ).1 = .error e ∧ s.step.process c g lv = .error e) ∨
    ∃ (Y : Option (List (TestResult ι (Ref × δ)))) (σ' : HState ι δ), s.eval c loc σ = (.ok (mapResult Prod.fst Y), σ') ∧
      s.step.process c g lv = .ok (mapResult Prod.snd Y) ∧ Ev s.inPlace σ σ' (Y.getD []) ∧
      ∀ q ∈ Y.getD [], From C s.step g q := by
  unfold HStep.eval
  rw [hp]
  cases hx : s.step.process c g lv with
  | error e => exact .inl ⟨e, rfl, rfl⟩
  | ok o =>
    cases o with
    | none => exact .inr ⟨none, σ, rfl, rfl, .refl _ _, fun q hq => absurd hq List.not_mem_nil⟩
    | some rs =>
      obtain ⟨Q, h1, h2, h3⟩ := newResults_spec s.inPlace rs hs
      refine .inr ⟨some Q, _, ?_, ?_, h3, ?_⟩
      · simp only [mapResult, Option.map_some, h1]
      · simp only [mapResult, Option.map_some, h2]
      · intro q hq
        refine ⟨c, lv, rs, hC, hx, ?_⟩
        rw [← h2]
        exact List.mem_map_of_mem hq

omit [DecidableEq ι] in
theorem flatten_append (A B : Results ι δ) : flatten (A ++ B) = flatten A ++ flatten B := by
  simp [flatten]

omit [DecidableEq ι] in
theorem flatten_one (y : Option (List (TestResult ι δ))) : flatten [y] = y.getD [] := by
  cases y <;> simp [flatten]

omit [DecidableEq ι] in
theorem flatten_cons' (y : Option (List (TestResult ι δ))) (A : Results ι δ) : flatten (y :: A) = y.getD [] ++ flatten A := by
  rw [← flatten_one, ← flatten_append]; rfl

/-- the unchunked loop -/
theorem evalSeq_spec (C : List ι → Prop) (s : HStep ι δ) (g : Graph ι δ) {σ0 : HState ι δ} (hs : Stored σ0)
    (hproc : ∀ (A : Results ι (Ref × δ)) (σ : HState ι δ) (c : List ι), Ev s.inPlace σ0 σ (flatten A) →
      (∀ q ∈ flatten A, From C s.step g q) →
      s.step.process c σ.deref ((if s.step.needsUnapplied then some (mapResults Prod.fst A) else none).map (mapResults σ.cells)) =
        s.step.process c g (if s.step.needsUnapplied then some (mapResults Prod.snd A) else none))
    (ys : List (Yield ι)) (hC : ∀ c, Yield.single c ∈ ys → C c) (A : Results ι (Ref × δ)) (σ : HState ι δ) (hA : Ev s.inPlace σ0 σ (flatten A))
    (hF : ∀ q ∈ flatten A, From C s.step g q) :
    (∃ e, (s.evalSeq ys (mapResults Prod.fst A) σ).1 = .error e ∧ s.step.evalSeq g ys (mapResults Prod.snd A) = .error e) ∨
    ∃ (A' : Results ι (Ref × δ)) (σ' : HState ι δ), s.evalSeq ys (mapResults Prod.fst A) σ = (.ok (mapResults Prod.fst A'), σ') ∧
      s.step.evalSeq g ys (mapResults Prod.snd A) = .ok (mapResults Prod.snd A') ∧ Ev s.inPlace σ0 σ' (flatten A') ∧
      ∀ q ∈ flatten A', From C s.step g q := by
  induction ys generalizing A σ with
  | nil => exact .inr ⟨A, σ, rfl, rfl, hA, hF⟩
  | cons y ys ih =>
    have e1 : s.evalSeq (y :: ys) (mapResults Prod.fst A) σ = (s.evalOne y (mapResults Prod.fst A) >>= fun r =>
      s.evalSeq ys (mapResults Prod.fst A ++ [r])) σ := rfl
    rw [e1, PyM.bind_run]
    cases y with
    | chunk cs => exact .inl ⟨.typeError, rfl, rfl⟩
    | single c =>
      have e2 : s.evalOne (.single c) (mapResults Prod.fst A) σ =
        s.eval c (if s.step.needsUnapplied then some (mapResults Prod.fst A) else none) σ := rfl
      rw [e2]
      rcases eval_spec C s c _ _ g (hs.ev hA) (hC c List.mem_cons_self) (hproc A σ c hA hF) with ⟨e, h1, h2⟩ | ⟨Y, σ1, h1, h2, h3, h4⟩
      · refine .inl ⟨e, ?_, ?_⟩
        · generalize s.eval c (if s.step.needsUnapplied then some (mapResults Prod.fst A) else none) σ = x at h1
          obtain ⟨x1, x2⟩ := x
          simp only at h1
          subst h1
          rfl
        · simp only [Step.evalSeq, Step.evalOne, h2]
      · have hE : Ev s.inPlace σ0 σ1 (flatten (A ++ [Y])) := by
          rw [flatten_append, flatten_one]
          exact hA.trans hs h3
        have hF' : ∀ q ∈ flatten (A ++ [Y]), From C s.step g q := by
          intro q hq
          rw [flatten_append, flatten_one, List.mem_append] at hq
          exact hq.elim (hF q) (h4 q)
        have := ih (fun c hc => hC c (List.mem_cons_of_mem _ hc)) (A ++ [Y]) σ1 hE hF'
        have ef : ∀ (f : Ref × δ → Ref), mapResults f (A ++ [Y]) = mapResults f A ++ [mapResult f Y] := fun f => by
          simp [mapResults]
        have es : ∀ (f : Ref × δ → δ), mapResults f (A ++ [Y]) = mapResults f A ++ [mapResult f Y] := fun f => by
          simp [mapResults]
        rw [ef, es] at this
        simp only [h1]
        have e3 : s.step.evalSeq g (.single c :: ys) (mapResults Prod.snd A) =
            s.step.evalSeq g ys (mapResults Prod.snd A ++ [mapResult Prod.snd Y]) := by
          simp only [Step.evalSeq, Step.evalOne, h2]
        rw [e3]
        exact this

/-! ## the relation between the two runs -/

/-- the two runs are at corresponding points: `P` is the graph of pairs, its second components are the graph with values -/
structure Pre (κ : δ → τ) (σ : HState ι δ) (P : Graph ι (Ref × δ)) : Prop where
  graph : P.map Prod.fst = σ.graph
  inv : Inv κ σ.cells σ.next P

theorem Pre.stored {κ : δ → τ} {σ : HState ι δ} {P : Graph ι (Ref × δ)} (h : Pre κ σ P) : Stored σ := by
  intro a b e he
  rw [← h.graph] at he
  simp only [Graph.map, Dict.get2_map, Option.map_eq_some_iff] at he
  obtain ⟨e', he', rfl⟩ := he
  exact (h.inv.all.edge he').1

theorem Pre.deref {κ : δ → τ} {σ : HState ι δ} {P : Graph ι (Ref × δ)} (h : Pre κ σ P) :
    σ.deref = P.map (σ.cells ∘ Prod.fst) := by
  rw [HState.deref, ← h.graph, Graph.map_map]

theorem Pre.seen {κ : δ → τ} {σ : HState ι δ} {P : Graph ι (Ref × δ)} (h : Pre κ σ P) : Seen id σ.deref (P.map Prod.snd) := by
  rw [h.deref]; exact h.inv.seen

theorem Pre.ev {κ : δ → τ} {σ σ' : HState ι δ} {P : Graph ι (Ref × δ)} {rs : List (TestResult ι (Ref × δ))} (h : Pre κ σ P)
    (he : Ev false σ σ' rs) : Pre κ σ' P where
  graph := h.graph.trans he.graph.symm
  inv := h.inv.frame (fun r hr => (he.old r hr).elim id (fun h => by cases h.1)) he.next

/-- two outcomes: the same exception, or corresponding results and states -/
def Out {X A B : Type} (fA : X → A) (fB : X → B) (Good : X → HState ι δ → Graph ι (Ref × δ) → Prop)
    (h : Except PyErr A × HState ι δ) (v : Except PyErr B × Graph ι δ) : Prop :=
  (∃ e, h.1 = .error e ∧ v.1 = .error e) ∨
    ∃ x σ' P', h = (.ok (fA x), σ') ∧ v = (.ok (fB x), P'.map Prod.snd) ∧ Good x σ' P'

omit [DecidableEq ι] in
theorem Out.bind {X A B X' A' B' : Type} {fA : X → A} {fB : X → B} {fA' : X' → A'} {fB' : X' → B'}
    {G : X → HState ι δ → Graph ι (Ref × δ) → Prop} {G' : X' → HState ι δ → Graph ι (Ref × δ) → Prop}
    {m : PyM (HState ι δ) A} {k : A → PyM (HState ι δ) A'} {m' : PyM (Graph ι δ) B} {k' : B → PyM (Graph ι δ) B'}
    {σ : HState ι δ} {g : Graph ι δ} (h : Out fA fB G (m σ) (m' g))
    (hk : ∀ x σ' P', G x σ' P' → Out fA' fB' G' (k (fA x) σ') (k' (fB x) (P'.map Prod.snd))) :
    Out fA' fB' G' ((m >>= k) σ) ((m' >>= k') g) := by
  rw [PyM.bind_run, PyM.bind_run]
  rcases h with ⟨e, h1, h2⟩ | ⟨x, σ', P', h1, h2, h3⟩
  · generalize m σ = y at h1
    generalize m' g = y' at h2
    obtain ⟨y1, y2⟩ := y
    obtain ⟨z1, z2⟩ := y'
    simp only at h1 h2
    subst h1 h2
    exact .inl ⟨e, rfl, rfl⟩
  · rw [h1, h2]
    exact hk x σ' P' h3

/-- a result that was recorded and not changed since -/
def Sure (σ : HState ι δ) (P : Graph ι (Ref × δ)) (q : TestResult ι (Ref × δ)) : Prop :=
  ∀ d, q.data = some d → d.1 < σ.next ∧ σ.cells d.1 = d.2 ∧
    (q.action.isUpdate = false → ∀ a b e, P.edges.get2 a b = some e → d.1 ≠ e.metadata.1)

/-- the stored edges of `P'` have the dictionaries they had in `P`, or new ones -/
def FreshFrom (n : Ref) (P P' : Graph ι (Ref × δ)) : Prop :=
  ∀ a b e', P'.edges.get2 a b = some e' → (∃ e, P.edges.get2 a b = some e ∧ e'.metadata = e.metadata) ∨ n ≤ e'.metadata.1

/-- the state after a step that writes into no stored dictionary -/
structure Done (κ : δ → τ) (dry : Bool) (σ : HState ι δ) (P : Graph ι (Ref × δ))
    (p : List (TestResult ι (Ref × δ)) × List (TestResult ι (Ref × δ))) (σ' : HState ι δ) (P' : Graph ι (Ref × δ)) : Prop where
  pre : Pre κ σ' P'
  next : σ.next ≤ σ'.next
  frame : ∀ r, r < σ.next → σ'.cells r = σ.cells r
  fresh : FreshFrom σ.next P P'
  ok1 : ∀ q ∈ p.1, Sure σ' P' q
  ok2 : ∀ q ∈ p.2, Sure σ' P' q
  inert : dry = true → P' = P ∧ p.2 = p.1 ∧ Pend σ'.cells σ.next σ'.next p.1 ∧ NoRes p.1

theorem FreshFrom.refl (n : Ref) (P : Graph ι (Ref × δ)) : FreshFrom n P P := fun _ _ e' h => .inl ⟨e', h, rfl⟩

theorem FreshFrom.trans {n n1 : Ref} {P P1 P2 : Graph ι (Ref × δ)} (hn : n ≤ n1) (h1 : FreshFrom n P P1)
    (h2 : FreshFrom n1 P1 P2) : FreshFrom n P P2 := by
  intro a b e' he'
  rcases h2 a b e' he' with ⟨e1, he1, hm⟩ | h
  · rcases h1 a b e1 he1 with ⟨e, he, hm'⟩ | h
    · exact .inl ⟨e, he, hm.trans hm'⟩
    · exact .inr (by rw [hm]; exact h)
  · exact .inr (Nat.le_trans hn h)

theorem Sure.keep {σ σ' : HState ι δ} {P P' : Graph ι (Ref × δ)} {q : TestResult ι (Ref × δ)} (h : Sure σ P q)
    (hn : σ.next ≤ σ'.next) (hf : ∀ r, r < σ.next → σ'.cells r = σ.cells r) (hF : FreshFrom σ.next P P') : Sure σ' P' q := by
  intro d hd
  obtain ⟨h1, h2, h3⟩ := h d hd
  refine ⟨Nat.lt_of_lt_of_le h1 hn, (hf _ h1).trans h2, fun hu a b e he hx => ?_⟩
  rcases hF a b e he with ⟨e0, he0, hm⟩ | hm
  · exact h3 hu a b e0 he0 (by rw [hx, hm])
  · exact ref_ne h1 hm hx

theorem Done.refl {κ : δ → τ} (dry : Bool) {σ : HState ι δ} {P : Graph ι (Ref × δ)} (h : Pre κ σ P) :
    Done κ dry σ P ([], []) σ P :=
  ⟨h, Nat.le_refl _, fun _ _ => rfl, .refl _ _, fun _ h => absurd h List.not_mem_nil, fun _ h => absurd h List.not_mem_nil,
    fun _ => ⟨rfl, rfl, .nil _ _ _, fun _ h => absurd h List.not_mem_nil⟩⟩

theorem Done.trans {κ : δ → τ} {dry : Bool} {σ σ1 σ2 : HState ι δ} {P P1 P2 : Graph ι (Ref × δ)}
    {p q : List (TestResult ι (Ref × δ)) × List (TestResult ι (Ref × δ))} (h1 : Done κ dry σ P p σ1 P1)
    (h2 : Done κ dry σ1 P1 q σ2 P2) : Done κ dry σ P (p.1 ++ q.1, p.2 ++ q.2) σ2 P2 where
  pre := h2.pre
  next := Nat.le_trans h1.next h2.next
  frame := fun r hr => (h2.frame r (Nat.lt_of_lt_of_le hr h1.next)).trans (h1.frame r hr)
  fresh := h1.fresh.trans h1.next h2.fresh
  ok1 := by
    intro x hx
    rcases List.mem_append.1 hx with h | h
    · exact (h1.ok1 x h).keep h2.next h2.frame h2.fresh
    · exact h2.ok1 x h
  ok2 := by
    intro x hx
    rcases List.mem_append.1 hx with h | h
    · exact (h1.ok2 x h).keep h2.next h2.frame h2.fresh
    · exact h2.ok2 x h
  inert := by
    intro hd
    obtain ⟨e1, e1', p1, n1⟩ := h1.inert hd
    obtain ⟨e2, e2', p2, n2⟩ := h2.inert hd
    refine ⟨e2.trans e1, ?_, p1.append p2 (fun r _ hr => h2.frame r hr) h1.next h2.next, n1.append n2⟩
    simp only [e1', e2']

/-- applying results adds no other dictionaries than theirs, and only those of updates -/
theorem take_fresh {κ : δ → τ} {c c' : Ref → δ} {n0 n : Ref} {P : Graph ι (Ref × δ)} (h : Inv κ c n0 P)
    {rs : List (TestResult ι (Ref × δ))} (hp : Pend c' n0 n rs) (hr : NoRes rs) :
    FreshFrom n0 P (takeItems false rs P).2 ∧ ∀ q ∈ rs, q.action.isUpdate = false → ∀ d, q.data = some d → ∀ a b e,
      (takeItems false rs P).2.edges.get2 a b = some e → d.1 ≠ e.metadata.1 := by
  obtain ⟨hE, _⟩ := takeItems_from h.wf rs hr
  generalize (takeItems false rs P).2 = P' at hE
  constructor
  · intro a b e' he'
    obtain ⟨e, he, h1 | ⟨r, hr, _, hd⟩⟩ := hE a b e' he'
    · exact .inl ⟨e, he, h1⟩
    · exact .inr (hp.data r hr _ hd).1
  · intro q hq hu d hd a b e' he' hx
    obtain ⟨e, he, h1 | ⟨r, hr, hc, hd'⟩⟩ := hE a b e' he'
    · rw [h1] at hx
      exact ref_ne (h.all.edge he).1 (hp.data q hq d hd).1 hx.symm
    · have := hp.inj q hq r hr _ _ hd hd' hx
      subst this
      rw [hc.update] at hu
      cases hu

theorem takeItems_sub (rs : List (TestResult ι δ)) {g g' : Graph ι δ} {t : List (TestResult ι δ)}
    (h : takeItems false rs g = (.ok t, g')) : ∀ r ∈ t, r ∈ rs := by
  induction rs generalizing g g' t with
  | nil =>
    injection h with h1 h2
    injection h1 with h1
    subst h1
    exact fun _ h => h
  | cons r rs ih =>
    rw [takeItems_cons] at h
    cases hx : applyOne r g with
    | mk x g1 =>
      rw [hx] at h
      cases x with
      | error e => simp at h
      | ok b =>
        simp only at h
        cases hy : takeItems false rs g1 with
        | mk y g2 =>
          rw [hy] at h
          cases y with
          | error e => simp at h
          | ok t' =>
            simp only [Prod.mk.injEq, Except.ok.injEq] at h
            intro q hq
            rw [← h.1] at hq
            have := ih hy
            split at hq
            · rcases List.mem_cons.1 hq with h | h
              · exact h ▸ List.mem_cons_self
              · exact List.mem_cons_of_mem _ (this q h)
            · exact List.mem_cons_of_mem _ (this q hq)

/-- what applying does to the graphs, whatever the results are -/
theorem take_out (dry : Bool) (A : Results ι (Ref × δ)) {σ : HState ι δ} {P : Graph ι (Ref × δ)} (hg : P.map Prod.fst = σ.graph)
    {G : List (TestResult ι (Ref × δ)) × List (TestResult ι (Ref × δ)) → HState ι δ → Graph ι (Ref × δ) → Prop}
    (hG : ∀ t P', takeItems dry (flatten A) P = (.ok t, P') → G (t, flatten A) { σ with graph := P'.map Prod.fst } P') :
    Out (mapPair Prod.fst) (mapPair Prod.snd) G (onG (takeAction dry (mapResults Prod.fst A)) σ)
      (takeAction dry (mapResults Prod.snd A) (P.map Prod.snd)) := by
  have h1 := sim_takeAction Prod.fst dry A P
  have h2 := sim_takeAction Prod.snd dry A P
  unfold SimAt at h1 h2
  unfold onG
  rw [← hg, h1, h2, takeAction_flat]
  cases hx : takeItems dry (flatten A) P with
  | mk x P' =>
    cases x with
    | error e => exact .inl ⟨e, rfl, rfl⟩
    | ok t => exact .inr ⟨(t, flatten A), _, P', rfl, rfl, hG t P' hx⟩

/-- applying the results of a step that writes into no stored dictionary -/
theorem take_done {κ : δ → τ} (dry : Bool) (A : Results ι (Ref × δ)) {σ σ1 : HState ι δ} {P : Graph ι (Ref × δ)}
    (h : Pre κ σ P) (he : Ev false σ σ1 (flatten A)) (hr : NoRes (flatten A)) :
    Out (mapPair Prod.fst) (mapPair Prod.snd) (Done κ dry σ P) (onG (takeAction dry (mapResults Prod.fst A)) σ1)
      (takeAction dry (mapResults Prod.snd A) (P.map Prod.snd)) := by
  have hf : ∀ r, r < σ.next → σ1.cells r = σ.cells r := fun r hr => (he.old r hr).elim id (fun h => by cases h.1)
  refine take_out dry A (h.graph.trans he.graph.symm) (fun t P' ht => ?_)
  cases dry with
  | true =>
    rw [takeItems_dry] at ht
    injection ht with h1 h2
    injection h1 with h1
    subst h1 h2
    have hex : ∀ q ∈ flatten A, Sure { σ1 with graph := P.map Prod.fst } P q := fun q hq d hd =>
      ⟨(he.pend.data q hq d hd).2.1, (he.pend.data q hq d hd).2.2, fun _ a b e hE hx =>
        ref_ne (h.inv.all.edge hE).1 (he.pend.data q hq d hd).1 hx.symm⟩
    exact ⟨⟨rfl, (h.ev he).inv⟩, he.next, hf, .refl _ _, hex, hex, fun _ => ⟨rfl, rfl, he.pend, hr⟩⟩
  | false =>
    have hinv := (h.inv.frame hf (Nat.le_refl _)).take he.pend he.next hr
    obtain ⟨hF, hap⟩ := take_fresh h.inv he.pend hr
    rw [ht] at hinv hF hap
    have hex : ∀ q ∈ flatten A, Sure { σ1 with graph := P'.map Prod.fst } P' q := fun q hq d hd =>
      ⟨(he.pend.data q hq d hd).2.1, (he.pend.data q hq d hd).2.2, fun hu => hap q hq hu d hd⟩
    exact ⟨⟨rfl, hinv⟩, he.next, hf, hF, fun q hq => hex q (takeItems_sub _ ht q hq), hex, fun h => by cases h⟩

/-- bodies that are related give related loops -/
theorem gather_done {κ : δ → τ} {dry : Bool} {X : Type} {body : X → PyM (HState ι δ) (List (TestResult ι Ref) × List (TestResult ι Ref))}
    {bodyV : X → PyM (Graph ι δ) (List (TestResult ι δ) × List (TestResult ι δ))} (l : List X)
    (hb : ∀ x ∈ l, ∀ σ P, Pre κ σ P → Out (mapPair Prod.fst) (mapPair Prod.snd) (Done κ dry σ P) (body x σ) (bodyV x (P.map Prod.snd)))
    (σ : HState ι δ) (P : Graph ι (Ref × δ)) (h : Pre κ σ P) :
    Out (mapPair Prod.fst) (mapPair Prod.snd) (Done κ dry σ P) (HStep.gather body l σ) (Step.gather bodyV l (P.map Prod.snd)) := by
  induction l generalizing σ P with
  | nil => exact .inr ⟨([], []), σ, P, rfl, rfl, .refl dry h⟩
  | cons x l ih =>
    refine Out.bind (hb x List.mem_cons_self σ P h) (fun p σ1 P1 h1 => ?_)
    refine Out.bind (ih (fun x hx => hb x (List.mem_cons_of_mem _ hx)) σ1 P1 h1.pre) (fun q σ2 P2 h2 => ?_)
    refine .inr ⟨(p.1 ++ q.1, p.2 ++ q.2), σ2, P2, ?_, ?_, h1.trans h2⟩
    · simp only [mapPair, List.map_append]; rfl
    · simp only [mapPair, List.map_append]; rfl

/-! ## steps that write into no stored dictionary -/

omit [DecidableEq ι] in
theorem mapResults_congr {f f' : Ref × δ → δ} (A : Results ι (Ref × δ)) (h : ∀ q ∈ flatten A, ∀ d, q.data = some d → f d = f' d) :
    mapResults f A = mapResults f' A := by
  induction A with
  | nil => rfl
  | cons y A ih =>
    rw [flatten_cons'] at h
    have h1 := ih (fun q hq => h q (List.mem_append_right _ hq))
    have h2 : mapResult f y = mapResult f' y := by
      cases y with
      | none => rfl
      | some l =>
        simp only [mapResult, Option.map_some, Option.some.injEq]
        exact List.map_congr_left (fun q hq => testResult_map_congr (h q (List.mem_append_left _ hq)))
    simp only [mapResults, List.map_cons, h2]
    congr 1

theorem Plain.noRes {s : Step ι δ} (h : Plain s) {g : Graph ι δ} {rs : List (TestResult ι (Ref × δ))}
    (hF : ∀ q ∈ rs, From (fun _ => True) s g q) : NoRes rs := by
  intro q hq
  obtain ⟨c, loc, l, _, hp, hm⟩ := hF q hq
  exact h.noRestore c g loc l hp _ hm

theorem plain_proc {κ : δ → τ} {s : HStep ι δ} (hi : s.inPlace = false) (hs : Plain s.step) {σ0 : HState ι δ} {P : Graph ι (Ref × δ)}
    (h0 : Pre κ σ0 P) (A : Results ι (Ref × δ)) (σ : HState ι δ) (c : List ι) (he : Ev s.inPlace σ0 σ (flatten A)) :
    s.step.process c σ.deref ((if s.step.needsUnapplied then some (mapResults Prod.fst A) else none).map (mapResults σ.cells)) =
      s.step.process c (P.map Prod.snd) (if s.step.needsUnapplied then some (mapResults Prod.snd A) else none) := by
  rw [hi] at he
  have hl : ((if s.step.needsUnapplied then some (mapResults Prod.fst A) else none).map (mapResults σ.cells)) =
      (if s.step.needsUnapplied then some (mapResults Prod.snd A) else none) := by
    split
    · simp only [Option.map_some, mapResults_mapResults]
      exact congrArg some (mapResults_congr A (fun q hq d hd => (he.pend.data q hq d hd).2.2))
    · rfl
  rw [hl]
  exact hs.process _ _ c _ (h0.ev he).seen

/-- a chunk -/
theorem evalChunk_spec {κ : δ → τ} {s : HStep ι δ} (hi : s.inPlace = false) (hs : Plain s.step) (cs : List (List ι))
    {σ : HState ι δ} {P : Graph ι (Ref × δ)} (h : Pre κ σ P) :
    (∃ e, (s.evalChunk cs σ).1 = .error e ∧ s.step.evalChunk (P.map Prod.snd) cs = .error e) ∨
    ∃ (A : Results ι (Ref × δ)) (σ' : HState ι δ), s.evalChunk cs σ = (.ok (mapResults Prod.fst A), σ') ∧
      s.step.evalChunk (P.map Prod.snd) cs = .ok (mapResults Prod.snd A) ∧ Ev false σ σ' (flatten A) ∧
      ∀ q ∈ flatten A, From (fun _ => True) s.step (P.map Prod.snd) q := by
  induction cs generalizing σ with
  | nil => exact .inr ⟨[], σ, rfl, rfl, .refl _ _, fun _ h => absurd h List.not_mem_nil⟩
  | cons c cs ih =>
    have e1 : s.evalChunk (c :: cs) σ = (s.eval c none >>= fun r => s.evalChunk cs >>= fun rs => pure (r :: rs)) σ := rfl
    have hv : s.step.evalChunk (P.map Prod.snd) (c :: cs) = match s.step.process c (P.map Prod.snd) none with
      | .error e => .error e
      | .ok r =>
        match s.step.evalChunk (P.map Prod.snd) cs with
        | .error e => .error e
        | .ok rs => .ok (r :: rs) := rfl
    rw [e1, hv, PyM.bind_run]
    rcases eval_spec (fun _ => True) s c none none (P.map Prod.snd) h.stored trivial (hs.process _ _ c _ h.seen) with ⟨e, h1, h2⟩ | ⟨Y, σ1, h1, h2, h3, h4⟩
    · refine .inl ⟨e, ?_, by rw [h2]⟩
      generalize s.eval c none σ = x at h1
      obtain ⟨x1, x2⟩ := x
      simp only at h1
      subst h1
      rfl
    · rw [hi] at h3
      rw [h1, h2]
      simp only
      rw [PyM.bind_run]
      rcases ih (h.ev h3) with ⟨e, g1, g2⟩ | ⟨A, σ2, g1, g2, g3, g4⟩
      · refine .inl ⟨e, ?_, by rw [g2]⟩
        generalize s.evalChunk cs σ1 = x at g1
        obtain ⟨x1, x2⟩ := x
        simp only at g1
        subst g1
        rfl
      · rw [g1, g2]
        refine .inr ⟨Y :: A, σ2, rfl, rfl, ?_, ?_⟩
        · rw [flatten_cons']; exact h3.trans h.stored g3
        · intro q hq
          rw [flatten_cons', List.mem_append] at hq
          exact hq.elim (h4 q) (g4 q)

/-- a step that writes into no stored dictionary -/
theorem execute_done {κ : δ → τ} {s : HStep ι δ} (hi : s.inPlace = false) (hs : Plain s.step) (dry : Bool) (σ : HState ι δ)
    (P : Graph ι (Ref × δ)) (h : Pre κ σ P) :
    Out (mapPair Prod.fst) (mapPair Prod.snd) (Done κ dry σ P) (s.execute dry σ) (s.step.execute dry (P.map Prod.snd)) := by
  unfold HStep.execute Step.execute
  rw [hs.gen _ _ h.seen]
  cases hg : s.step.gen (P.map Prod.snd) with
  | error e => exact .inl ⟨e, rfl, rfl⟩
  | ok ts =>
    have hforce : Graph.forceOn σ.deref ts = Graph.forceOn (P.map Prod.snd) ts := by
      unfold Graph.forceOn
      refine List.flatMap_congr (fun t ht => ?_)
      exact hs.thunk _ ts hg t ht _ _ h.seen
    simp only
    by_cases hc : s.step.chunked = true
    · rw [if_pos hc, if_pos hc]
      refine gather_done ts (fun t ht σ P h => ?_) σ P h
      show Out _ _ _ (HStep.gather (s.runChunk dry) (t σ.deref) σ) (Step.gather (s.step.runChunk dry) (t (P.map Prod.snd)) (P.map Prod.snd))
      rw [hs.thunk _ ts hg t ht _ _ h.seen]
      refine gather_done _ (fun y _ σ P h => ?_) σ P h
      cases y with
      | single c => exact .inl ⟨.keyError, rfl, rfl⟩
      | chunk cs =>
        show Out _ _ _ ((s.evalChunk cs >>= fun rs => onG (takeAction dry rs)) σ) (match s.step.evalChunk (P.map Prod.snd) cs with
          | .error e => (.error e, P.map Prod.snd)
          | .ok rs => Graph.takeAction dry rs (P.map Prod.snd))
        rw [PyM.bind_run]
        rcases evalChunk_spec hi hs cs h with ⟨e, h1, h2⟩ | ⟨A, σ1, h1, h2, h3, h4⟩
        · rw [h2]
          refine .inl ⟨e, ?_, rfl⟩
          generalize s.evalChunk cs σ = x at h1
          obtain ⟨x1, x2⟩ := x
          simp only at h1
          subst h1
          rfl
        · rw [h1, h2]
          exact take_done dry A h h3 (hs.noRes h4)
    · rw [if_neg hc, if_neg hc, hforce]
      generalize Graph.forceOn (P.map Prod.snd) ts = items
      by_cases hy : s.step.applySync = true
      · rw [if_pos hy, if_pos hy]
        refine gather_done items (fun y _ σ P h => ?_) σ P h
        cases y with
        | chunk cs => exact .inl ⟨.typeError, rfl, rfl⟩
        | single c =>
          show Out _ _ _ ((s.eval c (if s.step.needsUnapplied then some (mapResults Prod.fst ([] : Results ι (Ref × δ))) else none) >>=
              fun r => onG (takeAction dry [r])) σ)
            (match s.step.process c (P.map Prod.snd) (if s.step.needsUnapplied then some (mapResults Prod.snd ([] : Results ι (Ref × δ))) else none) with
            | .error e => (.error e, P.map Prod.snd)
            | .ok r => Graph.takeAction dry [r] (P.map Prod.snd))
          rw [PyM.bind_run]
          rcases eval_spec (fun _ => True) s c _ _ (P.map Prod.snd) h.stored trivial (plain_proc hi hs h [] σ c (.refl _ _)) with
            ⟨e, h1, h2⟩ | ⟨Y, σ1, h1, h2, h3, h4⟩
          · rw [h2]
            refine .inl ⟨e, ?_, rfl⟩
            generalize s.eval c (if s.step.needsUnapplied then some (mapResults Prod.fst ([] : Results ι (Ref × δ))) else none) σ = x at h1
            obtain ⟨x1, x2⟩ := x
            simp only at h1
            subst h1
            rfl
          · rw [h1, h2]
            rw [hi, ← flatten_one] at h3
            rw [← flatten_one] at h4
            exact take_done dry [Y] h h3 (hs.noRes h4)
      · rw [if_neg hy, if_neg hy, PyM.bind_run]
        rcases evalSeq_spec (fun _ => True) s (P.map Prod.snd) h.stored (fun A σ c he _ => plain_proc hi hs h A σ c he) items (fun _ _ => trivial) [] σ
          (.refl _ _) (fun _ h => absurd h List.not_mem_nil) with ⟨e, h1, h2⟩ | ⟨A, σ1, h1, h2, h3, h4⟩
        · have h1' : (s.evalSeq items [] σ).1 = .error e := h1
          have h2' : s.step.evalSeq (P.map Prod.snd) items [] = .error e := h2
          rw [h2']
          refine .inl ⟨e, ?_, rfl⟩
          generalize s.evalSeq items [] σ = x at h1'
          obtain ⟨x1, x2⟩ := x
          simp only at h1'
          subst h1'
          rfl
        · have h1' : s.evalSeq items [] σ = (.ok (mapResults Prod.fst A), σ1) := h1
          have h2' : s.step.evalSeq (P.map Prod.snd) items [] = .ok (mapResults Prod.snd A) := h2
          rw [h1', h2']
          rw [hi] at h3
          exact take_done dry A h h3 (hs.noRes h4)

end Heap
end Verif
