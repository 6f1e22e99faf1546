import Verif.Rename.Sim
import Verif.Par.Model

/-!
# Pipelines commute with a relabelling: lemmas
-/

namespace Verif
variable {ι δ ι' δ' : Type} [DecidableEq ι] [DecidableEq ι']

/-- a part of a generator yields corresponding combinations on corresponding graphs -/
def ThunkSim (M : Relabel ι δ ι' δ') (t : Graph ι δ → List (Yield ι)) (t' : Graph ι' δ' → List (Yield ι')) : Prop :=
  ∀ g, t' (M.graph g) = (t g).map M.yield

/-- two steps that do the same on corresponding graphs -/
structure StepSim (M : Relabel ι δ ι' δ') (W : PyErr → PyErr → Prop) (s : Step ι δ) (s' : Step ι' δ') : Prop where
  name : s'.name = s.name
  chunked : s'.chunked = s.chunked
  needs : s'.needsUnapplied = s.needsUnapplied
  sync : s'.applySync = s.applySync
  gen : ∀ g, Agree W (List.Forall₂ (ThunkSim M)) (s.gen g) (s'.gen (M.graph g))
  process : ∀ c g un, Agree W (fun o o' => o' = o.map (List.map M.result)) (s.process c g un)
    (s'.process (c.map M.name) (M.graph g) (un.map M.results))

namespace StepSim
variable {M : Relabel ι δ ι' δ'} {W : PyErr → PyErr → Prop} {s : Step ι δ} {s' : Step ι' δ'} (h : StepSim M W s s')
  (hW : ∀ e, W e e)
include h

theorem evalChunk (g : Graph ι δ) (cs : List (List ι)) :
    Agree W (fun l l' => l' = M.results l) (s.evalChunk g cs) (s'.evalChunk (M.graph g) (cs.map (List.map M.name))) := by
  induction cs with
  | nil => exact .ok rfl
  | cons c cs ih =>
    rw [List.map_cons]
    unfold Step.evalChunk
    have h1 := h.process c g none
    rw [Option.map_none] at h1
    generalize s.process c g none = x at h1
    generalize s'.process _ _ none = y at h1
    cases h1 with
    | error h1 => exact .error h1
    | ok h1 =>
      dsimp only
      generalize s.evalChunk g cs = x at ih
      generalize s'.evalChunk _ _ = y at ih
      cases ih with
      | error h2 => exact .error h2
      | ok h2 =>
        refine .ok ?_
        rw [h1, h2]
        rfl

include hW in
theorem runChunk (dry : Bool) (y : Yield ι) :
    PSim W M.graph (fun p p' => p' = (p.1.map M.result, p.2.map M.result)) (s.runChunk dry y) (s'.runChunk dry (M.yield y)) := by
  intro g
  unfold Step.runChunk
  cases y with
  | single c => exact ⟨.error (hW _), rfl⟩
  | chunk cs =>
    have h1 := h.evalChunk g cs
    simp only [Relabel.yield]
    generalize s.evalChunk g cs = x at h1
    generalize s'.evalChunk _ _ = y at h1
    cases h1 with
    | error h1 => exact ⟨.error h1, rfl⟩
    | ok h1 =>
      subst h1
      exact M.takeAction hW dry _ g

omit [DecidableEq ι] [DecidableEq ι'] h in
theorem gather {α α' : Type} {R : α → α' → Prop}
    {body : α → PyM (Graph ι δ) (List (TestResult ι δ) × List (TestResult ι δ))}
    {body' : α' → PyM (Graph ι' δ') (List (TestResult ι' δ') × List (TestResult ι' δ'))}
    (hb : ∀ a a', R a a' → PSim W M.graph (fun p p' => p' = (p.1.map M.result, p.2.map M.result)) (body a) (body' a'))
    {l : List α} {l' : List α'} (hl : List.Forall₂ R l l') :
    PSim W M.graph (fun p p' => p' = (p.1.map M.result, p.2.map M.result)) (Step.gather body l) (Step.gather body' l') := by
  induction hl with
  | nil => exact PSim.pure rfl
  | cons hr _ ih =>
    refine (hb _ _ hr).bind (fun p p' hp => ih.bind (fun q q' hq => PSim.pure ?_))
    subst hp
    subst hq
    simp [List.map_append]

omit [DecidableEq ι] [DecidableEq ι'] h in
theorem forall₂_map {α α' : Type} (φ : α → α') (l : List α) : List.Forall₂ (fun a a' => a' = φ a) l (l.map φ) := by
  rw [List.forall₂_map_right_iff]
  exact List.forall₂_same.2 (fun _ _ => rfl)

theorem evalOne (g : Graph ι δ) (y : Yield ι) (loc : Results ι δ) (hW : ∀ e, W e e) :
    Agree W (fun o o' => o' = o.map (List.map M.result)) (s.evalOne g y loc)
      (s'.evalOne (M.graph g) (M.yield y) (M.results loc)) := by
  unfold Step.evalOne
  cases y with
  | chunk cs => exact .error (hW _)
  | single c =>
    simp only [Relabel.yield, h.needs]
    have h1 := h.process c g (if s.needsUnapplied then some loc else none)
    cases hn : s.needsUnapplied <;> simpa [hn] using h1

theorem evalSeq (hW : ∀ e, W e e) (g : Graph ι δ) (ys : List (Yield ι)) (loc : Results ι δ) :
    Agree W (fun l l' => l' = M.results l) (s.evalSeq g ys loc)
      (s'.evalSeq (M.graph g) (ys.map M.yield) (M.results loc)) := by
  induction ys generalizing loc with
  | nil => exact .ok rfl
  | cons y ys ih =>
    rw [List.map_cons]
    unfold Step.evalSeq
    have h1 := h.evalOne g y loc hW
    generalize s.evalOne g y loc = x at h1
    generalize s'.evalOne _ _ _ = z at h1
    cases h1 with
    | error h1 => exact .error h1
    | @ok a _ h1 =>
      subst h1
      have := ih (loc ++ [a])
      simpa [Relabel.results] using this

theorem runSync (hW : ∀ e, W e e) (dry : Bool) (y : Yield ι) :
    PSim W M.graph (fun p p' => p' = (p.1.map M.result, p.2.map M.result)) (s.runSync dry y) (s'.runSync dry (M.yield y)) := by
  intro g
  unfold Step.runSync
  have h1 := h.evalOne g y [] hW
  have e : M.results [] = [] := rfl
  rw [e] at h1
  generalize s.evalOne g y [] = x at h1
  generalize s'.evalOne _ _ [] = z at h1
  cases h1 with
  | error h1 => exact ⟨.error h1, rfl⟩
  | ok h1 =>
    subst h1
    exact M.takeAction hW dry [_] g

omit [DecidableEq ι] [DecidableEq ι'] h in
theorem forceOn (g : Graph ι δ) {ts ts'} (ht : List.Forall₂ (ThunkSim M) ts ts') :
    Graph.forceOn (M.graph g) ts' = (Graph.forceOn g ts).map M.yield := by
  unfold Graph.forceOn
  induction ht with
  | nil => rfl
  | cons h1 _ ih => simp only [List.flatMap_cons, List.map_append, ih, h1 g]

theorem execute (hW : ∀ e, W e e) (dry : Bool) :
    PSim W M.graph (fun p p' => p' = (p.1.map M.result, p.2.map M.result)) (s.execute dry) (s'.execute dry) := by
  intro g
  unfold Step.execute
  have h1 := h.gen g
  generalize s.gen g = x at h1
  generalize s'.gen _ = z at h1
  cases h1 with
  | error h1 => exact ⟨.error h1, rfl⟩
  | @ok ts _ ht =>
    dsimp only
    rw [h.chunked, h.sync]
    split
    · refine gather (fun t t' htt => PSim.get_bind (fun g => ?_)) ht g
      rw [htt g]
      exact gather (fun y y' hy => hy ▸ h.runChunk hW dry y) (forall₂_map M.yield _)
    · rw [forceOn g ht]
      split
      · exact gather (fun y y' hy => hy ▸ h.runSync hW dry y) (forall₂_map M.yield _) g
      · have h2 := h.evalSeq hW g (Graph.forceOn g ts) []
        have e : M.results [] = [] := rfl
        rw [e] at h2
        generalize s.evalSeq g _ [] = x at h2
        generalize s'.evalSeq _ _ [] = z at h2
        cases h2 with
        | error h2 => exact ⟨.error h2, rfl⟩
        | ok h2 =>
          subst h2
          exact M.takeAction hW dry _ g

end StepSim

/-! ## pipelines -/

/-- two configured pipeline steps that do the same on corresponding graphs -/
inductive PStepSim (M : Relabel ι δ ι' δ') (W : PyErr → PyErr → Prop) : PStep ι δ → PStep ι' δ' → Prop
  | plain {s s'} (h : StepSim M W s s') : PStepSim M W (.plain s) (.plain s')
  | loop {n ss ss' x x'} (h : List.Forall₂ (StepSim M W) ss ss')
      (hx : ∀ g l k, Agree W Eq (x g l k) (x' (M.graph g) (l.map (List.map M.result)) k)) :
      PStepSim M W (.loop n ss x) (.loop n ss' x')
  | together {n ss ss'} (h : List.Forall₂ (StepSim M W) ss ss') : PStepSim M W (.together n ss) (.together n ss')

section run
variable {M : Relabel ι δ ι' δ'} {W : PyErr → PyErr → Prop} (hW : ∀ e, W e e)
include hW

theorem runInner_sim (dry : Bool) {ss : List (Step ι δ)} {ss' : List (Step ι' δ')} (h : List.Forall₂ (StepSim M W) ss ss') :
    PSim W M.graph (fun p p' => p' = (p.1.map M.stepRec, p.2.map M.result)) (runInner dry ss) (runInner dry ss') := by
  induction h with
  | nil => exact PSim.pure rfl
  | cons hs _ ih =>
    refine (hs.execute hW dry).bind (fun p p' hp => ih.bind (fun q q' hq => PSim.pure ?_))
    subst hp
    subst hq
    simp [List.map_append, Relabel.stepRec, hs.name]

theorem loopGo_sim {ss : List (Step ι δ)} {ss' : List (Step ι' δ')} (h : List.Forall₂ (StepSim M W) ss ss') {x x'}
    (hx : ∀ g l k, Agree W Eq (x g l k) (x' (M.graph g) (Option.map (List.map M.result) l) k)) (fuel n : Nat)
    (taken : Option (List (TestResult ι δ))) :
    PSim W M.graph (fun l l' => l' = l.map M.stepRec) (loopGo ss x fuel n taken)
      (loopGo ss' x' fuel n (taken.map (List.map M.result))) := by
  induction fuel generalizing n taken with
  | zero => exact PSim.raise hW _
  | succ fuel ih =>
    intro g
    unfold loopGo
    have h1 := hx g taken n
    generalize x g taken n = a at h1
    generalize x' (M.graph g) _ n = b at h1
    cases h1 with
    | error h1 => exact ⟨.error h1, rfl⟩
    | @ok a _ h1 =>
      subst h1
      cases a with
      | true => exact ⟨.ok rfl, rfl⟩
      | false =>
        dsimp only
        obtain ⟨h2, h3⟩ := runInner_sim hW false h g
        generalize runInner false ss g = p at h2 h3
        generalize runInner false ss' (M.graph g) = q at h2 h3
        obtain ⟨p1, p2⟩ := p
        obtain ⟨q1, q2⟩ := q
        simp only at h2 h3
        subst h3
        cases h2 with
        | error h2 => exact ⟨.error h2, rfl⟩
        | @ok a a' h2 =>
          obtain ⟨a1, a2⟩ := a
          subst h2
          dsimp only
          obtain ⟨h4, h5⟩ := ih (n + 1) (some a2) p2
          rw [Option.map_some] at h4 h5
          generalize loopGo ss x fuel (n + 1) (some a2) p2 = p at h4 h5
          generalize loopGo ss' x' fuel (n + 1) _ (M.graph p2) = q at h4 h5
          obtain ⟨p1, p2⟩ := p
          obtain ⟨q1, q2⟩ := q
          simp only at h4 h5
          subst h5
          cases h4 with
          | error h4 => exact ⟨.error h4, rfl⟩
          | ok h4 =>
            subst h4
            exact ⟨.ok (by simp), rfl⟩

theorem runTogether_sim {ss : List (Step ι δ)} {ss' : List (Step ι' δ')} (h : List.Forall₂ (StepSim M W) ss ss') :
    PSim W M.graph (fun l l' => l' = l.map M.stepRec) (runTogether ss) (runTogether ss') := by
  refine (runInner_sim hW true h).bind (fun p p' hp => ?_)
  subst hp
  have h1 := M.takeAction hW false (p.2.map (fun a => some [a]))
  have e : M.results (p.2.map (fun a => some [a])) = (p.2.map M.result).map (fun a => some [a]) := by
    simp [Relabel.results, Function.comp_def]
  rw [e] at h1
  exact h1.bind (fun _ _ _ => PSim.pure rfl)

omit [DecidableEq ι] [DecidableEq ι'] hW in
theorem onGraph_sim {α α' : Type} {R : α → α' → Prop} {m : PyM (Graph ι δ) α} {m' : PyM (Graph ι' δ') α'}
    (h : PSim W M.graph R m m') : PSim W M.model R (onGraph m) (onGraph m') := by
  intro s
  obtain ⟨h1, h2⟩ := h s.graph
  refine ⟨h1, ?_⟩
  unfold onGraph
  simp only [Relabel.model]
  rw [h2]

omit [DecidableEq ι] [DecidableEq ι'] hW in
theorem appendHistory_sim (r : HistRec ι δ) : PSim W M.model Eq (appendHistory r) (appendHistory (M.histRec r)) := by
  intro s
  refine ⟨.ok rfl, ?_⟩
  simp [appendHistory, PyM.mod, Relabel.model]

theorem PStep.run_sim {p : PStep ι δ} {p' : PStep ι' δ'} (h : PStepSim M W p p') (fuel : Nat) :
    PSim W M.model Eq (p.run fuel) (p'.run fuel) := by
  cases h with
  | plain h =>
    refine (onGraph_sim (h.execute hW false)).bind (fun q q' hq => ?_)
    subst hq
    rw [h.name]
    exact (appendHistory_sim (.plain ⟨_, q.1, q.2⟩)).seq (onGraph_sim (M.purge hW))
  | @loop n ss ss' x x' h hx =>
    refine (onGraph_sim (loopGo_sim hW h hx fuel 0 none)).bind (fun q q' hq => ?_)
    subst hq
    exact appendHistory_sim (.logic n q)
  | @together n ss ss' h =>
    refine (onGraph_sim (runTogether_sim hW h)).bind (fun q q' hq => ?_)
    subst hq
    exact appendHistory_sim (.logic n q)

theorem runPipeline_sim {ps : List (PStep ι δ)} {ps' : List (PStep ι' δ')} (h : List.Forall₂ (PStepSim M W) ps ps') (fuel : Nat) :
    PSim W M.model Eq (runPipeline fuel ps) (runPipeline fuel ps') := by
  unfold runPipeline
  induction h with
  | nil => exact PSim.pure rfl
  | cons hp _ ih => exact (PStep.run_sim hW hp fuel).seq ih

end run

/-! ## the worker pool -/

/-- corresponding states of the worker pool -/
structure StateSim (M : Relabel ι δ ι' δ') (W : PyErr → PyErr → Prop) (st : Par.State ι δ) (st' : Par.State ι' δ') : Prop where
  graph : st'.graph = M.graph st.graph
  todo : List.Forall₂ (ThunkSim M) st.todo st'.todo
  buffer : st'.buffer = st.buffer.map M.yield
  sent : List.Forall₂ (Agree W (fun l l' => l' = M.results l)) st.sent st'.sent
  current : st'.current = M.results st.current
  taken : st'.taken = st.taken.map M.result
  proposed : st'.proposed = st.proposed.map M.result

theorem asList_sim (M : Relabel ι δ ι' δ') (o : Option (List (TestResult ι δ))) :
    Par.asList (o.map (List.map M.result)) = M.results (Par.asList o) := by
  cases o with
  | none => rfl
  | some l => simp [Par.asList, Relabel.results, Function.comp_def]

section par
variable {M : Relabel ι δ ι' δ'} {W : PyErr → PyErr → Prop} (hW : ∀ e, W e e) {s : Step ι δ} {s' : Step ι' δ'}
  (h : StepSim M W s s')
include h hW

theorem StepSim.evalTask (g : Graph ι δ) (y : Yield ι) :
    Agree W (fun o o' => o' = o.map (List.map M.result)) (s.evalTask g y) (s'.evalTask (M.graph g) (M.yield y)) := by
  cases y with
  | chunk cs => exact .error (hW _)
  | single c => exact h.process c g none

theorem StepSim.evalBatch (g : Graph ι δ) (ys : List (Yield ι)) :
    Agree W (fun l l' => l' = M.results l) (s.evalBatch g ys) (s'.evalBatch (M.graph g) (ys.map M.yield)) := by
  induction ys with
  | nil => exact .ok rfl
  | cons y ys ih =>
    rw [List.map_cons]
    unfold Step.evalBatch
    have h1 := h.evalTask hW g y
    generalize s.evalTask g y = x at h1
    generalize s'.evalTask _ _ = z at h1
    cases h1 with
    | error h1 => exact .error h1
    | ok h1 =>
      dsimp only
      generalize s.evalBatch g ys = x at ih
      generalize s'.evalBatch _ _ = z at ih
      cases ih with
      | error h2 => exact .error h2
      | ok h2 =>
        refine .ok ?_
        rw [h1, h2]
        rfl

omit h hW [DecidableEq ι] [DecidableEq ι'] in
theorem forall₂_split {α β : Type} {R : α → β → Prop} {l1 l2 : List α} {a : α} {l' : List β}
    (hf : List.Forall₂ R (l1 ++ a :: l2) l') :
    ∃ l1' b l2', l' = l1' ++ b :: l2' ∧ List.Forall₂ R l1 l1' ∧ R a b ∧ List.Forall₂ R l2 l2' := by
  induction l1 generalizing l' with
  | nil =>
    cases hf with
    | cons h1 h2 => exact ⟨[], _, _, rfl, .nil, h1, h2⟩
  | cons x l1 ih =>
    cases hf with
    | cons h1 h2 =>
      obtain ⟨l1', b, l2', e, h3, h4, h5⟩ := ih h2
      exact ⟨_ :: l1', b, l2', by rw [e]; rfl, .cons h1 h3, h4, h5⟩

theorem Par.Trans.sim {dry : Bool} {size : Nat} {st st1 : Par.State ι δ} (ht : Par.Trans s dry size st st1)
    {st' : Par.State ι' δ'} (hs : StateSim M W st st') : ∃ st1', Par.Trans s' dry size st' st1' ∧ StateSim M W st1 st1' := by
  cases ht with
  | generate t ts ht hb =>
    have := hs.todo
    rw [ht] at this
    cases hx : st'.todo with
    | nil => rw [hx] at this; cases this
    | cons t' ts' =>
      rw [hx] at this
      cases this with
      | cons h1 h2 =>
        refine ⟨_, .generate st' t' ts' hx (by rw [hs.buffer, List.length_map]; exact hb), ⟨hs.graph, h2, ?_, hs.sent, hs.current, hs.taken, hs.proposed⟩⟩
        simp only [List.map_append]
        rw [hs.buffer, hs.graph, h1]
  | send hne hb =>
    refine ⟨_, .send st' ?_ ?_, ⟨hs.graph, hs.todo, ?_, ?_, hs.current, hs.taken, hs.proposed⟩⟩
    · rw [hs.buffer]; simpa using hne
    · rw [hs.buffer, List.length_map]
      refine hb.imp id (fun h0 => ?_)
      have := hs.todo
      rw [h0] at this
      cases hx : st'.todo with
      | nil => rfl
      | cons t' ts' => rw [hx] at this; cases this
    · simp only [hs.buffer, List.map_drop]
    · refine List.rel_append hs.sent (.cons ?_ .nil)
      rw [hs.buffer, hs.graph, ← List.map_take]
      exact h.evalBatch hW _ _
  | receive l1 rs l2 hc he =>
    have := hs.sent
    rw [he] at this
    obtain ⟨l1', b, l2', e, h3, h4, h5⟩ := forall₂_split this
    cases h4 with
    | ok h4 =>
      refine ⟨_, .receive st' l1' _ l2' (by rw [hs.current, hc]; rfl) e, ⟨hs.graph, hs.todo, hs.buffer, List.rel_append h3 h5, h4, hs.taken, hs.proposed⟩⟩
  | apply r rs t p g' hc ha =>
    have h1 := M.takeAction hW dry (Par.asList r) st.graph
    rw [ha] at h1
    obtain ⟨h2, h3⟩ := h1
    rw [← asList_sim, ← hs.graph] at h2 h3
    generalize hq : Graph.takeAction dry (Par.asList (Option.map (List.map M.result) r)) st'.graph = q at h2 h3
    obtain ⟨q1, q2⟩ := q
    simp only at h2 h3
    subst h3
    cases h2 with
    | @ok _ a' h2 =>
      subst h2
      refine ⟨_, .apply st' (r.map (List.map M.result)) (M.results rs) (t.map M.result) (p.map M.result) _ ?_ hq, ⟨rfl, hs.todo, hs.buffer, hs.sent, rfl, ?_, ?_⟩⟩
      · rw [hs.current, hc]; rfl
      · simp [hs.taken]
      · simp [hs.proposed]

theorem Par.Star.sim {dry : Bool} {size : Nat} {st st1 : Par.State ι δ} (ht : Par.Trans.Star s dry size st st1)
    {st' : Par.State ι' δ'} (hs : StateSim M W st st') : ∃ st1', Par.Trans.Star s' dry size st' st1' ∧ StateSim M W st1 st1' := by
  induction ht with
  | refl => exact ⟨st', .refl _, hs⟩
  | tail st1 st2 _ hl ih =>
    obtain ⟨x, hx, hsx⟩ := ih
    obtain ⟨y, hy, hsy⟩ := Par.Trans.sim hW h hl hsx
    exact ⟨y, .tail _ _ _ hx hy, hsy⟩

/-- corresponding outcomes -/
abbrev OutSim {σ σ' α α' : Type} (W : PyErr → PyErr → Prop) (F : σ → σ') (R : α → α' → Prop) (x : Except PyErr α × σ)
    (y : Except PyErr α' × σ') : Prop := Agree W R x.1 y.1 ∧ y.2 = F x.2

theorem Par.Run.sim {dry : Bool} {size : Nat} {g : Graph ι δ} {out} (hr : Par.Run s dry size g out) :
    ∃ out', Par.Run s' dry size (M.graph g) out' ∧
      OutSim W M.graph (fun p p' => p' = (p.1.map M.result, p.2.map M.result)) out out' := by
  have hg := h.gen g
  have nil2 : ∀ {α β : Type} {R : α → β → Prop} {l : List β}, List.Forall₂ R [] l → l = [] := by
    intro α β R l hl
    cases hl
    rfl
  cases hr with
  | badSize h0 => exact ⟨_, .badSize h0, .error (hW _), rfl⟩
  | badGen h0 e he =>
    rw [he] at hg
    generalize hz : s'.gen (M.graph g) = z at hg
    cases hg with
    | @error _ e' h1 => exact ⟨_, .badGen h0 e' hz, .error h1, rfl⟩
  | done h0 ts he st hst hf =>
    rw [he] at hg
    generalize hz : s'.gen (M.graph g) = z at hg
    cases hg with
    | @ok _ ts' h1 =>
      obtain ⟨st', hst', hs⟩ := Par.Star.sim hW h hst (st' := .init (M.graph g) ts')
        ⟨rfl, h1, rfl, .nil, rfl, rfl, rfl⟩
      refine ⟨_, .done h0 ts' hz st' hst' ⟨?_, ?_, ?_, ?_⟩, .ok ?_, hs.graph⟩
      · exact nil2 (hf.1 ▸ hs.todo)
      · rw [hs.buffer, hf.2.1]; rfl
      · exact nil2 (hf.2.2.1 ▸ hs.sent)
      · rw [hs.current, hf.2.2.2]; rfl
      · simp only [hs.taken, hs.proposed]
  | raised h0 ts he st hst e g' hf =>
    rw [he] at hg
    generalize hz : s'.gen (M.graph g) = z at hg
    cases hg with
    | @ok _ ts' h1 =>
      obtain ⟨st', hst', hs⟩ := Par.Star.sim hW h hst (st' := .init (M.graph g) ts')
        ⟨rfl, h1, rfl, .nil, rfl, rfl, rfl⟩
      cases hf with
      | batch l1 _ l2 hc hse =>
        have := hs.sent
        rw [hse] at this
        obtain ⟨l1', b, l2', ee, _, h4, _⟩ := forall₂_split this
        cases h4 with
        | @error _ e' h4 =>
          exact ⟨_, .raised h0 ts' hz st' hst' e' _ (.batch st' l1' e' l2' (by rw [hs.current, hc]; rfl) ee), .error h4, hs.graph⟩
      | apply r rs _ _ hc ha =>
        have h1 := M.takeAction hW dry (Par.asList r) st.graph
        rw [ha] at h1
        obtain ⟨h2, h3⟩ := h1
        rw [← asList_sim, ← hs.graph] at h2 h3
        generalize hq : Graph.takeAction dry (Par.asList (Option.map (List.map M.result) r)) st'.graph = q at h2 h3
        obtain ⟨q1, q2⟩ := q
        simp only at h2 h3
        subst h3
        cases h2 with
        | @error _ e' h2 =>
          exact ⟨_, .raised h0 ts' hz st' hst' e' _ (.apply st' _ (M.results rs) e' _ (by rw [hs.current, hc]; rfl) hq), .error h2, rfl⟩

end par

/-- corresponding stages -/
inductive StageSim (M : Relabel ι δ ι' δ') (W : PyErr → PyErr → Prop) : Stage ι δ → Stage ι' δ' → Prop
  | seq {p p'} (h : PStepSim M W p p') : StageSim M W (.seq p) (.seq p')
  | par {s s'} (h : StepSim M W s s') (size : Nat) : StageSim M W (.par s size) (.par s' size)

section stages
variable {M : Relabel ι δ ι' δ'} {W : PyErr → PyErr → Prop} (hW : ∀ e, W e e)
include hW

theorem Stage.Run.sim {x : Stage ι δ} {x' : Stage ι' δ'} (h : StageSim M W x x') {fuel : Nat} {m out} (hr : x.Run fuel m out) :
    ∃ out', x'.Run fuel (M.model m) out' ∧ OutSim W M.model Eq out out' := by
  cases h with
  | seq h =>
    cases hr with
    | seq => exact ⟨_, .seq _ _, PStep.run_sim hW h fuel m⟩
  | par h size =>
    cases hr with
    | par _ _ _ t p g' h1 =>
      obtain ⟨⟨o1, o2⟩, ho, hs1, hs2⟩ := Par.Run.sim hW h h1
      simp only at hs1 hs2
      subst hs2
      cases hs1 with
      | ok h2 =>
        subst h2
        refine ⟨_, .par _ size (M.model m) _ _ _ ho, ?_⟩
        rw [h.name]
        exact ((appendHistory_sim (.plain ⟨_, t, p⟩)).seq (onGraph_sim (M.purge hW))) { m with graph := g' }
    | raised _ _ _ e g' h1 =>
      obtain ⟨⟨o1, o2⟩, ho, hs1, hs2⟩ := Par.Run.sim hW h h1
      simp only at hs1 hs2
      subst hs2
      cases hs1 with
      | error h2 => exact ⟨_, .raised _ size (M.model m) _ _ ho, .error h2, rfl⟩

theorem Stages.Run.sim {xs : List (Stage ι δ)} {xs' : List (Stage ι' δ')} (h : List.Forall₂ (StageSim M W) xs xs') {fuel : Nat}
    {m out} (hr : Stages.Run fuel xs m out) : ∃ out', Stages.Run fuel xs' (M.model m) out' ∧ OutSim W M.model Eq out out' := by
  induction hr generalizing xs' with
  | nil m =>
    cases h
    exact ⟨_, .nil _, .ok rfl, rfl⟩
  | cons x xs m m1 out hx _ ih =>
    cases h with
    | cons h1 h2 =>
      obtain ⟨⟨o1, o2⟩, ho, hs1, hs2⟩ := Stage.Run.sim hW h1 hx
      simp only at hs1 hs2
      subst hs2
      cases hs1 with
      | ok h3 =>
        obtain ⟨out', hout, hsim⟩ := ih h2
        exact ⟨out', .cons _ _ _ _ _ ho hout, hsim⟩
  | raised x xs m e m1 hx =>
    cases h with
    | cons h1 h2 =>
      obtain ⟨⟨o1, o2⟩, ho, hs1, hs2⟩ := Stage.Run.sim hW h1 hx
      simp only at hs1 hs2
      subst hs2
      cases hs1 with
      | error h3 => exact ⟨_, .raised _ _ _ _ _ ho, .error h3, rfl⟩

end stages
end Verif
