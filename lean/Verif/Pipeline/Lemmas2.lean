import Verif.Pipeline.Lemmas
import Verif.Pipeline.Spec

/-!
# Helper lemmas: the model runs steps as specified
-/

namespace Verif
open Graph
variable {ι δ : Type} [DecidableEq ι]

omit [DecidableEq ι] in
theorem answers_iff {s : Step ι δ} {g : Graph ι δ} {ys : List (Yield ι)} {sofar rs : Results ι δ} :
    s.evalSeq g ys sofar = .ok rs ↔ ∃ cs new, ys = cs.map Yield.single ∧ rs = sofar ++ new ∧ Answers s g sofar cs new := by
  induction ys generalizing sofar with
  | nil =>
    simp only [Step.evalSeq, Except.ok.injEq]
    constructor
    · rintro rfl; exact ⟨[], [], rfl, by simp, .nil _⟩
    · rintro ⟨cs, new, h1, rfl, h3⟩
      have : cs = [] := by simpa using h1.symm
      subst this
      cases h3; simp
  | cons y ys ih =>
    unfold Step.evalSeq
    cases y with
    | chunk c =>
      simp only [Step.evalOne]
      constructor
      · intro h; cases h
      · rintro ⟨cs, new, h1, -, -⟩
        cases cs with
        | nil => cases h1
        | cons c cs => simp at h1
    | single c =>
      simp only [Step.evalOne]
      constructor
      · intro h
        cases hp : s.process c g (if s.needsUnapplied then some sofar else none) with
        | error e => rw [hp] at h; cases h
        | ok r =>
          rw [hp] at h
          obtain ⟨cs, new, h1, h2, h3⟩ := ih.1 h
          exact ⟨c :: cs, r :: new, by rw [h1]; rfl, by rw [h2]; simp, .cons hp h3⟩
      · rintro ⟨cs, new, h1, rfl, h3⟩
        cases h3 with
        | nil => cases h1
        | @cons _ c' cs r rs hp hs =>
          simp only [List.map_cons, List.cons.injEq, Yield.single.injEq] at h1
          obtain ⟨rfl, rfl⟩ := h1
          rw [hp]
          exact ih.2 ⟨cs, rs, rfl, by simp, hs⟩

omit [DecidableEq ι] in
theorem inTurn_iff {α : Type} {body : α → PyM (Graph ι δ) (List (TestResult ι δ) × List (TestResult ι δ))}
    {One : α → Graph ι δ → List (TestResult ι δ) → List (TestResult ι δ) → Graph ι δ → Prop}
    (hb : ∀ a g t p g', body a g = (.ok (t, p), g') ↔ One a g t p g') {as : List α} {g g' : Graph ι δ}
    {t p : List (TestResult ι δ)} : Step.gather body as g = (.ok (t, p), g') ↔ InTurn One as g t p g' := by
  induction as generalizing g t p with
  | nil =>
    rw [Step.gather_nil]
    constructor
    · intro h; cases h; exact .nil _
    · intro h; cases h; rfl
  | cons a as ih =>
    rw [Step.gather_cons]
    constructor
    · intro h
      generalize hx : body a g = x at h
      obtain ⟨e | ⟨t1, p1⟩, g1⟩ := x
      · cases h
      · simp only at h
        generalize hy : Step.gather body as g1 = y at h
        obtain ⟨e | ⟨t2, p2⟩, g2⟩ := y
        · cases h
        · cases h
          exact .cons ((hb _ _ _ _ _).1 hx) (ih.1 hy)
    · intro h
      cases h with
      | cons h hs =>
        rw [(hb _ _ _ _ _).2 h]
        simp only
        rw [ih.2 hs]

omit [DecidableEq ι] in
theorem evalChunk_iff {s : Step ι δ} {g : Graph ι δ} {cs : List (List ι)} {rs : Results ι δ} :
    s.evalChunk g cs = .ok rs ↔ List.Forall₂ (fun c r => s.process c g none = .ok r) cs rs := by
  induction cs generalizing rs with
  | nil =>
    simp only [Step.evalChunk, Except.ok.injEq, List.forall₂_nil_left_iff]
    exact eq_comm
  | cons c cs ih =>
    unfold Step.evalChunk
    constructor
    · intro h
      cases hp : s.process c g none with
      | error e => rw [hp] at h; cases h
      | ok r =>
        rw [hp] at h
        simp only at h
        cases hq : s.evalChunk g cs with
        | error e => rw [hq] at h; cases h
        | ok rs' =>
          rw [hq] at h
          cases h
          exact .cons hp (ih.1 hq)
    · intro h
      cases h with
      | cons h hs =>
        rw [h]
        simp only
        rw [ih.2 hs]

omit [DecidableEq ι] in
theorem inTurn_map {α β : Type} {f : α → β}
    {One : β → Graph ι δ → List (TestResult ι δ) → List (TestResult ι δ) → Graph ι δ → Prop} {as : List α} {g g' : Graph ι δ}
    {t p : List (TestResult ι δ)} : InTurn One (as.map f) g t p g' ↔ InTurn (fun a => One (f a)) as g t p g' := by
  induction as generalizing g t p with
  | nil =>
    constructor <;> intro h <;> cases h <;> exact .nil _
  | cons a as ih =>
    constructor
    · intro h
      cases h with
      | cons h hs => exact .cons h (ih.1 hs)
    · intro h
      cases h with
      | cons h hs => exact .cons h (ih.2 hs)

omit [DecidableEq ι] in
theorem InTurn.mono {α : Type} {One Two : α → Graph ι δ → List (TestResult ι δ) → List (TestResult ι δ) → Graph ι δ → Prop}
    {as : List α} (h : ∀ a ∈ as, ∀ g t p g', One a g t p g' → Two a g t p g') {g g' : Graph ι δ} {t p : List (TestResult ι δ)}
    (ho : InTurn One as g t p g') : InTurn Two as g t p g' := by
  induction ho with
  | nil => exact .nil _
  | cons h1 _ ih => exact .cons (h _ List.mem_cons_self _ _ _ _ h1) (ih (fun a ha => h a (List.mem_cons_of_mem _ ha)))

omit [DecidableEq ι] in
/-- lists all of whose elements had to be of one form -/
theorem inTurn_forms {α β : Type} {f : α → β}
    {One : α → Graph ι δ → List (TestResult ι δ) → List (TestResult ι δ) → Graph ι δ → Prop} {bs : List β} {g g' : Graph ι δ}
    {t p : List (TestResult ι δ)} :
    InTurn (fun b g t p g' => ∃ a, b = f a ∧ One a g t p g') bs g t p g' ↔ ∃ as, bs = as.map f ∧ InTurn One as g t p g' := by
  constructor
  · intro h
    induction h with
    | nil => exact ⟨[], rfl, .nil _⟩
    | cons h _ ih =>
      obtain ⟨a, rfl, h⟩ := h
      obtain ⟨as, rfl, hs⟩ := ih
      exact ⟨a :: as, rfl, .cons h hs⟩
  · rintro ⟨as, rfl, h⟩
    induction h with
    | nil => exact .nil _
    | cons h _ ih => exact .cons ⟨_, rfl, h⟩ ih

theorem stepRuns_iff {s : Step ι δ} {dry : Bool} {g g' : Graph ι δ} {t p : List (TestResult ι δ)} :
    s.execute dry g = (.ok (t, p), g') ↔ StepRuns s dry g t p g' := by
  have hsync : ∀ {cs : List (Yield ι)} {g : Graph ι δ} {t p : List (TestResult ι δ)}, Step.gather (s.runSync dry) cs g = (.ok (t, p), g') ↔
      ∃ css : List (List ι), cs = css.map Yield.single ∧ InTurn (CombinationRuns s dry) css g t p g' := by
    intro cs g t p
    rw [← inTurn_forms, inTurn_iff]
    intro y g t p g'
    unfold Step.runSync
    cases y with
    | chunk c =>
      simp only [Step.evalOne]
      constructor
      · intro h; cases h
      · rintro ⟨a, h, _⟩; cases h
    | single c =>
      simp only [Step.evalOne]
      constructor
      · intro h
        refine ⟨c, rfl, ?_⟩
        cases hp : s.process c g (if s.needsUnapplied then some [] else none) with
        | error e => rw [hp] at h; cases h
        | ok r => rw [hp] at h; exact ⟨r, hp, h⟩
      · rintro ⟨a, h, r, hp, ht⟩
        cases h
        rw [hp]; exact ht
  have hchunk : ∀ {ts : List (Graph ι δ → List (Yield ι))}, s.runChunked dry ts g = (.ok (t, p), g') ↔
      InTurn (fun y g t p g' => ∃ css, y g = css.map Yield.chunk ∧ InTurn (ChunkRuns s dry) css g t p g') ts g t p g' := by
    intro ts
    unfold Step.runChunked
    rw [inTurn_iff]
    intro y g t p g'
    rw [PyM.bind_ok (PyM.get_run g), ← inTurn_forms, inTurn_iff]
    intro y g t p g'
    unfold Step.runChunk
    cases y with
    | single c =>
      simp only
      constructor
      · intro h; cases h
      · rintro ⟨a, h, _⟩; cases h
    | chunk c =>
      simp only
      constructor
      · intro h
        refine ⟨c, rfl, ?_⟩
        cases hp : s.evalChunk g c with
        | error e => rw [hp] at h; cases h
        | ok r => rw [hp] at h; exact ⟨r, evalChunk_iff.1 hp, h⟩
      · rintro ⟨a, h, r, hp, ht⟩
        cases h
        rw [evalChunk_iff.2 hp]; exact ht
  unfold Step.execute
  constructor
  · intro h
    cases hg : s.gen g with
    | error e => rw [hg] at h; cases h
    | ok ts =>
      rw [hg] at h
      simp only at h
      cases hc : s.chunked with
      | true =>
        rw [hc, if_pos rfl] at h
        exact .chunks hc ts hg (hchunk.1 h)
      | false =>
        rw [hc] at h
        simp only [Bool.false_eq_true, if_false] at h
        cases hs : s.applySync with
        | true =>
          rw [hs, if_pos rfl] at h
          obtain ⟨cs, h1, h2⟩ := hsync.1 h
          exact .sync hc hs ts hg cs h1 h2
        | false =>
          rw [hs] at h
          simp only [Bool.false_eq_true, if_false] at h
          cases he : s.evalSeq g (forceOn g ts) [] with
          | error e => rw [he] at h; cases h
          | ok rs =>
            rw [he] at h
            obtain ⟨cs, new, h1, h2, h3⟩ := answers_iff.1 he
            rw [List.nil_append] at h2
            subst h2
            exact .whole hc hs ts hg cs h1 _ h3 h
  · intro h
    cases h with
    | whole hc hs ts hg cs hcs rs ha ht =>
      rw [hg]
      simp only [hc, hs, Bool.false_eq_true, if_false]
      have he : s.evalSeq g (forceOn g ts) [] = .ok rs := answers_iff.2 ⟨cs, rs, hcs, rfl, ha⟩
      rw [he]
      exact ht
    | sync hc hs ts hg cs hcs h =>
      rw [hg]
      simp only [hc, hs, Bool.false_eq_true, if_false, if_true]
      exact hsync.2 ⟨cs, hcs, h⟩
    | chunks hc ts hg h =>
      rw [hg]
      simp only [hc, if_true]
      exact hchunk.2 h

theorem innerRuns_iff {dry : Bool} {steps : List (Step ι δ)} {g g' : Graph ι δ} {rs : List (StepRec ι δ)}
    {ts : List (TestResult ι δ)} : runInner dry steps g = (.ok (rs, ts), g') ↔ InnerRuns dry steps g rs ts g' := by
  induction steps generalizing g rs ts with
  | nil =>
    constructor
    · intro h; cases h; exact .nil _
    · intro h; cases h; rfl
  | cons s ss ih =>
    unfold runInner
    rw [PyM.bind_run]
    constructor
    · intro h
      generalize hx : s.execute dry g = x at h
      obtain ⟨e | ⟨t, p⟩, g1⟩ := x
      · cases h
      · simp only at h
        rw [PyM.bind_run] at h
        generalize hy : runInner dry ss g1 = y at h
        obtain ⟨e | ⟨rs2, ts2⟩, g2⟩ := y
        · cases h
        · cases h
          exact .cons (stepRuns_iff.1 hx) (ih.1 hy)
    · intro h
      cases h with
      | cons h hs =>
        rw [stepRuns_iff.2 h]
        simp only
        rw [PyM.bind_run, ih.2 hs]
        rfl

/-- a finished loop ran its rounds; conversely with enough fuel -/
theorem rounds_iff {steps : List (Step ι δ)} {exit : Graph ι δ → Option (List (TestResult ι δ)) → Nat → Except PyErr Bool}
    {n : Nat} {taken : Option (List (TestResult ι δ))} {g g' : Graph ι δ} {rs : List (StepRec ι δ)} :
    (∃ fuel, loopGo steps exit fuel n taken g = (.ok rs, g')) ↔ Rounds steps exit n taken g rs g' := by
  constructor
  · rintro ⟨fuel, h⟩
    induction fuel generalizing n taken g rs with
    | zero => cases h
    | succ fuel ih =>
      unfold loopGo at h
      cases he : exit g taken n with
      | error e => rw [he] at h; cases h
      | ok b =>
        rw [he] at h
        cases b with
        | true => cases h; exact .stop he
        | false =>
          simp only at h
          generalize hx : runInner false steps g = x at h
          obtain ⟨e | ⟨rs1, ts⟩, g1⟩ := x
          · cases h
          · simp only at h
            generalize hy : loopGo steps exit fuel (n + 1) (some ts) g1 = y at h
            obtain ⟨e | more, g2⟩ := y
            · cases h
            · cases h
              exact .round he (innerRuns_iff.1 hx) (ih hy)
  · intro h
    induction h with
    | stop he => exact ⟨1, by unfold loopGo; rw [he]⟩
    | round he hr _ ih =>
      obtain ⟨fuel, ih⟩ := ih
      refine ⟨fuel + 1, ?_⟩
      unfold loopGo
      rw [he]
      simp only
      rw [innerRuns_iff.2 hr]
      simp only
      rw [ih]

theorem together_iff {steps : List (Step ι δ)} {g g' : Graph ι δ} {rs : List (StepRec ι δ)} :
    runTogether steps g = (.ok rs, g') ↔
      ∃ ts t p, InnerRuns true steps g rs ts g ∧ takeAction false [some ts] g = (.ok (t, p), g') := by
  have hd := runInner_dry_snd steps g
  unfold runTogether
  rw [PyM.bind_run]
  constructor
  · intro h
    generalize hx : runInner true steps g = x at h hd
    obtain ⟨e | ⟨rs', as⟩, g1⟩ := x
    · cases h
    · simp only at hd
      subst hd
      simp only at h
      rw [PyM.bind_run] at h
      generalize hy : takeAction false (as.map (fun a => some [a])) g1 = y at h
      obtain ⟨e | ⟨t, p⟩, g2⟩ := y
      · cases h
      · cases h
        refine ⟨as, t, p, innerRuns_iff.1 hx, ?_⟩
        rw [takeAction_flat] at hy ⊢
        have : flatten (as.map (fun a => some [a])) = flatten [some as] := by simp [flatten, List.flatMap_map]
        rwa [this] at hy
  · rintro ⟨ts, t, p, h1, h2⟩
    rw [innerRuns_iff.2 h1]
    simp only
    rw [PyM.bind_run]
    have : takeAction false (ts.map (fun a => some [a])) g = (.ok (t, p), g') := by
      rw [takeAction_flat] at h2 ⊢
      have : flatten (ts.map (fun a => some [a])) = flatten [some ts] := by simp [flatten, List.flatMap_map]
      rwa [this]
    rw [this]
    rfl

end Verif
