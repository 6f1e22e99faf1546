import Verif.Pipeline.Lemmas

/-!
# Invariants of pipelines

`P` is a property of graphs, `Q` a property of proposed actions.
-/

namespace Verif
open Graph
variable {ι δ : Type} [DecidableEq ι]

/-- applying `Q`-actions and purging keep `P` -/
structure Kept (P : Graph ι δ → Prop) (Q : TestResult ι δ → Prop) : Prop where
  apply : ∀ r g, P g → Q r → P (applyOne r g).2
  purge : ∀ g, P g → P (Graph.purge g).2

/-- On `P`-graphs the generator hands out `R`-combinations only, and on `P`-graphs and `R`-combinations `process`
proposes `Q`-actions only. -/
structure Step.SafeFor (R : List ι → Prop) (P : Graph ι δ → Prop) (Q : TestResult ι δ → Prop) (s : Step ι δ) : Prop where
  gen : ∀ g0 ts, P g0 → s.gen g0 = .ok ts → ∀ t ∈ ts, ∀ g, P g → ∀ y ∈ t g, ∀ c ∈ y.combos, R c
  process : ∀ c g u rs, P g → R c → s.process c g u = .ok (some rs) → ∀ r ∈ rs, Q r

/-- on `P`-graphs the step proposes `Q`-actions only -/
def Step.Safe (P : Graph ι δ → Prop) (Q : TestResult ι δ → Prop) (s : Step ι δ) : Prop := ∃ R, s.SafeFor R P Q

/-- the plain steps inside a configured step -/
def PStep.steps : PStep ι δ → List (Step ι δ)
  | .plain s => [s]
  | .loop _ ss _ => ss
  | .together _ ss => ss

variable {P : Graph ι δ → Prop} {Q : TestResult ι δ → Prop}

theorem Kept.takeItems (k : Kept P Q) (dry : Bool) (rs : List (TestResult ι δ)) (hq : ∀ r ∈ rs, Q r) {g : Graph ι δ}
    (hg : P g) : P (Graph.takeItems dry rs g).2 := by
  cases dry with
  | true => rw [takeItems_dry]; exact hg
  | false => exact takeItems_inv P rs (fun r hr g hg => k.apply r g hg (hq r hr)) hg

theorem Kept.takeAction (k : Kept P Q) (dry : Bool) (rs : Results ι δ)
    (hq : ∀ l, some l ∈ rs → ∀ r ∈ l, Q r) {g : Graph ι δ} (hg : P g) : P (Graph.takeAction dry rs g).2 := by
  rw [takeAction_snd]
  refine k.takeItems dry _ ?_ hg
  intro r hr
  obtain ⟨o, ho, hr⟩ := List.mem_flatMap.1 hr
  cases o with
  | none => cases hr
  | some l => exact hq l ho r hr

omit [DecidableEq ι] in
theorem Step.SafeFor.evalChunk {R : List ι → Prop} {s : Step ι δ} (hs : s.SafeFor R P Q) {g : Graph ι δ} (hg : P g)
    (cs : List (List ι)) (hR : ∀ c ∈ cs, R c)
    (rs : Results ι δ) (h : s.evalChunk g cs = .ok rs) : ∀ l, some l ∈ rs → ∀ r ∈ l, Q r := by
  intro l hl
  obtain ⟨c, hc', hc⟩ := s.evalChunk_mem g cs rs h _ hl
  exact hs.process c g none l hg (hR c hc') hc

omit [DecidableEq ι] in
theorem Step.SafeFor.evalSeq {R : List ι → Prop} {s : Step ι δ} (hs : s.SafeFor R P Q) {g : Graph ι δ} (hg : P g)
    (ys : List (Yield ι)) (hR : ∀ y ∈ ys, ∀ c ∈ y.combos, R c)
    (rs : Results ι δ) (h : s.evalSeq g ys [] = .ok rs) : ∀ l, some l ∈ rs → ∀ r ∈ l, Q r := by
  intro l hl
  obtain ⟨new, rfl, hn⟩ := s.evalSeq_mem g ys [] rs h
  obtain ⟨c, u, hy, hc⟩ := hn _ (by simpa using hl)
  exact hs.process c g u l hg (hR _ hy c (by simp [Yield.combos])) hc

theorem Step.Safe.execute {s : Step ι δ} (k : Kept P Q) (hs : s.Safe P Q) (dry : Bool) {g : Graph ι δ} (hg : P g) :
    P (s.execute dry g).2 := by
  obtain ⟨R, hs⟩ := hs
  unfold Step.execute
  cases hts : s.gen g with
  | error e => exact hg
  | ok ts =>
    have hR := hs.gen g ts hg hts
    simp only
    split
    · refine Step.gather_inv P _ ts (fun t ht g hg => ?_) hg
      rw [PyM.bind_ok (PyM.get_run g)]
      have hR' := hR t ht g hg
      refine Step.gather_inv P _ _ (fun y hy g hg => ?_) hg
      unfold Step.runChunk
      cases y with
      | single c => exact hg
      | chunk cs =>
        simp only
        cases hx : s.evalChunk g cs with
        | error e => exact hg
        | ok rs => exact k.takeAction dry rs (hs.evalChunk hg cs (hR' _ hy) rs hx) hg
    · have hR' : ∀ y ∈ forceOn g ts, ∀ c ∈ y.combos, R c := by
        intro y hy
        obtain ⟨t, ht, hy⟩ := (Step.mem_forceOn g ts y).1 hy
        exact hR t ht g hg y hy
      split
      · refine Step.gather_inv P _ _ (fun y hy g hg => ?_) hg
        unfold Step.runSync
        cases hx : s.evalOne g y [] with
        | error e => exact hg
        | ok r =>
          refine k.takeAction dry [r] ?_ hg
          intro l hl
          rw [List.mem_singleton] at hl
          subst hl
          unfold Step.evalOne at hx
          cases y with
          | chunk cs => cases hx
          | single c => exact hs.process c g _ l hg (hR' _ hy c (by simp [Yield.combos])) hx
      · cases hx : s.evalSeq g (forceOn g ts) [] with
        | error e => exact hg
        | ok rs => exact k.takeAction dry rs (hs.evalSeq hg _ hR' rs hx) hg

theorem runInner_dry_safe (ss : List (Step ι δ)) (hs : ∀ s ∈ ss, s.Safe P Q) {g : Graph ι δ} (hg : P g)
    (rs : List (StepRec ι δ)) (ts : List (TestResult ι δ)) (g' : Graph ι δ)
    (h : runInner true ss g = (.ok (rs, ts), g')) : ∀ r ∈ ts, Q r := by
  obtain ⟨h1, rfl⟩ := runInner_dry ss g rs ts g' h
  intro r hr
  obtain ⟨x, hx, hrx⟩ := List.mem_flatMap.1 hr
  clear h hr
  induction h1 with
  | nil => cases hx
  | cons hd tl ih =>
    rename_i s y ss ys
    rcases List.mem_cons.1 hx with rfl | hx
    · obtain ⟨_, hp⟩ := s.execute_dry g _ _ _ hd.2
      obtain ⟨c, u, l, ⟨ts', t, y, h1, h2, h3, h4⟩, hc, hrl⟩ := hp r hrx
      obtain ⟨R, hR⟩ := hs s List.mem_cons_self
      exact hR.process c g u l hg (hR.gen g ts' hg h1 t h2 g hg y h3 c h4) hc r hrl
    · exact ih (fun s hs' => hs s (List.mem_cons_of_mem _ hs')) hx

theorem runTogether_kept (k : Kept P Q) (ss : List (Step ι δ)) (hs : ∀ s ∈ ss, s.Safe P Q) {g : Graph ι δ}
    (hg : P g) : P (runTogether ss g).2 := by
  unfold runTogether
  rw [PyM.bind_run]
  have hd := runInner_dry_snd ss g
  generalize hx : runInner true ss g = x at hd
  obtain ⟨e | ⟨rs, ts⟩, g1⟩ := x
  · simp only at hd; subst hd; exact hg
  · simp only at hd; subst hd
    simp only
    rw [PyM.bind_run]
    have hq := runInner_dry_safe ss hs hg rs ts g1 hx
    have := k.takeAction false (ts.map (fun a => some [a])) (g := g1) (by
      intro l hl r hr
      obtain ⟨a, ha, hal⟩ := List.mem_map.1 hl
      simp only [Option.some.injEq] at hal
      subst hal
      rw [List.mem_singleton] at hr
      subst hr
      exact hq r ha) hg
    generalize Graph.takeAction false (ts.map (fun a => some [a])) g1 = y at this
    obtain ⟨e | tp, g2⟩ := y <;> exact this

theorem PStep.run_kept (k : Kept P Q) (fuel : Nat) (p : PStep ι δ) (hs : ∀ s ∈ p.steps, s.Safe P Q) {m : GModel ι δ}
    (hm : P m.graph) : P (p.run fuel m).2.graph := by
  cases p with
  | plain s =>
    rw [PStep.run_plain, PyM.bind_run, onGraph_run]
    have h1 := (hs s (by simp [PStep.steps])).execute k false hm
    generalize s.execute false m.graph = x at h1
    obtain ⟨e | tp, g1⟩ := x
    · exact h1
    · simp only
      rw [PyM.bind_run]
      simp only [appendHistory, PyM.mod_run, onGraph_run]
      exact k.purge g1 h1
  | loop name steps exit =>
    rw [PStep.run_loop, PyM.bind_run, onGraph_run]
    have h1 := loopGo_inv P steps exit (fun s hs' g hg => (hs s hs').execute k false hg) fuel 0 none hm
    generalize loopGo steps exit fuel 0 none m.graph = x at h1
    obtain ⟨e | rs, g1⟩ := x <;> exact h1
  | together name steps =>
    rw [PStep.run_together, PyM.bind_run, onGraph_run]
    have h1 := runTogether_kept k steps hs hm
    generalize runTogether steps m.graph = x at h1
    obtain ⟨e | rs, g1⟩ := x <;> exact h1

/-- An invariant kept by all proposed actions holds after every run, also after one that raises. -/
theorem runPipeline_kept (k : Kept P Q) (fuel : Nat) (ps : List (PStep ι δ))
    (hs : ∀ p ∈ ps, ∀ s ∈ p.steps, s.Safe P Q) {m : GModel ι δ} (hm : P m.graph) :
    P (runPipeline fuel ps m).2.graph := by
  unfold runPipeline
  exact PyM.forEach_invariant (fun m => P m.graph) (PStep.run fuel) ps
    (fun p hp m hm => PStep.run_kept k fuel p (hs p hp) hm) m hm

/-! ## runs without exception -/

/-- On `P`-graphs nothing the step does raises. -/
structure Step.TotalFor (R : List ι → Prop) (P : Graph ι δ → Prop) (s : Step ι δ) : Prop where
  sync : s.applySync = false
  gen : ∀ g, P g → ∃ ts, s.gen g = .ok ts
  shape : ∀ g0 ts, P g0 → s.gen g0 = .ok ts → ∀ t ∈ ts, ∀ g, P g → ∀ y ∈ t g,
    if s.chunked then ∃ cs, y = .chunk cs else ∃ c, y = .single c
  process : ∀ c g u, P g → R c → ∃ o, s.process c g u = .ok o

/-- applying `Q`-actions to `P`-graphs never raises -/
def ApplyTotal (P : Graph ι δ → Prop) (Q : TestResult ι δ → Prop) : Prop :=
  ∀ r g, P g → Q r → ∃ b g', applyOne r g = (.ok b, g')

theorem takeItems_ok (ha : ApplyTotal P Q) (k : Kept P Q) (rs : List (TestResult ι δ)) (hq : ∀ r ∈ rs, Q r)
    {g : Graph ι δ} (hg : P g) : ∃ t g', Graph.takeItems false rs g = (.ok t, g') := by
  induction rs generalizing g with
  | nil => exact ⟨[], g, rfl⟩
  | cons r rs ih =>
    rw [takeItems_cons]
    obtain ⟨b, g1, h1⟩ := ha r g hg (hq r List.mem_cons_self)
    have hg1 : P g1 := by have := k.apply r g hg (hq r List.mem_cons_self); rwa [h1] at this
    obtain ⟨t, g2, h2⟩ := ih (fun r hr => hq r (List.mem_cons_of_mem _ hr)) hg1
    rw [h1]
    simp only
    rw [h2]
    exact ⟨_, _, rfl⟩

theorem takeAction_ok (ha : ApplyTotal P Q) (k : Kept P Q) (rs : Results ι δ) (hq : ∀ l, some l ∈ rs → ∀ r ∈ l, Q r)
    {g : Graph ι δ} (hg : P g) : ∃ tp g', Graph.takeAction false rs g = (.ok tp, g') := by
  have hq' : ∀ r ∈ flatten rs, Q r := by
    intro r hr
    obtain ⟨o, ho, hr⟩ := List.mem_flatMap.1 hr
    cases o with
    | none => cases hr
    | some l => exact hq l ho r hr
  obtain ⟨t, g', h⟩ := takeItems_ok ha k (flatten rs) hq' hg
  rw [takeAction_flat, h]
  exact ⟨_, _, rfl⟩

omit [DecidableEq ι] in
theorem gather_ok {α : Type} (body : α → PyM (Graph ι δ) (List (TestResult ι δ) × List (TestResult ι δ)))
    (l : List α) (hb : ∀ a ∈ l, ∀ g, P g → ∃ tp g', body a g = (.ok tp, g') ∧ P g') {g : Graph ι δ} (hg : P g) :
    ∃ tp g', Step.gather body l g = (.ok tp, g') ∧ P g' := by
  induction l generalizing g with
  | nil => exact ⟨([], []), g, rfl, hg⟩
  | cons a as ih =>
    obtain ⟨tp, g1, h1, hg1⟩ := hb a List.mem_cons_self g hg
    obtain ⟨tp2, g2, h2, hg2⟩ := ih (fun a ha => hb a (List.mem_cons_of_mem _ ha)) hg1
    rw [Step.gather_cons, h1]
    simp only
    rw [h2]
    exact ⟨_, g2, rfl, hg2⟩

omit [DecidableEq ι] in
theorem Step.TotalFor.evalChunk {R : List ι → Prop} {s : Step ι δ} (ht : s.TotalFor R P) {g : Graph ι δ} (hg : P g)
    (cs : List (List ι)) (hR : ∀ c ∈ cs, R c) : ∃ rs, s.evalChunk g cs = .ok rs := by
  induction cs with
  | nil => exact ⟨[], rfl⟩
  | cons c cs ih =>
    obtain ⟨o, ho⟩ := ht.process c g none hg (hR c List.mem_cons_self)
    obtain ⟨rs, hrs⟩ := ih (fun c hc => hR c (List.mem_cons_of_mem _ hc))
    unfold Step.evalChunk
    rw [ho]
    simp only
    rw [hrs]
    exact ⟨_, rfl⟩

omit [DecidableEq ι] in
theorem Step.TotalFor.evalSeq {R : List ι → Prop} {s : Step ι δ} (ht : s.TotalFor R P) {g : Graph ι δ} (hg : P g)
    (ys : List (Yield ι)) (hR : ∀ y ∈ ys, ∃ c, y = .single c ∧ R c) (loc : Results ι δ) :
    ∃ rs, s.evalSeq g ys loc = .ok rs := by
  induction ys generalizing loc with
  | nil => exact ⟨loc, rfl⟩
  | cons y ys ih =>
    obtain ⟨c, rfl, hc⟩ := hR y List.mem_cons_self
    obtain ⟨o, ho⟩ := ht.process c g (if s.needsUnapplied then some loc else none) hg hc
    unfold Step.evalSeq Step.evalOne
    simp only
    rw [ho]
    exact ih (fun y hy => hR y (List.mem_cons_of_mem _ hy)) _

/-- A total step that only proposes actions whose application cannot raise never raises. -/
theorem Step.execute_ok {R : List ι → Prop} {s : Step ι δ} (ha : ApplyTotal P Q) (k : Kept P Q) (hs : s.SafeFor R P Q)
    (ht : s.TotalFor R P) {g : Graph ι δ} (hg : P g) : ∃ tp g', s.execute false g = (.ok tp, g') ∧ P g' := by
  have hsafe : s.Safe P Q := ⟨R, hs⟩
  have hP := hsafe.execute k false hg
  suffices h : ∃ tp g', s.execute false g = (.ok tp, g') by
    obtain ⟨tp, g', h⟩ := h
    rw [h] at hP
    exact ⟨tp, g', h, hP⟩
  obtain ⟨ts, hts⟩ := ht.gen g hg
  have hR := hs.gen g ts hg hts
  have hsh := ht.shape g ts hg hts
  unfold Step.execute
  rw [hts]
  simp only [ht.sync, Bool.false_eq_true, if_false]
  by_cases hc : s.chunked = true
  · rw [if_pos hc]
    unfold Step.runChunked
    have key : ∃ tp g', Step.gather (fun t => (PyM.get >>= fun g => Step.gather (s.runChunk false) (t g))) ts g =
        (.ok tp, g') ∧ P g' := by
      refine gather_ok (P := P) _ ts ?_ hg
      intro t htt g1 hg1
      rw [PyM.bind_ok (PyM.get_run g1)]
      have hR' := hR t htt g1 hg1
      have hsh' := hsh t htt g1 hg1
      refine gather_ok (P := P) _ (t g1) ?_ hg1
      intro y hy g2 hg2
      have := hsh' y hy
      rw [if_pos hc] at this
      obtain ⟨cs, rfl⟩ := this
      obtain ⟨rs, hrs⟩ := ht.evalChunk hg2 cs (hR' _ hy)
      have hq := hs.evalChunk hg2 cs (hR' _ hy) rs hrs
      obtain ⟨tp, g3, h3⟩ := takeAction_ok ha k rs hq hg2
      have hg3 := k.takeAction false rs hq hg2
      rw [h3] at hg3
      refine ⟨tp, g3, ?_, hg3⟩
      unfold Step.runChunk
      simp only
      rw [hrs]
      exact h3
    obtain ⟨tp, g', h, _⟩ := key
    exact ⟨tp, g', h⟩
  · rw [if_neg hc]
    have hy : ∀ y ∈ forceOn g ts, ∃ c, y = .single c ∧ R c := by
      intro y hy
      obtain ⟨t, htt, hy⟩ := (Step.mem_forceOn g ts y).1 hy
      have := hsh t htt g hg y hy
      rw [if_neg hc] at this
      obtain ⟨c, rfl⟩ := this
      exact ⟨c, rfl, hR t htt g hg _ hy c (by simp [Yield.combos])⟩
    obtain ⟨rs, hrs⟩ := ht.evalSeq hg _ hy []
    rw [hrs]
    refine takeAction_ok ha k rs ?_ hg
    refine hs.evalSeq hg _ ?_ rs hrs
    intro y hy' c hcc
    obtain ⟨c', rfl, hc'⟩ := hy y hy'
    simp only [Yield.combos, List.mem_singleton] at hcc
    rw [hcc]; exact hc'

/-- every action of an applied batch leaves its mark, if later actions do not undo it -/
theorem takeItems_each (k : Kept P Q) (D : TestResult ι δ → Graph ι δ → Prop)
    (h1 : ∀ r g, P g → Q r → D r (applyOne r g).2) (h2 : ∀ r r' g, P g → Q r' → D r g → D r (applyOne r' g).2)
    (rs : List (TestResult ι δ)) (hq : ∀ r ∈ rs, Q r) {g g' : Graph ι δ} (hg : P g) (t : List (TestResult ι δ))
    (h : Graph.takeItems false rs g = (.ok t, g')) : ∀ r ∈ rs, D r g' := by
  induction rs generalizing g t with
  | nil => intro r hr; cases hr
  | cons r rs ih =>
    rw [takeItems_cons] at h
    have hg1 := k.apply r g hg (hq r List.mem_cons_self)
    have hd1 := h1 r g hg (hq r List.mem_cons_self)
    generalize applyOne r g = x at h hg1 hd1
    obtain ⟨e | b, g1⟩ := x
    · cases h
    · simp only at h hg1 hd1
      generalize hy : Graph.takeItems false rs g1 = y at h
      obtain ⟨e | t1, g2⟩ := y
      · cases h
      · simp only [Prod.mk.injEq] at h
        obtain ⟨_, rfl⟩ := h
        intro r' hr'
        rcases List.mem_cons.1 hr' with rfl | hr'
        · have := takeItems_inv (fun g => P g ∧ D r' g) rs
            (fun r'' hr'' g hg => ⟨k.apply r'' g hg.1 (hq r'' (List.mem_cons_of_mem _ hr'')),
              h2 r' r'' g hg.1 (hq r'' (List.mem_cons_of_mem _ hr'')) hg.2⟩) (g := g1) ⟨hg1, hd1⟩
          rw [hy] at this
          exact this.2
        · exact ih (fun r hr => hq r (List.mem_cons_of_mem _ hr)) hg1 t1 hy r' hr'

end Verif
