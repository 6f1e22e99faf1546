import Verif.Deaths.Lemmas
import Verif.Par.Props

/-!
# Properties of the worker pool when workers are killed (C126)
-/

namespace Verif
open Graph
variable {ι δ : Type} [DecidableEq ι]

/-- **C126 (never wrong).** Whichever workers are killed, and whenever: if the step ends, its outcome (graph, recorded actions,
exception) is one that is possible without deaths; and at every moment the graph and the recorded actions are those of some
moment of an undisturbed schedule. -/
theorem C126_never_wrong (s : Step ι δ) (dry : Bool) (size : Nat) (g : Graph ι δ) :
    (∀ out, Par.DRun s dry size g out → Par.Run s dry size g out) ∧
    ∀ ts d, Par.DTrans.Star s dry size ⟨.init g ts, []⟩ d → ∃ st, Par.Trans.Star s dry size (.init g ts) st ∧
      st.graph = d.st.graph ∧ st.taken = d.st.taken ∧ st.proposed = d.st.proposed := by
  constructor
  · intro out h
    cases h with
    | badSize h => exact .badSize h
    | badGen h e hg => exact .badGen h e hg
    | done h ts hg d hr hf =>
      obtain ⟨st, h1, h2⟩ := Par.found_star hr (Par.found_init g ts)
      rw [← h2.taken, ← h2.proposed, ← h2.graph]
      exact .done h ts hg st h1 (Par.found_finished h2 hf)
    | raised h ts hg d hr e g' hf =>
      obtain ⟨st, h1, h2⟩ := Par.found_star hr (Par.found_init g ts)
      exact .raised h ts hg st h1 e g' (Par.found_raises h2 hf)
  · intro ts d hr
    obtain ⟨st, h1, h2⟩ := Par.found_star hr (Par.found_init g ts)
    exact ⟨st, h1, h2.graph, h2.taken, h2.proposed⟩

/-- **C126 (whole pipelines).** Every outcome of a pipeline during which workers are killed is an outcome of the pipeline
without deaths, so that everything proved about all schedules (C79 to C85, C115) still holds; and without deaths nothing is
excluded. -/
theorem C126_pipeline (fuel : Nat) (stages : List (Stage ι δ)) (m : GModel ι δ) (out : Except PyErr Unit × GModel ι δ) :
    Stages.DRun fuel stages m out ↔ Stages.Run fuel stages m out := by
  have run : ∀ (s : Step ι δ) dry size g out, Par.Run s dry size g out → Par.DRun s dry size g out := by
    intro s dry size g out h
    cases h with
    | badSize h => exact .badSize h
    | badGen h e hg => exact .badGen h e hg
    | done h ts hg st hr hf => exact .done h ts hg ⟨st, []⟩ (Par.dstar_work [] hr) ⟨hf, rfl⟩
    | raised h ts hg st hr e g' hf => exact .raised h ts hg ⟨st, []⟩ (Par.dstar_work [] hr) e g' hf
  have stage : ∀ (x : Stage ι δ) m out, x.DRun fuel m out ↔ x.Run fuel m out := by
    intro x m out
    constructor
    · intro h
      cases h with
      | seq p m => exact .seq p m
      | par s size m t p g' h => exact .par s size m t p g' ((C126_never_wrong s false size m.graph).1 _ h)
      | raised s size m e g' h => exact .raised s size m e g' ((C126_never_wrong s false size m.graph).1 _ h)
    · intro h
      cases h with
      | seq p m => exact .seq p m
      | par s size m t p g' h => exact .par s size m t p g' (run s false size m.graph _ h)
      | raised s size m e g' h => exact .raised s size m e g' (run s false size m.graph _ h)
  constructor
  · intro h
    induction h with
    | nil m => exact .nil m
    | cons x xs m m' out h _ ih => exact .cons x xs m m' out ((stage x m _).1 h) ih
    | raised x xs m e m' h => exact .raised x xs m e m' ((stage x m _).1 h)
  · intro h
    induction h with
    | nil m => exact .nil m
    | cons x xs m m' out h _ ih => exact .cons x xs m m' out ((stage x m _).2 h) ih
    | raised x xs m e m' h => exact .raised x xs m e m' ((stage x m _).2 h)

/-- **C126 (partial).** No schedule goes on forever, and where a schedule stops, the step is finished, raises, or waits forever;
it waits forever exactly if everything else is done and some batch was lost. -/
theorem C126_ends_or_waits_partial (s : Step ι δ) (dry : Bool) (size : Nat) (hsize : size ≠ 0) :
    (∀ f : Nat → Par.DState ι δ, ¬ ∀ n, Par.DTrans s dry size (f n) (f (n + 1))) ∧
    (∀ d : Par.DState ι δ, (∀ d', ¬ Par.DTrans s dry size d d') →
      d.Finished ∨ (∃ e g', Par.Raises dry d.st e g') ∨ d.Waits s dry size) ∧
    ∀ d : Par.DState ι δ, d.Waits s dry size ↔ d.st.Finished ∧ d.lost ≠ [] := by
  refine ⟨?_, ?_, ?_⟩
  · intro f h
    have key : ∀ d : Par.DState ι δ, ∀ n, f n ≠ d := by
      intro d
      induction d using (Par.dtrans_wf s dry hsize).induction with
      | _ d ih =>
        intro n e
        exact ih (f (n + 1)) (e ▸ h n) (n + 1) rfl
    exact key (f 0) 0 rfl
  · intro d hd
    by_cases h1 : d.Finished
    · exact .inl h1
    · by_cases h2 : ∃ e g', Par.Raises dry d.st e g'
      · exact .inr (.inl h2)
      · exact .inr (.inr ⟨h1, hd, fun e g' h => h2 ⟨e, g', h⟩⟩)
  · intro d
    constructor
    · rintro ⟨h1, h2, h3⟩
      rcases Par.progress s dry hsize d.st with h | ⟨st', h⟩ | ⟨e, g', h⟩
      · exact ⟨h, fun hl => h1 ⟨h, hl⟩⟩
      · exact absurd (.work d st' h) (h2 _)
      · exact absurd h (h3 e g')
    · rintro ⟨h1, h2⟩
      obtain ⟨h3, h4⟩ := Par.finished_stuck (s := s) (dry := dry) (size := size) h1
      exact ⟨fun h => h2 h.2, h3, h4⟩

/-- **C126 (negation).** One death is enough: after it the step never succeeds, whatever the schedule, so unless it raises, it
waits forever.  And this can always happen: every step with at least one combination has a schedule with deaths after which
it waits forever, with the graph as it was. -/
theorem C126_waits_forever (s : Step ι δ) (dry : Bool) (size : Nat) (hsize : size ≠ 0) :
    (∀ d d' : Par.DState ι δ, d.lost ≠ [] → Par.DTrans.Star s dry size d d' → ¬ d'.Finished ∧
      ((∀ d'', ¬ Par.DTrans s dry size d' d'') → (∃ e g', Par.Raises dry d'.st e g') ∨ d'.Waits s dry size)) ∧
    ∀ g ts, s.gen g = .ok ts → (∃ t ∈ ts, t g ≠ []) →
      ∃ d, Par.DTrans.Star s dry size ⟨.init g ts, []⟩ d ∧ d.Waits s dry size ∧ d.st.graph = g := by
  obtain ⟨-, hends, hwaits⟩ := C126_ends_or_waits_partial s dry size hsize
  constructor
  · intro d d' hl hr
    have hl' := Par.lost_star hr hl
    have hnf : ¬ d'.Finished := fun h => hl' h.2
    refine ⟨hnf, fun hstop => ?_⟩
    rcases hends d' hstop with h | h | h
    · exact absurd h hnf
    · exact .inl h
    · exact .inr h
  · intro g ts _ hne
    obtain ⟨d, h1, h2, h3, h4⟩ := Par.all_die s dry hsize ⟨.init g ts, []⟩ rfl rfl
    exact ⟨d, h1, (hwaits d).2 ⟨h2, h4 (.inr (.inr hne))⟩, h3⟩

/-- the hypotheses of the second part are met by the partial correlation test on the example graph -/
example : ∃ ts, (CI.partialStep exTests).gen exParGraph = .ok ts ∧ ∃ t ∈ ts, t exParGraph ≠ [] := by
  have h : (match (CI.partialStep exTests).gen exParGraph with
    | .ok ts => ts.any (fun t => !(t exParGraph).isEmpty)
    | .error _ => false) = true := by decide +kernel
  cases hx : (CI.partialStep exTests).gen exParGraph with
  | error e => rw [hx] at h; cases h
  | ok ts =>
    rw [hx] at h
    obtain ⟨t, ht, hne⟩ := List.any_eq_true.1 h
    refine ⟨ts, rfl, t, ht, fun he => ?_⟩
    rw [he] at hne
    cases hne

/-- a schedule with a death: the batch of the first combinations is lost -/
example : ∃ ts d, (CI.partialStep exTests).gen exParGraph = .ok ts ∧
    Par.DTrans.Star (CI.partialStep exTests) false 1 ⟨.init exParGraph ts, []⟩ d ∧ d.lost ≠ [] := by
  have h : (match (CI.partialStep exTests).gen exParGraph with
    | .ok ts => ts.any (fun t => !(t exParGraph).isEmpty)
    | .error _ => false) = true := by decide +kernel
  cases hx : (CI.partialStep exTests).gen exParGraph with
  | error e => rw [hx] at h; cases h
  | ok ts =>
    rw [hx] at h
    obtain ⟨t, ht, hne⟩ := List.any_eq_true.1 h
    obtain ⟨d, h1, h2, _⟩ := (C126_waits_forever (CI.partialStep exTests) false 1 (by decide)).2 exParGraph ts hx
      ⟨t, ht, fun he => by rw [he] at hne; cases hne⟩
    exact ⟨ts, d, rfl, h1, ((C126_ends_or_waits_partial _ false 1 (by decide)).2.2 d).1 h2 |>.2⟩

end Verif
