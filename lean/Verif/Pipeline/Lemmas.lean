import Verif.Pipeline.Model
import Verif.Action.Props
import Verif.Gen.Lemmas

/-!
# Helper lemmas about step execution
-/

namespace Verif
open Graph
variable {ι δ : Type} [DecidableEq ι]

namespace Step
variable {α : Type}

omit [DecidableEq ι] in
theorem gather_nil (body : α → PyM (Graph ι δ) (List (TestResult ι δ) × List (TestResult ι δ))) (g : Graph ι δ) :
    gather body [] g = (.ok ([], []), g) := rfl

omit [DecidableEq ι] in
theorem gather_cons (body : α → PyM (Graph ι δ) (List (TestResult ι δ) × List (TestResult ι δ))) (a : α) (as : List α)
    (g : Graph ι δ) : gather body (a :: as) g = match body a g with
      | (.ok tp, g') => (match gather body as g' with
        | (.ok tps, g'') => (.ok (tp.1 ++ tps.1, tp.2 ++ tps.2), g'')
        | (.error e, g'') => (.error e, g''))
      | (.error e, g') => (.error e, g') := by
  show ((body a >>= fun tp => gather body as >>= fun tps => pure (tp.1 ++ tps.1, tp.2 ++ tps.2)) g) = _
  rw [PyM.bind_run]
  generalize body a g = x
  obtain ⟨e | tp, g1⟩ := x
  · rfl
  · simp only
    rw [PyM.bind_run]
    generalize gather body as g1 = y
    obtain ⟨e | tps, g2⟩ := y <;> rfl

omit [DecidableEq ι] in
theorem gather_inv (P : Graph ι δ → Prop) (body : α → PyM (Graph ι δ) (List (TestResult ι δ) × List (TestResult ι δ)))
    (l : List α) (hb : ∀ a ∈ l, ∀ g, P g → P (body a g).2) {g : Graph ι δ} (hg : P g) : P (gather body l g).2 := by
  induction l generalizing g with
  | nil => exact hg
  | cons a as ih =>
    rw [gather_cons]
    have h1 := hb a List.mem_cons_self g hg
    generalize body a g = x at h1
    obtain ⟨e | tp, g1⟩ := x
    · exact h1
    · have h2 := ih (fun a ha => hb a (List.mem_cons_of_mem _ ha)) (g := g1) h1
      simp only
      generalize gather body as g1 = y at h2
      obtain ⟨e | tps, g2⟩ := y <;> exact h2

/-- Every state change made by executing a step is made by `_take_action`. -/
theorem execute_inv (P : Graph ι δ → Prop) (s : Step ι δ) (dry : Bool)
    (htake : ∀ rs g, P g → P (Graph.takeAction dry rs g).2) {g : Graph ι δ} (hg : P g) : P (s.execute dry g).2 := by
  unfold execute
  cases s.gen g with
  | error e => exact hg
  | ok ts =>
    simp only
    split
    · refine gather_inv P _ ts (fun t _ g hg => ?_) hg
      rw [PyM.bind_ok (PyM.get_run g)]
      refine gather_inv P _ _ (fun y _ g hg => ?_) hg
      unfold runChunk
      cases y with
      | single c => exact hg
      | chunk cs =>
        simp only
        cases s.evalChunk g cs with
        | error e => exact hg
        | ok rs => exact htake rs g hg
    · split
      · refine gather_inv P _ _ (fun y _ g hg => ?_) hg
        unfold runSync
        cases s.evalOne g y [] with
        | error e => exact hg
        | ok r => exact htake [r] g hg
      · cases s.evalSeq g (forceOn g ts) [] with
        | error e => exact hg
        | ok rs => exact htake rs g hg

theorem execute_reachable (s : Step ι δ) (dry : Bool) {g : Graph ι δ} (hg : Reachable g) :
    Reachable (s.execute dry g).2 :=
  execute_inv Reachable s dry (fun rs g hg => C11_actions_reachable g hg dry rs) hg

theorem execute_dry_snd (s : Step ι δ) (g : Graph ι δ) : (s.execute true g).2 = g := by
  refine execute_inv (fun g' => g' = g) s true (fun rs g' hg => ?_) rfl
  rw [C21_dry_run_pure]; exact hg

omit [DecidableEq ι] in
theorem evalChunk_mem (s : Step ι δ) (g : Graph ι δ) (cs : List (List ι)) (rs : Results ι δ)
    (h : s.evalChunk g cs = .ok rs) : ∀ r ∈ rs, ∃ c ∈ cs, s.process c g none = .ok r := by
  induction cs generalizing rs with
  | nil => simp [evalChunk] at h; simp [h]
  | cons c cs ih =>
    unfold evalChunk at h
    cases hp : s.process c g none with
    | error e => rw [hp] at h; cases h
    | ok r =>
      rw [hp] at h
      simp only at h
      cases hq : s.evalChunk g cs with
      | error e => rw [hq] at h; cases h
      | ok rs' =>
        rw [hq] at h
        simp only [Except.ok.injEq] at h
        subst h
        intro r' hr'
        rcases List.mem_cons.1 hr' with rfl | hr'
        · exact ⟨c, List.mem_cons_self, hp⟩
        · obtain ⟨c', hc', h'⟩ := ih rs' hq r' hr'
          exact ⟨c', List.mem_cons_of_mem _ hc', h'⟩

omit [DecidableEq ι] in
theorem evalSeq_mem (s : Step ι δ) (g : Graph ι δ) (ys : List (Yield ι)) (loc rs : Results ι δ)
    (h : s.evalSeq g ys loc = .ok rs) : ∃ new, rs = loc ++ new ∧
      ∀ r ∈ new, ∃ c u, Yield.single c ∈ ys ∧ s.process c g u = .ok r := by
  induction ys generalizing loc with
  | nil => simp only [evalSeq, Except.ok.injEq] at h; exact ⟨[], by simp [h]⟩
  | cons y ys ih =>
    unfold evalSeq at h
    cases hp : s.evalOne g y loc with
    | error e => rw [hp] at h; cases h
    | ok r =>
      rw [hp] at h
      simp only at h
      obtain ⟨new, h1, h2⟩ := ih _ h
      refine ⟨r :: new, by simp [h1], ?_⟩
      intro r' hr'
      rcases List.mem_cons.1 hr' with rfl | hr'
      · unfold evalOne at hp
        cases y with
        | chunk cs => cases hp
        | single c => exact ⟨c, _, List.mem_cons_self, hp⟩
      · obtain ⟨c, u, hc, h'⟩ := h2 r' hr'
        exact ⟨c, u, List.mem_cons_of_mem _ hc, h'⟩

omit [DecidableEq ι] in
theorem gather_dry (body : α → PyM (Graph ι δ) (List (TestResult ι δ) × List (TestResult ι δ)))
    (g : Graph ι δ) (Q : TestResult ι δ → Prop) (l : List α)
    (hb : ∀ a ∈ l, ∀ t p g', body a g = (.ok (t, p), g') → g' = g ∧ t = p ∧ ∀ r ∈ p, Q r)
    (t p : List (TestResult ι δ)) (g' : Graph ι δ) (h : gather body l g = (.ok (t, p), g')) :
    t = p ∧ ∀ r ∈ p, Q r := by
  induction l generalizing t p with
  | nil =>
    rw [gather_nil] at h
    simp only [Prod.mk.injEq, Except.ok.injEq] at h
    obtain ⟨⟨rfl, rfl⟩, _⟩ := h
    exact ⟨rfl, by simp⟩
  | cons a as ih =>
    rw [gather_cons] at h
    have h1 := hb a List.mem_cons_self
    generalize body a g = x at h h1
    obtain ⟨e | ⟨t1, p1⟩, g1⟩ := x
    · cases h
    · obtain ⟨rfl, rfl, hq⟩ := h1 t1 p1 g1 rfl
      simp only at h
      generalize hy : gather body as g1 = y at h
      obtain ⟨e | ⟨t2, p2⟩, g2⟩ := y
      · cases h
      · simp only [Prod.mk.injEq, Except.ok.injEq] at h
        obtain ⟨⟨rfl, rfl⟩, rfl⟩ := h
        obtain ⟨h3, h4⟩ := ih (fun a ha => hb a (List.mem_cons_of_mem _ ha)) t2 p2 hy
        subst h3
        refine ⟨rfl, ?_⟩
        intro r hr
        rcases List.mem_append.1 hr with hr | hr
        · exact hq r hr
        · exact h4 r hr

/-- the generator, started and advanced on `g`, hands out the combination `c` -/
def Generates (s : Step ι δ) (g : Graph ι δ) (c : List ι) : Prop :=
  ∃ ts t y, s.gen g = .ok ts ∧ t ∈ ts ∧ y ∈ t g ∧ c ∈ y.combos

/-- `r` was proposed by some call of `process` on the graph `g` and a combination generated on `g` -/
def ProposedOn (s : Step ι δ) (g : Graph ι δ) (r : TestResult ι δ) : Prop :=
  ∃ c u rs, s.Generates g c ∧ s.process c g u = .ok (some rs) ∧ r ∈ rs

omit [DecidableEq ι] in
theorem proposedOn_of_mem (s : Step ι δ) (g : Graph ι δ) (rs : Results ι δ)
    (h : ∀ o ∈ rs, ∃ c u, s.Generates g c ∧ s.process c g u = .ok o) : ∀ r ∈ proposed rs, s.ProposedOn g r := by
  intro r hr
  obtain ⟨o, ho, hro⟩ := List.mem_flatMap.1 hr
  obtain ⟨c, u, hg, hp⟩ := h o ho
  cases o with
  | none => cases hro
  | some l => exact ⟨c, u, l, hg, hp, hro⟩

omit [DecidableEq ι] in
theorem mem_forceOn (g : Graph ι δ) (ts : List (Graph ι δ → List (Yield ι))) (y : Yield ι) :
    y ∈ forceOn g ts ↔ ∃ t ∈ ts, y ∈ t g := List.mem_flatMap

/-- A dry run reports the same actions as taken and as proposed, all of them proposed on the given graph. -/
theorem execute_dry (s : Step ι δ) (g : Graph ι δ) (t p : List (TestResult ι δ)) (g' : Graph ι δ)
    (h : s.execute true g = (.ok (t, p), g')) : t = p ∧ ∀ r ∈ p, s.ProposedOn g r := by
  unfold execute at h
  cases hts : s.gen g with
  | error e => rw [hts] at h; cases h
  | ok ts =>
    rw [hts] at h
    simp only at h
    split at h
    · refine gather_dry _ g (s.ProposedOn g) ts ?_ t p g' h
      intro th hth t p g1 h1
      rw [PyM.bind_ok (PyM.get_run g)] at h1
      have key := gather_dry (s.runChunk true) g (s.ProposedOn g) (th g) ?_ t p g1 h1
      · refine ⟨?_, key⟩
        have hi := gather_inv (fun x => x = g) (s.runChunk true) (th g) (fun y _ g0 hg0 => ?_) (rfl : g = g)
        · rw [h1] at hi; exact hi
        · unfold runChunk
          cases y with
          | single c => exact hg0
          | chunk cs =>
            simp only
            cases s.evalChunk g0 cs with
            | error e => exact hg0
            | ok rs => simp only [C21_dry_run_pure]; exact hg0
      · intro y hy t p g1 h1
        unfold runChunk at h1
        cases y with
        | single c => cases h1
        | chunk cs =>
          simp only at h1
          cases hev : s.evalChunk g cs with
          | error e => rw [hev] at h1; cases h1
          | ok rs =>
            rw [hev] at h1
            simp only [C21_dry_run_pure, Prod.mk.injEq, Except.ok.injEq] at h1
            obtain ⟨⟨rfl, rfl⟩, rfl⟩ := h1
            refine ⟨rfl, rfl, proposedOn_of_mem s g rs ?_⟩
            intro o ho
            obtain ⟨c, hc, hp⟩ := evalChunk_mem s g cs rs hev o ho
            exact ⟨c, none, ⟨ts, th, .chunk cs, hts, hth, hy, hc⟩, hp⟩
    · split at h
      · refine gather_dry _ g (s.ProposedOn g) _ ?_ t p g' h
        intro y hy t p g1 h1
        unfold runSync at h1
        cases hev : s.evalOne g y [] with
        | error e => rw [hev] at h1; cases h1
        | ok r =>
          rw [hev] at h1
          simp only [C21_dry_run_pure, Prod.mk.injEq, Except.ok.injEq] at h1
          obtain ⟨⟨rfl, rfl⟩, rfl⟩ := h1
          refine ⟨rfl, rfl, proposedOn_of_mem s g [r] ?_⟩
          intro o ho
          rw [List.mem_singleton] at ho
          subst ho
          unfold evalOne at hev
          cases y with
          | chunk cs => cases hev
          | single c =>
            obtain ⟨th, hth, hy⟩ := (mem_forceOn g ts _).1 hy
            exact ⟨c, _, ⟨ts, th, .single c, hts, hth, hy, by simp [Yield.combos]⟩, hev⟩
      · cases hev : s.evalSeq g (forceOn g ts) [] with
        | error e => rw [hev] at h; cases h
        | ok rs =>
          rw [hev] at h
          simp only [C21_dry_run_pure, Prod.mk.injEq, Except.ok.injEq] at h
          obtain ⟨⟨rfl, rfl⟩, rfl⟩ := h
          refine ⟨rfl, proposedOn_of_mem s g rs ?_⟩
          intro o ho
          obtain ⟨new, rfl, h2⟩ := evalSeq_mem s g _ _ _ hev
          obtain ⟨c, u, hy, hp⟩ := h2 o (by simpa using ho)
          obtain ⟨th, hth, hy⟩ := (mem_forceOn g ts _).1 hy
          exact ⟨c, u, ⟨ts, th, .single c, hts, hth, hy, by simp [Yield.combos]⟩, hp⟩

end Step

theorem runInner_cons (dry : Bool) (s : Step ι δ) (ss : List (Step ι δ)) (g : Graph ι δ) :
    runInner dry (s :: ss) g = match s.execute dry g with
      | (.ok tp, g') => (match runInner dry ss g' with
        | (.ok rt, g'') => (.ok (⟨s.name, tp.1, tp.2⟩ :: rt.1, tp.1 ++ rt.2), g'')
        | (.error e, g'') => (.error e, g''))
      | (.error e, g') => (.error e, g') := by
  show ((s.execute dry >>= fun tp => runInner dry ss >>= fun rt =>
    pure ((⟨s.name, tp.1, tp.2⟩ : StepRec ι δ) :: rt.1, tp.1 ++ rt.2)) g) = _
  rw [PyM.bind_run]
  generalize s.execute dry g = x
  obtain ⟨e | tp, g1⟩ := x
  · rfl
  · simp only
    rw [PyM.bind_run]
    generalize runInner dry ss g1 = y
    obtain ⟨e | rt, g2⟩ := y <;> rfl

theorem runInner_inv (P : Graph ι δ → Prop) (dry : Bool) (ss : List (Step ι δ))
    (hs : ∀ s ∈ ss, ∀ g, P g → P (s.execute dry g).2) {g : Graph ι δ} (hg : P g) : P (runInner dry ss g).2 := by
  induction ss generalizing g with
  | nil => exact hg
  | cons s ss ih =>
    rw [runInner_cons]
    have h1 := hs s List.mem_cons_self g hg
    generalize s.execute dry g = x at h1
    obtain ⟨e | tp, g1⟩ := x
    · exact h1
    · have h2 := ih (fun s hs' => hs s (List.mem_cons_of_mem _ hs')) (g := g1) h1
      simp only
      generalize runInner dry ss g1 = y at h2
      obtain ⟨e | rt, g2⟩ := y <;> exact h2

theorem loopGo_inv (P : Graph ι δ → Prop) (steps : List (Step ι δ))
    (exit : Graph ι δ → Option (List (TestResult ι δ)) → Nat → Except PyErr Bool)
    (hs : ∀ s ∈ steps, ∀ g, P g → P (s.execute false g).2) (fuel n : Nat) (taken : Option (List (TestResult ι δ)))
    {g : Graph ι δ} (hg : P g) : P (loopGo steps exit fuel n taken g).2 := by
  induction fuel generalizing n taken g with
  | zero => exact hg
  | succ fuel ih =>
    unfold loopGo
    split
    · exact hg
    · exact hg
    · have h1 := runInner_inv P false steps hs hg
      generalize runInner false steps g = x at h1
      obtain ⟨e | rt, g1⟩ := x
      · exact h1
      · have h2 := ih (n + 1) (some rt.2) (g := g1) h1
        simp only
        generalize loopGo steps exit fuel (n + 1) (some rt.2) g1 = y at h2
        obtain ⟨e | more, g2⟩ := y <;> exact h2

theorem runInner_dry_snd (ss : List (Step ι δ)) (g : Graph ι δ) : (runInner true ss g).2 = g :=
  runInner_inv (fun x => x = g) true ss (fun s _ g' hg' => by rw [hg']; exact s.execute_dry_snd g) rfl

/-- what the inner loop of `ApplyActionsTogether` computes -/
theorem runInner_dry (ss : List (Step ι δ)) (g : Graph ι δ) (rs : List (StepRec ι δ)) (ts : List (TestResult ι δ))
    (g' : Graph ι δ) (h : runInner true ss g = (.ok (rs, ts), g')) :
    List.Forall₂ (fun s r => r.name = s.name ∧ s.execute true g = (.ok (r.actions, r.proposed), g)) ss rs ∧
      ts = rs.flatMap (fun r => r.proposed) := by
  induction ss generalizing rs ts with
  | nil =>
    have hh : ((.ok ([], []), g) : Except PyErr (List (StepRec ι δ) × List (TestResult ι δ)) × Graph ι δ) =
      (.ok (rs, ts), g') := h
    simp only [Prod.mk.injEq, Except.ok.injEq] at hh
    obtain ⟨⟨rfl, rfl⟩, _⟩ := hh
    exact ⟨.nil, rfl⟩
  | cons s ss ih =>
    rw [runInner_cons] at h
    have hd := s.execute_dry_snd g
    have hd2 := s.execute_dry g
    generalize hx : s.execute true g = x at h hd hd2
    obtain ⟨e | ⟨t1, p1⟩, g1⟩ := x
    · cases h
    · simp only at hd
      subst hd
      obtain ⟨htp, _⟩ := hd2 t1 p1 g1 rfl
      subst htp
      simp only at h
      generalize hy : runInner true ss g1 = y at h
      obtain ⟨e | ⟨rs2, ts2⟩, g2⟩ := y
      · cases h
      · simp only [Prod.mk.injEq, Except.ok.injEq] at h
        obtain ⟨⟨rfl, rfl⟩, rfl⟩ := h
        obtain ⟨i1, i2⟩ := ih rs2 ts2 hy
        refine ⟨.cons ⟨rfl, hx⟩ i1, ?_⟩
        rw [List.flatMap_cons, i2]

omit [DecidableEq ι] in
theorem onGraph_run {α : Type} (m : PyM (Graph ι δ) α) (s : GModel ι δ) :
    onGraph m s = ((m s.graph).1, { s with graph := (m s.graph).2 }) := rfl

theorem PStep.run_plain (fuel : Nat) (s : Step ι δ) (m : GModel ι δ) :
    (PStep.plain s).run fuel m = (onGraph (s.execute false) >>= fun tp =>
      appendHistory (.plain ⟨s.name, tp.1, tp.2⟩) >>= fun _ => onGraph Graph.purge) m := rfl

theorem PStep.run_loop (fuel : Nat) (name : String) (steps : List (Step ι δ))
    (exit : Graph ι δ → Option (List (TestResult ι δ)) → Nat → Except PyErr Bool) (m : GModel ι δ) :
    (PStep.loop name steps exit).run fuel m = (onGraph (loopGo steps exit fuel 0 none) >>= fun rs =>
      appendHistory (.logic name rs)) m := rfl

theorem PStep.run_together (fuel : Nat) (name : String) (steps : List (Step ι δ)) (m : GModel ι δ) :
    (PStep.together name steps).run fuel m = (onGraph (runTogether steps) >>= fun rs =>
      appendHistory (.logic name rs)) m := rfl

end Verif
