import Verif.Hooks.Spec
import Verif.Pipeline.Lemmas

/-! # A run with hooks that only watch, against the run without hooks -/

namespace Verif
variable {ι δ ω α β σ : Type} [DecidableEq ι]

/-- whatever the world, `m` does to the first part of the state what `m'` does, with the same outcome -/
def Erases (m : PyM (σ × ω) α) (m' : PyM σ α) : Prop := ∀ s w, (m (s, w)).1 = (m' s).1 ∧ (m (s, w)).2.1 = (m' s).2

namespace Erases

theorem pure (a : α) : Erases (Pure.pure a : PyM (σ × ω) α) (Pure.pure a) := fun _ _ => ⟨rfl, rfl⟩
theorem raise (e : PyErr) : Erases (PyM.raise e : PyM (σ × ω) α) (PyM.raise e) := fun _ _ => ⟨rfl, rfl⟩
theorem left (m : PyM σ α) : Erases (m.left : PyM (σ × ω) α) m := fun _ _ => ⟨rfl, rfl⟩

theorem bind {m : PyM (σ × ω) α} {m' : PyM σ α} {f : α → PyM (σ × ω) β} {f' : α → PyM σ β} (h : Erases m m')
    (hf : ∀ a, Erases (f a) (f' a)) : Erases (m >>= f) (m' >>= f') := by
  intro s w
  obtain ⟨h1, h2⟩ := h s w
  rw [PyM.bind_run, PyM.bind_run]
  revert h1 h2
  generalize m (s, w) = x
  generalize m' s = y
  obtain ⟨e | a, s', w'⟩ := x <;> obtain ⟨e' | a', s''⟩ := y
  · rintro h1 rfl; cases h1; exact ⟨rfl, rfl⟩
  · rintro h1 _; cases h1
  · rintro h1 _; cases h1
  · rintro h1 rfl; cases h1; exact hf a s' w'

/-- a computation that reads the state, against one that starts with reading its first part -/
theorem get {f : σ × ω → PyM (σ × ω) α} {f' : σ → PyM σ α} (hf : ∀ s w, Erases (f (s, w)) (f' s)) :
    Erases (PyM.get >>= f) (PyM.get >>= f') := fun s w => hf s w s w

theorem ite (c : Prop) [Decidable c] {m n : PyM (σ × ω) α} {m' n' : PyM σ α} (h : Erases m m') (h' : Erases n n') :
    Erases (if c then m else n) (if c then m' else n') := by split <;> assumption

/-- a computation that leaves the first part of the state alone and does not raise can be left out -/
theorem skip {m : PyM (σ × ω) Unit} {n : PyM (σ × ω) α} {n' : PyM σ α} (h : Erases m (Pure.pure ())) (hn : Erases n n') :
    Erases (m >>= fun _ => n) n' := by
  have := h.bind (fun _ => hn)
  exact this

theorem forEach {l : List β} {b : β → PyM (σ × ω) Unit} {b' : β → PyM σ Unit} (h : ∀ x ∈ l, Erases (b x) (b' x)) :
    Erases (PyM.forEach l b) (PyM.forEach l b') := by
  induction l with
  | nil => exact pure ()
  | cons x xs ih => exact (h x (by simp)).bind (fun _ => ih (fun y hy => h y (by simp [hy])))

end Erases

namespace Hooks
open Graph
variable {H : Hooks ι δ ω}

theorem call_erases (hH : Watching H) (h : EdgeHook) (r : TestResult ι δ) : Erases (H.call h r) (Pure.pure ()) := by
  intro s w
  unfold call
  simp only
  split
  · exact ⟨rfl, rfl⟩
  · exact ⟨rfl, hH.edge _ _ _ _⟩

theorem runPre_erases (l : List (Option (List (TestResult ι δ)) → PyM (Graph ι δ × ω) (Option (List (TestResult ι δ)))))
    (hl : ∀ f ∈ l, ∀ rs s, (f rs s).1 = .ok rs ∧ (f rs s).2.1 = s.1) (rs : Option (List (TestResult ι δ))) :
    Erases (runPre l rs) (Pure.pure rs) := by
  induction l with
  | nil => exact Erases.pure rs
  | cons f fs ih =>
    have h1 : Erases (f rs) (Pure.pure rs) := fun s w => hl f (by simp) rs (s, w)
    have := h1.bind (f := fun rs' => runPre fs rs') (f' := fun rs' => Pure.pure rs') ?_
    · exact this
    · intro rs'
      have : ∀ rs, Erases (runPre fs rs) (Pure.pure rs) := by
        clear ih h1
        have hl' : ∀ f ∈ fs, ∀ rs s, (f rs s).1 = .ok rs ∧ (f rs s).2.1 = s.1 := fun f hf => hl f (by simp [hf])
        clear hl
        induction fs with
        | nil => exact fun rs => Erases.pure rs
        | cons k ks ih =>
          intro rs
          have h2 : Erases (k rs) (Pure.pure rs) := fun s w => hl' k (by simp) rs (s, w)
          exact h2.bind (f' := fun rs' => Pure.pure rs') (ih (fun f hf => hl' f (by simp [hf])))
      exact this rs'

theorem runPost_erases (l : List (List (TestResult ι δ) → PyM (Graph ι δ × ω) Unit))
    (hl : ∀ f ∈ l, ∀ rs s, (f rs s).1 = .ok () ∧ (f rs s).2.1 = s.1) (rs : List (TestResult ι δ)) :
    Erases (runPost l rs) (Pure.pure ()) := by
  induction l with
  | nil => exact Erases.pure ()
  | cons f fs ih =>
    have h1 : Erases (f rs) (Pure.pure ()) := fun s w => hl f (by simp) rs (s, w)
    exact h1.skip (ih (fun k hk => hl k (by simp [hk])))

theorem applyOne_erases (hH : Watching H) (r : TestResult ι δ) : Erases (H.applyOne r) (Graph.applyOne r) := by
  unfold applyOne Graph.applyOne
  refine Erases.get (fun s w => ?_)
  cases r.action <;> simp only
  · refine Erases.ite _ (Erases.pure _) ((call_erases hH _ _).skip ?_)
    refine (Erases.left _).bind (fun _ => (Erases.left _).bind (fun _ => (Erases.left _).bind (fun _ => ?_)))
    exact (call_erases hH _ _).skip (Erases.pure _)
  · refine Erases.ite _ (Erases.pure _) ((call_erases hH _ _).skip ?_)
    refine (Erases.left _).bind (fun _ => (Erases.left _).bind (fun _ => ?_))
    exact (call_erases hH _ _).skip (Erases.pure _)
  · exact Erases.ite _ (Erases.pure _) ((call_erases hH _ _).skip (Erases.raise _))
  · exact Erases.ite _ (Erases.pure _) ((call_erases hH _ _).skip (Erases.raise _))
  · refine Erases.ite _ (Erases.pure _) ((call_erases hH _ _).skip ?_)
    refine (Erases.left _).bind (fun _ => (Erases.left _).bind (fun _ => (Erases.left _).bind (fun _ => ?_)))
    exact (call_erases hH _ _).skip (Erases.pure _)
  · refine Erases.ite _ (Erases.pure _) ((call_erases hH _ _).skip ?_)
    refine (Erases.left _).bind (fun _ => Erases.get (fun s w => ?_))
    refine Erases.bind ?_ (fun _ => (Erases.left _).bind (fun _ => ?_))
    · unfold PyM.when
      exact Erases.ite _ (Erases.left _) (Erases.pure _)
    · exact (call_erases hH _ _).skip (Erases.pure _)
  · refine Erases.ite _ (Erases.pure _) ?_
    exact (Erases.left _).bind (fun _ => (Erases.left _).bind (fun _ => (Erases.left _).bind (fun _ => Erases.pure _)))
  · refine Erases.ite _ (Erases.pure _) ?_
    exact (Erases.left _).bind (fun _ => (Erases.left _).bind (fun _ => Erases.pure _))
  · exact Erases.pure _

theorem takeItems_erases (hH : Watching H) (dry : Bool) (rs : List (TestResult ι δ)) :
    Erases (H.takeItems dry rs) (Graph.takeItems dry rs) := by
  induction rs with
  | nil => exact Erases.pure _
  | cons r rs ih =>
    unfold takeItems Graph.takeItems
    exact Erases.ite _ (ih.bind (fun _ => Erases.pure _))
      ((applyOne_erases hH r).bind (fun _ => ih.bind (fun _ => Erases.pure _)))

theorem takeAction_erases (hH : Watching H) (dry : Bool) (rs : Results ι δ) :
    Erases (H.takeAction dry rs) (Graph.takeAction dry rs) := by
  induction rs with
  | nil => exact Erases.pure _
  | cons x rest ih =>
    cases x with
    | none => exact ih
    | some items =>
      unfold takeAction Graph.takeAction
      have h1 := (runPre_erases H.pre hH.pre (some items)).bind (f := fun items' => match items' with
        | none => PyM.raise .typeError
        | some items' => do
          let t ← H.takeItems dry items'
          runPost H.post t
          let (ts, as) ← H.takeAction dry rest
          Pure.pure (t ++ ts, items' ++ as)) (f' := fun items' => match items' with
        | none => PyM.raise .typeError
        | some items' => do
          let t ← Graph.takeItems dry items'
          let (ts, as) ← Graph.takeAction dry rest
          Pure.pure (t ++ ts, items' ++ as)) (by
        intro o
        cases o with
        | none => exact Erases.raise _
        | some l =>
          exact (takeItems_erases hH dry l).bind (fun t => (runPost_erases H.post hH.post t).skip
            (ih.bind (fun p => Erases.pure _))))
      exact h1

theorem lift_erases (x : Except PyErr α) : Erases (lift x : PyM (σ × ω) α) (lift x) := by
  cases x
  · exact Erases.raise _
  · exact Erases.pure _

theorem runChunk_erases (hH : Watching H) (s : Step ι δ) (dry : Bool) (y : Yield ι) :
    Erases (H.runChunk s dry y) (s.runChunk dry y) := by
  cases y with
  | single c => exact Erases.raise _
  | chunk cs =>
    have h := Erases.get (ω := ω) (f := fun g => lift (s.evalChunk g.1 cs) >>= H.takeAction dry)
      (f' := fun g => lift (s.evalChunk g cs) >>= Graph.takeAction dry)
      (fun g w => (lift_erases _).bind (fun rs => takeAction_erases hH dry rs))
    intro g w
    have h1 := h g w
    unfold runChunk Step.runChunk
    simp only [PyM.bind_run, PyM.get_run] at h1 ⊢
    cases hs : s.evalChunk g cs <;> simpa [hs, lift] using h1

theorem gather_erases {b : β → PyM (Graph ι δ × ω) (List (TestResult ι δ) × List (TestResult ι δ))}
    {b' : β → PyM (Graph ι δ) (List (TestResult ι δ) × List (TestResult ι δ))} (h : ∀ x, Erases (b x) (b' x)) (l : List β) :
    Erases (gather b l) (Step.gather b' l) := by
  induction l with
  | nil => exact Erases.pure _
  | cons x xs ih => exact (h x).bind (fun _ => ih.bind (fun _ => Erases.pure _))

theorem runChunked_erases (hH : Watching H) (s : Step ι δ) (dry : Bool) (ts : List (Graph ι δ → List (Yield ι))) :
    Erases (H.runChunked s dry ts) (s.runChunked dry ts) :=
  gather_erases (fun _ => Erases.get (fun _ _ => gather_erases (fun y => runChunk_erases hH s dry y) _)) ts

theorem runSync_erases (hH : Watching H) (s : Step ι δ) (dry : Bool) (y : Yield ι) :
    Erases (H.runSync s dry y) (s.runSync dry y) := by
  have h := Erases.get (ω := ω) (f := fun g => lift (s.evalOne g.1 y []) >>= fun r => H.takeAction dry [r])
      (f' := fun g => lift (s.evalOne g y []) >>= fun r => Graph.takeAction dry [r])
      (fun g w => (lift_erases _).bind (fun r => takeAction_erases hH dry [r]))
  intro g w
  have h1 := h g w
  unfold runSync Step.runSync
  simp only [PyM.bind_run, PyM.get_run] at h1 ⊢
  cases hs : s.evalOne g y [] <;> simpa [hs, lift] using h1

theorem execute_erases (hH : Watching H) (s : Step ι δ) (dry : Bool) : Erases (H.execute s dry) (s.execute dry) := by
  intro g w
  unfold execute Step.execute
  simp only [PyM.bind_run, PyM.get_run]
  cases hg : s.gen g with
  | error e => exact ⟨rfl, rfl⟩
  | ok ts =>
    simp only [lift, PyM.pure_run, PyM.ite_run]
    split
    · exact runChunked_erases hH s dry ts g w
    · split
      · exact gather_erases (fun y => runSync_erases hH s dry y) _ g w
      · rw [PyM.bind_run]
        cases hs : s.evalSeq g (forceOn g ts) [] with
        | error e => exact ⟨rfl, rfl⟩
        | ok rs => exact takeAction_erases hH dry rs g w

theorem runInner_erases (hH : Watching H) (dry : Bool) (ss : List (Step ι δ)) :
    Erases (H.runInner dry ss) (Verif.runInner dry ss) := by
  induction ss with
  | nil => exact Erases.pure _
  | cons s ss ih => exact (execute_erases hH s dry).bind (fun _ => ih.bind (fun _ => Erases.pure _))

theorem loopGo_erases (hH : Watching H) (ss : List (Step ι δ))
    (exit : Graph ι δ → Option (List (TestResult ι δ)) → Nat → Except PyErr Bool) (fuel n : Nat)
    (taken : Option (List (TestResult ι δ))) :
    Erases (H.loopGo ss exit fuel n taken) (Verif.loopGo ss exit fuel n taken) := by
  induction fuel generalizing n taken with
  | zero => exact Erases.raise _
  | succ fuel ih =>
    intro g w
    unfold loopGo Verif.loopGo
    simp only [PyM.bind_run, PyM.get_run]
    cases hx : exit g taken n with
    | error e => exact ⟨rfl, rfl⟩
    | ok b =>
      simp only [lift, PyM.pure_run, PyM.ite_run]
      cases b with
      | true => exact ⟨rfl, rfl⟩
      | false =>
        have h := ((runInner_erases hH false ss).bind (f := fun x => do
            let more ← H.loopGo ss exit fuel (n + 1) (some x.2)
            Pure.pure (x.1 ++ more)) (f' := fun x => do
            let more ← Verif.loopGo ss exit fuel (n + 1) (some x.2)
            Pure.pure (x.1 ++ more)) (fun x => (ih _ _).bind (fun _ => Erases.pure _))) g w
        simp only [PyM.bind_run] at h
        simp only [Bool.false_eq_true, if_false, PyM.bind_run]
        revert h
        generalize H.runInner false ss (g, w) = x
        generalize Verif.runInner false ss g = y
        obtain ⟨e | a, s', w'⟩ := x <;> obtain ⟨e' | ⟨a', b'⟩, s''⟩ := y <;> simp only
        · exact id
        · generalize Verif.loopGo ss exit fuel (n + 1) (some b') s'' = z
          obtain ⟨e' | c, z'⟩ := z <;> exact id
        · exact id
        · generalize Verif.loopGo ss exit fuel (n + 1) (some b') s'' = z
          obtain ⟨e' | c, z'⟩ := z <;> exact id

theorem runTogether_erases (hH : Watching H) (ss : List (Step ι δ)) :
    Erases (H.runTogether ss) (Verif.runTogether ss) :=
  (runInner_erases hH true ss).bind (fun _ => (takeAction_erases hH false _).bind (fun _ => Erases.pure _))

theorem onGraph_erases {m : PyM (Graph ι δ × ω) α} {m' : PyM (Graph ι δ) α} (h : Erases m m') :
    Erases (onGraph m) (Verif.onGraph m') := by
  intro s w
  obtain ⟨h1, h2⟩ := h s.graph w
  exact ⟨h1, by simp only [onGraph, Verif.onGraph, h2]⟩

theorem run_erases (hH : Watching H) (fuel : Nat) (p : PStep ι δ) : Erases (H.run fuel p) (p.run fuel) := by
  cases p with
  | plain s =>
    exact (onGraph_erases (execute_erases hH s false)).bind (fun _ => (Erases.left _).bind (fun _ =>
      onGraph_erases (Erases.left _)))
  | loop n ss exit => exact (onGraph_erases (loopGo_erases hH ss exit fuel 0 none)).bind (fun _ => Erases.left _)
  | together n ss => exact (onGraph_erases (runTogether_erases hH ss)).bind (fun _ => Erases.left _)

theorem runPipeline_erases (hH : Watching H) (fuel : Nat) (ps : List (PStep ι δ)) :
    Erases (H.runPipeline fuel ps) (Verif.runPipeline fuel ps) := Erases.forEach (fun p _ => run_erases hH fuel p)

end Hooks
end Verif
