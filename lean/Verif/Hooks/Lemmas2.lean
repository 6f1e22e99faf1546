import Verif.Hooks.Lemmas
import Verif.Hooks.Spec

/-! # Which hooks are called, and with what -/

namespace Verif
variable {ι δ ω α β σ : Type} [DecidableEq ι]

theorem PyM.bind_assoc' {γ : Type} (m : PyM σ α) (f : α → PyM σ β) (k : β → PyM σ γ) :
    (m >>= f) >>= k = m >>= fun a => f a >>= k := by
  funext s
  simp only [PyM.bind_run]
  rcases m s with ⟨e | a, s'⟩ <;> rfl

theorem PyM.left_bind (m : PyM σ α) (f : α → PyM σ β) :
    ((m >>= f).left : PyM (σ × ω) β) = m.left >>= fun a => (f a).left := by
  funext s
  simp only [PyM.left, PyM.bind_run]
  rcases m s.1 with ⟨e | a, s'⟩ <;> rfl

namespace Hooks
open Graph

theorem getEdge_get2 (g : Graph ι δ) (u v : ι) : g.getEdge u v =
    match g.edges.get2 u v with
    | none => .error .graphError
    | some e => .ok e := by
  unfold getEdge
  split
  · next h =>
    have : g.edges.get2 u v = none := by
      unfold Dict.get2
      unfold Dict.has at h
      cases hh : g.edges.get? u <;> simp [hh] at h ⊢
    rw [this]
  · rfl

variable {H : Hooks ι δ (List (HookCall ι δ))}

theorem call_logs (hH : H.LogsEdgeHooks) (h : EdgeHook) (r : TestResult ι δ) (g : Graph ι δ) (w : List (HookCall ι δ)) :
    H.call h r (g, w) = (.ok (), (g, w ++ g.callOf h r)) := by
  unfold call callOf
  simp only [getEdge_get2]
  cases hh : g.edges.get2 r.u r.v with
  | none => simp
  | some e => simp only [hH.edge]

/-- an edit between two hooks -/
theorem around (hH : H.LogsEdgeHooks) (a b : EdgeHook) (r : TestResult ι δ) (m : PyM (Graph ι δ) Unit) (g : Graph ι δ)
    (w : List (HookCall ι δ)) :
    (H.call a r >>= fun _ => m.left >>= fun _ => H.call b r >>= fun _ => (Pure.pure true : PyM _ Bool)) (g, w) =
      match m g with
      | (.error e, g') => (.error e, (g', w ++ g.callOf a r))
      | (.ok _, g') => (.ok true, (g', w ++ g.callOf a r ++ g'.callOf b r)) := by
  rw [PyM.bind_ok (call_logs hH a r g w), PyM.bind_run]
  simp only [PyM.left]
  rcases m g with ⟨e | ⟨⟩, g'⟩
  · rfl
  · simp only
    rw [PyM.bind_ok (call_logs hH b r g' _)]
    rfl

/-- what `applyOne` with logging hooks does -/
theorem applyOne_logs (hH : H.LogsEdgeHooks) (r : TestResult ι δ) (g : Graph ι δ) (w : List (HookCall ι δ)) :
    H.applyOne r (g, w) =
      match Graph.applyOne r g with
      | (.error e, g') => (.error e, (g', w ++ match r.action.hooks with
          | some (a, _) => g.callOf a r
          | none => []))
      | (.ok false, g') => (.ok false, (g', w))
      | (.ok true, g') => (.ok true, (g', w ++ match r.action.hooks with
          | some (a, b) => g.callOf a r ++ g'.callOf b r
          | none => [])) := by
  have key : ∀ (a b : EdgeHook) (m : PyM (Graph ι δ) Unit),
      (H.call a r >>= fun _ => m.left >>= fun _ => H.call b r >>= fun _ => (Pure.pure true : PyM _ Bool)) (g, w) =
      match (m >>= fun _ => (Pure.pure true : PyM _ Bool)) g with
      | (.error e, g') => (.error e, (g', w ++ g.callOf a r))
      | (.ok false, g') => (.ok false, (g', w))
      | (.ok true, g') => (.ok true, (g', w ++ (g.callOf a r ++ g'.callOf b r))) := by
    intro a b m
    rw [around hH, PyM.bind_run]
    rcases m g with ⟨e | ⟨⟩, g'⟩
    · rfl
    · simp
  have rest : ∀ m : PyM (Graph ι δ) Unit,
      (m.left >>= fun _ => (Pure.pure true : PyM (Graph ι δ × List (HookCall ι δ)) Bool)) (g, w) =
      match (m >>= fun _ => (Pure.pure true : PyM _ Bool)) g with
      | (.error e, g') => (.error e, (g', w ++ []))
      | (.ok false, g') => (.ok false, (g', w))
      | (.ok true, g') => (.ok true, (g', w ++ [])) := by
    intro m
    rw [PyM.bind_run, PyM.bind_run]
    simp only [PyM.left]
    rcases m g with ⟨e | ⟨⟩, g'⟩ <;> simp
  unfold applyOne Graph.applyOne
  rw [PyM.bind_ok (PyM.get_run _), PyM.bind_ok (PyM.get_run _)]
  cases r.action <;> simp only [Action.hooks]
  · split
    · rfl
    · have := key .preUpdate .postUpdate (do
        updateEdge r.u r.v r.data none
        addEdgeHistory r.u r.v r
        addEdgeHistory r.v r.u r)
      simpa only [PyM.left_bind, PyM.bind_assoc'] using this
  · split
    · rfl
    · have := key .preUpdate .postUpdate (do
        updateDirectedEdge r.u r.v r.data none
        addEdgeHistory r.u r.v r)
      simpa only [PyM.left_bind, PyM.bind_assoc'] using this
  · split
    · rfl
    · rw [PyM.bind_ok (call_logs hH _ r g w)]; rfl
  · split
    · rfl
    · rw [PyM.bind_ok (call_logs hH _ r g w)]; rfl
  · split
    · rfl
    · have := key .preRemove .postRemove (do
        removeEdge r.u r.v true
        addEdgeHistory r.u r.v r
        addEdgeHistory r.v r.u r)
      simpa only [PyM.left_bind, PyM.bind_assoc'] using this
  · split
    · rfl
    · have := key .preRemove .postRemove (do
        removeDirectedEdge r.u r.v true
        let g ← PyM.get
        PyM.when (g.edgeExists r.v r.u) (updateDirectedEdge r.v r.u none (some .directed))
        addEdgeHistory r.u r.v r)
      have hg : ∀ (f : Graph ι δ → PyM (Graph ι δ) Unit) (k : Unit → PyM (Graph ι δ × List (HookCall ι δ)) Bool),
          ((PyM.get >>= f).left >>= k) = PyM.get >>= fun s => (f s.1).left >>= k := fun f k => rfl
      have hw : ∀ (c : Bool) (m : PyM (Graph ι δ) Unit),
          ((PyM.when c m).left : PyM (Graph ι δ × List (HookCall ι δ)) Unit) = PyM.when c m.left := by
        intro c m; cases c <;> rfl
      rw [PyM.left_bind, PyM.bind_assoc'] at this
      simp only [hg, PyM.left_bind, hw, PyM.bind_assoc'] at this
      exact this
  · split
    · rfl
    · have := rest (do
        restoreEdge r.u r.v
        addEdgeHistory r.u r.v r
        addEdgeHistory r.v r.u r)
      simpa only [PyM.left_bind, PyM.bind_assoc'] using this
  · split
    · rfl
    · have := rest (do
        restoreDirectedEdge r.u r.v
        addEdgeHistory r.u r.v r)
      simpa only [PyM.left_bind, PyM.bind_assoc'] using this
  · rfl

/-- a skipped action leaves no trace, in any graph -/
theorem applyOne_false {r : TestResult ι δ} {g g' : Graph ι δ} (h : Graph.applyOne r g = (.ok false, g')) : g' = g := by
  have nf : ∀ (m : PyM (Graph ι δ) Unit) g', (m >>= fun _ => (Pure.pure true : PyM _ Bool)) g ≠ (.ok false, g') := by
    intro m g' hh
    rw [PyM.bind_run] at hh
    revert hh
    rcases m g with ⟨e | ⟨⟩, g''⟩ <;> simp
  unfold Graph.applyOne at h
  rw [PyM.bind_ok (PyM.get_run _)] at h
  revert h
  cases r.action <;> simp only
  · split
    · intro h; cases h; rfl
    · intro h
      exact absurd (by simpa only [PyM.bind_assoc'] using h) (nf (do
        updateEdge r.u r.v r.data none
        addEdgeHistory r.u r.v r
        addEdgeHistory r.v r.u r) g')
  · split
    · intro h; cases h; rfl
    · intro h
      exact absurd (by simpa only [PyM.bind_assoc'] using h) (nf (do
        updateDirectedEdge r.u r.v r.data none
        addEdgeHistory r.u r.v r) g')
  · split
    · intro h; cases h; rfl
    · intro h; cases h
  · split
    · intro h; cases h; rfl
    · intro h; cases h
  · split
    · intro h; cases h; rfl
    · intro h
      exact absurd (by simpa only [PyM.bind_assoc'] using h) (nf (do
        removeEdge r.u r.v true
        addEdgeHistory r.u r.v r
        addEdgeHistory r.v r.u r) g')
  · split
    · intro h; cases h; rfl
    · intro h
      exact absurd (by simpa only [PyM.bind_assoc'] using h) (nf (do
        removeDirectedEdge r.u r.v true
        let g ← PyM.get
        PyM.when (g.edgeExists r.v r.u) (updateDirectedEdge r.v r.u none (some .directed))
        addEdgeHistory r.u r.v r) g')
  · split
    · intro h; cases h; rfl
    · intro h
      exact absurd (by simpa only [PyM.bind_assoc'] using h) (nf (do
        restoreEdge r.u r.v
        addEdgeHistory r.u r.v r
        addEdgeHistory r.v r.u r) g')
  · split
    · intro h; cases h; rfl
    · intro h
      exact absurd (by simpa only [PyM.bind_assoc'] using h) (nf (do
        restoreDirectedEdge r.u r.v
        addEdgeHistory r.u r.v r) g')
  · intro h; cases h; rfl

theorem takeItems_called (hH : H.LogsEdgeHooks) (rs : List (TestResult ι δ)) (g : Graph ι δ) (w : List (HookCall ι δ)) :
    ∃ l, (H.takeItems false rs (g, w)).2.2 = w ++ l ∧ Called g rs l := by
  induction rs generalizing g w with
  | nil => exact ⟨[], by simp [takeItems], .nil g⟩
  | cons r rs ih =>
    unfold takeItems
    simp only [Bool.false_eq_true, if_false]
    rw [PyM.bind_run, applyOne_logs hH]
    have tail : ∀ (b : Bool) (g' : Graph ι δ) (w' : List (HookCall ι δ)),
        ((H.takeItems false rs >>= fun rest => (Pure.pure (if b then r :: rest else rest) : PyM _ _)) (g', w')).2 =
          (H.takeItems false rs (g', w')).2 := by
      intro b g' w'
      rw [PyM.bind_run]
      rcases H.takeItems false rs (g', w') with ⟨e | a, s'⟩ <;> rfl
    rcases ha : Graph.applyOne r g with ⟨e | b, g'⟩
    · simp only
      cases hh : r.action.hooks with
      | none => exact ⟨[], rfl, .raisedRestoring ha hh⟩
      | some p => obtain ⟨x, y⟩ := p; exact ⟨_, rfl, .raised ha hh⟩
    · cases b
      · simp only
        obtain rfl := applyOne_false ha
        obtain ⟨l, h1, h2⟩ := ih g' w
        exact ⟨l, by rw [tail]; exact h1, .skipped ha h2⟩
      · simp only
        cases hh : r.action.hooks with
        | none =>
          obtain ⟨l, h1, h2⟩ := ih g' (w ++ [])
          exact ⟨l, by have := congrArg Prod.snd (tail true g' (w ++ [])); rw [h1] at this; simpa using this, .restored ha hh h2⟩
        | some p =>
          obtain ⟨x, y⟩ := p
          obtain ⟨l, h1, h2⟩ := ih g' (w ++ (g.callOf x r ++ g'.callOf y r))
          exact ⟨_, by
            have := congrArg Prod.snd (tail true g' (w ++ (g.callOf x r ++ g'.callOf y r)))
            rw [h1] at this
            simpa using this, .applied ha hh h2⟩

theorem takeItems_append (dry : Bool) (a b : List (TestResult ι δ)) (s : Graph ι δ × List (HookCall ι δ)) :
    H.takeItems dry (a ++ b) s = (H.takeItems dry a >>= fun t => H.takeItems dry b >>= fun t' =>
      (Pure.pure (t ++ t') : PyM _ _)) s := by
  induction a generalizing s with
  | nil =>
    rw [PyM.bind_ok (show H.takeItems dry [] s = (.ok [], s) from rfl), PyM.bind_run, List.nil_append]
    rcases H.takeItems dry b s with ⟨e | t, s'⟩ <;> rfl
  | cons r a ih =>
    rw [List.cons_append]
    have hc : ∀ l, H.takeItems dry (r :: l) = if dry then (H.takeItems dry l >>= fun rest => Pure.pure (r :: rest))
        else (H.applyOne r >>= fun b => H.takeItems dry l >>= fun rest => Pure.pure (if b then r :: rest else rest)) :=
      fun _ => rfl
    rw [hc, hc]
    cases dry
    · simp only [Bool.false_eq_true, if_false, PyM.bind_assoc']
      rw [PyM.bind_run, PyM.bind_run]
      rcases H.applyOne r s with ⟨e | x, s'⟩
      · rfl
      · simp only [PyM.bind_run, ih]
        rcases H.takeItems false a s' with ⟨e | t, s1⟩
        · rfl
        · simp only [PyM.pure_run]
          rcases H.takeItems false b s1 with ⟨e | t', s2⟩
          · rfl
          · cases x <;> rfl
    · simp only [if_true, PyM.bind_assoc']
      simp only [PyM.bind_run, ih]
      rcases H.takeItems true a s with ⟨e | t, s1⟩
      · rfl
      · simp only [PyM.pure_run]
        rcases H.takeItems true b s1 with ⟨e | t', s2⟩ <;> rfl

/-- without update hooks the batch is applied as one list -/
theorem takeAction_flat (hH : H.LogsEdgeHooks) (dry : Bool) (rs : Results ι δ) (s : Graph ι δ × List (HookCall ι δ)) :
    (H.takeAction dry rs s).2 = (H.takeItems dry (rs.flatMap (fun r => r.getD [])) s).2 := by
  induction rs generalizing s with
  | nil => rfl
  | cons x rest ih =>
    cases x with
    | none => exact ih s
    | some items =>
      simp only [List.flatMap_cons, Option.getD_some]
      rw [takeItems_append]
      unfold takeAction
      rw [hH.pre, hH.post]
      simp only [runPre, runPost]
      rw [PyM.bind_ok (PyM.pure_run _ _)]
      simp only [PyM.bind_run]
      rcases H.takeItems dry items s with ⟨e | t, s1⟩
      · rfl
      · simp only [PyM.pure_run]
        have := ih s1
        revert this
        generalize H.takeAction dry rest s1 = x
        generalize H.takeItems dry (rest.flatMap (fun r => r.getD [])) s1 = y
        rcases x with ⟨e | t', s2⟩ <;> rcases y with ⟨e' | t'', s3⟩ <;> exact id

theorem takeItems_dry_log (rs : List (TestResult ι δ)) (s : Graph ι δ × List (HookCall ι δ)) :
    H.takeItems true rs s = (.ok rs, s) := by
  induction rs with
  | nil => rfl
  | cons r rs ih =>
    unfold takeItems
    simp only [if_true]
    rw [PyM.bind_ok ih]
    rfl

end Hooks
end Verif
