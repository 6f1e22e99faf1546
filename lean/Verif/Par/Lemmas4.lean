import Verif.Par.Lemmas2
import Verif.Action.Props

/-!
# Helper lemmas: what a parallel step records
-/

namespace Verif
open Graph
variable {ι δ : Type} [DecidableEq ι]

namespace Par

omit [DecidableEq ι] in
theorem evalBatch_list (s : Step ι δ) (g : Graph ι δ) (ys : List (Yield ι)) (rs : Results ι δ)
    (h : s.evalBatch g ys = .ok rs) : ∃ evs : List (Yield ι × Graph ι δ × Option (List (TestResult ι δ))),
      evs.map (·.1) = ys ∧ evs.map (·.2.2) = rs ∧ ∀ e ∈ evs, e.2.1 = g ∧ s.evalTask e.2.1 e.1 = .ok e.2.2 := by
  induction ys generalizing rs with
  | nil => simp only [Step.evalBatch, Except.ok.injEq] at h; subst h; exact ⟨[], rfl, rfl, by simp⟩
  | cons y ys ih =>
    unfold Step.evalBatch at h
    cases hy : s.evalTask g y with
    | error e => rw [hy] at h; cases h
    | ok r =>
      rw [hy] at h
      simp only at h
      cases hys : s.evalBatch g ys with
      | error e => rw [hys] at h; cases h
      | ok rs' =>
        rw [hys] at h
        simp only [Except.ok.injEq] at h
        subst h
        obtain ⟨evs, h1, h2, h3⟩ := ih rs' hys
        refine ⟨(y, g, r) :: evs, by simp [h1], by simp [h2], ?_⟩
        intro e he
        rcases List.mem_cons.1 he with rfl | he
        · exact ⟨rfl, hy⟩
        · exact h3 e he

omit [DecidableEq ι] in
theorem flatten_append (a b : Results ι δ) : flatten (a ++ b) = flatten a ++ flatten b := by
  simp [flatten, List.flatMap_append]

/-- the graph that `n` of the recorded actions lead to -/
def Snapshot (g : Graph ι δ) (taken : List (TestResult ι δ)) (h : Graph ι δ) : Prop :=
  ∃ n, (takeAction false [some (taken.take n)] g).2 = h

/-- the results of the batches in the pipe -/
def oks (l : List (Except PyErr (Results ι δ))) : Results ι δ := l.flatMap (fun x => match x with | .ok rs => rs | .error _ => [])

omit [DecidableEq ι] in
theorem oks_append (a b : List (Except PyErr (Results ι δ))) : oks (a ++ b) = oks a ++ oks b := by
  simp [oks, List.flatMap_append]

/-- the record kept while the step runs -/
structure Recorded (g : Graph ι δ) (st : State ι δ) : Prop where
  reach : Reachable st.graph
  replay : takeItems false st.taken g = (.ok st.taken, st.graph)
  sub : st.taken.Sublist st.proposed
  acts : ∀ r ∈ st.taken, r.action ≠ .doNothing

theorem takeItems_append_ok {dry : Bool} {l l' t t' : List (TestResult ι δ)} {g g' g'' : Graph ι δ}
    (h : takeItems dry l g = (.ok t, g')) (h' : takeItems dry l' g' = (.ok t', g'')) :
    takeItems dry (l ++ l') g = (.ok (t ++ t'), g'') := by
  have hx := takeAction_append dry [some l] [some l'] g
  have e : ∀ m : List (TestResult ι δ), flatten [some m] = m := fun m => by simp [flatten]
  rw [takeAction_flat, takeAction_flat] at hx
  have e2 : flatten ([some l] ++ [some l']) = l ++ l' := by rw [flatten_append, e, e]
  rw [e2, e, h] at hx
  simp only at hx
  rw [takeAction_flat, e, h'] at hx
  generalize takeItems dry (l ++ l') g = y at hx
  obtain ⟨e | t2, g2⟩ := y
  · cases hx
  · simp only [Prod.mk.injEq, Except.ok.injEq] at hx
    obtain ⟨⟨rfl, _⟩, rfl⟩ := hx
    rfl

theorem recorded_trans {s : Step ι δ} {size : Nat} {g : Graph ι δ} {st st' : State ι δ}
    (h : Recorded g st) (ht : Trans s false size st st') : Recorded g st' := by
  cases ht with
  | generate t ts ht hb => exact ⟨h.reach, h.replay, h.sub, h.acts⟩
  | send hne hb => exact ⟨h.reach, h.replay, h.sub, h.acts⟩
  | receive l1 rs l2 hc hs => exact ⟨h.reach, h.replay, h.sub, h.acts⟩
  | apply r rs t p g' hc ha =>
    have hreach := C11_actions_reachable st.graph h.reach false (asList r)
    rw [ha] at hreach
    rw [takeAction_flat] at ha
    generalize hx : takeItems false (flatten (asList r)) st.graph = x at ha
    obtain ⟨e | t1, g1⟩ := x
    · cases ha
    · simp only [Prod.mk.injEq, Except.ok.injEq] at ha
      obtain ⟨⟨rfl, rfl⟩, rfl⟩ := ha
      obtain ⟨h1, h2, h3⟩ := takeItems_replay h.reach.wf _ _ _ hx
      refine ⟨hreach, takeItems_append_ok h.replay h1, h.sub.append h2, ?_⟩
      intro r hr
      rcases List.mem_append.1 hr with hr | hr
      · exact h.acts r hr
      · exact h3 r hr

theorem recorded_star {s : Step ι δ} {size : Nat} {g : Graph ι δ} (hg : Reachable g) {ts : List (Graph ι δ → List (Yield ι))}
    {st : State ι δ} (h : Trans.Star s false size (.init g ts) st) : Recorded g st :=
  star_inv (Recorded g) (fun _ _ h ht => recorded_trans h ht) h
    ⟨hg, rfl, by simp [State.init], by simp [State.init]⟩

/-- the evaluations so far; nothing is lost and nothing is done twice, unless a batch raised -/
def Logged (s : Step ι δ) (g : Graph ι δ) (ts : List (Graph ι δ → List (Yield ι))) (st : State ι δ) : Prop :=
  (∃ e, .error e ∈ st.sent) ∨ ∃ (ts' : List (Graph ι δ → List (Yield ι))) (gs : List (Graph ι δ))
    (evs : List (Yield ι × Graph ι δ × Option (List (TestResult ι δ)))),
    ts = ts' ++ st.todo ∧ gs.length = ts'.length ∧ (List.zipWith (fun t h => t h) ts' gs).flatten = evs.map (·.1) ++ st.buffer ∧
    (∀ h ∈ gs, Snapshot g st.taken h) ∧
    (∀ e ∈ evs, Snapshot g st.taken e.2.1 ∧ s.evalTask e.2.1 e.1 = .ok e.2.2) ∧
    (flatten (evs.map (·.2.2))).Perm (st.proposed ++ flatten st.current ++ flatten (oks st.sent))

theorem Recorded.snapshot {g : Graph ι δ} {st : State ι δ} (h : Recorded g st) : Snapshot g st.taken st.graph := by
  refine ⟨st.taken.length, ?_⟩
  rw [List.take_length, takeAction_flat]
  have : flatten [some st.taken] = st.taken := by simp [flatten]
  rw [this, h.replay]

theorem Snapshot.append {g : Graph ι δ} {l : List (TestResult ι δ)} {h : Graph ι δ} (hs : Snapshot g l h)
    (l' : List (TestResult ι δ)) : Snapshot g (l ++ l') h := by
  obtain ⟨n, hn⟩ := hs
  by_cases hle : n ≤ l.length
  · exact ⟨n, by rw [List.take_append_of_le_length hle]; exact hn⟩
  · refine ⟨l.length, ?_⟩
    rw [List.take_left]
    rw [List.take_of_length_le (by omega)] at hn
    exact hn

theorem logged_trans {s : Step ι δ} {size : Nat} {g : Graph ι δ} {ts : List (Graph ι δ → List (Yield ι))} {st st' : State ι δ}
    (hrec : Recorded g st) (h : Logged s g ts st) (ht : Trans s false size st st') : Logged s g ts st' := by
  cases ht with
  | generate t ts1 ht hb =>
    rcases h with h | ⟨ts', gs, evs, h1, h2, h3, h4, h5, h6⟩
    · exact .inl h
    · refine .inr ⟨ts' ++ [t], gs ++ [st.graph], evs, by rw [h1, ht]; simp, by simp [h2], ?_, ?_, h5, h6⟩
      · rw [List.zipWith_append h2.symm, List.flatten_append, h3]
        simp
      · intro h hh
        rcases List.mem_append.1 hh with hh | hh
        · exact h4 h hh
        · rw [List.mem_singleton.1 hh]; exact hrec.snapshot
  | send hne hb =>
    rcases h with ⟨e, h⟩ | ⟨ts', gs, evs, h1, h2, h3, h4, h5, h6⟩
    · exact .inl ⟨e, List.mem_append_left _ h⟩
    · cases he : s.evalBatch st.graph (st.buffer.take size) with
      | error e => exact .inl ⟨e, by simp⟩
      | ok rs =>
        right
        obtain ⟨evs', k1, k2, k3⟩ := evalBatch_list s _ _ _ he
        refine ⟨ts', gs, evs ++ evs', h1, h2, ?_, h4, ?_, ?_⟩
        · rw [h3, List.map_append, k1]
          simp only [List.append_assoc, List.take_append_drop]
        · intro e hee
          rcases List.mem_append.1 hee with hee | hee
          · exact h5 e hee
          · exact ⟨(k3 e hee).1 ▸ hrec.snapshot, (k3 e hee).2⟩
        · rw [List.map_append, flatten_append, k2, oks_append, flatten_append]
          have : oks ([.ok rs] : List (Except PyErr (Results ι δ))) = rs := by simp [oks]
          rw [this, ← List.append_assoc]
          exact h6.append_right _
  | receive l1 rs l2 hc hs =>
    rcases h with ⟨e, h⟩ | ⟨ts', gs, evs, h1, h2, h3, h4, h5, h6⟩
    · refine .inl ⟨e, ?_⟩
      rw [hs] at h
      simp only [List.mem_append, List.mem_cons, reduceCtorEq, false_or] at h
      simpa using h
    · refine .inr ⟨ts', gs, evs, h1, h2, h3, h4, h5, h6.trans ?_⟩
      rw [hc, hs]
      have e1 : oks (.ok rs :: l2 : List (Except PyErr (Results ι δ))) = rs ++ oks l2 := rfl
      have e0 : flatten ([] : Results ι δ) = [] := rfl
      rw [oks_append, e1, oks_append, flatten_append, flatten_append, flatten_append, e0, List.append_nil]
      simp only [List.append_assoc]
      refine List.Perm.append_left _ ?_
      rw [← List.append_assoc, ← List.append_assoc]
      exact List.perm_append_comm.append_right _
  | apply r rs t p g' hc ha =>
    rcases h with ⟨e, h⟩ | ⟨ts', gs, evs, h1, h2, h3, h4, h5, h6⟩
    · exact .inl ⟨e, h⟩
    · refine .inr ⟨ts', gs, evs, h1, h2, h3, fun h hh => (h4 h hh).append t,
        fun e he => ⟨(h5 e he).1.append t, (h5 e he).2⟩, ?_⟩
      have hp : p = flatten [r] := by
        rw [takeAction_flat] at ha
        generalize hx : takeItems false (flatten (asList r)) st.graph = x at ha
        obtain ⟨e | t1, g1⟩ := x
        · cases ha
        · simp only [Prod.mk.injEq, Except.ok.injEq] at ha
          rw [← ha.1.2, flatten_asList]
      rw [hc] at h6
      subst hp
      have : flatten (r :: rs) = flatten [r] ++ flatten rs := flatten_append [r] rs
      rw [this] at h6
      simpa using h6

theorem logged_star {s : Step ι δ} {size : Nat} {g : Graph ι δ} (hg : Reachable g) {ts : List (Graph ι δ → List (Yield ι))}
    {st : State ι δ} (h : Trans.Star s false size (.init g ts) st) : Logged s g ts st := by
  have := star_inv (fun st => Recorded g st ∧ Logged s g ts st)
    (fun _ _ h ht => ⟨recorded_trans h.1 ht, logged_trans h.1 h.2 ht⟩) h
    ⟨⟨hg, rfl, by simp [State.init], by simp [State.init]⟩, .inr ⟨[], [], [], rfl, rfl, rfl, by simp, by simp, by
      simp [State.init, flatten, oks]⟩⟩
  exact this.2

end Par
end Verif
