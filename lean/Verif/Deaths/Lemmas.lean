import Verif.Deaths.Model
import Verif.Par.Lemmas2

/-!
# Helper lemmas: schedules with deaths
-/

namespace Verif
open Graph
variable {ι δ : Type} [DecidableEq ι]

namespace Par

theorem dstar_trans {s : Step ι δ} {dry : Bool} {size : Nat} {a b c : DState ι δ} (h : DTrans.Star s dry size a b)
    (h' : DTrans.Star s dry size b c) : DTrans.Star s dry size a c := by
  induction h' with
  | refl => exact h
  | tail _ _ _ h1 ih => exact .tail _ _ _ ih h1

theorem dstar_one {s : Step ι δ} {dry : Bool} {size : Nat} {a b : DState ι δ} (h : DTrans s dry size a b) :
    DTrans.Star s dry size a b := .tail _ _ _ (.refl _) h

/-- a schedule without deaths -/
theorem dstar_work {s : Step ι δ} {dry : Bool} {size : Nat} {st st' : State ι δ} (l : List (Except PyErr (Results ι δ)))
    (h : Trans.Star s dry size st st') : DTrans.Star s dry size ⟨st, l⟩ ⟨st', l⟩ := by
  induction h with
  | refl => exact .refl _
  | tail st1 st2 _ h1 ih => exact .tail _ _ _ ih (.work ⟨_, l⟩ _ h1)

/-- the same state, but the lost batches are still waiting to be taken -/
structure Found (d : DState ι δ) (st : State ι δ) : Prop where
  graph : st.graph = d.st.graph
  todo : st.todo = d.st.todo
  buffer : st.buffer = d.st.buffer
  current : st.current = d.st.current
  taken : st.taken = d.st.taken
  proposed : st.proposed = d.st.proposed
  sent : st.sent.Perm (d.st.sent ++ d.lost)

theorem found_step {s : Step ι δ} {dry : Bool} {size : Nat} {d d' : DState ι δ} {st : State ι δ} (hf : Found d st)
    (h : DTrans s dry size d d') : ∃ st', Trans.Star s dry size st st' ∧ Found d' st' := by
  obtain ⟨f1, f2, f3, f4, f5, f6, f7⟩ := hf
  cases h with
  | work st' h =>
    cases h with
    | generate t ts ht hb =>
      refine ⟨_, star_one (.generate st t ts (f2.trans ht) (f3 ▸ hb)), f1, rfl, ?_, f4, f5, f6, f7⟩
      simp only [f3, f1]
    | send hne hb =>
      refine ⟨_, star_one (.send st (f3 ▸ hne) (by rw [f3, f2]; exact hb)), f1, f2, ?_, f4, f5, f6, ?_⟩
      · simp only [f3]
      · simp only [f3, f1]
        refine (f7.append_right _).trans ?_
        rw [List.append_assoc, List.append_assoc]
        exact List.perm_append_comm.append_left _
    | receive l1 rs l2 hc hs =>
      have hm : (.ok rs : Except PyErr (Results ι δ)) ∈ st.sent := by
        rw [f7.mem_iff, hs]
        simp
      obtain ⟨a, b, hab⟩ := List.append_of_mem hm
      refine ⟨_, star_one (.receive st a rs b (f4.trans hc) hab), f1, f2, f3, rfl, f5, f6, ?_⟩
      simp only
      rw [hab, hs] at f7
      have h1 : (Except.ok rs :: (a ++ b)).Perm (Except.ok rs :: (l1 ++ l2 ++ d.lost)) := by
        refine List.perm_middle.symm.trans (f7.trans ?_)
        rw [List.append_assoc, List.append_assoc, List.cons_append]
        exact List.perm_middle
      exact h1.cons_inv
    | apply r rs t p g' hc ha =>
      refine ⟨_, star_one (.apply st r rs t p g' (f4.trans hc) (f1 ▸ ha)), rfl, f2, f3, rfl, ?_, ?_, f7⟩
      · simp only [f5]
      · simp only [f6]
  | die l1 b l2 hs =>
    refine ⟨st, .refl _, f1, f2, f3, f4, f5, f6, f7.trans ?_⟩
    rw [hs, List.append_assoc, List.append_assoc, List.cons_append]
    exact List.Perm.append_left l1 List.perm_middle.symm

theorem found_star {s : Step ι δ} {dry : Bool} {size : Nat} {d d' : DState ι δ} (h : DTrans.Star s dry size d d')
    {st : State ι δ} (hf : Found d st) : ∃ st', Trans.Star s dry size st st' ∧ Found d' st' := by
  induction h with
  | refl => exact ⟨st, .refl _, hf⟩
  | tail d1 d2 _ h1 ih =>
    obtain ⟨st1, h2, h3⟩ := ih
    obtain ⟨st2, h4, h5⟩ := found_step h3 h1
    exact ⟨st2, star_trans h2 h4, h5⟩

theorem found_init (g : Graph ι δ) (ts : List (Graph ι δ → List (Yield ι))) : Found ⟨.init g ts, []⟩ (.init g ts) :=
  ⟨rfl, rfl, rfl, rfl, rfl, rfl, .refl _⟩

theorem found_raises {dry : Bool} {d : DState ι δ} {st : State ι δ} (hf : Found d st) {e : PyErr} {g' : Graph ι δ}
    (h : Raises dry d.st e g') : Raises dry st e g' := by
  obtain ⟨f1, f2, f3, f4, f5, f6, f7⟩ := hf
  cases h with
  | batch l1 _ l2 hc hs =>
    have hm : (.error e : Except PyErr (Results ι δ)) ∈ st.sent := by
      rw [f7.mem_iff, hs]
      simp
    obtain ⟨a, b, hab⟩ := List.append_of_mem hm
    rw [← f1]
    exact .batch st a e b (f4.trans hc) hab
  | apply r rs _ _ hc ha => exact .apply st r rs e g' (f4.trans hc) (f1 ▸ ha)

theorem found_finished {d : DState ι δ} {st : State ι δ} (hf : Found d st) (h : d.Finished) : st.Finished := by
  obtain ⟨f1, f2, f3, f4, f5, f6, f7⟩ := hf
  obtain ⟨⟨h1, h2, h3, h4⟩, h5⟩ := h
  refine ⟨f2.trans h1, f3.trans h2, ?_, f4.trans h4⟩
  rw [h3, h5] at f7
  simpa using f7

theorem drest_lt {s : Step ι δ} {dry : Bool} {size : Nat} (hsize : size ≠ 0) {d d' : DState ι δ}
    (h : DTrans s dry size d d') : d'.st.rest < d.st.rest := by
  cases h with
  | work st' h => exact rest_lt hsize h
  | die l1 b l2 hs =>
    refine Prod.Lex.toLex_lt_toLex.2 (Or.inr ⟨rfl, Prod.Lex.toLex_lt_toLex.2 (Or.inr ⟨rfl,
      Prod.Lex.toLex_lt_toLex.2 (Or.inl ?_)⟩)⟩)
    simp [hs]

theorem dtrans_wf (s : Step ι δ) (dry : Bool) {size : Nat} (hsize : size ≠ 0) :
    WellFounded (fun d' d : DState ι δ => DTrans s dry size d d') :=
  Subrelation.wf (fun h => drest_lt hsize h) (InvImage.wf (fun d : DState ι δ => d.st.rest) wellFounded_lt)

/-- lost batches stay lost -/
theorem lost_star {s : Step ι δ} {dry : Bool} {size : Nat} {d d' : DState ι δ} (h : DTrans.Star s dry size d d')
    (hl : d.lost ≠ []) : d'.lost ≠ [] := by
  induction h with
  | refl => exact hl
  | tail d1 d2 _ h1 ih =>
    cases h1 with
    | work => exact ih
    | die => exact List.cons_ne_nil _ _

theorem finished_stuck {s : Step ι δ} {dry : Bool} {size : Nat} {d : DState ι δ} (h : d.st.Finished) :
    (∀ d', ¬ DTrans s dry size d d') ∧ ∀ e g', ¬ Raises dry d.st e g' := by
  obtain ⟨h1, h2, h3, h4⟩ := h
  constructor
  · intro d' hd
    cases hd with
    | work st' hd =>
      cases hd with
      | generate t ts ht _ => rw [h1] at ht; cases ht
      | send hne _ => exact hne h2
      | receive l1 rs l2 _ hs => rw [h3] at hs; simp at hs
      | apply r rs t p g' hc _ => rw [h4] at hc; cases hc
    | die l1 b l2 hs => rw [h3] at hs; simp at hs
  · intro e g' hr
    cases hr with
    | batch l1 _ l2 _ hs => rw [h3] at hs; simp at hs
    | apply r rs _ _ hc _ => rw [h4] at hc; cases hc

/-- the schedule in which every worker dies -/
theorem all_die (s : Step ι δ) (dry : Bool) {size : Nat} (hsize : size ≠ 0) (d : DState ι δ) (hs : d.st.sent = [])
    (hc : d.st.current = []) : ∃ d', DTrans.Star s dry size d d' ∧ d'.st.Finished ∧ d'.st.graph = d.st.graph ∧
      (d.lost ≠ [] ∨ d.st.buffer ≠ [] ∨ (∃ t ∈ d.st.todo, t d.st.graph ≠ []) → d'.lost ≠ []) := by
  induction d using (InvImage.wf (fun d : DState ι δ => d.st.rest) wellFounded_lt).induction with
  | _ d ih =>
    obtain ⟨⟨g, todo, buffer, sent, current, taken, proposed⟩, lost⟩ := d
    simp only at hs hc
    subst hs hc
    -- sending the buffer and losing it
    have send : buffer ≠ [] → size ≤ buffer.length ∨ todo = [] →
        ∃ d', DTrans.Star s dry size ⟨⟨g, todo, buffer, [], [], taken, proposed⟩, lost⟩ d' ∧ d'.st.Finished ∧
          d'.st.graph = g ∧ d'.lost ≠ [] := by
      intro hne hb
      have h1 := DTrans.work (s := s) (dry := dry) (size := size) ⟨⟨g, todo, buffer, [], [], taken, proposed⟩, lost⟩ _
        (.send _ hne hb)
      have h2 := DTrans.die (s := s) (dry := dry) (size := size) ⟨⟨g, todo, buffer.drop size,
        [s.evalBatch g (buffer.take size)], [], taken, proposed⟩, lost⟩ [] _ [] rfl
      obtain ⟨d', h3, h4, h5, h6⟩ := ih ⟨⟨g, todo, buffer.drop size, [], [], taken, proposed⟩,
        s.evalBatch g (buffer.take size) :: lost⟩ ((drest_lt hsize h2).trans (drest_lt hsize h1)) rfl rfl
      exact ⟨d', dstar_trans (dstar_trans (dstar_one h1) (dstar_one h2)) h3, h4, h5, h6 (.inl (List.cons_ne_nil _ _))⟩
    cases todo with
    | nil =>
      by_cases hb : buffer = []
      · subst hb
        refine ⟨_, .refl _, ⟨rfl, rfl, rfl, rfl⟩, rfl, ?_⟩
        rintro (h | h | ⟨t, ht, _⟩)
        · exact h
        · exact absurd rfl h
        · cases ht
      · obtain ⟨d', h1, h2, h3, h4⟩ := send hb (.inr rfl)
        exact ⟨d', h1, h2, h3, fun _ => h4⟩
    | cons t ts =>
      by_cases hb : buffer.length < size
      · have h1 := DTrans.work (s := s) (dry := dry) (size := size) ⟨⟨g, t :: ts, buffer, [], [], taken, proposed⟩, lost⟩ _
          (.generate _ t ts rfl hb)
        obtain ⟨d', h3, h4, h5, h6⟩ := ih _ (drest_lt hsize h1) rfl rfl
        refine ⟨d', dstar_trans (dstar_one h1) h3, h4, h5, fun h => h6 ?_⟩
        rcases h with h | h | ⟨x, hx, hne⟩
        · exact .inl h
        · exact .inr (.inl (by simp only [ne_eq, List.append_eq_nil_iff, not_and]; exact fun h' => absurd h' h))
        · rcases List.mem_cons.1 hx with rfl | hx
          · exact .inr (.inl (by simp only [ne_eq, List.append_eq_nil_iff, not_and]; exact fun _ => hne))
          · exact .inr (.inr ⟨x, hx, hne⟩)
      · obtain ⟨d', h1, h2, h3, h4⟩ := send (fun h => by rw [h] at hb; simp at hb; omega) (.inl (by omega))
        exact ⟨d', h1, h2, h3, fun _ => h4⟩

end Par
end Verif
