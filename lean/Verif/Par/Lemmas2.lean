import Verif.Par.Lemmas
import Mathlib.Data.Prod.Lex

/-!
# Helper lemmas: schedules end, and with one batch they agree with the in-process mode
-/

namespace Verif
open Graph
variable {ι δ : Type} [DecidableEq ι]

namespace Par

/-- what is left to do, in the order in which the transitions consume it -/
def State.rest (st : State ι δ) : Nat ×ₗ Nat ×ₗ Nat ×ₗ Nat :=
  toLex (st.todo.length, toLex (st.buffer.length, toLex (st.sent.length, st.current.length)))

theorem rest_lt {s : Step ι δ} {dry : Bool} {size : Nat} (hsize : size ≠ 0) {st st' : State ι δ}
    (h : Trans s dry size st st') : st'.rest < st.rest := by
  cases h with
  | generate t ts ht hb =>
    refine Prod.Lex.toLex_lt_toLex.2 (Or.inl ?_)
    simp [ht]
  | send hne hb =>
    refine Prod.Lex.toLex_lt_toLex.2 (Or.inr ⟨rfl, Prod.Lex.toLex_lt_toLex.2 (Or.inl ?_)⟩)
    have := List.length_pos_iff.2 hne
    simp only [List.length_drop]
    omega
  | receive l1 rs l2 hc hs =>
    refine Prod.Lex.toLex_lt_toLex.2 (Or.inr ⟨rfl, Prod.Lex.toLex_lt_toLex.2 (Or.inr ⟨rfl,
      Prod.Lex.toLex_lt_toLex.2 (Or.inl ?_)⟩)⟩)
    simp [hs]
  | apply r rs t p g' hc ha =>
    refine Prod.Lex.toLex_lt_toLex.2 (Or.inr ⟨rfl, Prod.Lex.toLex_lt_toLex.2 (Or.inr ⟨rfl,
      Prod.Lex.toLex_lt_toLex.2 (Or.inr ⟨rfl, ?_⟩)⟩)⟩)
    simp [hc]

theorem trans_wf (s : Step ι δ) (dry : Bool) {size : Nat} (hsize : size ≠ 0) :
    WellFounded (fun st' st : State ι δ => Trans s dry size st st') :=
  Subrelation.wf (fun h => rest_lt hsize h) (InvImage.wf State.rest wellFounded_lt)

/-- a state that is not finished can move on or raises -/
theorem progress (s : Step ι δ) (dry : Bool) {size : Nat} (hsize : size ≠ 0) (st : State ι δ) :
    st.Finished ∨ (∃ st', Trans s dry size st st') ∨ ∃ e g', Raises dry st e g' := by
  cases hc : st.current with
  | cons r rs =>
    right
    generalize ha : takeAction dry (asList r) st.graph = x
    obtain ⟨e | ⟨t, p⟩, g'⟩ := x
    · exact .inr ⟨e, g', .apply st r rs e g' hc ha⟩
    · exact .inl ⟨_, .apply st r rs t p g' hc ha⟩
  | nil =>
    cases hs : st.sent with
    | cons x l =>
      right
      cases x with
      | error e => exact .inr ⟨e, _, .batch st [] e l hc hs⟩
      | ok rs => exact .inl ⟨_, .receive st [] rs l hc hs⟩
    | nil =>
      cases ht : st.todo with
      | nil =>
        by_cases hb : st.buffer = []
        · exact .inl ⟨ht, hb, hs, hc⟩
        · exact .inr (.inl ⟨_, .send st hb (.inr ht)⟩)
      | cons t ts =>
        by_cases hb : st.buffer.length < size
        · exact .inr (.inl ⟨_, .generate st t ts ht hb⟩)
        · refine .inr (.inl ⟨_, .send st ?_ (.inl (by omega))⟩)
          intro h
          rw [h] at hb
          simp at hb
          omega

/-- from every state some schedule ends -/
theorem exists_end (s : Step ι δ) (dry : Bool) {size : Nat} (hsize : size ≠ 0) (st : State ι δ) :
    ∃ st', Trans.Star s dry size st st' ∧ (st'.Finished ∨ ∃ e g', Raises dry st' e g') := by
  induction st using (trans_wf s dry hsize).induction with
  | _ st ih =>
    rcases progress s dry hsize st with h | ⟨st', h⟩ | h
    · exact ⟨st, .refl _, .inl h⟩
    · obtain ⟨st'', h1, h2⟩ := ih st' h
      exact ⟨st'', star_trans (star_one h) h1, h2⟩
    · exact ⟨st, .refl _, .inr h⟩

/-- from a state reached by some schedule, some run goes on to the end -/
theorem exists_run_from (s : Step ι δ) (dry : Bool) {size : Nat} (hsize : size ≠ 0) {g : Graph ι δ}
    {ts : List (Graph ι δ → List (Yield ι))} (hgen : s.gen g = .ok ts) {st : State ι δ}
    (h : Trans.Star s dry size (.init g ts) st) : ∃ st', Trans.Star s dry size st st' ∧
      ((st'.Finished ∧ Run s dry size g (.ok (st'.taken, st'.proposed), st'.graph)) ∨
        ∃ e g', Raises dry st' e g' ∧ Run s dry size g (.error e, g')) := by
  obtain ⟨st', h1, h2 | ⟨e, g', h2⟩⟩ := exists_end s dry hsize st
  · exact ⟨st', h1, .inl ⟨h2, .done hsize ts hgen st' (star_trans h h1) h2⟩⟩
  · exact ⟨st', h1, .inr ⟨e, g', h2, .raised hsize ts hgen st' (star_trans h h1) e g' h2⟩⟩

theorem exists_run (s : Step ι δ) (dry : Bool) (size : Nat) (g : Graph ι δ) : ∃ out, Run s dry size g out := by
  by_cases hsize : size = 0
  · exact ⟨_, .badSize hsize⟩
  · cases hgen : s.gen g with
    | error e => exact ⟨_, .badGen hsize e hgen⟩
    | ok ts =>
      obtain ⟨st, _, ⟨_, h⟩ | ⟨e, g', _, h⟩⟩ := exists_run_from s dry hsize hgen (.refl (.init g ts))
      · exact ⟨_, h⟩
      · exact ⟨_, h⟩

/-! ## one batch -/

/-- all tasks fit into the first batch: before the generator is exhausted, fewer than `size` tasks exist, and in the end at
most `size` -/
def Fits (size : Nat) (g : Graph ι δ) (ts : List (Graph ι δ → List (Yield ι))) : Prop :=
  (forceOn g ts).length ≤ size ∧ ∀ l1 l2, ts = l1 ++ l2 → l2 ≠ [] → (forceOn g l1).length < size

omit [DecidableEq ι] in
theorem fits_of_lt {size : Nat} {g : Graph ι δ} {ts : List (Graph ι δ → List (Yield ι))}
    (h : (forceOn g ts).length < size) : Fits size g ts := by
  refine ⟨by omega, ?_⟩
  rintro l1 l2 rfl -
  unfold forceOn at h ⊢
  rw [List.flatMap_append, List.length_append] at h
  omega

omit [DecidableEq ι] in
theorem fits_single {size : Nat} (hsize : size ≠ 0) {g : Graph ι δ} {t : Graph ι δ → List (Yield ι)}
    (h : (t g).length ≤ size) : Fits size g [t] := by
  refine ⟨by simpa [forceOn] using h, ?_⟩
  intro l1 l2 he hne
  cases l1 with
  | nil => simp [forceOn]; omega
  | cons a l1 =>
    simp only [List.cons_append, List.cons.injEq] at he
    have : l1 ++ l2 = [] := he.2.symm
    exact absurd (List.append_eq_nil_iff.1 this).2 hne

/-- the states of a step whose tasks fit into one batch -/
inductive Phase (s : Step ι δ) (dry : Bool) (g : Graph ι δ) (ts : List (Graph ι δ → List (Yield ι))) : State ι δ → Prop
  | generating (l1 l2) (h : ts = l1 ++ l2) : Phase s dry g ts ⟨g, l2, forceOn g l1, [], [], [], []⟩
  | waiting : Phase s dry g ts ⟨g, [], [], [s.evalBatch g (forceOn g ts)], [], [], []⟩
  | applying (rs rs' t p g') (h : s.evalBatch g (forceOn g ts) = .ok (rs ++ rs'))
      (ha : takeAction dry rs g = (.ok (t, p), g')) : Phase s dry g ts ⟨g', [], [], [], rs', t, p⟩

theorem phase_trans {s : Step ι δ} {dry : Bool} {size : Nat} {g : Graph ι δ} {ts : List (Graph ι δ → List (Yield ι))}
    (hfit : Fits size g ts) {st st' : State ι δ} (h : Phase s dry g ts st) (ht : Trans s dry size st st') :
    Phase s dry g ts st' := by
  cases h with
  | generating l1 l2 h =>
    cases ht with
    | generate t ts' ht hb =>
      simp only at ht
      subst ht
      have := Phase.generating (s := s) (dry := dry) (g := g) (ts := ts) (l1 ++ [t]) ts' (by simp [h])
      simpa [forceOn] using this
    | send hne hb =>
      simp only at hne hb
      have hl2 : l2 = [] := by
        rcases hb with hb | hb
        · by_contra hc
          have := hfit.2 l1 l2 h hc
          omega
        · exact hb
      subst hl2
      rw [List.append_nil] at h
      subst h
      have hlen := hfit.1
      simp only
      rw [List.take_of_length_le hlen, List.drop_of_length_le hlen]
      exact .waiting
    | receive l1' rs l2' hc hs => simp at hs
    | apply r rs t p g' hc ha => simp at hc
  | waiting =>
    cases ht with
    | generate t ts' ht hb => simp at ht
    | send hne hb => simp at hne
    | receive l1' rs l2' hc hs =>
      simp only at hs
      cases l1' with
      | cons a l => simp at hs
      | nil =>
        simp only [List.nil_append, List.cons.injEq] at hs
        obtain ⟨h1, rfl⟩ := hs
        exact .applying [] rs [] [] g (by simpa using h1) rfl
    | apply r rs t p g' hc ha => simp at hc
  | applying rs rs' t p g' h ha =>
    cases ht with
    | generate t ts' ht hb => simp at ht
    | send hne hb => simp at hne
    | receive l1' rs l2' hc hs => simp at hs
    | apply r rs'' t' p' g'' hc ha' =>
      simp only at hc ha'
      subst hc
      refine .applying (rs ++ [r]) rs'' _ _ g'' (by simpa using h) ?_
      rw [takeAction_append, ha]
      simp only
      rw [← takeAction_asList, ha']

/-- With one batch every schedule ends in the same way, namely as the in-process mode does. -/
theorem run_one_batch {s : Step ι δ} {dry : Bool} {size : Nat} {g : Graph ι δ} (hsize : size ≠ 0)
    {ts : List (Graph ι δ → List (Yield ι))} (hgen : s.gen g = .ok ts) (hfit : Fits size g ts) (hu : s.needsUnapplied = false)
    (hc : s.chunked = false) (hy : s.applySync = false)
    {out : Except PyErr (List (TestResult ι δ) × List (TestResult ι δ)) × Graph ι δ} (h : Run s dry size g out) :
    out = s.execute dry g := by
  have hex : s.execute dry g = match s.evalBatch g (forceOn g ts) with
      | .error e => (.error e, g)
      | .ok rs => takeAction dry rs g := by
    unfold Step.execute
    rw [hgen]
    simp only [hc, hy, Bool.false_eq_true, if_false]
    rw [s.evalSeq_evalBatch hu]
    cases s.evalBatch g (forceOn g ts) <;> simp
  have hinit : Phase s dry g ts (.init g ts) := Phase.generating [] ts rfl
  cases h with
  | badSize h => exact absurd h hsize
  | badGen _ e he => rw [hgen] at he; cases he
  | done _ ts' hgen' st hr hf =>
    rw [hgen] at hgen'
    cases hgen'
    have := star_inv (Phase s dry g ts) (fun _ _ h ht => phase_trans hfit h ht) hr hinit
    obtain ⟨f1, f2, f3, f4⟩ := hf
    rw [hex]
    cases this with
    | generating l1 l2 h =>
      simp only at f1 f2
      subst f1
      rw [List.append_nil] at h
      subst h
      rw [f2]
      rfl
    | waiting => simp at f3
    | applying rs rs' t p g' h ha =>
      simp only at f4
      subst f4
      rw [h, List.append_nil]
      exact ha.symm
  | raised _ ts' hgen' st hr e g' hf =>
    rw [hgen] at hgen'
    cases hgen'
    have := star_inv (Phase s dry g ts) (fun _ _ h ht => phase_trans hfit h ht) hr hinit
    rw [hex]
    cases this with
    | generating l1 l2 h =>
      cases hf with
      | batch l1' _ l2' hc hs => simp at hs
      | apply r rs _ _ hc ha => simp at hc
    | waiting =>
      cases hf with
      | batch l1' _ l2' hc hs =>
        simp only at hs
        cases l1' with
        | cons a l => simp at hs
        | nil =>
          simp only [List.nil_append, List.cons.injEq] at hs
          rw [hs.1]
      | apply r rs _ _ hc ha => simp at hc
    | applying rs rs' t p g'' h ha =>
      cases hf with
      | batch l1' _ l2' hc hs => simp at hs
      | apply r rs'' _ _ hc ha' =>
        simp only at hc ha'
        subst hc
        rw [h]
        simp only
        rw [takeAction_append, ha]
        simp only
        rw [takeAction_cons', ha']

end Par
end Verif
