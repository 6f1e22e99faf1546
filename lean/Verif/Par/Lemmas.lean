import Verif.Par.Model
import Verif.Pipeline.Inv

/-!
# Helper lemmas: every schedule of a parallel step
-/

namespace Verif
open Graph
variable {ι δ : Type} [DecidableEq ι]

namespace Step

omit [DecidableEq ι] in
theorem evalBatch_mem (s : Step ι δ) (g : Graph ι δ) (ys : List (Yield ι)) (rs : Results ι δ)
    (h : s.evalBatch g ys = .ok rs) : ∀ r ∈ rs, ∃ c, Yield.single c ∈ ys ∧ s.process c g none = .ok r := by
  induction ys generalizing rs with
  | nil => simp [evalBatch] at h; simp [h]
  | cons y ys ih =>
    unfold evalBatch at h
    cases hp : s.evalTask g y with
    | error e => rw [hp] at h; cases h
    | ok r =>
      rw [hp] at h
      simp only at h
      cases hq : s.evalBatch g ys with
      | error e => rw [hq] at h; cases h
      | ok rs' =>
        rw [hq] at h
        simp only [Except.ok.injEq] at h
        subst h
        intro r' hr'
        rcases List.mem_cons.1 hr' with rfl | hr'
        · cases y with
          | chunk cs => cases hp
          | single c => exact ⟨c, List.mem_cons_self, hp⟩
        · obtain ⟨c', hc', h'⟩ := ih rs' hq r' hr'
          exact ⟨c', List.mem_cons_of_mem _ hc', h'⟩

omit [DecidableEq ι] in
theorem evalBatch_covers (s : Step ι δ) (g : Graph ι δ) (ys : List (Yield ι)) (rs : Results ι δ)
    (h : s.evalBatch g ys = .ok rs) {c : List ι} (hc : Yield.single c ∈ ys) : ∃ o ∈ rs, s.process c g none = .ok o := by
  induction ys generalizing rs with
  | nil => cases hc
  | cons y ys ih =>
    unfold evalBatch at h
    cases hp : s.evalTask g y with
    | error e => rw [hp] at h; cases h
    | ok r =>
      rw [hp] at h
      simp only at h
      cases hq : s.evalBatch g ys with
      | error e => rw [hq] at h; cases h
      | ok rs' =>
        rw [hq] at h
        simp only [Except.ok.injEq] at h
        subst h
        rcases List.mem_cons.1 hc with rfl | hc
        · exact ⟨r, List.mem_cons_self, hp⟩
        · obtain ⟨o', ho', hp⟩ := ih rs' hq hc
          exact ⟨o', List.mem_cons_of_mem _ ho', hp⟩

omit [DecidableEq ι] in
theorem evalBatch_ok (s : Step ι δ) (g : Graph ι δ) (ys : List (Yield ι))
    (h : ∀ y ∈ ys, ∃ c o, y = .single c ∧ s.process c g none = .ok o) : ∃ rs, s.evalBatch g ys = .ok rs := by
  induction ys with
  | nil => exact ⟨[], rfl⟩
  | cons y ys ih =>
    obtain ⟨c, o, rfl, ho⟩ := h y List.mem_cons_self
    obtain ⟨rs, hrs⟩ := ih (fun y hy => h y (List.mem_cons_of_mem _ hy))
    refine ⟨o :: rs, ?_⟩
    unfold evalBatch
    rw [show s.evalTask g (.single c) = .ok o from ho]
    simp only
    rw [hrs]

omit [DecidableEq ι] in
theorem evalBatch_append (s : Step ι δ) (g : Graph ι δ) (xs ys : List (Yield ι)) (rx ry : Results ι δ)
    (hx : s.evalBatch g xs = .ok rx) (hy : s.evalBatch g ys = .ok ry) : s.evalBatch g (xs ++ ys) = .ok (rx ++ ry) := by
  induction xs generalizing rx with
  | nil => simp only [evalBatch, Except.ok.injEq] at hx; subst hx; exact hy
  | cons x xs ih =>
    unfold evalBatch at hx
    rw [List.cons_append]
    unfold evalBatch
    cases hp : s.evalTask g x with
    | error e => rw [hp] at hx; cases hx
    | ok r =>
      rw [hp] at hx
      simp only at hx ⊢
      cases hq : s.evalBatch g xs with
      | error e => rw [hq] at hx; cases hx
      | ok rs' =>
        rw [hq] at hx
        simp only [Except.ok.injEq] at hx
        subst hx
        rw [ih rs' hq]
        rfl

omit [DecidableEq ι] in
/-- the workers compute what the in-process mode computes -/
theorem evalSeq_evalBatch (s : Step ι δ) (hu : s.needsUnapplied = false) (g : Graph ι δ) (ys : List (Yield ι))
    (loc : Results ι δ) : s.evalSeq g ys loc = match s.evalBatch g ys with
      | .error e => .error e
      | .ok rs => .ok (loc ++ rs) := by
  induction ys generalizing loc with
  | nil => simp [evalSeq, evalBatch]
  | cons y ys ih =>
    unfold evalSeq evalBatch
    have : s.evalOne g y loc = s.evalTask g y := by
      cases y <;> simp [evalOne, evalTask, hu]
    rw [this]
    cases s.evalTask g y with
    | error e => rfl
    | ok r =>
      simp only
      rw [ih]
      cases s.evalBatch g ys with
      | error e => rfl
      | ok rs => simp

end Step

namespace Par

omit [DecidableEq ι] in
theorem flatten_asList (r : Option (List (TestResult ι δ))) : flatten (asList r) = flatten [r] := by
  cases r with
  | none => rfl
  | some l =>
    simp only [asList, flatten, List.flatMap_cons, List.flatMap_nil, List.append_nil, Option.getD_some]
    induction l with
    | nil => rfl
    | cons a l ih => simp [ih]

theorem takeAction_asList (dry : Bool) (r : Option (List (TestResult ι δ))) (g : Graph ι δ) :
    takeAction dry (asList r) g = takeAction dry [r] g := by
  rw [takeAction_flat, takeAction_flat, flatten_asList]

theorem takeAction_cons' (dry : Bool) (r : Option (List (TestResult ι δ))) (rs : Results ι δ) (g : Graph ι δ) :
    takeAction dry (r :: rs) g = match takeAction dry (asList r) g with
      | (.ok (t, p), g') => (match takeAction dry rs g' with
        | (.ok (ts, ps), g'') => (.ok (t ++ ts, p ++ ps), g'')
        | (.error e, g'') => (.error e, g''))
      | (.error e, g') => (.error e, g') := by
  rw [takeAction_asList]
  cases r with
  | none =>
    show takeAction dry rs g = match takeAction dry rs g with
        | (.ok (ts, ps), g'') => (.ok ([] ++ ts, [] ++ ps), g'')
        | (.error e, g'') => (.error e, g'')
    generalize takeAction dry rs g = x
    obtain ⟨e | ⟨t, p⟩, g'⟩ := x <;> rfl
  | some items =>
    rw [takeAction_cons, takeAction_cons]
    generalize takeItems dry items g = x
    obtain ⟨e | t, g'⟩ := x
    · rfl
    · simp only
      rw [show takeAction dry ([] : Results ι δ) g' = (.ok ([], []), g') from rfl]
      simp only [List.append_nil]
      generalize takeAction dry rs g' = y
      obtain ⟨e | ⟨t', p'⟩, g''⟩ := y <;> rfl

/-- splitting a list of results -/
theorem takeAction_append (dry : Bool) (rs rs' : Results ι δ) (g : Graph ι δ) :
    takeAction dry (rs ++ rs') g = match takeAction dry rs g with
      | (.ok (t, p), g') => (match takeAction dry rs' g' with
        | (.ok (ts, ps), g'') => (.ok (t ++ ts, p ++ ps), g'')
        | (.error e, g'') => (.error e, g''))
      | (.error e, g') => (.error e, g') := by
  induction rs generalizing g with
  | nil =>
    rw [show takeAction dry ([] : Results ι δ) g = (.ok ([], []), g) from rfl, List.nil_append]
    simp only
    generalize takeAction dry rs' g = x
    obtain ⟨e | ⟨t, p⟩, g'⟩ := x <;> rfl
  | cons r rs ih =>
    rw [List.cons_append, takeAction_cons', takeAction_cons']
    generalize takeAction dry (asList r) g = x
    obtain ⟨e | ⟨t, p⟩, g'⟩ := x
    · rfl
    · simp only
      rw [ih]
      generalize takeAction dry rs g' = y
      obtain ⟨e | ⟨t', p'⟩, g''⟩ := y
      · rfl
      · simp only
        generalize takeAction dry rs' g'' = z
        obtain ⟨e | ⟨t'', p''⟩, g'''⟩ := z
        · rfl
        · simp

/-- what is true of the initial state and kept by every transition is true of every reachable state -/
theorem star_inv {s : Step ι δ} {dry : Bool} {size : Nat} (I : State ι δ → Prop)
    (hstep : ∀ st st', I st → Trans s dry size st st' → I st') {st st' : State ι δ} (h : Trans.Star s dry size st st')
    (h0 : I st) : I st' := by
  induction h with
  | refl => exact h0
  | tail _ _ _ h' ih => exact hstep _ _ ih h'

theorem star_trans {s : Step ι δ} {dry : Bool} {size : Nat} {a b c : State ι δ} (h : Trans.Star s dry size a b)
    (h' : Trans.Star s dry size b c) : Trans.Star s dry size a c := by
  induction h' with
  | refl => exact h
  | tail _ _ _ h1 ih => exact .tail _ _ _ ih h1

theorem star_one {s : Step ι δ} {dry : Bool} {size : Nat} {a b : State ι δ} (h : Trans s dry size a b) :
    Trans.Star s dry size a b := .tail _ _ _ (.refl _) h

/-! ## invariants -/

variable {P : Graph ι δ → Prop} {Q : TestResult ι δ → Prop} {R : List ι → Prop}

/-- the invariant of all schedules of a safe step -/
structure Good (P : Graph ι δ → Prop) (Q : TestResult ι δ → Prop) (R : List ι → Prop) (st : State ι δ) : Prop where
  graph : P st.graph
  todo : ∀ t ∈ st.todo, ∀ g, P g → ∀ y ∈ t g, ∀ c ∈ y.combos, R c
  buffer : ∀ y ∈ st.buffer, ∀ c ∈ y.combos, R c
  sent : ∀ rs, .ok rs ∈ st.sent → ∀ l, some l ∈ rs → ∀ r ∈ l, Q r
  current : ∀ l, some l ∈ st.current → ∀ r ∈ l, Q r

omit [DecidableEq ι] in
theorem asList_all {r : Option (List (TestResult ι δ))} (h : ∀ l, r = some l → ∀ a ∈ l, Q a) :
    ∀ l, some l ∈ asList r → ∀ a ∈ l, Q a := by
  intro l hl a ha
  cases r with
  | none => simp [asList] at hl
  | some l' =>
    simp only [asList, List.mem_map] at hl
    obtain ⟨b, hb, e⟩ := hl
    cases e
    simp only [List.mem_singleton] at ha
    subst ha
    exact h _ rfl _ hb

theorem good_trans {s : Step ι δ} (k : Kept P Q) (hs : s.SafeFor R P Q) {dry : Bool} {size : Nat} {st st' : State ι δ}
    (h : Good P Q R st) (ht : Trans s dry size st st') : Good P Q R st' := by
  cases ht with
  | generate t ts ht hb =>
    refine ⟨h.graph, fun t' ht' => h.todo t' (by rw [ht]; exact List.mem_cons_of_mem _ ht'), ?_, h.sent, h.current⟩
    intro y hy
    rcases List.mem_append.1 hy with hy | hy
    · exact h.buffer y hy
    · exact h.todo t (by rw [ht]; exact List.mem_cons_self) _ h.graph y hy
  | send hne hb =>
    refine ⟨h.graph, h.todo, fun y hy => h.buffer y (List.mem_of_mem_drop hy), ?_, h.current⟩
    intro rs hrs l hl r hr
    rcases List.mem_append.1 hrs with hrs | hrs
    · exact h.sent rs hrs l hl r hr
    · simp only [List.mem_singleton] at hrs
      obtain ⟨c, hc, hp⟩ := s.evalBatch_mem _ _ rs hrs.symm _ hl
      exact hs.process c _ none l h.graph (h.buffer _ (List.mem_of_mem_take hc) c (by simp [Yield.combos])) hp r hr
  | receive l1 rs l2 hc hss =>
    refine ⟨h.graph, h.todo, h.buffer, ?_, ?_⟩
    · intro rs' hrs'
      refine h.sent rs' ?_
      rw [hss]
      rcases List.mem_append.1 hrs' with h1 | h1
      · exact List.mem_append_left _ h1
      · exact List.mem_append_right _ (List.mem_cons_of_mem _ h1)
    · exact h.sent rs (by rw [hss]; simp)
  | apply r rs t p g' hc ha =>
    refine ⟨?_, h.todo, h.buffer, h.sent, fun l hl => h.current l (by rw [hc]; exact List.mem_cons_of_mem _ hl)⟩
    have := k.takeAction dry (asList r) (asList_all fun l hl => h.current l (by rw [hc, hl]; exact List.mem_cons_self)) h.graph
    rw [ha] at this
    exact this

omit [DecidableEq ι] in
theorem good_init {s : Step ι δ} (hs : s.SafeFor R P Q) {g : Graph ι δ} (hg : P g)
    {ts : List (Graph ι δ → List (Yield ι))} (hgen : s.gen g = .ok ts) : Good P Q R (.init g ts) :=
  ⟨hg, hs.gen g ts hg hgen, by simp [State.init], by simp [State.init], by simp [State.init]⟩

theorem good_star {s : Step ι δ} (k : Kept P Q) (hs : s.SafeFor R P Q) {dry : Bool} {size : Nat} {g : Graph ι δ} (hg : P g)
    {ts : List (Graph ι δ → List (Yield ι))} (hgen : s.gen g = .ok ts) {st : State ι δ}
    (h : Trans.Star s dry size (.init g ts) st) : Good P Q R st :=
  star_inv (Good P Q R) (fun _ _ h ht => good_trans k hs h ht) h (good_init hs hg hgen)

/-- whatever the schedule and the outcome, the invariant holds in the end -/
theorem run_kept {s : Step ι δ} (k : Kept P Q) (hs : s.Safe P Q) {dry : Bool} {size : Nat} {g : Graph ι δ} (hg : P g)
    {out : Except PyErr (List (TestResult ι δ) × List (TestResult ι δ)) × Graph ι δ} (h : Run s dry size g out) : P out.2 := by
  obtain ⟨R, hs⟩ := hs
  cases h with
  | badSize _ => exact hg
  | badGen _ _ _ => exact hg
  | done _ ts hgen st hr _ => exact (good_star k hs hg hgen hr).graph
  | raised _ ts hgen st hr e g' hf =>
    have hgood := good_star k hs hg hgen hr
    cases hf with
    | batch _ _ _ _ _ => exact hgood.graph
    | apply r rs _ _ hc ha =>
      have := k.takeAction dry (asList r) (asList_all fun l hl => hgood.current l (by rw [hc, hl]; exact List.mem_cons_self))
        hgood.graph
      rw [ha] at this
      exact this

/-! ## no exceptions -/

/-- all tasks are single combinations and all sent batches succeeded -/
structure Clean (P : Graph ι δ → Prop) (R : List ι → Prop) (st : State ι δ) : Prop where
  todo : ∀ t ∈ st.todo, ∀ g, P g → ∀ y ∈ t g, ∃ c, y = .single c ∧ R c
  buffer : ∀ y ∈ st.buffer, ∃ c, y = .single c ∧ R c
  sent : ∀ x ∈ st.sent, ∃ rs, x = .ok rs

theorem clean_trans {s : Step ι δ} (ht : s.TotalFor R P) {dry : Bool} {size : Nat}
    {st st' : State ι δ} (hP : P st.graph) (h : Clean P R st) (htr : Trans s dry size st st') : Clean P R st' := by
  cases htr with
  | generate t ts ht hb =>
    refine ⟨fun t' ht' => h.todo t' (by rw [ht]; exact List.mem_cons_of_mem _ ht'), ?_, h.sent⟩
    intro y hy
    rcases List.mem_append.1 hy with hy | hy
    · exact h.buffer y hy
    · exact h.todo t (by rw [ht]; exact List.mem_cons_self) _ hP y hy
  | send hne hb =>
    refine ⟨h.todo, fun y hy => h.buffer y (List.mem_of_mem_drop hy), ?_⟩
    intro x hx
    rcases List.mem_append.1 hx with hx | hx
    · exact h.sent x hx
    · simp only [List.mem_singleton] at hx
      obtain ⟨rs, hrs⟩ := s.evalBatch_ok st.graph (st.buffer.take size) (by
        intro y hy
        obtain ⟨c, rfl, hc⟩ := h.buffer y (List.mem_of_mem_take hy)
        obtain ⟨o, ho⟩ := ht.process c _ none hP hc
        exact ⟨c, o, rfl, ho⟩)
      exact ⟨rs, hx.trans hrs⟩
  | receive l1 rs l2 hc hss =>
    refine ⟨h.todo, h.buffer, ?_⟩
    intro x hx
    refine h.sent x ?_
    rw [hss]
    rcases List.mem_append.1 hx with h1 | h1
    · exact List.mem_append_left _ h1
    · exact List.mem_append_right _ (List.mem_cons_of_mem _ h1)
  | apply r rs t p g' hc ha => exact ⟨h.todo, h.buffer, h.sent⟩

/-- no schedule of a total step that proposes applicable actions raises -/
theorem run_ok {s : Step ι δ} (ha : ApplyTotal P Q) (k : Kept P Q) (hs : s.SafeFor R P Q) (ht : s.TotalFor R P)
    (hch : s.chunked = false) {size : Nat} (hsize : size ≠ 0) {g : Graph ι δ} (hg : P g)
    {out : Except PyErr (List (TestResult ι δ) × List (TestResult ι δ)) × Graph ι δ} (h : Run s false size g out) :
    ∃ tp, out.1 = .ok tp := by
  cases h with
  | badSize h => exact absurd h hsize
  | badGen _ e he => obtain ⟨ts, hts⟩ := ht.gen g hg; rw [hts] at he; cases he
  | done _ ts hgen st hr _ => exact ⟨_, rfl⟩
  | raised _ ts hgen st hr e g' hf =>
    have hc0 : Clean P R (.init g ts) := by
      refine ⟨?_, by simp [State.init], by simp [State.init]⟩
      intro t htt g' hg' y hy
      have := ht.shape g ts hg hgen t htt g' hg' y hy
      rw [hch] at this
      simp only [Bool.false_eq_true, if_false] at this
      obtain ⟨c, rfl⟩ := this
      exact ⟨c, rfl, hs.gen g ts hg hgen t htt g' hg' _ hy c (by simp [Yield.combos])⟩
    have hboth := star_inv (fun st => Good P Q R st ∧ Clean P R st)
      (fun _ _ h htr => ⟨good_trans k hs h.1 htr, clean_trans ht h.1.graph h.2 htr⟩) hr ⟨good_init hs hg hgen, hc0⟩
    obtain ⟨hgood, hclean⟩ := hboth
    cases hf with
    | batch l1 _ l2 hc hss =>
      obtain ⟨rs, hrs⟩ := hclean.sent (.error e) (by rw [hss]; simp)
      cases hrs
    | apply r rs _ _ hc hta =>
      obtain ⟨tp, g1, h1⟩ := takeAction_ok ha k (asList r)
        (asList_all fun l hl => hgood.current l (by rw [hc, hl]; exact List.mem_cons_self)) hgood.graph
      rw [hta] at h1
      cases h1

/-! ## what is handed out is applied -/

/-- a proposed action with the property among the results of a batch -/
def HasW (W : TestResult ι δ → Prop) (rs : Results ι δ) : Prop := ∃ l, some l ∈ rs ∧ ∃ r ∈ l, W r

theorem takeItems_establishes (k : Kept P Q) (D : Graph ι δ → Prop) (W : TestResult ι δ → Prop)
    (hD : ∀ r g, P g → Q r → D g → D (applyOne r g).2) (hW : ∀ r g, P g → Q r → W r → D (applyOne r g).2)
    (l : List (TestResult ι δ)) (hq : ∀ r ∈ l, Q r) {g : Graph ι δ} (hg : P g) {r : TestResult ι δ} (hr : r ∈ l) (hw : W r)
    {t : List (TestResult ι δ)} {g' : Graph ι δ} (h : takeItems false l g = (.ok t, g')) : D g' := by
  refine takeItems_each k (fun r g => W r → D g) (fun r g hg hq hw => hW r g hg hq hw) ?_ l hq hg t h r hr hw
  intro r r' g hg hq hd hw
  exact hD r' g hg hq (hd hw)

/-- If, on every graph of the invariant on which `D` does not hold yet, one thunk of the generator hands out a combination
whose test proposes, on every such graph, an action that establishes `D`, and `D` is never lost, then `D` holds after every
schedule. -/
theorem run_establishes {s : Step ι δ} (k : Kept P Q) (hs : s.SafeFor R P Q) {size : Nat} {g g' : Graph ι δ} (hg : P g)
    {ts : List (Graph ι δ → List (Yield ι))} (hgen : s.gen g = .ok ts) (D : Graph ι δ → Prop) (W : TestResult ι δ → Prop)
    (hD : ∀ r g, P g → Q r → D g → D (applyOne r g).2) (hW : ∀ r g, P g → Q r → W r → D (applyOne r g).2)
    {t : Graph ι δ → List (Yield ι)} (ht : t ∈ ts) (htc : ∀ g, P g → D g ∨ ∃ c, .single c ∈ t g ∧
      ∀ g, P g → D g ∨ ∃ l r, s.process c g none = .ok (some l) ∧ r ∈ l ∧ W r)
    {tp : List (TestResult ι δ) × List (TestResult ι δ)} (h : Run s false size g (.ok tp, g')) : D g' := by
  have hkeep : ∀ l, (∀ r ∈ l, Q r) → ∀ g, P g → D g → D (takeItems false l g).2 := by
    intro l hq g hg hd
    exact (takeItems_inv (fun g => P g ∧ D g) l
      (fun r hr g hg => ⟨k.apply r g hg.1 (hq r hr), hD r g hg.1 (hq r hr) hg.2⟩) ⟨hg, hd⟩).2
  let O : State ι δ → Prop := fun st => D st.graph ∨ t ∈ st.todo ∨ (∃ c, .single c ∈ st.buffer ∧
    ∀ g, P g → D g ∨ ∃ l r, s.process c g none = .ok (some l) ∧ r ∈ l ∧ W r) ∨ (∃ e, .error e ∈ st.sent) ∨
    (∃ rs, .ok rs ∈ st.sent ∧ HasW W rs) ∨ HasW W st.current
  have key : ∀ st st', Good P Q R st ∧ O st → Trans s false size st st' → Good P Q R st' ∧ O st' := by
    rintro st st' ⟨hgood, ho⟩ htr
    refine ⟨good_trans k hs hgood htr, ?_⟩
    cases htr with
    | generate t' ts' ht' hb =>
      rcases ho with ho | ho | ⟨c, hc, ho⟩ | ho | ho | ho
      · exact .inl ho
      · rw [ht'] at ho
        rcases List.mem_cons.1 ho with rfl | ho
        · rcases htc _ hgood.graph with hd | ⟨c, hc, hh⟩
          · exact .inl hd
          · exact .inr (.inr (.inl ⟨c, List.mem_append_right _ hc, hh⟩))
        · exact .inr (.inl ho)
      · exact .inr (.inr (.inl ⟨c, List.mem_append_left _ hc, ho⟩))
      · exact .inr (.inr (.inr (.inl ho)))
      · exact .inr (.inr (.inr (.inr (.inl ho))))
      · exact .inr (.inr (.inr (.inr (.inr ho))))
    | send hne hb =>
      rcases ho with ho | ho | ⟨c, hc, ho⟩ | ⟨e, ho⟩ | ⟨rs, hrs, ho⟩ | ho
      · exact .inl ho
      · exact .inr (.inl ho)
      · rw [← List.take_append_drop size st.buffer] at hc
        rcases List.mem_append.1 hc with hc | hc
        · cases hx : s.evalBatch st.graph (st.buffer.take size) with
          | error e => exact .inr (.inr (.inr (.inl ⟨e, by simp⟩)))
          | ok rs =>
            obtain ⟨o, ho1, ho2⟩ := s.evalBatch_covers _ _ rs hx hc
            rcases ho _ hgood.graph with hd | ⟨l, r, hp, hr, hw⟩
            · exact .inl hd
            · rw [hp] at ho2
              cases ho2
              exact .inr (.inr (.inr (.inr (.inl ⟨rs, by simp, l, ho1, r, hr, hw⟩))))
        · exact .inr (.inr (.inl ⟨c, hc, ho⟩))
      · exact .inr (.inr (.inr (.inl ⟨e, List.mem_append_left _ ho⟩)))
      · exact .inr (.inr (.inr (.inr (.inl ⟨rs, List.mem_append_left _ hrs, ho⟩))))
      · exact .inr (.inr (.inr (.inr (.inr ho))))
    | receive l1 rs l2 hc hss =>
      rcases ho with ho | ho | ho | ⟨e, ho⟩ | ⟨rs', hrs, ho⟩ | ⟨l, hl, _⟩
      · exact .inl ho
      · exact .inr (.inl ho)
      · exact .inr (.inr (.inl ho))
      · rw [hss] at ho
        refine .inr (.inr (.inr (.inl ⟨e, ?_⟩)))
        simpa using ho
      · rw [hss] at hrs
        simp only [List.mem_append, List.mem_cons] at hrs
        rcases hrs with h1 | h1 | h1
        · exact .inr (.inr (.inr (.inr (.inl ⟨rs', List.mem_append_left _ h1, ho⟩))))
        · cases h1
          exact .inr (.inr (.inr (.inr (.inr ho))))
        · exact .inr (.inr (.inr (.inr (.inl ⟨rs', List.mem_append_right _ h1, ho⟩))))
      · rw [hc] at hl; cases hl
    | apply r rs t1 p g1 hc ha =>
      have hq : ∀ a ∈ flatten (asList r), Q a := by
        intro a ha
        rw [flatten_asList] at ha
        cases r with
        | none => simp [flatten] at ha
        | some l =>
          simp only [flatten, List.flatMap_cons, List.flatMap_nil, List.append_nil, Option.getD_some] at ha
          exact hgood.current l (by rw [hc]; exact List.mem_cons_self) a ha
      have hta : ∃ t2, takeItems false (flatten (asList r)) st.graph = (.ok t2, g1) := by
        rw [takeAction_flat] at ha
        generalize hx : takeItems false (flatten (asList r)) st.graph = x at ha
        obtain ⟨e | t2, g2⟩ := x
        · cases ha
        · simp only [Prod.mk.injEq] at ha
          exact ⟨t2, by rw [ha.2]⟩
      obtain ⟨t2, hta⟩ := hta
      rcases ho with ho | ho | ho | ho | ho | ⟨l, hl, a, hal, hw⟩
      · have := hkeep _ hq _ hgood.graph ho
        rw [hta] at this
        exact .inl this
      · exact .inr (.inl ho)
      · exact .inr (.inr (.inl ho))
      · exact .inr (.inr (.inr (.inl ho)))
      · exact .inr (.inr (.inr (.inr (.inl ho))))
      · rw [hc] at hl
        rcases List.mem_cons.1 hl with e | hl
        · refine .inl (takeItems_establishes k D W hD hW _ hq hgood.graph ?_ hw hta)
          rw [flatten_asList, ← e]
          simpa [flatten] using hal
        · exact .inr (.inr (.inr (.inr (.inr ⟨l, hl, a, hal, hw⟩))))
  generalize hout : (Except.ok tp, g') = out at h
  cases h with
  | badSize _ => cases hout
  | badGen _ _ _ => cases hout
  | raised _ _ _ _ _ _ _ _ => cases hout
  | done _ ts' hgen' st hr hf =>
    cases hout
    rw [hgen] at hgen'
    cases hgen'
    have := (star_inv (fun st => Good P Q R st ∧ O st) key hr ⟨good_init hs hg hgen, .inr (.inl ht)⟩).2
    obtain ⟨f1, f2, f3, f4⟩ := hf
    rcases this with ho | ho | ⟨c, hc, _⟩ | ⟨e, ho⟩ | ⟨rs, hrs, _⟩ | ⟨l, hl, _⟩
    · exact ho
    · rw [f1] at ho; cases ho
    · rw [f2] at hc; cases hc
    · rw [f3] at ho; cases ho
    · rw [f3] at hrs; cases hrs
    · rw [f4] at hl; cases hl

end Par
end Verif
