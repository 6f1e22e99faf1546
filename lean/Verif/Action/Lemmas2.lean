import Verif.Action.Lemmas

/-!
# Helper lemmas: batches of removals
-/

namespace Verif
namespace Graph
variable {ι δ : Type} [DecidableEq ι] {g : Graph ι δ} {r : TestResult ι δ}

theorem takeItems_single (r : TestResult ι δ) (g : Graph ι δ) :
    takeItems false [r] g = match applyOne r g with
      | (.ok b, g') => (.ok (if b then [r] else []), g')
      | (.error e, g') => (.error e, g') := by
  rw [takeItems_cons]
  generalize applyOne r g = x
  obtain ⟨e | b, g1⟩ := x <;> rfl

theorem takeAction_single (r : TestResult ι δ) (g : Graph ι δ) :
    takeAction false [some [r]] g = match applyOne r g with
      | (.ok b, g') => (.ok (if b then [r] else [], [r]), g')
      | (.error e, g') => (.error e, g') := by
  rw [takeAction_flat, show flatten [some [r]] = [r] from rfl, takeItems_single]
  generalize applyOne r g = x
  obtain ⟨e | b, g1⟩ := x <;> rfl

theorem getEdge_eq (g : Graph ι δ) (a b : ι) : g.getEdge a b =
    (g.edges.get2 a b).elim (.error .graphError) .ok := by
  unfold getEdge Dict.get2 Dict.has
  cases hx : g.edges.get? a with
  | none => rfl
  | some row =>
    simp only [Option.isSome_some, Bool.not_true, Bool.false_eq_true, if_false, Option.bind_some]
    cases row.get? b <;> rfl

theorem takeItems_wf (h : WF0 g) (rs : List (TestResult ι δ)) : WF0 (takeItems false rs g).2 :=
  takeItems_inv WF0 rs (fun _ _ _ h => applyOne_wf h) h

theorem takeItems_revExact (h : WF0 g) (hr : RevExact g) (rs : List (TestResult ι δ)) :
    RevExact (takeItems false rs g).2 :=
  (takeItems_inv (fun g => WF0 g ∧ RevExact g) rs
    (fun _ _ _ h => ⟨applyOne_wf h.1, applyOne_revExact h.1 h.2⟩) ⟨h, hr⟩).2

theorem takeItems_hist (h : WF0 g) (rs : List (TestResult ι δ)) : HistExtends g (takeItems false rs g).2 :=
  (takeItems_inv (fun g' => WF0 g' ∧ HistExtends g g') rs
    (fun _ _ _ h => ⟨applyOne_wf h.1, h.2.trans (applyOne_hist h.1)⟩) ⟨h, HistExtends.refl g⟩).2

theorem takeItems_live_le (h : WF0 g) (rs : List (TestResult ι δ)) (hr : ∀ r ∈ rs, r.action.isRestore = false)
    {a b : ι} (hl : (takeItems false rs g).2.live a b = true) : g.live a b = true := by
  have := (takeItems_inv (g := g) (fun g' => WF0 g' ∧ ∀ a b, g'.live a b = true → g.live a b = true) rs
    (fun r hr' g' h => ⟨applyOne_wf h.1, fun a b hl => h.2 a b (applyOne_live_le h.1 (hr r hr') hl)⟩)
    ⟨h, fun _ _ hh => hh⟩).2
  exact this a b hl

theorem takeItems_keys (h : WF0 g) (rs : List (TestResult ι δ)) (hr : ∀ r ∈ rs, r.action.isRestore = false) :
    (takeItems false rs g).2.edges.keys = g.edges.keys ∧
    (∀ a, (takeItems false rs g).2.edges.keys2 a = g.edges.keys2 a) ∧
    (takeItems false rs g).2.nodes = g.nodes := by
  have := takeItems_inv (g := g) (fun g' => WF0 g' ∧ g'.edges.keys = g.edges.keys ∧
      (∀ a, g'.edges.keys2 a = g.edges.keys2 a) ∧ g'.nodes = g.nodes) rs
    (fun r hr' g' h => by
      have hk := applyOne_keys (r := r) h.1 (hr r hr')
      exact ⟨applyOne_wf h.1, hk.1.trans h.2.1, fun a => (hk.2.1 a).trans (h.2.2.1 a), hk.2.2.1.trans h.2.2.2⟩)
    ⟨h, rfl, fun _ => rfl, rfl⟩
  exact this.2

/-- Removal actions never raise. -/
theorem takeItems_removals_ok (h : WF0 g) (rs : List (TestResult ι δ))
    (hr : ∀ r ∈ rs, r.action = .removeEdgeUndirected ∨ r.action = .removeEdgeDirected ∨ r.action = .doNothing) :
    ∃ t g', takeItems false rs g = (.ok t, g') := by
  induction rs generalizing g with
  | nil => exact ⟨[], g, rfl⟩
  | cons r rs ih =>
    rw [takeItems_cons]
    have h1 : ∃ b g', applyOne r g = (.ok b, g') := by
      rcases hr r List.mem_cons_self with ha | ha | ha
      · rw [applyOne_removeUndirected h ha]; split <;> exact ⟨_, _, rfl⟩
      · rw [applyOne_removeDirected h ha]; split <;> exact ⟨_, _, rfl⟩
      · rw [applyOne_doNothing ha]; exact ⟨_, _, rfl⟩
    obtain ⟨b, g', h1⟩ := h1
    have hw := applyOne_wf (r := r) h
    rw [h1] at hw ⊢
    obtain ⟨t, g'', h2⟩ := ih hw (fun r hr' => hr r (List.mem_cons_of_mem _ hr'))
    simp only [h2]
    exact ⟨_, _, rfl⟩

theorem applyOne_removeDirected_live (h : WF0 g) (ha : r.action = .removeEdgeDirected) (a b : ι) :
    (applyOne r g).2.live a b = (g.live a b && !decide (r.u = a ∧ r.v = b)) := by
  rw [applyOne_removeDirected h ha]
  split
  · simp only [live_addH, live_orientG]
  · rename_i hl
    by_cases hc : r.u = a ∧ r.v = b
    · obtain ⟨rfl, rfl⟩ := hc
      have : g.live r.u r.v = false := by
        cases hx : g.live r.u r.v <;> simp_all
      simp [this]
    · simp [hc]

/-- Exact effect of a batch of `REMOVE_EDGE_DIRECTED` (and `DO_NOTHING`) actions on the live edges. -/
theorem takeItems_removeDirected_live (h : WF0 g) (rs : List (TestResult ι δ))
    (hr : ∀ r ∈ rs, r.action = .removeEdgeDirected ∨ r.action = .doNothing) (a b : ι) :
    (takeItems false rs g).2.live a b = true ↔
      g.live a b = true ∧ ∀ r ∈ rs, r.action = .removeEdgeDirected → ¬ (r.u = a ∧ r.v = b) := by
  induction rs generalizing g with
  | nil => simp [takeItems]
  | cons r rs ih =>
    have hsnd : (takeItems false (r :: rs) g).2 = (takeItems false rs (applyOne r g).2).2 := by
      rw [takeItems_cons]
      obtain ⟨b, g', h1⟩ : ∃ b g', applyOne r g = (.ok b, g') := by
        rcases hr r List.mem_cons_self with ha | ha
        · rw [applyOne_removeDirected h ha]; split <;> exact ⟨_, _, rfl⟩
        · rw [applyOne_doNothing ha]; exact ⟨_, _, rfl⟩
      rw [h1]
      simp only
      generalize takeItems false rs g' = y
      obtain ⟨e | t, g''⟩ := y <;> rfl
    rw [hsnd, ih (applyOne_wf h) (fun r hr' => hr r (List.mem_cons_of_mem _ hr'))]
    rcases hr r List.mem_cons_self with ha | ha
    · rw [applyOne_removeDirected_live h ha]
      simp only [Bool.and_eq_true, Bool.not_eq_true', decide_eq_false_iff_not, List.forall_mem_cons]
      tauto
    · rw [applyOne_doNothing ha]
      simp [ha]

/-- Exact effect of a batch of `REMOVE_EDGE_UNDIRECTED` (and `DO_NOTHING`) actions on the stored edges. -/
theorem takeItems_removeUndirected_get2 (h : WF0 g) (rs : List (TestResult ι δ))
    (hr : ∀ r ∈ rs, r.action = .removeEdgeUndirected ∨ r.action = .doNothing) (a b : ι) :
    (takeItems false rs g).2.edges.get2 a b =
      if (g.live a b = true ∧ g.live b a = true) ∧ (∃ r ∈ rs, r.action = .removeEdgeUndirected ∧
          ((r.u = a ∧ r.v = b) ∨ (r.u = b ∧ r.v = a)))
      then (g.edges.get2 a b).map (fun e => { e with deleted := true }) else g.edges.get2 a b := by
  induction rs generalizing g with
  | nil => simp; rfl
  | cons r rs ih =>
    have hsnd : (takeItems false (r :: rs) g).2 = (takeItems false rs (applyOne r g).2).2 := by
      rw [takeItems_cons]
      obtain ⟨b, g', h1⟩ : ∃ b g', applyOne r g = (.ok b, g') := by
        rcases hr r List.mem_cons_self with ha | ha
        · rw [applyOne_removeUndirected h ha]; split <;> exact ⟨_, _, rfl⟩
        · rw [applyOne_doNothing ha]; exact ⟨_, _, rfl⟩
      rw [h1]
      simp only
      generalize takeItems false rs g' = y
      obtain ⟨e | t, g''⟩ := y <;> rfl
    rw [hsnd, ih (applyOne_wf h) (fun r hr' => hr r (List.mem_cons_of_mem _ hr'))]
    rcases hr r List.mem_cons_self with ha | ha
    · rw [applyOne_removeUndirected h ha]
      by_cases hl : (g.live r.u r.v && g.live r.v r.u) = true
      · rw [if_pos hl]
        simp only [live_addH, edges_addH]
        simp only [live_mark, get2_modBoth]
        rw [Bool.and_eq_true] at hl
        have hne := h.live_ne hl.1
        by_cases h1 : r.u = a ∧ r.v = b
        · obtain ⟨rfl, rfl⟩ := h1
          simp [hl.1, hl.2, ha, Ne.symm hne]
        · by_cases h2 : r.v = a ∧ r.u = b
          · obtain ⟨rfl, rfl⟩ := h2
            simp [hl.1, hl.2, ha, hne]
          · have h1' : ¬ (r.u = b ∧ r.v = a) := fun hh => h2 ⟨hh.2, hh.1⟩
            have h2' : ¬ (r.v = b ∧ r.u = a) := fun hh => h1 ⟨hh.2, hh.1⟩
            simp [h1, h2, h1', h2']
      · rw [if_neg hl]
        simp only
        have : ((g.live a b = true ∧ g.live b a = true) ∧ ∃ r' ∈ r :: rs, r'.action = .removeEdgeUndirected ∧
            ((r'.u = a ∧ r'.v = b) ∨ (r'.u = b ∧ r'.v = a))) ↔
          ((g.live a b = true ∧ g.live b a = true) ∧ ∃ r' ∈ rs, r'.action = .removeEdgeUndirected ∧
            ((r'.u = a ∧ r'.v = b) ∨ (r'.u = b ∧ r'.v = a))) := by
          constructor
          · rintro ⟨hab, r', hr', hx⟩
            refine ⟨hab, ?_⟩
            rcases List.mem_cons.1 hr' with rfl | hr'
            · exfalso; apply hl; rw [Bool.and_eq_true]
              rcases hx.2 with ⟨rfl, rfl⟩ | ⟨rfl, rfl⟩
              · exact hab
              · exact hab.symm
            · exact ⟨r', hr', hx⟩
          · rintro ⟨hab, r', hr', hx⟩
            exact ⟨hab, r', List.mem_cons_of_mem _ hr', hx⟩
        simp only [this]
    · rw [applyOne_doNothing ha]
      simp [ha]

theorem dict2_eq_of (d d' : Dict ι (Dict ι (Edge ι δ))) (hk : d.keys = d'.keys) (hk2 : ∀ a, d.keys2 a = d'.keys2 a)
    (hg : ∀ u v, d.get2 u v = d'.get2 u v) : d = d' := Dict.ext_keys2 d d' hk hk2 hg

/-- Replaying the taken actions gives the same final state. -/
theorem takeItems_replay (h : WF0 g) (rs t : List (TestResult ι δ)) (g' : Graph ι δ)
    (hrun : takeItems false rs g = (.ok t, g')) : takeItems false t g = (.ok t, g') ∧ t.Sublist rs ∧
      ∀ r ∈ t, r.action ≠ .doNothing := by
  induction rs generalizing g t with
  | nil =>
    have hh : ((.ok [], g) : Except PyErr (List (TestResult ι δ)) × Graph ι δ) = (.ok t, g') := hrun
    injection hh with h1 h2
    injection h1 with h1
    subst h1 h2
    exact ⟨rfl, List.Sublist.slnil, by simp⟩
  | cons r rs ih =>
    rw [takeItems_cons] at hrun
    have hw := applyOne_wf (r := r) h
    have hskip := applyOne_skip (r := r) h
    cases hx : applyOne r g with
    | mk x g1 =>
      rw [hx] at hrun hw hskip
      cases x with
      | error e => simp at hrun
      | ok b =>
        simp only at hrun hw hskip
        cases hy : takeItems false rs g1 with
        | mk y g2 =>
          rw [hy] at hrun
          cases y with
          | error e => simp at hrun
          | ok t1 =>
            simp only [Prod.mk.injEq, Except.ok.injEq] at hrun
            obtain ⟨rfl, rfl⟩ := hrun
            obtain ⟨i1, i2, i3⟩ := ih hw t1 hy
            cases b with
            | false =>
              have := hskip rfl
              subst this
              simp only [Bool.false_eq_true, if_false]
              exact ⟨i1, i2.cons _, i3⟩
            | true =>
              simp only [if_true]
              refine ⟨?_, i2.cons_cons _, ?_⟩
              · rw [takeItems_cons, hx]
                simp only [i1, if_true]
              · intro r' hr'
                rcases List.mem_cons.1 hr' with rfl | hr'
                · intro hd
                  rw [applyOne_doNothing hd] at hx
                  injection hx with hx _
                  injection hx with hx
                  cases hx
                · exact i3 r' hr'

end Graph
end Verif
