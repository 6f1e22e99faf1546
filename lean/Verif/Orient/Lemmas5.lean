import Verif.Orient.Lemmas4

/-!
# Helper lemmas: applying orientations and restores
-/

namespace Verif
open Graph CI
variable {ι ρ δ : Type} [DecidableEq ι]

namespace Orient

/-- the state after some actions of a good sequence; `d` says which directed edges they removed -/
structure AppState (g : Graph ι δ) (d : ι → ι → Bool) (g1 : Graph ι δ) : Prop where
  wf : WF0 g1
  keys : g1.edges.keys = g.edges.keys
  keys2 : ∀ a, g1.edges.keys2 a = g.edges.keys2 a
  nodes : g1.nodes = g.nodes
  live : ∀ a b, g1.live a b = (g.live a b && !d a b)
  asym : ∀ a b, d a b = true → d b a = false
  typ : ∀ a b e, d b a = true → g1.edges.get2 a b = some e → e.etype = .directed
  hist : ∀ a b, g1.retrieveEdgeHistory a b .removeEdgeUndirected = g.retrieveEdgeHistory a b .removeEdgeUndirected

theorem AppState.start {g : Graph ι δ} (h : WF0 g) : AppState g (fun _ _ => false) g :=
  ⟨h, rfl, fun _ => rfl, rfl, by simp, by simp, by simp, fun _ _ => rfl⟩

theorem AppState.step {g g1 : Graph ι δ} {d : ι → ι → Bool} (h : AppState g d g1) {r : TestResult ι δ}
    (hr : r.action = .doNothing ∨ r.action = .restoreEdgeDirected ∨ (r.action = .removeEdgeDirected ∧ d r.v r.u = false))
    (hl : r.action ≠ .doNothing → g.live r.u r.v = true ∧ g.live r.v r.u = true) :
    ∃ b g2, applyOne r g1 = (.ok b, g2) ∧ AppState g (upd d r) g2 ∧
      ∀ a b, (r.action ≠ .doNothing → ¬ (r.u = a ∧ r.v = b) ∧ ¬ (r.u = b ∧ r.v = a)) →
        g2.edges.get2 a b = g1.edges.get2 a b := by
  rcases hr with hr | hr | ⟨hr, hd⟩
  · have hu : upd d r = d := by
      funext a b; unfold upd; rw [hr]; simp
    rw [hu, applyOne_doNothing hr]
    exact ⟨_, _, rfl, h, fun _ _ _ => rfl⟩
  · obtain ⟨l1, l2⟩ := hl (by rw [hr]; decide)
    have hne := h.wf
    have huv : r.u ≠ r.v := by
      rintro hh
      have hx := h.live r.u r.v
      have : r.v ∈ g.edges.keys2 r.u := (mem_keys2_iff _ _).2 (by obtain ⟨e, he, _⟩ := live_iff.1 l1; exact ⟨e, he⟩)
      rw [← h.keys2] at this
      obtain ⟨e, he⟩ := (mem_keys2_iff _ _).1 this
      exact (h.wf.edge _ _ _ he).2.2.1 hh
    have hup : ∀ a b, upd d r a b = if r.u = a ∧ r.v = b then false else d a b := by
      intro a b; unfold upd; rw [hr]
    rw [applyOne_restoreDirected h.wf hr]
    by_cases hlive : g1.live r.u r.v = true
    · rw [if_pos hlive]
      have hd : d r.u r.v = false := by
        rw [h.live, l1] at hlive; simpa using hlive
      have hu : upd d r = d := by
        funext a b; rw [hup]
        split
        · rename_i hc; obtain ⟨rfl, rfl⟩ := hc; exact hd.symm
        · rfl
      rw [hu]
      exact ⟨_, _, rfl, h, fun _ _ _ => rfl⟩
    · rw [if_neg hlive, restoreDirectedEdge_run h.wf]
      have hst : ∃ e, g1.edges.get2 r.u r.v = some e := by
        rw [← mem_keys2_iff, h.keys2, mem_keys2_iff]
        obtain ⟨e, he, _⟩ := live_iff.1 l1
        exact ⟨e, he⟩
      obtain ⟨e, he⟩ := hst
      obtain ⟨_, _, _, hv', _⟩ := h.wf.edge _ _ _ he
      have hu' : g1.edges.has r.u = true := get2_isSome_has he
      rw [if_neg (by simp [h.wf.rowsN _ hu', h.wf.rowsN _ hv']), he]
      simp only
      refine ⟨true, _, rfl, ?_, ?_⟩
      · refine ⟨WF0.addH (WF0.modBoth h.wf (f := fun e => { e with deleted := false }) (fun _ => ⟨rfl, rfl⟩)) _ _ _, ?_, ?_, ?_, ?_, ?_, ?_, ?_⟩
        · rw [edges_addH, keys_modBoth]; exact h.keys
        · intro a; rw [edges_addH, keys2_modBoth]; exact h.keys2 a
        · rw [nodes_addH, nodes_modBoth]; exact h.nodes
        · intro a b
          rw [live_addH, live_unmark he, h.live, hup]
          by_cases hc : r.u = a ∧ r.v = b
          · obtain ⟨rfl, rfl⟩ := hc; simp [l1]
          · simp [hc]
        · intro a b hab
          rw [hup] at hab ⊢
          by_cases hc : r.u = a ∧ r.v = b
          · simp [hc] at hab
          · rw [if_neg hc] at hab
            split
            · rfl
            · exact h.asym a b hab
        · intro a b e' hab he'
          rw [hup] at hab
          by_cases hc : r.u = b ∧ r.v = a
          · simp [hc] at hab
          · rw [if_neg hc] at hab
            rw [edges_addH, get2_modBoth] at he'
            split at he'
            · rename_i hc'
              obtain ⟨rfl, rfl⟩ := hc'
              rw [he] at he'
              simp only [Option.map_some, Option.some.injEq] at he'
              rw [← he']
              exact h.typ _ _ e hab he
            · exact h.typ a b e' hab he'
        · intro a b
          rw [retrieve_addH, if_neg (by rw [hr]; simp), retrieve_modBoth]
          exact h.hist a b
      · intro a b hn
        rw [edges_addH, get2_modBoth, if_neg (hn (by rw [hr]; decide)).1]
  · obtain ⟨l1, l2⟩ := hl (by rw [hr]; decide)
    have hup : ∀ a b, upd d r a b = if r.u = a ∧ r.v = b then true else d a b := by
      intro a b; unfold upd; rw [hr]
    have hlv : g1.live r.v r.u = true := by rw [h.live, l2, hd]; rfl
    have hne : r.v ≠ r.u := h.wf.live_ne hlv
    rw [applyOne_removeDirected h.wf hr, if_pos (by simp [hlv])]
    have hor : orientG g1 r.u r.v = typeG (markG g1 r.u r.v) r.v r.u .directed := by unfold orientG; rw [if_pos hlv]
    refine ⟨true, _, rfl, ?_, ?_⟩
    · refine ⟨(h.wf.orientG _ _).addH _ _ _, ?_, ?_, ?_, ?_, ?_, ?_, ?_⟩
      · rw [edges_addH, keys_orientG]; exact h.keys
      · intro a; rw [edges_addH, keys2_orientG]; exact h.keys2 a
      · rw [nodes_addH, hor, nodes_modBoth, nodes_modBoth]; exact h.nodes
      · intro a b
        rw [live_addH, live_orientG, h.live, hup]
        by_cases hc : r.u = a ∧ r.v = b
        · simp [hc]
        · simp [hc]
      · intro a b hab
        rw [hup] at hab ⊢
        by_cases hc : r.u = a ∧ r.v = b
        · obtain ⟨rfl, rfl⟩ := hc
          rw [if_neg (by rintro ⟨hh, _⟩; exact hne hh.symm)]
          exact hd
        · rw [if_neg hc] at hab
          have := h.asym a b hab
          rw [if_neg ?_]
          · exact this
          · rintro ⟨rfl, rfl⟩
            rw [hd] at hab; cases hab
      · intro a b e' hab he'
        rw [hup] at hab
        rw [edges_addH, hor, get2_modBoth] at he'
        split at he'
        · rename_i hc
          obtain ⟨rfl, rfl⟩ := hc
          cases hx : (markG g1 r.u r.v).edges.get2 r.v r.u with
          | none => rw [hx] at he'; cases he'
          | some e0 => rw [hx] at he'; simp only [Option.map_some, Option.some.injEq] at he'; rw [← he']
        · rename_i hc
          rw [if_neg (by rintro ⟨h1, h2⟩; exact hc ⟨h2, h1⟩)] at hab
          rw [get2_modBoth] at he'
          split at he'
          · rename_i hc'
            obtain ⟨rfl, rfl⟩ := hc'
            rw [hd] at hab; cases hab
          · exact h.typ a b e' hab he'
      · intro a b
        rw [retrieve_addH, if_neg (by rw [hr]; simp), hor, retrieve_modBoth, retrieve_modBoth]
        exact h.hist a b
    · intro a b hn
      have := hn (by rw [hr]; decide)
      rw [edges_addH, hor, get2_modBoth, if_neg (by rintro ⟨h1, h2⟩; exact this.2 ⟨h2, h1⟩), get2_modBoth, if_neg this.1]

theorem AppState.takeItems {g g1 : Graph ι δ} {d : ι → ι → Bool} (h : AppState g d g1) (rs : List (TestResult ι δ))
    (hg : Good d rs) (hl : ∀ r ∈ rs, r.action ≠ .doNothing → g.live r.u r.v = true ∧ g.live r.v r.u = true) :
    ∃ t g2, Graph.takeItems false rs g1 = (.ok t, g2) ∧ AppState g (dead d rs) g2 ∧
      ∀ a b, (∀ r ∈ rs, r.action ≠ .doNothing → ¬ (r.u = a ∧ r.v = b) ∧ ¬ (r.u = b ∧ r.v = a)) →
        g2.edges.get2 a b = g1.edges.get2 a b := by
  induction rs generalizing d g1 with
  | nil => exact ⟨[], g1, rfl, h, fun _ _ _ => rfl⟩
  | cons r rs ih =>
    obtain ⟨b, g2, h1, h2, h3⟩ := h.step hg.1 (hl r List.mem_cons_self)
    obtain ⟨t, g3, h4, h5, h6⟩ := ih h2 hg.2 (fun r hr => hl r (List.mem_cons_of_mem _ hr))
    rw [takeItems_cons, h1]
    simp only
    rw [h4]
    refine ⟨_, g3, rfl, h5, ?_⟩
    intro a b hab
    rw [h6 a b (fun r hr => hab r (List.mem_cons_of_mem _ hr)), h3 a b (hab r List.mem_cons_self)]

/-! ### what the collider test proposes is good -/

/-- the invariant of `local_results` -/
structure LocOK (g : CGraph ι ρ) (L : List (CResult ι ρ)) : Prop where
  good : Good (fun _ _ => false) L
  live : ∀ r ∈ L, r.action ≠ .doNothing → g.live r.u r.v = true ∧ g.live r.v r.u = true
  touched : ∀ r ∈ L, r.action ≠ .doNothing →
    dead (fun _ _ => false) L r.u r.v = true ∨ dead (fun _ _ => false) L r.v r.u = true

omit [DecidableEq ι] in
theorem mem_restores {rs : List (CResult ι ρ)} {r : CResult ι ρ} (h : r ∈ restores rs) :
    r.action = .restoreEdgeDirected ∧ ∃ r' ∈ rs, r'.action = .removeEdgeDirected ∧ r.u = r'.u ∧ r.v = r'.v := by
  unfold restores at h
  obtain ⟨r', hr', rfl⟩ := List.mem_map.1 h
  simp only [List.mem_filter, decide_eq_true_eq] at hr'
  exact ⟨rfl, r', hr'.1, hr'.2, rfl, rfl⟩

theorem good_restores (d : ι → ι → Bool) (rs : List (TestResult ι δ)) (h : ∀ r ∈ rs, r.action = .restoreEdgeDirected) :
    Good d rs := by
  induction rs generalizing d with
  | nil => trivial
  | cons r rs ih => exact ⟨Or.inr (Or.inl (h r List.mem_cons_self)), ih _ (fun r hr => h r (List.mem_cons_of_mem _ hr))⟩

theorem good_notes (d : ι → ι → Bool) (rs : List (TestResult ι δ)) (h : ∀ r ∈ rs, r.action = .doNothing) :
    Good d rs := by
  induction rs generalizing d with
  | nil => trivial
  | cons r rs ih => exact ⟨Or.inl (h r List.mem_cons_self), ih _ (fun r hr => h r (List.mem_cons_of_mem _ hr))⟩

/-- a restore of the pair and no removal: the pair is not removed -/
theorem dead_restored (d : ι → ι → Bool) (rs : List (TestResult ι δ)) (a b : ι)
    (h : ∀ r ∈ rs, r.u = a → r.v = b → r.action ≠ .removeEdgeDirected)
    (hex : ∃ r ∈ rs, r.u = a ∧ r.v = b ∧ r.action = .restoreEdgeDirected) : dead d rs a b = false := by
  induction rs generalizing d with
  | nil => obtain ⟨r, hr, _⟩ := hex; cases hr
  | cons r rs ih =>
    obtain ⟨r', hr', h1, h2, h3⟩ := hex
    rcases List.mem_cons.1 hr' with rfl | hr'
    · cases hx : dead d (r' :: rs) a b with
      | false => rfl
      | true =>
        have := dead_le (upd d r') rs a b (fun r hr => h r (List.mem_cons_of_mem _ hr)) hx
        unfold upd at this
        rw [if_pos ⟨h1, h2⟩, h3] at this
        cases this
    · exact ih (upd d r) (fun r hr => h r (List.mem_cons_of_mem _ hr)) ⟨r', hr', h1, h2, h3⟩

end Orient
end Verif
