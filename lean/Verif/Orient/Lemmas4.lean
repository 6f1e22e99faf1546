import Verif.Orient.Lemmas3

/-!
# Helper lemmas: the collider test
-/

namespace Verif
open Graph CI
variable {ι ρ δ : Type} [DecidableEq ι]

namespace Orient

omit [DecidableEq ι] in
theorem separators_mem (l : List (CResult ι ρ)) (seps : List ι) (h : separators l = .ok seps) (z : ι) :
    z ∈ seps ↔ ∃ r ∈ l, ∃ d S, r.data = some d ∧ d.sep = some S ∧ z ∈ S := by
  induction l generalizing seps with
  | nil => simp only [separators, Except.ok.injEq] at h; subst h; simp
  | cons a as ih =>
    unfold separators at h
    cases hd : a.data with
    | none => rw [hd] at h; cases h
    | some d =>
      rw [hd] at h
      simp only at h
      cases hs : separators as with
      | error e => rw [hs] at h; cases h
      | ok l' =>
        rw [hs] at h
        simp only [Except.ok.injEq] at h
        subst h
        rw [List.mem_append, ih l' hs]
        constructor
        · rintro (h | ⟨r, hr, h⟩)
          · cases hsep : d.sep with
            | none => rw [hsep] at h; cases h
            | some S => rw [hsep] at h; exact ⟨a, List.mem_cons_self, d, S, hd, hsep, h⟩
          · exact ⟨r, List.mem_cons_of_mem _ hr, h⟩
        · rintro ⟨r, hr, d', S, h1, h2, h3⟩
          rcases List.mem_cons.1 hr with rfl | hr
          · rw [hd] at h1; cases h1
            rw [h2]; exact Or.inl h3
          · exact Or.inr ⟨r, hr, d', S, h1, h2, h3⟩

omit [DecidableEq ι] in
theorem separators_ok (l : List (CResult ι ρ)) (h : ∀ r ∈ l, r.data.isSome = true) : ∃ seps, separators l = .ok seps := by
  induction l with
  | nil => exact ⟨[], rfl⟩
  | cons a as ih =>
    obtain ⟨s, hs⟩ := ih (fun r hr => h r (List.mem_cons_of_mem _ hr))
    obtain ⟨d, hd⟩ := Option.isSome_iff_exists.1 (h a List.mem_cons_self)
    unfold separators
    rw [hd]
    simp only
    rw [hs]
    exact ⟨_, rfl⟩

/-- the pending results on an ordered pair -/
def pend (loc : Results ι (Info ι ρ)) (u v : ι) : List (CResult ι ρ) :=
  (flatten loc).filter (fun r => decide (r.u = u) && decide (r.v = v))

theorem mem_pend {loc : Results ι (Info ι ρ)} {u v : ι} {r : CResult ι ρ} :
    r ∈ pend loc u v ↔ r ∈ flatten loc ∧ r.u = u ∧ r.v = v := by
  simp [pend]

open Classical in
theorem colliderLoop_some {g : CGraph ι ρ} {x y : ι} (st : Strategy) (loc : Results ι (Info ι ρ)) (zs : List ι)
    (hz : ∀ z ∈ zs, z ∈ g.nodes)
    (hd : ∀ r ∈ g.retrieveEdgeHistory x y .removeEdgeUndirected, r.data.isSome = true) :
    colliderLoop st g x y (g.retrieveEdgeHistory x y .removeEdgeUndirected) (some loc) zs =
      .ok ((zs.filter (fun z => decide (¬ SepRecorded g x y z))).flatMap
        (fun z => colliderAt st x y z (pend loc x z) (pend loc y z))) := by
  obtain ⟨seps, hs⟩ := separators_ok _ hd
  have hm := separators_mem _ _ hs
  induction zs with
  | nil => rfl
  | cons z zs ih =>
    unfold colliderLoop
    rw [if_neg (by simpa using hz z List.mem_cons_self), hs]
    simp only
    rw [ih (fun z hz' => hz z (List.mem_cons_of_mem _ hz'))]
    by_cases hsep : z ∈ seps
    · have : SepRecorded g x y z := (hm z).1 hsep
      rw [if_pos hsep, List.filter_cons_of_neg (by simpa using this)]
    · have : ¬ SepRecorded g x y z := fun h => hsep ((hm z).2 h)
      rw [if_neg hsep, List.filter_cons_of_pos (by simpa using this)]
      simp only [filterUnapplied, List.flatMap_cons]
      rfl

open Classical in
theorem collider_process {g : CGraph ι ρ} (hwf : WF0 g) (hrows : Rows g) {x y : ι} (st : Strategy) {o : Ord ι ρ}
    (ho : o.Valid) (loc : Results ι (Info ι ρ)) (hx : x ∈ g.nodes) (hy : y ∈ g.nodes) (hxy : x ≠ y)
    (hd : ∀ r ∈ g.retrieveEdgeHistory x y .removeEdgeUndirected, r.data.isSome = true) :
    (g.Line x y → colliderProcess st o [x, y] g (some loc) = .ok none) ∧
    (¬ g.Line x y → ∃ zs : List ι, zs.Nodup ∧
      (∀ z, z ∈ zs ↔ z ∈ g.edges.keys2 x ∧ z ∈ g.edges.keys2 y ∧ ¬ SepRecorded g x y z) ∧
      colliderProcess st o [x, y] g (some loc) =
        .ok (some (zs.flatMap (fun z => colliderAt st x y z (pend loc x z) (pend loc y z))))) := by
  unfold colliderProcess
  simp only [hx, hy, not_true_eq_false, if_false]
  constructor
  · intro hl
    rw [if_pos (und_iff.2 hl)]
  · intro hl
    rw [if_neg (fun h => hl (und_iff.1 h)), commonKeys_ok hrows hx hy hxy]
    have hmem : ∀ z, z ∈ o g x y ((g.edges.keys2 x).filter (fun z => decide (z ∈ g.edges.keys2 y))) ↔
        z ∈ g.edges.keys2 x ∧ z ∈ g.edges.keys2 y := by
      intro z; rw [(ho g x y _).2 z]; simp
    refine ⟨(o g x y ((g.edges.keys2 x).filter (fun z => decide (z ∈ g.edges.keys2 y)))).filter
      (fun z => decide (¬ SepRecorded g x y z)), ((ho g x y _).1).filter _, ?_, ?_⟩
    · intro z
      simp only [List.mem_filter, hmem, decide_eq_true_eq, and_assoc]
    · simp only
      rw [colliderLoop_some st loc _ (fun z hz => (keys2_nodes hwf ((hmem z).1 hz).1).1) hd]

/-! ### sequences of orientations and restores -/

/-- which directed edges are removed, after one more action -/
def upd (d : ι → ι → Bool) (r : TestResult ι δ) : ι → ι → Bool := fun a b =>
  if r.u = a ∧ r.v = b then
    (match r.action with
    | .removeEdgeDirected => true
    | .restoreEdgeDirected => false
    | _ => d a b)
  else d a b

/-- which directed edges are removed after a list of actions -/
def dead (d : ι → ι → Bool) (rs : List (TestResult ι δ)) : ι → ι → Bool := rs.foldl upd d

/-- orientations and restores such that an edge is only removed while its opposite is there -/
def Good (d : ι → ι → Bool) : List (TestResult ι δ) → Prop
  | [] => True
  | r :: rs => (r.action = .doNothing ∨ r.action = .restoreEdgeDirected ∨
      (r.action = .removeEdgeDirected ∧ d r.v r.u = false)) ∧ Good (upd d r) rs

theorem dead_append (d : ι → ι → Bool) (xs ys : List (TestResult ι δ)) : dead d (xs ++ ys) = dead (dead d xs) ys := by
  unfold dead; rw [List.foldl_append]

theorem good_append (d : ι → ι → Bool) (xs ys : List (TestResult ι δ)) :
    Good d (xs ++ ys) ↔ Good d xs ∧ Good (dead d xs) ys := by
  induction xs generalizing d with
  | nil => simp [Good, dead]
  | cons r xs ih =>
    simp only [List.cons_append, Good, ih, dead, List.foldl_cons, and_assoc]

/-- no result concerns the pair: nothing changes for it -/
theorem dead_untouched (d : ι → ι → Bool) (rs : List (TestResult ι δ)) (a b : ι)
    (h : ∀ r ∈ rs, r.u = a → r.v = b → r.action ≠ .removeEdgeDirected ∧ r.action ≠ .restoreEdgeDirected) :
    dead d rs a b = d a b := by
  induction rs generalizing d with
  | nil => rfl
  | cons r rs ih =>
    show dead (upd d r) rs a b = _
    rw [ih _ (fun r hr => h r (List.mem_cons_of_mem _ hr))]
    unfold upd
    split
    · rename_i hc
      have := h r List.mem_cons_self hc.1 hc.2
      cases hx : r.action <;> simp_all
    · rfl

/-- nothing removes the pair: it is removed only if it was before -/
theorem dead_le (d : ι → ι → Bool) (rs : List (TestResult ι δ)) (a b : ι)
    (h : ∀ r ∈ rs, r.u = a → r.v = b → r.action ≠ .removeEdgeDirected) : dead d rs a b = true → d a b = true := by
  induction rs generalizing d with
  | nil => exact id
  | cons r rs ih =>
    intro hd
    have := ih (upd d r) (fun r hr => h r (List.mem_cons_of_mem _ hr)) hd
    unfold upd at this
    split at this
    · rename_i hc
      have h' := h r List.mem_cons_self hc.1 hc.2
      cases hx : r.action <;> simp_all
    · exact this

end Orient
end Verif
