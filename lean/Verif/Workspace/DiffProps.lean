import Verif.Workspace.DiffLemmas
import Verif.Workspace.Lemmas2
import Verif.Serial.Props

/-!
# C75: comparing results; C76: the result endpoints of the UI server
-/

namespace Verif
namespace Workspace
open Serial (REdge)
variable {O C μ : Type}

/-! ### C75 -/

/-- C75: the comparison never fails.  It shows one row for each pair of names that some compared result joins by an edge, except
that with `only_differences` the pairs on which all results agree are left out.  A row holds, per compared experiment, its first
edge between the two names; it begins with the names of the first edge shown and is green iff all results agree on the pair. -/
theorem C75_rows (xs : List (Compared μ)) (only : Bool) :
    ∃ rows warnings, compare xs only = .ok (rows, warnings) ∧
      (∀ r ∈ rows, r.cells = (xs.map Prod.fst).map (fun l => edgeOf xs l r.header.1 r.header.2) ∧
        (r.same = true ↔ Agree xs r.header.1 r.header.2) ∧
        ∃ f, firstShown xs r.header.1 r.header.2 = some f ∧ r.header = (f.u.name, f.v.name)) ∧
      rows.Pairwise (fun r s => ¬ SameNames r.header s.header) ∧
      (∀ a b, (∃ r ∈ rows, SameNames r.header (a, b)) ↔
        (∃ x ∈ xs, ∃ e ∈ x.2, Joins e a b) ∧ ¬ (only = true ∧ Agree xs a b)) := by
  obtain ⟨h1, h2, -⟩ := collect_spec (flat xs)
  obtain ⟨g1, g2⟩ := tableRows_spec ((flat xs).foldl addEdge ⟨Dict.empty, []⟩).table
  -- the row of a pair of names
  have hrow : ∀ k r, (k, r) ∈ tableRows ((flat xs).foldl addEdge ⟨Dict.empty, []⟩).table →
      (∀ l, r.get? l = edgeOf xs l k.1 k.2) ∧ ordered k.1 k.2 = k ∧ ∃ p ∈ flat xs, sortedNames p.2 = k := by
    intro k r hk
    rw [g1] at hk
    obtain ⟨p, hp, hpk⟩ := (h2 k).1 (by rw [hk]; rfl)
    have hok : ordered k.1 k.2 = k := by rw [← hpk]; exact ordered_self _
    refine ⟨fun l => ?_, hok, p, hp, hpk⟩
    rw [← find_flat, hok, ← h1]
    unfold cell
    rw [hk]
    rfl
  have hlab : ∀ l a b, (edgeOf xs l a b).isSome → l ∈ xs.map Prod.fst := by
    intro l a b h
    rw [← find_flat] at h
    cases hf : (flat xs).find? (fun p => p.1 = l ∧ sortedNames p.2 = ordered a b) with
    | none => rw [hf] at h; cases h
    | some p =>
      have h3 := List.mem_of_find?_eq_some hf
      have h4 := List.find?_some hf
      simp only [decide_eq_true_eq] at h4
      obtain ⟨x, hx, h5, -⟩ := (mem_flat xs p.1 p.2).1 h3
      exact List.mem_map.2 ⟨x, hx, h5.trans h4.1⟩
  have hsomeE : ∀ a b, (∃ p ∈ flat xs, sortedNames p.2 = ordered a b) → ∃ l, (edgeOf xs l a b).isSome := by
    rintro a b ⟨p, hp, he⟩
    refine ⟨p.1, ?_⟩
    rw [← find_flat]
    cases hf : (flat xs).find? (fun q => q.1 = p.1 ∧ sortedNames q.2 = ordered a b) with
    | none =>
      rw [List.find?_eq_none] at hf
      exact absurd (by simp [he]) (hf p hp)
    | some q => rfl
  have hprint := printRows_spec (xs.map Prod.fst) only (tableRows ((flat xs).foldl addEdge ⟨Dict.empty, []⟩).table) (by
    rintro ⟨k, r⟩ hx
    obtain ⟨h3, h4, h5⟩ := hrow k r hx
    refine ⟨fun a ha => hlab a k.1 k.2 (by rw [← h3]; exact ha), ?_⟩
    obtain ⟨l, hl⟩ := hsomeE k.1 k.2 (by rw [h4]; exact h5)
    exact ⟨l, by simp only; rw [h3]; exact hl⟩)
  -- the parts of a row
  have hfirst : ∀ k r, (k, r) ∈ tableRows ((flat xs).foldl addEdge ⟨Dict.empty, []⟩).table →
      (xs.map Prod.fst).findSome? (fun l => r.get? l) = firstShown xs k.1 k.2 := by
    intro k r hk
    unfold firstShown
    congr 1
    funext l
    exact (hrow k r hk).1 l
  have hagree : ∀ k r, (k, r) ∈ tableRows ((flat xs).foldl addEdge ⟨Dict.empty, []⟩).table →
      (rowSame (xs.map Prod.fst) r = true ↔ Agree xs k.1 k.2) := by
    intro k r hk
    unfold rowSame Agree
    rw [List.all_eq_true, hfirst k r hk]
    obtain ⟨h3, h4, h5⟩ := hrow k r hk
    obtain ⟨l0, hl0⟩ := hsomeE k.1 k.2 (by rw [h4]; exact h5)
    obtain ⟨f, hf⟩ : ∃ f, firstShown xs k.1 k.2 = some f := by
      cases hs : firstShown xs k.1 k.2 with
      | some f => exact ⟨f, rfl⟩
      | none =>
        unfold firstShown at hs
        rw [List.findSome?_eq_none_iff] at hs
        rw [hs l0 (hlab _ _ _ hl0)] at hl0
        cases hl0
    constructor
    · intro h l hl
      have := h l hl
      rw [h3, hf] at this
      cases he : edgeOf xs l k.1 k.2 with
      | none => rw [he] at this; cases this
      | some e => rw [he] at this; exact ⟨e, f, rfl, hf, this⟩
    · intro h l hl
      obtain ⟨e, f', e1, e2, e3⟩ := h l hl
      rw [h3, e1, e2]
      exact e3
  have hhead : ∀ a b f, firstShown xs a b = some f → Joins f a b := by
    intro a b f hf
    unfold firstShown at hf
    obtain ⟨l, -, hl⟩ := List.exists_of_findSome?_eq_some hf
    unfold edgeOf at hl
    simpa using List.find?_some hl
  have hsym : ∀ l a b c d, ordered a b = ordered c d → edgeOf xs l a b = edgeOf xs l c d := by
    intro l a b c d h
    rw [← find_flat, ← find_flat, h]
  have hsymF : ∀ a b c d, ordered a b = ordered c d → firstShown xs a b = firstShown xs c d := by
    intro a b c d h
    unfold firstShown
    congr 1
    funext l
    exact hsym l a b c d h
  have hsymA : ∀ a b c d, ordered a b = ordered c d → (Agree xs a b ↔ Agree xs c d) := by
    intro a b c d h
    unfold Agree
    simp only [hsymF a b c d h, fun l => hsym l a b c d h]
  have hsame : ∀ a b c d, SameNames (a, b) (c, d) ↔ ordered a b = ordered c d := by
    intro a b c d
    rw [ordered_eq_iff]
    unfold SameNames
    simp
  have hrowOf : ∀ k r d, (k, r) ∈ tableRows ((flat xs).foldl addEdge ⟨Dict.empty, []⟩).table →
      rowOf (xs.map Prod.fst) only r = some d →
      d.cells = (xs.map Prod.fst).map (fun l => edgeOf xs l d.header.1 d.header.2) ∧
      (d.same = true ↔ Agree xs d.header.1 d.header.2) ∧
      (∃ f, firstShown xs d.header.1 d.header.2 = some f ∧ d.header = (f.u.name, f.v.name)) ∧
      ordered d.header.1 d.header.2 = k ∧ ¬ (only = true ∧ Agree xs k.1 k.2) := by
    intro k r d hk hd
    unfold rowOf at hd
    rw [hfirst k r hk] at hd
    split at hd
    · cases hd
    · rename_i hn
      rw [Option.map_eq_some_iff] at hd
      obtain ⟨f, hf, rfl⟩ := hd
      have hj := (joins_iff f _ _).1 (hhead _ _ f hf)
      obtain ⟨h3, h4, -⟩ := hrow k r hk
      rw [sortedNames_eq] at hj
      simp only
      refine ⟨?_, ?_, ⟨f, ?_, rfl⟩, hj.trans h4, ?_⟩
      · apply List.map_congr_left
        intro l _
        rw [h3, hsym l _ _ _ _ hj.symm]
      · rw [hagree k r hk, hsymA _ _ _ _ hj.symm]
      · rw [hsymF _ _ _ _ hj]; exact hf
      · rw [← hagree k r hk]
        simpa using hn
  refine ⟨(tableRows (collect xs).table).filterMap (fun x => rowOf (xs.map Prod.fst) only x.2), (collect xs).warnings, ?_, ?_, ?_, ?_⟩
  · unfold compare
    have : (collect xs).table = ((flat xs).foldl addEdge ⟨Dict.empty, []⟩).table := rfl
    rw [this, hprint]
  · intro d hd
    rw [List.mem_filterMap] at hd
    obtain ⟨⟨k, r⟩, hk, hd⟩ := hd
    obtain ⟨e1, e2, e3, -⟩ := hrowOf k r d hk hd
    exact ⟨e1, e2, e3⟩
  · show List.Pairwise _ ((tableRows ((flat xs).foldl addEdge ⟨Dict.empty, []⟩).table).filterMap _)
    rw [List.pairwise_filterMap]
    have hp : (tableRows ((flat xs).foldl addEdge ⟨Dict.empty, []⟩).table).Pairwise (fun x y => x.1 ≠ y.1) := by
      have := g2
      unfold List.Nodup at this
      rwa [List.pairwise_map] at this
    refine hp.imp_of_mem ?_
    intro x y hx hy hne d hd d' hd' hs
    obtain ⟨-, -, -, e1, -⟩ := hrowOf x.1 x.2 d hx hd
    obtain ⟨-, -, -, e2, -⟩ := hrowOf y.1 y.2 d' hy hd'
    rw [← Prod.eta d.header, ← Prod.eta d'.header] at hs
    rw [hsame] at hs
    exact hne (e1.symm.trans (hs.trans e2))
  · intro a b
    constructor
    · rintro ⟨d, hd, hs⟩
      rw [List.mem_filterMap] at hd
      obtain ⟨⟨k, r⟩, hk, hd⟩ := hd
      obtain ⟨-, -, -, e1, e2⟩ := hrowOf k r d hk hd
      obtain ⟨-, h4, p, hp, hpk⟩ := hrow k r hk
      rw [← Prod.eta d.header, hsame] at hs
      have hab : ordered a b = k := hs.symm.trans e1
      obtain ⟨x, hx, -, he⟩ := (mem_flat xs p.1 p.2).1 hp
      refine ⟨⟨x, hx, p.2, he, (joins_iff _ _ _).2 (hpk.trans hab.symm)⟩, fun h => e2 ⟨h.1, ?_⟩⟩
      exact (hsymA _ _ _ _ (h4.trans hab.symm)).2 h.2
    · rintro ⟨⟨x, hx, e, he, hj⟩, hn⟩
      have hj' := (joins_iff _ _ _).1 hj
      have hp := (mem_flat xs x.1 e).2 ⟨x, hx, rfl, he⟩
      have hs := (h2 (ordered a b)).2 ⟨_, hp, hj'⟩
      obtain ⟨r, hr⟩ := Option.isSome_iff_exists.1 hs
      have hk := (g1 _ _).2 hr
      obtain ⟨h3, h4, h5⟩ := hrow _ _ hk
      have hns : ¬ (only && rowSame (xs.map Prod.fst) r) = true := by
        intro h
        rw [Bool.and_eq_true] at h
        exact hn ⟨h.1, (hsymA _ _ _ _ h4).1 ((hagree _ _ hk).1 h.2)⟩
      obtain ⟨l, hl⟩ := hsomeE a b ⟨_, hp, hj'⟩
      cases hf : firstShown xs a b with
      | none =>
        unfold firstShown at hf
        rw [List.findSome?_eq_none_iff] at hf
        rw [hf l (hlab _ _ _ hl)] at hl
        cases hl
      | some f =>
        have hd : rowOf (xs.map Prod.fst) only r = some ⟨(f.u.name, f.v.name), (xs.map Prod.fst).map (fun l => r.get? l),
            rowSame (xs.map Prod.fst) r⟩ := by
          unfold rowOf
          rw [if_neg hns, hfirst _ _ hk, hsymF _ _ _ _ h4, hf]
          rfl
        refine ⟨_, List.mem_filterMap.2 ⟨_, hk, hd⟩, ?_⟩
        rw [hsame]
        exact (joins_iff f a b).1 (hhead a b f hf)

/-- C75, warnings: a warning is printed for a label and a pair of names iff a result with that label has an edge between them
that differs from the first one shown. -/
theorem C75_warnings (xs : List (Compared μ)) (only : Bool) (rows : List (DiffRow μ)) (warnings : List (String × String × String))
    (h : compare xs only = .ok (rows, warnings)) (l a b : String) :
    ((l, a, b) ∈ warnings ∨ (l, b, a) ∈ warnings) ↔
      ∃ f, edgeOf xs l a b = some f ∧ ∃ x ∈ xs, x.1 = l ∧ ∃ e ∈ x.2, Joins e a b ∧ f.eq e = false := by
  obtain ⟨-, -, h3⟩ := collect_spec (flat xs)
  have hw : warnings = ((flat xs).foldl addEdge ⟨Dict.empty, []⟩).warnings := by
    unfold compare at h
    split at h
    · cases h
    · cases h; rfl
  have key : ∀ a b, ordered a b = (a, b) → ((l, a, b) ∈ warnings ↔
      ∃ f, edgeOf xs l a b = some f ∧ ∃ x ∈ xs, x.1 = l ∧ ∃ e ∈ x.2, Joins e a b ∧ f.eq e = false) := by
    intro a b hab
    rw [hw, h3]
    constructor
    · rintro ⟨p, hp, e1, e2, f, e3, e4⟩
      rw [← hab, find_flat] at e3
      obtain ⟨x, hx, e5, e6⟩ := (mem_flat xs p.1 p.2).1 hp
      exact ⟨f, e3, x, hx, e5.trans e1, p.2, e6, (joins_iff _ _ _).2 (e2.trans hab.symm), e4⟩
    · rintro ⟨f, e1, x, hx, e2, e, e3, e4, e5⟩
      refine ⟨(l, e), (mem_flat xs l e).2 ⟨x, hx, e2, e3⟩, rfl, ((joins_iff _ _ _).1 e4).trans hab, f, ?_, e5⟩
      rw [← hab, find_flat]
      exact e1
  have hnot : ∀ a b, (l, a, b) ∈ warnings → ordered a b = (a, b) := by
    intro a b hm
    rw [hw, h3] at hm
    obtain ⟨p, -, -, e2, -⟩ := hm
    have := ordered_self p.2
    rwa [e2] at this
  have hcomm : ∀ e : REdge μ, Joins e a b ↔ Joins e b a := by
    intro e
    rw [joins_iff, joins_iff, ordered_comm]
  have hedge : edgeOf xs l a b = edgeOf xs l b a := by
    rw [← find_flat, ← find_flat, ordered_comm]
  rcases le_total a b with hab | hab
  · have ho : ordered a b = (a, b) := by unfold ordered; rw [if_pos hab]
    rw [← key a b ho]
    refine ⟨fun h => h.elim id fun h => ?_, Or.inl⟩
    have := hnot b a h
    rw [ordered_comm, ho] at this
    simp only [Prod.mk.injEq] at this
    rw [this.1] at h ⊢
    exact h
  · have ho : ordered b a = (b, a) := by unfold ordered; rw [if_pos hab]
    have hk := key b a ho
    simp only [← hcomm, ← hedge] at hk
    rw [← hk]
    refine ⟨fun h => h.elim (fun h => ?_) id, Or.inr⟩
    have := hnot a b h
    rw [ordered_comm, ho] at this
    simp only [Prod.mk.injEq] at this
    rw [this.1] at h ⊢
    exact h

/-- C75, agreement: for edges of the standard types the compared results agree on a pair iff each of them has an edge between
the two names and any two of these are equal: the same type and the same two nodes, in the same direction if directed. -/
theorem C75_agree (xs : List (Compared μ)) (hs : ∀ x ∈ xs, ∀ e ∈ x.2, e.type ∈ Serial.standardTypes) (a b : String) :
    Agree xs a b ↔ (∀ l ∈ xs.map Prod.fst, (edgeOf xs l a b).isSome) ∧
      ∀ l l' e e', edgeOf xs l a b = some e → edgeOf xs l' a b = some e' → e.eq e' = true := by
  have hmem : ∀ l e, edgeOf xs l a b = some e → l ∈ xs.map Prod.fst ∧ e.type ∈ Serial.standardTypes := by
    intro l e h
    have := List.mem_of_find?_eq_some h
    rw [List.mem_flatMap] at this
    obtain ⟨x, hx, he⟩ := this
    rw [List.mem_filter, decide_eq_true_eq] at hx
    exact ⟨List.mem_map.2 ⟨x, hx.1, hx.2⟩, hs x hx.1 e he⟩
  have hfirst : ∀ f, firstShown xs a b = some f → f.type ∈ Serial.standardTypes := by
    intro f h
    unfold firstShown at h
    obtain ⟨l, -, hl⟩ := List.exists_of_findSome?_eq_some h
    exact (hmem l f hl).2
  constructor
  · intro h
    refine ⟨fun l hl => ?_, fun l l' e e' h1 h2 => ?_⟩
    · obtain ⟨e, f, h1, -⟩ := h l hl
      rw [h1]; rfl
    · obtain ⟨e1, f1, k1, k2, k3⟩ := h l (hmem l e h1).1
      obtain ⟨e2, f2, k4, k5, k6⟩ := h l' (hmem l' e' h2).1
      rw [h1] at k1
      cases k1
      rw [h2] at k4
      cases k4
      rw [k2] at k5
      cases k5
      obtain ⟨-, hsy, -⟩ := Serial.C60_equivalence e' f1 f1 (hmem l' e' h2).2 (hfirst f1 k2)
      obtain ⟨-, -, ht⟩ := Serial.C60_equivalence e f1 e' (hmem l e h1).2 (hfirst f1 k2)
      exact ht k3 (hsy k6)
  · rintro ⟨h1, h2⟩ l hl
    obtain ⟨e, he⟩ := Option.isSome_iff_exists.1 (h1 l hl)
    cases hf : firstShown xs a b with
    | none =>
      unfold firstShown at hf
      rw [List.findSome?_eq_none_iff] at hf
      rw [hf l hl] at he
      cases he
    | some f =>
      have hf' := hf
      unfold firstShown at hf'
      obtain ⟨l', -, hl'⟩ := List.exists_of_findSome?_eq_some hf'
      exact ⟨e, f, he, rfl, h2 l l' e f he hl'⟩

/-- C75, which results are compared: the name of an experiment stands for its newest result; the name of an experiment, an
underscore and a second stand for the result of that second, unless an experiment has that very name; anything else is answered
with an error message. -/
theorem C75_names (w : Ws O) (files : Files C) :
    (∀ e t c, w.experiments.has e = true → Tidy e.toList files.keys → files.get? (resultName e.toList t) = some c →
      (∀ u, resultName e.toList u ∈ files.keys → u ≤ t) → resolveName w files e = .ok (some (e ++ "_latest", c))) ∧
    (∀ (e n : String) (t : Int), w.experiments.has e = true → w.experiments.has n = false → Tidy e.toList files.keys →
      n.toList = e.toList ++ '_' :: showInt t →
      (∀ c, files.get? (resultName e.toList t) = some c → resolveName w files n = .ok (some (n, c))) ∧
      (files.get? (resultName e.toList t) = none → resolveName w files n = .ok none)) ∧
    (∀ n, w.experiments.has n = false → (∀ (e : List Char) s, n.toList = e ++ '_' :: s → '_' ∉ s → pyInt s = none) →
      ('_' ∉ n.toList → pyInt n.toList = none) → resolveName w files n = .ok none) := by
  refine ⟨fun e t c hw ht hc hm => ?_, fun e n t he hn ht hname => ?_, fun n hn hp hq => ?_⟩
  · unfold resolveName
    rw [if_neg (by simp [hw]), loadLatest_eq w files e hw, latestFile_newest e.toList files ht t c hc hm]
  · have hnot : '_' ∉ showInt t := fun h => (showInt_chars t _ h).1 rfl
    have hsplit : splitAtChar '_' n.toList = splitAtChar '_' e.toList ++ [showInt t] := by
      rw [hname, splitAtChar_append, splitAtChar_none _ _ hnot]
    have hlast : (splitAtChar '_' n.toList).getLastD [] = showInt t := by
      rw [hsplit]; simp
    have hexp : String.ofList (joinWith '_' (splitAtChar '_' n.toList).dropLast) = e := by
      rw [hsplit, List.dropLast_concat, joinWith_split]
      simp
    have hlabel : e ++ "_" ++ String.ofList (showInt t) = n := by
      apply String.toList_inj.1
      rw [hname]
      simp
    obtain ⟨vs, h1, h2, -⟩ := loadVersions_ok e.toList files.keys ht files.nodup_keys
    obtain ⟨h3, h4⟩ := loadResult_ok w files e t he ht
    constructor
    · intro c hc
      have : t ∈ vs := (h2 t).2 ((Dict.mem_keys_iff _ _).2 (by rw [hc]; rfl))
      unfold resolveName
      rw [if_pos hn, hlast, pyInt_showInt]
      simp only [hexp, h1]
      rw [if_neg (not_not.2 this), h3 c hc]
      simp only [hlabel]
    · intro hc
      have : t ∉ vs := fun h => by
        have := (Dict.mem_keys_iff _ _).1 ((h2 t).1 h)
        rw [hc] at this
        cases this
      unfold resolveName
      rw [if_pos hn, hlast, pyInt_showInt]
      simp only [hexp, h1]
      rw [if_pos this]
  · have hlast : pyInt ((splitAtChar '_' n.toList).getLastD []) = none := by
      by_cases hu : '_' ∈ n.toList
      · obtain ⟨e, s, h1, h2⟩ := last_underscore n.toList hu
        rw [h1, splitAtChar_append, splitAtChar_none _ _ h2]
        simpa using hp e s h1 h2
      · rw [splitAtChar_none _ _ hu]
        simpa using hq hu
    unfold resolveName
    rw [if_pos hn, hlast]

/-! ### C76 -/

/-- C76, the newest result: 404 without a workspace or for an unknown experiment, 400 for one without results, else the newest
result together with its own version number. -/
theorem C76_latest (w : Ws O) (files : Files C) (e : String) :
    getLatest (none : Option (Ws O)) files e = .status 404 ∧
    (w.experiments.get? e = none → getLatest (some w) files e = .status 404) ∧
    (w.experiments.get? e ≠ none → Tidy e.toList files.keys →
      ((∀ u, files.get? (resultName e.toList u) = none) → getLatest (some w) files e = .status 400) ∧
      (∀ t c, files.get? (resultName e.toList t) = some c → (∀ u, files.get? (resultName e.toList u) ≠ none → u ≤ t) →
        getLatest (some w) files e = .ok (c, t))) := by
  refine ⟨rfl, fun h => ?_, fun h ht => ?_⟩
  · unfold getLatest
    simp only
    rw [if_pos]
    unfold Dict.has
    rw [h]; rfl
  · have hw : w.experiments.has e = true := by
      unfold Dict.has
      cases hx : w.experiments.get? e with
      | none => exact absurd hx h
      | some _ => rfl
    have hk : ∀ u, resultName e.toList u ∈ files.keys ↔ files.get? (resultName e.toList u) ≠ none := by
      intro u
      rw [Dict.mem_keys_iff, Option.isSome_iff_ne_none]
    unfold getLatest
    simp only
    rw [if_neg (by simp [hw]), loadLatest_eq w files e hw]
    constructor
    · intro hn
      rw [latestFile_none e.toList files ht (fun u hu => ((hk u).1 hu) (hn u))]
    · intro t c hc hm
      rw [latestFile_newest e.toList files ht t c hc (fun u hu => hm u ((hk u).1 hu))]
      obtain ⟨vs, h1, h2, h3⟩ := loadVersions_ok e.toList files.keys ht files.nodup_keys
      rw [h1]
      have hmem : t ∈ vs := (h2 t).2 ((hk t).2 (by rw [hc]; simp))
      cases vs with
      | nil => cases hmem
      | cons v vs =>
        simp only
        have hv : v ≤ t := hm v ((hk v).1 ((h2 v).1 (by simp)))
        rcases List.mem_cons.1 hmem with rfl | hmem
        · rfl
        · rw [List.pairwise_cons] at h3
          have := h3.1 t hmem
          omega

/-- C76, a given version: answered with the result of exactly that second of exactly that experiment if it is stored, with 400
if it is not, and with 404 without a workspace or for an unknown experiment. -/
theorem C76_version (w : Ws O) (files : Files C) (e : String) (t : Int) :
    getExperiment (none : Option (Ws O)) files e t = .status 404 ∧
    (w.experiments.get? e = none → getExperiment (some w) files e t = .status 404) ∧
    (w.experiments.get? e ≠ none → Tidy e.toList files.keys →
      (files.get? (resultName e.toList t) = none → getExperiment (some w) files e t = .status 400) ∧
      (∀ c, files.get? (resultName e.toList t) = some c → getExperiment (some w) files e t = .ok (c, t))) := by
  refine ⟨rfl, fun h => ?_, fun h ht => ?_⟩
  · unfold getExperiment
    simp only
    rw [if_pos]
    unfold Dict.has
    rw [h]; rfl
  · have hw : w.experiments.has e = true := by
      unfold Dict.has
      cases hx : w.experiments.get? e with
      | none => exact absurd hx h
      | some _ => rfl
    obtain ⟨h3, h4⟩ := loadResult_ok w files e t hw ht
    unfold getExperiment
    simp only
    rw [if_neg (by simp [hw])]
    constructor
    · intro hc; rw [h4 hc]
    · intro c hc; rw [h3 c hc]

/-- C76, the list: the experiments in the order of the workspace, each with the seconds of its own stored results, newest
first. -/
theorem C76_list (w : Ws O) (files : Files C) (ht : ∀ e ∈ w.experiments.keys, Tidy e.toList files.keys) :
    ∃ l, getExperiments (some w) files = .ok l ∧ l.map (fun p => (p.1, p.2.1)) = w.experiments.items ∧
      ∀ p ∈ l, p.2.2.Pairwise (fun a b => a > b) ∧ ∀ t, t ∈ p.2.2 ↔ files.get? (resultName p.1.toList t) ≠ none := by
  unfold getExperiments
  have key : ∀ its : List (String × Experiment), (∀ p ∈ its, Tidy p.1.toList files.keys) →
      ∃ l, listExperiments files its = .ok l ∧ l.map (fun p => (p.1, p.2.1)) = its ∧
        ∀ p ∈ l, p.2.2.Pairwise (fun a b => a > b) ∧ ∀ t, t ∈ p.2.2 ↔ files.get? (resultName p.1.toList t) ≠ none := by
    intro its
    induction its with
    | nil => exact fun _ => ⟨[], rfl, rfl, fun p hp => by cases hp⟩
    | cons q its ih =>
      intro h
      obtain ⟨l, h1, h2, h3⟩ := ih (fun p hp => h p (by simp [hp]))
      obtain ⟨vs, g1, g2, g3⟩ := loadVersions_ok q.1.toList files.keys (h q (by simp)) files.nodup_keys
      refine ⟨(q.1, q.2, vs) :: l, ?_, by simp [h2], ?_⟩
      · rw [listExperiments, g1]
        simp only
        rw [h1]
      · intro p hp
        rcases List.mem_cons.1 hp with rfl | hp
        · refine ⟨g3, fun t => ?_⟩
          simp only
          rw [g2, Dict.mem_keys_iff, Option.isSome_iff_ne_none]
        · exact h3 p hp
  obtain ⟨l, h1, h2, h3⟩ := key w.experiments.items (fun p hp => ht p.1 (List.mem_map_of_mem hp))
  exact ⟨l, by simp only; rw [h1], h2, h3⟩

/-! ### Cases meeting the hypotheses -/

def exX : Serial.RNode := ⟨"x", "x"⟩
def exY : Serial.RNode := ⟨"y", "y"⟩
def exZ : Serial.RNode := ⟨"z", "z"⟩

/-- two results: both have `x - y`, once in either direction; `y -> z` is reversed in the second, `x - z` only in the second -/
def exCompared : List (Compared Unit) :=
  [("a_latest", [⟨exX, exY, ⟨"UNDIRECTED", false⟩, ()⟩, ⟨exY, exZ, ⟨"DIRECTED", true⟩, ()⟩]),
   ("b_7", [⟨exY, exX, ⟨"UNDIRECTED", false⟩, ()⟩, ⟨exZ, exY, ⟨"DIRECTED", true⟩, ()⟩, ⟨exX, exZ, ⟨"UNDIRECTED", false⟩, ()⟩])]

/-- a directory with two results of `a` and one of `a_1`, and a workspace with both experiments -/
def exFiles : Files Nat :=
  ((Dict.empty.set (resultName "a".toList 5) 50).set (resultName "a_1".toList 9) 90).set (resultName "a".toList 7) 70

def exWorkspace : Ws Unit :=
  ⟨Dict.empty, Dict.empty, (Dict.empty.set "a" ⟨"p", "d", Dict.empty⟩).set "a_1" ⟨"p", "d", Dict.empty⟩⟩

example : ∀ e ∈ exWorkspace.experiments.keys, Tidy e.toList exFiles.keys := by
  have h : ∀ f ∈ exFiles.keys, f = resultName "a".toList 5 ∨ f = resultName "a_1".toList 9 ∨ f = resultName "a".toList 7 := by
    decide +kernel
  intro e _ f hf
  rcases h f hf with rfl | rfl | rfl
  · exact Or.inl ⟨_, _, rfl⟩
  · exact Or.inl ⟨_, _, rfl⟩
  · exact Or.inl ⟨_, _, rfl⟩

/-- `a` is compared by its newest result, `a_5` by the older one; `a_1` is an experiment, not a version of `a` -/
example : (resolveName exWorkspace exFiles "a").toOption = some (some ("a_latest", 70)) ∧
    (resolveName exWorkspace exFiles "a_5").toOption = some (some ("a_5", 50)) ∧
    (resolveName exWorkspace exFiles "a_1").toOption = some (some ("a_1_latest", 90)) ∧
    (resolveName exWorkspace exFiles "a_6").toOption = some none := by
  refine ⟨?_, ?_, ?_, ?_⟩ <;> decide +kernel

example : ∀ x ∈ exCompared, ∀ e ∈ x.2, e.type ∈ Serial.standardTypes := by decide

/-- only the two real differences are shown -/
example : (compare exCompared true).toOption.map (fun r => r.1.map (fun d => d.header)) = some [("x", "z"), ("y", "z")] := by
  decide +kernel

example : (compare exCompared false).toOption.map (fun r => r.1.map (fun d => (d.header, d.same))) =
    some [(("x", "y"), true), (("x", "z"), false), (("y", "z"), false)] := by
  decide +kernel

end Workspace
end Verif
