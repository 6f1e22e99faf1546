import Verif.Workspace.Spec
import Verif.Workspace.TextLemmas

/-!
# Lemmas about result files
-/

namespace Verif
namespace Workspace

theorem split_resultName (e : List Char) (t : Int) :
    splitAtChar '_' (resultName e t) = splitAtChar '_' e ++ [showInt t ++ ".json".toList] := by
  unfold resultName
  rw [splitAtChar_append, splitAtChar_none '_' (showInt t ++ ".json".toList)]
  intro h
  rcases List.mem_append.1 h with h | h
  · exact (showInt_chars t _ h).1 rfl
  · revert h; decide

theorem fileVersion_resultName (e : List Char) (t : Int) : fileVersion (resultName e t) = some t := by
  unfold fileVersion
  rw [split_resultName, List.getLastD_eq_getLast?, List.getLast?_append]
  show pyInt ((splitAtChar '.' (showInt t ++ '.' :: "json".toList)).headD []) = _
  rw [splitAtChar_append, splitAtChar_none '.' (showInt t) (fun h => (showInt_chars t _ h).2.1 rfl)]
  exact pyInt_showInt t

theorem fileExperiment_resultName (e : List Char) (t : Int) : fileExperiment (resultName e t) = e := by
  unfold fileExperiment
  rw [split_resultName, List.dropLast_concat, joinWith_split]

theorem resultName_inj {e e' : List Char} {t t' : Int} (h : resultName e t = resultName e' t') : e = e' ∧ t = t' := by
  constructor
  · rw [← fileExperiment_resultName e t, h, fileExperiment_resultName]
  · have := congrArg fileVersion h
    rw [fileVersion_resultName, fileVersion_resultName] at this
    exact Option.some.inj this

theorem mayBeVersion_iff (e f : List Char) : mayBeVersion e f = true ↔ (e ++ ['_'] <+: f) ∧ (".json".toList <:+ f) := by
  unfold mayBeVersion startsWith endsWith
  rw [Bool.and_eq_true, List.isPrefixOf_iff_prefix, List.isSuffixOf_iff_suffix]

theorem mayBeVersion_resultName (e : List Char) (t : Int) : mayBeVersion e (resultName e t) = true := by
  rw [mayBeVersion_iff]
  unfold resultName
  refine ⟨⟨showInt t ++ ".json".toList, by simp⟩, ⟨e ++ '_' :: showInt t, by simp⟩⟩

theorem json_resultName (e : List Char) (t : Int) : ".json".toList <:+ resultName e t :=
  ((mayBeVersion_iff _ _).1 (mayBeVersion_resultName e t)).2

/-- the versions found in a tidy listing -/
theorem scanVersions_ok (e : List Char) (l : List (List Char)) (hl : Tidy e l) :
    ∃ vs, scanVersions e l = .ok vs ∧ (∀ t, t ∈ vs ↔ resultName e t ∈ l) ∧ (l.Nodup → vs.Nodup) := by
  induction l with
  | nil => exact ⟨[], rfl, by simp, by simp⟩
  | cons f l ih =>
    obtain ⟨vs, h1, h2, h3⟩ := ih (fun g hg => hl g (by simp [hg]))
    rw [scanVersions]
    by_cases hm : mayBeVersion e f = true
    · rw [if_pos hm]
      have hf : ∃ e' t, f = resultName e' t := by
        rcases hl f (by simp) with h | h | h
        · exact h
        · exact absurd ((mayBeVersion_iff e f).1 hm).1 h
        · exact absurd ((mayBeVersion_iff e f).1 hm).2 h
      obtain ⟨e', t, rfl⟩ := hf
      rw [fileVersion_resultName, h1, fileExperiment_resultName]
      simp only
      by_cases he : e' = e
      · subst he
        rw [if_neg (by simp)]
        refine ⟨t :: vs, rfl, ?_, ?_⟩
        · intro u
          simp only [List.mem_cons, h2]
          constructor
          · rintro (rfl | h)
            · exact Or.inl rfl
            · exact Or.inr h
          · rintro (h | h)
            · exact Or.inl (resultName_inj h).2
            · exact Or.inr h
        · intro hn
          rw [List.nodup_cons] at hn ⊢
          exact ⟨fun h => hn.1 ((h2 t).1 h), h3 hn.2⟩
      · rw [if_pos he]
        refine ⟨vs, rfl, ?_, fun hn => h3 (List.nodup_cons.1 hn).2⟩
        intro u
        rw [h2, List.mem_cons]
        constructor
        · exact Or.inr
        · rintro (h | h)
          · exact absurd (resultName_inj h).1.symm he
          · exact h
    · rw [if_neg hm]
      refine ⟨vs, h1, ?_, fun hn => h3 (List.nodup_cons.1 hn).2⟩
      intro u
      rw [h2, List.mem_cons]
      constructor
      · exact Or.inr
      · rintro (h | h)
        · rw [← h] at hm
          exact absurd (mayBeVersion_resultName e u) hm
        · exact h

/-- the versions found in a tidy listing, sorted -/
theorem loadVersions_ok (e : List Char) (l : List (List Char)) (hl : Tidy e l) (hn : l.Nodup) :
    ∃ vs, loadVersions e l = .ok vs ∧ (∀ t, t ∈ vs ↔ resultName e t ∈ l) ∧ vs.Pairwise (fun a b => a > b) := by
  obtain ⟨vs, h1, h2, h3⟩ := scanVersions_ok e l hl
  refine ⟨vs.insertionSort (fun a b => b ≤ a), ?_, ?_, ?_⟩
  · unfold loadVersions
    rw [h1]
  · intro t
    rw [← h2]
    exact (List.perm_insertionSort _ vs).mem_iff
  · have hs : (vs.insertionSort (fun a b : Int => b ≤ a)).Pairwise (fun a b => b ≤ a) := by
      have : Std.Total (fun a b : Int => b ≤ a) := ⟨fun a b => by omega⟩
      have : IsTrans Int (fun a b : Int => b ≤ a) := ⟨fun a b c h1 h2 => by omega⟩
      exact List.pairwise_insertionSort _ vs
    have hd : (vs.insertionSort (fun a b : Int => b ≤ a)).Nodup := (List.perm_insertionSort _ vs).nodup_iff.2 (h3 hn)
    exact (hs.and hd).imp (fun h => by have := h.1; have := h.2; omega)

/-- when the listing fails -/
theorem scanVersions_error (e : List Char) (l : List (List Char)) :
    (scanVersions e l = .error .valueError ↔ ∃ f ∈ l, mayBeVersion e f = true ∧ fileVersion f = none) ∧
      (∀ err, scanVersions e l = .error err → err = .valueError) := by
  induction l with
  | nil => simp [scanVersions]
  | cons f l ih =>
    rw [scanVersions]
    by_cases hm : mayBeVersion e f = true
    · rw [if_pos hm]
      cases hv : fileVersion f with
      | none => exact ⟨⟨fun _ => ⟨f, by simp, hm, hv⟩, fun _ => rfl⟩, fun err h => by cases h; rfl⟩
      | some t =>
        simp only [List.mem_cons]
        cases hr : scanVersions e l with
        | error err0 =>
          have := ih.2 err0 hr
          subst this
          refine ⟨⟨fun _ => ?_, fun _ => rfl⟩, fun err h => by cases h; rfl⟩
          obtain ⟨g, h1, h2⟩ := ih.1.1 hr
          exact ⟨g, Or.inr h1, h2⟩
        | ok vs =>
          have hno : ¬ ∃ f ∈ l, mayBeVersion e f = true ∧ fileVersion f = none := by
            rw [← ih.1, hr]; simp
          refine ⟨⟨fun h => ?_, ?_⟩, fun err h => ?_⟩
          · simp only at h; split at h <;> cases h
          · rintro ⟨g, rfl | h1, h2⟩
            · rw [hv] at h2; cases h2.2
            · exact absurd ⟨g, h1, h2⟩ hno
          · simp only at h; split at h <;> cases h
    · rw [if_neg hm]
      refine ⟨ih.1.trans ?_, ih.2⟩
      constructor
      · rintro ⟨g, h1, h2⟩; exact ⟨g, by simp [h1], h2⟩
      · rintro ⟨g, h1, h2⟩
        rcases List.mem_cons.1 h1 with rfl | h1
        · exact absurd h2.1 hm
        · exact ⟨g, h1, h2⟩

theorem dirOk_tidy {C : Type} {now : Int} {d : Files C} (h : DirOk now d) (e : List Char) : Tidy e d.keys := by
  intro f hf
  rcases h f hf with ⟨e', t, h1, -⟩ | h1
  · exact Or.inl ⟨e', t, h1⟩
  · exact Or.inr (Or.inr h1)

/-- the newest result of an experiment -/
theorem latestFile_newest {C : Type} (e : List Char) (d : Files C) (h : Tidy e d.keys) (t : Int) (c : C)
    (ht : d.get? (resultName e t) = some c) (hmax : ∀ u, resultName e u ∈ d.keys → u ≤ t) : latestFile e d = .ok c := by
  obtain ⟨vs, h1, h2, h3⟩ := loadVersions_ok e d.keys h d.nodup_keys
  have hm : t ∈ vs := (h2 t).2 ((Dict.mem_keys_iff _ _).2 (by rw [ht]; rfl))
  unfold latestFile
  rw [h1]
  cases vs with
  | nil => cases hm
  | cons v vs =>
    have hv : v ≤ t := hmax v ((h2 v).1 (by simp))
    have : v = t := by
      rcases List.mem_cons.1 hm with h | h
      · exact h.symm
      · have := (List.pairwise_cons.1 h3).1 t h
        omega
    subst this
    simp only
    rw [ht]

theorem latestFile_none {C : Type} (e : List Char) (d : Files C) (h : Tidy e d.keys)
    (hn : ∀ u, resultName e u ∉ d.keys) : latestFile e d = .error .valueError := by
  obtain ⟨vs, h1, h2, -⟩ := loadVersions_ok e d.keys h d.nodup_keys
  unfold latestFile
  rw [h1]
  cases vs with
  | nil => rfl
  | cons v vs => exact absurd ((h2 v).1 (by simp)) (hn v)

theorem foldl_del_get {C : Type} (e : List Char) (vs : List Int) (d : Files C) (f : List Char) :
    (vs.foldl (fun d v => d.del (resultName e v)) d).get? f =
      if ∃ v ∈ vs, resultName e v = f then none else d.get? f := by
  induction vs generalizing d with
  | nil => simp
  | cons v vs ih =>
    rw [List.foldl_cons, ih, Dict.get?_del]
    by_cases h1 : ∃ w ∈ vs, resultName e w = f
    · rw [if_pos h1, if_pos]
      obtain ⟨w, h2, h3⟩ := h1
      exact ⟨w, by simp [h2], h3⟩
    · rw [if_neg h1]
      by_cases h2 : resultName e v = f
      · rw [if_pos h2, if_pos ⟨v, by simp, h2⟩]
      · rw [if_neg h2, if_neg]
        rintro ⟨w, h3, h4⟩
        rcases List.mem_cons.1 h3 with rfl | h3
        · exact h2 h4
        · exact h1 ⟨w, h3, h4⟩

/-- clearing removes exactly the results of the experiment -/
theorem clearFiles_ok {C : Type} (e : List Char) (d : Files C) (h : Tidy e d.keys) :
    ∃ d', clearFiles e d = .ok d' ∧ (∀ t, d'.get? (resultName e t) = none) ∧
      ∀ f, (∀ t, f ≠ resultName e t) → d'.get? f = d.get? f := by
  obtain ⟨vs, h1, h2, -⟩ := loadVersions_ok e d.keys h d.nodup_keys
  refine ⟨_, by unfold clearFiles; rw [h1], ?_, ?_⟩
  · intro t
    rw [foldl_del_get]
    by_cases ht : resultName e t ∈ d.keys
    · rw [if_pos ⟨t, (h2 t).2 ht, rfl⟩]
    · split
      · rfl
      · rw [Dict.mem_keys_iff] at ht
        cases hx : d.get? (resultName e t) with
        | none => rfl
        | some c => rw [hx] at ht; exact absurd rfl ht
  · intro f hf
    rw [foldl_del_get, if_neg]
    rintro ⟨v, -, h3⟩
    exact hf v h3.symm

end Workspace
end Verif
