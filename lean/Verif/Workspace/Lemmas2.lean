import Verif.Workspace.Lemmas

/-!
# Lemmas about histories of result files
-/

namespace Verif
namespace Workspace
variable {C : Type}

/-- the newest result depends on the results of the experiment only -/
theorem latestFile_congr (e : List Char) (d d' : Files C) (h : Tidy e d.keys) (h' : Tidy e d'.keys)
    (hg : ∀ t, d'.get? (resultName e t) = d.get? (resultName e t)) : latestFile e d' = latestFile e d := by
  have hk : ∀ t, resultName e t ∈ d'.keys ↔ resultName e t ∈ d.keys := by
    intro t
    rw [Dict.mem_keys_iff, Dict.mem_keys_iff, hg]
  obtain ⟨vs, -, h2, h3⟩ := loadVersions_ok e d.keys h d.nodup_keys
  cases vs with
  | nil =>
    have hno : ∀ u, resultName e u ∉ d.keys := fun u hu => by cases (h2 u).2 hu
    rw [latestFile_none e d h hno, latestFile_none e d' h' (fun u hu => hno u ((hk u).1 hu))]
  | cons v vs =>
    have hv := (h2 v).1 (by simp)
    have hmax : ∀ u, resultName e u ∈ d.keys → u ≤ v := by
      intro u hu
      rcases List.mem_cons.1 ((h2 u).2 hu) with rfl | h4
      · exact le_refl _
      · have := (List.pairwise_cons.1 h3).1 u h4
        omega
    rw [Dict.mem_keys_iff, Option.isSome_iff_exists] at hv
    obtain ⟨c, hc⟩ := hv
    rw [latestFile_newest e d h v c hc hmax,
      latestFile_newest e d' h' v c (by rw [hg, hc]) (fun u hu => hmax u ((hk u).1 hu))]

theorem dirOk_save {now t : Int} {d : Files C} (h : DirOk now d) (ht : now ≤ t) (e : List Char) (c : C) :
    DirOk t (saveFile e t c d) := by
  intro f hf
  unfold saveFile at hf
  rw [Dict.mem_keys_iff, Dict.get?_set] at hf
  by_cases he : resultName e t = f
  · exact Or.inl ⟨e, t, he.symm, le_refl _⟩
  · rw [if_neg he, ← Dict.mem_keys_iff] at hf
    rcases h f hf with ⟨e', u, h1, h2⟩ | h1
    · exact Or.inl ⟨e', u, h1, by omega⟩
    · exact Or.inr h1

theorem dirOk_sub {now : Int} {d d' : Files C} (h : DirOk now d) (hs : ∀ f, f ∈ d'.keys → f ∈ d.keys) : DirOk now d' :=
  fun f hf => h f (hs f hf)

/-- one operation -/
theorem apply_ok {now : Int} {d : Files C} (h : DirOk now d) (op : FileOp C) (ops : List (FileOp C))
    (hc : ClockOk now (op :: ops)) :
    ∃ d' now', op.apply d = .ok d' ∧ DirOk now' d' ∧ ClockOk now' ops ∧ ∀ e,
      (op.effect e = none → ∀ t, d'.get? (resultName e t) = d.get? (resultName e t)) ∧
      (op.effect e = some none → ∀ t, d'.get? (resultName e t) = none) ∧
      (∀ c, op.effect e = some (some c) → latestFile e d' = .ok c) := by
  cases op with
  | save e' t c =>
    obtain ⟨h1, h2⟩ := hc
    have hd := dirOk_save h h1 e' c
    refine ⟨_, t, rfl, hd, h2, fun e => ⟨fun h3 u => ?_, fun h3 => ?_, fun c' h3 => ?_⟩⟩
    · simp only [FileOp.effect] at h3
      unfold saveFile
      rw [Dict.get?_set, if_neg]
      intro he
      have := (resultName_inj he).1
      subst this
      simp at h3
    · simp only [FileOp.effect] at h3
      split at h3 <;> simp at h3
    · simp only [FileOp.effect] at h3
      by_cases he : e' = e
      · subst he
        rw [if_pos rfl] at h3
        cases h3
        refine latestFile_newest e' _ (dirOk_tidy hd e') t c ?_ ?_
        · unfold saveFile
          rw [Dict.get?_set, if_pos rfl]
        · intro u hu
          rcases hd _ hu with ⟨e2, u2, h4, h5⟩ | h4
          · rw [(resultName_inj h4).2]; exact h5
          · exact absurd (json_resultName e' u) h4
      · rw [if_neg he] at h3
        cases h3
  | clear e' =>
    obtain ⟨d', h1, h2, h3⟩ := clearFiles_ok e' d (dirOk_tidy h e')
    refine ⟨d', now, h1, dirOk_sub h ?_, hc, fun e => ⟨fun h4 u => ?_, fun h4 u => ?_, fun c' h4 => ?_⟩⟩
    · intro f hf
      by_cases hx : ∃ t, f = resultName e' t
      · obtain ⟨t, rfl⟩ := hx
        rw [Dict.mem_keys_iff, h2 t] at hf
        cases hf
      · rw [Dict.mem_keys_iff, h3 f (fun t ht => hx ⟨t, ht⟩), ← Dict.mem_keys_iff] at hf
        exact hf
    · refine h3 _ (fun t ht => ?_)
      have := (resultName_inj ht).1
      subst this
      simp [FileOp.effect] at h4
    · simp only [FileOp.effect] at h4
      by_cases he : e' = e
      · subst he; exact h2 u
      · rw [if_neg he] at h4; cases h4
    · simp only [FileOp.effect] at h4
      split at h4 <;> cases h4

/-- a whole history -/
theorem applyAll_ok (ops : List (FileOp C)) (now : Int) (d : Files C) (h : DirOk now d) (hc : ClockOk now ops) :
    ∃ d' now', applyAll ops d = .ok d' ∧ DirOk now' d' ∧ ∀ e,
      (lastOf e ops = none → ∀ t, d'.get? (resultName e t) = d.get? (resultName e t)) ∧
      (lastOf e ops = some none → ∀ t, d'.get? (resultName e t) = none) ∧
      (∀ c, lastOf e ops = some (some c) → latestFile e d' = .ok c) := by
  induction ops generalizing now d with
  | nil => exact ⟨d, now, rfl, h, fun e => ⟨fun _ _ => rfl, (fun hx => by cases hx), (fun c hx => by cases hx)⟩⟩
  | cons op ops ih =>
    obtain ⟨d1, now1, h1, h2, h3, h4⟩ := apply_ok h op ops hc
    obtain ⟨d2, now2, g1, g2, g3⟩ := ih now1 d1 h2 h3
    refine ⟨d2, now2, by rw [applyAll, h1]; exact g1, g2, fun e => ?_⟩
    obtain ⟨a1, a2, a3⟩ := h4 e
    obtain ⟨b1, b2, b3⟩ := g3 e
    rw [lastOf]
    cases hl : lastOf e ops with
    | some r =>
      refine ⟨(fun hx => by cases hx), fun hx => ?_, fun c hx => ?_⟩
      · rw [Option.some_or] at hx; exact b2 (by rw [hl, hx])
      · rw [Option.some_or] at hx; exact b3 c (by rw [hl, hx])
    | none =>
      rw [Option.none_or]
      refine ⟨fun hx t => ?_, fun hx t => ?_, fun c hx => ?_⟩
      · rw [b1 hl t, a1 hx t]
      · rw [b1 hl t, a2 hx t]
      · rw [latestFile_congr e d1 d2 (dirOk_tidy h2 e) (dirOk_tidy g2 e) (b1 hl)]
        exact a3 c hx

end Workspace
end Verif
