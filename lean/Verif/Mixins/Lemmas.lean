import Verif.Mixins.Spec

/-! # Lemmas about method resolution -/

namespace Verif
namespace Mixins
variable {γ : Type} [DecidableEq γ]

theorem mayComeNext_iff {ls : List (List γ)} {c : γ} : mayComeNext ls c = true ↔ ∀ l ∈ ls, c ∉ l.tail := by
  simp [mayComeNext, List.all_eq_true]

theorem next_some {ls : List (List γ)} {c : γ} (h : next ls = some c) :
    (∃ l ∈ ls, l.head? = some c) ∧ ∀ l ∈ ls, c ∉ l.tail := by
  unfold next at h
  have h1 := List.mem_of_find?_eq_some h
  have h2 := List.find?_some h
  refine ⟨?_, mayComeNext_iff.1 h2⟩
  obtain ⟨l, hl, he⟩ := List.mem_filterMap.1 h1
  exact ⟨l, hl, he⟩

/-- the head of the lists that comes first in the common order may come next -/
theorem exists_next {ls : List (List γ)} : ∀ L : List γ, L.Nodup → (∀ l ∈ ls, l.Sublist L) → (∃ l ∈ ls, l ≠ []) →
    ∃ l ∈ ls, ∃ c, l.head? = some c ∧ ∀ l ∈ ls, c ∉ l.tail := by
  intro L
  induction L with
  | nil =>
    rintro _ h ⟨l, hl, hne⟩
    exact absurd (List.sublist_nil.1 (h l hl)) hne
  | cons a L ih =>
    intro hn h hne
    rw [List.nodup_cons] at hn
    by_cases hx : ∃ l ∈ ls, l.head? = some a
    · obtain ⟨l, hl, he⟩ := hx
      refine ⟨l, hl, a, he, fun m hm ha => ?_⟩
      have hs := (h m hm).tail
      exact hn.1 (hs.subset ha)
    · refine ih hn.2 (fun l hl => ?_) hne
      have hs := h l hl
      cases hs with
      | cons _ h => exact h
      | cons_cons _ h => exact absurd ⟨_, hl, rfl⟩ hx

theorem next_isSome {ls : List (List γ)} (hc : Compatible ls) (hne : ∃ l ∈ ls, l ≠ []) : ∃ c, next ls = some c := by
  obtain ⟨L, hL, h⟩ := hc
  obtain ⟨l, hl, c, hh, ht⟩ := exists_next L hL h hne
  cases hf : next ls with
  | some d => exact ⟨d, rfl⟩
  | none =>
    unfold next at hf
    rw [List.find?_eq_none] at hf
    exact absurd (mayComeNext_iff.2 ht) (hf c (List.mem_filterMap.2 ⟨l, hl, hh⟩))

theorem dropHead_sublist (c : γ) (l : List γ) : (dropHead c l).Sublist l := by
  unfold dropHead
  split
  · exact List.tail_sublist l
  · exact List.Sublist.refl l

theorem sum_dropHead (c : γ) : ∀ ls : List (List γ), (∃ l ∈ ls, l.head? = some c) →
    ((ls.map (dropHead c)).map List.length).sum < (ls.map List.length).sum := by
  have le : ∀ ls : List (List γ), ((ls.map (dropHead c)).map List.length).sum ≤ (ls.map List.length).sum := by
    intro ls
    induction ls with
    | nil => simp
    | cons a ls ih =>
      have := (dropHead_sublist c a).length_le
      simp only [List.map_cons, List.sum_cons]
      omega
  intro ls
  induction ls with
  | nil => rintro ⟨l, hl, _⟩; cases hl
  | cons a ls ih =>
    rintro ⟨l, hl, he⟩
    simp only [List.map_cons, List.sum_cons]
    rcases List.mem_cons.1 hl with rfl | hl
    · have h1 := le ls
      have h2 : (dropHead c l).length < l.length := by
        unfold dropHead
        rw [if_pos he]
        cases l with
        | nil => cases he
        | cons x l => simp
      omega
    · have h1 := ih ⟨l, hl, he⟩
      have := (dropHead_sublist c a).length_le
      omega

theorem length_le_sum : ∀ (ls : List (List γ)) (l : List γ), l ∈ ls → l.length ≤ (ls.map List.length).sum := by
  intro ls
  induction ls with
  | nil => intro l hl; cases hl
  | cons a ls ih =>
    intro l hl
    simp only [List.map_cons, List.sum_cons]
    rcases List.mem_cons.1 hl with rfl | hl
    · omega
    · have := ih l hl; omega

theorem all_empty_iff {ls : List (List γ)} : ls.all List.isEmpty = true ↔ ∀ l ∈ ls, l = [] := by
  simp [List.all_eq_true]

/-- what a successful merge returns -/
theorem merge_some : ∀ (n : Nat) (ls : List (List γ)) (r : List γ), (∀ l ∈ ls, l.Nodup) → merge n ls = some r →
    r.Nodup ∧ (∀ l ∈ ls, l.Sublist r) ∧ ∀ c, c ∈ r ↔ ∃ l ∈ ls, c ∈ l := by
  have nilcase : ∀ ls : List (List γ), ls.all List.isEmpty = true →
      ([] : List γ).Nodup ∧ (∀ l ∈ ls, l.Sublist []) ∧ ∀ c, c ∈ ([] : List γ) ↔ ∃ l ∈ ls, c ∈ l := by
    intro ls h
    rw [all_empty_iff] at h
    refine ⟨List.nodup_nil, fun l hl => by rw [h l hl], fun c => ⟨fun h => (List.not_mem_nil h).elim, ?_⟩⟩
    rintro ⟨l, hl, hc⟩
    rw [h l hl] at hc
    exact hc
  intro n
  induction n with
  | zero =>
    intro ls r hn h
    unfold merge at h
    split at h
    · next he => cases h; exact nilcase ls he
    · cases h
  | succ n ih =>
    intro ls r hn h
    unfold merge at h
    split at h
    · next he => cases h; exact nilcase ls he
    · cases hx : next ls with
      | none => rw [hx] at h; cases h
      | some c =>
        rw [hx] at h
        obtain ⟨r', hr', rfl⟩ := Option.map_eq_some_iff.1 h
        obtain ⟨⟨l0, hl0, he0⟩, hc2⟩ := next_some hx
        have hd : ∀ l ∈ ls, c ∉ dropHead c l := by
          intro l hl hc
          unfold dropHead at hc
          split at hc
          · exact hc2 l hl hc
          · next hne =>
            cases l with
            | nil => cases hc
            | cons x l =>
              rcases List.mem_cons.1 hc with rfl | hc
              · exact hne rfl
              · exact hc2 _ hl hc
        have hcases : ∀ l, l ∈ ls → l = dropHead c l ∨ l = c :: dropHead c l := by
          intro l _
          unfold dropHead
          split
          · next he =>
            right
            cases l with
            | nil => cases he
            | cons x l => cases he; rfl
          · left; rfl
        obtain ⟨i1, i2, i3⟩ := ih (ls.map (dropHead c)) r' (by
          intro l hl
          obtain ⟨m, hm, rfl⟩ := List.mem_map.1 hl
          exact (hn m hm).sublist (dropHead_sublist c m)) hr'
        refine ⟨List.nodup_cons.2 ⟨?_, i1⟩, ?_, ?_⟩
        · intro hc
          obtain ⟨l, hl, hcl⟩ := (i3 c).1 hc
          obtain ⟨m, hm, rfl⟩ := List.mem_map.1 hl
          exact hd m hm hcl
        · intro l hl
          have hs := i2 _ (List.mem_map_of_mem hl)
          rcases hcases l hl with h | h
          · rw [h]; exact List.Sublist.cons _ hs
          · rw [h]; exact List.Sublist.cons_cons _ hs
        · intro d
          rw [List.mem_cons, i3 d]
          constructor
          · rintro (rfl | ⟨l, hl, hdl⟩)
            · exact ⟨l0, hl0, List.mem_of_mem_head? he0⟩
            · obtain ⟨m, hm, rfl⟩ := List.mem_map.1 hl
              exact ⟨m, hm, (dropHead_sublist c m).subset hdl⟩
          · rintro ⟨l, hl, hdl⟩
            rcases hcases l hl with h | h
            · exact .inr ⟨_, List.mem_map_of_mem hl, h ▸ hdl⟩
            · rw [h] at hdl
              rcases List.mem_cons.1 hdl with rfl | hdl
              · exact .inl rfl
              · exact .inr ⟨_, List.mem_map_of_mem hl, hdl⟩

/-- the merge succeeds on compatible orders -/
theorem merge_isSome : ∀ (n : Nat) (ls : List (List γ)), (ls.map List.length).sum ≤ n → Compatible ls →
    ∃ r, merge n ls = some r := by
  intro n
  induction n with
  | zero =>
    intro ls hn hc
    have : ∀ l ∈ ls, l = [] := by
      intro l hl
      have := length_le_sum ls l hl
      exact List.length_eq_zero_iff.1 (by omega)
    exact ⟨[], by unfold merge; rw [if_pos (all_empty_iff.2 this)]⟩
  | succ n ih =>
    intro ls hn hc
    by_cases he : ls.all List.isEmpty = true
    · exact ⟨[], by unfold merge; rw [if_pos he]⟩
    · have hne : ∃ l ∈ ls, l ≠ [] := by
        by_contra hx
        push Not at hx
        exact he (all_empty_iff.2 hx)
      obtain ⟨c, hx⟩ := next_isSome hc hne
      have hlt := sum_dropHead c ls (next_some hx).1
      obtain ⟨L, hL, h⟩ := hc
      obtain ⟨r, hr⟩ := ih (ls.map (dropHead c)) (by omega) ⟨L, hL, by
        intro l hl
        obtain ⟨m, hm, rfl⟩ := List.mem_map.1 hl
        exact (dropHead_sublist c m).trans (h m hm)⟩
      refine ⟨c :: r, ?_⟩
      unfold merge
      rw [if_neg he, hx]
      simp only [hr, Option.map_some]

/-- python finds a resolution order exactly for compatible orders -/
theorem linearise_iff (w : World γ) (bases : List γ) (hn : bases.Nodup) (hw : ∀ c, (w.order c).Nodup) :
    (∃ r, linearise w bases = some r) ↔ Compatible (bases.map w.order ++ [bases]) := by
  constructor
  · rintro ⟨r, hr⟩
    obtain ⟨h1, h2, _⟩ := merge_some _ _ r (by
      intro l hl
      rcases List.mem_append.1 hl with hl | hl
      · obtain ⟨c, _, rfl⟩ := List.mem_map.1 hl; exact hw c
      · rw [List.mem_singleton.1 hl]; exact hn) hr
    exact ⟨r, h1, h2⟩
  · intro h
    exact merge_isSome _ _ (Nat.le_refl _) h

theorem linearise_mem (w : World γ) (bases r : List γ) (hn : bases.Nodup) (hw : ∀ c, (w.order c).Nodup)
    (hself : ∀ c, c ∈ w.order c) (hr : linearise w bases = some r) (d : γ) : d ∈ r ↔ ∃ c ∈ bases, d ∈ w.order c := by
  obtain ⟨_, _, h3⟩ := merge_some _ _ r (by
    intro l hl
    rcases List.mem_append.1 hl with hl | hl
    · obtain ⟨c, _, rfl⟩ := List.mem_map.1 hl; exact hw c
    · rw [List.mem_singleton.1 hl]; exact hn) hr
  rw [h3 d]
  constructor
  · rintro ⟨l, hl, hd⟩
    rcases List.mem_append.1 hl with hl | hl
    · obtain ⟨c, hc, rfl⟩ := List.mem_map.1 hl; exact ⟨c, hc, hd⟩
    · rw [List.mem_singleton.1 hl] at hd; exact ⟨d, hd, hself d⟩
  · rintro ⟨c, hc, hd⟩
    exact ⟨_, List.mem_append_left _ (List.mem_map_of_mem hc), hd⟩

/-- the classes of unrelated mixins always have a resolution order -/
theorem unrelated_linearise (w : World γ) (bases : List γ) (hn : bases.Nodup) (h : Unrelated w (· ∈ bases)) :
    ∃ r, linearise w bases = some r := by
  obtain ⟨T, hT, h⟩ := h
  refine merge_isSome _ _ (Nat.le_refl _) ⟨bases ++ T, ?_, ?_⟩
  · rw [List.nodup_append]
    refine ⟨hn, hT, fun a ha b hb hab => ?_⟩
    subst hab
    exact (h a ha).1 hb
  · intro l hl
    rcases List.mem_append.1 hl with hl | hl
    · obtain ⟨c, hc, rfl⟩ := List.mem_map.1 hl
      obtain ⟨_, r, hr, hs⟩ := h c hc
      rw [hr]
      have h1 : [c].Sublist bases := List.singleton_sublist.2 hc
      exact h1.append hs
    · rw [List.mem_singleton.1 hl]
      exact List.sublist_append_left _ _

theorem mem_mixins {w : World γ} {a : Alg γ} {c : γ} : c ∈ a.mixins w ↔
    w.isAbstract c = false ∧ (c ∈ a.edgeTypes ∨ ∃ es, a.extensions = some es ∧ c ∈ es) := by
  unfold Alg.mixins
  rw [List.mem_append, List.mem_filter, List.mem_filter]
  cases a.extensions with
  | none => simp [and_comm]
  | some es => simp; tauto

theorem after_spec {w : World γ} {start : List γ} (hs : start.Nodup) (hl : ∃ r, linearise w start = some r)
    {hist : List (Alg γ)} {bases : List γ} (h : After w start hist bases) :
    bases.Nodup ∧ (∃ r, linearise w bases = some r) ∧ ∀ c, c ∈ bases ↔ c ∈ start ∨ Declared w hist c := by
  induction h with
  | nil => exact ⟨hs, hl, fun c => ⟨.inl, fun h => h.elim id (by rintro ⟨a, ha, _⟩; cases ha)⟩⟩
  | failed h hc ih => exact ih
  | @done hist bases a new h hc ih =>
    cases hc with
    | done _ mro hp hm =>
      refine ⟨hp.nodup_iff.2 (List.nodup_dedup _), ⟨_, hm⟩, fun c => ?_⟩
      rw [hp.mem_iff, List.mem_dedup, List.mem_append, ih.2.2 c, mem_mixins]
      constructor
      · rintro ((h | ⟨b, hb, h⟩) | h)
        · exact .inl h
        · exact .inr ⟨b, List.mem_append_left _ hb, h⟩
        · exact .inr ⟨a, List.mem_append_right _ (List.mem_singleton.2 rfl), h⟩
      · rintro (h | ⟨b, hb, h⟩)
        · exact .inl (.inl h)
        · rcases List.mem_append.1 hb with hb | hb
          · exact .inl (.inr ⟨b, hb, h⟩)
          · rw [List.mem_singleton.1 hb] at h; exact .inr h

/-- a lookup succeeds exactly if one of the base classes provides the name -/
theorem lookup_iff {w : World γ} {bases : List γ} (hn : bases.Nodup) (hw : ∀ c, (w.order c).Nodup)
    (hself : ∀ c, c ∈ w.order c) (hl : ∃ r, linearise w bases = some r) (name : String) :
    ((∃ c, lookup w bases name = .ok c) ↔ ∃ c ∈ bases, Provides w c name) ∧
    ((¬ ∃ c, lookup w bases name = .ok c) → lookup w bases name = .error .attributeError) ∧
    ∀ c, lookup w bases name = .ok c → w.defines c name = true ∧ ∃ b ∈ bases, c ∈ w.order b := by
  obtain ⟨r, hr⟩ := hl
  have hmem := linearise_mem w bases r hn hw hself hr
  unfold lookup
  rw [hr]
  dsimp only
  cases hf : r.find? (fun c => w.defines c name) with
  | none =>
    rw [List.find?_eq_none] at hf
    refine ⟨⟨?_, ?_⟩, fun _ => rfl, fun c h => by cases h⟩
    · rintro ⟨c, hc⟩; cases hc
    · rintro ⟨c, hc, d, hd, hdef⟩
      exact absurd hdef (hf d ((hmem d).2 ⟨c, hc, hd⟩))
  | some c =>
    have h1 := List.mem_of_find?_eq_some hf
    have h2 := List.find?_some hf
    obtain ⟨b, hb, hcb⟩ := (hmem c).1 h1
    refine ⟨⟨fun _ => ⟨b, hb, c, hcb, h2⟩, fun _ => ⟨c, rfl⟩⟩, fun h => absurd ⟨c, rfl⟩ h, ?_⟩
    intro c' hc'
    cases hc'
    exact ⟨h2, b, hb, hcb⟩

end Mixins
end Verif
