import Verif.Serial.HeapSpec
import Mathlib.Data.Nat.Find

/-!
# Helper lemmas: restoring references in a heap
-/

namespace Verif
namespace Serial

/-- every chain of objects from `i` is shorter than `n` and every written object on it accepts the writes -/
def Safe (h : Heap) : Nat → Nat → Prop
  | 0, _ => False
  | n + 1, i => (Written (h i) → (h i).locked = none) ∧ ∀ j, Child h i j → Safe h n j

theorem Attr.restored_idem (v : Attr) : v.restored.restored = v.restored := by cases v <;> rfl

theorem HObj.restored_idem (o : HObj) : o.restored.restored = o.restored := by
  unfold HObj.restored
  simp only [List.map_map, HObj.mk.injEq, and_true]
  apply List.map_congr_left
  rintro ⟨a, v⟩ _
  simp [Attr.restored_idem]

theorem object_mem_restored (o : HObj) (a : String) (j : Nat) :
    (a, Attr.object j) ∈ o.restored.attrs ↔ (a, Attr.object j) ∈ o.attrs := by
  unfold HObj.restored
  simp only [List.mem_map, Prod.mk.injEq, Prod.exists]
  constructor
  · rintro ⟨b, v, hm, rfl, hv⟩
    cases v <;> simp only [Attr.restored, reduceCtorEq] at hv
    rw [hv] at hm
    exact hm
  · intro hm
    exact ⟨a, _, hm, rfl, rfl⟩

/-- a heap in which some references have been restored -/
def Conv (h0 h : Heap) : Prop := ∀ j, (h j).restored = (h0 j).restored

theorem Conv.locked {h0 h : Heap} (hc : Conv h0 h) (j : Nat) : (h j).locked = (h0 j).locked :=
  (congrArg HObj.locked (hc j) :)

theorem Conv.steps {h0 h : Heap} (hc : Conv h0 h) (j : Nat) : (h j).steps = (h0 j).steps :=
  (congrArg HObj.steps (hc j) :)

theorem Conv.objects {h0 h : Heap} (hc : Conv h0 h) (j : Nat) (a : String) (k : Nat) :
    (a, Attr.object k) ∈ (h j).attrs ↔ (a, Attr.object k) ∈ (h0 j).attrs := by
  rw [← object_mem_restored, hc j, object_mem_restored]

theorem names_restored (o : HObj) : o.restored.attrs.map Prod.fst = o.attrs.map Prod.fst := by
  simp [HObj.restored, List.map_map, Function.comp_def]

theorem Conv.names {h0 h : Heap} (hc : Conv h0 h) (j : Nat) : (h j).attrs.map Prod.fst = (h0 j).attrs.map Prod.fst := by
  rw [← names_restored, hc j, names_restored]

theorem Conv.child {h0 h : Heap} (hc : Conv h0 h) (i j : Nat) : Child h i j ↔ Child h0 i j := by
  unfold Child
  simp only [hc.objects, hc.steps]

theorem written_restored (o : HObj) : Written o.restored ↔ Written o := by
  unfold Written HObj.restored
  simp only [List.mem_map, Prod.mk.injEq, Prod.exists]
  constructor
  · rintro (⟨a, v, ⟨b, w, hm, rfl, rfl⟩, hv⟩ | h)
    · exact Or.inl ⟨b, w, hm, fun e => hv (by rw [e]; rfl)⟩
    · exact Or.inr h
  · rintro (⟨a, v, hm, hv⟩ | h)
    · refine Or.inl ⟨a, v.restored, ⟨a, v, hm, rfl, rfl⟩, ?_⟩
      cases v <;> simp_all [Attr.restored]
    · exact Or.inr h

theorem Conv.written {h0 h : Heap} (hc : Conv h0 h) (i : Nat) : Written (h i) ↔ Written (h0 i) := by
  rw [← written_restored, hc i, written_restored]

theorem assocSet_mid {pre post : List (String × Attr)} {a : String} {v w : Attr} (hn : a ∉ pre.map Prod.fst) :
    assocSet a w (pre ++ (a, v) :: post) = pre ++ (a, w) :: post := by
  induction pre with
  | nil => simp [assocSet]
  | cons p pre ih =>
    obtain ⟨b, x⟩ := p
    simp only [List.map_cons, List.mem_cons, not_or] at hn
    simp only [List.cons_append, assocSet]
    rw [if_neg (fun e => hn.1 e.symm), ih hn.2]

/-! ### a cycle is never safe -/

theorem Safe.mono {h : Heap} {n i : Nat} (hs : Safe h n i) : Safe h (n + 1) i := by
  induction n generalizing i with
  | zero => exact absurd hs (by simp [Safe])
  | succ n ih => exact ⟨hs.1, fun j hj => ih (hs.2 j hj)⟩

theorem Safe.reach {h : Heap} {n i j : Nat} (hs : Safe h n i) (hr : Reach h i j) : Safe h n j := by
  induction hr with
  | refl => exact hs
  | tail _ hc ih =>
    cases n with
    | zero => exact absurd ih (by simp [Safe])
    | succ n => exact (ih.2 _ hc).mono

theorem Safe.acyclic {h : Heap} {n i : Nat} (hs : Safe h n i) : ¬ Relation.TransGen (Child h) i i := by
  induction n generalizing i with
  | zero => exact absurd hs (by simp [Safe])
  | succ n ih =>
    intro hc
    obtain ⟨j, hij, hji⟩ := Relation.TransGen.head'_iff.1 hc
    exact ih (hs.2 j hij) (Relation.TransGen.tail' hji hij)

theorem safe_iff {h : Heap} {i : Nat} :
    (∃ n, Safe h n i) ↔ (∀ j, Reach h i j → Written (h j) → (h j).locked = none) ∧
      ∃ rank : Nat → Nat, ∀ j k, Reach h i j → Child h j k → rank k < rank j := by
  classical
  constructor
  · rintro ⟨n, hs⟩
    refine ⟨fun j hj => ?_, ?_⟩
    · have := hs.reach hj
      cases n with
      | zero => exact absurd this (by simp [Safe])
      | succ n => exact this.1
    · refine ⟨fun j => if hj : ∃ m, Safe h m j then Nat.find hj else 0, fun j k hj hjk => ?_⟩
      have ej : ∃ m, Safe h m j := ⟨n, hs.reach hj⟩
      have ek : ∃ m, Safe h m k := ⟨n, hs.reach (hj.tail hjk)⟩
      simp only [dif_pos ej, dif_pos ek]
      have hf := Nat.find_spec ej
      rcases hm : Nat.find ej with _ | m
      · rw [hm] at hf; exact absurd hf (by simp [Safe])
      · rw [hm] at hf
        have := Nat.find_min' ek (hf.2 k hjk)
        omega
  · rintro ⟨h1, rank, hr⟩
    have key : ∀ n j, Reach h i j → rank j < n → Safe h n j := by
      intro n
      induction n with
      | zero => intro j _ hj; omega
      | succ n ih =>
        intro j hj hn
        exact ⟨h1 j hj, fun k hk => ih k (hj.tail hk) (by have := hr j k hj hk; omega)⟩
    exact ⟨rank i + 1, key _ i .refl (by omega)⟩

/-! ### success implies safety -/

theorem setAttr_ok {h h' : Heap} {i : Nat} {a : String} {v : Attr} (e : setAttr h i a v = .ok h') :
    (h i).locked = none ∧ h' = fun j => if j = i then { h i with attrs := assocSet a v (h i).attrs } else h j := by
  unfold setAttr at e
  split at e
  · cases e
  · rename_i hl
    exact ⟨hl, (Except.ok.inj e).symm⟩

open Classical in
/-- the heap after restoring everything that satisfies `R` -/
noncomputable def mark (h0 : Heap) (R : Nat → Prop) (h : Heap) : Heap := fun j => if R j then (h0 j).restored else h j

theorem mark_conv {h0 h : Heap} (hc : Conv h0 h) (R : Nat → Prop) : Conv h0 (mark h0 R h) := by
  intro j
  unfold mark
  split
  · exact HObj.restored_idem _
  · exact hc j

theorem reach_iff {h : Heap} {i j : Nat} : Reach h i j ↔ j = i ∨ ∃ c, Child h i c ∧ Reach h c j := by
  constructor
  · intro hr
    rcases Relation.ReflTransGen.cases_head hr with e | ⟨c, h1, h2⟩
    · exact Or.inl e.symm
    · exact Or.inr ⟨c, h1, h2⟩
  · rintro (rfl | ⟨c, h1, h2⟩)
    · exact .refl
    · exact Relation.ReflTransGen.head h1 h2

theorem setAttr_same {h : Heap} {i : Nat} {a : String} {v : Attr} {pre post : List (String × Attr)}
    (hl : (h i).locked = none) (ha : (h i).attrs = pre ++ (a, v) :: post) (hn : a ∉ pre.map Prod.fst) (w : Attr) :
    setAttr h i a w = .ok (fun j => if j = i then { h i with attrs := pre ++ (a, w) :: post } else h j) := by
  unfold setAttr
  rw [hl, ha, assocSet_mid hn]

/-- the attributes loop when all held objects are safe -/
theorem visitAttrs_safe {h0 : Heap} {n : Nat}
    (hv : ∀ i h, Conv h0 h → Safe h0 n i → visit n h i = .ok (mark h0 (Reach h0 i) h))
    (i : Nat) (l : List (String × Attr)) : ∀ (pre : List (String × Attr)) (g : Heap), Conv h0 g → (g i).attrs = pre ++ l →
      ((pre ++ l).map Prod.fst).Nodup → ((∃ a v, (a, v) ∈ l ∧ v ≠ Attr.plain) → (h0 i).locked = none) →
      (∀ a k, (a, Attr.object k) ∈ l → Safe h0 n k ∧ ¬ Reach h0 k i) →
      ∃ g', visitAttrs (visit n) i l g = .ok g' ∧ Conv h0 g' ∧
        g' i = { g i with attrs := pre ++ l.map (fun p => (p.1, p.2.restored)) } ∧
        ∀ j, j ≠ i → g' j = mark h0 (fun j => ∃ a k, (a, Attr.object k) ∈ l ∧ Reach h0 k j) g j := by
  induction l with
  | nil =>
    intro pre g hc ha hn hl hs
    refine ⟨g, rfl, hc, ?_, fun j _ => ?_⟩
    · rw [List.map_nil, ← ha]
    · simp [mark]
  | cons p l ih =>
    intro pre g hc ha hn hl hs
    obtain ⟨a, v⟩ := p
    have ha' : a ∉ pre.map Prod.fst := by
      rw [List.map_append, List.map_cons] at hn
      intro hm
      exact (List.nodup_append.1 hn).2.2 a hm a (by simp) rfl
    have hl' : (∃ a v, (a, v) ∈ l ∧ v ≠ Attr.plain) → (h0 i).locked = none :=
      fun ⟨a, v, hm, hv⟩ => hl ⟨a, v, by simp [hm], hv⟩
    have hs' : ∀ a k, (a, Attr.object k) ∈ l → Safe h0 n k ∧ ¬ Reach h0 k i := fun a k hm => hs a k (by simp [hm])
    -- writing `w`, then the rest of the loop, starting from a heap `g1` that agrees with `g` at `i`
    have write : ∀ (g1 : Heap) (w : Attr), Conv h0 g1 → g1 i = g i → w = v.restored → (h0 i).locked = none →
        ∃ g', (match setAttr g1 i a w with
            | .error e => .error e
            | .ok h => visitAttrs (visit n) i l h) = Except.ok g' ∧ Conv h0 g' ∧
          g' i = { g i with attrs := pre ++ ((a, v) :: l).map (fun p => (p.1, p.2.restored)) } ∧
          ∀ j, j ≠ i → g' j = mark h0 (fun j => ∃ a k, (a, Attr.object k) ∈ l ∧ Reach h0 k j) g1 j := by
      intro g1 w hc1 hg1 hw hlk
      have hlk1 : (g1 i).locked = none := by rw [hc1.locked]; exact hlk
      have hat : (g1 i).attrs = pre ++ (a, v) :: l := by rw [hg1]; exact ha
      rw [setAttr_same hlk1 hat ha' w]
      simp only
      obtain ⟨g', e1, e2, e3, e4⟩ := ih (pre ++ [(a, w)])
        (fun j => if j = i then { g1 i with attrs := pre ++ (a, w) :: l } else g1 j)
        (by
          intro j
          by_cases hj : j = i
          · subst hj
            simp only [if_true]
            rw [← hc1 j]
            unfold HObj.restored
            rw [hat, hw]
            simp [Attr.restored_idem]
          · simp only [if_neg hj]
            exact hc1 j)
        (by simp) (by simpa using hn) hl' hs'
      refine ⟨g', e1, e2, ?_, fun j hj => ?_⟩
      · rw [e3]
        simp only [if_true, hg1, hw]
        simp
      · rw [e4 j hj]
        unfold mark
        simp only [if_neg hj]
    cases v with
    | plain =>
      obtain ⟨g', e1, e2, e3, e4⟩ := ih (pre ++ [(a, Attr.plain)]) g hc (by simpa using ha) (by simpa using hn) hl' hs'
      refine ⟨g', by rw [visitAttrs]; exact e1, e2, by rw [e3]; simp [Attr.restored], fun j hj => ?_⟩
      rw [e4 j hj]
      congr 1
      funext j
      simp
    | refDict m =>
      obtain ⟨g', e1, e2, e3, e4⟩ := write g (.reference m) hc rfl rfl (hl ⟨a, _, List.mem_cons_self .., by simp⟩)
      refine ⟨g', by rw [visitAttrs]; exact e1, e2, e3, fun j hj => ?_⟩
      rw [e4 j hj]
      congr 1
      funext j
      simp
    | reference m =>
      obtain ⟨g', e1, e2, e3, e4⟩ := write g (.reference m) hc rfl rfl (hl ⟨a, _, List.mem_cons_self .., by simp⟩)
      refine ⟨g', by rw [visitAttrs]; exact e1, e2, e3, fun j hj => ?_⟩
      rw [e4 j hj]
      congr 1
      funext j
      simp
    | object k =>
      obtain ⟨sk, nr⟩ := hs a k (by simp)
      obtain ⟨g', e1, e2, e3, e4⟩ := write (mark h0 (Reach h0 k) g) (.object k) (mark_conv hc _)
        (by unfold mark; rw [if_neg nr]) rfl (hl ⟨a, _, List.mem_cons_self .., by simp⟩)
      refine ⟨g', by rw [visitAttrs, hv k g hc sk]; exact e1, e2, e3, fun j hj => ?_⟩
      rw [e4 j hj]
      unfold mark
      by_cases hr : ∃ a k', (a, Attr.object k') ∈ l ∧ Reach h0 k' j
      · obtain ⟨b, k', hm, hr'⟩ := hr
        rw [if_pos ⟨b, k', hm, hr'⟩, if_pos ⟨b, k', by simp [hm], hr'⟩]
      · rw [if_neg hr]
        by_cases hk : Reach h0 k j
        · rw [if_pos hk, if_pos ⟨a, k, by simp, hk⟩]
        · rw [if_neg hk, if_neg]
          rintro ⟨b, k', hm, hr'⟩
          rcases List.mem_cons.1 hm with e | hm
          · obtain ⟨-, e⟩ := Prod.mk.inj e
            obtain rfl := Attr.object.inj e
            exact hk hr'
          · exact hr ⟨b, k', hm, hr'⟩

theorem visitSteps_safe {h0 : Heap} {n : Nat}
    (hv : ∀ i h, Conv h0 h → Safe h0 n i → visit n h i = .ok (mark h0 (Reach h0 i) h))
    (js : List Nat) : ∀ g, Conv h0 g → (∀ k ∈ js, Safe h0 n k) →
      visitSteps (visit n) js g = .ok (mark h0 (fun j => ∃ k ∈ js, Reach h0 k j) g) := by
  induction js with
  | nil =>
    intro g _ _
    rw [visitSteps]
    congr 1
    funext j
    simp [mark]
  | cons k js ih =>
    intro g hc hs
    rw [visitSteps, hv k g hc (hs k (by simp))]
    simp only
    rw [ih _ (mark_conv hc _) (fun k hk => hs k (by simp [hk]))]
    congr 1
    funext j
    unfold mark
    by_cases h1 : ∃ k ∈ js, Reach h0 k j
    · obtain ⟨k', hm, hr⟩ := h1
      rw [if_pos ⟨k', hm, hr⟩, if_pos ⟨k', by simp [hm], hr⟩]
    · rw [if_neg h1]
      by_cases h2 : Reach h0 k j
      · rw [if_pos h2, if_pos ⟨k, by simp, h2⟩]
      · rw [if_neg h2, if_neg]
        rintro ⟨k', hm, hr⟩
        rcases List.mem_cons.1 hm with rfl | hm
        · exact h2 hr
        · exact h1 ⟨k', hm, hr⟩

theorem visit_safe {h0 : Heap} (hu : UniqueAttrs h0) (n : Nat) : ∀ i h, Conv h0 h → Safe h0 n i →
    visit n h i = .ok (mark h0 (Reach h0 i) h) := by
  induction n with
  | zero => intro i h _ hs; exact absurd hs (by simp [Safe])
  | succ n ih =>
    intro i h hc hs
    have hac := hs.acyclic
    obtain ⟨hw, hch⟩ := hs
    have nr : ∀ k, Child h0 i k → ¬ Reach h0 k i := fun k hk hr => hac (Relation.TransGen.head' hk hr)
    obtain ⟨g, e1, e2, e3, e4⟩ := visitAttrs_safe ih i (h i).attrs [] h hc rfl
      (by rw [List.nil_append, hc.names]; exact hu i)
      (fun ⟨a, v, hm, hv⟩ => hw ((hc.written i).1 (Or.inl ⟨a, v, hm, hv⟩)))
      (fun a k hm => by
        have : Child h0 i k := (hc.child i k).1 (Or.inl ⟨a, hm⟩)
        exact ⟨hch k this, nr k this⟩)
    rw [visit, e1]
    simp only
    have gi : g i = (h0 i).restored := by
      rw [e3, ← hc i]
      rfl
    cases hst : (h i).steps with
    | none =>
      simp only
      congr 1
      funext j
      by_cases hj : j = i
      · subst hj
        rw [gi]
        unfold mark
        rw [if_pos (show Reach h0 j j from .refl)]
      · rw [e4 j hj]
        have : (∃ a k, (a, Attr.object k) ∈ (h i).attrs ∧ Reach h0 k j) ↔ Reach h0 i j := by
          rw [reach_iff (i := i)]
          constructor
          · rintro ⟨a, k, hm, hr⟩
            exact Or.inr ⟨k, (hc.child i k).1 (Or.inl ⟨a, hm⟩), hr⟩
          · rintro (e | ⟨k, hk, hr⟩)
            · exact absurd e hj
            · rcases (hc.child i k).2 hk with ⟨a, hm⟩ | ⟨js, hjs, -⟩
              · exact ⟨a, k, hm, hr⟩
              · rw [hst] at hjs; cases hjs
        unfold mark
        by_cases hr : Reach h0 i j
        · rw [if_pos hr, if_pos (this.2 hr)]
        · rw [if_neg hr, if_neg (fun h => hr (this.1 h))]
    | some js =>
      simp only
      have hcs : ∀ k ∈ js, Child h0 i k := fun k hk => (hc.child i k).1 (Or.inr ⟨js, hst, hk⟩)
      rw [visitSteps_safe ih js g e2 (fun k hk => hch k (hcs k hk))]
      simp only
      have hni : ¬ ∃ k ∈ js, Reach h0 k i := by
        rintro ⟨k, hk, hr⟩
        exact nr k (hcs k hk) hr
      have hgi : mark h0 (fun j => ∃ k ∈ js, Reach h0 k j) g i = (h0 i).restored := by
        unfold mark
        rw [if_neg hni, gi]
      have hlk : (h0 i).locked = none := hw (Or.inr (by rw [← hc.steps, hst]; rfl))
      rw [hgi]
      have : (h0 i).restored.locked = none := hlk
      rw [this]
      simp only
      congr 1
      funext j
      by_cases hj : j = i
      · subst hj
        rw [hgi]
        unfold mark
        rw [if_pos (show Reach h0 j j from .refl)]
      · unfold mark at e4 ⊢
        rw [e4 j hj]
        by_cases h1 : ∃ k ∈ js, Reach h0 k j
        · obtain ⟨k, hk, hr⟩ := h1
          rw [if_pos ⟨k, hk, hr⟩, if_pos (show Reach h0 i j from .head (hcs k hk) hr)]
        · rw [if_neg h1]
          by_cases h2 : ∃ a k, (a, Attr.object k) ∈ (h i).attrs ∧ Reach h0 k j
          · obtain ⟨a, k, hm, hr⟩ := h2
            rw [if_pos ⟨a, k, hm, hr⟩, 
              if_pos (show Reach h0 i j from .head ((hc.child i k).1 (Or.inl ⟨a, hm⟩)) hr)]
          · rw [if_neg h2, if_neg]
            rw [reach_iff]
            rintro (e | ⟨k, hk, hr⟩)
            · exact hj e
            · rcases (hc.child i k).2 hk with ⟨a, hm⟩ | ⟨js', hjs, hk'⟩
              · exact h2 ⟨a, k, hm, hr⟩
              · rw [hst] at hjs
                obtain rfl := Option.some.inj hjs
                exact h1 ⟨k, hk', hr⟩

/-! ### success implies safety -/

theorem conv_setAttr {h0 h h' : Heap} {i : Nat} {a : String} {v : Attr} (e : setAttr h i a v = .ok h')
    (hc : Conv h0 h) : (h i).locked = none ∧ ((∀ w, assocSet a v (h i).attrs = w →
      ({ h i with attrs := w } : HObj).restored = (h i).restored) → Conv h0 h') := by
  obtain ⟨h1, rfl⟩ := setAttr_ok e
  refine ⟨h1, fun hk j => ?_⟩
  by_cases hj : j = i
  · subst hj
    simp only [if_true]
    rw [hk _ rfl]
    exact hc j
  · simp only [if_neg hj]
    exact hc j

theorem visitAttrs_ok {h0 : Heap} {n : Nat}
    (hv : ∀ i h, Conv h0 h → Safe h0 n i → visit n h i = .ok (mark h0 (Reach h0 i) h))
    (hv' : ∀ i h h', Conv h0 h → visit n h i = .ok h' → Safe h0 n i)
    (i : Nat) (l : List (String × Attr)) : ∀ (pre : List (String × Attr)) (g g' : Heap), Conv h0 g →
      (g i).restored.attrs = (pre ++ l).map (fun p => (p.1, p.2.restored)) → ((pre ++ l).map Prod.fst).Nodup →
      visitAttrs (visit n) i l g = .ok g' →
      Conv h0 g' ∧ ((∃ a v, (a, v) ∈ l ∧ v ≠ Attr.plain) → (h0 i).locked = none) ∧
        (∀ a k, (a, Attr.object k) ∈ l → Safe h0 n k) := by
  induction l with
  | nil =>
    intro pre g g' hc _ _ h
    obtain rfl := Except.ok.inj h
    exact ⟨hc, by simp, by simp⟩
  | cons p l ih =>
    intro pre g g' hc ha hn h
    obtain ⟨a, v⟩ := p
    have hpre : a ∉ pre.map Prod.fst := by
      rw [List.map_append, List.map_cons] at hn
      intro hm
      exact (List.nodup_append.1 hn).2.2 a hm a (by simp) rfl
    -- writing a value that restores to the one that is there keeps everything restorable
    have keep : ∀ (g1 : Heap) (w : Attr), Conv h0 g1 → w.restored = v.restored →
        ({ g1 i with attrs := assocSet a w (g1 i).attrs } : HObj).restored = (g1 i).restored := by
      intro g1 w hc1 hw
      have hr : (g1 i).restored.attrs = (pre ++ (a, v) :: l).map (fun p => (p.1, p.2.restored)) := by
        rw [hc1 i, ← hc i]; exact ha
      rw [List.map_append, List.map_cons] at hr
      change (g1 i).attrs.map _ = _ at hr
      obtain ⟨l1, l2, e0, e1, e2⟩ := List.map_eq_append_iff.1 hr
      obtain ⟨q, l3, e3, e4, e5⟩ := List.map_eq_cons_iff.1 e2
      obtain ⟨b, x⟩ := q
      obtain ⟨rfl, hx⟩ := Prod.mk.inj e4
      have hb : b ∉ l1.map Prod.fst := by
        have : l1.map Prod.fst = pre.map Prod.fst := by
          have := congrArg (List.map Prod.fst) e1
          simpa [List.map_map, Function.comp_def] using this
        rw [this]
        exact hpre
      unfold HObj.restored
      rw [e0, e3]
      simp only [assocSet_mid hb, List.map_append, List.map_cons, HObj.mk.injEq, and_true]
      simp only at hx
      rw [hw, ← hx]
    have cont : ∀ (g1 : Heap) (w : Attr), Conv h0 g1 → w.restored = v.restored →
        (match setAttr g1 i a w with
            | .error e => .error e
            | .ok h => visitAttrs (visit n) i l h) = Except.ok g' →
        (h0 i).locked = none ∧ Conv h0 g' ∧ (∀ a k, (a, Attr.object k) ∈ l → Safe h0 n k) := by
      intro g1 w hc1 hw hh
      split at hh
      · cases hh
      · rename_i g2 hset
        obtain ⟨c1, c2⟩ := conv_setAttr hset hc1
        have hc2 : Conv h0 g2 := c2 (fun w' e => by rw [← e]; exact keep g1 w hc1 hw)
        obtain ⟨r1, -, r3⟩ := ih (pre ++ [(a, v)]) g2 g' hc2
          (by rw [hc2 i, ← hc i, ha]; simp) (by simpa using hn) hh
        exact ⟨by rw [← hc1.locked]; exact c1, r1, r3⟩
    cases v with
    | plain =>
      rw [visitAttrs] at h
      obtain ⟨r1, r2, r3⟩ := ih (pre ++ [(a, Attr.plain)]) g g' hc (by simpa using ha) (by simpa using hn) h
      refine ⟨r1, fun ⟨b, v, hm, hv⟩ => ?_, fun b k hm => ?_⟩
      · rcases List.mem_cons.1 hm with e | hm
        · exact absurd (Prod.mk.inj e).2 hv
        · exact r2 ⟨b, v, hm, hv⟩
      · rcases List.mem_cons.1 hm with e | hm
        · cases (Prod.mk.inj e).2
        · exact r3 b k hm
    | refDict m =>
      rw [visitAttrs] at h
      obtain ⟨r1, r2, r3⟩ := cont g (.reference m) hc rfl h
      refine ⟨r2, fun _ => r1, fun b k hm => ?_⟩
      rcases List.mem_cons.1 hm with e | hm
      · cases (Prod.mk.inj e).2
      · exact r3 b k hm
    | reference m =>
      rw [visitAttrs] at h
      obtain ⟨r1, r2, r3⟩ := cont g _ hc rfl h
      refine ⟨r2, fun _ => r1, fun b k hm => ?_⟩
      rcases List.mem_cons.1 hm with e | hm
      · cases (Prod.mk.inj e).2
      · exact r3 b k hm
    | object k0 =>
      rw [visitAttrs] at h
      split at h
      · cases h
      · rename_i g1 hg1
        have sk := hv' k0 g g1 hc hg1
        have hc1 : Conv h0 g1 := by
          rw [hv k0 g hc sk] at hg1
          obtain rfl := Except.ok.inj hg1
          exact mark_conv hc _
        obtain ⟨r1, r2, r3⟩ := cont g1 _ hc1 rfl h
        refine ⟨r2, fun _ => r1, fun b k hm => ?_⟩
        rcases List.mem_cons.1 hm with e | hm
        · obtain rfl := Attr.object.inj (Prod.mk.inj e).2
          exact sk
        · exact r3 b k hm

theorem visitSteps_ok {h0 : Heap} {n : Nat}
    (hv : ∀ i h, Conv h0 h → Safe h0 n i → visit n h i = .ok (mark h0 (Reach h0 i) h))
    (hv' : ∀ i h h', Conv h0 h → visit n h i = .ok h' → Safe h0 n i) (js : List Nat) :
    ∀ g g', Conv h0 g → visitSteps (visit n) js g = .ok g' → Conv h0 g' ∧ ∀ k ∈ js, Safe h0 n k := by
  induction js with
  | nil =>
    intro g g' hc h
    obtain rfl := Except.ok.inj h
    exact ⟨hc, by simp⟩
  | cons k js ih =>
    intro g g' hc h
    rw [visitSteps] at h
    split at h
    · cases h
    · rename_i g1 hg1
      have sk := hv' k g g1 hc hg1
      have hc1 : Conv h0 g1 := by
        rw [hv k g hc sk] at hg1
        obtain rfl := Except.ok.inj hg1
        exact mark_conv hc _
      obtain ⟨r1, r2⟩ := ih g1 g' hc1 h
      refine ⟨r1, fun x hx => ?_⟩
      rcases List.mem_cons.1 hx with rfl | hx
      · exact sk
      · exact r2 x hx

theorem visit_ok {h0 : Heap} (hu : UniqueAttrs h0) (n : Nat) : ∀ i h h', Conv h0 h → visit n h i = .ok h' → Safe h0 n i := by
  induction n with
  | zero => intro i h h' _ he; cases he
  | succ n ih =>
    intro i h h' hc he
    rw [visit] at he
    split at he
    · cases he
    · rename_i g hg
      obtain ⟨a1, a2, a3⟩ := visitAttrs_ok (visit_safe hu n) ih i (h i).attrs [] h g hc rfl
        (by rw [List.nil_append, hc.names]; exact hu i) hg
      cases hst : (h i).steps with
      | none =>
        refine ⟨fun hw => ?_, fun j hj => ?_⟩
        · rcases (hc.written i).2 hw with h1 | h1
          · exact a2 h1
          · rw [hst] at h1; cases h1
        · rcases (hc.child i j).2 hj with ⟨a, hm⟩ | ⟨js, hjs, -⟩
          · exact a3 a j hm
          · rw [hst] at hjs; cases hjs
      | some js =>
        rw [hst] at he
        simp only at he
        split at he
        · cases he
        · rename_i g2 hg2
          obtain ⟨b1, b2⟩ := visitSteps_ok (visit_safe hu n) ih js g g2 a1 hg2
          split at he
          · cases he
          · rename_i hl
            refine ⟨fun _ => by rw [← b1.locked]; exact hl, fun j hj => ?_⟩
            rcases (hc.child i j).2 hj with ⟨a, hm⟩ | ⟨js', hjs, hm⟩
            · exact a3 a j hm
            · rw [hst] at hjs
              obtain rfl := Option.some.inj hjs
              exact b2 j hm

end Serial
end Verif
