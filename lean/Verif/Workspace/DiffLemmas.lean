import Verif.Workspace.DiffSpec
import Verif.Workspace.Lemmas2

/-!
# Lemmas about `causy workspace diff`
-/

namespace Verif
namespace Workspace
open Serial (REdge)
variable {O C μ : Type}

/-- two names in order -/
def ordered (a b : String) : String × String := if a ≤ b then (a, b) else (b, a)

theorem sortedNames_eq (e : REdge μ) : sortedNames e = ordered e.u.name e.v.name := rfl

theorem ordered_comm (a b : String) : ordered a b = ordered b a := by
  unfold ordered
  by_cases h1 : a ≤ b
  · by_cases h2 : b ≤ a
    · rw [if_pos h1, if_pos h2, le_antisymm h1 h2]
    · rw [if_pos h1, if_neg h2]
  · rw [if_neg h1, if_pos (le_of_not_ge h1)]

theorem ordered_eq_iff (a b c d : String) : ordered a b = ordered c d ↔ (a = c ∧ b = d) ∨ (a = d ∧ b = c) := by
  constructor
  · unfold ordered
    intro h
    split at h <;> split at h <;> simp only [Prod.mk.injEq] at h <;> tauto
  · rintro (⟨rfl, rfl⟩ | ⟨rfl, rfl⟩)
    · rfl
    · exact ordered_comm _ _

theorem joins_iff (e : REdge μ) (a b : String) : Joins e a b ↔ sortedNames e = ordered a b := by
  rw [sortedNames_eq, ordered_eq_iff]
  rfl

theorem ordered_self (e : REdge μ) : ordered (sortedNames e).1 (sortedNames e).2 = sortedNames e := by
  rw [sortedNames_eq]
  unfold ordered
  by_cases h : e.u.name ≤ e.v.name
  · rw [if_pos h, if_pos h]
  · rw [if_neg h, if_pos (le_of_not_ge h)]

/-- the row of a pair of names -/
def cellRow (t : Table μ) (k : String × String) : Option (Dict String (REdge μ)) := (t.get? k.1).bind (fun s => s.get? k.2)

/-- the edge of a label in a row -/
def cell (t : Table μ) (k : String × String) (l : String) : Option (REdge μ) := (cellRow t k).bind (fun r => r.get? l)

theorem cell_addEdge (f : Found μ) (p : String × REdge μ) :
    (∀ k l, cell (addEdge f p).table k l = (cell f.table k l).or (if p.1 = l ∧ sortedNames p.2 = k then some p.2 else none)) ∧
    (∀ k, (cellRow (addEdge f p).table k).isSome ↔ (cellRow f.table k).isSome ∨ sortedNames p.2 = k) ∧
    (addEdge f p).warnings = f.warnings ++ (match cell f.table (sortedNames p.2) p.1 with
      | some e => if e.eq p.2 = false then [(p.1, sortedNames p.2)] else []
      | none => []) := by
  obtain ⟨lab, e⟩ := p
  generalize hk : sortedNames e = uv
  obtain ⟨u, v⟩ := uv
  have hcell : cell f.table (u, v) lab = ((((f.table.get? u).getD Dict.empty).get? v).getD Dict.empty).get? lab := by
    unfold cell cellRow
    cases h1 : f.table.get? u with
    | none => simp
    | some s =>
      simp only [Option.bind_some, Option.getD_some]
      cases h2 : s.get? v with
      | none => simp
      | some r => simp
  unfold addEdge
  simp only [hk]
  cases hr : ((((f.table.get? u).getD Dict.empty).get? v).getD Dict.empty).get? lab with
  | some x =>
    simp only
    have htab : ∀ {c : Prop} [Decidable c] (ws : List (String × String × String)),
        (if c then { f with warnings := ws } else f).table = f.table := by
      intro c _ ws; split <;> rfl
    rw [hcell, hr]
    refine ⟨fun k l => ?_, fun k => ?_, ?_⟩
    · rw [htab]
      by_cases h : lab = l ∧ (u, v) = k
      · obtain ⟨rfl, rfl⟩ := h
        rw [hcell, hr]; rfl
      · rw [if_neg h, Option.or_none]
    · rw [htab]
      refine ⟨Or.inl, fun h => h.elim id fun h => ?_⟩
      subst h
      have : (cell f.table (u, v) lab).isSome := by rw [hcell, hr]; rfl
      unfold cell at this
      cases hc : cellRow f.table (u, v) with
      | none => rw [hc] at this; cases this
      | some _ => rfl
    · split <;> simp_all
  | none =>
    simp only
    have hrow : ∀ k, cellRow (f.table.set u (((f.table.get? u).getD Dict.empty).set v
        (((((f.table.get? u).getD Dict.empty).get? v).getD Dict.empty).set lab e))) k =
        if (u, v) = k then some (((((f.table.get? u).getD Dict.empty).get? v).getD Dict.empty).set lab e)
        else cellRow f.table k := by
      rintro ⟨a, b⟩
      unfold cellRow
      simp only [Dict.get?_set, Prod.mk.injEq]
      by_cases ha : u = a
      · subst ha
        simp only [if_true, Option.bind_some, true_and, Dict.get?_set]
        by_cases hb : v = b
        · simp [hb]
        · rw [if_neg hb, if_neg hb]
          cases f.table.get? u <;> simp
      · rw [if_neg ha, if_neg (fun h => ha h.1)]
    refine ⟨fun k l => ?_, fun k => ?_, ?_⟩
    · unfold cell at hcell ⊢
      rw [hrow]
      by_cases hkk : (u, v) = k
      · subst hkk
        rw [if_pos rfl, Option.bind_some, Dict.get?_set]
        by_cases hl : lab = l
        · subst hl
          rw [if_pos rfl, if_pos ⟨rfl, rfl⟩, hcell, hr]; rfl
        · rw [if_neg hl, if_neg (fun h => hl h.1), Option.or_none]
          unfold cellRow
          cases h1 : f.table.get? u with
          | none => simp
          | some s =>
            simp only [Option.bind_some, Option.getD_some]
            cases h2 : s.get? v with
            | none => simp
            | some r => simp
      · rw [if_neg hkk, if_neg (fun h => hkk h.2), Option.or_none]
    · rw [hrow]
      by_cases hkk : (u, v) = k
      · rw [if_pos hkk]; simp [hkk]
      · rw [if_neg hkk]; simp [hkk]
    · rw [hcell, hr]; simp

theorem eq_self (e : REdge μ) : e.eq e = true := by
  unfold REdge.eq Serial.EType.eq REdge.sameNodes
  simp

/-- the table after all edges -/
theorem collect_spec (ps : List (String × REdge μ)) :
    (∀ k l, cell (ps.foldl addEdge ⟨Dict.empty, []⟩).table k l =
      (ps.find? (fun p => p.1 = l ∧ sortedNames p.2 = k)).map Prod.snd) ∧
    (∀ k, (cellRow (ps.foldl addEdge ⟨Dict.empty, []⟩).table k).isSome ↔ ∃ p ∈ ps, sortedNames p.2 = k) ∧
    (∀ l k, (l, k) ∈ (ps.foldl addEdge ⟨Dict.empty, []⟩).warnings ↔
      ∃ p ∈ ps, p.1 = l ∧ sortedNames p.2 = k ∧ ∃ e, (ps.find? (fun p => p.1 = l ∧ sortedNames p.2 = k)).map Prod.snd = some e ∧
        e.eq p.2 = false) := by
  induction ps using List.reverseRecOn with
  | nil =>
    refine ⟨fun k l => rfl, fun k => ?_, fun l k => ?_⟩
    · simp [cellRow]
    · simp
  | append_singleton ps p ih =>
    obtain ⟨h1, h2, h3⟩ := ih
    rw [List.foldl_append, List.foldl_cons, List.foldl_nil]
    obtain ⟨g1, g2, g3⟩ := cell_addEdge (ps.foldl addEdge ⟨Dict.empty, []⟩) p
    have hfind : ∀ l k, ((ps ++ [p]).find? (fun p => p.1 = l ∧ sortedNames p.2 = k)).map Prod.snd =
        ((ps.find? (fun p => p.1 = l ∧ sortedNames p.2 = k)).map Prod.snd).or
          (if p.1 = l ∧ sortedNames p.2 = k then some p.2 else none) := by
      intro l k
      rw [List.find?_append, List.find?_singleton]
      cases ps.find? (fun p => p.1 = l ∧ sortedNames p.2 = k) with
      | some q => rfl
      | none => by_cases h : p.1 = l ∧ sortedNames p.2 = k <;> simp [h]
    have hsome : ∀ q ∈ ps, ∀ l k, q.1 = l → sortedNames q.2 = k →
        ∃ e, (ps.find? (fun p => p.1 = l ∧ sortedNames p.2 = k)).map Prod.snd = some e := by
      intro q hq l k e1 e2
      cases hf : ps.find? (fun p => p.1 = l ∧ sortedNames p.2 = k) with
      | some r => exact ⟨_, rfl⟩
      | none =>
        rw [List.find?_eq_none] at hf
        exact absurd (by simp [e1, e2]) (hf q hq)
    refine ⟨fun k l => ?_, fun k => ?_, fun l k => ?_⟩
    · rw [g1, h1, hfind]
    · rw [g2, h2]
      constructor
      · rintro (⟨q, hq, e⟩ | e)
        · exact ⟨q, by simp [hq], e⟩
        · exact ⟨p, by simp, e⟩
      · rintro ⟨q, hq, e⟩
        rcases List.mem_append.1 hq with hq | hq
        · exact Or.inl ⟨q, hq, e⟩
        · exact Or.inr ((List.mem_singleton.1 hq) ▸ e)
    · rw [g3, List.mem_append, h3, h1, hfind]
      constructor
      · rintro (⟨q, hq, e1, e2, e, he, hne⟩ | h)
        · exact ⟨q, by simp [hq], e1, e2, e, by rw [he]; rfl, hne⟩
        · cases hc : (ps.find? (fun q => q.1 = p.1 ∧ sortedNames q.2 = sortedNames p.2)).map Prod.snd with
          | none => rw [hc] at h; cases h
          | some e =>
            rw [hc] at h
            simp only at h
            split at h
            · rename_i hne
              rw [List.mem_singleton, Prod.mk.injEq] at h
              obtain ⟨rfl, rfl⟩ := h
              exact ⟨p, by simp, rfl, rfl, e, by rw [hc]; rfl, hne⟩
            · cases h
      · rintro ⟨q, hq, e1, e2, e, he, hne⟩
        rcases List.mem_append.1 hq with hq | hq
        · obtain ⟨e', he'⟩ := hsome q hq l k e1 e2
          rw [he'] at he
          cases he
          exact Or.inl ⟨q, hq, e1, e2, _, he', hne⟩
        · rw [List.mem_singleton] at hq
          subst hq
          subst e1
          subst e2
          cases hc : (ps.find? (fun p => p.1 = q.1 ∧ sortedNames p.2 = sortedNames q.2)).map Prod.snd with
          | none =>
            rw [hc, if_pos ⟨rfl, rfl⟩] at he
            cases he
            rw [eq_self] at hne
            cases hne
          | some e' =>
            rw [hc] at he
            cases he
            exact Or.inr (by simp [hne])

/-- the rows of the table -/
theorem tableRows_spec (t : Table μ) :
    (∀ k r, (k, r) ∈ tableRows t ↔ cellRow t k = some r) ∧ ((tableRows t).map Prod.fst).Nodup := by
  constructor
  · rintro ⟨a, b⟩ r
    unfold tableRows cellRow
    rw [List.mem_flatMap]
    constructor
    · rintro ⟨⟨u, s⟩, h1, h2⟩
      rw [List.mem_map] at h2
      obtain ⟨⟨v, r'⟩, h3, h4⟩ := h2
      simp only [Prod.mk.injEq] at h4
      obtain ⟨⟨rfl, rfl⟩, rfl⟩ := h4
      rw [(Dict.mem_items_iff _ _ _).1 h1, Option.bind_some]
      exact (Dict.mem_items_iff _ _ _).1 h3
    · intro h
      cases h1 : t.get? a with
      | none => simp only [h1] at h; cases h
      | some s =>
        simp only [h1, Option.bind_some] at h
        exact ⟨(a, s), (Dict.mem_items_iff _ _ _).2 h1, List.mem_map.2 ⟨(b, r), (Dict.mem_items_iff _ _ _).2 h, rfl⟩⟩
  · unfold tableRows
    have hn := t.nodup
    generalize t.items = l at hn
    induction l with
    | nil => simp
    | cons p l ih =>
      rw [List.map_cons, List.nodup_cons] at hn
      rw [List.flatMap_cons, List.map_append, List.nodup_append]
      refine ⟨?_, ih hn.2, ?_⟩
      · rw [List.map_map]
        have : (p.2.items.map Prod.fst).Nodup := p.2.nodup
        have h2 := this.map (f := fun v => (p.1, v)) (fun a b h => by simpa using h)
        rw [List.map_map] at h2
        exact h2
      · rintro x hx y hy rfl
        rw [List.mem_map] at hx hy
        obtain ⟨q, hq, rfl⟩ := hx
        obtain ⟨q', hq', he⟩ := hy
        rw [List.mem_map] at hq
        obtain ⟨z, -, rfl⟩ := hq
        rw [List.mem_flatMap] at hq'
        obtain ⟨p', hp', hq'⟩ := hq'
        rw [List.mem_map] at hq'
        obtain ⟨z', -, rfl⟩ := hq'
        simp only [Prod.mk.injEq] at he
        exact hn.1 (by rw [← he.1]; exact List.mem_map_of_mem hp')

/-- the keys of a row, as a place to look something up -/
theorem findSome_set {α β : Type} (g : String → Option β) (labels : List String) (x : α) (d : Dict String α) :
    (labels.foldl (fun d l => d.set l x) d).keys.findSome? g = (d.keys ++ labels).findSome? g := by
  induction labels generalizing d with
  | nil => simp
  | cons l ls ih =>
    rw [List.foldl_cons, ih]
    by_cases hl : l ∈ d.keys
    · rw [Dict.keys_set_of_mem _ _ _ hl, List.findSome?_append, List.findSome?_append, List.findSome?_cons]
      cases hk : d.keys.findSome? g with
      | some b => rfl
      | none =>
        rw [List.findSome?_eq_none_iff] at hk
        rw [hk l hl]
    · rw [Dict.keys_set_of_not_mem _ _ _ hl, List.append_assoc, List.singleton_append]

theorem get_setAll {α : Type} (labels : List String) (x : α) (d : Dict String α) (l : String) :
    (labels.foldl (fun d l => d.set l x) d).get? l = if l ∈ labels then some x else d.get? l := by
  induction labels generalizing d with
  | nil => simp
  | cons a ls ih =>
    rw [List.foldl_cons, ih, Dict.get?_set]
    by_cases h1 : l ∈ ls
    · simp [h1]
    · by_cases h2 : a = l
      · simp [h2]
      · have : l ≠ a := fun h => h2 h.symm
        simp [h1, h2, this]

theorem fill_spec {α : Type} (items : List (String × α)) (hn : (items.map Prod.fst).Nodup) (d : Dict String (Option α))
    (hk : ∀ p ∈ items, p.1 ∈ d.keys) :
    (items.foldl (fun d p => d.set p.1 (some p.2)) d).keys = d.keys ∧
    ∀ l, (items.foldl (fun d p => d.set p.1 (some p.2)) d).get? l =
      match assoc l items with
      | some e => some (some e)
      | none => d.get? l := by
  induction items generalizing d with
  | nil => exact ⟨rfl, fun l => rfl⟩
  | cons p ps ih =>
    rw [List.map_cons, List.nodup_cons] at hn
    have hd : (d.set p.1 (some p.2)).keys = d.keys := Dict.keys_set_of_mem _ _ _ (hk p (by simp))
    obtain ⟨h1, h2⟩ := ih hn.2 (d.set p.1 (some p.2)) (fun q hq => by rw [hd]; exact hk q (by simp [hq]))
    rw [List.foldl_cons]
    refine ⟨h1.trans hd, fun l => ?_⟩
    rw [h2 l, Dict.get?_set]
    obtain ⟨a, e⟩ := p
    by_cases ha : a = l
    · subst ha
      have : assoc a ps = none := (assoc_eq_none_iff a ps).2 hn.1
      rw [this]
      simp [assoc]
    · simp [assoc, ha]

/-- one row of the table as a dictionary -/
theorem tableRow_spec (labels : List String) (r : Dict String (REdge μ)) (hr : ∀ l, (r.get? l).isSome → l ∈ labels) :
    (∀ l, (tableRow labels r).get? l = if l ∈ labels then some (r.get? l) else none) ∧
    (tableRow labels r).keys.findSome? (fun l => r.get? l) = labels.findSome? (fun l => r.get? l) := by
  unfold tableRow
  obtain ⟨h1, h2⟩ := fill_spec r.items r.nodup (labels.foldl (fun d l => d.set l none) Dict.empty) (fun p hp => by
    rw [Dict.mem_keys_iff, get_setAll, if_pos]
    · rfl
    · have := (Dict.mem_items_iff r p.1 p.2).1 hp
      exact hr _ (by rw [this]; rfl))
  constructor
  · intro l
    rw [h2, get_setAll]
    have ha : assoc l r.items = r.get? l := rfl
    rw [ha]
    cases hx : r.get? l with
    | some e => simp [hr l (by rw [hx]; rfl)]
    | none => rfl
  · rw [h1, findSome_set]
    rfl

theorem findSome_map {α β γ : Type} (f : α → β) (g : β → Option γ) (l : List α) :
    (l.map f).findSome? g = l.findSome? (fun x => g (f x)) := by
  induction l with
  | nil => rfl
  | cons a l ih => rw [List.map_cons, List.findSome?_cons, List.findSome?_cons, ih]

/-- whether a row agrees: all labels have an edge equal to the first -/
def rowSame (labels : List String) (r : Dict String (REdge μ)) : Bool :=
  labels.all (fun l => cellEq (r.get? l) (labels.findSome? (fun l => r.get? l)))

/-- the row as printed -/
def rowOf (labels : List String) (only : Bool) (r : Dict String (REdge μ)) : Option (DiffRow μ) :=
  if only && rowSame labels r then none
  else (labels.findSome? (fun l => r.get? l)).map
    (fun e => ⟨(e.u.name, e.v.name), labels.map (fun l => r.get? l), rowSame labels r⟩)

theorem printRow_spec (labels : List String) (only : Bool) (r : Dict String (REdge μ))
    (hr : ∀ l, (r.get? l).isSome → l ∈ labels) (hne : ∃ l, (r.get? l).isSome) :
    printRow labels only (tableRow labels r) = .ok (rowOf labels only r) := by
  obtain ⟨h1, h2⟩ := tableRow_spec labels r hr
  have hitems : ∀ p ∈ (tableRow labels r).items, p.1 ∈ labels ∧ p.2 = r.get? p.1 := by
    rintro ⟨a, x⟩ hp
    rw [Dict.mem_items_iff, h1] at hp
    split at hp
    · cases hp; exact ⟨by assumption, rfl⟩
    · cases hp
  have hfirst : firstElement ((tableRow labels r).items.map Prod.snd) = labels.findSome? (fun l => r.get? l) := by
    unfold firstElement
    rw [findSome_map, ← h2]
    unfold Dict.keys
    rw [findSome_map]
    have : ∀ l : List (String × Option (REdge μ)), (∀ p ∈ l, p.2 = r.get? p.1) →
        l.findSome? (fun x => id x.2) = l.findSome? (fun x => r.get? x.1) := by
      intro l hl
      induction l with
      | nil => rfl
      | cons a l ih =>
        rw [List.findSome?_cons, List.findSome?_cons, ih (fun p hp => hl p (by simp [hp])), ← hl a (by simp)]
        rfl
    exact this _ (fun p hp => (hitems p hp).2)
  have hsame : ((tableRow labels r).items.map Prod.snd).all
      (fun e => cellEq e (labels.findSome? (fun l => r.get? l))) = rowSame labels r := by
    rw [Bool.eq_iff_iff]
    unfold rowSame
    rw [List.all_eq_true, List.all_eq_true]
    constructor
    · intro h l hl
      refine h _ (List.mem_map.2 ⟨(l, r.get? l), ?_, rfl⟩)
      rw [Dict.mem_items_iff, h1, if_pos hl]
    · intro h x hx
      rw [List.mem_map] at hx
      obtain ⟨p, hp, rfl⟩ := hx
      obtain ⟨h3, h4⟩ := hitems p hp
      rw [h4]
      exact h _ h3
  unfold printRow rowOf
  simp only [hfirst, hsame]
  split
  · rfl
  · cases hf : labels.findSome? (fun l => r.get? l) with
    | none =>
      rw [List.findSome?_eq_none_iff] at hf
      obtain ⟨l, hl⟩ := hne
      rw [hf l (hr l hl)] at hl
      cases hl
    | some e =>
      simp only [Option.map_some]
      rw [if_pos]
      · congr 3
        apply List.map_congr_left
        intro l hl
        rw [h1, if_pos hl]
        rfl
      · rw [List.all_eq_true]
        intro l hl
        rw [Dict.has, h1, if_pos hl]
        rfl

theorem printRows_spec (labels : List String) (only : Bool) (l : List ((String × String) × Dict String (REdge μ)))
    (hl : ∀ x ∈ l, (∀ a, (x.2.get? a).isSome → a ∈ labels) ∧ ∃ a, (x.2.get? a).isSome) :
    printRows labels only l = .ok (l.filterMap (fun x => rowOf labels only x.2)) := by
  induction l with
  | nil => rfl
  | cons x l ih =>
    obtain ⟨h1, h2⟩ := hl x (by simp)
    rw [printRows, printRow_spec labels only x.2 h1 h2, ih (fun y hy => hl y (by simp [hy]))]
    simp only
    rw [List.filterMap_cons]
    cases rowOf labels only x.2 <;> rfl

/-- the pairs of labels and edges -/
def flat (xs : List (Compared μ)) : List (String × REdge μ) := xs.flatMap (fun x => x.2.map (fun e => (x.1, e)))

theorem mem_flat (xs : List (Compared μ)) (l : String) (e : REdge μ) : (l, e) ∈ flat xs ↔ ∃ x ∈ xs, x.1 = l ∧ e ∈ x.2 := by
  unfold flat
  rw [List.mem_flatMap]
  constructor
  · rintro ⟨x, hx, h⟩
    rw [List.mem_map] at h
    obtain ⟨e', he, h⟩ := h
    simp only [Prod.mk.injEq] at h
    exact ⟨x, hx, h.1, h.2 ▸ he⟩
  · rintro ⟨x, hx, rfl, he⟩
    exact ⟨x, hx, List.mem_map.2 ⟨e, he, rfl⟩⟩

/-- the first edge of a label, found in the list of pairs -/
theorem find_flat (xs : List (Compared μ)) (l a b : String) :
    ((flat xs).find? (fun p => p.1 = l ∧ sortedNames p.2 = ordered a b)).map Prod.snd = edgeOf xs l a b := by
  unfold edgeOf flat
  induction xs with
  | nil => rfl
  | cons x xs ih =>
    rw [List.flatMap_cons, List.find?_append]
    have hx : ((x.2.map (fun e => (x.1, e))).find? (fun p => p.1 = l ∧ sortedNames p.2 = ordered a b)).map Prod.snd =
        if x.1 = l then x.2.find? (fun e => Joins e a b) else none := by
      obtain ⟨lab, es⟩ := x
      simp only
      induction es with
      | nil => simp
      | cons e es ih2 =>
        rw [List.map_cons, List.find?_cons, List.find?_cons]
        by_cases h1 : lab = l
        · rw [if_pos h1] at ih2 ⊢
          by_cases h2 : Joins e a b
          · simp [h1, h2, (joins_iff e a b).1 h2]
          · have h3 : sortedNames e ≠ ordered a b := fun h => h2 ((joins_iff e a b).2 h)
            simp only [h1, h2, h3, and_false, decide_false]
            rw [← h1]
            rw [h1]
            simpa [h1] using ih2
        · rw [if_neg h1] at ih2 ⊢
          simp only [h1, false_and, decide_false]
          simp [h1]
    rw [Option.map_or, hx, ih, List.filter_cons]
    by_cases h1 : x.1 = l
    · simp only [h1, if_true, decide_true, List.flatMap_cons, List.find?_append]
    · simp only [h1, if_false, decide_false, Bool.false_eq_true, Option.none_or]

/-- the last underscore of a text -/
theorem last_underscore (s : List Char) (h : '_' ∈ s) : ∃ e r, s = e ++ '_' :: r ∧ '_' ∉ r := by
  induction s with
  | nil => cases h
  | cons c s ih =>
    by_cases hs : '_' ∈ s
    · obtain ⟨e, r, h1, h2⟩ := ih hs
      exact ⟨c :: e, r, by rw [h1]; rfl, h2⟩
    · have : c = '_' := by
        rcases List.mem_cons.1 h with h | h
        · exact h.symm
        · exact absurd h hs
      exact ⟨[], s, by rw [this]; rfl, hs⟩

/-- what `_load_experiment_result` finds in a tidy directory -/
theorem loadResult_ok (w : Ws O) (files : Files C) (e : String) (t : Int) (hw : w.experiments.has e = true)
    (ht : Tidy e.toList files.keys) :
    (∀ c, files.get? (resultName e.toList t) = some c → loadResult w files e t = .ok c) ∧
    (files.get? (resultName e.toList t) = none → loadResult w files e t = .error .valueError) := by
  obtain ⟨vs, h1, h2, -⟩ := loadVersions_ok e.toList files.keys ht files.nodup_keys
  unfold loadResult
  rw [if_neg (by simp [hw]), h1]
  constructor
  · intro c hc
    have : t ∈ vs := (h2 t).2 ((Dict.mem_keys_iff _ _).2 (by rw [hc]; rfl))
    simp only
    rw [if_neg (not_not.2 this), hc]
  · intro hc
    have : t ∉ vs := fun h => by
      have := (Dict.mem_keys_iff _ _).1 ((h2 t).1 h)
      rw [hc] at this
      cases this
    simp only
    rw [if_pos this]

/-- what `_load_latest_experiment_result` finds -/
theorem loadLatest_eq (w : Ws O) (files : Files C) (e : String) (hw : w.experiments.has e = true) :
    loadLatest w files e = latestFile e.toList files := by
  unfold loadLatest latestFile
  cases loadVersions e.toList files.keys with
  | error err => rfl
  | ok vs =>
    simp only
    rw [if_neg (by simp [hw])]
    cases vs <;> rfl

end Workspace
end Verif
