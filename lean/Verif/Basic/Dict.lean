import Mathlib.Data.List.Nodup
import Mathlib.Tactic.Tauto

/-!
# Insertion-ordered dictionaries

Model of the python `dict` type (language reference, "Mapping Types"): a finite map which iterates in
insertion order.  Assigning to a present key keeps its position, assigning to an absent key appends,
`del` removes.  This is the container behind `Graph.edges`, `Graph._reverse_edges`,
`Graph._deleted_edges` and `Graph.edge_history` (causy/graph.py:582-588).
Key uniqueness is part of the type, as in python.
-/

namespace Verif

/-- Association-list lookup. -/
def assoc {κ α : Type} [DecidableEq κ] (k : κ) : List (κ × α) → Option α
  | [] => none
  | (k', v) :: l => if k' = k then some v else assoc k l

/-- Association-list assignment: replace in place or append. -/
def assocSet {κ α : Type} [DecidableEq κ] (k : κ) (v : α) : List (κ × α) → List (κ × α)
  | [] => [(k, v)]
  | (k', v') :: l => if k' = k then (k, v) :: l else (k', v') :: assocSet k v l

/-- Association-list deletion. -/
def assocDel {κ α : Type} [DecidableEq κ] (k : κ) : List (κ × α) → List (κ × α)
  | [] => []
  | (k', v') :: l => if k' = k then l else (k', v') :: assocDel k l

section AssocLemmas
variable {κ α : Type} [DecidableEq κ]

theorem assoc_eq_none_iff (k : κ) (l : List (κ × α)) :
    assoc k l = none ↔ k ∉ l.map Prod.fst := by
  induction l with
  | nil => simp [assoc]
  | cons p l ih =>
    obtain ⟨k', v'⟩ := p
    by_cases h : k' = k
    · simp [assoc, h]
    · have h' : ¬ k = k' := fun e => h e.symm
      simpa [assoc, h, h'] using ih

theorem assoc_isSome_iff (k : κ) (l : List (κ × α)) :
    (assoc k l).isSome = true ↔ k ∈ l.map Prod.fst := by
  rw [← not_iff_not, ← assoc_eq_none_iff]
  cases assoc k l <;> simp

theorem assoc_eq_some_iff (k : κ) (v : α) (l : List (κ × α)) (hl : (l.map Prod.fst).Nodup) :
    assoc k l = some v ↔ (k, v) ∈ l := by
  induction l with
  | nil => simp [assoc]
  | cons p l ih =>
    obtain ⟨k', v'⟩ := p
    simp only [List.map_cons, List.nodup_cons] at hl
    by_cases h : k' = k
    · subst h
      have : (k', v) ∉ l := fun hm => hl.1 (List.mem_map_of_mem (f := Prod.fst) hm)
      simp only [assoc, if_true, Option.some.injEq, List.mem_cons, Prod.mk.injEq, true_and, this, or_false]
      exact eq_comm
    · have h' : ¬ k = k' := fun e => h e.symm
      simp [assoc, h, h', ih hl.2]

theorem assoc_assocSet (k k' : κ) (v : α) (l : List (κ × α)) :
    assoc k' (assocSet k v l) = if k = k' then some v else assoc k' l := by
  induction l with
  | nil => simp [assocSet, assoc]
  | cons p l ih =>
    obtain ⟨k0, v0⟩ := p
    by_cases h : k0 = k
    · subst h
      by_cases h' : k0 = k' <;> simp [assocSet, assoc, h']
    · by_cases h' : k0 = k'
      · subst h'
        have : ¬ k = k0 := fun e => h e.symm
        simp [assocSet, assoc, h, this]
      · simp [assocSet, assoc, h, h', ih]

theorem keys_assocSet_of_mem (k : κ) (v : α) (l : List (κ × α)) (h : k ∈ l.map Prod.fst) :
    (assocSet k v l).map Prod.fst = l.map Prod.fst := by
  induction l with
  | nil => simp at h
  | cons p l ih =>
    obtain ⟨k0, v0⟩ := p
    by_cases h0 : k0 = k
    · simp [assocSet, h0]
    · have h1 : ¬ k = k0 := fun e => h0 e.symm
      simp only [assocSet, h0, if_false, List.map_cons]
      rw [ih]
      simpa [h1] using h

theorem keys_assocSet_of_not_mem (k : κ) (v : α) (l : List (κ × α)) (h : k ∉ l.map Prod.fst) :
    (assocSet k v l).map Prod.fst = l.map Prod.fst ++ [k] := by
  induction l with
  | nil => simp [assocSet]
  | cons p l ih =>
    obtain ⟨k0, v0⟩ := p
    simp only [List.map_cons, List.mem_cons, not_or] at h
    have h0 : ¬ k0 = k := fun e => h.1 e.symm
    simp only [assocSet, h0, if_false, List.map_cons, List.cons_append]
    rw [ih h.2]

theorem nodup_assocSet (k : κ) (v : α) (l : List (κ × α)) (hl : (l.map Prod.fst).Nodup) :
    ((assocSet k v l).map Prod.fst).Nodup := by
  by_cases h : k ∈ l.map Prod.fst
  · rwa [keys_assocSet_of_mem k v l h]
  · rw [keys_assocSet_of_not_mem k v l h]
    rw [List.nodup_append]
    refine ⟨hl, by simp, ?_⟩
    intro a ha b hb hab
    simp only [List.mem_singleton] at hb
    subst hb; subst hab; exact h ha

theorem keys_assocDel (k : κ) (l : List (κ × α)) :
    (assocDel k l).map Prod.fst = (l.map Prod.fst).erase k := by
  induction l with
  | nil => simp [assocDel]
  | cons p l ih =>
    obtain ⟨k0, v0⟩ := p
    by_cases h0 : k0 = k
    · simp [assocDel, h0]
    · simp [assocDel, h0, ih]

theorem nodup_assocDel (k : κ) (l : List (κ × α)) (hl : (l.map Prod.fst).Nodup) :
    ((assocDel k l).map Prod.fst).Nodup := by
  rw [keys_assocDel]; exact hl.erase k

theorem assoc_assocDel (k k' : κ) (l : List (κ × α)) (hl : (l.map Prod.fst).Nodup) :
    assoc k' (assocDel k l) = if k = k' then none else assoc k' l := by
  induction l with
  | nil => simp [assocDel, assoc]
  | cons p l ih =>
    obtain ⟨k0, v0⟩ := p
    simp only [List.map_cons, List.nodup_cons] at hl
    by_cases h : k0 = k
    · subst h
      by_cases h' : k0 = k'
      · subst h'
        simp [assocDel, (assoc_eq_none_iff k0 l).2 hl.1]
      · simp [assocDel, assoc, h']
    · by_cases h' : k0 = k'
      · subst h'
        have : ¬ k = k0 := fun e => h e.symm
        simp [assocDel, assoc, h, this]
      · simp [assocDel, assoc, h, h', ih hl.2]

theorem mem_assocDel (k : κ) (p : κ × α) (l : List (κ × α)) (hl : (l.map Prod.fst).Nodup) :
    p ∈ assocDel k l ↔ p ∈ l ∧ p.1 ≠ k := by
  obtain ⟨k', v'⟩ := p
  rw [← assoc_eq_some_iff k' v' _ (nodup_assocDel k l hl), assoc_assocDel _ _ _ hl,
    ← assoc_eq_some_iff k' v' _ hl]
  by_cases h : k = k' <;> simp [h, eq_comm]

end AssocLemmas

/-- A python dictionary. -/
@[ext]
structure Dict (κ α : Type) where
  /-- the entries in insertion order -/
  items : List (κ × α)
  /-- keys are unique -/
  nodup : (items.map Prod.fst).Nodup

namespace Dict
variable {κ α : Type}

instance [DecidableEq κ] [DecidableEq α] : DecidableEq (Dict κ α) := fun a b =>
  decidable_of_iff (a.items = b.items) ⟨fun h => Dict.ext h, fun h => by rw [h]⟩

/-- `dict()` -/
def empty : Dict κ α := ⟨[], by simp⟩

/-- `list(d.keys())` in iteration order -/
def keys (d : Dict κ α) : List κ := d.items.map Prod.fst

variable [DecidableEq κ]

/-- `d.get(k)` -/
def get? (d : Dict κ α) (k : κ) : Option α := assoc k d.items

/-- `k in d` -/
def has (d : Dict κ α) (k : κ) : Bool := (d.get? k).isSome

/-- `d[k] = v` -/
def set (d : Dict κ α) (k : κ) (v : α) : Dict κ α :=
  ⟨assocSet k v d.items, nodup_assocSet k v d.items d.nodup⟩

/-- `d` after `del d[k]` (for `k in d`; without effect otherwise) -/
def del (d : Dict κ α) (k : κ) : Dict κ α :=
  ⟨assocDel k d.items, nodup_assocDel k d.items d.nodup⟩

@[simp] theorem get?_empty (k : κ) : (empty : Dict κ α).get? k = none := rfl

theorem get?_set (d : Dict κ α) (k k' : κ) (v : α) :
    (d.set k v).get? k' = if k = k' then some v else d.get? k' := assoc_assocSet _ _ _ _

@[simp] theorem get?_set_self (d : Dict κ α) (k : κ) (v : α) : (d.set k v).get? k = some v := by
  simp [get?_set]

theorem get?_del (d : Dict κ α) (k k' : κ) :
    (d.del k).get? k' = if k = k' then none else d.get? k' := assoc_assocDel _ _ _ d.nodup

omit [DecidableEq κ] in
theorem nodup_keys (d : Dict κ α) : d.keys.Nodup := d.nodup

theorem mem_keys_iff (d : Dict κ α) (k : κ) : k ∈ d.keys ↔ (d.get? k).isSome = true :=
  (assoc_isSome_iff k d.items).symm

theorem has_iff (d : Dict κ α) (k : κ) : d.has k = true ↔ k ∈ d.keys := (mem_keys_iff d k).symm

theorem has_iff_exists (d : Dict κ α) (k : κ) : d.has k = true ↔ ∃ v, d.get? k = some v := by
  simp [has, Option.isSome_iff_exists]

theorem mem_items_iff (d : Dict κ α) (k : κ) (v : α) : (k, v) ∈ d.items ↔ d.get? k = some v :=
  (assoc_eq_some_iff k v d.items d.nodup).symm

theorem keys_set_of_mem (d : Dict κ α) (k : κ) (v : α) (h : k ∈ d.keys) :
    (d.set k v).keys = d.keys := keys_assocSet_of_mem _ _ _ h

theorem keys_set_of_not_mem (d : Dict κ α) (k : κ) (v : α) (h : k ∉ d.keys) :
    (d.set k v).keys = d.keys ++ [k] := keys_assocSet_of_not_mem _ _ _ h

theorem keys_del (d : Dict κ α) (k : κ) : (d.del k).keys = d.keys.erase k := keys_assocDel _ _

theorem keys_set (d : Dict κ α) (k : κ) (v : α) :
    (d.set k v).keys = if k ∈ d.keys then d.keys else d.keys ++ [k] := by
  split
  · exact keys_set_of_mem _ _ _ ‹_›
  · exact keys_set_of_not_mem _ _ _ ‹_›

end Dict
end Verif
