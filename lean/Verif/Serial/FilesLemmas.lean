import Verif.Serial.FilesSpec
import Mathlib.Data.List.Infix

/-!
# Helper lemmas: paths
-/

namespace Verif
namespace Serial

theorem commonPrefix_eq_left (s t : List Char) : commonPrefix s t = s ↔ s <+: t := by
  induction s generalizing t with
  | nil => simp [commonPrefix]
  | cons c s ih =>
    cases t with
    | nil => simp [commonPrefix]
    | cons d t =>
      rw [commonPrefix]
      by_cases h : c = d
      · subst h
        rw [if_pos rfl, List.cons.injEq, ih, List.cons_prefix_cons]
      · rw [if_neg h, List.cons_prefix_cons]
        constructor
        · intro h'; cases h'
        · intro h'; exact absurd h'.1 h

/-- the string of a path without the special case of the root -/
def slashes (p : List (List Char)) : List Char := p.flatMap (fun x => '/' :: x)

theorem slashes_cons (c : List Char) (p : List (List Char)) : slashes (c :: p) = '/' :: c ++ slashes p := by
  rw [slashes, List.flatMap_cons]
  rfl

theorem slashes_append (p q : List (List Char)) : slashes (p ++ q) = slashes p ++ slashes q := by
  rw [slashes, List.flatMap_append]
  rfl

theorem pathText_ne_nil {p : List (List Char)} (h : p ≠ []) : pathText p = slashes p := by
  cases p with
  | nil => exact absurd rfl h
  | cons c l => rfl

/-- where a component without slash ends -/
theorem component_prefix {c d s t : List Char} (hc : '/' ∉ c) (hd : '/' ∉ d) (hs : s = [] ∨ s.head? = some '/')
    (ht : t = [] ∨ t.head? = some '/') :
    c ++ s <+: d ++ t ↔ (c = d ∧ s <+: t) ∨ (s = [] ∧ ∃ x, x ≠ [] ∧ d = c ++ x) := by
  induction c generalizing d with
  | nil =>
    cases d with
    | nil => simp
    | cons y d =>
      rw [List.nil_append]
      rcases hs with rfl | hs
      · simp
      · cases s with
        | nil => cases hs
        | cons z s =>
          have e : z = '/' := by simpa using hs
          subst e
          simp only [List.cons_append, List.cons_prefix_cons]
          constructor
          · rintro ⟨h, -⟩
            exact absurd (by simp [← h]) hd
          · rintro (⟨h, -⟩ | ⟨h, -⟩) <;> cases h
  | cons z c ih =>
    cases d with
    | nil =>
      rw [List.nil_append]
      rcases ht with rfl | ht
      · simp
      · cases t with
        | nil => cases ht
        | cons y t =>
          have e : y = '/' := by simpa using ht
          subst e
          simp only [List.cons_append, List.cons_prefix_cons]
          constructor
          · rintro ⟨h, -⟩
            exact absurd (by simp [h]) hc
          · rintro (⟨h, -⟩ | ⟨-, x, -, h⟩) <;> cases h
    | cons y d =>
      rw [List.cons_append, List.cons_append, List.cons_prefix_cons,
        ih (fun h => hc (by simp [h])) (fun h => hd (by simp [h]))]
      simp only [List.cons_append, List.cons.injEq]
      constructor
      · rintro ⟨rfl, ⟨rfl, h⟩ | ⟨h, x, hx, e⟩⟩
        · exact Or.inl ⟨⟨rfl, rfl⟩, h⟩
        · exact Or.inr ⟨h, x, hx, rfl, e⟩
      · rintro (⟨⟨rfl, rfl⟩, h⟩ | ⟨h, x, hx, rfl, e⟩)
        · exact ⟨rfl, Or.inl ⟨rfl, h⟩⟩
        · exact ⟨rfl, Or.inr ⟨h, x, hx, e⟩⟩

theorem slashes_head (p : List (List Char)) : slashes p = [] ∨ (slashes p).head? = some '/' := by
  cases p with
  | nil => exact Or.inl rfl
  | cons c p => right; rw [slashes_cons]; rfl

theorem slashes_eq_nil {p : List (List Char)} : slashes p = [] ↔ p = [] := by
  cases p with
  | nil => simp [slashes]
  | cons c p => simp [slashes_cons]

theorem slashes_prefix {d p : List (List Char)} (hd : Proper d) (hp : Proper p) :
    slashes d <+: slashes p ↔ Below d p ∨ InLongerSibling d p := by
  induction d generalizing p with
  | nil => simp [slashes, Below]
  | cons c d ih =>
    cases p with
    | nil =>
      rw [slashes_cons]
      constructor
      · intro h
        have := h.length_le
        simp [slashes] at this
      · rintro (⟨r, h⟩ | ⟨a, b, x, r, h1, h2, h3⟩)
        · cases h
        · cases a <;> cases h3
    | cons e p =>
      rw [slashes_cons, slashes_cons]
      simp only [List.cons_append]
      rw [List.cons_prefix_cons, component_prefix (hd c (by simp)).2 (hp e (by simp)).2 (slashes_head d) (slashes_head p),
        ih (fun x hx => hd x (by simp [hx])) (fun x hx => hp x (by simp [hx])), slashes_eq_nil]
      constructor
      · rintro ⟨-, ⟨rfl, ⟨r, rfl⟩ | ⟨a, b, x, r, rfl, hx, rfl⟩⟩ | ⟨rfl, x, hx, rfl⟩⟩
        · exact Or.inl ⟨r, rfl⟩
        · exact Or.inr ⟨c :: a, b, x, r, rfl, hx, rfl⟩
        · exact Or.inr ⟨[], c, x, p, rfl, hx, rfl⟩
      · rintro (⟨r, h⟩ | ⟨a, b, x, r, h1, hx, h2⟩)
        · obtain ⟨rfl, rfl⟩ := List.cons.inj h
          exact ⟨rfl, Or.inl ⟨rfl, Or.inl ⟨r, rfl⟩⟩⟩
        · cases a with
          | nil =>
            obtain ⟨rfl, rfl⟩ := List.cons.inj h1
            obtain ⟨rfl, rfl⟩ := List.cons.inj h2
            exact ⟨rfl, Or.inr ⟨rfl, x, hx, rfl⟩⟩
          | cons y a =>
            obtain ⟨rfl, rfl⟩ := List.cons.inj h1
            obtain ⟨rfl, rfl⟩ := List.cons.inj h2
            exact ⟨rfl, Or.inl ⟨rfl, Or.inr ⟨a, b, x, r, rfl, hx, rfl⟩⟩⟩

theorem pathText_prefix {d p : List (List Char)} (hd : Proper d) (hp : Proper p) :
    pathText d <+: pathText p ↔ Below d p ∨ InLongerSibling d p := by
  by_cases h : d = []
  · subst h
    constructor
    · intro _; exact Or.inl ⟨p, rfl⟩
    · intro _
      cases p with
      | nil => exact List.prefix_rfl
      | cons c p => exact ⟨c ++ slashes p, by
        rw [pathText_ne_nil (p := c :: p) (by simp), slashes_cons]; rfl⟩
  · rw [pathText_ne_nil h]
    by_cases h' : p = []
    · subst h'
      have : ¬ slashes d <+: pathText [] := by
        cases d with
        | nil => exact absurd rfl h
        | cons c d =>
          rw [slashes_cons]
          intro hh
          have h1 := hh.length_le
          have h2 := (hd c (by simp)).1
          have : c.length ≠ 0 := by simpa using h2
          simp only [pathText, List.length_cons, List.length_append, List.length_nil] at h1
          omega
      constructor
      · intro hh; exact absurd hh this
      · rintro (⟨r, hr⟩ | ⟨a, b, x, r, h1, hx, h2⟩)
        · cases d
          · exact absurd rfl h
          · cases hr
        · cases a <;> cases h2
    · rw [pathText_ne_nil h', slashes_prefix hd hp]

/-! ### references accepted by the UI -/

theorem splitSlash_ne_nil (s : List Char) : splitSlash s ≠ [] := by
  induction s with
  | nil => simp [splitSlash]
  | cons c s ih =>
    rw [splitSlash]
    split
    · simp
    · split <;> simp

theorem mem_splitSlash {s x : List Char} (h : x ∈ splitSlash s) : '/' ∉ x := by
  induction s generalizing x with
  | nil =>
    simp only [splitSlash, List.mem_singleton] at h
    simp [h]
  | cons c s ih =>
    rw [splitSlash] at h
    split at h
    · rcases List.mem_cons.1 h with rfl | h
      · simp
      · exact ih h
    · rename_i hc
      split at h
      · rename_i e
        exact absurd e (splitSlash_ne_nil s)
      · rename_i y l e
        rcases List.mem_cons.1 h with rfl | h
        · have := ih (x := y) (by rw [e]; simp)
          simp [this, Ne.symm hc]
        · exact ih (by rw [e]; simp [h])

theorem walk_proper {d : List (List Char)} (hd : Proper d) {x : List Char} (hx : '/' ∉ x) : Proper (walk d x) := by
  unfold walk
  split
  · exact hd
  · rename_i h
    split
    · exact fun c hc => hd c (List.mem_of_mem_dropLast hc)
    · intro c hc
      rcases List.mem_append.1 hc with hc | hc
      · exact hd c hc
      · rw [List.mem_singleton] at hc
        subst hc
        exact ⟨fun e => h (Or.inl e), hx⟩

theorem resolve_proper {cwd : List (List Char)} (hd : Proper cwd) (s : List Char) : Proper (resolve cwd s) := by
  unfold resolve
  have h0 : Proper (if s.head? = some '/' then [] else cwd) := by
    split
    · intro c hc; cases hc
    · exact hd
  have hs : ∀ x ∈ splitSlash s, '/' ∉ x := fun x hx => mem_splitSlash hx
  revert h0 hs
  generalize (if s.head? = some '/' then [] else cwd) = d
  generalize splitSlash s = l
  induction l generalizing d with
  | nil => intro h _; exact h
  | cons x l ih =>
    intro h0 hs
    exact ih _ (walk_proper h0 (hs x (by simp))) (fun y hy => hs y (by simp [hy]))

theorem hasDotDot_append {s : List Char} : hasDotDot s = true ↔ ∃ a b, s = a ++ '.' :: '.' :: b := by
  induction s with
  | nil => simp [hasDotDot]
  | cons c s ih =>
    constructor
    · intro h
      unfold hasDotDot at h
      split at h
      · rename_i e
        exact ⟨[], _, e⟩
      · rename_i e
        obtain ⟨rfl, rfl⟩ := List.cons.inj e
        obtain ⟨a, b, e⟩ := ih.1 h
        exact ⟨c :: a, b, by rw [e]; rfl⟩
      · cases h
    · rintro ⟨a, b, e⟩
      cases a with
      | nil =>
        rw [List.nil_append] at e
        rw [e, hasDotDot]
      | cons x a =>
        obtain ⟨rfl, e'⟩ := List.cons.inj e
        have := ih.2 ⟨a, b, e'⟩
        unfold hasDotDot
        split
        · rfl
        · rename_i e2
          rw [← (List.cons.inj e2).2]
          exact this
        · rename_i e2; cases e2

theorem dotdot_in_split {s : List Char} (h : ['.', '.'] ∈ splitSlash s) : hasDotDot s = true := by
  -- a component is a substring
  have key : ∀ s x, x ∈ splitSlash s → ∃ a b, s = a ++ x ++ b := by
    intro s
    induction s with
    | nil =>
      intro x hx
      simp only [splitSlash, List.mem_singleton] at hx
      exact ⟨[], [], by simp [hx]⟩
    | cons c s ih =>
      have key2 : ∀ y l, splitSlash s = y :: l → ∃ b, s = y ++ b := by
        intro y l e
        clear ih h
        induction s generalizing y l with
        | nil =>
          simp only [splitSlash, List.cons.injEq] at e
          exact ⟨[], by simp [← e.1]⟩
        | cons d s ih2 =>
          rw [splitSlash] at e
          split at e
          · exact ⟨d :: s, by simp [← (List.cons.inj e).1]⟩
          · split at e
            · rename_i e2; exact absurd e2 (splitSlash_ne_nil s)
            · rename_i z l' e2
              obtain ⟨b, hb⟩ := ih2 z l' e2
              exact ⟨b, by rw [← (List.cons.inj e).1, List.cons_append, ← hb]⟩
      intro x hx
      rw [splitSlash] at hx
      split at hx
      · rcases List.mem_cons.1 hx with rfl | hx
        · exact ⟨[], c :: s, rfl⟩
        · obtain ⟨a, b, e⟩ := ih x hx
          exact ⟨c :: a, b, by rw [e]; simp⟩
      · split at hx
        · rename_i e; exact absurd e (splitSlash_ne_nil s)
        · rename_i y l e
          rcases List.mem_cons.1 hx with rfl | hx
          · obtain ⟨b, hb⟩ := key2 y l e
            exact ⟨[], b, by simp [← hb]⟩
          · obtain ⟨a, b, e'⟩ := ih x (by rw [e]; simp [hx])
            exact ⟨c :: a, b, by rw [e']; simp⟩
  obtain ⟨a, b, e⟩ := key s _ h
  exact hasDotDot_append.2 ⟨a, b, by rw [e]; simp⟩

theorem walks_below (d : List (List Char)) (l : List (List Char)) (h : ['.', '.'] ∉ l) : Below d (l.foldl walk d) := by
  induction l generalizing d with
  | nil => exact ⟨[], by simp⟩
  | cons x l ih =>
    obtain ⟨r, hr⟩ := ih (walk d x) (fun hh => h (by simp [hh]))
    have hx : x ≠ ['.', '.'] := fun e => h (by simp [e])
    rw [List.foldl_cons, hr]
    unfold walk
    split
    · exact ⟨r, rfl⟩
    · exact ⟨x :: r, by simp⟩

end Serial
end Verif
