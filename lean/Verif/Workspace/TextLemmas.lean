import Verif.Workspace.Text
import Mathlib.Data.Nat.Digits.Lemmas

/-!
# Lemmas about printing, parsing and splitting
-/

namespace Verif
namespace Workspace

theorem digitVal_digitChar (d : Nat) (h : d < 10) : digitVal (digitChar d) = some d := by
  interval_cases d <;> rfl

theorem digitChar_ne (d : Nat) (h : d < 10) : digitChar d ≠ '_' ∧ digitChar d ≠ '-' ∧ digitChar d ≠ '+' ∧
    digitChar d ≠ '.' ∧ isBlank (digitChar d) = false := by
  interval_cases d <;> decide

theorem parseDigits_map (l : List Nat) (hl : ∀ d ∈ l, d < 10) (acc : Nat) (b : Bool) (hb : b = true ∨ l ≠ []) :
    parseDigits acc b (l.map digitChar) = some (l.foldl (fun a d => 10 * a + d) acc) := by
  induction l generalizing acc b with
  | nil =>
    rcases hb with rfl | h
    · rfl
    · exact absurd rfl h
  | cons d l ih =>
    have hd : d < 10 := hl d (by simp)
    rw [List.map_cons, parseDigits, if_neg (digitChar_ne d hd).1, digitVal_digitChar d hd]
    exact ih (fun x hx => hl x (by simp [hx])) _ _ (Or.inl rfl)

theorem foldl_ofDigits (l : List Nat) : l.reverse.foldl (fun a d => 10 * a + d) 0 = Nat.ofDigits 10 l := by
  induction l with
  | nil => rfl
  | cons d l ih => simp [Nat.ofDigits_cons, ih]; ring

/-- the digits of a printed number -/
theorem showNat_form (n : Nat) : ∃ l : List Nat, l ≠ [] ∧ (∀ d ∈ l, d < 10) ∧ showNat n = l.map digitChar ∧
    l.foldl (fun a d => 10 * a + d) 0 = n := by
  unfold showNat
  by_cases h : n = 0
  · subst h
    exact ⟨[0], by simp, by simp, rfl, rfl⟩
  · rw [if_neg h]
    refine ⟨(Nat.digits 10 n).reverse, ?_, ?_, rfl, ?_⟩
    · rw [Ne, List.reverse_eq_nil_iff]
      exact Nat.digits_ne_nil_iff_ne_zero.2 h
    · intro d hd
      exact Nat.digits_lt_base (by norm_num) (List.mem_reverse.1 hd)
    · rw [foldl_ofDigits, Nat.ofDigits_digits]

theorem showNat_chars (n : Nat) (c : Char) (hc : c ∈ showNat n) :
    c ≠ '_' ∧ c ≠ '-' ∧ c ≠ '+' ∧ c ≠ '.' ∧ isBlank c = false := by
  obtain ⟨l, -, h2, h3, -⟩ := showNat_form n
  rw [h3, List.mem_map] at hc
  obtain ⟨d, hd, rfl⟩ := hc
  exact digitChar_ne d (h2 d hd)

theorem showNat_ne_nil (n : Nat) : showNat n ≠ [] := by
  obtain ⟨l, h1, -, h3, -⟩ := showNat_form n
  rw [h3]; simpa using h1

theorem parseDigits_showNat (n : Nat) : parseDigits 0 false (showNat n) = some n := by
  obtain ⟨l, h1, h2, h3, h4⟩ := showNat_form n
  rw [h3, parseDigits_map l h2 0 false (Or.inr h1), h4]

theorem showInt_chars (t : Int) (c : Char) (hc : c ∈ showInt t) : c ≠ '_' ∧ c ≠ '.' ∧ isBlank c = false := by
  cases t with
  | ofNat n =>
    have := showNat_chars n c hc
    exact ⟨this.1, this.2.2.2.1, this.2.2.2.2⟩
  | negSucc n =>
    rcases List.mem_cons.1 hc with rfl | hc
    · decide
    · have := showNat_chars (n + 1) c hc
      exact ⟨this.1, this.2.2.2.1, this.2.2.2.2⟩

theorem strip_of_no_blank (s : List Char) (h : ∀ c ∈ s, isBlank c = false) : strip s = s := by
  have key : ∀ l : List Char, (∀ c ∈ l, isBlank c = false) → l.dropWhile isBlank = l := by
    intro l hl
    cases l with
    | nil => rfl
    | cons c l => rw [List.dropWhile_cons, hl c (by simp)]; rfl
  unfold strip
  rw [key s h, key s.reverse (fun c hc => h c (List.mem_reverse.1 hc)), List.reverse_reverse]

theorem strip_blanks (pre s post : List Char) (hpre : ∀ c ∈ pre, isBlank c = true) (hs : ∀ c ∈ s, isBlank c = false)
    (hpost : ∀ c ∈ post, isBlank c = true) : strip (pre ++ s ++ post) = s := by
  have drop : ∀ (l r : List Char), (∀ c ∈ l, isBlank c = true) → (l ++ r).dropWhile isBlank = r.dropWhile isBlank := by
    intro l r hl
    induction l with
    | nil => rfl
    | cons c l ih =>
      rw [List.cons_append, List.dropWhile_cons, hl c (by simp)]
      exact ih (fun c hc => hl c (List.mem_cons_of_mem _ hc))
  have keep : ∀ (l r : List Char), (∀ c ∈ l, isBlank c = false) → (∀ c ∈ r, isBlank c = true) →
      ((l ++ r).dropWhile isBlank).reverse = r.reverse ++ l.reverse ∨ l = [] := by
    intro l r hl _
    cases l with
    | nil => exact .inr rfl
    | cons c l =>
      left
      rw [List.cons_append, List.dropWhile_cons, hl c (by simp)]
      simp
  unfold strip
  rw [List.append_assoc, drop pre _ hpre]
  rcases keep s post hs hpost with h | rfl
  · rw [h, drop _ _ (fun c hc => hpost c (List.mem_reverse.1 hc))]
    cases hr : s.reverse with
    | nil => simpa using hr
    | cons c l =>
      rw [List.dropWhile_cons, hs c (List.mem_reverse.1 (hr ▸ List.mem_cons_self))]
      simp [← hr]
  · have e := drop post [] hpost
    rw [List.append_nil] at e
    rw [List.nil_append, e]
    rfl

/-- printing an integer and reading it back -/
theorem pyInt_showInt (t : Int) : pyInt (showInt t) = some t := by
  unfold pyInt
  rw [strip_of_no_blank _ (fun c hc => (showInt_chars t c hc).2.2)]
  cases t with
  | ofNat n =>
    show parseSigned (showNat n) = _
    have h1 := showNat_chars n
    have h2 := parseDigits_showNat n
    generalize showNat n = s at h1 h2
    cases s with
    | nil => simp [parseDigits] at h2
    | cons c s =>
      have hc := h1 c (by simp)
      unfold parseSigned
      split
      · rename_i he; injection he with he; exact absurd he hc.2.1
      · rename_i he; injection he with he; exact absurd he hc.2.2.1
      · rw [h2]; rfl
  | negSucc n =>
    show parseSigned ('-' :: showNat (n + 1)) = _
    rw [parseSigned, parseDigits_showNat]
    rfl

theorem showInt_injective : Function.Injective showInt := by
  intro a b h
  have := congrArg pyInt h
  rw [pyInt_showInt, pyInt_showInt] at this
  exact Option.some.inj this

theorem splitAtChar_ne_nil (sep : Char) (s : List Char) : splitAtChar sep s ≠ [] := by
  cases s with
  | nil => simp [splitAtChar]
  | cons c s =>
    rw [splitAtChar]
    split
    · simp
    · split <;> simp

theorem splitAtChar_none (sep : Char) (s : List Char) (h : sep ∉ s) : splitAtChar sep s = [s] := by
  induction s with
  | nil => rfl
  | cons c s ih =>
    simp only [List.mem_cons, not_or] at h
    rw [splitAtChar, if_neg (fun e => h.1 e.symm), ih h.2]

theorem splitAtChar_append (sep : Char) (a b : List Char) :
    splitAtChar sep (a ++ sep :: b) = splitAtChar sep a ++ splitAtChar sep b := by
  induction a with
  | nil => simp [splitAtChar]
  | cons c a ih =>
    rw [List.cons_append, splitAtChar, splitAtChar, ih]
    split
    · rfl
    · have := splitAtChar_ne_nil sep a
      cases h : splitAtChar sep a with
      | nil => exact absurd h this
      | cons x l => rfl

theorem joinWith_split (sep : Char) (s : List Char) : joinWith sep (splitAtChar sep s) = s := by
  induction s with
  | nil => rfl
  | cons c s ih =>
    rw [splitAtChar]
    have hn := splitAtChar_ne_nil sep s
    cases h : splitAtChar sep s with
    | nil => exact absurd h hn
    | cons x l =>
      rw [h] at ih
      split
      · rename_i hc
        rw [joinWith, ih, hc]; rfl
      · cases l with
        | nil => simp only [joinWith] at ih ⊢; rw [ih]
        | cons y l => simp only [joinWith] at ih ⊢; rw [← ih]; rfl

end Workspace
end Verif
