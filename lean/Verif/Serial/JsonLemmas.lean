import Verif.Serial.JsonSpec

/-!
# Helper lemmas: printing JSON
-/

namespace Verif
namespace Serial

theorem dumpsList_eq (l : List Json) : dumpsList l = l.map dumps := by
  induction l with
  | nil => rw [dumpsList]; rfl
  | cons x l ih => rw [dumpsList, ih]; rfl

theorem dumpsItems_eq (l : List (String × Json)) : dumpsItems l = l.map (fun p => (p.1, dumps p.2)) := by
  induction l with
  | nil => rw [dumpsItems]; rfl
  | cons p l ih =>
    obtain ⟨k, v⟩ := p
    rw [dumpsItems, dumpsItem, ih]
    rfl

/-- one printed item -/
def itemText (p : String × Json) : List Char := quote p.1 ++ ':' :: dumps p.2

/-- items sorted by key -/
def byKey (l : List (String × Json)) : List (String × Json) := l.insertionSort (fun a b => a.1 ≤ b.1)

theorem byKey_perm (l : List (String × Json)) : (byKey l).Perm l := List.perm_insertionSort _ _

theorem dumps_arr (l : List Json) : dumps (.arr l) = '[' :: commaJoin (l.map dumps) ++ [']'] := by
  rw [dumps, dumpsList_eq]

theorem dumps_obj (l : List (String × Json)) :
    dumps (.obj l) = '{' :: commaJoin ((byKey l).map itemText) ++ ['}'] := by
  rw [dumps, dumpsItems_eq]
  have := List.map_insertionSort (r := fun a b : String × Json => a.1 ≤ b.1) (s := fun a b : String × List Char => a.1 ≤ b.1)
    (fun p : String × Json => (p.1, dumps p.2)) l (fun _ _ _ _ => Iff.rfl)
  rw [← this, List.map_map]
  rfl

/-- sorting by key forgets the order of entries with distinct keys -/
theorem byKey_eq {l l' : List (String × Json)} (h : l.Perm l') (hn : (l.map Prod.fst).Nodup) : byKey l = byKey l' := by
  have hs : ∀ l : List (String × Json), (byKey l).Pairwise (fun a b => a.1 ≤ b.1) := by
    intro l
    have : Std.Total (fun a b : String × Json => a.1 ≤ b.1) := ⟨fun a b => le_total _ _⟩
    have : IsTrans (String × Json) (fun a b => a.1 ≤ b.1) := ⟨fun _ _ _ => le_trans⟩
    exact List.pairwise_insertionSort _ _
  have hp : (byKey l).Perm (byKey l') := (byKey_perm l).trans (h.trans (byKey_perm l').symm)
  refine hp.eq_of_pairwise ?_ (hs l) (hs l')
  intro a b ha hb h1 h2
  have e : a.1 = b.1 := le_antisymm h1 h2
  have ha' : a ∈ l := (byKey_perm l).mem_iff.1 ha
  have hb' : b ∈ l := h.mem_iff.2 ((byKey_perm l').mem_iff.1 hb)
  exact List.inj_on_of_nodup_map hn ha' hb' e

theorem valid_reorder {a b : Json} (h : Reorder a b) : Valid a ↔ Valid b := by
  induction h with
  | refl => rfl
  | trans _ _ h1 h2 => exact h1.trans h2
  | keys hp =>
    constructor
    · intro h
      cases h with
      | obj h1 h2 => exact .obj ((hp.map _).nodup_iff.1 h1) (fun k x hm => h2 k x (hp.mem_iff.2 hm))
    · intro h
      cases h with
      | obj h1 h2 => exact .obj ((hp.map _).nodup_iff.2 h1) (fun k x hm => h2 k x (hp.mem_iff.1 hm))
  | @inObj k v v' l r _ ih =>
    have key : ∀ v v', (Valid v → Valid v') → Valid (.obj (l ++ (k, v) :: r)) → Valid (.obj (l ++ (k, v') :: r)) := by
      intro v v' hv h
      cases h with
      | obj h1 h2 =>
        refine .obj (by simpa using h1) (fun k' x hm => ?_)
        simp only [List.mem_append, List.mem_cons, Prod.mk.injEq] at hm
        rcases hm with hm | ⟨-, rfl⟩ | hm
        · exact h2 k' x (by simp [hm])
        · exact hv (h2 k v (by simp))
        · exact h2 k' x (by simp [hm])
    exact ⟨key v v' ih.1, key v' v ih.2⟩
  | @inArr v v' l r _ ih =>
    have key : ∀ v v', (Valid v → Valid v') → Valid (.arr (l ++ v :: r)) → Valid (.arr (l ++ v' :: r)) := by
      intro v v' hv h
      cases h with
      | arr h2 =>
        refine .arr (fun x hm => ?_)
        simp only [List.mem_append, List.mem_cons] at hm
        rcases hm with hm | rfl | hm
        · exact h2 x (by simp [hm])
        · exact hv (h2 v (by simp))
        · exact h2 x (by simp [hm])
    exact ⟨key v v' ih.1, key v' v ih.2⟩

theorem Reorder.symm {a b : Json} (h : Reorder a b) : Reorder b a := by
  induction h with
  | refl => exact .refl _
  | trans _ _ h1 h2 => exact h2.trans h1
  | keys hp => exact .keys hp.symm
  | inObj l r _ ih => exact .inObj l r ih
  | inArr l r _ ih => exact .inArr l r ih

/-- reordering does not change the text -/
theorem dumps_reorder {a b : Json} (h : Reorder a b) (hv : Valid a) : dumps a = dumps b := by
  induction h with
  | refl => rfl
  | trans h1 _ i1 i2 => exact (i1 hv).trans (i2 ((valid_reorder h1).1 hv))
  | keys hp =>
    cases hv with
    | obj h1 h2 => rw [dumps_obj, dumps_obj, byKey_eq hp h1]
  | @inObj k v v' l r _ ih =>
    cases hv with
    | obj h1 h2 =>
      have e := ih (h2 k v (by simp))
      rw [dumps, dumps, dumpsItems_eq, dumpsItems_eq]
      simp only [List.map_append, List.map_cons, e]
  | @inArr v v' l r _ ih =>
    cases hv with
    | arr h2 =>
      have e := ih (h2 v (by simp))
      rw [dumps_arr, dumps_arr]
      simp only [List.map_append, List.map_cons, e]

/-! ### the text determines the value -/

theorem hexDigit_inj : ∀ m < 16, ∀ n < 16, hexDigit m = hexDigit n → m = n := by decide

/-- the character behind a two-character escape -/
def unshort (k : Char) : Char :=
  if k = '"' then '"' else if k = '\\' then '\\' else if k = 'n' then '\n' else if k = 'r' then '\r'
  else if k = 't' then '\t' else if k = 'b' then Char.ofNat 8 else Char.ofNat 12

/-- the three forms of a printed character -/
theorem escape_cases (c : Char) :
    (∃ k, k ≠ 'u' ∧ escape c = ['\\', k] ∧ c = unshort k) ∨
      (c.toNat < 32 ∧ escape c = ['\\', 'u', '0', '0', hexDigit (c.toNat / 16), hexDigit (c.toNat % 16)]) ∨
      (escape c = [c] ∧ c ≠ '\\' ∧ c ≠ '"') := by
  unfold escape
  by_cases h1 : c = '"'
  · rw [if_pos h1]; exact Or.inl ⟨_, by decide, rfl, h1⟩
  rw [if_neg h1]
  by_cases h2 : c = '\\'
  · rw [if_pos h2]; exact Or.inl ⟨_, by decide, rfl, h2⟩
  rw [if_neg h2]
  by_cases h3 : c = '\n'
  · rw [if_pos h3]; exact Or.inl ⟨_, by decide, rfl, h3⟩
  rw [if_neg h3]
  by_cases h4 : c = '\r'
  · rw [if_pos h4]; exact Or.inl ⟨_, by decide, rfl, h4⟩
  rw [if_neg h4]
  by_cases h5 : c = '\t'
  · rw [if_pos h5]; exact Or.inl ⟨_, by decide, rfl, h5⟩
  rw [if_neg h5]
  by_cases h6 : c = Char.ofNat 8
  · rw [if_pos h6]; exact Or.inl ⟨_, by decide, rfl, h6⟩
  rw [if_neg h6]
  by_cases h7 : c = Char.ofNat 12
  · rw [if_pos h7]; exact Or.inl ⟨_, by decide, rfl, h7⟩
  rw [if_neg h7]
  by_cases h8 : c.toNat < 32
  · rw [if_pos h8]; exact Or.inr (Or.inl ⟨h8, rfl⟩)
  rw [if_neg h8]
  exact Or.inr (Or.inr ⟨rfl, h2, h1⟩)

theorem char_eq_of_toNat {c c' : Char} (h : c.toNat = c'.toNat) : c = c' := by
  have : c.val = c'.val := UInt32.toNat_inj.1 h
  exact Char.ext this

/-- the second character tells the escapes apart -/
theorem escape_inj {c c' : Char} {x y : List Char} (h : escape c ++ x = escape c' ++ y) : c = c' ∧ x = y := by
  rcases escape_cases c with ⟨k, hk, e, hc⟩ | ⟨hc, e⟩ | ⟨e, hc, -⟩ <;>
    rcases escape_cases c' with ⟨k', hk', e', hc'⟩ | ⟨hc', e'⟩ | ⟨e', hc', -⟩ <;>
    rw [e, e'] at h <;>
    simp only [List.cons_append, List.nil_append, List.cons.injEq, true_and] at h
  · exact ⟨by rw [hc, hc', h.1], h.2⟩
  · exact absurd h.1 hk
  · exact absurd h.1.symm hc'
  · exact absurd h.1.symm hk'
  · have e1 := hexDigit_inj _ (by omega) _ (by omega) h.1
    have e2 := hexDigit_inj _ (by omega) _ (by omega) h.2.1
    exact ⟨char_eq_of_toNat (by omega), h.2.2⟩
  · exact absurd h.1.symm hc'
  · exact absurd h.1 hc
  · exact absurd h.1 hc
  · exact h

theorem escape_head (c : Char) (x y : List Char) : escape c ++ x ≠ '"' :: y := by
  intro h
  rcases escape_cases c with ⟨k, hk, e, -⟩ | ⟨-, e⟩ | ⟨e, -, h2⟩ <;> rw [e] at h
  · simp at h
  · simp at h
  · simp only [List.cons_append, List.nil_append, List.cons.injEq] at h
    exact h2 h.1

theorem escapes_inj (s s' : List Char) (x y : List Char)
    (h : s.flatMap escape ++ '"' :: x = s'.flatMap escape ++ '"' :: y) : s = s' ∧ x = y := by
  induction s generalizing s' with
  | nil =>
    cases s' with
    | nil => simpa using h
    | cons c' s' =>
      simp only [List.flatMap_nil, List.nil_append, List.flatMap_cons, List.append_assoc] at h
      exact absurd h.symm (escape_head _ _ _)
  | cons c s ih =>
    cases s' with
    | nil =>
      simp only [List.flatMap_nil, List.nil_append, List.flatMap_cons, List.append_assoc] at h
      exact absurd h (escape_head _ _ _)
    | cons c' s' =>
      simp only [List.flatMap_cons, List.append_assoc] at h
      obtain ⟨e1, e2⟩ := escape_inj h
      obtain ⟨e3, e4⟩ := ih s' e2
      exact ⟨by rw [e1, e3], e4⟩

theorem quote_inj (s s' : String) (x y : List Char) (h : quote s ++ x = quote s' ++ y) : s = s' ∧ x = y := by
  unfold quote at h
  simp only [List.cons_append, List.append_assoc, List.nil_append, List.cons.injEq, true_and] at h
  obtain ⟨e1, e2⟩ := escapes_inj _ _ _ _ h
  exact ⟨String.toList_inj.1 e1, e2⟩

/-! ### reading the text back -/

/-- what may follow a value inside a text: nothing, or list or dictionary punctuation -/
def Tail (r : List Char) : Prop := r = [] ∨ ∃ c t, r = c :: t ∧ (c = ',' ∨ c = ']' ∨ c = '}')

theorem tail_comma (t : List Char) : Tail (',' :: t) := Or.inr ⟨_, _, rfl, Or.inl rfl⟩
theorem tail_bracket (t : List Char) : Tail (']' :: t) := Or.inr ⟨_, _, rfl, Or.inr (Or.inl rfl)⟩
theorem tail_brace (t : List Char) : Tail ('}' :: t) := Or.inr ⟨_, _, rfl, Or.inr (Or.inr rfl)⟩

/-- a number ends where the punctuation starts -/
theorem number_inj (t t' : List Char) (ht : ∀ c ∈ t, c ≠ ',' ∧ c ≠ ']' ∧ c ≠ '}')
    (ht' : ∀ c ∈ t', c ≠ ',' ∧ c ≠ ']' ∧ c ≠ '}') (r r' : List Char) (hr : Tail r) (hr' : Tail r')
    (h : t ++ r = t' ++ r') : t = t' ∧ r = r' := by
  induction t generalizing t' with
  | nil =>
    cases t' with
    | nil => exact ⟨rfl, h⟩
    | cons c' t' =>
      exfalso
      rw [List.nil_append] at h
      rcases hr with rfl | ⟨c, t, rfl, hc⟩
      · cases h
      · rw [List.cons_append] at h
        have e := (List.cons.inj h).1
        have := ht' c' (by simp)
        rw [← e] at this
        tauto
  | cons c t ih =>
    cases t' with
    | nil =>
      exfalso
      rw [List.nil_append] at h
      rcases hr' with rfl | ⟨c', t', rfl, hc⟩
      · cases h
      · rw [List.cons_append] at h
        have e := (List.cons.inj h).1
        have := ht c (by simp)
        rw [e] at this
        tauto
    | cons c' t' =>
      rw [List.cons_append, List.cons_append] at h
      obtain ⟨e, h⟩ := List.cons.inj h
      obtain ⟨e1, e2⟩ := ih t' (fun c hc => ht c (by simp [hc])) (fun c hc => ht' c (by simp [hc])) h
      exact ⟨by rw [e, e1], e2⟩

/-- the first character of a value tells its kind -/
inductive Kind
  | null | true | false | num | str | arr | obj
  deriving DecidableEq

def kind : Json → Kind
  | .null => .null
  | .bool Bool.true => .true
  | .bool Bool.false => .false
  | .num _ => .num
  | .str _ => .str
  | .arr _ => .arr
  | .obj _ => .obj

def kindOf (c : Char) : Kind :=
  if c = 'n' then .null else if c = 't' then .true else if c = 'f' then .false else if c = '"' then .str
  else if c = '[' then .arr else if c = '{' then .obj else .num

theorem dumps_head {a : Json} (h : Valid a) : ∃ c t, dumps a = c :: t ∧ kindOf c = kind a ∧ c ≠ ']' ∧ c ≠ '}' := by
  cases h with
  | null => exact ⟨'n', "ull".toList, by rw [dumps]; rfl, by decide, by decide, by decide⟩
  | bool b =>
    cases b with
    | true => exact ⟨'t', "rue".toList, by rw [dumps]; rfl, by decide, by decide, by decide⟩
    | false => exact ⟨'f', "alse".toList, by rw [dumps]; rfl, by decide, by decide, by decide⟩
  | num h =>
    obtain ⟨h1, c, r, e, hc⟩ := h
    refine ⟨c, r, by rw [dumps, e], ?_, (h1 c (by simp [e])).2.1, (h1 c (by simp [e])).2.2⟩
    simp only [List.mem_cons, List.not_mem_nil, or_false, not_or] at hc
    unfold kindOf
    rw [if_neg hc.1, if_neg hc.2.1, if_neg hc.2.2.1, if_neg hc.2.2.2.1, if_neg hc.2.2.2.2.1, if_neg hc.2.2.2.2.2]
    rfl
  | str s => exact ⟨'"', _, by rw [dumps]; rfl, rfl, by decide, by decide⟩
  | arr _ => exact ⟨'[', _, by rw [dumps_arr]; rfl, rfl, by decide, by decide⟩
  | obj _ _ => exact ⟨'{', _, by rw [dumps_obj]; rfl, rfl, by decide, by decide⟩

theorem kind_eq {a b : Json} (ha : Valid a) (hb : Valid b) {r r' : List Char} (h : dumps a ++ r = dumps b ++ r') :
    kind a = kind b := by
  obtain ⟨c, t, e, hk, -⟩ := dumps_head ha
  obtain ⟨c', t', e', hk', -⟩ := dumps_head hb
  rw [e, e'] at h
  rw [← hk, ← hk', (List.cons.inj h).1]

/-- comma-separated texts are told apart if their parts are -/
theorem commaJoin_inj {α : Type} (f : α → List Char) (R : α → α → Prop) (end_ : Char) (hend : end_ = ']' ∨ end_ = '}')
    (P Q : α → Prop)
    (hf : ∀ x, P x → ∀ y, Q y → ∀ r r', Tail r → Tail r' → f x ++ r = f y ++ r' → R x y ∧ r = r')
    (hh : ∀ x, P x ∨ Q x → ∃ c t, f x = c :: t ∧ c ≠ end_)
    (l l' : List α) (hl : ∀ x ∈ l, P x) (hl' : ∀ x ∈ l', Q x) (r r' : List Char)
    (h : commaJoin (l.map f) ++ end_ :: r = commaJoin (l'.map f) ++ end_ :: r') :
    List.Forall₂ R l l' ∧ r = r' := by
  have hte : ∀ t, Tail (end_ :: t) := by
    rcases hend with rfl | rfl
    · exact tail_bracket
    · exact tail_brace
  have hne : ',' ≠ end_ := by rcases hend with rfl | rfl <;> decide
  -- a nonempty joined text is its first part followed by a tail
  have step : ∀ x (m : List α) r, ∃ q, Tail q ∧ commaJoin ((x :: m).map f) ++ end_ :: r = f x ++ q ∧
      ((m = [] ∧ q = end_ :: r) ∨ (m ≠ [] ∧ q = ',' :: (commaJoin (m.map f) ++ end_ :: r))) := by
    intro x m r
    cases m with
    | nil => exact ⟨end_ :: r, hte _, rfl, Or.inl ⟨rfl, rfl⟩⟩
    | cons y m =>
      refine ⟨_, tail_comma _, ?_, Or.inr ⟨List.cons_ne_nil _ _, rfl⟩⟩
      simp only [List.map_cons, commaJoin, List.append_assoc, List.cons_append]
  induction l generalizing l' with
  | nil =>
    cases l' with
    | nil =>
      simp only [List.map_nil, commaJoin, List.nil_append, List.cons.injEq, true_and] at h
      exact ⟨.nil, h⟩
    | cons y m =>
      exfalso
      obtain ⟨q, -, e, -⟩ := step y m r'
      rw [e] at h
      obtain ⟨c, t, e', hc⟩ := hh y (Or.inr (hl' y (by simp)))
      rw [e'] at h
      simp only [List.map_nil, commaJoin, List.nil_append, List.cons_append, List.cons.injEq] at h
      exact hc h.1.symm
  | cons x l ih =>
    cases l' with
    | nil =>
      exfalso
      obtain ⟨q, -, e, -⟩ := step x l r
      rw [e] at h
      obtain ⟨c, t, e', hc⟩ := hh x (Or.inl (hl x (by simp)))
      rw [e'] at h
      simp only [List.map_nil, commaJoin, List.nil_append, List.cons_append, List.cons.injEq] at h
      exact hc h.1
    | cons y m =>
      obtain ⟨q, tq, e, hq⟩ := step x l r
      obtain ⟨q', tq', e', hq'⟩ := step y m r'
      rw [e, e'] at h
      obtain ⟨hR, hqq⟩ := hf x (hl x (by simp)) y (hl' y (by simp)) q q' tq tq' h
      rcases hq with ⟨h1, h2⟩ | ⟨h1, h2⟩ <;> rcases hq' with ⟨h1', h2'⟩ | ⟨h1', h2'⟩
      · subst h1 h1'
        rw [h2, h2'] at hqq
        exact ⟨.cons hR .nil, (List.cons.inj hqq).2⟩
      · rw [h2, h2'] at hqq
        exact absurd (List.cons.inj hqq).1.symm hne
      · rw [h2, h2'] at hqq
        exact absurd (List.cons.inj hqq).1 hne
      · rw [h2, h2'] at hqq
        obtain ⟨h3, h4⟩ := ih m (fun z hz => hl z (by simp [hz])) (fun z hz => hl' z (by simp [hz])) (List.cons.inj hqq).2
        exact ⟨.cons hR h3, h4⟩

theorem reorder_arr {l l' : List Json} (h : List.Forall₂ Reorder l l') : Reorder (.arr l) (.arr l') := by
  have key : ∀ pre : List Json, Reorder (.arr (pre ++ l)) (.arr (pre ++ l')) := by
    induction h with
    | nil => intro pre; exact .refl _
    | @cons x y l l' hxy _ ih =>
      intro pre
      refine (Reorder.inArr pre l hxy).trans ?_
      have := ih (pre ++ [y])
      simpa [List.append_assoc] using this
  exact key []

theorem reorder_obj {l l' : List (String × Json)} (h : List.Forall₂ (fun p q => p.1 = q.1 ∧ Reorder p.2 q.2) l l') :
    Reorder (.obj l) (.obj l') := by
  have key : ∀ pre : List (String × Json), Reorder (.obj (pre ++ l)) (.obj (pre ++ l')) := by
    induction h with
    | nil => intro pre; exact .refl _
    | @cons x y l l' hxy _ ih =>
      intro pre
      obtain ⟨k, v⟩ := x
      obtain ⟨k', v'⟩ := y
      obtain ⟨rfl, hv⟩ := hxy
      refine (Reorder.inObj pre l hv).trans ?_
      have := ih (pre ++ [(k, v')])
      simpa [List.append_assoc] using this
  exact key []

/-- the text of a value, and where it ends, determine the value up to reordering of dictionaries -/
theorem dumps_inj_tail {a : Json} (ha : Valid a) : ∀ b, Valid b → ∀ r r', Tail r → Tail r' →
    dumps a ++ r = dumps b ++ r' → Reorder a b ∧ r = r' := by
  induction ha with
  | null =>
    intro b hb r r' _ _ h
    have hk := kind_eq .null hb h
    cases b with
    | null => exact ⟨.refl _, List.append_cancel_left h⟩
    | bool b => cases b <;> cases hk
    | num _ => cases hk
    | str _ => cases hk
    | arr _ => cases hk
    | obj _ => cases hk
  | bool b0 =>
    intro b hb r r' _ _ h
    have hk := kind_eq (.bool b0) hb h
    cases b with
    | null => cases b0 <;> cases hk
    | bool b =>
      have : b0 = b := by cases b0 <;> cases b <;> first | rfl | cases hk
      subst this
      exact ⟨.refl _, List.append_cancel_left h⟩
    | num _ => cases b0 <;> cases hk
    | str _ => cases b0 <;> cases hk
    | arr _ => cases b0 <;> cases hk
    | obj _ => cases b0 <;> cases hk
  | num ht =>
    intro b hb r r' hr hr' h
    have hk := kind_eq (.num ht) hb h
    cases b with
    | null => cases hk
    | bool b => cases b <;> cases hk
    | num t' =>
      cases hb with
      | num ht' =>
        rw [dumps, dumps] at h
        obtain ⟨e1, e2⟩ := number_inj _ _ ht.1 ht'.1 _ _ hr hr' h
        rw [e1]
        exact ⟨.refl _, e2⟩
    | str _ => cases hk
    | arr _ => cases hk
    | obj _ => cases hk
  | str s =>
    intro b hb r r' hr hr' h
    have hk := kind_eq (.str s) hb h
    cases b with
    | null => cases hk
    | bool b => cases b <;> cases hk
    | num t' => cases hk
    | str s' =>
      rw [dumps, dumps] at h
      obtain ⟨e1, e2⟩ := quote_inj _ _ _ _ h
      rw [e1]
      exact ⟨.refl _, e2⟩
    | arr _ => cases hk
    | obj _ => cases hk
  | @arr l hl ih =>
    intro b hb r r' hr hr' h
    have hk := kind_eq (.arr hl) hb h
    cases b with
    | null => cases hk
    | bool b => cases b <;> cases hk
    | num t' => cases hk
    | str s' => cases hk
    | arr l' =>
      cases hb with
      | arr hl' =>
        rw [dumps_arr, dumps_arr] at h
        simp only [List.cons_append, List.append_assoc, List.nil_append, List.cons.injEq, true_and] at h
        obtain ⟨h1, h2⟩ := commaJoin_inj dumps Reorder ']' (Or.inl rfl)
          (fun x => x ∈ l) (fun y => y ∈ l') (fun x hx y hy => ih x hx y (hl' y hy)) (fun x hx => by
            obtain ⟨c, t, e, -, h1, -⟩ := dumps_head (hx.elim (hl x) (hl' x))
            exact ⟨c, t, e, h1⟩) l l' (fun x hx => hx) (fun x hx => hx) _ _ h
        exact ⟨reorder_arr h1, h2⟩
    | obj _ => cases hk
  | @obj l hn hl ih =>
    intro b hb r r' hr hr' h
    have hk := kind_eq (.obj hn hl) hb h
    cases b with
    | null => cases hk
    | bool b => cases b <;> cases hk
    | num t' => cases hk
    | str s' => cases hk
    | arr _ => cases hk
    | obj l' =>
      cases hb with
      | obj hn' hl' =>
        rw [dumps_obj, dumps_obj] at h
        simp only [List.cons_append, List.append_assoc, List.nil_append, List.cons.injEq, true_and] at h
        obtain ⟨h1, h2⟩ := commaJoin_inj itemText (fun p q => p.1 = q.1 ∧ Reorder p.2 q.2) '}' (Or.inr rfl)
          (fun x => x ∈ l) (fun y => y ∈ l') (fun x hx y hy r r' hr hr' h => by
            unfold itemText at h
            rw [List.append_assoc, List.append_assoc] at h
            obtain ⟨e1, e2⟩ := quote_inj _ _ _ _ h
            rw [List.cons_append, List.cons_append] at e2
            obtain ⟨e3, e4⟩ := ih x.1 x.2 hx y.2 (hl' y.1 y.2 hy) r r' hr hr' (List.cons.inj e2).2
            exact ⟨⟨e1, e3⟩, e4⟩) (fun x _ => ⟨'"', _, rfl, by decide⟩)
          (byKey l) (byKey l') (fun x hx => (byKey_perm l).mem_iff.1 hx) (fun x hx => (byKey_perm l').mem_iff.1 hx) _ _ h
        exact ⟨((Reorder.keys (byKey_perm l).symm).trans (reorder_obj h1)).trans (.keys (byKey_perm l')), h2⟩

end Serial
end Verif
