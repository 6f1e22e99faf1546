import Verif.Dag.Lemmas

/-!
# Helper lemmas: d-connection by walks

A pair is d-connected by a path as in `Dag/Spec.lean` exactly if a ball rolls from one to the other: it passes a node outside
`Z` except against two arrowheads, and bounces back up from a node in `Z`.
-/

namespace Verif
namespace Dag
variable {ι : Type} {E : ι → ι → Prop} {Z : List ι}

/-- the middle of a triple does not block -/
def Passes (E : ι → ι → Prop) (Z : List ι) (a b c : ι) : Prop :=
  (Collider E a b c → ∃ d ∈ Z, Desc E b d) ∧ (¬ Collider E a b c → b ∉ Z)

theorem Passes.symm {a b c : ι} (h : Passes E Z a b c) : Passes E Z c b a :=
  ⟨fun hc => h.1 (collider_comm.1 hc), fun hn => h.2 (fun hc => hn (collider_comm.1 hc))⟩

/-- a walk none of whose triples blocks -/
def Active (E : ι → ι → Prop) (Z : List ι) : List ι → Prop
  | a :: b :: c :: l => Adj E a b ∧ Passes E Z a b c ∧ Active E Z (b :: c :: l)
  | [a, b] => Adj E a b
  | _ => True

theorem active_iff {p : List ι} : Active E Z p ↔ p.IsChain (Adj E) ∧ ∀ a b c, [a, b, c] <:+: p → Passes E Z a b c := by
  induction p with
  | nil => simp [Active]
  | cons x p ih =>
    cases p with
    | nil =>
      simp only [Active, List.IsChain.singleton, true_and, true_iff]
      intro a b c h
      have := h.length_le
      simp at this
    | cons y p =>
      cases p with
      | nil =>
        simp only [Active, List.isChain_cons_cons, List.IsChain.singleton, and_true]
        refine ⟨fun h => ⟨h, ?_⟩, fun h => h.1⟩
        intro a b c h
        have := h.length_le
        simp at this
      | cons z p =>
        simp only [Active]
        have hch : (x :: y :: z :: p).IsChain (Adj E) ↔ Adj E x y ∧ (y :: z :: p).IsChain (Adj E) := List.isChain_cons_cons
        rw [ih, hch]
        constructor
        · rintro ⟨h1, h2, h3, h4⟩
          refine ⟨⟨h1, h3⟩, ?_⟩
          intro a b c h
          rcases List.infix_cons_iff.1 h with hh | hh
          · simp only [List.cons_prefix_cons] at hh
            obtain ⟨rfl, rfl, rfl, _⟩ := hh
            exact h2
          · exact h4 a b c hh
        · rintro ⟨⟨h1, h3⟩, h4⟩
          refine ⟨h1, h4 x y z ?_, h3, fun a b c h => h4 a b c (List.infix_cons_iff.2 (Or.inr h))⟩
          exact List.infix_cons_iff.2 (Or.inl (by simp))

theorem not_blocked_iff {p : List ι} : ¬ Blocked E Z p ↔ ∀ a b c, [a, b, c] <:+: p → Passes E Z a b c := by
  unfold Blocked Passes
  constructor
  · intro h a b c hi
    refine ⟨fun hc => ?_, fun hn hb => h ⟨a, b, c, hi, Or.inr ⟨hn, hb⟩⟩⟩
    by_contra hh
    push Not at hh
    exact h ⟨a, b, c, hi, Or.inl ⟨hc, fun d hd hz => hh d hz hd⟩⟩
  · rintro h ⟨a, b, c, hi, ⟨hc, hd⟩ | ⟨hn, hb⟩⟩
    · obtain ⟨d, hz, hdd⟩ := (h a b c hi).1 hc
      exact hd d hdd hz
    · exact (h a b c hi).2 hn hb

/-! ### walks can be cut to paths -/

theorem Active.tail {a : ι} {l : List ι} (h : Active E Z (a :: l)) : Active E Z l := by
  cases l with
  | nil => trivial
  | cons b l =>
    cases l with
    | nil => trivial
    | cons c l => exact h.2.2

theorem Active.right {l r : List ι} (h : Active E Z (l ++ r)) : Active E Z r := by
  induction l with
  | nil => exact h
  | cons a l ih => exact ih (Active.tail h)

theorem Active.adj {a b : ι} {l : List ι} (h : Active E Z (a :: b :: l)) : Adj E a b := by
  cases l with
  | nil => exact h
  | cons c l => exact h.1

theorem Active.join {l r : List ι} {w : ι} (h1 : Active E Z (l ++ [w])) (h2 : Active E Z (w :: r))
    (h : ∀ a c, l.getLast? = some a → r.head? = some c → Passes E Z a w c) : Active E Z (l ++ w :: r) := by
  induction l with
  | nil => exact h2
  | cons a l ih =>
    cases l with
    | nil =>
      cases r with
      | nil => exact h1
      | cons c r => exact ⟨h1, h a c rfl rfl, h2⟩
    | cons b l =>
      have ih' := ih (Active.tail h1) (by
        intro a' c ha hc
        exact h a' c (by rw [List.getLast?_cons_cons]; exact ha) hc)
      cases l with
      | nil => exact ⟨h1.1, h1.2.1, ih'⟩
      | cons c l => exact ⟨h1.1, h1.2.1, ih'⟩

theorem Active.left {l r : List ι} {w : ι} (h : Active E Z (l ++ w :: r)) : Active E Z (l ++ [w]) := by
  induction l with
  | nil => trivial
  | cons a l ih =>
    cases l with
    | nil => exact Active.adj h
    | cons b l =>
      have ih' := ih (Active.tail h)
      cases l with
      | nil => exact ⟨h.1, h.2.1, ih'⟩
      | cons c l => exact ⟨h.1, h.2.1, ih'⟩

/-- the triple at a place inside a walk -/
theorem Active.mid {l r : List ι} {a w c : ι} (h : Active E Z (l ++ w :: c :: r)) (ha : l.getLast? = some a) :
    Passes E Z a w c ∧ Adj E a w := by
  induction l with
  | nil => cases ha
  | cons x l ih =>
    cases l with
    | nil =>
      cases ha
      exact ⟨h.2.1, h.1⟩
    | cons y l =>
      rw [List.getLast?_cons_cons] at ha
      exact ih (Active.tail h) ha

/-- a walk that leaves along an arrow goes on along arrows, or the first node has a descendant in `Z` -/
theorem Active.descend {w d v : ι} {l : List ι} (h : Active E Z (w :: d :: l)) (e : E w d)
    (hv : (d :: l).getLast? = some v) : (∃ z ∈ Z, Desc E w z) ∨ Relation.TransGen E w v := by
  induction l generalizing w d with
  | nil => cases hv; exact Or.inr (.single e)
  | cons c l ih =>
    by_cases hc : E c d
    · obtain ⟨z, hz, hd⟩ := h.2.1.1 ⟨e, hc⟩
      exact Or.inl ⟨z, hz, .head e hd⟩
    · have e' : E d c := (Active.adj h.2.2).resolve_right hc
      rcases ih h.2.2 e' (by rwa [List.getLast?_cons_cons] at hv) with ⟨z, hz, hd⟩ | ht
      · exact Or.inl ⟨z, hz, .head e hd⟩
      · exact Or.inr (.head e ht)

theorem exists_repeat {l : List ι} (h : ¬ l.Nodup) : ∃ l1 w l2 l3, l = l1 ++ w :: (l2 ++ w :: l3) := by
  classical
  induction l with
  | nil => exact absurd List.nodup_nil h
  | cons a l ih =>
    by_cases ha : a ∈ l
    · obtain ⟨s, t, rfl⟩ := List.append_of_mem ha
      exact ⟨[], a, s, t, rfl⟩
    · rw [List.nodup_cons] at h
      obtain ⟨l1, w, l2, l3, rfl⟩ := ih (fun hn => h ⟨ha, hn⟩)
      exact ⟨a :: l1, w, l2, l3, rfl⟩

theorem getLast?_append_cons (l r : List ι) (w : ι) : (l ++ w :: r).getLast? = (w :: r).getLast? := by
  rw [List.getLast?_append]
  cases h : (w :: r).getLast? with
  | none => simp at h
  | some x => rfl

/-- a walk contains a path -/
theorem Active.path (hac : Acyclic E) {u v : ι} {p : List ι} (h : Active E Z p) (hu : p.head? = some u)
    (hv : p.getLast? = some v) : ∃ q, IsPath E u v q ∧ ¬ Blocked E Z q := by
  generalize hn : p.length = n
  induction n using Nat.strong_induction_on generalizing p with
  | _ n ih =>
    by_cases hnd : p.Nodup
    · obtain ⟨h1, h2⟩ := active_iff.1 h
      exact ⟨p, ⟨hu, hv, hnd, h1⟩, not_blocked_iff.2 h2⟩
    · obtain ⟨l1, w, l2, l3, rfl⟩ := exists_repeat hnd
      refine ih (l1 ++ w :: l3).length ?_ ?_ ?_ ?_ rfl
      · rw [← hn]; simp only [List.length_append, List.length_cons]; omega
      · have hr : Active E Z (w :: (l2 ++ w :: l3)) := Active.right h
        have hr' : Active E Z (w :: l3) := by
          rw [← List.cons_append] at hr
          exact Active.right hr
        refine Active.join (Active.left h) hr' ?_
        intro a c ha hc
        obtain ⟨t, rfl⟩ : ∃ t, l3 = c :: t := by
          cases l3 with
          | nil => cases hc
          | cons x t => cases hc; exact ⟨t, rfl⟩
        -- the triples at the two occurrences
        obtain ⟨d, r, hd⟩ : ∃ d r, l2 ++ w :: c :: t = d :: r := by
          cases l2 with
          | nil => exact ⟨_, _, rfl⟩
          | cons x l2 => exact ⟨_, _, rfl⟩
        have m1 : Passes E Z a w d ∧ Adj E a w := by rw [hd] at h; exact Active.mid h ha
        obtain ⟨e, he⟩ : ∃ e, (l1 ++ w :: l2).getLast? = some e := by
          cases hh : (l1 ++ w :: l2).getLast? with
          | none => simp at hh
          | some e => exact ⟨e, rfl⟩
        have m2 : Passes E Z e w c ∧ Adj E e w := by
          have h' : Active E Z ((l1 ++ w :: l2) ++ w :: c :: t) := by simpa using h
          exact Active.mid h' he
        constructor
        · rintro ⟨ea, ec⟩
          by_cases hdw : E d w
          · exact m1.1.1 ⟨ea, hdw⟩
          · have hr2 : Active E Z (w :: (l2 ++ [w])) := by
              rw [← List.cons_append] at hr ⊢
              exact Active.left hr
            obtain ⟨s, hs⟩ : ∃ s, l2 ++ [w] = d :: s := by
              cases l2 with
              | nil => simp at hd; exact ⟨[], by rw [hd.1]; rfl⟩
              | cons x l2 => simp at hd; exact ⟨l2 ++ [w], by rw [hd.1]; rfl⟩
            rw [hs] at hr2
            have ewd : E w d := (Active.adj hr2).resolve_right hdw
            rcases Active.descend hr2 ewd (v := w) (by rw [← hs]; simp) with hh | hh
            · exact hh
            · exact absurd hh (hac w)
        · intro hnc
          by_cases ea : E a w
          · have hec : ¬ E c w := fun ec => hnc ⟨ea, ec⟩
            exact m2.1.2 (fun hcol => hec hcol.2)
          · exact m1.1.2 (fun hcol => ea hcol.1)
      · cases l1 with
        | nil => simpa using hu
        | cons x l1 => simpa using hu
      · have hv' : ((l1 ++ w :: l2) ++ w :: l3).getLast? = some v := by simpa using hv
        rw [getLast?_append_cons] at hv' ⊢
        exact hv'

/-! ### the ball -/

/-- where a ball starting at `u` gets to; `true` if it arrives along an arrow -/
inductive Ball (E : ι → ι → Prop) (Z : List ι) (u : ι) : ι → Bool → Prop
  | start : Ball E Z u u false
  | down {b c : ι} {d : Bool} (h : Ball E Z u b d) (hz : b ∉ Z) (e : E b c) : Ball E Z u c true
  | up {b c : ι} (h : Ball E Z u b false) (hz : b ∉ Z) (e : E c b) : Ball E Z u c false
  | bounce {b c : ι} (h : Ball E Z u b true) (hz : b ∈ Z) (e : E c b) : Ball E Z u c false

/-- a ball that falls onto a node with a descendant in `Z` comes back and rolls up -/
theorem Ball.back {u b c d : ι} (hd : Desc E b d) (hz : d ∈ Z) (h : Ball E Z u b true) (e : E c b) : Ball E Z u c false := by
  induction hd using Relation.ReflTransGen.head_induction_on generalizing c with
  | refl => exact .bounce h hz e
  | @head b' _ e' _ ih =>
    by_cases hb : b' ∈ Z
    · exact .bounce h hb e
    · exact .up (ih (.down h hb e') e') hb e

theorem ball_of_active (hac : Acyclic E) {u v : ι} : ∀ (l : List ι) (a b : ι), Active E Z (a :: b :: l) →
    (E a b → Ball E Z u b true) → (E b a → Ball E Z u b false) → (b :: l).getLast? = some v → ∃ d, Ball E Z u v d := by
  intro l
  induction l with
  | nil =>
    intro a b h h1 h2 hv
    cases hv
    rcases Active.adj h with e | e
    · exact ⟨_, h1 e⟩
    · exact ⟨_, h2 e⟩
  | cons c l ih =>
    intro a b h h1 h2 hv
    refine ih b c h.2.2 ?_ ?_ (by rwa [List.getLast?_cons_cons] at hv)
    · intro e
      have hb : b ∉ Z := h.2.1.2 (fun hc => hac.asymm e hc.2)
      rcases h.1 with e' | e'
      · exact .down (h1 e') hb e
      · exact .down (h2 e') hb e
    · intro e
      rcases h.1 with e' | e'
      · obtain ⟨d, hz, hd⟩ := h.2.1.1 ⟨e', e⟩
        exact Ball.back hd hz (h1 e') e
      · exact .up (h2 e') (h.2.1.2 (fun hc => hac.asymm e' hc.1)) e

/-- the way of a ball, last node first -/
theorem Ball.walk (hac : Acyclic E) {u b : ι} {d : Bool} (h : Ball E Z u b d) : ∃ l, Active E Z (b :: l) ∧
    (b :: l).getLast? = some u ∧ (d = true → ∃ a l', l = a :: l' ∧ E a b) ∧
    (d = false → l = [] ∨ ∃ a l', l = a :: l' ∧ E b a) := by
  have ext : ∀ {b c : ι} {l : List ι}, Active E Z (b :: l) → Adj E c b →
      (∀ a l', l = a :: l' → Passes E Z c b a) → Active E Z (c :: b :: l) := by
    intro b c l h1 h2 h3
    cases l with
    | nil => exact h2
    | cons a l => exact ⟨h2, h3 a l rfl, h1⟩
  induction h with
  | start => exact ⟨[], trivial, rfl, by simp, by simp⟩
  | @down b c d h hz e ih =>
    obtain ⟨l, h1, h2, _, _⟩ := ih
    refine ⟨b :: l, ext h1 (Or.inr e) ?_, by rwa [List.getLast?_cons_cons], fun _ => ⟨b, l, rfl, e⟩, by simp⟩
    intro a l' _
    exact ⟨fun hc => absurd hc.1 (hac.asymm e), fun _ => hz⟩
  | @up b c h hz e ih =>
    obtain ⟨l, h1, h2, _, h4⟩ := ih
    refine ⟨b :: l, ext h1 (Or.inl e) ?_, by rwa [List.getLast?_cons_cons], by simp, fun _ => Or.inr ⟨b, l, rfl, e⟩⟩
    intro a l' hl
    refine ⟨fun hc => ?_, fun _ => hz⟩
    rcases h4 rfl with hh | ⟨a', l'', hh, e'⟩
    · rw [hl] at hh; cases hh
    · rw [hl] at hh; cases hh; exact absurd hc.2 (hac.asymm e')
  | @bounce b c h hz e ih =>
    obtain ⟨l, h1, h2, h3, _⟩ := ih
    refine ⟨b :: l, ext h1 (Or.inl e) ?_, by rwa [List.getLast?_cons_cons], by simp, fun _ => Or.inr ⟨b, l, rfl, e⟩⟩
    intro a l' hl
    obtain ⟨a', l'', hh, e'⟩ := h3 rfl
    rw [hl] at hh
    cases hh
    exact ⟨fun _ => ⟨b, hz, .refl⟩, fun hn => absurd ⟨e, e'⟩ hn⟩

/-- d-connection by the ball -/
theorem not_dsep_iff_ball (hac : Acyclic E) {u v : ι} (hne : u ≠ v) (hu : u ∉ Z) :
    ¬ DSep E u v Z ↔ ∃ d, Ball E Z u v d := by
  constructor
  · intro h
    unfold DSep at h
    push Not at h
    obtain ⟨p, ⟨h1, h2, _, h4⟩, hb⟩ := h
    have ha : Active E Z p := active_iff.2 ⟨h4, not_blocked_iff.1 hb⟩
    match p, h1, h2, ha with
    | [a], h1, h2, _ => cases h1; cases h2; exact absurd rfl hne
    | a :: b :: l, h1, h2, ha =>
      cases h1
      exact ball_of_active hac l u b ha (fun e => .down .start hu e) (fun e => .up .start hu e)
        (by rwa [List.getLast?_cons_cons] at h2)
  · rintro ⟨d, hb⟩ hs
    obtain ⟨l, h1, h2, _⟩ := hb.walk hac
    obtain ⟨q, hq, hnb⟩ := Active.path hac h1 rfl h2
    exact hnb.elim (hs.symm q hq)

end Dag
end Verif
