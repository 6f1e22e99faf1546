import Verif.Dag.Ball
import Verif.Dag.Meek
import Mathlib.Data.Finset.Prod
import Mathlib.Data.Finset.Max

/-!
# Helper lemmas: graphs with the same adjacencies and unshielded colliders have the same d-separations

One goes from one graph to the other by turning covered edges (D. M. Chickering, A transformational characterization of
equivalent Bayesian network structures, 1995); turning one does not change where a ball gets to.
-/

namespace Verif
namespace Dag
variable {ι : Type} {E : ι → ι → Prop} {Z : List ι}

/-- the two ends of `x → y` have the same other parents -/
def Covered (E : ι → ι → Prop) (x y : ι) : Prop := E x y ∧ ∀ p, p ≠ x → (E p y ↔ E p x)

/-- `x → y` turned -/
def turn (E : ι → ι → Prop) (x y : ι) (a b : ι) : Prop := (E a b ∧ ¬ (a = x ∧ b = y)) ∨ (a = y ∧ b = x)

section
variable {x y : ι}

theorem turn_path {a b : ι} (h : Relation.TransGen (turn E x y) a b) :
    Relation.TransGen (fun a b => E a b ∧ ¬ (a = x ∧ b = y)) a b ∨
      (Relation.ReflTransGen (fun a b => E a b ∧ ¬ (a = x ∧ b = y)) a y ∧
        Relation.ReflTransGen (fun a b => E a b ∧ ¬ (a = x ∧ b = y)) x b) := by
  induction h with
  | single h =>
    rcases h with h | ⟨rfl, rfl⟩
    · exact Or.inl (.single h)
    · exact Or.inr ⟨.refl, .refl⟩
  | tail _ h ih =>
    rcases h with h | ⟨rfl, rfl⟩
    · rcases ih with ih | ⟨h1, h2⟩
      · exact Or.inl (ih.tail h)
      · exact Or.inr ⟨h1, h2.tail h⟩
    · rcases ih with ih | ⟨h1, h2⟩
      · exact Or.inr ⟨ih.to_reflTransGen, .refl⟩
      · exact Or.inr ⟨h1, .refl⟩

theorem turn_acyclic (hac : Acyclic E) (hc : Covered E x y) : Acyclic (turn E x y) := by
  intro a h
  rcases turn_path h with h | ⟨h1, h2⟩
  · exact hac a (h.lift id (fun _ _ h => h.1))
  · have h3 := h2.trans h1
    rcases Relation.ReflTransGen.cases_tail h3 with h4 | ⟨w, h4, h5⟩
    · rw [h4] at hc
      exact hac.irrefl _ hc.1
    · have hw : w ≠ x := fun hh => h5.2 ⟨hh, rfl⟩
      have e := (hc.2 w hw).1 h5.1
      have h6 : Relation.ReflTransGen E x w := h4.lift id (fun _ _ h => h.1)
      exact hac x (Relation.TransGen.tail' h6 e)

theorem turn_adj (hc : Covered E x y) (a b : ι) : Adj E a b ↔ Adj (turn E x y) a b := by
  unfold Adj turn
  constructor
  · rintro (h | h)
    · by_cases hh : a = x ∧ b = y
      · exact Or.inr (Or.inr ⟨hh.2, hh.1⟩)
      · exact Or.inl (Or.inl ⟨h, hh⟩)
    · by_cases hh : b = x ∧ a = y
      · exact Or.inl (Or.inr ⟨hh.2, hh.1⟩)
      · exact Or.inr (Or.inl ⟨h, hh⟩)
  · rintro ((h | ⟨rfl, rfl⟩) | (h | ⟨rfl, rfl⟩))
    · exact Or.inl h.1
    · exact Or.inr hc.1
    · exact Or.inr h.1
    · exact Or.inl hc.1

theorem turn_equivalent (hc : Covered E x y) : Equivalent E (turn E x y) := by
  have hadj := turn_adj hc
  refine ⟨hadj, fun a b c => ⟨?_, ?_⟩⟩
  · rintro ⟨⟨h1, h2⟩, hne, hn⟩
    refine ⟨⟨Or.inl ⟨h1, ?_⟩, Or.inl ⟨h2, ?_⟩⟩, hne, fun hh => hn ((hadj _ _).2 hh)⟩
    · rintro ⟨rfl, rfl⟩
      exact hn (Or.inr ((hc.2 c hne.symm).1 h2))
    · rintro ⟨rfl, rfl⟩
      exact hn (Or.inl ((hc.2 a hne).1 h1))
  · rintro ⟨⟨h1, h2⟩, hne, hn⟩
    rw [← hadj] at hn
    refine ⟨⟨?_, ?_⟩, hne, hn⟩
    all_goals
      rcases h1 with h1 | ⟨rfl, rfl⟩ <;> rcases h2 with h2 | ⟨h3, h4⟩
    · exact h1.1
    · subst h3; subst h4
      by_cases ha : a = b
      · subst ha; exact h1.1
      · exact absurd (Or.inl ((hc.2 a ha).2 h1.1)) hn
    · by_cases hb : c = b
      · subst hb; exact absurd (Or.inr hc.1) hn
      · exact absurd (Or.inr ((hc.2 c hb).2 h2.1)) hn
    · exact absurd h3.symm hne
    · exact h2.1
    · subst h3; subst h4
      by_cases ha : a = b
      · subst ha; exact absurd (Or.inl hc.1) hn
      · exact absurd (Or.inl ((hc.2 a ha).2 h1.1)) hn
    · exact h2.1
    · exact absurd h3.symm hne

/-- what a ball in `E` arriving somewhere means in the turned graph -/
theorem ball_turn (hac : Acyclic E) (hc : Covered E x y) {u b : ι} {d : Bool} (h : Ball E Z u b d) :
    (b ≠ x → b ≠ y → Ball (turn E x y) Z u b d) ∧
    (b = x → d = true → Ball (turn E x y) Z u x true ∧ Ball (turn E x y) Z u y true) ∧
    (b = x → d = false → (Ball (turn E x y) Z u x true ∧ Ball (turn E x y) Z u y true ∧ y ∈ Z) ∨
      Ball (turn E x y) Z u x false ∨ (Ball (turn E x y) Z u y false ∧ y ∉ Z)) ∧
    (b = y → d = true → (Ball (turn E x y) Z u x true ∧ Ball (turn E x y) Z u y true) ∨
      (Ball (turn E x y) Z u x false ∧ x ∉ Z) ∨ (Ball (turn E x y) Z u y false ∧ y ∉ Z)) ∧
    (b = y → d = false → Ball (turn E x y) Z u y false) := by
  have hxy : x ≠ y := by rintro rfl; exact hac.irrefl _ hc.1
  have hyx : ¬ E y x := hac.asymm hc.1
  have tyx : turn E x y y x := Or.inr ⟨rfl, rfl⟩
  -- edges of the turned graph
  have into_x : ∀ {p}, E p x → turn E x y p x := fun e => Or.inl ⟨e, fun hh => hxy hh.2⟩
  have into_y : ∀ {p}, E p y → p ≠ x → turn E x y p y := fun e hp => Or.inl ⟨e, fun hh => hp hh.1⟩
  have keep : ∀ {p q}, E p q → q ≠ y → turn E x y p q := fun e hq => Or.inl ⟨e, fun hh => hq hh.2⟩
  have both : ∀ {p}, E p x → turn E x y p x ∧ turn E x y p y := by
    intro p e
    have hp : p ≠ x := by rintro rfl; exact hac.irrefl _ e
    exact ⟨into_x e, into_y ((hc.2 p hp).2 e) hp⟩
  induction h with
  | start =>
    refine ⟨fun _ _ => .start, (fun _ hh => by cases hh), fun hh _ => ?_, (fun _ hh => by cases hh), fun hh _ => ?_⟩
    · subst hh; exact Or.inr (Or.inl .start)
    · subst hh; exact .start
  | @down b c d hb hz e ih =>
    obtain ⟨i0, i1, i2, i3, i4⟩ := ih
    have hk : E b x → Ball (turn E x y) Z u x true ∧ Ball (turn E x y) Z u y true := by
      intro e'
      have hbx : b ≠ x := by rintro rfl; exact hac.irrefl _ e'
      have hby : b ≠ y := by rintro rfl; exact hyx e'
      have := both e'
      exact ⟨.down (i0 hbx hby) hz this.1, .down (i0 hbx hby) hz this.2⟩
    refine ⟨?_, ?_, (fun _ hh => by cases hh), ?_, (fun _ hh => by cases hh)⟩
    · intro hcx hcy
      by_cases hbx : b = x
      · subst hbx
        have e1 : turn E b y b c := keep e hcy
        cases d with
        | true => exact .down (i1 rfl rfl).1 hz e1
        | false =>
          rcases i2 rfl rfl with k | k | k
          · exact .down k.1 hz e1
          · exact .down k hz e1
          · exact .down (.down k.1 k.2 tyx) hz e1
      · by_cases hby : b = y
        · subst hby
          have e1 : turn E x b b c := keep e hcy
          cases d with
          | true =>
            rcases i3 rfl rfl with k | k | k
            · exact .down k.2 hz e1
            · exact .down (.up k.1 k.2 tyx) hz e1
            · exact .down k.1 hz e1
          | false => exact .down (i4 rfl rfl) hz e1
        · exact .down (i0 hbx hby) hz (keep e hcy)
    · intro hcx _
      subst hcx
      exact hk e
    · intro hcy _
      subst hcy
      by_cases hbx : b = x
      · subst hbx
        cases d with
        | true => exact Or.inl (i1 rfl rfl)
        | false =>
          rcases i2 rfl rfl with k | k | k
          · exact Or.inl ⟨k.1, k.2.1⟩
          · exact Or.inr (Or.inl ⟨k, hz⟩)
          · exact Or.inr (Or.inr k)
      · exact Or.inl (hk ((hc.2 b hbx).1 e))
  | @up b c hb hz e ih =>
    obtain ⟨i0, i1, i2, i3, i4⟩ := ih
    refine ⟨?_, (fun _ hh => by cases hh), ?_, (fun _ hh => by cases hh), ?_⟩
    · intro hcx hcy
      by_cases hbx : b = x
      · subst hbx
        have := both e
        rcases i2 rfl rfl with k | k | k
        · exact .bounce k.2.1 k.2.2 this.2
        · exact .up k hz this.1
        · exact .up k.1 k.2 this.2
      · by_cases hby : b = y
        · subst hby
          exact .up (i4 rfl rfl) hz (into_y e hcx)
        · exact .up (i0 hbx hby) hz (keep e hby)
    · intro hcx _
      subst hcx
      have hbx : b ≠ c := by rintro rfl; exact hac.irrefl _ e
      by_cases hby : b = y
      · subst hby
        exact Or.inr (Or.inr ⟨i4 rfl rfl, hz⟩)
      · exact Or.inr (Or.inl (.up (i0 hbx hby) hz (keep e hby)))
    · intro hcy _
      subst hcy
      have hby : b ≠ c := by rintro rfl; exact hac.irrefl _ e
      have hbx : b ≠ x := by rintro rfl; exact hyx e
      exact .up (i0 hbx hby) hz (keep e hby)
  | @bounce b c hb hz e ih =>
    obtain ⟨i0, i1, i2, i3, i4⟩ := ih
    refine ⟨?_, (fun _ hh => by cases hh), ?_, (fun _ hh => by cases hh), ?_⟩
    · intro hcx hcy
      by_cases hbx : b = x
      · subst hbx
        exact .bounce (i1 rfl rfl).1 hz (into_x e)
      · by_cases hby : b = y
        · subst hby
          rcases i3 rfl rfl with k | k | k
          · exact .bounce k.2 hz (into_y e hcx)
          · exact .up k.1 k.2 (into_x ((hc.2 c hcx).1 e))
          · exact absurd hz k.2
        · exact .bounce (i0 hbx hby) hz (keep e hby)
    · intro hcx _
      subst hcx
      have hbx : b ≠ c := by rintro rfl; exact hac.irrefl _ e
      by_cases hby : b = y
      · subst hby
        rcases i3 rfl rfl with k | k | k
        · exact Or.inl ⟨k.1, k.2, hz⟩
        · exact Or.inr (Or.inl k.1)
        · exact absurd hz k.2
      · exact Or.inr (Or.inl (.bounce (i0 hbx hby) hz (keep e hby)))
    · intro hcy _
      subst hcy
      have hby : b ≠ c := by rintro rfl; exact hac.irrefl _ e
      have hbx : b ≠ x := by rintro rfl; exact hyx e
      exact .bounce (i0 hbx hby) hz (keep e hby)

theorem ball_turn_exists (hac : Acyclic E) (hc : Covered E x y) {u v : ι} (h : ∃ d, Ball E Z u v d) :
    ∃ d, Ball (turn E x y) Z u v d := by
  obtain ⟨d, h⟩ := h
  obtain ⟨i0, i1, i2, i3, i4⟩ := ball_turn hac hc h
  have tyx : turn E x y y x := Or.inr ⟨rfl, rfl⟩
  by_cases hx : v = x
  · subst hx
    cases d with
    | true => exact ⟨_, (i1 rfl rfl).1⟩
    | false =>
      rcases i2 rfl rfl with k | k | k
      · exact ⟨_, k.1⟩
      · exact ⟨_, k⟩
      · exact ⟨_, .down k.1 k.2 tyx⟩
  · by_cases hy : v = y
    · subst hy
      cases d with
      | true =>
        rcases i3 rfl rfl with k | k | k
        · exact ⟨_, k.2⟩
        · exact ⟨_, .up k.1 k.2 tyx⟩
        · exact ⟨_, k.1⟩
      | false => exact ⟨_, i4 rfl rfl⟩
    · exact ⟨_, i0 hx hy⟩

theorem turn_turn (hac : Acyclic E) (hc : Covered E x y) : turn (turn E x y) y x = E := by
  funext a b
  refine propext ⟨?_, ?_⟩
  · rintro (⟨h1, h2⟩ | ⟨rfl, rfl⟩)
    · rcases h1 with h1 | h1
      · exact h1.1
      · exact absurd h1 h2
    · exact hc.1
  · intro e
    by_cases hh : a = x ∧ b = y
    · exact Or.inr hh
    · refine Or.inl ⟨Or.inl ⟨e, hh⟩, ?_⟩
      rintro ⟨rfl, rfl⟩
      exact hac.asymm hc.1 e

theorem turn_covered (hac : Acyclic E) (hc : Covered E x y) : Covered (turn E x y) y x := by
  have hxy : x ≠ y := by rintro rfl; exact hac.irrefl _ hc.1
  refine ⟨Or.inr ⟨rfl, rfl⟩, fun p hp => ?_⟩
  unfold turn
  by_cases hpx : p = x
  · subst hpx
    simp [hac.irrefl, hxy]
  · simp [hp, hpx, hc.2 p hpx]

/-- turning a covered edge changes no d-separation -/
theorem dsep_turn (hac : Acyclic E) (hc : Covered E x y) {u v : ι} (hne : u ≠ v) (hu : u ∉ Z) :
    DSep E u v Z ↔ DSep (turn E x y) u v Z := by
  rw [← not_iff_not, not_dsep_iff_ball hac hne hu, not_dsep_iff_ball (turn_acyclic hac hc) hne hu]
  refine ⟨ball_turn_exists hac hc, fun h => ?_⟩
  have := ball_turn_exists (turn_acyclic hac hc) (turn_covered hac hc) h
  rwa [turn_turn hac hc] at this

end

/-! ### from one graph to the other -/

theorem Equivalent.symm {E' : ι → ι → Prop} (h : Equivalent E E') : Equivalent E' E :=
  ⟨fun a b => (h.1 a b).symm, fun a b c => (h.2 a b c).symm⟩

theorem Equivalent.trans {E' E'' : ι → ι → Prop} (h : Equivalent E E') (h' : Equivalent E' E'') : Equivalent E E'' :=
  ⟨fun a b => (h.1 a b).trans (h'.1 a b), fun a b c => (h.2 a b c).trans (h'.2 a b c)⟩

theorem Equivalent.refl : Equivalent E E := ⟨fun _ _ => Iff.rfl, fun _ _ _ => Iff.rfl⟩

theorem Equivalent.edges {E' : ι → ι → Prop} (h : Equivalent E E') {N : List ι} (hN : ∀ a b, E a b → a ∈ N ∧ b ∈ N) :
    ∀ a b, E' a b → a ∈ N ∧ b ∈ N := by
  intro a b e
  rcases (h.1 a b).2 (Or.inl e) with h1 | h1
  · exact hN _ _ h1
  · exact (hN _ _ h1).symm

/-- if the graphs differ, some edge of the first is covered and turned in the second -/
theorem exists_covered {E' : ι → ι → Prop} (hac : Acyclic E) (hac' : Acyclic E') (he : Equivalent E E') {N : List ι}
    (hN : ∀ a b, E a b → a ∈ N ∧ b ∈ N) (hdiff : ∃ a b, E a b ∧ E' b a) : ∃ x y, Covered E x y ∧ E' y x := by
  classical
  let A := N.toFinset.filter (fun y => ∃ x, E x y ∧ E' y x)
  have hA : A.Nonempty := by
    obtain ⟨a, b, h1, h2⟩ := hdiff
    exact ⟨b, Finset.mem_filter.2 ⟨List.mem_toFinset.2 (hN _ _ h1).2, a, h1, h2⟩⟩
  obtain ⟨y, hy, hmin⟩ := Finset.exists_min_image A (height E N) hA
  have hy' := (Finset.mem_filter.1 hy).2
  let B := N.toFinset.filter (fun x => E x y ∧ E' y x)
  have hB : B.Nonempty := by
    obtain ⟨a, h1, h2⟩ := hy'
    exact ⟨a, Finset.mem_filter.2 ⟨List.mem_toFinset.2 (hN _ _ h1).1, h1, h2⟩⟩
  obtain ⟨x, hx, hmax⟩ := Finset.exists_max_image B (height E N) hB
  obtain ⟨exy, eyx⟩ := (Finset.mem_filter.1 hx).2
  -- edges into nodes below `y` are not turned
  have low : ∀ a b, E a b → E b y → E' a b := by
    intro a b h1 h2
    by_contra hn
    have h3 : E' b a := ((he.1 a b).1 (Or.inl h1)).resolve_left hn
    have hb : b ∈ A := Finset.mem_filter.2 ⟨List.mem_toFinset.2 (hN _ _ h1).2, a, h1, h3⟩
    exact absurd (height_lt hac hN h2) (Nat.not_lt.2 (hmin b hb))
  refine ⟨x, y, ⟨exy, fun p hp => ⟨fun h => ?_, fun h => ?_⟩⟩, eyx⟩
  · -- another parent of `y` is one of `x`
    by_cases hadj : Adj E p x
    · rcases hadj with h1 | h1
      · exact h1
      · have h2 : E' x p := low x p h1 h
        have h3 : E' y p := by
          rcases (he.1 p y).1 (Or.inl h) with h4 | h4
          · exact absurd (.tail (.tail (.single h2) h4) eyx) (hac' x)
          · exact h4
        have hpB : p ∈ B := Finset.mem_filter.2 ⟨List.mem_toFinset.2 (hN _ _ h).1, h, h3⟩
        exact absurd (height_lt hac hN h1) (Nat.not_lt.2 (hmax p hpB))
    · have := (he.2 p y x).1 ⟨⟨h, exy⟩, hp, hadj⟩
      exact absurd this.1.2 (hac'.asymm eyx)
  · -- a parent of `x` is one of `y`
    by_cases hadj : Adj E p y
    · rcases hadj with h1 | h1
      · exact h1
      · exact absurd (.tail (.tail (.single h) exy) h1) (hac p)
    · have h1 : E' p x := low p x h exy
      have hpy : p ≠ y := by rintro rfl; exact hac.asymm exy h
      have := (he.2 p x y).2 ⟨⟨h1, eyx⟩, hpy, fun hh => hadj ((he.1 _ _).2 hh)⟩
      exact absurd this.1.2 (hac.asymm exy)

/-- the same adjacencies and unshielded colliders: the same d-separations -/
theorem Equivalent.dsep_iff {E' : ι → ι → Prop} (hac : Acyclic E) (hac' : Acyclic E') (he : Equivalent E E') {N : List ι}
    (hN : ∀ a b, E a b → a ∈ N ∧ b ∈ N) {u v : ι} (hne : u ≠ v) (hu : u ∉ Z) : DSep E u v Z ↔ DSep E' u v Z := by
  classical
  generalize hn : ((N.toFinset ×ˢ N.toFinset).filter (fun p => E p.1 p.2 ∧ E' p.2 p.1)).card = n
  induction n using Nat.strong_induction_on generalizing E with
  | _ n ih =>
    by_cases hdiff : ∃ a b, E a b ∧ E' b a
    · obtain ⟨x, y, hc, e'⟩ := exists_covered hac hac' he hN hdiff
      have hac1 := turn_acyclic hac hc
      have he1 := turn_equivalent hc
      rw [dsep_turn hac hc hne hu]
      refine ih _ ?_ hac1 (he1.symm.trans he) (he1.edges hN) rfl
      rw [← hn]
      refine Finset.card_lt_card ⟨?_, ?_⟩
      · rintro ⟨a, b⟩ hab
        simp only [Finset.mem_filter, Finset.mem_product, List.mem_toFinset] at hab ⊢
        refine ⟨hab.1, ?_, hab.2.2⟩
        rcases hab.2.1 with h1 | ⟨rfl, rfl⟩
        · exact h1.1
        · exact absurd e' (hac'.asymm hab.2.2)
      · intro hs
        have : (x, y) ∈ (N.toFinset ×ˢ N.toFinset).filter (fun p => E p.1 p.2 ∧ E' p.2 p.1) := by
          simp only [Finset.mem_filter, Finset.mem_product, List.mem_toFinset]
          exact ⟨hN _ _ hc.1, hc.1, e'⟩
        have := (Finset.mem_filter.1 (hs this)).2.1
        rcases this with h1 | h1
        · exact h1.2 ⟨rfl, rfl⟩
        · have hxy : x = y := h1.1
          rw [hxy] at hc
          exact hac.irrefl _ hc.1
    · have : E = E' := by
        funext a b
        refine propext ⟨fun e => ?_, fun e => ?_⟩
        · exact ((he.1 a b).1 (Or.inl e)).resolve_right (fun h => hdiff ⟨a, b, e, h⟩)
        · rcases (he.1 a b).2 (Or.inl e) with h | h
          · exact h
          · exact absurd ⟨b, a, h, e⟩ hdiff
      rw [this]

end Dag
end Verif
