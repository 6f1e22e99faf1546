import Verif.Dag.Spec
import Mathlib.Tactic.Tauto
import Mathlib.Data.List.Nodup

/-!
# Facts about d-separation
-/

namespace Verif
namespace Dag
variable {ι : Type} {E : ι → ι → Prop}

theorem Adj.symm {a b : ι} (h : Adj E a b) : Adj E b a := Or.symm h

theorem Acyclic.irrefl (h : Acyclic E) (a : ι) : ¬ E a a := fun e => h a (.single e)

theorem Acyclic.asymm (h : Acyclic E) {a b : ι} (e : E a b) : ¬ E b a :=
  fun e' => h a (.tail (.single e) e')

theorem collider_comm {a b c : ι} : Collider E a b c ↔ Collider E c b a := And.comm

theorem isPath_pair {u v : ι} (hne : u ≠ v) (h : Adj E u v) : IsPath E u v [u, v] :=
  ⟨rfl, rfl, by simp [hne], by simpa using h⟩

theorem not_blocked_pair {u v : ι} {Z : List ι} : ¬ Blocked E Z [u, v] := by
  rintro ⟨a, b, c, h, _⟩
  have := h.length_le
  simp at this

/-- adjacent nodes are never d-separated -/
theorem Adj.not_dsep {u v : ι} (hne : u ≠ v) (h : Adj E u v) (Z : List ι) : ¬ DSep E u v Z :=
  fun hd => not_blocked_pair (hd _ (isPath_pair hne h))

theorem IsPath.reverse {u v : ι} {p : List ι} (h : IsPath E u v p) : IsPath E v u p.reverse := by
  obtain ⟨h1, h2, h3, h4⟩ := h
  refine ⟨by simpa using h2, by simpa using h1, List.nodup_reverse.2 h3, ?_⟩
  rw [List.isChain_reverse]
  exact h4.imp (fun _ _ => Adj.symm)

theorem Blocked.reverse {Z p : List ι} (h : Blocked E Z p) : Blocked E Z p.reverse := by
  obtain ⟨a, b, c, h1, h2⟩ := h
  refine ⟨c, b, a, ?_, ?_⟩
  · have := List.reverse_infix.2 h1
    simpa using this
  · rw [collider_comm]; exact h2

theorem DSep.symm {u v : ι} {Z : List ι} (h : DSep E u v Z) : DSep E v u Z := by
  intro p hp
  have := (h _ hp.reverse).reverse
  simpa using this

theorem DSep.congr {u v : ι} {Z Z' : List ι} (hz : ∀ x, x ∈ Z ↔ x ∈ Z') (h : DSep E u v Z) : DSep E u v Z' := by
  intro p hp
  obtain ⟨a, b, c, h1, h2⟩ := h p hp
  exact ⟨a, b, c, h1, by simpa [hz] using h2⟩

/-- On an unshielded triple a separating set contains the middle node iff it is not a collider. -/
theorem DSep.mem_iff_not_collider {x y z : ι} {Z : List ι} (hxy : x ≠ y) (hxz : x ≠ z) (hzy : z ≠ y)
    (h1 : Adj E x z) (h2 : Adj E z y) (h : DSep E x y Z) : z ∈ Z ↔ ¬ Collider E x z y := by
  have hp : IsPath E x y [x, z, y] := ⟨rfl, rfl, by simp [hxy, hxz, hzy], by simp [h1, h2]⟩
  obtain ⟨a, b, c, hi, hb⟩ := h _ hp
  have heq : [a, b, c] = [x, z, y] := hi.eq_of_length rfl
  simp only [List.cons.injEq, and_true] at heq
  obtain ⟨rfl, rfl, rfl⟩ := heq
  rcases hb with ⟨hc, hd⟩ | ⟨hc, hz⟩
  · exact ⟨fun hz => absurd hz (hd _ .refl), fun hn => absurd hc hn⟩
  · exact ⟨fun _ => hc, fun _ => hz⟩

/-- A path leaving downwards towards a non-descendant meets a collider that is a descendant. -/
theorem exists_collider_of_down {u v : ι} (hv : ¬ Relation.TransGen E u v) :
    ∀ (rest : List ι) (a b : ι), E a b → Relation.TransGen E u b →
      (a :: b :: rest).IsChain (Adj E) → (b :: rest).getLast? = some v →
      ∃ x y z, [x, y, z] <:+: (a :: b :: rest) ∧ Collider E x y z ∧ Relation.TransGen E u y := by
  intro rest
  induction rest with
  | nil =>
    intro a b _ hub _ hl
    simp only [List.getLast?_singleton, Option.some.injEq] at hl
    subst hl
    exact absurd hub hv
  | cons c r ih =>
    intro a b hab hub hch hl
    have hch' := hch
    simp only [List.isChain_cons_cons] at hch
    rcases hch.2.1 with h | h
    · obtain ⟨x, y, z, h1, h2, h3⟩ := ih b c h (.tail hub h)
        (by simpa only [List.isChain_cons_cons] using hch.2) (by simpa using hl)
      exact ⟨x, y, z, h1.trans (List.suffix_cons _ _).isInfix, h2, h3⟩
    · refine ⟨a, b, c, ⟨[], r, by simp⟩, ⟨hab, h⟩, hub⟩

/-- Local Markov property: the parents of `u` separate it from every non-adjacent non-descendant. -/
theorem dsep_parents (hac : Acyclic E) {u v : ι} (hne : u ≠ v) (hadj : ¬ Adj E u v)
    (hv : ¬ Relation.TransGen E u v) {Z : List ι} (hZ : ∀ x, x ∈ Z ↔ E x u) : DSep E u v Z := by
  rintro p ⟨h1, h2, h3, h4⟩
  match p, h1, h2, h3, h4 with
  | [_], h1, h2, _, _ =>
    simp only [List.head?_cons, Option.some.injEq, List.getLast?_singleton] at h1 h2
    exact absurd (h1.symm.trans h2) hne
  | [a, b], h1, h2, _, h4 =>
    simp at h1 h2 h4
    subst h1 h2
    exact absurd h4 hadj
  | a :: b :: c :: r, h1, h2, h3, h4 =>
    simp only [List.head?_cons, Option.some.injEq] at h1
    subst h1
    have h4' := h4
    simp only [List.isChain_cons_cons] at h4
    rcases h4.1 with h | h
    · obtain ⟨x, y, z, i1, i2, i3⟩ := exists_collider_of_down hv (c :: r) a b h (.single h) h4'
        (by simpa using h2)
      refine ⟨x, y, z, i1, Or.inl ⟨i2, ?_⟩⟩
      intro d hd hdZ
      exact hac a ((i3.trans_left hd).tail ((hZ d).1 hdZ))
    · refine ⟨a, b, c, ⟨[], r, by simp⟩, Or.inr ⟨?_, (hZ b).2 h⟩⟩
      intro hc
      exact hac.asymm h hc.1

/-- Two non-adjacent nodes of a DAG are separated by the parents of one of them. -/
theorem dsep_of_not_adj (hac : Acyclic E) {u v : ι} (hne : u ≠ v) (hadj : ¬ Adj E u v) {Zu Zv : List ι}
    (hu : ∀ x, x ∈ Zu ↔ E x u) (hv : ∀ x, x ∈ Zv ↔ E x v) : DSep E u v Zu ∨ DSep E u v Zv := by
  by_cases h : Relation.TransGen E u v
  · right
    refine (dsep_parents hac (Ne.symm hne) (fun hh => hadj hh.symm) ?_ hv).symm
    intro h'
    exact hac u (h.trans h')
  · exact Or.inl (dsep_parents hac hne hadj h hu)

end Dag
end Verif
