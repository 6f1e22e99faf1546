import Verif.Dag.Lemmas
import Mathlib.Data.List.Sort
import Mathlib.Data.Finset.Card
import Mathlib.Data.Finset.Dedup

/-!
# Helper lemmas: Meek's rules orient every compelled edge

`Forced` is the closure of the unshielded colliders under the first three rules.  The edges it leaves open can be turned
either way (C. Meek, Causal inference and causal explanation with background knowledge, 1995).
-/

namespace Verif
namespace Dag
variable {ι : Type} {E : ι → ι → Prop}

/-- the edges of `E` the rules derive from its unshielded colliders -/
inductive Forced (E : ι → ι → Prop) : ι → ι → Prop
  | coll {a b c : ι} (h : VStructure E a b c) : Forced E a b
  | r1 {a b c : ι} (e : E a b) (h : Forced E c a) (hne : c ≠ b) (hn : ¬ Adj E c b) : Forced E a b
  | r2 {a b c : ι} (e : E a b) (h1 : Forced E a c) (h2 : Forced E c b) : Forced E a b
  | r3 {a b c d : ι} (e : E a b) (h : VStructure E c b d) (hc : Adj E a c) (hd : Adj E a d) (hn : ¬ Collider E c a d) :
      Forced E a b

theorem Forced.edge {a b : ι} (h : Forced E a b) : E a b := by
  cases h with
  | coll h => exact h.1.1
  | r1 e => exact e
  | r2 e => exact e
  | r3 e => exact e

/-- the edges the rules leave open -/
def Open (E : ι → ι → Prop) (a b : ι) : Prop := Adj E a b ∧ ¬ Forced E a b ∧ ¬ Forced E b a

theorem Open.symm {a b : ι} (h : Open E a b) : Open E b a := ⟨h.1.symm, h.2.2, h.2.1⟩

theorem VStructure.symm {a b c : ι} (h : VStructure E a b c) : VStructure E c b a :=
  ⟨⟨h.1.2, h.1.1⟩, h.2.1.symm, fun hh => h.2.2 hh.symm⟩

/-- adjacent: forced one way, the other, or open -/
theorem Adj.cases {a b : ι} (h : Adj E a b) : Forced E a b ∨ Forced E b a ∨ Open E a b := by
  by_cases h1 : Forced E a b
  · exact Or.inl h1
  · by_cases h2 : Forced E b a
    · exact Or.inr (Or.inl h2)
    · exact Or.inr (Or.inr ⟨h, h1, h2⟩)

theorem Forced.adj_of_open {a b c : ι} (h : Forced E a b) (ho : Open E b c) : Adj E a c := by
  by_contra hn
  have hne : a ≠ c := by rintro rfl; exact ho.2.2 h
  rcases ho.1 with e | e
  · exact ho.2.1 (.r1 e h hne hn)
  · exact ho.2.2 (.coll (c := a) ⟨⟨e, h.edge⟩, hne.symm, fun hh => hn hh.symm⟩)

theorem Forced.two (hac : Acyclic E) {a b c : ι} (h1 : Forced E a c) (h2 : Forced E c b) (h : Adj E a b) : Forced E a b := by
  rcases h with e | e
  · exact .r2 e h1 h2
  · exact absurd (.tail (.tail (.single h1.edge) h2.edge) e) (hac a)

theorem Forced.three (hac : Acyclic E) {a b c d : ι} (hv : VStructure E c b d) (hc : Adj E a c) (hd : Adj E a d)
    (hn : ¬ Collider E c a d) (h : Adj E a b) : Forced E a b := by
  rcases h with e | e
  · exact .r3 e hv hc hd hn
  · refine absurd ⟨?_, ?_⟩ hn
    · rcases hc with e' | e'
      · exact absurd (.tail (.tail (.single e') hv.1.1) e) (hac a)
      · exact e'
    · rcases hd with e' | e'
      · exact absurd (.tail (.tail (.single e') hv.1.2) e) (hac a)
      · exact e'

/-- the arrows of an unshielded collider at `b` go on to every open neighbour of `b` -/
theorem VStructure.forced_open (hac : Acyclic E) {a b c d : ι} (hv : VStructure E a b d) (ho : Open E b c) :
    Forced E a c ∧ Forced E d c := by
  have fa : Forced E a b := .coll hv
  have fd : Forced E d b := .coll hv.symm
  have aa := fa.adj_of_open ho
  have ad := fd.adj_of_open ho
  have na : ¬ Forced E c a := fun h => ho.2.2 (h.two hac fa ho.1.symm)
  have nd : ¬ Forced E c d := fun h => ho.2.2 (h.two hac fd ho.1.symm)
  rcases aa.cases with h1 | h1 | h1
  · refine ⟨h1, ?_⟩
    rcases ad.cases with h2 | h2 | h2
    · exact h2
    · exact absurd h2 nd
    · exact absurd (h1.adj_of_open h2.symm) hv.2.2
  · exact absurd h1 na
  · rcases ad.cases with h2 | h2 | h2
    · exact absurd (h2.adj_of_open h1.symm).symm hv.2.2
    · exact absurd h2 nd
    · refine absurd (Forced.three hac hv h1.1.symm h2.1.symm ?_ ho.1.symm) ho.2.2
      intro hcol
      exact h1.2.1 (.coll ⟨hcol, hv.2⟩)

/-- an arrow into `b` goes on to every open neighbour of `b` -/
theorem Forced.open_right (hac : Acyclic E) (hwf : WellFounded E) {a b c : ι} (h : Forced E a b) (ho : Open E b c) :
    Forced E a c := by
  induction b using hwf.induction generalizing a c with
  | _ b ih =>
    have aac := h.adj_of_open ho
    rcases aac.cases with h1 | h1 | h1
    · exact h1
    · exact absurd (h1.two hac h ho.1.symm) ho.2.2
    · exfalso
      cases h with
      | coll hv => exact h1.2.1 (hv.forced_open hac ho).1
      | @r1 _ _ d e hd hne hn =>
        have had := hd.adj_of_open h1
        rcases had.cases with h2 | h2 | h2
        · exact hn (h2.adj_of_open ho.symm)
        · exact h1.2.2 (h2.two hac hd h1.1.symm)
        · exact h2.2.1 (ih a e hd h1)
      | @r2 _ _ d e h3 h4 =>
        have hdc := h4.adj_of_open ho
        rcases hdc.cases with h2 | h2 | h2
        · exact h1.2.1 (h3.two hac h2 h1.1)
        · exact ho.2.2 (h2.two hac h4 ho.1.symm)
        · exact h1.2.1 (ih d h4.edge h3 h2)
      | @r3 _ _ d d' e hv hd hd' hn =>
        obtain ⟨k1, k2⟩ := hv.forced_open hac ho
        refine h1.2.1 (Forced.three hac ?_ hd hd' hn h1.1)
        exact ⟨⟨k1.edge, k2.edge⟩, hv.2⟩

/-! ### orders in which the later neighbours of a node are adjacent -/

/-- every node's neighbours further on in the list are pairwise neighbours -/
def Peo (U : ι → ι → Prop) : List ι → Prop
  | [] => True
  | z :: l => (∀ x ∈ l, ∀ y ∈ l, U z x → U z y → x ≠ y → U x y) ∧ Peo U l

theorem Peo.sublist {U : ι → ι → Prop} {l l' : List ι} (hs : l'.Sublist l) (h : Peo U l) : Peo U l' := by
  induction hs with
  | slnil => exact h
  | cons _ _ ih => exact ih h.2
  | cons_cons _ hs ih => exact ⟨fun x hx y hy => h.1 x (hs.subset hx) y (hs.subset hy), ih h.2⟩

/-- the neighbours of `x` in the list are pairwise neighbours -/
def Simplicial (U : ι → ι → Prop) (l : List ι) (x : ι) : Prop :=
  ∀ u ∈ l, ∀ v ∈ l, U x u → U x v → u ≠ v → U u v

theorem Peo.two_simplicial {U : ι → ι → Prop} (hsym : ∀ a b, U a b → U b a) (hirr : ∀ a, ¬ U a a) {l : List ι} (h : Peo U l) :
    (∀ x ∈ l, ∀ y ∈ l, x ≠ y → U x y) ∨
      ∃ x ∈ l, ∃ y ∈ l, x ≠ y ∧ ¬ U x y ∧ Simplicial U l x ∧ Simplicial U l y := by
  classical
  induction l with
  | nil => exact Or.inl (by simp)
  | cons z l ih =>
    have hz : Simplicial U (z :: l) z := by
      intro u hu v hv h1 h2 hne
      rcases List.mem_cons.1 hu with rfl | hu
      · exact absurd h1 (hirr _)
      rcases List.mem_cons.1 hv with rfl | hv
      · exact absurd h2 (hirr _)
      exact h.1 u hu v hv h1 h2 hne
    have up : ∀ x, x ∈ l → ¬ U z x → Simplicial U l x → Simplicial U (z :: l) x := by
      intro x _ hn hs u hu v hv h1 h2 hne
      rcases List.mem_cons.1 hu with rfl | hu
      · exact absurd (hsym _ _ h1) hn
      rcases List.mem_cons.1 hv with rfl | hv
      · exact absurd (hsym _ _ h2) hn
      exact hs u hu v hv h1 h2 hne
    by_cases hall : ∀ x ∈ l, z ≠ x → U z x
    · rcases ih h.2 with hc | ⟨x, hx, y, hy, hne, hn, _, _⟩
      · left
        intro x hx y hy hne
        rcases List.mem_cons.1 hx with hx' | hx'
        · rcases List.mem_cons.1 hy with hy' | hy'
          · exact absurd (hx'.trans hy'.symm) hne
          · rw [hx'] at hne ⊢; exact hall y hy' hne
        · rcases List.mem_cons.1 hy with hy' | hy'
          · rw [hy'] at hne ⊢; exact hsym _ _ (hall x hx' hne.symm)
          · exact hc x hx' y hy' hne
      · right
        -- `z` has both as neighbours, or is one of them
        by_cases hzx : z = x
        · subst hzx; exact absurd (hall y hy hne) hn
        by_cases hzy : z = y
        · subst hzy; exact absurd (hsym _ _ (hall x hx hne.symm)) hn
        exact absurd (h.1 x hx y hy (hall x hx hzx) (hall y hy hzy) hne) hn
    · push Not at hall
      obtain ⟨w, hw, hzw, hnw⟩ := hall
      right
      rcases ih h.2 with hc | ⟨x, hx, y, hy, hne, hn, sx, sy⟩
      · refine ⟨z, by simp, w, by simp [hw], hzw, hnw, hz, up w hw hnw ?_⟩
        intro u hu v hv _ _ hne
        exact hc u hu v hv hne
      · by_cases h1 : U z x
        · have hzy : z ≠ y := by rintro rfl; exact hn (hsym _ _ h1)
          have : ¬ U z y := fun h2 => hn (h.1 x hx y hy h1 h2 hne)
          exact ⟨z, by simp, y, by simp [hy], hzy, this, hz, up y hy this sy⟩
        · by_cases hzx : z = x
          · subst hzx
            refine ⟨z, by simp, y, by simp [hy], hne, hn, hz, up y hy ?_ sy⟩
            exact hn
          · exact ⟨z, by simp, x, by simp [hx], hzx, h1, hz, up x hx h1 sx⟩

/-- any node can be put last -/
theorem Peo.last {U : ι → ι → Prop} (hsym : ∀ a b, U a b → U b a) (hirr : ∀ a, ¬ U a a) {l : List ι} (h : Peo U l)
    (hnd : l.Nodup) {b : ι} (hb : b ∈ l) : ∃ m, (m ++ [b]).Perm l ∧ Peo U (m ++ [b]) := by
  classical
  generalize hn : l.length = n
  induction n generalizing l with
  | zero => rw [List.length_eq_zero_iff] at hn; subst hn; cases hb
  | succ n ih =>
    by_cases hone : l = [b]
    · subst hone; exact ⟨[], by simp, h⟩
    have hex : ∃ s ∈ l, s ≠ b := by
      by_contra hh
      push Not at hh
      apply hone
      cases l with
      | nil => cases hb
      | cons x l =>
        have hx := hh x (by simp)
        subst hx
        cases l with
        | nil => rfl
        | cons y l =>
          have := hh y (by simp)
          subst this
          simp at hnd
    have : ∃ s ∈ l, s ≠ b ∧ Simplicial U l s := by
      rcases h.two_simplicial hsym hirr with hc | ⟨x, hx, y, hy, hne, _, sx, sy⟩
      · obtain ⟨s, hs, hsb⟩ := hex
        exact ⟨s, hs, hsb, fun u hu v hv _ _ hne => hc u hu v hv hne⟩
      · by_cases hxb : x = b
        · exact ⟨y, hy, fun hh => hne (hxb.trans hh.symm), sy⟩
        · exact ⟨x, hx, hxb, sx⟩
    obtain ⟨s, hs, hsb, hss⟩ := this
    obtain ⟨m, hm, hp⟩ := ih (h.sublist List.erase_sublist) (hnd.erase s) ((List.mem_erase_of_ne (Ne.symm hsb)).2 hb)
      (by rw [List.length_erase_of_mem hs, hn]; rfl)
    refine ⟨s :: m, ?_, ?_, hp⟩
    · exact (List.Perm.cons s hm).trans (List.perm_cons_erase hs).symm
    · intro x hx y hy
      exact hss x (List.mem_of_mem_erase (hm.subset hx)) y (List.mem_of_mem_erase (hm.subset hy))

/-! ### turning an open edge -/

/-- the number of ancestors -/
noncomputable def height (E : ι → ι → Prop) (N : List ι) (b : ι) : Nat := by
  classical exact (N.toFinset.filter (fun x => Relation.TransGen E x b)).card

theorem height_lt (hac : Acyclic E) {N : List ι} (hN : ∀ a b, E a b → a ∈ N ∧ b ∈ N) {a b : ι} (e : E a b) :
    height E N a < height E N b := by
  classical
  unfold height
  refine Finset.card_lt_card ⟨?_, ?_⟩
  · intro x hx
    simp only [Finset.mem_filter, List.mem_toFinset] at hx ⊢
    exact ⟨hx.1, hx.2.tail e⟩
  · intro hs
    have : a ∈ N.toFinset.filter (fun x => Relation.TransGen E x b) := by
      simp only [Finset.mem_filter, List.mem_toFinset]
      exact ⟨(hN a b e).1, .single e⟩
    have := hs this
    simp only [Finset.mem_filter, List.mem_toFinset] at this
    exact hac a this.2

theorem wellFounded (hac : Acyclic E) {N : List ι} (hN : ∀ a b, E a b → a ∈ N ∧ b ∈ N) : WellFounded E :=
  Subrelation.wf (fun {_ _} e => height_lt hac hN e) (InvImage.wf (height E N) Nat.lt_wfRel.wf)

/-- the nodes, children before their parents -/
theorem exists_peo (hac : Acyclic E) {N : List ι} (hN : ∀ a b, E a b → a ∈ N ∧ b ∈ N) :
    ∃ l : List ι, l.Nodup ∧ (∀ x, x ∈ l ↔ x ∈ N) ∧ Peo (Open E) l := by
  classical
  let l := N.dedup.insertionSort (fun a b => height E N b ≤ height E N a)
  have hp : l.Perm N.dedup := List.perm_insertionSort _ _
  have hs : l.Pairwise (fun a b => height E N b ≤ height E N a) := by
    have : Std.Total (fun a b : ι => height E N b ≤ height E N a) := ⟨fun a b => Nat.le_total _ _⟩
    have : IsTrans ι (fun a b : ι => height E N b ≤ height E N a) := ⟨fun a b c h1 h2 => Nat.le_trans h2 h1⟩
    exact List.pairwise_insertionSort _ _
  refine ⟨l, hp.nodup_iff.2 (List.nodup_dedup _), fun x => by rw [hp.mem_iff, List.mem_dedup], ?_⟩
  generalize l = l at hs
  induction l with
  | nil => exact trivial
  | cons z l ih =>
    rw [List.pairwise_cons] at hs
    refine ⟨?_, ih hs.2⟩
    have par : ∀ x ∈ l, Open E z x → E x z := by
      intro x hx ho
      rcases ho.1 with e | e
      · exact absurd (height_lt hac hN e) (Nat.not_lt.2 (hs.1 x hx))
      · exact e
    intro x hx y hy ox oy hne
    have ex := par x hx ox
    have ey := par y hy oy
    have hadj : Adj E x y := by
      by_contra hn
      exact ox.2.2 (.coll (c := y) ⟨⟨ex, ey⟩, hne, hn⟩)
    have hwf := wellFounded hac hN
    refine ⟨hadj, ?_, ?_⟩
    · intro hf; exact ox.2.2 (hf.open_right hac hwf oy.symm)
    · intro hf; exact oy.2.2 (hf.open_right hac hwf ox.symm)

/-- the forced edges, and the open ones turned away from the later node of the list -/
def turned (E : ι → ι → Prop) [DecidableEq ι] (l : List ι) (a b : ι) : Prop :=
  Forced E a b ∨ (Open E a b ∧ l.idxOf b < l.idxOf a)

theorem Peo.idx [DecidableEq ι] {U : ι → ι → Prop} {l : List ι} (h : Peo U l) {x y z : ι} (hx : x ∈ l) (hy : y ∈ l)
    (h1 : U z x) (h2 : U z y) (hne : x ≠ y) (k1 : l.idxOf z < l.idxOf x) (k2 : l.idxOf z < l.idxOf y) : U x y := by
  induction l with
  | nil => cases hx
  | cons w l ih =>
    by_cases hw : w = z
    · subst hw
      have hxl : x ∈ l := by
        rcases List.mem_cons.1 hx with rfl | hx
        · exact absurd k1 (Nat.lt_irrefl _)
        · exact hx
      have hyl : y ∈ l := by
        rcases List.mem_cons.1 hy with rfl | hy
        · exact absurd k2 (Nat.lt_irrefl _)
        · exact hy
      exact h.1 x hxl y hyl h1 h2 hne
    · have hwx : w ≠ x := by rintro rfl; rw [List.idxOf_cons_self] at k1; exact Nat.not_lt_zero _ k1
      have hwy : w ≠ y := by rintro rfl; rw [List.idxOf_cons_self] at k2; exact Nat.not_lt_zero _ k2
      rw [List.idxOf_cons_ne _ hw, List.idxOf_cons_ne _ hwx] at k1
      rw [List.idxOf_cons_ne _ hw, List.idxOf_cons_ne _ hwy] at k2
      exact ih h.2 ((List.mem_cons.1 hx).resolve_left (Ne.symm hwx)) ((List.mem_cons.1 hy).resolve_left (Ne.symm hwy))
        (Nat.lt_of_succ_lt_succ k1) (Nat.lt_of_succ_lt_succ k2)

section
variable [DecidableEq ι] {l : List ι}

theorem turned_path (hac : Acyclic E) (hwf : WellFounded E) {x y : ι} (h : Relation.TransGen (turned E l) x y) :
    (Relation.ReflTransGen (Open E) x y ∧ l.idxOf y < l.idxOf x) ∨
      ∃ z, Relation.ReflTransGen (Open E) x z ∧ Relation.TransGen (Forced E) z y := by
  induction h with
  | single h =>
    rcases h with h | h
    · exact Or.inr ⟨x, .refl, .single h⟩
    · exact Or.inl ⟨.single h.1, h.2⟩
  | @tail y w h0 h ih =>
    rcases h with h | ⟨ho, hi⟩
    · right
      rcases ih with ⟨h1, _⟩ | ⟨z, h1, h2⟩
      · exact ⟨y, h1, .single h⟩
      · exact ⟨z, h1, h2.tail h⟩
    · rcases ih with ⟨h1, h2⟩ | ⟨z, h1, h2⟩
      · exact Or.inl ⟨h1.tail ho, Nat.lt_trans hi h2⟩
      · right
        refine ⟨z, h1, ?_⟩
        cases h2 with
        | single h3 => exact .single (h3.open_right hac hwf ho)
        | tail h3 h4 => exact h3.tail (h4.open_right hac hwf ho)

omit [DecidableEq ι] in
theorem Forced.open_path (hac : Acyclic E) (hwf : WellFounded E) {a x z : ι} (h : Forced E a x)
    (hp : Relation.ReflTransGen (Open E) x z) : Forced E a z := by
  induction hp with
  | refl => exact h
  | tail _ ho ih => exact ih.open_right hac hwf ho

theorem turned_acyclic (hac : Acyclic E) (hwf : WellFounded E) : Acyclic (turned E l) := by
  intro x h
  rcases turned_path hac hwf h with ⟨_, h2⟩ | ⟨z, h1, h2⟩
  · exact Nat.lt_irrefl _ h2
  · have : Relation.TransGen (Forced E) z z := by
      cases h2 with
      | single h3 => exact .single (h3.open_path hac hwf h1)
      | tail h3 h4 => exact h3.tail (h4.open_path hac hwf h1)
    exact hac z (this.lift id (fun _ _ h => h.edge))

theorem turned_adj (hac : Acyclic E) (hl : ∀ a b, E a b → a ∈ l ∧ b ∈ l) (a b : ι) : Adj E a b ↔ Adj (turned E l) a b := by
  constructor
  · intro h
    rcases h.cases with h1 | h1 | h1
    · exact Or.inl (Or.inl h1)
    · exact Or.inr (Or.inl h1)
    · have ha : a ∈ l := h.elim (fun e => (hl _ _ e).1) (fun e => (hl _ _ e).2)
      have hne : a ≠ b := by
        rintro rfl
        exact h.elim (hac.irrefl a) (hac.irrefl a)
      have hi : l.idxOf a ≠ l.idxOf b := fun hh => hne ((List.idxOf_inj ha).1 hh)
      rcases Nat.lt_or_gt_of_ne hi with h2 | h2
      · exact Or.inr (Or.inr ⟨h1.symm, h2⟩)
      · exact Or.inl (Or.inr ⟨h1, h2⟩)
  · rintro ((h | h) | (h | h))
    · exact Or.inl h.edge
    · exact h.1.1
    · exact Or.inr h.edge
    · exact h.1.1.symm

theorem turned_equivalent (hac : Acyclic E) (hwf : WellFounded E) (hl : ∀ a b, E a b → a ∈ l ∧ b ∈ l)
    (hp : Peo (Open E) l) : Equivalent E (turned E l) := by
  have hadj := turned_adj (l := l) hac hl
  have mem : ∀ {a b}, Open E a b → a ∈ l := fun h => h.1.elim (fun e => (hl _ _ e).1) (fun e => (hl _ _ e).2)
  refine ⟨hadj, fun a b c => ⟨fun h => ?_, ?_⟩⟩
  · exact ⟨⟨Or.inl (.coll h), Or.inl (.coll h.symm)⟩, h.2.1, fun hh => h.2.2 ((hadj _ _).2 hh)⟩
  · rintro ⟨⟨h1, h2⟩, hne, hn⟩
    rw [← hadj] at hn
    refine ⟨⟨?_, ?_⟩, hne, hn⟩
    all_goals
      rcases h1 with h1 | ⟨h1, k1⟩ <;> rcases h2 with h2 | ⟨h2, k2⟩
    · exact h1.edge
    · exact absurd (Or.inl (h1.open_right hac hwf h2.symm).edge) hn
    · exact absurd (Or.inr (h2.open_right hac hwf h1.symm).edge) hn
    · exact absurd (hp.idx (mem h1) (mem h2) h1.symm h2.symm hne k1 k2).1 hn
    · exact h2.edge
    · exact absurd (Or.inl (h1.open_right hac hwf h2.symm).edge) hn
    · exact absurd (Or.inr (h2.open_right hac hwf h1.symm).edge) hn
    · exact absurd (hp.idx (mem h1) (mem h2) h1.symm h2.symm hne k1 k2).1 hn

/-- an edge the rules leave open can be turned either way -/
theorem Open.exists_turned (hac : Acyclic E) {N : List ι} (hN : ∀ a b, E a b → a ∈ N ∧ b ∈ N) {a b : ι} (h : Open E a b) :
    ∃ E', Acyclic E' ∧ Equivalent E E' ∧ E' a b := by
  have hwf := wellFounded hac hN
  obtain ⟨l, hnd, hm, hp⟩ := exists_peo hac hN
  have ha : a ∈ l := (hm a).2 (h.1.elim (fun e => (hN _ _ e).1) (fun e => (hN _ _ e).2))
  have hb : b ∈ l := (hm b).2 (h.1.elim (fun e => (hN _ _ e).2) (fun e => (hN _ _ e).1))
  obtain ⟨m, hperm, hp'⟩ := Peo.last (U := Open E) (fun _ _ hh => hh.symm)
    (fun x hx => hx.1.elim (hac.irrefl x) (hac.irrefl x)) hp hnd ha
  refine ⟨turned E (m ++ [a]), turned_acyclic hac hwf, turned_equivalent hac hwf ?_ hp', Or.inr ⟨h, ?_⟩⟩
  · intro x y e
    exact ⟨hperm.mem_iff.2 ((hm x).2 (hN _ _ e).1), hperm.mem_iff.2 ((hm y).2 (hN _ _ e).2)⟩
  · have hne : a ≠ b := by
      rintro rfl
      exact h.1.elim (hac.irrefl a) (hac.irrefl a)
    have ham : a ∉ m := by
      have := hperm.nodup_iff.2 hnd
      rw [List.nodup_append] at this
      intro hh
      exact this.2.2 a hh a (by simp) rfl
    have hbm : b ∈ m := by
      have := hperm.mem_iff.2 hb
      rw [List.mem_append, List.mem_singleton] at this
      exact this.resolve_right (Ne.symm hne)
    rw [List.idxOf_append_of_mem hbm, List.idxOf_append_of_notMem ham]
    have := List.idxOf_lt_length_of_mem hbm
    omega

end

end Dag
end Verif
