import Verif.Orient.Spec
import Verif.CI.Lemmas4

/-!
# Helper lemmas: what the propagation rules propose
-/

namespace Verif
open Graph CI
variable {ι ρ δ : Type} [DecidableEq ι]

namespace Graph
variable {g : Graph ι δ}

theorem arrow_iff (h : WF0 g) {a b : ι} : g.Arrow a b ↔ g.live a b = true ∧ g.live b a = false := by
  unfold Arrow; rw [directedEdgeExists_eq h, directedEdgeExists_eq h]

theorem line_iff (h : WF0 g) {a b : ι} : g.Line a b ↔ g.live a b = true ∧ g.live b a = true := by
  unfold Line; rw [directedEdgeExists_eq h, directedEdgeExists_eq h]

theorem adj_iff (h : WF0 g) {a b : ι} : g.Adj a b ↔ g.live a b = true ∨ g.live b a = true := by
  unfold Adj; rw [directedEdgeExists_eq h, directedEdgeExists_eq h]

theorem only_iff {a b : ι} : g.onlyDirectedEdgeExists a b = true ↔ g.Arrow a b := by
  unfold onlyDirectedEdgeExists Arrow; simp

theorem und_iff {a b : ι} : g.undirectedEdgeExists a b = true ↔ g.Line a b := by
  unfold undirectedEdgeExists Line; simp

theorem edge_iff (h : WF0 g) {a b : ι} : g.edgeExists a b = true ↔ g.Adj a b := by
  rw [adj_iff h, edgeExists_eq h, Bool.or_eq_true]

theorem nedge_iff (h : WF0 g) {a b : ι} : g.edgeExists a b = false ↔ ¬ g.Adj a b := by
  rw [← edge_iff h, Bool.not_eq_true]

theorem Line.symm {a b : ι} (h : g.Line a b) : g.Line b a := ⟨h.2, h.1⟩
theorem Line.adj {a b : ι} (h : g.Line a b) : g.Adj a b := Or.inl h.1
theorem Arrow.adj {a b : ι} (h : g.Arrow a b) : g.Adj a b := Or.inl h.1
theorem Adj.symm {a b : ι} (h : g.Adj a b) : g.Adj b a := Or.symm h

theorem Arrow.not_line {a b : ι} (h : g.Arrow a b) : ¬ g.Line a b := by
  intro hl; have := h.2; rw [hl.2] at this; cases this

theorem Arrow.not_line' {a b : ι} (h : g.Arrow a b) : ¬ g.Line b a := fun hl => h.not_line hl.symm

theorem Arrow.asymm {a b : ι} (h : g.Arrow a b) : ¬ g.Arrow b a := by
  intro hl; have := h.2; rw [hl.1] at this; cases this

theorem WF0.adj_nodes (h : WF0 g) {a b : ι} (ha : g.Adj a b) : a ∈ g.nodes ∧ b ∈ g.nodes := by
  rw [adj_iff h] at ha
  rcases ha with ha | ha
  · exact h.live_nodes ha
  · exact (h.live_nodes ha).symm

theorem WF0.adj_ne (h : WF0 g) {a b : ι} (ha : g.Adj a b) : a ≠ b := by
  rw [adj_iff h] at ha
  rcases ha with ha | ha
  · exact h.live_ne ha
  · exact (h.live_ne ha).symm

end Graph

namespace Orient

/-- the answer of a rule: nothing, a note, or removals of the backward direction of lines it may orient -/
def Answer (M : CGraph ι ρ → ι → ι → Prop) (g : CGraph ι ρ) (r : CResult ι ρ) : Prop :=
  r.action = .doNothing ∨ (r.action = .removeEdgeDirected ∧ M g r.v r.u)

theorem commonKeys_ok {g : CGraph ι ρ} (hr : Rows g) {x y : ι} (hx : x ∈ g.nodes) (hy : y ∈ g.nodes) (hxy : x ≠ y) :
    commonKeys g x y = .ok ((g.edges.keys2 x).filter (fun z => decide (z ∈ g.edges.keys2 y))) := by
  unfold commonKeys
  simp [hr x hx y hy hxy, hr y hy x hx hxy.symm]

theorem mem_keys2_live {g : CGraph ι ρ} {x z : ι} (h : g.live x z = true) : z ∈ g.edges.keys2 x := by
  obtain ⟨e, he, _⟩ := live_iff.1 h
  exact (mem_keys2_iff x z).2 ⟨e, he⟩

theorem keys2_nodes {g : CGraph ι ρ} (hwf : WF0 g) {x z : ι} (h : z ∈ g.edges.keys2 x) : z ∈ g.nodes ∧ z ≠ x := by
  obtain ⟨e, he⟩ := (mem_keys2_iff x z).1 h
  obtain ⟨_, _, h1, h2, _⟩ := hwf.edge x z e he
  exact ⟨hwf.rowsN z h2, h1.symm⟩

/-! ### rule 1 -/

theorem guarded_iff {g : CGraph ι ρ} (hwf : WF0 g) {a z : ι} :
    guarded g a z = true ↔ ∃ n, g.Arrow n a ∧ ¬ g.Adj n z := by
  unfold guarded
  simp only [List.any_eq_true, Bool.and_eq_true, Bool.not_eq_true', only_iff, nedge_iff hwf]
  constructor
  · rintro ⟨n, _, h⟩; exact ⟨n, h⟩
  · rintro ⟨n, h⟩; exact ⟨n, (hwf.adj_nodes h.1.adj).1, h⟩

theorem nonColliderLoop_spec {g : CGraph ι ρ} (hwf : WF0 g) {x y : ι} (hxy : ¬ g.Adj x y) (hne : x ≠ y) (zs : List ι)
    (hz : ∀ z ∈ zs, z ∈ g.nodes) : ∃ o, nonColliderLoop g x y zs = .ok o ∧
      (∀ r ∈ o.getD [], (r.action = .doNothing ∨ r.action = .removeEdgeDirected) ∧ Meek1 g r.v r.u ∧
        (r.action = .removeEdgeDirected ↔ ¬ ∃ n, g.Arrow n r.u ∧ ¬ g.Adj n r.v)) ∧
      ((∃ z ∈ zs, (g.Arrow x z ∧ g.Line z y) ∨ (g.Arrow y z ∧ g.Line z x)) → ∃ r, o = some [r]) := by
  induction zs with
  | nil => exact ⟨none, rfl, by simp, by simp⟩
  | cons z zs ih =>
    obtain ⟨o, h1, h2, h3⟩ := ih (fun z hz' => hz z (List.mem_cons_of_mem _ hz'))
    unfold nonColliderLoop
    rw [if_neg (by simpa using hz z List.mem_cons_self)]
    have hans : ∀ a b : ι, g.Arrow a z → g.Line z b → ¬ g.Adj a b → a ≠ b →
        ∀ r ∈ (some [if guarded g b z then (stay b z : CResult ι ρ) else cut b z]).getD [],
        (r.action = .doNothing ∨ r.action = .removeEdgeDirected) ∧ Meek1 g r.v r.u ∧
        (r.action = .removeEdgeDirected ↔ ¬ ∃ n, g.Arrow n r.u ∧ ¬ g.Adj n r.v) := by
      intro a b ha hb hab hne r hr
      simp only [Option.getD_some, List.mem_singleton] at hr
      have hM : Meek1 g z b := ⟨hb, a, ha, hne, hab⟩
      have hg := guarded_iff hwf (a := b) (z := z)
      by_cases hgd : guarded g b z = true
      · rw [if_pos hgd] at hr; subst hr
        exact ⟨Or.inl rfl, hM, by simpa [stay] using hg.1 hgd⟩
      · rw [if_neg hgd] at hr; subst hr
        refine ⟨Or.inr rfl, hM, ?_⟩
        simp only [cut, true_iff]
        exact fun hh => hgd (hg.2 hh)
    by_cases c1 : g.Arrow x z ∧ g.Line z y
    · rw [if_pos (by rw [Bool.and_eq_true, only_iff, und_iff]; exact c1)]
      exact ⟨_, rfl, hans x y c1.1 c1.2 hxy hne, fun _ => ⟨_, rfl⟩⟩
    · rw [if_neg (by rw [Bool.and_eq_true, only_iff, und_iff]; exact c1)]
      by_cases c2 : g.Arrow y z ∧ g.Line z x
      · rw [if_pos (by rw [Bool.and_eq_true, only_iff, und_iff]; exact c2)]
        exact ⟨_, rfl, hans y x c2.1 c2.2 (fun h => hxy h.symm) hne.symm, fun _ => ⟨_, rfl⟩⟩
      · rw [if_neg (by rw [Bool.and_eq_true, only_iff, und_iff]; exact c2)]
        refine ⟨o, h1, h2, ?_⟩
        rintro ⟨z', hz', hc⟩
        rcases List.mem_cons.1 hz' with rfl | hz'
        · exact absurd hc (by tauto)
        · exact h3 ⟨z', hz', hc⟩

theorem nonCollider_spec {g : CGraph ι ρ} (hwf : WF0 g) (hrows : Rows g) {o : Ord ι ρ} (ho : o.Valid) {x y : ι}
    (hx : x ∈ g.nodes) (hy : y ∈ g.nodes) (hne : x ≠ y) : ∃ a, nonColliderProcess o [x, y] g = .ok a ∧
      (∀ r ∈ a.getD [], (r.action = .doNothing ∨ r.action = .removeEdgeDirected) ∧ Meek1 g r.v r.u ∧
        (r.action = .removeEdgeDirected ↔ ¬ ∃ n, g.Arrow n r.u ∧ ¬ g.Adj n r.v)) ∧
      ((¬ g.Adj x y ∧ ∃ z, (g.Arrow x z ∧ g.Line z y) ∨ (g.Arrow y z ∧ g.Line z x)) → ∃ r, a = some [r]) := by
  unfold nonColliderProcess
  simp only [hx, hy, not_true_eq_false, if_false]
  by_cases hadj : g.Adj x y
  · rw [if_pos ((edge_iff hwf).2 hadj)]
    exact ⟨none, rfl, by simp, fun h => absurd hadj h.1⟩
  · rw [if_neg (fun h => hadj ((edge_iff hwf).1 h)), commonKeys_ok hrows hx hy hne]
    have hmem : ∀ z, z ∈ o g x y ((g.edges.keys2 x).filter (fun z => decide (z ∈ g.edges.keys2 y))) ↔
        z ∈ g.edges.keys2 x ∧ z ∈ g.edges.keys2 y := by
      intro z; rw [(ho g x y _).2 z]; simp
    obtain ⟨a, h1, h2, h3⟩ := nonColliderLoop_spec hwf hadj hne
      (o g x y ((g.edges.keys2 x).filter (fun z => decide (z ∈ g.edges.keys2 y))))
      (fun z hz => (keys2_nodes hwf ((hmem z).1 hz).1).1)
    refine ⟨a, h1, h2, ?_⟩
    rintro ⟨_, z, hz⟩
    refine h3 ⟨z, (hmem z).2 ?_, hz⟩
    rcases hz with ⟨ha, hl⟩ | ⟨ha, hl⟩
    · exact ⟨mem_keys2_live ((arrow_iff hwf).1 ha).1, mem_keys2_live ((line_iff hwf).1 hl).2⟩
    · exact ⟨mem_keys2_live ((line_iff hwf).1 hl).2, mem_keys2_live ((arrow_iff hwf).1 ha).1⟩

/-! ### rule 2 -/

theorem triple_spec {g : CGraph ι ρ} (hwf : WF0 g) {x y : ι} (hx : x ∈ g.nodes) (hy : y ∈ g.nodes) :
    ∃ rs, tripleProcess [x, y] g = .ok (some rs) ∧
      (∀ r ∈ rs, r.action = .removeEdgeDirected ∧ Meek2 g r.v r.u) ∧
      (Meek2 g x y → cut y x ∈ rs) ∧ (Meek2 g y x → cut x y ∈ rs) := by
  unfold tripleProcess
  simp only [hx, hy, not_true_eq_false, if_false]
  refine ⟨_, rfl, ?_, ?_, ?_⟩
  · intro r hr
    obtain ⟨z, _, hr⟩ := List.mem_flatMap.1 hr
    unfold tripleAt at hr
    rcases List.mem_append.1 hr with hr | hr
    · split at hr
      · rename_i hc
        simp only [Bool.and_eq_true, only_iff, und_iff] at hc
        rw [List.mem_singleton] at hr; subst hr
        exact ⟨rfl, hc.1.1, z, hc.1.2, hc.2⟩
      · cases hr
    · split at hr
      · rename_i hc
        simp only [Bool.and_eq_true, only_iff, und_iff] at hc
        rw [List.mem_singleton] at hr; subst hr
        exact ⟨rfl, hc.1.1.symm, z, hc.1.2, hc.2⟩
      · cases hr
  · rintro ⟨hl, z, h1, h2⟩
    refine List.mem_flatMap.2 ⟨z, ?_, ?_⟩
    · simp only [List.mem_filter, Bool.and_eq_true, edge_iff hwf]
      exact ⟨(hwf.adj_nodes h1.adj).2, h2.adj.symm, h1.adj⟩
    · unfold tripleAt
      refine List.mem_append_left _ ?_
      rw [if_pos (by simp only [Bool.and_eq_true, only_iff, und_iff]; exact ⟨⟨hl, h1⟩, h2⟩)]
      simp
  · rintro ⟨hl, z, h1, h2⟩
    refine List.mem_flatMap.2 ⟨z, ?_, ?_⟩
    · simp only [List.mem_filter, Bool.and_eq_true, edge_iff hwf]
      exact ⟨(hwf.adj_nodes h1.adj).2, h1.adj, h2.adj.symm⟩
    · unfold tripleAt
      refine List.mem_append_right _ ?_
      rw [if_pos (by simp only [Bool.and_eq_true, only_iff, und_iff]; exact ⟨⟨hl.symm, h1⟩, h2⟩)]
      simp

/-! ### rules 3 and 4 -/

omit [DecidableEq ι] in
theorem mem_overPairs {body : ι → ι → List (CResult ι ρ)} (cs : List (List ι)) (r : CResult ι ρ) :
    r ∈ overPairs body cs ↔ ∃ a b, [a, b] ∈ cs ∧ r ∈ body a b := by
  induction cs with
  | nil => simp [overPairs]
  | cons c cs ih =>
    match c with
    | [] => simp [overPairs, ih]
    | [a] => simp [overPairs, ih]
    | [a, b] =>
      simp only [overPairs, List.mem_append, ih, List.mem_cons, List.cons.injEq, and_true]
      constructor
      · rintro (h | ⟨a', b', h, h'⟩)
        · exact ⟨a, b, Or.inl ⟨rfl, rfl⟩, h⟩
        · exact ⟨a', b', Or.inr h, h'⟩
      · rintro ⟨a', b', ⟨rfl, rfl⟩ | h, h'⟩
        · exact Or.inl h'
        · exact Or.inr ⟨a', b', h, h'⟩
    | a :: b :: d :: l => simp [overPairs, ih]

theorem pair_combos {l : List ι} (hl : l.Nodup) {a b : ι} : ([a, b] ∈ combinations l 2 ∨ [b, a] ∈ combinations l 2) ↔
    a ∈ l ∧ b ∈ l ∧ a ≠ b := by
  simp only [mem_combinations, List.length_cons, List.length_nil, and_true]
  constructor
  · rintro (h | h)
    · have := h.nodup hl
      exact ⟨h.subset (by simp), h.subset (by simp), by simpa using this⟩
    · have := h.nodup hl
      exact ⟨h.subset (by simp), h.subset (by simp), by simpa [eq_comm] using this⟩
  · rintro ⟨ha, hb, hab⟩
    obtain ⟨c', h1, h2⟩ := sublist_perm hl (c := [a, b]) (by simp [hab]) (by simp [ha, hb])
    obtain ⟨p, q, rfl⟩ := List.length_eq_two.1 h2.length_eq
    have hp : p ∈ [a, b] := h2.subset (by simp)
    have hq : q ∈ [a, b] := h2.subset (by simp)
    have hne : p ≠ q := by have := h1.nodup hl; simpa using this
    simp only [List.mem_cons, List.not_mem_nil, or_false] at hp hq
    rcases hp with rfl | rfl <;> rcases hq with rfl | rfl <;> simp_all

theorem quadLoop_spec {body : CGraph ι ρ → ι → ι → ι → ι → List (CResult ι ρ)} {g : CGraph ι ρ} (hwf : WF0 g)
    {o : Ord ι ρ} (ho : o.Valid) {y w : ι} (hy : y ∈ g.nodes) (hw : w ∈ g.nodes)
    (hsymm : ∀ a b r, r ∈ body g y w a b → r ∈ body g y w b a) : ∃ rs, quadLoop body o [y, w] g = .ok (some rs) ∧
      ∀ r, r ∈ rs ↔ ∃ a b, a ≠ b ∧ g.Adj y a ∧ g.Adj a w ∧ g.Adj y b ∧ g.Adj b w ∧ r ∈ body g y w a b := by
  unfold quadLoop
  simp only [hy, hw, not_true_eq_false, if_false]
  refine ⟨_, rfl, ?_⟩
  intro r
  rw [mem_overPairs]
  have hm : ∀ z, z ∈ o g y w (g.nodes.filter (fun z => g.edgeExists y z && g.edgeExists z w)) ↔
      g.Adj y z ∧ g.Adj z w := by
    intro z
    rw [(ho g y w _).2 z]
    simp only [List.mem_filter, Bool.and_eq_true, edge_iff hwf]
    exact ⟨fun h => h.2, fun h => ⟨(hwf.adj_nodes h.1).2, h⟩⟩
  have hp := fun a b => pair_combos (ho g y w (g.nodes.filter (fun z => g.edgeExists y z && g.edgeExists z w))).1
    (a := a) (b := b)
  constructor
  · rintro ⟨a, b, hab, hr⟩
    obtain ⟨h1, h2, h3⟩ := (hp a b).1 (Or.inl hab)
    rw [hm] at h1 h2
    exact ⟨a, b, h3, h1.1, h1.2, h2.1, h2.2, hr⟩
  · rintro ⟨a, b, h3, h1, h1', h2, h2', hr⟩
    rcases (hp a b).2 ⟨(hm a).2 ⟨h1, h1'⟩, (hm b).2 ⟨h2, h2'⟩, h3⟩ with h | h
    · exact ⟨a, b, h, hr⟩
    · exact ⟨b, a, h, hsymm a b r hr⟩

theorem mem_quadAt {g : CGraph ι ρ} (hwf : WF0 g) {y w a b : ι} {r : CResult ι ρ} : r ∈ quadAt g y w a b ↔
    (r = cut b a ∧ ¬ g.Adj y w ∧ g.Arrow y b ∧ g.Arrow w b ∧ g.Line a y ∧ g.Line a w ∧ g.Line a b) ∨
    (r = cut a b ∧ ¬ g.Adj y w ∧ g.Arrow y a ∧ g.Arrow w a ∧ g.Line y b ∧ g.Line w b ∧ g.Line a b) := by
  unfold quadAt
  rw [List.mem_append]
  refine or_congr ?_ ?_ <;>
  · split
    · rename_i hc
      simp only [Bool.and_eq_true, Bool.not_eq_true', only_iff, und_iff, nedge_iff hwf] at hc
      simp only [List.mem_singleton]
      tauto
    · rename_i hc
      simp only [Bool.and_eq_true, Bool.not_eq_true', only_iff, und_iff, nedge_iff hwf] at hc
      simp only [List.not_mem_nil, false_iff]
      tauto

theorem quad_spec {g : CGraph ι ρ} (hwf : WF0 g) {o : Ord ι ρ} (ho : o.Valid) {y w : ι} (hy : y ∈ g.nodes)
    (hw : w ∈ g.nodes) : ∃ rs, quadProcess o [y, w] g = .ok (some rs) ∧
      ∀ r, r ∈ rs ↔ ∃ a b, r = cut b a ∧ ¬ g.Adj y w ∧ g.Arrow y b ∧ g.Arrow w b ∧ g.Line a y ∧ g.Line a w ∧
        g.Line a b := by
  obtain ⟨rs, h1, h2⟩ := quadLoop_spec (body := quadAt) hwf ho hy hw (by
    intro a b r hr
    rw [mem_quadAt hwf] at hr ⊢
    rcases hr with ⟨h1, h2, h3, h4, h5, h6, h7⟩ | ⟨h1, h2, h3, h4, h5, h6, h7⟩
    · exact Or.inr ⟨h1, h2, h3, h4, h5.symm, h6.symm, h7.symm⟩
    · exact Or.inl ⟨h1, h2, h3, h4, h5.symm, h6.symm, h7.symm⟩)
  refine ⟨rs, h1, ?_⟩
  intro r
  rw [h2]
  constructor
  · rintro ⟨a, b, _, _, _, _, _, hr⟩
    rcases (mem_quadAt hwf).1 hr with ⟨h1, h2, h3, h4, h5, h6, h7⟩ | ⟨h1, h2, h3, h4, h5, h6, h7⟩
    · exact ⟨a, b, h1, h2, h3, h4, h5, h6, h7⟩
    · exact ⟨b, a, h1, h2, h3, h4, h5.symm, h6.symm, h7.symm⟩
  · rintro ⟨a, b, h1, h2, h3, h4, h5, h6, h7⟩
    exact ⟨a, b, hwf.adj_ne h7.adj, h5.adj.symm, h6.adj, h3.adj, h4.adj.symm,
      (mem_quadAt hwf).2 (Or.inl ⟨h1, h2, h3, h4, h5, h6, h7⟩)⟩

/-- the premises of the first branch of the fourth rule: orient `x → z` -/
def Prem4 (g : CGraph ι ρ) (x w y z : ι) : Prop :=
  ¬ g.Adj y z ∧ g.Line x z ∧ g.Line x w ∧ g.Line x y ∧ g.Arrow y w ∧ g.Arrow w z

theorem mem_furtherQuadAt {g : CGraph ι ρ} (hwf : WF0 g) {x w y z : ι} {r : CResult ι ρ} :
    r ∈ furtherQuadAt g x w y z ↔
      (r = cut z x ∧ Prem4 g x w y z) ∨ (r = cut y x ∧ Prem4 g x w z y) ∨
      (r = cut z w ∧ Prem4 g w x y z) ∨ (r = cut y w ∧ Prem4 g w x z y) := by
  have b1 : ∀ x w y z : ι, (!g.edgeExists y z && g.undirectedEdgeExists x z && g.undirectedEdgeExists x w &&
      g.undirectedEdgeExists x y && g.onlyDirectedEdgeExists y w && g.onlyDirectedEdgeExists w z) = true ↔
      Prem4 g x w y z := by
    intro x w y z
    simp only [Bool.and_eq_true, Bool.not_eq_true', only_iff, und_iff, nedge_iff hwf, Prem4, and_assoc]
  have b2 : ∀ x w y z : ι, (!g.edgeExists y z && g.undirectedEdgeExists w z && g.undirectedEdgeExists x w &&
      g.undirectedEdgeExists w y && g.onlyDirectedEdgeExists y x && g.onlyDirectedEdgeExists x z) = true ↔
      Prem4 g w x y z := by
    intro x w y z
    simp only [Bool.and_eq_true, Bool.not_eq_true', only_iff, und_iff, nedge_iff hwf, Prem4, and_assoc]
    constructor <;> rintro ⟨h1, h2, h3, h4⟩ <;> exact ⟨h1, h2, h3.symm, h4⟩
  have x12 : Prem4 g x w y z → ¬ Prem4 g x w z y := fun h h' => h.2.2.2.2.2.asymm h'.2.2.2.2.1
  have x13 : Prem4 g x w y z → ¬ Prem4 g w x y z := fun h h' => h'.2.2.2.2.1.not_line' h.2.2.2.1
  have x14 : Prem4 g x w y z → ¬ Prem4 g w x z y := fun h h' => h'.2.2.2.2.1.not_line' h.2.1
  have x23 : Prem4 g x w z y → ¬ Prem4 g w x y z := fun h h' => h'.2.2.2.2.1.not_line' h.2.1
  have x24 : Prem4 g x w z y → ¬ Prem4 g w x z y := fun h h' => h'.2.2.2.2.1.not_line' h.2.2.2.1
  have x34 : Prem4 g w x y z → ¬ Prem4 g w x z y := fun h h' => h.2.2.2.2.2.asymm h'.2.2.2.2.1
  unfold furtherQuadAt
  split
  · rename_i h1; rw [b1] at h1
    simp only [List.mem_singleton, h1, x12 h1, x13 h1, x14 h1, and_true, and_false, or_false]
  · split
    · rename_i h1 h2; rw [b1] at h1 h2
      simp only [List.mem_singleton, h1, h2, x23 h2, x24 h2, and_true, and_false, or_false, false_or]
    · split
      · rename_i h1 h2 h3; rw [b1] at h1 h2; rw [b2] at h3
        simp only [List.mem_singleton, h1, h2, h3, x34 h3, and_true, and_false, or_false, false_or]
      · split
        · rename_i h1 h2 h3 h4; rw [b1] at h1 h2; rw [b2] at h3 h4
          simp only [List.mem_singleton, h1, h2, h3, h4, and_true, and_false, false_or]
        · rename_i h1 h2 h3 h4; rw [b1] at h1 h2; rw [b2] at h3 h4
          simp only [List.not_mem_nil, h1, h2, h3, h4, and_false, or_false]

theorem furtherQuad_spec {g : CGraph ι ρ} (hwf : WF0 g) {o : Ord ι ρ} (ho : o.Valid) {x w : ι} (hx : x ∈ g.nodes)
    (hw : w ∈ g.nodes) : ∃ rs, furtherQuadProcess o [x, w] g = .ok (some rs) ∧
      ∀ r, r ∈ rs ↔ ∃ y z, (r = cut z x ∧ Prem4 g x w y z) ∨ (r = cut z w ∧ Prem4 g w x y z) := by
  obtain ⟨rs, h1, h2⟩ := quadLoop_spec (body := furtherQuadAt) hwf ho hx hw (by
    intro a b r hr
    rw [mem_furtherQuadAt hwf] at hr ⊢
    tauto)
  refine ⟨rs, h1, ?_⟩
  intro r
  rw [h2]
  constructor
  · rintro ⟨a, b, _, _, _, _, _, hr⟩
    rcases (mem_furtherQuadAt hwf).1 hr with h | h | h | h
    · exact ⟨a, b, Or.inl h⟩
    · exact ⟨b, a, Or.inl h⟩
    · exact ⟨a, b, Or.inr h⟩
    · exact ⟨b, a, Or.inr h⟩
  · rintro ⟨y, z, ⟨hr, h⟩ | ⟨hr, h⟩⟩
    · refine ⟨y, z, ?_, h.2.2.2.1.adj, h.2.2.2.2.1.adj, h.2.1.adj, h.2.2.2.2.2.adj.symm,
        (mem_furtherQuadAt hwf).2 (Or.inl ⟨hr, h⟩)⟩
      rintro rfl
      exact h.2.2.2.2.1.asymm h.2.2.2.2.2
    · refine ⟨y, z, ?_, h.2.2.2.2.1.adj.symm, h.2.2.2.1.adj.symm, h.2.2.2.2.2.adj, h.2.1.adj.symm,
        (mem_furtherQuadAt hwf).2 (Or.inr (Or.inr (Or.inl ⟨hr, h⟩)))⟩
      rintro rfl
      exact h.2.2.2.2.1.asymm h.2.2.2.2.2

end Orient
end Verif
