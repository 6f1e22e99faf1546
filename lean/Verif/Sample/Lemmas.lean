import Mathlib.Data.Fintype.Order
import Mathlib.Order.WellFounded
import Verif.Sample.Spec
import Verif.Graph.Lemmas4

/-!
# Helper lemmas: topological sorting, structural equations
-/

namespace Verif
namespace Sample
variable {ι R : Type} [DecidableEq ι]

theorem mem_edgesTo {edges : List (SEdge ι R)} {v : ι} {e : SEdge ι R} : e ∈ edgesTo edges v ↔ e ∈ edges ∧ e.dst = v := by
  simp [edgesTo]

theorem ready_iff {edges : List (SEdge ι R)} {sorted : List ι} {v : ι} :
    ready edges sorted v = true ↔ ∀ a, HasEdge edges a v → a ∈ sorted := by
  unfold ready HasEdge
  rw [List.all_eq_true]
  simp only [mem_edgesTo, decide_eq_true_eq]
  constructor
  · rintro h a ⟨e, he, rfl, hd⟩
    exact h e ⟨he, hd⟩
  · rintro h e ⟨he, hd⟩
    exact h e.src ⟨e, he, rfl, hd⟩

theorem mem_variableSet {edges : List (SEdge ι R)} {x : ι} : x ∈ variableSet edges ↔ Mentioned edges x := by
  unfold variableSet Mentioned
  simp only [List.mem_dedup, List.mem_flatMap, List.mem_cons, List.not_mem_nil, or_false]
  constructor
  · rintro ⟨e, he, h | h⟩
    · exact ⟨e, he, Or.inl h.symm⟩
    · exact ⟨e, he, Or.inr h.symm⟩
  · rintro ⟨e, he, h | h⟩
    · exact ⟨e, he, Or.inl h.symm⟩
    · exact ⟨e, he, Or.inr h.symm⟩

omit [DecidableEq ι] in
/-- in a nonempty finite set of nodes of an acyclic graph, some node has no predecessor in the set -/
theorem exists_source {E : ι → ι → Prop} (hac : Dag.Acyclic E) {l : List ι} (hl : l ≠ []) :
    ∃ x ∈ l, ∀ y ∈ l, ¬ E y x := by
  let r : {x // x ∈ l} → {x // x ∈ l} → Prop := fun a b => Relation.TransGen E a.1 b.1
  have : Finite {x // x ∈ l} := List.finite_toSet l
  have : IsTrans {x // x ∈ l} r := ⟨fun _ _ _ h h' => Relation.TransGen.trans h h'⟩
  have : Std.Irrefl r := ⟨fun a h => hac a.1 h⟩
  have wf : WellFounded r := Finite.wellFounded_of_trans_of_irrefl r
  obtain ⟨y, hy⟩ := List.exists_mem_of_ne_nil l hl
  obtain ⟨m, -, hm⟩ := wf.has_min Set.univ ⟨⟨y, hy⟩, trivial⟩
  exact ⟨m.1, m.2, fun z hz hE => hm ⟨z, hz⟩ trivial (.single hE)⟩

/-- every node of the list comes after the sources of its incoming edges -/
def PrefixClosed (edges : List (SEdge ι R)) (l : List ι) : Prop :=
  ∀ l1 x l2, l = l1 ++ x :: l2 → ∀ a, HasEdge edges a x → a ∈ l1

omit [DecidableEq ι] in
theorem PrefixClosed.snoc {edges : List (SEdge ι R)} {l : List ι} {x : ι} (h : PrefixClosed edges l)
    (hx : ∀ a, HasEdge edges a x → a ∈ l) : PrefixClosed edges (l ++ [x]) := by
  intro l1 y l2 e a ha
  rcases List.append_eq_append_iff.1 e with ⟨k, hk, hk'⟩ | ⟨k, hk, hk'⟩
  · cases k with
    | nil =>
      simp only [List.nil_append, List.cons.injEq] at hk'
      obtain ⟨rfl, rfl⟩ := hk'
      rw [hk, List.append_nil]
      exact hx a ha
    | cons z k =>
      simp at hk'
  · cases k with
    | nil =>
      simp only [List.nil_append, List.cons.injEq] at hk'
      obtain ⟨rfl, rfl⟩ := hk'
      rw [← List.append_nil l1, ← hk]
      exact hx a ha
    | cons z k =>
      simp only [List.cons_append, List.cons.injEq] at hk'
      obtain ⟨rfl, hk'⟩ := hk'
      exact h l1 y k hk a ha

theorem topologicSort_sound {edges : List (SEdge ι R)} {fuel : ℕ} {nodes sorted l : List ι}
    (h : topologicSort edges fuel nodes sorted = some l) (hp : PrefixClosed edges sorted) :
    l.Perm (sorted ++ nodes) ∧ PrefixClosed edges l := by
  induction fuel generalizing nodes sorted with
  | zero =>
    cases nodes with
    | nil =>
      simp only [topologicSort, Option.some.injEq] at h
      subst h
      simpa using hp
    | cons n ns => cases h
  | succ fuel ih =>
    cases nodes with
    | nil =>
      simp only [topologicSort, Option.some.injEq] at h
      subst h
      simpa using hp
    | cons n ns =>
      unfold topologicSort at h
      split at h
      · rename_i x hx
        have hr := List.find?_some hx
        have hm := List.mem_of_find?_eq_some hx
        obtain ⟨h1, h2⟩ := ih h (hp.snoc (ready_iff.1 hr))
        refine ⟨h1.trans ?_, h2⟩
        rw [List.append_assoc]
        exact List.Perm.append_left _ (List.perm_cons_erase hm).symm
      · exact ih h hp

theorem topologicSort_complete {edges : List (SEdge ι R)} (hac : Dag.Acyclic (HasEdge edges)) {fuel : ℕ}
    {nodes sorted : List ι} (hf : nodes.length ≤ fuel)
    (hm : ∀ a b, HasEdge edges a b → a ∈ sorted ∨ a ∈ nodes) :
    ∃ l, ∀ k, topologicSort edges (fuel + k) nodes sorted = some l := by
  induction fuel generalizing nodes sorted with
  | zero =>
    have : nodes = [] := List.length_eq_zero_iff.1 (by omega)
    subst this
    exact ⟨sorted, fun k => by cases k <;> simp [topologicSort]⟩
  | succ fuel ih =>
    cases nodes with
    | nil => exact ⟨sorted, fun k => by rw [show fuel + 1 + k = (fuel + k) + 1 by omega]; simp [topologicSort]⟩
    | cons n ns =>
      obtain ⟨x, hx, hs⟩ := exists_source hac (l := n :: ns) (by simp)
      have hr : ready edges sorted x = true := ready_iff.2 (fun a ha => (hm a x ha).resolve_right (fun h => hs a h ha))
      obtain ⟨y, hy⟩ : ∃ y, (n :: ns).find? (ready edges sorted) = some y := by
        have : ((n :: ns).find? (ready edges sorted)).isSome := by
          rw [List.find?_isSome]
          exact ⟨x, hx, hr⟩
        exact Option.isSome_iff_exists.1 this
      have hmem := List.mem_of_find?_eq_some hy
      obtain ⟨l, hl⟩ := ih (nodes := (n :: ns).erase y) (sorted := sorted ++ [y])
        (by rw [List.length_erase_of_mem hmem]; simp only [List.length_cons] at hf ⊢; omega)
        (fun a b hab => by
          rcases hm a b hab with h | h
          · exact Or.inl (List.mem_append_left _ h)
          · by_cases e : a = y
            · exact Or.inl (by simp [e])
            · exact Or.inr ((List.mem_erase_of_ne e).2 h))
      refine ⟨l, fun k => ?_⟩
      rw [show fuel + 1 + k = (fuel + k) + 1 by omega]
      unfold topologicSort
      rw [hy]
      exact hl k

theorem prefixClosed_idx {edges : List (SEdge ι R)} {l : List ι} (hn : l.Nodup) (h : PrefixClosed edges l) {a b : ι}
    (hb : b ∈ l) (hab : HasEdge edges a b) : l.idxOf a < l.idxOf b := by
  obtain ⟨l1, l2, rfl⟩ := List.append_of_mem hb
  have ha := h l1 b l2 rfl a hab
  have hb1 : b ∉ l1 := by
    intro hb1
    rw [List.nodup_append] at hn
    exact hn.2.2 b hb1 b (by simp) rfl
  rw [List.idxOf_append_of_mem ha, List.idxOf_append_of_notMem hb1]
  have := List.idxOf_lt_length_iff.2 ha
  omega

theorem idx_prefixClosed {edges : List (SEdge ι R)} {l : List ι} (h : TopologicalOrder edges l) : PrefixClosed edges l := by
  rintro l1 x l2 rfl a ha
  have hn := h.1
  have hlt := h.2.2 a x ha
  have hx1 : x ∉ l1 := by
    intro hb1
    rw [List.nodup_append] at hn
    exact hn.2.2 x hb1 x (by simp) rfl
  rw [List.idxOf_append_of_notMem hx1, List.idxOf_cons_self] at hlt
  by_contra hc
  rw [List.idxOf_append_of_notMem hc] at hlt
  omega

omit [DecidableEq ι] in
theorem mentioned_src {edges : List (SEdge ι R)} {a b : ι} (h : HasEdge edges a b) : Mentioned edges a := by
  obtain ⟨e, he, h1, -⟩ := h
  exact ⟨e, he, Or.inl h1⟩

omit [DecidableEq ι] in
theorem mentioned_dst {edges : List (SEdge ι R)} {a b : ι} (h : HasEdge edges a b) : Mentioned edges b := by
  obtain ⟨e, he, -, h1⟩ := h
  exact ⟨e, he, Or.inr h1⟩

theorem TopologicalOrder.acyclic {edges : List (SEdge ι R)} {l : List ι} (h : TopologicalOrder edges l) :
    Dag.Acyclic (HasEdge edges) := by
  have key : ∀ a b, Relation.TransGen (HasEdge edges) a b → l.idxOf a < l.idxOf b := by
    intro a b hab
    induction hab with
    | single e => exact h.2.2 _ _ e
    | tail _ e ih => exact ih.trans (h.2.2 _ _ e)
  exact fun a ha => lt_irrefl _ (key a a ha)

/-! ### structural equations -/

theorem initNoise_get (size : ℕ) (rand : ℕ → R) (vars : List ι) (hn : vars.Nodup) (k : ℕ) (d : Dict ι (Fin size → R))
    (v : ι) : (initNoise size rand vars k d).get? v =
      if v ∈ vars then some (fun i : Fin size => rand (k + vars.idxOf v * size + i)) else d.get? v := by
  induction vars generalizing k d with
  | nil => simp [initNoise]
  | cons w ws ih =>
    rw [List.nodup_cons] at hn
    unfold initNoise
    rw [ih hn.2]
    by_cases hw : v ∈ ws
    · have hne : w ≠ v := fun e => hn.1 (e ▸ hw)
      rw [if_pos hw, if_pos (List.mem_cons_of_mem _ hw), List.idxOf_cons_ne _ hne]
      congr 1
      funext i
      congr 1
      rw [Nat.succ_mul]
      omega
    · rw [if_neg hw, Dict.get?_set]
      by_cases e : w = v
      · subst e
        simp
      · have : v ∉ w :: ws := by simp [hw, Ne.symm e]
        rw [if_neg e, if_neg this]

theorem initNoise_keys (size : ℕ) (rand : ℕ → R) (vars : List ι) (hn : vars.Nodup) (k : ℕ) (d : Dict ι (Fin size → R))
    (hd : ∀ v ∈ vars, v ∉ d.keys) : (initNoise size rand vars k d).keys = d.keys ++ vars := by
  induction vars generalizing k d with
  | nil => simp [initNoise]
  | cons w ws ih =>
    rw [List.nodup_cons] at hn
    unfold initNoise
    have hw := hd w (by simp)
    rw [ih hn.2, Dict.keys_set_of_not_mem _ _ _ hw]
    · simp
    · intro v hv
      rw [Dict.keys_set_of_not_mem _ _ _ hw]
      simp only [List.mem_append, List.mem_singleton, not_or]
      exact ⟨hd v (by simp [hv]), fun e => hn.1 (e ▸ hv)⟩

variable [Add R] [Mul R] {size : ℕ}

theorem addIncoming_ok (tgt : ι) (es : List (SEdge ι R)) (d : Dict ι (Fin size → R)) (col : ι → Fin size → R)
    (x : Fin size → R) (hx : d.get? tgt = some x)
    (hs : ∀ e ∈ es, e.src ≠ tgt ∧ d.get? e.src = some (col e.src)) :
    ∃ d', addIncoming tgt es d = .ok d' ∧ d'.keys = d.keys ∧
      ∀ v, d'.get? v = if v = tgt then some (fun i => es.foldl (fun acc e => acc + e.value * col e.src i) (x i))
        else d.get? v := by
  induction es generalizing d x with
  | nil =>
    refine ⟨d, rfl, rfl, fun v => ?_⟩
    by_cases e : v = tgt
    · rw [if_pos e, e, hx]
      rfl
    · rw [if_neg e]
  | cons e es ih =>
    obtain ⟨hne, hsrc⟩ := hs e (by simp)
    have hkey : tgt ∈ d.keys := (Dict.mem_keys_iff d tgt).2 (by simp [hx])
    obtain ⟨d', h1, h2, h3⟩ := ih (d.set tgt (fun i => x i + e.value * col e.src i))
      (fun i => x i + e.value * col e.src i) (Dict.get?_set_self _ _ _) (fun e' he' => by
        obtain ⟨a, b⟩ := hs e' (by simp [he'])
        refine ⟨a, ?_⟩
        rw [Dict.get?_set, if_neg (Ne.symm a), b])
    refine ⟨d', ?_, ?_, ?_⟩
    · unfold addIncoming
      rw [hx, hsrc]
      exact h1
    · rw [h2, Dict.keys_set_of_mem _ _ _ hkey]
    · intro v
      rw [h3]
      by_cases e' : v = tgt
      · rw [if_pos e', if_pos e']
        rfl
      · rw [if_neg e', if_neg e', Dict.get?_set, if_neg (Ne.symm e')]

theorem addAllIncoming_ok (edges : List (SEdge ι R)) (noise : ι → Fin size → R) (pre post : List ι)
    (hn : (pre ++ post).Nodup) (hp : PrefixClosed edges (pre ++ post)) (d : Dict ι (Fin size → R)) (col : ι → Fin size → R)
    (h1 : ∀ v ∈ pre, d.get? v = some (col v)) (h2 : ∀ v ∈ post, d.get? v = some (noise v))
    (h3 : ∀ v ∈ pre, ∀ i, col v i =
      (edges.filter (fun e => e.dst = v)).foldl (fun acc e => acc + e.value * col e.src i) (noise v i)) :
    ∃ (d' : Dict ι (Fin size → R)) (col' : ι → Fin size → R), addAllIncoming edges post d = .ok d' ∧ d'.keys = d.keys ∧
      (∀ v ∈ pre ++ post, d'.get? v = some (col' v)) ∧
      ∀ v ∈ pre ++ post, ∀ i, col' v i =
        (edges.filter (fun e => e.dst = v)).foldl (fun acc e => acc + e.value * col' e.src i) (noise v i) := by
  induction post generalizing pre d col with
  | nil => exact ⟨d, col, rfl, rfl, by simpa using h1, by simpa using h3⟩
  | cons x post ih =>
    have hxpre : x ∉ pre := by
      intro h
      rw [List.nodup_append] at hn
      exact hn.2.2 x h x (by simp) rfl
    have hsrc : ∀ e ∈ edgesTo edges x, e.src ∈ pre := by
      intro e he
      obtain ⟨a, b⟩ := mem_edgesTo.1 he
      exact hp pre x post rfl e.src ⟨e, a, rfl, b⟩
    obtain ⟨d1, e1, e2, e3⟩ := addIncoming_ok x (edgesTo edges x) d col (noise x) (h2 x (by simp)) (fun e he => by
      have := hsrc e he
      exact ⟨fun e' => hxpre (e' ▸ this), h1 _ this⟩)
    let newx : Fin size → R := fun i => (edgesTo edges x).foldl (fun acc e => acc + e.value * col e.src i) (noise x i)
    let col1 : ι → Fin size → R := fun v => if v = x then newx else col v
    have hcol : ∀ v ∈ pre, col1 v = col v := fun v hv => if_neg (fun (e : v = x) => hxpre (e ▸ hv))
    have hfold : ∀ v ∈ pre ++ [x], ∀ i (a : R),
        (edges.filter (fun e => e.dst = v)).foldl (fun acc e => acc + e.value * col1 e.src i) a
        = (edges.filter (fun e => e.dst = v)).foldl (fun acc e => acc + e.value * col e.src i) a := by
      intro v hv i a
      apply List.foldl_ext
      intro acc e he
      have he' := List.mem_filter.1 he
      have hd : e.dst = v := by simpa using he'.2
      have : e.src ∈ pre := by
        rcases List.mem_append.1 hv with hv | hv
        · obtain ⟨l1, l2, rfl⟩ := List.append_of_mem hv
          have := hp l1 v (l2 ++ x :: post) (by simp) e.src ⟨e, he'.1, rfl, hd⟩
          simp [this]
        · have hv' : v = x := by simpa using hv
          exact hsrc e (mem_edgesTo.2 ⟨he'.1, hd.trans hv'⟩)
      rw [hcol _ this]
    obtain ⟨d', col', f1, f2, f3, f4⟩ := ih (pre ++ [x]) (by simpa using hn) (by simpa using hp) d1 col1
      (by
        intro v hv
        rw [e3]
        rcases List.mem_append.1 hv with hv | hv
        · have hne : v ≠ x := fun e => hxpre (e ▸ hv)
          rw [if_neg hne, hcol v hv, h1 v hv]
        · have hv' : v = x := by simpa using hv
          rw [if_pos hv']
          subst hv'
          simp only [col1, if_true]
          rfl)
      (by
        intro v hv
        have hne : v ≠ x := by
          rintro rfl
          rw [List.nodup_append, List.nodup_cons] at hn
          exact hn.2.1.1 hv
        rw [e3, if_neg hne, h2 v (by simp [hv])])
      (by
        intro v hv i
        rw [hfold v hv i]
        rcases List.mem_append.1 hv with hv | hv
        · rw [hcol v hv, h3 v hv i]
        · have hv' : v = x := by simpa using hv
          subst hv'
          simp only [col1, if_true]
          rfl)
    refine ⟨d', col', ?_, by rw [f2, e2], by simpa using f3, by simpa using f4⟩
    unfold addAllIncoming
    rw [e1]
    exact f1

/-- the equations determine the columns -/
theorem structural_unique {edges : List (SEdge ι R)} {l : List ι} (hl : TopologicalOrder edges l)
    {noise c c' : ι → Fin size → R} (h : Structural edges noise c) (h' : Structural edges noise c') :
    ∀ v, Mentioned edges v → c v = c' v := by
  have key : ∀ n v, l.idxOf v < n → Mentioned edges v → c v = c' v := by
    intro n
    induction n with
    | zero => intro v hv; omega
    | succ n ih =>
      intro v hv hm
      funext i
      rw [h v hm i, h' v hm i]
      apply List.foldl_ext
      intro acc e he
      have he' := List.mem_filter.1 he
      have hd : HasEdge edges e.src v := ⟨e, he'.1, rfl, by simpa using he'.2⟩
      have := hl.2.2 _ _ hd
      rw [ih e.src (by omega) (mentioned_src hd)]
  exact fun v => key _ v (Nat.lt_succ_self _)

end Sample
end Verif
