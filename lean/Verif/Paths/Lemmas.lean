import Verif.Paths.Spec
import Verif.Graph.Lemmas4
import Verif.Dag.Lemmas
import Mathlib.Data.List.Dedup

/-!
# Helper lemmas: termination and exactness of the searches
-/

namespace Verif
namespace Graph
variable {ι δ : Type} [DecidableEq ι] {g : Graph ι δ}

theorem mem_row_of_directed (h : WF0 g) {u v : ι} (hd : g.directedEdgeExists u v = true) :
    ∃ row, g.edges.get? u = some row ∧ v ∈ row.keys := by
  rw [directedEdgeExists_eq h] at hd
  obtain ⟨e, he, _⟩ := live_iff.1 hd
  unfold Dict.get2 at he
  cases hr : g.edges.get? u with
  | none => rw [hr] at he; cases he
  | some row =>
    rw [hr] at he
    refine ⟨row, rfl, ?_⟩
    rw [← Dict.has_iff]
    simp only [Option.bind_some] at he
    simp [Dict.has, he]

theorem directed_mem_nodes {u v : ι} (hd : g.directedEdgeExists u v = true) : u ∈ g.nodes ∧ v ∈ g.nodes := by
  unfold directedEdgeExists at hd
  split at hd
  · cases hd
  · split at hd
    · cases hd
    · rename_i h1 h2
      exact ⟨not_not.1 h1, not_not.1 h2⟩

/-- number of nodes not yet visited -/
def unvisited (g : Graph ι δ) (vis : List ι) : Nat := (g.nodes.filter (fun n => decide (n ∉ vis))).length

theorem unvisited_mono {vis vis' : List ι} (hs : ∀ x ∈ vis, x ∈ vis') : g.unvisited vis' ≤ g.unvisited vis := by
  unfold unvisited
  induction g.nodes with
  | nil => simp
  | cons n ns ih =>
    simp only [List.filter_cons]
    by_cases h1 : n ∈ vis
    · have h2 := hs n h1
      simpa [h1, h2] using ih
    · by_cases h2 : n ∈ vis'
      · simp only [h1, h2, not_true_eq_false, decide_false, not_false_eq_true, decide_true, if_true,
          Bool.false_eq_true, if_false, List.length_cons]
        omega
      · simp only [h1, h2, not_false_eq_true, decide_true, if_true, List.length_cons]
        omega

theorem unvisited_cons_lt {u : ι} {vis : List ι} (hu : u ∈ g.nodes) (hv : u ∉ vis) :
    g.unvisited (u :: vis) < g.unvisited vis := by
  unfold unvisited
  generalize g.nodes = l at hu
  induction l with
  | nil => cases hu
  | cons n ns ih =>
    have hmono : (ns.filter (fun n => decide (n ∉ u :: vis))).length ≤
        (ns.filter (fun n => decide (n ∉ vis))).length := by
      clear ih hu
      induction ns with
      | nil => simp
      | cons m ms ih =>
        simp only [List.filter_cons]
        by_cases h1 : m ∈ vis
        · have h2 : m ∈ u :: vis := List.mem_cons_of_mem _ h1
          simpa [h1] using ih
        · by_cases h2 : m ∈ u :: vis
          · simp only [h1, h2, not_true_eq_false, decide_false, not_false_eq_true, decide_true, if_true,
              Bool.false_eq_true, if_false, List.length_cons]
            omega
          · simp only [h1, h2, not_false_eq_true, decide_true, if_true, List.length_cons]
            omega
    simp only [List.filter_cons]
    by_cases hn : n = u
    · subst hn
      simp only [List.mem_cons_self, not_true_eq_false, decide_false, Bool.false_eq_true, if_false, hv,
        not_false_eq_true, decide_true, if_true, List.length_cons]
      omega
    · have hu' : u ∈ ns := by
        rcases List.mem_cons.1 hu with h | h
        · exact absurd h.symm hn
        · exact h
      have := ih hu'
      by_cases h1 : n ∈ vis
      · simpa [h1] using this
      · simp only [h1, List.mem_cons, hn, or_self, not_false_eq_true, decide_true, if_true, List.length_cons]
        simp only [List.mem_cons] at this
        omega

theorem unvisited_nil : g.unvisited [] = g.nodes.length := by simp [unvisited]

/-- What a call `descendants_of_node(u, visited)` guarantees. -/
structure DescPost (g : Graph ι δ) (u : ι) (vis ds vis' : List ι) : Prop where
  sub : ∀ x ∈ vis, x ∈ vis'
  self : u ∈ vis'
  mem : ∀ x, x ∈ ds ↔ x ∈ vis' ∧ x ∉ vis
  reach : ∀ x ∈ vis', x ∉ vis → Relation.ReflTransGen (OneWay g) u x
  closed : ∀ x ∈ vis', x ∉ vis → ∀ y, OneWay g x y → y ∈ vis'
  nodup : ds.Nodup

/-- Invariant of the loop over the children of `u`. -/
structure DescInv (g : Graph ι δ) (u : ι) (vis acc vis1 : List ι) : Prop where
  sub : ∀ x ∈ vis, x ∈ vis1
  self : u ∈ vis1
  mem : ∀ x, x ∈ acc ↔ x ∈ vis1 ∧ x ∉ vis
  reach : ∀ x ∈ vis1, x ∉ vis → Relation.ReflTransGen (OneWay g) u x
  closed : ∀ x ∈ vis1, x ∉ vis → x ≠ u → ∀ y, OneWay g x y → y ∈ vis1

theorem descLoop_spec {u : ι} {vis : List ι} {rec : ι → List ι → Option (List ι × List ι)} {f : Nat}
    (hrec : ∀ c vis1, c ∈ g.nodes → c ∉ vis1 → g.unvisited vis1 ≤ f →
      ∃ ds vis', rec c vis1 = some (ds, vis') ∧ DescPost g c vis1 ds vis') :
    ∀ (cs acc vis1 : List ι), g.unvisited vis1 ≤ f → DescInv g u vis acc vis1 →
      ∃ acc' vis', descLoop g u rec cs acc vis1 = some (acc', vis') ∧ DescInv g u vis acc' vis' ∧
        (∀ x ∈ vis1, x ∈ vis') ∧ ∀ c ∈ cs, OneWay g u c → c ∈ vis' := by
  intro cs
  induction cs with
  | nil => intro acc vis1 _ hi; exact ⟨acc, vis1, rfl, hi, fun _ h => h, by simp⟩
  | cons c cs ih =>
    intro acc vis1 hf hi
    by_cases hc : (g.directedEdgeExists u c && !g.directedEdgeExists c u) = true
    · have how : OneWay g u c := by simpa [OneWay] using hc
      by_cases hv : c ∈ vis1
      · obtain ⟨acc', vis', h1, h2, h3, h4⟩ := ih acc vis1 hf hi
        refine ⟨acc', vis', ?_, h2, h3, ?_⟩
        · rw [descLoop, if_pos hc, if_neg (by simpa using hv)]; exact h1
        · intro c' hc' ho
          rcases List.mem_cons.1 hc' with rfl | hc'
          · exact h3 _ hv
          · exact h4 c' hc' ho
      · have hcn := (directed_mem_nodes how.1).2
        obtain ⟨ds, vis2, hr, hp⟩ := hrec c vis1 hcn hv hf
        have hi2 : DescInv g u vis (acc ++ ds) vis2 := by
          constructor
          · exact fun x hx => hp.sub x (hi.sub x hx)
          · exact hp.sub _ hi.self
          · intro x
            rw [List.mem_append, hi.mem, hp.mem]
            constructor
            · rintro (⟨h1, h2⟩ | ⟨h1, h2⟩)
              · exact ⟨hp.sub x h1, h2⟩
              · exact ⟨h1, fun hx => h2 (hi.sub x hx)⟩
            · rintro ⟨h1, h2⟩
              by_cases hx : x ∈ vis1
              · exact Or.inl ⟨hx, h2⟩
              · exact Or.inr ⟨h1, hx⟩
          · intro x hx hxv
            by_cases hx1 : x ∈ vis1
            · exact hi.reach x hx1 hxv
            · exact .head how (hp.reach x hx hx1)
          · intro x hx hxv hxu y hy
            by_cases hx1 : x ∈ vis1
            · exact hp.sub y (hi.closed x hx1 hxv hxu y hy)
            · exact hp.closed x hx hx1 y hy
        have hf2 : g.unvisited vis2 ≤ f := le_trans (unvisited_mono hp.sub) hf
        obtain ⟨acc', vis', h1, h2, h3, h4⟩ := ih (acc ++ ds) vis2 hf2 hi2
        refine ⟨acc', vis', ?_, h2, fun x hx => h3 x (hp.sub x hx), ?_⟩
        · rw [descLoop, if_pos hc, if_pos hv, hr]; exact h1
        · intro c' hc' ho
          rcases List.mem_cons.1 hc' with rfl | hc'
          · exact h3 _ hp.self
          · exact h4 c' hc' ho
    · obtain ⟨acc', vis', h1, h2, h3, h4⟩ := ih acc vis1 hf hi
      refine ⟨acc', vis', ?_, h2, h3, ?_⟩
      · rw [descLoop, if_neg hc]; exact h1
      · intro c' hc' ho
        rcases List.mem_cons.1 hc' with rfl | hc'
        · exact absurd (by simpa [OneWay] using ho) hc
        · exact h4 c' hc' ho

theorem descAux_spec (h : WF0 g) {ord : List ι → List ι} (hord : SetOrder ord) :
    ∀ (f : Nat) (u : ι) (vis : List ι), u ∉ vis → u ∈ g.nodes → g.unvisited vis ≤ f →
      ∃ ds vis', descAux g ord f u vis = some (ds, vis') ∧ DescPost g u vis ds vis' := by
  intro f
  induction f with
  | zero =>
    intro u vis hu hn hf
    have := unvisited_cons_lt hn hu
    omega
  | succ f ih =>
    intro u vis hu hn hf
    have hlt := unvisited_cons_lt hn hu
    unfold descAux
    rw [if_neg hu]
    cases hr : g.edges.get? u with
    | none =>
      refine ⟨[u], u :: vis, rfl, ?_⟩
      constructor
      · exact fun x hx => List.mem_cons_of_mem _ hx
      · exact List.mem_cons_self
      · intro x; rw [List.mem_singleton, List.mem_cons]
        constructor
        · rintro rfl; exact ⟨Or.inl rfl, hu⟩
        · rintro ⟨h1 | h1, h2⟩
          · exact h1
          · exact absurd h1 h2
      · intro x hx hxv
        rcases List.mem_cons.1 hx with rfl | hx
        · exact .refl
        · exact absurd hx hxv
      · intro x hx hxv y hy
        rcases List.mem_cons.1 hx with rfl | hx
        · obtain ⟨row, h1, _⟩ := mem_row_of_directed h hy.1
          rw [hr] at h1; cases h1
        · exact absurd hx hxv
      · simp
    | some row =>
      have hi0 : DescInv g u vis [u] (u :: vis) := by
        constructor
        · exact fun x hx => List.mem_cons_of_mem _ hx
        · exact List.mem_cons_self
        · intro x; rw [List.mem_singleton, List.mem_cons]
          constructor
          · rintro rfl; exact ⟨Or.inl rfl, hu⟩
          · rintro ⟨h1 | h1, h2⟩
            · exact h1
            · exact absurd h1 h2
        · intro x hx hxv
          rcases List.mem_cons.1 hx with rfl | hx
          · exact .refl
          · exact absurd hx hxv
        · intro x hx hxv hxu
          rcases List.mem_cons.1 hx with rfl | hx
          · exact absurd rfl hxu
          · exact absurd hx hxv
      obtain ⟨acc', vis', h1, h2, h3, h4⟩ := descLoop_spec (u := u) (vis := vis) (f := f)
        (fun c vis1 hc1 hc2 hc3 => ih c vis1 hc2 hc1 hc3) row.keys [u] (u :: vis) (by omega) hi0
      refine ⟨ord acc', vis', ?_, ?_⟩
      · simp only; rw [h1]
      · constructor
        · exact h2.sub
        · exact h2.self
        · intro x; rw [(hord acc').2]; exact h2.mem x
        · exact h2.reach
        · intro x hx hxv y hy
          by_cases hxu : x = u
          · subst hxu
            obtain ⟨row', hr1, hr2⟩ := mem_row_of_directed h hy.1
            rw [hr] at hr1; cases hr1
            exact h4 y hr2 hy
          · exact h2.closed x hx hxv hxu y hy
        · exact (hord acc').1

theorem descLoop_mono {u : ι} {rec rec' : ι → List ι → Option (List ι × List ι)}
    (hrec : ∀ c vis r, rec c vis = some r → rec' c vis = some r) :
    ∀ (cs acc vis : List ι) r, descLoop g u rec cs acc vis = some r → descLoop g u rec' cs acc vis = some r := by
  intro cs
  induction cs with
  | nil => intro acc vis r h; exact h
  | cons c cs ih =>
    intro acc vis r h
    rw [descLoop] at h ⊢
    split at h
    · rename_i h1
      rw [if_pos h1]
      split at h
      · rename_i h2
        rw [if_pos h2]
        cases hx : rec c vis with
        | none => rw [hx] at h; cases h
        | some x =>
          rw [hx] at h
          rw [hrec c vis x hx]
          exact ih _ _ _ h
      · rename_i h2
        rw [if_neg h2]
        exact ih _ _ _ h
    · rename_i h1
      rw [if_neg h1]
      exact ih _ _ _ h

theorem descAux_mono {ord : List ι → List ι} : ∀ (f : Nat) (u : ι) (vis : List ι) r,
    descAux g ord f u vis = some r → descAux g ord (f + 1) u vis = some r := by
  intro f
  induction f with
  | zero => intro u vis r h; cases h
  | succ f ih =>
    intro u vis r h
    unfold descAux at h ⊢
    split at h
    · rename_i h1; rw [if_pos h1]; exact h
    · rename_i h1
      rw [if_neg h1]
      cases hr : g.edges.get? u with
      | none => rw [hr] at h; exact h
      | some row =>
        rw [hr] at h
        simp only at h ⊢
        cases hx : descLoop g u (descAux g ord f) row.keys [u] (u :: vis) with
        | none => rw [hx] at h; cases h
        | some x =>
          rw [hx] at h
          rw [descLoop_mono (fun c vis r => ih c vis r) _ _ _ _ hx]
          exact h

theorem descAux_mono_le {ord : List ι → List ι} {f f' : Nat} (hff : f ≤ f') {u : ι} {vis : List ι}
    {r : List ι × List ι} (h : descAux g ord f u vis = some r) : descAux g ord f' u vis = some r := by
  induction hff with
  | refl => exact h
  | step _ ih => exact descAux_mono _ _ _ _ ih

theorem descendants_exact (h : WF0 g) {ord : List ι → List ι} (hord : SetOrder ord) {u : ι} (hu : u ∈ g.nodes) :
    ∃ l, (∀ fuel, g.nodes.length ≤ fuel → g.descendantsOfNode ord fuel u = some l) ∧ l.Nodup ∧
      ∀ x, x ∈ l ↔ Relation.ReflTransGen (OneWay g) u x := by
  obtain ⟨ds, vis', h1, hp⟩ := descAux_spec h hord g.nodes.length u [] (by simp) hu (by rw [unvisited_nil])
  refine ⟨ds, ?_, hp.nodup, ?_⟩
  · intro fuel hf
    unfold descendantsOfNode
    rw [descAux_mono_le hf h1]; rfl
  · intro x
    rw [hp.mem]
    constructor
    · rintro ⟨hx, hn⟩; exact hp.reach x hx hn
    · intro hr
      refine ⟨?_, by simp⟩
      induction hr with
      | refl => exact hp.self
      | tail _ hbc ih => exact hp.closed _ ih (by simp) _ hbc

/-! ## Simple paths -/

theorem edge_mem_nodes {u v : ι} (hd : g.edgeExists u v = true) : u ∈ g.nodes ∧ v ∈ g.nodes := by
  unfold edgeExists at hd
  split at hd
  · cases hd
  · split at hd
    · cases hd
    · rename_i h1 h2
      exact ⟨not_not.1 h1, not_not.1 h2⟩

/-- pure version of the enumeration -/
def simplePaths (g : Graph ι δ) (v : ι) : Nat → ι → List ι → List (List ι)
  | 0, _, _ => []
  | f + 1, u, vis =>
    if u = v then [[u]]
    else g.nodes.flatMap (fun n =>
      if n ∉ u :: vis && g.edgeExists u n then (simplePaths g v f n (u :: vis)).map (u :: ·) else [])

theorem collect_some {α β : Type} {f : α → Option (List β)} {F : α → List β} :
    ∀ {l : List α}, (∀ a ∈ l, f a = some (F a)) → collect f l = some (l.flatMap F) := by
  intro l
  induction l with
  | nil => intro _; rfl
  | cons a l ih =>
    intro h
    rw [collect, h a List.mem_cons_self]
    simp only
    rw [ih (fun b hb => h b (List.mem_cons_of_mem _ hb))]
    simp

theorem allPathsAux_eq (v : ι) : ∀ (f : Nat) (u : ι) (vis path : List ι), u ∉ vis → u ∈ g.nodes →
    g.unvisited vis ≤ f →
    allPathsAux g v f u vis path = some ((simplePaths g v f u vis).map (path ++ ·)) := by
  intro f
  induction f with
  | zero =>
    intro u vis path hu hn hf
    have := unvisited_cons_lt hn hu
    omega
  | succ f ih =>
    intro u vis path hu hn hf
    have hlt := unvisited_cons_lt hn hu
    unfold allPathsAux simplePaths
    by_cases huv : u = v
    · rw [if_pos huv, if_pos huv]; rfl
    · rw [if_neg huv, if_neg huv]
      rw [collect_some (F := fun n => if n ∉ u :: vis && g.edgeExists u n then
        (simplePaths g v f n (u :: vis)).map (fun p => path ++ u :: p) else [])]
      · congr 1
        rw [List.map_flatMap]
        congr 1
        funext n
        split
        · simp [List.map_map, Function.comp_def]
        · rfl
      · intro n hn'
        by_cases hc : (decide (n ∉ u :: vis) && g.edgeExists u n) = true
        · rw [if_pos hc, if_pos hc]
          simp only [Bool.and_eq_true, decide_eq_true_eq] at hc
          rw [ih n (u :: vis) (path ++ [u]) hc.1 hn' (by omega)]
          simp
        · rw [if_neg hc, if_neg hc]

theorem simplePaths_mem (v : ι) : ∀ (f : Nat) (u : ι) (vis : List ι), u ∉ vis → u ∈ g.nodes →
    g.unvisited vis ≤ f → ∀ p, p ∈ simplePaths g v f u vis ↔ SimplePath g u v p ∧ ∀ x ∈ p, x ∉ vis := by
  intro f
  induction f with
  | zero =>
    intro u vis hu hn hf
    have := unvisited_cons_lt hn hu
    omega
  | succ f ih =>
    intro u vis hu hn hf p
    have hlt := unvisited_cons_lt hn hu
    unfold simplePaths
    by_cases huv : u = v
    · subst huv
      rw [if_pos rfl, List.mem_singleton]
      constructor
      · rintro rfl
        exact ⟨⟨rfl, rfl, by simp, by simp⟩, by simpa using hu⟩
      · rintro ⟨⟨h1, h2, h3, _⟩, _⟩
        match p, h1, h2, h3 with
        | [a], h1, _, _ => simpa using h1
        | a :: b :: r, h1, h2, h3 =>
          simp only [List.head?_cons, Option.some.injEq] at h1
          subst h1
          rw [List.getLast?_cons_cons] at h2
          have := List.mem_of_getLast? h2
          simp only [List.nodup_cons] at h3
          exact absurd this h3.1
    · rw [if_neg huv, List.mem_flatMap]
      constructor
      · rintro ⟨n, hn', hm⟩
        split at hm
        · rename_i hc
          simp only [Bool.and_eq_true, decide_eq_true_eq] at hc
          obtain ⟨q, hq, rfl⟩ := List.mem_map.1 hm
          obtain ⟨⟨q1, q2, q3, q4⟩, q5⟩ := (ih n (u :: vis) hc.1 hn' (by omega) q).1 hq
          match q, q1, q2, q3, q4, q5 with
          | a :: r, q1, q2, q3, q4, q5 =>
            simp only [List.head?_cons, Option.some.injEq] at q1
            subst q1
            refine ⟨⟨rfl, ?_, ?_, ?_⟩, ?_⟩
            · rw [List.getLast?_cons_cons]; exact q2
            · rw [List.nodup_cons]
              exact ⟨fun hh => (q5 u hh) List.mem_cons_self, q3⟩
            · rw [List.isChain_cons_cons]; exact ⟨hc.2, q4⟩
            · intro x hx
              rcases List.mem_cons.1 hx with rfl | hx
              · exact hu
              · exact fun hh => q5 x hx (List.mem_cons_of_mem _ hh)
        · cases hm
      · rintro ⟨⟨h1, h2, h3, h4⟩, h5⟩
        match p, h1, h2, h3, h4, h5 with
        | [a], h1, h2, _, _, _ =>
          simp only [List.head?_cons, Option.some.injEq, List.getLast?_singleton] at h1 h2
          exact absurd (h1.symm.trans h2) huv
        | a :: b :: r, h1, h2, h3, h4, h5 =>
          simp only [List.head?_cons, Option.some.injEq] at h1
          subst h1
          rw [List.isChain_cons_cons] at h4
          have hb := (edge_mem_nodes h4.1).2
          rw [List.nodup_cons] at h3
          have hb2 : b ∉ a :: vis := by
            intro hh
            rcases List.mem_cons.1 hh with rfl | hh
            · exact h3.1 List.mem_cons_self
            · exact h5 b (by simp) hh
          refine ⟨b, hb, ?_⟩
          rw [if_pos (by simp only [Bool.and_eq_true, decide_eq_true_eq]; exact ⟨hb2, h4.1⟩)]
          refine List.mem_map.2 ⟨b :: r, ?_, rfl⟩
          refine (ih b (a :: vis) hb2 hb (by omega) _).2 ⟨⟨rfl, ?_, h3.2, h4.2⟩, ?_⟩
          · rw [List.getLast?_cons_cons] at h2; exact h2
          · intro x hx hh
            rcases List.mem_cons.1 hh with rfl | hh
            · exact h3.1 hx
            · exact h5 x (List.mem_cons_of_mem _ hx) hh

theorem simplePaths_head (v : ι) (f : Nat) (u : ι) (vis : List ι) (p : List ι)
    (hp : p ∈ simplePaths g v f u vis) : p.head? = some u := by
  cases f with
  | zero => cases hp
  | succ f =>
    unfold simplePaths at hp
    split at hp
    · simp only [List.mem_singleton] at hp; subst hp; rfl
    · obtain ⟨n, _, hm⟩ := List.mem_flatMap.1 hp
      split at hm
      · obtain ⟨q, _, rfl⟩ := List.mem_map.1 hm; rfl
      · cases hm

theorem simplePaths_nodup (hn : g.nodes.Nodup) (v : ι) : ∀ (f : Nat) (u : ι) (vis : List ι),
    (simplePaths g v f u vis).Nodup := by
  intro f
  induction f with
  | zero => intro u vis; simp [simplePaths]
  | succ f ih =>
    intro u vis
    unfold simplePaths
    split
    · simp
    · rw [List.nodup_flatMap]
      constructor
      · intro n _
        split
        · exact (ih n _).map (fun a b hab => by simpa using hab)
        · simp
      · refine hn.imp ?_
        intro a b hab
        show List.Disjoint _ _
        intro p hp1 hp2
        simp only at hp1 hp2
        split at hp1
        · split at hp2
          · obtain ⟨q, hq, rfl⟩ := List.mem_map.1 hp1
            obtain ⟨q', hq', he⟩ := List.mem_map.1 hp2
            simp only [List.cons.injEq, true_and] at he
            subst he
            have h1 := simplePaths_head _ _ _ _ _ hq
            have h2 := simplePaths_head _ _ _ _ _ hq'
            rw [h1] at h2
            exact hab (Option.some.inj h2)
          · cases hp2
        · cases hp1

theorem collect_mono {α β : Type} {f f' : α → Option (List β)} :
    ∀ {l : List α} {r : List β}, (∀ a ∈ l, ∀ x, f a = some x → f' a = some x) → collect f l = some r →
      collect f' l = some r := by
  intro l
  induction l with
  | nil => intro r _ h; exact h
  | cons a l ih =>
    intro r hm h
    rw [collect] at h ⊢
    cases hx : f a with
    | none => rw [hx] at h; cases h
    | some x =>
      rw [hx] at h
      rw [hm a List.mem_cons_self x hx]
      simp only at h ⊢
      cases hy : collect f l with
      | none => rw [hy] at h; cases h
      | some y =>
        rw [hy] at h
        rw [ih (fun b hb => hm b (List.mem_cons_of_mem _ hb)) hy]
        exact h

theorem allPathsAux_mono (v : ι) : ∀ (f : Nat) (u : ι) (vis path : List ι) r,
    allPathsAux g v f u vis path = some r → allPathsAux g v (f + 1) u vis path = some r := by
  intro f
  induction f with
  | zero => intro u vis path r h; cases h
  | succ f ih =>
    intro u vis path r h
    unfold allPathsAux at h ⊢
    split at h
    · rename_i h1; rw [if_pos h1]; exact h
    · rename_i h1
      rw [if_neg h1]
      refine collect_mono ?_ h
      intro n _ x hx
      split at hx
      · rename_i h2; rw [if_pos h2]; exact ih _ _ _ _ hx
      · rename_i h2; rw [if_neg h2]; exact hx

theorem allPaths_exact (h : WF0 g) {u : ι} (hu : u ∈ g.nodes) (v : ι) :
    ∃ ps, (∀ fuel, g.nodes.length ≤ fuel → g.allPaths fuel u v = some ps) ∧ ps.Nodup ∧
      ∀ p, p ∈ ps ↔ SimplePath g u v p := by
  refine ⟨simplePaths g v g.nodes.length u [], ?_, simplePaths_nodup h.nodup v _ _ _, ?_⟩
  · intro fuel hf
    induction hf with
    | refl =>
      unfold allPaths
      rw [allPathsAux_eq v _ _ _ _ (by simp) hu (by rw [unvisited_nil])]
      simp
    | step _ ih => exact allPathsAux_mono v _ _ _ _ _ ih
  · intro p
    rw [simplePaths_mem v _ _ _ (by simp) hu (by rw [unvisited_nil])]
    simp

end Graph
end Verif
