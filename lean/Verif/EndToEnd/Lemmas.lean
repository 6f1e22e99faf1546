import Verif.EndToEnd.Model
import Verif.Sample.Props
import Verif.Data.Props
import Verif.Linear.Props

/-!
# Lemmas: the generated columns arrive unchanged at the tests, and depend continuously on the draws
-/

namespace Verif
namespace EndToEnd
open Sample Data Linear
variable {ι R : Type} {n : ℕ}

section loading
variable [LinearOrder ι]

theorem shapedEntry_get (i : Fin n) (l : List (ι × (Fin n → R))) (hn : (l.map Prod.fst).Nodup) (d : Dict ι R) (k : ι) :
    (shapedEntry i l d).get? k = match assoc k l with | some c => some (c i) | none => d.get? k := by
  induction l generalizing d with
  | nil => rfl
  | cons p l ih =>
    obtain ⟨k', c⟩ := p
    simp only [List.map_cons, List.nodup_cons] at hn
    show (shapedEntry i l (d.set k' (c i))).get? k = _
    have e : assoc k ((k', c) :: l) = if k' = k then some c else assoc k l := rfl
    rw [ih hn.2, Dict.get?_set, e]
    by_cases h : k' = k
    · subst h
      have : assoc k' l = none := (assoc_eq_none_iff _ _).2 hn.1
      simp [this]
    · simp [h, Ne.symm h]

theorem shapedEntry_keys (i : Fin n) (l : List (ι × (Fin n → R))) (hn : (l.map Prod.fst).Nodup) (d : Dict ι R)
    (hd : ∀ k ∈ l.map Prod.fst, k ∉ d.keys) : (shapedEntry i l d).keys = d.keys ++ l.map Prod.fst := by
  induction l generalizing d with
  | nil => simp [shapedEntry]
  | cons p l ih =>
    obtain ⟨k', c⟩ := p
    simp only [List.map_cons, List.nodup_cons] at hn
    show (shapedEntry i l (d.set k' (c i))).keys = _
    have hk : k' ∉ d.keys := hd k' (by simp)
    rw [ih hn.2, Dict.keys_set_of_not_mem _ _ _ hk]
    · simp
    · intro k hkl
      rw [Dict.keys_set_of_not_mem _ _ _ hk]
      simp only [List.mem_append, List.mem_singleton, not_or]
      exact ⟨hd k (by simp only [List.map_cons, List.mem_cons]; exact Or.inr hkl), fun e => hn.1 (e ▸ hkl)⟩

theorem assoc_map (f : (Fin n → R) → List R) (l : List (ι × (Fin n → R))) (k : ι) :
    assoc k (l.map (fun p => (p.1, f p.2))) = (assoc k l).map f := by
  induction l with
  | nil => rfl
  | cons p l ih =>
    obtain ⟨k', c⟩ := p
    simp only [List.map_cons]
    unfold assoc
    split
    · rfl
    · exact ih

theorem columnLists_get (out : Dict ι (Fin n → R)) (k : ι) : (columnLists out).get? k = (out.get? k).map List.ofFn :=
  assoc_map _ _ _

theorem isColumn_shaped (out : Dict ι (Fin n → R)) {k : ι} {c : Fin n → R} (h : out.get? k = some c) :
    IsColumn (shapedData out) k (List.ofFn c) := by
  unfold IsColumn shapedData
  rw [List.ofFn_eq_map]
  generalize List.finRange n = l
  induction l with
  | nil => exact .nil
  | cons i l ih =>
    refine .cons ?_ ih
    rw [shapedEntry_get _ _ out.nodup]
    have : assoc k out.items = some c := h
    rw [this]

/-- whichever way the generated data are passed on, the model has the generated variables as nodes with the generated columns
as values -/
theorem load_ok (out : Dict ι (Fin n → ℝ)) (hn : n ≠ 0) {input : Data.Input ι ℝ}
    (hi : input = .dict (columnLists out) ∨ input = .list (shapedData out)) :
    ∃ nodes, createGraph input = .ok nodes ∧ (nodes.map Prod.fst).Perm out.keys ∧
      ∀ k c, out.get? k = some c → nodeValues (n := n) nodes k = c := by
  have hval : ∀ (nodes : Nodes ι ℝ), (nodes.map Prod.fst).Nodup →
      (∀ k c, out.get? k = some c → (k, List.ofFn c) ∈ nodes) →
      ∀ k c, out.get? k = some c → nodeValues (n := n) nodes k = c := by
    intro nodes hnd hm k c hc
    funext i
    unfold nodeValues
    rw [(assoc_eq_some_iff _ _ _ hnd).2 (hm k c hc)]
    simp
  rcases hi with rfl | rfl
  · obtain ⟨g, h1, h2, h3⟩ := C52_dict (columnLists out)
    have hnd : (g.map Prod.fst).Nodup := h2.imp (fun h => ne_of_lt h)
    refine ⟨g, h1, ?_, hval g hnd ?_⟩
    · refine (List.perm_ext_iff_of_nodup hnd out.nodup_keys).2 (fun k => ?_)
      rw [Dict.mem_keys_iff]
      constructor
      · intro h
        obtain ⟨⟨k', l⟩, hm, rfl⟩ := List.mem_map.1 h
        have := (h3 k' l).1 hm
        rw [columnLists_get] at this
        cases e : out.get? k' with
        | none => rw [e] at this; cases this
        | some c => simp [e]
      · intro h
        obtain ⟨c, hc⟩ := Option.isSome_iff_exists.1 h
        exact List.mem_map.2 ⟨(k, List.ofFn c), (h3 _ _).2 (by rw [columnLists_get, hc]; rfl), rfl⟩
    · intro k c hc
      exact (h3 _ _).2 (by rw [columnLists_get, hc]; rfl)
  · obtain ⟨m, rfl⟩ := Nat.exists_eq_succ_of_ne_zero hn
    have hcons : ∃ first rows, shapedData out = first :: rows ∧ first.keys = out.keys := by
      refine ⟨_, ((List.finRange m).map Fin.succ).map (fun i => shapedEntry i out.items Dict.empty), ?_,
        shapedEntry_keys (0 : Fin (m + 1)) out.items out.nodup Dict.empty (by simp [Dict.empty, Dict.keys])⟩
      unfold shapedData
      rw [List.finRange_succ]
      rfl
    obtain ⟨first, rows, e, hk⟩ := hcons
    let g : Nodes ι ℝ := out.items.map (fun p => (p.1, List.ofFn p.2))
    have hgk : g.map Prod.fst = out.keys := by
      simp [g, Dict.keys, List.map_map, Function.comp_def]
    have hm : ∀ k l, (k, l) ∈ g ↔ ∃ c, out.get? k = some c ∧ l = List.ofFn c := by
      intro k l
      simp only [g, List.mem_map, Prod.mk.injEq, Prod.exists]
      constructor
      · rintro ⟨k', c, h, rfl, rfl⟩
        exact ⟨c, (Dict.mem_items_iff _ _ _).1 h, rfl⟩
      · rintro ⟨c, h, rfl⟩
        exact ⟨k, c, (Dict.mem_items_iff _ _ _).2 h, rfl, rfl⟩
    refine ⟨g, ?_, by rw [hgk], hval g (hgk ▸ out.nodup_keys) (fun k c hc => (hm _ _).2 ⟨c, hc, rfl⟩)⟩
    rw [e]
    refine (C52_rows first rows g).2 ⟨by rw [hgk, hk], ?_⟩
    intro k l hkl
    obtain ⟨c, hc, rfl⟩ := (hm _ _).1 hkl
    rw [← e]
    exact isColumn_shaped out hc

end loading

/-- solutions of the equations depend linearly, so boundedly, on the noise -/
theorem structural_bound [DecidableEq ι] {edges : List (SEdge ι ℝ)} {vars : List ι} (hv : TopologicalOrder edges vars) :
    ∃ C > 0, ∀ (noise noise' col col' : ι → Fin n → ℝ) (δ : ℝ), Structural edges noise col → Structural edges noise' col' →
      (∀ v ∈ vars, ∀ i, |noise' v i - noise v i| ≤ δ) → ∀ v ∈ vars, ∀ i, |col' v i - col v i| ≤ C * δ := by
  have one : ∀ k, ∀ v ∈ vars, vars.idxOf v < k → ∃ C : ℝ, 0 ≤ C ∧ ∀ (noise noise' col col' : ι → Fin n → ℝ) (δ : ℝ),
      Structural edges noise col → Structural edges noise' col' →
      (∀ v ∈ vars, ∀ i, |noise' v i - noise v i| ≤ δ) → ∀ i, |col' v i - col v i| ≤ C * δ := by
    intro k
    induction k with
    | zero => intro v _ h; omega
    | succ k ih =>
      intro v hvm hk
      have hsrc : ∀ e ∈ edges.filter (fun e => e.dst = v), ∃ C : ℝ, 0 ≤ C ∧
          ∀ (noise noise' col col' : ι → Fin n → ℝ) (δ : ℝ),
          Structural edges noise col → Structural edges noise' col' →
          (∀ v ∈ vars, ∀ i, |noise' v i - noise v i| ≤ δ) → ∀ i, |col' e.src i - col e.src i| ≤ C * δ := by
        intro e he
        obtain ⟨he, hd⟩ := List.mem_filter.1 he
        have hd' : e.dst = v := by simpa using hd
        have hlt := hv.2.2 e.src v ⟨e, he, rfl, hd'⟩
        exact ih e.src ((hv.2.1 _).2 ⟨e, he, Or.inl rfl⟩) (by omega)
      have hsum : ∀ l : List (SEdge ι ℝ), (∀ e ∈ l, e ∈ edges.filter (fun e => e.dst = v)) → ∃ C : ℝ, 0 ≤ C ∧
          ∀ (noise noise' col col' : ι → Fin n → ℝ) (δ : ℝ),
          Structural edges noise col → Structural edges noise' col' →
          (∀ v ∈ vars, ∀ i, |noise' v i - noise v i| ≤ δ) → ∀ i,
          |(l.map (fun e => e.value * col' e.src i)).sum - (l.map (fun e => e.value * col e.src i)).sum| ≤ C * δ := by
        intro l
        induction l with
        | nil => intro _; exact ⟨0, le_refl _, fun _ _ _ _ _ _ _ _ _ => by simp⟩
        | cons e l ihl =>
          intro hl
          obtain ⟨C1, h1, hC1⟩ := ihl (fun e' he' => hl e' (List.mem_cons_of_mem _ he'))
          obtain ⟨C2, h2, hC2⟩ := hsrc e (hl e List.mem_cons_self)
          refine ⟨|e.value| * C2 + C1, by positivity, fun noise noise' col col' δ hs hs' hd i => ?_⟩
          have a1 := hC1 noise noise' col col' δ hs hs' hd i
          have a2 := hC2 noise noise' col col' δ hs hs' hd i
          simp only [List.map_cons, List.sum_cons]
          calc |(e.value * col' e.src i + (l.map (fun e => e.value * col' e.src i)).sum) -
                  (e.value * col e.src i + (l.map (fun e => e.value * col e.src i)).sum)|
              = |e.value * (col' e.src i - col e.src i) +
                  ((l.map (fun e => e.value * col' e.src i)).sum - (l.map (fun e => e.value * col e.src i)).sum)| := by
                congr 1; ring
            _ ≤ |e.value * (col' e.src i - col e.src i)| + |_| := abs_add_le _ _
            _ ≤ |e.value| * (C2 * δ) + C1 * δ := by
                rw [abs_mul]
                exact add_le_add (mul_le_mul_of_nonneg_left a2 (abs_nonneg _)) a1
            _ = _ := by ring
      obtain ⟨C, h0, hC⟩ := hsum _ (fun e he => he)
      refine ⟨1 + C, by positivity, fun noise noise' col col' δ hs hs' hd i => ?_⟩
      have hm := (hv.2.1 v).1 hvm
      rw [C51_linear_form edges noise col hs v hm i, C51_linear_form edges noise' col' hs' v hm i]
      have a1 := hC noise noise' col col' δ hs hs' hd i
      have a2 := hd v hvm i
      rw [show ∀ a b c d : ℝ, a + b - (c + d) = (a - c) + (b - d) by intros; ring]
      exact (abs_add_le _ _).trans (by linarith)
  have all : ∀ l : List ι, (∀ v ∈ l, v ∈ vars) → ∃ C > 0, ∀ (noise noise' col col' : ι → Fin n → ℝ) (δ : ℝ),
      Structural edges noise col → Structural edges noise' col' →
      (∀ v ∈ vars, ∀ i, |noise' v i - noise v i| ≤ δ) → ∀ v ∈ l, ∀ i, |col' v i - col v i| ≤ C * δ := by
    intro l
    induction l with
    | nil => intro _; exact ⟨1, one_pos, fun _ _ _ _ _ _ _ _ v hv => by cases hv⟩
    | cons x l ih =>
      intro hl
      obtain ⟨C1, h1, hC1⟩ := ih (fun v hv => hl v (List.mem_cons_of_mem _ hv))
      obtain ⟨C2, h2, hC2⟩ := one _ x (hl x List.mem_cons_self) (Nat.lt_succ_self _)
      refine ⟨C1 + C2, by positivity, fun noise noise' col col' δ hs hs' hd v hv' i => ?_⟩
      have hδ : 0 ≤ δ := (abs_nonneg _).trans (hd x (hl x List.mem_cons_self) i)
      rcases List.mem_cons.1 hv' with rfl | hv'
      · exact (hC2 noise noise' col col' δ hs hs' hd i).trans (mul_le_mul_of_nonneg_right (by linarith) hδ)
      · exact (hC1 noise noise' col col' δ hs hs' hd v hv' i).trans (mul_le_mul_of_nonneg_right (by linarith) hδ)
  exact all vars (fun _ h => h)

end EndToEnd
end Verif
