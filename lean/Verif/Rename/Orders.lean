import Verif.Rename.Tests
import Verif.PC.ParLemmas

/-!
# Renaming back, and corresponding set orders

A relabelling that can be undone gives the same graph back; to each choice of set orders, shuffles and dice belongs one
under the new names.
-/

namespace Verif
open Graph CI Orient PC

/-! ## undoing a relabelling -/

theorem Dict.relabel_undo {κ κ' α α' : Type} {e : κ → κ'} {he : Function.Injective e} {φ : κ → α → α'} {e' : κ' → κ}
    {he' : Function.Injective e'} {φ' : κ' → α' → α} (h1 : ∀ k, e' (e k) = k) (h2 : ∀ k x, φ' (e k) (φ k x) = x) (d : Dict κ α) :
    (d.relabel e he φ).relabel e' he' φ' = d := by
  apply Dict.ext
  simp [Dict.relabel, h1, h2, Function.comp_def]

namespace Relabel
variable {ι δ ι' δ' : Type} {M : Relabel ι δ ι' δ'} {N : Relabel ι' δ' ι δ}

/-- `N` takes back the change made by `M` -/
structure Undo (N : Relabel ι' δ' ι δ) (M : Relabel ι δ ι' δ') : Prop where
  name : ∀ v, N.name (M.name v) = v
  info : ∀ u v m, N.info (M.name u) (M.name v) (M.info u v m) = m

variable (h : Undo N M)
include h

theorem Undo.names (l : List ι) : (l.map M.name).map N.name = l := by
  rw [List.map_map]
  conv_rhs => rw [← List.map_id l]
  exact List.map_congr_left (fun v _ => h.name v)

theorem Undo.result (r : TestResult ι δ) : N.result (M.result r) = r := by
  obtain ⟨u, v, a, d⟩ := r
  simp only [Relabel.result, h.name]
  congr 1
  cases d with
  | none => rfl
  | some m => exact congrArg some (h.info u v m)

theorem Undo.resultList (l : List (TestResult ι δ)) : (l.map M.result).map N.result = l := by
  rw [List.map_map]
  conv_rhs => rw [← List.map_id l]
  exact List.map_congr_left (fun v _ => h.result v)

theorem Undo.rows (d) : N.rows (M.rows d) = d := by
  refine Dict.relabel_undo h.name (fun u r => Dict.relabel_undo h.name (fun v x => ?_) r) d
  obtain ⟨p, q, t, m, b⟩ := x
  simp only [Relabel.edge, h.name, h.info]

theorem Undo.graph (g : Graph ι δ) : N.graph (M.graph g) = g := by
  obtain ⟨nodes, edges, rev, del, hist⟩ := g
  simp only [Relabel.graph, h.rows, h.names]
  congr 1
  exact Dict.relabel_undo (κ := ι × ι) (κ' := ι' × ι') (e := fun p => (M.name p.1, M.name p.2))
    (e' := fun p => (N.name p.1, N.name p.2)) (φ := fun _ (l : List (TestResult ι δ)) => l.map M.result)
    (φ' := fun _ (l : List (TestResult ι' δ')) => l.map N.result) (fun p => by simp [h.name]) (fun _ l => h.resultList l) hist

theorem Undo.model (m : GModel ι δ) : N.model (M.model m) = m := by
  obtain ⟨g, l⟩ := m
  simp only [Relabel.model, h.graph]
  congr 1
  have h1 : ∀ r : StepRec ι δ, N.stepRec (M.stepRec r) = r := by
    intro r
    simp only [Relabel.stepRec, h.resultList]
  rw [List.map_map]
  conv_rhs => rw [← List.map_id l]
  refine List.map_congr_left (fun r _ => ?_)
  cases r with
  | plain r => simp only [Function.comp_apply, Relabel.histRec, h1, id]
  | logic n rs =>
    simp only [Function.comp_apply, Relabel.histRec, List.map_map, id]
    congr 1
    conv_rhs => rw [← List.map_id rs]
    exact List.map_congr_left (fun r _ => h1 r)

theorem Undo.graph_injective : Function.Injective M.graph := fun g g' he => by
  rw [← h.graph g, he, h.graph g']

omit h in
theorem yield_injective (M : Relabel ι δ ι' δ') : Function.Injective M.yield := by
  intro a b hab
  cases a <;> cases b <;> simp only [Relabel.yield, Yield.chunk.injEq, Yield.single.injEq, reduceCtorEq] at hab
  · rw [List.map_injective_iff.2 (List.map_injective_iff.2 M.inj) hab]
  · rw [List.map_injective_iff.2 M.inj hab]

end Relabel

/-! ## corresponding choices exist -/

/-- choices made on lists can be carried over to renamed lists -/
theorem carry_over {A A' α α' : Type} {fA : A → A'} (hA : Function.Injective fA) {f : α → α'} (hf : Function.Injective f)
    (o : A → List α → List α) (P : List α' → List α' → Prop) (hP : ∀ a l, P ((o a l).map f) (l.map f))
    (hD : ∀ l, ∃ r, P r l) :
    ∃ o' : A' → List α' → List α', (∀ a l, P (o' a l) l) ∧ ∀ a l, o' (fA a) (l.map f) = (o a l).map f := by
  classical
  have step : ∀ p : A' × List α', ∃ r, P r p.2 ∧ ∀ (a : A) (l : List α), fA a = p.1 → l.map f = p.2 → r = (o a l).map f := by
    rintro ⟨a', l'⟩
    by_cases hx : ∃ (a : A) (l : List α), fA a = a' ∧ l.map f = l'
    · obtain ⟨a, l, rfl, rfl⟩ := hx
      refine ⟨_, hP a l, fun b k hb hk => ?_⟩
      rw [hA hb, List.map_injective_iff.2 hf hk]
    · obtain ⟨r, hr⟩ := hD l'
      exact ⟨r, hr, fun a l ha hl => absurd ⟨a, l, ha, hl⟩ hx⟩
  choose r h1 h2 using step
  exact ⟨fun a l => r (a, l), fun a l => h1 (a, l), fun a l => h2 _ a l rfl rfl⟩

section choices
variable {ι ρ ι' : Type} [DecidableEq ι'] {e : ι → ι'}

private theorem setOrder_default (l : List ι') : ∃ r : List ι', r.Nodup ∧ ∀ x, x ∈ r ↔ x ∈ l :=
  ⟨l.dedup, l.nodup_dedup, fun _ => List.mem_dedup⟩

private theorem setOrder_map (hf : Function.Injective e) {ord : List ι → List ι} (h : SetOrder ord) (l : List ι) :
    ((ord l).map e).Nodup ∧ ∀ x, x ∈ (ord l).map e ↔ x ∈ l.map e := by
  refine ⟨(h l).1.map hf, fun x => ?_⟩
  simp only [List.mem_map, (h l).2]

theorem SameOrd.exists {M : Relabel ι (Info ι ρ) ι' (Info ι' ρ)} (hM : Function.Injective M.graph) (o : Ord ι ρ) (ho : o.Valid) :
    ∃ o' : Ord ι' ρ, o'.Valid ∧ SameOrd M o o' := by
  obtain ⟨o', h1, h2⟩ := carry_over (fA := fun p : CGraph ι ρ × ι × ι => (M.graph p.1, M.name p.2.1, M.name p.2.2))
    (by
      rintro ⟨g, x, y⟩ ⟨g', x', y'⟩ h
      simp only [Prod.mk.injEq] at h
      rw [hM h.1, M.inj h.2.1, M.inj h.2.2])
    M.inj (fun p l => o p.1 p.2.1 p.2.2 l) (fun r l => r.Nodup ∧ ∀ x, x ∈ r ↔ x ∈ l)
    (fun p l => setOrder_map M.inj (ho _ _ _) l) setOrder_default
  exact ⟨fun g x y l => o' (g, x, y) l, fun g x y l => h1 _ l, fun g x y l => h2 (g, x, y) l⟩

theorem SameOrds.exists {M : Relabel ι (Info ι ρ) ι' (Info ι' ρ)} (hM : Function.Injective M.graph) (o : Ords ι ρ) (ho : o.Valid) :
    ∃ o' : Ords ι' ρ, o'.Valid ∧ SameOrds M o o' := by
  obtain ⟨h1, h3, h4⟩ := ho
  obtain ⟨p1, v1, s1⟩ := SameOrd.exists hM _ h1
  obtain ⟨p3, v3, s3⟩ := SameOrd.exists hM _ h3
  obtain ⟨p4, v4, s4⟩ := SameOrd.exists hM _ h4
  exact ⟨⟨p1, p3, p4⟩, ⟨v1, v3, v4⟩, ⟨s1, s3, s4⟩⟩

theorem SameNbOrd.exists (he : Function.Injective e) (o : NbOrd ι) (ho : o.Valid) : ∃ o' : NbOrd ι', o'.Valid ∧ SameNbOrd e o o' := by
  obtain ⟨o', h1, h2⟩ := carry_over (fA := fun p : Nat × ι × ι => (p.1, e p.2.1, e p.2.2))
    (by
      rintro ⟨g, x, y⟩ ⟨g', x', y'⟩ h
      simp only [Prod.mk.injEq] at h
      rw [h.1, he h.2.1, he h.2.2])
    he (fun p l => o p.1 p.2.1 p.2.2 l) (fun r l => r.Nodup ∧ ∀ x, x ∈ r ↔ x ∈ l)
    (fun p l => setOrder_map he (ho _ _ _) l) setOrder_default
  exact ⟨fun g x y l => o' (g, x, y) l, fun g x y l => h1 _ l, fun g x y l => h2 (g, x, y) l⟩

omit [DecidableEq ι'] in
theorem SameShuf.exists (he : Function.Injective e) (s : Shuf ι) (hs : ∀ k x y l, (s k x y l).Perm l) :
    ∃ s' : Shuf ι', (∀ k x y l, (s' k x y l).Perm l) ∧ SameShuf e s s' := by
  obtain ⟨o', h1, h2⟩ := carry_over (fA := fun p : Nat × ι × ι => (p.1, e p.2.1, e p.2.2))
    (by
      rintro ⟨g, x, y⟩ ⟨g', x', y'⟩ h
      simp only [Prod.mk.injEq] at h
      rw [h.1, he h.2.1, he h.2.2])
    (List.map_injective_iff.2 he) (fun p l => s p.1 p.2.1 p.2.2 l) (fun r l => r.Perm l)
    (fun p l => (hs _ _ _ l).map _) (fun l => ⟨l, .refl l⟩)
  exact ⟨fun g x y l => o' (g, x, y) l, fun g x y l => h1 _ l, fun g x y l => h2 (g, x, y) l⟩

theorem SameChoice.exists (M : Relabel ι (Info ι ρ) ι' (Info ι' ρ)) (c : ParChoice ι) (hc : c.Valid) :
    ∃ c' : ParChoice ι', c'.Valid ∧ SameChoice M c c' := by
  obtain ⟨o1, v1, s1⟩ := SameNbOrd.exists M.inj _ hc.ord1
  obtain ⟨o2, v2, s2⟩ := SameNbOrd.exists M.inj _ hc.ord2
  obtain ⟨p1, w1, t1⟩ := SameShuf.exists M.inj _ hc.shuf1
  obtain ⟨p2, w2, t2⟩ := SameShuf.exists M.inj _ hc.shuf2
  obtain ⟨k, k1, k2⟩ := carry_over (fA := fun i : Nat => i) (fun _ _ h => h) M.yield_injective c.keep
    (fun r l => r.Sublist l) (fun i l => (hc.keep i l).map _) (fun l => ⟨l, .refl l⟩)
  exact ⟨⟨o1, p1, k, o2, p2⟩, ⟨v1, w1, k1, v2, w2⟩, ⟨s1, t1, k2, s2, t2⟩⟩

end choices
end Verif
