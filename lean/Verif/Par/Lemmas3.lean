import Verif.Par.Lemmas2

/-!
# Helper lemmas: the schedule in which every batch is applied before the next one is sent
-/

namespace Verif
open Graph
variable {ι δ : Type} [DecidableEq ι]

namespace Par

theorem apply_all {s : Step ι δ} {dry : Bool} {size : Nat} (todo : List (Graph ι δ → List (Yield ι))) (buf : List (Yield ι))
    (sent : List (Except PyErr (Results ι δ))) (rs : Results ι δ) (g g' : Graph ι δ) (t p t' p' : List (TestResult ι δ))
    (h : takeAction dry rs g = (.ok (t', p'), g')) :
    Trans.Star s dry size ⟨g, todo, buf, sent, rs, t, p⟩ ⟨g', todo, buf, sent, [], t ++ t', p ++ p'⟩ := by
  induction rs generalizing g t p t' p' with
  | nil =>
    cases h
    rw [List.append_nil, List.append_nil]
    exact .refl _
  | cons r rs ih =>
    rw [takeAction_cons'] at h
    generalize hx : takeAction dry (asList r) g = x at h
    obtain ⟨e | ⟨t1, p1⟩, g1⟩ := x
    · cases h
    · simp only at h
      generalize hy : takeAction dry rs g1 = y at h
      obtain ⟨e | ⟨t2, p2⟩, g2⟩ := y
      · cases h
      · simp only [Prod.mk.injEq, Except.ok.injEq] at h
        obtain ⟨⟨rfl, rfl⟩, rfl⟩ := h
        have h1 := Trans.apply (s := s) (dry := dry) (size := size) ⟨g, todo, buf, sent, r :: rs, t, p⟩ r rs t1 p1 g1 rfl hx
        have h2 := ih g1 (t ++ t1) (p ++ p1) t2 p2 hy
        rw [List.append_assoc, List.append_assoc] at h2
        exact star_trans (star_one h1) h2

variable {P : Graph ι δ → Prop} {Q : TestResult ι δ → Prop} {R : List ι → Prop}

/-- `J done rest g` holds after every batch if it holds in the beginning and every batch keeps it -/
theorem seq_batches {s : Step ι δ} (ha : ApplyTotal P Q) (k : Kept P Q)
    (hs : ∀ c g u rs, P g → R c → s.process c g u = .ok (some rs) → ∀ r ∈ rs, Q r)
    (htot : ∀ c g u, P g → R c → ∃ o, s.process c g u = .ok o) {size : Nat} (hsize : size ≠ 0)
    (J : List (List ι) → List (List ι) → Graph ι δ → Prop)
    (hJ : ∀ done batch rest g rs t p g', P g → (∀ c ∈ batch, R c) → J done (batch ++ rest) g → batch.length ≤ size →
      s.evalBatch g (batch.map .single) = .ok rs → takeAction false rs g = (.ok (t, p), g') → J (done ++ batch) rest g')
    (done rest : List (List ι)) (hR : ∀ c ∈ rest, R c) (g : Graph ι δ) (hg : P g) (h0 : J done rest g)
    (t p : List (TestResult ι δ)) : ∃ g' t' p', Trans.Star s false size ⟨g, [], rest.map .single, [], [], t, p⟩
      ⟨g', [], [], [], [], t', p'⟩ ∧ J (done ++ rest) [] g' := by
  induction hn : rest.length using Nat.strong_induction_on generalizing done rest g t p with
  | _ n ih =>
    subst hn
    cases hr : rest with
    | nil =>
      subst hr
      exact ⟨g, t, p, .refl _, by simpa using h0⟩
    | cons c cs =>
      rw [← hr]
      have hne : rest ≠ [] := by rw [hr]; exact List.cons_ne_nil _ _
      have hb : ∀ c ∈ rest.take size, R c := fun c hc => hR c (List.mem_of_mem_take hc)
      obtain ⟨rs, hrs⟩ := s.evalBatch_ok g ((rest.take size).map .single) (by
        intro y hy
        obtain ⟨c, hc, rfl⟩ := List.mem_map.1 hy
        obtain ⟨o, ho⟩ := htot c g none hg (hb c hc)
        exact ⟨c, o, rfl, ho⟩)
      have hq : ∀ l, some l ∈ rs → ∀ r ∈ l, Q r := by
        intro l hl r hr
        obtain ⟨c, hc, hp⟩ := s.evalBatch_mem g _ rs hrs _ hl
        obtain ⟨c', hc', e⟩ := List.mem_map.1 hc
        cases e
        exact hs c g none l hg (hb c hc') hp r hr
      obtain ⟨⟨t1, p1⟩, g1, h1⟩ := takeAction_ok ha k rs hq hg
      have hg1 : P g1 := by have := k.takeAction false rs hq hg; rwa [h1] at this
      have hj1 := hJ done (rest.take size) (rest.drop size) g rs t1 p1 g1 hg hb
        (by rw [List.take_append_drop]; exact h0) (by rw [List.length_take]; omega) hrs h1
      have hlen : (rest.drop size).length < rest.length := by
        have := List.length_pos_iff.2 hne
        rw [List.length_drop]
        omega
      obtain ⟨g', t', p', h2, h3⟩ := ih (rest.drop size).length hlen (done ++ rest.take size) (rest.drop size)
        (fun c hc => hR c (List.mem_of_mem_drop hc)) g1 hg1 hj1 (t ++ t1) (p ++ p1) rfl
      rw [List.append_assoc, List.take_append_drop] at h3
      refine ⟨g', t', p', ?_, h3⟩
      have s1 := Trans.send (s := s) (dry := false) (size := size) ⟨g, [], rest.map .single, [], [], t, p⟩
        (by simpa using hne) (.inr rfl)
      simp only [← List.map_take, ← List.map_drop, List.nil_append, hrs] at s1
      have s2 := Trans.receive (s := s) (dry := false) (size := size)
        ⟨g, [], (rest.drop size).map .single, [.ok rs], [], t, p⟩ [] rs [] rfl rfl
      simp only [List.nil_append] at s2
      exact star_trans (star_one s1) (star_trans (star_one s2) (star_trans (apply_all _ _ _ rs g g1 t p t1 p1 h1) h2))

end Par
end Verif
