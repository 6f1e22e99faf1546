import Verif.Orient.Lemmas6

/-!
# Helper lemmas: one run of the collider test
-/

namespace Verif
open Graph CI
variable {ι ρ δ : Type} [DecidableEq ι]

omit [DecidableEq ι] in
theorem Step.evalSeq_acc {s : Step ι δ} {g : Graph ι δ} (P : List (List ι) → Results ι δ → Prop) (cs : List (List ι)) :
    ∀ done loc, P done loc →
    (∀ done loc c, c ∈ cs → P done loc → ∃ r, s.process c g (if s.needsUnapplied then some loc else none) = .ok r ∧
      P (done ++ [c]) (loc ++ [r])) →
    ∃ rs, s.evalSeq g (cs.map .single) loc = .ok rs ∧ P (done ++ cs) rs := by
  induction cs with
  | nil => intro done loc h _; exact ⟨loc, rfl, by simpa using h⟩
  | cons c cs ih =>
    intro done loc h hstep
    obtain ⟨r, h1, h2⟩ := hstep done loc c List.mem_cons_self h
    obtain ⟨rs, h3, h4⟩ := ih (done ++ [c]) (loc ++ [r]) h2 (fun d l c' hc' => hstep d l c' (List.mem_cons_of_mem _ hc'))
    refine ⟨rs, ?_, by simpa using h4⟩
    rw [List.map_cons]
    unfold Step.evalSeq Step.evalOne
    simp only
    rw [h1]
    exact h3

namespace Orient

/-- an undirected skeleton: every stored directed edge is live in both directions -/
def Skeleton (g : Graph ι δ) : Prop := ∀ a b, b ∈ g.edges.keys2 a → g.live a b = true ∧ g.live b a = true

/-- why the collider test removes the edge from `z` to `w` -/
def Justified (g : CGraph ι ρ) (z w : ι) : Prop :=
  ∃ x y, (w = x ∨ w = y) ∧ x ∈ g.nodes ∧ y ∈ g.nodes ∧ x ≠ y ∧ ¬ g.Line x y ∧ z ∈ g.edges.keys2 x ∧ z ∈ g.edges.keys2 y ∧
    ¬ SepRecorded g x y z

omit [DecidableEq ι] in
theorem cut_colliderAt {st : Strategy} {x y z : ι} {xz yz : List (CResult ι ρ)} {r : CResult ι ρ}
    (h : r ∈ colliderAt st x y z xz yz) (ha : r.action = .removeEdgeDirected) : r = cut z x ∨ r = cut z y := by
  unfold colliderAt at h
  split at h
  · cases st with
    | keepFirst =>
      simp only [List.mem_append] at h
      rcases h with h | h
      · split at h
        · rw [List.mem_singleton] at h; subst h; cases ha
        · cases h
      · split at h
        · rw [List.mem_singleton] at h; subst h; cases ha
        · cases h
    | keepLast =>
      simp only [List.mem_append, List.mem_singleton] at h
      rcases h with ((h | h) | h) | h
      · rw [(mem_restores h).1] at ha; cases ha
      · rw [(mem_restores h).1] at ha; cases ha
      · exact Or.inl h
      · exact Or.inr h
    | other => cases h
  · simpa using h

/-- what one run of the collider test does -/
structure ColliderRun (Q : List (CResult ι ρ) → Prop) (g g' : CGraph ι ρ) (pr : List (CResult ι ρ)) : Prop where
  loc : LocOK g pr
  app : AppState g (dead (fun _ _ => false) pr) g'
  same : ∀ a b, (∀ r ∈ pr, r.action ≠ .doNothing → ¬ (r.u = a ∧ r.v = b) ∧ ¬ (r.u = b ∧ r.v = a)) →
    g'.edges.get2 a b = g.edges.get2 a b
  just : ∀ r ∈ pr, r.action = .removeEdgeDirected → Justified g r.u r.v
  all : ∀ x ∈ g.nodes, ∀ y ∈ g.nodes, x ≠ y → ¬ g.Line x y → ∀ z, z ∈ g.edges.keys2 x → z ∈ g.edges.keys2 y →
    ¬ SepRecorded g x y z → ¬ SepRecorded g y x z → (cut z x ∈ pr ∧ cut z y ∈ pr) ∨ ∃ r ∈ pr, r.v = z ∧ (r.u = x ∨ r.u = y)
  extra : Q pr

theorem collider_batch (st : Strategy) {o : Ord ι ρ} (ho : o.Valid) {g : CGraph ι ρ} (hwf : WF0 g) (hrows : Rows g)
    (hdata : RemovalsHaveData g) (P : List (CResult ι ρ) → Prop) (h0 : P [])
    (hP : ∀ (L : List (CResult ι ρ)) (x y : ι) (zs : List ι), P L → x ∈ g.nodes → y ∈ g.nodes → x ≠ y → ¬ g.Line x y → zs.Nodup →
      (∀ z ∈ zs, z ∈ g.edges.keys2 x ∧ z ∈ g.edges.keys2 y ∧ ¬ SepRecorded g x y z) →
      P (L ++ zs.flatMap (fun z => colliderAt st x y z (L.filter (fun r => decide (r.u = x) && decide (r.v = z)))
        (L.filter (fun r => decide (r.u = y) && decide (r.v = z)))))) :
    ∃ rs, (∀ dry, (colliderStep st o).execute dry g = takeAction dry rs g) ∧ P (flatten rs) ∧
      (∀ r ∈ flatten rs, r.action = .removeEdgeDirected → Justified g r.u r.v) ∧
      (∀ x ∈ g.nodes, ∀ y ∈ g.nodes, x ≠ y → ¬ g.Line x y → ∀ z, z ∈ g.edges.keys2 x → z ∈ g.edges.keys2 y →
        ¬ SepRecorded g x y z → ¬ SepRecorded g y x z → (cut z x ∈ flatten rs ∧ cut z y ∈ flatten rs) ∨
          ∃ r ∈ flatten rs, r.v = z ∧ (r.u = x ∨ r.u = y)) := by
  obtain ⟨cs, hgen, hcs, hcov⟩ := allGen_pairs g hwf.nodup
  let C : List ι → List (CResult ι ρ) → Prop := fun c L => ∀ x y, (c = [x, y] ∨ c = [y, x]) → ¬ g.Line x y → ∀ z,
    z ∈ g.edges.keys2 x → z ∈ g.edges.keys2 y → ¬ SepRecorded g x y z → ¬ SepRecorded g y x z →
      (cut z x ∈ L ∧ cut z y ∈ L) ∨ ∃ r ∈ L, r.v = z ∧ (r.u = x ∨ r.u = y)
  have hflat : ∀ (loc : Results ι (Info ι ρ)) r, flatten (loc ++ [r]) = flatten loc ++ r.getD [] := by
    intro loc r; simp [flatten, List.flatMap_append]
  obtain ⟨rs, h1, h2, h3, h4⟩ := Step.evalSeq_acc (s := colliderStep st o) (g := g)
    (fun done loc => P (flatten loc) ∧
      (∀ r ∈ flatten loc, r.action = .removeEdgeDirected → Justified g r.u r.v) ∧
      ∀ c ∈ done, C c (flatten loc)) cs [] []
    ⟨h0, by simp [flatten], by simp⟩ (by
      rintro done loc c hc ⟨p1, p2, p3⟩
      obtain ⟨x, y, rfl, hxy, hx, hy⟩ := hcs c hc
      obtain ⟨q1, q2⟩ := collider_process hwf hrows st ho loc hx hy hxy (hdata x hx y hy hxy)
      by_cases hl : g.Line x y
      · refine ⟨none, q1 hl, ?_⟩
        rw [hflat]
        simp only [Option.getD_none, List.append_nil]
        refine ⟨p1, p2, ?_⟩
        intro c' hc'
        rcases List.mem_append.1 hc' with hc' | hc'
        · exact p3 c' hc'
        · rw [List.mem_singleton] at hc'
          subst hc'
          rintro x' y' (hh | hh) hn
          · obtain ⟨rfl, rfl⟩ : x = x' ∧ y = y' := by simpa using hh
            exact absurd hl hn
          · obtain ⟨rfl, rfl⟩ : x = y' ∧ y = x' := by simpa using hh
            exact absurd hl.symm hn
      · obtain ⟨zs, z1, z2, z3⟩ := q2 hl
        refine ⟨_, z3, ?_⟩
        rw [hflat]
        simp only [Option.getD_some]
        refine ⟨hP _ x y zs p1 hx hy hxy hl z1 (fun z hz => (z2 z).1 hz), ?_, ?_⟩
        · intro r hr ha
          rcases List.mem_append.1 hr with hr | hr
          · exact p2 r hr ha
          · obtain ⟨z, hz, hr⟩ := List.mem_flatMap.1 hr
            obtain ⟨k1, k2, k3⟩ := (z2 z).1 hz
            rcases cut_colliderAt hr ha with rfl | rfl
            · exact ⟨x, y, Or.inl rfl, hx, hy, hxy, hl, k1, k2, k3⟩
            · exact ⟨x, y, Or.inr rfl, hx, hy, hxy, hl, k1, k2, k3⟩
        · intro c' hc' x' y' hxy' hn z k1 k2 k3 k4
          rcases List.mem_append.1 hc' with hc' | hc'
          · rcases p3 c' hc' x' y' hxy' hn z k1 k2 k3 k4 with ⟨m1, m2⟩ | ⟨r, m1, m2⟩
            · exact Or.inl ⟨List.mem_append_left _ m1, List.mem_append_left _ m2⟩
            · exact Or.inr ⟨r, List.mem_append_left _ m1, m2⟩
          · rw [List.mem_singleton] at hc'
            subst hc'
            have key : z ∈ g.edges.keys2 x → z ∈ g.edges.keys2 y → ¬ SepRecorded g x y z →
                (cut z x ∈ flatten loc ++ zs.flatMap (fun z => colliderAt st x y z (pend loc x z) (pend loc y z)) ∧
                 cut z y ∈ flatten loc ++ zs.flatMap (fun z => colliderAt st x y z (pend loc x z) (pend loc y z))) ∨
                ∃ r ∈ flatten loc ++ zs.flatMap (fun z => colliderAt st x y z (pend loc x z) (pend loc y z)),
                  r.v = z ∧ (r.u = x ∨ r.u = y) := by
              intro k1 k2 k3
              have hz := (z2 z).2 ⟨k1, k2, k3⟩
              by_cases hp : pend loc x z = [] ∧ pend loc y z = []
              · left
                have : colliderAt st x y z (pend loc x z) (pend loc y z) = [cut z x, cut z y] := by
                  unfold colliderAt; rw [hp.1, hp.2]; rfl
                constructor
                · exact List.mem_append_right _ (List.mem_flatMap.2 ⟨z, hz, by rw [this]; simp⟩)
                · exact List.mem_append_right _ (List.mem_flatMap.2 ⟨z, hz, by rw [this]; simp⟩)
              · right
                have : ∃ w r, (w = x ∨ w = y) ∧ r ∈ pend loc w z := by
                  by_cases hpx : pend loc x z = []
                  · have : pend loc y z ≠ [] := fun h => hp ⟨hpx, h⟩
                    obtain ⟨r, hr⟩ := List.exists_mem_of_ne_nil _ this
                    exact ⟨y, r, Or.inr rfl, hr⟩
                  · obtain ⟨r, hr⟩ := List.exists_mem_of_ne_nil _ hpx
                    exact ⟨x, r, Or.inl rfl, hr⟩
                obtain ⟨w, r, hw, hr⟩ := this
                obtain ⟨m1, m2, m3⟩ := mem_pend.1 hr
                exact ⟨r, List.mem_append_left _ m1, m3, by rw [m2]; exact hw⟩
            rcases hxy' with hh | hh
            · obtain ⟨rfl, rfl⟩ : x = x' ∧ y = y' := by simpa using hh
              exact key k1 k2 k3
            · obtain ⟨rfl, rfl⟩ : x = y' ∧ y = x' := by simpa using hh
              rcases key k2 k1 k4 with ⟨m1, m2⟩ | ⟨r, m1, m2, m3⟩
              · exact Or.inl ⟨m2, m1⟩
              · exact Or.inr ⟨r, m1, m2, m3.symm⟩)
  refine ⟨rs, ?_, h2, h3, ?_⟩
  · intro dry
    unfold Step.execute
    rw [show (colliderStep st o).gen g = _ from hgen]
    simp only [colliderStep, Bool.false_eq_true, if_false, forceOn, List.flatMap_cons, List.flatMap_nil, List.append_nil]
    have : (colliderStep st o).evalSeq g (cs.map .single) [] = .ok rs := h1
    simp only [colliderStep] at this
    rw [this]
  · intro x hx y hy hxy hn z k1 k2 k3 k4
    rcases hcov x hx y hy hxy with h | h
    · exact h4 _ (by simpa using h) x y (Or.inl rfl) hn z k1 k2 k3 k4
    · exact h4 _ (by simpa using h) x y (Or.inr rfl) hn z k1 k2 k3 k4

theorem collider_execute (st : Strategy) {o : Ord ι ρ} (ho : o.Valid) {g : CGraph ι ρ} (hwf : WF0 g) (hrows : Rows g)
    (hdata : RemovalsHaveData g) (hsk : Skeleton g) (Q : List (CResult ι ρ) → Prop) (h0 : Q [])
    (hQ : ∀ (L : List (CResult ι ρ)) (x y : ι) (zs : List ι), Q L → x ∈ g.nodes → y ∈ g.nodes → x ≠ y → ¬ g.Line x y → zs.Nodup →
      (∀ z ∈ zs, z ∈ g.edges.keys2 x ∧ z ∈ g.edges.keys2 y ∧ ¬ SepRecorded g x y z) →
      Q (L ++ zs.flatMap (fun z => colliderAt st x y z (L.filter (fun r => decide (r.u = x) && decide (r.v = z)))
        (L.filter (fun r => decide (r.u = y) && decide (r.v = z)))))) :
    ∃ t pr g', (colliderStep st o).execute false g = (.ok (t, pr), g') ∧
      (colliderStep st o).execute true g = (.ok (pr, pr), g) ∧ ColliderRun Q g g' pr := by
  obtain ⟨rs, h1, ⟨h2, h2'⟩, h3, h4⟩ := collider_batch st ho hwf hrows hdata (fun L => LocOK g L ∧ Q L)
    ⟨LocOK.nil g, h0⟩ (by
      rintro L x y zs ⟨hL, hq⟩ hx hy hxy hl hnd hz
      refine ⟨?_, hQ L x y zs hq hx hy hxy hl hnd hz⟩
      refine LocOK.call st (fun z => L.filter (fun r => decide (r.u = x) && decide (r.v = z)))
        (fun z => L.filter (fun r => decide (r.u = y) && decide (r.v = z))) zs hnd ?_ L hL ?_ ?_
      · intro z hzz
        obtain ⟨k1, k2, _⟩ := hz z hzz
        refine ⟨hsk _ _ k1, hsk _ _ k2, hwf.live_ne (hsk _ _ k1).1, hwf.live_ne (hsk _ _ k2).1⟩
      · intro z _ r; simp
      · intro z _ r; simp)
  obtain ⟨t, g', k1, k2, k3⟩ := (AppState.start hwf).takeItems (flatten rs) h2.good h2.live
  refine ⟨t, flatten rs, g', ?_, ?_, h2, k2, k3, h3, h4, h2'⟩
  · rw [h1, takeAction_flat, k1]
  · rw [h1, takeAction_flat, takeItems_dry]

end Orient
end Verif
