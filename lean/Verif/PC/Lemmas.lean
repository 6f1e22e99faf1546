import Verif.PC.Spec
import Verif.CI.Props
import Verif.Dag.Lemmas

/-!
# Helper lemmas: the skeleton phase with a perfect oracle
-/

namespace Verif
open Graph CI
variable {ι ρ δ : Type} [DecidableEq ι]

namespace Dag
variable {E : ι → ι → Prop}

omit [DecidableEq ι] in
/-- a set that is independent of one end marginally does not help -/
theorem DSep.drop {u v p : ι} (h : DSep E u v [p]) (hv : DSep E p v []) : DSep E u v [] := by
  intro π hπ
  obtain ⟨a, b, c, hi, hb⟩ := h π hπ
  rcases hb with ⟨h1, _⟩ | ⟨h1, h2⟩
  · exact ⟨a, b, c, hi, Or.inl ⟨h1, by simp⟩⟩
  · rw [List.mem_singleton] at h2
    subst h2
    obtain ⟨l1, l2, rfl⟩ := hi
    obtain ⟨q1, q2, q3, q4⟩ := hπ
    have hsuf : (b :: c :: l2) <:+ (l1 ++ [a, b, c] ++ l2) := ⟨l1 ++ [a], by simp⟩
    have hpath : IsPath E b v (b :: c :: l2) := by
      refine ⟨rfl, ?_, hsuf.sublist.nodup q3, q4.suffix hsuf⟩
      rw [← q2, show l1 ++ [a, b, c] ++ l2 = (l1 ++ [a]) ++ (b :: c :: l2) by simp, List.getLast?_append_of_ne_nil _ (by simp)]
    obtain ⟨a', b', c', hi', hb'⟩ := hv _ hpath
    refine ⟨a', b', c', hi'.trans hsuf.isInfix, ?_⟩
    rcases hb' with hb' | ⟨_, hb'⟩
    · exact Or.inl hb'
    · cases hb'

omit [DecidableEq ι] in
/-- the parents of a node as a list -/
theorem exists_parents {N : List ι} (hN : N.Nodup) (hE : ∀ a b, E a b → a ∈ N ∧ b ∈ N) (u : ι) :
    ∃ Z : List ι, Z.Nodup ∧ ∀ x, x ∈ Z ↔ E x u := by
  classical
  refine ⟨N.filter (fun x => decide (E x u)), hN.filter _, fun x => ?_⟩
  simp only [List.mem_filter, decide_eq_true_eq]
  exact ⟨fun h => h.2, fun h => ⟨(hE x u h).1, h⟩⟩

end Dag

namespace PC
variable {T : Tests ι ρ} {E : ι → ι → Prop}

omit [DecidableEq ι] in
theorem reported_dsep {N : List ι} (hO : Oracle T E N) {x y : ι} {S : List ι} (h : Reported T x y S)
    (hx : x ∈ N) (hy : y ∈ N) (hxy : x ≠ y) (hS : S.Nodup) (hSN : ∀ z ∈ S, z ∈ N) (h1 : x ∉ S) (h2 : y ∉ S) :
    Dag.DSep E x y S := by
  have hnd : (x :: y :: S).Nodup := by simp [hxy, h1, h2, hS]
  have hmem : ∀ z ∈ x :: y :: S, z ∈ N := by
    intro z hz
    rcases List.mem_cons.1 hz with rfl | hz
    · exact hx
    rcases List.mem_cons.1 hz with rfl | hz
    · exact hy
    · exact hSN z hz
  cases h with
  | marginal h => exact (hO.marginal x y hx hy hxy).1 h
  | triple z h =>
    simp only [List.mem_singleton] at h1 h2
    obtain ⟨b, hb, hd⟩ := hO.triple x y z hx hy (hSN z (by simp)) hxy h1 h2
    rw [hb] at h
    cases h
    exact hd.1 rfl
  | matrix S h =>
    obtain ⟨b, hb, hd⟩ := hO.matrix x y S hnd hmem
    rw [hb] at h
    cases h
    exact hd.1 rfl
  | regression S h => exact (hO.regression x y S hnd hmem).1 h

omit [DecidableEq ι] in
theorem certificate_dsep {N : List ι} (hO : Oracle T E N) {a b : ι} {r : CResult ι ρ} (h : Certificate T N a b r)
    (ha : a ∈ N) (hb : b ∈ N) (hab : a ≠ b) : ∃ d S, r.data = some d ∧ d.sep = some S ∧ a ∉ S ∧ b ∉ S ∧ Dag.DSep E a b S := by
  obtain ⟨_, h1, d, S, h2, h3, h4, h5, h6, h7, h8⟩ := h
  refine ⟨d, S, h2, h3, h6, h7, ?_⟩
  rcases h1 with ⟨e1, e2⟩ | ⟨e1, e2⟩
  · rw [e1, e2] at h8
    exact reported_dsep hO h8 ha hb hab h4 h5 h6 h7
  · rw [e1, e2] at h8
    exact (reported_dsep hO h8 hb ha hab.symm h4 h5 h7 h6).symm

/-- every adjacency of the DAG is still there -/
theorem adj_live {g0 g : CGraph ι ρ} (hO : Oracle T E g0.nodes) (hc : Complete g0) (h : Inv T g0 g) {a b : ι}
    (hab : Dag.Adj E a b) : g.live a b = true := by
  have hne : a ≠ b := by
    rintro rfl
    rcases hab with e | e <;> exact hO.acyclic.irrefl _ e
  have hn : a ∈ g0.nodes ∧ b ∈ g0.nodes := by
    rcases hab with e | e
    · exact hO.edges _ _ e
    · exact (hO.edges _ _ e).symm
  cases hl : g.live a b with
  | true => rfl
  | false =>
    obtain ⟨r, hr, _⟩ := h.cert a b (hc a hn.1 b hn.2 hne) hl
    obtain ⟨_, S, _, _, _, _, hd⟩ := certificate_dsep hO hr hn.1 hn.2 hne
    exact absurd hd (hab.not_dsep hne S)

theorem _root_.Verif.CI.Inv.refl {g0 g : CGraph ι ρ} (h : Inv T g0 g) : Inv T g g :=
  ⟨h.wf, rfl, h.sym, h.typ, h.corr, fun _ _ h => h, fun _ _ _ => rfl, fun _ _ h h' => by rw [h] at h'; cases h'⟩

theorem dead_stays (hsym : ∀ a b, T.pearson a b = T.pearson b a) {g0 g : CGraph ι ρ} (h : Inv T g0 g)
    {r : CResult ι ρ} (hr : Proposal T g0.nodes r) {a b : ι} (hd : g.live a b = false) :
    (applyOne r g).2.live a b = false := by
  have h' := h.refl.apply hsym (r := r) (by rw [h.nodes]; exact hr)
  cases hl : (applyOne r g).2.live a b with
  | false => rfl
  | true => rw [h'.le a b hl] at hd; cases hd

/-- a proposed removal in an applied batch takes effect -/
theorem removal_done (hsym : ∀ a b, T.pearson a b = T.pearson b a) {g0 g g' : CGraph ι ρ} (h : Inv T g0 g)
    (rs : Results ι (Info ι ρ)) (hq : ∀ l, some l ∈ rs → ∀ r ∈ l, Proposal T g0.nodes r)
    {tp : List (CResult ι ρ) × List (CResult ι ρ)} (ht : Graph.takeAction false rs g = (.ok tp, g')) {r : CResult ι ρ}
    {l : List (CResult ι ρ)} (hl : some l ∈ rs) (hr : r ∈ l) (ha : r.action = .removeEdgeUndirected) :
    g'.live r.u r.v = false := by
  have hq' : ∀ r ∈ flatten rs, Proposal T g0.nodes r := by
    intro r hr
    obtain ⟨o, ho, hr⟩ := List.mem_flatMap.1 hr
    cases o with
    | none => cases hr
    | some l => exact hq l ho r hr
  rw [takeAction_flat] at ht
  generalize hx : takeItems false (flatten rs) g = x at ht
  obtain ⟨e | t, g1⟩ := x
  · cases ht
  · simp only [Prod.mk.injEq] at ht
    obtain ⟨_, rfl⟩ := ht
    refine takeItems_each (inv_kept hsym g0) (fun r g => r.action = .removeEdgeUndirected → g.live r.u r.v = false) ?_ ?_
      (flatten rs) hq' h t hx r (List.mem_flatMap.2 ⟨some l, hl, hr⟩) ha
    · intro r g hg hr ha
      rw [applyOne_removeUndirected hg.wf ha]
      split
      · rename_i hl
        simp only [live_addH, live_mark]
        simp
      · rename_i hl
        cases hx : g.live r.u r.v with
        | false => rfl
        | true => simp [hx, hg.sym _ _ hx] at hl
    · intro r r' g hg hr' hd ha
      exact dead_stays hsym hg hr' (hd ha)

/-- the correlations stay -/
theorem hasCorr_apply {g0 g : CGraph ι ρ} (h : Inv T g0 g) (hc : HasCorr g) {r : CResult ι ρ}
    (hr : Proposal T g0.nodes r) : HasCorr (applyOne r g).2 := by
  rcases hr with hr | hr | ⟨hr, _⟩
  · rw [applyOne_doNothing hr]; exact hc
  · intro a b e he
    obtain ⟨e', he', h1 | h1⟩ := (update_spec h.wf h.sym hr).2.1 a b e he
    · exact h1
    · subst h1; exact hc a b e he'
  · rw [applyOne_removeUndirected h.wf hr]
    split
    · intro a b e he
      simp only [edges_addH, get2_modBoth] at he
      have key : ∀ {x : Option (Edge ι (Info ι ρ))} {f : Edge ι (Info ι ρ) → Edge ι (Info ι ρ)},
          (∀ e, (f e).metadata = e.metadata) → x.map f = some e → ∃ e', x = some e' ∧ e.metadata = e'.metadata := by
        intro x f hf hx
        cases x with
        | none => cases hx
        | some e' =>
          simp only [Option.map_some, Option.some.injEq] at hx
          exact ⟨e', rfl, by rw [← hx, hf]⟩
      split at he
      · split at he
        · obtain ⟨e1, h1, h2⟩ := key (fun e => (rfl : ({ e with deleted := true } : Edge ι (Info ι ρ)).metadata = e.metadata)) he
          obtain ⟨e2, h3, h4⟩ : ∃ e', g.edges.get2 r.u r.v = some e' ∧ e1.metadata = e'.metadata := by
            cases hx : g.edges.get2 r.u r.v with
            | none => rw [hx] at h1; cases h1
            | some e' =>
              rw [hx] at h1
              simp only [Option.map_some, Option.some.injEq] at h1
              exact ⟨e', rfl, by rw [← h1]⟩
          rw [h2, h4]
          exact hc _ _ e2 h3
        · obtain ⟨e1, h1, h2⟩ := key (fun e => (rfl : ({ e with deleted := true } : Edge ι (Info ι ρ)).metadata = e.metadata)) he
          rw [h2]; exact hc _ _ e1 h1
      · split at he
        · obtain ⟨e1, h1, h2⟩ := key (fun e => (rfl : ({ e with deleted := true } : Edge ι (Info ι ρ)).metadata = e.metadata)) he
          rw [h2]; exact hc _ _ e1 h1
        · exact hc a b e he
    · exact hc

theorem hasCorr_purge {g : CGraph ι ρ} (hwf : WF0 g) (hc : HasCorr g) : HasCorr (Graph.purge g).2 := by
  rw [purge_run hwf]
  intro a b e he
  rw [get2_purgeG] at he
  cases hx : g.edges.get2 a b with
  | none => rw [hx] at he; cases he
  | some e' =>
    rw [hx] at he
    simp only at he
    split at he
    · cases he
    · cases he; exact hc a b e hx

theorem invc_kept (hsym : ∀ a b, T.pearson a b = T.pearson b a) (g0 : CGraph ι ρ) :
    Kept (fun g => Inv T g0 g ∧ HasCorr g) (Proposal T g0.nodes) :=
  ⟨fun _ _ hg hr => ⟨hg.1.apply hsym hr, hasCorr_apply hg.1 hg.2 hr⟩,
    fun _ hg => ⟨hg.1.purge, hasCorr_purge hg.1.wf hg.2⟩⟩

omit [DecidableEq ι] in
theorem _root_.Verif.Step.Safe.weaken {P P' : Graph ι δ → Prop} {Q : TestResult ι δ → Prop} {s : Step ι δ}
    (h : s.Safe P Q) (hp : ∀ g, P' g → P g) : s.Safe P' Q := by
  obtain ⟨R, hR⟩ := h
  exact ⟨R, fun g0 ts h0 hts t ht g hg => hR.gen g0 ts (hp _ h0) hts t ht g (hp _ hg),
    fun c g u rs hg hc => hR.process c g u rs (hp _ hg) hc⟩

end PC
end Verif
