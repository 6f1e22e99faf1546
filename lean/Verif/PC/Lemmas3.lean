import Verif.PC.Lemmas2

/-!
# Helper lemmas: the skeleton phases end with the skeleton of the DAG
-/

namespace Verif
namespace PC
open Graph CI
variable {ι ρ : Type} [DecidableEq ι] {T : Tests ι ρ} {E : ι → ι → Prop}

omit [DecidableEq ι] in
theorem neighbours_valid {min : Int} {ord : NbOrd ι} (ho : NbOrd.Valid ord) : (neighbours min ord).Valid :=
  ⟨ho, fun _ _ _ _ => .refl _⟩

theorem complete_purge {g : CGraph ι ρ} (hc : Complete g) : Complete (purgeG g) := by
  intro a ha b hb hab
  rw [nodes_purgeG] at ha hb
  rw [live_purgeG]
  exact hc a ha b hb hab

theorem inv_purgeG {g0 g : CGraph ι ρ} (h : Inv T g0 g) : Inv T g0 (purgeG g) := by
  have := h.purge
  rwa [purge_run h.wf] at this

theorem hasCorr_purgeG {g : CGraph ι ρ} (hwf : WF0 g) (h : HasCorr g) : HasCorr (purgeG g) := by
  have := hasCorr_purge hwf h
  rwa [purge_run hwf] at this

/-- the graph has exactly the adjacencies of the DAG -/
def SkelDone (T : Tests ι ρ) (E : ι → ι → Prop) (g0 g : CGraph ι ρ) : Prop :=
  Inv T g0 g ∧ ∀ x y, x ∈ g0.nodes → y ∈ g0.nodes → x ≠ y → (g.live x y = true ↔ Dag.Adj E x y)

/-- the two common first steps -/
theorem first_steps {gn : CGraph ι ρ} (hgn : Reachable gn) (hO : Oracle T E gn.nodes) (fuel : Nat)
    (h : List (HistRec ι (Info ι ρ))) (rest : List (PStep ι (Info ι ρ))) : ∃ g h', runPipeline fuel
      (.plain (pearsonStep T) :: .plain (corrStep T) :: rest) ⟨startGraph gn, h⟩ = runPipeline fuel rest ⟨g, h'⟩ ∧
      Inv T (startGraph gn) g ∧ HasCorr g ∧
      ∀ x y, x ∈ gn.nodes → y ∈ gn.nodes → x ≠ y → (g.live x y = false ↔ Dag.DSep E x y []) := by
  obtain ⟨h0, h1, h2⟩ := start_facts gn hgn T
  have hO' : Oracle T E (startGraph gn).nodes := h1 ▸ hO
  unfold runPipeline
  obtain ⟨tp1, g1, e1, i1, c1, hc1⟩ := pearson_phase hO.sym h0 h2
  rw [PyM.forEach_cons_ok (run_plain_ok fuel (s := pearsonStep T) (m := ⟨startGraph gn, h⟩) e1 i1.wf)]
  have i1' := inv_purgeG i1
  have c1' := complete_purge c1
  have hc1' := hasCorr_purgeG i1.wf hc1
  obtain ⟨tp2, g2, e2, i2⟩ := corr_phase hO'.total hO.sym i1' c1' hc1'
  obtain ⟨hc2, hd2⟩ := corr_done hO' i1' c1' hc1' e2
  rw [PyM.forEach_cons_ok (run_plain_ok fuel (s := corrStep T) (m := ⟨purgeG g1, _⟩) e2 i2.wf)]
  refine ⟨_, _, rfl, inv_purgeG i2, hasCorr_purgeG i2.wf hc2, ?_⟩
  intro x y hx hy hxy
  rw [live_purgeG]
  exact hd2 x y (by rw [show (startGraph gn).nodes = gn.nodes from h1]; exact hx)
    (by rw [show (startGraph gn).nodes = gn.nodes from h1]; exact hy) hxy

/-- the last step of the skeleton phase: with all pairs gone that fewer than `min - 2` variables separate -/
theorem last_step {g0 g : CGraph ι ρ} (hc0 : Complete g0) (hO : Oracle T E g0.nodes) (h : Inv T g0 g) {min : Int}
    (hmin : 2 ≤ min) {ord : NbOrd ι} (ho : NbOrd.Valid ord)
    (hbefore : ∀ u v, u ∈ g0.nodes → v ∈ g0.nodes → u ≠ v → ∀ Z : List ι, Z.Nodup → u ∉ Z → v ∉ Z → (∀ z ∈ Z, z ∈ g0.nodes) →
      (Z.length : Int) + 2 < min → Dag.DSep E u v Z → g.live u v = false) :
    ∃ tp g', (matrixStep T (neighbours min ord)).execute false g = (.ok tp, g') ∧ SkelDone T E g0 g' := by
  have hval := neighbours_valid (min := min) ho
  obtain ⟨tp, g', he, hi⟩ := conditional_phase hO.total hO.sym h (.matrix (neighbours min ord)) hval trivial
    ⟨hmin, Or.inl rfl⟩
  have he' : (matrixStep T (neighbours min ord)).execute false g = (.ok tp, g') := he
  refine ⟨tp, g', he', hi, ?_⟩
  intro x y hx hy hxy
  refine ⟨fun hl => ?_, fun ha => adj_live hO hc0 hi ha⟩
  by_contra hna
  obtain ⟨Zx, hZx, hmx⟩ := Dag.exists_parents h.wf.nodup (by rw [h.nodes]; exact hO.edges) x
  obtain ⟨Zy, hZy, hmy⟩ := Dag.exists_parents h.wf.nodup (by rw [h.nodes]; exact hO.edges) y
  have key : ∀ u v, u ∈ g0.nodes → v ∈ g0.nodes → u ≠ v → ¬ Dag.Adj E u v → ∀ Z : List ι, Z.Nodup → (∀ z, z ∈ Z ↔ E z u) →
      Dag.DSep E u v Z → g'.live u v = false := by
    intro u v hu hv huv hna Z hZ hm hd
    have hvZ : v ∉ Z := fun hz => hna (Or.inr ((hm v).1 hz))
    have huZ : u ∉ Z := fun hz => hO.acyclic.irrefl _ ((hm u).1 hz)
    by_cases hlen : (Z.length : Int) + 2 < min
    · have := dead_execute hO.sym h (matrix_safe T g0 _ hval)
        (hbefore u v hu hv huv Z hZ huZ hvZ (fun z hz => (hO.edges _ _ ((hm z).1 hz)).1) hlen hd)
      rwa [he'] at this
    · exact matrix_done hO hc0 h hval rfl hmin rfl he' hu hv huv hZ (fun z hz => Or.inl ((hm z).1 hz)) hvZ
        (by show min ≤ _; omega) hd
  rcases Dag.dsep_of_not_adj hO.acyclic hxy hna hmx hmy with hd | hd
  · rw [key x y hx hy hxy hna Zx hZx hmx hd] at hl; cases hl
  · have := key y x hy hx hxy.symm (fun ha => hna ha.symm) Zy hZy hmy hd.symm
    rw [dead_symm hi this] at hl
    cases hl

theorem skelDone_purge {g0 g : CGraph ι ρ} (h : SkelDone T E g0 g) : SkelDone T E g0 (purgeG g) :=
  ⟨inv_purgeG h.1, fun x y hx hy hxy => by rw [live_purgeG]; exact h.2 x y hx hy hxy⟩

/-- the skeleton phase of `PCClassic` -/
theorem classic_skeleton {gn : CGraph ι ρ} (hgn : Reachable gn) (hO : Oracle T E gn.nodes) {ord : NbOrd ι}
    (ho : NbOrd.Valid ord) (fuel : Nat) (h : List (HistRec ι (Info ι ρ))) (rest : List (PStep ι (Info ι ρ))) :
    ∃ g h', runPipeline fuel (classicSkeleton T ord ++ rest) ⟨startGraph gn, h⟩ = runPipeline fuel rest ⟨g, h'⟩ ∧
      SkelDone T E (startGraph gn) g ∧ ∃ g1, g = purgeG g1 := by
  obtain ⟨_, h1, h2⟩ := start_facts gn hgn T
  have hn : (startGraph gn).nodes = gn.nodes := h1
  have hO' : Oracle T E (startGraph gn).nodes := h1 ▸ hO
  obtain ⟨g1, h', e1, i1, hc1, hd1⟩ := first_steps hgn hO fuel h (.plain (matrixStep T (neighbours 3 ord)) :: rest)
  obtain ⟨tp, g2, e2, s2⟩ := last_step (min := 3) h2 hO' i1 (by decide) ho (by
    intro u v hu hv huv Z _ _ _ _ hlen hd
    have : Z = [] := List.length_eq_zero_iff.1 (by omega)
    subst this
    exact (hd1 u v (hn ▸ hu) (hn ▸ hv) huv).2 hd)
  unfold runPipeline at e1
  rw [PyM.forEach_cons_ok (run_plain_ok fuel (s := matrixStep T (neighbours 3 ord)) (m := ⟨g1, h'⟩) e2 s2.1.wf)] at e1
  exact ⟨purgeG g2, _, e1, skelDone_purge s2, g2, rfl⟩

/-- the skeleton phase of `PC` -/
theorem pc_skeleton {gn : CGraph ι ρ} (hgn : Reachable gn) (hO : Oracle T E gn.nodes) {ord : NbOrd ι}
    (ho : NbOrd.Valid ord) (fuel : Nat) (h : List (HistRec ι (Info ι ρ))) (rest : List (PStep ι (Info ι ρ))) :
    ∃ g h', runPipeline fuel (pcSkeleton T ord ++ rest) ⟨startGraph gn, h⟩ = runPipeline fuel rest ⟨g, h'⟩ ∧
      SkelDone T E (startGraph gn) g ∧ ∃ g1, g = purgeG g1 := by
  obtain ⟨_, h1, h2⟩ := start_facts gn hgn T
  have hn : (startGraph gn).nodes = gn.nodes := h1
  have hO' : Oracle T E (startGraph gn).nodes := h1 ▸ hO
  obtain ⟨g1, h', e1, i1, hc1, hd1⟩ := first_steps hgn hO fuel h
    (.plain (partialStep T) :: .plain (matrixStep T (neighbours 4 ord)) :: rest)
  obtain ⟨tp2, g2, e2, i2⟩ := conditional_phase hO'.total hO.sym i1 .partialCorrelation trivial trivial trivial
  have e2' : (partialStep T).execute false g1 = (.ok tp2, g2) := e2
  have i2' := inv_purgeG i2
  obtain ⟨tp3, g3, e3, s3⟩ := last_step (min := 4) h2 hO' i2' (by decide) ho (by
    intro u v hu hv huv Z hZ huZ hvZ hZN hlen hd
    rw [live_purgeG]
    match Z, hlen with
    | [], _ =>
      have := dead_execute hO.sym i1 (partial_safe T _) ((hd1 u v (hn ▸ hu) (hn ▸ hv) huv).2 hd)
      rwa [e2'] at this
    | [p], _ =>
      simp only [List.mem_singleton] at huZ hvZ
      exact partial_done hO' i1 hc1 (by rw [hn]; exact hd1) e2' hu hv (hZN p (by simp)) huv huZ hvZ hd
    | _ :: _ :: _, hl => simp only [List.length_cons] at hl; omega)
  unfold runPipeline at e1
  rw [PyM.forEach_cons_ok (run_plain_ok fuel (s := partialStep T) (m := ⟨g1, h'⟩) e2' i2.wf),
    PyM.forEach_cons_ok (run_plain_ok fuel (s := matrixStep T (neighbours 4 ord)) (m := ⟨purgeG g2, _⟩) e3 s3.1.wf)] at e1
  exact ⟨purgeG g3, _, e1, skelDone_purge s3, g3, rfl⟩

end PC
end Verif
