import Verif.Rename.Data
import Verif.Rename.Orders
import Verif.PC.ParProps
import Verif.Linear.Props

/-!
# Properties: names, units, origins, signs and the order of samples (C130, C131)
-/

namespace Verif
open Graph CI Orient PC Linear Stats Sample

/-! ## C130 -/

section names
variable {ι ρ ι' : Type} [DecidableEq ι] [DecidableEq ι']

/-- the sequential algorithms that ship -/
inductive Variant
  | pc
  | classic
  | stable

/-- the steps of the algorithm without the last one -/
def Variant.steps (a : Variant) (T : Tests ι ρ) (ord : NbOrd ι) (oc : Ord ι ρ) (o : Ords ι ρ) : List (PStep ι (Info ι ρ)) :=
  match a with
  | .pc => PC.pc T ord oc o
  | .classic => pcClassic T ord oc o
  | .stable => pcStable T ord oc o

/-- the steps, with or without the estimation of effects -/
def Variant.full (a : Variant) (T : Tests ι ρ) (ord : NbOrd ι) (oc : Ord ι ρ) (o : Ords ι ρ) :
    Option (Effects.Source ι ρ) → List (PStep ι (Info ι ρ))
  | none => a.steps T ord oc o
  | some D => a.steps T ord oc o ++ [.plain (Effects.effectStep D)]

/-- an outcome of the algorithm, for some iteration orders of the sets -/
def Possible (a : Variant) (T : Tests ι ρ) (D : Option (Effects.Source ι ρ)) (fuel : Nat) (m : GModel ι (Info ι ρ))
    (out : Except PyErr Unit × GModel ι (Info ι ρ)) : Prop :=
  ∃ (ord : NbOrd ι) (oc : Ord ι ρ) (o : Ords ι ρ), ord.Valid ∧ oc.Valid ∧ o.Valid ∧ out = runPipeline fuel (a.full T ord oc o D) m

/-- an outcome of `ParallelPC`, for some iteration orders, shuffles, dice and schedule -/
def PossiblePar (T : Tests ι ρ) (z : Sizes) (fuel : Nat) (m : GModel ι (Info ι ρ))
    (out : Except PyErr Unit × GModel ι (Info ι ρ)) : Prop :=
  ∃ (c : ParChoice ι) (oc : Ord ι ρ) (o : Ords ι ρ), c.Valid ∧ oc.Valid ∧ o.Valid ∧ Stages.Run fuel (parallelPC T z c oc o) m out

/-- new names, nothing else -/
abbrev named (e : ι → ι') (he : Function.Injective e) : Relabel ι (Info ι ρ) ι' (Info ι' ρ) :=
  renamed e he (fun _ _ r => r) (fun _ _ => rfl)

/-- the same source under new names, if there is one -/
def SameLast (e : ι → ι') : Option (Effects.Source ι ρ) → Option (Effects.Source ι' ρ) → Prop
  | none, none => True
  | some D, some D' => SameSource e D D'
  | _, _ => False

theorem variant_sim {W : PyErr → PyErr → Prop} (hW : ∀ x, W x x) {e : ι → ι'} (he : Function.Injective e) {h : ι → ι → ρ → ρ}
    (hs : ∀ u v, h u v = h v u) {T : Tests ι ρ} {T' : Tests ι' ρ} (hT : SameTests W e h T T') {ord : NbOrd ι} {ord' : NbOrd ι'}
    (hord : SameNbOrd e ord ord') {oc : Ord ι ρ} {oc' : Ord ι' ρ} (hoc : SameOrd (renamed e he h hs) oc oc') {o : Ords ι ρ}
    {o' : Ords ι' ρ} (ho : SameOrds (renamed e he h hs) o o') {D : Option (Effects.Source ι ρ)}
    {D' : Option (Effects.Source ι' ρ)} (hD : SameLast e D D') (a : Variant) :
    List.Forall₂ (PStepSim (renamed e he h hs) W) (a.full T ord oc o D) (a.full T' ord' oc' o' D') := by
  have h1 : List.Forall₂ (PStepSim (renamed e he h hs) W) (a.steps T ord oc o) (a.steps T' ord' oc' o') := by
    cases a with
    | pc => exact pc_sim hW he hs hT hord hoc ho
    | classic => exact pcClassic_sim hW he hs hT hord hoc ho
    | stable => exact pcStable_sim hW he hs hT hord hoc ho
  cases D with
  | none =>
    cases D' with
    | none => exact h1
    | some _ => exact hD.elim
  | some D =>
    cases D' with
    | none => exact hD.elim
    | some D' => exact List.rel_append h1 (.cons (.plain (effectStep_sim hW he hs hD)) .nil)

theorem startGraph_renamed {e : ι → ι'} (he : Function.Injective e) (h : ι → ι → ρ → ρ) (hs : ∀ u v, h u v = h v u) (gn : CGraph ι ρ) :
    startGraph ((renamed e he h hs).graph gn) = (renamed e he h hs).graph (startGraph gn) :=
  (Relabel.createAllPossibleEdges (renamed e he h hs) (W := Eq) (fun _ => rfl) {} {} (fun _ _ => rfl) gn).2

theorem agree_eq {α : Type} {x y : Except PyErr α} (h : Agree Eq Eq x y) : y = x := by
  cases h with
  | ok h => rw [h]
  | error h => rw [h]

/-- **C130.** The names of the variables do not matter.  Rename the variables by any injective function, let the tests and
the last step answer as before under the new names, and the sets be iterated in corresponding orders.  Then `PC`, `PCClassic`
and `PCStable`, with or without the estimation of effects, from any graph and history, give the same result or the same
exception, and the renamed graph and action history. -/
theorem C130_names_do_not_matter {e : ι → ι'} (he : Function.Injective e) {T : Tests ι ρ} {T' : Tests ι' ρ}
    (hT : SameTests Eq e (fun _ _ r => r) T T') {ord : NbOrd ι} {ord' : NbOrd ι'} (hord : SameNbOrd e ord ord')
    {oc : Ord ι ρ} {oc' : Ord ι' ρ} (hoc : SameOrd (named e he) oc oc') {o : Ords ι ρ} {o' : Ords ι' ρ}
    (ho : SameOrds (named e he) o o') {D : Option (Effects.Source ι ρ)} {D' : Option (Effects.Source ι' ρ)} (hD : SameLast e D D')
    (a : Variant) (fuel : Nat) (gn : CGraph ι ρ) (hist : List (HistRec ι (Info ι ρ))) :
    runPipeline fuel (a.full T' ord' oc' o' D') ⟨startGraph ((named e he).graph gn), hist.map (named e he).histRec⟩ =
      ((runPipeline fuel (a.full T ord oc o D) ⟨startGraph gn, hist⟩).1,
        (named e he).model (runPipeline fuel (a.full T ord oc o D) ⟨startGraph gn, hist⟩).2) := by
  have h1 := runPipeline_sim (fun _ => rfl) (variant_sim (W := Eq) (fun _ => rfl) he (fun _ _ => rfl) hT hord hoc ho hD a) fuel
    ⟨startGraph gn, hist⟩
  rw [startGraph_renamed]
  exact Prod.ext (agree_eq h1.1) h1.2

omit [DecidableEq ι] [DecidableEq ι'] in
theorem named_undo (e : ι ≃ ι') :
    Relabel.Undo (named (ρ := ρ) e.symm e.symm.injective) (named e e.injective) where
  name v := e.symm_apply_apply v
  info u v m := by
    obtain ⟨c, f, s, k⟩ := m
    simp only [named, renamed]
    congr 1
    · cases c <;> rfl
    · cases s with
      | none => rfl
      | some l =>
        simp only [Option.map_some, Option.some.injEq, List.map_map]
        conv_rhs => rw [← List.map_id l]
        exact List.map_congr_left (fun v _ => e.symm_apply_apply v)

omit [DecidableEq ι] [DecidableEq ι'] in
theorem sameTests_back (e : ι ≃ ι') {T : Tests ι ρ} {T' : Tests ι' ρ} (hT : SameTests Eq e (fun _ _ r => r) T T') :
    SameTests Eq e.symm (fun _ _ r => r) T' T where
  pearson x y := by
    have := hT.pearson (e.symm x) (e.symm y)
    simp only [Equiv.apply_symm_apply] at this
    exact this.symm
  t0 x y r := by
    have := agree_eq (hT.t0 (e.symm x) (e.symm y) r)
    simp only [Equiv.apply_symm_apply] at this
    rw [this]
    exact agree_refl (fun _ => rfl) _
  t1 k x y z a b d := by
    have := agree_eq (hT.t1 k (e.symm x) (e.symm y) (e.symm z) a b d)
    simp only [Equiv.apply_symm_apply] at this
    rw [this]
    exact agree_refl (fun _ => rfl) _
  tm c := by
    have := agree_eq (hT.tm (c.map e.symm))
    rw [List.map_map, show (e ∘ e.symm) = id from funext e.apply_symm_apply, List.map_id] at this
    rw [this]
    exact agree_refl (fun _ => rfl) _

omit [DecidableEq ι] [DecidableEq ι'] in
theorem sameLast_back (e : ι ≃ ι') {D : Option (Effects.Source ι ρ)} {D' : Option (Effects.Source ι' ρ)} (hD : SameLast e D D') :
    SameLast e.symm D' D := by
  cases D <;> cases D' <;> try exact hD
  exact ⟨fun v => by rw [← hD.values, e.apply_symm_apply], hD.lstsq.symm⟩

theorem possible_forward (e : ι ≃ ι') {T : Tests ι ρ} {T' : Tests ι' ρ} (hT : SameTests Eq e (fun _ _ r => r) T T')
    {D : Option (Effects.Source ι ρ)} {D' : Option (Effects.Source ι' ρ)} (hD : SameLast e D D') (a : Variant) (fuel : Nat)
    (m : GModel ι (Info ι ρ)) (r : Except PyErr Unit) (m1 : GModel ι (Info ι ρ)) (h : Possible a T D fuel m (r, m1)) :
    Possible a T' D' fuel ((named e e.injective).model m) (r, (named e e.injective).model m1) := by
  obtain ⟨ord, oc, o, v1, v2, v3, hr⟩ := h
  have hM := (named_undo (ρ := ρ) e).graph_injective
  obtain ⟨ord', w1, s1⟩ := SameNbOrd.exists e.injective ord v1
  obtain ⟨oc', w2, s2⟩ := SameOrd.exists hM oc v2
  obtain ⟨o', w3, s3⟩ := SameOrds.exists hM o v3
  refine ⟨ord', oc', o', w1, w2, w3, ?_⟩
  have h1 := runPipeline_sim (fun _ => rfl)
    (variant_sim (W := Eq) (fun _ => rfl) e.injective (fun _ _ => rfl) hT s1 s2 s3 hD a) fuel m
  rw [← hr] at h1
  exact (Prod.ext (agree_eq h1.1) h1.2).symm

/-- **C130 (outcomes).** Whatever the orders of the sets: the outcomes that are possible under the new names are the renamed
outcomes that are possible under the old ones, no more and no fewer. -/
theorem C130_same_outcomes (e : ι ≃ ι') {T : Tests ι ρ} {T' : Tests ι' ρ} (hT : SameTests Eq e (fun _ _ r => r) T T')
    {D : Option (Effects.Source ι ρ)} {D' : Option (Effects.Source ι' ρ)} (hD : SameLast e D D') (a : Variant) (fuel : Nat)
    (gn : CGraph ι ρ) (hist : List (HistRec ι (Info ι ρ))) (r : Except PyErr Unit) (m : GModel ι (Info ι ρ)) :
    Possible a T' D' fuel ⟨startGraph ((named e e.injective).graph gn), hist.map (named e e.injective).histRec⟩
        (r, (named e e.injective).model m) ↔
      Possible a T D fuel ⟨startGraph gn, hist⟩ (r, m) := by
  rw [startGraph_renamed]
  constructor
  · intro h
    have h1 := possible_forward e.symm (sameTests_back e hT) (sameLast_back e hD) a fuel _ _ _ h
    have h2 := (named_undo (ρ := ρ) e).model ⟨startGraph gn, hist⟩
    rw [(named_undo (ρ := ρ) e).model m] at h1
    simp only [Relabel.model] at h1 h2
    rwa [h2] at h1
  · exact possible_forward e hT hD a fuel ⟨startGraph gn, hist⟩ r m

theorem possiblePar_forward (e : ι ≃ ι') {T : Tests ι ρ} {T' : Tests ι' ρ} (hT : SameTests Eq e (fun _ _ r => r) T T')
    (z : Sizes) (fuel : Nat) (m : GModel ι (Info ι ρ)) (r : Except PyErr Unit) (m1 : GModel ι (Info ι ρ))
    (h : PossiblePar T z fuel m (r, m1)) :
    PossiblePar T' z fuel ((named e e.injective).model m) (r, (named e e.injective).model m1) := by
  obtain ⟨c, oc, o, v1, v2, v3, hr⟩ := h
  have hM := (named_undo (ρ := ρ) e).graph_injective
  obtain ⟨c', w1, s1⟩ := SameChoice.exists (named e e.injective) c v1
  obtain ⟨oc', w2, s2⟩ := SameOrd.exists hM oc v2
  obtain ⟨o', w3, s3⟩ := SameOrds.exists hM o v3
  refine ⟨c', oc', o', w1, w2, w3, ?_⟩
  obtain ⟨out', h1, h2, h3⟩ := Stages.Run.sim (fun _ => rfl)
    (parallelPC_sim (W := Eq) (fun _ => rfl) e.injective (fun _ _ => rfl) hT z s1 s2 s3) hr
  rwa [show out' = (r, (named e e.injective).model m1) from Prod.ext (agree_eq h2) h3] at h1

/-- **C130 (`ParallelPC`).** The same for `ParallelPC`, over all schedules, shuffles and dice. -/
theorem C130_same_outcomes_parallel (e : ι ≃ ι') {T : Tests ι ρ} {T' : Tests ι' ρ}
    (hT : SameTests Eq e (fun _ _ r => r) T T') (z : Sizes) (fuel : Nat) (gn : CGraph ι ρ) (hist : List (HistRec ι (Info ι ρ)))
    (r : Except PyErr Unit) (m : GModel ι (Info ι ρ)) :
    PossiblePar T' z fuel ⟨startGraph ((named e e.injective).graph gn), hist.map (named e e.injective).histRec⟩
        (r, (named e e.injective).model m) ↔
      PossiblePar T z fuel ⟨startGraph gn, hist⟩ (r, m) := by
  rw [startGraph_renamed]
  constructor
  · intro h
    have h1 := possiblePar_forward e.symm (sameTests_back e hT) z fuel _ _ _ h
    have h2 := (named_undo (ρ := ρ) e).model ⟨startGraph gn, hist⟩
    rw [(named_undo (ρ := ρ) e).model m] at h1
    simp only [Relabel.model] at h1 h2
    rwa [h2] at h1
  · exact possiblePar_forward e hT z fuel ⟨startGraph gn, hist⟩ r m

/-- **C130 (reading the renamed graph).** What the API tells about the renamed graph, asked with the new names, is what it
tells about the graph, asked with the old ones; names that are answers are renamed. -/
theorem C130_reading {e : ι → ι'} (he : Function.Injective e) (g : CGraph ι ρ) (u v : ι) (act : Action) :
    let g' := (named e he).graph g
    g'.nodes = g.nodes.map e ∧
    g'.edgeExists (e u) (e v) = g.edgeExists u v ∧
    g'.directedEdgeExists (e u) (e v) = g.directedEdgeExists u v ∧
    g'.undirectedEdgeExists (e u) (e v) = g.undirectedEdgeExists u v ∧
    (∀ x, g.edgeValue u v = .error x → g'.edgeValue (e u) (e v) = .error x) ∧
    (g.edgeValue u v = .ok none → g'.edgeValue (e u) (e v) = .ok none) ∧
    (∀ m, g.edgeValue u v = .ok (some m) → ∃ m', g'.edgeValue (e u) (e v) = .ok (some m') ∧ m'.corr = m.corr ∧
      m'.effect = m.effect ∧ m'.sep = m.sep.map (List.map e)) ∧
    (g'.retrieveEdgeHistory (e u) (e v) act).map (fun r => (r.u, r.v, r.action, r.data.bind Info.sep)) =
      (g.retrieveEdgeHistory u v act).map (fun r => (e r.u, e r.v, r.action, (r.data.bind Info.sep).map (List.map e))) := by
  have hv := (named (ρ := ρ) e he).edgeValue g u v
  refine ⟨rfl, Relabel.edgeExists _ g u v, Relabel.directedEdgeExists _ g u v, Relabel.undirectedEdgeExists _ g u v,
    fun x hx => ?_, fun hx => ?_, fun m hx => ?_, ?_⟩
  · rw [hx] at hv; exact hv
  · rw [hx] at hv; exact hv
  · rw [hx] at hv
    refine ⟨_, hv, ?_, rfl, rfl⟩
    show m.corr.map (fun r => r) = m.corr
    cases m.corr <;> rfl
  · rw [show e u = (named (ρ := ρ) e he).name u from rfl, show e v = (named (ρ := ρ) e he).name v from rfl,
      Relabel.retrieveEdgeHistory, List.map_map]
    refine List.map_congr_left (fun r _ => ?_)
    simp only [Function.comp_apply, Relabel.result]
    cases r.data <;> rfl

/-- **C130 (data).** Renamed columns of data give tests as C130 asks for. -/
theorem C130_renamed_columns {n : ℕ} (Φ : ℝ → ℝ) (Q : ℝ → ℕ → ℝ) (solve : Solver n) (t : ℝ) {e : ι → ι'} {col : ι → Fin n → ℝ}
    {col' : ι' → Fin n → ℝ} (hcol : ∀ v, col' (e v) = col v) :
    SameTests Eq e (fun _ _ r => r) (dataTests Φ Q solve t col) (dataTests Φ Q solve t col') :=
  sameTests_positive Φ Q solve t (a := fun _ => 1) (b := fun _ => 0) (fun _ => one_pos) (Equiv.refl _)
    (fun v i => by rw [hcol]; simp)

end names

/-! ## C131 -/

section data
variable {ι : Type} [DecidableEq ι] {n : ℕ}

/-- the same data in other units (`a`), with other origins (`b`) and the samples in another order -/
def SameData (a b : ι → ℝ) (σ : Equiv.Perm (Fin n)) (col col' : ι → Fin n → ℝ) : Prop :=
  ∀ v i, col' v i = a v * col v (σ i) + b v

omit [DecidableEq ι] in
theorem same_ord {ρ : Type} (o : Ord ι ρ) : SameOrd same o o := by
  intro g x y l
  rw [same_graph]
  show o g x y (l.map (fun v => v)) = (o g x y l).map (fun v => v)
  rw [List.map_id', List.map_id']

/-- **C131.** Units, origins and the order of the samples do not matter: multiply each column by a positive number, add any
number to it and permute the samples.  `PC`, `PCClassic` and `PCStable` then do exactly the same, from every state of the
graph and with every order of the sets: same result or exception, same graph, same history, same correlations. -/
theorem C131_units_do_not_matter (Φ : ℝ → ℝ) (Q : ℝ → ℕ → ℝ) (solve : Solver n) (t : ℝ) {col col' : ι → Fin n → ℝ} {a b : ι → ℝ}
    (ha : ∀ v, 0 < a v) (σ : Equiv.Perm (Fin n)) (h : SameData a b σ col col') (ord : NbOrd ι) (oc : Ord ι (Option ℝ))
    (o : Ords ι (Option ℝ)) (alg : Variant) (fuel : Nat) (m : GModel ι (Info ι (Option ℝ))) :
    runPipeline fuel (alg.steps (dataTests Φ Q solve t col') ord oc o) m =
      runPipeline fuel (alg.steps (dataTests Φ Q solve t col) ord oc o) m := by
  have hT := sameTests_positive Φ Q solve t (e := fun v => v) ha σ h
  have h1 := runPipeline_sim (fun _ => rfl) (variant_sim (W := Eq) (fun _ => rfl) (fun _ _ h => h) (fun _ _ => rfl) hT
    (ord := ord) (ord' := ord) (fun k x y l => by rw [List.map_id', List.map_id']) (same_ord oc)
    (o := o) (o' := o) ⟨same_ord _, same_ord _, same_ord _⟩ (D := none) (D' := none) trivial alg) fuel m
  have e1 := same_model m
  have e2 := same_model (runPipeline fuel (alg.steps (dataTests Φ Q solve t col) ord oc o) m).2
  unfold same at e1 e2
  rw [e1] at h1
  exact Prod.ext (agree_eq h1.1) (h1.2.trans e2)

theorem units_forward (Φ : ℝ → ℝ) (Q : ℝ → ℕ → ℝ) (solve : Solver n) (t : ℝ) {col col' : ι → Fin n → ℝ} {a b : ι → ℝ}
    (ha : ∀ v, 0 < a v) (σ : Equiv.Perm (Fin n)) (h : SameData a b σ col col') (z : Sizes) (c : ParChoice ι)
    (oc : Ord ι (Option ℝ)) (o : Ords ι (Option ℝ)) (fuel : Nat) (m : GModel ι (Info ι (Option ℝ)))
    (out : Except PyErr Unit × GModel ι (Info ι (Option ℝ)))
    (hr : Stages.Run fuel (parallelPC (dataTests Φ Q solve t col) z c oc o) m out) :
    Stages.Run fuel (parallelPC (dataTests Φ Q solve t col') z c oc o) m out := by
  have hT := sameTests_positive Φ Q solve t (e := fun v => v) ha σ h
  have hid : ∀ l : List (List ι), l.map (List.map (fun v => v)) = l := by
    intro l
    rw [show (List.map (fun v : ι => v)) = id from funext List.map_id', List.map_id]
  have hc : SameChoice (same : Relabel ι (Info ι (Option ℝ)) ι (Info ι (Option ℝ))) c c :=
    ⟨fun k x y l => by rw [show (same : Relabel ι (Info ι (Option ℝ)) ι (Info ι (Option ℝ))).name = fun v => v from rfl,
        List.map_id', List.map_id'],
      fun k x y l => by
        show c.shuf1 k x y (l.map (List.map (fun v => v))) = (c.shuf1 k x y l).map (List.map (fun v => v))
        rw [hid, hid],
      fun i ys => by rw [same_yields, same_yields],
      fun k x y l => by rw [show (same : Relabel ι (Info ι (Option ℝ)) ι (Info ι (Option ℝ))).name = fun v => v from rfl,
        List.map_id', List.map_id'],
      fun k x y l => by
        show c.shuf2 k x y (l.map (List.map (fun v => v))) = (c.shuf2 k x y l).map (List.map (fun v => v))
        rw [hid, hid]⟩
  obtain ⟨out', h1, h2, h3⟩ := Stages.Run.sim (fun _ => rfl) (parallelPC_sim (W := Eq) (fun _ => rfl) (fun _ _ h => h)
    (fun _ _ => rfl) hT z hc (same_ord oc) (o := o) (o' := o) ⟨same_ord _, same_ord _, same_ord _⟩) hr
  have e1 := same_model m
  have e2 := same_model out.2
  unfold same at e1 e2
  rw [e1] at h1
  rwa [show out' = out from Prod.ext (agree_eq h2) (h3.trans e2)] at h1

omit [DecidableEq ι] in
theorem sameData_back {col col' : ι → Fin n → ℝ} {a b : ι → ℝ} (ha : ∀ v, a v ≠ 0) {σ : Equiv.Perm (Fin n)}
    (h : SameData a b σ col col') : SameData (fun v => (a v)⁻¹) (fun v => -(b v / a v)) σ.symm col' col := by
  intro v i
  rw [h v, Equiv.apply_symm_apply]
  field_simp [ha v]
  ring

/-- **C131 (`ParallelPC`).** The same for `ParallelPC`: for every order, shuffle, dice and schedule the outcomes are the same. -/
theorem C131_units_do_not_matter_parallel (Φ : ℝ → ℝ) (Q : ℝ → ℕ → ℝ) (solve : Solver n) (t : ℝ) {col col' : ι → Fin n → ℝ}
    {a b : ι → ℝ} (ha : ∀ v, 0 < a v) (σ : Equiv.Perm (Fin n)) (h : SameData a b σ col col') (z : Sizes) (c : ParChoice ι)
    (oc : Ord ι (Option ℝ)) (o : Ords ι (Option ℝ)) (fuel : Nat) (m : GModel ι (Info ι (Option ℝ)))
    (out : Except PyErr Unit × GModel ι (Info ι (Option ℝ))) :
    Stages.Run fuel (parallelPC (dataTests Φ Q solve t col') z c oc o) m out ↔
      Stages.Run fuel (parallelPC (dataTests Φ Q solve t col) z c oc o) m out :=
  ⟨units_forward Φ Q solve t (fun v => inv_pos.2 (ha v)) σ.symm (sameData_back (fun v => (ha v).ne') h) z c oc o fuel m out,
    units_forward Φ Q solve t ha σ h z c oc o fuel m out⟩

/-- the change of the stored correlations if the columns with negative factors change sign -/
noncomputable abbrev flipped (a : ι → ℝ) : Relabel ι (Info ι (Option ℝ)) ι (Info ι (Option ℝ)) :=
  renamed (fun v => v) (fun _ _ h => h) (signed a) (signed_symm a)

omit [DecidableEq ι] in
theorem flipped_undo (a : ι → ℝ) : Relabel.Undo (flipped a) (flipped a) where
  name _ := rfl
  info u v m := by
    obtain ⟨c, f, s, k⟩ := m
    simp only [flipped, renamed]
    congr 1
    · rcases c with _ | _ | r
      · rfl
      · rfl
      · simp only [Option.map_some, signed, Option.some.injEq]
        have h1 : ∀ w : ι, sgn (a w) * sgn (a w) = 1 := by
          intro w
          rcases sgn_cases (a w) with h | h <;> rw [h] <;> norm_num
        linear_combination r * h1 v * (sgn (a u) * sgn (a u)) + r * h1 u
    · cases s with
      | none => rfl
      | some l =>
        simp only [Option.map_some, Option.some.injEq, List.map_map]
        exact List.map_id' l

/-- both runs end, or both raise -/
def BothEnd (x y : Except PyErr Unit) : Prop := x = .ok () ↔ y = .ok ()

theorem agree_bothEnd {x y : Except PyErr Unit} (h : Agree (fun _ _ => True) Eq x y) : BothEnd x y := by
  cases h with
  | ok h => exact ⟨fun _ => rfl, fun _ => rfl⟩
  | error h => exact ⟨(fun h => nomatch h), (fun h => nomatch h)⟩

/-- **C131 (signs).** Also the signs of the columns do not matter for the structure: multiply each column by any number but
zero, add any number and permute the samples.  To each outcome of `PC`, `PCClassic` or `PCStable` on the old data there is
one on the new data: both runs end or both raise, and graph and history are the same but for the signs of the stored
correlations. -/
theorem C131_signs_do_not_matter (Φ : ℝ → ℝ) (Q : ℝ → ℕ → ℝ) (solve : Solver n) (t : ℝ) {col col' : ι → Fin n → ℝ} {a b : ι → ℝ}
    (ha : ∀ v, a v ≠ 0) (σ : Equiv.Perm (Fin n)) (h : SameData a b σ col col') (alg : Variant) (fuel : Nat)
    (gn : CGraph ι (Option ℝ)) (hist : List (HistRec ι (Info ι (Option ℝ)))) (r : Except PyErr Unit)
    (m : GModel ι (Info ι (Option ℝ))) (hp : Possible alg (dataTests Φ Q solve t col) none fuel ⟨startGraph gn, hist⟩ (r, m)) :
    ∃ r', Possible alg (dataTests Φ Q solve t col') none fuel
        ⟨startGraph ((flipped a).graph gn), hist.map (flipped a).histRec⟩ (r', (flipped a).model m) ∧ BothEnd r r' := by
  obtain ⟨ord, oc, o, v1, v2, v3, hr⟩ := hp
  have hM := (flipped_undo a).graph_injective
  have hT := sameTests_data Φ Q solve t (e := fun v => v) ha σ h
  obtain ⟨ord', w1, s1⟩ := SameNbOrd.exists (e := fun v : ι => v) (fun _ _ h => h) ord v1
  obtain ⟨oc', w2, s2⟩ := SameOrd.exists hM oc v2
  obtain ⟨o', w3, s3⟩ := SameOrds.exists hM o v3
  have h1 := runPipeline_sim (fun _ => trivial) (variant_sim (W := fun _ _ => True) (fun _ => trivial) (fun _ _ h => h)
    (signed_symm a) hT s1 s2 s3 (D := none) (D' := none) trivial alg) fuel ⟨startGraph gn, hist⟩
  rw [← hr] at h1
  rw [show startGraph ((flipped a).graph gn) = (flipped a).graph (startGraph gn) from startGraph_renamed _ _ _ gn]
  exact ⟨_, ⟨ord', oc', o', w1, w2, w3, Prod.ext rfl h1.2.symm⟩, agree_bothEnd h1.1⟩

/-- **C131 (signs, `ParallelPC`).** The same for `ParallelPC`. -/
theorem C131_signs_do_not_matter_parallel (Φ : ℝ → ℝ) (Q : ℝ → ℕ → ℝ) (solve : Solver n) (t : ℝ) {col col' : ι → Fin n → ℝ}
    {a b : ι → ℝ} (ha : ∀ v, a v ≠ 0) (σ : Equiv.Perm (Fin n)) (h : SameData a b σ col col') (z : Sizes) (fuel : Nat)
    (gn : CGraph ι (Option ℝ)) (hist : List (HistRec ι (Info ι (Option ℝ)))) (r : Except PyErr Unit)
    (m : GModel ι (Info ι (Option ℝ))) (hp : PossiblePar (dataTests Φ Q solve t col) z fuel ⟨startGraph gn, hist⟩ (r, m)) :
    ∃ r', PossiblePar (dataTests Φ Q solve t col') z fuel
        ⟨startGraph ((flipped a).graph gn), hist.map (flipped a).histRec⟩ (r', (flipped a).model m) ∧ BothEnd r r' := by
  obtain ⟨c, oc, o, v1, v2, v3, hr⟩ := hp
  have hM := (flipped_undo a).graph_injective
  have hT := sameTests_data Φ Q solve t (e := fun v => v) ha σ h
  obtain ⟨c', w1, s1⟩ := SameChoice.exists (flipped a) c v1
  obtain ⟨oc', w2, s2⟩ := SameOrd.exists hM oc v2
  obtain ⟨o', w3, s3⟩ := SameOrds.exists hM o v3
  obtain ⟨out', h1, h2, h3⟩ := Stages.Run.sim (fun _ => trivial) (parallelPC_sim (W := fun _ _ => True) (fun _ => trivial)
    (fun _ _ h => h) (signed_symm a) hT z s1 s2 s3) hr
  rw [show startGraph ((flipped a).graph gn) = (flipped a).graph (startGraph gn) from startGraph_renamed _ _ _ gn]
  refine ⟨out'.1, ⟨c', oc', o', w1, w2, w3, ?_⟩, agree_bothEnd h2⟩
  rwa [← show out' = (out'.1, (flipped a).model m) from Prod.ext rfl h3]

/-- **C131 (reading).** In the graph with changed signs all edges, directions and recorded separating sets are the same, and a
stored correlation changes its sign exactly if one of the two factors is negative and the other is not. -/
theorem C131_reading (a : ι → ℝ) (g : CGraph ι (Option ℝ)) (u v : ι) (act : Action) :
    let g' := (flipped a).graph g
    g'.nodes = g.nodes ∧
    g'.edgeExists u v = g.edgeExists u v ∧
    g'.directedEdgeExists u v = g.directedEdgeExists u v ∧
    g'.undirectedEdgeExists u v = g.undirectedEdgeExists u v ∧
    (∀ m r, g.edgeValue u v = .ok (some m) → m.corr = some (some r) → ∃ m', g'.edgeValue u v = .ok (some m') ∧
      m'.corr = some (some (if 0 < a u ↔ 0 < a v then r else -r))) ∧
    (g'.retrieveEdgeHistory u v act).map (fun r => (r.u, r.v, r.action, r.data.bind Info.sep)) =
      (g.retrieveEdgeHistory u v act).map (fun r => (r.u, r.v, r.action, r.data.bind Info.sep)) := by
  have hv := (flipped a).edgeValue g u v
  refine ⟨List.map_id' _, Relabel.edgeExists (flipped a) g u v, Relabel.directedEdgeExists (flipped a) g u v,
    Relabel.undirectedEdgeExists (flipped a) g u v, fun m r hx hc => ?_, ?_⟩
  · rw [hx] at hv
    refine ⟨_, hv, ?_⟩
    show m.corr.map (signed a u v) = _
    rw [hc]
    simp only [Option.map_some, signed, sgn, Option.some.injEq]
    by_cases h1 : 0 < a u <;> by_cases h2 : 0 < a v <;> simp [h1, h2]
  · have := Relabel.retrieveEdgeHistory (flipped a) g u v act
    simp only [show ∀ x, (flipped a).name x = x from fun _ => rfl] at this
    rw [this, List.map_map]
    refine List.map_congr_left (fun r _ => ?_)
    simp only [Function.comp_apply, Relabel.result]
    cases r.data with
    | none => rfl
    | some m =>
      obtain ⟨c, f, s, k⟩ := m
      show (r.u, r.v, r.action, s.map (List.map (fun v => v))) = _
      simp only [Option.bind_some]
      cases s with
      | none => rfl
      | some l => rw [Option.map_some, List.map_id']

/-- **C131, where it stops.** With negative factors the kind of the exception may change: of two equal columns the correlation
is 1 and the test divides by zero; with one of them negated it is -1 and the test takes the logarithm of zero. -/
theorem C131_exception_depends_on_sign (Φ : ℝ → ℝ) (Q : ℝ → ℕ → ℝ) (t : ℝ) (solve : Solver 4) :
    ∃ (col col' : ℕ → Fin 4 → ℝ) (a : ℕ → ℝ), (∀ v, a v ≠ 0) ∧ SameData a (fun _ => 0) (Equiv.refl _) col col' ∧
      (let T := dataTests Φ Q solve t col; T.t0 0 1 (T.pearson 0 1) = .error .zeroDivision) ∧
      (let T := dataTests Φ Q solve t col'; T.t0 0 1 (T.pearson 0 1) = .error .valueError) := by
  have hv : Varies (fun i : Fin 4 => ((i : ℕ) : ℝ)) := ⟨0, 1, by norm_num⟩
  have h1 := C48_self hv
  have hd : SameData (fun v => if v = 0 then -1 else 1) (fun _ => 0) (Equiv.refl _)
      (fun (_ : ℕ) (i : Fin 4) => ((i : ℕ) : ℝ)) (fun v i => (if v = 0 then -1 else 1) * ((i : ℕ) : ℝ)) := by
    intro v i
    simp
  have ha : ∀ v : ℕ, (if v = 0 then -1 else 1 : ℝ) ≠ 0 := by
    intro v
    split <;> norm_num
  refine ⟨_, _, _, ha, hd, ?_, ?_⟩
  · simp only [dataTests, h1, marginalAnswer, independent, fisherZ]
    rw [if_pos (by norm_num)]
  · have h2 := (sameTests_data Φ Q solve t (e := fun v => v) (b := fun _ => 0)
      (col := fun (_ : ℕ) (i : Fin 4) => ((i : ℕ) : ℝ)) (col' := fun v i => (if v = 0 then -1 else 1) * ((i : ℕ) : ℝ)) ha
      (Equiv.refl _) (fun v i => hd v i)).pearson 0 1
    simp only [dataTests, h1, signed, Option.map_some] at h2 ⊢
    rw [h2]
    simp only [sgn, marginalAnswer, independent, fisherZ]
    norm_num

/-! ## examples -/

/-- the oracle of `exDag` with 10 added to all names -/
def exShifted : Tests Nat Int where
  pearson x y := exOracle.pearson (x - 10) (y - 10)
  t0 x y r := exOracle.t0 (x - 10) (y - 10) r
  t1 k x y z a b d := exOracle.t1 k (x - 10) (y - 10) (z - 10) a b d
  tm c := exOracle.tm (c.map (· - 10))
  reg c := exOracle.reg (c.map (· - 10))

theorem exShift_injective : Function.Injective (fun v : Nat => v + 10) := fun a b h => by simpa using h

/-- hypotheses of C130 -/
example : SameTests Eq (fun v : Nat => v + 10) (fun _ _ r => r) exOracle exShifted ∧
    SameNbOrd (fun v : Nat => v + 10) exNbOrd exNbOrd ∧ SameOrd (named (fun v : Nat => v + 10) exShift_injective) exSetOrd exSetOrd ∧
    SameOrds (named (fun v : Nat => v + 10) exShift_injective) exSetOrds exSetOrds := by
  have h1 : ∀ x : Nat, x + 10 - 10 = x := by omega
  have h2 : SameOrd (named (fun v : Nat => v + 10) exShift_injective) exSetOrd exSetOrd := by
    intro g x y l
    exact List.dedup_map_of_injective exShift_injective l
  refine ⟨⟨fun x y => ?_, fun x y r => ?_, fun k x y z a b d => ?_, fun c => ?_⟩, fun k x y l => ?_, h2, ⟨h2, h2, h2⟩⟩
  · simp only [exShifted, h1]
  · simp only [exShifted, h1]
    exact agree_refl (fun _ => rfl) _
  · simp only [exShifted, h1]
    exact agree_refl (fun _ => rfl) _
  · simp only [exShifted, List.map_map, Function.comp_def, h1, List.map_id']
    exact agree_refl (fun _ => rfl) _
  · exact List.dedup_map_of_injective exShift_injective l

/-- the run under the new names: `10 → 12 ← 11`, `12 → 13 → 14` -/
example : let m : GModel Nat (Info Nat Int) := ⟨startGraph ((named (fun v : Nat => v + 10) exShift_injective).graph exPcNodes), []⟩
    let g := graphAfter 27 (Variant.pc.full exShifted exNbOrd exSetOrd exSetOrds none) m
    g.nodes = [10, 11, 12, 13, 14] ∧ g.onlyDirectedEdgeExists 10 12 = true ∧ g.onlyDirectedEdgeExists 11 12 = true ∧
    g.onlyDirectedEdgeExists 12 13 = true ∧ g.onlyDirectedEdgeExists 13 14 = true ∧ g.edgeExists 10 11 = false := by
  refine ⟨?_, ?_, ?_, ?_, ?_, ?_⟩ <;> decide +kernel

/-- hypotheses of the theorems about outcomes: variables 0 and 2 change names, in the oracle and in data -/
example : (∃ T' : Tests Nat Int, SameTests Eq (Equiv.swap 0 2) (fun _ _ r => r) exOracle T') ∧
    (∀ v, (fun (w : ℕ) (i : Fin 8) => (exLinTable (Equiv.swap 0 2 w) i : ℝ)) (Equiv.swap 0 2 v) =
      fun i => (exLinTable v i : ℝ)) ∧
    (∃ out, Possible .pc exOracle none 27 ⟨startGraph exPcNodes, []⟩ out) ∧
    (∃ out, PossiblePar exOracle codeSizes 27 ⟨startGraph exPcNodes, []⟩ out) := by
  refine ⟨⟨⟨fun x y => exOracle.pearson (Equiv.swap 0 2 x) (Equiv.swap 0 2 y), fun x y => exOracle.t0 (Equiv.swap 0 2 x) (Equiv.swap 0 2 y),
      fun k x y z => exOracle.t1 k (Equiv.swap 0 2 x) (Equiv.swap 0 2 y) (Equiv.swap 0 2 z), fun c => exOracle.tm (c.map (Equiv.swap 0 2)),
      exOracle.reg⟩, ⟨fun x y => ?_, fun x y r => ?_, fun k x y z a b d => ?_, fun c => ?_⟩⟩, fun v => ?_,
    ⟨_, exNbOrd, exSetOrd, exSetOrds, exNbOrd_valid, exSetOrd_valid, exSetOrds_valid, rfl⟩, ?_⟩
  · simp only [Equiv.swap_apply_self]
  · simp only [Equiv.swap_apply_self]
    exact agree_refl (fun _ => rfl) _
  · simp only [Equiv.swap_apply_self]
    exact agree_refl (fun _ => rfl) _
  · have : c.map ((Equiv.swap 0 2 : ℕ ≃ ℕ) ∘ (Equiv.swap 0 2 : ℕ ≃ ℕ)) = c := by
      rw [show (Equiv.swap 0 2 : ℕ ≃ ℕ) ∘ (Equiv.swap 0 2 : ℕ ≃ ℕ) = id from funext (fun v => Equiv.swap_apply_self 0 2 v),
        List.map_id]
    simp only [List.map_map, this]
    exact agree_refl (fun _ => rfl) _
  · simp only [Equiv.swap_apply_self]
  · obtain ⟨out, h⟩ := stages_exists 27 (parallelPC exOracle codeSizes exParChoice exSetOrd exSetOrds) ⟨startGraph exPcNodes, []⟩
    exact ⟨out, exParChoice, exSetOrd, exSetOrds, exParChoice_valid, exSetOrd_valid, exSetOrds_valid, h⟩

/-- hypotheses of C131, and what it gives for the data of C103: in other units, with variable 0 in Fahrenheit and the samples
in reverse order, the run still ends with the adjacencies and arrows of `0 → 2 ← 1` -/
example (Q : ℝ → ℕ → ℝ) (solve : Solver 8) (gn : CGraph ℕ (Option ℝ)) (hn : gn.nodes = [0, 1, 2]) (hr : Reachable gn)
    (hfresh : ∀ a b, gn.retrieveEdgeHistory a b .removeEdgeUndirected = []) (fuel : ℕ) (hf : 11 ≤ fuel) :
    let col : ℕ → Fin 8 → ℝ := fun v i => (exLinTable v i : ℝ)
    let col' : ℕ → Fin 8 → ℝ := fun v i => (if v = 0 then 9 / 5 else 1000) * (exLinTable v i.rev : ℝ) + (if v = 0 then 32 else 0)
    let alg' := Variant.pc.steps (dataTests normalCdf Q solve (levelOf 1) col') exNbOrd exLinOrd ⟨exLinOrd, exLinOrd, exLinOrd⟩
    SameData (fun v => if v = 0 then 9 / 5 else 1000) (fun v => if v = 0 then 32 else 0) Fin.revPerm col col' ∧
    (runPipeline fuel alg' ⟨startGraph gn, []⟩).1 = .ok () ∧
    ∀ x y, (graphAfter fuel alg' ⟨startGraph gn, []⟩).edgeExists x y = true ↔ Dag.Adj (HasEdge exLinEdges) x y := by
  intro col col' alg'
  have hd : SameData (fun v => if v = 0 then 9 / 5 else 1000) (fun v => if v = 0 then 32 else 0) Fin.revPerm col col' := by
    intro v i
    rfl
  have h1 := C131_units_do_not_matter normalCdf Q solve (levelOf 1)
    (by intro v; show (0 : ℝ) < if v = 0 then 9 / 5 else 1000; split <;> norm_num) Fin.revPerm hd exNbOrd
    exLinOrd ⟨exLinOrd, exLinOrd, exLinOrd⟩ .pc fuel ⟨startGraph gn, []⟩
  have h2 := C103_pc_recovers_cpdag gn (by rw [hn]; exact exLin_data) normalCdf normalCdf_normalLike Q solve
    (levelOf 1) 1 (levelOf_lt one_pos).2 (levelOf_eq 1) (by rw [hn]; exact exLin_visible) (by rw [hn]; decide)
    hr hfresh exNbOrd exNbOrd_valid exLinOrd exLinOrd_valid
    ⟨exLinOrd, exLinOrd, exLinOrd⟩ ⟨exLinOrd_valid, exLinOrd_valid, exLinOrd_valid⟩
    (Variant.pc.steps (dataTests normalCdf Q solve (levelOf 1) col) exNbOrd exLinOrd ⟨exLinOrd, exLinOrd, exLinOrd⟩)
    (Or.inl rfl) fuel (by rw [hn]; exact hf) []
  refine ⟨hd, ?_, fun x y => ?_⟩
  · rw [h1]
    exact h2.1
  · unfold graphAfter
    rw [h1]
    exact h2.2.1 x y

end data
end Verif
