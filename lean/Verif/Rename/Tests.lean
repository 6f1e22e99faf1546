import Mathlib.Data.List.Dedup
import Verif.Rename.Steps
import Verif.Rename.TestsSpec

/-!
# The steps of the algorithms commute with a renaming: lemmas
-/

namespace Verif
open Graph CI Orient PC
variable {ι ρ ι' : Type} [DecidableEq ι] [DecidableEq ι']

/-! ## generators -/

theorem combinations_map {α β : Type} (e : α → β) (l : List α) (k : Nat) :
    combinations (l.map e) k = (combinations l k).map (List.map e) := by
  induction l generalizing k with
  | nil => cases k <;> rfl
  | cons x xs ih =>
    cases k with
    | zero => rfl
    | succ k => simp [combinations, ih, Function.comp_def]

theorem combosOfSizes_map {α β : Type} {W : PyErr → PyErr → Prop} (hW : ∀ e, W e e) (e : α → β) (l : List α) (ks : List Int) :
    Agree W (fun c c' => c' = c.map (List.map e)) (combosOfSizes l ks) (combosOfSizes (l.map e) ks) := by
  induction ks with
  | nil => exact .ok rfl
  | cons k ks ih =>
    unfold combosOfSizes
    split
    · exact .error (hW _)
    · generalize combosOfSizes l ks = x at ih
      generalize combosOfSizes (l.map e) ks = y at ih
      cases ih with
      | error h => exact .error h
      | ok h =>
        subst h
        refine .ok ?_
        rw [combinations_map, List.map_append]

theorem allCombinations_map {W : PyErr → PyErr → Prop} (hW : ∀ e, W e e) (e : ι → ι') (s : Settings) (l : List ι) :
    Agree W (fun c c' => c' = c.map (List.map e)) (allCombinations s l) (allCombinations s (l.map e)) := by
  unfold allCombinations
  rw [List.length_map]
  split
  · exact .ok rfl
  · exact combosOfSizes_map hW e l _

section gens
variable {δ δ' : Type} {M : Relabel ι δ ι' δ'} {W : PyErr → PyErr → Prop} (hW : ∀ e, W e e)
include hW

theorem allGen_sim (s : Settings) (g : Graph ι δ) :
    Agree W (List.Forall₂ (ThunkSim M)) (allGen s g) (allGen s (M.graph g)) := by
  unfold allGen
  have h := allCombinations_map hW M.name s g.nodes
  have e : (M.graph g).nodes = g.nodes.map M.name := rfl
  rw [e]
  generalize allCombinations s g.nodes = x at h
  generalize allCombinations s (g.nodes.map M.name) = y at h
  cases h with
  | error h => exact .error h
  | ok h =>
    subst h
    refine .ok (.cons (fun _ => ?_) .nil)
    simp [Function.comp_def, Relabel.yield]

/-- the settings of two generators of pairs with neighbours correspond -/
structure SameNb (e : ι → ι') (cfg : NbCfg ι) (cfg' : NbCfg ι') : Prop where
  settings : cfg'.settings = cfg.settings
  chunked : cfg'.chunked = cfg.chunked
  shuffle : cfg'.shuffle = cfg.shuffle
  ord : SameNbOrd e cfg.setOrd cfg'.setOrd
  shuf : cfg.shuffle = true → SameShuf e cfg.shuf cfg'.shuf

omit hW in
theorem nbBody_sim {cfg : NbCfg ι} {cfg' : NbCfg ι'} (h : SameNb M.name cfg cfg') (k : Nat) (x y : ι) :
    ThunkSim M (nbBody cfg k x y) (nbBody cfg' k (M.name x) (M.name y)) := by
  intro g
  have e1 : ((M.graph g).otherNeighbours (M.name x)).filter (fun z => decide (z ≠ M.name y)) =
      ((g.otherNeighbours x).filter (fun z => decide (z ≠ y))).map M.name := by
    rw [Relabel.otherNeighbours]
    exact M.filter_map_name _ _ _ (by simp)
  unfold nbBody
  simp only [Relabel.directedEdgeExists, e1, h.ord k x y, combinations_map, h.chunked, h.shuffle]
  by_cases h1 : (!g.directedEdgeExists x y) = true
  · rw [if_pos h1, if_pos h1]; rfl
  rw [if_neg h1, if_neg h1]
  by_cases h2 : k = 2
  · rw [if_pos h2, if_pos h2]; rfl
  rw [if_neg h2, if_neg h2]
  have e2 : (if cfg.shuffle = true then
        cfg'.shuf k (M.name x) (M.name y)
          (List.map (List.map M.name) (combinations (cfg.setOrd k x y ((g.otherNeighbours x).filter (fun z => decide (z ≠ y)))) (k - 2)))
      else List.map (List.map M.name) (combinations (cfg.setOrd k x y ((g.otherNeighbours x).filter (fun z => decide (z ≠ y)))) (k - 2))) =
      List.map (List.map M.name) (if cfg.shuffle = true then
        cfg.shuf k x y (combinations (cfg.setOrd k x y ((g.otherNeighbours x).filter (fun z => decide (z ≠ y)))) (k - 2))
      else combinations (cfg.setOrd k x y ((g.otherNeighbours x).filter (fun z => decide (z ≠ y)))) (k - 2)) := by
    by_cases hs : cfg.shuffle = true
    · rw [if_pos hs, if_pos hs, h.shuf hs k x y]
    · rw [if_neg hs, if_neg hs]
  rw [e2]
  by_cases h3 : cfg.chunked = true
  · rw [if_pos h3, if_pos h3]
    simp [Relabel.yield, Function.comp_def]
  · rw [if_neg h3, if_neg h3]
    simp [Relabel.yield, Function.comp_def]

omit hW in
theorem nbPositions_sim (g : Graph ι δ) (a b : Int) :
    (M.graph g).nbPositions a b = (g.nbPositions a b).map (fun p => (p.1, M.name p.2.1, M.name p.2.2)) := by
  unfold nbPositions
  rw [List.map_flatMap]
  refine List.flatMap_congr (fun k _ => ?_)
  rw [Relabel.graph_edges, Relabel.rows_keys, List.flatMap_map, List.map_flatMap]
  refine List.flatMap_congr (fun u _ => ?_)
  rw [Relabel.rows_keys2, List.map_map, List.map_map]
  rfl

theorem pairsWithNeighbours_sim {cfg : NbCfg ι} {cfg' : NbCfg ι'} (h : SameNb M.name cfg cfg') (g : Graph ι δ) :
    Agree W (List.Forall₂ (ThunkSim M)) (pairsWithNeighbours cfg g) (pairsWithNeighbours cfg' (M.graph g)) := by
  unfold pairsWithNeighbours
  rw [Relabel.graph_nodes, List.length_map, h.settings]
  split
  · exact .ok .nil
  · split
    · exact .error (hW _)
    · refine .ok ?_
      rw [nbPositions_sim, List.map_map, List.forall₂_map_right_iff, List.forall₂_map_left_iff]
      exact List.forall₂_same.2 (fun p _ => nbBody_sim h _ _ _)

theorem sampleGen_sim {keep keep'} (hk : ∀ i ys, keep' i (List.map M.yield ys) = (keep i ys).map M.yield)
    {cfg : NbCfg ι} {cfg' : NbCfg ι'} (h : SameNb M.name cfg cfg') (g : Graph ι δ) :
    Agree W (List.Forall₂ (ThunkSim M)) (sampleGen keep (pairsWithNeighbours cfg) g)
      (sampleGen keep' (pairsWithNeighbours cfg') (M.graph g)) := by
  unfold sampleGen
  have h1 := pairsWithNeighbours_sim (W := W) hW h g
  generalize pairsWithNeighbours cfg g = x at h1
  generalize pairsWithNeighbours cfg' (M.graph g) = y at h1
  cases h1 with
  | error h1 => exact .error h1
  | ok h1 =>
    refine .ok ?_
    clear h g
    induction h1 generalizing keep keep' with
    | nil => exact .nil
    | cons h2 _ ih =>
      rw [List.mapIdx_cons, List.mapIdx_cons]
      refine .cons (fun g => ?_) (ih (keep := fun i => keep (i + 1)) (keep' := fun i => keep' (i + 1)) (fun i ys => hk (i + 1) ys))
      rw [h2 g, hk]

theorem pairsWithEdges_sim (g : Graph ι δ) :
    Agree W (fun l l' => l' = l.map M.yield) (Graph.pairsWithEdges false 100 g) (Graph.pairsWithEdges false 100 (M.graph g)) := by
  unfold Graph.pairsWithEdges
  rw [Relabel.liveEdgeList]
  refine .ok ?_
  simp [Function.comp_def, Relabel.yield]

end gens

/-! ## the tests -/

section tests
variable {W : PyErr → PyErr → Prop} (hW : ∀ e, W e e) {e : ι → ι'} (he : Function.Injective e) {h : ι → ι → ρ → ρ}
  (hs : ∀ u v, h u v = h v u)

/-- what corresponding calls of `process` return -/
abbrev PR (M : Relabel ι (Info ι ρ) ι' (Info ι' ρ)) (o : Option (List (CResult ι ρ))) (o' : Option (List (CResult ι' ρ))) : Prop :=
  o' = o.map (List.map M.result)

omit [DecidableEq ι] [DecidableEq ι'] in
theorem removal_sim (x y : ι) (S : List ι) :
    (removal (e x) (e y) (S.map e) : CResult ι' ρ) = (renamed e he h hs).result (removal x y S) := rfl

omit [DecidableEq ι] [DecidableEq ι'] in
theorem keep_sim (x y : ι) : (CI.keep (e x) (e y) : CResult ι' ρ) = (renamed e he h hs).result (CI.keep x y) := rfl

include hW

theorem pearsonProcess_sim {T : Tests ι ρ} {T' : Tests ι' ρ} (hT : SameTests W e h T T') (c : List ι) (g : CGraph ι ρ) :
    Agree W (PR (renamed e he h hs)) (pearsonProcess T c g) (pearsonProcess T' (c.map e) ((renamed e he h hs).graph g)) := by
  match c with
  | [] => exact .error (hW _)
  | [_] => exact .error (hW _)
  | x :: y :: _ =>
    simp only [List.map_cons, pearsonProcess]
    have e1 : ∀ v, e v ∈ ((renamed e he h hs).graph g).nodes ↔ v ∈ g.nodes := (renamed e he h hs).mem_map g.nodes
    have e2 := (renamed e he h hs).edgeValue g x y
    rw [show (renamed e he h hs).name x = e x from rfl, show (renamed e he h hs).name y = e y from rfl] at e2
    simp only [e1, e2]
    split
    · exact .error (hW _)
    split
    · exact .error (hW _)
    rcases g.edgeValue x y with x1 | (_ | m)
    · exact .error (hW _)
    · exact .error (hW _)
    · refine .ok ?_
      simp only [PR, Option.map_some, List.map_cons, List.map_nil, Relabel.result, hT.pearson]
      rfl

theorem corrProcess_sim {T : Tests ι ρ} {T' : Tests ι' ρ} (hT : SameTests W e h T T') (c : List ι) (g : CGraph ι ρ) :
    Agree W (PR (renamed e he h hs)) (corrProcess T c g) (corrProcess T' (c.map e) ((renamed e he h hs).graph g)) := by
  match c with
  | [] => exact .error (hW _)
  | [_] => exact .error (hW _)
  | x :: y :: _ =>
    simp only [List.map_cons, corrProcess]
    have e1 : ∀ v, e v ∈ ((renamed e he h hs).graph g).nodes ↔ v ∈ g.nodes := (renamed e he h hs).mem_map g.nodes
    have e2 := (renamed e he h hs).edgeValue g x y
    rw [show (renamed e he h hs).name x = e x from rfl, show (renamed e he h hs).name y = e y from rfl] at e2
    simp only [e1, e2]
    split
    · exact .error (hW _)
    split
    · exact .error (hW _)
    rcases g.edgeValue x y with x1 | (_ | m)
    · exact .error (hW _)
    · exact .error (hW _)
    · simp only [Option.map_some]
      rw [show ((renamed e he h hs).info x y m).corr = m.corr.map (h x y) from rfl]
      cases m.corr with
      | none => exact .error (hW _)
      | some r =>
        simp only [Option.map_some]
        have h1 := hT.t0 x y r
        generalize T.t0 x y r = a at h1
        generalize T'.t0 _ _ _ = b at h1
        cases h1 with
        | error h1 => exact .error h1
        | @ok a _ h1 =>
          subst h1
          cases a <;> exact .ok rfl

omit hW in
theorem corrOf_sim (g : CGraph ι ρ) (x y : ι) :
    corrOf ((renamed e he h hs).graph g) (e x) (e y) = (corrOf g x y).map (h x y) := by
  unfold corrOf
  have e2 := (renamed e he h hs).edgeValue g x y
  rw [show (renamed e he h hs).name x = e x from rfl, show (renamed e he h hs).name y = e y from rfl] at e2
  rw [e2]
  rcases g.edgeValue x y with x1 | (_ | m) <;> rfl

theorem partialLoop_sim {T : Tests ι ρ} {T' : Tests ι' ρ} (hT : SameTests W e h T T') (g : CGraph ι ρ) (c zs : List ι)
    (acc : List (CResult ι ρ)) (done : List (ι × ι)) :
    Agree W (PR (renamed e he h hs)) (partialLoop T g c zs acc done)
      (partialLoop T' ((renamed e he h hs).graph g) (c.map e) (zs.map e) (acc.map (renamed e he h hs).result)
        (done.map (fun p => (e p.1, e p.2)))) := by
  induction zs generalizing acc done with
  | nil => exact .ok rfl
  | cons z zs ih =>
    rw [List.map_cons]
    unfold partialLoop
    have e1 : (c.map e).filter (fun n => decide (n ≠ e z)) = (c.filter (fun n => decide (n ≠ z))).map e :=
      (renamed e he h hs).filter_map_name c _ _ (fun x => by
        have := (renamed e he h hs).name_ne x z
        simp only [decide_eq_decide]
        exact this)
    rw [e1]
    match c.filter (fun n => decide (n ≠ z)) with
    | [] => exact .error (hW _)
    | [_] => exact .error (hW _)
    | x :: y :: l =>
      simp only [List.map_cons]
      have e2 : ((renamed e he h hs).graph g).edgeExists (e x) (e y) = g.edgeExists x y := (renamed e he h hs).edgeExists g x y
      have e3 : (e y, e x) ∈ done.map (fun p => (e p.1, e p.2)) ↔ (y, x) ∈ done := by
        rw [List.mem_map]
        constructor
        · rintro ⟨p, hp, hpe⟩
          have := (renamed e he h hs).pair_inj (a₁ := p) (a₂ := (y, x)) hpe
          exact this ▸ hp
        · exact fun hp => ⟨_, hp, rfl⟩
      rw [e2, corrOf_sim, corrOf_sim, corrOf_sim, List.length_map]
      simp only [e3]
      split
      · exact ih acc done
      · rcases corrOf g x y with _ | a <;> rcases corrOf g x z with _ | b <;> rcases corrOf g y z with _ | d <;>
          simp only [Option.map_some, Option.map_none] <;> try exact .ok rfl
        have h1 := hT.t1 (c.length - 2) x y z a b d
        generalize T.t1 _ _ _ _ _ _ _ = p at h1
        generalize T'.t1 _ _ _ _ _ _ _ = q at h1
        cases h1 with
        | error h1 => exact .error h1
        | @ok p _ h1 =>
          subst h1
          rcases p with _ | (_ | _)
          · exact .ok rfl
          · have := ih (acc ++ [CI.keep x y]) done
            rw [List.map_append, List.map_singleton, ← keep_sim] at this
            exact this
          · have := ih (acc ++ [removal x y [z]]) ((x, y) :: done)
            rw [List.map_append, List.map_singleton, ← removal_sim] at this
            exact this

theorem partialProcess_sim {T : Tests ι ρ} {T' : Tests ι' ρ} (hT : SameTests W e h T T') (c : List ι) (g : CGraph ι ρ) :
    Agree W (PR (renamed e he h hs)) (partialProcess T c g) (partialProcess T' (c.map e) ((renamed e he h hs).graph g)) := by
  unfold partialProcess
  have e1 : ∀ v, e v ∈ ((renamed e he h hs).graph g).nodes ↔ v ∈ g.nodes := (renamed e he h hs).mem_map g.nodes
  have e2 : (c.map e).all (fun n => decide (n ∈ ((renamed e he h hs).graph g).nodes)) = c.all (fun n => decide (n ∈ g.nodes)) :=
    (renamed e he h hs).all_map_name c _ _ (fun v => by simp only [decide_eq_decide]; exact e1 v)
  rw [e2]
  split
  · exact partialLoop_sim hW he hs hT g c c [] []
  · exact .error (hW _)

omit hW in
include he in
theorem sepOf_map (x y : ι) (S : List ι) : sepOf (e x) (e y) (S.map e) = (sepOf x y S).map e := by
  unfold sepOf
  rw [List.dedup_map_of_injective he, List.filter_map]
  congr 2
  funext z
  simp [Function.comp, he.eq_iff]

theorem matrixProcess_sim {T : Tests ι ρ} {T' : Tests ι' ρ} (hT : SameTests W e h T T') (c : List ι) (g : CGraph ι ρ) :
    Agree W (PR (renamed e he h hs)) (matrixProcess T c g) (matrixProcess T' (c.map e) ((renamed e he h hs).graph g)) := by
  match c with
  | [] => exact .error (hW _)
  | [_] => exact .error (hW _)
  | x :: y :: S =>
    simp only [List.map_cons, matrixProcess]
    have e1 : ∀ v, e v ∈ ((renamed e he h hs).graph g).nodes ↔ v ∈ g.nodes := (renamed e he h hs).mem_map g.nodes
    have e2 : ((renamed e he h hs).graph g).edgeExists (e x) (e y) = g.edgeExists x y := (renamed e he h hs).edgeExists g x y
    have e3 : ((renamed e he h hs).graph g).edges.has (e x) = g.edges.has x := (renamed e he h hs).rows_has _ x
    have e4 : ((renamed e he h hs).graph g).otherNeighbours (e x) = (g.otherNeighbours x).map e := (renamed e he h hs).otherNeighbours g x
    have e5 : ∀ v, e v ∈ (g.otherNeighbours x).map e ↔ v ∈ g.otherNeighbours x := (renamed e he h hs).mem_map _
    have e6 : (S.map e).all (fun z => decide (z ∈ (g.otherNeighbours x).map e) && decide (z ≠ e y)) =
        S.all (fun z => decide (z ∈ g.otherNeighbours x) && decide (z ≠ y)) :=
      (renamed e he h hs).all_map_name S _ _ (fun z => by
        simp only [show (renamed e he h hs).name z = e z from rfl, e5, ne_eq, he.eq_iff])
    simp only [e1, e2, e3, e4, e5, e6]
    split
    · exact .error (hW _)
    split
    · exact .error (hW _)
    split
    · exact .ok rfl
    split
    · exact .error (hW _)
    split
    · exact .error (hW _)
    split
    · exact .ok rfl
    have h1 := hT.tm (x :: y :: S)
    rw [List.map_cons, List.map_cons] at h1
    generalize T.tm (x :: y :: S) = p at h1
    generalize T'.tm (e x :: e y :: S.map e) = q at h1
    cases h1 with
    | error h1 => exact .error h1
    | @ok p _ h1 =>
      subst h1
      rcases p with _ | (_ | _)
      · exact .ok rfl
      · exact .ok rfl
      · simp only [if_true, sepOf_map he]
        exact .ok rfl

/-! ## the orientation rules -/

omit hW in
theorem commonKeys_sim (g : CGraph ι ρ) (x y : ι) :
    commonKeys ((renamed e he h hs).graph g) (e x) (e y) = match commonKeys g x y with
      | .error x => .error x
      | .ok l => .ok (l.map e) := by
  unfold commonKeys
  have e3 : ∀ v, ((renamed e he h hs).graph g).edges.has (e v) = g.edges.has v := (renamed e he h hs).rows_has _
  have e4 : ∀ v, ((renamed e he h hs).graph g).edges.keys2 (e v) = (g.edges.keys2 v).map e := (renamed e he h hs).rows_keys2 _
  have e5 : ∀ v, e v ∈ (g.edges.keys2 y).map e ↔ v ∈ g.edges.keys2 y := (renamed e he h hs).mem_map _
  rw [e3, e3, e4, e4]
  split
  · rfl
  split
  · rfl
  · congr 1
    exact (renamed e he h hs).filter_map_name _ _ _ (fun z => by
      simp only [show (renamed e he h hs).name z = e z from rfl, e5])

omit hW in
theorem filterUnapplied_sim (un : Option (Results ι (Info ι ρ))) (u v : ι) :
    filterUnapplied (un.map (renamed e he h hs).results) (e u) (e v) = match filterUnapplied un u v with
      | .error x => .error x
      | .ok l => .ok (l.map (renamed e he h hs).result) := by
  cases un with
  | none => rfl
  | some rs =>
    simp only [filterUnapplied, Option.map_some]
    congr 1
    have e1 : ((renamed e he h hs).results rs).flatMap (fun o => o.getD []) =
        (rs.flatMap (fun o => o.getD [])).map (renamed e he h hs).result := by
      unfold Relabel.results
      rw [List.flatMap_map, List.map_flatMap]
      refine List.flatMap_congr (fun o _ => ?_)
      cases o <;> rfl
    rw [e1, List.filter_map]
    congr 2
    funext r
    simp [Function.comp, Relabel.result, renamed, he.eq_iff]

omit hW [DecidableEq ι] [DecidableEq ι'] in
theorem separators_sim (as : List (CResult ι ρ)) :
    separators (as.map (renamed e he h hs).result) = match separators as with
      | .error x => .error x
      | .ok l => .ok (l.map e) := by
  induction as with
  | nil => rfl
  | cons a as ih =>
    simp only [List.map_cons, separators, ih]
    rw [show ((renamed e he h hs).result a).data = a.data.map ((renamed e he h hs).info a.u a.v) from rfl]
    cases a.data with
    | none => rfl
    | some d =>
      simp only [Option.map_some]
      cases separators as with
      | error x => rfl
      | ok l =>
        simp only [List.map_append]
        rw [show ((renamed e he h hs).info a.u a.v d).sep = d.sep.map (List.map e) from rfl]
        cases d.sep <;> rfl

omit hW [DecidableEq ι] [DecidableEq ι'] in
theorem colliderAt_sim (st : Strategy) (x y z : ι) (xz yz : List (CResult ι ρ)) :
    colliderAt st (e x) (e y) (e z) (xz.map (renamed e he h hs).result) (yz.map (renamed e he h hs).result) =
      (colliderAt st x y z xz yz).map (renamed e he h hs).result := by
  have r1 : ∀ l : List (CResult ι ρ), restores (l.map (renamed e he h hs).result) = (restores l).map (renamed e he h hs).result := by
    intro l
    unfold restores
    rw [List.filter_map, List.map_map, List.map_map]
    rfl
  unfold colliderAt
  rw [r1, r1, List.isEmpty_map, List.isEmpty_map]
  split
  · cases st with
    | keepFirst => dsimp only; split <;> split <;> rfl
    | keepLast => simp only [List.map_append]; rfl
    | other => rfl
  · rfl

theorem colliderLoop_sim (st : Strategy) (g : CGraph ι ρ) (x y : ι) (actions : List (CResult ι ρ))
    (un : Option (Results ι (Info ι ρ))) (zs : List ι) :
    Agree W (fun l l' => l' = l.map (renamed e he h hs).result) (colliderLoop st g x y actions un zs)
      (colliderLoop st ((renamed e he h hs).graph g) (e x) (e y) (actions.map (renamed e he h hs).result)
        (un.map (renamed e he h hs).results) (zs.map e)) := by
  induction zs with
  | nil => exact .ok rfl
  | cons z zs ih =>
    rw [List.map_cons]
    unfold colliderLoop
    have e1 : ∀ v, e v ∈ ((renamed e he h hs).graph g).nodes ↔ v ∈ g.nodes := (renamed e he h hs).mem_map g.nodes
    simp only [e1, separators_sim]
    split
    · exact .error (hW _)
    cases separators actions with
    | error x => exact .error (hW _)
    | ok seps =>
      dsimp only
      have e2 : e z ∈ seps.map e ↔ z ∈ seps := (renamed e he h hs).mem_map seps z
      simp only [e2, filterUnapplied_sim]
      split
      · exact ih
      cases filterUnapplied un x z with
      | error x => exact .error (hW _)
      | ok xz =>
        dsimp only
        cases filterUnapplied un y z with
        | error x => exact .error (hW _)
        | ok yz =>
          dsimp only
          generalize colliderLoop st g x y actions un zs = p at ih
          generalize colliderLoop st _ (e x) (e y) _ _ (zs.map e) = q at ih
          cases ih with
          | error h1 => exact .error h1
          | ok h1 =>
            subst h1
            refine .ok ?_
            rw [colliderAt_sim, List.map_append]

theorem colliderProcess_sim (st : Strategy) {o : Ord ι ρ} {o' : Ord ι' ρ} (ho : SameOrd (renamed e he h hs) o o') (c : List ι)
    (g : CGraph ι ρ) (un : Option (Results ι (Info ι ρ))) :
    Agree W (PR (renamed e he h hs)) (colliderProcess st o c g un)
      (colliderProcess st o' (c.map e) ((renamed e he h hs).graph g) (un.map (renamed e he h hs).results)) := by
  match c with
  | [] => exact .error (hW _)
  | [_] => exact .error (hW _)
  | x :: y :: _ =>
    simp only [List.map_cons, colliderProcess]
    have e1 : ∀ v, e v ∈ ((renamed e he h hs).graph g).nodes ↔ v ∈ g.nodes := (renamed e he h hs).mem_map g.nodes
    have e2 : ((renamed e he h hs).graph g).undirectedEdgeExists (e x) (e y) = g.undirectedEdgeExists x y :=
      (renamed e he h hs).undirectedEdgeExists g x y
    have e3 : ((renamed e he h hs).graph g).retrieveEdgeHistory (e x) (e y) .removeEdgeUndirected =
      (g.retrieveEdgeHistory x y .removeEdgeUndirected).map (renamed e he h hs).result :=
      (renamed e he h hs).retrieveEdgeHistory g x y .removeEdgeUndirected
    simp only [e1, e2, e3, commonKeys_sim]
    split
    · exact .error (hW _)
    split
    · exact .error (hW _)
    split
    · exact .ok rfl
    cases commonKeys g x y with
    | error x => exact .error (hW _)
    | ok zs =>
      dsimp only
      have e4 : o' ((renamed e he h hs).graph g) (e x) (e y) (zs.map e) = (o g x y zs).map e := ho g x y zs
      rw [e4]
      have h1 := colliderLoop_sim hW he hs st g x y (g.retrieveEdgeHistory x y .removeEdgeUndirected) un (o g x y zs)
      generalize colliderLoop st g x y _ un _ = p at h1
      generalize colliderLoop st _ (e x) (e y) _ _ _ = q at h1
      cases h1 with
      | error h1 => exact .error h1
      | ok h1 =>
        subst h1
        exact .ok rfl

theorem nonColliderLoop_sim (g : CGraph ι ρ) (x y : ι) (zs : List ι) :
    Agree W (PR (renamed e he h hs)) (nonColliderLoop g x y zs)
      (nonColliderLoop ((renamed e he h hs).graph g) (e x) (e y) (zs.map e)) := by
  induction zs with
  | nil => exact .ok rfl
  | cons z zs ih =>
    rw [List.map_cons]
    unfold nonColliderLoop
    have e1 : ∀ v, e v ∈ ((renamed e he h hs).graph g).nodes ↔ v ∈ g.nodes := (renamed e he h hs).mem_map g.nodes
    have e2 : ∀ a b, ((renamed e he h hs).graph g).onlyDirectedEdgeExists (e a) (e b) = g.onlyDirectedEdgeExists a b :=
      (renamed e he h hs).onlyDirectedEdgeExists g
    have e3 : ∀ a b, ((renamed e he h hs).graph g).undirectedEdgeExists (e a) (e b) = g.undirectedEdgeExists a b :=
      (renamed e he h hs).undirectedEdgeExists g
    have e4 : ∀ a b, ((renamed e he h hs).graph g).edgeExists (e a) (e b) = g.edgeExists a b := (renamed e he h hs).edgeExists g
    have e5 : ∀ a b, guarded ((renamed e he h hs).graph g) (e a) (e b) = guarded g a b := fun a b =>
      (renamed e he h hs).any_map_name g.nodes _ _ (fun n => by
        simp only [show (renamed e he h hs).name n = e n from rfl, e2, e4])
    simp only [e1, e2, e3, e5]
    split
    · exact .error (hW _)
    split
    · split <;> exact .ok rfl
    split
    · split <;> exact .ok rfl
    · exact ih

theorem nonColliderProcess_sim {o : Ord ι ρ} {o' : Ord ι' ρ} (ho : SameOrd (renamed e he h hs) o o') (c : List ι) (g : CGraph ι ρ) :
    Agree W (PR (renamed e he h hs)) (nonColliderProcess o c g)
      (nonColliderProcess o' (c.map e) ((renamed e he h hs).graph g)) := by
  match c with
  | [] => exact .error (hW _)
  | [_] => exact .error (hW _)
  | x :: y :: _ =>
    simp only [List.map_cons, nonColliderProcess]
    have e1 : ∀ v, e v ∈ ((renamed e he h hs).graph g).nodes ↔ v ∈ g.nodes := (renamed e he h hs).mem_map g.nodes
    have e2 : ((renamed e he h hs).graph g).edgeExists (e x) (e y) = g.edgeExists x y := (renamed e he h hs).edgeExists g x y
    simp only [e1, e2, commonKeys_sim]
    split
    · exact .error (hW _)
    split
    · exact .error (hW _)
    split
    · exact .ok rfl
    cases commonKeys g x y with
    | error x => exact .error (hW _)
    | ok zs =>
      dsimp only
      have e4 : o' ((renamed e he h hs).graph g) (e x) (e y) (zs.map e) = (o g x y zs).map e := ho g x y zs
      rw [e4]
      exact nonColliderLoop_sim hW he hs g x y _

theorem tripleProcess_sim (c : List ι) (g : CGraph ι ρ) :
    Agree W (PR (renamed e he h hs)) (tripleProcess c g) (tripleProcess (c.map e) ((renamed e he h hs).graph g)) := by
  match c with
  | [] => exact .error (hW _)
  | [_] => exact .error (hW _)
  | x :: y :: _ =>
    simp only [List.map_cons, tripleProcess]
    have e1 : ∀ v, e v ∈ ((renamed e he h hs).graph g).nodes ↔ v ∈ g.nodes := (renamed e he h hs).mem_map g.nodes
    have e2 : ∀ a b, ((renamed e he h hs).graph g).onlyDirectedEdgeExists (e a) (e b) = g.onlyDirectedEdgeExists a b :=
      (renamed e he h hs).onlyDirectedEdgeExists g
    have e3 : ∀ a b, ((renamed e he h hs).graph g).undirectedEdgeExists (e a) (e b) = g.undirectedEdgeExists a b :=
      (renamed e he h hs).undirectedEdgeExists g
    have e4 : ∀ a b, ((renamed e he h hs).graph g).edgeExists (e a) (e b) = g.edgeExists a b := (renamed e he h hs).edgeExists g
    have e5 : ∀ z, tripleAt ((renamed e he h hs).graph g) (e x) (e y) (e z) = (tripleAt g x y z).map (renamed e he h hs).result := by
      intro z
      unfold tripleAt
      rw [e2, e2, e2, e2, e3, List.map_append]
      congr 1 <;> split <;> rfl
    have e6 : ((renamed e he h hs).graph g).nodes.filter
          (fun z => ((renamed e he h hs).graph g).edgeExists (e y) z && ((renamed e he h hs).graph g).edgeExists (e x) z) =
        (g.nodes.filter (fun z => g.edgeExists y z && g.edgeExists x z)).map e :=
      (renamed e he h hs).filter_map_name g.nodes _ _ (fun z => by
        simp only [show (renamed e he h hs).name z = e z from rfl, e4])
    simp only [e1, e6]
    split
    · exact .error (hW _)
    split
    · exact .error (hW _)
    · refine .ok ?_
      simp only [PR, Option.map_some, List.flatMap_map, List.map_flatMap, e5]

omit hW [DecidableEq ι] [DecidableEq ι'] in
theorem overPairs_sim {body : ι → ι → List (CResult ι ρ)} {body' : ι' → ι' → List (CResult ι' ρ)}
    (hb : ∀ a b, body' (e a) (e b) = (body a b).map (renamed e he h hs).result) (l : List (List ι)) :
    overPairs body' (l.map (List.map e)) = (overPairs body l).map (renamed e he h hs).result := by
  induction l with
  | nil => rfl
  | cons p l ih =>
    match p with
    | [a, b] => simp [overPairs, hb, ih]
    | [] => simpa [overPairs] using ih
    | [_] => simpa [overPairs] using ih
    | _ :: _ :: _ :: _ => simpa [overPairs] using ih

theorem quadLoop_sim {body : CGraph ι ρ → ι → ι → ι → ι → List (CResult ι ρ)}
    {body' : CGraph ι' ρ → ι' → ι' → ι' → ι' → List (CResult ι' ρ)}
    (hb : ∀ g x y a b, body' ((renamed e he h hs).graph g) (e x) (e y) (e a) (e b) = (body g x y a b).map (renamed e he h hs).result)
    {o : Ord ι ρ} {o' : Ord ι' ρ} (ho : SameOrd (renamed e he h hs) o o') (c : List ι) (g : CGraph ι ρ) :
    Agree W (PR (renamed e he h hs)) (quadLoop body o c g) (quadLoop body' o' (c.map e) ((renamed e he h hs).graph g)) := by
  match c with
  | [] => exact .error (hW _)
  | [_] => exact .error (hW _)
  | y :: w :: _ =>
    simp only [List.map_cons, quadLoop]
    have e1 : ∀ v, e v ∈ ((renamed e he h hs).graph g).nodes ↔ v ∈ g.nodes := (renamed e he h hs).mem_map g.nodes
    have e4 : ∀ a b, ((renamed e he h hs).graph g).edgeExists (e a) (e b) = g.edgeExists a b := (renamed e he h hs).edgeExists g
    have e6 : ((renamed e he h hs).graph g).nodes.filter
          (fun z => ((renamed e he h hs).graph g).edgeExists (e y) z && ((renamed e he h hs).graph g).edgeExists z (e w)) =
        (g.nodes.filter (fun z => g.edgeExists y z && g.edgeExists z w)).map e :=
      (renamed e he h hs).filter_map_name g.nodes _ _ (fun z => by
        simp only [show (renamed e he h hs).name z = e z from rfl, e4])
    have e5 : ∀ l : List ι, o' ((renamed e he h hs).graph g) (e y) (e w) (l.map e) = (o g y w l).map e := fun l => ho g y w l
    simp only [e1, e6, e5, combinations_map]
    split
    · exact .error (hW _)
    split
    · exact .error (hW _)
    · refine .ok ?_
      rw [overPairs_sim he hs (hb g y w)]
      rfl

omit hW in
theorem quadAt_sim (g : CGraph ι ρ) (y w x z : ι) :
    quadAt ((renamed e he h hs).graph g) (e y) (e w) (e x) (e z) = (quadAt g y w x z).map (renamed e he h hs).result := by
  have e2 : ∀ a b, ((renamed e he h hs).graph g).onlyDirectedEdgeExists (e a) (e b) = g.onlyDirectedEdgeExists a b :=
    (renamed e he h hs).onlyDirectedEdgeExists g
  have e3 : ∀ a b, ((renamed e he h hs).graph g).undirectedEdgeExists (e a) (e b) = g.undirectedEdgeExists a b :=
    (renamed e he h hs).undirectedEdgeExists g
  have e4 : ∀ a b, ((renamed e he h hs).graph g).edgeExists (e a) (e b) = g.edgeExists a b := (renamed e he h hs).edgeExists g
  unfold quadAt
  simp only [e2, e3, e4, List.map_append]
  congr 1 <;> split <;> rfl

omit hW in
theorem furtherQuadAt_sim (g : CGraph ι ρ) (x w y z : ι) :
    furtherQuadAt ((renamed e he h hs).graph g) (e x) (e w) (e y) (e z) = (furtherQuadAt g x w y z).map (renamed e he h hs).result := by
  have e2 : ∀ a b, ((renamed e he h hs).graph g).onlyDirectedEdgeExists (e a) (e b) = g.onlyDirectedEdgeExists a b :=
    (renamed e he h hs).onlyDirectedEdgeExists g
  have e3 : ∀ a b, ((renamed e he h hs).graph g).undirectedEdgeExists (e a) (e b) = g.undirectedEdgeExists a b :=
    (renamed e he h hs).undirectedEdgeExists g
  have e4 : ∀ a b, ((renamed e he h hs).graph g).edgeExists (e a) (e b) = g.edgeExists a b := (renamed e he h hs).edgeExists g
  unfold furtherQuadAt
  simp only [e2, e3, e4]
  split
  · rfl
  split
  · rfl
  split
  · rfl
  split <;> rfl

/-! ## direct effects -/

theorem effectProcess_sim {D : Effects.Source ι ρ} {D' : Effects.Source ι' ρ} (hD : SameSource e D D') (c : List ι) (g : CGraph ι ρ) :
    Agree W (PR (renamed e he h hs)) (Effects.effectProcess D c g)
      (Effects.effectProcess D' (c.map e) ((renamed e he h hs).graph g)) := by
  match c with
  | [] => exact .error (hW _)
  | [_] => exact .error (hW _)
  | x :: y :: _ =>
    simp only [List.map_cons, Effects.effectProcess]
    have e1 : ∀ v, e v ∈ ((renamed e he h hs).graph g).nodes ↔ v ∈ g.nodes := (renamed e he h hs).mem_map g.nodes
    have e2 := (renamed e he h hs).edgeValue g x y
    rw [show (renamed e he h hs).name x = e x from rfl, show (renamed e he h hs).name y = e y from rfl] at e2
    have e3 : ((renamed e he h hs).graph g).undirectedEdgeExists (e x) (e y) = g.undirectedEdgeExists x y :=
      (renamed e he h hs).undirectedEdgeExists g x y
    have e4 := (renamed e he h hs).parentsOfNode g y
    rw [show (renamed e he h hs).name y = e y from rfl] at e4
    simp only [e1, e2, e3, e4]
    split
    · exact .error (hW _)
    split
    · exact .error (hW _)
    split
    · rcases g.edgeValue x y with x1 | m
      · exact .error (hW _)
      · exact .ok rfl
    · rcases g.edgeValue x y with x1 | m
      · exact .error (hW _)
      · dsimp only
        rcases g.parentsOfNode y with x1 | ps
        · exact .error (hW _)
        · dsimp only
          have e5 : (ps.map e).filter (fun p => decide (p ≠ e x)) = (ps.filter (fun p => decide (p ≠ x))).map e :=
            (renamed e he h hs).filter_map_name ps _ _ (fun z => by
              simp only [show (renamed e he h hs).name z = e z from rfl, ne_eq, he.eq_iff])
          have e6 : ∀ l : List ι, Effects.coefficient D' (l.map e) (e x) (e y) = Effects.coefficient D l x y := by
            intro l
            unfold Effects.coefficient
            have : (e x :: l.map e).map D'.values = (x :: l).map D.values := by
              simp [hD.values]
            rw [this, hD.values, hD.lstsq]
          rw [show (renamed e he h hs).name = e from rfl, e5, e6]
          rcases Effects.coefficient D _ x y with x1 | b
          · exact .error (hW _)
          · cases m with
            | none => exact .error (hW _)
            | some m => exact .ok rfl

/-! ## the steps and the algorithms -/

theorem orientationPhase_sim {oc : Ord ι ρ} {oc' : Ord ι' ρ} (hoc : SameOrd (renamed e he h hs) oc oc') {o : Ords ι ρ} {o' : Ords ι' ρ}
    (ho : SameOrds (renamed e he h hs) o o') :
    List.Forall₂ (PStepSim (renamed e he h hs) W) (orientationPhase oc o) (orientationPhase oc' o') := by
  have rule : ∀ {n : String} {p : List ι → CGraph ι ρ → _} {p' : List ι' → CGraph ι' ρ → _},
      (∀ c g, Agree W (PR (renamed e he h hs)) (p c g) (p' (c.map e) ((renamed e he h hs).graph g))) →
      StepSim (renamed e he h hs) W (ruleStep n p) (ruleStep n p') :=
    fun hp => ⟨rfl, rfl, rfl, rfl, fun g => allGen_sim hW _ g, fun c g _ => hp c g⟩
  refine .cons (.plain ⟨rfl, rfl, rfl, rfl, fun g => allGen_sim hW _ g, fun c g un => colliderProcess_sim hW he hs _ hoc c g un⟩)
    (.cons (.loop (.cons (rule ?_) (.cons (rule ?_) (.cons (rule ?_) (.cons (rule ?_) .nil)))) ?_) .nil)
  · exact nonColliderProcess_sim hW he hs ho.r1
  · exact tripleProcess_sim hW he hs
  · exact quadLoop_sim hW he hs (fun g x y a b => quadAt_sim he hs g x y a b) ho.r3
  · exact quadLoop_sim hW he hs (fun g x y a b => furtherQuadAt_sim he hs g x y a b) ho.r4
  · intro g l k
    unfold exitOnNoActions
    split
    · cases l with
      | none => exact .error (hW _)
      | some l => exact .ok (by simp)
    · exact .ok rfl

theorem pearsonStep_sim {T : Tests ι ρ} {T' : Tests ι' ρ} (hT : SameTests W e h T T') :
    StepSim (renamed e he h hs) W (pearsonStep T) (pearsonStep T') :=
  ⟨rfl, rfl, rfl, rfl, fun g => allGen_sim hW _ g, fun c g _ => pearsonProcess_sim hW he hs hT c g⟩

theorem corrStep_sim {T : Tests ι ρ} {T' : Tests ι' ρ} (hT : SameTests W e h T T') :
    StepSim (renamed e he h hs) W (corrStep T) (corrStep T') :=
  ⟨rfl, rfl, rfl, rfl, fun g => allGen_sim hW _ g, fun c g _ => corrProcess_sim hW he hs hT c g⟩

theorem partialStep_sim {T : Tests ι ρ} {T' : Tests ι' ρ} (hT : SameTests W e h T T') :
    StepSim (renamed e he h hs) W (partialStep T) (partialStep T') :=
  ⟨rfl, rfl, rfl, rfl, fun g => allGen_sim hW _ g, fun c g _ => partialProcess_sim hW he hs hT c g⟩

theorem matrixStep_sim {T : Tests ι ρ} {T' : Tests ι' ρ} (hT : SameTests W e h T T') {cfg : NbCfg ι} {cfg' : NbCfg ι'}
    (hc : SameNb e cfg cfg') : StepSim (renamed e he h hs) W (matrixStep T cfg) (matrixStep T' cfg') :=
  ⟨rfl, hc.chunked, rfl, rfl, fun g => pairsWithNeighbours_sim hW hc g, fun c g _ => matrixProcess_sim hW he hs hT c g⟩

theorem effectStep_sim {D : Effects.Source ι ρ} {D' : Effects.Source ι' ρ} (hD : SameSource e D D') :
    StepSim (renamed e he h hs) W (Effects.effectStep D) (Effects.effectStep D') := by
  refine ⟨rfl, rfl, rfl, rfl, fun g => ?_, fun c g _ => effectProcess_sim hW he hs hD c g⟩
  have h1 := pairsWithEdges_sim (M := renamed e he h hs) hW g
  simp only [Effects.effectStep]
  generalize Graph.pairsWithEdges false 100 g = x at h1
  generalize Graph.pairsWithEdges false 100 ((renamed e he h hs).graph g) = y at h1
  cases h1 with
  | error h1 => exact .error h1
  | ok h1 =>
    subst h1
    refine .ok ?_
    rw [List.map_map, List.forall₂_map_right_iff, List.forall₂_map_left_iff]
    exact List.forall₂_same.2 (fun p _ _ => rfl)

omit hW in
theorem neighbours_sim (min : Int) {ord : NbOrd ι} {ord' : NbOrd ι'} (ho : SameNbOrd e ord ord') :
    SameNb e (neighbours min ord) (neighbours min ord') := ⟨rfl, rfl, rfl, ho, fun h => nomatch h⟩

theorem pc_sim {T : Tests ι ρ} {T' : Tests ι' ρ} (hT : SameTests W e h T T') {ord : NbOrd ι} {ord' : NbOrd ι'}
    (hord : SameNbOrd e ord ord') {oc : Ord ι ρ} {oc' : Ord ι' ρ} (hoc : SameOrd (renamed e he h hs) oc oc') {o : Ords ι ρ}
    {o' : Ords ι' ρ} (ho : SameOrds (renamed e he h hs) o o') :
    List.Forall₂ (PStepSim (renamed e he h hs) W) (pc T ord oc o) (pc T' ord' oc' o') :=
  .cons (.plain (pearsonStep_sim hW he hs hT)) (.cons (.plain (corrStep_sim hW he hs hT))
    (.cons (.plain (partialStep_sim hW he hs hT)) (.cons (.plain (matrixStep_sim hW he hs hT (neighbours_sim 4 hord)))
      (orientationPhase_sim hW he hs hoc ho))))

theorem pcClassic_sim {T : Tests ι ρ} {T' : Tests ι' ρ} (hT : SameTests W e h T T') {ord : NbOrd ι} {ord' : NbOrd ι'}
    (hord : SameNbOrd e ord ord') {oc : Ord ι ρ} {oc' : Ord ι' ρ} (hoc : SameOrd (renamed e he h hs) oc oc') {o : Ords ι ρ}
    {o' : Ords ι' ρ} (ho : SameOrds (renamed e he h hs) o o') :
    List.Forall₂ (PStepSim (renamed e he h hs) W) (pcClassic T ord oc o) (pcClassic T' ord' oc' o') :=
  .cons (.plain (pearsonStep_sim hW he hs hT)) (.cons (.plain (corrStep_sim hW he hs hT))
    (.cons (.plain (matrixStep_sim hW he hs hT (neighbours_sim 3 hord))) (orientationPhase_sim hW he hs hoc ho)))

theorem pcStable_sim {T : Tests ι ρ} {T' : Tests ι' ρ} (hT : SameTests W e h T T') {ord : NbOrd ι} {ord' : NbOrd ι'}
    (hord : SameNbOrd e ord ord') {oc : Ord ι ρ} {oc' : Ord ι' ρ} (hoc : SameOrd (renamed e he h hs) oc oc') {o : Ords ι ρ}
    {o' : Ords ι' ρ} (ho : SameOrds (renamed e he h hs) o o') :
    List.Forall₂ (PStepSim (renamed e he h hs) W) (pcStable T ord oc o) (pcStable T' ord' oc' o') :=
  .cons (.plain (pearsonStep_sim hW he hs hT)) (.cons (.together (.cons (corrStep_sim hW he hs hT)
    (.cons (partialStep_sim hW he hs hT) (.cons (matrixStep_sim hW he hs hT (neighbours_sim 4 hord)) .nil))))
      (orientationPhase_sim hW he hs hoc ho))

theorem parallelPC_sim {T : Tests ι ρ} {T' : Tests ι' ρ} (hT : SameTests W e h T T') (z : Sizes) {c : ParChoice ι} {c' : ParChoice ι'}
    (hc : SameChoice (renamed e he h hs) c c') {oc : Ord ι ρ} {oc' : Ord ι' ρ} (hoc : SameOrd (renamed e he h hs) oc oc')
    {o : Ords ι ρ} {o' : Ords ι' ρ} (ho : SameOrds (renamed e he h hs) o o') :
    List.Forall₂ (StageSim (renamed e he h hs) W) (parallelPC T z c oc o) (parallelPC T' z c' oc' o') := by
  have h1 : SameNb e (shuffled c.ord1 c.shuf1) (shuffled c'.ord1 c'.shuf1) := ⟨rfl, rfl, rfl, hc.ord1, fun _ => hc.shuf1⟩
  have h2 : SameNb e (shuffled c.ord2 c.shuf2) (shuffled c'.ord2 c'.shuf2) := ⟨rfl, rfl, rfl, hc.ord2, fun _ => hc.shuf2⟩
  refine .cons (.seq (.plain (pearsonStep_sim hW he hs hT))) (.cons (.seq (.plain (corrStep_sim hW he hs hT)))
    (.cons (.par (partialStep_sim hW he hs hT) _) (.cons (.par ?_ _) (.cons (.par (matrixStep_sim hW he hs hT h2) _) ?_))))
  · exact ⟨rfl, rfl, rfl, rfl, fun g => sampleGen_sim hW hc.keep h1 g, fun c g _ => matrixProcess_sim hW he hs hT c g⟩
  · show List.Forall₂ _ ((orientationPhase oc o).map Stage.seq) ((orientationPhase oc' o').map Stage.seq)
    rw [List.forall₂_map_right_iff, List.forall₂_map_left_iff]
    exact (orientationPhase_sim hW he hs hoc ho).imp (fun _ _ h => .seq h)

end tests
end Verif
