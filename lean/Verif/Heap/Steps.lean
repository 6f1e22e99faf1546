import Verif.Heap.Shipped
import Verif.PC.Parallel

/-!
# Helper lemmas: the shipped steps look at no more of a graph than `Seen` allows

The two steps that write into stored dictionaries overwrite one key each.
-/

namespace Verif
namespace Heap
open Graph CI Orient PC Effects
variable {ι ρ δ τ : Type} [DecidableEq ι]

namespace Seen
variable {κ : δ → τ} {d g : Graph ι δ}

theorem nodes (h : Seen κ d g) : d.nodes = g.nodes := by
  have := congrArg Graph.nodes h.shape
  exact this

theorem edgeExists (h : Seen κ d g) (u v : ι) : d.edgeExists u v = g.edgeExists u v := by
  rw [← edgeExists_map (fun _ => ()) d, h.shape, edgeExists_map]

theorem directedEdgeExists (h : Seen κ d g) (u v : ι) : d.directedEdgeExists u v = g.directedEdgeExists u v := by
  rw [← directedEdgeExists_map (fun _ => ()) d, h.shape, directedEdgeExists_map]

theorem undirectedEdgeExists (h : Seen κ d g) (u v : ι) : d.undirectedEdgeExists u v = g.undirectedEdgeExists u v := by
  unfold Graph.undirectedEdgeExists
  rw [h.directedEdgeExists, h.directedEdgeExists]

theorem onlyDirectedEdgeExists (h : Seen κ d g) (u v : ι) : d.onlyDirectedEdgeExists u v = g.onlyDirectedEdgeExists u v := by
  unfold Graph.onlyDirectedEdgeExists
  rw [h.directedEdgeExists, h.directedEdgeExists]

theorem softDeleted (h : Seen κ d g) (u v : ι) : d.softDeleted u v = g.softDeleted u v := by
  rw [← softDeleted_map (fun _ => ()) d, h.shape, softDeleted_map]

theorem edges (h : Seen κ d g) : d.edges.map (Dict.map (Edge.map (fun _ => ()))) = g.edges.map (Dict.map (Edge.map (fun _ => ()))) :=
  congrArg Graph.edges h.shape

theorem rev (h : Seen κ d g) : d.rev.map (Dict.map (Edge.map (fun _ => ()))) = g.rev.map (Dict.map (Edge.map (fun _ => ()))) :=
  congrArg Graph.rev h.shape

theorem keys (h : Seen κ d g) : d.edges.keys = g.edges.keys := by
  have := congrArg Dict.keys h.edges
  rwa [Dict.keys_map, Dict.keys_map] at this

theorem keys2 (h : Seen κ d g) (u : ι) : d.edges.keys2 u = g.edges.keys2 u := by
  have := congrArg (fun x => Dict.keys2 x u) h.edges
  simpa only [Dict.keys2_map] using this

theorem has (h : Seen κ d g) (u : ι) : d.edges.has u = g.edges.has u := by
  have := congrArg (fun x => Dict.has x u) h.edges
  simpa only [Dict.has_map] using this

theorem has2 (h : Seen κ d g) (u v : ι) : d.edges.has2 u v = g.edges.has2 u v := by
  have := congrArg (fun x => Dict.has2 x u v) h.edges
  simpa only [Dict.has2_map] using this

theorem get2 (h : Seen κ d g) (u v : ι) : (d.edges.get2 u v).map (fun e => κ e.metadata) = (g.edges.get2 u v).map (fun e => κ e.metadata) := by
  have h1 := congrArg (fun x => Dict.get2 x u v) h.edges
  simp only [Dict.get2_map] at h1
  cases hd : d.edges.get2 u v with
  | none =>
    cases hg : g.edges.get2 u v with
    | none => rfl
    | some e' => rw [hd, hg] at h1; cases h1
  | some e =>
    cases hg : g.edges.get2 u v with
    | none => rw [hd, hg] at h1; cases h1
    | some e' => exact congrArg some (h.metas u v e e' hd hg)

/-- the metadata read by `edge_value` -/
theorem edgeValue (h : Seen κ d g) (u v : ι) : (d.edgeValue u v).map (Option.map κ) = (g.edgeValue u v).map (Option.map κ) := by
  have h1 := h.get2 u v
  unfold Graph.edgeValue
  rw [h.edgeExists]
  split
  · rfl
  · cases hd : d.edges.get2 u v <;> cases hg : g.edges.get2 u v <;> rw [hd, hg] at h1 <;> simp_all [Except.map]

theorem edgeValue_id {d g : Graph ι δ} (h : Seen (id : δ → δ) d g) (u v : ι) : d.edgeValue u v = g.edgeValue u v := by
  have := h.edgeValue u v
  simp only [Option.map_id] at this
  cases hd : d.edgeValue u v <;> cases hg : g.edgeValue u v <;> rw [hd, hg] at this <;> simpa [Except.map] using this

theorem parentsOfNode (h : Seen κ d g) (u : ι) : d.parentsOfNode u = g.parentsOfNode u := by
  have h1 := congrArg (fun x => Dict.get? x u) h.rev
  simp only [Dict.get?_map] at h1
  unfold Graph.parentsOfNode
  rw [h.nodes]
  cases hd : d.rev.get? u with
  | none =>
    cases hg : g.rev.get? u with
    | none => rfl
    | some e' => rw [hd, hg] at h1; cases h1
  | some r =>
    cases hg : g.rev.get? u with
    | none => rw [hd, hg] at h1; cases h1
    | some r' =>
      rw [hd, hg] at h1
      simp only [Option.map_some, Option.some.injEq] at h1
      have := congrArg Dict.keys h1
      rw [Dict.keys_map, Dict.keys_map] at this
      simp only [this, h.softDeleted]

theorem otherNeighbours (h : Seen κ d g) (u : ι) : d.otherNeighbours u = g.otherNeighbours u := by
  unfold Graph.otherNeighbours
  rw [h.keys2]
  exact List.filter_congr (fun k _ => h.directedEdgeExists k u)

theorem commonKeys {κ : Info ι ρ → τ} {d g : CGraph ι ρ} (h : Seen κ d g) (x y : ι) : commonKeys d x y = commonKeys g x y := by
  unfold Orient.commonKeys
  rw [h.has, h.has, h.keys2, h.keys2]

end Seen

/-! ## generators -/

theorem allGen_seen {κ : δ → τ} (s : Settings) {d g : Graph ι δ} (h : Seen κ d g) : allGen s d = allGen s g := by
  unfold allGen
  rw [h.nodes]

theorem allGen_thunk (s : Settings) {g : Graph ι δ} {ts : List (Graph ι δ → List (Yield ι))} (hg : allGen s g = .ok ts)
    {t : Graph ι δ → List (Yield ι)} (ht : t ∈ ts) (d g' : Graph ι δ) : t d = t g' := by
  unfold allGen at hg
  split at hg
  · cases hg
  · injection hg with hg
    subst hg
    rw [List.mem_singleton.1 ht]

theorem nbGen_seen {κ : δ → τ} (cfg : NbCfg ι) {d g : Graph ι δ} (h : Seen κ d g) : pairsWithNeighbours cfg d = pairsWithNeighbours cfg g := by
  unfold pairsWithNeighbours nbPositions
  rw [h.nodes, h.keys]
  have : d.edges.keys2 = g.edges.keys2 := funext h.keys2
  rw [this]

theorem nbBody_seen {κ : δ → τ} (cfg : NbCfg ι) (k : Nat) (x y : ι) {d g : Graph ι δ} (h : Seen κ d g) : nbBody cfg k x y d = nbBody cfg k x y g := by
  unfold nbBody
  rw [h.directedEdgeExists, h.otherNeighbours]

theorem nbGen_thunk {κ : δ → τ} (cfg : NbCfg ι) {g : Graph ι δ} {ts : List (Graph ι δ → List (Yield ι))} (hg : pairsWithNeighbours cfg g = .ok ts)
    {t : Graph ι δ → List (Yield ι)} (ht : t ∈ ts) (d g' : Graph ι δ) (h : Seen κ d g') : t d = t g' := by
  unfold pairsWithNeighbours at hg
  split at hg
  · injection hg with hg
    subst hg
    cases ht
  · split at hg
    · cases hg
    · injection hg with hg
      subst hg
      obtain ⟨p, _, rfl⟩ := List.mem_map.1 ht
      exact nbBody_seen cfg _ _ _ h

/-! ## the independence tests -/

theorem corr_plain (T : Tests ι ρ) : Plain (corrStep T) where
  gen _ _ h := allGen_seen _ h
  thunk _ _ hg _ ht d g' _ := allGen_thunk _ hg ht d g'
  process d g c loc h := by
    show corrProcess T c d = corrProcess T c g
    unfold corrProcess
    rw [h.nodes]
    simp only [h.edgeValue_id]
  noRestore c g loc rs hp r hr := by
    change corrProcess T c g = _ at hp
    unfold corrProcess at hp
    repeat' split at hp
    all_goals first | cases hp; done | skip
    all_goals
      injection hp with hp
      injection hp with hp
      subst hp
      rw [List.mem_singleton.1 hr]
      try split
      all_goals rfl

theorem partialLoop_seen (T : Tests ι ρ) {d g : CGraph ι ρ} (h : Seen id d g) (c zs : List ι) (acc : List (CResult ι ρ))
    (done : List (ι × ι)) : partialLoop T d c zs acc done = partialLoop T g c zs acc done := by
  have hc : ∀ x y, corrOf d x y = corrOf g x y := fun x y => by unfold corrOf; rw [h.edgeValue_id]
  induction zs generalizing acc done with
  | nil => rfl
  | cons z zs ih =>
    unfold partialLoop
    simp only [h.edgeExists, hc, ih]

theorem partialLoop_noRestore (T : Tests ι ρ) (g : CGraph ι ρ) (c zs : List ι) (acc : List (CResult ι ρ))
    (done : List (ι × ι)) (ha : ∀ r ∈ acc, r.action.isRestore = false) {rs : List (CResult ι ρ)}
    (h : partialLoop T g c zs acc done = .ok (some rs)) : ∀ r ∈ rs, r.action.isRestore = false := by
  induction zs generalizing acc done with
  | nil =>
    unfold partialLoop at h
    injection h with h
    injection h with h
    subst h
    exact ha
  | cons z zs ih =>
    unfold partialLoop at h
    repeat' split at h
    all_goals first | cases h; done | skip
    · exact ih _ _ ha h
    · refine ih _ _ (fun r hr => ?_) h
      rcases List.mem_append.1 hr with hr | hr
      · exact ha r hr
      · rw [List.mem_singleton.1 hr]; rfl
    · refine ih _ _ (fun r hr => ?_) h
      rcases List.mem_append.1 hr with hr | hr
      · exact ha r hr
      · rw [List.mem_singleton.1 hr]; rfl

theorem partial_plain (T : Tests ι ρ) : Plain (partialStep T) where
  gen _ _ h := allGen_seen _ h
  thunk _ _ hg _ ht d g' _ := allGen_thunk _ hg ht d g'
  process d g c loc h := by
    show partialProcess T c d = partialProcess T c g
    unfold partialProcess
    rw [h.nodes, partialLoop_seen T h]
  noRestore c g loc rs hp r hr := by
    change partialProcess T c g = _ at hp
    unfold partialProcess at hp
    split at hp
    · exact partialLoop_noRestore T g c c [] [] (fun _ h => absurd h List.not_mem_nil) hp r hr
    · cases hp

theorem matrix_plain (T : Tests ι ρ) (cfg : NbCfg ι) : Plain (matrixStep T cfg) where
  gen _ _ h := nbGen_seen _ h
  thunk _ _ hg _ ht d g' h := nbGen_thunk _ hg ht d g' h
  process d g c loc h := by
    show matrixProcess T c d = matrixProcess T c g
    unfold matrixProcess
    simp only [h.nodes, h.edgeExists, h.has, h.otherNeighbours]
  noRestore c g loc rs hp r hr := by
    change matrixProcess T c g = _ at hp
    unfold matrixProcess at hp
    repeat' split at hp
    all_goals first | cases hp; done | skip
    all_goals
      injection hp with hp
      injection hp with hp
      subst hp
      rw [List.mem_singleton.1 hr]
      try split
      all_goals rfl

theorem regression_plain (T : Tests ι ρ) (cfg : NbCfg ι) : Plain (regressionStep T cfg) where
  gen _ _ h := nbGen_seen _ h
  thunk _ _ hg _ ht d g' h := nbGen_thunk _ hg ht d g' h
  process d g c loc h := by
    show regressionProcess T c d = regressionProcess T c g
    unfold regressionProcess
    simp only [h.nodes, h.edgeExists, h.has, h.has2]
  noRestore c g loc rs hp r hr := by
    change regressionProcess T c g = _ at hp
    unfold regressionProcess at hp
    repeat' split at hp
    all_goals first | cases hp; done | skip
    all_goals
      injection hp with hp
      injection hp with hp
      subst hp
      rw [List.mem_singleton.1 hr]
      try split
      all_goals rfl

/-! ## the orientation rules -/

theorem colliderLoop_seen (st : Strategy) {κ : Info ι ρ → τ} {d g : CGraph ι ρ} (h : Seen κ d g) (x y : ι) (as : List (CResult ι ρ))
    (un : Option (Results ι (Info ι ρ))) (zs : List ι) : colliderLoop st d x y as un zs = colliderLoop st g x y as un zs := by
  induction zs with
  | nil => rfl
  | cons z zs ih =>
    unfold colliderLoop
    simp only [h.nodes, ih]

theorem colliderLoop_noRestore (st : Strategy) (hst : st ≠ .keepLast) (g : CGraph ι ρ) (x y : ι) (as : List (CResult ι ρ))
    (un : Option (Results ι (Info ι ρ))) (zs : List ι) {rs : List (CResult ι ρ)} (h : colliderLoop st g x y as un zs = .ok rs) :
    ∀ r ∈ rs, r.action.isRestore = false := by
  have hat : ∀ z (xz yz : List (CResult ι ρ)), ∀ r ∈ colliderAt st x y z xz yz, r.action.isRestore = false := by
    intro z xz yz r hr
    unfold colliderAt at hr
    split at hr
    · cases st with
      | keepLast => exact absurd rfl hst
      | other => cases hr
      | keepFirst =>
        simp only at hr
        rcases List.mem_append.1 hr with hr | hr <;> split at hr
        all_goals first | cases hr; done | skip
        all_goals rw [List.mem_singleton.1 hr]; rfl
    · simp only [List.mem_cons, List.not_mem_nil, or_false] at hr
      rcases hr with rfl | rfl <;> rfl
  induction zs generalizing rs with
  | nil =>
    unfold colliderLoop at h
    injection h with h
    subst h
    exact fun r hr => absurd hr List.not_mem_nil
  | cons z zs ih =>
    unfold colliderLoop at h
    repeat' split at h
    all_goals first | cases h; done | skip
    · exact ih h
    · rename_i rest hrest
      injection h with h
      subst h
      intro r hr
      rcases List.mem_append.1 hr with hr | hr
      · exact hat _ _ _ r hr
      · exact ih hrest r hr

theorem collider_plain (st : Strategy) (hst : st ≠ .keepLast) {o : Ord ι ρ} (ho : OrdOk o) : Plain (colliderStep st o) where
  gen _ _ h := allGen_seen _ h
  thunk _ _ hg _ ht d g' _ := allGen_thunk _ hg ht d g'
  process d g c loc h := by
    show colliderProcess st o c d loc = colliderProcess st o c g loc
    unfold colliderProcess
    simp only [h.nodes, h.undirectedEdgeExists, h.commonKeys, colliderLoop_seen st h, ho d g _ _ h,
      h.records _ _ .removeEdgeUndirected rfl]
  noRestore c g loc rs hp r hr := by
    change colliderProcess st o c g loc = _ at hp
    unfold colliderProcess at hp
    repeat' split at hp
    all_goals first | cases hp; done | skip
    rename_i rs' hl
    injection hp with hp
    injection hp with hp
    subst hp
    exact colliderLoop_noRestore st hst g _ _ _ _ _ hl r hr

/-- a rule that looks at no more than `Seen` allows and proposes no restores -/
theorem rule_plain (name : String) {p : List ι → CGraph ι ρ → Except PyErr (Option (List (CResult ι ρ)))}
    (h1 : ∀ d g c, Seen id d g → p c d = p c g)
    (h2 : ∀ c g rs, p c g = .ok (some rs) → ∀ r ∈ rs, r.action.isRestore = false) : Plain (ruleStep name p) where
  gen _ _ h := allGen_seen _ h
  thunk _ _ hg _ ht d g' _ := allGen_thunk _ hg ht d g'
  process d g c _ h := h1 d g c h
  noRestore c g _ rs hp r hr := h2 c g rs hp r hr

theorem guarded_seen {κ : Info ι ρ → τ} {d g : CGraph ι ρ} (h : Seen κ d g) (a z : ι) : guarded d a z = guarded g a z := by
  unfold guarded
  simp only [h.nodes, h.onlyDirectedEdgeExists, h.edgeExists]

theorem nonColliderLoop_seen {κ : Info ι ρ → τ} {d g : CGraph ι ρ} (h : Seen κ d g) (x y : ι) (zs : List ι) :
    nonColliderLoop d x y zs = nonColliderLoop g x y zs := by
  induction zs with
  | nil => rfl
  | cons z zs ih =>
    unfold nonColliderLoop
    simp only [h.nodes, h.onlyDirectedEdgeExists, h.undirectedEdgeExists, guarded_seen h, ih]

theorem nonColliderLoop_noRestore (g : CGraph ι ρ) (x y : ι) (zs : List ι) {rs : List (CResult ι ρ)}
    (h : nonColliderLoop g x y zs = .ok (some rs)) : ∀ r ∈ rs, r.action.isRestore = false := by
  induction zs with
  | nil => cases h
  | cons z zs ih =>
    unfold nonColliderLoop at h
    split at h
    · cases h
    · split at h
      · injection h with h
        injection h with h
        subst h
        intro r hr
        rw [List.mem_singleton.1 hr]
        split <;> rfl
      · split at h
        · injection h with h
          injection h with h
          subst h
          intro r hr
          rw [List.mem_singleton.1 hr]
          split <;> rfl
        · exact ih h

theorem nonCollider_plain {o : Ord ι ρ} (ho : OrdOk o) : Plain (nonColliderStep o) := by
  refine rule_plain _ (fun d g c h => ?_) (fun c g rs hp => ?_)
  · unfold nonColliderProcess
    simp only [h.nodes, h.edgeExists, h.commonKeys, nonColliderLoop_seen h, ho d g _ _ h]
  · unfold nonColliderProcess at hp
    repeat' split at hp
    all_goals first | cases hp; done | skip
    exact nonColliderLoop_noRestore g _ _ _ hp

theorem cut_list {l : List (CResult ι ρ)} {p : Prop} [Decidable p] {u v : ι} (h : ∀ r ∈ l, r.action.isRestore = false) :
    ∀ r ∈ (if p then [cut u v] else l), r.action.isRestore = false := by
  split
  · intro r hr; rw [List.mem_singleton.1 hr]; rfl
  · exact h

theorem cut_nil {p : Prop} [Decidable p] {u v : ι} : ∀ r ∈ (if p then [cut u v] else ([] : List (CResult ι ρ))), r.action.isRestore = false :=
  cut_list (fun _ h => absurd h List.not_mem_nil)

theorem triple_plain : Plain (tripleStep : Step ι (Info ι ρ)) := by
  refine rule_plain _ (fun d g c h => ?_) (fun c g rs hp => ?_)
  · unfold tripleProcess
    have : tripleAt d = tripleAt g := by
      funext x y z
      unfold tripleAt
      simp only [h.onlyDirectedEdgeExists, h.undirectedEdgeExists]
    simp only [h.nodes, h.edgeExists, this]
  · unfold tripleProcess at hp
    repeat' split at hp
    all_goals first | cases hp; done | skip
    injection hp with hp
    injection hp with hp
    subst hp
    intro r hr
    obtain ⟨z, _, hz⟩ := List.mem_flatMap.1 hr
    unfold tripleAt at hz
    rcases List.mem_append.1 hz with hz | hz <;> exact cut_nil r hz

theorem overPairs_all {body : ι → ι → List (CResult ι ρ)} (h : ∀ a b, ∀ r ∈ body a b, r.action.isRestore = false) (l : List (List ι)) :
    ∀ r ∈ overPairs body l, r.action.isRestore = false := by
  induction l with
  | nil => exact fun r hr => absurd hr List.not_mem_nil
  | cons c l ih =>
    unfold overPairs
    split
    · exact fun r hr => absurd hr List.not_mem_nil
    · rename_i a b rest he
      injection he with he1 he2
      subst he2
      intro r hr
      rcases List.mem_append.1 hr with hr | hr
      · exact h a b r hr
      · exact ih r hr
    · rename_i c' rest hne he
      injection he with he1 he2
      subst he2
      exact ih

theorem quadLoop_plain (name : String) {body : CGraph ι ρ → ι → ι → ι → ι → List (CResult ι ρ)} {o : Ord ι ρ} (ho : OrdOk o)
    (h1 : ∀ d g, Seen id d g → body d = body g) (h2 : ∀ g y w a b, ∀ r ∈ body g y w a b, r.action.isRestore = false) :
    Plain (ruleStep name (quadLoop body o)) := by
  refine rule_plain _ (fun d g c h => ?_) (fun c g rs hp => ?_)
  · unfold quadLoop
    simp only [h.nodes, h.edgeExists, h1 d g h, ho d g _ _ h]
  · unfold quadLoop at hp
    repeat' split at hp
    all_goals first | cases hp; done | skip
    injection hp with hp
    injection hp with hp
    subst hp
    exact overPairs_all (h2 g _ _) _

theorem quad_plain {o : Ord ι ρ} (ho : OrdOk o) : Plain (quadStep o) := by
  refine quadLoop_plain _ ho (fun d g h => ?_) (fun g y w a b r hr => ?_)
  · funext y w x z
    unfold quadAt
    simp only [h.edgeExists, h.onlyDirectedEdgeExists, h.undirectedEdgeExists]
  · unfold quadAt at hr
    rcases List.mem_append.1 hr with hr | hr <;> exact cut_nil r hr

theorem furtherQuad_plain {o : Ord ι ρ} (ho : OrdOk o) : Plain (furtherQuadStep o) := by
  refine quadLoop_plain _ ho (fun d g h => ?_) (fun g y w a b => ?_)
  · funext y w x z
    unfold furtherQuadAt
    simp only [h.edgeExists, h.onlyDirectedEdgeExists, h.undirectedEdgeExists]
  · unfold furtherQuadAt
    exact cut_list (cut_list (cut_list (cut_list (fun _ h => absurd h List.not_mem_nil))))

theorem fciLoop_seen {κ : Info ι ρ → τ} {d g : CGraph ι ρ} (h : Seen κ d g) (x y : ι) (as : List (CResult ι ρ)) (zs : List ι) :
    Fci.fciLoop d x y as zs = Fci.fciLoop g x y as zs := by
  induction zs with
  | nil => rfl
  | cons z zs ih =>
    unfold Fci.fciLoop
    simp only [h.nodes, ih]

theorem fciLoop_noRestore (g : CGraph ι ρ) (x y : ι) (as : List (CResult ι ρ)) (zs : List ι) {rs : List (CResult ι ρ)}
    (h : Fci.fciLoop g x y as zs = .ok rs) : ∀ r ∈ rs, r.action.isRestore = false := by
  induction zs generalizing rs with
  | nil =>
    unfold Fci.fciLoop at h
    injection h with h
    subst h
    exact fun r hr => absurd hr List.not_mem_nil
  | cons z zs ih =>
    unfold Fci.fciLoop at h
    split at h
    · cases h
    split at h
    · cases h
    split at h
    · cases h
    rename_i rest hrest
    injection h with h
    subst h
    split
    · exact ih hrest
    · intro r hr
      simp only [List.mem_cons] at hr
      rcases hr with rfl | rfl | hr
      · rfl
      · rfl
      · exact ih hrest r hr

theorem fci_plain {o : Ord ι ρ} (ho : OrdOk o) : Plain (Fci.fciStep o) := by
  refine rule_plain _ (fun d g c h => ?_) (fun c g rs hp => ?_)
  · unfold Fci.fciProcess
    simp only [h.nodes, h.undirectedEdgeExists, h.commonKeys, fciLoop_seen h, ho d g _ _ h,
      h.records _ _ .removeEdgeUndirected rfl]
  · unfold Fci.fciProcess at hp
    repeat' split at hp
    all_goals first | cases hp; done | skip
    rename_i rs' hl
    injection hp with hp
    injection hp with hp
    subst hp
    exact fciLoop_noRestore g _ _ _ _ hl

theorem sampled_plain (T : Tests ι ρ) (cfg : NbCfg ι) (keep : Nat → List (Yield ι) → List (Yield ι)) : Plain (sampledStep T cfg keep) where
  gen d g h := by
    show sampleGen keep (pairsWithNeighbours cfg) d = sampleGen keep (pairsWithNeighbours cfg) g
    unfold sampleGen
    rw [nbGen_seen cfg h]
  thunk g ts hg t ht d g' h := by
    change sampleGen keep (pairsWithNeighbours cfg) g = _ at hg
    unfold sampleGen at hg
    split at hg
    · cases hg
    · rename_i ts' hts
      injection hg with hg
      subst hg
      obtain ⟨i, hi, rfl⟩ := List.mem_mapIdx.1 ht
      show keep i (ts'[i] d) = keep i (ts'[i] g')
      rw [nbGen_thunk cfg hts (List.getElem_mem _) d g' h]
  process := (matrix_plain T cfg).process
  noRestore := (matrix_plain T cfg).noRestore

theorem exitOnNoActions_ok : ExitOk (exitOnNoActions : Graph ι δ → _ → _ → _) := fun _ _ _ _ _ => rfl

/-! ## the steps that write into stored dictionaries -/

/-- metadata without the correlation -/
def noCorr (m : Info ι ρ) : Option ρ × Option (List ι) × Bool := (m.effect, m.sep, m.mark)
/-- metadata without the direct effect -/
def noEffect (m : Info ι ρ) : Option ρ × Option (List ι) × Bool := (m.corr, m.sep, m.mark)

theorem edgeValue_some {g : Graph ι δ} {u v : ι} {m : δ} (h : g.edgeValue u v = .ok (some m)) :
    g.edgeExists u v = true ∧ ∃ e, g.edges.get2 u v = some e ∧ e.metadata = m := by
  unfold Graph.edgeValue at h
  split at h
  · cases h
  · rename_i hx
    cases hg : g.edges.get2 u v with
    | none => rw [hg] at h; cases h
    | some e =>
      rw [hg] at h
      injection h with h
      injection h with h
      exact ⟨by simpa using hx, e, rfl, h⟩

theorem pearson_writes (T : Tests ι ρ) : WritesKey noCorr (pearsonStep T) where
  unchunked := rfl
  notSync := rfl
  noPending := rfl
  gen _ _ h := allGen_seen _ h
  thunk _ _ hg _ ht d g' _ := allGen_thunk _ hg ht d g'
  process d g c loc h := by
    show pearsonProcess T c d = pearsonProcess T c g
    unfold pearsonProcess
    split
    · rename_i x y _
      rw [h.nodes]
      split
      · rfl
      · split
        · rfl
        · have he := h.edgeValue x y
          rcases hd : d.edgeValue x y with e | _ | m <;> rcases hg : g.edgeValue x y with e' | _ | m' <;>
            rw [hd, hg] at he <;> simp only [Except.map, Option.map_none, Option.map_some, Except.error.injEq,
              Except.ok.injEq, reduceCtorEq, Option.some.injEq] at he ⊢
          · exact he
          · unfold noCorr at he
            simp only [Prod.mk.injEq] at he
            simp [he.1, he.2.1, he.2.2]
    · rfl
  updates c g ts loc rs _ _ hp r hr := by
    change pearsonProcess T c g = _ at hp
    unfold pearsonProcess at hp
    repeat' split at hp
    all_goals first | cases hp; done | skip
    rename_i m hm
    obtain ⟨h1, e, h2, h3⟩ := edgeValue_some hm
    injection hp with hp
    injection hp with hp
    subst hp
    rw [List.mem_singleton.1 hr]
    exact ⟨_, e, rfl, h2, by rw [h3]; rfl, .inl ⟨rfl, h1⟩⟩

theorem effect_gen_live (D : Source ι ρ) {c : List ι} {g : CGraph ι ρ} {ts : List (CGraph ι ρ → List (Yield ι))}
    (hg : (effectStep D).gen g = .ok ts) (hc : Yield.single c ∈ Graph.forceOn g ts) :
    ∃ x y, c = [x, y] ∧ g.directedEdgeExists x y = true := by
  simp only [effectStep, Graph.pairsWithEdges, Bool.false_eq_true, if_false] at hg
  injection hg with hg
  subst hg
  obtain ⟨t, ht, hc⟩ := List.mem_flatMap.1 hc
  simp only [List.map_map, List.mem_map] at ht
  obtain ⟨p, hp, rfl⟩ := ht
  unfold Graph.liveEdgeList at hp
  simp only [List.mem_flatMap, List.mem_map, List.mem_filter] at hp
  obtain ⟨f, _, t, ⟨_, ht⟩, rfl⟩ := hp
  simp only [Function.comp_apply, List.mem_singleton, Yield.single.injEq] at hc
  exact ⟨f, t, hc, ht⟩

theorem effect_writes (D : Source ι ρ) : WritesKey noEffect (effectStep D) where
  unchunked := rfl
  notSync := rfl
  noPending := rfl
  gen d g h := by
    simp only [effectStep, Graph.pairsWithEdges, Graph.liveEdgeList]
    rw [h.keys]
    have : d.edges.keys2 = g.edges.keys2 := funext h.keys2
    simp only [this, h.directedEdgeExists]
  thunk g ts hg t ht d g' _ := by
    simp only [effectStep] at hg
    split at hg
    · cases hg
    · injection hg with hg
      subst hg
      obtain ⟨y, _, rfl⟩ := List.mem_map.1 ht
      rfl
  process d g c loc h := by
    show effectProcess D c d = effectProcess D c g
    unfold effectProcess
    split
    · rename_i x y _
      rw [h.nodes, h.undirectedEdgeExists, h.parentsOfNode]
      have he := h.edgeValue x y
      rcases hd : d.edgeValue x y with e | _ | m <;> rcases hg : g.edgeValue x y with e' | _ | m' <;>
        rw [hd, hg] at he <;> simp only [Except.map, Option.map_none, Option.map_some, Except.error.injEq,
          Except.ok.injEq, reduceCtorEq, Option.some.injEq] at he ⊢
      · rw [he]
      · unfold noEffect at he
        simp only [Prod.mk.injEq] at he
        simp only [he.1, he.2.1, he.2.2]
    · rfl
  updates c g ts loc rs hg hc hp r hr := by
    obtain ⟨x, y, rfl, hl⟩ := effect_gen_live D hg hc
    change effectProcess D [x, y] g = _ at hp
    unfold effectProcess at hp
    simp only at hp
    split at hp
    · cases hp
    split at hp
    · cases hp
    split at hp
    · split at hp <;> cases hp
    rename_i hu
    cases hm : g.edgeValue x y with
    | error e => rw [hm] at hp; cases hp
    | ok o =>
      rw [hm] at hp
      simp only at hp
      split at hp
      · cases hp
      split at hp
      · cases hp
      cases o with
      | none => cases hp
      | some m =>
        obtain ⟨_, e, h2, h3⟩ := edgeValue_some hm
        injection hp with hp
        injection hp with hp
        subst hp
        rw [List.mem_singleton.1 hr]
        refine ⟨_, e, rfl, h2, by rw [h3]; rfl, .inr ⟨rfl, hl, ?_⟩⟩
        unfold Graph.undirectedEdgeExists at hu
        rw [hl] at hu
        simpa using hu

/-! ## the shipped algorithms -/

omit [DecidableEq ι] in
theorem forget_quiet (p : PStep ι δ) : (quiet p).forget = p := by
  cases p <;> simp [quiet, HPStep.forget, List.map_map, Function.comp_def]

theorem forget_shared (T : Tests ι ρ) (ps : List (PStep ι (Info ι ρ))) (D : Source ι ρ) :
    (shared T ps D).map HPStep.forget = [.plain (pearsonStep T)] ++ ps ++ [.plain (effectStep D)] := by
  have : ∀ l : List (PStep ι (Info ι ρ)), (l.map quiet).map HPStep.forget = l := by
    intro l
    rw [List.map_map]
    conv => rhs; rw [← List.map_id l]
    exact List.map_congr_left (fun p _ => forget_quiet p)
  simp only [shared, List.map_append, this]
  rfl

theorem Middle.admissible {κ : Info ι ρ → τ} {p : PStep ι (Info ι ρ)} (h : Middle p) : Admissible κ (quiet p) := by
  cases h with
  | corr T => exact .inl ⟨rfl, corr_plain T⟩
  | triples T => exact .inl ⟨rfl, partial_plain T⟩
  | matrix T cfg => exact .inl ⟨rfl, matrix_plain T cfg⟩
  | regression T cfg => exact .inl ⟨rfl, regression_plain T cfg⟩
  | together name T cfg =>
    intro s hs
    simp only [List.map_cons, List.map_nil, List.mem_cons, List.not_mem_nil, or_false] at hs
    rcases hs with rfl | rfl | rfl
    · exact ⟨rfl, corr_plain T⟩
    · exact ⟨rfl, partial_plain T⟩
    · exact ⟨rfl, matrix_plain T cfg⟩
  | collider o ho => exact .inl ⟨rfl, collider_plain .keepFirst (by decide) ho⟩
  | rules o h1 h3 h4 =>
    refine ⟨fun s hs => ?_, exitOnNoActions_ok⟩
    simp only [Orient.rules, List.map_cons, List.map_nil, List.mem_cons, List.not_mem_nil, or_false] at hs
    rcases hs with rfl | rfl | rfl | rfl
    · exact ⟨rfl, nonCollider_plain h1⟩
    · exact ⟨rfl, triple_plain⟩
    · exact ⟨rfl, quad_plain h3⟩
    · exact ⟨rfl, furtherQuad_plain h4⟩
  | fci o ho => exact .inl ⟨rfl, fci_plain ho⟩

theorem shared_admissible (T : Tests ι ρ) {ps : List (PStep ι (Info ι ρ))} (h : ∀ p ∈ ps, Middle p) (D : Source ι ρ) :
    ∀ p ∈ shared T ps D, Admissible (neither : Info ι ρ → _) p := by
  intro p hp
  simp only [shared, List.mem_append, List.mem_singleton, List.mem_map] at hp
  rcases hp with (rfl | ⟨q, hq, rfl⟩) | rfl
  · refine .inr ⟨rfl, _, _, pearson_writes T, fun a b hab => ?_⟩
    simp only [noCorr, Prod.mk.injEq] at hab
    simp only [neither, hab.2.1, hab.2.2]
  · exact (h q hq).admissible
  · refine .inr ⟨rfl, _, _, effect_writes D, fun a b hab => ?_⟩
    simp only [noEffect, Prod.mk.injEq] at hab
    simp only [neither, hab.2.1, hab.2.2]

end Heap
end Verif
