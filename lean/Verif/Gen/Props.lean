import Verif.Gen.Lemmas
import Verif.Action.Props

/-!
# Properties C29–C32: generators
-/

namespace Verif
open Graph
variable {ι δ : Type} [DecidableEq ι]

/-! ## C29 -/

omit [DecidableEq ι] in
/-- C29: the yielded combinations are exactly the sub-sequences of the node list whose size is allowed, each once. -/
theorem C29_all_combinations_exact (s : Settings) (nodes : List ι) (hn : nodes.Nodup) (out : List (List ι))
    (h : allCombinations s nodes = .ok out) :
    out.Nodup ∧ ∀ c, c ∈ out ↔ c.Sublist nodes ∧ s.min ≤ c.length ∧ (s.max = 0 ∨ (c.length : Int) ≤ s.max) := by
  unfold allCombinations at h
  have hb := fun m => s.bounds_iff nodes.length m
  cases hx : s.bounds nodes.length with
  | none =>
    rw [hx] at h hb
    simp only [Except.ok.injEq] at h
    subst h
    refine ⟨List.nodup_nil, fun c => ?_⟩
    constructor
    · intro hc; cases hc
    · rintro ⟨h1, h2⟩
      obtain ⟨a, b, hh, _⟩ := (hb c.length).2 ⟨h1.length_le, h2⟩
      cases hh
  | some p =>
    obtain ⟨a, b⟩ := p
    rw [hx] at h hb
    simp only at h
    have hnn := combosOfSizes_nonneg _ _ _ h
    rw [combosOfSizes_ok _ _ hnn] at h
    simp only [Except.ok.injEq] at h
    subst h
    have hmem : ∀ c : List ι, c ∈ (pyRange a b).flatMap (fun k => combinations nodes k.toNat) ↔
        c.Sublist nodes ∧ a ≤ c.length ∧ (c.length : Int) < b := by
      intro c
      simp only [List.mem_flatMap, mem_combinations, mem_pyRange]
      constructor
      · rintro ⟨k, hk, h1, h2⟩
        have := hnn k ((mem_pyRange _ _ _).2 hk)
        exact ⟨h1, by omega, by omega⟩
      · rintro ⟨h1, h2, h3⟩
        exact ⟨c.length, ⟨h2, h3⟩, h1, by simp⟩
    constructor
    · rw [List.nodup_flatMap]
      refine ⟨fun k _ => nodup_combinations nodes hn _, ?_⟩
      refine (nodup_pyRange a b).imp_of_mem ?_
      intro k j hk hj hkj
      simp only [Function.onFun]
      intro c hc hc'
      have h1 := ((mem_combinations _ _ _).1 hc).2
      have h2 := ((mem_combinations _ _ _).1 hc').2
      have := hnn k hk
      have := hnn j hj
      omega
    · intro c
      rw [hmem]
      constructor
      · rintro ⟨h1, h2, h3⟩
        exact ⟨h1, ((hb c.length).1 ⟨a, b, rfl, h2, h3⟩).2⟩
      · rintro ⟨h1, h2⟩
        obtain ⟨a', b', he, h3⟩ := (hb c.length).2 ⟨h1.length_le, h2⟩
        simp only [Option.some.injEq, Prod.mk.injEq] at he
        obtain ⟨rfl, rfl⟩ := he
        exact ⟨h1, h3⟩

omit [DecidableEq ι] in
/-- C29: the generator raises only for a negative minimum (and then whenever the range of sizes is not empty). -/
theorem C29_all_combinations_raises (s : Settings) (nodes : List ι) :
    (0 ≤ s.min → ∃ out, allCombinations s nodes = .ok out) ∧
    (s.min < 0 → (s.max = 0 ∨ s.min ≤ s.max) → allCombinations s nodes = .error .valueError) := by
  unfold allCombinations
  constructor
  · intro h0
    cases hx : s.bounds nodes.length with
    | none => exact ⟨_, rfl⟩
    | some p =>
      obtain ⟨a, b⟩ := p
      obtain ⟨rfl, _⟩ := s.bounds_fst _ _ _ hx
      exact ⟨_, combosOfSizes_ok _ _ (fun k hk => by have := (mem_pyRange _ _ _).1 hk; omega)⟩
  · intro h0 hm
    have hb : ∃ b, s.bounds nodes.length = some (s.min, b) ∧ s.min < b := by
      unfold Settings.bounds
      rw [if_neg (by omega)]
      simp only
      generalize hst : (if (if s.max = 0 then (nodes.length : Int) + 1 else s.max + 1) > (nodes.length : Int) + 1 then
        (nodes.length : Int) + 1 else (if s.max = 0 then (nodes.length : Int) + 1 else s.max + 1)) = st
      have : s.min < st := by
        rw [← hst]
        split
        · omega
        · split
          · omega
          · rcases hm with hm | hm <;> omega
      rw [if_neg (by omega)]
      exact ⟨st, rfl, this⟩
    obtain ⟨b, hb, hlt⟩ := hb
    rw [hb]
    have hr : pyRange s.min b = s.min :: (List.range ((b - s.min).toNat - 1)).map (fun i : Nat => s.min + ((i + 1 : Nat) : Int)) := by
      unfold pyRange
      obtain ⟨m, hm⟩ : ∃ m, (b - s.min).toNat = m + 1 := ⟨(b - s.min).toNat - 1, by omega⟩
      rw [hm, List.range_succ_eq_map]
      simp [List.map_map, Function.comp_def]
    simp only [hr, combosOfSizes, h0, if_true]

example : allCombinations ⟨2, 0⟩ [7, 8, 9] = .ok [[7, 8], [7, 9], [8, 9], [7, 8, 9]] := by decide +kernel
example : allCombinations ⟨2, 2⟩ [7, 8, 9] = .ok [[7, 8], [7, 9], [8, 9]] := by decide +kernel
example : allCombinations ⟨-1, 2⟩ [7, 8, 9] = .error .valueError := by decide +kernel

/-! ## C30 -/

/-- C30: unchunked, every live ordered pair is yielded exactly once and nothing else. -/
theorem C30_pairs_with_edges_exact (g : Graph ι δ) (hg : Reachable g) (n : Nat) :
    ∃ ys, pairsWithEdges false n g = .ok ys ∧ (ys.flatMap Yield.combos).Nodup ∧
      ∀ c, c ∈ ys.flatMap Yield.combos ↔ ∃ a b, c = [a, b] ∧ g.directedEdgeExists a b = true := by
  have h := hg.wf
  refine ⟨_, rfl, ?_, ?_⟩
  · have : (((g.liveEdgeList.map (fun e => [e.1, e.2])).map Yield.single).flatMap Yield.combos)
        = g.liveEdgeList.map (fun e => [e.1, e.2]) := by
      rw [List.flatMap_map]
      induction g.liveEdgeList.map (fun e => [e.1, e.2]) with
      | nil => rfl
      | cons a l ih => rw [List.flatMap_cons, ih]; rfl
    rw [this]
    refine (nodup_liveEdgeList g).map ?_
    rintro ⟨a, b⟩ ⟨a', b'⟩ he
    simpa using he
  · intro c
    simp only [List.mem_flatMap, List.mem_map, directedEdgeExists_eq h]
    constructor
    · rintro ⟨y, ⟨d, ⟨⟨a, b⟩, he, rfl⟩, rfl⟩, hc⟩
      simp only [Yield.combos, List.mem_singleton] at hc
      exact ⟨a, b, hc, (mem_liveEdgeList h a b).1 he⟩
    · rintro ⟨a, b, rfl, hl⟩
      exact ⟨.single [a, b], ⟨[a, b], ⟨(a, b), (mem_liveEdgeList h a b).2 hl, rfl⟩, rfl⟩, by simp [Yield.combos]⟩

/-- C30, chunked mode: every live ordered pair is handed out exactly twice, first in a chunk, then alone. -/
theorem C30_chunked_yields_twice (g : Graph ι δ) (hg : Reachable g) (n : Nat) (hn : 0 < n) (a b : ι)
    (hl : g.directedEdgeExists a b = true) :
    ∃ ys, pairsWithEdges true n g = .ok ys ∧ (ys.flatMap Yield.combos).count [a, b] = 2 ∧ Yield.single [a, b] ∈ ys := by
  have h := hg.wf
  rw [directedEdgeExists_eq h] at hl
  unfold pairsWithEdges
  simp only [if_true]
  rw [if_neg (by omega)]
  refine ⟨_, rfl, ?_, ?_⟩
  · rw [List.flatMap_append, List.flatMap_map, List.flatMap_map]
    have h1 : ((slices n (g.liveEdgeList.map (fun e => [e.1, e.2])).length (g.liveEdgeList.map (fun e => [e.1, e.2]))).flatMap
        (fun a => (Yield.chunk a).combos)) = g.liveEdgeList.map (fun e => [e.1, e.2]) := by
      have := flatten_slices n hn _ (g.liveEdgeList.map (fun e => [e.1, e.2])) (Nat.le_refl _)
      rw [← List.flatMap_id] at this
      exact this
    have h2 : (g.liveEdgeList.map (fun e => [e.1, e.2])).flatMap (fun a => (Yield.single a).combos)
        = g.liveEdgeList.map (fun e => [e.1, e.2]) := by
      induction g.liveEdgeList.map (fun e => [e.1, e.2]) with
      | nil => rfl
      | cons a l ih => rw [List.flatMap_cons, ih]; rfl
    rw [h1, h2, List.count_append]
    have : (g.liveEdgeList.map (fun e => [e.1, e.2])).count [a, b] = 1 := by
      apply List.count_eq_one_of_mem
      · refine (nodup_liveEdgeList g).map ?_
        rintro ⟨a, b⟩ ⟨a', b'⟩ he
        simpa using he
      · exact List.mem_map.2 ⟨(a, b), (mem_liveEdgeList h a b).2 hl, rfl⟩
    omega
  · refine List.mem_append_right _ (List.mem_map.2 ⟨[a, b], List.mem_map.2 ⟨(a, b), (mem_liveEdgeList h a b).2 hl, rfl⟩, rfl⟩)

example : pairsWithEdges true 4 exK3 = .ok [.chunk [[0, 1], [0, 2], [1, 0], [1, 2]], .chunk [[2, 0], [2, 1]],
    .single [0, 1], .single [0, 2], .single [1, 0], .single [1, 2], .single [2, 0], .single [2, 1]] := by decide +kernel

/-! ## C31 -/

/-- `S` is an admissible conditioning set for the ordered pair `(x, y)`: nodes other than `y` with a live edge
to `x` and an entry in `x`'s row, of an allowed size. -/
structure Admissible (g : Graph ι δ) (s : Settings) (x y : ι) (S : List ι) : Prop where
  edge : g.directedEdgeExists x y = true
  nodup : S.Nodup
  notY : y ∉ S
  nb : ∀ z ∈ S, g.directedEdgeExists z x = true ∧ ∃ e, g.getEdge x z = .ok e
  lower : s.min ≤ S.length + 2
  upper : s.max = 0 ∨ (S.length : Int) + 2 ≤ s.max

/-- C31: on a fixed graph, everything offered is a live edge with an admissible conditioning set, and every
admissible conditioning set (as a set) is offered exactly once for each live edge, whatever the set and shuffle
orders are. -/
theorem C31_neighbours_exact (g : Graph ι δ) (hg : Reachable g) (cfg : NbCfg ι) (hv : cfg.Valid)
    (ts : List (Graph ι δ → List (Yield ι))) (hts : pairsWithNeighbours cfg g = .ok ts) :
    (∀ c ∈ (forceOn g ts).flatMap Yield.combos, ∃ x y S, c = x :: y :: S ∧ Admissible g cfg.settings x y S) ∧
    (∀ x y S, Admissible g cfg.settings x y S →
      ((forceOn g ts).flatMap Yield.combos).countP (fun c => c.take 2 == [x, y] && (c.drop 2).isPerm S) = 1) := by
  have h := hg.wf
  have hge : ∀ x z, (∃ e, g.getEdge x z = .ok e) ↔ z ∈ g.edges.keys2 x := by
    intro x z
    rw [mem_keys2_iff]
    simp only [getEdge_eq]
    cases g.edges.get2 x z <;> simp
  unfold pairsWithNeighbours at hts
  have hb := fun m => cfg.settings.bounds_iff g.nodes.length m
  cases hx : cfg.settings.bounds g.nodes.length with
  | none =>
    rw [hx] at hts hb
    simp only [Except.ok.injEq] at hts
    subst hts
    refine ⟨by simp [forceOn], ?_⟩
    intro x y S hA
    exfalso
    have hlen : S.length + 2 ≤ g.nodes.length := by
      have hnd : (x :: y :: S).Nodup := by
        have hxy := h.live_ne ((directedEdgeExists_eq h x y) ▸ hA.edge)
        simp only [List.nodup_cons, List.mem_cons, not_or]
        refine ⟨⟨hxy, fun hx => ?_⟩, hA.notY, hA.nodup⟩
        exact h.live_ne ((directedEdgeExists_eq h x x) ▸ (hA.nb x hx).1) rfl
      have hsub : ∀ z ∈ x :: y :: S, z ∈ g.nodes := by
        intro z hz
        have hxy := h.live_nodes ((directedEdgeExists_eq h x y) ▸ hA.edge)
        rcases List.mem_cons.1 hz with rfl | hz
        · exact hxy.1
        · rcases List.mem_cons.1 hz with rfl | hz
          · exact hxy.2
          · exact (h.live_nodes ((directedEdgeExists_eq h z x) ▸ (hA.nb z hz).1)).1
      exact (hnd.subperm hsub).length_le
    obtain ⟨a, b, hh, _⟩ := (hb (S.length + 2)).2 ⟨hlen, by have := hA.lower; push_cast; exact this,
      by have := hA.upper; push_cast; exact this⟩
    cases hh
  | some p =>
    obtain ⟨a, b⟩ := p
    rw [hx] at hts hb
    simp only at hts
    by_cases h2 : a < 2
    · rw [if_pos h2] at hts; cases hts
    · rw [if_neg h2] at hts
      simp only [Except.ok.injEq] at hts
      subst hts
      have hflat : (forceOn g ((g.nbPositions a b).map (fun p => nbBody cfg p.1 p.2.1 p.2.2))).flatMap Yield.combos =
          (g.nbPositions a b).flatMap (fun p => (nbBody cfg p.1 p.2.1 p.2.2 g).flatMap Yield.combos) := by
        unfold forceOn
        rw [List.flatMap_map, List.flatMap_assoc]
      rw [hflat]
      have hcontent : ∀ k x y, 2 ≤ k → ∀ c, c ∈ (nbBody cfg k x y g).flatMap Yield.combos ↔
          g.directedEdgeExists x y = true ∧ ∃ S, c = x :: y :: S ∧ S.Sublist (others cfg k x y g) ∧ S.length = k - 2 := by
        intro k x y hk c
        rw [(nbBody_combos hv k hk x y g).mem_iff]
        cases hd : g.directedEdgeExists x y
        · simp
        · simp only [if_true, List.mem_map, mem_combinations, true_and]
          constructor
          · rintro ⟨S, hS, rfl⟩; exact ⟨S, rfl, hS⟩
          · rintro ⟨S, rfl, hS⟩; exact ⟨S, hS, rfl⟩
      constructor
      · intro c hc
        obtain ⟨⟨k, x, y⟩, hp, hc⟩ := List.mem_flatMap.1 hc
        rw [mem_nbPositions g a b k (by omega)] at hp
        simp only at hc
        obtain ⟨hd, S, rfl, hS, hlen⟩ := (hcontent k x y (by omega) c).1 hc
        have hk := (hb k).1 ⟨a, b, rfl, hp.1, hp.2.1⟩
        have hSl : (S.length : Int) + 2 = k := by omega
        refine ⟨x, y, S, rfl, ⟨hd, hS.nodup (nodup_others hv k x y), ?_, ?_, ?_, ?_⟩⟩
        · intro hy
          exact ((mem_others h hv k x y y).1 (hS.subset hy)).2.2 rfl
        · intro z hz
          have := (mem_others h hv k x y z).1 (hS.subset hz)
          exact ⟨by rw [directedEdgeExists_eq h]; exact this.1, (hge x z).2 this.2.1⟩
        · rw [hSl]; exact hk.2.1
        · rw [hSl]; exact hk.2.2
      · intro x y S hA
        have hxyl : g.live x y = true := (directedEdgeExists_eq h x y) ▸ hA.edge
        have hlen : S.length + 2 ≤ g.nodes.length := by
          have hnd : (x :: y :: S).Nodup := by
            simp only [List.nodup_cons, List.mem_cons, not_or]
            refine ⟨⟨h.live_ne hxyl, fun hx => ?_⟩, hA.notY, hA.nodup⟩
            exact h.live_ne ((directedEdgeExists_eq h x x) ▸ (hA.nb x hx).1) rfl
          have hsub : ∀ z ∈ x :: y :: S, z ∈ g.nodes := by
            intro z hz
            have hxy := h.live_nodes hxyl
            rcases List.mem_cons.1 hz with rfl | hz
            · exact hxy.1
            · rcases List.mem_cons.1 hz with rfl | hz
              · exact hxy.2
              · exact (h.live_nodes ((directedEdgeExists_eq h z x) ▸ (hA.nb z hz).1)).1
          exact (hnd.subperm hsub).length_le
        obtain ⟨a', b', he, h3, h4⟩ := (hb (S.length + 2)).2
          ⟨hlen, by have := hA.lower; push_cast; exact this, by have := hA.upper; push_cast; exact this⟩
        simp only [Option.some.injEq, Prod.mk.injEq] at he
        obtain ⟨rfl, rfl⟩ := he
        refine countP_flatMap_one _ (nodup_nbPositions g a b (by omega)) _ _ (S.length + 2, x, y) ?_ ?_ ?_
        · rw [mem_nbPositions g a b _ (by omega)]
          obtain ⟨e, he, _⟩ := live_iff.1 hxyl
          exact ⟨h3, h4, (mem_keys2_iff x y).2 ⟨e, he⟩⟩
        · simp only
          rw [(nbBody_combos hv (S.length + 2) (by omega) x y g).countP_eq, hA.edge]
          simp only [if_true, List.countP_map, Nat.add_sub_cancel]
          have hc := countP_combinations (others cfg (S.length + 2) x y g) (nodup_others hv _ x y) S hA.nodup (by
            intro z hz
            rw [mem_others h hv]
            refine ⟨(directedEdgeExists_eq h z x) ▸ (hA.nb z hz).1, (hge x z).1 (hA.nb z hz).2, ?_⟩
            rintro rfl; exact hA.notY hz)
          rw [← hc]
          congr 1
          funext T
          simp
        · rintro ⟨k, x', y'⟩ hp hne
          rw [mem_nbPositions g a b k (by omega)] at hp
          rw [List.countP_eq_zero]
          intro c hc
          simp only at hc
          obtain ⟨_, T, rfl, _, hT⟩ := (hcontent k x' y' (by omega) c).1 hc
          simp only [List.take_succ_cons, List.take_zero, List.drop_succ_cons, List.drop_zero, Bool.and_eq_true,
            beq_iff_eq, List.cons.injEq, and_true, List.isPerm_iff, not_and]
          rintro ⟨rfl, rfl⟩ hperm
          apply hne
          have := hperm.length_eq
          have hk : k = S.length + 2 := by omega
          rw [hk]

/-- C31: with a minimum of at least 2 the generator never raises; with a smaller one it raises ValueError as soon
as there is a size to enumerate. -/
theorem C31_neighbours_raises (g : Graph ι δ) (cfg : NbCfg ι) :
    (2 ≤ cfg.settings.min → ∃ ts, pairsWithNeighbours cfg g = .ok ts) ∧
    (cfg.settings.min < 2 → (∃ m : Nat, m ≤ g.nodes.length ∧ cfg.settings.min ≤ m ∧
        (cfg.settings.max = 0 ∨ (m : Int) ≤ cfg.settings.max)) →
      (match pairsWithNeighbours cfg g with | .error e => e = .valueError | .ok _ => False)) := by
  unfold pairsWithNeighbours
  constructor
  · intro h2
    cases hx : cfg.settings.bounds g.nodes.length with
    | none => exact ⟨_, rfl⟩
    | some p =>
      obtain ⟨a, b⟩ := p
      obtain ⟨rfl, _⟩ := cfg.settings.bounds_fst _ _ _ hx
      simp only
      rw [if_neg (by omega)]
      exact ⟨_, rfl⟩
  · rintro h2 ⟨m, hm⟩
    obtain ⟨a, b, hab, _⟩ := (cfg.settings.bounds_iff g.nodes.length m).2 hm
    obtain ⟨rfl, _⟩ := cfg.settings.bounds_fst _ _ _ hab
    rw [hab]
    simp only
    rw [if_pos h2]

/-- an unshuffled chunked configuration for the examples -/
def exNb (min max : Int) : NbCfg Nat := ⟨⟨min, max⟩, true, false, fun _ _ _ l => l.dedup, fun _ _ _ l => l⟩

theorem exNb_valid (min max : Int) : (exNb min max).Valid :=
  ⟨fun _ _ _ l => ⟨l.nodup_dedup, fun _ => List.mem_dedup⟩, fun _ _ _ _ => List.Perm.refl _⟩

/-- the complete graph on 0, 1, 2 with minimum 3: each ordered pair with the third node -/
example : (match pairsWithNeighbours (exNb 3 0) exK3 with
    | .ok ts => forceOn exK3 ts
    | .error _ => []) = [.chunk [[0, 1, 2]], .chunk [[0, 2, 1]], .chunk [[1, 0, 2]], .chunk [[1, 2, 0]],
      .chunk [[2, 0, 1]], .chunk [[2, 1, 0]]] := by decide +kernel

/-! ## C32 -/

/-- C32: whatever the random numbers are, the sample is a subsequence of the wrapped output; it raises only for a
negative `every_nth`. -/
theorem C32_random_sample_sublist {α : Type} (everyNth : Int) (rolls : Nat → Int) (l : List α) :
    (∀ out, randomSample everyNth rolls 0 l = .ok out → out.Sublist l) ∧
    (0 ≤ everyNth → ∃ out, randomSample everyNth rolls 0 l = .ok out) := by
  refine ⟨fun out h => randomSample_sublist _ _ _ _ _ h, fun h0 => ?_⟩
  generalize 0 = i
  induction l generalizing i with
  | nil => exact ⟨[], rfl⟩
  | cons x xs ih =>
    obtain ⟨out, ho⟩ := ih (i + 1)
    unfold randomSample
    rw [if_neg (by omega), ho]
    exact ⟨_, rfl⟩

/-- C32: with `every_nth = 0` nothing is dropped. -/
theorem C32_every_zero_keeps_all {α : Type} (rolls : Nat → Int) (hr : ∀ i, 0 ≤ rolls i ∧ rolls i ≤ 0) (l : List α) :
    randomSample 0 rolls 0 l = .ok l := by
  generalize 0 = i
  induction l generalizing i with
  | nil => rfl
  | cons x xs ih =>
    unfold randomSample
    rw [if_neg (by omega), ih (i + 1)]
    have := hr i
    simp only
    rw [if_pos (by omega)]

example : randomSample 2 (fun i => (i % 3 : Nat)) 0 [10, 11, 12, 13, 14] = .ok [10, 13] := by decide +kernel

end Verif
