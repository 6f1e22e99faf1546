import Verif.Serial.JsonLemmas
import Verif.Serial.FilesLemmas
import Verif.Serial.EdgeEq
import Verif.Serial.StepsLemmas
import Verif.Serial.HeapLemmas

/-!
# C57-C60, C71-C73: serialization
-/

namespace Verif
namespace Serial

/-! ## C57: dumping and loading steps -/

/-- C57: loading the dump of a pipeline gives the same pipeline back exactly when every field of every step is a truthy
constructor parameter or the class default, no field is a member of an enumeration, and the generators keep their settings.
Partial: the full claim, that every pipeline comes back as it was, is false (`C57_full_claim_false`). -/
theorem C57_roundtrip_partial (env : String → Option StepClass) (steps : List Step) (hw : ∀ s ∈ steps, WellFormed env s) :
    loadSteps env (dumpSteps steps) = .ok steps ↔ ∀ s ∈ steps, StepKept env s :=
  loadSteps_dump env steps hw

/-- C57: what the fields of a loaded step are.  A truthy constructor parameter keeps its value, everything else is reset to
the class default. -/
theorem C57_fields (env : String → Option StepClass) (cls : String) (c : StepClass) (values : List (String × SVal))
    (hc : env cls = some c) (hf : HasFields c values) (s : Step)
    (h : loadStep env (Step.simple cls values).dump = .ok s) :
    ∃ values', s = .simple cls values' ∧ HasFields c values' ∧
      ∀ f d v, (f, d) ∈ c → (f, v) ∈ values →
        (∀ x, v = .val x → f ∈ stepParams → x.truthy = true → (f, v) ∈ values') ∧
        ((f ∉ stepParams ∨ ∃ x, v = .val x ∧ x.truthy = false) → (f, d) ∈ values') := by
  obtain ⟨hf1, hf2⟩ := hf
  rw [Step.dump, loadStep, hc] at h
  simp only at h
  split at h
  · cases h
  · rename_i vs hvs
    split at h
    · cases h
    · rename_i vs' hck
      obtain ⟨rfl, -⟩ := (checkEnums_ok _ _).1 hck
      refine ⟨vs', (Except.ok.inj h).symm, ⟨?_, hf2⟩, ?_⟩
      · have := (initFields_ok _ _ _).1 hvs
        clear hvs hck hf1 hf2 h hc
        induction this with
        | nil => rfl
        | cons h1 _ ih => rw [List.map_cons, List.map_cons, ih, h1.1]
      · intro f d v hd hv
        have hn : (values.map Prod.fst).Nodup := hf1 ▸ hf2
        have ha := assoc_dump hn hv
        have hall := (initFields_ok _ _ _).1 hvs
        obtain ⟨w, hw1, hw2⟩ : ∃ w, (f, w) ∈ vs' ∧
            initField (values.map (fun p => (p.1, p.2.dump))) f d = .ok w := by
          clear hvs hck hf1 hf2 h hc
          induction hall with
          | nil => cases hd
          | @cons p q l l' h1 _ ih =>
            rcases List.mem_cons.1 hd with e | hd
            · subst e
              exact ⟨q.2, by rw [show f = q.1 from h1.1]; simp, h1.2⟩
            · obtain ⟨w, a, b⟩ := ih hd
              exact ⟨w, by simp [a], b⟩
        rw [initField_eq _ f d v ha] at hw2
        constructor
        · rintro x rfl hp ht
          rw [if_pos ⟨hp, ht⟩] at hw2
          obtain rfl := Except.ok.inj hw2
          exact hw1
        · intro hh
          have : ¬ (f ∈ stepParams ∧ v.true') := by
            rintro ⟨a, b⟩
            rcases hh with h1 | ⟨x, rfl, hx⟩
            · exact h1 a
            · have : x.truthy = true := b
              rw [hx] at this
              cases this
          rw [if_neg this] at hw2
          obtain rfl := Except.ok.inj hw2
          exact hw1

/-- C57: what the fields of a loaded generator are.  Sizes and sampling rate are kept; a `chunked` or `shuffle_combinations`
that is `None` becomes the default of its class; the chunk size is always reset to 100. -/
theorem C57_generator_fields (c : GenClass) (a : GenAttrs) (g : Gen) (h : loadGen (Gen.leaf c a).dump = .ok g) :
    ∃ c' a', g = .leaf c' a' ∧ a'.settings = a.settings ∧ a'.everyNth = a.everyNth ∧
      (a.chunked ≠ .none → a'.chunked = a.chunked) ∧ (a.shuffle ≠ .none → a'.shuffle = a.shuffle) ∧
      (c = .allCombinations → c' = .allCombinations ∧
        (a.chunked = .none → a'.chunked = .bool false) ∧ (a.shuffle = .none → a'.shuffle = .none)) ∧
      ((∃ k, c = .pairsWithEdges k) → c' = .pairsWithEdges (.int 100) ∧
        (a.chunked = .none → a'.chunked = .none) ∧ (a.shuffle = .none → a'.shuffle = .none)) ∧
      (c = .pairsWithNeighbours → c' = .pairsWithNeighbours ∧
        (a.chunked = .none → a'.chunked = .bool true) ∧ (a.shuffle = .none → a'.shuffle = .bool true)) ∧
      c ≠ .randomSample := by
  cases c <;> simp only [Gen.dump, GenClass.tag, loadGen, Except.ok.injEq, reduceCtorEq] at h
  all_goals
    subst h
    refine ⟨_, _, rfl, rfl, rfl, ?_⟩
    simp only [initAttrs, PVal.orDefault, GenTag.chunkedDefault, GenTag.shuffleDefault, GenTag.fresh]
    refine ⟨fun h => if_neg h, fun h => if_neg h, ?_⟩
    simp +contextual

/-- a `PairsWithNeighboursGenerator` without settings for chunks -/
example : loadGen (Gen.leaf .pairsWithNeighbours ⟨some (.int 3, .int 4), .none, .none, .none⟩).dump =
    .ok (.leaf .pairsWithNeighbours ⟨some (.int 3, .int 4), .bool true, .none, .bool true⟩) := rfl

/-- two of the classes of /repo: `CalculatePearsonCorrelations` (calculation.py:15-22) and `ColliderTest`
(orientation_rules/pc.py:78-92), with fields in the order of `PipelineStepInterface` (interfaces.py:343-359) -/
def exampleEnv : String → Option StepClass := fun n =>
  let gen := SVal.gen (.leaf .allCombinations ⟨some (.int 2, .int 2), .bool false, .none, .none⟩)
  if n = "CalculatePearsonCorrelations" then
    some [("generator", gen), ("threshold", .val (.float 1 100)), ("chunk_size_parallel_processing", .val (.int 1)),
      ("parallel", .val (.bool false)), ("display_name", .val .none), ("needs_unapplied_actions", .val (.bool false)),
      ("apply_synchronous", .val (.bool false))]
  else if n = "ColliderTest" then
    some [("generator", gen), ("threshold", .val (.float 1 100)), ("chunk_size_parallel_processing", .val (.int 1)),
      ("parallel", .val (.bool false)), ("display_name", .val .none), ("needs_unapplied_actions", .val (.bool true)),
      ("apply_synchronous", .val (.bool false)), ("conflict_resolution_strategy", .val (.enum "KEEP_FIRST"))]
  else none

/-- a `CalculatePearsonCorrelations` step with the given threshold and display name -/
def examplePearson (threshold name : PVal) : Step :=
  .simple "CalculatePearsonCorrelations"
    [("generator", .gen (.leaf .allCombinations ⟨some (.int 2, .int 2), .bool false, .none, .none⟩)),
      ("threshold", .val threshold), ("chunk_size_parallel_processing", .val (.int 1)),
      ("parallel", .val (.bool false)), ("display_name", .val name), ("needs_unapplied_actions", .val (.bool false)),
      ("apply_synchronous", .val (.bool false))]

/-- C57: the full claim is false.  A step with threshold 0 comes back with threshold 0.01. -/
theorem C57_full_claim_false : ∃ (env : String → Option StepClass) (s t : Step), WellFormed env s ∧
    loadStep env s.dump = .ok t ∧ t ≠ s :=
  ⟨exampleEnv, examplePearson (.float 0 1) (.str "corr"), examplePearson (.float 1 100) (.str "corr"),
    .simple rfl ⟨by decide, by decide⟩, by rfl, by
      unfold examplePearson
      intro h
      exact absurd (Step.simple.inj h).2 (by decide)⟩

/-- C57: no `ColliderTest` step can be loaded from its dump, whatever its settings: the default of
`conflict_resolution_strategy` is a member of an enumeration. -/
theorem C57_collider_test_never_loads (values : List (String × SVal)) :
    ∃ e, loadStep exampleEnv (Step.simple "ColliderTest" values).dump = .error e := by
  rw [Step.dump, loadStep]
  have hc : exampleEnv "ColliderTest" = some
      [("generator", .gen (.leaf .allCombinations ⟨some (.int 2, .int 2), .bool false, .none, .none⟩)),
      ("threshold", .val (.float 1 100)), ("chunk_size_parallel_processing", .val (.int 1)),
      ("parallel", .val (.bool false)), ("display_name", .val .none), ("needs_unapplied_actions", .val (.bool true)),
      ("apply_synchronous", .val (.bool false)), ("conflict_resolution_strategy", .val (.enum "KEEP_FIRST"))] := rfl
  rw [hc]
  simp only
  split
  · exact ⟨_, rfl⟩
  · rename_i vs hvs
    split
    · exact ⟨_, rfl⟩
    · rename_i vs' hck
      exfalso
      obtain ⟨rfl, hne⟩ := (checkEnums_ok _ _).1 hck
      have hall := (initFields_ok _ _ _).1 hvs
      have : ∃ q ∈ vs', initField (values.map (fun p => (p.1, p.2.dump))) "conflict_resolution_strategy"
          (.val (.enum "KEEP_FIRST")) = .ok q.2 := by
        clear hvs hck hne hc
        generalize hcl : ([("generator", _), _, _, _, _, _, _, _] : StepClass) = c at hall
        have hm : ("conflict_resolution_strategy", SVal.val (.enum "KEEP_FIRST")) ∈ c := by rw [← hcl]; simp
        clear hcl
        induction hall with
        | nil => cases hm
        | @cons p q l l' h1 _ ih =>
          rcases List.mem_cons.1 hm with e | hm
          · subst e
            exact ⟨q, by simp, h1.2⟩
          · obtain ⟨q', a, b⟩ := ih hm
            exact ⟨q', by simp [a], b⟩
      obtain ⟨q, hq, hi⟩ := this
      unfold initField at hi
      rw [if_neg (by decide)] at hi
      exact hne q hq "KEEP_FIRST" (Except.ok.inj hi).symm

/-- a pipeline that survives: a loop around a renamed step with another threshold -/
example : loadSteps exampleEnv (dumpSteps [.logic "Loop" [examplePearson (.float 1 20) (.str "corr")] (some "ExitOnNoActions")
    (.str "loop")]) = .ok [.logic "Loop" [examplePearson (.float 1 20) (.str "corr")] (some "ExitOnNoActions") (.str "loop")] :=
  rfl

/-- the hypotheses of `C57_roundtrip_partial` and `StepKept` hold of it -/
example : WellFormed exampleEnv (examplePearson (.float 1 20) (.str "corr")) ∧
    StepKept exampleEnv (examplePearson (.float 1 20) (.str "corr")) := by
  have hw : WellFormed exampleEnv (examplePearson (.float 1 20) (.str "corr")) := .simple rfl ⟨by decide, by decide⟩
  exact ⟨hw, (loadStep_dump _ _ hw).1 rfl⟩

/-- a generator whose chunk size is lost -/
example : loadGen (Gen.leaf (.pairsWithEdges (.int 7)) ⟨none, .bool true, .none, .none⟩).dump =
    .ok (.leaf (.pairsWithEdges (.int 100)) ⟨none, .bool true, .none, .none⟩) := rfl

/-! ## C58: file references -/

/-- C58: a file reference is opened exactly if the working directory is a prefix of the resolved path as a string, which means:
the path is below the working directory, or it is in a sibling whose name extends the name of the working directory.
`real` is any resolution of references, so symbolic links are covered.  Partial: the second alternative should not be there
(`C58_full_claim_false`). -/
theorem C58_opened_partial (real : List Char → List (List Char)) (cwd : List (List Char)) (reference : List Char)
    (hd : Proper cwd) (hp : Proper (real reference)) :
    (openedFile real cwd reference = .ok (real reference) ∧
        (Below cwd (real reference) ∨ InLongerSibling cwd (real reference))) ∨
      (openedFile real cwd reference = .error .valueError ∧
        ¬ Below cwd (real reference) ∧ ¬ InLongerSibling cwd (real reference)) := by
  unfold openedFile
  by_cases h : pathText cwd <+: pathText (real reference)
  · left
    rw [if_neg (not_not.2 ((commonPrefix_eq_left _ _).2 h))]
    exact ⟨rfl, (pathText_prefix hd hp).1 h⟩
  · right
    rw [if_pos (fun e => h ((commonPrefix_eq_left _ _).1 e))]
    exact ⟨rfl, fun h' => h ((pathText_prefix hd hp).2 (Or.inl h')), fun h' => h ((pathText_prefix hd hp).2 (Or.inr h'))⟩

/-- C58: everything below the working directory can be opened. -/
theorem C58_inside_opened (real : List Char → List (List Char)) (cwd : List (List Char)) (reference : List Char)
    (hd : Proper cwd) (hp : Proper (real reference)) (h : Below cwd (real reference)) :
    openedFile real cwd reference = .ok (real reference) := by
  rcases C58_opened_partial real cwd reference hd hp with h1 | h1
  · exact h1.1
  · exact absurd h h1.2.1

/-- C58: the full claim, that only paths below the working directory are opened, is false: `../bc/x` in the directory `/a/b`. -/
theorem C58_full_claim_false : ∃ (cwd : List (List Char)) (reference : List Char) (p : List (List Char)),
    Proper cwd ∧ openedFile (resolve cwd) cwd reference = .ok p ∧ ¬ Below cwd p := by
  refine ⟨["a".toList, "b".toList], "../bc/x".toList, ["a".toList, "bc".toList, "x".toList], ?_, by decide +kernel, ?_⟩
  · unfold Proper; decide
  · rintro ⟨r, h⟩
    cases h

/-- a reference below the working directory, one outside -/
example : openedFile (resolve ["a".toList, "b".toList]) ["a".toList, "b".toList] "sub/../pc.json".toList =
      .ok ["a".toList, "b".toList, "pc.json".toList] ∧
    openedFile (resolve ["a".toList, "b".toList]) ["a".toList, "b".toList] "../../etc/x".toList = .error .valueError := by
  decide +kernel

/-! ## C59: hashes of dictionaries -/

/-- C59: the hashed text does not depend on the order of the keys, at any nesting level. -/
theorem C59_order_independent {H : Type} (sha : List Char → H) {a b : Json} (h : Reorder a b) (hv : Valid a) :
    hashDictionary sha a = hashDictionary sha b := by
  unfold hashDictionary
  rw [dumps_reorder h hv]

/-- C59: the hashed text determines the dictionary up to the order of the keys: if the digest has no collision, equal hashes
mean equal content. -/
theorem C59_injective {H : Type} (sha : List Char → H) (hs : Function.Injective sha) {a b : Json} (ha : Valid a) (hb : Valid b)
    (h : hashDictionary sha a = hashDictionary sha b) : Reorder a b :=
  (dumps_inj_tail ha b hb [] [] (Or.inl rfl) (Or.inl rfl) (by rw [List.append_nil, List.append_nil]; exact hs h)).1

/-- the text of a small nested dictionary, with keys out of order and an escape -/
example : dumps (.obj [("b", .arr [.num "1".toList, .null]), ("a", .obj [("y", .str "q\"\n"), ("x", .bool true)])]) =
    "{\"a\":{\"x\":true,\"y\":\"q\\\"\\n\"},\"b\":[1,null]}".toList := by decide +kernel

/-- two dictionaries that are reorderings of each other, at two levels -/
example : Valid (.obj [("b", .null), ("a", .obj [("y", .null), ("x", .bool true)])]) ∧
    Reorder (.obj [("b", .null), ("a", .obj [("y", .null), ("x", .bool true)])])
      (.obj [("a", .obj [("x", .bool true), ("y", .null)]), ("b", .null)]) := by
  constructor
  · refine .obj (by decide) (fun k x hm => ?_)
    simp only [List.mem_cons, Prod.mk.injEq, List.not_mem_nil, or_false] at hm
    rcases hm with ⟨-, rfl⟩ | ⟨-, rfl⟩
    · exact .null
    · refine .obj (by decide) (fun k x hm => ?_)
      simp only [List.mem_cons, Prod.mk.injEq, List.not_mem_nil, or_false] at hm
      rcases hm with ⟨-, rfl⟩ | ⟨-, rfl⟩
      · exact .null
      · exact .bool _
  · exact .trans (.inObj [("b", .null)] [] (.keys (List.Perm.swap _ _ _))) (.keys (List.Perm.swap _ _ _))

/-! ## C60: equality of edges -/

/-- the endpoints of two edges are the same two nodes, in some order -/
def SameEnds {μ : Type} (a b : REdge μ) : Prop := ∀ n, (n = a.u ∨ n = a.v) ↔ (n = b.u ∨ n = b.v)

/-- C60: two result edges are equal iff their types have the same name and they join the same two nodes, for a directed type in
the same direction.  Metadata is ignored. -/
theorem C60_equal_iff {μ : Type} (a b : REdge μ) :
    a.eq b = true ↔ a.type.name = b.type.name ∧
      ((a.type.directed = true → a.u = b.u ∧ a.v = b.v) ∧ (a.type.directed = false → SameEnds a b)) := by
  unfold REdge.eq EType.eq REdge.sameNodes
  by_cases hn : a.type.name = b.type.name
  · rw [if_neg (by simp [hn])]
    cases hd : a.type.directed with
    | true => simp [hn]
    | false =>
      simp only [hn, Bool.false_eq_true, if_false, false_imp_iff, true_and, true_imp_iff]
      simp only [Bool.or_eq_true, Bool.and_eq_true, beq_iff_eq]
      unfold SameEnds
      constructor
      · rintro (⟨e1, e2⟩ | ⟨e1, e2⟩) n
        · rw [e1, e2]
        · rw [e1, e2]; exact or_comm
      · intro h
        have h1 := (h a.u).1 (Or.inl rfl)
        have h2 := (h a.v).1 (Or.inr rfl)
        have h3 := (h b.u).2 (Or.inl rfl)
        have h4 := (h b.v).2 (Or.inr rfl)
        rcases h1 with e1 | e1
        · rcases h2 with e2 | e2
          · rcases h4 with e4 | e4
            · exact Or.inl ⟨e1, by rw [e2, ← e1, e4]⟩
            · exact Or.inl ⟨e1, e4.symm⟩
          · exact Or.inl ⟨e1, e2⟩
        · rcases h2 with e2 | e2
          · exact Or.inr ⟨e1, e2⟩
          · rcases h3 with e3 | e3
            · exact Or.inr ⟨e1, by rw [e2, ← e1, e3]⟩
            · exact Or.inr ⟨e1, e3.symm⟩
  · rw [if_pos (by simp [hn])]
    simp [hn]

/-- C60: among edges of the standard types equality is an equivalence relation. -/
theorem C60_equivalence {μ : Type} (a b c : REdge μ) (ha : a.type ∈ standardTypes) (hb : b.type ∈ standardTypes) :
    a.eq a = true ∧ (a.eq b = true → b.eq a = true) ∧ (a.eq b = true → b.eq c = true → a.eq c = true) := by
  have same : ∀ s t : EType, s ∈ standardTypes → t ∈ standardTypes → s.name = t.name → s.directed = t.directed := by
    intro s t hs ht
    simp only [standardTypes, List.mem_cons, List.not_mem_nil, or_false] at hs ht
    rcases hs with rfl | rfl | rfl <;> rcases ht with rfl | rfl | rfl <;> decide
  refine ⟨?_, ?_, ?_⟩
  · rw [C60_equal_iff]
    exact ⟨rfl, fun _ => ⟨rfl, rfl⟩, fun _ _ => Iff.rfl⟩
  · rw [C60_equal_iff, C60_equal_iff]
    rintro ⟨h1, h2, h3⟩
    rw [same _ _ ha hb h1] at h2 h3
    exact ⟨h1.symm, fun h => ⟨(h2 h).1.symm, (h2 h).2.symm⟩, fun h n => (h3 h n).symm⟩
  · rw [C60_equal_iff, C60_equal_iff, C60_equal_iff]
    rintro ⟨h1, h2, h3⟩ ⟨k1, k2, k3⟩
    rw [← same _ _ ha hb h1] at k2 k3
    exact ⟨h1.trans k1, fun h => ⟨(h2 h).1.trans (k2 h).1, (h2 h).2.trans (k2 h).2⟩, fun h n => (h3 h n).trans (k3 h n)⟩

/-- C60: with edge types that share a name but not the direction flag, equality is not symmetric. -/
theorem C60_custom_types_asymmetric : ∃ a b : REdge Unit, a.eq b = true ∧ b.eq a = false :=
  ⟨⟨⟨"x", "x"⟩, ⟨"y", "y"⟩, ⟨"T", false⟩, ()⟩, ⟨⟨"y", "y"⟩, ⟨"x", "x"⟩, ⟨"T", true⟩, ()⟩, by decide, by decide⟩

/-- C60: the edges of a live graph are compared differently, because `@dataclass` replaces the method: reversing an undirected
edge or changing its metadata gives an unequal edge. -/
theorem C60_live_edges {μ : Type} [DecidableEq μ] (a b : LEdge μ) :
    a.eq b = true ↔ a.u = b.u ∧ a.v = b.v ∧ a.type.name = b.type.name ∧ a.metadata = b.metadata ∧ a.deleted = b.deleted := by
  unfold LEdge.eq EType.eq
  simp [and_assoc]

/-- an undirected result edge equals its reverse, a directed one does not -/
example : (REdge.mk ⟨"x", "x"⟩ ⟨"y", "y"⟩ ⟨"UNDIRECTED", false⟩ 1).eq ⟨⟨"y", "y"⟩, ⟨"x", "x"⟩, ⟨"UNDIRECTED", false⟩, 2⟩ = true ∧
    (REdge.mk ⟨"x", "x"⟩ ⟨"y", "y"⟩ ⟨"DIRECTED", true⟩ 1).eq ⟨⟨"y", "y"⟩, ⟨"x", "x"⟩, ⟨"DIRECTED", true⟩, 1⟩ = false := by decide

/-! ## C71: restoring variable references -/

/-- C71: `deserialize_variable_references` succeeds, for some recursion limit, iff every object reachable from the step that
holds anything but plain values accepts assignments, and the reachable objects do not form cycles. -/
theorem C71_succeeds_iff (h : Heap) (hu : UniqueAttrs h) (i : Nat) :
    (∃ fuel h', visit fuel h i = .ok h') ↔
      (∀ j, Reach h i j → Written (h j) → (h j).locked = none) ∧
        ∃ rank : Nat → Nat, ∀ j k, Reach h i j → Child h j k → rank k < rank j := by
  rw [← safe_iff]
  constructor
  · rintro ⟨n, h', e⟩
    exact ⟨n, visit_ok hu n i h h' (fun _ => rfl) e⟩
  · rintro ⟨n, hs⟩
    exact ⟨n, _, visit_safe hu n i h (fun _ => rfl) hs⟩

/-- C71: when it succeeds, exactly the reference dictionaries of the reachable objects are replaced by references. -/
theorem C71_result (h : Heap) (hu : UniqueAttrs h) (i fuel : Nat) (h' : Heap) (e : visit fuel h i = .ok h') (j : Nat) :
    (Reach h i j → h' j = (h j).restored) ∧ (¬ Reach h i j → h' j = h j) := by
  have hs := visit_ok hu fuel i h h' (fun _ => rfl) e
  rw [visit_safe hu fuel i h (fun _ => rfl) hs] at e
  obtain rfl := Except.ok.inj e
  constructor
  · intro hr; unfold mark; rw [if_pos hr]
  · intro hr; unfold mark; rw [if_neg hr]

/-- C71: a step from which an object with a locked `__dict__` and something to assign is reachable cannot be loaded, whatever
the recursion limit. -/
theorem C71_locked_never_loads (h : Heap) (hu : UniqueAttrs h) (i j : Nat) (hr : Reach h i j) (hw : Written (h j))
    (hl : (h j).locked ≠ none) (fuel : Nat) : ∃ e, visit fuel h i = .error e := by
  cases e : visit fuel h i with
  | error x => exact ⟨x, rfl⟩
  | ok h' => exact absurd (((C71_succeeds_iff h hu i).1 ⟨fuel, h', e⟩).1 j hr hw) hl

/-- a `ColliderTest` step (object 0): its generator with comparison settings (1, 2), the member `KEEP_FIRST` (3), its class (4),
the class `str` (5) and the static method `str.maketrans` (6), an object with a `__dict__` -/
def colliderHeap : Heap := fun i =>
  match i with
  | 0 => ⟨[("generator", .object 1), ("threshold", .refDict "threshold"), ("conflict_resolution_strategy", .object 3)], none, none⟩
  | 1 => ⟨[("comparison_settings", .object 2), ("chunked", .plain)], none, none⟩
  | 2 => ⟨[("min", .plain), ("max", .reference "m")], none, none⟩
  | 3 => ⟨[("_value_", .plain), ("_name_", .plain), ("__objclass__", .object 4), ("_sort_order_", .plain)], none, none⟩
  | 4 => ⟨[("__module__", .plain), ("_member_type_", .object 5), ("KEEP_FIRST", .object 3)], none, none⟩
  | 5 => ⟨[("__new__", .plain), ("maketrans", .object 6)], some .typeError, none⟩
  | _ => ⟨[], none, none⟩

/-- the hypotheses of `C71_locked_never_loads` hold of it -/
example : UniqueAttrs colliderHeap ∧ Reach colliderHeap 0 5 ∧ Written (colliderHeap 5) ∧ (colliderHeap 5).locked ≠ none := by
  refine ⟨fun i => ?_, ?_, Or.inl ⟨"maketrans", .object 6, by decide, by decide⟩, by decide⟩
  · unfold colliderHeap
    split <;> simp
  · have h1 : Child colliderHeap 0 3 := Or.inl ⟨"conflict_resolution_strategy", by decide⟩
    have h2 : Child colliderHeap 3 4 := Or.inl ⟨"__objclass__", by decide⟩
    have h3 : Child colliderHeap 4 5 := Or.inl ⟨"_member_type_", by decide⟩
    exact ((Relation.ReflTransGen.single h1).tail h2).tail h3

/-- without the enumeration the step loads, and its threshold reference is restored -/
example : (match visit 10 colliderHeap 0 with | .ok _ => none | .error e => some e) = some PyErr.typeError ∧
    (match visit 10 (fun i => if i = 0 then ⟨[("generator", .object 1), ("threshold", .refDict "threshold")], none, none⟩
      else colliderHeap i) 0 with | .ok h => some (h 0).attrs | .error _ => none) =
    some [("generator", .object 1), ("threshold", .reference "threshold")] := by decide +kernel

/-! ## C72: the algorithm endpoint of the UI server -/

/-- C72: on a file system without symbolic links the endpoint only opens files below the working directory, and for a reference
it does not reject it opens exactly the resolved path. -/
theorem C72_contained (cwd : List (List Char)) (hd : Proper cwd) (reference : List Char) :
    (∀ p, servedFile (resolve cwd) cwd reference = some p → Below cwd p ∧ p = resolve cwd reference) ∧
    (reference.head? ≠ some '/' → (¬ ∃ a b, reference = a ++ '.' :: '.' :: b) →
      servedFile (resolve cwd) cwd reference = some (resolve cwd reference)) := by
  have key : reference.head? ≠ some '/' → hasDotDot reference ≠ true → Below cwd (resolve cwd reference) := by
    intro h1 h2
    unfold resolve
    rw [if_neg h1]
    exact walks_below _ _ (fun hm => h2 (dotdot_in_split hm))
  have opened : reference.head? ≠ some '/' → hasDotDot reference ≠ true →
      openedFile (resolve cwd) cwd reference = .ok (resolve cwd reference) := fun h1 h2 =>
    C58_inside_opened _ _ _ hd (resolve_proper hd _) (key h1 h2)
  unfold servedFile
  by_cases h : reference.head? = some '/' ∨ hasDotDot reference = true
  · rw [if_pos h]
    refine ⟨(fun p hp => by cases hp), fun h1 h2 => ?_⟩
    rcases h with h | h
    · exact absurd h h1
    · exact absurd (hasDotDot_append.1 h) h2
  · rw [if_neg h]
    have h1 : reference.head? ≠ some '/' := fun e => h (Or.inl e)
    have h2 : hasDotDot reference ≠ true := fun e => h (Or.inr e)
    rw [opened h1 h2]
    refine ⟨fun p hp => ?_, fun _ _ => rfl⟩
    obtain rfl := Option.some.inj hp
    exact ⟨key h1 h2, rfl⟩

/-- C72: for any resolution of references, in particular with symbolic links, a served file passed the check of C58. -/
theorem C72_symlinks_checked (real : List Char → List (List Char)) (cwd : List (List Char)) (reference : List Char)
    (hd : Proper cwd) (hp : Proper (real reference)) (p : List (List Char)) (h : servedFile real cwd reference = some p) :
    p = real reference ∧ (Below cwd p ∨ InLongerSibling cwd p) := by
  unfold servedFile at h
  split at h
  · cases h
  · rcases C58_opened_partial real cwd reference hd hp with ⟨e, h1⟩ | ⟨e, -⟩
    · rw [e] at h
      obtain rfl := Option.some.inj h
      exact ⟨rfl, h1⟩
    · rw [e] at h
      cases h

example : servedFile (resolve ["a".toList, "b".toList]) ["a".toList, "b".toList] "./pipelines//pc.json".toList =
      some ["a".toList, "b".toList, "pipelines".toList, "pc.json".toList] ∧
    servedFile (resolve ["a".toList, "b".toList]) ["a".toList, "b".toList] "../bc/x".toList = none := by decide +kernel

/-! ## C73: executing an algorithm loaded from a file -/

/-- C73: an algorithm loaded from its dump has plain dictionaries as edge types, so building a model from it raises
`AttributeError` as soon as it has an edge type; without edge types it works. -/
theorem C73_loaded_algorithm (env : String → Option StepClass) (a b : AlgObj) (h : loadAlg env a.dump = .ok b) :
    (a.edgeTypes ≠ [] → collectMixins b.edgeTypes = .error .attributeError) ∧
    (a.edgeTypes = [] → collectMixins b.edgeTypes = .ok []) := by
  unfold loadAlg at h
  split at h
  · cases h
  · obtain rfl := Except.ok.inj h
    constructor
    · intro hne
      unfold AlgObj.dump
      cases he : a.edgeTypes with
      | nil => exact absurd he hne
      | cons x l => rfl
    · intro he
      unfold AlgObj.dump
      rw [he]
      rfl

example : loadAlg exampleEnv (AlgObj.mk "PC" [examplePearson (.float 1 20) .none] [.object "DIRECTED"]).dump =
    .ok ⟨"PC", [examplePearson (.float 1 20) .none], [.dict "DIRECTED"]⟩ := rfl

end Serial
end Verif
