import Mathlib.Data.List.Pairwise
import Verif.Data.Spec
import Verif.Data.Lemmas

/-!
# C52, C70: loading data into a graph, data loaders
-/

namespace Verif
namespace Data
variable {ι R : Type} [LinearOrder ι]

theorem isColumn_column (rows : List (Row ι R)) (k : ι) (h : ∀ r ∈ rows, (Dict.get? r k).isSome = true) :
    IsColumn rows k (column rows k) := by
  induction rows with
  | nil => exact List.Forall₂.nil
  | cons r rs ih =>
    obtain ⟨x, hx⟩ := Option.isSome_iff_exists.1 (h r (by simp))
    have : column (r :: rs) k = x :: column rs k := by simp [column, hx]
    rw [this]
    exact List.Forall₂.cons hx (ih (fun r' h' => h r' (by simp [h'])))

theorem isColumn_unique {rows : List (Row ι R)} {k : ι} {c c' : List R} (h : IsColumn rows k c) (h' : IsColumn rows k c') :
    c = c' := by
  induction h generalizing c' with
  | nil => cases h'; rfl
  | cons hx _ ih =>
    cases h' with
    | cons hx' ht =>
      rw [hx] at hx'
      rw [Option.some.inj hx', ih ht]

theorem not_incomplete {first : Row ι R} {rows : List (Row ι R)} (h : ¬ Incomplete first rows) :
    ∀ r ∈ rows, ∀ k ∈ Dict.keys first, (Dict.get? r k).isSome = true := by
  intro r hr k hk
  cases hg : Dict.get? r k with
  | none => exact absurd ⟨r, hr, k, hk, hg⟩ h
  | some x => rfl

omit [LinearOrder ι] in
/-- two tables of nodes with the same ids in the same order and determined values agree -/
theorem eq_of_keys {g g' : Nodes ι R} (hk : g.map Prod.fst = g'.map Prod.fst)
    (hv : ∀ k c c', (k, c) ∈ g → (k, c') ∈ g' → c = c') : g = g' := by
  induction g generalizing g' with
  | nil => cases g' with
    | nil => rfl
    | cons _ _ => simp at hk
  | cons p g ih =>
    cases g' with
    | nil => simp at hk
    | cons q g' =>
      obtain ⟨k, c⟩ := p
      obtain ⟨k', c'⟩ := q
      simp only [List.map_cons, List.cons.injEq] at hk
      obtain ⟨rfl, hk⟩ := hk
      rw [hv k c c' (by simp) (by simp), ih hk (fun k c c' h h' => hv k c c' (by simp [h]) (by simp [h']))]

/-- C52, list of rows: the graph has one node per key of the first row, in the first row's order, and the values of the node
are that column in row order.  This is an equivalence: nothing else is ever returned. -/
theorem C52_rows (first : Row ι R) (rows : List (Row ι R)) (g : Nodes ι R) :
    createGraph (.list (first :: rows)) = .ok g ↔
      g.map Prod.fst = Dict.keys first ∧ ∀ k col, (k, col) ∈ g → IsColumn (first :: rows) k col := by
  by_cases hi : Incomplete first (first :: rows)
  · have he : createGraph (.list (first :: rows)) = .error .keyError := by
      show fromList (first :: rows) = _
      unfold fromList
      simp only
      rw [appendRows_error _ _ _ hi]
    rw [he]
    refine ⟨fun h => (by cases h), ?_⟩
    rintro ⟨hk, hc⟩
    obtain ⟨r, hr, k, hkm, hnone⟩ := hi
    rw [← hk] at hkm
    obtain ⟨⟨k', col⟩, hm, rfl⟩ := List.mem_map.1 hkm
    have := hc _ _ hm
    clear hc hk hkm hm
    exfalso
    unfold IsColumn at this
    simp only at hnone
    generalize first :: rows = l at this hr
    induction this with
    | nil => simp at hr
    | cons hx _ ih =>
      rcases List.mem_cons.1 hr with rfl | hr
      · rw [hnone] at hx
        cases hx
      · exact ih hr
  · have hall := not_incomplete hi
    obtain ⟨n, h1, h2⟩ := appendRows_ok first.keys first.nodup_keys (first :: rows) (emptyColumns first.keys) (fun _ => [])
      (fun k hk => emptyColumns_get _ k hk) hall
    have hg : createGraph (.list (first :: rows)) =
        .ok (first.keys.map (fun k => (k, column (first :: rows) k))) := by
      show fromList (first :: rows) = _
      unfold fromList
      simp only
      rw [h1]
      simp only
      rw [nodesOf_ok n (fun k => column (first :: rows) k) first.keys [] first.nodup_keys (fun k hk => by simpa using h2 k hk)
        (by simp)]
      simp
    rw [hg]
    have hspec : ∀ k col, (k, col) ∈ first.keys.map (fun k => (k, column (first :: rows) k)) →
        IsColumn (first :: rows) k col := by
      intro k col hm
      obtain ⟨k', hk', e⟩ := List.mem_map.1 hm
      cases e
      exact isColumn_column _ _ (fun r hr => hall r hr _ hk')
    constructor
    · intro e
      cases e
      exact ⟨by simp [List.map_map, Function.comp_def], hspec⟩
    · rintro ⟨hk, hc⟩
      congr 1
      refine eq_of_keys (by rw [hk]; simp [List.map_map, Function.comp_def]) ?_
      intro k c c' h h'
      exact isColumn_unique (hspec k c h) (hc k c' h')

/-- C52, errors for a list of rows: no rows at all raise `IndexError`, a row without a value for one of the first row's keys
raises `KeyError`, and in every other case a graph is returned. -/
theorem C52_rows_errors :
    createGraph (.list ([] : List (Row ι R))) = .error .indexError ∧
    (∀ (first : Row ι R) (rows : List (Row ι R)), Incomplete first (first :: rows) →
      createGraph (.list (first :: rows)) = .error .keyError) ∧
    (∀ (first : Row ι R) (rows : List (Row ι R)), ¬ Incomplete first (first :: rows) →
      ∃ g, createGraph (.list (first :: rows)) = .ok g) := by
  refine ⟨rfl, ?_, ?_⟩
  · intro first rows hi
    show fromList (first :: rows) = _
    unfold fromList
    simp only
    rw [appendRows_error _ _ _ hi]
  · intro first rows hi
    refine ⟨first.keys.map (fun k => (k, column (first :: rows) k)), (C52_rows first rows _).2 ⟨?_, ?_⟩⟩
    · simp [List.map_map, Function.comp_def]
    · intro k col hm
      obtain ⟨k', hk', e⟩ := List.mem_map.1 hm
      cases e
      exact isColumn_column _ _ (fun r hr => not_incomplete hi r hr _ hk')

/-- C52, dictionary of columns: the graph has exactly the entries of the dictionary as nodes, sorted by key; loading never
fails. -/
theorem C52_dict (d : Dict ι (List R)) :
    ∃ g, createGraph (.dict d) = .ok g ∧ (g.map Prod.fst).Pairwise (· < ·) ∧
      ∀ k col, (k, col) ∈ g ↔ d.get? k = some col := by
  have hp : (d.items.insertionSort (fun a b => a.1 ≤ b.1)).Perm d.items := List.perm_insertionSort _ _
  have hnd : ((d.items.insertionSort (fun a b => a.1 ≤ b.1)).map Prod.fst).Nodup := (hp.map Prod.fst).nodup_iff.2 d.nodup_keys
  refine ⟨d.items.insertionSort (fun a b => a.1 ≤ b.1), ?_, ?_, ?_⟩
  · show addNodes _ [] = _
    rw [addNodes_ok _ _ hnd (by simp)]
    simp
  · have hs : (d.items.insertionSort (fun a b : ι × List R => a.1 ≤ b.1)).Pairwise (fun a b => a.1 ≤ b.1) := by
      have : Std.Total (fun a b : ι × List R => a.1 ≤ b.1) := ⟨fun a b => le_total _ _⟩
      have : IsTrans (ι × List R) (fun a b => a.1 ≤ b.1) := ⟨fun _ _ _ => le_trans⟩
      exact List.pairwise_insertionSort _ _
    rw [List.Nodup] at hnd
    rw [List.pairwise_map] at hnd ⊢
    exact (hs.and hnd).imp (fun h => lt_of_le_of_ne h.1 h.2)
  · intro k col
    rw [hp.mem_iff]
    exact Dict.mem_items_iff _ _ _

/-- C52, data loader: a non-empty sequence of rows is treated like the list of these rows; an item with a `_dict` entry
in first position is treated like that dictionary; a loader that yields nothing raises `TypeError`. -/
theorem C52_loader :
    (∀ (first : Row ι R) (rows : List (Row ι R)),
      createGraph (.loader ((first :: rows).map .row)) = createGraph (.list (first :: rows))) ∧
    (∀ (d : Dict ι (List R)) (rest : List (Item ι R)),
      createGraph (.loader (.columns d :: rest)) = createGraph (.dict d)) ∧
    createGraph (.loader ([] : List (Item ι R))) = .error .typeError := by
  refine ⟨fun first rows => fromLoader_rows first rows, ?_, rfl⟩
  intro d rest
  show fromLoader _ = fromDict d
  unfold fromLoader loaderLoop
  cases fromDict d <;> rfl

/-- C52, a `_dict` entry anywhere after complete rows discards those rows: the graph is the one of the dictionary alone. -/
theorem C52_loader_dict_wins (first : Row ι R) (rows : List (Row ι R)) (d : Dict ι (List R)) (rest : List (Item ι R))
    (h : ¬ Incomplete first (first :: rows)) :
    createGraph (.loader ((first :: rows).map .row ++ .columns d :: rest)) = createGraph (.dict d) := by
  have hall := not_incomplete h
  show fromLoader _ = fromDict d
  have key : ∀ (l : List (Row ι R)) (keys : List ι) (n n' : Dict ι (List R)), appendRows keys l n = .ok n' →
      loaderLoop (l.map .row ++ .columns d :: rest) (some (keys, n)) =
        match fromDict d with | .ok g => .ok (.inl g) | .error e => .error e := by
    intro l
    induction l with
    | nil => intro keys n n' _; rfl
    | cons r rs ih =>
      intro keys n n' hn
      unfold appendRows at hn
      rw [List.map_cons, List.cons_append]
      unfold loaderLoop
      simp only
      cases ha : appendRow r keys n with
      | error e => rw [ha] at hn; cases hn
      | ok n1 =>
        rw [ha] at hn
        exact ih keys n1 n' hn
  obtain ⟨n, h1, -⟩ := appendRows_ok first.keys first.nodup_keys (first :: rows) (emptyColumns first.keys) (fun _ => [])
      (fun k hk => emptyColumns_get _ k hk) hall
  have hloop : loaderLoop ((first :: rows).map .row ++ .columns d :: rest) none =
      loaderLoop ((first :: rows).map .row ++ .columns d :: rest) (some (first.keys, emptyColumns first.keys)) := by
    rw [List.map_cons, List.cons_append]
    unfold loaderLoop
    rfl
  unfold fromLoader
  rw [hloop, key _ _ _ _ h1]
  cases fromDict d <;> rfl

/-- C52, a JSON file holding a list of rows or a dictionary of columns gives the same graph as passing that value directly;
any other JSON document raises `ValueError`. -/
theorem C52_json :
    (∀ (first : Row ι R) (rows : List (Row ι R)),
      (jsonLoad (.list (first :: rows))).map (fun i => createGraph (.loader i)) =
        .ok (createGraph (.list (first :: rows)))) ∧
    (∀ d : Dict ι (List R), (jsonLoad (.dict d)).map (fun i => createGraph (.loader i)) = .ok (createGraph (.dict d))) ∧
    jsonLoad (.other : Json ι R) = .error .valueError := by
  refine ⟨fun first rows => ?_, fun d => ?_, rfl⟩
  · exact congrArg Except.ok (C52_loader.1 first rows)
  · exact congrArg Except.ok (C52_loader.2.1 d [])

/-- C52, order: the same data given as a dictionary of columns and as a list of rows produce the same nodes with the same
values; the two graphs list them in the same order exactly if the keys of the first row are sorted. -/
theorem C52_order (d : Dict ι (List R)) (first : Row ι R) (rows : List (Row ι R)) (h : SameData d first rows) :
    ∃ g g', createGraph (.dict d) = .ok g ∧ createGraph (.list (first :: rows)) = .ok g' ∧ g.Perm g' ∧
      (g = g' ↔ (Dict.keys first).Pairwise (· < ·)) := by
  obtain ⟨g, hg, hs, hm⟩ := C52_dict d
  have hcol : ∀ k ∈ Dict.keys first, ∃ col, d.get? k = some col ∧ IsColumn (first :: rows) k col := by
    intro k hk
    obtain ⟨col, hc⟩ := Option.isSome_iff_exists.1 ((Dict.mem_keys_iff _ _).1 ((h.1 k).2 hk))
    exact ⟨col, hc, h.2 k col hc⟩
  have hinc : ¬ Incomplete first (first :: rows) := by
    rintro ⟨r, hr, k, hk, hn⟩
    obtain ⟨col, -, hc⟩ := hcol k hk
    unfold IsColumn at hc
    generalize first :: rows = l at hc hr
    induction hc with
    | nil => simp at hr
    | cons hx _ ih =>
      rcases List.mem_cons.1 hr with rfl | hr
      · rw [hn] at hx
        cases hx
      · exact ih hr
  obtain ⟨g', hg'⟩ := C52_rows_errors.2.2 first rows hinc
  obtain ⟨hk', hc'⟩ := (C52_rows first rows g').1 hg'
  have hmem : ∀ p, p ∈ g ↔ p ∈ g' := by
    rintro ⟨k, col⟩
    rw [hm]
    constructor
    · intro hd
      have hk : k ∈ g'.map Prod.fst := by
        rw [hk']
        exact (h.1 k).1 ((Dict.mem_keys_iff _ _).2 (by rw [hd]; rfl))
      obtain ⟨⟨k', c'⟩, hm', rfl⟩ := List.mem_map.1 hk
      rw [isColumn_unique (h.2 _ _ hd) (hc' _ _ hm')]
      exact hm'
    · intro hm'
      obtain ⟨col', hd, hcol'⟩ := hcol k (hk' ▸ List.mem_map.2 ⟨_, hm', rfl⟩)
      rw [hd, isColumn_unique hcol' (hc' _ _ hm')]
  have hgn : g.Nodup := List.Nodup.of_map Prod.fst (hs.imp (fun h => ne_of_lt h))
  have hgn' : g'.Nodup := List.Nodup.of_map Prod.fst (hk' ▸ first.nodup_keys)
  have hperm : g.Perm g' := (List.perm_ext_iff_of_nodup hgn hgn').2 hmem
  refine ⟨g, g', hg, hg', hperm, ?_⟩
  rw [← hk']
  constructor
  · rintro rfl
    exact hs
  · intro hs'
    have hk : g.map Prod.fst = g'.map Prod.fst :=
      (hperm.map Prod.fst).eq_of_pairwise (le := fun a b => a < b) (fun a b _ _ h1 h2 => absurd h1 (lt_asymm h2)) hs hs'
    refine eq_of_keys hk ?_
    intro k c c' h1 h2
    have := (hmem (k, c)).1 h1
    exact isColumn_unique (hc' _ _ this) (hc' _ _ h2)

/-! ### Cases meeting the hypotheses -/

/-- `{2: a, 1: b}` -/
def exDataRow (a b : Int) : Row Nat Int := (Dict.empty.set 2 a).set 1 b
def exDataCols : Dict Nat (List Int) := (Dict.empty.set 2 [10, 30]).set 1 [20, 40]

/-- rows keyed `2, 1` keep that order, the dictionary of the same columns comes out as `1, 2` -/
example : createGraph (.list [exDataRow 10 20, exDataRow 30 40]) = .ok [(2, [10, 30]), (1, [20, 40])] ∧
    createGraph (.dict exDataCols) = .ok [(1, [20, 40]), (2, [10, 30])] := by
  refine ⟨?_, ?_⟩ <;> rfl

/-- a hypothesis of `C52_order` that holds with unsorted keys -/
example : SameData exDataCols (exDataRow 10 20) [exDataRow 30 40] := by
  have hk : exDataCols.keys = [2, 1] := rfl
  have hk' : Dict.keys (exDataRow 10 20) = [2, 1] := rfl
  refine ⟨fun k => by rw [hk, hk'], fun k col h => ?_⟩
  have hm : k ∈ exDataCols.keys := (Dict.mem_keys_iff _ _).2 (by rw [h]; rfl)
  rw [hk] at hm
  simp only [List.mem_cons, List.not_mem_nil, or_false] at hm
  rcases hm with rfl | rfl
  · have : col = [10, 30] := (Option.some.inj h).symm
    subst this
    exact .cons rfl (.cons rfl .nil)
  · have : col = [20, 40] := (Option.some.inj h).symm
    subst this
    exact .cons rfl (.cons rfl .nil)

/-- the second row lacks key 1 -/
example : Incomplete (exDataRow 10 20) [exDataRow 10 20, Dict.empty.set 2 5] ∧
    createGraph (.list [exDataRow 10 20, Dict.empty.set 2 5]) = .error .keyError :=
  ⟨⟨Dict.empty.set 2 5, by simp, 1, by decide, rfl⟩, rfl⟩

/-- surplus keys of later rows are ignored -/
example : createGraph (.list [Dict.empty.set 2 5, exDataRow 10 20]) = .ok [(2, [5, 10])] := rfl

/-! ### C70 -/

/-- two texts around the first `_` agree only if their parts agree -/
theorem split_underscore {a a' b b' : List Char} (ha : '_' ∉ a) (ha' : '_' ∉ a') (h : a ++ '_' :: b = a' ++ '_' :: b') :
    a = a' ∧ b = b' := by
  induction a generalizing a' with
  | nil =>
    cases a' with
    | nil => simpa using h
    | cons c a' =>
      simp only [List.nil_append, List.cons_append, List.cons.injEq] at h
      exact absurd (by simp [← h.1]) ha'
  | cons c a ih =>
    cases a' with
    | nil =>
      simp only [List.nil_append, List.cons_append, List.cons.injEq] at h
      exact absurd (by simp [h.1]) ha
    | cons c' a' =>
      simp only [List.cons_append, List.cons.injEq] at h
      obtain ⟨e1, e2⟩ := ih (fun hm => ha (by simp [hm])) (fun hm => ha' (by simp [hm])) h.2
      exact ⟨by rw [h.1, e1], e2⟩

/-- C70, hash: if the digests are free of collisions (and hexadecimal, so without `_`), two loaded file references have the
same hash exactly if the bytes of their files and their options agree; the path and the type play no role. -/
theorem C70_file_hash {O L B : Type} (modules : String → Option (O → Except PyErr L)) (files : String → Option B)
    (digest : B → List Char) (optHash : Option O → List Char) (inner : L → List Char)
    (hd : Function.Injective digest) (ho : Function.Injective optHash) (hu : ∀ b, '_' ∉ digest b)
    (r r' : LoaderRef O) (hr : r.type ≠ .dynamic) (hr' : r'.type ≠ .dynamic) (b b' : B)
    (hb : files r.reference = some b) (hb' : files r'.reference = some b') :
    ∃ l l' h h', loadDataLoader modules r = .ok l ∧ loadDataLoader modules r' = .ok l' ∧
      loaderHash files digest optHash inner l = .ok h ∧ loaderHash files digest optHash inner l' = .ok h' ∧
      (h = h' ↔ b = b' ∧ r.options = r'.options) := by
  have key : ∀ (r : LoaderRef O) (b : B), r.type ≠ .dynamic → files r.reference = some b →
      ∃ l, loadDataLoader modules r = .ok l ∧
        loaderHash files digest optHash inner l = .ok (digest b ++ '_' :: optHash r.options) := by
    intro r b hr hb
    obtain ⟨t, ref, o⟩ := r
    cases t with
    | dynamic => exact absurd rfl hr
    | json => exact ⟨_, rfl, by simp only [loaderHash]; rw [hb]⟩
    | jsonl => exact ⟨_, rfl, by simp only [loaderHash]; rw [hb]⟩
  obtain ⟨l, h1, h2⟩ := key r b hr hb
  obtain ⟨l', h1', h2'⟩ := key r' b' hr' hb'
  refine ⟨l, l', _, _, h1, h1', h2, h2', ?_⟩
  constructor
  · intro h
    obtain ⟨e1, e2⟩ := split_underscore (hu b) (hu b') h
    exact ⟨hd e1, ho e2⟩
  · rintro ⟨rfl, e⟩
    rw [e]

/-- C70, a missing file is reported when the hash is taken, not when the reference is loaded. -/
theorem C70_missing_file {O L B : Type} (modules : String → Option (O → Except PyErr L)) (files : String → Option B)
    (digest : B → List Char) (optHash : Option O → List Char) (inner : L → List Char)
    (r : LoaderRef O) (hr : r.type ≠ .dynamic) (hb : files r.reference = none) :
    ∃ l, loadDataLoader modules r = .ok l ∧ loaderHash files digest optHash inner l = .error .fileNotFound := by
  obtain ⟨t, ref, o⟩ := r
  cases t with
  | dynamic => exact absurd rfl hr
  | json => exact ⟨_, rfl, by simp only [loaderHash]; rw [hb]⟩
  | jsonl => exact ⟨_, rfl, by simp only [loaderHash]; rw [hb]⟩

/-- C70, dynamic references: no reference of type `dynamic` can ever be loaded, whatever modules and options are given. -/
theorem C70_dynamic_never_loads {O L : Type} (modules : String → Option (O → Except PyErr L)) (r : LoaderRef O)
    (hr : r.type = .dynamic) :
    loadDataLoader modules r =
      if (modules r.reference).isSome = true then .error .typeError else .error .importError := by
  obtain ⟨t, ref, o⟩ := r
  subst hr
  simp only [loadDataLoader, dynamicInit]
  cases modules ref <;> rfl

/-- the hypotheses of `C70_file_hash` can be met: a unary digest has no collisions and no `_` -/
example : Function.Injective (fun n : Nat => List.replicate n 'a') ∧ ∀ n : Nat, '_' ∉ List.replicate n 'a' :=
  ⟨fun a b h => by simpa using congrArg List.length h, fun n h => by simpa using (List.mem_replicate.1 h).2⟩

/-- a module with a working `DataLoader` class and the options it needs is still rejected -/
example : loadDataLoader (fun m => if m = "loader" then some (fun (_ : Nat) => .ok ()) else none)
    ⟨.dynamic, "loader", some 3⟩ = .error .typeError := rfl

end Data
end Verif
