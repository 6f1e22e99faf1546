import Verif.Data.Model

/-!
# Helper lemmas: loading data
-/

namespace Verif
namespace Data
variable {ι R : Type} [LinearOrder ι]

theorem addNodes_ok (l : List (ι × List R)) (g : Nodes ι R) (hn : (l.map Prod.fst).Nodup)
    (hd : ∀ k ∈ l.map Prod.fst, k ∉ g.map Prod.fst) : addNodes l g = .ok (g ++ l) := by
  induction l generalizing g with
  | nil => simp [addNodes]
  | cons p l ih =>
    obtain ⟨k, v⟩ := p
    simp only [List.map_cons, List.nodup_cons] at hn
    have hk := hd k (by simp)
    unfold addNodes addNode
    rw [if_neg hk]
    simp only
    rw [ih _ hn.2 (fun k' hk' => by
      simp only [List.map_append, List.map_cons, List.map_nil, List.mem_append, List.mem_singleton, not_or]
      exact ⟨hd k' (by simp only [List.map_cons, List.mem_cons]; exact Or.inr hk'), fun e => hn.1 (e ▸ hk')⟩)]
    simp

theorem nodesOf_ok (nodes : Dict ι (List R)) (col : ι → List R) (keys : List ι) (g : Nodes ι R) (hn : keys.Nodup)
    (hg : ∀ k ∈ keys, nodes.get? k = some (col k)) (hd : ∀ k ∈ keys, k ∉ g.map Prod.fst) :
    nodesOf nodes keys g = .ok (g ++ keys.map (fun k => (k, col k))) := by
  induction keys generalizing g with
  | nil => simp [nodesOf]
  | cons k ks ih =>
    rw [List.nodup_cons] at hn
    unfold nodesOf addNode
    rw [hg k (by simp)]
    simp only
    rw [if_neg (hd k (by simp))]
    simp only
    rw [ih _ hn.2 (fun k' hk' => hg k' (by simp [hk'])) (fun k' hk' => by
      simp only [List.map_append, List.map_cons, List.map_nil, List.mem_append, List.mem_singleton, not_or]
      exact ⟨hd k' (by simp [hk']), fun e => hn.1 (e ▸ hk')⟩)]
    simp

/-- all keys present -/
theorem appendRow_ok (row : Row ι R) (f : ι → R) (keys : List ι) (hn : keys.Nodup) (nodes : Dict ι (List R))
    (col : ι → List R) (hc : ∀ k ∈ keys, nodes.get? k = some (col k)) (hr : ∀ k ∈ keys, row.get? k = some (f k)) :
    ∃ nodes', appendRow row keys nodes = .ok nodes' ∧
      ∀ k, nodes'.get? k = if k ∈ keys then some (col k ++ [f k]) else nodes.get? k := by
  induction keys generalizing nodes with
  | nil => exact ⟨nodes, rfl, by simp⟩
  | cons k ks ih =>
    rw [List.nodup_cons] at hn
    obtain ⟨n', h1, h2⟩ := ih hn.2 (nodes.set k (col k ++ [f k])) (fun k' hk' => by
      rw [Dict.get?_set, if_neg (fun e : k = k' => hn.1 (e ▸ hk')), hc k' (by simp [hk'])]) (fun k' hk' => hr k' (by simp [hk']))
    refine ⟨n', ?_, fun k' => ?_⟩
    · unfold appendRow
      rw [hc k (by simp), hr k (by simp)]
      exact h1
    · rw [h2]
      by_cases hk : k' ∈ ks
      · simp [hk]
      · rw [if_neg hk, Dict.get?_set]
        by_cases e : k = k'
        · subst e
          simp
        · have : k' ∉ k :: ks := by simp [hk, Ne.symm e]
          rw [if_neg e, if_neg this]

/-- a key missing -/
theorem appendRow_error (row : Row ι R) (keys : List ι) (nodes : Dict ι (List R)) (h : ∃ k ∈ keys, row.get? k = none) :
    appendRow row keys nodes = .error .keyError := by
  induction keys generalizing nodes with
  | nil => simp at h
  | cons k ks ih =>
    unfold appendRow
    cases hk : row.get? k with
    | none => cases nodes.get? k <;> rfl
    | some x =>
      obtain ⟨k', hk', hn⟩ := h
      have : k' ∈ ks := by
        rcases List.mem_cons.1 hk' with rfl | h
        · rw [hk] at hn; cases hn
        · exact h
      cases nodes.get? k with
      | none => rfl
      | some c => exact ih _ ⟨k', this, hn⟩

theorem emptyColumns_get (keys : List ι) (k : ι) (hk : k ∈ keys) :
    (emptyColumns keys : Dict ι (List R)).get? k = some [] := by
  unfold emptyColumns
  have key : ∀ (l : List ι) (d : Dict ι (List R)),
      (l.foldl (fun d k => d.set k []) d).get? k = if k ∈ l then some [] else d.get? k := by
    intro l
    induction l with
    | nil => simp
    | cons w ws ih =>
      intro d
      rw [List.foldl_cons, ih]
      by_cases h : k ∈ ws
      · simp [h]
      · rw [if_neg h, Dict.get?_set]
        by_cases e : w = k
        · subst e
          simp
        · have : k ∉ w :: ws := by simp [h, Ne.symm e]
          rw [if_neg e, if_neg this]
  rw [key, if_pos ((List.mem_insertionSort _).2 hk)]

/-- the column of a key in a list of complete rows -/
def column (rows : List (Row ι R)) (k : ι) : List R := rows.filterMap (fun r => r.get? k)

theorem appendRows_ok (keys : List ι) (hn : keys.Nodup) (rows : List (Row ι R)) (nodes : Dict ι (List R))
    (col : ι → List R) (hc : ∀ k ∈ keys, nodes.get? k = some (col k))
    (hr : ∀ r ∈ rows, ∀ k ∈ keys, (r.get? k).isSome = true) :
    ∃ nodes', appendRows keys rows nodes = .ok nodes' ∧ ∀ k ∈ keys, nodes'.get? k = some (col k ++ column rows k) := by
  induction rows generalizing nodes col with
  | nil => exact ⟨nodes, rfl, by simpa [column] using hc⟩
  | cons r rs ih =>
    rcases hkeys : keys with _ | ⟨k0, ks⟩
    · have : ∀ (rows : List (Row ι R)) nodes, appendRows [] rows nodes = .ok nodes := by
        intro rows
        induction rows with
        | nil => intro _; rfl
        | cons r rs ih => intro n; unfold appendRows appendRow; exact ih n
      exact ⟨nodes, this _ _, by simp⟩
    · rw [← hkeys]
      obtain ⟨x0, -⟩ := Option.isSome_iff_exists.1 (hr r (by simp) k0 (by simp [hkeys]))
      let f : ι → R := fun k => (r.get? k).getD x0
      have hf : ∀ k ∈ keys, r.get? k = some (f k) := by
        intro k hk
        obtain ⟨x, hx⟩ := Option.isSome_iff_exists.1 (hr r (by simp) k hk)
        simp [f, hx]
      obtain ⟨n1, h1, h2⟩ := appendRow_ok r f keys hn nodes col hc hf
      obtain ⟨n2, h3, h4⟩ := ih n1 (fun k => col k ++ [f k]) (fun k hk => by rw [h2, if_pos hk])
        (fun r' hr' => hr r' (by simp [hr']))
      refine ⟨n2, ?_, fun k hk => ?_⟩
      · unfold appendRows
        rw [h1]
        exact h3
      · rw [h4 k hk]
        simp [column, hf k hk]

theorem appendRows_error (keys : List ι) (rows : List (Row ι R)) (nodes : Dict ι (List R))
    (h : ∃ r ∈ rows, ∃ k ∈ keys, r.get? k = none) : appendRows keys rows nodes = .error .keyError := by
  induction rows generalizing nodes with
  | nil => simp at h
  | cons r rs ih =>
    unfold appendRows
    by_cases hr : ∃ k ∈ keys, r.get? k = none
    · rw [appendRow_error r keys nodes hr]
    · have hrest : ∃ r ∈ rs, ∃ k ∈ keys, r.get? k = none := by
        obtain ⟨r', h1, h2⟩ := h
        rcases List.mem_cons.1 h1 with rfl | h1
        · exact absurd h2 hr
        · exact ⟨r', h1, h2⟩
      have herr : ∀ e, appendRow r keys nodes = .error e → e = .keyError := by
        intro e he
        clear hr hrest h ih
        induction keys generalizing nodes with
        | nil => cases he
        | cons k ks ih =>
          unfold appendRow at he
          split at he
          · exact ih _ he
          · cases he; rfl
      cases ha : appendRow r keys nodes with
      | error e => rw [herr e ha]
      | ok n => exact ih n hrest

theorem loaderLoop_rows (rows : List (Row ι R)) (keys : List ι) (nodes : Dict ι (List R)) :
    loaderLoop (rows.map .row) (some (keys, nodes)) =
      match appendRows keys rows nodes with
      | .ok n => .ok (.inr (some (keys, n)))
      | .error e => .error e := by
  induction rows generalizing nodes with
  | nil => rfl
  | cons r rs ih =>
    rw [List.map_cons]
    unfold loaderLoop appendRows
    simp only
    cases appendRow r keys nodes with
    | error e => rfl
    | ok n => simp only; exact ih n

theorem fromLoader_rows (row : Row ι R) (rows : List (Row ι R)) :
    fromLoader ((row :: rows).map .row) = fromList (row :: rows) := by
  unfold fromLoader fromList
  rw [List.map_cons]
  unfold loaderLoop
  simp only
  rw [appendRows]
  cases appendRow row row.keys (emptyColumns row.keys) with
  | error e => rfl
  | ok n =>
    simp only
    rw [loaderLoop_rows]
    cases appendRows row.keys rows n <;> rfl

end Data
end Verif
