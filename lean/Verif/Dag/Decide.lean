import Verif.Dag.Lemmas

/-!
# A computable d-separation test

Used only to show that perfect oracles exist and to compute examples; no theorem about the code depends on it.
-/

namespace Verif
namespace Dag
variable {ι : Type} [DecidableEq ι] {E : ι → ι → Prop} [DecidableRel E]

/-- is `b` reachable from `a` within `fuel` edges, through nodes of `N` -/
def reach (E : ι → ι → Prop) [DecidableRel E] (N : List ι) : Nat → ι → ι → Bool
  | 0, a, b => decide (a = b)
  | fuel + 1, a, b => decide (a = b) || N.any (fun c => decide (E a c) && reach E N fuel c b)

/-- simple paths from `u` with at most `fuel` edges, through nodes of `N` -/
def simple (E : ι → ι → Prop) [DecidableRel E] (N : List ι) : Nat → ι → List (List ι)
  | 0, u => [[u]]
  | fuel + 1, u => [u] :: N.flatMap (fun c =>
      if decide (E u c) || decide (E c u) then ((simple E N fuel c).filter (fun p => decide (u ∉ p))).map (u :: ·) else [])

/-- consecutive triples -/
def triples : List ι → List (ι × ι × ι)
  | a :: b :: c :: rest => (a, b, c) :: triples (b :: c :: rest)
  | _ => []

/-- is the path blocked -/
def blocked (E : ι → ι → Prop) [DecidableRel E] (N Z p : List ι) : Bool :=
  (triples p).any (fun t => if decide (E t.1 t.2.1) && decide (E t.2.2 t.2.1)
    then Z.all (fun d => !reach E N N.length t.2.1 d) else decide (t.2.1 ∈ Z))

/-- does `Z` d-separate `u` and `v` -/
def dsep (E : ι → ι → Prop) [DecidableRel E] (N : List ι) (u v : ι) (Z : List ι) : Bool :=
  (simple E N N.length u).all (fun p => !decide (p.getLast? = some v) || blocked E N Z p)

omit [DecidableEq ι] in
theorem mem_triples {p : List ι} {a b c : ι} : (a, b, c) ∈ triples p ↔ [a, b, c] <:+: p := by
  induction p with
  | nil => simp [triples]
  | cons x p ih =>
    match p, ih with
    | [], _ =>
      simp only [triples, List.not_mem_nil, false_iff]
      intro h
      have := h.length_le
      simp at this
    | [y], _ =>
      simp only [triples, List.not_mem_nil, false_iff]
      intro h
      have := h.length_le
      simp at this
    | y :: z :: rest, ih =>
      rw [triples, List.mem_cons, ih, List.infix_cons_iff (l₂ := y :: z :: rest)]
      constructor
      · rintro (h | h)
        · cases h; exact Or.inl ⟨rest, rfl⟩
        · exact Or.inr h
      · rintro (⟨t, h⟩ | h)
        · simp only [List.cons_append, List.cons.injEq] at h
          obtain ⟨rfl, rfl, rfl, _⟩ := h
          exact Or.inl rfl
        · exact Or.inr h

theorem reach_sound {N : List ι} : ∀ (fuel : Nat) (a b : ι), reach E N fuel a b = true → Desc E a b := by
  intro fuel
  induction fuel with
  | zero =>
    intro a b h
    simp only [reach, decide_eq_true_eq] at h
    exact h ▸ .refl
  | succ fuel ih =>
    intro a b h
    simp only [reach, Bool.or_eq_true, decide_eq_true_eq, List.any_eq_true, Bool.and_eq_true] at h
    rcases h with h | ⟨c, _, h1, h2⟩
    · exact h ▸ .refl
    · exact .head h1 (ih c b h2)

theorem reach_complete {N : List ι} (hN : ∀ a b, E a b → a ∈ N ∧ b ∈ N) : ∀ (l : List ι) (fuel : Nat) (a b : ι),
    (a :: l).IsChain E → (a :: l).getLast? = some b → l.length ≤ fuel → reach E N fuel a b = true := by
  intro l
  induction l with
  | nil =>
    intro fuel a b _ h _
    have : a = b := by simpa using h
    cases fuel <;> simp [reach, this]
  | cons c l ih =>
    intro fuel a b hc hb hf
    obtain ⟨fuel, rfl⟩ : ∃ f, fuel = f + 1 := ⟨fuel - 1, by simp at hf; omega⟩
    rw [List.isChain_cons_cons] at hc
    simp only [reach, Bool.or_eq_true, decide_eq_true_eq, List.any_eq_true, Bool.and_eq_true]
    exact Or.inr ⟨c, (hN _ _ hc.1).2, hc.1, ih fuel c b hc.2 (by rw [List.getLast?_cons_cons] at hb; exact hb)
      (by simpa using hf)⟩

theorem reach_iff {N : List ι} (hac : Acyclic E) (hN : ∀ a b, E a b → a ∈ N ∧ b ∈ N) {a b : ι} :
    reach E N N.length a b = true ↔ Desc E a b := by
  refine ⟨reach_sound _ _ _, fun h => ?_⟩
  obtain ⟨l, h1, h2⟩ := List.exists_isChain_cons_of_relationReflTransGen h
  refine reach_complete hN l _ a b h1 ?_ ?_
  · rw [List.getLast?_eq_some_getLast (by simp), h2]
  · have hp : (a :: l).Pairwise (Relation.TransGen E) :=
      List.isChain_iff_pairwise.1 (h1.imp (fun _ _ e => Relation.TransGen.single e))
    have hnd : l.Nodup := by
      refine List.Pairwise.imp ?_ (List.pairwise_cons.1 hp).2
      rintro x y h' rfl
      exact hac _ h'
    refine List.Nodup.length_le_of_subset hnd ?_
    intro c hc
    have := (List.pairwise_cons.1 hp).1 c hc
    obtain ⟨d, _, e⟩ := Relation.TransGen.tail'_iff.1 this
    exact (hN _ _ e).2

theorem mem_simple {N : List ι} (hN : ∀ a b, E a b → a ∈ N ∧ b ∈ N) : ∀ (fuel : Nat) (u : ι) (p : List ι),
    p ∈ simple E N fuel u ↔ p.head? = some u ∧ p.Nodup ∧ p.IsChain (Adj E) ∧ p.length ≤ fuel + 1 := by
  intro fuel
  induction fuel with
  | zero =>
    intro u p
    simp only [simple, List.mem_singleton]
    constructor
    · rintro rfl; simp
    · rintro ⟨h1, _, _, h4⟩
      match p, h1, h4 with
      | [x], h1, _ => simpa using h1
      | _ :: _ :: _, _, h4 => simp at h4
  | succ fuel ih =>
    intro u p
    simp only [simple, List.mem_cons, List.mem_flatMap]
    constructor
    · rintro (rfl | ⟨c, _, h⟩)
      · simp
      · split at h
        · rename_i hadj
          rw [Bool.or_eq_true, decide_eq_true_eq, decide_eq_true_eq] at hadj
          obtain ⟨q, hq, rfl⟩ := List.mem_map.1 h
          rw [List.mem_filter, ih, decide_eq_true_eq] at hq
          obtain ⟨⟨h1, h2, h3, h4⟩, h5⟩ := hq
          refine ⟨rfl, List.nodup_cons.2 ⟨h5, h2⟩, ?_, by simpa using h4⟩
          match q, h1, h3 with
          | x :: q, h1, h3 =>
            obtain rfl : x = c := by simpa using h1
            exact List.isChain_cons_cons.2 ⟨hadj, h3⟩
        · cases h
    · rintro ⟨h1, h2, h3, h4⟩
      match p, h1, h2, h3, h4 with
      | [x], h1, _, _, _ => left; simpa using h1
      | x :: c :: q, h1, h2, h3, h4 =>
        obtain rfl : x = u := by simpa using h1
        right
        rw [List.isChain_cons_cons] at h3
        have hadj := h3.1
        refine ⟨c, ?_, ?_⟩
        · rcases hadj with e | e
          · exact (hN _ _ e).2
          · exact (hN _ _ e).1
        · rw [if_pos (by rw [Bool.or_eq_true, decide_eq_true_eq, decide_eq_true_eq]; exact hadj)]
          refine List.mem_map.2 ⟨c :: q, ?_, rfl⟩
          rw [List.mem_filter, ih, decide_eq_true_eq]
          exact ⟨⟨rfl, (List.nodup_cons.1 h2).2, h3.2, by simpa using h4⟩, (List.nodup_cons.1 h2).1⟩

theorem blocked_iff {N : List ι} (hac : Acyclic E) (hN : ∀ a b, E a b → a ∈ N ∧ b ∈ N) {Z p : List ι} :
    blocked E N Z p = true ↔ Blocked E Z p := by
  unfold blocked Blocked
  rw [List.any_eq_true]
  constructor
  · rintro ⟨⟨a, b, c⟩, h1, h2⟩
    refine ⟨a, b, c, mem_triples.1 h1, ?_⟩
    split at h2
    · rename_i hc
      rw [Bool.and_eq_true, decide_eq_true_eq, decide_eq_true_eq] at hc
      refine Or.inl ⟨hc, ?_⟩
      intro d hd hz
      rw [List.all_eq_true] at h2
      have := h2 d hz
      rw [Bool.not_eq_true', (reach_iff hac hN).2 hd] at this
      cases this
    · rename_i hc
      rw [Bool.and_eq_true, decide_eq_true_eq, decide_eq_true_eq] at hc
      exact Or.inr ⟨hc, by simpa using h2⟩
  · rintro ⟨a, b, c, h1, h2⟩
    refine ⟨(a, b, c), mem_triples.2 h1, ?_⟩
    rcases h2 with ⟨h2, h3⟩ | ⟨h2, h3⟩
    · rw [if_pos (by rw [Bool.and_eq_true, decide_eq_true_eq, decide_eq_true_eq]; exact h2), List.all_eq_true]
      intro d hd
      rw [Bool.not_eq_true', ← Bool.not_eq_true, reach_iff hac hN]
      exact fun hh => h3 d hh hd
    · rw [if_neg (by rw [Bool.and_eq_true, decide_eq_true_eq, decide_eq_true_eq]; exact h2)]
      simpa using h3

theorem dsep_iff {N : List ι} (hac : Acyclic E) (hN : ∀ a b, E a b → a ∈ N ∧ b ∈ N) {u v : ι} (hu : u ∈ N) {Z : List ι} :
    dsep E N u v Z = true ↔ DSep E u v Z := by
  unfold dsep DSep
  rw [List.all_eq_true]
  constructor
  · rintro h p ⟨h1, h2, h3, h4⟩
    have hlen : p.length ≤ N.length + 1 := by
      refine Nat.le_succ_of_le (List.Nodup.length_le_of_subset h3 ?_)
      intro x hx
      obtain ⟨i, hi, rfl⟩ := List.mem_iff_getElem.1 hx
      cases i with
      | zero =>
        rw [List.head?_eq_getElem?, List.getElem?_eq_getElem hi] at h1
        simp only [Option.some.injEq] at h1
        rw [h1]; exact hu
      | succ i =>
        rcases List.isChain_iff_getElem.1 h4 i (by omega) with e | e
        · exact (hN _ _ e).2
        · exact (hN _ _ e).1
    have := h p ((mem_simple hN _ _ _).2 ⟨h1, h3, h4, hlen⟩)
    rw [Bool.or_eq_true, Bool.not_eq_true', decide_eq_false_iff_not] at this
    rcases this with this | this
    · exact absurd h2 this
    · exact (blocked_iff hac hN).1 this
  · intro h p hp
    obtain ⟨h1, h3, h4, _⟩ := (mem_simple hN _ _ _).1 hp
    rw [Bool.or_eq_true, Bool.not_eq_true', decide_eq_false_iff_not]
    by_cases h2 : p.getLast? = some v
    · exact Or.inr ((blocked_iff hac hN).2 (h p ⟨h1, h2, h3, h4⟩))
    · exact Or.inl h2

omit [DecidableEq ι] [DecidableRel E] in
/-- acyclicity from an order of the nodes -/
theorem acyclic_of_lt {E : ι → ι → Prop} (f : ι → Nat) (h : ∀ a b, E a b → f a < f b) : Acyclic E := by
  intro a ha
  have : ∀ b, Relation.TransGen E a b → f a < f b := by
    intro b hb
    induction hb with
    | single e => exact h _ _ e
    | tail _ e ih => exact Nat.lt_trans ih (h _ _ e)
  exact absurd (this a ha) (Nat.lt_irrefl _)

end Dag
end Verif
