import Verif.Paths.Lemmas

/-!
# Helper lemmas: blocking tests and directed searches
-/

namespace Verif
namespace Graph
variable {ι δ : Type} [DecidableEq ι] {g : Graph ι δ}

omit [DecidableEq ι] in
theorem infix_triple_cons {a b c x y z : ι} {rest : List ι} :
    [x, y, z] <:+: (a :: b :: c :: rest) ↔ (x = a ∧ y = b ∧ z = c) ∨ [x, y, z] <:+: (b :: c :: rest) := by
  rw [List.infix_cons_iff]
  simp [List.cons_prefix_cons]

omit [DecidableEq ι] in
theorem not_infix_triple_short {x y z : ι} {p : List ι} (hp : p.length < 3) : ¬ [x, y, z] <:+: p := by
  intro h
  have := h.length_le
  simp at this
  omega

theorem isCollider_iff {a b c : ι} : g.isCollider a b c = true ↔ ColliderAt g a b c := by
  simp [isCollider, ColliderAt]

theorem isDefiniteNoncollider_iff {a b c : ι} :
    g.isDefiniteNoncollider a b c = true ↔ DefiniteNoncolliderAt g a b c := by
  unfold isDefiniteNoncollider DefiniteNoncolliderAt
  rw [← isCollider_iff]
  cases g.edgeOfTypeExists b a .directed <;> cases g.edgeOfTypeExists b c .directed <;>
    cases g.edgeExists a c <;> cases g.isCollider a b c <;> simp

theorem nonCollider_iff (cs : List (Ref ι)) : ∀ p : List ι,
    g.isANonColliderInConditioningSet cs p = true ↔
      ∃ a b c, [a, b, c] <:+: p ∧ ¬ ColliderAt g a b c ∧ Ref.node b ∈ cs := by
  intro p
  induction p using isANonColliderInConditioningSet.induct with
  | case1 a b c rest ih =>
    rw [isANonColliderInConditioningSet, Bool.or_eq_true, ih]
    simp only [infix_triple_cons]
    constructor
    · rintro (h | ⟨x, y, z, h1, h2⟩)
      · simp only [Bool.and_eq_true, decide_eq_true_eq, Bool.not_eq_true'] at h
        refine ⟨a, b, c, Or.inl ⟨rfl, rfl, rfl⟩, ?_, h.1⟩
        rw [← isCollider_iff, isCollider, h.2]; simp
      · exact ⟨x, y, z, Or.inr h1, h2⟩
    · rintro ⟨x, y, z, ⟨rfl, rfl, rfl⟩ | h1, h2, h3⟩
      · left
        rw [← isCollider_iff, isCollider] at h2
        simp only [Bool.and_eq_true, decide_eq_true_eq, Bool.not_eq_true']
        exact ⟨h3, by simpa using h2⟩
      · exact Or.inr ⟨x, y, z, h1, h2, h3⟩
  | case2 p hp =>
    have : p.length < 3 := by
      match p, hp with
      | [], _ => simp
      | [_], _ => simp
      | [_, _], _ => simp
      | a :: b :: c :: r, hp => exact absurd rfl (hp a b c r)
    constructor
    · intro h
      unfold isANonColliderInConditioningSet at h
      split at h
      · rename_i hx; exact absurd rfl (hp _ _ _ _)
      · cases h
    · rintro ⟨x, y, z, h1, _⟩
      exact absurd h1 (not_infix_triple_short this)

theorem definiteNonCollider_iff (cs : List (Ref ι)) : ∀ p : List ι,
    g.isDefiniteNoncolliderInConditioningSet cs p = true ↔
      ∃ a b c, [a, b, c] <:+: p ∧ DefiniteNoncolliderAt g a b c ∧ Ref.node b ∈ cs := by
  intro p
  induction p using isDefiniteNoncolliderInConditioningSet.induct with
  | case1 a b c rest ih =>
    rw [isDefiniteNoncolliderInConditioningSet, Bool.or_eq_true, ih]
    simp only [infix_triple_cons]
    constructor
    · rintro (h | ⟨x, y, z, h1, h2⟩)
      · simp only [Bool.and_eq_true, decide_eq_true_eq] at h
        exact ⟨a, b, c, Or.inl ⟨rfl, rfl, rfl⟩, isDefiniteNoncollider_iff.1 h.2, h.1⟩
      · exact ⟨x, y, z, Or.inr h1, h2⟩
    · rintro ⟨x, y, z, ⟨rfl, rfl, rfl⟩ | h1, h2, h3⟩
      · left
        simp only [Bool.and_eq_true, decide_eq_true_eq]
        exact ⟨h3, isDefiniteNoncollider_iff.2 h2⟩
      · exact Or.inr ⟨x, y, z, h1, h2, h3⟩
  | case2 p hp =>
    have : p.length < 3 := by
      match p, hp with
      | [], _ => simp
      | [_], _ => simp
      | [_, _], _ => simp
      | a :: b :: c :: r, hp => exact absurd rfl (hp a b c r)
    constructor
    · intro h
      unfold isDefiniteNoncolliderInConditioningSet at h
      split at h
      · rename_i hx; exact absurd rfl (hp _ _ _ _)
      · cases h
    · rintro ⟨x, y, z, h1, _⟩
      exact absurd h1 (not_infix_triple_short this)

theorem definiteStatus_iff : ∀ p : List ι, g.isPathOfDefiniteStatus p = true ↔ DefiniteStatus g p := by
  intro p
  induction p using isPathOfDefiniteStatus.induct (g := g) with
  | case1 a b c rest hc ih =>
    rw [isPathOfDefiniteStatus, if_pos hc, ih]
    unfold DefiniteStatus
    simp only [infix_triple_cons]
    constructor
    · rintro h x y z (⟨rfl, rfl, rfl⟩ | h1)
      · exact Or.inl (isCollider_iff.1 hc)
      · exact h x y z h1
    · intro h x y z h1; exact h x y z (Or.inr h1)
  | case2 a b c rest hc hn ih =>
    rw [isPathOfDefiniteStatus, if_neg hc, if_pos hn, ih]
    unfold DefiniteStatus
    simp only [infix_triple_cons]
    constructor
    · rintro h x y z (⟨rfl, rfl, rfl⟩ | h1)
      · exact Or.inr (isDefiniteNoncollider_iff.1 hn)
      · exact h x y z h1
    · intro h x y z h1; exact h x y z (Or.inr h1)
  | case3 a b c rest hc hn =>
    rw [isPathOfDefiniteStatus, if_neg hc, if_neg hn]
    constructor
    · intro h; cases h
    · intro h
      rcases h a b c ⟨[], rest, by simp⟩ with h | h
      · exact absurd (isCollider_iff.2 h) hc
      · exact absurd (isDefiniteNoncollider_iff.2 h) hn
  | case4 p hp =>
    have hl : p.length < 3 := by
      match p, hp with
      | [], _ => simp
      | [_], _ => simp
      | [_, _], _ => simp
      | a :: b :: c :: r, hp => exact absurd rfl (hp a b c r)
    constructor
    · intro _ a b c h; exact absurd h (not_infix_triple_short hl)
    · intro _
      unfold isPathOfDefiniteStatus
      split
      · rename_i hx; exact absurd rfl (hp _ _ _ _)
      · rfl

theorem edgeOfType_directed {a b : ι} {t : EType} (h : g.edgeOfTypeExists a b t = true) :
    g.directedEdgeExists a b = true := by
  unfold edgeOfTypeExists at h
  cases hd : g.directedEdgeExists a b
  · rw [hd] at h; simp at h
  · rfl

/-- The collider test always finishes. -/
theorem colliderGo_total (h : WF0 g) {ord : List ι → List ι} (hord : SetOrder ord) {fuel : Nat}
    (hf : g.nodes.length ≤ fuel) (cs : List (Ref ι)) : ∀ (p : List ι) (acc : Bool),
    ∃ b, colliderBlockingGo g ord fuel cs acc p = some b := by
  intro p
  induction p with
  | nil => intro acc; exact ⟨acc, rfl⟩
  | cons a p ih =>
    intro acc
    match p, ih with
    | [], _ => exact ⟨acc, rfl⟩
    | [b], _ => exact ⟨acc, rfl⟩
    | b :: c :: rest, ih =>
      rw [colliderBlockingGo]
      split
      · rename_i hc
        obtain ⟨l, h1, _, _⟩ := descendants_exact h hord
          (directed_mem_nodes (edgeOfType_directed (isCollider_iff.1 hc).1)).2
        rw [h1 fuel hf]
        exact ih _
      · exact ih _

/-- a collider on the path without a descendant in the conditioning set -/
def BlockingCollider (g : Graph ι δ) (cs : List (Ref ι)) (a b c : ι) : Prop :=
  ColliderAt g a b c ∧ ∀ d, Relation.ReflTransGen (OneWay g) b d → Ref.node d ∉ cs

theorem colliderGo_true (h : WF0 g) {ord : List ι → List ι} (hord : SetOrder ord) {fuel : Nat}
    (hf : g.nodes.length ≤ fuel) (cs : List (Ref ι)) : ∀ (p : List ι) (acc : Bool),
    colliderBlockingGo g ord fuel cs acc p = some true →
      acc = true ∨ ∃ a b c, [a, b, c] <:+: p ∧ BlockingCollider g cs a b c := by
  intro p
  induction p with
  | nil => intro acc h; exact Or.inl (by simpa [colliderBlockingGo] using h)
  | cons a p ih =>
    intro acc hgo
    match p, ih, hgo with
    | [], _, hgo => exact Or.inl (by simpa [colliderBlockingGo] using hgo)
    | [b], _, hgo => exact Or.inl (by simpa [colliderBlockingGo] using hgo)
    | b :: c :: rest, ih, hgo =>
      rw [colliderBlockingGo] at hgo
      split at hgo
      · rename_i hc
        obtain ⟨l, h1, _, h3⟩ := descendants_exact h hord
          (directed_mem_nodes (edgeOfType_directed (isCollider_iff.1 hc).1)).2
        rw [h1 fuel hf] at hgo
        rcases ih _ hgo with h4 | ⟨x, y, z, h4, h5⟩
        · right
          refine ⟨a, b, c, infix_triple_cons.2 (Or.inl ⟨rfl, rfl, rfl⟩), isCollider_iff.1 hc, ?_⟩
          intro d hd hm
          simp only [Bool.not_eq_true', List.any_eq_false, decide_eq_true_eq] at h4
          exact h4 d ((h3 d).2 hd) hm
        · exact Or.inr ⟨x, y, z, infix_triple_cons.2 (Or.inr h4), h5⟩
      · rcases ih _ hgo with h4 | ⟨x, y, z, h4, h5⟩
        · exact Or.inl h4
        · exact Or.inr ⟨x, y, z, infix_triple_cons.2 (Or.inr h4), h5⟩

theorem colliderGo_keep {ord : List ι → List ι} {fuel : Nat} (cs : List (Ref ι)) : ∀ (p : List ι) (acc : Bool),
    (∀ a b c, [a, b, c] <:+: p → ¬ ColliderAt g a b c) → colliderBlockingGo g ord fuel cs acc p = some acc := by
  intro p
  induction p with
  | nil => intro acc _; rfl
  | cons a p ih =>
    intro acc hno
    match p, ih, hno with
    | [], _, _ => rfl
    | [b], _, _ => rfl
    | b :: c :: rest, ih, hno =>
      rw [colliderBlockingGo, if_neg]
      · exact ih acc (fun x y z hx => hno x y z (infix_triple_cons.2 (Or.inr hx)))
      · rw [isCollider_iff]; exact hno a b c (infix_triple_cons.2 (Or.inl ⟨rfl, rfl, rfl⟩))

/-- With a single collider on a path without repetitions the test is exact. -/
theorem colliderGo_single (h : WF0 g) {ord : List ι → List ι} (hord : SetOrder ord) {fuel : Nat}
    (hf : g.nodes.length ≤ fuel) (cs : List (Ref ι)) : ∀ (p : List ι) (acc : Bool), p.Nodup →
    (∀ a b c a' b' c', [a, b, c] <:+: p → [a', b', c'] <:+: p → ColliderAt g a b c → ColliderAt g a' b' c' → b = b') →
    (∃ a b c, [a, b, c] <:+: p ∧ BlockingCollider g cs a b c) →
    colliderBlockingGo g ord fuel cs acc p = some true := by
  intro p
  induction p with
  | nil => rintro acc _ _ ⟨a, b, c, h1, _⟩; exact absurd h1 (not_infix_triple_short (by simp))
  | cons a p ih =>
    rintro acc hnd huniq ⟨x, y, z, h1, h2⟩
    match p, ih, hnd, huniq, h1 with
    | [], _, _, _, h1 => exact absurd h1 (not_infix_triple_short (by simp))
    | [b], _, _, _, h1 => exact absurd h1 (not_infix_triple_short (by simp))
    | b :: c :: rest, ih, hnd, huniq, h1 =>
      have huniq' : ∀ a₁ b₁ c₁ a' b' c', [a₁, b₁, c₁] <:+: (b :: c :: rest) → [a', b', c'] <:+: (b :: c :: rest) →
          ColliderAt g a₁ b₁ c₁ → ColliderAt g a' b' c' → b₁ = b' := fun a₁ b₁ c₁ a' b' c' i1 i2 =>
        huniq a₁ b₁ c₁ a' b' c' (infix_triple_cons.2 (Or.inr i1)) (infix_triple_cons.2 (Or.inr i2))
      rw [colliderBlockingGo]
      by_cases hc : g.isCollider a b c = true
      · rw [if_pos hc]
        -- no further collider
        have hno : ∀ a₁ b₁ c₁, [a₁, b₁, c₁] <:+: (b :: c :: rest) → ¬ ColliderAt g a₁ b₁ c₁ := by
          intro a₁ b₁ c₁ i hcol
          have hb := huniq a b c a₁ b₁ c₁ (infix_triple_cons.2 (Or.inl ⟨rfl, rfl, rfl⟩))
            (infix_triple_cons.2 (Or.inr i)) (isCollider_iff.1 hc) hcol
          subst hb
          obtain ⟨s, t, hst⟩ := i
          have hnd' : (b :: c :: rest).Nodup := (List.nodup_cons.1 hnd).2
          cases s with
          | nil =>
            simp only [List.nil_append, List.cons_append, List.cons.injEq] at hst
            rw [List.nodup_cons] at hnd'
            exact hnd'.1 (by rw [hst.2.1]; exact List.mem_cons_self)
          | cons s0 s =>
            simp only [List.cons_append, List.cons.injEq] at hst
            rw [List.nodup_cons] at hnd'
            apply hnd'.1
            rw [← hst.2]
            simp
        have hy : y = b := huniq x y z a b c h1 (infix_triple_cons.2 (Or.inl ⟨rfl, rfl, rfl⟩)) h2.1 (isCollider_iff.1 hc)
        subst hy
        obtain ⟨l, d1, _, d3⟩ := descendants_exact h hord
          (directed_mem_nodes (edgeOfType_directed (isCollider_iff.1 hc).1)).2
        rw [d1 fuel hf]
        simp only
        rw [colliderGo_keep cs _ _ hno]
        congr 1
        simp only [Bool.not_eq_true', List.any_eq_false, decide_eq_true_eq]
        exact fun d hd => h2.2 d ((d3 d).1 hd)
      · rw [if_neg hc]
        rcases infix_triple_cons.1 h1 with ⟨rfl, rfl, rfl⟩ | h1
        · exact absurd (isCollider_iff.2 h2.1) hc
        · exact ih acc (List.nodup_cons.1 hnd).2 huniq' ⟨x, y, z, h1, h2⟩

omit [DecidableEq ι] in
theorem dsepLoop_eq {blocked : List ι → Option Bool} {B : List ι → Bool} : ∀ (ps : List (List ι)) (res : List Bool),
    (∀ p ∈ ps, blocked p = some (B p)) → (∀ p ∈ ps, p.length = 2 → B p = false) →
    dsepLoop blocked ps res = .ok (!res.contains false && ps.all B) := by
  intro ps
  induction ps with
  | nil => intro res _ _; simp [dsepLoop]
  | cons p ps ih =>
    intro res h1 h2
    rw [dsepLoop]
    split
    · rename_i hl
      rw [List.all_cons, h2 p List.mem_cons_self hl]; simp
    · rw [h1 p List.mem_cons_self]
      simp only
      rw [ih _ (fun q hq => h1 q (List.mem_cons_of_mem _ hq)) (fun q hq => h2 q (List.mem_cons_of_mem _ hq))]
      congr 1
      rw [List.all_cons]
      cases B p <;> cases hc : res.contains false <;> simp_all

omit [DecidableEq ι] in
theorem short_of_length_two {p : List ι} (hp : p.length = 2) (a b c : ι) : ¬ [a, b, c] <:+: p :=
  not_infix_triple_short (by omega)

/-- blocked in the sense of the dag query, for the model's own collider notion -/
def dagBlocked (g : Graph ι δ) (ord : List ι → List ι) (fuel : Nat) (cs : List (Ref ι)) (p : List ι) : Bool :=
  (g.isAColliderBlocking ord fuel cs p == some true) || g.isANonColliderInConditioningSet cs p

theorem dag_answer (h : WF0 g) {ord : List ι → List ι} (hord : SetOrder ord) {fuel : Nat}
    (hf : g.nodes.length ≤ fuel) {u v : ι} (hu : u ∈ g.nodes) {cs : List (Ref ι)}
    (hcs : ¬ (Ref.id u ∈ cs ∨ Ref.id v ∈ cs)) :
    ∃ ps : List (List ι), (∀ p, p ∈ ps ↔ SimplePath g u v p) ∧
      g.areNodesDSeparatedDag ord fuel u v cs = .ok (ps.all (g.dagBlocked ord fuel cs)) := by
  obtain ⟨ps, h1, _, h3⟩ := allPaths_exact h hu v
  refine ⟨ps, h3, ?_⟩
  unfold areNodesDSeparatedDag
  rw [if_neg hcs, h1 fuel hf]
  cases ps with
  | nil => rfl
  | cons p ps =>
    simp only
    rw [dsepLoop_eq (B := g.dagBlocked ord fuel cs)]
    · simp
    · intro q _
      obtain ⟨b, hb⟩ := colliderGo_total h hord hf cs q false
      unfold dagBlocked isAColliderBlocking
      rw [hb]
      cases b <;> rfl
    · intro q _ hq
      unfold dagBlocked isAColliderBlocking
      rw [colliderGo_keep cs q false (fun a b c hi => absurd hi (short_of_length_two hq a b c))]
      simp only [Bool.or_eq_false_iff]
      refine ⟨rfl, ?_⟩
      rw [Bool.eq_false_iff]
      intro hh
      obtain ⟨a, b, c, hi, _⟩ := (nonCollider_iff cs q).1 hh
      exact short_of_length_two hq a b c hi

/-- blocked in the sense of the cpdag query -/
def cpdagBlocked (g : Graph ι δ) (ord : List ι → List ι) (fuel : Nat) (cs : List (Ref ι)) (p : List ι) : Bool :=
  g.isPathOfDefiniteStatus p &&
  (g.isDefiniteNoncolliderInConditioningSet cs p || (g.isAColliderBlocking ord fuel cs p == some true))

theorem cpdag_answer (h : WF0 g) {ord : List ι → List ι} (hord : SetOrder ord) {fuel : Nat}
    (hf : g.nodes.length ≤ fuel) {u v : ι} (hu : u ∈ g.nodes) {cs : List (Ref ι)}
    (hcs : ¬ (Ref.id u ∈ cs ∨ Ref.id v ∈ cs)) :
    ∃ ps : List (List ι), (∀ p, p ∈ ps ↔ SimplePath g u v p) ∧
      g.areNodesDSeparatedCpdag ord fuel u v cs = .ok (ps.all (g.cpdagBlocked ord fuel cs)) := by
  obtain ⟨ps, h1, _, h3⟩ := allPaths_exact h hu v
  refine ⟨ps, h3, ?_⟩
  unfold areNodesDSeparatedCpdag
  rw [if_neg hcs, h1 fuel hf]
  cases ps with
  | nil => rfl
  | cons p ps =>
    simp only
    rw [dsepLoop_eq (B := g.cpdagBlocked ord fuel cs)]
    · simp
    · intro q _
      obtain ⟨b, hb⟩ := colliderGo_total h hord hf cs q false
      unfold cpdagBlocked isAColliderBlocking
      rw [hb]
      cases b <;> cases g.isPathOfDefiniteStatus q <;> rfl
    · intro q _ hq
      unfold cpdagBlocked isAColliderBlocking
      rw [colliderGo_keep cs q false (fun a b c hi => absurd hi (short_of_length_two hq a b c))]
      have : g.isDefiniteNoncolliderInConditioningSet cs q = false := by
        rw [Bool.eq_false_iff]
        intro hh
        obtain ⟨a, b, c, hi, _⟩ := (definiteNonCollider_iff cs q).1 hh
        exact short_of_length_two hq a b c hi
      rw [this]; simp

/-! ### relation to a stored DAG -/

theorem StoresDag.edgeExists {E : ι → ι → Prop} (hE : StoresDag g E) (h : WF0 g) (a b : ι) :
    g.edgeExists a b = true ↔ Dag.Adj E a b := by
  rw [edgeExists_eq h, Bool.or_eq_true, ← directedEdgeExists_eq h, ← directedEdgeExists_eq h, hE.live, hE.live]
  rfl

theorem StoresDag.collider {E : ι → ι → Prop} (hE : StoresDag g E) (a b c : ι) :
    ColliderAt g a b c ↔ Dag.Collider E a b c := by
  have : ∀ a b, g.edgeOfTypeExists a b .directed = true ↔ E a b := fun a b =>
    ⟨fun h => (hE.live a b).1 (edgeOfType_directed h), hE.typed a b⟩
  unfold ColliderAt Dag.Collider
  rw [this, this]

theorem StoresDag.oneWay {E : ι → ι → Prop} (hE : StoresDag g E) : OneWay g = E := by
  funext a b
  apply propext
  unfold OneWay
  rw [hE.live]
  constructor
  · exact fun h => h.1
  · intro h
    refine ⟨h, ?_⟩
    rw [Bool.eq_false_iff, Ne, hE.live]
    exact Dag.Acyclic.asymm hE.acyclic h

theorem StoresDag.path {E : ι → ι → Prop} (hE : StoresDag g E) (h : WF0 g) {u v : ι} {p : List ι} :
    SimplePath g u v p ↔ Dag.IsPath E u v p := by
  unfold SimplePath Dag.IsPath
  have : (fun a b => g.edgeExists a b = true) = Dag.Adj E := by
    funext a b; exact propext (hE.edgeExists h a b)
  rw [this]

/-! ## directed searches -/

theorem length_filter_lt {α : Type} {p q : α → Bool} : ∀ {l : List α}, (∀ x ∈ l, p x = true → q x = true) →
    (∃ x ∈ l, q x = true ∧ p x = false) → (l.filter p).length < (l.filter q).length := by
  intro l
  induction l with
  | nil => rintro _ ⟨x, hx, _⟩; cases hx
  | cons a l ih =>
    rintro h1 ⟨x, hx, hq, hp⟩
    have hle : (l.filter p).length ≤ (l.filter q).length := by
      have : ∀ l' : List α, (∀ x ∈ l', p x = true → q x = true) → (l'.filter p).length ≤ (l'.filter q).length := by
        intro l'
        induction l' with
        | nil => intro _; simp
        | cons b l' ih' =>
          intro h
          have := ih' (fun x hx => h x (List.mem_cons_of_mem _ hx))
          simp only [List.filter_cons]
          by_cases hb : p b = true
          · rw [if_pos hb, if_pos (h b List.mem_cons_self hb)]; simpa using this
          · rw [if_neg hb]
            split
            · simp only [List.length_cons]; omega
            · exact this
      exact this l (fun x hx => h1 x (List.mem_cons_of_mem _ hx))
    simp only [List.filter_cons]
    rcases List.mem_cons.1 hx with rfl | hx
    · rw [hp, hq]; simp only [Bool.false_eq_true, if_false, if_true, List.length_cons]; omega
    · have := ih (fun x hx => h1 x (List.mem_cons_of_mem _ hx)) ⟨x, hx, hq, hp⟩
      by_cases hb : p a = true
      · rw [if_pos hb, if_pos (h1 a List.mem_cons_self hb)]; simpa using this
      · rw [if_neg hb]
        split
        · simp only [List.length_cons]; omega
        · exact this

omit [DecidableEq ι] in
/-- An acyclic relation on a finite list of nodes has a rank. -/
theorem exists_rank {R : ι → ι → Prop} (hac : Dag.Acyclic R) {l : List ι} (hl : ∀ a b, R a b → b ∈ l) :
    ∃ rk : ι → Nat, (∀ a, rk a ≤ l.length) ∧ ∀ a b, R a b → rk b < rk a := by
  classical
  refine ⟨fun a => (l.filter (fun b => decide (Relation.TransGen R a b))).length, ?_, ?_⟩
  · intro a; exact List.length_filter_le _ _
  · intro a b hab
    apply length_filter_lt
    · intro x _ hx
      simp only [decide_eq_true_eq] at hx ⊢
      exact .head hab hx
    · exact ⟨b, hl a b hab, by simpa using .single hab, by simpa using hac b⟩

theorem anyPath_eq {rec : ι → Except PyErr Bool} {B : ι → Bool} : ∀ {ws : List ι},
    (∀ w ∈ ws, w ∈ g.nodes ∧ rec w = .ok (B w)) → anyPath g rec ws = .ok (ws.any B) := by
  intro ws
  induction ws with
  | nil => intro _; rfl
  | cons w ws ih =>
    intro h
    obtain ⟨h1, h2⟩ := h w List.mem_cons_self
    rw [anyPath, if_neg (by simpa using h1), h2, List.any_cons]
    have ih := ih (fun x hx => h x (List.mem_cons_of_mem _ hx))
    cases B w
    · simpa using ih
    · rfl

theorem getEdge_ok {u v : ι} {e : Edge ι δ} (he : g.edges.get2 u v = some e) : g.getEdge u v = .ok e := by
  unfold getEdge
  rw [get2_isSome_has he, he]; rfl

theorem get2_of_mem_row {u w : ι} {row : Dict ι (Edge ι δ)} (hr : g.edges.get? u = some row) (hw : w ∈ row.keys) :
    ∃ e, g.edges.get2 u w = some e := by
  rw [Dict.mem_keys_iff] at hw
  obtain ⟨e, he⟩ := Option.isSome_iff_exists.1 hw
  exact ⟨e, by unfold Dict.get2; rw [hr]; exact he⟩

theorem live_mem_nodes (a b : ι) (h : Live g a b) : b ∈ g.nodes := (directed_mem_nodes h).2

theorem directedPathExists_spec (h : WF0 g) (hp : Purged g) (v : ι) (rk : ι → Nat)
    (hrk : ∀ a b, Live g a b → rk b < rk a) : ∀ (fuel : Nat) (u : ι), rk u < fuel → g.edges.has u = true →
    ∃ b, directedPathExists g v fuel u = .ok b ∧ (b = true ↔ Relation.TransGen (Live g) u v) := by
  intro fuel
  induction fuel with
  | zero => intro u hu; omega
  | succ f ih =>
    intro u hu hhas
    unfold directedPathExists
    by_cases hd : g.directedEdgeExists u v = true
    · rw [if_pos hd]
      exact ⟨true, rfl, by simpa using .single hd⟩
    · rw [if_neg hd]
      obtain ⟨row, hr⟩ := (Dict.has_iff_exists _ _).1 hhas
      rw [hr]
      simp only
      have hkey : ∀ w ∈ row.keys, Live g u w ∧ w ∈ g.nodes ∧ g.edges.has w = true := by
        intro w hw
        obtain ⟨e, he⟩ := get2_of_mem_row hr hw
        have hl : Live g u w := by
          unfold Live
          rw [directedEdgeExists_eq h]
          exact live_iff.2 ⟨e, he, hp u w e (getEdge_ok he)⟩
        exact ⟨hl, live_mem_nodes _ _ hl, (h.edge u w e he).2.2.2.1⟩
      have hex : ∀ w, ∃ b : Bool, w ∈ row.keys →
          directedPathExists g v f w = .ok b ∧ (b = true ↔ Relation.TransGen (Live g) w v) := by
        intro w
        by_cases hw : w ∈ row.keys
        · obtain ⟨b, hb⟩ := ih w (by have := hrk u w (hkey w hw).1; omega) (hkey w hw).2.2
          exact ⟨b, fun _ => hb⟩
        · exact ⟨true, fun hh => absurd hh hw⟩
      choose B hB using hex
      rw [anyPath_eq (B := B) (fun w hw => ⟨(hkey w hw).2.1, (hB w hw).1⟩)]
      refine ⟨_, rfl, ?_⟩
      rw [List.any_eq_true]
      constructor
      · rintro ⟨w, hw, hb⟩
        exact .head (hkey w hw).1 ((hB w hw).2.1 hb)
      · intro ht
        rcases Relation.TransGen.head'_iff.1 ht with ⟨w, huw, hwv⟩
        obtain ⟨row', hr', hw⟩ := mem_row_of_directed h huw
        rw [hr] at hr'; cases hr'
        refine ⟨w, hw, (hB w hw).2.2 ?_⟩
        rcases Relation.reflTransGen_iff_eq_or_transGen.1 hwv with rfl | hh
        · exact absurd huw hd
        · exact hh

theorem stored_iff {a b : ι} : Stored g a b ↔ ∃ e, g.edges.get2 a b = some e := by
  constructor
  · rintro ⟨e, he⟩
    unfold getEdge at he
    split at he
    · cases he
    · cases hg : g.edges.get2 a b with
      | none => rw [hg] at he; cases he
      | some e' => exact ⟨e', rfl⟩
  · rintro ⟨e, he⟩
    exact ⟨e, getEdge_ok he⟩

theorem stored_of_row {u w : ι} {row : Dict ι (Edge ι δ)} (hr : g.edges.get? u = some row) : w ∈ row.keys ↔ Stored g u w := by
  rw [stored_iff]
  constructor
  · exact get2_of_mem_row hr
  · rintro ⟨e, he⟩
    unfold Dict.get2 at he
    rw [hr] at he
    exact (Dict.mem_keys_iff _ _).2 (Option.isSome_iff_exists.2 ⟨e, he⟩)

theorem stored_mem_nodes (h : WF0 g) {a b : ι} (hs : Stored g a b) : b ∈ g.nodes := by
  obtain ⟨e, he⟩ := stored_iff.1 hs
  exact h.rowsN b (h.edge a b e he).2.2.2.1

theorem stored_iff_live (h : WF0 g) (hp : Purged g) {a b : ι} : Stored g a b ↔ Live g a b := by
  unfold Live
  rw [directedEdgeExists_eq h, live_iff, stored_iff]
  constructor
  · rintro ⟨e, he⟩
    exact ⟨e, he, hp a b e (getEdge_ok he)⟩
  · rintro ⟨e, he, -⟩
    exact ⟨e, he⟩

theorem anyPath_ok {rec : ι → Except PyErr Bool} : ∀ {ws : List ι} {b : Bool}, anyPath g rec ws = .ok b →
    (b = true → ∃ w ∈ ws, rec w = .ok true) ∧ (b = false → ∀ w ∈ ws, rec w = .ok false) := by
  intro ws
  induction ws with
  | nil =>
    intro b h
    cases h
    exact ⟨(fun h => nomatch h), (fun _ w hw => nomatch hw)⟩
  | cons w ws ih =>
    intro b h
    rw [anyPath] at h
    split at h
    · cases h
    · cases hr : rec w with
      | error e => rw [hr] at h; cases h
      | ok b' =>
        rw [hr] at h
        cases b' with
        | true =>
          cases h
          exact ⟨(fun _ => ⟨w, List.mem_cons_self, hr⟩), (fun h => nomatch h)⟩
        | false =>
          obtain ⟨h1, h2⟩ := ih h
          refine ⟨fun hb => ?_, fun hb x hx => ?_⟩
          · obtain ⟨x, hx, he⟩ := h1 hb
            exact ⟨x, List.mem_cons_of_mem _ hx, he⟩
          · rcases List.mem_cons.1 hx with rfl | hx
            · exact hr
            · exact h2 hb x hx

theorem directedPathExists_answers (h : WF0 g) (v : ι) : ∀ (fuel : Nat) (u : ι) (b : Bool), directedPathExists g v fuel u = .ok b →
    (b = true ↔ ∃ w, Relation.ReflTransGen (Stored g) u w ∧ Live g w v) := by
  intro fuel
  induction fuel with
  | zero => intro u b hb; cases hb
  | succ f ih =>
    intro u b hb
    unfold directedPathExists at hb
    by_cases hd : g.directedEdgeExists u v = true
    · rw [if_pos hd] at hb
      cases hb
      exact ⟨fun _ => ⟨u, .refl, hd⟩, fun _ => rfl⟩
    · rw [if_neg hd] at hb
      cases hr : g.edges.get? u with
      | none => rw [hr] at hb; cases hb
      | some row =>
        rw [hr] at hb
        obtain ⟨h1, h2⟩ := anyPath_ok hb
        constructor
        · intro hbt
          obtain ⟨w, hw, he⟩ := h1 hbt
          obtain ⟨x, hx, hl⟩ := (ih w true he).1 rfl
          exact ⟨x, .head ((stored_of_row hr).1 hw) hx, hl⟩
        · rintro ⟨x, hx, hl⟩
          by_contra hbf
          have hf := h2 (by simpa using hbf)
          rcases Relation.ReflTransGen.cases_head hx with rfl | ⟨w, hw, hx⟩
          · exact hd hl
          · have := (ih w false (hf w ((stored_of_row hr).2 hw))).2 ⟨x, hx, hl⟩
            cases this

theorem acyclic_reached {S : ι → ι → Prop} {u : ι}
    (hac : ¬ ∃ w, Relation.ReflTransGen S u w ∧ Relation.TransGen S w w) :
    Dag.Acyclic (fun a b => Relation.ReflTransGen S u a ∧ S a b) := by
  intro a ha
  have key : ∀ b, Relation.TransGen (fun a b => Relation.ReflTransGen S u a ∧ S a b) a b →
      Relation.ReflTransGen S u a ∧ Relation.TransGen S a b := by
    intro b hb
    induction hb with
    | single h => exact ⟨h.1, .single h.2⟩
    | tail _ h ih => exact ⟨ih.1, .tail ih.2 h.2⟩
  exact hac ⟨a, key a ha⟩

theorem directedPathExists_ends (h : WF0 g) (v u : ι) (rk : ι → Nat)
    (hrk : ∀ a b, Relation.ReflTransGen (Stored g) u a → Stored g a b → rk b < rk a) :
    ∀ (fuel : Nat) (a : ι), Relation.ReflTransGen (Stored g) u a → rk a < fuel → g.edges.has a = true →
      ∃ b, directedPathExists g v fuel a = .ok b := by
  intro fuel
  induction fuel with
  | zero => intro a _ ha; omega
  | succ f ih =>
    intro a hua hra hhas
    unfold directedPathExists
    by_cases hd : g.directedEdgeExists a v = true
    · rw [if_pos hd]
      exact ⟨true, rfl⟩
    · rw [if_neg hd]
      obtain ⟨row, hr⟩ := (Dict.has_iff_exists _ _).1 hhas
      rw [hr]
      simp only
      have hex : ∀ w, ∃ b : Bool, w ∈ row.keys → w ∈ g.nodes ∧ directedPathExists g v f w = .ok b := by
        intro w
        by_cases hw : w ∈ row.keys
        · have hs := (stored_of_row hr).1 hw
          obtain ⟨e, he⟩ := stored_iff.1 hs
          obtain ⟨b, hb⟩ := ih w (.tail hua hs) (by have := hrk a w hua hs; omega) (h.edge a w e he).2.2.2.1
          exact ⟨b, fun _ => ⟨stored_mem_nodes h hs, hb⟩⟩
        · exact ⟨true, fun hh => absurd hh hw⟩
      choose B hB using hex
      exact ⟨_, anyPath_eq (B := B) hB⟩

/-- an answer False comes from a search through everything that can be reached -/
theorem directedPathExists_false_step (v : ι) (f : Nat) (u w : ι) (h : directedPathExists g v (f + 1) u = .ok false)
    (hw : Stored g u w) : directedPathExists g v f w = .ok false := by
  unfold directedPathExists at h
  split at h
  · cases h
  · cases hr : g.edges.get? u with
    | none => rw [hr] at h; cases h
    | some row =>
      rw [hr] at h
      exact (anyPath_ok h).2 rfl w ((stored_of_row hr).2 hw)

theorem directedPathExists_false_no_cycle (v : ι) : ∀ (fuel : Nat) (u : ι), directedPathExists g v fuel u = .ok false →
    ¬ ∃ w, Relation.ReflTransGen (Stored g) u w ∧ Relation.TransGen (Stored g) w w := by
  intro fuel
  induction fuel using Nat.strong_induction_on with
  | _ fuel ih =>
    rintro u h ⟨w, huw, hww⟩
    -- along a path the fuel goes down and the answer stays False
    have key : ∀ {a b : ι}, Relation.TransGen (Stored g) a b → ∀ n, directedPathExists g v n a = .ok false →
        ∃ m < n, directedPathExists g v m b = .ok false := by
      intro a b hab
      induction hab with
      | single hs =>
        intro n hn
        cases n with
        | zero => cases hn
        | succ n => exact ⟨n, by omega, directedPathExists_false_step v n _ _ hn hs⟩
      | tail _ hs ih =>
        intro n hn
        obtain ⟨m, hm, hm'⟩ := ih n hn
        cases m with
        | zero => cases hm'
        | succ m => exact ⟨m, by omega, directedPathExists_false_step v m _ _ hm' hs⟩
    rcases Relation.reflTransGen_iff_eq_or_transGen.1 huw with rfl | hu
    · obtain ⟨m, hm, hm'⟩ := key hww fuel h
      exact ih m hm _ hm' ⟨_, .refl, hww⟩
    · obtain ⟨m, hm, hm'⟩ := key hu fuel h
      exact ih m hm w hm' ⟨w, .refl, hww⟩

theorem pathsLoop_ok_mem {u : ι} {rec : ι → Except PyErr (List (List (ι × ι)))} : ∀ {ws : List ι}
    {r : List (List (ι × ι))}, pathsLoop g u rec ws = .ok r → ∀ p, p ∈ r ↔
      ∃ w ∈ ws, g.directedEdgeExists u w = true ∧ ∃ ps, rec w = .ok ps ∧ ∃ q ∈ ps, p = (u, w) :: q := by
  intro ws
  induction ws with
  | nil =>
    intro r h p
    simp only [pathsLoop, Except.ok.injEq] at h
    subst h; simp
  | cons w ws ih =>
    intro r h p
    rw [pathsLoop] at h
    split at h
    · cases h
    · split at h
      · rename_i hd
        cases hr : rec w with
        | error e => rw [hr] at h; cases h
        | ok ps =>
          rw [hr] at h
          simp only at h
          cases hl : pathsLoop g u rec ws with
          | error e => rw [hl] at h; cases h
          | ok qs =>
            rw [hl] at h
            simp only [Except.ok.injEq] at h
            subst h
            rw [List.mem_append, List.mem_map, ih hl]
            constructor
            · rintro (⟨q, hq, rfl⟩ | ⟨w', h1, h2⟩)
              · exact ⟨w, List.mem_cons_self, hd, ps, hr, q, hq, rfl⟩
              · exact ⟨w', List.mem_cons_of_mem _ h1, h2⟩
            · rintro ⟨w', h1, h2, ps', h3, q, h4, rfl⟩
              rcases List.mem_cons.1 h1 with rfl | h1
              · rw [hr] at h3; cases h3
                exact Or.inl ⟨q, h4, rfl⟩
              · exact Or.inr ⟨w', h1, h2, ps', h3, q, h4, rfl⟩
      · rename_i hd
        rw [ih h]
        constructor
        · rintro ⟨w', h1, h2⟩; exact ⟨w', List.mem_cons_of_mem _ h1, h2⟩
        · rintro ⟨w', h1, h2, h3⟩
          rcases List.mem_cons.1 h1 with rfl | h1
          · exact absurd h2 hd
          · exact ⟨w', h1, h2, h3⟩

theorem isDirPath_cons {v u w : ι} {q : List (ι × ι)} (hq : q ≠ []) :
    IsDirPath g v u ((u, w) :: q) ↔ Live g u w ∧ IsDirPath g v w q := by
  match q, hq with
  | e :: rest, _ => simp [IsDirPath]

/-- exact content of a successful answer -/
theorem directedPaths_mem (h : WF0 g) (v : ι) : ∀ (fuel : Nat) (u : ι) (ps : List (List (ι × ι))),
    directedPaths g v fuel u = .ok ps → ∀ p, p ∈ ps ↔
      IsDirPath g v u p ∧ ∀ e ∈ p.dropLast, ¬ Live g e.1 v := by
  intro fuel
  induction fuel with
  | zero => intro u ps hh; cases hh
  | succ f ih =>
    intro u ps hh p
    unfold directedPaths at hh
    by_cases hd : g.directedEdgeExists u v = true
    · rw [if_pos hd] at hh
      simp only [Except.ok.injEq] at hh
      subst hh
      rw [List.mem_singleton]
      constructor
      · rintro rfl; exact ⟨⟨rfl, hd⟩, by simp⟩
      · rintro ⟨h1, h2⟩
        match p, h1, h2 with
        | [e], h1, _ => rw [h1.1]
        | e :: e' :: r, h1, h2 =>
          exfalso
          apply h2 e (by simp)
          rw [h1.1]; exact hd
    · rw [if_neg hd] at hh
      split at hh
      · cases hh
      · cases hr : g.edges.get? u with
        | none => rw [hr] at hh; cases hh
        | some row =>
          rw [hr] at hh
          simp only at hh
          rw [pathsLoop_ok_mem hh]
          constructor
          · rintro ⟨w, _, hw, qs, hqs, q, hq, rfl⟩
            obtain ⟨i1, i2⟩ := (ih w qs hqs q).1 hq
            have hne : q ≠ [] := by rintro rfl; exact i1
            refine ⟨(isDirPath_cons hne).2 ⟨hw, i1⟩, ?_⟩
            rw [List.dropLast_cons_of_ne_nil hne]
            intro e he
            rcases List.mem_cons.1 he with rfl | he
            · exact hd
            · exact i2 e he
          · rintro ⟨h1, h2⟩
            match p, h1, h2 with
            | [e], h1, _ => exact absurd h1.2 hd
            | (a, w) :: e' :: r, h1, h2 =>
              obtain ⟨ha, hw, hp⟩ := h1
              simp only at ha hw hp
              subst ha
              obtain ⟨row', hr', hwm⟩ := mem_row_of_directed h hw
              rw [hr] at hr'; cases hr'
              have hrec : ∃ qs, directedPaths g v f w = .ok qs := by
                clear h2 ih
                have : ∀ (ws : List ι) r0, pathsLoop g a (directedPaths g v f) ws = .ok r0 → w ∈ ws →
                    ∃ qs, directedPaths g v f w = .ok qs := by
                  intro ws
                  induction ws with
                  | nil => intro _ _ hh; cases hh
                  | cons x ws ih =>
                    intro r0 hl hm
                    rw [pathsLoop] at hl
                    split at hl
                    · cases hl
                    · split at hl
                      · cases hx : directedPaths g v f x with
                        | error e => rw [hx] at hl; cases hl
                        | ok qs =>
                          rw [hx] at hl
                          simp only at hl
                          rcases List.mem_cons.1 hm with rfl | hm
                          · exact ⟨qs, hx⟩
                          · cases hy : pathsLoop g a (directedPaths g v f) ws with
                            | error e => rw [hy] at hl; cases hl
                            | ok y => exact ih y hy hm
                      · rename_i hnd
                        rcases List.mem_cons.1 hm with rfl | hm
                        · exact absurd hw hnd
                        · exact ih r0 hl hm
                exact this _ _ hh hwm
              obtain ⟨qs, hqs⟩ := hrec
              refine ⟨w, hwm, hw, qs, hqs, e' :: r, ?_, rfl⟩
              refine (ih w qs hqs _).2 ⟨hp, ?_⟩
              intro e he
              exact h2 e (by rw [List.dropLast_cons_of_ne_nil (by simp)]; exact List.mem_cons_of_mem _ he)

theorem directedPaths_total (h : WF0 g) (v : ι) (rk : ι → Nat) (hrk : ∀ a b, Live g a b → rk b < rk a) :
    ∀ (fuel : Nat) (u : ι), rk u < fuel → g.edges.has u = true → ∃ ps, directedPaths g v fuel u = .ok ps := by
  intro fuel
  induction fuel with
  | zero => intro u hu; omega
  | succ f ih =>
    intro u hu hhas
    unfold directedPaths
    split
    · exact ⟨_, rfl⟩
    · rw [if_neg (by simpa using h.rowsN u hhas)]
      obtain ⟨row, hr⟩ := (Dict.has_iff_exists _ _).1 hhas
      rw [hr]
      simp only
      have : ∀ ws : List ι, (∀ w ∈ ws, w ∈ row.keys) → ∃ r, pathsLoop g u (directedPaths g v f) ws = .ok r := by
        intro ws
        induction ws with
        | nil => intro _; exact ⟨[], rfl⟩
        | cons w ws ihw =>
          intro hws
          obtain ⟨r, hr2⟩ := ihw (fun x hx => hws x (List.mem_cons_of_mem _ hx))
          obtain ⟨e, he⟩ := get2_of_mem_row hr (hws w List.mem_cons_self)
          have hw := (h.edge u w e he).2.2.2.1
          rw [pathsLoop, if_neg (by simpa using h.rowsN w hw)]
          split
          · rename_i hd
            obtain ⟨ps, hps⟩ := ih w (by have := hrk u w hd; omega) hw
            rw [hps, hr2]
            exact ⟨_, rfl⟩
          · exact ⟨r, hr2⟩
      exact this row.keys (fun _ hx => hx)

end Graph
end Verif
