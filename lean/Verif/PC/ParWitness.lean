import Verif.PC.ParLemmas
import Verif.Par.Lemmas3
import Verif.PC.Props

/-!
# Helper lemmas: a schedule of `ParallelPC` that keeps an edge too many

For every batch size `m` of the triple test: the chain `y → w → z → x` and `m` isolated variables, where `w = 0`, `z = 1`, the
isolated variables are `2 … m + 1`, `y = m + 2` and `x = m + 3`.  Each batch is applied before the next one is generated.  The
triples with `w` and `z` come first and remove `z – y` and `w – x`; then no common neighbour of `x` and `y` is left by the time
the triples with both of them are tested.
-/

namespace Verif
namespace PC
open Graph CI Orient

section general
variable {ι ρ : Type} [DecidableEq ι] {T : Tests ι ρ} {E : ι → ι → Prop}

/-- an adjacency survives an action that does not remove it -/
theorem live_stays {g : CGraph ι ρ} (hwf : WF0 g) (hsym : ∀ a b, g.live a b = true → g.live b a = true) {N : List ι}
    {r : CResult ι ρ} (hr : Proposal T N r) {u v : ι} (hl : g.live u v = true)
    (hno : ¬ (r.action = .removeEdgeUndirected ∧ ((r.u = u ∧ r.v = v) ∨ (r.u = v ∧ r.v = u)))) :
    (applyOne r g).2.live u v = true := by
  rcases hr with hr | hr | ⟨hr, _⟩
  · rw [applyOne_doNothing hr]; exact hl
  · rw [(update_spec hwf hsym hr).1]; exact hl
  · rw [applyOne_removeUndirected hwf hr]
    split
    · simp only [live_addH, live_mark]
      have h1 : ¬ (r.u = u ∧ r.v = v) := fun hh => hno ⟨hr, .inl hh⟩
      have h2 : ¬ (r.v = u ∧ r.u = v) := fun hh => hno ⟨hr, .inr hh.symm⟩
      simp [h1, h2, hl]
    · exact hl

theorem nb_min {cfg : NbCfg ι} (h2 : 2 ≤ cfg.settings.min) {g0 : CGraph ι ρ}
    {ts : List (CGraph ι ρ → List (Yield ι))} (h : pairsWithNeighbours cfg g0 = .ok ts)
    {t : CGraph ι ρ → List (Yield ι)} (ht : t ∈ ts) : ∃ (k : Nat) (x y : ι), cfg.settings.min ≤ (k : Int) ∧ t = nbBody cfg k x y := by
  unfold pairsWithNeighbours at h
  cases hb : cfg.settings.bounds g0.nodes.length with
  | none =>
    rw [hb] at h
    simp only [Except.ok.injEq] at h
    subst h; cases ht
  | some p =>
    obtain ⟨start, stop⟩ := p
    rw [hb] at h
    simp only at h
    have ha := (cfg.settings.bounds_fst _ _ _ hb).1
    by_cases hs : start < 2
    · rw [if_pos hs] at h; cases h
    · rw [if_neg hs] at h
      simp only [Except.ok.injEq] at h
      subst h
      obtain ⟨⟨k, x, y⟩, hp, rfl⟩ := List.mem_map.1 ht
      have hk := (mem_nbPositions g0 start stop k (by omega) x y).1 hp
      exact ⟨k, x, y, by omega, rfl⟩

/-- what the extended test may be asked: a pair and at least two other variables -/
def TwoMore (c : List ι) : Prop := ∃ a b S, c = a :: b :: S ∧ S.Nodup ∧ 2 ≤ S.length

theorem nb_two_more {cfg : NbCfg ι} (hv : cfg.Valid) (h4 : 4 ≤ cfg.settings.min) {g1 : CGraph ι ρ}
    {ts : List (CGraph ι ρ → List (Yield ι))} (hts : pairsWithNeighbours cfg g1 = .ok ts)
    {t : CGraph ι ρ → List (Yield ι)} (ht : t ∈ ts) {g : CGraph ι ρ} (hwf : WF0 g) {y : Yield ι} (hy : y ∈ t g) {c : List ι}
    (hc : c ∈ y.combos) : TwoMore c := by
  obtain ⟨k, a, b, hk, rfl⟩ := nb_min (by omega) hts ht
  obtain ⟨hl, S, hS, rfl⟩ := (nbBody_mem hwf hv (by omega)).1 ⟨y, hy, hc⟩
  obtain ⟨h1, h2⟩ := (mem_combinations _ _ _).1 hS
  exact ⟨a, b, S, rfl, h1.nodup (nodup_others hv _ _ _), by omega⟩

/-- a graph in which `u` and `v` are adjacent and neither has two further neighbours -/
def Thin (u v : ι) (g : CGraph ι ρ) : Prop :=
  g.live u v = true ∧ (∃ p, ∀ q, g.live q u = true → q ≠ v → q = p) ∧ ∃ p, ∀ q, g.live q v = true → q ≠ u → q = p

/-- the extended test with two conditioning variables does not remove a thin pair -/
theorem matrix_thin {g0 g : CGraph ι ρ} (h : Inv T g0 g) {u v : ι} (ht : Thin u v g) {c : List ι} (hc : TwoMore c)
    {rs : List (CResult ι ρ)} (hp : matrixProcess T c g = .ok (some rs)) (r : CResult ι ρ) (hr : r ∈ rs) :
    ¬ (r.action = .removeEdgeUndirected ∧ ((r.u = u ∧ r.v = v) ∨ (r.u = v ∧ r.v = u))) := by
  obtain ⟨a, b, S, rfl, hnd, hlen⟩ := hc
  obtain ⟨hl, ⟨p, hpu⟩, ⟨p', hpv⟩⟩ := ht
  unfold matrixProcess at hp
  simp only at hp
  split at hp
  · cases hp
  split at hp
  · cases hp
  split at hp
  · cases hp
  split at hp
  · cases hp
  split at hp
  · cases hp
  split at hp
  · cases hp
  rename_i hS
  simp only [Bool.not_eq_true, Bool.not_eq_false', List.all_eq_true, Bool.and_eq_true, decide_eq_true_eq] at hS
  have hS' : ∀ z ∈ S, g.live z a = true ∧ z ≠ b := by
    intro z hz
    obtain ⟨h1, h2⟩ := hS z hz
    unfold otherNeighbours at h1
    rw [List.mem_filter, directedEdgeExists_eq h.wf] at h1
    exact ⟨h1.2, h2⟩
  have hru : r.u = a ∧ r.v = b := by
    cases htm : T.tm (a :: b :: S) with
    | error e => rw [htm] at hp; cases hp
    | ok o =>
      rw [htm] at hp
      cases o with
      | none => cases hp
      | some x =>
        simp only [Except.ok.injEq, Option.some.injEq] at hp
        subst hp
        rw [List.mem_singleton] at hr
        subst hr
        cases x <;> exact ⟨rfl, rfl⟩
  -- two different elements cannot both be the only other neighbour
  have two : ∀ q, ¬ ∀ z ∈ S, z = q := by
    intro q hq
    match S, hnd, hlen with
    | z1 :: z2 :: S', hnd, _ =>
      have e1 := hq z1 (by simp)
      have e2 := hq z2 (by simp)
      rw [e1, e2] at hnd
      simp at hnd
  rintro ⟨_, ⟨e1, e2⟩ | ⟨e1, e2⟩⟩
  · rw [hru.1] at e1; rw [hru.2] at e2; subst e1 e2
    exact two p (fun z hz => hpu z (hS' z hz).1 (hS' z hz).2)
  · rw [hru.1] at e1; rw [hru.2] at e2; subst e1 e2
    exact two p' (fun z hz => hpv z (hS' z hz).1 (hS' z hz).2)

/-- the invariant under which the pair stays -/
def Thick (T : Tests ι ρ) (g0 : CGraph ι ρ) (u v : ι) (g : CGraph ι ρ) : Prop := Inv T g0 g ∧ Thin u v g

theorem thick_kept (hsym : ∀ a b, T.pearson a b = T.pearson b a) (g0 : CGraph ι ρ) (u v : ι) :
    Kept (Thick T g0 u v) (fun r => Proposal T g0.nodes r ∧
      ¬ (r.action = .removeEdgeUndirected ∧ ((r.u = u ∧ r.v = v) ∨ (r.u = v ∧ r.v = u)))) := by
  refine ⟨?_, ?_⟩
  · rintro r g ⟨hi, hl, ⟨p, hp⟩, ⟨p', hp'⟩⟩ ⟨hr, hno⟩
    have back : ∀ a b, (applyOne r g).2.live a b = true → g.live a b = true := by
      intro a b hab
      cases hx : g.live a b with
      | true => rfl
      | false => rw [dead_stays hsym hi hr hx] at hab; cases hab
    exact ⟨hi.apply hsym hr, live_stays hi.wf hi.sym hr hl hno, ⟨p, fun q hq => hp q (back _ _ hq)⟩,
      ⟨p', fun q hq => hp' q (back _ _ hq)⟩⟩
  · rintro g ⟨hi, hl, ⟨p, hp⟩, ⟨p', hp'⟩⟩
    refine ⟨hi.purge, ?_⟩
    rw [purge_run hi.wf]
    refine ⟨by rw [live_purgeG]; exact hl, ⟨p, fun q hq => hp q (by rwa [live_purgeG] at hq)⟩,
      ⟨p', fun q hq => hp' q (by rwa [live_purgeG] at hq)⟩⟩

theorem matrix_thick {g0 : CGraph ι ρ} {cfg : NbCfg ι} (hv : cfg.Valid) (h4 : 4 ≤ cfg.settings.min) (u v : ι) :
    (matrixStep T cfg).Safe (Thick T g0 u v) (fun r => Proposal T g0.nodes r ∧
      ¬ (r.action = .removeEdgeUndirected ∧ ((r.u = u ∧ r.v = v) ∨ (r.u = v ∧ r.v = u)))) := by
  obtain ⟨R, hR⟩ := matrix_safe T g0 cfg hv
  refine ⟨fun c => R c ∧ TwoMore c, ?_, ?_⟩
  · intro g1 ts h1 hts t ht g hg y hy c hc
    exact ⟨hR.gen g1 ts h1.1 hts t ht g hg.1 y hy c hc, nb_two_more hv h4 hts ht hg.1.wf hy hc⟩
  · intro c g w rs hg hc hp r hr
    exact ⟨hR.process c g w rs hg.1 hc.1 hp r hr, matrix_thin hg.1 hg.2 hc.2 hp r hr⟩

theorem sampled_thick {g0 : CGraph ι ρ} {cfg : NbCfg ι} (hv : cfg.Valid) (h4 : 4 ≤ cfg.settings.min)
    {keep : Nat → List (Yield ι) → List (Yield ι)} (hk : ∀ i l, (keep i l).Sublist l) (u v : ι) :
    (sampledStep T cfg keep).Safe (Thick T g0 u v) (fun r => Proposal T g0.nodes r ∧
      ¬ (r.action = .removeEdgeUndirected ∧ ((r.u = u ∧ r.v = v) ∨ (r.u = v ∧ r.v = u)))) := by
  obtain ⟨R, hR⟩ := matrix_thick (T := T) (g0 := g0) hv h4 u v
  refine ⟨R, ?_, hR.process⟩
  intro g1 ts h1 hts t ht g hg y hy c hc
  obtain ⟨ts', e1, e2⟩ := sampleGen_mem hk (show sampleGen keep (pairsWithNeighbours cfg) g1 = .ok ts from hts)
  obtain ⟨t', ht', h3⟩ := e2 t ht
  exact hR.gen g1 ts' h1 e1 t' ht' g hg y (h3 g y hy) c hc

/-- positions: what is in a batch that starts before the end of `D` -/
theorem batch_before {α : Type} {L D M C done batch rest : List α} {size : Nat} (hL : L = D ++ M ++ C)
    (h : done ++ (batch ++ rest) = L) (hlen : batch.length ≤ size) (hM : size ≤ M.length + 1) (hd : done.length < D.length) :
    ∀ c ∈ batch, c ∈ D ++ M := by
  intro c hc
  have h1 : (done ++ batch) <+: L := ⟨rest, by rw [← h]; simp⟩
  have h2 : (D ++ M) <+: L := ⟨C, hL.symm⟩
  have h3 : (done ++ batch) <+: (D ++ M) := List.prefix_of_prefix_length_le h1 h2 (by simp; omega)
  exact h3.subset (List.mem_append_right _ hc)

theorem done_before {α : Type} {L D M C done rest : List α} (hL : L = D ++ M ++ C) (h : done ++ rest = L)
    (hd : D.length ≤ done.length) : ∀ c ∈ D, c ∈ done := by
  have h1 : done <+: L := ⟨rest, h⟩
  have h2 : D <+: L := ⟨M ++ C, by rw [hL]; simp⟩
  exact fun c hc => (List.prefix_of_prefix_length_le h2 h1 hd).subset hc

theorem combinations_end {α : Type} (I : List α) (y x : α) : ∃ A, combinations (I ++ [y, x]) 2 = A ++ [[y, x]] ∧
    ∀ c ∈ A, ∃ i b, i ∈ I ∧ c = [i, b] := by
  induction I with
  | nil => exact ⟨[], rfl, by simp⟩
  | cons i I ih =>
    obtain ⟨A, h1, h2⟩ := ih
    refine ⟨(combinations (I ++ [y, x]) 1).map (i :: ·) ++ A, ?_, ?_⟩
    · rw [List.cons_append, combinations, h1, List.append_assoc]
    · intro c hc
      rcases List.mem_append.1 hc with hc | hc
      · obtain ⟨d, hd, rfl⟩ := List.mem_map.1 hc
        obtain ⟨_, hl⟩ := (mem_combinations _ _ _).1 hd
        obtain ⟨b, rfl⟩ := List.length_eq_one_iff.1 hl
        exact ⟨i, b, by simp, rfl⟩
      · obtain ⟨j, b, hj, rfl⟩ := h2 c hc
        exact ⟨j, b, by simp [hj], rfl⟩

end general

/-! ## the instance -/

/-- `y → w → z → x` -/
def chainE (m : Nat) (a b : Nat) : Prop := (a = m + 2 ∧ b = 0) ∨ (a = 0 ∧ b = 1) ∨ (a = 1 ∧ b = m + 3)

instance (m : Nat) : DecidableRel (chainE m) := fun a b => by unfold chainE; infer_instance

/-- `w`, `z`, the isolated variables, `y`, `x` -/
def chainN (m : Nat) : List Nat := 0 :: 1 :: (List.range' 2 m ++ [m + 2, m + 3])

theorem mem_chainN {m a : Nat} : a ∈ chainN m ↔ a < m + 4 := by
  simp only [chainN, List.mem_cons, List.mem_append, List.mem_range'_1, List.not_mem_nil, or_false]
  omega

theorem nodup_chainN (m : Nat) : (chainN m).Nodup := by
  have h := List.nodup_range' (s := 2) (n := m)
  simp only [chainN, List.nodup_cons, List.nodup_append, List.mem_cons, List.mem_append, List.mem_range'_1, List.not_mem_nil,
    or_false, not_or, List.nodup_nil, and_true, not_false_eq_true]
  refine ⟨⟨by omega, by omega⟩, by omega, h, by omega, ?_⟩
  intro a ha b hb
  omega

theorem chainE_acyclic (m : Nat) : Dag.Acyclic (chainE m) := by
  refine Dag.acyclic_of_lt (fun a => if a = m + 2 then 0 else if a = 0 then 1 else if a = 1 then 2 else 3) ?_
  rintro a b (⟨rfl, rfl⟩ | ⟨rfl, rfl⟩ | ⟨rfl, rfl⟩)
  · simp
  · simp
  · simp

theorem chainE_nodes (m : Nat) : ∀ a b, chainE m a b → a ∈ chainN m ∧ b ∈ chainN m := by
  intro a b h
  rw [mem_chainN, mem_chainN]
  unfold chainE at h
  omega

/-- the tests of the instance -/
def chainT (m : Nat) : Tests Nat Int := exactTests (chainE m) (chainN m)

theorem chain_oracle (m : Nat) : Oracle (chainT m) (chainE m) (chainN m) :=
  exactTests_oracle _ _ (chainE_acyclic m) (chainE_nodes m)

/-- what the nodes reach -/
theorem chain_reach {m a b : Nat} (h : Relation.TransGen (chainE m) a b) :
    (a = m + 2 ∧ (b = 0 ∨ b = 1 ∨ b = m + 3)) ∨ (a = 0 ∧ (b = 1 ∨ b = m + 3)) ∨ (a = 1 ∧ b = m + 3) := by
  induction h with
  | single h => unfold chainE at h; omega
  | tail _ h ih => unfold chainE at h; omega

theorem chain_dsep_zy (m : Nat) : Dag.DSep (chainE m) 1 (m + 2) [0] := by
  refine Dag.dsep_parents (chainE_acyclic m) (by omega) ?_ ?_ ?_
  · unfold Dag.Adj chainE; omega
  · intro h; have := chain_reach h; omega
  · intro x; simp only [List.mem_singleton]; unfold chainE; omega

theorem chain_dsep_wx (m : Nat) : Dag.DSep (chainE m) 0 (m + 3) [1] := by
  refine Dag.DSep.symm (Dag.dsep_parents (chainE_acyclic m) (by omega) ?_ ?_ ?_)
  · unfold Dag.Adj chainE; omega
  · intro h; have := chain_reach h; omega
  · intro x; simp only [List.mem_singleton]; unfold chainE; omega

theorem chain_dsep_iso {m i q : Nat} (hi : 2 ≤ i) (hi' : i < m + 2) (hq : i ≠ q) : Dag.DSep (chainE m) i q [] := by
  refine Dag.dsep_parents (chainE_acyclic m) hq ?_ ?_ ?_
  · unfold Dag.Adj chainE; omega
  · intro h; have := chain_reach h; omega
  · intro x; simp only [List.not_mem_nil, false_iff]; unfold chainE; omega

theorem chain_open (m : Nat) : ¬ Dag.DSep (chainE m) (m + 2) (m + 3) [] := by
  intro h
  obtain ⟨a, b, c, h1, ⟨h2, _⟩ | ⟨_, h2⟩⟩ := h [m + 2, 0, 1, m + 3] (by
    refine ⟨rfl, rfl, by simp, ?_⟩
    simp only [List.isChain_cons_cons, List.isChain_singleton, and_true]
    unfold Dag.Adj chainE
    simp)
  · have hsub := h1.sublist.subset
    have ha := hsub (show a ∈ [a, b, c] by simp)
    have hc := hsub (show c ∈ [a, b, c] by simp)
    have hnd := h1.sublist.nodup (by simp : [m + 2, 0, 1, m + 3].Nodup)
    simp only [List.nodup_cons, List.mem_cons, List.not_mem_nil, or_false, not_or] at hnd
    unfold Dag.Collider chainE at h2
    omega
  · cases h2

/-- the triples: first those with `w` and `z`, and those with `x` and `y` not soon -/
theorem chain_triples (m : Nat) : ∃ D M C, combinations (chainN m) 3 = D ++ M ++ C ∧ m ≤ M.length + 1 ∧
    [0, 1, m + 2] ∈ D ∧ [0, 1, m + 3] ∈ D ∧ ∀ c ∈ D ++ M, ¬ (m + 2 ∈ c ∧ m + 3 ∈ c) := by
  obtain ⟨A, hA, hA'⟩ := combinations_end (List.range' 2 m) (m + 2) (m + 3)
  refine ⟨(combinations (List.range' 2 m ++ [m + 2, m + 3]) 1).map (fun d => 0 :: 1 :: d), A.map (0 :: ·),
    [[0, m + 2, m + 3]] ++ combinations (1 :: (List.range' 2 m ++ [m + 2, m + 3])) 3, ?_, ?_, ?_, ?_, ?_⟩
  · unfold chainN
    rw [combinations, combinations, hA]
    simp
  · have hl : (A ++ [[m + 2, m + 3]]).length = (m + 2).choose 2 := by
      rw [← hA, length_combinations]; simp
    rw [List.length_append, List.length_singleton] at hl
    have : (m + 2).choose 2 = (m + 1).choose 1 + (m + 1).choose 2 := Nat.choose_succ_succ _ _
    rw [Nat.choose_one_right] at this
    rw [List.length_map]
    omega
  · refine List.mem_map.2 ⟨[m + 2], (mem_combinations _ _ _).2 ⟨?_, rfl⟩, rfl⟩
    rw [List.singleton_sublist]; simp
  · refine List.mem_map.2 ⟨[m + 3], (mem_combinations _ _ _).2 ⟨?_, rfl⟩, rfl⟩
    rw [List.singleton_sublist]; simp
  · intro c hc
    rcases List.mem_append.1 hc with hc | hc
    · obtain ⟨d, hd, rfl⟩ := List.mem_map.1 hc
      obtain ⟨_, hl⟩ := (mem_combinations _ _ _).1 hd
      obtain ⟨b, rfl⟩ := List.length_eq_one_iff.1 hl
      simp only [List.mem_cons, List.not_mem_nil, or_false]
      omega
    · obtain ⟨d, hd, rfl⟩ := List.mem_map.1 hc
      obtain ⟨i, b, hi, rfl⟩ := hA' d hd
      rw [List.mem_range'_1] at hi
      simp only [List.mem_cons, List.not_mem_nil, or_false]
      omega

theorem partialLoop_ends {ι ρ : Type} [DecidableEq ι] (T : Tests ι ρ) (g : CGraph ι ρ) (c zs : List ι)
    (acc : List (CResult ι ρ)) (done : List (ι × ι)) (hacc : ∀ r ∈ acc, r.u ∈ c ∧ r.v ∈ c) {rs : List (CResult ι ρ)}
    (h : partialLoop T g c zs acc done = .ok (some rs)) : ∀ r ∈ rs, r.u ∈ c ∧ r.v ∈ c := by
  induction zs generalizing acc done with
  | nil =>
    simp only [partialLoop, Except.ok.injEq, Option.some.injEq] at h
    subst h; exact hacc
  | cons z zs ih =>
    unfold partialLoop at h
    split at h
    · rename_i x y _ hf
      have hx : x ∈ c := (List.mem_filter.1 (hf ▸ (by simp : x ∈ x :: y :: _))).1
      have hy : y ∈ c := (List.mem_filter.1 (hf ▸ (by simp : y ∈ x :: y :: _))).1
      split at h
      · exact ih _ _ hacc h
      · split at h
        · split at h
          · cases h
          · cases h
          · refine ih _ _ ?_ h
            intro r hr
            rcases List.mem_append.1 hr with hr | hr
            · exact hacc r hr
            · rw [List.mem_singleton.1 hr]; exact ⟨hx, hy⟩
          · refine ih _ _ ?_ h
            intro r hr
            rcases List.mem_append.1 hr with hr | hr
            · exact hacc r hr
            · rw [List.mem_singleton.1 hr]; exact ⟨hx, hy⟩
        · cases h
    · cases h

theorem partial_proposes {ι ρ : Type} [DecidableEq ι] {g0 g : CGraph ι ρ} {T : Tests ι ρ} (h : Inv T g0 g) {c : List ι}
    (hc : IsTriple c) (hn : ∀ z ∈ c, z ∈ g.nodes) {rs : List (CResult ι ρ)} (hp : partialProcess T c g = .ok (some rs)) :
    ∀ r ∈ rs, Proposal T g0.nodes r := by
  unfold partialProcess at hp
  rw [if_pos (by simpa using hn)] at hp
  exact partialLoop_safe h hc (fun z hz => h.nodes ▸ hn z hz) c (fun _ hz => hz) [] [] (by simp) rs hp

/-- a triple proposes to remove `u – v` only if it contains both and the third node is adjacent to both -/
theorem triple_removes {ι ρ : Type} [DecidableEq ι] {g0 g : CGraph ι ρ} {T : Tests ι ρ} (h : Inv T g0 g) {c : List ι}
    (hc : IsTriple c) (hn : ∀ z ∈ c, z ∈ g.nodes) {u v : ι} (huv : u ≠ v) {rs : List (CResult ι ρ)}
    (hp : partialProcess T c g = .ok (some rs)) {r : CResult ι ρ} (hr : r ∈ rs)
    (hru : (r.u = u ∧ r.v = v) ∨ (r.u = v ∧ r.v = u)) :
    u ∈ c ∧ v ∈ c ∧ ∃ q ∈ c, q ≠ u ∧ q ≠ v ∧ g.live q u = true ∧ g.live q v = true := by
  unfold partialProcess at hp
  rw [if_pos (by simpa using hn)] at hp
  have hrc := partialLoop_ends T g c c [] [] (by simp) hp r hr
  have hu : u ∈ c := by rcases hru with ⟨rfl, rfl⟩ | ⟨rfl, rfl⟩; exacts [hrc.1, hrc.2]
  have hv : v ∈ c := by rcases hru with ⟨rfl, rfl⟩ | ⟨rfl, rfl⟩; exacts [hrc.2, hrc.1]
  refine ⟨hu, hv, ?_⟩
  obtain ⟨a, b, d, rfl, h1, h2, h3⟩ := hc
  have hall : g.edgeExists a b = true ∧ g.edgeExists a d = true ∧ g.edgeExists b d = true := by
    by_contra hno
    rcases C40_aux (T := T) h.wf h1 h2 h3 hno [a, b, d] (fun _ hz => hz) [] with e | e
    · rw [e] at hp; cases hp
    · rw [e] at hp
      simp only [Except.ok.injEq, Option.some.injEq] at hp
      subst hp; cases hr
  obtain ⟨e1, e2, e3⟩ := hall
  obtain ⟨l1, l1'⟩ := h.live_of_exists e1
  obtain ⟨l2, l2'⟩ := h.live_of_exists e2
  obtain ⟨l3, l3'⟩ := h.live_of_exists e3
  simp only [List.mem_cons, List.not_mem_nil, or_false] at hu hv
  rcases hu with rfl | rfl | rfl <;> rcases hv with rfl | rfl | rfl
  · exact absurd rfl huv
  · exact ⟨d, by simp, h2.symm, h3.symm, l2', l3'⟩
  · exact ⟨b, by simp, h1.symm, h3, l1', l3⟩
  · exact ⟨d, by simp, h3.symm, h2.symm, l3', l2'⟩
  · exact absurd rfl huv
  · exact ⟨a, by simp, h1, h2, l1, l2⟩
  · exact ⟨b, by simp, h3, h1.symm, l3, l1'⟩
  · exact ⟨a, by simp, h2, h1, l2, l1⟩
  · exact absurd rfl huv

/-! ## the triple test in the schedule that applies every batch before the next one is generated -/

/-- the state between two batches -/
structure Midway (m : Nat) (L done rest : List (List Nat)) (g : CGraph Nat Int) : Prop where
  split : done ++ rest = L
  live : g.live (m + 2) (m + 3) = true
  zy : [0, 1, m + 2] ∈ done → g.live 1 (m + 2) = false
  wx : [0, 1, m + 3] ∈ done → g.live 0 (m + 3) = false
  iso : ∀ i q, 2 ≤ i → i < m + 2 → g.live i q = false

theorem midway_batch {m size : Nat} (hm : size ≤ m) {g0 : CGraph Nat Int} (hO : Oracle (chainT m) (chainE m) g0.nodes)
    (hc0 : Complete g0) (hn0 : g0.nodes = chainN m)
    (done batch rest : List (List Nat)) (g : CGraph Nat Int) (rs : Results Nat (Info Nat Int))
    (t p : List (CResult Nat Int)) (g' : CGraph Nat Int) (hg : Inv (chainT m) g0 g ∧ HasCorr g)
    (hR : ∀ c ∈ batch, IsTriple c ∧ ∀ z ∈ c, z ∈ g0.nodes)
    (hJ : Midway m (combinations (chainN m) 3) done (batch ++ rest) g) (hlen : batch.length ≤ size)
    (hrs : (partialStep (chainT m)).evalBatch g (batch.map .single) = .ok rs)
    (ha : takeAction false rs g = (.ok (t, p), g')) :
    Midway m (combinations (chainN m) 3) (done ++ batch) rest g' := by
  obtain ⟨hi, hh⟩ := hg
  have hsym := hO.sym
  have hnodes : ∀ c ∈ batch, ∀ z ∈ c, z ∈ g.nodes := fun c hc z hz => hi.nodes ▸ (hR c hc).2 z hz
  have hproc : ∀ l, some l ∈ rs → ∃ c ∈ batch, partialProcess (chainT m) c g = .ok (some l) := by
    intro l hl
    obtain ⟨c, hc, hp⟩ := Step.evalBatch_mem _ g _ rs hrs _ hl
    obtain ⟨c', hc', e⟩ := List.mem_map.1 hc
    cases e
    exact ⟨c, hc', hp⟩
  have hq : ∀ l, some l ∈ rs → ∀ r ∈ l, Proposal (chainT m) g0.nodes r := by
    intro l hl
    obtain ⟨c, hc, hp⟩ := hproc l hl
    exact partial_proposes hi (hR c hc).1 (hnodes c hc) hp
  have dead : ∀ u v, g.live u v = false → g'.live u v = false := by
    intro u v hd
    have := (dead_kept hsym g0 u v).takeAction false rs hq ⟨hi, hd⟩
    rw [ha] at this
    exact this.2
  obtain ⟨D, M, C, hL, hM, hD1, hD2, hDM⟩ := chain_triples m
  -- nothing in this batch removes `y – x`
  have hno : ∀ l, some l ∈ rs → ∀ r ∈ l,
      ¬ (r.action = .removeEdgeUndirected ∧ ((r.u = m + 2 ∧ r.v = m + 3) ∨ (r.u = m + 3 ∧ r.v = m + 2))) := by
    rintro l hl r hr ⟨_, hru⟩
    obtain ⟨c, hc, hp⟩ := hproc l hl
    obtain ⟨hy, hx, q, hqc, hq1, hq2, l1, l2⟩ := triple_removes hi (hR c hc).1 (hnodes c hc) (by omega) hp hr hru
    have hdone : D.length ≤ done.length := by
      by_contra hlt
      exact hDM c (batch_before hL hJ.split hlen (by omega) (by omega) c hc) ⟨hy, hx⟩
    have hsub := done_before hL hJ.split hdone
    have hqn := mem_chainN.1 (hn0 ▸ (hR c hc).2 q hqc)
    by_cases h0 : q = 0
    · subst h0
      rw [hJ.wx (hsub _ hD2)] at l2; cases l2
    by_cases h1 : q = 1
    · subst h1
      rw [hJ.zy (hsub _ hD1)] at l1; cases l1
    · rw [hJ.iso q _ (by omega) (by omega)] at l1; cases l1
  have hlive : g'.live (m + 2) (m + 3) = true := by
    have key := Kept.takeAction (P := fun g => Inv (chainT m) g0 g ∧ g.live (m + 2) (m + 3) = true)
      (Q := fun r => Proposal (chainT m) g0.nodes r ∧
        ¬ (r.action = .removeEdgeUndirected ∧ ((r.u = m + 2 ∧ r.v = m + 3) ∨ (r.u = m + 3 ∧ r.v = m + 2))))
      ⟨fun r g hg hr => ⟨hg.1.apply hsym hr.1, live_stays hg.1.wf hg.1.sym hr.1 hg.2 hr.2⟩,
        fun g hg => ⟨hg.1.purge, by rw [purge_run hg.1.wf, live_purgeG]; exact hg.2⟩⟩
      false rs (fun l hl r hr => ⟨hq l hl r hr, hno l hl r hr⟩) ⟨hi, hJ.live⟩
    rw [ha] at key
    exact key.2
  -- a removal in the batch takes effect
  have removes : ∀ c ∈ batch, ∀ l r, partialProcess (chainT m) c g = .ok (some l) → r ∈ l → r.action = .removeEdgeUndirected →
      g'.live r.u r.v = false := by
    intro c hc l r hp hr hact
    obtain ⟨o, ho, hpo⟩ := Step.evalBatch_covers _ g _ rs hrs (c := c) (List.mem_map.2 ⟨c, hc, rfl⟩)
    have : o = some l := by
      have := hpo.symm.trans (show (partialStep (chainT m)).process c g none = _ from hp)
      simpa using this
    subst this
    exact removal_done hsym hi rs hq ha ho hr hact
  have adj : ∀ a b, chainE m a b → g.live a b = true := fun a b e => adj_live hO hc0 hi (.inl e)
  have mem : ∀ a, a < m + 4 → a ∈ g0.nodes := fun a h => hn0 ▸ mem_chainN.2 h
  have l01 : g.live 0 1 = true := adj 0 1 (.inr (.inl ⟨rfl, rfl⟩))
  refine ⟨by rw [← hJ.split]; simp, hlive, ?_, ?_, fun i q h1 h2 => dead _ _ (hJ.iso i q h1 h2)⟩
  · intro hin
    rcases List.mem_append.1 hin with hin | hin
    · exact dead _ _ (hJ.zy hin)
    · by_cases hl : g.live 1 (m + 2) = true
      swap
      · exact dead _ _ (by simpa using hl)
      have l0 : g.live 0 (m + 2) = true := hi.sym _ _ (adj (m + 2) 0 (.inl ⟨rfl, rfl⟩))
      obtain ⟨b1, t1, e1⟩ := hO.triple 1 (m + 2) 0 (mem _ (by omega)) (mem _ (by omega)) (mem _ (by omega)) (by omega) (by omega)
        (by omega)
      obtain ⟨b2, t2, _⟩ := hO.triple 0 (m + 2) 1 (mem _ (by omega)) (mem _ (by omega)) (mem _ (by omega)) (by omega) (by omega)
        (by omega)
      obtain ⟨b3, t3, _⟩ := hO.triple 0 1 (m + 2) (mem _ (by omega)) (mem _ (by omega)) (mem _ (by omega)) (by omega) (by omega)
        (by omega)
      have hp := partial_triangle hi hh (by omega : (0 : Nat) ≠ 1) (by omega : 0 ≠ m + 2) (by omega : 1 ≠ m + 2) l01 l0 hl t1 t2 t3
      have hb : b1 = true := e1.2 (chain_dsep_zy m)
      subst hb
      exact removes _ hin _ (removal 1 (m + 2) [0]) hp (by simp) rfl
  · intro hin
    rcases List.mem_append.1 hin with hin | hin
    · exact dead _ _ (hJ.wx hin)
    · by_cases hl : g.live 0 (m + 3) = true
      swap
      · exact dead _ _ (by simpa using hl)
      have l0 : g.live 1 (m + 3) = true := adj 1 (m + 3) (.inr (.inr ⟨rfl, rfl⟩))
      obtain ⟨b1, t1, _⟩ := hO.triple 1 (m + 3) 0 (mem _ (by omega)) (mem _ (by omega)) (mem _ (by omega)) (by omega) (by omega)
        (by omega)
      obtain ⟨b2, t2, e2⟩ := hO.triple 0 (m + 3) 1 (mem _ (by omega)) (mem _ (by omega)) (mem _ (by omega)) (by omega) (by omega)
        (by omega)
      obtain ⟨b3, t3, _⟩ := hO.triple 0 1 (m + 3) (mem _ (by omega)) (mem _ (by omega)) (mem _ (by omega)) (by omega) (by omega)
        (by omega)
      have hp := partial_triangle hi hh (by omega : (0 : Nat) ≠ 1) (by omega : 0 ≠ m + 3) (by omega : 1 ≠ m + 3) l01 hl l0 t1 t2 t3
      have hb : b2 = true := e2.2 (chain_dsep_wx m)
      subst hb
      exact removes _ hin _ (removal 0 (m + 3) [1]) hp (by simp) rfl

/-- the triple test has a run after which `y – x` is there and neither has two further neighbours -/
theorem chain_partial {m size : Nat} (hsize : size ≠ 0) (hm : size ≤ m) {g0 g : CGraph Nat Int}
    (hO : Oracle (chainT m) (chainE m) g0.nodes) (hc0 : Complete g0) (hn0 : g0.nodes = chainN m) (hi : Inv (chainT m) g0 g)
    (hh : HasCorr g) (hd : ∀ x y, x ∈ g0.nodes → y ∈ g0.nodes → x ≠ y → (g.live x y = false ↔ Dag.DSep (chainE m) x y [])) :
    ∃ tp g', Par.Run (partialStep (chainT m)) false size g (.ok tp, g') ∧ Thick (chainT m) g0 (m + 2) (m + 3) g' := by
  have hts : (partialStep (chainT m)).gen g = .ok [fun _ => (combinations (chainN m) 3).map .single] := by
    show allGen ⟨3, 3⟩ g = _
    unfold allGen
    rw [allCombinations_three, hi.nodes, hn0]
  have mem : ∀ a, a < m + 4 → a ∈ g0.nodes := fun a h => hn0 ▸ mem_chainN.2 h
  have hR : ∀ c ∈ combinations (chainN m) 3, IsTriple c ∧ ∀ z ∈ c, z ∈ g0.nodes := by
    intro c hc
    obtain ⟨h1, h2⟩ := (mem_combinations _ _ _).1 hc
    exact ⟨isTriple_of (h1.nodup (nodup_chainN m)) h2, fun z hz => hn0 ▸ h1.subset hz⟩
  have hiso : ∀ i q, 2 ≤ i → i < m + 2 → g.live i q = false := by
    intro i q h1 h2
    cases hl : g.live i q with
    | false => rfl
    | true =>
      have hn := hi.wf.live_nodes hl
      rw [hi.nodes] at hn
      have hne := hi.wf.live_ne hl
      rw [(hd i q hn.1 hn.2 hne).2 (chain_dsep_iso h1 h2 hne)] at hl
      cases hl
  have hlive : g.live (m + 2) (m + 3) = true := by
    cases hl : g.live (m + 2) (m + 3) with
    | true => rfl
    | false => exact absurd ((hd _ _ (mem _ (by omega)) (mem _ (by omega)) (by omega)).1 hl) (chain_open m)
  obtain ⟨g', t', p', hstar, hJ⟩ := Par.seq_batches (s := partialStep (chainT m)) (P := fun g => Inv (chainT m) g0 g ∧ HasCorr g)
    (Q := Proposal (chainT m) g0.nodes) (R := fun c => IsTriple c ∧ ∀ z ∈ c, z ∈ g0.nodes)
    (fun r g hg hr => Inv.applyTotal r g hg.1 hr) (invc_kept hO.sym g0)
    (fun c g u rs hg hc hp => partial_proposes hg.1 hc.1 (fun z hz => hg.1.nodes ▸ hc.2 z hz) hp)
    (fun c g u hg hc => by
      show ∃ o, partialProcess (chainT m) c g = .ok o
      unfold partialProcess
      rw [if_pos (by
        rw [List.all_eq_true]
        intro z hz
        simp only [decide_eq_true_eq]
        rw [hg.1.nodes]
        exact hc.2 z hz)]
      exact partialLoop_total hO.total hg.1 hc.1 hc.2 c (fun _ hz => hz) [] [])
    hsize (Midway m (combinations (chainN m) 3))
    (fun done batch rest g rs t p g' hg hR hJ hlen hrs ha =>
      midway_batch hm hO hc0 hn0 done batch rest g rs t p g' hg hR hJ hlen hrs ha)
    [] (combinations (chainN m) 3) hR g ⟨hi, hh⟩ ⟨rfl, hlive, by simp, by simp, hiso⟩ [] []
  have hfirst := Par.Trans.generate (s := partialStep (chainT m)) (dry := false) (size := size)
    (.init g [fun _ => (combinations (chainN m) 3).map .single]) _ [] rfl (show 0 < size by omega)
  have hrun := Par.Run.done (s := partialStep (chainT m)) (dry := false) hsize _ hts _
    (Par.star_trans (Par.star_one hfirst) hstar) ⟨rfl, rfl, rfl, rfl⟩
  have hi' : Inv (chainT m) g0 g' := Par.run_kept (inv_kept hO.sym g0) (partial_safe (chainT m) g0) hi hrun
  obtain ⟨D, M, C, hL, hM, hD1, hD2, _⟩ := chain_triples m
  have zy := hJ.zy (by rw [List.nil_append, hL]; simp [hD1])
  have wx := hJ.wx (by rw [List.nil_append, hL]; simp [hD2])
  refine ⟨_, g', hrun, hi', hJ.live, ⟨0, ?_⟩, ⟨1, ?_⟩⟩
  · intro q hq hne
    have hn := hi'.wf.live_nodes hq
    rw [hi'.nodes, hn0, mem_chainN] at hn
    have := hi'.wf.live_ne hq
    by_contra h0
    by_cases h1 : q = 1
    · subst h1; rw [zy] at hq; cases hq
    · rw [hJ.iso q _ (by omega) (by omega)] at hq; cases hq
  · intro q hq hne
    have hn := hi'.wf.live_nodes hq
    rw [hi'.nodes, hn0, mem_chainN] at hn
    have := hi'.wf.live_ne hq
    by_contra h0
    by_cases h1 : q = 0
    · subst h1; rw [wx] at hq; cases hq
    · rw [hJ.iso q _ (by omega) (by omega)] at hq; cases hq

/-- a finished parallel step followed by others -/
theorem par_stage_run {ι ρ : Type} [DecidableEq ι] {T : Tests ι ρ} {g0 : CGraph ι ρ} {s : Step ι (Info ι ρ)} {size fuel : Nat}
    {m : GModel ι (Info ι ρ)} {tp : List (CResult ι ρ) × List (CResult ι ρ)} {g' : CGraph ι ρ}
    (h : Par.Run s false size m.graph (.ok tp, g')) (hi : Inv T g0 g') :
    Stage.Run fuel (.par s size) m (.ok (), ⟨purgeG g', m.history ++ [.plain ⟨s.name, tp.1, tp.2⟩]⟩) := by
  have hr := Stage.Run.par (fuel := fuel) s size m tp.1 tp.2 g' h
  have : (do appendHistory (.plain ⟨s.name, tp.1, tp.2⟩); onGraph Graph.purge : PyM (GModel ι (Info ι ρ)) Unit)
      { m with graph := g' } = (.ok (), ⟨purgeG g', m.history ++ [.plain ⟨s.name, tp.1, tp.2⟩]⟩) := by
    rw [PyM.bind_run]
    simp only [appendHistory, PyM.mod_run, onGraph_run]
    rw [purge_run hi.wf]
  rw [this] at hr
  exact hr

/-- a parallel step of the phase that keeps a thin pair -/
theorem thick_stage {ι ρ : Type} [DecidableEq ι] {T : Tests ι ρ} {g0 : CGraph ι ρ} (hsym : ∀ a b, T.pearson a b = T.pearson b a)
    {s : Step ι (Info ι ρ)} {R : List ι → Prop} (hs : s.SafeFor R (Inv T g0) (Proposal T g0.nodes))
    (ht : s.TotalFor R (Inv T g0)) (hc : s.chunked = false) {size : Nat} (hsize : size ≠ 0) {u v : ι}
    (hth : s.Safe (Thick T g0 u v) (fun r => Proposal T g0.nodes r ∧
      ¬ (r.action = .removeEdgeUndirected ∧ ((r.u = u ∧ r.v = v) ∨ (r.u = v ∧ r.v = u))))) {fuel : Nat}
    {m : GModel ι (Info ι ρ)} (hm : Thick T g0 u v m.graph) :
    ∃ m', Stage.Run fuel (.par s size) m (.ok (), m') ∧ Thick T g0 u v m'.graph := by
  obtain ⟨⟨o, g'⟩, hr⟩ := Par.exists_run s false size m.graph
  obtain ⟨tp, htp⟩ := Par.run_ok Inv.applyTotal (inv_kept hsym g0) hs ht hc hsize hm.1 hr
  simp only at htp
  subst htp
  have hk := Par.run_kept (thick_kept hsym g0 u v) hth hm hr
  refine ⟨_, par_stage_run hr hk.1, ?_⟩
  have := (thick_kept hsym g0 u v).purge g' hk
  rwa [purge_run hk.1.wf] at this

/-- the skeleton phase has a run that ends with `y – x`, for every choice of orders, shuffles and dice -/
theorem chain_skeleton {z : Sizes} (hz : z.Pos) {c : ParChoice Nat} (hv : c.Valid) (fuel : Nat)
    (h : List (HistRec Nat (Info Nat Int))) :
    ∃ m', Stages.Run fuel (parallelSkeleton (chainT z.triples) z c) ⟨startGraph (nodesOnly (chainN z.triples)), h⟩ (.ok (), m') ∧
      m'.graph.edgeExists (z.triples + 2) (z.triples + 3) = true := by
  have hgn : Reachable (nodesOnly (chainN z.triples) : CGraph Nat Int) := nodesOnly_reachable _
  have hnn : (nodesOnly (chainN z.triples) : CGraph Nat Int).nodes = chainN z.triples :=
    (nodesOnly_facts _ (nodup_chainN _)).1
  obtain ⟨_, hn', hc0⟩ := start_facts (nodesOnly (chainN z.triples)) hgn (chainT z.triples)
  have hn0 : (startGraph (nodesOnly (chainN z.triples)) : CGraph Nat Int).nodes = chainN z.triples := hn'.trans hnn
  have hO : Oracle (chainT z.triples) (chainE z.triples) (nodesOnly (chainN z.triples) : CGraph Nat Int).nodes := by
    rw [hnn]; exact chain_oracle _
  have hO' : Oracle (chainT z.triples) (chainE z.triples) (startGraph (nodesOnly (chainN z.triples)) : CGraph Nat Int).nodes := by
    rw [hn0]; exact chain_oracle _
  obtain ⟨g1, h1, e1, i1, c1, d1⟩ := first_steps hgn hO fuel h []
  obtain ⟨tp2, g2, r2, k2⟩ := chain_partial hz.1 le_rfl hO' hc0 hn0 i1 c1 (by rw [hn']; exact d1)
  have v1 := shuffled_valid hv.ord1 hv.shuf1
  have v2 := shuffled_valid hv.ord2 hv.shuf2
  obtain ⟨R3, s3, t3⟩ := sampled_parts (startGraph (nodesOnly (chainN z.triples))) hO'.total v1 (show (3 : Int) ≤ 4 by decide)
    hv.keep
  obtain ⟨R4, s4, t4⟩ := matrix_parts (startGraph (nodesOnly (chainN z.triples))) hO'.total v2
    ⟨show (2 : Int) ≤ 4 by decide, .inr (show (3 : Int) ≤ 4 by decide)⟩
  have run2 := par_stage_run (fuel := fuel) (m := ⟨g1, h1⟩) r2 k2.1
  have k2' : Thick (chainT z.triples) (startGraph (nodesOnly (chainN z.triples))) (z.triples + 2) (z.triples + 3) (purgeG g2) := by
    have := (thick_kept hO.sym _ _ _).purge g2 k2
    rwa [purge_run k2.1.wf] at this
  obtain ⟨m3, run3, k3⟩ := thick_stage hO.sym s3 t3 rfl hz.2.1
    (sampled_thick (g0 := startGraph (nodesOnly (chainN z.triples))) v1 (show (4 : Int) ≤ 4 by decide) hv.keep (z.triples + 2)
      (z.triples + 3)) (fuel := fuel)
    (m := ⟨purgeG g2, h1 ++ [.plain ⟨(partialStep (chainT z.triples)).name, tp2.1, tp2.2⟩]⟩) k2'
  obtain ⟨m4, run4, k4⟩ := thick_stage hO.sym s4 t4 rfl hz.2.2
    (matrix_thick (g0 := startGraph (nodesOnly (chainN z.triples))) v2 (show (4 : Int) ≤ 4 by decide) (z.triples + 2)
      (z.triples + 3)) (fuel := fuel) (m := m3) k3
  refine ⟨m4, ?_, edgeExists_of_live k4.1.wf k4.2.1⟩
  have hfirst : Stages.Run fuel (([.plain (pearsonStep (chainT z.triples)), .plain (corrStep (chainT z.triples))] :
      List (PStep Nat (Info Nat Int))).map .seq) ⟨startGraph (nodesOnly (chainN z.triples)), h⟩ (.ok (), ⟨g1, h1⟩) :=
    stages_seq.2 e1.symm
  exact stages_append.2 (.inl ⟨_, hfirst, .cons _ _ _ _ _ run2 (.cons _ _ _ _ _ run3 (.cons _ _ _ _ _ run4 (.nil _)))⟩)

end PC
end Verif
