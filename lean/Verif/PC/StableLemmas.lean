import Verif.PC.StableSpec
import Verif.PC.Lemmas5

/-!
# Helper lemmas: steps whose actions are collected
-/

namespace Verif
open Graph CI
variable {ι ρ δ : Type} [DecidableEq ι]

omit [DecidableEq ι] in
/-- a computation that keeps the graph, for each element of a list, gathers everything -/
theorem Step.gather_pure {α : Type} (body : α → PyM (Graph ι δ) (List (TestResult ι δ) × List (TestResult ι δ))) (l : List α)
    (g : Graph ι δ) (hb : ∀ a ∈ l, ∃ p, body a g = (.ok (p, p), g)) : ∃ p, Step.gather body l g = (.ok (p, p), g) ∧
      ∀ a ∈ l, ∀ q, body a g = (.ok (q, q), g) → ∀ r ∈ q, r ∈ p := by
  induction l with
  | nil => exact ⟨[], rfl, fun a ha => by cases ha⟩
  | cons a l ih =>
    obtain ⟨p1, h1⟩ := hb a List.mem_cons_self
    obtain ⟨p2, h2, h3⟩ := ih (fun a ha => hb a (List.mem_cons_of_mem _ ha))
    refine ⟨p1 ++ p2, ?_, ?_⟩
    · rw [Step.gather_cons, h1]
      simp only
      rw [h2]
    · intro b hb q hq r hr
      rcases List.mem_cons.1 hb with rfl | hb
      · rw [h1] at hq
        simp only [Prod.mk.injEq, Except.ok.injEq, and_self, and_true] at hq
        exact List.mem_append_left _ (hq ▸ hr)
      · exact List.mem_append_right _ (h3 b hb q hq r hr)

theorem takeAction_dry (rs : Results ι δ) (g : Graph ι δ) : Graph.takeAction true rs g = (.ok (flatten rs, flatten rs), g) := by
  rw [takeAction_flat, takeItems_dry]

/-- a dry run in which no test raises proposes all the answers of its tests -/
theorem Step.execute_dry_all {s : Step ι δ} {g : Graph ι δ} (hs : s.applySync = false) (hu : s.needsUnapplied = false)
    {ts : List (Graph ι δ → List (Yield ι))} (hts : s.gen g = .ok ts)
    (hshape : ∀ t ∈ ts, ∀ y ∈ t g, if s.chunked then ∃ cs, y = .chunk cs else ∃ c, y = .single c)
    (hproc : ∀ t ∈ ts, ∀ y ∈ t g, ∀ c ∈ y.combos, ∃ o, s.process c g none = .ok o) :
    ∃ p, s.execute true g = (.ok (p, p), g) ∧
      ∀ t ∈ ts, ∀ y ∈ t g, ∀ c ∈ y.combos, ∀ l, s.process c g none = .ok (some l) → ∀ r ∈ l, r ∈ p := by
  have chunk : ∀ cs : List (List ι), (∀ c ∈ cs, ∃ o, s.process c g none = .ok o) → ∃ rs, s.evalChunk g cs = .ok rs := by
    intro cs h
    induction cs with
    | nil => exact ⟨[], rfl⟩
    | cons c cs ih =>
      obtain ⟨o, ho⟩ := h c List.mem_cons_self
      obtain ⟨rs, hrs⟩ := ih (fun c hc => h c (List.mem_cons_of_mem _ hc))
      refine ⟨o :: rs, ?_⟩
      unfold Step.evalChunk
      rw [ho]
      simp only
      rw [hrs]
  unfold Step.execute
  rw [hts]
  simp only [hs, Bool.false_eq_true, if_false]
  by_cases hc : s.chunked = true
  · rw [if_pos hc]
    unfold Step.runChunked
    have one : ∀ t ∈ ts, ∀ y ∈ t g, ∃ cs rs, y = .chunk cs ∧ s.evalChunk g cs = .ok rs ∧
        s.runChunk true y g = (.ok (flatten rs, flatten rs), g) := by
      intro t ht y hy
      have := hshape t ht y hy
      rw [if_pos hc] at this
      obtain ⟨cs, rfl⟩ := this
      obtain ⟨rs, hrs⟩ := chunk cs (hproc t ht _ hy)
      refine ⟨cs, rs, rfl, hrs, ?_⟩
      unfold Step.runChunk
      simp only
      rw [hrs]
      exact takeAction_dry rs g
    have inner : ∀ t ∈ ts, ∃ p, (PyM.get >>= fun g => Step.gather (s.runChunk true) (t g)) g = (.ok (p, p), g) ∧
        ∀ y ∈ t g, ∀ q, s.runChunk true y g = (.ok (q, q), g) → ∀ r ∈ q, r ∈ p := by
      intro t ht
      rw [PyM.bind_ok (PyM.get_run g)]
      exact Step.gather_pure _ _ g (fun y hy => by
        obtain ⟨cs, rs, _, _, h⟩ := one t ht y hy
        exact ⟨_, h⟩)
    obtain ⟨p, h1, h2⟩ := Step.gather_pure (fun t => (PyM.get >>= fun g => Step.gather (s.runChunk true) (t g))) ts g
      (fun t ht => (inner t ht).imp (fun _ h => h.1))
    refine ⟨p, h1, ?_⟩
    intro t ht y hy c hcc l hl r hr
    obtain ⟨q, h3, h4⟩ := inner t ht
    obtain ⟨cs, rs, rfl, h5, h6⟩ := one t ht y hy
    refine h2 t ht q h3 r (h4 _ hy _ h6 r ?_)
    obtain ⟨o, ho, hp⟩ := s.evalChunk_covers g cs rs h5 hcc
    rw [hl] at hp
    cases hp
    exact List.mem_flatMap.2 ⟨_, ho, hr⟩
  · rw [if_neg hc]
    have hy : ∀ y ∈ forceOn g ts, ∃ c o, y = .single c ∧ s.process c g none = .ok o := by
      intro y hy
      obtain ⟨t, ht, hy⟩ := (Step.mem_forceOn g ts y).1 hy
      have := hshape t ht y hy
      rw [if_neg hc] at this
      obtain ⟨c, rfl⟩ := this
      obtain ⟨o, ho⟩ := hproc t ht _ hy c (by simp [Yield.combos])
      exact ⟨c, o, rfl, ho⟩
    have key : ∀ (ys : List (Yield ι)) (loc : Results ι δ), (∀ y ∈ ys, ∃ c o, y = .single c ∧ s.process c g none = .ok o) →
        ∃ rs, s.evalSeq g ys loc = .ok rs ∧ (∀ o ∈ loc, o ∈ rs) ∧
          ∀ c, Yield.single c ∈ ys → ∀ o, s.process c g none = .ok o → o ∈ rs := by
      intro ys
      induction ys with
      | nil => exact fun loc _ => ⟨loc, rfl, fun _ h => h, fun c hc => by cases hc⟩
      | cons y ys ih =>
        intro loc hys
        obtain ⟨c, o, rfl, ho⟩ := hys y List.mem_cons_self
        obtain ⟨rs, e1, e2, e3⟩ := ih (loc ++ [o]) (fun y hy => hys y (List.mem_cons_of_mem _ hy))
        refine ⟨rs, ?_, fun o ho => e2 o (List.mem_append_left _ ho), ?_⟩
        · unfold Step.evalSeq Step.evalOne
          simp only [hu, Bool.false_eq_true, if_false, ho]
          exact e1
        · intro c' hc' o' ho'
          rcases List.mem_cons.1 hc' with e | hc'
          · cases e
            rw [ho] at ho'
            cases ho'
            exact e2 _ (by simp)
          · exact e3 c' hc' o' ho'
    obtain ⟨rs, e1, _, e3⟩ := key _ [] hy
    rw [e1]
    refine ⟨flatten rs, takeAction_dry rs g, ?_⟩
    intro t ht y hyt c hcc l hl r hr
    have := hshape t ht y hyt
    rw [if_neg hc] at this
    obtain ⟨c', rfl⟩ := this
    simp only [Yield.combos, List.mem_singleton] at hcc
    subst hcc
    exact List.mem_flatMap.2 ⟨_, e3 c ((Step.mem_forceOn g ts _).2 ⟨t, ht, hyt⟩) _ hl, hr⟩

/-- steps none of which raises in a dry run: everything they propose is collected -/
theorem runInner_dry_all (ss : List (Step ι δ)) (g : Graph ι δ) (h : ∀ s ∈ ss, ∃ p, s.execute true g = (.ok (p, p), g)) :
    ∃ rs ts, runInner true ss g = (.ok (rs, ts), g) ∧
      (∀ s ∈ ss, ∀ p, s.execute true g = (.ok (p, p), g) → ∀ r ∈ p, r ∈ ts) ∧
      ∀ r ∈ ts, ∃ s ∈ ss, ∃ p, s.execute true g = (.ok (p, p), g) ∧ r ∈ p := by
  induction ss with
  | nil => exact ⟨[], [], rfl, (fun s hs => by cases hs), (fun r hr => by cases hr)⟩
  | cons s ss ih =>
    obtain ⟨p, hp⟩ := h s List.mem_cons_self
    obtain ⟨rs, ts, h1, h2, h3⟩ := ih (fun s hs => h s (List.mem_cons_of_mem _ hs))
    refine ⟨⟨s.name, p, p⟩ :: rs, p ++ ts, ?_, ?_, ?_⟩
    · rw [runInner_cons, hp]
      simp only
      rw [h1]
    · intro s' hs' p' hp' r hr
      rcases List.mem_cons.1 hs' with rfl | hs'
      · rw [hp] at hp'
        simp only [Prod.mk.injEq, Except.ok.injEq, and_self, and_true] at hp'
        exact List.mem_append_left _ (hp' ▸ hr)
      · exact List.mem_append_right _ (h2 s' hs' p' hp' r hr)
    · intro r hr
      rcases List.mem_append.1 hr with hr | hr
      · exact ⟨s, List.mem_cons_self, p, hp, hr⟩
      · obtain ⟨s', hs', p', hp', hr'⟩ := h3 r hr
        exact ⟨s', List.mem_cons_of_mem _ hs', p', hp', hr'⟩

namespace PC
open Orient
variable {T : Tests ι ρ} {E : ι → ι → Prop}

/-- an answer of the tests: nothing, or a removal the tests ask for -/
def Good (T : Tests ι ρ) (N : List ι) (r : CResult ι ρ) : Prop :=
  r.action = .doNothing ∨ ∃ S, r = removal r.u r.v S ∧ (r.u :: r.v :: S).Nodup ∧ (∀ z ∈ r.u :: r.v :: S, z ∈ N) ∧
    Says T r.u r.v S

omit [DecidableEq ι] in
theorem good_ite {N : List ι} {x y : ι} {S : List ι} (h : (x :: y :: S).Nodup) (hN : ∀ z ∈ x :: y :: S, z ∈ N) {b : Bool}
    (hb : b = true → Says T x y S) : Good T N (if b then removal x y S else keep x y) := by
  cases b with
  | false => exact Or.inl rfl
  | true => exact Or.inr ⟨S, rfl, h, hN, hb rfl⟩

omit [DecidableEq ι] in
theorem says_reported {x y : ι} {S : List ι} (h : Says T x y S) : Reported T x y S := by
  match S, h with
  | [], h => exact .marginal h
  | [z], h => exact .triple z h
  | _ :: _ :: _, h => exact .matrix _ h

omit [DecidableEq ι] in
theorem Good.proposal {N : List ι} {r : CResult ι ρ} (h : Good T N r) : Proposal T N r := by
  rcases h with h | ⟨S, h1, h2, h3, h4⟩
  · exact Or.inl h
  · rw [h1]
    exact Or.inr (Or.inr (removal_cert h2 (fun z hz => h3 z (by simp [hz])) (says_reported h4)))

section
variable {g0 g : CGraph ι ρ} (h : Inv T g0 g) (hc : Complete g) (hh : HasCorr g) (hT : Steady T g0.nodes)
include h hc hh hT

theorem corr_dry : ∃ p, (corrStep T).execute true g = (.ok (p, p), g) ∧ (∀ r ∈ p, Good T g0.nodes r) ∧
    ∀ x y, x ∈ g0.nodes → y ∈ g0.nodes → x ≠ y → Says T x y [] → removal x y [] ∈ p ∨ removal y x [] ∈ p := by
  obtain ⟨cs, hgen, hcs, hcov⟩ := allGen_pairs g h.wf.nodup
  have hval : ∀ x y, x ∈ g.nodes → y ∈ g.nodes → x ≠ y → ∃ b, T.t0 x y (T.pearson x y) = .ok b ∧
      corrProcess T [x, y] g = .ok (some [if b then removal x y [] else keep x y]) := by
    intro x y hx hy hxy
    obtain ⟨e, he, hv⟩ := edgeValue_live h.wf (hc x hx y hy hxy)
    have hm := hh x y e he
    obtain ⟨b, hb⟩ := hT.total.t0 x y (h.nodes ▸ hx) (h.nodes ▸ hy) hxy
    refine ⟨b, hb, ?_⟩
    cases hr : e.metadata.corr with
    | none => exact absurd hr hm
    | some r =>
      have hp : r = T.pearson x y := by
        rcases h.corr x y e he with h1 | h1
        · exact absurd h1 hm
        · rw [hr] at h1; exact Option.some.inj h1
      simp only [corrProcess, hx, hy, hv, hr, hp, not_true_eq_false, if_false, hb]
  obtain ⟨p, hp, hall⟩ := Step.execute_dry_all (s := corrStep T) rfl rfl hgen (by
      intro t ht y hy
      exact allGen_single hgen ht hy) (by
      intro t ht y hy c hcc
      rw [List.mem_singleton] at ht
      subst ht
      obtain ⟨c', hc', rfl⟩ := List.mem_map.1 hy
      simp only [Yield.combos, List.mem_singleton] at hcc
      subst hcc
      obtain ⟨x, y, rfl, hxy, hx, hy⟩ := hcs c hc'
      obtain ⟨b, _, hb⟩ := hval x y hx hy hxy
      exact ⟨_, hb⟩)
  refine ⟨p, hp, ?_, ?_⟩
  · intro r hr
    obtain ⟨c, u, rs, ⟨ts, t, y, hg, ht, hy, hcc⟩, hpr, hr⟩ := (Step.execute_dry _ g p p g hp).2 r hr
    rw [show (corrStep T).gen g = _ from hgen] at hg
    cases hg
    rw [List.mem_singleton] at ht
    subst ht
    obtain ⟨c', hc', rfl⟩ := List.mem_map.1 hy
    simp only [Yield.combos, List.mem_singleton] at hcc
    subst hcc
    obtain ⟨x, y, rfl, hxy, hx, hy⟩ := hcs c hc'
    obtain ⟨b, hb, hv⟩ := hval x y hx hy hxy
    rw [show (corrStep T).process [x, y] g u = _ from hv] at hpr
    cases hpr
    rw [List.mem_singleton] at hr
    subst hr
    rw [h.nodes] at hx hy
    exact good_ite (by simp [hxy]) (by simp [hx, hy]) (fun hb' => by rw [hb'] at hb; exact hb)
  · have main : ∀ x y, [x, y] ∈ cs → Says T x y [] → removal x y [] ∈ p := by
      intro x y hxy hs
      obtain ⟨x', y', e, hne, hx, hy⟩ := hcs _ hxy
      cases e
      obtain ⟨b, hb, hv⟩ := hval x y hx hy hne
      rw [show T.t0 x y (T.pearson x y) = .ok true from hs] at hb
      cases hb
      exact hall _ List.mem_cons_self (.single [x, y]) (List.mem_map.2 ⟨_, hxy, rfl⟩) [x, y] (by simp [Yield.combos]) _ hv _
        (by simp)
    intro x y hx hy hxy hs
    rcases hcov x (h.nodes ▸ hx) y (h.nodes ▸ hy) hxy with hm | hm
    · exact Or.inl (main x y hm hs)
    · exact Or.inr (main y x hm (hT.swap x y [] (by simp [hxy]) (by simp [hx, hy]) hs))

theorem partial_dry : ∃ p, (partialStep T).execute true g = (.ok (p, p), g) ∧ (∀ r ∈ p, Good T g0.nodes r) ∧
    ∀ x y z, [x, y, z].Nodup → (∀ w ∈ [x, y, z], w ∈ g0.nodes) → Says T x y [z] →
      removal x y [z] ∈ p ∨ removal y x [z] ∈ p := by
  obtain ⟨ts, hts⟩ := allGen_total (s := ⟨3, 3⟩) (by decide) g
  obtain ⟨cs, hcs, rfl⟩ := allGen_combos hts
  have hmem := allCombinations_mem h.wf.nodup hcs (by decide)
  have htri : ∀ c ∈ cs, IsTriple c ∧ ∀ z ∈ c, z ∈ g.nodes := by
    intro c hc
    obtain ⟨q1, q2, q3⟩ := (hmem c).1 hc
    refine ⟨isTriple_of (q1.nodup h.wf.nodup) (by simp only at q2 q3; omega), fun z hz => q1.subset hz⟩
  have t1 : ∀ x y z, x ∈ g.nodes → y ∈ g.nodes → z ∈ g.nodes → x ≠ y → x ≠ z → y ≠ z →
      ∃ b, T.t1 1 x y z (T.pearson x y) (T.pearson x z) (T.pearson y z) = .ok (some b) := by
    intro x y z hx hy hz h1 h2 h3
    rw [h.nodes] at hx hy hz
    obtain ⟨o, ho⟩ := hT.total.t1 x y z hx hy hz h1 h2 h3
    cases o with
    | none => exact absurd ho (hT.decides x y z hx hy hz h1 h2 h3)
    | some b => exact ⟨b, ho⟩
  have hval : ∀ a b d, [a, b, d] ∈ cs → a ≠ b → a ≠ d → b ≠ d → ∃ b1 b2 b3 : Bool,
      T.t1 1 b d a (T.pearson b d) (T.pearson b a) (T.pearson d a) = .ok (some b1) ∧
      T.t1 1 a d b (T.pearson a d) (T.pearson a b) (T.pearson d b) = .ok (some b2) ∧
      T.t1 1 a b d (T.pearson a b) (T.pearson a d) (T.pearson b d) = .ok (some b3) ∧
      partialProcess T [a, b, d] g = .ok (some [if b1 then removal b d [a] else keep b d,
      if b2 then removal a d [b] else keep a d, if b3 then removal a b [d] else keep a b]) := by
    intro a b d hin h1 h2 h3
    have hn := (htri _ hin).2
    have ha := hn a (by simp)
    have hb := hn b (by simp)
    have hd := hn d (by simp)
    obtain ⟨b1, e1⟩ := t1 b d a hb hd ha h3 h1.symm h2.symm
    obtain ⟨b2, e2⟩ := t1 a d b ha hd hb h2 h1 h3.symm
    obtain ⟨b3, e3⟩ := t1 a b d ha hb hd h1 h2 h3
    exact ⟨b1, b2, b3, e1, e2, e3, partial_triangle h hh h1 h2 h3 (hc a ha b hb h1) (hc a ha d hd h2) (hc b hb d hd h3)
      e1 e2 e3⟩
  obtain ⟨p, hp, hall⟩ := Step.execute_dry_all (s := partialStep T) rfl rfl hts (by
      intro t ht y hy
      exact allGen_single hts ht hy) (by
      intro t ht y hy c hcc
      rw [List.mem_singleton] at ht
      subst ht
      obtain ⟨c', hc', rfl⟩ := List.mem_map.1 hy
      simp only [Yield.combos, List.mem_singleton] at hcc
      subst hcc
      obtain ⟨⟨a, b, d, rfl, h1, h2, h3⟩, _⟩ := htri c hc'
      obtain ⟨_, _, _, _, _, _, hv⟩ := hval a b d hc' h1 h2 h3
      exact ⟨_, hv⟩)
  refine ⟨p, hp, ?_, ?_⟩
  · intro r hr
    obtain ⟨c, u, rs, ⟨ts, t, y, hg, ht, hy, hcc⟩, hpr, hr⟩ := (Step.execute_dry _ g p p g hp).2 r hr
    rw [show (partialStep T).gen g = _ from hts] at hg
    cases hg
    rw [List.mem_singleton] at ht
    subst ht
    obtain ⟨c', hc', rfl⟩ := List.mem_map.1 hy
    simp only [Yield.combos, List.mem_singleton] at hcc
    subst hcc
    obtain ⟨⟨a, b, d, rfl, h1, h2, h3⟩, hn⟩ := htri c hc'
    obtain ⟨b1, b2, b3, e1, e2, e3, hv⟩ := hval a b d hc' h1 h2 h3
    rw [show (partialStep T).process [a, b, d] g u = _ from hv] at hpr
    cases hpr
    have ha := h.nodes ▸ hn a (by simp)
    have hb := h.nodes ▸ hn b (by simp)
    have hd := h.nodes ▸ hn d (by simp)
    simp only [List.mem_cons, List.not_mem_nil, or_false] at hr
    rcases hr with rfl | rfl | rfl
    · exact good_ite (by simp [h1.symm, h2.symm, h3]) (by simp [ha, hb, hd]) (fun hb' => by rw [hb'] at e1; exact e1)
    · exact good_ite (by simp [h1, h2, h3.symm]) (by simp [ha, hb, hd]) (fun hb' => by rw [hb'] at e2; exact e2)
    · exact good_ite (by simp [h1, h2, h3]) (by simp [ha, hb, hd]) (fun hb' => by rw [hb'] at e3; exact e3)
  · intro u v w hnd hn hs
    obtain ⟨c, hsub, hperm⟩ := sublist_perm (l := g.nodes) (c := [u, v, w]) h.wf.nodup hnd (by
      intro x hx
      rw [h.nodes]
      exact hn x hx)
    have hcin : c ∈ cs := (hmem c).2 ⟨hsub, by rw [hperm.length_eq]; exact Int.le_refl 3, by rw [hperm.length_eq]; exact Int.le_refl 3⟩
    have hs' := hT.swap u v [w] hnd hn hs
    simp only [List.nodup_cons, List.mem_cons, List.not_mem_nil, or_false, not_or, not_false_eq_true, List.nodup_nil,
      and_true] at hnd
    obtain ⟨⟨huv, hup⟩, hvp⟩ := hnd
    obtain ⟨⟨a, b, d, rfl, h1, h2, h3⟩, _⟩ := htri c hcin
    obtain ⟨b1, b2, b3, e1, e2, e3, hv⟩ := hval a b d hcin h1 h2 h3
    have hin := hall _ List.mem_cons_self (.single [a, b, d]) (List.mem_map.2 ⟨_, hcin, rfl⟩) [a, b, d] (by simp [Yield.combos]) _ hv
    have hu' : u ∈ [a, b, d] := hperm.mem_iff.2 (by simp)
    have hv' : v ∈ [a, b, d] := hperm.mem_iff.2 (by simp)
    have hp' : w ∈ [a, b, d] := hperm.mem_iff.2 (by simp)
    simp only [List.mem_cons, List.not_mem_nil, or_false] at hu' hv' hp'
    simp only [Says] at hs hs'
    rcases hu' with rfl | rfl | rfl <;> rcases hv' with rfl | rfl | rfl <;> rcases hp' with rfl | rfl | rfl <;>
      first
      | exact absurd rfl huv
      | exact absurd rfl hup
      | exact absurd rfl hvp
      | skip
    · rw [e3] at hs; cases hs; exact Or.inl (hin _ (by simp))
    · rw [e2] at hs; cases hs; exact Or.inl (hin _ (by simp))
    · rw [e3] at hs'; cases hs'; exact Or.inr (hin _ (by simp))
    · rw [e1] at hs; cases hs; exact Or.inl (hin _ (by simp))
    · rw [e2] at hs'; cases hs'; exact Or.inr (hin _ (by simp))
    · rw [e1] at hs'; cases hs'; exact Or.inr (hin _ (by simp))

omit hh in
theorem matrix_dry {ord : NbOrd ι} (ho : ord.Valid) : ∃ p,
    (matrixStep T (neighbours 4 ord)).execute true g = (.ok (p, p), g) ∧ (∀ r ∈ p, Good T g0.nodes r) ∧
    ∀ x y S, (x :: y :: S).Nodup → (∀ w ∈ x :: y :: S, w ∈ g0.nodes) → 2 ≤ S.length → Says T x y S →
      ∃ S', removal x y S' ∈ p := by
  have hval := neighbours_valid (min := 4) ho
  have hans : ∀ x y S, (x :: y :: S).Nodup → (∀ w ∈ x :: y :: S, w ∈ g.nodes) → matrixProcess T (x :: y :: S) g =
      match T.tm (x :: y :: S) with
      | .error e => .error e
      | .ok none => .ok none
      | .ok (some b) => .ok (some [if b then removal x y S else keep x y]) := by
    intro x y S hnd hn
    have hx := hn x (by simp)
    have hy := hn y (by simp)
    have hnd' := hnd
    simp only [List.nodup_cons, List.mem_cons, not_or] at hnd'
    have hl := hc x hx y hy hnd'.1.1
    obtain ⟨e1, he1, _⟩ := live_iff.1 hl
    have mem : ∀ z, z ∈ g.nodes → x ≠ z → z ∈ g.otherNeighbours x := by
      intro z hz hxz
      obtain ⟨e, he, _⟩ := live_iff.1 (hc x hx z hz hxz)
      unfold otherNeighbours
      rw [List.mem_filter]
      exact ⟨(mem_keys2_iff x z).2 ⟨_, he⟩, by rw [directedEdgeExists_eq h.wf]; exact hc z hz x hx hxz.symm⟩
    have hSm : S.all (fun z => decide (z ∈ g.otherNeighbours x) && decide (z ≠ y)) = true := by
      rw [List.all_eq_true]
      intro z hz
      simp only [Bool.and_eq_true, decide_eq_true_eq]
      exact ⟨mem z (hn z (by simp [hz])) (fun e => hnd'.1.2 (e ▸ hz)), fun e => hnd'.2.1 (e ▸ hz)⟩
    unfold matrixProcess
    simp only
    rw [if_neg (by simp [hx]), if_neg (by simp [hy]), if_neg (by simp [edgeExists_of_live h.wf hl]),
      if_neg (by simp [get2_isSome_has he1]), if_neg (by simp [mem y hy hnd'.1.1]), if_neg (by rw [hSm]; simp), sepOf_eq hnd]
    rcases T.tm (x :: y :: S) with _ | _ | _ <;> rfl
  obtain ⟨ts, hts⟩ := nb_gen_total (cfg := neighbours 4 ord) (by show (2 : Int) ≤ 4; decide) g
  -- the combinations are the pairs of nodes with at least two others
  have hcombo : ∀ t ∈ ts, ∀ y ∈ t g, ∀ c ∈ y.combos, ∃ a b S, c = a :: b :: S ∧ (a :: b :: S).Nodup ∧
      (∀ w ∈ a :: b :: S, w ∈ g.nodes) ∧ 2 ≤ S.length := by
    intro t ht y hy c hcc
    have hk : ∃ k x y, 4 ≤ k ∧ t = nbBody (neighbours 4 ord) k x y := by
      have hts' := hts
      unfold pairsWithNeighbours at hts'
      cases hb : (neighbours 4 ord).settings.bounds g.nodes.length with
      | none => rw [hb] at hts'; cases hts'; cases ht
      | some p =>
        obtain ⟨start, stop⟩ := p
        rw [hb] at hts'
        have hst : start = 4 := ((neighbours 4 ord).settings.bounds_fst _ _ _ hb).1
        simp only at hts'
        rw [if_neg (by omega)] at hts'
        cases hts'
        obtain ⟨⟨k, x, y⟩, hk, rfl⟩ := List.mem_map.1 ht
        have := (mem_nbPositions g start stop k (by omega) x y).1 hk
        exact ⟨k, x, y, by omega, rfl⟩
    obtain ⟨k, a, b, hk, rfl⟩ := hk
    obtain ⟨hl, S, hS, rfl⟩ := (nbBody_mem h.wf hval (by omega)).1 ⟨y, hy, hcc⟩
    obtain ⟨hsub, hlen⟩ := (mem_combinations _ _ _).1 hS
    have hmo : ∀ z ∈ S, z ∈ g.nodes ∧ z ≠ a ∧ z ≠ b := by
      intro z hz
      have := (mem_others h.wf hval k a b z).1 (hsub.subset hz)
      exact ⟨(h.wf.live_nodes this.1).1, h.wf.live_ne this.1, this.2.2⟩
    refine ⟨a, b, S, rfl, ?_, ?_, by omega⟩
    · simp only [List.nodup_cons, List.mem_cons, not_or]
      exact ⟨⟨h.wf.live_ne hl, fun hh => (hmo a hh).2.1 rfl⟩, fun hh => (hmo b hh).2.2 rfl,
        hsub.nodup (nodup_others hval k a b)⟩
    · intro w hw
      rcases List.mem_cons.1 hw with rfl | hw
      · exact (h.wf.live_nodes hl).1
      rcases List.mem_cons.1 hw with rfl | hw
      · exact (h.wf.live_nodes hl).2
      · exact (hmo w hw).1
  obtain ⟨p, hp, hall⟩ := Step.execute_dry_all (s := matrixStep T (neighbours 4 ord)) rfl rfl hts (by
      intro t ht y hy
      exact nb_shape (Or.inl rfl) hts ht g y hy) (by
      intro t ht y hy c hcc
      obtain ⟨a, b, S, rfl, hnd, hn, _⟩ := hcombo t ht y hy c hcc
      show ∃ o, matrixProcess T (a :: b :: S) g = .ok o
      rw [hans a b S hnd hn]
      obtain ⟨o, ho⟩ := hT.total.tm a b S hnd (fun z hz => h.nodes ▸ hn z hz)
      rw [ho]
      cases o with
      | none => exact ⟨_, rfl⟩
      | some b => exact ⟨_, rfl⟩)
  refine ⟨p, hp, ?_, ?_⟩
  · intro r hr
    obtain ⟨c, u, rs, ⟨ts', t, y, hg, ht, hy, hcc⟩, hpr, hr⟩ := (Step.execute_dry _ g p p g hp).2 r hr
    rw [show (matrixStep T (neighbours 4 ord)).gen g = _ from hts] at hg
    cases hg
    obtain ⟨a, b, S, rfl, hnd, hn, hlen⟩ := hcombo t ht y hy c hcc
    rw [show (matrixStep T (neighbours 4 ord)).process (a :: b :: S) g u = _ from hans a b S hnd hn] at hpr
    cases htm : T.tm (a :: b :: S) with
    | error e => rw [htm] at hpr; cases hpr
    | ok o =>
      rw [htm] at hpr
      cases o with
      | none => cases hpr
      | some bb =>
        cases hpr
        rw [List.mem_singleton] at hr
        subst hr
        refine good_ite hnd (fun z hz => h.nodes ▸ hn z hz) (fun hb => ?_)
        match S, hlen with
        | s1 :: s2 :: S, _ =>
          rw [hb] at htm
          exact htm
  · intro x y S hnd hn hlen hs
    have hn' : ∀ w ∈ x :: y :: S, w ∈ g.nodes := fun w hw => h.nodes ▸ hn w hw
    have hk : S.length + 2 ≤ g.nodes.length := by
      have := (List.subperm_of_subset hnd hn').length_le
      simpa using this
    obtain ⟨start, stop, hb, hb1, hb2⟩ := ((neighbours 4 ord).settings.bounds_iff g.nodes.length (S.length + 2)).2
      ⟨hk, by show (4 : Int) ≤ _; push_cast; omega, Or.inl rfl⟩
    have hst := ((neighbours 4 ord).settings.bounds_fst _ _ _ hb).1
    have hst : start = 4 := hst
    have hts' : ts = (g.nbPositions start stop).map (fun p => nbBody (neighbours 4 ord) p.1 p.2.1 p.2.2) := by
      have hts' := hts
      unfold pairsWithNeighbours at hts'
      rw [hb] at hts'
      simp only at hts'
      rw [if_neg (by omega)] at hts'
      cases hts'
      rfl
    have hnd' := hnd
    simp only [List.nodup_cons, List.mem_cons, not_or] at hnd'
    have hx := hn' x (by simp)
    have hy := hn' y (by simp)
    have hl := hc x hx y hy hnd'.1.1
    obtain ⟨e0, he0, _⟩ := live_iff.1 hl
    have hpos : (S.length + 2, x, y) ∈ g.nbPositions start stop :=
      (mem_nbPositions g start stop _ (by omega) x y).2 ⟨hb1, hb2, (mem_keys2_iff x y).2 ⟨_, he0⟩⟩
    obtain ⟨S', hsub, hperm⟩ := sublist_perm (l := others (neighbours 4 ord) (S.length + 2) x y g) (c := S)
      (nodup_others hval _ _ _) hnd'.2.2 (by
        intro z hz
        have hzn := hn' z (by simp [hz])
        have hxz : x ≠ z := fun e => hnd'.1.2 (e ▸ hz)
        obtain ⟨e, he, _⟩ := live_iff.1 (hc x hx z hzn hxz)
        exact (mem_others h.wf hval _ _ _ _).2 ⟨hc z hzn x hx hxz.symm, (mem_keys2_iff x z).2 ⟨_, he⟩,
          fun e => hnd'.2.1 (e ▸ hz)⟩)
    obtain ⟨w, hw, hwc⟩ := (nbBody_mem h.wf hval (k := S.length + 2) (by omega) (x := x) (y := y) (c := x :: y :: S')).2
      ⟨hl, S', (mem_combinations _ _ _).2 ⟨hsub, by rw [hperm.length_eq]; omega⟩, rfl⟩
    have hs' := hT.perm x y S S' hnd hn hperm.symm hs
    have hnd2 : (x :: y :: S').Nodup := (List.Perm.cons _ (List.Perm.cons _ hperm)).nodup_iff.2 hnd
    have hn2 : ∀ w ∈ x :: y :: S', w ∈ g.nodes := fun w hw => hn' w ((List.Perm.cons _ (List.Perm.cons _ hperm)).mem_iff.1 hw)
    have htm : T.tm (x :: y :: S') = .ok (some true) := by
      have hl' : 2 ≤ S'.length := by rw [hperm.length_eq]; exact hlen
      match S', hl', hs' with
      | _ :: _ :: _, _, hs' => exact hs'
    refine ⟨S', hall _ (hts' ▸ List.mem_map.2 ⟨_, hpos, rfl⟩) w hw _ hwc [removal x y S'] ?_ _ (by simp)⟩
    show matrixProcess T (x :: y :: S') g = _
    rw [hans x y S' hnd2 hn2, htm]
    rfl

/-- the tests of `PCStable` on the complete graph -/
theorem stable_tests {ord : NbOrd ι} (ho : ord.Valid) : ∃ rs g',
    runTogether [corrStep T, partialStep T, matrixStep T (neighbours 4 ord)] g = (.ok rs, g') ∧ Inv T g0 g' ∧
      ∀ x y, x ∈ g0.nodes → y ∈ g0.nodes → x ≠ y → (g'.live x y = false ↔ Separable T g0.nodes x y) := by
  obtain ⟨p1, d1, q1, c1⟩ := corr_dry h hc hh hT
  obtain ⟨p2, d2, q2, c2⟩ := partial_dry h hc hh hT
  obtain ⟨p3, d3, q3, c3⟩ := matrix_dry h hc hT ho
  obtain ⟨rs, ts, hrun, hall, hsrc⟩ := runInner_dry_all [corrStep T, partialStep T, matrixStep T (neighbours 4 ord)] g (by
    intro s hs
    simp only [List.mem_cons, List.not_mem_nil, or_false] at hs
    rcases hs with rfl | rfl | rfl
    · exact ⟨_, d1⟩
    · exact ⟨_, d2⟩
    · exact ⟨_, d3⟩)
  have hgood : ∀ r ∈ ts, Good T g0.nodes r := by
    intro r hr
    obtain ⟨s, hs, p, hp, hr⟩ := hsrc r hr
    simp only [List.mem_cons, List.not_mem_nil, or_false] at hs
    rcases hs with rfl | rfl | rfl
    · rw [d1] at hp
      simp only [Prod.mk.injEq, Except.ok.injEq, and_self, and_true] at hp
      exact q1 r (hp ▸ hr)
    · rw [d2] at hp
      simp only [Prod.mk.injEq, Except.ok.injEq, and_self, and_true] at hp
      exact q2 r (hp ▸ hr)
    · rw [d3] at hp
      simp only [Prod.mk.injEq, Except.ok.injEq, and_self, and_true] at hp
      exact q3 r (hp ▸ hr)
  have hq : ∀ l, some l ∈ ts.map (fun a => some [a]) → ∀ r ∈ l, Good T g0.nodes r := by
    intro l hl r hr
    obtain ⟨a, ha, e⟩ := List.mem_map.1 hl
    cases e
    rw [List.mem_singleton] at hr
    subst hr
    exact hgood r ha
  obtain ⟨tp, g', htake⟩ := takeAction_ok Inv.applyTotal (inv_kept hT.sym g0) (ts.map (fun a => some [a]))
    (fun l hl r hr => (hq l hl r hr).proposal) h
  have hinv : Inv T g0 g' := by
    have := (inv_kept hT.sym g0).takeAction false (ts.map (fun a => some [a])) (fun l hl r hr => (hq l hl r hr).proposal) h
    rwa [htake] at this
  refine ⟨rs, g', ?_, hinv, ?_⟩
  · unfold runTogether
    rw [PyM.bind_ok hrun]
    simp only
    rw [PyM.bind_ok htake]
    rfl
  have hdone : ∀ r ∈ ts, r.action = .removeEdgeUndirected → g'.live r.u r.v = false := by
    intro r hr ha
    exact removal_done hT.sym h _ (fun l hl r hr => (hq l hl r hr).proposal) htake (List.mem_map.2 ⟨r, hr, rfl⟩)
      (by simp) ha
  intro x y hx hy hxy
  constructor
  · intro hl
    -- only questions of the three tests count
    let T' : Tests ι ρ := { T with tm := fun c => if c.length < 4 then .ok none else T.tm c, reg := fun _ => .ok false }
    have hsays : ∀ {a b : ι} {S : List ι}, Says T a b S → Says T' a b S := by
      intro a b S hs
      match S, hs with
      | [], hs => exact hs
      | [z], hs => exact hs
      | s1 :: s2 :: S, hs =>
        have : T'.tm (a :: b :: s1 :: s2 :: S) = T.tm (a :: b :: s1 :: s2 :: S) :=
          if_neg (c := (a :: b :: s1 :: s2 :: S).length < 4) (t := Except.ok none) (by simp)
        exact this.trans hs
    have h' : Inv T' g g :=
      ⟨h.wf, rfl, h.sym, h.typ, h.corr, fun _ _ h => h, fun _ _ _ => rfl, fun _ _ h h' => by rw [h] at h'; cases h'⟩
    have hinv' : Inv T' g g' := by
      have := (inv_kept (T := T') hT.sym g).takeAction false (ts.map (fun a => some [a])) (fun l hl r hr => by
        refine Good.proposal ?_
        rcases hq l hl r hr with hg | ⟨S, e1, e2, e3, e4⟩
        · exact Or.inl hg
        · exact Or.inr ⟨S, e1, e2, fun z hz => h.nodes.symm ▸ e3 z hz, hsays e4⟩) h'
      rwa [htake] at this
    obtain ⟨r, hr, _⟩ := hinv'.cert x y (hc x (h.nodes ▸ hx) y (h.nodes ▸ hy) hxy) hl
    obtain ⟨_, w1, d, S, w2, w3, w4, w5, w6, w7, w8⟩ := hr
    have key : ∀ a b, Reported T' a b S → Says T a b S := by
      intro a b hrep
      cases hrep with
      | marginal h => exact h
      | triple z h => exact h
      | matrix S h =>
        match S, h with
        | [], h => simp [T'] at h
        | [_], h => simp [T'] at h
        | s1 :: s2 :: S, h =>
          have e : T'.tm (a :: b :: s1 :: s2 :: S) = T.tm (a :: b :: s1 :: s2 :: S) :=
          if_neg (c := (a :: b :: s1 :: s2 :: S).length < 4) (t := Except.ok none) (by simp)
          exact e.symm.trans h
      | regression S h => simp [T'] at h
    have hSN : ∀ z ∈ S, z ∈ g0.nodes := fun z hz => h.nodes ▸ w5 z hz
    rcases w1 with ⟨e1, e2⟩ | ⟨e1, e2⟩
    · rw [e1, e2] at w8
      exact ⟨S, by simp [hxy, w6, w7, w4], hSN, key _ _ w8⟩
    · rw [e1, e2] at w8
      refine ⟨S, by simp [hxy, w6, w7, w4], hSN, hT.swap y x S (by simp [hxy.symm, w6, w7, w4]) ?_ (key _ _ w8)⟩
      intro z hz
      rcases List.mem_cons.1 hz with rfl | hz
      · exact hy
      rcases List.mem_cons.1 hz with rfl | hz
      · exact hx
      · exact hSN z hz
  · rintro ⟨S, hnd, hSN, hs⟩
    have hn : ∀ w ∈ x :: y :: S, w ∈ g0.nodes := by
      intro z hz
      rcases List.mem_cons.1 hz with rfl | hz
      · exact hx
      rcases List.mem_cons.1 hz with rfl | hz
      · exact hy
      · exact hSN z hz
    match S, hnd, hn, hs with
    | [], _, _, hs =>
      rcases c1 x y hx hy hxy hs with hm | hm
      · exact hdone _ (hall _ (by simp) p1 d1 _ hm) rfl
      · exact dead_symm hinv (hdone _ (hall _ (by simp) p1 d1 _ hm) rfl)
    | [z], hnd, hn, hs =>
      rcases c2 x y z hnd hn hs with hm | hm
      · exact hdone _ (hall _ (by simp) p2 d2 _ hm) rfl
      · exact dead_symm hinv (hdone _ (hall _ (by simp) p2 d2 _ hm) rfl)
    | s1 :: s2 :: S, hnd, hn, hs =>
      obtain ⟨S', hm⟩ := c3 x y _ hnd hn (by simp) hs
      exact hdone _ (hall _ (by simp) p3 d3 _ hm) rfl

end

/-- the first two steps of `PCStable` -/
theorem stable_skeleton {gn : CGraph ι ρ} (hgn : Reachable gn) (hT : Steady T gn.nodes) {ord : NbOrd ι}
    (ho : ord.Valid) (fuel : Nat) (h : List (HistRec ι (Info ι ρ))) :
    ∃ g h', runPipeline fuel (stableSkeleton T ord) ⟨startGraph gn, h⟩ = (.ok (), ⟨g, h'⟩) ∧ Inv T (startGraph gn) g ∧
      ∀ x y, x ∈ gn.nodes → y ∈ gn.nodes → x ≠ y → (g.live x y = false ↔ Separable T gn.nodes x y) := by
  obtain ⟨h0, h1, h2⟩ := start_facts gn hgn T
  have hn : (startGraph gn).nodes = gn.nodes := h1
  have hT' : Steady T (startGraph gn).nodes := h1 ▸ hT
  obtain ⟨tp1, g1, e1, i1, c1, hc1⟩ := pearson_phase hT.sym h0 h2
  obtain ⟨rs, g', e2, i2, hl⟩ := stable_tests (inv_purgeG i1) (complete_purge c1) (hasCorr_purgeG i1.wf hc1) hT' ho
  unfold stableSkeleton runPipeline
  rw [PyM.forEach_cons_ok (run_plain_ok fuel (s := pearsonStep T) (m := ⟨startGraph gn, h⟩) e1 i1.wf)]
  refine ⟨g', h ++ [.plain ⟨(pearsonStep T).name, tp1.1, tp1.2⟩] ++ [.logic "ApplyActionsTogether" rs], ?_, i2, ?_⟩
  · rw [PyM.forEach_cons_ok (s' := ⟨g', _⟩)]
    · rfl
    · unfold stableTests
      rw [PStep.run_together, PyM.bind_run, onGraph_run]
      rw [e2]
      simp only [appendHistory, PyM.mod_run]
  · intro x y hx hy hxy
    rw [hn] at hl
    exact hl x y hx hy hxy

end PC
end Verif
