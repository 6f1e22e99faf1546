import Verif.PC.Lemmas

/-!
# Helper lemmas: what each step of the skeleton phase removes
-/

namespace Verif
open Graph CI
variable {ι ρ δ : Type} [DecidableEq ι]

omit [DecidableEq ι] in
theorem Step.gather_split {α : Type} (body : α → PyM (Graph ι δ) (List (TestResult ι δ) × List (TestResult ι δ)))
    (l1 : List α) (a : α) (l2 : List α) {g g' : Graph ι δ} {tp : List (TestResult ι δ) × List (TestResult ι δ)}
    (h : Step.gather body (l1 ++ a :: l2) g = (.ok tp, g')) : ∃ tp1 g1 tp2 g2 tp3, Step.gather body l1 g = (.ok tp1, g1) ∧
      body a g1 = (.ok tp2, g2) ∧ Step.gather body l2 g2 = (.ok tp3, g') := by
  induction l1 generalizing g tp with
  | nil =>
    rw [List.nil_append, Step.gather_cons] at h
    generalize hx : body a g = x at h
    obtain ⟨e | t, g1⟩ := x
    · cases h
    · simp only at h
      generalize hy : Step.gather body l2 g1 = y at h
      obtain ⟨e | t2, g2⟩ := y
      · cases h
      · simp only [Prod.mk.injEq] at h
        obtain ⟨_, rfl⟩ := h
        exact ⟨([], []), g, t, g1, t2, rfl, hx, hy⟩
  | cons b l1 ih =>
    rw [List.cons_append, Step.gather_cons] at h
    generalize hx : body b g = x at h
    obtain ⟨e | t, g1⟩ := x
    · cases h
    · simp only at h
      generalize hy : Step.gather body (l1 ++ a :: l2) g1 = y at h
      obtain ⟨e | t2, g2⟩ := y
      · cases h
      · simp only [Prod.mk.injEq] at h
        obtain ⟨_, rfl⟩ := h
        obtain ⟨tp1, q1, tp2, q2, tp3, e1, e2, e3⟩ := ih hy
        refine ⟨(t.1 ++ tp1.1, t.2 ++ tp1.2), q1, tp2, q2, tp3, ?_, e2, e3⟩
        rw [Step.gather_cons, hx]
        simp only
        rw [e1]

omit [DecidableEq ι] in
theorem Step.evalChunk_covers (s : Step ι δ) (g : Graph ι δ) (cs : List (List ι)) (rs : Results ι δ)
    (h : s.evalChunk g cs = .ok rs) {c : List ι} (hc : c ∈ cs) : ∃ o ∈ rs, s.process c g none = .ok o := by
  induction cs generalizing rs with
  | nil => cases hc
  | cons d cs ih =>
    unfold Step.evalChunk at h
    cases hd : s.process d g none with
    | error e => rw [hd] at h; cases h
    | ok o =>
      rw [hd] at h
      simp only at h
      cases hr : s.evalChunk g cs with
      | error e => rw [hr] at h; cases h
      | ok rs' =>
        rw [hr] at h
        simp only [Except.ok.injEq] at h
        subst h
        rcases List.mem_cons.1 hc with rfl | hc
        · exact ⟨o, List.mem_cons_self, hd⟩
        · obtain ⟨o', ho', hp⟩ := ih rs' hr hc
          exact ⟨o', List.mem_cons_of_mem _ ho', hp⟩

/-- one position of the chunked mode keeps an invariant -/
theorem Step.chunk_kept {P : Graph ι δ → Prop} {Q : TestResult ι δ → Prop} {R : List ι → Prop} {s : Step ι δ} (k : Kept P Q)
    (hs : ∀ c g u rs, P g → R c → s.process c g u = .ok (some rs) → ∀ r ∈ rs, Q r) {t : Graph ι δ → List (Yield ι)}
    (ht : ∀ g, P g → ∀ y ∈ t g, ∀ c ∈ y.combos, R c) {g : Graph ι δ} (hg : P g) :
    P ((PyM.get >>= fun g => Step.gather (s.runChunk false) (t g)) g).2 := by
  rw [PyM.bind_ok (PyM.get_run g)]
  have hR' := ht g hg
  refine Step.gather_inv P _ _ (fun y hy g hg => ?_) hg
  unfold Step.runChunk
  cases y with
  | single c => exact hg
  | chunk cs =>
    simp only
    cases hx : s.evalChunk g cs with
    | error e => exact hg
    | ok rs =>
      refine k.takeAction false rs ?_ hg
      intro l hl
      obtain ⟨c, hc', hc⟩ := s.evalChunk_mem g cs rs hx _ hl
      exact hs c g none l hg (hR' _ hy c hc') hc

namespace PC
variable {T : Tests ι ρ} {E : ι → ι → Prop}

theorem dead_kept (hsym : ∀ a b, T.pearson a b = T.pearson b a) (g0 : CGraph ι ρ) (u v : ι) :
    Kept (fun g => Inv T g0 g ∧ g.live u v = false) (Proposal T g0.nodes) :=
  ⟨fun _ _ hg hr => ⟨hg.1.apply hsym hr, dead_stays hsym hg.1 hr hg.2⟩,
    fun _ hg => ⟨hg.1.purge, by rw [purge_run hg.1.wf, live_purgeG]; exact hg.2⟩⟩

/-- no step of the phase brings an edge back -/
theorem dead_execute (hsym : ∀ a b, T.pearson a b = T.pearson b a) {g0 g : CGraph ι ρ} (h : Inv T g0 g) {s : Step ι (Info ι ρ)}
    (hs : s.Safe (Inv T g0) (Proposal T g0.nodes)) {u v : ι} (hd : g.live u v = false) :
    (s.execute false g).2.live u v = false :=
  ((hs.weaken (fun _ hg => hg.1)).execute (dead_kept hsym g0 u v) false ⟨h, hd⟩).2

theorem dead_symm {g0 g : CGraph ι ρ} (h : Inv T g0 g) {u v : ι} (hd : g.live u v = false) : g.live v u = false := by
  cases hl : g.live v u with
  | false => rfl
  | true => rw [h.sym _ _ hl] at hd; cases hd

/-- the marginal test removes exactly the marginally d-separated pairs -/
theorem corr_done {g0 g g' : CGraph ι ρ} (hO : Oracle T E g0.nodes) (h : Inv T g0 g) (hc : Complete g) (hh : HasCorr g)
    {tp : List (CResult ι ρ) × List (CResult ι ρ)} (he : (corrStep T).execute false g = (.ok tp, g')) :
    HasCorr g' ∧ ∀ x y, x ∈ g0.nodes → y ∈ g0.nodes → x ≠ y → (g'.live x y = false ↔ Dag.DSep E x y []) := by
  have hcorr := ((corr_safe T g0).weaken (P' := fun g => Inv T g0 g ∧ HasCorr g) (fun _ hg => hg.1)).execute
    (invc_kept hO.sym g0) false ⟨h, hh⟩
  have hinv := (corr_safe T g0).execute (inv_kept hO.sym g0) false h
  rw [he] at hcorr hinv
  have he0 := he
  refine ⟨hcorr.2, ?_⟩
  obtain ⟨cs, hgen, hcs, hcov⟩ := allGen_pairs g h.wf.nodup
  have hval : ∀ x y, x ∈ g.nodes → y ∈ g.nodes → x ≠ y → corrProcess T [x, y] g =
      match T.t0 x y (T.pearson x y) with
      | .error e => .error e
      | .ok b => .ok (some [if b then removal x y [] else keep x y]) := by
    intro x y hx hy hxy
    obtain ⟨e, he, hv⟩ := edgeValue_live h.wf (hc x hx y hy hxy)
    have hm := hh x y e he
    cases hr : e.metadata.corr with
    | none => exact absurd hr hm
    | some r =>
      have hp : r = T.pearson x y := by
        rcases h.corr x y e he with h1 | h1
        · exact absurd h1 hm
        · rw [hr] at h1; exact Option.some.inj h1
      simp only [corrProcess, hx, hy, hv, hr, hp, not_true_eq_false, if_false]
      cases T.t0 x y (T.pearson x y) <;> rfl
  have hf : ∀ c ∈ cs, ∀ u, (corrStep T).process c g u = .ok (((corrProcess T c g).toOption).join) := by
    intro c hcc u
    obtain ⟨x, y, rfl, hxy, hx, hy⟩ := hcs c hcc
    obtain ⟨b, hb⟩ := hO.total.t0 x y (h.nodes ▸ hx) (h.nodes ▸ hy) hxy
    show corrProcess T [x, y] g = _
    rw [hval x y hx hy hxy, hb]
    rfl
  rw [Step.execute_batch rfl rfl cs hgen _ hf] at he
  have hq : ∀ l, some l ∈ cs.map (fun c => ((corrProcess T c g).toOption).join) → ∀ r ∈ l, Proposal T g0.nodes r := by
    intro l hl r hr
    obtain ⟨c, hcc, hl⟩ := List.mem_map.1 hl
    obtain ⟨R, hR⟩ := corr_safe T g0
    have := hf c hcc none
    simp only [hl] at this
    exact hR.process c g none l h (hR.gen g _ h hgen _ List.mem_cons_self g h (.single c)
      (List.mem_map.2 ⟨c, hcc, rfl⟩) c (by simp [Yield.combos])) this r hr
  have main : ∀ x y, [x, y] ∈ cs → Dag.DSep E x y [] → g'.live x y = false := by
    intro x y hxy hd
    obtain ⟨x', y', heq, hne, hx, hy⟩ := hcs _ hxy
    simp only [List.cons.injEq, and_true] at heq
    obtain ⟨rfl, rfl⟩ := heq
    have ht := (hO.marginal x y (h.nodes ▸ hx) (h.nodes ▸ hy) hne).2 hd
    refine removal_done hO.sym h _ hq he (r := removal x y []) (l := [removal x y []])
      (List.mem_map.2 ⟨_, hxy, ?_⟩) List.mem_cons_self rfl
    rw [hval x y hx hy hne, ht]
    rfl
  intro x y hx hy hxy
  refine ⟨fun hl => ?_, fun hd => ?_⟩
  · let T' : Tests ι ρ := { T with t1 := fun _ _ _ _ _ _ _ => .ok none, tm := fun _ => .ok none, reg := fun _ => .ok false }
    have h' : Inv T' g g :=
      ⟨h.wf, rfl, h.sym, h.typ, h.corr, fun _ _ h => h, fun _ _ _ => rfl, fun _ _ h h' => by rw [h] at h'; cases h'⟩
    have h1 := (corr_safe T' g).execute (inv_kept (T := T') hO.sym g) false h'
    rw [show corrStep T' = corrStep T from rfl, he0] at h1
    obtain ⟨r, hr, _⟩ := h1.cert x y (hc x (h.nodes ▸ hx) y (h.nodes ▸ hy) hxy) hl
    obtain ⟨_, q1, d, S, q2, q3, q4, q5, q6, q7, q8⟩ := hr
    have key : ∀ a b, a ∈ g0.nodes → b ∈ g0.nodes → a ≠ b → Reported T' a b S → Dag.DSep E a b [] := by
      intro a b ha hb hab hrep
      cases hrep with
      | marginal h => exact (hO.marginal a b ha hb hab).1 h
      | triple z h => simp [T'] at h
      | matrix S h => simp [T'] at h
      | regression S h => simp [T'] at h
    rcases q1 with ⟨e1, e2⟩ | ⟨e1, e2⟩
    · exact key x y hx hy hxy (by rw [← e1, ← e2]; exact q8)
    · exact (key y x hy hx hxy.symm (by rw [← e1, ← e2]; exact q8)).symm
  rw [← h.nodes] at hx hy
  rcases hcov x hx y hy hxy with hm | hm
  · exact main x y hm hd
  · exact dead_symm hinv (main y x hm hd.symm)

/-- a triangle is tested three times -/
theorem partial_triangle {g0 g : CGraph ι ρ} (h : Inv T g0 g) (hh : HasCorr g) {a b d : ι} (h1 : a ≠ b) (h2 : a ≠ d)
    (h3 : b ≠ d) (l1 : g.live a b = true) (l2 : g.live a d = true) (l3 : g.live b d = true)
    {b1 b2 b3 : Bool}
    (t1 : T.t1 1 b d a (T.pearson b d) (T.pearson b a) (T.pearson d a) = .ok (some b1))
    (t2 : T.t1 1 a d b (T.pearson a d) (T.pearson a b) (T.pearson d b) = .ok (some b2))
    (t3 : T.t1 1 a b d (T.pearson a b) (T.pearson a d) (T.pearson b d) = .ok (some b3)) :
    partialProcess T [a, b, d] g = .ok (some [if b1 then removal b d [a] else keep b d,
      if b2 then removal a d [b] else keep a d, if b3 then removal a b [d] else keep a b]) := by
  have hn1 := h.wf.live_nodes l1
  have hn2 := h.wf.live_nodes l3
  have hcorr : ∀ x y, g.live x y = true → corrOf g x y = some (T.pearson x y) := by
    intro x y hl
    obtain ⟨e, he, hv⟩ := edgeValue_live h.wf hl
    have hm := hh x y e he
    unfold corrOf
    rw [hv]
    rcases h.corr x y e he with h1 | h1
    · exact absurd h1 hm
    · exact h1
  have m1 := h.sym _ _ l1
  have m2 := h.sym _ _ l2
  have m3 := h.sym _ _ l3
  obtain ⟨f1, f2, f3⟩ := filter_triple h1 h2 h3
  unfold partialProcess
  rw [if_pos (by simp [hn1.1, hn1.2, hn2.2])]
  have e1 := edgeExists_of_live h.wf l1
  have e2 := edgeExists_of_live h.wf l2
  have e3 := edgeExists_of_live h.wf l3
  unfold partialLoop
  rw [f1]
  simp only [e3, Bool.not_true, Bool.false_or, List.not_mem_nil, decide_false, Bool.false_eq_true, if_false,
    hcorr _ _ l3, hcorr _ _ m1, hcorr _ _ m2, List.length_cons, List.length_nil, Nat.reduceAdd, Nat.reduceSub, t1]
  have s2 : ∀ (acc : List (CResult ι ρ)) (done : List (ι × ι)), (∀ p ∈ done, p = (b, d)) →
      partialLoop T g [a, b, d] [b, d] acc done = .ok (some (acc ++ [if b2 then removal a d [b] else keep a d,
        if b3 then removal a b [d] else keep a b])) := by
    intro acc done hdone
    have s3 : ∀ (acc : List (CResult ι ρ)) (done : List (ι × ι)), (∀ p ∈ done, p = (b, d) ∨ p = (a, d)) →
        partialLoop T g [a, b, d] [d] acc done = .ok (some (acc ++ [if b3 then removal a b [d] else keep a b])) := by
      intro acc done hdone
      have hnd : (b, a) ∉ done := by
        intro hm
        rcases hdone _ hm with e | e
        · exact h2 (Prod.mk.inj e).2
        · exact h1 (Prod.mk.inj e).1.symm
      unfold partialLoop
      rw [f3]
      simp only [e1, Bool.not_true, Bool.false_or, hnd, decide_false, Bool.false_eq_true, if_false,
        hcorr _ _ l1, hcorr _ _ l2, hcorr _ _ l3, List.length_cons, List.length_nil, Nat.reduceAdd, Nat.reduceSub, t3]
      cases b3 <;> simp [partialLoop]
    have hnd : (d, a) ∉ done := by
      intro hm
      exact h2 (Prod.mk.inj (hdone _ hm)).2
    unfold partialLoop
    rw [f2]
    simp only [e2, Bool.not_true, Bool.false_or, hnd, decide_false, Bool.false_eq_true, if_false,
      hcorr _ _ l2, hcorr _ _ l1, hcorr _ _ m3, List.length_cons, List.length_nil, Nat.reduceAdd, Nat.reduceSub, t2]
    cases b2
    · simp only
      rw [s3 _ _ (fun p hp => Or.inl (hdone p hp))]
      simp
    · simp only
      rw [s3 _ _ (by
        intro p hp
        rcases List.mem_cons.1 hp with rfl | hp
        · exact Or.inr rfl
        · exact Or.inl (hdone p hp))]
      simp
  cases b1
  · simp only
    rw [s2 _ _ (by simp)]
    simp
  · simp only
    rw [s2 _ _ (by simp)]
    simp

/-- after the marginal test, the triple test removes every pair that one variable separates -/
theorem partial_done {g0 g g' : CGraph ι ρ} (hO : Oracle T E g0.nodes) (h : Inv T g0 g) (hh : HasCorr g)
    (hm : ∀ x y, x ∈ g0.nodes → y ∈ g0.nodes → x ≠ y → (g.live x y = false ↔ Dag.DSep E x y []))
    {tp : List (CResult ι ρ) × List (CResult ι ρ)}
    (he : (partialStep T).execute false g = (.ok tp, g')) {u v p : ι} (hu : u ∈ g0.nodes) (hv : v ∈ g0.nodes)
    (hp : p ∈ g0.nodes) (huv : u ≠ v) (hup : u ≠ p) (hvp : v ≠ p) (hd : Dag.DSep E u v [p]) : g'.live u v = false := by
  have hinv := (partial_safe T g0).execute (inv_kept hO.sym g0) false h
  rw [he] at hinv
  by_cases hl : g.live u v = true
  swap
  · have := dead_execute hO.sym h (partial_safe T g0) (u := u) (v := v) (by simpa using hl)
    rwa [he] at this
  have hnd : ¬ Dag.DSep E u v [] := by
    intro hd0
    rw [(hm u v hu hv huv).2 hd0] at hl
    cases hl
  have lup : g.live u p = true := by
    by_contra hc
    have hd0 := (hm u p hu hp hup).1 (by simpa using hc)
    exact hnd (hd.symm.drop hd0.symm).symm
  have lvp : g.live v p = true := by
    by_contra hc
    have hd0 := (hm v p hv hp hvp).1 (by simpa using hc)
    exact hnd (hd.drop hd0.symm)
  obtain ⟨ts, hts⟩ := allGen_total (s := ⟨3, 3⟩) (by decide) g
  obtain ⟨cs, hcs, rfl⟩ := allGen_combos hts
  have hmem := allCombinations_mem h.wf.nodup hcs (by decide)
  have htri : ∀ c ∈ cs, IsTriple c ∧ ∀ z ∈ c, z ∈ g.nodes := by
    intro c hc
    obtain ⟨q1, q2, q3⟩ := (hmem c).1 hc
    refine ⟨isTriple_of (q1.nodup h.wf.nodup) (by simp only at q2 q3; omega), fun z hz => q1.subset hz⟩
  have hf : ∀ c ∈ cs, ∀ u, (partialStep T).process c g u = .ok (((partialProcess T c g).toOption).join) := by
    intro c hc u
    obtain ⟨q1, q2⟩ := htri c hc
    show partialProcess T c g = _
    unfold partialProcess
    rw [if_pos (by simpa [List.all_eq_true] using q2)]
    obtain ⟨o, ho⟩ := partialLoop_total hO.total h q1 (fun z hz => h.nodes ▸ q2 z hz) c (fun _ hz => hz) [] []
    rw [ho]
    rfl
  rw [Step.execute_batch rfl rfl cs hts _ hf] at he
  have hq : ∀ l, some l ∈ cs.map (fun c => ((partialProcess T c g).toOption).join) → ∀ r ∈ l, Proposal T g0.nodes r := by
    intro l hl r hr
    obtain ⟨c, hcc, hl⟩ := List.mem_map.1 hl
    obtain ⟨R, hR⟩ := partial_safe T g0
    have := hf c hcc none
    simp only [hl] at this
    exact hR.process c g none l h (hR.gen g _ h hts _ List.mem_cons_self g h (.single c)
      (List.mem_map.2 ⟨c, hcc, rfl⟩) c (by simp [Yield.combos])) this r hr
  have main : ∀ a b d, [a, b, d] ∈ cs → a ≠ b → a ≠ d → b ≠ d → g.live a b = true → g.live a d = true →
      g.live b d = true → (Dag.DSep E b d [a] → g'.live b d = false) ∧ (Dag.DSep E a d [b] → g'.live a d = false) ∧
        (Dag.DSep E a b [d] → g'.live a b = false) := by
    intro a b d hc h1 h2 h3 l1 l2 l3
    have ha : a ∈ g0.nodes := h.nodes ▸ (htri _ hc).2 a (by simp)
    have hb : b ∈ g0.nodes := h.nodes ▸ (htri _ hc).2 b (by simp)
    have hdd : d ∈ g0.nodes := h.nodes ▸ (htri _ hc).2 d (by simp)
    obtain ⟨b1, t1, d1⟩ := hO.triple b d a hb hdd ha h3 h1.symm h2.symm
    obtain ⟨b2, t2, d2⟩ := hO.triple a d b ha hdd hb h2 h1 h3.symm
    obtain ⟨b3, t3, d3⟩ := hO.triple a b d ha hb hdd h1 h2 h3
    have hres := partial_triangle h hh h1 h2 h3 l1 l2 l3 t1 t2 t3
    have hin : some _ ∈ cs.map (fun c => ((partialProcess T c g).toOption).join) :=
      List.mem_map.2 ⟨_, hc, by rw [hres]; rfl⟩
    refine ⟨fun hd => ?_, fun hd => ?_, fun hd => ?_⟩
    · have hb1 := d1.2 hd
      subst hb1
      exact removal_done hO.sym h _ hq he (r := removal b d [a]) hin (by simp) rfl
    · have hb2 := d2.2 hd
      subst hb2
      exact removal_done hO.sym h _ hq he (r := removal a d [b]) hin (by simp) rfl
    · have hb3 := d3.2 hd
      subst hb3
      exact removal_done hO.sym h _ hq he (r := removal a b [d]) hin (by simp) rfl
  obtain ⟨c, hsub, hperm⟩ := sublist_perm (l := g.nodes) (c := [u, v, p]) h.wf.nodup (by simp [huv, hup, hvp]) (by
    intro x hx
    rw [h.nodes]
    simp only [List.mem_cons, List.not_mem_nil, or_false] at hx
    rcases hx with rfl | rfl | rfl <;> assumption)
  have hcin : c ∈ cs := (hmem c).2 ⟨hsub, by rw [hperm.length_eq]; exact Int.le_refl 3, by rw [hperm.length_eq]; exact Int.le_refl 3⟩
  have luv' := h.sym _ _ hl
  have lup' := h.sym _ _ lup
  have lvp' := h.sym _ _ lvp
  obtain ⟨⟨a, b, d, rfl, h1, h2, h3⟩, _⟩ := htri c hcin
  have hu' : u ∈ [a, b, d] := hperm.mem_iff.2 (by simp)
  have hv' : v ∈ [a, b, d] := hperm.mem_iff.2 (by simp)
  have hp' : p ∈ [a, b, d] := hperm.mem_iff.2 (by simp)
  simp only [List.mem_cons, List.not_mem_nil, or_false] at hu' hv' hp'
  rcases hu' with rfl | rfl | rfl <;> rcases hv' with rfl | rfl | rfl <;> rcases hp' with rfl | rfl | rfl <;>
    first
    | exact absurd rfl huv
    | exact absurd rfl hup
    | exact absurd rfl hvp
    | skip
  · exact (main _ _ _ hcin h1 h2 h3 ‹_› ‹_› ‹_›).2.2 hd
  · exact (main _ _ _ hcin h1 h2 h3 ‹_› ‹_› ‹_›).2.1 hd
  · exact dead_symm hinv ((main _ _ _ hcin h1 h2 h3 ‹_› ‹_› ‹_›).2.2 hd.symm)
  · exact (main _ _ _ hcin h1 h2 h3 ‹_› ‹_› ‹_›).1 hd
  · exact dead_symm hinv ((main _ _ _ hcin h1 h2 h3 ‹_› ‹_› ‹_›).2.1 hd.symm)
  · exact dead_symm hinv ((main _ _ _ hcin h1 h2 h3 ‹_› ‹_› ‹_›).1 hd.symm)

/-- testing a separating set of neighbours proposes the removal -/
theorem matrix_removes {g0 g1 : CGraph ι ρ} (hO : Oracle T E g0.nodes) (i1 : Inv T g0 g1) (cfg : NbCfg ι) {u v : ι}
    (hl1 : g1.live u v = true) {S : List ι} (hnd : (u :: v :: S).Nodup) (hS : ∀ z ∈ S, g1.live z u = true)
    (hd : Dag.DSep E u v S) :
    (matrixStep T cfg).process (u :: v :: S) g1 none = .ok (some [removal u v S]) := by
  have hn := i1.wf.live_nodes hl1
  have hSN : ∀ z ∈ u :: v :: S, z ∈ g0.nodes := by
    intro z hz
    rw [← i1.nodes]
    rcases List.mem_cons.1 hz with rfl | hz
    · exact hn.1
    rcases List.mem_cons.1 hz with rfl | hz
    · exact hn.2
    · exact (i1.wf.live_nodes (hS z hz)).1
  obtain ⟨b, hb, hbd⟩ := hO.matrix u v S hnd hSN
  have hb' : b = true := hbd.2 hd
  subst hb'
  show matrixProcess T (u :: v :: S) g1 = _
  unfold matrixProcess
  have hl1' := i1.sym _ _ hl1
  obtain ⟨e1, he1, _⟩ := live_iff.1 hl1
  have hvm : v ∈ g1.otherNeighbours u := by
    unfold otherNeighbours
    rw [List.mem_filter]
    exact ⟨(mem_keys2_iff u v).2 ⟨_, he1⟩, by rw [directedEdgeExists_eq i1.wf]; exact hl1'⟩
  have hSm : S.all (fun z => decide (z ∈ g1.otherNeighbours u) && decide (z ≠ v)) = true := by
    rw [List.all_eq_true]
    intro z hz
    have m1 := hS z hz
    obtain ⟨e2, he2, _⟩ := live_iff.1 (i1.sym _ _ m1)
    simp only [Bool.and_eq_true, decide_eq_true_eq]
    refine ⟨?_, ?_⟩
    · unfold otherNeighbours
      rw [List.mem_filter]
      exact ⟨(mem_keys2_iff u z).2 ⟨_, he2⟩, by rw [directedEdgeExists_eq i1.wf]; exact m1⟩
    · rintro rfl
      simp_all
  simp only
  rw [if_neg (by simp [hn.1]), if_neg (by simp [hn.2]), if_neg (by simp [edgeExists_of_live i1.wf hl1]),
    if_neg (by simp [get2_isSome_has he1]), if_neg (by simp [hvm]), if_neg (by rw [hSm]; simp), hb]
  simp only [if_true]
  rw [sepOf_eq hnd]

/-- the extended test removes a pair that a set of neighbours of its first node separates -/
theorem matrix_done {g0 g g' : CGraph ι ρ} (hO : Oracle T E g0.nodes) (hc0 : Complete g0) (h : Inv T g0 g) {cfg : NbCfg ι}
    (hcfg : cfg.Valid) (hch : cfg.chunked = true) (h2 : 2 ≤ cfg.settings.min) (hmax : cfg.settings.max = 0)
    {tp : List (CResult ι ρ) × List (CResult ι ρ)} (he : (matrixStep T cfg).execute false g = (.ok tp, g')) {u v : ι}
    (hu : u ∈ g0.nodes) (hv : v ∈ g0.nodes) (huv : u ≠ v) {Z : List ι} (hZ : Z.Nodup) (hZu : ∀ z ∈ Z, Dag.Adj E z u)
    (hvZ : v ∉ Z) (hmin : cfg.settings.min ≤ Z.length + 2) (hd : Dag.DSep E u v Z) : g'.live u v = false := by
  have hsafe := matrix_safe T g0 cfg hcfg
  have hZn : ∀ z ∈ Z, z ∈ g0.nodes := by
    intro z hz
    rcases hZu z hz with e | e
    · exact (hO.edges _ _ e).1
    · exact (hO.edges _ _ e).2
  have huZ : u ∉ Z := by
    intro hz
    rcases hZu u hz with e | e <;> exact hO.acyclic.irrefl _ e
  by_cases hl : g.live u v = true
  swap
  · have := dead_execute hO.sym h hsafe (u := u) (v := v) (by simpa using hl)
    rwa [he] at this
  have hk : Z.length + 2 ≤ g.nodes.length := by
    have : (u :: v :: Z).length ≤ g.nodes.length := by
      refine (List.subperm_of_subset (by simp [huv, huZ, hvZ, hZ]) ?_).length_le
      intro z hz
      rw [h.nodes]
      rcases List.mem_cons.1 hz with rfl | hz
      · exact hu
      rcases List.mem_cons.1 hz with rfl | hz
      · exact hv
      · exact hZn z hz
    simpa using this
  obtain ⟨start, stop, hb, hb1, hb2⟩ := (cfg.settings.bounds_iff g.nodes.length (Z.length + 2)).2
    ⟨hk, by push_cast; exact hmin, Or.inl hmax⟩
  have hst := (cfg.settings.bounds_fst _ _ _ hb).1
  unfold Step.execute at he
  have hgen : (matrixStep T cfg).gen g = .ok ((g.nbPositions start stop).map (fun p => nbBody cfg p.1 p.2.1 p.2.2)) := by
    show pairsWithNeighbours cfg g = _
    unfold pairsWithNeighbours
    rw [hb]
    simp only
    rw [if_neg (by omega)]
  rw [hgen] at he
  simp only [show (matrixStep T cfg).chunked = true from hch, if_true] at he
  obtain ⟨e0, he0, _⟩ := live_iff.1 hl
  have hpos : (Z.length + 2, u, v) ∈ g.nbPositions start stop :=
    (mem_nbPositions g start stop _ (by omega) u v).2 ⟨hb1, hb2, (mem_keys2_iff u v).2 ⟨_, he0⟩⟩
  obtain ⟨l1, l2, hsplit⟩ := List.append_of_mem (List.mem_map.2 ⟨_, hpos, rfl⟩ :
    nbBody cfg (Z.length + 2) u v ∈ (g.nbPositions start stop).map (fun p => nbBody cfg p.1 p.2.1 p.2.2))
  obtain ⟨R, hR⟩ := hsafe
  have hRg := hR.gen g _ h hgen
  rw [hsplit] at hRg
  unfold Step.runChunked at he
  rw [hsplit] at he
  obtain ⟨tp1, g1, tp2, g2, tp3, e1, e2, e3⟩ := Step.gather_split _ l1 _ l2 he
  have i1 : Inv T g0 g1 := by
    have := Step.gather_inv (Inv T g0) (fun t => (PyM.get >>= fun g => Step.gather ((matrixStep T cfg).runChunk false) (t g)))
      l1 (fun t ht g hg => Step.chunk_kept (inv_kept hO.sym g0) hR.process (hRg t (by simp [ht])) hg) h
    rw [e1] at this
    exact this
  have hdead : Inv T g0 g2 ∧ g2.live u v = false := by
    by_cases hl1 : g1.live u v = true
    swap
    · have := Step.chunk_kept (s := matrixStep T cfg) (dead_kept hO.sym g0 u v) (fun c g u rs hg => hR.process c g u rs hg.1)
        (t := nbBody cfg (Z.length + 2) u v) (fun g hg => hRg _ (by simp) g hg.1) (g := g1) ⟨i1, by simpa using hl1⟩
      rw [e2] at this
      exact this
    · have i2 := Step.chunk_kept (s := matrixStep T cfg) (inv_kept hO.sym g0) hR.process
        (t := nbBody cfg (Z.length + 2) u v) (hRg _ (by simp)) i1
      rw [e2] at i2
      refine ⟨i2, ?_⟩
      rw [PyM.bind_ok (PyM.get_run g1)] at e2
      obtain ⟨S, hSsub, hSperm⟩ := sublist_perm (l := others cfg (Z.length + 2) u v g1) (c := Z) (nodup_others hcfg _ _ _) hZ (by
        intro z hz
        have hlz := adj_live hO hc0 i1 (hZu z hz)
        obtain ⟨e, he, _⟩ := live_iff.1 (i1.sym _ _ hlz)
        exact (mem_others i1.wf hcfg _ _ _ _).2 ⟨hlz, (mem_keys2_iff u z).2 ⟨_, he⟩, fun e => hvZ (e ▸ hz)⟩)
      have hSin : S ∈ combinations (others cfg (Z.length + 2) u v g1) (Z.length + 2 - 2) :=
        (mem_combinations _ _ _).2 ⟨hSsub, by rw [hSperm.length_eq]; omega⟩
      have hone : ∃ cs, nbBody cfg (Z.length + 2) u v g1 = [.chunk cs] := by
        unfold nbBody
        rw [directedEdgeExists_eq i1.wf, hl1]
        simp only [Bool.not_true, Bool.false_eq_true, if_false]
        split
        · exact ⟨_, rfl⟩
        · exact ⟨_, rfl⟩
      obtain ⟨cs, hcs⟩ := hone
      obtain ⟨w, hw, hwc⟩ := (nbBody_mem i1.wf hcfg (k := Z.length + 2) (by omega) (x := u) (y := v) (c := u :: v :: S)).2 ⟨hl1, S, hSin, rfl⟩
      have hRc := hRg (nbBody cfg (Z.length + 2) u v) (by simp) g1 i1
      rw [hcs] at e2 hw hRc
      rw [List.mem_singleton] at hw
      subst hw
      simp only [Yield.combos] at hwc
      obtain ⟨_, q1, tp4, q2, tp5, f1, f2, f3⟩ := Step.gather_split _ [] _ [] e2
      cases f1
      cases f3
      unfold Step.runChunk at f2
      simp only at f2
      cases hrs : (matrixStep T cfg).evalChunk g1 cs with
      | error e => rw [hrs] at f2; cases f2
      | ok rs =>
        rw [hrs] at f2
        simp only at f2
        obtain ⟨o, ho, hpr⟩ := Step.evalChunk_covers _ g1 cs rs hrs hwc
        have hq : ∀ l, some l ∈ rs → ∀ r ∈ l, Proposal T g0.nodes r := by
          intro l hl r hr
          obtain ⟨c, hc', hc⟩ := (matrixStep T cfg).evalChunk_mem g1 cs rs hrs _ hl
          exact hR.process c g1 none l i1 (hRc _ List.mem_cons_self c hc') hc r hr
        have hnd : (u :: v :: S).Nodup := by
          have := hSperm.mem_iff (a := u)
          have := hSperm.mem_iff (a := v)
          simp_all [hSperm.nodup_iff]
        have hres := matrix_removes hO i1 cfg hl1 hnd (fun z hz => ((mem_others i1.wf hcfg _ _ _ _).1 (hSsub.subset hz)).1)
          (hd.congr (fun z => (hSperm.mem_iff (a := z)).symm))
        rw [hres] at hpr
        cases hpr
        exact removal_done hO.sym i1 rs hq f2 (r := removal u v S) ho (by simp) rfl
  have := Step.gather_inv (fun g => Inv T g0 g ∧ g.live u v = false)
    (fun t => (PyM.get >>= fun g => Step.gather ((matrixStep T cfg).runChunk false) (t g)))
    l2 (fun t ht g hg => Step.chunk_kept (dead_kept hO.sym g0 u v) (fun c g u rs hg => hR.process c g u rs hg.1)
      (fun g hg => hRg t (by simp [ht]) g hg.1) hg) hdead
  rw [e3] at this
  exact this.2

end PC
end Verif
