import Verif.PC.Lemmas3
import Verif.Orient.Lemmas9

/-!
# Helper lemmas: the orientation phase on the skeleton of a DAG
-/

namespace Verif
namespace PC
open Graph CI Orient
variable {ι ρ : Type} [DecidableEq ι] {T : Tests ι ρ} {E : ι → ι → Prop}

/-- `g` has the skeleton of `E`, all its arrows are edges of `E`, and all v-structures of `E` are oriented -/
structure Sound (E : ι → ι → Prop) (g : CGraph ι ρ) : Prop where
  wf : WF0 g
  adj : ∀ a b, g.Adj a b ↔ Dag.Adj E a b
  arrow : ∀ a b, g.Arrow a b → E a b
  coll : ∀ a b c, Dag.VStructure E a b c → g.Arrow a b

theorem Sound.line {g : CGraph ι ρ} (h : Sound E g) {a b : ι} (hab : g.Line a b) : E a b ∨ E b a :=
  (h.adj a b).1 hab.adj

theorem Sound.meek1 {g : CGraph ι ρ} (h : Sound E g) {a b : ι} (hm : Meek1 g a b) : E a b := by
  obtain ⟨hl, c, hc, hcb, hna⟩ := hm
  rcases h.line hl with e | e
  · exact e
  · have := h.coll b a c ⟨⟨e, h.arrow _ _ hc⟩, hcb.symm, fun hh => hna ((h.adj _ _).2 hh.symm)⟩
    exact absurd hl this.not_line'

theorem Sound.meek2 (hac : Dag.Acyclic E) {g : CGraph ι ρ} (h : Sound E g) {a b : ι} (hm : Meek2 g a b) : E a b := by
  obtain ⟨hl, c, h1, h2⟩ := hm
  rcases h.line hl with e | e
  · exact e
  · exact absurd (.tail (.tail (.single (h.arrow _ _ h1)) (h.arrow _ _ h2)) e) (hac a)

theorem Sound.meek3 (hac : Dag.Acyclic E) {g : CGraph ι ρ} (h : Sound E g) {a b : ι} (hm : Meek3 g a b) : E a b := by
  obtain ⟨hl, c, d, hcd, hna, hac', had, hcb, hdb⟩ := hm
  rcases h.line hl with e | e
  · exact e
  · have back : ∀ c, g.Line a c → g.Arrow c b → E c a := by
      intro c h1 h2
      rcases h.line h1 with e' | e'
      · exact absurd (.tail (.tail (.single e') (h.arrow _ _ h2)) e) (hac a)
      · exact e'
    have := h.coll c a d ⟨⟨back c hac' hcb, back d had hdb⟩, hcd, fun hh => hna ((h.adj _ _).2 hh)⟩
    exact absurd hac' this.not_line'

theorem Sound.meek4 (hac : Dag.Acyclic E) {g : CGraph ι ρ} (h : Sound E g) {a b : ι} (hm : Meek4 g a b) : E a b := by
  obtain ⟨hl, c, d, hdb, hna, hac', had, hdc, hcb⟩ := hm
  rcases h.line hl with e | e
  · exact e
  · have hca : E c a := by
      rcases h.line hac' with e' | e'
      · exact absurd (.tail (.tail (.single e') (h.arrow _ _ hcb)) e) (hac a)
      · exact e'
    have hda : E d a := by
      rcases h.line had with e' | e'
      · exact absurd (.tail (.tail (.single e') (h.arrow _ _ hdc)) hca) (hac a)
      · exact e'
    have := h.coll d a b ⟨⟨hda, e⟩, hdb, fun hh => hna ((h.adj _ _).2 hh)⟩
    exact absurd had this.not_line'

/-- one run of a sound rule -/
theorem Sound.rule (hac : Dag.Acyclic E) {M : CGraph ι ρ → ι → ι → Prop}
    {p : List ι → CGraph ι ρ → Except PyErr (Option (List (CResult ι ρ)))} {g g' : CGraph ι ρ} {t pr : List (CResult ι ρ)}
    (h : Sound E g) (hr : RuleRun M p g g' t pr) (hline : ∀ g a b, M g a b → g.Line a b)
    (hM : ∀ a b, M g a b → E a b) : Sound E g' := by
  have hE : ∀ r ∈ pr, r.action = .removeEdgeDirected → E r.v r.u := by
    intro r h1 h2
    rcases hr.answer r h1 with h3 | h3
    · rw [h2] at h3; cases h3
    · exact hM _ _ h3.2
  refine ⟨hr.wf, ?_, ?_, ?_⟩
  · intro a b
    rw [← h.adj, ← edge_iff hr.wf, ← edge_iff h.wf, hr.adj_kept h.wf hline ?_]
    intro r h1 r' h2 a1 a2 e1 e2
    have := hE r' h2 a2
    rw [e1, e2] at this
    exact hac.asymm (hE r h1 a1) this
  · intro a b hab
    rw [arrow_iff hr.wf] at hab
    obtain ⟨h1, h2⟩ := hab
    cases hl : g.live b a with
    | false => exact h.arrow _ _ ((arrow_iff h.wf).2 ⟨((hr.live a b).1 h1).1, hl⟩)
    | true =>
      by_contra hne
      have : g'.live b a = true := by
        refine (hr.live b a).2 ⟨hl, ?_⟩
        rintro r hr1 hr2 ⟨rfl, rfl⟩
        exact hne (hE r hr1 hr2)
      rw [this] at h2; cases h2
  · intro a b c hv
    have hab := (arrow_iff h.wf).1 (h.coll a b c hv)
    refine (arrow_iff hr.wf).2 ⟨?_, ?_⟩
    · refine (hr.live a b).2 ⟨hab.1, ?_⟩
      rintro r hr1 hr2 ⟨rfl, rfl⟩
      exact hac.asymm (hE r hr1 hr2) hv.1.1
    · cases hl : g'.live b a with
      | false => rfl
      | true => rw [((hr.live b a).1 hl).1] at hab; exact hab.2

/-- a rule that is sound for `E` -/
def SoundStep (E : ι → ι → Prop) (s : Step ι (Info ι ρ)) : Prop := ∃ name p M, s = ruleStep name p ∧ Rule M p ∧
  ∀ g, Sound E g → ∀ a b, M g a b → E a b

theorem rules_sound (hac : Dag.Acyclic E) {o : Ords ι ρ} (ho : o.Valid) : ∀ s ∈ rules o, SoundStep E s := by
  intro s hs
  simp only [rules, List.mem_cons, List.not_mem_nil, or_false] at hs
  rcases hs with rfl | rfl | rfl | rfl
  · exact ⟨_, _, _, rfl, nonCollider_rule ho.1, fun g h a b => h.meek1⟩
  · exact ⟨_, _, _, rfl, triple_rule, fun g h a b => h.meek2 hac⟩
  · exact ⟨_, _, _, rfl, quad_rule ho.2.1, fun g h a b => h.meek3 hac⟩
  · exact ⟨_, _, _, rfl, furtherQuad_rule ho.2.2, fun g h a b => h.meek4 hac⟩

theorem runInner_sound (hac : Dag.Acyclic E) (ss : List (Step ι (Info ι ρ))) (hs : ∀ s ∈ ss, SoundStep E s)
    {g : CGraph ι ρ} (h : Sound E g) (hr : Rows g) :
    Sound E (runInner false ss g).2 ∧ Rows (runInner false ss g).2 ∧ (runInner false ss g).2.nodes = g.nodes := by
  induction ss generalizing g with
  | nil => exact ⟨h, hr, rfl⟩
  | cons s ss ih =>
    obtain ⟨name, p, M, rfl, hp, hM⟩ := hs s List.mem_cons_self
    obtain ⟨t, pr, g1, h1, _, h3⟩ := rule_execute hp name h.wf hr
    rw [runInner_cons, h1]
    simp only
    have := ih (fun s hs' => hs s (List.mem_cons_of_mem _ hs')) (h.rule hac h3 hp.line (hM g h)) (h3.rows hr)
    rw [h3.nodes] at this
    generalize runInner false ss g1 = x at this ⊢
    obtain ⟨e | ⟨rs, ts⟩, g2⟩ := x <;> exact this

theorem loopGo_sound (hac : Dag.Acyclic E) (ss : List (Step ι (Info ι ρ))) (hs : ∀ s ∈ ss, SoundStep E s)
    {exit : CGraph ι ρ → Option (List (CResult ι ρ)) → Nat → Except PyErr Bool} (fuel : Nat) :
    ∀ (n : Nat) (taken : Option (List (CResult ι ρ))) (g : CGraph ι ρ), Sound E g → Rows g →
      Sound E (loopGo ss exit fuel n taken g).2 ∧ (loopGo ss exit fuel n taken g).2.nodes = g.nodes := by
  induction fuel with
  | zero => intro n taken g h _; exact ⟨h, rfl⟩
  | succ fuel ih =>
    intro n taken g h hr
    unfold loopGo
    cases exit g taken n with
    | error e => exact ⟨h, rfl⟩
    | ok b =>
      cases b with
      | true => exact ⟨h, rfl⟩
      | false =>
        obtain ⟨h1, h2, h3⟩ := runInner_sound hac ss hs h hr
        simp only
        generalize runInner false ss g = x at h1 h2 h3 ⊢
        obtain ⟨e | ⟨rs, ts⟩, g1⟩ := x
        · exact ⟨h1, h3⟩
        · have := ih (n + 1) (some ts) g1 h1 h2
          rw [show g1.nodes = g.nodes from h3] at this
          simp only
          generalize loopGo ss exit fuel (n + 1) (some ts) g1 = y at this ⊢
          obtain ⟨e | more, g2⟩ := y <;> exact this

/-! ### the collider test -/

theorem dead_cuts {d : ι → ι → Bool} {pr : List (CResult ι ρ)} (hc : ∀ r ∈ pr, ∃ u v, r = cut u v) (a b : ι) :
    dead d pr a b = true ↔ d a b = true ∨ cut a b ∈ pr := by
  induction pr generalizing d with
  | nil => simp [dead]
  | cons r pr ih =>
    have : dead d (r :: pr) = dead (upd d r) pr := rfl
    rw [this, ih (fun r hr => hc r (List.mem_cons_of_mem _ hr))]
    obtain ⟨u, v, rfl⟩ := hc r List.mem_cons_self
    have hcut : (cut a b : CResult ι ρ) = cut u v ↔ u = a ∧ v = b := by
      constructor
      · intro h; injection h with h1 h2; exact ⟨h1.symm, h2.symm⟩
      · rintro ⟨rfl, rfl⟩; rfl
    rw [List.mem_cons, hcut]
    unfold upd
    simp only [cut]
    by_cases h : u = a ∧ v = b
    · simp [h]
    · simp [h]

/-- the facts about the graph the skeleton phase leaves -/
structure Ready (E : ι → ι → Prop) (g : CGraph ι ρ) : Prop where
  wf : WF0 g
  skel : Skeleton g
  rows : Rows g
  data : RemovalsHaveData g
  adj : ∀ a b, g.live a b = true ↔ Dag.Adj E a b
  seps : ∀ x y, x ∈ g.nodes → y ∈ g.nodes → x ≠ y → ¬ Dag.Adj E x y → ∃ S, Dag.DSep E x y S ∧
    ∀ z, SepRecorded g x y z ↔ z ∈ S

theorem Ready.collider {g : CGraph ι ρ} (h : Ready E g) {x y z : ι} (hx : x ∈ g.nodes)
    (hy : y ∈ g.nodes) (hxy : x ≠ y) (hl : ¬ g.Line x y) (h1 : z ∈ g.edges.keys2 x) (h2 : z ∈ g.edges.keys2 y) :
    SepRecorded g x y z ↔ ¬ Dag.Collider E x z y := by
  have hxz := h.skel _ _ h1
  have hyz := h.skel _ _ h2
  have hna : ¬ Dag.Adj E x y := fun ha => hl ((line_iff h.wf).2 ⟨(h.adj _ _).2 ha, (h.adj _ _).2 ha.symm⟩)
  obtain ⟨S, hS, hm⟩ := h.seps x y hx hy hxy hna
  rw [hm]
  exact hS.mem_iff_not_collider hxy (h.wf.live_ne hxz.1) (h.wf.live_ne hyz.1).symm ((h.adj _ _).1 hxz.1)
    ((h.adj _ _).1 hyz.2)

/-- the collider step orients exactly the v-structures of `E` -/
theorem collider_sound (hac : Dag.Acyclic E) {g : CGraph ι ρ} (h : Ready E g) {o : Ord ι ρ} (ho : o.Valid) :
    ∃ t pr g', (colliderStep .keepFirst o).execute false g = (.ok (t, pr), g') ∧ Sound E g' ∧ Rows g' ∧
      g'.nodes = g.nodes ∧ ∀ a b, g'.Arrow a b → ∃ c, Dag.VStructure E a b c := by
  obtain ⟨t, pr, g', h1, _, hr⟩ := collider_execute .keepFirst ho h.wf h.rows h.data h.skel
    (fun L => ∀ r ∈ L, ∃ u v, r = cut u v ∧ E v u) (by simp) (by
      intro L x y zs hL hx hy hxy hl _ hz r hr
      rcases List.mem_append.1 hr with hr | hr
      · exact hL r hr
      · obtain ⟨z, hz', hr⟩ := List.mem_flatMap.1 hr
        obtain ⟨k1, k2, k3⟩ := hz z hz'
        rw [h.collider hx hy hxy hl k1 k2, not_not] at k3
        have hp : ∀ w, E w z → L.filter (fun r => decide (r.u = w) && decide (r.v = z)) = [] := by
          intro w hw
          rw [List.filter_eq_nil_iff]
          intro r hr'
          obtain ⟨u, v, rfl, e⟩ := hL r hr'
          intro hh
          rw [Bool.and_eq_true, decide_eq_true_eq, decide_eq_true_eq] at hh
          obtain ⟨rfl, rfl⟩ := hh
          exact hac.asymm hw e
        rw [hp x k3.1, hp y k3.2] at hr
        simp only [colliderAt, List.isEmpty_nil, Bool.not_true, Bool.or_self, Bool.false_eq_true, if_false,
          List.mem_cons, List.not_mem_nil, or_false] at hr
        rcases hr with rfl | rfl
        · exact ⟨_, _, rfl, k3.1⟩
        · exact ⟨_, _, rfl, k3.2⟩)
  have hQ := hr.extra
  have hdead : ∀ a b, dead (fun _ _ => false) pr a b = true ↔ cut a b ∈ pr := by
    intro a b
    rw [dead_cuts (fun r hr' => by obtain ⟨u, v, e, _⟩ := hQ r hr'; exact ⟨u, v, e⟩)]
    simp
  have hE : ∀ a b, dead (fun _ _ => false) pr a b = true → E b a := by
    intro a b hd
    obtain ⟨u, v, e, e'⟩ := hQ _ ((hdead a b).1 hd)
    injection e with e1 e2
    rw [e1, e2]; exact e'
  have hlive : ∀ a b, g'.live a b = true ↔ Dag.Adj E a b ∧ dead (fun _ _ => false) pr a b = false := by
    intro a b
    rw [hr.app.live, Bool.and_eq_true, Bool.not_eq_true', h.adj]
  have harr : ∀ a b, g'.Arrow a b → Dag.Adj E a b ∧ cut b a ∈ pr := by
    intro a b hab
    rw [arrow_iff hr.app.wf, hlive] at hab
    refine ⟨hab.1.1, (hdead b a).1 ?_⟩
    by_contra hd
    have : g'.live b a = true := (hlive b a).2 ⟨hab.1.1.symm, by simpa using hd⟩
    rw [this] at hab
    exact absurd hab.2 (by simp)
  refine ⟨t, pr, g', h1, ⟨hr.app.wf, ?_, ?_, ?_⟩, rows_keys hr.app.keys hr.app.nodes h.rows, hr.app.nodes, ?_⟩
  · intro a b
    rw [adj_iff hr.app.wf, hlive, hlive]
    constructor
    · rintro (hh | hh)
      · exact hh.1
      · exact hh.1.symm
    · intro ha
      cases hd : dead (fun _ _ => false) pr a b with
      | false => exact Or.inl ⟨ha, rfl⟩
      | true => exact Or.inr ⟨ha.symm, hr.app.asym _ _ hd⟩
  · intro a b hab
    exact hE b a ((hdead b a).2 (harr a b hab).2)
  · rintro a b c ⟨⟨hab, hcb⟩, hne, hna⟩
    have lab : g.live a b = true := (h.adj _ _).2 (Or.inl hab)
    have lcb : g.live c b = true := (h.adj _ _).2 (Or.inl hcb)
    have hl : ¬ g.Line a c := fun hh => hna ((h.adj _ _).1 ((line_iff h.wf).1 hh).1)
    have na := (h.wf.live_nodes lab).1
    have nc := (h.wf.live_nodes lcb).1
    have kab := mem_keys2_live lab
    have kcb := mem_keys2_live lcb
    have key : cut b a ∈ pr := by
      rcases hr.all a na c nc hne hl b kab kcb (by rw [h.collider na nc hne hl kab kcb, not_not]; exact ⟨hab, hcb⟩)
        (by rw [h.collider nc na hne.symm (fun hh => hl hh.symm) kcb kab, not_not]; exact ⟨hcb, hab⟩) with
        hh | ⟨r, hr1, hr2, hr3⟩
      · exact hh.1
      · obtain ⟨u, v, rfl, e⟩ := hQ r hr1
        simp only [cut] at hr2 hr3
        subst hr2
        rcases hr3 with rfl | rfl
        · exact absurd e (hac.asymm hab)
        · exact absurd e (hac.asymm hcb)
    refine (arrow_iff hr.app.wf).2 ⟨(hlive a b).2 ⟨Or.inl hab, ?_⟩, ?_⟩
    · exact hr.app.asym b a ((hdead b a).2 key)
    · cases hll : g'.live b a with
      | false => rfl
      | true =>
        have := ((hlive b a).1 hll).2
        rw [(hdead b a).2 key] at this; cases this
  · intro a b hab
    obtain ⟨_, hc⟩ := harr a b hab
    obtain ⟨x, y, hw, hx, hy, hxy, hl, k1, k2, k3⟩ := hr.just _ hc rfl
    simp only [cut] at hw k1 k2 k3
    rw [h.collider hx hy hxy hl k1 k2, not_not] at k3
    have hna : ¬ Dag.Adj E x y := fun ha => hl ((line_iff h.wf).2 ⟨(h.adj _ _).2 ha, (h.adj _ _).2 ha.symm⟩)
    rcases hw with rfl | rfl
    · exact ⟨y, k3, hxy, hna⟩
    · exact ⟨x, ⟨k3.2, k3.1⟩, hxy.symm, fun hh => hna hh.symm⟩

end PC
end Verif
