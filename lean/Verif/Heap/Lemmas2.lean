import Verif.Heap.Lemmas

/-!
# Helper lemmas: graphs of pairs (reference, value)

A run with references and the run without are followed by one graph whose metadata are pairs.
-/

namespace Verif
namespace Heap
open Graph
variable {ι δ τ α β : Type} [DecidableEq ι]

/-! ## a property of all metadata of a graph -/

/-- all metadata of the graph, also in removed edges and records, satisfy `Q` -/
def All (Q : α → Prop) (g : Graph ι α) : Prop := ∃ g' : Graph ι {x // Q x}, g'.map Subtype.val = g

/-- the data of the result satisfies `Q` -/
def OkR (Q : α → Prop) (r : TestResult ι α) : Prop := ∀ d, r.data = some d → Q d

omit [DecidableEq ι] in
theorem OkR.lift {Q : α → Prop} {r : TestResult ι α} (h : OkR Q r) : ∃ r' : TestResult ι {x // Q x}, r'.map Subtype.val = r := by
  obtain ⟨u, v, a, d⟩ := r
  cases d with
  | none => exact ⟨⟨u, v, a, none⟩, rfl⟩
  | some d => exact ⟨⟨u, v, a, some ⟨d, h d rfl⟩⟩, rfl⟩

omit [DecidableEq ι] in
theorem lift_list {Q : α → Prop} (rs : List (TestResult ι α)) (h : ∀ r ∈ rs, OkR Q r) :
    ∃ rs' : List (TestResult ι {x // Q x}), rs'.map (TestResult.map Subtype.val) = rs := by
  induction rs with
  | nil => exact ⟨[], rfl⟩
  | cons r rs ih =>
    obtain ⟨r', hr'⟩ := (h r List.mem_cons_self).lift
    obtain ⟨rs', hrs'⟩ := ih (fun r hr => h r (List.mem_cons_of_mem _ hr))
    exact ⟨r' :: rs', by rw [List.map_cons, hr', hrs']⟩

theorem All.takeItems {Q : α → Prop} {g : Graph ι α} (h : All Q g) (dry : Bool) (rs : List (TestResult ι α))
    (hr : ∀ r ∈ rs, OkR Q r) : All Q (takeItems dry rs g).2 := by
  obtain ⟨g', rfl⟩ := h
  obtain ⟨rs', rfl⟩ := lift_list rs hr
  rw [sim_takeItems Subtype.val dry rs' g']
  exact ⟨_, rfl⟩

theorem All.purge {Q : α → Prop} {g : Graph ι α} (h : All Q g) : All Q (Graph.purge g).2 := by
  obtain ⟨g', rfl⟩ := h
  rw [sim_purge Subtype.val g']
  exact ⟨_, rfl⟩

omit [DecidableEq ι] in
theorem All.mono {Q Q' : α → Prop} {g : Graph ι α} (h : All Q g) (hq : ∀ x, Q x → Q' x) : All Q' g := by
  obtain ⟨g', rfl⟩ := h
  exact ⟨g'.map (fun x => ⟨x.1, hq x.1 x.2⟩), by rw [Graph.map_map]; rfl⟩

omit [DecidableEq ι] in
theorem All.map_congr {Q : α → Prop} {g : Graph ι α} (h : All Q g) {f f' : α → β} (hf : ∀ x, Q x → f x = f' x) :
    g.map f = g.map f' := by
  obtain ⟨g', rfl⟩ := h
  rw [Graph.map_map, Graph.map_map]
  congr 1
  funext x
  exact hf x.1 x.2

theorem All.edge {Q : α → Prop} {g : Graph ι α} (h : All Q g) {a b : ι} {e : Edge ι α} (he : g.edges.get2 a b = some e) :
    Q e.metadata := by
  obtain ⟨g', rfl⟩ := h
  simp only [Graph.map, Dict.get2_map, Option.map_eq_some_iff] at he
  obtain ⟨e', _, rfl⟩ := he
  exact e'.metadata.2

theorem All.record {Q : α → Prop} {g : Graph ι α} (h : All Q g) {k : ι × ι} {l : List (TestResult ι α)}
    (hl : g.hist.get? k = some l) {r : TestResult ι α} (hr : r ∈ l) : OkR Q r := by
  obtain ⟨g', rfl⟩ := h
  simp only [Graph.map, Dict.get?_map, Option.map_eq_some_iff] at hl
  obtain ⟨l', _, rfl⟩ := hl
  obtain ⟨r', _, rfl⟩ := List.mem_map.1 hr
  intro d hd
  simp only [TestResult.map, Option.map_eq_some_iff] at hd
  obtain ⟨d', _, rfl⟩ := hd
  exact d'.2

theorem wf_map (f : α → β) {g : Graph ι α} (h : WF0 g) : WF0 (g.map f) := by
  have hk : ∀ d : Dict ι (Dict ι (Edge ι α)), (d.map (Dict.map (Edge.map f))).keys = d.keys := fun d => Dict.keys_map _ d
  refine ⟨h.nodup, ?_, ?_, ?_, ?_, ?_, ?_, ?_⟩
  · simp only [Graph.map, hk]; exact h.keysR
  · simp only [Graph.map, hk]; exact h.keysD
  · intro u hu
    simp only [Graph.map, Dict.has_map] at hu
    exact h.rowsN u hu
  · intro u v e he
    simp only [Graph.map, Dict.get2_map, Option.map_eq_some_iff] at he
    obtain ⟨e', he', rfl⟩ := he
    obtain ⟨h1, h2, h3, h4, h5⟩ := h.edge u v e' he'
    refine ⟨h1, h2, h3, ?_, ?_⟩
    · simp only [Graph.map, Dict.has_map]; exact h4
    · simp only [Graph.map, Dict.get2_map, h5]; rfl
  · intro v u e he
    simp only [Graph.map, Dict.get2_map, Option.map_eq_some_iff] at he
    obtain ⟨e', he', rfl⟩ := he
    obtain ⟨h1, h2⟩ := h.revE v u e' he'
    exact ⟨h1, by simp only [Graph.map, Dict.has_map]; exact h2⟩
  · intro u v e he
    simp only [Graph.map, Dict.get2_map, Option.map_eq_some_iff] at he
    obtain ⟨e', he', rfl⟩ := he
    obtain ⟨h1, h2⟩ := h.delE u v e' he'
    exact ⟨h1, by simp only [Graph.map, Dict.has_map]; exact h2⟩
  · intro u v huv
    simp only [Graph.map, Dict.has2_map] at huv
    have := h.histK u v huv
    simp only [Graph.map, Dict.has_map]
    exact this

/-! ## the invariant -/

/-- the pair is a dictionary that exists and contains the value up to what `κ` forgets -/
def Near (κ : δ → τ) (c : Ref → δ) (n : Ref) (p : Ref × δ) : Prop := p.1 < n ∧ κ (c p.1) = κ p.2

/-- how a graph with references goes together with a graph with values -/
structure Inv (κ : δ → τ) (c : Ref → δ) (n : Ref) (P : Graph ι (Ref × δ)) : Prop where
  wf : WF0 P
  all : All (Near κ c n) P
  exact : ∀ a b e, P.edges.get2 a b = some e → c e.metadata.1 = e.metadata.2
  recExact : ∀ k l r d, P.hist.get? k = some l → r ∈ l → r.action.isUpdate = false → r.data = some d → c d.1 = d.2
  share : ∀ a b e a' b' e', P.edges.get2 a b = some e → P.edges.get2 a' b' = some e' → e.metadata.1 = e'.metadata.1 →
    (a = a' ∧ b = b') ∨ (a = b' ∧ b = a')
  apart : ∀ k l r d a b e, P.hist.get? k = some l → r ∈ l → r.action.isUpdate = false → r.data = some d →
    P.edges.get2 a b = some e → d.1 ≠ e.metadata.1

theorem Inv.frame {κ : δ → τ} {c c' : Ref → δ} {n n' : Ref} {P : Graph ι (Ref × δ)} (h : Inv κ c n P)
    (hc : ∀ r, r < n → c' r = c r) (hn : n ≤ n') : Inv κ c' n' P where
  wf := h.wf
  all := h.all.mono (fun p hp => ⟨Nat.lt_of_lt_of_le hp.1 hn, by rw [hc _ hp.1]; exact hp.2⟩)
  exact := fun a b e he => by rw [hc _ (h.all.edge he).1]; exact h.exact a b e he
  recExact := fun k l r d hl hr hu hd => by rw [hc _ (h.all.record hl hr d hd).1]; exact h.recExact k l r d hl hr hu hd
  share := h.share
  apart := h.apart

theorem retrieve_map (f : α → β) (g : Graph ι α) (u v : ι) (a : Action) :
    (g.map f).retrieveEdgeHistory u v a = (g.retrieveEdgeHistory u v a).map (TestResult.map f) := by
  unfold retrieveEdgeHistory
  simp only [Graph.map, Dict.get?_map]
  cases g.hist.get? (u, v) with
  | none => rfl
  | some l =>
    simp only [Option.map_some, List.filter_map]
    rfl

omit [DecidableEq ι] in
theorem testResult_map_congr {f f' : α → β} {r : TestResult ι α} (h : ∀ d, r.data = some d → f d = f' d) :
    r.map f = r.map f' := by
  obtain ⟨u, v, a, d⟩ := r
  cases d with
  | none => rfl
  | some d => simp only [TestResult.map, Option.map_some, h d rfl]

theorem Inv.seen {κ : δ → τ} {c : Ref → δ} {n : Ref} {P : Graph ι (Ref × δ)} (h : Inv κ c n P) :
    Seen id (P.map (c ∘ Prod.fst)) (P.map Prod.snd) where
  shape := by rw [Graph.map_map, Graph.map_map]; rfl
  metas := by
    intro u v e e' he he'
    simp only [Graph.map, Dict.get2_map, Option.map_eq_some_iff] at he he'
    obtain ⟨e0, h0, rfl⟩ := he
    obtain ⟨e1, h1, rfl⟩ := he'
    rw [h0] at h1
    injection h1 with h1
    subst h1
    exact h.exact u v e0 h0
  records := by
    intro u v a ha
    rw [retrieve_map, retrieve_map]
    refine List.map_congr_left (fun r hr => testResult_map_congr (fun d hd => ?_))
    unfold retrieveEdgeHistory at hr
    cases hl : P.hist.get? (u, v) with
    | none => rw [hl] at hr; cases hr
    | some l =>
      rw [hl] at hr
      simp only [List.mem_filter, decide_eq_true_eq] at hr
      exact h.recExact _ l r d hl hr.1 (by rw [hr.2]; exact ha) hd

/-! ## results that are not applied yet -/

theorem ref_ne {a b n : Ref} (h1 : a < n) (h2 : n ≤ b) (h : a = b) : False :=
  absurd h (Nat.ne_of_lt (Nat.lt_of_lt_of_le h1 h2))

/-- the results refer to different dictionaries between `lo` and `hi` that contain the right values -/
structure Pend (c : Ref → δ) (lo hi : Ref) (rs : List (TestResult ι (Ref × δ))) : Prop where
  data : ∀ r ∈ rs, ∀ d, r.data = some d → lo ≤ d.1 ∧ d.1 < hi ∧ c d.1 = d.2
  inj : ∀ r ∈ rs, ∀ r' ∈ rs, ∀ d d', r.data = some d → r'.data = some d' → d.1 = d'.1 → r = r'

/-- no restores are proposed -/
def NoRes (rs : List (TestResult ι α)) : Prop := ∀ r ∈ rs, r.action.isRestore = false

omit [DecidableEq ι] in
theorem Pend.nil (c : Ref → δ) (lo hi : Ref) : Pend c lo hi ([] : List (TestResult ι (Ref × δ))) :=
  ⟨fun _ h => absurd h List.not_mem_nil, fun _ h => absurd h List.not_mem_nil⟩

omit [DecidableEq ι] in
theorem Pend.append {c c' : Ref → δ} {lo mid hi : Ref} {A B : List (TestResult ι (Ref × δ))} (hA : Pend c lo mid A)
    (hB : Pend c' mid hi B) (hc : ∀ r, lo ≤ r → r < mid → c' r = c r) (h1 : lo ≤ mid) (h2 : mid ≤ hi) : Pend c' lo hi (A ++ B) where
  data := by
    intro r hr d hd
    rcases List.mem_append.1 hr with h | h
    · obtain ⟨a, b, e⟩ := hA.data r h d hd
      exact ⟨a, Nat.lt_of_lt_of_le b h2, by rw [hc _ a b]; exact e⟩
    · obtain ⟨a, b, e⟩ := hB.data r h d hd
      exact ⟨Nat.le_trans h1 a, b, e⟩
  inj := by
    intro r hr r' hr' d d' hd hd' he
    rcases List.mem_append.1 hr with h | h <;> rcases List.mem_append.1 hr' with h' | h'
    · exact hA.inj r h r' h' d d' hd hd' he
    · exact (ref_ne (hA.data r h d hd).2.1 (hB.data r' h' d' hd').1 he).elim
    · exact (ref_ne (hA.data r' h' d' hd').2.1 (hB.data r h d hd).1 he.symm).elim
    · exact hB.inj r h r' h' d d' hd hd' he

omit [DecidableEq ι] in
theorem NoRes.append {A B : List (TestResult ι α)} (hA : NoRes A) (hB : NoRes B) : NoRes (A ++ B) := by
  intro r hr
  rcases List.mem_append.1 hr with h | h
  · exact hA r h
  · exact hB r h

omit [DecidableEq ι] in
theorem Pend.frame {c c' : Ref → δ} {lo hi : Ref} {A : List (TestResult ι (Ref × δ))} (hA : Pend c lo hi A)
    (hc : ∀ r, lo ≤ r → r < hi → c' r = c r) : Pend c' lo hi A :=
  ⟨fun r hr d hd => by
    obtain ⟨a, b, e⟩ := hA.data r hr d hd
    exact ⟨a, b, by rw [hc _ a b]; exact e⟩, hA.inj⟩

/-- applying pending results keeps the invariant -/
theorem Inv.take {κ : δ → τ} {c : Ref → δ} {n0 n : Ref} {P : Graph ι (Ref × δ)} (h : Inv κ c n0 P)
    {rs : List (TestResult ι (Ref × δ))} (hp : Pend c n0 n rs) (hn : n0 ≤ n) (hr : NoRes rs) :
    Inv κ c n (takeItems false rs P).2 := by
  obtain ⟨hE, hR⟩ := takeItems_from h.wf rs hr
  have hQ : ∀ r ∈ rs, OkR (Near κ c n) r := fun r hr d hd => by
    obtain ⟨_, b, e⟩ := hp.data r hr d hd
    exact ⟨b, by rw [e]⟩
  have hall := (h.all.mono (fun p hp => ⟨Nat.lt_of_lt_of_le hp.1 hn, hp.2⟩ : ∀ p, Near κ c n0 p → Near κ c n p)).takeItems
    false rs hQ
  have hwf := takeItems_wf h.wf rs
  generalize (takeItems false rs P).2 = P' at hE hR hall hwf
  refine ⟨hwf, hall, ?_, ?_, ?_, ?_⟩
  · intro a b e' he'
    obtain ⟨e, he, h1 | ⟨r, hr, _, hd⟩⟩ := hE a b e' he'
    · rw [h1]; exact h.exact a b e he
    · exact (hp.data r hr _ hd).2.2
  · intro k l r d hl hm hu hd
    rcases hR k l r hl hm with ⟨l0, hl0, hm0⟩ | hm0
    · exact h.recExact k l0 r d hl0 hm0 hu hd
    · exact (hp.data r hm0 d hd).2.2
  · intro a b e1 a' b' e2 he1 he2 hs
    obtain ⟨f1, hf1, h1⟩ := hE a b e1 he1
    obtain ⟨f2, hf2, h2⟩ := hE a' b' e2 he2
    rcases h1 with h1 | ⟨r1, hr1, hc1, hd1⟩ <;> rcases h2 with h2 | ⟨r2, hr2, hc2, hd2⟩
    · rw [h1, h2] at hs
      exact h.share a b f1 a' b' f2 hf1 hf2 hs
    · rw [h1] at hs
      exact (ref_ne (h.all.edge hf1).1 (hp.data r2 hr2 _ hd2).1 hs).elim
    · rw [h2] at hs
      exact (ref_ne (h.all.edge hf2).1 (hp.data r1 hr1 _ hd1).1 hs.symm).elim
    · have := hp.inj r1 hr1 r2 hr2 _ _ hd1 hd2 hs
      subst this
      rcases hc1.ends with ⟨rfl, rfl⟩ | ⟨rfl, rfl⟩ <;> rcases hc2.ends with ⟨rfl, rfl⟩ | ⟨rfl, rfl⟩
      · exact .inl ⟨rfl, rfl⟩
      · exact .inr ⟨rfl, rfl⟩
      · exact .inr ⟨rfl, rfl⟩
      · exact .inl ⟨rfl, rfl⟩
  · intro k l r d a b e' hl hm hu hd he' hs
    obtain ⟨e, he, h1⟩ := hE a b e' he'
    rcases hR k l r hl hm with ⟨l0, hl0, hm0⟩ | hm0 <;> rcases h1 with h1 | ⟨r1, hr1, hc1, hd1⟩
    · rw [h1] at hs
      exact h.apart k l0 r d a b e hl0 hm0 hu hd he hs
    · exact ref_ne (h.all.record hl0 hm0 d hd).1 (hp.data r1 hr1 _ hd1).1 hs
    · rw [h1] at hs
      exact ref_ne (h.all.edge he).1 (hp.data r hm0 d hd).1 hs.symm
    · have := hp.inj r hm0 r1 hr1 _ _ hd hd1 hs
      subst this
      rw [hc1.update] at hu
      cases hu

theorem Inv.purge {κ : δ → τ} {c : Ref → δ} {n : Ref} {P : Graph ι (Ref × δ)} (h : Inv κ c n P) :
    Inv κ c n (Graph.purge P).2 := by
  have hall := h.all.purge
  rw [purge_run h.wf] at hall ⊢
  have hsub : ∀ a b e, (purgeG P).edges.get2 a b = some e → P.edges.get2 a b = some e := by
    intro a b e he
    rw [get2_purgeG] at he
    cases hp : P.edges.get2 a b with
    | none => rw [hp] at he; cases he
    | some e0 =>
      rw [hp] at he
      simp only at he
      split at he
      · cases he
      · exact he
  refine ⟨h.wf.purgeG, hall, ?_, ?_, ?_, ?_⟩
  · exact fun a b e he => h.exact a b e (hsub a b e he)
  · intro k l r d hl
    rw [show (purgeG P).hist = P.hist from hist_purgeG] at hl
    exact h.recExact k l r d hl
  · exact fun a b e a' b' e' he he' => h.share a b e a' b' e' (hsub a b e he) (hsub a' b' e' he')
  · intro k l r d a b e hl hm hu hd he
    rw [show (purgeG P).hist = P.hist from hist_purgeG] at hl
    exact h.apart k l r d a b e hl hm hu hd (hsub a b e he)

end Heap
end Verif
