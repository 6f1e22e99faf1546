import Verif.PC.Lemmas5
import Verif.Dag.Equiv

/-!
# Helper lemmas: the oriented graph is the completed graph of the equivalence class
-/

namespace Verif
namespace PC
open Graph CI Orient
variable {ι ρ : Type} [DecidableEq ι] {E : ι → ι → Prop}

theorem adj_cases {g : CGraph ι ρ} {a b : ι} (h : g.Adj a b) : g.Arrow a b ∨ g.Arrow b a ∨ g.Line a b := by
  unfold Graph.Adj at h
  unfold Graph.Arrow Graph.Line
  cases h1 : g.directedEdgeExists a b <;> cases h2 : g.directedEdgeExists b a <;> simp_all

theorem Sound.forced_arrow (hac : Dag.Acyclic E) {g : CGraph ι ρ} (h : Sound E g)
    (hc : ∀ a b, ¬ Meek1 g a b ∧ ¬ Meek2 g a b ∧ ¬ Meek3 g a b) {a b : ι} (hf : Dag.Forced E a b) : g.Arrow a b := by
  have aux : ∀ {a b}, E a b → ¬ g.Line a b → g.Arrow a b := by
    intro a b e hl
    rcases adj_cases ((h.adj a b).2 (Or.inl e)) with h1 | h1 | h1
    · exact h1
    · exact absurd (h.arrow _ _ h1) (hac.asymm e)
    · exact absurd h1 hl
  have nadj : ∀ {a b}, ¬ Dag.Adj E a b → ¬ g.Adj a b := fun hn hh => hn ((h.adj _ _).1 hh)
  induction hf with
  | coll hv => exact h.coll _ _ _ hv
  | r1 e _ hne hn ih => exact aux e (fun hl => (hc _ _).1 ⟨hl, _, ih, hne, nadj hn⟩)
  | r2 e _ _ ih1 ih2 => exact aux e (fun hl => (hc _ _).2.1 ⟨hl, _, ih1, ih2⟩)
  | @r3 a b c d e hv hac' had hn =>
    have hcb := h.coll _ _ _ hv
    have hdb := h.coll _ _ _ hv.symm
    refine aux e (fun hl => ?_)
    have n2 : ∀ x, g.Arrow x b → ¬ g.Arrow a x := fun x h1 h2 => (hc a b).2.1 ⟨hl, x, h2, h1⟩
    rcases adj_cases ((h.adj a c).2 hac') with h1 | h1 | h1
    · exact n2 c hcb h1
    · rcases adj_cases ((h.adj a d).2 had) with h2 | h2 | h2
      · exact n2 d hdb h2
      · exact hn ⟨h.arrow _ _ h1, h.arrow _ _ h2⟩
      · exact (hc a d).1 ⟨h2, c, h1, hv.2.1, nadj hv.2.2⟩
    · rcases adj_cases ((h.adj a d).2 had) with h2 | h2 | h2
      · exact n2 d hdb h2
      · exact (hc a c).1 ⟨h1, d, h2, hv.2.1.symm, nadj (fun hh => hv.2.2 hh.symm)⟩
      · exact (hc a b).2.2 ⟨hl, c, d, hv.2.1, nadj hv.2.2, h1, h2, hcb, hdb⟩

/-- the arrows are the compelled edges, and every line occurs both ways -/
theorem completed (hac : Dag.Acyclic E) {N : List ι} (hN : ∀ a b, E a b → a ∈ N ∧ b ∈ N) {g : CGraph ι ρ} (h : Sound E g)
    (he : ∀ E', Dag.Acyclic E' → Dag.Equivalent E E' → Sound E' g)
    (hc : ∀ a b, ¬ Meek1 g a b ∧ ¬ Meek2 g a b ∧ ¬ Meek3 g a b) :
    (∀ a b, g.Arrow a b ↔ Dag.Compelled E a b) ∧
    (∀ a b, g.Line a b → ∃ E', Dag.Acyclic E' ∧ Dag.Equivalent E E' ∧ E' a b) := by
  have hline : ∀ a b, g.Line a b → ∃ E', Dag.Acyclic E' ∧ Dag.Equivalent E E' ∧ E' a b := by
    intro a b hl
    refine Dag.Open.exists_turned hac hN ⟨(h.adj a b).1 hl.adj, ?_, ?_⟩
    · exact fun hf => (h.forced_arrow hac hc hf).not_line hl
    · exact fun hf => (h.forced_arrow hac hc hf).not_line hl.symm
  refine ⟨fun a b => ⟨fun ha E' h1 h2 => (he E' h1 h2).arrow a b ha, fun hcomp => ?_⟩, hline⟩
  have e : E a b := hcomp E hac ⟨fun _ _ => Iff.rfl, fun _ _ _ => Iff.rfl⟩
  rcases adj_cases ((h.adj a b).2 (Or.inl e)) with h1 | h1 | h1
  · exact h1
  · exact absurd (h.arrow _ _ h1) (hac.asymm e)
  · obtain ⟨E', k1, k2, k3⟩ := hline b a h1.symm
    exact absurd (hcomp E' k1 k2) (k1.asymm k3)

/-- perfect tests for a DAG are perfect for every equivalent one -/
theorem Oracle.equivalent {T : Tests ι ρ} {N : List ι} (hO : Oracle T E N) {E' : ι → ι → Prop} (hac : Dag.Acyclic E')
    (he : Dag.Equivalent E E') : Oracle T E' N where
  acyclic := hac
  edges := he.edges hO.edges
  total := hO.total
  sym := hO.sym
  marginal := by
    intro x y hx hy hxy
    rw [hO.marginal x y hx hy hxy, he.dsep_iff hO.acyclic hac hO.edges hxy (by simp)]
  triple := by
    intro x y z hx hy hz hxy hxz hyz
    obtain ⟨b, h1, h2⟩ := hO.triple x y z hx hy hz hxy hxz hyz
    exact ⟨b, h1, by rw [h2, he.dsep_iff hO.acyclic hac hO.edges hxy (by simp [hxz])]⟩
  matrix := by
    intro x y S hnd hm
    obtain ⟨b, h1, h2⟩ := hO.matrix x y S hnd hm
    simp only [List.nodup_cons, List.mem_cons, not_or] at hnd
    exact ⟨b, h1, by rw [h2, he.dsep_iff hO.acyclic hac hO.edges hnd.1.1 hnd.1.2]⟩
  regression := by
    intro x y S hnd hm
    have h2 := hO.regression x y S hnd hm
    simp only [List.nodup_cons, List.mem_cons, not_or] at hnd
    rw [h2, he.dsep_iff hO.acyclic hac hO.edges hnd.1.1 hnd.1.2]

theorem Oracle.perm {T : Tests ι ρ} {N N' : List ι} (hO : Oracle T E N) (hp : N.Perm N') : Oracle T E N' where
  acyclic := hO.acyclic
  edges := fun a b e => ⟨hp.subset (hO.edges a b e).1, hp.subset (hO.edges a b e).2⟩
  total := Tests.Total.mono hO.total (fun _ hz => hp.mem_iff.2 hz)
  sym := hO.sym
  marginal := fun x y hx hy => hO.marginal x y (hp.mem_iff.2 hx) (hp.mem_iff.2 hy)
  triple := fun x y z hx hy hz => hO.triple x y z (hp.mem_iff.2 hx) (hp.mem_iff.2 hy) (hp.mem_iff.2 hz)
  matrix := fun x y S hnd hm => hO.matrix x y S hnd (fun z hz => hp.mem_iff.2 (hm z hz))
  regression := fun x y S hnd hm => hO.regression x y S hnd (fun z hz => hp.mem_iff.2 (hm z hz))

/-- the same arrows and lines are the same edges -/
theorem same_edges {g g' : CGraph ι ρ} (h1 : ∀ a b, g.Arrow a b ↔ g'.Arrow a b) (h2 : ∀ a b, g.Line a b ↔ g'.Line a b)
    (a b : ι) : g.directedEdgeExists a b = g'.directedEdgeExists a b := by
  have key : ∀ k : CGraph ι ρ, k.directedEdgeExists a b = true ↔ k.Arrow a b ∨ k.Line a b := by
    intro k
    unfold Graph.Arrow Graph.Line
    cases k.directedEdgeExists b a <;> simp
  rw [Bool.eq_iff_iff, key, key, h1, h2]

/-- an oriented graph shows what the tests can tell -/
theorem Oriented.tells {T : Tests ι ρ} {N : List ι} {fuel : Nat} {x : Except PyErr Unit × GModel ι (Info ι ρ)}
    (hO : Oracle T E N) (h : Oriented E N fuel x) (hf : N.length * N.length + 2 ≤ fuel)
    (hall : ∀ E', Oracle T E' N → Sound E' x.2.graph) :
    (∀ a b, x.2.graph.Arrow a b ↔ ∀ E', Oracle T E' N → E' a b) ∧
    (∀ a b, x.2.graph.Line a b ↔ (∃ E', Oracle T E' N ∧ E' a b) ∧ ∃ E', Oracle T E' N ∧ E' b a) := by
  have hc := h.closed (h.ends hf)
  obtain ⟨_, h2⟩ := completed hO.acyclic hO.edges h.sound h.equiv (fun a b => ⟨(hc a b).1, (hc a b).2.1, (hc a b).2.2.1⟩)
  have hline : ∀ a b, x.2.graph.Line a b → ∃ E', Oracle T E' N ∧ E' a b := by
    intro a b hl
    obtain ⟨E', k1, k2, k3⟩ := h2 a b hl
    exact ⟨E', hO.equivalent k1 k2, k3⟩
  refine ⟨fun a b => ⟨fun ha E' hE => (hall E' hE).arrow a b ha, fun hE => ?_⟩, fun a b => ⟨fun hl =>
    ⟨hline a b hl, hline b a hl.symm⟩, ?_⟩⟩
  · rcases adj_cases ((h.sound.adj a b).2 (Or.inl (hE E hO))) with k | k | k
    · exact k
    · exact absurd (h.sound.arrow _ _ k) (hO.acyclic.asymm (hE E hO))
    · obtain ⟨E', k1, k2⟩ := hline b a k.symm
      exact absurd (hE E' k1) (k1.acyclic.asymm k2)
  · rintro ⟨⟨E1, o1, e1⟩, E2, o2, e2⟩
    rcases adj_cases (((hall E1 o1).adj a b).2 (Or.inl e1)) with k | k | k
    · exact absurd ((hall E2 o2).arrow _ _ k) (o2.acyclic.asymm e2)
    · exact absurd ((hall E1 o1).arrow _ _ k) (o1.acyclic.asymm e1)
    · exact k

end PC
end Verif
