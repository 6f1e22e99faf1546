import Verif.PC.StableProps
import Verif.PC.CpdagProps

/-!
# What PCStable could tell (C88 with C93)
-/

namespace Verif
open Graph CI PC Orient
variable {ι ρ : Type} [DecidableEq ι]

/-- **C88 (partial), all that the tests can tell.** `PCStable` with one more conditional independence test between its test phase
and the orientation directs exactly the edges that all DAGs with the same adjacencies and v-structures direct in this way. -/
theorem C88_purged_cpdag_partial (T : Tests ι ρ) (E : ι → ι → Prop) (gn : CGraph ι ρ) (hgn : Reachable gn)
    (hfresh : ∀ a b, gn.retrieveEdgeHistory a b .removeEdgeUndirected = [])
    (hO : Oracle T E gn.nodes) (ord : NbOrd ι) (ho : ord.Valid) (oc : Orient.Ord ι ρ) (hoc : oc.Valid) (o : Orient.Ords ι ρ)
    (ho' : o.Valid) (t : CITest ι) (hv : t.Valid) (hc : t.Conditional) (hz : t.Sized) (fuel : Nat)
    (hf : gn.nodes.length * gn.nodes.length + 2 ≤ fuel) (h : List (HistRec ι (Info ι ρ))) (a b : ι) :
    (graphAfter fuel (stableSkeleton T ord ++ [.plain (t.step T)] ++ orientationPhase oc o) ⟨startGraph gn, h⟩).Arrow a b ↔
      Dag.Compelled E a b := by
  have hr := stable_then_run hgn hfresh hO ho hoc ho' t hv hc hz fuel h
  have hcl := hr.closed (hr.ends hf)
  exact (completed hO.acyclic hO.edges hr.sound hr.equiv
    (fun a b => ⟨(hcl a b).1, (hcl a b).2.1, (hcl a b).2.2.1⟩)).1 a b

/-- the hypotheses are met by the counterexample to C88: the edge 2 → 1 is not compelled, and no arrow is reported -/
example (fuel : ℕ) (hf : 11 ≤ fuel) (gn : CGraph Nat Int) (hgn : Reachable gn) (hn : gn.nodes = [0, 1, 2])
    (hfresh : ∀ a b, gn.retrieveEdgeHistory a b .removeEdgeUndirected = []) :
    ¬ (graphAfter fuel (stableSkeleton (exactTests exLone [0, 1, 2]) exNbOrd ++
      [.plain (CITest.partialCorrelation.step (exactTests exLone [0, 1, 2]))] ++ orientationPhase exSetOrd exSetOrds)
      ⟨startGraph gn, []⟩).Arrow 1 2 := by
  rw [C88_purged_cpdag_partial _ exLone gn hgn hfresh (by rw [hn]; exact exLone_oracle) _ exNbOrd_valid _ exSetOrd_valid _
    exSetOrds_valid .partialCorrelation trivial trivial trivial fuel (by rw [hn]; exact hf)]
  intro h
  have := h exLone exLone_oracle.acyclic ⟨fun _ _ => Iff.rfl, fun _ _ _ => Iff.rfl⟩
  exact absurd this (by decide)

end Verif
