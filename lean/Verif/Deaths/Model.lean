import Verif.Par.Model

/-!
# The worker pool when workers are killed (causy/graph_model.py:230-239, 448-471)

A worker process may be killed at any time (by a user, or because memory runs out).  `multiprocessing.pool.Pool` starts a new
worker, but does not give the batch of the dead one to anybody: its results never arrive.  The main thread's loop over
`imap_unordered` ends after all batches have arrived, so it waits for it.  A worker that is killed while it is idle changes
nothing.  The pool is python's, not causy's; a worker killed while it holds a lock of the pool's queues is left out.
-/

namespace Verif
namespace Par
variable {ι δ : Type} [DecidableEq ι]

/-- the state of a parallel step, and the batches whose worker died -/
structure DState (ι δ : Type) where
  st : State ι δ
  lost : List (Except PyErr (Results ι δ))

/-- one transition -/
inductive DTrans (s : Step ι δ) (dry : Bool) (size : Nat) : DState ι δ → DState ι δ → Prop
  /-- a transition of the pool without deaths -/
  | work (d st') (h : Trans s dry size d.st st') : DTrans s dry size d ⟨st', d.lost⟩
  /-- the worker of a batch that has not arrived is killed -/
  | die (d l1 b l2) (hs : d.st.sent = l1 ++ b :: l2) : DTrans s dry size d ⟨{ d.st with sent := l1 ++ l2 }, b :: d.lost⟩

/-- some schedule with deaths leads from one state to the other -/
inductive DTrans.Star (s : Step ι δ) (dry : Bool) (size : Nat) : DState ι δ → DState ι δ → Prop
  | refl (d) : DTrans.Star s dry size d d
  | tail (d d' d'') (h : DTrans.Star s dry size d d') (h' : DTrans s dry size d' d'') : DTrans.Star s dry size d d''

/-- the loop over the results ends: nothing is left to do and every batch has arrived -/
def DState.Finished (d : DState ι δ) : Prop := d.st.Finished ∧ d.lost = []

/-- the main thread waits for a batch that will never arrive, and nothing else happens any more -/
def DState.Waits (s : Step ι δ) (dry : Bool) (size : Nat) (d : DState ι δ) : Prop :=
  ¬ d.Finished ∧ (∀ d', ¬ DTrans s dry size d d') ∧ ∀ e g', ¬ Raises dry d.st e g'

/-- `execute_pipeline_step` with `parallel=True` (causy/graph_model.py:448-471, 526): `DRun s dry size g out` if some schedule
with deaths ends with the result `out` -/
inductive DRun (s : Step ι δ) (dry : Bool) (size : Nat) (g : Graph ι δ) :
    Except PyErr (List (TestResult ι δ) × List (TestResult ι δ)) × Graph ι δ → Prop
  | badSize (h : size = 0) : DRun s dry size g (.error .valueError, g)
  | badGen (h : size ≠ 0) (e) (hg : s.gen g = .error e) : DRun s dry size g (.error e, g)
  | done (h : size ≠ 0) (ts) (hg : s.gen g = .ok ts) (d : DState ι δ) (hr : DTrans.Star s dry size ⟨.init g ts, []⟩ d)
      (hf : d.Finished) : DRun s dry size g (.ok (d.st.taken, d.st.proposed), d.st.graph)
  | raised (h : size ≠ 0) (ts) (hg : s.gen g = .ok ts) (d : DState ι δ) (hr : DTrans.Star s dry size ⟨.init g ts, []⟩ d) (e g')
      (hf : Raises dry d.st e g') : DRun s dry size g (.error e, g')

end Par

variable {ι δ : Type} [DecidableEq ι]

/-- `Stage.Run` with deaths of workers -/
inductive Stage.DRun (fuel : Nat) : Stage ι δ → GModel ι δ → Except PyErr Unit × GModel ι δ → Prop
  | seq (p m) : Stage.DRun fuel (.seq p) m (p.run fuel m)
  | par (s size m t p g') (h : Par.DRun s false size m.graph (.ok (t, p), g')) :
      Stage.DRun fuel (.par s size) m ((do appendHistory (.plain ⟨s.name, t, p⟩); onGraph Graph.purge) { m with graph := g' })
  | raised (s size m e g') (h : Par.DRun s false size m.graph (.error e, g')) :
      Stage.DRun fuel (.par s size) m (.error e, { m with graph := g' })

/-- `Stages.Run` with deaths of workers -/
inductive Stages.DRun (fuel : Nat) : List (Stage ι δ) → GModel ι δ → Except PyErr Unit × GModel ι δ → Prop
  | nil (m) : Stages.DRun fuel [] m (.ok (), m)
  | cons (x xs m m' out) (h : x.DRun fuel m (.ok (), m')) (hs : Stages.DRun fuel xs m' out) : Stages.DRun fuel (x :: xs) m out
  | raised (x xs m e m') (h : x.DRun fuel m (.error e, m')) : Stages.DRun fuel (x :: xs) m (.error e, m')

end Verif
