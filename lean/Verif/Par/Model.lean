import Verif.Pipeline.Model

/-!
# The worker pool (causy/graph_model.py:230-239, 448-471)

`pool.imap_unordered(unpack_run, tasks, chunksize=size)` as a transition system.  Three things happen at the same time:

* the feeder thread of the pool advances the generator, collects `size` tasks into a batch and pickles the batch, together
  with the graph as it is at that moment;
* the workers evaluate the batches on their copies, in any order;
* the main thread takes finished batches, in any order, and applies their results one by one to the graph.

The interleaving is arbitrary.  Advancing the generator to its next suspension point on which it reads the graph, pickling a
batch, and applying one result are taken as atomic.  Evaluating a batch only depends on the pickled copy, so it is done in
the same transition as the pickling.  Python's own pool is not modelled beyond this: workers do not die and pickling
succeeds.
-/

namespace Verif
variable {ι δ : Type} [DecidableEq ι]

namespace Step

/-- `unpack_run` in a worker (causy/graph_utils.py:9-12): `process` gets the combination and the copied graph, never the
unapplied actions.  As in the in-process mode, a chunk given to `process` is a `TypeError`. -/
def evalTask (s : Step ι δ) (g : Graph ι δ) : Yield ι → Except PyErr (Option (List (TestResult ι δ)))
  | .chunk _ => .error .typeError
  | .single c => s.process c g none

/-- one batch in a worker (`multiprocessing.pool.mapstar`): if one task raises, the whole batch is that exception -/
def evalBatch (s : Step ι δ) (g : Graph ι δ) : List (Yield ι) → Except PyErr (Results ι δ)
  | [] => .ok []
  | y :: ys =>
    match s.evalTask g y with
    | .error e => .error e
    | .ok r =>
      match s.evalBatch g ys with
      | .error e => .error e
      | .ok rs => .ok (r :: rs)

end Step

namespace Par

/-- `if not isinstance(result, list): result = [result]` (causy/graph_model.py:464-465): a list becomes a list of single
results -/
def asList : Option (List (TestResult ι δ)) → Results ι δ
  | none => [none]
  | some l => l.map (fun a => some [a])

/-- the state of one parallel step -/
structure State (ι δ : Type) where
  /-- the graph of the main process -/
  graph : Graph ι δ
  /-- the rest of the generator -/
  todo : List (Graph ι δ → List (Yield ι))
  /-- tasks generated but not yet pickled -/
  buffer : List (Yield ι)
  /-- results of batches the main thread has not taken yet -/
  sent : List (Except PyErr (Results ι δ))
  /-- results of the taken batch that are not applied yet -/
  current : Results ι δ
  /-- `actions_taken` -/
  taken : List (TestResult ι δ)
  /-- `all_actions` -/
  proposed : List (TestResult ι δ)

/-- the state after `imap_unordered` was called -/
def State.init (g : Graph ι δ) (ts : List (Graph ι δ → List (Yield ι))) : State ι δ := ⟨g, ts, [], [], [], [], []⟩

/-- one transition -/
inductive Trans (s : Step ι δ) (dry : Bool) (size : Nat) : State ι δ → State ι δ → Prop
  /-- the feeder needs more tasks for its batch and advances the generator on the current graph -/
  | generate (st t ts) (ht : st.todo = t :: ts) (hb : st.buffer.length < size) :
      Trans s dry size st { st with todo := ts, buffer := st.buffer ++ t st.graph }
  /-- a batch is complete (or the generator exhausted): it is pickled with the current graph and evaluated -/
  | send (st) (hne : st.buffer ≠ []) (hb : size ≤ st.buffer.length ∨ st.todo = []) :
      Trans s dry size st { st with
        buffer := st.buffer.drop size, sent := st.sent ++ [s.evalBatch st.graph (st.buffer.take size)] }
  /-- the main thread takes any finished batch -/
  | receive (st l1 rs l2) (hc : st.current = []) (hs : st.sent = l1 ++ .ok rs :: l2) :
      Trans s dry size st { st with sent := l1 ++ l2, current := rs }
  /-- the main thread applies the next result of the batch (causy/graph_model.py:467-471) -/
  | apply (st r rs t p g') (hc : st.current = r :: rs)
      (ha : Graph.takeAction dry (asList r) st.graph = (.ok (t, p), g')) :
      Trans s dry size st { st with graph := g', current := rs, taken := st.taken ++ t, proposed := st.proposed ++ p }

/-- nothing is left to do: the `for` loop ends -/
def State.Finished (st : State ι δ) : Prop := st.todo = [] ∧ st.buffer = [] ∧ st.sent = [] ∧ st.current = []

/-- the step ends with an exception, leaving the graph behind: a batch failed in its worker, or applying a result
raised -/
inductive Raises (dry : Bool) : State ι δ → PyErr → Graph ι δ → Prop
  | batch (st l1 e l2) (hc : st.current = []) (hs : st.sent = l1 ++ .error e :: l2) : Raises dry st e st.graph
  | apply (st r rs e g') (hc : st.current = r :: rs)
      (ha : Graph.takeAction dry (asList r) st.graph = (.error e, g')) : Raises dry st e g'

/-- some schedule leads from one state to the other -/
inductive Trans.Star (s : Step ι δ) (dry : Bool) (size : Nat) : State ι δ → State ι δ → Prop
  | refl (st) : Trans.Star s dry size st st
  | tail (st st' st'') (h : Trans.Star s dry size st st') (h' : Trans s dry size st' st'') : Trans.Star s dry size st st''

/-- `execute_pipeline_step` with `parallel=True` (causy/graph_model.py:448-471, 526): `Run s dry size g out` if some schedule
ends with the result `out`.  `chunksize=0` is a `ValueError`; an exception of the generator surfaces in the main
thread. -/
inductive Run (s : Step ι δ) (dry : Bool) (size : Nat) (g : Graph ι δ) :
    Except PyErr (List (TestResult ι δ) × List (TestResult ι δ)) × Graph ι δ → Prop
  | badSize (h : size = 0) : Run s dry size g (.error .valueError, g)
  | badGen (h : size ≠ 0) (e) (hg : s.gen g = .error e) : Run s dry size g (.error e, g)
  | done (h : size ≠ 0) (ts) (hg : s.gen g = .ok ts) (st) (hr : Trans.Star s dry size (.init g ts) st)
      (hf : st.Finished) : Run s dry size g (.ok (st.taken, st.proposed), st.graph)
  | raised (h : size ≠ 0) (ts) (hg : s.gen g = .ok ts) (st) (hr : Trans.Star s dry size (.init g ts) st) (e g')
      (hf : Raises dry st e g') : Run s dry size g (.error e, g')

end Par

/-- a pipeline step with its `parallel` flag; `size` is `chunk_size_parallel_processing` -/
inductive Stage (ι δ : Type)
  | seq (p : PStep ι δ)
  | par (s : Step ι δ) (size : Nat)

/-- one iteration of `execute_pipeline_step_with_progress` (causy/graph_model.py:207-228) for a step with a `parallel`
flag.  Logic steps with parallel steps inside are not modelled. -/
inductive Stage.Run (fuel : Nat) : Stage ι δ → GModel ι δ → Except PyErr Unit × GModel ι δ → Prop
  | seq (p m) : Stage.Run fuel (.seq p) m (p.run fuel m)
  | par (s size m t p g') (h : Par.Run s false size m.graph (.ok (t, p), g')) :
      Stage.Run fuel (.par s size) m ((do appendHistory (.plain ⟨s.name, t, p⟩); onGraph Graph.purge) { m with graph := g' })
  | raised (s size m e g') (h : Par.Run s false size m.graph (.error e, g')) :
      Stage.Run fuel (.par s size) m (.error e, { m with graph := g' })

/-- `execute_pipeline_steps` (causy/graph_model.py:197-228) with parallel steps among the others -/
inductive Stages.Run (fuel : Nat) : List (Stage ι δ) → GModel ι δ → Except PyErr Unit × GModel ι δ → Prop
  | nil (m) : Stages.Run fuel [] m (.ok (), m)
  | cons (x xs m m' out) (h : x.Run fuel m (.ok (), m')) (hs : Stages.Run fuel xs m' out) : Stages.Run fuel (x :: xs) m out
  | raised (x xs m e m') (h : x.Run fuel m (.error e, m')) : Stages.Run fuel (x :: xs) m (.error e, m')

end Verif
