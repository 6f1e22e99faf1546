import Verif.Pipeline.Model

/-!
# Specification vocabulary: what running a pipeline means

Relations between the graph before, the actions taken and proposed, and the graph after.  The application of a batch of
answers is `takeAction`, whose own properties are C21 to C28.
-/

namespace Verif
open Graph
variable {ι δ : Type} [DecidableEq ι]

/-- `s` answers the combinations one after the other, all on the graph `g`; a step that wants the unapplied actions is given
the answers so far -/
inductive Answers (s : Step ι δ) (g : Graph ι δ) : Results ι δ → List (List ι) → Results ι δ → Prop
  | nil (sofar : Results ι δ) : Answers s g sofar [] []
  | cons {sofar : Results ι δ} {c : List ι} {cs : List (List ι)} {r : Option (List (TestResult ι δ))} {rs : Results ι δ}
      (h : s.process c g (if s.needsUnapplied = true then some sofar else none) = .ok r)
      (hs : Answers s g (sofar ++ [r]) cs rs) : Answers s g sofar (c :: cs) (r :: rs)

/-- the pieces of work run in turn, each on the graph its predecessor left; taken and proposed actions are concatenated -/
inductive InTurn {α : Type} (One : α → Graph ι δ → List (TestResult ι δ) → List (TestResult ι δ) → Graph ι δ → Prop) :
    List α → Graph ι δ → List (TestResult ι δ) → List (TestResult ι δ) → Graph ι δ → Prop
  | nil (g : Graph ι δ) : InTurn One [] g [] [] g
  | cons {a : α} {as : List α} {g g1 g2 : Graph ι δ} {t ts p ps : List (TestResult ι δ)}
      (h : One a g t p g1) (hs : InTurn One as g1 ts ps g2) : InTurn One (a :: as) g (t ++ ts) (p ++ ps) g2

/-- answer all combinations of a chunk on the current graph, then apply the answers -/
def ChunkRuns (s : Step ι δ) (dry : Bool) (cs : List (List ι)) (g : Graph ι δ) (t p : List (TestResult ι δ))
    (g' : Graph ι δ) : Prop :=
  ∃ rs, List.Forall₂ (fun c r => s.process c g none = .ok r) cs rs ∧ takeAction dry rs g = (.ok (t, p), g')

/-- answer one combination on the current graph, then apply the answer -/
def CombinationRuns (s : Step ι δ) (dry : Bool) (c : List ι) (g : Graph ι δ) (t p : List (TestResult ι δ))
    (g' : Graph ι δ) : Prop :=
  ∃ r, s.process c g (if s.needsUnapplied = true then some [] else none) = .ok r ∧ takeAction dry [r] g = (.ok (t, p), g')

/-- A step runs from `g` to `g'`.  Normally all combinations the generator hands out are answered on `g`, in order, and the
answers are applied afterwards; a step applied synchronously applies each answer at once; a chunked step applies the answers of
each chunk at once, and its generator goes on with the changed graph. -/
inductive StepRuns (s : Step ι δ) (dry : Bool) (g : Graph ι δ) (t p : List (TestResult ι δ)) (g' : Graph ι δ) : Prop
  | whole (hc : s.chunked = false) (hs : s.applySync = false) (ts : List (Graph ι δ → List (Yield ι)))
      (hg : s.gen g = .ok ts) (cs : List (List ι)) (hcs : ts.flatMap (fun y => y g) = cs.map Yield.single) (rs : Results ι δ)
      (ha : Answers s g [] cs rs) (ht : takeAction dry rs g = (.ok (t, p), g'))
  | sync (hc : s.chunked = false) (hs : s.applySync = true) (ts : List (Graph ι δ → List (Yield ι)))
      (hg : s.gen g = .ok ts) (cs : List (List ι)) (hcs : ts.flatMap (fun y => y g) = cs.map Yield.single)
      (h : InTurn (CombinationRuns s dry) cs g t p g')
  | chunks (hc : s.chunked = true) (ts : List (Graph ι δ → List (Yield ι))) (hg : s.gen g = .ok ts)
      (h : InTurn (fun y g t p g' => ∃ css, y g = css.map Yield.chunk ∧ InTurn (ChunkRuns s dry) css g t p g') ts g t p g')

/-- the inner steps of a logic step run in turn, one record for each; the last list are all actions they took -/
inductive InnerRuns (dry : Bool) : List (Step ι δ) → Graph ι δ → List (StepRec ι δ) → List (TestResult ι δ) → Graph ι δ → Prop
  | nil (g : Graph ι δ) : InnerRuns dry [] g [] [] g
  | cons {s : Step ι δ} {ss : List (Step ι δ)} {g g1 g2 : Graph ι δ} {t ts p : List (TestResult ι δ)}
      {rs : List (StepRec ι δ)} (h : StepRuns s dry g t p g1) (hs : InnerRuns dry ss g1 rs ts g2) :
      InnerRuns dry (s :: ss) g (⟨s.name, t, p⟩ :: rs) (t ++ ts) g2

/-- the rounds of a loop from round `n` on: before each round the exit condition is asked about the actions taken in the
round before (none before the first); the records of all rounds are concatenated -/
inductive Rounds (steps : List (Step ι δ)) (exit : Graph ι δ → Option (List (TestResult ι δ)) → Nat → Except PyErr Bool) :
    Nat → Option (List (TestResult ι δ)) → Graph ι δ → List (StepRec ι δ) → Graph ι δ → Prop
  | stop {n : Nat} {taken : Option (List (TestResult ι δ))} {g : Graph ι δ} (h : exit g taken n = .ok true) :
      Rounds steps exit n taken g [] g
  | round {n : Nat} {taken : Option (List (TestResult ι δ))} {g g1 g2 : Graph ι δ} {rs more : List (StepRec ι δ)}
      {ts : List (TestResult ι δ)} (h : exit g taken n = .ok false) (hr : InnerRuns false steps g rs ts g1)
      (hm : Rounds steps exit (n + 1) (some ts) g1 more g2) : Rounds steps exit n taken g (rs ++ more) g2

/-- What one configured step does to the graph, and the one history entry it leaves: a plain step is followed by a purge, a
logic step is not. -/
inductive StepEffect : PStep ι δ → Graph ι δ → HistRec ι δ → Graph ι δ → Prop
  | plain (s : Step ι δ) (g g1 g2 : Graph ι δ) (t p : List (TestResult ι δ))
      (hx : StepRuns s false g t p g1) (hp : purge g1 = (.ok (), g2)) :
      StepEffect (.plain s) g (.plain ⟨s.name, t, p⟩) g2
  | loop (name : String) (steps : List (Step ι δ))
      (exit : Graph ι δ → Option (List (TestResult ι δ)) → Nat → Except PyErr Bool) (g g1 : Graph ι δ)
      (rs : List (StepRec ι δ)) (hx : Rounds steps exit 0 none g rs g1) :
      StepEffect (.loop name steps exit) g (.logic name rs) g1
  | together (name : String) (steps : List (Step ι δ)) (g g1 : Graph ι δ) (rs : List (StepRec ι δ))
      (ts t p : List (TestResult ι δ)) (hx : InnerRuns true steps g rs ts g) (ht : takeAction false [some ts] g = (.ok (t, p), g1)) :
      StepEffect (.together name steps) g (.logic name rs) g1

/-- The steps run one after the other, each exactly once, each on the graph left by its predecessor. -/
inductive RunsInOrder : List (PStep ι δ) → Graph ι δ → List (HistRec ι δ) → Graph ι δ → Prop
  | nil (g : Graph ι δ) : RunsInOrder [] g [] g
  | cons {p : PStep ι δ} {ps : List (PStep ι δ)} {g g1 g2 : Graph ι δ} {e : HistRec ι δ} {es : List (HistRec ι δ)}
      (h : StepEffect p g e g1) (hs : RunsInOrder ps g1 es g2) : RunsInOrder (p :: ps) g (e :: es) g2

end Verif
