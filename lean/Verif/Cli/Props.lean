import Verif.Cli.Lemmas

/-!
# Properties of `causy execute` (C112, C113)
-/

namespace Verif
open Graph Data Cli
variable {ι R δ : Type} [LinearOrder ι]

/-! ## C112 -/

/-- **C112 (choice).** Without a pipeline file and an algorithm name the command raises `ValueError`, whatever the data; a
pipeline file takes precedence over an algorithm name; if it cannot be loaded, the exception is passed on; an algorithm name
that is not available raises `KeyError`. -/
theorem C112_choice (m0 : δ) (fuel : Nat) (env : Env ι R δ) (o : Options) :
    (absent o.pipeline → absent o.algorithm → ∀ out, Executes m0 fuel env o out ↔ out = .error .valueError) ∧
    (∀ path, o.pipeline = some path → path ≠ "" → ∀ other out, Executes m0 fuel env o out ↔
      Executes m0 fuel env { o with algorithm := other } out) ∧
    (∀ path e, o.pipeline = some path → path ≠ "" → env.load path = .error e →
      ∀ out, Executes m0 fuel env o out ↔ out = .error e) ∧
    (∀ name, absent o.pipeline → o.algorithm = some name → name ≠ "" → env.available name = none →
      ∀ out, Executes m0 fuel env o out ↔ out = .error .keyError) := by
  have key : ∀ e, choose env o = .error e → ∀ out, Executes m0 fuel env o out ↔ out = .error e := by
    intro e he out
    constructor
    · intro h
      cases h with
      | noModel e' h => rw [he] at h; cases h; rfl
      | noData c e' h => rw [he] at h; cases h
      | noEdges c _ _ _ h => rw [he] at h; cases h
      | stepFailed c _ _ _ _ h => rw [he] at h; cases h
      | done c _ _ _ h => rw [he] at h; cases h
    · rintro rfl
      exact .noModel e he
  refine ⟨fun h1 h2 => key _ ?_, ?_, fun path e h1 h2 h3 => key _ ?_, fun name h1 h2 h3 h4 => key _ ?_⟩
  · unfold choose
    rw [(given_none _).2 h1, (given_none _).2 h2]
  · intro path h1 h2 other out
    have hp := (given_iff _ _).2 ⟨h1, h2⟩
    have hc : choose env { o with algorithm := other } = choose env o := by
      unfold choose
      simp only [hp]
    have hr : ∀ ref (m : GModel ι δ), report { o with algorithm := other } ref m = report o ref m := fun _ _ => rfl
    constructor
    · intro h
      cases h with
      | noModel e h => exact .noModel e (hc.trans h)
      | noData c e h hd => exact .noData c e (hc.trans h) hd
      | noEdges c n e m h hd hs => exact .noEdges c n e m (hc.trans h) hd hs
      | stepFailed c n m e m' h hd hs hr => exact .stepFailed c n m e m' (hc.trans h) hd hs hr
      | done c n m m' h hd hs hrun => rw [← hr]; exact .done c n m m' (hc.trans h) hd hs hrun
    · intro h
      cases h with
      | noModel e h => exact .noModel e (hc.symm.trans h)
      | noData c e h hd => exact .noData c e (hc.symm.trans h) hd
      | noEdges c n e m h hd hs => exact .noEdges c n e m (hc.symm.trans h) hd hs
      | stepFailed c n m e m' h hd hs hr => exact .stepFailed c n m e m' (hc.symm.trans h) hd hs hr
      | done c n m m' h hd hs hrun => rw [hr]; exact .done c n m m' (hc.symm.trans h) hd hs hrun
  · unfold choose
    rw [(given_iff _ _).2 ⟨h1, h2⟩]
    simp only [h3]
  · unfold choose
    rw [(given_none _).2 h1, (given_iff _ _).2 ⟨h2, h3⟩]
    simp only [h4]

/-- **C112 (data).** If the data file cannot be read, the exception is passed on; if it holds no columns, the command raises,
and writes nothing. -/
theorem C112_no_data (m0 : δ) (fuel : Nat) (env : Env ι R δ) (o : Options) (c : ModelClass ι R δ) (ref : Ref)
    (hc : Selects env o c ref) :
    (∀ e, env.document = .error e → ∀ out, Executes m0 fuel env o out ↔ out = .error e) ∧
    (∀ j, env.document = .ok j → (∀ nodes, ¬ Holds j nodes) → ∃ e, ∀ out, Executes m0 fuel env o out ↔ out = .error e) := by
  have hc' := (selects_iff env o c ref).2 hc
  have key : ∀ e, loadData env = .error e → ∀ out, Executes m0 fuel env o out ↔ out = .error e := by
    intro e he out
    constructor
    · intro h
      cases h with
      | noModel e' h => rw [hc'] at h; cases h
      | noData c e' h hd => rw [he] at hd; cases hd; rfl
      | noEdges c _ _ _ h hd => rw [he] at hd; cases hd
      | stepFailed c _ _ _ _ h hd => rw [he] at hd; cases hd
      | done c _ _ _ h hd => rw [he] at hd; cases hd
    · rintro rfl
      exact .noData _ e hc' he
  constructor
  · intro e he
    refine key e ?_
    unfold loadData
    rw [he]
  · intro j hj hno
    cases hl : loadData env with
    | ok nodes => exact absurd ((loadData_iff env j nodes hj).1 hl) (hno nodes)
    | error e => exact ⟨e, key e hl⟩

/-- **C112 (result).** The steps of the selected model run on the complete graph over the columns of the data file.  If one
raises, the command raises the same; if none does, the command succeeds.  The result then names the selected model, has the
columns as nodes, one history entry per step, in the order of the steps, and each edge of the final graph exactly once, and
it is written to the output file, if one is given. -/
theorem C112_result (m0 : δ) (fuel : Nat) (env : Env ι R δ) (o : Options) (c : ModelClass ι R δ) (ref : Ref)
    (j : Json ι R) (nodes : Nodes ι R) (hc : Selects env o c ref) (hj : env.document = .ok j) (hd : Holds j nodes) :
    ∃ g, Reachable g ∧ Complete m0 (nodes.map Prod.fst) g ∧
    (∀ e, Executes m0 fuel env o (.error e) ↔ ∃ m', Stages.Run fuel (c nodes) ⟨g, []⟩ (.error e, m')) ∧
    (∀ m', Stages.Run fuel (c nodes) ⟨g, []⟩ (.ok (), m') → ∃ r, Executes m0 fuel env o (.ok r)) ∧
    (∀ r, Executes m0 fuel env o (.ok r) → ∃ m', Stages.Run fuel (c nodes) ⟨g, []⟩ (.ok (), m') ∧
      r.algorithm = ref ∧ r.nodes = nodes.map Prod.fst ∧ r.history = m'.history ∧
      r.history.map HistRec.name = (c nodes).map stageName ∧
      (r.edges.map (fun e => (e.u, e.v))).Nodup ∧
      (∀ a b, (∃ e ∈ r.edges, e.u = a ∧ e.v = b) ↔ m'.graph.directedEdgeExists a b = true) ∧
      (∀ e ∈ r.edges, m'.graph.getEdge e.u e.v = .ok e) ∧
      ∀ f, r.saved = some f ↔ o.outputFile = some f ∧ f ≠ "") := by
  replace hc := (selects_iff env o c ref).2 hc
  replace hd := (loadData_iff env j nodes hj).2 hd
  obtain ⟨g, h1, h2, h3⟩ := start_complete m0 (loadData_nodup hd)
  refine ⟨g, h2.1, h3, ?_, ?_, ?_⟩
  · intro e
    constructor
    · intro h
      generalize hx : (Except.error e : Except PyErr (Report ι δ)) = x at h
      cases h with
      | noModel e' h => rw [hc] at h; cases h
      | noData c e' h hd' => rw [hd] at hd'; cases hd'
      | noEdges c _ _ _ h hd' hs => rw [hd] at hd'; cases hd'; rw [h1] at hs; cases hs
      | stepFailed c' n m e' m' h hd' hs hr =>
        rw [hc] at h
        cases h
        rw [hd] at hd'
        cases hd'
        rw [h1] at hs
        cases hs
        cases hx
        exact ⟨m', hr⟩
      | done c' n m m' h hd' hs hrun =>
        rw [hc] at h
        cases h
        rw [hd] at hd'
        cases hd'
        rw [h1] at hs
        cases hs
        rw [report_ok (stages_ok hrun h2).1.1] at hx
        cases hx
    · rintro ⟨m', hr⟩
      exact .stepFailed (c, ref) nodes _ e m' hc hd h1 hr
  · intro m' hr
    have := Executes.done (m0 := m0) (fuel := fuel) (env := env) (o := o) (c, ref) nodes _ m' hc hd h1 hr
    rw [report_ok (stages_ok hr h2).1.1] at this
    exact ⟨_, this⟩
  · intro r hr
    generalize hx : Except.ok r = x at hr
    cases hr with
    | noModel => cases hx
    | noData => cases hx
    | noEdges => cases hx
    | stepFailed => cases hx
    | done c' n m m' h hd' hs hrun =>
      rw [hc] at h
      cases h
      rw [hd] at hd'
      cases hd'
      rw [h1] at hs
      cases hs
      obtain ⟨a1, a2, a3⟩ := stages_ok hrun h2
      rw [report_ok a1.1] at hx
      cases hx
      obtain ⟨l, b1, b2, b3, b4⟩ := C12_retrieve_edges_exact m'.graph a1.1
      rw [retrieveEdges_eq a1.1.wf] at b1
      cases b1
      refine ⟨m', hrun, rfl, a1.2, rfl, by simpa using a2, b2, fun a b => ⟨?_, fun h => ?_⟩, fun e he => (b3 e he).2.1,
        fun f => given_iff _ f⟩
      · rintro ⟨e, he, rfl, rfl⟩
        exact (b3 e he).1
      · exact b4 a b h

/-! ## C113 -/

/-- **C113 (partial).** The edges shown on the screen are exactly those of the result, in the same order, if the last step of
the model is not a logic step; in general the edges of the result are among those shown. -/
theorem C113_shown_is_saved_partial (m0 : δ) (fuel : Nat) (env : Env ι R δ) (o : Options) (r : Report ι δ)
    (h : Executes m0 fuel env o (.ok r)) :
    r.edges.Sublist r.printed ∧ (∀ e ∈ r.printed, e ∉ r.edges → e.deleted = true) ∧
    (∀ c ref j nodes x, Selects env o c ref → env.document = .ok j → Holds j nodes → (c nodes).getLast? = some x →
      isPlain x → r.printed = r.edges) := by
  generalize hx : Except.ok r = y at h
  cases h with
  | noModel => cases hx
  | noData => cases hx
  | noEdges => cases hx
  | stepFailed => cases hx
  | done c n m m' hc hd hs hrun =>
    obtain ⟨g, h1, h2⟩ := start_ok m0 (loadData_nodup hd)
    rw [h1] at hs
    cases hs
    obtain ⟨a1, a2, a3⟩ := stages_ok hrun h2
    rw [report_ok a1.1] at hx
    cases hx
    refine ⟨List.filter_sublist.map _, ?_, ?_⟩
    · intro e he hne
      obtain ⟨t, ht, rfl⟩ := List.mem_map.1 he
      by_contra hd
      exact hne (List.mem_map.2 ⟨t, List.mem_filter.2 ⟨ht, by simpa using hd⟩, rfl⟩)
    · intro c' ref' j n' x hc' hj hd' hl hp
      replace hc' := (selects_iff env o c' ref').2 hc'
      replace hd' := (loadData_iff env j n' hj).2 hd'
      rw [hc] at hc'
      cases hc'
      rw [hd] at hd'
      cases hd'
      have hall := a3 x hl hp
      simp only
      rw [List.filter_eq_self.2]
      rintro ⟨u, v, e⟩ ht
      have he := (mem_storedList _ u v e).1 ht
      have := hall u v e (by
        unfold getEdge
        have hu : m'.graph.edges.has u = true := by
          unfold Dict.get2 at he
          rw [Dict.has_iff_exists]
          cases hr : m'.graph.edges.get? u with
          | none => rw [hr] at he; cases he
          | some r => exact ⟨r, rfl⟩
        rw [hu, he]
        rfl)
      simpa using this

/-! ## Examples -/

/-- three columns with two values each -/
def exCliDoc : Json Nat Nat := .list [⟨[(0, 5), (1, 6), (2, 7)], by decide⟩, ⟨[(0, 8), (1, 9), (2, 4)], by decide⟩]

/-- a file with one plain step, and an available algorithm that ends in a loop -/
def exCliEnv : Env Nat Nat Nat where
  load := fun _ => .ok (fun _ => [.seq (.plain (exStep "a" 1))])
  available := fun n => if n = "L" then some (fun _ => [.seq (.loop "l" [exStep "a" 1] exitOnNoActions)]) else none
  document := .ok exCliDoc

/-- the nodes of the example -/
def exCliNodes : Nodes Nat Nat := [(0, [5, 8]), (1, [6, 9]), (2, [7, 4])]

theorem exCli_given : given (some "p.json") = some "p.json" ∧ given (some "L") = some "L" ∧
    given (some "out.json") = some "out.json" := by decide +kernel

theorem exCli_load : loadData exCliEnv = .ok exCliNodes := by decide +kernel

/-- the hypotheses of C112 and C113 hold for the example -/
example : Selects exCliEnv ⟨some "p.json", some "L", some "out.json"⟩ (fun _ => [.seq (.plain (exStep "a" 1))]) (.file "p.json") ∧
    exCliEnv.document = .ok exCliDoc ∧ Holds exCliDoc exCliNodes :=
  ⟨.file _ _ rfl (by decide) rfl, rfl, (loadData_iff exCliEnv exCliDoc exCliNodes rfl).1 exCli_load⟩

/-- the report after a model with one step -/
def singleReport (m0 : δ) (fuel : Nat) (nodes : Nodes ι R) (ref : Ref) (o : Options) (p : PStep ι δ) : Report ι δ :=
  let m := (p.run fuel (startModel m0 nodes).2).2
  ⟨m.graph.storedList.map (fun t => t.2.2), ref, m.graph.nodes,
    (m.graph.storedList.filter (fun t => !t.2.2.deleted)).map (fun t => t.2.2), m.history, given o.outputFile⟩

theorem executes_single {m0 : δ} {fuel : Nat} {env : Env ι R δ} {o : Options} {c : ModelClass ι R δ} {ref : Ref}
    {nodes : Nodes ι R} {p : PStep ι δ} (hc : choose env o = .ok (c, ref)) (hd : loadData env = .ok nodes)
    (hp : c nodes = [.seq p]) (h : (p.run fuel (startModel m0 nodes).2).1 = .ok ()) :
    Executes m0 fuel env o (.ok (singleReport m0 fuel nodes ref o p)) := by
  obtain ⟨g, h1, h2⟩ := start_ok m0 (loadData_nodup hd)
  have h3 := Stage.Run.seq (fuel := fuel) p (startModel m0 nodes).2
  have h4 : Stages.Run fuel (c nodes) ⟨g, []⟩ (.ok (), (p.run fuel (startModel m0 nodes).2).2) := by
    rw [h1] at h h3 ⊢
    rw [hp]
    generalize p.run fuel ⟨g, []⟩ = x at h h3
    obtain ⟨e, m'⟩ := x
    simp only at h
    subst h
    exact .cons _ _ _ _ _ h3 (.nil _)
  have := Executes.done (m0 := m0) (fuel := fuel) (env := env) (o := o) (c, ref) nodes _ _ hc hd h1 h4
  rwa [report_ok (stages_ok h4 h2).1.1] at this

/-- C112, C113: with a pipeline file the command succeeds on the example, although an algorithm is named as well; it removes
the edges at the column 1 and shows and saves the two directions of the remaining edge. -/
theorem exCli_file : ∃ r, Executes 0 9 exCliEnv ⟨some "p.json", some "L", some "out.json"⟩ (.ok r) ∧
    r.algorithm = .file "p.json" ∧ r.nodes = [0, 1, 2] ∧ r.edges.map (fun e => (e.u, e.v)) = [(0, 2), (2, 0)] ∧
    r.printed = r.edges ∧ r.saved = some "out.json" ∧ r.history.map HistRec.name = ["a"] := by
  have hc : choose exCliEnv ⟨some "p.json", some "L", some "out.json"⟩ =
      .ok (fun _ => [.seq (.plain (exStep "a" 1))], .file "p.json") := by
    unfold choose
    simp only [exCli_given.1]
    rfl
  have h := executes_single (m0 := 0) (fuel := 9) (p := .plain (exStep "a" 1)) hc exCli_load rfl (by decide +kernel)
  refine ⟨_, h, ?_, ?_, ?_, ?_, ?_, ?_⟩ <;> decide +kernel

/-- **C113 (negation).** A model that ends in a loop: the edges its steps removed are marked, and are shown on the screen,
but not saved. -/
theorem C113_loop_shows_deleted : ∃ r, Executes 0 9 exCliEnv ⟨none, some "L", some "out.json"⟩ (.ok r) ∧
    r.edges.map (fun e => (e.u, e.v)) = [(0, 2), (2, 0)] ∧
    r.printed.map (fun e => (e.u, e.v)) = [(0, 1), (0, 2), (1, 0), (1, 2), (2, 0), (2, 1)] := by
  have hc : choose exCliEnv ⟨none, some "L", some "out.json"⟩ =
      .ok (fun _ => [.seq (.loop "l" [exStep "a" 1] exitOnNoActions)], .name "L") := by
    unfold choose
    have hn : given none = none := rfl
    have hl : exCliEnv.available "L" = some (fun _ => [.seq (.loop "l" [exStep "a" 1] exitOnNoActions)]) := by
      simp [exCliEnv]
    simp only [exCli_given.2.1, hn, hl]
  have h := executes_single (m0 := 0) (fuel := 9) (p := .loop "l" [exStep "a" 1] exitOnNoActions) hc exCli_load rfl
    (by decide +kernel)
  refine ⟨_, h, ?_, ?_⟩ <;> decide +kernel

end Verif
