import Verif.Crash.Lemmas3
import Verif.Crash.Yaml

/-!
# Properties: commands that are killed
-/

namespace Verif
namespace Workspace
namespace Crash
variable {O D H R : Type}

/-! ### C120 -/

theorem applyOps_files (fmt : Format O) (ops : List (Op O)) (d : Disk) (x : World O Text) (hf : d.files = x.files) :
    (applyOps fmt ops d).files = (ops.foldl (fun x op => op.act x) x).files := by
  induction ops generalizing d x with
  | nil => exact hf
  | cons op ops ih =>
    refine ih (op.apply fmt d) (op.act x) ?_
    cases op with
    | writeWorkspace i w => exact hf
    | writeResult e t c => show saveFile _ _ _ d.files = saveFile _ _ _ x.files; rw [hf]
    | remove e t => show d.files.del _ = x.files.del _; rw [hf]

theorem applyOps_reads (fmt : Format O) (ops : List (Op O)) (d : Disk) (x : World O Text)
    (hr : reads fmt d = x.workspace.map .ok)
    (hrt : ∀ i w, (ops.foldl (fun x op => op.act x) x).workspace = some w → fmt.parse (fmt.write i w) = .ok w) :
    reads fmt (applyOps fmt ops d) = (ops.foldl (fun x op => op.act x) x).workspace.map .ok := by
  induction ops using List.reverseRecOn with
  | nil => exact hr
  | append_singleton ops op ih =>
    have h1 : applyOps fmt (ops ++ [op]) d = op.apply fmt (applyOps fmt ops d) := by
      unfold applyOps; rw [List.foldl_append]; rfl
    rw [h1]
    rw [List.foldl_append] at hrt ⊢
    cases op with
    | writeWorkspace i w =>
      show some (fmt.parse (fmt.write i w)) = _
      rw [hrt i w rfl]
      rfl
    | writeResult e t c => exact ih hrt
    | remove e t => exact ih hrt

/-- C120, the two models: on the files, a command that is not disturbed has the outcome and the files of the command in the
model without texts (`Cmd.run`), and its workspace too, if the format reads back the workspace it wrote. -/
theorem C120_undisturbed [DecidableEq H] (fmt : Format O) (env : Env O D H R Text) (c : Cmd) (d : Disk)
    (world : World O Text) (hf : d.files = world.files) (hw : reads fmt d = world.workspace.map .ok) :
    (onDisk fmt env c d).1 = (c.run env world).1 ∧ (onDisk fmt env c d).2.files = (c.run env world).2.files ∧
    ((∀ i w, (c.run env world).2.workspace = some w → fmt.parse (fmt.write i w) = .ok w) →
      reads fmt (onDisk fmt env c d).2 = (c.run env world).2.workspace.map .ok) := by
  have hread : readDisk fmt c d = .ok world := by
    obtain ⟨ws, fs⟩ := world
    obtain ⟨t, fs'⟩ := d
    simp only at hf
    subst hf
    unfold readDisk
    cases t with
    | none =>
      cases ws with
      | none => rfl
      | some w => cases hw
    | some t =>
      cases ws with
      | none => cases hw
      | some w =>
        have hp : fmt.parse t = .ok w := by
          simpa [reads] using hw
        simp only
        rw [hp]
  obtain ⟨h1, h2, ops, h3, h4⟩ := sim_body env c ⟨⟨world, env.algorithm .pythonModule⟩, []⟩
  have hj : journal fmt env c d = ((c.run env world).1, ops) := by
    unfold journal
    rw [hread]
    simp only
    rw [h1, h3]
    rfl
  have h5 : (c.run env world).2 = ops.foldl (fun x op => op.act x) world := h4
  unfold onDisk
  rw [hj]
  refine ⟨rfl, ?_, fun hrt => ?_⟩
  · simp only
    rw [applyOps_files fmt ops d world hf, h5]
  · simp only
    rw [h5] at hrt ⊢
    exact applyOps_reads fmt ops d world hw hrt

/-- C120: whenever a command is killed, `workspace.yml` and every other file have the content they had before or the one that
the command would have given them, except for at most one, which contains the beginning of its new content. -/
theorem C120_old_new_or_one_cut [DecidableEq H] (fmt : Format O) (env : Env O D H R Text) (c : Cmd) (d d' : Disk)
    (h : Killed fmt env c d d') : OldNewOrOneCut d (onDisk fmt env c d).2 d' :=
  interrupted_oldNew fmt (journal_consistent fmt env c d) h

/-- C120, `execute`: `workspace.yml` is left alone, and so is every file but those of the results at the present second: if
there is none of these yet, then nothing that was there is lost. -/
theorem C120_execute_keeps [DecidableEq H] (fmt : Format O) (env : Env O D H R Text) (name : Option String) (force : Bool)
    (d d' : Disk) (h : Killed fmt env (.execute name force) d d') :
    d'.workspace = d.workspace ∧
    (∀ f, (∀ n, f ≠ resultName (String.toList n) (env.now n)) → d'.files.get? f = d.files.get? f) ∧
    ((∀ n, d.files.get? (resultName (String.toList n) (env.now n)) = none) →
      ∀ f c, d.files.get? f = some c → d'.files.get? f = some c) := by
  have hs := journal_shape fmt env (.execute name force) d
  obtain ⟨cut, hp⟩ := interrupted_places fmt h
  have key : ∀ op ∈ (journal fmt env (.execute name force) d).2, ∃ n c, op = .writeResult (String.toList n) (env.now n) c := by
    intro op hop
    rcases hs with hs | ⟨t, w, -, -, l, -, hs⟩
    · rw [hs] at hop; cases hop
    · rw [hs] at hop
      obtain ⟨p, -, rfl⟩ := List.mem_map.1 hop
      exact ⟨p.1, _, rfl⟩
  have hat : ∀ x, (∀ n, x ≠ .file (resultName (String.toList n) (env.now n))) → d'.at x = d.at x := by
    intro x hx
    rcases hp x with h | ⟨op, h1, h2, -⟩ | ⟨-, op, h1, h2, -⟩
    · exact h
    · obtain ⟨n, c, rfl⟩ := key op h1
      exact absurd h2.symm (hx n)
    · obtain ⟨n, c, rfl⟩ := key op h1
      exact absurd h2.symm (hx n)
  have hfile : ∀ f, (∀ n, f ≠ resultName (String.toList n) (env.now n)) → d'.files.get? f = d.files.get? f :=
    fun f hf => hat (.file f) (fun n h => hf n (Place.file.inj h))
  refine ⟨hat .workspace (fun n h => by cases h), hfile, fun hnew f c hc => ?_⟩
  rw [hfile f (fun n hn => ?_), hc]
  rw [hn, hnew n] at hc
  cases hc

/-- C120, clearing and removing an experiment: only results of that experiment disappear, no file appears or changes, and
`workspace.yml` is touched only when all of them are gone. -/
theorem C120_clear_order [DecidableEq H] (fmt : Format O) (env : Env O D H R Text) (c : Cmd) (n : String)
    (hc : c = .removeExperiment n ∨ c = .clearExperiment n) (d d' : Disk) (h : Killed fmt env c d d') :
    (∀ f, (∀ t, f ≠ resultName n.toList t) → d'.files.get? f = d.files.get? f) ∧
    (∀ f, d'.files.get? f = d.files.get? f ∨ d'.files.get? f = none) ∧
    (d'.workspace ≠ d.workspace → d'.files = (onDisk fmt env c d).2.files) := by
  have hs : ClearsAndWrites n (journal fmt env c d).2 := by
    have := journal_shape fmt env c d
    rcases hc with rfl | rfl <;> exact this
  have hfiles : ∀ (vs : List Int) (e : Disk), (applyOps fmt (vs.map (Op.remove n.toList)) e).workspace = e.workspace := by
    intro vs e
    rcases applyOps_at fmt (vs.map (Op.remove n.toList)) e .workspace with ⟨-, h⟩ | ⟨op, h1, h2, -⟩
    · exact h
    · obtain ⟨v, -, rfl⟩ := List.mem_map.1 h1
      cases h2
  refine ⟨fun f hf => ?_, fun f => ?_, ?_⟩
  · obtain ⟨cut, hp⟩ := interrupted_places fmt h
    have hno : ∀ op ∈ (journal fmt env c d).2, op.target ≠ .file f := by
      intro op hop
      obtain ⟨vs, hs⟩ := hs
      have : (∃ v, op = .remove n.toList v) ∨ ∃ w, op = .writeWorkspace false w := by
        rcases hs with hs | ⟨w, hs⟩
        · rw [hs] at hop
          obtain ⟨v, -, rfl⟩ := List.mem_map.1 hop
          exact Or.inl ⟨v, rfl⟩
        · rw [hs] at hop
          rcases List.mem_append.1 hop with hop | hop
          · obtain ⟨v, -, rfl⟩ := List.mem_map.1 hop
            exact Or.inl ⟨v, rfl⟩
          · exact Or.inr ⟨w, List.mem_singleton.1 hop⟩
      rcases this with ⟨v, rfl⟩ | ⟨w, rfl⟩
      · exact fun h => hf v (Place.file.inj h).symm
      · exact fun h => by cases h
    rcases hp (.file f) with h | ⟨op, h1, h2, -⟩ | ⟨-, op, h1, h2, -⟩
    · exact h
    · exact absurd h2 (hno op h1)
    · exact absurd h2 (hno op h1)
  · obtain ⟨cut, hp⟩ := interrupted_places fmt h
    have hno : ∀ op ∈ (journal fmt env c d).2, op.target = .file f → op.final fmt = none := by
      intro op hop ht
      obtain ⟨vs, hs⟩ := hs
      have : (∃ v, op = .remove n.toList v) ∨ ∃ w, op = .writeWorkspace false w := by
        rcases hs with hs | ⟨w, hs⟩
        · rw [hs] at hop
          obtain ⟨v, -, rfl⟩ := List.mem_map.1 hop
          exact Or.inl ⟨v, rfl⟩
        · rw [hs] at hop
          rcases List.mem_append.1 hop with hop | hop
          · obtain ⟨v, -, rfl⟩ := List.mem_map.1 hop
            exact Or.inl ⟨v, rfl⟩
          · exact Or.inr ⟨w, List.mem_singleton.1 hop⟩
      rcases this with ⟨v, rfl⟩ | ⟨w, rfl⟩
      · rfl
      · cases ht
    rcases hp (.file f) with h | ⟨op, h1, h2, h3⟩ | ⟨-, op, h1, h2, p, c', h3, h4, -⟩
    · exact Or.inl h
    · exact Or.inr (h3.trans (hno op h1 h2))
    · rw [hno op h1 h2] at h4; cases h4
  · intro hne
    obtain ⟨done, rest, he, hi⟩ := interrupted_split fmt h
    obtain ⟨vs, hs⟩ := hs
    unfold onDisk
    rcases hs with hs | ⟨w, hs⟩
    · -- nothing but removals: the workspace does not change
      exfalso
      rw [hs] at he
      obtain ⟨v1, v2, rfl, h1, h2⟩ := List.map_eq_append_iff.1 he
      rcases hi with rfl | ⟨op, rest', hr, ht⟩
      · rw [← h1] at hne; exact hne (hfiles v1 d)
      · rw [hr] at h2
        obtain ⟨v, -, rfl⟩ := List.mem_map.1 (show op ∈ v2.map (Op.remove n.toList) by rw [h2]; simp)
        cases ht
    · rw [hs]
      rw [hs] at he
      rcases List.append_eq_append_iff.1 he with ⟨as, h1, h2⟩ | ⟨bs, h1, h2⟩
      · -- all removals are done
        have hdone : d'.files = (applyOps fmt (vs.map (Op.remove n.toList)) d).files := by
          rcases as with _ | ⟨a, as⟩
          · simp only [List.nil_append] at h2
            rw [List.append_nil] at h1
            subst h1
            rcases hi with rfl | ⟨op, rest', hr, ht⟩
            · rfl
            · rw [hr] at h2
              simp only [List.cons.injEq] at h2
              obtain ⟨rfl, -⟩ := h2
              cases ht
              rfl
          · simp only [List.cons_append, List.cons.injEq, List.nil_eq, List.append_eq_nil_iff] at h2
            obtain ⟨rfl, rfl, rfl⟩ := h2
            rw [h1] at hi
            rcases hi with rfl | ⟨op, rest', hr, ht⟩
            · unfold applyOps; rw [List.foldl_append]; rfl
            · cases hr
        rw [hdone]
        unfold applyOps
        rw [List.foldl_append]
        rfl
      · obtain ⟨v1, v2, rfl, g1, g2⟩ := List.map_eq_append_iff.1 h1
        rcases hi with rfl | ⟨op, rest', hr, ht⟩
        · rw [← g1] at hne; exact absurd (hfiles v1 d) hne
        · rw [hr] at h2
          cases bs with
          | nil =>
            simp only [List.nil_append, List.cons.injEq] at h2
            obtain ⟨rfl, -⟩ := h2
            cases ht
            rw [h1, List.append_nil]
            unfold applyOps
            rw [List.foldl_append]
            rfl
          | cons b bs =>
            simp only [List.cons_append, List.cons.injEq] at h2
            obtain ⟨rfl, -⟩ := h2
            obtain ⟨v, -, rfl⟩ := List.mem_map.1 (show op ∈ v2.map (Op.remove n.toList) by rw [g2]; simp)
            cases ht

/-- C120, the other commands change no file but `workspace.yml`. -/
theorem C120_workspace_only [DecidableEq H] (fmt : Format O) (env : Env O D H R Text) (c : Cmd)
    (h1 : ∀ n, c ≠ .removeExperiment n) (h2 : ∀ n, c ≠ .clearExperiment n) (h3 : ∀ n f, c ≠ .execute n f) (d d' : Disk)
    (h : Killed fmt env c d d') : d'.files = d.files := by
  have hs : WritesOnce (journal fmt env c d).2 := by
    have := journal_shape fmt env c d
    cases c with
    | removeExperiment n => exact absurd rfl (h1 n)
    | clearExperiment n => exact absurd rfl (h2 n)
    | execute n f => exact absurd rfl (h3 n f)
    | _ => exact this
  unfold Killed at h
  rcases hs with hs | ⟨i, w, hs⟩
  · rw [hs] at h
    cases h
    rfl
  · rw [hs] at h
    cases h with
    | between => rfl
    | inside _ h => cases h; rfl
    | later h => cases h; rfl

/-! ### C121 -/

theorem killed_execute_written [DecidableEq H] (fmt : Format O) (env : Env O D H R Text) (name : Option String) (force : Bool)
    (d d' : Disk) (h : Killed fmt env (.execute name force) d d') (now later : Int)
    (hclock : ∀ n, now ≤ env.now n ∧ env.now n ≤ later) (hd : DirOk now d.files) (hw : Written env.encode d.files) :
    DirOk later d'.files ∧ Written env.encode d'.files := by
  have hs := journal_shape fmt env (.execute name force) d
  obtain ⟨cut, hp⟩ := interrupted_places fmt h
  have key : ∀ op ∈ (journal fmt env (.execute name force) d).2,
      ∃ n r, op = .writeResult (String.toList n) (env.now n) (env.encode r) := by
    intro op hop
    rcases hs with hs | ⟨t, w, -, -, l, -, hs⟩
    · rw [hs] at hop; cases hop
    · rw [hs] at hop
      obtain ⟨p, -, rfl⟩ := List.mem_map.1 hop
      exact ⟨p.1, p.2, rfl⟩
  have hall : ∀ f, d'.files.get? f = d.files.get? f ∨
      ∃ n r p, f = resultName (String.toList n) (env.now n) ∧ d'.files.get? f = some p ∧ p <+: env.encode r := by
    intro f
    rcases hp (.file f) with h | ⟨op, h1, h2, h3⟩ | ⟨-, op, h1, h2, p, c, h3, h4, h5⟩
    · exact Or.inl h
    · obtain ⟨n, r, rfl⟩ := key op h1
      exact Or.inr ⟨n, r, env.encode r, (Place.file.inj h2).symm, h3, List.prefix_rfl⟩
    · obtain ⟨n, r, rfl⟩ := key op h1
      cases h4
      exact Or.inr ⟨n, r, p, (Place.file.inj h2).symm, h3, h5⟩
  have hle : now ≤ later := le_trans (hclock "").1 (hclock "").2
  constructor
  · intro f hf
    rcases hall f with h | ⟨n, r, p, rfl, -, -⟩
    · rw [Dict.mem_keys_iff, h, ← Dict.mem_keys_iff] at hf
      rcases hd f hf with ⟨e, t, h1, h2⟩ | h1
      · exact Or.inl ⟨e, t, h1, by omega⟩
      · exact Or.inr h1
    · exact Or.inl ⟨_, _, rfl, (hclock n).2⟩
  · intro e t c hc
    rcases hall (resultName e t) with h | ⟨n, r, p, -, h2, h3⟩
    · rw [h] at hc; exact hw e t c hc
    · rw [h2] at hc; cases hc; exact ⟨r, h3⟩

theorem killedRuns_written [DecidableEq H] (fmt : Format O) (encode : Result H R → Text) {now latest : Int} {d d' : Disk}
    (h : KilledRuns (D := D) fmt encode now latest d d') (hd : DirOk now d.files) (hw : Written encode d.files) :
    d'.workspace = d.workspace ∧ DirOk latest d'.files ∧ Written encode d'.files := by
  induction h with
  | none now d => exact ⟨rfl, hd, hw⟩
  | run env name force henc hclock hkill rest ih =>
    subst henc
    obtain ⟨h1, h2⟩ := killed_execute_written fmt env name force _ _ hkill _ _ hclock hd hw
    obtain ⟨g1, g2, g3⟩ := ih h1 h2
    exact ⟨g1.trans (C120_execute_keeps fmt env name force _ _ hkill).1, g2, g3⟩

/-- C121: after any number of executions that were killed, the next `execute` succeeds if every experiment works, and afterwards
every experiment has a newest result that can be read: an experiment whose newest result was up to date keeps its results as
they are, any other one is executed, and its new result is the newest.  No file of anything else changes.
(Assumed about files: what was written completely is read back, and a text that was cut off is refused by the JSON parser.) -/
theorem C121_recovers [DecidableEq H] (fmt : Format O) (encode : Result H R → Text) (now latest : Int)
    (d d' : Disk) (t : Text) (w : Ws O) (hws : d.workspace = some t) (hparse : fmt.parse t = .ok w)
    (hdir : DirOk now d.files) (hwritten : Written encode d.files) (hk : KilledRuns (D := D) fmt encode now latest d d')
    (env : Env O D H R Text) (henc : env.encode = encode) (hclock : ∀ n, latest ≤ env.now n)
    (hread : ∀ r, env.decode (encode r) = .ok r.hashes)
    (hcut : ∀ r p, p <+: encode r → p ≠ encode r → env.decode p = .error .valueError)
    (alg : String → Vars.Algorithm) (out : String → R)
    (hworks : ∀ n x, w.experiments.get? n = some x → Works env w x (alg n) (out n)) :
    ∃ d'', onDisk fmt env (.execute none false) d' = (.ok (), d'') ∧ d''.workspace = d.workspace ∧
      (∀ f, (∀ n x, w.experiments.get? n = some x → f ≠ resultName n.toList (env.now n)) →
        d''.files.get? f = d'.files.get? f) ∧
      ∀ n x, w.experiments.get? n = some x →
        (UpToDate env w n x (alg n) d'.files ∧ UpToDate env w n x (alg n) d''.files ∧
          ∀ t, d''.files.get? (resultName n.toList t) = d'.files.get? (resultName n.toList t)) ∨
        (¬ UpToDate env w n x (alg n) d'.files ∧ ∃ r, r.outcome = out n ∧ latestFile n.toList d''.files = .ok (encode r)) := by
  obtain ⟨k1, k2, k3⟩ := killedRuns_written fmt encode hk hdir hwritten
  subst henc
  have hr : reads fmt d' = (some w).map .ok := by
    unfold reads
    rw [k1, hws]
    show some (fmt.parse t) = _
    rw [hparse]
    rfl
  have htidy : ∀ e, Tidy e d'.files.keys := fun e => dirOk_tidy k2 e
  have hreadable : ∀ e t c, d'.files.get? (resultName e t) = some c → Readable env c := by
    intro e t c hc
    obtain ⟨r, h⟩ := k3 e t c hc
    by_cases he : c = env.encode r
    · rw [he]; exact Or.inl ⟨_, hread r⟩
    · exact Or.inr (Or.inl (hcut r c h he))
  obtain ⟨s', g1, g2, g3, g4, g5⟩ := executeAll_works env w alg out w.experiments.items w.experiments.nodup
    (fun p hp => (Dict.mem_items_iff _ _ _).1 hp) (fun p hp => hworks p.1 p.2 ((Dict.mem_items_iff _ _ _).1 hp)) hread
    ⟨⟨some w, d'.files⟩, env.algorithm .pythonModule⟩ htidy hreadable
  have hrun : (Cmd.execute none false).run env ⟨some w, d'.files⟩ = (.ok (), s'.world) := by
    have hb : (Cmd.execute none false).body env ⟨⟨some w, d'.files⟩, env.algorithm .pythonModule⟩ = (.ok (), s') := by
      show execute env none false _ = _
      unfold execute
      rw [PyM.bind_ok (current_run (w := w) rfl)]
      exact g1
    unfold Cmd.run
    rw [hb]
  obtain ⟨u1, u2, -⟩ := C120_undisturbed fmt env (.execute none false) d' ⟨some w, d'.files⟩ rfl hr
  have hkeep := (C120_execute_keeps fmt env none false d' (onDisk fmt env (.execute none false) d').2
    (interrupted_all fmt _ _)).1
  rw [hrun] at u1 u2
  refine ⟨(onDisk fmt env (.execute none false) d').2, Prod.ext u1 rfl, hkeep.trans k1, fun f hf => ?_, fun n x hx => ?_⟩
  · rw [u2]
    exact g4 f (fun p hp _ => hf p.1 p.2 ((Dict.mem_items_iff _ _ _).1 hp))
  · have hmem := (Dict.mem_items_iff w.experiments n x).2 hx
    rw [u2]
    by_cases hu : UpToDate env w n x (alg n) d'.files
    · have hsame : ∀ t, s'.world.files.get? (resultName n.toList t) = d'.files.get? (resultName n.toList t) := by
        intro t
        refine g4 _ (fun p hp hnu he => ?_)
        have hn : p.1 = n := String.toList_inj.1 (resultName_inj he).1.symm
        obtain ⟨pn, px⟩ := p
        simp only at hn
        subst hn
        have := (Dict.mem_items_iff _ _ _).1 hp
        rw [hx] at this
        cases this
        exact hnu hu
      refine Or.inl ⟨hu, ?_, hsame⟩
      obtain ⟨c, hs, h1, h2, h3⟩ := hu
      exact ⟨c, hs, by rw [latestFile_congr n.toList d'.files s'.world.files (htidy _) (g3 _) hsame, h1], h2, h3⟩
    · obtain ⟨r, h1, h2⟩ := g5 (n, x) hmem hu
      refine Or.inr ⟨hu, r, h1, latestFile_newest n.toList _ (g3 _) (env.now n) _ h2 (fun u hu' => ?_)⟩
      by_cases he : u = env.now n
      · omega
      · have : s'.world.files.get? (resultName n.toList u) = d'.files.get? (resultName n.toList u) := by
          refine g4 _ (fun p hp _ hq => ?_)
          obtain ⟨q1, q2⟩ := resultName_inj hq
          rw [String.toList_inj.1 q1] at he
          exact he q2
        rw [Dict.mem_keys_iff, this, ← Dict.mem_keys_iff] at hu'
        rcases k2 _ hu' with ⟨e, v, h3, h4⟩ | h3
        · rw [(resultName_inj h3).2]
          have := hclock n
          omega
        · exact absurd (json_resultName _ u) h3

/-! ### C122 -/

/-- The claim of C122: when a command is killed, the workspace is the old or the new one. -/
def AllOrNothing [DecidableEq H] (fmt : Format O) (env : Env O D H R Text) (c : Cmd) (d : Disk) : Prop :=
  ∀ d', Killed fmt env c d d' → reads fmt d' = reads fmt d ∨ reads fmt d' = reads fmt (onDisk fmt env c d).2

/-- C122: whenever a command is killed, the workspace is the old one, the new one, or `workspace.yml` contains the beginning of
the new text.  If no proper beginning of a text can be read, then every command but `init` fails in the last case, and changes
nothing.  (YAML texts have readable beginnings, see `C122_lost_experiment`.) -/
theorem C122_old_new_or_unreadable_partial [DecidableEq H] (fmt : Format O) (env : Env O D H R Text) (c : Cmd) (d d' : Disk)
    (h : Killed fmt env c d d') :
    reads fmt d' = reads fmt d ∨ reads fmt d' = reads fmt (onDisk fmt env c d).2 ∨
    ∃ p new, d'.workspace = some p ∧ (onDisk fmt env c d).2.workspace = some new ∧ p <+: new ∧ p ≠ new ∧
      ((∀ q, q <+: new → q ≠ new → ∃ e, fmt.parse q = .error e) →
        ∃ e, reads fmt d' = some (.error e) ∧
          ∀ (env' : Env O D H R Text) c', (∀ a, c' ≠ .init a) → onDisk fmt env' c' d' = (.error e, d')) := by
  obtain ⟨cut, hp⟩ := C120_old_new_or_one_cut fmt env c d d' h
  rcases hp .workspace with h | h | ⟨-, p, new, h1, h2, h3⟩
  · exact Or.inl (congrArg (fun o => Option.map fmt.parse o) h)
  · exact Or.inr (Or.inl (congrArg (fun o => Option.map fmt.parse o) h))
  · replace h1 : d'.workspace = some p := h1
    by_cases he : p = new
    · refine Or.inr (Or.inl ?_)
      unfold reads
      rw [h1, show (onDisk fmt env c d).2.workspace = some new from h2, he]
    · refine Or.inr (Or.inr ⟨p, new, h1, h2, h3, he, fun hno => ?_⟩)
      obtain ⟨e, hpe⟩ := hno p h3 he
      refine ⟨e, by unfold reads; rw [h1]; show some (fmt.parse p) = _; rw [hpe], fun env' c' hc' => ?_⟩
      have hr : readDisk fmt c' d' = .error e := by
        unfold readDisk
        rw [h1]
        simp only
        rw [hpe]
        cases c' with
        | init a => exact absurd rfl (hc' a)
        | _ => rfl
      unfold onDisk journal
      rw [hr]
      rfl

/-- C122, every beginning can be what is left: `clear` on an experiment rewrites the workspace as it is, and if it is killed, any
beginning of the text can remain. -/
theorem C122_clear_may_leave [DecidableEq H] (fmt : Format O) (env : Env O D H R Text) (d : Disk) (w : Ws O)
    (hd : reads fmt d = some (.ok w)) (n : String) (hn : w.experiments.has n = true)
    (ht : Tidy n.toList d.files.keys) (p : Text) (hp : p <+: fmt.text w) :
    ∃ d', Killed fmt env (.clearExperiment n) d d' ∧ d'.workspace = some p := by
  obtain ⟨vs, hv, -⟩ := loadVersions_ok n.toList _ ht d.files.nodup_keys
  obtain ⟨t, htx, hpt⟩ : ∃ t, d.workspace = some t ∧ fmt.parse t = .ok w := by
    unfold reads at hd
    cases hw : d.workspace with
    | none => rw [hw] at hd; cases hd
    | some t => rw [hw] at hd; exact ⟨t, rfl, by simpa using hd⟩
  have hj : (journal fmt env (.clearExperiment n) d).2 = vs.map (Op.remove n.toList) ++ [.writeWorkspace false w] := by
    have hr : readDisk fmt (.clearExperiment n) d = .ok ⟨some w, d.files⟩ := by
      unfold readDisk
      rw [htx]
      simp only
      rw [hpt]
    unfold journal
    rw [hr]
    show (clearExperimentJ n _).2.log = _
    unfold clearExperimentJ
    have hq : quiet currentWorkspace (⟨⟨⟨some w, d.files⟩, env.algorithm .pythonModule⟩, []⟩ : J O) =
        (.ok w, ⟨⟨⟨some w, d.files⟩, env.algorithm .pythonModule⟩, []⟩) := by
      unfold quiet
      rw [current_run (w := w) rfl]
    rw [PyM.bind_ok hq]
    have hcl : ∀ j : J O, j.st.world.files = d.files → j.log = [] → (clearResultsJ n >>= fun _ => writeWorkspaceJ w) j =
        ((.ok ()), ((clearResultsJ n >>= fun _ => writeWorkspaceJ w) j).2) ∧
        ((clearResultsJ n >>= fun _ => writeWorkspaceJ w) j).2.log = vs.map (Op.remove n.toList) ++ [.writeWorkspace false w] := by
      intro j h1 h2
      have h3 := clearResultsJ_run n j
      rw [h1, hv] at h3
      simp only at h3
      rw [PyM.bind_ok h3]
      exact ⟨rfl, by rw [h2]; rfl⟩
    rw [if_neg (by rw [hn]; simp)]
    exact (hcl _ rfl rfl).2
  have hi : ∀ (vs : List Int) (d : Disk), ∃ d', Interrupted fmt (vs.map (Op.remove n.toList) ++ [.writeWorkspace false w]) d d' ∧
      d'.workspace = some p := by
    intro vs
    induction vs with
    | nil =>
      intro d
      exact ⟨_, .inside _ (.workspace false w p d hp), rfl⟩
    | cons v vs ih =>
      intro d
      obtain ⟨d', h1, h2⟩ := ih ((Op.remove n.toList v : Op O).apply fmt d)
      exact ⟨d', .later h1, h2⟩
  obtain ⟨d', h1, h2⟩ := hi vs d
  refine ⟨d', ?_, h2⟩
  unfold Killed
  rw [hj]
  exact h1

/-! ### A workspace on the disk -/

/-- a character for a hash -/
def hashChar : Option Bool → Char
  | none => 'n'
  | some true => 't'
  | some false => 'f'

def charHash (c : Char) : Except PyErr (Option Bool) :=
  if c = 'n' then .ok none else if c = 't' then .ok (some true) else if c = 'f' then .ok (some false) else .error .valueError

/-- a result is written as its hashes, in braces -/
def exEncode (r : Result Bool Bool) : Text :=
  ['{', hashChar r.hashes.algorithm, hashChar r.hashes.data, hashChar r.hashes.vars, '}']

def exDecode : Text → Except PyErr (Hashes Bool)
  | ['{', a, b, c, '}'] =>
    match charHash a, charHash b, charHash c with
    | .ok a, .ok b, .ok c => .ok ⟨a, b, c⟩
    | _, _, _ => .error .valueError
  | _ => .error .valueError

theorem charHash_hashChar (h : Option Bool) : charHash (hashChar h) = .ok h := by
  rcases h with _ | _ | _ <;> rfl

theorem exDecode_encode (r : Result Bool Bool) : exDecode (exEncode r) = .ok r.hashes := by
  unfold exDecode exEncode
  simp only [charHash_hashChar]

theorem exDecode_cut (r : Result Bool Bool) (p : Text) (h : p <+: exEncode r) (hne : p ≠ exEncode r) :
    exDecode p = .error .valueError := by
  have hl : p.length < 5 := by
    rcases Nat.lt_or_ge p.length 5 with h5 | h5
    · exact h5
    · exact absurd (h.eq_of_length_le (by simpa [exEncode] using h5)) hne
  unfold exDecode
  split
  · simp at hl
  · rfl

/-- two pipelines without variables; the run tells whether there are steps -/
def exDiskEnv (second : Int) : Env Unit Unit Bool Bool Text where
  slug s := s
  pyFloat _ := none
  algorithm t r := if t = .name ∧ r = "PC" then .ok ⟨[], []⟩
    else if t = .file ∧ r = "p.yml" then .ok ⟨[], [.inst "Test" []]⟩ else .error .importError
  available := Dict.empty
  loader _ := .ok ()
  digest _ := .ok true
  run steps _ := .ok (steps.length > 0)
  algHash a := a.steps.length > 0
  varsHash _ := false
  encode := exEncode
  decode := exDecode
  now _ := second

/-- the workspace with a stored result of `second` -/
def exDisk : Disk := ⟨some (Yaml.emit Yaml.exWorkspace), Dict.empty.set (resultName "second".toList 5) "{ttf}".toList⟩

def exAlg (n : String) : Vars.Algorithm := if n = "third" then ⟨[], []⟩ else ⟨[], [.inst "Test" []]⟩

/-- the directory is as C121 assumes -/
theorem exDisk_written : DirOk 5 exDisk.files ∧ Written exEncode exDisk.files := by
  have hk : ∀ f, f ∈ exDisk.files.keys → f = resultName "second".toList 5 := by
    intro f hf
    exact List.mem_singleton.1 hf
  constructor
  · intro f hf
    exact Or.inl ⟨_, _, hk f hf, le_refl _⟩
  · intro e t c hc
    have : resultName e t = resultName "second".toList 5 := hk _ ((Dict.mem_keys_iff _ _).2 (by rw [hc]; rfl))
    rw [this] at hc
    have hv : exDisk.files.get? (resultName "second".toList 5) = some "{ttf}".toList := rfl
    rw [hv] at hc
    cases hc
    exact ⟨⟨true, Dict.empty, ⟨some true, some true, some false⟩⟩, List.prefix_rfl⟩

/-- the experiments work -/
theorem exWorks (second : Int) (n : String) (x : Experiment) (h : Yaml.exWorkspace.experiments.get? n = some x) :
    Works (exDiskEnv second) Yaml.exWorkspace x (exAlg n) (n ≠ "third") := by
  have hm := (Dict.mem_items_iff _ _ _).2 h
  have hi : Yaml.exWorkspace.experiments.items = [("first", ⟨"pc_2", "data", Dict.empty⟩), ("second", ⟨"pc_2", "data", Dict.empty⟩),
    ("third", ⟨"pc", "data", Dict.empty⟩)] := by decide +kernel
  rw [hi] at hm
  simp only [List.mem_cons, Prod.mk.injEq, List.not_mem_nil, or_false] at hm
  rcases hm with ⟨rfl, rfl⟩ | ⟨rfl, rfl⟩ | ⟨rfl, rfl⟩
  · exact ⟨⟨.file, "p.yml"⟩, ⟨.json, "data.json", none⟩, (), [.inst "Test" []], [.inst "Test" []], true, rfl, by decide, rfl, rfl,
      rfl, rfl, rfl, rfl, rfl, rfl⟩
  · exact ⟨⟨.file, "p.yml"⟩, ⟨.json, "data.json", none⟩, (), [.inst "Test" []], [.inst "Test" []], true, rfl, by decide, rfl, rfl,
      rfl, rfl, rfl, rfl, rfl, rfl⟩
  · exact ⟨⟨.name, "PC"⟩, ⟨.json, "data.json", none⟩, (), [], [], true, rfl, by decide, rfl, rfl, rfl, rfl, rfl, rfl, rfl, rfl⟩

/-- the journal of `execute` at the second 7: `first` and `third` get results, `second` is up to date -/
theorem exJournal : (journal Yaml.format (exDiskEnv 7) (.execute none false) exDisk).2 =
    [.writeResult "first".toList 7 "{ttf}".toList, .writeResult "third".toList 7 "{ftf}".toList] := by decide +kernel

/-- what is left of an execution that was killed while the result of `third` was written -/
def exTorn : Disk :=
  ⟨exDisk.workspace, saveFile "third".toList 7 "{f".toList (saveFile "first".toList 7 "{ttf}".toList exDisk.files)⟩

theorem exTorn_killed : KilledRuns (D := Unit) Yaml.format exEncode 5 7 exDisk exTorn := by
  refine .run (later := 7) (exDiskEnv 7) none false rfl (fun n => ⟨by show (5 : Int) ≤ 7; omega, le_refl _⟩) ?_ (.none _ _)
  unfold Killed
  rw [exJournal]
  exact .later (.inside _ (.result "third".toList 7 "{ftf}".toList "{f".toList _ ⟨"tf}".toList, rfl⟩))

/-- all hypotheses of C121 together: the next execution at the second 9 repairs the result of `third` and no other -/
example : ∃ d'', onDisk Yaml.format (exDiskEnv 9) (.execute none false) exTorn = (.ok (), d'') ∧
    ∃ r, r.outcome = false ∧ latestFile "third".toList d''.files = .ok (exEncode r) := by
  obtain ⟨d'', h1, -, -, h4⟩ := C121_recovers Yaml.format exEncode 5 7 exDisk exTorn _ Yaml.exWorkspace rfl Yaml.parse_exWorkspace
    exDisk_written.1 exDisk_written.2 exTorn_killed (exDiskEnv 9) rfl (fun n => by show (7 : Int) ≤ 9; omega) exDecode_encode
    exDecode_cut exAlg (fun n => n ≠ "third") (exWorks 9)
  refine ⟨d'', h1, ?_⟩
  rcases h4 "third" ⟨"pc", "data", Dict.empty⟩ rfl with ⟨⟨c, hs, g1, g2, -⟩, -, -⟩ | ⟨-, r, g1, g2⟩
  · have hl : latestFile "third".toList exTorn.files = .ok "{f".toList := by decide +kernel
    rw [hl] at g1
    cases g1
    cases g2
  · exact ⟨r, by simpa using g1, g2⟩

/-- a workspace command meeting the hypotheses of C120 -/
theorem exDisk_reads : reads Yaml.format exDisk = (some Yaml.exWorkspace).map .ok := by decide +kernel

/-- C122, an experiment is lost and another one changed: `clear first` is killed while it writes `workspace.yml` as it was.  The
workspace can be read afterwards, the experiment `third` is missing in it, and `second` has the other pipeline. -/
theorem C122_lost_experiment :
    ∃ d' w', Killed Yaml.format (exDiskEnv 7) (.clearExperiment "first") exDisk d' ∧
      reads Yaml.format exDisk = some (.ok Yaml.exWorkspace) ∧ reads Yaml.format d' = some (.ok w') ∧
      Yaml.exWorkspace.experiments.keys = ["first", "second", "third"] ∧ w'.experiments.keys = ["first", "second"] ∧
      (Yaml.exWorkspace.experiments.get? "second").map Experiment.pipeline = some "pc_2" ∧
      (w'.experiments.get? "second").map Experiment.pipeline = some "pc" := by
  obtain ⟨d', h1, h2⟩ := C122_clear_may_leave Yaml.format (exDiskEnv 7) exDisk Yaml.exWorkspace exDisk_reads "first" (by decide +kernel)
    (fun f hf => Or.inl ⟨_, _, List.mem_singleton.1 hf⟩) Yaml.exCut (List.take_prefix _ _)
  refine ⟨d', ⟨Yaml.exWorkspace.pipelines, Yaml.exWorkspace.dataloaders,
    (Dict.empty.set "first" ⟨"pc_2", "data", Dict.empty⟩).set "second" ⟨"pc", "data", Dict.empty⟩⟩, h1, exDisk_reads,
    ?_, by decide +kernel, by decide +kernel, by decide +kernel, by decide +kernel⟩
  unfold reads
  rw [h2]
  decide +kernel

/-- C122, the claim is false. -/
theorem C122_not_all_or_nothing : ¬ AllOrNothing Yaml.format (exDiskEnv 7) (.clearExperiment "first") exDisk := by
  intro h
  obtain ⟨d', w', h1, h2, h3, h4, h5, -, -⟩ := C122_lost_experiment
  have hn : reads Yaml.format (onDisk Yaml.format (exDiskEnv 7) (.clearExperiment "first") exDisk).2 =
      some (.ok Yaml.exWorkspace) := by decide +kernel
  have : reads Yaml.format d' = some (.ok Yaml.exWorkspace) := by
    rcases h d' h1 with h | h
    · rw [h, h2]
    · rw [h, hn]
  rw [h3] at this
  injection this with this
  injection this with this
  rw [this, h4] at h5
  cases h5

end Crash
end Workspace
end Verif
