import Verif.Concurrent.Lemmas
import Verif.Crash.Props
import Verif.Workspace.Props

/-!
# C123, C124: processes that share a workspace directory
-/

namespace Verif
namespace Workspace
namespace Concurrent
open Crash (Text Op Op.act)
variable {O D H R C : Type}

/-! ### C123 -/

/-- C123, the two models: if the directory does not change during the request and the file can be parsed, then the answers are
those of C76. -/
theorem C123_undisturbed (decode : C → Except PyErr R) (w : Option (Ws O)) (d : Files C) (e : String) (t : Int)
    (hd : ∀ u c, d.get? (resultName e.toList u) = some c → ∃ r, decode c = .ok r) :
    (∀ code, getLatestAt decode w d d d e = .status code ↔ getLatest w d e = .status code) ∧
    (∀ r v, getLatestAt decode w d d d e = .ok (r, v) ↔ ∃ c, getLatest w d e = .ok (c, v) ∧ decode c = .ok r) ∧
    (∀ code, getExperimentAt decode w d d e t = .status code ↔ getExperiment w d e t = .status code) ∧
    (∀ r v, getExperimentAt decode w d d e t = .ok (r, v) ↔ ∃ c, getExperiment w d e t = .ok (c, v) ∧ decode c = .ok r) := by
  cases w with
  | none => simp [getLatestAt, getLatest, getExperimentAt, getExperiment]
  | some w =>
    unfold getLatestAt getLatest getExperimentAt getExperiment
    simp only
    by_cases hw : w.experiments.has e = false
    · simp [hw]
    · rw [Bool.not_eq_false] at hw
      simp only [hw, if_false, Bool.true_eq_false]
      unfold loadLatestAt loadLatest loadResultAt loadResult
      simp only [hw, if_false, Bool.true_eq_false]
      cases hv : loadVersions e.toList d.keys with
      | error err => simp
      | ok vs =>
        simp only
        refine ⟨?_, ?_, ?_, ?_⟩
        · cases vs with
          | nil => simp
          | cons v vs =>
            simp only
            cases hg : d.get? (resultName e.toList v) with
            | none => simp
            | some c =>
              obtain ⟨r, hr⟩ := hd v c hg
              simp [hr]
        · cases vs with
          | nil => simp
          | cons v vs =>
            simp only
            cases hg : d.get? (resultName e.toList v) with
            | none => simp
            | some c =>
              obtain ⟨r, hr⟩ := hd v c hg
              simp only [hr]
              intro r' v'
              constructor
              · intro h
                injection h with h
                injection h with h1 h2
                exact ⟨c, by rw [h2], by rw [hr, h1]⟩
              · rintro ⟨c', h1, h2⟩
                injection h1 with h1
                injection h1 with h1 h3
                rw [← h1, hr] at h2
                injection h2 with h2
                rw [h2, h3]
        · by_cases hm : t ∉ vs
          · simp only [if_pos hm]
            simp
          · simp only [if_neg hm]
            cases hg : d.get? (resultName e.toList t) with
            | none => simp
            | some c =>
              obtain ⟨r, hr⟩ := hd t c hg
              simp [hr]
        · by_cases hm : t ∉ vs
          · simp only [if_pos hm]
            simp
          · simp only [if_neg hm]
            cases hg : d.get? (resultName e.toList t) with
            | none => simp
            | some c =>
              obtain ⟨r, hr⟩ := hd t c hg
              simp only [hr]
              intro r' v'
              constructor
              · intro h
                injection h with h
                injection h with h1 h2
                exact ⟨c, by rw [h2], by rw [hr, h1]⟩
              · rintro ⟨c', h1, h2⟩
                injection h1 with h1
                injection h1 with h1 h3
                rw [← h1, hr] at h2
                injection h2 with h2
                rw [h2, h3]

/-- C123, a given version, whatever happens during the request: the answer is the result that this version has when it is read,
with this version number, or 400; and 400 only if the version was missing when the request began or cannot be read. -/
theorem C123_version (decode : C → Except PyErr R) (w : Ws O) (d : Files C) (changes : List (Change C)) (e : String) (t : Int)
    (he : w.experiments.get? e ≠ none) (hd : Tidy e.toList d.keys) :
    (∃ c r, d.get? (resultName e.toList t) ≠ none ∧ (after changes d).get? (resultName e.toList t) = some c ∧ decode c = .ok r ∧
      getExperimentAt decode (some w) d (after changes d) e t = .ok (r, t)) ∨
    ((d.get? (resultName e.toList t) = none ∨ (after changes d).get? (resultName e.toList t) = none ∨
        ∃ c err, (after changes d).get? (resultName e.toList t) = some c ∧ decode c = .error err) ∧
      getExperimentAt decode (some w) d (after changes d) e t = .status 400) := by
  have hw : w.experiments.has e = true := by
    unfold Dict.has
    exact Option.isSome_iff_ne_none.2 he
  obtain ⟨vs, h1, h2⟩ := mem_versions e d hd
  unfold getExperimentAt loadResultAt
  simp only [hw, h1, if_false, Bool.true_eq_false]
  by_cases hm : t ∈ vs
  · rw [if_neg (not_not.2 hm)]
    cases hg : (after changes d).get? (resultName e.toList t) with
    | none => exact Or.inr ⟨Or.inr (Or.inl rfl), rfl⟩
    | some c =>
      simp only
      cases hc : decode c with
      | error err => exact Or.inr ⟨Or.inr (Or.inr ⟨c, err, rfl, hc⟩), rfl⟩
      | ok r => exact Or.inl ⟨c, r, (h2 t).1 hm, rfl, hc, rfl⟩
  · rw [if_pos hm]
    exact Or.inr ⟨Or.inl (by_contra fun hn => hm ((h2 t).2 hn)), rfl⟩

/-- The claim of C123 for the newest result: the answer is a result together with its own version number, as stored at some
moment of the request. -/
def NewestWithItsVersion (decode : C → Except PyErr R) (w : Ws O) (d : Files C) (first second : List (Change C)) (e : String) :
    Prop :=
  ∃ r t before, before <+: first ++ second ∧ getLatestAt decode (some w) d (after first d) (after second (after first d)) e = .ok (r, t) ∧
    ∃ c, (after before d).get? (resultName e.toList t) = some c ∧ decode c = .ok r

/-- C123, the newest result, whatever happens to other experiments during the request: the answer is the newest result with its
version number. -/
theorem C123_newest_partial (decode : C → Except PyErr R) (w : Ws O) (d : Files C) (first second : List (Change C)) (e : String)
    (he : w.experiments.get? e ≠ none) (hd : Tidy e.toList d.keys) (hother : ∀ x ∈ first ++ second, x.experiment ≠ e.toList)
    (t : Int) (c : C) (r : R) (hn : IsNewest e d t c) (hr : decode c = .ok r) :
    getLatestAt decode (some w) d (after first d) (after second (after first d)) e = .ok (r, t) := by
  have hw : w.experiments.has e = true := by
    unfold Dict.has
    exact Option.isSome_iff_ne_none.2 he
  obtain ⟨vs, h1⟩ := versions_newest e d hd t c hn
  have hf : ∀ u, (after first d).get? (resultName e.toList u) = d.get? (resultName e.toList u) :=
    after_other _ _ _ fun x hx => hother x (by simp [hx])
  have hs : ∀ u, (after second (after first d)).get? (resultName e.toList u) = d.get? (resultName e.toList u) := by
    intro u
    rw [after_other _ _ _ (fun x hx => hother x (by simp [hx])), hf]
  obtain ⟨vs', h2⟩ := versions_newest e (after second (after first d)) (tidy_after _ _ _ (tidy_after _ _ _ hd)) t c
    ⟨by rw [hs]; exact hn.1, fun u hu => hn.2 u (by rw [hs] at hu; exact hu)⟩
  unfold getLatestAt loadLatestAt
  simp only [hw, h1, if_false, Bool.true_eq_false, hf, hn.1, hr, h2]

/-- C123, a result is saved after the newest one was read: the answer is the old result with the version number of the new
one. -/
theorem C123_saved_meanwhile (decode : C → Except PyErr R) (w : Ws O) (d : Files C) (e : String)
    (he : w.experiments.get? e ≠ none) (hd : Tidy e.toList d.keys) (t : Int) (c : C) (r : R) (hn : IsNewest e d t c)
    (hr : decode c = .ok r) (u : Int) (hu : t < u) (new : C) :
    getLatestAt decode (some w) d (after [] d) (after [.write e.toList u new] (after [] d)) e = .ok (r, u) := by
  have hw : w.experiments.has e = true := by
    unfold Dict.has
    exact Option.isSome_iff_ne_none.2 he
  obtain ⟨vs, h1⟩ := versions_newest e d hd t c hn
  have hg : ∀ v, (after [.write e.toList u new] (after [] d)).get? (resultName e.toList v) =
      if v = u then some new else d.get? (resultName e.toList v) := by
    intro v
    show (Dict.set d (resultName e.toList u) new).get? _ = _
    rw [Dict.get?_set]
    by_cases hv : v = u
    · rw [if_pos hv, hv, if_pos rfl]
    · rw [if_neg hv, if_neg fun h => hv (resultName_inj h).2.symm]
  obtain ⟨vs', h2⟩ := versions_newest e (after [.write e.toList u new] (after [] d)) (tidy_after _ _ _ (tidy_after _ _ _ hd)) u new
    ⟨by rw [hg, if_pos rfl], fun v hv => by
      rw [hg] at hv
      by_cases h : v = u
      · omega
      · rw [if_neg h] at hv
        have := hn.2 v hv
        omega⟩
  unfold getLatestAt loadLatestAt
  have hsame : (after [] d).get? (resultName e.toList t) = some c := hn.1
  simp only [hw, h1, if_false, Bool.true_eq_false, hsame, hr, h2]

/-- C123, the results are cleared after the newest one was read: the server raises IndexError. -/
theorem C123_cleared_meanwhile (decode : C → Except PyErr R) (w : Ws O) (d : Files C) (e : String)
    (he : w.experiments.get? e ≠ none) (hd : Tidy e.toList d.keys) (t : Int) (c : C) (r : R) (hn : IsNewest e d t c)
    (hr : decode c = .ok r) (second : List (Change C)) (hc : ∀ u, (after second d).get? (resultName e.toList u) = none) :
    getLatestAt decode (some w) d (after [] d) (after second (after [] d)) e = .raised .indexError := by
  have hw : w.experiments.has e = true := by
    unfold Dict.has
    exact Option.isSome_iff_ne_none.2 he
  obtain ⟨vs, h1⟩ := versions_newest e d hd t c hn
  have h2 := versions_none e (after second (after [] d)) (tidy_after _ _ _ (tidy_after _ _ _ hd)) hc
  unfold getLatestAt loadLatestAt
  have hsame : (after [] d).get? (resultName e.toList t) = some c := hn.1
  simp only [hw, h1, if_false, Bool.true_eq_false, hsame, hr, h2]

/-- C123, the newest result is being written, or was cut off when an execution was killed: the answer is 400, whatever older
results there are. -/
theorem C123_cut_off (decode : C → Except PyErr R) (w : Ws O) (d again : Files C) (e : String)
    (he : w.experiments.get? e ≠ none) (hd : Tidy e.toList d.keys) (t : Int) (c : C) (err : PyErr) (hn : IsNewest e d t c)
    (hr : decode c = .error err) : getLatestAt decode (some w) d d again e = .status 400 := by
  have hw : w.experiments.has e = true := by
    unfold Dict.has
    exact Option.isSome_iff_ne_none.2 he
  obtain ⟨vs, h1⟩ := versions_newest e d hd t c hn
  unfold getLatestAt loadLatestAt
  simp only [hw, h1, if_false, Bool.true_eq_false, hn.1, hr]

/-- a directory with the results of the seconds 5 and 7 of `e`, and a result of `f` -/
def exFiles : Files (Option Nat) :=
  ((Dict.empty.set (resultName "e".toList 5) (some 50)).set (resultName "e".toList 7) (some 70)).set (resultName "f".toList 9) (some 90)

/-- contents that are cut off are `none` -/
def exParse : Option Nat → Except PyErr Nat
  | none => .error .valueError
  | some n => .ok n

def exServed : Ws Unit := ⟨Dict.empty, Dict.empty, (Dict.empty.set "e" ⟨"p", "d", Dict.empty⟩).set "f" ⟨"p", "d", Dict.empty⟩⟩

theorem exFiles_keys (f : List Char) (h : f ∈ exFiles.keys) :
    f = resultName "e".toList 5 ∨ f = resultName "e".toList 7 ∨ f = resultName "f".toList 9 := by
  have hk : exFiles.keys = [resultName "e".toList 5, resultName "e".toList 7, resultName "f".toList 9] := by decide +kernel
  rw [hk] at h
  simpa using h

theorem exFiles_tidy (e : List Char) : Tidy e exFiles.keys := by
  intro f hf
  rcases exFiles_keys f hf with h | h | h
  · exact Or.inl ⟨_, _, h⟩
  · exact Or.inl ⟨_, _, h⟩
  · exact Or.inl ⟨_, _, h⟩

theorem exFiles_newest : IsNewest "e" exFiles 7 (some 70) := by
  refine ⟨by decide +kernel, fun u hu => ?_⟩
  have hm := (Dict.mem_keys_iff _ _).2 (Option.isSome_iff_ne_none.2 hu)
  rcases exFiles_keys _ hm with h | h | h
  · have := (resultName_inj h).2
    omega
  · have := (resultName_inj h).2
    omega
  · exact absurd (resultName_inj h).1 (by decide)

/-- the hypotheses of `C123_newest_partial`: the result of `f` disappears during the request -/
example : getLatestAt exParse (some exServed) exFiles (after [.remove "f".toList 9] exFiles)
    (after [.write "f".toList 11 (some 1)] (after [.remove "f".toList 9] exFiles)) "e" = .ok (70, 7) :=
  C123_newest_partial exParse exServed exFiles _ _ "e" (by decide +kernel) (exFiles_tidy _) (by decide +kernel) 7 (some 70) 70
    exFiles_newest rfl

/-- the hypotheses of `C123_version`: the version is cleared during the request -/
example : getExperimentAt exParse (some exServed) exFiles (after [.remove "e".toList 5] exFiles) "e" 5 = .status 400 := by
  rcases C123_version exParse exServed exFiles [.remove "e".toList 5] "e" 5 (by decide +kernel) (exFiles_tidy _) with
    ⟨c, r, -, h, -⟩ | ⟨-, h⟩
  · have : (after [.remove "e".toList 5] exFiles).get? (resultName "e".toList 5) = none := by decide +kernel
    rw [this] at h
    cases h
  · exact h

/-- C123, the claim is false: the result of second 7 is answered with the version 9, which never had it; and no result is
answered if the results are cleared. -/
theorem C123_not_its_version :
    ¬ NewestWithItsVersion exParse exServed exFiles [] [.write "e".toList 9 (some 99)] "e" ∧
    ¬ NewestWithItsVersion exParse exServed exFiles [] [.remove "e".toList 7, .remove "e".toList 5] "e" := by
  constructor
  · rintro ⟨r, t, before, hb, ha, c, hc, hr⟩
    rw [C123_saved_meanwhile exParse exServed exFiles "e" (by decide +kernel) (exFiles_tidy _) 7 (some 70) 70 exFiles_newest rfl 9
      (by decide) (some 99)] at ha
    injection ha with ha
    injection ha with h1 h2
    subst h1 h2
    have : before = [] ∨ before = [.write "e".toList 9 (some 99)] := by
      rcases before with _ | ⟨x, _ | ⟨y, l⟩⟩
      · exact Or.inl rfl
      · right
        have := List.prefix_cons_iff.1 hb
        simpa using hb
      · have := hb.length_le
        simp at this
    rcases this with rfl | rfl
    · have : (after [] exFiles).get? (resultName "e".toList 9) = none := by decide +kernel
      rw [this] at hc
      cases hc
    · have : (after [Change.write "e".toList 9 (some 99)] exFiles).get? (resultName "e".toList 9) = some (some 99) := by
        decide +kernel
      rw [this] at hc
      cases hc
      cases hr
  · rintro ⟨r, t, before, hb, ha, c, hc, hr⟩
    rw [C123_cleared_meanwhile exParse exServed exFiles "e" (by decide +kernel) (exFiles_tidy _) 7 (some 70) 70 exFiles_newest rfl
      [.remove "e".toList 7, .remove "e".toList 5] ?_] at ha
    · cases ha
    · intro u
      show (Dict.del (Dict.del exFiles (resultName "e".toList 7)) (resultName "e".toList 5)).get? _ = none
      rw [Dict.get?_del, Dict.get?_del]
      split
      · rfl
      · split
        · rfl
        · rename_i h5 h7
          by_contra hn
          have hm := (Dict.mem_keys_iff _ _).2 (Option.isSome_iff_ne_none.2 hn)
          rcases exFiles_keys _ hm with h | h | h
          · exact h5 h.symm
          · exact h7 h.symm
          · exact absurd (resultName_inj h).1 (by decide)

/-! ### C124 -/

/-- C124: whatever commands run at the same time, and wherever some of them end early, the workspace they leave is one that some
of them would have left one after the other.  (The others are lost.) -/
theorem C124_some_sequence_partial [DecidableEq H] (allowed : Cmd → Prop) (world : World O Text) (s : Sys O)
    (h : Steps D H R allowed ⟨world, []⟩ s) : Sequence D H R allowed world.workspace s.world.workspace := by
  refine (has_steps (P := Sequence D H R allowed world.workspace) ?_ h ⟨.nothing, fun _ h => by cases h⟩).1
  intro env c w hc hw
  exact .run hw env c hc w.files

/-- C124, references: every experiment's pipeline and data loader exist, whatever commands run at the same time. -/
theorem C124_intact [DecidableEq H] (allowed : Cmd → Prop) (world : World O Text) (hi : ∀ w, world.workspace = some w → Intact w)
    (s : Sys O) (h : Steps D H R allowed ⟨world, []⟩ s) (w : Ws O) (hw : s.world.workspace = some w) : Intact w := by
  refine (has_steps (P := fun o => ∀ w, o = some w → Intact w) ?_ h ⟨hi, fun _ h => by cases h⟩).1 w hw
  intro env c v _ hv w hw
  exact C61_intact [(env, c)] v hv w hw

/-- C124, executions: if no other command is started while a command is in progress but `execute`, then the workspace is the old
one or the one that the command leaves alone. -/
theorem C124_with_executions [DecidableEq H] (env : Env O D H R Text) (c : Cmd) (world : World O Text) (s : Sys O)
    (h : Steps D H R (fun c => ∃ n f, c = .execute n f) ⟨world, [operations env c world]⟩ s) :
    s.world.workspace = world.workspace ∨ s.world.workspace = (c.run env world).2.workspace := by
  refine (has_steps (P := fun o => o = world.workspace ∨ o = (c.run env world).2.workspace) ?_ h ⟨Or.inl rfl, ?_⟩).1
  · rintro env' _ w ⟨n, f, rfl⟩ hw
    have : ((Cmd.execute n f).run env' w).2.workspace = w.workspace := by
      rw [run_operations]
      have key : ∀ (ops : List (Op O)) (x : World O Text), (∀ i v, Op.writeWorkspace i v ∉ ops) →
          (ops.foldl (fun x op => op.act x) x).workspace = x.workspace := by
        intro ops
        induction ops with
        | nil => exact fun _ _ => rfl
        | cons op ops ih =>
          intro x hx
          rw [List.foldl_cons, ih _ fun i v hm => hx i v (by simp [hm])]
          cases op with
          | writeWorkspace i v => exact absurd (by simp) (hx i v)
          | writeResult e t c => rfl
          | remove e t => rfl
      exact key _ _ (operations_execute env' n f w)
    rw [this]
    exact hw
  · intro ops ho i w hw
    rw [List.mem_singleton] at ho
    subst ho
    exact Or.inr (operations_written env c world i w hw).symm

/-- C124, a clearing command undoes what overlaps it: it writes the workspace as it was when it was started, so that everything
another command did to the workspace in between is lost. -/
theorem C124_clear_undoes [DecidableEq H] (env env' : Env O D H R Text) (world : World O Text) (w : Ws O)
    (hw : world.workspace = some w) (n : String) (hn : w.experiments.has n = true) (ht : Tidy n.toList world.files.keys) (c : Cmd) :
    ∃ s t, Steps D H R (fun c' => c' = .clearExperiment n ∨ c' = c) ⟨world, []⟩ s ∧
      s.world.workspace = (c.run env' world).2.workspace ∧
      Steps D H R (fun c' => c' = .clearExperiment n ∨ c' = c) s t ∧ t.pending = [[], []] ∧ t.world.workspace = some w := by
  obtain ⟨vs, hv⟩ := operations_clear env n world w hw hn ht
  have h1 : Steps D H R (fun c' => c' = .clearExperiment n ∨ c' = c) ⟨world, []⟩
      ⟨world, [operations env (.clearExperiment n) world, operations env' c world]⟩ :=
    .step (.start env (.clearExperiment n) world.files _ (Or.inl rfl)) (.step (.start env' c world.files _ (Or.inr rfl)) (.refl _))
  have h2 := steps_all (D := D) (H := H) (R := R) (allowed := fun c' => c' = .clearExperiment n ∨ c' = c)
    [operations env (.clearExperiment n) world] [] (operations env' c world) world
  rw [← run_operations] at h2
  have h3 := steps_all (D := D) (H := H) (R := R) (allowed := fun c' => c' = .clearExperiment n ∨ c' = c)
    [] [[]] (operations env (.clearExperiment n) world) (c.run env' world).2
  refine ⟨_, _, steps_trans h1 h2, rfl, h3, rfl, ?_⟩
  rw [hv, List.foldl_append]
  rfl

/-- the directory of `Crash.exDisk` -/
def exShared : World Unit Text := ⟨some Crash.Yaml.exWorkspace, Crash.exDisk.files⟩

theorem exShared_tidy (e : List Char) : Tidy e exShared.files.keys := fun _ hf => Or.inl ⟨_, _, List.mem_singleton.1 hf⟩

/-- a data loader is added -/
def exAdd : Cmd := .addLoader ⟨.json, "more", "more.json"⟩

/-- C124, the claim is false: `clear` and adding a data loader at the same time, with both commands finished, may leave the
workspace without the loader. -/
theorem C124_not_one_after_the_other :
    ∃ s : Sys Unit, Steps Unit Bool Bool (fun c => c = .clearExperiment "first" ∨ c = exAdd) ⟨exShared, []⟩ s ∧ s.pending = [[], []] ∧
      ¬ OneAfterTheOther (Crash.exDiskEnv 7) (Crash.exDiskEnv 7) (.clearExperiment "first") exAdd exShared s.world.workspace := by
  obtain ⟨s, t, h1, -, h3, h4, h5⟩ := C124_clear_undoes (Crash.exDiskEnv 7) (Crash.exDiskEnv 7) exShared Crash.Yaml.exWorkspace rfl
    "first" (by decide +kernel) (exShared_tidy _) exAdd
  refine ⟨t, steps_trans h1 h3, h4, ?_⟩
  have h6 : (runAll [(Crash.exDiskEnv 7, Cmd.clearExperiment "first"), (Crash.exDiskEnv 7, exAdd)] exShared).workspace ≠
      some Crash.Yaml.exWorkspace := by decide +kernel
  have h7 : (runAll [(Crash.exDiskEnv 7, exAdd), (Crash.exDiskEnv 7, Cmd.clearExperiment "first")] exShared).workspace ≠
      some Crash.Yaml.exWorkspace := by decide +kernel
  rw [h5]
  rintro (h | h)
  · exact h6 h.symm
  · exact h7 h.symm

/-- the hypotheses of `C124_intact` -/
example : ∀ w, exShared.workspace = some w → Intact w := by
  intro w hw
  cases hw
  intro n x hx
  have hm := (Dict.mem_items_iff _ _ _).2 hx
  have hi : Crash.Yaml.exWorkspace.experiments.items = [("first", ⟨"pc_2", "data", Dict.empty⟩),
    ("second", ⟨"pc_2", "data", Dict.empty⟩), ("third", ⟨"pc", "data", Dict.empty⟩)] := by decide +kernel
  rw [hi] at hm
  simp only [List.mem_cons, Prod.mk.injEq, List.not_mem_nil, or_false] at hm
  rcases hm with ⟨rfl, rfl⟩ | ⟨rfl, rfl⟩ | ⟨rfl, rfl⟩ <;> decide +kernel

/-- a run as in `C124_with_executions`: an execution is started while a loader is added -/
example : ∃ s, Steps Unit Bool Bool (fun c => ∃ n f, c = .execute n f)
    ⟨exShared, [operations (Crash.exDiskEnv 7) exAdd exShared]⟩ s ∧ s.world.workspace ≠ exShared.workspace := by
  have h1 := Step.start (Crash.exDiskEnv 7) (.execute none false) exShared.files
    ⟨exShared, [operations (Crash.exDiskEnv 7) exAdd exShared]⟩ (allowed := fun c => ∃ n f, c = .execute n f) ⟨none, false, rfl⟩
  have h2 := steps_all (D := Unit) (H := Bool) (R := Bool) (allowed := fun c => ∃ n f, c = .execute n f) []
    [operations (Crash.exDiskEnv 7) (.execute none false) ⟨exShared.workspace, exShared.files⟩]
    (operations (Crash.exDiskEnv 7) exAdd exShared) exShared
  refine ⟨_, .step h1 h2, ?_⟩
  rw [← run_operations]
  decide +kernel

end Concurrent
end Workspace
end Verif
