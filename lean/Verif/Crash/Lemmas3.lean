import Verif.Crash.Lemmas2
import Verif.Workspace.Lemmas2

/-!
# Lemmas about executing after a crash
-/

namespace Verif
namespace Workspace
namespace Crash
variable {O D H R : Type}

/-- reading gives a result or an error that `execute` catches -/
def Readable (env : Env O D H R Text) (c : Text) : Prop :=
  (∃ hs, env.decode c = .ok hs) ∨ env.decode c = .error .valueError ∨ env.decode c = .error .validationError

theorem latestFile_some {e : List Char} {d : Files Text} (h : Tidy e d.keys) {vs : List Int}
    (hv : loadVersions e d.keys = .ok vs) (hne : vs ≠ []) :
    ∃ t c, d.get? (resultName e t) = some c ∧ latestFile e d = .ok c := by
  obtain ⟨vs', h1, h2, h3⟩ := loadVersions_ok e d.keys h d.nodup_keys
  rw [hv] at h1
  cases h1
  cases vs with
  | nil => exact absurd rfl hne
  | cons v vs =>
    have hk := (h2 v).1 (by simp)
    rw [Dict.mem_keys_iff, Option.isSome_iff_exists] at hk
    obtain ⟨c, hc⟩ := hk
    refine ⟨v, c, hc, ?_⟩
    unfold latestFile
    rw [hv]
    simp only
    rw [hc]

theorem works_loaded {env : Env O D H R Text} {w : Ws O} {x : Experiment} {ref : PipelineRef} {a : Vars.Algorithm}
    (ht : ref.type ≠ .pythonModule) (ha : env.algorithm ref.type ref.reference = .ok a) (s : St O Text) :
    loadedIn env s ref = .ok a := by
  unfold loadedIn
  rw [if_neg ht, ha]

theorem changed_works [DecidableEq H] {env : Env O D H R Text} {w : Ws O} {x : Experiment} {a : Vars.Algorithm} {o : R}
    (hw : Works env w x a o) (stored : Hashes H) (s : St O Text) : ∃ b s', changed env w x stored s = (.ok b, s') := by
  obtain ⟨ref, lref, d, steps, filled, h, h1, h2, h3, h4, h5, h6, -, h8, -, h10⟩ := hw
  unfold changed
  split
  · exact ⟨_, _, rfl⟩
  · rw [PyM.bind_ok (item_eq_ok.2 ⟨h1, rfl⟩), PyM.bind_ok (load_eq_ok.2 ⟨works_loaded (w := w) (x := x) h2 h3 s, rfl⟩),
      PyM.bind_ok (lift_eq_ok.2 ⟨h4, rfl⟩)]
    split
    · exact ⟨_, _, rfl⟩
    · rw [PyM.bind_ok (build_eq_ok.2 ⟨filled, h8, rfl, rfl⟩)]
      split
      · exact ⟨_, _, rfl⟩
      · rw [PyM.bind_ok (item_eq_ok.2 ⟨h5, rfl⟩), PyM.bind_ok (lift_eq_ok.2 ⟨h6, rfl⟩), PyM.bind_ok (lift_eq_ok.2 ⟨h10, rfl⟩)]
        split
        · exact ⟨_, _, rfl⟩
        · exact ⟨_, _, rfl⟩

theorem needs_works [DecidableEq H] {env : Env O D H R Text} {w : Ws O} {n : String} {x : Experiment} {a : Vars.Algorithm} {o : R}
    (hx : w.experiments.get? n = some x) (hw : Works env w x a o) (s : St O Text)
    (ht : Tidy n.toList s.world.files.keys)
    (hr : ∀ t c, s.world.files.get? (resultName n.toList t) = some c → Readable env c) :
    ∃ b s', catchValueError (needsReexecution env w n) s = (.ok b, s') := by
  obtain ⟨vs, hv, -⟩ := loadVersions_ok n.toList _ ht s.world.files.nodup_keys
  have key : (∃ b s', needsReexecution env w n s = (.ok b, s')) ∨ (∃ s', needsReexecution env w n s = (.error .valueError, s')) ∨
      ∃ s', needsReexecution env w n s = (.error .validationError, s') := by
    unfold needsReexecution
    rw [hx]
    simp only
    rw [PyM.bind_ok (a := vs) (s' := s) (by rw [PyM.readE_run, hv])]
    by_cases he : vs = []
    · rw [if_pos he]; exact Or.inl ⟨_, _, rfl⟩
    · rw [if_neg he]
      obtain ⟨t, c, hc, hl⟩ := latestFile_some ht hv he
      rw [PyM.bind_ok (a := c) (s' := s) (by rw [PyM.readE_run, hl])]
      rcases hr t c hc with ⟨hs, h⟩ | h | h
      · rw [PyM.bind_ok (lift_eq_ok.2 ⟨h, rfl⟩)]
        exact Or.inl (changed_works hw hs s)
      · rw [h]; exact Or.inr (Or.inl ⟨_, rfl⟩)
      · rw [h]; exact Or.inr (Or.inr ⟨_, rfl⟩)
  unfold catchValueError
  rcases key with ⟨b, s', h⟩ | ⟨s', h⟩ | ⟨s', h⟩ <;> rw [h] <;> exact ⟨_, _, rfl⟩

theorem execute_works {env : Env O D H R Text} {w : Ws O} {x : Experiment} {a : Vars.Algorithm} {o : R}
    (hw : Works env w x a o) (s : St O Text) : ∃ r s', executeExperiment env w x s = (.ok r, s') ∧ r.outcome = o := by
  obtain ⟨ref, lref, d, steps, filled, h, h1, h2, h3, h4, h5, h6, h7, h8, h9, h10⟩ := hw
  exact ⟨_, _, execute_eq_ok.2 ⟨ref, a, lref, d, steps, o, h, h1, works_loaded (w := w) (x := x) h2 h3 s, h4, h5, h6, h7, h9, h10,
    rfl, rfl⟩, rfl⟩

/-- one experiment after a crash -/
theorem executeOne_works [DecidableEq H] {env : Env O D H R Text} {w : Ws O} {n : String} {x : Experiment} {a : Vars.Algorithm}
    {o : R} (hx : w.experiments.get? n = some x) (hw : Works env w x a o) (s : St O Text)
    (ht : Tidy n.toList s.world.files.keys)
    (hr : ∀ t c, s.world.files.get? (resultName n.toList t) = some c → Readable env c) :
    (UpToDate env w n x a s.world.files ∧ ∃ s', executeOne env w false (n, x) s = (.ok false, s') ∧ s'.world = s.world) ∨
    (¬ UpToDate env w n x a s.world.files ∧ ∃ r s', executeOne env w false (n, x) s = (.ok true, s') ∧ r.outcome = o ∧
      s'.world = { s.world with files := saveFile n.toList (env.now n) (env.encode r) s.world.files }) := by
  by_cases hu : UpToDate env w n x a s.world.files
  · refine Or.inl ⟨hu, ?_⟩
    obtain ⟨c, hs, g1, g2, g3⟩ := hu
    obtain ⟨ref, lref, d, steps, filled, h, h1, h2, h3, h4, h5, h6, h7, h8, h9, h10⟩ := hw
    have he := executeOne_false (env := env) (force := false) (p := (n, x)) |>.2 ⟨rfl, (needs_eq_false hx).2 ⟨c, hs, g1, g2,
      changed_eq_false.2 ⟨ref, a, filled, h1, works_loaded (w := w) (x := x) h2 h3 s, h4, h8, rfl, g3⟩⟩⟩
    exact ⟨_, he, afterBuild_world _ _ _⟩
  · refine Or.inr ⟨hu, ?_⟩
    obtain ⟨b, s1, hn⟩ := needs_works hx hw s ht hr
    have hwd : s1.world = s.world := by
      have := frameW_needs env w n s
      rw [hn] at this
      exact this
    have hb : b = true := by
      cases b with
      | true => rfl
      | false =>
        exfalso
        obtain ⟨c, hs, g1, g2, g3⟩ := (needs_eq_false hx).1 (catch_eq_false.1 hn)
        obtain ⟨ref', a', steps', k1, k2, -, -, -, k6⟩ := changed_eq_false.1 g3
        obtain ⟨ref, lref, d, steps, filled, h, h1, h2, h3, -⟩ := hw
        rw [h1] at k1
        cases k1
        rw [works_loaded (w := w) (x := x) h2 h3 s] at k2
        cases k2
        exact hu ⟨c, hs, g1, g2, k6⟩
    subst hb
    obtain ⟨r, s2, hr1, hr2⟩ := execute_works hw s1
    have hw2 := execute_world hr1
    refine ⟨r, { s2 with world := { s2.world with files := saveFile n.toList (env.now n) (env.encode r) s2.world.files } },
      ?_, hr2, ?_⟩
    · unfold executeOne
      rw [PyM.bind_ok hn, if_neg (by simp), PyM.bind_ok hr1]
      rfl
    · show ({ s2.world with files := saveFile n.toList (env.now n) (env.encode r) s2.world.files } : World O Text) = _
      rw [hw2, hwd]

/-- saving a result keeps the directory tidy -/
theorem tidy_save {d : Files Text} (h : ∀ e, Tidy e d.keys) (n : List Char) (t : Int) (c : Text) (e : List Char) :
    Tidy e (saveFile n t c d).keys := by
  intro f hf
  rw [Dict.mem_keys_iff, get_saveFile] at hf
  by_cases he : resultName n t = f
  · exact Or.inl ⟨n, t, he.symm⟩
  · rw [if_neg he, ← Dict.mem_keys_iff] at hf
    exact h e f hf

/-- all experiments after a crash -/
theorem executeAll_works [DecidableEq H] (env : Env O D H R Text) (w : Ws O)
    (alg : String → Vars.Algorithm) (out : String → R) (l : List (String × Experiment)) (hl : (l.map Prod.fst).Nodup)
    (hx : ∀ p ∈ l, w.experiments.get? p.1 = some p.2) (hw : ∀ p ∈ l, Works env w p.2 (alg p.1) (out p.1))
    (hdec : ∀ r, env.decode (env.encode r) = .ok r.hashes) (s : St O Text)
    (ht : ∀ e, Tidy e s.world.files.keys)
    (hr : ∀ e t c, s.world.files.get? (resultName e t) = some c → Readable env c) :
    ∃ s', PyM.forEach l (fun p => do let _ ← executeOne env w false p; return ()) s = (.ok (), s') ∧
      s'.world.workspace = s.world.workspace ∧ (∀ e, Tidy e s'.world.files.keys) ∧
      (∀ f, (∀ p ∈ l, ¬ UpToDate env w p.1 p.2 (alg p.1) s.world.files → f ≠ resultName p.1.toList (env.now p.1)) →
        s'.world.files.get? f = s.world.files.get? f) ∧
      ∀ p ∈ l, ¬ UpToDate env w p.1 p.2 (alg p.1) s.world.files → ∃ r, r.outcome = out p.1 ∧
        s'.world.files.get? (resultName p.1.toList (env.now p.1)) = some (env.encode r) := by
  induction l generalizing s with
  | nil => exact ⟨s, rfl, rfl, ht, fun _ _ => rfl, fun p hp => by cases hp⟩
  | cons p l ih =>
    obtain ⟨n, x⟩ := p
    rw [List.map_cons, List.nodup_cons] at hl
    have hx' := hx (n, x) (by simp)
    have hw' := hw (n, x) (by simp)
    have hne : ∀ q ∈ l, q.1 ≠ n := fun q hq he => hl.1 (List.mem_map.2 ⟨q, hq, he⟩)
    -- a step leaves the results of the other experiments alone
    have hsame : ∀ (files : Files Text), (∀ e, Tidy e files.keys) →
        (∀ e, e ≠ n.toList → ∀ t, files.get? (resultName e t) = s.world.files.get? (resultName e t)) →
        ∀ q ∈ l, (UpToDate env w q.1 q.2 (alg q.1) files ↔ UpToDate env w q.1 q.2 (alg q.1) s.world.files) := by
      intro files h1 h2 q hq
      unfold UpToDate
      rw [latestFile_congr q.1.toList s.world.files files (ht _) (h1 _) (h2 _ (toList_ne (hne q hq)))]
    rcases executeOne_works hx' hw' s (ht _) (hr _) with ⟨hu, s1, h1, h2⟩ | ⟨hu, r, s1, h1, ho, h2⟩
    · obtain ⟨s', g1, g2, g3, g4, g5⟩ := ih hl.2 (fun q hq => hx q (by simp [hq])) (fun q hq => hw q (by simp [hq])) s1
        (by rw [h2]; exact ht) (by rw [h2]; exact hr)
      rw [h2] at g2 g4 g5
      refine ⟨s', ?_, g2, g3, fun f hf => g4 f (fun q hq => hf q (by simp [hq])), fun q hq hn => ?_⟩
      · rw [PyM.forEach_cons_ok (s' := s1) (by rw [PyM.bind_ok h1]; rfl), g1]
      · rcases List.mem_cons.1 hq with rfl | hq
        · exact absurd hu hn
        · exact g5 q hq hn
    · have hfiles : s1.world.files = saveFile n.toList (env.now n) (env.encode r) s.world.files := by rw [h2]
      have hoth : ∀ e, e ≠ n.toList → ∀ t, s1.world.files.get? (resultName e t) = s.world.files.get? (resultName e t) := by
        intro e he t
        rw [hfiles, get_saveFile, if_neg (fun h => he (resultName_inj h).1.symm)]
      have ht1 : ∀ e, Tidy e s1.world.files.keys := by
        rw [hfiles]; exact tidy_save ht _ _ _
      obtain ⟨s', g1, g2, g3, g4, g5⟩ := ih hl.2 (fun q hq => hx q (by simp [hq])) (fun q hq => hw q (by simp [hq])) s1 ht1
        (fun e t c hc => by
          rw [hfiles, get_saveFile] at hc
          split at hc
          · cases hc; exact Or.inl ⟨_, hdec r⟩
          · exact hr e t c hc)
      have hs := hsame s1.world.files ht1 hoth
      refine ⟨s', ?_, by rw [g2, h2], g3, fun f hf => ?_, fun q hq hn => ?_⟩
      · rw [PyM.forEach_cons_ok (s' := s1) (by rw [PyM.bind_ok h1]; rfl), g1]
      · rw [g4 f (fun q hq hnu => hf q (by simp [hq]) (fun h => hnu ((hs q hq).2 h))), hfiles, get_saveFile,
          if_neg (fun h => hf (n, x) (by simp) hu h.symm)]
      · rcases List.mem_cons.1 hq with rfl | hq
        · refine ⟨r, ho, ?_⟩
          rw [g4 _ (fun q hq _ => fun h => toList_ne (hne q hq) (resultName_inj h).1.symm), hfiles, get_saveFile, if_pos rfl]
        · exact g5 q hq (fun h => hn ((hs q hq).1 h))

end Crash
end Workspace
end Verif
