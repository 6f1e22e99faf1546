import Verif.UI.Lemmas
import Verif.Workspace.TextLemmas

/-!
# C66: the port of the UI server
-/

namespace Verif
namespace UI

/-- C66: without `PORT` the server takes the smallest port from 8000 on that is not in use, and raises `ValueError` iff all ports
from 8000 to 65535 are in use. -/
theorem C66_port (used : Nat → Bool) :
    (∀ p : Nat, choosePort none used = .ok (p : Int) ↔
      8000 ≤ p ∧ p ≤ 65535 ∧ used p = false ∧ ∀ q, 8000 ≤ q → q < p → used q = true) ∧
    (choosePort none used = .error .valueError ↔ ∀ q, 8000 ≤ q → q ≤ 65535 → used q = true) ∧
    (∀ e, choosePort none used = .error e → e = .valueError) := by
  obtain ⟨h1, h2, h3⟩ := findPort_spec used 8000 (by omega)
  unfold choosePort
  simp only
  cases hf : findPort used 8000 with
  | error e =>
    rw [hf] at h1 h2 h3
    have he := h3 e rfl
    subst he
    exact ⟨fun p => ⟨(fun h => by cases h), (fun h => by cases (h1 p).2 h)⟩,
      ⟨fun _ => h2.1 rfl, fun _ => rfl⟩, (fun e h => by cases h; rfl)⟩
  | ok p0 =>
    rw [hf] at h1 h2 h3
    refine ⟨fun p => ?_, ⟨(fun h => by cases h), (fun h => by cases h2.2 h)⟩, (fun e h => by cases h)⟩
    rw [← h1 p]
    constructor
    · intro h
      injection h with h
      have : p0 = p := by simpa using h
      rw [this]
    · intro h
      injection h with h
      rw [h]; rfl

/-- C66, a given port: it is taken as it is, in use or not; text that is no integer raises `ValueError`, and so does `PORT` set to
the empty text. -/
theorem C66_given_port (used : Nat → Bool) :
    (∀ i, choosePort (some (Workspace.showInt i)) used = .ok i) ∧
    (∀ s, Workspace.pyInt s = none → choosePort (some s) used = .error .valueError) ∧
    choosePort (some []) used = .error .valueError := by
  refine ⟨fun i => ?_, fun s hs => ?_, rfl⟩
  · have h := Workspace.pyInt_showInt i
    cases hs : Workspace.showInt i with
    | nil => rw [hs] at h; cases h
    | cons c l =>
      rw [hs] at h
      unfold choosePort
      simp only [h]
  · cases s with
    | nil => rfl
    | cons c l =>
      unfold choosePort
      simp only [hs]

/-- C66, nothing to show: `server` raises `ValueError` if neither this nor an earlier call in the process gave it a model or a
workspace; once one was given, later calls start without arguments. -/
theorem C66_nothing_to_show {M W : Type} (g : Globals M W) (result : Option M) (workspace : Option W)
    (env : Option (List Char)) (used : Nat → Bool) :
    (result = none → workspace = none → g.model = none → g.workspace = none →
      (server g result workspace env used).2 = .error .valueError) ∧
    ((result ≠ none ∨ workspace ≠ none ∨ g.model ≠ none ∨ g.workspace ≠ none) →
      (server g result workspace env used).2 = choosePort env used ∧
      ((server g result workspace env used).1.model ≠ none ∨ (server g result workspace env used).1.workspace ≠ none)) := by
  obtain ⟨m, w⟩ := g
  unfold server
  cases m <;> cases w <;> cases result <;> cases workspace <;> simp

/-- ports 8000 and 8001 are taken -/
example : choosePort none (fun p => p < 8002) = .ok 8002 := by
  have h := (C66_port (fun p => decide (p < 8002))).1 8002
  exact h.2 ⟨by omega, by omega, by decide, (fun q _ hq => by simpa using hq)⟩

end UI
end Verif
