import Verif.UI.Model

/-!
# Lemmas about the search for a port
-/

namespace Verif
namespace UI

/-- the search from any port -/
theorem findPort_spec (used : Nat → Bool) (port : Nat) (hp : port ≤ 65535) :
    (∀ p, findPort used port = .ok p ↔
      port ≤ p ∧ p ≤ 65535 ∧ used p = false ∧ ∀ q, port ≤ q → q < p → used q = true) ∧
    (findPort used port = .error .valueError ↔ ∀ q, port ≤ q → q ≤ 65535 → used q = true) ∧
    (∀ e, findPort used port = .error e → e = .valueError) := by
  rw [findPort]
  by_cases hu : used port = true
  · rw [if_pos hu]
    by_cases hl : port + 1 > 65535
    · rw [if_pos hl]
      have hpe : port = 65535 := by omega
      subst hpe
      refine ⟨fun p => ⟨(fun h => by cases h), fun ⟨h1, h2, h3, _⟩ => ?_⟩, ⟨fun _ q h1 h2 => ?_, fun _ => rfl⟩,
        (fun e h => by cases h; rfl)⟩
      · rw [show p = 65535 by omega, hu] at h3; cases h3
      · rw [show q = 65535 by omega]; exact hu
    · rw [if_neg hl]
      obtain ⟨h1, h2, h3⟩ := findPort_spec used (port + 1) (by omega)
      refine ⟨fun p => ?_, ?_, h3⟩
      · rw [h1]
        constructor
        · rintro ⟨a, b, c, d⟩
          refine ⟨by omega, b, c, fun q hq hq' => ?_⟩
          by_cases he : q = port
          · rw [he]; exact hu
          · exact d q (by omega) hq'
        · rintro ⟨a, b, c, d⟩
          have : p ≠ port := by
            rintro rfl
            rw [hu] at c; cases c
          exact ⟨by omega, b, c, fun q hq hq' => d q (by omega) hq'⟩
      · rw [h2]
        constructor
        · intro h q hq hq'
          by_cases he : q = port
          · rw [he]; exact hu
          · exact h q (by omega) hq'
        · exact fun h q hq hq' => h q (by omega) hq'
  · rw [if_neg hu]
    have hu' : used port = false := by simpa using hu
    refine ⟨fun p => ?_, ⟨(fun h => by cases h), fun h => absurd (h port (le_refl _) hp) hu⟩, (fun e h => by cases h)⟩
    constructor
    · intro h
      cases h
      exact ⟨le_refl _, hp, hu', (fun q h1 h2 => by omega)⟩
    · rintro ⟨a, b, c, d⟩
      by_cases he : p = port
      · rw [he]
      · exact absurd (d port (le_refl _) (by omega)) hu
termination_by 65536 - port

end UI
end Verif
