import Verif.Orient.Lemmas5

/-!
# Helper lemmas: the batch of proposals of the collider test
-/

namespace Verif
open Graph CI
variable {ι ρ δ : Type} [DecidableEq ι]

namespace Orient

theorem LocOK.nil (g : CGraph ι ρ) : LocOK g [] := ⟨trivial, by simp, by simp⟩

theorem LocOK.notes {g : CGraph ι ρ} {M E : List (CResult ι ρ)} (h : LocOK g M) (hE : ∀ r ∈ E, r.action = .doNothing) :
    LocOK g (M ++ E) := by
  have hd : ∀ a b, dead (fun _ _ => false) (M ++ E) a b = dead (fun _ _ => false) M a b := by
    intro a b
    rw [dead_append]
    exact dead_untouched _ _ _ _ (fun r hr _ _ => by rw [hE r hr]; exact ⟨by decide, by decide⟩)
  refine ⟨(good_append _ _ _).2 ⟨h.good, good_notes _ _ hE⟩, ?_, ?_⟩
  · intro r hr hn
    rcases List.mem_append.1 hr with hr | hr
    · exact h.live r hr hn
    · exact absurd (hE r hr) hn
  · intro r hr hn
    rw [hd, hd]
    rcases List.mem_append.1 hr with hr | hr
    · exact h.touched r hr hn
    · exact absurd (hE r hr) hn

theorem LocOK.cuts {g : CGraph ι ρ} {M R : List (CResult ι ρ)} {x y z : ι} (h : LocOK g M)
    (hxz : g.live x z = true ∧ g.live z x = true) (hyz : g.live y z = true ∧ g.live z y = true)
    (hx : x ≠ z) (hy : y ≠ z)
    (hR : ∀ r ∈ R, r.action = .restoreEdgeDirected ∧ (r.u = x ∨ r.u = y) ∧ r.v = z)
    (hr : ∀ r ∈ M, r.action = .removeEdgeDirected → (r.u = x ∨ r.u = y) → r.v = z →
      ∃ r' ∈ R, r'.u = r.u ∧ r'.v = r.v) :
    LocOK g (M ++ (R ++ [cut z x, cut z y])) := by
  have hclear : ∀ w, (w = x ∨ w = y) → dead (fun _ _ => false) (M ++ R) w z = false := by
    intro w hw
    by_cases hex : ∃ r ∈ M, r.action = .removeEdgeDirected ∧ r.u = w ∧ r.v = z
    · obtain ⟨r, h1, h2, rfl, rfl⟩ := hex
      obtain ⟨r', h3, h4, h5⟩ := hr r h1 h2 hw rfl
      rw [dead_append]
      exact dead_restored _ _ _ _ (fun r'' h'' _ _ => by rw [(hR r'' h'').1]; decide) ⟨r', h3, h4, h5, (hR r' h3).1⟩
    · cases hx' : dead (fun _ _ => false) (M ++ R) w z with
      | false => rfl
      | true =>
        refine absurd (dead_le _ _ _ _ ?_ hx') (by simp)
        intro r hrm h1 h2 h3
        rcases List.mem_append.1 hrm with hrm | hrm
        · exact hex ⟨r, hrm, h3, h1, h2⟩
        · rw [(hR r hrm).1] at h3; cases h3
  have hfin : ∀ d : ι → ι → Bool, dead d [cut (ρ := ρ) z x, cut z y] z x = true ∧ dead d [cut (ρ := ρ) z x, cut z y] z y = true := by
    intro d
    constructor
    · simp [dead, upd, cut]
    · simp [dead, upd, cut]
  have hzx : dead (fun _ _ => false) (M ++ (R ++ [cut z x, cut z y])) z x = true := by
    rw [dead_append, dead_append]; exact (hfin _).1
  have hzy : dead (fun _ _ => false) (M ++ (R ++ [cut z x, cut z y])) z y = true := by
    rw [dead_append, dead_append]; exact (hfin _).2
  refine ⟨?_, ?_, ?_⟩
  · rw [good_append, good_append]
    refine ⟨h.good, good_restores _ _ (fun r hr => (hR r hr).1), Or.inr (Or.inr ⟨rfl, ?_⟩),
      Or.inr (Or.inr ⟨rfl, ?_⟩), trivial⟩
    · show dead (dead _ M) R x z = false
      rw [← dead_append]; exact hclear x (Or.inl rfl)
    · show upd _ (cut z x) y z = false
      unfold upd
      rw [if_neg (by simp only [cut]; rintro ⟨h1, _⟩; exact hy h1.symm)]
      rw [← dead_append]; exact hclear y (Or.inr rfl)
  · intro r hr hn
    rcases List.mem_append.1 hr with hr | hr
    · exact h.live r hr hn
    rcases List.mem_append.1 hr with hr | hr
    · obtain ⟨_, h1 | h1, h2⟩ := hR r hr
      · rw [h1, h2]; exact hxz
      · rw [h1, h2]; exact hyz
    · simp only [List.mem_cons, List.not_mem_nil, or_false] at hr
      rcases hr with rfl | rfl
      · exact hxz.symm
      · exact hyz.symm
  · intro r hr hn
    by_cases hp : (r.u = z ∧ (r.v = x ∨ r.v = y)) ∨ (r.v = z ∧ (r.u = x ∨ r.u = y))
    · rcases hp with ⟨h1, h2 | h2⟩ | ⟨h1, h2 | h2⟩
      · left; rw [h1, h2]; exact hzx
      · left; rw [h1, h2]; exact hzy
      · right; rw [h1, h2]; exact hzx
      · right; rw [h1, h2]; exact hzy
    · have hM : r ∈ M := by
        rcases List.mem_append.1 hr with hr | hr
        · exact hr
        exfalso
        apply hp
        rcases List.mem_append.1 hr with hr | hr
        · exact Or.inr ⟨(hR r hr).2.2, (hR r hr).2.1⟩
        · simp only [List.mem_cons, List.not_mem_nil, or_false] at hr
          rcases hr with rfl | rfl
          · exact Or.inl ⟨rfl, Or.inl rfl⟩
          · exact Or.inl ⟨rfl, Or.inr rfl⟩
      have key : ∀ a b, ¬ ((a = z ∧ (b = x ∨ b = y)) ∨ (b = z ∧ (a = x ∨ a = y))) →
          dead (fun _ _ => false) (M ++ (R ++ [cut z x, cut z y])) a b = dead (fun _ _ => false) M a b := by
        intro a b hab
        rw [dead_append]
        apply dead_untouched
        intro r' hr' ha hb
        exfalso
        apply hab
        rcases List.mem_append.1 hr' with hr' | hr'
        · obtain ⟨_, h1, h2⟩ := hR r' hr'
          rw [ha] at h1; rw [hb] at h2
          exact Or.inr ⟨h2, h1⟩
        · simp only [List.mem_cons, List.not_mem_nil, or_false] at hr'
          rcases hr' with rfl | rfl
          · exact Or.inl ⟨ha.symm, Or.inl hb.symm⟩
          · exact Or.inl ⟨ha.symm, Or.inr hb.symm⟩
      rw [key _ _ hp, key _ _ (by rintro (h' | h') <;> [exact hp (Or.inr h'); exact hp (Or.inl h')])]
      exact h.touched r hM hn

omit [DecidableEq ι] in
theorem mem_colliderAt {st : Strategy} {x y z : ι} {xz yz : List (CResult ι ρ)} {r : CResult ι ρ}
    (hxz : ∀ r ∈ xz, r.u = x ∧ r.v = z) (hyz : ∀ r ∈ yz, r.u = y ∧ r.v = z)
    (h : r ∈ colliderAt st x y z xz yz) : (r.u = z ∧ (r.v = x ∨ r.v = y)) ∨ (r.v = z ∧ (r.u = x ∨ r.u = y)) := by
  unfold colliderAt at h
  split at h
  · cases st with
    | keepFirst =>
      simp only [List.mem_append] at h
      rcases h with h | h
      · split at h
        · rw [List.mem_singleton] at h; subst h; exact Or.inl ⟨rfl, Or.inr rfl⟩
        · cases h
      · split at h
        · rw [List.mem_singleton] at h; subst h; exact Or.inl ⟨rfl, Or.inl rfl⟩
        · cases h
    | keepLast =>
      simp only [List.mem_append, List.mem_singleton] at h
      rcases h with ((h | h) | rfl) | rfl
      · obtain ⟨_, r', h1, _, h2, h3⟩ := mem_restores h
        rw [h2, h3, (hxz r' h1).1, (hxz r' h1).2]
        exact Or.inr ⟨rfl, Or.inl rfl⟩
      · obtain ⟨_, r', h1, _, h2, h3⟩ := mem_restores h
        rw [h2, h3, (hyz r' h1).1, (hyz r' h1).2]
        exact Or.inr ⟨rfl, Or.inr rfl⟩
      · exact Or.inl ⟨rfl, Or.inl rfl⟩
      · exact Or.inl ⟨rfl, Or.inr rfl⟩
    | other => cases h
  · simp only [List.mem_cons, List.not_mem_nil, or_false] at h
    rcases h with rfl | rfl
    · exact Or.inl ⟨rfl, Or.inl rfl⟩
    · exact Or.inl ⟨rfl, Or.inr rfl⟩

theorem LocOK.at {g : CGraph ι ρ} {M : List (CResult ι ρ)} {x y z : ι} (h : LocOK g M) (st : Strategy)
    (hxz : g.live x z = true ∧ g.live z x = true) (hyz : g.live y z = true ∧ g.live z y = true)
    (hx : x ≠ z) (hy : y ≠ z) (xz yz : List (CResult ι ρ))
    (hX : ∀ r, r ∈ xz ↔ r ∈ M ∧ r.u = x ∧ r.v = z) (hY : ∀ r, r ∈ yz ↔ r ∈ M ∧ r.u = y ∧ r.v = z) :
    LocOK g (M ++ colliderAt st x y z xz yz) := by
  have hnil : ∀ l : List (CResult ι ρ), ∀ w, (∀ r, r ∈ l ↔ r ∈ M ∧ r.u = w ∧ r.v = z) → l = [] →
      ∀ r ∈ M, r.u = w → r.v = z → False := by
    rintro l w hl rfl r hr h1 h2
    cases (hl r).2 ⟨hr, h1, h2⟩
  unfold colliderAt
  split
  · cases st with
    | keepFirst =>
      apply h.notes
      intro r hr
      simp only [List.mem_append] at hr
      rcases hr with hr | hr
      · split at hr
        · rw [List.mem_singleton] at hr; subst hr; rfl
        · cases hr
      · split at hr
        · rw [List.mem_singleton] at hr; subst hr; rfl
        · cases hr
    | keepLast =>
      have := h.cuts (R := restores xz ++ restores yz) hxz hyz hx hy ?_ ?_
      · simpa [List.append_assoc] using this
      · intro r hr
        rcases List.mem_append.1 hr with hr | hr
        · obtain ⟨h0, r', h1, _, h2, h3⟩ := mem_restores hr
          obtain ⟨_, h4, h5⟩ := (hX r').1 h1
          exact ⟨h0, Or.inl (h2.trans h4), h3.trans h5⟩
        · obtain ⟨h0, r', h1, _, h2, h3⟩ := mem_restores hr
          obtain ⟨_, h4, h5⟩ := (hY r').1 h1
          exact ⟨h0, Or.inr (h2.trans h4), h3.trans h5⟩
      · intro r hr ha hu hv
        refine ⟨undo r.u r.v, ?_, rfl, rfl⟩
        rcases hu with hu | hu
        · refine List.mem_append_left _ (List.mem_map.2 ⟨r, List.mem_filter.2 ⟨(hX r).2 ⟨hr, hu, hv⟩, by simp [ha]⟩, rfl⟩)
        · refine List.mem_append_right _ (List.mem_map.2 ⟨r, List.mem_filter.2 ⟨(hY r).2 ⟨hr, hu, hv⟩, by simp [ha]⟩, rfl⟩)
    | other => simpa using h
  · rename_i hc
    simp only [Bool.or_eq_true, Bool.not_eq_true', not_or, Bool.not_eq_false, List.isEmpty_iff] at hc
    have := h.cuts (R := []) hxz hyz hx hy (by simp) ?_
    · simpa using this
    · intro r hr ha hu hv
      rcases hu with hu | hu
      · exact (hnil xz x hX hc.2 r hr hu hv).elim
      · exact (hnil yz y hY hc.1 r hr hu hv).elim

theorem LocOK.call {g : CGraph ι ρ} {x y : ι} (st : Strategy) (xz yz : ι → List (CResult ι ρ)) (zs : List ι)
    (hnd : zs.Nodup)
    (hz : ∀ z ∈ zs, (g.live x z = true ∧ g.live z x = true) ∧ (g.live y z = true ∧ g.live z y = true) ∧ x ≠ z ∧ y ≠ z) :
    ∀ M : List (CResult ι ρ), LocOK g M →
      (∀ z ∈ zs, ∀ r, r ∈ xz z ↔ r ∈ M ∧ r.u = x ∧ r.v = z) → (∀ z ∈ zs, ∀ r, r ∈ yz z ↔ r ∈ M ∧ r.u = y ∧ r.v = z) →
      LocOK g (M ++ zs.flatMap (fun z => colliderAt st x y z (xz z) (yz z))) := by
  induction zs with
  | nil => intro M h _ _; simpa using h
  | cons z zs ih =>
    intro M h hX hY
    obtain ⟨h1, h2, h3, h4⟩ := hz z List.mem_cons_self
    have hX0 := hX z List.mem_cons_self
    have hY0 := hY z List.mem_cons_self
    rw [List.flatMap_cons, ← List.append_assoc]
    rw [List.nodup_cons] at hnd
    have hmem : ∀ z' ∈ zs, ∀ w, (w = x ∨ w = y) → ∀ r ∈ colliderAt st x y z (xz z) (yz z), ¬ (r.u = w ∧ r.v = z') := by
      intro z' hz' w hw r hr ⟨hu, hv⟩
      have hne : z' ≠ z := fun h => hnd.1 (h ▸ hz')
      rcases mem_colliderAt (fun r hr => ((hX0 r).1 hr).2) (fun r hr => ((hY0 r).1 hr).2) hr with ⟨ha, _⟩ | ⟨ha, _⟩
      · rw [hu] at ha
        rcases hw with rfl | rfl
        · exact h3 ha
        · exact h4 ha
      · exact hne (hv.symm.trans ha)
    apply ih hnd.2 (fun z' hz' => hz z' (List.mem_cons_of_mem _ hz')) _ (h.at st h1 h2 h3 h4 _ _ hX0 hY0)
    · intro z' hz' r
      rw [hX z' (List.mem_cons_of_mem _ hz') r, List.mem_append]
      constructor
      · rintro ⟨a, b⟩; exact ⟨Or.inl a, b⟩
      · rintro ⟨a | a, b⟩
        · exact ⟨a, b⟩
        · exact (hmem z' hz' x (Or.inl rfl) r a b).elim
    · intro z' hz' r
      rw [hY z' (List.mem_cons_of_mem _ hz') r, List.mem_append]
      constructor
      · rintro ⟨a, b⟩; exact ⟨Or.inl a, b⟩
      · rintro ⟨a | a, b⟩
        · exact ⟨a, b⟩
        · exact (hmem z' hz' y (Or.inr rfl) r a b).elim

end Orient
end Verif
