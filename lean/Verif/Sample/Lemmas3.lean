import Verif.Sample.Lemmas2

/-!
# Helper lemmas: the data of a time series
-/

namespace Verif
namespace Sample
variable {ι R : Type} [DecidableEq ι] [Add R] [Mul R] [Zero R]

/-- all sources lie in the past -/
def Lagged (edges : List (SEdge ι R)) : Prop := ∀ e ∈ edges, e.time < 0

omit [DecidableEq ι] [Add R] [Mul R] [Zero R] in
theorem pyIndex_range (f : ℕ → R) {len : ℕ} {i : Int} (h0 : 0 ≤ i) (h : i.toNat < len) :
    pyIndex ((List.range len).map f) i = .ok (f i.toNat) := by
  unfold pyIndex
  simp only [show ¬ i < 0 by omega, if_false]
  rw [List.getElem?_map, List.getElem?_range h]
  rfl

/-- one summand -/
def term (init : ι → R) (col : ι → ℕ → R) (t : ℕ) (e : SEdge ι R) : R :=
  if e.time.natAbs ≤ t then col e.src (t - e.time.natAbs) else init e.src

omit [Zero R] in
theorem tsSum_ok (init : ι → R) (d : Dict ι (List R)) (t : ℕ) (col : ι → ℕ → R) (es : List (SEdge ι R)) (r : R)
    (hl : Lagged es) (hd : ∀ e ∈ es, ∃ len, t ≤ len ∧ d.get? e.src = some ((List.range len).map (col e.src))) :
    tsSum init d t es r = .ok (es.foldl (fun acc e => acc + e.value * term init col t e) r) := by
  induction es generalizing r with
  | nil => rfl
  | cons e es ih =>
    have ht := hl e (by simp)
    obtain ⟨len, h1, h2⟩ := hd e (by simp)
    have ih' := fun r => ih r (fun e' he' => hl e' (by simp [he'])) (fun e' he' => hd e' (by simp [he']))
    unfold tsSum
    by_cases hc : e.time.natAbs > t
    · rw [if_pos hc, ih', List.foldl_cons]
      congr 3
      unfold term
      rw [if_neg (by omega)]
    · rw [if_neg hc, h2]
      simp only
      rw [pyIndex_range _ (by omega) (by omega)]
      simp only
      have hi : ((t : Int) + e.time).toNat = t - e.time.natAbs := by omega
      rw [ih', List.foldl_cons, hi]
      congr 3
      unfold term
      rw [if_pos (by omega)]

/-- the equation for one variable and time -/
def EqAt (edges : List (SEdge ι R)) (init : ι → R) (noise : ι → ℕ → R) (col : ι → ℕ → R) (v : ι) (t : ℕ) : Prop :=
  col v t = (edgesTo edges v).foldl (fun acc e => acc + e.value * term init col t e) 0 + noise v t

theorem eqAt_congr {edges : List (SEdge ι R)} (hl : Lagged edges) {init : ι → R} {noise col col' : ι → ℕ → R} {v : ι}
    {t : ℕ} (h : EqAt edges init noise col v t) (hv : col' v t = col v t) (hp : ∀ w s, s < t → col' w s = col w s) :
    EqAt edges init noise col' v t := by
  unfold EqAt at h ⊢
  rw [hv, h]
  congr 1
  apply List.foldl_ext
  intro acc e he
  have := hl e (mem_edgesTo.1 he).1
  unfold term
  by_cases hc : e.time.natAbs ≤ t
  · rw [if_pos hc, if_pos hc, hp _ _ (by omega)]
  · rw [if_neg hc, if_neg hc]

theorem tsStep_ok (edges : List (SEdge ι R)) (hl : Lagged edges) (init : ι → R) (rand : ℕ → R) (t : ℕ) (k0 : ℕ)
    (vars : List ι) (hsrc : ∀ e ∈ edges, e.src ∈ vars)
    (pre post : List ι) (hvars : vars = pre ++ post) (hn : vars.Nodup) (d : Dict ι (List R)) (col : ι → ℕ → R)
    (hpre : ∀ v ∈ pre, d.get? v = some ((List.range (t + 1)).map (col v)))
    (hpost : ∀ v ∈ post, d.get? v = some ((List.range t).map (col v)))
    (heq : ∀ v ∈ pre, EqAt edges init (fun v _ => rand (k0 + vars.idxOf v)) col v t) :
    ∃ (d' : Dict ι (List R)) (col' : ι → ℕ → R), tsStep init rand edges t post (k0 + pre.length) d = .ok d' ∧
      (∀ v s, s < t → col' v s = col v s) ∧ d'.keys = d.keys ∧
      (∀ v ∈ vars, d'.get? v = some ((List.range (t + 1)).map (col' v))) ∧
      ∀ v ∈ vars, EqAt edges init (fun v _ => rand (k0 + vars.idxOf v)) col' v t := by
  induction post generalizing pre d col with
  | nil =>
    rw [List.append_nil] at hvars
    subst hvars
    exact ⟨d, col, rfl, fun _ _ _ => rfl, rfl, hpre, heq⟩
  | cons x post ih =>
    have hx : x ∉ pre := by
      intro h
      rw [hvars, List.nodup_append] at hn
      exact hn.2.2 x h x (by simp) rfl
    have hxp : x ∉ post := by
      rw [hvars, List.nodup_append, List.nodup_cons] at hn
      exact hn.2.1.1
    have hidx : vars.idxOf x = pre.length := by
      rw [hvars, List.idxOf_append_of_notMem hx, List.idxOf_cons_self]
      omega
    have hlx : Lagged (edgesTo edges x) := fun e he => hl e (mem_edgesTo.1 he).1
    have hsum := tsSum_ok init d t col (edgesTo edges x) 0 hlx (fun e he => by
      have hm := hsrc e (mem_edgesTo.1 he).1
      rw [hvars] at hm
      rcases List.mem_append.1 hm with h | h
      · exact ⟨t + 1, by omega, hpre _ h⟩
      · exact ⟨t, le_refl _, hpost _ h⟩)
    have hdx := hpost x (by simp)
    let new := (edgesTo edges x).foldl (fun acc e => acc + e.value * term init col t e) 0 + rand (k0 + pre.length)
    let col1 : ι → ℕ → R := fun v s => if v = x ∧ s = t then new else col v s
    have c1 : ∀ v s, s < t → col1 v s = col v s := fun v s hs => if_neg (fun (h : v = x ∧ s = t) => by omega)
    have c2 : ∀ v, v ≠ x → col1 v = col v := fun v hv => by
      funext s
      exact if_neg (fun (h : v = x ∧ s = t) => hv h.1)
    have c3 : (List.range (t + 1)).map (col1 x) = (List.range t).map (col x) ++ [new] := by
      rw [List.range_succ, List.map_append]
      congr 1
      · apply List.map_congr_left
        intro s hs
        exact c1 x s (List.mem_range.1 hs)
      · simp [col1]
    have hkx : x ∈ d.keys := (Dict.mem_keys_iff d x).2 (by rw [hdx]; rfl)
    obtain ⟨d', col', e1, e2, e2', e3, e4⟩ := ih (pre ++ [x]) (by simp [hvars])
      (d.set x ((List.range t).map (col x) ++ [new])) col1
      (by
        intro v hv
        rw [Dict.get?_set]
        by_cases e : x = v
        · subst e
          rw [if_pos rfl, c3]
        · rw [if_neg e, c2 v (Ne.symm e)]
          refine hpre v ?_
          rcases List.mem_append.1 hv with h | h
          · exact h
          · exact absurd (by simpa using h : v = x).symm e)
      (by
        intro v hv
        have hne : x ≠ v := fun e => hxp (e ▸ hv)
        rw [Dict.get?_set, if_neg hne, c2 v (Ne.symm hne), hpost v (by simp [hv])])
      (by
        intro v hv
        by_cases e : v = x
        · subst e
          have hbase : EqAt edges init (fun v _ => rand (k0 + vars.idxOf v)) col1 v t := by
            unfold EqAt
            show (if v = v ∧ t = t then new else col v t) = _
            rw [if_pos ⟨rfl, rfl⟩]
            simp only [hidx, new]
            congr 1
            apply List.foldl_ext
            intro acc e' he'
            have := hlx e' he'
            unfold term
            by_cases hc : e'.time.natAbs ≤ t
            · rw [if_pos hc, if_pos hc, c1 _ _ (by omega)]
            · rw [if_neg hc, if_neg hc]
          exact hbase
        · have hvp : v ∈ pre := by
            rcases List.mem_append.1 hv with h | h
            · exact h
            · exact absurd (by simpa using h) e
          exact eqAt_congr hl (heq v hvp) (by rw [c2 v e]) c1)
    refine ⟨d', col', ?_, fun v s hs => by rw [e2 v s hs, c1 v s hs], ?_, e3, e4⟩
    · unfold tsStep
      rw [hsum, hdx]
      simp only
      rw [List.length_append, List.length_singleton, ← Nat.add_assoc] at e1
      exact e1
    · rw [e2', Dict.keys_set_of_mem _ _ _ hkx]

/-- the noise used by the loop -/
def tsNoise (rand : ℕ → R) (vars : List ι) : ι → ℕ → R := fun v t => rand ((t - 1) * vars.length + vars.idxOf v)

theorem tsLoop_ok (edges : List (SEdge ι R)) (hl : Lagged edges) (init : ι → R) (rand : ℕ → R)
    (vars : List ι) (hsrc : ∀ e ∈ edges, e.src ∈ vars) (hn : vars.Nodup) (steps t : ℕ)
    (d : Dict ι (List R)) (col : ι → ℕ → R)
    (hd : ∀ v ∈ vars, d.get? v = some ((List.range t).map (col v)))
    (heq : ∀ v ∈ vars, ∀ s, 1 ≤ s → s < t → EqAt edges init (tsNoise rand vars) col v s) (ht : 1 ≤ t) :
    ∃ (d' : Dict ι (List R)) (col' : ι → ℕ → R), tsLoop init rand edges vars steps t d = .ok d' ∧
      (∀ v s, s < t → col' v s = col v s) ∧ d'.keys = d.keys ∧
      (∀ v ∈ vars, d'.get? v = some ((List.range (t + steps)).map (col' v))) ∧
      ∀ v ∈ vars, ∀ s, 1 ≤ s → s < t + steps → EqAt edges init (tsNoise rand vars) col' v s := by
  induction steps generalizing t d col with
  | zero => exact ⟨d, col, rfl, fun _ _ _ => rfl, rfl, hd, heq⟩
  | succ steps ih =>
    obtain ⟨d1, col1, e1, e2, e2', e3, e4⟩ := tsStep_ok edges hl init rand t ((t - 1) * vars.length) vars hsrc [] vars
      (by simp) hn d col (by simp) hd (by simp)
    obtain ⟨d', col', f1, f2, f2', f3, f4⟩ := ih (t + 1) d1 col1 e3 (by
      intro v hv s h1 h2
      by_cases h : s = t
      · subst h
        exact e4 v hv
      · exact eqAt_congr hl (heq v hv s h1 (by omega)) (e2 v s (by omega)) (fun w r hr => e2 w r (by omega))) (by omega)
    refine ⟨d', col', ?_, fun v s hs => by rw [f2 v s (by omega), e2 v s hs], by rw [f2', e2'], ?_, ?_⟩
    · unfold tsLoop
      simp only [List.length_nil, Nat.add_zero] at e1
      rw [e1]
      exact f1
    · intro v hv
      rw [f3 v hv]
      congr 3
      omega
    · intro v hv s h1 h2
      exact f4 v hv s h1 (by omega)

omit [Add R] [Mul R] [Zero R] in
theorem foldl_set_get (init : ι → R) (vars : List ι) (d : Dict ι (List R)) (v : ι) :
    (vars.foldl (fun d v => d.set v [init v]) d).get? v = if v ∈ vars then some [init v] else d.get? v := by
  induction vars generalizing d with
  | nil => simp
  | cons w ws ih =>
    rw [List.foldl_cons, ih]
    by_cases h : v ∈ ws
    · simp [h]
    · rw [if_neg h, Dict.get?_set]
      by_cases e : w = v
      · subst e
        simp
      · have : v ∉ w :: ws := by simp [h, Ne.symm e]
        rw [if_neg e, if_neg this]

omit [Add R] [Mul R] [Zero R] in
theorem foldl_set_keys (init : ι → R) (vars : List ι) (hn : vars.Nodup) (d : Dict ι (List R))
    (hd : ∀ v ∈ vars, v ∉ d.keys) : (vars.foldl (fun d v => d.set v [init v]) d).keys = d.keys ++ vars := by
  induction vars generalizing d with
  | nil => simp
  | cons w ws ih =>
    rw [List.nodup_cons] at hn
    have hw := hd w (by simp)
    rw [List.foldl_cons, ih hn.2, Dict.keys_set_of_not_mem _ _ _ hw]
    · simp
    · intro v hv
      rw [Dict.keys_set_of_not_mem _ _ _ hw]
      simp only [List.mem_append, List.mem_singleton, not_or]
      exact ⟨hd v (by simp [hv]), fun e => hn.1 (e ▸ hv)⟩

theorem tsData_ok (edges : List (SEdge ι R)) (hl : Lagged edges) (init : ι → R) (rand : ℕ → R)
    (vars : List ι) (hsrc : ∀ e ∈ edges, e.src ∈ vars) (hn : vars.Nodup) {size : ℕ} (hs : 1 ≤ size) :
    ∃ (d : Dict ι (List R)) (col : ι → ℕ → R), tsData init rand edges vars size = .ok d ∧ d.keys = vars ∧
      (∀ v ∈ vars, d.get? v = some ((List.range size).map (col v))) ∧
      (∀ v ∈ vars, col v 0 = init v) ∧
      ∀ v ∈ vars, ∀ s, 1 ≤ s → s < size → EqAt edges init (tsNoise rand vars) col v s := by
  obtain ⟨d, col, h1, h2, h2', h3, h4⟩ := tsLoop_ok edges hl init rand vars hsrc hn (size - 1) 1
    (vars.foldl (fun d v => d.set v [init v]) Dict.empty) (fun v _ => init v)
    (fun v hv => by rw [foldl_set_get, if_pos hv]; rfl) (fun v _ s h1 h2 => by omega) (le_refl 1)
  rw [show 1 + (size - 1) = size by omega] at h3 h4
  refine ⟨d, col, h1, ?_, h3, fun v _ => h2 v 0 (by omega), h4⟩
  rw [h2', foldl_set_keys init vars hn _ (by simp [Dict.empty, Dict.keys])]
  simp [Dict.empty, Dict.keys]

end Sample
end Verif
