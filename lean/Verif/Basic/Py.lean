import Verif.Basic.Dict

/-!
# Exceptions and the state-and-exception monad

A python method mutates its object and may raise in the middle; what was written before the exception
stays written.  `PyM σ α` therefore returns the state in both cases.
-/

namespace Verif

/-- The exception classes that occur in the modelled code. -/
inductive PyErr
  | graphError      -- causy.graph.GraphError
  | keyError
  | valueError
  | typeError
  | attributeError
  | indexError
  | runtimeError    -- e.g. "dictionary changed size during iteration"
  | recursionError  -- python's recursion limit / non-termination (fuel exhausted)
  | zeroDivision
  | importError
  | fileNotFound
  | validationError -- pydantic
  | domainError     -- math domain error
  deriving DecidableEq, Repr

instance {ε α : Type} [DecidableEq ε] [DecidableEq α] : DecidableEq (Except ε α)
  | .ok a, .ok b => decidable_of_iff (a = b) ⟨fun h => by rw [h], fun h => by injection h⟩
  | .error a, .error b => decidable_of_iff (a = b) ⟨fun h => by rw [h], fun h => by injection h⟩
  | .ok _, .error _ => isFalse (fun h => by cases h)
  | .error _, .ok _ => isFalse (fun h => by cases h)

/-- Computations that read and write a state `σ` and may raise. -/
def PyM (σ α : Type) : Type := σ → Except PyErr α × σ

namespace PyM
variable {σ α β : Type}

/-- return -/
def pure (a : α) : PyM σ α := fun s => (.ok a, s)

/-- sequencing; an exception skips the rest but keeps the state -/
def bind (m : PyM σ α) (f : α → PyM σ β) : PyM σ β := fun s =>
  match m s with
  | (.ok a, s') => f a s'
  | (.error e, s') => (.error e, s')

instance : Monad (PyM σ) where
  pure := PyM.pure
  bind := PyM.bind

/-- `raise e` -/
def raise (e : PyErr) : PyM σ α := fun s => (.error e, s)

/-- read the state -/
def get : PyM σ σ := fun s => (.ok s, s)

/-- read a part of the state -/
def read (f : σ → α) : PyM σ α := fun s => (.ok (f s), s)

/-- overwrite the state -/
def put (s : σ) : PyM σ Unit := fun _ => (.ok (), s)

/-- change the state by a function -/
def mod (f : σ → σ) : PyM σ Unit := fun s => (.ok (), f s)

/-- an exception-or-value read of the state -/
def readE (f : σ → Except PyErr α) : PyM σ α := fun s => (f s, s)

@[simp] theorem pure_run (a : α) (s : σ) : (Pure.pure a : PyM σ α) s = (.ok a, s) := rfl
@[simp] theorem raise_run (e : PyErr) (s : σ) : (raise e : PyM σ α) s = (.error e, s) := rfl
@[simp] theorem get_run (s : σ) : (get : PyM σ σ) s = (.ok s, s) := rfl
@[simp] theorem read_run (f : σ → α) (s : σ) : (read f) s = (.ok (f s), s) := rfl
@[simp] theorem put_run (s t : σ) : (put s) t = (.ok (), s) := rfl
@[simp] theorem mod_run (f : σ → σ) (s : σ) : (mod f) s = (.ok (), f s) := rfl
@[simp] theorem readE_run (f : σ → Except PyErr α) (s : σ) : (readE f) s = (f s, s) := rfl

theorem bind_run (m : PyM σ α) (f : α → PyM σ β) (s : σ) :
    (m >>= f) s = match m s with
      | (.ok a, s') => f a s'
      | (.error e, s') => (.error e, s') := rfl

theorem bind_ok {m : PyM σ α} {f : α → PyM σ β} {s s' : σ} {a : α} (h : m s = (.ok a, s')) :
    (m >>= f) s = f a s' := by rw [bind_run, h]

theorem bind_error {m : PyM σ α} {f : α → PyM σ β} {s s' : σ} {e : PyErr}
    (h : m s = (.error e, s')) : (m >>= f) s = (.error e, s') := by rw [bind_run, h]

@[simp] theorem ite_run (c : Prop) [Decidable c] (a b : PyM σ α) (s : σ) :
    (if c then a else b) s = if c then a s else b s := by split <;> rfl

/-- `if b: m` -/
def when {σ : Type} (b : Bool) (m : PyM σ Unit) : PyM σ Unit := if b then m else pure ()

/-- `if x is not None: body x` -/
def whenSome (o : Option β) (body : β → PyM σ Unit) : PyM σ Unit :=
  match o with
  | none => Pure.pure ()
  | some x => body x

/-- `for x in l: body x` -/
def forEach (l : List β) (body : β → PyM σ Unit) : PyM σ Unit :=
  match l with
  | [] => Pure.pure ()
  | x :: xs => body x >>= fun _ => forEach xs body

@[simp] theorem forEach_nil (body : β → PyM σ Unit) (s : σ) : forEach [] body s = (.ok (), s) := rfl
theorem forEach_cons (x : β) (xs : List β) (body : β → PyM σ Unit) :
    forEach (x :: xs) body = (body x >>= fun _ => forEach xs body) := rfl

theorem forEach_cons_ok {x : β} {xs : List β} {body : β → PyM σ Unit} {s s' : σ} (h : body x s = (.ok (), s')) :
    forEach (x :: xs) body s = forEach xs body s' := by rw [forEach_cons, bind_ok h]

/-- Loop rule: an invariant kept by every successful or failing iteration holds in the final state. -/
theorem forEach_invariant (P : σ → Prop) (body : β → PyM σ Unit) (l : List β)
    (h : ∀ x ∈ l, ∀ s, P s → P (body x s).2) (s : σ) (hs : P s) : P (forEach l body s).2 := by
  induction l generalizing s with
  | nil => exact hs
  | cons x xs ih =>
    rw [forEach_cons, bind_run]
    have h1 := h x (by simp) s hs
    generalize hr : body x s = r at h1
    obtain ⟨e | a, s'⟩ := r
    · exact h1
    · exact ih (fun y hy => h y (by simp [hy])) s' h1

/-- Loop rule for loops that never raise. -/
theorem forEach_ok (P : σ → Prop) (body : β → PyM σ Unit) (l : List β)
    (h : ∀ x ∈ l, ∀ s, P s → (body x s).1 = .ok () ∧ P (body x s).2) (s : σ) (hs : P s) :
    (forEach l body s).1 = .ok () ∧ P (forEach l body s).2 := by
  induction l generalizing s with
  | nil => exact ⟨rfl, hs⟩
  | cons x xs ih =>
    rw [forEach_cons, bind_run]
    have h1 := h x (by simp) s hs
    generalize hr : body x s = r at h1
    obtain ⟨e | a, s'⟩ := r
    · simp at h1
    · exact ih (fun y hy => h y (by simp [hy])) s' h1.2

end PyM

/-! ## Nested dictionaries `d[u][v]` -/

namespace Dict
variable {ι α : Type} [DecidableEq ι]

/-- `d[u][v]` if both keys are present -/
def get2 (d : Dict ι (Dict ι α)) (u v : ι) : Option α := (d.get? u).bind (fun r => r.get? v)

/-- `u in d and v in d[u]` -/
def has2 (d : Dict ι (Dict ι α)) (u v : ι) : Bool := (d.get2 u v).isSome

/-- keys of the row `d[u]` (empty if there is no row) -/
def keys2 (d : Dict ι (Dict ι α)) (u : ι) : List ι :=
  match d.get? u with
  | some r => r.keys
  | none => []

/-- the effect of `d[u][v] = x` when row `u` is present -/
def set2 (d : Dict ι (Dict ι α)) (u v : ι) (x : α) : Dict ι (Dict ι α) :=
  match d.get? u with
  | some r => d.set u (r.set v x)
  | none => d

/-- the effect of `del d[u][v]` when the entry is present -/
def del2 (d : Dict ι (Dict ι α)) (u v : ι) : Dict ι (Dict ι α) :=
  match d.get? u with
  | some r => d.set u (r.del v)
  | none => d

theorem has_of_has2 {d : Dict ι (Dict ι α)} {u v : ι} (h : d.has2 u v = true) : d.has u = true := by
  unfold has2 get2 at h
  unfold has
  cases hd : d.get? u <;> simp [hd] at h ⊢

theorem has2_iff_mem_keys2 (d : Dict ι (Dict ι α)) (u v : ι) :
    d.has2 u v = true ↔ v ∈ d.keys2 u := by
  unfold has2 get2 keys2
  cases hd : d.get? u with
  | none => simp
  | some r => simp [mem_keys_iff]

theorem nodup_keys2 (d : Dict ι (Dict ι α)) (u : ι) : (d.keys2 u).Nodup := by
  unfold keys2
  cases d.get? u with
  | none => simp
  | some r => exact r.nodup_keys

theorem get2_set2 (d : Dict ι (Dict ι α)) (u v a b : ι) (x : α) (h : d.has u = true) :
    (d.set2 u v x).get2 a b = if u = a ∧ v = b then some x else d.get2 a b := by
  obtain ⟨r, hr⟩ := (has_iff_exists d u).1 h
  unfold set2 get2
  simp only [hr, get?_set]
  by_cases h1 : u = a
  · subst h1
    by_cases h2 : v = b <;> simp [get?_set, h2, hr]
  · simp [h1]

theorem get2_del2 (d : Dict ι (Dict ι α)) (u v a b : ι) :
    (d.del2 u v).get2 a b = if u = a ∧ v = b then none else d.get2 a b := by
  unfold del2 get2
  cases hd : d.get? u with
  | none =>
    by_cases h1 : u = a
    · subst h1; simp [hd]
    · simp [h1]
  | some r =>
    simp only [get?_set]
    by_cases h1 : u = a
    · subst h1
      by_cases h2 : v = b <;> simp [get?_del, h2, hd]
    · simp [h1]

theorem keys_set2 (d : Dict ι (Dict ι α)) (u v : ι) (x : α) : (d.set2 u v x).keys = d.keys := by
  unfold set2
  cases hd : d.get? u with
  | none => rfl
  | some r => exact keys_set_of_mem _ _ _ ((mem_keys_iff d u).2 (by simp [hd]))

theorem keys_del2 (d : Dict ι (Dict ι α)) (u v : ι) : (d.del2 u v).keys = d.keys := by
  unfold del2
  cases hd : d.get? u with
  | none => rfl
  | some r => exact keys_set_of_mem _ _ _ ((mem_keys_iff d u).2 (by simp [hd]))

theorem has_eq_of_keys_eq {κ α β : Type} [DecidableEq κ] {d : Dict κ α} {d' : Dict κ β} (h : d.keys = d'.keys)
    (k : κ) : d.has k = d'.has k := by
  have h1 := has_iff d k
  have h2 := has_iff d' k
  rw [h] at h1
  cases hx : d.has k <;> cases hy : d'.has k <;> simp_all

@[simp] theorem has_set2 (d : Dict ι (Dict ι α)) (u v a : ι) (x : α) :
    (d.set2 u v x).has a = d.has a := has_eq_of_keys_eq (keys_set2 d u v x) a

@[simp] theorem has_del2 (d : Dict ι (Dict ι α)) (u v a : ι) :
    (d.del2 u v).has a = d.has a := has_eq_of_keys_eq (keys_del2 d u v) a

theorem keys2_set2_of_has2 (d : Dict ι (Dict ι α)) (u v a : ι) (x : α) (h : d.has2 u v = true) :
    (d.set2 u v x).keys2 a = d.keys2 a := by
  have h0 := (has2_iff_mem_keys2 d u v).1 h
  unfold set2 keys2
  unfold keys2 at h0
  cases hd : d.get? u with
  | none => simp
  | some r =>
    simp only [hd] at h0
    simp only [get?_set]
    by_cases h1 : u = a
    · subst h1; simp [hd, keys_set_of_mem _ _ _ h0]
    · simp [h1]

theorem has_set (d : Dict ι α) (u a : ι) (x : α) :
    (d.set u x).has a = (decide (u = a) || d.has a) := by
  unfold has
  rw [get?_set]
  by_cases h : u = a <;> simp [h]

theorem get2_set_empty (d : Dict ι (Dict ι α)) (u a b : ι) (h : d.has u = false) :
    (d.set u empty).get2 a b = d.get2 a b := by
  unfold get2
  rw [get?_set]
  by_cases h1 : u = a
  · subst h1
    have : d.get? u = none := by
      unfold has at h; cases hd : d.get? u <;> simp [hd] at h ⊢
    simp [this]
  · simp [h1]

end Dict
end Verif
