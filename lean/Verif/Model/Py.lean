/-
Python runtime layer shared by every model file: exceptions as values, the
global state a call can observe or change (numpy's random state, the warnings
issued so far) and the monad that threads it.
-/

namespace Nestcheck

/-- Exception classes raised by the modelled code (or by numpy/builtins on its
behalf).  Two constructors are not Python exceptions.  `outOfFuel` marks
exhaustion of the fuel of the single `while` loop in the code
(data_processing.py:679) and is proved unreachable.  `undefined` marks a real
operation outside its domain (logarithm of a number that is not positive,
division by zero), where numpy issues a RuntimeWarning and goes on with nan or
inf: a theorem which says that a function returns a value also says that this
does not happen. -/
inductive PyErr where
  | assertion | value | index | key | type | attribute | name | os | eof | memory | unpickling | zeroDivision
  | outOfFuel | undefined
  deriving DecidableEq, Repr

/-- A pure Python computation: a value or an exception. -/
abbrev Py (α : Type) := Except PyErr α

/-- `UserWarning`s issued by the modelled code, one constructor per
`warnings.warn` call site that is modelled. -/
inductive Warn where
  | dupStart        -- ns_run_utils.py:120
  | dupLogl         -- ns_run_utils.py:532
  | moreBirths      -- data_processing.py:604
  | unlabelled      -- data_processing.py:687
  | noStats         -- data_processing.py:250
  | noNinit         -- error_analysis.py:64
  | notParallel     -- parallel_utils.py:64, 126
  | loadNoName      -- io_utils.py:75
  | loadFailed      -- io_utils.py:87
  | saveNoName      -- io_utils.py:91
  | saveFailed      -- io_utils.py:141
  deriving DecidableEq, Repr

/-- Global state: the state of `numpy.random` and the warnings issued so far. -/
structure World (σ : Type) where
  rng : σ
  warns : List Warn

/-- Python code with access to the global state.  As in Python, state changes
made before an exception is raised persist. -/
def M (σ α : Type) := World σ → Except PyErr α × World σ

namespace M
variable {σ α β : Type}

@[inline] def pure' (a : α) : M σ α := fun w => (.ok a, w)
@[inline] def bind' (x : M σ α) (f : α → M σ β) : M σ β := fun w =>
  match x w with
  | (.ok a, w') => f a w'
  | (.error e, w') => (.error e, w')

instance : Monad (M σ) where
  pure := pure'
  bind := bind'

/-- `raise` -/
def raise (e : PyErr) : M σ α := fun w => (.error e, w)
/-- run a pure computation -/
def lift (x : Py α) : M σ α := fun w => (x, w)
/-- `warnings.warn` -/
def warn (k : Warn) : M σ Unit := fun w => (.ok (), { w with warns := w.warns ++ [k] })
/-- `np.random.get_state()` -/
def getState : M σ σ := fun w => (.ok w.rng, w)
/-- `np.random.set_state(state)` -/
def setState (s : σ) : M σ Unit := fun w => (.ok (), { w with rng := s })
/-- a random draw -/
def draw (f : σ → α × σ) : M σ α := fun w => (.ok (f w.rng).1, { w with rng := (f w.rng).2 })
/-- `assert c` -/
def assert (c : Bool) : M σ Unit := fun w => (if c then .ok () else .error .assertion, w)
/-- `try: x except <errors satisfying p>: h` -/
def tryExcept (x : M σ α) (p : PyErr → Bool) (h : PyErr → M σ α) : M σ α := fun w =>
  match x w with
  | (.ok a, w') => (.ok a, w')
  | (.error e, w') => if p e then h e w' else (.error e, w')

@[simp] theorem pure_apply (a : α) (w : World σ) : (pure a : M σ α) w = (.ok a, w) := rfl
theorem bind_apply (x : M σ α) (f : α → M σ β) (w : World σ) :
    (x >>= f) w = match x w with
      | (.ok a, w') => f a w'
      | (.error e, w') => (.error e, w') := rfl
theorem bind_ok {x : M σ α} {f : α → M σ β} {w w' : World σ} {a : α}
    (h : x w = (.ok a, w')) : (x >>= f) w = f a w' := by simp [bind_apply, h]
theorem bind_error {x : M σ α} {f : α → M σ β} {w w' : World σ} {e : PyErr}
    (h : x w = (.error e, w')) : (x >>= f) w = (.error e, w') := by simp [bind_apply, h]
@[simp] theorem raise_apply (e : PyErr) (w : World σ) : (raise e : M σ α) w = (.error e, w) := rfl
@[simp] theorem lift_apply (x : Py α) (w : World σ) : (lift x : M σ α) w = (x, w) := rfl
@[simp] theorem warn_apply (k : Warn) (w : World σ) :
    (warn k : M σ Unit) w = (.ok (), { w with warns := w.warns ++ [k] }) := rfl
@[simp] theorem getState_apply (w : World σ) : (getState : M σ σ) w = (.ok w.rng, w) := rfl
@[simp] theorem setState_apply (s : σ) (w : World σ) :
    (setState s : M σ Unit) w = (.ok (), { w with rng := s }) := rfl
@[simp] theorem draw_apply (f : σ → α × σ) (w : World σ) :
    (draw f : M σ α) w = (.ok (f w.rng).1, { w with rng := (f w.rng).2 }) := rfl
@[simp] theorem assert_apply (c : Bool) (w : World σ) :
    (assert c : M σ Unit) w = (if c then .ok () else .error .assertion, w) := rfl

/-- A bind that succeeds: the first computation succeeded, and so did the rest. -/
theorem bind_eq_ok {x : M σ α} {f : α → M σ β} {w w'' : World σ} {b : β} :
    (x >>= f) w = (.ok b, w'') ↔ ∃ a w', x w = (.ok a, w') ∧ f a w' = (.ok b, w'') := by
  rw [bind_apply]
  rcases h : x w with ⟨_ | _, _⟩
  · simp
  · constructor
    · intro h1; exact ⟨_, _, rfl, h1⟩
    · rintro ⟨a, w', h1, h2⟩; cases h1; exact h2

/-- A bind that fails: either the first computation failed, or the rest did. -/
theorem bind_eq_error {x : M σ α} {f : α → M σ β} {w w'' : World σ} {e : PyErr} :
    (x >>= f) w = (.error e, w'') ↔
      x w = (.error e, w'') ∨ ∃ a w', x w = (.ok a, w') ∧ f a w' = (.error e, w'') := by
  rw [bind_apply]
  rcases h : x w with ⟨_ | _, _⟩
  · simp
  · constructor
    · intro h1; exact .inr ⟨_, _, rfl, h1⟩
    · rintro (h1 | ⟨a, w', h1, h2⟩)
      · cases h1
      · cases h1; exact h2

instance : LawfulMonad (M σ) := LawfulMonad.mk'
  (id_map := by
    intro α x; funext w; show (x >>= fun a => pure (id a)) w = x w
    rw [bind_apply]; rcases x w with ⟨_ | _, _⟩ <;> rfl)
  (pure_bind := by intros; rfl)
  (bind_assoc := by
    intro α β γ x f g; funext w
    simp only [bind_apply]; rcases x w with ⟨_ | _, _⟩ <;> rfl)

end M
end Nestcheck
