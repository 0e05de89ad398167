import Mathlib.Data.List.Sort
import Verif.Model.DeadBirth

/-
Model of nestcheck/dummy_data.py.  `logl_start` is in `WithBot K` (-inf is `⊥`).
`seed` is `none` for Python's `False`.  `np.random.random((n, d))` draws `n * d`
numbers and fills the array row by row.
-/

namespace Nestcheck
section
variable {K σ : Type} [CommRing K] [LinearOrder K]

/-- `np.sort(a)` -/
def npSort (xs : List K) : List K := xs.insertionSort (· ≤ ·)

/-- Reshape to `n` rows of `d` numbers. -/
def reshape {α : Type} (n d : Nat) (xs : List α) : List (List α) :=
  (List.range n).map (fun i => (xs.drop (i * d)).take d)

/-- `if seed is not False: np.random.seed(seed)` (dummy_data.py:38-39, 81-82) -/
def optSeed (R : Rng σ K) : Option Nat → M σ Unit
  | some s => npSeed R s
  | none => pure ()

/-- `thread['logl'] += logl_start` unless it is -inf (dummy_data.py:44-45). -/
def shiftLogl (start : WithBot K) (logl : List K) : List K :=
  logl.map (fun l => firstBirth 0 start + l)

/-- `get_dummy_thread` (dummy_data.py:11-47).  Without samples the last line raises
`IndexError`. -/
def getDummyThread (R : Rng σ K) (nsamples ndim : Nat) (seed : Option Nat) (start : WithBot K) (range : K) :
    M σ (Run K) := do
  optSeed R seed                                                      -- 38-39
  let u ← M.draw (R.uniform nsamples)
  let logl := (npSort u).map (· * range)                              -- 40
  let th ← M.draw (R.uniform (nsamples * ndim))                       -- 42
  let logl := shiftLogl start logl                                    -- 44-45
  match logl.getLast? with
  | none => M.raise .index                                            -- 46
  | some last => pure { logl := logl, nlive := List.replicate nsamples 1, theta := reshape nsamples ndim th,
                        labels := some (List.replicate nsamples 0), tmm := some [(start, last)] }

/-- A loop making one thread for each of the given starts (dummy_data.py:84-87,
138-140). -/
def getDummyThreads (R : Rng σ K) (nsamples ndim : Nat) (range : K) : List (WithBot K) → M σ (List (Run K))
  | [] => pure []
  | s :: ss => do
    let t ← getDummyThread R nsamples ndim none s range
    let ts ← getDummyThreads R nsamples ndim range ss
    pure (t :: ts)

/-- `threads[i]['thread_labels'] = np.full(nsamples, i)` (dummy_data.py:92-93,
142-143). -/
def relabelThreads (nsamples : Nat) (threads : List (Run K)) : List (Run K) :=
  threads.mapIdx (fun i t => { t with labels := some (List.replicate nsamples (i : Int)) })

/-- The stable sort of the threads by their first logl (dummy_data.py:91). -/
def sortThreads (threads : List (Run K)) : List (Run K) :=
  threads.insertionSort (fun a b => a.logl.headD 0 ≤ b.logl.headD 0)

/-- `get_dummy_run` (dummy_data.py:50-96). -/
def getDummyRun (A : Argsort K) (R : Rng σ K) (nthread nsamples ndim : Nat) (seed : Option Nat)
    (start : WithBot K) (range : K) : M σ (Run K) := do
  optSeed R seed                                                      -- 81-82
  let threads ← getDummyThreads R nsamples ndim range (List.replicate nthread start)
  let threads := relabelThreads nsamples (sortThreads threads)        -- 91-93
  combineThreads A R threads false                                    -- 96

/-- `get_dummy_dynamic_run` (dummy_data.py:99-148); `loglInit` is the default -1e30 of
`run_dead_birth_array`. -/
def getDummyDynamicRun (A : Argsort K) (R : Rng σ K) (loglInit : K) (nsamples ninit ndyn ndim : Nat)
    (seed : Option Nat) (range : K) : M σ (Run K) := do
  let init ← getDummyRun A R ninit nsamples ndim seed ⊥ range         -- 132-133
  let starts ← npChoiceN R init.logl ndyn                             -- 134-135
  let threads ← getRunThreads init                                    -- 136
  let new ← getDummyThreads R nsamples ndim range (starts.map (fun s : K => (s : WithBot K)))  -- 138-140
  let threads := relabelThreads nsamples (threads ++ new)             -- 142-143
  let run ← combineThreads A R threads false                          -- 144
  let samples ← runDeadBirth A run loglInit false false               -- 147
  processSamples A R samples false false                              -- 148

end
end Nestcheck
