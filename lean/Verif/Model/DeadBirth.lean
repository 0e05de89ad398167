import Verif.Model.NsRun
import Verif.Model.DataProcessing

/-
write_polychord_output.py: run_dead_birth_array.
-/

namespace Nestcheck
section
variable {K σ : Type} [CommRing K] [LinearOrder K]

/-- The first birth contour of a thread: `logl_init` if it starts at -inf
(write_polychord_output.py:154-157). -/
def firstBirth (loglInit : K) (start : WithBot K) : K :=
  WithBot.recBotCoe (C := fun _ => K) loglInit id start

/-- The array of one thread (write_polychord_output.py:150-157): each point but the
first was born on the contour of the point before it. -/
def threadSamples (loglInit : K) (t : Run K) : Py (List (Sample K)) :=
  match t.tmm with
  | none => .error .type
  | some [] => .error .index
  | some ((start, _) :: _) =>
    if t.theta.length ≠ t.logl.length then .error .value
    else if t.logl.isEmpty then .error .index
    else
      let births := firstBirth loglInit start :: t.logl.dropLast
      .ok (List.zipWith (fun th (p : K × K) => ⟨th, p.1, p.2⟩) t.theta (t.logl.zip births))

/-- The loop over the threads (write_polychord_output.py:149-158). -/
def threadSamplesLoop (loglInit : K) : List (Run K) → Py (List (List (Sample K)))
  | [] => .ok []
  | t :: ts => do
    let a ← threadSamples loglInit t
    let as ← threadSamplesLoop loglInit ts
    pure (a :: as)

/-- `run_dead_birth_array` (write_polychord_output.py:122-161).  All threads share the
number of columns of `run['theta']`, so `np.vstack` fails only on an empty list, which
`check_ns_run` excludes. -/
def runDeadBirth (A : Argsort K) (run : Run K) (loglInit : K) (dupAssert dupWarn : Bool) :
    M σ (List (Sample K)) := do
  checkRun A run dupAssert dupWarn                                    -- 145
  let threads ← getRunThreads run                                     -- 146
  let arrs ← M.lift (threadSamplesLoop loglInit threads)              -- 149-158
  (if arrs.isEmpty then M.raise .value else pure () : M σ Unit)       -- 159
  pure (sortBy A (·.logl) arrs.flatten)                               -- 160

end
end Nestcheck
