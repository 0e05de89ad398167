import Verif.Model.NsRun

/-
Model of the thread decomposition in nestcheck/data_processing.py.
-/

namespace Nestcheck

/-- A row of a dead-birth array: (thetas), logl, birth_logl
(data_processing.py:455-458). -/
structure Sample (K : Type) where
  theta : List K
  logl : K
  birth : K
  deriving DecidableEq

section
variable {K σ : Type} [CommRing K] [LinearOrder K]

/-- The loop of `sample_less_than_condition` (data_processing.py:633-639). -/
def sampleLessLoop (R : Rng σ K) : List Nat → List Nat → M σ (List Nat)
  | [], _ => pure []
  | c :: cs, choices => do
    let avail := whereIdx (fun x => decide (x < c)) choices           -- 635
    let k ← npChoice R avail                                          -- 636
    let rest ← sampleLessLoop R cs (choices.eraseIdx k)               -- 639
    pure (choices[k]?.getD 0 :: rest)                                 -- 637

/-- `sample_less_than_condition` (data_processing.py:624-640). -/
def sampleLess (R : Rng σ K) (choices condition : List Nat) : M σ (List Nat) :=
  sampleLessLoop R (condition.take (min condition.length choices.length)) choices

/-- Birth indexes for the points born on a contour with several deaths
(data_processing.py:577-618): the indexes to assign to `dupBirths`, in order. -/
def dupBirthInds (R : Rng σ K) (births : List K) (birth : K) (dupDeaths dupBirths : List Nat) :
    M σ (List Nat) := do
  M.assert (decide (1 < dupDeaths.length))                            -- 578
  let inds ← (if dupDeaths.all (fun d => decide (births[d]? ≠ some birth)) then
      npShuffle R dupDeaths                                           -- 582
    else sampleLess R dupDeaths dupBirths : M σ (List Nat))           -- 589; ValueError is re-raised
  if dupBirths.length ≤ inds.length then
    pure (inds.take dupBirths.length)                                 -- 602
  else do
    M.warn .moreBirths                                                -- 604
    let extra ← npChoiceN R inds (dupBirths.length - inds.length)     -- 614
    let inds ← npShuffle R (inds ++ extra)                            -- 616-617
    pure (inds.take dupBirths.length)                                 -- 618

/-- The loop of `birth_inds_given_contours` over the points
(data_processing.py:563-618).  The accumulator is the array `birth_inds`, with
`none` for nan; the list argument holds the remaining (index, birth) pairs. -/
def birthLoop (R : Rng σ K) (births logls : List K) :
    List (Nat × K) → List (Option Int) → M σ (List (Option Int))
  | [], acc => pure acc
  | (i, b) :: rest, acc =>
    if acc[i]? ≠ some none then birthLoop R births logls rest acc     -- 564-566
    else
      let dupDeaths := whereIdx (· = b) logls                         -- 567
      match dupDeaths with
      | [d] => birthLoop R births logls rest (acc.set i (some (d : Int)))   -- 568-571
      | _ => do
        let dupBirths := whereIdx (· = b) births                      -- 577
        let inds ← dupBirthInds R births b dupDeaths dupBirths
        birthLoop R births logls rest
          (assignAt acc dupBirths (inds.map (fun k : Nat => some (k : Int))))

/-- `birth_inds_given_contours` (data_processing.py:511-621), for one dimensional
arrays; other keyword arguments are in Model/Kwargs. -/
def birthInds (A : Argsort K) (R : Rng σ K) (births logls : List K) (dupAssert dupWarn : Bool) :
    M σ (List Int) := do
  checkLogls A logls dupAssert dupWarn                                -- 552
  let state ← M.getState                                              -- 555
  npSeed R 0                                                          -- 556
  match births with
  | [] => M.raise .index                                              -- 558
  | init :: _ => do
    (if births.length ≠ logls.length then M.raise .value else pure () : M σ Unit)
    M.assert ((births.zip logls).all (fun p => decide (p.1 ≤ p.2)))   -- 559
    let acc := births.map (fun b => if b = init then some (-1 : Int) else none)  -- 561-562
    let acc ← birthLoop R births logls ((List.range births.length).zip births) acc
    M.assert (acc.all Option.isSome)                                  -- 619
    M.setState state                                                  -- 620
    pure (acc.map (·.getD 0))                                         -- 621

/-- The contours on which threads start (data_processing.py:663-664): the lowest
birth index, and every other one which occurs more than once. -/
def threadStartInds (b : List Int) : List Int :=
  (unique b).take 1 ++ ((unique b).drop 1).filter (fun v => decide (1 < b.count v))

/-- `sum(thread_start_counts)` (data_processing.py:665-666, 724). -/
def threadStartTotal (b : List Int) : Nat :=
  (((unique b).take 1).map (fun v => b.count v) ++
    ((((unique b).drop 1).map (fun v => b.count v)).filter (fun c => decide (1 < c))).map (· - 1)).sum

/-- The indexes at which threads start, in the order in which they are labelled
(data_processing.py:669-673). -/
def starters (b : List Int) : List Nat :=
  ((threadStartInds b).zipIdx.map (fun mi =>
    let born := whereIdx (· = mi.1) b
    if mi.2 = 0 then born else born.drop 1)).flatten

/-- The `while` loop which follows a thread (data_processing.py:678-684), from the
point `cur`.  The fuel is consumed once per labelled point. -/
def follow (b : List Int) (t : Nat) : Nat → Nat → List (Option Nat) → Py (List (Option Nat))
  | fuel, cur, labels =>
    match whereIdx (· = (cur : Int)) b with
    | [] => .ok labels
    | nxt :: _ =>
      if labels[nxt]? ≠ some none then .error .assertion              -- 681
      else match fuel with
        | 0 => .error .outOfFuel
        | fuel + 1 => follow b t fuel nxt (labels.set nxt (some t))   -- 682

/-- The labelling loop (data_processing.py:669-685). -/
def labelLoop (b : List Int) : List Nat → Nat → List (Option Nat) → Py (List (Option Nat))
  | [], _, labels => .ok labels
  | s :: ss, t, labels =>
    if labels[s]? ≠ some none then .error .assertion                  -- 675
    else match follow b t b.length s (labels.set s (some t)) with
      | .error e => .error e
      | .ok labels => labelLoop b ss (t + 1) labels

/-- The labels which points may be given at random (data_processing.py:706-712). -/
def labelsToChoose (labels : List (Option Nat)) (ind : Nat) : List Nat :=
  let before := unique ((labels.take ind).filterMap id)
  let after := unique ((labels.drop (ind + 1)).filterMap id)
  let both := before.filter (· ∈ after)
  if both.isEmpty then unique (labels.filterMap id) else both

/-- Random labels for points not reached from any thread start
(data_processing.py:703-713). -/
def leftoverLoop (R : Rng σ K) : List Nat → List (Option Nat) → M σ (List (Option Nat))
  | [], labels => pure labels
  | ind :: inds, labels => do
    let l ← npChoice R (labelsToChoose labels ind)
    leftoverLoop R inds (labels.set ind (some l))

/-- `threads_given_birth_inds` (data_processing.py:643-727). -/
def threadsGivenBirthInds (R : Rng σ K) (b : List Int) : M σ (List Nat) := do
  let labels ← M.lift (labelLoop b (starters b) 0 (List.replicate b.length none))
  let labels ← (if labels.all Option.isSome then pure labels          -- 686
    else do
      M.warn .unlabelled                                              -- 687
      let state ← M.getState                                          -- 701
      npSeed R 0                                                      -- 702
      let labels ← leftoverLoop R (whereIdx Option.isNone labels) labels
      M.setState state                                                -- 714
      pure labels : M σ (List (Option Nat)))
  M.assert (labels.all Option.isSome)                                 -- 715
  let out := labels.map (·.getD 0)                                    -- 720
  M.assert (unique out = List.range (threadStartTotal b))             -- 722
  pure out

/-- The state of the loop over threads in `process_samples_array`. -/
structure ThreadAcc (K : Type) where
  tmm : List (WithBot K × K)
  delta : List Int

/-- One iteration of the loop over threads (data_processing.py:490-505). -/
def threadStep (logl : List K) (b : List Int) (labels : List Nat) (acc : ThreadAcc K) (lab : Nat) :
    Py (ThreadAcc K) :=
  let inds := whereIdx (· = lab) labels                               -- 491
  match inds.head?, inds.getLast?, b[0]? with
  | some first, some last, some b0 =>
    match logl[last]?, b[first]? with
    | some mx, some sb =>                                             -- 493-494
      let delta := acc.delta.modify (last + 1) (· - 1)                -- 497
      if sb = b0 then                                                 -- 498
        .ok { tmm := acc.tmm.set lab (⊥, mx), delta := delta.modify 0 (· + 1) }
      else if sb < 0 then .error .assertion                           -- 503
      else match logl[sb.toNat]? with
        | some mn => .ok { tmm := acc.tmm.set lab ((mn : WithBot K), mx),
                           delta := delta.modify (sb.toNat + 1) (· + 1) }   -- 504-505
        | none => .error .index
    | _, _ => .error .index
  | _, _, _ => .error .index

def threadStepLoop (logl : List K) (b : List Int) (labels : List Nat) :
    List Nat → ThreadAcc K → Py (ThreadAcc K)
  | [], acc => .ok acc
  | lab :: labs, acc => match threadStep logl b labels acc lab with
    | .error e => .error e
    | .ok acc => threadStepLoop logl b labels labs acc

/-- `process_samples_array` (data_processing.py:448-508). -/
def processSamples (A : Argsort K) (R : Rng σ K) (samples : List (Sample K))
    (dupAssert dupWarn : Bool) : M σ (Run K) := do
  let samples := sortBy A (·.logl) samples                            -- 469
  let logl := samples.map (·.logl)                                    -- 471
  let theta := samples.map (·.theta)                                  -- 472
  let births := samples.map (·.birth)                                 -- 473
  let b ← birthInds A R births logl dupAssert dupWarn                 -- 476
  let labels ← threadsGivenBirthInds R b                              -- 478
  let uniq := unique labels                                           -- 479
  M.assert (uniq = List.range uniq.length)                            -- 480
  let acc ← M.lift (threadStepLoop logl b labels uniq
    { tmm := List.replicate uniq.length ((0 : K), 0), delta := List.replicate (samples.length + 1) 0 })
  pure { logl := logl, nlive := (cumsum acc.delta).dropLast, theta := theta,
         labels := some (labels.map Int.ofNat), tmm := some acc.tmm }

end
end Nestcheck
