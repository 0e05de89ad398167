import Verif.Model.Packages
import Verif.Model.Stats

/-
Arrays which may contain nan: the checks of nestcheck/ns_run_utils.py and the functions of nestcheck/data_processing.py which
turn tables of numbers into runs.  A number is `some x`, nan is `none`; every comparison with nan is false.  Infinite
loglikelihoods of samples are not modelled.
-/

namespace Nestcheck

section
variable {K : Type} [LinearOrder K]

/-- `a <= b` for floats -/
def nanLe : Option K → Option K → Bool
  | some x, some y => decide (x ≤ y)
  | _, _ => false

/-- `a < b` for floats -/
def nanLt : Option K → Option K → Bool
  | some x, some y => decide (x < y)
  | _, _ => false

/-- `a == b` for floats -/
def nanEq : Option K → Option K → Bool
  | some x, some y => decide (x = y)
  | _, _ => false

/-- `np.array_equal(a, b)` for one-dimensional arrays, with the default `equal_nan=False` -/
def nanArrayEqual (a b : List (Option K)) : Bool :=
  decide (a.length = b.length) && (a.zip b).all (fun p => nanEq p.1 p.2)

/-- `np.min` of an array: nan if there is one, and `ValueError` (here `none`) for an empty array -/
def nanMin (a : List (Option K)) : Option (Option K) :=
  if a = [] then none else if a.all Option.isSome then some (amin (a.filterMap id)) else some none

/-- `np.max` of an array -/
def nanMax (a : List (Option K)) : Option (Option K) :=
  if a = [] then none else if a.all Option.isSome then some (amax (a.filterMap id)) else some none

/-- Contract of `np.argsort`: ascending, with nan at the end. -/
structure NanArgsort (K : Type) [LinearOrder K] where
  idx : List (Option K) → List Nat
  perm : ∀ l, (idx l).Perm (List.range l.length)
  sorted : ∀ l, (gather l (idx l)).Pairwise (fun a b => b = none ∨ ∃ x y, a = some x ∧ b = some y ∧ x ≤ y)

/-- A run with arrays which may contain nan.  The start of a thread may also be -inf, which is `some ⊥`. -/
structure NanRun (K : Type) where
  logl : List (Option K)
  nlive : List Int
  theta : List (List (Option K))
  labels : Option (List Int)
  tmm : Option (List (Option (WithBot K) × Option K))

/-- `start <= logl` where `start` may be -inf -/
def startLe : Option (WithBot K) → Option K → Bool
  | some s, some y => decide (s ≤ (y : WithBot K))
  | _, _ => false

end

section
variable {K σ : Type} [CommRing K] [LinearOrder K]

/-- `check_ns_run_logls` (ns_run_utils.py:499-532).  The duplicates are counted when it is known that no loglikelihood is nan. -/
def checkLoglsNan (A : NanArgsort K) (logl : List (Option K)) (dupAssert dupWarn : Bool) : M σ Unit := do
  M.assert (nanArrayEqual logl (gather logl (A.idx logl)))            -- 517
  if dupAssert || dupWarn then do
    let rep := logl.length - (unique (logl.filterMap id)).length      -- 520
    if dupAssert then M.assert (rep = 0)                              -- 529
    else if dupWarn then
      if rep ≠ 0 then M.warn .dupLogl else pure ()                    -- 532
    else pure ()
  else pure ()

/-- One iteration of the loop in `check_ns_run_threads` (ns_run_utils.py:557-566). -/
def checkThreadNan (logl : List (Option K)) (labels : List Int) (tmm : List (Option (WithBot K) × Option K)) (lab : Int) :
    Py Unit :=
  let inds := whereIdx (· = lab) labels                               -- 558
  match inds.head?.bind (logl[·]?), inds.getLast?.bind (logl[·]?), tmm[lab.toNat]? with
  | some first, some last, some mm =>
    if ¬ startLe mm.1 first then .error .assertion                    -- 561
    else if ¬ nanEq mm.2 last then .error .assertion                  -- 565
    else .ok ()
  | _, _, _ => .error .index

def checkThreadLoopNan (logl : List (Option K)) (labels : List Int) (tmm : List (Option (WithBot K) × Option K)) :
    List Int → Py Unit
  | [] => .ok ()
  | lab :: labs => do
    checkThreadNan logl labels tmm lab
    checkThreadLoopNan logl labels tmm labs

/-- `check_ns_run_threads` (ns_run_utils.py:535-566). -/
def checkThreadsNan (r : NanRun K) : Py Unit :=
  match r.labels, r.tmm with
  | none, _ => .error .assertion                                      -- 548
  | some _, none => .error .attribute
  | some labels, some tmm =>
    let uniq := unique labels                                         -- 549
    if uniq ≠ (List.range tmm.length).map Int.ofNat then .error .assertion   -- 550
    else if ¬ tmm.any (fun p => p.1 = some ⊥) then .error .assertion  -- 554
    else checkThreadLoopNan r.logl labels tmm uniq

/-- `check_ns_run_members` (ns_run_utils.py:459-496), as `checkMembers`. -/
def checkMembersNan (r : NanRun K) : Py Unit :=
  match r.labels, r.tmm with
  | some labels, some _ =>
    if r.logl.length ≠ r.nlive.length then .error .assertion          -- 493
    else if r.logl.length ≠ labels.length then .error .assertion      -- 494
    else if r.logl.length ≠ r.theta.length then .error .assertion     -- 496
    else .ok ()
  | _, _ => .error .assertion                                         -- 489

/-- `check_ns_run` (ns_run_utils.py:433-456). -/
def checkRunNan (A : NanArgsort K) (r : NanRun K) (dupAssert dupWarn : Bool) : M σ Unit := do
  M.lift (checkMembersNan r)
  checkLoglsNan A r.logl dupAssert dupWarn
  M.lift (checkThreadsNan r)

/-- `birth_inds_given_contours` (data_processing.py:511-621).  After the assertion in line 559 all values are numbers. -/
def birthIndsNan (A : NanArgsort K) (R : Rng σ K) (births logls : List (Option K)) (dupAssert dupWarn : Bool) :
    M σ (List Int) := do
  checkLoglsNan A logls dupAssert dupWarn                             -- 552
  let state ← M.getState                                              -- 555
  npSeed R 0                                                          -- 556
  match births with
  | [] => M.raise .index                                              -- 558
  | init :: _ => do
    (if births.length ≠ logls.length then M.raise .value else pure () : M σ Unit)
    M.assert ((births.zip logls).all (fun p => nanLe p.1 p.2))        -- 559
    let bs := births.filterMap id
    let acc := bs.map (fun b => if some b = init then some (-1 : Int) else none)  -- 561-562
    let acc ← birthLoop R bs (logls.filterMap id) ((List.range bs.length).zip bs) acc
    M.assert (acc.all Option.isSome)                                  -- 619
    M.setState state                                                  -- 620
    pure (acc.map (·.getD 0))                                         -- 621

/-- `process_samples_array` (data_processing.py:448-508). -/
def processSamplesNan (A : NanArgsort K) (R : Rng σ K) (samples : List (Sample (Option K)))
    (dupAssert dupWarn : Bool) : M σ (NanRun K) := do
  let samples := gather samples (A.idx (samples.map (·.logl)))        -- 469
  let logl := samples.map (·.logl)                                    -- 471
  let theta := samples.map (·.theta)                                  -- 472
  let births := samples.map (·.birth)                                 -- 473
  let b ← birthIndsNan A R births logl dupAssert dupWarn              -- 476
  let labels ← threadsGivenBirthInds R b                              -- 478
  let uniq := unique labels                                           -- 479
  M.assert (uniq = List.range uniq.length)                            -- 480
  let acc ← M.lift (threadStepLoop (logl.filterMap id) b labels uniq
    { tmm := List.replicate uniq.length ((0 : K), 0), delta := List.replicate (samples.length + 1) 0 })
  pure { logl := logl, nlive := (cumsum acc.delta).dropLast, theta := theta,
         labels := some (labels.map Int.ofNat), tmm := some (acc.tmm.map (fun p => (some p.1, some p.2))) }

/-- `np.loadtxt(name)`, which reads `nan` as well as numbers, as `loadText`. -/
def loadTextNan (files : String → Option (List (List (Option K)))) (name : String) : Py (List (List (Option K))) :=
  match files name with
  | none => .error .os
  | some rows =>
    if rows.any (fun r => rows.any (fun s => decide (r.length ≠ s.length))) then .error .value else .ok rows

/-- As `twoDims`. -/
def twoDimsNan (rows : List (List (Option K))) : Py (List (List (Option K))) :=
  if decide (rows.length ≤ 1) || rows.any (fun r => decide (r.length ≤ 1)) then .error .index else .ok rows

/-- As `tableSamples`: (thetas, logl, birth_logl). -/
def tableSamplesNan : List (List (Option K)) → Py (List (Sample (Option K)))
  | [] => .ok []
  | row :: rows => match row.reverse with
    | birth :: logl :: theta => match tableSamplesNan rows with
      | .error e => .error e
      | .ok ss => .ok (⟨theta.reverse, logl, birth⟩ :: ss)
    | _ => .error .index

/-- `process_multinest_run` (data_processing.py:258-300). -/
def processMultinestNan (A : NanArgsort K) (R : Rng σ K) (files : String → Option (List (List (Option K))))
    (fileRoot baseDir : String) (dupAssert dupWarn : Bool) : M σ (NanRun K × Source) := do
  let dead ← M.lift (loadTextNan files (pathJoin baseDir fileRoot ++ "dead-birth.txt"))        -- 284
  let live ← M.lift (loadTextNan files (pathJoin baseDir fileRoot ++ "phys_live-birth.txt"))   -- 285
  let dead ← M.lift (twoDimsNan dead)                                 -- 288
  let live ← M.lift (twoDimsNan live)                                 -- 289
  let dead ← M.lift (tableSamplesNan (dead.map (fun r => r.take (r.length - 2))))   -- 288, 290
  let live ← M.lift (tableSamplesNan (live.map (fun r => r.take (r.length - 1))))   -- 289, 290
  (match nanMax (dead.map (·.logl)), nanMin (live.map (·.logl)) with
    | some a, some b => M.assert (nanLt a b)                          -- 290
    | _, _ => M.raise .value : M σ Unit)
  (if (dead ++ live).all (fun s => (dead ++ live).all (fun t => decide (s.theta.length = t.theta.length)))
    then pure () else M.raise .value : M σ Unit)                      -- 293
  let run ← processSamplesNan A R (dead ++ live) dupAssert dupWarn    -- 293
  M.assert ((run.tmm.getD []).all (fun p => decide (p.1 = some ⊥)))   -- 294
  pure (run, ⟨fileRoot, baseDir⟩)

/-- `process_polychord_run` (data_processing.py:212-255). -/
def processPolychordNan {F : Type} (A : NanArgsort K) (R : Rng σ K) (CF : Codec F) (CI : Codec Int)
    (files : String → Option (List (List (Option K)))) (texts : Texts) (fileRoot baseDir : String)
    (processStatsFile dupAssert dupWarn : Bool) : M σ (NanRun K × RunOutput F) := do
  let rows ← M.lift (loadTextNan files (pathJoin baseDir fileRoot ++ "_dead-birth.txt"))   -- 242
  let rows ← M.lift (twoDimsNan rows)
  let samples ← M.lift (tableSamplesNan rows)
  let run ← processSamplesNan A R samples dupAssert dupWarn           -- 243
  let out ← polychordOutput CF CI texts fileRoot baseDir processStatsFile
  pure (run, out)

/-- `dict_given_run_array` (ns_run_utils.py:70-132). -/
def dictGivenRunArrayNan (rows : List (Row (Option K))) (tmm : List (Option (WithBot K) × Option K)) : M σ (NanRun K) :=
  let logl : List (Option K) := rows.map (·.logl)
  match nanMin logl with
  | none => M.raise .value                                            -- 107, empty array
  | some m => do
    let nlive0 : Int := tmm.countP (fun p => startLe p.1 m)           -- 107
    M.assert (decide (0 < nlive0))                                    -- 108
    let nl := nlive0 :: cumsumFrom nlive0 (rows.map (·.dn)).dropLast  -- 109-110
    let dup := tmm.countP (fun p => startLe p.1 m && decide (p.1 = m.map (WithBot.some : K → WithBot K)))   -- 112
    let nl ← (if 1 < dup then do                                      -- 113
        let shifted := nl.map (· + (1 - nl.getLast?.getD 0))          -- 117
        let nmin := logl.countP (fun l => nanEq l m)                  -- 118
        M.warn .dupStart                                              -- 120
        pure (List.replicate nmin nlive0 ++ shifted.drop nmin)        -- 119
      else pure nl : M σ (List Int))
    M.assert (nl.all (fun x => decide (0 < x)))                       -- 125
    M.assert (nl.getLast? = some 1)                                   -- 129
    pure { logl := logl, nlive := nl, theta := rows.map (·.theta),
           labels := allSome (rows.map (·.label)), tmm := some tmm }

/-- A start contour in dynesty's `batch_bounds`: -inf, nan or a number. -/
def nanStart : WithBot (Option K) → Option (WithBot K)
  | ⊥ => some ⊥
  | (x : Option K) => x.map (WithBot.some : K → WithBot K)

/-- `process_dynesty_run` (data_processing.py:303-370), as `processDynesty`. -/
def processDynestyNan (A : NanArgsort K) (res : Dynesty (Option K)) : M σ (NanRun K) := do
  (if res.logl.length ≠ res.samples.length ∨ res.ids.length ≠ res.samples.length
    then M.raise .value else pure () : M σ Unit)                      -- 331-333
  let uniq := unique res.ids                                          -- 334
  M.assert (uniq = List.range uniq.length)                            -- 335
  let starts ← M.lift (dynestyThreadStarts res uniq)                  -- 338-361
  let ends := finalInds res uniq                                      -- 362-363
  let tmm := (starts.map nanStart).zip (gather res.logl ends)         -- 364
  M.assert (tmm.all (fun p => p.1.isSome && p.2.isSome))              -- 367
  let dn := dynestyDn res (res.nlive.isNone && res.samplesN.isSome) ends
  let run ← dictGivenRunArrayNan (mkRows res.logl (res.ids.map (fun i => some (Int.ofNat i))) dn res.samples)
    tmm                                                               -- 368
  checkRunNan A run false false                                       -- 369
  pure run

end
end Nestcheck
