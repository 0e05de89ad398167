import Verif.Model.Nan
import Verif.Proofs.Basic
import Verif.Props.Dynesty
import Verif.Proofs.Weights

/-
C113: nan among the loglikelihoods or birth contours is reported, never processed.
-/

namespace Nestcheck
variable {K σ : Type} [CommRing K] [LinearOrder K]

/-! ### Comparisons -/

theorem nanEq_some (x y : K) : nanEq (some x) (some y) = decide (x = y) := rfl

theorem nanArrayEqual_nan {a b : List (Option K)} (h : none ∈ a) : nanArrayEqual a b = false := by
  unfold nanArrayEqual
  rw [Bool.and_eq_false_iff]
  by_cases hl : a.length = b.length
  · right
    rw [List.all_eq_false]
    obtain ⟨i, hi, e⟩ := List.mem_iff_getElem.mp h
    refine ⟨(a[i], b[i]'(by omega)), ?_, ?_⟩
    · rw [List.mem_iff_getElem]
      exact ⟨i, by simp; omega, by simp⟩
    · rw [e]
      simp [nanEq]
  · left
    simpa using hl

theorem nanArrayEqual_some {a b : List K} : nanArrayEqual (a.map some) (b.map some) = decide (a = b) := by
  unfold nanArrayEqual
  induction a generalizing b with
  | nil => cases b <;> simp
  | cons x xs ih =>
    cases b with
    | nil => simp
    | cons y ys =>
      have := ih (b := ys)
      simp only [List.length_map, List.map_cons, List.length_cons, List.zip_cons_cons, List.all_cons, nanEq_some,
        Nat.add_right_cancel_iff, List.cons.injEq] at this ⊢
      rw [← Bool.and_assoc, Bool.and_comm (decide (xs.length = ys.length)), Bool.and_assoc, this]
      simp [Bool.decide_and]

/-! ### Sorting -/

/-- `np.argsort` for arrays without nan. -/
def NanArgsort.plain (A : NanArgsort K) : Argsort K where
  idx l := A.idx (l.map some)
  perm l := by simpa using A.perm (l.map some)
  sorted l := by
    have h := A.sorted (l.map some)
    rw [gather_map, List.pairwise_map] at h
    refine h.imp ?_
    intro a b hab
    rcases hab with h | ⟨x, y, hx, hy, hxy⟩
    · cases h
    · cases hx; cases hy; exact hxy

theorem nan_gather (A : NanArgsort K) {l : List (Option K)} : (gather l (A.idx l)).Perm l := gather_perm (A.perm l)

theorem nan_gather_key {α : Type} (A : NanArgsort K) (key : α → Option K) (rows : List α) :
    (gather rows (A.idx (rows.map key))).Perm rows := gather_perm (by simpa using A.perm (rows.map key))

/-! ### `check_ns_run` -/

theorem checkLoglsNan_nan (A : NanArgsort K) {logl : List (Option K)} (h : none ∈ logl) (dA dW : Bool) (w : World σ) :
    checkLoglsNan A logl dA dW w = (.error .assertion, w) := by
  unfold checkLoglsNan
  apply M.bind_error
  rw [nanArrayEqual_nan h]
  rfl

theorem filterMap_some {α : Type} (l : List α) : (l.map some).filterMap id = l := by
  induction l with
  | nil => rfl
  | cons x xs ih => simp [ih]

theorem checkLoglsNan_some (A : NanArgsort K) (logl : List K) (dA dW : Bool) :
    checkLoglsNan (σ := σ) A (logl.map some) dA dW = checkLogls A.plain logl dA dW := by
  unfold checkLoglsNan checkLogls
  rw [gather_map, nanArrayEqual_some, filterMap_some, List.length_map]
  have : gather logl (A.idx (logl.map some)) = sortBy A.plain id logl := by
    unfold sortBy
    rw [List.map_id]
    rfl
  rw [this]

theorem checkLoglsNan_error {A : NanArgsort K} {logl : List (Option K)} {dA dW : Bool} {w w' : World σ} {e : PyErr}
    (h : checkLoglsNan A logl dA dW w = (.error e, w')) : e = .assertion := by
  unfold checkLoglsNan at h
  have key : ∀ (c : Bool) (v v' : World σ), (M.assert c : M σ Unit) v = (.error e, v') → e = .assertion := by
    intro c v v' hv
    rw [M.assert_apply] at hv
    cases c
    · exact (Except.error.inj (Prod.mk.inj hv).1).symm
    · exact absurd (Prod.mk.inj hv).1 (by simp)
  rcases M.bind_eq_error.mp h with h1 | ⟨_, v, _, h2⟩
  · exact key _ _ _ h1
  · cases dA <;> cases dW
    · exact absurd (Prod.mk.inj h2).1 (by simp)
    · simp only [Bool.or_true, if_true, Bool.false_eq_true, if_false] at h2
      split_ifs at h2
      · exact absurd (Prod.mk.inj h2).1 (by simp)
      · exact absurd (Prod.mk.inj h2).1 (by simp)
    · exact key _ _ _ h2
    · exact key _ _ _ h2

/-- C113.  `check_ns_run` raises AssertionError for a run with a nan loglikelihood, whatever its other members, before any
warning. -/
theorem C113_check_logl (A : NanArgsort K) {r : NanRun K} (h : none ∈ r.logl) (dA dW : Bool) (w : World σ) :
    checkRunNan A r dA dW w = (.error .assertion, w) := by
  unfold checkRunNan
  have hm : checkMembersNan r = .ok () ∨ checkMembersNan r = .error .assertion := by
    unfold checkMembersNan
    cases r.labels <;> cases r.tmm <;> first | exact Or.inr rfl | (simp only; split_ifs <;> simp)
  rcases hm with hm | hm
  · rw [M.bind_ok (a := ()) (w' := w) (by rw [hm]; rfl)]
    exact M.bind_error (checkLoglsNan_nan A h dA dW w)
  · exact M.bind_error (by rw [hm]; rfl)

theorem checkThreadLoopNan_nan {logl : List (Option K)} {labels : List Int} {tmm : List (Option (WithBot K) × Option K)}
    (hl : logl.length = labels.length) {labs : List Int} (hs : ∀ l ∈ labs, l ∈ labels) (ht : ∀ l ∈ labs, l.toNat < tmm.length)
    {i : Nat} {mm : Option (WithBot K) × Option K} (hi : tmm[i]? = some mm) (hmem : (i : Int) ∈ labs) (hn : mm.1 = none ∨ mm.2 = none) :
    checkThreadLoopNan logl labels tmm labs = .error .assertion := by
  induction labs with
  | nil => simp at hmem
  | cons lab labs ih =>
    unfold checkThreadLoopNan
    have hlab := hs lab (by simp)
    have hne : whereIdx (fun x => decide (x = lab)) labels ≠ [] := by
      obtain ⟨j, hj, e⟩ := List.mem_iff_getElem.mp hlab
      intro e2
      have : j ∈ whereIdx (fun x => decide (x = lab)) labels := by
        rw [mem_whereIdx]
        exact ⟨lab, by rw [List.getElem?_eq_getElem hj, e], by simp⟩
      rw [e2] at this
      simp at this
    have hin : ∀ j ∈ whereIdx (fun x => decide (x = lab)) labels, ∃ v, logl[j]? = some v := by
      intro j hj
      obtain ⟨v, hv, -⟩ := mem_whereIdx.mp hj
      have := (List.getElem?_eq_some_iff.mp hv).1
      exact ⟨logl[j]'(by omega), List.getElem?_eq_getElem (by omega)⟩
    obtain ⟨first, hf⟩ := hin _ (List.head_mem hne)
    obtain ⟨last, hla⟩ := hin _ (List.getLast_mem hne)
    have htl := ht lab (by simp)
    have hstep : checkThreadNan logl labels tmm lab =
        if ¬ startLe (tmm[lab.toNat]'htl).1 first then .error .assertion
        else if ¬ nanEq (tmm[lab.toNat]'htl).2 last then .error .assertion else .ok () := by
      unfold checkThreadNan
      simp only [List.head?_eq_some_head hne, List.getLast?_eq_some_getLast hne, Option.bind_some, hf, hla,
        List.getElem?_eq_getElem htl]
    rcases List.mem_cons.mp hmem with e | hmem'
    · have e2 : tmm[lab.toNat]'htl = mm := by
        have : lab.toNat = i := by omega
        rw [List.getElem?_eq_some_iff] at hi
        obtain ⟨h1, h2⟩ := hi
        simp only [this, h2]
      have : checkThreadNan logl labels tmm lab = .error .assertion := by
        rw [hstep, e2]
        rcases hn with h | h
        · rw [h]; simp [startLe]
        · rw [h]; simp only [nanEq]; split_ifs <;> simp_all
      rw [this]; rfl
    · have ihh := ih (fun l hl => hs l (by simp [hl])) (fun l hl => ht l (by simp [hl])) hmem'
      rw [hstep]
      split_ifs <;> first | rfl | exact ihh

/-- C113.  The same for nan among the starts and ends of the threads. -/
theorem C113_check_threads (A : NanArgsort K) {r : NanRun K} {tmm : List (Option (WithBot K) × Option K)} (ht : r.tmm = some tmm)
    (h : ∃ p ∈ tmm, p.1 = none ∨ p.2 = none) (dA dW : Bool) (w : World σ) :
    (checkRunNan A r dA dW w).1 = .error .assertion := by
  by_cases hnan : none ∈ r.logl
  · rw [C113_check_logl A hnan]
  unfold checkRunNan
  cases hlab : r.labels with
  | none =>
    have : checkMembersNan r = .error .assertion := by unfold checkMembersNan; rw [hlab]
    rw [M.bind_error (by rw [this]; rfl)]
  | some labels =>
    by_cases hm : r.logl.length = r.nlive.length ∧ r.logl.length = labels.length ∧ r.logl.length = r.theta.length
    · have hmm : checkMembersNan r = .ok () := by unfold checkMembersNan; simp [hlab, ht, hm.1.symm, hm.2.1.symm, hm.2.2.symm]
      rw [M.bind_ok (a := ()) (w' := w) (by rw [hmm]; rfl)]
      have hcheck : checkThreadsNan r = .error .assertion := by
        unfold checkThreadsNan
        rw [hlab, ht]
        simp only
        by_cases h1 : unique labels = (List.range tmm.length).map Int.ofNat
        · rw [if_neg (by simpa using h1)]
          by_cases h2 : (tmm.any fun p => decide (p.1 = some ⊥)) = true
          · rw [if_neg (by simpa using h2)]
            obtain ⟨p, hp, hn⟩ := h
            obtain ⟨i, hi, e⟩ := List.mem_iff_getElem.mp hp
            have hall := unique_eq_intRange.mp h1
            refine checkThreadLoopNan_nan hm.2.1 (fun l hl => mem_unique.mp hl) (fun l hl => ?_) (i := i) (mm := p)
              (by rw [List.getElem?_eq_getElem hi, e]) (mem_unique.mpr ((hall _).mpr (by omega))) hn
            have := (hall l).mp (mem_unique.mp hl)
            omega
          · rw [if_pos h2]
        · rw [if_pos h1]
      cases hc : checkLoglsNan A r.logl dA dW w with
      | mk res w' =>
        cases res with
        | ok u =>
          rw [M.bind_ok hc, hcheck]
          rfl
        | error e =>
          rw [M.bind_error hc]
          rw [checkLoglsNan_error hc]
    · have : checkMembersNan r = .error .assertion := by
        unfold checkMembersNan
        rw [hlab, ht]
        simp only
        split_ifs <;> first | rfl | (exfalso; apply hm; simp_all)
      rw [M.bind_error (by rw [this]; rfl)]


/-! ### Runs without nan -/

/-- The same run as arrays of floats, with parameters `theta`. -/
def Run.withTheta (r : Run K) (theta : List (List (Option K))) : NanRun K :=
  { logl := r.logl.map some, nlive := r.nlive, theta := theta, labels := r.labels,
    tmm := r.tmm.map (fun tmm => tmm.map (fun p => (some p.1, some p.2))) }

theorem checkThreadNan_some (logl : List K) (labels : List Int) (tmm : List (WithBot K × K)) (lab : Int) :
    checkThreadNan (logl.map some) labels (tmm.map (fun p => (some p.1, some p.2))) lab = checkThread logl labels tmm lab := by
  unfold checkThreadNan checkThread
  simp only [List.getElem?_map]
  cases h1 : (whereIdx (fun x => decide (x = lab)) labels).head? with
  | none => simp
  | some a =>
    cases h2 : (whereIdx (fun x => decide (x = lab)) labels).getLast? with
    | none => simp
    | some b =>
      simp only [Option.bind_some]
      cases logl[a]? <;> cases logl[b]? <;> cases tmm[lab.toNat]? <;> simp [startLe, nanEq]

theorem checkThreadLoopNan_some (logl : List K) (labels : List Int) (tmm : List (WithBot K × K)) (labs : List Int) :
    checkThreadLoopNan (logl.map some) labels (tmm.map (fun p => (some p.1, some p.2))) labs =
      checkThreadLoop logl labels tmm labs := by
  induction labs with
  | nil => rfl
  | cons lab labs ih =>
    unfold checkThreadLoopNan checkThreadLoop
    rw [checkThreadNan_some, ih]

/-- C113.  Without nan among loglikelihoods and threads, the outcome is that for numbers, whether or not there is nan among the
parameters. -/
theorem C113_check_numbers (A : NanArgsort K) (r : Run K) {theta : List (List (Option K))} (ht : theta.length = r.theta.length)
    (dA dW : Bool) : checkRunNan (σ := σ) A (r.withTheta theta) dA dW = checkRun A.plain r dA dW := by
  unfold checkRunNan checkRun
  have h1 : checkMembersNan (r.withTheta theta) = checkMembers r := by
    unfold checkMembersNan checkMembers Run.withTheta
    cases r.labels <;> cases r.tmm <;> simp [ht]
  have h2 : checkThreadsNan (r.withTheta theta) = checkThreads r := by
    unfold checkThreadsNan checkThreads Run.withTheta
    cases r.labels with
    | none => rfl
    | some labels => cases r.tmm with
      | none => rfl
      | some tmm =>
        simp only [Option.map_some, List.length_map, List.any_map, checkThreadLoopNan_some]
        congr 2
        simp [Function.comp_def]
  rw [h1, h2]
  have : checkLoglsNan (σ := σ) A (r.withTheta theta).logl dA dW = checkLogls A.plain r.logl dA dW := checkLoglsNan_some A _ dA dW
  rw [this]

/-! ### `process_samples_array` -/

/-- C113.  `process_samples_array` raises AssertionError if a loglikelihood is nan, and changes neither the random state nor the
warnings. -/
theorem C113_process_logl (A : NanArgsort K) (R : Rng σ K) {samples : List (Sample (Option K))}
    (h : ∃ s ∈ samples, s.logl = none) (dA dW : Bool) (w : World σ) :
    processSamplesNan A R samples dA dW w = (.error .assertion, w) := by
  unfold processSamplesNan
  apply M.bind_error
  unfold birthIndsNan
  apply M.bind_error
  apply checkLoglsNan_nan
  obtain ⟨s, hs, e⟩ := h
  exact List.mem_map.mpr ⟨s, (nan_gather_key A (·.logl) samples).mem_iff.mpr hs, e⟩

/-- C113.  It also raises AssertionError if a birth contour is nan. -/
theorem C113_process_birth (A : NanArgsort K) (R : Rng σ K) {samples : List (Sample (Option K))}
    (h : ∃ s ∈ samples, s.birth = none) (dA dW : Bool) (w : World σ) :
    (processSamplesNan A R samples dA dW w).1 = .error .assertion := by
  have hp := nan_gather_key A (fun s : Sample (Option K) => s.logl) samples
  unfold processSamplesNan
  generalize gather samples (A.idx (samples.map (·.logl))) = rows at hp
  obtain ⟨s, hs, e⟩ := h
  have hs' := hp.mem_iff.mpr hs
  have key : ∃ w', birthIndsNan A R (rows.map (·.birth)) (rows.map (·.logl)) dA dW w = (.error .assertion, w') := by
    unfold birthIndsNan
    cases hc : checkLoglsNan A (rows.map (·.logl)) dA dW w with
    | mk res w' =>
      cases res with
      | error e' =>
        refine ⟨w', ?_⟩
        rw [← checkLoglsNan_error hc]
        exact M.bind_error hc
      | ok u =>
        cases rows with
        | nil => simp at hs'
        | cons r0 rs =>
          refine ⟨{ w' with rng := R.seed 0 }, ?_⟩
          have hseed : (npSeed R 0 : M σ Unit) w' = (.ok (), { w' with rng := R.seed 0 }) := rfl
          rw [M.bind_ok hc, M.bind_ok (M.getState_apply w'), M.bind_ok hseed]
          simp only [List.map_cons]
          rw [if_neg (by simp), M.bind_ok (M.pure_apply () _)]
          apply M.bind_error
          rw [M.assert_apply]
          have : ((r0.birth :: rs.map (·.birth)).zip (r0.logl :: rs.map (·.logl))).all (fun p => nanLe p.1 p.2) = false := by
            rw [List.all_eq_false]
            refine ⟨(s.birth, s.logl), ?_, ?_⟩
            · have : (r0.birth :: rs.map (·.birth)).zip (r0.logl :: rs.map (·.logl)) =
                  (r0 :: rs).map (fun s => (s.birth, s.logl)) := by
                rw [← List.map_cons (f := fun s : Sample (Option K) => s.birth), ← List.map_cons (f := fun s : Sample (Option K) => s.logl),
                  List.zip_map', ]
              rw [this]
              exact List.mem_map.mpr ⟨s, hs', rfl⟩
            · rw [e]; simp [nanLe]
          rw [this]
          rfl
  obtain ⟨w', hw⟩ := key
  rw [M.bind_error hw]

theorem birthIndsNan_some (A : NanArgsort K) (R : Rng σ K) (births logls : List K) (dA dW : Bool) :
    birthIndsNan A R (births.map some) (logls.map some) dA dW = birthInds A.plain R births logls dA dW := by
  unfold birthIndsNan birthInds
  rw [checkLoglsNan_some]
  cases births with
  | nil => rfl
  | cons b bs =>
    have hz : (((b :: bs).map some).zip (logls.map some)).all (fun p => nanLe p.1 p.2) =
        ((b :: bs).zip logls).all (fun p => decide (p.1 ≤ p.2)) := by
      rw [List.zip_map, List.all_map]
      rfl
    have hf : ((b :: bs).map some).filterMap id = b :: bs := filterMap_some _
    rw [List.map_cons] at hz hf
    simp only [List.map_cons, hz, hf, filterMap_some, List.length_cons, List.length_map, Option.some.injEq]

/-- C113.  Without nan among loglikelihoods and birth contours the result, the exceptions, the warnings and the random numbers
are those for numbers, whether or not there is nan among the parameters, and every sample keeps its parameters. -/
theorem C113_process_numbers (A : NanArgsort K) (R : Rng σ K) (ps : List (List (Option K) × Sample K)) (dA dW : Bool) :
    processSamplesNan A R (ps.map (fun p => ⟨p.1, some p.2.logl, some p.2.birth⟩)) dA dW =
      (do
        let r ← processSamples A.plain R (ps.map (·.2)) dA dW
        pure (r.withTheta ((sortBy A.plain (·.2.logl) ps).map (·.1)))) := by
  have hs : gather (ps.map (fun p => (⟨p.1, some p.2.logl, some p.2.birth⟩ : Sample (Option K))))
      (A.idx ((ps.map (fun p => (⟨p.1, some p.2.logl, some p.2.birth⟩ : Sample (Option K)))).map (·.logl))) =
      (sortBy A.plain (·.2.logl) ps).map (fun p => ⟨p.1, some p.2.logl, some p.2.birth⟩) := by
    rw [gather_map]
    unfold sortBy NanArgsort.plain
    simp only [List.map_map, Function.comp_def]
  have ht : sortBy A.plain (·.logl) (ps.map (·.2)) = (sortBy A.plain (·.2.logl) ps).map (·.2) := by
    unfold sortBy
    rw [gather_map]
    simp only [List.map_map, Function.comp_def]
  unfold processSamplesNan processSamples
  rw [hs, ht]
  generalize sortBy A.plain (·.2.logl) ps = qs
  have h1 : (qs.map (fun p => (⟨p.1, some p.2.logl, some p.2.birth⟩ : Sample (Option K)))).map (·.logl) =
      ((qs.map (·.2)).map (·.logl)).map some := by simp [Function.comp_def]
  have h2 : (qs.map (fun p => (⟨p.1, some p.2.logl, some p.2.birth⟩ : Sample (Option K)))).map (·.birth) =
      ((qs.map (·.2)).map (·.birth)).map some := by simp [Function.comp_def]
  have h3 : (qs.map (fun p => (⟨p.1, some p.2.logl, some p.2.birth⟩ : Sample (Option K)))).map (·.theta) =
      qs.map (·.1) := by simp [Function.comp_def]
  have h4 : (qs.map (fun p => (⟨p.1, some p.2.logl, some p.2.birth⟩ : Sample (Option K)))).length = (qs.map (·.2)).length := by simp
  simp only [h1, h2, h3, h4, filterMap_some, birthIndsNan_some, bind_assoc, pure_bind]
  rfl

/-! ### Files -/

theorem tableSamplesNan_ok {rows : List (List (Option K))} {ss : List (Sample (Option K))} (h : tableSamplesNan rows = .ok ss) :
    rows = ss.map (fun s => s.theta ++ [s.logl, s.birth]) := by
  induction rows generalizing ss with
  | nil => cases h; rfl
  | cons row rows ih =>
    unfold tableSamplesNan at h
    cases hr : row.reverse with
    | nil => rw [hr] at h; cases h
    | cons b t =>
      cases t with
      | nil => rw [hr] at h; cases h
      | cons l t =>
        rw [hr] at h
        cases ht : tableSamplesNan rows with
        | error e => simp only [ht] at h; cases h
        | ok ss' =>
          simp only [ht] at h
          cases h
          rw [List.map_cons, ← ih ht]
          congr 1
          have := congrArg List.reverse hr
          rw [List.reverse_reverse] at this
          rw [this]
          simp

theorem loadTextNan_ok {files : String → Option (List (List (Option K)))} {name : String} {rows : List (List (Option K))} {n : Nat}
    (hf : files name = some rows) (hr : ∀ r ∈ rows, r.length = n) : loadTextNan files name = .ok rows := by
  unfold loadTextNan
  rw [hf]
  simp only
  rw [if_neg]
  rw [Bool.not_eq_true, List.any_eq_false]
  intro a ha
  rw [Bool.not_eq_true, List.any_eq_false]
  intro b hb
  simp [hr a ha, hr b hb]

theorem twoDimsNan_ok {rows : List (List (Option K))} {n : Nat} (h2 : 2 ≤ rows.length) (hr : ∀ r ∈ rows, r.length = n)
    (hn : 2 ≤ n) : twoDimsNan rows = .ok rows := by
  unfold twoDimsNan
  rw [if_neg]
  rw [Bool.not_eq_true, Bool.or_eq_false_iff]
  refine ⟨by simp; omega, ?_⟩
  rw [List.any_eq_false]
  intro a ha
  simp [hr a ha]
  omega

theorem tableSamplesNan_exists {rows : List (List (Option K))} {n : Nat} (hr : ∀ r ∈ rows, r.length = n + 2) :
    ∃ ss, tableSamplesNan rows = .ok ss := by
  induction rows with
  | nil => exact ⟨_, rfl⟩
  | cons row rows ih =>
    obtain ⟨ss, hs⟩ := ih (fun r hr' => hr r (List.mem_cons_of_mem _ hr'))
    have hlen := hr row List.mem_cons_self
    rw [← List.length_reverse] at hlen
    unfold tableSamplesNan
    match hrev : row.reverse, hlen with
    | b :: l :: t, _ => simp only [hs]; exact ⟨_, rfl⟩

/-- `np.min` and `np.max` of a non-empty array. -/
theorem nanMax_exists {a : List (Option K)} (h : a ≠ []) : ∃ m, nanMax a = some m := by
  unfold nanMax
  rw [if_neg h]
  split_ifs
  · exact ⟨_, rfl⟩
  · exact ⟨_, rfl⟩

theorem nanMin_exists {a : List (Option K)} (h : a ≠ []) : ∃ m, nanMin a = some m := by
  unfold nanMin
  rw [if_neg h]
  split_ifs
  · exact ⟨_, rfl⟩
  · exact ⟨_, rfl⟩

/-- C113.  A run whose file of dead points has nan in one of the last two columns (loglikelihood and birth contour) is never
returned by `process_polychord_run`. -/
theorem C113_polychord {F : Type} (A : NanArgsort K) (R : Rng σ K) (CF : Codec F) (CI : Codec Int)
    (files : String → Option (List (List (Option K)))) (texts : Texts) (fileRoot baseDir : String)
    {rows : List (List (Option K))} (hf : files (pathJoin baseDir fileRoot ++ "_dead-birth.txt") = some rows)
    {n : Nat} (hr : ∀ r ∈ rows, r.length = n + 2) (h2 : 2 ≤ rows.length) (h : ∃ r ∈ rows, none ∈ r.drop n)
    (stats dA dW : Bool) (w : World σ) :
    (processPolychordNan A R CF CI files texts fileRoot baseDir stats dA dW w).1 = .error .assertion := by
  have hl := loadTextNan_ok hf hr
  have ht := twoDimsNan_ok h2 hr (by omega)
  obtain ⟨ss, hss⟩ := tableSamplesNan_exists hr
  have hrows := tableSamplesNan_ok hss
  have hbad : (∃ s ∈ ss, s.logl = none) ∨ ∃ s ∈ ss, s.birth = none := by
    obtain ⟨r, hr1, hr2⟩ := h
    have hlen := hr r hr1
    rw [hrows] at hr1
    obtain ⟨s, hs, e⟩ := List.mem_map.mp hr1
    have hn : s.theta.length = n := by
      rw [← e] at hlen
      simpa using hlen
    rw [← e, ← hn, List.drop_left] at hr2
    simp only [List.mem_cons, List.not_mem_nil, or_false] at hr2
    rcases hr2 with h | h
    · exact .inl ⟨s, hs, h.symm⟩
    · exact .inr ⟨s, hs, h.symm⟩
  unfold processPolychordNan
  have lift : ∀ {α : Type} {p : Py α} {a : α}, p = .ok a → (M.lift p : M σ α) w = (.ok a, w) := by
    intro α p a hp
    rw [hp]
    rfl
  rw [M.bind_ok (lift hl), M.bind_ok (lift ht), M.bind_ok (lift hss)]
  rcases hbad with h | h
  · rw [M.bind_error (C113_process_logl A R h dA dW w)]
  · have hp := C113_process_birth A R h dA dW w
    rw [M.bind_error (w' := (processSamplesNan A R ss dA dW w).2) (e := .assertion) (by rw [← hp])]

/-- C113.  `process_multinest_run` raises AssertionError if there is nan among the loglikelihoods or birth contours of dead or live
points. -/
theorem C113_multinest (A : NanArgsort K) (R : Rng σ K) (files : String → Option (List (List (Option K)))) (fileRoot baseDir : String)
    {dead live : List (List (Option K))} (hd : files (pathJoin baseDir fileRoot ++ "dead-birth.txt") = some dead)
    (hl : files (pathJoin baseDir fileRoot ++ "phys_live-birth.txt") = some live) {n : Nat}
    (hdn : ∀ r ∈ dead, r.length = n + 4) (hln : ∀ r ∈ live, r.length = n + 3)
    (h : (∃ r ∈ dead, none ∈ (r.drop n).take 2) ∨ ∃ r ∈ live, none ∈ (r.drop n).take 2)
    (hd2 : 2 ≤ dead.length) (hl2 : 2 ≤ live.length) (dA dW : Bool) (w : World σ) :
    (processMultinestNan A R files fileRoot baseDir dA dW w).1 = .error .assertion := by
  have ld := loadTextNan_ok hd hdn
  have ll := loadTextNan_ok hl hln
  have td := twoDimsNan_ok hd2 hdn (by omega)
  have tl := twoDimsNan_ok hl2 hln (by omega)
  obtain ⟨d3, sd⟩ := tableSamplesNan_exists (n := n) (rows := dead.map (fun r => r.take (r.length - 2))) (by
    intro r hr
    obtain ⟨r', h1, h2⟩ := List.mem_map.mp hr
    rw [← h2, List.length_take, hdn r' h1]
    omega)
  obtain ⟨l3, sl⟩ := tableSamplesNan_exists (n := n) (rows := live.map (fun r => r.take (r.length - 1))) (by
    intro r hr
    obtain ⟨r', h1, h2⟩ := List.mem_map.mp hr
    rw [← h2, List.length_take, hln r' h1]
    omega)
  have e5 := tableSamplesNan_ok sd
  have e6 := tableSamplesNan_ok sl
  have width : ∀ {rows : List (List (Option K))} {ss : List (Sample (Option K))} {k : Nat}, (∀ r ∈ rows, r.length = n + 2 + k) →
      rows.map (fun r => r.take (r.length - k)) = ss.map (fun s => s.theta ++ [s.logl, s.birth]) →
      ∀ s ∈ ss, s.theta.length = n := by
    intro rows ss k hk he s hs
    have hm : s.theta ++ [s.logl, s.birth] ∈ ss.map (fun s => s.theta ++ [s.logl, s.birth]) := List.mem_map.mpr ⟨s, hs, rfl⟩
    rw [← he] at hm
    obtain ⟨r, hr, e⟩ := List.mem_map.mp hm
    have := congrArg List.length e
    simp [hk r hr] at this
    omega
  have bad : ∀ {rows : List (List (Option K))} {ss : List (Sample (Option K))} {k : Nat}, (∀ r ∈ rows, r.length = n + 2 + k) →
      rows.map (fun r => r.take (r.length - k)) = ss.map (fun s => s.theta ++ [s.logl, s.birth]) →
      (∃ r ∈ rows, none ∈ (r.drop n).take 2) → ∃ s ∈ ss, s.logl = none ∨ s.birth = none := by
    intro rows ss k hk he ⟨r, hr, hn⟩
    have hm : r.take (r.length - k) ∈ rows.map (fun r => r.take (r.length - k)) := List.mem_map.mpr ⟨r, hr, rfl⟩
    rw [he] at hm
    obtain ⟨s, hs, e⟩ := List.mem_map.mp hm
    refine ⟨s, hs, ?_⟩
    have hlen := hk r hr
    have hn1 := width hk he s hs
    have : (r.drop n).take 2 = [s.logl, s.birth] := by
      rw [List.take_drop, show n + 2 = r.length - k by omega, ← e, ← hn1, List.drop_left]
    rw [this] at hn
    simp only [List.mem_cons, List.not_mem_nil, or_false] at hn
    exact hn.imp Eq.symm Eq.symm
  have hbad : ∃ s ∈ d3 ++ l3, s.logl = none ∨ s.birth = none := by
    rcases h with h | h
    · obtain ⟨s, hs, e⟩ := bad (k := 2) (by simpa [Nat.add_assoc] using hdn) e5 h
      exact ⟨s, List.mem_append_left _ hs, e⟩
    · obtain ⟨s, hs, e⟩ := bad (k := 1) (by simpa [Nat.add_assoc] using hln) e6 h
      exact ⟨s, List.mem_append_right _ hs, e⟩
  have hw : ∀ s ∈ d3 ++ l3, s.theta.length = n := by
    intro s hs
    rcases List.mem_append.mp hs with hs | hs
    · exact width (k := 2) (by simpa [Nat.add_assoc] using hdn) e5 s hs
    · exact width (k := 1) (by simpa [Nat.add_assoc] using hln) e6 s hs
  have lift : ∀ {α : Type} {p : Py α} {a : α}, p = .ok a → (M.lift p : M σ α) w = (.ok a, w) := by
    intro α p a hp
    rw [hp]
    rfl
  have ne : ∀ {rows : List (List (Option K))} {ss : List (Sample (Option K))} {k : Nat}, 2 ≤ rows.length →
      rows.map (fun r => r.take (r.length - k)) = ss.map (fun s => s.theta ++ [s.logl, s.birth]) → ss.map (·.logl) ≠ [] := by
    intro rows ss k h2 he h0
    have h1 := congrArg List.length he
    have h3 := congrArg List.length h0
    simp at h1 h3
    subst h3
    simp at h1
    subst h1
    simp at h2
  obtain ⟨a, ha⟩ := nanMax_exists (ne hd2 e5)
  obtain ⟨b, hb⟩ := nanMin_exists (ne hl2 e6)
  unfold processMultinestNan
  rw [M.bind_ok (lift ld), M.bind_ok (lift ll), M.bind_ok (lift td), M.bind_ok (lift tl), M.bind_ok (lift sd),
    M.bind_ok (lift sl), ha, hb]
  simp only
  by_cases hab : nanLt a b = true
  · rw [M.bind_ok (a := ()) (w' := w) (by rw [M.assert_apply, if_pos hab])]
    have hall : ((d3 ++ l3).all (fun s => (d3 ++ l3).all (fun t => decide (s.theta.length = t.theta.length)))) = true := by
      rw [List.all_eq_true]
      intro s hs
      rw [List.all_eq_true]
      intro t ht
      simp [hw s hs, hw t ht]
    rw [if_pos hall, M.bind_ok (M.pure_apply () w)]
    obtain ⟨s, hs, e | e⟩ := hbad
    · rw [M.bind_error (C113_process_logl A R ⟨s, hs, e⟩ dA dW w)]
    · have hp := C113_process_birth A R ⟨s, hs, e⟩ dA dW w
      rw [M.bind_error (w' := (processSamplesNan A R (d3 ++ l3) dA dW w).2) (e := .assertion) (by rw [← hp])]
  · rw [M.bind_error (e := .assertion) (w' := w) (by rw [M.assert_apply, if_neg hab])]

/-! ### Files of numbers -/

/-- A table of numbers as an array of floats. -/
def floats (rows : List (List K)) : List (List (Option K)) := rows.map (List.map some)

/-- A sample as floats. -/
def Sample.floats (s : Sample K) : Sample (Option K) := ⟨s.theta.map some, some s.logl, some s.birth⟩

omit [CommRing K] [LinearOrder K] in
theorem loadTextNan_some (files : Tables K) (name : String) :
    loadTextNan (fun n => (files n).map floats) name = (loadText files name).map floats := by
  unfold loadTextNan loadText
  simp only
  cases files name with
  | none => rfl
  | some rows =>
    simp only [Option.map_some, floats, List.any_map, Function.comp_def, List.length_map]
    split_ifs <;> rfl

omit [CommRing K] [LinearOrder K] in
theorem twoDimsNan_some (rows : List (List K)) : twoDimsNan (floats rows) = (twoDims rows).map floats := by
  unfold twoDimsNan twoDims
  simp only [floats, List.any_map, Function.comp_def, List.length_map]
  split_ifs <;> rfl

omit [CommRing K] [LinearOrder K] in
theorem tableSamplesNan_some (rows : List (List K)) :
    tableSamplesNan (floats rows) = (tableSamples rows).map (List.map Sample.floats) := by
  induction rows with
  | nil => rfl
  | cons row rows ih =>
    unfold floats at ih ⊢
    rw [List.map_cons]
    unfold tableSamplesNan tableSamples rowSample
    rw [ih, ← List.map_reverse]
    match hr : row.reverse with
    | [] => rfl
    | [_] => rfl
    | b :: l :: t =>
      simp only [List.map_cons]
      cases tableSamples rows with
      | error e => rfl
      | ok ss => simp [Except.map, Sample.floats]

omit [CommRing K] [LinearOrder K] in
theorem tableSamples_length {rows : List (List K)} {ss : List (Sample K)} (h : tableSamples rows = .ok ss) :
    ss.length = rows.length := by
  induction rows generalizing ss with
  | nil => cases h; rfl
  | cons row rows ih =>
    unfold tableSamples at h
    cases hr : rowSample row with
    | none => rw [hr] at h; cases h
    | some s =>
      rw [hr] at h
      cases ht : tableSamples rows with
      | error e => simp only [ht] at h; cases h
      | ok ss' => simp only [ht] at h; cases h; simp [ih ht]

theorem processSamples_theta {A : Argsort K} {R : Rng σ K} {samples : List (Sample K)} {dA dW : Bool} {w w' : World σ} {r : Run K}
    (h : processSamples A R samples dA dW w = (.ok r, w')) : r.theta = (sortBy A (·.logl) samples).map (·.theta) := by
  unfold processSamples at h
  obtain ⟨_, _, _, h⟩ := M.bind_eq_ok.mp h
  obtain ⟨_, _, _, h⟩ := M.bind_eq_ok.mp h
  obtain ⟨_, _, _, h⟩ := M.bind_eq_ok.mp h
  obtain ⟨_, _, _, h⟩ := M.bind_eq_ok.mp h
  rw [M.pure_apply] at h
  obtain ⟨h, _⟩ := Prod.mk.inj h
  cases h
  rfl

/-- The same run as arrays of floats. -/
def Run.floats (r : Run K) : NanRun K := r.withTheta (Nestcheck.floats r.theta)

theorem processSamplesNan_floats (A : NanArgsort K) (R : Rng σ K) (ss : List (Sample K)) (dA dW : Bool) :
    processSamplesNan A R (ss.map Sample.floats) dA dW =
      (do
        let r ← processSamples A.plain R ss dA dW
        pure r.floats) := by
  have h := C113_process_numbers A R (ss.map (fun s => (s.theta.map some, s))) dA dW
  have e1 : (ss.map (fun s => (s.theta.map some, s))).map (fun p : List (Option K) × Sample K =>
      (⟨p.1, some p.2.logl, some p.2.birth⟩ : Sample (Option K))) = ss.map Sample.floats := by
    rw [List.map_map]
    rfl
  have e2 : (ss.map (fun s => (s.theta.map some, s))).map (fun p : List (Option K) × Sample K => p.2) = ss := by
    rw [List.map_map]
    simp [Function.comp_def]
  have e3 : (sortBy A.plain (fun p : List (Option K) × Sample K => p.2.logl) (ss.map (fun s => (s.theta.map some, s)))).map (·.1) =
      Nestcheck.floats ((sortBy A.plain (·.logl) ss).map (·.theta)) := by
    unfold sortBy Nestcheck.floats
    rw [gather_map, List.map_map, List.map_map, List.map_map]
    rfl
  rw [e1, e2, e3] at h
  rw [h]
  funext w
  cases hp : processSamples A.plain R ss dA dW w with
  | mk x w' =>
    cases x with
    | error e => rw [M.bind_error hp, M.bind_error hp]
    | ok r =>
      rw [M.bind_ok hp, M.bind_ok hp]
      unfold Run.floats
      rw [processSamples_theta hp]

/-- `dead.max() < live.min()` means that every dead point lies below every live point. -/
theorem nanLt_max_min {a b : List K} (ha : a ≠ []) (hb : b ≠ []) :
    ∃ x y, nanMax (a.map some) = some x ∧ nanMin (b.map some) = some y ∧
      nanLt x y = a.all (fun d => b.all (fun l => decide (d < l))) := by
  have h1 : nanMax (a.map some) = some (amax a) := by
    unfold nanMax
    have hall : (a.map some).all Option.isSome = true := by simp
    rw [if_neg (by simpa using ha), if_pos hall, filterMap_some]
  have h2 : nanMin (b.map some) = some (amin b) := by
    unfold nanMin
    have hall : (b.map some).all Option.isSome = true := by simp
    rw [if_neg (by simpa using hb), if_pos hall, filterMap_some]
  refine ⟨_, _, h1, h2, ?_⟩
  obtain ⟨x, hx⟩ : ∃ x, amax a = some x := by cases a with | nil => exact absurd rfl ha | cons c t => exact ⟨_, rfl⟩
  obtain ⟨y, hy⟩ : ∃ y, amin b = some y := by cases b with | nil => exact absurd rfl hb | cons c t => exact ⟨_, rfl⟩
  rw [hx, hy]
  obtain ⟨m1, m2⟩ := amax_eq_some.mp hx
  obtain ⟨n1, n2⟩ := amin_eq_some.mp hy
  rw [Bool.eq_iff_iff]
  simp only [nanLt, decide_eq_true_eq, List.all_eq_true]
  exact ⟨fun h d hd l hl => lt_of_le_of_lt (m2 d hd) (lt_of_lt_of_le h (n2 l hl)), fun h => h x m1 y n1⟩

/-- C113.  For files of numbers `process_multinest_run` does what it does for numbers. -/
theorem C113_multinest_numbers (A : NanArgsort K) (R : Rng σ K) (files : Tables K) (fileRoot baseDir : String) (dA dW : Bool) :
    processMultinestNan A R (fun n => (files n).map floats) fileRoot baseDir dA dW =
      (do
        let r ← processMultinest A.plain R files fileRoot baseDir dA dW
        pure (r.1.floats, r.2)) := by
  funext w
  unfold processMultinestNan processMultinest
  simp only [loadTextNan_some, bind_assoc, pure_bind]
  have step : ∀ {α β γ : Type} (p : Py α) (g : α → β) (f1 : β → M σ γ) (f2 : α → M σ γ) (v : World σ),
      (∀ a, p = .ok a → f1 (g a) v = f2 a v) → (M.lift (p.map g) >>= f1) v = (M.lift p >>= f2) v := by
    intro α β γ p g f1 f2 v hf
    cases p with
    | error e => rfl
    | ok a => exact hf a rfl
  refine step _ _ _ _ _ (fun dead _ => ?_)
  refine step _ _ _ _ _ (fun live _ => ?_)
  simp only [twoDimsNan_some]
  refine step _ _ _ _ _ (fun dead2 hd2 => ?_)
  refine step _ _ _ _ _ (fun live2 hl2 => ?_)
  have drop : ∀ (k : Nat) (rows : List (List K)), (floats rows).map (fun r => r.take (r.length - k)) = floats (dropCols k rows) := by
    intro k rows
    unfold floats dropCols
    simp [List.map_take, Function.comp_def]
  simp only [drop, tableSamplesNan_some]
  refine step _ _ _ _ _ (fun dead3 hd3 => ?_)
  refine step _ _ _ _ _ (fun live3 hl3 => ?_)
  have dims : ∀ {rows got : List (List K)}, twoDims rows = .ok got → 2 ≤ got.length := by
    intro rows got h
    unfold twoDims at h
    split_ifs at h with hc
    cases h
    rw [Bool.or_eq_true, not_or] at hc
    have := hc.1
    simp at this
    omega
  have ne : ∀ {rows : List (List K)} {ss : List (Sample K)} {k : Nat}, 2 ≤ rows.length → tableSamples (dropCols k rows) = .ok ss →
      ss.map (·.logl) ≠ [] := by
    intro rows ss k h2 hs h0
    have h1 := tableSamples_length hs
    have h3 := congrArg List.length h0
    simp [dropCols] at h1 h3
    subst h3
    simp at h1
    omega
  obtain ⟨x, y, hx, hy, hxy⟩ := nanLt_max_min (ne (dims hd2) hd3) (ne (dims hl2) hl3)
  have m1 : ∀ ss : List (Sample K), (ss.map Sample.floats).map (·.logl) = (ss.map (·.logl)).map some := by
    intro ss
    rw [List.map_map, List.map_map]
    rfl
  have hall : (dead3.map (·.logl)).all (fun d => (live3.map (·.logl)).all (fun l => decide (d < l))) =
      dead3.all (fun d => live3.all (fun l => decide (d.logl < l.logl))) := by
    simp only [List.all_map, Function.comp_def]
  simp only [m1, hx, hy, hxy, hall]
  rw [M.bind_apply, M.bind_apply]
  cases (M.assert (dead3.all (fun d => live3.all (fun l => decide (d.logl < l.logl)))) : M σ Unit) w with
  | mk a w1 =>
  cases a with
  | error e => rfl
  | ok _ =>
    simp only
    have happ : dead3.map Sample.floats ++ live3.map Sample.floats = (dead3 ++ live3).map Sample.floats := by rw [List.map_append]
    have hst : ((dead3 ++ live3).map Sample.floats).all (fun s => ((dead3 ++ live3).map Sample.floats).all
        (fun t => decide (s.theta.length = t.theta.length))) =
        (dead3 ++ live3).all (fun s => (dead3 ++ live3).all (fun t => decide (s.theta.length = t.theta.length))) := by
      simp only [List.all_map, Function.comp_def, Sample.floats, List.length_map]
    rw [happ, hst]
    unfold vstackSamples
    by_cases hc : (dead3 ++ live3).all (fun s => (dead3 ++ live3).all (fun t => decide (s.theta.length = t.theta.length))) = true
    · rw [if_pos hc, if_pos hc, M.bind_ok (M.pure_apply () w1)]
      have hl : (M.lift (Except.ok (dead3 ++ live3)) : M σ _) w1 = (.ok (dead3 ++ live3), w1) := rfl
      rw [M.bind_ok hl, processSamplesNan_floats]
      simp only [bind_assoc, pure_bind]
      have hprior : ∀ r : Run K, (r.floats.tmm.getD []).all (fun p => decide (p.1 = some ⊥)) = allFromPrior r := by
        intro r
        unfold allFromPrior Run.floats Run.withTheta
        cases r.tmm with
        | none => rfl
        | some tmm => simp [Function.comp_def]
      simp only [hprior]
    · rw [if_neg hc, if_neg hc]
      rfl

/-- C113.  For files of numbers `process_polychord_run` does what it does for numbers. -/
theorem C113_polychord_numbers {F : Type} (A : NanArgsort K) (R : Rng σ K) (CF : Codec F) (CI : Codec Int) (files : Tables K)
    (texts : Texts) (fileRoot baseDir : String) (stats dA dW : Bool) :
    processPolychordNan A R CF CI (fun n => (files n).map floats) texts fileRoot baseDir stats dA dW =
      (do
        let r ← processPolychord A.plain R CF CI files texts fileRoot baseDir stats dA dW
        pure (r.1.floats, r.2)) := by
  funext w
  unfold processPolychordNan processPolychord loadTable
  rw [loadTextNan_some]
  simp only [bind_assoc, pure_bind]
  cases loadText files (pathJoin baseDir fileRoot ++ "_dead-birth.txt") with
  | error e => rfl
  | ok rows =>
    have h1 : ∀ {α β : Type} (a : α) (f : α → M σ β), (M.lift (Except.ok a : Py α) >>= f) w = f a w := fun _ _ => rfl
    change (M.lift (Except.ok (floats rows)) >>= _) w = (M.lift (twoDims rows) >>= _) w
    rw [h1, twoDimsNan_some]
    cases twoDims rows with
    | error e => rfl
    | ok rows2 =>
      change (M.lift (Except.ok (floats rows2)) >>= _) w = _
      rw [h1, h1, tableSamplesNan_some]
      cases tableSamples rows2 with
      | error e => rfl
      | ok ss =>
        change (M.lift (Except.ok (ss.map Sample.floats)) >>= _) w = _
        rw [h1, h1, processSamplesNan_floats]
        simp only [bind_assoc, pure_bind]

/-! ### `dict_given_run_array` -/

/-- C113.  `dict_given_run_array` raises AssertionError if a loglikelihood is nan. -/
theorem C113_dict {rows : List (Row (Option K))} (h : ∃ r ∈ rows, r.logl = none) (tmm : List (Option (WithBot K) × Option K))
    (w : World σ) : dictGivenRunArrayNan rows tmm w = (.error .assertion, w) := by
  obtain ⟨r, hr, e⟩ := h
  have hm : none ∈ rows.map (·.logl) := List.mem_map.mpr ⟨r, hr, e⟩
  have hmin : nanMin (rows.map (·.logl)) = some none := by
    unfold nanMin
    rw [if_neg (List.ne_nil_of_mem hm), if_neg]
    rw [Bool.not_eq_true, List.all_eq_false]
    exact ⟨none, hm, by simp⟩
  have h0 : tmm.countP (fun p => startLe p.1 none) = 0 := by
    rw [List.countP_eq_zero]
    intro p _
    cases p.1 <;> simp [startLe]
  unfold dictGivenRunArrayNan
  simp only [hmin, h0]
  rfl

theorem startLe_some (s : WithBot K) (y : K) : startLe (some s) (some y) = decide (s ≤ (y : WithBot K)) := rfl

/-- C113.  Without nan among loglikelihoods and threads, `dict_given_run_array` gives the dictionary, exceptions and warnings it
gives for numbers, whether or not there is nan among the parameters. -/
theorem C113_dict_numbers (ps : List (List (Option K) × Row K)) (tmm : List (WithBot K × K)) :
    dictGivenRunArrayNan (σ := σ) (ps.map (fun p => ⟨some p.2.logl, p.2.label, p.2.dn, p.1⟩))
        (tmm.map (fun p => (some p.1, some p.2))) =
      (do
        let r ← dictGivenRunArray (ps.map (·.2)) tmm
        pure (r.withTheta (ps.map (·.1)))) := by
  have h1 : (ps.map (fun p => (⟨some p.2.logl, p.2.label, p.2.dn, p.1⟩ : Row (Option K)))).map (·.logl) =
      ((ps.map (·.2)).map (·.logl)).map some := by simp [Function.comp_def]
  have h2 : (ps.map (fun p => (⟨some p.2.logl, p.2.label, p.2.dn, p.1⟩ : Row (Option K)))).map (·.dn) =
      (ps.map (·.2)).map (·.dn) := by simp [Function.comp_def]
  have h3 : (ps.map (fun p => (⟨some p.2.logl, p.2.label, p.2.dn, p.1⟩ : Row (Option K)))).map (·.label) =
      (ps.map (·.2)).map (·.label) := by simp [Function.comp_def]
  have h4 : (ps.map (fun p => (⟨some p.2.logl, p.2.label, p.2.dn, p.1⟩ : Row (Option K)))).map (·.theta) =
      ps.map (·.1) := by simp [Function.comp_def]
  unfold dictGivenRunArrayNan dictGivenRunArray
  simp only [h1, h2, h3, h4]
  generalize ((ps.map (·.2)).map (·.logl)) = logl
  have hmin : nanMin (logl.map some) = (amin logl).map some := by
    unfold nanMin
    cases logl with
    | nil => rfl
    | cons x xs =>
      have hall : ((x :: xs).map some).all Option.isSome = true := by simp
      rw [if_neg (by simp), if_pos hall, filterMap_some]
      rfl
  rw [hmin]
  cases amin logl with
  | none => rfl
  | some m =>
    simp only [Option.map_some]
    have c1 : (tmm.map (fun p => ((some p.1 : Option (WithBot K)), (some p.2 : Option K)))).countP (fun p => startLe p.1 (some m)) =
        tmm.countP (fun p => decide (p.1 ≤ (m : WithBot K))) := by
      rw [List.countP_map]
      rfl
    have c2 : (tmm.map (fun p => ((some p.1 : Option (WithBot K)), (some p.2 : Option K)))).countP
          (fun p => startLe p.1 (some m) && decide (p.1 = some (m : WithBot K))) =
        tmm.countP (fun p => decide (p.1 = (m : WithBot K))) := by
      rw [List.countP_map]
      congr 1
      funext p
      simp only [Function.comp_apply, startLe_some, Option.some.injEq]
      by_cases hp : p.1 = (m : WithBot K)
      · simp [hp]
      · simp [hp]
    have c3 : (logl.map some).countP (fun l => nanEq l (some m)) = logl.countP (fun l => decide (l = m)) := by
      rw [List.countP_map]
      rfl
    simp only [c1, c2, c3, bind_assoc, pure_bind]
    rfl

/-! ### `process_dynesty_run` -/

omit [CommRing K] [LinearOrder K] in
theorem mkRows_loglOf {α : Type} {ls : List α} {bs : List (Option Int)} {ds : List Int} {ts : List (List α)}
    (h1 : bs.length = ls.length) (h2 : ls.length ≤ ds.length) (h3 : ts.length = ls.length) :
    (mkRows ls bs ds ts).map (·.logl) = ls := by
  induction ls generalizing bs ds ts with
  | nil => cases bs <;> simp_all [mkRows]
  | cons l ls ih =>
    match bs, ds, ts, h1, h2, h3 with
    | b :: bs, d :: ds, t :: ts, h1, h2, h3 =>
      simp only [mkRows, List.map_cons]
      rw [ih (by simpa using h1) (by simpa using h2) (by simpa using h3)]

omit [CommRing K] [LinearOrder K] in
/-- The column with the changes of the number of live points has an entry for each sample. -/
theorem dynestyDn_length {α : Type} {res : Dynesty α} {uniq ends : List Nat} {starts : List (WithBot α)}
    (h : dynestyThreadStarts res uniq = .ok starts) :
    res.logl.length ≤ (dynestyDn res (res.nlive.isNone && res.samplesN.isSome) ends).length := by
  unfold dynestyDn
  split_ifs with hd
  · unfold dynestyThreadStarts at h
    cases hn : res.nlive with
    | some n => simp [hn] at hd
    | none =>
      rw [hn] at h
      simp only [dynestyDynamic] at h
      split_ifs at h with h1 h2
      cases hs : res.samplesN with
      | none => simp [hs] at hd
      | some ns =>
        simp only [hs, Option.map_some, Option.any_some, decide_not, Bool.not_eq_eq_eq_not, Bool.not_true,
          decide_eq_false_iff_not, not_not] at h2
        simp only [Option.getD_some, List.length_append, List.length_cons, List.length_nil]
        rw [← h2]
        unfold diff
        simp
        omega
  · simp

theorem dictGivenRunArrayNan_ok {rows : List (Row (Option K))} {tmm : List (Option (WithBot K) × Option K)} {w w' : World σ}
    {r : NanRun K} (h : dictGivenRunArrayNan rows tmm w = (.ok r, w')) : r.logl = rows.map (·.logl) ∧ r.tmm = some tmm := by
  unfold dictGivenRunArrayNan at h
  cases hm : nanMin (rows.map (·.logl)) with
  | none => simp only [hm] at h; exact absurd (Prod.mk.inj h).1 (by simp)
  | some m =>
    simp only [hm] at h
    obtain ⟨_, _, _, h⟩ := M.bind_eq_ok.mp h
    obtain ⟨_, _, _, h⟩ := M.bind_eq_ok.mp h
    obtain ⟨_, _, _, h⟩ := M.bind_eq_ok.mp h
    obtain ⟨_, _, _, h⟩ := M.bind_eq_ok.mp h
    rw [M.pure_apply] at h
    obtain ⟨h, _⟩ := Prod.mk.inj h
    cases h
    exact ⟨rfl, rfl⟩

/-- C113.  A run returned by `process_dynesty_run` has the loglikelihoods of the results, without nan, and no nan in
`thread_min_max`. -/
theorem C113_dynesty {A : NanArgsort K} {res : Dynesty (Option K)} {w w' : World σ} {r : NanRun K}
    (h : processDynestyNan A res w = (.ok r, w')) :
    none ∉ res.logl ∧ r.logl = res.logl ∧ ∃ tmm, r.tmm = some tmm ∧ ∀ p ∈ tmm, p.1 ≠ none ∧ p.2 ≠ none := by
  unfold processDynestyNan at h
  obtain ⟨_, w1, g1, h⟩ := M.bind_eq_ok.mp h
  obtain ⟨_, w2, g2, h⟩ := M.bind_eq_ok.mp h
  obtain ⟨starts, w3, g3, h⟩ := M.bind_eq_ok.mp h
  obtain ⟨_, w4, g4, h⟩ := M.bind_eq_ok.mp h
  obtain ⟨run, w5, g5, h⟩ := M.bind_eq_ok.mp h
  obtain ⟨_, w6, g6, h⟩ := M.bind_eq_ok.mp h
  rw [M.pure_apply] at h
  obtain ⟨h, _⟩ := Prod.mk.inj h
  cases h
  have hlen : res.logl.length = res.samples.length ∧ res.ids.length = res.samples.length := by
    by_contra hc
    rw [if_pos (by
      by_contra h'
      rw [not_or, not_not, not_not] at h'
      exact hc h')] at g1
    exact absurd (Prod.mk.inj g1).1 (by simp)
  have hdn := dynestyDn_length (ends := finalInds res (unique res.ids)) (Prod.mk.inj g3).1
  obtain ⟨e1, e2⟩ := dictGivenRunArrayNan_ok g5
  rw [mkRows_loglOf (by simp [hlen.1, hlen.2]) hdn (by omega)] at e1
  refine ⟨?_, e1, _, e2, ?_⟩
  · intro hn
    rw [← e1] at hn
    rw [C113_check_logl A hn] at g6
    exact absurd (Prod.mk.inj g6).1 (by simp)
  · rw [M.assert_apply] at g4
    intro p hp
    split_ifs at g4 with hc
    · have := List.all_eq_true.mp hc p hp
      rw [Bool.and_eq_true, Option.isSome_iff_ne_none, Option.isSome_iff_ne_none] at this
      exact this
    · exact absurd (Prod.mk.inj g4).1 (by simp)

/-- C113.  For results of static dynesty runs with nan among the loglikelihoods the exception is AssertionError. -/
theorem C113_dynesty_static (A : NanArgsort K) {res : Dynesty (Option K)} (h1 : res.logl.length = res.samples.length)
    (h2 : res.ids.length = res.samples.length) {n : Nat} (hs : res.nlive = some n) (h : none ∈ res.logl) (w : World σ) :
    processDynestyNan A res w = (.error .assertion, w) := by
  unfold processDynestyNan
  rw [if_neg (by simp [h1, h2]), M.bind_ok (M.pure_apply () w)]
  simp only
  by_cases c1 : unique res.ids = List.range (unique res.ids).length
  · rw [M.bind_ok (a := ()) (w' := w) (by rw [M.assert_apply, if_pos (by simpa using c1)])]
    cases hst : dynestyThreadStarts res (unique res.ids) with
    | error e =>
      have : e = .assertion := by
        unfold dynestyThreadStarts at hst
        rw [hs] at hst
        simp only [dynestyStatic] at hst
        split_ifs at hst <;> exact (Except.error.inj hst).symm
      subst this
      exact M.bind_error rfl
    | ok starts =>
      have hl : (M.lift (.ok starts) : M σ _) w = (.ok starts, w) := rfl
      rw [M.bind_ok hl]
      by_cases c2 : ((starts.map nanStart).zip (gather res.logl (finalInds res (unique res.ids)))).all
          (fun p => p.1.isSome && p.2.isSome) = true
      · rw [M.bind_ok (a := ()) (w' := w) (by rw [M.assert_apply, if_pos c2])]
        apply M.bind_error
        have hdn := dynestyDn_length (ends := finalInds res (unique res.ids)) hst
        have hr := mkRows_loglOf (bs := res.ids.map (fun i => some (Int.ofNat i))) (by simp [h1, h2]) hdn (ts := res.samples) (by omega)
        rw [← hr] at h
        obtain ⟨row, hrow, e⟩ := List.mem_map.mp h
        exact C113_dict ⟨row, hrow, e⟩ _ w
      · apply M.bind_error
        rw [M.assert_apply, if_neg c2]
  · apply M.bind_error
    rw [M.assert_apply, if_neg (by simpa using c1)]

/-- The same results as arrays of floats, with parameters `theta`. -/
def Dynesty.withTheta (res : Dynesty K) (theta : List (List (Option K))) : Dynesty (Option K) :=
  { samples := theta, logl := res.logl.map some, ids := res.ids, nlive := res.nlive, batchNlive := res.batchNlive,
    samplesN := res.samplesN, samplesBatch := res.samplesBatch, batchStart := res.batchStart.map (WithBot.map some) }

omit [CommRing K] [LinearOrder K] in
theorem dynestyStarts_some (res : Dynesty K) (theta : List (List (Option K))) (labs : List Nat) :
    dynestyStarts (res.withTheta theta) labs = (dynestyStarts res labs).map (List.map (WithBot.map some)) := by
  induction labs with
  | nil => rfl
  | cons lab labs ih =>
    unfold dynestyStarts
    rw [ih]
    simp only [Dynesty.withTheta, List.getElem?_map]
    cases (whereIdx (fun x => decide (x = lab)) res.ids).head?.bind (res.samplesBatch[·]?) with
    | none => rfl
    | some k =>
      simp only [Option.bind_some]
      cases res.batchStart[k]? with
      | none => rfl
      | some s =>
        simp only [Option.map_some]
        cases dynestyStarts res labs <;> rfl

omit [CommRing K] [LinearOrder K] in
theorem dynestyThreadStarts_some (res : Dynesty K) (theta : List (List (Option K))) (uniq : List Nat) :
    dynestyThreadStarts (res.withTheta theta) uniq = (dynestyThreadStarts res uniq).map (List.map (WithBot.map some)) := by
  unfold dynestyThreadStarts
  change (match res.nlive with | some n => _ | none => _) = _
  cases res.nlive with
  | some n =>
    simp only [dynestyStatic, Dynesty.withTheta]
    split_ifs <;> simp [Except.map]
  | none =>
    simp only [dynestyDynamic]
    rw [dynestyStarts_some]
    simp only [Dynesty.withTheta, List.length_map]
    split_ifs <;> rfl

omit [CommRing K] [LinearOrder K] in
theorem mkRows_pairs (ls : List K) (bs : List (Option Int)) (ds : List Int) (ts : List (List K)) (ts' : List (List (Option K)))
    (h : ts'.length = ts.length) :
    mkRows (ls.map some) bs ds ts' = (ts'.zip (mkRows ls bs ds ts)).map (fun p => ⟨some p.2.logl, p.2.label, p.2.dn, p.1⟩) ∧
      (ts'.zip (mkRows ls bs ds ts)).map (·.2) = mkRows ls bs ds ts := by
  induction ls generalizing bs ds ts ts' with
  | nil => simp [mkRows]
  | cons l ls ih =>
    match bs, ds, ts, ts', h with
    | [], _, _, _, _ => simp [mkRows]
    | _ :: _, [], _, _, _ => simp [mkRows]
    | _ :: _, _ :: _, [], [], _ => simp [mkRows]
    | b :: bs, d :: ds, t :: ts, t' :: ts', h =>
      obtain ⟨h1, h2⟩ := ih bs ds ts ts' (by simpa using h)
      simp only [List.map_cons, mkRows, List.zip_cons_cons, h1, h2]
      exact ⟨trivial, trivial⟩

theorem dictGivenRunArray_theta {rows : List (Row K)} {tmm : List (WithBot K × K)} {w w' : World σ} {r : Run K}
    (h : dictGivenRunArray rows tmm w = (.ok r, w')) : r.theta = rows.map (·.theta) := by
  unfold dictGivenRunArray at h
  cases hm : amin (rows.map (·.logl)) with
  | none => simp only [hm] at h; exact absurd (Prod.mk.inj h).1 (by simp)
  | some m =>
    simp only [hm] at h
    obtain ⟨_, _, _, h⟩ := M.bind_eq_ok.mp h
    obtain ⟨_, _, _, h⟩ := M.bind_eq_ok.mp h
    obtain ⟨_, _, _, h⟩ := M.bind_eq_ok.mp h
    obtain ⟨_, _, _, h⟩ := M.bind_eq_ok.mp h
    rw [M.pure_apply] at h
    obtain ⟨h, _⟩ := Prod.mk.inj h
    cases h
    rfl

/-- C113.  Without nan among loglikelihoods and starts of batches, `process_dynesty_run` gives the run, exceptions and warnings it
gives for numbers, whether or not there is nan among the parameters. -/
theorem C113_dynesty_numbers (A : NanArgsort K) (res : Dynesty K) {theta : List (List (Option K))}
    (ht : theta.length = res.samples.length) :
    processDynestyNan (σ := σ) A (res.withTheta theta) =
      (do
        let r ← processDynesty A.plain res
        pure (r.withTheta theta)) := by
  funext w
  unfold processDynestyNan processDynesty
  by_cases hl : res.logl.length ≠ res.samples.length ∨ res.ids.length ≠ res.samples.length
  · have hl' : (res.withTheta theta).logl.length ≠ (res.withTheta theta).samples.length ∨
        (res.withTheta theta).ids.length ≠ (res.withTheta theta).samples.length := by simpa [Dynesty.withTheta, ht] using hl
    rw [if_pos hl, if_pos hl']
    rfl
  have hl' : ¬ ((res.withTheta theta).logl.length ≠ (res.withTheta theta).samples.length ∨
      (res.withTheta theta).ids.length ≠ (res.withTheta theta).samples.length) := by simpa [Dynesty.withTheta, ht] using hl
  rw [if_neg hl, if_neg hl']
  rw [not_or, not_not, not_not] at hl
  simp only [bind_assoc, pure_bind]
  have hi : (res.withTheta theta).ids = res.ids := rfl
  rw [hi, M.bind_apply, M.bind_apply]
  cases (M.assert (unique res.ids = List.range (unique res.ids).length) : M σ Unit) w with
  | mk a w1 =>
  cases a with
  | error e => rfl
  | ok _ =>
    simp only [dynestyThreadStarts_some]
    cases hst : dynestyThreadStarts res (unique res.ids) with
    | error e => rfl
    | ok starts =>
      have hlift : (M.lift ((Except.ok starts : Py _).map (List.map (WithBot.map some))) : M σ (List (WithBot (Option K)))) w1 =
          (.ok (starts.map (WithBot.map some)), w1) := rfl
      have hlift' : (M.lift (Except.ok starts : Py _) : M σ (List (WithBot K))) w1 = (.ok starts, w1) := rfl
      rw [M.bind_ok hlift, M.bind_ok hlift']
      have hstart : (starts.map (WithBot.map some)).map nanStart = starts.map (some : WithBot K → Option (WithBot K)) := by
        rw [List.map_map]
        apply List.map_congr_left
        intro x _
        cases x <;> rfl
      have hfin : finalInds (res.withTheta theta) (unique res.ids) = finalInds res (unique res.ids) := rfl
      have hdn : dynestyDn (res.withTheta theta) ((res.withTheta theta).nlive.isNone && (res.withTheta theta).samplesN.isSome)
            (finalInds res (unique res.ids)) =
          dynestyDn res (res.nlive.isNone && res.samplesN.isSome) (finalInds res (unique res.ids)) := by
        simp only [dynestyDn, Dynesty.withTheta, List.length_map]
      have hlogl : (res.withTheta theta).logl = res.logl.map some := rfl
      have hsam : (res.withTheta theta).samples = theta := rfl
      have htmm : (starts.map (some : WithBot K → Option (WithBot K))).zip ((gather res.logl (finalInds res (unique res.ids))).map some) =
          (starts.zip (gather res.logl (finalInds res (unique res.ids)))).map (fun p => (some p.1, some p.2)) := by
        rw [List.zip_map]
        rfl
      have hlen := dynestyDn_length (ends := finalInds res (unique res.ids)) hst
      have hrl := mkRows_loglOf (bs := res.ids.map (fun i => some (Int.ofNat i))) (by simp [hl.1, hl.2]) hlen (ts := res.samples)
        (by omega)
      have hlen2 := congrArg List.length hrl
      rw [List.length_map] at hlen2
      simp only [hstart, hfin, hdn, hlogl, hsam, gather_map, htmm]
      generalize dynestyDn res (res.nlive.isNone && res.samplesN.isSome) (finalInds res (unique res.ids)) = dn at *
      generalize starts.zip (gather res.logl (finalInds res (unique res.ids))) = tmm
      obtain ⟨p1, p2⟩ := mkRows_pairs res.logl (res.ids.map (fun i => some (Int.ofNat i))) dn res.samples theta ht
      have p3 : (theta.zip (mkRows res.logl (res.ids.map (fun i => some (Int.ofNat i))) dn res.samples)).map (·.1) = theta := by
        rw [List.map_fst_zip]
        omega
      have hall : ((tmm.map (fun p => ((some p.1 : Option (WithBot K)), (some p.2 : Option K)))).all
          (fun p => p.1.isSome && p.2.isSome)) = true := by simp
      rw [M.bind_ok (a := ()) (w' := w1) (by rw [M.assert_apply, if_pos hall])]
      rw [p1, C113_dict_numbers, p2, p3]
      simp only [bind_assoc, pure_bind]
      have hdt : ∀ {r : Run K} {v v' : World σ},
          dictGivenRunArray (mkRows res.logl (res.ids.map (fun i => some (Int.ofNat i))) dn res.samples) tmm v = (.ok r, v') →
          theta.length = r.theta.length := by
        intro r v v' hr
        have := dictGivenRunArray_theta hr
        rw [this, List.length_map, hlen2]
        omega
      cases hd : dictGivenRunArray (σ := σ) (mkRows res.logl (res.ids.map (fun i => some (Int.ofNat i))) dn res.samples) tmm w1 with
      | mk x w2 =>
      cases x with
      | error e => rw [M.bind_error hd, M.bind_error hd]
      | ok r => rw [M.bind_ok hd, M.bind_ok hd, C113_check_numbers A r (hdt hd)]

/-! ### Concrete cases -/

/-- Insertion sort with nan at the end. -/
def nanKey : Option Int → Option Int → Bool
  | _, none => true
  | none, some _ => false
  | some x, some y => decide (x ≤ y)

def nanSort : NanArgsort Int where
  idx l := (List.range l.length).mergeSort (fun i j => nanKey (l[i]?.getD none) (l[j]?.getD none))
  perm l := List.mergeSort_perm _ _
  sorted l := by
    have hp := List.mergeSort_perm (List.range l.length) (fun i j => nanKey (l[i]?.getD none) (l[j]?.getD none))
    have hs := List.pairwise_mergeSort (le := fun i j => nanKey (l[i]?.getD none) (l[j]?.getD none))
      (by
        intro a b c
        cases l[a]?.getD none <;> cases l[b]?.getD none <;> cases l[c]?.getD none <;> simp [nanKey]
        exact le_trans)
      (by
        intro a b
        cases l[a]?.getD none <;> cases l[b]?.getD none <;> simp [nanKey]
        exact le_total _ _)
      (List.range l.length)
    generalize (List.range l.length).mergeSort (fun i j => nanKey (l[i]?.getD none) (l[j]?.getD none)) = is at hp hs
    have hb : ∀ i ∈ is, i < l.length := fun i hi => List.mem_range.mp (hp.mem_iff.mp hi)
    unfold gather
    rw [List.pairwise_filterMap]
    refine hs.imp ?_
    intro i j hij a ha b hb
    have ha' : l[i]? = some a := ha
    have hb' : l[j]? = some b := hb
    rw [ha', hb'] at hij
    cases b with
    | none => exact .inl rfl
    | some y => cases a with
      | none => simp [nanKey] at hij
      | some x => exact .inr ⟨x, y, rfl, rfl, by simpa [nanKey] using hij⟩

/-- A sorted array with nan at its end is rejected. -/
example (w : World σ) : checkRunNan nanSort
    { logl := [some 1, some 2, none], nlive := [1, 1, 1], theta := [[], [], []], labels := some [0, 0, 0],
      tmm := some [(some ⊥, none)] } false true w = (.error .assertion, w) :=
  C113_check_logl _ (by simp) _ _ _

/-- So is nan at the start of the second thread. -/
example (w : World σ) : (checkRunNan nanSort
    { logl := [some 1, some 2, some 3], nlive := [2, 2, 1], theta := [[], [], []], labels := some [0, 1, 0],
      tmm := some [(some ⊥, some 3), (none, some 2)] } false true w).1 = .error .assertion :=
  C113_check_threads _ rfl ⟨_, List.mem_cons_of_mem _ List.mem_cons_self, .inl rfl⟩ _ _ _

example (R : Rng σ Int) (w : World σ) : processSamplesNan nanSort R [⟨[some 7], some 2, some 0⟩, ⟨[some 8], none, some 0⟩] true true w =
    (.error .assertion, w) :=
  C113_process_logl _ _ ⟨_, List.mem_cons_of_mem _ List.mem_cons_self, rfl⟩ _ _ _

example (R : Rng σ Int) (w : World σ) :
    (processSamplesNan nanSort R [⟨[some 7], some 2, none⟩, ⟨[some 8], some 3, some 0⟩] true true w).1 = .error .assertion :=
  C113_process_birth _ _ ⟨_, List.mem_cons_self, rfl⟩ _ _ _

example {F : Type} (R : Rng σ Int) (CF : Codec F) (CI : Codec Int) (texts : Texts) (w : World σ) :
    (processPolychordNan nanSort R CF CI (fun _ => some [[some 7, some 2, some 0], [some 8, some 3, none]]) texts "a" "b" true true true
      w).1 = .error .assertion :=
  C113_polychord (n := 1) _ _ _ _ _ _ _ _ rfl (by simp) (by simp) ⟨[some 8, some 3, none], by simp, by simp⟩ _ _ _ _

example (R : Rng σ Int) (w : World σ) :
    (processMultinestNan nanSort R (fun name => if name = pathJoin "b" "a" ++ "dead-birth.txt" then
        some [[some 7, none, some 0, some 1, some 1], [some 8, some 3, some 0, some 1, some 1]]
      else some [[some 9, some 4, some 2, some 1], [some 9, some 5, some 3, some 1]]) "a" "b" true true w).1 =
      .error .assertion :=
  C113_multinest (n := 1) (live := [[some 9, some 4, some 2, some 1], [some 9, some 5, some 3, some 1]])
    (dead := [[some 7, none, some 0, some 1, some 1], [some 8, some 3, some 0, some 1, some 1]]) _ _ _ _ _ (if_pos rfl)
    (if_neg (by simp [String.append_right_inj])) (by simp) (by simp) (.inl ⟨[some 7, none, some 0, some 1, some 1], by simp, by simp⟩)
    (by simp) (by simp) _ _ _

example (w : World σ) : dictGivenRunArrayNan (K := Int) [⟨some 1, some 0, 0, []⟩, ⟨none, some 0, 0, []⟩] [(some ⊥, none)] w =
    (.error .assertion, w) :=
  C113_dict ⟨_, List.mem_cons_of_mem _ List.mem_cons_self, rfl⟩ _ _

/-- Two live points of a static dynesty run, the last with nan as its loglikelihood. -/
example (w : World σ) : processDynestyNan nanSort
    { samples := [[some 1], [some 2], [some 3]], logl := [some 1, some 2, none], ids := [0, 0, 1], nlive := some 2, batchNlive := [],
      samplesN := none, samplesBatch := [], batchStart := [] } w = (.error .assertion, w) :=
  C113_dynesty_static _ rfl rfl rfl (by simp) w

/-- nan as a parameter is no obstacle. -/
example : ∃ r : NanRun Int, (∀ w : World σ, processDynestyNan nanSort
    (exDynesty.withTheta [[some 10], [none], [some 30], [some 40], [none]]) w = (.ok r, w)) ∧
    r.theta = [[some 10], [none], [some 30], [some 40], [none]] ∧ r.logl = [some 1, some 2, some 4, some 5, some 6] := by
  obtain ⟨run, tmm, h, _, _, _, h1, _⟩ := C12_static (σ := σ) nanSort.plain exDynesty_shape rfl (by decide)
  refine ⟨run.withTheta [[some 10], [none], [some 30], [some 40], [none]], fun w => ?_, rfl, ?_⟩
  · rw [C113_dynesty_numbers nanSort exDynesty rfl, M.bind_ok (h w)]
    rfl
  · change run.logl.map some = _
    rw [h1]
    rfl

end Nestcheck
