import Verif.Model.Instances
import Verif.Model.DataProcessing
import Verif.Model.ErrorAnalysis
import Verif.Proofs.Basic
import Verif.Proofs.RunArray
import Verif.Spec.Run

/-
C86: changing the parameters of the samples commutes with processing, splitting, combining and resampling runs.
-/

set_option linter.unusedSectionVars false

namespace Nestcheck
open Spec

/-- `x'` does what `x` does, and returns the image of its result. -/
def Spec.Carried {σ α β : Type} (g : α → β) (x : M σ α) (x' : M σ β) : Prop := ∀ w, x' w = ((x w).1.map g, (x w).2)

section carried
variable {σ α β γ δ : Type}

theorem Spec.Carried.bind {g : α → β} {h : γ → δ} {x : M σ α} {x' : M σ β} {k : α → M σ γ} {k' : β → M σ δ} (hx : Carried g x x')
    (hk : ∀ a, Carried h (k a) (k' (g a))) : Carried h (x >>= k) (x' >>= k') := by
  intro w
  rw [M.bind_apply, M.bind_apply, hx w]
  rcases x w with ⟨_ | a, w'⟩
  · rfl
  · exact hk a w'

/-- The same, where the continuation may use that `a` is a result of `x`. -/
theorem Spec.Carried.bind_of {g : α → β} {h : γ → δ} {x : M σ α} {x' : M σ β} {k : α → M σ γ} {k' : β → M σ δ} (hx : Carried g x x')
    (hk : ∀ a w w', x w = (.ok a, w') → Carried h (k a) (k' (g a))) : Carried h (x >>= k) (x' >>= k') := by
  intro w
  rw [M.bind_apply, M.bind_apply, hx w]
  rcases hw : x w with ⟨_ | a, w'⟩
  · rfl
  · exact hk a w w' hw w'

/-- A computation which does not involve what is changed. -/
theorem Spec.Carried.same {h : γ → δ} {x : M σ α} {k : α → M σ γ} {k' : α → M σ δ}
    (hk : ∀ a, Carried h (k a) (k' a)) : Carried h (x >>= k) (x >>= k') := by
  intro w
  rw [M.bind_apply, M.bind_apply]
  rcases x w with ⟨_ | a, w'⟩
  · rfl
  · exact hk a w'

theorem Spec.Carried.refl (x : M σ α) : Carried id x x := by
  intro w
  rcases x w with ⟨_ | a, w'⟩ <;> rfl

theorem Spec.Carried.pure (g : α → β) (a : α) : Carried g (Pure.pure a : M σ α) (Pure.pure (g a)) := fun _ => rfl

theorem Spec.Carried.raise (g : α → β) (e : PyErr) : Carried g (M.raise e : M σ α) (M.raise e) := fun _ => rfl

theorem Spec.Carried.lift {g : α → β} {x : Py α} {x' : Py β} (h : x' = x.map g) : Carried g (M.lift x : M σ α) (M.lift x') :=
  fun w => by rw [h]; rfl

end carried

section runs
variable {σ K : Type} [CommRing K] [LinearOrder K]

/-- The run with `f` applied to the parameters of every sample. -/
def Run.mapTheta (f : List K → List K) (r : Run K) : Run K := { r with theta := r.theta.map f }

def Row.mapTheta (f : List K → List K) (r : Row K) : Row K := { r with theta := f r.theta }

def Sample.mapTheta (f : List K → List K) (s : Sample K) : Sample K := { s with theta := f s.theta }

/-- `f` keeps samples with equal numbers of parameters apart from those with different numbers. -/
def Spec.KeepsWidth (f : List K → List K) (ts : List (List K)) : Prop :=
  ∀ s ∈ ts, ∀ t ∈ ts, (f s).length = (f t).length ↔ s.length = t.length

variable (f : List K → List K)

theorem mkRows_theta (ls : List K) (bs : List (Option Int)) (ds : List Int) (ts : List (List K)) :
    mkRows ls bs ds (ts.map f) = (mkRows ls bs ds ts).map (Row.mapTheta f) := by
  induction ls generalizing bs ds ts with
  | nil => rfl
  | cons l ls ih =>
    cases bs with
    | nil => rfl
    | cons b bs =>
      cases ds with
      | nil => rfl
      | cons d ds =>
        cases ts with
        | nil => rfl
        | cons t ts =>
          simp only [List.map_cons, mkRows, ih]
          rfl

theorem arrayGivenRun_theta (r : Run K) : arrayGivenRun (r.mapTheta f) = (arrayGivenRun r).map (List.map (Row.mapTheta f)) := by
  unfold arrayGivenRun
  have hl : labelColumn (r.mapTheta f) = labelColumn r := rfl
  simp only [hl]
  simp only [Run.mapTheta, List.length_map, mkRows_theta]
  split_ifs <;> rfl

theorem dict_theta (rows : List (Row K)) (tmm : List (WithBot K × K)) :
    Carried (σ := σ) (Run.mapTheta f) (dictGivenRunArray rows tmm) (dictGivenRunArray (rows.map (Row.mapTheta f)) tmm) := by
  have e1 : (rows.map (Row.mapTheta f)).map (·.logl) = rows.map (·.logl) := by rw [List.map_map]; rfl
  have e2 : (rows.map (Row.mapTheta f)).map (·.dn) = rows.map (·.dn) := by rw [List.map_map]; rfl
  have e3 : (rows.map (Row.mapTheta f)).map (·.label) = rows.map (·.label) := by rw [List.map_map]; rfl
  have e4 : (rows.map (Row.mapTheta f)).map (·.theta) = (rows.map (·.theta)).map f := by rw [List.map_map, List.map_map]; rfl
  unfold dictGivenRunArray
  simp only [e1, e2, e3, e4]
  cases amin (rows.map (·.logl)) with
  | none => exact Carried.raise _ _
  | some m =>
    simp only
    refine Carried.same fun _ => ?_
    refine Carried.same fun nl => ?_
    refine Carried.same fun _ => ?_
    refine Carried.same fun _ => ?_
    exact Carried.pure _ _

theorem threadDn_theta (rows : List (Row K)) : threadDn (rows.map (Row.mapTheta f)) = (threadDn rows).map (Row.mapTheta f) := by
  induction rows with
  | nil => rfl
  | cons r rs ih =>
    cases rs with
    | nil => rfl
    | cons s ss =>
      simp only [List.map_cons] at ih ⊢
      simp only [threadDn, List.map_cons, ih]
      rfl

theorem getThread_theta (rows : List (Row K)) (tmm : List (WithBot K × K)) (i : Nat) (lab : Int) :
    Carried (σ := σ) (Run.mapTheta f) (getThread rows tmm i lab) (getThread (rows.map (Row.mapTheta f)) tmm i lab) := by
  have e : (rows.map (Row.mapTheta f)).filter (fun r => decide (r.label = some lab)) =
      (rows.filter (fun r => decide (r.label = some lab))).map (Row.mapTheta f) := by
    rw [List.filter_map]; rfl
  unfold getThread
  simp only [e, threadDn_theta, List.getLast?_map]
  cases tmm[i]? with
  | none => exact Carried.raise _ _
  | some mm =>
    cases (threadDn (rows.filter (fun r => decide (r.label = some lab)))).getLast? with
    | none => exact Carried.raise _ _
    | some last => exact Carried.same fun _ => dict_theta f _ _

theorem getThreadsLoop_theta (rows : List (Row K)) (tmm : List (WithBot K × K)) (i : Nat) (labs : List Int) :
    Carried (σ := σ) (List.map (Run.mapTheta f)) (getThreadsLoop rows tmm i labs)
      (getThreadsLoop (rows.map (Row.mapTheta f)) tmm i labs) := by
  induction labs generalizing i with
  | nil => exact Carried.pure _ _
  | cons lab labs ih =>
    unfold getThreadsLoop
    exact (getThread_theta f rows tmm i lab).bind fun t => (ih (i + 1)).bind fun ts => Carried.pure _ _

/-- C86 for `get_run_threads`. -/
theorem C86_split (r : Run K) :
    Carried (σ := σ) (List.map (Run.mapTheta f)) (getRunThreads r) (getRunThreads (r.mapTheta f)) := by
  unfold getRunThreads
  refine (Carried.lift (arrayGivenRun_theta f r)).bind fun rows => ?_
  have h1 : (r.mapTheta f).labels = r.labels := rfl
  have h2 : (r.mapTheta f).tmm = r.tmm := rfl
  rw [h1, h2]
  cases r.labels with
  | none => exact Carried.raise _ _
  | some labels =>
    cases r.tmm with
    | none => exact Carried.raise _ _
    | some tmm => exact Carried.same fun _ => getThreadsLoop_theta f _ _ _ _

theorem sortBy_image {α β : Type} (A : Argsort K) (key : β → K) (g : α → β) (rows : List α) :
    sortBy A key (rows.map g) = (sortBy A (fun a => key (g a)) rows).map g := by
  unfold sortBy
  rw [gather_map, List.map_map]
  rfl

theorem tmmStack_theta (runs : List (Run K)) : tmmStack (runs.map (Run.mapTheta f)) = tmmStack runs := by
  induction runs with
  | nil => rfl
  | cons r rs ih =>
    have h2 : (r.mapTheta f).tmm = r.tmm := rfl
    cases rs with
    | nil => simp only [List.map_cons, List.map_nil, tmmStack, h2]
    | cons s ss =>
      simp only [List.map_cons] at ih ⊢
      simp only [tmmStack, h2, ih]

theorem arraysGivenRuns_theta (runs : List (Run K)) :
    arraysGivenRuns (runs.map (Run.mapTheta f)) = (arraysGivenRuns runs).map (List.map (List.map (Row.mapTheta f))) := by
  induction runs with
  | nil => rfl
  | cons r rs ih =>
    simp only [List.map_cons, arraysGivenRuns, arrayGivenRun_theta, ih]
    cases arrayGivenRun r with
    | error e => rfl
    | ok a => cases arraysGivenRuns rs <;> rfl

variable {f}

theorem vstack_theta {arrs : List (List (Row K))} (hf : KeepsWidth f (arrs.flatten.map (·.theta))) :
    vstack (arrs.map (List.map (Row.mapTheta f))) = (vstack arrs).map (List.map (Row.mapTheta f)) := by
  cases arrs with
  | nil => rfl
  | cons a as =>
    have e : ((a :: as).map (List.map (Row.mapTheta f))).flatten = (a :: as).flatten.map (Row.mapTheta f) := by
      rw [List.map_flatten]
    have key : ((a :: as).flatten.map (Row.mapTheta f)).all (fun r => ((a :: as).flatten.map (Row.mapTheta f)).all
        (fun s => decide (r.theta.length = s.theta.length))) =
        (a :: as).flatten.all (fun r => (a :: as).flatten.all (fun s => decide (r.theta.length = s.theta.length))) := by
      rw [Bool.eq_iff_iff]
      simp only [List.all_eq_true, List.mem_map, forall_exists_index, and_imp, forall_apply_eq_imp_iff₂, decide_eq_true_eq]
      refine forall₂_congr fun r hr => forall₂_congr fun s hs => ?_
      exact hf r.theta (List.mem_map.mpr ⟨r, hr, rfl⟩) s.theta (List.mem_map.mpr ⟨s, hs, rfl⟩)
    simp only [List.map_cons] at e ⊢
    unfold vstack
    simp only [e]
    rw [key]
    split_ifs <;> rfl

theorem arraysGivenRuns_thetas {runs : List (Run K)} {arrs : List (List (Row K))} (h : arraysGivenRuns runs = .ok arrs) :
    arrs.flatten.map (·.theta) = runs.flatMap (·.theta) := by
  induction runs generalizing arrs with
  | nil => cases h; rfl
  | cons r rs ih =>
    unfold arraysGivenRuns at h
    obtain ⟨a, ha⟩ : ∃ a, arrayGivenRun r = .ok a := by
      cases ha : arrayGivenRun r with
      | error e => rw [ha] at h; cases h
      | ok a => exact ⟨a, rfl⟩
    obtain ⟨as, has⟩ : ∃ as, arraysGivenRuns rs = .ok as := by
      cases has : arraysGivenRuns rs with
      | error e => rw [ha, has] at h; cases h
      | ok as => exact ⟨as, rfl⟩
    rw [ha, has] at h
    cases h
    rw [List.flatten_cons, List.map_append, List.flatMap_cons, ih has]
    congr 1
    unfold arrayGivenRun at ha
    simp only at ha
    split_ifs at ha with h1 h2
    have e := Except.ok.inj ha
    rw [← e]
    have h3 : (labelColumn r).length = r.logl.length := by tauto
    have h4 : r.nlive.length = r.logl.length := by tauto
    have h5 : r.theta.length = r.logl.length := by tauto
    exact (mkRows_map h3 (by simp [length_diff, h4]; omega) h5).2.2.2

variable (f)

theorem birthUpdate_theta (R : Rng σ K) (abp : Bool) (ss : List K) (rows : List (Row K)) :
    Carried (List.map (Row.mapTheta f)) (birthUpdate R abp ss rows) (birthUpdate R abp ss (rows.map (Row.mapTheta f))) := by
  induction ss generalizing rows with
  | nil => exact Carried.pure _ _
  | cons s ss ih =>
    have e1 : (rows.map (Row.mapTheta f)).map (·.logl) = rows.map (·.logl) := by rw [List.map_map]; rfl
    have e2 : (rows.map (Row.mapTheta f)).map (fun r => |r.logl - s|) = rows.map (fun r => |r.logl - s|) := by
      rw [List.map_map]; rfl
    unfold birthUpdate
    simp only [e1, e2]
    refine Carried.same fun _ => ?_
    refine Carried.same fun k => ?_
    have e3 : (rows.map (Row.mapTheta f)).modify k (fun r => { r with dn := r.dn + 1 }) =
        (rows.modify k (fun r => { r with dn := r.dn + 1 })).map (Row.mapTheta f) := by
      apply List.ext_getElem?
      intro i
      simp only [List.getElem?_modify, List.getElem?_map]
      cases rows[i]? with
      | none => simp
      | some r => by_cases h : k = i <;> simp [h, Row.mapTheta]
    rw [e3]
    exact ih _

variable {f}

/-- C86 for `combine_threads`. -/
theorem C86_combine_threads (A : Argsort K) (R : Rng σ K) {threads : List (Run K)}
    (hf : KeepsWidth f (threads.flatMap (·.theta))) (abp : Bool) :
    Carried (Run.mapTheta f) (combineThreads A R threads abp) (combineThreads A R (threads.map (Run.mapTheta f)) abp) := by
  unfold combineThreads
  rw [tmmStack_theta, List.length_map]
  refine Carried.same fun tmm => ?_
  refine Carried.same fun _ => ?_
  refine (Carried.lift (arraysGivenRuns_theta f threads)).bind_of fun arrs w w' ha => ?_
  have ha' : arraysGivenRuns threads = .ok arrs := congrArg Prod.fst ha
  refine (Carried.lift (vstack_theta (by rw [arraysGivenRuns_thetas ha']; exact hf))).bind fun rows => ?_
  refine Carried.same fun state => ?_
  refine Carried.same fun _ => ?_
  rw [sortBy_image]
  refine (birthUpdate_theta f R abp _ _).bind fun rows => ?_
  refine Carried.same fun _ => ?_
  refine (dict_theta f rows tmm).bind fun run => ?_
  have hc : checkThreads (run.mapTheta f) = checkThreads run := rfl
  rw [hc]
  cases checkThreads run with
  | ok _ => exact Carried.pure _ _
  | error e => cases e <;> first | exact Carried.pure _ _ | exact Carried.raise _ _

theorem checkRun_theta (A : Argsort K) (r : Run K) (da dw : Bool) :
    checkRun (σ := σ) A (r.mapTheta f) da dw = checkRun A r da dw := by
  have h : checkMembers (r.mapTheta f) = checkMembers r := by
    unfold checkMembers
    simp only [Run.mapTheta, List.length_map]
  unfold checkRun
  rw [h]
  rfl

theorem relabelLoop_theta (A : Argsort K) (da dw : Bool) (n : Nat) (runs : List (Run K)) :
    Carried (σ := σ) (List.map (Run.mapTheta f)) (relabelLoop A da dw n runs) (relabelLoop A da dw n (runs.map (Run.mapTheta f))) := by
  induction runs generalizing n with
  | nil => exact Carried.pure _ _
  | cons r rs ih =>
    unfold relabelLoop
    simp only [List.map_cons]
    rw [checkRun_theta]
    refine Carried.same fun _ => ?_
    exact (ih _).bind fun rs' => Carried.pure _ _

theorem relabelLoop_thetas {A : Argsort K} {da dw : Bool} {n : Nat} {runs runs' : List (Run K)} {w w' : World σ}
    (h : relabelLoop A da dw n runs w = (.ok runs', w')) : runs'.flatMap (·.theta) = runs.flatMap (·.theta) := by
  induction runs generalizing n runs' w w' with
  | nil => cases h; rfl
  | cons r rs ih =>
    unfold relabelLoop at h
    obtain ⟨_, w1, -, h⟩ := M.bind_eq_ok.mp h
    obtain ⟨rs', w2, h1, h⟩ := M.bind_eq_ok.mp h
    cases h
    rw [List.flatMap_cons, List.flatMap_cons, ih h1]

/-- C86 for `combine_ns_runs`. -/
theorem C86_combine_runs (A : Argsort K) {runs : List (Run K)} (hf : KeepsWidth f (runs.flatMap (·.theta))) (da dw : Bool) :
    Carried (σ := σ) (Run.mapTheta f) (combineRuns A runs da dw) (combineRuns A (runs.map (Run.mapTheta f)) da dw) := by
  have hs : Carried (σ := σ) (Run.mapTheta f) (stackRuns A runs da dw) (stackRuns A (runs.map (Run.mapTheta f)) da dw) := by
    have gen : Carried (σ := σ) (Run.mapTheta f) (do
        let runs ← relabelLoop A da dw 0 runs
        let tmm ← M.lift (tmmStack runs)
        let arrs ← M.lift (arraysGivenRuns runs)
        let rows ← M.lift (vstack arrs)
        dictGivenRunArray (sortBy A (·.logl) rows) tmm) (do
        let runs ← relabelLoop A da dw 0 (runs.map (Run.mapTheta f))
        let tmm ← M.lift (tmmStack runs)
        let arrs ← M.lift (arraysGivenRuns runs)
        let rows ← M.lift (vstack arrs)
        dictGivenRunArray (sortBy A (·.logl) rows) tmm) := by
      refine (relabelLoop_theta A da dw 0 runs).bind_of fun runs' w w' hr => ?_
      rw [tmmStack_theta]
      refine Carried.same fun tmm => ?_
      refine (Carried.lift (arraysGivenRuns_theta f runs')).bind_of fun arrs w w' ha => ?_
      have ha' : arraysGivenRuns runs' = .ok arrs := congrArg Prod.fst ha
      refine (Carried.lift (vstack_theta (by
        rw [arraysGivenRuns_thetas ha', relabelLoop_thetas hr]; exact hf))).bind fun rows => ?_
      rw [sortBy_image]
      exact dict_theta f _ _
    match runs with
    | [] => exact gen
    | [r] => exact Carried.pure _ _
    | _ :: _ :: _ => exact gen
  unfold combineRuns
  refine hs.bind fun run => ?_
  rw [checkRun_theta]
  exact Carried.same fun _ => Carried.pure _ _

/-- C86 for `process_samples_array`. -/
theorem C86_process (f : List K → List K) (A : Argsort K) (R : Rng σ K) (samples : List (Sample K)) (da dw : Bool) :
    Carried (Run.mapTheta f) (processSamples A R samples da dw) (processSamples A R (samples.map (Sample.mapTheta f)) da dw) := by
  unfold processSamples
  rw [sortBy_image]
  have e0 : (fun s : Sample K => (s.mapTheta f).logl) = (·.logl) := rfl
  have e1 : ∀ l : List (Sample K), (l.map (Sample.mapTheta f)).map (·.logl) = l.map (·.logl) := fun l => by rw [List.map_map]; rfl
  have e2 : ∀ l : List (Sample K), (l.map (Sample.mapTheta f)).map (·.birth) = l.map (·.birth) := fun l => by rw [List.map_map]; rfl
  have e3 : ∀ l : List (Sample K), (l.map (Sample.mapTheta f)).map (·.theta) = (l.map (·.theta)).map f := fun l => by
    rw [List.map_map, List.map_map]; rfl
  simp only [e0, e1, e2, e3, List.length_map]
  refine Carried.same fun b => ?_
  refine Carried.same fun labels => ?_
  refine Carried.same fun _ => ?_
  refine Carried.same fun acc => ?_
  exact Carried.pure _ _

theorem selectThreads_theta (threads : List (Run K)) (inds : List Nat) :
    selectThreads (threads.map (Run.mapTheta f)) inds = (selectThreads threads inds).map (List.map (Run.mapTheta f)) := by
  unfold selectThreads
  rw [List.length_map, gather_map]
  split_ifs <;> rfl

theorem Spec.KeepsWidth.mono {ts ts' : List (List K)} (h : KeepsWidth f ts) (hs : ts' ⊆ ts) : KeepsWidth f ts' :=
  fun s hs' t ht => h s (hs hs') t (hs ht)

theorem dict_thetas {rows : List (Row K)} {tmm : List (WithBot K × K)} {w w' : World σ} {r : Run K}
    (h : dictGivenRunArray rows tmm w = (.ok r, w')) : r.theta = rows.map (·.theta) := by
  unfold dictGivenRunArray at h
  simp only at h
  cases hm : amin (rows.map (·.logl)) with
  | none => rw [hm] at h; cases h
  | some m =>
    rw [hm] at h
    simp only at h
    obtain ⟨_, _, -, h⟩ := M.bind_eq_ok.mp h
    obtain ⟨nl, _, -, h⟩ := M.bind_eq_ok.mp h
    obtain ⟨_, _, -, h⟩ := M.bind_eq_ok.mp h
    obtain ⟨_, _, -, h⟩ := M.bind_eq_ok.mp h
    cases h
    rfl

theorem threadDn_thetas (rows : List (Row K)) : (threadDn rows).map (·.theta) = rows.map (·.theta) := by
  induction rows with
  | nil => rfl
  | cons r rs ih =>
    cases rs with
    | nil => rfl
    | cons s ss =>
      simp only [threadDn, List.map_cons] at ih ⊢
      rw [ih]

theorem getThreadsLoop_thetas {rows : List (Row K)} {tmm : List (WithBot K × K)} {i : Nat} {labs : List Int} {w w' : World σ}
    {ts : List (Run K)} (h : getThreadsLoop rows tmm i labs w = (.ok ts, w')) :
    ts.flatMap (·.theta) ⊆ rows.map (·.theta) := by
  induction labs generalizing i w w' ts with
  | nil => cases h; simp
  | cons lab labs ih =>
    unfold getThreadsLoop at h
    obtain ⟨t, w1, h1, h⟩ := M.bind_eq_ok.mp h
    obtain ⟨ts', w2, h2, h⟩ := M.bind_eq_ok.mp h
    cases h
    rw [List.flatMap_cons]
    refine List.append_subset.mpr ⟨?_, ih h2⟩
    unfold getThread at h1
    cases hm : tmm[i]? with
    | none => rw [hm] at h1; cases h1
    | some mm =>
      cases hl : (threadDn (rows.filter (fun r => decide (r.label = some lab)))).getLast? with
      | none => rw [hm, hl] at h1; cases h1
      | some last =>
        rw [hm, hl] at h1
        obtain ⟨_, _, -, h1⟩ := M.bind_eq_ok.mp h1
        rw [dict_thetas h1, threadDn_thetas]
        exact List.map_subset _ (List.filter_sublist.subset)

theorem getRunThreads_thetas {r : Run K} {w w' : World σ} {ts : List (Run K)} (h : getRunThreads r w = (.ok ts, w')) :
    ts.flatMap (·.theta) ⊆ r.theta := by
  unfold getRunThreads at h
  obtain ⟨rows, w1, h1, h⟩ := M.bind_eq_ok.mp h
  have ha : arrayGivenRun r = .ok rows := congrArg Prod.fst h1
  have hr : rows.map (·.theta) = r.theta := by
    have := arraysGivenRuns_thetas (runs := [r]) (arrs := [rows]) (by
      simp only [arraysGivenRuns, ha]; rfl)
    simpa using this
  cases hl : r.labels with
  | none => rw [hl] at h; cases h
  | some labels =>
    cases ht : r.tmm with
    | none => rw [hl, ht] at h; cases h
    | some tmm =>
      rw [hl, ht] at h
      obtain ⟨_, _, -, h⟩ := M.bind_eq_ok.mp h
      rw [← hr]
      exact getThreadsLoop_thetas h

theorem resample_theta (A : Argsort K) (R : Rng σ K) (r : Run K) {ts : List (Run K)} (hf : KeepsWidth f (ts.flatMap (·.theta)))
    (settings : Option Settings) (sep : Bool) (seed : Seed) (state : σ) :
    Carried (Prod.map (Run.mapTheta f) id)
      (do
        let inds ← bootstrapInds R r.tmm settings ts.length sep
        let temp ← M.lift (selectThreads ts inds)
        let run ← combineThreads A R temp false
        restoreState seed state
        pure (run, settings) : M σ (Run K × Option Settings))
      (do
        let inds ← bootstrapInds R (r.mapTheta f).tmm settings (ts.map (Run.mapTheta f)).length sep
        let temp ← M.lift (selectThreads (ts.map (Run.mapTheta f)) inds)
        let run ← combineThreads A R temp false
        restoreState seed state
        pure (run, settings)) := by
  rw [List.length_map]
  refine Carried.same fun inds => ?_
  refine (Carried.lift (selectThreads_theta ts inds)).bind_of fun temp w w' ht => ?_
  have ht' : selectThreads ts inds = .ok temp := congrArg Prod.fst ht
  have hsub : temp ⊆ ts := by
    unfold selectThreads at ht'
    split_ifs at ht'
    have e := Except.ok.inj ht'
    rw [← e]
    intro t h
    obtain ⟨i, -, hi⟩ := List.mem_filterMap.mp h
    exact List.mem_of_getElem? hi
  have hk : KeepsWidth f (temp.flatMap (·.theta)) := hf.mono (by
    intro x hx
    obtain ⟨t, ht, hx⟩ := List.mem_flatMap.mp hx
    exact List.mem_flatMap.mpr ⟨t, hsub ht, hx⟩)
  refine (C86_combine_threads A R hk false).bind fun run => ?_
  exact Carried.same fun _ => Carried.pure _ _

/-- C86 for `bootstrap_resample_run`. -/
theorem C86_resample (A : Argsort K) (R : Rng σ K) {r : Run K} {threads : Option (List (Run K))}
    (hf : KeepsWidth f (r.theta ++ (threads.getD []).flatMap (·.theta))) (settings : Option Settings) (sep : Bool) (seed : Seed) :
    Carried (Prod.map (Run.mapTheta f) id) (bootstrapResampleRun A R r settings threads sep seed)
      (bootstrapResampleRun A R (r.mapTheta f) settings (threads.map (List.map (Run.mapTheta f))) sep seed) := by
  unfold bootstrapResampleRun
  refine Carried.same fun state => ?_
  refine Carried.same fun _ => ?_
  cases threads with
  | some ts =>
    exact (Carried.pure (List.map (Run.mapTheta f)) ts).bind_of fun ts' w w' h => by
      cases h
      exact resample_theta A R r (hf.mono (by simp)) settings sep seed state
  | none =>
    refine (C86_split f r).bind_of fun ts w w' h => ?_
    exact resample_theta A R r (hf.mono (fun x hx => List.mem_append_left _ (getRunThreads_thetas h hx))) settings sep seed state

/-- Three samples of two parameters. -/
def swapSamples : List (Sample ℤ) := [⟨[10, 1], 1, -100⟩, ⟨[20, 4], 3, -100⟩, ⟨[30, 9], 4, 1⟩]

/-- Processing samples whose parameters are given in the other order. -/
example : (processSamples (σ := Nat) (stableSort ℤ) (counterRng ℤ (by decide)) (swapSamples.map (Sample.mapTheta List.reverse)) true false ⟨0, []⟩).1.map
    (·.theta) = .ok [[1, 10], [4, 20], [9, 30]] := by
  rw [C86_process]
  rfl

/-- Reversing the parameters keeps widths, so everything above applies to it. -/
example : KeepsWidth List.reverse (swapSamples.map (·.theta)) := by
  intro s _ t _
  simp

end runs
end Nestcheck
