import Verif.Props.Dynesty
import Verif.Props.Multinest
import Verif.Props.Combine
import Verif.Props.Estimators
import Verif.Model.DummyData
import Verif.Props.Pandas
import Verif.Model.Plots
import Verif.Model.KdePlot

/-
C109: input of the wrong shape is rejected, and with which exception.
-/

set_option linter.unusedSectionVars false

namespace Nestcheck
open Spec

section runs
variable {K σ : Type} [CommRing K] [LinearOrder K]

/-- Two samples with different numbers of parameters. -/
def Spec.MixedWidths (ts : List (List K)) : Prop := ∃ s ∈ ts, ∃ t ∈ ts, s.length ≠ t.length

theorem vstack_mixed {arrs : List (List (Row K))} (h : MixedWidths (arrs.flatten.map (·.theta))) :
    vstack arrs = .error .value := by
  obtain ⟨s, hs, t, ht, hst⟩ := h
  obtain ⟨x, hx, rfl⟩ := List.mem_map.mp hs
  obtain ⟨y, hy, rfl⟩ := List.mem_map.mp ht
  cases arrs with
  | nil => rfl
  | cons a as =>
    unfold vstack
    dsimp only
    rw [if_neg]
    simp only [List.all_eq_true, decide_eq_true_eq]
    exact fun h => hst (h x hx y hy)

theorem relabelLoop_valid {A : Argsort K} {da dw : Bool} (runs : List (Run K)) (hv : ∀ r ∈ runs, Valid r)
    (hd : da = true → ∀ r ∈ runs, Distinct r.logl) (n : Nat) (w : World σ) :
    ∃ (runs' : List (Run K)) (tms : List (List (WithBot K × K))) (arrs : List (List (Row K))) (w' : World σ),
      relabelLoop A da dw n runs w = (.ok runs', w') ∧ runs'.length = runs.length ∧
      List.Forall₂ (fun t tm => t.tmm = some tm) runs' tms ∧
      List.Forall₂ (fun t a => arrayGivenRun t = .ok a) runs' arrs ∧
      arrs.flatten.map (·.theta) = runs.flatMap (·.theta) := by
  induction runs generalizing n w with
  | nil => exact ⟨[], [], [], w, rfl, rfl, .nil, .nil, rfl⟩
  | cons r rs ih =>
    have h1 := (checkRun_ok_iff A r da dw w).mpr ⟨hv r (by simp), fun h => hd h r (by simp)⟩
    rcases hx : checkRun A r da dw w with ⟨x, w1⟩
    rw [hx] at h1
    simp only at h1
    subst h1
    obtain ⟨rs', tms, arrs, w2, e2, h3, h4, h5, h6⟩ := ih (fun r hr => hv r (by simp [hr]))
      (fun h r hr => hd h r (by simp [hr])) (n + (r.tmm.getD []).length) w1
    obtain ⟨labels, tmm, hval⟩ := hv r (by simp)
    obtain ⟨rows, g1, -, -, -, g2⟩ := arrayGivenRun_ok
      (r := { r with labels := r.labels.map (·.map (· + (n : Int))) }) (labels := labels.map (· + (n : Int)))
      (by simp only [hval.labels_eq]; rfl) (by rw [List.length_map, hval.labels_len]) hval.nlive_len hval.theta_len
      (Valid.logl_ne (r := r) ⟨labels, tmm, hval⟩)
    refine ⟨{ r with labels := r.labels.map (·.map (· + (n : Int))) } :: rs', tmm :: tms, rows :: arrs, w2, ?_, ?_, .cons hval.tmm_eq h4, .cons g1 h5, ?_⟩
    · unfold relabelLoop
      rw [M.bind_ok hx, M.bind_ok e2]
      rfl
    · simp [h3]
    · rw [List.flatten_cons, List.map_append, g2, h6, List.flatMap_cons]

/-- C109: `combine_ns_runs` raises `ValueError` if there are no runs, and for two or more valid runs which do not all have
the same number of parameters. -/
theorem C109_combine (A : Argsort K) (da dw : Bool) (w : World σ) :
    (combineRuns A ([] : List (Run K)) da dw w = (.error .value, w)) ∧
    ∀ runs : List (Run K), 2 ≤ runs.length → (∀ r ∈ runs, Valid r) → (da = true → ∀ r ∈ runs, Distinct r.logl) →
      MixedWidths (runs.flatMap (·.theta)) → (combineRuns A runs da dw w).1 = .error .value := by
  refine ⟨rfl, fun runs h2 hv hd hm => ?_⟩
  obtain ⟨runs', tms, arrs, w', e1, e2, e3, e4, e5⟩ := relabelLoop_valid (A := A) (dw := dw) runs hv hd 0 w
  have hne : runs' ≠ [] := by
    rintro rfl
    rw [List.length_nil] at e2
    omega
  have gen : (do
      let runs ← relabelLoop A da dw 0 runs
      let tmm ← M.lift (tmmStack runs)
      let arrs ← M.lift (arraysGivenRuns runs)
      let rows ← M.lift (vstack arrs)
      dictGivenRunArray (sortBy A (·.logl) rows) tmm : M σ (Run K)) w = (.error .value, w') := by
    rw [M.bind_ok e1, tmmStack_ok hne e3, M.bind_ok (M.lift_apply _ _), arraysGivenRuns_ok e4,
      M.bind_ok (M.lift_apply _ _), vstack_mixed (by rw [e5]; exact hm), M.bind_error (M.lift_apply _ _)]
  have hs : stackRuns A runs da dw w = (.error .value, w') := by
    match runs, h2, gen with
    | [], h, _ => simp at h
    | [r], h, _ => simp at h
    | _ :: _ :: _, _, g => exact g
  unfold combineRuns
  rw [M.bind_error hs]

/-- C109: `get_run_threads` raises `ValueError` if the lengths of the members differ (and numpy cannot broadcast them),
`IndexError` for a run without samples, and `AttributeError` if the run has no thread labels or no thread_min_max. -/
theorem C109_threads (r : Run K) (w : World σ) :
    ((∃ ls, r.labels = some ls ∧ ls.length ≠ r.logl.length ∧ ls.length ≠ 1) ∨
      (r.nlive.length ≠ r.logl.length ∧ 3 ≤ r.nlive.length) ∨
      (r.theta.length ≠ r.logl.length ∧ r.theta.length ≠ 1) → getRunThreads r w = (.error .value, w)) ∧
    (r.logl = [] → r.nlive = [] → r.theta = [] → (∀ ls, r.labels = some ls → ls = []) →
      getRunThreads r w = (.error .index, w)) ∧
    (r.logl ≠ [] → r.nlive.length = r.logl.length → r.theta.length = r.logl.length →
      (r.labels = none ∨ (r.tmm = none ∧ ∃ ls, r.labels = some ls ∧ ls.length = r.logl.length)) →
      getRunThreads r w = (.error .attribute, w)) := by
  refine ⟨fun h => ?_, fun h1 h2 h3 h4 => ?_, fun h0 h1 h2 h3 => ?_⟩
  · have : arrayGivenRun r = .error .value := by
      unfold arrayGivenRun
      dsimp only
      rw [if_pos]
      rcases h with ⟨ls, h1, h2, -⟩ | ⟨h, -⟩ | ⟨h, -⟩
      · left
        unfold labelColumn
        rw [h1]
        simpa using h2
      · exact Or.inr (Or.inl h)
      · exact Or.inr (Or.inr h)
    unfold getRunThreads
    rw [this]
    rfl
  · have : arrayGivenRun r = .error .index := by
      unfold arrayGivenRun labelColumn
      cases hl : r.labels with
      | none => simp [h1, h2, h3]
      | some ls => simp [h1, h2, h3, h4 ls hl]
    unfold getRunThreads
    rw [this]
    rfl
  · have hlen : (labelColumn r).length = r.logl.length := by
      unfold labelColumn
      rcases h3 with h | ⟨-, ls, h, h'⟩
      · rw [h]; simp
      · rw [h]; simpa using h'
    have : ∃ rows, arrayGivenRun r = .ok rows := by
      unfold arrayGivenRun
      dsimp only
      rw [if_neg (by rw [hlen]; simp [h1, h2]), if_neg (by simpa using h0)]
      exact ⟨_, rfl⟩
    obtain ⟨rows, hr⟩ := this
    unfold getRunThreads
    rw [hr, M.bind_ok (M.lift_apply _ _)]
    rcases h3 with h | ⟨h, ls, h', -⟩
    · rw [h]; rfl
    · rw [h, h']; rfl

/-- C109: `process_dynesty_run` raises `ValueError` if the numbers of loglikelihoods, of thread numbers and of samples
differ (and numpy cannot broadcast them). -/
theorem C109_dynesty (A : Argsort K) (res : Dynesty K) (w : World σ)
    (h : (res.logl.length ≠ res.samples.length ∧ res.logl.length ≠ 1) ∨
      (res.ids.length ≠ res.samples.length ∧ res.ids.length ≠ 1)) :
    processDynesty A res w = (.error .value, w) := by
  unfold processDynesty
  rw [if_pos (h.imp And.left And.left), M.bind_error (M.raise_apply _ _)]

/-- C109: `process_multinest_run` raises `IndexError` if one of the files has at most one row or column, and `ValueError`
if the dead and the live points have different numbers of parameters. -/
theorem C109_multinest [IsStrictOrderedRing K] (A : Argsort K) (R : Rng σ K) {files : Tables K} {root dir : String} {da dw : Bool} :
    (∀ {drows lrows : List (List K)} {n m : Nat}, files (pathJoin dir root ++ "dead-birth.txt") = some drows →
      files (pathJoin dir root ++ "phys_live-birth.txt") = some lrows → (∀ r ∈ drows, r.length = n) →
      (∀ r ∈ lrows, r.length = m) → drows.length ≤ 1 ∨ lrows.length ≤ 1 ∨ n = 1 ∨ m = 1 →
      ∀ w : World σ, processMultinest A R files root dir da dw w = (.error .index, w)) ∧
    (∀ {dead live : List (Sample K)} {n m : Nat}, HoldsRows 2 files (pathJoin dir root ++ "dead-birth.txt") dead →
      HoldsRows 1 files (pathJoin dir root ++ "phys_live-birth.txt") live →
      (∀ s ∈ dead, s.theta.length = n) → (∀ s ∈ live, s.theta.length = m) → n ≠ m →
      (∀ d ∈ dead, ∀ l ∈ live, d.logl < l.logl) →
      ∀ w : World σ, processMultinest A R files root dir da dw w = (.error .value, w)) := by
  constructor
  · intro drows lrows n m hf1 hf2 hn hm h w
    have rect : ∀ {rows : List (List K)} {n : Nat} {name : String}, files name = some rows → (∀ r ∈ rows, r.length = n) →
        loadText files name = .ok rows := by
      intro rows n name hf hn
      unfold loadText
      rw [hf]
      dsimp only
      rw [if_neg]
      simp only [List.any_eq_true, decide_eq_true_eq, not_exists, not_and]
      rintro r hr r' hr'
      rw [hn r hr, hn r' hr']
      simp
    unfold processMultinest
    rw [rect hf1 hn, M.bind_ok (M.lift_apply _ _), rect hf2 hm, M.bind_ok (M.lift_apply _ _)]
    have two : ∀ rows : List (List K), twoDims rows = .ok rows ∨ twoDims rows = .error .index := by
      intro rows
      unfold twoDims
      split <;> simp
    have bad : ∀ {rows : List (List K)} {n : Nat}, (∀ r ∈ rows, r.length = n) → rows.length ≤ 1 ∨ n = 1 →
        twoDims rows = .error .index := by
      intro rows n hn h
      unfold twoDims
      rw [if_pos]
      rcases h with h | h
      · simp [h]
      · cases rows with
        | nil => simp
        | cons r rs => simp [hn r (by simp), h]
    rcases two drows with hd | hd
    · rw [hd, M.bind_ok (M.lift_apply _ _)]
      have hl : twoDims lrows = .error .index := by
        rcases h with h | h | h | h
        · rw [bad hn (Or.inl h)] at hd; cases hd
        · exact bad hm (Or.inl h)
        · rw [bad hn (Or.inr h)] at hd; cases hd
        · exact bad hm (Or.inr h)
      rw [hl, M.bind_error (M.lift_apply _ _)]
    · rw [hd, M.bind_error (M.lift_apply _ _)]
  · intro dead live n m hdead hlive hn hm hnm hlt w
    obtain ⟨dr, hf1, hr1, hl1⟩ := hdead
    obtain ⟨lr, hf2, hr2, hl2⟩ := hlive
    obtain ⟨e1, e1'⟩ := loadText_holds hf1 hr1 hl1 (fun s hs t ht => by rw [hn s hs, hn t ht])
    obtain ⟨e2, e2'⟩ := loadText_holds hf2 hr2 hl2 (fun s hs t ht => by rw [hm s hs, hm t ht])
    have e3 := tableSamples_ok.mpr hr1
    have e4 := tableSamples_ok.mpr hr2
    have e5 : vstackSamples dead live = .error .value := by
      unfold vstackSamples
      rw [if_neg]
      simp only [List.all_eq_true, decide_eq_true_eq]
      intro h
      match dead, live, hl1, hl2, hn, hm, h with
      | d :: _, l :: _, _, _, hn, hm, h =>
        have := h d (by simp) l (by simp)
        rw [hn d (by simp), hm l (by simp)] at this
        exact hnm this
    unfold processMultinest
    rw [e1, M.bind_ok (M.lift_apply _ _), e2, M.bind_ok (M.lift_apply _ _), e1', M.bind_ok (M.lift_apply _ _), e2',
      M.bind_ok (M.lift_apply _ _), e3, M.bind_ok (M.lift_apply _ _), e4, M.bind_ok (M.lift_apply _ _)]
    have ha : dead.all (fun d => live.all (fun l => decide (d.logl < l.logl))) = true := by
      simp only [List.all_eq_true, decide_eq_true_eq]
      exact hlt
    rw [ha, M.bind_ok (M.assert_apply _ _), e5, M.bind_error (M.lift_apply _ _)]

/-- C109: `get_dummy_thread` with no samples raises `IndexError`. -/
theorem C109_dummy (R : Rng σ K) (ndim : Nat) (seed : Option Nat) (start : WithBot K) (range : K) (w : World σ) :
    (getDummyThread R 0 ndim seed start range w).1 = .error .index := by
  unfold getDummyThread
  have hs : ∃ w1, optSeed R seed w = (.ok (), w1) := by
    cases seed with
    | none => exact ⟨_, rfl⟩
    | some n => exact ⟨_, rfl⟩
  obtain ⟨w1, hs⟩ := hs
  have hu := R.uniform_length 0 w1.rng
  rw [M.bind_ok hs, M.bind_ok (M.draw_apply _ _)]
  rw [List.length_eq_zero_iff.mp hu]
  rfl

end runs

section estimators
variable {σ : Type} (A : Argsort ℝ) (R : Rng σ ℝ)

/-- C109: of a run without samples there are no weights, and no estimate but the number of samples: `ValueError`. -/
theorem C109_empty {r : Run ℝ} (h : r.nlive = []) (sim : Bool) (w : World σ) :
    getLogx R r.nlive sim w = (.error .value, w) ∧ getLogw R r sim w = (.error .value, w) ∧
    getWRel R r sim w = (.error .value, w) ∧
    (∀ e : Estimator, e ≠ .count → e.call A R r none sim w = (.error .value, w)) ∧
    (∀ e : Estimator, e ≠ .count → e.call A R r (some []) sim w = (.error .value, w)) := by
  have h1 : getLogx R r.nlive sim w = (.error .value, w) := by rw [h]; rfl
  have h2 : getLogw R r sim w = (.error .value, w) := by unfold getLogw; rw [M.bind_error h1]
  have h3 : logwOr R r none sim w = (.error .value, w) := h2
  refine ⟨h1, h2, ?_, ?_, ?_⟩
  · unfold getWRel; rw [M.bind_error h2]
  · intro e he
    cases e with
    | count => exact absurd rfl he
    | logz => unfold Estimator.call logz; dsimp only; rw [M.bind_error]; rw [M.bind_error h3]
    | evidence => unfold Estimator.call evidence; dsimp only; rw [M.bind_error]; rw [M.bind_error h3]
    | paramMean i b => unfold Estimator.call paramMean; dsimp only; rw [M.bind_error h3]
    | paramCred p i => unfold Estimator.call paramCred; dsimp only; rw [M.bind_error]; rw [M.bind_error h3]
    | paramSquaredMean i => unfold Estimator.call paramSquaredMean; dsimp only; rw [M.bind_error]; rw [M.bind_error h3]
    | rMean => unfold Estimator.call rMean; dsimp only; rw [M.bind_error]; rw [M.bind_error h3]
    | rCred p => unfold Estimator.call rCred; dsimp only; rw [M.bind_error]; rw [M.bind_error h3]
  · intro e he
    cases e with
    | count => exact absurd rfl he
    | _ => rfl

theorem column_exists {thetas : List (List ℝ)} {i : Nat} (h : ∀ t ∈ thetas, i < t.length) :
    ∃ x, column thetas i = .ok x ∧ x.length = thetas.length := by
  have : ∃ xs : List ℝ, thetas.map (·[i]?) = xs.map some := by
    induction thetas with
    | nil => exact ⟨[], rfl⟩
    | cons t ts ih =>
      obtain ⟨xs, hx⟩ := ih (fun t ht => h t (by simp [ht]))
      exact ⟨t[i]'(h t (by simp)) :: xs, by
        rw [List.map_cons, hx, List.getElem?_eq_getElem (h t (by simp)), List.map_cons]⟩
  obtain ⟨xs, hx⟩ := this
  exact ⟨xs, column_ok hx, by simpa using (congrArg List.length hx).symm⟩

/-- C109: given log weights whose number is not that of the samples (and which numpy cannot broadcast), the means raise
`ValueError` and the quantiles `AssertionError`. -/
theorem C109_lengths {r : Run ℝ} {logw : List ℝ} (h0 : logw ≠ []) (hl : logw.length ≠ r.theta.length)
    (_h1 : logw.length ≠ 1) (_h2 : r.theta.length ≠ 1) (sim : Bool) (w : World σ) :
    (∀ i handle, (∀ t ∈ r.theta, i < t.length) →
      paramMean R r (some logw) sim i handle w = (.error .value, w)) ∧
    (∀ i, (∀ t ∈ r.theta, i < t.length) → paramSquaredMean R r (some logw) sim i w = (.error .value, w)) ∧
    rMean R r (some logw) sim w = (.error .value, w) ∧
    (∀ prob i, (∀ t ∈ r.theta, i < t.length) →
      paramCred A R r (some logw) sim prob i w = (.error .assertion, w)) ∧
    (∀ prob, rCred A R r (some logw) sim prob w = (.error .assertion, w)) := by
  obtain ⟨m, -, -, hw⟩ := relWeights_ok h0
  have hwl : (logw.map (fun x => Real.exp (x - m))).length = logw.length := List.length_map _
  generalize hws : logw.map (fun x => Real.exp (x - m)) = ws at hw hwl
  have hdot : ∀ x : List ℝ, x.length = r.theta.length → ∀ v : List ℝ, v.length = logw.length → dot v x = .error .value := by
    intro x hx v hv
    unfold dot
    rw [if_pos (by rw [hv, hx]; exact hl)]
  have hrad : (radii r.theta).length = r.theta.length := List.length_map _
  have hq : ∀ (prob : ℝ) (x : List ℝ), x.length = r.theta.length → weightedQuantile A prob x ws = .error .assertion := by
    intro prob x hx
    unfold weightedQuantile
    split
    · rfl
    · rw [if_pos (by rw [hx, hwl]; exact fun h => hl h.symm)]
  have hpos : ws.sum ≠ 0 := by
    subst hws
    refine ne_of_gt (List.sum_pos _ ?_ ?_)
    · intro x hx
      obtain ⟨y, -, rfl⟩ := List.mem_map.mp hx
      exact Real.exp_pos _
    · simpa using h0
  refine ⟨fun i handle hi => ?_, fun i hi => ?_, ?_, fun prob i hi => ?_, fun prob => ?_⟩
  · obtain ⟨x, hx, hxl⟩ := column_exists hi
    have : paramMeanOf r logw i handle = .error .value := by
      unfold paramMeanOf
      rw [hw, py_ok_bind, hx, py_ok_bind]
      unfold weightedMean
      rw [hdot x hxl ws hwl]
      rfl
    unfold paramMean logwOr
    dsimp only
    rw [M.bind_ok (M.pure_apply _ _), this]
    rfl
  · obtain ⟨x, hx, hxl⟩ := column_exists hi
    unfold paramSquaredMean logwOr
    dsimp only
    rw [M.bind_ok (M.pure_apply _ _), hw, py_ok_bind]
    have : ∀ l : List ℝ, pyMap (fun x => npDiv x ws.sum) l = .ok (l.map (· / ws.sum)) := by
      intro l
      induction l with
      | nil => rfl
      | cons a l ih =>
        unfold pyMap
        rw [ih]
        unfold npDiv
        rw [if_neg hpos]
        rfl
    rw [this ws, py_ok_bind, hx, py_ok_bind, hdot _ (by rw [List.length_map, hxl]) _
      (by rw [List.length_map, hwl])]
    rfl
  · unfold rMean logwOr
    dsimp only
    rw [M.bind_ok (M.pure_apply _ _), hw, py_ok_bind]
    unfold weightedMean
    rw [hdot _ hrad _ hwl]
    rfl
  · obtain ⟨x, hx, hxl⟩ := column_exists hi
    unfold paramCred logwOr
    dsimp only
    rw [M.bind_ok (M.pure_apply _ _), hw, py_ok_bind, hx, py_ok_bind, hq prob x hxl]
    rfl
  · unfold rCred logwOr
    dsimp only
    rw [M.bind_ok (M.pure_apply _ _), hw, py_ok_bind, hq prob _ hrad]
    rfl

end estimators

section tables

/-- C109: `efficiency_gain_df` raises `AssertionError` if the numbers of names and of methods, or of names and of
`adjust_nsamp`, differ, and `ValueError` if there are no methods. -/
theorem C109_gain (names : List String) (values : List (List (List Cell))) (nnames : Nat) (tv : Option (List ℝ))
    (incTrue incRmse : Bool) (nsamp : Option (List ℝ)) :
    (names.length ≠ values.length ∨ (∃ l, nsamp = some l ∧ l.length ≠ names.length) →
      efficiencyGainDf names values nnames tv incTrue incRmse nsamp = .error .assertion) ∧
    (names = [] → values = [] → nsamp = none ∨ nsamp = some [] →
      efficiencyGainDf names values nnames tv incTrue incRmse nsamp = .error .value) := by
  constructor
  · intro h
    unfold efficiencyGainDf
    by_cases h1 : nsamp.any (fun l => l.length ≠ names.length) = true
    · rw [if_pos h1]; rfl
    · rw [if_neg h1]
      have h2 : names.length ≠ values.length := by
        rcases h with h | ⟨l, rfl, hl⟩
        · exact h
        · exact absurd (by simpa using hl) h1
      rw [if_pos h2]
      rfl
  · rintro rfl rfl (rfl | rfl) <;> rfl

/-- C109: `efficiency_gain_df` raises `ValueError` for methods with the same name, or with an empty name, where it would
succeed with other names. -/
theorem C109_gain_names (names : List String) (values : List (List (List Cell))) (nnames : Nat) (tv : Option (List ℝ))
    (incTrue incRmse : Bool) (nsamp : Option (List ℝ)) {names' : List String} {incTrue' : Bool} {out : List (String × Table) × Table}
    (hok : efficiencyGainDf names' values nnames tv incTrue' incRmse nsamp = .ok out) (hl : names.length = names'.length)
    (hb : ¬ ("" :: names).Nodup) :
    efficiencyGainDf names values nnames tv incTrue incRmse nsamp = .error .value := by
  unfold efficiencyGainDf at hok ⊢
  rw [hl]
  by_cases h1 : nsamp.any (fun l => l.length ≠ names'.length) = true
  · rw [if_pos h1] at hok; cases hok
  · rw [if_neg h1] at hok ⊢
    by_cases h2 : names'.length ≠ values.length
    · rw [if_pos h2] at hok; cases hok
    · rw [if_neg h2] at hok ⊢
      cases values with
      | nil => cases hok
      | cons vals rest =>
        change ((summaryDfFromList vals nnames tv false incRmse) >>= _) = _ at hok
        change ((summaryDfFromList vals nnames tv false incRmse) >>= _) = _
        cases hb' : summaryDfFromList vals nnames tv false incRmse with
        | error e => rw [hb'] at hok; cases hok
        | ok base =>
          rw [hb', py_ok_bind] at hok
          rw [py_ok_bind]
          cases ht : laterTables nnames tv incRmse nsamp base 1 rest with
          | error e => rw [ht] at hok; cases hok
          | ok ts =>
            rw [py_ok_bind, if_neg hb]

end tables

section figures
variable {σ : Type} (A : Argsort ℝ) (R : Rng σ ℝ)

/-- C109: `plot_run_nlive` without runs raises `ValueError` unless `logx_min` is given. -/
theorem C109_nlive (given : Option (List ℝ → List ℝ)) (curve : Option (ℝ → Cell)) (npoints : Nat)
    (massNorm cumNorm : Option String) (w : World σ) :
    plotRunNlive R [] [] given curve none npoints massNorm cumNorm w = (.error .value, w) := rfl

/-- C109: `bs_param_dists` raises `IndexError` for more than five runs; `param_logx_diagram` raises `IndexError` without
functions and `UnboundLocalError` without runs. -/
theorem C109_figures :
    (∀ (runs : List (Run ℝ × Option Settings)) (fs : List FTheta) (nLabels nLims nSim : Nat) (seed : Seed) (w : World σ),
      5 < runs.length → nLabels = fs.length →
      (bsParamDists A R runs fs nLabels nLims nSim seed w).1 = .error .index) ∧
    (∀ (o : LogxOptions) (runs : List (Run ℝ × Option Settings)) (w : World σ), o.fs = [] → o.nLabels = 0 → o.nLims = 0 →
      (paramLogxDiagram A R o runs w).1 = .error .index) ∧
    (∀ (o : LogxOptions) (w : World σ), o.fs ≠ [] → o.nLabels = o.fs.length → o.nLims = o.fs.length →
      (paramLogxDiagram A R o [] w).1 = .error .name) := by
  have hseed : ∀ (seed : Seed) (w : World σ), ∃ w1, seedAlways R seed w = (.ok (), w1) := by
    intro seed w
    cases seed <;> exact ⟨_, rfl⟩
  refine ⟨?_, ?_, ?_⟩
  · intro runs fs nLabels nLims nSim seed w h5 hl
    obtain ⟨w1, hs⟩ := hseed seed w
    unfold bsParamDists
    rw [M.bind_ok (M.getState_apply _), M.bind_ok hs, M.bind_ok (a := ()) (w' := w1) (by simp [hl]), if_neg (by omega),
      if_neg (by omega)]
    have hz : ∃ p rest, runs.zipIdx.reverse = (p, runs.length - 1) :: rest := by
      rcases List.eq_nil_or_concat runs with rfl | ⟨xs, x, rfl⟩
      · simp at h5
      · refine ⟨x, xs.zipIdx.reverse, ?_⟩
        rw [List.concat_eq_append, List.zipIdx_append]
        simp
    obtain ⟨p, rest, hz⟩ := hz
    rw [hz]
    unfold bsDistsLoop
    rw [if_pos (by omega), M.bind_error (M.bind_error (M.raise_apply _ _))]
  · intro o runs w h1 h2 h3
    obtain ⟨w1, hs⟩ := hseed o.seed w
    unfold paramLogxDiagram
    rw [M.bind_ok (M.getState_apply _), M.bind_ok hs, M.bind_ok (a := ()) (w' := w1) (by simp [h1, h2]),
      M.bind_ok (a := ()) (w' := w1) (by simp [h1, h3]), if_pos (by simp [h1])]
    rfl
  · intro o w h1 h2 h3
    obtain ⟨w1, hs⟩ := hseed o.seed w
    unfold paramLogxDiagram
    rw [M.bind_ok (M.getState_apply _), M.bind_ok hs, M.bind_ok (a := ()) (w' := w1) (by simp [h2]),
      M.bind_ok (a := ()) (w' := w1) (by simp [h3]), if_neg (by simpa using h1)]
    rfl

/-- C109: `kde_plot_df` raises `ValueError` if it is asked for no columns of subplots, or if the frame has none. -/
theorem C109_kde (df : SampleFrame) (xlims : Option (List (String × ℝ × ℝ))) {nrows : Nat} (h : nrows ≠ 0)
    (normalize legend : Bool) :
    kdePlotDf df xlims nrows (some 0) normalize legend = .error .value ∧
    kdePlotDf [] xlims nrows none normalize legend = .error .value := by
  unfold kdePlotDf
  rw [if_neg h]
  refine ⟨rfl, ?_⟩
  simp only [Option.getD_none, List.length_nil, Nat.cast_zero, zero_div, Nat.ceil_zero, if_neg h, if_true]
  rfl

end figures

section examples

/-- A run with two parameters. -/
def exWide : Run ℤ := { exOther with theta := [[7, 0], [8, 0], [9, 0]] }

theorem exWide_valid : Valid exWide :=
  ((checkRun_ok_iff (stableSort ℤ) exWide true false (⟨(), []⟩ : World Unit)).mp rfl).1

example (w : World Nat) : (combineRuns (stableSort ℤ) [exDynamic, exWide] false false w).1 = .error .value :=
  (C109_combine _ _ _ w).2 _ (by decide) (by
    intro r hr
    fin_cases hr
    · exact ⟨_, _, exDynamic_valid⟩
    · exact exWide_valid) (by simp) ⟨[1], by decide, [7, 0], by decide, by decide⟩

example (w : World Nat) : getRunThreads { exOther with nlive := [2, 1, 1, 1] } w = (.error .value, w) :=
  (C109_threads _ w).1 (.inr (.inl (by decide)))
example (w : World Nat) : getRunThreads { exOther with labels := none } w = (.error .attribute, w) :=
  (C109_threads _ w).2.2 (by decide) rfl rfl (.inl rfl)
example (w : World Nat) : getRunThreads (⟨[], [], [], some [], some []⟩ : Run ℤ) w = (.error .index, w) :=
  (C109_threads _ w).2.1 rfl rfl rfl (by rintro ls ⟨⟩; rfl)

example (w : World Nat) : processDynesty (stableSort ℤ)
    ⟨[[1], [2], [3]], [4, 5, 6], [0, 1], some 2, [], none, [], []⟩ w = (.error .value, w) :=
  C109_dynesty _ _ w (.inr (by decide))

/-- A file with a single dead point. -/
example (w : World Nat) : processMultinest (stableSort ℤ) (counterRng ℤ (by decide))
    (fun name => if name = "chains/rundead-birth.txt" then some [[10, 1, -100, 0, 0]]
      else some [[40, 5, 1, 0], [50, 6, -100, 0]]) "run" "chains" false false w = (.error .index, w) :=
  (C109_multinest _ _).1 (drows := [[10, 1, -100, 0, 0]]) (lrows := [[40, 5, 1, 0], [50, 6, -100, 0]]) (n := 5) (m := 4)
    (by decide) (by decide) (by decide) (by decide) (.inl (by decide)) w

example (w : World Nat) (A : Argsort ℝ) (R : Rng Nat ℝ) :
    (Estimator.paramCred 0.5 0).call A R ⟨[], [], [], some [], some []⟩ none true w = (.error .value, w) :=
  (C109_empty A R rfl true w).2.2.2.1 _ (by simp)

example (w : World Nat) (A : Argsort ℝ) (R : Rng Nat ℝ) :
    rCred A R ⟨[1, 2], [1, 1], [[1], [2]], none, none⟩ (some [-1, -2, -3]) false 0.5 w = (.error .assertion, w) :=
  (C109_lengths A R (by simp) (by simp) (by simp) (by simp) false w).2.2.2.2 _

example : efficiencyGainDf ["a"] [[[some 1], [some 2]], [[some 2], [some 4]]] 1 none false false none = .error .assertion :=
  (C109_gain _ _ _ _ _ _ _).1 (.inl (by decide))

example : efficiencyGainDf ["a", "a"] [[[some 1], [some 5]], [[some 2], [some 4]]] 1 none false false none =
    .error .value := by
  obtain ⟨eff, h⟩ : ∃ eff, efficiencyGainDf ["standard", "dynamic"] [[[some 1], [some 5]], [[some 2], [some 4]]] 1 none
      false false none = .ok eff := ⟨_, by
    have := C66 (m := 1) (names := ["standard", "dynamic"]) (by decide) (base := [[1], [5]]) (vals := [[[2], [4]]]) rfl
      (by simp) (by simp) (tv := none) (by simp) (incTrue := false) (incRmse := false) (by simp)
      (nsamp := none) (by simp)
    simpa using this⟩
  exact C109_gain_names _ _ _ _ _ _ _ h rfl (by decide)

end examples
end Nestcheck
