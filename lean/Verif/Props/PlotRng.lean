import Verif.Props.NliveFigure
import Verif.Props.SummaryExamples

/-! The random state and the plotting functions with bootstrap replications (C53), and
what they draw (C70). -/

namespace Nestcheck
open Spec

noncomputable section
variable {σ : Type} (A : Argsort ℝ) (R : Rng σ ℝ)

/-- The state set by the random seed of a plotting function (`False` is zero). -/
def Spec.plotSeed (seed : Seed) : σ :=
  match seed with
  | .keep => R.seed 0
  | .os e => R.seedOS e
  | .num n => R.seed n

theorem seedAlways_eq (seed : Seed) : seedAlways R seed = M.setState (plotSeed R seed) := by
  cases seed <;> rfl

/-! ### bs_param_dists -/

/-- C53: `bs_param_dists`.  A call that returns leaves numpy's random state as it was, and what it draws does
not depend on that state, whatever `random_seed` is. -/
theorem C53_bs (runs : List (Run ℝ × Option Settings)) (fs : List FTheta) (nLabels nLims nSim : Nat) (seed : Seed) :
    RngRestored (bsParamDists A R runs fs nLabels nLims nSim seed) ∧
    RngIndependent (bsParamDists A R runs fs nLabels nLims nSim seed) := by
  have key : bsParamDists A R runs fs nLabels nLims nSim seed =
      (M.getState >>= fun st => M.setState (plotSeed R seed) >>= fun _ =>
        (M.assert (nLabels = fs.length) >>= fun _ =>
          if runs.length + fs.length = 0 then M.raise .value
          else if runs.length + fs.length = 1 then M.raise .type
          else bsDistsLoop A R fs nLims nSim runs.zipIdx.reverse) >>= fun data =>
        M.setState st >>= fun _ => pure data) := by
    unfold bsParamDists
    rw [seedAlways_eq]
    funext w
    simp only [M.bind_apply, M.getState_apply, M.setState_apply, M.assert_apply]
    by_cases h1 : nLabels = fs.length
    · simp only [h1, decide_true, if_true]
      by_cases h2 : runs.length + fs.length = 0
      · rw [if_pos h2, if_pos h2]; rfl
      · rw [if_neg h2, if_neg h2]
        by_cases h3 : runs.length + fs.length = 1
        · rw [if_pos h3, if_pos h3]; rfl
        · rw [if_neg h3, if_neg h3]; rfl
    · simp [h1]
  rw [key]
  exact ⟨.scoped _ fun _ => .pure _, .scoped _ fun _ => .pure _⟩

/-- C53: a wrong number of labels is noticed after seeding, and the random state of the caller is lost. -/
theorem C53_bs_leak (runs : List (Run ℝ × Option Settings)) {fs : List FTheta} {nLabels : Nat} (nLims nSim : Nat)
    (seed : Seed) (h : nLabels ≠ fs.length) (w : World σ) :
    bsParamDists A R runs fs nLabels nLims nSim seed w = (.error .assertion, ⟨plotSeed R seed, w.warns⟩) := by
  unfold bsParamDists
  rw [seedAlways_eq]
  simp [M.bind_apply, h]

theorem zipIdx_reverse_head {α : Type} {l : List α} (h : l ≠ []) :
    ∃ (a : α) (tl : List (α × Nat)), l.zipIdx.reverse = (a, l.length - 1) :: tl := by
  obtain ⟨l', a, rfl⟩ := List.eq_nil_or_concat l |>.resolve_left h
  refine ⟨a, l'.zipIdx.reverse, ?_⟩
  simp [List.zipIdx_append]

/-- C53: with more than five runs (there are five colormaps) nothing is drawn, and the random state of the caller
is lost. -/
theorem C53_bs_many {runs : List (Run ℝ × Option Settings)} (hr : 5 < runs.length) {fs : List FTheta} {nLabels : Nat}
    (nLims nSim : Nat) (seed : Seed) (h : nLabels = fs.length) (w : World σ) :
    bsParamDists A R runs fs nLabels nLims nSim seed w = (.error .index, ⟨plotSeed R seed, w.warns⟩) := by
  obtain ⟨a, tl, e⟩ := zipIdx_reverse_head (l := runs) (by intro e; rw [e] at hr; simp at hr)
  unfold bsParamDists
  rw [seedAlways_eq, e]
  simp only [M.bind_apply, M.getState_apply, M.setState_apply, M.assert_apply, h, decide_true, if_true]
  rw [if_neg (by omega), if_neg (by omega)]
  unfold bsDistsLoop
  simp only [M.bind_apply]
  rw [if_pos (by omega)]
  rfl

/-! ### param_logx_diagram -/

/-- The step passes on the state it is given, and does nothing else with it. -/
def Carries {α : Type} (x : σ → M σ (α × σ)) : Prop :=
  ∃ y : M σ α, ∀ st, x st = y >>= fun a => pure (a, st)

theorem logxPlotRun_carries {o : LogxOptions} (h : o.thin = 1) (r : Run ℝ) (settings : Option Settings) (n : Nat)
    (lo : Option ℝ) : Carries (logxPlotRun A R o r settings n lo) := by
  refine ⟨do
    let rows ← logxRows R r o.nSim
    let lo ← M.lift ((lo.or (amin (rows.filterMap (fun p => p.1.head?)))).elim (.error .value) .ok)
    if o.nMaps ≤ n then M.raise .index
    else do
      let logx ← getLogx R r.nlive false
      let sc ← M.lift (pyMap (scatterOf o r logx (List.range logx.length) n) o.fs)
      if (if o.plotMeans then o.nColors + 1 else o.nColors) ≤ n then M.raise .index
      else do
        let post ← plotBsDists A R r settings o.fs o.fs.length o.nLims o.nSim o.plotMeans
        let means ← (if o.plotMeans then fthetaMeans R r o.fs else pure [])
        pure ⟨rows.map (fun p => packRow (2 * r.nlive.length) (p.1.map some) (p.2.map some)), lo,
          gather logx (List.range logx.length), sc.map Prod.fst, sc.map Prod.snd, post, means⟩, fun st => ?_⟩
  unfold logxPlotRun
  simp only [bind_assoc]
  congr 1; funext rows
  congr 1; funext lo'
  by_cases h1 : o.nMaps ≤ n
  · rw [if_pos h1, if_pos h1]; rfl
  rw [if_neg h1, if_neg h1]
  simp only [bind_assoc]
  congr 1; funext logx
  unfold thinned
  rw [if_pos h, pure_bind]
  congr 1; funext sc
  by_cases h2 : (if o.plotMeans then o.nColors + 1 else o.nColors) ≤ n
  · rw [if_pos h2, if_pos h2]; rfl
  rw [if_neg h2, if_neg h2]
  simp only [bind_assoc, pure_bind]

theorem logxLoop_carries {o : LogxOptions} (h : o.thin = 1) (rs : List ((Run ℝ × Option Settings) × Nat))
    (lo : Option ℝ) : Carries (logxLoop A R o rs lo) := by
  induction rs generalizing lo with
  | nil => exact ⟨pure [], fun st => by rw [logxLoop, pure_bind]⟩
  | cons r rs ih =>
    obtain ⟨y, hy⟩ := logxPlotRun_carries A R h r.1.1 r.1.2 r.2 lo
    choose z hz using ih
    refine ⟨y >>= fun a => z (some a.logxMin) >>= fun b => pure (a :: b), fun st => ?_⟩
    obtain ⟨r, n⟩ := r
    rw [logxLoop, hy]
    simp only [bind_assoc, pure_bind, hz]

/-- C53: `param_logx_diagram` without thinning.  A call that returns leaves numpy's random state as it was, and
what it draws does not depend on that state, whatever `random_seed` is. -/
theorem C53_logx {o : LogxOptions} (h : o.thin = 1) (runs : List (Run ℝ × Option Settings)) :
    RngRestored (paramLogxDiagram A R o runs) ∧ RngIndependent (paramLogxDiagram A R o runs) := by
  obtain ⟨y, hy⟩ := logxLoop_carries A R h runs.zipIdx.reverse o.logxMin
  have key : paramLogxDiagram A R o runs =
      (M.getState >>= fun st => M.setState (plotSeed R o.seed) >>= fun _ =>
        (M.assert (o.fs.length = o.nLabels) >>= fun _ => M.assert (o.fs.length = o.nLims) >>= fun _ =>
          if o.fs.isEmpty then M.raise .index else if runs.isEmpty then M.raise .name else y) >>= fun data =>
        M.setState st >>= fun _ => pure data) := by
    unfold paramLogxDiagram
    rw [seedAlways_eq]
    congr 1; funext st
    congr 1; funext _
    rw [bind_assoc]
    congr 1; funext _
    rw [bind_assoc]
    congr 1; funext _
    by_cases h1 : o.fs.isEmpty = true
    · rw [if_pos h1, if_pos h1]; rfl
    rw [if_neg h1, if_neg h1]
    by_cases h2 : runs.isEmpty = true
    · rw [if_pos h2, if_pos h2]; rfl
    rw [if_neg h2, if_neg h2, hy, bind_assoc]
    simp only [pure_bind]
  rw [key]
  exact ⟨.scoped _ fun _ => .pure _, .scoped _ fun _ => .pure _⟩

theorem logxPlotRun_forgets {o : LogxOptions} (h : o.thin ≠ 1) (r : Run ℝ) (settings : Option Settings) (n : Nat)
    (lo : Option ℝ) (st st' : σ) : logxPlotRun A R o r settings n lo st = logxPlotRun A R o r settings n lo st' := by
  unfold logxPlotRun thinned
  simp only [if_neg h]

theorem logxLoop_forgets {o : LogxOptions} (h : o.thin ≠ 1) {rs : List ((Run ℝ × Option Settings) × Nat)} (hr : rs ≠ [])
    (lo : Option ℝ) (st st' : σ) : logxLoop A R o rs lo st = logxLoop A R o rs lo st' := by
  cases rs with
  | nil => exact absurd rfl hr
  | cons r rs =>
    obtain ⟨r, n⟩ := r
    rw [logxLoop, logxLoop, logxPlotRun_forgets A R h _ _ _ _ st st']

/-- C53: `param_logx_diagram` with thinning does not restore the random state: the outcome, *including the random
state afterwards*, is the same whatever the random state of the caller was. -/
theorem C53_thin {o : LogxOptions} (h : o.thin ≠ 1) (runs : List (Run ℝ × Option Settings)) (s s' : σ)
    (ws : List Warn) : paramLogxDiagram A R o runs ⟨s, ws⟩ = paramLogxDiagram A R o runs ⟨s', ws⟩ := by
  unfold paramLogxDiagram
  rw [seedAlways_eq]
  simp only [M.bind_apply, M.getState_apply, M.setState_apply, M.assert_apply]
  split
  · rename_i h1
    split at h1 <;> cases h1
    split
    · rename_i h1
      split at h1 <;> cases h1
      by_cases h2 : o.fs.isEmpty = true
      · rw [if_pos h2, if_pos h2]
      rw [if_neg h2, if_neg h2]
      by_cases h3 : runs.isEmpty = true
      · rw [if_pos h3, if_pos h3]
      rw [if_neg h3, if_neg h3, logxLoop_forgets A R h (by simpa using h3) _ s s']
    · rfl
  · rfl

/-- C53: a thinned call that returns therefore changes the random state of some callers, of all but one state. -/
theorem C53_thin_leak {o : LogxOptions} (h : o.thin ≠ 1) {runs : List (Run ℝ × Option Settings)} {w w' : World σ}
    {y : List LogxPlot} (hy : paramLogxDiagram A R o runs w = (.ok y, w')) {s : σ} (hs : s ≠ w'.rng) :
    paramLogxDiagram A R o runs ⟨s, w.warns⟩ = (.ok y, w') ∧ ¬ RngRestored (paramLogxDiagram A R o runs) := by
  have e : paramLogxDiagram A R o runs ⟨s, w.warns⟩ = (.ok y, w') := by
    rw [C53_thin A R h runs s w.rng]; exact hy
  exact ⟨e, fun hR => hs (hR _ _ _ e).symm⟩

theorem logxLoop_cons_ok {o : LogxOptions} {r : (Run ℝ × Option Settings)} {n : Nat}
    {rs : List ((Run ℝ × Option Settings) × Nat)} {lo : Option ℝ} {st : σ} {w w' : World σ} {y : List LogxPlot × σ}
    (h : logxLoop A R o ((r, n) :: rs) lo st w = (.ok y, w')) :
    ∃ p w1, logxPlotRun A R o r.1 r.2 n lo st w = (.ok p, w1) := by
  rw [logxLoop] at h
  obtain ⟨a, w1, h1, h⟩ := M.bind_eq_ok.mp h
  exact ⟨a, w1, h1⟩

/-- C53: with four or more runs `threads_to_plot` cannot be used (there are three line styles). -/
theorem C53_four_runs {o : LogxOptions} {runs : List (Run ℝ × Option Settings)} (h4 : 4 ≤ runs.length) {ls : List Int}
    (ht : o.threadsToPlot = some ls) (hls : ls ≠ []) (w : World σ) :
    ∀ y w', paramLogxDiagram A R o runs w ≠ (.ok y, w') := by
  intro y w' h
  obtain ⟨a, tl, e⟩ := zipIdx_reverse_head (l := runs) (by intro e; rw [e] at h4; simp at h4)
  unfold paramLogxDiagram at h
  obtain ⟨st, w1, h1, h⟩ := M.bind_eq_ok.mp h
  obtain ⟨_, w2, h2, h⟩ := M.bind_eq_ok.mp h
  obtain ⟨_, w3, h3, h⟩ := M.bind_eq_ok.mp h
  obtain ⟨_, w4, h4', h⟩ := M.bind_eq_ok.mp h
  split at h
  · cases h
  rename_i hfs
  split at h
  · cases h
  obtain ⟨b, w5, h5, h⟩ := M.bind_eq_ok.mp h
  rw [e] at h5
  obtain ⟨p, w6, h6⟩ := logxLoop_cons_ok A R h5
  unfold logxPlotRun at h6
  obtain ⟨_, _, _, h6⟩ := M.bind_eq_ok.mp h6
  obtain ⟨_, _, _, h6⟩ := M.bind_eq_ok.mp h6
  split at h6
  · cases h6
  obtain ⟨logx, _, _, h6⟩ := M.bind_eq_ok.mp h6
  obtain ⟨th, _, _, h6⟩ := M.bind_eq_ok.mp h6
  obtain ⟨sc, _, hsc, h6⟩ := M.bind_eq_ok.mp h6
  obtain ⟨hsc, -⟩ := lift_eq_ok hsc
  cases hf : o.fs with
  | nil => rw [hf] at hfs; simp at hfs
  | cons f fs =>
    rw [hf] at hsc
    cases hsc' : pyMap_forall₂ hsc with
    | cons g _ =>
      unfold scatterOf at g
      cases hv : f (gather a.1.theta th.1) with
      | error e => rw [hv] at g; cases g
      | ok v =>
        rw [hv, Py.ok_bind] at g
        split at g
        · cases g
        split at g
        · cases g
        rw [ht, Option.getD_some] at g
        cases ls with
        | nil => exact hls rfl
        | cons l ls =>
          cases hl : pyMap (threadLine a.1 logx (runs.length - 1) f) (l :: ls) with
          | error e => rw [hl] at g; cases g
          | ok z =>
            cases pyMap_forall₂ hl with
            | cons g' _ =>
              unfold threadLine at g'
              cases hv' : f (gather a.1.theta (whereIdx (fun x => decide (x = l)) (a.1.labels.getD []))) with
              | error e => simp only [hv'] at g'; cases g'
              | ok v' =>
                simp only [hv', Py.ok_bind] at g'
                rw [if_pos (by omega)] at g'
                cases g'

end
end Nestcheck
