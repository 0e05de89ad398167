import Verif.Props.Monotone
import Verif.Props.ReparamValues
import Verif.Props.Weights

/-
C89: multiplying the likelihood by a constant.
-/

set_option linter.unusedSectionVars false

namespace Nestcheck
open Spec

noncomputable section
variable {σ : Type} {A : Argsort ℝ} {R : Rng σ ℝ}

/-- The run for a likelihood which is exp(c) times as large. -/
def Run.shift (c : ℝ) (r : Run ℝ) : Run ℝ := r.mapLogl (· + c)

/-- The function `e` of a run for a likelihood exp(c) times as large is `a` times that of the run plus `b`, with the same
exceptions and effects; if log weights are given these are changed by `c` as well. -/
def Spec.Shifts (c : ℝ) (ab : ℝ × ℝ) (e : EstFunc σ) : Prop :=
  ∀ (r : Run ℝ) (logw : Option (List ℝ)) (sim : Bool),
    Carried (affine ab) (e r logw sim) (e (r.shift c) (logw.map (List.map (· + c))) sim)

theorem strictMono_shift (c : ℝ) : StrictMono (fun x : ℝ => x + c) := fun _ _ h => by simpa using h

theorem keepsNearest_shift (c : ℝ) : KeepsNearest (fun x : ℝ => x + c) := by
  intro x y s
  simp

theorem getLogw_shift (c : ℝ) (r : Run ℝ) (sim : Bool) :
    Carried (List.map (· + c)) (getLogw R r sim) (getLogw R (r.shift c) sim) := by
  unfold getLogw
  have e1 : (r.shift c).nlive = r.nlive := rfl
  have e2 : (r.shift c).logl = r.logl.map (· + c) := rfl
  rw [e1]
  refine Carried.same fun logx => ?_
  rw [e2, List.length_map]
  split_ifs with h1 h2
  · exact Carried.raise _ _
  · cases volumes logx with
    | ok logw =>
      have : List.zipWith (· + ·) logw (r.logl.map (· + c)) = (List.zipWith (· + ·) logw r.logl).map (· + c) := by
        rw [List.zipWith_map_right, List.map_zipWith]
        congr 1
        funext x y
        ring
      simp only [this]
      exact Carried.pure _ _
    | error e =>
      cases e <;> first | exact Carried.raise _ _ | exact Carried.pure _ _
  · cases volumes logx with
    | ok logw =>
      have : List.zipWith (· + ·) logw (r.logl.map (· + c)) = (List.zipWith (· + ·) logw r.logl).map (· + c) := by
        rw [List.zipWith_map_right, List.map_zipWith]
        congr 1
        funext x y
        ring
      simp only [this]
      exact Carried.pure _ _
    | error e =>
      cases e <;> exact Carried.raise _ _

theorem logwOr_shift (c : ℝ) (r : Run ℝ) (logw : Option (List ℝ)) (sim : Bool) :
    Carried (List.map (· + c)) (logwOr R r logw sim) (logwOr R (r.shift c) (logw.map (List.map (· + c))) sim) := by
  cases logw with
  | some l => exact Carried.pure _ _
  | none => exact getLogw_shift c r sim

theorem logsumexp_add (c : ℝ) (l : List ℝ) : logsumexp (l.map (· + c)) = (logsumexp l).map (· + c) := by
  by_cases h : l = []
  · subst h; rfl
  · obtain ⟨z, h1, h2⟩ := logsumexp_shift c h
    rw [h1, h2]
    rfl

/-- C89 for the estimators. -/
theorem C89_shift (c : ℝ) (ind : Nat) (handle : Bool) (prob : ℝ) :
    Shifts c (1, 0) (Estimator.count.call A R) ∧
    Shifts c (1, c) (Estimator.logz.call A R) ∧
    Shifts c (Real.exp c, 0) (Estimator.evidence.call A R) ∧
    Shifts c (1, 0) ((Estimator.paramMean ind handle).call A R) ∧
    Shifts c (1, 0) ((Estimator.paramCred prob ind).call A R) ∧
    Shifts c (1, 0) ((Estimator.paramSquaredMean ind).call A R) ∧
    Shifts c (1, 0) (Estimator.rMean.call A R) ∧
    Shifts c (1, 0) ((Estimator.rCred prob).call A R) := by
  have same : ∀ (r : Run ℝ) (logw : Option (List ℝ)) (sim : Bool) {α : Type} (k k' : List ℝ → Py α),
      (∀ lw, k' (lw.map (· + c)) = k lw) →
      (logwOr R (r.shift c) (logw.map (List.map (· + c))) sim >>= fun lw => (M.lift (k' lw) : M σ α)) =
      (logwOr R r logw sim >>= fun lw => (M.lift (k lw) : M σ α)) := by
    intro r logw sim α k k' h
    funext w
    rw [M.bind_apply, M.bind_apply, logwOr_shift c r logw sim w]
    rcases logwOr R r logw sim w with ⟨_ | lw, w'⟩
    · rfl
    · simp only [Except.map, h]
  have ht : ∀ r : Run ℝ, (r.shift c).theta = r.theta := fun _ => rfl
  refine ⟨?_, ?_, ?_, ?_, ?_, ?_, ?_, ?_⟩
  · intro r logw sim
    refine Carried.of_eq ?_
    unfold Estimator.call countSamples
    simp [Run.shift, Run.mapLogl]
  · intro r logw sim
    unfold Estimator.call Nestcheck.logz
    refine Carried.some_bind (a := 1) (b := c) ?_
    refine (logwOr_shift c r logw sim).bind fun lw => Carried.lift ?_
    rw [logsumexp_add]
    simp only [one_mul]
  · intro r logw sim
    unfold Estimator.call Nestcheck.evidence
    refine Carried.some_bind (a := Real.exp c) (b := 0) ?_
    refine (logwOr_shift c r logw sim).bind fun lw => ?_
    refine (Carried.lift (logsumexp_add c lw)).bind fun l => ?_
    have : Real.exp (l + c) = Real.exp c * Real.exp l + 0 := by rw [Real.exp_add]; ring
    rw [this]
    exact Carried.pure (fun x => Real.exp c * x + 0) (Real.exp l)
  · intro r logw sim
    refine Carried.of_eq ?_
    unfold Estimator.call Nestcheck.paramMean
    exact same r logw sim _ _ fun lw => by unfold paramMeanOf; rw [relWeights_shift, ht]
  · intro r logw sim
    refine Carried.of_eq ?_
    unfold Estimator.call Nestcheck.paramCred
    exact congrArg (fun m : M σ ℝ => m >>= fun x => (pure (some x) : M σ (Option ℝ))) (same r logw sim (fun lw => (do
      let w ← relWeights lw
      let x ← column r.theta ind
      weightedQuantile A prob x w)) (fun lw => (do
      let w ← relWeights lw
      let x ← column (r.shift c).theta ind
      weightedQuantile A prob x w)) fun lw => by simp only [relWeights_shift, ht])
  · intro r logw sim
    refine Carried.of_eq ?_
    unfold Estimator.call Nestcheck.paramSquaredMean
    exact congrArg (fun m : M σ ℝ => m >>= fun x => (pure (some x) : M σ (Option ℝ))) (same r logw sim (fun lw => (do
      let w ← relWeights lw
      let w ← pyMap (fun x => npDiv x w.sum) w
      let x ← column r.theta ind
      dot w (x.map (· ^ 2)))) (fun lw => (do
      let w ← relWeights lw
      let w ← pyMap (fun x => npDiv x w.sum) w
      let x ← column (r.shift c).theta ind
      dot w (x.map (· ^ 2)))) fun lw => by simp only [relWeights_shift, ht])
  · intro r logw sim
    refine Carried.of_eq ?_
    unfold Estimator.call Nestcheck.rMean
    exact congrArg (fun m : M σ ℝ => m >>= fun x => (pure (some x) : M σ (Option ℝ))) (same r logw sim (fun lw => (do
      let w ← relWeights lw
      weightedMean w (radii r.theta))) (fun lw => (do
      let w ← relWeights lw
      weightedMean w (radii (r.shift c).theta))) fun lw => by simp only [relWeights_shift, ht])
  · intro r logw sim
    refine Carried.of_eq ?_
    unfold Estimator.call Nestcheck.rCred
    exact congrArg (fun m : M σ ℝ => m >>= fun x => (pure (some x) : M σ (Option ℝ))) (same r logw sim (fun lw => (do
      let w ← relWeights lw
      weightedQuantile A prob (radii r.theta) w)) (fun lw => (do
      let w ← relWeights lw
      weightedQuantile A prob (radii (r.shift c).theta) w)) fun lw => by simp only [relWeights_shift, ht])

/-! ### Error bars -/

theorem callEach_shift (c : ℝ) {ps : List (Pairing σ)} (hp : ∀ p ∈ ps, p.after = p.before ∧ Shifts c p.coeffs p.before) (r : Run ℝ)
    (lw : List ℝ) :
    Carried (changed ps) (callEach r lw (ps.map (·.before))) (callEach (r.shift c) (lw.map (· + c)) (ps.map (·.before))) := by
  induction ps with
  | nil => exact Carried.pure _ _
  | cons p ps ih =>
    simp only [List.map_cons, callEach]
    refine ((hp p (List.mem_cons_self)).2 r (some lw) false).bind fun v => ?_
    exact (ih (fun q hq => hp q (List.mem_cons_of_mem _ hq))).bind fun vs => Carried.pure _ _

/-- C89 for `run_estimators`. -/
theorem C89_estimators (c : ℝ) {ps : List (Pairing σ)} (hp : ∀ p ∈ ps, p.after = p.before ∧ Shifts c p.coeffs p.before) (r : Run ℝ)
    (sim : Bool) :
    Carried (changed ps) (runEstimators R r (ps.map (·.before)) sim) (runEstimators R (r.shift c) (ps.map (·.before)) sim) := by
  unfold runEstimators
  exact (getLogw_shift c r sim).bind fun lw => callEach_shift c hp r lw

theorem bootstrapColumns_shift (c : ℝ) (hA : SortsAlike A (· + c)) {ps : List (Pairing σ)}
    (hp : ∀ p ∈ ps, p.after = p.before ∧ Shifts c p.coeffs p.before) (r : Run ℝ) (settings : Option Settings) (ts : List (Run ℝ))
    (sep : Bool) (ss : List Seed) :
    Carried (List.map (changed ps)) (bootstrapColumns A R r settings ts sep (ps.map (·.before)) ss)
      (bootstrapColumns A R (r.shift c) settings (ts.map (Run.mapLogl (· + c))) sep (ps.map (·.before)) ss) := by
  induction ss with
  | nil => exact Carried.pure _ _
  | cons s ss ih =>
    unfold bootstrapColumns
    refine (C89_resample (strictMono_shift c) hA R r settings (some ts) sep s (.inl (keepsNearest_shift c))).bind fun temp => ?_
    obtain ⟨run, st⟩ := temp
    refine (C89_estimators c hp run false).bind fun col => ?_
    exact ih.bind fun cols => Carried.pure _ _

/-- C89 for `run_bootstrap_values`: the values change as the estimators do, replication by replication. -/
theorem C89_values (c : ℝ) (hA : SortsAlike A (· + c)) {ps : List (Pairing σ)}
    (hp : ∀ p ∈ ps, p.after = p.before ∧ Shifts c p.coeffs p.before) (r : Run ℝ) (settings : Option Settings) (n : Nat) (sep flip : Bool)
    (seeds : Option (List Seed)) :
    Carried (List.zipWith (fun p row => row.map (affine p.coeffs)) ps)
      (runBootstrapValues A R r settings (ps.map (·.before)) n sep flip seeds)
      (runBootstrapValues A R (r.shift c) settings (ps.map (·.before)) n sep flip seeds) := by
  unfold runBootstrapValues
  refine Carried.same fun _ => ?_
  refine (C89_split (strictMono_shift c) r).bind fun ts => ?_
  refine (bootstrapColumns_shift c hA hp r settings ts sep _).bind fun cols => ?_
  rw [List.length_map, fromColumns_changed]
  cases flip with
  | false => exact Carried.pure _ _
  | true =>
    intro w
    show (Except.ok _, w) = (Except.ok _, w)
    congr 2
    simp only [if_true]
    rw [List.map_zipWith, List.zipWith_map_right]
    congr 1
    funext p row
    exact flipRow_affine _ _

/-- C89 for `run_std_bootstrap`: error bars of `logz` and of the parameters do not change, those of the evidence are multiplied by
exp(c). -/
theorem C89_std (c : ℝ) (hA : SortsAlike A (· + c)) {ps : List (Pairing σ)}
    (hp : ∀ p ∈ ps, p.after = p.before ∧ Shifts c p.coeffs p.before) (r : Run ℝ) (settings : Option Settings) (n : Nat) (sep flip : Bool)
    (seeds : Option (List Seed)) :
    Carried (List.zipWith (fun p s => s.map (|p.coeffs.1| * ·)) ps)
      (runStdBootstrap A R r settings (ps.map (·.before)) n sep flip seeds)
      (runStdBootstrap A R (r.shift c) settings (ps.map (·.before)) n sep flip seeds) := by
  unfold runStdBootstrap
  refine (C89_values c hA hp r settings n sep flip seeds).bind fun vals => ?_
  intro w
  show (Except.ok _, w) = (Except.ok _, w)
  congr 2
  rw [List.map_zipWith, List.zipWith_map_right]
  congr 1
  funext p row
  exact npStd_affine _ _

/-- C89 for `run_ci_bootstrap`. -/
theorem C89_ci (c : ℝ) (hA : SortsAlike A (· + c)) {ps : List (Pairing σ)}
    (hp : ∀ p ∈ ps, p.after = p.before ∧ Shifts c p.coeffs p.before) (ha : ∀ p ∈ ps, 0 ≤ p.coeffs.1) (r : Run ℝ)
    (settings : Option Settings) (cred : ℝ) (n : Nat) (sep flip : Bool) (seeds : Option (List Seed)) :
    Carried (changed ps) (runCiBootstrap A R r settings (ps.map (·.before)) cred n sep flip seeds)
      (runCiBootstrap A R (r.shift c) settings (ps.map (·.before)) cred n sep flip seeds) := by
  unfold runCiBootstrap
  refine (C89_values c hA hp r settings n sep flip seeds).bind_of fun vals w w' hv => ?_
  refine (C89_estimators c hp r false).bind_of fun es w1 w2 he => ?_
  refine Carried.lift ?_
  rcases pyMap_ci cred ha es vals with h | h | h
  · exact h
  · unfold runEstimators at he
    obtain ⟨lw, _, -, he⟩ := M.bind_eq_ok.mp he
    have := callEach_count he
    simp at this
    omega
  · unfold runBootstrapValues at hv
    obtain ⟨_, _, -, hv⟩ := M.bind_eq_ok.mp hv
    obtain ⟨_, _, -, hv⟩ := M.bind_eq_ok.mp hv
    obtain ⟨cols, _, -, hv⟩ := M.bind_eq_ok.mp hv
    cases hv
    exfalso
    revert h
    split_ifs <;> simp [fromColumns]

theorem simulateColumns_shift (c : ℝ) {ps : List (Pairing σ)} (hp : ∀ p ∈ ps, p.after = p.before ∧ Shifts c p.coeffs p.before)
    (r : Run ℝ) (n : Nat) :
    Carried (List.map (changed ps)) (simulateColumns R r (ps.map (·.before)) n) (simulateColumns R (r.shift c) (ps.map (·.before)) n) := by
  induction n with
  | zero => exact Carried.pure _ _
  | succ n ih =>
    unfold simulateColumns
    exact (C89_estimators c hp r true).bind fun col => ih.bind fun cols => Carried.pure _ _

/-- C89 for `run_std_simulate`. -/
theorem C89_simulate (c : ℝ) {ps : List (Pairing σ)} (hp : ∀ p ∈ ps, p.after = p.before ∧ Shifts c p.coeffs p.before) (r : Run ℝ)
    (n : Option Nat) :
    Carried (List.zipWith (fun p s => s.map (|p.coeffs.1| * ·)) ps) (runStdSimulate R r (ps.map (·.before)) n)
      (runStdSimulate R (r.shift c) (ps.map (·.before)) n) := by
  unfold runStdSimulate
  cases n with
  | none => exact Carried.raise _ _
  | some n =>
    refine (simulateColumns_shift c hp r n).bind fun cols => ?_
    intro w
    show (Except.ok _, w) = (Except.ok _, w)
    congr 2
    rw [List.length_map, fromColumns_changed, List.map_zipWith, List.zipWith_map_right]
    congr 1
    funext p row
    exact npStd_affine _ _

/-! ### A concrete case -/

/-- `logz`, `evidence` and a parameter mean. -/
def shiftPairs (A : Argsort ℝ) (R : Rng σ ℝ) (c : ℝ) : List (Pairing σ) :=
  [⟨Estimator.logz.call A R, Estimator.logz.call A R, (1, c)⟩,
   ⟨Estimator.evidence.call A R, Estimator.evidence.call A R, (Real.exp c, 0)⟩,
   ⟨(Estimator.paramMean 0 false).call A R, (Estimator.paramMean 0 false).call A R, (1, 0)⟩]

theorem shiftPairs_shift (c : ℝ) : ∀ p ∈ shiftPairs A R c, p.after = p.before ∧ Shifts c p.coeffs p.before := by
  obtain ⟨-, h2, h3, h4, -⟩ := C89_shift (A := A) (R := R) c 0 false 0
  intro p hp
  simp only [shiftPairs, List.mem_cons, List.not_mem_nil, or_false] at hp
  rcases hp with rfl | rfl | rfl
  · exact ⟨rfl, h2⟩
  · exact ⟨rfl, h3⟩
  · exact ⟨rfl, h4⟩

example (c : ℝ) (n : Nat) (w : World σ) :
    (runStdBootstrap (stableSort ℝ) R (exReal.shift c) none ((shiftPairs (stableSort ℝ) R c).map (·.before)) n false true none w).1 =
      (runStdBootstrap (stableSort ℝ) R exReal none ((shiftPairs (stableSort ℝ) R c).map (·.before)) n false true none w).1.map
        (List.zipWith (fun p s => s.map (|p.coeffs.1| * ·)) (shiftPairs (stableSort ℝ) R c)) := by
  rw [C89_std c (C89_stable (strictMono_shift c)) (shiftPairs_shift c)]

end
end Nestcheck
