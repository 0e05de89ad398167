import Verif.Props.SimulatedEstimates
import Verif.Props.StaticErrors

/-! C105: the errors which `run_std_simulate` gives for the runs of ideal samplers vanish. -/

namespace Nestcheck
open Spec MeasureTheory ProbabilityTheory ENNReal Filter Topology
variable {σ E : Type} {N m : Nat}

noncomputable section

/-- The numbers which the generator delivers one after the other are `us`: after `j` calls for `n` numbers each, a call for `n'`
numbers gives those which follow. -/
def Spec.Streams (R : Rng σ ℝ) (w : World σ) (us : List ℝ) : Prop :=
  ∀ n j n' : Nat, j * n + n' ≤ us.length → (R.uniform n' ((fun s => (R.uniform n s).2)^[j] w.rng)).1 = (us.drop (j * n)).take n'

/-- The numbers `stream` which the generator will deliver are uniform, and independent of each other, of the draws of the volumes and
of the spots of the points of the sampler. -/
def Spec.IidStream {Ω : Type} [MeasurableSpace Ω] [MeasurableSpace E] (P : Measure Ω) (ν : Measure E) (draws : Ω → Fin N → ℝ)
    (stream : Ω → Fin (m * N) → ℝ) (spots : Ω → Fin N → E) : Prop :=
  P.map (fun ω => ((draws ω, stream ω), spots ω)) = ((Measure.pi fun _ => volume.restrict (Set.Ico (0 : ℝ) 1)).prod
    (Measure.pi fun _ => volume.restrict (Set.Ico (0 : ℝ) 1))).prod (Measure.pi fun _ => ν)

/-- `run_std_simulate` with `m` simulations returns for the estimator `e`; and whenever it returns for a list of deterministic
estimators with `e` among them, the error of `e` is a number below `δ`. -/
def Spec.SmallError (R : Rng σ ℝ) (e : Estimator) (m : Nat) (δ : ℝ) (A : Argsort ℝ) (r : Run ℝ) (w : World σ) : Prop :=
  (∃ out w', runStdSimulate R r [e.call A R] (some m) w = (.ok out, w')) ∧
  ∀ fs : List (EstFunc σ), (∀ f ∈ fs, Deterministic f) → ∀ i : Nat, fs[i]? = some (e.call A R) →
    ∀ out w', runStdSimulate R r fs (some m) w = (.ok out, w') → ∃ s, out[i]? = some (some s) ∧ 0 ≤ s ∧ s < δ

/-- Some run with these draws is not processed, or the processed run is not `good` when the generator delivers the numbers `us`. -/
def Spec.ErrorMisses (R : Rng σ ℝ) (loglike : ℝ → ℝ) (place : ℝ → E → List ℝ) (rule : Rule N) (start : Finset (Fin N)) (u : Fin N → ℝ)
    (us : List ℝ) (e : Fin N → E) (init : ℝ) (good : Argsort ℝ → Run ℝ → World σ → Prop) : Prop :=
  ∃ live its samples, PosteriorExecution loglike place rule start u e init live its ∧ samples.Perm (its.map (·.dead)) ∧
    ∃ (A : Argsort ℝ) (da dw : Bool) (w : World σ), Streams R w us ∧
      ¬ ∃ r : Run ℝ, processSamples A R samples da dw w = (.ok r, w) ∧ good A r w

/-! ### One call with simulated weights -/

/-- An estimator which is called without weights uses those which are handed to it by `run_estimators`. -/
theorem call_given {A : Argsort ℝ} {R : Rng σ ℝ} {e : Estimator} {r : Run ℝ} {sim : Bool} {w w' w1 : World σ} {v : Option ℝ} {lw : List ℝ}
    (h : e.call A R r none sim w = (.ok v, w')) (hl : getLogw R r sim w = (.ok lw, w1)) (w2 : World σ) :
    e.call A R r (some lw) false w2 = (.ok v, w2) := by
  have key : ∀ {α : Type} {body : List ℝ → Py α} {x : α} {w' : World σ},
      (logwOr R r none sim >>= fun lw => M.lift (body lw)) w = (.ok x, w') → (logwOr R r (some lw) false >>= fun lw => M.lift (body lw)) w2 = (.ok x, w2) := by
    intro α body x w' hx
    unfold logwOr at hx
    dsimp only at hx
    rw [M.bind_ok hl, M.lift_apply, Prod.mk.injEq] at hx
    change M.lift (body lw) w2 = _
    rw [M.lift_apply, hx.1]
  have wrap : ∀ {f g : M σ ℝ} {x : Option ℝ} {w' : World σ}, (∀ {x : ℝ} {w' : World σ}, f w = (.ok x, w') → g w2 = (.ok x, w2)) →
      (f >>= fun x => pure (some x)) w = (.ok x, w') → (g >>= fun x => pure (some x)) w2 = (.ok x, w2) := by
    intro f g x w' hfg hx
    obtain ⟨y, w3, h1, h2⟩ := M.bind_eq_ok.mp hx
    rw [M.pure_apply, Prod.mk.injEq] at h2
    rw [M.bind_ok (hfg h1), M.pure_apply, h2.1]
  cases e with
  | count =>
    simp only [Estimator.call, M.pure_apply, Prod.mk.injEq] at h ⊢
    exact ⟨h.1, trivial⟩
  | logz => exact wrap (fun h => key (body := logsumexp) h) h
  | evidence =>
    refine wrap (fun {x w'} h => ?_) h
    unfold evidence at h ⊢
    obtain ⟨l, w3, h1, h⟩ := M.bind_eq_ok.mp h
    obtain ⟨z, w4, h2, h⟩ := M.bind_eq_ok.mp h
    have h3 : (logwOr R r none sim >>= fun lw => M.lift (logsumexp lw)) w = (.ok z, w4) := by rw [M.bind_ok h1, h2]
    have h4 := key h3
    obtain ⟨l', w5, g1, g2⟩ := M.bind_eq_ok.mp h4
    rw [M.pure_apply, Prod.mk.injEq] at h
    rw [M.bind_ok g1, M.bind_ok g2, M.pure_apply, h.1]
  | paramMean ind handle => exact key (body := fun lw => paramMeanOf r lw ind handle) h
  | paramCred prob ind => exact wrap (fun h => key h) h
  | paramSquaredMean ind => exact wrap (fun h => key h) h
  | rMean => exact wrap (fun h => key h) h
  | rCred prob => exact wrap (fun h => key h) h

/-- The worlds between the simulations. -/
def simWorld (R : Rng σ ℝ) (n : Nat) (w : World σ) (j : Nat) : World σ := ⟨(fun s => (R.uniform n s).2)^[j] w.rng, w.warns⟩

/-- If the values of the estimator in successive simulations are close to a number, the error is small. -/
theorem smallError_of {A : Argsort ℝ} {R : Rng σ ℝ} {e : Estimator} {r : Run ℝ} (hW : Weighable r) {m : Nat} (hm : 2 ≤ m) {w : World σ}
    (hpos : ∀ j < m, ∀ u ∈ (R.uniform r.nlive.length (simWorld R r.nlive.length w j).rng).1, 0 < u) {L δ : ℝ} (hδ : 0 < δ)
    (h : ∀ j < m, ∃ v w', e.call A R r none true (simWorld R r.nlive.length w j) = (.ok (some v), w') ∧ |v - L| < δ / 4) :
    SmallError R e m δ A r w := by
  choose! v w' hv hvL using h
  have hstep : ∀ j < m, ∃ lw, getLogw R r true (simWorld R r.nlive.length w j) = (.ok lw, simWorld R r.nlive.length w (j + 1)) ∧
      ∀ w2 : World σ, e.call A R r (some lw) false w2 = (.ok (some (v j)), w2) := by
    intro j hj
    have h1 := getLogw_ok (R := R) hW true (simWorld R r.nlive.length w j) (fun _ => hpos j hj)
    refine ⟨_, h1.trans ?_, fun w2 => call_given (hv j hj) h1 w2⟩
    simp only [if_true, simWorld, Function.iterate_succ_apply']
  choose! lw hlw hcall using hstep
  constructor
  · refine ⟨_, _, (C57_returns (R := R) (ws := simWorld R r.nlive.length w) (cols := fun j => [some (v j)]) fun j hj => ?_).choose_spec⟩
    unfold runEstimators
    rw [M.bind_ok (hlw j hj), callEach, callEach, M.bind_ok (hcall j hj _)]
    rfl
  · intro fs hdet i hi out w'' hout
    obtain ⟨-, h2⟩ := C57_simulate (R := R) (r := r) (fs := fs) (w := w)
    obtain ⟨-, ws, cols, e1, e2, e3, e4⟩ := h2 m w'' out hout
    have hws : ∀ j ≤ m, ws j = simWorld R r.nlive.length w j := by
      intro j
      induction j with
      | zero => exact fun _ => e1
      | succ j ih =>
        intro hj
        have h3 := e3 j (by omega)
        rw [ih (by omega)] at h3
        unfold runEstimators at h3
        rw [M.bind_ok (hlw j (by omega))] at h3
        obtain ⟨y, hy⟩ := callEach_fixed hdet r (lw j)
        rw [hy, Prod.mk.injEq] at h3
        exact h3.2.symm
    have hil : i < fs.length := (List.getElem?_eq_some_iff.mp hi).1
    have hcols : ∀ j < m, (cols j)[i]? = some (some (v j)) := by
      intro j hj
      have h3 := e3 j hj
      rw [hws j (by omega)] at h3
      unfold runEstimators at h3
      rw [M.bind_ok (hlw j hj)] at h3
      obtain ⟨x, h4, h5⟩ := callEach_get hdet h3 hi
      rw [h4]
      rw [hcall j hj] at h5
      cases h5
      rfl
    refine ⟨_, e4 i v hil hm hcols, stdev_nonneg _, ?_⟩
    have := stdev_near (ys := (List.range m).map v) (L := L) (ε := δ / 4) (by linarith) (by simpa using hm) (by
      intro y hy
      obtain ⟨j, hj, rfl⟩ := List.mem_map.mp hy
      exact (hvL j (List.mem_range.mp hj)).le)
    linarith

/-! ### The numbers of one simulation -/

/-- Some of the numbers. -/
theorem select_law {M : Nat} (e : Fin N → Fin M) (he : Function.Injective e) : (unifPow M).map (fun U i => U (e i)) = unifPow N := by
  have hI : IsProbabilityMeasure (volume.restrict (Set.Ico (0 : ℝ) 1)) := inferInstanceAs (IsProbabilityMeasure unif)
  have h : iIndepFun (fun (i : Fin M) (U : Fin M → ℝ) => U i) (unifPow M) := iIndepFun_pi (X := fun _ => id) (fun i => aemeasurable_id)
  have h1 := h.precomp he
  rw [iIndepFun_iff_map_fun_eq_pi_map (fun i => (measurable_pi_apply (e i)).aemeasurable)] at h1
  refine h1.trans ?_
  unfold unifPow
  congr 1
  funext i
  exact (measurePreserving_eval (fun _ : Fin M => unif) (e i)).map_eq

/-- Where the numbers of the `j`-th simulation of a run of `n` samples are. -/
def simIndex (m N : Nat) (j : Fin m) (n : Nat) (i : Fin N) : Fin (m * N) :=
  ⟨j * min n N + i, by
    have h1 : (j : Nat) * min n N ≤ j * N := Nat.mul_le_mul_left _ (min_le_right _ _)
    have h2 : ((j : Nat) + 1) * N ≤ m * N := Nat.mul_le_mul_right _ j.2
    have := i.2
    rw [add_mul, one_mul] at h2
    omega⟩

theorem simIndex_injective (j : Fin m) (n : Nat) : Function.Injective (simIndex m N j n) := by
  intro a b h
  have : (j : Nat) * min n N + a = j * min n N + b := congrArg Fin.val h
  exact Fin.ext (by omega)

theorem removals_length_measurable {rule : Rule N} {start : Finset (Fin N)} (hs : StoppingSchedule rule start) :
    Measurable (fun u : Fin N → ℝ => (removals rule start u).length) := by
  refine removals_measurable (Φ := fun l => l.length) hs.measurable ?_
  intro ds
  have hl : MList ds.length (fun q : (Fin N → ℝ) × (Fin ds.length → ℝ) => List.ofFn q.2) := MList.ofFn measurable_snd
  have : ∀ q : (Fin N → ℝ) × (Fin ds.length → ℝ), (withVolumes ds (List.ofFn q.2)).length = ds.length := fun q => by
    have := congrArg List.length (withVolumes_alive ds _ (hl.len q)).1
    simpa using this
  simp only [this]
  exact measurable_const

section

variable {Ω : Type} [MeasurableSpace Ω] {P : Measure Ω} [MeasurableSpace E] {ν : Measure E} [IsProbabilityMeasure ν]
  {draws : Ω → Fin N → ℝ} {stream : Ω → Fin (m * N) → ℝ} {spots : Ω → Fin N → E}

/-- The numbers which are used in one of the simulations are uniform and independent of everything else. -/
theorem Spec.IidStream.simulated (h : IidStream P ν draws stream spots) {rule : Rule N} {start : Finset (Fin N)} (hs : StoppingSchedule rule start)
    (j : Fin m) : IidSimulated P ν draws (fun ω i => stream ω (simIndex m N j (removals rule start (draws ω)).length i)) spots := by
  have hI : IsProbabilityMeasure (volume.restrict (Set.Ico (0 : ℝ) 1)) := inferInstanceAs (IsProbabilityMeasure unif)
  have hlaw : P.map (fun ω => ((draws ω, stream ω), spots ω)) = ((unifPow N).prod (unifPow (m * N))).prod (Measure.pi fun _ : Fin N => ν) := h
  have hae : AEMeasurable (fun ω => ((draws ω, stream ω), spots ω)) P := by
    refine aemeasurable_of_map_neZero ⟨fun h0 => ?_⟩
    rw [hlaw] at h0
    have := congrArg (fun m => m Set.univ) h0
    simp only [measure_univ, Measure.coe_zero, Pi.zero_apply] at this
    exact one_ne_zero this
  set g : (Fin N → ℝ) → (Fin (m * N) → ℝ) → Fin N → ℝ := fun d U i => U (simIndex m N j (removals rule start d).length i) with hg
  have hgm : Measurable (Function.uncurry g) := by
    refine measurable_pi_lambda _ fun i => ?_
    have h1 : Measurable (fun q : ℕ × (Fin (m * N) → ℝ) => q.2 (simIndex m N j q.1 i)) :=
      measurable_from_prod_countable_right fun n => measurable_pi_apply (simIndex m N j n i)
    exact h1.comp ((removals_length_measurable hs).prodMap measurable_id)
  have hsk : MeasurePreserving (fun p : (Fin N → ℝ) × (Fin (m * N) → ℝ) => (p.1, g p.1 p.2)) ((unifPow N).prod (unifPow (m * N)))
      ((unifPow N).prod (unifPow N)) :=
    (MeasurePreserving.id (unifPow N)).skew_product hgm (ae_of_all _ fun d => select_law _ (simIndex_injective j _))
  have hall := hsk.prod (MeasurePreserving.id (Measure.pi fun _ : Fin N => ν))
  unfold IidSimulated
  have e : (fun ω => ((draws ω, fun i => stream ω (simIndex m N j (removals rule start (draws ω)).length i)), spots ω)) =
      Prod.map (fun p : (Fin N → ℝ) × (Fin (m * N) → ℝ) => (p.1, g p.1 p.2)) id ∘ fun ω => ((draws ω, stream ω), spots ω) := rfl
  rw [e, ← AEMeasurable.map_map_of_aemeasurable hall.measurable.aemeasurable hae, hlaw, hall.map_eq]
  rfl

end

/-- The generator delivers the numbers of each simulation. -/
theorem Spec.Streams.delivers {R : Rng σ ℝ} {w : World σ} {U : Fin (m * N) → ℝ} (h : Streams R w (List.ofFn U)) (j : Fin m) {n : Nat}
    (hn : n ≤ N) : Delivers R (simWorld R n w j) (List.ofFn (fun i => U (simIndex m N j n i))) := by
  intro n' hn'
  rw [List.length_ofFn] at hn'
  have h1 : (j : Nat) * n ≤ j * N := Nat.mul_le_mul_left _ hn
  have h2 : ((j : Nat) + 1) * N ≤ m * N := Nat.mul_le_mul_right _ j.2
  rw [add_mul, one_mul] at h2
  have := h n j n' (by rw [List.length_ofFn]; omega)
  change (R.uniform n' ((fun s => (R.uniform n s).2)^[j] w.rng)).1 = _
  rw [this]
  apply List.ext_getElem
  · simp
    omega
  · intro i hi1 hi2
    simp [simIndex, min_eq_left hn]

/-! ### Limits -/

section

variable {Ω : ℕ → Type} [∀ k, MeasurableSpace (Ω k)] {P : ∀ k, Measure (Ω k)} {N : ℕ → Nat} {rule : ∀ k, Rule (N k)}
  {start : ∀ k, Finset (Fin (N k))} [MeasurableSpace E] {ν : Measure E} [IsProbabilityMeasure ν]
  {draws : ∀ k, Ω k → Fin (N k) → ℝ} {stream : ∀ k, Ω k → Fin (m * N k) → ℝ} {spots : ∀ k, Ω k → Fin (N k) → E}

/-- If the values of an estimator with simulated prior volumes converge, its errors vanish. -/
theorem errors_vanish {R : Rng σ ℝ} (hm : 2 ≤ m) (hs : ∀ k, StoppingSchedule (rule k) (start k))
    (hu : ∀ k, IidStream (P k) ν (draws k) (stream k) (spots k))
    {loglike : ℝ → ℝ} (hanti : StrictAntiOn loglike (Set.Ioo 0 1)) {init : ℝ} (hinit : ∀ x ∈ Set.Ioo (0 : ℝ) 1, init < loglike x)
    {place : ℝ → E → List ℝ} {e : Estimator} {L : ℝ}
    (hconv : ∀ sims : ∀ k, Ω k → Fin (N k) → ℝ, (∀ k, IidSimulated (P k) ν (draws k) (sims k) (spots k)) → ∀ δ : ℝ, 0 < δ →
      Tendsto (fun k => P k {ω | SimMisses R loglike place (rule k) (start k) (draws k ω) (sims k ω) (spots k ω) init fun A r w => ∃ v w',
        e.call A R r none true w = (.ok (some v), w') ∧ |v - L| < δ}) atTop (𝓝 0)) {δ : ℝ} (hδ : 0 < δ) :
    Tendsto (fun k => P k {ω | ErrorMisses R loglike place (rule k) (start k) (draws k ω) (List.ofFn (stream k ω)) (spots k ω) init
      (SmallError R e m δ)}) atTop (𝓝 0) := by
  set sims : Fin m → ∀ k, Ω k → Fin (N k) → ℝ := fun j k ω i =>
    stream k ω (simIndex m (N k) j (removals (rule k) (start k) (draws k ω)).length i) with hsims
  have hsim : ∀ j k, IidSimulated (P k) ν (draws k) (sims j k) (spots k) := fun j k => (hu k).simulated (hs k) j
  have hsum := tendsto_finsetSum (Finset.univ : Finset (Fin m)) fun j _ => hconv (sims j) (hsim j) (δ / 4) (by linarith)
  rw [Finset.sum_const_zero] at hsum
  refine tendsto_of_tendsto_of_tendsto_of_le_of_le tendsto_const_nhds hsum (fun k => zero_le) fun k => ?_
  refine le_trans (measure_mono_ae ?_) (measure_iUnion_fintype_le (P k) _)
  have hvec : ∀ ω, (fun i : Fin (N k) => (List.ofFn (draws k ω)).getD i 0) = draws k ω := fun ω => by
    funext i
    simp [List.getD_eq_getElem?_getD]
  have hm0 : 0 < m := by omega
  have hpos : ∀ᵐ ω ∂P k, ∀ j : Fin m, ∀ i, 0 < sims j k ω i ∧ sims j k ω i < 1 := ae_all_iff.mpr fun j => (hsim j k).pos
  filter_upwards [C96_run (R := R) (hs k) (hsim ⟨0, hm0⟩ k).points hanti hinit place, adaptive_ae (hs k) (hsim ⟨0, hm0⟩ k).points.uniform, hpos]
    with ω ⟨_, h2⟩ ⟨_, h4, h5⟩ h6 hω
  rw [hvec] at h4 h5
  by_contra hnot
  obtain ⟨live, its, samples, hex, hsam, A, da, dw, w, hw, hbad⟩ := hω
  obtain ⟨r, e1, e2, e3, e4⟩ := h2 live its hex samples hsam A da dw
  have hne := removals_ne_nil (hs k) (draws k ω)
  have hN := removals_length_le (hs k) (draws k ω)
  have hlen : r.nlive.length = (removals (rule k) (start k) (draws k ω)).length := by rw [e4, List.length_map]
  have hdel : ∀ j : Fin m, Delivers R (simWorld R r.nlive.length w j) (List.ofFn (sims j k ω)) := fun j => by
    rw [hlen]
    exact hw.delivers j hN
  refine hbad ⟨r, e1 w, smallError_of (weighable_removals e2 e4 hne h4) hm (L := L) (fun j hj u hu' => ?_) hδ fun j hj => ?_⟩
  · rw [hdel ⟨j, hj⟩ _ (by rw [List.length_ofFn, hlen]; exact hN)] at hu'
    obtain ⟨i, rfl⟩ := List.mem_ofFn.mp (List.mem_of_mem_take hu')
    exact (h6 ⟨j, hj⟩ i).1
  · by_contra hc
    refine hnot (Set.mem_iUnion.mpr ⟨⟨j, hj⟩, live, its, samples, hex, hsam, A, da, dw, simWorld R r.nlive.length w j, hdel ⟨j, hj⟩, ?_⟩)
    rintro ⟨r', g1, g2⟩
    obtain rfl : r = r' := by
      have := (e1 (simWorld R r.nlive.length w j)).symm.trans g1
      simpa using this
    exact hc g2

/-- C105.  As the number of points with which they start grows, the error which `run_std_simulate` gives for `logz` of the runs of
adaptive ideal samplers tends to zero in probability, for every fixed number of simulations. -/
theorem C105_logz {R : Rng σ ℝ} (hm : 2 ≤ m) (hs : ∀ k, StoppingSchedule (rule k) (start k))
    (hu : ∀ k, IidStream (P k) ν (draws k) (stream k) (spots k)) (hn : Tendsto (fun k => (start k).card) atTop atTop)
    {loglike : ℝ → ℝ} (hanti : StrictAntiOn loglike (Set.Ioo 0 1)) {init : ℝ} (hinit : ∀ x ∈ Set.Ioo (0 : ℝ) 1, init < loglike x)
    {b : ℝ} (hb : ∀ x ∈ Set.Ioo (0 : ℝ) 1, loglike x ≤ b) {place : ℝ → E → List ℝ} {δ : ℝ} (hδ : 0 < δ) :
    Tendsto (fun k => P k {ω | ErrorMisses R loglike place (rule k) (start k) (draws k ω) (List.ofFn (stream k ω)) (spots k ω) init
      (SmallError R .logz m δ)}) atTop (𝓝 0) := by
  refine errors_vanish (L := Real.log (∫ x in (0 : ℝ)..1, Real.exp (loglike x))) hm hs hu hanti hinit (fun sims hsim δ hδ => ?_) hδ
  refine tendsto_of_tendsto_of_tendsto_of_le_of_le tendsto_const_nhds
    (C98_logz (R := R) hs (fun k => (hsim k).simulated) hn hanti hinit hb hδ) (fun k => zero_le) fun k => measure_mono ?_
  rintro ω ⟨live, its, samples, hex, hsam, A, da, dw, w, hw, hbad⟩
  refine ⟨live, its, samples, hex.adaptive, hsam, A, da, dw, w, hw, ?_⟩
  rintro ⟨r, z, w', e1, e2, e3⟩
  refine hbad ⟨r, e1, z, w', ?_, e3⟩
  change (logz R r none true >>= fun x => pure (some x)) w = _
  rw [M.bind_ok e2, M.pure_apply]

/-- C105 for `evidence`. -/
theorem C105_evidence {R : Rng σ ℝ} (hm : 2 ≤ m) (hs : ∀ k, StoppingSchedule (rule k) (start k))
    (hu : ∀ k, IidStream (P k) ν (draws k) (stream k) (spots k)) (hn : Tendsto (fun k => (start k).card) atTop atTop)
    {loglike : ℝ → ℝ} (hanti : StrictAntiOn loglike (Set.Ioo 0 1)) {init : ℝ} (hinit : ∀ x ∈ Set.Ioo (0 : ℝ) 1, init < loglike x)
    {b : ℝ} (hb : ∀ x ∈ Set.Ioo (0 : ℝ) 1, loglike x ≤ b) {place : ℝ → E → List ℝ} {δ : ℝ} (hδ : 0 < δ) :
    Tendsto (fun k => P k {ω | ErrorMisses R loglike place (rule k) (start k) (draws k ω) (List.ofFn (stream k ω)) (spots k ω) init
      (SmallError R .evidence m δ)}) atTop (𝓝 0) := by
  refine errors_vanish (L := ∫ x in (0 : ℝ)..1, Real.exp (loglike x)) hm hs hu hanti hinit (fun sims hsim δ hδ => ?_) hδ
  obtain ⟨est, h0, h1, h2⟩ := C98_evidence (R := R) hs (fun k => (hsim k).simulated) hn hanti hinit hb
  have hδ' : ENNReal.ofReal δ ≠ 0 := by simpa using hδ
  have h3 : Tendsto (fun k => (∫⁻ ω, ‖est k ω - ∫ x in (0 : ℝ)..1, Real.exp (loglike x)‖ₑ ∂P k) / ENNReal.ofReal δ) atTop (𝓝 0) := by
    have := ENNReal.Tendsto.div_const h2 (.inr hδ')
    rwa [ENNReal.zero_div] at this
  refine tendsto_of_tendsto_of_tendsto_of_le_of_le tendsto_const_nhds h3 (fun k => zero_le) fun k => ?_
  refine le_trans (measure_mono_ae ?_) (meas_ge_le_lintegral_div ((h0 k).sub_const _).enorm hδ' ENNReal.ofReal_ne_top)
  filter_upwards [h1 k] with ω h4
  rintro ⟨live, its, samples, hex, hsam, A, da, dw, w, hw, hbad⟩
  by_contra hc
  obtain ⟨-, r, e1, w', e2, -⟩ := h4.2 live its hex.adaptive samples hsam A da dw w hw
  refine hbad ⟨r, e1, est k ω, w', ?_, ?_⟩
  · change (evidence R r none true >>= fun x => pure (some x)) w = _
    rw [M.bind_ok e2, M.pure_apply]
  · have h5 : ¬ ENNReal.ofReal δ ≤ ‖est k ω - ∫ x in (0 : ℝ)..1, Real.exp (loglike x)‖ₑ := hc
    rw [Real.enorm_eq_ofReal_abs, not_le, ENNReal.ofReal_lt_ofReal_iff hδ] at h5
    exact h5

/-- C105 for `param_mean`. -/
theorem C105_param_mean {R : Rng σ ℝ} (hm : 2 ≤ m) (hs : ∀ k, StoppingSchedule (rule k) (start k))
    (hu : ∀ k, IidStream (P k) ν (draws k) (stream k) (spots k)) (hn : Tendsto (fun k => (start k).card) atTop atTop)
    {loglike : ℝ → ℝ} (hanti : StrictAntiOn loglike (Set.Ioo 0 1)) {init : ℝ} (hinit : ∀ x ∈ Set.Ioo (0 : ℝ) 1, init < loglike x)
    {b : ℝ} (hb : ∀ x ∈ Set.Ioo (0 : ℝ) 1, loglike x ≤ b) {place : ℝ → E → List ℝ} {ind : Nat} {q : ℝ → E → ℝ}
    (hp : ∀ x ∈ Set.Ioo (0 : ℝ) 1, ∀ e, (place x e)[ind]? = some (q x e)) (hq : Measurable (fun p : ℝ × E => q p.1 p.2)) {B : ℝ}
    (hB : ∀ x ∈ Set.Ioo (0 : ℝ) 1, ∀ e, |q x e| ≤ B)
    (hcont : ∀ᵐ x ∂volume.restrict (Set.Ioo (0 : ℝ) 1), ContinuousAt (fun x => ∫ e, q x e ∂ν) x) (handle : Bool) {δ : ℝ} (hδ : 0 < δ) :
    Tendsto (fun k => P k {ω | ErrorMisses R loglike place (rule k) (start k) (draws k ω) (List.ofFn (stream k ω)) (spots k ω) init
      (SmallError R (.paramMean ind handle) m δ)}) atTop (𝓝 0) :=
  errors_vanish (L := posteriorMean loglike ν q) hm hs hu hanti hinit (fun sims hsim δ hδ =>
    let h := C99_param_mean (R := R) hs hsim hn hanti hinit hb hp hq hB hcont hδ
    simMisses_tendsto (fun _ r w hg _ => hg handle) h h) hδ

/-- C105 for `param_squared_mean`. -/
theorem C105_squared {R : Rng σ ℝ} (hm : 2 ≤ m) (hs : ∀ k, StoppingSchedule (rule k) (start k))
    (hu : ∀ k, IidStream (P k) ν (draws k) (stream k) (spots k)) (hn : Tendsto (fun k => (start k).card) atTop atTop)
    {loglike : ℝ → ℝ} (hanti : StrictAntiOn loglike (Set.Ioo 0 1)) {init : ℝ} (hinit : ∀ x ∈ Set.Ioo (0 : ℝ) 1, init < loglike x)
    {b : ℝ} (hb : ∀ x ∈ Set.Ioo (0 : ℝ) 1, loglike x ≤ b) {place : ℝ → E → List ℝ} {ind : Nat} {q : ℝ → E → ℝ}
    (hp : ∀ x ∈ Set.Ioo (0 : ℝ) 1, ∀ e, (place x e)[ind]? = some (q x e)) (hq : Measurable (fun p : ℝ × E => q p.1 p.2)) {B : ℝ}
    (hB : ∀ x ∈ Set.Ioo (0 : ℝ) 1, ∀ e, |q x e| ≤ B)
    (hcont : ∀ᵐ x ∂volume.restrict (Set.Ioo (0 : ℝ) 1), ContinuousAt (fun x => ∫ e, q x e ^ 2 ∂ν) x) {δ : ℝ} (hδ : 0 < δ) :
    Tendsto (fun k => P k {ω | ErrorMisses R loglike place (rule k) (start k) (draws k ω) (List.ofFn (stream k ω)) (spots k ω) init
      (SmallError R (.paramSquaredMean ind) m δ)}) atTop (𝓝 0) :=
  errors_vanish (L := posteriorMean loglike ν (fun x e => q x e ^ 2)) hm hs hu hanti hinit (fun sims hsim δ hδ =>
    let h := C99_squared (R := R) hs hsim hn hanti hinit hb hp hq hB hcont hδ
    simMisses_tendsto (fun _ r w hg _ => (by
      obtain ⟨x, w', e1, e2⟩ := hg
      refine ⟨x, w', ?_, e2⟩
      change (paramSquaredMean R r none true ind >>= fun x => pure (some x)) w = _
      rw [M.bind_ok e1, M.pure_apply])) h h) hδ

/-- C105 for `r_mean`. -/
theorem C105_r_mean {R : Rng σ ℝ} (hm : 2 ≤ m) (hs : ∀ k, StoppingSchedule (rule k) (start k))
    (hu : ∀ k, IidStream (P k) ν (draws k) (stream k) (spots k)) (hn : Tendsto (fun k => (start k).card) atTop atTop)
    {loglike : ℝ → ℝ} (hanti : StrictAntiOn loglike (Set.Ioo 0 1)) {init : ℝ} (hinit : ∀ x ∈ Set.Ioo (0 : ℝ) 1, init < loglike x)
    {b : ℝ} (hb : ∀ x ∈ Set.Ioo (0 : ℝ) 1, loglike x ≤ b) {place : ℝ → E → List ℝ} {q : ℝ → E → ℝ}
    (hp : ∀ x ∈ Set.Ioo (0 : ℝ) 1, ∀ e, radius (place x e) = q x e) (hq : Measurable (fun p : ℝ × E => q p.1 p.2)) {B : ℝ}
    (hB : ∀ x ∈ Set.Ioo (0 : ℝ) 1, ∀ e, |q x e| ≤ B)
    (hcont : ∀ᵐ x ∂volume.restrict (Set.Ioo (0 : ℝ) 1), ContinuousAt (fun x => ∫ e, q x e ∂ν) x) {δ : ℝ} (hδ : 0 < δ) :
    Tendsto (fun k => P k {ω | ErrorMisses R loglike place (rule k) (start k) (draws k ω) (List.ofFn (stream k ω)) (spots k ω) init
      (SmallError R .rMean m δ)}) atTop (𝓝 0) :=
  errors_vanish (L := posteriorMean loglike ν q) hm hs hu hanti hinit (fun sims hsim δ hδ =>
    let h := C99_r_mean (R := R) hs hsim hn hanti hinit hb hp hq hB hcont hδ
    simMisses_tendsto (fun _ r w hg _ => (by
      obtain ⟨x, w', e1, e2⟩ := hg
      refine ⟨x, w', ?_, e2⟩
      change (rMean R r none true >>= fun x => pure (some x)) w = _
      rw [M.bind_ok e1, M.pure_apply])) h h) hδ

/-- C105 for `param_cred`. -/
theorem C105_param_cred {R : Rng σ ℝ} (hm : 2 ≤ m) (hs : ∀ k, StoppingSchedule (rule k) (start k))
    (hu : ∀ k, IidStream (P k) ν (draws k) (stream k) (spots k)) (hn : Tendsto (fun k => (start k).card) atTop atTop)
    {loglike : ℝ → ℝ} (hanti : StrictAntiOn loglike (Set.Ioo 0 1)) {init : ℝ} (hinit : ∀ x ∈ Set.Ioo (0 : ℝ) 1, init < loglike x)
    {b : ℝ} (hb : ∀ x ∈ Set.Ioo (0 : ℝ) 1, loglike x ≤ b) {place : ℝ → E → List ℝ} {ind : Nat} {q : ℝ → E → ℝ}
    (hp : ∀ x ∈ Set.Ioo (0 : ℝ) 1, ∀ e, (place x e)[ind]? = some (q x e)) (hq : Measurable (fun p : ℝ × E => q p.1 p.2))
    (hcont : ∀ t, ∀ᵐ x ∂volume.restrict (Set.Ioo (0 : ℝ) 1), ContinuousAt (fun x => ν.real {e | q x e ≤ t}) x)
    {prob : ℝ} (hp0 : 0 < prob) (hp1 : prob < 1) {Q : ℝ} (hQ : PosteriorQuantile loglike ν q prob Q) {δ : ℝ} (hδ : 0 < δ) :
    Tendsto (fun k => P k {ω | ErrorMisses R loglike place (rule k) (start k) (draws k ω) (List.ofFn (stream k ω)) (spots k ω) init
      (SmallError R (.paramCred prob ind) m δ)}) atTop (𝓝 0) :=
  errors_vanish (L := Q) hm hs hu hanti hinit (fun sims hsim δ hδ =>
    let h := C99_param_cred (R := R) hs hsim hn hanti hinit hb hp hq hcont hp0 hp1 hQ hδ
    simMisses_tendsto (fun A r w hg _ => (by
      obtain ⟨x, w', e1, e2⟩ := hg
      refine ⟨x, w', ?_, e2⟩
      change (paramCred A R r none true prob ind >>= fun x => pure (some x)) w = _
      rw [M.bind_ok e1, M.pure_apply])) h h) hδ

/-- C105 for `r_cred`. -/
theorem C105_r_cred {R : Rng σ ℝ} (hm : 2 ≤ m) (hs : ∀ k, StoppingSchedule (rule k) (start k))
    (hu : ∀ k, IidStream (P k) ν (draws k) (stream k) (spots k)) (hn : Tendsto (fun k => (start k).card) atTop atTop)
    {loglike : ℝ → ℝ} (hanti : StrictAntiOn loglike (Set.Ioo 0 1)) {init : ℝ} (hinit : ∀ x ∈ Set.Ioo (0 : ℝ) 1, init < loglike x)
    {b : ℝ} (hb : ∀ x ∈ Set.Ioo (0 : ℝ) 1, loglike x ≤ b) {place : ℝ → E → List ℝ} {q : ℝ → E → ℝ}
    (hp : ∀ x ∈ Set.Ioo (0 : ℝ) 1, ∀ e, radius (place x e) = q x e) (hq : Measurable (fun p : ℝ × E => q p.1 p.2))
    (hcont : ∀ t, ∀ᵐ x ∂volume.restrict (Set.Ioo (0 : ℝ) 1), ContinuousAt (fun x => ν.real {e | q x e ≤ t}) x)
    {prob : ℝ} (hp0 : 0 < prob) (hp1 : prob < 1) {Q : ℝ} (hQ : PosteriorQuantile loglike ν q prob Q) {δ : ℝ} (hδ : 0 < δ) :
    Tendsto (fun k => P k {ω | ErrorMisses R loglike place (rule k) (start k) (draws k ω) (List.ofFn (stream k ω)) (spots k ω) init
      (SmallError R (.rCred prob) m δ)}) atTop (𝓝 0) :=
  errors_vanish (L := Q) hm hs hu hanti hinit (fun sims hsim δ hδ =>
    let h := C99_r_cred (R := R) hs hsim hn hanti hinit hb hp hq hcont hp0 hp1 hQ hδ
    simMisses_tendsto (fun A r w hg _ => (by
      obtain ⟨x, w', e1, e2⟩ := hg
      refine ⟨x, w', ?_, e2⟩
      change (rCred A R r none true prob >>= fun x => pure (some x)) w = _
      rw [M.bind_ok e1, M.pure_apply])) h h) hδ

end

end
end Nestcheck
