import Verif.Props.WritePost
import Verif.Proofs.FrameBootstrap

/-
C73: the .stats file written by write_run_output.  C61: when the bootstrap returns.
-/

set_option linter.unusedSectionVars false

namespace Nestcheck
open Spec

section
variable {σ F : Type} (A : Argsort ℝ) (R : Rng σ ℝ)

/-! ### When the bootstrap returns -/

theorem replication_of {r : Run ℝ} {labels : List Int} {tmm : List (WithBot ℝ × ℝ)} (h : ValidWith r labels tmm)
    {settings : Option Settings} {sep : Bool} {seed : Seed} {w w' : World σ} {run : Run ℝ} {st : Option Settings}
    (hb : bootstrapResampleRun A R r settings none sep seed w = (.ok (run, st), w')) :
    Replication r labels tmm.length run := by
  obtain ⟨-, inds, hd, hp, hs, hl1, hl2, hpos, hlast, -⟩ := C34_bootstrap R h hb
  exact ⟨⟨inds, hd.count, hd.range, hp⟩, hs, hl1, weighable_of hl2 hpos hlast⟩

theorem runEstimators_ok {rep : Run ℝ} (hw : Weighable rep) {fs : List (EstFunc σ)}
    (hf : ∀ f ∈ fs, WellBehaved R rep f ∧ ∀ w : World σ, ∃ v, (f rep none false w).1 = .ok v) (w : World σ) :
    ∃ vs, runEstimators R rep fs false w = (.ok vs, w) := by
  obtain ⟨h1, h2, -⟩ := C33_run_estimators R hw (fun f hm => (hf f hm).1) false w (by simp)
  have : ∃ vs, List.Forall₂ (fun f v => (f rep none false w).1 = .ok v) fs vs := by
    clear h1 h2
    induction fs with
    | nil => exact ⟨[], .nil⟩
    | cons f fs ih =>
      obtain ⟨vs, hvs⟩ := ih (fun g hg => hf g (by simp [hg]))
      obtain ⟨v, hv⟩ := (hf f (by simp)).2 w
      exact ⟨v :: vs, .cons hv hvs⟩
  obtain ⟨vs, hvs⟩ := this
  exact ⟨vs, Prod.ext ((h2 vs).mpr hvs) (h1.trans (by simp [afterWeights]))⟩

/-- C61, termination without failure: for a run all of whose threads start from the whole prior (and ascend
strictly), `run_bootstrap_values` and `run_std_bootstrap` return for any seeds, any number of replications and
any estimators that return for every replication.  Without `ninit_sep` there are no warnings. -/
theorem C61_returns {r : Run ℝ} {labels : List Int} {tmm : List (WithBot ℝ × ℝ)} (h : ProperThreads r labels tmm)
    (hs : ∀ p ∈ tmm, p.1 = ⊥) {fs : List (EstFunc σ)}
    (hf : ∀ rep, Replication r labels tmm.length rep → ∀ f ∈ fs,
      WellBehaved R rep f ∧ ∀ w : World σ, ∃ v, (f rep none false w).1 = .ok v)
    {settings : Option Settings} {sep : Bool} (hsep : ∀ k, separately settings sep = some k → k ≤ tmm.length)
    {n : Nat} (flip : Bool) {seeds : Option (List Seed)} (hseeds : ∀ l, seeds = some l → l.length = n) (w : World σ) :
    (∃ vals w', runBootstrapValues A R r settings fs n sep flip seeds w = (.ok vals, w') ∧
      (sep = false → w'.warns = w.warns)) ∧
    ∃ stds w', runStdBootstrap A R r settings fs n sep flip seeds w = (.ok stds, w') ∧
      (sep = false → w'.warns = w.warns) := by
  have key : ∃ vals w', runBootstrapValues A R r settings fs n sep flip seeds w = (.ok vals, w') ∧
      (sep = false → w'.warns = w.warns) := by
    obtain ⟨ts, hts⟩ : ∃ ts, ∀ w : World σ, getRunThreads r w = (.ok ts, w) :=
      ⟨_, fun w => getRunThreads_ok h.toValidWith w⟩
    have hcols : ∀ (ss : List Seed) (w : World σ), ∃ cols w',
        bootstrapColumns A R r settings ts sep fs ss w = (.ok cols, w') ∧ (sep = false → w'.warns = w.warns) := by
      intro ss
      induction ss with
      | nil => exact fun w => ⟨[], w, rfl, fun _ => rfl⟩
      | cons s ss ih =>
        intro w
        obtain ⟨run, w1, h1, hw1, -⟩ := C36_static R (A := A) h hs hsep s w
        have hr := replication_of A R h.toValidWith h1
        obtain ⟨vs, h2⟩ := runEstimators_ok R hr.weighable (hf run hr) w1
        obtain ⟨cols, w3, h3, hw3⟩ := ih w1
        refine ⟨vs :: cols, w3, ?_, fun e => ?_⟩
        · rw [bootstrapColumns, C34_threads R hts, M.bind_ok h1, M.bind_ok h2, M.bind_ok h3]
          rfl
        · rw [hw3 e, hw1, if_neg (by rw [e]; simp), List.append_nil]
    have hl : (seeds.getD ((List.range n).map Seed.num)).length = n := by
      cases seeds with
      | none => simp
      | some l => exact hseeds l rfl
    obtain ⟨cols, w', hc, hw⟩ := hcols (seeds.getD ((List.range n).map Seed.num)) w
    unfold runBootstrapValues
    dsimp only
    rw [M.bind_ok (a := ()) (w' := w) (by rw [hl]; simp [M.assert]), M.bind_ok (hts w), M.bind_ok hc]
    exact ⟨_, _, rfl, hw⟩
  refine ⟨key, ?_⟩
  obtain ⟨vals, w', hv, hw⟩ := key
  exact ⟨_, _, M.bind_ok hv, hw⟩

/-! ### The estimators of the .stats file -/

/-- The values of parameter `i`. -/
def Spec.paramColumn (run : Run ℝ) (i : Nat) : List ℝ := run.theta.filterMap (·[i]?)

theorem paramColumn_spec {run : Run ℝ} {d i : Nat} (hd : ∀ t ∈ run.theta, t.length = d) (hi : i < d) :
    run.theta.map (·[i]?) = (paramColumn run i).map some := by
  unfold paramColumn
  generalize run.theta = ts at hd
  induction ts with
  | nil => rfl
  | cons t ts ih =>
    have ht : t[i]? = some (t[i]'(by rw [hd t (by simp)]; exact hi)) := List.getElem?_eq_getElem _
    rw [List.map_cons, List.filterMap_cons, ht, List.map_cons, ih (fun s hs => hd s (by simp [hs]))]

/-- The weights of the samples: prior volume (for the expected shrinkage) times likelihood. -/
noncomputable def Spec.expectedWeights (run : Run ℝ) : List ℝ := sampleWeights run none false []

theorem stats_each {rep : Run ℝ} (hw : Weighable rep) (ht : rep.theta.length = rep.logl.length) {d : Nat}
    (hd : ∀ t ∈ rep.theta, t.length = d) :
    (∃ z : ℝ, Real.exp z = (expectedWeights rep).sum ∧
      ∀ w : World σ, (Estimator.call A R .logz rep none false w).1 = .ok (some z)) ∧
    ∀ i, i < d → ∀ w : World σ, (Estimator.call A R (.paramMean i false) rep none false w).1 =
      .ok (some (mean (expectedWeights rep) (paramColumn rep i))) := by
  constructor
  · have := fun w : World σ => C29_evidence R hw false w (by simp)
    have hsum : ∀ w : World σ, (Estimator.call A R .logz rep none false w).1 =
        .ok (some (Real.log (expectedWeights rep).sum)) := by
      intro w
      obtain ⟨z, h1, -, h3, -⟩ := this w
      have hz : z = Real.log (expectedWeights rep).sum := by
        rw [← Real.log_exp z, h3]
        rfl
      simp only [Estimator.call]
      rw [M.bind_ok h1, ← hz]
      rfl
    refine ⟨_, Real.exp_log ?_, hsum⟩
    have hv := priorVolumes_spec hw.nlive_ne hw.pos false [] (by simp)
    have hl : (expectedWeights rep).length = rep.logl.length := by
      simp [expectedWeights, sampleWeights, hv.1, hw.len]
    apply List.sum_pos
    · intro x hx
      unfold expectedWeights sampleWeights at hx
      rw [← List.map_uncurry_zip_eq_zipWith] at hx
      obtain ⟨⟨v, l⟩, hm, rfl⟩ := List.mem_map.mp hx
      exact mul_pos (hv.2.2 v (List.of_mem_zip hm).1) (Real.exp_pos l)
    · intro e
      rw [e] at hl
      exact hw.nonempty (List.length_eq_zero_iff.mp hl.symm)
  · intro i hi w
    obtain ⟨m, h1, h2, -⟩ := C30_param_mean R (r := rep) (logw := none) (sim := false) (w := w)
      ⟨ht, hw.nonempty, hw, by simp⟩ (paramColumn_spec hd hi) false
    show (paramMean R rep none false i false w).1 = _
    rw [h1, h2]
    rfl

theorem thetaDim_eq {run : Run ℝ} (hw : Weighable run) (ht : run.theta.length = run.logl.length) {d : Nat}
    (hd : ∀ t ∈ run.theta, t.length = d) : thetaDim run = d := by
  unfold thetaDim
  cases hth : run.theta with
  | nil => rw [hth] at ht; exact absurd (List.length_eq_zero_iff.mp ht.symm) hw.nonempty
  | cons t ts => simpa using hd t (by rw [hth]; simp)

theorem statsEstimators_ok {run rep : Run ℝ} {d : Nat} (hrun : thetaDim run = d) (hw : Weighable rep)
    (ht : rep.theta.length = rep.logl.length) (hd : ∀ t ∈ rep.theta, t.length = d) :
    ∀ f ∈ statsEstimators A R run, WellBehaved R rep f ∧ ∀ w : World σ, ∃ v, (f rep none false w).1 = .ok v := by
  obtain ⟨⟨z, -, hz⟩, hm⟩ := stats_each A R hw ht hd
  intro f hf
  unfold statsEstimators at hf
  rcases List.mem_cons.mp hf with rfl | hf
  · exact ⟨C33_builtin A R _ _, fun w => ⟨_, hz w⟩⟩
  · obtain ⟨i, hi, rfl⟩ := List.mem_map.mp hf
    rw [List.mem_range, hrun] at hi
    exact ⟨C33_builtin A R _ _, fun w => ⟨_, hm i hi w⟩⟩

theorem statsEstimators_deterministic (run : Run ℝ) : ∀ f ∈ statsEstimators A R run, Deterministic f := by
  intro f hf
  unfold statsEstimators at hf
  rcases List.mem_cons.mp hf with rfl | hf
  · exact C35_builtin A R _
  · obtain ⟨i, hi, rfl⟩ := List.mem_map.mp hf
    exact C35_builtin A R _

theorem stats_values {run : Run ℝ} (hw : Weighable run) (ht : run.theta.length = run.logl.length) {d : Nat}
    (hd : ∀ t ∈ run.theta, t.length = d) :
    ∃ z : ℝ, Real.exp z = (expectedWeights run).sum ∧ ∀ w : World σ,
      runEstimators R run (statsEstimators A R run) false w =
        (.ok (some z :: (List.range d).map (fun i => some (mean (expectedWeights run) (paramColumn run i)))), w) := by
  obtain ⟨⟨z, hz1, hz⟩, hm⟩ := stats_each A R hw ht hd
  refine ⟨z, hz1, fun w => ?_⟩
  obtain ⟨h1, h2, -⟩ := C33_run_estimators R hw (fs := statsEstimators A R run)
    (fun f hf => (statsEstimators_ok A R (thetaDim_eq hw ht hd) hw ht hd f hf).1) false w (by simp)
  refine Prod.ext ((h2 _).mpr ?_) (h1.trans (by simp [afterWeights]))
  unfold statsEstimators
  refine .cons (hz w) ?_
  rw [thetaDim_eq hw ht hd, List.forall₂_map_left_iff, List.forall₂_map_right_iff, List.forall₂_same]
  intro i hi
  exact hm i (List.mem_range.mp hi) w

/-! ### The .stats file -/

/-- C73.  When `write_run_output` with `write_stats=True` returns, `process_polychord_stats` reads
from the .stats file
* the number of samples as ndead, and the numbers of rows of the posterior files;
* with `stats_means_errs=True` the logarithm of the evidence, the posterior mean of each parameter, and as their
  errors what `run_std_bootstrap` returns (in every random state); otherwise what `run['output']`
  holds, or the defaults;
* what `run['output']` holds, or the defaults, for nlive, nlike and the evidences of clusters.
No other text file is changed, and the random state is only advanced by the draws for the file
[root]_equal_weights.txt. -/
theorem C73_stats (rd : ℝ → ℝ) (fl : Option ℝ → F) (CF : Codec F) (CI : Codec Int)
    {run : Run ℝ} {settings : Option Settings} {opts : WriteOpts} (h : Outputable opts settings run) {d : Nat}
    (hd : ∀ t ∈ run.theta, t.length = d) (hst : opts.writeStats = true)
    {w w' : World (Written σ F)} {root dir : String}
    (hroot : w.rng.output.fileRoot = some root) (hdir : w.rng.output.baseDir = some dir)
    (hw' : writeRun A R rd fl CF CI run settings opts w = (.ok (), w')) :
    ∃ s : Stats F, processStats CF CI w'.rng.texts root dir = .ok s ∧
      s.fileRoot = root ∧ s.baseDir = dir ∧
      s.ndead = run.logl.length ∧
      s.nposterior = (if opts.posteriors then (run.logl.length : Int) else 0) ∧
      w'.rng.output.nequals = some s.nequals ∧
      (opts.meansErrs = true → ∃ (z : ℝ) (stds : List (Option ℝ)),
        Real.exp z = (expectedWeights run).sum ∧ stds.length = d + 1 ∧
        (∀ v : World σ, (runStdBootstrap A R run settings (statsEstimators A R run) opts.nSim false true none v).1 =
          .ok stds) ∧
        s.logZ = fl (some z) ∧ some s.logZerr = stds.head?.map fl ∧
        s.params = some ((List.range d).map (fun i => fl (some (mean (expectedWeights run) (paramColumn run i)))),
          stds.tail.map fl)) ∧
      (opts.meansErrs = false → s.logZ = w.rng.output.logZ.getD (fl (some 0)) ∧
        s.logZerr = w.rng.output.logZerr.getD (fl (some 0)) ∧
        ∀ ms es, w.rng.output.paramMeans = some ms → w.rng.output.paramMeanErrs = some es → ms.length = es.length →
          s.params = some (ms, es)) ∧
      s.nlive = w.rng.output.nlive.getD 0 ∧ s.nlike = some (collapse (w.rng.output.nlike.getD (.one 0))) ∧
      (∀ zs es, w.rng.output.logZs = some zs → w.rng.output.logZerrs = some es → zs.length = es.length →
        s.logZs = zs ∧ s.logZerrs = es ∧ s.ncluster = zs.length) ∧
      (∀ name, name ≠ pathJoin dir root ++ ".stats" → w'.rng.texts name = w.rng.texts name) ∧
      w'.rng.rng = (if opts.equals then (R.uniform run.logl.length w.rng.rng).2 else w.rng.rng) := by
  obtain ⟨ws, w1, -, -, e, -, htx, ho, hr, -, -⟩ := writeRun_front A R rd fl CF CI h.weighable h.theta_len
    settings opts h.no_settings (h.deadBirth A) hroot hdir
  rw [e] at hw'
  clear e
  unfold writeStatsPart at hw'
  rw [if_pos hst] at hw'
  obtain ⟨_, w2, g2, k2⟩ := M.bind_eq_ok.mp hw'
  obtain ⟨_, w3, g3, k3⟩ := M.bind_eq_ok.mp k2
  obtain ⟨s0, w4, g4, k4⟩ := M.bind_eq_ok.mp k3
  obtain ⟨⟨sw, files'⟩, w5, g5, k5⟩ := M.bind_eq_ok.mp k4
  clear hw' k2 k3 k4
  rw [M.getState_apply] at g4
  cases g4
  rw [M.lift_apply] at g5
  obtain ⟨g5, rfl⟩ := Prod.mk.inj g5
  cases g2
  cases k5
  -- what the means and errors change
  obtain ⟨q1, q2, q3, q4⟩ : w3.rng.texts = w.rng.texts ∧
      w3.rng.rng = (if opts.equals then (R.uniform run.logl.length w.rng.rng).2 else w.rng.rng) ∧
      (opts.meansErrs = true → ∃ (z : ℝ) (stds : List (Option ℝ)),
        Real.exp z = (expectedWeights run).sum ∧ stds.length = d + 1 ∧
        (∀ v : World σ, (runStdBootstrap A R run settings (statsEstimators A R run) opts.nSim false true none v).1 =
          .ok stds) ∧
        w3.rng.output = { w1.rng.output with
          ndead := some (run.logl.length : Int), logZ := some (fl (some z)), logZerr := stds.head?.map fl
          paramMeans := some ((List.range d).map (fun i => fl (some (mean (expectedWeights run) (paramColumn run i)))))
          paramMeanErrs := some (stds.tail.map fl) }) ∧
      (opts.meansErrs = false → w3.rng.output = { w1.rng.output with ndead := some (run.logl.length : Int) }) := by
    cases hm : opts.meansErrs with
    | false =>
      rw [hm, if_neg (by simp)] at g3
      cases g3
      exact ⟨htx, hr, by simp, fun _ => rfl⟩
    | true =>
      rw [hm, if_pos rfl] at g3
      unfold writeMeansErrs at g3
      obtain ⟨z, hz, hvals⟩ := stats_values A R h.weighable h.theta_len hd (σ := σ)
      rw [M.bind_ok (onRng_pure (hvals _))] at g3
      obtain ⟨stds, w4, g6, k6⟩ := M.bind_eq_ok.mp g3
      cases k6
      have hdet := statsEstimators_deterministic A R run
      obtain ⟨-, ⟨c1, c2⟩, -⟩ := C35_values A R hdet run settings opts.nSim false true
        (seeds := none) (by simp) 0
      have hfr : Frame (runStdBootstrap A R run settings (statsEstimators A R run) opts.nSim false true none) :=
        (runBootstrapValues_frame A R hdet run settings opts.nSim false true none).bind fun _ => .pure _
      obtain ⟨g7, rfl⟩ := Prod.mk.inj g6
      have hall := outcome_const hfr c2
      refine ⟨htx, ?_, fun _ => ⟨z, stds, hz, ?_, fun v => (hall v _).trans g7, ?_⟩, by simp⟩
      · refine Eq.trans ?_ hr
        exact c1 _ stds _ (Prod.ext g7 rfl)
      · rw [C38_std, runStdBootstrap, M.bind_apply] at g7
        split at g7
        · rename_i vals v' hv
          cases g7
          rw [List.length_map]
          obtain ⟨_, _, -, -, -, hl, -⟩ := C61_values A R hv
          rw [hl]
          simp [statsEstimators, thetaDim_eq h.weighable h.theta_len hd]
        · cases g7
      · show StatsIn.mk .. = _
        simp
  have hkeys : w3.rng.output.fileRoot = some root ∧ w3.rng.output.baseDir = some dir := by
    cases hm : opts.meansErrs with
    | false => rw [q4 hm, ho]; exact ⟨hroot, hdir⟩
    | true => obtain ⟨_, _, -, -, -, eo⟩ := q3 hm; rw [eo, ho]; exact ⟨hroot, hdir⟩
  have hkeys' : StatsKeys w3.rng.output root dir := by
    by_contra hc
    have := (C14_written CF CI (fl (some 0)) w3.rng.texts w3.rng.output).2 (by
      rintro ⟨r', d', h1, h2, h3⟩
      exact hc ⟨hkeys.1, hkeys.2, h3⟩)
    rw [this] at g5
    cases g5
  obtain ⟨s, files, e1, e2, e3, e4, e5, e6, e7, e8, -, e10, e11, e12, e13, e14, -, -, e17⟩ :=
    (C14_written CF CI (fl (some 0)) w3.rng.texts w3.rng.output).1 root dir hkeys'
  rw [e1] at g5
  cases g5
  have hread := C14_read_back CF CI (fl (some 0)) e1
  rw [e2, e3] at hread
  have hndead : w3.rng.output.ndead = some (run.logl.length : Int) := by
    cases hm : opts.meansErrs with
    | false => rw [q4 hm]
    | true => obtain ⟨_, _, -, -, -, eo⟩ := q3 hm; rw [eo]
  have hother : ∀ {γ : Type} (g : StatsIn F → γ), (∀ d x, g { d with ndead := x } = g d) →
      (∀ d x y z t u, g { d with ndead := u, logZ := x, logZerr := y, paramMeans := z, paramMeanErrs := t } = g d) →
      g w3.rng.output = g w1.rng.output := by
    intro γ g h1 h2
    cases hm : opts.meansErrs with
    | false => rw [q4 hm, h1]
    | true => obtain ⟨_, _, -, -, -, eo⟩ := q3 hm; rw [eo, h2]
  have o1 := hother (·.nposterior) (fun _ _ => rfl) (fun _ _ _ _ _ _ => rfl)
  have o2 := hother (·.nequals) (fun _ _ => rfl) (fun _ _ _ _ _ _ => rfl)
  have o3 := hother (·.nlive) (fun _ _ => rfl) (fun _ _ _ _ _ _ => rfl)
  have o4 := hother (·.nlike) (fun _ _ => rfl) (fun _ _ _ _ _ _ => rfl)
  have o5 := hother (·.logZs) (fun _ _ => rfl) (fun _ _ _ _ _ _ => rfl)
  have o6 := hother (·.logZerrs) (fun _ _ => rfl) (fun _ _ _ _ _ _ => rfl)
  simp only [ho] at o1 o2 o3 o4 o5 o6
  refine ⟨readBack sw, hread, e2, e3, ?_, ?_, ?_, ?_, ?_, ?_, ?_, ?_, ?_, q2⟩
  · show sw.ndead = _
    rw [e12, hndead]; rfl
  · show sw.nposterior = _
    rw [e10, o1]; rfl
  · show w3.rng.output.nequals = some sw.nequals
    rw [e11, o2]; rfl
  · intro hm
    obtain ⟨z, stds, z1, z2, z3, eo⟩ := q3 hm
    refine ⟨z, stds, z1, z2, z3, ?_, ?_, ?_⟩
    · show sw.logZ = _
      rw [e5, eo]; rfl
    · show some sw.logZerr = _
      rw [e6, eo]
      cases stds with
      | nil => simp at z2
      | cons x xs => rfl
    · show sw.params.map _ = _
      rw [e17, eo]
      simp [z2]
  · intro hm
    refine ⟨?_, ?_, ?_⟩
    · show sw.logZ = _
      rw [e5, q4 hm, ho]
    · show sw.logZerr = _
      rw [e6, q4 hm, ho]
    · intro ms es h1 h2 h3
      show sw.params.map _ = _
      rw [e17, q4 hm, ho]
      simp [h1, h2, h3]
  · show sw.nlive = _
    rw [e13, o3]
  · show sw.nlike.map _ = _
    rw [e14, o4]; rfl
  · intro zs es h1 h2 h3
    have hz : sw.logZs = zs := by rw [e7, o5, h1]; rfl
    have he : sw.logZerrs = es := by rw [e8, o6, h2]; rfl
    simp [readBack, hz, he, h3]
  · intro name hn
    show files' name = _
    rw [e4 name hn, q1]

theorem replication_theta {r : Run ℝ} {labels : List Int} {n : Nat} {rep : Run ℝ} (h : Replication r labels n rep) :
    ∀ t ∈ rep.theta, t ∈ r.theta := by
  obtain ⟨inds, -, -, hp⟩ := h.drawn
  intro t ht
  obtain ⟨i, hi⟩ := List.mem_iff_getElem?.mp ht
  have hil : i < rep.logl.length := by rw [← h.theta_len]; exact (List.getElem?_eq_some_iff.mp hi).1
  have hz : (rep.logl[i], t) ∈ rep.logl.zip rep.theta :=
    List.mem_of_getElem? (List.getElem?_zip_eq_some.mpr ⟨List.getElem?_eq_getElem hil, hi⟩)
  obtain ⟨k, -, hk⟩ := List.mem_flatMap.mp (hp.mem_iff.mp hz)
  obtain ⟨j, -, hj⟩ := mem_pick.mp (List.of_mem_zip hk).2
  exact List.mem_of_getElem? hj

theorem stats_stds {run : Run ℝ} (hs : StaticRun run) (ht : run.theta.length = run.logl.length) {d : Nat}
    (hd : ∀ t ∈ run.theta, t.length = d) (settings : Option Settings) (n : Nat) (v : World σ) :
    ∃ stds v', runStdBootstrap A R run settings (statsEstimators A R run) n false true none v = (.ok stds, v') ∧
      v'.warns = v.warns := by
  have hw := hs.weighable
  obtain ⟨labels, tmm, h1, h2, -⟩ := hs
  obtain ⟨-, stds, v', h3, h4⟩ := C61_returns A R h1 h2 (fs := statsEstimators A R run) (fun rep hr =>
    statsEstimators_ok A R (thetaDim_eq hw ht hd) hr.weighable hr.theta_len (fun t ht => hd t (replication_theta hr t ht)))
    (settings := settings) (sep := false) (by simp [separately]) (n := n) true (seeds := none) (by simp) v
  exact ⟨stds, v', h3, h4 rfl⟩

/-- C73, success: for a run all of whose threads start from the whole prior `write_run_output` returns with any
options, without a warning, if `run['output']` has the two mandatory keys and no unknown ones. -/
theorem C73_returns (rd : ℝ → ℝ) (fl : Option ℝ → F) (CF : Codec F) (CI : Codec Int)
    {run : Run ℝ} {settings : Option Settings} {opts : WriteOpts} (h : Outputable opts settings run) (hs : StaticRun run) {d : Nat}
    (hd : ∀ t ∈ run.theta, t.length = d) {w : World (Written σ F)} {root dir : String}
    (hk : StatsKeys w.rng.output root dir) :
    ∃ w', writeRun A R rd fl CF CI run settings opts w = (.ok (), w') ∧ w'.warns = w.warns := by
  obtain ⟨hroot, hdir, hoth⟩ := hk
  obtain ⟨ws, w1, -, -, e, hwn, htx, ho, hr, -, -⟩ := writeRun_front A R rd fl CF CI h.weighable h.theta_len
    settings opts h.no_settings (h.deadBirth A) hroot hdir
  rw [e]
  unfold writeStatsPart
  cases hst : opts.writeStats with
  | false => exact ⟨w1, rfl, hwn⟩
  | true =>
    rw [if_pos rfl]
    obtain ⟨w3, g3, hw3, hk3⟩ : ∃ w3 : World (Written σ F),
        (if opts.meansErrs then writeMeansErrs A R fl run settings opts.nSim else pure () : M (Written σ F) Unit)
          ⟨{ w1.rng with output := { w1.rng.output with ndead := some (run.logl.length : Int) } }, w1.warns⟩ =
        (.ok (), w3) ∧ w3.warns = w.warns ∧ StatsKeys w3.rng.output root dir := by
      cases hm : opts.meansErrs with
      | false => exact ⟨_, rfl, hwn, by rw [ho]; exact ⟨hroot, hdir, hoth⟩⟩
      | true =>
        rw [if_pos rfl]
        unfold writeMeansErrs
        obtain ⟨z, hz, hvals⟩ := stats_values A R h.weighable h.theta_len hd (σ := σ)
        obtain ⟨stds, v', hv, hvw⟩ := stats_stds A R hs h.theta_len hd settings opts.nSim ⟨w1.rng.rng, w1.warns⟩
        dsimp only
        rw [M.bind_ok (onRng_pure (hvals _)), M.bind_ok (w' := ⟨{ w1.rng with
          output := { w1.rng.output with ndead := some (run.logl.length : Int) }, rng := v'.rng }, v'.warns⟩)
          (a := stds) (by unfold onRng; dsimp only; rw [hv])]
        refine ⟨_, rfl, hvw.trans hwn, ?_, ?_, ?_⟩
        · show w1.rng.output.fileRoot = _
          rw [ho]; exact hroot
        · show w1.rng.output.baseDir = _
          rw [ho]; exact hdir
        · show w1.rng.output.others = _
          rw [ho]; exact hoth
    obtain ⟨s, files', e1, -⟩ := (C14_written CF CI (fl (some 0)) w3.rng.texts w3.rng.output).1 root dir hk3
    rw [M.bind_ok (show (setOutput _ : M (Written σ F) Unit) w1 = (.ok (), _) from rfl)]
    erw [M.bind_ok g3]
    rw [M.bind_ok (M.getState_apply w3), M.bind_ok (by rw [M.lift_apply, e1])]
    exact ⟨_, rfl, hw3⟩

/-- `write_run_output` up to the .stats file. -/
noncomputable def writeFront (rd : ℝ → ℝ) (run : Run ℝ) (settings : Option Settings) (opts : WriteOpts) : M (Written σ F) Unit := do
  let s ← M.getState
  let root ← M.lift (outputRoot s.output)
  (if opts.writeDead then writeDeadFiles A rd run settings opts.loglInit root else pure () : M (Written σ F) Unit)
  let wp ← (if opts.equals || opts.posteriors then posteriorArray R run else pure ([], []) :
    M (Written σ F) (List ℝ × List (List ℝ)))
  writePosteriors rd opts.posteriors wp.2 root
  writeEquals R rd opts.equals wp.1 wp.2 root

theorem writeRun_split (rd : ℝ → ℝ) (fl : Option ℝ → F) (CF : Codec F) (CI : Codec Int) (run : Run ℝ)
    (settings : Option Settings) (opts : WriteOpts) : writeRun A R rd fl CF CI run settings opts =
      writeFront A R rd run settings opts >>= fun _ => writeStatsPart A R fl CF CI run settings opts := by
  simp only [writeRun, writeFront, bind_assoc]

theorem writeFront_frame (rd : ℝ → ℝ) (run : Run ℝ) (settings : Option Settings) (opts : WriteOpts) {γ : Type} (g : Written σ F → γ)
    (h1 : ∀ s t, g { s with tables := t } = g s) (h2 : ∀ s t, g { s with rng := t } = g s)
    (h3 : ∀ s x, g { s with output := { s.output with nposterior := x } } = g s)
    (h4 : ∀ s x, g { s with output := { s.output with nequals := x } } = g s) :
    Preserves (writeFront A R rd run settings opts) g := by
  have hrng : ∀ {α : Type} (f : M σ α), Preserves (onRng f : M (Written σ F) α) g := fun f w => h2 _ _
  have hsave : ∀ name rows, Preserves (saveTable rd name rows : M (Written σ F) Unit) g := fun _ _ w => h1 _ _
  unfold writeFront
  refine .bind (fun _ => rfl) fun s => .bind (.lift _ _) fun root => .bind (.ite ?_ (.pure _ _)) fun _ =>
    .bind (.ite ?_ (.pure _ _)) fun wp => .bind ?_ fun _ => ?_
  · exact .bind (.ite (.raise _ _) (.pure _ _)) fun _ => .bind (hrng _) fun _ => .bind (hsave _ _) fun _ => hsave _ _
  · exact .bind (hrng _) fun _ => .ite (.raise _ _) (.pure _ _)
  · unfold writePosteriors
    exact .ite (.bind (hsave _ _) fun _ w => h3 _ _) fun w => h3 _ _
  · unfold writeEquals
    exact .ite (.bind (hrng _) fun _ => .bind (hsave _ _) fun _ w => h4 _ _) fun w => h4 _ _

theorem writeMeansErrs_frame (fl : Option ℝ → F) (run : Run ℝ) (settings : Option Settings) (n : Nat) {γ : Type}
    (g : Written σ F → γ) (h2 : ∀ s t, g { s with rng := t } = g s)
    (h3 : ∀ s x y z t, g { s with output := { s.output with
      logZ := x, logZerr := y, paramMeans := z, paramMeanErrs := t } } = g s) :
    Preserves (writeMeansErrs A R fl run settings n) g :=
  .bind (fun _ => h2 _ _) fun _ => .bind (fun _ => h2 _ _) fun _ _ => h3 _ _ _ _ _

/-- C73, rejected output dictionaries.  Without file_root or base_dir `write_run_output` raises `AssertionError` before
anything is written.  So it does, with a state unchanged, for a run with the key 'settings' if the dead points are to be
written.  With an unknown key it cannot return if a .stats file is asked for, and no .stats file is written. -/
theorem C73_rejects (rd : ℝ → ℝ) (fl : Option ℝ → F) (CF : Codec F) (CI : Codec Int) (run : Run ℝ)
    (settings : Option Settings) (opts : WriteOpts) (w : World (Written σ F)) :
    ((w.rng.output.fileRoot = none ∨ w.rng.output.baseDir = none) →
      writeRun A R rd fl CF CI run settings opts w = (.error .assertion, w)) ∧
    (settings ≠ none → opts.writeDead = true →
      writeRun A R rd fl CF CI run settings opts w = (.error .assertion, w)) ∧
    (w.rng.output.others ≠ [] → opts.writeStats = true →
      (writeRun A R rd fl CF CI run settings opts w).1 ≠ .ok () ∧
      (writeRun A R rd fl CF CI run settings opts w).2.rng.texts = w.rng.texts) := by
  refine ⟨?_, ?_, ?_⟩
  · intro h
    have : outputRoot w.rng.output = .error .assertion := by
      unfold outputRoot
      split
      · rename_i h1 h2; rw [h1, h2] at h; simp at h
      · rfl
    unfold writeRun
    rw [M.bind_ok (M.getState_apply w)]
    exact M.bind_error (by rw [M.lift_apply, this])
  · intro hset hd
    unfold writeRun
    rw [M.bind_ok (M.getState_apply w), M.bind_apply, M.lift_apply]
    obtain ⟨st, rfl⟩ := Option.ne_none_iff_exists'.mp hset
    rcases hx : outputRoot w.rng.output with e | rt
    · unfold outputRoot at hx
      split at hx <;> cases hx
      rfl
    · dsimp only
      rw [if_pos hd]
      exact M.bind_error (M.bind_error rfl)
  · intro ho hst
    have key : ∀ w1 : World (Written σ F), w1.rng.output.others ≠ [] →
        (writeStatsPart A R fl CF CI run settings opts w1).1 ≠ .ok () ∧
        (writeStatsPart A R fl CF CI run settings opts w1).2.rng.texts = w1.rng.texts := by
      intro w1 h1
      unfold writeStatsPart
      rw [if_pos hst, M.bind_ok (show (setOutput _ : M (Written σ F) Unit) w1 = (.ok (), _) from rfl)]
      generalize hw2 : (⟨{ w1.rng with output := { w1.rng.output with ndead := some (run.logl.length : Int) } },
        w1.warns⟩ : World (Written σ F)) = w2
      have h2 : w2.rng.output.others ≠ [] := by rw [← hw2]; exact h1
      have t2 : w2.rng.texts = w1.rng.texts := by rw [← hw2]
      have p1 : Preserves (if opts.meansErrs then writeMeansErrs A R fl run settings opts.nSim else pure () :
          M (Written σ F) Unit) (·.texts) :=
        .ite (writeMeansErrs_frame A R fl run settings _ _ (fun _ _ => rfl) (fun _ _ _ _ _ => rfl)) (.pure _ _)
      have p2 : Preserves (if opts.meansErrs then writeMeansErrs A R fl run settings opts.nSim else pure () :
          M (Written σ F) Unit) (·.output.others) :=
        .ite (writeMeansErrs_frame A R fl run settings _ _ (fun _ _ => rfl) (fun _ _ _ _ _ => rfl)) (.pure _ _)
      have q1 := p1 w2
      have q2 := p2 w2
      rcases hx : (if opts.meansErrs then writeMeansErrs A R fl run settings opts.nSim else pure () :
          M (Written σ F) Unit) w2 with ⟨_ | _, w3⟩
      · rw [M.bind_error hx]
        rw [hx] at q1
        exact ⟨by simp, q1.trans t2⟩
      · rw [hx] at q1 q2
        rw [M.bind_ok hx, M.bind_ok (M.getState_apply w3)]
        have hbad := (C14_written CF CI (fl (some 0)) w3.rng.texts w3.rng.output).2 (by
          rintro ⟨_, _, -, -, h3⟩
          exact h2 (q2.symm.trans h3))
        rw [M.bind_error (by rw [M.lift_apply, hbad])]
        exact ⟨by simp, q1.trans t2⟩
    rw [writeRun_split]
    have q1 := writeFront_frame A R rd run settings opts (·.texts) (fun _ _ => rfl) (fun _ _ => rfl) (fun _ _ => rfl)
      (fun _ _ => rfl) w
    have q2 := writeFront_frame A R rd run settings opts (·.output.others) (fun _ _ => rfl) (fun _ _ => rfl) (fun _ _ => rfl)
      (fun _ _ => rfl) w
    rcases hx : (writeFront A R rd run settings opts : M (Written σ F) Unit) w with ⟨_ | _, w1⟩
    · rw [M.bind_error hx]
      rw [hx] at q1
      exact ⟨by simp, q1⟩
    · rw [hx] at q1 q2
      rw [M.bind_ok hx]
      obtain ⟨k1, k2⟩ := key w1 (by rw [show w1.rng.output.others = _ from q2]; exact ho)
      exact ⟨k1, k2.trans q1⟩

/-! ### Examples -/
section examples

theorem exTwo_outputable (opts : WriteOpts) : Outputable opts none exTwoSamples where
  weighable := exTwoSamples_static.weighable
  theta_len := rfl
  no_settings := fun _ => rfl
  dead := fun _ => by
    have h : Recombinable exTwoSamples _ _ := singleRun_recombinable (logl := [1, 2]) (theta := [[3], [5]]) (last := 2)
      (by norm_num) rfl rfl (by simp [SameDim])
    exact ⟨_, _, h.toValidWith, h.distinct, h.born, by simp⟩

/-- Floats as numbers of tenths (nan as -1), to have a codec. -/
noncomputable def tenths (x : Option ℝ) : Int := (x.map (fun x => ⌊10 * x⌋)).getD (-1)

/-- `C73_returns` and `C73_stats` apply to a run with two samples and to all options. -/
example (opts : WriteOpts) (hst : opts.writeStats = true) (hm : opts.meansErrs = true)
    (w : World (Written Nat Int)) (hk : StatsKeys w.rng.output "run" "chains") :
    ∃ w' s, writeRun A halfRng id tenths intCodec intCodec exTwoSamples none opts w = (.ok (), w') ∧
      processStats intCodec intCodec w'.rng.texts "run" "chains" = .ok s ∧ s.ndead = 2 ∧
      ∃ m e, s.params = some ([m], [e]) := by
  have hd : ∀ t ∈ exTwoSamples.theta, t.length = 1 := by simp [exTwoSamples, singleRun]
  obtain ⟨w', h1, -⟩ := C73_returns A halfRng id tenths intCodec intCodec (exTwo_outputable opts) exTwoSamples_static
    hd hk
  obtain ⟨s, h2, -, -, h3, -, -, h4, -⟩ := C73_stats A halfRng id tenths intCodec intCodec (exTwo_outputable opts)
    hd hst hk.1 hk.2.1 h1
  obtain ⟨z, stds, -, hl, -, -, -, hp⟩ := h4 hm
  match stds, hl with
  | [a, b], _ => exact ⟨w', s, h1, h2, h3, _, _, hp⟩

/-- The posterior files of the same run. -/
example (w : World (Written Nat Int)) (hk : StatsKeys w.rng.output "run" "chains") :
    ∃ rows, (writeRun A halfRng id tenths intCodec intCodec exTwoSamples none
      { posteriors := true, equals := true } w).2.rng.tables (pathJoin "chains" "run" ++ ".txt") = some rows ∧
      rows.length = 2 := by
  obtain ⟨ws, rows, -, h1, h2, -⟩ := (C72_posteriors A halfRng id tenths intCodec intCodec
    (exTwo_outputable { posteriors := true, equals := true }) hk.1 hk.2.1 rfl).1 rfl
  exact ⟨rows, h1, h2⟩

example (w : World (Written Nat Int)) (hk : StatsKeys w.rng.output "run" "chains") :
    ∃ rows, (writeRun A halfRng id tenths intCodec intCodec exTwoSamples none
      { equals := true } w).2.rng.tables (pathJoin "chains" "run" ++ "_equal_weights.txt") = some rows ∧
      rows ≠ [] := by
  obtain ⟨ws, inds, rows, -, -, -, -, h0, h1, h2, -⟩ := (C72_equals A halfRng id tenths intCodec intCodec
    (exTwo_outputable { equals := true }) hk.1 hk.2.1 rfl).1 rfl
  refine ⟨rows, h1, fun e => h0 ?_⟩
  rw [e] at h2
  exact List.length_eq_zero_iff.mp h2.symm

/-- Writing the run and reading it again (C71). -/
example (w : World (Written Nat Int)) (hk : StatsKeys w.rng.output "run" "chains") (v : World Nat) :
    ∃ r' : Run ℝ, r'.logl = [1, 2] ∧ r'.theta = [[3], [5]] ∧ r'.nlive = [1, 1] ∧
      processPolychord A halfRng intCodec intCodec
        (writeRun A halfRng id tenths intCodec intCodec exTwoSamples none {} w).2.rng.tables
        (writeRun A halfRng id tenths intCodec intCodec exTwoSamples none {} w).2.rng.texts "run" "chains" false
        false false v = (.ok (r', .source ⟨"run", "chains"⟩), v) := by
  have h : Recombinable exTwoSamples _ _ := singleRun_recombinable (logl := [1, 2]) (theta := [[3], [5]]) (last := 2)
    (by norm_num) rfl rfl (by simp [SameDim])
  obtain ⟨r', -, h1, h2, h3, h4⟩ := C71_nlive A halfRng (rd := id) tenths intCodec intCodec
    (run := exTwoSamples) ⟨h.toValidWith, h.distinct, h.born, by simp⟩ (by simp [exTwoSamples, singleRun]) h.dim {} rfl
    (by intro l hl; simp [exTwoSamples, singleRun] at hl; rcases hl with rfl | rfl <;> norm_num)
    (fun x _ y _ h => h) (by
      intro i l hl
      rcases i with _ | _ | i
      · simp only [exTwoSamples, singleRun, List.getElem?_cons_zero, Option.some.injEq] at hl ⊢
        subst hl; simp
      · simp only [exTwoSamples, singleRun, List.getElem?_cons_zero, List.getElem?_cons_succ, Option.some.injEq] at hl ⊢
        subst hl; simp
      · simp [exTwoSamples, singleRun] at hl) hk.1 hk.2.1 false false
  exact ⟨r', by rw [h1]; simp [exTwoSamples, singleRun], by rw [h2]; simp [exTwoSamples, singleRun],
    by rw [h3]; simp [exTwoSamples, singleRun], h4 v⟩

/-- Two samples of weights 1 and 1/4: both are kept in a quarter of the cases. -/
example : MeasureTheory.volume {u : Fin 2 → ℝ | (∀ i, 0 ≤ u i ∧ u i < 1) ∧
    ∀ i : Fin 2, (i : Nat) ∈ equalInds (List.ofFn ![1, 1/4]) (List.ofFn u) ↔ i ∈ (Finset.univ : Finset (Fin 2))} =
    ENNReal.ofReal (1/4) := by
  rw [C72_distribution _ (by intro i; fin_cases i <;> norm_num)]
  simp

end examples
end
end Nestcheck
