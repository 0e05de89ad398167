import Verif.Props.WriteStats
import Verif.Props.Interval
import Verif.Props.Multinest

/-
C82: from a dead-birth array to estimates and error bars, without failure and without nan.
-/

set_option linter.unusedSectionVars false

namespace Nestcheck
open Spec

section proper
variable {σ K : Type} [CommRing K] [LinearOrder K] (R : Rng σ K)

/-- The threads of a processed run ascend strictly and lie above the contours they start from. -/
theorem processed_proper {samples : List (Sample K)} {init : K} (hc : Consistent samples init)
    (hdim : SameDim (samples.map (·.theta))) (A : Argsort K) (da dw : Bool) {w w' : World σ} {r : Run K}
    (h : processSamples A R samples da dw w = (.ok r, w')) :
    ∃ labels tmm, ProperThreads r labels tmm := by
  obtain ⟨hv, hd, -, -, -, hperm⟩ := C03_valid_lossless R hc A da dw w w' h
  obtain ⟨labels, tmm, hv⟩ := hv
  obtain ⟨labels', tmm', l1, l2, -, -, -, hfirst, -⟩ := C02_thread_partition R hc A da dw w w' h
  have e1 : labels' = labels := by rw [hv.labels_eq] at l1; exact (Option.some.inj l1).symm
  have e2 : tmm' = tmm := by rw [hv.tmm_eq] at l2; exact (Option.some.inj l2).symm
  subst e1 e2
  have hlt : ∀ (i j : Nat) (x y : K), i < j → r.logl[i]? = some x → r.logl[j]? = some y → x < y :=
    fun i j x y hij hx hy => lt_of_le_of_ne (hv.sorted i j x y hij hx hy) (hd i j x y hij hx hy)
  have hlogl : r.logl.Perm (samples.map (·.logl)) := by
    have := hperm.map Prod.fst
    rwa [List.map_fst_zip (by rw [hv.theta_len]), List.map_map] at this
  have htheta : r.theta.Perm (samples.map (·.theta)) := by
    have := hperm.map Prod.snd
    rwa [List.map_snd_zip (by rw [hv.theta_len]), List.map_map] at this
  refine ⟨labels', tmm', ⟨hv, ?_, fun i j _ x y hij _ _ hx hy => hlt i j x y hij hx hy, ?_⟩⟩
  · intro s hs t ht
    exact hdim s (htheta.mem_iff.mp hs) t (htheta.mem_iff.mp ht)
  · intro i k mm x hmm hk hx
    obtain ⟨f, hf⟩ := exists_firstOf (List.mem_of_getElem? hk)
    have hfi : f ≤ i := by
      by_contra hh
      exact hf.2 i (by omega) hk
    have hil : i < r.logl.length := (List.getElem?_eq_some_iff.mp hx).1
    have hfl : r.logl[f]? = some (r.logl[f]'(by omega)) := List.getElem?_eq_getElem _
    obtain ⟨s, hs, hsl⟩ := List.mem_map.mp (hlogl.mem_iff.mp (List.mem_of_getElem? hfl))
    rw [← hsl] at hfl
    have hle : s.logl ≤ x := by
      rcases Nat.lt_or_eq_of_le hfi with hh | hh
      · exact (hlt f i _ _ hh hfl hx).le
      · rw [hh, hx] at hfl
        exact (Option.some.inj hfl).ge
    rw [hfirst k f s hs mm hf hfl hmm]
    split
    · exact WithBot.bot_lt_coe x
    · rename_i hb
      rcases hc.births s hs with h0 | ⟨t, -, h1, h2⟩
      · exact absurd h0 hb
      · rw [h1]
        exact WithBot.coe_lt_coe.mpr (lt_of_lt_of_le h2 hle)

end proper

noncomputable section
variable {σ : Type} (A : Argsort ℝ) (R : Rng σ ℝ)

/-- The estimator has a value for samples with `d` parameters: the parameter exists, and the probability of a
credible interval is in (0, 1). -/
def Spec.Applies (d : Nat) : Estimator → Prop
  | .count => True
  | .logz => True
  | .evidence => True
  | .paramMean ind _ => ind < d
  | .paramCred prob ind => ind < d ∧ 0 < prob ∧ prob < 1
  | .paramSquaredMean ind => ind < d
  | .rMean => True
  | .rCred prob => 0 < prob ∧ prob < 1

/-- A run with `d` parameters on which estimators can be evaluated. -/
structure Spec.Estimable (d : Nat) (r : Run ℝ) : Prop where
  weighable : Weighable r
  theta_len : r.theta.length = r.logl.length
  dim : ∀ t ∈ r.theta, t.length = d

theorem applies_value {d : Nat} {r : Run ℝ} (h : Estimable d r) (sim : Bool) {w : World σ}
    (hu : sim = true → ∀ u ∈ (R.uniform r.nlive.length w.rng).1, 0 < u) {e : Estimator} (he : Applies d e) :
    ∃ v : ℝ, (e.call A R r none sim w).1 = .ok (some v) := by
  have hus : Usable r none sim (R.uniform r.nlive.length w.rng).1 := ⟨h.theta_len, h.weighable.nonempty, h.weighable, hu⟩
  obtain ⟨wne, wl, wpos⟩ := sampleWeights_spec hus
  have wsum : 0 < (sampleWeights r none sim (R.uniform r.nlive.length w.rng).1).sum := List.sum_pos _ wpos wne
  obtain ⟨z, h1, h2, -⟩ := C29_evidence R h.weighable sim w hu
  cases e with
  | count => exact ⟨_, rfl⟩
  | logz => exact ⟨z, by simp only [Estimator.call]; rw [M.bind_ok h1]; rfl⟩
  | evidence => exact ⟨Real.exp z, by simp only [Estimator.call]; rw [M.bind_ok h2]; rfl⟩
  | paramMean ind handle =>
    obtain ⟨m, h3, -⟩ := C30_param_mean R hus (paramColumn_spec h.dim he) handle
    exact ⟨m, congrArg Prod.fst h3⟩
  | paramSquaredMean ind =>
    obtain ⟨s, _, w', h3, -⟩ := C30_squared R hus (paramColumn_spec h.dim he) false
    exact ⟨s, by simp only [Estimator.call]; rw [M.bind_ok h3]; rfl⟩
  | rMean =>
    obtain ⟨m, h3, -⟩ := C32_r_mean R hus
    exact ⟨m, by simp only [Estimator.call]; rw [M.bind_ok h3]; rfl⟩
  | paramCred prob ind =>
    have h3 := C31_param_cred A R hus (paramColumn_spec h.dim he.1) prob
    have hcl : (paramColumn r ind).length = r.theta.length := by
      have := congrArg List.length (paramColumn_spec h.dim he.1)
      simpa using this.symm
    obtain ⟨f, -, hf⟩ := C31_quantile A (values := paramColumn r ind) (by rw [hcl, wl, h.theta_len]) (fun v hv => (wpos v hv).le) wsum
    rw [(hf prob he.2.1 he.2.2).1] at h3
    exact ⟨f prob, by simp only [Estimator.call]; rw [M.bind_ok h3]; rfl⟩
  | rCred prob =>
    have h3 := (C32_r_cred A R hus prob).1
    obtain ⟨f, -, hf⟩ := C31_quantile A (values := r.theta.map radius) (by rw [List.length_map, wl, h.theta_len]) (fun v hv => (wpos v hv).le) wsum
    rw [(hf prob he.1 he.2).1] at h3
    exact ⟨f prob, by simp only [Estimator.call]; rw [M.bind_ok h3]; rfl⟩

theorem call_mem {es : List Estimator} {f : EstFunc σ} (hf : f ∈ es.map (·.call A R)) :
    ∃ e ∈ es, f = e.call A R := by
  obtain ⟨e, h1, h2⟩ := List.mem_map.mp hf
  exact ⟨e, h1, h2.symm⟩

/-- `run_estimators` with estimators of the package which apply: one number for each of them. -/
theorem C82_estimates {d : Nat} {r : Run ℝ} (h : Estimable d r) {es : List Estimator} (he : ∀ e ∈ es, Applies d e)
    (sim : Bool) (w : World σ) (hu : sim = true → ∀ u ∈ (R.uniform r.nlive.length w.rng).1, 0 < u) :
    ∃ vs : List ℝ, runEstimators R r (es.map (·.call A R)) sim w = (.ok (vs.map some), afterWeights R r none sim w) ∧
      vs.length = es.length := by
  obtain ⟨h1, h2, -⟩ := C33_run_estimators R h.weighable (fs := es.map (·.call A R))
    (fun f hm => by obtain ⟨e, -, rfl⟩ := call_mem A R hm; exact C33_builtin A R e r) sim w hu
  have : ∃ vs : List ℝ, List.Forall₂ (fun f v => (f r none sim w).1 = .ok v) (es.map (fun e => e.call A R)) (vs.map some) := by
    clear h1 h2
    induction es with
    | nil => exact ⟨[], .nil⟩
    | cons e es ih =>
      obtain ⟨vs, hvs⟩ := ih (fun g hg => he g (by simp [hg]))
      obtain ⟨v, hv⟩ := applies_value A R h sim hu (he e (by simp))
      exact ⟨v :: vs, .cons hv hvs⟩
  obtain ⟨vs, hvs⟩ := this
  refine ⟨vs, Prod.ext ((h2 _).mpr hvs) h1, ?_⟩
  have := hvs.length_eq
  simpa using this.symm

theorem rows_of_numbers {rows : List (List (Option ℝ))} (h : ∀ row ∈ rows, none ∉ row) :
    ∃ yss : List (List ℝ), rows = yss.map (·.map some) := by
  induction rows with
  | nil => exact ⟨[], rfl⟩
  | cons row rows ih =>
    obtain ⟨yss, h1⟩ := ih (fun r hr => h r (by simp [hr]))
    have h2 : noNan row ≠ none := fun e => h row (by simp) (noNan_eq_none.mp e)
    obtain ⟨ys, hys⟩ := Option.ne_none_iff_exists'.mp h2
    exact ⟨ys :: yss, by rw [h1, noNan_eq_some.mp hys]; rfl⟩

theorem fromColumns_numbers {n : Nat} {css : List (List ℝ)} (h : ∀ c ∈ css, c.length = n) :
    ∃ rows : List (List ℝ), fromColumns n (css.map (·.map some)) = rows.map (·.map some) ∧ rows.length = n ∧
      ∀ row ∈ rows, row.length = css.length := by
  obtain ⟨q1, q2, q3⟩ := fromColumns_spec (n := n) (cols := css.map (·.map some)) (by simpa using h)
  obtain ⟨rows, hr⟩ := rows_of_numbers (rows := fromColumns n (css.map (·.map some))) (by
    intro row hrow hn
    obtain ⟨i, hi⟩ := List.mem_iff_getElem?.mp hrow
    obtain ⟨j, hj⟩ := List.mem_iff_getElem?.mp hn
    have hjl : j < css.length := by
      have := (List.getElem?_eq_some_iff.mp hj).1
      rwa [q2 row hrow, List.length_map] at this
    rw [q3 i j row (css[j].map some) hi (by rw [List.getElem?_map, List.getElem?_eq_getElem hjl]; rfl), List.getElem?_map] at hj
    cases hc : css[j][i]? with
    | none => rw [hc] at hj; cases hj
    | some x => rw [hc] at hj; cases hj)
  refine ⟨rows, hr, by rw [← q1, hr, List.length_map], ?_⟩
  intro row hrow
  have := q2 (row.map some) (by rw [hr]; exact List.mem_map_of_mem hrow)
  simpa using this

theorem stds_of_numbers {rows : List (List ℝ)} {n : Nat} (h : ∀ row ∈ rows, row.length = n) (hn : 2 ≤ n) :
    (rows.map (·.map some)).map npStd = (rows.map stdev).map some := by
  rw [List.map_map, List.map_map]
  refine List.map_congr_left fun row hr => ?_
  exact npStd_some (by rw [h row hr]; exact hn)

theorem stdev_nonneg (ys : List ℝ) : 0 ≤ stdev ys := Real.sqrt_nonneg _

/-- `run_std_simulate`: one non-negative number for each estimator. -/
theorem C82_simulate {d : Nat} {r : Run ℝ} (h : Estimable d r) {es : List Estimator} (he : ∀ e ∈ es, Applies d e)
    (hu : PositiveDraws R) {n : Nat} (hn : 2 ≤ n) (w : World σ) :
    ∃ (stds : List ℝ) (w' : World σ), runStdSimulate R r (es.map (·.call A R)) (some n) w = (.ok (stds.map some), w') ∧
      stds.length = es.length ∧ (∀ x ∈ stds, 0 ≤ x) ∧ w'.warns = w.warns := by
  have key : ∀ (n : Nat) (w : World σ), ∃ (css : List (List ℝ)) (w' : World σ),
      simulateColumns R r (es.map (·.call A R)) n w = (.ok (css.map (·.map some)), w') ∧ css.length = n ∧
      (∀ c ∈ css, c.length = es.length) ∧ w'.warns = w.warns := by
    intro n
    induction n with
    | zero => exact fun w => ⟨[], w, rfl, rfl, by simp, rfl⟩
    | succ n ih =>
      intro w
      obtain ⟨vs, h1, hl⟩ := C82_estimates A R h he true w (fun _ => hu _ _)
      obtain ⟨css, w', h2, h3, h4, h5⟩ := ih (afterWeights R r none true w)
      refine ⟨vs :: css, w', ?_, by rw [List.length_cons, h3], ?_, h5⟩
      · rw [simulateColumns, M.bind_ok h1, M.bind_ok h2]
        rfl
      · intro c hc
        rcases List.mem_cons.mp hc with rfl | hc
        · exact hl
        · exact h4 c hc
  obtain ⟨css, w', h1, h2, h3, h4⟩ := key n w
  obtain ⟨rows, h5, h6, h7⟩ := fromColumns_numbers h3
  refine ⟨rows.map stdev, w', ?_, by rw [List.length_map, h6], ?_, h4⟩
  · change (simulateColumns R r (es.map (·.call A R)) n >>= fun cols =>
      pure ((fromColumns (es.map (·.call A R)).length cols).map npStd)) w = _
    rw [M.bind_ok h1, M.pure_apply, List.length_map, h5, stds_of_numbers (fun row hr => (h7 row hr).trans h2) hn]
  · intro x hx
    obtain ⟨ys, -, rfl⟩ := List.mem_map.mp hx
    exact stdev_nonneg ys

/-- `run_thread_values`: a number for each estimator and thread, without effects. -/
theorem C82_threads {d : Nat} {r : Run ℝ} {labels : List Int} {tmm : List (WithBot ℝ × ℝ)} (hv : ValidWith r labels tmm)
    (hd : ∀ t ∈ r.theta, t.length = d) {es : List Estimator} (he : ∀ e ∈ es, Applies d e) (w : World σ) :
    ∃ vals : List (List ℝ), runThreadValues R r (es.map (·.call A R)) w = (.ok (vals.map (·.map some)), w) ∧
      vals.length = es.length ∧ ∀ row ∈ vals, row.length = tmm.length := by
  obtain ⟨ts, h1, h2, h3, h4⟩ := C17_split (σ := σ) hv
  have hest : ∀ t ∈ ts, Estimable d t := by
    intro t ht
    obtain ⟨k, hk⟩ := List.mem_iff_getElem?.mp ht
    have hkl : k < tmm.length := by rw [← h2]; exact (List.getElem?_eq_some_iff.mp hk).1
    obtain ⟨e1, e2, e3, e4, e5, -⟩ := h3 k t _ hk (List.getElem?_eq_getElem hkl)
    refine ⟨⟨e3, ?_, by rw [e5]; simp⟩, ?_, ?_⟩
    · intro n hn
      rw [e5] at hn
      rw [List.eq_of_mem_replicate hn]
      norm_num
    · rw [e1, e2]
      rw [length_pick (by rw [hv.labels_len, hv.theta_len]), length_pick hv.labels_len]
    · intro x hx
      rw [e2] at hx
      obtain ⟨i, -, hi⟩ := mem_pick.mp hx
      exact hd x (List.mem_of_getElem? hi)
  obtain ⟨-, vals, h5⟩ := C58_returns R hv (fs := es.map (·.call A R))
    (fun f hf => by obtain ⟨e, -, rfl⟩ := call_mem A R hf; exact C35_builtin A R e) w (by rw [h1])
    (fun t ht => by obtain ⟨vs, hvs, -⟩ := C82_estimates A R (hest t ht) he false w (by simp); exact ⟨_, congrArg Prod.fst hvs⟩)
  obtain ⟨ts', g1, g2, g3, g4⟩ := C58_threads R h5
  rw [h1] at g1
  cases g1
  obtain ⟨rows, hr⟩ := rows_of_numbers (rows := vals) (by
    intro row hrow hn
    obtain ⟨i, hi⟩ := List.mem_iff_getElem?.mp hrow
    obtain ⟨j, hj⟩ := List.mem_iff_getElem?.mp hn
    have hjl : j < ts.length := by
      rw [← g3 row hrow]; exact (List.getElem?_eq_some_iff.mp hj).1
    obtain ⟨col, w1, w2, k1, k2⟩ := g4 j ts[j] (List.getElem?_eq_getElem hjl)
    obtain ⟨vs, k3, -⟩ := C82_estimates A R (hest ts[j] (List.getElem_mem hjl)) he false w1 (by simp)
    rw [k1] at k3
    cases k3
    rw [k2 i row hi, List.getElem?_map] at hj
    cases hc : vs[i]? with
    | none => rw [hc] at hj; cases hj
    | some x => rw [hc] at hj; cases hj)
  subst hr
  refine ⟨rows, h5, by simpa using g2, ?_⟩
  intro row hrow
  have := g3 (row.map some) (List.mem_map_of_mem hrow)
  rw [List.length_map, h2] at this
  exact this

/-- The bootstrap of a static run, with estimators of the package which apply: a number for each estimator and
replication, non-negative standard deviations, and bounds of credible intervals.  With integer seeds and without
`ninit_sep` nothing else changes. -/
theorem C82_bootstrap {d : Nat} {r : Run ℝ} (hs : StaticRun r) (hd : ∀ t ∈ r.theta, t.length = d)
    {es : List Estimator} (he : ∀ e ∈ es, Applies d e) {settings : Option Settings} {sep : Bool}
    (hsep : ∀ k tmm, separately settings sep = some k → r.tmm = some tmm → k ≤ tmm.length)
    {n : Nat} (flip : Bool) {seeds : Option (List Seed)} (hseeds : ∀ l, seeds = some l → l.length = n) (w : World σ) :
    ∃ w' : World σ, (sep = false → (∀ l, seeds = some l → ∀ s ∈ l, s ≠ .keep) → w' = w) ∧
      (∃ vals : List (List ℝ), runBootstrapValues A R r settings (es.map (·.call A R)) n sep flip seeds w =
          (.ok (vals.map (·.map some)), w') ∧ vals.length = es.length ∧ ∀ row ∈ vals, row.length = n) ∧
      (2 ≤ n → ∃ stds : List ℝ, runStdBootstrap A R r settings (es.map (·.call A R)) n sep flip seeds w =
          (.ok (stds.map some), w') ∧ stds.length = es.length ∧ ∀ x ∈ stds, 0 ≤ x) ∧
      (1 ≤ n → ∀ c : ℝ, ∃ cis : List ℝ, runCiBootstrap A R r settings (es.map (·.call A R)) c n sep flip seeds w =
          (.ok (cis.map some), w') ∧ cis.length = es.length) := by
  have hw := hs.weighable
  obtain ⟨labels, tmm, hp, hbot, -⟩ := hs
  have hv := hp.toValidWith
  have hrest : ∀ rep, Replication r labels tmm.length rep → Estimable d rep := fun rep hr =>
    ⟨hr.weighable, hr.theta_len, fun t ht => hd t (replication_theta hr t ht)⟩
  have hdet : ∀ f ∈ es.map (·.call A R), Deterministic f := by
    intro f hf; obtain ⟨e, -, rfl⟩ := call_mem A R hf; exact C35_builtin A R e
  have hret := fun flip => (C61_returns A R hp hbot (fs := es.map (·.call A R)) (fun rep hr f hf => by
    obtain ⟨e, hm, rfl⟩ := call_mem A R hf
    refine ⟨C33_builtin A R e rep, fun w => ?_⟩
    obtain ⟨v, hv⟩ := applies_value A R (hrest rep hr) false (w := w) (by simp) (he e hm)
    exact ⟨_, hv⟩) (settings := settings) (sep := sep) (fun k hk => hsep k tmm hk hv.tmm_eq) flip hseeds w).1
  -- the array without `flip_skew`
  obtain ⟨vals0, w', h0, hwarn⟩ := hret false
  obtain ⟨ss, ts, c1, c2, c3, c4, c5, c6⟩ := C61_values A R h0
  have hts : ∀ w : World σ, getRunThreads r w = (.ok ts, w) := by
    intro v
    rw [getRunThreads_ok hv w] at c3
    rw [getRunThreads_ok hv v]
    exact Prod.ext c3 rfl
  obtain ⟨rows, hrows⟩ := rows_of_numbers (rows := vals0) (by
    intro row hrow hn
    obtain ⟨i, hi⟩ := List.mem_iff_getElem?.mp hrow
    obtain ⟨j, hj⟩ := List.mem_iff_getElem?.mp hn
    have hjl : j < ss.length := by
      rw [c2, ← c5 row hrow]; exact (List.getElem?_eq_some_iff.mp hj).1
    obtain ⟨w1, w2, w3, rep, st, col, k1, k2, k3⟩ := c6 j ss[j] (List.getElem?_eq_getElem hjl)
    rw [C34_threads R hts] at k1
    obtain ⟨vs, k4, -⟩ := C82_estimates A R (hrest rep (replication_of A R hv k1)) he false w2 (by simp)
    rw [k2] at k4
    cases k4
    rw [k3 i row hi, List.getElem?_map] at hj
    cases hc : vs[i]? with
    | none => rw [hc] at hj; cases hj
    | some x => rw [hc] at hj; cases hj)
  subst hrows
  have hrl : ∀ row ∈ rows, row.length = n := fun row hrow => by
    have := c5 (row.map some) (List.mem_map_of_mem hrow)
    simpa using this
  have hlen : rows.length = es.length := by simpa using c4
  -- and with it
  have hflip : ∃ vals : List (List ℝ), runBootstrapValues A R r settings (es.map (·.call A R)) n sep flip seeds w =
      (.ok (vals.map (·.map some)), w') ∧ vals.length = es.length ∧ ∀ row ∈ vals, row.length = n := by
    cases flip with
    | false => exact ⟨rows, h0, hlen, hrl⟩
    | true =>
      obtain ⟨vals', g1, g2⟩ := (C38_flip A R r settings (es.map (·.call A R)) n sep seeds w w').2 _ h0
      have : ∃ yss : List (List ℝ), vals' = yss.map (·.map some) ∧ yss.length = rows.length ∧ ∀ y ∈ yss, y.length = n := by
        clear h0 c4 c5 c6 hlen g1
        induction rows generalizing vals' with
        | nil =>
          cases g2
          exact ⟨[], rfl, rfl, by simp⟩
        | cons row rows ih =>
          cases g2 with
          | cons a b =>
            obtain ⟨zs, z1, z2, -⟩ := a.values row rfl
            obtain ⟨yss, y1, y2, y3⟩ := ih (fun x hx => hrl x (by simp [hx])) _ b
            refine ⟨zs :: yss, by rw [z1, y1]; rfl, by simp [y2], ?_⟩
            intro y hy
            rcases List.mem_cons.mp hy with rfl | hy
            · rw [z2, List.length_map, hrl row (by simp)]
            · exact y3 y hy
      obtain ⟨yss, y1, y2, y3⟩ := this
      exact ⟨yss, by rw [g1, y1], y2.trans hlen, y3⟩
  refine ⟨w', ?_, hflip, ?_, ?_⟩
  · intro e hk
    have hr := (C35_values A R hdet r settings n sep false hk 0).1.1 w _ _ h0
    have hn := hwarn e
    cases w; cases w'
    simp only at hr hn
    rw [hr, hn]
  · intro hn
    obtain ⟨vals, v1, v2, v3⟩ := hflip
    refine ⟨vals.map stdev, ?_, by rw [List.length_map, v2], ?_⟩
    · unfold runStdBootstrap
      rw [M.bind_ok v1, M.pure_apply, stds_of_numbers v3 hn]
    · intro x hx
      obtain ⟨ys, -, rfl⟩ := List.mem_map.mp hx
      exact stdev_nonneg ys
  · intro hn c
    obtain ⟨vs, k1, k2⟩ := C82_estimates A R (d := d) (r := r) ⟨hw, hv.theta_len, hd⟩ he false w' (by simp)
    obtain ⟨out, o1, o2, o3⟩ := C39_formula A R (c := c) (by omega) h0 k1 flip
    rw [show afterWeights R r none false w' = w' by simp [afterWeights]] at o1
    obtain ⟨outs, ho⟩ := rows_of_numbers (rows := [out]) (by
      intro row hrow hnn
      rw [List.mem_singleton.mp hrow] at hnn
      obtain ⟨i, hi⟩ := List.mem_iff_getElem?.mp hnn
      have hil : i < es.length := by
        have := (List.getElem?_eq_some_iff.mp hi).1
        rwa [o2, List.length_map] at this
      obtain ⟨q, q1, q2⟩ := o3 i (vs[i]'(by omega)) (rows[i]'(by omega))
        (by rw [List.getElem?_map, List.getElem?_eq_getElem (by omega)]; rfl)
        (by rw [List.getElem?_map, List.getElem?_eq_getElem (by omega)]; rfl)
      cases flip with
      | false => rw [(q1 rfl).2] at hi; cases hi
      | true => rw [(q2 rfl).2] at hi; cases hi)
    cases outs with
    | nil => simp at ho
    | cons cis rest =>
      have e : out = cis.map some := by simpa using (List.cons.inj ho).1
      refine ⟨cis, by rw [o1, e], ?_⟩
      rw [e] at o2
      simpa using o2

/-- Processing a consistent dead-birth array with `d` parameters: the run has the documented format and passes the checks,
estimators apply to it, and it is static if no contour but the initial one has two births. -/
theorem C82_process {samples : List (Sample ℝ)} {init : ℝ} (hc : Consistent samples init) {d : Nat}
    (hd : ∀ s ∈ samples, s.theta.length = d) (da dw : Bool) :
    ∃ r : Run ℝ, (∀ w : World σ, processSamples A R samples da dw w = (.ok r, w)) ∧ Valid r ∧
      (∀ (da' dw' : Bool) (w : World σ), checkRun A r da' dw' w = (.ok (), w)) ∧ Estimable d r ∧
      (OneHeir samples init → StaticRun r) := by
  obtain ⟨r, h1, h2, h3, h4⟩ := C01_nlive_exact R hc A da dw (σ := σ)
  have h0 := h1 ⟨R.seed 0, []⟩
  obtain ⟨v1, v2, v3, v4, v5, v6⟩ := C03_valid_lossless R hc A da dw _ _ h0
  have hth : r.theta.Perm (samples.map (·.theta)) := by
    have := v6.map Prod.snd
    rwa [List.map_snd_zip (by omega), List.map_map] at this
  have hlogl : r.logl.Perm (samples.map (·.logl)) := by
    have := v6.map Prod.fst
    rwa [List.map_fst_zip (by omega), List.map_map] at this
  have hdim : ∀ t ∈ r.theta, t.length = d := by
    intro t ht
    obtain ⟨s, hs, rfl⟩ := List.mem_map.mp (hth.mem_iff.mp ht)
    exact hd s hs
  have hpos : ∀ n ∈ r.nlive, 0 < n := by
    intro n hn
    obtain ⟨i, hi⟩ := List.mem_iff_getElem?.mp hn
    have hil : i < r.logl.length := by
      have := (List.getElem?_eq_some_iff.mp hi).1
      omega
    have hl := List.getElem?_eq_getElem hil
    rw [h4 i _ hl] at hi
    obtain ⟨s, hs, hsl⟩ := List.mem_map.mp (hlogl.mem_iff.mp (List.getElem_mem hil))
    have : 0 < liveAt samples r.logl[i] := by
      unfold liveAt
      rw [List.countP_pos_iff]
      refine ⟨s, hs, ?_⟩
      rw [decide_eq_true_eq, ← hsl]
      refine ⟨?_, le_refl _⟩
      rcases hc.births s hs with e | ⟨t, -, e, ht⟩
      · rw [e]; exact hc.below s hs
      · rw [e]; exact ht
    rw [← Option.some.inj hi]
    exact_mod_cast this
  refine ⟨r, h1, v1, fun a b w => v3 a b w, ⟨⟨?_, hpos, by omega⟩, by omega, hdim⟩, ?_⟩
  · intro e
    rw [e] at v4
    exact hc.nonempty (List.length_eq_zero_iff.mp v4.symm)
  · intro ho
    obtain ⟨labels, tmm, hp⟩ := processed_proper R hc (by
      intro a ha b hb
      obtain ⟨s, hs, rfl⟩ := List.mem_map.mp ha
      obtain ⟨t, ht, rfl⟩ := List.mem_map.mp hb
      rw [hd s hs, hd t ht]) A da dw h0
    exact ⟨labels, tmm, hp, (process_static R hc A da dw h0 hp.tmm_eq).mpr ho, hpos⟩

/-- C82.  From a consistent dead-birth array to estimates and error bars: whatever array is given, estimators of the package
which apply to its number of parameters are computed with expected and with simulated weights, for the run and for
each thread, and if no contour but the initial one has two births they are computed for bootstrap replications too,
with standard deviations and credible intervals.  No call raises and no value is nan. -/
theorem C82_end_to_end {samples : List (Sample ℝ)} {init : ℝ} (hc : Consistent samples init) {d : Nat}
    (hd : ∀ s ∈ samples, s.theta.length = d) {es : List Estimator} (he : ∀ e ∈ es, Applies d e)
    (hu : PositiveDraws R) (da dw sim flip : Bool) {n : Nat} (hn : 2 ≤ n) (c : ℝ) (w : World σ) :
    ∃ r : Run ℝ, processSamples A R samples da dw w = (.ok r, w) ∧
      (∃ (vs : List ℝ) (w' : World σ), runEstimators R r (es.map (·.call A R)) sim w = (.ok (vs.map some), w') ∧
        vs.length = es.length) ∧
      (∃ (stds : List ℝ) (w' : World σ), runStdSimulate R r (es.map (·.call A R)) (some n) w = (.ok (stds.map some), w') ∧
        stds.length = es.length) ∧
      (∃ vals : List (List ℝ), runThreadValues R r (es.map (·.call A R)) w = (.ok (vals.map (·.map some)), w) ∧
        vals.length = es.length) ∧
      (OneHeir samples init →
        (∃ vals : List (List ℝ), runBootstrapValues A R r none (es.map (·.call A R)) n false flip none w =
          (.ok (vals.map (·.map some)), w) ∧ vals.length = es.length ∧ ∀ row ∈ vals, row.length = n) ∧
        (∃ stds : List ℝ, runStdBootstrap A R r none (es.map (·.call A R)) n false flip none w = (.ok (stds.map some), w) ∧
          stds.length = es.length ∧ ∀ x ∈ stds, 0 ≤ x) ∧
        ∃ cis : List ℝ, runCiBootstrap A R r none (es.map (·.call A R)) c n false flip none w = (.ok (cis.map some), w) ∧
          cis.length = es.length) := by
  obtain ⟨r, h1, ⟨labels, tmm, h2⟩, -, h3, h4⟩ := C82_process A R hc hd da dw (σ := σ)
  refine ⟨r, h1 w, ?_, ?_, ?_, ?_⟩
  · obtain ⟨vs, e1, e2⟩ := C82_estimates A R h3 he sim w (fun _ => hu _ _)
    exact ⟨vs, _, e1, e2⟩
  · obtain ⟨vs, w', e1, e2, -⟩ := C82_simulate A R h3 he hu hn w
    exact ⟨vs, _, e1, e2⟩
  · obtain ⟨vs, e1, e2, -⟩ := C82_threads A R h2 h3.dim he w
    exact ⟨vs, e1, e2⟩
  · intro ho
    obtain ⟨w', k1, k2, k3, k4⟩ := C82_bootstrap A R (h4 ho) h3.dim he (settings := none) (sep := false) (by simp [separately])
      (n := n) flip (seeds := none) (by simp) w
    rw [k1 rfl (by simp)] at k2 k3 k4
    exact ⟨k2, k3 hn, k4 (by omega) c⟩

/-- C82 for MultiNest files: a run with consistent births, final live points above the dead points and one heir per contour is
processed to a static run, to which all of the above applies. -/
theorem C82_multinest {files : Tables ℝ} {root dir : String} {da dw : Bool} {dead live : List (Sample ℝ)} {init : ℝ}
    (hdead : HoldsRows 2 files (pathJoin dir root ++ "dead-birth.txt") dead)
    (hlive : HoldsRows 1 files (pathJoin dir root ++ "phys_live-birth.txt") live) {d : Nat}
    (hd : ∀ s ∈ dead ++ live, s.theta.length = d) (hc : Consistent (dead ++ live) init)
    (hab : ∀ x ∈ dead, ∀ l ∈ live, x.logl < l.logl) (ho : OneHeir (dead ++ live) init) :
    ∃ run, (∀ w : World σ, processMultinest A R files root dir da dw w = (.ok (run, ⟨root, dir⟩), w)) ∧
      StaticRun run ∧ Estimable d run := by
  obtain ⟨run, h1⟩ := (C11_accepts (σ := σ) R (A := A) (da := da) (dw := dw) hdead hlive
    (fun s hs t ht => (hd s hs).trans (hd t ht).symm) hc).1 ⟨hab, ho⟩
  obtain ⟨r, g1, -, -, g2, g3⟩ := C82_process A R hc hd da dw (σ := σ)
  have hr : run = r := by
    have hh := h1 ⟨R.seed 0, []⟩
    obtain ⟨dr, lr, dead', live', tmm, f1, f2, f3, f4, -, f5, -⟩ := C11_returns R hh
    obtain ⟨rows, e1, e2, -⟩ := hdead
    obtain ⟨rows', e3, e4, -⟩ := hlive
    rw [f1] at e1
    rw [f2] at e3
    cases e1
    cases e3
    have q1 : dead' = dead := Except.ok.inj ((tableSamples_ok.mpr f3).symm.trans (tableSamples_ok.mpr e2))
    have q2 : live' = live := Except.ok.inj ((tableSamples_ok.mpr f4).symm.trans (tableSamples_ok.mpr e4))
    rw [q1, q2, g1] at f5
    exact (Except.ok.inj (congrArg Prod.fst f5)).symm
  subst hr
  exact ⟨run, h1, g3 ho, g2⟩

/-- A run with two live points: two samples from the whole prior and one born on the contour of the first. -/
def exE2E : List (Sample ℝ) := [⟨[10, 1], 1, -100⟩, ⟨[20, 4], 3, -100⟩, ⟨[30, 9], 4, 1⟩]

theorem exE2E_consistent : Consistent exE2E (-100) where
  nonempty := by simp [exE2E]
  distinct := by norm_num [exE2E]
  below := by simp [exE2E]; norm_num
  births := by simp [exE2E]

theorem exE2E_oneHeir : OneHeir exE2E (-100) := by
  unfold OneHeir exE2E
  norm_num

/-- The hypotheses can be met, with seven estimators. -/
example (w : World Nat) : ∃ r : Run ℝ, processSamples A halfRng exE2E true false w = (.ok r, w) ∧
    ∃ stds : List ℝ, runStdBootstrap A halfRng r none ([Estimator.logz, .evidence, .paramMean 1 false, .paramCred 0.5 0,
      .paramSquaredMean 1, .rMean, .rCred 0.84].map (·.call A halfRng)) 10 false true none w = (.ok (stds.map some), w) ∧
      stds.length = 7 ∧ ∀ x ∈ stds, 0 ≤ x := by
  obtain ⟨r, h1, -, -, -, h2⟩ := C82_end_to_end A halfRng exE2E_consistent (d := 2) (by simp [exE2E])
    (es := [Estimator.logz, .evidence, .paramMean 1 false, .paramCred 0.5 0, .paramSquaredMean 1, .rMean, .rCred 0.84])
    (by simp [Applies]; norm_num) halfRng_positive true false false true (n := 10) (by norm_num) 0.95 w
  exact ⟨r, h1, (h2 exE2E_oneHeir).2.1⟩

end
end Nestcheck
