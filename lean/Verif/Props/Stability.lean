import Verif.Props.WriteStats

/-
C83: how much estimates change when loglikelihoods, log weights or parameters are perturbed (for instance by rounding
when a run is written to a file).
-/

set_option linter.unusedSectionVars false

namespace Nestcheck
open Spec
noncomputable section

/-! ### Specification -/

/-- The numbers differ by at most `ε`. -/
def Spec.Within (ε : ℝ) (xs ys : List ℝ) : Prop := List.Forall₂ (fun x y => |x - y| ≤ ε) xs ys

/-- Two runs with the same live counts whose loglikelihoods differ by at most `ε`; so do the log weights, if they are given. -/
structure Spec.CloseRuns (ε : ℝ) (r r' : Run ℝ) (logw logw' : Option (List ℝ)) : Prop where
  nlive : r'.nlive = r.nlive
  logl : Within ε r.logl r'.logl
  theta_len : r'.theta.length = r.theta.length
  given : (logw = none ∧ logw' = none) ∨ ∃ lw lw', logw = some lw ∧ logw' = some lw' ∧ Within ε lw lw'

/-- tanh(ε / 2), the bound on the change of a probability when weights change by at most a factor exp(`ε`). -/
def Spec.shift (ε : ℝ) : ℝ := (Real.exp ε - 1) / (Real.exp ε + 1)

/-- C83.  The change is at most half of `ε`. -/
theorem C83_shift {ε : ℝ} (h : 0 ≤ ε) : 0 ≤ shift ε ∧ shift ε < 1 ∧ shift ε ≤ ε / 2 := by
  have h1 := Real.one_le_exp h
  have h2 : 0 < Real.exp ε + 1 := by linarith
  unfold shift
  refine ⟨div_nonneg (by linarith) h2.le, by rw [div_lt_one h2]; linarith, ?_⟩
  have key : 0 ≤ ε + 2 - (2 - ε) * Real.exp ε := by
    have hd : ∀ x : ℝ, HasDerivAt (fun x : ℝ => x + 2 - (2 - x) * Real.exp x) (1 - (1 - x) * Real.exp x) x := by
      intro x
      have e := ((hasDerivAt_id x).add_const 2).sub (((hasDerivAt_id x).const_sub 2).mul (Real.hasDerivAt_exp x))
      refine e.congr_deriv ?_
      simp only [id]
      ring
    have hm : Monotone (fun x : ℝ => x + 2 - (2 - x) * Real.exp x) := by
      refine monotone_of_deriv_nonneg (fun x => (hd x).differentiableAt) fun x => ?_
      rw [(hd x).deriv]
      have e1 : 1 - x ≤ Real.exp (-x) := by linarith [Real.add_one_le_exp (-x)]
      have e2 := mul_le_mul_of_nonneg_right e1 (Real.exp_pos x).le
      rw [← Real.exp_add, neg_add_cancel, Real.exp_zero] at e2
      linarith
    have := hm h
    simp at this
    linarith
  rw [div_le_div_iff₀ h2 (by norm_num)]
  linarith

/-! ### Weights within a factor -/

/-- Positive weights within a factor `c` of each other. -/
def Spec.WithinFactor (c : ℝ) (ws ws' : List ℝ) : Prop :=
  List.Forall₂ (fun a b => 0 < a ∧ 0 < b ∧ a ≤ c * b ∧ b ≤ c * a) ws ws'

theorem Spec.WithinFactor.symm {c : ℝ} {ws ws' : List ℝ} (h : WithinFactor c ws ws') : WithinFactor c ws' ws := by
  unfold WithinFactor at *
  exact (h.flip).imp fun a b hab => ⟨hab.2.1, hab.1, hab.2.2.2, hab.2.2.1⟩

/-- The fraction of the weight which lies in one part grows by at most `(c - 1) / (c + 1)`. -/
theorem frac_shift {c A B A' B' : ℝ} (hc : 1 ≤ c) (hA : 0 ≤ A) (_hB : 0 ≤ B) (hAB : 0 < A + B) (hA' : 0 ≤ A') (hB' : 0 ≤ B')
    (hAB' : 0 < A' + B') (h1 : A' ≤ c * A) (h2 : B ≤ c * B') :
    A' / (A' + B') ≤ A / (A + B) + (c - 1) / (c + 1) := by
  have hc0 : 0 < c + 1 := by linarith
  rw [div_add_div _ _ hAB.ne' hc0.ne', div_le_div_iff₀ hAB' (mul_pos hAB hc0)]
  have hN : 0 ≤ A * (c + 1) + (A + B) * (c - 1) := by
    have := mul_nonneg hA hc0.le
    have := mul_nonneg hAB.le (sub_nonneg.mpr hc)
    linarith
  suffices h : A' * (2 * B - A * (c - 1)) ≤ (A * (c + 1) + (A + B) * (c - 1)) * B' by nlinarith
  rcases le_or_gt (2 * B - A * (c - 1)) 0 with hn | hn
  · exact (mul_nonpos_of_nonneg_of_nonpos hA' hn).trans (mul_nonneg hN hB')
  · have e1 : A' * (2 * B - A * (c - 1)) ≤ c * A * (2 * B - A * (c - 1)) := mul_le_mul_of_nonneg_right h1 hn.le
    have e2 : (A * (c + 1) + (A + B) * (c - 1)) * B ≤ (A * (c + 1) + (A + B) * (c - 1)) * (c * B') :=
      mul_le_mul_of_nonneg_left h2 hN
    have e3 : c * (c * A * (2 * B - A * (c - 1))) ≤ (A * (c + 1) + (A + B) * (c - 1)) * B := by
      have := mul_nonneg (sub_nonneg.mpr hc) (sq_nonneg (B - c * A))
      nlinarith
    have hc1 : 0 < c := by linarith
    refine e1.trans (le_of_mul_le_mul_left ?_ hc1)
    linarith

theorem Spec.WithinFactor.length {c : ℝ} {ws ws' : List ℝ} (h : WithinFactor c ws ws') : ws.length = ws'.length := h.length_eq

/-- A weighted sum of non-negative numbers changes by at most the factor. -/
theorem Spec.WithinFactor.dot {c : ℝ} {ws ws' : List ℝ} (h : WithinFactor c ws ws') {xs : List ℝ} (hx : ∀ x ∈ xs, 0 ≤ x) :
    0 ≤ (List.zipWith (· * ·) ws xs).sum ∧ 0 ≤ (List.zipWith (· * ·) ws' xs).sum ∧
      (List.zipWith (· * ·) ws xs).sum ≤ c * (List.zipWith (· * ·) ws' xs).sum := by
  induction h generalizing xs with
  | nil => simp
  | @cons a b as bs hab _ ih =>
    cases xs with
    | nil => simp
    | cons x xs =>
      obtain ⟨i1, i2, i3⟩ := ih (xs := xs) (fun y hy => hx y (by simp [hy]))
      have h0 := hx x (by simp)
      simp only [List.zipWith_cons_cons, List.sum_cons]
      have e1 := mul_nonneg hab.1.le h0
      have e2 := mul_nonneg hab.2.1.le h0
      have e3 := mul_le_mul_of_nonneg_right hab.2.2.1 h0
      refine ⟨by linarith, by linarith, by linarith⟩

theorem Spec.WithinFactor.sum {c : ℝ} {ws ws' : List ℝ} (h : WithinFactor c ws ws') :
    0 ≤ ws.sum ∧ 0 ≤ ws'.sum ∧ ws.sum ≤ c * ws'.sum := by
  induction h with
  | nil => simp
  | @cons a b as bs hab _ ih =>
    obtain ⟨i1, i2, i3⟩ := ih
    simp only [List.sum_cons]
    refine ⟨by linarith [hab.1], by linarith [hab.2.1], by linarith [hab.2.2.1]⟩

/-- A weighted mean changes by at most a fraction `(c - 1) / (c + 1)` of the range of the values. -/
theorem mean_shift {c : ℝ} (hc : 1 ≤ c) {ws ws' xs : List ℝ} (h : WithinFactor c ws ws') (h0 : ws ≠ [])
    (hl : ws.length = xs.length) {lo hi : ℝ} (hx : ∀ x ∈ xs, lo ≤ x ∧ x ≤ hi) :
    mean ws' xs ≤ mean ws xs + (hi - lo) * ((c - 1) / (c + 1)) := by
  have h0' : ws' ≠ [] := by
    intro e; rw [e] at h
    exact h0 (List.length_eq_zero_iff.mp h.length)
  have hpos : ∀ v ∈ ws, 0 < v := by
    intro v hv
    obtain ⟨b, -, hb⟩ := forall₂_mem_left h hv
    exact hb.1
  have hpos' : ∀ v ∈ ws', 0 < v := by
    intro v hv
    obtain ⟨b, -, hb⟩ := forall₂_mem_left h.symm hv
    exact hb.1
  have hW := sum_pos_of h0 hpos
  have hW' := sum_pos_of h0' hpos'
  have hl' : ws'.length = xs.length := h.length.symm.trans hl
  -- the part towards the upper end and the part towards the lower end
  have up := fun vs (hv : vs.length = xs.length) => dot_linear (ws := vs) (xs := xs) 1 (-lo) hv
  have dn := fun vs (hv : vs.length = xs.length) => dot_linear (ws := vs) (xs := xs) (-1) hi hv
  obtain ⟨a1, a2, -⟩ := h.dot (xs := xs.map (fun x => 1 * x + -lo)) (by
    intro y hy; obtain ⟨x, hx', rfl⟩ := List.mem_map.mp hy; linarith [(hx x hx').1])
  obtain ⟨-, -, a3⟩ := h.symm.dot (xs := xs.map (fun x => 1 * x + -lo)) (by
    intro y hy; obtain ⟨x, hx', rfl⟩ := List.mem_map.mp hy; linarith [(hx x hx').1])
  obtain ⟨b1, b2, b3⟩ := h.dot (xs := xs.map (fun x => -1 * x + hi)) (by
    intro y hy; obtain ⟨x, hx', rfl⟩ := List.mem_map.mp hy; linarith [(hx x hx').2])
  rw [up ws hl] at a1 a3
  rw [up ws' hl'] at a2 a3
  rw [dn ws hl] at b1 b3
  rw [dn ws' hl'] at b2 b3
  set D := (List.zipWith (· * ·) ws xs).sum with hD
  set D' := (List.zipWith (· * ·) ws' xs).sum with hD'
  unfold mean
  rw [← hD, ← hD']
  have hr : lo ≤ hi := by
    cases xs with
    | nil => simp at hl; exact absurd hl h0
    | cons x xs => exact (hx x (by simp)).1.trans (hx x (by simp)).2
  rcases eq_or_lt_of_le hr with he | hlt
  · have e1 : D' / ws'.sum = lo := by
      rw [div_eq_iff hW'.ne']; rw [← he] at b2; linarith
    have e2 : D / ws.sum = lo := by
      rw [div_eq_iff hW.ne']; rw [← he] at b1; linarith
    rw [e1, e2, ← he]; simp
  · have hs : 0 < hi - lo := sub_pos.mpr hlt
    have key := frac_shift hc a1 b1 (by
      have : 1 * D + -lo * ws.sum + (-1 * D + hi * ws.sum) = (hi - lo) * ws.sum := by ring
      rw [this]; exact mul_pos hs hW) a2 b2 (by
      have : 1 * D' + -lo * ws'.sum + (-1 * D' + hi * ws'.sum) = (hi - lo) * ws'.sum := by ring
      rw [this]; exact mul_pos hs hW') a3 b3
    rw [show 1 * D + -lo * ws.sum + (-1 * D + hi * ws.sum) = (hi - lo) * ws.sum by ring,
      show 1 * D' + -lo * ws'.sum + (-1 * D' + hi * ws'.sum) = (hi - lo) * ws'.sum by ring] at key
    have e : ∀ X W : ℝ, 0 < W → (1 * X + -lo * W) / ((hi - lo) * W) = (X / W - lo) / (hi - lo) := by
      intro X W hW
      field_simp
      ring
    rw [e _ _ hW, e _ _ hW'] at key
    rw [div_le_iff₀ hs] at key
    have e5 : ((D / ws.sum - lo) / (hi - lo) + (c - 1) / (c + 1)) * (hi - lo) = D / ws.sum - lo + (hi - lo) * ((c - 1) / (c + 1)) := by
      field_simp
    linarith

/-! ### The weights of the samples -/

variable {σ : Type} (A : Argsort ℝ) (R : Rng σ ℝ)

theorem exp_within {ε x y : ℝ} (h : |x - y| ≤ ε) : Real.exp x ≤ Real.exp ε * Real.exp y := by
  rw [← Real.exp_add]
  exact Real.exp_le_exp.mpr (by linarith [(abs_le.mp h).2])

theorem within_factor_exp {ε : ℝ} {xs ys : List ℝ} (h : Within ε xs ys) :
    WithinFactor (Real.exp ε) (xs.map Real.exp) (ys.map Real.exp) := by
  unfold WithinFactor
  rw [List.forall₂_map_left_iff, List.forall₂_map_right_iff]
  exact h.imp fun x y hxy => ⟨Real.exp_pos _, Real.exp_pos _, exp_within hxy, exp_within (by rw [abs_sub_comm]; exact hxy)⟩

theorem within_factor_volumes {ε : ℝ} {xs ys : List ℝ} (h : Within ε xs ys) {vs : List ℝ} (hv : ∀ v ∈ vs, 0 < v) :
    WithinFactor (Real.exp ε) (List.zipWith (fun v l => v * Real.exp l) vs xs)
      (List.zipWith (fun v l => v * Real.exp l) vs ys) := by
  unfold WithinFactor
  induction h generalizing vs with
  | nil => simp
  | @cons a b as bs hab _ ih =>
    cases vs with
    | nil => simp
    | cons v vs =>
      have h0 := hv v (by simp)
      rw [List.zipWith_cons_cons, List.zipWith_cons_cons]
      refine .cons ⟨mul_pos h0 (Real.exp_pos _), mul_pos h0 (Real.exp_pos _), ?_, ?_⟩ (ih fun u hu => hv u (by simp [hu]))
      · have := mul_le_mul_of_nonneg_left (exp_within hab) h0.le
        linarith
      · have := mul_le_mul_of_nonneg_left (exp_within (ε := ε) (x := b) (y := a) (by rw [abs_sub_comm]; exact hab)) h0.le
        linarith

theorem closeRuns_usable {ε : ℝ} {r r' : Run ℝ} {logw logw' : Option (List ℝ)} (hc : CloseRuns ε r r' logw logw')
    {sim : Bool} {us : List ℝ} (h : Usable r logw sim us) : Usable r' logw' sim us := by
  obtain ⟨h1, h2, h3⟩ := h
  have hl := hc.logl.length_eq
  refine ⟨by rw [hc.theta_len, h1, hl], ?_, ?_⟩
  · intro e; rw [e] at hl; exact h2 (List.length_eq_zero_iff.mp hl)
  · rcases hc.given with ⟨rfl, rfl⟩ | ⟨lw, lw', rfl, rfl, hw⟩
    · obtain ⟨h3, h4⟩ := h3
      refine ⟨⟨?_, by rw [hc.nlive]; exact h3.pos, by rw [hc.nlive, h3.len, hl]⟩, h4⟩
      intro e; rw [e] at hl; exact h2 (List.length_eq_zero_iff.mp hl)
    · show lw'.length = r'.logl.length
      rw [← hw.length_eq, ← hl]; exact h3

theorem closeRuns_weights {ε : ℝ} {r r' : Run ℝ} {logw logw' : Option (List ℝ)} (hc : CloseRuns ε r r' logw logw')
    {sim : Bool} {w : World σ} (h : Usable r logw sim (R.uniform r.nlive.length w.rng).1) :
    WithinFactor (Real.exp ε) (sampleWeights r logw sim (R.uniform r.nlive.length w.rng).1)
      (sampleWeights r' logw' sim (R.uniform r'.nlive.length w.rng).1) := by
  rw [hc.nlive]
  rcases hc.given with ⟨rfl, rfl⟩ | ⟨lw, lw', rfl, rfl, hw⟩
  · obtain ⟨-, -, h3, h4⟩ := h
    unfold sampleWeights
    rw [hc.nlive]
    exact within_factor_volumes hc.logl (priorVolumes_spec h3.nlive_ne h3.pos sim _ (fun hs =>
      ⟨fun u hu => ⟨h4 hs u hu, (R.uniform_range _ _ u hu).2⟩, R.uniform_length _ _⟩)).2.2
  · exact within_factor_exp hw

theorem closeRuns_after {ε : ℝ} {r r' : Run ℝ} {logw logw' : Option (List ℝ)} (hc : CloseRuns ε r r' logw logw')
    (sim : Bool) (w : World σ) : afterWeights R r' logw' sim w = afterWeights R r logw sim w := by
  unfold afterWeights
  rw [hc.nlive]
  rcases hc.given with ⟨rfl, rfl⟩ | ⟨lw, lw', rfl, rfl, hw⟩ <;> simp

theorem Spec.CloseRuns.eps_nonneg {ε : ℝ} {r r' : Run ℝ} {logw logw' : Option (List ℝ)} (hc : CloseRuns ε r r' logw logw')
    (h0 : r.logl ≠ []) : 0 ≤ ε := by
  obtain ⟨l, hl⟩ := List.exists_mem_of_ne_nil _ h0
  obtain ⟨l', -, h⟩ := forall₂_mem_left hc.logl hl
  exact (abs_nonneg _).trans h

theorem Spec.CloseRuns.symm {ε : ℝ} {r r' : Run ℝ} {logw logw' : Option (List ℝ)} (hc : CloseRuns ε r r' logw logw') :
    CloseRuns ε r' r logw' logw where
  nlive := hc.nlive.symm
  logl := hc.logl.flip.imp fun a b h => by rw [abs_sub_comm]; exact h
  theta_len := hc.theta_len.symm
  given := by
    rcases hc.given with ⟨h1, h2⟩ | ⟨lw, lw', h1, h2, hw⟩
    · exact Or.inl ⟨h2, h1⟩
    · exact Or.inr ⟨lw', lw, h2, h1, hw.flip.imp fun a b h => by rw [abs_sub_comm]; exact h⟩

/-! ### Estimates -/

/-- `logz` and `evidence` in terms of the weights of the samples. -/
theorem logz_eq {r : Run ℝ} {logw : Option (List ℝ)} {sim : Bool} {w : World σ}
    (h : Usable r logw sim (R.uniform r.nlive.length w.rng).1) :
    logz R r logw sim w = (.ok (Real.log (sampleWeights r logw sim (R.uniform r.nlive.length w.rng).1).sum),
      afterWeights R r logw sim w) ∧
    evidence R r logw sim w = (.ok (sampleWeights r logw sim (R.uniform r.nlive.length w.rng).1).sum,
      afterWeights R r logw sim w) := by
  obtain ⟨lw, h1, h2, h3, -⟩ := logwOr_ok h
  obtain ⟨s1, -, s3⟩ := sampleWeights_spec h
  have hs := sum_pos_of s1 s3
  unfold logz evidence
  rw [M.bind_ok h1, M.bind_ok h1, M.lift_apply, logsumexp_ok h3, h2]
  refine ⟨rfl, ?_⟩
  rw [M.bind_ok (by rw [M.lift_apply]), M.pure_apply, Real.exp_log hs]
  rfl

/-- C83.  If loglikelihoods (or given log weights) change by at most `ε`, so does `logz`, and `evidence` changes by at most a
factor exp(`ε`). -/
theorem C83_logz {ε : ℝ} {r r' : Run ℝ} {logw logw' : Option (List ℝ)} (hc : CloseRuns ε r r' logw logw')
    {sim : Bool} {w : World σ} (h : Usable r logw sim (R.uniform r.nlive.length w.rng).1) :
    ∃ z z' w', logz R r logw sim w = (.ok z, w') ∧ logz R r' logw' sim w = (.ok z', w') ∧
      evidence R r logw sim w = (.ok (Real.exp z), w') ∧ evidence R r' logw' sim w = (.ok (Real.exp z'), w') ∧
      |z' - z| ≤ ε := by
  have h' : Usable r' logw' sim (R.uniform r'.nlive.length w.rng).1 := by
    rw [hc.nlive]; exact closeRuns_usable hc h
  obtain ⟨s1, -, s3⟩ := sampleWeights_spec h
  obtain ⟨s1', -, s3'⟩ := sampleWeights_spec h'
  have hf := closeRuns_weights R hc h
  obtain ⟨e1, e2⟩ := logz_eq R h
  obtain ⟨e1', e2'⟩ := logz_eq R h'
  have hs := sum_pos_of s1 s3
  have hs' := sum_pos_of s1' s3'
  refine ⟨_, _, _, e1, by rw [e1', closeRuns_after R hc], by rw [Real.exp_log hs]; exact e2,
    by rw [Real.exp_log hs', ← closeRuns_after R hc]; exact e2', ?_⟩
  have b1 := Real.log_le_log hs hf.sum.2.2
  have b2 := Real.log_le_log hs' hf.symm.sum.2.2
  rw [Real.log_mul (Real.exp_pos _).ne' hs'.ne', Real.log_exp] at b1
  rw [Real.log_mul (Real.exp_pos _).ne' hs.ne', Real.log_exp] at b2
  rw [abs_le]
  constructor <;> linarith

theorem mean_close {η : ℝ} {ws xs xs' : List ℝ} (h0 : ws ≠ []) (hw : ∀ v ∈ ws, 0 < v) (hl : ws.length = xs.length)
    (hx : Within η xs xs') : |mean ws xs' - mean ws xs| ≤ η := by
  have hl' : ws.length = xs'.length := hl.trans hx.length_eq
  have e1 := mean_mono h0 hw (xs := xs') (ys := xs.map (fun x => 1 * x + η)) (by
    rw [List.forall₂_map_right_iff]
    exact hx.flip.imp fun a b hab => by linarith [(abs_le.mp hab).1])
  have e2 := mean_mono h0 hw (xs := xs) (ys := xs'.map (fun x => 1 * x + η)) (by
    rw [List.forall₂_map_right_iff]
    exact hx.imp fun a b hab => by linarith [(abs_le.mp hab).2])
  rw [mean_affine 1 η h0 hw hl] at e1
  rw [mean_affine 1 η h0 hw hl'] at e2
  rw [abs_le]
  constructor <;> linarith

theorem mean_both {ε η : ℝ} (hε : 0 ≤ ε) {ws ws' xs xs' : List ℝ} (hf : WithinFactor (Real.exp ε) ws ws') (h0 : ws ≠ [])
    (hl : ws.length = xs.length) {lo hi : ℝ} (hb : ∀ x ∈ xs, lo ≤ x ∧ x ≤ hi) (hx : Within η xs xs') :
    |mean ws' xs' - mean ws xs| ≤ (hi - lo) * shift ε + η := by
  have h0' : ws' ≠ [] := by
    intro e; rw [e] at hf
    exact h0 (List.length_eq_zero_iff.mp hf.length)
  have hpos' : ∀ v ∈ ws', 0 < v := by
    intro v hv
    obtain ⟨b, -, hb⟩ := forall₂_mem_left hf.symm hv
    exact hb.1
  have hc : 1 ≤ Real.exp ε := Real.one_le_exp hε
  have e1 := mean_shift hc hf h0 hl hb
  have e2 := mean_shift hc hf.symm h0' (hf.length.symm.trans hl) hb
  have e3 := mean_close h0' hpos' (hf.length.symm.trans hl) hx
  unfold shift
  rw [abs_le] at e3 ⊢
  constructor <;> linarith

/-- C83.  If loglikelihoods change by at most `ε` and the parameter by at most `η`, `param_mean` changes by at most the fraction
tanh(ε / 2) of the range of the parameter, plus `η`. -/
theorem C83_param_mean {ε η : ℝ} {r r' : Run ℝ} {logw logw' : Option (List ℝ)} (hc : CloseRuns ε r r' logw logw')
    {sim : Bool} {w : World σ} (h : Usable r logw sim (R.uniform r.nlive.length w.rng).1) {ind : Nat} {xs xs' : List ℝ}
    (hx : r.theta.map (·[ind]?) = xs.map some) (hx' : r'.theta.map (·[ind]?) = xs'.map some) (hxx : Within η xs xs')
    {lo hi : ℝ} (hb : ∀ x ∈ xs, lo ≤ x ∧ x ≤ hi) (handle : Bool) :
    ∃ m m' w', paramMean R r logw sim ind handle w = (.ok (some m), w') ∧
      paramMean R r' logw' sim ind handle w = (.ok (some m'), w') ∧ |m' - m| ≤ (hi - lo) * shift ε + η := by
  have h' : Usable r' logw' sim (R.uniform r'.nlive.length w.rng).1 := by
    rw [hc.nlive]; exact closeRuns_usable hc h
  obtain ⟨s1, s2, s3⟩ := sampleWeights_spec h
  obtain ⟨m, e1, e2, -⟩ := C30_param_mean R h hx handle
  obtain ⟨m', e1', e2', -⟩ := C30_param_mean R h' hx' handle
  have hxl : xs.length = r.theta.length := by
    have := congrArg List.length hx; simpa using this.symm
  refine ⟨m, m', _, e1, by rw [e1', closeRuns_after R hc], ?_⟩
  rw [e2, e2']
  exact mean_both (hc.eps_nonneg h.2.1) (closeRuns_weights R hc h) s1 (by rw [s2, hxl, h.1]) hb hxx

/-- C83 for `param_squared_mean`. -/
theorem C83_squared {ε η : ℝ} {r r' : Run ℝ} {logw logw' : Option (List ℝ)} (hc : CloseRuns ε r r' logw logw')
    {sim : Bool} {w : World σ} (h : Usable r logw sim (R.uniform r.nlive.length w.rng).1) {ind : Nat} {xs xs' : List ℝ}
    (hx : r.theta.map (·[ind]?) = xs.map some) (hx' : r'.theta.map (·[ind]?) = xs'.map some)
    (hxx : Within η (xs.map (fun x => x * x)) (xs'.map (fun x => x * x)))
    {hi : ℝ} (hb : ∀ x ∈ xs, x * x ≤ hi) :
    ∃ m m' w', paramSquaredMean R r logw sim ind w = (.ok m, w') ∧
      paramSquaredMean R r' logw' sim ind w = (.ok m', w') ∧ |m' - m| ≤ hi * shift ε + η := by
  have h' : Usable r' logw' sim (R.uniform r'.nlive.length w.rng).1 := by
    rw [hc.nlive]; exact closeRuns_usable hc h
  obtain ⟨s1, s2, s3⟩ := sampleWeights_spec h
  obtain ⟨m, _, _, e1, rfl, e2, -⟩ := C30_squared R h hx false
  obtain ⟨m', _, _, e1', rfl, e2', -⟩ := C30_squared R h' hx' false
  have hxl : xs.length = r.theta.length := by
    have := congrArg List.length hx; simpa using this.symm
  refine ⟨m, m', _, e1, by rw [e1', closeRuns_after R hc], ?_⟩
  rw [e2, e2']
  have := mean_both (lo := 0) (hi := hi) (hc.eps_nonneg h.2.1) (closeRuns_weights R hc h) s1
    (by rw [List.length_map, s2, hxl, h.1])
    (by intro y hy; obtain ⟨x, hxm, rfl⟩ := List.mem_map.mp hy; exact ⟨mul_self_nonneg x, hb x hxm⟩) hxx
  rwa [sub_zero] at this

/-- C83 for `r_mean`. -/
theorem C83_r_mean {ε η : ℝ} {r r' : Run ℝ} {logw logw' : Option (List ℝ)} (hc : CloseRuns ε r r' logw logw')
    {sim : Bool} {w : World σ} (h : Usable r logw sim (R.uniform r.nlive.length w.rng).1)
    (hxx : Within η (r.theta.map radius) (r'.theta.map radius)) {hi : ℝ} (hb : ∀ t ∈ r.theta, radius t ≤ hi) :
    ∃ m m' w', rMean R r logw sim w = (.ok m, w') ∧ rMean R r' logw' sim w = (.ok m', w') ∧
      |m' - m| ≤ hi * shift ε + η := by
  have h' : Usable r' logw' sim (R.uniform r'.nlive.length w.rng).1 := by
    rw [hc.nlive]; exact closeRuns_usable hc h
  obtain ⟨s1, s2, s3⟩ := sampleWeights_spec h
  obtain ⟨m, e1, e2, -⟩ := C32_r_mean R h
  obtain ⟨m', e1', e2', -⟩ := C32_r_mean R h'
  refine ⟨m, m', _, e1, by rw [e1', closeRuns_after R hc], ?_⟩
  rw [e2, e2']
  have := mean_both (lo := 0) (hi := hi) (hc.eps_nonneg h.2.1) (closeRuns_weights R hc h) s1
    (by rw [List.length_map, s2, h.1])
    (by
      intro y hy
      obtain ⟨t, ht, rfl⟩ := List.mem_map.mp hy
      exact ⟨by unfold radius; exact Real.sqrt_nonneg _, hb t ht⟩) hxx
  rwa [sub_zero] at this

/-! ### Quantiles -/

/-- The middles of the weights move by at most `(c - 1) / (c + 1)`. -/
theorem mids_shift {c : ℝ} (hc : 1 ≤ c) {ws ws' : List ℝ} (h : WithinFactor c ws ws') {acc acc' : ℝ} (h0 : 0 ≤ acc)
    (h0' : 0 ≤ acc') (ha : acc' ≤ c * acc) :
    List.Forall₂ (fun a b => b ≤ a + (c - 1) / (c + 1)) (mids (acc + ws.sum) acc ws) (mids (acc' + ws'.sum) acc' ws') := by
  induction h generalizing acc acc' with
  | nil => simp [mids]
  | @cons a b as bs hab htl ih =>
    obtain ⟨i1, i2, i3⟩ := WithinFactor.sum htl
    have e := ih (acc := acc + a) (acc' := acc' + b) (by linarith [hab.1]) (by linarith [hab.2.1]) (by linarith [hab.2.2.2])
    rw [mids, mids, List.sum_cons, List.sum_cons, ← add_assoc, ← add_assoc]
    refine .cons ?_ e
    have := frac_shift (c := c) (A := acc + a / 2) (B := a / 2 + as.sum) (A' := acc' + b / 2) (B' := b / 2 + bs.sum) hc
      (by linarith [hab.1]) (by linarith [hab.1]) (by linarith [hab.1]) (by linarith [hab.2.1]) (by linarith [hab.2.1])
      (by linarith [hab.2.1]) (by linarith [hab.2.2.2]) (by linarith [hab.2.2.1])
    rwa [show acc' + b / 2 + (b / 2 + bs.sum) = acc' + b + bs.sum by ring,
      show acc + a / 2 + (a / 2 + as.sum) = acc + a + as.sum by ring] at this

/-- A piecewise linear function through the same ascending values at points which lie at most `δ` further to the right. -/
theorem interpFrom_shift {δ x y : ℝ} (hxy : x + δ ≤ y) {p p' : ℝ × ℝ} {ps ps' : List (ℝ × ℝ)}
    (h : List.Forall₂ (fun a b : ℝ × ℝ => b.1 ≤ a.1 + δ ∧ b.2 = a.2) (p :: ps) (p' :: ps'))
    (ha : Ascending (p :: ps)) (ha' : Ascending (p' :: ps')) (hx : p.1 ≤ x) :
    interpFrom x p ps ≤ interpFrom y p' ps' := by
  induction ps generalizing p p' ps' with
  | nil =>
    rw [List.forall₂_cons] at h
    cases h.2
    simp [interpFrom, h.1.2]
  | cons q qs ih =>
    rw [List.forall₂_cons] at h
    obtain ⟨hp, hq⟩ := h
    cases ps' with
    | nil => simp at hq
    | cons q' qs' =>
      have hpq := List.rel_of_pairwise_cons ha (List.mem_cons_self)
      have hpq' := List.rel_of_pairwise_cons ha' (List.mem_cons_self)
      have hqq := (List.forall₂_cons.mp hq).1
      have hv : 0 ≤ q.2 - p.2 := by linarith [hpq.2]
      rw [interpFrom, interpFrom]
      by_cases h1 : x < q.1
      · have hD : 0 < q.1 - p.1 := by linarith
        have eL : (if x = p.1 then p.2 else (q.2 - p.2) / (q.1 - p.1) * (x - p.1) + p.2) =
            p.2 + (q.2 - p.2) * ((x - p.1) / (q.1 - p.1)) := by
          by_cases h2 : x = p.1
          · rw [if_pos h2, h2]; simp
          · rw [if_neg h2]; ring
        rw [if_pos h1, eL]
        have t0 : 0 ≤ (x - p.1) / (q.1 - p.1) := div_nonneg (by linarith) hD.le
        have t1 : (x - p.1) / (q.1 - p.1) ≤ 1 := by rw [div_le_one hD]; linarith
        by_cases h3 : y < q'.1
        · rw [if_pos h3]
          have hy : p'.1 ≤ y := by linarith [hp.1]
          have hD' : 0 < q'.1 - p'.1 := by linarith
          have eR : (if y = p'.1 then p'.2 else (q'.2 - p'.2) / (q'.1 - p'.1) * (y - p'.1) + p'.2) =
              p.2 + (q.2 - p.2) * ((y - p'.1) / (q'.1 - p'.1)) := by
            rw [hqq.2, hp.2]
            by_cases h2 : y = p'.1
            · rw [if_pos h2, h2]; simp
            · rw [if_neg h2]; ring
          rw [eR]
          have : (x - p.1) / (q.1 - p.1) ≤ (y - p'.1) / (q'.1 - p'.1) := by
            rw [le_div_iff₀ hD']
            generalize ht : (x - p.1) / (q.1 - p.1) = t at t0 t1
            have hx' : x = p.1 + t * (q.1 - p.1) := by rw [← ht]; field_simp; ring
            have a1 := mul_le_mul_of_nonneg_left hqq.1 t0
            have a2 := mul_le_mul_of_nonneg_left hp.1 (sub_nonneg.mpr t1)
            nlinarith
          have := mul_le_mul_of_nonneg_left this hv
          linarith
        · rw [if_neg h3]
          have b := (interpFrom_bounds (List.Pairwise.of_cons ha') (not_lt.mp h3)).1
          have := mul_le_mul_of_nonneg_left t1 hv
          rw [hqq.2] at b
          linarith
      · have h3 : ¬ y < q'.1 := by
          have := not_lt.mp h1
          linarith [hqq.1]
        rw [if_neg h1, if_neg h3]
        exact ih hq (List.Pairwise.of_cons ha) (List.Pairwise.of_cons ha') (not_lt.mp h1)

theorem ascending_zip {xp fp : List ℝ} (hx : xp.Pairwise (· ≤ ·)) (hf : fp.Pairwise (· ≤ ·)) : Ascending (xp.zip fp) := by
  unfold Ascending
  rw [List.pairwise_iff_getElem] at hx hf ⊢
  intro i j hi hj hij
  simp only [List.length_zip, lt_min_iff] at hi hj
  simp only [List.getElem_zip]
  exact ⟨hx i j hi.1 hj.1 hij, hf i j hi.2 hj.2 hij⟩

theorem interp_shift {δ x y : ℝ} (hxy : x + δ ≤ y) {xp xp' fp : List ℝ} (h : List.Forall₂ (fun a b => b ≤ a + δ) xp xp')
    (hl : xp.length = fp.length) (h0 : fp ≠ []) (hx : xp.Pairwise (· ≤ ·)) (hx' : xp'.Pairwise (· ≤ ·))
    (hf : fp.Pairwise (· ≤ ·)) :
    ∃ a b, interp x xp fp = .ok a ∧ interp y xp' fp = .ok b ∧ a ≤ b := by
  have hl' : xp'.length = fp.length := h.length_eq ▸ hl
  have hz : List.Forall₂ (fun a b : ℝ × ℝ => b.1 ≤ a.1 + δ ∧ b.2 = a.2) (xp.zip fp) (xp'.zip fp) := by
    clear hl hl' h0 hx hx' hf
    induction h generalizing fp with
    | nil => simp
    | cons hab _ ih => cases fp with
      | nil => simp
      | cons f fs => exact .cons ⟨hab, rfl⟩ ih
  have a1 := ascending_zip hx hf
  have a2 := ascending_zip hx' hf
  unfold interp
  rw [if_neg (by simp [hl]), if_neg (by simp [hl'])]
  cases h1 : xp.zip fp with
  | nil =>
    have := congrArg List.length h1
    simp [hl] at this
    exact absurd this h0
  | cons p ps => cases h2 : xp'.zip fp with
    | nil => rw [h1, h2] at hz; simp at hz
    | cons p' ps' =>
      rw [h1] at a1
      rw [h2] at a2
      rw [h1, h2] at hz
      refine ⟨_, _, rfl, rfl, ?_⟩
      have hp := (List.forall₂_cons.mp hz).1
      by_cases c1 : x < p.1
      · rw [if_pos c1]
        by_cases c2 : y < p'.1
        · rw [if_pos c2, hp.2]
        · rw [if_neg c2, ← hp.2]
          exact (interpFrom_bounds a2 (not_lt.mp c2)).1
      · have c2 : ¬ y < p'.1 := by
          have := not_lt.mp c1
          linarith [hp.1]
        rw [if_neg c1, if_neg c2]
        exact interpFrom_shift hxy hz a1 a2 (not_lt.mp c1)

theorem sortBy_map {α β : Type} (f : α → β) (key : β → ℝ) (rows : List α) :
    sortBy A key (rows.map f) = (sortBy A (fun a => key (f a)) rows).map f := by
  unfold sortBy
  rw [gather_map, List.map_map]
  rfl

/-- C83.  If weights change by at most a factor exp(`ε`), a quantile is at most the quantile at a probability larger by
tanh(ε / 2). -/
theorem C83_quantile_weights {ε : ℝ} (hε : 0 ≤ ε) {values ws ws' : List ℝ} (hf : WithinFactor (Real.exp ε) ws ws')
    (h0 : values ≠ []) (hl : values.length = ws.length) {prob prob' : ℝ} (hp : 0 < prob ∧ prob < 1)
    (hp' : 0 < prob' ∧ prob' < 1) (hpp : prob + shift ε ≤ prob') :
    ∃ q q', weightedQuantile A prob values ws = .ok q ∧ weightedQuantile A prob' values ws' = .ok q' ∧ q ≤ q' := by
  have hl' := hl.trans hf.length
  have hpos : ∀ v ∈ ws, 0 < v := fun v hv => by
    obtain ⟨b, -, hb⟩ := forall₂_mem_left hf hv; exact hb.1
  have hpos' : ∀ v ∈ ws', 0 < v := fun v hv => by
    obtain ⟨b, -, hb⟩ := forall₂_mem_left hf.symm hv; exact hb.1
  have hn : ws ≠ [] := by intro e; rw [e] at hl; exact h0 (List.length_eq_zero_iff.mp hl)
  have hn' : ws' ≠ [] := by intro e; rw [e] at hl'; exact h0 (List.length_eq_zero_iff.mp hl')
  have hs := sum_pos_of hn hpos
  have hs' := sum_pos_of hn' hpos'
  rw [weightedQuantile_eq A hp hl hs.ne', weightedQuantile_eq A hp' hl' hs'.ne']
  set T := values.zip (ws.zip ws') with hT
  have hww := hf.length
  have m1 : values.zip ws = T.map (fun t => (t.1, t.2.1)) := by
    apply List.ext_getElem
    · simp [hT, hl, hww]
    · intro i _ _; simp [hT]
  have m2 : values.zip ws' = T.map (fun t => (t.1, t.2.2)) := by
    apply List.ext_getElem
    · simp [hT, hl, hww]
    · intro i _ _; simp [hT]
  rw [m1, m2, sortBy_map, sortBy_map]
  simp only [List.map_map]
  set S := sortBy A (fun t : ℝ × ℝ × ℝ => t.1) T with hS
  have hperm : S.Perm T := sortBy_perm A _ T
  have w1 : (S.map ((fun t : ℝ × ℝ => t.2) ∘ fun t : ℝ × ℝ × ℝ => (t.1, t.2.1))).Perm ws := by
    refine (hperm.map _).trans (List.Perm.of_eq ?_)
    apply List.ext_getElem
    · simp [hT, hl, hww]
    · intro i _ _; simp [hT]
  have w2 : (S.map ((fun t : ℝ × ℝ => t.2) ∘ fun t : ℝ × ℝ × ℝ => (t.1, t.2.2))).Perm ws' := by
    refine (hperm.map _).trans (List.Perm.of_eq ?_)
    apply List.ext_getElem
    · simp [hT, hl, hww]
    · intro i _ _; simp [hT]
  have hfS : WithinFactor (Real.exp ε) (S.map ((fun t : ℝ × ℝ => t.2) ∘ fun t : ℝ × ℝ × ℝ => (t.1, t.2.1)))
      (S.map ((fun t : ℝ × ℝ => t.2) ∘ fun t : ℝ × ℝ × ℝ => (t.1, t.2.2))) := by
    unfold WithinFactor
    rw [List.forall₂_map_left_iff, List.forall₂_map_right_iff, List.forall₂_same]
    intro t ht
    have htT := hperm.mem_iff.mp ht
    have : t.2 ∈ ws.zip ws' := (List.of_mem_zip (a := t.1) (b := t.2) htT).2
    exact List.forall₂_zip hf this
  have hm := mids_shift (Real.one_le_exp hε) hfS (acc := 0) (acc' := 0) le_rfl le_rfl (by simp)
  rw [zero_add, zero_add, w1.sum_eq, w2.sum_eq] at hm
  have hasc : (S.map ((fun t : ℝ × ℝ => t.1) ∘ fun t : ℝ × ℝ × ℝ => (t.1, t.2.1))).Pairwise (· ≤ ·) :=
    List.pairwise_map.mpr (sortBy_sorted A _ T)
  have hfp : S.map ((fun t : ℝ × ℝ => t.1) ∘ fun t : ℝ × ℝ × ℝ => (t.1, t.2.2)) =
      S.map ((fun t : ℝ × ℝ => t.1) ∘ fun t : ℝ × ℝ × ℝ => (t.1, t.2.1)) := rfl
  rw [hfp]
  refine interp_shift hpp hm (by simp [length_mids]) ?_ (mids_pairwise hs 0 fun v hv => (hpos v (w1.mem_iff.mp hv)).le)
    (mids_pairwise hs' 0 fun v hv => (hpos' v (w2.mem_iff.mp hv)).le) hasc
  intro e
  have := congrArg List.length e
  rw [List.length_map, hperm.length_eq] at this
  simp [hT, ← hl, ← hl', h0] at this

theorem interpFrom_close {η x : ℝ} {p p' : ℝ × ℝ} {ps ps' : List (ℝ × ℝ)}
    (h : List.Forall₂ (fun a b : ℝ × ℝ => b.1 = a.1 ∧ |a.2 - b.2| ≤ η) (p :: ps) (p' :: ps')) (hx : p.1 ≤ x) :
    |interpFrom x p ps - interpFrom x p' ps'| ≤ η := by
  induction ps generalizing p p' ps' with
  | nil =>
    rw [List.forall₂_cons] at h
    cases h.2
    simpa [interpFrom] using h.1.2
  | cons q qs ih =>
    rw [List.forall₂_cons] at h
    obtain ⟨hp, hq⟩ := h
    cases ps' with
    | nil => simp at hq
    | cons q' qs' =>
      have hqq := (List.forall₂_cons.mp hq).1
      rw [interpFrom, interpFrom, hqq.1, hp.1]
      by_cases h1 : x < q.1
      · rw [if_pos h1, if_pos h1]
        by_cases h2 : x = p.1
        · rw [if_pos h2, if_pos h2]; exact hp.2
        · rw [if_neg h2, if_neg h2]
          have hD : 0 < q.1 - p.1 := by linarith
          have t0 : 0 ≤ (x - p.1) / (q.1 - p.1) := div_nonneg (by linarith) hD.le
          have t1 : (x - p.1) / (q.1 - p.1) ≤ 1 := by rw [div_le_one hD]; linarith
          have e : (q.2 - p.2) / (q.1 - p.1) * (x - p.1) + p.2 - ((q'.2 - p'.2) / (q.1 - p.1) * (x - p.1) + p'.2) =
              (1 - (x - p.1) / (q.1 - p.1)) * (p.2 - p'.2) + (x - p.1) / (q.1 - p.1) * (q.2 - q'.2) := by ring
          rw [e]
          generalize (x - p.1) / (q.1 - p.1) = t at t0 t1
          have a1 := abs_le.mp hp.2
          have a2 := abs_le.mp hqq.2
          rw [abs_le]
          constructor <;> nlinarith
      · rw [if_neg h1, if_neg h1]
        exact ih hq (not_lt.mp h1)

theorem interp_close {η x : ℝ} {xp fp fp' : List ℝ} (h : Within η fp fp') (hl : xp.length = fp.length) (h0 : fp ≠ []) :
    ∃ a b, interp x xp fp = .ok a ∧ interp x xp fp' = .ok b ∧ |a - b| ≤ η := by
  have hl' : xp.length = fp'.length := hl.trans h.length_eq
  have hz : List.Forall₂ (fun a b : ℝ × ℝ => b.1 = a.1 ∧ |a.2 - b.2| ≤ η) (xp.zip fp) (xp.zip fp') := by
    clear hl hl' h0
    induction h generalizing xp with
    | nil => simp
    | cons hab _ ih => cases xp with
      | nil => simp
      | cons f fs => exact .cons ⟨rfl, hab⟩ ih
  unfold interp
  rw [if_neg (by simp [hl]), if_neg (by simp [hl'])]
  cases h1 : xp.zip fp with
  | nil =>
    have := congrArg List.length h1
    simp [hl] at this
    exact absurd this h0
  | cons p ps => cases h2 : xp.zip fp' with
    | nil => rw [h1, h2] at hz; simp at hz
    | cons p' ps' =>
      rw [h1, h2] at hz
      refine ⟨_, _, rfl, rfl, ?_⟩
      have hp := (List.forall₂_cons.mp hz).1
      rw [hp.1]
      by_cases c1 : x < p.1
      · rw [if_pos c1, if_pos c1]; exact hp.2
      · rw [if_neg c1, if_neg c1]
        exact interpFrom_close hz (not_lt.mp c1)

/-- C83.  If values change by at most `η` and remain in the same order, so does every quantile. -/
theorem C83_quantile_values {η : ℝ} {values values' ws : List ℝ} (hv : Within η values values') (hd : values.Nodup)
    (ho : ∀ p ∈ values.zip values', ∀ q ∈ values.zip values', p.1 < q.1 → p.2 < q.2)
    (hw : ∀ v ∈ ws, 0 < v) (h0 : values ≠ []) (hl : values.length = ws.length) {prob : ℝ} (hp : 0 < prob ∧ prob < 1) :
    ∃ q q', weightedQuantile A prob values ws = .ok q ∧ weightedQuantile A prob values' ws = .ok q' ∧ |q - q'| ≤ η := by
  have hvv := hv.length_eq
  have hl' : values'.length = ws.length := by rw [← hvv, hl]
  have hn : ws ≠ [] := by intro e; rw [e] at hl; exact h0 (List.length_eq_zero_iff.mp hl)
  have hs := sum_pos_of hn hw
  rw [weightedQuantile_eq A hp hl hs.ne', weightedQuantile_eq A hp hl' hs.ne']
  set T := (values.zip values').zip ws with hT
  have m1 : values.zip ws = T.map (fun t => (t.1.1, t.2)) := by
    apply List.ext_getElem
    · simp [hT, hl, hl']
    · intro i _ _; simp [hT]
  have m2 : values'.zip ws = T.map (fun t => (t.1.2, t.2)) := by
    apply List.ext_getElem
    · simp [hT, hl, hl']
    · intro i _ _; simp [hT]
  rw [m1, m2, sortBy_map, sortBy_map]
  simp only [List.map_map]
  have k1 : T.map (fun t => t.1.1) = values := by
    apply List.ext_getElem
    · simp [hT, hl, hl']
    · intro i _ _; simp [hT]
  have hT1 : ∀ t ∈ T, t.1 ∈ values.zip values' := fun t ht => (List.of_mem_zip (a := t.1) (b := t.2) ht).1
  have p1 := sortBy_perm A (fun t : (ℝ × ℝ) × ℝ => t.1.1) T
  have p2 := sortBy_perm A (fun t : (ℝ × ℝ) × ℝ => t.1.2) T
  have st := sortBy_strict (A := A) (key := fun t : (ℝ × ℝ) × ℝ => t.1.1) (rows := T) (by rw [k1]; exact hd)
  have heq : sortBy A (fun t : (ℝ × ℝ) × ℝ => t.1.2) T = sortBy A (fun t : (ℝ × ℝ) × ℝ => t.1.1) T := by
    have st' : (sortBy A (fun t : (ℝ × ℝ) × ℝ => t.1.1) T).Pairwise (fun a b => a.1.2 < b.1.2) :=
      st.imp_of_mem fun {a b} ha hb hab => ho _ (hT1 a (p1.mem_iff.mp ha)) _ (hT1 b (p1.mem_iff.mp hb)) hab
    have nd : (T.map (fun t => t.1.2)).Nodup := by
      rw [← (p1.map _).nodup_iff, List.nodup_iff_pairwise_ne, List.pairwise_map]
      exact st'.imp fun h => h.ne
    have st2 := sortBy_strict (A := A) (key := fun t : (ℝ × ℝ) × ℝ => t.1.2) (rows := T) nd
    exact (p2.trans p1.symm).eq_of_pairwise (le := fun a b => a.1.2 < b.1.2)
      (fun a b _ _ h1 h2 => absurd h2 (not_lt.mpr h1.le)) st2 st'
  rw [heq]
  have hne : sortBy A (fun t : (ℝ × ℝ) × ℝ => t.1.1) T ≠ [] := by
    intro e
    have := congrArg List.length e
    rw [p1.length_eq] at this
    simp [hT, ← hl, ← hvv, h0] at this
  refine interp_close ?_ (by simp [length_mids]) (by simpa using hne)
  unfold Within
  rw [List.forall₂_map_left_iff, List.forall₂_map_right_iff, List.forall₂_same]
  intro t ht
  exact List.forall₂_zip hv (hT1 t (p1.mem_iff.mp ht))

/-- C83 for `param_cred`.  The second quantile is taken at a probability larger by tanh(ε / 2); exchanging the runs bounds the
quantile from the other side. -/
theorem C83_param_cred {ε η : ℝ} {r r' : Run ℝ} {logw logw' : Option (List ℝ)} (hc : CloseRuns ε r r' logw logw')
    {sim : Bool} {w : World σ} (h : Usable r logw sim (R.uniform r.nlive.length w.rng).1) {ind : Nat} {xs xs' : List ℝ}
    (hx : r.theta.map (·[ind]?) = xs.map some) (hx' : r'.theta.map (·[ind]?) = xs'.map some) (hxx : Within η xs xs')
    (hd : xs.Nodup) (ho : ∀ p ∈ xs.zip xs', ∀ q ∈ xs.zip xs', p.1 < q.1 → p.2 < q.2)
    {prob prob' : ℝ} (hp : 0 < prob ∧ prob < 1) (hp' : 0 < prob' ∧ prob' < 1) (hpp : prob + shift ε ≤ prob') :
    ∃ q q' w', paramCred A R r logw sim prob ind w = (.ok q, w') ∧
      paramCred A R r' logw' sim prob' ind w = (.ok q', w') ∧ q ≤ q' + η := by
  have h' : Usable r' logw' sim (R.uniform r'.nlive.length w.rng).1 := by
    rw [hc.nlive]; exact closeRuns_usable hc h
  obtain ⟨s1, s2, s3⟩ := sampleWeights_spec h
  obtain ⟨s1', s2', s3'⟩ := sampleWeights_spec h'
  have hxl : xs.length = r.theta.length := by
    have := congrArg List.length hx; simpa using this.symm
  have hl : xs.length = (sampleWeights r logw sim (R.uniform r.nlive.length w.rng).1).length := by rw [hxl, s2, h.1]
  have hf := closeRuns_weights R hc h
  have h0 : xs ≠ [] := by
    intro e; rw [e] at hl; exact s1 (List.length_eq_zero_iff.mp hl.symm)
  obtain ⟨q, q1, e1, e2, l1⟩ := C83_quantile_weights A (hc.eps_nonneg h.2.1) hf h0 hl hp hp' hpp
  obtain ⟨q2, q', e3, e4, l2⟩ := C83_quantile_values A hxx hd ho s3' h0 (hl.trans hf.length) hp'
  rw [e2] at e3
  obtain rfl := Except.ok.inj e3
  refine ⟨q, q', afterWeights R r logw sim w, by rw [C31_param_cred A R h hx, e1],
    by rw [C31_param_cred A R h' hx', e4, closeRuns_after R hc], ?_⟩
  linarith [(abs_le.mp l2).2]

/-- C83 for `r_cred`. -/
theorem C83_r_cred {ε η : ℝ} {r r' : Run ℝ} {logw logw' : Option (List ℝ)} (hc : CloseRuns ε r r' logw logw')
    {sim : Bool} {w : World σ} (h : Usable r logw sim (R.uniform r.nlive.length w.rng).1)
    (hxx : Within η (r.theta.map radius) (r'.theta.map radius)) (hd : (r.theta.map radius).Nodup)
    (ho : ∀ p ∈ r.theta.zip r'.theta, ∀ q ∈ r.theta.zip r'.theta, radius p.1 < radius q.1 → radius p.2 < radius q.2)
    {prob prob' : ℝ} (hp : 0 < prob ∧ prob < 1) (hp' : 0 < prob' ∧ prob' < 1) (hpp : prob + shift ε ≤ prob') :
    ∃ q q' w', rCred A R r logw sim prob w = (.ok q, w') ∧
      rCred A R r' logw' sim prob' w = (.ok q', w') ∧ q ≤ q' + η := by
  have h' : Usable r' logw' sim (R.uniform r'.nlive.length w.rng).1 := by
    rw [hc.nlive]; exact closeRuns_usable hc h
  obtain ⟨s1, s2, s3⟩ := sampleWeights_spec h
  obtain ⟨s1', s2', s3'⟩ := sampleWeights_spec h'
  have hl : (r.theta.map radius).length = (sampleWeights r logw sim (R.uniform r.nlive.length w.rng).1).length := by
    rw [List.length_map, s2, h.1]
  have hf := closeRuns_weights R hc h
  have h0 : r.theta.map radius ≠ [] := by
    intro e; rw [e] at hl; exact s1 (List.length_eq_zero_iff.mp hl.symm)
  obtain ⟨q, q1, e1, e2, l1⟩ := C83_quantile_weights A (hc.eps_nonneg h.2.1) hf h0 hl hp hp' hpp
  obtain ⟨q2, q', e3, e4, l2⟩ := C83_quantile_values A hxx hd (by
    intro p hp q hq hpq
    rw [List.zip_map, List.mem_map] at hp hq
    obtain ⟨a, ha, rfl⟩ := hp
    obtain ⟨b, hb, rfl⟩ := hq
    exact ho a ha b hb hpq) s3' h0 (hl.trans hf.length) hp'
  rw [e2] at e3
  obtain rfl := Except.ok.inj e3
  refine ⟨q, q', afterWeights R r logw sim w, by rw [(C32_r_cred A R h prob).1, e1],
    by rw [(C32_r_cred A R h' prob').1, e4, closeRuns_after R hc], ?_⟩
  linarith [(abs_le.mp l2).2]

/-- C83, the limit of the claim: however little two values change, if they change places a quantile may jump.  Here the values
1 and 1 + h of a sample of weight 1 and one of weight 9 are exchanged, and the quantile drops from 1 to 1/5. -/
theorem C83_jump {h : ℝ} (h0 : 0 < h) (h1 : h < 1) :
    Within h [0, 1, 1 + h, 2] [0, 1 + h, 1, 2] ∧
    weightedQuantile A (1 / 8) [0, 1, 1 + h, 2] [1, 1, 9, 1] = .ok 1 ∧
    weightedQuantile A (1 / 8) [0, 1 + h, 1, 2] [1, 1, 9, 1] = .ok (1 / 5) := by
  have a1 : ¬ (1 + h ≤ 1) := by linarith
  have a2 : ¬ (1 + h < 1) := by linarith
  have a3 : ¬ (1 + h < 0) := by linarith
  have a4 : (1 : ℝ) + h ≠ 0 := by linarith
  have a5 : ¬ ((2 : ℝ) < 1 + h) := by linarith
  have a6 : (1 : ℝ) + h ≠ 2 := by intro e; linarith
  refine ⟨?_, ?_, ?_⟩
  · unfold Within
    simp [abs_of_pos h0, h0.le]
  · have e := (C31_exact A (values := [0, 1, 1 + h, 2]) (weights := [1, 1, 9, 1]) rfl
      (by simp [h0.ne', a4.symm, a6]) (by simp) (prob := 1 / 8) (by norm_num) (by norm_num)).2.2 (0, 1) (by simp) (1, 1)
      (by simp) (by norm_num) (by simp [h0.le]) (by simp [position, a3]; norm_num) (by simp [position, a2]; norm_num)
    rw [e]
    simp [position, a2, a3]
    norm_num
  · have e := (C31_exact A (values := [0, 1 + h, 1, 2]) (weights := [1, 1, 9, 1]) rfl
      (by simp [h0.ne', a4.symm, a6]) (by simp) (prob := 1 / 8) (by norm_num) (by norm_num)).2.2 (0, 1) (by simp) (1, 9)
      (by simp) (by norm_num) (by simp [h0.le]) (by simp [position, a3]; norm_num) (by simp [position, a2]; norm_num)
    rw [e]
    simp [position, a2, a3]
    norm_num

/-- C83 for files: if numbers are rounded by at most `ε` (loglikelihoods) and `η` (parameters) when a run is written, and
rounding keeps loglikelihoods in order, the run which is read back has `logz` within `ε` and `param_mean` within the bound of
`C83_param_mean` of the originals. -/
theorem C83_written {F : Type} {rd : ℝ → ℝ} (fl : Option ℝ → F) (CF : Codec F) (CI : Codec Int)
    {run : Run ℝ} {labels : List Int} {tmm : List (WithBot ℝ × ℝ)} (h : Writable run labels tmm)
    (h2 : 2 ≤ run.logl.length) (hdim : SameDim run.theta) (opts : WriteOpts)
    (hd : opts.writeDead = true) (hi : ∀ l ∈ run.logl, opts.loglInit < l)
    (hf : KeepsOrder rd (opts.loglInit :: run.logl))
    (hlive : ∀ (i : Nat) (l : ℝ), run.logl[i]? = some l → run.nlive[i]? =
      some (tmm.countP (fun p => decide (p.1 < (l : WithBot ℝ) ∧ l ≤ p.2)) : Int))
    {w : World (Written σ F)} {root dir : String}
    (hroot : w.rng.output.fileRoot = some root) (hdir : w.rng.output.baseDir = some dir) (da dw : Bool)
    {ε η : ℝ} (hε : ∀ l ∈ run.logl, |rd l - l| ≤ ε) (hη : ∀ t ∈ run.theta, ∀ x ∈ t, |rd x - x| ≤ η) :
    ∃ r' : Run ℝ,
      (∀ v : World σ, processPolychord A R CF CI (writeRun A R rd fl CF CI run none opts w).2.rng.tables
        (writeRun A R rd fl CF CI run none opts w).2.rng.texts root dir false da dw v =
        (.ok (r', .source ⟨root, dir⟩), v)) ∧
      ∀ (sim : Bool) (v : World σ), Usable run none sim (R.uniform run.nlive.length v.rng).1 →
        (∃ z z' v', logz R run none sim v = (.ok z, v') ∧ logz R r' none sim v = (.ok z', v') ∧ |z' - z| ≤ ε) ∧
        ∀ (ind : Nat) (xs : List ℝ) (lo hi : ℝ), run.theta.map (·[ind]?) = xs.map some →
          (∀ x ∈ xs, lo ≤ x ∧ x ≤ hi) → ∀ handle : Bool, ∃ m m' v',
          paramMean R run none sim ind handle v = (.ok (some m), v') ∧
          paramMean R r' none sim ind handle v = (.ok (some m'), v') ∧ |m' - m| ≤ (hi - lo) * shift ε + η := by
  obtain ⟨r', -, e1, e2, e3, e4⟩ := C71_nlive A R fl CF CI h h2 hdim opts hd hi hf hlive hroot hdir da dw
  have hc : CloseRuns ε run r' none none := by
    refine ⟨e3, ?_, by rw [e2, List.length_map], Or.inl ⟨rfl, rfl⟩⟩
    rw [e1]
    unfold Within
    rw [List.forall₂_map_right_iff, List.forall₂_same]
    intro l hl
    rw [abs_sub_comm]
    exact hε l hl
  refine ⟨r', e4, fun sim v hu => ⟨?_, ?_⟩⟩
  · obtain ⟨z, z', v', a1, a2, -, -, a3⟩ := C83_logz R hc hu
    exact ⟨z, z', v', a1, a2, a3⟩
  · intro ind xs lo hi hx hb handle
    refine C83_param_mean R hc hu hx (xs' := xs.map rd) ?_ ?_ hb handle
    · have := congrArg (List.map (Option.map rd)) hx
      rw [e2, List.map_map]
      simp only [List.map_map] at this ⊢
      convert this using 2
      · funext t
        simp
      · rfl
    · unfold Within
      rw [List.forall₂_map_right_iff, List.forall₂_same]
      intro x hxm
      have : some x ∈ run.theta.map (·[ind]?) := by rw [hx]; exact List.mem_map.mpr ⟨x, hxm, rfl⟩
      obtain ⟨t, ht, hxt⟩ := List.mem_map.mp this
      rw [abs_sub_comm]
      exact hη t ht x (List.mem_of_getElem? hxt)

section examples

/-- The example run with loglikelihoods moved by up to 1/10 and parameters by up to 1/100. -/
def exMoved : Run ℝ := { exReal with logl := exReal.logl.map (· + 1 / 10), theta := exReal.theta.map (·.map (· - 1 / 100)) }

theorem exMoved_close : CloseRuns (1 / 10) exReal exMoved none none := by
  refine ⟨rfl, ?_, by simp [exMoved], Or.inl ⟨rfl, rfl⟩⟩
  unfold Within exMoved
  rw [List.forall₂_map_right_iff, List.forall₂_same]
  intro l _
  rw [abs_le]
  constructor <;> linarith

example (w : World σ) : ∃ z z' w', logz R exReal none false w = (.ok z, w') ∧ logz R exMoved none false w = (.ok z', w') ∧
    |z' - z| ≤ 1 / 10 := by
  obtain ⟨z, z', w', h1, h2, -, -, h3⟩ := C83_logz R exMoved_close (exReal_usable _) (w := w)
  exact ⟨z, z', w', h1, h2, h3⟩

/-- The first parameter 1, 2, 4 of the example run. -/
example (w : World σ) : ∃ m m' w', paramMean R exReal none false 0 false w = (.ok (some m), w') ∧
    paramMean R exMoved none false 0 false w = (.ok (some m'), w') ∧ |m' - m| ≤ 4 / 25 := by
  obtain ⟨m, m', w', h1, h2, h3⟩ := C83_param_mean R exMoved_close (exReal_usable _) (w := w) (ind := 0) (η := 1 / 100)
    (xs := [1, 2, 4]) (xs' := [1 - 1 / 100, 2 - 1 / 100, 4 - 1 / 100]) (by simp [exReal]) (by simp [exMoved, exReal])
    (by unfold Within; norm_num) (lo := 1) (hi := 4) (by norm_num) false
  have := (C83_shift (ε := 1 / 10) (by norm_num)).2.2
  exact ⟨m, m', w', h1, h2, by linarith⟩

/-- Its median is at most the 11/20 quantile of the moved run, plus 1/100. -/
example (w : World σ) : ∃ q q' w', paramCred A R exReal none false (1 / 2) 0 w = (.ok q, w') ∧
    paramCred A R exMoved none false (11 / 20) 0 w = (.ok q', w') ∧ q ≤ q' + 1 / 100 := by
  have := (C83_shift (ε := 1 / 10) (by norm_num)).2.2
  exact C83_param_cred A R exMoved_close (exReal_usable _) (w := w) (ind := 0) (η := 1 / 100)
    (xs := [1, 2, 4]) (xs' := [1 - 1 / 100, 2 - 1 / 100, 4 - 1 / 100]) (by simp [exReal]) (by simp [exMoved, exReal])
    (by unfold Within; norm_num) (by norm_num) (by norm_num) (by norm_num) (by norm_num) (by linarith)

/-- Writing a run with two samples, every number larger by 1/100. -/
example (w : World (Written Nat Int)) (hk : StatsKeys w.rng.output "run" "chains") (v : World Nat) :
    ∃ (r' : Run ℝ) (z z' : ℝ) (v' : World Nat),
      processPolychord A halfRng intCodec intCodec
        (writeRun A halfRng (· + 1 / 100) tenths intCodec intCodec exTwoSamples none {} w).2.rng.tables
        (writeRun A halfRng (· + 1 / 100) tenths intCodec intCodec exTwoSamples none {} w).2.rng.texts "run" "chains" false
        false false v = (.ok (r', .source ⟨"run", "chains"⟩), v) ∧
      logz halfRng exTwoSamples none false v = (.ok z, v') ∧ logz halfRng r' none false v = (.ok z', v') ∧
      |z' - z| ≤ 1 / 100 := by
  have h : Recombinable exTwoSamples _ _ := singleRun_recombinable (logl := [1, 2]) (theta := [[3], [5]]) (last := 2)
    (by norm_num) rfl rfl (by simp [SameDim])
  obtain ⟨r', h1, h2⟩ := C83_written A halfRng (rd := (· + 1 / 100)) tenths intCodec intCodec
    (run := exTwoSamples) ⟨h.toValidWith, h.distinct, h.born, by simp⟩ (by simp [exTwoSamples, singleRun]) h.dim {} rfl
    (by intro l hl; simp [exTwoSamples, singleRun] at hl; rcases hl with rfl | rfl <;> norm_num)
    (fun x _ y _ h => by simpa using h) (by
      intro i l hl
      rcases i with _ | _ | i
      · simp only [exTwoSamples, singleRun, List.getElem?_cons_zero, Option.some.injEq] at hl ⊢
        subst hl; simp
      · simp only [exTwoSamples, singleRun, List.getElem?_cons_zero, List.getElem?_cons_succ, Option.some.injEq] at hl ⊢
        subst hl; simp
      · simp [exTwoSamples, singleRun] at hl) hk.1 hk.2.1 false false (ε := 1 / 100) (η := 1 / 100)
    (by intro l _; simp) (by intro t _ x _; simp)
  obtain ⟨⟨z, z', v', h3, h4, h5⟩, -⟩ := h2 false v ⟨by simp [exTwoSamples, singleRun], by simp [exTwoSamples, singleRun],
    ⟨by simp [exTwoSamples, singleRun], by simp [exTwoSamples, singleRun], by simp [exTwoSamples, singleRun]⟩, by simp⟩
  exact ⟨r', z, z', v', h1 v, h3, h4, h5⟩

end examples

end
end Nestcheck
