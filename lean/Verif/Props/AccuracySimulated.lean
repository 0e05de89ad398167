import Verif.Proofs.AccuracySimulated
import Verif.Props.AccuracyMoments

/-
C112: accuracy of the estimates with simulated prior volumes in floating point arithmetic.
-/

namespace Nestcheck
open Spec
noncomputable section
variable {σ : Type} (R : Rng σ ℝ) {F : FloatArith} {u η : ℝ} {r : Run ℝ} {us : List ℝ} {M Λ : ℝ} {L : ℕ}

/-- What is needed to add up the weights of `N` samples, if log weights are at most `S` in size: `h` bounds the number of
additions on any path. -/
structure Spec.SumsFitWithin (F : FloatArith) (u η : ℝ) (N : ℕ) (S : ℝ) (h : ℕ) : Prop where
  depth : (F.tree N).depth ≤ h
  precise : weightError u η h N (2 * S) ≤ 1 / 2

/-- Log weights `lw` and their approximations `lw'`. -/
structure CloseWeights (N : ℕ) (ε S : ℝ) (lw lw' : List ℝ) : Prop where
  pos : 1 ≤ N
  error_nonneg : 0 ≤ ε
  length : lw.length = N
  size : ∀ x ∈ lw', |x| ≤ S
  close : Within ε lw' lw

section
variable {N : ℕ} {ε S : ℝ} {lw lw' : List ℝ}

theorem CloseWeights.length' (c : CloseWeights N ε S lw lw') : lw'.length = N := c.close.length_eq.trans c.length

theorem CloseWeights.ne (c : CloseWeights N ε S lw lw') : lw ≠ [] := by
  have := c.pos
  have := c.length
  intro e
  rw [e] at this
  simp at this
  omega

theorem CloseWeights.ne' (c : CloseWeights N ε S lw lw') : lw' ≠ [] := by
  have := c.pos
  have := c.length'
  intro e
  rw [e] at this
  simp at this
  omega

theorem CloseWeights.max (c : CloseWeights N ε S lw lw') : ∃ m, amax lw' = some m ∧ |m| ≤ S ∧ ∀ x ∈ lw', m - x ≤ 2 * S := by
  obtain ⟨m, hmx⟩ := exists_amax c.ne'
  have hmem := (amax_eq_some.mp hmx).1
  refine ⟨m, hmx, c.size m hmem, fun x hx => ?_⟩
  have b1 := abs_le.mp (c.size x hx)
  have b2 := abs_le.mp (c.size m hmem)
  linarith

theorem CloseWeights.logsumexp (c : CloseWeights N ε S lw lw') (H : Accurate F u η) {h : ℕ} (hs : SumsFitWithin F u η N S h)
    (hF : 3 * S + 4 * N ≤ F.maxFinite) :
    ∃ z' : ℝ, flLogsumexp F (coes lw') = .ok (z' : EReal) ∧ |z' - Real.log (lw.map Real.exp).sum| ≤
      ε + (2 * weightError u η h N (2 * S) + (u * (3 * Real.log (2 * N) + 1 + S) + 2 * η)) := by
  obtain ⟨m, hmx, hm, hD⟩ := c.max
  have hl' := c.length'
  obtain ⟨z', hz', hze⟩ := H.logsumexp (D := 2 * S) (Λ := S) (h := h) hmx hD (by rw [hl']; exact hs.depth)
    (by rw [hl']; exact hs.precise) hm (by rw [hl']; linarith)
  rw [log_totalWeight c.ne', hl'] at hze
  refine ⟨z', hz', ?_⟩
  have := log_sum_exp_close c.close c.ne'
  rw [show z' - Real.log (lw.map Real.exp).sum = (z' - Real.log (lw'.map Real.exp).sum) +
    (Real.log (lw'.map Real.exp).sum - Real.log (lw.map Real.exp).sum) by ring]
  refine (abs_add_le _ _).trans ?_
  linarith

theorem CloseWeights.mean (c : CloseWeights N ε S lw lw') (H : Accurate F u η) {h : ℕ} (hs : SumsFitWithin F u η N S h)
    {xs ys : List ℝ} (hx : xs.length = N) {lo hi T κ : ℝ} (hb : ∀ x ∈ xs, lo ≤ x ∧ x ≤ hi) (hT : ∀ y ∈ ys, |y| ≤ T)
    (hxy : Within κ ys xs) (hF : 2 * S + 8 * (T + 1) * N ≤ F.maxFinite) :
    ∃ ws : List EReal, ∃ p' : ℝ, flRelWeights F (coes lw') = .ok ws ∧ flWeightedMean F ws (coes ys) = .ok (p' : EReal) ∧
      |p' - Spec.mean (lw.map Real.exp) xs| ≤ (hi - lo) * shift ε + κ + 3 * (2 * T + 1) * weightError u η h N (2 * S) := by
  obtain ⟨m, hmx, -, hD⟩ := c.max
  have hl' := c.length'
  have hyl : ys.length = N := (List.Forall₂.length_eq hxy).trans hx
  obtain ⟨p', hp', hpe⟩ := H.weightedMean (D := 2 * S) (h := h) hmx hD (by rw [hl']; exact hs.depth)
    (by rw [hl']; exact hs.precise) hT (by rw [hl', hyl]) (by rw [hl']; exact hF)
  rw [mean_exp_sub, hl'] at hpe
  obtain ⟨ws, q1, q2⟩ : ∃ ws, flRelWeights F (coes lw') = .ok ws ∧ flWeightedMean F ws (coes ys) = .ok (p' : EReal) := by
    cases hw : flRelWeights F (coes lw') with
    | error e => rw [hw] at hp'; exact absurd hp' (by rintro ⟨⟩)
    | ok ws => rw [hw, Py.ok_bind] at hp'; exact ⟨ws, rfl, hp'⟩
  refine ⟨ws, p', q1, q2, ?_⟩
  have hf := within_factor_exp c.close
  have hmb := mean_both c.error_nonneg hf.symm (xs := xs) (xs' := ys) (η := κ) (by simpa using c.ne)
    (by simp [c.length, hx]) (lo := lo) (hi := hi) hb (by
      unfold Within at hxy ⊢
      refine (List.Forall₂.flip hxy).imp ?_
      intro a b hab
      rwa [abs_sub_comm])
  rw [show p' - Spec.mean (lw.map Real.exp) xs = (p' - Spec.mean (lw'.map Real.exp) ys) +
    (Spec.mean (lw'.map Real.exp) ys - Spec.mean (lw.map Real.exp) xs) by ring]
  refine (abs_add_le _ _).trans ?_
  linarith

end

/-- The random numbers drawn in state `w`. -/
abbrev Spec.uniforms (R : Rng σ ℝ) (r : Run ℝ) (w : World σ) : List ℝ := (R.uniform r.nlive.length w.rng).1

/-- The state after drawing them. -/
abbrev Spec.afterDraw (R : Rng σ ℝ) (r : Run ℝ) (w : World σ) : World σ := { w with rng := (R.uniform r.nlive.length w.rng).2 }

variable {w : World σ}

/-- C112.  `get_logw(simulate=True)`: no log weight differs by more than `simulatedLogwError` from that for the same random
numbers in exact arithmetic. -/
theorem C112_logw (H : Accurate F u η) (hm : ModerateDraws F u η r (uniforms R r w) M Λ L) :
    ∃ lw lw' : List ℝ, getLogw R r true w = (.ok lw, afterDraw R r w) ∧
      flLogw F (coes r.logl) r.nlive (some (coes (uniforms R r w))) = .ok (coes lw') ∧
      Within (simulatedLogwError u η M Λ (uniforms R r w) r.nlive) lw' lw := by
  obtain ⟨lw, lw', h1, h2, -, -, h3⟩ := hm.logw R H rfl
  exact ⟨lw, lw', h1, h2, h3⟩

theorem Spec.ModerateDraws.weights (H : Accurate F u η) (hm : ModerateDraws F u η r (uniforms R r w) M Λ L) {h : ℕ}
    (hs : SumsFitWithin F u η r.logl.length (simulatedSize M (uniforms R r w) r.nlive + Λ) h) :
    ∃ lw lw' : List ℝ, getLogw R r true w = (.ok lw, afterDraw R r w) ∧
      flLogw F (coes r.logl) r.nlive (some (coes (uniforms R r w))) = .ok (coes lw') ∧
      CloseWeights r.logl.length (simulatedLogwError u η M Λ (uniforms R r w) r.nlive)
        (simulatedSize M (uniforms R r w) r.nlive + Λ) lw lw' := by
  obtain ⟨lw, lw', h1, h2, h3, h4, h5⟩ := hm.logw R H rfl
  have hN : 1 ≤ r.logl.length := List.length_pos_iff.mpr hm.run.nonempty
  refine ⟨lw, lw', h1, h2, hN, hm.logwError_nonneg H, h4, ?_, h5⟩
  have hX0 := hm.compression_nonneg
  have hsg := hm.size_ge
  have hΛ := hm.Λ_nonneg
  have hu0 := H.u_nonneg
  have hη0 := H.η_nonneg
  have hV0 : 0 ≤ simulatedSize M (uniforms R r w) r.nlive := by linarith
  have hN : (1 : ℝ) ≤ r.logl.length := by exact_mod_cast hN
  have hε : simulatedLogwError u η M Λ (uniforms R r w) r.nlive ≤ 2 := by
    have h1 := hm.precise
    have h2 := hs.precise
    unfold weightError at h2
    unfold simulatedLogwError
    have h3 : 0 ≤ (4 * (h : ℝ) + 5) * u := by positivity
    have h4 : 0 ≤ u * (simulatedSize M (uniforms R r w) r.nlive + Λ) := by positivity
    have h5 : η ≤ r.logl.length * η := le_mul_of_one_le_left hη0 hN
    nlinarith
  intro x hx
  obtain ⟨y, hy, hxy⟩ := forall₂_mem_left h5 hx
  have b1 := abs_le.mp hxy
  have b2 := abs_le.mp (h3 y hy)
  rw [abs_le]
  constructor <;> linarith

/-- A bound on the error of `logz`. -/
def Spec.simulatedLogzError (u η M Λ : ℝ) (us : List ℝ) (h : ℕ) (r : Run ℝ) : ℝ :=
  simulatedLogwError u η M Λ us r.nlive + (2 * weightError u η h r.logl.length (2 * (simulatedSize M us r.nlive + Λ)) +
    (u * (3 * Real.log (2 * r.logl.length) + 1 + (simulatedSize M us r.nlive + Λ)) + 2 * η))

/-- C112.  `logz(simulate=True)`. -/
theorem C112_logz (H : Accurate F u η) (hm : ModerateDraws F u η r (uniforms R r w) M Λ L) {h : ℕ}
    (hs : SumsFitWithin F u η r.logl.length (simulatedSize M (uniforms R r w) r.nlive + Λ) h)
    (hF : 3 * (simulatedSize M (uniforms R r w) r.nlive + Λ) + 4 * r.logl.length ≤ F.maxFinite) :
    ∃ z z' : ℝ, logz R r none true w = (.ok z, afterDraw R r w) ∧
      flLogz F (coes r.logl) r.nlive (some (coes (uniforms R r w))) = .ok (z' : EReal) ∧
      |z' - z| ≤ simulatedLogzError u η M Λ (uniforms R r w) h r := by
  obtain ⟨lw, lw', h1, h2, c⟩ := hm.weights R H hs
  obtain ⟨z', hz', hze⟩ := c.logsumexp H hs hF
  refine ⟨Real.log (lw.map Real.exp).sum, z', ?_, ?_, hze⟩
  · unfold logz logwOr
    rw [Nestcheck.M.bind_ok h1, logsumexp_ok c.ne]
    rfl
  · unfold flLogz
    rw [h2, Py.ok_bind, hz']

/-- C112.  `evidence(simulate=True)`: its relative error is about the absolute error of `logz`. -/
theorem C112_evidence (H : Accurate F u η) (He : AccurateExp F u η) (hm : ModerateDraws F u η r (uniforms R r w) M Λ L) {h : ℕ}
    (hs : SumsFitWithin F u η r.logl.length (simulatedSize M (uniforms R r w) r.nlive + Λ) h)
    (hF : 3 * (simulatedSize M (uniforms R r w) r.nlive + Λ) + 4 * r.logl.length ≤ F.maxFinite) :
    ∃ Z : ℝ, evidence R r none true w = (.ok Z, afterDraw R r w) ∧ 0 < Z ∧
      (Z * Real.exp (simulatedLogzError u η M Λ (uniforms R r w) h r) ≤ F.maxFinite →
      ∃ Z' : ℝ, flEvidence F (coes r.logl) r.nlive (some (coes (uniforms R r w))) = .ok (Z' : EReal) ∧
        |Z' - Z| ≤ Z * ((1 + u) * Real.exp (simulatedLogzError u η M Λ (uniforms R r w) h r) - 1) + η) := by
  have hu := H.u_nonneg
  obtain ⟨z, z', h1, h2, h3⟩ := C112_logz R H hm hs hF
  generalize simulatedLogzError u η M Λ (uniforms R r w) h r = δ at h3
  refine ⟨Real.exp z, ?_, Real.exp_pos _, fun hZ => ?_⟩
  · unfold evidence
    unfold logz at h1
    obtain ⟨lw, w', e1, e2⟩ := Nestcheck.M.bind_eq_ok.mp h1
    rw [Nestcheck.M.bind_ok e1, Nestcheck.M.bind_ok e2]
    rfl
  · rw [← Real.exp_add] at hZ
    obtain ⟨a1, a2⟩ := abs_le.mp h3
    have b1 : Real.exp z' ≤ Real.exp (z + δ) := Real.exp_le_exp.mpr (by linarith)
    obtain ⟨Z', c1, c2⟩ := He z' (b1.trans hZ)
    refine ⟨Z', ?_, ?_⟩
    · unfold flEvidence
      rw [h2, Py.ok_bind, c1]
      rfl
    · have hz := Real.exp_pos z
      have b2 : Real.exp (z - δ) ≤ Real.exp z' := Real.exp_le_exp.mpr (by linarith)
      rw [Real.exp_add] at b1
      have b3 : Real.exp (z - δ) = Real.exp z * Real.exp (-δ) := by rw [← Real.exp_add]; rfl
      have b4 : 2 - Real.exp δ ≤ Real.exp (-δ) := by
        linarith [Real.add_one_le_exp δ, Real.add_one_le_exp (-δ)]
      have b5 : |Real.exp z' - Real.exp z| ≤ Real.exp z * (Real.exp δ - 1) := by
        rw [abs_le]
        constructor <;> nlinarith
      calc |Z' - Real.exp z| = |(Z' - Real.exp z') + (Real.exp z' - Real.exp z)| := by congr 1; ring
        _ ≤ |Z' - Real.exp z'| + |Real.exp z' - Real.exp z| := abs_add_le _ _
        _ ≤ (u * (Real.exp z * Real.exp δ) + η) + Real.exp z * (Real.exp δ - 1) := add_le_add (c2.trans (by
            have := mul_le_mul_of_nonneg_left b1 hu
            linarith)) b5
        _ = _ := by ring

/-- C112.  `param_mean(simulate=True)`, for a parameter of size at most `T`. -/
theorem C112_param_mean (H : Accurate F u η) (hm : ModerateDraws F u η r (uniforms R r w) M Λ L) {h : ℕ}
    (hs : SumsFitWithin F u η r.logl.length (simulatedSize M (uniforms R r w) r.nlive + Λ) h)
    (ht : r.theta.length = r.logl.length) {ind : Nat} {xs : List ℝ} (hx : r.theta.map (·[ind]?) = xs.map some) {T : ℝ}
    (hT : ∀ x ∈ xs, |x| ≤ T)
    (hF : 2 * (simulatedSize M (uniforms R r w) r.nlive + Λ) + 8 * (T + 1) * r.logl.length ≤ F.maxFinite) (handle : Bool) :
    ∃ p p' : ℝ, paramMean R r none true ind handle w = (.ok (some p), afterDraw R r w) ∧
      flParamMean F (coes r.logl) r.nlive (some (coes (uniforms R r w))) (coes xs) = .ok (p' : EReal) ∧
      |p' - p| ≤ 2 * T * shift (simulatedLogwError u η M Λ (uniforms R r w) r.nlive) +
        3 * (2 * T + 1) * weightError u η h r.logl.length (2 * (simulatedSize M (uniforms R r w) r.nlive + Λ)) := by
  obtain ⟨lw, lw', h1, h2, c⟩ := hm.weights R H hs
  have hxl : xs.length = r.logl.length := by
    have := congrArg List.length hx
    simp only [List.length_map] at this
    omega
  obtain ⟨ws, p', q1, q2, q3⟩ := c.mean H hs hxl (fun x hx => abs_le.mp (hT x hx)) hT (κ := 0)
    (by unfold Within; rw [List.forall₂_same]; simp) hF
  obtain ⟨p, e1, e2, -⟩ := C30_param_mean R (r := r) (logw := some lw) (sim := false) (w := afterDraw R r w)
    ⟨ht, hm.run.nonempty, c.length⟩ hx handle
  have e2' : p = Spec.mean (lw.map Real.exp) xs := e2
  refine ⟨p, p', ?_, ?_, ?_⟩
  · unfold paramMean logwOr at e1 ⊢
    rw [Nestcheck.M.bind_ok h1]
    exact e1
  · unfold flParamMean
    rw [h2, Py.ok_bind, q1]
    exact q2
  · rw [e2']
    refine q3.trans ?_
    linarith

/-- C112.  `param_squared_mean(simulate=True)`, for a parameter of size at most `T`. -/
theorem C112_squared (H : Accurate F u η) (hm : ModerateDraws F u η r (uniforms R r w) M Λ L) {h : ℕ}
    (hs : SumsFitWithin F u η r.logl.length (simulatedSize M (uniforms R r w) r.nlive + Λ) h)
    (ht : r.theta.length = r.logl.length) {ind : Nat} {xs : List ℝ} (hx : r.theta.map (·[ind]?) = xs.map some) {T : ℝ}
    (hT : ∀ x ∈ xs, |x| ≤ T)
    (hF : 2 * (simulatedSize M (uniforms R r w) r.nlive + Λ) + 16 * ((1 + u) * T ^ 2 + η + 1) * r.logl.length ≤ F.maxFinite) :
    ∃ p p' : ℝ, paramSquaredMean R r none true ind w = (.ok p, afterDraw R r w) ∧
      flParamSquaredMean F (coes r.logl) r.nlive (some (coes (uniforms R r w))) (coes xs) = .ok (p' : EReal) ∧
      |p' - p| ≤ T ^ 2 * shift (simulatedLogwError u η M Λ (uniforms R r w) r.nlive) + (u * T ^ 2 + η) +
        5 * (2 * ((1 + u) * T ^ 2 + η) + 1) * weightError u η h r.logl.length (2 * (simulatedSize M (uniforms R r w) r.nlive + Λ)) := by
  have hu := H.u_nonneg
  have hη := H.η_nonneg
  obtain ⟨lw, lw', h1, h2, c⟩ := hm.weights R H hs
  obtain ⟨m, hmx, -, hD⟩ := c.max
  have hl := c.length
  have hl' := c.length'
  have hne := c.ne
  have h4 := c.close
  have hxl : xs.length = r.logl.length := by
    have := congrArg List.length hx
    simp only [List.length_map] at this
    omega
  have hN : (1 : ℝ) ≤ r.logl.length := by exact_mod_cast List.length_pos_iff.mpr hm.run.nonempty
  have hD0 : 0 ≤ 2 * (simulatedSize M (uniforms R r w) r.nlive + Λ) := by
    have := hD m (amax_eq_some.mp hmx).1
    linarith
  have hsq : ∀ x ∈ xs, 0 ≤ x ^ 2 ∧ x ^ 2 ≤ T ^ 2 := fun x hx => ⟨sq_nonneg x, by
    rw [← sq_abs]
    exact pow_le_pow_left₀ (abs_nonneg _) (hT x hx) 2⟩
  have hT2 : 0 ≤ T ^ 2 := sq_nonneg T
  have huT : 0 ≤ u * T ^ 2 := mul_nonneg hu hT2
  obtain ⟨ys, y1, y2⟩ := H.squares (xs := xs) (fun x hx => by
    have := (hsq x hx).2
    nlinarith)
  have hyl : ys.length = xs.length := y2.length_eq.symm
  have hyw : Within (u * T ^ 2 + η) ys (xs.map (· ^ 2)) := by
    unfold Within
    rw [List.forall₂_map_right_iff]
    refine (List.Forall₂.flip (List.forall₂_iff_get.mpr ⟨hyl.symm, ?_⟩))
    intro i hi hi'
    have := (List.forall₂_iff_get.mp y2).2 i hi hi'
    have h0 := (hsq _ (List.get_mem xs ⟨i, hi⟩)).2
    exact this.2.2.trans (by linarith [mul_le_mul_of_nonneg_left h0 hu])
  have hyT : ∀ y ∈ ys, |y| ≤ (1 + u) * T ^ 2 + η := by
    intro y hy
    obtain ⟨x, hxm, g0, -, g⟩ := forall₂_mem_left (List.Forall₂.flip y2) hy
    have h0 := (hsq x hxm).2
    rw [abs_of_nonneg g0]
    have := (abs_le.mp g).2
    nlinarith
  obtain ⟨ws, vs, ps, t, q, e1, e2, e3, e4, e5, e6, e7⟩ := H.normalisedMean (D := 2 * (simulatedSize M (uniforms R r w) r.nlive + Λ)) (h := h) hmx hD
    (by rw [hl']; exact hs.depth) (by rw [hl']; exact hs.precise) hyT (by rw [hl', hyl, hxl]) (by rw [hl']; exact hF)
  rw [mean_exp_sub, hl'] at e7
  obtain ⟨p, m0, w', f1, f2, f3, -⟩ := C30_squared R (r := r) (logw := some lw) (sim := false) (w := afterDraw R r w)
    ⟨ht, hm.run.nonempty, hl⟩ hx false
  have f3' : p = Spec.mean (lw.map Real.exp) (xs.map (· ^ 2)) := by
    have : (fun x : ℝ => x ^ 2) = fun x => x * x := by funext x; ring
    rw [this]
    exact f3
  have f2' : w' = afterDraw R r w := f2
  refine ⟨p, q, ?_, ?_, ?_⟩
  · rw [f2'] at f1
    unfold paramSquaredMean logwOr at f1 ⊢
    rw [Nestcheck.M.bind_ok h1]
    exact f1
  · unfold flParamSquaredMean
    rw [h2, Py.ok_bind, e1, Py.ok_bind, e2, Py.ok_bind, e3, Py.ok_bind, y1, Py.ok_bind, if_neg (by simp [coes, e4]), e5, Py.ok_bind, e6]
  · have hf := within_factor_exp h4
    have hmb := mean_both (hm.logwError_nonneg H) hf.symm (xs := xs.map (· ^ 2)) (xs' := ys) (η := u * T ^ 2 + η)
      (by simpa using hne) (by simp [hl, hxl])
      (lo := 0) (hi := T ^ 2) (fun x hx => by
        obtain ⟨y, hy, rfl⟩ := List.mem_map.mp hx
        exact hsq y hy) (by
        unfold Within at hyw ⊢
        refine (List.Forall₂.flip hyw).imp ?_
        intro a b hab
        rwa [abs_sub_comm])
    rw [f3', show q - Spec.mean (lw.map Real.exp) (xs.map (· ^ 2)) = (q - Spec.mean (lw'.map Real.exp) ys) +
      (Spec.mean (lw'.map Real.exp) ys - Spec.mean (lw.map Real.exp) (xs.map (· ^ 2))) by ring]
    refine (abs_add_le _ _).trans ?_
    linarith

/-- C112.  `r_mean(simulate=True)`, for radii of at most `B`. -/
theorem C112_r_mean (H : Accurate F u η) {sqrt : EReal → EReal} (Hs : AccurateRoot F sqrt u η)
    (hm : ModerateDraws F u η r (uniforms R r w) M Λ L) {h : ℕ}
    (hs : SumsFitWithin F u η r.logl.length (simulatedSize M (uniforms R r w) r.nlive + Λ) h)
    (ht : r.theta.length = r.logl.length) {d k : Nat} (hd : ∀ t ∈ r.theta, t.length = d)
    {order : SumTree} (ho : order.leaves.Perm (List.range d)) (hk : order.depth ≤ k) (hku : (3 * k + 1) * u ≤ 1 / 4)
    (hη : d * η ≤ 1) {B : ℝ} (hB : ∀ t ∈ r.theta, Spec.radius t ≤ B) (hF4 : 4 * (B + 1) ^ 2 ≤ F.maxFinite)
    (hF : 2 * (simulatedSize M (uniforms R r w) r.nlive + Λ) + 8 * (B + radiusError u η d k B + 1) * r.logl.length ≤ F.maxFinite) :
    ∃ p p' : ℝ, rMean R r none true w = (.ok p, afterDraw R r w) ∧
      flRMean F sqrt order (coes r.logl) r.nlive (some (coes (uniforms R r w))) (coeRows r.theta) = .ok (p' : EReal) ∧
      |p' - p| ≤ B * shift (simulatedLogwError u η M Λ (uniforms R r w) r.nlive) + radiusError u η d k B +
        3 * (2 * (B + radiusError u η d k B) + 1) *
          weightError u η h r.logl.length (2 * (simulatedSize M (uniforms R r w) r.nlive + Λ)) := by
  obtain ⟨lw, lw', h1, h2, c⟩ := hm.weights R H hs
  have hrad : ∀ t : List ℝ, Real.sqrt (t.map (· ^ 2)).sum = Spec.radius t := by
    intro t
    unfold Spec.radius
    have : (fun x : ℝ => x ^ 2) = fun x => x * x := by funext x; ring
    rw [this]
  obtain ⟨ρs, g1, g2⟩ := H.radii Hs hd ho hk hku (B := B) (fun t ht => by rw [hrad]; exact hB t ht) hη hF4
  rw [radii_eq] at g2
  have hρT : ∀ x ∈ ρs, |x| ≤ B + radiusError u η d k B := by
    intro x hx
    obtain ⟨y, hy, hxy⟩ := forall₂_mem_left g2 hx
    obtain ⟨t, htm, rfl⟩ := List.mem_map.mp hy
    have a0 : 0 ≤ Spec.radius t := Real.sqrt_nonneg _
    have a1 := hB t htm
    calc |x| = |(x - Spec.radius t) + Spec.radius t| := by congr 1; ring
      _ ≤ |x - Spec.radius t| + |Spec.radius t| := abs_add_le _ _
      _ ≤ _ := by rw [abs_of_nonneg a0]; linarith
  obtain ⟨ws, p', q1, q2, q3⟩ := c.mean H hs (xs := r.theta.map Spec.radius) (by simp [ht]) (lo := 0) (hi := B) (fun x hx => by
      obtain ⟨t, htm, rfl⟩ := List.mem_map.mp hx
      exact ⟨Real.sqrt_nonneg _, hB t htm⟩) hρT g2 hF
  obtain ⟨p, e1, e2, -⟩ := C32_r_mean R (r := r) (logw := some lw) (sim := false) (w := afterDraw R r w)
    ⟨ht, hm.run.nonempty, c.length⟩
  have e2' : p = Spec.mean (lw.map Real.exp) (r.theta.map Spec.radius) := e2
  refine ⟨p, p', ?_, ?_, ?_⟩
  · unfold rMean logwOr at e1 ⊢
    rw [Nestcheck.M.bind_ok h1]
    exact e1
  · unfold flRMean
    rw [h2, Py.ok_bind, q1, Py.ok_bind, g1]
    exact q2
  · rw [e2']
    refine q3.trans ?_
    linarith

/-! ### No rounding -/

/-- C112.  Without rounding the two models of `param_mean` agree for the same random numbers. -/
theorem C112_exact (hw : Weighable r) (hd : (uniforms R r w).length = r.nlive.length) (hi : ∀ v ∈ uniforms R r w, 0 < v ∧ v < 1)
    (hL : ∀ v ∈ uniforms R r w, -(L : ℝ) ≤ Real.log v) (hM1 : 1 ≤ M) (hM : ∀ s ∈ simulatedSteps (uniforms R r w) r.nlive, s ≤ -(1 / M))
    (hl : ∀ l ∈ r.logl, |l| ≤ Λ) (hn : (L + 1) * r.nlive.length + 1 ≤ 2 ^ 53) (hL2 : (L : ℝ) ≤ 10 ^ 100)
    (hz : 4 * (simulatedSize M (uniforms R r w) r.nlive + Λ) ≤ 10 ^ 100)
    (ht : r.theta.length = r.logl.length) {ind : Nat} {xs : List ℝ} (hx : r.theta.map (·[ind]?) = xs.map some) {T : ℝ}
    (hT : ∀ x ∈ xs, |x| ≤ T) (hF : 2 * (simulatedSize M (uniforms R r w) r.nlive + Λ) + 8 * (T + 1) * r.logl.length ≤ 10 ^ 100)
    (handle : Bool) :
    ∃ p : ℝ, paramMean R r none true ind handle w = (.ok (some p), afterDraw R r w) ∧
      flParamMean exactArith (coes r.logl) r.nlive (some (coes (uniforms R r w))) (coes xs) = .ok (p : EReal) := by
  obtain ⟨p, p', h1, h2, h3⟩ := C112_param_mean R exactArith_accurate (r := r) (w := w) (M := M) (Λ := Λ) (L := L)
    (h := (exactArith.tree r.logl.length).depth)
    ⟨hw, hd, hi, hL, hM1, hM, hl, hn, ⟨by simp, hL2⟩, hz, by simp [simulatedVolumeError]⟩ ⟨le_rfl, by simp [weightError]⟩ ht hx hT hF handle
  have : p' = p := by
    have e : |p' - p| ≤ 0 := h3.trans (by simp [simulatedLogwError, simulatedVolumeError, weightError, shift])
    linarith [abs_nonpos_iff.mp e]
  rw [this] at h2
  exact ⟨p, h1, h2⟩

/-! ### 64 bit floats -/

/-- At most 10000 samples, random numbers which are multiples of 2^-53 less than one (as generated by numpy, except for zero),
steps of at least 10^-6, a total of at most 100, and loglikelihoods of at most 10^6 in size. -/
structure Spec.OrdinaryDraws (r : Run ℝ) (us : List ℝ) : Prop where
  run : Weighable r
  samples : r.logl.length ≤ 10000
  draws : us.length = r.nlive.length
  interval : ∀ v ∈ us, 2 ^ (-53 : ℤ) ≤ v ∧ v < 1
  apart : ∀ s ∈ simulatedSteps us r.nlive, s ≤ -(1 / 1000000)
  depth : simulatedCompression us r.nlive ≤ 100
  logl : ∀ l ∈ r.logl, |l| ≤ 1000000

section
variable {tree : ℕ → SumTree} {ht : ∀ n, n ≠ 0 → (tree n).leaves.Perm (List.range n)}

theorem log_2000002 : Real.log (2 * ((1000000 : ℝ) + 1)) ≤ 21 := by
  have h1 : Real.log (2 * ((1000000 : ℝ) + 1)) ≤ Real.log ((2 : ℝ) ^ 21) := Real.log_le_log (by norm_num) (by norm_num)
  rw [Real.log_pow] at h1
  have h2 : Real.log 2 ≤ 1 := by linarith [Real.log_le_sub_one_of_pos (x := 2) (by norm_num)]
  push_cast at h1
  linarith

theorem Spec.OrdinaryDraws.size (h : OrdinaryDraws r us) :
    simulatedSize 1000000 us r.nlive ≤ 325 ∧ 0 ≤ simulatedSize 1000000 us r.nlive := by
  have h1 := h.depth
  have h2 := log_2000002
  have h3 : 0 ≤ Real.log (2 * ((1000000 : ℝ) + 1)) := Real.log_nonneg (by norm_num)
  have h4 : 0 ≤ simulatedCompression us r.nlive := by
    have := sum_nonpos_of (l := simulatedSteps us r.nlive) fun s hs => (h.apart s hs).trans (by norm_num)
    unfold simulatedCompression
    linarith
  unfold simulatedSize
  constructor <;> linarith

theorem Spec.OrdinaryDraws.error (h : OrdinaryDraws r us) :
    simulatedVolumeError (2 ^ (-53 : ℤ)) (2 ^ (-1075 : ℤ)) 1000000 us r.nlive ≤ 3 / 1000 := by
  obtain ⟨h1, h2⟩ := h.size
  have hu := two_zpow_pos (-53)
  have hη := eta_le
  have hub := unit_le
  generalize (2 : ℝ) ^ (-53 : ℤ) = u at *
  generalize (2 : ℝ) ^ (-1075 : ℤ) = η at *
  have hN : (r.nlive.length : ℝ) ≤ 10000 := by rw [h.run.len]; exact_mod_cast h.samples
  have h3 : u * simulatedSize 1000000 us r.nlive + 4 * η ≤ 329 * u := by nlinarith
  unfold simulatedVolumeError
  calc 8 * ((1000000 : ℝ) + 2) * (r.nlive.length + 8) * (u * simulatedSize 1000000 us r.nlive + 4 * η)
      ≤ 8 * ((1000000 : ℝ) + 2) * (r.nlive.length + 8) * (329 * u) := mul_le_mul_of_nonneg_left h3 (by positivity)
    _ ≤ 8 * ((1000000 : ℝ) + 2) * (10000 + 8) * (329 * u) :=
        mul_le_mul_of_nonneg_right (by linarith) (by positivity)
    _ ≤ 3 / 1000 := by nlinarith

theorem Spec.OrdinaryDraws.moderate (h : OrdinaryDraws r us) :
    ModerateDraws (binary64 tree ht) (2 ^ (-53 : ℤ)) (2 ^ (-1075 : ℤ)) r us 1000000 1000000 53 where
  run := h.run
  draws := h.draws
  interval := fun v hv => ⟨(two_zpow_pos (-53)).trans_le (h.interval v hv).1, (h.interval v hv).2⟩
  small := fun v hv => by
    have h1 := Real.log_le_log (two_zpow_pos (-53)) (h.interval v hv).1
    rw [Real.log_zpow] at h1
    have h2 : Real.log 2 ≤ 1 := by linarith [Real.log_le_sub_one_of_pos (x := 2) (by norm_num)]
    push_cast at h1 ⊢
    linarith
  M_ge := by norm_num
  apart := h.apart
  logl := h.logl
  count := by
    show (53 + 1) * r.nlive.length + 1 ≤ 2 ^ 53
    have := h.samples
    have := h.run.len
    omega
  logs := by
    have hη := eta_le
    have hub := unit_le
    refine ⟨?_, ?_⟩
    · push_cast
      generalize (2 : ℝ) ^ (-53 : ℤ) = u at *
      generalize (2 : ℝ) ^ (-1075 : ℤ) = η at *
      linarith
    · have := maxFinite_ge (tree := tree) (ht := ht)
      push_cast
      linarith
  size := by
    have := maxFinite_ge (tree := tree) (ht := ht)
    have := h.size
    linarith
  precise := h.error.trans (by norm_num)

theorem Spec.OrdinaryDraws.logwError (h : OrdinaryDraws r us) :
    simulatedLogwError (2 ^ (-53 : ℤ)) (2 ^ (-1075 : ℤ)) 1000000 1000000 us r.nlive ≤ 31 / 10000 := by
  have h0 := h.error
  obtain ⟨h1, h2⟩ := h.size
  have hu := two_zpow_pos (-53)
  have hη := eta_le
  have hub := unit_le
  unfold Spec.simulatedLogwError
  generalize (2 : ℝ) ^ (-53 : ℤ) = u at *
  generalize (2 : ℝ) ^ (-1075 : ℤ) = η at *
  nlinarith

theorem Spec.OrdinaryDraws.weightError (h : OrdinaryDraws r us) :
    weightError (2 ^ (-53 : ℤ)) (2 ^ (-1075 : ℤ)) 10000 r.logl.length (2 * (simulatedSize 1000000 us r.nlive + 1000000)) ≤ 1 / 10 ^ 9 := by
  obtain ⟨h1, h2⟩ := h.size
  have hu := two_zpow_pos (-53)
  have hη0 := two_zpow_pos (-1075)
  have hη := eta_le
  have hub := unit_le
  have hN : (r.logl.length : ℝ) ≤ 10000 := by exact_mod_cast h.samples
  unfold Spec.weightError
  generalize (2 : ℝ) ^ (-53 : ℤ) = u at *
  generalize (2 : ℝ) ^ (-1075 : ℤ) = η at *
  have h3 : 6 * (r.logl.length : ℝ) * η ≤ 6 * 10000 * u := by
    calc 6 * (r.logl.length : ℝ) * η ≤ 6 * 10000 * η := mul_le_mul_of_nonneg_right (by linarith) hη0.le
      _ ≤ 6 * 10000 * u := mul_le_mul_of_nonneg_left hη (by norm_num)
  push_cast
  nlinarith

theorem Spec.OrdinaryDraws.sumsFit (h : OrdinaryDraws r us) :
    SumsFitWithin (binary64 tree ht) (2 ^ (-53 : ℤ)) (2 ^ (-1075 : ℤ)) r.logl.length (simulatedSize 1000000 us r.nlive + 1000000) 10000 where
  depth := by
    have hne : r.logl.length ≠ 0 := fun e => h.run.nonempty (List.length_eq_zero_iff.mp e)
    have h1 := SumTree.depth_lt (tree r.logl.length)
    have h2 := (ht _ hne).length_eq
    rw [List.length_range] at h2
    have := h.samples
    show (tree r.logl.length).depth ≤ 10000
    omega
  precise := h.weightError.trans (by norm_num)

/-- C112.  With 64 bit floats, the simulated log weights and `logz` of an ordinary run are wrong by less than 0.004, whatever the
order of summation. -/
theorem C112_binary64_logz (h : OrdinaryDraws r (uniforms R r w)) :
    ∃ (lw lw' : List ℝ) (z z' : ℝ), getLogw R r true w = (.ok lw, afterDraw R r w) ∧
      flLogw (binary64 tree ht) (coes r.logl) r.nlive (some (coes (uniforms R r w))) = .ok (coes lw') ∧ Within (4 / 1000) lw' lw ∧
      logz R r none true w = (.ok z, afterDraw R r w) ∧
      flLogz (binary64 tree ht) (coes r.logl) r.nlive (some (coes (uniforms R r w))) = .ok (z' : EReal) ∧ |z' - z| ≤ 4 / 1000 := by
  obtain ⟨lw, lw', h1, h2, h3⟩ := C112_logw R binary64_accurate (h.moderate (tree := tree) (ht := ht))
  obtain ⟨z, z', h4, h5, h6⟩ := C112_logz R binary64_accurate (h.moderate (tree := tree) (ht := ht)) h.sumsFit (by
    have := maxFinite_ge (tree := tree) (ht := ht)
    have := h.size
    have hN : (r.logl.length : ℝ) ≤ 10000 := by exact_mod_cast h.samples
    linarith)
  refine ⟨lw, lw', z, z', h1, h2, ?_, h4, h5, h6.trans ?_⟩
  · refine List.Forall₂.imp ?_ h3
    intro a b hab
    refine hab.trans (h.logwError.trans (by norm_num))
  · have e1 := h.logwError
    have e2 := h.weightError
    obtain ⟨s1, s2⟩ := h.size
    have hη := eta_le
    have hub := unit_le
    have hu := two_zpow_pos (-53)
    have hN : (r.logl.length : ℝ) ≤ 10000 := by exact_mod_cast h.samples
    have hN1 : (1 : ℝ) ≤ r.logl.length := by exact_mod_cast List.length_pos_iff.mpr h.run.nonempty
    have hl := Real.log_le_sub_one_of_pos (x := 2 * (r.logl.length : ℝ)) (by linarith)
    have e3 : 3 * Real.log (2 * (r.logl.length : ℝ)) + 1 + (simulatedSize 1000000 (uniforms R r w) r.nlive + 1000000) ≤ 2000000 := by
      linarith
    have e4 := (mul_le_mul_of_nonneg_left e3 hu.le).trans (mul_le_mul_of_nonneg_right hub (by norm_num))
    exact (add_le_add e1 (add_le_add (mul_le_mul_of_nonneg_left e2 (by norm_num)) (add_le_add e4
      (mul_le_mul_of_nonneg_left (hη.trans hub) (by norm_num))))).trans (by norm_num)

/-- C112.  The error of the simulated `param_mean` is less than 0.004 times the size of the parameter. -/
theorem C112_binary64_param_mean (h : OrdinaryDraws r (uniforms R r w)) (htl : r.theta.length = r.logl.length) {ind : Nat}
    {xs : List ℝ} (hx : r.theta.map (·[ind]?) = xs.map some) {T : ℝ} (hT : ∀ x ∈ xs, |x| ≤ T) (hT1 : 1 ≤ T ∧ T ≤ 10 ^ 9)
    (handle : Bool) :
    ∃ p p' : ℝ, paramMean R r none true ind handle w = (.ok (some p), afterDraw R r w) ∧
      flParamMean (binary64 tree ht) (coes r.logl) r.nlive (some (coes (uniforms R r w))) (coes xs) = .ok (p' : EReal) ∧
      |p' - p| ≤ T * (4 / 1000) := by
  obtain ⟨p, p', h1, h2, h3⟩ := C112_param_mean R binary64_accurate (h.moderate (tree := tree) (ht := ht)) h.sumsFit htl hx hT (by
    have := maxFinite_ge (tree := tree) (ht := ht)
    have := h.size
    have hN : (r.logl.length : ℝ) ≤ 10000 := by exact_mod_cast h.samples
    have : 8 * (T + 1) * r.logl.length ≤ 8 * (10 ^ 9 + 1) * 10000 :=
      mul_le_mul (by linarith [hT1.2]) hN (by positivity) (by norm_num)
    norm_num at *
    linarith) handle
  refine ⟨p, p', h1, h2, h3.trans ?_⟩
  have e1 := h.logwError
  have e2 := h.weightError
  have e0 := (h.moderate (tree := tree) (ht := ht)).logwError_nonneg binary64_accurate
  have e3 := (C83_shift e0).2.2
  have e4 := mul_le_mul_of_nonneg_left (e3.trans ((div_le_div_iff_of_pos_right (by norm_num)).mpr e1)) (show (0 : ℝ) ≤ 2 * T by linarith [hT1.1])
  have e5 := mul_le_mul_of_nonneg_left e2 (show (0 : ℝ) ≤ 3 * (2 * T + 1) by linarith [hT1.1])
  have := hT1.1
  linarith

end

/-! ### A run of three samples -/

theorem log_half_bounds : -1 ≤ Real.log (1 / 2 : ℝ) ∧ Real.log (1 / 2 : ℝ) ≤ -(1 / 2) := by
  have h1 := Real.log_le_sub_one_of_pos (x := 1 / 2) (by norm_num)
  have h2 := Real.one_sub_inv_le_log_of_pos (x := 1 / 2) (by norm_num)
  norm_num at h1 h2 ⊢
  constructor <;> linarith

theorem sampleOrdinary_draws : OrdinaryDraws sampleOrdinary [1 / 2, 1 / 2, 1 / 2] where
  run := sampleOrdinary_ok.run
  samples := by simp [sampleOrdinary]
  draws := rfl
  interval := by
    intro v hv
    have : v = 1 / 2 := by simpa using hv
    subst this
    norm_num
  apart := by
    have h := log_half_bounds.2
    intro s hs
    simp only [simulatedSteps, sampleOrdinary, List.zipWith_cons_cons, List.zipWith_nil_right, List.mem_cons, List.not_mem_nil,
      or_false] at hs
    push_cast at hs
    rcases hs with rfl | rfl | rfl <;> linarith
  depth := by
    have h := log_half_bounds.1
    simp only [simulatedCompression, simulatedSteps, sampleOrdinary, List.zipWith_cons_cons, List.zipWith_nil_right, List.sum_cons,
      List.sum_nil]
    push_cast
    linarith
  logl := sampleOrdinary_ok.logl

example {σ : Type} (R : Rng σ ℝ) (w : World σ) (h : uniforms R sampleOrdinary w = [1 / 2, 1 / 2, 1 / 2]) :
    ∃ z z' : ℝ, logz R sampleOrdinary none true w = (.ok z, afterDraw R sampleOrdinary w) ∧
    flLogz loop64 (coes [-5, -2, 1]) [2, 2, 1] (some (coes [1 / 2, 1 / 2, 1 / 2])) = .ok (z' : EReal) ∧ |z' - z| ≤ 4 / 1000 := by
  obtain ⟨_, _, z, z', -, -, -, h1, h2, h3⟩ := C112_binary64_logz R (w := w) (r := sampleOrdinary) (h ▸ sampleOrdinary_draws)
  rw [h] at h2
  exact ⟨z, z', h1, h2, h3⟩

example {σ : Type} (R : Rng σ ℝ) (w : World σ) (h : uniforms R sampleOrdinary w = [1 / 2, 1 / 2, 1 / 2]) :
    ∃ p p' : ℝ, paramMean R sampleOrdinary none true 0 false w = (.ok (some p), afterDraw R sampleOrdinary w) ∧
    flParamMean loop64 (coes [-5, -2, 1]) [2, 2, 1] (some (coes [1 / 2, 1 / 2, 1 / 2])) (coes [0, 1, 3]) = .ok (p' : EReal) ∧
    |p' - p| ≤ 3 * (4 / 1000) := by
  have := C112_binary64_param_mean R (w := w) (r := sampleOrdinary) (tree := fun n => leftTree (n - 1)) (ht := fun n h => by
    rw [leftTree_leaves, Nat.sub_add_cancel (Nat.one_le_iff_ne_zero.mpr h)]) (h ▸ sampleOrdinary_draws) rfl (ind := 0)
    (xs := [0, 1, 3]) rfl
    (T := 3) (by norm_num) (by norm_num) false
  rw [h] at this
  exact this

/-- A generator which draws these numbers. -/
example (w : World Nat) : uniforms halfRng sampleOrdinary w = [1 / 2, 1 / 2, 1 / 2] := rfl

end
end Nestcheck
