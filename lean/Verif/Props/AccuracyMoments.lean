import Verif.Proofs.AccuracyMoments
import Verif.Props.Binary64

/-
C111: accuracy of `evidence`, `param_squared_mean` and `r_mean` calculated in floating point arithmetic.
-/

namespace Nestcheck
open Spec
noncomputable section
variable {σ : Type} (R : Rng σ ℝ) {F : FloatArith} {u η : ℝ} {r : Run ℝ} {M Λ : ℝ}

/-! ### `evidence` -/

/-- The bound of C84 on the error of `logz`. -/
def Spec.logzError (u η M Λ : ℝ) (h : Nat) (r : Run ℝ) : ℝ :=
  logwError u η M Λ r.nlive + (2 * weightError u η h r.logl.length (2 * (volumeSize M r.nlive + Λ)) +
    (u * (3 * Real.log (2 * r.logl.length) + 1 + (volumeSize M r.nlive + Λ)) + 2 * η))

/-- The library function `exp` is accurate unless it overflows. -/
def Spec.AccurateExp (F : FloatArith) (u η : ℝ) : Prop :=
  ∀ x : ℝ, Real.exp x ≤ F.maxFinite → Near (u * Real.exp x + η) (F.exp x) (Real.exp x)

/-- C111.  The relative error of `evidence` is about the absolute error of `logz`, if the evidence is not so large that it
overflows. -/
theorem C111_evidence (H : Accurate F u η) (He : AccurateExp F u η) (hm : Moderate F u η r M Λ) {h : ℕ} (hs : SumsFit F u η r M Λ h)
    (hF : 3 * (volumeSize M r.nlive + Λ) + 4 * r.logl.length ≤ F.maxFinite) (w : World σ) :
    ∃ Z : ℝ, evidence R r none false w = (.ok Z, w) ∧ 0 < Z ∧ (Z * Real.exp (logzError u η M Λ h r) ≤ F.maxFinite →
      ∃ Z' : ℝ, flEvidence F (coes r.logl) r.nlive none = .ok (Z' : EReal) ∧
        |Z' - Z| ≤ Z * ((1 + u) * Real.exp (logzError u η M Λ h r) - 1) + η) := by
  have hu := H.u_nonneg
  obtain ⟨z, z', h1, h2, h3⟩ := C84_logz R H hm hs hF w
  change _ ≤ logzError u η M Λ h r at h3
  generalize logzError u η M Λ h r = δ at h3
  refine ⟨Real.exp z, ?_, Real.exp_pos _, fun hZ => ?_⟩
  · unfold evidence
    unfold logz at h1
    obtain ⟨lw, w', e1, e2⟩ := Nestcheck.M.bind_eq_ok.mp h1
    rw [Nestcheck.M.bind_ok e1, Nestcheck.M.bind_ok e2]
    rfl
  · rw [← Real.exp_add] at hZ
    obtain ⟨a1, a2⟩ := abs_le.mp h3
    have b1 : Real.exp z' ≤ Real.exp (z + δ) := Real.exp_le_exp.mpr (by linarith)
    obtain ⟨Z', c1, c2⟩ := He z' (b1.trans hZ)
    refine ⟨Z', ?_, ?_⟩
    · unfold flEvidence
      rw [h2, Py.ok_bind, c1]
      rfl
    · have hz := Real.exp_pos z
      have b2 : Real.exp (z - δ) ≤ Real.exp z' := Real.exp_le_exp.mpr (by linarith)
      rw [Real.exp_add] at b1
      have b3 : Real.exp (z - δ) = Real.exp z * Real.exp (-δ) := by rw [← Real.exp_add]; rfl
      have b4 : 2 - Real.exp δ ≤ Real.exp (-δ) := by
        linarith [Real.add_one_le_exp δ, Real.add_one_le_exp (-δ)]
      have b5 : |Real.exp z' - Real.exp z| ≤ Real.exp z * (Real.exp δ - 1) := by
        rw [abs_le]
        constructor <;> nlinarith
      calc |Z' - Real.exp z| = |(Z' - Real.exp z') + (Real.exp z' - Real.exp z)| := by congr 1; ring
        _ ≤ |Z' - Real.exp z'| + |Real.exp z' - Real.exp z| := abs_add_le _ _
        _ ≤ (u * (Real.exp z * Real.exp δ) + η) + Real.exp z * (Real.exp δ - 1) := add_le_add (c2.trans (by
            have := mul_le_mul_of_nonneg_left b1 hu
            linarith)) b5
        _ = _ := by ring

/-! ### `param_squared_mean` -/

theorem moderate_max (H : Accurate F u η) (hm : Moderate F u η r M Λ) {h : ℕ} (hs : SumsFit F u η r M Λ h) (w : World σ) :
    ∃ (lw lw' : List ℝ) (m : ℝ), getLogw R r false w = (.ok lw, w) ∧ flLogw F (coes r.logl) r.nlive none = .ok (coes lw') ∧
      lw.length = r.logl.length ∧ lw'.length = r.logl.length ∧ lw ≠ [] ∧ Within (logwError u η M Λ r.nlive) lw' lw ∧
      amax lw' = some m ∧ ∀ x ∈ lw', m - x ≤ 2 * (volumeSize M r.nlive + Λ) := by
  obtain ⟨lw, lw', h1, h2, h3, hl, h4⟩ := hm.logw R H w
  have hsp := hm.spread H hs h3 h4
  have hl' : lw'.length = r.logl.length := h4.length_eq.trans hl
  have hne : lw ≠ [] := by intro e; rw [e] at hl; exact hm.run.nonempty (List.length_eq_zero_iff.mp hl.symm)
  have hne' : lw' ≠ [] := by intro e; rw [e] at hl'; exact hm.run.nonempty (List.length_eq_zero_iff.mp hl'.symm)
  obtain ⟨m, hmx⟩ := exists_amax hne'
  obtain ⟨hmem, -⟩ := amax_eq_some.mp hmx
  refine ⟨lw, lw', m, h1, h2, hl, hl', hne, h4, hmx, fun x hx => ?_⟩
  have b1 := abs_le.mp (hsp x hx)
  have b2 := abs_le.mp (hsp m hmem)
  linarith

/-- C111.  `param_squared_mean`, for a parameter of size at most `T`. -/
theorem C111_squared (H : Accurate F u η) (hm : Moderate F u η r M Λ) {h : ℕ} (hs : SumsFit F u η r M Λ h)
    (ht : r.theta.length = r.logl.length) {ind : Nat} {xs : List ℝ} (hx : r.theta.map (·[ind]?) = xs.map some) {T : ℝ}
    (hT : ∀ x ∈ xs, |x| ≤ T)
    (hF : 2 * (volumeSize M r.nlive + Λ) + 16 * ((1 + u) * T ^ 2 + η + 1) * r.logl.length ≤ F.maxFinite) (w : World σ) :
    ∃ p p' : ℝ, paramSquaredMean R r none false ind w = (.ok p, w) ∧
      flParamSquaredMean F (coes r.logl) r.nlive none (coes xs) = .ok (p' : EReal) ∧
      |p' - p| ≤ T ^ 2 * shift (logwError u η M Λ r.nlive) + (u * T ^ 2 + η) +
        5 * (2 * ((1 + u) * T ^ 2 + η) + 1) * weightError u η h r.logl.length (2 * (volumeSize M r.nlive + Λ)) := by
  have hu := H.u_nonneg
  have hη := H.η_nonneg
  obtain ⟨lw, lw', m, h1, h2, hl, hl', hne, h4, hmx, hD⟩ := moderate_max R H hm hs w
  have hxl : xs.length = r.logl.length := by
    have := congrArg List.length hx
    simp only [List.length_map] at this
    omega
  have hN : (1 : ℝ) ≤ r.logl.length := by exact_mod_cast List.length_pos_iff.mpr hm.run.nonempty
  have hD0 : 0 ≤ 2 * (volumeSize M r.nlive + Λ) := by
    have := hD m (amax_eq_some.mp hmx).1
    linarith
  have hsq : ∀ x ∈ xs, 0 ≤ x ^ 2 ∧ x ^ 2 ≤ T ^ 2 := fun x hx => ⟨sq_nonneg x, by
    rw [← sq_abs]
    exact pow_le_pow_left₀ (abs_nonneg _) (hT x hx) 2⟩
  have hT2 : 0 ≤ T ^ 2 := sq_nonneg T
  have huT : 0 ≤ u * T ^ 2 := mul_nonneg hu hT2
  obtain ⟨ys, y1, y2⟩ := H.squares (xs := xs) (fun x hx => by
    have := (hsq x hx).2
    nlinarith)
  have hyl : ys.length = xs.length := y2.length_eq.symm
  have hyw : Within (u * T ^ 2 + η) ys (xs.map (· ^ 2)) := by
    unfold Within
    rw [List.forall₂_map_right_iff]
    refine (List.Forall₂.flip (List.forall₂_iff_get.mpr ⟨hyl.symm, ?_⟩))
    intro i hi hi'
    have := (List.forall₂_iff_get.mp y2).2 i hi hi'
    have h0 := (hsq _ (List.get_mem xs ⟨i, hi⟩)).2
    exact this.2.2.trans (by linarith [mul_le_mul_of_nonneg_left h0 hu])
  have hyT : ∀ y ∈ ys, |y| ≤ (1 + u) * T ^ 2 + η := by
    intro y hy
    obtain ⟨x, hxm, g0, -, g⟩ := forall₂_mem_left (List.Forall₂.flip y2) hy
    have h0 := (hsq x hxm).2
    rw [abs_of_nonneg g0]
    have := (abs_le.mp g).2
    nlinarith
  obtain ⟨ws, vs, ps, t, q, e1, e2, e3, e4, e5, e6, e7⟩ := H.normalisedMean (D := 2 * (volumeSize M r.nlive + Λ)) (h := h) hmx hD
    (by rw [hl']; exact hs.depth) (by rw [hl']; exact hs.precise) hyT (by rw [hl', hyl, hxl]) (by rw [hl']; exact hF)
  rw [mean_exp_sub, hl'] at e7
  obtain ⟨p, m0, w', f1, f2, f3, -⟩ := C30_squared R (r := r) (logw := some lw) (sim := false) (w := w)
    ⟨ht, hm.run.nonempty, hl⟩ hx false
  have f3' : p = mean (lw.map Real.exp) (xs.map (· ^ 2)) := by
    have : (fun x : ℝ => x ^ 2) = fun x => x * x := by funext x; ring
    rw [this]
    exact f3
  have f2' : w' = w := f2
  refine ⟨p, q, ?_, ?_, ?_⟩
  · rw [f2'] at f1
    unfold paramSquaredMean logwOr at f1 ⊢
    rw [Nestcheck.M.bind_ok h1]
    exact f1
  · unfold flParamSquaredMean
    rw [h2, Py.ok_bind, e1, Py.ok_bind, e2, Py.ok_bind, e3, Py.ok_bind, y1, Py.ok_bind, if_neg (by simp [coes, e4]), e5, Py.ok_bind, e6]
  · have hf := within_factor_exp h4
    have hmb := mean_both (hm.logwError_nonneg H) hf.symm (xs := xs.map (· ^ 2)) (xs' := ys) (η := u * T ^ 2 + η)
      (by simpa using hne) (by simp [hl, hxl])
      (lo := 0) (hi := T ^ 2) (fun x hx => by
        obtain ⟨y, hy, rfl⟩ := List.mem_map.mp hx
        exact hsq y hy) (by
        unfold Within at hyw ⊢
        refine (List.Forall₂.flip hyw).imp ?_
        intro a b hab
        rwa [abs_sub_comm])
    rw [f3', show q - mean (lw.map Real.exp) (xs.map (· ^ 2)) = (q - mean (lw'.map Real.exp) ys) +
      (mean (lw'.map Real.exp) ys - mean (lw.map Real.exp) (xs.map (· ^ 2))) by ring]
    refine (abs_add_le _ _).trans ?_
    linarith

/-! ### `r_mean` -/

/-- C111.  `r_mean`, for radii of at most `B`. -/
theorem C111_r_mean (H : Accurate F u η) {sqrt : EReal → EReal} (Hs : AccurateRoot F sqrt u η) (hm : Moderate F u η r M Λ) {h : ℕ}
    (hs : SumsFit F u η r M Λ h) (ht : r.theta.length = r.logl.length) {d k : Nat} (hd : ∀ t ∈ r.theta, t.length = d)
    {order : SumTree} (ho : order.leaves.Perm (List.range d)) (hk : order.depth ≤ k) (hku : (3 * k + 1) * u ≤ 1 / 4)
    (hη : d * η ≤ 1) {B : ℝ} (hB : ∀ t ∈ r.theta, Spec.radius t ≤ B) (hF4 : 4 * (B + 1) ^ 2 ≤ F.maxFinite)
    (hF : 2 * (volumeSize M r.nlive + Λ) + 8 * (B + radiusError u η d k B + 1) * r.logl.length ≤ F.maxFinite) (w : World σ) :
    ∃ p p' : ℝ, rMean R r none false w = (.ok p, w) ∧
      flRMean F sqrt order (coes r.logl) r.nlive none (coeRows r.theta) = .ok (p' : EReal) ∧
      |p' - p| ≤ B * shift (logwError u η M Λ r.nlive) + radiusError u η d k B +
        3 * (2 * (B + radiusError u η d k B) + 1) * weightError u η h r.logl.length (2 * (volumeSize M r.nlive + Λ)) := by
  obtain ⟨lw, lw', m, h1, h2, hl, hl', hne, h4, hmx, hD⟩ := moderate_max R H hm hs w
  have hrad : ∀ t : List ℝ, Real.sqrt (t.map (· ^ 2)).sum = Spec.radius t := by
    intro t
    unfold Spec.radius
    have : (fun x : ℝ => x ^ 2) = fun x => x * x := by funext x; ring
    rw [this]
  obtain ⟨ρs, g1, g2⟩ := H.radii Hs hd ho hk hku (B := B) (fun t ht => by rw [hrad]; exact hB t ht) hη hF4
  rw [radii_eq] at g2
  have hρl : ρs.length = r.logl.length := by
    have := List.Forall₂.length_eq g2
    rw [this, List.length_map, ht]
  have hρT : ∀ x ∈ ρs, |x| ≤ B + radiusError u η d k B := by
    intro x hx
    obtain ⟨y, hy, hxy⟩ := forall₂_mem_left g2 hx
    obtain ⟨t, htm, rfl⟩ := List.mem_map.mp hy
    have a0 : 0 ≤ Spec.radius t := Real.sqrt_nonneg _
    have a1 := hB t htm
    calc |x| = |(x - Spec.radius t) + Spec.radius t| := by congr 1; ring
      _ ≤ |x - Spec.radius t| + |Spec.radius t| := abs_add_le _ _
      _ ≤ _ := by rw [abs_of_nonneg a0]; linarith
  obtain ⟨p', hp', hpe⟩ := H.weightedMean (D := 2 * (volumeSize M r.nlive + Λ)) (h := h) hmx hD
    (by rw [hl']; exact hs.depth) (by rw [hl']; exact hs.precise) hρT (by rw [hl', hρl]) (by rw [hl']; exact hF)
  rw [mean_exp_sub, hl'] at hpe
  obtain ⟨p, e1, e2, -⟩ := C32_r_mean R (r := r) (logw := some lw) (sim := false) (w := w) ⟨ht, hm.run.nonempty, hl⟩
  have e2' : p = mean (lw.map Real.exp) (r.theta.map Spec.radius) := e2
  refine ⟨p, p', ?_, ?_, ?_⟩
  · unfold rMean logwOr at e1 ⊢
    rw [Nestcheck.M.bind_ok h1]
    exact e1
  · unfold flRMean
    rw [h2, Py.ok_bind, g1]
    exact hp'
  · have hf := within_factor_exp h4
    have hmb := mean_both (hm.logwError_nonneg H) hf.symm (xs := r.theta.map Spec.radius) (xs' := ρs) (η := radiusError u η d k B)
      (by simpa using hne) (by simp [hl, ht])
      (lo := 0) (hi := B) (fun x hx => by
        obtain ⟨t, htm, rfl⟩ := List.mem_map.mp hx
        exact ⟨Real.sqrt_nonneg _, hB t htm⟩) (by
        unfold Within at g2 ⊢
        refine (List.Forall₂.flip g2).imp ?_
        intro a b hab
        rwa [abs_sub_comm])
    rw [e2', show p' - mean (lw.map Real.exp) (r.theta.map Spec.radius) = (p' - mean (lw'.map Real.exp) ρs) +
      (mean (lw'.map Real.exp) ρs - mean (lw.map Real.exp) (r.theta.map Spec.radius)) by ring]
    refine (abs_add_le _ _).trans ?_
    linarith

/-! ### No rounding -/

/-- The exact square root. -/
def exactRoot (x : EReal) : EReal := (Real.sqrt x.toReal : ℝ)

theorem exactRoot_accurate : AccurateRoot exactArith exactRoot 0 0 := fun x _ _ => ⟨_, by rw [exactRoot, EReal.toReal_coe], by simp⟩

theorem exactExp_accurate : AccurateExp exactArith 0 0 := fun x _ => ⟨_, exact_exp x, by simp⟩

/-- C111.  Without rounding the two models of `r_mean` agree. -/
theorem C111_exact (hw : Weighable r) (hM : ∀ n ∈ r.nlive, (n : ℝ) ≤ M) (hl : ∀ l ∈ r.logl, |l| ≤ Λ)
    (hn : r.nlive.length + 1 ≤ 2 ^ 53) (hz : 4 * (volumeSize M r.nlive + Λ) ≤ 10 ^ 100)
    (ht : r.theta.length = r.logl.length) {d : Nat} (hd : ∀ t ∈ r.theta, t.length = d) {order : SumTree}
    (ho : order.leaves.Perm (List.range d)) {B : ℝ} (hB : ∀ t ∈ r.theta, Spec.radius t ≤ B) (hB2 : 4 * (B + 1) ^ 2 ≤ 10 ^ 100)
    (hF : 2 * (volumeSize M r.nlive + Λ) + 8 * (B + 1) * r.logl.length ≤ 10 ^ 100) (w : World σ) :
    ∃ p : ℝ, rMean R r none false w = (.ok p, w) ∧
      flRMean exactArith exactRoot order (coes r.logl) r.nlive none (coeRows r.theta) = .ok (p : EReal) := by
  obtain ⟨p, p', h1, h2, h3⟩ := C111_r_mean R exactArith_accurate exactRoot_accurate (r := r) (M := M) (Λ := Λ)
    (h := (exactArith.tree r.logl.length).depth)
    ⟨hw, hM, hl, hn, hz, by simp [volumeError]⟩ ⟨le_rfl, by simp [weightError]⟩ ht hd ho (k := order.depth) le_rfl (by simp) (by simp) hB hB2
    (by simp only [radiusError]; simpa using (show _ ≤ exactArith.maxFinite from hF)) w
  have : p' = p := by
    have e : |p' - p| ≤ 0 := h3.trans (by simp [logwError, volumeError, weightError, shift, radiusError])
    linarith [abs_nonpos_iff.mp e]
  rw [this] at h2
  exact ⟨p, h1, h2⟩

/-! ### 64 bit floats -/

section
variable {tree : ℕ → SumTree} {ht : ∀ n, n ≠ 0 → (tree n).leaves.Perm (List.range n)}

/-- The correctly rounded square root. -/
def root64 (tree : ℕ → SumTree) (ht : ∀ n, n ≠ 0 → (tree n).leaves.Perm (List.range n)) (x : EReal) : EReal :=
  (binary64 tree ht).rnd (Real.sqrt x.toReal : ℝ)

theorem root64_accurate : AccurateRoot (binary64 tree ht) (root64 tree ht) (2 ^ (-53 : ℤ)) (2 ^ (-1075 : ℤ)) := fun x _ hx => by
  have h := binary64_accurate (tree := tree) (ht := ht).round (Real.sqrt x) (by rwa [abs_of_nonneg (Real.sqrt_nonneg _)])
  rw [abs_of_nonneg (Real.sqrt_nonneg _)] at h
  rw [root64, EReal.toReal_coe]
  exact h

theorem exp64_accurate : AccurateExp (binary64 tree ht) (2 ^ (-53 : ℤ)) (2 ^ (-1075 : ℤ)) := fun x hx => by
  have h := binary64_accurate (tree := tree) (ht := ht).round (Real.exp x) (by rwa [abs_of_pos (Real.exp_pos _)])
  rw [abs_of_pos (Real.exp_pos _), ← erealExp_coe] at h
  exact h

theorem maxFinite_huge : (10 : ℝ) ^ 300 * 2 ≤ (binary64 tree ht).maxFinite := by
  show (10 : ℝ) ^ 300 * 2 ≤ 2 ^ ((1024 : ℤ) - 1)
  rw [show (1024 : ℤ) - 1 = ((1023 : ℕ) : ℤ) by norm_num, zpow_natCast, show (300 : ℕ) = 60 * 5 from rfl,
    show (1023 : ℕ) = 200 * 5 + 23 from rfl, pow_mul, pow_add, pow_mul]
  exact mul_le_mul (pow_le_pow_left₀ (by positivity) (by norm_num) 5) (by norm_num) (by norm_num) (by positivity)

theorem maxFinite_large : (10 : ℝ) ^ 250 ≤ (binary64 tree ht).maxFinite := by
  refine le_trans ?_ maxFinite_huge
  have : (10 : ℝ) ^ 250 ≤ 10 ^ 300 := pow_le_pow_right₀ (by norm_num) (by norm_num)
  exact this.trans (le_mul_of_one_le_right (by positivity) (by norm_num))

theorem eta_tiny : (2 : ℝ) ^ (-1075 : ℤ) ≤ 1 / 10 ^ 30 := by
  refine (zpow_le_zpow_right₀ (by norm_num) (show (-1075 : ℤ) ≤ -100 by norm_num)).trans ?_
  norm_num

theorem Spec.OrdinaryRun.logzError (h : OrdinaryRun r) :
    logzError (2 ^ (-53 : ℤ)) (2 ^ (-1075 : ℤ)) 1000 1000000 100000 r ≤ 1 / 10000 := by
  have e1 := h.logwError
  have e2 := h.weightError
  obtain ⟨s1, s2⟩ := h.size
  have hη := eta_le
  have hub := unit_le
  have hu := two_zpow_pos (-53)
  have hN : (r.logl.length : ℝ) ≤ 100000 := by exact_mod_cast h.samples
  have hN1 : (1 : ℝ) ≤ r.logl.length := by exact_mod_cast List.length_pos_iff.mpr h.run.nonempty
  have hl := Real.log_le_sub_one_of_pos (x := 2 * (r.logl.length : ℝ)) (by linarith)
  have e3 : 3 * Real.log (2 * (r.logl.length : ℝ)) + 1 + (volumeSize 1000 r.nlive + 1000000) ≤ 2000000 := by linarith
  have e4 := (mul_le_mul_of_nonneg_left e3 hu.le).trans (mul_le_mul_of_nonneg_right hub (by norm_num))
  exact (add_le_add e1 (add_le_add (mul_le_mul_of_nonneg_left e2 (by norm_num)) (add_le_add e4
    (mul_le_mul_of_nonneg_left (hη.trans hub) (by norm_num))))).trans (by norm_num)

/-- C111.  With 64 bit floats, the relative error of the evidence of an ordinary run is less than 0.0002, unless it overflows
or underflows. -/
theorem C111_binary64_evidence (h : OrdinaryRun r) (w : World σ) :
    ∃ Z : ℝ, evidence R r none false w = (.ok Z, w) ∧ 0 < Z ∧ (Z ≤ 10 ^ 300 →
      ∃ Z' : ℝ, flEvidence (binary64 tree ht) (coes r.logl) r.nlive none = .ok (Z' : EReal) ∧
        |Z' - Z| ≤ Z / 5000 + 2 ^ (-1075 : ℤ)) := by
  obtain ⟨Z, h1, h2, h3⟩ := C111_evidence R binary64_accurate exp64_accurate (h.moderate (tree := tree) (ht := ht)) h.sumsFit (by
    have := maxFinite_ge (tree := tree) (ht := ht)
    have := h.size
    have hN : (r.logl.length : ℝ) ≤ 100000 := by exact_mod_cast h.samples
    linarith) w
  have hδ := h.logzError
  have hexp : Real.exp (Spec.logzError (2 ^ (-53 : ℤ)) (2 ^ (-1075 : ℤ)) 1000 1000000 100000 r) ≤ 1 + 11 / 100000 := by
    refine (Real.exp_le_exp.mpr hδ).trans ?_
    have := Real.abs_exp_sub_one_sub_id_le (x := 1 / 10000) (by norm_num [abs_le])
    have := (abs_le.mp this).2
    linarith
  refine ⟨Z, h1, h2, fun hZ => ?_⟩
  obtain ⟨Z', h4, h5⟩ := h3 (by
    refine le_trans ?_ (maxFinite_huge (tree := tree) (ht := ht))
    exact mul_le_mul hZ (hexp.trans (by norm_num)) (Real.exp_pos _).le (by positivity))
  refine ⟨Z', h4, h5.trans ?_⟩
  have hub := unit_le
  have hu := two_zpow_pos (-53)
  have : (1 + (2 : ℝ) ^ (-53 : ℤ)) * Real.exp (Spec.logzError (2 ^ (-53 : ℤ)) (2 ^ (-1075 : ℤ)) 1000 1000000 100000 r) ≤
      (1 + 112 / 10 ^ 18) * (1 + 11 / 100000) := mul_le_mul (by linarith) hexp (Real.exp_pos _).le (by norm_num)
  have e : (1 + (2 : ℝ) ^ (-53 : ℤ)) * Real.exp (Spec.logzError (2 ^ (-53 : ℤ)) (2 ^ (-1075 : ℤ)) 1000 1000000 100000 r) - 1 ≤
      1 / 5000 := by
    refine (sub_le_sub_right this 1).trans ?_
    norm_num
  have := mul_le_mul_of_nonneg_left e h2.le
  linarith

/-- C111.  The error of `param_squared_mean` is less than 0.0001 times the square of the size of the parameter. -/
theorem C111_binary64_squared (h : OrdinaryRun r) (htl : r.theta.length = r.logl.length) {ind : Nat} {xs : List ℝ}
    (hx : r.theta.map (·[ind]?) = xs.map some) {T : ℝ} (hT : ∀ x ∈ xs, |x| ≤ T) (hT1 : 1 ≤ T ∧ T ≤ 10 ^ 100) (w : World σ) :
    ∃ p p' : ℝ, paramSquaredMean R r none false ind w = (.ok p, w) ∧
      flParamSquaredMean (binary64 tree ht) (coes r.logl) r.nlive none (coes xs) = .ok (p' : EReal) ∧ |p' - p| ≤ T ^ 2 / 10000 := by
  have hu := two_zpow_pos (-53)
  have hub := unit_le
  have hη0 := two_zpow_pos (-1075)
  have hη := eta_tiny
  have hT2 : 1 ≤ T ^ 2 := one_le_pow₀ hT1.1
  have hT3 : T ^ 2 ≤ 10 ^ 200 := by
    have := pow_le_pow_left₀ (by linarith [hT1.1]) hT1.2 2
    rwa [← pow_mul] at this
  have huT : (2 : ℝ) ^ (-53 : ℤ) * T ^ 2 ≤ 112 / 10 ^ 18 * T ^ 2 := mul_le_mul_of_nonneg_right hub (by linarith)
  have hbig : (1 + (2 : ℝ) ^ (-53 : ℤ)) * T ^ 2 + 2 ^ (-1075 : ℤ) ≤ 11 / 10 * T ^ 2 := by
    have : (1 : ℝ) / 10 ^ 30 ≤ 1 / 100 := by norm_num
    have : (112 : ℝ) / 10 ^ 18 * T ^ 2 ≤ 1 / 100 * T ^ 2 := mul_le_mul_of_nonneg_right (by norm_num) (by linarith)
    linarith
  have hY : 0 ≤ (1 + (2 : ℝ) ^ (-53 : ℤ)) * T ^ 2 + 2 ^ (-1075 : ℤ) := by positivity
  obtain ⟨p, p', h1, h2, h3⟩ := C111_squared R binary64_accurate (h.moderate (tree := tree) (ht := ht)) h.sumsFit htl hx hT (by
    refine le_trans ?_ (maxFinite_large (tree := tree) (ht := ht))
    have hN : (r.logl.length : ℝ) ≤ 100000 := by exact_mod_cast h.samples
    have : 16 * ((1 + (2 : ℝ) ^ (-53 : ℤ)) * T ^ 2 + 2 ^ (-1075 : ℤ) + 1) * r.logl.length ≤ 16 * (11 / 10 * 10 ^ 200 + 1) * 100000 :=
      mul_le_mul (by linarith) hN (by positivity) (by norm_num)
    have e : (10 : ℝ) ^ 7 + 16 * (11 / 10 * 10 ^ 200 + 1) * 100000 ≤ 10 ^ 250 := by norm_num
    have v : 2 * (volumeSize 1000 r.nlive + 1000000) ≤ 10 ^ 7 := by linarith [h.size.1]
    exact (add_le_add v this).trans e) w
  refine ⟨p, p', h1, h2, h3.trans ?_⟩
  have e1 := h.logwError
  have e2 := h.weightError
  have e0 := (h.moderate (tree := tree) (ht := ht)).logwError_nonneg binary64_accurate
  have e3 := (C83_shift e0).2.2
  have e4 := mul_le_mul_of_nonneg_left (e3.trans ((div_le_div_iff_of_pos_right (by norm_num)).mpr e1)) (show (0 : ℝ) ≤ T ^ 2 by linarith)
  have e5 : 5 * (2 * ((1 + (2 : ℝ) ^ (-53 : ℤ)) * T ^ 2 + 2 ^ (-1075 : ℤ)) + 1) * Spec.weightError (2 ^ (-53 : ℤ)) (2 ^ (-1075 : ℤ)) 100000 r.logl.length (2 * (volumeSize 1000 r.nlive + 1000000)) ≤ 5 * (2 * (11 / 10 * T ^ 2) + 1) * (1 / 10 ^ 9) :=
    (mul_le_mul_of_nonneg_left e2 (by positivity)).trans (mul_le_mul_of_nonneg_right (by linarith) (by norm_num))
  have e6 : (2 : ℝ) ^ (-53 : ℤ) * T ^ 2 + 2 ^ (-1075 : ℤ) ≤ T ^ 2 / 10 ^ 10 := by
    refine (add_le_add huT hη).trans ?_
    norm_num
    linarith
  refine (add_le_add (add_le_add e4 e6) e5).trans ?_
  norm_num
  linarith

/-- C111.  The error of `r_mean` is less than 0.0001 times the largest radius, for up to a million parameters, whatever the
order of the additions. -/
theorem C111_binary64_r_mean (h : OrdinaryRun r) (htl : r.theta.length = r.logl.length) {d : Nat} (hd : ∀ t ∈ r.theta, t.length = d)
    (hd6 : d ≤ 1000000) {order : SumTree} (ho : order.leaves.Perm (List.range d)) {B : ℝ} (hB : ∀ t ∈ r.theta, Spec.radius t ≤ B)
    (hB1 : 1 ≤ B ∧ B ≤ 10 ^ 100) (w : World σ) :
    ∃ p p' : ℝ, rMean R r none false w = (.ok p, w) ∧
      flRMean (binary64 tree ht) (root64 tree ht) order (coes r.logl) r.nlive none (coeRows r.theta) = .ok (p' : EReal) ∧
      |p' - p| ≤ B / 10000 := by
  have hu := two_zpow_pos (-53)
  have hub := unit_le
  have hη0 := two_zpow_pos (-1075)
  have hη := eta_tiny
  have hB0 : (0 : ℝ) ≤ B := by linarith [hB1.1]
  have hdR : (d : ℝ) ≤ 1000000 := by exact_mod_cast hd6
  have hdη : (d : ℝ) * 2 ^ (-1075 : ℤ) ≤ 1 / 10 ^ 24 := by
    refine (mul_le_mul hdR hη hη0.le (by norm_num)).trans ?_
    norm_num
  have hk : order.depth ≤ 1000000 := by
    have h1 := SumTree.depth_lt order
    have h2 := ho.length_eq
    rw [List.length_range] at h2
    omega
  have hroot : Real.sqrt (2 * d * 2 ^ (-1075 : ℤ)) ≤ 1 / 10 ^ 10 := by
    apply Real.sqrt_le_iff.mpr
    refine ⟨by norm_num, ?_⟩
    rw [mul_assoc]
    refine (mul_le_mul_of_nonneg_left hdη (by norm_num)).trans ?_
    norm_num
  have hrad : radiusError (2 ^ (-53 : ℤ)) (2 ^ (-1075 : ℤ)) d 1000000 B ≤ B / 10 ^ 8 := by
    unfold radiusError
    have a1 : (6 * ((1000000 : ℕ) : ℝ) + 3) * 2 ^ (-53 : ℤ) * B ≤ (6 * ((1000000 : ℕ) : ℝ) + 3) * (112 / 10 ^ 18) * B :=
      mul_le_mul_of_nonneg_right (mul_le_mul_of_nonneg_left hub (by norm_num)) hB0
    refine (add_le_add (add_le_add a1 (mul_le_mul_of_nonneg_left hroot (by norm_num))) hη).trans ?_
    have := hB1.1
    norm_num
    linarith
  have hrad0 : 0 ≤ radiusError (2 ^ (-53 : ℤ)) (2 ^ (-1075 : ℤ)) d 1000000 B := by unfold radiusError; positivity
  generalize hε : radiusError (2 ^ (-53 : ℤ)) (2 ^ (-1075 : ℤ)) d 1000000 B = ε at hrad hrad0
  have hBε : B + ε ≤ 11 / 10 * B := by
    norm_num at hrad
    linarith
  obtain ⟨p, p', h1, h2, h3⟩ := C111_r_mean R binary64_accurate root64_accurate (h.moderate (tree := tree) (ht := ht)) h.sumsFit htl hd ho
    hk (by
      refine (mul_le_mul_of_nonneg_left hub (by norm_num)).trans ?_
      norm_num) (hdη.trans (by norm_num)) hB (by
      refine le_trans ?_ (maxFinite_large (tree := tree) (ht := ht))
      have : (B + 1) ^ 2 ≤ (10 ^ 100 + 1) ^ 2 := pow_le_pow_left₀ (by linarith) (by linarith [hB1.2]) 2
      refine (mul_le_mul_of_nonneg_left this (by norm_num)).trans ?_
      norm_num) (by
      rw [hε]
      refine le_trans ?_ (maxFinite_large (tree := tree) (ht := ht))
      have hN : (r.logl.length : ℝ) ≤ 100000 := by exact_mod_cast h.samples
      have : 8 * (B + ε + 1) * r.logl.length ≤ 8 * (11 / 10 * 10 ^ 100 + 1) * 100000 :=
        mul_le_mul (by linarith [hB1.2]) hN (by positivity) (by norm_num)
      have e : (10 : ℝ) ^ 7 + 8 * (11 / 10 * 10 ^ 100 + 1) * 100000 ≤ 10 ^ 250 := by norm_num
      have v : 2 * (volumeSize 1000 r.nlive + 1000000) ≤ 10 ^ 7 := by linarith [h.size.1]
      exact (add_le_add v this).trans e) w
  rw [hε] at h3
  refine ⟨p, p', h1, h2, h3.trans ?_⟩
  have e1 := h.logwError
  have e2 := h.weightError
  have e0 := (h.moderate (tree := tree) (ht := ht)).logwError_nonneg binary64_accurate
  have e3 := (C83_shift e0).2.2
  have e4 := mul_le_mul_of_nonneg_left (e3.trans ((div_le_div_iff_of_pos_right (by norm_num)).mpr e1)) hB0
  have e5 : 3 * (2 * (B + ε) + 1) * Spec.weightError (2 ^ (-53 : ℤ)) (2 ^ (-1075 : ℤ)) 100000 r.logl.length (2 * (volumeSize 1000 r.nlive + 1000000)) ≤ 3 * (2 * (11 / 10 * B) + 1) * (1 / 10 ^ 9) :=
    (mul_le_mul_of_nonneg_left e2 (by positivity)).trans (mul_le_mul_of_nonneg_right (by linarith) (by norm_num))
  refine (add_le_add (add_le_add e4 hrad) e5).trans ?_
  have := hB1.1
  norm_num
  linarith

end

/-- The order of the additions for two parameters. -/
def pairOrder : SumTree := .node (.leaf 1) (.leaf 0)

/-- A run with two parameters. -/
def samplePlane : Run ℝ :=
  { logl := [-5, -2, 1], nlive := [2, 2, 1], theta := [[0, 2], [3, 4], [-6, 8]], labels := none, tmm := none }

theorem samplePlane_ok : OrdinaryRun samplePlane where
  run := ⟨by simp [samplePlane], by simp [samplePlane], by simp [samplePlane]⟩
  samples := by simp [samplePlane]
  few := by simp [samplePlane]
  logl := by simp only [samplePlane]; norm_num
  depth := by simp only [samplePlane, compression]; norm_num

def loopRoot64 : EReal → EReal := root64 (fun n => leftTree (n - 1)) fun n h => by
  rw [leftTree_leaves, Nat.sub_add_cancel (Nat.one_le_iff_ne_zero.mpr h)]

example {σ : Type} (R : Rng σ ℝ) (w : World σ) : ∃ p p' : ℝ, rMean R samplePlane none false w = (.ok p, w) ∧
    flRMean loop64 loopRoot64 pairOrder (coes [-5, -2, 1]) [2, 2, 1] none (coeRows [[0, 2], [3, 4], [-6, 8]]) = .ok (p' : EReal) ∧
    |p' - p| ≤ 10 / 10000 :=
  C111_binary64_r_mean R samplePlane_ok rfl (d := 2) (by simp [samplePlane]) (by norm_num) (order := pairOrder)
    (by simp only [pairOrder, SumTree.leaves]; decide) (B := 10) (by
      intro t ht
      unfold Spec.radius
      apply Real.sqrt_le_iff.mpr
      simp only [samplePlane, List.mem_cons, List.not_mem_nil, or_false] at ht
      rcases ht with rfl | rfl | rfl <;> norm_num) (by norm_num) w

example {σ : Type} (R : Rng σ ℝ) (w : World σ) : ∃ p p' : ℝ, paramSquaredMean R samplePlane none false 1 w = (.ok p, w) ∧
    flParamSquaredMean loop64 (coes [-5, -2, 1]) [2, 2, 1] none (coes [2, 4, 8]) = .ok (p' : EReal) ∧ |p' - p| ≤ 8 ^ 2 / 10000 :=
  C111_binary64_squared R samplePlane_ok rfl (xs := [2, 4, 8]) rfl (T := 8) (by norm_num) (by norm_num) w

end
end Nestcheck
