import Verif.Proofs.Accuracy

/-
C84: accuracy of the estimates calculated in floating point arithmetic.
-/

namespace Nestcheck
open Spec
noncomputable section
variable {σ : Type} (R : Rng σ ℝ) {F : FloatArith} {u η : ℝ}

/-- The expected total decrease of the log prior volume. -/
def Spec.compression (nlive : List Int) : ℝ := (nlive.map (fun n : Int => 1 / (n : ℝ))).sum

/-- A bound on the numbers in the calculation of the prior volumes of a run with at most `M` live points. -/
def Spec.volumeSize (M : ℝ) (nlive : List Int) : ℝ := compression nlive + Real.log (2 * (M + 1)) + 4

/-- A bound on the error of the log prior volumes. -/
def Spec.volumeError (u η M : ℝ) (nlive : List Int) : ℝ :=
  8 * (M + 2) * (nlive.length + 8) * (u * volumeSize M nlive + η)

/-- A bound on the error of the log weights, if loglikelihoods are at most `Λ`. -/
def Spec.logwError (u η M Λ : ℝ) (nlive : List Int) : ℝ :=
  volumeError u η M nlive + (u * (volumeSize M nlive + Λ) + η)

/-- A run with one positive live count for each sample, at most `M` live points and loglikelihoods of size at most `Λ`, for
which the precision is sufficient. -/
structure Spec.Moderate (F : FloatArith) (u η : ℝ) (r : Run ℝ) (M Λ : ℝ) : Prop where
  run : Weighable r
  few : ∀ n ∈ r.nlive, (n : ℝ) ≤ M
  logl : ∀ l ∈ r.logl, |l| ≤ Λ
  count : r.nlive.length + 1 ≤ F.maxInt
  size : 4 * (volumeSize M r.nlive + Λ) ≤ F.maxFinite
  precise : volumeError u η M r.nlive ≤ 1

theorem compression_eq (nlive : List Int) : compression nlive = -(expectedSteps nlive).sum := by
  unfold compression expectedSteps
  induction nlive with
  | nil => simp
  | cons n ns ih =>
    simp only [List.map_cons, List.sum_cons, ih]
    ring

theorem compression_nonneg {nlive : List Int} (hp : ∀ n ∈ nlive, 0 < n) : 0 ≤ compression nlive := by
  unfold compression
  apply List.sum_nonneg
  intro x hx
  obtain ⟨n, hn, rfl⟩ := List.mem_map.mp hx
  have : (0 : ℝ) < n := by exact_mod_cast hp n hn
  positivity

variable {r : Run ℝ} {M Λ : ℝ}

theorem Spec.Moderate.nlive_ne (h : Moderate F u η r M Λ) : r.nlive ≠ [] := by
  intro e
  have := h.run.len
  rw [e] at this
  exact h.run.nonempty (List.length_eq_zero_iff.mp this.symm)

theorem Spec.Moderate.M_ge (h : Moderate F u η r M Λ) : 1 ≤ M := by
  obtain ⟨n, hn⟩ := List.exists_mem_of_ne_nil _ h.nlive_ne
  have h1 : (1 : ℝ) ≤ n := by exact_mod_cast h.run.pos n hn
  exact h1.trans (h.few n hn)

theorem Spec.Moderate.Λ_nonneg (h : Moderate F u η r M Λ) : 0 ≤ Λ := by
  obtain ⟨l, hl⟩ := List.exists_mem_of_ne_nil _ h.run.nonempty
  exact (abs_nonneg _).trans (h.logl l hl)

theorem Spec.Moderate.scale (h : Moderate F u η r M Λ) (H : Accurate F u η) :
    Scale F u η (volumeSize M r.nlive) (u * volumeSize M r.nlive + η) (compression r.nlive) (Real.log (2 * (M + 1))) where
  acc := H
  ν_eq := rfl
  X_nonneg := compression_nonneg h.run.pos
  G_nonneg := Real.log_nonneg (by linarith [h.M_ge])
  B_ge := le_rfl
  fits := by linarith [h.size, h.Λ_nonneg]

/-- The log weights: in exact arithmetic they are at most `volumeSize - 3 + Λ` in size. -/
theorem Spec.Moderate.logw (h : Moderate F u η r M Λ) (H : Accurate F u η) (w : World σ) :
    ∃ lw lw' : List ℝ, getLogw R r false w = (.ok lw, w) ∧ flLogw F (coes r.logl) r.nlive none = .ok (coes lw') ∧
      (∀ x ∈ lw, |x| ≤ volumeSize M r.nlive - 3 + Λ) ∧ lw.length = r.logl.length ∧
      Within (logwError u η M Λ r.nlive) lw' lw := by
  have S := h.scale H
  have hν := S.ν_nonneg
  have hX0 := S.X_nonneg
  have hG0 := S.G_nonneg
  have hΛ := h.Λ_nonneg
  have hM := h.M_ge
  have hne := h.nlive_ne
  have hpos := h.run.pos
  have hlen := h.run.len
  have hprec := h.precise
  have hu0 := H.u_nonneg
  have hη0 := H.η_nonneg
  have hsz := h.size
  have hV0 : 0 ≤ volumeSize M r.nlive := by unfold volumeSize; linarith
  have hlast : 0 ≤ u * (volumeSize M r.nlive + Λ) + η := by positivity
  set X := compression r.nlive with hX
  set G := Real.log (2 * (M + 1)) with hG
  set ν := u * volumeSize M r.nlive + η with hνd
  have hVe : volumeError u η M r.nlive = 8 * (M + 2) * (r.nlive.length + 8) * ν := rfl
  have hN1 : (1 : ℝ) ≤ r.nlive.length := by exact_mod_cast List.length_pos_iff.mpr hne
  have hMν : 0 ≤ M * ν := by positivity
  have hNν : 0 ≤ (r.nlive.length : ℝ) * ν := by positivity
  have hMNν : 0 ≤ M * r.nlive.length * ν := by positivity
  rw [hVe] at hprec
  have hgx := getLogx_expected (R := R) hne hpos w
  obtain ⟨ys, hys, hwy⟩ := S.logx hne hpos (by rw [hX, compression_eq]; linarith) (by nlinarith)
  obtain ⟨ys2, hys2, -, hmono, hyb⟩ := C79_logx (F := F) hne hpos (L := 1) le_rfl (by have := h.count; omega)
    (us := none) (by simp)
  have hyy : ys2 = coes ys := by rw [hys] at hys2; exact (Except.ok.inj hys2).symm
  subst hyy
  have hstep : ∀ s ∈ expectedSteps r.nlive, s ≤ -(1 / M) := by
    intro s hs
    obtain ⟨n, hn, rfl⟩ := List.mem_map.mp hs
    have h1 : (0 : ℝ) < n := by exact_mod_cast hpos n hn
    have h2 := one_div_le_one_div_of_le h1 (h.few n hn)
    rw [neg_div]
    linarith
  obtain ⟨hgap, hbd⟩ := cumsumFrom_bounds (g := 1 / M) (by positivity) (acc := 0) hstep
  have hcs : Nestcheck.cumsumFrom 0 (expectedSteps r.nlive) = positions (expectedSteps r.nlive) := cumsum_eq _
  rw [hcs] at hgap hbd
  have hplen : (positions (expectedSteps r.nlive)).length = r.nlive.length := by simp [positions, expectedSteps]
  have hylen : ys.length = r.nlive.length := by rw [← hplen]; exact hwy.length_eq
  have hM0 : 0 < 1 / M := by positivity
  set logx := positions (expectedSteps r.nlive) with hlogx
  have hymono : ys.Pairwise (· ≥ ·) := by
    unfold coes at hmono
    rw [List.pairwise_map] at hmono
    exact hmono.imp fun {a b} hab => by exact_mod_cast hab
  have hyb' : ∀ y ∈ ys, -(r.nlive.length : ℝ) ≤ y ∧ y ≤ 0 := by
    intro y hy
    have := hyb (y : EReal) (List.mem_map_of_mem hy)
    rw [one_mul] at this
    exact ⟨by exact_mod_cast this.1, by exact_mod_cast this.2⟩
  have hVs : volumeSize M r.nlive = X + G + 4 := rfl
  by_cases h2 : 2 ≤ logx.length
  · obtain ⟨vs', vs, hv', hv, hvb, hvw⟩ := S.volumes h2 (by linarith) hwy hgap
      (fun x hx => ⟨by linarith [(hbd x hx).1], by
        have := (hbd x hx).2
        rw [hX, compression_eq]; linarith⟩) hymono h.count hyb' le_rfl (by nlinarith)
    have hvl : vs.length = r.logl.length := by
      have e := volumes_ok h2 (hgap.imp fun {a b} hab => by linarith) (fun x hx => by linarith [(hbd x hx).1])
      rw [hv] at e
      rw [Except.ok.inj e, List.length_map, length_shells (by
        intro e; rw [List.map_eq_nil_iff] at e; rw [e] at h2; simp at h2), List.length_map, hplen, hlen]
    have hvw' : Within (volumeError u η M r.nlive) vs' vs := by
      refine List.Forall₂.imp ?_ hvw
      intro a b hab
      rw [hVe]
      nlinarith
    refine ⟨List.zipWith (· + ·) vs r.logl, ?_⟩
    have hadd : ∃ lw' : List ℝ, pyMap (fun p : EReal × EReal => flAdd F p.1 p.2) ((coes vs').zip (coes r.logl)) = .ok (coes lw') ∧
        Within (logwError u η M Λ r.nlive) lw' ((vs.zip r.logl).map (fun q => q.1 + q.2)) := by
      refine pyMap_close (Rel := fun p q => ∃ v' : ℝ, p = ((v' : EReal), ((q.2 : ℝ) : EReal)) ∧
        |v' - q.1| ≤ volumeError u η M r.nlive ∧ |q.1| ≤ X + G + 1 ∧ |q.2| ≤ Λ) ?_ ?_
      · rintro p ⟨v, l⟩ ⟨v', rfl, h1, h3, h4⟩
        simp only at h1 h3 h4 ⊢
        have hmag : |v' + l| ≤ volumeSize M r.nlive + Λ := by
          have b1 := abs_le.mp h1
          have b2 := abs_le.mp h3
          have b3 := abs_le.mp h4
          rw [hVe] at b1
          rw [abs_le]
          constructor <;> linarith
        obtain ⟨z, hz, -, hze⟩ := H.add (x := v') (y := l) (by linarith)
        refine ⟨z, hz, ?_⟩
        rw [show z - (v + l) = (z - (v' + l)) + (v' - v) by ring]
        refine (abs_add_le _ _).trans ?_
        unfold logwError
        linarith [mul_le_mul_of_nonneg_left hmag hu0]
      · rw [List.forall₂_iff_get]
        have hl' : vs'.length = vs.length := hvw.length_eq
        refine ⟨by simp [coes, hl'], ?_⟩
        intro i hi1 hi2
        have hi3 : i < vs.length ∧ i < r.logl.length := by simpa using hi2
        refine ⟨vs'[i]'(by omega), by simp [coes], ?_, ?_, ?_⟩
        · simpa using (List.forall₂_iff_get.mp hvw').2 i (by omega) hi3.1
        · simpa using hvb _ (List.getElem_mem hi3.1)
        · simpa using h.logl _ (List.getElem_mem hi3.2)
    obtain ⟨lw', hlw', hlw2⟩ := hadd
    have hzip : (vs.zip r.logl).map (fun q => q.1 + q.2) = List.zipWith (· + ·) vs r.logl := by
      rw [List.zip, List.map_zipWith]
    rw [hzip] at hlw2
    refine ⟨lw', ?_, ?_, ?_, ?_, hlw2⟩
    · unfold getLogw
      rw [Nestcheck.M.bind_ok hgx, if_neg (by rw [hplen, hlen]; simp), hv]
      rfl
    · unfold flLogw
      rw [hys, Py.ok_bind, if_neg (by simp [coes, hylen, hlen]), hv']
      exact hlw'
    · intro x hx
      rw [← hzip] at hx
      obtain ⟨⟨v, l⟩, hq, rfl⟩ := List.mem_map.mp hx
      have b1 := hvb v (List.of_mem_zip hq).1
      have b2 := h.logl l (List.of_mem_zip hq).2
      refine (abs_add_le _ _).trans ?_
      linarith
    · simp [hvl]
  · have h1 := List.length_pos_iff.mpr h.run.nonempty
    have hl1 : r.logl.length = 1 := by omega
    have hlx1 : logx.length = 1 := by omega
    have hy1 : ys.length = 1 := by omega
    refine ⟨r.logl, r.logl, ?_, ?_, ?_, rfl, ?_⟩
    · unfold getLogw
      rw [Nestcheck.M.bind_ok hgx, if_neg (by omega)]
      obtain ⟨x, hx⟩ := List.length_eq_one_iff.mp hlx1
      rw [hx]
      have : Nestcheck.volumes [x] = .error .index := rfl
      rw [this]
      simp only [hl1, if_true]
      rfl
    · unfold flLogw
      rw [hys, Py.ok_bind, if_neg (by simp [coes, hy1, hl1])]
      obtain ⟨y, hy⟩ := List.length_eq_one_iff.mp hy1
      rw [hy]
      have : flVolumes F (coes [y]) = .error .index := rfl
      rw [this]
      simp [coes, hl1]
    · intro x hx
      have := h.logl x hx
      linarith
    · unfold Within
      rw [List.forall₂_same]
      intro x _
      rw [sub_self, abs_zero]
      unfold logwError
      rw [hVe]
      positivity

theorem Spec.Moderate.logwError_nonneg (h : Moderate F u η r M Λ) (H : Accurate F u η) : 0 ≤ logwError u η M Λ r.nlive := by
  have S := h.scale H
  have hν := S.ν_nonneg
  have hX0 := S.X_nonneg
  have hG0 := S.G_nonneg
  have hΛ := h.Λ_nonneg
  have hM := h.M_ge
  have hu0 := H.u_nonneg
  have hη0 := H.η_nonneg
  have hV0 : 0 ≤ volumeSize M r.nlive := by unfold volumeSize; linarith
  unfold logwError volumeError
  positivity

/-- C84.  `get_logw`: no log weight is wrong by more than `logwError`. -/
theorem C84_logw (H : Accurate F u η) (h : Moderate F u η r M Λ) (w : World σ) :
    ∃ lw lw' : List ℝ, getLogw R r false w = (.ok lw, w) ∧ flLogw F (coes r.logl) r.nlive none = .ok (coes lw') ∧
      Within (logwError u η M Λ r.nlive) lw' lw := by
  obtain ⟨lw, lw', h1, h2, -, -, h3⟩ := h.logw R H w
  exact ⟨lw, lw', h1, h2, h3⟩

/-- What is needed to add up the weights: `h` bounds the number of additions on any path, i.e. the number of samples less one
for a simple loop, and about its logarithm for pairwise summation. -/
structure Spec.SumsFit (F : FloatArith) (u η : ℝ) (r : Run ℝ) (M Λ : ℝ) (h : ℕ) : Prop where
  depth : (F.tree r.logl.length).depth ≤ h
  precise : weightError u η h r.logl.length (2 * (volumeSize M r.nlive + Λ)) ≤ 1 / 2

theorem Spec.Moderate.spread {h : ℕ} (hm : Moderate F u η r M Λ) (H : Accurate F u η) (hs : SumsFit F u η r M Λ h)
    {lw lw' : List ℝ} (hb : ∀ x ∈ lw, |x| ≤ volumeSize M r.nlive - 3 + Λ)
    (hw : Within (logwError u η M Λ r.nlive) lw' lw) : ∀ x ∈ lw', |x| ≤ volumeSize M r.nlive + Λ := by
  have hX0 := (hm.scale H).X_nonneg
  have hG0 := (hm.scale H).G_nonneg
  have hΛ := hm.Λ_nonneg
  have hu0 := H.u_nonneg
  have hη0 := H.η_nonneg
  have hV0 : 0 ≤ volumeSize M r.nlive := by unfold volumeSize; linarith
  have hN : (1 : ℝ) ≤ r.logl.length := by exact_mod_cast List.length_pos_iff.mpr hm.run.nonempty
  have hε : logwError u η M Λ r.nlive ≤ 2 := by
    have h1 := hm.precise
    have h2 := hs.precise
    unfold weightError at h2
    unfold logwError
    have h3 : 0 ≤ (4 * (h : ℝ) + 5) * u := by positivity
    have h4 : 0 ≤ u * (volumeSize M r.nlive + Λ) := by positivity
    have h5 : η ≤ r.logl.length * η := le_mul_of_one_le_left hη0 hN
    nlinarith
  intro x hx
  obtain ⟨y, hy, hxy⟩ := forall₂_mem_left hw hx
  have b1 := abs_le.mp hxy
  have b2 := abs_le.mp (hb y hy)
  rw [abs_le]
  constructor <;> linarith

/-- C84.  `logz`. -/
theorem C84_logz (H : Accurate F u η) (hm : Moderate F u η r M Λ) {h : ℕ} (hs : SumsFit F u η r M Λ h)
    (hF : 3 * (volumeSize M r.nlive + Λ) + 4 * r.logl.length ≤ F.maxFinite) (w : World σ) :
    ∃ z z' : ℝ, logz R r none false w = (.ok z, w) ∧ flLogz F (coes r.logl) r.nlive none = .ok (z' : EReal) ∧
      |z' - z| ≤ logwError u η M Λ r.nlive + (2 * weightError u η h r.logl.length (2 * (volumeSize M r.nlive + Λ)) +
        (u * (3 * Real.log (2 * r.logl.length) + 1 + (volumeSize M r.nlive + Λ)) + 2 * η)) := by
  obtain ⟨lw, lw', h1, h2, h3, hl, h4⟩ := hm.logw R H w
  have hsp := hm.spread H hs h3 h4
  have hl' : lw'.length = r.logl.length := h4.length_eq.trans hl
  have hne : lw ≠ [] := by intro e; rw [e] at hl; exact hm.run.nonempty (List.length_eq_zero_iff.mp hl.symm)
  have hne' : lw' ≠ [] := by intro e; rw [e] at hl'; exact hm.run.nonempty (List.length_eq_zero_iff.mp hl'.symm)
  obtain ⟨m, hmx⟩ := exists_amax hne'
  obtain ⟨hmem, -⟩ := amax_eq_some.mp hmx
  obtain ⟨z', hz', hze⟩ := H.logsumexp (D := 2 * (volumeSize M r.nlive + Λ)) (Λ := volumeSize M r.nlive + Λ) (h := h) hmx
    (fun x hx => by
      have b1 := abs_le.mp (hsp x hx)
      have b2 := abs_le.mp (hsp m hmem)
      linarith) (by rw [hl']; exact hs.depth) (by rw [hl']; exact hs.precise) (hsp m hmem) (by rw [hl']; linarith)
  rw [log_totalWeight hne', hl'] at hze
  refine ⟨Real.log (lw.map Real.exp).sum, z', ?_, ?_, ?_⟩
  · unfold logz logwOr
    rw [Nestcheck.M.bind_ok h1, logsumexp_ok hne]
    rfl
  · unfold flLogz
    rw [h2, Py.ok_bind, hz']
  · have := log_sum_exp_close h4 hne'
    rw [show z' - Real.log (lw.map Real.exp).sum = (z' - Real.log (lw'.map Real.exp).sum) +
      (Real.log (lw'.map Real.exp).sum - Real.log (lw.map Real.exp).sum) by ring]
    refine (abs_add_le _ _).trans ?_
    linarith

/-- The weighted mean does not depend on the scale of the weights. -/
theorem mean_exp_sub (lws xs : List ℝ) (m : ℝ) :
    mean (lws.map (fun x => Real.exp (x - m))) xs = mean (lws.map Real.exp) xs := by
  unfold mean
  have h1 : lws.map (fun x => Real.exp (x - m)) = lws.map (fun x => Real.exp (-m) * Real.exp x) := by
    apply List.map_congr_left
    intro x _
    rw [← Real.exp_add]
    congr 1
    ring
  have h2 : (List.zipWith (· * ·) (lws.map (fun x => Real.exp (-m) * Real.exp x)) xs).sum =
      Real.exp (-m) * (List.zipWith (· * ·) (lws.map Real.exp) xs).sum := by
    clear h1
    induction lws generalizing xs with
    | nil => simp
    | cons l lws ih =>
      cases xs with
      | nil => simp
      | cons x xs =>
        simp only [List.map_cons, List.zipWith_cons_cons, List.sum_cons, ih]
        ring
  rw [h1, h2, List.sum_map_mul_left, mul_div_mul_left _ _ (Real.exp_pos _).ne']

/-- C84.  `param_mean`, for a parameter of size at most `T`. -/
theorem C84_param_mean (H : Accurate F u η) (hm : Moderate F u η r M Λ) {h : ℕ} (hs : SumsFit F u η r M Λ h)
    (ht : r.theta.length = r.logl.length) {ind : Nat} {xs : List ℝ} (hx : r.theta.map (·[ind]?) = xs.map some) {T : ℝ}
    (hT : ∀ x ∈ xs, |x| ≤ T)
    (hF : 2 * (volumeSize M r.nlive + Λ) + 8 * (T + 1) * r.logl.length ≤ F.maxFinite) (handle : Bool) (w : World σ) :
    ∃ p p' : ℝ, paramMean R r none false ind handle w = (.ok (some p), w) ∧
      flParamMean F (coes r.logl) r.nlive none (coes xs) = .ok (p' : EReal) ∧
      |p' - p| ≤ 2 * T * shift (logwError u η M Λ r.nlive) +
        3 * (2 * T + 1) * weightError u η h r.logl.length (2 * (volumeSize M r.nlive + Λ)) := by
  obtain ⟨lw, lw', h1, h2, h3, hl, h4⟩ := hm.logw R H w
  have hsp := hm.spread H hs h3 h4
  have hl' : lw'.length = r.logl.length := h4.length_eq.trans hl
  have hne : lw ≠ [] := by intro e; rw [e] at hl; exact hm.run.nonempty (List.length_eq_zero_iff.mp hl.symm)
  have hne' : lw' ≠ [] := by intro e; rw [e] at hl'; exact hm.run.nonempty (List.length_eq_zero_iff.mp hl'.symm)
  have hxl : xs.length = r.logl.length := by
    have := congrArg List.length hx
    simp only [List.length_map] at this
    omega
  obtain ⟨m, hmx⟩ := exists_amax hne'
  obtain ⟨hmem, -⟩ := amax_eq_some.mp hmx
  obtain ⟨p', hp', hpe⟩ := H.weightedMean (D := 2 * (volumeSize M r.nlive + Λ)) (h := h) hmx
    (fun x hx => by
      have b1 := abs_le.mp (hsp x hx)
      have b2 := abs_le.mp (hsp m hmem)
      linarith) (by rw [hl']; exact hs.depth) (by rw [hl']; exact hs.precise) hT (by rw [hl', hxl]) (by rw [hl']; exact hF)
  rw [mean_exp_sub, hl'] at hpe
  obtain ⟨p, e1, e2, -⟩ := C30_param_mean R (r := r) (logw := some lw) (sim := false) (w := w) ⟨ht, hm.run.nonempty, hl⟩ hx handle
  have e2' : p = mean (lw.map Real.exp) xs := e2
  refine ⟨p, p', ?_, ?_, ?_⟩
  · unfold paramMean logwOr at e1 ⊢
    rw [Nestcheck.M.bind_ok h1]
    exact e1
  · unfold flParamMean
    rw [h2, Py.ok_bind]
    exact hp'
  · have hf := within_factor_exp h4
    have hmb := mean_both (hm.logwError_nonneg H) hf.symm (xs := xs) (xs' := xs) (η := 0) (by simpa using hne) (by simp [hl, hxl])
      (lo := -T) (hi := T) (fun x hx => abs_le.mp (hT x hx)) (by unfold Within; rw [List.forall₂_same]; simp)
    rw [e2', show p' - mean (lw.map Real.exp) xs = (p' - mean (lw'.map Real.exp) xs) +
      (mean (lw'.map Real.exp) xs - mean (lw.map Real.exp) xs) by ring]
    refine (abs_add_le _ _).trans ?_
    linarith

/-! ### No rounding -/

theorem exactArith_accurate : Accurate exactArith 0 0 where
  u_nonneg := le_rfl
  η_nonneg := le_rfl
  round := fun x _ => ⟨x, rfl, by simp⟩
  sum := fun x y _ _ _ => ⟨x + y, rfl, by simp⟩
  exp := fun x _ => ⟨_, exact_exp x, by simp⟩
  exp_float := fun _ => rfl
  log := fun x hx _ => ⟨_, erealLog_coe hx, by simp⟩

/-- C84.  Without rounding the two models of `param_mean` agree. -/
theorem C84_exact (hw : Weighable r) (hM : ∀ n ∈ r.nlive, (n : ℝ) ≤ M) (hl : ∀ l ∈ r.logl, |l| ≤ Λ)
    (hn : r.nlive.length + 1 ≤ 2 ^ 53) (hz : 4 * (volumeSize M r.nlive + Λ) ≤ 10 ^ 100)
    (ht : r.theta.length = r.logl.length) {ind : Nat} {xs : List ℝ} (hx : r.theta.map (·[ind]?) = xs.map some) {T : ℝ}
    (hT : ∀ x ∈ xs, |x| ≤ T) (hF : 2 * (volumeSize M r.nlive + Λ) + 8 * (T + 1) * r.logl.length ≤ 10 ^ 100) (handle : Bool)
    (w : World σ) :
    ∃ p : ℝ, paramMean R r none false ind handle w = (.ok (some p), w) ∧
      flParamMean exactArith (coes r.logl) r.nlive none (coes xs) = .ok (p : EReal) := by
  obtain ⟨p, p', h1, h2, h3⟩ := C84_param_mean R exactArith_accurate (r := r) (M := M) (Λ := Λ)
    (h := (exactArith.tree r.logl.length).depth)
    ⟨hw, hM, hl, hn, hz, by simp [volumeError]⟩ ⟨le_rfl, by simp [weightError]⟩ ht hx hT hF handle w
  have : p' = p := by
    have e : |p' - p| ≤ 0 := h3.trans (by simp [logwError, volumeError, weightError, shift])
    linarith [abs_nonpos_iff.mp e]
  rw [this] at h2
  exact ⟨p, h1, h2⟩

end
end Nestcheck
