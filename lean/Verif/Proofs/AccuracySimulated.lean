import Verif.Props.Accuracy

/-
Accuracy of the log weights with simulated prior volumes (`simulate=True`).
-/

namespace Nestcheck
open Spec
noncomputable section
variable {σ : Type} (R : Rng σ ℝ) {F : FloatArith} {u η : ℝ}

/-- The total decrease of the log prior volume, for uniform random numbers `us`. -/
def Spec.simulatedCompression (us : List ℝ) (nlive : List Int) : ℝ := -(simulatedSteps us nlive).sum

/-- A bound on the numbers in the calculation of the prior volumes, if each step is at least `1 / M`. -/
def Spec.simulatedSize (M : ℝ) (us : List ℝ) (nlive : List Int) : ℝ :=
  3 * simulatedCompression us nlive + Real.log (2 * (M + 1)) + 4

/-- A bound on the error of the log prior volumes. -/
def Spec.simulatedVolumeError (u η M : ℝ) (us : List ℝ) (nlive : List Int) : ℝ :=
  8 * (M + 2) * (nlive.length + 8) * (u * simulatedSize M us nlive + 4 * η)

/-- A bound on the error of the log weights, if loglikelihoods are at most `Λ`. -/
def Spec.simulatedLogwError (u η M Λ : ℝ) (us : List ℝ) (nlive : List Int) : ℝ :=
  simulatedVolumeError u η M us nlive + (u * (simulatedSize M us nlive + Λ) + η)

/-- A run with one positive live count for each sample and loglikelihoods of size at most `Λ`, and random numbers `us` none of
which is so close to one that the step is less than `1 / M`, or so small that its logarithm is below `-L`, for which the
precision is sufficient. -/
structure Spec.ModerateDraws (F : FloatArith) (u η : ℝ) (r : Run ℝ) (us : List ℝ) (M Λ : ℝ) (L : ℕ) : Prop where
  run : Weighable r
  draws : us.length = r.nlive.length
  interval : ∀ v ∈ us, 0 < v ∧ v < 1
  small : ∀ v ∈ us, -(L : ℝ) ≤ Real.log v
  M_ge : 1 ≤ M
  apart : ∀ s ∈ simulatedSteps us r.nlive, s ≤ -(1 / M)
  logl : ∀ l ∈ r.logl, |l| ≤ Λ
  count : (L + 1) * r.nlive.length + 1 ≤ F.maxInt
  logs : u * L + η ≤ 1 ∧ L ≤ F.maxFinite
  size : 4 * (simulatedSize M us r.nlive + Λ) ≤ F.maxFinite
  precise : simulatedVolumeError u η M us r.nlive ≤ 1

theorem Spec.Near.mono {δ ε : ℝ} {x : EReal} {y : ℝ} (h : Near δ x y) (hd : δ ≤ ε) : Near ε x y := by
  obtain ⟨z, h1, h2⟩ := h
  exact ⟨z, h1, h2.trans hd⟩

theorem Spec.Accurate.weaken (H : Accurate F u η) : Accurate F u (4 * η) := by
  have := H.η_nonneg
  exact {
    u_nonneg := H.u_nonneg
    η_nonneg := by linarith
    round := fun x hx => (H.round x hx).mono (by linarith)
    sum := H.sum
    exp := fun x hx => (H.exp x hx).mono (by linarith)
    exp_float := H.exp_float
    log := fun x hx hl => (H.log x hx hl).mono (by linarith) }

theorem sum_le_mem {l : List ℝ} (h : ∀ s ∈ l, s ≤ 0) : ∀ s ∈ l, l.sum ≤ s := by
  induction l with
  | nil => simp
  | cons a l ih =>
    have ha := h a (by simp)
    have hl := sum_nonpos_of fun x hx => h x (List.mem_cons_of_mem a hx)
    intro s hs
    rw [List.sum_cons]
    rcases List.mem_cons.mp hs with rfl | hs
    · linarith
    · linarith [ih (fun x hx => h x (by simp [hx])) s hs]

/-- One step: the logarithm of the random number is divided by the live count. -/
theorem Spec.Accurate.simulatedStep (H : Accurate F u η) (hu1 : u ≤ 1) {v : ℝ} {n : Int} (hv : 0 < v ∧ v < 1) (hn : 0 < n)
    (hl : |Real.log v| ≤ F.maxFinite) (hl1 : 3 * |Real.log v / n| + 4 ≤ F.maxFinite) (hη1 : η ≤ 1) :
    ∃ y : ℝ, flSimulatedStep F ((v : EReal), n) = .ok (y : EReal) ∧
      |y - Real.log v / n| ≤ 3 * (u * |Real.log v / n|) + 3 * η := by
  have hu0 := H.u_nonneg
  have hη0 := H.η_nonneg
  have hn1 : (1 : ℝ) ≤ n := by exact_mod_cast hn
  obtain ⟨l, hl2, hl3⟩ := H.log v hv.1 hl
  have e : |l / n - Real.log v / n| ≤ u * |Real.log v / n| + η := by
    rw [← sub_div, abs_div, abs_div, abs_of_nonneg (by linarith : (0 : ℝ) ≤ n), div_le_iff₀ (by linarith)]
    have : (u * (|Real.log v| / n) + η) * n = u * |Real.log v| + η * n := by field_simp
    rw [this]
    nlinarith
  have hle : |l / n| ≤ |Real.log v / n| + (u * |Real.log v / n| + η) := by
    have := abs_sub_abs_le_abs_sub (l / n) (Real.log v / n)
    linarith
  have ha := abs_nonneg (Real.log v / n)
  have hua : u * |Real.log v / n| ≤ |Real.log v / n| := by nlinarith
  obtain ⟨y, hy, hy2⟩ := H.round (l / n) (by linarith)
  refine ⟨y, ?_, ?_⟩
  · unfold flSimulatedStep flLog
    simp only
    rw [if_neg (by rw [not_lt]; exact_mod_cast hv.1.le), Py.ok_bind, hl2]
    unfold flDiv
    rw [show (l : EReal) / ((n : ℝ) : EReal) = ((l / n : ℝ) : EReal) by rw [EReal.coe_div], hy]
    rfl
  · rw [show y - Real.log v / n = (y - l / n) + (l / n - Real.log v / n) by ring]
    refine (abs_add_le _ _).trans ?_
    have h1 := mul_le_mul_of_nonneg_left hle hu0
    have h2 : u * (u * |Real.log v / n|) ≤ u * |Real.log v / n| := by
      have : 0 ≤ u * |Real.log v / n| := by positivity
      nlinarith
    have h3 : u * η ≤ η := by nlinarith
    nlinarith

variable {r : Run ℝ} {us : List ℝ} {M Λ : ℝ} {L : ℕ}

theorem Spec.ModerateDraws.nlive_ne (h : ModerateDraws F u η r us M Λ L) : r.nlive ≠ [] := by
  intro e
  have := h.run.len
  rw [e] at this
  exact h.run.nonempty (List.length_eq_zero_iff.mp this.symm)

theorem Spec.ModerateDraws.Λ_nonneg (h : ModerateDraws F u η r us M Λ L) : 0 ≤ Λ := by
  obtain ⟨l, hl⟩ := List.exists_mem_of_ne_nil _ h.run.nonempty
  exact (abs_nonneg _).trans (h.logl l hl)

theorem Spec.ModerateDraws.neg (h : ModerateDraws F u η r us M Λ L) : ∀ s ∈ simulatedSteps us r.nlive, s ≤ 0 := by
  intro s hs
  have hM := h.M_ge
  have h1 := h.apart s hs
  have : 0 < 1 / M := by positivity
  linarith

theorem Spec.ModerateDraws.compression_nonneg (h : ModerateDraws F u η r us M Λ L) : 0 ≤ simulatedCompression us r.nlive := by
  have := sum_nonpos_of h.neg
  unfold simulatedCompression
  linarith

theorem Spec.ModerateDraws.size_ge (h : ModerateDraws F u η r us M Λ L) :
    3 * simulatedCompression us r.nlive + 4 ≤ simulatedSize M us r.nlive := by
  have : 0 ≤ Real.log (2 * (M + 1)) := Real.log_nonneg (by linarith [h.M_ge])
  unfold simulatedSize
  linarith

theorem Spec.ModerateDraws.scale (h : ModerateDraws F u η r us M Λ L) (H : Accurate F u η) :
    Scale F u (4 * η) (simulatedSize M us r.nlive) (u * simulatedSize M us r.nlive + 4 * η) (simulatedCompression us r.nlive)
      (Real.log (2 * (M + 1))) where
  acc := H.weaken
  ν_eq := rfl
  X_nonneg := h.compression_nonneg
  G_nonneg := Real.log_nonneg (by linarith [h.M_ge])
  B_ge := by
    unfold simulatedSize
    linarith [h.compression_nonneg]
  fits := by linarith [h.size, h.Λ_nonneg]

theorem Spec.ModerateDraws.fine (h : ModerateDraws F u η r us M Λ L) (H : Accurate F u η) : u ≤ 1 ∧ η ≤ 1 := by
  have hX := h.compression_nonneg
  have hs := h.size_ge
  have hM := h.M_ge
  have hu0 := H.u_nonneg
  have hη0 := H.η_nonneg
  have hp := h.precise
  unfold simulatedVolumeError at hp
  have hN : (0 : ℝ) ≤ r.nlive.length := by positivity
  have h1 : u * 4 ≤ u * simulatedSize M us r.nlive := mul_le_mul_of_nonneg_left (by linarith) hu0
  have h2 : u * 4 + 4 * η ≤ u * simulatedSize M us r.nlive + 4 * η := by linarith
  have h3 : (1 : ℝ) ≤ 8 * (M + 2) * (r.nlive.length + 8) := by nlinarith
  have h4 : u * 4 + 4 * η ≤ 1 := by
    have : 0 ≤ u * simulatedSize M us r.nlive + 4 * η := by linarith
    nlinarith
  constructor <;> linarith

/-- The calculated positions. -/
theorem Spec.ModerateDraws.logx (h : ModerateDraws F u η r us M Λ L) (H : Accurate F u η)
    (hδ : 2 * r.nlive.length * (u * simulatedSize M us r.nlive + 4 * η) ≤ 1) :
    ∃ xs' : List ℝ, flLogx F r.nlive (some (coes us)) = .ok (coes xs') ∧
      Within (2 * r.nlive.length * (u * simulatedSize M us r.nlive + 4 * η)) xs' (positions (simulatedSteps us r.nlive)) := by
  have S := h.scale H
  obtain ⟨hu1, hη1⟩ := h.fine H
  have hu0 := H.u_nonneg
  have hη0 := H.η_nonneg
  have hX0 := h.compression_nonneg
  have hΛ := h.Λ_nonneg
  have hsz := h.size
  have hsg := h.size_ge
  have hd := h.draws
  obtain ⟨m, hm, hm0⟩ := amin_pos h.nlive_ne h.run.pos
  have hlen : (simulatedSteps us r.nlive).length = r.nlive.length := by simp [simulatedSteps, hd]
  have key : ∃ vs : List ℝ, pyMap (flSimulatedStep F) ((coes us).zip r.nlive) = .ok (coes vs) ∧
      Within (u * simulatedSize M us r.nlive + 4 * η) vs
        ((us.zip r.nlive).map (fun q : ℝ × Int => Real.log q.1 / (q.2 : ℝ))) := by
    refine pyMap_close (Rel := fun p q => p = ((q.1 : EReal), q.2) ∧ q ∈ us.zip r.nlive) ?_ ?_
    · rintro p ⟨v, n⟩ ⟨rfl, hq⟩
      have hv := h.interval v (List.of_mem_zip hq).1
      have hs := h.small v (List.of_mem_zip hq).1
      have hn := h.run.pos n (List.of_mem_zip hq).2
      have hlog : Real.log v ≤ 0 := Real.log_nonpos hv.1.le hv.2.le
      have hmem : Real.log v / (n : ℝ) ∈ simulatedSteps us r.nlive := by
        unfold simulatedSteps
        rw [← List.map_uncurry_zip_eq_zipWith]
        exact List.mem_map.mpr ⟨(v, n), hq, rfl⟩
      have hle : |Real.log v / (n : ℝ)| ≤ simulatedCompression us r.nlive := by
        rw [abs_of_nonpos (h.neg _ hmem)]
        have := sum_le_mem h.neg _ hmem
        unfold simulatedCompression
        linarith
      obtain ⟨y, hy, hy2⟩ := H.simulatedStep hu1 hv hn (by rw [abs_of_nonpos hlog]; linarith [h.logs.2]) (by linarith) hη1
      refine ⟨y, hy, hy2.trans ?_⟩
      have : u * (3 * |Real.log v / (n : ℝ)|) ≤ u * simulatedSize M us r.nlive := mul_le_mul_of_nonneg_left (by linarith) hu0
      linarith
    · rw [List.forall₂_iff_get]
      refine ⟨by simp [coes], ?_⟩
      intro i hi1 hi2
      refine ⟨by simp [coes], List.get_mem _ _⟩
  obtain ⟨vs, hv1, hv2⟩ := key
  have hmap : (us.zip r.nlive).map (fun q : ℝ × Int => Real.log q.1 / (q.2 : ℝ)) = simulatedSteps us r.nlive := by
    unfold simulatedSteps
    rw [List.zip, List.map_zipWith]
  rw [hmap] at hv2
  obtain ⟨xs', h1, h2⟩ := S.cumsum hv2 h.neg (by unfold simulatedCompression; linarith) (by rw [hlen]; exact hδ)
  refine ⟨xs', ?_, ?_⟩
  · unfold flLogx
    simp only [hm, hm0, not_true_eq_false, if_false]
    rw [hv1, Py.ok_bind, h1]
  · rw [← cumsum_eq]
    rw [hlen] at h2
    exact h2

theorem Spec.ModerateDraws.floatDraws (h : ModerateDraws F u η r us M Λ L) (H : Accurate F u η) :
    Spec.Draws F (L + 1) (coes us) r.nlive := by
  refine ⟨by simp [coes, h.draws], ?_⟩
  intro x hx
  obtain ⟨v, hv, rfl⟩ := List.mem_map.mp hx
  have hi := h.interval v hv
  have hs := h.small v hv
  have hlog : Real.log v ≤ 0 := Real.log_nonpos hi.1.le hi.2.le
  refine ⟨by exact_mod_cast hi.1.le, by exact_mod_cast hi.2.le, ?_⟩
  have habs : |Real.log v| ≤ L := by rw [abs_of_nonpos hlog]; linarith
  obtain ⟨l, hl, hl2⟩ := H.log v hi.1 (habs.trans h.logs.2)
  rw [hl, EReal.coe_le_coe_iff]
  have h1 := mul_le_mul_of_nonneg_left habs H.u_nonneg
  have h2 := (abs_le.mp hl2).1
  have h3 := h.logs.1
  push_cast
  linarith

/-- The log weights: in exact arithmetic they are at most `simulatedSize - 3 + Λ` in size. -/
theorem Spec.ModerateDraws.logw (H : Accurate F u η) {w : World σ}
    (h : ModerateDraws F u η r (R.uniform r.nlive.length w.rng).1 M Λ L) (hus : us = (R.uniform r.nlive.length w.rng).1) :
    ∃ lw lw' : List ℝ, getLogw R r true w = (.ok lw, { w with rng := (R.uniform r.nlive.length w.rng).2 }) ∧
      flLogw F (coes r.logl) r.nlive (some (coes us)) = .ok (coes lw') ∧
      (∀ x ∈ lw, |x| ≤ simulatedSize M us r.nlive - 3 + Λ) ∧ lw.length = r.logl.length ∧
      Within (simulatedLogwError u η M Λ us r.nlive) lw' lw := by
  have hgx := getLogx_simulated (R := R) h.nlive_ne h.run.pos w (fun v hv => (h.interval v hv).1)
  rw [← hus] at h hgx
  have S := h.scale H
  have hν := S.ν_nonneg
  have hX0 := S.X_nonneg
  have hG0 := S.G_nonneg
  have hΛ := h.Λ_nonneg
  have hM := h.M_ge
  have hne := h.nlive_ne
  have hpos := h.run.pos
  have hlen := h.run.len
  have hprec := h.precise
  have hu0 := H.u_nonneg
  have hη0 := H.η_nonneg
  have hsz := h.size
  have hV0 : 0 ≤ simulatedSize M us r.nlive := by unfold simulatedSize; linarith
  have hlast : 0 ≤ u * (simulatedSize M us r.nlive + Λ) + η := by positivity
  have hN1 : (1 : ℝ) ≤ r.nlive.length := by exact_mod_cast List.length_pos_iff.mpr hne
  have hlx := h.logx H
  set X := simulatedCompression us r.nlive with hX
  set G := Real.log (2 * (M + 1)) with hG
  set ν := u * simulatedSize M us r.nlive + 4 * η with hνd
  have hVe : simulatedVolumeError u η M us r.nlive = 8 * (M + 2) * (r.nlive.length + 8) * ν := rfl
  have hMν : 0 ≤ M * ν := by positivity
  have hNν : 0 ≤ (r.nlive.length : ℝ) * ν := by positivity
  have hMNν : 0 ≤ M * r.nlive.length * ν := by positivity
  rw [hVe] at hprec
  obtain ⟨ys, hys, hwy⟩ := hlx (by nlinarith)
  obtain ⟨ys2, hys2, -, hmono, hyb⟩ := C79_logx (F := F) hne hpos (L := L + 1) (by omega) (by have := h.count; omega)
    (us := some (coes us)) (by
      intro v hv
      rw [Option.mem_some_iff] at hv
      subst hv
      exact h.floatDraws H)
  have hyy : ys2 = coes ys := by rw [hys] at hys2; exact (Except.ok.inj hys2).symm
  subst hyy
  have hstep := h.apart
  obtain ⟨hgap, hbd⟩ := cumsumFrom_bounds (g := 1 / M) (by positivity) (acc := 0) hstep
  have hcs : Nestcheck.cumsumFrom 0 (simulatedSteps us r.nlive) = positions (simulatedSteps us r.nlive) := cumsum_eq _
  rw [hcs] at hgap hbd
  have hplen : (positions (simulatedSteps us r.nlive)).length = r.nlive.length := by simp [positions, simulatedSteps, h.draws]
  have hylen : ys.length = r.nlive.length := by rw [← hplen]; exact hwy.length_eq
  have hM0 : 0 < 1 / M := by positivity
  set logx := positions (simulatedSteps us r.nlive) with hlogx
  have hymono : ys.Pairwise (· ≥ ·) := by
    unfold coes at hmono
    rw [List.pairwise_map] at hmono
    exact hmono.imp fun {a b} hab => by exact_mod_cast hab
  have hyb' : ∀ y ∈ ys, -(((L + 1) * r.nlive.length : ℕ) : ℝ) ≤ y ∧ y ≤ 0 := by
    intro y hy
    have := hyb (y : EReal) (List.mem_map_of_mem hy)
    exact ⟨by exact_mod_cast this.1, by exact_mod_cast this.2⟩
  have hVs : simulatedSize M us r.nlive = 3 * X + G + 4 := rfl
  by_cases h2 : 2 ≤ logx.length
  · obtain ⟨vs', vs, hv', hv, hvb, hvw⟩ := S.volumes h2 (by linarith) hwy hgap
      (fun x hx => ⟨by linarith [(hbd x hx).1], by
        have := (hbd x hx).2
        rw [hX]; unfold simulatedCompression; linarith⟩) hymono h.count hyb' le_rfl (by nlinarith)
    have hvl : vs.length = r.logl.length := by
      have e := volumes_ok h2 (hgap.imp fun {a b} hab => by linarith) (fun x hx => by linarith [(hbd x hx).1])
      rw [hv] at e
      rw [Except.ok.inj e, List.length_map, length_shells (by
        intro e; rw [List.map_eq_nil_iff] at e; rw [e] at h2; simp at h2), List.length_map, hplen, hlen]
    have hvw' : Within (simulatedVolumeError u η M us r.nlive) vs' vs := by
      refine List.Forall₂.imp ?_ hvw
      intro a b hab
      rw [hVe]
      nlinarith
    refine ⟨List.zipWith (· + ·) vs r.logl, ?_⟩
    have hadd : ∃ lw' : List ℝ, pyMap (fun p : EReal × EReal => flAdd F p.1 p.2) ((coes vs').zip (coes r.logl)) = .ok (coes lw') ∧
        Within (simulatedLogwError u η M Λ us r.nlive) lw' ((vs.zip r.logl).map (fun q => q.1 + q.2)) := by
      refine pyMap_close (Rel := fun p q => ∃ v' : ℝ, p = ((v' : EReal), ((q.2 : ℝ) : EReal)) ∧
        |v' - q.1| ≤ simulatedVolumeError u η M us r.nlive ∧ |q.1| ≤ X + G + 1 ∧ |q.2| ≤ Λ) ?_ ?_
      · rintro p ⟨v, l⟩ ⟨v', rfl, h1, h3, h4⟩
        simp only at h1 h3 h4 ⊢
        have hmag : |v' + l| ≤ simulatedSize M us r.nlive + Λ := by
          have b1 := abs_le.mp h1
          have b2 := abs_le.mp h3
          have b3 := abs_le.mp h4
          rw [hVe] at b1
          rw [abs_le]
          constructor <;> linarith
        obtain ⟨z, hz, -, hze⟩ := H.add (x := v') (y := l) (by linarith)
        refine ⟨z, hz, ?_⟩
        rw [show z - (v + l) = (z - (v' + l)) + (v' - v) by ring]
        refine (abs_add_le _ _).trans ?_
        unfold simulatedLogwError
        linarith [mul_le_mul_of_nonneg_left hmag hu0]
      · rw [List.forall₂_iff_get]
        have hl' : vs'.length = vs.length := hvw.length_eq
        refine ⟨by simp [coes, hl'], ?_⟩
        intro i hi1 hi2
        have hi3 : i < vs.length ∧ i < r.logl.length := by simpa using hi2
        refine ⟨vs'[i]'(by omega), by simp [coes], ?_, ?_, ?_⟩
        · simpa using (List.forall₂_iff_get.mp hvw').2 i (by omega) hi3.1
        · simpa using hvb _ (List.getElem_mem hi3.1)
        · simpa using h.logl _ (List.getElem_mem hi3.2)
    obtain ⟨lw', hlw', hlw2⟩ := hadd
    have hzip : (vs.zip r.logl).map (fun q => q.1 + q.2) = List.zipWith (· + ·) vs r.logl := by
      rw [List.zip, List.map_zipWith]
    rw [hzip] at hlw2
    refine ⟨lw', ?_, ?_, ?_, ?_, hlw2⟩
    · unfold getLogw
      rw [Nestcheck.M.bind_ok hgx, if_neg (by rw [hplen, hlen]; simp), hv]
      rfl
    · unfold flLogw
      rw [hys, Py.ok_bind, if_neg (by simp [coes, hylen, hlen]), hv']
      exact hlw'
    · intro x hx
      rw [← hzip] at hx
      obtain ⟨⟨v, l⟩, hq, rfl⟩ := List.mem_map.mp hx
      have b1 := hvb v (List.of_mem_zip hq).1
      have b2 := h.logl l (List.of_mem_zip hq).2
      refine (abs_add_le _ _).trans ?_
      linarith
    · simp [hvl]
  · have h1 := List.length_pos_iff.mpr h.run.nonempty
    have hl1 : r.logl.length = 1 := by omega
    have hlx1 : logx.length = 1 := by omega
    have hy1 : ys.length = 1 := by omega
    refine ⟨r.logl, r.logl, ?_, ?_, ?_, rfl, ?_⟩
    · unfold getLogw
      rw [Nestcheck.M.bind_ok hgx, if_neg (by omega)]
      obtain ⟨x, hx⟩ := List.length_eq_one_iff.mp hlx1
      rw [hx]
      have : Nestcheck.volumes [x] = .error .index := rfl
      rw [this]
      simp only [hl1, if_true]
      rfl
    · unfold flLogw
      rw [hys, Py.ok_bind, if_neg (by simp [coes, hy1, hl1])]
      obtain ⟨y, hy⟩ := List.length_eq_one_iff.mp hy1
      rw [hy]
      have : flVolumes F (coes [y]) = .error .index := rfl
      rw [this]
      simp [coes, hl1]
    · intro x hx
      have := h.logl x hx
      linarith
    · unfold Within
      rw [List.forall₂_same]
      intro x _
      rw [sub_self, abs_zero]
      unfold simulatedLogwError
      rw [hVe]
      positivity

theorem Spec.ModerateDraws.logwError_nonneg (h : ModerateDraws F u η r us M Λ L) (H : Accurate F u η) :
    0 ≤ simulatedLogwError u η M Λ us r.nlive := by
  have hX0 := h.compression_nonneg
  have hs := h.size_ge
  have hΛ := h.Λ_nonneg
  have hM := h.M_ge
  have hu0 := H.u_nonneg
  have hη0 := H.η_nonneg
  have hV0 : 0 ≤ simulatedSize M us r.nlive := by linarith
  unfold simulatedLogwError simulatedVolumeError
  positivity

end
end Nestcheck
