import Verif.Props.SimulatedErrors
import Verif.Props.Summary

/-! C106: the summary of the runs of ideal samplers shows the true value and no implementation errors. -/

namespace Nestcheck
open Spec MeasureTheory ProbabilityTheory ENNReal Filter Topology
variable {σ E : Type} {m : Nat}

noncomputable section

/-- The cell of the table for this calculation type (its value, not its uncertainty) and the estimator `i` satisfies `p`; there is
such a row and no other one. -/
def Spec.CellIs (s : SumTable) (c : String) (i : Nat) (p : ℝ → Prop) : Prop :=
  (∃ row, ((c, .value), row) ∈ s) ∧ ∀ row, ((c, .value), row) ∈ s → ∃ x, row[i]? = some (some x) ∧ p x

/-- A summary is returned, and shows for the estimator `i`: a mean of the values within `δ` of `L`, and a standard deviation of the
values and an implementation standard deviation below `δ`; if they are asked for, also such root mean squared errors. -/
def Spec.ShowsNear (result : Py SumTable) (i : Nat) (L δ : ℝ) (incRmse : Bool) : Prop :=
  ∃ s : SumTable, result = .ok s ∧
    CellIs s "values mean" i (fun x => |x - L| < δ) ∧ CellIs s "values std" i (fun x => 0 ≤ x ∧ x < δ) ∧
    CellIs s "implementation std" i (fun x => 0 ≤ x ∧ x < δ) ∧
    (incRmse = true → CellIs s "values rmse" i (fun x => 0 ≤ x ∧ x < δ) ∧ CellIs s "implementation rmse" i (fun x => 0 ≤ x ∧ x < δ))

/-- `run_list_error_summary` of the runs, called with a list of deterministic estimators which has `e` at the place `i` and with the
true value `L` for it (or without true values), shows a value close to `L` whenever the estimators give numbers for the runs and for
their bootstrap replications. -/
def Spec.SummaryNear (R : Rng σ ℝ) (N : NormalRng σ) (e : Estimator) (L δ : ℝ) (A : Argsort ℝ) (runs : List (Run ℝ)) : Prop :=
  ∀ (D : Distances (List Cell) Cell) (fs : List (EstFunc σ)), (∀ f ∈ fs, Deterministic f) →
    ∀ names : List String, names.length = fs.length → names.Nodup → "calculation type" ∉ names →
    ∀ nSim : Nat, 2 ≤ nSim → ∀ (xs : List (List ℝ)) (bs : List (List (List ℝ))),
    List.Forall₂ (fun r y => ∃ w : World σ, (runEstimators R r fs false w).1 = .ok y) runs (xs.map (List.map some)) →
    List.Forall₂ (fun r a => ∃ w : World σ, (runBootstrapValues A R r none fs nSim false true none w).1 = .ok a) runs
      (bs.map (List.map (List.map some))) →
    ∀ i : Nat, fs[i]? = some (e.call A R) →
    ∀ tv : Option (List ℝ), (∀ v, tv = some v → v.length = names.length ∧ v[i]? = some L) →
    ∀ incTrue incRmse : Bool, (incTrue = true ∨ incRmse = true → tv.isSome) →
    ∀ (nsim : Nat) (parallel : Bool) (S1 S2 S3 : Schedule σ runs.length) (w : World σ),
    ShowsNear (runListErrorSummary A R N nsim D runs fs names nSim false false parallel tv incTrue incRmse S1 S2 S3 w).1 i L δ incRmse

/-- The values of an estimator in `run_estimators` are those which it gives on its own. -/
theorem estimators_value {A : Argsort ℝ} {R : Rng σ ℝ} {e : Estimator} {fs : List (EstFunc σ)} (hf : ∀ f ∈ fs, Deterministic f) {i : Nat}
    (hi : fs[i]? = some (e.call A R)) {r : Run ℝ} {y : List (Option ℝ)} {w w0 w1 : World σ} {v : Option ℝ}
    (hy : (runEstimators R r fs false w).1 = .ok y) (hv : e.call A R r none false w0 = (.ok v, w1)) : y[i]? = some v := by
  have hlw : ∃ lw, ∀ w : World σ, getLogw R r false w = (.ok lw, w) := by
    obtain ⟨x, hx⟩ := getLogw_fixed R r
    rcases x with err | lw
    · exfalso
      unfold runEstimators at hy
      rw [M.bind_error (hx w)] at hy
      cases hy
    · exact ⟨lw, hx⟩
  obtain ⟨lw, hlw⟩ := hlw
  have hc := fun w2 => call_given hv (hlw w0) w2
  unfold runEstimators at hy
  rw [M.bind_ok (hlw w)] at hy
  clear hv
  induction fs generalizing i y w with
  | nil => simp at hi
  | cons f fs ih =>
    obtain ⟨x, hx⟩ := hf f (by simp) r lw
    rw [callEach] at hy
    rcases x with err | x
    · rw [M.bind_error (hx w)] at hy
      cases hy
    rw [M.bind_ok (hx w)] at hy
    obtain ⟨z, hz⟩ := callEach_fixed (fun g hg => hf g (by simp [hg]) : ∀ g ∈ fs, Deterministic g) r lw
    rcases z with err | z
    · rw [M.bind_error (hz w)] at hy
      cases hy
    rw [M.bind_ok (hz w)] at hy
    obtain rfl : x :: z = y := by simpa [M.pure_apply] using hy
    cases i with
    | zero =>
      obtain rfl : f = e.call A R := by simpa using hi
      have := (hx w).symm.trans (hc w)
      simpa using this
    | succ i =>
      rw [List.getElem?_cons_succ] at hi ⊢
      exact ih (fun g hg => hf g (by simp [hg])) hi (w := w) (by rw [hz])

theorem rmse_near {ys : List ℝ} {L ε : ℝ} (hε : 0 ≤ ε) (h0 : ys ≠ []) (h : ∀ y ∈ ys, |y - L| ≤ ε) :
    Real.sqrt (Spec.average (sqDev ys L)) ≤ ε := by
  rw [Real.sqrt_le_iff]
  refine ⟨hε, ?_⟩
  have := average_near (ys := sqDev ys L) (L := 0) (ε := ε ^ 2) (by simpa [sqDev] using h0) (by
    intro z hz
    obtain ⟨y, hy, rfl⟩ := List.mem_map.mp hz
    rw [sub_zero, abs_of_nonneg (sq_nonneg _)]
    exact sq_le_sq' (by have := (abs_le.mp (h y hy)).1; linarith) (abs_le.mp (h y hy)).2)
  rw [sub_zero] at this
  exact (abs_le.mp this).2

theorem unexplained_bounds {v b : ℝ} (hv : 0 ≤ v) : 0 ≤ unexplained v b ∧ unexplained v b ≤ v := by
  unfold unexplained
  split_ifs with h
  · exact ⟨le_rfl, hv⟩
  · refine ⟨Real.sqrt_nonneg _, ?_⟩
    rw [Real.sqrt_le_iff]
    exact ⟨hv, by nlinarith⟩

theorem perColumn_get {n i : Nat} (hi : i < n) (f : Nat → ℝ) : (perColumn n f)[i]? = some (some (f i)) := by
  simp [perColumn, hi]

/-- One run is enough to decide the cell: if there is exactly one row, it satisfies the property. -/
theorem cellIs_of {s : SumTable} {c : String} {i n : Nat} {p : ℝ → Prop} {f : Nat → ℝ} (hi : i < n)
    (h : ∀ row, ((c, Res.value), row) ∈ s ↔ row = perColumn n f) (hp : p (f i)) : CellIs s c i p := by
  refine ⟨⟨_, (h _).mpr rfl⟩, fun row hrow => ⟨f i, ?_, hp⟩⟩
  rw [(h row).mp hrow, perColumn_get hi]

theorem resultGroups_ne {xs : List (List ℝ)} {bs : List (List (List ℝ))} {k : String} (h : resultGroups xs bs k ≠ []) :
    k = "values" ∨ k = "bootstrap std" := by
  unfold resultGroups at h
  split_ifs at h with h1 h2
  · exact .inl h1
  · exact .inr h2
  · exact absurd rfl h

theorem meanRow_iff {n : Nat} {xs : List (List ℝ)} {bs : List (List (List ℝ))} {tv : List ℝ} {incTrue incRmse : Bool} {us : String → Nat → Cell}
    (h0 : xs ≠ []) {row : List Cell} : IsSummaryRow n (resultGroups xs bs) tv incTrue incRmse us ("values mean", .value) row ↔
      row = perColumn n (fun j => Spec.average (col xs j)) := by
  constructor
  · rintro (⟨k, c, res, hk, e, hm⟩ | ⟨_, e, _⟩ | (⟨e, _⟩ | ⟨e, _⟩ | ⟨e, _⟩ | ⟨e, _⟩) | ⟨_, (⟨e, _⟩ | ⟨e, _⟩ | ⟨e, _⟩ | ⟨e, _⟩)⟩)
    · obtain ⟨e1, rfl⟩ := Prod.mk.inj e
      have hc := summaryTable_calc hm
      obtain ⟨rfl, e2⟩ := space_inj (b := "mean") (a := "values") (by decide) (calc_noSpace hc) e1
      obtain rfl : c = .mean := (calc_name_inj (.inl rfl) hc e2).symm
      simpa [summaryTable, resultGroups] using hm
    all_goals exact absurd (congrArg Prod.fst e) (by decide)
  · rintro rfl
    exact .inl ⟨"values", .mean, .value, by simpa [resultGroups] using h0, by decide, by simp [summaryTable, resultGroups]⟩

theorem stdRow_iff {n : Nat} {xs : List (List ℝ)} {bs : List (List (List ℝ))} {tv : List ℝ} {incTrue incRmse : Bool} {us : String → Nat → Cell}
    (h0 : xs ≠ []) {row : List Cell} : IsSummaryRow n (resultGroups xs bs) tv incTrue incRmse us ("values std", .value) row ↔
      row = perColumn n (fun j => stdev (col xs j)) := by
  constructor
  · rintro (⟨k, c, res, hk, e, hm⟩ | ⟨_, e, _⟩ | (⟨e, _⟩ | ⟨e, _⟩ | ⟨e, _⟩ | ⟨e, _⟩) | ⟨_, (⟨e, _⟩ | ⟨e, _⟩ | ⟨e, _⟩ | ⟨e, _⟩)⟩)
    · obtain ⟨e1, rfl⟩ := Prod.mk.inj e
      have hc := summaryTable_calc hm
      obtain ⟨rfl, e2⟩ := space_inj (b := "std") (a := "values") (by decide) (calc_noSpace hc) e1
      obtain rfl : c = .std := (calc_name_inj (.inr (.inl rfl)) hc e2).symm
      simpa [summaryTable, resultGroups] using hm
    all_goals exact absurd (congrArg Prod.fst e) (by decide)
  · rintro rfl
    exact .inl ⟨"values", .std, .value, by simpa [resultGroups] using h0, by decide, by simp [summaryTable, resultGroups]⟩

theorem rmseRow_iff {n : Nat} {xs : List (List ℝ)} {bs : List (List (List ℝ))} {tv : List ℝ} {incTrue : Bool} {us : String → Nat → Cell}
    (h0 : xs ≠ []) {row : List Cell} : IsSummaryRow n (resultGroups xs bs) tv incTrue true us ("values rmse", .value) row ↔
      row = perColumn n (fun j => Real.sqrt (Spec.average (sqDev (col xs j) (tv.getD j 0)))) := by
  constructor
  · rintro (⟨k, c, res, hk, e, hm⟩ | ⟨_, e, _⟩ | (⟨e, _⟩ | ⟨e, _⟩ | ⟨e, _⟩ | ⟨e, _⟩) | ⟨_, (⟨e, _⟩ | ⟨e, _⟩ | ⟨e, _⟩ | ⟨e, _⟩)⟩)
    · obtain ⟨e1, rfl⟩ := Prod.mk.inj e
      have hc := summaryTable_calc hm
      obtain ⟨rfl, e2⟩ := space_inj (b := "rmse") (a := "values") (by decide) (calc_noSpace hc) e1
      obtain rfl : c = .rmse := (calc_name_inj (.inr (.inr rfl)) hc e2).symm
      simpa [summaryTable, resultGroups] using hm
    all_goals exact absurd (congrArg Prod.fst e) (by decide)
  · rintro rfl
    exact .inl ⟨"values", .rmse, .value, by simpa [resultGroups] using h0, by decide, by simp [summaryTable, resultGroups]⟩

theorem impRow_iff {n : Nat} {xs : List (List ℝ)} {bs : List (List (List ℝ))} {tv : List ℝ} {incTrue incRmse : Bool} {us : String → Nat → Cell}
    {row : List Cell} : IsSummaryRow n (resultGroups xs bs) tv incTrue incRmse us ("implementation std", .value) row ↔
      row = perColumn n (fun j => unexplained (stdev (col xs j)) (Spec.average (col (bs.map (List.map stdev)) j))) := by
  constructor
  · rintro (⟨k, c, res, hk, e, hm⟩ | ⟨_, e, _⟩ | (⟨e, h⟩ | ⟨e, _⟩ | ⟨e, _⟩ | ⟨e, _⟩) | ⟨_, (⟨e, _⟩ | ⟨e, _⟩ | ⟨e, _⟩ | ⟨e, _⟩)⟩)
    · obtain ⟨e1, rfl⟩ := Prod.mk.inj e
      obtain ⟨rfl, e2⟩ := space_inj (b := "std") (a := "implementation") (by decide) (calc_noSpace (summaryTable_calc hm)) e1
      exact absurd (resultGroups_ne hk) (by decide)
    · exact absurd (congrArg Prod.fst e) (by decide)
    · simpa [resultGroups] using h
    · exact absurd (congrArg Prod.snd e) (by decide)
    all_goals exact absurd (congrArg Prod.fst e) (by decide)
  · rintro rfl
    exact .inr (.inr (.inl (.inl ⟨by decide, by simp [resultGroups]⟩)))

theorem impRmseRow_iff {n : Nat} {xs : List (List ℝ)} {bs : List (List (List ℝ))} {tv : List ℝ} {incTrue : Bool} {us : String → Nat → Cell}
    {row : List Cell} : IsSummaryRow n (resultGroups xs bs) tv incTrue true us ("implementation rmse", .value) row ↔
      row = perColumn n (fun j => unexplained (Real.sqrt (Spec.average (sqDev (col xs j) (tv.getD j 0))))
        (Spec.average (col (bs.map (List.map stdev)) j))) := by
  constructor
  · rintro (⟨k, c, res, hk, e, hm⟩ | ⟨_, e, _⟩ | (⟨e, h⟩ | ⟨e, _⟩ | ⟨e, _⟩ | ⟨e, _⟩) | ⟨_, (⟨e, h⟩ | ⟨e, _⟩ | ⟨e, _⟩ | ⟨e, _⟩)⟩)
    · obtain ⟨e1, rfl⟩ := Prod.mk.inj e
      obtain ⟨rfl, e2⟩ := space_inj (b := "rmse") (a := "implementation") (by decide) (calc_noSpace (summaryTable_calc hm)) e1
      exact absurd (resultGroups_ne hk) (by decide)
    · exact absurd (congrArg Prod.fst e) (by decide)
    · exact absurd (congrArg Prod.fst e) (by decide)
    · exact absurd (congrArg Prod.fst e) (by decide)
    · exact absurd (congrArg Prod.fst e) (by decide)
    · exact absurd (congrArg Prod.fst e) (by decide)
    · simpa [resultGroups] using h
    · exact absurd (congrArg Prod.snd e) (by decide)
    all_goals exact absurd (congrArg Prod.fst e) (by decide)
  · rintro rfl
    exact .inr (.inr (.inr ⟨rfl, .inl ⟨by decide, by simp [resultGroups]⟩⟩))

/-- If the values of the runs are close to `L`, so is what the summary shows. -/
theorem summaryNear_of {A : Argsort ℝ} {R : Rng σ ℝ} (N : NormalRng σ) {e : Estimator} {L δ : ℝ} (hδ : 0 < δ) {runs : List (Run ℝ)}
    (hr : 2 ≤ runs.length) (h : ∀ r ∈ runs, ∃ v w w', e.call A R r none false w = (.ok (some v), w') ∧ |v - L| < δ / 4) :
    SummaryNear R N e L δ A runs := by
  intro D fs hf names hn hnd hct nSim hsim xs bs hy hb i hi tv ht incTrue incRmse hs nsim parallel S1 S2 S3 w
  have hi' : i < fs.length := (List.getElem?_eq_some_iff.mp hi).1
  have h0 : names ≠ [] := by
    rintro rfl
    rw [List.length_nil] at hn
    omega
  obtain ⟨s, us, e1, -, -, e2, -⟩ := C68_summary A R N D hf hn hnd hct h0 hr hsim hy hb nsim (fun v hv => (ht v hv).1) hs parallel S1 S2 S3 w
  have hxl : xs.length = runs.length := by have := hy.length_eq; simpa using this.symm
  have hx0 : xs ≠ [] := by rintro rfl; simp at hxl; omega
  have hcol : ∀ y ∈ col xs i, |y - L| ≤ δ / 4 := by
    intro y hyc
    obtain ⟨x, hx, rfl⟩ := List.mem_map.mp hyc
    obtain ⟨k, hk⟩ := List.mem_iff_getElem?.mp hx
    obtain ⟨hkl, hka⟩ := List.getElem?_eq_some_iff.mp hk
    obtain ⟨w1, hw1⟩ := (List.forall₂_iff_get.mp hy).2 k (by omega) (by simpa using hkl)
    simp only [List.get_eq_getElem, List.getElem_map, hka] at hw1
    obtain ⟨v, w2, w3, hv, hvL⟩ := h (runs[k]'(by omega)) (List.getElem_mem _)
    have h1 := estimators_value hf hi hw1 hv
    rw [List.getElem?_map] at h1
    obtain ⟨a, ha, ha'⟩ := Option.map_eq_some_iff.mp h1
    rw [List.getD_eq_getElem?_getD, ha, Option.getD_some, Option.some.inj ha']
    exact hvL.le
  have hc2 : 2 ≤ (col xs i).length := by rw [col, List.length_map]; omega
  have hc0 : col xs i ≠ [] := by rintro h; rw [h] at hc2; simp at hc2
  have hmean := average_near hc0 hcol
  have hstd := stdev_near (by linarith) hc2 hcol
  have hin : i < names.length := by omega
  have rows : ∀ c ∈ ["values mean", "values std", "values rmse", "implementation std", "implementation rmse"], c ∈ reportTypes := by decide
  refine ⟨s, e1, ?_, ?_, ?_, ?_⟩
  · refine cellIs_of hin (fun row => ((e2 _ row).trans (and_iff_right (rows _ (by simp)))).trans (meanRow_iff hx0)) ?_
    exact lt_of_le_of_lt hmean (by linarith)
  · refine cellIs_of hin (fun row => ((e2 _ row).trans (and_iff_right (rows _ (by simp)))).trans (stdRow_iff hx0)) ?_
    exact ⟨stdev_nonneg _, by linarith⟩
  · refine cellIs_of hin (fun row => ((e2 _ row).trans (and_iff_right (rows _ (by simp)))).trans impRow_iff) ?_
    have := unexplained_bounds (b := Spec.average (col (bs.map (List.map stdev)) i)) (stdev_nonneg (col xs i))
    exact ⟨this.1, by linarith [this.2]⟩
  · rintro rfl
    have htv : (tv.getD []).getD i 0 = L := by
      obtain ⟨v, hv⟩ := Option.isSome_iff_exists.mp (hs (.inr rfl))
      rw [hv, Option.getD_some, List.getD_eq_getElem?_getD, (ht v hv).2, Option.getD_some]
    have hrm := rmse_near (by linarith) hc0 hcol
    constructor
    · refine cellIs_of hin (fun row => ((e2 _ row).trans (and_iff_right (rows _ (by simp)))).trans (rmseRow_iff hx0)) ?_
      rw [htv]
      exact ⟨Real.sqrt_nonneg _, by linarith⟩
    · refine cellIs_of hin (fun row => ((e2 _ row).trans (and_iff_right (rows _ (by simp)))).trans impRmseRow_iff) ?_
      rw [htv]
      have := unexplained_bounds (b := Spec.average (col (bs.map (List.map stdev)) i)) (Real.sqrt_nonneg (Spec.average (sqDev (col xs i) L)))
      exact ⟨this.1, by linarith [this.2]⟩

/-- Some of the runs with these draws is not processed, or the processed runs are not `good`. -/
def Spec.RunsMiss (R : Rng σ ℝ) (loglike : ℝ → ℝ) (place : ℝ → E → List ℝ) {N : Fin m → Nat} (rule : ∀ i, Rule (N i))
    (start : ∀ i, Finset (Fin (N i))) (u : ∀ i, Fin (N i) → ℝ) (e : ∀ i, Fin (N i) → E) (init : ℝ) (good : Argsort ℝ → List (Run ℝ) → Prop) : Prop :=
  ∃ (live : Fin m → List (Sample ℝ)) (its : Fin m → List (Iteration ℝ)) (samples : Fin m → List (Sample ℝ)),
    (∀ i, PosteriorExecution loglike place (rule i) (start i) (u i) (e i) init (live i) (its i) ∧
      (samples i).Perm ((its i).map (·.dead))) ∧
    ∃ (A : Argsort ℝ) (da dw : Bool) (w : World σ),
      ¬ ∃ runs : Fin m → Run ℝ, (∀ i, processSamples A R (samples i) da dw w = (.ok (runs i), w)) ∧ good A (List.ofFn runs)

section

variable {Ω : ℕ → Type} [∀ k, MeasurableSpace (Ω k)] {P : ∀ k, Measure (Ω k)} {N : Fin m → ℕ → Nat} {rule : ∀ i k, Rule (N i k)}
  {start : ∀ i k, Finset (Fin (N i k))} [MeasurableSpace E] {ν : Measure E}
  {draws : ∀ i k, Ω k → Fin (N i k) → ℝ} {spots : ∀ i k, Ω k → Fin (N i k) → E}

/-- If the values of the estimator for each sampler converge to `L`, so does what the summary of the runs shows.  The samplers need not
be independent of each other. -/
theorem summary_converges {R : Rng σ ℝ} {G : NormalRng σ} (hm : 2 ≤ m) {loglike : ℝ → ℝ} {init : ℝ} {place : ℝ → E → List ℝ} {e : Estimator}
    {L δ : ℝ} (hδ : 0 < δ) (hconv : ∀ i, Tendsto (fun k => P k {ω | Misses R loglike place (rule i k) (start i k) (draws i k ω) (spots i k ω)
      init fun A r w => ∃ v, e.call A R r none false w = (.ok (some v), w) ∧ |v - L| < δ / 4}) atTop (𝓝 0)) :
    Tendsto (fun k => P k {ω | RunsMiss R loglike place (fun i => rule i k) (fun i => start i k) (fun i => draws i k ω) (fun i => spots i k ω)
      init (SummaryNear R G e (L) δ)}) atTop (𝓝 0) := by
  have hsum := tendsto_finsetSum (Finset.univ : Finset (Fin m)) fun i _ => hconv i
  rw [Finset.sum_const_zero] at hsum
  refine tendsto_of_tendsto_of_tendsto_of_le_of_le tendsto_const_nhds hsum (fun k => zero_le) fun k => ?_
  refine le_trans (measure_mono ?_) (measure_iUnion_fintype_le (P k) _)
  rintro ω ⟨live, its, samples, hex, A, da, dw, w, hbad⟩
  by_contra hc
  have hall : ∀ i, ∃ r : Run ℝ, processSamples A R (samples i) da dw w = (.ok r, w) ∧
      ∃ v, e.call A R r none false w = (.ok (some v), w) ∧ |v - L| < δ / 4 := by
    intro i
    by_contra h1
    exact hc (Set.mem_iUnion.mpr ⟨i, live i, its i, samples i, (hex i).1, (hex i).2, A, da, dw, w, h1⟩)
  choose runs h1 h2 using hall
  refine hbad ⟨runs, h1, summaryNear_of G hδ (by rwa [List.length_ofFn]) fun r hr => ?_⟩
  obtain ⟨i, rfl⟩ := List.mem_ofFn.mp hr
  obtain ⟨v, h3, h4⟩ := h2 i
  exact ⟨v, w, w, h3, h4⟩

variable [IsProbabilityMeasure ν]

/-- C106.  As the numbers of points with which they start grow, the summary of the runs of adaptive ideal samplers shows for `logz`, up to
an error which tends to zero in probability, the logarithm of the evidence as mean, and neither a variation of the results nor an
implementation error. -/
theorem C106_logz {R : Rng σ ℝ} {G : NormalRng σ} (hm : 2 ≤ m) (hs : ∀ i k, StoppingSchedule (rule i k) (start i k))
    (hu : ∀ i k, IidPoints (P k) ν (draws i k) (spots i k)) (hn : ∀ i, Tendsto (fun k => (start i k).card) atTop atTop)
    {loglike : ℝ → ℝ} (hanti : StrictAntiOn loglike (Set.Ioo 0 1)) {init : ℝ} (hinit : ∀ x ∈ Set.Ioo (0 : ℝ) 1, init < loglike x)
    {b : ℝ} (hb : ∀ x ∈ Set.Ioo (0 : ℝ) 1, loglike x ≤ b) {place : ℝ → E → List ℝ} {δ : ℝ} (hδ : 0 < δ) :
    Tendsto (fun k => P k {ω | RunsMiss R loglike place (fun i => rule i k) (fun i => start i k) (fun i => draws i k ω) (fun i => spots i k ω)
      init (SummaryNear R G .logz (Real.log (∫ x in (0 : ℝ)..1, Real.exp (loglike x))) δ)}) atTop (𝓝 0) := by
  refine summary_converges hm hδ fun i => ?_
  have hvec : ∀ k ω, (fun j : Fin (N i k) => (List.ofFn (draws i k ω)).getD j 0) = draws i k ω := fun k ω => by
    funext j
    simp [List.getD_eq_getElem?_getD]
  refine tendsto_of_tendsto_of_tendsto_of_le_of_le tendsto_const_nhds
    (C95_logz (R := R) (hs i) (fun k => (hu i k).uniform) (hn i) hanti hinit hb (by linarith : 0 < δ / 4)) (fun k => zero_le) fun k => measure_mono ?_
  rintro ω ⟨live, its, samples, hex, hsam, A, da, dw, w, hbad⟩
  refine ⟨live, its, samples, by rw [hvec]; exact hex.adaptive, hsam, A, da, dw, w, ?_⟩
  rintro ⟨r, z, e1, e2, e3⟩
  refine hbad ⟨r, e1, z, ?_, e3⟩
  change (logz R r none false >>= fun x => pure (some x)) w = _
  rw [M.bind_ok e2, M.pure_apply]

/-- C106 for `evidence`. -/
theorem C106_evidence {R : Rng σ ℝ} {G : NormalRng σ} (hm : 2 ≤ m) (hs : ∀ i k, StoppingSchedule (rule i k) (start i k))
    (hu : ∀ i k, IidPoints (P k) ν (draws i k) (spots i k)) (hn : ∀ i, Tendsto (fun k => (start i k).card) atTop atTop)
    {loglike : ℝ → ℝ} (hanti : StrictAntiOn loglike (Set.Ioo 0 1)) {init : ℝ} (hinit : ∀ x ∈ Set.Ioo (0 : ℝ) 1, init < loglike x)
    {b : ℝ} (hb : ∀ x ∈ Set.Ioo (0 : ℝ) 1, loglike x ≤ b) {place : ℝ → E → List ℝ} {δ : ℝ} (hδ : 0 < δ) :
    Tendsto (fun k => P k {ω | RunsMiss R loglike place (fun i => rule i k) (fun i => start i k) (fun i => draws i k ω) (fun i => spots i k ω)
      init (SummaryNear R G .evidence (∫ x in (0 : ℝ)..1, Real.exp (loglike x)) δ)}) atTop (𝓝 0) := by
  refine summary_converges hm hδ fun i => ?_
  have hvec : ∀ k ω, (fun j : Fin (N i k) => (List.ofFn (draws i k ω)).getD j 0) = draws i k ω := fun k ω => by
    funext j
    simp [List.getD_eq_getElem?_getD]
  obtain ⟨est, h0, h1, h2⟩ := C95_evidence (R := R) (hs i) (fun k => (hu i k).uniform) (hn i) hanti hinit hb
  have hδ' : ENNReal.ofReal (δ / 4) ≠ 0 := by simpa using hδ
  have h3 : Tendsto (fun k => (∫⁻ ω, ‖est k ω - ∫ x in (0 : ℝ)..1, Real.exp (loglike x)‖ₑ ∂P k) / ENNReal.ofReal (δ / 4)) atTop (𝓝 0) := by
    have := ENNReal.Tendsto.div_const h2 (.inr hδ')
    rwa [ENNReal.zero_div] at this
  refine tendsto_of_tendsto_of_tendsto_of_le_of_le tendsto_const_nhds h3 (fun k => zero_le) fun k => ?_
  refine le_trans (measure_mono_ae ?_) (meas_ge_le_lintegral_div ((h0 k).sub_const _).enorm hδ' ENNReal.ofReal_ne_top)
  filter_upwards [h1 k] with ω h4
  rintro ⟨live, its, samples, hex, hsam, A, da, dw, w, hbad⟩
  by_contra hc
  rw [hvec] at h4
  obtain ⟨-, r, e1, e2, -⟩ := h4.2 live its hex.adaptive samples hsam A da dw w
  refine hbad ⟨r, e1, est k ω, ?_, ?_⟩
  · change (evidence R r none false >>= fun x => pure (some x)) w = _
    rw [M.bind_ok e2, M.pure_apply]
  · have h5 : ¬ ENNReal.ofReal (δ / 4) ≤ ‖est k ω - ∫ x in (0 : ℝ)..1, Real.exp (loglike x)‖ₑ := hc
    rw [Real.enorm_eq_ofReal_abs, not_le, ENNReal.ofReal_lt_ofReal_iff (by linarith)] at h5
    exact h5

/-- C106 for `param_mean`. -/
theorem C106_param_mean {R : Rng σ ℝ} {G : NormalRng σ} (hm : 2 ≤ m) (hs : ∀ i k, StoppingSchedule (rule i k) (start i k))
    (hu : ∀ i k, IidPoints (P k) ν (draws i k) (spots i k)) (hn : ∀ i, Tendsto (fun k => (start i k).card) atTop atTop)
    {loglike : ℝ → ℝ} (hanti : StrictAntiOn loglike (Set.Ioo 0 1)) {init : ℝ} (hinit : ∀ x ∈ Set.Ioo (0 : ℝ) 1, init < loglike x)
    {b : ℝ} (hb : ∀ x ∈ Set.Ioo (0 : ℝ) 1, loglike x ≤ b) {place : ℝ → E → List ℝ} {ind : Nat} {q : ℝ → E → ℝ}
    (hp : ∀ x ∈ Set.Ioo (0 : ℝ) 1, ∀ e, (place x e)[ind]? = some (q x e)) (hq : Measurable (fun p : ℝ × E => q p.1 p.2)) {B : ℝ}
    (hB : ∀ x ∈ Set.Ioo (0 : ℝ) 1, ∀ e, |q x e| ≤ B)
    (hcont : ∀ᵐ x ∂volume.restrict (Set.Ioo (0 : ℝ) 1), ContinuousAt (fun x => ∫ e, q x e ∂ν) x) (handle : Bool) {δ : ℝ} (hδ : 0 < δ) :
    Tendsto (fun k => P k {ω | RunsMiss R loglike place (fun i => rule i k) (fun i => start i k) (fun i => draws i k ω) (fun i => spots i k ω)
      init (SummaryNear R G (.paramMean ind handle) (posteriorMean loglike ν q) δ)}) atTop (𝓝 0) :=
  summary_converges hm hδ fun i =>
    let h := C96_param_mean (R := R) (hs i) (hu i) (hn i) hanti hinit hb hp hq hB hcont (by linarith : 0 < δ / 4)
    misses_tendsto (fun A r w hg _ => hg handle) h h

/-- C106 for `param_squared_mean`. -/
theorem C106_squared {R : Rng σ ℝ} {G : NormalRng σ} (hm : 2 ≤ m) (hs : ∀ i k, StoppingSchedule (rule i k) (start i k))
    (hu : ∀ i k, IidPoints (P k) ν (draws i k) (spots i k)) (hn : ∀ i, Tendsto (fun k => (start i k).card) atTop atTop)
    {loglike : ℝ → ℝ} (hanti : StrictAntiOn loglike (Set.Ioo 0 1)) {init : ℝ} (hinit : ∀ x ∈ Set.Ioo (0 : ℝ) 1, init < loglike x)
    {b : ℝ} (hb : ∀ x ∈ Set.Ioo (0 : ℝ) 1, loglike x ≤ b) {place : ℝ → E → List ℝ} {ind : Nat} {q : ℝ → E → ℝ}
    (hp : ∀ x ∈ Set.Ioo (0 : ℝ) 1, ∀ e, (place x e)[ind]? = some (q x e)) (hq : Measurable (fun p : ℝ × E => q p.1 p.2)) {B : ℝ}
    (hB : ∀ x ∈ Set.Ioo (0 : ℝ) 1, ∀ e, |q x e| ≤ B)
    (hcont : ∀ᵐ x ∂volume.restrict (Set.Ioo (0 : ℝ) 1), ContinuousAt (fun x => ∫ e, q x e ^ 2 ∂ν) x) {δ : ℝ} (hδ : 0 < δ) :
    Tendsto (fun k => P k {ω | RunsMiss R loglike place (fun i => rule i k) (fun i => start i k) (fun i => draws i k ω) (fun i => spots i k ω)
      init (SummaryNear R G (.paramSquaredMean ind) (posteriorMean loglike ν (fun x e => q x e ^ 2)) δ)}) atTop (𝓝 0) :=
  summary_converges hm hδ fun i =>
    let h := C96_squared (R := R) (hs i) (hu i) (hn i) hanti hinit hb hp hq hB hcont (by linarith : 0 < δ / 4)
    misses_tendsto (fun A r w hg _ => (by
      obtain ⟨x, e1, e2⟩ := hg
      refine ⟨x, ?_, e2⟩
      change (paramSquaredMean R r none false ind >>= fun x => pure (some x)) w = _
      rw [M.bind_ok e1, M.pure_apply])) h h

/-- C106 for `r_mean`. -/
theorem C106_r_mean {R : Rng σ ℝ} {G : NormalRng σ} (hm : 2 ≤ m) (hs : ∀ i k, StoppingSchedule (rule i k) (start i k))
    (hu : ∀ i k, IidPoints (P k) ν (draws i k) (spots i k)) (hn : ∀ i, Tendsto (fun k => (start i k).card) atTop atTop)
    {loglike : ℝ → ℝ} (hanti : StrictAntiOn loglike (Set.Ioo 0 1)) {init : ℝ} (hinit : ∀ x ∈ Set.Ioo (0 : ℝ) 1, init < loglike x)
    {b : ℝ} (hb : ∀ x ∈ Set.Ioo (0 : ℝ) 1, loglike x ≤ b) {place : ℝ → E → List ℝ} {q : ℝ → E → ℝ}
    (hp : ∀ x ∈ Set.Ioo (0 : ℝ) 1, ∀ e, radius (place x e) = q x e) (hq : Measurable (fun p : ℝ × E => q p.1 p.2)) {B : ℝ}
    (hB : ∀ x ∈ Set.Ioo (0 : ℝ) 1, ∀ e, |q x e| ≤ B)
    (hcont : ∀ᵐ x ∂volume.restrict (Set.Ioo (0 : ℝ) 1), ContinuousAt (fun x => ∫ e, q x e ∂ν) x) {δ : ℝ} (hδ : 0 < δ) :
    Tendsto (fun k => P k {ω | RunsMiss R loglike place (fun i => rule i k) (fun i => start i k) (fun i => draws i k ω) (fun i => spots i k ω)
      init (SummaryNear R G .rMean (posteriorMean loglike ν q) δ)}) atTop (𝓝 0) :=
  summary_converges hm hδ fun i =>
    let h := C96_r_mean (R := R) (hs i) (hu i) (hn i) hanti hinit hb hp hq hB hcont (by linarith : 0 < δ / 4)
    misses_tendsto (fun A r w hg _ => (by
      obtain ⟨x, e1, e2⟩ := hg
      refine ⟨x, ?_, e2⟩
      change (rMean R r none false >>= fun x => pure (some x)) w = _
      rw [M.bind_ok e1, M.pure_apply])) h h

/-- C106 for `param_cred`. -/
theorem C106_param_cred {R : Rng σ ℝ} {G : NormalRng σ} (hm : 2 ≤ m) (hs : ∀ i k, StoppingSchedule (rule i k) (start i k))
    (hu : ∀ i k, IidPoints (P k) ν (draws i k) (spots i k)) (hn : ∀ i, Tendsto (fun k => (start i k).card) atTop atTop)
    {loglike : ℝ → ℝ} (hanti : StrictAntiOn loglike (Set.Ioo 0 1)) {init : ℝ} (hinit : ∀ x ∈ Set.Ioo (0 : ℝ) 1, init < loglike x)
    {b : ℝ} (hb : ∀ x ∈ Set.Ioo (0 : ℝ) 1, loglike x ≤ b) {place : ℝ → E → List ℝ} {ind : Nat} {q : ℝ → E → ℝ}
    (hp : ∀ x ∈ Set.Ioo (0 : ℝ) 1, ∀ e, (place x e)[ind]? = some (q x e)) (hq : Measurable (fun p : ℝ × E => q p.1 p.2))
    (hcont : ∀ t, ∀ᵐ x ∂volume.restrict (Set.Ioo (0 : ℝ) 1), ContinuousAt (fun x => ν.real {e | q x e ≤ t}) x)
    {prob : ℝ} (hp0 : 0 < prob) (hp1 : prob < 1) {Q : ℝ} (hQ : PosteriorQuantile loglike ν q prob Q) {δ : ℝ} (hδ : 0 < δ) :
    Tendsto (fun k => P k {ω | RunsMiss R loglike place (fun i => rule i k) (fun i => start i k) (fun i => draws i k ω) (fun i => spots i k ω)
      init (SummaryNear R G (.paramCred prob ind) (Q) δ)}) atTop (𝓝 0) :=
  summary_converges hm hδ fun i =>
    let h := C97_param_cred (R := R) (hs i) (hu i) (hn i) hanti hinit hb hp hq hcont hp0 hp1 hQ (by linarith : 0 < δ / 4)
    misses_tendsto (fun A r w hg _ => (by
      obtain ⟨x, e1, e2⟩ := hg
      refine ⟨x, ?_, e2⟩
      change (paramCred A R r none false prob ind >>= fun x => pure (some x)) w = _
      rw [M.bind_ok e1, M.pure_apply])) h h

/-- C106 for `r_cred`. -/
theorem C106_r_cred {R : Rng σ ℝ} {G : NormalRng σ} (hm : 2 ≤ m) (hs : ∀ i k, StoppingSchedule (rule i k) (start i k))
    (hu : ∀ i k, IidPoints (P k) ν (draws i k) (spots i k)) (hn : ∀ i, Tendsto (fun k => (start i k).card) atTop atTop)
    {loglike : ℝ → ℝ} (hanti : StrictAntiOn loglike (Set.Ioo 0 1)) {init : ℝ} (hinit : ∀ x ∈ Set.Ioo (0 : ℝ) 1, init < loglike x)
    {b : ℝ} (hb : ∀ x ∈ Set.Ioo (0 : ℝ) 1, loglike x ≤ b) {place : ℝ → E → List ℝ} {q : ℝ → E → ℝ}
    (hp : ∀ x ∈ Set.Ioo (0 : ℝ) 1, ∀ e, radius (place x e) = q x e) (hq : Measurable (fun p : ℝ × E => q p.1 p.2))
    (hcont : ∀ t, ∀ᵐ x ∂volume.restrict (Set.Ioo (0 : ℝ) 1), ContinuousAt (fun x => ν.real {e | q x e ≤ t}) x)
    {prob : ℝ} (hp0 : 0 < prob) (hp1 : prob < 1) {Q : ℝ} (hQ : PosteriorQuantile loglike ν q prob Q) {δ : ℝ} (hδ : 0 < δ) :
    Tendsto (fun k => P k {ω | RunsMiss R loglike place (fun i => rule i k) (fun i => start i k) (fun i => draws i k ω) (fun i => spots i k ω)
      init (SummaryNear R G (.rCred prob) (Q) δ)}) atTop (𝓝 0) :=
  summary_converges hm hδ fun i =>
    let h := C97_r_cred (R := R) (hs i) (hu i) (hn i) hanti hinit hb hp hq hcont hp0 hp1 hQ (by linarith : 0 < δ / 4)
    misses_tendsto (fun A r w hg _ => (by
      obtain ⟨x, e1, e2⟩ := hg
      refine ⟨x, ?_, e2⟩
      change (rCred A R r none false prob >>= fun x => pure (some x)) w = _
      rw [M.bind_ok e1, M.pure_apply])) h h

/-- For static samplers and `logz` alone, nothing has to be assumed about the bootstrap replications: the summary is always returned. -/
def Spec.LogzSummary (R : Rng σ ℝ) (G : NormalRng σ) (L δ : ℝ) (A : Argsort ℝ) (runs : List (Run ℝ)) : Prop :=
  ∀ (D : Distances (List Cell) Cell) (name : String), name ≠ "calculation type" → ∀ nSim : Nat, 2 ≤ nSim →
    ∀ tv : Option (List ℝ), (∀ v, tv = some v → v = [L]) → ∀ incTrue incRmse : Bool, (incTrue = true ∨ incRmse = true → tv.isSome) →
    ∀ (nsim : Nat) (parallel : Bool) (S1 S2 S3 : Schedule σ runs.length) (w : World σ),
    ShowsNear (runListErrorSummary A R G nsim D runs [Estimator.logz.call A R] [name] nSim false false parallel tv incTrue incRmse S1 S2 S3 w).1
      0 L δ incRmse

/-- The runs of static samplers have values of `logz` for all their replications. -/
theorem static_values {R : Rng σ ℝ} {n : Nat} {rule : Rule n} {start : Finset (Fin n)} {u : Fin n → ℝ} (hd : Drawable rule start u)
    (hs : StaticSchedule rule start) {loglike : ℝ → ℝ} (hanti : StrictAntiOn loglike (Set.Ioo 0 1)) {init : ℝ} {live : List (Sample ℝ)}
    {its : List (Iteration ℝ)} (hex : AdaptiveExecution loglike rule start u init live its) {samples : List (Sample ℝ)}
    (hperm : samples.Perm (its.map (·.dead))) (hdim : SameDim (samples.map (·.theta))) {b : ℝ} (hb : ∀ x ∈ Set.Ioo (0 : ℝ) 1, loglike x ≤ b)
    {A : Argsort ℝ} {da dw : Bool} {w : World σ} {r : Run ℝ} (hr : processSamples A R samples da dw w = (.ok r, w)) {nSim : Nat} (hsim : 0 < nSim) :
    (∃ x : ℝ, ∃ w : World σ, (runEstimators R r [Estimator.logz.call A R] false w).1 = .ok [some x]) ∧
    ∃ ys : List ℝ, ∃ w : World σ, (runBootstrapValues A R r none [Estimator.logz.call A R] nSim false true none w).1 = .ok [ys.map some] := by
  obtain ⟨r', h1, h2, h3⟩ := hd.rows (R := R) hs hanti hex hperm hdim hb (f := loglike) (fun _ _ => rfl) (settings := none) (sep := false)
    (by simp [separately]) A A da dw w
  obtain rfl : r' = r := by
    have := (h1 w).symm.trans hr
    simpa using this
  set z := Real.log (original loglike start.card b (removals rule start u))
  have hcall : Estimator.logz.call A R r' none false w = (.ok (some z), w) := by
    change (logz R r' none false >>= fun x => pure (some x)) w = _
    rw [M.bind_ok (h2 w), M.pure_apply]
  have hdet : ∀ f ∈ [Estimator.logz.call A R], Deterministic f := fun f hf => by
    obtain rfl := List.mem_singleton.mp hf
    exact C35_builtin A R _
  constructor
  · obtain ⟨vs, w2, e1⟩ := runEstimators_single (A := A) h2 w
    refine ⟨z, w, ?_⟩
    have e2 := estimators_value hdet (i := 0) rfl (by rw [e1]) hcall
    obtain ⟨v, rfl⟩ := List.length_eq_one_iff.mp (runEstimators_length R e1)
    rw [e1]
    simpa using e2
  · obtain ⟨e1, e2⟩ := h3 nSim ((List.range nSim).map Seed.num) w (by simp)
    obtain ⟨vals, w2, e3⟩ := e1 A
    have e4 := e2 _ hdet A 0 rfl vals w2 e3
    obtain ⟨row, rfl⟩ := List.length_eq_one_iff.mp (bootstrapValues_shape A R (by rw [e3] : _ = Except.ok vals)).1
    set ys := (replicaIndexes R start.card (separately none false) ((List.range nSim).map Seed.num) w.rng).map (fun D =>
      Real.log (replica start loglike start.card b (removals rule start u) (fun j => D.getD j 0))) with hys
    obtain rfl : row = ys.map some := by simpa using e4
    have hne : ys ≠ [] := by
      intro h
      have := congrArg List.length h
      rw [hys, List.length_map, replicaIndexes, List.length_map, length_drawStates] at this
      simp at this
      omega
    refine ⟨ys.map (fun y => 2 * Spec.average ys - y), w, ?_⟩
    have key : runBootstrapValues A R r' none [Estimator.logz.call A R] nSim false true none =
        (runBootstrapValues A R r' none [Estimator.logz.call A R] nSim false false (some ((List.range nSim).map Seed.num)) >>=
          fun vals => pure (vals.map flipRow)) := by
      simp [runBootstrapValues]
    rw [key, M.bind_ok e3, M.pure_apply, List.map_singleton, flipRow_some hne]

/-- C106 for the runs of static samplers and `logz` alone: the summary is returned. -/
theorem C106_static {R : Rng σ ℝ} {G : NormalRng σ} (hm : 2 ≤ m) (hs : ∀ i k, StaticSchedule (rule i k) (start i k))
    (hu : ∀ i k, IidPoints (P k) ν (draws i k) (spots i k)) (hn : ∀ i, Tendsto (fun k => (start i k).card) atTop atTop)
    {loglike : ℝ → ℝ} (hanti : StrictAntiOn loglike (Set.Ioo 0 1)) {init : ℝ} (hinit : ∀ x ∈ Set.Ioo (0 : ℝ) 1, init < loglike x)
    {b : ℝ} (hb : ∀ x ∈ Set.Ioo (0 : ℝ) 1, loglike x ≤ b) {place : ℝ → E → List ℝ} {d : Nat} (hd : ∀ x e, (place x e).length = d)
    {δ : ℝ} (hδ : 0 < δ) :
    Tendsto (fun k => P k {ω | RunsMiss R loglike place (fun i => rule i k) (fun i => start i k) (fun i => draws i k ω) (fun i => spots i k ω)
      init (LogzSummary R G (Real.log (∫ x in (0 : ℝ)..1, Real.exp (loglike x))) δ)}) atTop (𝓝 0) := by
  have hmain := C106_logz (R := R) (G := G) hm (fun i k => (hs i k).toStoppingSchedule) hu hn hanti hinit hb (place := place) hδ
  refine tendsto_of_tendsto_of_tendsto_of_le_of_le tendsto_const_nhds hmain (fun k => zero_le) fun k => measure_mono_ae ?_
  have hvec : ∀ i ω, (fun j : Fin (N i k) => (List.ofFn (draws i k ω)).getD j 0) = draws i k ω := fun i ω => by
    funext j
    simp [List.getD_eq_getElem?_getD]
  have ha : ∀ᵐ ω ∂P k, ∀ i, Drawable (rule i k) (start i k) (draws i k ω) := ae_all_iff.mpr fun i => by
    filter_upwards [(hu i k).uniform.vector_ae (drawable_ae (hs i k).toStoppingSchedule)] with ω hω
    rwa [hvec] at hω
  have hrun := ae_all_iff.mpr fun i => C96_run (R := R) (hs i k).toStoppingSchedule (hu i k) hanti hinit place
  filter_upwards [ha, hrun] with ω h1 h2
  rintro ⟨live, its, samples, hex, A, da, dw, w, hbad⟩
  refine ⟨live, its, samples, hex, A, da, dw, w, ?_⟩
  rintro ⟨runs, h3, h4⟩
  refine hbad ⟨runs, h3, ?_⟩
  intro D name hname nSim hsim tv htv incTrue incRmse hinc nsim parallel S1 S2 S3 w'
  have hval : ∀ i, (∃ x : ℝ, ∃ w : World σ, (runEstimators R (runs i) [Estimator.logz.call A R] false w).1 = .ok [some x]) ∧
      ∃ ys : List ℝ, ∃ w : World σ, (runBootstrapValues A R (runs i) none [Estimator.logz.call A R] nSim false true none w).1 =
        .ok [ys.map some] := by
    intro i
    refine static_values (h1 i) (hs i k) hanti (hex i).1.adaptive (hex i).2 ?_ hb (h3 i) (by omega)
    obtain ⟨r, e1, -, e3, -⟩ := (h2 i).2 (live i) (its i) (hex i).1 (samples i) (hex i).2 A da dw
    obtain ⟨r', g1, -, g3, -⟩ := C87_replay (R := R) (σ := σ) (hex i).1.prior (hex i).1.run (hex i).2 A da dw
    obtain rfl : r = r' := by
      have := (e1 w).symm.trans (g1 w)
      simpa using this
    have hall : ∀ t ∈ (samples i).map (·.theta), t.length = d := by
      intro t ht
      have ht' : t ∈ r.theta := by
        rw [g3]
        have := ((hex i).2.map (·.theta)).mem_iff.mp ht
        simpa using this
      rw [e3] at ht'
      obtain ⟨a, -, rfl⟩ := List.mem_map.mp ht'
      exact hd _ _
    intro s hs' t ht
    rw [hall s hs', hall t ht]
  choose hx hy using hval
  choose xs hx using hx
  choose ys hy using hy
  refine h4 D [Estimator.logz.call A R] (fun f hf => ?_) [name] rfl (by simp) (by simpa using hname.symm) nSim hsim
    (List.ofFn fun i => [xs i]) (List.ofFn fun i => [ys i]) ?_ ?_ 0 rfl tv (fun v hv => ?_) incTrue incRmse hinc nsim parallel S1 S2 S3 w'
  · obtain rfl := List.mem_singleton.mp hf
    exact C35_builtin A R _
  · rw [List.forall₂_iff_get]
    refine ⟨by simp, fun j h5 h6 => ?_⟩
    simpa using hx ⟨j, by simpa using h5⟩
  · rw [List.forall₂_iff_get]
    refine ⟨by simp, fun j h5 h6 => ?_⟩
    simpa using hy ⟨j, by simpa using h5⟩
  · rw [htv v hv]
    exact ⟨rfl, rfl⟩

end

end
end Nestcheck
