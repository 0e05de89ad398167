import Mathlib.Tactic.FieldSimp
import Mathlib.Tactic.Positivity
import Verif.Model.Pandas
import Verif.Props.ErrorAnalysis

/-
C48: summary_df; C49: get_eff_gain; C66: efficiency_gain_df.
-/

namespace Nestcheck
open Spec
noncomputable section

theorem py_ok_bind {α β : Type} (a : α) (f : α → Py β) : (Except.ok a >>= f : Py β) = f a := rfl

/-! ### C48 -/

/-- An array of real numbers with `m` columns. -/
def Spec.realArr (m : Nat) (xs : List (List ℝ)) : Arr2 := ⟨m, xs.map (List.map some)⟩

/-- Column `j`. -/
def Spec.col (xs : List (List ℝ)) (j : Nat) : List ℝ := xs.map (fun r => r.getD j 0)

/-- A row of a table, given by what it holds for each column. -/
def Spec.perColumn (m : Nat) (f : Nat → ℝ) : List Cell := (List.range m).map (fun j => some (f j))

/-- The squared distances from a value. -/
def Spec.sqDev (ys : List ℝ) (t : ℝ) : List ℝ := ys.map (fun y => (y - t) ^ 2)

theorem columns_realArr {m : Nat} {xs : List (List ℝ)} (h : ∀ r ∈ xs, r.length = m) :
    (realArr m xs).columns = (List.range m).map (fun j => (col xs j).map some) := by
  unfold Arr2.columns realArr fromColumns col
  simp only [List.map_map]
  apply List.map_congr_left
  intro j hj
  rw [List.mem_range] at hj
  apply List.map_congr_left
  intro r hr
  have hjr : j < r.length := by rw [h r hr]; exact hj
  simp only [Function.comp, List.getElem?_map, List.getElem?_eq_getElem hjr, Option.map_some, Option.join_some,
    List.getD_eq_getElem?_getD, Option.getD_some]

theorem filter_isSome_map (ys : List ℝ) : (ys.map some).filter Option.isSome = ys.map some := by
  rw [List.filter_eq_self]
  intro x hx
  obtain ⟨y, -, rfl⟩ := List.mem_map.mp hx
  rfl

theorem col_length (xs : List (List ℝ)) (j : Nat) : (col xs j).length = xs.length := by simp [col]

theorem sqErrors_some (ys : List ℝ) (t : ℝ) : sqErrors (ys.map some) t = (sqDev ys t).map some := by
  simp [sqErrors, sqDev, List.map_map, Function.comp_def]

theorem rmseCell_some {ys : List ℝ} (h : ys ≠ []) (t : ℝ) :
    rmseCell (ys.map some) t = some (Real.sqrt (average (sqDev ys t))) := by
  unfold rmseCell
  rw [sqErrors_some, npMean_some (by simpa [sqDev] using h)]
  rfl

/-- The uncertainty of a root mean squared error by propagation of the standard error of the
squared errors; it is not defined if all errors are zero. -/
def Spec.rmseUnc (ys : List ℝ) (t : ℝ) : Cell :=
  if average (sqDev ys t) = 0 then none
  else some (stdev (sqDev ys t) / Real.sqrt ys.length / (2 * Real.sqrt (average (sqDev ys t))))

theorem average_sqDev_nonneg (ys : List ℝ) (t : ℝ) : 0 ≤ average (sqDev ys t) := by
  unfold average
  apply div_nonneg _ (Nat.cast_nonneg _)
  apply List.sum_nonneg
  intro x hx
  obtain ⟨y, -, rfl⟩ := List.mem_map.mp hx
  positivity

theorem rmseUncCell_some {ys : List ℝ} (h : 2 ≤ ys.length) (t : ℝ) :
    rmseUncCell (ys.map some) t = rmseUnc ys t := by
  have hne : ys ≠ [] := by rintro rfl; simp at h
  unfold rmseUncCell rmseUnc
  rw [rmseCell_some hne, sqErrors_some, npStd_some (by simpa [sqDev] using h)]
  by_cases h0 : average (sqDev ys t) = 0
  · rw [if_pos h0, h0, Real.sqrt_zero]
    simp [nanDiv]
  · have hpos : 0 < average (sqDev ys t) := lt_of_le_of_ne (average_sqDev_nonneg ys t) (Ne.symm h0)
    have hs : Real.sqrt (average (sqDev ys t)) ≠ 0 := Real.sqrt_ne_zero'.mpr hpos
    rw [if_neg h0]
    simp only [nanDiv, if_neg hs, Option.bind_eq_bind, Option.bind_some, Option.pure_def, List.length_map,
      Option.some.injEq]
    field_simp
    ring

/-- What the table of `summary_df` should be. -/
def Spec.summaryTable (m : Nat) (xs : List (List ℝ)) (tv : List ℝ) (incTrue incRmse : Bool) : Table :=
  (if incTrue then [((.trueValues, .value), perColumn m (fun j => tv.getD j 0))] else []) ++
  [((.mean, .value), perColumn m (fun j => average (col xs j))),
   ((.mean, .uncertainty), perColumn m (fun j => stdev (col xs j) / Real.sqrt xs.length)),
   ((.std, .value), perColumn m (fun j => stdev (col xs j))),
   ((.std, .uncertainty), perColumn m (fun j => stdev (col xs j) / Real.sqrt (2 * (xs.length - 1))))] ++
  (if incRmse then
    [((.rmse, .value), perColumn m (fun j => Real.sqrt (average (sqDev (col xs j) (tv.getD j 0))))),
     ((.rmse, .uncertainty), (List.range m).map (fun j => rmseUnc (col xs j) (tv.getD j 0)))]
  else [])

theorem zipWith_range {β : Type} (f : List Cell → ℝ → β) {m : Nat} {tv : List ℝ} (ht : tv.length = m)
    (g : Nat → List Cell) :
    List.zipWith f ((List.range m).map g) tv = (List.range m).map (fun j => f (g j) (tv.getD j 0)) := by
  apply List.ext_getElem?
  intro i
  by_cases hi : i < m
  · have hit : i < tv.length := by omega
    simp [List.getElem?_zipWith, hi, List.getElem?_eq_getElem hit, List.getD_eq_getElem?_getD]
  · rw [List.getElem?_eq_none (by simp; omega), List.getElem?_eq_none (by simp; omega)]

/-- C48: for every array of at least two rows `summary_df` gives exactly the table of means,
sample standard deviations, their standard errors and, if asked for, the true values and root mean
squared errors, in this order. -/
theorem C48 {m : Nat} {xs : List (List ℝ)} (h : ∀ r ∈ xs, r.length = m) (hn : 2 ≤ xs.length)
    {tv : Option (List ℝ)} (ht : ∀ t, tv = some t → t.length = m) {incTrue incRmse : Bool}
    (hs : (incTrue = true ∨ incRmse = true) → tv.isSome) :
    summaryDf (realArr m xs) tv incTrue incRmse = .ok (summaryTable m xs (tv.getD []) incTrue incRmse) := by
  have hlen : (realArr m xs).rows.length = xs.length := by simp [realArr]
  have hcol := columns_realArr h
  have hn0 : ∀ j, col xs j ≠ [] := by
    intro j hc
    have := col_length xs j
    rw [hc] at this
    simp at this
    omega
  have hmean : (realArr m xs).columns.map pdMean = perColumn m (fun j => average (col xs j)) := by
    rw [hcol, List.map_map]
    refine List.map_congr_left fun j _ => ?_
    simp only [Function.comp, pdMean, filter_isSome_map, npMean_some (hn0 j)]
  have hstd : (realArr m xs).columns.map pdStd = perColumn m (fun j => stdev (col xs j)) := by
    rw [hcol, List.map_map]
    refine List.map_congr_left fun j _ => ?_
    simp only [Function.comp, pdStd, filter_isSome_map]
    rw [npStd_some (by rw [col_length]; exact hn)]
  have hsqrt : Real.sqrt (1 / (2 * ((xs.length : ℝ) - 1))) = 1 / Real.sqrt (2 * ((xs.length : ℝ) - 1)) := by
    rw [Real.sqrt_div zero_le_one, Real.sqrt_one]
  have hck : checkTrue (realArr m xs) tv = .ok () := by
    unfold checkTrue
    cases tv with
    | none => rfl
    | some t => exact if_pos (ht t rfl)
  have htr : trueRow tv incTrue =
      .ok (if incTrue then [((.trueValues, .value), perColumn m (fun j => (tv.getD []).getD j 0))] else []) := by
    unfold trueRow
    by_cases hi : incTrue = true
    · rw [if_pos hi, if_pos hi]
      obtain ⟨t, rfl⟩ := Option.isSome_iff_exists.mp (hs (Or.inl hi))
      simp only [Option.getD_some]
      have : t.map some = perColumn m (fun j => t.getD j 0) := ?_
      · rw [this]
      unfold perColumn
      apply List.ext_getElem?
      intro i
      have := ht t rfl
      by_cases hi : i < m
      · have hit : i < t.length := by omega
        simp [hi, List.getElem?_eq_getElem hit, List.getD_eq_getElem?_getD]
      · rw [List.getElem?_eq_none (by simp; omega), List.getElem?_eq_none (by simp; omega)]
    · rw [if_neg hi, if_neg hi]
  have hrm : rmseRows (realArr m xs) tv incRmse = .ok (if incRmse then
    [((.rmse, .value), perColumn m (fun j => Real.sqrt (average (sqDev (col xs j) ((tv.getD []).getD j 0))))),
     ((.rmse, .uncertainty), (List.range m).map (fun j => rmseUnc (col xs j) ((tv.getD []).getD j 0)))] else []) := by
    unfold rmseRows
    by_cases hi : incRmse = true
    · rw [if_pos hi, if_pos hi]
      obtain ⟨t, rfl⟩ := Option.isSome_iff_exists.mp (hs (Or.inr hi))
      simp only [Option.getD_some]
      have hrt : rmseAndUnc (realArr m xs) t =
          .ok (perColumn m (fun j => Real.sqrt (average (sqDev (col xs j) (t.getD j 0)))),
            (List.range m).map (fun j => rmseUnc (col xs j) (t.getD j 0))) := by
        unfold rmseAndUnc
        rw [if_pos (by simpa [realArr] using ht t rfl), hcol, zipWith_range _ (ht t rfl), zipWith_range _ (ht t rfl)]
        congr 2
        · refine List.map_congr_left fun j _ => ?_
          rw [rmseCell_some (hn0 j)]
        · refine List.map_congr_left fun j _ => ?_
          rw [rmseUncCell_some (by rw [col_length]; exact hn)]
      rw [hrt]
      rfl
    · rw [if_neg hi, if_neg hi]
  have hun : ∀ g : ℝ → ℝ, ∀ f : Nat → ℝ, (perColumn m f).map (Option.map g) = perColumn m (fun j => g (f j)) := by
    intro g f
    simp [perColumn, List.map_map, Function.comp_def]
  unfold summaryDf
  rw [hck, htr, hrm]
  simp only [py_ok_bind, hlen, hmean, hstd, hun]
  rw [if_neg (by omega)]
  show Except.ok _ = _
  congr 1
  simp only [hsqrt, mul_one_div]
  unfold summaryTable
  cases incTrue <;> cases incRmse <;>
    simp [sortTable, List.insertionSort, List.orderedInsert, Calc.order, Res.order]

/-- C48, the root mean squared error has a part from the bias and one from the spread. -/
theorem C48_rmse {ys : List ℝ} (h : 2 ≤ ys.length) (t : ℝ) :
    Real.sqrt (average (sqDev ys t)) ^ 2 =
      (average ys - t) ^ 2 + ((ys.length : ℝ) - 1) / ys.length * stdev ys ^ 2 := by
  have hn : (2 : ℝ) ≤ ys.length := by exact_mod_cast h
  have hpos : (0 : ℝ) < ys.length := by linarith
  have hsum : ∀ c : ℝ, (ys.map (fun y => (y - c) ^ 2)).sum =
      (ys.map (fun y => y ^ 2)).sum - 2 * c * ys.sum + ys.length * c ^ 2 := by
    intro c
    clear hn hpos h
    induction ys with
    | nil => simp
    | cons y ys ih =>
      simp only [List.map_cons, List.sum_cons, List.length_cons, Nat.cast_add, Nat.cast_one, ih]
      ring
  rw [Real.sq_sqrt (average_sqDev_nonneg ys t)]
  unfold stdev
  rw [Real.sq_sqrt]
  · unfold average sqDev
    rw [List.length_map, hsum, hsum]
    have h1 : ((ys.length : ℝ) - 1) ≠ 0 := by linarith
    field_simp
    ring
  · apply div_nonneg _ (by linarith)
    apply List.sum_nonneg
    intro x hx
    obtain ⟨y, -, rfl⟩ := List.mem_map.mp hx
    positivity

/-- C48, the other direction of the array: `axis=1` on the transposed array gives the same
table. -/
theorem C48_axis {m : Nat} {xs : List (List ℝ)} (h : ∀ r ∈ xs, r.length = m) (tv : Option (List ℝ))
    (incTrue incRmse : Bool) :
    summaryDfFromArray (realArr m xs).transpose m 1 tv incTrue incRmse =
      summaryDfFromArray (realArr m xs) m 0 tv incTrue incRmse := by
  have hT : (realArr m xs).transpose.transpose = realArr m xs := by
    have hc := columns_realArr h
    unfold Arr2.columns at hc
    unfold Arr2.transpose
    simp only [realArr] at hc ⊢
    rw [hc]
    simp only [List.length_map, List.length_range, Arr2.mk.injEq, true_and]
    apply List.ext_getElem?
    intro i
    unfold fromColumns
    simp only [List.getElem?_map, List.map_map]
    by_cases hi : i < xs.length
    · have hri := h _ (List.getElem_mem hi)
      rw [List.getElem?_range (by simpa using hi), List.getElem?_eq_getElem hi]
      simp only [Option.map_some, Option.some.injEq]
      apply List.ext_getElem?
      intro j
      by_cases hj : j < m
      · simp [hj, col, hi, hri, List.getD_eq_getElem?_getD]
      · rw [List.getElem?_eq_none (by simp; omega), List.getElem?_eq_none (by simp; omega)]
    · rw [List.getElem?_eq_none (by simp; omega), List.getElem?_eq_none (by omega)]
      rfl
  unfold summaryDfFromArray
  rw [hT]
  simp [realArr]

/-- C48, from a list of results: the same table as from the array with these rows. -/
theorem C48_list {m : Nat} {xs : List (List ℝ)} (h : ∀ r ∈ xs, r.length = m) (hne : xs ≠ []) (tv : Option (List ℝ))
    (incTrue incRmse : Bool) :
    summaryDfFromList (xs.map (List.map some)) m tv incTrue incRmse =
      summaryDfFromArray (realArr m xs) m 0 tv incTrue incRmse := by
  unfold summaryDfFromList summaryDfFromArray
  rw [if_pos, if_neg (by simpa using hne), if_pos rfl, if_pos (by rfl)]
  · rfl
  · rw [List.all_eq_true]
    intro r hr
    obtain ⟨s, hs, rfl⟩ := List.mem_map.mp hr
    simpa using h s hs

/-- C48, what is rejected: a single row (ZeroDivisionError), and true values that are missing
although needed or of the wrong number (AssertionError). -/
theorem C48_errors (a : Arr2) (tv : Option (List ℝ)) (incTrue incRmse : Bool) :
    (∀ t, tv = some t → t.length ≠ a.ncol → summaryDf a tv incTrue incRmse = .error .assertion) ∧
    (tv = none → incTrue = true → summaryDf a tv incTrue incRmse = .error .assertion) ∧
    (tv = none → incTrue = false → incRmse = true → a.rows.length ≠ 1 →
      summaryDf a tv incTrue incRmse = .error .assertion) ∧
    ((∀ t, tv = some t → t.length = a.ncol) → (incTrue = true → tv ≠ none) → a.rows.length = 1 →
      summaryDf a tv incTrue incRmse = .error .zeroDivision) := by
  refine ⟨?_, ?_, ?_, ?_⟩
  · rintro t rfl hl
    unfold summaryDf checkTrue
    simp only [if_neg hl]
    rfl
  · rintro rfl rfl
    rfl
  · rintro rfl rfl rfl hl
    unfold summaryDf
    have h1 : trueRow none false = .ok [] := rfl
    have h2 : rmseRows a none true = .error .assertion := rfl
    have h3 : checkTrue a none = .ok () := rfl
    simp only [h1, h2, h3, py_ok_bind]
    rw [if_neg hl]
    rfl
  · intro h1 h2 hl
    have hck : checkTrue a tv = .ok () := by
      unfold checkTrue
      cases tv with
      | none => rfl
      | some t => simp only [if_pos (h1 t rfl)]
    have htr : ∃ t, trueRow tv incTrue = .ok t := by
      unfold trueRow
      by_cases hi : incTrue = true
      · rw [if_pos hi]
        cases tv with
        | none => exact absurd rfl (h2 hi)
        | some t => exact ⟨_, rfl⟩
      · rw [if_neg hi]; exact ⟨_, rfl⟩
    obtain ⟨t, htr⟩ := htr
    unfold summaryDf
    rw [hck, htr]
    simp only [py_ok_bind]
    rw [if_pos hl]
    rfl

/-- The values of a column that are not nan. -/
def Spec.present (c : List Cell) : List ℝ := c.filterMap id

theorem filter_present (c : List Cell) : c.filter Option.isSome = (present c).map some := by
  unfold present
  induction c with
  | nil => rfl
  | cons x c ih => cases x <;> simp [ih]

/-- C48, with nan in the array: mean and standard deviation are those of the values that are
present, but the standard error of the mean is calculated with the number of all rows (a recorded
defect: it should be the number of values). -/
theorem C48_nan (a : Arr2) (hn : a.rows.length ≠ 1) :
    let std := fun c : List Cell => if (present c).length < 2 then none else some (stdev (present c))
    summaryDf a none false false = .ok
      [((.mean, .value), a.columns.map (fun c => if present c = [] then none else some (average (present c)))),
       ((.mean, .uncertainty), a.columns.map (fun c => (std c).map (· / Real.sqrt a.rows.length))),
       ((.std, .value), a.columns.map std),
       ((.std, .uncertainty),
        a.columns.map (fun c => (std c).map (· * Real.sqrt (1 / (2 * ((a.rows.length : ℝ) - 1))))))] := by
  intro std
  have hmean : a.columns.map pdMean =
      a.columns.map (fun c => if present c = [] then none else some (average (present c))) := by
    refine List.map_congr_left fun c _ => ?_
    unfold pdMean
    rw [filter_present]
    by_cases h : present c = []
    · rw [if_pos h, h]; rfl
    · rw [if_neg h, npMean_some h]
  have hstd : a.columns.map pdStd = a.columns.map std := by
    refine List.map_congr_left fun c _ => ?_
    unfold pdStd
    rw [filter_present]
    by_cases h : (present c).length < 2
    · simp only [std, if_pos h]
      exact npStd_short (by rw [List.length_map]; omega)
    · simp only [std, if_neg h]
      exact npStd_some (by omega)
  unfold summaryDf
  have h1 : trueRow none false = .ok [] := rfl
  have h2 : rmseRows a none false = .ok [] := rfl
  have h3 : checkTrue a none = .ok () := rfl
  simp only [h1, h2, h3, py_ok_bind, hmean, hstd]
  rw [if_neg hn]
  show Except.ok _ = _
  simp [sortTable, List.insertionSort, List.orderedInsert, Calc.order, Res.order, List.map_map, Function.comp_def]

theorem average_perm {ys zs : List ℝ} (h : ys.Perm zs) : average ys = average zs := by
  unfold average
  rw [h.sum_eq, h.length_eq]

theorem stdev_perm {ys zs : List ℝ} (h : ys.Perm zs) : stdev ys = stdev zs := by
  unfold stdev
  rw [average_perm h, (h.map _).sum_eq, h.length_eq]

/-- C48, the order of the results does not matter (in particular not the order in which workers
complete them). -/
theorem C48_order {m : Nat} {xs ys : List (List ℝ)} (hp : xs.Perm ys) (h : ∀ r ∈ xs, r.length = m)
    (hn : 2 ≤ xs.length) {tv : Option (List ℝ)} (ht : ∀ t, tv = some t → t.length = m) {incTrue incRmse : Bool}
    (hs : (incTrue = true ∨ incRmse = true) → tv.isSome) :
    summaryDf (realArr m xs) tv incTrue incRmse = summaryDf (realArr m ys) tv incTrue incRmse := by
  rw [C48 h hn ht hs, C48 (fun r hr => h r (hp.mem_iff.mpr hr)) (by rw [← hp.length_eq]; exact hn) ht hs]
  have hc : ∀ j, (col xs j).Perm (col ys j) := fun j => hp.map _
  have hq : ∀ j t, (sqDev (col xs j) t).Perm (sqDev (col ys j) t) := fun j t => (hc j).map _
  have hu : ∀ j t, rmseUnc (col xs j) t = rmseUnc (col ys j) t := by
    intro j t
    unfold rmseUnc
    rw [average_perm (hq j t), stdev_perm (hq j t), (hc j).length_eq]
  unfold summaryTable
  simp only [fun j => average_perm (hc j), fun j => stdev_perm (hc j), hp.length_eq,
    fun j t => average_perm (hq j t), hu]

/-- A table of three results of two quantities. -/
example : summaryDf (realArr 2 [[1, 5], [2, 5], [3, 8]]) (some [1, 6]) true true =
    .ok (summaryTable 2 [[1, 5], [2, 5], [3, 8]] [1, 6] true true) :=
  C48 (by simp) (by simp) (by simp) (by simp)

/-! ### C49 -/

/-- C49: the gain is the ratio of the variances, times the adjustment, and its uncertainty is
that of propagation to first order. -/
theorem C49 {b m : ℝ} (hb : b ≠ 0) (hm : m ≠ 0) (sb sm adjust : ℝ) :
    effGain (some b) (some sb) (some m) (some sm) adjust =
      (some (adjust * (b ^ 2 / m ^ 2)),
       some (adjust * (b ^ 2 / m ^ 2) * (2 * Real.sqrt ((sb / b) ^ 2 + (sm / m) ^ 2)))) := by
  simp only [effGain, cellDiv, ratioStd, nanDiv, if_neg hb, if_neg hm, Option.bind_eq_bind, Option.bind_some,
    Option.pure_def, Option.map_some, Prod.mk.injEq, Option.some.injEq]
  constructor
  · rw [div_pow]; ring
  · field_simp

/-- C49, special cases: a method compared with itself gains the adjustment, swapping the methods
inverts the gain, and rescaling the results changes nothing. -/
theorem C49_laws {b m c : ℝ} (hb : b ≠ 0) (hm : m ≠ 0) (hc : 0 < c) (sb sm adjust : ℝ) :
    (effGain (some b) (some sb) (some b) (some sb) adjust).1 = some adjust ∧
    (effGain (some m) (some sm) (some b) (some sb) 1).1 =
      (effGain (some b) (some sb) (some m) (some sm) 1).1.map (·⁻¹) ∧
    effGain (some (c * b)) (some (c * sb)) (some (c * m)) (some (c * sm)) adjust =
      effGain (some b) (some sb) (some m) (some sm) adjust := by
  have hc0 : c ≠ 0 := hc.ne'
  refine ⟨?_, ?_, ?_⟩
  · rw [C49 hb hb]
    simp only [Option.some.injEq]
    field_simp
  · rw [C49 hb hm, C49 hm hb]
    simp
  · rw [C49 hb hm, C49 (mul_ne_zero hc0 hb) (mul_ne_zero hc0 hm), mul_div_mul_left _ _ hc0, mul_div_mul_left _ _ hc0]
    have : (c * b) ^ 2 / (c * m) ^ 2 = b ^ 2 / m ^ 2 := by
      rw [mul_pow, mul_pow, mul_div_mul_left _ _ (pow_ne_zero 2 hc0)]
    rw [this]

/-- C49, a method without any variation has no finite gain, and the uncertainty of the gain is
not defined if one of the two standard deviations is zero. -/
theorem C49_zero (b m sb sm adjust : ℝ) :
    (m = 0 → effGain (some b) (some sb) (some m) (some sm) adjust = (none, none)) ∧
    (b = 0 → (effGain (some b) (some sb) (some m) (some sm) adjust).2 = none) := by
  constructor
  · rintro rfl
    simp [effGain, cellDiv, ratioStd, nanDiv]
  · rintro rfl
    simp [effGain, cellDiv, ratioStd, nanDiv]

/-! ### C66 -/

/-- The gain of a method: the ratio of the variances of the base method and of the method, per
sample. -/
def Spec.gain (b m adjust : ℝ) : Cell := if m = 0 then none else some (adjust * (b / m) ^ 2)

/-- Its uncertainty by propagation. -/
def Spec.gainUnc (b : ℝ) (bu : Cell) (m : ℝ) (mu : Cell) (adjust : ℝ) : Cell :=
  match bu, mu with
  | some bu, some mu =>
    if b = 0 ∨ m = 0 then none else some (adjust * (b / m) ^ 2 * (2 * Real.sqrt ((bu / b) ^ 2 + (mu / m) ^ 2)))
  | _, _ => none

theorem effGain_fst (b : ℝ) (bu : Cell) (m : ℝ) (mu : Cell) (adjust : ℝ) :
    (effGain (some b) bu (some m) mu adjust).1 = gain b m adjust := by
  by_cases h : m = 0
  · simp [effGain, cellDiv, nanDiv, gain, h]
  · simp [effGain, cellDiv, nanDiv, gain, h, mul_comm]

theorem effGain_snd (b : ℝ) (bu : Cell) (m : ℝ) (mu : Cell) (adjust : ℝ) :
    (effGain (some b) bu (some m) mu adjust).2 = gainUnc b bu m mu adjust := by
  cases bu with
  | none => simp [effGain, ratioStd, gainUnc]
  | some bu =>
    cases mu with
    | none => simp [effGain, ratioStd, gainUnc]
    | some mu =>
      simp only [gainUnc]
      by_cases hb : b = 0
      · rw [if_pos (Or.inl hb), (C49_zero b m bu mu adjust).2 hb]
      by_cases hm : m = 0
      · rw [if_pos (Or.inr hm), (C49_zero b m bu mu adjust).1 hm]
      rw [if_neg (by tauto), C49 hb hm, ← div_pow b m]

/-- The rows of a method with results `xs`, the base method having results `base`. -/
def Spec.gainTable (m : Nat) (base xs : List (List ℝ)) (tv : List ℝ) (incRmse : Bool) (adjust : ℝ) : Table :=
  [((.stdGain, .value), (List.range m).map (fun j => gain (stdev (col base j)) (stdev (col xs j)) adjust)),
   ((.stdGain, .uncertainty), (List.range m).map (fun j =>
      gainUnc (stdev (col base j)) (some (stdev (col base j) / Real.sqrt (2 * (base.length - 1))))
        (stdev (col xs j)) (some (stdev (col xs j) / Real.sqrt (2 * (xs.length - 1)))) adjust))] ++
  if incRmse then
    let rm := fun (ys : List (List ℝ)) j => Real.sqrt (average (sqDev (col ys j) (tv.getD j 0)))
    [((.rmseGain, .value), (List.range m).map (fun j => gain (rm base j) (rm xs j) adjust)),
     ((.rmseGain, .uncertainty), (List.range m).map (fun j =>
        gainUnc (rm base j) (rmseUnc (col base j) (tv.getD j 0)) (rm xs j) (rmseUnc (col xs j) (tv.getD j 0)) adjust))]
  else []

theorem zip_range_map {α β : Type} (m : Nat) (f : Nat → α) (g : Nat → β) :
    ((List.range m).map f).zip ((List.range m).map g) = (List.range m).map (fun j => (f j, g j)) := by
  rw [List.zip_map, List.zip_eq_zipWith, List.zipWith_self]
  simp [List.map_map, Function.comp_def]

theorem zipWith_range_map {α β γ : Type} (h : α → β → γ) (m : Nat) (f : Nat → α) (g : Nat → β) :
    List.zipWith h ((List.range m).map f) ((List.range m).map g) = (List.range m).map (fun j => h (f j) (g j)) := by
  rw [List.zipWith_map, List.zipWith_self]

theorem gainRows_of {base meth : Table} {stat g : Calc} {m : Nat} {b w : Nat → ℝ} {bu wu : Nat → Cell}
    (h1 : base.row stat .value = .ok (perColumn m b)) (h2 : base.row stat .uncertainty = .ok ((List.range m).map bu))
    (h3 : meth.row stat .value = .ok (perColumn m w)) (h4 : meth.row stat .uncertainty = .ok ((List.range m).map wu))
    (adjust : ℝ) :
    gainRows base meth stat g adjust = .ok
      [((g, .value), (List.range m).map (fun j => gain (b j) (w j) adjust)),
       ((g, .uncertainty), (List.range m).map (fun j => gainUnc (b j) (bu j) (w j) (wu j) adjust))] := by
  unfold gainRows
  rw [h1, h2, h3, h4]
  simp only [py_ok_bind, perColumn, zip_range_map, zipWith_range_map, List.map_map, Function.comp_def, effGain_fst,
    effGain_snd]
  rfl

theorem gainsOf_spec (m : Nat) (base xs : List (List ℝ)) (tv : List ℝ) (incRmse : Bool) (adjust : ℝ) :
    gainsOf (summaryTable m base tv false incRmse) (summaryTable m xs tv false incRmse) incRmse adjust =
      .ok (gainTable m base xs tv incRmse adjust) := by
  have hs : ∀ ys : List (List ℝ), (summaryTable m ys tv false incRmse).row .std .value =
      .ok (perColumn m (fun j => stdev (col ys j))) := by
    intro ys; cases incRmse <;> rfl
  have hsu : ∀ ys : List (List ℝ), (summaryTable m ys tv false incRmse).row .std .uncertainty =
      .ok ((List.range m).map (fun j => some (stdev (col ys j) / Real.sqrt (2 * (ys.length - 1))))) := by
    intro ys; cases incRmse <;> rfl
  unfold gainsOf
  rw [gainRows_of (hs base) (hsu base) (hs xs) (hsu xs)]
  cases incRmse with
  | false => rfl
  | true =>
    have hr : ∀ ys : List (List ℝ), (summaryTable m ys tv false true).row .rmse .value =
        .ok (perColumn m (fun j => Real.sqrt (average (sqDev (col ys j) (tv.getD j 0))))) := fun ys => rfl
    have hru : ∀ ys : List (List ℝ), (summaryTable m ys tv false true).row .rmse .uncertainty =
        .ok ((List.range m).map (fun j => rmseUnc (col ys j) (tv.getD j 0))) := fun ys => rfl
    rw [gainRows_of (hr base) (hru base) (hr xs) (hru xs)]
    rfl

/-- The adjustment for the numbers of samples. -/
def Spec.perSample (nsamp : Option (List ℝ)) (i : Nat) : ℝ :=
  match nsamp with
  | none => 1
  | some l => l.getD 0 0 / l.getD i 0

theorem adjustment_ok {nsamp : Option (List ℝ)} {n : Nat} (hl : ∀ l, nsamp = some l → l.length = n ∧ ∀ x ∈ l, x ≠ 0)
    {i : Nat} (hi : i < n) : adjustment nsamp i = .ok (perSample nsamp i) := by
  cases nsamp with
  | none => rfl
  | some l =>
    obtain ⟨h1, h2⟩ := hl l rfl
    have h0 : 0 < l.length := by omega
    have hi' : i < l.length := by omega
    unfold adjustment perSample
    simp only [List.getElem?_eq_getElem h0, List.getElem?_eq_getElem hi', List.getD_eq_getElem?_getD, Option.getD_some]
    unfold npDiv
    rw [if_neg (h2 _ (List.getElem_mem hi'))]

theorem laterTables_ok {m : Nat} {tv : Option (List ℝ)} (ht : ∀ t, tv = some t → t.length = m) {incRmse : Bool}
    (hs : incRmse = true → tv.isSome) {nsamp : Option (List ℝ)} {n : Nat}
    (hl : ∀ l, nsamp = some l → l.length = n ∧ ∀ x ∈ l, x ≠ 0) (base : List (List ℝ))
    (vals : List (List (List ℝ))) (hv : ∀ xs ∈ vals, (∀ r ∈ xs, r.length = m) ∧ 2 ≤ xs.length) (i : Nat)
    (hi : i + vals.length ≤ n) :
    laterTables m tv incRmse nsamp (summaryTable m base (tv.getD []) false incRmse) i
        (vals.map (List.map (List.map some))) =
      .ok (vals.mapIdx (fun k xs => summaryTable m xs (tv.getD []) false incRmse ++
        gainTable m base xs (tv.getD []) incRmse (perSample nsamp (i + k)))) := by
  induction vals generalizing i with
  | nil => rfl
  | cons xs vals ih =>
    obtain ⟨h1, h2⟩ := hv xs (by simp)
    rw [List.length_cons] at hi
    have ih' := ih (fun ys hy => hv ys (by simp [hy])) (i + 1) (by omega)
    rw [List.map_cons, laterTables, C48_list h1 (by rintro rfl; simp at h2), List.mapIdx_cons]
    unfold summaryDfFromArray
    rw [if_pos rfl, if_pos (show m = (realArr m xs).ncol from rfl), C48 h1 h2 ht (by simpa using hs), py_ok_bind, adjustment_ok hl (by omega), py_ok_bind,
      gainsOf_spec, py_ok_bind, ih', py_ok_bind]
    simp only [Nat.add_zero, Nat.add_assoc, Nat.add_comm 1]
    rfl

/-- C66: for methods with distinct names and at least two results each, `efficiency_gain_df`
gives for every method the summary of its own results and, for all but the first, the ratio of the
variance (and of the mean squared error) of the first method to its own, with propagated
uncertainties, adjusted for the numbers of samples. -/
theorem C66 {m : Nat} {names : List String} (hd : ("" :: names).Nodup) {base : List (List ℝ)}
    {vals : List (List (List ℝ))} (hlen : names.length = vals.length + 1)
    (hb : (∀ r ∈ base, r.length = m) ∧ 2 ≤ base.length)
    (hv : ∀ xs ∈ vals, (∀ r ∈ xs, r.length = m) ∧ 2 ≤ xs.length)
    {tv : Option (List ℝ)} (ht : ∀ t, tv = some t → t.length = m) {incTrue incRmse : Bool}
    (hs : (incTrue = true ∨ incRmse = true) → tv.isSome) {nsamp : Option (List ℝ)}
    (hl : ∀ l, nsamp = some l → l.length = names.length ∧ ∀ x ∈ l, x ≠ 0) :
    efficiencyGainDf names ((base :: vals).map (List.map (List.map some))) m tv incTrue incRmse nsamp =
      .ok (names.zip (summaryTable m base (tv.getD []) false incRmse ::
          vals.mapIdx (fun k xs => summaryTable m xs (tv.getD []) false incRmse ++
            gainTable m base xs (tv.getD []) incRmse (perSample nsamp (k + 1)))),
        if incTrue then [((.trueValues, .value), (tv.getD []).map some)] else []) := by
  have hany : ¬ (nsamp.any (fun l => decide (l.length ≠ names.length)) = true) := by
    cases nsamp with
    | none => simp
    | some l => simp [(hl l rfl).1]
  obtain ⟨hb1, hb2⟩ := hb
  have hbase : summaryDfFromList (base.map (List.map some)) m tv false incRmse =
      .ok (summaryTable m base (tv.getD []) false incRmse) := by
    rw [C48_list hb1 (by rintro rfl; simp at hb2)]
    unfold summaryDfFromArray
    rw [if_pos rfl, if_pos (show m = (realArr m base).ncol from rfl), C48 hb1 hb2 ht (by intro h; exact hs (by tauto))]
  unfold efficiencyGainDf
  rw [if_neg hany, if_neg (by simp [hlen]), List.map_cons]
  simp only
  rw [hbase, py_ok_bind, laterTables_ok ht (fun h => hs (Or.inr h)) hl base vals hv 1 (by omega), py_ok_bind, if_pos hd]
  cases incTrue with
  | false => simp only [Nat.add_comm 1]; rfl
  | true =>
    obtain ⟨t, rfl⟩ := Option.isSome_iff_exists.mp (hs (Or.inl rfl))
    simp only [if_true, if_pos (ht t rfl), Nat.add_comm 1]
    rfl

/-- Two methods, the second of which has a quarter of the variance and half of the samples. -/
example : efficiencyGainDf ["standard", "dynamic"] [[[some 1], [some 5]], [[some 2], [some 4]]] 1 none false false
      (some [200, 100]) =
    .ok ([("standard", summaryTable 1 [[1], [5]] [] false false),
      ("dynamic", summaryTable 1 [[2], [4]] [] false false ++
        gainTable 1 [[1], [5]] [[2], [4]] [] false (200 / 100))], []) := by
  have := C66 (m := 1) (names := ["standard", "dynamic"]) (by decide) (base := [[1], [5]]) (vals := [[[2], [4]]]) rfl
    (by simp) (by simp) (tv := none) (by simp) (incTrue := false) (incRmse := false) (by simp)
    (nsamp := some [200, 100]) (by simp)
  simpa [perSample] using this

example : gain (stdev [1, 5]) (stdev [2, 4]) (200 / 100) = some 8 := by
  have h1 : stdev [1, 5] = Real.sqrt 8 := by unfold stdev average; norm_num
  have h2 : stdev [2, 4] = Real.sqrt 2 := by unfold stdev average; norm_num
  have h3 : Real.sqrt 2 ≠ 0 := by simp
  rw [h1, h2, gain, if_neg h3, div_pow, Real.sq_sqrt (by norm_num), Real.sq_sqrt (by norm_num)]
  norm_num

/-- C48: inputs which `summary_df_from_list` and `summary_df_from_array` reject: no results, results of another length than the
names, another axis than 0 and 1. -/
theorem C48_inputs (nnames : Nat) (tv : Option (List ℝ)) (incTrue incRmse : Bool) :
    summaryDfFromList [] nnames tv incTrue incRmse = .error .value ∧
    (∀ results, (∃ r ∈ results, r.length ≠ nnames) → summaryDfFromList results nnames tv incTrue incRmse = .error .assertion) ∧
    (∀ a axis, axis ≠ 0 → axis ≠ 1 → summaryDfFromArray a nnames axis tv incTrue incRmse = .error .assertion) ∧
    (∀ a, nnames ≠ a.ncol → summaryDfFromArray a nnames 0 tv incTrue incRmse = .error .value) ∧
    (∀ a, nnames ≠ a.rows.length → summaryDfFromArray a nnames 1 tv incTrue incRmse = .error .value) := by
  refine ⟨by simp [summaryDfFromList], ?_, ?_, ?_, ?_⟩
  · rintro results ⟨r, hr, hl⟩
    unfold summaryDfFromList
    rw [if_neg]
    rw [List.all_eq_true]
    intro h
    exact hl (by simpa using h r hr)
  · intro a axis h0 h1
    unfold summaryDfFromArray
    rw [if_neg h0, if_neg h1]
  · intro a h
    unfold summaryDfFromArray
    rw [if_pos rfl, if_neg h]
  · intro a h
    unfold summaryDfFromArray
    rw [if_neg (by decide), if_pos rfl, if_neg]
    simpa [Arr2.transpose] using h

/-! ### The labels of the rows -/

/-- The index of a table, in words. -/
def Spec.index (t : Table) : List (String × String) := t.map (fun r => (r.1.1.name, r.1.2.name))

/-- The index of `summary_df`. -/
def Spec.summaryIndex (incTrue incRmse : Bool) : List (String × String) :=
  (if incTrue then [("true values", "value")] else []) ++
    [("mean", "value"), ("mean", "uncertainty"), ("std", "value"), ("std", "uncertainty")] ++
    (if incRmse then [("rmse", "value"), ("rmse", "uncertainty")] else [])

/-- The rows which `efficiency_gain_df` adds for all methods but the first. -/
def Spec.gainIndex (incRmse : Bool) : List (String × String) :=
  [("std efficiency gain", "value"), ("std efficiency gain", "uncertainty")] ++
    (if incRmse then [("rmse efficiency gain", "value"), ("rmse efficiency gain", "uncertainty")] else [])

/-- C48: the rows of `summary_df` and their order, for any array for which it returns. -/
theorem C48_labels {a : Arr2} {tv : Option (List ℝ)} {incTrue incRmse : Bool} {t : Table}
    (h : summaryDf a tv incTrue incRmse = .ok t) : index t = summaryIndex incTrue incRmse := by
  unfold summaryDf at h
  cases hc : checkTrue a tv with
  | error e => rw [hc] at h; cases h
  | ok u =>
    rw [hc, py_ok_bind] at h
    dsimp only at h
    cases htr : trueRow tv incTrue with
    | error e => rw [htr] at h; cases h
    | ok tr =>
      rw [htr, py_ok_bind] at h
      by_cases h1 : a.rows.length = 1
      · rw [if_pos h1] at h
        cases h
      rw [if_neg h1] at h
      cases hrm : rmseRows a tv incRmse with
      | error e => rw [hrm] at h; cases h
      | ok rm =>
        rw [hrm, py_ok_bind] at h
        have htr' : tr = [] ∧ incTrue = false ∨ ∃ c, tr = [((.trueValues, .value), c)] ∧ incTrue = true := by
          unfold trueRow at htr
          cases incTrue with
          | false => cases htr; exact .inl ⟨rfl, rfl⟩
          | true =>
            cases tv with
            | none => cases htr
            | some l => cases htr; exact .inr ⟨_, rfl, rfl⟩
        have hrm' : rm = [] ∧ incRmse = false ∨
            ∃ c d, rm = [((.rmse, .value), c), ((.rmse, .uncertainty), d)] ∧ incRmse = true := by
          unfold rmseRows at hrm
          cases incRmse with
          | false => cases hrm; exact .inl ⟨rfl, rfl⟩
          | true =>
            cases tv with
            | none => cases hrm
            | some l =>
              simp only [if_true] at hrm
              cases hq : rmseAndUnc a l with
              | error e => rw [hq] at hrm; cases hrm
              | ok q => rw [hq] at hrm; cases hrm; exact .inr ⟨_, _, rfl, rfl⟩
        cases h
        rcases htr' with ⟨rfl, rfl⟩ | ⟨c, rfl, rfl⟩ <;> rcases hrm' with ⟨rfl, rfl⟩ | ⟨d, e, rfl, rfl⟩ <;>
          simp [sortTable, index, summaryIndex, Calc.order, Res.order, Calc.name, Res.name]

theorem summaryDfFromList_index {vals : List (List Cell)} {nnames : Nat} {tv : Option (List ℝ)} {incTrue incRmse : Bool}
    {t : Table} (h : summaryDfFromList vals nnames tv incTrue incRmse = .ok t) : index t = summaryIndex incTrue incRmse := by
  unfold summaryDfFromList at h
  split_ifs at h
  exact C48_labels h

theorem gainRows_index {base meth t : Table} {stat gain : Calc} {adjust : ℝ}
    (h : gainRows base meth stat gain adjust = .ok t) : index t = [(gain.name, "value"), (gain.name, "uncertainty")] := by
  unfold gainRows at h
  cases h1 : base.row stat .value with
  | error e => rw [h1] at h; cases h
  | ok b =>
    cases h2 : base.row stat .uncertainty with
    | error e => rw [h1, h2] at h; cases h
    | ok bu =>
      cases h3 : meth.row stat .value with
      | error e => rw [h1, h2, h3] at h; cases h
      | ok m =>
        cases h4 : meth.row stat .uncertainty with
        | error e => rw [h1, h2, h3, h4] at h; cases h
        | ok mu =>
          rw [h1, h2, h3, h4] at h
          cases h
          rfl

theorem gainsOf_index {base meth t : Table} {incRmse : Bool} {adjust : ℝ} (h : gainsOf base meth incRmse adjust = .ok t) :
    index t = gainIndex incRmse := by
  unfold gainsOf at h
  cases h1 : gainRows base meth .std .stdGain adjust with
  | error e => rw [h1] at h; cases h
  | ok s =>
    rw [h1, py_ok_bind] at h
    have e1 := gainRows_index h1
    cases incRmse with
    | false => cases h; exact e1
    | true =>
      simp only [if_true] at h
      cases h2 : gainRows base meth .rmse .rmseGain adjust with
      | error e => rw [h2] at h; cases h
      | ok r =>
        rw [h2, py_ok_bind] at h
        cases h
        have e2 := gainRows_index h2
        unfold index at e1 e2 ⊢
        rw [List.map_append, e1, e2]
        rfl

theorem laterTables_index {nnames : Nat} {tv : Option (List ℝ)} {incRmse : Bool} {nsamp : Option (List ℝ)} {base : Table} :
    ∀ {vals : List (List (List Cell))} {i : Nat} {ts : List Table}, laterTables nnames tv incRmse nsamp base i vals = .ok ts →
      ∀ t ∈ ts, index t = summaryIndex false incRmse ++ gainIndex incRmse := by
  intro vals
  induction vals with
  | nil => intro i ts h; cases h; simp
  | cons v vals ih =>
    intro i ts h
    unfold laterTables at h
    cases h1 : summaryDfFromList v nnames tv false incRmse with
    | error e => rw [h1] at h; cases h
    | ok t =>
      cases h2 : adjustment nsamp i with
      | error e => rw [h1, h2] at h; cases h
      | ok ad =>
        cases h3 : gainsOf base t incRmse ad with
        | error e => rw [h1, h2, py_ok_bind, py_ok_bind, h3] at h; cases h
        | ok g =>
          cases h4 : laterTables nnames tv incRmse nsamp base (i + 1) vals with
          | error e => rw [h1, h2, py_ok_bind, py_ok_bind, h3, h4] at h; cases h
          | ok us =>
            rw [h1, h2, py_ok_bind, py_ok_bind, h3, h4] at h
            cases h
            intro u hu
            rcases List.mem_cons.mp hu with rfl | hu
            · have e1 := summaryDfFromList_index h1
              have e2 := gainsOf_index h3
              unfold index at e1 e2 ⊢
              rw [List.map_append, e1, e2]
            · exact ih h4 u hu

/-- C66: the rows of `efficiency_gain_df`, whenever it returns: a table for each method, in their order, with gains for all but
the first. -/
theorem C66_labels {names : List String} {values : List (List (List Cell))} {nnames : Nat} {tv : Option (List ℝ)}
    {incTrue incRmse : Bool} {nsamp : Option (List ℝ)} {ts : List (String × Table)} {tr : Table}
    (h : efficiencyGainDf names values nnames tv incTrue incRmse nsamp = .ok (ts, tr)) :
    (∃ base rest, ts.map Prod.snd = base :: rest ∧ index base = summaryIndex false incRmse ∧
      ∀ t ∈ rest, index t = summaryIndex false incRmse ++ gainIndex incRmse) ∧
    (∀ k : Nat, k < ts.length → (ts.map Prod.fst)[k]? = names[k]?) ∧
    index tr = if incTrue then [("true values", "value")] else [] := by
  unfold efficiencyGainDf at h
  by_cases h0 : nsamp.any (fun l => decide (l.length ≠ names.length)) = true
  · rw [if_pos h0] at h
    cases h
  rw [if_neg h0] at h
  by_cases hlen : names.length ≠ values.length
  · rw [if_pos hlen] at h
    cases h
  rw [if_neg hlen] at h
  cases values with
  | nil => cases h
  | cons v vals =>
    simp only at h
    cases h1 : summaryDfFromList v nnames tv false incRmse with
    | error e => rw [h1] at h; cases h
    | ok base =>
      rw [h1, py_ok_bind] at h
      cases h2 : laterTables nnames tv incRmse nsamp base 1 vals with
      | error e => rw [h2] at h; cases h
      | ok us =>
        rw [h2, py_ok_bind] at h
        have key : ∀ tr', (pure (names.zip (base :: us), tr') : Py _) = .ok (ts, tr) →
            (∃ base rest, ts.map Prod.snd = base :: rest ∧ index base = summaryIndex false incRmse ∧
              ∀ t ∈ rest, index t = summaryIndex false incRmse ++ gainIndex incRmse) ∧
            (∀ k : Nat, k < ts.length → (ts.map Prod.fst)[k]? = names[k]?) ∧ tr = tr' := by
          intro tr' h
          cases h
          have hn : names ≠ [] := by
            rintro rfl
            simp at hlen
          refine ⟨?_, ?_, rfl⟩
          · cases names with
            | nil => exact absurd rfl hn
            | cons n ns =>
              refine ⟨base, (ns.zip us).map Prod.snd, rfl, summaryDfFromList_index h1, ?_⟩
              intro t ht
              obtain ⟨p, hp, rfl⟩ := List.mem_map.mp ht
              exact laterTables_index h2 _ (List.of_mem_zip hp).2
          · intro k hk
            rw [List.length_zip] at hk
            rw [List.getElem?_map, List.getElem?_eq_getElem (by rw [List.length_zip]; exact hk), Option.map_some,
              List.getElem_zip, List.getElem?_eq_getElem (by omega)]
        by_cases hd : ("" :: names).Nodup
        swap
        · rw [if_neg hd] at h
          cases h
        rw [if_pos hd] at h
        cases incTrue with
        | false =>
          obtain ⟨k1, k2, rfl⟩ := key _ h
          exact ⟨k1, k2, rfl⟩
        | true =>
          simp only [if_true] at h
          cases tv with
          | none =>
            obtain ⟨k1, k2, rfl⟩ := key _ h
            exact ⟨k1, k2, rfl⟩
          | some l =>
            by_cases hl : l.length = nnames
            swap
            · simp only [if_neg hl] at h
              cases h
            simp only [if_pos hl] at h
            obtain ⟨k1, k2, rfl⟩ := key _ h
            exact ⟨k1, k2, rfl⟩

example : index (summaryTable 1 [[1], [5]] [3] true true) =
    [("true values", "value"), ("mean", "value"), ("mean", "uncertainty"), ("std", "value"), ("std", "uncertainty"),
     ("rmse", "value"), ("rmse", "uncertainty")] :=
  C48_labels (C48 (m := 1) (xs := [[1], [5]]) (by simp) (by simp) (tv := some [3]) (by simp) (by simp))

end
end Nestcheck
