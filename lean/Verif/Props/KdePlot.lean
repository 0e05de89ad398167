import Verif.Model.KdePlot
import Verif.Props.Kde

/-! C76: `kde_plot_df`. -/

namespace Nestcheck
open Spec MeasureTheory ProbabilityTheory

noncomputable section

/-- The kernel density estimate of equally weighted samples: the mean of the normal densities around the
samples, with Scott's bandwidth. -/
def Spec.kdeOf (samples : List ℝ) (x : ℝ) : ℝ :=
  Spec.average (samples.map (fun s => gaussianPDFReal s
    (Real.toNNReal ((stdev samples * (samples.length : ℝ) ^ (-1 / 5 : ℝ)) ^ 2)) x))

/-- 200 equally spaced points.  The samples of all cells fill ten twelfths of the range, in the middle. -/
def Spec.Support (cells : List (List ℝ)) (xs : List ℝ) : Prop :=
  ∃ lo hi, IsLeast {s | ∃ c ∈ cells, s ∈ c} lo ∧ IsGreatest {s | ∃ c ∈ cells, s ∈ c} hi ∧
    xs.length = 200 ∧ ∀ i, (h : i < xs.length) → xs[i] = lo - (hi - lo) / 10 + i / 199 * (1.2 * (hi - lo))

/-- The heights of a line: the density, or the density divided by its largest value at the points. -/
def Spec.Heights (normalize : Bool) (samples xs ys : List ℝ) : Prop :=
  (normalize = true → ys = xs.map (kdeOf samples)) ∧
  (normalize = false → ∃ m, IsGreatest {y | ∃ x ∈ xs, kdeOf samples x = y} m ∧
    ys = xs.map (fun x => kdeOf samples x / m))

/-- What has to be drawn for the column number `k` of the table. -/
structure Spec.PanelOf (ncols : Nat) (normalize : Bool) (xlims : Option (List (String × ℝ × ℝ))) (k : Nat)
    (col : String × List (String × List ℝ)) (p : KdePanel) : Prop where
  pos : p.pos = (k / ncols, k % ncols)
  title : p.title = col.1
  xlim : p.xlim = xlims.bind (·.lookup col.1)
  lines : List.Forall₂ (fun row line => line.label = row.1 ∧ Support (col.2.map Prod.snd) line.xs ∧
    Heights normalize row.2 line.xs line.ys) col.2 p.lines

/-- Every cell has two different samples. -/
def Spec.Spreads (rows : List (String × List ℝ)) : Prop :=
  ∀ row ∈ rows, ∃ a ∈ row.2, ∃ b ∈ row.2, a ≠ b

theorem two_le_of_ne {xs : List ℝ} (h : ∃ a ∈ xs, ∃ b ∈ xs, a ≠ b) : 2 ≤ xs.length := by
  obtain ⟨a, ha, b, hb, hab⟩ := h
  rcases xs with _ | ⟨x, _ | ⟨y, l⟩⟩
  · simp at ha
  · simp only [List.mem_singleton] at ha hb
    exact absurd (ha.trans hb.symm) hab
  · simp

theorem stdev_pos {xs : List ℝ} (h : ∃ a ∈ xs, ∃ b ∈ xs, a ≠ b) : 0 < stdev xs := by
  have h2 := two_le_of_ne h
  have hn : (2 : ℝ) ≤ xs.length := by exact_mod_cast h2
  obtain ⟨a, ha, b, hb, hab⟩ := h
  unfold stdev
  apply Real.sqrt_pos.mpr
  apply div_pos _ (by linarith)
  by_cases hm : a = Spec.average xs
  · refine sum_pos_of_mem (f := fun x => (x - Spec.average xs) ^ 2) (fun x _ => sq_nonneg _) hb ?_
    have : b - Spec.average xs ≠ 0 := by rw [← hm]; exact sub_ne_zero.mpr (Ne.symm hab)
    positivity
  · refine sum_pos_of_mem (f := fun x => (x - Spec.average xs) ^ 2) (fun x _ => sq_nonneg _) ha ?_
    have : a - Spec.average xs ≠ 0 := sub_ne_zero.mpr hm
    positivity

theorem scipyKde_ok {xs : List ℝ} (h : ∃ a ∈ xs, ∃ b ∈ xs, a ≠ b) : scipyKde xs = .ok (kdeOf xs) := by
  have h2 := two_le_of_ne h
  have hn : (2 : ℝ) ≤ xs.length := by exact_mod_cast h2
  have hs := stdev_pos h
  have hp : (0 : ℝ) < (xs.length : ℝ) ^ (-1 / 5 : ℝ) := Real.rpow_pos_of_pos (by linarith) _
  have hcov : (xs.map (fun s => (s - xs.sum / xs.length) ^ 2)).sum / ((xs.length : ℝ) - 1) *
      ((xs.length : ℝ) ^ (-1 / 5 : ℝ)) ^ 2 = (stdev xs * (xs.length : ℝ) ^ (-1 / 5 : ℝ)) ^ 2 := by
    rw [mul_pow]
    congr 1
    unfold stdev Spec.average
    rw [Real.sq_sqrt]
    refine div_nonneg (List.sum_nonneg ?_) (by linarith)
    intro y hy
    obtain ⟨x, -, rfl⟩ := List.mem_map.mp hy
    exact sq_nonneg _
  set bw := stdev xs * (xs.length : ℝ) ^ (-1 / 5 : ℝ) with hbw
  have hb : 0 < bw := mul_pos hs hp
  unfold scipyKde
  rw [if_neg (by omega)]
  simp only
  rw [hcov, if_neg (by positivity)]
  congr 1
  funext x
  unfold kdeOf Spec.average
  rw [← hbw, List.length_map, div_mul_eq_div_div]
  congr 1
  rw [← sum_map_div']
  congr 1
  apply List.map_congr_left
  intro s _
  rw [gaussianPDFReal, Real.coe_toNNReal _ (sq_nonneg bw)]
  rw [div_eq_inv_mul]
  congr 2
  field_simp

theorem kdeOf_pos {xs : List ℝ} (h : ∃ a ∈ xs, ∃ b ∈ xs, a ≠ b) (x : ℝ) : 0 < kdeOf xs x := by
  have h2 := two_le_of_ne h
  have hn : (2 : ℝ) ≤ xs.length := by exact_mod_cast h2
  have hs := stdev_pos h
  have hp : (0 : ℝ) < (xs.length : ℝ) ^ (-1 / 5 : ℝ) := Real.rpow_pos_of_pos (by linarith) _
  obtain ⟨a, ha, -⟩ := h
  unfold kdeOf Spec.average
  rw [List.length_map]
  apply div_pos _ (by linarith)
  refine sum_pos_of_mem (fun s _ => gaussianPDFReal_nonneg _ _ _) ha (gaussianPDFReal_pos _ _ _ ?_)
  have : 0 < (stdev xs * (xs.length : ℝ) ^ (-1 / 5 : ℝ)) ^ 2 := by positivity
  simpa using (Real.toNNReal_pos.mpr this).ne'

theorem amin_isLeast {xs : List ℝ} {m : ℝ} (h : amin xs = some m) : IsLeast {x | x ∈ xs} m := by
  cases xs with
  | nil => simp [amin] at h
  | cons x xs =>
    simp only [amin, Option.some.injEq] at h
    subst h
    refine ⟨foldl_min_mem x xs, fun y hy => ?_⟩
    have := foldl_min_le x xs
    rcases List.mem_cons.mp hy with rfl | hy
    · exact this.1
    · exact this.2 y hy

theorem amax_isGreatest {xs : List ℝ} {m : ℝ} (h : amax xs = some m) : IsGreatest {x | x ∈ xs} m := by
  cases xs with
  | nil => simp [amax] at h
  | cons x xs =>
    simp only [amax, Option.some.injEq] at h
    subst h
    refine ⟨foldl_max_mem x xs, fun y hy => ?_⟩
    have := le_foldl_max x xs
    rcases List.mem_cons.mp hy with rfl | hy
    · exact this.1
    · exact this.2 y hy

theorem kdeSupport_ok {cells : List (List ℝ)} (h : ∀ c ∈ cells, c ≠ []) :
    ∃ xs, kdeSupport cells = .ok xs ∧ (cells ≠ [] → Support cells xs) := by
  have hmin : ∀ c ∈ cells, ∃ m, cellMin c = .ok m ∧ IsLeast {x | x ∈ c} m := by
    intro c hc
    unfold cellMin
    cases ha : amin c with
    | none => cases c with
      | nil => exact absurd rfl (h _ hc)
      | cons x xs => simp [amin] at ha
    | some m => exact ⟨m, rfl, amin_isLeast ha⟩
  have hmax : ∀ c ∈ cells, ∃ m, cellMax c = .ok m ∧ IsGreatest {x | x ∈ c} m := by
    intro c hc
    unfold cellMax
    cases ha : amax c with
    | none => cases c with
      | nil => exact absurd rfl (h _ hc)
      | cons x xs => simp [amax] at ha
    | some m => exact ⟨m, rfl, amax_isGreatest ha⟩
  choose! f hf1 hf2 using hmin
  choose! g hg1 hg2 using hmax
  unfold kdeSupport
  rw [pyMap_ok hf1, Py.ok_bind, pyMap_ok hg1, Py.ok_bind]
  cases cells with
  | nil => exact ⟨[], rfl, fun h => absurd rfl h⟩
  | cons c0 cells =>
    cases hlo : amin ((c0 :: cells).map f) with
    | none => simp [amin] at hlo
    | some lo =>
    cases hhi : amax ((c0 :: cells).map g) with
    | none => simp [amax] at hhi
    | some hi =>
    refine ⟨_, rfl, fun _ => ⟨lo, hi, ?_, ?_, by simp [linspace], ?_⟩⟩
    · have hl := amin_isLeast hlo
      constructor
      · obtain ⟨c, hc, hcl⟩ := List.mem_map.mp hl.1
        exact ⟨c, hc, hcl ▸ (hf2 c hc).1⟩
      · rintro s ⟨c, hc, hs⟩
        exact le_trans (hl.2 (List.mem_map_of_mem hc)) ((hf2 c hc).2 hs)
    · have hl := amax_isGreatest hhi
      constructor
      · obtain ⟨c, hc, hcl⟩ := List.mem_map.mp hl.1
        exact ⟨c, hc, hcl ▸ (hg2 c hc).1⟩
      · rintro s ⟨c, hc, hs⟩
        exact le_trans ((hg2 c hc).2 hs) (hl.2 (List.mem_map_of_mem hc))
    · intro i hi
      simp only [linspace, List.getElem_map, List.getElem_range]
      norm_num
      ring

theorem kdeLines_ok (normalize : Bool) {support : List ℝ} (hsup : support ≠ []) {rows : List (String × List ℝ)}
    (h : Spreads rows) : ∃ lines, kdeLines normalize support rows = .ok lines ∧
      List.Forall₂ (fun row line => line.label = row.1 ∧ line.xs = support ∧
        Heights normalize row.2 line.xs line.ys) rows lines := by
  induction rows with
  | nil => exact ⟨[], rfl, .nil⟩
  | cons row rows ih =>
    obtain ⟨name, samps⟩ := row
    obtain ⟨more, hm, hF⟩ := ih (fun r hr => h r (by simp [hr]))
    have h0 := h (name, samps) (by simp)
    rw [kdeLines, scipyKde_ok h0, Py.ok_bind, hm]
    simp only
    cases normalize with
    | true =>
      refine ⟨_, rfl, .cons ⟨rfl, rfl, fun _ => rfl, fun h => by cases h⟩ hF⟩
    | false =>
      cases hmx : amax (support.map (kdeOf samps)) with
      | none =>
        cases support with
        | nil => exact absurd rfl hsup
        | cons x xs => simp [amax] at hmx
      | some m =>
        have hg := amax_isGreatest hmx
        have hpos : m ≠ 0 := by
          obtain ⟨x, -, hx⟩ := List.mem_map.mp hg.1
          rw [← hx]
          exact (kdeOf_pos h0 x).ne'
        have hc : cellMax (support.map (kdeOf samps)) = .ok m := by unfold cellMax; rw [hmx]
        simp only [Bool.false_eq_true, if_false]
        rw [hc, Py.ok_bind, pyMap_ok (g := fun y => y / m) (fun y _ => npDiv_ok hpos), Py.ok_bind, Py.ok_bind]
        refine ⟨_, rfl, .cons ⟨rfl, rfl, fun h => (by cases h), fun _ => ⟨m, ?_, ?_⟩⟩ hF⟩
        · constructor
          · obtain ⟨x, hx, he⟩ := List.mem_map.mp hg.1
            exact ⟨x, hx, he⟩
          · rintro y ⟨x, hx, rfl⟩
            exact hg.2 (List.mem_map_of_mem hx)
        · rw [List.map_map]; rfl

theorem Spec.Support.ne_nil {cells : List (List ℝ)} {xs : List ℝ} (h : Support cells xs) : xs ≠ [] := by
  obtain ⟨-, -, -, -, h, -⟩ := h
  rintro rfl
  simp at h

theorem kdeAxes_ok {nrows ncols nax : Nat} (h2 : 2 ≤ ncols) (h : nax < nrows * ncols) :
    kdeAxes nrows ncols nax = .ok (nax / ncols, nax % ncols) := by
  unfold kdeAxes
  have hd : nax / ncols < nrows := (Nat.div_lt_iff_lt_mul (by omega)).mpr h
  by_cases h1 : nrows = 1
  · subst h1
    rw [one_mul] at h
    rw [if_pos rfl, if_neg (by omega), if_pos h, Nat.div_eq_of_lt h, Nat.mod_eq_of_lt h]
  · rw [if_neg h1, if_neg (by omega), if_pos hd]

theorem kdePanels_ok {nrows ncols : Nat} (normalize : Bool) (xlims : Option (List (String × ℝ × ℝ))) (h2 : 2 ≤ ncols)
    {df : SampleFrame} (h : ∀ col ∈ df, Spreads col.2) {k : Nat} (hk : k + df.length ≤ nrows * ncols) :
    ∃ panels, kdePanels nrows ncols normalize xlims k df = .ok panels ∧ panels.length = df.length ∧
      ∀ i, (hi : i < df.length) → (hi' : i < panels.length) → PanelOf ncols normalize xlims (k + i) df[i] panels[i] := by
  induction df generalizing k with
  | nil => exact ⟨[], rfl, rfl, fun i hi => absurd hi (by simp)⟩
  | cons col df ih =>
    obtain ⟨name, rows⟩ := col
    rw [List.length_cons] at hk
    obtain ⟨more, hm, hlen, hF⟩ := ih (fun c hc => h c (by simp [hc])) (k := k + 1) (by omega)
    have h0 : Spreads rows := h (name, rows) (by simp)
    have hne : ∀ c ∈ rows.map Prod.snd, c ≠ [] := by
      intro c hc he
      obtain ⟨row, hr, rfl⟩ := List.mem_map.mp hc
      obtain ⟨a, ha, -⟩ := h0 row hr
      rw [he] at ha
      simp at ha
    obtain ⟨xs, hx, hs⟩ := kdeSupport_ok hne
    have hlines : ∃ lines, kdeLines normalize xs rows = .ok lines ∧
        List.Forall₂ (fun row line => line.label = row.1 ∧ Support (rows.map Prod.snd) line.xs ∧
          Heights normalize row.2 line.xs line.ys) rows lines := by
      cases rows with
      | nil => exact ⟨[], rfl, .nil⟩
      | cons r rows =>
        have hsup := hs (by simp)
        obtain ⟨lines, hl, hF⟩ := kdeLines_ok normalize hsup.ne_nil h0
        exact ⟨lines, hl, hF.imp (fun row line h => ⟨h.1, h.2.1 ▸ hsup, h.2.2⟩)⟩
    obtain ⟨lines, hl, hF2⟩ := hlines
    rw [kdePanels, kdeAxes_ok h2 (by omega), Py.ok_bind, hx, Py.ok_bind, hl, Py.ok_bind, hm, Py.ok_bind]
    refine ⟨_, rfl, by simp [hlen], ?_⟩
    intro i hi hi'
    cases i with
    | zero => exact ⟨rfl, rfl, rfl, hF2⟩
    | succ i =>
      have := hF i (by simpa using hi) (by simpa using hi')
      rw [show k + 1 + i = k + (i + 1) by omega] at this
      exact this

theorem kde_bind_ok {α β : Type} {x : Py α} {f : α → Py β} {b : β} (h : (x >>= f) = .ok b) :
    ∃ a, x = .ok a ∧ f a = .ok b := by
  cases x with
  | error e => cases h
  | ok a => exact ⟨a, rfl, h⟩

theorem labels_eq {P : String × List ℝ → KdeLine → Prop} {rows : List (String × List ℝ)} {lines : List KdeLine}
    (h : List.Forall₂ (fun row line => line.label = row.1 ∧ P row line) rows lines) :
    rows.map Prod.fst = lines.map (·.label) := by
  induction h with
  | nil => rfl
  | cons a _ ih => rw [List.map_cons, List.map_cons, ih, a.1]

/-- C76.  If there are at least two columns of subplots, and enough subplots, then `kde_plot_df` draws each
column of the table in a subplot of its own, row by row, with one line for each cell. -/
theorem C76 {df : SampleFrame} (h : ∀ col ∈ df, Spreads col.2) (xlims : Option (List (String × ℝ × ℝ)))
    {nrows ncols : Nat} (h2 : 2 ≤ ncols) (hk : df.length ≤ nrows * ncols) (hr : 0 < nrows) (normalize : Bool) :
    ∃ panels, kdePlotDf df xlims nrows (some ncols) normalize false = .ok (panels, none) ∧
      panels.length = df.length ∧
      (∀ i, (hi : i < df.length) → (hi' : i < panels.length) → PanelOf ncols normalize xlims i df[i] panels[i]) ∧
      (panels.map (·.pos)).Nodup ∧ (∀ p ∈ panels, p.pos.1 < nrows ∧ p.pos.2 < ncols) ∧
      ∀ col ∈ df.getLast?, kdePlotDf df xlims nrows (some ncols) normalize true =
        .ok (panels, some (col.2.map Prod.fst)) := by
  obtain ⟨panels, hp, hlen, hF⟩ := kdePanels_ok normalize xlims h2 h (k := 0) (nrows := nrows) (by omega)
  have hall : ∀ legend, kdePlotDf df xlims nrows (some ncols) normalize legend =
      if legend then
        match panels.getLast? with
        | none => .error .name
        | some p => .ok (panels, some (p.lines.map (·.label)))
      else .ok (panels, none) := by
    intro legend
    unfold kdePlotDf
    rw [if_neg (by omega), if_neg (by simp; omega)]
    simp only [Option.getD_some]
    rw [hp]
    rfl
  simp only [Nat.zero_add] at hF
  refine ⟨panels, by rw [hall]; rfl, hlen, hF, ?_, ?_, ?_⟩
  · rw [List.nodup_iff_getElem?_ne_getElem?]
    intro i j hij hj he
    rw [List.length_map] at hj
    rw [List.getElem?_eq_getElem (by simp; omega), List.getElem?_eq_getElem (by simpa using hj),
      Option.some.injEq, List.getElem_map, List.getElem_map, (hF i (by omega) (by omega)).pos,
      (hF j (by omega) hj).pos, Prod.mk.injEq] at he
    have h1 := Nat.div_add_mod i ncols
    have h3 := Nat.div_add_mod j ncols
    rw [he.1, he.2] at h1
    omega
  · intro p hp
    obtain ⟨i, hi, rfl⟩ := List.getElem_of_mem hp
    rw [(hF i (by omega) hi).pos]
    exact ⟨(Nat.div_lt_iff_lt_mul (by omega)).mpr (by omega), Nat.mod_lt _ (by omega)⟩
  · intro col hc
    rw [hall, if_pos rfl]
    have hne : df ≠ [] := by rintro rfl; simp at hc
    have hpos := List.length_pos_of_ne_nil hne
    rw [List.getLast?_eq_getElem?, List.getElem?_eq_getElem (by omega), Option.mem_def, Option.some.injEq] at hc
    rw [List.getLast?_eq_getElem?, List.getElem?_eq_getElem (by omega)]
    have hl := (hF (df.length - 1) (by omega) (by omega)).lines
    simp only [hlen]
    congr 3
    rw [hc] at hl
    exact (labels_eq hl).symm

/-- C76: all samples lie strictly between the ends of the lines, and these have 200 points in ascending order. -/
theorem C76_inside {cells : List (List ℝ)} {xs : List ℝ} (h : Support cells xs)
    (hs : ∃ c ∈ cells, ∃ a ∈ c, ∃ b ∈ c, a ≠ b) :
    xs.length = 200 ∧ xs.Pairwise (· < ·) ∧
    ∀ c ∈ cells, ∀ s ∈ c, (∃ x ∈ xs.head?, x < s) ∧ ∃ x ∈ xs.getLast?, s < x := by
  obtain ⟨lo, hi, hlo, hhi, hlen, hx⟩ := h
  have hlt : lo < hi := by
    obtain ⟨c, hc, a, ha, b, hb, hab⟩ := hs
    have h1 := hlo.2 ⟨c, hc, ha⟩
    have h2 := hlo.2 ⟨c, hc, hb⟩
    have h3 := hhi.2 ⟨c, hc, ha⟩
    have h4 := hhi.2 ⟨c, hc, hb⟩
    rcases lt_or_gt_of_ne hab with h | h <;> linarith
  refine ⟨hlen, ?_, fun c hc s hsc => ?_⟩
  · rw [List.pairwise_iff_getElem]
    intro i j hi' hj hij
    rw [hx i hi', hx j hj]
    have : (i : ℝ) < j := by exact_mod_cast hij
    have h1 : (i : ℝ) / 199 < j / 199 := by linarith
    have h2 := mul_lt_mul_of_pos_right h1 (show 0 < 1.2 * (hi - lo) by linarith)
    linarith
  · have h1 := hlo.2 ⟨c, hc, hsc⟩
    have h2 := hhi.2 ⟨c, hc, hsc⟩
    constructor
    · refine ⟨xs[0], by rw [List.head?_eq_getElem?, List.getElem?_eq_getElem (by omega)]; rfl, ?_⟩
      rw [hx 0 (by omega)]
      push_cast
      linarith
    · refine ⟨xs[199], by
        rw [List.getLast?_eq_getElem?, show xs.length - 1 = 199 by omega, List.getElem?_eq_getElem (by omega)]
        rfl, ?_⟩
      rw [hx 199 (by omega)]
      push_cast
      linarith

/-- C76: the heights.  With `normalize` they are the values of a positive density which integrates to one, and
which is that of `weighted_1d_gaussian_kde` with equal weights; otherwise they lie in (0, 1] and the largest is
exactly 1. -/
theorem C76_heights {samples : List ℝ} (h : ∃ a ∈ samples, ∃ b ∈ samples, a ≠ b) {xs ys : List ℝ} :
    (Heights true samples xs ys → (∀ y ∈ ys, 0 < y) ∧
      (weightedKde xs samples (List.replicate samples.length 1)).map Prod.fst = .ok ys ∧
      ∃ f : ℝ → ℝ, ys = xs.map f ∧ Integrable f ∧ ∫ x, f x = 1) ∧
    (Heights false samples xs ys → (∀ y ∈ ys, 0 < y ∧ y ≤ 1) ∧ 1 ∈ ys) := by
  constructor
  · rintro ⟨hy, -⟩
    have hy := hy rfl
    subst hy
    have hk := fun xs => (C50_equal (c := 1) one_pos h xs).2
    refine ⟨?_, by rw [hk]; rfl, kdeOf samples, rfl, ?_⟩
    · intro y hy
      obtain ⟨x, -, rfl⟩ := List.mem_map.mp hy
      exact kdeOf_pos h x
    · have hsp : Spread ((List.replicate samples.length (1 : ℝ)).zip samples) := by
        rw [zip_replicate]
        obtain ⟨a, ha, b, hb, hab⟩ := h
        exact ⟨by simp, (1, a), by simpa using ha, (1, b), by simpa using hb, by simp, by simp, hab⟩
      obtain ⟨f, w, h1, -, -, h2, h3, -⟩ := C50_density (samples := samples) (by simp) hsp
      have : f = kdeOf samples := by
        funext x
        have e1 := h1 [x]
        rw [hk [x]] at e1
        simp only [List.map_cons, List.map_nil, Except.ok.injEq, Prod.mk.injEq, List.cons.injEq, and_true] at e1
        exact e1.1.symm
      rw [← this]
      exact ⟨h2, h3⟩
  · rintro ⟨-, hy⟩
    obtain ⟨m, hm, rfl⟩ := hy rfl
    obtain ⟨⟨x0, hx0, e0⟩, hub⟩ := hm
    have hm0 : 0 < m := e0 ▸ kdeOf_pos h x0
    constructor
    · intro y hy
      obtain ⟨x, hx, rfl⟩ := List.mem_map.mp hy
      exact ⟨div_pos (kdeOf_pos h x) hm0, (div_le_one hm0).mpr (hub ⟨x, hx, rfl⟩)⟩
    · exact List.mem_map.mpr ⟨x0, hx0, by rw [e0, div_self hm0.ne']⟩

/-- C76: the default number of columns of subplots is the smallest which suffices, and the result is that for
this number.  With more columns in the table than rows of subplots the conditions of C76 hold. -/
theorem C76_default (df : SampleFrame) (xlims : Option (List (String × ℝ × ℝ))) {nrows : Nat} (hr : 0 < nrows)
    (normalize legend : Bool) : ∃ ncols, kdePlotDf df xlims nrows none normalize legend =
        kdePlotDf df xlims nrows (some ncols) normalize legend ∧
      df.length ≤ nrows * ncols ∧ (∀ n, df.length ≤ nrows * n → ncols ≤ n) ∧ (nrows < df.length → 2 ≤ ncols) := by
  have hr' : (0 : ℝ) < nrows := by exact_mod_cast hr
  have key : ∀ n : Nat, ⌈(df.length : ℝ) / (nrows : ℝ)⌉₊ ≤ n ↔ df.length ≤ nrows * n := by
    intro n
    rw [Nat.ceil_le, div_le_iff₀ hr', mul_comm]
    exact_mod_cast Iff.rfl
  refine ⟨⌈(df.length : ℝ) / (nrows : ℝ)⌉₊, rfl, (key _).mp le_rfl, fun n hn => (key n).mpr hn, ?_⟩
  intro hlt
  by_contra hc
  have := (key 1).mp (by omega)
  omega

/-- C76: where it fails.  A table with one column cannot be drawn with the defaults (`TypeError`); more generally
not one with at most as many columns as rows of subplots (`IndexError`); and not if there are too few subplots. -/
theorem C76_fails {df : SampleFrame} (h : ∀ col ∈ df, Spreads col.2) (xlims : Option (List (String × ℝ × ℝ)))
    (nrows : Nat) (normalize legend : Bool) (hne : df ≠ []) :
    (df.length = 1 → kdePlotDf df xlims 1 none normalize legend = .error .type) ∧
    (1 < nrows → df.length ≤ nrows → kdePlotDf df xlims nrows none normalize legend = .error .index) ∧
    (∀ ncols, 2 ≤ ncols → 0 < nrows → nrows * ncols < df.length →
      kdePlotDf df xlims nrows (some ncols) normalize legend = .error .index) := by
  have hlen := List.length_pos_of_ne_nil hne
  have hone : ∀ nrows, 0 < nrows → df.length ≤ nrows → ⌈(df.length : ℝ) / (nrows : ℝ)⌉₊ = 1 := by
    intro nrows h0 hle
    have h0' : (0 : ℝ) < nrows := by exact_mod_cast h0
    have hle' : (df.length : ℝ) ≤ nrows := by exact_mod_cast hle
    have hl' : (0 : ℝ) < df.length := by exact_mod_cast hlen
    apply le_antisymm
    · rw [Nat.ceil_le, div_le_iff₀ h0']
      simpa using hle'
    · exact Nat.one_le_iff_ne_zero.mpr (Nat.ceil_pos.mpr (div_pos hl' h0')).ne'
  obtain ⟨col, df', rfl⟩ := List.exists_cons_of_ne_nil hne
  obtain ⟨name, rows⟩ := col
  refine ⟨fun h1 => ?_, fun hn hle => ?_, fun ncols h2 h0 hlt => ?_⟩
  · unfold kdePlotDf
    rw [if_neg (by omega)]
    simp only [Option.getD_none]
    rw [hone 1 one_pos (by omega), if_neg (by omega), kdePanels]
    rfl
  · unfold kdePlotDf
    rw [if_neg (by omega)]
    simp only [Option.getD_none]
    rw [hone nrows (by omega) hle, if_neg (by omega), kdePanels, kdeAxes, if_neg (by omega), if_pos rfl]
    rfl
  · have hbad : ∀ (df : SampleFrame) (k : Nat), (∀ col ∈ df, Spreads col.2) → k ≤ nrows * ncols →
        nrows * ncols < k + df.length → kdePanels nrows ncols normalize xlims k df = .error .index := by
      intro df
      induction df with
      | nil => intro k _ h1 h2; simp at h2; omega
      | cons col df ih =>
        intro k hs h1 h2'
        obtain ⟨name, rows⟩ := col
        rw [kdePanels]
        rcases Nat.lt_or_ge k (nrows * ncols) with hlt | hge
        · obtain ⟨panels, hp, -⟩ := kdePanels_ok normalize xlims h2 (df := [(name, rows)])
            (by intro c hc; exact hs c (by simp at hc; simp [hc])) (k := k) (nrows := nrows) (by simp; omega)
          rw [kdePanels] at hp
          obtain ⟨pos, e1, hp⟩ := kde_bind_ok hp
          obtain ⟨sup, e2, hp⟩ := kde_bind_ok hp
          obtain ⟨lines, e3, hp⟩ := kde_bind_ok hp
          rw [e1, Py.ok_bind, e2, Py.ok_bind, e3, Py.ok_bind, ih (k + 1) (fun c hc => hs c (by simp [hc])) hlt
            (by simp at h2'; omega)]
          rfl
        · have hk : k = nrows * ncols := le_antisymm h1 hge
          have : kdeAxes nrows ncols k = .error .index := by
            unfold kdeAxes
            by_cases h1 : nrows = 1
            · rw [if_pos h1, if_neg (by omega), if_neg (by rw [hk, h1]; omega)]
            · rw [if_neg h1, if_neg (by omega), if_neg]
              rw [hk, Nat.mul_div_cancel _ (by omega)]
              omega
          rw [this]
          rfl
    unfold kdePlotDf
    rw [if_neg (by omega)]
    simp only [Option.getD_some]
    rw [if_neg (by omega), hbad _ 0 h (by omega) (by simpa using hlt)]
    rfl

/-- C76: a table with three columns and two rows of subplots. -/
def exFrame : SampleFrame :=
  [("a", [("run 1", [0, 1]), ("run 2", [3, 4, 4])]), ("b", [("run 1", [1, 2]), ("run 2", [2, 5])]),
   ("c", [("run 1", [0, 1, 7]), ("run 2", [-1, 1])])]

theorem exFrame_spreads : ∀ col ∈ exFrame, Spreads col.2 := by
  simp only [exFrame, List.mem_cons, List.not_mem_nil, or_false, forall_eq_or_imp, forall_eq, Spreads]
  refine ⟨⟨⟨0, by simp, 1, by simp, by norm_num⟩, 3, by simp, 4, by simp, by norm_num⟩,
    ⟨⟨1, by simp, 2, by simp, by norm_num⟩, 2, by simp, 5, by simp, by norm_num⟩,
    ⟨0, by simp, 1, by simp, by norm_num⟩, -1, by simp, 1, by simp, by norm_num⟩

example : ∃ panels, kdePlotDf exFrame none 2 none false false = .ok (panels, none) ∧
    panels.map (·.pos) = [(0, 0), (0, 1), (1, 0)] := by
  obtain ⟨ncols, h1, h2, h3, h4⟩ := C76_default exFrame none (nrows := 2) (by decide) false false
  have h5 : ncols = 2 := le_antisymm (h3 2 (by decide)) (h4 (by decide))
  subst h5
  obtain ⟨panels, hp, hl, hF, -⟩ := C76 exFrame_spreads none (nrows := 2) (ncols := 2) le_rfl h2 (by decide) false
  refine ⟨panels, h1.trans hp, ?_⟩
  have hl : panels.length = 3 := hl
  match panels, hl, hF with
  | [p, q, r], _, hF =>
    simp only [List.map_cons, List.map_nil]
    rw [show p.pos = _ from (hF 0 (by decide) (by simp)).pos, show q.pos = _ from (hF 1 (by decide) (by simp)).pos,
      show r.pos = _ from (hF 2 (by decide) (by simp)).pos]

example : kdePlotDf (exFrame.take 1) none 1 none true false = .error .type :=
  (C76_fails (fun col hc => exFrame_spreads col (List.mem_of_mem_take hc)) none 1 true false (by simp [exFrame])).1 rfl

end
end Nestcheck
