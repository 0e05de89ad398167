import Verif.Model.NanTheta
import Verif.Props.Nan
import Verif.Proofs.Quantile
import Verif.Props.NliveFigure
import Verif.Props.ReparamValues

/-
C114: nan among the parameters.
-/

namespace Nestcheck
variable {σ : Type}

/-! ### Columns and sums -/

theorem nanSum_some (x : List ℝ) : nanSum (x.map some) = some x.sum := by
  unfold nanSum
  rw [if_pos (by simp), filterMap_some]

theorem nanSum_nan {x : List (Option ℝ)} (h : none ∈ x) : nanSum x = none := by
  unfold nanSum
  rw [if_neg]
  rw [Bool.not_eq_true, List.all_eq_false]
  exact ⟨none, h, by simp⟩

theorem nanColumn_some (th : List (List ℝ)) (ind : Nat) : nanColumn (floats th) ind = (column th ind).map (List.map some) := by
  unfold nanColumn column floats
  induction th with
  | nil => rfl
  | cons t th ih =>
    rw [List.map_cons, pyMap, pyMap, ih]
    rw [List.getElem?_map]
    cases t[ind]? with
    | none => rfl
    | some x =>
      simp only [Option.map_some, Py.ok_bind]
      cases pyMap (fun t : List ℝ => match t[ind]? with | some x => Except.ok x | none => Except.error PyErr.index) th <;> rfl

theorem nanDot_some (w x : List ℝ) : nanDot w (x.map some) = (dot w x).map some := by
  unfold nanDot dot
  rw [List.length_map]
  by_cases h : w.length ≠ x.length
  · rw [if_pos h, if_pos h]; rfl
  · rw [if_neg h, if_neg h]
    have : List.zipWith (fun a (b : Option ℝ) => b.map (a * ·)) w (x.map some) = (List.zipWith (· * ·) w x).map some := by
      rw [List.zipWith_map_right, List.map_zipWith]
      rfl
    rw [this, nanSum_some]
    rfl

theorem nanDot_nan {w : List ℝ} {x : List (Option ℝ)} (hl : w.length = x.length) (h : none ∈ x) : nanDot w x = .ok none := by
  unfold nanDot
  rw [if_neg (by simpa using hl), nanSum_nan]
  obtain ⟨i, hi, e⟩ := List.mem_iff_getElem.mp h
  rw [List.mem_iff_getElem]
  refine ⟨i, by simp; omega, ?_⟩
  rw [List.getElem_zipWith, e]
  rfl

theorem weightedMeanNan_some (w x : List ℝ) : weightedMeanNan w (x.map some) = (weightedMean w x).map some := by
  unfold weightedMeanNan weightedMean
  rw [nanDot_some]
  cases dot w x <;> rfl

theorem weightedMeanNan_nan {w : List ℝ} {x : List (Option ℝ)} (hl : w.length = x.length) (h : none ∈ x) :
    weightedMeanNan w x = .ok none := by
  unfold weightedMeanNan
  rw [nanDot_nan hl h]
  rfl

theorem radiiNan_some (th : List (List ℝ)) : radiiNan (floats th) = (radii th).map some := by
  unfold radiiNan radii floats
  rw [List.map_map, List.map_map]
  apply List.map_congr_left
  intro t _
  simp only [Function.comp_apply, List.map_map]
  have : t.map (Option.map (fun x : ℝ => x ^ 2) ∘ some) = (t.map (· ^ 2)).map some := by
    rw [List.map_map]
    rfl
  rw [this, nanSum_some]
  rfl

/-! ### Quantiles -/

theorem interpFromNan_some (x : ℝ) (p : ℝ × ℝ) (ps : List (ℝ × ℝ)) :
    interpFromNan x (p.1, some p.2) (ps.map (fun q => (q.1, some q.2))) = some (interpFrom x p ps) := by
  induction ps generalizing p with
  | nil => rfl
  | cons q qs ih =>
    rw [List.map_cons, interpFromNan, interpFrom, ih]
    split_ifs <;> rfl

theorem interpNan_some (x : ℝ) (xp fp : List ℝ) : interpNan x xp (fp.map some) = (interp x xp fp).map some := by
  unfold interpNan interp
  rw [List.length_map]
  by_cases h : xp.length ≠ fp.length
  · rw [if_pos h, if_pos h]; rfl
  · rw [if_neg h, if_neg h]
    have : xp.zip (fp.map some) = (xp.zip fp).map (fun q => (q.1, some q.2)) := by
      rw [List.zip_map_right]
      rfl
    rw [this]
    cases xp.zip fp with
    | nil => rfl
    | cons p ps =>
      simp only [List.map_cons, interpFromNan_some]
      split_ifs <;> rfl

theorem weightedQuantileNan_some (A : NanArgsort ℝ) (prob : ℝ) (x w : List ℝ) :
    weightedQuantileNan A prob (x.map some) w = (weightedQuantile A.plain prob x w).map some := by
  unfold weightedQuantileNan weightedQuantile
  rw [List.length_map]
  by_cases h1 : ¬ (prob < 1 ∧ 0 < prob)
  · rw [if_pos h1, if_pos h1]; rfl
  rw [if_neg h1, if_neg h1]
  by_cases h2 : x.length ≠ w.length
  · rw [if_pos h2, if_pos h2]; rfl
  rw [if_neg h2, if_neg h2]
  simp only [gather_map, interpNan_some]
  change (quantilePoints (gather w (A.idx (x.map some))) w.sum >>= _) = Except.map some (quantilePoints (gather w (A.idx (x.map some))) w.sum >>= _)
  cases quantilePoints (gather w (A.idx (x.map some))) w.sum <;> rfl

/-- C114.  Without nan every estimator gives what it gives for numbers. -/
theorem C114_numbers (A : NanArgsort ℝ) (R : Rng σ ℝ) (e : Estimator) (r : Run ℝ) (logw : Option (List ℝ)) (simulate : Bool) :
    e.callNan A R r (floats r.theta) logw simulate = e.call A.plain R r logw simulate := by
  have lift : ∀ {α β γ : Type} (m : M σ α) (f : α → Py β) (g : β → γ),
      (do let a ← m; M.lift ((f a).map g) : M σ γ) = (do let b ← (do let a ← m; M.lift (f a)); pure (g b)) := by
    intro α β γ m f g
    rw [bind_assoc]
    congr 1
    funext a v
    cases f a <;> rfl
  cases e with
  | count => rfl
  | logz => rfl
  | evidence => rfl
  | paramMean ind handle =>
    simp only [Estimator.callNan, Estimator.call, paramMean]
    congr 1
    funext lw
    congr 1
    unfold paramMeanNanOf paramMeanOf
    cases relWeights lw with
    | error e => rfl
    | ok w =>
      simp only [Py.ok_bind]
      have hh : (do let x ← nanColumn (floats r.theta) ind; weightedMeanNan w x : Py (Option ℝ)) =
          (do let x ← column r.theta ind; weightedMean w x : Py ℝ).map some := by
        rw [nanColumn_some]
        cases column r.theta ind with
        | error e => rfl
        | ok x => exact weightedMeanNan_some w x
      rw [hh]
      cases (do let x ← column r.theta ind; weightedMean w x : Py ℝ) with
      | ok m => rfl
      | error e => cases e <;> rfl
  | paramCred prob ind =>
    simp only [Estimator.callNan, Estimator.call, paramCred, nanColumn_some]
    rw [← lift]
    congr 1
    funext lw
    congr 1
    cases relWeights lw with
    | error e => rfl
    | ok w =>
      cases column r.theta ind with
      | error e => rfl
      | ok x => exact weightedQuantileNan_some A prob x w
  | paramSquaredMean ind =>
    simp only [Estimator.callNan, Estimator.call, paramSquaredMean, nanColumn_some]
    rw [← lift]
    congr 1
    funext lw
    congr 1
    cases relWeights lw with
    | error e => rfl
    | ok w =>
      simp only [Py.ok_bind]
      cases pyMap (fun x => npDiv x w.sum) w with
      | error e => rfl
      | ok w2 =>
        cases column r.theta ind with
        | error e => rfl
        | ok x =>
          change nanDot w2 ((x.map some).map (Option.map (· ^ 2))) = (dot w2 (x.map (· ^ 2))).map some
          rw [← nanDot_some, List.map_map, List.map_map]
          rfl
  | rMean =>
    simp only [Estimator.callNan, Estimator.call, rMean, radiiNan_some]
    rw [← lift]
    congr 1
    funext lw
    congr 1
    cases relWeights lw with
    | error e => rfl
    | ok w => exact weightedMeanNan_some w _
  | rCred prob =>
    simp only [Estimator.callNan, Estimator.call, rCred, radiiNan_some]
    rw [← lift]
    congr 1
    funext lw
    congr 1
    cases relWeights lw with
    | error e => rfl
    | ok w => exact weightedQuantileNan_some A prob _ w

/-! ### One parameter -/

/-- C114.  nan in other columns than the one asked for makes no difference. -/
theorem C114_other_columns (A : NanArgsort ℝ) (R : Rng σ ℝ) {e : Estimator} {ind : Nat}
    (he : (∃ h, e = .paramMean ind h) ∨ (∃ p, e = .paramCred p ind) ∨ e = .paramSquaredMean ind) (r : Run ℝ)
    {th : List (List (Option ℝ))} (h : nanColumn th ind = (column r.theta ind).map (List.map some)) (logw : Option (List ℝ))
    (simulate : Bool) : e.callNan A R r th logw simulate = e.call A.plain R r logw simulate := by
  rw [← C114_numbers A R e r]
  rw [← nanColumn_some] at h
  rcases he with ⟨_, rfl⟩ | ⟨_, rfl⟩ | rfl
  · simp only [Estimator.callNan, paramMeanNanOf, h]
  · simp only [Estimator.callNan, h]
  · simp only [Estimator.callNan, h]

/-- C114.  The mean of a parameter is nan if one of its values is, however small its weight, and so is the mean of its square. -/
theorem C114_mean (A : NanArgsort ℝ) (R : Rng σ ℝ) {e : Estimator} {ind : Nat}
    (he : (∃ h, e = .paramMean ind h) ∨ e = .paramSquaredMean ind) {r : Run ℝ} {th : List (List (Option ℝ))} {logw : Option (List ℝ)}
    {simulate : Bool} {w w' : World σ} {lw : List ℝ} (hw : logwOr R r logw simulate w = (.ok lw, w')) {x : List (Option ℝ)}
    (hx : nanColumn th ind = .ok x) (hl : lw.length = x.length) (h : none ∈ x) :
    e.callNan A R r th logw simulate w = (.ok none, w') := by
  have hne : lw ≠ [] := by
    intro h0
    rw [h0] at hl
    rw [List.length_nil] at hl
    rw [List.length_eq_zero_iff.mp hl.symm] at h
    simp at h
  obtain ⟨m, -, -, hr⟩ := relWeights_ok hne
  have hlen := relWeights_length hr
  have hsum := relWeights_sum hr
  generalize lw.map (fun x => Real.exp (x - m)) = ws at hr hlen hsum
  rcases he with ⟨b, rfl⟩ | rfl
  · simp only [Estimator.callNan]
    rw [M.bind_ok hw]
    unfold paramMeanNanOf
    rw [hr, Py.ok_bind, hx, Py.ok_bind, weightedMeanNan_nan (by omega) h]
    rfl
  · simp only [Estimator.callNan]
    rw [M.bind_ok hw, hr, Py.ok_bind]
    have hd : pyMap (fun x => npDiv x ws.sum) ws = .ok (ws.map (· / ws.sum)) := by
      generalize ws.sum = t at hsum
      clear hr hlen
      induction ws with
      | nil => rfl
      | cons a as ih => rw [pyMap, npDiv_ok hsum.ne', Py.ok_bind, ih, Py.ok_bind]; rfl
    rw [hd, Py.ok_bind, hx, Py.ok_bind, nanDot_nan]
    · rfl
    · simp; omega
    · exact List.mem_map.mpr ⟨none, h, rfl⟩

/-- C114.  The mean radius is nan if any parameter of any sample is. -/
theorem C114_r_mean (A : NanArgsort ℝ) (R : Rng σ ℝ) {r : Run ℝ} {th : List (List (Option ℝ))} {logw : Option (List ℝ)}
    {simulate : Bool} {w w' : World σ} {lw : List ℝ} (hw : logwOr R r logw simulate w = (.ok lw, w'))
    (hl : lw.length = th.length) (h : ∃ t ∈ th, none ∈ t) :
    Estimator.rMean.callNan A R r th logw simulate w = (.ok none, w') := by
  obtain ⟨t, ht, h⟩ := h
  have hne : lw ≠ [] := by
    intro h0
    rw [h0, List.length_nil] at hl
    rw [List.length_eq_zero_iff.mp hl.symm] at ht
    simp at ht
  obtain ⟨m, -, -, hr⟩ := relWeights_ok hne
  have hlen := relWeights_length hr
  simp only [Estimator.callNan]
  rw [M.bind_ok hw, hr, Py.ok_bind, weightedMeanNan_nan]
  · rfl
  · unfold radiiNan
    simp [hl]
  · refine List.mem_map.mpr ⟨t, ht, ?_⟩
    rw [nanSum_nan (List.mem_map.mpr ⟨none, h, rfl⟩)]
    rfl

/-! ### Credible bounds -/

/-- The total weight of the values which are numbers. -/
noncomputable def Spec.numberWeight (values : List (Option ℝ)) (weights : List ℝ) : ℝ :=
  (((values.zip weights).filter (fun p => p.1.isSome)).map (·.2)).sum

theorem interpFromNan_none {x : ℝ} {p : ℝ × Option ℝ} {ps : List (ℝ × Option ℝ)} (h : ∀ q ∈ p :: ps, q.2 = none) :
    interpFromNan x p ps = none := by
  induction ps generalizing p with
  | nil => exact h p (by simp)
  | cons q qs ih =>
    rw [interpFromNan, h p (by simp), ih (fun a ha => h a (by simp [ha]))]
    split_ifs <;> rfl

/-- Beyond the last number. -/
theorem interpFromNan_beyond {x : ℝ} {p : ℝ × Option ℝ} {ps ns : List (ℝ × Option ℝ)} (h : ∀ q ∈ p :: ps, q.1 < x)
    (hn : ∀ q ∈ ns, q.2 = none) (h0 : ns ≠ []) : interpFromNan x p (ps ++ ns) = none := by
  induction ps generalizing p with
  | nil =>
    cases ns with
    | nil => exact absurd rfl h0
    | cons q qs =>
      have hp := h p (by simp)
      rw [List.nil_append, interpFromNan, interpFromNan_none hn, if_neg (c := x = p.1) hp.ne', hn q (by simp)]
      split_ifs
      · cases p.2 <;> rfl
      · rfl
  | cons q qs ih =>
    rw [List.cons_append, interpFromNan, if_neg (not_lt.mpr (h q (by simp)).le)]
    exact ih (fun a ha => h a (List.mem_cons_of_mem _ ha))

/-- Up to the last number. -/
theorem interpFromNan_number {x : ℝ} {p : ℝ × Option ℝ} {ps ns : List (ℝ × Option ℝ)} (h : ∀ q ∈ p :: ps, q.2.isSome)
    (hs : (p :: ps ++ ns).Pairwise (fun a b => a.1 < b.1)) (hp : p.1 ≤ x) (ha : ∃ a ∈ p :: ps, x ≤ a.1) :
    (interpFromNan x p (ps ++ ns)).isSome := by
  induction ps generalizing p with
  | nil =>
    obtain ⟨a, ha, hx⟩ := ha
    rw [List.mem_singleton] at ha
    subst ha
    have hxp : x = a.1 := le_antisymm hx hp
    cases ns with
    | nil => exact h a (by simp)
    | cons q qs =>
      have hq : a.1 < q.1 := List.rel_of_pairwise_cons hs (by simp)
      rw [List.nil_append, interpFromNan, if_pos (by rw [hxp]; exact hq), if_pos hxp]
      exact h a (by simp)
  | cons b ps ih =>
    have hb : p.1 < b.1 := List.rel_of_pairwise_cons hs (by simp)
    rw [List.cons_append, interpFromNan]
    have hps := h p (by simp)
    have hbs := h b (by simp)
    by_cases hxb : x < b.1
    · rw [if_pos hxb]
      by_cases hxp : x = p.1
      · rw [if_pos hxp]; exact hps
      · rw [if_neg hxp]
        obtain ⟨u, hu⟩ := Option.isSome_iff_exists.mp hps
        obtain ⟨v, hv⟩ := Option.isSome_iff_exists.mp hbs
        rw [hu, hv]
        rfl
    · rw [if_neg hxb]
      refine ih (fun q hq => h q (List.mem_cons_of_mem _ hq)) (List.Pairwise.of_cons hs) (not_lt.mp hxb) ?_
      obtain ⟨a, ha, hx⟩ := ha
      rcases List.mem_cons.mp ha with rfl | ha
      · exact absurd (lt_of_le_of_lt hx hb) hxb
      · exact ⟨a, ha, hx⟩

theorem mids_le {total : ℝ} (h : 0 < total) (acc : ℝ) {ws : List ℝ} (hw : ∀ w ∈ ws, 0 < w) :
    ∀ m ∈ mids total acc ws, m < (acc + ws.sum) / total := by
  induction ws generalizing acc with
  | nil => simp [mids]
  | cons w ws ih =>
    have h0 := hw w (by simp)
    have hs : 0 ≤ ws.sum := List.sum_nonneg (fun v hv => (hw v (by simp [hv])).le)
    intro m hm
    rw [mids, List.mem_cons] at hm
    rw [List.sum_cons]
    rcases hm with rfl | hm
    · exact div_lt_div_of_pos_right (by linarith) h
    · rw [← add_assoc]
      exact ih (acc + w) (fun v hv => hw v (by simp [hv])) m hm

/-- The order in which `weighted_quantile` uses values and weights: first numbers, then nan. -/
theorem weightedQuantileNan_eq (A : NanArgsort ℝ) {prob : ℝ} {values : List (Option ℝ)} {weights : List ℝ}
    (hp : 0 < prob ∧ prob < 1) (hl : values.length = weights.length) (ht : weights.sum ≠ 0) :
    ∃ nums nans : List (Option ℝ × ℝ), (nums ++ nans).Perm (values.zip weights) ∧ (∀ p ∈ nums, p.1.isSome) ∧
      (∀ p ∈ nans, p.1 = none) ∧
      weightedQuantileNan A prob values weights =
        interpNan prob (mids weights.sum 0 ((nums ++ nans).map (·.2))) ((nums ++ nans).map (·.1)) := by
  have h1 : (values.zip weights).map (·.1) = values := List.map_fst_zip (by omega)
  have h2 : (values.zip weights).map (·.2) = weights := List.map_snd_zip (by omega)
  have e1 : gather values (A.idx values) = (gather (values.zip weights) (A.idx values)).map (·.1) := by
    rw [← gather_map, h1]
  have e2 : gather weights (A.idx values) = (gather (values.zip weights) (A.idx values)).map (·.2) := by
    rw [← gather_map, h2]
  have hperm : (gather (values.zip weights) (A.idx values)).Perm (values.zip weights) := by
    have := nan_gather_key A (fun p : Option ℝ × ℝ => p.1) (values.zip weights)
    rwa [h1] at this
  have hsorted := A.sorted values
  rw [e1, List.pairwise_map] at hsorted
  have heq : weightedQuantileNan A prob values weights = interpNan prob
      (mids weights.sum 0 ((gather (values.zip weights) (A.idx values)).map (·.2)))
      ((gather (values.zip weights) (A.idx values)).map (·.1)) := by
    unfold weightedQuantileNan
    rw [if_neg (by simp [hp]), if_neg (by simp [hl])]
    simp only
    rw [e1, e2, quantilePoints_ok ht, Py.ok_bind]
  rw [heq]
  generalize gather (values.zip weights) (A.idx values) = L at hperm hsorted
  refine ⟨L.takeWhile (fun p => p.1.isSome), L.dropWhile (fun p => p.1.isSome), ?_, ?_, ?_, ?_⟩
  · rw [List.takeWhile_append_dropWhile]; exact hperm
  · exact fun p hp => List.all_eq_true.mp List.all_takeWhile p hp
  · clear heq hperm e1 e2 h1 h2
    induction L with
    | nil => simp
    | cons a L ih =>
      rw [List.pairwise_cons] at hsorted
      rw [List.dropWhile_cons]
      split_ifs with hc
      · exact ih hsorted.2
      · intro p hp'
        rcases List.mem_cons.mp hp' with rfl | hm
        · simpa using hc
        · rcases hsorted.1 p hm with h | ⟨u, v, hu, -, -⟩
          · exact h
          · rw [hu] at hc; simp at hc
  · rw [List.takeWhile_append_dropWhile]

theorem numberWeight_eq {values : List (Option ℝ)} {weights : List ℝ} {nums nans : List (Option ℝ × ℝ)}
    (hperm : (nums ++ nans).Perm (values.zip weights)) (h1 : ∀ p ∈ nums, p.1.isSome) (h2 : ∀ p ∈ nans, p.1 = none) :
    Spec.numberWeight values weights = (nums.map (·.2)).sum := by
  unfold Spec.numberWeight
  have := ((hperm.filter (fun p => p.1.isSome)).map (·.2)).sum_eq
  rw [← this, List.filter_append, List.filter_eq_self.mpr h1,
    List.filter_eq_nil_iff.mpr (by intro p hp; rw [h2 p hp]; simp), List.append_nil]

theorem zipPoints (total acc : ℝ) (L L' : List (Option ℝ × ℝ)) :
    (mids total acc ((L ++ L').map (·.2))).zip ((L ++ L').map (·.1)) =
      (mids total acc (L.map (·.2))).zip (L.map (·.1)) ++
        (mids total (acc + (L.map (·.2)).sum) (L'.map (·.2))).zip (L'.map (·.1)) := by
  rw [List.map_append, List.map_append, mids_append, List.zip_append (by simp [length_mids])]

/-- C114.  A quantile is nan if the probability exceeds the share of the numbers in the total weight. -/
theorem C114_quantile_nan (A : NanArgsort ℝ) {prob : ℝ} {values : List (Option ℝ)} {weights : List ℝ}
    (hp : 0 < prob ∧ prob < 1) (hl : values.length = weights.length) (hw : ∀ v ∈ weights, 0 < v) (h0 : weights ≠ [])
    (h : Spec.numberWeight values weights < prob * weights.sum) :
    weightedQuantileNan A prob values weights = .ok none := by
  have ht : 0 < weights.sum := by
    cases weights with
    | nil => exact absurd rfl h0
    | cons a as =>
      rw [List.sum_cons]
      have := List.sum_nonneg (l := as) (fun v hv => (hw v (by simp [hv])).le)
      have := hw a (by simp)
      linarith
  obtain ⟨nums, nans, hperm, hnum, hnan, heq⟩ := weightedQuantileNan_eq A hp hl ht.ne'
  have hN := numberWeight_eq hperm hnum hnan
  have hmem : ∀ p ∈ nums ++ nans, 0 < p.2 := by
    intro p hp'
    exact hw _ ((List.of_mem_zip (hperm.mem_iff.mp hp')).2)
  have hsum : ((nums ++ nans).map (·.2)).sum = weights.sum := by
    rw [(hperm.map (·.2)).sum_eq, List.map_snd_zip (by omega)]
  have hnans : nans ≠ [] := by
    rintro rfl
    rw [List.append_nil] at hsum
    rw [hN, hsum] at h
    nlinarith [hp.2]
  rw [heq]
  unfold interpNan
  rw [if_neg (by simp [length_mids]), zipPoints]
  have hN2 : ∀ q ∈ (mids weights.sum (0 + (nums.map (·.2)).sum) (nans.map (·.2))).zip (nans.map (·.1)), q.2 = none := by
    intro q hq
    obtain ⟨p, hp', e⟩ := List.mem_map.mp (List.of_mem_zip (a := q.1) (b := q.2) hq).2
    rw [← e]; exact hnan p hp'
  have hne2 : (mids weights.sum (0 + (nums.map (·.2)).sum) (nans.map (·.2))).zip (nans.map (·.1)) ≠ [] := by
    intro hc
    have := congrArg List.length hc
    simp [length_mids] at this
    exact hnans this
  have hlt : ∀ q ∈ (mids weights.sum 0 (nums.map (·.2))).zip (nums.map (·.1)), q.1 < prob := by
    intro q hq
    have := mids_le ht 0 (ws := nums.map (·.2)) (by
      intro v hv
      obtain ⟨p, hp', rfl⟩ := List.mem_map.mp hv
      exact hmem p (List.mem_append_left _ hp')) q.1 (List.of_mem_zip (a := q.1) (b := q.2) hq).1
    refine lt_trans this ?_
    rw [zero_add, ← hN, div_lt_iff₀ ht]
    exact h
  generalize (mids weights.sum (0 + (nums.map (·.2)).sum) (nans.map (·.2))).zip (nans.map (·.1)) = ns at hN2 hne2
  cases hps : (mids weights.sum 0 (nums.map (·.2))).zip (nums.map (·.1)) with
  | nil =>
    cases ns with
    | nil => exact absurd rfl hne2
    | cons q qs =>
      simp only [List.nil_append]
      rw [interpFromNan_none hN2, hN2 q (by simp), ite_self]
  | cons p ps =>
    rw [hps] at hlt
    simp only [List.cons_append]
    rw [if_neg (not_lt.mpr (hlt p (by simp)).le), interpFromNan_beyond hlt hN2 hne2]

/-- C114.  It is a number if the probability is below that share by at least half of the largest weight. -/
theorem C114_quantile_number (A : NanArgsort ℝ) {prob : ℝ} {values : List (Option ℝ)} {weights : List ℝ}
    (hp : 0 < prob ∧ prob < 1) (hl : values.length = weights.length) (hw : ∀ v ∈ weights, 0 < v) {m : ℝ} (hm : ∀ v ∈ weights, v ≤ m)
    (h0 : ∃ x, some x ∈ values) (h : prob * weights.sum ≤ Spec.numberWeight values weights - m / 2) :
    ∃ v, weightedQuantileNan A prob values weights = .ok (some v) := by
  have hwne : weights ≠ [] := by
    rintro rfl
    obtain ⟨x, hx⟩ := h0
    rw [List.length_eq_zero_iff.mp hl] at hx
    simp at hx
  have ht : 0 < weights.sum := by
    cases weights with
    | nil => exact absurd rfl hwne
    | cons a as =>
      rw [List.sum_cons]
      have := List.sum_nonneg (l := as) (fun v hv => (hw v (by simp [hv])).le)
      have := hw a (by simp)
      linarith
  obtain ⟨nums, nans, hperm, hnum, hnan, heq⟩ := weightedQuantileNan_eq A hp hl ht.ne'
  have hN := numberWeight_eq hperm hnum hnan
  have hmem : ∀ p ∈ nums ++ nans, p.2 ∈ weights := by
    intro p hp'
    exact (List.of_mem_zip (hperm.mem_iff.mp hp')).2
  have hnums : nums ≠ [] := by
    rintro rfl
    obtain ⟨x, hx⟩ := h0
    obtain ⟨i, hi, e⟩ := List.mem_iff_getElem.mp hx
    have : (values.zip weights)[i]'(by simp; omega) ∈ values.zip weights := List.getElem_mem _
    have h3 := hnan _ (hperm.mem_iff.mpr this)
    simp [e] at h3
  obtain ⟨init, last, rfl⟩ : ∃ init last, nums = init ++ [last] :=
    ⟨nums.dropLast, nums.getLast hnums, (List.dropLast_append_getLast hnums).symm⟩
  rw [heq]
  unfold interpNan
  rw [if_neg (by simp [length_mids])]
  have hsorted : ((mids weights.sum 0 ((init ++ [last] ++ nans).map (·.2))).zip ((init ++ [last] ++ nans).map (·.1))).Pairwise
      (fun a b => a.1 < b.1) := by
    have h3 := mids_pairwise_lt ht 0 (ws := (init ++ [last] ++ nans).map (·.2)) (by
      intro v hv
      obtain ⟨p, hp', rfl⟩ := List.mem_map.mp hv
      exact hw _ (hmem p hp'))
    have h4 : ((mids weights.sum 0 ((init ++ [last] ++ nans).map (·.2))).zip ((init ++ [last] ++ nans).map (·.1))).map (·.1) =
        mids weights.sum 0 ((init ++ [last] ++ nans).map (·.2)) := List.map_fst_zip (by simp [length_mids])
    rw [← h4, List.pairwise_map] at h3
    exact h3
  rw [zipPoints] at hsorted ⊢
  have hsome : ∀ q ∈ (mids weights.sum 0 ((init ++ [last]).map (·.2))).zip ((init ++ [last]).map (·.1)), q.2.isSome := by
    intro q hq
    obtain ⟨p, hp', e⟩ := List.mem_map.mp (List.of_mem_zip (a := q.1) (b := q.2) hq).2
    rw [← e]; exact hnum p hp'
  have hlast : ∃ a ∈ (mids weights.sum 0 ((init ++ [last]).map (·.2))).zip ((init ++ [last]).map (·.1)), prob ≤ a.1 := by
    rw [zipPoints]
    refine ⟨((0 + (init.map (·.2)).sum + last.2 / 2) / weights.sum, last.1), List.mem_append_right _ (by simp [mids]), ?_⟩
    rw [le_div_iff₀ ht]
    have hlw := hm last.2 (hmem last (by simp))
    rw [hN, List.map_append, List.sum_append] at h
    simp at h
    linarith
  generalize (mids weights.sum (0 + ((init ++ [last]).map (·.2)).sum) (nans.map (·.2))).zip (nans.map (·.1)) = ns at hsorted
  cases hps : (mids weights.sum 0 ((init ++ [last]).map (·.2))).zip ((init ++ [last]).map (·.1)) with
  | nil => rw [hps] at hlast; simp at hlast
  | cons p ps =>
    rw [hps] at hlast hsome hsorted
    simp only [List.cons_append]
    by_cases hx : prob < p.1
    · rw [if_pos hx]
      obtain ⟨v, hv⟩ := Option.isSome_iff_exists.mp (hsome p (by simp))
      exact ⟨v, by rw [hv]⟩
    · rw [if_neg hx]
      obtain ⟨v, hv⟩ := Option.isSome_iff_exists.mp
        (interpFromNan_number hsome hsorted (not_lt.mp hx) hlast)
      exact ⟨v, by rw [hv]⟩

/-- C114.  A quantile which is a number is the one with nan replaced by any numbers that are sorted to the end. -/
theorem C114_quantile_value (A : NanArgsort ℝ) (A' : Argsort ℝ) {prob : ℝ} {values : List (Option ℝ)} {weights : List ℝ} {b v : ℝ}
    (hA : A'.idx (values.map (·.getD b)) = A.idx values) (h : weightedQuantileNan A prob values weights = .ok (some v)) :
    weightedQuantile A' prob (values.map (·.getD b)) weights = .ok v := by
  have key : ∀ (p : ℝ × Option ℝ) (ps : List (ℝ × Option ℝ)), interpFromNan prob p ps = some v →
      interpFrom prob (p.1, p.2.getD b) (ps.map (fun q => (q.1, q.2.getD b))) = v := by
    intro p ps
    induction ps generalizing p with
    | nil =>
      intro hk
      rw [interpFromNan] at hk
      rw [List.map_nil, interpFrom, hk]
      rfl
    | cons q qs ih =>
      intro hk
      rw [interpFromNan] at hk
      rw [List.map_cons, interpFrom]
      split_ifs at hk ⊢ with c1 c2
      · rw [hk]; rfl
      · cases h1 : p.2 with
        | none => rw [h1] at hk; cases hk
        | some x => cases h2 : q.2 with
          | none => rw [h1, h2] at hk; cases hk
          | some y =>
            rw [h1, h2] at hk
            simpa using Option.some.inj hk
      · exact ih q hk
  unfold weightedQuantileNan at h
  unfold weightedQuantile
  rw [List.length_map, hA]
  split_ifs at h ⊢ with c1 c2
  simp only at h ⊢
  cases hq : quantilePoints (gather weights (A.idx values)) weights.sum with
  | error e => rw [hq] at h; cases h
  | ok q =>
    rw [hq, Py.ok_bind] at h
    rw [Py.ok_bind, gather_map]
    unfold interpNan at h
    unfold interp
    rw [List.length_map]
    split_ifs at h ⊢ with c3
    rw [List.zip_map_right]
    cases hz : q.zip (gather values (A.idx values)) with
    | nil => rw [hz] at h; cases h
    | cons p ps =>
      rw [hz] at h
      simp only [List.map_cons]
      have h := Except.ok.inj h
      congr 1
      split_ifs at h with c4
      · rw [if_pos (by exact c4)]
        simp [h]
      · rw [if_neg (by exact c4)]
        exact key p ps h

/-- There is such an order if the replacement is at least as large as all numbers. -/
theorem C114_order_exists (A : NanArgsort ℝ) {values : List (Option ℝ)} {b : ℝ} (h : ∀ x, some x ∈ values → x ≤ b) :
    ∃ A' : Argsort ℝ, A'.idx (values.map (·.getD b)) = A.idx values := by
  classical
  refine ⟨⟨fun l => if l = values.map (·.getD b) then A.idx values else A.plain.idx l, ?_, ?_⟩, if_pos rfl⟩
  · intro l
    by_cases hl : l = values.map (·.getD b)
    · rw [if_pos hl, hl, List.length_map]
      exact A.perm values
    · rw [if_neg hl]
      exact A.plain.perm l
  · intro l
    by_cases hl : l = values.map (·.getD b)
    · rw [if_pos hl, hl]
      change (gather (values.map (·.getD b)) (A.idx values)).Pairwise (· ≤ ·)
      rw [gather_map, List.pairwise_map]
      refine (A.sorted values).imp_of_mem ?_
      intro x y hx _ hxy
      rcases hxy with rfl | ⟨u, v, rfl, rfl, huv⟩
      · cases x with
        | none => exact le_refl _
        | some x => exact h x ((nan_gather A).mem_iff.mp hx)
      · exact huv
    · rw [if_neg hl]
      exact A.plain.sorted l

/-- C114.  The credible bound of a parameter with nan among its values is nan if the probability exceeds the share of the numbers in
the total weight, and a number if it is below by at least half of the largest weight. -/
theorem C114_param_cred (A : NanArgsort ℝ) (R : Rng σ ℝ) {r : Run ℝ} {th : List (List (Option ℝ))} {logw : Option (List ℝ)}
    {simulate : Bool} {w w' : World σ} {lw : List ℝ} (hw : logwOr R r logw simulate w = (.ok lw, w')) {ind : Nat} {x : List (Option ℝ)}
    (hx : nanColumn th ind = .ok x) (hl : lw.length = x.length) {prob : ℝ} (hp : 0 < prob ∧ prob < 1) {ws : List ℝ}
    (hr : relWeights lw = .ok ws) :
    (Spec.numberWeight x ws < prob * ws.sum →
      (Estimator.paramCred prob ind).callNan A R r th logw simulate w = (.ok none, w')) ∧
    ((∃ y, some y ∈ x) → prob * ws.sum ≤ Spec.numberWeight x ws - 1 / 2 →
      ∃ v, (Estimator.paramCred prob ind).callNan A R r th logw simulate w = (.ok (some v), w') ∧
        ∀ b, (∀ y, some y ∈ x → y ≤ b) → ∃ A' : Argsort ℝ, A'.idx (x.map (·.getD b)) = A.idx x ∧
          weightedQuantile A' prob (x.map (·.getD b)) ws = .ok v) := by
  have hpos := relWeights_pos hr
  have hlen := relWeights_length hr
  have hcall : (Estimator.paramCred prob ind).callNan A R r th logw simulate w =
      (M.lift (weightedQuantileNan A prob x ws) : M σ (Option ℝ)) w' := by
    simp only [Estimator.callNan]
    rw [M.bind_ok hw, hr, Py.ok_bind, hx, Py.ok_bind]
  have hone : ∀ v ∈ ws, v ≤ 1 := by
    have hne : lw ≠ [] := by rintro rfl; cases hr
    obtain ⟨m, -, hm, h3⟩ := relWeights_ok hne
    rw [h3] at hr
    cases hr
    intro v hv
    obtain ⟨y, hy, rfl⟩ := List.mem_map.mp hv
    rw [Real.exp_le_one_iff]
    linarith [hm y hy]
  have hne : ws ≠ [] := by
    intro h0
    have := relWeights_sum hr
    rw [h0] at this
    simp at this
  refine ⟨fun h => ?_, fun h0 h => ?_⟩
  · rw [hcall, C114_quantile_nan A hp (by omega) hpos hne h]
    rfl
  · obtain ⟨v, hv⟩ := C114_quantile_number A hp (by omega) hpos hone h0 h
    refine ⟨v, by rw [hcall, hv]; rfl, fun b hb => ?_⟩
    obtain ⟨A', hA⟩ := C114_order_exists A hb
    exact ⟨A', hA, C114_quantile_value A A' hA hv⟩

/-! ### Concrete cases -/

/-- `np.argsort` for real numbers and nan exists. -/
noncomputable def nanKeyReal : Option ℝ → Option ℝ → Bool
  | _, none => true
  | none, some _ => false
  | some x, some y => decide (x ≤ y)

noncomputable def nanSortReal : NanArgsort ℝ where
  idx l := (List.range l.length).mergeSort (fun i j => nanKeyReal (l[i]?.getD none) (l[j]?.getD none))
  perm l := List.mergeSort_perm _ _
  sorted l := by
    have hs := List.pairwise_mergeSort (le := fun i j => nanKeyReal (l[i]?.getD none) (l[j]?.getD none))
      (by
        intro a b c
        cases l[a]?.getD none <;> cases l[b]?.getD none <;> cases l[c]?.getD none <;> simp [nanKeyReal]
        exact le_trans)
      (by
        intro a b
        cases l[a]?.getD none <;> cases l[b]?.getD none <;> simp [nanKeyReal]
        exact le_total _ _)
      (List.range l.length)
    unfold gather
    rw [List.pairwise_filterMap]
    refine hs.imp ?_
    intro i j hij a ha b hb
    have ha' : l[i]? = some a := ha
    have hb' : l[j]? = some b := hb
    rw [ha', hb'] at hij
    cases b with
    | none => exact .inl rfl
    | some y => cases a with
      | none => simp [nanKeyReal] at hij
      | some x => exact .inr ⟨x, y, rfl, rfl, by simpa [nanKeyReal] using hij⟩

/-- Four samples of equal weight, one with nan as its second parameter: its mean and its upper quartile are nan, its lower quartile
is not. -/
example (R : Rng σ ℝ) (r : Run ℝ) (w : World σ) :
    let th : List (List (Option ℝ)) := [[some 1, some 5], [some 2, none], [some 3, some 4], [some 4, some 6]]
    (Estimator.paramMean 1 false).callNan nanSortReal R r th (some [0, 0, 0, 0]) false w = (.ok none, w) ∧
    (Estimator.paramCred 0.8 1).callNan nanSortReal R r th (some [0, 0, 0, 0]) false w = (.ok none, w) ∧
    ∃ v, (Estimator.paramCred 0.25 1).callNan nanSortReal R r th (some [0, 0, 0, 0]) false w = (.ok (some v), w) := by
  intro th
  have hc : nanColumn th 1 = .ok [some 5, none, some 4, some 6] := rfl
  have hlw : logwOr R r (some [0, 0, 0, 0]) false w = (.ok [0, 0, 0, 0], w) := rfl
  have hr : relWeights [0, 0, 0, 0] = .ok [1, 1, 1, 1] := by
    obtain ⟨m, hm, -, h3⟩ := relWeights_ok (logw := [0, 0, 0, 0]) (by simp)
    have : m = 0 := by simpa using hm
    rw [h3, this]
    simp
  refine ⟨C114_mean nanSortReal R (.inl ⟨_, rfl⟩) hlw hc rfl (by simp), ?_, ?_⟩
  · refine (C114_param_cred nanSortReal R hlw hc rfl (by norm_num) hr).1 ?_
    norm_num [Spec.numberWeight]
  · obtain ⟨v, hv, -⟩ := (C114_param_cred (prob := 0.25) nanSortReal R hlw hc rfl (by norm_num) hr).2 ⟨5, by simp⟩
      (by norm_num [Spec.numberWeight])
    exact ⟨v, hv⟩

end Nestcheck
