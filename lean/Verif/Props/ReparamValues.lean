import Verif.Props.Estimators
import Verif.Model.Instances
import Verif.Props.Reparam

/-
C86, continued: estimates and error bars after a change of the parameters.
-/

set_option linter.unusedSectionVars false

namespace Nestcheck
open Spec
noncomputable section
variable {σ : Type} {A : Argsort ℝ} (R : Rng σ ℝ)

/-- The value `a * x + b`; nan stays nan. -/
def Spec.affine (ab : ℝ × ℝ) (x : Option ℝ) : Option ℝ := x.map (fun x => ab.1 * x + ab.2)

/-- On runs with parameters among `ts`: the function `e'` of a run with parameters changed by `f` is `a` times the function `e` of
the run itself plus `b`, with the same exceptions and effects. -/
def Spec.Transforms (ts : List (List ℝ)) (f : List ℝ → List ℝ) (ab : ℝ × ℝ) (e e' : EstFunc σ) : Prop :=
  ∀ (r : Run ℝ), r.theta ⊆ ts → ∀ (logw : Option (List ℝ)) (sim : Bool), Carried (affine ab) (e r logw sim) (e' (r.mapTheta f) logw sim)

/-- `f` changes the parameter number `ind` to `a * x + b`. -/
def Spec.AffineAt (ts : List (List ℝ)) (f : List ℝ → List ℝ) (ind : Nat) (a b : ℝ) : Prop :=
  ∀ t ∈ ts, (f t)[ind]? = t[ind]?.map (fun x => a * x + b)

/-- A sort which only depends on the order of the keys, as one working by comparisons does. -/
def Spec.ByComparison (A : Argsort ℝ) : Prop := ∀ (g : ℝ → ℝ), StrictMono g → ∀ xs, A.idx (xs.map g) = A.idx xs

theorem logwOr_theta (r : Run ℝ) (f : List ℝ → List ℝ) (logw : Option (List ℝ)) (sim : Bool) :
    logwOr R (r.mapTheta f) logw sim = logwOr R r logw sim := rfl

theorem affine_one (x : Option ℝ) : affine (1, 0) x = x := by
  cases x <;> simp [affine]

theorem Spec.Carried.of_eq {x x' : M σ (Option ℝ)} (h : x' = x) : Carried (affine (1, 0)) x x' := by
  intro w
  rw [h]
  have : (affine (1, 0)) = id := funext affine_one
  rw [this]
  rcases x w with ⟨_ | a, w'⟩ <;> rfl

/-! ### Values which do not involve the parameters -/

/-- C86: the number of samples and the evidence do not depend on the parameters. -/
theorem C86_evidence (ts : List (List ℝ)) (f : List ℝ → List ℝ) :
    Transforms ts f (1, 0) (Estimator.count.call A R) (Estimator.count.call A R) ∧
    Transforms ts f (1, 0) (Estimator.logz.call A R) (Estimator.logz.call A R) ∧
    Transforms ts f (1, 0) (Estimator.evidence.call A R) (Estimator.evidence.call A R) :=
  ⟨fun _ _ _ _ => Carried.of_eq rfl, fun _ _ _ _ => Carried.of_eq rfl, fun _ _ _ _ => Carried.of_eq rfl⟩

/-! ### Means -/

theorem column_affine {ts : List (List ℝ)} {f : List ℝ → List ℝ} {ind : Nat} {a b : ℝ} (hf : AffineAt ts f ind a b) {thetas : List (List ℝ)}
    (hs : thetas ⊆ ts) : column (thetas.map f) ind = (column thetas ind).map (List.map (fun x => a * x + b)) := by
  unfold column
  induction thetas with
  | nil => rfl
  | cons t l ih =>
    have ih := ih (fun x hx => hs (List.mem_cons_of_mem _ hx))
    rw [List.map_cons, pyMap, pyMap, ih, hf t (hs (List.mem_cons_self))]
    cases t[ind]? with
    | none => rfl
    | some x =>
      cases pyMap (fun t : List ℝ => match t[ind]? with
        | some x => (.ok x : Py ℝ)
        | none => .error .index) l <;> rfl

theorem relWeights_sum {lw w : List ℝ} (h : relWeights lw = .ok w) : 0 < w.sum := by
  by_cases hne : lw = []
  · subst hne; cases h
  · obtain ⟨m, -, -, h3⟩ := relWeights_ok hne
    rw [h3] at h
    have e := Except.ok.inj h
    rw [← e]
    apply List.sum_pos
    · intro x hx
      obtain ⟨y, -, rfl⟩ := List.mem_map.mp hx
      exact Real.exp_pos _
    · simpa using hne

theorem sum_zipWith_affine (w x : List ℝ) (h : w.length = x.length) (a b : ℝ) :
    (List.zipWith (· * ·) w (x.map (fun y => a * y + b))).sum = a * (List.zipWith (· * ·) w x).sum + b * w.sum := by
  induction w generalizing x with
  | nil => simp
  | cons v w ih =>
    cases x with
    | nil => simp at h
    | cons y x =>
      simp only [List.map_cons, List.zipWith_cons_cons, List.sum_cons]
      rw [ih x (by simpa using h)]
      ring

theorem weightedMean_affine {w x : List ℝ} (hw : 0 < w.sum) (a b : ℝ) :
    weightedMean w (x.map (fun y => a * y + b)) = (weightedMean w x).map (fun m => a * m + b) := by
  unfold weightedMean dot
  rw [List.length_map]
  split_ifs with h
  · rfl
  · simp only [Py.ok_bind, npDiv, if_neg hw.ne']
    rw [sum_zipWith_affine w x (by simpa using h)]
    show Except.ok _ = Except.ok _
    congr 1
    field_simp

/-- C86 for `param_mean`. -/
theorem C86_mean {ts : List (List ℝ)} {f : List ℝ → List ℝ} {ind : Nat} {a b : ℝ} (hf : AffineAt ts f ind a b) (handle : Bool) :
    Transforms ts f (a, b) ((Estimator.paramMean ind handle).call A R) ((Estimator.paramMean ind handle).call A R) := by
  intro r hs logw sim
  show Carried _ (paramMean R r logw sim ind handle) (paramMean R (r.mapTheta f) logw sim ind handle)
  unfold paramMean
  rw [logwOr_theta]
  refine Carried.same fun lw => Carried.lift ?_
  unfold paramMeanOf
  cases hw : relWeights lw with
  | error e => rfl
  | ok w =>
    have h1 : (r.mapTheta f).theta = r.theta.map f := rfl
    simp only [Py.ok_bind, h1, column_affine hf hs]
    cases hc : column r.theta ind with
    | error e => cases e <;> first | rfl | (cases handle <;> rfl)
    | ok x =>
      have e : (Except.map (List.map fun x => a * x + b) (Except.ok x : Py (List ℝ))) = .ok (x.map (fun x => a * x + b)) := rfl
      rw [e]
      simp only [Py.ok_bind, weightedMean_affine (relWeights_sum hw)]
      cases weightedMean w x with
      | error e => cases e <;> first | rfl | (cases handle <;> rfl)
      | ok m => rfl

theorem Spec.Carried.some_bind {x x' : M σ ℝ} {a b : ℝ} (h : Carried (fun x => a * x + b) x x') :
    Carried (affine (a, b)) (do let y ← x; Pure.pure (some y)) (do let y ← x'; Pure.pure (some y)) :=
  h.bind fun _ => Carried.pure _ _

/-- C86 for `param_squared_mean`: scaling only. -/
theorem C86_squared {ts : List (List ℝ)} {f : List ℝ → List ℝ} {ind : Nat} {a : ℝ} (hf : AffineAt ts f ind a 0) :
    Transforms ts f (a ^ 2, 0) ((Estimator.paramSquaredMean ind).call A R) ((Estimator.paramSquaredMean ind).call A R) := by
  intro r hs logw sim
  refine Carried.some_bind ?_
  unfold paramSquaredMean
  rw [logwOr_theta]
  refine Carried.same fun lw => Carried.lift ?_
  cases hw : relWeights lw with
  | error e => rfl
  | ok w =>
    have h1 : (r.mapTheta f).theta = r.theta.map f := rfl
    simp only [Py.ok_bind, h1, column_affine hf hs]
    cases pyMap (fun x => npDiv x w.sum) w with
    | error e => rfl
    | ok w' =>
      simp only [Py.ok_bind]
      cases hc : column r.theta ind with
      | error e => rfl
      | ok x =>
        have e : (Except.map (List.map fun x => a * x + 0) (Except.ok x : Py (List ℝ))) = .ok (x.map (fun x => a * x + 0)) := rfl
        rw [e]
        simp only [Py.ok_bind]
        have e2 : (x.map (fun x => a * x + 0)).map (· ^ 2) = (x.map (· ^ 2)).map (fun y => a ^ 2 * y + 0) := by
          rw [List.map_map, List.map_map]
          apply List.map_congr_left
          intro y _
          simp only [Function.comp]
          ring
        rw [e2]
        unfold dot
        rw [List.length_map]
        split_ifs with h
        · rfl
        · rw [sum_zipWith_affine w' _ (by simpa using h)]
          show Except.ok _ = Except.ok _
          simp

theorem radii_scaled {ts : List (List ℝ)} {f : List ℝ → List ℝ} {c : ℝ} (hf : ∀ t ∈ ts, radius (f t) = c * radius t)
    {thetas : List (List ℝ)} (hs : thetas ⊆ ts) : radii (thetas.map f) = (radii thetas).map (fun x => c * x + 0) := by
  unfold radii
  rw [List.map_map, List.map_map]
  apply List.map_congr_left
  intro t ht
  have h := hf t (hs ht)
  unfold radius at h
  simp only [Function.comp, pow_two, add_zero]
  exact h

/-- C86 for `r_mean`: scaling all parameters (or any change which multiplies all distances from the origin by `c`). -/
theorem C86_r_mean {ts : List (List ℝ)} {f : List ℝ → List ℝ} {c : ℝ} (hf : ∀ t ∈ ts, radius (f t) = c * radius t) :
    Transforms ts f (c, 0) (Estimator.rMean.call A R) (Estimator.rMean.call A R) := by
  intro r hs logw sim
  refine Carried.some_bind ?_
  unfold rMean
  rw [logwOr_theta]
  refine Carried.same fun lw => Carried.lift ?_
  cases hw : relWeights lw with
  | error e => rfl
  | ok w =>
    have h1 : (r.mapTheta f).theta = r.theta.map f := rfl
    simp only [Py.ok_bind, h1, radii_scaled hf hs, weightedMean_affine (relWeights_sum hw)]

/-! ### Credible intervals -/

theorem interpFrom_affine (x a b : ℝ) (p : ℝ × ℝ) (l : List (ℝ × ℝ)) :
    interpFrom x (p.1, a * p.2 + b) (l.map (fun q => (q.1, a * q.2 + b))) = a * interpFrom x p l + b := by
  induction l generalizing p with
  | nil => rfl
  | cons q qs ih =>
    simp only [List.map_cons, interpFrom, ih]
    split_ifs
    · rfl
    · ring
    · rfl

theorem interp_affine (x a b : ℝ) (xp fp : List ℝ) :
    interp x xp (fp.map (fun y => a * y + b)) = (interp x xp fp).map (fun y => a * y + b) := by
  unfold interp
  rw [List.length_map, List.zip_map_right]
  split_ifs with h
  · rfl
  · cases xp.zip fp with
    | nil => rfl
    | cons p l =>
      simp only [List.map_cons]
      show Except.ok _ = Except.ok _
      congr 1
      have e : l.map (Prod.map id (fun y : ℝ => a * y + b)) = l.map (fun q => (q.1, a * q.2 + b)) := rfl
      have := interpFrom_affine x a b p l
      rw [e]
      simp only [Prod.map, id] at this ⊢
      split_ifs
      · rfl
      · exact this

theorem quantile_affine (hA : ByComparison A) (prob : ℝ) (values weights : List ℝ) {a : ℝ} (ha : 0 < a) (b : ℝ) :
    weightedQuantile A prob (values.map (fun x => a * x + b)) weights = (weightedQuantile A prob values weights).map (fun q => a * q + b) := by
  have hm : StrictMono (fun x : ℝ => a * x + b) := fun x y h => by
    simp only
    have := mul_lt_mul_of_pos_left h ha
    linarith
  unfold weightedQuantile
  rw [List.length_map, hA _ hm]
  split_ifs with h1 h2
  · rfl
  · simp only
    rw [gather_map]
    cases quantilePoints (gather weights (A.idx values)) weights.sum with
    | error e => rfl
    | ok q =>
      simp only [Py.ok_bind]
      exact interp_affine prob a b q _
  · rfl

/-- C86 for `param_cred`, `a > 0`. -/
theorem C86_cred (hA : ByComparison A) {ts : List (List ℝ)} {f : List ℝ → List ℝ} {ind : Nat} {a b : ℝ} (ha : 0 < a)
    (hf : AffineAt ts f ind a b) (prob : ℝ) :
    Transforms ts f (a, b) ((Estimator.paramCred prob ind).call A R) ((Estimator.paramCred prob ind).call A R) := by
  intro r hs logw sim
  refine Carried.some_bind ?_
  unfold paramCred
  rw [logwOr_theta]
  refine Carried.same fun lw => Carried.lift ?_
  cases hw : relWeights lw with
  | error e => rfl
  | ok w =>
    have h1 : (r.mapTheta f).theta = r.theta.map f := rfl
    simp only [Py.ok_bind, h1, column_affine hf hs]
    cases hc : column r.theta ind with
    | error e => rfl
    | ok x =>
      have e : (Except.map (List.map fun x => a * x + b) (Except.ok x : Py (List ℝ))) = .ok (x.map (fun x => a * x + b)) := rfl
      rw [e]
      simp only [Py.ok_bind]
      exact quantile_affine hA prob x w ha b

/-- C86 for `r_cred`. -/
theorem C86_r_cred (hA : ByComparison A) {ts : List (List ℝ)} {f : List ℝ → List ℝ} {c : ℝ} (hc : 0 < c)
    (hf : ∀ t ∈ ts, radius (f t) = c * radius t) (prob : ℝ) :
    Transforms ts f (c, 0) ((Estimator.rCred prob).call A R) ((Estimator.rCred prob).call A R) := by
  intro r hs logw sim
  refine Carried.some_bind ?_
  unfold rCred
  rw [logwOr_theta]
  refine Carried.same fun lw => Carried.lift ?_
  cases hw : relWeights lw with
  | error e => rfl
  | ok w =>
    have h1 : (r.mapTheta f).theta = r.theta.map f := rfl
    simp only [Py.ok_bind, h1, radii_scaled hf hs]
    exact quantile_affine hA prob _ w hc 0

/-! ### Error bars -/

/-- An estimator, what replaces it for the changed run, and the coefficients. -/
structure Spec.Pairing (σ : Type) where
  before : EstFunc σ
  after : EstFunc σ
  coeffs : ℝ × ℝ

/-- Results for the changed run. -/
def Spec.changed (ps : List (Pairing σ)) (xs : List (Option ℝ)) : List (Option ℝ) := List.zipWith (fun p x => affine p.coeffs x) ps xs

variable {R}

theorem callEach_transforms {ts : List (List ℝ)} {f : List ℝ → List ℝ} {ps : List (Pairing σ)}
    (hp : ∀ p ∈ ps, Transforms ts f p.coeffs p.before p.after) {r : Run ℝ} (hs : r.theta ⊆ ts) (lw : List ℝ) :
    Carried (changed ps) (callEach r lw (ps.map (·.before))) (callEach (r.mapTheta f) lw (ps.map (·.after))) := by
  induction ps with
  | nil => exact Carried.pure _ _
  | cons p ps ih =>
    simp only [List.map_cons, callEach]
    refine (hp p (List.mem_cons_self) r hs (some lw) false).bind fun v => ?_
    exact (ih (fun q hq => hp q (List.mem_cons_of_mem _ hq))).bind fun vs => Carried.pure _ _

/-- C86 for `run_estimators`. -/
theorem C86_estimators {ts : List (List ℝ)} {f : List ℝ → List ℝ} {ps : List (Pairing σ)}
    (hp : ∀ p ∈ ps, Transforms ts f p.coeffs p.before p.after) {r : Run ℝ} (hs : r.theta ⊆ ts) (sim : Bool) :
    Carried (changed ps) (runEstimators R r (ps.map (·.before)) sim) (runEstimators R (r.mapTheta f) (ps.map (·.after)) sim) := by
  unfold runEstimators
  exact Carried.same fun lw => callEach_transforms hp hs lw

theorem vstack_mem {K : Type} [CommRing K] [LinearOrder K] {arrs : List (List (Row K))} {rows : List (Row K)} (h : vstack arrs = .ok rows) :
    rows = arrs.flatten := by
  cases arrs with
  | nil => cases h
  | cons a as =>
    unfold vstack at h
    simp only at h
    split_ifs at h
    exact (Except.ok.inj h).symm

theorem birthUpdate_thetas {K : Type} [CommRing K] [LinearOrder K] {R : Rng σ K} {abp : Bool} {ss : List K} {rows rows' : List (Row K)}
    {w w' : World σ} (h : birthUpdate R abp ss rows w = (.ok rows', w')) : rows'.map (·.theta) = rows.map (·.theta) := by
  induction ss generalizing rows w with
  | nil => cases h; rfl
  | cons s ss ih =>
    unfold birthUpdate at h
    obtain ⟨_, w1, -, h⟩ := M.bind_eq_ok.mp h
    obtain ⟨k, w2, -, h⟩ := M.bind_eq_ok.mp h
    rw [ih h]
    apply List.ext_getElem?
    intro i
    simp only [List.getElem?_modify, List.getElem?_map]
    cases rows[i]? with
    | none => simp
    | some r => by_cases hk : k = i <;> simp [hk]

/-- The parameters of a combination are those of the threads. -/
theorem combineThreads_thetas {K : Type} [CommRing K] [LinearOrder K] {A : Argsort K} {R : Rng σ K} {threads : List (Run K)} {abp : Bool}
    {w w' : World σ} {run : Run K} (h : combineThreads A R threads abp w = (.ok run, w')) :
    run.theta ⊆ threads.flatMap (·.theta) := by
  unfold combineThreads at h
  obtain ⟨tmm, _, -, h⟩ := M.bind_eq_ok.mp h
  obtain ⟨_, _, -, h⟩ := M.bind_eq_ok.mp h
  obtain ⟨arrs, _, ha, h⟩ := M.bind_eq_ok.mp h
  obtain ⟨rows, _, hr, h⟩ := M.bind_eq_ok.mp h
  obtain ⟨_, _, -, h⟩ := M.bind_eq_ok.mp h
  obtain ⟨_, _, -, h⟩ := M.bind_eq_ok.mp h
  obtain ⟨rows', _, hb, h⟩ := M.bind_eq_ok.mp h
  obtain ⟨_, _, -, h⟩ := M.bind_eq_ok.mp h
  obtain ⟨run', _, hd, h⟩ := M.bind_eq_ok.mp h
  have ha' : arraysGivenRuns threads = .ok arrs := congrArg Prod.fst ha
  have hr' : vstack arrs = .ok rows := congrArg Prod.fst hr
  have key : run'.theta ⊆ threads.flatMap (·.theta) := by
    rw [dict_thetas hd, birthUpdate_thetas hb, ← arraysGivenRuns_thetas ha', ← vstack_mem hr']
    exact List.map_subset _ (sortBy_perm A _ rows).subset
  cases hc : checkThreads run' with
  | ok _ =>
    rw [hc] at h
    cases h
    exact key
  | error e =>
    rw [hc] at h
    cases e <;> cases h
    exact key

theorem resample_thetas {K : Type} [CommRing K] [LinearOrder K] {A : Argsort K} {R : Rng σ K} {r : Run K} {settings : Option Settings}
    {ts : List (Run K)} {sep : Bool} {seed : Seed} {w w' : World σ} {run : Run K} {st : Option Settings}
    (h : bootstrapResampleRun A R r settings (some ts) sep seed w = (.ok (run, st), w')) : run.theta ⊆ ts.flatMap (·.theta) := by
  unfold bootstrapResampleRun at h
  obtain ⟨_, _, -, h⟩ := M.bind_eq_ok.mp h
  obtain ⟨_, _, -, h⟩ := M.bind_eq_ok.mp h
  obtain ⟨ts', _, ht, h⟩ := M.bind_eq_ok.mp h
  cases ht
  obtain ⟨inds, _, -, h⟩ := M.bind_eq_ok.mp h
  obtain ⟨temp, _, hs, h⟩ := M.bind_eq_ok.mp h
  obtain ⟨run', _, hc, h⟩ := M.bind_eq_ok.mp h
  obtain ⟨_, _, -, h⟩ := M.bind_eq_ok.mp h
  cases h
  have hs' : selectThreads ts inds = .ok temp := congrArg Prod.fst hs
  intro x hx
  obtain ⟨t, ht, hxt⟩ := List.mem_flatMap.mp (combineThreads_thetas hc hx)
  unfold selectThreads at hs'
  split_ifs at hs'
  have e := Except.ok.inj hs'
  rw [← e] at ht
  obtain ⟨i, -, hi⟩ := List.mem_filterMap.mp ht
  exact List.mem_flatMap.mpr ⟨t, List.mem_of_getElem? hi, hxt⟩

theorem bootstrapColumns_transforms {r : Run ℝ} {f : List ℝ → List ℝ} (hf : KeepsWidth f r.theta) {ps : List (Pairing σ)}
    (hp : ∀ p ∈ ps, Transforms r.theta f p.coeffs p.before p.after) (settings : Option Settings) {ts : List (Run ℝ)}
    (hts : ts.flatMap (·.theta) ⊆ r.theta) (sep : Bool) (ss : List Seed) :
    Carried (List.map (changed ps)) (bootstrapColumns A R r settings ts sep (ps.map (·.before)) ss)
      (bootstrapColumns A R (r.mapTheta f) settings (ts.map (Run.mapTheta f)) sep (ps.map (·.after)) ss) := by
  induction ss with
  | nil => exact Carried.pure _ _
  | cons s ss ih =>
    unfold bootstrapColumns
    refine (C86_resample A R (r := r) (threads := some ts) (hf.mono (by
      intro x hx
      rcases List.mem_append.mp hx with h | h
      · exact h
      · exact hts h)) settings sep s).bind_of fun temp w w' ht => ?_
    obtain ⟨run, st⟩ := temp
    refine (C86_estimators hp (fun x hx => hts (resample_thetas ht hx)) false).bind fun col => ?_
    exact ih.bind fun cols => Carried.pure _ _

theorem fromColumns_changed (ps : List (Pairing σ)) (cols : List (List (Option ℝ))) :
    fromColumns ps.length (cols.map (changed ps)) = List.zipWith (fun p row => row.map (affine p.coeffs)) ps (fromColumns ps.length cols) := by
  unfold fromColumns
  apply List.ext_getElem
  · simp
  · intro j h1 h2
    have hj : j < ps.length := by simpa using h1
    simp only [List.getElem_map, List.getElem_range, List.getElem_zipWith, List.map_map]
    apply List.map_congr_left
    intro c _
    simp only [Function.comp, changed, List.getElem?_zipWith, List.getElem?_eq_getElem hj]
    cases c[j]? with
    | none => rfl
    | some x => rfl

theorem noNan_affine (ab : ℝ × ℝ) (row : List (Option ℝ)) :
    noNan (row.map (affine ab)) = (noNan row).map (List.map (fun x => ab.1 * x + ab.2)) := by
  unfold noNan
  induction row with
  | nil => rfl
  | cons x row ih =>
    cases x with
    | none => rfl
    | some x =>
      simp only [List.map_cons, affine, Option.map_some, allSome] at ih ⊢
      rw [ih]
      cases allSome row <;> rfl

theorem sum_map_affine (a b : ℝ) (ys : List ℝ) : (ys.map (fun x => a * x + b)).sum = a * ys.sum + b * ys.length := by
  induction ys with
  | nil => simp
  | cons y ys ih =>
    simp only [List.map_cons, List.sum_cons, ih, List.length_cons]
    push_cast
    ring

theorem npMean_affine (ab : ℝ × ℝ) (row : List (Option ℝ)) : npMean (row.map (affine ab)) = affine ab (npMean row) := by
  unfold npMean
  rw [noNan_affine]
  cases noNan row with
  | none => rfl
  | some ys =>
    cases ys with
    | nil => rfl
    | cons y ys =>
      have hpos : ((y :: ys).length : ℝ) ≠ 0 := by simp; positivity
      have := sum_map_affine ab.1 ab.2 (y :: ys)
      simp only [Option.map_some, List.map_cons, affine, List.length_cons, List.length_map] at this hpos ⊢
      rw [this]
      congr 1
      field_simp

theorem flipRow_affine (ab : ℝ × ℝ) (row : List (Option ℝ)) : flipRow (row.map (affine ab)) = (flipRow row).map (affine ab) := by
  unfold flipRow
  rw [npMean_affine, List.map_map, List.map_map]
  apply List.map_congr_left
  intro x _
  simp only [Function.comp]
  cases npMean row with
  | none => cases x <;> rfl
  | some m =>
    cases x with
    | none => rfl
    | some x =>
      simp only [affine, Option.map_some]
      congr 1
      ring

/-- C86 for `run_bootstrap_values`: one row for each estimator, changed as the estimator is. -/
theorem C86_values {r : Run ℝ} {f : List ℝ → List ℝ} (hf : KeepsWidth f r.theta) {ps : List (Pairing σ)}
    (hp : ∀ p ∈ ps, Transforms r.theta f p.coeffs p.before p.after) (settings : Option Settings) (n : Nat) (sep flip : Bool)
    (seeds : Option (List Seed)) :
    Carried (List.zipWith (fun p row => row.map (affine p.coeffs)) ps)
      (runBootstrapValues A R r settings (ps.map (·.before)) n sep flip seeds)
      (runBootstrapValues A R (r.mapTheta f) settings (ps.map (·.after)) n sep flip seeds) := by
  unfold runBootstrapValues
  refine Carried.same fun _ => ?_
  refine (C86_split f r).bind_of fun ts w w' ht => ?_
  refine (bootstrapColumns_transforms hf hp settings (getRunThreads_thetas ht) sep _).bind fun cols => ?_
  rw [List.length_map, List.length_map, fromColumns_changed]
  cases flip with
  | false => exact Carried.pure _ _
  | true =>
    intro w
    show (Except.ok _, w) = (Except.ok _, w)
    congr 2
    simp only [if_true]
    rw [List.map_zipWith, List.zipWith_map_right]
    congr 1
    funext p row
    exact flipRow_affine _ _

theorem npStd_affine (ab : ℝ × ℝ) (row : List (Option ℝ)) : npStd (row.map (affine ab)) = (npStd row).map (|ab.1| * ·) := by
  unfold npStd
  rw [noNan_affine]
  cases noNan row with
  | none => rfl
  | some ys =>
    simp only [Option.map_some, List.length_map]
    split_ifs with h
    · rfl
    · have hpos : (ys.length : ℝ) ≠ 0 := by
        have : 0 < ys.length := by omega
        positivity
      rw [sum_map_affine, List.map_map]
      simp only [Option.map_some]
      congr 1
      rw [← Real.sqrt_sq_eq_abs, ← Real.sqrt_mul (sq_nonneg _)]
      congr 1
      rw [← mul_div_assoc]
      congr 1
      rw [← List.sum_map_mul_left]
      congr 1
      apply List.map_congr_left
      intro y _
      simp only [Function.comp]
      have : (ab.1 * ys.sum + ab.2 * (ys.length : ℝ)) / ys.length = ab.1 * (ys.sum / ys.length) + ab.2 := by field_simp
      rw [this]
      ring

/-- C86 for `run_std_bootstrap`: standard deviations are multiplied by |a|. -/
theorem C86_std {r : Run ℝ} {f : List ℝ → List ℝ} (hf : KeepsWidth f r.theta) {ps : List (Pairing σ)}
    (hp : ∀ p ∈ ps, Transforms r.theta f p.coeffs p.before p.after) (settings : Option Settings) (n : Nat) (sep flip : Bool)
    (seeds : Option (List Seed)) :
    Carried (List.zipWith (fun p s => s.map (|p.coeffs.1| * ·)) ps)
      (runStdBootstrap A R r settings (ps.map (·.before)) n sep flip seeds)
      (runStdBootstrap A R (r.mapTheta f) settings (ps.map (·.after)) n sep flip seeds) := by
  unfold runStdBootstrap
  refine (C86_values hf hp settings n sep flip seeds).bind fun vals => ?_
  intro w
  show (Except.ok _, w) = (Except.ok _, w)
  congr 2
  rw [List.map_zipWith, List.zipWith_map_right]
  congr 1
  funext p row
  exact npStd_affine _ _

theorem insertionSort_monotone {g : ℝ → ℝ} (hg : Monotone g) (ys : List ℝ) :
    (ys.map g).insertionSort (· ≤ ·) = (ys.insertionSort (· ≤ ·)).map g := by
  apply List.Perm.eq_of_pairwise (le := (· ≤ ·))
  · intro a b _ _ h1 h2; exact le_antisymm h1 h2
  · exact List.pairwise_insertionSort _ _
  · rw [List.pairwise_map]
    exact (List.pairwise_insertionSort (· ≤ ·) ys).imp fun h => hg h
  · exact (List.perm_insertionSort _ _).trans ((List.perm_insertionSort _ _).map g).symm

theorem ciValue_affine (c : ℝ) {ab : ℝ × ℝ} (ha : 0 ≤ ab.1) (e : Option ℝ) (row : List (Option ℝ)) :
    ciValue c (affine ab e) (row.map (affine ab)) = (ciValue c e row).map (affine ab) := by
  unfold ciValue
  rw [noNan_affine]
  cases noNan row with
  | none => rfl
  | some ys =>
    simp only [Option.map_some, List.length_map]
    have hg : Monotone (fun x : ℝ => ab.1 * x + ab.2) := fun x y h => by
      have := mul_le_mul_of_nonneg_left h ha
      simp only
      linarith
    rw [insertionSort_monotone hg, interp_affine]
    cases interp (1 - c) (cdfPoints ys.length) (ys.insertionSort (· ≤ ·)) with
    | error e => rfl
    | ok q =>
      show Except.ok _ = Except.ok _
      congr 1
      cases e with
      | none => rfl
      | some e =>
        simp only [affine, Option.map_some]
        congr 1
        ring

theorem pyMap_ci (c : ℝ) {ps : List (Pairing σ)} (ha : ∀ p ∈ ps, 0 ≤ p.coeffs.1) (es : List (Option ℝ)) (rows : List (List (Option ℝ))) :
    pyMap (fun p : Option ℝ × List (Option ℝ) => ciValue c p.1 p.2)
      ((changed ps es).zip (List.zipWith (fun p row => row.map (affine p.coeffs)) ps rows)) =
    (pyMap (fun p : Option ℝ × List (Option ℝ) => ciValue c p.1 p.2) (es.zip rows)).map (changed ps) ∨
      ps.length < es.length ∨ ps.length < rows.length := by
  induction ps generalizing es rows with
  | nil =>
    cases es with
    | nil => left; rfl
    | cons e es => right; left; simp
  | cons p ps ih =>
    cases es with
    | nil => left; rfl
    | cons e es =>
      cases rows with
      | nil => left; rfl
      | cons row rows =>
        rcases ih (fun q hq => ha q (List.mem_cons_of_mem _ hq)) es rows with h | h | h
        · left
          simp only [changed, List.zipWith_cons_cons, List.zip_cons_cons, pyMap] at h ⊢
          rw [ciValue_affine c (ha p (List.mem_cons_self)), h]
          cases ciValue c e row with
          | error x => rfl
          | ok v =>
            cases pyMap (fun p : Option ℝ × List (Option ℝ) => ciValue c p.1 p.2) (es.zip rows) <;> rfl
        · right; left; simpa using h
        · right; right; simpa using h

theorem callEach_count {r : Run ℝ} {lw : List ℝ} {fs : List (EstFunc σ)} {vs : List (Option ℝ)} {w w' : World σ}
    (h : callEach r lw fs w = (.ok vs, w')) : vs.length = fs.length := by
  induction fs generalizing vs w w' with
  | nil => cases h; rfl
  | cons f fs ih =>
    unfold callEach at h
    obtain ⟨v, _, -, h⟩ := M.bind_eq_ok.mp h
    obtain ⟨vs', _, h1, h⟩ := M.bind_eq_ok.mp h
    cases h
    rw [List.length_cons, ih h1, List.length_cons]

/-- C86 for `run_ci_bootstrap`, if no coefficient `a` is negative. -/
theorem C86_ci {r : Run ℝ} {f : List ℝ → List ℝ} (hf : KeepsWidth f r.theta) {ps : List (Pairing σ)}
    (hp : ∀ p ∈ ps, Transforms r.theta f p.coeffs p.before p.after) (ha : ∀ p ∈ ps, 0 ≤ p.coeffs.1) (settings : Option Settings)
    (c : ℝ) (n : Nat) (sep flip : Bool) (seeds : Option (List Seed)) :
    Carried (changed ps) (runCiBootstrap A R r settings (ps.map (·.before)) c n sep flip seeds)
      (runCiBootstrap A R (r.mapTheta f) settings (ps.map (·.after)) c n sep flip seeds) := by
  unfold runCiBootstrap
  refine (C86_values hf hp settings n sep flip seeds).bind_of fun vals w w' hv => ?_
  refine (C86_estimators hp (fun x hx => hx) false).bind_of fun es w1 w2 he => ?_
  refine Carried.lift ?_
  rcases pyMap_ci c ha es vals with h | h | h
  · exact h
  · unfold runEstimators at he
    obtain ⟨lw, _, -, he⟩ := M.bind_eq_ok.mp he
    have := callEach_count he
    simp at this
    omega
  · unfold runBootstrapValues at hv
    obtain ⟨_, _, -, hv⟩ := M.bind_eq_ok.mp hv
    obtain ⟨_, _, -, hv⟩ := M.bind_eq_ok.mp hv
    obtain ⟨cols, _, -, hv⟩ := M.bind_eq_ok.mp hv
    cases hv
    exfalso
    revert h
    split_ifs <;> simp [fromColumns]

theorem simulateColumns_transforms {r : Run ℝ} {f : List ℝ → List ℝ} {ps : List (Pairing σ)}
    (hp : ∀ p ∈ ps, Transforms r.theta f p.coeffs p.before p.after) (n : Nat) :
    Carried (List.map (changed ps)) (simulateColumns R r (ps.map (·.before)) n) (simulateColumns R (r.mapTheta f) (ps.map (·.after)) n) := by
  induction n with
  | zero => exact Carried.pure _ _
  | succ n ih =>
    unfold simulateColumns
    exact (C86_estimators hp (fun x hx => hx) true).bind fun col => ih.bind fun cols => Carried.pure _ _

/-- C86 for `run_std_simulate`. -/
theorem C86_simulate {r : Run ℝ} {f : List ℝ → List ℝ} {ps : List (Pairing σ)}
    (hp : ∀ p ∈ ps, Transforms r.theta f p.coeffs p.before p.after) (n : Option Nat) :
    Carried (List.zipWith (fun p s => s.map (|p.coeffs.1| * ·)) ps) (runStdSimulate R r (ps.map (·.before)) n)
      (runStdSimulate R (r.mapTheta f) (ps.map (·.after)) n) := by
  unfold runStdSimulate
  cases n with
  | none => exact Carried.raise _ _
  | some n =>
    refine (simulateColumns_transforms hp n).bind fun cols => ?_
    intro w
    show (Except.ok _, w) = (Except.ok _, w)
    congr 2
    rw [List.length_map, List.length_map, fromColumns_changed, List.map_zipWith, List.zipWith_map_right]
    congr 1
    funext p row
    exact npStd_affine _ _

/-! ### Sorting by comparisons -/

theorem leAt_map {g : ℝ → ℝ} (hg : StrictMono g) (l : List ℝ) (i j : Nat) : leAt (l.map g) i j = leAt l i j := by
  unfold leAt
  rw [List.getElem?_map, List.getElem?_map]
  cases l[i]? with
  | none => cases l[j]? <;> rfl
  | some x =>
    cases l[j]? with
    | none => rfl
    | some y => simp [hg.le_iff_le]

/-- A stable sort only depends on the order. -/
theorem stableSort_byComparison : ByComparison (stableSort ℝ) := by
  intro g hg l
  show sortIdx (l.map g) (List.range (l.map g).length) = sortIdx l (List.range l.length)
  rw [List.length_map]
  unfold sortIdx
  simp only [leAt_map hg]

/-! ### Reflection -/

/-- Every probability is below the position of the smallest value, above that of the largest, or between two neighbours. -/
theorem position_cases {ps : List (ℝ × ℝ)} (hne : ps ≠ []) (prob : ℝ) :
    (∃ p ∈ ps, (∀ q ∈ ps, p.1 ≤ q.1) ∧ prob ≤ position ps p) ∨
    (∃ p ∈ ps, (∀ q ∈ ps, q.1 ≤ p.1) ∧ position ps p ≤ prob) ∨
    ∃ p ∈ ps, ∃ q ∈ ps, p.1 < q.1 ∧ (∀ s ∈ ps, ¬ (p.1 < s.1 ∧ s.1 < q.1)) ∧ position ps p ≤ prob ∧ prob < position ps q := by
  classical
  by_cases hS : ∃ p ∈ ps, position ps p ≤ prob
  · obtain ⟨p0, hp0, hle0⟩ := hS
    obtain ⟨p, hp, hmax⟩ := (ps.toFinset.filter (fun p => position ps p ≤ prob)).exists_max_image (fun p => p.1)
      ⟨p0, by simp [hp0, hle0]⟩
    simp only [Finset.mem_filter, List.mem_toFinset] at hp hmax
    by_cases hT : ∃ q ∈ ps, p.1 < q.1
    · obtain ⟨q0, hq0, hlt0⟩ := hT
      obtain ⟨q, hq, hmin⟩ := (ps.toFinset.filter (fun q => p.1 < q.1)).exists_min_image (fun p => p.1) ⟨q0, by simp [hq0, hlt0]⟩
      simp only [Finset.mem_filter, List.mem_toFinset] at hq hmin
      refine Or.inr (Or.inr ⟨p, hp.1, q, hq.1, hq.2, ?_, hp.2, ?_⟩)
      · rintro s hs ⟨h1, h2⟩
        exact absurd h2 (not_lt.mpr (hmin s ⟨hs, h1⟩))
      · by_contra hc
        exact absurd hq.2 (not_lt.mpr (hmax q ⟨hq.1, not_lt.mp hc⟩))
    · push Not at hT
      exact Or.inr (Or.inl ⟨p, hp.1, hT, hp.2⟩)
  · push Not at hS
    obtain ⟨p, hp, hmin⟩ := ps.toFinset.exists_min_image (fun p => p.1) (by
      obtain ⟨x, hx⟩ := List.exists_mem_of_ne_nil ps hne
      exact ⟨x, by simpa using hx⟩)
    rw [List.mem_toFinset] at hp
    exact Or.inl ⟨p, hp, fun q hq => hmin q (by simpa using hq), (hS p hp).le⟩

/-- A sample with the value turned around. -/
def Spec.mirror (p : ℝ × ℝ) : ℝ × ℝ := (-p.1, p.2)

theorem position_mirror {ps : List (ℝ × ℝ)} (hd : (ps.map (·.1)).Nodup) (hw : (ps.map (·.2)).sum ≠ 0) {p : ℝ × ℝ} (hp : p ∈ ps) :
    position (ps.map mirror) (mirror p) = 1 - position ps p := by
  have key : ∀ l : List (ℝ × ℝ), (l.map (·.1)).Nodup → p ∈ l →
      (((l.map mirror).filter (fun q => decide (q.1 < (mirror p).1))).map (·.2)).sum +
        ((l.filter (fun q => decide (q.1 < p.1))).map (·.2)).sum + p.2 = (l.map (·.2)).sum := by
    have none : ∀ l : List (ℝ × ℝ), p.1 ∉ l.map (·.1) →
        (((l.map mirror).filter (fun q => decide (q.1 < (mirror p).1))).map (·.2)).sum +
          ((l.filter (fun q => decide (q.1 < p.1))).map (·.2)).sum = (l.map (·.2)).sum := by
      intro l
      induction l with
      | nil => intro _; simp
      | cons q l ih =>
        intro h
        simp only [List.map_cons, List.mem_cons, not_or] at h
        have ih := ih h.2
        rcases lt_or_gt_of_ne h.1 with h1 | h1
        · have h2 : (mirror q).1 < (mirror p).1 := by simpa [mirror] using h1
          have h3 : ¬ q.1 < p.1 := not_lt.mpr h1.le
          simp only [List.map_cons, List.filter_cons, h2, h3, decide_true, decide_false, if_true, List.sum_cons, Bool.false_eq_true,
            if_false]
          rw [← ih]
          simp only [mirror]
          ring
        · have h2 : ¬ (mirror q).1 < (mirror p).1 := by simpa [mirror] using h1.le
          simp only [List.map_cons, List.filter_cons, h2, h1, decide_true, decide_false, if_true, List.sum_cons, Bool.false_eq_true,
            if_false]
          rw [← ih]
          ring
    intro l
    induction l with
    | nil => intro _ h; simp at h
    | cons q l ih =>
      intro hn hm
      rw [List.map_cons, List.nodup_cons] at hn
      by_cases hq : p = q
      · subst hq
        have := none l hn.1
        simp only [List.map_cons, List.filter_cons, lt_irrefl, decide_false, List.sum_cons, Bool.false_eq_true, if_false]
        rw [← this]
        ring
      · have hm' : p ∈ l := (List.mem_cons.mp hm).resolve_left hq
        have ih := ih hn.2 hm'
        have hne : p.1 ≠ q.1 := fun h => hn.1 (h ▸ List.mem_map_of_mem hm')
        rcases lt_or_gt_of_ne hne with h1 | h1
        · have h2 : (mirror q).1 < (mirror p).1 := by simpa [mirror] using h1
          have h3 : ¬ q.1 < p.1 := not_lt.mpr h1.le
          simp only [List.map_cons, List.filter_cons, h2, h3, decide_true, decide_false, if_true, List.sum_cons, Bool.false_eq_true,
            if_false]
          rw [← ih]
          simp only [mirror]
          ring
        · have h2 : ¬ (mirror q).1 < (mirror p).1 := by simpa [mirror] using h1.le
          simp only [List.map_cons, List.filter_cons, h2, h1, decide_true, decide_false, if_true, List.sum_cons, Bool.false_eq_true,
            if_false]
          rw [← ih]
          ring
  have hsum : ((ps.map mirror).map (·.2)).sum = (ps.map (·.2)).sum := by
    rw [List.map_map]; rfl
  unfold position
  rw [hsum, eq_sub_iff_add_eq, ← add_div, div_eq_one_iff_eq hw, ← key ps hd hp]
  simp only [mirror]
  ring

/-- C86, reflection: for distinct values the quantile at `prob` of the values with changed sign is minus the quantile at `1 - prob`. -/
theorem C86_reflection {values weights : List ℝ} (hl : values.length = weights.length) (hd : values.Nodup) (hne : values ≠ [])
    (hw : ∀ v ∈ weights, 0 < v) {prob : ℝ} (h0 : 0 < prob) (h1 : prob < 1) :
    weightedQuantile A prob (values.map (fun x => -x)) weights = (weightedQuantile A (1 - prob) values weights).map (fun q => -q) := by
  have e2 : (values.zip weights).map (·.2) = weights := List.map_snd_zip (by omega)
  have e1 : (values.zip weights).map (·.1) = values := List.map_fst_zip (by omega)
  have hne' : values.zip weights ≠ [] := by
    intro h
    rw [h] at e1
    exact hne e1.symm
  have hwne : weights ≠ [] := by
    intro h
    rw [h] at hl
    exact hne (List.length_eq_zero_iff.mp hl)
  have hpos : 0 < weights.sum := List.sum_pos _ hw hwne
  have hz : (values.map (fun x => -x)).zip weights = (values.zip weights).map mirror := by
    rw [List.zip_map_left]
    rfl
  have hd' : (values.map (fun x : ℝ => -x)).Nodup := hd.map neg_injective
  have hmp : ∀ p ∈ values.zip weights, position ((values.zip weights).map mirror) (mirror p) = 1 - position (values.zip weights) p :=
    fun p hp => position_mirror (by rw [e1]; exact hd) (by rw [e2]; exact hpos.ne') hp
  obtain ⟨a1, a2, a3⟩ := C31_exact A hl hd hw (prob := 1 - prob) (by linarith) (by linarith)
  obtain ⟨b1, b2, b3⟩ := C31_exact A (values := values.map (fun x => -x)) (by simpa using hl) hd' hw h0 h1
  rw [hz] at b1 b2 b3
  rcases position_cases hne' (1 - prob) with ⟨p, hp, h2, h3⟩ | ⟨p, hp, h2, h3⟩ | ⟨p, hp, q, hq, h2, h3, h4, h5⟩
  · rw [a1 p hp h2 h3, b2 (mirror p) (List.mem_map_of_mem hp) (by
      intro q hq
      obtain ⟨q', hq', rfl⟩ := List.mem_map.mp hq
      simpa [mirror] using h2 q' hq') (by rw [hmp p hp]; linarith)]
    rfl
  · rw [a2 p hp h2 h3, b1 (mirror p) (List.mem_map_of_mem hp) (by
      intro q hq
      obtain ⟨q', hq', rfl⟩ := List.mem_map.mp hq
      simpa [mirror] using h2 q' hq') (by rw [hmp p hp]; linarith)]
    rfl
  · rw [a3 p hp q hq h2 h3 h4 h5.le, b3 (mirror q) (List.mem_map_of_mem hq) (mirror p) (List.mem_map_of_mem hp)
      (by simpa [mirror] using h2) (by
        intro s hs
        obtain ⟨s', hs', rfl⟩ := List.mem_map.mp hs
        rintro ⟨g1, g2⟩
        exact h3 s' hs' ⟨by simpa [mirror] using g2, by simpa [mirror] using g1⟩)
      (by rw [hmp q hq]; linarith) (by rw [hmp p hp]; linarith), hmp p hp, hmp q hq]
    show Except.ok _ = Except.ok _
    congr 1
    simp only [mirror]
    have hpq : position (values.zip weights) q - position (values.zip weights) p ≠ 0 := by
      intro h; linarith
    have hpq' : (1 - position (values.zip weights) p - (1 - position (values.zip weights) q)) ≠ 0 := by
      intro h; linarith
    field_simp
    ring

/-! ### Examples -/

/-- Changing the unit of every parameter. -/
theorem affineAt_map (ts : List (List ℝ)) (a b : ℝ) (ind : Nat) : AffineAt ts (List.map (fun x => a * x + b)) ind a b := by
  intro t _
  rw [List.getElem?_map]

theorem keepsWidth_map {K : Type} (g : K → K) (ts : List (List K)) : KeepsWidth (List.map g) ts := by
  intro s _ t _
  simp

/-- A run with two threads and two parameters. -/
def celsiusRun : Run ℝ :=
  { logl := [1, 3, 4], nlive := [2, 2, 1], theta := [[10, 1], [20, 4], [30, 9]], labels := some [0, 1, 0],
    tmm := some [(⊥, 4), (⊥, 3)] }

/-- The estimates of evidence, mean and median, each with the coefficients of the change of units. -/
def fahrenheitPairs (R : Rng σ ℝ) : List (Pairing σ) :=
  [⟨Estimator.logz.call (stableSort ℝ) R, Estimator.logz.call (stableSort ℝ) R, (1, 0)⟩,
   ⟨(Estimator.paramMean 0 false).call (stableSort ℝ) R, (Estimator.paramMean 0 false).call (stableSort ℝ) R, (9 / 5, 32)⟩,
   ⟨(Estimator.paramCred (1 / 2) 1).call (stableSort ℝ) R, (Estimator.paramCred (1 / 2) 1).call (stableSort ℝ) R, (9 / 5, 32)⟩]

theorem fahrenheit_transforms (ts : List (List ℝ)) :
    ∀ p ∈ fahrenheitPairs R, Transforms ts (List.map (fun x => 9 / 5 * x + 32)) p.coeffs p.before p.after := by
  intro p hp
  simp only [fahrenheitPairs, List.mem_cons, List.not_mem_nil, or_false] at hp
  rcases hp with rfl | rfl | rfl
  · exact (C86_evidence (A := stableSort ℝ) R ts _).2.1
  · exact C86_mean (A := stableSort ℝ) R (affineAt_map ts _ _ 0) false
  · exact C86_cred R stableSort_byComparison (by norm_num) (affineAt_map ts _ _ 1) (1 / 2)

/-- Bootstrap standard deviations of evidence, mean and median after the change of units. -/
example (n : Nat) (w : World σ) {s0 s1 s2 : Option ℝ} {w' : World σ}
    (h : runStdBootstrap (stableSort ℝ) R celsiusRun none ((fahrenheitPairs R).map (·.before)) n false false none w = (.ok [s0, s1, s2], w')) :
    runStdBootstrap (stableSort ℝ) R (celsiusRun.mapTheta (List.map (fun x => 9 / 5 * x + 32))) none ((fahrenheitPairs R).map (·.after))
      n false false none w = (.ok [s0, s1.map (9 / 5 * ·), s2.map (9 / 5 * ·)], w') := by
  have := C86_std (A := stableSort ℝ) (R := R) (r := celsiusRun) (keepsWidth_map _ _) (fahrenheit_transforms (R := R) celsiusRun.theta) none n
    false false none w
  rw [this, h]
  have e : |(9 / 5 : ℝ)| = 9 / 5 := abs_of_pos (by norm_num)
  cases s0 <;> simp [fahrenheitPairs, e, Except.map]

/-- For a negative factor the quantile at the same probability is not carried over: this is why `C86_cred` needs `a > 0`. -/
theorem C86_negative_fails : weightedQuantile A (1 / 4) [1, 2] [1, 1] = .ok 1 ∧ weightedQuantile A (1 / 4) [-1, -2] [1, 1] = .ok (-2) := by
  constructor
  · exact (C31_exact A (values := [1, 2]) (weights := [1, 1]) rfl (by norm_num) (by simp) (prob := 1 / 4) (by norm_num) (by norm_num)).1
      (1, 1) (by simp) (by norm_num) (by norm_num [position, List.filter])
  · exact (C31_exact A (values := [-1, -2]) (weights := [1, 1]) rfl (by norm_num) (by simp) (prob := 1 / 4) (by norm_num) (by norm_num)).1
      (-2, 1) (by simp) (by norm_num) (by norm_num [position, List.filter])

end
end Nestcheck
