import Verif.Props.PlotData

/-! The plot of live points (C54, C69), and the simulated posterior mass of
`param_logx_diagram` (C52). -/

namespace Nestcheck
open Spec

noncomputable section
variable {σ : Type} (R : Rng σ ℝ)

/-! ### Simulated posterior mass (C52) -/

theorem relWeights_pos {lw w : List ℝ} (h : relWeights lw = .ok w) : ∀ x ∈ w, 0 < x := by
  unfold relWeights at h
  cases hm : amax lw with
  | none => rw [hm] at h; cases h
  | some m =>
    rw [hm] at h
    cases h
    intro x hx
    obtain ⟨y, -, rfl⟩ := List.mem_map.mp hx
    exact Real.exp_pos _

theorem relWeights_length {lw w : List ℝ} (h : relWeights lw = .ok w) : w.length = lw.length := by
  unfold relWeights at h
  cases hm : amax lw with
  | none => rw [hm] at h; cases h
  | some m =>
    rw [hm] at h
    cases h
    simp

/-- Without the absolute value the normalisation is the same for ascending logx. -/
theorem relPosteriorMass_ascending {x l : List ℝ} (hl : x.length = l.length) (hs : x.Pairwise (· ≤ ·)) :
    (relWeights (List.zipWith (· + ·) x l) >>= fun w => pyMap (fun y => npDiv y (trapz w x)) w) =
      relPosteriorMass x l := by
  unfold relPosteriorMass
  rw [if_neg (by simpa using hl)]
  cases hw : relWeights (List.zipWith (· + ·) x l) with
  | error e => rfl
  | ok w =>
    rw [Py.ok_bind, Py.ok_bind, abs_of_nonneg]
    have hlen : w.length = x.length := by rw [relWeights_length hw]; simp [hl]
    rw [trapz_eq hlen]
    apply trapezium_nonneg
    · have : ((x.zip w).map Prod.fst).Pairwise (· ≤ ·) := by rwa [List.map_fst_zip (by omega)]
      exact List.pairwise_map.mp this
    · intro p hp
      exact (relWeights_pos hw _ (List.of_mem_zip hp).2).le

/-- C52: the curves from which `param_logx_diagram` draws the posterior mass.  For a run of at least two samples and
positive draws a simulation returns the simulated logx in ascending order, and weights
proportional to the prior volume times the likelihood under which the area is one. -/
theorem C52_simulated {r : Run ℝ} (hr : Weighable r) (h2 : 2 ≤ r.logl.length) (w : World σ)
    (hu : ∀ u ∈ (R.uniform r.nlive.length w.rng).1, 0 < u) :
    ∃ x m : List ℝ, logxRow R r w = (.ok (x, m), { w with rng := (R.uniform r.nlive.length w.rng).2 }) ∧
      x = (positions (simulatedSteps (R.uniform r.nlive.length w.rng).1 r.nlive)).reverse ∧
      x.Pairwise (· < ·) ∧ (∃ c : ℝ, 0 < c ∧
        m = List.zipWith (fun x l => c * (Real.exp x * Real.exp l)) x r.logl.reverse) ∧
      trapezium (x.zip m) = 1 := by
  have hn : r.nlive ≠ [] := by
    intro e
    have h := hr.len
    rw [e] at h
    simp only [List.length_nil] at h
    omega
  set us := (R.uniform r.nlive.length w.rng).1 with hus
  have husl : us.length = r.nlive.length := R.uniform_length _ _
  have hneg := simulatedSteps_neg hr.pos (fun u h => ⟨hu u h, (R.uniform_range _ _ u h).2⟩)
  have hpw := (positions_pairwise hneg).1
  have hlen : (positions (simulatedSteps us r.nlive)).length = r.logl.length := by
    rw [length_positions, simulatedSteps, List.length_zipWith, husl, min_self, hr.len]
  have hasc : (positions (simulatedSteps us r.nlive)).reverse.Pairwise (· < ·) := List.pairwise_reverse.mpr hpw
  have hasc' : (positions (simulatedSteps us r.nlive)).reverse.Pairwise (· ≤ ·) := hasc.imp le_of_lt
  have hd : ∃ a ∈ (positions (simulatedSteps us r.nlive)).reverse, ∃ b ∈ (positions (simulatedSteps us r.nlive)).reverse,
      a ≠ b := by
    have h2' : 2 ≤ (positions (simulatedSteps us r.nlive)).reverse.length := by rw [List.length_reverse, hlen]; exact h2
    revert hasc h2'
    generalize (positions (simulatedSteps us r.nlive)).reverse = l
    intro hasc h2'
    rcases l with _ | ⟨a, _ | ⟨b, l⟩⟩
    · simp at h2'
    · simp at h2'
    · exact ⟨a, by simp, b, by simp, ((List.pairwise_cons.mp hasc).1 b (by simp)).ne⟩
  have hl' : (positions (simulatedSteps us r.nlive)).reverse.length = r.logl.reverse.length := by simp [hlen]
  obtain ⟨m, hm, -, hc, harea, -⟩ := C52 hl' (.inl hasc') hd
  refine ⟨_, m, ?_, rfl, hasc, hc, harea hasc'⟩
  unfold logxRow
  rw [M.bind_ok (getLogx_simulated hn hr.pos w hu)]
  rw [if_neg (by simp only [List.length_reverse, ne_eq, not_not]; exact hlen), M.lift_apply]
  congr 1
  have := relPosteriorMass_ascending hl' hasc'
  rw [hm] at this
  rw [← hus] at *
  cases hw : relWeights (List.zipWith (· + ·) (positions (simulatedSteps us r.nlive)).reverse r.logl.reverse) with
  | error e => rw [hw, Py.error_bind] at this; cases this
  | ok v =>
    rw [hw, Py.ok_bind] at this
    rw [Py.ok_bind, this]
    rfl

/-! ### plot_run_nlive: the caller's runs (C54) -/

/-- The run with the first of its logx values, if it has any, set to zero. -/
def Spec.firstZero (r : PlotRun) : PlotRun := { r with logx := r.logx.map (fun x => x.set 0 0) }

theorem firstZero_twice (r : PlotRun) : firstZero (firstZero r) = firstZero r := by
  unfold firstZero
  cases h : r.logx with
  | none => simp
  | some x =>
    simp

/-- The logx values of a run: its own, or given by a function of its likelihoods, or the
expectations from its live counts. -/
def Spec.volumesOf (given : Option (List ℝ → List ℝ)) (r : PlotRun) : List ℝ :=
  r.logx.getD (given.elim (positions (expectedSteps r.nlive)) (fun f => f r.logl))

/-- The logx values of the line drawn for a run: the first is replaced by zero. -/
def Spec.lineX (given : Option (List ℝ → List ℝ)) (r : PlotRun) : List ℝ := (volumesOf given r).set 0 0

/-- The area under the line (drawn from right to left). -/
def Spec.lineArea (given : Option (List ℝ → List ℝ)) (r : PlotRun) : ℝ :=
  -trapezium ((lineX given r).zip (r.nlive.map (fun n : Int => (n : ℝ))))

theorem lift_eq_ok {α : Type} {x : Py α} {w w' : World σ} {a : α} (h : (M.lift x : M σ α) w = (.ok a, w')) :
    x = .ok a ∧ w' = w := by
  rw [M.lift_apply, Prod.mk.injEq] at h
  exact ⟨h.1, h.2.symm⟩

theorem getLogx_false_ok {nlive : List Int} {w w' : World σ} {x : List ℝ}
    (h : getLogx R nlive false w = (.ok x, w')) : x = positions (expectedSteps nlive) ∧ w' = w := by
  by_cases h0 : nlive = []
  · subst h0; simp [getLogx, amin] at h
  · by_cases hp : ∀ n ∈ nlive, 0 < n
    · rw [getLogx_expected h0 hp] at h
      cases h
      exact ⟨rfl, rfl⟩
    · push Not at hp
      rw [getLogx_assert hp] at h
      cases h

theorem plotOneRun_inv {given : Option (List ℝ → List ℝ)} {r : PlotRun} {w w' : World σ} {y : RunLine × PlotRun}
    (h : plotOneRun R given r w = (.ok y, w')) : w' = w ∧ y.2 = firstZero r ∧ y.1.x = lineX given r ∧
      y.1.nlive = r.nlive ∧ y.1.area = lineArea given r ∧ (volumesOf given r).getLast? = some y.1.last ∧
      (volumesOf given r).length = r.nlive.length := by
  unfold plotOneRun at h
  obtain ⟨x, w1, h1, h'⟩ := M.bind_eq_ok.mp h
  clear h
  have hx : x = volumesOf given r ∧ w1 = w := by
    unfold plotLogx at h1
    unfold volumesOf
    cases hr : r.logx with
    | some x0 => rw [hr] at h1; cases h1; exact ⟨rfl, rfl⟩
    | none =>
      rw [hr] at h1
      cases given with
      | some f => cases h1; exact ⟨rfl, rfl⟩
      | none => exact getLogx_false_ok R h1
  obtain ⟨rfl, rfl⟩ := hx
  obtain ⟨last, w2, h2, h⟩ := M.bind_eq_ok.mp h'
  obtain ⟨h2, rfl⟩ := lift_eq_ok h2
  cases hl : (volumesOf given r).getLast? with
  | none => rw [hl] at h2; cases h2
  | some l =>
    rw [hl] at h2
    cases h2
    by_cases hlen : ((volumesOf given r).set 0 0).length ≠ r.nlive.length
    · rw [if_pos hlen] at h; cases h
    · rw [if_neg hlen] at h
      have hlen' : (volumesOf given r).length = r.nlive.length := by simpa using hlen
      cases h
      refine ⟨rfl, ?_, rfl, rfl, ?_, rfl, hlen'⟩
      · unfold firstZero
        cases hr : r.logx with
        | none => rfl
        | some x0 => simp [volumesOf, hr]
      · show -trapz _ _ = _
        rw [trapz_eq (by simp [hlen'])]
        rfl

theorem plotRuns_inv {given : Option (List ℝ → List ℝ)} {rs : List PlotRun} {w w' : World σ} {ys : List (RunLine × PlotRun)}
    (h : plotRuns R given rs w = (.ok ys, w')) : w' = w ∧ ys.map Prod.snd = rs.map firstZero ∧
      List.Forall₂ (fun r (y : RunLine) => y.x = lineX given r ∧ y.nlive = r.nlive ∧ y.area = lineArea given r ∧
        (volumesOf given r).getLast? = some y.last ∧ (volumesOf given r).length = r.nlive.length) rs (ys.map Prod.fst) := by
  induction rs generalizing w ys with
  | nil => cases h; exact ⟨rfl, rfl, .nil⟩
  | cons r rs ih =>
    rw [plotRuns] at h
    obtain ⟨y, w1, h1, h⟩ := M.bind_eq_ok.mp h
    obtain ⟨zs, w2, h2, h⟩ := M.bind_eq_ok.mp h
    cases h
    obtain ⟨rfl, e1, e2⟩ := plotOneRun_inv R h1
    obtain ⟨rfl, e3, e4⟩ := ih h2
    exact ⟨rfl, by rw [List.map_cons, List.map_cons, e1, e3], .cons e2 e4⟩

/-- The dictionary after the named methods have been drawn. -/
def zeroed (names : List String) (d : RunDict) : RunDict :=
  d.map (fun e => if e.1 ∈ names then (e.1, e.2.map firstZero) else e)

theorem lookup_unique {α : Type} {d : List (String × α)} (hd : (d.map Prod.fst).Nodup) {name : String} {v : α}
    (h : d.lookup name = some v) : ∀ e ∈ d, e.1 = name → e.2 = v := by
  induction d with
  | nil => simp at h
  | cons a d ih =>
    rw [List.map_cons, List.nodup_cons] at hd
    intro e he hn
    rw [List.lookup_cons] at h
    by_cases ha : name == a.1
    · rw [ha] at h
      have hva : a.2 = v := by simpa using h
      rcases List.mem_cons.mp he with rfl | he
      · exact hva
      · exfalso
        apply hd.1
        rw [← eq_of_beq ha, ← hn]
        exact List.mem_map_of_mem he
    · rw [Bool.not_eq_true] at ha
      rw [ha] at h
      rcases List.mem_cons.mp he with rfl | he
      · rw [← hn] at ha; simp at ha
      · exact ih hd.2 (by simpa using h) e he hn

theorem dictGet_ok {d : RunDict} {name : String} {rs : List PlotRun} (h : RunDict.get d name = .ok rs) :
    d.lookup name = some rs := by
  unfold RunDict.get at h
  cases hl : d.lookup name with
  | none => rw [hl] at h; cases h
  | some v => rw [hl] at h; cases h; rfl

theorem update_eq {d : RunDict} (hd : (d.map Prod.fst).Nodup) {name : String} {rs : List PlotRun}
    (h : d.lookup name = some rs) : RunDict.update d name (rs.map firstZero) = zeroed [name] d := by
  unfold RunDict.update zeroed
  apply List.map_congr_left
  intro e he
  by_cases hn : e.1 = name
  · rw [if_pos hn, if_pos (by simpa using hn), lookup_unique hd h e he hn]
  · rw [if_neg hn, if_neg (by simpa using hn)]

theorem zeroed_keys (names : List String) (d : RunDict) : (zeroed names d).map Prod.fst = d.map Prod.fst := by
  unfold zeroed
  rw [List.map_map]
  apply List.map_congr_left
  intro e _
  simp only [Function.comp_apply]
  split_ifs <;> rfl

theorem zeroed_zeroed (name : String) (names : List String) (d : RunDict) :
    zeroed names (zeroed [name] d) = zeroed (name :: names) d := by
  unfold zeroed
  rw [List.map_map]
  apply List.map_congr_left
  intro e _
  simp only [Function.comp_apply]
  by_cases h1 : e.1 = name
  · rw [if_pos (show e.1 ∈ [name] by simpa using h1), if_pos (show e.1 ∈ name :: names by simp [h1])]
    by_cases h2 : e.1 ∈ names
    · rw [if_pos h2, List.map_map]
      congr 1
      apply List.map_congr_left
      intro r _
      exact firstZero_twice r
    · rw [if_neg h2]
  · rw [if_neg (show e.1 ∉ [name] by simpa using h1)]
    by_cases h2 : e.1 ∈ names
    · rw [if_pos h2, if_pos (by simp [h2])]
    · rw [if_neg h2, if_neg (by simp [h1, h2])]

theorem plotMethods_inv {given : Option (List ℝ → List ℝ)} {names : List String} {d : RunDict}
    (hd : (d.map Prod.fst).Nodup) {w w' : World σ} {p : List (String × List RunLine) × RunDict}
    (h : plotMethods R given names d w = (.ok p, w')) : w' = w ∧ p.2 = zeroed names d := by
  induction names generalizing d w p with
  | nil =>
    cases h
    refine ⟨rfl, ?_⟩
    unfold zeroed
    simp
  | cons name names ih =>
    rw [plotMethods] at h
    obtain ⟨rs, w1, h1, h⟩ := M.bind_eq_ok.mp h
    obtain ⟨ys, w2, h2, h⟩ := M.bind_eq_ok.mp h
    obtain ⟨q, w3, h3, h⟩ := M.bind_eq_ok.mp h
    cases h
    obtain ⟨g1, rfl⟩ := lift_eq_ok h1
    obtain ⟨rfl, e1, -⟩ := plotRuns_inv R h2
    rw [e1, update_eq hd (dictGet_ok g1)] at h3
    obtain ⟨rfl, e2⟩ := ih (by rw [zeroed_keys]; exact hd) h3
    exact ⟨rfl, by rw [e2, zeroed_zeroed]⟩

variable {names : List String} {dict : RunDict} {given : Option (List ℝ → List ℝ)} {loglGivenLogx : Option (ℝ → Cell)}
  {logxMin : Option ℝ} {npoints : Nat} {massNorm cumNorm : Option String}

theorem plotRunNlive_inv {w w' : World σ} {y : NliveFigure × RunDict}
    (h : plotRunNlive R names dict given loglGivenLogx logxMin npoints massNorm cumNorm w = (.ok y, w')) :
    (∀ n, n ∈ names ↔ n ∈ dict.map Prod.fst) ∧ plotMethods R given names dict w = (.ok (y.1.lines, y.2), w') ∧
      (logxMin.or (amin (y.1.lines.flatMap (fun l => l.2.map RunLine.last)))) = some y.1.logxMin ∧
      optionalCurves (integralsDict y.1.lines) y.1.logxMin npoints loglGivenLogx massNorm cumNorm = .ok y.1.analytic := by
  unfold plotRunNlive at h
  obtain ⟨u, w1, h1, h⟩ := M.bind_eq_ok.mp h
  rw [M.assert_apply] at h1
  split_ifs at h1 with hc
  · cases h1
    obtain ⟨p, w2, h2, h⟩ := M.bind_eq_ok.mp h
    obtain ⟨lo, w3, h3, h⟩ := M.bind_eq_ok.mp h
    obtain ⟨cs, w4, h4, h⟩ := M.bind_eq_ok.mp h
    cases h
    obtain ⟨g3, rfl⟩ := lift_eq_ok h3
    obtain ⟨g4, rfl⟩ := lift_eq_ok h4
    refine ⟨?_, h2, ?_, g4⟩
    · simp only [Bool.and_eq_true, List.all_eq_true, decide_eq_true_eq] at hc
      exact fun n => ⟨hc.1 n, hc.2 n⟩
    · cases hm : (logxMin.or (amin (p.1.flatMap (fun l => l.2.map RunLine.last)))) with
      | none => rw [hm] at g3; cases g3
      | some m => rw [hm] at g3; cases g3; rfl
  · cases h1

/-- C54: a call which returns has set the first logx value of every run that has logx values to zero, and changed
nothing else: neither the random state, nor warnings, nor the runs without logx values. -/
theorem C54_effect (hd : (dict.map Prod.fst).Nodup) {w w' : World σ} {y : NliveFigure × RunDict}
    (h : plotRunNlive R names dict given loglGivenLogx logxMin npoints massNorm cumNorm w = (.ok y, w')) :
    w' = w ∧ y.2 = dict.map (fun e => (e.1, e.2.map firstZero)) := by
  obtain ⟨hn, h1, -⟩ := plotRunNlive_inv R h
  obtain ⟨rfl, h2⟩ := plotMethods_inv R hd h1
  refine ⟨rfl, ?_⟩
  rw [h2]
  unfold zeroed
  apply List.map_congr_left
  intro e he
  rw [if_pos ((hn e.1).mpr (List.mem_map_of_mem he))]

theorem map_eq_self_of {α : Type} {f : α → α} {l : List α} (h : ∀ a ∈ l, f a = a) : l.map f = l := by
  conv_rhs => rw [← List.map_id l]
  exact List.map_congr_left h

/-- C54: the runs are unchanged exactly if all logx values stored in them start with zero. -/
theorem C54_unchanged (hd : (dict.map Prod.fst).Nodup) {w w' : World σ} {y : NliveFigure × RunDict}
    (h : plotRunNlive R names dict given loglGivenLogx logxMin npoints massNorm cumNorm w = (.ok y, w')) :
    y.2 = dict ↔ ∀ e ∈ dict, ∀ r ∈ e.2, ∀ x, r.logx = some x → x.head? = some 0 ∨ x = [] := by
  rw [(C54_effect R hd h).2]
  have hz : ∀ r : PlotRun, firstZero r = r ↔ ∀ x, r.logx = some x → x.head? = some 0 ∨ x = [] := by
    intro r
    obtain ⟨l, n, x⟩ := r
    unfold firstZero
    cases x with
    | none => simp
    | some x =>
      cases x with
      | nil => simp
      | cons a x => simp [eq_comm]
  constructor
  · intro heq e he r hr x hx
    have h1 := List.map_inj_left.mp (heq.trans (List.map_id dict).symm) e he
    have h2 : e.2.map firstZero = e.2.map id := by
      rw [List.map_id]
      exact congrArg Prod.snd h1
    exact (hz r).mp (List.map_inj_left.mp h2 r hr) x hx
  · intro hall
    apply map_eq_self_of
    intro e he
    have : e.2.map firstZero = e.2 := map_eq_self_of fun r hr => (hz r).mpr (hall e he r hr)
    rw [this]

/-! ### plot_run_nlive: the lines -/

theorem lookup_zeroed {d : RunDict} {name n : String} (h : n ≠ name) : (zeroed [name] d).lookup n = d.lookup n := by
  unfold zeroed
  induction d with
  | nil => rfl
  | cons a d ih =>
    rw [List.map_cons, List.lookup_cons, List.lookup_cons, ih]
    by_cases ha : a.1 = name
    · rw [if_pos (by simpa using ha)]
      have : (n == a.1) = false := by rw [ha]; simpa using h
      simp [this]
    · rw [if_neg (by simpa using ha)]

/-- What is drawn for a run. -/
def Spec.IsLine (given : Option (List ℝ → List ℝ)) (r : PlotRun) (y : RunLine) : Prop :=
  y.x = lineX given r ∧ y.nlive = r.nlive ∧ y.area = lineArea given r ∧
    (volumesOf given r).getLast? = some y.last ∧ (volumesOf given r).length = r.nlive.length

theorem plotMethods_lines {given : Option (List ℝ → List ℝ)} {names : List String} {d : RunDict} (hnames : names.Nodup)
    (hd : (d.map Prod.fst).Nodup) {w w' : World σ} {p : List (String × List RunLine) × RunDict}
    (h : plotMethods R given names d w = (.ok p, w')) :
    List.Forall₂ (fun n (l : String × List RunLine) => l.1 = n ∧
      ∃ rs, d.lookup n = some rs ∧ List.Forall₂ (IsLine given) rs l.2) names p.1 := by
  induction names generalizing d w p with
  | nil => cases h; exact .nil
  | cons name names ih =>
    rw [plotMethods] at h
    obtain ⟨rs, w1, h1, h⟩ := M.bind_eq_ok.mp h
    obtain ⟨ys, w2, h2, h⟩ := M.bind_eq_ok.mp h
    obtain ⟨q, w3, h3, h⟩ := M.bind_eq_ok.mp h
    cases h
    obtain ⟨g1, rfl⟩ := lift_eq_ok h1
    obtain ⟨rfl, e1, e2⟩ := plotRuns_inv R h2
    rw [e1, update_eq hd (dictGet_ok g1)] at h3
    have hrec := ih (List.nodup_cons.mp hnames).2 (by rw [zeroed_keys]; exact hd) h3
    refine .cons ⟨rfl, rs, dictGet_ok g1, e2⟩ ?_
    have hmem : ∀ n ∈ names, n ≠ name := fun n hn e => (List.nodup_cons.mp hnames).1 (e ▸ hn)
    clear * - hmem hrec
    revert hrec
    generalize q.1 = ls
    intro hrec
    induction hrec with
    | nil => exact .nil
    | @cons n l ns ls hl _ ih2 =>
      refine .cons ?_ (ih2 fun m hm => hmem m (by simp [hm]))
      rw [lookup_zeroed (hmem n (by simp))] at hl
      exact hl

/-- C54: for each method (named once), in the order of the names, and each of its runs the line starts at logx zero and
otherwise shows the live counts at the logx values of the run (stored, or given by the caller's function, or the
expected ones). -/
theorem C54_lines (hnames : names.Nodup) (hd : (dict.map Prod.fst).Nodup) {w w' : World σ} {y : NliveFigure × RunDict}
    (h : plotRunNlive R names dict given loglGivenLogx logxMin npoints massNorm cumNorm w = (.ok y, w')) :
    List.Forall₂ (fun n (l : String × List RunLine) => l.1 = n ∧
      ∃ rs, dict.lookup n = some rs ∧ List.Forall₂ (IsLine given) rs l.2) names y.1.lines :=
  plotMethods_lines R hnames hd (plotRunNlive_inv R h).2.1

/-! ### When plot_run_nlive returns -/

/-- A run which can be drawn. -/
def Spec.Drawable (given : Option (List ℝ → List ℝ)) (r : PlotRun) : Prop :=
  (r.logx = none → given = none → ∀ n ∈ r.nlive, 0 < n) ∧ r.nlive ≠ [] ∧
    (volumesOf given r).length = r.nlive.length

theorem plotOneRun_ok {given : Option (List ℝ → List ℝ)} {r : PlotRun} (h : Drawable given r) (w : World σ) :
    ∃ y, plotOneRun R given r w = (.ok y, w) := by
  obtain ⟨h1, h2, h3⟩ := h
  have hx : plotLogx R given r w = (.ok (volumesOf given r), w) := by
    unfold plotLogx volumesOf
    cases hr : r.logx with
    | some x => rfl
    | none =>
      cases given with
      | some f => rfl
      | none => exact getLogx_expected h2 (h1 hr rfl) w
  unfold plotOneRun
  rw [M.bind_ok hx]
  cases hl : (volumesOf given r).getLast? with
  | none =>
    rw [List.getLast?_eq_none_iff] at hl
    rw [hl] at h3
    exact absurd (List.length_eq_zero_iff.mp h3.symm) h2
  | some l =>
    rw [M.bind_ok (a := l) (w' := w) (by rw [M.lift_apply]; rfl)]
    rw [if_neg (by simpa using h3)]
    exact ⟨_, rfl⟩

theorem plotRuns_ok {given : Option (List ℝ → List ℝ)} {rs : List PlotRun} (h : ∀ r ∈ rs, Drawable given r)
    (w : World σ) : ∃ ys, plotRuns R given rs w = (.ok ys, w) := by
  induction rs with
  | nil => exact ⟨_, rfl⟩
  | cons r rs ih =>
    obtain ⟨y, h1⟩ := plotOneRun_ok R (h r (by simp)) w
    obtain ⟨ys, h2⟩ := ih (fun r hr => h r (by simp [hr]))
    exact ⟨y :: ys, by rw [plotRuns, M.bind_ok h1, M.bind_ok h2]; rfl⟩

theorem plotMethods_ok {given : Option (List ℝ → List ℝ)} {names : List String} {d : RunDict} (hnames : names.Nodup)
    (hd : (d.map Prod.fst).Nodup)
    (h : ∀ n ∈ names, ∃ rs, d.lookup n = some rs ∧ ∀ r ∈ rs, Drawable given r) (w : World σ) :
    ∃ p, plotMethods R given names d w = (.ok p, w) := by
  induction names generalizing d with
  | nil => exact ⟨_, rfl⟩
  | cons name names ih =>
    obtain ⟨rs, h1, h2⟩ := h name (by simp)
    obtain ⟨ys, h3⟩ := plotRuns_ok R h2 w
    obtain ⟨-, e1, -⟩ := plotRuns_inv R h3
    obtain ⟨p, hp⟩ := ih (d := RunDict.update d name (ys.map Prod.snd)) (List.nodup_cons.mp hnames).2
      (by rw [e1, update_eq hd h1, zeroed_keys]; exact hd)
      (by
        intro n hn
        have hne : n ≠ name := fun e => (List.nodup_cons.mp hnames).1 (e ▸ hn)
        rw [e1, update_eq hd h1, lookup_zeroed hne]
        exact h n (by simp [hn]))
    refine ⟨((name, ys.map Prod.fst) :: p.1, p.2), ?_⟩
    rw [plotMethods, M.bind_ok (a := rs) (w' := w), M.bind_ok h3, M.bind_ok hp]
    · rfl
    · rw [M.lift_apply, RunDict.get, h1]
      rfl

theorem lookup_of_mem {α : Type} {d : List (String × α)} {n : String} (h : n ∈ d.map Prod.fst) : ∃ v, d.lookup n = some v := by
  induction d with
  | nil => simp at h
  | cons a d ih =>
    rw [List.lookup_cons]
    by_cases ha : n == a.1
    · rw [ha]; exact ⟨_, rfl⟩
    · rw [Bool.not_eq_true] at ha
      rw [ha]
      apply ih
      rcases List.mem_cons.mp h with h | h
      · rw [h] at ha; simp at ha
      · exact h

theorem lookup_mem {α : Type} {d : List (String × α)} {n : String} {v : α} (h : d.lookup n = some v) : (n, v) ∈ d := by
  induction d with
  | nil => simp at h
  | cons a d ih =>
    rw [List.lookup_cons] at h
    by_cases ha : n == a.1
    · rw [ha] at h
      have e1 := eq_of_beq ha
      have e2 : a.2 = v := by simpa using h
      rw [e1, ← e2]
      exact List.mem_cons_self
    · rw [Bool.not_eq_true] at ha
      rw [ha] at h
      exact List.mem_cons_of_mem _ (ih (by simpa using h))

/-- C54: without analytic curves the call returns if each method is named once, every run can be drawn,
and the lower limit is given or there is a run. -/
theorem C54_returns (hnames : names.Nodup) (hd : (dict.map Prod.fst).Nodup)
    (hset : ∀ n, n ∈ names ↔ n ∈ dict.map Prod.fst) (hr : ∀ e ∈ dict, ∀ r ∈ e.2, Drawable given r)
    (hlim : logxMin ≠ none ∨ ∃ e ∈ dict, e.2 ≠ []) (w : World σ) :
    ∃ y, plotRunNlive R names dict given none logxMin npoints massNorm cumNorm w = (.ok y, w) := by
  obtain ⟨p, hp⟩ := plotMethods_ok (given := given) R hnames hd (by
    intro n hn
    obtain ⟨rs, h⟩ := lookup_of_mem ((hset n).mp hn)
    exact ⟨rs, h, hr _ (lookup_mem h)⟩) w
  unfold plotRunNlive
  rw [M.bind_ok (a := ()) (w' := w), M.bind_ok hp]
  · obtain ⟨lo, hlo⟩ : ∃ lo, logxMin.or (amin (p.1.flatMap (fun l => l.2.map RunLine.last))) = some lo := by
      cases hl : logxMin with
      | some lo => exact ⟨lo, rfl⟩
      | none =>
        obtain ⟨e, he, hne⟩ : ∃ e ∈ dict, e.2 ≠ [] := by simpa [hl] using hlim
        have hlines := plotMethods_lines R hnames hd hp
        have hmem : e.1 ∈ names := (hset e.1).mpr (List.mem_map_of_mem he)
        have hmem2 : ∃ l ∈ p.1, l.2 ≠ [] := by
          clear hp hset hnames
          revert hlines
          generalize p.1 = ls
          intro hlines
          induction hlines with
          | nil => simp at hmem
          | @cons n l ns ls hl' _ ih =>
            rcases List.mem_cons.mp hmem with h | h
            · refine ⟨l, by simp, ?_⟩
              obtain ⟨-, rs, h1, h2⟩ := hl'
              rw [← h] at h1
              have := lookup_unique hd h1 e he rfl
              rw [← this] at h2
              intro e0
              rw [e0] at h2
              cases h2' : e.2 with
              | nil => exact hne h2'
              | cons => rw [h2'] at h2; cases h2
            · obtain ⟨l', hl', hne'⟩ := ih h
              exact ⟨l', by simp [hl'], hne'⟩
        obtain ⟨l, hl1, hl2⟩ := hmem2
        have : p.1.flatMap (fun l => l.2.map RunLine.last) ≠ [] := by
          intro e0
          rw [List.flatMap_eq_nil_iff] at e0
          exact hl2 (by simpa using e0 l hl1)
        rw [Option.none_or]
        cases hc : p.1.flatMap (fun l => l.2.map RunLine.last) with
        | nil => exact absurd hc this
        | cons a as => exact ⟨_, rfl⟩
    rw [M.bind_ok (a := lo) (w' := w) (by rw [M.lift_apply, hlo]; rfl)]
    exact ⟨_, rfl⟩
  · rw [M.assert_apply, if_pos]
    simp only [Bool.and_eq_true, List.all_eq_true, decide_eq_true_eq]
    exact ⟨fun n hn => (hset n).mp hn, fun n hn => (hset n).mpr hn⟩

/-! ### The analytic curves (C69) -/

/-- The average that a curve is to have as its area: over the named method if there is one of this name,
otherwise over all methods. -/
def Spec.normArea (areas : List (String × List ℝ)) (key : Option String) : ℝ :=
  Spec.average (((key.bind (fun k => areas.lookup k))).getD (areas.flatMap Prod.snd))

theorem realMean_ok {xs : List ℝ} {a : ℝ} (h : realMean xs = .ok a) : a = Spec.average xs := by
  unfold realMean npDiv at h
  split_ifs at h
  cases h
  rfl

theorem averageByKey_ok {areas : List (String × List ℝ)} {key : Option String} {a : ℝ}
    (h : averageByKey areas key = .ok a) : a = normArea areas key := by
  have hall : ∀ a, averageAll areas = .ok a → a = Spec.average (areas.flatMap Prod.snd) := by
    intro a h
    unfold averageAll at h
    split_ifs at h
    exact realMean_ok h
  unfold averageByKey at h
  unfold normArea
  cases key with
  | none => exact hall a h
  | some k =>
    simp only [] at h
    cases hk : areas.lookup k with
    | none => rw [hk] at h; simpa [hk] using hall a h
    | some xs => rw [hk] at h; simpa [hk] using realMean_ok h

theorem linspace_pairwise {a b : ℝ} (h : a < b) (n : Nat) : (linspace a b n).Pairwise (· < ·) := by
  unfold linspace
  rw [List.pairwise_map]
  rcases Nat.lt_or_ge n 2 with hn | hn
  · apply List.Pairwise.imp_of_mem _ List.pairwise_lt_range
    intro i j hi hj hij
    simp only [List.mem_range] at hi hj
    omega
  · refine List.pairwise_lt_range.imp ?_
    intro i j hij
    have h1 : (0 : ℝ) < (n : ℝ) - 1 := by
      have : (2 : ℝ) ≤ n := by exact_mod_cast hn
      linarith
    have h2 : 0 < (b - a) / ((n : ℝ) - 1) := div_pos (by linarith) h1
    have h3 : (i : ℝ) < j := by exact_mod_cast hij
    nlinarith

/-- The points at which the analytic curves are evaluated, with their likelihoods: evenly spaced between the lower limit
and zero, leaving out those where the likelihood is nan. -/
def Spec.analyticPoints (f : ℝ → Cell) (lo : ℝ) (n : Nat) : List (ℝ × ℝ) :=
  ((List.range n).map (fun i : Nat => lo + (i : ℝ) * ((0 - lo) / ((n : ℝ) - 1)))).filterMap
    (fun x => (f x).map (fun l => (x, l)))

theorem analyticPoints_pairwise {f : ℝ → Cell} {lo : ℝ} (h : lo < 0) (n : Nat) :
    ((analyticPoints f lo n).map Prod.fst).Pairwise (· < ·) := by
  have : (analyticPoints f lo n).map Prod.fst = (linspace lo 0 n).filter (fun x => (f x).isSome) := by
    unfold analyticPoints linspace
    generalize (List.range n).map (fun i : Nat => lo + (i : ℝ) * ((0 - lo) / ((n : ℝ) - 1))) = l
    induction l with
    | nil => rfl
    | cons a l ih =>
      cases hf : f a with
      | none => rw [List.filterMap_cons, List.filter_cons_of_neg (by simp [hf])]; simp [hf, ih]
      | some v => rw [List.filterMap_cons, List.filter_cons_of_pos (by simp [hf])]; simp [hf, ih]
  rw [this]
  exact (linspace_pairwise h n).filter _

theorem zip_scale (x y : List ℝ) (c : ℝ) : x.zip (y.map (· * c)) = (x.zip y).map (fun p => (p.1, c * p.2)) := by
  rw [List.zip_map_right]
  apply List.map_congr_left
  intro p _
  simp [Prod.map, mul_comm]

theorem length_cumsum (xs : List ℝ) : (cumsum xs).length = xs.length := by
  rw [cumsum_eq, length_positions]

/-- C69: for a negative lower limit, the curve of the relative posterior mass is proportional to the prior volume times the
likelihood, and the area under it is the average area under the lines of the runs (of the method named for
this, or of all).  The curve of the remaining mass is proportional to the running sums of
the former, and the same holds for the area under it. -/
theorem C69_areas {areas : List (String × List ℝ)} {lo : ℝ} {n : Nat} {f : ℝ → Cell} {k1 k2 : Option String}
    {x m c : List ℝ} (hlo : lo < 0) (h : analyticCurves areas lo n f k1 k2 = .ok (x, m, c)) :
    x = (analyticPoints f lo n).map Prod.fst ∧
    trapezium (x.zip m) = normArea areas k1 ∧ trapezium (x.zip c) = normArea areas k2 ∧
    (∃ a : ℝ, m = (analyticPoints f lo n).map (fun p => a * (Real.exp p.1 * Real.exp p.2))) ∧
    (∃ b : ℝ, c = (positions m).map (b * ·)) := by
  have hpts : (linspace lo 0 n).filterMap (fun x => (f x).map (fun l => (x, l))) = analyticPoints f lo n := rfl
  unfold analyticCurves at h
  simp only [hpts] at h
  set pts := analyticPoints f lo n with hp
  have hasc := (analyticPoints_pairwise (f := f) hlo n)
  rw [← hp] at hasc
  cases h1 : relPosteriorMass (pts.map Prod.fst) (pts.map Prod.snd) with
  | error e => rw [h1, Py.error_bind] at h; cases h
  | ok w =>
    rw [h1, Py.ok_bind] at h
    have hd : ∃ a ∈ pts.map Prod.fst, ∃ b ∈ pts.map Prod.fst, a ≠ b := by
      by_contra hc
      push Not at hc
      have hconst : ∀ y ∈ pts.map Prod.fst, y = (pts.map Prod.fst).headD 0 := by
        intro y hy
        refine hc y hy _ ?_
        cases hh : pts.map Prod.fst with
        | nil => rw [hh] at hy; simp at hy
        | cons a as => simp
      rw [C52_constant (by simp) hconst] at h1
      cases h1
    obtain ⟨w', hw', hlen, ⟨k, -, hk⟩, harea, -⟩ := C52 (by simp) (.inl (hasc.imp le_of_lt)) hd (logl := pts.map Prod.snd)
    rw [hw'] at h1
    cases h1
    have harea := harea (hasc.imp le_of_lt)
    cases h2 : averageByKey areas k1 with
    | error e => rw [h2, Py.error_bind] at h; cases h
    | ok a =>
      rw [h2, Py.ok_bind] at h
      have ha := averageByKey_ok h2
      by_cases ht : trapz (cumsum (w.map (· * a))) (pts.map Prod.fst) = 0
      · have hne : cumsum (w.map (· * a)) ≠ [] := by
          intro e
          have := congrArg List.length e
          rw [length_cumsum, List.length_map, hlen, List.length_nil] at this
          obtain ⟨a0, ha0, -⟩ := hd
          rw [List.length_eq_zero_iff.mp this] at ha0
          simp at ha0
        rw [pyMap_first_error (e := .undefined) hne (fun y _ => by rw [npDiv, if_pos ht]), Py.error_bind] at h
        cases h
      · rw [pyMap_npDiv ht, Py.ok_bind] at h
        cases h3 : averageByKey areas k2 with
        | error e => rw [h3, Py.error_bind] at h; cases h
        | ok b =>
          rw [h3, Py.ok_bind] at h
          have hb := averageByKey_ok h3
          cases h
          refine ⟨rfl, ?_, ?_, ⟨a * k, ?_⟩, ?_⟩
          · rw [zip_scale, trapezium_scale, harea, mul_one, ha]
          · rw [zip_scale, trapezium_scale, ← hb]
            rw [trapz_eq (by rw [length_cumsum, List.length_map, hlen])] at ht ⊢
            rw [show ((cumsum (w.map (· * a))).map fun x => x / trapezium ((pts.map Prod.fst).zip (cumsum (w.map (· * a))))) =
              (cumsum (w.map (· * a))).map (· * (trapezium ((pts.map Prod.fst).zip (cumsum (w.map (· * a)))))⁻¹) from by
                apply List.map_congr_left
                intro y _
                exact div_eq_mul_inv _ _,
              zip_scale, trapezium_scale, inv_mul_cancel₀ ht, mul_one]
          · rw [hk, zipWith_zip, zip_map_pair, List.map_map, List.map_map]
            apply List.map_congr_left
            intro p _
            simp only [Function.comp_apply]
            ring
          · refine ⟨(trapz (cumsum (w.map (· * a))) (pts.map Prod.fst))⁻¹ * b, ?_⟩
            rw [← cumsum_eq, List.map_map]
            apply List.map_congr_left
            intro y _
            simp only [Function.comp_apply]
            rw [div_eq_inv_mul]
            ring

theorem integralsDict_nodup {lines : List (String × List RunLine)} (h : (lines.map Prod.fst).Nodup) :
    integralsDict lines = lines.map (fun l => (l.1, l.2.map RunLine.area)) := by
  unfold integralsDict
  have key : ∀ (ls : List (String × List RunLine)) (d : List (String × List ℝ)),
      (d.map Prod.fst ++ ls.map Prod.fst).Nodup →
      ls.foldl (fun d l =>
        let v := l.2.map RunLine.area
        if d.any (fun e => decide (e.1 = l.1)) then d.map (fun e => if e.1 = l.1 then (e.1, v) else e)
        else d ++ [(l.1, v)]) d = d ++ ls.map (fun l => (l.1, l.2.map RunLine.area)) := by
    intro ls
    induction ls with
    | nil => intro d _; simp
    | cons l ls ih =>
      intro d hn
      rw [List.foldl_cons]
      have hany : d.any (fun e => decide (e.1 = l.1)) = false := by
        rw [List.any_eq_false]
        intro e he hc
        rw [decide_eq_true_iff] at hc
        rw [List.nodup_append] at hn
        exact hn.2.2 e.1 (List.mem_map_of_mem he) l.1 (by simp) hc
      simp only [hany, Bool.false_eq_true, if_false]
      rw [ih _ (by simpa using hn)]
      simp
  simpa using key lines [] (by simpa using h)

theorem areas_of_lines {rs : List PlotRun} {ls : List RunLine} (h : List.Forall₂ (IsLine given) rs ls) :
    ls.map RunLine.area = rs.map (lineArea given) := by
  induction h with
  | nil => rfl
  | cons hy _ ih => rw [List.map_cons, List.map_cons, ih, hy.2.2.1]

/-- C69: in a figure with analytic curves and a negative lower limit, the areas under the two curves are the
averages of the areas under the lines of the runs. -/
theorem C69_figure {f : ℝ → Cell} (hnames : names.Nodup) (hd : (dict.map Prod.fst).Nodup) {w w' : World σ}
    {y : NliveFigure × RunDict}
    (h : plotRunNlive R names dict given (some f) logxMin npoints massNorm cumNorm w = (.ok y, w'))
    (hlo : y.1.logxMin < 0) :
    ∃ x m c, y.1.analytic = some (x, m, c) ∧ x = (analyticPoints f y.1.logxMin npoints).map Prod.fst ∧
      trapezium (x.zip m) = normArea (names.map (fun n => (n, ((dict.lookup n).getD []).map (lineArea given)))) massNorm ∧
      trapezium (x.zip c) = normArea (names.map (fun n => (n, ((dict.lookup n).getD []).map (lineArea given)))) cumNorm := by
  have hlines := C54_lines R hnames hd h
  obtain ⟨-, -, -, hc⟩ := plotRunNlive_inv R h
  have hareas : integralsDict y.1.lines = names.map (fun n => (n, ((dict.lookup n).getD []).map (lineArea given))) := by
    rw [integralsDict_nodup]
    · clear hnames h hc
      revert hlines
      generalize y.1.lines = ls
      intro hlines
      induction hlines with
      | nil => rfl
      | cons hl _ ih =>
        obtain ⟨h1, rs, h2, h3⟩ := hl
        rw [List.map_cons, List.map_cons, ih, h1, h2]
        congr 2
        rw [Option.getD_some]
        exact areas_of_lines h3
    · have : y.1.lines.map Prod.fst = names := by
        clear hnames h hc
        revert hlines
        generalize y.1.lines = ls
        intro hlines
        induction hlines with
        | nil => rfl
        | cons hl _ ih => rw [List.map_cons, ih, hl.1]
      rw [this]
      exact hnames
  rw [hareas] at hc
  unfold optionalCurves at hc
  simp only [] at hc
  cases hcs : analyticCurves (names.map (fun n => (n, ((dict.lookup n).getD []).map (lineArea given)))) y.1.logxMin npoints f
      massNorm cumNorm with
  | error e => rw [hcs] at hc; cases hc
  | ok cs =>
    rw [hcs] at hc
    obtain ⟨x, m, c⟩ := cs
    obtain ⟨h1, h2, h3, -⟩ := C69_areas hlo hcs
    have : y.1.analytic = some (x, m, c) := by
      have hc' : (Except.ok (some (x, m, c)) : Py _) = .ok y.1.analytic := hc
      cases hc'' : y.1.analytic with
      | none => rw [hc''] at hc'; cases hc'
      | some v => rw [hc''] at hc'; cases hc'; rfl
    exact ⟨x, m, c, this, h1, h2, h3⟩

/-! ### When the analytic curves exist -/

theorem averageByKey_returns {areas : List (String × List ℝ)} {key : Option String}
    (h : (key.bind (fun k => areas.lookup k)).getD (areas.flatMap Prod.snd) ≠ []) :
    averageByKey areas key = .ok (normArea areas key) := by
  have hmean : ∀ xs : List ℝ, xs ≠ [] → realMean xs = .ok (Spec.average xs) := by
    intro xs hx
    exact npDiv_ok (by simpa using hx)
  have hall : areas.flatMap Prod.snd ≠ [] → averageAll areas = .ok (Spec.average (areas.flatMap Prod.snd)) := by
    intro hx
    unfold averageAll
    rw [if_neg, hmean _ hx]
    intro e
    rw [List.isEmpty_iff] at e
    rw [e] at hx
    simp at hx
  unfold averageByKey normArea
  cases key with
  | none => exact hall h
  | some k =>
    simp only [Option.bind_some] at h ⊢
    cases hk : areas.lookup k with
    | none => rw [hk] at h; exact hall h
    | some xs => rw [hk] at h; exact hmean xs h

theorem positions_pos {xs : List ℝ} (h : ∀ x ∈ xs, 0 < x) : ∀ y ∈ positions xs, 0 < y := by
  intro y hy
  unfold positions at hy
  obtain ⟨i, hi, rfl⟩ := List.mem_map.mp hy
  rw [List.mem_range] at hi
  cases xs with
  | nil => simp at hi
  | cons a xs =>
    rw [List.take_succ_cons, List.sum_cons]
    have h1 := h a (by simp)
    have h2 : 0 ≤ (xs.take i).sum := List.sum_nonneg fun x hx => (h x (by simp [List.mem_of_mem_take hx])).le
    linarith

/-- C69: the curves exist if the lower limit is negative, the likelihood is a number at two points at least, both
averages are over at least one run, and the first is positive. -/
theorem C69_returns {areas : List (String × List ℝ)} {lo : ℝ} {n : Nat} {f : ℝ → Cell} {k1 k2 : Option String}
    (hlo : lo < 0) (h2 : 2 ≤ (analyticPoints f lo n).length)
    (hk1 : (k1.bind (fun k => areas.lookup k)).getD (areas.flatMap Prod.snd) ≠ [])
    (hk2 : (k2.bind (fun k => areas.lookup k)).getD (areas.flatMap Prod.snd) ≠ [])
    (hpos : 0 < normArea areas k1) : ∃ x m c, analyticCurves areas lo n f k1 k2 = .ok (x, m, c) := by
  have hpts : (linspace lo 0 n).filterMap (fun x => (f x).map (fun l => (x, l))) = analyticPoints f lo n := rfl
  unfold analyticCurves
  simp only [hpts]
  have hasc := analyticPoints_pairwise (f := f) hlo n
  revert hasc h2
  generalize analyticPoints f lo n = pts
  intro h2 hasc
  have hd : ∃ a ∈ pts.map Prod.fst, ∃ b ∈ pts.map Prod.fst, a ≠ b := by
    rcases pts with _ | ⟨p, _ | ⟨q, l⟩⟩
    · simp at h2
    · simp at h2
    · refine ⟨p.1, by simp, q.1, by simp, ?_⟩
      rw [List.map_cons, List.pairwise_cons] at hasc
      exact (hasc.1 q.1 (by simp)).ne
  obtain ⟨w, hw, hlen, ⟨k, hk0, hk⟩, -⟩ := C52 (by simp) (.inl (hasc.imp le_of_lt)) hd (logl := pts.map Prod.snd)
  rw [hw, Py.ok_bind, averageByKey_returns hk1, Py.ok_bind]
  have hwpos : ∀ y ∈ w.map (· * normArea areas k1), 0 < y := by
    intro y hy
    obtain ⟨z, hz, rfl⟩ := List.mem_map.mp hy
    rw [hk, zipWith_zip] at hz
    obtain ⟨p, -, rfl⟩ := List.mem_map.mp hz
    exact mul_pos (mul_pos hk0 (mul_pos (Real.exp_pos _) (Real.exp_pos _))) hpos
  have ht : trapz (cumsum (w.map (· * normArea areas k1))) (pts.map Prod.fst) ≠ 0 := by
    have hlen' : (cumsum (w.map (· * normArea areas k1))).length = (pts.map Prod.fst).length := by
      rw [length_cumsum, List.length_map, hlen]
    rw [trapz_eq hlen']
    apply ne_of_gt
    have hfst := List.map_fst_zip (l₁ := pts.map Prod.fst) (l₂ := cumsum (w.map (· * normArea areas k1))) (by omega)
    apply trapezium_pos
    · rw [← hfst, List.pairwise_map] at hasc
      exact hasc.imp le_of_lt
    · intro p hp
      have := (List.of_mem_zip hp).2
      rw [cumsum_eq] at this
      exact positions_pos hwpos _ this
    · obtain ⟨a, ha, b, hb, hab⟩ := hd
      rw [← hfst] at ha hb
      obtain ⟨p, hp, rfl⟩ := List.mem_map.mp ha
      obtain ⟨q, hq, rfl⟩ := List.mem_map.mp hb
      exact ⟨p, hp, q, hq, hab⟩
  rw [pyMap_npDiv ht, Py.ok_bind, averageByKey_returns hk2, Py.ok_bind]
  exact ⟨_, _, _, rfl⟩

/-! ### Examples -/

/-- One method with a run that has no logx values and one which has. -/
def exDict : RunDict := [("standard", [⟨[1, 2], [2, 1], none⟩, ⟨[3, 4, 5], [2, 2, 1], some [-1, -2, -4]⟩])]

/-- The call returns, and has changed the second run. -/
theorem exDict_changed (w : World σ) : ∃ y, plotRunNlive R ["standard"] exDict none none none 100 none none w = (.ok y, w) ∧
    y.2 = [("standard", [⟨[1, 2], [2, 1], none⟩, ⟨[3, 4, 5], [2, 2, 1], some [0, -2, -4]⟩])] ∧ y.2 ≠ exDict := by
  have hd : (exDict.map Prod.fst).Nodup := by simp [exDict]
  obtain ⟨y, hy⟩ := C54_returns R (given := none) (logxMin := none) (npoints := 100) (massNorm := none) (cumNorm := none)
    (names := ["standard"]) (dict := exDict) (by simp) hd (by simp [exDict])
    (by
      intro e he r hr
      simp only [exDict, List.mem_singleton] at he
      subst he
      simp only [List.mem_cons, List.not_mem_nil, or_false] at hr
      rcases hr with rfl | rfl
      · exact ⟨by simp, by simp, by simp [volumesOf, positions, expectedSteps]⟩
      · exact ⟨by simp, by simp, by simp [volumesOf]⟩)
    (.inr ⟨_, by simp [exDict]; rfl, by simp⟩) w
  have h2 := (C54_effect R hd hy).2
  refine ⟨y, hy, ?_, ?_⟩
  · rw [h2]
    simp [exDict, firstZero]
  · rw [Ne, C54_unchanged R hd hy]
    simp [exDict]

example : trapezium ((lineX none ⟨[3, 4, 5], [2, 2, 1], some [-1, -2, -4]⟩).zip [2, 2, 1]) = -7 := by
  simp [lineX, volumesOf, trapezium]
  norm_num

example : ∃ x m c, analyticCurves [("standard", [5, 7]), ("dynamic", [4])] (-2) 3 (fun x => some (-x)) (some "dynamic") none =
    .ok (x, m, c) ∧ x = [-2, -1, 0] ∧ trapezium (x.zip m) = 4 ∧ trapezium (x.zip c) = 16 / 3 := by
  obtain ⟨x, m, c, h⟩ := C69_returns (areas := [("standard", [5, 7]), ("dynamic", [4])]) (lo := -2) (n := 3)
    (f := fun x => some (-x)) (k1 := some "dynamic") (k2 := none) (by norm_num) (by simp [analyticPoints])
    (by simp [List.lookup]) (by simp) (by simp [normArea, Spec.average, List.lookup])
  obtain ⟨h1, h2, h3, -⟩ := C69_areas (by norm_num) h
  refine ⟨x, m, c, h, ?_, ?_, ?_⟩
  · rw [h1]
    simp [analyticPoints, List.range_succ]
    norm_num
  · rw [h2]
    simp [normArea, Spec.average, List.lookup]
  · rw [h3]
    simp [normArea, Spec.average]
    norm_num

end
end Nestcheck
