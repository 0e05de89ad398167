import Verif.Props.PlotRng

/-! What `plot_bs_dists`, `bs_param_dists` and `param_logx_diagram` draw (C70), and
when they succeed. -/

namespace Nestcheck
open Spec

noncomputable section
variable {σ : Type} (A : Argsort ℝ) (R : Rng σ ℝ)

/-- A replication of a run: the samples of as many threads as the run has, drawn from its threads, in ascending order. -/
structure Spec.Replication (r : Run ℝ) (labels : List Int) (n : Nat) (run : Run ℝ) : Prop where
  drawn : ∃ inds : List Nat, inds.length = n ∧ (∀ i ∈ inds, i < n) ∧
    (run.logl.zip run.theta).Perm (samplesOf r labels inds)
  sorted : run.logl.Pairwise (· ≤ ·)
  theta_len : run.theta.length = run.logl.length
  weighable : Weighable run

/-- The relative weights of the samples of a run: proportional to prior volume (for the
expected shrinkage) times likelihood, the largest being one. -/
def Spec.RelativeWeights (run : Run ℝ) (ws : List ℝ) : Prop :=
  (∀ v ∈ ws, 0 < v ∧ v ≤ 1) ∧ 1 ∈ ws ∧ ∃ c : ℝ, 0 < c ∧
    ws = (List.zipWith (fun v l => v * Real.exp l) (priorVolumes false [] run.nlive) run.logl).map (· * c)

theorem priorVolumes_false (us us' : List ℝ) (nlive : List Int) :
    priorVolumes false us nlive = priorVolumes false us' nlive := rfl

theorem getWRel_false {run : Run ℝ} (h : Weighable run) (w : World σ) :
    ∃ ws, getWRel R run false w = (.ok ws, w) ∧ RelativeWeights run ws := by
  obtain ⟨ws, h1, h2, h3, c, hc, h4⟩ := C28_rel_weights R h false w (by simp)
  refine ⟨ws, by rw [h1]; rfl, h2, h3, c, hc, ?_⟩
  rw [h4, priorVolumes_false _ []]

theorem weighable_of {run : Run ℝ} (h1 : run.nlive.length = run.logl.length) (h2 : ∀ n ∈ run.nlive, 0 < n)
    (h3 : run.nlive.getLast? = some 1) : Weighable run := by
  refine ⟨?_, h2, h1⟩
  intro e
  rw [e, List.length_nil, List.length_eq_zero_iff] at h1
  rw [h1] at h3
  cases h3

theorem bsSamps_inv {r : Run ℝ} {labels : List Int} {tmm : List (WithBot ℝ × ℝ)} (h : ValidWith r labels tmm)
    {settings : Option Settings} {ts : List (Run ℝ)} (hts : ∀ w : World σ, getRunThreads r w = (.ok ts, w)) {n : Nat}
    {w w' : World σ} {bs : List (List (List ℝ) × List ℝ)} (hb : bsSamps A R r settings ts n w = (.ok bs, w')) :
    ∃ reps : List (Run ℝ × List ℝ), reps.length = n ∧ bs = reps.map (fun p => (p.1.theta, p.2)) ∧
      ∀ p ∈ reps, Replication r labels tmm.length p.1 ∧ RelativeWeights p.1 p.2 := by
  induction n generalizing w w' bs with
  | zero => cases hb; exact ⟨[], rfl, rfl, by simp⟩
  | succ n ih =>
    rw [bsSamps] at hb
    obtain ⟨⟨run, st⟩, w1, h1, hb1⟩ := M.bind_eq_ok.mp hb
    obtain ⟨ws, w2, h2, hb2⟩ := M.bind_eq_ok.mp hb1
    obtain ⟨rest, w3, h3, hb3⟩ := M.bind_eq_ok.mp hb2
    clear hb hb1 hb2
    rw [C34_threads R hts] at h1
    obtain ⟨-, inds, hd, hp, hs, hl1, hl2, hpos, hlast, -⟩ := C34_bootstrap R h h1
    have hw := weighable_of hl2 hpos hlast
    obtain ⟨ws', e, hws⟩ := getWRel_false R hw w1
    rw [e] at h2
    cases h2
    obtain ⟨reps, hn, e', hr⟩ := ih h3
    cases hb3
    refine ⟨(run, ws) :: reps, by simp [hn], by simp [e'], ?_⟩
    intro p hp'
    rcases List.mem_cons.mp hp' with rfl | hp'
    · exact ⟨⟨⟨inds, hd.count, hd.range, hp⟩, hs, hl1, hw⟩, hws⟩
    · exact hr p hp'

/-- The mean of the values under the weights, nan if one of the values is. -/
def Spec.MeanCell (ws : List ℝ) (v : List Cell) (m : Cell) : Prop :=
  (none ∈ v → m = none) ∧ ∀ x : List ℝ, v = x.map some → m = some ((List.zipWith (· * ·) ws x).sum / ws.sum)

theorem fthetaValues_ok {f : FTheta} {theta : List (List ℝ)} {v : List Cell} (h : fthetaValues f theta = .ok v) :
    f theta = .ok v ∧ v.length = theta.length := by
  unfold fthetaValues at h
  cases hv : f theta with
  | error e => rw [hv] at h; cases h
  | ok v' =>
    rw [hv, Py.ok_bind] at h
    split at h
    · cases h
    · rename_i hl
      cases h
      exact ⟨rfl, not_not.mp hl⟩

theorem zipWith_div_sum (ws x : List ℝ) (t : ℝ) :
    (List.zipWith (· * ·) (ws.map (· / t)) x).sum = (List.zipWith (· * ·) ws x).sum / t := by
  induction ws generalizing x with
  | nil => simp
  | cons a ws ih =>
    cases x with
    | nil => simp
    | cons b x =>
      simp only [List.map_cons, List.zipWith_cons_cons, List.sum_cons, ih]
      ring

theorem fthetaMean_inv {ws : List ℝ} {theta : List (List ℝ)} {f : FTheta} {m : Cell}
    (h : fthetaMean (ws.map (· / ws.sum)) theta f = .ok m) :
    ∃ v, f theta = .ok v ∧ v.length = theta.length ∧ MeanCell ws v m := by
  unfold fthetaMean at h
  cases hv : fthetaValues f theta with
  | error e => rw [hv] at h; cases h
  | ok v =>
    rw [hv, Py.ok_bind] at h
    obtain ⟨h1, h2⟩ := fthetaValues_ok hv
    refine ⟨v, h1, h2, ?_⟩
    cases hn : noNan v with
    | none =>
      rw [hn] at h
      cases h
      refine ⟨fun _ => rfl, fun x hx => ?_⟩
      rw [hx, noNan_map_some] at hn
      cases hn
    | some x =>
      rw [hn] at h
      rw [noNan_eq_some] at hn
      refine ⟨fun hm => ?_, fun x' hx' => ?_⟩
      · rw [hn] at hm
        simp at hm
      · have hxx : x' = x := by
          rw [hn] at hx'
          exact (List.map_injective_iff.mpr (Option.some_injective ℝ) hx').symm
        rw [hxx]
        simp only [dot] at h
        split at h
        · cases h
        · cases h
          rw [zipWith_div_sum]

/-- The values of a function can be plotted: there is one for each sample. -/
def Spec.Plottable (f : FTheta) : Prop := ∀ theta, ∃ v, f theta = .ok v ∧ v.length = theta.length

theorem Spec.RelativeWeights.length {run : Run ℝ} {ws : List ℝ} (h : RelativeWeights run ws) (hw : Weighable run) :
    ws.length = run.logl.length := by
  obtain ⟨-, -, c, -, e⟩ := h
  have := (priorVolumes_spec hw.nlive_ne hw.pos false [] (by simp)).1
  rw [e, List.length_map, List.length_zipWith, this, hw.len]
  simp

theorem Spec.RelativeWeights.sum_pos {run : Run ℝ} {ws : List ℝ} (h : RelativeWeights run ws) : 0 < ws.sum := by
  have := sum_pos_of_mem (l := ws) (f := id) (fun a ha => (h.1 a ha).1.le) h.2.1 one_pos
  simpa using this

theorem fthetaMeans_inv {r : Run ℝ} (hr : Weighable r) {fs : List FTheta} {w w' : World σ} {ms : List Cell}
    (h : fthetaMeans R r fs w = (.ok ms, w')) :
    ∃ ws, RelativeWeights r ws ∧
      List.Forall₂ (fun f m => ∃ v, f r.theta = .ok v ∧ v.length = r.theta.length ∧ MeanCell ws v m) fs ms := by
  unfold fthetaMeans at h
  obtain ⟨ws, e, hws⟩ := getWRel_false R hr w
  rw [M.bind_ok e, pyMap_npDiv hws.sum_pos.ne'] at h
  obtain ⟨ws', w1, h1, h⟩ := M.bind_eq_ok.mp h
  cases h1
  obtain ⟨h, -⟩ := lift_eq_ok h
  exact ⟨ws, hws, (pyMap_forall₂ h).imp fun f m hf => fthetaMean_inv hf⟩

section
variable {r : Run ℝ} {labels : List Int} {tmm : List (WithBot ℝ × ℝ)} {settings : Option Settings} {fs : List FTheta}
  {nAxes nLims nSim : Nat} {mean : Bool}

theorem plotBsDists_inv {w w' : World σ} {y : List (List (List Cell)) × List Cell}
    (hb : plotBsDists A R r settings fs nAxes nLims nSim mean w = (.ok y, w')) :
    fs ≠ [] ∧ fs.length = nAxes ∧ fs.length = nLims ∧ ∃ ts bs w1 w2 w3,
      getRunThreads r w = (.ok ts, w1) ∧ bsSamps A R r settings ts nSim w1 = (.ok bs, w2) ∧
      pyMap (bsArray bs) fs = .ok y.1 ∧ (if mean then fthetaMeans R r fs else pure []) w2 = (.ok y.2, w3) := by
  unfold plotBsDists at hb
  obtain ⟨_, w1, h1, hb1⟩ := M.bind_eq_ok.mp hb
  obtain ⟨_, w2, h2, hb2⟩ := M.bind_eq_ok.mp hb1
  obtain ⟨ts, w3, h3, hb3⟩ := M.bind_eq_ok.mp hb2
  obtain ⟨bs, w4, h4, hb4⟩ := M.bind_eq_ok.mp hb3
  obtain ⟨arr, w5, h5, hb5⟩ := M.bind_eq_ok.mp hb4
  obtain ⟨ms, w6, h6, hb6⟩ := M.bind_eq_ok.mp hb5
  clear hb hb1 hb2 hb3 hb4 hb5
  rw [M.assert_apply] at h1 h2
  obtain ⟨g5, e5⟩ := lift_eq_ok h5
  rw [e5] at h6
  have g1 : fs.length = nAxes ∧ w1 = w := by
    by_cases g : fs.length = nAxes
    · simp [g] at h1; exact ⟨g, h1.symm⟩
    · simp [g] at h1
  have g2 : fs.length = nLims ∧ w2 = w1 := by
    by_cases g : fs.length = nLims
    · simp [g] at h2; exact ⟨g, h2.symm⟩
    · simp [g] at h2
  rw [g2.2, g1.2] at h3
  by_cases hf : fs.isEmpty = true
  · rw [if_pos hf] at hb6; cases hb6
  · rw [if_neg hf] at hb6
    cases hb6
    exact ⟨by simpa using hf, g1.1, g2.1, ts, bs, _, _, _, h3, h4, g5, h6⟩

/-- C70: what `plot_bs_dists` draws.  There are `n_simulate` replications of the run, the same for all functions;
for a function without nan values the row of a replication holds the values of
the function at the samples of the replication together with the relative weights of
these samples. -/
theorem C70_rows (h : ValidWith r labels tmm) {w w' : World σ} {y : List (List (List Cell)) × List Cell}
    (hb : plotBsDists A R r settings fs nAxes nLims nSim mean w = (.ok y, w')) :
    ∃ reps : List (Run ℝ × List ℝ), reps.length = nSim ∧
      (∀ p ∈ reps, Replication r labels tmm.length p.1 ∧ RelativeWeights p.1 p.2) ∧
      List.Forall₂ (fun (f : FTheta) rows => (∀ p ∈ reps, ∀ v, f p.1.theta = .ok v → none ∉ v) →
        List.Forall₂ (fun p row => ∃ v : List ℝ, f p.1.theta = .ok (v.map some) ∧
          ∀ (α β : Type) (func : α → List ℝ → List ℝ → β) (x : α), alternateHelper func x row = func x v p.2)
          reps rows) fs y.1 := by
  obtain ⟨-, -, -, ts, bs, w1, w2, w3, h1, h2, h3, -⟩ := plotBsDists_inv A R hb
  have hts : ∀ w : World σ, getRunThreads r w = (.ok ts, w) := by
    intro w0
    rw [getRunThreads_ok h] at h1 ⊢
    cases h1
    rfl
  obtain ⟨reps, hn, e, hr⟩ := bsSamps_inv A R h hts h2
  refine ⟨reps, hn, hr, (pyMap_forall₂ h3).imp fun f rows hf hnan => ?_⟩
  have := C51_rows hf (by
    rw [e]
    intro b hb' v hv
    obtain ⟨p, hp, rfl⟩ := List.mem_map.mp hb'
    exact hnan p hp v hv)
  rw [e, List.forall₂_map_left_iff] at this
  exact this

/-- C70: the means drawn are the means of the functions over the samples of the run itself, weighted by
their relative weights. -/
theorem C70_means (hr : Weighable r) {w w' : World σ} {y : List (List (List Cell)) × List Cell}
    (hb : plotBsDists A R r settings fs nAxes nLims nSim true w = (.ok y, w')) :
    ∃ ws, RelativeWeights r ws ∧
      List.Forall₂ (fun f m => ∃ v, f r.theta = .ok v ∧ v.length = r.theta.length ∧ MeanCell ws v m) fs y.2 := by
  obtain ⟨-, -, -, ts, bs, w1, w2, w3, -, -, -, h6⟩ := plotBsDists_inv A R hb
  exact fthetaMeans_inv R hr h6

theorem bsSamps_ok (h : ProperThreads r labels tmm) (hs : ∀ p ∈ tmm, p.1 = ⊥) {ts : List (Run ℝ)}
    (hts : ∀ w : World σ, getRunThreads r w = (.ok ts, w)) (n : Nat) (w : World σ) :
    ∃ bs w', bsSamps A R r settings ts n w = (.ok bs, w') ∧ w'.warns = w.warns := by
  induction n generalizing w with
  | zero => exact ⟨[], w, rfl, rfl⟩
  | succ n ih =>
    obtain ⟨run, w1, h1, hw1, h2, h3, h4⟩ := C36_static R (A := A) h hs (settings := settings) (sep := false)
      (by simp [separately]) .keep w
    obtain ⟨ws, e, -⟩ := getWRel_false R (weighable_of h2 h3 h4) w1
    obtain ⟨bs, w2, h5, hw2⟩ := ih w1
    refine ⟨(run.theta, ws) :: bs, w2, ?_, ?_⟩
    · rw [bsSamps, C34_threads R hts, M.bind_ok h1, M.bind_ok e, M.bind_ok h5]
      rfl
    · rw [hw2, hw1]; simp

theorem bsArray_ok {reps : List (Run ℝ × List ℝ)} (hne : reps ≠ [])
    (hr : ∀ p ∈ reps, Replication r labels n p.1 ∧ RelativeWeights p.1 p.2) {f : FTheta} (hf : Plottable f) :
    ∃ rows, bsArray (reps.map (fun p => (p.1.theta, p.2))) f = .ok rows := by
  unfold bsArray
  cases hm : amax ((reps.map (fun p => (p.1.theta, p.2))).map (fun b => b.1.length)) with
  | none =>
    cases reps with
    | nil => exact absurd rfl hne
    | cons p reps => simp [amax] at hm
  | some m =>
    choose v hv hl using hf
    refine ⟨_, pyMap_ok (g := fun b => packRow (2 * m) (v b.1) (b.2.map some)) ?_⟩
    intro b hb
    obtain ⟨p, hp, rfl⟩ := List.mem_map.mp hb
    obtain ⟨h1, h2⟩ := hr p hp
    unfold bsRow fthetaValues
    rw [hv, Py.ok_bind, if_neg (by simpa using hl _)]
    change (if p.2.length ≠ p.1.theta.length then (.error .value : Py (List Cell)) else _) = _
    rw [if_neg (by rw [h2.length h1.weighable, h1.theta_len]; simp)]
    rfl

theorem fthetaMeans_ok (hr : Weighable r) (ht : r.theta.length = r.logl.length) (hf : ∀ f ∈ fs, Plottable f)
    (w : World σ) : ∃ ms, fthetaMeans R r fs w = (.ok ms, w) := by
  obtain ⟨ws, e, hws⟩ := getWRel_false R hr w
  have key : ∀ f ∈ fs, ∃ m, fthetaMean (ws.map (· / ws.sum)) r.theta f = .ok m := by
    intro f hf'
    obtain ⟨v, hv, hl⟩ := hf f hf' r.theta
    unfold fthetaMean fthetaValues
    rw [hv, Py.ok_bind, if_neg (by simpa using hl)]
    change ∃ m, (match noNan v with
      | none => (pure none : Py Cell)
      | some v => dot (ws.map (· / ws.sum)) v >>= fun m => pure (some m)) = .ok m
    cases hn : noNan v with
    | none => exact ⟨none, rfl⟩
    | some x =>
      refine ⟨some (List.zipWith (· * ·) (ws.map (· / ws.sum)) x).sum, ?_⟩
      simp only [dot]
      rw [if_neg]
      · rfl
      · rw [noNan_eq_some] at hn
        rw [hn, List.length_map] at hl
        rw [List.length_map, hws.length hr, hl, ht]; simp
  choose! g hg using key
  refine ⟨fs.map g, ?_⟩
  unfold fthetaMeans
  rw [M.bind_ok e, pyMap_npDiv hws.sum_pos.ne', M.bind_ok (M.lift_apply _ _), M.lift_apply, pyMap_ok hg]

/-- C70: for a static run (all threads start from the whole prior and are strictly ascending) with positive live
counts, functions that give one value for each sample, and at least one replication, `plot_bs_dists` always succeeds,
without a warning. -/
theorem C70_returns (h : ProperThreads r labels tmm) (hs : ∀ p ∈ tmm, p.1 = ⊥) (hpos : ∀ n ∈ r.nlive, 0 < n)
    (hfs : fs ≠ []) (hf : ∀ f ∈ fs, Plottable f) (hn : 0 < nSim) (mean : Bool) (w : World σ) :
    ∃ y w', plotBsDists A R r settings fs fs.length fs.length nSim mean w = (.ok y, w') ∧ w'.warns = w.warns := by
  have hlne : r.logl ≠ [] := by
    intro e
    have h1 := h.labels_len
    obtain ⟨p, hp, -⟩ := h.init
    have h2 := (h.labels_range 0).mpr ⟨le_refl _, by exact_mod_cast List.length_pos_of_mem hp⟩
    rw [e, List.length_nil, List.length_eq_zero_iff] at h1
    rw [h1] at h2
    cases h2
  have hr : Weighable r := ⟨hlne, hpos, h.nlive_len⟩
  have hts := fun w : World σ => getRunThreads_ok (σ := σ) h.toValidWith w
  obtain ⟨bs, w1, h1, hw1⟩ := bsSamps_ok A R (settings := settings) h hs hts nSim w
  obtain ⟨reps, hl, e, hrep⟩ := bsSamps_inv A R h.toValidWith hts h1
  have hne : reps ≠ [] := by intro e'; rw [e'] at hl; simp at hl; omega
  have key : ∀ f ∈ fs, ∃ rows, bsArray bs f = .ok rows := fun f hf' => by
    rw [e]; exact bsArray_ok hne hrep (hf f hf')
  choose! g hg using key
  obtain ⟨ms, hms⟩ := fthetaMeans_ok R hr h.theta_len hf w1
  have hms' : ∃ ms, (if mean then fthetaMeans R r fs else pure []) w1 = (.ok ms, w1) := by
    cases mean with
    | true => exact ⟨ms, hms⟩
    | false => exact ⟨[], rfl⟩
  obtain ⟨ms', hms'⟩ := hms'
  refine ⟨(fs.map g, ms'), w1, ?_, hw1⟩
  unfold plotBsDists
  rw [M.bind_ok (a := ()) (w' := w) (by rw [M.assert_apply]; simp),
    M.bind_ok (a := ()) (w' := w) (by rw [M.assert_apply]; simp), M.bind_ok (hts w), M.bind_ok h1,
    M.bind_ok (a := fs.map g) (w' := w1) (by rw [M.lift_apply, pyMap_ok hg]), M.bind_ok hms']
  rw [if_neg (by simpa using hfs)]
  rfl

end

/-- A run and functions which can be plotted with any replication: all threads start from the whole prior and are strictly
ascending, and the live counts are positive. -/
def Spec.StaticRun (r : Run ℝ) : Prop :=
  ∃ labels tmm, ProperThreads r labels tmm ∧ (∀ p ∈ tmm, p.1 = ⊥) ∧ ∀ n ∈ r.nlive, 0 < n

theorem Spec.StaticRun.weighable {r : Run ℝ} (h : StaticRun r) : Weighable r := by
  obtain ⟨labels, tmm, h, -, hpos⟩ := h
  refine ⟨?_, hpos, h.nlive_len⟩
  intro e
  have h1 := h.labels_len
  obtain ⟨p, hp, -⟩ := h.init
  have h2 := (h.labels_range 0).mpr ⟨le_refl _, by exact_mod_cast List.length_pos_of_mem hp⟩
  rw [e, List.length_nil, List.length_eq_zero_iff] at h1
  rw [h1] at h2
  cases h2

theorem bsDistsLoop_ok {fs : List FTheta} {nSim : Nat} (hfs : fs ≠ []) (hf : ∀ f ∈ fs, Plottable f) (hn : 0 < nSim)
    {rs : List ((Run ℝ × Option Settings) × Nat)} (hr : ∀ r ∈ rs, StaticRun r.1.1 ∧ r.2 < 5) (w : World σ) :
    ∃ ys w', bsDistsLoop A R fs fs.length nSim rs w = (.ok ys, w') ∧ w'.warns = w.warns ∧ ys.length = rs.length := by
  induction rs generalizing w with
  | nil => exact ⟨[], w, rfl, rfl, rfl⟩
  | cons r rs ih =>
    obtain ⟨⟨labels, tmm, h1, h2, h3⟩, h4⟩ := hr r (by simp)
    obtain ⟨y, w1, e1, hw1⟩ := C70_returns A R (settings := r.1.2) h1 h2 h3 hfs hf hn true w
    obtain ⟨ys, w2, e2, hw2, hl⟩ := ih (fun r' hr' => hr r' (by simp [hr'])) w1
    obtain ⟨⟨r, st⟩, n⟩ := r
    refine ⟨y :: ys, w2, ?_, by rw [hw2, hw1], by simp [hl]⟩
    rw [bsDistsLoop, if_neg (by simp at h4; omega), M.bind_ok e1, M.bind_ok e2]
    rfl

theorem mem_zipIdx_reverse {α : Type} {l : List α} {p : α × Nat} (h : p ∈ l.zipIdx.reverse) :
    p.1 ∈ l ∧ p.2 < l.length := by
  rw [List.mem_reverse] at h
  obtain ⟨a, i⟩ := p
  obtain ⟨h1, h2, h3⟩ := List.mem_zipIdx h
  simp at h2 h3
  refine ⟨?_, h2⟩
  change a ∈ l
  rw [h3]
  exact List.getElem_mem _

/-- C70: `bs_param_dists` draws from one to five static runs, for any random state and seed, and leaves the random state
as it was. -/
theorem C70_bs_returns {runs : List (Run ℝ × Option Settings)} {fs : List FTheta} {nSim : Nat} (hr0 : runs ≠ [])
    (hr5 : runs.length ≤ 5) (hr : ∀ r ∈ runs, StaticRun r.1) (hfs : fs ≠ []) (hf : ∀ f ∈ fs, Plottable f)
    (hn : 0 < nSim) (seed : Seed) (w : World σ) :
    ∃ ys, bsParamDists A R runs fs fs.length fs.length nSim seed w = (.ok ys, w) ∧ ys.length = runs.length := by
  have h1 := List.length_pos_of_ne_nil hr0
  have h2 := List.length_pos_of_ne_nil hfs
  obtain ⟨ys, w', e, hw, hl⟩ := bsDistsLoop_ok A R hfs hf hn (rs := runs.zipIdx.reverse) (fun r hr' => by
    obtain ⟨g1, g2⟩ := mem_zipIdx_reverse hr'
    exact ⟨hr _ g1, by omega⟩) ⟨plotSeed R seed, w.warns⟩
  refine ⟨ys, ?_, by simpa using hl⟩
  unfold bsParamDists
  rw [seedAlways_eq]
  simp only [M.bind_apply, M.getState_apply, M.setState_apply, M.assert_apply, decide_true, if_true]
  rw [if_neg (by omega), if_neg (by omega)]
  simp only [M.bind_apply]
  rw [e]
  simp only [M.setState_apply, M.pure_apply, hw]

/-! ### param_logx_diagram -/

/-- The generator never returns an exact zero. -/
def Spec.PositiveDraws : Prop := ∀ n s, ∀ u ∈ (R.uniform n s).1, 0 < u

theorem logxRows_ok {r : Run ℝ} (hr : Weighable r) (h2 : 2 ≤ r.logl.length) (hu : PositiveDraws R) (n : Nat) (w : World σ) :
    ∃ rows w', logxRows R r n w = (.ok rows, w') ∧ w'.warns = w.warns ∧ rows.length = n ∧
      ∀ p ∈ rows, p.1 ≠ [] := by
  induction n generalizing w with
  | zero => exact ⟨[], w, rfl, rfl, rfl, by simp⟩
  | succ n ih =>
    obtain ⟨x, m, e, hx, -⟩ := C52_simulated R hr h2 w (hu _ _)
    obtain ⟨rows, w2, e2, hw2, hl, hne⟩ := ih { w with rng := (R.uniform r.nlive.length w.rng).2 }
    refine ⟨(x, m) :: rows, w2, ?_, hw2, by simp [hl], ?_⟩
    · rw [logxRows, M.bind_ok e, M.bind_ok e2]; rfl
    · intro p hp
      rcases List.mem_cons.mp hp with rfl | hp
      · intro e0
        have := congrArg List.length (hx.symm.trans e0)
        rw [List.length_reverse, length_positions, simulatedSteps, List.length_zipWith, R.uniform_length, hr.len] at this
        simp at this
        rw [this] at h2
        simp at h2
      · exact hne p hp

/-- The options allow a diagram of `n` runs: a label and limits for each function, at least one replication, enough colors,
`thin` in (0, 1], and no more than three runs if threads are to be drawn. -/
structure Spec.LogxOptionsOk (o : LogxOptions) (n : Nat) : Prop where
  fs_ne : o.fs ≠ []
  plottable : ∀ f ∈ o.fs, Plottable f
  labels : o.fs.length = o.nLabels
  lims : o.fs.length = o.nLims
  nSim : 0 < o.nSim
  maps : n ≤ o.nMaps
  colors : n ≤ o.nColors
  thin : 0 < o.thin ∧ o.thin ≤ 1
  threads : o.threadsToPlot = none ∨ n ≤ 3

theorem thinned_ok {o : LogxOptions} (h : 0 < o.thin ∧ o.thin ≤ 1) (n : Nat) (st : σ) (w : World σ) :
    ∃ inds st', thinned R o n st w = (.ok (inds, st'), w) := by
  unfold thinned
  by_cases h1 : o.thin = 1
  · rw [if_pos h1]; exact ⟨_, _, rfl⟩
  · rw [if_neg h1, seedAlways_eq]
    refine ⟨whereIdx (fun u => decide (u ≤ o.thin)) (R.uniform n (plotSeed R o.seed)).1, w.rng, ?_⟩
    simp only [M.bind_apply, M.assert_apply, h, and_self, decide_true, if_true, M.getState_apply, M.setState_apply,
      M.draw_apply, M.pure_apply]

theorem gather_range_length {α β : Type} {x : List α} {y : List β} (h : x.length = y.length) (inds : List Nat) :
    (gather x inds).length = (gather y inds).length := by
  unfold gather
  induction inds with
  | nil => rfl
  | cons i is ih =>
    by_cases hi : i < x.length
    · rw [List.filterMap_cons_some (List.getElem?_eq_getElem hi),
        List.filterMap_cons_some (List.getElem?_eq_getElem (h ▸ hi))]
      simp [ih]
    · rw [List.filterMap_cons_none (List.getElem?_eq_none (by omega)),
        List.filterMap_cons_none (List.getElem?_eq_none (by omega))]
      exact ih

theorem scatterOf_ok {o : LogxOptions} {N : Nat} (ho : LogxOptionsOk o N) {n : Nat} (hn : n < N) {r : Run ℝ} {logx : List ℝ}
    (hl : r.theta.length = logx.length) (inds : List Nat) {f : FTheta} (hf : Plottable f) :
    ∃ y, scatterOf o r logx inds n f = .ok y := by
  have key : ∀ l ∈ o.threadsToPlot.getD [], ∃ y, threadLine r logx n f l = .ok y := by
    intro l hl'
    obtain ⟨v, hv, hvl⟩ := hf (gather r.theta (whereIdx (fun x => decide (x = l)) (r.labels.getD [])))
    unfold threadLine
    simp only [hv, Py.ok_bind]
    rcases ho.threads with h | h
    · rw [h] at hl'; simp at hl'
    · rw [if_neg (by omega), if_neg (by rw [hvl, gather_range_length hl]; simp)]
      exact ⟨_, rfl⟩
  choose! g hg using key
  obtain ⟨v, hv, hvl⟩ := hf (gather r.theta inds)
  have := ho.colors
  unfold scatterOf
  rw [hv, Py.ok_bind, if_neg (by omega), if_neg (by rw [hvl, gather_range_length hl]; simp), pyMap_ok hg]
  exact ⟨_, rfl⟩

theorem logxPlotRun_ok {o : LogxOptions} {N : Nat} (ho : LogxOptionsOk o N) (hu : PositiveDraws R) {r : Run ℝ}
    (hr : StaticRun r) (h2 : 2 ≤ r.logl.length) (settings : Option Settings) {n : Nat} (hn : n < N) (lo : Option ℝ) (st : σ)
    (w : World σ) : ∃ y w', logxPlotRun A R o r settings n lo st w = (.ok y, w') ∧ w'.warns = w.warns := by
  have hw := hr.weighable
  obtain ⟨labels, tmm, g1, g2, g3⟩ := hr
  obtain ⟨rows, w1, e1, hw1, hl, hne⟩ := logxRows_ok R hw h2 hu o.nSim w
  have hlo : ∃ m, lo.or (amin (rows.filterMap (fun p => p.1.head?))) = some m := by
    cases lo with
    | some m => exact ⟨m, rfl⟩
    | none =>
      cases rows with
      | nil => have := ho.nSim; simp at hl; omega
      | cons p rows =>
        cases hp : p.1 with
        | nil => exact absurd hp (hne p (by simp))
        | cons a l => simp [hp, amin]
  obtain ⟨m, hm⟩ := hlo
  have e2 := getLogx_expected (R := R) hw.nlive_ne hw.pos w1
  have hlx : r.theta.length = (positions (expectedSteps r.nlive)).length := by
    rw [length_positions, g1.theta_len, ← g1.nlive_len]; simp [expectedSteps]
  obtain ⟨inds, st', e3⟩ := thinned_ok R ho.thin (positions (expectedSteps r.nlive)).length st w1
  have hsc : ∀ f ∈ o.fs, ∃ y, scatterOf o r (positions (expectedSteps r.nlive)) inds n f = .ok y :=
    fun f hf => scatterOf_ok ho hn hlx inds (ho.plottable f hf)
  choose! g hg using hsc
  obtain ⟨post, w2, e4, hw2⟩ := C70_returns A R (settings := settings) g1 g2 g3 ho.fs_ne ho.plottable ho.nSim o.plotMeans w1
  obtain ⟨ms, e5⟩ := fthetaMeans_ok R hw g1.theta_len ho.plottable w2
  have e6 : ∃ ms, (if o.plotMeans then fthetaMeans R r o.fs else pure []) w2 = (.ok ms, w2) := by
    by_cases hp : o.plotMeans = true
    · rw [if_pos hp]; exact ⟨ms, e5⟩
    · rw [if_neg hp]; exact ⟨[], rfl⟩
  obtain ⟨ms', e6⟩ := e6
  have hmaps := ho.maps
  have hcol := ho.colors
  unfold logxPlotRun
  rw [M.bind_ok e1, hm, M.bind_ok (show M.lift ((some m).elim (.error .value) .ok) w1 = (.ok m, w1) from rfl), if_neg (by omega), M.bind_ok e2, M.bind_ok e3,
    M.bind_ok (a := o.fs.map g) (w' := w1) (by rw [M.lift_apply, pyMap_ok hg]),
    if_neg (by split <;> omega), M.bind_ok (by rw [← ho.lims]; exact e4), M.bind_ok e6]
  exact ⟨_, w2, rfl, by rw [hw2, hw1]⟩

theorem logxLoop_ok {o : LogxOptions} {N : Nat} (ho : LogxOptionsOk o N) (hu : PositiveDraws R)
    {rs : List ((Run ℝ × Option Settings) × Nat)} (hr : ∀ r ∈ rs, StaticRun r.1.1 ∧ 2 ≤ r.1.1.logl.length ∧ r.2 < N)
    (lo : Option ℝ) (st : σ) (w : World σ) :
    ∃ ys w', logxLoop A R o rs lo st w = (.ok ys, w') ∧ w'.warns = w.warns ∧ ys.1.length = rs.length := by
  induction rs generalizing lo st w with
  | nil => exact ⟨([], st), w, rfl, rfl, rfl⟩
  | cons r rs ih =>
    obtain ⟨h1, h2, h3⟩ := hr r (by simp)
    obtain ⟨y, w1, e1, hw1⟩ := logxPlotRun_ok A R ho hu h1 h2 r.1.2 h3 lo st w
    obtain ⟨ys, w2, e2, hw2, hl⟩ := ih (fun r' hr' => hr r' (by simp [hr'])) (some y.1.logxMin) y.2 w1
    obtain ⟨r, n⟩ := r
    refine ⟨(y.1 :: ys.1, ys.2), w2, ?_, by rw [hw2, hw1], by simp [hl]⟩
    rw [logxLoop, M.bind_ok e1, M.bind_ok e2]
    rfl

/-- C70: `param_logx_diagram` draws static runs of at least two samples, for any random state and seed (if no uniform draw is exactly
zero); without thinning it leaves the random state as it was. -/
theorem C70_logx_returns {o : LogxOptions} {runs : List (Run ℝ × Option Settings)} (ho : LogxOptionsOk o runs.length)
    (hu : PositiveDraws R) (hr0 : runs ≠ []) (hr : ∀ r ∈ runs, StaticRun r.1 ∧ 2 ≤ r.1.logl.length) (w : World σ) :
    ∃ ys w', paramLogxDiagram A R o runs w = (.ok ys, w') ∧ ys.length = runs.length ∧ w'.warns = w.warns ∧
      (o.thin = 1 → w' = w) := by
  obtain ⟨ys, w', e, hw, hl⟩ := logxLoop_ok A R ho hu (rs := runs.zipIdx.reverse) (fun r hr' => by
    obtain ⟨g1, g2⟩ := mem_zipIdx_reverse hr'
    exact ⟨(hr _ g1).1, (hr _ g1).2, g2⟩) o.logxMin w.rng ⟨plotSeed R o.seed, w.warns⟩
  have key : paramLogxDiagram A R o runs w = (.ok ys.1, ⟨ys.2, w.warns⟩) := by
    unfold paramLogxDiagram
    rw [seedAlways_eq]
    simp only [M.bind_apply, M.getState_apply, M.setState_apply, M.assert_apply, ← ho.labels, ← ho.lims, decide_true, if_true]
    rw [if_neg (by simpa using ho.fs_ne), if_neg (by simpa using hr0)]
    simp only [M.bind_apply]
    rw [e]
    simp only [M.setState_apply, M.pure_apply, hw]
  refine ⟨ys.1, _, key, by simpa using hl, rfl, fun h => ?_⟩
  have := (C53_logx A R h runs).1 _ _ _ key
  rw [show ys.2 = w.rng from this]

/-- C53: so for static runs a thinned diagram changes the random state of every caller but those in one state. -/
theorem C53_thin_changes {o : LogxOptions} {runs : List (Run ℝ × Option Settings)} (ho : LogxOptionsOk o runs.length)
    (ht : o.thin ≠ 1) (hu : PositiveDraws R) (hr0 : runs ≠ [])
    (hr : ∀ r ∈ runs, StaticRun r.1 ∧ 2 ≤ r.1.logl.length) (ws : List Warn) :
    ∃ (s0 : σ) (ys : List LogxPlot), ∀ s, paramLogxDiagram A R o runs ⟨s, ws⟩ = (.ok ys, ⟨s0, ws⟩) := by
  obtain ⟨ys, w', e, -, hw, -⟩ := C70_logx_returns A R ho hu hr0 hr ⟨plotSeed R o.seed, ws⟩
  refine ⟨w'.rng, ys, fun s => ?_⟩
  rw [C53_thin A R ht runs s (plotSeed R o.seed), e]
  obtain ⟨a, b⟩ := w'
  cases hw
  rfl

/-! ### Examples -/

/-- The first parameter of each sample. -/
def firstParam : FTheta := fun theta => .ok (theta.map (fun t => t.head?))

theorem firstParam_plottable : Plottable firstParam := fun theta => ⟨_, rfl, by simp⟩

theorem Spec.Recombinable.proper {r : Run ℝ} {labels : List Int} {tmm : List (WithBot ℝ × ℝ)}
    (h : Recombinable r labels tmm) : ProperThreads r labels tmm where
  toValidWith := h.toValidWith
  dim := h.dim
  ascending := fun i j _ x y hij _ _ hx hy => lt_of_le_of_ne (h.sorted i j x y hij hx hy) (h.distinct i j x y hij hx hy)
  born := fun i k mm x hmm hk hx => h.born k mm hmm x (mem_pick.mpr ⟨i, hk, hx⟩)

theorem exTwoSamples_static : StaticRun exTwoSamples := by
  have h : Recombinable exTwoSamples _ _ := singleRun_recombinable (logl := [1, 2]) (theta := [[3], [5]]) (last := 2)
    (by norm_num) rfl rfl (by simp [SameDim])
  exact ⟨_, _, h.proper, by simp, by simp [exTwoSamples, singleRun]⟩

theorem halfRng_positive : PositiveDraws halfRng := by
  intro n s u hu
  rw [List.eq_of_mem_replicate (show u ∈ List.replicate _ (1/2 : ℝ) from hu)]
  norm_num

def exOptions (thin : ℝ) : LogxOptions :=
  { fs := [firstParam, firstParam], nLabels := 2, nLims := 2, threadsToPlot := some [0], plotMeans := true, nSim := 10,
    seed := .num 0, logxMin := none, nColors := 6, nMaps := 5, thin := thin }

theorem exOptions_ok {thin : ℝ} (h : 0 < thin ∧ thin ≤ 1) : LogxOptionsOk (exOptions thin) 3 where
  fs_ne := by simp [exOptions]
  plottable := by simp [exOptions, firstParam_plottable]
  labels := rfl
  lims := rfl
  nSim := by simp [exOptions]
  maps := by simp [exOptions]
  colors := by simp [exOptions]
  thin := h
  threads := Or.inr (le_refl _)

/-- The hypotheses can be met: three runs, two functions. -/
example (w : World Nat) : ∃ ys, bsParamDists A halfRng [(exTwoSamples, none), (exTwoSamples, none), (exTwoSamples, none)]
    [firstParam, firstParam] 2 2 10 (.num 0) w = (.ok ys, w) ∧ ys.length = 3 :=
  C70_bs_returns A halfRng (by simp) (by simp) (by simp [exTwoSamples_static]) (by simp)
    (by simp [firstParam_plottable]) (by norm_num) _ w

theorem exRuns_ok : ∀ r ∈ [(exTwoSamples, (none : Option Settings)), (exTwoSamples, none), (exTwoSamples, none)],
    StaticRun r.1 ∧ 2 ≤ r.1.logl.length := by
  have : 2 ≤ exTwoSamples.logl.length := le_refl _
  simp [exTwoSamples_static, this]

/-- Without thinning the random state is as before, ... -/
example (w : World Nat) : ∃ ys, paramLogxDiagram A halfRng (exOptions 1)
    [(exTwoSamples, none), (exTwoSamples, none), (exTwoSamples, none)] w = (.ok ys, w) := by
  obtain ⟨ys, w', e, -, -, h⟩ := C70_logx_returns A halfRng (exOptions_ok (thin := 1) (by norm_num)) halfRng_positive
    (by simp) exRuns_ok w
  exact ⟨ys, by rw [e, h rfl]⟩

/-- ... with thinning the call returns as well but the random state is not restored. -/
example : ¬ RngRestored (paramLogxDiagram A halfRng (exOptions (1/2))
    [(exTwoSamples, none), (exTwoSamples, none), (exTwoSamples, none)]) := by
  obtain ⟨ys, w', e, -⟩ := C70_logx_returns A halfRng (exOptions_ok (thin := 1/2) (by norm_num)) halfRng_positive
    (by simp) exRuns_ok ⟨0, []⟩
  exact (C53_thin_leak A halfRng (by norm_num [exOptions]) e (s := w'.rng + 1) (Nat.succ_ne_self _)).2

end
end Nestcheck
