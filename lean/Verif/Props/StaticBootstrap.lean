import Verif.Props.StaticMeasurable
import Verif.Props.BootstrapRun
import Verif.Model.Instances

/-! C102: bootstrap replications of the runs of ideal samplers with a constant number of live points. -/

namespace Nestcheck
open Spec MeasureTheory ProbabilityTheory ENNReal Filter Topology
variable {σ : Type} {N : Nat}

noncomputable section

/-- Draws for which the points enclose strictly decreasing volumes. -/
structure Drawable (rule : Rule N) (start : Finset (Fin N)) (u : Fin N → ℝ) : Prop where
  unit : ∀ b, u b ∈ Set.Ioo (0 : ℝ) 1
  volume : ∀ s ∈ removals rule start u, s.volume ∈ Set.Ioo (0 : ℝ) 1
  alive : ∀ s ∈ removals rule start u, 0 < s.alive
  chain : List.IsChain (· > ·) ((removals rule start u).map (·.volume))

theorem drawable_ae {rule : Rule N} {start : Finset (Fin N)} (hs : StoppingSchedule rule start) : ∀ᵐ u ∂unifPow N, Drawable rule start u := by
  filter_upwards [adaptive_ae hs (ofFn_iid N)] with u hu
  have hvec : (fun i : Fin N => (List.ofFn u).getD i 0) = u := by
    funext i
    simp [List.getD_eq_getElem?_getD]
  rw [hvec] at hu
  obtain ⟨h1, h2, h3⟩ := hu
  have hch := chain_of_shrinkages _ one_pos h2 (fun v hv => (h3 v hv).2)
  refine ⟨fun b => ?_, fun s hm => ⟨(h2 s hm).1, ?_⟩, fun s hm => (h2 s hm).2, hch.tail⟩
  · have := h1 b
    simpa [List.getD_eq_getElem?_getD] using this
  · exact (List.pairwise_cons.mp (List.isChain_iff_pairwise.mp hch)).1 _ (List.mem_map_of_mem hm)

section
variable {rule : Rule N} {start : Finset (Fin N)} {u : Fin N → ℝ} {loglike : ℝ → ℝ} {init : ℝ}

theorem Drawable.execution (h : Drawable rule start u) (hs : StoppingSchedule rule start) (hanti : StrictAntiOn loglike (Set.Ioo 0 1))
    (hinit : ∀ x ∈ Set.Ioo (0 : ℝ) 1, init < loglike x) :
    ∃ live its, AdaptiveExecution loglike rule start u init live its ∧ SameDim ((its.map (·.dead)).map (·.theta)) := by
  have hne := hs.nonempty
  set smp : Fin N → Sample ℝ := fun b => ⟨[], loglike (u b), init⟩ with hsmp
  obtain ⟨its, e1, e2⟩ := exists_sampling_removals hanti h.unit (fun _ _ => []) N (x := u) (la := start.toList) (smp := smp) (Finset.Subset.refl _)
    hs.fresh (by rw [Finset.card_compl, Fintype.card_fin]; have := Finset.card_le_univ start; simp at this; omega) (fun b _ => h.unit b)
    (fun _ _ => rfl) (List.Perm.refl _) (fun _ _ => ⟨rfl, rfl⟩) h.chain
  refine ⟨start.toList.map smp, its, ⟨⟨?_, ?_, ?_⟩, e1, ?_, e2.imp fun _ _ h => ?_⟩, ?_⟩
  · obtain ⟨b, hb⟩ := hne
    exact List.ne_nil_of_mem (List.mem_map_of_mem (Finset.mem_toList.mpr hb))
  · intro q hq
    obtain ⟨b, _, rfl⟩ := List.mem_map.mp hq
    rfl
  · intro q hq
    obtain ⟨b, _, rfl⟩ := List.mem_map.mp hq
    exact hinit _ (h.unit b)
  · rw [List.map_map]
    exact List.Perm.refl _
  · have := h.map Prod.fst
    rwa [List.map_map, List.map_map] at this
  · have hp := e1.points
    rw [List.append_nil] at hp
    have h0 : ∀ p ∈ its.map (·.dead), p.theta = [] := by
      intro p hp'
      rcases List.mem_append.mp (hp.mem_iff.mp hp') with hq | hq
      · obtain ⟨b, _, rfl⟩ := List.mem_map.mp hq
        rfl
      · obtain ⟨it, hit, hq⟩ := List.mem_flatMap.mp hq
        have hh := List.forall₂_iff_get.mp e2
        obtain ⟨i, hi, rfl⟩ := List.getElem_of_mem hit
        have := (hh.2 i hi (by rw [← hh.1]; exact hi)).mem_iff.mp (List.mem_map_of_mem (f := fun p : Sample ℝ => (p.logl, p.theta)) hq)
        obtain ⟨b, _, hb⟩ := List.mem_map.mp this
        exact (congrArg Prod.snd hb).symm
    intro s hs' t ht
    obtain ⟨p, hp1, rfl⟩ := List.mem_map.mp hs'
    obtain ⟨q, hq1, rfl⟩ := List.mem_map.mp ht
    rw [h0 p hp1, h0 q hq1]

/-- What nestcheck makes of an execution, and the evidence of the run and of its replications. -/
theorem Drawable.values {R : Rng σ ℝ} (h : Drawable rule start u) (hs : StaticSchedule rule start) (hanti : StrictAntiOn loglike (Set.Ioo 0 1))
    {live : List (Sample ℝ)} {its : List (Iteration ℝ)} (hex : AdaptiveExecution loglike rule start u init live its)
    {samples : List (Sample ℝ)} (hperm : samples.Perm (its.map (·.dead))) (hdim : SameDim (samples.map (·.theta)))
    {b : ℝ} (hb : ∀ x ∈ Set.Ioo (0 : ℝ) 1, loglike x ≤ b) {f : ℝ → ℝ} (hf : ∀ x ∈ Set.Ioo (0 : ℝ) 1, f x = loglike x)
    {settings : Option Settings} {sep : Bool} (hsep : ∀ k, separately settings sep = some k → k ≤ start.card) (A : Argsort ℝ) (da dw : Bool) :
    ∃ r : Run ℝ, (∀ w : World σ, processSamples A R samples da dw w = (.ok r, w)) ∧
      (∀ w : World σ, evidence R r none false w = (.ok (original f start.card b (removals rule start u)), w)) ∧
      ∀ (B : Argsort ℝ) (seed : Seed) (w : World σ), ∃ (run : Run ℝ) (w' : World σ), bootstrapResampleRun B R r settings none sep seed w = (.ok (run, settings), w') ∧
        ∀ w'' : World σ, evidence R run none false w'' = (.ok (replica start f start.card b (removals rule start u) (fun j =>
          (indexes R start.card (separately settings sep) (seeded R seed w.rng)).getD j 0)), w'') := by
  obtain ⟨r, labels, tmm, d, g1, g2, g3, g4, g5⟩ := constantLive (R := R) hs h.unit hanti hex hperm hdim A da dw
  have hlives : Lives start start (removals rule start u) := iterate_lives N (Finset.Subset.refl _) hs.fresh
  have hlab := g5.eq_labelsOf hlives
  have hrb : ∀ l ∈ r.logl, l ≤ b := by
    intro l hl
    rw [g2] at hl
    obtain ⟨s, hm, rfl⟩ := List.mem_map.mp hl
    exact hb _ (h.volume s hm)
  have hlog : r.logl = (removals rule start u).map (fun s => f s.volume) := by
    rw [g2]
    exact List.map_congr_left fun s hm => (hf _ (h.volume s hm)).symm
  refine ⟨r, g1, fun w => ?_, fun B seed w => ?_⟩
  · obtain ⟨_, v, _⟩ := g3.values (A := A) (R := R) hrb (settings := settings) (sep := sep) (by rw [g4]; exact hsep)
    rw [v w, original, ← hlog, g4]
  · obtain ⟨_, _, v⟩ := g3.values (A := B) (R := R) hrb (settings := settings) (sep := sep) (by rw [g4]; exact hsep)
    unfold replica
    rw [← hlab, ← hlog, ← g4]
    exact v seed w

/-- The labels, the loglikelihoods and the evidence of the run. -/
theorem Drawable.facts (h : Drawable rule start u) (hs : StaticSchedule rule start) (hanti : StrictAntiOn loglike (Set.Ioo 0 1))
    (hinit : ∀ x ∈ Set.Ioo (0 : ℝ) 1, init < loglike x) {b : ℝ} (hb : ∀ x ∈ Set.Ioo (0 : ℝ) 1, loglike x ≤ b)
    {f : ℝ → ℝ} (hf : ∀ x ∈ Set.Ioo (0 : ℝ) 1, f x = loglike x) {g : ℝ → ℝ} (hin : ∀ x ∈ Set.Ioo (0 : ℝ) 1, g x = Real.exp (loglike x)) :
    (labelsOf start (removals rule start u)).length = ((removals rule start u).map (fun s => f s.volume)).length ∧
    (∀ k ∈ labelsOf start (removals rule start u), 0 ≤ k ∧ k < (start.card : Int)) ∧
    ((removals rule start u).map (fun s => f s.volume)).Pairwise (· ≤ ·) ∧
    (∃ e, ∀ k < start.card, (pick (labelsOf start (removals rule start u)) (k : Nat) ((removals rule start u).map (fun s => f s.volume))).countP
      (fun x => decide (e ≤ x)) = 1) ∧
    original f start.card b (removals rule start u) =
      weighted g ((removals rule start u).map (·.alive)) ((removals rule start u).map (·.volume)) ∧
    ∀ k0 : Nat, ((∑ k ∈ Finset.range start.card, ((labelsOf start (removals rule start u)).take k0).count (k : Int) ^ 2 : Nat) : ℝ≥0∞) ≤
      2 * energy k0 (fun _ => 0) (removals rule start u) + 2 * start.card := by
  obtain ⟨live, its, hex, hdim⟩ := h.execution hs.toStoppingSchedule hanti hinit
  obtain ⟨r, labels, tmm, d, g1, g2, g3, g4, g5⟩ := constantLive (R := counterRng ℝ one_pos) hs h.unit hanti hex (List.Perm.refl _) hdim
    (stableSort ℝ) false false
  have hlives : Lives start start (removals rule start u) := iterate_lives N (Finset.Subset.refl _) hs.fresh
  have hlab := g5.eq_labelsOf hlives
  have hlog : r.logl = (removals rule start u).map (fun s => f s.volume) := by
    rw [g2]
    exact List.map_congr_left fun s hm => (hf _ (h.volume s hm)).symm
  have hrb : ∀ l ∈ r.logl, l ≤ b := by
    intro l hl
    rw [g2] at hl
    obtain ⟨s, hm, rfl⟩ := List.mem_map.mp hl
    exact hb _ (h.volume s hm)
  obtain ⟨e, he, hc⟩ := g3.remaining
  obtain ⟨-, -, -, h1, h2, -, h3⟩ := validWith_iff.mp g3.toValidWith
  obtain ⟨v0, v1, _⟩ := g3.values (A := stableSort ℝ) (R := counterRng ℝ one_pos) hrb (settings := none) (sep := false) (by
    intro k hk
    simp [separately] at hk)
  have hsort : r.logl.Pairwise (· ≤ ·) := by
    rw [List.pairwise_iff_getElem]
    intro i j hi hj hij
    exact g3.sorted i j _ _ hij (List.getElem?_eq_getElem hi) (List.getElem?_eq_getElem hj)
  obtain ⟨d', hlen, hshape⟩ := removals_static hs u
  have hnl : r.nlive = ((removals rule start u).map (·.alive)).map (fun m : Nat => (m : Int)) := by
    apply List.ext_getElem?
    intro i
    by_cases hi : i < (removals rule start u).length
    · have hi' : i < r.logl.length := by rw [g2, List.length_map]; exact hi
      rw [g3.counts i hi', List.getElem?_map, List.getElem?_map, List.getElem?_eq_getElem hi, g2, List.length_map, g4]
      obtain ⟨s1, s2⟩ := hshape i _ (List.getElem?_eq_getElem hi)
      simp only [Option.map_some, Option.some.injEq, Nat.cast_inj]
      rcases Nat.lt_or_ge i d' with hd | hd
      · rw [(s1 hd).2]; omega
      · rw [(s2 hd).2]; omega
    · rw [List.getElem?_eq_none (by rw [g3.nlive_len, g2, List.length_map]; omega), List.getElem?_eq_none (by simp; omega)]
  have hne := removals_ne_nil hs.toStoppingSchedule u
  obtain ⟨_, w2, _⟩ := run_evidence (R := counterRng ℝ one_pos) (r := r) (loglike := loglike) (g := g) (ns := (removals rule start u).map (·.alive))
    (vs := (removals rule start u).map (·.volume)) (by rw [g2, List.map_map]; rfl) hnl (by simp) (by simpa using hne)
    (fun m hm => by
      obtain ⟨s, hs', rfl⟩ := List.mem_map.mp hm
      exact h.alive s hs')
    (fun v hv => by
      obtain ⟨s, hs', rfl⟩ := List.mem_map.mp hv
      exact h.volume s hs') hin ⟨0, []⟩
  have hw := w2.symm.trans (v1 ⟨0, []⟩)
  simp only [Prod.mk.injEq, Except.ok.injEq, and_true] at hw
  refine ⟨?_, ?_, ?_, ⟨e, ?_⟩, ?_, ?_⟩
  · rw [← hlab, ← hlog]; exact h1
  · intro k hk
    rw [← hlab] at hk
    have := (h3.1 k).mp hk
    rwa [g4] at this
  · rw [← hlog]; exact hsort
  · rw [← hlab, ← hlog, ← g4]
    exact g3.one he hc
  · rw [hw, original, ← hlog, g4]
  · intro k0
    rw [energy_eq k0 d (fun _ => 0) (removals rule start u) ?_ ?_, ← hlab]
    · have := g5.squares_le hlives k0
      exact_mod_cast this
    · have := g5.total
      omega
    · intro i s hi
      constructor
      · intro hbn
        by_contra hlt
        obtain ⟨m, hm⟩ := g5.continued i (by omega)
        have hml : m < (removals rule start u).length := by
          obtain ⟨_, _, _, hk, _⟩ := hm
          rw [← g5.len]; exact (List.getElem?_eq_some_iff.mp hk).1
        have := (g5.next i m _ _ hi (List.getElem?_eq_getElem hml)).mp hm
        rw [hbn] at this
        simp at this
      · intro hd
        exact g5.stopped i s hd hi

theorem Drawable.mean (h : Drawable rule start u) (hs : StaticSchedule rule start) (hanti : StrictAntiOn loglike (Set.Ioo 0 1))
    (hinit : ∀ x ∈ Set.Ioo (0 : ℝ) 1, init < loglike x) {b : ℝ} (hb : ∀ x ∈ Set.Ioo (0 : ℝ) 1, loglike x ≤ b)
    {f : ℝ → ℝ} (hf : ∀ x ∈ Set.Ioo (0 : ℝ) 1, f x = loglike x) {sep : Option Nat} (hsep : ∀ k, sep = some k → k ≤ start.card) (k0 : Nat) :
    ∫⁻ v : Fin start.card → Nat, ‖replica start f start.card b (removals rule start u) v - original f start.card b (removals rule start u)‖ₑ
      ∂Measure.pi (fun j : Fin start.card => uniformOn (group start.card sep j : Set Nat)) ≤
    ENNReal.ofReal (Real.exp b * ((5 / 2 * √start.card + 2) / start.card + Real.exp (-((k0 : ℝ) / start.card)))) +
      ENNReal.ofReal (Real.exp b / (start.card * √start.card)) * energy k0 (fun _ => 0) (removals rule start u) := by
  obtain ⟨f1, f2, f3, ⟨e, f4⟩, -, f6⟩ := h.facts hs hanti hinit hb hf (g := fun x => Real.exp (loglike x)) (fun _ _ => rfl)
  have hn : 0 < start.card := Finset.card_pos.mpr hs.nonempty
  have hn' : (0 : ℝ) < start.card := by exact_mod_cast hn
  have hq : 0 < √(start.card : ℝ) := Real.sqrt_pos.mpr hn'
  have key := drawnEvidence_mean hn f1 f2 f3 f4 hsep k0 b
  simp only [Real.enorm_eq_ofReal_abs]
  refine key.trans ?_
  set S := ∑ k ∈ Finset.range start.card, ((labelsOf start (removals rule start u)).take k0).count (k : Int) ^ 2 with hS
  have hS' : ∑ k ∈ Finset.range start.card, ((((labelsOf start (removals rule start u)).take k0).count (k : Int) : ℕ) : ℝ) ^ 2 = (S : ℝ) := by
    rw [hS]; push_cast; rfl
  rw [hS']
  have f7 := f6 k0
  rcases eq_or_ne (energy k0 (fun _ => 0) (removals rule start u)) ⊤ with htop | htop
  · rw [htop, ENNReal.mul_top (by simp only [ne_eq, ENNReal.ofReal_eq_zero, not_le]; positivity)]
    simp
  set E := (energy k0 (fun _ => 0) (removals rule start u)).toReal with hE
  have hE0 : 0 ≤ E := ENNReal.toReal_nonneg
  have f8 : (S : ℝ) ≤ 2 * E + 2 * start.card := by
    have := ENNReal.toReal_mono (by finiteness) f7
    rwa [ENNReal.toReal_add (by finiteness) (by finiteness), ENNReal.toReal_mul, ENNReal.toReal_mul, ENNReal.toReal_ofNat, ENNReal.toReal_natCast,
      ENNReal.toReal_natCast] at this
  rw [← ENNReal.ofReal_toReal htop, ← hE, ← ENNReal.ofReal_mul (by positivity), ← ENNReal.ofReal_add (by positivity) (by positivity)]
  apply ENNReal.ofReal_le_ofReal
  have hsq : √(start.card : ℝ) * √start.card = start.card := Real.mul_self_sqrt hn'.le
  have h5 : √(S : ℝ) ≤ E / √start.card + 3 / 2 * √start.card := by
    have h6 : √(S : ℝ) * √(S : ℝ) = S := Real.mul_self_sqrt (by positivity)
    have h7 : √(S : ℝ) * √start.card ≤ E + 3 / 2 * start.card := by nlinarith [sq_nonneg (√(S : ℝ) - √start.card)]
    rw [← mul_le_mul_iff_left₀ hq, add_mul, div_mul_cancel₀ _ hq.ne', mul_assoc, hsq]
    exact h7
  have h8 : Real.exp b / (start.card * √start.card) * E = Real.exp b * ((E / √start.card) / start.card) := by
    field_simp
  rw [h8, ← mul_add]
  refine mul_le_mul_of_nonneg_left ?_ (Real.exp_pos b).le
  have h9 : (√(S : ℝ) + √start.card + 2) / start.card ≤ (E / √start.card + 3 / 2 * √start.card + √start.card + 2) / start.card := by gcongr
  have h10 : (E / √start.card + 3 / 2 * √start.card + √start.card + 2) / (start.card : ℝ) =
    (5 / 2 * √start.card + 2) / start.card + E / √start.card / start.card := by ring
  linarith

/-- The mean distance between the evidence of a replication and the evidence of the run, over runs and replications. -/
theorem replica_deviation (hs : StaticSchedule rule start) (hanti : StrictAntiOn loglike (Set.Ioo 0 1))
    (hinit : ∀ x ∈ Set.Ioo (0 : ℝ) 1, init < loglike x) {b : ℝ} (hb : ∀ x ∈ Set.Ioo (0 : ℝ) 1, loglike x ≤ b)
    {f : ℝ → ℝ} (hf : ∀ x ∈ Set.Ioo (0 : ℝ) 1, f x = loglike x) {sep : Option Nat} (hsep : ∀ k, sep = some k → k ≤ start.card) (m : Nat) :
    ∫⁻ u, ∫⁻ v : Fin start.card → Nat, ‖replica start f start.card b (removals rule start u) v - original f start.card b (removals rule start u)‖ₑ
      ∂Measure.pi (fun j : Fin start.card => uniformOn (group start.card sep j : Set Nat)) ∂unifPow N ≤
    ENNReal.ofReal (Real.exp b * ((5 / 2 + m + m ^ 2) / √start.card + 2 / start.card + Real.exp (-m))) := by
  have hn : 0 < start.card := Finset.card_pos.mpr hs.nonempty
  have hn' : (0 : ℝ) < start.card := by exact_mod_cast hn
  have hq : 0 < √(start.card : ℝ) := Real.sqrt_pos.mpr hn'
  have h1 := lintegral_mono_ae ((drawable_ae hs.toStoppingSchedule).mono fun u hu => hu.mean hs hanti hinit hb hf hsep (m * start.card))
  refine h1.trans ?_
  rw [lintegral_add_left measurable_const, lintegral_const, measure_univ, mul_one, lintegral_const_mul' _ _ (by finiteness)]
  refine (add_le_add le_rfl (mul_le_mul_right ((lintegral_energy hs _).trans (energyBound_le hn)) _)).trans ?_
  rw [← ENNReal.ofReal_mul (by positivity), ← ENNReal.ofReal_add (by positivity) (by positivity)]
  apply ENNReal.ofReal_le_ofReal
  have hsq : √(start.card : ℝ) * √start.card = start.card := Real.mul_self_sqrt hn'.le
  apply le_of_eq
  push_cast
  rw [mul_div_cancel_right₀ _ hn'.ne']
  set q := √(start.card : ℝ) with hq'
  rw [← hsq]
  field_simp
  ring

end

theorem logz_of_evidence {R : Rng σ ℝ} {r : Run ℝ} {w w' : World σ} {z : ℝ} (h : evidence R r none false w = (.ok z, w')) :
    0 < z ∧ logz R r none false w = (.ok (Real.log z), w') := by
  unfold evidence at h
  unfold logz
  obtain ⟨lw, w1, h1, h2⟩ := M.bind_eq_ok.mp h
  obtain ⟨l, w2, h3, h4⟩ := M.bind_eq_ok.mp h2
  rw [M.bind_ok h1, h3]
  simp only [M.pure_apply, Prod.mk.injEq, Except.ok.injEq] at h4
  obtain ⟨rfl, rfl⟩ := h4
  exact ⟨Real.exp_pos _, by rw [Real.log_exp]⟩

attribute [local irreducible] replica original

/-- The law of the draws of a sampler and of the threads of a replication, when they are independent. -/
theorem lintegral_draws {Ω : Type} [MeasurableSpace Ω] {P : Measure Ω} {draws : Ω → List ℝ} (hu : IidUniform P N draws) {n : Nat} {sep : Option Nat}
    (hsep : ∀ k, sep = some k → k ≤ n) {D : Ω → List Nat} (hd : IndependentDraws P n sep D)
    (hind : IndepFun (fun ω (i : Fin N) => (draws ω).getD i 0) (fun ω (j : Fin n) => (D ω).getD j 0) P)
    {F : (Fin N → ℝ) × (Fin n → Nat) → ℝ≥0∞} (hF : Measurable F) :
    ∫⁻ ω, F ((fun i => (draws ω).getD i 0), (fun j => (D ω).getD j 0)) ∂P =
      ∫⁻ u, ∫⁻ v, F (u, v) ∂Measure.pi (fun j : Fin n => uniformOn (group n sep j : Set Nat)) ∂unifPow N := by
  have hprob := fun j => group_prob hsep (n := n) j
  have hum := hu.aemeasurable
  have hdm := hd.aemeasurable hsep
  have hP : IsProbabilityMeasure P := by
    have h1 : IsProbabilityMeasure (P.map (fun ω (i : Fin N) => (draws ω).getD i 0)) := by
      unfold IidUniform at hu
      rw [hu]
      exact inferInstanceAs (IsProbabilityMeasure (unifPow N))
    refine ⟨?_⟩
    have h2 := h1.measure_univ
    rwa [Measure.map_apply_of_aemeasurable hum MeasurableSet.univ, Set.preimage_univ] at h2
  have h1 := (indepFun_iff_map_prod_eq_prod_map_map hum hdm).mp hind
  rw [← lintegral_map' (f := F) (g := fun ω => ((fun i : Fin N => (draws ω).getD i 0), (fun j : Fin n => (D ω).getD j 0))) hF.aemeasurable
    (hum.prodMk hdm), h1]
  unfold IidUniform at hu
  unfold IndependentDraws at hd
  rw [hu, hd]
  exact lintegral_prod F hF.aemeasurable

/-- The distance of the evidence of a replication from a number. -/
theorem replica_error {Ω : Type} [MeasurableSpace Ω] {P : Measure Ω} {rule : Rule N} {start : Finset (Fin N)} (hs : StaticSchedule rule start)
    {draws : Ω → List ℝ} (hu : IidUniform P N draws) {sep : Option Nat}
    (hsep : ∀ k, sep = some k → k ≤ start.card) {D : Ω → List Nat} (hd : IndependentDraws P start.card sep D)
    (hind : IndepFun (fun ω (i : Fin N) => (draws ω).getD i 0) (fun ω (j : Fin start.card) => (D ω).getD j 0) P)
    {loglike : ℝ → ℝ} (hanti : StrictAntiOn loglike (Set.Ioo 0 1)) {init : ℝ} (hinit : ∀ x ∈ Set.Ioo (0 : ℝ) 1, init < loglike x)
    {b : ℝ} (hb : ∀ x ∈ Set.Ioo (0 : ℝ) 1, loglike x ≤ b) {f : ℝ → ℝ} (hf : ∀ x ∈ Set.Ioo (0 : ℝ) 1, f x = loglike x)
    {g : ℝ → ℝ} (hin : ∀ x ∈ Set.Ioo (0 : ℝ) 1, g x = Real.exp (loglike x)) (hfm : Measurable f) (Z : ℝ) :
    ∫⁻ ω, ‖replica start f start.card b (removals rule start (fun i => (draws ω).getD i 0)) (fun j => (D ω).getD j 0) - Z‖ₑ ∂P ≤
      (∫⁻ u, ∫⁻ v : Fin start.card → Nat,
        ‖replica start f start.card b (removals rule start u) v - original f start.card b (removals rule start u)‖ₑ
        ∂Measure.pi (fun j : Fin start.card => uniformOn (group start.card sep j : Set Nat)) ∂unifPow N) +
      ∫⁻ ω, ‖weighted g ((removals rule start (fun i => (draws ω).getD i 0)).map (·.alive))
        ((removals rule start (fun i => (draws ω).getD i 0)).map (·.volume)) - Z‖ₑ ∂P := by
  have hF : Measurable (fun p : (Fin N → ℝ) × (Fin start.card → Nat) =>
      ‖replica start f start.card b (removals rule start p.1) p.2 - original f start.card b (removals rule start p.1)‖ₑ) :=
    ((replica_measurable hs.measurable hfm start.card b).sub ((original_measurable hs.measurable hfm start.card b).comp measurable_fst)).enorm
  have hm : AEMeasurable (fun ω => ((fun i : Fin N => (draws ω).getD i 0), (fun j : Fin start.card => (D ω).getD j 0))) P :=
    hu.aemeasurable.prodMk (hd.aemeasurable hsep)
  have hlaw := lintegral_draws hu hsep hd hind hF
  have h1 := lintegral_add_left' (μ := P) (hF.comp_aemeasurable hm) (fun ω => ‖weighted g ((removals rule start (fun i => (draws ω).getD i 0)).map (·.alive))
        ((removals rule start (fun i => (draws ω).getD i 0)).map (·.volume)) - Z‖ₑ)
  rw [← hlaw]
  refine le_trans ?_ (le_of_eq h1)
  refine lintegral_mono_ae ?_
  filter_upwards [hu.vector_ae (drawable_ae hs.toStoppingSchedule)] with ω hω
  obtain ⟨-, -, -, -, h5, -⟩ := hω.facts hs hanti hinit hb hf hin
  rw [← h5]
  refine le_trans (le_of_eq ?_) (enorm_add_le _ _)
  congr 1
  ring

/-- C102.  The evidence of a bootstrap replication of the run of an ideal sampler with a constant number of live points differs on average
over runs and replications by at most this from the evidence of the run. -/
theorem C102_deviation {Ω : Type} [MeasurableSpace Ω] {P : Measure Ω} {R : Rng σ ℝ} {rule : Rule N} {start : Finset (Fin N)}
    (hs : StaticSchedule rule start) {draws : Ω → List ℝ} (hu : IidUniform P N draws)
    {loglike : ℝ → ℝ} (hanti : StrictAntiOn loglike (Set.Ioo 0 1)) {init : ℝ} (hinit : ∀ x ∈ Set.Ioo (0 : ℝ) 1, init < loglike x)
    {b : ℝ} (hb : ∀ x ∈ Set.Ioo (0 : ℝ) 1, loglike x ≤ b) {settings : Option Settings} {sep : Bool} {w : Ω → World σ} {seed : Ω → Seed}
    (hsep : ∀ m, separately settings sep = some m → m ≤ start.card)
    (hd : IndependentDraws P start.card (separately settings sep) (fun ω =>
      indexes R start.card (separately settings sep) (seeded R (seed ω) (w ω).rng)))
    (hind : IndepFun (fun ω (i : Fin N) => (draws ω).getD i 0) (fun ω (j : Fin start.card) =>
      (indexes R start.card (separately settings sep) (seeded R (seed ω) (w ω).rng)).getD j 0) P) :
    ∃ zrun zrep : Ω → ℝ, AEMeasurable zrun P ∧ AEMeasurable zrep P ∧ (∀ᵐ ω ∂P,
      (∃ live its, AdaptiveExecution loglike rule start (fun i => (draws ω).getD i 0) init live its ∧
        SameDim ((its.map (·.dead)).map (·.theta))) ∧
      ∀ live its, AdaptiveExecution loglike rule start (fun i => (draws ω).getD i 0) init live its →
        ∀ samples, samples.Perm (its.map (·.dead)) → SameDim (samples.map (·.theta)) → ∀ (A B : Argsort ℝ) (da dw : Bool),
          ∃ r : Run ℝ, (∀ w' : World σ, processSamples A R samples da dw w' = (.ok r, w')) ∧
            (∀ w' : World σ, evidence R r none false w' = (.ok (zrun ω), w')) ∧
            ∃ (run : Run ℝ) (w' : World σ), bootstrapResampleRun B R r settings none sep (seed ω) (w ω) = (.ok (run, settings), w') ∧
              ∀ w'' : World σ, evidence R run none false w'' = (.ok (zrep ω), w'')) ∧
      ∀ m : Nat, ∫⁻ ω, ‖zrep ω - zrun ω‖ₑ ∂P ≤
        ENNReal.ofReal (Real.exp b * ((5 / 2 + m + m ^ 2) / √start.card + 2 / start.card + Real.exp (-m))) := by
  obtain ⟨g, hganti, -, hin⟩ := exists_extension hanti hb
  have hf : ∀ x ∈ Set.Ioo (0 : ℝ) 1, (fun x => Real.log (g x)) x = loglike x := fun x hx => by simp only; rw [hin x hx, Real.log_exp]
  have hfm : Measurable (fun x => Real.log (g x)) := Real.measurable_log.comp hganti.measurable
  generalize (fun x => Real.log (g x)) = f at hf hfm
  have hrep := replica_measurable (start := start) hs.measurable hfm start.card b
  have horig := original_measurable (start := start) hs.measurable hfm start.card b
  have hm := hu.aemeasurable.prodMk (hd.aemeasurable hsep)
  refine ⟨_, _, horig.comp_aemeasurable hu.aemeasurable, hrep.comp_aemeasurable hm, ?_, fun m => ?_⟩
  · filter_upwards [hu.vector_ae (drawable_ae hs.toStoppingSchedule)] with ω hω
    refine ⟨hω.execution hs.toStoppingSchedule hanti hinit, fun live its hex samples hperm hdim A B da dw => ?_⟩
    obtain ⟨r, r1, r2, r3⟩ := hω.values (R := R) hs hanti hex hperm hdim hb hf hsep A da dw
    exact ⟨r, r1, r2, r3 B (seed ω) (w ω)⟩
  · have hlaw := lintegral_draws hu hsep hd hind (hrep.sub (horig.comp measurable_fst)).enorm
    exact (le_of_eq hlaw).trans (replica_deviation hs hanti hinit hb hf hsep m)

section

variable {Ω : ℕ → Type} [∀ k, MeasurableSpace (Ω k)] {P : ∀ k, Measure (Ω k)} {N : ℕ → Nat} {rule : ∀ k, Rule (N k)}
  {start : ∀ k, Finset (Fin (N k))} {draws : ∀ k, Ω k → List ℝ} {R : Rng σ ℝ} {settings : ℕ → Option Settings} {sep : ℕ → Bool}
  {w : ∀ k, Ω k → World σ} {seed : ∀ k, Ω k → Seed}

/-- The mean distance between the evidence of a replication and the evidence of the run goes to zero. -/
theorem replica_deviation_tendsto (hs : ∀ k, StaticSchedule (rule k) (start k)) (hn : Tendsto (fun k => (start k).card) atTop atTop)
    {loglike : ℝ → ℝ} (hanti : StrictAntiOn loglike (Set.Ioo 0 1)) {init : ℝ} (hinit : ∀ x ∈ Set.Ioo (0 : ℝ) 1, init < loglike x)
    {b : ℝ} (hb : ∀ x ∈ Set.Ioo (0 : ℝ) 1, loglike x ≤ b) {f : ℝ → ℝ} (hf : ∀ x ∈ Set.Ioo (0 : ℝ) 1, f x = loglike x) {sep : ℕ → Option Nat}
    (hsep : ∀ k m, sep k = some m → m ≤ (start k).card) :
    Tendsto (fun k => ∫⁻ u, ∫⁻ v : Fin (start k).card → Nat,
      ‖replica (start k) f (start k).card b (removals (rule k) (start k) u) v - original f (start k).card b (removals (rule k) (start k) u)‖ₑ
      ∂Measure.pi (fun j : Fin (start k).card => uniformOn (group (start k).card (sep k) j : Set Nat)) ∂unifPow (N k)) atTop (𝓝 0) := by
  rw [ENNReal.tendsto_nhds_zero]
  intro ε hε
  have hexp : Tendsto (fun m : ℕ => ENNReal.ofReal (Real.exp b * Real.exp (-(m : ℝ)))) atTop (𝓝 0) := by
    have h1 : Tendsto (fun m : ℕ => Real.exp b * Real.exp (-(m : ℝ))) atTop (𝓝 (Real.exp b * 0)) :=
      (Real.tendsto_exp_neg_atTop_nhds_zero.comp tendsto_natCast_atTop_atTop).const_mul _
    have := ENNReal.tendsto_ofReal h1
    simpa using this
  obtain ⟨m, hmε⟩ := (hexp.eventually (gt_mem_nhds hε)).exists
  have hnR : Tendsto (fun k => ((start k).card : ℝ)) atTop atTop := tendsto_natCast_atTop_atTop.comp hn
  have h2 : Tendsto (fun k => ENNReal.ofReal (Real.exp b * ((5 / 2 + (m : ℝ) + (m : ℝ) ^ 2) / √(start k).card + 2 / (start k).card +
      Real.exp (-(m : ℝ))))) atTop (𝓝 (ENNReal.ofReal (Real.exp b * (0 + 0 + Real.exp (-(m : ℝ)))))) := by
    refine ENNReal.tendsto_ofReal (Tendsto.const_mul _ (Tendsto.add_const _ (Tendsto.add ?_ ?_)))
    · exact (tendsto_const_nhds.div_atTop (Real.tendsto_sqrt_atTop.comp hnR))
    · exact tendsto_const_nhds.div_atTop hnR
  rw [zero_add, zero_add] at h2
  filter_upwards [h2.eventually (gt_mem_nhds hmε)] with k hk
  exact (replica_deviation (hs k) hanti hinit hb hf (hsep k) m).trans hk.le

/-- C102.  As the number of live points grows, the evidence which nestcheck finds for bootstrap replications of the runs of ideal samplers
with a constant number of live points converges in mean to the evidence. -/
theorem C102_evidence (hs : ∀ k, StaticSchedule (rule k) (start k)) (hu : ∀ k, IidUniform (P k) (N k) (draws k))
    (hn : Tendsto (fun k => (start k).card) atTop atTop)
    {loglike : ℝ → ℝ} (hanti : StrictAntiOn loglike (Set.Ioo 0 1)) {init : ℝ} (hinit : ∀ x ∈ Set.Ioo (0 : ℝ) 1, init < loglike x)
    {b : ℝ} (hb : ∀ x ∈ Set.Ioo (0 : ℝ) 1, loglike x ≤ b)
    (hsep : ∀ k m, separately (settings k) (sep k) = some m → m ≤ (start k).card)
    (hd : ∀ k, IndependentDraws (P k) (start k).card (separately (settings k) (sep k)) (fun ω =>
      indexes R (start k).card (separately (settings k) (sep k)) (seeded R (seed k ω) (w k ω).rng)))
    (hind : ∀ k, IndepFun (fun ω (i : Fin (N k)) => (draws k ω).getD i 0) (fun ω (j : Fin (start k).card) =>
      (indexes R (start k).card (separately (settings k) (sep k)) (seeded R (seed k ω) (w k ω).rng)).getD j 0) (P k)) :
    ∃ est : ∀ k, Ω k → ℝ, (∀ k, AEMeasurable (est k) (P k)) ∧ (∀ k, ∀ᵐ ω ∂P k,
      (∃ live its, AdaptiveExecution loglike (rule k) (start k) (fun i => (draws k ω).getD i 0) init live its ∧
        SameDim ((its.map (·.dead)).map (·.theta))) ∧
      ∀ live its, AdaptiveExecution loglike (rule k) (start k) (fun i => (draws k ω).getD i 0) init live its →
        ∀ samples, samples.Perm (its.map (·.dead)) → SameDim (samples.map (·.theta)) → ∀ (A B : Argsort ℝ) (da dw : Bool),
          ∃ r : Run ℝ, (∀ w' : World σ, processSamples A R samples da dw w' = (.ok r, w')) ∧
            ∃ (run : Run ℝ) (w' : World σ), bootstrapResampleRun B R r (settings k) none (sep k) (seed k ω) (w k ω) = (.ok (run, settings k), w') ∧
              ∀ w'' : World σ, evidence R run none false w'' = (.ok (est k ω), w'') ∧
                logz R run none false w'' = (.ok (Real.log (est k ω)), w'')) ∧
      Tendsto (fun k => ∫⁻ ω, ‖est k ω - ∫ x in (0 : ℝ)..1, Real.exp (loglike x)‖ₑ ∂P k) atTop (𝓝 0) := by
  obtain ⟨g, hganti, hM, hin⟩ := exists_extension hanti hb
  have hlim := C95_integral (fun k => (hs k).toStoppingSchedule) hu hn hM hganti.measurable (antitone_continuous_ae hganti)
  rw [integral_extension hin] at hlim
  simp only [weighted_def] at hlim
  set f : ℝ → ℝ := fun x => Real.log (g x) with hfdef
  have hf : ∀ x ∈ Set.Ioo (0 : ℝ) 1, f x = loglike x := fun x hx => by rw [hfdef]; simp only; rw [hin x hx, Real.log_exp]
  have hfm : Measurable f := Real.measurable_log.comp hganti.measurable
  have hrep := fun k => replica_measurable (start := start k) (hs k).measurable hfm (start k).card b
  have horig := fun k => original_measurable (start := start k) (hs k).measurable hfm (start k).card b
  let D : ∀ k, Ω k → List Nat := fun k ω => indexes R (start k).card (separately (settings k) (sep k)) (seeded R (seed k ω) (w k ω).rng)
  have hm : ∀ k, AEMeasurable (fun ω => ((fun i : Fin (N k) => (draws k ω).getD i 0), (fun j : Fin (start k).card => (D k ω).getD j 0))) (P k) :=
    fun k => (hu k).aemeasurable.prodMk ((hd k).aemeasurable (hsep k))
  refine ⟨fun k ω => replica (start k) f (start k).card b (removals (rule k) (start k) (fun i => (draws k ω).getD i 0))
    (fun j => (D k ω).getD j 0), fun k => (hrep k).comp_aemeasurable (hm k), fun k => ?_, ?_⟩
  · filter_upwards [(hu k).vector_ae (drawable_ae (hs k).toStoppingSchedule)] with ω hω
    refine ⟨hω.execution (hs k).toStoppingSchedule hanti hinit, fun live its hex samples hperm hdim A B da dw => ?_⟩
    obtain ⟨r, r1, -, r2⟩ := hω.values (R := R) (hs k) hanti hex hperm hdim hb hf (hsep k) A da dw
    obtain ⟨run, w', q1, q2⟩ := r2 B (seed k ω) (w k ω)
    exact ⟨r, r1, run, w', q1, fun w'' => ⟨q2 w'', (logz_of_evidence (q2 w'')).2⟩⟩
  · have hdv0 := replica_deviation_tendsto hs hn hanti hinit hb hf hsep
    have hsum := hdv0.add hlim
    rw [add_zero] at hsum
    refine tendsto_of_tendsto_of_tendsto_of_le_of_le tendsto_const_nhds hsum (fun k => zero_le) fun k => ?_
    exact replica_error (hs k) (hu k) (hsep k) (hd k) (hind k) hanti hinit hb hf hin hfm _

/-- C102.  As the number of live points grows, `logz` of bootstrap replications of the runs of ideal samplers with a constant number of
live points converges in probability to the logarithm of the evidence. -/
theorem C102_logz (hs : ∀ k, StaticSchedule (rule k) (start k)) (hu : ∀ k, IidUniform (P k) (N k) (draws k))
    (hn : Tendsto (fun k => (start k).card) atTop atTop)
    {loglike : ℝ → ℝ} (hanti : StrictAntiOn loglike (Set.Ioo 0 1)) {init : ℝ} (hinit : ∀ x ∈ Set.Ioo (0 : ℝ) 1, init < loglike x)
    {b : ℝ} (hb : ∀ x ∈ Set.Ioo (0 : ℝ) 1, loglike x ≤ b)
    (hsep : ∀ k m, separately (settings k) (sep k) = some m → m ≤ (start k).card)
    (hd : ∀ k, IndependentDraws (P k) (start k).card (separately (settings k) (sep k)) (fun ω =>
      indexes R (start k).card (separately (settings k) (sep k)) (seeded R (seed k ω) (w k ω).rng)))
    (hind : ∀ k, IndepFun (fun ω (i : Fin (N k)) => (draws k ω).getD i 0) (fun ω (j : Fin (start k).card) =>
      (indexes R (start k).card (separately (settings k) (sep k)) (seeded R (seed k ω) (w k ω).rng)).getD j 0) (P k)) {δ : ℝ} (hδ : 0 < δ) :
    Tendsto (fun k => P k {ω | ∃ live its samples, AdaptiveExecution loglike (rule k) (start k) (fun i => (draws k ω).getD i 0) init live its ∧
      samples.Perm (its.map (·.dead)) ∧ SameDim (samples.map (·.theta)) ∧ ∃ (A B : Argsort ℝ) (da dw : Bool) (w' : World σ),
        ¬ ∃ (r run : Run ℝ) (w'' : World σ) (z : ℝ), processSamples A R samples da dw w' = (.ok r, w') ∧
          bootstrapResampleRun B R r (settings k) none (sep k) (seed k ω) (w k ω) = (.ok (run, settings k), w'') ∧
          logz R run none false w'' = (.ok z, w'') ∧
          |z - Real.log (∫ x in (0 : ℝ)..1, Real.exp (loglike x))| < δ}) atTop (𝓝 0) := by
  obtain ⟨est, h0, h1, h2⟩ := C102_evidence hs hu hn hanti hinit hb hsep hd hind
  refine log_in_probability h0 (evidence_pos hanti hb) h2 hδ fun k => ?_
  filter_upwards [h1 k] with ω h4 hlt
  rintro ⟨live, its, samples, hex, hsam, hdim, A, B, da, dw, w', hbad⟩
  obtain ⟨r, e1, run, w'', e2, e3⟩ := h4.2 live its hex samples hsam hdim A B da dw
  exact hbad ⟨r, run, w'', _, e1 w', e2, (e3 w'').2, hlt⟩

end

end
end Nestcheck
