import Verif.Props.StaticBirths
import Verif.Props.LabelOrder
import Verif.Props.EndToEnd
import Verif.Props.MergeArrays
import Verif.Props.BootstrapRun

/-! C102: the threads of the run of an ideal sampler with a constant number of live points. -/

namespace Nestcheck
open Spec MeasureTheory ENNReal
variable {σ : Type} {N : Nat}

noncomputable section

/-- The labels of the threads of the points removed by a sampler with `n` live points which replaces the first `d` points: each point
has the label of the point it replaced, and the threads are numbered in the order of their first samples. -/
structure StaticLabels (start : Finset (Fin N)) (l : List (Removal N)) (d n : Nat) (labels : List Int) : Prop where
  len : labels.length = l.length
  total : l.length = d + n
  range : ∀ k : Int, k ∈ labels ↔ 0 ≤ k ∧ k < n
  next : ∀ (j i : Nat) (t s : Removal N), l[j]? = some t → l[i]? = some s → (Consecutive labels j i ↔ s.point ∈ t.born)
  order : ∀ k k' i i' : Nat, FirstOf labels k i → FirstOf labels k' i' → k < k' → i < i'
  continued : ∀ i < d, ∃ m, Consecutive labels i m
  stopped : ∀ (i : Nat) (s : Removal N), d ≤ i → l[i]? = some s → s.born = ∅

theorem exists_next {labels : List Int} {i j : Nat} (hij : i < j) {k : Int} (hi : labels[i]? = some k) (hj : labels[j]? = some k) :
    ∃ q, Consecutive labels i q := by
  classical
  have hex : ∃ q, i < q ∧ labels[q]? = some k := ⟨j, hij, hj⟩
  refine ⟨Nat.find hex, (Nat.find_spec hex).1, k, hi, (Nat.find_spec hex).2, ?_⟩
  intro m h1 h2 h3
  exact Nat.find_min hex h2 ⟨h1, h3⟩

theorem constantLive {R : Rng σ ℝ} {rule : Rule N} {start : Finset (Fin N)} (hs : StaticSchedule rule start) {u : Fin N → ℝ}
    (hu : ∀ b, u b ∈ Set.Ioo (0 : ℝ) 1) {loglike : ℝ → ℝ} (hanti : StrictAntiOn loglike (Set.Ioo 0 1)) {init : ℝ}
    {live : List (Sample ℝ)} {its : List (Iteration ℝ)} (hex : AdaptiveExecution loglike rule start u init live its)
    {samples : List (Sample ℝ)} (hperm : samples.Perm (its.map (·.dead))) (hdim : SameDim (samples.map (·.theta)))
    (A : Argsort ℝ) (da dw : Bool) :
    ∃ (r : Run ℝ) (labels : List Int) (tmm : List (WithBot ℝ × ℝ)) (d : Nat),
      (∀ w : World σ, processSamples A R samples da dw w = (.ok r, w)) ∧
      r.logl = (removals rule start u).map (fun s => loglike s.volume) ∧ ConstantLive r labels tmm ∧ tmm.length = start.card ∧
      StaticLabels start (removals rule start u) d start.card labels := by
  obtain ⟨d, hlen, hshape⟩ := removals_static hs u
  obtain ⟨o1, o2⟩ := hex.origin hanti hs.toStoppingSchedule hu
  have hlives : Lives start start (removals rule start u) := iterate_lives N (Finset.Subset.refl _) hs.fresh
  have hadded := hex.added
  obtain ⟨-, o3⟩ := hex.run.dead_removals hanti hu (Finset.Subset.refl _) hs.fresh (fun b _ => hu b) (fun _ _ => rfl) hex.initial
      hex.added
  change its.map (·.alive) = (removals rule start u).map (·.alive) at o3
  set l := removals rule start u with hl
  obtain ⟨r, e1, e2, _, e4⟩ := C87_replay (R := R) (σ := σ) hex.prior hex.run hperm A da dw
  have hc : Consistent samples init := C87_consistent hex.prior hex.run (by simp) (by simpa using hperm)
  have hp := e1 ⟨R.seed 0, []⟩
  obtain ⟨labels, tmm, hv⟩ := processed_proper R hc hdim A da dw hp
  have has : ProcessedAs samples init r labels tmm := by
    obtain ⟨labels', tmm', h⟩ := processedAs R hc A da dw hp
    have h1 := h.labels_eq
    have h2 := h.tmm_eq
    rw [hv.labels_eq] at h1
    rw [hv.tmm_eq] at h2
    cases h1
    cases h2
    exact h
  have hborn : ∀ it ∈ its, it.born.length ≤ 1 := by
    intro it hit
    obtain ⟨i, hi⟩ := List.mem_iff_getElem?.mp hit
    have hil : i < its.length := (List.getElem?_eq_some_iff.mp hi).1
    have hil' : i < l.length := by rw [← hadded.length_eq]; exact hil
    have := (hadded.get hil hil').length_eq
    rw [List.getElem?_eq_getElem hil, Option.some.injEq] at hi
    simp only [List.length_map, Finset.length_toList, List.get_eq_getElem, hi] at this
    rw [this]
    obtain ⟨g1, g2⟩ := hshape i _ (List.getElem?_eq_getElem hil')
    rcases Nat.lt_or_ge i d with h | h
    · exact (g1 h).1.le
    · rw [(g2 h).1]; simp
  have hone : OneHeir samples init := hex.run.oneHeir hex.prior hborn (by simpa using hperm)
  have hstatic := (process_static R hc A da dw hp hv.tmm_eq).mpr hone
  have hrl : r.logl = l.map (fun s => loglike s.volume) := e2.trans o1
  have hll : its.length = l.length := hadded.length_eq
  -- the sample at position `i`
  have hat : ∀ (i : Nat) (s : Removal N), l[i]? = some s → ∃ q ∈ samples, r.logl[i]? = some q.logl ∧ q.logl = loglike s.volume ∧
      (inherit (fun _ s => loglike s.volume) (fun _ => init) l)[i]? = some q.birth := by
    intro i s hi
    have hil : i < its.length := by rw [hll]; exact (List.getElem?_eq_some_iff.mp hi).1
    refine ⟨its[i].dead, hperm.mem_iff.mpr (List.mem_map_of_mem (List.getElem_mem hil)), ?_, ?_, ?_⟩
    · rw [e2, List.getElem?_map, List.getElem?_eq_getElem hil]
      rfl
    · have := congrArg (·[i]?) o1
      simp only [List.getElem?_map, List.getElem?_eq_getElem hil, hi, Option.map_some, Option.some.injEq] at this
      exact this
    · have := congrArg (·[i]?) o2
      simp only [List.getElem?_map, List.getElem?_eq_getElem hil, Option.map_some] at this
      exact this.symm
  have hinit : ∀ q ∈ samples, init < q.logl := fun q hq => hex.run.above hex.prior.above q (by simpa using hperm.mem_iff.mp hq)
  have hbirth : ∀ (j i : Nat) (t s : Removal N) (q : Sample ℝ), l[j]? = some t → l[i]? = some s → s.point ∈ t.born →
      (inherit (fun _ s => loglike s.volume) (fun _ => init) l)[i]? = some q.birth → q.birth = loglike t.volume := by
    intro j i t s q hj hi hb hq
    rw [hlives.passed (Finset.Subset.refl _) hi hj hb] at hq
    obtain ⟨_, -, -, h0, h⟩ := hat j t hj
    rw [h] at hq
    exact (Option.some.inj hq).symm
  have hlt : ∀ i j : Nat, ∀ x y : ℝ, r.logl[i]? = some x → r.logl[j]? = some y → x = y → i = j := by
    intro i j x y hi hj e
    have h1 := has.lt_iff hi hj
    have h2 := has.lt_iff hj hi
    rw [e] at h1 h2
    have h3 : ¬ i < j := by rw [← h1]; exact lt_irrefl _
    have h4 : ¬ j < i := by rw [← h2]; exact lt_irrefl _
    omega
  have hrow : ∀ i : Nat, i < l.length → ∃ s, l[i]? = some s := fun i hi => ⟨_, List.getElem?_eq_getElem hi⟩
  have hllen : labels.length = l.length := by rw [has.len, hrl, List.length_map]
  have hnext : ∀ (j i : Nat) (t s : Removal N), l[j]? = some t → l[i]? = some s → (Consecutive labels j i ↔ s.point ∈ t.born) := by
    intro j i t s hj hi
    obtain ⟨p, hp1, hp2, hp3, hp4⟩ := hat j t hj
    obtain ⟨q, hq1, hq2, hq3, hq4⟩ := hat i s hi
    constructor
    · intro hcon
      have hqb := has.linked j i p hp1 q hq1 hcon hp2 hq2
      rcases hlives.origin i s hi with h | ⟨j', hj', t', ht', hb'⟩
      · rw [hlives.initial (Finset.Subset.refl _) hi h, Option.some.injEq] at hq4
        have := hinit p hp1
        rw [← hqb, ← hq4] at this
        exact absurd this (lt_irrefl _)
      · have h1 := hbirth j' i t' s q ht' hi hb' hq4
        obtain ⟨p', -, h2, h3, -⟩ := hat j' t' ht'
        have : j = j' := hlt j j' _ _ hp2 h2 (by rw [← hqb, h1, h3])
        subst this
        rw [hj] at ht'
        cases ht'
        exact hb'
    · intro hb
      have hqb := hbirth j i t s q hj hi hb hq4
      rw [← hp3] at hqb
      obtain ⟨m, hm, hcon⟩ := has.maximal j i p hp1 q hq1 hp2 hq2 hqb
      obtain ⟨k, -, hk, -⟩ := hcon.2
      obtain ⟨z, hz1, hz2⟩ := has.row hk
      have hzb := has.linked j m p hp1 z hz1 hcon hp2 hz2
      have := hone z hz1 q hq1 (hzb.trans hqb.symm) (by rw [hzb]; exact (hinit p hp1).ne')
      rw [hlt m i _ _ hz2 hq2 this] at hcon
      exact hcon
  have hcont : ∀ i < d, ∃ m, Consecutive labels i m := by
    intro i hi
    have hil : i < l.length := by omega
    obtain ⟨s, hs'⟩ := hrow i hil
    have hit : i < its.length := by omega
    have h1 := (hadded.get hit hil).length_eq
    rw [List.getElem?_eq_getElem hil, Option.some.injEq] at hs'
    simp only [List.length_map, Finset.length_toList, List.get_eq_getElem] at h1
    rw [((hshape i _ (List.getElem?_eq_getElem hil)).1 hi).1] at h1
    obtain ⟨q, hq⟩ := List.exists_mem_of_length_pos (show 0 < its[i].born.length by omega)
    have hqs : q ∈ samples := by
      have := hex.run.points
      rw [List.append_nil] at this
      exact hperm.mem_iff.mpr (this.mem_iff.mpr (List.mem_append_right _ (List.mem_flatMap.mpr ⟨_, List.getElem_mem hit, hq⟩)))
    have hqb := (hex.run.born _ (List.getElem_mem hit) q hq).1
    obtain ⟨j, hj⟩ := has.pos hqs
    obtain ⟨m, -, hm⟩ := has.maximal i j its[i].dead (hperm.mem_iff.mpr (List.mem_map_of_mem (List.getElem_mem hit))) q hqs
      (by rw [e2, List.getElem?_map, List.getElem?_eq_getElem hit]; rfl) hj hqb
    exact ⟨m, hm⟩
  have hstop : ∀ (i : Nat) (s : Removal N), d ≤ i → l[i]? = some s → s.born = ∅ := fun i s hi hs' => ((hshape i s hs').2 hi).1
  have hend : ∀ i m : Nat, d ≤ i → ¬ Consecutive labels i m := by
    intro i m hi hcon
    have hm : m < l.length := by
      obtain ⟨k, -, hk, -⟩ := hcon.2
      rw [← hllen]; exact (List.getElem?_eq_some_iff.mp hk).1
    obtain ⟨s, hs'⟩ := hrow m hm
    obtain ⟨t, ht⟩ := hrow i (by have := hcon.1; omega)
    have := (hnext i m t s ht hs').mp hcon
    rw [hstop i t hi ht] at this
    simp at this
  have htl : tmm.length = start.card := by
    have hlast : ∀ k ∈ Finset.range tmm.length, ∃ i, LastOf labels k i := fun k hk => by
      exact exists_lastOf ((has.range k).mpr ⟨by omega, by have := Finset.mem_range.mp hk; omega⟩)
    choose! f hf using hlast
    have : (Finset.range tmm.length).card = (Finset.Ico d (d + start.card)).card := by
      refine Finset.card_nbij f ?_ ?_ ?_
      · intro k hk
        have h1 := hf k hk
        have hlt : f k < l.length := by rw [← hllen]; exact (List.getElem?_eq_some_iff.mp h1.1).1
        rw [Finset.coe_Ico, Set.mem_Ico]
        refine ⟨?_, by omega⟩
        by_contra hcon
        obtain ⟨m, hm⟩ := hcont (f k) (by omega)
        obtain ⟨k', g1, g2, -⟩ := hm.2
        rw [h1.1] at g1
        cases g1
        exact h1.2 m hm.1 g2
      · intro k hk k' hk' e
        have h1 := (hf k hk).1
        have h2 := (hf k' hk').1
        rw [e, h2] at h1
        have := Option.some.inj h1
        omega
      · intro i hi
        rw [Finset.coe_Ico, Set.mem_Ico] at hi
        have hil : i < labels.length := by omega
        obtain ⟨h0, h1⟩ := (has.range _).mp (List.getElem_mem hil)
        have hk : labels[i].toNat ∈ Finset.range tmm.length := Finset.mem_range.mpr (by omega)
        refine ⟨labels[i].toNat, hk, ?_⟩
        obtain ⟨g1, g2⟩ := hf _ hk
        have hi' : labels[i]? = some ((labels[i].toNat : Nat) : Int) := by
          rw [List.getElem?_eq_getElem hil]; congr 1; omega
        rcases Nat.lt_trichotomy (f labels[i].toNat) i with h | h | h
        · exact absurd hi' (g2 i h)
        · exact h
        · obtain ⟨q, hq⟩ := exists_next h hi' g1
          exact absurd hq (hend i q hi.1)
    rw [Finset.card_range, Nat.card_Ico] at this
    omega
  refine ⟨r, labels, tmm, d, e1, hrl, ?_, htl, ?_⟩
  · refine { toProperThreads := hv, static := hstatic, counts := ?_, remaining := ?_ }
    · intro i hi
      rw [hrl, List.length_map] at hi
      obtain ⟨s, hs'⟩ := hrow i hi
      have h4 : r.nlive = l.map (fun s => (s.alive : Int)) := by
        have := congrArg (List.map (fun m : Nat => (m : Int))) o3
        rw [List.map_map, List.map_map] at this
        exact e4.trans this
      rw [h4, List.getElem?_map, hs', Option.map_some, hrl, List.length_map, htl, hlen]
      obtain ⟨g1, g2⟩ := hshape i s hs'
      rcases Nat.lt_or_ge i d with h | h
      · rw [(g1 h).2, min_eq_left (by omega)]
      · rw [(g2 h).2, min_eq_right (by omega)]
    · have hd : d < l.length := by have := Finset.card_pos.mpr hs.nonempty; omega
      have hdr : d < r.logl.length := by rw [hrl, List.length_map]; exact hd
      have hle : ∀ i (hi : i < r.logl.length), r.logl[d] ≤ r.logl[i] ↔ d ≤ i := by
        intro i hi
        rw [← not_lt, has.lt_iff (List.getElem?_eq_getElem hi) (List.getElem?_eq_getElem hdr), not_lt]
      obtain ⟨e, he⟩ : ∃ e, e = r.logl[d] := ⟨_, rfl⟩
      rw [← he] at hle
      refine ⟨e, ?_, ?_⟩
      · intro p hp'
        obtain ⟨k, hk⟩ := List.mem_iff_getElem?.mp hp'
        have hkl := (List.getElem?_eq_some_iff.mp hk).1
        obtain ⟨i, hi⟩ := exists_lastOf ((has.range k).mpr ⟨by omega, by omega⟩)
        obtain ⟨q, hq1, hq2⟩ := has.row hi.1
        rw [has.stop k i q hq1 p hi hq2 hk]
        obtain ⟨hil, hiv⟩ := List.getElem?_eq_some_iff.mp hq2
        rw [← hiv, hle i hil]
        by_contra hcon
        obtain ⟨m, hm⟩ := hcont i (by omega)
        obtain ⟨k', g1, g2, -⟩ := hm.2
        rw [hi.1] at g1
        cases g1
        exact hi.2 m hm.1 g2
      · have h1 : (r.logl.take d).countP (fun x => decide (e ≤ x)) = 0 := by
          rw [List.countP_eq_zero]
          intro x hx
          obtain ⟨i, hi, rfl⟩ := List.getElem_of_mem hx
          rw [List.length_take] at hi
          rw [List.getElem_take, decide_eq_true_iff, hle _ _]
          omega
        have h2 : (r.logl.drop d).countP (fun x => decide (e ≤ x)) = (r.logl.drop d).length := by
          rw [List.countP_eq_length]
          intro x hx
          obtain ⟨i, hi, rfl⟩ := List.getElem_of_mem hx
          rw [List.getElem_drop, decide_eq_true_iff, hle _ _]
          omega
        rw [← List.take_append_drop d r.logl, List.countP_append, h1, h2, List.length_drop, hrl, List.length_map, hlen, htl]
        omega
  · refine ⟨hllen, hlen, fun k => by rw [has.range k, htl], hnext, ?_, hcont, hstop⟩
    intro k k' i i' hi hi' hkk
    obtain ⟨q, hq1, hq2⟩ := has.row hi.1
    obtain ⟨q', hq1', hq2'⟩ := has.row hi'.1
    have hb : ∀ {k i : Nat} {q : Sample ℝ}, FirstOf labels k i → q ∈ samples → r.logl[i]? = some q.logl → q.birth = init := by
      intro k i q hf hq hqi
      have hkl := ((has.range k).mp (List.mem_of_getElem? hf.1)).2
      have h1 := has.start k i q hq tmm[k] hf hqi (List.getElem?_eq_getElem (by omega))
      rw [hstatic _ (List.getElem_mem _)] at h1
      unfold startOf at h1
      by_contra hne
      rw [if_neg hne] at h1
      exact absurd h1 (by simp)
    have h1 := (C02_order R hc A da dw hp hv.labels_eq hi hi' hq1 hq1' hq2 hq2').mp hkk
    rw [hb hi hq1 hq2, hb hi' hq1' hq2'] at h1
    rcases h1 with h1 | ⟨-, h1⟩
    · exact absurd h1 (lt_irrefl _)
    · exact (has.lt_iff hq2 hq2').mp h1

end
end Nestcheck
