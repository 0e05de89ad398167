import Verif.Props.AnyEstimates

/-
C115: when all threads of a run with plateaus start from the whole prior.
-/

set_option linter.unusedSectionVars false

namespace Nestcheck
open Spec

section proper
variable {σ K : Type} [CommRing K] [LinearOrder K] (R : Rng σ K)

/-- At each loglikelihood of a sample at most as many samples were born as died there. -/
def Spec.Replaced (samples : List (Sample K)) : Prop :=
  ∀ t ∈ samples, samples.countP (fun s => decide (s.birth = t.logl)) ≤ samples.countP (fun s => decide (s.logl = t.logl))

theorem birthLoop_moreBirths {births logls : List K} {pairs : List (Nat × K)} {acc acc' : List (Option Int)} {w w' : World σ}
    (h : birthLoop R births logls pairs acc w = (.ok acc', w')) (hm : .moreBirths ∈ w'.warns) :
    .moreBirths ∈ w.warns ∨ ∃ x, 1 < (deathsOn logls x).length ∧
      (deathsOn logls x).length < (whereIdx (fun y => decide (y = x)) births).length := by
  induction pairs generalizing acc w with
  | nil => simp [birthLoop] at h; rw [h.2]; exact .inl hm
  | cons p rest ih =>
    obtain ⟨i, bl⟩ := p
    rw [birthLoop_cons] at h
    split_ifs at h with h1 h2
    · exact ih h
    · exact ih h
    · obtain ⟨inds, w1, h3, h4⟩ := M.bind_eq_ok.mp h
      rcases ih h4 with hm1 | hx
      swap
      · exact .inr hx
      rcases dupBirthInds_spec R births bl (deathsOn logls bl)
          (whereIdx (fun x => decide (x = bl)) births) whereIdx_nodup whereIdx_pairwise w with
        ⟨-, he⟩ | ⟨s, he⟩ | ⟨inds', s, -, he, -⟩ | ⟨inds', s, hl, he, hlt, -⟩
      · rw [he] at h3; simp at h3
      · rw [he] at h3; simp at h3
      · rw [he] at h3
        simp only [Prod.mk.injEq] at h3
        rw [← h3.2] at hm1; exact .inl hm1
      · exact .inr ⟨bl, hl, hlt⟩

theorem birthInds_moreBirths {A : Argsort K} {births logls : List K} {da dw : Bool} {w w' : World σ} {b : List Int}
    (h : birthInds A R births logls da dw w = (.ok b, w')) (hm : .moreBirths ∈ w'.warns) :
    .moreBirths ∈ w.warns ∨ ∃ x, 1 < (deathsOn logls x).length ∧
      (deathsOn logls x).length < (whereIdx (fun y => decide (y = x)) births).length := by
  classical
  rw [birthInds_eq] at h
  by_cases h1 : ¬ logls.Pairwise (· ≤ ·)
  · rw [if_pos h1] at h; simp at h
  rw [if_neg h1] at h
  by_cases h2 : da = true ∧ ¬ logls.Pairwise (· < ·)
  · rw [if_pos h2] at h; simp at h
  rw [if_neg h2] at h
  set ws := if ¬ logls.Pairwise (· < ·) ∧ dw = true then w.warns ++ [.dupLogl] else w.warns with hws
  have hsub : .moreBirths ∈ ws → .moreBirths ∈ w.warns := by rw [hws]; split_ifs <;> simp
  cases hb : births with
  | nil => rw [hb] at h; simp at h
  | cons init rest =>
    rw [hb] at h
    dsimp only at h
    rw [← hb] at h
    rw [← hb]
    by_cases h3 : births.length ≠ logls.length
    · rw [if_pos h3] at h; simp at h
    rw [if_neg h3] at h
    by_cases h4 : ¬ ∀ (i : Nat) (x y : K), births[i]? = some x → logls[i]? = some y → x ≤ y
    · rw [if_pos h4] at h; simp at h
    rw [if_neg h4] at h
    rcases hL : birthLoop R births logls ((List.range births.length).zip births)
        (births.map (fun b => if b = init then some (-1 : Int) else none)) ⟨R.seed 0, ws⟩ with ⟨e | acc, w1⟩
    · rw [hL] at h; simp at h
    · rw [hL] at h
      simp only at h
      by_cases hall : acc.all Option.isSome = true
      swap
      · rw [if_neg hall] at h; simp at h
      rw [if_pos hall] at h
      simp only [Prod.mk.injEq, Except.ok.injEq] at h
      obtain ⟨-, rfl⟩ := h
      exact (birthLoop_moreBirths R hL hm).imp hsub id

/-- C115.  If every sample was born strictly below its own loglikelihood, the threads of a returned run ascend strictly and
lie strictly above the contours they start from, whatever the plateaus.  All of them start from the whole prior exactly if
on no contour more samples were born than died there. -/
theorem C115_proper {A : Argsort K} {samples : List (Sample K)} {da dw : Bool} {w w' : World σ} {r : Run K}
    (hlt : ∀ s ∈ samples, s.birth < s.logl) (hdim : SameDim (samples.map (·.theta)))
    (h : processSamples A R samples da dw w = (.ok r, w')) :
    ∃ labels tmm, ProperThreads r labels tmm ∧ ((∀ p ∈ tmm, p.1 = ⊥) ↔ Replaced samples) := by
  -- the warnings issued before do not matter
  have hfr := processSamples_frame R A samples da dw w.rng w.warns
  rw [show (⟨w.rng, w.warns⟩ : World σ) = w from rfl, h] at hfr
  have h0 : processSamples A R samples da dw ⟨w.rng, []⟩ = (.ok r, (processSamples A R samples da dw ⟨w.rng, []⟩).2) :=
    Prod.ext (congrArg Prod.fst hfr).symm rfl
  clear hfr h
  generalize (processSamples A R samples da dw ⟨w.rng, []⟩).2 = w2 at h0
  have h := h0
  obtain ⟨rows, -, -, -, labels', tmm', hperm, -, hth', hv, -⟩ := C115_returns R h0
  unfold processSamples at h0
  obtain ⟨b, w1, hB, -⟩ := M.bind_eq_ok.mp h0
  obtain ⟨hbl, init, h00, hval⟩ := birthInds_val R hB
  obtain ⟨-, hsort, -, -, -, -, init', h00', hspec⟩ := birthInds_ok R hB
  obtain rfl : init' = init := by rw [h00] at h00'; exact (Option.some.inj h00').symm
  set S := sortBy A (·.logl) samples with hS
  have hp : S.Perm samples := sortBy_perm A _ samples
  have hSb : S.length = b.length := by rw [hbl, List.length_map]
  have hltS : ∀ (i : Nat) (s : Sample K), S[i]? = some s → s.birth < s.logl := fun i s hs =>
    hlt s (hp.mem_iff.mp (List.mem_of_getElem? hs))
  have hlogl : ∀ (i : Nat) (s : Sample K), S[i]? = some s → (S.map (·.logl))[i]? = some s.logl := by
    intro i s hs; rw [List.getElem?_map, hs]; rfl
  have hbirth : ∀ (i : Nat) (s : Sample K), S[i]? = some s → (S.map (·.birth))[i]? = some s.birth := by
    intro i s hs; rw [List.getElem?_map, hs]; rfl
  have hbs : ∀ (i : Nat) (s : Sample K), S[i]? = some s →
      (s.birth = init' ∧ bAt b i = -1) ∨ (s.birth ≠ init' ∧ ∃ d : Nat, bAt b i = d ∧ (S.map (·.logl))[d]? = some s.birth) := by
    intro i s hs
    exact hval i s.birth _ (hbirth i s hs) (getElem?_bAt (by rw [← hSb]; exact (List.getElem?_eq_some_iff.mp hs).1))
  have hle : ∀ (i j : Nat) (x y : K), i ≤ j → (S.map (·.logl))[i]? = some x → (S.map (·.logl))[j]? = some y → x ≤ y := by
    intro i j x y hij hx hy
    rcases Nat.lt_or_eq_of_le hij with hlt | rfl
    · exact pairwise_iff_getElem?.mp hsort i j x y hlt hx hy
    · rw [hx] at hy; exact (Option.some.inj hy).le
  have hmono : ∀ (i j : Nat) (x y : K), (S.map (·.logl))[i]? = some x → (S.map (·.logl))[j]? = some y → x < y → i < j := by
    intro i j x y hx hy hxy
    by_contra hh
    exact absurd (hle j i y x (by omega) hy hx) (not_le.mpr hxy)
  have hbv : BirthsValid b := by
    intro i v hv
    have hil : i < S.length := by rw [hSb]; exact (List.getElem?_eq_some_iff.mp hv).1
    have hi := List.getElem?_eq_getElem hil
    rw [← bAt_eq hv]
    rcases hbs i _ hi with ⟨-, h⟩ | ⟨-, d, h, hd⟩
    · omega
    · have := hmono d i _ _ hd (hlogl i _ hi) (hltS i _ hi)
      omega
  have hinit : ∀ x, x ∈ S.map (·.logl) → init' < x := by
    intro x hx
    obtain ⟨j, hj⟩ := List.mem_iff_getElem?.mp hx
    have hpos : 0 < S.length := by
      have := (List.getElem?_eq_some_iff.mp hj).1
      rw [List.length_map] at this; omega
    have hs0 := List.getElem?_eq_getElem hpos
    have hb0 : S[0].birth = init' := by
      rw [hbirth 0 _ hs0] at h00; exact Option.some.inj h00
    rw [← hb0]
    exact lt_of_lt_of_le (hltS 0 _ hs0) (hle 0 j _ _ (Nat.zero_le _) (hlogl 0 _ hs0) hj)
  obtain ⟨labels, tmm, nlive, st, en, hth, hrun, htl, htm, hnl, -⟩ :=
    processSamples_of R hB (by rw [← hSb, hp.length_eq]) hbv
  rw [hrun] at h
  simp only [Prod.mk.injEq, Except.ok.injEq] at h
  obtain ⟨rfl, rfl⟩ := h
  obtain rfl : labels.map Int.ofNat = labels' := Option.some.inj hv.labels_eq
  obtain rfl : tmm = tmm' := Option.some.inj hv.tmm_eq
  have hlab : ∀ (i k : Nat), (labels.map Int.ofNat)[i]? = some (k : Int) ↔ labels[i]? = some k := by
    intro i k
    rw [List.getElem?_map]
    cases labels[i]? <;> simp
  -- a sample which is not the first of its thread
  have hasc : ∀ (i j k : Nat) (x y : K), i < j → labels[i]? = some k → labels[j]? = some k →
      (S.map (·.logl))[i]? = some x → (S.map (·.logl))[j]? = some y → x < y := by
    intro i j k x y hij hi hj hx hy
    obtain ⟨s, hs, hci⟩ := (hth.2 i k).mp hi
    obtain ⟨s', hs', hcj⟩ := (hth.2 j k).mp hj
    rw [hs] at hs'
    obtain rfl : s = s' := Option.some.inj hs'
    have hij' : Chain b i j := by
      rcases chain_total hci hcj with hc | hc
      · exact hc
      · have := chain_le (fun c j h => hbv.heir_gt h) hc
        omega
    cases hij' with
    | refl => omega
    | @step c j hc hj' =>
      have hic := chain_le (fun c j h => hbv.heir_gt h) hc
      have hbj := heir_birth hj'
      have hjl : j < S.length := by rw [hSb]; exact (List.getElem?_eq_some_iff.mp hbj).1
      have hsj := List.getElem?_eq_getElem hjl
      rw [hlogl j _ hsj] at hy
      cases hy
      rcases hbs j _ hsj with ⟨-, e⟩ | ⟨-, d, e, hd⟩
      · rw [bAt_eq hbj] at e; omega
      · rw [bAt_eq hbj] at e
        obtain rfl : c = d := by exact_mod_cast e
        exact lt_of_le_of_lt (hle i c _ _ hic hx hd) (hltS j _ hsj)
  refine ⟨_, _, ⟨hv, ?_, ?_, ?_⟩, ?_⟩
  · intro s hs t ht
    have hsub : ∀ u ∈ S.map (·.theta), u ∈ samples.map (·.theta) := fun u hu => (hp.map _).mem_iff.mp hu
    exact hdim s (hsub s hs) t (hsub t ht)
  · intro i j k x y hij hi hj hx hy
    have hk : 0 ≤ k := ((hv.labels_range k).mp (List.mem_of_getElem? hi)).1
    obtain ⟨k, rfl⟩ := Int.eq_ofNat_of_zero_le hk
    exact hasc i j k x y hij ((hlab i k).mp hi) ((hlab j k).mp hj) hx hy
  · intro i k mm x hmm hk hx
    have hkl : k < (starters b).length := by
      rw [← htl]; exact (List.getElem?_eq_some_iff.mp hmm).1
    obtain ⟨hst, hta, hmm'⟩ := htm k hkl
    rw [hmm] at hmm'
    obtain rfl := Option.some.inj hmm'
    have hsi := hta.start_le i ((hlab i k).mp hk)
    have hsl : st k < S.length := by rw [hSb]; exact starters_lt (List.mem_of_getElem? hst)
    have hs := List.getElem?_eq_getElem hsl
    have hxs := hle (st k) i _ x hsi (hlogl _ _ hs) hx
    rcases hbs _ _ hs with ⟨-, e⟩ | ⟨-, d, e, hd⟩
    · simp [threadRange, e]
    · have hne : bAt b (st k) ≠ -1 := by omega
      have hd' : (((sortBy A (·.logl) samples).map (·.logl))[d]?.getD 0 : K) = S[st k].birth := by
        rw [← hS, hd]; rfl
      simp only [threadRange, if_neg hne, e, Int.toNat_natCast, hd']
      exact WithBot.coe_lt_coe.mpr (lt_of_lt_of_le (hltS _ _ hs) hxs)
  · have hcb : ∀ x, samples.countP (fun s => decide (s.birth = x)) =
        (whereIdx (fun y => decide (y = x)) (S.map (·.birth))).length := by
      intro x
      rw [length_whereIdx, List.countP_map, ← hp.countP_eq]
      rfl
    have hcd : ∀ x, samples.countP (fun s => decide (s.logl = x)) = (deathsOn (S.map (·.logl)) x).length := by
      intro x
      unfold deathsOn
      rw [length_whereIdx, List.countP_map, ← hp.countP_eq]
      rfl
    have hmemS : ∀ x, x ∈ S.map (·.logl) ↔ ∃ t ∈ samples, t.logl = x := by
      intro x
      rw [(hp.map (·.logl)).mem_iff, List.mem_map]
    constructor
    · intro hstat t ht
      by_contra hgt
      rw [hcb, hcd, not_le] at hgt
      -- two samples with the same birth index
      obtain ⟨i, hi, j, hj, hne, heq⟩ := Finset.exists_ne_map_eq_of_card_lt_of_maps_to
        (s := (whereIdx (fun y => decide (y = t.logl)) (S.map (·.birth))).toFinset)
        (t := (deathsOn (S.map (·.logl)) t.logl).toFinset) (f := fun i => (bAt b i).toNat) (by
          rw [List.toFinset_card_of_nodup whereIdx_nodup,
            List.toFinset_card_of_nodup (show (deathsOn (S.map (·.logl)) t.logl).Nodup from whereIdx_nodup)]
          exact hgt) (by
          intro i hi
          rw [Finset.mem_coe, List.mem_toFinset, mem_whereIdx_eq, List.getElem?_map] at hi
          obtain ⟨s, hs, hsb⟩ := Option.map_eq_some_iff.mp hi
          rw [Finset.mem_coe, List.mem_toFinset, mem_deathsOn]
          have hx := hinit t.logl ((hmemS _).mpr ⟨t, ht, rfl⟩)
          rcases hbs i s hs with ⟨e, -⟩ | ⟨-, d, e, hd⟩
          · rw [hsb] at e; rw [e] at hx; exact absurd hx (lt_irrefl _)
          · simp only [e, Int.toNat_natCast]
            rw [← hsb]; exact hd)
      have key : ∀ i j, i < j → i ∈ whereIdx (fun y => decide (y = t.logl)) (S.map (·.birth)) →
          j ∈ whereIdx (fun y => decide (y = t.logl)) (S.map (·.birth)) → (bAt b i).toNat = (bAt b j).toNat → False := by
        intro i j hij hi hj heq
        have hbi : ∀ i, i ∈ whereIdx (fun y => decide (y = t.logl)) (S.map (·.birth)) →
            b[i]? = some (((bAt b i).toNat : Nat) : Int) := by
          intro i hi
          rw [mem_whereIdx_eq, List.getElem?_map] at hi
          obtain ⟨s, hs, hsb⟩ := Option.map_eq_some_iff.mp hi
          have hx := hinit t.logl ((hmemS _).mpr ⟨t, ht, rfl⟩)
          rcases hbs i s hs with ⟨e, -⟩ | ⟨-, d, e, hd⟩
          · rw [hsb] at e; rw [e] at hx; exact absurd hx (lt_irrefl _)
          · rw [e, Int.toNat_natCast, ← e]
            exact getElem?_bAt (by rw [← hSb]; exact (List.getElem?_eq_some_iff.mp hs).1)
        have h1 := hbi i hi
        have h2 := hbi j hj
        rw [heq] at h1
        have hmem : j ∈ starters b := mem_starters.mpr ⟨_, h2, .inr ⟨i, hij, h1⟩⟩
        obtain ⟨k, hk⟩ := List.mem_iff_getElem?.mp hmem
        have hkl := (List.getElem?_eq_some_iff.mp hk).1
        obtain ⟨hst, -, hmm⟩ := htm k hkl
        have hjst : j = st k := by rw [hk] at hst; exact Option.some.inj hst
        have hbot := hstat _ (List.mem_of_getElem? hmm)
        have hne : bAt b (st k) ≠ -1 := by
          rw [← hjst, bAt_eq h2]; omega
        simp [threadRange, hne] at hbot
      rw [List.mem_toFinset] at hi hj
      rcases Nat.lt_or_gt_of_ne hne with hlt' | hlt'
      · exact key i j hlt' hi hj heq
      · exact key j i hlt' hj hi heq.symm
    · intro hrep
      have hnm : Warn.moreBirths ∉ w1.warns := by
        intro hm
        rcases birthInds_moreBirths R hB hm with hc | ⟨x, hx1, hx2⟩
        · simp at hc
        · obtain ⟨d, hd⟩ := List.exists_mem_of_length_pos (show 0 < (deathsOn (S.map (·.logl)) x).length by omega)
          obtain ⟨t, ht, htx⟩ := (hmemS x).mp (List.mem_of_getElem? (mem_deathsOn.mp hd))
          have := hrep t ht
          rw [htx, hcb, hcd] at this
          omega
      obtain ⟨-, hbi, -⟩ := hspec hnm
      intro p hpm
      obtain ⟨k, hk⟩ := List.mem_iff_getElem?.mp hpm
      have hkl : k < (starters b).length := by
        rw [← htl]; exact (List.getElem?_eq_some_iff.mp hk).1
      obtain ⟨hst, -, hmm⟩ := htm k hkl
      rw [hk] at hmm
      obtain rfl := Option.some.inj hmm
      have hsl : st k < S.length := by rw [hSb]; exact starters_lt (List.mem_of_getElem? hst)
      have hs := List.getElem?_eq_getElem hsl
      rcases hbs _ _ hs with ⟨-, e⟩ | ⟨hni, d, e, hd⟩
      · simp [threadRange, e]
      · exfalso
        obtain ⟨v, hv1, hv2⟩ := mem_starters.mp (List.mem_of_getElem? hst)
        have hve : v = d := by rw [← bAt_eq hv1]; exact e
        rcases hv2 with hmin | ⟨j, hj, hjv⟩
        · have := (hbv.lowest_iff hv1).mp hmin
          omega
        · have hjl : j < S.length := by rw [hSb]; exact (List.getElem?_eq_some_iff.mp hjv).1
          have hsj := List.getElem?_eq_getElem hjl
          have hjb : S[j].birth = S[st k].birth := by
            rcases hbs _ _ hsj with ⟨-, e'⟩ | ⟨-, d', e', hd'⟩
            · rw [bAt_eq hjv] at e'; omega
            · rw [bAt_eq hjv, hve] at e'
              obtain rfl : d = d' := by exact_mod_cast e'
              rw [hd] at hd'; exact (Option.some.inj hd').symm
          by_cases hone : 1 < (deathsOn (S.map (·.logl)) S[st k].birth).length
          · exact hbi.inj j (st k) _ v (by omega) (by rw [hbirth _ _ hsj, hjb]) (hbirth _ _ hs) hni hone hjv hv1
          · obtain ⟨t, ht, htx⟩ := (hmemS _).mp (List.mem_of_getElem? hd)
            have hr := hrep t ht
            rw [htx, hcb, hcd] at hr
            have hm1 : j ∈ whereIdx (fun y => decide (y = S[st k].birth)) (S.map (·.birth)) :=
              mem_whereIdx_eq.mpr (by rw [hbirth _ _ hsj, hjb])
            have hm2 : st k ∈ whereIdx (fun y => decide (y = S[st k].birth)) (S.map (·.birth)) :=
              mem_whereIdx_eq.mpr (hbirth _ _ hs)
            have hsub : [j, st k].Subperm (whereIdx (fun y => decide (y = S[st k].birth)) (S.map (·.birth))) :=
              List.subperm_of_subset (by simp; omega) (by
                intro z hz
                rcases List.mem_cons.mp hz with rfl | hz
                · exact hm1
                · rw [List.mem_singleton.mp hz]; exact hm2)
            have := hsub.length_le
            simp only [List.length_cons, List.length_nil] at this
            omega

end proper

noncomputable section
variable {σ : Type} (A : Argsort ℝ) (R : Rng σ ℝ)

/-- C115.  Bootstrap error estimates for arrays with plateaus: if every sample was born strictly below its own loglikelihood
and on no contour more samples were born than died there, then bootstrap values, standard deviations and credible intervals
of the estimators of the package are computed from a returned run without exceptions and without nan. -/
theorem C115_bootstrap {samples : List (Sample ℝ)} (hlt : ∀ s ∈ samples, s.birth < s.logl) (hrep : Replaced samples)
    {d : Nat} (hd : ∀ s ∈ samples, s.theta.length = d) {da dw : Bool} {w w' : World σ} {r : Run ℝ}
    (h : processSamples A R samples da dw w = (.ok r, w')) {es : List Estimator} (he : ∀ e ∈ es, Applies d e)
    (flip : Bool) {n : Nat} (hn : 2 ≤ n) (c : ℝ) (v : World σ) :
    StaticRun r ∧
    (∃ vals : List (List ℝ), runBootstrapValues A R r none (es.map (·.call A R)) n false flip none v =
      (.ok (vals.map (·.map some)), v) ∧ vals.length = es.length ∧ ∀ row ∈ vals, row.length = n) ∧
    (∃ stds : List ℝ, runStdBootstrap A R r none (es.map (·.call A R)) n false flip none v = (.ok (stds.map some), v) ∧
      stds.length = es.length ∧ ∀ x ∈ stds, 0 ≤ x) ∧
    ∃ cis : List ℝ, runCiBootstrap A R r none (es.map (·.call A R)) c n false flip none v = (.ok (cis.map some), v) ∧
      cis.length = es.length := by
  obtain ⟨-, hest⟩ := C115_estimable A R hlt hd h
  obtain ⟨labels, tmm, hp, hst⟩ := C115_proper R hlt (by
    intro a ha b hb
    obtain ⟨s, hs, rfl⟩ := List.mem_map.mp ha
    obtain ⟨t, ht, rfl⟩ := List.mem_map.mp hb
    rw [hd s hs, hd t ht]) h
  have hs : StaticRun r := ⟨labels, tmm, hp, hst.mpr hrep, hest.weighable.pos⟩
  obtain ⟨v', k1, k2, k3, k4⟩ := C82_bootstrap A R hs hest.dim he (settings := none) (sep := false) (by simp [separately])
    (n := n) flip (seeds := none) (by simp) v
  rw [k1 rfl (by simp)] at k2 k3 k4
  exact ⟨hs, k2, k3 hn, k4 (by omega) c⟩

/-- Two samples on a plateau at 1 and two samples born on it. -/
def plateauReal : List (Sample ℝ) :=
  [⟨[10, 1], 1, -100⟩, ⟨[20, 4], 1, -100⟩, ⟨[30, 9], 2, 1⟩, ⟨[40, 2], 3, 1⟩]

/-- The hypotheses can be met. -/
example (w : World Nat) : ∃ (r : Run ℝ) (w' : World Nat), processSamples A halfRng plateauReal false false w = (.ok r, w') ∧
    StaticRun r ∧ ∀ v, ∃ stds : List ℝ, runStdBootstrap A halfRng r none ([Estimator.logz, .paramMean 1 false].map (·.call A halfRng))
      10 false false none v = (.ok (stds.map some), v) ∧ stds.length = 2 ∧ ∀ x ∈ stds, 0 ≤ x := by
  have hlt : ∀ s ∈ plateauReal, s.birth < s.logl := by simp [plateauReal]; norm_num
  have hd : ∀ s ∈ plateauReal, s.theta.length = 2 := by simp [plateauReal]
  have hrep : Replaced plateauReal := by
    intro t ht
    simp only [plateauReal, List.mem_cons, List.not_mem_nil, or_false] at ht
    rcases ht with rfl | rfl | rfl | rfl <;> norm_num [plateauReal, List.countP_cons]
  have he : ∀ e ∈ [Estimator.logz, .paramMean 1 false], Applies 2 e := by simp [Applies]
  obtain ⟨r, w', h1, -⟩ := C115_estimates A halfRng (samples := plateauReal) (by simp [plateauReal]) hlt (init := -100)
    (by simp [plateauReal]) hd he halfRng_positive false true (n := 10) (by norm_num) w
  exact ⟨r, w', h1, (C115_bootstrap A halfRng hlt hrep hd h1 he false (n := 10) (by norm_num) 0.5 w).1, fun v =>
    (C115_bootstrap A halfRng hlt hrep hd h1 he false (n := 10) (by norm_num) 0.5 v).2.2.1⟩

/-- With three samples born on the plateau a thread starts there. -/
example : ¬ Replaced crowdedReal := by
  intro h
  have := h ⟨[10, 1], 1, -100⟩ (by simp [crowdedReal])
  norm_num [crowdedReal, List.countP_cons] at this

end
end Nestcheck
