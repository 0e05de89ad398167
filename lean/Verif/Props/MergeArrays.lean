import Verif.Spec.Heirs
import Verif.Props.Sampler
import Verif.Props.Combine

/-
C88: combining processed runs is processing the combined dead-birth array.
-/

set_option linter.unusedSectionVars false

namespace Nestcheck
open Spec

/-! ### Threads are lineages -/

section lineages
variable {σ K : Type} [CommRing K] [LinearOrder K] [IsStrictOrderedRing K] (R : Rng σ K)

theorem exists_pred {labels : List Int} {i j : Nat} (hij : i < j) {k : Int} (hi : labels[i]? = some k) (hj : labels[j]? = some k) :
    ∃ q, i ≤ q ∧ Consecutive labels q j := by
  classical
  have hex : ∃ d, d < j - i ∧ labels[j - 1 - d]? = some k :=
    ⟨j - 1 - i, by omega, by rw [show j - 1 - (j - 1 - i) = i by omega]; exact hi⟩
  obtain ⟨hd1, hd2⟩ := Nat.find_spec hex
  refine ⟨j - 1 - Nat.find hex, by omega, by omega, k, hd2, hj, ?_⟩
  intro m h1 h2 h3
  refine Nat.find_min hex (m := j - 1 - m) (by omega) ⟨by omega, ?_⟩
  rw [show j - 1 - (j - 1 - m) = m by omega]
  exact h3

theorem exists_succ {labels : List Int} {i j : Nat} (hij : i < j) {k : Int} (hi : labels[i]? = some k) (hj : labels[j]? = some k) :
    ∃ q, Consecutive labels i q := by
  classical
  have hex : ∃ m, i < m ∧ labels[m]? = some k := ⟨j, hij, hj⟩
  obtain ⟨h1, h2⟩ := Nat.find_spec hex
  exact ⟨Nat.find hex, h1, k, hi, h2, fun m a b c => Nat.find_min hex b ⟨a, c⟩⟩

theorem consecutive_unique {labels : List Int} {i j j' : Nat} (h : Consecutive labels i j) (h' : Consecutive labels i j') : j = j' := by
  obtain ⟨a1, k, a2, a3, a4⟩ := h
  obtain ⟨b1, k', b2, b3, b4⟩ := h'
  rw [a2] at b2
  cases b2
  rcases Nat.lt_trichotomy j j' with hh | hh | hh
  · exact absurd a3 (b4 j a1 hh)
  · exact hh
  · exact absurd b3 (a4 j' b1 hh)

/-- What the theorems about C01–C03 say of a processed run. -/
structure ProcessedAs (samples : List (Sample K)) (init : K) (r : Run K) (labels : List Int) (tmm : List (WithBot K × K)) : Prop where
  labels_eq : r.labels = some labels
  tmm_eq : r.tmm = some tmm
  len : labels.length = r.logl.length
  strict : r.logl.Pairwise (· < ·)
  logl_perm : r.logl.Perm (samples.map (·.logl))
  range : ∀ k : Int, k ∈ labels ↔ 0 ≤ k ∧ k < tmm.length
  linked : ∀ i j : Nat, ∀ s ∈ samples, ∀ t ∈ samples, Consecutive labels i j →
    r.logl[i]? = some s.logl → r.logl[j]? = some t.logl → t.birth = s.logl
  start : ∀ k i : Nat, ∀ s ∈ samples, ∀ mm, FirstOf labels k i → r.logl[i]? = some s.logl →
    tmm[k]? = some mm → mm.1 = startOf init s
  stop : ∀ k i : Nat, ∀ s ∈ samples, ∀ mm, LastOf labels k i → r.logl[i]? = some s.logl →
    tmm[k]? = some mm → mm.2 = s.logl
  maximal : ∀ i j : Nat, ∀ s ∈ samples, ∀ t ∈ samples, r.logl[i]? = some s.logl → r.logl[j]? = some t.logl →
    t.birth = s.logl → ∃ m ≤ j, Consecutive labels i m

theorem processedAs {samples : List (Sample K)} {init : K} (hc : Consistent samples init) (A : Argsort K) (da dw : Bool)
    {w w' : World σ} {r : Run K} (h : processSamples A R samples da dw w = (.ok r, w')) :
    ∃ labels tmm, ProcessedAs samples init r labels tmm := by
  obtain ⟨labels, tmm, t1, t2, t3, t4, t5, t6, t7⟩ := C02_thread_partition R hc A da dw _ _ h
  obtain ⟨labels', m1, m2⟩ := C02_maximal R hc A da dw _ _ h
  rw [t1] at m1
  cases m1
  obtain ⟨⟨_, _, hv⟩, v2, -, v4, v5, v6⟩ := C03_valid_lossless R hc A da dw _ _ h
  refine ⟨labels, tmm, t1, t2, by omega, ?_, ?_, t4, t5, t6, t7, m2⟩
  · rw [pairwise_iff_getElem?]
    intro i j x y hij hx hy
    exact lt_of_le_of_ne (hv.sorted i j x y hij hx hy) (v2 i j x y hij hx hy)
  · have := v6.map Prod.fst
    rwa [List.map_fst_zip (by omega), List.map_map] at this

section
variable {R} {samples : List (Sample K)} {init : K} {r : Run K} {labels : List Int} {tmm : List (WithBot K × K)}

theorem ProcessedAs.pos (h : ProcessedAs samples init r labels tmm) {s : Sample K} (hs : s ∈ samples) :
    ∃ i : Nat, r.logl[i]? = some s.logl :=
  List.mem_iff_getElem?.mp (h.logl_perm.mem_iff.mpr (List.mem_map_of_mem hs))

theorem ProcessedAs.row (h : ProcessedAs samples init r labels tmm) {i : Nat} {k : Int} (hi : labels[i]? = some k) :
    ∃ s ∈ samples, r.logl[i]? = some s.logl := by
  have hil : i < r.logl.length := by rw [← h.len]; exact (List.getElem?_eq_some_iff.mp hi).1
  obtain ⟨s, hs, e⟩ := List.mem_map.mp (h.logl_perm.mem_iff.mp (List.getElem_mem hil))
  exact ⟨s, hs, by rw [e, List.getElem?_eq_getElem hil]⟩

theorem ProcessedAs.label (h : ProcessedAs samples init r labels tmm) {i : Nat} {l : K} (hi : r.logl[i]? = some l) :
    ∃ k : Nat, labels[i]? = some (k : Int) ∧ k < tmm.length := by
  have hil : i < labels.length := by rw [h.len]; exact (List.getElem?_eq_some_iff.mp hi).1
  obtain ⟨h0, h1⟩ := (h.range _).mp (List.getElem_mem hil)
  exact ⟨labels[i].toNat, by rw [List.getElem?_eq_getElem hil]; congr 1; omega, by omega⟩

theorem ProcessedAs.lt_iff (h : ProcessedAs samples init r labels tmm) {i j : Nat} {x y : K} (hi : r.logl[i]? = some x)
    (hj : r.logl[j]? = some y) : x < y ↔ i < j := by
  have hs := pairwise_iff_getElem?.mp h.strict
  constructor
  · intro hxy
    rcases Nat.lt_trichotomy i j with hh | hh | hh
    · exact hh
    · subst hh
      rw [hi] at hj
      cases hj
      exact absurd hxy (lt_irrefl _)
    · exact absurd hxy (hs j i y x hh hj hi).asymm
  · intro hij
    exact hs i j x y hij hi hj

theorem ProcessedAs.heir_iff (hc : Consistent samples init) (h : ProcessedAs samples init r labels tmm) {i j : Nat} {s t : Sample K}
    (hs : s ∈ samples) (ht : t ∈ samples) (hi : r.logl[i]? = some s.logl) (hj : r.logl[j]? = some t.logl) :
    Heir samples s t ↔ Consecutive labels i j := by
  constructor
  · rintro ⟨-, -, e, hmin⟩
    obtain ⟨m, hm, hcm⟩ := h.maximal i j s hs t ht hi hj e
    obtain ⟨k, -, hmk, -⟩ := hcm.2
    obtain ⟨u, hu, hmu⟩ := h.row hmk
    have hle := hmin u hu (h.linked i m s hs u hu hcm hi hmu)
    have : ¬ m < j := by
      rw [← h.lt_iff hmu hj]
      exact hle.not_gt
    rw [show j = m by omega]
    exact hcm
  · intro hcon
    refine ⟨hs, ht, h.linked i j s hs t ht hcon hi hj, ?_⟩
    intro u hu e
    obtain ⟨p, hp⟩ := h.pos hu
    obtain ⟨m, hm, hcm⟩ := h.maximal i p s hs u hu hi hp e
    obtain rfl := consecutive_unique hcon hcm
    by_contra hlt
    exact absurd ((h.lt_iff hp hj).mp (not_le.mp hlt)) (by omega)

theorem lineage_mem {s t : Sample K} (hs : s ∈ samples) (h : Lineage samples s t) : t ∈ samples := by
  induction h with
  | refl => exact hs
  | tail _ h _ => exact h.2.1

theorem ProcessedAs.lineage_of_label (hc : Consistent samples init) (h : ProcessedAs samples init r labels tmm) {i j : Nat} {k : Int}
    (hij : i ≤ j) (hik : labels[i]? = some k) (hjk : labels[j]? = some k) {s t : Sample K} (hs : s ∈ samples) (ht : t ∈ samples)
    (hi : r.logl[i]? = some s.logl) (hj : r.logl[j]? = some t.logl) : Lineage samples s t := by
  induction j using Nat.strong_induction_on generalizing t with
  | _ j ih =>
    rcases Nat.eq_or_lt_of_le hij with rfl | hlt
    · rw [hi] at hj
      rw [List.inj_on_of_nodup_map hc.distinct hs ht (Option.some.inj hj)]
      exact .refl
    · obtain ⟨q, hq, hcq⟩ := exists_pred hlt hik hjk
      obtain ⟨k', e1, e2, -⟩ := hcq.2
      rw [hjk] at e2
      cases e2
      obtain ⟨u, hu, hqu⟩ := h.row e1
      exact .tail (ih q hcq.1 hq e1 hu hqu) ((h.heir_iff hc hu ht hqu hj).mpr hcq)

theorem ProcessedAs.label_of_lineage (hc : Consistent samples init) (h : ProcessedAs samples init r labels tmm) {i j : Nat}
    {s t : Sample K} (hs : s ∈ samples) (hl : Lineage samples s t) (hi : r.logl[i]? = some s.logl)
    (hj : r.logl[j]? = some t.logl) : i ≤ j ∧ labels[i]? = labels[j]? := by
  induction hl generalizing j with
  | refl =>
    have h1 := fun hlt => (h.lt_iff hi hj).mpr hlt
    have h2 := fun hlt => (h.lt_iff hj hi).mpr hlt
    have : i = j := by
      rcases Nat.lt_trichotomy i j with hh | hh | hh
      · exact absurd (h1 hh) (lt_irrefl _)
      · exact hh
      · exact absurd (h2 hh) (lt_irrefl _)
    subst this
    exact ⟨le_refl _, rfl⟩
  | @tail u t hsu hut ih =>
    obtain ⟨p, hp⟩ := h.pos hut.1
    obtain ⟨h1, h2⟩ := ih hp
    have hcon := (h.heir_iff hc hut.1 hut.2.1 hp hj).mp hut
    obtain ⟨hpj, k, e1, e2, -⟩ := hcon
    exact ⟨by omega, by rw [h2, e1, e2]⟩

/-- Samples have the same label exactly if one descends from the other. -/
theorem ProcessedAs.label_iff (hc : Consistent samples init) (h : ProcessedAs samples init r labels tmm) {i j : Nat}
    {s t : Sample K} (hs : s ∈ samples) (ht : t ∈ samples) (hi : r.logl[i]? = some s.logl) (hj : r.logl[j]? = some t.logl) :
    labels[i]? = labels[j]? ↔ Lineage samples s t ∨ Lineage samples t s := by
  obtain ⟨k, hk, -⟩ := h.label hi
  constructor
  · intro e
    rw [hk] at e
    rcases Nat.le_total i j with hij | hij
    · exact .inl (h.lineage_of_label hc hij hk e.symm hs ht hi hj)
    · exact .inr (h.lineage_of_label hc hij e.symm hk ht hs hj hi)
  · rintro (hl | hl)
    · exact (h.label_of_lineage hc hs hl hi hj).2
    · exact (h.label_of_lineage hc ht hl hj hi).2.symm

/-- The rows of `thread_min_max` are the starts and ends of the maximal lineages. -/
theorem ProcessedAs.mem_tmm (hc : Consistent samples init) (h : ProcessedAs samples init r labels tmm) (p : WithBot K × K) :
    p ∈ tmm ↔ ∃ s t, s ∈ samples ∧ (∀ u, ¬ Heir samples u s) ∧ (∀ u, ¬ Heir samples t u) ∧ Lineage samples s t ∧
      p = (startOf init s, t.logl) := by
  constructor
  · intro hp
    obtain ⟨k, hk⟩ := List.mem_iff_getElem?.mp hp
    have hkm : (k : Int) ∈ labels := (h.range k).mpr ⟨by omega, by
      have := (List.getElem?_eq_some_iff.mp hk).1; omega⟩
    obtain ⟨f, hf⟩ := exists_firstOf hkm
    obtain ⟨l, hl⟩ := exists_lastOf hkm
    obtain ⟨s, hs, hfs⟩ := h.row hf.1
    obtain ⟨t, ht, hlt⟩ := h.row hl.1
    have hfl : f ≤ l := by
      by_contra hcon
      exact hf.2 l (by omega) hl.1
    refine ⟨s, t, hs, ?_, ?_, h.lineage_of_label hc hfl hf.1 hl.1 hs ht hfs hlt, ?_⟩
    · intro u hu
      obtain ⟨q, hq⟩ := h.pos hu.1
      obtain ⟨hqf, k', e1, e2, -⟩ := (h.heir_iff hc hu.1 hs hq hfs).mp hu
      rw [hf.1] at e2
      cases e2
      exact hf.2 q hqf e1
    · intro u hu
      obtain ⟨q, hq⟩ := h.pos hu.2.1
      obtain ⟨hqf, k', e1, e2, -⟩ := (h.heir_iff hc ht hu.2.1 hlt hq).mp hu
      rw [hl.1] at e1
      cases e1
      exact hl.2 q hqf e2
    · exact Prod.ext (h.start k f s hs p hf hfs hk) (h.stop k l t ht p hl hlt hk)
  · rintro ⟨s, t, hs, h1, h2, h3, rfl⟩
    have ht := lineage_mem hs h3
    obtain ⟨f, hf⟩ := h.pos hs
    obtain ⟨l, hl⟩ := h.pos ht
    obtain ⟨k, hk, hkt⟩ := h.label hf
    have hkl := (h.label_of_lineage hc hs h3 hf hl).2
    rw [hk] at hkl
    have hfo : FirstOf labels k f := by
      refine ⟨hk, ?_⟩
      intro j hj hjk
      obtain ⟨q, hq, hcq⟩ := exists_pred hj hjk hk
      obtain ⟨k', e1, -⟩ := hcq.2
      obtain ⟨u, hu, hqu⟩ := h.row e1
      exact h1 u ((h.heir_iff hc hu hs hqu hf).mpr hcq)
    have hlo : LastOf labels k l := by
      refine ⟨hkl.symm, ?_⟩
      intro j hj hjk
      obtain ⟨q, hcq⟩ := exists_succ hj hkl.symm hjk
      obtain ⟨k', -, e1, -⟩ := hcq.2
      obtain ⟨u, hu, hqu⟩ := h.row e1
      exact h2 u ((h.heir_iff hc ht hu hl hqu).mpr hcq)
    have e := List.getElem?_eq_getElem hkt
    have e' : tmm[k] = (startOf init s, t.logl) :=
      Prod.ext (h.start k f s hs _ hfo hf e) (h.stop k l t ht _ hlo hl e)
    rw [← e']
    exact List.getElem_mem hkt

theorem ProcessedAs.ends_nodup (hc : Consistent samples init) (h : ProcessedAs samples init r labels tmm) :
    (tmm.map (·.2)).Nodup := by
  rw [List.nodup_iff_getElem?_ne_getElem?]
  intro k k' hkk hk' e
  rw [List.length_map] at hk'
  have hlast : ∀ k : Nat, (hk : k < tmm.length) → ∃ l, LastOf labels k l ∧ r.logl[l]? = some tmm[k].2 := by
    intro k hk
    obtain ⟨l, hl⟩ := exists_lastOf ((h.range k).mpr ⟨by omega, by omega⟩)
    obtain ⟨t, ht, hlt⟩ := h.row hl.1
    refine ⟨l, hl, ?_⟩
    rw [hlt, h.stop k l t ht _ hl hlt (List.getElem?_eq_getElem hk)]
  obtain ⟨l, hl, el⟩ := hlast k (by omega)
  obtain ⟨l', hl', el'⟩ := hlast k' hk'
  rw [List.getElem?_map, List.getElem?_map, List.getElem?_eq_getElem (show k < tmm.length by omega),
    List.getElem?_eq_getElem hk'] at e
  simp only [Option.map_some, Option.some.injEq] at e
  have hll : l = l' := by
    have h1 := h.lt_iff el el'
    have h2 := h.lt_iff el' el
    rw [e] at h1 h2
    have := h1.not.mp (lt_irrefl _)
    have := h2.not.mp (lt_irrefl _)
    omega
  subst hll
  have := hl.1.symm.trans hl'.1
  simp only [Option.some.injEq] at this
  omega

/-- A thread which does not start from the whole prior begins on a contour with another birth. -/
theorem ProcessedAs.two_births (hc : Consistent samples init) (h : ProcessedAs samples init r labels tmm) {p : WithBot K × K}
    (hp : p ∈ tmm) {x : K} (hx : p.1 = (x : WithBot K)) :
    ∃ u ∈ samples, u.logl = x ∧ ∃ s ∈ samples, ∃ t ∈ samples, s.birth = x ∧ t.birth = x ∧ s.logl ≠ t.logl := by
  obtain ⟨s, t, hs, h1, h2, h3, rfl⟩ := (h.mem_tmm hc p).mp hp
  unfold startOf at hx
  by_cases hb : s.birth = init
  · simp [hb] at hx
  · rw [if_neg hb] at hx
    have hx : s.birth = x := WithBot.coe_inj.mp hx
    obtain ⟨u, hu, hbu, hlt⟩ := (hc.births s hs).resolve_left hb
    refine ⟨u, hu, by rw [← hbu, hx], s, hs, ?_⟩
    obtain ⟨i, hi⟩ := h.pos hu
    obtain ⟨j, hj⟩ := h.pos hs
    obtain ⟨m, hm, hcm⟩ := h.maximal i j u hu s hs hi hj hbu
    obtain ⟨k, -, e1, -⟩ := hcm.2
    obtain ⟨v, hv, hmv⟩ := h.row e1
    refine ⟨v, hv, hx, by rw [h.linked i m u hu v hv hcm hi hmv, ← hbu, hx], ?_⟩
    intro e
    have : s = v := List.inj_on_of_nodup_map hc.distinct hs hv e
    subst this
    exact h1 u ((h.heir_iff hc hu hs hi hmv).mpr hcm)

end

/-! ### Live counts between samples -/

theorem countP_lt_iff {L : List K} (h : L.Pairwise (· < ·)) (l : K) {i : Nat} {x : K} (hi : L[i]? = some x) :
    x < l ↔ i < L.countP (fun y => decide (y < l)) := by
  induction L generalizing i with
  | nil => simp at hi
  | cons a L ih =>
    obtain ⟨h1, h2⟩ := List.pairwise_cons.mp h
    rw [List.countP_cons]
    by_cases ha : a < l
    · rw [if_pos (by simpa using ha)]
      cases i with
      | zero =>
        simp only [List.getElem?_cons_zero, Option.some.injEq] at hi
        subst hi
        simp [ha]
      | succ i =>
        rw [List.getElem?_cons_succ] at hi
        rw [ih h2 hi]
        omega
    · have hz : L.countP (fun y => decide (y < l)) = 0 := by
        rw [List.countP_eq_zero]
        intro y hy
        simpa using (le_trans (not_lt.mp ha) (h1 y hy).le)
      rw [if_neg (by simpa using ha), hz]
      have hxa : a ≤ x := by
        cases i with
        | zero =>
          simp only [List.getElem?_cons_zero, Option.some.injEq] at hi
          exact hi.le
        | succ i =>
          rw [List.getElem?_cons_succ] at hi
          exact (h1 x (List.mem_of_getElem? hi)).le
      simp only [Nat.add_zero, Nat.not_lt_zero, iff_false, not_lt]
      exact (not_lt.mp ha).trans hxa

/-- The live points of a processed run at any contour above the initial one. -/
theorem liveOf_process {samples : List (Sample K)} {init : K} (hc : Consistent samples init) (A : Argsort K) (da dw : Bool)
    {w w' : World σ} {r : Run K} (h : processSamples A R samples da dw w = (.ok r, w')) {l : K} (hl : init < l) :
    liveOf r l = (liveAt samples l : Int) := by
  obtain ⟨labels, tmm, hp⟩ := processedAs R hc A da dw h
  obtain ⟨r', h1, -, h3, h4⟩ := C01_nlive_exact R hc A da dw (σ := σ)
  rw [h1 w] at h
  cases h
  unfold liveOf
  set n := r.logl.countP (fun x => decide (x < l)) with hn
  have hlen : r.nlive.length = r.logl.length := by
    rw [h3, hp.logl_perm.length_eq, List.length_map]
  cases hx : r.logl[n]? with
  | none =>
    have hge := List.getElem?_eq_none_iff.mp hx
    rw [List.getD_eq_getElem?_getD, List.getElem?_eq_none (by omega)]
    unfold liveAt
    rw [List.countP_eq_zero.mpr]
    · rfl
    · intro s hs
      obtain ⟨i, hi⟩ := hp.pos hs
      have := (countP_lt_iff hp.strict l hi).mpr (by
        have := (List.getElem?_eq_some_iff.mp hi).1
        omega)
      simp [this]
  | some x =>
    rw [List.getD_eq_getElem?_getD, h4 n x hx]
    simp only [Option.getD_some, Nat.cast_inj]
    have hlx : l ≤ x := by
      by_contra hcon
      exact absurd ((countP_lt_iff hp.strict l hx).mp (not_le.mp hcon)) (lt_irrefl _)
    have hless : ∀ s ∈ samples, s.logl < x → s.logl < l := by
      intro s hs hsx
      obtain ⟨i, hi⟩ := hp.pos hs
      rw [countP_lt_iff hp.strict l hi]
      exact (hp.lt_iff hi hx).mp hsx
    unfold liveAt
    apply List.countP_congr
    intro s hs
    simp only [decide_eq_true_eq]
    constructor
    · rintro ⟨a, b⟩
      refine ⟨?_, hlx.trans b⟩
      rcases hc.births s hs with e | ⟨t, ht, e, -⟩
      · rw [e]; exact hl
      · rw [e] at a ⊢
        exact hless t ht a
    · rintro ⟨a, b⟩
      refine ⟨a.trans_le hlx, ?_⟩
      by_contra hcon
      exact absurd b (hless s hs (not_le.mp hcon)).not_ge

end lineages

/-! ### Arrays of several runs -/

section merge
variable {σ K : Type} [CommRing K] [LinearOrder K] [IsStrictOrderedRing K] (R : Rng σ K)

/-- Dead-birth arrays of independent runs: each consistent, with the same value for the whole prior, no loglikelihood twice. -/
structure Spec.Independent (groups : List (List (Sample K))) (init : K) : Prop where
  nonempty : groups ≠ []
  consistent : ∀ g ∈ groups, Consistent g init
  distinct : (groups.flatten.map (·.logl)).Nodup

theorem Spec.Independent.flatten {groups : List (List (Sample K))} {init : K} (h : Independent groups init) :
    Consistent groups.flatten init where
  nonempty := by
    intro e
    obtain ⟨g, hg⟩ := List.exists_mem_of_ne_nil _ h.nonempty
    exact (h.consistent g hg).nonempty (List.flatten_eq_nil_iff.mp e g hg)
  distinct := h.distinct
  below := by
    intro s hs
    obtain ⟨g, hg, hsg⟩ := List.mem_flatten.mp hs
    exact (h.consistent g hg).below s hsg
  births := by
    intro s hs
    obtain ⟨g, hg, hsg⟩ := List.mem_flatten.mp hs
    rcases (h.consistent g hg).births s hsg with e | ⟨t, ht, e⟩
    · exact .inl e
    · exact .inr ⟨t, List.mem_flatten.mpr ⟨g, hg, ht⟩, e⟩

theorem Spec.Independent.eq_of_logl {groups : List (List (Sample K))} {init : K} (h : Independent groups init) {s t : Sample K}
    (hs : s ∈ groups.flatten) (ht : t ∈ groups.flatten) (e : s.logl = t.logl) : s = t :=
  List.inj_on_of_nodup_map h.distinct hs ht e

theorem Spec.Independent.eq_group {groups : List (List (Sample K))} {init : K} (h : Independent groups init) {g g' : List (Sample K)}
    (hg : g ∈ groups) (hg' : g' ∈ groups) {s : Sample K} (hs : s ∈ g) (hs' : s ∈ g') : g = g' := by
  by_contra hne
  have hd := (List.nodup_flatten.mp (List.Nodup.of_map _ h.distinct)).2
  have hsym : Std.Symm (List.Disjoint (α := Sample K)) := ⟨fun _ _ hab => hab.symm⟩
  exact hd.forall hg hg' hne hs hs'

theorem Spec.Independent.heir_iff {groups : List (List (Sample K))} {init : K} (h : Independent groups init) {s t : Sample K} :
    Heir groups.flatten s t ↔ ∃ g ∈ groups, Heir g s t := by
  have key : ∀ s ∈ groups.flatten, ∀ g ∈ groups, ∀ u ∈ g, u.birth = s.logl → s ∈ g := by
    intro s hs g hg u hu e
    rcases (h.consistent g hg).births u hu with e' | ⟨v, hv, e', -⟩
    · have := h.flatten.below s hs
      rw [← e, e'] at this
      exact absurd this (lt_irrefl _)
    · rw [h.eq_of_logl hs (List.mem_flatten.mpr ⟨g, hg, hv⟩) (by rw [← e, e'])]
      exact hv
  constructor
  · rintro ⟨h1, h2, h3, h4⟩
    obtain ⟨g, hg, htg⟩ := List.mem_flatten.mp h2
    exact ⟨g, hg, key s h1 g hg t htg h3, htg, h3, fun u hu => h4 u (List.mem_flatten.mpr ⟨g, hg, hu⟩)⟩
  · rintro ⟨g, hg, h1, h2, h3, h4⟩
    have hsf := List.mem_flatten.mpr ⟨g, hg, h1⟩
    refine ⟨hsf, List.mem_flatten.mpr ⟨g, hg, h2⟩, h3, ?_⟩
    intro u hu e
    obtain ⟨g', hg', hug⟩ := List.mem_flatten.mp hu
    have := key s hsf g' hg' u hug e
    rw [h.eq_group hg' hg this h1] at hug
    exact h4 u hug e

theorem Spec.Independent.heir_group {groups : List (List (Sample K))} {init : K} (h : Independent groups init) {g : List (Sample K)}
    (hg : g ∈ groups) {s t : Sample K} (hst : s ∈ g ∨ t ∈ g) : Heir groups.flatten s t ↔ Heir g s t := by
  rw [h.heir_iff]
  constructor
  · rintro ⟨g', hg', h1⟩
    rcases hst with hs | ht
    · rwa [h.eq_group hg hg' hs h1.1]
    · rwa [h.eq_group hg hg' ht h1.2.1]
  · exact fun h1 => ⟨g, hg, h1⟩

theorem Spec.Independent.lineage_group {groups : List (List (Sample K))} {init : K} (h : Independent groups init)
    {g : List (Sample K)} (hg : g ∈ groups) {s t : Sample K} (hs : s ∈ g) :
    Lineage groups.flatten s t ↔ Lineage g s t := by
  constructor
  · intro hl
    induction hl with
    | refl => exact .refl
    | tail _ hut ih => exact .tail ih ((h.heir_group hg (.inl (lineage_mem hs ih))).mp hut)
  · intro hl
    induction hl with
    | refl => exact .refl
    | tail _ hut ih => exact .tail ih ((h.heir_group hg (.inl hut.1)).mpr hut)

/-! ### Labels of combined runs -/

theorem relabelled_ge (n : Nat) {rs : List (Run K)} (hr : ∀ r ∈ rs, ∃ labels tmm, r.labels = some labels ∧ r.tmm = some tmm ∧
    ∀ k ∈ labels, 0 ≤ k ∧ k < (tmm.length : Int)) : ∀ x ∈ relabelled n rs, (n : Int) ≤ x.2.1 := by
  induction rs generalizing n with
  | nil => simp [relabelled]
  | cons r rs ih =>
    intro x hx
    rw [relabelled] at hx
    obtain ⟨labels, tmm, e1, e2, e3⟩ := hr r (by simp)
    rcases List.mem_append.mp hx with hx | hx
    · have h1 := (List.of_mem_zip (List.of_mem_zip hx).2).1
      rw [e1] at h1
      obtain ⟨k, hk, e⟩ := List.mem_map.mp h1
      have := (e3 k hk).1
      rw [← e]
      omega
    · have := ih _ (fun r hr' => hr r (by simp [hr'])) x hx
      push_cast at this
      omega

theorem relabelled_label_iff {init : K} (f : List (Sample K) → Run K) (n : Nat) {groups : List (List (Sample K))}
    (h : groups ≠ [] → Independent groups init)
    (hf : ∀ g ∈ groups, ∃ labels tmm, ProcessedAs g init (f g) labels tmm) :
    ∀ x ∈ relabelled n (groups.map f), ∀ y ∈ relabelled n (groups.map f), ∀ s ∈ groups.flatten, ∀ t ∈ groups.flatten,
      x.1 = s.logl → y.1 = t.logl → (x.2.1 = y.2.1 ↔ ∃ g ∈ groups, s ∈ g ∧ (Lineage g s t ∨ Lineage g t s)) := by
  induction groups generalizing n with
  | nil => simp [relabelled]
  | cons g gs ih =>
    have hI := h (by simp)
    have hgs : gs ≠ [] → Independent gs init := by
      intro hne
      refine ⟨hne, fun g' hg' => hI.consistent g' (by simp [hg']), ?_⟩
      have := hI.distinct
      rw [List.flatten_cons, List.map_append] at this
      exact (List.nodup_append.mp this).2.1
    have hc := hI.consistent g (by simp)
    obtain ⟨labels, tmm, hp⟩ := hf g (by simp)
    have hdata : ∀ r ∈ gs.map f, ∃ labels tmm, r.labels = some labels ∧ r.tmm = some tmm ∧
        ∀ k ∈ labels, 0 ≤ k ∧ k < (tmm.length : Int) := by
      intro r hr
      obtain ⟨g', hg', rfl⟩ := List.mem_map.mp hr
      obtain ⟨l', t', hp'⟩ := hf g' (by simp [hg'])
      exact ⟨l', t', hp'.labels_eq, hp'.tmm_eq, fun k hk => (hp'.range k).mp hk⟩
    -- entries of the first run
    have hhead : ∀ x ∈ (f g).logl.zip ((((f g).labels.getD []).map (· + (n : Int))).zip (f g).theta), ∀ s ∈ (g :: gs).flatten,
        x.1 = s.logl → s ∈ g ∧ ∃ (i : Nat) (k : Int), (f g).logl[i]? = some s.logl ∧ labels[i]? = some k ∧ x.2.1 = k + n ∧
          k < tmm.length := by
      intro x hx s hs e
      obtain ⟨i, hi⟩ := List.mem_iff_getElem?.mp hx
      rw [List.getElem?_zip_eq_some] at hi
      obtain ⟨i1, i2⟩ := hi
      rw [List.getElem?_zip_eq_some, hp.labels_eq] at i2
      simp only [Option.getD_some, List.getElem?_map, Option.map_eq_some_iff] at i2
      obtain ⟨⟨k, hk, e'⟩, -⟩ := i2
      obtain ⟨s', hs', hs'l⟩ := hp.row hk
      rw [i1] at hs'l
      have : s = s' := hI.eq_of_logl hs (by simp [hs']) (by rw [← e]; exact Option.some.inj hs'l)
      subst this
      exact ⟨hs', i, k, by rw [i1, e], hk, e'.symm, ((hp.range k).mp (List.mem_of_getElem? hk)).2⟩
    -- entries of the others
    have htail : ∀ x ∈ relabelled (n + tmm.length) (gs.map f), ∀ s ∈ (g :: gs).flatten, x.1 = s.logl →
        s ∈ gs.flatten ∧ ((n + tmm.length : Nat) : Int) ≤ x.2.1 := by
      intro x hx s hs e
      refine ⟨?_, relabelled_ge _ hdata x hx⟩
      have hgen : ∀ (m : Nat) (hs' : List (List (Sample K))), (∀ g ∈ hs', ∃ labels tmm, ProcessedAs g init (f g) labels tmm) →
          ∀ x ∈ relabelled m (hs'.map f), ∃ s ∈ hs'.flatten, x.1 = s.logl := by
        intro m hs'
        induction hs' generalizing m with
        | nil => simp [relabelled]
        | cons a as ih' =>
          intro hf' x hx
          rw [List.map_cons, relabelled] at hx
          rcases List.mem_append.mp hx with hx | hx
          · obtain ⟨l', t', hp'⟩ := hf' a (by simp)
            have := (List.of_mem_zip hx).1
            obtain ⟨s, hs, e⟩ := List.mem_map.mp (hp'.logl_perm.mem_iff.mp this)
            exact ⟨s, by simp [hs], e.symm⟩
          · obtain ⟨s, hs, e⟩ := ih' _ (fun g hg => hf' g (by simp [hg])) x hx
            exact ⟨s, by rw [List.flatten_cons]; exact List.mem_append_right _ hs, e⟩
      obtain ⟨s', hs', e'⟩ := hgen _ gs (fun g' hg' => hf g' (by simp [hg'])) x hx
      rw [hI.eq_of_logl hs (by rw [List.flatten_cons]; exact List.mem_append_right _ hs') (by rw [← e, e'])]
      exact hs'
    have hdisj : ∀ s, s ∈ g → s ∈ gs.flatten → False := by
      intro s h1 h2
      have := hI.distinct
      rw [List.flatten_cons, List.map_append] at this
      exact (List.nodup_append.mp this).2.2 _ (List.mem_map_of_mem h1) _ (List.mem_map_of_mem h2) rfl
    have hno : ∀ s t, s ∈ g → t ∈ gs.flatten → ∀ g' ∈ g :: gs, s ∈ g' ∨ t ∈ g' →
        ¬ (Lineage g' s t ∨ Lineage g' t s) := by
      intro s t hs ht g' hg' hst hl
      have hboth : s ∈ g' ∧ t ∈ g' := by
        have hmem : ∀ a b : Sample K, Lineage g' a b → a ∈ g' ∨ b ∈ g' → a ∈ g' ∧ b ∈ g' := by
          intro a b hab hor
          rcases Relation.ReflTransGen.cases_head hab with e | ⟨u, hu, -⟩
          · subst e
            exact ⟨hor.elim id id, hor.elim id id⟩
          · exact ⟨hu.1, lineage_mem hu.1 hab⟩
        rcases hl with hl | hl
        · exact hmem s t hl hst
        · exact (hmem t s hl hst.symm).symm
      have e := hI.eq_group hg' (by simp) hboth.1 hs
      rw [e] at hboth
      exact hdisj t hboth.2 ht
    have htm : ((f g).tmm.getD []).length = tmm.length := by rw [hp.tmm_eq]; rfl
    intro x hx y hy s hs t ht ex ey
    rw [List.map_cons, relabelled, htm] at hx hy
    rcases List.mem_append.mp hx with hx | hx <;> rcases List.mem_append.mp hy with hy | hy
    · obtain ⟨hsg, i, k, a1, a2, a3, a4⟩ := hhead x hx s hs ex
      obtain ⟨htg, j, k', b1, b2, b3, b4⟩ := hhead y hy t ht ey
      have hiff := hp.label_iff hc hsg htg a1 b1
      rw [a2, b2] at hiff
      have : x.2.1 = y.2.1 ↔ some k = some k' := by
        rw [a3, b3, Option.some.injEq]
        omega
      rw [this, hiff]
      constructor
      · exact fun hl => ⟨g, by simp, hsg, hl⟩
      · rintro ⟨g', hg', hsg', hl⟩
        rwa [hI.eq_group hg' (by simp) hsg' hsg] at hl
    · obtain ⟨hsg, i, k, a1, a2, a3, a4⟩ := hhead x hx s hs ex
      obtain ⟨htg, b⟩ := htail y hy t ht ey
      constructor
      · intro e
        push_cast at b
        omega
      · rintro ⟨g', hg', hsg', hl⟩
        exact absurd hl (hno s t hsg htg g' hg' (.inl hsg'))
    · obtain ⟨hsg, b⟩ := htail x hx s hs ex
      obtain ⟨htg, i, k, a1, a2, a3, a4⟩ := hhead y hy t ht ey
      constructor
      · intro e
        push_cast at b
        omega
      · rintro ⟨g', hg', hsg', hl⟩
        exact absurd hl.symm (hno t s htg hsg g' hg' (.inr hsg'))
    · obtain ⟨hsg, -⟩ := htail x hx s hs ex
      obtain ⟨htg, -⟩ := htail y hy t ht ey
      rw [ih _ hgs (fun g' hg' => hf g' (by simp [hg'])) x hx y hy s hsg t htg ex ey]
      constructor
      · rintro ⟨g', hg', hh⟩
        exact ⟨g', by simp [hg'], hh⟩
      · rintro ⟨g', hg', hsg', hl⟩
        rcases List.mem_cons.mp hg' with rfl | hg'
        · exact (hdisj s hsg' hsg).elim
        · exact ⟨g', hg', hsg', hl⟩

/-! ### The theorem -/

theorem Spec.Sampling.alive_pos {live final : List (Sample K)} {its : List (Iteration K)} (h : Sampling live its final) :
    ∀ it ∈ its, 0 < it.alive := by
  induction h with
  | stop => simp
  | @step live rest born final p its hp _ _ _ ih =>
    intro it hit
    rcases List.mem_cons.mp hit with rfl | hit
    · have := hp.length_eq
      simp only [List.length_cons] at this ⊢
      omega
    · exact ih it hit

theorem Spec.Sampling.alive_last {live : List (Sample K)} {its : List (Iteration K)} (h : Sampling live its []) :
    ∀ it, its.getLast? = some it → it.alive = 1 := by
  generalize hf : ([] : List (Sample K)) = final at h
  induction h with
  | stop => simp
  | @step live rest born final p its hp _ _ h ih =>
    intro it hit
    cases its with
    | nil =>
      cases h
      have e : rest = [] ∧ born = [] := List.append_eq_nil_iff.mp hf.symm
      simp only [List.getLast?_singleton, Option.some.injEq] at hit
      subst hit
      have := hp.length_eq
      rw [e.1] at this
      simpa using this
    | cons a as =>
      rw [List.getLast?_cons_cons] at hit
      exact ih hf it hit

/-- C88.  Two samples of a processed array have the same thread label if and only if one is the heir of the heir ... of the other.
A thread is given by a point without predecessor, by the contour from which this point was sampled, and by the last point of its
lineage. -/
theorem C88_threads {samples : List (Sample K)} {init : K} (hc : Consistent samples init) (A : Argsort K) (da dw : Bool)
    {r : Run K} {w w' : World σ} (hr : processSamples A R samples da dw w = (.ok r, w')) :
    ∃ (labels : List Int) (tmm : List (WithBot K × K)), r.labels = some labels ∧ r.tmm = some tmm ∧
      labels.length = r.logl.length ∧
      (∀ (i j : Nat), ∀ s ∈ samples, ∀ t ∈ samples, r.logl[i]? = some s.logl → r.logl[j]? = some t.logl →
        (labels[i]? = labels[j]? ↔ Lineage samples s t ∨ Lineage samples t s)) ∧
      tmm.Nodup ∧
      ∀ p : WithBot K × K, p ∈ tmm ↔ ∃ s t, s ∈ samples ∧ (∀ u, ¬ Heir samples u s) ∧ (∀ u, ¬ Heir samples t u) ∧
        Lineage samples s t ∧ p = (startOf init s, t.logl) := by
  obtain ⟨labels, tmm, h⟩ := processedAs R hc A da dw hr
  exact ⟨labels, tmm, h.labels_eq, h.tmm_eq, h.len, fun i j s hs t ht e1 e2 => h.label_iff hc hs ht e1 e2,
    List.Nodup.of_map _ (h.ends_nodup hc), h.mem_tmm hc⟩

/-- C88.  Combining the runs made from several dead-birth arrays gives the run made from the arrays taken together: the same
samples, live counts and division into threads.  The arrays have the same value for the whole prior and no common loglikelihood,
and at most one point was born on the lowest contour. -/
theorem C88_merge {groups : List (List (Sample K))} {init : K} (h : Independent groups init)
    (hdim : SameDim (groups.flatten.map (·.theta)))
    (hlow : ∀ u ∈ groups.flatten, (∀ v ∈ groups.flatten, u.logl ≤ v.logl) → ∀ s ∈ groups.flatten, ∀ t ∈ groups.flatten,
      s.birth = u.logl → t.birth = u.logl → s.logl = t.logl) (A A' : Argsort K) (da dw da' dw' : Bool) :
    ∃ (rs : List (Run K)) (c c' : Run K) (labels labels' : List Int) (tmm tmm' : List (WithBot K × K)),
      List.Forall₂ (fun g r => ∀ w : World σ, processSamples A R g da dw w = (.ok r, w)) groups rs ∧
      (∀ w : World σ, combineRuns A rs da' dw' w = (.ok c, w)) ∧
      (∀ w : World σ, processSamples A' R groups.flatten da dw w = (.ok c', w)) ∧
      c.logl = c'.logl ∧ c.theta = c'.theta ∧ c.nlive = c'.nlive ∧
      c.labels = some labels ∧ c'.labels = some labels' ∧ c.tmm = some tmm ∧ c'.tmm = some tmm' ∧
      labels.length = c.logl.length ∧ labels'.length = c.logl.length ∧
      (∀ i j : Nat, i < c.logl.length → j < c.logl.length → (labels[i]? = labels[j]? ↔ labels'[i]? = labels'[j]?)) ∧
      tmm.Perm tmm' := by
  have hcF := h.flatten
  -- the runs
  have hex : ∀ g : List (Sample K), ∃ r : Run K, Consistent g init → ∀ w : World σ, processSamples A R g da dw w = (.ok r, w) := by
    intro g
    by_cases hc : Consistent g init
    · obtain ⟨r, h1, -⟩ := C01_nlive_exact R hc A da dw (σ := σ)
      exact ⟨r, fun _ => h1⟩
    · exact ⟨⟨[], [], [], none, none⟩, fun hc' => absurd hc' hc⟩
  choose f hf using hex
  have hfp : ∀ g ∈ groups, ∀ w : World σ, processSamples A R g da dw w = (.ok (f g), w) := fun g hg => hf g (h.consistent g hg)
  have hPA : ∀ g ∈ groups, ∃ labels tmm, ProcessedAs g init (f g) labels tmm := fun g hg =>
    processedAs R (h.consistent g hg) A da dw (hfp g hg ⟨R.seed 0, []⟩)
  have hC03 := fun g hg => C03_valid_lossless R (h.consistent g hg) A da dw _ _ (hfp g hg ⟨R.seed 0, []⟩)
  have hrows : ∀ g ∈ groups, ((f g).logl.zip (f g).theta).Perm (g.map (fun s => (s.logl, s.theta))) := fun g hg => (hC03 g hg).2.2.2.2.2
  have hflat : ((groups.map f).flatMap (fun r => r.logl.zip r.theta)).Perm (groups.flatten.map (fun s => (s.logl, s.theta))) := by
    have : ∀ gs : List (List (Sample K)), (∀ g ∈ gs, g ∈ groups) →
        ((gs.map f).flatMap (fun r => r.logl.zip r.theta)).Perm (gs.flatten.map (fun s => (s.logl, s.theta))) := by
      intro gs hgs
      induction gs with
      | nil => simp
      | cons g gs ih =>
        rw [List.map_cons, List.flatMap_cons, List.flatten_cons, List.map_append]
        exact (hrows g (hgs g (by simp))).append (ih (fun g' hg' => hgs g' (by simp [hg'])))
    exact this groups (fun _ hg => hg)
  have hthlen : ∀ r ∈ groups.map f, r.theta.length = r.logl.length := by
    intro r hr
    obtain ⟨g, hg, rfl⟩ := List.mem_map.mp hr
    obtain ⟨-, -, -, v4, v5, -⟩ := hC03 g hg
    omega
  have hfl := flatMap_zip_fst hthlen
  have hlogl : ((groups.map f).flatMap (·.logl)).Perm (groups.flatten.map (·.logl)) := by
    have := hflat.map Prod.fst
    rw [List.map_map] at this
    rwa [hfl.1] at this
  have htheta : ((groups.map f).flatMap (·.theta)).Perm (groups.flatten.map (·.theta)) := by
    have := hflat.map Prod.snd
    rw [List.map_map] at this
    rwa [hfl.2] at this
  -- the lowest sample
  obtain ⟨u, hu, hmin⟩ : ∃ u ∈ groups.flatten, ∀ v ∈ groups.flatten, u.logl ≤ v.logl :=
    Set.exists_min_image {s | s ∈ groups.flatten} (·.logl) (List.finite_toSet _) (List.exists_mem_of_ne_nil _ hcF.nonempty)
  have hnostart : ∀ g ∈ groups, ∀ p ∈ (f g).tmm.getD [], p.1 ≠ (u.logl : WithBot K) := by
    intro g hg p hp e
    obtain ⟨labels, tmm, hpa⟩ := hPA g hg
    rw [hpa.tmm_eq] at hp
    obtain ⟨-, -, -, s, hs, t, ht, e1, e2, e3⟩ := hpa.two_births (h.consistent g hg) hp e
    exact e3 (hlow u hu hmin s (List.mem_flatten.mpr ⟨g, hg, hs⟩) t (List.mem_flatten.mpr ⟨g, hg, ht⟩) e1 e2)
  have hcomb : Combinable (groups.map f) u.logl := by
    refine ⟨?_, ?_, ?_, ?_, ?_, ?_, ?_, ?_, ?_⟩
    · intro r hr
      obtain ⟨g, hg, rfl⟩ := List.mem_map.mp hr
      exact (hC03 g hg).1
    · intro r hr n hn
      obtain ⟨g, hg, rfl⟩ := List.mem_map.mp hr
      obtain ⟨live, its, k1, k2, k3⟩ := C87_realised (h.consistent g hg)
      obtain ⟨r', r1, -, -, r4⟩ := C87_replay R k1 k2 k3 A da dw (σ := σ)
      have e : r' = f g := by
        have := r1 ⟨R.seed 0, []⟩
        rw [hfp g hg] at this
        exact (Except.ok.inj (congrArg Prod.fst this)).symm
      rw [← e, r4] at hn
      obtain ⟨it, hit, rfl⟩ := List.mem_map.mp hn
      exact_mod_cast k2.alive_pos it hit
    · intro r hr
      obtain ⟨g, hg, rfl⟩ := List.mem_map.mp hr
      obtain ⟨live, its, k1, k2, k3⟩ := C87_realised (h.consistent g hg)
      obtain ⟨r', r1, -, -, r4⟩ := C87_replay R k1 k2 k3 A da dw (σ := σ)
      have e : r' = f g := by
        have := r1 ⟨R.seed 0, []⟩
        rw [hfp g hg] at this
        exact (Except.ok.inj (congrArg Prod.fst this)).symm
      rw [← e, r4, List.getLast?_map]
      have hne : its ≠ [] := by
        rintro rfl
        exact (h.consistent g hg).nonempty k3.eq_nil
      rw [List.getLast?_eq_some_getLast hne, Option.map_some, k2.alive_last _ (List.getLast?_eq_some_getLast hne)]
      rfl
    · exact hlogl.nodup_iff.mpr h.distinct
    · intro s hs t ht
      exact hdim s (htheta.mem_iff.mp hs) t (htheta.mem_iff.mp ht)
    · exact hlogl.mem_iff.mpr (List.mem_map_of_mem hu)
    · intro l hl
      obtain ⟨v, hv, rfl⟩ := List.mem_map.mp (hlogl.mem_iff.mp hl)
      exact hmin v hv
    · intro r hr
      obtain ⟨g, hg, rfl⟩ := List.mem_map.mp hr
      obtain ⟨labels, tmm, hpa⟩ := hPA g hg
      have hc := h.consistent g hg
      have hpos : 0 < (f g).logl.length := by
        rw [hpa.logl_perm.length_eq, List.length_map]
        exact List.length_pos_iff.mpr hc.nonempty
      have e0 := List.getElem?_eq_getElem hpos
      rw [C85_live_threads R hc A da dw (hfp g hg ⟨R.seed 0, []⟩) hpa.tmm_eq 0 _ e0, hpa.tmm_eq]
      have hleast : ∀ x ∈ (f g).logl, (f g).logl[0] ≤ x := by
        intro x hx
        obtain ⟨i, hi⟩ := List.mem_iff_getElem?.mp hx
        by_contra hcon
        exact absurd ((hpa.lt_iff hi e0).mp (not_le.mp hcon)) (by omega)
      have hmg : u.logl ≤ (f g).logl[0] := by
        obtain ⟨v, hv, e⟩ := List.mem_map.mp (hpa.logl_perm.mem_iff.mp (List.getElem_mem hpos))
        rw [← e]
        exact hmin v (List.mem_flatten.mpr ⟨g, hg, hv⟩)
      congr 2
      apply List.countP_congr
      intro p hp
      simp only [decide_eq_true_eq]
      obtain ⟨s, t, hs, -, -, hst, rfl⟩ := (hpa.mem_tmm hc p).mp hp
      have hend : (f g).logl[0] ≤ t.logl :=
        hleast _ (hpa.logl_perm.mem_iff.mpr (List.mem_map_of_mem (lineage_mem hs hst)))
      constructor
      · rintro ⟨a, -⟩
        by_contra hcon
        have hx : ∃ x : K, startOf init s = (x : WithBot K) := by
          refine WithBot.ne_bot_iff_exists.mp ?_ |>.imp (fun _ e => e.symm)
          intro e
          rw [e] at hcon
          exact hcon bot_le
        obtain ⟨x, hx⟩ := hx
        obtain ⟨v, hv, e, -⟩ := hpa.two_births hc hp hx
        simp only at a
        rw [hx, ← e] at a
        exact absurd (WithBot.coe_lt_coe.mp a) (hleast _ (hpa.logl_perm.mem_iff.mpr (List.mem_map_of_mem hv))).not_gt
      · intro a
        refine ⟨?_, hend⟩
        have hne := hnostart g hg _ (by rw [hpa.tmm_eq]; exact hp)
        exact (lt_of_le_of_ne a hne).trans_le (WithBot.coe_le_coe.mpr hmg)
    · have : (allStarts (groups.map f)).countP (fun p => decide (p.1 = (u.logl : WithBot K))) = 0 := by
        rw [List.countP_eq_zero]
        intro p hp
        unfold allStarts at hp
        obtain ⟨r, hr, hpr⟩ := List.mem_flatMap.mp hp
        obtain ⟨g, hg, rfl⟩ := List.mem_map.mp hr
        simpa using hnostart g hg p hpr
      omega
  obtain ⟨c, labels, c1, c2, c3, c4, c5⟩ := combineRuns_ok (σ := σ) (A := A) (da := da') (dw := dw') hcomb
  obtain ⟨c', d1, d2, d3, d4⟩ := C01_nlive_exact R hcF A' da dw (σ := σ)
  obtain ⟨labels', tmm', hpa'⟩ := processedAs R hcF A' da dw (d1 ⟨R.seed 0, []⟩)
  obtain ⟨-, -, -, v4, v5, v6⟩ := C03_valid_lossless R hcF A' da dw _ _ (d1 ⟨R.seed 0, []⟩)
  have hzip : (c.logl.zip c.theta).Perm (c'.logl.zip c'.theta) := by
    refine (Combined.zip_perm ⟨⟨labels, c2, c4⟩, c3, c5⟩ hcomb.lens).trans (hflat.trans v6.symm)
  have heq : c.logl.zip c.theta = c'.logl.zip c'.theta := by
    refine eq_of_perm_keys (f := Prod.fst) hzip ?_ ?_
    · rw [List.map_fst_zip (by rw [c2.theta_len])]
      exact c3
    · rw [List.map_fst_zip (by omega)]
      exact hpa'.strict
  have hl : c.logl = c'.logl := by
    have := congrArg (List.map (·.1)) heq
    rwa [List.map_fst_zip (by rw [c2.theta_len]), List.map_fst_zip (by omega)] at this
  have hth : c.theta = c'.theta := by
    have := congrArg (List.map (·.2)) heq
    rwa [List.map_snd_zip (by rw [c2.theta_len]), List.map_snd_zip (by omega)] at this
  have hmemc : ∀ l ∈ c.logl, l ∈ c'.logl := fun l h' => by rw [← hl]; exact h'
  have hlab : ∀ i j : Nat, i < c.logl.length → j < c.logl.length →
      (labels[i]? = labels[j]? ↔ labels'[i]? = labels'[j]?) := by
    intro i j hi hj
    have hrow : ∀ i : Nat, i < c.logl.length → ∃ s ∈ groups.flatten, c.logl[i]? = some s.logl ∧ ∃ x ∈ relabelled 0 (groups.map f),
        x.1 = s.logl ∧ labels[i]? = some x.2.1 := by
      intro i hi
      have hil : i < labels.length := by rw [c2.labels_len]; exact hi
      have hit : i < c.theta.length := by rw [c2.theta_len]; exact hi
      obtain ⟨s, hs, e⟩ := List.mem_map.mp (hpa'.logl_perm.mem_iff.mp (hmemc _ (List.getElem_mem hi)))
      refine ⟨s, hs, by rw [e, List.getElem?_eq_getElem hi], (c.logl[i], labels[i], c.theta[i]), ?_, e.symm,
        List.getElem?_eq_getElem hil⟩
      refine c4.mem_iff.mp (List.mem_of_getElem? (i := i) ?_)
      rw [List.getElem?_zip_eq_some, List.getElem?_zip_eq_some]
      exact ⟨List.getElem?_eq_getElem hi, List.getElem?_eq_getElem hil, List.getElem?_eq_getElem hit⟩
    obtain ⟨s, hs, es, x, hx, ex, lx⟩ := hrow i hi
    obtain ⟨t, ht, et, y, hy, ey, ly⟩ := hrow j hj
    rw [lx, ly, Option.some.injEq, relabelled_label_iff f 0 (fun _ => h) hPA x hx y hy s hs t ht ex ey,
      hpa'.label_iff hcF hs ht (by rw [← hl]; exact es) (by rw [← hl]; exact et)]
    constructor
    · rintro ⟨g, hg, hsg, hl | hl⟩
      · exact .inl ((h.lineage_group hg hsg).mpr hl)
      · have htg : t ∈ g := by
          rcases Relation.ReflTransGen.cases_head hl with e | ⟨v, hv, -⟩
          · subst e; exact hsg
          · exact hv.1
        exact .inr ((h.lineage_group hg htg).mpr hl)
    · rintro (hl | hl)
      · obtain ⟨g, hg, hsg⟩ := List.mem_flatten.mp hs
        exact ⟨g, hg, hsg, .inl ((h.lineage_group hg hsg).mp hl)⟩
      · obtain ⟨g, hg, htg⟩ := List.mem_flatten.mp ht
        have := (h.lineage_group hg htg).mp hl
        exact ⟨g, hg, lineage_mem htg this, .inr this⟩
  refine ⟨groups.map f, c, c', labels, labels', allStarts (groups.map f), tmm', ?_, c1, d1, hl, hth, ?_, c2.labels_eq,
    hpa'.labels_eq, c2.tmm_eq, hpa'.tmm_eq, c2.labels_len, by rw [hpa'.len, hl], hlab, ?_⟩
  · rw [List.forall₂_map_right_iff, List.forall₂_same]
    exact hfp
  · refine List.ext_getElem? ?_
    intro i
    by_cases hi : i < c.logl.length
    · have e := List.getElem?_eq_getElem hi
      rw [c5 i _ e, d4 i _ (by rw [← hl]; exact e)]
      congr 1
      have hgt : init < c.logl[i] := by
        obtain ⟨s, hs, e'⟩ := List.mem_map.mp (hpa'.logl_perm.mem_iff.mp (hmemc _ (List.getElem_mem hi)))
        rw [← e']
        exact hcF.below s hs
      unfold liveAt
      rw [List.countP_flatten, List.map_map, Nat.cast_list_sum, List.map_map]
      congr 1
      apply List.map_congr_left
      intro g hg
      exact liveOf_process R (h.consistent g hg) A da dw (hfp g hg ⟨R.seed 0, []⟩) hgt
    · rw [List.getElem?_eq_none (by rw [c2.nlive_len]; omega), List.getElem?_eq_none (by rw [d3, ← d2, ← hl]; omega)]
  · have hnd' : tmm'.Nodup := List.Nodup.of_map _ (hpa'.ends_nodup hcF)
    have hnd : (allStarts (groups.map f)).Nodup := by
      unfold allStarts
      rw [List.flatMap_map, List.nodup_flatMap]
      refine ⟨?_, ?_⟩
      · intro g hg
        obtain ⟨ls, tm, hpa⟩ := hPA g hg
        rw [hpa.tmm_eq]
        exact List.Nodup.of_map _ (hpa.ends_nodup (h.consistent g hg))
      · have hdj := (List.nodup_flatten.mp (List.Nodup.of_map _ h.distinct)).2
        refine hdj.imp_of_mem ?_
        intro g g' hg hg' hd p hp hp'
        obtain ⟨ls, tm, hpa⟩ := hPA g hg
        obtain ⟨ls2, tm2, hpa2⟩ := hPA g' hg'
        simp only [hpa.tmm_eq, Option.getD_some] at hp
        simp only [hpa2.tmm_eq, Option.getD_some] at hp'
        obtain ⟨s, t, hs, -, -, hst, e⟩ := (hpa.mem_tmm (h.consistent g hg) p).mp hp
        obtain ⟨s2, t2, hs2, -, -, hst2, e2⟩ := (hpa2.mem_tmm (h.consistent g' hg') p).mp hp'
        have ht := lineage_mem hs hst
        have ht2 := lineage_mem hs2 hst2
        have : t = t2 := h.eq_of_logl (List.mem_flatten.mpr ⟨g, hg, ht⟩) (List.mem_flatten.mpr ⟨g', hg', ht2⟩) (by
          rw [e] at e2
          exact (Prod.mk.inj e2).2)
        subst this
        exact hd ht ht2
    refine (List.perm_ext_iff_of_nodup hnd hnd').mpr ?_
    intro p
    rw [hpa'.mem_tmm hcF p]
    unfold allStarts
    rw [List.flatMap_map, List.mem_flatMap]
    constructor
    · rintro ⟨g, hg, hp⟩
      obtain ⟨ls, tm, hpa⟩ := hPA g hg
      rw [hpa.tmm_eq] at hp
      obtain ⟨s, t, hs, a1, a2, hst, e⟩ := (hpa.mem_tmm (h.consistent g hg) p).mp hp
      have ht := lineage_mem hs hst
      exact ⟨s, t, List.mem_flatten.mpr ⟨g, hg, hs⟩, fun v hv => a1 v ((h.heir_group hg (.inr hs)).mp hv),
        fun v hv => a2 v ((h.heir_group hg (.inl ht)).mp hv), (h.lineage_group hg hs).mpr hst, e⟩
    · rintro ⟨s, t, hs, a1, a2, hst, e⟩
      obtain ⟨g, hg, hsg⟩ := List.mem_flatten.mp hs
      obtain ⟨ls, tm, hpa⟩ := hPA g hg
      have hst' := (h.lineage_group hg hsg).mp hst
      have ht := lineage_mem hsg hst'
      refine ⟨g, hg, ?_⟩
      rw [hpa.tmm_eq]
      exact (hpa.mem_tmm (h.consistent g hg) p).mpr ⟨s, t, hsg, fun v hv => a1 v ((h.heir_group hg (.inr hsg)).mpr hv),
        fun v hv => a2 v ((h.heir_group hg (.inl ht)).mpr hv), hst', e⟩

end merge


section examples

def exGroupA : List (Sample ℤ) := [⟨[10], 1, -100⟩, ⟨[20], 2, -100⟩, ⟨[30], 6, 2⟩, ⟨[40], 4, 1⟩, ⟨[45], 9, 2⟩]
def exGroupB : List (Sample ℤ) := [⟨[50], 3, -100⟩, ⟨[60], 7, 3⟩, ⟨[70], 5, 3⟩, ⟨[80], 8, 5⟩]

theorem exGroups_independent : Independent [exGroupA, exGroupB] (-100) where
  nonempty := by decide
  consistent g hg := by
    rcases List.mem_pair.mp hg with rfl | rfl
    · exact ⟨by decide, by decide, by decide, by decide⟩
    · exact ⟨by decide, by decide, by decide, by decide⟩
  distinct := by decide

/-- Both ways of reading the two arrays give the run with five threads; three of them start at the whole prior. -/
example : ∃ (rs : List (Run ℤ)) (c c' : Run ℤ) (tmm tmm' : List (WithBot ℤ × ℤ)),
    List.Forall₂ (fun g r => ∀ w : World Nat, processSamples (stableSort ℤ) (counterRng ℤ (by decide)) g false true w = (.ok r, w))
      [exGroupA, exGroupB] rs ∧
    (∀ w : World Nat, combineRuns (stableSort ℤ) rs true false w = (.ok c, w)) ∧
    (∀ w : World Nat, processSamples (stableSort ℤ) (counterRng ℤ (by decide)) (exGroupA ++ exGroupB) false true w = (.ok c', w)) ∧
    c.logl = c'.logl ∧ c.nlive = c'.nlive ∧ c.tmm = some tmm ∧ c'.tmm = some tmm' ∧ tmm.Perm tmm' := by
  obtain ⟨rs, c, c', -, -, tmm, tmm', h1, h2, h3, h4, -, h6, -, -, h7, h8, -, -, -, h9⟩ :=
    C88_merge (counterRng ℤ (by decide)) exGroups_independent (by unfold SameDim; decide) (by decide) (stableSort ℤ) (stableSort ℤ)
      false true true false
  exact ⟨rs, c, c', tmm, tmm', h1, h2, by simpa using h3, h4, h6, h7, h8, h9⟩

/-- The values for these arrays, by evaluation. -/
example (s : Nat) :
    ((do
      let a ← processSamples (stableSort ℤ) (counterRng ℤ (by decide)) exGroupA false true
      let b ← processSamples (stableSort ℤ) (counterRng ℤ (by decide)) exGroupB false true
      combineRuns (stableSort ℤ) [a, b] true false : M Nat (Run ℤ)) ⟨s, []⟩).1 =
    .ok ⟨[1, 2, 3, 4, 5, 6, 7, 8, 9], [3, 3, 4, 5, 4, 4, 3, 2, 1], [[10], [20], [50], [40], [70], [30], [60], [80], [45]],
      some [0, 1, 3, 0, 3, 1, 4, 3, 2], some [(⊥, 4), (⊥, 6), (2, 9), (⊥, 8), (3, 7)]⟩ ∧
    ((processSamples (stableSort ℤ) (counterRng ℤ (by decide)) (exGroupA ++ exGroupB) false true : M Nat (Run ℤ)) ⟨s, []⟩).1 =
    .ok ⟨[1, 2, 3, 4, 5, 6, 7, 8, 9], [3, 3, 4, 5, 4, 4, 3, 2, 1], [[10], [20], [50], [40], [70], [30], [60], [80], [45]],
      some [0, 1, 2, 0, 2, 1, 4, 2, 3], some [(⊥, 4), (⊥, 6), (⊥, 8), (2, 9), (3, 7)]⟩ := ⟨rfl, rfl⟩

/-- The condition on the lowest contour cannot be left out: here two points were born on it.  Each array can be processed, and so
can the two together, but the two runs cannot be combined. -/
theorem C88_lowest_birth_fails (s : Nat) :
    let A : List (Sample ℤ) := [⟨[10], 1, -100⟩, ⟨[20], 2, -100⟩, ⟨[30], 4, 1⟩, ⟨[40], 6, 1⟩]
    let B : List (Sample ℤ) := [⟨[50], 3, -100⟩, ⟨[60], 5, 3⟩]
    Independent [A, B] (-100) ∧
    ∃ a b c, processSamples (stableSort ℤ) (counterRng ℤ (by decide)) A true true ⟨s, []⟩ = (.ok a, ⟨s, []⟩) ∧
      processSamples (stableSort ℤ) (counterRng ℤ (by decide)) B true true ⟨s, []⟩ = (.ok b, ⟨s, []⟩) ∧
      processSamples (stableSort ℤ) (counterRng ℤ (by decide)) (A ++ B) true true ⟨s, []⟩ = (.ok c, ⟨s, []⟩) ∧
      combineRuns (stableSort ℤ) [a, b] true false ⟨s, []⟩ = (.error .assertion, ⟨s, []⟩) := by
  refine ⟨⟨by decide, fun g hg => ?_, by decide⟩, _, _, _, rfl, rfl, rfl, rfl⟩
  rcases List.mem_pair.mp hg with rfl | rfl
  · exact ⟨by decide, by decide, by decide, by decide⟩
  · exact ⟨by decide, by decide, by decide, by decide⟩

end examples

end Nestcheck
