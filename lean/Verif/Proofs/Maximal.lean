import Verif.Proofs.Consistent

set_option linter.unusedSectionVars false

namespace Nestcheck
open Spec
variable {K σ : Type} [CommRing K] [LinearOrder K] [IsStrictOrderedRing K] (R : Rng σ K)

/-- A point on whose contour another one was born is followed in its thread by the
first of the points born there. -/
theorem IsThreads.continues {b : List Int} {labels : List Nat} (hb : BirthsValid b)
    (h : IsThreads b labels) {i j k : Nat} (hi : labels[i]? = some k) (hj : b[j]? = some (i : Int)) :
    ∃ m ≤ j, i < m ∧ labels[m]? = some k ∧ ∀ m', i < m' → m' < m → labels[m']? ≠ some k := by
  have hgt : ∀ c j, heir b c = some j → c < j := fun c j h => hb.heir_gt h
  obtain ⟨m, hm, hmj⟩ := heir_le hj
  refine ⟨m, hmj, hgt _ _ hm, h.heir_label hi hm, ?_⟩
  intro m' h1 h2 h3
  obtain ⟨s, hs, hci⟩ := (h.2 i k).mp hi
  obtain ⟨s', hs', hcm⟩ := (h.2 m' k).mp h3
  rw [hs] at hs'; cases hs'
  rcases chain_total hci hcm with hc | hc
  · rcases chain_iff.mp hc with rfl | ⟨m'', hm'', hc'⟩
    · omega
    · rw [hm] at hm''; cases hm''
      have := chain_le hgt hc'
      omega
  · have := chain_le hgt hc
    omega

theorem process_maximal {samples : List (Sample K)} {init : K} (hc : Consistent samples init)
    (A : Argsort K) (da dw : Bool) {w w' : World σ} {r : Run K} {labels : List Int}
    (h : processSamples A R samples da dw w = (.ok r, w')) (hl : r.labels = some labels)
    {i j : Nat} {s t : Sample K} (hs : (sortBy A (·.logl) samples)[i]? = some s)
    (ht : (sortBy A (·.logl) samples)[j]? = some t) (hb : t.birth = s.logl) :
    ∃ m ≤ j, Consecutive labels i m := by
  obtain ⟨b, hbl, hbv, hB, hval⟩ := hc.birthInds R A da dw (σ := σ)
  obtain ⟨labs, tmm, nlive, st, en, hth, hrun, -⟩ := processSamples_of R (hB w) hbl hbv
  rw [hrun] at h
  cases h
  simp only [Option.some.injEq] at hl
  subst hl
  have hlen : (sortBy A (·.logl) samples).length = labs.length := by
    rw [(sortBy_perm A _ samples).length_eq, hth.1, hbl]
  have hi : i < labs.length := by rw [← hlen]; exact (List.getElem?_eq_some_iff.mp hs).1
  have hbj : b[j]? = some (i : Int) := by
    rcases hval j t ht with ⟨h1, -⟩ | ⟨-, d, u, h1, h2, h3, -⟩
    · exact absurd (hc.below s (hc.mem_sorted A hs)) (by rw [← hb, h1]; exact lt_irrefl _)
    · rw [hb] at h3
      have e1 := (hc.logl_lt_iff A hs h2).not
      have e2 := (hc.logl_lt_iff A h2 hs).not
      rw [h3] at e1 e2
      simp only [lt_irrefl, not_false_eq_true, true_iff, not_lt] at e1 e2
      rw [h1]
      have : d = i := by omega
      simp [this]
  obtain ⟨m, h1, h2, h3, h4⟩ := hth.continues hbv (List.getElem?_eq_getElem hi) hbj
  refine ⟨m, h1, h2, (labs[i] : Nat), ?_, ?_, ?_⟩
  · rw [List.getElem?_map, List.getElem?_eq_getElem hi]; rfl
  · rw [List.getElem?_map, h3]; rfl
  · intro m' a1 a2 a3
    refine h4 m' a1 a2 ?_
    rw [List.getElem?_map] at a3
    cases hm : labs[m']? with
    | none => rw [hm] at a3; simp at a3
    | some x =>
      rw [hm] at a3
      simp at a3
      rw [a3]

/-- No two samples were born on the same contour, apart from those which were
sampled from the whole prior. -/
def Spec.OneHeir (samples : List (Sample K)) (init : K) : Prop :=
  ∀ s ∈ samples, ∀ t ∈ samples, s.birth = t.birth → s.birth ≠ init → s.logl = t.logl

/-- Every thread starts from the whole prior exactly if no contour other than the
initial one has two births. -/
theorem process_static {samples : List (Sample K)} {init : K} (hc : Consistent samples init)
    (A : Argsort K) (da dw : Bool) {w w' : World σ} {r : Run K} {tmm : List (WithBot K × K)}
    (h : processSamples A R samples da dw w = (.ok r, w')) (ht : r.tmm = some tmm) :
    (∀ p ∈ tmm, p.1 = ⊥) ↔ OneHeir samples init := by
  obtain ⟨r', labels, tmm', h1, h2, -, h3, h4, h5, -, -, h6, h7, h8, h9, -⟩ :=
    process_consistent R hc A da dw (σ := σ)
  have h0 := h
  rw [h1 w] at h
  cases h
  rw [h4] at ht
  cases ht
  set S := sortBy A (·.logl) samples with hS
  have hSl : S.length = labels.length := by rw [(sortBy_perm A _ samples).length_eq, h5]
  have hpos : ∀ s ∈ samples, ∃ i, S[i]? = some s := fun s hs =>
    List.mem_iff_getElem?.mp ((sortBy_perm A _ samples).mem_iff.mpr hs)
  constructor
  · intro hall s hs t ht hbt hbi
    by_contra hne
    obtain ⟨i, hi⟩ := hpos s hs
    obtain ⟨j, hj⟩ := hpos t ht
    -- the later of the two starts a thread
    have key : ∀ (i j : Nat) (s t : Sample K), S[i]? = some s → S[j]? = some t → s.birth = t.birth →
        s.birth ≠ init → i < j → False := by
      intro i j s t hi hj hbt hbi hij
      have hsm := hc.mem_sorted A hi
      have htm := hc.mem_sorted A hj
      obtain ⟨u, hu, hbu, -⟩ := (hc.births s hsm).resolve_left hbi
      obtain ⟨p, hp⟩ := hpos u hu
      obtain ⟨m, hmi, hcm⟩ := process_maximal R hc A da dw h0 h3 hp hi hbu
      have hjl : j < labels.length := by rw [← hSl]; exact (List.getElem?_eq_some_iff.mp hj).1
      have hjm : labels[j] ∈ labels := List.getElem_mem hjl
      obtain ⟨f, hf⟩ := exists_firstOf hjm
      obtain ⟨hk0, hk1⟩ := (h6 _).mp hjm
      obtain ⟨k, hk⟩ : ∃ k : Nat, labels[j] = (k : Int) := ⟨labels[j].toNat, by omega⟩
      by_cases hfj : f = j
      · subst hfj
        have hkt : k < tmm.length := by omega
        have e := h8 k f t _ (by rw [← hk]; exact hf) (List.getElem?_eq_getElem hkt) hj
        rw [if_neg (by rw [← hbt]; exact hbi), hall _ (List.getElem_mem hkt)] at e
        exact WithBot.bot_ne_coe e
      · -- the predecessor of j in its thread
        have hlj : labels[j]? = some labels[j] := List.getElem?_eq_getElem hjl
        have hflt : f < j := by
          rcases lt_trichotomy f j with h | h | h
          · exact h
          · exact absurd h hfj
          · exact absurd hlj (hf.2 j h)
        obtain ⟨q, hq⟩ : ∃ q, Consecutive labels q j := by
          have hex : ∃ d, d < j ∧ labels[j - 1 - d]? = some labels[j] :=
            ⟨j - 1 - f, by omega, by rw [show j - 1 - (j - 1 - f) = f by omega]; exact hf.1⟩
          classical
          obtain ⟨hd1, hd2⟩ := Nat.find_spec hex
          refine ⟨j - 1 - Nat.find hex, by omega, labels[j], hd2, hlj, ?_⟩
          intro m' hm1 hm2 hm3
          refine Nat.find_min hex (m := j - 1 - m') (by omega) ⟨by omega, ?_⟩
          rw [show j - 1 - (j - 1 - m') = m' by omega]
          exact hm3
        have hqS : q < S.length := by rw [hSl]; have := hq.1; omega
        have hqb := h7 q j S[q] t hq (List.getElem?_eq_getElem hqS) hj
        have hqp : q = p := by
          have e1 := (hc.logl_lt_iff A (List.getElem?_eq_getElem hqS) hp).not
          have e2 := (hc.logl_lt_iff A hp (List.getElem?_eq_getElem hqS)).not
          rw [← hqb, ← hbt, hbu] at e1 e2
          simp only [lt_irrefl, not_false_eq_true, true_iff, not_lt] at e1 e2
          omega
        subst hqp
        obtain ⟨-, a, a1, a2, a3⟩ := hq
        obtain ⟨c0, c, c1, c2, c3⟩ := hcm
        rw [a1] at c1
        cases c1
        exact a3 m c0 (by omega) c2
    rcases lt_trichotomy i j with hij | rfl | hij
    · exact key i j s t hi hj hbt hbi hij
    · rw [hi] at hj; cases hj; exact hne rfl
    · exact key j i t s hj hi hbt.symm (by rw [← hbt]; exact hbi) hij
  · intro hone p hp
    obtain ⟨k, hk⟩ := List.mem_iff_getElem?.mp hp
    have hkl : k < tmm.length := (List.getElem?_eq_some_iff.mp hk).1
    obtain ⟨f, hf⟩ := exists_firstOf ((h6 (k : Int)).mpr ⟨by omega, by omega⟩)
    have hfS : f < S.length := by rw [hSl]; exact (List.getElem?_eq_some_iff.mp hf.1).1
    have e := h8 k f S[f] p hf hk (List.getElem?_eq_getElem hfS)
    by_cases hbi : S[f].birth = init
    · rw [if_pos hbi] at e; exact e
    · exfalso
      have hsm := hc.mem_sorted A (List.getElem?_eq_getElem hfS)
      obtain ⟨u, hu, hbu, -⟩ := (hc.births _ hsm).resolve_left hbi
      obtain ⟨q, hq⟩ := hpos u hu
      obtain ⟨m, hmf, hcm⟩ := process_maximal R hc A da dw h0 h3 hq (List.getElem?_eq_getElem hfS) hbu
      have hmS : m < S.length := by omega
      have hmb := h7 q m u S[m] hcm hq (List.getElem?_eq_getElem hmS)
      have hml := hone _ (hc.mem_sorted A (List.getElem?_eq_getElem hmS)) _ hsm (by rw [hmb, hbu])
        (by rw [hmb, ← hbu]; exact hbi)
      have e1 := (hc.logl_lt_iff A (List.getElem?_eq_getElem hmS) (List.getElem?_eq_getElem hfS)).not
      have e2 := (hc.logl_lt_iff A (List.getElem?_eq_getElem hfS) (List.getElem?_eq_getElem hmS)).not
      rw [hml] at e1 e2
      simp only [lt_irrefl, not_false_eq_true, true_iff, not_lt] at e1 e2
      have hmf : m = f := by omega
      subst hmf
      obtain ⟨c0, c, c1, c2, c3⟩ := hcm
      rw [hf.1] at c2
      cases c2
      exact hf.2 q c0 c1

end Nestcheck
