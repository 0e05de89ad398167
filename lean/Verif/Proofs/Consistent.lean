import Verif.Proofs.Process
import Verif.Spec.DeadBirth
import Verif.Spec.Run

/-
process_samples_array on dead-birth arrays with distinct loglikelihoods.
-/

set_option linter.unusedSectionVars false

namespace Nestcheck
open Finset Spec
variable {σ K : Type} [CommRing K] [LinearOrder K] (R : Rng σ K)

theorem countP_eq_card {α : Type} (p : α → Bool) (xs : List α) :
    xs.countP p = ((range xs.length).filter (fun j => (xs[j]?.any p) = true)).card := by
  rw [← length_whereIdx]
  have : (range xs.length).filter (fun j => (xs[j]?.any p) = true) =
      (whereIdx p xs).toFinset := by
    ext j
    rw [List.mem_toFinset, mem_whereIdx, Finset.mem_filter, Finset.mem_range, Option.any_eq_true]
    constructor
    · rintro ⟨-, h⟩; exact h
    · rintro ⟨x, h, h'⟩
      exact ⟨(List.getElem?_eq_some_iff.mp h).1, x, h, h'⟩
  rw [this, List.toFinset_card_of_nodup whereIdx_nodup]

theorem chain_total {b : List Int} {s x y : Nat} (hx : Chain b s x) (hy : Chain b s y) :
    Chain b x y ∨ Chain b y x := by
  induction hx with
  | refl => exact .inl hy
  | @step c x' hc hj ih =>
    rcases ih with ih | ih
    · rcases chain_iff.mp ih with rfl | ⟨j', hj', hc'⟩
      · exact .inr ((Chain.refl).step hj)
      · rw [hj] at hj'; cases hj'; exact .inl hc'
    · exact .inr (ih.step hj)

/-- Consecutive samples of a thread: the later was born on the earlier one. -/
theorem IsThreads.consecutive {b : List Int} {labels : List Nat} (hb : BirthsValid b)
    (h : IsThreads b labels) {i j k : Nat} (hij : i < j) (hi : labels[i]? = some k)
    (hj : labels[j]? = some k) (hm : ∀ m, i < m → m < j → labels[m]? ≠ some k) :
    b[j]? = some (i : Int) := by
  obtain ⟨s, hs, hci⟩ := (h.2 i k).mp hi
  obtain ⟨s', hs', hcj⟩ := (h.2 j k).mp hj
  rw [hs] at hs'; cases hs'
  have hgt : ∀ c j, heir b c = some j → c < j := fun c j h => hb.heir_gt h
  rcases chain_total hci hcj with hc | hc
  · rcases chain_iff.mp hc with rfl | ⟨m, hm', hc'⟩
    · omega
    · have h1 := hgt _ _ hm'
      have h2 := chain_le hgt hc'
      by_cases h3 : m < j
      · exact absurd (h.heir_label hi hm') (hm m h1 h3)
      · obtain rfl : m = j := by omega
        exact heir_birth hm'
  · have := chain_le hgt hc
    omega

section
variable {samples : List (Sample K)} {init : K} (hc : Consistent samples init) (A : Argsort K)
include hc

theorem Spec.Consistent.sorted_strict :
    ((sortBy A (·.logl) samples).map (·.logl)).Pairwise (· < ·) :=
  List.pairwise_map.mpr (sortBy_strict hc.distinct)

theorem Spec.Consistent.mem_sorted {i : Nat} {s : Sample K}
    (h : (sortBy A (·.logl) samples)[i]? = some s) : s ∈ samples :=
  (sortBy_perm A _ samples).mem_iff.mp (List.mem_of_getElem? h)

theorem Spec.Consistent.logl_lt_iff {i j : Nat} {s t : Sample K}
    (hi : (sortBy A (·.logl) samples)[i]? = some s) (hj : (sortBy A (·.logl) samples)[j]? = some t) :
    s.logl < t.logl ↔ i < j := by
  have hs := hc.sorted_strict A
  have hi' : ((sortBy A (·.logl) samples).map (·.logl))[i]? = some s.logl := by
    rw [List.getElem?_map, hi]; rfl
  have hj' : ((sortBy A (·.logl) samples).map (·.logl))[j]? = some t.logl := by
    rw [List.getElem?_map, hj]; rfl
  constructor
  · exact lt_of_logl_lt (hs.imp le_of_lt) hi' hj'
  · intro h; exact pairwise_iff_getElem?.mp hs _ _ _ _ h hi' hj'

/-- The birth indexes of a consistent array. -/
theorem Spec.Consistent.birthInds (da dw : Bool) :
    ∃ b : List Int, b.length = samples.length ∧ BirthsValid b ∧
      (∀ w : World σ, Nestcheck.birthInds A R ((sortBy A (·.logl) samples).map (·.birth))
        ((sortBy A (·.logl) samples).map (·.logl)) da dw w = (.ok b, w)) ∧
      ∀ (i : Nat) (s : Sample K), (sortBy A (·.logl) samples)[i]? = some s →
        (s.birth = init ∧ b[i]? = some (-1)) ∨
        (s.birth ≠ init ∧ ∃ (d : Nat) (t : Sample K), b[i]? = some (d : Int) ∧
          (sortBy A (·.logl) samples)[d]? = some t ∧ t.logl = s.birth ∧ d < i) := by
  set S := sortBy A (·.logl) samples with hS
  have hperm : S.Perm samples := sortBy_perm A _ samples
  have hlt : ∀ s ∈ S, s.birth < s.logl := by
    intro s hs
    have hs' := hperm.mem_iff.mp hs
    rcases hc.births s hs' with h | ⟨t, -, h1, h2⟩
    · rw [h]; exact hc.below s hs'
    · rw [h1]; exact h2
  have hne : 0 < S.length := by
    rw [hperm.length_eq]; exact List.length_pos_iff.mpr hc.nonempty
  have h0 : S[0]? = some S[0] := List.getElem?_eq_getElem hne
  have hb0 : (S.map (·.birth))[0]? = some init := by
    rw [List.getElem?_map, h0]
    rcases hc.births S[0] (hc.mem_sorted A h0) with h | ⟨t, ht, -, h2⟩
    · simp [h]
    · exfalso
      obtain ⟨j, hj⟩ := List.mem_iff_getElem?.mp (hperm.mem_iff.mpr ht)
      have := (hc.logl_lt_iff A hj h0).mp h2
      omega
  have hord : ∀ (i : Nat) (x y : K), (S.map (·.birth))[i]? = some x → (S.map (·.logl))[i]? = some y →
      x ≤ y := by
    intro i x y hx hy
    rw [List.getElem?_map] at hx hy
    cases hs : S[i]? with
    | none => rw [hs] at hx; simp at hx
    | some s =>
      rw [hs] at hx hy
      simp at hx hy
      rw [← hx, ← hy]
      exact le_of_lt (hlt s (List.mem_of_getElem? hs))
  have hmem : ∀ x ∈ S.map (·.birth), x = init ∨ x ∈ S.map (·.logl) := by
    intro x hx
    obtain ⟨s, hs, rfl⟩ := List.mem_map.mp hx
    rcases hc.births s (hperm.mem_iff.mp hs) with h | ⟨t, ht, h1, -⟩
    · exact .inl h
    · exact .inr (List.mem_map.mpr ⟨t, hperm.mem_iff.mpr ht, h1.symm⟩)
  rcases birthInds_strict R A da dw (hc.sorted_strict A) hb0 (by rw [List.length_map, List.length_map]) with
    ⟨-, -, b, hb⟩ | ⟨hcon, -⟩
  swap
  · exact absurd ⟨hord, hmem⟩ hcon
  obtain ⟨-, -, -, -, -, -, init', hi', hspec⟩ := birthInds_ok R (hb ⟨R.seed 0, []⟩)
  rw [hb0] at hi'
  cases hi'
  obtain ⟨hlen, hspec, -⟩ := hspec (by simp)
  have hval : ∀ (i : Nat) (s : Sample K), S[i]? = some s →
        (s.birth = init ∧ b[i]? = some (-1)) ∨
        (s.birth ≠ init ∧ ∃ (d : Nat) (t : Sample K), b[i]? = some (d : Int) ∧
          S[d]? = some t ∧ t.logl = s.birth ∧ d < i) := by
    intro i s hs
    have hbi : (S.map (·.birth))[i]? = some s.birth := by rw [List.getElem?_map, hs]; rfl
    by_cases h : s.birth = init
    · left
      exact ⟨h, hspec.init_val i (by rw [hbi, h])⟩
    · right
      refine ⟨h, ?_⟩
      have hil : i < b.length := by
        rw [hlen]; exact (List.getElem?_eq_some_iff.mp hbi).1
      obtain ⟨d, h1, h2, h3⟩ := hspec.val i _ _ hbi h (List.getElem?_eq_getElem hil)
      rw [List.getElem?_map] at h2
      cases ht : S[d]? with
      | none => rw [ht] at h2; simp at h2
      | some t =>
        rw [ht] at h2
        have h2' : t.logl = s.birth := by simpa using h2
        refine ⟨d, t, by rw [List.getElem?_eq_getElem hil, h1], ht, h2', ?_⟩
        rcases h3 with h3 | ⟨rfl, -⟩
        · exact h3
        · rw [hs] at ht; cases ht
          exact absurd h2' (ne_of_gt (hlt s (List.mem_of_getElem? hs)))
  refine ⟨b, by rw [hlen, List.length_map, hperm.length_eq], ?_, hb, hval⟩
  intro i v hv
  have hil : i < S.length := by
    have := (List.getElem?_eq_some_iff.mp hv).1
    rwa [hlen, List.length_map] at this
  rcases hval i _ (List.getElem?_eq_getElem hil) with ⟨-, h⟩ | ⟨-, d, t, h, -, -, h3⟩
  · rw [hv] at h; simp at h; omega
  · rw [hv] at h; simp at h; omega

end

/-- Everything about the processed run, in terms of the sorted samples. -/
theorem process_consistent {samples : List (Sample K)} {init : K} (hc : Consistent samples init)
    (A : Argsort K) (da dw : Bool) :
    ∃ (r : Run K) (labels : List Int) (tmm : List (WithBot K × K)),
      (∀ w : World σ, processSamples A R samples da dw w = (.ok r, w)) ∧
      r.logl = (sortBy A (·.logl) samples).map (·.logl) ∧
      r.theta = (sortBy A (·.logl) samples).map (·.theta) ∧
      r.labels = some labels ∧ r.tmm = some tmm ∧
      labels.length = samples.length ∧ r.nlive.length = samples.length ∧
      (∀ (i : Nat) (l : K), r.logl[i]? = some l → r.nlive[i]? = some (liveAt samples l : Int)) ∧
      (∀ k : Int, k ∈ labels ↔ 0 ≤ k ∧ k < tmm.length) ∧
      (∀ (i j : Nat) (s t : Sample K), Consecutive labels i j →
        (sortBy A (·.logl) samples)[i]? = some s → (sortBy A (·.logl) samples)[j]? = some t →
        t.birth = s.logl) ∧
      (∀ (k i : Nat) (s : Sample K) (mm : WithBot K × K), FirstOf labels k i → tmm[k]? = some mm →
        (sortBy A (·.logl) samples)[i]? = some s →
        mm.1 = if s.birth = init then ⊥ else (s.birth : WithBot K)) ∧
      (∀ (k i : Nat) (s : Sample K) (mm : WithBot K × K), LastOf labels k i → tmm[k]? = some mm →
        (sortBy A (·.logl) samples)[i]? = some s → mm.2 = s.logl) ∧
      ∃ p ∈ tmm, p.1 = ⊥ := by
  obtain ⟨b, hbl, hbv, hB, hval⟩ := hc.birthInds R A da dw (σ := σ)
  set S := sortBy A (·.logl) samples with hS
  have hperm : S.Perm samples := sortBy_perm A _ samples
  -- the result for one world, then for all
  obtain ⟨labels, tmm, nlive, st, en, hth, -, htl, htm, hnl, hn⟩ :=
    processSamples_of R (hB ⟨R.seed 0, []⟩) hbl hbv
  have hrun : ∀ w : World σ, processSamples A R samples da dw w =
        (.ok { logl := S.map (·.logl), nlive := nlive, theta := S.map (·.theta),
               labels := some (labels.map Int.ofNat), tmm := some tmm }, w) := by
    intro w
    obtain ⟨labels', tmm', nlive', st', en', hth', hrun', htl', htm', hnl', hn'⟩ :=
      processSamples_of R (hB w) hbl hbv
    have hlab : labels' = labels := by
      apply List.ext_getElem?
      intro i
      apply Option.ext
      intro k
      rw [hth.2, hth'.2]
    have htmm : tmm' = tmm := by
      apply List.ext_getElem? 
      intro k
      by_cases hk : k < (starters b).length
      · obtain ⟨a1, a2, a3⟩ := htm k hk
        obtain ⟨b1, b2, b3⟩ := htm' k hk
        have e1 : st' k = st k := by rw [a1] at b1; simpa using b1.symm
        have e2 : en' k = en k := by
          rw [hlab] at b2; exact b2.ends.eq a2.ends
        rw [a3, b3, e1, e2]
      · rw [List.getElem?_eq_none (by omega), List.getElem?_eq_none (by omega)]
    have hnn : nlive' = nlive := by
      apply List.ext_getElem?
      intro i
      by_cases hi : i < b.length
      · rw [hn i hi, hn' i hi]
      · rw [List.getElem?_eq_none (by omega), List.getElem?_eq_none (by omega)]
    rw [hrun', hlab, htmm, hnn]
  have hSl : S.length = b.length := by rw [hperm.length_eq, hbl]
  have hlabels : ∀ (i k : Nat), (labels.map Int.ofNat)[i]? = some (k : Int) ↔ labels[i]? = some k := by
    intro i k
    rw [List.getElem?_map]
    cases labels[i]? <;> simp
  refine ⟨_, labels.map Int.ofNat, tmm, hrun, rfl, rfl, rfl, rfl, ?_, ?_, ?_, ?_, ?_, ?_, ?_, ?_⟩
  · rw [List.length_map, hth.1, hbl]
  · simp only; rw [hnl, hbl]
  · -- nlive
    intro i l hl
    simp only at hl ⊢
    have hib : i < b.length := by
      have := (List.getElem?_eq_some_iff.mp hl).1
      rw [List.length_map] at this; omega
    rw [hn i hib, liveAt, ← hperm.countP_eq, countP_eq_card, hSl]
    congr 3
    ext j
    simp only [Finset.mem_filter, Finset.mem_range]
    refine and_congr_right (fun hj => ?_)
    have hjS : S[j]? = some (S[j]'(by omega)) := List.getElem?_eq_getElem (by omega)
    have hiS : S[i]? = some (S[i]'(by omega)) := List.getElem?_eq_getElem (by omega)
    have hli : l = (S[i]'(by omega)).logl := by
      rw [List.getElem?_map, hiS] at hl; simpa using hl.symm
    have e2 : i ≤ j ↔ l ≤ (S[j]'(by omega)).logl := by
      rw [hli, ← not_lt, ← not_lt, hc.logl_lt_iff A hjS hiS]
    have e1 : bAt b j < (i : Int) ↔ (S[j]'(by omega)).birth < l := by
      rcases hval j _ hjS with ⟨h1, h2⟩ | ⟨-, d, t, h1, h2, h3, -⟩
      · rw [bAt_eq h2, h1, hli]
        constructor
        · intro _; exact hc.below _ (hc.mem_sorted A hiS)
        · intro _; omega
      · rw [bAt_eq h1, ← h3, hli, hc.logl_lt_iff A h2 hiS]
        omega
    rw [e1, e2, hjS]
    simp
  · intro k
    rw [htl]
    constructor
    · intro hk
      obtain ⟨a, ha, rfl⟩ := List.mem_map.mp hk
      obtain ⟨i, hi⟩ := List.mem_iff_getElem?.mp ha
      have := hth.lt_of_label hi
      simp; exact this
    · rintro ⟨h1, h2⟩
      have hk : k.toNat < (starters b).length := by omega
      refine List.mem_map.mpr ⟨k.toNat, List.mem_of_getElem? (hth.start_label (List.getElem?_eq_getElem hk)), ?_⟩
      simp; omega
  · rintro i j s t ⟨hij, k, h1, h2, h3⟩ hs ht
    obtain ⟨k', rfl⟩ : ∃ k' : Nat, k = (k' : Int) := by
      obtain ⟨a, -, rfl⟩ := List.mem_map.mp (List.mem_of_getElem? h1)
      exact ⟨a, rfl⟩
    have hbj := hth.consecutive hbv hij ((hlabels _ _).mp h1) ((hlabels _ _).mp h2)
      (fun m hm1 hm2 hm3 => h3 m hm1 hm2 ((hlabels _ _).mpr hm3))
    rcases hval j t ht with ⟨-, h⟩ | ⟨-, d, u, h, hu, hul, -⟩
    · rw [hbj] at h; simp at h
    · rw [hbj] at h
      have : i = d := by simpa using h
      subst this
      rw [hs] at hu; cases hu
      exact hul.symm
  · intro k i s mm hfirst hmm hs
    have hk : k < (starters b).length := by
      rw [← htl]; exact (List.getElem?_eq_some_iff.mp hmm).1
    obtain ⟨a1, a2, a3⟩ := htm k hk
    rw [hmm] at a3
    have hik := (hlabels i k).mp hfirst.1
    have hi : i = st k := by
      have h1 := a2.start_le i hik
      by_contra hne
      exact hfirst.2 (st k) (by omega) ((hlabels _ _).mpr a2.start_mem)
    have a3' : mm = threadRange (S.map (·.logl)) b (st k) (en k) := by simpa using a3
    rw [a3', ← hi]
    unfold threadRange
    dsimp only
    rcases hval i s hs with ⟨h1, h2⟩ | ⟨h1, d, t, h2, h3, h4, -⟩
    · rw [if_pos h1, bAt_eq h2, if_pos rfl]
    · rw [if_neg h1, bAt_eq h2, if_neg (by omega)]
      have : (S.map (·.logl))[((d : Int)).toNat]? = some s.birth := by
        rw [Int.toNat_natCast, List.getElem?_map, h3]
        simp [h4]
      rw [this]; rfl
  · intro k i s mm hlast hmm hs
    have hk : k < (starters b).length := by
      rw [← htl]; exact (List.getElem?_eq_some_iff.mp hmm).1
    obtain ⟨a1, a2, a3⟩ := htm k hk
    rw [hmm] at a3
    have a3' : mm = threadRange (S.map (·.logl)) b (st k) (en k) := by simpa using a3
    have he : EndsAt labels k i :=
      ⟨(hlabels _ _).mp hlast.1, fun j hj h => hlast.2 j hj ((hlabels _ _).mpr h)⟩
    rw [a3', ← he.eq a2.ends]
    unfold threadRange
    dsimp only
    rw [List.getElem?_map, hs]; rfl
  · have hbne : b ≠ [] := by
      intro h
      have : samples.length = 0 := by rw [← hbl, h]; rfl
      exact hc.nonempty (List.eq_nil_of_length_eq_zero this)
    have hb0 := hbv.zero hbne
    have h0 : 0 ∈ starters b := by
      rw [hbv.mem_starters_iff (List.length_pos_iff.mpr hbne)]
      intro c h
      have := hbv.heir_gt h
      omega
    obtain ⟨k, hk⟩ := List.mem_iff_getElem?.mp h0
    have hkl := (List.getElem?_eq_some_iff.mp hk).1
    obtain ⟨a1, a2, a3⟩ := htm k hkl
    refine ⟨_, List.mem_of_getElem? a3, ?_⟩
    rw [hk] at a1
    have : st k = 0 := by simpa using a1.symm
    unfold threadRange
    rw [this]
    simp [bAt_eq hb0]

end Nestcheck
