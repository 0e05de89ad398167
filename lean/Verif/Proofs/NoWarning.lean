import Verif.Proofs.ThreadsGeneral
import Verif.Spec.Run

/-
process_samples_array without warnings, plateaus included.
-/

set_option linter.unusedSectionVars false

namespace Nestcheck
open Finset Spec
variable {σ K : Type} [CommRing K] [LinearOrder K] (R : Rng σ K)

/-- If following births reaches every point, no point is its own birth point. -/
theorem births_valid_of_threads {births logls : List K} {init : K} {b : List Int} {labels : List Nat}
    (h0 : births[0]? = some init) (hlen : b.length = births.length)
    (hs : BirthIndsSpec births logls init b) (hth : IsThreads b labels) : BirthsValid b := by
  have hval : ∀ (i : Nat) (v : Int), b[i]? = some v → v = -1 ∨ ∃ d : Nat, v = d ∧ (d < i ∨ d = i) := by
    intro i v hv
    have hil : i < births.length := by rw [← hlen]; exact (List.getElem?_eq_some_iff.mp hv).1
    by_cases hb : births[i] = init
    · left
      have := hs.init_val i (by rw [List.getElem?_eq_getElem hil, hb])
      rw [hv] at this; simpa using this
    · right
      obtain ⟨d, h1, -, h3⟩ := hs.val i _ v (List.getElem?_eq_getElem hil) hb hv
      exact ⟨d, h1, h3.imp id And.left⟩
  have hneg : (-1 : Int) ∈ b := List.mem_of_getElem? (hs.init_val 0 h0)
  -- no point reached from a thread start is its own birth point
  have hself : ∀ s i, s ∈ starters b → Chain b s i → b[i]? ≠ some (i : Int) := by
    intro s i hs hc
    induction hc with
    | refl =>
      intro hbs
      obtain ⟨v, hv, hor⟩ := mem_starters.mp hs
      rw [hbs] at hv
      obtain rfl : (s : Int) = v := by simpa using hv
      rcases hor with hle | ⟨j, hj, hbj⟩
      · have := hle _ hneg; omega
      · rcases hval j _ hbj with h | ⟨d, h, h'⟩
        · omega
        · omega
    | @step c j hc hj ih =>
      intro hbj
      have := heir_birth hj
      rw [hbj] at this
      have hjc : j = c := by simpa using this
      subst hjc
      exact ih hbj
  intro i v hv
  rcases hval i v hv with h | ⟨d, h1, h2⟩
  · omega
  · rcases h2 with h2 | rfl
    · omega
    · exfalso
      obtain ⟨k, hk⟩ := hth.exists_label (List.getElem?_eq_some_iff.mp hv).1
      obtain ⟨s, hs, hc⟩ := (hth.2 _ k).mp hk
      exact hself s d (List.mem_of_getElem? hs) hc (by rw [hv, h1])

theorem processSamples_no_warning {A : Argsort K} {samples : List (Sample K)} {da dw : Bool}
    {w w' : World σ} {r : Run K} (h : processSamples A R samples da dw w = (.ok r, w'))
    (hm : .moreBirths ∉ w'.warns) (hu : .unlabelled ∉ w'.warns) :
    ∃ (b : List Int) (init : K),
      birthInds A R ((sortBy A (·.logl) samples).map (·.birth))
        ((sortBy A (·.logl) samples).map (·.logl)) da dw w = (.ok b, w') ∧
      b.length = samples.length ∧ BirthsValid b ∧
      ((sortBy A (·.logl) samples).map (·.birth))[0]? = some init ∧
      BirthIndsSpec ((sortBy A (·.logl) samples).map (·.birth))
        ((sortBy A (·.logl) samples).map (·.logl)) init b := by
  unfold processSamples at h
  obtain ⟨b, w1, hB, h⟩ := M.bind_eq_ok.mp h
  obtain ⟨labels, w2, hT, h⟩ := M.bind_eq_ok.mp h
  obtain ⟨u, w3, hA, h⟩ := M.bind_eq_ok.mp h
  obtain ⟨acc, w4, hL, h⟩ := M.bind_eq_ok.mp h
  have e3 : w3 = w2 := by
    rw [M.assert_apply] at hA; exact (Prod.mk.injEq .. ▸ hA).2.symm
  have e4 : w4 = w3 := by
    rw [M.lift_apply] at hL; exact (Prod.mk.injEq .. ▸ hL).2.symm
  have e5 : w' = w4 := by
    rw [M.pure_apply] at h; exact (Prod.mk.injEq .. ▸ h).2.symm
  subst e5 e4 e3
  obtain ⟨-, -, -, -, -, -, init, h0, hspec⟩ := birthInds_ok R hB
  rcases threadsGivenBirthInds_outcome (σ := σ) R b with ⟨-, hT'⟩ | ⟨labels', hth, hT'⟩ | ⟨labels', -, -, -, -, hT'⟩
  · rw [hT'] at hT; simp at hT
  · rw [hT'] at hT
    simp only [Prod.mk.injEq, Except.ok.injEq] at hT
    obtain ⟨rfl, rfl⟩ := hT
    obtain ⟨hlen, hsp, -⟩ := hspec hm
    refine ⟨b, init, hB, ?_, births_valid_of_threads h0 hlen hsp hth, h0, hsp⟩
    rw [hlen, List.length_map, (sortBy_perm A _ samples).length_eq]
  · rw [hT'] at hT
    simp only [Prod.mk.injEq] at hT
    exfalso
    apply hu
    rw [← hT.2]
    simp

/-- With valid birth indexes the processed run has the documented format. -/
theorem valid_of_threads {b : List Int} {labels : List Nat} {logl : List K} {theta : List (List K)}
    {nlive : List Int} {tmm : List (WithBot K × K)} {st en : Nat → Nat} (hbv : BirthsValid b)
    (hth : IsThreads b labels) (hne : b ≠ []) (hl : logl.length = b.length)
    (ht : theta.length = b.length) (hn : nlive.length = b.length)
    (hsort : logl.Pairwise (· ≤ ·)) (htl : tmm.length = (starters b).length)
    (htm : ∀ k < (starters b).length, (starters b)[k]? = some (st k) ∧
      ThreadAt b labels k (st k) (en k) ∧ tmm[k]? = some (threadRange logl b (st k) (en k))) :
    ValidWith { logl := logl, nlive := nlive, theta := theta, labels := some (labels.map Int.ofNat),
                tmm := some tmm } (labels.map Int.ofNat) tmm := by
  have hlabels : ∀ (i k : Nat), (labels.map Int.ofNat)[i]? = some (k : Int) ↔ labels[i]? = some k := by
    intro i k
    rw [List.getElem?_map]
    cases labels[i]? <;> simp
  refine ⟨rfl, rfl, by simp only; omega, by rw [List.length_map, hth.1, hl], by simp only; omega,
    fun i j x y hij hx hy => pairwise_iff_getElem?.mp hsort i j x y hij hx hy, ?_, ?_, ?_, ?_⟩
  · intro k
    rw [htl]
    constructor
    · intro hk
      obtain ⟨a, ha, rfl⟩ := List.mem_map.mp hk
      obtain ⟨i, hi⟩ := List.mem_iff_getElem?.mp ha
      have := hth.lt_of_label hi
      simp; exact this
    · rintro ⟨h1, h2⟩
      have hk : k.toNat < (starters b).length := by omega
      refine List.mem_map.mpr ⟨k.toNat,
        List.mem_of_getElem? (hth.start_label (List.getElem?_eq_getElem hk)), ?_⟩
      simp; omega
  · have hb0 := hbv.zero hne
    have h0 : 0 ∈ starters b := by
      rw [hbv.mem_starters_iff (List.length_pos_iff.mpr hne)]
      intro c h
      have := hbv.heir_gt h
      omega
    obtain ⟨k, hk⟩ := List.mem_iff_getElem?.mp h0
    have hkl := (List.getElem?_eq_some_iff.mp hk).1
    obtain ⟨a1, a2, a3⟩ := htm k hkl
    refine ⟨_, List.mem_of_getElem? a3, ?_⟩
    rw [hk] at a1
    have : st k = 0 := by simpa using a1.symm
    unfold threadRange
    rw [this]
    simp [bAt_eq hb0]
  · intro k mm i l hmm hfirst hli
    have hk : k < (starters b).length := by
      rw [← htl]; exact (List.getElem?_eq_some_iff.mp hmm).1
    obtain ⟨a1, a2, a3⟩ := htm k hk
    rw [hmm] at a3
    have hik := (hlabels i k).mp hfirst.1
    have hi : i = st k := by
      have h1 := a2.start_le i hik
      by_contra hne
      exact hfirst.2 (st k) (by omega) ((hlabels _ _).mpr a2.start_mem)
    have a3' : mm = threadRange logl b (st k) (en k) := by simpa using a3
    rw [a3', ← hi]
    unfold threadRange
    dsimp only at hli ⊢
    split_ifs with hneg
    · exact bot_le
    · have hib : i < b.length := by
        rw [← hl]; exact (List.getElem?_eq_some_iff.mp hli).1
      have hv := hbv i _ (getElem?_bAt hib)
      have hd : (bAt b i).toNat < i := by omega
      have hdl : (bAt b i).toNat < logl.length := by omega
      rw [List.getElem?_eq_getElem hdl]
      exact WithBot.coe_le_coe.mpr
        (pairwise_iff_getElem?.mp hsort _ _ _ _ hd (List.getElem?_eq_getElem hdl) hli)
  · intro k mm i l hmm hlast hli
    have hk : k < (starters b).length := by
      rw [← htl]; exact (List.getElem?_eq_some_iff.mp hmm).1
    obtain ⟨a1, a2, a3⟩ := htm k hk
    rw [hmm] at a3
    have a3' : mm = threadRange logl b (st k) (en k) := by simpa using a3
    have he : EndsAt labels k i :=
      ⟨(hlabels _ _).mp hlast.1, fun j hj h => hlast.2 j hj ((hlabels _ _).mpr h)⟩
    rw [a3', ← he.eq a2.ends]
    unfold threadRange
    dsimp only at hli ⊢
    rw [hli]; rfl

end Nestcheck
