import Verif.Spec.Sampler
import Verif.Props.EndToEnd
import Verif.Props.ArrayDict

/-
C87: what a nested sampler did is what nestcheck reconstructs from its dead-birth array.
-/

set_option linter.unusedSectionVars false

namespace Nestcheck
open Spec

/-! ### Executions of nested sampling -/

section executions
variable {K : Type} [LinearOrder K]

theorem Spec.Sampling.append {live mid final : List (Sample K)} {its its' : List (Iteration K)} (h : Sampling live its mid)
    (h' : Sampling mid its' final) : Sampling live (its ++ its') final := by
  induction h with
  | stop => exact h'
  | step hp hl hb _ ih => exact .step hp hl hb (ih h')

/-- The points that die or remain are those of the start and those that were born. -/
theorem Spec.Sampling.points {live final : List (Sample K)} {its : List (Iteration K)} (h : Sampling live its final) :
    (its.map (·.dead) ++ final).Perm (live ++ its.flatMap (·.born)) := by
  induction h with
  | stop => simp
  | @step live rest born final p its hp hl hb _ ih =>
    simp only [List.map_cons, List.cons_append, List.flatMap_cons]
    refine (ih.cons p).trans ?_
    rw [← List.append_assoc, ← List.cons_append, ← List.cons_append]
    exact (hp.symm.append_right _).append_right _

/-- Nothing dies or remains at or below a contour which lies below the start. -/
theorem Spec.Sampling.above {live final : List (Sample K)} {its : List (Iteration K)} (h : Sampling live its final) {b : K}
    (hb : ∀ q ∈ live, b < q.logl) : ∀ q ∈ its.map (·.dead) ++ final, b < q.logl := by
  induction h with
  | stop => simpa using hb
  | @step live rest born final p its hp hl hbn _ ih =>
    have hpb : b < p.logl := hb p (hp.mem_iff.mpr (by simp))
    intro q hq
    simp only [List.map_cons, List.cons_append, List.mem_cons] at hq
    rcases hq with rfl | hq
    · exact hpb
    · refine ih ?_ q hq
      intro x hx
      rcases List.mem_append.mp hx with hx | hx
      · exact hpb.trans (hl x hx)
      · exact hpb.trans (hbn x hx).2

theorem Spec.Sampling.tail_above {rest born final : List (Sample K)} {p : Sample K} {its : List (Iteration K)}
    (hl : ∀ q ∈ rest, p.logl < q.logl) (hb : ∀ q ∈ born, q.birth = p.logl ∧ p.logl < q.logl)
    (h : Sampling (rest ++ born) its final) : ∀ q ∈ its.map (·.dead) ++ final, p.logl < q.logl := by
  refine h.above ?_
  intro x hx
  rcases List.mem_append.mp hx with hx | hx
  · exact hl x hx
  · exact (hb x hx).2

/-- The contours ascend. -/
theorem Spec.Sampling.ascending {live final : List (Sample K)} {its : List (Iteration K)} (h : Sampling live its final) :
    (its.map (·.dead.logl)).Pairwise (· < ·) := by
  induction h with
  | stop => simp
  | @step live rest born final p its hp hl hb h ih =>
    simp only [List.map_cons, List.pairwise_cons]
    refine ⟨?_, ih⟩
    intro l hm
    obtain ⟨it, hit, rfl⟩ := List.mem_map.mp hm
    exact h.tail_above hl hb _ (List.mem_append_left _ (List.mem_map_of_mem hit))

/-- What remains lies above all contours. -/
theorem Spec.Sampling.final_above {live final : List (Sample K)} {its : List (Iteration K)} (h : Sampling live its final) :
    ∀ it ∈ its, ∀ q ∈ final, it.dead.logl < q.logl := by
  induction h with
  | stop => simp
  | @step live rest born final p its hp hl hb h ih =>
    intro it hit q hq
    rcases List.mem_cons.mp hit with rfl | hit
    · exact h.tail_above hl hb q (List.mem_append_right _ hq)
    · exact ih it hit q hq

/-- The births are on contours. -/
theorem Spec.Sampling.born {live final : List (Sample K)} {its : List (Iteration K)} (h : Sampling live its final) :
    ∀ it ∈ its, ∀ q ∈ it.born, q.birth = it.dead.logl ∧ it.dead.logl < q.logl := by
  induction h with
  | stop => simp
  | @step live rest born final p its hp hl hb h ih =>
    intro it hit
    rcases List.mem_cons.mp hit with rfl | hit
    · exact hb
    · exact ih it hit

/-- The number of live points at an iteration is the number of points born below its contour which die at or above it. -/
theorem Spec.Sampling.alive_eq {live final : List (Sample K)} {its : List (Iteration K)} (h : Sampling live its final) {b : K}
    (hbirth : ∀ q ∈ live, q.birth ≤ b) (hab : ∀ q ∈ live, b < q.logl) :
    ∀ it ∈ its, it.alive = liveAt (its.map (·.dead) ++ final) it.dead.logl := by
  induction h generalizing b with
  | stop => simp
  | @step live rest born final p its hp hl hb h ih =>
    have hpl : p ∈ live := hp.mem_iff.mpr (by simp)
    have htop : ∀ q ∈ live, p.logl ≤ q.logl := by
      intro q hq
      rcases List.mem_cons.mp (hp.mem_iff.mp hq) with rfl | hq
      · exact le_refl _
      · exact (hl q hq).le
    intro it hit
    rcases List.mem_cons.mp hit with rfl | hit
    · have hs : Sampling live (⟨p, live.length, born⟩ :: its) final := .step hp hl hb h
      unfold liveAt
      rw [hs.points.countP_eq, List.countP_append]
      have e1 : live.countP (fun s => decide (s.birth < p.logl ∧ p.logl ≤ s.logl)) = live.length := by
        rw [List.countP_eq_length]
        intro q hq
        exact decide_eq_true ⟨(hbirth q hq).trans_lt (hab p hpl), htop q hq⟩
      have e2 : (List.flatMap (·.born) ((⟨p, live.length, born⟩ : Iteration K) :: its)).countP
          (fun s => decide (s.birth < p.logl ∧ p.logl ≤ s.logl)) = 0 := by
        rw [List.countP_eq_zero]
        intro q hq
        obtain ⟨it, hit, hq⟩ := List.mem_flatMap.mp hq
        have e := (hs.born it hit q hq).1
        have hge : p.logl ≤ q.birth := by
          rw [e]
          rcases List.mem_cons.mp hit with rfl | hit
          · exact le_refl _
          · exact (h.tail_above hl hb _ (List.mem_append_left _ (List.mem_map_of_mem hit))).le
        simp [hge.not_gt]
      simp only at e1 e2 ⊢
      rw [e1, e2]
      rfl
    · have hlt := h.tail_above hl hb _ (List.mem_append_left _ (List.mem_map_of_mem hit))
      rw [ih (b := p.logl) ?_ ?_ it hit]
      · unfold liveAt
        simp only [List.map_cons, List.cons_append, List.countP_cons]
        rw [if_neg (by simp [hlt])]
        rfl
      · intro q hq
        rcases List.mem_append.mp hq with hq | hq
        · exact (hbirth q (hp.mem_iff.mpr (by simp [hq]))).trans (hab p hpl).le
        · exact (hb q hq).1.le
      · intro q hq
        rcases List.mem_append.mp hq with hq | hq
        · exact hl q hq
        · exact (hb q hq).2

/-- Live points with distinct loglikelihoods can be used up, one after the other. -/
theorem exists_drain (n : Nat) {live : List (Sample K)} (hn : live.length = n) (hd : (live.map (·.logl)).Nodup) :
    ∃ its : List (Iteration K), Sampling live its [] ∧ (∀ it ∈ its, it.born = []) ∧
      its.map (·.alive) = (List.range' 1 n).reverse := by
  induction n generalizing live with
  | zero =>
    obtain rfl := List.length_eq_zero_iff.mp hn
    exact ⟨[], .stop _, by simp, by simp⟩
  | succ n ih =>
    have hne : live ≠ [] := by rintro rfl; simp at hn
    obtain ⟨p, hp, hmin⟩ : ∃ p ∈ live, ∀ q ∈ live, p.logl ≤ q.logl := by
      clear ih hn hd
      induction live with
      | nil => exact absurd rfl hne
      | cons a t ih =>
        by_cases ht : t = []
        · subst ht; exact ⟨a, by simp, by simp⟩
        · obtain ⟨p, hp, hm⟩ := ih ht
          by_cases hap : a.logl ≤ p.logl
          · refine ⟨a, by simp, ?_⟩
            intro q hq
            rcases List.mem_cons.mp hq with rfl | hq
            · exact le_refl _
            · exact hap.trans (hm q hq)
          · refine ⟨p, by simp [hp], ?_⟩
            intro q hq
            rcases List.mem_cons.mp hq with rfl | hq
            · exact (not_le.mp hap).le
            · exact hm q hq
    obtain ⟨l1, l2, rfl⟩ := List.append_of_mem hp
    have hperm : (l1 ++ p :: l2).Perm (p :: (l1 ++ l2)) := List.perm_middle
    have hd' := (hperm.map (·.logl)).nodup_iff.mp hd
    simp only [List.map_cons, List.nodup_cons] at hd'
    obtain ⟨its, h1, h2, h3⟩ := ih (live := (l1 ++ l2) ++ []) (by have := hperm.length_eq; simp at this hn ⊢; omega)
      (by simpa using hd'.2)
    refine ⟨_, .step hperm ?_ (by simp) h1, ?_, ?_⟩
    · intro q hq
      refine lt_of_le_of_ne (hmin q (hperm.mem_iff.mpr (by simp [List.mem_append.mp hq]))) ?_
      intro e
      exact hd'.1 (e ▸ List.mem_map_of_mem hq)
    · intro it hit
      rcases List.mem_cons.mp hit with rfl | hit
      · rfl
      · exact h2 it hit
    · rw [List.map_cons, h3, hn, List.range'_concat]
      simp [Nat.add_comm]

/-- The numbers of live points: `|born| - 1` more at each iteration. -/
theorem Spec.Sampling.alive_balance {live final : List (Sample K)} {its : List (Iteration K)} (h : Sampling live its final) (i : Nat)
    (it : Iteration K) (hi : its[i]? = some it) :
    it.alive + i = live.length + ((its.take i).map (·.born.length)).sum := by
  induction h generalizing i with
  | stop => simp at hi
  | @step live rest born final p its hp hl hb h ih =>
    cases i with
    | zero =>
      simp only [List.getElem?_cons_zero, Option.some.injEq] at hi
      subst hi
      simp
    | succ i =>
      have := ih i (by simpa using hi)
      have hlen := hp.length_eq
      simp only [List.length_append, List.length_cons, List.take_succ_cons, List.map_cons, List.sum_cons] at this hlen ⊢
      omega

/-- Distinct loglikelihoods. -/
theorem Spec.Sampling.nodup {live final : List (Sample K)} {its : List (Iteration K)} (h : Sampling live its final)
    (hd : (final.map (·.logl)).Nodup) : ((its.map (·.dead) ++ final).map (·.logl)).Nodup := by
  rw [List.map_append, List.nodup_append]
  refine ⟨?_, hd, ?_⟩
  · rw [List.map_map]
    exact h.ascending.imp (fun hlt => ne_of_lt hlt)
  · intro a ha b hb e
    obtain ⟨x, hx, rfl⟩ := List.mem_map.mp ha
    obtain ⟨it, hit, rfl⟩ := List.mem_map.mp hx
    obtain ⟨q, hq, rfl⟩ := List.mem_map.mp hb
    exact absurd e (ne_of_lt (h.final_above it hit q hq))

/-- Every point starts or was born at an iteration. -/
theorem Spec.Sampling.origin {live final : List (Sample K)} {its : List (Iteration K)} (h : Sampling live its final) {s : Sample K}
    (hs : s ∈ its.map (·.dead) ++ final) : s ∈ live ∨ ∃ it ∈ its, s ∈ it.born := by
  rcases List.mem_append.mp (h.points.mem_iff.mp hs) with hs | hs
  · exact .inl hs
  · exact .inr (List.mem_flatMap.mp hs)

/-- The points written by a sampler, in any order, form a consistent dead-birth array. -/
theorem C87_consistent {live final samples : List (Sample K)} {its : List (Iteration K)} {init : K} (h0 : FromPrior live init)
    (h : Sampling live its final) (hd : (final.map (·.logl)).Nodup) (hs : samples.Perm (its.map (·.dead) ++ final)) :
    Consistent samples init where
  nonempty := by
    rintro rfl
    have hl := h.points.length_eq
    have hl2 := hs.length_eq
    have := List.length_pos_iff.mpr h0.nonempty
    simp only [List.length_append, List.length_nil] at hl hl2
    omega
  distinct := (hs.map _).nodup_iff.mpr (h.nodup hd)
  below := fun s hm => h.above h0.above s (hs.mem_iff.mp hm)
  births := by
    intro s hm
    rcases h.origin (hs.mem_iff.mp hm) with hl | ⟨it, hit, hb⟩
    · exact .inl (h0.birth s hl)
    · exact .inr ⟨it.dead, hs.mem_iff.mpr (List.mem_append_left _ (List.mem_map_of_mem hit)), h.born it hit s hb⟩

theorem Spec.Sampling.perm {live live' : List (Sample K)} {its : List (Iteration K)} (h : Sampling live its []) (hp : live.Perm live') :
    Sampling live' its [] := by
  cases its with
  | nil =>
    cases h
    rw [hp.symm.eq_nil]
    exact .stop _
  | cons it its =>
    cases h with
    | step h1 h2 h3 h4 =>
      rw [hp.length_eq]
      exact .step (hp.symm.trans h1) h2 h3 h4

theorem exists_sampling {S : List (Sample K)} {b : K} (hasc : (S.map (·.logl)).Pairwise (· < ·)) (hb : ∀ s ∈ S, b < s.logl)
    (hbirth : ∀ s ∈ S, s.birth ≤ b ∨ ∃ t ∈ S, s.birth = t.logl ∧ t.logl < s.logl) :
    ∃ its : List (Iteration K), Sampling (S.filter (fun s => decide (s.birth ≤ b))) its [] ∧ its.map (·.dead) = S := by
  induction S generalizing b with
  | nil => exact ⟨[], .stop _, rfl⟩
  | cons p S ih =>
    rw [List.map_cons, List.pairwise_cons] at hasc
    have hlt : ∀ q ∈ S, p.logl < q.logl := fun q hq => hasc.1 _ (List.mem_map_of_mem hq)
    have hbp := hb p (by simp)
    have hpb : p.birth ≤ b := by
      rcases hbirth p (by simp) with h | ⟨t, ht, -, h⟩
      · exact h
      · rcases List.mem_cons.mp ht with rfl | ht
        · exact absurd h (lt_irrefl _)
        · exact absurd h (hlt t ht).asymm
    have hcase : ∀ s ∈ S, s.birth ≤ b ∨ s.birth = p.logl ∨ ∃ t ∈ S, s.birth = t.logl ∧ t.logl < s.logl := by
      intro s hs
      rcases hbirth s (by simp [hs]) with h | ⟨t, ht, e, h⟩
      · exact .inl h
      · rcases List.mem_cons.mp ht with rfl | ht
        · exact .inr (.inl e)
        · exact .inr (.inr ⟨t, ht, e, h⟩)
    obtain ⟨its, h1, h2⟩ := ih (b := p.logl) hasc.2 hlt (by
      intro s hs
      rcases hcase s hs with h | h | h
      · exact .inl (h.trans hbp.le)
      · exact .inl h.le
      · exact .inr h)
    have hperm : (S.filter (fun s => decide (s.birth ≤ p.logl))).Perm
        (S.filter (fun s => decide (s.birth ≤ b)) ++ S.filter (fun s => decide (s.birth = p.logl))) := by
      refine List.Perm.trans ?_ ((List.filter_append_perm (fun s : Sample K => decide (s.birth ≤ b))
        (S.filter (fun s => decide (s.birth ≤ p.logl)))).symm.trans (List.Perm.of_eq ?_))
      · exact List.Perm.refl _
      · rw [List.filter_filter, List.filter_filter]
        congr 1
        · refine List.filter_congr ?_
          intro s _
          simp only [Bool.and_eq_decide, decide_eq_true_eq, decide_eq_decide]
          exact ⟨fun h => h.1, fun h => ⟨h, h.trans hbp.le⟩⟩
        · refine List.filter_congr ?_
          intro s hs
          simp only [Bool.and_eq_decide, decide_eq_true_eq, decide_eq_decide, Bool.not_eq_true', decide_eq_false_iff_not]
          constructor
          · rintro ⟨h3, h4⟩
            rcases hcase s hs with h | h | ⟨t, ht, e, -⟩
            · exact absurd h h3
            · exact h
            · rw [e] at h4
              exact absurd h4 (hlt t ht).not_ge
          · intro h
            exact ⟨by rw [h]; exact hbp.not_ge, h.le⟩
    refine ⟨_, .step (p := p) (rest := S.filter (fun s => decide (s.birth ≤ b)))
      (born := S.filter (fun s => decide (s.birth = p.logl))) ?_ ?_ ?_ (h1.perm hperm), ?_⟩
    · rw [List.filter_cons_of_pos (by simpa using hpb)]
    · intro q hq
      exact hlt q (List.mem_of_mem_filter hq)
    · intro q hq
      obtain ⟨hq1, hq2⟩ := List.mem_filter.mp hq
      exact ⟨by simpa using hq2, hlt q hq1⟩
    · rw [List.map_cons, h2]

/-- C87, converse: every consistent dead-birth array was written by some execution. -/
theorem C87_realised {samples : List (Sample K)} {init : K} (hc : Consistent samples init) :
    ∃ (live : List (Sample K)) (its : List (Iteration K)), FromPrior live init ∧ Sampling live its [] ∧
      samples.Perm (its.map (·.dead)) := by
  obtain ⟨S, hp, hasc⟩ : ∃ S : List (Sample K), S.Perm samples ∧ (S.map (·.logl)).Pairwise (· < ·) := by
    obtain ⟨its, h1, h2, -⟩ := exists_drain _ rfl hc.distinct
    refine ⟨its.map (·.dead), ?_, by rw [List.map_map]; exact h1.ascending⟩
    have hq := h1.points
    rwa [List.append_nil, List.flatMap_eq_nil_iff.mpr h2, List.append_nil] at hq
  have hbirth : ∀ s ∈ S, s.birth ≤ init ∨ ∃ t ∈ S, s.birth = t.logl ∧ t.logl < s.logl := by
    intro s hs
    rcases hc.births s (hp.mem_iff.mp hs) with h | ⟨t, ht, h⟩
    · exact .inl h.le
    · exact .inr ⟨t, hp.mem_iff.mpr ht, h⟩
  obtain ⟨its, h1, h2⟩ := exists_sampling hasc (fun s hs => hc.below s (hp.mem_iff.mp hs)) hbirth
  refine ⟨_, its, ⟨?_, ?_, ?_⟩, h1, by rw [h2]; exact hp.symm⟩
  · intro e
    rw [e] at h1
    have hpts := h1.points.length_eq
    have hz : its = [] := by
      cases h1 with
      | stop => rfl
      | step h1 _ _ _ => exact absurd h1.symm.eq_nil (by simp)
    rw [hz] at h2
    rw [← h2] at hp
    exact hc.nonempty hp.symm.eq_nil
  · intro q hq
    obtain ⟨hq1, hq2⟩ := List.mem_filter.mp hq
    rcases hc.births q (hp.mem_iff.mp hq1) with h | ⟨t, ht, e, -⟩
    · exact h
    · have := hc.below t ht
      simp only [decide_eq_true_eq] at hq2
      rw [e] at hq2
      exact absurd hq2 this.not_ge
  · intro q hq
    exact hc.below q (hp.mem_iff.mp (List.mem_of_mem_filter hq))

end executions

/-! ### Processing what the sampler wrote -/

section process
variable {σ K : Type} [CommRing K] [LinearOrder K] [IsStrictOrderedRing K] (R : Rng σ K)

/-- Lists which are sorted by distinct keys and permutations of each other are equal. -/
theorem eq_of_perm_keys {α : Type} {f : α → K} {l l' : List α} (hp : l.Perm l') (h : (l.map f).Pairwise (· < ·))
    (h' : (l'.map f).Pairwise (· < ·)) : l = l' := by
  rw [List.pairwise_map] at h h'
  exact hp.eq_of_pairwise (fun a b _ _ h1 h2 => absurd h1 h2.asymm) h h'

/-- C87.  From the points of a complete execution, in any order, process_samples_array recovers the execution: the samples are the
points in the order in which they were removed and `nlive_array` is the number of live points at each iteration. -/
theorem C87_replay {live samples : List (Sample K)} {its : List (Iteration K)} {init : K} (h0 : FromPrior live init)
    (h : Sampling live its []) (hs : samples.Perm (its.map (·.dead))) (A : Argsort K) (da dw : Bool) :
    ∃ r : Run K, (∀ w : World σ, processSamples A R samples da dw w = (.ok r, w)) ∧
      r.logl = its.map (·.dead.logl) ∧ r.theta = its.map (·.dead.theta) ∧
      r.nlive = its.map (fun it => (it.alive : Int)) := by
  have hc : Consistent samples init := C87_consistent h0 h (by simp) (by simpa using hs)
  obtain ⟨r, h1, h2, h3, h4⟩ := C01_nlive_exact R hc A da dw (σ := σ)
  obtain ⟨v1, v2, v3, v4, v5, v6⟩ := C03_valid_lossless R hc A da dw _ _ (h1 ⟨R.seed 0, []⟩)
  have hasc : r.logl.Pairwise (· < ·) := by
    obtain ⟨labels, tmm, hv⟩ := v1
    rw [pairwise_iff_getElem?]
    intro i j x y hij hx hy
    exact lt_of_le_of_ne (hv.sorted i j x y hij hx hy) (v2 i j x y hij hx hy)
  have hz : r.logl.zip r.theta = its.map (fun it => (it.dead.logl, it.dead.theta)) := by
    refine eq_of_perm_keys (f := Prod.fst) ?_ ?_ ?_
    · refine v6.trans ((hs.map _).trans ?_)
      rw [List.map_map]
      exact List.Perm.refl _
    · rw [List.map_fst_zip (by omega)]
      exact hasc
    · rw [List.map_map]
      exact h.ascending
  have hlogl : r.logl = its.map (·.dead.logl) := by
    have := congrArg (List.map Prod.fst) hz
    rwa [List.map_fst_zip (by omega), List.map_map] at this
  refine ⟨r, h1, hlogl, ?_, ?_⟩
  · have := congrArg (List.map Prod.snd) hz
    rwa [List.map_snd_zip (by omega), List.map_map] at this
  · refine List.ext_getElem? ?_
    intro i
    cases hi : its[i]? with
    | none =>
      have hil := List.getElem?_eq_none_iff.mp hi
      have : r.logl.length = its.length := by rw [hlogl, List.length_map]
      rw [List.getElem?_eq_none (by omega), List.getElem?_map, hi]
      rfl
    | some it =>
      rw [h4 i it.dead.logl (by rw [hlogl, List.getElem?_map, hi]; rfl), List.getElem?_map, hi]
      have hmem := List.mem_of_getElem? hi
      have e := h.alive_eq (fun q hq => (h0.birth q hq).le) h0.above it hmem
      rw [List.append_nil] at e
      simp only [Option.map_some, Option.some.injEq]
      rw [e]
      unfold liveAt
      rw [hs.countP_eq]

/-- C87.  The threads are lineages: consecutive samples of a thread are a removed point and one of the points added at its removal;
a thread ends exactly where no point was added, so that there are as many threads as such iterations. -/
theorem C87_lineages {live samples : List (Sample K)} {its : List (Iteration K)} {init : K} (h0 : FromPrior live init)
    (h : Sampling live its []) (hs : samples.Perm (its.map (·.dead))) (A : Argsort K) (da dw : Bool) {w w' : World σ} {r : Run K}
    (hr : processSamples A R samples da dw w = (.ok r, w')) :
    ∃ labels tmm, r.labels = some labels ∧ r.tmm = some tmm ∧ labels.length = its.length ∧
      (∀ (i j : Nat) (a b : Iteration K), Consecutive labels i j → its[i]? = some a → its[j]? = some b → b.dead ∈ a.born) ∧
      (∀ (i : Nat) (a : Iteration K), its[i]? = some a → a.born ≠ [] → ∃ j, Consecutive labels i j) ∧
      (∀ (k i : Nat) (a : Iteration K) (mm : WithBot K × K), FirstOf labels k i → its[i]? = some a → tmm[k]? = some mm →
        a.dead ∈ live ∧ mm.1 = ⊥ ∨ ∃ b ∈ its, a.dead ∈ b.born ∧ mm.1 = (b.dead.logl : WithBot K)) ∧
      (tmm.map (·.2)).Perm ((its.filter (fun it => it.born.isEmpty)).map (·.dead.logl)) := by
  have hc : Consistent samples init := C87_consistent h0 h (by simp) (by simpa using hs)
  obtain ⟨r', h1, hlogl, -, -⟩ := C87_replay R h0 h hs A da dw (σ := σ)
  have e := h1 w
  rw [hr] at e
  obtain ⟨e1, rfl⟩ := Prod.mk.inj e
  cases e1
  obtain ⟨labels, tmm, t1, t2, t3, t4, t5, t6, t7⟩ := C02_thread_partition R hc A da dw _ _ hr
  obtain ⟨labels', m1, m2⟩ := C02_maximal R hc A da dw _ _ hr
  rw [t1] at m1
  cases m1
  have hlen : labels.length = its.length := by rw [t3, hs.length_eq, List.length_map]
  have hrow : ∀ (i : Nat) (a : Iteration K), its[i]? = some a → r.logl[i]? = some a.dead.logl := by
    intro i a hi
    rw [hlogl, List.getElem?_map, hi]
    rfl
  have hmem : ∀ (i : Nat) (a : Iteration K), its[i]? = some a → a.dead ∈ samples := fun i a hi =>
    hs.mem_iff.mpr (List.mem_map_of_mem (List.mem_of_getElem? hi))
  have hinj : ∀ a ∈ its, ∀ b ∈ its, a.dead.logl = b.dead.logl → a = b := by
    intro a ha b hb
    have hn : (its.map (·.dead.logl)).Nodup := h.ascending.imp (fun hlt => ne_of_lt hlt)
    exact List.inj_on_of_nodup_map hn ha hb
  have hcons : ∀ (i j : Nat) (a b : Iteration K), Consecutive labels i j → its[i]? = some a → its[j]? = some b →
      b.dead ∈ a.born := by
    intro i j a b hcon ha hb
    have eb := t5 i j a.dead (hmem i a ha) b.dead (hmem j b hb) hcon (hrow i a ha) (hrow j b hb)
    have hbm : b.dead ∈ its.map (·.dead) ++ [] := by
      rw [List.append_nil]; exact List.mem_map_of_mem (List.mem_of_getElem? hb)
    rcases h.origin hbm with hl | ⟨c, hcm, hcb⟩
    · have := h0.birth _ hl
      have hlt := hc.below _ (hmem i a ha)
      rw [← eb, this] at hlt
      exact absurd hlt (lt_irrefl _)
    · have := (h.born c hcm _ hcb).1
      rw [eb] at this
      rw [hinj a (List.mem_of_getElem? ha) c hcm this]
      exact hcb
  have hsucc : ∀ (i : Nat) (a : Iteration K), its[i]? = some a → a.born ≠ [] → ∃ j, Consecutive labels i j := by
    intro i a ha hne
    obtain ⟨q, hq⟩ := List.exists_mem_of_ne_nil _ hne
    have hqm : q ∈ its.map (·.dead) ++ [] :=
      h.points.mem_iff.mpr (List.mem_append_right _ (List.mem_flatMap.mpr ⟨a, List.mem_of_getElem? ha, hq⟩))
    rw [List.append_nil] at hqm
    obtain ⟨b, hbm, rfl⟩ := List.mem_map.mp hqm
    obtain ⟨j, hj⟩ := List.mem_iff_getElem?.mp hbm
    obtain ⟨m, -, hm⟩ := m2 i j a.dead (hmem i a ha) b.dead (hmem j b hj) (hrow i a ha) (hrow j b hj)
      (h.born a (List.mem_of_getElem? ha) _ hq).1
    exact ⟨m, hm⟩
  have hget : ∀ (k : Int) (i : Nat), labels[i]? = some k → ∃ a, its[i]? = some a := by
    intro k i hi
    have := (List.getElem?_eq_some_iff.mp hi).1
    exact ⟨its[i], List.getElem?_eq_getElem (by omega)⟩
  refine ⟨labels, tmm, t1, t2, hlen, hcons, hsucc, ?_, ?_⟩
  · intro k i a mm hf ha hmm
    have e := t6 k i a.dead (hmem i a ha) mm hf (hrow i a ha) hmm
    have ham : a.dead ∈ its.map (·.dead) ++ [] := by
      rw [List.append_nil]; exact List.mem_map_of_mem (List.mem_of_getElem? ha)
    rcases h.origin ham with hl | ⟨b, hb, hab⟩
    · rw [if_pos (h0.birth _ hl)] at e
      exact .inl ⟨hl, e⟩
    · have hbb := (h.born b hb _ hab).1
      have hlt : init < b.dead.logl := hc.below _ (hs.mem_iff.mpr (List.mem_map_of_mem hb))
      rw [hbb, if_neg (ne_of_gt hlt)] at e
      exact .inr ⟨b, hb, hab, e⟩
  · -- the ends of the threads
    have hlast : ∀ (k : Nat), k < tmm.length → ∃ i a, LastOf labels k i ∧ its[i]? = some a ∧ a.born = [] ∧
        ∀ mm, tmm[k]? = some mm → mm.2 = a.dead.logl := by
      intro k hk
      obtain ⟨i, hi⟩ := exists_lastOf ((t4 k).mpr ⟨by omega, by omega⟩)
      obtain ⟨a, ha⟩ := hget k i hi.1
      refine ⟨i, a, hi, ha, ?_, fun mm hmm => t7 k i a.dead (hmem i a ha) mm hi (hrow i a ha) hmm⟩
      by_contra hne
      obtain ⟨j, hij, k', e1, e2, -⟩ := hsucc i a ha hne
      rw [hi.1] at e1
      cases e1
      exact hi.2 j hij e2
    refine (List.perm_ext_iff_of_nodup ?_ ?_).mpr ?_
    · rw [List.nodup_iff_getElem?_ne_getElem?]
      intro k k' hkk hk' e
      rw [List.length_map] at hk'
      obtain ⟨i, a, hi, ha, -, hea⟩ := hlast k (by omega)
      obtain ⟨j, b, hj, hb, -, heb⟩ := hlast k' hk'
      have h1 := hea _ (List.getElem?_eq_getElem (by omega))
      have h2 := heb _ (List.getElem?_eq_getElem hk')
      rw [List.getElem?_map, List.getElem?_map, List.getElem?_eq_getElem (show k < tmm.length by omega),
        List.getElem?_eq_getElem hk'] at e
      simp only [Option.map_some, Option.some.injEq] at e
      rw [h1, h2] at e
      have hn : (its.map (·.dead.logl)).Nodup := h.ascending.imp (fun hlt => ne_of_lt hlt)
      have hil : i < (its.map (·.dead.logl)).length := by
        rw [List.length_map]; exact (List.getElem?_eq_some_iff.mp ha).1
      have hij : i = j := (List.getElem?_inj hil hn).mp (by rw [List.getElem?_map, List.getElem?_map, ha, hb]; simp [e])
      subst hij
      have := hi.1.symm.trans hj.1
      simp only [Option.some.injEq] at this
      omega
    · have hn : (its.map (·.dead.logl)).Nodup := h.ascending.imp (fun hlt => ne_of_lt hlt)
      exact hn.sublist (List.filter_sublist.map _)
    · intro x
      constructor
      · intro hx
        obtain ⟨mm, hmm, rfl⟩ := List.mem_map.mp hx
        obtain ⟨k, hk⟩ := List.mem_iff_getElem?.mp hmm
        obtain ⟨i, a, hi, ha, hab, he⟩ := hlast k (List.getElem?_eq_some_iff.mp hk).1
        rw [he mm hk]
        exact List.mem_map.mpr ⟨a, List.mem_filter.mpr ⟨List.mem_of_getElem? ha, by simp [hab]⟩, rfl⟩
      · intro hx
        obtain ⟨a, ham, rfl⟩ := List.mem_map.mp hx
        obtain ⟨ham, hab⟩ := List.mem_filter.mp ham
        have hab : a.born = [] := by simpa using hab
        obtain ⟨i, hi⟩ := List.mem_iff_getElem?.mp ham
        have hil : i < labels.length := by rw [hlen]; exact (List.getElem?_eq_some_iff.mp hi).1
        obtain ⟨hk0, hk1⟩ := (t4 _).mp (List.getElem_mem hil)
        obtain ⟨k, hk⟩ : ∃ k : Nat, labels[i] = (k : Int) := ⟨labels[i].toNat, by omega⟩
        have hkt : k < tmm.length := by omega
        have hli : labels[i]? = some (k : Int) := by rw [List.getElem?_eq_getElem hil, hk]
        have hlo : LastOf labels k i := by
          refine ⟨hli, ?_⟩
          by_contra hcon
          push Not at hcon
          obtain ⟨j, hj⟩ := hcon
          classical
          have hsp := Nat.find_spec (p := fun j => j > i ∧ labels[j]? = some (k : Int)) ⟨j, hj⟩
          set m := Nat.find (p := fun j => j > i ∧ labels[j]? = some (k : Int)) ⟨j, hj⟩ with hm
          have hcm : Consecutive labels i m := by
            refine ⟨hsp.1, k, hli, hsp.2, ?_⟩
            intro m' h1 h2 h3
            exact Nat.find_min (p := fun j => j > i ∧ labels[j]? = some (k : Int)) ⟨j, hj⟩ h2 ⟨h1, h3⟩
          obtain ⟨b, hb⟩ := hget _ _ hsp.2
          have := hcons i m a b hcm hi hb
          rw [hab] at this
          cases this
        exact List.mem_map.mpr ⟨tmm[k], List.getElem_mem hkt,
          t7 k i a.dead (hmem i a hi) _ hlo (hrow i a hi) (List.getElem?_eq_getElem hkt)⟩

/-- The samples and live counts of an interrupted execution: those of the iterations, followed by the remaining live points in
ascending order. -/
theorem C87_interrupted {live final samples : List (Sample K)} {its : List (Iteration K)} {init : K} (h0 : FromPrior live init)
    (h : Sampling live its final) (hd : (final.map (·.logl)).Nodup) (hs : samples.Perm (its.map (·.dead) ++ final))
    (A : Argsort K) (da dw : Bool) :
    ∃ (r : Run K) (fs : List (Sample K)), (∀ w : World σ, processSamples A R samples da dw w = (.ok r, w)) ∧
      fs.Perm final ∧ (fs.map (·.logl)).Pairwise (· < ·) ∧
      r.logl = its.map (·.dead.logl) ++ fs.map (·.logl) ∧ r.theta = its.map (·.dead.theta) ++ fs.map (·.theta) ∧
      r.nlive = its.map (fun it => (it.alive : Int)) ++ (List.range' 1 final.length).reverse.map (fun n : Nat => (n : Int)) := by
  obtain ⟨its', g1, g2, g3⟩ := exists_drain _ rfl hd
  have hfs : (its'.map (·.dead)).Perm final := by
    have hq := g1.points
    rw [List.append_nil, List.flatMap_eq_nil_iff.mpr g2, List.append_nil] at hq
    exact hq
  have hall := h.append g1
  obtain ⟨r, r1, r2, r3, r4⟩ := C87_replay R (samples := samples) h0 hall
    (by rw [List.map_append]; exact hs.trans (hfs.symm.append_left _)) A da dw (σ := σ)
  refine ⟨r, its'.map (·.dead), r1, hfs, ?_, ?_, ?_, ?_⟩
  · rw [List.map_map]; exact g1.ascending
  · rw [r2, List.map_append, List.map_map]; rfl
  · rw [r3, List.map_append, List.map_map]; rfl
  · rw [r4, List.map_append, ← g3, List.map_map]; rfl

/-- If each iteration adds at most one point, no contour but the initial one has two births. -/
theorem Spec.Sampling.oneHeir {live final samples : List (Sample K)} {its : List (Iteration K)} {init : K} (h0 : FromPrior live init)
    (h : Sampling live its final) (h1 : ∀ it ∈ its, it.born.length ≤ 1) (hs : samples.Perm (its.map (·.dead) ++ final)) :
    OneHeir samples init := by
  intro s hsm t htm hb hne
  have hn : (its.map (·.dead.logl)).Nodup := h.ascending.imp (fun hlt => ne_of_lt hlt)
  rcases h.origin (hs.mem_iff.mp hsm) with hl | ⟨a, ha, hsa⟩
  · exact absurd (h0.birth s hl) hne
  rcases h.origin (hs.mem_iff.mp htm) with hl | ⟨b, hb', htb⟩
  · exact absurd (hb.trans (h0.birth t hl)) hne
  have e : a = b := List.inj_on_of_nodup_map hn ha hb' (by
    rw [← (h.born a ha s hsa).1, ← (h.born b hb' t htb).1, hb])
  subst e
  have hle := h1 a ha
  match hx : a.born with
  | [] => rw [hx] at hsa; cases hsa
  | [x] =>
    rw [hx] at hsa htb
    rw [List.mem_singleton.mp hsa, List.mem_singleton.mp htb]
  | _ :: _ :: _ => rw [hx] at hle; simp at hle

/-- C87, standard nested sampling: if every removed point is replaced by one new point until the sampler stops with the remaining
live points, the number of live points is constant and then falls to one, and there are as many threads as initial live points, all
from the whole prior. -/
theorem C87_standard {live final samples : List (Sample K)} {its : List (Iteration K)} {init : K} (h0 : FromPrior live init)
    (h : Sampling live its final) (h1 : ∀ it ∈ its, it.born.length = 1) (hd : (final.map (·.logl)).Nodup)
    (hs : samples.Perm (its.map (·.dead) ++ final)) (A : Argsort K) (da dw : Bool) :
    ∃ (r : Run K) (tmm : List (WithBot K × K)), (∀ w : World σ, processSamples A R samples da dw w = (.ok r, w)) ∧
      r.nlive = List.replicate its.length (live.length : Int) ++ (List.range' 1 live.length).reverse.map (fun n : Nat => (n : Int)) ∧
      r.tmm = some tmm ∧ tmm.length = live.length ∧ (∀ p ∈ tmm, p.1 = ⊥) ∧ (tmm.map (·.2)).Perm (final.map (·.logl)) := by
  have hc := C87_consistent h0 h hd hs
  obtain ⟨r, fs, r1, -, -, -, -, r4⟩ := C87_interrupted R h0 h hd hs A da dw (σ := σ)
  have hsum : ∀ (l : List (Iteration K)), (∀ it ∈ l, it.born.length = 1) → (l.map (·.born.length)).sum = l.length := by
    intro l hl
    induction l with
    | nil => rfl
    | cons a l ih =>
      rw [List.map_cons, List.sum_cons, hl a (by simp), ih (fun it hit => hl it (by simp [hit])), List.length_cons, Nat.add_comm]
  have hfl : final.length = live.length := by
    have := h.points.length_eq
    simp only [List.length_append, List.length_map, List.length_flatMap] at this
    rw [hsum its h1] at this
    omega
  obtain ⟨its', g1, g2, g3⟩ := exists_drain _ rfl hd
  have hall := h.append g1
  have hfs : (its'.map (·.dead)).Perm final := by
    have hq := g1.points
    rw [List.append_nil, List.flatMap_eq_nil_iff.mpr g2, List.append_nil] at hq
    exact hq
  obtain ⟨labels, tmm, t1, t2, -, -, -, -, t3⟩ := C87_lineages R h0 hall
    (by rw [List.map_append]; exact hs.trans (hfs.symm.append_left _)) A da dw (r1 ⟨R.seed 0, []⟩)
  have hends : (tmm.map (·.2)).Perm (final.map (·.logl)) := by
    refine t3.trans ?_
    rw [List.filter_append, List.filter_eq_nil_iff.mpr, List.filter_eq_self.mpr, List.nil_append]
    · have := hfs.map (·.logl)
      rwa [List.map_map] at this
    · intro it hit
      simp [g2 it hit]
    · intro it hit
      have := h1 it hit
      intro he
      rw [List.isEmpty_iff.mp he] at this
      simp at this
  refine ⟨r, tmm, r1, ?_, t2, ?_, ?_, hends⟩
  · rw [r4, hfl]
    congr 1
    rw [List.eq_replicate_iff]
    refine ⟨by simp, ?_⟩
    intro n hn
    obtain ⟨it, hit, rfl⟩ := List.mem_map.mp hn
    obtain ⟨i, hi⟩ := List.mem_iff_getElem?.mp hit
    have hb := h.alive_balance i it hi
    have hil := (List.getElem?_eq_some_iff.mp hi).1
    rw [hsum _ (fun x hx => h1 x (List.mem_of_mem_take hx)), List.length_take, Nat.min_eq_left hil.le] at hb
    simp only [Nat.cast_inj]
    omega
  · have := hends.length_eq
    simpa [hfl] using this
  · exact (process_static R hc A da dw (r1 ⟨R.seed 0, []⟩) t2).mpr (h.oneHeir h0 (fun it hit => (h1 it hit).le) hs)

/-- The run made from MultiNest files is the one made from the dead points followed by the live points. -/
theorem multinest_process {A : Argsort K} {files : Tables K} {root dir : String} {da dw : Bool} {dead live : List (Sample K)}
    (hdead : HoldsRows 2 files (pathJoin dir root ++ "dead-birth.txt") dead)
    (hlive : HoldsRows 1 files (pathJoin dir root ++ "phys_live-birth.txt") live) {w w' : World σ} {run : Run K} {o : Source}
    (h : processMultinest A R files root dir da dw w = (.ok (run, o), w')) :
    processSamples A R (dead ++ live) da dw w = (.ok run, w') := by
  obtain ⟨dr, lr, dead', live', tmm, f1, f2, f3, f4, -, f5, -⟩ := C11_returns R h
  obtain ⟨rows, e1, e2, -⟩ := hdead
  obtain ⟨rows', e3, e4, -⟩ := hlive
  rw [f1] at e1
  rw [f2] at e3
  cases e1
  cases e3
  have q1 : dead' = dead := Except.ok.inj ((tableSamples_ok.mpr f3).symm.trans (tableSamples_ok.mpr e2))
  have q2 : live' = live := Except.ok.inj ((tableSamples_ok.mpr f4).symm.trans (tableSamples_ok.mpr e4))
  rw [q1, q2] at f5
  exact f5

/-- C87 for MultiNest: if the dead-birth file holds the removed points and the live-birth file the remaining ones of an execution
in which every removed point is replaced by one new point, the files are accepted and the run has the live counts and the threads
of the execution. -/
theorem C87_multinest {files : Tables K} {root dir : String} {da dw : Bool} {live dead final last : List (Sample K)}
    {its : List (Iteration K)} {init : K} (h0 : FromPrior live init) (h : Sampling live its final)
    (h1 : ∀ it ∈ its, it.born.length = 1) (hd : (final.map (·.logl)).Nodup)
    (hdead : HoldsRows 2 files (pathJoin dir root ++ "dead-birth.txt") dead) (hpd : dead.Perm (its.map (·.dead)))
    (hlive : HoldsRows 1 files (pathJoin dir root ++ "phys_live-birth.txt") last) (hpl : last.Perm final)
    (hdim : ∀ s ∈ dead ++ last, ∀ t ∈ dead ++ last, s.theta.length = t.theta.length) (A : Argsort K) :
    ∃ (run : Run K) (tmm : List (WithBot K × K)),
      (∀ w : World σ, processMultinest A R files root dir da dw w = (.ok (run, ⟨root, dir⟩), w)) ∧
      (∃ fs : List (Sample K), fs.Perm final ∧ (fs.map (·.logl)).Pairwise (· < ·) ∧
        run.logl = its.map (·.dead.logl) ++ fs.map (·.logl) ∧ run.theta = its.map (·.dead.theta) ++ fs.map (·.theta)) ∧
      run.nlive = List.replicate its.length (live.length : Int) ++
        (List.range' 1 live.length).reverse.map (fun n : Nat => (n : Int)) ∧
      run.tmm = some tmm ∧ tmm.length = live.length ∧ ∀ p ∈ tmm, p.1 = ⊥ := by
  have hs : (dead ++ last).Perm (its.map (·.dead) ++ final) := hpd.append hpl
  have hc := C87_consistent h0 h hd hs
  have hab : ∀ d ∈ dead, ∀ l ∈ last, d.logl < l.logl := by
    intro d hdm l hlm
    obtain ⟨it, hit, rfl⟩ := List.mem_map.mp (hpd.mem_iff.mp hdm)
    exact h.final_above it hit l (hpl.mem_iff.mp hlm)
  obtain ⟨run, g1⟩ := (C11_accepts (σ := σ) R (A := A) (da := da) (dw := dw) hdead hlive hdim hc).1
    ⟨hab, h.oneHeir h0 (fun it hit => (h1 it hit).le) hs⟩
  · have g2 := multinest_process R hdead hlive (g1 ⟨R.seed 0, []⟩)
    obtain ⟨r, tmm, r1, r2, r3, r4, r5, -⟩ := C87_standard R h0 h h1 hd hs A da dw (σ := σ)
    obtain ⟨r', fs, q1, q2, q3, q4, q5, -⟩ := C87_interrupted R h0 h hd hs A da dw (σ := σ)
    have e1 : r = run := by
      rw [r1] at g2
      exact Except.ok.inj (congrArg Prod.fst g2)
    have e2 : r' = run := by
      rw [q1] at g2
      exact Except.ok.inj (congrArg Prod.fst g2)
    subst e1
    subst e2
    exact ⟨_, tmm, g1, ⟨fs, q2, q3, q4, q5⟩, r2, r3, r4, r5⟩
end process

/-! ### Examples -/

section examples

/-- Three points from the whole prior. -/
def exStart : List (Sample ℤ) := [⟨[1], 5, -100⟩, ⟨[2], 3, -100⟩, ⟨[3], 8, -100⟩]

theorem exStart_fromPrior : FromPrior exStart (-100) where
  nonempty := by decide
  birth := by decide
  above := by decide

/-- An execution which adds two points at the first iteration, one at the third and none at the others. -/
def exIts : List (Iteration ℤ) :=
  [⟨⟨[2], 3, -100⟩, 3, [⟨[4], 7, 3⟩, ⟨[5], 4, 3⟩]⟩, ⟨⟨[5], 4, 3⟩, 4, []⟩, ⟨⟨[1], 5, -100⟩, 3, [⟨[6], 9, 5⟩]⟩,
    ⟨⟨[4], 7, 3⟩, 3, []⟩, ⟨⟨[3], 8, -100⟩, 2, []⟩, ⟨⟨[6], 9, 5⟩, 1, []⟩]

theorem exIts_sampling : Sampling exStart exIts [] := by
  refine .step (rest := [⟨[1], 5, -100⟩, ⟨[3], 8, -100⟩]) (by decide) (by decide) (by decide) ?_
  refine .step (rest := [⟨[1], 5, -100⟩, ⟨[3], 8, -100⟩, ⟨[4], 7, 3⟩]) (by decide) (by decide) (by decide) ?_
  refine .step (rest := [⟨[3], 8, -100⟩, ⟨[4], 7, 3⟩]) (by decide) (by decide) (by decide) ?_
  refine .step (rest := [⟨[3], 8, -100⟩, ⟨[6], 9, 5⟩]) (by decide) (by decide) (by decide) ?_
  refine .step (rest := [⟨[6], 9, 5⟩]) (by decide) (by decide) (by decide) ?_
  exact .step (rest := []) (by decide) (by decide) (by decide) (.stop _)

/-- Its dead-birth array in another order gives its samples and live counts. -/
example : ∃ r : Run ℤ, (∀ w : World Nat, processSamples (stableSort ℤ) (counterRng ℤ (by decide))
      (exIts.map (·.dead)).reverse false true w = (.ok r, w)) ∧
    r.logl = [3, 4, 5, 7, 8, 9] ∧ r.theta = [[2], [5], [1], [4], [3], [6]] ∧ r.nlive = [3, 4, 3, 3, 2, 1] :=
  C87_replay _ exStart_fromPrior exIts_sampling (List.reverse_perm _) _ false true

/-- Four iterations add no point, so there are four threads; the second of the points born on contour 3 continues the thread of the
point removed there and the other starts a new one. -/
example : ∃ (r : Run ℤ) (tmm : List (WithBot ℤ × ℤ)), (∀ w : World Nat, processSamples (stableSort ℤ) (counterRng ℤ (by decide))
      (exIts.map (·.dead)).reverse false true w = (.ok r, w)) ∧ r.tmm = some tmm ∧ (tmm.map (·.2)).Perm [4, 7, 8, 9] := by
  obtain ⟨r, h1, -⟩ := C87_replay (counterRng ℤ (by decide)) exStart_fromPrior exIts_sampling (List.reverse_perm _)
    (stableSort ℤ) false true
  obtain ⟨labels, tmm, -, h2, -, -, -, -, h3⟩ := C87_lineages (counterRng ℤ (by decide)) exStart_fromPrior exIts_sampling
    (List.reverse_perm _) (stableSort ℤ) false true (h1 ⟨0, []⟩)
  exact ⟨r, tmm, h1, h2, h3⟩

/-- A standard execution with two live points, stopped after three iterations; it writes the MultiNest files `exFiles`. -/
def exStandard : List (Iteration ℤ) :=
  [⟨⟨[10], 1, -100⟩, 2, [⟨[30], 4, 1⟩]⟩, ⟨⟨[20], 2, -100⟩, 2, [⟨[40], 5, 2⟩]⟩, ⟨⟨[30], 4, 1⟩, 2, [⟨[50], 6, 4⟩]⟩]

theorem exStandard_sampling : Sampling [⟨[10], 1, -100⟩, ⟨[20], 2, -100⟩] exStandard exLive := by
  refine .step (rest := [⟨[20], 2, -100⟩]) (by decide) (by decide) (by decide) ?_
  refine .step (rest := [⟨[30], 4, 1⟩]) (by decide) (by decide) (by decide) ?_
  exact .step (rest := [⟨[40], 5, 2⟩]) (by decide) (by decide) (by decide) (.stop _)

theorem exStandard_fromPrior : FromPrior (K := ℤ) [⟨[10], 1, -100⟩, ⟨[20], 2, -100⟩] (-100) where
  nonempty := by decide
  birth := by decide
  above := by decide

example : exStandard.map (·.dead) = exDead := rfl

example : ∃ (r : Run ℤ) (tmm : List (WithBot ℤ × ℤ)),
    (∀ w : World Nat, processSamples (stableSort ℤ) (counterRng ℤ (by decide)) (exDead ++ exLive) false true w = (.ok r, w)) ∧
      r.nlive = [2, 2, 2, 2, 1] ∧ r.tmm = some tmm ∧ tmm.length = 2 := by
  obtain ⟨r, tmm, h1, h2, h3, h4, -⟩ := C87_standard (counterRng ℤ (by decide)) exStandard_fromPrior exStandard_sampling
    (by decide) (by decide) (List.Perm.refl _) (stableSort ℤ) false true
  exact ⟨r, tmm, h1, h2, h3, h4⟩

end examples

end Nestcheck
