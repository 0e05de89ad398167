import Verif.Props.BootstrapLaw
import Verif.Props.BootstrapShape

/-! C101: live counts and evidence of bootstrap replications of runs with a constant number of live points. -/

namespace Nestcheck
open Spec MeasureTheory

noncomputable section

/-! ### Live counts -/

theorem sorted_le {ls : List ℝ} (hsort : ls.Pairwise (· ≤ ·)) {i j : Nat} (hij : i ≤ j) {x y : ℝ} (hx : ls[i]? = some x)
    (hy : ls[j]? = some y) : x ≤ y := by
  obtain ⟨h1, rfl⟩ := List.getElem?_eq_some_iff.mp hx
  obtain ⟨h2, rfl⟩ := List.getElem?_eq_some_iff.mp hy
  rcases hij.lt_or_eq with h | rfl
  · exact List.pairwise_iff_getElem.mp hsort i j h1 h2 h
  · exact le_rfl

theorem ends_are_last {ls : List ℝ} {e0 : ℝ} {N : Nat} (hsort : ls.Pairwise (· ≤ ·)) (hN : ls.countP (fun x => decide (e0 ≤ x)) = N)
    {ends : List Nat} (hnd : ends.Nodup) (hlt : ∀ k ∈ ends, k < ls.length) {es : List ℝ}
    (hp : (ends.filterMap (fun k => ls[k]?)).Perm es) (he : ∀ e ∈ es, e0 ≤ e) (hes : es.length = N) (i : Nat) :
    ends.countP (fun k => decide (i ≤ k)) = min N (ls.length - i) := by
  have hNle : N ≤ ls.length := hN ▸ List.countP_le_length
  have hlen : ends.length = N := by
    rw [← hes, ← hp.length_eq]
    clear hp hnd
    induction ends with
    | nil => rfl
    | cons k ks ih =>
      rw [List.filterMap_cons, List.getElem?_eq_getElem (hlt k (by simp))]
      simp only [List.length_cons]
      rw [ih (fun j hj => hlt j (by simp [hj]))]
  have hsub : ends.toFinset ⊆ Finset.Ico (ls.length - N) ls.length := by
    intro k hk
    rw [List.mem_toFinset] at hk
    have hkl := hlt k hk
    rw [Finset.mem_Ico]
    refine ⟨?_, hkl⟩
    have hk0 : e0 ≤ ls[k] := he _ (hp.mem_iff.mp (List.mem_filterMap.mpr ⟨k, hk, List.getElem?_eq_getElem hkl⟩))
    have h1 : (ls.drop k).countP (fun x => decide (e0 ≤ x)) = ls.length - k := by
      rw [← List.length_drop, List.countP_eq_length]
      intro x hx
      obtain ⟨j, hj⟩ := List.mem_iff_getElem?.mp hx
      rw [List.getElem?_drop] at hj
      simpa using hk0.trans (sorted_le hsort (Nat.le_add_right k j) (List.getElem?_eq_getElem hkl) hj)
    have h2 : (ls.drop k).countP (fun x => decide (e0 ≤ x)) ≤ N := by
      rw [← hN]
      exact (List.drop_sublist k ls).countP_le
    omega
  have heq : ends.toFinset = Finset.Ico (ls.length - N) ls.length := by
    apply Finset.eq_of_subset_of_card_le hsub
    rw [Nat.card_Ico, List.toFinset_card_of_nodup hnd, hlen]
    omega
  have h3 : ends.countP (fun k => decide (i ≤ k)) = ((Finset.Ico (ls.length - N) ls.length).filter (fun k => i ≤ k)).card := by
    rw [← heq, List.countP_eq_length_filter, ← List.toFinset_card_of_nodup (hnd.filter _)]
    congr 1
    ext k
    simp
  have h4 : (Finset.Ico (ls.length - N) ls.length).filter (fun k => i ≤ k) = Finset.Ico (max i (ls.length - N)) ls.length := by
    ext k
    simp only [Finset.mem_filter, Finset.mem_Ico, max_le_iff]
    tauto
  rw [h3, h4, Nat.card_Ico]
  omega

variable {σ : Type} {R : Rng σ ℝ}

/-- The samples of the threads drawn. -/
def drawnLogl (labels : List Int) (logl : List ℝ) (inds : List Nat) : List ℝ := inds.flatMap (fun k : Nat => pick labels k logl)

theorem countP_drawn {labels : List Int} {logl : List ℝ} {p : ℝ → Bool} {inds : List Nat} :
    (drawnLogl labels logl inds).countP p = (inds.map (fun k : Nat => (pick labels k logl).countP p)).sum := by
  unfold drawnLogl
  rw [List.countP_flatMap]
  rfl

theorem bootstrap_flat {A : Argsort ℝ} {r : Run ℝ} {labels : List Int} {tmm : List (WithBot ℝ × ℝ)}
    (h : ProperThreads r labels tmm) (hs : ∀ p ∈ tmm, p.1 = ⊥) {settings : Option Settings} {sep : Bool}
    (hsep : ∀ k, separately settings sep = some k → k ≤ tmm.length) {e0 : ℝ} (he : ∀ p ∈ tmm, e0 ≤ p.2)
    (hone : ∀ k < tmm.length, (pick labels (k : Nat) r.logl).countP (fun x => decide (e0 ≤ x)) = 1) (seed : Seed) (w : World σ) :
    ∃ (run : Run ℝ) (w' : World σ),
      bootstrapResampleRun A R r settings none sep seed w = (.ok (run, settings), w') ∧
      run.logl.Perm (drawnLogl labels r.logl (indexes R tmm.length (separately settings sep) (seeded R seed w.rng))) ∧
      run.logl.Pairwise (· ≤ ·) ∧
      (∀ k ∈ indexes R tmm.length (separately settings sep) (seeded R seed w.rng), k < tmm.length) ∧
      (indexes R tmm.length (separately settings sep) (seeded R seed w.rng)).length = tmm.length ∧
      run.nlive = (flatCounts tmm.length run.logl.length).map (fun m : Nat => (m : Int)) := by
  obtain ⟨inds, g1, g2⟩ := bootstrap_ok R (A := A) h.toValidWith (settings := settings) (sep := sep) seed
    (P := fun run => run.nlive = (flatCounts tmm.length run.logl.length).map (fun m : Nat => (m : Int)))
    (fun k hk => ⟨hsep k hk, fun i mm _ hmm => hs mm (List.mem_of_getElem? hmm)⟩) w
    (Q := fun inds => inds.length = tmm.length) (by
      intro inds hne hr hlen
      obtain ⟨run, hrun, c1, c2, c3, c4, -, ⟨ends, e1, e2, e3, e4⟩, -⟩ := C22_static R (A := A) (σ := σ) false (fun h0 => hne (by
          have := congrArg List.length h0
          rw [length_gather (by simpa using hr)] at this
          simpa using this)) (gather_isThread h hr)
        (gather_sameDim h hr) (fun p hp => hs p (mem_of_mem_gather hp))
      refine ⟨run, ?_, hrun⟩
      have hperm : run.logl.Perm (drawnLogl labels r.logl inds) := by
        have := c1.map Prod.fst
        rw [List.map_fst_zip (by omega), flatMap_gather _ _ _ hr, List.map_flatMap] at this
        refine this.trans (List.Perm.of_eq ?_)
        unfold drawnLogl
        congr 1
        funext k
        rw [List.map_fst_zip]
        · rfl
        · show (pick labels k r.logl).length ≤ (pick labels k r.theta).length
          rw [length_pick h.labels_len, length_pick (h.labels_len.trans h.theta_len.symm)]
      have hcount : run.logl.countP (fun x => decide (e0 ≤ x)) = tmm.length := by
        rw [hperm.countP_eq, countP_drawn, List.map_congr_left (g := fun _ => 1) (fun k hk => hone k (hr k hk)), List.map_const',
          List.sum_replicate, hlen]
        simp
      have hk := ends_are_last c2 hcount e1 e2 e3 (by
        intro e he'
        obtain ⟨p, hp, rfl⟩ := List.mem_map.mp he'
        exact he p (mem_of_mem_gather hp)) (by
        rw [List.length_map, length_gather hr, hlen])
      apply List.ext_getElem?
      intro i
      by_cases hi : i < run.logl.length
      · rw [e4 i hi, hk i, List.getElem?_map, flatCounts_getElem? hi]
        rfl
      · rw [List.getElem?_eq_none (by omega), List.getElem?_eq_none (by simp [flatCounts]; omega)])
  obtain ⟨run, w', h3, -, -, h5⟩ := g2 g1.count
  obtain ⟨-, inds', d1, d2, d3, d4, -⟩ := C34_bootstrap R h.toValidWith h3
  refine ⟨run, w', h3, ?_, d3, ?_, ?_, h5⟩
  · rw [← d1.drawn]
    have := d2.map Prod.fst
    rw [List.map_fst_zip (by omega)] at this
    refine this.trans (List.Perm.of_eq ?_)
    unfold samplesOf drawnLogl
    rw [List.map_flatMap]
    congr 1
    funext k
    rw [List.map_fst_zip]
    rw [length_pick h.labels_len, length_pick (h.labels_len.trans h.theta_len.symm)]
  · rw [← d1.drawn]
    exact d1.range
  · rw [← d1.drawn]
    exact d1.count

end
end Nestcheck
