import Verif.Model.ImpSeed
import Verif.Props.Kwargs
import Verif.Props.Distances

/-
C41: implementation_std with random_seed=None.
-/

set_option linter.unusedSectionVars false

namespace Nestcheck
open Spec

noncomputable section
variable {σ : Type} (R : Rng σ ℝ) (N : NormalRng σ)

/-- C41.  With random_seed=None, `implementation_std` returns one element for each input, as for a given seed; its
uncertainties are the standard deviations of the results simulated from the seeds of the operating system, a new one for
each element.  The call leaves the global state as it was, and the result does not depend on it. -/
theorem C41_entropy (nsim : Nat) (entropy : Nat → Nat) {xs : List (ℝ × ℝ × ℝ × ℝ)}
    (hx : ∀ x ∈ xs, 0 < x.1 ∧ 0 ≤ x.2.1 ∧ 0 ≤ x.2.2.1 ∧ 0 ≤ x.2.2.2) (i : Nat) :
    ∃ ys, (∀ w : World σ, implementationStdOS R N nsim entropy i xs w = (.ok ys, w)) ∧ ys.length = xs.length ∧
      ∀ (k : Nat) (x : ℝ × ℝ × ℝ × ℝ) (y : ImpRow), xs[k]? = some x → ys[k]? = some y → ImpElement x.1 x.2.2.1 y ∧
        ImpUncertain N (R.seedOS (entropy (i + k))) nsim x.1 (some x.2.1) x.2.2.1 (some x.2.2.2) y.stdU y.fracU := by
  induction xs generalizing i with
  | nil => exact ⟨[], fun _ => rfl, rfl, by simp⟩
  | cons x xs ih =>
    obtain ⟨v, vu, b, bu⟩ := x
    obtain ⟨ys, h1, h2, h3⟩ := ih (fun x h => hx x (by simp [h])) (i + 1)
    obtain ⟨hv, hvu, hb, hbu⟩ := hx _ (List.mem_cons_self)
    obtain ⟨y, hy, -⟩ := implementationElt_fixed R N nsim (.os (entropy i)) v b hvu hbu
    refine ⟨y :: ys, fun w => ?_, by simp [h2], ?_⟩
    · rw [implementationStdOS, M.bind_ok (hy w), M.bind_ok (h1 w)]
      rfl
    · intro k x' y' hk hk'
      cases k with
      | zero =>
        cases hk; cases hk'
        obtain ⟨y'', g1, g2, g3⟩ := implementationElt_spec R N nsim (.os (entropy i)) (vu := vu) (bu := bu) hv hb hvu hbu
          (⟨R.seed 0, []⟩ : World σ)
        rw [hy] at g1
        cases g1
        exact ⟨g2, g3⟩
      | succ k =>
        have := h3 k x' y' (by simpa using hk) (by simpa using hk')
        rwa [show i + 1 + k = i + (k + 1) by omega] at this

/-- C41.  The estimates and fractions are the same for every seed, given or not; only their uncertainties are random. -/
theorem C41_seed_free (nsim nsim' : Nat) (entropy : Nat → Nat) (seed : Seed) {xs : List (ℝ × ℝ × ℝ × ℝ)}
    (hx : ∀ x ∈ xs, 0 ≤ x.2.1 ∧ 0 ≤ x.2.2.2) (i : Nat) (w : World σ) :
    ∃ ys ys', implementationStdOS R N nsim entropy i xs w = (.ok ys, w) ∧ implementationStd R N nsim' seed xs w = (.ok ys', w) ∧
      ys.map (fun y => (y.std, y.frac)) = ys'.map (fun y => (y.std, y.frac)) := by
  induction xs generalizing i with
  | nil => exact ⟨[], [], rfl, rfl, rfl⟩
  | cons x xs ih =>
    obtain ⟨v, vu, b, bu⟩ := x
    obtain ⟨ys, ys', h1, h2, h3⟩ := ih (fun x h => hx x (by simp [h])) (i + 1)
    obtain ⟨hvu, hbu⟩ := hx _ (List.mem_cons_self)
    obtain ⟨y, hy, e1, e2, -⟩ := implementationElt_fixed R N nsim (.os (entropy i)) v b hvu hbu
    obtain ⟨y', hy', e1', e2', -⟩ := implementationElt_fixed R N nsim' seed v b hvu hbu
    refine ⟨y :: ys, y' :: ys', ?_, ?_, ?_⟩
    · rw [implementationStdOS, M.bind_ok (hy w), M.bind_ok h1]
      rfl
    · rw [implementationStd, M.bind_ok (hy' w), M.bind_ok h2]
      rfl
    · rw [List.map_cons, List.map_cons, h3, e1, e2, e1', e2']

/-- C90.  `implementation_std` accepts random_seed=None, which is not the same as leaving it out: it asks for seeds of the
operating system, whereas the default is the seed 0.  Other values are treated as before. -/
theorem C90_random_seed_none (entropy : Nat → Nat) (rows : List (ℝ × ℝ × ℝ × ℝ)) {kw : Kwargs} :
    (¬ Unknown ["nsim", "random_seed"] kw → ∀ {n : Option Nat}, kw.lookup "nsim" = n.map Val.nat →
      kw.lookup "random_seed" = some .none →
        implementationStdKwOS R N entropy rows kw = implementationStdOS R N (n.getD 1000000) entropy 0 rows) ∧
    (kw.lookup "random_seed" ≠ some .none → implementationStdKwOS R N entropy rows kw = implementationStdKw R N rows kw) := by
  refine ⟨?_, ?_⟩
  · intro h n hn hs
    have h' := not_unknown h
    have hg : (Kwargs.get kw "nsim" (.nat 1000000)).toNat = .ok (n.getD 1000000) := by
      unfold Kwargs.get
      rw [hn]
      cases n <;> rfl
    have hg2 : Kwargs.get kw "random_seed" (.nat 0) = .none := by
      unfold Kwargs.get
      rw [hs]
      rfl
    unfold implementationStdKwOS
    dsimp only
    rw [noneLeft_of_forall (by
        intro p hp
        simp only [mem_without] at hp
        have := h' p hp.1.1
        simp [hp.1.2, hp.2] at this), get_without _ (by decide), hg, hg2]
    rfl
  · intro hs
    unfold implementationStdKwOS implementationStdKw
    dsimp only
    rw [get_without _ (by decide)]
    have hg : Kwargs.get kw "random_seed" (.nat 0) ≠ .none := by
      unfold Kwargs.get
      rcases hl : kw.lookup "random_seed" with _ | v
      · simp
      · rw [hl] at hs
        simpa using hs
    rcases hv : Kwargs.get kw "random_seed" (.nat 0) with _ | _ | _ | _ | _ | _ | _ | _ | _ | _ | _ | _ | _ <;> first
      | rfl
      | exact absurd hv hg

/-- The hypotheses can be met: two elements, and random_seed=None. -/
example (entropy : Nat → Nat) (w : World σ) : ∃ y y', implementationStdKwOS R N entropy [(5, 0, 3, 1), (5, 1, 6, 2)]
    [("random_seed", .none), ("nsim", .nat 10)] w = (.ok [y, y'], w) ∧ y.std ^ 2 + 3 ^ 2 = 5 ^ 2 ∧ y'.std = 0 := by
  rw [(C90_random_seed_none R N entropy _).1 (by simp [Unknown]) (n := some 10) rfl rfl]
  obtain ⟨ys, h1, h2, h3⟩ := C41_entropy R N 10 entropy (xs := [(5, 0, 3, 1), (5, 1, 6, 2)]) (by simp) 0
  match ys, h2, h1, h3 with
  | [y, y'], _, h1, h3 =>
    exact ⟨y, y', h1 w, (h3 0 _ y rfl rfl).1.excess (by norm_num), (h3 1 _ y' rfl rfl).1.zero (by norm_num)⟩

end
end Nestcheck
