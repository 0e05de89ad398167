import Verif.Props.SimulatedErrors
import Verif.Props.SimulatedExamples

/-! Samplers to which C105 applies. -/

namespace Nestcheck
open Spec MeasureTheory ProbabilityTheory ENNReal Filter Topology

noncomputable section

theorem streamRng_iterate (n j : Nat) (s : Nat → ℝ) : (fun s => (streamRng.uniform n s).2)^[j] s = fun k => s (k + j * n) := by
  induction j with
  | zero => simp
  | succ j ih =>
    rw [Function.iterate_succ_apply', ih]
    funext k
    simp only [streamRng]
    congr 1
    ring

/-- A generator whose state is the sequence of the numbers to come delivers them. -/
theorem streamRng_streams {M : Nat} {s : Fin M → ℝ} (hs : ∀ j, 0 < s j ∧ s j < 1) (warns : List Warn) :
    Streams streamRng ⟨fun k => if h : k < M then s ⟨k, h⟩ else 0, warns⟩ (List.ofFn s) := by
  intro n j n' hn
  rw [List.length_ofFn] at hn
  rw [streamRng_iterate]
  apply List.ext_getElem
  · simp [streamRng]
    omega
  · intro i h1 h2
    have hi : i < n' := by simpa [streamRng] using h1
    have hlt : i + j * n < M := by omega
    have := hs ⟨i + j * n, hlt⟩
    simp only [streamRng, List.getElem_ofFn, dif_pos hlt, List.getElem_take, List.getElem_drop, if_pos (⟨this.1.le, this.2⟩ : 0 ≤ s ⟨i + j * n, hlt⟩ ∧ s ⟨i + j * n, hlt⟩ < 1)]
    congr 1
    exact Fin.ext (by simp; omega)

/-- With probability one there is a world in which the generator delivers the numbers. -/
example (n : Nat) : ∀ᵐ s ∂unifPow (3 * n), ∃ w, Streams streamRng w (List.ofFn s) := by
  filter_upwards [pi_pos (3 * n)] with s hs
  exact ⟨_, streamRng_streams hs []⟩

theorem prod_stream {E : Type} [MeasurableSpace E] (ν : Measure E) (m n : Nat) :
    IidStream (m := m) (((unifPow n).prod (unifPow (m * n))).prod (Measure.pi fun _ : Fin n => ν)) ν (fun ω => ω.1.1) (fun ω => ω.1.2)
      (fun ω : ((Fin n → ℝ) × (Fin (m * n) → ℝ)) × (Fin n → E) => ω.2) := by
  unfold IidStream
  simp only [Prod.mk.eta]
  exact Measure.map_id

/-- Three simulations of `logz`, for samplers which stop at half of the prior volume. -/
example : Tendsto (fun k : ℕ => ((unifPow (k + 1 + 10)).prod (unifPow (3 * (k + 1 + 10)))).prod (Measure.pi fun _ : Fin (k + 1 + 10) => coin)
      {ω | ErrorMisses streamRng (fun x => -x) (fun x e => [if e then x else -x]) (untilHalf (k + 1) 10)
        (Finset.univ.filter (fun i : Fin (k + 1 + 10) => (i : Nat) < k + 1)) ω.1.1 (List.ofFn ω.1.2) ω.2 (-2)
        (SmallError streamRng .logz 3 (1 / 100))}) atTop (𝓝 0) :=
  C105_logz (m := 3) (N := fun k => k + 1 + 10) (rule := fun k => untilHalf (k + 1) 10) (by norm_num)
    (fun k => untilHalf_stopping 10 (Nat.succ_pos k)) (fun k => prod_stream coin 3 _) growing_starts (loglike := fun x => -x) (init := -2)
    (fun x _ y _ h => by simpa using h) (fun x hx => by have := hx.2; linarith) (b := 0) (fun x hx => by have := hx.1; linarith) (by norm_num)

end

end Nestcheck
