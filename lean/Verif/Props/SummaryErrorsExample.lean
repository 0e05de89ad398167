import Verif.Props.SummaryErrors
import Verif.Props.PosteriorExamples
import Verif.Props.StaticExample

/-! Samplers to which C106 applies. -/

namespace Nestcheck
open Spec MeasureTheory ProbabilityTheory ENNReal Filter Topology

noncomputable section

/-- The law of the draws and spots of three independent samplers with `n` points each. -/
def threeLaw (n : Nat) : Measure (Fin 3 → (Fin n → ℝ) × (Fin n → Bool)) :=
  Measure.pi fun _ => (unifPow n).prod (Measure.pi fun _ : Fin n => coin)

theorem threeLaw_points (n : Nat) (i : Fin 3) : IidPoints (threeLaw n) coin (fun ω => (ω i).1) (fun ω => (ω i).2) := by
  have h := (measurePreserving_eval (fun _ : Fin 3 => (unifPow n).prod (Measure.pi fun _ : Fin n => coin)) i).map_eq
  have h2 := prod_points coin n
  unfold IidPoints at h2 ⊢
  simp only [Prod.mk.eta] at h2 ⊢
  rw [← h2, Measure.map_id']
  exact h

/-- The summary of three samplers with `k + 1` live points, each of which is replaced once. -/
example (G : NormalRng (Nat → Nat)) : Tendsto (fun k : ℕ => threeLaw (k + 1 + (k + 1)) {ω | RunsMiss threadRng (fun x => -x)
    (fun x e => [if e then x else -x]) (fun _ : Fin 3 => onceRule (k + 1)) (fun _ => onceStart (k + 1)) (fun i => (ω i).1) (fun i => (ω i).2) (-2)
    (LogzSummary threadRng G (Real.log (∫ x in (0 : ℝ)..1, Real.exp (-x))) (1 / 100))}) atTop (𝓝 0) :=
  C106_static (m := 3) (N := fun _ k => k + 1 + (k + 1)) (rule := fun _ k => onceRule (k + 1)) (start := fun _ k => onceStart (k + 1))
    (by norm_num) (fun _ k => onceRule_static (Nat.succ_pos k)) (fun i k => threeLaw_points _ i)
    (fun _ => by simp only [onceStart_card]; exact tendsto_add_atTop_nat 1) (loglike := fun x => -x) (init := -2)
    (fun x _ y _ h => by simpa using h) (fun x hx => by have := hx.2; linarith) (b := 0) (fun x hx => by have := hx.1; linarith)
    (d := 1) (fun x e => rfl) (by norm_num)

/-- The summary of three samplers which stop at half of the prior volume. -/
example (G : NormalRng (Nat → Nat)) : Tendsto (fun k : ℕ => threeLaw (k + 1 + 10) {ω | RunsMiss threadRng (fun x => -x)
    (fun x e => [if e then x else -x]) (fun _ : Fin 3 => untilHalf (k + 1) 10)
    (fun _ => Finset.univ.filter (fun i : Fin (k + 1 + 10) => (i : Nat) < k + 1)) (fun i => (ω i).1) (fun i => (ω i).2) (-2)
    (SummaryNear threadRng G .evidence (∫ x in (0 : ℝ)..1, Real.exp (-x)) (1 / 100))}) atTop (𝓝 0) :=
  C106_evidence (m := 3) (N := fun _ k => k + 1 + 10) (rule := fun _ k => untilHalf (k + 1) 10) (by norm_num)
    (fun _ k => untilHalf_stopping 10 (Nat.succ_pos k)) (fun i k => threeLaw_points _ i) (fun _ => growing_starts) (loglike := fun x => -x)
    (init := -2) (fun x _ y _ h => by simpa using h) (fun x hx => by have := hx.2; linarith) (b := 0)
    (fun x hx => by have := hx.1; linarith) (by norm_num)

end

end Nestcheck
