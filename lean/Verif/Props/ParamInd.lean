import Verif.Model.ParamInd
import Verif.Props.Errors

/-
C110: negative values of `param_ind`.
-/

namespace Nestcheck
open Spec
variable {σ : Type} (A : Argsort ℝ) (R : Rng σ ℝ)

/-- All samples have `d` parameters. -/
def Spec.HasDim (r : Run ℝ) (d : Nat) : Prop := ∀ t ∈ r.theta, t.length = d

theorem pyMap_same {α β : Type} {f g : α → Py β} {xs : List α} (h : ∀ x ∈ xs, f x = g x) : pyMap f xs = pyMap g xs := by
  induction xs with
  | nil => rfl
  | cons x xs ih =>
    unfold pyMap
    rw [h x (by simp), ih (fun y hy => h y (by simp [hy]))]

theorem columnAt_nat (thetas : List (List ℝ)) (ind : Nat) : columnAt thetas (ind : Int) = column thetas ind := by
  unfold columnAt column
  refine pyMap_same fun t _ => ?_
  unfold pyIndex
  rw [if_neg (by omega), Int.toNat_natCast]
  cases t[ind]? <;> rfl

theorem columnAt_negative {thetas : List (List ℝ)} {d k : Nat} (hd : ∀ t ∈ thetas, t.length = d) (h1 : 1 ≤ k) (hk : k ≤ d) :
    columnAt thetas (-(k : Int)) = column thetas (d - k) := by
  unfold columnAt column
  refine pyMap_same fun t ht => ?_
  unfold pyIndex
  have : ((t.length : Int) + -(k : Int)).toNat = d - k := by rw [hd t ht]; omega
  rw [if_pos (by omega), if_pos (by rw [hd t ht]; omega), this]
  cases t[d - k]? <;> rfl

theorem columnAt_outside {thetas : List (List ℝ)} {d : Nat} {ind : Int} (hd : ∀ t ∈ thetas, t.length = d) (h0 : thetas ≠ [])
    (h : (d : Int) ≤ ind ∨ ind < -(d : Int)) : columnAt thetas ind = .error .index := by
  cases thetas with
  | nil => exact absurd rfl h0
  | cons t ts =>
    have hl := hd t (by simp)
    have : pyIndex t ind = .error .index := by
      unfold pyIndex
      by_cases hi : ind < 0
      · rw [if_pos hi, if_neg (by omega)]
      · rw [if_neg hi, List.getElem?_eq_none (by omega)]
    unfold columnAt pyMap
    rw [this]
    rfl

/-- C110: an index counted from the end names the same parameter as the one counted from the beginning, for all estimators
with an argument `param_ind`, all weights, random states and options. -/
theorem C110_negative {r : Run ℝ} {d k : Nat} (hd : HasDim r d) (h1 : 1 ≤ k) (hk : k ≤ d) (logw : Option (List ℝ))
    (sim : Bool) :
    (∀ handle, paramMeanAt R r logw sim (-(k : Int)) handle = paramMean R r logw sim (d - k) handle) ∧
    (∀ prob, paramCredAt A R r logw sim prob (-(k : Int)) = paramCred A R r logw sim prob (d - k)) ∧
    paramSquaredMeanAt R r logw sim (-(k : Int)) = paramSquaredMean R r logw sim (d - k) := by
  have h := columnAt_negative hd h1 hk
  refine ⟨fun handle => ?_, fun prob => ?_, ?_⟩
  · unfold paramMeanAt paramMean paramMeanOf
    rw [h]
    rfl
  · unfold paramCredAt paramCred
    rw [h]
  · unfold paramSquaredMeanAt paramSquaredMean
    rw [h]

/-- C110: for other indexes these are the estimators of the other properties. -/
theorem C110_nonneg (r : Run ℝ) (ind : Nat) (logw : Option (List ℝ)) (sim : Bool) :
    (∀ handle, paramMeanAt R r logw sim (ind : Int) handle = paramMean R r logw sim ind handle) ∧
    (∀ prob, paramCredAt A R r logw sim prob (ind : Int) = paramCred A R r logw sim prob ind) ∧
    paramSquaredMeanAt R r logw sim (ind : Int) = paramSquaredMean R r logw sim ind := by
  have h := columnAt_nat r.theta ind
  refine ⟨fun handle => ?_, fun prob => ?_, ?_⟩
  · unfold paramMeanAt paramMean paramMeanOf
    rw [h]
    rfl
  · unfold paramCredAt paramCred
    rw [h]
  · unfold paramSquaredMeanAt paramSquaredMean
    rw [h]

/-- C110: an index outside `-d ... d - 1` raises `IndexError`, after the weights have been computed; with
`handle_indexerror=True` the mean is nan. -/
theorem C110_outside {r : Run ℝ} {d : Nat} {ind : Int} (hd : HasDim r d) (h0 : r.theta ≠ [])
    (h : (d : Int) ≤ ind ∨ ind < -(d : Int)) {logw : Option (List ℝ)} {sim : Bool} {w w' : World σ} {lw : List ℝ}
    (hw : logwOr R r logw sim w = (.ok lw, w')) (hl : lw ≠ []) :
    paramMeanAt R r logw sim ind false w = (.error .index, w') ∧
    paramMeanAt R r logw sim ind true w = (.ok none, w') ∧
    (∀ prob, paramCredAt A R r logw sim prob ind w = (.error .index, w')) ∧
    paramSquaredMeanAt R r logw sim ind w = (.error .index, w') := by
  have hc := columnAt_outside hd h0 h
  obtain ⟨m, -, -, hr⟩ := relWeights_ok hl
  have hpos : (lw.map (fun x => Real.exp (x - m))).sum ≠ 0 := by
    refine ne_of_gt (List.sum_pos _ ?_ (by simpa using hl))
    intro x hx
    obtain ⟨y, -, rfl⟩ := List.mem_map.mp hx
    exact Real.exp_pos _
  generalize lw.map (fun x => Real.exp (x - m)) = ws at hr hpos
  have hdiv : ∀ l : List ℝ, pyMap (fun x => npDiv x ws.sum) l = .ok (l.map (· / ws.sum)) := by
    intro l
    induction l with
    | nil => rfl
    | cons a l ih =>
      unfold pyMap
      rw [ih]
      unfold npDiv
      rw [if_neg hpos]
      rfl
  refine ⟨?_, ?_, fun prob => ?_, ?_⟩
  · unfold paramMeanAt
    rw [M.bind_ok hw, hr, hc]
    rfl
  · unfold paramMeanAt
    rw [M.bind_ok hw, hr, hc]
    rfl
  · unfold paramCredAt
    rw [M.bind_ok hw, hr, hc]
    rfl
  · unfold paramSquaredMeanAt
    rw [M.bind_ok hw, hr, py_ok_bind, hdiv ws, hc]
    rfl

/-- The last of two parameters. -/
example (logw : Option (List ℝ)) (sim : Bool) :
    paramMeanAt R ⟨[1, 2], [1, 1], [[1, 10], [2, 20]], none, none⟩ logw sim (-1) false =
      paramMean R ⟨[1, 2], [1, 1], [[1, 10], [2, 20]], none, none⟩ logw sim 1 false :=
  (C110_negative A R (d := 2) (k := 1) (by intro t ht; fin_cases ht <;> rfl) (by decide) (by decide) logw sim).1 false

example (w : World σ) :
    paramMeanAt R ⟨[1, 2], [1, 1], [[1, 10], [2, 20]], none, none⟩ (some [-1, -2]) false (-3) true w = (.ok none, w) :=
  (C110_outside A R (d := 2) (by intro t ht; fin_cases ht <;> rfl) (by simp) (.inr (by decide)) (lw := [-1, -2]) rfl
    (by simp)).2.1

end Nestcheck
