import Mathlib.Analysis.SpecialFunctions.Exponential
import Verif.Model.RoundingMean
import Verif.Props.RoundingExamples
import Verif.Props.Stability

/-
C84: how far weights, `logz` and `param_mean` as computed in rounded arithmetic are from their exact values.
-/

namespace Nestcheck
open Spec
noncomputable section

/-! ### Specification -/

/-- `x` is a number which differs from `y` by at most `δ`. -/
def Spec.Near (δ : ℝ) (x : EReal) (y : ℝ) : Prop := ∃ z : ℝ, x = z ∧ |z - y| ≤ δ

/-- The standard model of rounded arithmetic: results which do not overflow have a relative error of at most `u` and, if they
underflow, an absolute error of at most `η`; sums do not underflow; `exp` and `log` are as accurate (2^-53 and 2^-1075 for the
arithmetic of 64 bit floats). -/
structure Spec.Accurate (F : FloatArith) (u η : ℝ) : Prop where
  u_nonneg : 0 ≤ u
  η_nonneg : 0 ≤ η
  round : ∀ x : ℝ, |x| ≤ F.maxFinite → Near (u * |x| + η) (F.rnd x) x
  sum : ∀ x y : ℝ, F.rnd x = x → F.rnd y = y → |x + y| ≤ F.maxFinite → Near (u * |x + y|) (F.rnd ((x + y : ℝ) : EReal)) (x + y)
  exp : ∀ x : ℝ, x ≤ 0 → Near (u * Real.exp x + η) (F.exp x) (Real.exp x)
  exp_float : ∀ x, F.rnd (F.exp x) = F.exp x
  log : ∀ x : ℝ, 0 < x → |Real.log x| ≤ F.maxFinite → Near (u * |Real.log x| + η) (F.log x) (Real.log x)

/-- The number of additions on the longest path. -/
def SumTree.depth : SumTree → Nat
  | .leaf _ => 0
  | .node l r => max l.depth r.depth + 1

theorem SumTree.depth_lt (t : SumTree) : t.depth + 1 ≤ t.leaves.length := by
  induction t with
  | leaf i => simp [SumTree.depth, SumTree.leaves]
  | node l r ihl ihr =>
    simp only [SumTree.depth, SumTree.leaves, List.length_append]
    omega

variable {F : FloatArith} {u η : ℝ}

/-! ### Operations -/

theorem Spec.Accurate.add (H : Accurate F u η) {x y : ℝ} (h : |x + y| ≤ F.maxFinite) :
    ∃ z : ℝ, flAdd F x y = .ok (z : EReal) ∧ F.rnd ((x + y : ℝ) : EReal) = (z : EReal) ∧ |z - (x + y)| ≤ u * |x + y| + η := by
  obtain ⟨z, hz, hd⟩ := H.round _ h
  refine ⟨z, ?_, hz, hd⟩
  rw [flAdd_ok' (EReal.coe_ne_top _) (EReal.coe_ne_top _), ← EReal.coe_add, hz]

theorem Spec.Accurate.sub (H : Accurate F u η) {x y : ℝ} (h : |x - y| ≤ F.maxFinite) :
    ∃ z : ℝ, flSub F x y = .ok (z : EReal) ∧ F.rnd ((x - y : ℝ) : EReal) = (z : EReal) ∧ |z - (x - y)| ≤ u * |x - y| + η := by
  obtain ⟨z, hz, hd⟩ := H.round _ h
  refine ⟨z, ?_, hz, hd⟩
  rw [flSub_ok (EReal.coe_ne_top _) (EReal.coe_ne_bot _), ← EReal.coe_sub, hz]

/-- Rounding a number which is not above an integer. -/
theorem rnd_le_int {x z : ℝ} {k : ℤ} (hk : |k| ≤ F.maxInt) (hx : x ≤ k) (hz : F.rnd (x : EReal) = (z : EReal)) : z ≤ k := by
  rw [← EReal.coe_le_coe_iff, ← hz, ← F.rnd_int k hk]
  exact F.rnd_mono (EReal.coe_le_coe_iff.mpr hx)

theorem int_le_rnd {x z : ℝ} {k : ℤ} (hk : |k| ≤ F.maxInt) (hx : k ≤ x) (hz : F.rnd (x : EReal) = (z : EReal)) : k ≤ z := by
  rw [← EReal.coe_le_coe_iff, ← hz, ← F.rnd_int k hk]
  exact F.rnd_mono (EReal.coe_le_coe_iff.mpr hx)

theorem rnd_nonpos {x z : ℝ} (hx : x ≤ 0) (hz : F.rnd (x : EReal) = (z : EReal)) : z ≤ 0 := by
  exact_mod_cast rnd_le_int (k := 0) (by simp) (by exact_mod_cast hx) hz

theorem rnd_nonneg {x z : ℝ} (hx : 0 ≤ x) (hz : F.rnd (x : EReal) = (z : EReal)) : 0 ≤ z := by
  exact_mod_cast int_le_rnd (k := 0) (by simp) (by exact_mod_cast hx) hz

theorem rnd_le_one {x z : ℝ} (hx : x ≤ 1) (hz : F.rnd (x : EReal) = (z : EReal)) : z ≤ 1 := by
  have := F.two_le
  exact_mod_cast rnd_le_int (k := 1) (by simp; omega) (by exact_mod_cast hx) hz

theorem exp_sub_exp {x y : ℝ} (hx : x ≤ 0) (hy : y ≤ 0) : |Real.exp x - Real.exp y| ≤ |x - y| := by
  have key : ∀ a b : ℝ, b ≤ 0 → a ≤ b → |Real.exp a - Real.exp b| ≤ |a - b| := by
    intro a b hb hab
    have h1 := Real.exp_le_exp.mpr hab
    have h2 := Real.add_one_le_exp (a - b)
    have h3 : Real.exp a = Real.exp b * Real.exp (a - b) := by rw [← Real.exp_add]; congr 1; ring
    have h4 := Real.exp_le_one_iff.mpr hb
    rw [abs_of_nonpos (by linarith), abs_of_nonpos (by linarith), h3]
    nlinarith [Real.exp_pos b]
  rcases le_total x y with h | h
  · exact key x y hy h
  · rw [abs_sub_comm, abs_sub_comm x]; exact key y x hx h

theorem log_sub_log {x y c : ℝ} (hc : 0 < c) (hx : c ≤ x) (hy : c ≤ y) : |Real.log x - Real.log y| ≤ |x - y| / c := by
  have key : ∀ a b : ℝ, c ≤ b → b ≤ a → |Real.log a - Real.log b| ≤ |a - b| / c := by
    intro a b hb hab
    have hb0 : 0 < b := hc.trans_le hb
    have ha0 : 0 < a := hb0.trans_le hab
    have h1 := Real.log_le_log hb0 hab
    have h2 := Real.log_le_sub_one_of_pos (div_pos ha0 hb0)
    rw [Real.log_div ha0.ne' hb0.ne'] at h2
    rw [abs_of_nonneg (by linarith), abs_of_nonneg (by linarith)]
    refine h2.trans ?_
    have e : a / b - 1 = (a - b) / b := by field_simp
    rw [e]
    exact div_le_div_of_nonneg_left (by linarith) hc hb
  rcases le_total y x with h | h
  · exact key x y hy h
  · rw [abs_sub_comm, abs_sub_comm x]; exact key y x hx h

/-! ### Sums -/

/-- The sum of the numbers of `xs` at the leaves. -/
def leafSum (xs : List ℝ) (t : SumTree) : ℝ := (t.leaves.map (fun i => xs[i]?.getD 0)).sum

theorem leafSum_node (xs : List ℝ) (l r : SumTree) : leafSum xs (.node l r) = leafSum xs l + leafSum xs r := by
  simp [leafSum, SumTree.leaves]

theorem leafSum_abs (xs : List ℝ) (t : SumTree) : |leafSum xs t| ≤ leafSum (xs.map (|·|)) t := by
  induction t with
  | leaf i =>
    simp only [leafSum, SumTree.leaves, List.map_cons, List.map_nil, List.sum_cons, List.sum_nil, add_zero, List.getElem?_map]
    cases xs[i]? <;> simp
  | node l r ihl ihr =>
    rw [leafSum_node, leafSum_node]
    exact (abs_add_le _ _).trans (add_le_add ihl ihr)

theorem leafSum_eq {xs : List ℝ} {t : SumTree} (h : t.leaves.Perm (List.range xs.length)) : leafSum xs t = xs.sum := by
  unfold leafSum
  rw [(h.map _).sum_eq]
  congr 1
  apply List.ext_getElem
  · simp
  · intro i h1 h2
    simp [List.getElem?_eq_getElem h2]

theorem coes_get (xs : List ℝ) (i : Nat) : (coes xs)[i]?.getD 0 = ((xs[i]?.getD 0 : ℝ) : EReal) := by
  unfold coes
  rw [List.getElem?_map]
  cases xs[i]? <;> simp

theorem Spec.Accurate.sumTree (H : Accurate F u η) {xs : List ℝ} (hf : ∀ x ∈ xs, F.rnd (x : EReal) = (x : EReal)) (t : SumTree)
    (hm : (1 + u) ^ t.depth * leafSum (xs.map (|·|)) t ≤ F.maxFinite) :
    ∃ s : ℝ, flSumTree F (coes xs) t = .ok (s : EReal) ∧ F.rnd (s : EReal) = (s : EReal) ∧
      |s - leafSum xs t| ≤ ((1 + u) ^ t.depth - 1) * leafSum (xs.map (|·|)) t := by
  have hu := H.u_nonneg
  induction t with
  | leaf i =>
    refine ⟨xs[i]?.getD 0, by rw [flSumTree, coes_get], ?_, ?_⟩
    · cases h : xs[i]? with
      | none => simpa using F.rnd_zero
      | some x => exact hf x (List.mem_of_getElem? h)
    · simp [leafSum, SumTree.leaves, SumTree.depth]
  | node l r ihl ihr =>
    rw [leafSum_node] at hm ⊢
    rw [leafSum_node (xs.map (|·|))] at *
    set A := leafSum xs l
    set B := leafSum xs r
    set SA := leafSum (xs.map (|·|)) l with hSA
    set SB := leafSum (xs.map (|·|)) r with hSB
    have hA : |A| ≤ SA := leafSum_abs xs l
    have hB : |B| ≤ SB := leafSum_abs xs r
    have hA0 : 0 ≤ SA := (abs_nonneg _).trans hA
    have hB0 : 0 ≤ SB := (abs_nonneg _).trans hB
    set d := max l.depth r.depth with hd
    have h1 : (1 : ℝ) ≤ 1 + u := by linarith
    have hp : (1 : ℝ) ≤ (1 + u) ^ d := one_le_pow₀ h1
    have hl : (1 + u) ^ l.depth ≤ (1 + u) ^ d := pow_le_pow_right₀ h1 (le_max_left _ _)
    have hr : (1 + u) ^ r.depth ≤ (1 + u) ^ d := pow_le_pow_right₀ h1 (le_max_right _ _)
    have hdep : (SumTree.node l r).depth = d + 1 := rfl
    rw [hdep, pow_succ] at hm ⊢
    set P := (1 + u) ^ d with hP
    have hPS : P * (SA + SB) ≤ F.maxFinite := by
      refine le_trans ?_ hm
      have : 0 ≤ P * (SA + SB) := mul_nonneg (by linarith) (by linarith)
      nlinarith
    obtain ⟨a, ha, ha', ha2⟩ := ihl (by
      refine le_trans ?_ hPS
      nlinarith [mul_le_mul_of_nonneg_right hl hA0, mul_nonneg (show (0:ℝ) ≤ P by linarith) hB0])
    obtain ⟨b, hb, hb', hb2⟩ := ihr (by
      refine le_trans ?_ hPS
      nlinarith [mul_le_mul_of_nonneg_right hr hB0, mul_nonneg (show (0:ℝ) ≤ P by linarith) hA0])
    have ha3 : |a - A| ≤ (P - 1) * SA := ha2.trans (mul_le_mul_of_nonneg_right (by linarith) hA0)
    have hb3 : |b - B| ≤ (P - 1) * SB := hb2.trans (mul_le_mul_of_nonneg_right (by linarith) hB0)
    have hab : |a + b - (A + B)| ≤ (P - 1) * (SA + SB) := by
      have e : a + b - (A + B) = (a - A) + (b - B) := by ring
      rw [e, mul_add]
      exact (abs_add_le _ _).trans (add_le_add ha3 hb3)
    have hab2 : |a + b| ≤ P * (SA + SB) := by
      have e : a + b = (a + b - (A + B)) + (A + B) := by ring
      rw [e]
      refine (abs_add_le _ _).trans ?_
      have : |A + B| ≤ SA + SB := (abs_add_le _ _).trans (add_le_add hA hB)
      linarith
    obtain ⟨s, hs, hs2⟩ := H.sum a b ha' hb' (hab2.trans hPS)
    refine ⟨s, ?_, by rw [← hs]; exact F.rnd_idem _, ?_⟩
    · rw [flSumTree, ha, Py.ok_bind, hb, Py.ok_bind, flAdd_ok' (EReal.coe_ne_top _) (EReal.coe_ne_top _), ← EReal.coe_add, hs]
    · have e : s - (A + B) = (s - (a + b)) + (a + b - (A + B)) := by ring
      rw [e]
      refine (abs_add_le _ _).trans ?_
      have := mul_le_mul_of_nonneg_left hab2 hu
      linarith

/-- `np.sum` of a list that is not empty, in any order. -/
theorem Spec.Accurate.flSum (H : Accurate F u η) {xs : List ℝ} (h0 : xs ≠ []) (hf : ∀ x ∈ xs, F.rnd (x : EReal) = (x : EReal)) {h : Nat}
    (hh : (F.tree xs.length).depth ≤ h) (hu : h * u ≤ 1 / 2) (hm : 2 * (xs.map (|·|)).sum ≤ F.maxFinite) :
    ∃ s : ℝ, flSum F (coes xs) = .ok (s : EReal) ∧ |s - xs.sum| ≤ 2 * h * u * (xs.map (|·|)).sum := by
  have hu0 := H.u_nonneg
  have hp := F.tree_perm xs.length (by simpa using h0)
  have hS : 0 ≤ (xs.map (|·|)).sum := List.sum_nonneg (by
    intro y hy; obtain ⟨x, -, rfl⟩ := List.mem_map.mp hy; exact abs_nonneg x)
  have hpow : (1 + u) ^ (F.tree xs.length).depth ≤ 1 + 2 * h * u := by
    have h1 : (1 + u) ^ (F.tree xs.length).depth ≤ (1 + u) ^ h := pow_le_pow_right₀ (by linarith) hh
    have h2 : (1 + u) ^ h ≤ Real.exp (h * u) := by
      rw [Real.exp_nat_mul]
      exact pow_le_pow_left₀ (by linarith) (by linarith [Real.add_one_le_exp u]) _
    have h3 := Real.abs_exp_sub_one_le (x := h * u) (by rw [abs_of_nonneg (by positivity)]; linarith)
    rw [abs_of_nonneg (show 0 ≤ (h : ℝ) * u by positivity)] at h3
    have := (abs_le.mp h3).2
    linarith
  have e1 : leafSum (xs.map (|·|)) (F.tree xs.length) = (xs.map (|·|)).sum := leafSum_eq (by simpa using hp)
  have e2 : leafSum xs (F.tree xs.length) = xs.sum := leafSum_eq hp
  obtain ⟨s, hs, -, hs2⟩ := H.sumTree hf (F.tree xs.length) (by
    rw [e1]
    refine le_trans (mul_le_mul_of_nonneg_right hpow hS) (le_trans ?_ hm)
    exact mul_le_mul_of_nonneg_right (by linarith) hS)
  rw [e1, e2] at hs2
  refine ⟨s, ?_, hs2.trans (mul_le_mul_of_nonneg_right (by linarith) hS)⟩
  unfold Nestcheck.flSum
  rw [if_neg (by simpa [coes] using h0)]
  simpa [coes] using hs

/-! ### Relative weights -/

/-- The error of weights: `D` is the range of the log weights. -/
def Spec.weightError (u η : ℝ) (h N : Nat) (D : ℝ) : ℝ := (4 * h + 2 * D + 5) * u + 6 * N * η

/-- One weight relative to the largest one. -/
theorem Spec.Accurate.expSub (H : Accurate F u η) {x m D : ℝ} (hx : x ≤ m) (hD : m - x ≤ D) (hDm : D ≤ F.maxFinite)
    (hs : u * D + η ≤ 1) :
    ∃ w : ℝ, (do let d ← flSub F (x : EReal) (m : EReal); pure (F.exp d) : Py EReal) = .ok (w : EReal) ∧ 0 ≤ w ∧ w ≤ 1 ∧
      F.rnd (w : EReal) = (w : EReal) ∧ (x = m → w = 1) ∧
      |w - Real.exp (x - m)| ≤ (3 * u + 2 * (u * D + η)) * Real.exp (x - m) + η := by
  have hu := H.u_nonneg
  have hη := H.η_nonneg
  have habs : |x - m| ≤ D := by rw [abs_of_nonpos (by linarith)]; linarith
  obtain ⟨d, hd, hd1, hd2⟩ := H.sub (habs.trans hDm)
  have d0 : d ≤ 0 := rnd_nonpos (by linarith) hd1
  obtain ⟨w, hw, hw2⟩ := H.exp d d0
  have hdd : |d - (x - m)| ≤ u * D + η := hd2.trans (by linarith [mul_le_mul_of_nonneg_left habs hu])
  refine ⟨w, ?_, ?_, ?_, ?_, ?_, ?_⟩
  · rw [hd, Py.ok_bind, hw]; rfl
  · have := F.exp_nonneg (d : EReal)
    rw [hw] at this
    exact_mod_cast this
  · have := F.exp_le_one (d : EReal) (by exact_mod_cast d0)
    rw [hw] at this
    exact_mod_cast this
  · rw [← hw]; exact H.exp_float _
  · intro e
    rw [show x - m = 0 by linarith, show ((0 : ℝ) : EReal) = 0 from rfl, F.rnd_zero] at hd1
    have : d = 0 := by exact_mod_cast hd1.symm
    rw [this, show ((0 : ℝ) : EReal) = 0 from rfl, F.exp_zero] at hw
    exact_mod_cast hw.symm
  · have e1 := Real.abs_exp_sub_one_le (x := d - (x - m)) (hdd.trans hs)
    have e2 : Real.exp d = Real.exp (x - m) * Real.exp (d - (x - m)) := by rw [← Real.exp_add]; congr 1; ring
    have hE := Real.exp_pos (x - m)
    have e3 : |Real.exp d - Real.exp (x - m)| ≤ 2 * (u * D + η) * Real.exp (x - m) := by
      rw [e2, show Real.exp (x - m) * Real.exp (d - (x - m)) - Real.exp (x - m) =
        Real.exp (x - m) * (Real.exp (d - (x - m)) - 1) by ring, abs_mul, abs_of_pos hE]
      nlinarith
    have e4 : Real.exp d ≤ 3 * Real.exp (x - m) := by
      have := (abs_le.mp e3).2
      nlinarith
    calc |w - Real.exp (x - m)| = |(w - Real.exp d) + (Real.exp d - Real.exp (x - m))| := by congr 1; ring
      _ ≤ (u * Real.exp d + η) + 2 * (u * D + η) * Real.exp (x - m) := (abs_add_le _ _).trans (add_le_add hw2 e3)
      _ ≤ _ := by nlinarith

/-- Weights of all samples. -/
theorem Spec.Accurate.expSubs (H : Accurate F u η) {xs : List ℝ} {m D : ℝ} (hx : ∀ x ∈ xs, x ≤ m) (hD : ∀ x ∈ xs, m - x ≤ D)
    (hDm : D ≤ F.maxFinite) (hs : u * D + η ≤ 1) :
    ∃ ws : List ℝ, pyMap (fun x => (do let d ← flSub F x (m : EReal); pure (F.exp d) : Py EReal)) (coes xs) = .ok (coes ws) ∧
      List.Forall₂ (fun x w : ℝ => 0 ≤ w ∧ w ≤ 1 ∧ F.rnd (w : EReal) = (w : EReal) ∧ (x = m → w = 1) ∧
        |w - Real.exp (x - m)| ≤ (3 * u + 2 * (u * D + η)) * Real.exp (x - m) + η) xs ws := by
  induction xs with
  | nil => exact ⟨[], rfl, .nil⟩
  | cons x xs ih =>
    obtain ⟨w, hw, hr⟩ := H.expSub (hx x (by simp)) (hD x (by simp)) hDm hs
    obtain ⟨ws, hws, hr'⟩ := ih (fun y hy => hx y (by simp [hy])) (fun y hy => hD y (by simp [hy]))
    refine ⟨w :: ws, ?_, .cons hr hr'⟩
    simp only [coes, List.map_cons] at hws ⊢
    rw [pyMap, hw, hws]
    rfl

/-- Weighted sums of numbers which are known up to an error that is relative to the weights. -/
theorem sum_error {ws xs ys : List ℝ} {a b : ℝ} (h : List.Forall₂ (fun (p : ℝ × ℝ) y => |y - p.1 * p.2| ≤ a * p.1 + b) (ws.zip xs) ys)
    (hl : ws.length = xs.length) :
    |ys.sum - (List.zipWith (· * ·) ws xs).sum| ≤ a * ws.sum + ws.length * b := by
  induction ws generalizing xs ys with
  | nil => simp at h; subst h; simp
  | cons w ws ih =>
    cases xs with
    | nil => simp at hl
    | cons x xs =>
      cases h with
      | cons h1 h2 =>
        rename_i y ys
        have i := ih h2 (by simpa using hl)
        simp only [List.zipWith_cons_cons, List.sum_cons, List.length_cons] at *
        rw [show y + ys.sum - (w * x + (List.zipWith (· * ·) ws xs).sum) =
          (y - w * x) + (ys.sum - (List.zipWith (· * ·) ws xs).sum) by ring]
        refine (abs_add_le _ _).trans ?_
        push_cast
        linarith

theorem sum_abs_error {ws xs ys : List ℝ} {a b T : ℝ}
    (h : List.Forall₂ (fun (p : ℝ × ℝ) y => |y - p.1 * p.2| ≤ a * p.1 + b) (ws.zip xs) ys)
    (hw : ∀ w ∈ ws, 0 ≤ w) (hx : ∀ x ∈ xs, |x| ≤ T) (hl : ws.length = xs.length) :
    (ys.map (|·|)).sum ≤ (T + a) * ws.sum + ws.length * b := by
  induction ws generalizing xs ys with
  | nil => simp at h; subst h; simp
  | cons w ws ih =>
    cases xs with
    | nil => simp at hl
    | cons x xs =>
      cases h with
      | cons h1 h2 =>
        rename_i y ys
        have i := ih h2 (fun v hv => hw v (by simp [hv])) (fun v hv => hx v (by simp [hv])) (by simpa using hl)
        have hw0 := hw w (by simp)
        have hx0 := hx x (by simp)
        simp only [List.map_cons, List.sum_cons, List.length_cons] at *
        have : |y| ≤ T * w + (a * w + b) := by
          calc |y| = |(y - w * x) + w * x| := by congr 1; ring
            _ ≤ |y - w * x| + |w * x| := abs_add_le _ _
            _ ≤ _ := by
              rw [abs_mul, abs_of_nonneg hw0]
              nlinarith
        push_cast
        linarith

/-- The computed weights `ws` of samples of log weights `xs`, the largest of which is `m`. -/
def RelWeights (F : FloatArith) (u η m D : ℝ) (xs ws : List ℝ) : Prop :=
  List.Forall₂ (fun x w : ℝ => 0 ≤ w ∧ w ≤ 1 ∧ F.rnd (w : EReal) = (w : EReal) ∧ (x = m → w = 1) ∧
    |w - Real.exp (x - m)| ≤ (3 * u + 2 * (u * D + η)) * Real.exp (x - m) + η) xs ws

/-- The exact sum of the weights. -/
def totalWeight (m : ℝ) (xs : List ℝ) : ℝ := (xs.map (fun x => Real.exp (x - m))).sum

theorem totalWeight_bounds {xs : List ℝ} {m : ℝ} (hm : amax xs = some m) :
    1 ≤ totalWeight m xs ∧ totalWeight m xs ≤ xs.length := by
  obtain ⟨h1, h2⟩ := amax_eq_some.mp hm
  unfold totalWeight
  constructor
  · have := List.single_le_sum (l := xs.map (fun x => Real.exp (x - m))) (by
      intro y hy; obtain ⟨x, -, rfl⟩ := List.mem_map.mp hy; exact (Real.exp_pos _).le) (Real.exp (m - m))
      (List.mem_map.mpr ⟨m, h1, rfl⟩)
    simpa using this
  · have := List.sum_le_card_nsmul (xs.map (fun x => Real.exp (x - m))) 1 (by
      intro y hy
      obtain ⟨x, hx, rfl⟩ := List.mem_map.mp hy
      exact Real.exp_le_one_iff.mpr (by linarith [h2 x hx]))
    simpa using this

theorem RelWeights.ones {m D : ℝ} {xs ws : List ℝ} (h : RelWeights F u η m D xs ws) :
    List.Forall₂ (fun (p : ℝ × ℝ) y => |y - p.1 * p.2| ≤ (3 * u + 2 * (u * D + η)) * p.1 + η)
      ((xs.map (fun x => Real.exp (x - m))).zip (List.replicate xs.length 1)) ws := by
  unfold RelWeights at h
  induction h with
  | nil => simp
  | cons hab _ ih =>
    simp only [List.map_cons, List.length_cons, List.replicate_succ, List.zip_cons_cons]
    exact .cons (by rw [mul_one]; exact hab.2.2.2.2) ih

theorem zipWith_replicate_one (xs : List ℝ) : List.zipWith (· * ·) xs (List.replicate xs.length 1) = xs := by
  induction xs with
  | nil => rfl
  | cons x xs ih => simp [List.replicate_succ, ih]

/-- The sum of the weights. -/
theorem Spec.Accurate.weightSum (H : Accurate F u η) {xs ws : List ℝ} {m D : ℝ} {h : Nat} (hm : amax xs = some m) (hD : 0 ≤ D)
    (hw : RelWeights F u η m D xs ws) (hh : (F.tree xs.length).depth ≤ h) (hk : weightError u η h xs.length D ≤ 1 / 2)
    (hF : 2 * (xs.length : ℝ) ≤ F.maxFinite) :
    ∃ t : ℝ, Nestcheck.flSum F (coes ws) = .ok (t : EReal) ∧
      |t - totalWeight m xs| ≤ weightError u η h xs.length D * totalWeight m xs := by
  have hu := H.u_nonneg
  have hη := H.η_nonneg
  obtain ⟨S1, SN⟩ := totalWeight_bounds hm
  have hlen : ws.length = xs.length := (List.Forall₂.length_eq hw).symm
  have hne : xs ≠ [] := List.ne_nil_of_mem (amax_eq_some.mp hm).1
  have hN : (1 : ℝ) ≤ xs.length := by exact_mod_cast List.length_pos_iff.mpr hne
  have hne' : ws ≠ [] := by rw [← List.length_pos_iff, hlen]; exact List.length_pos_iff.mpr hne
  have e1 := sum_error hw.ones (by simp)
  have e2 := sum_abs_error (T := 1) hw.ones (by
    intro y hy; obtain ⟨x, -, rfl⟩ := List.mem_map.mp hy; exact (Real.exp_pos _).le) (by
    intro x hx; rw [List.eq_of_mem_replicate hx]; simp) (by simp)
  have e3 := zipWith_replicate_one (xs.map (fun x => Real.exp (x - m)))
  rw [List.length_map] at e3 e1 e2
  rw [e3] at e1
  change |ws.sum - totalWeight m xs| ≤ _ * totalWeight m xs + _ at e1
  change _ ≤ _ * totalWeight m xs + _ at e2
  unfold weightError at hk ⊢
  set S := totalWeight m xs with hS
  set N : ℝ := (xs.length : ℝ)
  have hNη : η ≤ N * η := by nlinarith
  have huD : 0 ≤ u * D := mul_nonneg hu hD
  have hhu : 0 ≤ (h : ℝ) * u := by positivity
  have hws : (ws.map (|·|)).sum ≤ N := by
    have := List.sum_le_card_nsmul (ws.map (|·|)) 1 (by
      intro y hy
      obtain ⟨w, hw', rfl⟩ := List.mem_map.mp hy
      obtain ⟨x, -, hx⟩ := forall₂_mem_left (List.Forall₂.flip hw) hw'
      rw [abs_of_nonneg hx.1]; exact hx.2.1)
    simpa [hlen] using this
  obtain ⟨t, ht, ht2⟩ := H.flSum (h := h) hne' (by
    intro w hw'
    obtain ⟨x, -, hx⟩ := forall₂_mem_left (List.Forall₂.flip hw) hw'
    exact hx.2.2.1) (by rw [hlen]; exact hh) (by nlinarith) (by linarith)
  refine ⟨t, ht, ?_⟩
  have ha : 3 * u + 2 * (u * D + η) ≤ 1 := by nlinarith
  have e4 : (ws.map (|·|)).sum ≤ 2 * S + N * η := by
    refine e2.trans ?_
    have : (1 + (3 * u + 2 * (u * D + η))) * S ≤ 2 * S := mul_le_mul_of_nonneg_right (by linarith) (by linarith)
    linarith
  have e5 : 2 * h * u * (ws.map (|·|)).sum ≤ 2 * h * u * (2 * S + N * η) := mul_le_mul_of_nonneg_left e4 (by positivity)
  have e6 : 2 * h * u * (N * η) ≤ 1 * (N * η) := mul_le_mul_of_nonneg_right (by nlinarith) (by positivity)
  have e7 : N * η ≤ N * η * S := le_mul_of_one_le_right (by positivity) S1
  have e8 : η * S ≤ N * η * S := mul_le_mul_of_nonneg_right hNη (by linarith)
  have e9 : 0 ≤ u * S := by positivity
  calc |t - S| = |(t - ws.sum) + (ws.sum - S)| := by congr 1; ring
    _ ≤ |t - ws.sum| + |ws.sum - S| := abs_add_le _ _
    _ ≤ 2 * h * u * (2 * S + N * η) + ((3 * u + 2 * (u * D + η)) * S + N * η) := add_le_add (ht2.trans e5) e1
    _ ≤ ((4 * h + 2 * D + 5) * u + 6 * N * η) * S := by nlinarith

/-- `logsumexp` -/
theorem Spec.Accurate.logsumexp (H : Accurate F u η) {xs : List ℝ} {m D Λ : ℝ} {h : Nat} (hm : amax xs = some m)
    (hD : ∀ x ∈ xs, m - x ≤ D) (hh : (F.tree xs.length).depth ≤ h) (hk : weightError u η h xs.length D ≤ 1 / 2)
    (hΛ : |m| ≤ Λ) (hF : D + Λ + 4 * xs.length ≤ F.maxFinite) :
    ∃ z : ℝ, flLogsumexp F (coes xs) = .ok (z : EReal) ∧
      |z - (Real.log (totalWeight m xs) + m)| ≤ 2 * weightError u η h xs.length D +
        (u * (3 * Real.log (2 * xs.length) + 1 + Λ) + 2 * η) := by
  have hu := H.u_nonneg
  have hη := H.η_nonneg
  obtain ⟨hmem, hmax⟩ := amax_eq_some.mp hm
  have hD0 : 0 ≤ D := by have := hD m hmem; linarith
  have hne : xs ≠ [] := List.ne_nil_of_mem hmem
  have hN : (1 : ℝ) ≤ xs.length := by exact_mod_cast List.length_pos_iff.mpr hne
  have hΛ0 : 0 ≤ Λ := (abs_nonneg _).trans hΛ
  have hhu : 0 ≤ (h : ℝ) * u := by positivity
  have huD : 0 ≤ u * D := mul_nonneg hu hD0
  have hk' := hk
  unfold weightError at hk'
  have hNη : η ≤ xs.length * η := by nlinarith
  obtain ⟨S1, SN⟩ := totalWeight_bounds hm
  obtain ⟨ws, hws, hr⟩ := H.expSubs hmax hD (by linarith) (by nlinarith)
  obtain ⟨t, ht, ht2⟩ := H.weightSum hm hD0 hr hh hk (by linarith)
  set κ := weightError u η h xs.length D with hκ
  set S := totalWeight m xs with hS
  have hκ0 : 0 ≤ κ := by rw [hκ]; unfold weightError; positivity
  obtain ⟨t1, t2⟩ := abs_le.mp ht2
  have tS : S / 2 ≤ t := by nlinarith
  have tN : t ≤ 2 * xs.length := by nlinarith
  have t0 : 0 < t := by linarith
  have hl1 : |Real.log t - Real.log S| ≤ 2 * κ := by
    refine (log_sub_log (c := S / 2) (by linarith) tS (by linarith)).trans ?_
    rw [div_le_iff₀ (by linarith)]
    linarith
  have hl2 : |Real.log t| ≤ Real.log (2 * xs.length) := by
    have hb : Real.log t ≤ Real.log (2 * xs.length) := Real.log_le_log t0 tN
    have h2 : -Real.log 2 ≤ Real.log t := by
      rw [← Real.log_inv]
      exact Real.log_le_log (by norm_num) (by linarith)
    have h3 : Real.log 2 ≤ Real.log (2 * xs.length) := Real.log_le_log (by norm_num) (by linarith)
    exact abs_le.mpr ⟨by linarith, hb⟩
  set G := Real.log (2 * xs.length) with hG
  have hG0 : 0 ≤ G := Real.log_nonneg (by linarith)
  have hG1 : G ≤ 2 * xs.length - 1 := Real.log_le_sub_one_of_pos (by linarith)
  obtain ⟨l, hl, hle⟩ := H.log t t0 (by linarith)
  have hle' : |l - Real.log t| ≤ u * G + η := hle.trans (by linarith [mul_le_mul_of_nonneg_left hl2 hu])
  have hη1 : η ≤ 1 / 12 := by nlinarith
  have hu1 : u ≤ 1 := by nlinarith
  have huG : u * G ≤ G := by nlinarith
  have hl3 : |l| ≤ 2 * G + 1 := by
    calc |l| = |(l - Real.log t) + Real.log t| := by congr 1; ring
      _ ≤ (u * G + η) + G := (abs_add_le _ _).trans (add_le_add hle' hl2)
      _ ≤ _ := by linarith
  have hlm : |l + m| ≤ 2 * G + 1 + Λ := (abs_add_le _ _).trans (add_le_add hl3 hΛ)
  obtain ⟨z, hz, -, hz2⟩ := H.add (x := l) (y := m) (by linarith)
  refine ⟨z, ?_, ?_⟩
  · unfold flLogsumexp
    rw [exact_amax hm]
    simp only [EReal.coe_ne_top, EReal.coe_ne_bot, or_self, if_false]
    rw [hws, Py.ok_bind, ht, Py.ok_bind, flLog_ok (by exact_mod_cast t0.le), hl, Py.ok_bind, hz]
  · calc |z - (Real.log S + m)| = |(z - (l + m)) + (l - Real.log t) + (Real.log t - Real.log S)| := by congr 1; ring
      _ ≤ |z - (l + m)| + |l - Real.log t| + |Real.log t - Real.log S| := abs_add_three _ _ _
      _ ≤ (u * (2 * G + 1 + Λ) + η) + (u * G + η) + 2 * κ := by
        have := mul_le_mul_of_nonneg_left hlm hu
        linarith
      _ = _ := by ring

/-! ### Weighted means -/

/-- The products of weights and values. -/
theorem Spec.Accurate.products (H : Accurate F u η) {m D T : ℝ} {lws ws xs : List ℝ} (hw : RelWeights F u η m D lws ws)
    (hx : ∀ x ∈ xs, |x| ≤ T) (hl : lws.length = xs.length) (hT : T ≤ F.maxFinite) (hu1 : u ≤ 1)
    (ha1 : 3 * u + 2 * (u * D + η) ≤ 1) :
    ∃ ps : List ℝ, pyMap (fun a : EReal × EReal => flMul F a.1 a.2) ((coes ws).zip (coes xs)) = .ok (coes ps) ∧
      (∀ p ∈ ps, F.rnd (p : EReal) = (p : EReal)) ∧
      List.Forall₂ (fun (p : ℝ × ℝ) y => |y - p.1 * p.2| ≤ T * (5 * u + 2 * (u * D + η)) * p.1 + (2 * T + 1) * η)
        ((lws.map (fun x => Real.exp (x - m))).zip xs) ps := by
  have hu := H.u_nonneg
  have hη := H.η_nonneg
  unfold RelWeights at hw
  induction hw generalizing xs with
  | nil => exact ⟨[], rfl, by simp, by simp⟩
  | @cons lw w lws ws hab _ ih =>
    cases xs with
    | nil => simp at hl
    | cons x xs =>
      obtain ⟨ps, hps, hf, hr⟩ := ih (xs := xs) (fun y hy => hx y (by simp [hy])) (by simpa using hl)
      obtain ⟨w0, w1, -, -, we⟩ := hab
      have hx0 := hx x (by simp)
      have hT0 : 0 ≤ T := (abs_nonneg _).trans hx0
      have hwx : |w * x| ≤ w * T := by rw [abs_mul, abs_of_nonneg w0]; exact mul_le_mul_of_nonneg_left hx0 w0
      have hwT : w * T ≤ T := by nlinarith
      obtain ⟨p, hp, hp2⟩ := H.round (w * x) (by linarith)
      have hmul : flMul F (w : EReal) (x : EReal) = .ok (p : EReal) := by
        unfold flMul
        rw [if_neg (by simp), ← EReal.coe_mul, hp]
      refine ⟨p :: ps, ?_, ?_, ?_⟩
      · simp only [coes, List.map_cons, List.zip_cons_cons] at hps ⊢
        rw [pyMap]
        simp only [hmul, Py.ok_bind]
        rw [hps]
        rfl
      · intro q hq
        rcases List.mem_cons.mp hq with rfl | hq
        · rw [← hp]; exact F.rnd_idem _
        · exact hf q hq
      · simp only [List.map_cons, List.zip_cons_cons]
        refine .cons ?_ hr
        set e := Real.exp (lw - m)
        have he : 0 < e := Real.exp_pos _
        set a := 3 * u + 2 * (u * D + η) with haa
        have hwe : w ≤ 2 * e + η := by
          have := (abs_le.mp we).2
          nlinarith
        have h1 : |w * x - e * x| ≤ (a * e + η) * T := by
          rw [← sub_mul, abs_mul]
          exact mul_le_mul we hx0 (abs_nonneg _) (by nlinarith [abs_nonneg (w - e)])
        have h2 : u * |w * x| ≤ u * ((2 * e + η) * T) := mul_le_mul_of_nonneg_left
          (hwx.trans (mul_le_mul_of_nonneg_right hwe hT0)) hu
        have h3 : u * (η * T) ≤ η * T := by
          have := mul_nonneg hη hT0
          nlinarith
        calc |p - e * x| = |(p - w * x) + (w * x - e * x)| := by congr 1; ring
          _ ≤ |p - w * x| + |w * x - e * x| := abs_add_le _ _
          _ ≤ (u * ((2 * e + η) * T) + η) + (a * e + η) * T := by linarith
          _ ≤ T * (5 * u + 2 * (u * D + η)) * e + (2 * T + 1) * η := by
            rw [haa]
            linarith

theorem abs_dot_le {ws xs : List ℝ} {T : ℝ} (hw : ∀ w ∈ ws, 0 ≤ w) (hx : ∀ x ∈ xs, |x| ≤ T) (hl : ws.length = xs.length) :
    |(List.zipWith (· * ·) ws xs).sum| ≤ T * ws.sum := by
  induction ws generalizing xs with
  | nil => simp
  | cons w ws ih =>
    cases xs with
    | nil => simp at hl
    | cons x xs =>
      have i := ih (xs := xs) (fun v hv => hw v (by simp [hv])) (fun v hv => hx v (by simp [hv])) (by simpa using hl)
      have hw0 := hw w (by simp)
      have hx0 := hx x (by simp)
      simp only [List.zipWith_cons_cons, List.sum_cons]
      refine (abs_add_le _ _).trans ?_
      rw [abs_mul, abs_of_nonneg hw0]
      nlinarith

/-- What a small error implies. -/
theorem small_error {u η κ D : ℝ} {h N : Nat} (hκ : κ = weightError u η h N D) (hu : 0 ≤ u) (hη : 0 ≤ η) (hD : 0 ≤ D) (hN : 1 ≤ N)
    (hk : κ ≤ 1 / 2) :
    u * D + η ≤ 1 ∧ 5 * u + 2 * (u * D + η) ≤ 1 ∧ (h : ℝ) * u ≤ 1 / 8 ∧ N * η ≤ 1 / 12 ∧ 5 * u + 6 * η ≤ κ ∧ 0 ≤ κ := by
  have hN' : (1 : ℝ) ≤ N := by exact_mod_cast hN
  have huD : 0 ≤ u * D := mul_nonneg hu hD
  have hhu : 0 ≤ (h : ℝ) * u := by positivity
  have hNη : η ≤ N * η := le_mul_of_one_le_left hη hN'
  have e : κ = 4 * (h * u) + 2 * (u * D) + 5 * u + 6 * (N * η) := by rw [hκ]; unfold weightError; ring
  refine ⟨?_, ?_, ?_, ?_, ?_, ?_⟩ <;> linarith

/-- The error of the weighted sum of the values. -/
theorem numerator_error {u η κ D T S P A s p n : ℝ} {h N : Nat} (hκ : κ = weightError u η h N D) (hu : 0 ≤ u) (hη : 0 ≤ η)
    (hD : 0 ≤ D) (hN : 1 ≤ N) (hk : κ ≤ 1 / 2) (hT : 0 ≤ T) (hS : 1 ≤ S) (hA : A = 5 * u + 2 * (u * D + η))
    (hP : P ≤ (T + T * A) * S + N * ((2 * T + 1) * η)) (hs : |s - p| ≤ 2 * h * u * P)
    (hp : |p - n| ≤ T * A * S + N * ((2 * T + 1) * η)) : |s - n| ≤ (T + 1) * κ * S := by
  obtain ⟨-, h1, h2, h3, -, h5⟩ := small_error hκ hu hη hD hN hk
  have hN' : (1 : ℝ) ≤ N := by exact_mod_cast hN
  have huD : 0 ≤ u * D := mul_nonneg hu hD
  have hhu : 0 ≤ (h : ℝ) * u := by positivity
  have hNη : η ≤ N * η := le_mul_of_one_le_left hη hN'
  have e : κ = 4 * (h * u) + 2 * (u * D) + 5 * u + 6 * (N * η) := by rw [hκ]; unfold weightError; ring
  rw [← hA] at h1
  have hTS : 0 ≤ T * S := mul_nonneg hT (by linarith)
  have hTA : T * A * S ≤ T * S := by nlinarith
  set Q := N * ((2 * T + 1) * η) with hQ
  have hQ0 : 0 ≤ Q := by positivity
  have hQS : Q ≤ Q * S := le_mul_of_one_le_right hQ0 hS
  have f1 : 2 * h * u * P ≤ 2 * h * u * (2 * (T * S) + Q) := mul_le_mul_of_nonneg_left (by linarith) (by positivity)
  have f2 : 2 * h * u * Q ≤ Q := by nlinarith
  have f4 : |s - n| ≤ (4 * (h * u) * T + T * A + 2 * Q) * S := by
    calc |s - n| = |(s - p) + (p - n)| := by congr 1; ring
      _ ≤ |s - p| + |p - n| := abs_add_le _ _
      _ ≤ 2 * h * u * (2 * (T * S) + Q) + (T * A * S + Q) := by linarith
      _ = 4 * (h * u) * T * S + 2 * h * u * Q + (T * A * S + Q) := by ring
      _ ≤ 4 * (h * u) * T * S + Q * S + (T * A * S + Q * S) := by linarith
      _ = _ := by ring
  refine f4.trans (mul_le_mul_of_nonneg_right ?_ (by linarith))
  have f5 : T * η ≤ T * (N * η) := mul_le_mul_of_nonneg_left hNη hT
  have f6 : 0 ≤ T * (N * η) := by positivity
  have e2 : (T + 1) * κ = T * (4 * (h * u)) + T * (2 * (u * D)) + T * (5 * u) + 6 * (T * (N * η)) + κ := by rw [e]; ring
  have e3 : 2 * Q = 4 * (T * (N * η)) + 2 * (N * η) := by rw [hQ]; ring
  have e4 : T * A = T * (5 * u) + T * (2 * (u * D)) + 2 * (T * η) := by rw [hA]; ring
  rw [e2, e3, e4]
  linarith

/-- The error of a quotient. -/
theorem quotient_error {κ T S s t n : ℝ} (h0 : 0 ≤ κ) (hk : κ ≤ 1 / 2) (hT : 0 ≤ T) (hS : 1 ≤ S) (hn : |n| ≤ T * S)
    (hs : |s - n| ≤ (T + 1) * κ * S) (ht : |t - S| ≤ κ * S) :
    0 < t ∧ |s / t - n / S| ≤ 2 * (2 * T + 1) * κ ∧ |s / t| ≤ 5 * T + 1 ∧ |n / S| ≤ T := by
  obtain ⟨t1, t2⟩ := abs_le.mp ht
  have tS : S / 2 ≤ t := by nlinarith
  have t0 : 0 < t := by linarith
  have S0 : 0 < S := by linarith
  have hquot : |s / t - n / S| ≤ 2 * (2 * T + 1) * κ := by
    have e : s / t - n / S = ((s - n) * S - n * (t - S)) / (t * S) := by field_simp; ring
    rw [e, abs_div, abs_of_pos (mul_pos t0 S0), div_le_iff₀ (mul_pos t0 S0)]
    have g1 : |(s - n) * S - n * (t - S)| ≤ (T + 1) * κ * S * S + T * S * (κ * S) := by
      refine (abs_sub _ _).trans ?_
      rw [abs_mul, abs_mul, abs_of_pos S0]
      exact add_le_add (mul_le_mul_of_nonneg_right hs S0.le) (mul_le_mul hn ht (abs_nonneg _) (by positivity))
    refine g1.trans ?_
    have g2 : (2 * T + 1) * κ * S * S ≤ (2 * T + 1) * κ * S * (2 * t) := mul_le_mul_of_nonneg_left (by linarith) (by positivity)
    linarith
  have hnS : |n / S| ≤ T := by
    rw [abs_div, abs_of_pos S0, div_le_iff₀ S0]; exact hn
  refine ⟨t0, hquot, ?_, hnS⟩
  calc |s / t| = |(s / t - n / S) + n / S| := by congr 1; ring
    _ ≤ 2 * (2 * T + 1) * κ + T := (abs_add_le _ _).trans (add_le_add hquot hnS)
    _ ≤ _ := by nlinarith

/-- The weighted mean of values of size up to `T`, for given log weights. -/
theorem Spec.Accurate.weightedMean (H : Accurate F u η) {lws xs : List ℝ} {m D T : ℝ} {h : Nat} (hm : amax lws = some m)
    (hD : ∀ x ∈ lws, m - x ≤ D) (hh : (F.tree lws.length).depth ≤ h) (hk : weightError u η h lws.length D ≤ 1 / 2)
    (hx : ∀ x ∈ xs, |x| ≤ T) (hl : lws.length = xs.length) (hF : D + 8 * (T + 1) * lws.length ≤ F.maxFinite) :
    ∃ q : ℝ, (do let w ← flRelWeights F (coes lws); flWeightedMean F w (coes xs) : Py EReal) = .ok (q : EReal) ∧
      |q - mean (lws.map (fun x => Real.exp (x - m))) xs| ≤ 3 * (2 * T + 1) * weightError u η h lws.length D := by
  have hu := H.u_nonneg
  have hη := H.η_nonneg
  obtain ⟨hmem, hmax⟩ := amax_eq_some.mp hm
  have hD0 : 0 ≤ D := by have := hD m hmem; linarith
  have hne : lws ≠ [] := List.ne_nil_of_mem hmem
  have hNn : 1 ≤ lws.length := List.length_pos_iff.mpr hne
  have hN : (1 : ℝ) ≤ lws.length := by exact_mod_cast hNn
  have hT0 : 0 ≤ T := by
    cases xs with
    | nil => simp at hl; exact absurd hl hne
    | cons x xs => exact (abs_nonneg _).trans (hx x (by simp))
  have hTN : T + 1 ≤ (T + 1) * lws.length := le_mul_of_one_le_right (by linarith) hN
  have hTN' : (lws.length : ℝ) ≤ (T + 1) * lws.length := le_mul_of_one_le_left (by linarith) (by linarith)
  have hF' : D + 8 * ((T + 1) * lws.length) ≤ F.maxFinite := by linarith
  obtain ⟨k1, k2, k3, k4, k5, k6⟩ := small_error rfl hu hη hD0 hNn hk
  obtain ⟨S1, SN⟩ := totalWeight_bounds hm
  obtain ⟨ws, hws, hr⟩ := H.expSubs hmax hD (by linarith) k1
  have hlen : ws.length = lws.length := (List.Forall₂.length_eq hr).symm
  obtain ⟨t, ht, ht2⟩ := H.weightSum hm hD0 hr hh hk (by linarith)
  obtain ⟨ps, hps, hpf, hpr⟩ := H.products hr hx hl (by linarith) (by linarith [mul_nonneg hu hD0]) (by linarith)
  have hplen : ps.length = lws.length := by
    have := List.Forall₂.length_eq hpr
    simp only [List.length_zip, List.length_map, ← hl, min_self] at this
    exact this.symm
  have hpne : ps ≠ [] := by rw [← List.length_pos_iff, hplen]; exact List.length_pos_iff.mpr hne
  have hepos : ∀ w ∈ lws.map (fun x => Real.exp (x - m)), 0 ≤ w := by
    intro y hy; obtain ⟨x, -, rfl⟩ := List.mem_map.mp hy; exact (Real.exp_pos _).le
  have hl' : (lws.map (fun x => Real.exp (x - m))).length = xs.length := by rw [List.length_map]; exact hl
  have e1 := sum_error hpr hl'
  have e2 := sum_abs_error hpr hepos hx hl'
  have e3 := abs_dot_le hepos hx hl'
  rw [List.length_map] at e1 e2
  change _ ≤ _ * totalWeight m lws + _ at e1
  change _ ≤ _ * totalWeight m lws + _ at e2
  change _ ≤ _ * totalWeight m lws at e3
  have hP : 2 * (ps.map (|·|)).sum ≤ F.maxFinite := by
    have g1 : (T + T * (5 * u + 2 * (u * D + η))) * totalWeight m lws ≤ 2 * T * lws.length :=
      mul_le_mul (by nlinarith) SN (by linarith) (by linarith)
    have g2 : lws.length * ((2 * T + 1) * η) ≤ (2 * T + 1) / 12 := by
      have := mul_le_mul_of_nonneg_left k4 (show 0 ≤ 2 * T + 1 by linarith)
      linarith
    have g3 : T ≤ T * lws.length := le_mul_of_one_le_right hT0 hN
    linarith
  obtain ⟨s, hs, hs2⟩ := H.flSum (h := h) hpne hpf (by rw [hplen]; exact hh) (by linarith) hP
  have hnum := numerator_error rfl hu hη hD0 hNn hk hT0 S1 rfl e2 hs2 e1
  obtain ⟨t0, hquot, hst, hnS⟩ := quotient_error k6 hk hT0 S1 e3 hnum ht2
  obtain ⟨q, hq1, hq2⟩ := H.round (s / t) (by linarith)
  refine ⟨q, ?_, ?_⟩
  · unfold flRelWeights
    rw [exact_amax hm]
    simp only
    rw [hws, Py.ok_bind]
    unfold flWeightedMean
    rw [if_neg (by simp [coes, hlen, hl]), hps, Py.ok_bind, hs, Py.ok_bind, ht, Py.ok_bind]
    unfold flQuot
    have ht0 : (t : EReal) ≠ 0 := by exact_mod_cast t0.ne'
    rw [if_neg (by simp [ht0]), if_neg ht0, ← EReal.coe_div, hq1]
  · unfold mean
    change |q - _ / totalWeight m lws| ≤ _
    refine le_trans (b := (u * (5 * T + 1) + η) + 2 * (2 * T + 1) * weightError u η h lws.length D) ?_ ?_
    · rw [show q - (List.zipWith (· * ·) (lws.map (fun x => Real.exp (x - m))) xs).sum / totalWeight m lws =
        (q - s / t) + (s / t - (List.zipWith (· * ·) (lws.map (fun x => Real.exp (x - m))) xs).sum / totalWeight m lws) by ring]
      refine (abs_add_le _ _).trans (add_le_add (hq2.trans ?_) hquot)
      linarith [mul_le_mul_of_nonneg_left hst hu]
    · have g1 := mul_le_mul_of_nonneg_left k5 (show 0 ≤ 2 * T + 1 by linarith)
      have g2 : 0 ≤ T * u := mul_nonneg hT0 hu
      have g3 : 0 ≤ T * η := mul_nonneg hT0 hη
      linarith

/-! ### Positions -/

/-- `B` bounds the size of all numbers in the calculation of the prior volumes and `ν` the errors in rounding them. -/
structure Scale (F : FloatArith) (u η B ν X G : ℝ) : Prop where
  acc : Accurate F u η
  ν_eq : ν = u * B + η
  X_nonneg : 0 ≤ X
  G_nonneg : 0 ≤ G
  B_ge : X + G + 4 ≤ B
  fits : 4 * B ≤ F.maxFinite

variable {B ν X G : ℝ}

theorem Scale.ν_nonneg (S : Scale F u η B ν X G) : 0 ≤ ν := by
  rw [S.ν_eq]
  have := S.X_nonneg
  have := S.G_nonneg
  have := S.B_ge
  exact add_nonneg (mul_nonneg S.acc.u_nonneg (by linarith)) S.acc.η_nonneg

theorem Scale.le_ν (S : Scale F u η B ν X G) {x : ℝ} (h : |x| ≤ B) : u * |x| + η ≤ ν := by
  rw [S.ν_eq]
  linarith [mul_le_mul_of_nonneg_left h S.acc.u_nonneg]

theorem Scale.add (S : Scale F u η B ν X G) {x y : ℝ} (h : |x + y| ≤ B) :
    ∃ z : ℝ, flAdd F x y = .ok (z : EReal) ∧ F.rnd ((x + y : ℝ) : EReal) = (z : EReal) ∧ |z - (x + y)| ≤ ν := by
  have := S.fits
  have := (abs_nonneg _).trans h
  obtain ⟨z, h1, h2, h3⟩ := S.acc.add (x := x) (y := y) (by linarith)
  exact ⟨z, h1, h2, h3.trans (S.le_ν h)⟩

theorem Scale.sub (S : Scale F u η B ν X G) {x y : ℝ} (h : |x - y| ≤ B) :
    ∃ z : ℝ, flSub F x y = .ok (z : EReal) ∧ F.rnd ((x - y : ℝ) : EReal) = (z : EReal) ∧ |z - (x - y)| ≤ ν := by
  have := S.fits
  have := (abs_nonneg _).trans h
  obtain ⟨z, h1, h2, h3⟩ := S.acc.sub (x := x) (y := y) (by linarith)
  exact ⟨z, h1, h2, h3.trans (S.le_ν h)⟩

theorem sum_nonpos_of : ∀ {l : List ℝ}, (∀ x ∈ l, x ≤ 0) → l.sum ≤ 0
  | [], _ => le_rfl
  | x :: l, h => by
    rw [List.sum_cons]
    linarith [h x (by simp), sum_nonpos_of (l := l) fun y hy => h y (by simp [hy])]

/-- Sums of negative steps. -/
theorem cumsumFrom_bounds {g : ℝ} (hg : 0 ≤ g) : ∀ {steps : List ℝ} {acc : ℝ}, (∀ s ∈ steps, s ≤ -g) →
    (cumsumFrom acc steps).Pairwise (fun a b => b ≤ a - g) ∧
      ∀ x ∈ cumsumFrom acc steps, x ≤ acc - g ∧ acc + steps.sum ≤ x
  | [], _, _ => by simp [cumsumFrom]
  | s :: steps, acc, h => by
    obtain ⟨h1, h2⟩ := cumsumFrom_bounds hg (steps := steps) (acc := acc + s) (fun t ht => h t (by simp [ht]))
    have hs := h s (by simp)
    have hsum : steps.sum ≤ 0 := sum_nonpos_of (fun t ht => by linarith [h t (by simp [ht])])
    rw [cumsumFrom, List.pairwise_cons]
    refine ⟨⟨fun b hb => (h2 b hb).1, h1⟩, ?_⟩
    intro x hx
    rw [List.sum_cons]
    rcases List.mem_cons.mp hx with rfl | hx
    · exact ⟨by linarith, by linarith⟩
    · obtain ⟨a, b⟩ := h2 x hx
      exact ⟨by linarith, by linarith⟩

theorem Scale.cumsumFrom (S : Scale F u η B ν X G) {steps steps' : List ℝ} (hst : Within ν steps' steps) {acc acc' δ : ℝ}
    (hs : ∀ s ∈ steps, s ≤ 0) (h0 : acc ≤ 0) (ha : |acc' - acc| ≤ δ) (hX : -X ≤ acc + steps.sum)
    (hδ : δ + 2 * steps.length * ν ≤ 1) :
    ∃ xs' : List ℝ, flCumsumFrom F acc' (coes steps') = .ok (coes xs') ∧
      Within (δ + 2 * steps.length * ν) xs' (Nestcheck.cumsumFrom acc steps) := by
  have hν := S.ν_nonneg
  unfold Within at hst
  induction hst generalizing acc acc' δ with
  | nil => exact ⟨[], rfl, .nil⟩
  | @cons s' s steps' steps hab htl ih =>
    have hs0 := hs s (by simp)
    have hsum : steps.sum ≤ 0 := sum_nonpos_of (fun t ht => hs t (by simp [ht]))
    simp only [List.sum_cons, List.length_cons] at hX hδ ⊢
    push_cast at hδ ⊢
    have hL : 0 ≤ 2 * (steps.length : ℝ) * ν := by positivity
    have hδ0 : 0 ≤ δ := (abs_nonneg _).trans ha
    have hd : |acc' + s' - (acc + s)| ≤ δ + ν := by
      rw [show acc' + s' - (acc + s) = (acc' - acc) + (s' - s) by ring]
      exact (abs_add_le _ _).trans (add_le_add ha hab)
    have hbound : |acc' + s'| ≤ B := by
      have h1 : |acc + s| ≤ X := by rw [abs_of_nonpos (by linarith)]; linarith
      rw [show acc' + s' = (acc' + s' - (acc + s)) + (acc + s) by ring]
      refine (abs_add_le _ _).trans ?_
      have := S.B_ge
      have := S.G_nonneg
      nlinarith
    obtain ⟨a, ha1, -, ha3⟩ := S.add hbound
    have hd2 : |a - (acc + s)| ≤ δ + 2 * ν := by
      rw [show a - (acc + s) = (a - (acc' + s')) + (acc' + s' - (acc + s)) by ring]
      refine (abs_add_le _ _).trans ?_
      linarith
    obtain ⟨xs', hxs, hw⟩ := ih (acc := acc + s) (acc' := a) (δ := δ + 2 * ν) (fun t ht => hs t (by simp [ht]))
      (by linarith) hd2 (by linarith) (by linarith)
    refine ⟨a :: xs', ?_, ?_⟩
    · simp only [coes, List.map_cons] at hxs ⊢
      rw [flCumsumFrom, ha1, Py.ok_bind, hxs]
      rfl
    · rw [Nestcheck.cumsumFrom]
      refine .cons (hd2.trans (by linarith)) ?_
      refine List.Forall₂.imp ?_ hw
      intro x y h
      linarith

theorem Scale.cumsum (S : Scale F u η B ν X G) {steps steps' : List ℝ} (hst : Within ν steps' steps)
    (hs : ∀ s ∈ steps, s ≤ 0) (hX : -X ≤ steps.sum) (hδ : 2 * steps.length * ν ≤ 1) :
    ∃ xs' : List ℝ, flCumsum F (coes steps') = .ok (coes xs') ∧
      Within (2 * steps.length * ν) xs' (Nestcheck.cumsum steps) := by
  have hν := S.ν_nonneg
  unfold Within at hst
  cases hst with
  | nil => exact ⟨[], rfl, .nil⟩
  | @cons s' s steps' steps hab htl =>
    simp only [List.sum_cons, List.length_cons] at hX hδ ⊢
    push_cast at hδ ⊢
    obtain ⟨xs', hxs, hw⟩ := S.cumsumFrom htl (acc := s) (acc' := s') (δ := ν) (fun t ht => hs t (by simp [ht]))
      (hs s (by simp)) hab hX (by linarith)
    have hL : 0 ≤ 2 * (steps.length : ℝ) * ν := by positivity
    refine ⟨s' :: xs', ?_, ?_⟩
    · simp only [coes, List.map_cons] at hxs ⊢
      rw [flCumsum, hxs]
      rfl
    · unfold Nestcheck.cumsum
      rw [Nestcheck.cumsumFrom, zero_add]
      refine .cons (hab.trans (by linarith)) ?_
      refine List.Forall₂.imp ?_ hw
      intro x y h
      linarith

/-- `get_logx`: the sum of the steps -1/n is at least -`X`. -/
theorem Scale.logx (S : Scale F u η B ν X G) {nlive : List Int} (h0 : nlive ≠ []) (hp : ∀ n ∈ nlive, 0 < n)
    (hX : -X ≤ (expectedSteps nlive).sum) (hδ : 2 * nlive.length * ν ≤ 1) :
    ∃ xs' : List ℝ, flLogx F nlive none = .ok (coes xs') ∧
      Within (2 * nlive.length * ν) xs' (positions (expectedSteps nlive)) := by
  obtain ⟨m, hm, hm0⟩ := amin_pos h0 hp
  have hB := S.B_ge
  have hX0 := S.X_nonneg
  have hG0 := S.G_nonneg
  have hfit := S.fits
  have key : ∀ n ∈ nlive, ∃ y : ℝ, flExpectedStep F n = (y : EReal) ∧ |y - -1 / (n : ℝ)| ≤ ν := by
    intro n hn
    have hn1 : (1 : ℝ) ≤ n := by exact_mod_cast hp n hn
    have hle : |1 / (n : ℝ)| ≤ B := by
      rw [abs_of_nonneg (by positivity)]
      have : 1 / (n : ℝ) ≤ 1 := by rw [div_le_one (by linarith)]; exact hn1
      linarith
    obtain ⟨z, hz, hz2⟩ := S.acc.round (1 / (n : ℝ)) (by linarith)
    refine ⟨-z, ?_, ?_⟩
    · unfold flExpectedStep flDiv
      rw [show (1 : EReal) / ((n : ℝ) : EReal) = ((1 / (n : ℝ) : ℝ) : EReal) by rw [EReal.coe_div]; rfl, hz]
      simp
    · rw [show -z - -1 / (n : ℝ) = -(z - 1 / (n : ℝ)) by ring, abs_neg]
      exact hz2.trans (S.le_ν hle)
  choose! g hg1 hg2 using key
  have hw : Within ν (nlive.map g) (expectedSteps nlive) := by
    unfold Within expectedSteps
    rw [List.forall₂_map_left_iff, List.forall₂_map_right_iff, List.forall₂_same]
    exact hg2
  obtain ⟨xs', h1, h2⟩ := S.cumsum hw (fun s hs => (expectedSteps_neg hp s hs).le) hX (by simpa [expectedSteps] using hδ)
  refine ⟨xs', ?_, ?_⟩
  · unfold flLogx
    simp only [hm, hm0, not_true_eq_false, if_false]
    rw [← h1]
    congr 1
    unfold coes
    rw [List.map_map]
    exact List.map_congr_left hg1
  · rw [← cumsum_eq]
    simpa [expectedSteps] using h2

/-! ### Prior volumes -/

/-- `log_subtract(a, b)` for perturbed arguments: `c` is a lower bound of 1 - exp(b - a). -/
theorem Scale.logSubtract (S : Scale F u η B ν X G) {a b a' b' δa δb c : ℝ} (hab' : b' ≤ a') (ha0 : a ≤ 0)
    (ha : |a' - a| ≤ δa) (hb : |b' - b| ≤ δb) (hbX : -X ≤ b) (hc0 : 0 < c)
    (hc : c ≤ 1 - Real.exp (b - a)) (hE : 2 * (δa + δb + 3 * ν) ≤ c) (hG : Real.log (2 / c) ≤ G) :
    ∃ v : ℝ, flLogSubtract F a' b' = .ok (v : EReal) ∧ |a + Real.log (1 - Real.exp (b - a))| ≤ X + G ∧
      |v - (a + Real.log (1 - Real.exp (b - a)))| ≤ δa + 2 * (δa + δb + 3 * ν) / c + 2 * ν := by
  have hν := S.ν_nonneg
  have hB := S.B_ge
  have hX0 := S.X_nonneg
  have hG0 := S.G_nonneg
  have hfit := S.fits
  have hu0 := S.acc.u_nonneg
  have hη0 := S.acc.η_nonneg
  have hδa := (abs_nonneg _).trans ha
  have hδb := (abs_nonneg _).trans hb
  have hc1 : c ≤ 1 := by linarith [Real.exp_pos (b - a)]
  have hba : b - a ≤ 0 := by
    by_contra hcon
    have := Real.one_lt_exp_iff.mpr (not_le.mp hcon)
    linarith
  -- the difference
  have hd0 : |(b' - a') - (b - a)| ≤ δa + δb := by
    rw [show (b' - a') - (b - a) = (b' - b) + -(a' - a) by ring]
    refine (abs_add_le _ _).trans ?_
    rw [abs_neg]
    linarith
  have hd1 : |b - a| ≤ X := by rw [abs_of_nonpos hba]; linarith
  have hd2 : |b' - a'| ≤ B := by
    rw [show b' - a' = ((b' - a') - (b - a)) + (b - a) by ring]
    refine (abs_add_le _ _).trans ?_
    linarith
  obtain ⟨d, hd, hdr, hde⟩ := S.sub hd2
  have hdn : d ≤ 0 := rnd_nonpos (by linarith) hdr
  have hdd : |d - (b - a)| ≤ δa + δb + ν := by
    rw [show d - (b - a) = (d - (b' - a')) + ((b' - a') - (b - a)) by ring]
    refine (abs_add_le _ _).trans ?_
    linarith
  -- its exponential
  obtain ⟨e, he, hee⟩ := S.acc.exp d hdn
  have hee' : |e - Real.exp d| ≤ ν := by
    refine hee.trans ?_
    rw [S.ν_eq]
    have : Real.exp d ≤ B := by linarith [Real.exp_le_one_iff.mpr hdn]
    linarith [mul_le_mul_of_nonneg_left this hu0]
  have hex : |e - Real.exp (b - a)| ≤ δa + δb + 2 * ν := by
    rw [show e - Real.exp (b - a) = (e - Real.exp d) + (Real.exp d - Real.exp (b - a)) by ring]
    refine (abs_add_le _ _).trans ?_
    have := exp_sub_exp hdn hba
    linarith
  -- one minus it
  have hpos := Real.exp_pos (b - a)
  have hs0 : |(1 : ℝ) - e| ≤ B := by
    have h1 := abs_le.mp hex
    rw [abs_le]
    constructor <;> linarith
  obtain ⟨s, hs, -, hse⟩ := S.sub hs0
  have hsd : |s - (1 - Real.exp (b - a))| ≤ δa + δb + 3 * ν := by
    rw [show s - (1 - Real.exp (b - a)) = (s - (1 - e)) + -(e - Real.exp (b - a)) by ring]
    refine (abs_add_le _ _).trans ?_
    rw [abs_neg]
    linarith
  have hsc : c / 2 ≤ s := by
    have := (abs_le.mp hsd).1
    linarith
  -- its logarithm
  have hs2 : s ≤ 2 := by
    have := (abs_le.mp hsd).2
    linarith
  have hlog2 : Real.log 2 ≤ 1 := by linarith [Real.log_le_sub_one_of_pos (x := 2) (by norm_num)]
  have hlogs : |Real.log s| ≤ G + 1 := by
    rw [abs_le]
    have h1 : Real.log (c / 2) ≤ Real.log s := Real.log_le_log (by linarith) hsc
    have h2 : Real.log s ≤ Real.log 2 := Real.log_le_log (by linarith) hs2
    have h3 : Real.log (c / 2) = -Real.log (2 / c) := by rw [← Real.log_inv, inv_div]
    constructor <;> linarith
  obtain ⟨l, hl, hle⟩ := S.acc.log s (by linarith) (by linarith)
  have hle' : |l - Real.log s| ≤ ν := hle.trans (S.le_ν (by linarith))
  have hll := log_sub_log (c := c / 2) (by linarith) hsc (y := 1 - Real.exp (b - a)) (by linarith)
  have hll' : |Real.log s - Real.log (1 - Real.exp (b - a))| ≤ 2 * (δa + δb + 3 * ν) / c := by
    refine hll.trans ?_
    rw [div_le_div_iff₀ (by linarith) hc0]
    have := mul_le_mul_of_nonneg_right hsd hc0.le
    linarith
  -- the sum
  have hE1 : 2 * (δa + δb + 3 * ν) / c ≤ 1 := by rw [div_le_one hc0]; exact hE
  have hsum : |(a' + l) - (a + Real.log (1 - Real.exp (b - a)))| ≤ δa + 2 * (δa + δb + 3 * ν) / c + ν := by
    rw [show (a' + l) - (a + Real.log (1 - Real.exp (b - a))) =
      (a' - a) + ((l - Real.log s) + (Real.log s - Real.log (1 - Real.exp (b - a)))) by ring]
    refine (abs_add_le _ _).trans ?_
    have := abs_add_le (l - Real.log s) (Real.log s - Real.log (1 - Real.exp (b - a)))
    linarith
  have hex1 : Real.exp (b - a) < 1 := by linarith
  have h1 : |a + Real.log (1 - Real.exp (b - a))| ≤ X + G := by
    have h2 : Real.log (1 - Real.exp (b - a)) ≤ 0 := Real.log_nonpos (by linarith) (by linarith)
    have h3 : Real.log c ≤ Real.log (1 - Real.exp (b - a)) := Real.log_le_log hc0 hc
    have h4 : Real.log (2 / c) = Real.log 2 - Real.log c := Real.log_div (by norm_num) hc0.ne'
    have h5 : 0 ≤ Real.log 2 := Real.log_nonneg (by norm_num)
    rw [abs_of_nonpos (by linarith)]
    linarith
  have hfin : |a' + l| ≤ B := by
    rw [show a' + l = ((a' + l) - (a + Real.log (1 - Real.exp (b - a)))) + (a + Real.log (1 - Real.exp (b - a))) by ring]
    refine (abs_add_le _ _).trans ?_
    linarith
  obtain ⟨v, hv, -, hve⟩ := S.add hfin
  refine ⟨v, ?_, h1, ?_⟩
  · unfold flLogSubtract
    rw [hd, Py.ok_bind, he]
    have : flSub F 1 (e : EReal) = .ok (s : EReal) := hs
    rw [this, Py.ok_bind]
    have hlg : flLog F (s : EReal) = .ok (l : EReal) := by
      unfold flLog
      rw [if_neg (by rw [not_lt]; exact_mod_cast (by linarith : (0 : ℝ) ≤ s)), hl]
    rw [hlg, Py.ok_bind, hv]
  · rw [show v - (a + Real.log (1 - Real.exp (b - a))) = (v - (a' + l)) + ((a' + l) - (a + Real.log (1 - Real.exp (b - a)))) by ring]
    refine (abs_add_le _ _).trans ?_
    linarith

theorem Scale.logTwo (S : Scale F u η B ν X G) :
    ∃ t : ℝ, F.log 2 = (t : EReal) ∧ |t - Real.log 2| ≤ ν := by
  have hB := S.B_ge
  have hX0 := S.X_nonneg
  have hG0 := S.G_nonneg
  have hfit := S.fits
  have hlog2 : Real.log 2 ≤ 1 := by linarith [Real.log_le_sub_one_of_pos (x := 2) (by norm_num)]
  have hlog0 : 0 ≤ Real.log 2 := Real.log_nonneg (by norm_num)
  have hab : |Real.log 2| ≤ B := by rw [abs_of_nonneg hlog0]; linarith
  obtain ⟨t, h1, h2⟩ := S.acc.log 2 (by norm_num) (by linarith)
  exact ⟨t, h1, h2.trans (S.le_ν hab)⟩

/-- `log` of the sum of the exponentials. -/
theorem log_sum_exp_close {δ : ℝ} {xs ys : List ℝ} (h : Within δ xs ys) (h0 : xs ≠ []) :
    |Real.log (xs.map Real.exp).sum - Real.log (ys.map Real.exp).sum| ≤ δ := by
  have hf := within_factor_exp h
  have h0' : ys ≠ [] := by
    intro e
    have := h.length_eq
    rw [e] at this
    exact h0 (List.length_eq_zero_iff.mp this)
  have hs := sum_pos_of (ws := xs.map Real.exp) (by simpa using h0) (by simp [Real.exp_pos])
  have hs' := sum_pos_of (ws := ys.map Real.exp) (by simpa using h0') (by simp [Real.exp_pos])
  have b1 := Real.log_le_log hs hf.sum.2.2
  have b2 := Real.log_le_log hs' hf.symm.sum.2.2
  rw [Real.log_mul (Real.exp_pos _).ne' hs'.ne', Real.log_exp] at b1
  rw [Real.log_mul (Real.exp_pos _).ne' hs.ne', Real.log_exp] at b2
  rw [abs_le]
  constructor <;> linarith

theorem log_totalWeight {m : ℝ} {xs : List ℝ} (h0 : xs ≠ []) :
    Real.log (totalWeight m xs) + m = Real.log (xs.map Real.exp).sum := by
  have hs := sum_pos_of (ws := xs.map Real.exp) (by simpa using h0) (by simp [Real.exp_pos])
  have : totalWeight m xs = Real.exp (-m) * (xs.map Real.exp).sum := by
    unfold totalWeight
    rw [← List.sum_map_mul_left]
    congr 1
    apply List.map_congr_left
    intro x _
    rw [← Real.exp_add]
    congr 1
    ring
  rw [this, Real.log_mul (Real.exp_pos _).ne' hs.ne', Real.log_exp]
  ring

/-- `logsumexp([x0, x1]) - np.log(2)` for perturbed arguments. -/
theorem Scale.pair (S : Scale F u η B ν X G) {x y x' y' δ : ℝ} (hx : |x' - x| ≤ δ) (hy : |y' - y| ≤ δ)
    (hxX : -X ≤ x) (hyX : -X ≤ y) (hx0 : x ≤ 0) (hy0 : y ≤ 0) (hx0' : x' ≤ 0) (hy0' : y' ≤ 0) (hδ : δ ≤ 1)
    (hν1 : 30 * ν ≤ 1) {C : ℕ} (hC : C + 1 ≤ F.maxInt) (hxC : -(C : ℝ) ≤ x') :
    ∃ z v : ℝ, flLogsumexp F [(x' : EReal), (y' : EReal)] = .ok (z : EReal) ∧ flSub F z (F.log 2) = .ok (v : EReal) ∧
      v ≤ 0 ∧ |v - Real.log ((Real.exp x + Real.exp y) / 2)| ≤ δ + 28 * ν := by
  have hν := S.ν_nonneg
  have hB := S.B_ge
  have hX0 := S.X_nonneg
  have hG0 := S.G_nonneg
  have hfit := S.fits
  have hu0 := S.acc.u_nonneg
  have hη0 := S.acc.η_nonneg
  have hδ0 := (abs_nonneg _).trans hx
  have hx1 := abs_le.mp hx
  have hy1 := abs_le.mp hy
  have hm : amax [x', y'] = some (max x' y') := rfl
  have hne : ([x', y'] : List ℝ) ≠ [] := by simp
  have hm0 : max x' y' ≤ 0 := max_le hx0' hy0'
  have hm1 : -(X + 1) ≤ max x' y' := le_trans (by linarith) (le_max_left _ _)
  have hdep : (F.tree ([x', y'] : List ℝ).length).depth ≤ 1 := by
    have h1 := SumTree.depth_lt (F.tree 2)
    have h2 := (F.tree_perm 2 (by simp)).length_eq
    simp at h2
    simp
    omega
  have hνB : u * (X + 4) + η ≤ ν := by
    rw [S.ν_eq]
    linarith [mul_le_mul_of_nonneg_left (show X + 4 ≤ B by linarith) hu0]
  have huX : 0 ≤ u * X := mul_nonneg hu0 hX0
  have hwe : weightError u η 1 2 (X + 1) ≤ 12 * ν := by
    unfold weightError
    push_cast
    nlinarith
  obtain ⟨z, hz, hze⟩ := S.acc.logsumexp (D := X + 1) (Λ := X + 1) (h := 1) hm (by
      intro t ht
      simp only [List.mem_cons, List.not_mem_nil, or_false] at ht
      rcases ht with rfl | rfl <;> linarith) hdep (by
      simp only [List.length_cons, List.length_nil, zero_add, Nat.reduceAdd]
      linarith) (by rw [abs_of_nonpos hm0]; linarith) (by
      simp only [List.length_cons, List.length_nil]
      push_cast
      linarith)
  rw [log_totalWeight hne] at hze
  simp only [List.length_cons, List.length_nil, zero_add, Nat.reduceAdd] at hze
  have hl4 : Real.log (2 * ((2 : ℕ) : ℝ)) ≤ 3 := by
    have := Real.log_le_sub_one_of_pos (x := 2 * ((2 : ℕ) : ℝ)) (by norm_num)
    norm_num at this ⊢
    linarith
  have hze' : |z - Real.log (([x', y'] : List ℝ).map Real.exp).sum| ≤ 26 * ν := by
    refine hze.trans ?_
    have h1 := mul_le_mul_of_nonneg_left (show 3 * Real.log (2 * ((2 : ℕ) : ℝ)) + 1 + (X + 1) ≤ X + 11 by linarith) hu0
    push_cast at hwe h1 ⊢
    unfold weightError
    push_cast
    nlinarith
  have hcl := log_sum_exp_close (δ := δ) (xs := [x', y']) (ys := [x, y]) (.cons hx (.cons hy .nil)) hne
  simp only [List.map_cons, List.map_nil, List.sum_cons, List.sum_nil, add_zero] at hze' hcl
  obtain ⟨t, ht, hte⟩ := S.logTwo
  have hpos : 0 < Real.exp x + Real.exp y := add_pos (Real.exp_pos _) (Real.exp_pos _)
  have hlog : Real.log ((Real.exp x + Real.exp y) / 2) = Real.log (Real.exp x + Real.exp y) - Real.log 2 :=
    Real.log_div hpos.ne' (by norm_num)
  have hup : Real.log ((Real.exp x + Real.exp y) / 2) ≤ 0 := by
    apply Real.log_nonpos (by linarith)
    linarith [Real.exp_le_one_iff.mpr hx0, Real.exp_le_one_iff.mpr hy0]
  have hlo : -X ≤ Real.log ((Real.exp x + Real.exp y) / 2) := by
    rw [Real.le_log_iff_exp_le (by linarith)]
    linarith [Real.exp_le_exp.mpr hxX, Real.exp_le_exp.mpr hyX]
  have hdiff : |(z - t) - Real.log ((Real.exp x + Real.exp y) / 2)| ≤ δ + 27 * ν := by
    rw [hlog, show (z - t) - (Real.log (Real.exp x + Real.exp y) - Real.log 2) =
      (z - Real.log (Real.exp x' + Real.exp y')) +
      ((Real.log (Real.exp x' + Real.exp y') - Real.log (Real.exp x + Real.exp y)) + -(t - Real.log 2)) by ring]
    refine (abs_add_le _ _).trans ?_
    have := abs_add_le (Real.log (Real.exp x' + Real.exp y') - Real.log (Real.exp x + Real.exp y)) (-(t - Real.log 2))
    rw [abs_neg] at this
    linarith
  have hmag : |z - t| ≤ B := by
    have := abs_le.mp hdiff
    rw [abs_le]
    constructor <;> linarith
  obtain ⟨v, hv, -, hve⟩ := S.sub hmag
  obtain ⟨z2, v2, hz2, hv2, hv20, -⟩ := pairSum_ok (F := F) (x := (x' : EReal)) (y := (y' : EReal)) hC
    (by exact_mod_cast hxC) (by exact_mod_cast hx0') (by exact_mod_cast hy0')
  have hzz : z2 = (z : EReal) := by
    have : flLogsumexp F [(x' : EReal), (y' : EReal)] = .ok (z : EReal) := hz
    rw [hz2] at this
    exact Except.ok.inj this
  have hvv : v2 = (v : EReal) := by
    rw [hzz, ht, hv] at hv2
    exact (Except.ok.inj hv2).symm
  refine ⟨z, v, hz, by rw [ht]; exact hv, ?_, ?_⟩
  · rw [hvv] at hv20
    exact_mod_cast hv20
  · rw [show v - Real.log ((Real.exp x + Real.exp y) / 2) = (v - (z - t)) + ((z - t) - Real.log ((Real.exp x + Real.exp y) / 2)) by ring]
    refine (abs_add_le _ _).trans ?_
    linarith

/-- 1 - exp(-1/M) is at least 1/(M + 1). -/
theorem one_sub_exp_ge {M d : ℝ} (hM : 0 < M) (hd : d ≤ -(1 / M)) : 1 / (M + 1) ≤ 1 - Real.exp d := by
  have h1 : Real.exp d ≤ Real.exp (-(1 / M)) := Real.exp_le_exp.mpr hd
  have h2 := Real.add_one_le_exp (1 / M)
  have h3 : Real.exp (-(1 / M)) ≤ 1 / (1 / M + 1) := by
    rw [Real.exp_neg, one_div (1 / M + 1)]
    apply inv_anti₀ (by positivity) h2
  have h4 : 1 / (1 / M + 1) = 1 - 1 / (M + 1) := by field_simp; ring
  linarith

theorem pyMap_close {α β : Type} {f : α → Py EReal} {g : β → ℝ} {ε : ℝ} {Rel : α → β → Prop}
    (h : ∀ a b, Rel a b → ∃ v : ℝ, f a = .ok (v : EReal) ∧ |v - g b| ≤ ε) {as : List α} {bs : List β}
    (hr : List.Forall₂ Rel as bs) : ∃ vs : List ℝ, pyMap f as = .ok (coes vs) ∧ Within ε vs (bs.map g) := by
  induction hr with
  | nil => exact ⟨[], rfl, .nil⟩
  | @cons a b as bs hab _ ih =>
    obtain ⟨v, hv, hve⟩ := h a b hab
    obtain ⟨vs, hvs, hw⟩ := ih
    refine ⟨v :: vs, ?_, .cons hve hw⟩
    rw [pyMap, hv, Py.ok_bind, hvs]
    rfl

theorem coes_dropLast (xs : List ℝ) : (coes xs).dropLast = coes xs.dropLast := by
  unfold coes; rw [List.map_dropLast]

/-- The log prior volumes. -/
theorem Scale.volumes (S : Scale F u η B ν X G) {logx ys : List ℝ} {δ M : ℝ} (h2 : 2 ≤ logx.length) (hM : 0 < M)
    (hw : Within δ ys logx) (hgap : logx.Pairwise (fun a b => b ≤ a - 1 / M))
    (hx : ∀ x ∈ logx, x ≤ -(1 / M) ∧ -X ≤ x) (hys : ys.Pairwise (· ≥ ·)) {C : ℕ} (hC : C + 1 ≤ F.maxInt)
    (hy : ∀ y ∈ ys, -(C : ℝ) ≤ y ∧ y ≤ 0) (hG : Real.log (2 * (M + 1)) ≤ G)
    (hδ : 2 * (M + 1) * (2 * δ + 31 * ν) ≤ 1) :
    ∃ vs' vs : List ℝ, flVolumes F (coes ys) = .ok (coes vs') ∧ Nestcheck.volumes logx = .ok vs ∧ (∀ v ∈ vs, |v| ≤ X + G + 1) ∧
      Within (δ + 28 * ν + 2 * (M + 1) * (2 * δ + 31 * ν)) vs' vs := by
  have hν := S.ν_nonneg
  have hB := S.B_ge
  have hX0 := S.X_nonneg
  have hG0 := S.G_nonneg
  have hlen : ys.length = logx.length := hw.length_eq
  have hi : ∀ i (h : i < ys.length), |ys[i] - logx[i]'(hlen ▸ h)| ≤ δ := fun i h =>
    (List.forall₂_iff_get.mp hw).2 i h (hlen ▸ h)
  have hδ0 : 0 ≤ δ := (abs_nonneg _).trans (hi 0 (by omega))
  have hM1 : 1 ≤ M + 1 := by linarith
  have hsmall : 2 * (2 * δ + 31 * ν) ≤ 1 := by nlinarith
  have hc : (0 : ℝ) < 1 / (M + 1) := by positivity
  have hlg : Real.log (2 / (1 / (M + 1))) ≤ G := by rwa [div_div_eq_mul_div, div_one]
  have hdiv : ∀ t : ℝ, 2 * t / (1 / (M + 1)) = 2 * (M + 1) * t := by
    intro t; rw [div_div_eq_mul_div, div_one]; ring
  have hle : ∀ t : ℝ, t ≤ 2 * δ + 31 * ν → 2 * t ≤ 1 / (M + 1) := by
    intro t ht
    rw [le_div_iff₀ (by linarith)]
    nlinarith
  have hMle : ∀ t : ℝ, t ≤ 2 * δ + 31 * ν → 2 * (M + 1) * t ≤ 2 * (M + 1) * (2 * δ + 31 * ν) := by
    intro t ht
    exact mul_le_mul_of_nonneg_left ht (by linarith)
  obtain ⟨t, ht, hte⟩ := S.logTwo
  have hlog2 : Real.log 2 ≤ 1 := by linarith [Real.log_le_sub_one_of_pos (x := 2) (by norm_num)]
  have hlog0 : 0 ≤ Real.log 2 := Real.log_nonneg (by norm_num)
  have hM0 : 0 < 1 / M := by positivity
  -- inner points
  let g : ℝ × ℝ → ℝ := fun p => p.1 + Real.log (1 - Real.exp (p.2 - p.1)) - Real.log 2
  let Rel : EReal × EReal → ℝ × ℝ → Prop := fun p q => ∃ a' b' : ℝ, p = ((a' : EReal), (b' : EReal)) ∧ b' ≤ a' ∧
    |a' - q.1| ≤ δ ∧ |b' - q.2| ≤ δ ∧ q.1 ≤ 0 ∧ -X ≤ q.2 ∧ q.2 - q.1 ≤ -(1 / M)
  have hRel : List.Forall₂ Rel ((coes ys).dropLast.dropLast.zip ((coes ys).drop 2))
      (logx.dropLast.dropLast.zip (logx.drop 2)) := by
    rw [List.forall₂_iff_get]
    refine ⟨by simp [hlen, coes], ?_⟩
    intro i hi1 hi2
    have hi3 : i + 2 < logx.length := by simp at hi2; omega
    have hi4 : i + 2 < ys.length := by omega
    refine ⟨ys[i], ys[i + 2], ?_, ?_, ?_, ?_, ?_, ?_, ?_⟩
    · simp only [List.get_eq_getElem, List.getElem_zip, List.getElem_dropLast, List.getElem_drop, coes, List.getElem_map]
      congr 3
      omega
    · exact List.pairwise_iff_getElem.mp hys i (i + 2) (by omega) (by omega) (by omega)
    · simp only [List.get_eq_getElem, List.getElem_zip, List.getElem_dropLast]
      exact hi i (by omega)
    · have := hi (i + 2) (by omega)
      simp only [List.get_eq_getElem, List.getElem_zip, List.getElem_drop]
      simpa [add_comm] using this
    · simp only [List.get_eq_getElem, List.getElem_zip, List.getElem_dropLast]
      linarith [(hx _ (List.getElem_mem (by omega : i < logx.length))).1]
    · simp only [List.get_eq_getElem, List.getElem_zip, List.getElem_drop]
      exact (hx _ (List.getElem_mem _)).2
    · have := List.pairwise_iff_getElem.mp hgap i (i + 2) (by omega) (by omega) (by omega)
      simp only [List.get_eq_getElem, List.getElem_zip, List.getElem_dropLast, List.getElem_drop]
      have e : logx[2 + i]'(by omega) = logx[i + 2] := by congr 1; omega
      rw [e]
      linarith
  obtain ⟨ws, hws, hwsc⟩ := pyMap_close (f := fun p : EReal × EReal => do
      let l ← flLogSubtract F p.1 p.2
      flSub F l (F.log 2)) (g := g) (ε := δ + 28 * ν + 2 * (M + 1) * (2 * δ + 31 * ν)) (Rel := Rel) (by
    rintro p ⟨a, b⟩ ⟨a', b', rfl, h1, h2, h3, h4, h5, h6⟩
    simp only at h2 h3 h4 h5 h6 ⊢
    obtain ⟨v, hv, hvb, hve⟩ := S.logSubtract h1 h4 h2 h3 h5 hc (one_sub_exp_ge hM h6) (hle _ (by linarith)) hlg
    rw [hdiv] at hve
    have hk := hMle (δ + δ + 3 * ν) (by linarith)
    have hdiff : |(v - t) - g (a, b)| ≤ δ + 2 * (M + 1) * (δ + δ + 3 * ν) + 3 * ν := by
      rw [show (v - t) - g (a, b) = (v - (a + Real.log (1 - Real.exp (b - a)))) + -(t - Real.log 2) by simp only [g]; ring]
      refine (abs_add_le _ _).trans ?_
      rw [abs_neg]
      linarith
    have hmag : |v - t| ≤ B := by
      have b1 := abs_le.mp hve
      have b2 := abs_le.mp hvb
      have b3 := abs_le.mp hte
      rw [abs_le]
      constructor <;> linarith
    obtain ⟨y, hy1, -, hy3⟩ := S.sub hmag
    refine ⟨y, ?_, ?_⟩
    · rw [hv, Py.ok_bind, ht, hy1]
    · rw [show y - g (a, b) = (y - (v - t)) + ((v - t) - g (a, b)) by ring]
      refine (abs_add_le _ _).trans ?_
      linarith) hRel
  have hexact : ∀ q ∈ logx.dropLast.dropLast.zip (logx.drop 2), q.1 ≤ 0 ∧ -X ≤ q.2 ∧ q.2 - q.1 ≤ -(1 / M) := by
    intro q hq
    obtain ⟨p, -, a', b', -, -, -, -, h4, h5, h6⟩ := forall₂_mem_left hRel.flip hq
    exact ⟨h4, h5, h6⟩
  have hone : ∀ d : ℝ, d ≤ -(1 / M) → 0 < 1 - Real.exp d := fun d hd => lt_of_lt_of_le hc (one_sub_exp_ge hM hd)
  have hinner : innerWeights logx = .ok ((logx.dropLast.dropLast.zip (logx.drop 2)).map g) := by
    unfold innerWeights
    apply pyMap_ok (g := g)
    intro q hq
    unfold Nestcheck.logSubtract
    rw [npLog_ok (hone _ (hexact q hq).2.2)]
    rfl
  -- first and last points
  have hnn : ∀ i (h : i < logx.length), |(ys[i]'(hlen ▸ h)) - logx[i]| ≤ δ := fun i h => hi i (hlen ▸ h)
  have pairAt : ∀ i j (h1 : i < logx.length) (h2 : j < logx.length), ∃ z v : ℝ,
      flLogsumexp F [((ys[i]'(hlen ▸ h1) : ℝ) : EReal), ((ys[j]'(hlen ▸ h2) : ℝ) : EReal)] = .ok (z : EReal) ∧
      flSub F z (F.log 2) = .ok (v : EReal) ∧ v ≤ 0 ∧
      |v - Real.log ((Real.exp logx[i] + Real.exp logx[j]) / 2)| ≤ δ + 28 * ν := by
    intro i j h1 h2
    have a1 := hx _ (List.getElem_mem h1)
    have a2 := hx _ (List.getElem_mem h2)
    exact S.pair (hnn i h1) (hnn j h2) a1.2 a2.2 (by linarith) (by linarith)
      (hy _ (List.getElem_mem _)).2 (hy _ (List.getElem_mem _)).2 (by linarith) (by linarith) hC
      (hy _ (List.getElem_mem _)).1
  have pairExact : ∀ i j (h1 : i < logx.length) (h2 : j < logx.length),
      logsumexp [logx[i], logx[j]] = .ok (Real.log (Real.exp logx[i] + Real.exp logx[j])) := by
    intro i j h1 h2
    have := logsumexp_ok (xs := [logx[i], logx[j]]) (by simp)
    simpa using this
  have pairBound : ∀ i j (h1 : i < logx.length) (h2 : j < logx.length),
      -X ≤ Real.log ((Real.exp logx[i] + Real.exp logx[j]) / 2) ∧
      Real.log ((Real.exp logx[i] + Real.exp logx[j]) / 2) ≤ -(1 / M) := by
    intro i j h1 h2
    have a1 := hx _ (List.getElem_mem h1)
    have a2 := hx _ (List.getElem_mem h2)
    have p1 := Real.exp_pos logx[i]
    have p2 := Real.exp_pos logx[j]
    rw [Real.le_log_iff_exp_le (by linarith), Real.log_le_iff_le_exp (by linarith)]
    have := Real.exp_le_exp.mpr a1.1
    have := Real.exp_le_exp.mpr a1.2
    have := Real.exp_le_exp.mpr a2.1
    have := Real.exp_le_exp.mpr a2.2
    constructor <;> linarith
  have hhalf : ∀ i j (h1 : i < logx.length) (h2 : j < logx.length),
      Real.log (Real.exp logx[i] + Real.exp logx[j]) - Real.log 2 = Real.log ((Real.exp logx[i] + Real.exp logx[j]) / 2) := by
    intro i j h1 h2
    rw [Real.log_div (add_pos (Real.exp_pos _) (Real.exp_pos _)).ne' (by norm_num)]
  have l0 : 0 < logx.length := by omega
  have l1 : 1 < logx.length := by omega
  have l2 : logx.length - 2 < logx.length := by omega
  have l3 : logx.length - 1 < logx.length := by omega
  obtain ⟨z, b, hz, hb, hb0, hbe⟩ := pairAt 0 1 l0 l1
  obtain ⟨z2, l, hz2, hl, -, hle2⟩ := pairAt (logx.length - 2) (logx.length - 1) l2 l3
  obtain ⟨pb1, pb2⟩ := pairBound 0 1 l0 l1
  obtain ⟨pc1, pc2⟩ := pairBound (logx.length - 2) (logx.length - 1) l2 l3
  set b0 := Real.log ((Real.exp logx[0] + Real.exp logx[1]) / 2) with hb0d
  set e0 := Real.log ((Real.exp logx[logx.length - 2] + Real.exp logx[logx.length - 1]) / 2) with he0d
  obtain ⟨f, hf, hfb, hfe⟩ := S.logSubtract (a := 0) (a' := 0) (δa := 0) hb0 le_rfl (by simp) hbe pb1 hc
    (one_sub_exp_ge hM (by rw [sub_zero]; exact pb2)) (hle _ (by linarith)) hlg
  rw [hdiv] at hfe
  have hkf := hMle (0 + (δ + 28 * ν) + 3 * ν) (by linarith)
  refine ⟨f :: ws ++ [l], (0 + Real.log (1 - Real.exp (b0 - 0))) :: (logx.dropLast.dropLast.zip (logx.drop 2)).map g ++ [e0], ?_, ?_, ?_, ?_⟩
  · unfold flVolumes
    have e0 : (coes ys)[0]? = some ((ys[0]'(by omega) : ℝ) : EReal) := by simp [coes, List.getElem?_eq_getElem (show 0 < ys.length by omega)]
    have e1 : (coes ys)[1]? = some ((ys[1]'(by omega) : ℝ) : EReal) := by simp [coes, List.getElem?_eq_getElem (show 1 < ys.length by omega)]
    have e2 : (coes ys)[(coes ys).length - 2]? = some ((ys[logx.length - 2]'(by omega) : ℝ) : EReal) := by
      simp [coes, hlen, List.getElem?_eq_getElem (show logx.length - 2 < ys.length by omega)]
    have e3 : (coes ys).getLast? = some ((ys[logx.length - 1]'(by omega) : ℝ) : EReal) := by
      rw [List.getLast?_eq_getElem?]
      simp [coes, hlen, List.getElem?_eq_getElem (show logx.length - 1 < ys.length by omega)]
    rw [e0, e1, e2, e3]
    simp only
    have hin : flInner F (coes ys) = .ok (coes ws) := hws
    have hf' : flLogSubtract F 0 (b : EReal) = .ok (f : EReal) := hf
    rw [hin, Py.ok_bind, hz, Py.ok_bind, hb, Py.ok_bind, hf', Py.ok_bind, hz2, Py.ok_bind, hl, Py.ok_bind]
    simp [coes]
    rfl
  · unfold Nestcheck.volumes
    have e3 : logx.getLast? = some (logx[logx.length - 1]'l3) := by
      rw [List.getLast?_eq_getElem?, List.getElem?_eq_getElem l3]
    rw [List.getElem?_eq_getElem l0, List.getElem?_eq_getElem l1, List.getElem?_eq_getElem l2, e3]
    simp only
    rw [hinner, Py.ok_bind, pairExact 0 1 l0 l1, Py.ok_bind, hhalf 0 1 l0 l1, ← hb0d]
    have hfx : Nestcheck.logSubtract 0 b0 = .ok (0 + Real.log (1 - Real.exp (b0 - 0))) := by
      unfold Nestcheck.logSubtract
      rw [npLog_ok (hone _ (by rw [sub_zero]; exact pb2))]
      rfl
    rw [hfx, Py.ok_bind, pairExact _ _ l2 l3, Py.ok_bind, hhalf _ _ l2 l3, ← he0d]
    rfl
  · intro v hv
    simp only [List.cons_append, List.mem_cons, List.mem_append, List.mem_map, List.not_mem_nil, or_false] at hv
    rcases hv with rfl | ⟨q, hq, rfl⟩ | rfl
    · linarith
    · obtain ⟨h4, h5, h6⟩ := hexact q hq
      have hcc := one_sub_exp_ge hM h6
      have hc2 : Real.log (1 / (M + 1)) ≤ Real.log (1 - Real.exp (q.2 - q.1)) := Real.log_le_log hc hcc
      have hc3 : Real.log (1 / (M + 1)) = Real.log 2 - Real.log (2 * (M + 1)) := by
        rw [Real.log_mul (by norm_num) (by linarith), one_div, Real.log_inv]; ring
      have hc4 : Real.log (1 - Real.exp (q.2 - q.1)) ≤ 0 :=
        Real.log_nonpos (hone _ h6).le (by linarith [Real.exp_pos (q.2 - q.1)])
      simp only [g]
      rw [abs_of_nonpos (by linarith)]
      linarith
    · rw [abs_of_nonpos (by linarith)]
      linarith
  · rw [List.cons_append, List.cons_append]
    refine .cons ?_ (List.rel_append hwsc (.cons ?_ .nil))
    · refine hfe.trans ?_
      linarith
    · refine hle2.trans ?_
      have : 0 ≤ 2 * (M + 1) * (2 * δ + 31 * ν) := by positivity
      linarith

end
end Nestcheck
