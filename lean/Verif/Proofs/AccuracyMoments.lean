import Verif.Props.Accuracy
import Verif.Model.RoundingMoments

/-
Rounding errors of squares, radii and of weighted sums with normalised weights (for C111).
-/

namespace Nestcheck
open Spec
noncomputable section
variable {F : FloatArith} {u η : ℝ}

/-- An error of the argument of a square root. -/
theorem sqrt_error {a b s S : ℝ} (ha : 0 ≤ a) (ha1 : a ≤ 1) (hb : 0 ≤ b) (hS : 0 ≤ S) (h : |s - S| ≤ a * S + b) :
    |Real.sqrt s - Real.sqrt S| ≤ a * Real.sqrt S + Real.sqrt b := by
  obtain ⟨h1, h2⟩ := abs_le.mp h
  have q1 := Real.sq_sqrt hS
  have q2 := Real.sq_sqrt hb
  have p1 := Real.sqrt_nonneg S
  have p2 := Real.sqrt_nonneg b
  set x := Real.sqrt S
  set y := Real.sqrt b
  have hxy := mul_nonneg p1 p2
  rw [abs_le]
  constructor
  · suffices (1 - a) * x - y ≤ Real.sqrt s by linarith
    rcases le_or_gt ((1 - a) * x) y with h3 | h3
    · linarith [Real.sqrt_nonneg s]
    · apply Real.le_sqrt_of_sq_le
      have e1 : y * y ≤ (1 - a) * x * y := mul_le_mul_of_nonneg_right h3.le p2
      have e2 : (1 - a) ^ 2 * x ^ 2 ≤ (1 - a) * x ^ 2 := mul_le_mul_of_nonneg_right (by nlinarith) (sq_nonneg x)
      nlinarith
  · suffices Real.sqrt s ≤ (1 + a) * x + y by linarith
    apply Real.sqrt_le_iff.mpr
    constructor
    · nlinarith
    · have e1 : (1 + a) * x ^ 2 ≤ (1 + a) ^ 2 * x ^ 2 := mul_le_mul_of_nonneg_right (by nlinarith) (sq_nonneg x)
      have e2 : 0 ≤ (1 + a) * (x * y) := mul_nonneg (by linarith) hxy
      nlinarith

/-- Squares. -/
theorem Spec.Accurate.squares (H : Accurate F u η) {xs : List ℝ} (hx : ∀ x ∈ xs, x ^ 2 ≤ F.maxFinite) :
    ∃ ys : List ℝ, flSquares F (coes xs) = .ok (coes ys) ∧
      List.Forall₂ (fun x y : ℝ => 0 ≤ y ∧ F.rnd (y : EReal) = (y : EReal) ∧ |y - x ^ 2| ≤ u * x ^ 2 + η) xs ys := by
  induction xs with
  | nil => exact ⟨[], rfl, .nil⟩
  | cons x xs ih =>
    obtain ⟨ys, h1, h2⟩ := ih (fun y hy => hx y (by simp [hy]))
    have hs : 0 ≤ x * x := mul_self_nonneg x
    have hx0 := hx x (by simp)
    obtain ⟨y, hy, hy2⟩ := H.round (x * x) (by rw [abs_of_nonneg hs]; linarith [sq x])
    rw [abs_of_nonneg hs, ← sq] at hy2
    refine ⟨y :: ys, ?_, .cons ⟨rnd_nonneg hs hy, ?_, hy2⟩ h2⟩
    · unfold flSquares at h1 ⊢
      simp only [coes, List.map_cons] at h1 ⊢
      rw [pyMap]
      have hmul : flMul F (x : EReal) (x : EReal) = .ok (y : EReal) := by
        unfold flMul
        rw [if_neg (by simp), ← EReal.coe_mul, hy]
      simp only [hmul, Py.ok_bind]
      rw [h1]
      rfl
    · rw [← hy]; exact F.rnd_idem _

theorem squares_sum {xs ys : List ℝ} (h : List.Forall₂ (fun x y : ℝ => 0 ≤ y ∧ F.rnd (y : EReal) = (y : EReal) ∧
    |y - x ^ 2| ≤ u * x ^ 2 + η) xs ys) :
    |ys.sum - (xs.map (· ^ 2)).sum| ≤ u * (xs.map (· ^ 2)).sum + xs.length * η ∧ 0 ≤ ys.sum ∧ (ys.map (|·|)).sum = ys.sum := by
  induction h with
  | nil => simp
  | @cons x y xs ys hxy _ ih =>
    obtain ⟨a1, a2, a3⟩ := ih
    obtain ⟨b1, -, b3⟩ := hxy
    simp only [List.sum_cons, List.map_cons, List.length_cons, a3, abs_of_nonneg b1]
    refine ⟨?_, by linarith, trivial⟩
    rw [show y + ys.sum - (x ^ 2 + (xs.map (· ^ 2)).sum) = (y - x ^ 2) + (ys.sum - (xs.map (· ^ 2)).sum) by ring]
    refine (abs_add_le _ _).trans ?_
    push_cast
    linarith

/-- The library function `sqrt` is accurate to the last place. -/
def Spec.AccurateRoot (F : FloatArith) (sqrt : EReal → EReal) (u η : ℝ) : Prop :=
  ∀ x : ℝ, 0 ≤ x → Real.sqrt x ≤ F.maxFinite → Near (u * Real.sqrt x + η) (sqrt x) (Real.sqrt x)

/-- A bound on the error of a radius up to `B`, of `d` parameters whose squares are added with at most `k` additions of each. -/
def Spec.radiusError (u η : ℝ) (d k : Nat) (B : ℝ) : ℝ := (6 * k + 3) * u * B + 2 * Real.sqrt (2 * d * η) + η

theorem pow_le_linear {u : ℝ} (hu0 : 0 ≤ u) {n k : Nat} (hn : n ≤ k) (hk : k * u ≤ 1 / 2) : (1 + u) ^ n ≤ 1 + 2 * k * u := by
  have h1 : (1 + u) ^ n ≤ (1 + u) ^ k := pow_le_pow_right₀ (by linarith) hn
  have h2 : (1 + u) ^ k ≤ Real.exp (k * u) := by
    rw [Real.exp_nat_mul]
    exact pow_le_pow_left₀ (by linarith) (by linarith [Real.add_one_le_exp u]) _
  have h3 := Real.abs_exp_sub_one_le (x := k * u) (by rw [abs_of_nonneg (by positivity)]; linarith)
  rw [abs_of_nonneg (show 0 ≤ (k : ℝ) * u by positivity)] at h3
  have := (abs_le.mp h3).2
  linarith

theorem sq_le_sum {xs : List ℝ} {x : ℝ} (hx : x ∈ xs) : x ^ 2 ≤ (xs.map (· ^ 2)).sum :=
  List.single_le_sum (by intro y hy; obtain ⟨z, -, rfl⟩ := List.mem_map.mp hy; exact sq_nonneg z) _ (List.mem_map.mpr ⟨x, hx, rfl⟩)

theorem sq_sum_nonneg (xs : List ℝ) : 0 ≤ (xs.map (· ^ 2)).sum :=
  List.sum_nonneg (by intro y hy; obtain ⟨z, -, rfl⟩ := List.mem_map.mp hy; exact sq_nonneg z)

/-- One radius. -/
theorem Spec.Accurate.radius (H : Accurate F u η) {sqrt : EReal → EReal} (Hs : AccurateRoot F sqrt u η) {t : List ℝ} {d k : Nat}
    (hd : t.length = d) {order : SumTree} (ho : order.leaves.Perm (List.range d)) (hk : order.depth ≤ k)
    (hku : (3 * k + 1) * u ≤ 1 / 4) {B : ℝ} (hB : Real.sqrt (t.map (· ^ 2)).sum ≤ B) (hη : d * η ≤ 1)
    (hF : 4 * (B + 1) ^ 2 ≤ F.maxFinite) :
    ∃ ρ : ℝ, (do let q ← flSquares F (coes t); let s ← flSumTree F q order; pure (sqrt s) : Py EReal) = .ok (ρ : EReal) ∧
      |ρ - Real.sqrt (t.map (· ^ 2)).sum| ≤ radiusError u η d k B := by
  have hu := H.u_nonneg
  have hη0 := H.η_nonneg
  have hS := sq_sum_nonneg t
  have hr0 := Real.sqrt_nonneg (t.map (· ^ 2)).sum
  have hB0 : 0 ≤ B := hr0.trans hB
  have hSB : (t.map (· ^ 2)).sum ≤ B ^ 2 := by
    have := Real.sq_sqrt hS
    nlinarith
  have hFB : 4 * B ^ 2 + 8 * B + 4 ≤ F.maxFinite := by nlinarith
  obtain ⟨ys, y1, y2⟩ := H.squares (xs := t) (fun x hx => by
    have := sq_le_sum hx
    nlinarith)
  obtain ⟨z1, z2, z3⟩ := squares_sum y2
  have hyl : ys.length = d := y2.length_eq.symm.trans hd
  have hku' : (k : ℝ) * u ≤ 1 / 12 := by nlinarith
  have hu4 : u ≤ 1 / 4 := by
    have : 0 ≤ (k : ℝ) * u := by positivity
    nlinarith
  have hpow := pow_le_linear hu hk (by linarith)
  have e1 : leafSum (ys.map (|·|)) order = ys.sum := by rw [← z3]; exact leafSum_eq (by simpa [hyl] using ho)
  have e2 : leafSum ys order = ys.sum := leafSum_eq (by simpa [hyl] using ho)
  set S := (t.map (· ^ 2)).sum with hSdef
  rw [hd] at z1
  obtain ⟨z4, z5⟩ := abs_le.mp z1
  have hyS : ys.sum ≤ 2 * S + 1 := by nlinarith
  obtain ⟨s, s1, -, s3⟩ := H.sumTree (xs := ys) (by
    intro y hy
    obtain ⟨x, -, hx⟩ := forall₂_mem_left (List.Forall₂.flip y2) hy
    exact hx.2.1) order (by
    rw [e1]
    have := mul_le_mul_of_nonneg_right hpow z2
    nlinarith)
  rw [e1, e2] at s3
  have s4 : |s - ys.sum| ≤ 2 * k * u * ys.sum := s3.trans (mul_le_mul_of_nonneg_right (by linarith) z2)
  have s0 : 0 ≤ s := by
    have := (abs_le.mp s4).1
    nlinarith
  have hdη : 0 ≤ (d : ℝ) * η := by positivity
  have hkuS : 0 ≤ (k : ℝ) * u * S := by positivity
  have s5 : |s - S| ≤ (3 * k + 1) * u * S + 2 * d * η := by
    have a1 : 2 * k * u * ys.sum ≤ 2 * k * u * ((1 + u) * S + d * η) := mul_le_mul_of_nonneg_left (by linarith) (by positivity)
    have a2 : (k : ℝ) * u * S * u ≤ k * u * S * (1 / 4) := mul_le_mul_of_nonneg_left hu4 hkuS
    have a3 : (k : ℝ) * u * (d * η) ≤ 1 / 12 * (d * η) := mul_le_mul_of_nonneg_right hku' hdη
    calc |s - S| = |(s - ys.sum) + (ys.sum - S)| := by congr 1; ring
      _ ≤ |s - ys.sum| + |ys.sum - S| := abs_add_le _ _
      _ ≤ 2 * k * u * ((1 + u) * S + d * η) + (u * S + d * η) := add_le_add (s4.trans a1) z1
      _ ≤ _ := by linarith
  have s6 := sqrt_error (by positivity) (by linarith) (show 0 ≤ 2 * (d : ℝ) * η by linarith) hS s5
  have hb0 := Real.sqrt_nonneg (2 * (d : ℝ) * η)
  have hb2 : Real.sqrt (2 * (d : ℝ) * η) ≤ 2 := by
    apply Real.sqrt_le_iff.mpr
    constructor <;> linarith
  have hss : Real.sqrt s ≤ 2 * Real.sqrt S + Real.sqrt (2 * d * η) := by
    have := (abs_le.mp s6).2
    have : (3 * k + 1) * u * Real.sqrt S ≤ 1 / 4 * Real.sqrt S := mul_le_mul_of_nonneg_right hku hr0
    linarith
  obtain ⟨ρ, hρ, hρ2⟩ := Hs s s0 (by nlinarith)
  refine ⟨ρ, ?_, ?_⟩
  · rw [y1, Py.ok_bind, s1, Py.ok_bind, hρ]
    rfl
  · unfold radiusError
    have a1 : u * Real.sqrt s ≤ u * (2 * Real.sqrt S + Real.sqrt (2 * d * η)) := mul_le_mul_of_nonneg_left hss hu
    have a2 : u * Real.sqrt (2 * d * η) ≤ 1 * Real.sqrt (2 * d * η) := mul_le_mul_of_nonneg_right (by linarith) hb0
    have a3 : (3 * k + 3) * u * Real.sqrt S ≤ (3 * k + 3) * u * B := mul_le_mul_of_nonneg_left hB (by positivity)
    have a4 : 0 ≤ (k : ℝ) * u * B := by positivity
    calc |ρ - Real.sqrt S| = |(ρ - Real.sqrt s) + (Real.sqrt s - Real.sqrt S)| := by congr 1; ring
      _ ≤ |ρ - Real.sqrt s| + |Real.sqrt s - Real.sqrt S| := abs_add_le _ _
      _ ≤ (u * (2 * Real.sqrt S + Real.sqrt (2 * d * η)) + η) + ((3 * k + 1) * u * Real.sqrt S + Real.sqrt (2 * d * η)) :=
        add_le_add (hρ2.trans (by linarith)) s6
      _ ≤ _ := by linarith

/-- The rows of a table of floats. -/
def coeRows (theta : List (List ℝ)) : List (List EReal) := theta.map coes

/-- All radii. -/
theorem Spec.Accurate.radii (H : Accurate F u η) {sqrt : EReal → EReal} (Hs : AccurateRoot F sqrt u η) {theta : List (List ℝ)}
    {d k : Nat} (hd : ∀ t ∈ theta, t.length = d) {order : SumTree} (ho : order.leaves.Perm (List.range d)) (hk : order.depth ≤ k)
    (hku : (3 * k + 1) * u ≤ 1 / 4) {B : ℝ} (hB : ∀ t ∈ theta, Real.sqrt (t.map (· ^ 2)).sum ≤ B) (hη : d * η ≤ 1)
    (hF : 4 * (B + 1) ^ 2 ≤ F.maxFinite) :
    ∃ ρs : List ℝ, flRadii F sqrt order (coeRows theta) = .ok (coes ρs) ∧
      Within (radiusError u η d k B) ρs (Nestcheck.radii theta) := by
  induction theta with
  | nil => exact ⟨[], rfl, .nil⟩
  | cons t theta ih =>
    obtain ⟨ρs, h1, h2⟩ := ih (fun t ht => hd t (by simp [ht])) (fun t ht => hB t (by simp [ht]))
    obtain ⟨ρ, h3, h4⟩ := H.radius Hs (hd t (by simp)) ho hk hku (hB t (by simp)) hη hF
    refine ⟨ρ :: ρs, ?_, .cons h4 h2⟩
    unfold flRadii at h1 ⊢
    simp only [coeRows, List.map_cons] at h1 ⊢
    rw [pyMap, h3, Py.ok_bind, h1]
    rfl

/-! ### Normalised weights -/

/-- Quotients of the weights by their sum, and the products with values of size up to `T`. -/
theorem Spec.Accurate.normalisedProducts (H : Accurate F u η) {m D T t : ℝ} {lws ws ys : List ℝ} (hw : RelWeights F u η m D lws ws)
    (hy : ∀ y ∈ ys, |y| ≤ T) (hl : lws.length = ys.length) (ht : 1 / 2 ≤ t) (hF : 3 * (T + 1) ≤ F.maxFinite) (hu1 : u ≤ 1 / 5)
    (hη1 : η ≤ 1 / 12) (ha1 : 3 * u + 2 * (u * D + η) ≤ 1) :
    ∃ vs ps : List ℝ, pyMap (fun a => flQuot F a (t : EReal)) (coes ws) = .ok (coes vs) ∧ vs.length = ws.length ∧
      pyMap (fun a : EReal × EReal => flMul F a.1 a.2) ((coes vs).zip (coes ys)) = .ok (coes ps) ∧
      (∀ p ∈ ps, F.rnd (p : EReal) = (p : EReal)) ∧
      List.Forall₂ (fun (p : ℝ × ℝ) z => |z - p.1 * p.2| ≤ T * (9 * u + 2 * (u * D + η)) * p.1 + (6 * T + 1) * η)
        ((lws.map (fun x => Real.exp (x - m) / t)).zip ys) ps := by
  have hu := H.u_nonneg
  have hη := H.η_nonneg
  have t0 : 0 < t := by linarith
  have hti : 1 / t ≤ 2 := by rw [div_le_iff₀ t0]; linarith
  have hti0 : 0 < 1 / t := by positivity
  unfold RelWeights at hw
  induction hw generalizing ys with
  | nil => exact ⟨[], [], rfl, rfl, rfl, by simp, by simp⟩
  | @cons lw w lws ws hab _ ih =>
    cases ys with
    | nil => simp at hl
    | cons y ys =>
      obtain ⟨vs, ps, hvs, hvl, hps, hf, hr⟩ := ih (ys := ys) (fun y hy' => hy y (by simp [hy'])) (by simpa using hl)
      obtain ⟨w0, w1, -, -, we⟩ := hab
      have hy0 := hy y (by simp)
      have hT0 : 0 ≤ T := (abs_nonneg _).trans hy0
      have hwt0 : 0 ≤ w / t := by positivity
      have hwt2 : w / t ≤ 2 := by rw [div_eq_mul_one_div]; nlinarith
      obtain ⟨v, hv, hv2⟩ := H.round (w / t) (by rw [abs_of_nonneg hwt0]; linarith)
      rw [abs_of_nonneg hwt0] at hv2
      have hv0 : 0 ≤ v := rnd_nonneg hwt0 hv
      have hv3 : v ≤ 3 := by
        have := (abs_le.mp hv2).2
        nlinarith
      have hvy : |v * y| ≤ v * T := by rw [abs_mul, abs_of_nonneg hv0]; exact mul_le_mul_of_nonneg_left hy0 hv0
      obtain ⟨p, hp, hp2⟩ := H.round (v * y) (by nlinarith)
      have ht0 : (t : EReal) ≠ 0 := by exact_mod_cast t0.ne'
      have hquot : flQuot F (w : EReal) (t : EReal) = .ok (v : EReal) := by
        unfold flQuot
        rw [if_neg (by simp [ht0]), if_neg ht0, ← EReal.coe_div, hv]
      have hmul : flMul F (v : EReal) (y : EReal) = .ok (p : EReal) := by
        unfold flMul
        rw [if_neg (by simp), ← EReal.coe_mul, hp]
      refine ⟨v :: vs, p :: ps, ?_, by simp [hvl], ?_, ?_, ?_⟩
      · simp only [coes, List.map_cons] at hvs ⊢
        rw [pyMap]
        simp only [hquot, Py.ok_bind]
        rw [hvs]
        rfl
      · simp only [coes, List.map_cons, List.zip_cons_cons] at hps ⊢
        rw [pyMap]
        simp only [hmul, Py.ok_bind]
        rw [hps]
        rfl
      · intro q hq
        rcases List.mem_cons.mp hq with rfl | hq
        · rw [← hp]; exact F.rnd_idem _
        · exact hf q hq
      · simp only [List.map_cons, List.zip_cons_cons]
        refine .cons ?_ hr
        set e := Real.exp (lw - m)
        have he : 0 < e := Real.exp_pos _
        set a := 3 * u + 2 * (u * D + η) with haa
        set x := e / t with hx
        have hx0 : 0 < x := by positivity
        have h1 : |w / t - x| ≤ a * x + 2 * η := by
          rw [hx, ← sub_div, abs_div, abs_of_pos t0, div_eq_mul_one_div, div_eq_mul_one_div e]
          have := mul_le_mul_of_nonneg_right we hti0.le
          nlinarith
        have h2 : w / t ≤ 2 * x + 2 * η := by
          have := (abs_le.mp h1).2
          nlinarith
        have h3 : v ≤ 6 / 5 * (w / t) + η := by
          have := (abs_le.mp hv2).2
          nlinarith
        have h4 : |v - x| ≤ u * (2 * x + 2 * η) + η + (a * x + 2 * η) := by
          rw [show v - x = (v - w / t) + (w / t - x) by ring]
          refine (abs_add_le _ _).trans ?_
          have := mul_le_mul_of_nonneg_left h2 hu
          linarith
        have h5 : |v * y - x * y| ≤ (u * (2 * x + 2 * η) + η + (a * x + 2 * η)) * T := by
          rw [← sub_mul, abs_mul]
          exact mul_le_mul h4 hy0 (abs_nonneg _) ((abs_nonneg _).trans h4)
        have h6 : u * |v * y| ≤ u * ((6 / 5 * (2 * x + 2 * η) + η) * T) := mul_le_mul_of_nonneg_left
          (hvy.trans (mul_le_mul_of_nonneg_right (by linarith) hT0)) hu
        have h7 : u * (η * T) ≤ 1 / 5 * (η * T) := mul_le_mul_of_nonneg_right hu1 (mul_nonneg hη hT0)
        have h8 : 0 ≤ u * x * T := by positivity
        have h9 : 0 ≤ η * T := by positivity
        calc |p - x * y| = |(p - v * y) + (v * y - x * y)| := by congr 1; ring
          _ ≤ |p - v * y| + |v * y - x * y| := abs_add_le _ _
          _ ≤ (u * ((6 / 5 * (2 * x + 2 * η) + η) * T) + η) + (u * (2 * x + 2 * η) + η + (a * x + 2 * η)) * T := by linarith
          _ ≤ T * (9 * u + 2 * (u * D + η)) * x + (6 * T + 1) * η := by
            rw [haa]
            linarith

theorem normalised_total {q p b c x y T κ : ℝ} (hT : 0 ≤ T) (hκ : 0 ≤ κ) (h1 : |q - p| ≤ (5 * T + 1) * κ / 2) (h2 : |p - b| ≤ x + y)
    (h3 : x ≤ 18 / 5 * (T * κ)) (h4 : y ≤ T * κ + κ / 6) (h5 : |b - c| ≤ 2 * (T * κ)) : |q - c| ≤ 5 * (2 * T + 1) * κ := by
  have hTκ := mul_nonneg hT hκ
  calc |q - c| = |(q - p) + (p - b) + (b - c)| := by congr 1; ring
    _ ≤ |q - p| + |p - b| + |b - c| := abs_add_three _ _ _
    _ ≤ 5 * (2 * T + 1) * κ := by linarith

/-- The weighted sum of values of size up to `T` with normalised weights. -/
theorem Spec.Accurate.normalisedMean (H : Accurate F u η) {lws ys : List ℝ} {m D T : ℝ} {h : Nat} (hm : amax lws = some m)
    (hD : ∀ x ∈ lws, m - x ≤ D) (hh : (F.tree lws.length).depth ≤ h) (hk : weightError u η h lws.length D ≤ 1 / 2)
    (hy : ∀ y ∈ ys, |y| ≤ T) (hl : lws.length = ys.length) (hF : D + 16 * (T + 1) * lws.length ≤ F.maxFinite) :
    ∃ (ws vs ps : List ℝ) (t q : ℝ), flRelWeights F (coes lws) = .ok (coes ws) ∧ Nestcheck.flSum F (coes ws) = .ok (t : EReal) ∧
      pyMap (fun a => flQuot F a (t : EReal)) (coes ws) = .ok (coes vs) ∧ vs.length = ys.length ∧
      pyMap (fun a : EReal × EReal => flMul F a.1 a.2) ((coes vs).zip (coes ys)) = .ok (coes ps) ∧
      Nestcheck.flSum F (coes ps) = .ok (q : EReal) ∧
      |q - mean (lws.map (fun x => Real.exp (x - m))) ys| ≤ 5 * (2 * T + 1) * weightError u η h lws.length D := by
  have hu := H.u_nonneg
  have hη := H.η_nonneg
  obtain ⟨hmem, hmax⟩ := amax_eq_some.mp hm
  have hD0 : 0 ≤ D := by have := hD m hmem; linarith
  have hne : lws ≠ [] := List.ne_nil_of_mem hmem
  have hNn : 1 ≤ lws.length := List.length_pos_iff.mpr hne
  have hN : (1 : ℝ) ≤ lws.length := by exact_mod_cast hNn
  have hT0 : 0 ≤ T := by
    cases ys with
    | nil => simp at hl; exact absurd hl hne
    | cons x xs => exact (abs_nonneg _).trans (hy x (by simp))
  have hTN : T + 1 ≤ (T + 1) * lws.length := le_mul_of_one_le_right (by linarith) hN
  have hTN' : (lws.length : ℝ) ≤ (T + 1) * lws.length := le_mul_of_one_le_left (by linarith) (by linarith)
  have hF' : D + 16 * ((T + 1) * lws.length) ≤ F.maxFinite := by linarith
  obtain ⟨k1, k2, k3, k4, k5, k6⟩ := small_error rfl hu hη hD0 hNn hk
  have huD : 0 ≤ u * D := mul_nonneg hu hD0
  have hNη : η ≤ lws.length * η := le_mul_of_one_le_left hη hN
  have hhu : 0 ≤ (h : ℝ) * u := by positivity
  have hκ : weightError u η h lws.length D = 4 * (h * u) + 2 * (u * D) + 5 * u + 6 * (lws.length * η) := by
    unfold weightError; ring
  obtain ⟨S1, SN⟩ := totalWeight_bounds hm
  obtain ⟨ws, hws, hr⟩ := H.expSubs hmax hD (by linarith) k1
  have hlen : ws.length = lws.length := (List.Forall₂.length_eq hr).symm
  obtain ⟨t, ht, ht2⟩ := H.weightSum hm hD0 hr hh hk (by linarith)
  set κ := weightError u η h lws.length D
  set S := totalWeight m lws with hS
  have tS : S / 2 ≤ t := by
    have := (abs_le.mp ht2).1
    nlinarith
  have t0 : 0 < t := by linarith
  obtain ⟨vs, ps, hvs, hvl, hps, hpf, hpr⟩ := H.normalisedProducts (t := t) hr hy hl (by linarith) (by linarith)
    (by linarith) (by linarith) (by linarith)
  have hplen : ps.length = lws.length := by
    have := List.Forall₂.length_eq hpr
    simp only [List.length_zip, List.length_map, ← hl, min_self] at this
    exact this.symm
  have hpne : ps ≠ [] := by rw [← List.length_pos_iff, hplen]; exact List.length_pos_iff.mpr hne
  have hepos : ∀ w ∈ lws.map (fun x => Real.exp (x - m) / t), 0 ≤ w := by
    intro y hy; obtain ⟨x, -, rfl⟩ := List.mem_map.mp hy; positivity
  have hl' : (lws.map (fun x => Real.exp (x - m) / t)).length = ys.length := by rw [List.length_map]; exact hl
  have e1 := sum_error hpr hl'
  have e2 := sum_abs_error hpr hepos hy hl'
  have e3 : |(List.zipWith (· * ·) (lws.map (fun x => Real.exp (x - m))) ys).sum| ≤ T * S := abs_dot_le (by
    intro y hy; obtain ⟨x, -, rfl⟩ := List.mem_map.mp hy; exact (Real.exp_pos _).le) hy (by rw [List.length_map]; exact hl)
  have e4 : (lws.map (fun x => Real.exp (x - m) / t)).sum = S / t := by
    rw [hS]; unfold totalWeight
    simp only [div_eq_mul_inv]
    rw [List.sum_map_mul_right]
  have e5 : (List.zipWith (· * ·) (lws.map (fun x => Real.exp (x - m) / t)) ys).sum =
      (List.zipWith (· * ·) (lws.map (fun x => Real.exp (x - m))) ys).sum / t := by
    clear * -
    induction lws generalizing ys with
    | nil => simp
    | cons l ls ih =>
      cases ys with
      | nil => simp
      | cons y ys =>
        simp only [List.map_cons, List.zipWith_cons_cons, List.sum_cons, ih]
        ring
  set n := (List.zipWith (· * ·) (lws.map (fun x => Real.exp (x - m))) ys).sum
  rw [List.length_map, e4] at e1 e2
  rw [e5] at e1
  set G := 9 * u + 2 * (u * D + η) with hG
  set N : ℝ := (lws.length : ℝ)
  have St : S / t ≤ 2 := by rw [div_le_iff₀ t0]; linarith
  have St0 : 0 ≤ S / t := by positivity
  have hG0 : 0 ≤ G := by rw [hG]; linarith
  have hG1 : G ≤ 9 / 5 * κ := by rw [hG, hκ]; linarith
  have hG2 : G ≤ 9 / 10 := by linarith
  have g1 : T * G * (S / t) ≤ 18 / 5 * (T * κ) := by
    have a1 := mul_le_mul_of_nonneg_left St (mul_nonneg hT0 hG0)
    have a2 := mul_le_mul_of_nonneg_left hG1 hT0
    linarith
  have g2 : N * ((6 * T + 1) * η) ≤ T * κ + κ / 6 := by
    have a1 : N * η ≤ κ / 6 := by rw [hκ]; linarith
    have a2 := mul_le_mul_of_nonneg_left a1 (show 0 ≤ 6 * T + 1 by linarith)
    linarith
  have hκ2 : T * κ ≤ T / 2 := by
    have := mul_le_mul_of_nonneg_left hk hT0
    linarith
  have g3 : (ps.map (|·|)).sum ≤ 5 * T + 1 := by
    have a1 := mul_le_mul_of_nonneg_left St hT0
    linarith
  obtain ⟨q, hq, hq2⟩ := H.flSum (h := h) hpne hpf (by rw [hplen]; exact hh) (by linarith) (by linarith)
  refine ⟨ws, vs, ps, t, q, ?_, ht, hvs, by rw [hvl, hlen, hl], hps, hq, ?_⟩
  · unfold flRelWeights
    rw [exact_amax hm]
    exact hws
  · unfold mean
    change |q - n / S| ≤ _
    have S0 : 0 < S := by linarith
    have g4 : |n / t - n / S| ≤ 2 * (T * κ) := by
      have : n / t - n / S = n / S * ((S - t) / t) := by field_simp
      rw [this, abs_mul, abs_div, abs_div, abs_of_pos S0, abs_of_pos t0, abs_sub_comm S t]
      have a1 : |n| / S ≤ T := by rw [div_le_iff₀ S0]; exact e3
      have a2 : |t - S| / t ≤ 2 * κ := by
        rw [div_le_iff₀ t0]
        nlinarith
      calc |n| / S * (|t - S| / t) ≤ T * (2 * κ) := mul_le_mul a1 a2 (by positivity) hT0
        _ = _ := by ring
    have g5 : 2 * h * u * (ps.map (|·|)).sum ≤ (5 * T + 1) * κ / 2 := by
      have a1 := mul_le_mul_of_nonneg_left g3 (show 0 ≤ 2 * (h : ℝ) * u by positivity)
      have a2 : 2 * (h : ℝ) * u ≤ κ / 2 := by rw [hκ]; linarith
      have a3 := mul_le_mul_of_nonneg_right a2 (show 0 ≤ 5 * T + 1 by linarith)
      linarith
    exact normalised_total hT0 k6 (hq2.trans g5) e1 g1 g2 g4

end
end Nestcheck
