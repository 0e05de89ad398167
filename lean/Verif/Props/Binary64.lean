import Mathlib.Data.Int.Log
import Verif.Props.Accuracy

/-
C84: IEEE 754 binary floating point arithmetic meets the assumptions of C79 and C84.
-/

namespace Nestcheck
open Spec
noncomputable section

/-! ### Rounding to the nearest integer -/

/-- The nearest integer, the even one if there are two. -/
def roundEven (x : ℝ) : ℤ :=
  if Int.fract x < 1 / 2 then ⌊x⌋ else if 1 / 2 < Int.fract x then ⌊x⌋ + 1 else if Even ⌊x⌋ then ⌊x⌋ else ⌊x⌋ + 1

theorem roundEven_cases (x : ℝ) : roundEven x = ⌊x⌋ ∧ Int.fract x ≤ 1 / 2 ∨ roundEven x = ⌊x⌋ + 1 ∧ 1 / 2 ≤ Int.fract x := by
  unfold roundEven
  split_ifs with h1 h2 h3
  · exact .inl ⟨rfl, h1.le⟩
  · exact .inr ⟨rfl, h2.le⟩
  · exact .inl ⟨rfl, not_lt.mp h2⟩
  · exact .inr ⟨rfl, not_lt.mp h1⟩

theorem roundEven_close (x : ℝ) : |(roundEven x : ℝ) - x| ≤ 1 / 2 := by
  have h := Int.floor_add_fract x
  have h1 := Int.fract_nonneg x
  have h2 := Int.fract_lt_one x
  rw [abs_le]
  rcases roundEven_cases x with ⟨e, hf⟩ | ⟨e, hf⟩ <;> rw [e]
  · constructor <;> linarith
  · push_cast
    constructor <;> linarith

theorem roundEven_int (k : ℤ) : roundEven k = k := by
  unfold roundEven
  rw [Int.fract_intCast, if_pos (by norm_num), Int.floor_intCast]

theorem roundEven_mono : Monotone roundEven := by
  intro x y hxy
  have hf := Int.floor_mono hxy
  rcases lt_or_eq_of_le hf with h | h
  · have h1 : roundEven x ≤ ⌊x⌋ + 1 := by rcases roundEven_cases x with ⟨e, -⟩ | ⟨e, -⟩ <;> omega
    have h2 : ⌊y⌋ ≤ roundEven y := by rcases roundEven_cases y with ⟨e, -⟩ | ⟨e, -⟩ <;> omega
    omega
  · have hfr : Int.fract x ≤ Int.fract y := by
      unfold Int.fract
      rw [h]
      linarith
    unfold roundEven
    rw [← h]
    split_ifs with h1 h2 h3 h4 h5 h6 h7 <;> first | omega | (exfalso; linarith)

/-! ### Binary formats -/

section
variable (p : ℕ) (m : ℤ)

/-- The exponent of the last place of numbers like `x`: significands have `p + 1` bits, and exponents are at least `m`. -/
def lastPlace (x : ℝ) : ℤ := max (Int.log 2 |x| - p) m

/-- `x` rounded to the nearest number of the format, if exponents were not bounded above. -/
def roundBinary (x : ℝ) : ℝ := roundEven (x / 2 ^ lastPlace p m x) * 2 ^ lastPlace p m x

/-- Numbers of the format. -/
def Representable (x : ℝ) : Prop := ∃ k j : ℤ, |k| ≤ 2 ^ (p + 1) ∧ m ≤ j ∧ x = k * 2 ^ j

variable {p m}

theorem two_zpow_pos (j : ℤ) : (0 : ℝ) < 2 ^ j := zpow_pos two_pos j

theorem lt_two_zpow_log {x : ℝ} : |x| < 2 ^ (Int.log 2 |x| + 1) := by
  have := Int.lt_zpow_succ_log_self (b := 2) (by norm_num) |x|
  exact_mod_cast this

theorem two_zpow_log_le {x : ℝ} (h : x ≠ 0) : (2 : ℝ) ^ Int.log 2 |x| ≤ |x| := by
  have := Int.zpow_log_le_self (b := 2) (r := |x|) (by norm_num) (abs_pos.mpr h)
  exact_mod_cast this

/-- Powers of two are multiples of smaller ones. -/
theorem two_zpow_mul {i j : ℤ} (h : i ≤ j) : ∃ n : ℕ, (2 : ℝ) ^ j = ((2 ^ n : ℤ) : ℝ) * 2 ^ i := by
  refine ⟨(j - i).toNat, ?_⟩
  push_cast
  rw [← zpow_natCast, Int.toNat_of_nonneg (by omega), ← zpow_add₀ (by norm_num)]
  congr 1
  omega

theorem roundBinary_close (x : ℝ) : |roundBinary p m x - x| ≤ 2 ^ lastPlace p m x / 2 := by
  have h := two_zpow_pos (lastPlace p m x)
  have h1 : roundBinary p m x - x = (roundEven (x / 2 ^ lastPlace p m x) - x / 2 ^ lastPlace p m x) * 2 ^ lastPlace p m x := by
    unfold roundBinary
    rw [sub_mul, div_mul_cancel₀ _ h.ne']
  rw [h1, abs_mul, abs_of_pos h]
  have := mul_le_mul_of_nonneg_right (roundEven_close (x / 2 ^ lastPlace p m x)) h.le
  linarith

/-- Multiples of the last place are not changed. -/
theorem roundBinary_multiple {x : ℝ} {k : ℤ} (h : x = k * 2 ^ lastPlace p m x) : roundBinary p m x = x := by
  have h0 := two_zpow_pos (lastPlace p m x)
  have h1 : x / 2 ^ lastPlace p m x = k := by rw [div_eq_iff h0.ne']; exact h
  unfold roundBinary
  rw [h1, roundEven_int]
  exact h.symm

theorem roundBinary_zero : roundBinary p m 0 = 0 := roundBinary_multiple (k := 0) (by simp)

theorem multiple_of_le {x : ℝ} {k i j : ℤ} (h : x = k * 2 ^ j) (hij : i ≤ j) : ∃ l : ℤ, x = l * 2 ^ i := by
  obtain ⟨n, hn⟩ := two_zpow_mul hij
  refine ⟨k * 2 ^ n, ?_⟩
  rw [h, hn]
  push_cast
  ring

theorem Representable.round {x : ℝ} (h : Representable p m x) : roundBinary p m x = x := by
  by_cases hx : x = 0
  · rw [hx]; exact roundBinary_zero
  obtain ⟨k, j, hk, hj, he⟩ := h
  suffices hs : ∃ l : ℤ, x = l * 2 ^ lastPlace p m x by
    obtain ⟨l, hl⟩ := hs
    exact roundBinary_multiple hl
  have hj0 := two_zpow_pos j
  have hxk : |x| = |(k : ℝ)| * 2 ^ j := by rw [he, abs_mul, abs_of_pos hj0]
  have hlow := two_zpow_log_le hx
  rcases lt_or_eq_of_le hk with hk | hk
  · -- the exponent of the last place is at most `j`
    apply multiple_of_le he
    unfold lastPlace
    apply max_le _ hj
    have h1 : |x| < 2 ^ (((p + 1 : ℕ) : ℤ) + j) := by
      rw [hxk, zpow_add₀ (by norm_num), zpow_natCast]
      apply mul_lt_mul_of_pos_right _ hj0
      exact_mod_cast hk
    have h2 := (zpow_lt_zpow_iff_right₀ (by norm_num : (1 : ℝ) < 2)).mp (hlow.trans_lt h1)
    push_cast at h2
    omega
  · -- a power of two
    have h1 : |x| = 2 ^ (((p + 1 : ℕ) : ℤ) + j) := by
      rw [hxk, zpow_add₀ (by norm_num), zpow_natCast]
      congr 1
      exact_mod_cast hk
    have h2 : Int.log 2 |x| = ((p + 1 : ℕ) : ℤ) + j := by
      rw [h1]
      have := Int.log_zpow (R := ℝ) (b := 2) (by norm_num) (((p + 1 : ℕ) : ℤ) + j)
      exact_mod_cast this
    have h3 : lastPlace p m x ≤ j + 1 := by
      unfold lastPlace
      rw [h2]
      push_cast
      apply max_le <;> omega
    have hs : ∃ l : ℤ, k = l * 2 := by
      have h2k : (2 : ℤ) ∣ |k| := by rw [hk, pow_succ]; exact Dvd.intro_left _ rfl
      obtain ⟨l, hl⟩ := (dvd_abs _ _).mp h2k
      exact ⟨l, by rw [hl]; ring⟩
    obtain ⟨l, rfl⟩ := hs
    apply multiple_of_le (k := l) (j := j + 1) _ h3
    rw [he, zpow_add₀ (by norm_num)]
    push_cast
    ring

theorem representable_round (x : ℝ) : Representable p m (roundBinary p m x) := by
  refine ⟨roundEven (x / 2 ^ lastPlace p m x), lastPlace p m x, ?_, le_max_right _ _, rfl⟩
  have h0 := two_zpow_pos (lastPlace p m x)
  have h1 : |x / 2 ^ lastPlace p m x| ≤ ((2 ^ (p + 1) : ℤ) : ℝ) := by
    rw [abs_div, abs_of_pos h0, div_le_iff₀ h0]
    push_cast
    rw [← zpow_natCast, ← zpow_add₀ (by norm_num)]
    refine (lt_two_zpow_log (x := x)).le.trans ?_
    apply zpow_le_zpow_right₀ (by norm_num)
    have : Int.log 2 |x| - p ≤ lastPlace p m x := le_max_left _ _
    push_cast
    omega
  rw [abs_le] at h1 ⊢
  have a := roundEven_mono h1.2
  have b := roundEven_mono h1.1
  rw [roundEven_int] at a
  rw [← Int.cast_neg, roundEven_int] at b
  exact ⟨b, a⟩

theorem Representable.neg {x : ℝ} (h : Representable p m x) : Representable p m (-x) := by
  obtain ⟨k, j, hk, hj, he⟩ := h
  exact ⟨-k, j, by rwa [abs_neg], hj, by rw [he]; push_cast; ring⟩

theorem representable_zpow {j : ℤ} (h : m ≤ j) : Representable p m (2 ^ j) := by
  refine ⟨1, j, ?_, h, by simp⟩
  rw [abs_one]
  exact one_le_pow₀ (by norm_num)

theorem representable_int (hm : m ≤ 0) {k : ℤ} (h : |k| ≤ 2 ^ (p + 1)) : Representable p m (k : ℝ) := ⟨k, 0, h, hm, by simp⟩

/-- Monotone as long as the last place does not change. -/
theorem roundBinary_grid {x P : ℝ} {i : ℤ} (hi : lastPlace p m x ≤ i) {k : ℤ} (hP : P = k * 2 ^ i) :
    (x ≤ P → roundBinary p m x ≤ P) ∧ (P ≤ x → P ≤ roundBinary p m x) := by
  have h0 := two_zpow_pos (lastPlace p m x)
  obtain ⟨l, hl⟩ := multiple_of_le hP hi
  have e : P / 2 ^ lastPlace p m x = l := by rw [div_eq_iff h0.ne']; exact hl
  constructor
  · intro h
    have h1 := roundEven_mono ((div_le_div_iff_of_pos_right h0).mpr h)
    rw [e, roundEven_int] at h1
    unfold roundBinary
    rw [hl]
    exact mul_le_mul_of_nonneg_right (by exact_mod_cast h1) h0.le
  · intro h
    have h1 := roundEven_mono ((div_le_div_iff_of_pos_right h0).mpr h)
    rw [e, roundEven_int] at h1
    unfold roundBinary
    rw [hl]
    exact mul_le_mul_of_nonneg_right (by exact_mod_cast h1) h0.le

theorem roundBinary_sign (x : ℝ) : (x ≤ 0 → roundBinary p m x ≤ 0) ∧ (0 ≤ x → 0 ≤ roundBinary p m x) :=
  roundBinary_grid le_rfl (k := 0) (by simp)

theorem lastPlace_abs {x y : ℝ} (hx : x ≠ 0) (h : |x| ≤ |y|) : lastPlace p m x ≤ lastPlace p m y := by
  unfold lastPlace
  have := Int.log_mono_right (b := 2) (abs_pos.mpr hx) h
  exact max_le_max (by omega) le_rfl

/-- If numbers have different last places, there is a power of two between them. -/
theorem between {x y : ℝ} (hy : y ≠ 0) (h : lastPlace p m x < lastPlace p m y) :
    ∃ i : ℤ, |x| ≤ 2 ^ i ∧ 2 ^ i ≤ |y| ∧ lastPlace p m y ≤ i := by
  have hm : m ≤ lastPlace p m x := le_max_right _ _
  have e : lastPlace p m y = Int.log 2 |y| - p := by
    unfold lastPlace at h hm ⊢
    rcases max_choice (Int.log 2 |y| - p) m with e | e
    · exact e
    · rw [e] at h; omega
  refine ⟨Int.log 2 |y|, ?_, two_zpow_log_le hy, by rw [e]; omega⟩
  refine (lt_two_zpow_log (x := x)).le.trans ?_
  apply zpow_le_zpow_right₀ (by norm_num)
  have : Int.log 2 |x| - p ≤ lastPlace p m x := le_max_left _ _
  omega

theorem roundBinary_mono : Monotone (roundBinary p m) := by
  intro x y hxy
  by_cases hx : x = 0
  · subst hx; rw [roundBinary_zero]; exact (roundBinary_sign y).2 hxy
  by_cases hy : y = 0
  · subst hy; rw [roundBinary_zero]; exact (roundBinary_sign x).1 hxy
  rcases lt_trichotomy (lastPlace p m x) (lastPlace p m y) with h | h | h
  · obtain ⟨i, h1, h2, h3⟩ := between hy h
    have hy0 : 0 < y := by
      by_contra hc
      have : |y| ≤ |x| := by rw [abs_of_nonpos (not_lt.mp hc), abs_of_nonpos (hxy.trans (not_lt.mp hc))]; linarith
      have := lastPlace_abs (p := p) (m := m) hy this
      omega
    rw [abs_of_pos hy0] at h2
    exact ((roundBinary_grid (h.le.trans h3) (k := 1) (P := 2 ^ i) (by simp)).1 ((le_abs_self x).trans h1)).trans
      ((roundBinary_grid h3 (k := 1) (P := 2 ^ i) (by simp)).2 h2)
  · unfold roundBinary
    rw [← h]
    have h0 := two_zpow_pos (lastPlace p m x)
    apply mul_le_mul_of_nonneg_right _ h0.le
    exact_mod_cast roundEven_mono ((div_le_div_iff_of_pos_right h0).mpr hxy)
  · obtain ⟨i, h1, h2, h3⟩ := between hx h
    have hx0 : x < 0 := by
      by_contra hc
      have : |x| ≤ |y| := by rw [abs_of_nonneg (not_lt.mp hc), abs_of_nonneg ((not_lt.mp hc).trans hxy)]; linarith
      have := lastPlace_abs (p := p) (m := m) hx this
      omega
    rw [abs_of_neg hx0] at h2
    exact ((roundBinary_grid h3 (k := -1) (P := -2 ^ i) (by simp)).1 (by linarith)).trans
      ((roundBinary_grid (h.le.trans h3) (k := -1) (P := -2 ^ i) (by simp)).2 (by linarith [neg_abs_le y]))

/-- Half a unit in the last place. -/
theorem roundBinary_error (x : ℝ) :
    |roundBinary p m x - x| ≤ 2 ^ (-((p : ℤ) + 1)) * |x| + 2 ^ (m - 1) ∧
      (lastPlace p m x ≠ m → |roundBinary p m x - x| ≤ 2 ^ (-((p : ℤ) + 1)) * |x|) := by
  by_cases hx : x = 0
  · subst hx
    rw [roundBinary_zero]
    have := two_zpow_pos (m - 1)
    simp [this.le]
  have hc := roundBinary_close (p := p) (m := m) x
  have hlow := two_zpow_log_le hx
  have key : lastPlace p m x ≠ m → |roundBinary p m x - x| ≤ 2 ^ (-((p : ℤ) + 1)) * |x| := by
    intro h
    have e : lastPlace p m x = Int.log 2 |x| - p := by
      unfold lastPlace at h ⊢
      rcases max_choice (Int.log 2 |x| - p) m with e | e
      · exact e
      · exact absurd e h
    refine hc.trans ?_
    have h1 : (2 : ℝ) ^ lastPlace p m x / 2 = 2 ^ (-((p : ℤ) + 1)) * 2 ^ Int.log 2 |x| := by
      rw [e, ← zpow_add₀ (by norm_num), div_eq_mul_inv, ← zpow_neg_one, ← zpow_add₀ (by norm_num)]
      congr 1
      ring
    rw [h1]
    exact mul_le_mul_of_nonneg_left hlow (two_zpow_pos _).le
  refine ⟨?_, key⟩
  by_cases h : lastPlace p m x = m
  · rw [h] at hc
    have h1 : (2 : ℝ) ^ m / 2 = 2 ^ (m - 1) := by rw [zpow_sub_one₀ (by norm_num)]; rfl
    rw [h1] at hc
    have := mul_nonneg (two_zpow_pos (-((p : ℤ) + 1))).le (abs_nonneg x)
    linarith
  · linarith [key h, two_zpow_pos (m - 1)]

/-- Sums of numbers of the format do not underflow. -/
theorem roundBinary_sum {x y : ℝ} (hx : roundBinary p m x = x) (hy : roundBinary p m y = y) :
    |roundBinary p m (x + y) - (x + y)| ≤ 2 ^ (-((p : ℤ) + 1)) * |x + y| := by
  by_cases h : lastPlace p m (x + y) = m
  · obtain ⟨k, hk⟩ := multiple_of_le (i := m) (x := x) (by rw [← hx]; rfl) (le_max_right _ _)
    obtain ⟨l, hl⟩ := multiple_of_le (i := m) (x := y) (by rw [← hy]; rfl) (le_max_right _ _)
    have e : roundBinary p m (x + y) = x + y := by
      apply roundBinary_multiple (k := k + l)
      rw [h]
      push_cast
      rw [add_mul, ← hk, ← hl]
    rw [e, sub_self, abs_zero]
    exact mul_nonneg (two_zpow_pos _).le (abs_nonneg _)
  · exact (roundBinary_error (x + y)).2 h

/-! ### Overflow -/

variable (p m) in
/-- Rounding to the nearest number of the format, with results of 2^`E` or more infinite. -/
def roundFormat (E : ℤ) (x : EReal) : EReal :=
  if x = ⊤ then ⊤ else if x = ⊥ then ⊥
  else if (2 : ℝ) ^ E ≤ roundBinary p m x.toReal then ⊤
  else if roundBinary p m x.toReal ≤ -(2 : ℝ) ^ E then ⊥
  else ((roundBinary p m x.toReal : ℝ) : EReal)

variable {E : ℤ}

theorem roundFormat_coe (x : ℝ) : roundFormat p m E x = if (2 : ℝ) ^ E ≤ roundBinary p m x then ⊤
    else if roundBinary p m x ≤ -(2 : ℝ) ^ E then ⊥ else ((roundBinary p m x : ℝ) : EReal) := by
  unfold roundFormat
  rw [if_neg (EReal.coe_ne_top x), if_neg (EReal.coe_ne_bot x), EReal.toReal_coe]

theorem roundFormat_of_lt {x : ℝ} (h : |roundBinary p m x| < 2 ^ E) : roundFormat p m E x = ((roundBinary p m x : ℝ) : EReal) := by
  obtain ⟨h1, h2⟩ := abs_lt.mp h
  rw [roundFormat_coe, if_neg (not_le.mpr h2), if_neg (not_le.mpr h1)]

theorem roundFormat_top : roundFormat p m E ⊤ = ⊤ := if_pos rfl

theorem roundFormat_bot : roundFormat p m E ⊥ = ⊥ := by
  unfold roundFormat
  rw [if_neg (by simp), if_pos rfl]

theorem roundFormat_cases (x : EReal) : roundFormat p m E x = ⊤ ∨ roundFormat p m E x = ⊥ ∨
    ∃ y : ℝ, x = y ∧ |roundBinary p m y| < 2 ^ E ∧ roundFormat p m E x = ((roundBinary p m y : ℝ) : EReal) := by
  induction x with
  | top => exact .inl roundFormat_top
  | bot => exact .inr (.inl roundFormat_bot)
  | coe y =>
    by_cases h1 : (2 : ℝ) ^ E ≤ roundBinary p m y
    · left; rw [roundFormat_coe, if_pos h1]
    · by_cases h2 : roundBinary p m y ≤ -(2 : ℝ) ^ E
      · right; left; rw [roundFormat_coe, if_neg h1, if_pos h2]
      · right; right
        have h := abs_lt.mpr ⟨not_le.mp h2, not_le.mp h1⟩
        exact ⟨y, rfl, h, roundFormat_of_lt h⟩

theorem roundFormat_mono : Monotone (roundFormat p m E) := by
  intro x y hxy
  induction x with
  | bot => rw [roundFormat_bot]; exact bot_le
  | top => rw [top_le_iff.mp hxy]
  | coe x =>
    induction y with
    | bot => exact absurd hxy (by simp)
    | top => rw [roundFormat_top]; exact le_top
    | coe y =>
      have h := roundBinary_mono (p := p) (m := m) (EReal.coe_le_coe_iff.mp hxy)
      have h0 := two_zpow_pos E
      rw [roundFormat_coe, roundFormat_coe]
      split_ifs with h1 h2 h3 h4 h5 h6 h7 <;>
        first | exact le_rfl | exact le_top | exact bot_le | exact EReal.coe_le_coe_iff.mpr h | (exfalso; linarith)

theorem roundFormat_representable {y : ℝ} (h : Representable p m y) (hE : |y| < 2 ^ E) : roundFormat p m E y = y := by
  rw [roundFormat_of_lt (by rw [h.round]; exact hE), h.round]

variable (p m E) in
/-- Arithmetic of a binary format: significands of `p + 1` bits, numbers from 2^`m` to below 2^`E`, sums in any order. -/
def binaryArith (hm : m ≤ 0) (hE : (p : ℤ) + 2 ≤ E) (hp : 1 ≤ p) (tree : ℕ → SumTree)
    (ht : ∀ n, n ≠ 0 → (tree n).leaves.Perm (List.range n)) : FloatArith :=
  { FloatArith.ofRound (roundFormat p m E) (2 ^ (p + 1)) (2 ^ (E - 1)) roundFormat_mono
      (fun x => by
        rcases roundFormat_cases (p := p) (m := m) (E := E) x with h | h | ⟨y, -, h1, h⟩ <;> rw [h]
        · exact roundFormat_top
        · exact roundFormat_bot
        · exact roundFormat_representable (representable_round y) h1)
      (fun x => by
        rcases roundFormat_cases (p := p) (m := m) (E := E) x with h | h | ⟨y, -, h1, h⟩ <;> rw [h]
        · exact roundFormat_bot
        · exact roundFormat_top
        · have := roundFormat_representable (E := E) (representable_round (p := p) (m := m) y).neg (by rwa [abs_neg])
          exact_mod_cast this)
      (fun k hk => by
        have hk' : |k| ≤ 2 ^ (p + 1) := by exact_mod_cast hk
        apply roundFormat_representable (representable_int hm hk')
        have h1 : |(k : ℝ)| ≤ 2 ^ (p + 1) := by exact_mod_cast hk'
        refine h1.trans_lt ?_
        rw [← zpow_natCast]
        apply zpow_lt_zpow_right₀ (by norm_num)
        push_cast
        omega)
      (by
        calc 2 = 2 ^ 1 := rfl
          _ ≤ 2 ^ (p + 1) := Nat.pow_le_pow_right (by norm_num) (by omega))
      (fun x hx => by
        have hrep := representable_zpow (p := p) (m := m) (j := E - 1) (by omega)
        have h1 := roundBinary_mono (p := p) (m := m) (abs_le.mp hx).2
        have h2 := roundBinary_mono (p := p) (m := m) (abs_le.mp hx).1
        rw [hrep.round] at h1
        rw [hrep.neg.round] at h2
        have h3 : (2 : ℝ) ^ (E - 1) < 2 ^ E := zpow_lt_zpow_right₀ (by norm_num) (by omega)
        rw [roundFormat_of_lt ((abs_le.mpr ⟨h2, h1⟩).trans_lt h3)]
        exact ⟨EReal.coe_ne_bot _, EReal.coe_ne_top _⟩)
      roundFormat_bot with
    tree := tree
    tree_perm := ht }

theorem roundFormat_near {x : ℝ} (hE : m ≤ E - 1) (hx : |x| ≤ 2 ^ (E - 1)) :
    roundFormat p m E x = ((roundBinary p m x : ℝ) : EReal) := by
  have hrep := representable_zpow (p := p) (m := m) (j := E - 1) hE
  have h1 := roundBinary_mono (p := p) (m := m) (abs_le.mp hx).2
  have h2 := roundBinary_mono (p := p) (m := m) (abs_le.mp hx).1
  rw [hrep.round] at h1
  rw [hrep.neg.round] at h2
  exact roundFormat_of_lt ((abs_le.mpr ⟨h2, h1⟩).trans_lt (zpow_lt_zpow_right₀ (by norm_num) (by omega)))

theorem roundFormat_fixed {x : ℝ} (h : roundFormat p m E x = x) : roundBinary p m x = x := by
  rcases roundFormat_cases (p := p) (m := m) (E := E) (x : EReal) with e | e | ⟨y, hy, -, e⟩
  · rw [e] at h; exact absurd h.symm (EReal.coe_ne_top _)
  · rw [e] at h; exact absurd h.symm (EReal.coe_ne_bot _)
  · rw [e] at h
    rw [EReal.coe_eq_coe_iff.mp hy]
    rw [EReal.coe_eq_coe_iff.mp hy] at h
    exact_mod_cast h

/-- C84.  Binary formats meet the assumptions: the relative error is half of 2^-`p`, the error in case of underflow half of the
least positive number. -/
theorem C84_binary {hm : m ≤ 0} {hE : (p : ℤ) + 2 ≤ E} {hp : 1 ≤ p} {tree : ℕ → SumTree}
    {ht : ∀ n, n ≠ 0 → (tree n).leaves.Perm (List.range n)} :
    Accurate (binaryArith p m E hm hE hp tree ht) (2 ^ (-((p : ℤ) + 1))) (2 ^ (m - 1)) where
  u_nonneg := (two_zpow_pos _).le
  η_nonneg := (two_zpow_pos _).le
  round := fun x hx => ⟨_, roundFormat_near (by omega) hx, (roundBinary_error x).1⟩
  sum := fun x y hx hy hxy =>
    ⟨_, roundFormat_near (by omega) hxy, roundBinary_sum (roundFormat_fixed hx) (roundFormat_fixed hy)⟩
  exp := fun x hx => by
    have h1 := Real.exp_pos x
    have h2 := Real.exp_le_one_iff.mpr hx
    have h3 : (1 : ℝ) ≤ 2 ^ (E - 1) := by
      rw [← zpow_zero (2 : ℝ)]
      exact zpow_le_zpow_right₀ (by norm_num) (by omega)
    refine ⟨_, ?_, by have := (roundBinary_error (p := p) (m := m) (Real.exp x)).1; rwa [abs_of_pos h1] at this⟩
    show roundFormat p m E (erealExp x) = _
    rw [erealExp_coe, roundFormat_near (by omega) (by rw [abs_of_pos h1]; linarith)]
  exp_float := fun x => (binaryArith p m E hm hE hp tree ht).rnd_idem (erealExp x)
  log := fun x hx hl => by
    refine ⟨_, ?_, (roundBinary_error (p := p) (m := m) (Real.log x)).1⟩
    show roundFormat p m E (erealLog x) = _
    rw [erealLog_coe hx, roundFormat_near (by omega) hl]

end

/-! ### 64 bit floats -/

/-- IEEE 754 binary64 with `exp` and `log` rounded correctly. -/
def binary64 (tree : ℕ → SumTree) (ht : ∀ n, n ≠ 0 → (tree n).leaves.Perm (List.range n)) : FloatArith :=
  binaryArith 52 (-1074) 1024 (by norm_num) (by norm_num) (by norm_num) tree ht

theorem binary64_accurate {tree : ℕ → SumTree} {ht : ∀ n, n ≠ 0 → (tree n).leaves.Perm (List.range n)} :
    Accurate (binary64 tree ht) (2 ^ (-53 : ℤ)) (2 ^ (-1075 : ℤ)) := by
  have := C84_binary (p := 52) (m := -1074) (E := 1024) (hm := by norm_num) (hE := by norm_num) (hp := by norm_num)
    (tree := tree) (ht := ht)
  norm_num at this ⊢
  exact this

/-- A run of ordinary size: at most 100000 samples and 1000 live points, loglikelihoods up to a million, and prior volumes that
are not expected to fall below exp(-1000). -/
structure Spec.OrdinaryRun (r : Run ℝ) : Prop where
  run : Weighable r
  samples : r.logl.length ≤ 100000
  few : ∀ n ∈ r.nlive, n ≤ 1000
  logl : ∀ l ∈ r.logl, |l| ≤ 1000000
  depth : compression r.nlive ≤ 1000

section
variable {tree : ℕ → SumTree} {ht : ∀ n, n ≠ 0 → (tree n).leaves.Perm (List.range n)} {r : Run ℝ}

theorem log_2002 : Real.log (2 * ((1000 : ℝ) + 1)) ≤ 11 := by
  have h1 : Real.log (2 * ((1000 : ℝ) + 1)) ≤ Real.log ((2 : ℝ) ^ 11) := Real.log_le_log (by norm_num) (by norm_num)
  rw [Real.log_pow] at h1
  have h2 : Real.log 2 ≤ 1 := by linarith [Real.log_le_sub_one_of_pos (x := 2) (by norm_num)]
  push_cast at h1
  linarith

theorem Spec.OrdinaryRun.size (h : OrdinaryRun r) : volumeSize 1000 r.nlive ≤ 1015 ∧ 0 ≤ volumeSize 1000 r.nlive := by
  have := h.depth
  have := log_2002
  have := compression_nonneg h.run.pos
  have : 0 ≤ Real.log (2 * ((1000 : ℝ) + 1)) := Real.log_nonneg (by norm_num)
  unfold volumeSize
  constructor <;> linarith

theorem eta_le : (2 : ℝ) ^ (-1075 : ℤ) ≤ 2 ^ (-53 : ℤ) := zpow_le_zpow_right₀ (by norm_num) (by norm_num)

theorem maxFinite_ge : (10 : ℝ) ^ 17 ≤ (binary64 tree ht).maxFinite := by
  show (10 : ℝ) ^ 17 ≤ 2 ^ ((1024 : ℤ) - 1)
  have : (2 : ℝ) ^ (60 : ℤ) ≤ 2 ^ ((1024 : ℤ) - 1) := zpow_le_zpow_right₀ (by norm_num) (by norm_num)
  refine le_trans ?_ this
  norm_num

theorem unit_le : (2 : ℝ) ^ (-53 : ℤ) ≤ 112 / 10 ^ 18 := by norm_num

theorem Spec.OrdinaryRun.error (h : OrdinaryRun r) :
    volumeError (2 ^ (-53 : ℤ)) (2 ^ (-1075 : ℤ)) 1000 r.nlive ≤ 92 / 10 ^ 6 := by
  obtain ⟨h1, h2⟩ := h.size
  have hu := two_zpow_pos (-53)
  have hη := eta_le
  have hub := unit_le
  generalize (2 : ℝ) ^ (-53 : ℤ) = u at *
  generalize (2 : ℝ) ^ (-1075 : ℤ) = η at *
  have hN : (r.nlive.length : ℝ) ≤ 100000 := by rw [h.run.len]; exact_mod_cast h.samples
  have h3 : u * volumeSize 1000 r.nlive + η ≤ 1016 * u := by nlinarith
  unfold volumeError
  calc 8 * ((1000 : ℝ) + 2) * (r.nlive.length + 8) * (u * volumeSize 1000 r.nlive + η)
      ≤ 8 * ((1000 : ℝ) + 2) * (r.nlive.length + 8) * (1016 * u) := mul_le_mul_of_nonneg_left h3 (by positivity)
    _ ≤ 8 * ((1000 : ℝ) + 2) * (100000 + 8) * (1016 * u) :=
        mul_le_mul_of_nonneg_right (by linarith) (by positivity)
    _ ≤ 92 / 10 ^ 6 := by nlinarith

theorem Spec.OrdinaryRun.moderate (h : OrdinaryRun r) :
    Moderate (binary64 tree ht) (2 ^ (-53 : ℤ)) (2 ^ (-1075 : ℤ)) r 1000 1000000 where
  run := h.run
  few := fun n hn => by exact_mod_cast h.few n hn
  logl := h.logl
  count := by
    show r.nlive.length + 1 ≤ 2 ^ 53
    have := h.samples
    have := h.run.len
    omega
  size := by
    have := maxFinite_ge (tree := tree) (ht := ht)
    have := h.size
    linarith
  precise := h.error.trans (by norm_num)

theorem Spec.OrdinaryRun.logwError (h : OrdinaryRun r) :
    logwError (2 ^ (-53 : ℤ)) (2 ^ (-1075 : ℤ)) 1000 1000000 r.nlive ≤ 93 / 10 ^ 6 := by
  have h0 := h.error
  obtain ⟨h1, h2⟩ := h.size
  have hu := two_zpow_pos (-53)
  have hη := eta_le
  have hub := unit_le
  unfold Spec.logwError
  generalize (2 : ℝ) ^ (-53 : ℤ) = u at *
  generalize (2 : ℝ) ^ (-1075 : ℤ) = η at *
  nlinarith

theorem Spec.OrdinaryRun.weightError (h : OrdinaryRun r) :
    weightError (2 ^ (-53 : ℤ)) (2 ^ (-1075 : ℤ)) 100000 r.logl.length (2 * (volumeSize 1000 r.nlive + 1000000)) ≤ 1 / 10 ^ 9 := by
  obtain ⟨h1, h2⟩ := h.size
  have hu := two_zpow_pos (-53)
  have hη0 := two_zpow_pos (-1075)
  have hη := eta_le
  have hub := unit_le
  have hN : (r.logl.length : ℝ) ≤ 100000 := by exact_mod_cast h.samples
  unfold Spec.weightError
  generalize (2 : ℝ) ^ (-53 : ℤ) = u at *
  generalize (2 : ℝ) ^ (-1075 : ℤ) = η at *
  have h3 : 6 * (r.logl.length : ℝ) * η ≤ 6 * 100000 * u := by
    calc 6 * (r.logl.length : ℝ) * η ≤ 6 * 100000 * η := mul_le_mul_of_nonneg_right (by linarith) hη0.le
      _ ≤ 6 * 100000 * u := mul_le_mul_of_nonneg_left hη (by norm_num)
  push_cast
  nlinarith

theorem Spec.OrdinaryRun.sumsFit (h : OrdinaryRun r) :
    SumsFit (binary64 tree ht) (2 ^ (-53 : ℤ)) (2 ^ (-1075 : ℤ)) r 1000 1000000 100000 where
  depth := by
    have hne : r.logl.length ≠ 0 := fun e => h.run.nonempty (List.length_eq_zero_iff.mp e)
    have h1 := SumTree.depth_lt (tree r.logl.length)
    have h2 := (ht _ hne).length_eq
    rw [List.length_range] at h2
    have := h.samples
    show (tree r.logl.length).depth ≤ 100000
    omega
  precise := h.weightError.trans (by norm_num)

variable {σ : Type} (R : Rng σ ℝ)

/-- C84.  With 64 bit floats, the log weights and `logz` of an ordinary run are wrong by less than 0.0001, whatever the order of
summation. -/
theorem C84_binary64_logz (h : OrdinaryRun r) (w : World σ) :
    ∃ (lw lw' : List ℝ) (z z' : ℝ), getLogw R r false w = (.ok lw, w) ∧
      flLogw (binary64 tree ht) (coes r.logl) r.nlive none = .ok (coes lw') ∧ Within (1 / 10000) lw' lw ∧
      logz R r none false w = (.ok z, w) ∧ flLogz (binary64 tree ht) (coes r.logl) r.nlive none = .ok (z' : EReal) ∧
      |z' - z| ≤ 1 / 10000 := by
  obtain ⟨lw, lw', h1, h2, h3⟩ := C84_logw R binary64_accurate (h.moderate (tree := tree) (ht := ht)) w
  obtain ⟨z, z', h4, h5, h6⟩ := C84_logz R binary64_accurate (h.moderate (tree := tree) (ht := ht)) h.sumsFit (by
    have := maxFinite_ge (tree := tree) (ht := ht)
    have := h.size
    have hN : (r.logl.length : ℝ) ≤ 100000 := by exact_mod_cast h.samples
    linarith) w
  refine ⟨lw, lw', z, z', h1, h2, ?_, h4, h5, h6.trans ?_⟩
  · refine List.Forall₂.imp ?_ h3
    intro a b hab
    refine hab.trans (h.logwError.trans (by norm_num))
  · have e1 := h.logwError
    have e2 := h.weightError
    obtain ⟨s1, s2⟩ := h.size
    have hη := eta_le
    have hub := unit_le
    have hu := two_zpow_pos (-53)
    have hN : (r.logl.length : ℝ) ≤ 100000 := by exact_mod_cast h.samples
    have hN1 : (1 : ℝ) ≤ r.logl.length := by exact_mod_cast List.length_pos_iff.mpr h.run.nonempty
    have hl := Real.log_le_sub_one_of_pos (x := 2 * (r.logl.length : ℝ)) (by linarith)
    have e3 : 3 * Real.log (2 * (r.logl.length : ℝ)) + 1 + (volumeSize 1000 r.nlive + 1000000) ≤ 2000000 := by linarith
    have e4 := (mul_le_mul_of_nonneg_left e3 hu.le).trans (mul_le_mul_of_nonneg_right hub (by norm_num))
    exact (add_le_add e1 (add_le_add (mul_le_mul_of_nonneg_left e2 (by norm_num)) (add_le_add e4
      (mul_le_mul_of_nonneg_left (hη.trans hub) (by norm_num))))).trans (by norm_num)

/-- C84.  The error of `param_mean` is less than 0.0001 times the size of the parameter. -/
theorem C84_binary64_param_mean (h : OrdinaryRun r) (htl : r.theta.length = r.logl.length) {ind : Nat} {xs : List ℝ}
    (hx : r.theta.map (·[ind]?) = xs.map some) {T : ℝ} (hT : ∀ x ∈ xs, |x| ≤ T) (hT1 : 1 ≤ T ∧ T ≤ 10 ^ 9) (handle : Bool)
    (w : World σ) :
    ∃ p p' : ℝ, paramMean R r none false ind handle w = (.ok (some p), w) ∧
      flParamMean (binary64 tree ht) (coes r.logl) r.nlive none (coes xs) = .ok (p' : EReal) ∧ |p' - p| ≤ T / 10000 := by
  obtain ⟨p, p', h1, h2, h3⟩ := C84_param_mean R binary64_accurate (h.moderate (tree := tree) (ht := ht)) h.sumsFit htl hx hT (by
    have := maxFinite_ge (tree := tree) (ht := ht)
    have := h.size
    have hN : (r.logl.length : ℝ) ≤ 100000 := by exact_mod_cast h.samples
    have : 8 * (T + 1) * r.logl.length ≤ 8 * (10 ^ 9 + 1) * 100000 :=
      mul_le_mul (by linarith [hT1.2]) hN (by positivity) (by norm_num)
    norm_num at *
    linarith) handle w
  refine ⟨p, p', h1, h2, h3.trans ?_⟩
  have e1 := h.logwError
  have e2 := h.weightError
  have e0 := (h.moderate (tree := tree) (ht := ht)).logwError_nonneg binary64_accurate
  have e3 := (C83_shift e0).2.2
  have e4 := mul_le_mul_of_nonneg_left (e3.trans ((div_le_div_iff_of_pos_right (by norm_num)).mpr e1)) (show (0 : ℝ) ≤ 2 * T by linarith [hT1.1])
  have e5 := mul_le_mul_of_nonneg_left e2 (show (0 : ℝ) ≤ 3 * (2 * T + 1) by linarith [hT1.1])
  have := hT1.1
  linarith

end

/-- A run of three samples. -/
def sampleOrdinary : Run ℝ :=
  { logl := [-5, -2, 1], nlive := [2, 2, 1], theta := [[0], [1], [3]], labels := none, tmm := none }

theorem sampleOrdinary_ok : OrdinaryRun sampleOrdinary where
  run := ⟨by simp [sampleOrdinary], by simp [sampleOrdinary], by simp [sampleOrdinary]⟩
  samples := by simp [sampleOrdinary]
  few := by simp [sampleOrdinary]
  logl := by simp only [sampleOrdinary]; norm_num
  depth := by simp only [sampleOrdinary, compression]; norm_num

/-- Sums from the left, as in a simple loop. -/
def loop64 : FloatArith := binary64 (fun n => leftTree (n - 1)) fun n h => by
  rw [leftTree_leaves, Nat.sub_add_cancel (Nat.one_le_iff_ne_zero.mpr h)]

example {σ : Type} (R : Rng σ ℝ) (w : World σ) : ∃ z z' : ℝ, logz R sampleOrdinary none false w = (.ok z, w) ∧
    flLogz loop64 (coes [-5, -2, 1]) [2, 2, 1] none = .ok (z' : EReal) ∧ |z' - z| ≤ 1 / 10000 := by
  obtain ⟨_, _, z, z', -, -, -, h1, h2, h3⟩ := C84_binary64_logz R sampleOrdinary_ok w
  exact ⟨z, z', h1, h2, h3⟩

example {σ : Type} (R : Rng σ ℝ) (w : World σ) : ∃ p p' : ℝ, paramMean R sampleOrdinary none false 0 false w = (.ok (some p), w) ∧
    flParamMean loop64 (coes [-5, -2, 1]) [2, 2, 1] none (coes [0, 1, 3]) = .ok (p' : EReal) ∧ |p' - p| ≤ 3 / 10000 :=
  C84_binary64_param_mean R sampleOrdinary_ok rfl (xs := [0, 1, 3]) rfl (T := 3) (by norm_num) (by norm_num) false w

end
end Nestcheck
