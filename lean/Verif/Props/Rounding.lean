import Mathlib.Tactic.Linarith
import Mathlib.Tactic.Ring
import Mathlib.Tactic.NormNum
import Mathlib.Tactic.Push
import Verif.Proofs.Weights
import Verif.Model.Rounding

/-
C79: weights and evidence in rounded arithmetic.
-/

namespace Nestcheck
variable {F : FloatArith}

/-! ### Arithmetic -/

theorem FloatArith.rnd_natNeg {c : Nat} (h : c ≤ F.maxInt) :
    F.rnd ((-(c : ℝ) : ℝ) : EReal) = ((-(c : ℝ) : ℝ) : EReal) := by
  have := F.rnd_int (-(c : ℤ)) (by rw [abs_neg, Nat.abs_cast]; exact_mod_cast h)
  simpa using this

theorem FloatArith.rnd_nat {c : Nat} (h : c ≤ F.maxInt) :
    F.rnd ((c : ℝ) : EReal) = ((c : ℝ) : EReal) := by
  have := F.rnd_int (c : ℤ) (by rw [Nat.abs_cast]; exact_mod_cast h)
  simpa using this

theorem FloatArith.rnd_zero : F.rnd 0 = 0 := by
  simpa using FloatArith.rnd_nat (F := F) (c := 0) (Nat.zero_le _)

theorem FloatArith.rnd_one : F.rnd 1 = 1 := by
  have := F.two_le
  simpa using FloatArith.rnd_nat (F := F) (c := 1) (by omega)

theorem flAdd_ok {x y : EReal} (h1 : x = ⊤ → y ≠ ⊥) (h2 : x = ⊥ → y ≠ ⊤) :
    flAdd F x y = .ok (F.rnd (x + y)) := by
  unfold flAdd
  rw [if_neg]
  rintro (⟨a, b⟩ | ⟨a, b⟩)
  · exact h1 a b
  · exact h2 a b

/-- A sum in which neither number is `⊤`. -/
theorem flAdd_ok' {x y : EReal} (h1 : x ≠ ⊤) (h2 : y ≠ ⊤) : flAdd F x y = .ok (F.rnd (x + y)) :=
  flAdd_ok (fun h => absurd h h1) (fun _ => h2)

theorem flSub_ok {x y : EReal} (h1 : x ≠ ⊤) (h2 : y ≠ ⊥) : flSub F x y = .ok (F.rnd (x - y)) := by
  unfold flSub
  rw [flAdd_ok' h1 (by simpa using h2), sub_eq_add_neg]

theorem ne_top_of_le_zero {x : EReal} (h : x ≤ 0) : x ≠ ⊤ := fun e => by
  rw [e] at h; exact absurd h (by simp)

theorem flLog_ok {x : EReal} (h : 0 ≤ x) : flLog F x = .ok (F.log x) := if_neg (not_lt.mpr h)

theorem FloatArith.log_two_nonneg : 0 ≤ F.log 2 := by
  rw [← F.log_one]; exact F.log_mono (by norm_num)

theorem FloatArith.log_two : F.log 2 ≤ 1 := by
  have h := F.log_le 2 (by norm_num) F.two_le
  have e : ((((2 : ℕ) : ℝ) - 1 : ℝ) : EReal) = 1 := by norm_num
  rw [e] at h
  exact h

/-- `x - m` for the maximum `m`. -/
theorem expSub_ok {x m : EReal} (hx : x ≤ m) (h1 : m ≠ ⊤) (h2 : m ≠ ⊥) :
    ∃ e, (do let d ← flSub F x m; pure (F.exp d) : Py EReal) = .ok e ∧ 0 ≤ e ∧ e ≤ 1 ∧ (x = m → e = 1) := by
  refine ⟨F.exp (F.rnd (x - m)), ?_, F.exp_nonneg _, ?_, ?_⟩
  · rw [flSub_ok (ne_top_of_le_ne_top h1 hx) h2]; rfl
  · apply F.exp_le_one
    rw [← F.rnd_zero]
    exact F.rnd_mono (EReal.sub_nonpos.mpr hx)
  · rintro rfl
    rw [EReal.sub_self h1 h2, F.rnd_zero, F.exp_zero]

theorem flLogSubtract_ok {a b : EReal} (hab : b ≤ a) (ha : a ≤ 0) (ha' : a ≠ ⊥) :
    ∃ v, flLogSubtract F a b = .ok v ∧ v ≤ 0 := by
  have ht := ne_top_of_le_zero ha
  obtain ⟨e, he, h0, h1, -⟩ := expSub_ok (F := F) hab ht ha'
  have hd : flSub F b a = .ok (F.rnd (b - a)) := flSub_ok (ne_top_of_le_ne_top ht hab) ha'
  rw [hd] at he
  have he' : F.exp (F.rnd (b - a)) = e := by
    rw [Py.ok_bind] at he; exact Except.ok.inj he
  have e1 : e ≠ ⊤ := ne_top_of_le_ne_top (by decide) h1
  have e2 : e ≠ ⊥ := fun h => by rw [h] at h0; simp at h0
  have s0 : 0 ≤ F.rnd (1 - e) := by
    rw [← F.rnd_zero]; exact F.rnd_mono ((EReal.sub_nonneg (.inl (by decide)) (.inl (by decide))).mpr h1)
  have s1 : F.rnd (1 - e) ≤ 1 := by
    conv_rhs => rw [← F.rnd_one]
    apply F.rnd_mono
    calc 1 - e ≤ 1 - 0 := EReal.sub_le_sub le_rfl h0
      _ = 1 := by simp
  have l0 : F.log (F.rnd (1 - e)) ≤ 0 := by rw [← F.log_one]; exact F.log_mono s1
  refine ⟨F.rnd (a + F.log (F.rnd (1 - e))), ?_, ?_⟩
  · unfold flLogSubtract
    rw [hd, Py.ok_bind, he', flSub_ok (by decide) e2, Py.ok_bind, flLog_ok s0, Py.ok_bind,
      flAdd_ok' ht (ne_top_of_le_zero l0)]
  · rw [← F.rnd_zero]
    apply F.rnd_mono
    calc a + F.log (F.rnd (1 - e)) ≤ 0 + 0 := add_le_add ha l0
      _ = 0 := by simp

theorem ne_bot_of_coe_le {x : EReal} {c : ℝ} (h : (c : EReal) ≤ x) : x ≠ ⊥ := fun e => by
  rw [e] at h; exact absurd h (not_le.mpr (EReal.bot_lt_coe c))

/-! ### Sums -/

theorem flSumTree_ok {xs : List EReal} (hx : ∀ x ∈ xs, 0 ≤ x ∧ x ≤ 1) (t : SumTree)
    (hl : t.leaves.length ≤ F.maxInt) :
    ∃ s, flSumTree F xs t = .ok s ∧ 0 ≤ s ∧ s ≤ ((t.leaves.length : ℝ) : EReal) ∧
      ((∃ i ∈ t.leaves, xs[i]? = some 1) → 1 ≤ s) := by
  induction t with
  | leaf i =>
    refine ⟨xs[i]?.getD 0, rfl, ?_, ?_, ?_⟩
    · cases h : xs[i]? with
      | none => simp
      | some x => simpa using (hx x (List.mem_of_getElem? h)).1
    · cases h : xs[i]? with
      | none => simp [SumTree.leaves]
      | some x => simpa [SumTree.leaves] using (hx x (List.mem_of_getElem? h)).2
    · rintro ⟨j, hj, h⟩
      simp only [SumTree.leaves, List.mem_singleton] at hj
      subst hj
      simp [h]
  | node l r ihl ihr =>
    simp only [SumTree.leaves, List.length_append] at hl ⊢
    obtain ⟨a, ha, a0, a1, a2⟩ := ihl (by omega)
    obtain ⟨b, hb, b0, b1, b2⟩ := ihr (by omega)
    have ta : a ≠ ⊤ := ne_top_of_le_ne_top (EReal.coe_ne_top _) a1
    have tb : b ≠ ⊤ := ne_top_of_le_ne_top (EReal.coe_ne_top _) b1
    refine ⟨F.rnd (a + b), ?_, ?_, ?_, ?_⟩
    · rw [flSumTree, ha, Py.ok_bind, hb, Py.ok_bind, flAdd_ok' ta tb]
    · rw [← F.rnd_zero]; exact F.rnd_mono (add_nonneg a0 b0)
    · rw [← F.rnd_nat hl]
      apply F.rnd_mono
      push_cast
      exact add_le_add a1 b1
    · rintro ⟨i, hi, h⟩
      rw [← F.rnd_one]
      apply F.rnd_mono
      rcases List.mem_append.mp hi with hi | hi
      · calc (1 : EReal) = 1 + 0 := by simp
          _ ≤ a + b := add_le_add (a2 ⟨i, hi, h⟩) b0
      · calc (1 : EReal) = 0 + 1 := by simp
          _ ≤ a + b := add_le_add a0 (b2 ⟨i, hi, h⟩)

theorem flSum_ok {xs : List EReal} (hx : ∀ x ∈ xs, 0 ≤ x ∧ x ≤ 1) (h1 : 1 ∈ xs) (hl : xs.length ≤ F.maxInt) :
    ∃ s, flSum F xs = .ok s ∧ 1 ≤ s ∧ s ≤ ((xs.length : ℝ) : EReal) := by
  have hne : xs ≠ [] := List.ne_nil_of_mem h1
  have hp := F.tree_perm xs.length (by simpa using hne)
  have hlen : (F.tree xs.length).leaves.length = xs.length := by simpa using hp.length_eq
  obtain ⟨s, hs, -, hs1, hs2⟩ := flSumTree_ok (F := F) hx (F.tree xs.length) (by omega)
  refine ⟨s, ?_, ?_, ?_⟩
  · rw [flSum, if_neg hne, hs]
  · obtain ⟨i, hi, h⟩ := List.getElem_of_mem h1
    exact hs2 ⟨i, hp.mem_iff.mpr (by simpa using hi), by rw [List.getElem?_eq_getElem hi, h]⟩
  · rwa [hlen] at hs1

/-- Weights relative to the maximum. -/
theorem expSubs_ok {xs : List EReal} {m : EReal} (hx : ∀ x ∈ xs, x ≤ m) (h1 : m ≠ ⊤) (h2 : m ≠ ⊥) :
    ∃ ws, pyMap (fun x => (do let d ← flSub F x m; pure (F.exp d) : Py EReal)) xs = .ok ws ∧
      List.Forall₂ (fun x w => 0 ≤ w ∧ w ≤ 1 ∧ (x = m → w = 1)) xs ws := by
  induction xs with
  | nil => exact ⟨[], rfl, .nil⟩
  | cons x xs ih =>
    obtain ⟨e, he, hr⟩ := expSub_ok (F := F) (hx x (by simp)) h1 h2
    obtain ⟨ws, hws, hr'⟩ := ih (fun y hy => hx y (by simp [hy]))
    refine ⟨e :: ws, ?_, .cons hr hr'⟩
    rw [pyMap, he, hws]
    rfl

theorem forall₂_range {xs ws : List EReal} {m : EReal}
    (h : List.Forall₂ (fun x w => 0 ≤ w ∧ w ≤ 1 ∧ (x = m → w = 1)) xs ws) :
    (∀ w ∈ ws, 0 ≤ w ∧ w ≤ 1) ∧ (m ∈ xs → (1 : EReal) ∈ ws) := by
  induction h with
  | nil => simp
  | cons h _ ih =>
    refine ⟨?_, ?_⟩
    · intro w hw
      rcases List.mem_cons.mp hw with rfl | hw
      · exact ⟨h.1, h.2.1⟩
      · exact ih.1 w hw
    · intro hm
      rcases List.mem_cons.mp hm with rfl | hm
      · simp [h.2.2 rfl]
      · exact List.mem_cons_of_mem _ (ih.2 hm)

theorem flLogsumexp_ok {xs : List EReal} {m : EReal} (hm : amax xs = some m) (h1 : m ≠ ⊤) (h2 : m ≠ ⊥)
    (hl : xs.length ≤ F.maxInt) :
    ∃ z, flLogsumexp F xs = .ok z ∧ F.rnd m ≤ z ∧ z ≤ F.rnd (F.log ((xs.length : ℝ) : EReal) + m) := by
  obtain ⟨hmem, hmax⟩ := amax_eq_some.mp hm
  obtain ⟨es, hes, hr⟩ := expSubs_ok (F := F) hmax h1 h2
  obtain ⟨he, h1e⟩ := forall₂_range hr
  have hlen := hr.length_eq
  obtain ⟨s, hs, s1, s2⟩ := flSum_ok (F := F) he (h1e hmem) (by omega)
  have l0 : 0 ≤ F.log s := by rw [← F.log_one]; exact F.log_mono s1
  refine ⟨F.rnd (F.log s + m), ?_, ?_, ?_⟩
  · unfold flLogsumexp
    rw [hm]
    simp only [h1, h2, or_self, if_false]
    rw [hes, Py.ok_bind, hs, Py.ok_bind, flLog_ok (zero_le_one.trans s1), Py.ok_bind, flAdd_ok]
    · exact fun _ => h2
    · exact fun _ => h1
  · apply F.rnd_mono
    calc m = 0 + m := by simp
      _ ≤ F.log s + m := add_le_add l0 le_rfl
  · apply F.rnd_mono
    apply add_le_add _ le_rfl
    apply F.log_mono
    rw [hlen]; exact s2

/-! ### logx -/

theorem flCumsumFrom_ok {L : Nat} (steps : List EReal) (hs : ∀ s ∈ steps, ((-(L : ℝ) : ℝ) : EReal) ≤ s ∧ s ≤ 0)
    {acc : EReal} {c : Nat} (h0 : acc ≤ 0) (hc : ((-(c : ℝ) : ℝ) : EReal) ≤ acc) (hr : F.rnd acc = acc)
    (hl : c + L * steps.length ≤ F.maxInt) :
    ∃ xs, flCumsumFrom F acc steps = .ok xs ∧ xs.length = steps.length ∧ (acc :: xs).Pairwise (· ≥ ·) ∧
      ∀ x ∈ xs, ((-((c + L * steps.length : ℕ) : ℝ) : ℝ) : EReal) ≤ x ∧ x ≤ 0 := by
  induction steps generalizing acc c with
  | nil => exact ⟨[], rfl, rfl, by simp, by simp⟩
  | cons s steps ih =>
    obtain ⟨s1, s0⟩ := hs s (by simp)
    simp only [List.length_cons, Nat.mul_add, Nat.mul_one] at hl ⊢
    have hadd : flAdd F acc s = .ok (F.rnd (acc + s)) := flAdd_ok' (ne_top_of_le_zero h0) (ne_top_of_le_zero s0)
    have hle : F.rnd (acc + s) ≤ acc := by
      conv_rhs => rw [← hr]
      apply F.rnd_mono
      calc acc + s ≤ acc + 0 := add_le_add le_rfl s0
        _ = acc := by simp
    have hlo : ((-((c + L : ℕ) : ℝ) : ℝ) : EReal) ≤ F.rnd (acc + s) := by
      rw [← F.rnd_natNeg (c := c + L) (by omega)]
      apply F.rnd_mono
      calc ((-((c + L : ℕ) : ℝ) : ℝ) : EReal) = ((-(c : ℝ) : ℝ) : EReal) + ((-(L : ℝ) : ℝ) : EReal) := by
            rw [← EReal.coe_add]; congr 1; push_cast; ring
        _ ≤ acc + s := add_le_add hc s1
    obtain ⟨xs, hxs, hlen, hpw, hb⟩ := ih (fun t ht => hs t (by simp [ht])) (hle.trans h0) hlo (F.rnd_idem _)
      (by omega)
    have e : c + L + L * steps.length = c + (L * steps.length + L) := by omega
    rw [e] at hb
    refine ⟨F.rnd (acc + s) :: xs, ?_, by simp [hlen], ?_, ?_⟩
    · rw [flCumsumFrom, hadd, Py.ok_bind, hxs]; rfl
    · rw [List.pairwise_cons] at hpw ⊢
      refine ⟨?_, List.pairwise_cons.mpr hpw⟩
      intro y hy
      rcases List.mem_cons.mp hy with rfl | hy
      · exact hle
      · exact (hpw.1 y hy).le.trans hle
    · intro y hy
      rcases List.mem_cons.mp hy with rfl | hy
      · refine ⟨le_trans ?_ hlo, hle.trans h0⟩
        rw [EReal.coe_le_coe_iff]
        push_cast
        have : (0 : ℝ) ≤ (L : ℝ) * steps.length := by positivity
        linarith
      · exact hb y hy

theorem flCumsum_ok {L : Nat} {steps : List EReal} (hs : ∀ s ∈ steps, ((-(L : ℝ) : ℝ) : EReal) ≤ s ∧ s ≤ 0)
    (hr : ∀ s ∈ steps, F.rnd s = s) (hl : L * steps.length ≤ F.maxInt) :
    ∃ xs, flCumsum F steps = .ok xs ∧ xs.length = steps.length ∧ xs.Pairwise (· ≥ ·) ∧
      ∀ x ∈ xs, ((-((L * steps.length : ℕ) : ℝ) : ℝ) : EReal) ≤ x ∧ x ≤ 0 := by
  cases steps with
  | nil => exact ⟨[], rfl, rfl, by simp, by simp⟩
  | cons s steps =>
    obtain ⟨s1, s0⟩ := hs s (by simp)
    simp only [List.length_cons, Nat.mul_add, Nat.mul_one] at hl ⊢
    obtain ⟨xs, hxs, hlen, hpw, hb⟩ := flCumsumFrom_ok (F := F) steps (fun t ht => hs t (by simp [ht])) s0 s1
      (hr s (by simp)) (by omega)
    refine ⟨s :: xs, ?_, by simp [hlen], hpw, ?_⟩
    · rw [flCumsum, hxs]; rfl
    · intro y hy
      rcases List.mem_cons.mp hy with rfl | hy
      · refine ⟨le_trans ?_ s1, s0⟩
        rw [EReal.coe_le_coe_iff]
        push_cast
        have : (0 : ℝ) ≤ (L : ℝ) * steps.length := by positivity
        linarith
      · rw [Nat.add_comm]; exact hb y hy

theorem flDiv_le {x : EReal} {n : Int} (hn : 0 < n) {L : Nat} (hl : L ≤ F.maxInt)
    (hx : ((-(L : ℝ) : ℝ) : EReal) ≤ x) (h0 : x ≤ 0) :
    ((-(L : ℝ) : ℝ) : EReal) ≤ flDiv F x n ∧ flDiv F x n ≤ 0 := by
  have hn' : (1 : ℝ) ≤ (n : ℝ) := by exact_mod_cast hn
  induction x with
  | bot => exact absurd rfl (ne_bot_of_coe_le hx)
  | top => simp at h0
  | coe x =>
    rw [EReal.coe_le_coe_iff] at hx
    have h0' : x ≤ 0 := by exact_mod_cast h0
    unfold flDiv
    rw [← EReal.coe_div]
    constructor
    · rw [← F.rnd_natNeg hl]
      apply F.rnd_mono
      rw [EReal.coe_le_coe_iff, le_div_iff₀ (by linarith)]
      nlinarith
    · rw [← F.rnd_zero]
      apply F.rnd_mono
      have : x / (n : ℝ) ≤ 0 := div_nonpos_of_nonpos_of_nonneg h0' (by linarith)
      exact_mod_cast this

theorem flExpectedStep_ok {n : Int} (hn : 0 < n) :
    ((-((1 : ℕ) : ℝ) : ℝ) : EReal) ≤ flExpectedStep F n ∧ flExpectedStep F n ≤ 0 ∧
      F.rnd (flExpectedStep F n) = flExpectedStep F n := by
  have hn' : (1 : ℝ) ≤ (n : ℝ) := by exact_mod_cast hn
  have e : (1 : EReal) / ((n : ℝ) : EReal) = ((1 / (n : ℝ) : ℝ) : EReal) := by
    rw [EReal.coe_div]; rfl
  have h1 : flDiv F 1 n ≤ 1 := by
    conv_rhs => rw [← F.rnd_one]
    apply F.rnd_mono
    rw [e]
    have : 1 / (n : ℝ) ≤ 1 := by rw [div_le_one (by linarith)]; exact hn'
    exact_mod_cast this
  have h0 : 0 ≤ flDiv F 1 n := by
    rw [← F.rnd_zero]
    apply F.rnd_mono
    rw [e]
    have : 0 ≤ 1 / (n : ℝ) := by positivity
    exact_mod_cast this
  refine ⟨?_, ?_, F.rnd_neg _⟩
  · unfold flExpectedStep
    simpa using EReal.neg_le_neg_iff.mpr h1
  · unfold flExpectedStep
    simpa using h0

/-- The random numbers drawn for `simulate=True`: one per point, between 0 and 1, not so small that
their logarithm is below `-L`. -/
def Spec.Draws (F : FloatArith) (L : Nat) (us : List EReal) (nlive : List Int) : Prop :=
  us.length = nlive.length ∧ ∀ u ∈ us, 0 ≤ u ∧ u ≤ 1 ∧ ((-(L : ℝ) : ℝ) : EReal) ≤ F.log u

theorem simSteps_ok {L : Nat} (hL : L ≤ F.maxInt) {us : List EReal} {nlive : List Int}
    (hu : ∀ u ∈ us, 0 ≤ u ∧ u ≤ 1 ∧ ((-(L : ℝ) : ℝ) : EReal) ≤ F.log u) (hp : ∀ n ∈ nlive, 0 < n) :
    ∃ steps, pyMap (flSimulatedStep F) (us.zip nlive) = .ok steps ∧ steps.length = (us.zip nlive).length ∧
      ∀ s ∈ steps, ((-(L : ℝ) : ℝ) : EReal) ≤ s ∧ s ≤ 0 ∧ F.rnd s = s := by
  refine ⟨(us.zip nlive).map (fun p => flDiv F (F.log p.1) p.2), pyMap_ok ?_, by simp, ?_⟩
  · rintro ⟨u, n⟩ h
    have hu' := hu u (List.of_mem_zip h).1
    simp only [flSimulatedStep]
    rw [flLog_ok hu'.1]
    rfl
  · intro s hs
    obtain ⟨⟨u, n⟩, h, rfl⟩ := List.mem_map.mp hs
    obtain ⟨u0, u1, ul⟩ := hu u (List.of_mem_zip h).1
    have l0 : F.log u ≤ 0 := by rw [← F.log_one]; exact F.log_mono u1
    obtain ⟨a, b⟩ := flDiv_le (F := F) (hp n (List.of_mem_zip h).2) hL ul l0
    exact ⟨a, b, F.rnd_idem _⟩

theorem amin_pos {nlive : List Int} (h0 : nlive ≠ []) (hp : ∀ n ∈ nlive, 0 < n) :
    ∃ m, amin nlive = some m ∧ 0 < m := by
  obtain ⟨m, hm⟩ : ∃ m, amin nlive = some m := by
    cases nlive with
    | nil => exact absurd rfl h0
    | cons x xs => exact ⟨_, rfl⟩
  exact ⟨m, hm, hp m (amin_eq_some.mp hm).1⟩

/-- C79, `get_logx`: with expected or simulated values, logx never increases and is never above zero,
never overflows, and there is no nan. -/
theorem C79_logx {nlive : List Int} (h0 : nlive ≠ []) (hp : ∀ n ∈ nlive, 0 < n) {L : Nat} (hL1 : 1 ≤ L)
    (hL : L * nlive.length ≤ F.maxInt) {us : Option (List EReal)}
    (hu : ∀ u ∈ us, Spec.Draws F L u nlive) :
    ∃ xs, flLogx F nlive us = .ok xs ∧ xs.length = nlive.length ∧ xs.Pairwise (· ≥ ·) ∧
      ∀ x ∈ xs, ((-((L * nlive.length : ℕ) : ℝ) : ℝ) : EReal) ≤ x ∧ x ≤ 0 := by
  obtain ⟨m, hm, hm0⟩ := amin_pos h0 hp
  have hpos : 1 ≤ nlive.length := List.length_pos_iff.mpr h0
  have hL' : L ≤ F.maxInt := le_trans (Nat.le_mul_of_pos_right _ hpos) hL
  cases us with
  | none =>
    unfold flLogx
    simp only [hm, hm0, not_true_eq_false, if_false]
    have hs : ∀ s ∈ nlive.map (flExpectedStep F), ((-(L : ℝ) : ℝ) : EReal) ≤ s ∧ s ≤ 0 ∧ F.rnd s = s := by
      intro s hs
      obtain ⟨n, hn, rfl⟩ := List.mem_map.mp hs
      obtain ⟨a, b, c⟩ := flExpectedStep_ok (F := F) (hp n hn)
      refine ⟨le_trans ?_ a, b, c⟩
      rw [EReal.coe_le_coe_iff]
      have : (1 : ℝ) ≤ L := by exact_mod_cast hL1
      simpa using this
    simpa using flCumsum_ok (F := F) (L := L) (steps := nlive.map (flExpectedStep F))
      (fun s h => ⟨(hs s h).1, (hs s h).2.1⟩) (fun s h => (hs s h).2.2) (by simpa using hL)
  | some us =>
    obtain ⟨hlen, hu⟩ := hu us rfl
    unfold flLogx
    simp only [hm, hm0, not_true_eq_false, if_false]
    obtain ⟨steps, hst, hsl, hs⟩ := simSteps_ok (F := F) hL' hu hp
    have hsl' : steps.length = nlive.length := by rw [hsl, List.length_zip, hlen, min_self]
    rw [hst, Py.ok_bind, ← hsl']
    exact flCumsum_ok (F := F) (L := L) (fun s h => ⟨(hs s h).1, (hs s h).2.1⟩) (fun s h => (hs s h).2.2)
      (by rwa [hsl'])

/-! ### Volumes -/

theorem sub_log_two {v : EReal} (h : v ≤ F.log 2) : ∃ y, flSub F v (F.log 2) = .ok y ∧ y = F.rnd (v - F.log 2) ∧ y ≤ 0 := by
  have hl : F.log 2 ≠ ⊤ := ne_top_of_le_ne_top (by decide) F.log_two
  have hb : F.log 2 ≠ ⊥ := fun e => by
    have := F.log_two_nonneg; rw [e] at this; simp at this
  refine ⟨_, flSub_ok (ne_top_of_le_ne_top hl h) hb, rfl, ?_⟩
  rw [← F.rnd_zero]
  exact F.rnd_mono (EReal.sub_nonpos.mpr h)

theorem pairSum_ok {x y : EReal} {B : Nat} (hB : B + 1 ≤ F.maxInt) (hx : ((-(B : ℝ) : ℝ) : EReal) ≤ x) (x0 : x ≤ 0)
    (y0 : y ≤ 0) :
    ∃ z v, flLogsumexp F [x, y] = .ok z ∧ flSub F z (F.log 2) = .ok v ∧ v ≤ 0 ∧
      ((-((B + 1 : ℕ) : ℝ) : ℝ) : EReal) ≤ v := by
  have hm : amax [x, y] = some (max x y) := rfl
  have m0 : max x y ≤ 0 := max_le x0 y0
  have mB : ((-(B : ℝ) : ℝ) : EReal) ≤ max x y := hx.trans (le_max_left _ _)
  obtain ⟨z, hz, z1, z2⟩ := flLogsumexp_ok (F := F) hm (ne_top_of_le_zero m0)
    (ne_bot_of_coe_le mB) (by simpa using F.two_le)
  have z3 : z ≤ F.log 2 := by
    refine z2.trans ?_
    conv_rhs => rw [← F.log_float 2]
    apply F.rnd_mono
    have e : ((([x, y].length : ℕ) : ℝ) : EReal) = 2 := rfl
    rw [e]
    calc F.log 2 + max x y ≤ F.log 2 + 0 := add_le_add le_rfl m0
      _ = F.log 2 := by simp
  obtain ⟨v, hv, rfl, v0⟩ := sub_log_two z3
  refine ⟨z, _, hz, hv, v0, ?_⟩
  rw [← F.rnd_natNeg hB]
  apply F.rnd_mono
  have hzB : ((-(B : ℝ) : ℝ) : EReal) ≤ z := by
    rw [← F.rnd_natNeg (c := B) (by omega)]
    exact (F.rnd_mono mB).trans z1
  calc ((-((B + 1 : ℕ) : ℝ) : ℝ) : EReal) = ((-(B : ℝ) : ℝ) : EReal) - 1 := by
        have : (1 : EReal) = ((1 : ℝ) : EReal) := rfl
        rw [this, ← EReal.coe_sub]; congr 1; push_cast; ring
    _ ≤ z - F.log 2 := EReal.sub_le_sub hzB F.log_two

theorem flInner_ok {logx : List EReal} (hpw : logx.Pairwise (· ≥ ·)) (h0 : ∀ x ∈ logx, x ≤ 0)
    (hb : ∀ x ∈ logx, x ≠ ⊥) :
    ∃ vs, flInner F logx = .ok vs ∧ vs.length = logx.length - 2 ∧ ∀ v ∈ vs, v ≤ 0 := by
  have key : ∀ p ∈ logx.dropLast.dropLast.zip (logx.drop 2), ∃ v, (do
      let l ← flLogSubtract F p.1 p.2
      flSub F l (F.log 2) : Py EReal) = .ok v ∧ v ≤ 0 := by
    rintro ⟨a, b⟩ h
    obtain ⟨i, hi, hab⟩ := List.getElem_of_mem h
    simp only [List.getElem_zip, List.getElem_dropLast, List.getElem_drop, Prod.mk.injEq] at hab
    obtain ⟨rfl, rfl⟩ := hab
    have hle := List.pairwise_iff_getElem.mp hpw i (2 + i) (by simp at hi; omega) (by simp at hi; omega) (by omega)
    obtain ⟨v, hv, v0⟩ := flLogSubtract_ok (F := F) hle (h0 _ (List.getElem_mem _)) (hb _ (List.getElem_mem _))
    obtain ⟨y, hy, -, y0⟩ := sub_log_two (F := F) (v0.trans F.log_two_nonneg)
    exact ⟨y, by simp only; rw [hv, Py.ok_bind, hy], y0⟩
  choose! g hg using key
  refine ⟨(logx.dropLast.dropLast.zip (logx.drop 2)).map g, pyMap_ok (fun p hp => (hg p hp).1), ?_, ?_⟩
  · simp; omega
  · intro v hv
    obtain ⟨p, hp, rfl⟩ := List.mem_map.mp hv
    exact (hg p hp).2

theorem flVolumes_ok {logx : List EReal} {B : Nat} (hB : B + 1 ≤ F.maxInt) (h2 : 2 ≤ logx.length)
    (hpw : logx.Pairwise (· ≥ ·)) (hx : ∀ x ∈ logx, ((-(B : ℝ) : ℝ) : EReal) ≤ x ∧ x ≤ 0) :
    ∃ vs, flVolumes F logx = .ok vs ∧ vs.length = logx.length ∧ (∀ v ∈ vs, v ≤ 0) ∧
      ∃ v, vs.getLast? = some v ∧ ((-((B + 1 : ℕ) : ℝ) : ℝ) : EReal) ≤ v := by
  have e0 : logx[0]? = some logx[0] := List.getElem?_eq_getElem _
  have e1 : logx[1]? = some logx[1] := List.getElem?_eq_getElem _
  have e2 : logx[logx.length - 2]? = some (logx[logx.length - 2]) := List.getElem?_eq_getElem _
  have e3 : logx.getLast? = some (logx[logx.length - 1]) := by
    rw [List.getLast?_eq_getElem?, List.getElem?_eq_getElem]
  obtain ⟨vs, hvs, hlen, hv0⟩ := flInner_ok (F := F) hpw (fun x h => (hx x h).2)
    (fun x h => ne_bot_of_coe_le (hx x h).1)
  obtain ⟨z, b, hz, hb, b0, -⟩ := pairSum_ok (F := F) hB (hx logx[0] (List.getElem_mem _)).1
    (hx logx[0] (List.getElem_mem _)).2 (hx logx[1] (List.getElem_mem _)).2
  obtain ⟨f, hf, f0⟩ := flLogSubtract_ok (F := F) b0 le_rfl (by decide)
  obtain ⟨t, l, ht, hl, l0, lB⟩ := pairSum_ok (F := F) hB (hx logx[logx.length - 2] (List.getElem_mem _)).1
    (hx logx[logx.length - 2] (List.getElem_mem _)).2 (hx logx[logx.length - 1] (List.getElem_mem _)).2
  refine ⟨f :: vs ++ [l], ?_, ?_, ?_, l, List.getLast?_concat, lB⟩
  · unfold flVolumes
    rw [e0, e1, e2, e3]
    simp only
    rw [hvs, Py.ok_bind, hz, Py.ok_bind, hb, Py.ok_bind, hf, Py.ok_bind, ht, Py.ok_bind, hl, Py.ok_bind]
    rfl
  · simp; omega
  · intro v hv
    simp only [List.cons_append, List.mem_cons, List.mem_append, List.not_mem_nil, or_false] at hv
    rcases hv with rfl | hv | rfl
    · exact f0
    · exact hv0 v hv
    · exact l0

/-! ### Weights -/

theorem FloatArith.rnd_bot : F.rnd ⊥ = ⊥ := by
  have := F.log_float 0
  rwa [F.log_zero] at this

/-- Live counts and log-likelihoods for each point; `L` is as in `Draws`. -/
structure Spec.FloatShape (F : FloatArith) (logl : List EReal) (nlive : List Int) (us : Option (List EReal))
    (L : Nat) : Prop where
  nonempty : nlive ≠ []
  length : logl.length = nlive.length
  pos : ∀ n ∈ nlive, 0 < n
  one_le : 1 ≤ L
  count : L * nlive.length + 1 ≤ F.maxInt
  draws : ∀ u ∈ us, Spec.Draws F L u nlive

/-- A run whose weights are computed: the log-likelihoods are floats, `-inf` or not so large that adding `B + 1`
overflows; the last one (the largest one of a run) is not `-inf`. -/
structure Spec.FloatRun (F : FloatArith) (logl : List EReal) (nlive : List Int) (us : Option (List EReal))
    (L : Nat) : Prop extends FloatShape F logl nlive us L where
  floats : ∀ l ∈ logl, F.rnd l = l
  finite : ∀ l ∈ logl, l ≠ ⊥ → ∃ x : ℝ, l = x ∧ |x| + (L * nlive.length + 1 : ℕ) ≤ F.maxFinite
  last : ∀ l ∈ logl.getLast?, l ≠ ⊥

theorem addLogl_ok {B : ℕ} {v l : EReal} {x : ℝ} (hv : v ≤ 0) (hl : l = x) (hx : |x| + (B : ℝ) ≤ F.maxFinite) :
    flAdd F v l = .ok (F.rnd (v + l)) ∧ F.rnd (v + l) ≠ ⊤ ∧
      (((-(B : ℝ) : ℝ) : EReal) ≤ v → F.rnd (v + l) ≠ ⊥) := by
  subst hl
  have hB : (0 : ℝ) ≤ B := Nat.cast_nonneg _
  refine ⟨flAdd_ok' (ne_top_of_le_zero hv) (EReal.coe_ne_top _), ?_, ?_⟩
  · apply ne_top_of_le_ne_top (F.rnd_finite x (by linarith)).2
    apply F.rnd_mono
    calc v + (x : EReal) ≤ 0 + (x : EReal) := add_le_add hv le_rfl
      _ = x := by simp
  · intro h
    induction v with
    | bot => exact absurd rfl (ne_bot_of_coe_le h)
    | top => simp at hv
    | coe v =>
      rw [EReal.coe_le_coe_iff] at h
      have hv' : v ≤ 0 := by exact_mod_cast hv
      rw [← EReal.coe_add]
      apply (F.rnd_finite (v + x) _).1
      calc |v + x| ≤ |v| + |x| := abs_add_le _ _
        _ ≤ B + |x| := by rw [abs_of_nonpos hv']; linarith
        _ ≤ F.maxFinite := by linarith

theorem zip_pyMap_add {B : ℕ} : ∀ {vs ls : List EReal}, vs.length = ls.length → (∀ v ∈ vs, v ≤ 0) →
    (∀ l ∈ ls, l ≠ ⊥ → ∃ x : ℝ, l = x ∧ |x| + (B : ℝ) ≤ F.maxFinite) → (∀ l ∈ ls, F.rnd l = l) →
    (∀ l ∈ ls.getLast?, l ≠ ⊥) →
    ∃ ws, pyMap (fun p : EReal × EReal => flAdd F p.1 p.2) (vs.zip ls) = .ok ws ∧ ws.length = ls.length ∧
      List.Forall₂ (fun w l => w ≤ l ∧ F.rnd w = w) ws ls ∧
      (∀ v, vs.getLast? = some v → ((-(B : ℝ) : ℝ) : EReal) ≤ v → ∃ w ∈ ws, w ≠ ⊥) := by
  intro vs ls hlen hv hl hfl hlast
  have key : ∀ p ∈ vs.zip ls, flAdd F p.1 p.2 = .ok (F.rnd (p.1 + p.2)) := by
    rintro ⟨v, l⟩ h
    by_cases hb : l = ⊥
    · subst hb
      exact flAdd_ok' (ne_top_of_le_zero (hv v (List.of_mem_zip h).1)) (by simp)
    · obtain ⟨x, hx, hb⟩ := hl l (List.of_mem_zip h).2 hb
      exact (addLogl_ok (hv v (List.of_mem_zip h).1) hx hb).1
  refine ⟨_, pyMap_ok key, by simp [hlen], ?_, ?_⟩
  · clear key hlast
    induction vs generalizing ls with
    | nil => cases ls with
      | nil => exact .nil
      | cons l ls => simp at hlen
    | cons v vs ih => cases ls with
      | nil => simp at hlen
      | cons l ls =>
        refine .cons ⟨?_, F.rnd_idem _⟩ (ih (by simpa using hlen) (fun v h => hv v (by simp [h]))
          (fun l h => hl l (by simp [h])) (fun l h => hfl l (by simp [h])))
        conv_rhs => rw [← hfl l (by simp)]
        apply F.rnd_mono
        calc v + l ≤ 0 + l := add_le_add (hv v (by simp)) le_rfl
          _ = l := by simp
  · intro v hv' hB
    have hne : vs ≠ [] := by rintro rfl; simp at hv'
    have hlt : vs.length - 1 < vs.length := Nat.sub_lt (List.length_pos_iff.mpr hne) one_pos
    rw [List.getLast?_eq_getElem?, List.getElem?_eq_getElem hlt] at hv'
    have hve : vs[vs.length - 1] = v := Option.some.inj hv'
    have hlt' : vs.length - 1 < ls.length := by omega
    have hmem : (v, ls[vs.length - 1]) ∈ vs.zip ls := by
      rw [← hve, ← List.getElem_zip (h := by simp; omega)]
      exact List.getElem_mem _
    have hnb : ls[vs.length - 1] ≠ ⊥ := by
      apply hlast
      rw [List.getLast?_eq_getElem?, ← hlen, List.getElem?_eq_getElem hlt']
      rfl
    obtain ⟨x, hx, hb⟩ := hl _ (List.of_mem_zip hmem).2 hnb
    exact ⟨_, List.mem_map.mpr ⟨_, hmem, rfl⟩, (addLogl_ok (hv v (List.of_mem_zip hmem).1) hx hb).2.2 hB⟩

/-- The log weights: no nan, no `inf`, not all of them `-inf`. -/
theorem flLogw_ok {logl : List EReal} {nlive : List Int} {us : Option (List EReal)} {L : Nat}
    (h : Spec.FloatRun F logl nlive us L) :
    ∃ ws, flLogw F logl nlive us = .ok ws ∧ ws.length = logl.length ∧
      List.Forall₂ (fun w l => w ≤ l ∧ F.rnd w = w) ws logl ∧ ∃ w ∈ ws, w ≠ ⊥ := by
  have hc := h.count
  obtain ⟨xs, hxs, hlen, hpw, hb⟩ := C79_logx (F := F) h.nonempty h.pos h.one_le (by omega) h.draws
  have hll : logl.length = xs.length := by rw [h.length, hlen]
  unfold flLogw
  rw [hxs, Py.ok_bind]
  simp only [hll, ne_eq, not_true_eq_false, if_false]
  by_cases h2 : 2 ≤ xs.length
  · obtain ⟨vs, hvs, hvl, hv0, v, hv, hvB⟩ := flVolumes_ok (F := F) hc h2 hpw hb
    rw [hvs]
    simp only
    obtain ⟨ws, hws, hwl, hw, hw'⟩ := zip_pyMap_add (F := F) (B := L * nlive.length + 1)
      (hvl.trans hll.symm) hv0 h.finite h.floats h.last
    exact ⟨ws, hws, hwl.trans hll, hw, hw' v hv hvB⟩
  · have h1 : xs.length = 1 := by
      have : 0 < xs.length := by rw [hlen]; exact List.length_pos_iff.mpr h.nonempty
      omega
    obtain ⟨x, rfl⟩ := List.length_eq_one_iff.mp h1
    have : flVolumes F [x] = .error .index := rfl
    rw [this]
    obtain ⟨l, rfl⟩ := List.length_eq_one_iff.mp (hll.trans h1)
    exact ⟨[l], by simp, rfl, .cons ⟨le_rfl, h.floats l (by simp)⟩ .nil, l, by simp, h.last l (by simp)⟩

theorem Spec.FloatRun.logw_bounds {logl : List EReal} {nlive : List Int} {us : Option (List EReal)} {L : Nat}
    (h : Spec.FloatRun F logl nlive us L) {ws : List EReal}
    (hw : List.Forall₂ (fun w l => w ≤ l ∧ F.rnd w = w) ws logl) :
    ∀ w ∈ ws, F.rnd w = w ∧ ∃ l ∈ logl, w ≤ l ∧ w ≠ ⊤ := by
  intro w hmem
  obtain ⟨i, hi, rfl⟩ := List.getElem_of_mem hmem
  have hi' : i < logl.length := hw.length_eq ▸ hi
  obtain ⟨a, b⟩ := hw.get hi hi'
  refine ⟨b, _, List.getElem_mem hi', a, ne_top_of_le_ne_top ?_ a⟩
  rw [List.get_eq_getElem]
  by_cases hbot : logl[i] = ⊥
  · rw [hbot]; simp
  · obtain ⟨y, hy, -⟩ := h.finite _ (List.getElem_mem hi') hbot
    rw [hy]; exact EReal.coe_ne_top y

theorem amax_real {ws : List EReal} (h1 : ∀ w ∈ ws, w ≠ ⊤) (h2 : ∃ w ∈ ws, w ≠ ⊥) :
    ∃ m, amax ws = some m ∧ m ≠ ⊤ ∧ m ≠ ⊥ := by
  obtain ⟨w, hw, hb⟩ := h2
  obtain ⟨m, hm⟩ := exists_amax (List.ne_nil_of_mem hw)
  obtain ⟨a, b⟩ := amax_eq_some.mp hm
  refine ⟨m, hm, h1 m a, ?_⟩
  rintro rfl
  exact hb (le_bot_iff.mp (b w hw))

/-- C79, `get_w_rel`: whatever the size of the log-likelihoods and however the results are rounded, the
relative weights are numbers between 0 and 1, one of which is 1. -/
theorem C79_weights {logl : List EReal} {nlive : List Int} {us : Option (List EReal)} {L : Nat}
    (h : Spec.FloatRun F logl nlive us L) :
    ∃ ws, flWRel F logl nlive us = .ok ws ∧ ws.length = logl.length ∧ (∀ w ∈ ws, 0 ≤ w ∧ w ≤ 1) ∧ 1 ∈ ws := by
  obtain ⟨lw, hlw, hlen, hw, hb⟩ := flLogw_ok h
  have ht := h.logw_bounds hw
  obtain ⟨m, hm, m1, m2⟩ := amax_real (fun w hw => (ht w hw).2.choose_spec.2.2) hb
  obtain ⟨hmem, hmax⟩ := amax_eq_some.mp hm
  obtain ⟨ws, hws, hr⟩ := expSubs_ok (F := F) hmax m1 m2
  obtain ⟨h01, h1⟩ := forall₂_range hr
  refine ⟨ws, ?_, hr.length_eq.symm.trans hlen, h01, h1 hmem⟩
  unfold flWRel flRelWeights
  rw [hlw, Py.ok_bind]
  simp only [hm]
  exact hws

/-- C79, `logz`: the logarithm of the evidence is at least the largest log weight, and larger by at most the
logarithm of the number of points; it is neither nan nor infinite. -/
theorem C79_logz {logl : List EReal} {nlive : List Int} {us : Option (List EReal)} {L : Nat}
    (h : Spec.FloatRun F logl nlive us L) :
    ∃ lw m z, flLogw F logl nlive us = .ok lw ∧ IsGreatest {x | x ∈ lw} m ∧
      flLogz F logl nlive us = .ok z ∧ m ≤ z ∧ z ≤ F.rnd (F.log ((logl.length : ℝ) : EReal) + m) ∧
      z ≠ ⊥ ∧ z ≠ ⊤ := by
  obtain ⟨lw, hlw, hlen, hw, hb⟩ := flLogw_ok h
  have ht := h.logw_bounds hw
  obtain ⟨m, hm, m1, m2⟩ := amax_real (fun w hw => (ht w hw).2.choose_spec.2.2) hb
  obtain ⟨hmem, hmax⟩ := amax_eq_some.mp hm
  have hc := h.count
  have hLn := Nat.le_mul_of_pos_left nlive.length h.one_le
  have hn : lw.length ≤ F.maxInt := by rw [hlen, h.length]; omega
  obtain ⟨z, hz, z1, z2⟩ := flLogsumexp_ok (F := F) hm m1 m2 hn
  rw [(ht m hmem).1] at z1
  rw [hlen] at z2
  refine ⟨lw, m, z, hlw, ⟨hmem, fun x hx => hmax x hx⟩, ?_, z1, z2, ?_, ?_⟩
  · unfold flLogz; rw [hlw, Py.ok_bind, hz]
  · rintro rfl
    exact m2 (le_bot_iff.mp z1)
  · obtain ⟨l, hl, hml, -⟩ := (ht m hmem).2
    obtain ⟨y, rfl, hy⟩ := h.finite l hl (by rintro rfl; exact m2 (le_bot_iff.mp hml))
    have hpos : 1 ≤ logl.length := by rw [h.length]; exact List.length_pos_iff.mpr h.nonempty
    have hp' : (1 : ℝ) ≤ logl.length := by exact_mod_cast hpos
    have hbound : |((logl.length : ℝ) - 1) + y| ≤ F.maxFinite := by
      have h3 : (nlive.length : ℝ) ≤ ((L * nlive.length + 1 : ℕ) : ℝ) := by exact_mod_cast (by omega)
      calc |((logl.length : ℝ) - 1) + y| ≤ |(logl.length : ℝ) - 1| + |y| := abs_add_le _ _
        _ ≤ F.maxFinite := by rw [abs_of_nonneg (by linarith), h.length]; linarith
    apply ne_top_of_le_ne_top (F.rnd_finite _ hbound).2
    refine z2.trans (F.rnd_mono ?_)
    rw [EReal.coe_add]
    exact add_le_add (F.log_le _ hpos (hlen ▸ hn)) hml

/-! ### Log-likelihoods of minus infinity -/

theorem flSubs_bot {m : EReal} (hm : m ≠ ⊥) : flSub F ⊥ m = .ok ⊥ := by
  unfold flSub
  rw [flAdd_ok' (by simp) (by simpa [EReal.neg_eq_top_iff] using hm), EReal.bot_add, F.rnd_bot]

/-- C79: a point of log-likelihood `-inf` has relative weight 0. -/
theorem C79_minus_inf {logl : List EReal} {nlive : List Int} {us : Option (List EReal)} {L : Nat}
    (h : Spec.FloatRun F logl nlive us L) {ws : List EReal} (hws : flWRel F logl nlive us = .ok ws)
    {i : Nat} (hi : logl[i]? = some ⊥) : ws[i]? = some 0 := by
  obtain ⟨lw, hlw, hlen, hw, hb⟩ := flLogw_ok h
  have ht := h.logw_bounds hw
  obtain ⟨m, hm, m1, m2⟩ := amax_real (fun w hw => (ht w hw).2.choose_spec.2.2) hb
  unfold flWRel flRelWeights at hws
  rw [hlw, Py.ok_bind] at hws
  simp only [hm] at hws
  have hf := pyMap_forall₂ hws
  obtain ⟨hil, hie⟩ := List.getElem?_eq_some_iff.mp hi
  have hil' : i < lw.length := by omega
  have hil'' : i < ws.length := by rw [← hf.length_eq]; exact hil'
  have h1 := (hw.get hil' hil).1
  have h2 := hf.get hil' hil''
  simp only [List.get_eq_getElem] at h1 h2
  rw [hie, le_bot_iff] at h1
  rw [h1, flSubs_bot m2, Py.ok_bind, F.exp_bot] at h2
  rw [List.getElem?_eq_getElem hil'']
  congr 1
  simpa [pure, Except.pure] using h2.symm

theorem flSumTree_zero {xs : List EReal} (h : ∀ x ∈ xs, x = 0) (t : SumTree) : flSumTree F xs t = .ok 0 := by
  induction t with
  | leaf i =>
    rw [flSumTree]
    cases hx : xs[i]? with
    | none => rfl
    | some x => rw [h x (List.mem_of_getElem? hx)]; rfl
  | node l r ihl ihr =>
    rw [flSumTree, ihl, Py.ok_bind, ihr, Py.ok_bind, flAdd_ok' (by simp) (by simp), add_zero, F.rnd_zero]

/-- C79: if all log-likelihoods are `-inf` then so is the log-evidence, and relative weights are not defined
(nan). -/
theorem C79_all_minus_inf {logl : List EReal} {nlive : List Int} {us : Option (List EReal)} {L : Nat}
    (h : Spec.FloatShape F logl nlive us L) (hb : ∀ l ∈ logl, l = ⊥) :
    flLogz F logl nlive us = .ok ⊥ ∧ flWRel F logl nlive us = .error .undefined := by
  have hc := h.count
  have hne : logl ≠ [] := by
    rw [← List.length_pos_iff, h.length]; exact List.length_pos_iff.mpr h.nonempty
  have hlw : flLogw F logl nlive us = .ok logl := by
    obtain ⟨xs, hxs, hlen, hpw, hx⟩ := C79_logx (F := F) h.nonempty h.pos h.one_le (by omega) h.draws
    have hll : logl.length = xs.length := by rw [h.length, hlen]
    unfold flLogw
    rw [hxs, Py.ok_bind]
    simp only [hll, ne_eq, not_true_eq_false, if_false]
    by_cases h2 : 2 ≤ xs.length
    · obtain ⟨vs, hvs, hvl, hv0, -⟩ := flVolumes_ok (F := F) hc h2 hpw hx
      rw [hvs]
      simp only
      rw [pyMap_ok (g := fun _ => (⊥ : EReal))]
      · congr 1
        apply List.ext_getElem
        · simp [hvl, hll]
        · intro i h1 h2
          simp [hb _ (List.getElem_mem h2)]
      · rintro ⟨v, l⟩ hp
        have hl := hb l (List.of_mem_zip hp).2
        subst hl
        simp only
        rw [flAdd_ok' (ne_top_of_le_zero (hv0 v (List.of_mem_zip hp).1)) (by simp), EReal.add_bot, F.rnd_bot]
    · have h1 : xs.length = 1 := by
        have : 0 < xs.length := by rw [hlen]; exact List.length_pos_iff.mpr h.nonempty
        omega
      obtain ⟨x, rfl⟩ := List.length_eq_one_iff.mp h1
      have : flVolumes F [x] = .error .index := rfl
      rw [this]
      simp
  obtain ⟨m, hm⟩ := exists_amax hne
  have hmb : m = ⊥ := hb m (amax_eq_some.mp hm).1
  subst hmb
  constructor
  · unfold flLogz flLogsumexp
    rw [hlw, Py.ok_bind]
    simp only [hm, or_true, if_true]
    have he : pyMap (fun x => do
        let d ← flSub F x 0
        pure (F.exp d)) logl = .ok (logl.map (fun _ => (0 : EReal))) := by
      apply pyMap_ok
      intro x hx
      rw [hb x hx]
      rw [flSubs_bot (by simp), Py.ok_bind, F.exp_bot]
      rfl
    rw [he, Py.ok_bind]
    have hs : flSum F (logl.map (fun _ => (0 : EReal))) = .ok 0 := by
      unfold flSum
      split
      · rfl
      · exact flSumTree_zero (by simp) _
    rw [hs, Py.ok_bind]
    have hl : flLog F 0 = .ok ⊥ := by simp [flLog, F.log_zero]
    rw [hl, Py.ok_bind]
    simp [flAdd, F.rnd_bot]
  · unfold flWRel flRelWeights
    rw [hlw, Py.ok_bind]
    simp only [hm]
    have hu : ∀ x ∈ logl, (do
        let d ← flSub F x ⊥
        pure (F.exp d) : Py EReal) = .error .undefined := by
      intro x hx
      rw [hb x hx]
      simp [flSub, flAdd]
    obtain ⟨l, ls, rfl⟩ := List.exists_cons_of_ne_nil hne
    rw [pyMap, hu l (by simp)]
    rfl

/-! ### A draw of zero -/

theorem pyMap_undefined {α β : Type} {f : α → Py β} {xs : List α}
    (h : ∀ x ∈ xs, (∃ y, f x = .ok y) ∨ f x = .error .undefined) (he : ∃ x ∈ xs, f x = .error .undefined) :
    pyMap f xs = .error .undefined := by
  induction xs with
  | nil => simp at he
  | cons x xs ih =>
    rw [pyMap]
    rcases h x (by simp) with ⟨y, hy⟩ | hx
    · have : ∃ x ∈ xs, f x = .error .undefined := by
        obtain ⟨z, hz, hf⟩ := he
        rcases List.mem_cons.mp hz with rfl | hz
        · rw [hy] at hf; exact absurd hf (by simp)
        · exact ⟨z, hz, hf⟩
      rw [hy, Py.ok_bind, ih (fun z hz => h z (by simp [hz])) this]
      rfl
    · rw [hx]; rfl

theorem flAdd_cases (x y : EReal) : (∃ z, flAdd F x y = .ok z) ∨ flAdd F x y = .error .undefined := by
  unfold flAdd
  split
  · exact .inr rfl
  · exact .inl ⟨_, rfl⟩

theorem flLog_cases (x : EReal) : (∃ z, flLog F x = .ok z) ∨ flLog F x = .error .undefined := by
  unfold flLog
  split
  · exact .inr rfl
  · exact .inl ⟨_, rfl⟩

theorem inner_cases (p : EReal × EReal) : (∃ z, (do
      let l ← flLogSubtract F p.1 p.2
      flSub F l (F.log 2) : Py EReal) = .ok z) ∨ (do
      let l ← flLogSubtract F p.1 p.2
      flSub F l (F.log 2) : Py EReal) = .error .undefined := by
  unfold flLogSubtract flSub
  rcases flAdd_cases (F := F) p.2 (-p.1) with ⟨d, h⟩ | h <;> rw [h]
  · rw [Py.ok_bind]
    rcases flAdd_cases (F := F) 1 (-F.exp d) with ⟨s, h⟩ | h <;> rw [h]
    · rw [Py.ok_bind]
      rcases flLog_cases (F := F) s with ⟨l, h⟩ | h <;> rw [h]
      · rw [Py.ok_bind]
        rcases flAdd_cases (F := F) p.1 l with ⟨v, h⟩ | h <;> rw [h]
        · exact flAdd_cases _ _
        · exact .inr rfl
      · exact .inr rfl
    · exact .inr rfl
  · exact .inr rfl

theorem flCumsumFrom_bot : ∀ (steps : List EReal) {acc : EReal}, acc ≤ 0 → (∀ s ∈ steps, s ≤ 0) →
    ∃ xs, flCumsumFrom F acc steps = .ok xs ∧ xs.length = steps.length ∧
      (acc = ⊥ → ∀ x ∈ xs, x = ⊥) ∧
      ∀ i : Nat, steps[i]? = some (⊥ : EReal) → ∀ j : Nat, i ≤ j → ∀ x, xs[j]? = some x → x = (⊥ : EReal)
  | [], _, _, _ => ⟨[], rfl, rfl, by simp, by simp⟩
  | s :: steps, acc, h0, hs => by
    have s0 := hs s (by simp)
    have hadd : flAdd F acc s = .ok (F.rnd (acc + s)) := flAdd_ok' (ne_top_of_le_zero h0) (ne_top_of_le_zero s0)
    have hle : F.rnd (acc + s) ≤ 0 := by
      rw [← F.rnd_zero]
      apply F.rnd_mono
      calc acc + s ≤ 0 + 0 := add_le_add h0 s0
        _ = 0 := by simp
    obtain ⟨xs, hxs, hlen, hb, hi⟩ := flCumsumFrom_bot steps hle (fun t ht => hs t (by simp [ht]))
    have hbot : acc = ⊥ ∨ s = ⊥ → F.rnd (acc + s) = ⊥ := by
      rintro (rfl | rfl) <;> simp [F.rnd_bot]
    refine ⟨F.rnd (acc + s) :: xs, ?_, by simp [hlen], ?_, ?_⟩
    · rw [flCumsumFrom, hadd, Py.ok_bind, hxs]; rfl
    · intro ha x hx
      have := hbot (.inl ha)
      rcases List.mem_cons.mp hx with rfl | hx
      · exact this
      · exact hb this x hx
    · intro i hsi j hij x hx
      cases i with
      | zero =>
        have := hbot (.inr (by simpa using hsi))
        cases j with
        | zero => simp only [List.getElem?_cons_zero, Option.some.injEq] at hx; rw [← hx, this]
        | succ j => exact hb this x (List.mem_of_getElem? (by simpa using hx))
      | succ i =>
        cases j with
        | zero => omega
        | succ j => exact hi i (by simpa using hsi) j (by omega) x (by simpa using hx)

/-- C79: the hypothesis on the draws is needed.  `np.random.random` may return 0; if it does so for a point
that is not among the last two, the weights contain nan. -/
theorem C79_zero_draw {logl : List EReal} {nlive : List Int} {us : List EReal} (hl : logl.length = nlive.length)
    (hu : us.length = nlive.length) (hp : ∀ n ∈ nlive, 0 < n) (h01 : ∀ u ∈ us, 0 ≤ u ∧ u ≤ 1) {i : Nat}
    (hi : i + 2 < nlive.length) (hz : us[i]? = some 0) :
    flLogw F logl nlive (some us) = .error .undefined := by
  have h0 : nlive ≠ [] := by rintro rfl; simp at hi
  obtain ⟨m, hm, hm0⟩ := amin_pos h0 hp
  have hst : pyMap (flSimulatedStep F) (us.zip nlive) =
      .ok ((us.zip nlive).map (fun p => flDiv F (F.log p.1) p.2)) := by
    apply pyMap_ok
    rintro ⟨u, n⟩ h
    simp only [flSimulatedStep]
    rw [flLog_ok (h01 u (List.of_mem_zip h).1).1]
    rfl
  have hle : ∀ s ∈ (us.zip nlive).map (fun p => flDiv F (F.log p.1) p.2), s ≤ 0 := by
    intro s hs
    obtain ⟨⟨u, n⟩, h, rfl⟩ := List.mem_map.mp hs
    have l0 : F.log u ≤ 0 := by rw [← F.log_one]; exact F.log_mono (h01 u (List.of_mem_zip h).1).2
    have hn : (0 : ℝ) < n := by exact_mod_cast hp n (List.of_mem_zip h).2
    unfold flDiv
    rw [← F.rnd_zero]
    apply F.rnd_mono
    rw [EReal.div_le_iff_le_mul (by exact_mod_cast hn) (EReal.coe_ne_top _)]
    simpa using l0
  have hbot : ((us.zip nlive).map (fun p => flDiv F (F.log p.1) p.2))[i]? = some ⊥ := by
    have hn : (0 : ℝ) < nlive[i] := by exact_mod_cast hp _ (List.getElem_mem _)
    have hzip : (us.zip nlive)[i]? = some (0, nlive[i]) :=
      List.getElem?_zip_eq_some.mpr ⟨hz, List.getElem?_eq_getElem _⟩
    rw [List.getElem?_map, hzip]
    simp only [Option.map_some, F.log_zero, flDiv]
    rw [EReal.bot_div_of_pos_ne_top (by exact_mod_cast hn) (EReal.coe_ne_top _), F.rnd_bot]
  obtain ⟨xs, hxs, hlen, hb⟩ : ∃ xs, flCumsum F ((us.zip nlive).map (fun p => flDiv F (F.log p.1) p.2)) = .ok xs ∧
      xs.length = nlive.length ∧ ∀ j, i ≤ j → ∀ x, xs[j]? = some x → x = ⊥ := by
    have hlz : ((us.zip nlive).map (fun p => flDiv F (F.log p.1) p.2)).length = nlive.length := by simp [hu]
    generalize (us.zip nlive).map (fun p => flDiv F (F.log p.1) p.2) = steps at hle hbot hlz
    cases steps with
    | nil => simp at hbot
    | cons s steps =>
      obtain ⟨xs, hxs, hxl, hb, hj⟩ := flCumsumFrom_bot (F := F) steps (hle s (by simp)) (fun t ht => hle t (by simp [ht]))
      refine ⟨s :: xs, by rw [flCumsum, hxs]; rfl, by simpa [hxl] using hlz, ?_⟩
      intro j hij x hx
      cases i with
      | zero =>
        have hs : s = ⊥ := by simpa using hbot
        cases j with
        | zero => simp only [List.getElem?_cons_zero, Option.some.injEq] at hx; rw [← hx, hs]
        | succ j => exact hb hs x (List.mem_of_getElem? (by simpa using hx))
      | succ i =>
        cases j with
        | zero => omega
        | succ j => exact hj i (by simpa using hbot) j (by omega) x (by simpa using hx)
  have hx : flLogx F nlive (some us) = .ok xs := by
    unfold flLogx
    simp only [hm, hm0, not_true_eq_false, if_false]
    rw [hst, Py.ok_bind, hxs]
  have hinner : flInner F xs = .error .undefined := by
    apply pyMap_undefined (fun p _ => inner_cases p)
    refine ⟨(xs[i], xs[i + 2]), ?_, ?_⟩
    · have : (xs.dropLast.dropLast.zip (xs.drop 2))[i]? = some (xs[i], xs[i + 2]) := by
        rw [List.getElem?_zip_eq_some]
        constructor
        · rw [List.getElem?_eq_getElem (by simp; omega)]; simp
        · rw [List.getElem?_drop, List.getElem?_eq_getElem (by omega)]; simp [Nat.add_comm]
      exact List.mem_of_getElem? this
    · have a : xs[i] = ⊥ := hb i le_rfl _ (List.getElem?_eq_getElem _)
      have b : xs[i + 2] = ⊥ := hb (i + 2) (by omega) _ (List.getElem?_eq_getElem _)
      simp only [a, b, flLogSubtract, flSub, flAdd, EReal.neg_bot]
      simp
      rfl
  have hv : flVolumes F xs = .error .undefined := by
    unfold flVolumes
    rw [List.getElem?_eq_getElem (show 0 < xs.length by omega), List.getElem?_eq_getElem (show 1 < xs.length by omega),
      List.getElem?_eq_getElem (show xs.length - 2 < xs.length by omega), List.getLast?_eq_getElem?,
      List.getElem?_eq_getElem (show xs.length - 1 < xs.length by omega)]
    simp only
    rw [hinner]
    rfl
  unfold flLogw
  rw [hx, Py.ok_bind]
  simp only [hl, hlen, ne_eq, not_true_eq_false, if_false, hv]

end Nestcheck
