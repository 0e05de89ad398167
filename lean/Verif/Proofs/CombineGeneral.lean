import Verif.Proofs.CombineStatic
import Verif.Proofs.Random
import Verif.Proofs.Frame
import Mathlib.Algebra.Order.Ring.Defs
import Mathlib.Tactic.Linarith

/-! combine_threads for threads which may occur several times and whose starting
contours may be missing. -/

set_option linter.unusedSectionVars false

namespace Nestcheck
open Spec
variable {σ K : Type} [CommRing K] [LinearOrder K] (R : Rng σ K)

/-- Add one to the change in nlive at given rows. -/
def addBirths (rows : List (Row K)) (ks : List Nat) : List (Row K) :=
  ks.foldl (fun rows k => rows.modify k (fun r => { r with dn := r.dn + 1 })) rows

theorem modify_map_logl (rows : List (Row K)) (k : Nat) :
    (rows.modify k (fun r => { r with dn := r.dn + 1 })).map (fun r => (r.logl, r.label, r.theta)) =
      rows.map (fun r => (r.logl, r.label, r.theta)) := by
  induction rows generalizing k with
  | nil => simp
  | cons r rs ih =>
    cases k with
    | zero => simp
    | succ k => simp [ih]

theorem addBirths_samples (rows : List (Row K)) (ks : List Nat) :
    (addBirths rows ks).map (fun r => (r.logl, r.label, r.theta)) =
      rows.map (fun r => (r.logl, r.label, r.theta)) := by
  induction ks generalizing rows with
  | nil => rfl
  | cons k ks ih => rw [addBirths, List.foldl_cons]; exact (ih _).trans (modify_map_logl _ _)

theorem addBirths_logl (rows : List (Row K)) (ks : List Nat) :
    (addBirths rows ks).map (·.logl) = rows.map (·.logl) := by
  have := congrArg (List.map (·.1)) (addBirths_samples rows ks)
  rwa [List.map_map, List.map_map] at this

theorem length_addBirths (rows : List (Row K)) (ks : List Nat) :
    (addBirths rows ks).length = rows.length := by
  have := congrArg List.length (addBirths_logl rows ks)
  simpa using this

theorem sum_take_addOne {rows : List (Row K)} {k : Nat} (hk : k < rows.length) (i : Nat) :
    (((rows.modify k (fun r => { r with dn := r.dn + 1 })).map (·.dn)).take i).sum =
      ((rows.map (·.dn)).take i).sum + if k < i then 1 else 0 := by
  induction rows generalizing k i with
  | nil => simp at hk
  | cons r rs ih =>
    cases i with
    | zero => simp
    | succ i =>
      cases k with
      | zero => simp; omega
      | succ k =>
        have := ih (k := k) (by simpa using hk) i
        simp only [List.modify_succ_cons, List.map_cons, List.take_succ_cons, List.sum_cons, this]
        simp only [Nat.succ_lt_succ_iff]
        omega

theorem sum_take_addBirths {rows : List (Row K)} {ks : List Nat} (hk : ∀ k ∈ ks, k < rows.length)
    (i : Nat) : (((addBirths rows ks).map (·.dn)).take i).sum =
      ((rows.map (·.dn)).take i).sum + (ks.countP (fun k => decide (k < i)) : Int) := by
  induction ks generalizing rows with
  | nil => simp [addBirths]
  | cons k ks ih =>
    rw [addBirths, List.foldl_cons]
    have := ih (rows := rows.modify k (fun r => { r with dn := r.dn + 1 }))
      (fun x hx => by rw [List.length_modify]; exact hk x (by simp [hx]))
    unfold addBirths at this
    rw [this, sum_take_addOne (hk k (by simp)), List.countP_cons]
    simp only [decide_eq_true_eq]
    split <;> push_cast <;> omega

/-- The row chosen for a birth at `s` is below every point above `s` that has a
sample below it no further from `s`. -/
def BirthBelow (logls : List K) (s : K) (k : Nat) : Prop :=
  ∃ x, logls[k]? = some x ∧ ∀ f, s < f → (∃ l ∈ logls, l < f ∧ s - l ≤ f - s) → x < f

theorem argmin_spec {α : Type} [LinearOrder α] {xs : List α} (h : xs ≠ []) :
    ∃ k m, argmin xs = some k ∧ xs[k]? = some m ∧ (∀ x ∈ xs, m ≤ x) ∧
      ∀ j < k, xs[j]? ≠ some m := by
  obtain ⟨x, xs', rfl⟩ := List.exists_cons_of_ne_nil h
  have hm : amin (x :: xs') = some (xs'.foldl min x) := rfl
  obtain ⟨h1, h2⟩ := amin_eq_some.mp hm
  set m := xs'.foldl min x
  have hlt : (x :: xs').findIdx (fun y => decide (y = m)) < (x :: xs').length := by
    rw [List.findIdx_lt_length]; exact ⟨m, h1, by simp⟩
  refine ⟨(x :: xs').findIdx (fun y => decide (y = m)), m, by rw [argmin, hm]; rfl, ?_, h2, ?_⟩
  · rw [List.getElem?_eq_getElem hlt]
    have := List.findIdx_getElem (w := hlt)
    simpa using this
  · intro j hj hc
    have h3 := List.not_of_lt_findIdx hj
    obtain ⟨h4, h5⟩ := List.getElem?_eq_some_iff.mp hc
    rw [h5] at h3
    simp at h3

/-- The row chosen for a birth (ns_run_utils.py:268-284). -/
def birthRow (s : K) (rows : List (Row K)) : List Nat → M σ Nat
  | [k] => pure k
  | [] => match argmin (rows.map (fun r => |r.logl - s|)) with
    | some k => pure k
    | none => M.raise .value
  | a :: b :: l => npChoice R (a :: b :: l)

theorem birthUpdate_cons (abp : Bool) (s : K) (ss : List K) (rows : List (Row K)) :
    birthUpdate R abp (s :: ss) rows =
      ((if abp then M.assert (decide ((whereIdx (fun x => decide (x = s)) (rows.map (·.logl))).length = 1))
        else pure () : M σ Unit) >>= fun _ =>
      birthRow R s rows (whereIdx (fun x => decide (x = s)) (rows.map (·.logl))) >>= fun k : Nat =>
      birthUpdate R abp ss (rows.modify k (fun r => { r with dn := r.dn + 1 }))) := by
  rw [birthUpdate]
  generalize whereIdx (fun x => decide (x = s)) (rows.map (·.logl)) = ind
  match ind with
  | [k] => rfl
  | [] => rfl
  | a :: b :: l => rfl

section
variable [IsStrictOrderedRing K]

theorem birthBelow_argmin {logls : List K} (hs : logls.Pairwise (· ≤ ·)) {s : K} {k : Nat}
    (hne : logls ≠ []) (hk : argmin (logls.map (fun l => |l - s|)) = some k) :
    BirthBelow logls s k := by
  obtain ⟨k', m, h1, h2, h3, h4⟩ := argmin_spec (xs := logls.map (fun l => |l - s|)) (by simpa using hne)
  rw [hk] at h1
  cases h1
  rw [List.getElem?_map] at h2
  cases hx : logls[k]? with
  | none => rw [hx] at h2; simp at h2
  | some x =>
    rw [hx] at h2
    simp only [Option.map_some, Option.some.injEq] at h2
    subst h2
    refine ⟨x, hx, ?_⟩
    rintro f hf ⟨l, hl, hlf, hls⟩
    have hd := h3 |l - s| (List.mem_map_of_mem hl)
    have hxs := le_abs_self (x - s)
    rcases le_total s l with hsl | hsl
    · rw [abs_of_nonneg (a := l - s) (by linarith)] at hd
      linarith
    · rw [abs_of_nonpos (a := l - s) (by linarith)] at hd
      rcases lt_or_eq_of_le (show x ≤ f by linarith) with h | h
      · exact h
      · exfalso
        subst h
        obtain ⟨j, hj⟩ := List.mem_iff_getElem?.mp hl
        have hjk : j < k := by
          by_contra hc
          rcases Nat.lt_or_eq_of_le (Nat.le_of_not_lt hc) with h6 | rfl
          · exact absurd (pairwise_iff_getElem?.mp hs k j _ _ h6 hx hj) (not_le.mpr hlf)
          · rw [hx] at hj; cases hj; exact lt_irrefl _ hlf
        apply h4 j hjk
        rw [List.getElem?_map, hj, Option.map_some, Option.some.injEq,
          abs_of_nonpos (a := l - s) (by linarith)]
        linarith

/-- `combine_threads` without `assert_birth_point` always finds rows for the births. -/
theorem birthUpdate_general {logls : List K} (hs : logls.Pairwise (· ≤ ·)) (hne : logls ≠ [])
    (ss : List K) {rows : List (Row K)} (hrows : rows.map (·.logl) = logls) (w : World σ) :
    ∃ ks s', birthUpdate R false ss rows w = (.ok (addBirths rows ks), ⟨s', w.warns⟩) ∧
      List.Forall₂ (BirthBelow logls) ss ks := by
  induction ss generalizing rows w with
  | nil => exact ⟨[], w.rng, rfl, .nil⟩
  | cons s ss ih =>
    have hstep : ∃ k s1, birthRow R s rows (whereIdx (fun x => decide (x = s)) (rows.map (·.logl))) w =
          (.ok k, ⟨s1, w.warns⟩) ∧ BirthBelow logls s k := by
      have hmem : ∀ k ∈ whereIdx (fun x => decide (x = s)) (rows.map (·.logl)), BirthBelow logls s k := by
        intro k hk
        obtain ⟨x, hx, hxs⟩ := mem_whereIdx.mp hk
        rw [hrows] at hx
        have hxs : x = s := by simpa using hxs
        subst hxs
        exact ⟨x, hx, fun f hf _ => hf⟩
      generalize whereIdx (fun x => decide (x = s)) (rows.map (·.logl)) = ind at hmem ⊢
      match ind with
      | [k] => exact ⟨k, w.rng, rfl, hmem k (by simp)⟩
      | [] =>
        have e : rows.map (fun r => |r.logl - s|) = logls.map (fun l => |l - s|) := by
          rw [← hrows, List.map_map]; rfl
        obtain ⟨k, m, h1, -⟩ := argmin_spec (xs := logls.map (fun l => |l - s|)) (by simpa using hne)
        refine ⟨k, w.rng, ?_, birthBelow_argmin hs hne h1⟩
        simp only [birthRow, e, h1]
        rfl
      | a :: b :: l =>
        obtain ⟨x, h2, h1⟩ := npChoice_spec R (xs := a :: b :: l) (by simp) w
        exact ⟨x, _, h1, hmem x h2⟩
    obtain ⟨k, s1, h1, h2⟩ := hstep
    obtain ⟨ks, s', h3, h4⟩ := ih (rows := rows.modify k (fun r => { r with dn := r.dn + 1 }))
      (by
        rw [← hrows]
        have := congrArg (List.map (·.1)) (modify_map_logl rows k)
        rwa [List.map_map, List.map_map] at this) ⟨s1, w.warns⟩
    refine ⟨k :: ks, s', ?_, .cons h2 h4⟩
    rw [birthUpdate_cons, M.bind_ok (a := ()) (w' := w) (by rfl), M.bind_ok h1, h3]
    rfl

end

theorem birthUpdate_frame (abp : Bool) (ss : List K) (rows : List (Row K)) :
    Frame (birthUpdate R abp ss rows) := by
  induction ss generalizing rows with
  | nil => exact .pure _
  | cons s ss ih =>
    rw [birthUpdate_cons]
    refine .bind (.ite (.assert _) (.pure _)) fun _ => .bind ?_ fun k => ih _
    generalize whereIdx (fun x => decide (x = s)) (rows.map (·.logl)) = ind
    match ind with
    | [k] => exact .pure _
    | [] =>
      rw [birthRow]
      split
      · exact .pure _
      · exact .raise _
    | a :: b :: l => exact npChoice_frame R _

theorem Frame.silent {α : Type} {x : M σ α} (hx : Frame x) {s s' : σ} {a : α}
    (h : x ⟨s, []⟩ = (.ok a, ⟨s', []⟩)) (ws : List Warn) : x ⟨s, ws⟩ = (.ok a, ⟨s', ws⟩) := by
  rw [hx.ok h ws, List.append_nil]

/-! ### Counting -/

theorem length_finiteStarts (tmm : List (WithBot K × K)) :
    tmm.countP (fun p => decide (p.1 = ⊥)) + (finiteStarts tmm).length = tmm.length := by
  induction tmm with
  | nil => rfl
  | cons p ps ih =>
    obtain ⟨a, b⟩ := p
    cases a with
    | bot =>
      have : finiteStarts (((⊥ : WithBot K), b) :: ps) = finiteStarts ps := by
        unfold finiteStarts; rw [List.filterMap_cons]; rfl
      rw [this, List.countP_cons, List.length_cons]
      simp; omega
    | coe a =>
      have : finiteStarts (((a : WithBot K), b) :: ps) = a :: finiteStarts ps := by
        unfold finiteStarts; rw [List.filterMap_cons]; rfl
      rw [this, List.countP_cons, List.length_cons, List.length_cons]
      simp; omega

/-- The start of a thread can be placed below the thread among these logls. -/
def Placeable (logls : List K) (arr : List (Row K)) (p : WithBot K × K) : Prop :=
  ∀ s : K, p.1 = (s : WithBot K) → ∀ r ∈ arr, ∃ l ∈ logls, l < r.logl ∧ s - l ≤ r.logl - s

theorem count_late {logls : List K} (hs : logls.Pairwise (· ≤ ·)) {i : Nat} {v : K}
    (hi : logls[i]? = some v) {arrs : List (List (Row K))} {tmm : List (WithBot K × K)}
    (hR : List.Forall₂ (fun a p => ThreadRows a p ∧ Placeable logls a p) arrs tmm) {ks : List Nat}
    (hk : List.Forall₂ (BirthBelow logls) (finiteStarts tmm) ks) :
    ks.countP (fun k => decide (i ≤ k)) ≤ arrs.countP (fun a => decide (∀ r ∈ a, v < r.logl)) := by
  induction hR generalizing ks with
  | nil => cases hk; simp
  | @cons a p as ps h1 h2 ih =>
    obtain ⟨st, e⟩ := p
    cases st with
    | bot =>
      have : finiteStarts (((⊥ : WithBot K), e) :: ps) = finiteStarts ps := by
        unfold finiteStarts; rw [List.filterMap_cons]; rfl
      rw [this] at hk
      rw [List.countP_cons]
      have := ih hk
      omega
    | coe s =>
      have : finiteStarts (((s : WithBot K), e) :: ps) = s :: finiteStarts ps := by
        unfold finiteStarts; rw [List.filterMap_cons]; rfl
      rw [this] at hk
      cases hk with
      | @cons _ k _ ks' g1 g2 =>
        rw [List.countP_cons, List.countP_cons]
        have := ih g2
        by_cases hik : i ≤ k
        · rw [if_pos (show decide (∀ r ∈ a, v < r.logl) = true from ?_)]
          · split <;> omega
          · rw [decide_eq_true_iff]
            intro r hr
            obtain ⟨x, hx, hx2⟩ := g1
            have hvx : v ≤ x := by
              rcases Nat.lt_or_eq_of_le hik with h | rfl
              · exact pairwise_iff_getElem?.mp hs i k _ _ h hi hx
              · rw [hi] at hx; cases hx; exact le_rfl
            refine lt_of_le_of_lt hvx (hx2 _ ?_ (h1.2 s rfl r hr))
            exact WithBot.coe_lt_coe.mp (h1.1.born r hr)
        · rw [if_neg (by simpa using hik)]
          omega

theorem countP_forall₂_le {α β : Type} {P : α → β → Prop} {f : α → Bool} {g : β → Bool}
    {xs : List α} {ys : List β} (h : List.Forall₂ P xs ys) (hfg : ∀ x y, P x y → f x → g y) :
    xs.countP f ≤ ys.countP g ∧
      ((∃ q ∈ xs.zip ys, f q.1 = false ∧ g q.2 = true) → xs.countP f < ys.countP g) := by
  induction h with
  | nil => simp
  | @cons x y xs ys h1 h2 ih =>
    rw [List.countP_cons, List.countP_cons]
    have := hfg x y h1
    refine ⟨?_, ?_⟩
    · cases hf : f x with
      | false => have := ih.1; simp; omega
      | true => rw [if_pos (this hf)]; have := ih.1; simp; omega
    · rintro ⟨q, hq, hq1, hq2⟩
      rw [List.zip_cons_cons, List.mem_cons] at hq
      rcases hq with rfl | hq
      · have := ih.1
        simp only at hq1 hq2
        rw [hq1, hq2]; simp; omega
      · have h3 := ih.2 ⟨q, hq, hq1, hq2⟩
        cases hf : f x with
        | false => simp; omega
        | true => rw [if_pos (this hf)]; simp; omega

theorem exists_zip {α β : Type} {P : α → β → Prop} {xs : List α} {ys : List β}
    (h : List.Forall₂ P xs ys) {x : α} (hx : x ∈ xs) : ∃ y, (x, y) ∈ xs.zip ys ∧ P x y := by
  induction h with
  | nil => simp at hx
  | @cons a b as bs h1 h2 ih =>
    rcases List.mem_cons.mp hx with rfl | hx
    · exact ⟨b, by simp, h1⟩
    · obtain ⟨y, hy, hp⟩ := ih hx
      exact ⟨y, by simp [hy], hp⟩

theorem placeable_threads {L : List K} {threads : List (Run K)} {tmm : List (WithBot K × K)}
    {arrs : List (List (Row K))}
    (hT : List.Forall₂ (fun t p => IsThread t p.1 p.2) threads tmm)
    (hA : List.Forall₂ (fun t a => arrayGivenRun t = .ok a) threads arrs)
    (hR : List.Forall₂ ThreadRows arrs tmm)
    (hsub : ∀ t ∈ threads, ∀ p, t.tmm = some [p] → ∀ s : K, p.1 = (s : WithBot K) →
        ∀ f ∈ t.logl, ∃ l ∈ L, l < f ∧ s - l ≤ f - s) :
    List.Forall₂ (fun a p => ThreadRows a p ∧ Placeable L a p) arrs tmm := by
  induction hT generalizing arrs with
  | nil => cases hA; exact .nil
  | @cons t p ts ps h1 h2 ih =>
    cases hA with
    | cons a1 a2 =>
      cases hR with
      | cons r1 r2 =>
        refine .cons ⟨r1, ?_⟩ (ih a2 r2 (fun t ht => hsub t (List.mem_cons_of_mem _ ht)))
        intro s hs r hr
        refine hsub t (by simp) p h1.tmm_eq s hs r.logl ?_
        rcases arrayGivenRun_cases t with ⟨e, he⟩ | ⟨-, -, -, -, arr, ha, f1, -⟩
        · rw [he] at a1; cases a1
        · rw [ha] at a1
          cases a1
          rw [← f1]; exact List.mem_map_of_mem hr

/-- Threads, possibly repeated, with every finite start above the lowest sample and
placeable below its thread, are combined into a run. -/
theorem combineThreads_general [IsStrictOrderedRing K] {A : Argsort K} {threads : List (Run K)}
    {tmm : List (WithBot K × K)} (h0 : threads ≠ [])
    (hT : List.Forall₂ (fun t p => IsThread t p.1 p.2) threads tmm)
    (hdim : SameDim (threads.flatMap (·.theta)))
    (hlow : ∀ p ∈ tmm, ∀ s : K, p.1 = (s : WithBot K) → ∃ l ∈ threads.flatMap (·.logl), l < s)
    (hplace : ∀ t ∈ threads, ∀ p, t.tmm = some [p] → ∀ s : K, p.1 = (s : WithBot K) →
      ∀ f ∈ t.logl, ∃ l ∈ threads.flatMap (·.logl), l < f ∧ s - l ≤ f - s) :
    ∃ run : Run K, ∀ w : World σ, combineThreads A R threads false w = (.ok run, w) := by
  obtain ⟨arrs, hA, hR, e1, e2, e3⟩ := threads_rows hT
  set S := sortBy A (·.logl) arrs.flatten with hS
  have hperm : S.Perm arrs.flatten := sortBy_perm A _ _
  have hsort : S.Pairwise (fun a b => a.logl ≤ b.logl) := sortBy_sorted A _ _
  have hsortS : (S.map (·.logl)).Pairwise (· ≤ ·) := by rw [List.pairwise_map]; exact hsort
  have hSne : S ≠ [] := by
    intro h
    have : arrs.flatten = [] := by rw [h] at hperm; exact hperm.nil_eq.symm
    obtain ⟨t, ts, rfl⟩ := List.exists_cons_of_ne_nil h0
    cases hT with
    | cons h1 h2 =>
      have hne := h1.nonempty
      rw [this] at e1
      simp at e1
      exact hne e1.1
  have hpos : 0 < S.length := List.length_pos_iff.mpr hSne
  have hlne : S.map (·.logl) ≠ [] := by simpa using hSne
  have hmemS : ∀ l, l ∈ threads.flatMap (·.logl) ↔ l ∈ S.map (·.logl) := by
    intro l; rw [← e1, (hperm.map _).mem_iff]
  have hR2 : List.Forall₂ (fun a p => ThreadRows a p ∧ Placeable (S.map (·.logl)) a p) arrs tmm := by
    have hsub : ∀ t ∈ threads, ∀ p, t.tmm = some [p] → ∀ s : K, p.1 = (s : WithBot K) →
        ∀ f ∈ t.logl, ∃ l ∈ S.map (·.logl), l < f ∧ s - l ≤ f - s := by
      intro t ht p hp s hps f hf
      obtain ⟨l, hl, h⟩ := hplace t ht p hp s hps f hf
      exact ⟨l, (hmemS l).mp hl, h⟩
    generalize S.map (·.logl) = L at hsub
    exact placeable_threads hT hA hR hsub
  -- births
  have hbirth : ∃ ks s', (∀ ws, birthUpdate R false (finiteStarts tmm) S ⟨R.seed 0, ws⟩ =
      (.ok (addBirths S ks), ⟨s', ws⟩)) ∧
      List.Forall₂ (BirthBelow (S.map (·.logl))) (finiteStarts tmm) ks := by
    obtain ⟨ks, s', h1, h2⟩ := birthUpdate_general R hsortS hlne (finiteStarts tmm) rfl ⟨R.seed 0, []⟩
    exact ⟨ks, s', fun ws => (birthUpdate_frame R _ _ _).silent h1 ws, h2⟩
  obtain ⟨ks, s', hb, hk⟩ := hbirth
  have hklt : ∀ k ∈ ks, k < S.length := by
    intro k hkm
    have : ∀ {ss : List K} {ks : List Nat}, List.Forall₂ (BirthBelow (S.map (·.logl))) ss ks →
        ∀ k ∈ ks, k < S.length := by
      intro ss ks h
      induction h with
      | nil => simp
      | @cons s k ss ks h1 h2 ih =>
        intro k' hk'
        rcases List.mem_cons.mp hk' with rfl | hk'
        · obtain ⟨x, hx, -⟩ := h1
          have := (List.getElem?_eq_some_iff.mp hx).1
          simpa using this
        · exact ih k' hk'
    exact this hk k hkm
  have hklen : ks.length = (finiteStarts tmm).length := hk.length_eq.symm
  set rows := addBirths S ks with hrows
  have hrl : rows.map (·.logl) = S.map (·.logl) := addBirths_logl S ks
  have hrlen : rows.length = S.length := length_addBirths S ks
  obtain ⟨x, xs, hx⟩ := List.exists_cons_of_ne_nil hlne
  have hmin : amin (rows.map (·.logl)) = some x := by
    rw [hrl, hx]; exact amin_sorted (by rw [← hx]; exact hsortS)
  have hxmin := (amin_eq_some.mp hmin).2
  have hfin : ∀ p ∈ tmm, ∀ s : K, p.1 = (s : WithBot K) → x < s := by
    intro p hp s hps
    obtain ⟨l, hl, hls⟩ := hlow p hp s hps
    exact lt_of_le_of_lt (hxmin l (by rw [hrl]; exact (hmemS l).mp hl)) hls
  have hdup : tmm.countP (fun p => decide (p.1 = (x : WithBot K))) ≤ 1 := by
    rw [List.countP_eq_zero.mpr]
    · omega
    · intro p hp
      rw [decide_eq_true_iff]
      intro h
      exact absurd (hfin p hp x h) (lt_irrefl _)
  have hn0 : (tmm.countP (fun p => decide (p.1 = ⊥)) : Int) =
      tmm.countP (fun p => decide (p.1 ≤ (x : WithBot K))) := by
    congr 1
    apply List.countP_congr
    intro p hp
    simp only [decide_eq_true_eq]
    constructor
    · intro h; rw [h]; exact bot_le
    · intro h
      cases hp1 : p.1 with
      | bot => rfl
      | coe s =>
        rw [hp1] at h
        exact absurd (WithBot.coe_le_coe.mp h) (not_le.mpr (hfin p hp s hp1))
  have hdn : ∀ r ∈ S, r.dn = 0 ∨ r.dn = -1 := by
    intro r hr
    obtain ⟨arr, -, p, -, hra, hth⟩ := exists_thread hR (hperm.mem_iff.mp hr)
    rcases hth.dn_mem hra with h | h
    · exact .inl h.1
    · exact .inr h.1
  have hcount : S.countP isEnd = tmm.length := by
    rw [hperm.countP_eq, List.countP_eq_length_filter]
    have := congrArg List.length (filter_isEnd hR)
    rwa [List.length_map, List.length_map] at this
  set n0 : Int := ((tmm.countP (fun p => decide (p.1 = ⊥)) : Nat) : Int) with hn0d
  have hlive : ∀ i, n0 + ((rows.map (·.dn)).take i).sum =
      ((S.drop i).countP isEnd : Int) - (ks.countP (fun k => decide (i ≤ k)) : Int) := by
    intro i
    rw [hrows, sum_take_addBirths hklt, ← List.map_take,
      sum_dn_eq (fun r hr => hdn r (List.mem_of_mem_take hr))]
    have h1 := List.countP_append (p := isEnd) (l₁ := S.take i) (l₂ := S.drop i)
    rw [List.take_append_drop] at h1
    have h2 := length_finiteStarts tmm
    have h3 := List.length_eq_countP_add_countP (fun k => decide (k < i)) (l := ks)
    have h4 : ks.countP (fun k => decide ¬(decide (k < i)) = true) = ks.countP (fun k => decide (i ≤ k)) := by
      apply List.countP_congr; intro k _; simp
    rw [h4] at h3
    omega
  -- ends above a row
  have hends : ∀ (i : Nat) (r : Row K), S[i]? = some r →
      tmm.countP (fun p => decide (r.logl < p.2)) + (if isEnd r then 1 else 0) ≤ (S.drop i).countP isEnd := by
    intro i r hi
    have h1 : tmm.countP (fun p => decide (r.logl < p.2)) =
        S.countP (fun q => isEnd q && decide (r.logl < q.logl)) := by
      have h2 : tmm.countP (fun p => decide (r.logl < p.2)) =
          (tmm.map (·.2)).countP (fun e => decide (r.logl < e)) := by rw [List.countP_map]; rfl
      rw [h2, ← filter_isEnd hR, List.countP_map, List.countP_filter, hperm.countP_eq]
      apply List.countP_congr; intro q _; simp [and_comm]
    have hil := (List.getElem?_eq_some_iff.mp hi).1
    have hir := (List.getElem?_eq_some_iff.mp hi).2
    have h3 : (S.take i).countP (fun q => isEnd q && decide (r.logl < q.logl)) = 0 := by
      rw [List.countP_eq_zero]
      intro q hq
      obtain ⟨j, hj⟩ := List.mem_iff_getElem?.mp hq
      have hji : j < i := by
        have := (List.getElem?_eq_some_iff.mp hj).1
        simp at this; omega
      rw [List.getElem?_take, if_pos hji] at hj
      have := pairwise_iff_getElem?.mp hsort j i _ _ hji hj hi
      simp [this]
    have h4 := List.countP_append (p := fun q => isEnd q && decide (r.logl < q.logl))
      (l₁ := S.take i) (l₂ := S.drop i)
    rw [List.take_append_drop] at h4
    rw [h1, h4, h3, List.drop_eq_getElem_cons hil, hir, List.countP_cons, List.countP_cons]
    simp only [lt_irrefl, decide_false, Bool.and_false, Bool.false_eq_true, if_false]
    have : (S.drop (i + 1)).countP (fun q => isEnd q && decide (r.logl < q.logl)) ≤
        (S.drop (i + 1)).countP isEnd := List.countP_mono_left (by simp +contextual)
    omega
  have hlate : ∀ (i : Nat) (r : Row K), S[i]? = some r → ks.countP (fun k => decide (i ≤ k)) ≤
      arrs.countP (fun a => decide (∀ q ∈ a, r.logl < q.logl)) := by
    intro i r hi
    exact count_late hsortS (by rw [List.getElem?_map, hi]; rfl) hR2 hk
  have hlt : ∀ v : K, ∀ a (p : WithBot K × K), ThreadRows a p →
      decide (∀ q ∈ a, v < q.logl) = true → decide (v < p.2) = true := by
    intro v a p hth h
    rw [decide_eq_true_iff] at h ⊢
    obtain ⟨init, last, rfl, -, -, h3⟩ := hth.split
    rw [← h3]; exact h last (by simp)
  have hposi : ∀ (i : Nat) (r : Row K), S[i]? = some r →
      ks.countP (fun k => decide (i ≤ k)) < (S.drop i).countP isEnd := by
    intro i r hi
    have h1 := hends i r hi
    have h2 := hlate i r hi
    obtain ⟨h3, h4⟩ := countP_forall₂_le hR (hlt r.logl)
    cases he : isEnd r with
    | true => rw [he] at h1; simp at h1; omega
    | false =>
      obtain ⟨arr, harr, hra⟩ := List.mem_flatten.mp (hperm.mem_iff.mp (List.mem_of_getElem? hi))
      obtain ⟨p, hz, hth⟩ := exists_zip hR harr
      have := h4 ⟨(arr, p), hz, by simp; exact ⟨r, hra, le_rfl⟩, by
        rcases hth.dn_mem hra with h | h
        · simpa using h.2
        · simp [isEnd, h.1] at he⟩
      rw [he] at h1; simp at h1; omega
  have hcond : (∀ i < rows.length, 0 < n0 + ((rows.map (·.dn)).take i).sum) ∧
      n0 + ((rows.map (·.dn)).take (rows.length - 1)).sum = 1 := by
    constructor
    · intro i hi
      rw [hrlen] at hi
      rw [hlive]
      have := hposi i _ (List.getElem?_eq_getElem hi)
      omega
    · rw [hlive, hrlen]
      have hi : S.length - 1 < S.length := by omega
      have h1 := hposi _ _ (List.getElem?_eq_getElem hi)
      have h2 : (S.drop (S.length - 1)).countP isEnd ≤ 1 := by
        refine le_trans (List.countP_le_length) ?_
        rw [List.length_drop]; omega
      omega
  refine ⟨finishThreads (runOfRows rows (liveFrom n0 (rows.map (·.dn))) tmm), ?_⟩
  intro w
  refine combineThreads_eq R h0 hT hA (by rw [e3]; exact hdim) (s := s') ?_ ?_
  · rw [← hS]; exact hb w.warns
  · rw [dict_apply hmin hdup hn0, if_pos hcond]

end Nestcheck
