import Verif.Proofs.CombineLive
import Verif.Proofs.CombineGeneral

/-! When combine_threads fails: a thread starting on the lowest sample, or all threads
starting on a contour below it. -/

set_option linter.unusedSectionVars false

namespace Nestcheck
open Spec
variable {σ K : Type} [CommRing K] [LinearOrder K] (R : Rng σ K)

/-- A call of `combine_threads` on proper threads for which the live counts fail. -/
theorem combineThreads_fail {A : Argsort K} {threads : List (Run K)} {tmm : List (WithBot K × K)}
    {arrs : List (List (Row K))} {abp : Bool} {w : World σ} (h0 : threads ≠ [])
    (hT : List.Forall₂ (fun t p => IsThread t p.1 p.2) threads tmm)
    (hA : List.Forall₂ (fun t a => arrayGivenRun t = .ok a) threads arrs)
    (hdim : SameDim (arrs.flatten.map (·.theta))) {rows : List (Row K)} {s : σ} {e : PyErr}
    (hb : birthUpdate R abp (finiteStarts tmm) (sortBy A (·.logl) arrs.flatten) ⟨R.seed 0, w.warns⟩
      = (.ok rows, ⟨s, w.warns⟩))
    (hd : dictGivenRunArray rows tmm w = (.error e, w)) :
    combineThreads A R threads abp w = (.error e, w) := by
  have hst : tmmStack threads = .ok tmm := by
    rw [tmmStack_ok (tms := tmm.map (fun p => [p])) h0]
    · congr 1
      clear hT hb hd
      induction tmm with
      | nil => rfl
      | cons p ps ih => simpa using ih
    · clear hb hd hA hdim h0
      induction hT with
      | nil => exact .nil
      | cons h1 h2 ih => exact .cons h1.tmm_eq ih
  have hlen : threads.length = tmm.length := hT.length_eq
  have hane : arrs ≠ [] := by
    rintro rfl
    have := hA.length_eq
    simp at this
    exact h0 this
  unfold combineThreads
  rw [M.bind_ok (a := tmm) (w' := w) (by rw [M.lift_apply, hst])]
  rw [M.bind_ok (a := ()) (w' := w) (by rw [M.assert_apply]; simp [hlen])]
  rw [M.bind_ok (a := arrs) (w' := w) (by rw [M.lift_apply, arraysGivenRuns_ok hA])]
  rw [M.bind_ok (a := arrs.flatten) (w' := w) (by rw [M.lift_apply, vstack_ok hane hdim])]
  rw [M.bind_ok (a := w.rng) (w' := w) (by rw [M.getState_apply])]
  rw [M.bind_ok (a := ()) (w' := ⟨R.seed 0, w.warns⟩) (by rfl)]
  rw [M.bind_ok hb]
  rw [M.bind_ok (a := ()) (w' := w) (by rfl)]
  rw [M.bind_error hd]

/-- Threads with distinct logls, born on samples, exactly one of them on the lowest
sample: the assertion on the last live count fails. -/
theorem combineThreads_lowest {A : Argsort K} {threads : List (Run K)}
    {tmm : List (WithBot K × K)} {abp : Bool} (h0 : threads ≠ [])
    (hT : List.Forall₂ (fun t p => IsThread t p.1 p.2) threads tmm)
    (hdim : SameDim (threads.flatMap (·.theta)))
    (hnd : (threads.flatMap (·.logl)).Nodup)
    (hb : ∀ p ∈ tmm, ∀ s : K, p.1 = (s : WithBot K) → s ∈ threads.flatMap (·.logl))
    {m : K} (hm : m ∈ threads.flatMap (·.logl)) (hmin : ∀ l ∈ threads.flatMap (·.logl), m ≤ l)
    (hone : tmm.countP (fun p => decide (p.1 = (m : WithBot K))) = 1) (w : World σ) :
    combineThreads A R threads abp w = (.error .assertion, w) := by
  obtain ⟨arrs, hA, hR, e1, e2, e3⟩ := threads_rows hT
  set S := sortBy A (·.logl) arrs.flatten with hS
  have hperm : S.Perm arrs.flatten := sortBy_perm A _ _
  rw [← e1] at hnd hb hm hmin
  have hndS : (S.map (·.logl)).Nodup := (hperm.map _).nodup_iff.mpr hnd
  have hstrict : S.Pairwise (fun a b => a.logl < b.logl) := sortBy_strict hnd
  have hin : ∀ s ∈ finiteStarts tmm, s ∈ S.map (·.logl) := by
    intro s hs
    obtain ⟨p, hp, hps⟩ := mem_finiteStarts.mp hs
    exact (hperm.map _).mem_iff.mpr (hb p hp s hps)
  set rows := S.map (fun r => { r with dn := r.dn + ((finiteStarts tmm).count r.logl : Int) }) with hrows
  have hrl : rows.map (·.logl) = S.map (·.logl) := by rw [hrows, List.map_map]; rfl
  have hrlen : rows.length = S.length := by rw [hrows, List.length_map]
  have hstart : ∀ p ∈ tmm, p.1 < (p.2 : WithBot K) := by
    intro p hp
    obtain ⟨a, -, ha⟩ := exists_arr hR hp
    exact ha.start_lt
  have hsum : ∀ (i : Nat) (r : Row K), S[i]? = some r →
      ((rows.map (·.dn)).take i).sum = ((finiteStarts tmm).countP (fun s => decide (s < r.logl)) : Int) -
        tmm.countP (fun p => decide (p.2 < r.logl)) := by
    intro i r hi
    rw [hrows, List.map_map, ← List.map_take, take_eq_filter hstrict hi]
    have : ((S.filter (fun x => decide (x.logl < r.logl))).map
        ((fun x : Row K => x.dn) ∘ fun r => { r with dn := r.dn + ((finiteStarts tmm).count r.logl : Int) })).sum
        = ((S.filter (fun x => decide (x.logl < r.logl))).map (·.dn)).sum +
          ((S.filter (fun x => decide (x.logl < r.logl))).map
            (fun r => ((finiteStarts tmm).count r.logl : Int))).sum := by
      rw [← List.sum_map_add]; rfl
    rw [this, sum_starts hndS hin, ((hperm.filter _).map _).sum_eq, sum_ends hR]
    omega
  have hSne : S ≠ [] := by
    intro h
    have := (hperm.map (·.logl)).mem_iff.mpr hm
    simp [h] at this
  have hpos : 0 < S.length := List.length_pos_iff.mpr hSne
  have hmin' : amin (rows.map (·.logl)) = some m := by
    rw [hrl, amin_eq_some]
    exact ⟨(hperm.map _).mem_iff.mpr hm, fun l hl => hmin l ((hperm.map _).mem_iff.mp hl)⟩
  set n0 : Int := ((tmm.countP (fun p => decide (p.1 ≤ (m : WithBot K))) : Nat) : Int) with hn0d
  have hn0 : n0 = tmm.countP (fun p => decide (p.1 = ⊥)) + 1 := by
    rw [hn0d]
    have h1 : (1 : Int) = ((tmm.countP (fun p => decide (p.1 = (m : WithBot K))) : Nat) : Int) := by
      rw [hone]; rfl
    rw [h1]
    norm_cast
    have : ∀ ps : List (WithBot K × K), (∀ p ∈ ps, ∀ s : K, p.1 = (s : WithBot K) → m ≤ s) →
        ps.countP (fun p => decide (p.1 ≤ (m : WithBot K))) =
        ps.countP (fun p => decide (p.1 = ⊥)) + ps.countP (fun p => decide (p.1 = (m : WithBot K))) := by
      intro ps
      induction ps with
      | nil => intro _; rfl
      | cons p ps ih =>
        intro h
        rw [List.countP_cons, List.countP_cons, List.countP_cons, ih (fun q hq => h q (by simp [hq]))]
        have hp := h p (by simp)
        cases hp1 : p.1 with
        | bot => simp; omega
        | coe s =>
          have h2 := hp s hp1
          have h3 : s ≤ m ↔ s = m := ⟨fun h => le_antisymm h h2, fun h => h.le⟩
          simp only [WithBot.coe_le_coe, WithBot.coe_inj, h3, WithBot.coe_ne_bot, decide_false]
          simp
          omega
    exact this tmm (fun p hp s hps => hmin s (hb p hp s hps))
  refine combineThreads_fail R h0 hT hA (by rw [e3]; exact hdim) (s := R.seed 0)
    (birthUpdate_unique R abp _ _ _ hndS hin) ?_
  rw [dict_apply hmin' (by omega) rfl, if_neg]
  rintro ⟨-, h⟩
  rw [hrlen] at h
  have hi : S.length - 1 < S.length := by omega
  have hg := List.getElem?_eq_getElem hi
  have hge : 0 < tmm.countP (fun p => decide (p.1 < (S[S.length - 1].logl : WithBot K) ∧
      S[S.length - 1].logl ≤ p.2)) := by
    obtain ⟨arr, -, p, hp, hra, hth⟩ := exists_thread hR (hperm.mem_iff.mp (List.mem_of_getElem? hg))
    rw [List.countP_pos_iff]
    refine ⟨p, hp, ?_⟩
    rw [decide_eq_true_iff]
    refine ⟨hth.born _ hra, ?_⟩
    obtain ⟨init, last, rfl, h1, h2, h3⟩ := hth.split
    rcases List.mem_append.mp hra with h | h
    · exact (h1 _ h).2.le
    · simp at h; rw [h, h3]
  have h2 := countP_live hstart S[S.length - 1].logl
  rw [countP_starts] at h2
  rw [hsum _ _ hg, ← hn0d, hn0] at h
  push_cast at h2
  omega

/-- Births on a contour below all samples are counted at the lowest sample. -/
theorem birthUpdate_below [IsStrictOrderedRing K] (ss : List K) (r : Row K) (rows : List (Row K)) (w : World σ)
    (hs : ∀ s ∈ ss, s < r.logl) (hm : ∀ x ∈ rows, r.logl ≤ x.logl) :
    birthUpdate R false ss (r :: rows) w = (.ok ({ r with dn := r.dn + (ss.length : Int) } :: rows), w) := by
  induction ss generalizing r with
  | nil => simp [birthUpdate]
  | cons s ss ih =>
    have hlt := hs s (by simp)
    have hind : whereIdx (fun x => decide (x = s)) ((r :: rows).map (·.logl)) = [] := by
      rw [List.eq_nil_iff_forall_not_mem]
      intro k hk
      obtain ⟨x, hx, hd⟩ := mem_whereIdx.mp hk
      have hx' := List.mem_of_getElem? hx
      simp only [decide_eq_true_eq] at hd
      subst hd
      rw [List.map_cons, List.mem_cons] at hx'
      rcases hx' with h | h
      · exact absurd h hlt.ne
      · obtain ⟨y, hy, rfl⟩ := List.mem_map.mp h
        exact absurd (hm y hy) (not_le.mpr hlt)
    have habs : ∀ y : K, r.logl ≤ y → |y - s| = y - s := fun y hy =>
      abs_of_nonneg (sub_nonneg.mpr (le_trans hlt.le hy))
    have harg : argmin ((r :: rows).map (fun x => |x.logl - s|)) = some 0 := by
      obtain ⟨k, m, h1, h2, h3, h4⟩ := argmin_spec (xs := (r :: rows).map (fun x => |x.logl - s|)) (by simp)
      rw [h1]
      congr 1
      by_contra hk
      have h5 := h4 0 (Nat.pos_of_ne_zero hk)
      apply h5
      have hmem := List.mem_of_getElem? h2
      obtain ⟨y, hy, hym⟩ := List.mem_map.mp hmem
      have hle : m ≤ |r.logl - s| := h3 _ (by simp)
      rw [habs _ le_rfl] at hle
      have hry : r.logl ≤ y.logl := by
        rcases List.mem_cons.mp hy with rfl | hy
        · exact le_rfl
        · exact hm y hy
      rw [habs _ hry] at hym
      rw [List.map_cons, List.getElem?_cons_zero, habs _ le_rfl]
      congr 1
      exact le_antisymm (by rw [← hym]; exact sub_le_sub_right hry s) hle
    rw [birthUpdate, hind, harg]
    simp only [Bool.false_eq_true, if_false]
    rw [M.bind_ok (a := ()) (w' := w) (by rfl), M.bind_ok (a := 0) (w' := w) (by rfl)]
    rw [List.modify_zero_cons, ih { r with dn := r.dn + 1 } (fun t ht => hs t (by simp [ht])) hm]
    simp only [List.length_cons]
    congr 4
    push_cast
    omega

/-- Threads which all start on finite contours below all samples, at least two
samples in total: the assertion on the last live count fails. -/
theorem combineThreads_below [IsStrictOrderedRing K] {A : Argsort K} {threads : List (Run K)}
    {tmm : List (WithBot K × K)} (h0 : threads ≠ [])
    (hT : List.Forall₂ (fun t p => IsThread t p.1 p.2) threads tmm)
    (hdim : SameDim (threads.flatMap (·.theta)))
    (hb : ∀ p ∈ tmm, ∃ s : K, p.1 = (s : WithBot K) ∧ ∀ l ∈ threads.flatMap (·.logl), s < l)
    (h2 : 2 ≤ (threads.flatMap (·.logl)).length) (w : World σ) :
    combineThreads A R threads false w = (.error .assertion, w) := by
  obtain ⟨arrs, hA, hR, e1, e2, e3⟩ := threads_rows hT
  set S := sortBy A (·.logl) arrs.flatten with hS
  have hperm : S.Perm arrs.flatten := sortBy_perm A _ _
  have hsort : S.Pairwise (fun a b => a.logl ≤ b.logl) := sortBy_sorted A _ _
  have hSlen : 2 ≤ S.length := by
    rw [hperm.length_eq]; rw [← e1, List.length_map] at h2; exact h2
  have hbelow : ∀ p ∈ tmm, ∃ s : K, p.1 = (s : WithBot K) ∧ ∀ r ∈ S, s < r.logl := by
    intro p hp
    obtain ⟨s, h3, h4⟩ := hb p hp
    refine ⟨s, h3, fun r hr => h4 _ ?_⟩
    rw [← e1]
    exact List.mem_map_of_mem (hperm.mem_iff.mp hr)
  have hfl : (finiteStarts tmm).length = tmm.length := by
    have : ∀ ps : List (WithBot K × K), (∀ p ∈ ps, ∃ s : K, p.1 = (s : WithBot K)) →
        (finiteStarts ps).length = ps.length := by
      intro ps
      induction ps with
      | nil => intro _; rfl
      | cons p ps ih =>
        intro h
        obtain ⟨a, b⟩ := p
        obtain ⟨s, hs⟩ := h _ (List.mem_cons_self)
        have hs : a = (s : WithBot K) := hs
        subst hs
        have : finiteStarts (((s : WithBot K), b) :: ps) = s :: finiteStarts ps := by
          unfold finiteStarts; rw [List.filterMap_cons]; rfl
        rw [this, List.length_cons, List.length_cons, ih (fun q hq => h q (by simp [hq]))]
    exact this tmm (fun p hp => by obtain ⟨s, hs, -⟩ := hbelow p hp; exact ⟨s, hs⟩)
  have hcount : S.countP isEnd = tmm.length := by
    rw [hperm.countP_eq, List.countP_eq_length_filter]
    have := congrArg List.length (filter_isEnd hR)
    rwa [List.length_map, List.length_map] at this
  have hdn : ∀ r ∈ S, r.dn = 0 ∨ r.dn = -1 := by
    intro r hr
    obtain ⟨arr, -, p, -, hra, hth⟩ := exists_thread hR (hperm.mem_iff.mp hr)
    rcases hth.dn_mem hra with h | h
    · exact .inl h.1
    · exact .inr h.1
  have hlast : ∀ x : Row K, S.getLast? = some x → x ∈ S → x.dn = -1 := by
    intro x hx hxS
    obtain ⟨arr, harr, p, -, hra, hth⟩ := exists_thread hR (hperm.mem_iff.mp hxS)
    rcases hth.dn_mem hra with h | h
    · exfalso
      obtain ⟨init, last, rfl, h3, h4, h5⟩ := hth.split
      have hl : last ∈ S := hperm.mem_iff.mpr (List.mem_flatten.mpr ⟨_, harr, by simp⟩)
      have hlt : x.logl < last.logl := by rw [h5]; exact h.2
      obtain ⟨Si, y, hy⟩ := List.eq_nil_or_concat S |>.resolve_left (List.ne_nil_of_mem hxS)
      rw [List.concat_eq_append] at hy
      rw [hy, List.getLast?_append, List.getLast?_singleton, Option.some_or, Option.some.injEq] at hx
      subst hx
      rw [hy] at hl hsort
      rcases List.mem_append.mp hl with h6 | h6
      · exact absurd hlt (not_lt.mpr ((List.pairwise_append.mp hsort).2.2 last h6 y (by simp)))
      · simp at h6
        rw [h6] at hlt
        exact lt_irrefl _ hlt
    · exact h.1
  clear_value S
  obtain ⟨r, S', rfl⟩ := List.exists_cons_of_ne_nil (l := S) (by rintro rfl; simp at hSlen)
  have hr : ∀ x ∈ S', r.logl ≤ x.logl := fun x hx => List.rel_of_pairwise_cons hsort hx
  have hss : ∀ s ∈ finiteStarts tmm, s < r.logl := by
    intro s hs
    obtain ⟨p, hp, hps⟩ := mem_finiteStarts.mp hs
    obtain ⟨s', h3, h4⟩ := hbelow p hp
    rw [hps] at h3
    rw [WithBot.coe_inj.mp h3]
    exact h4 r (by simp)
  refine combineThreads_fail R h0 hT hA (by rw [e3]; exact hdim) (s := R.seed 0)
    (rows := { r with dn := r.dn + ((finiteStarts tmm).length : Int) } :: S') ?_ ?_
  · rw [← hS]
    exact birthUpdate_below R _ r S' _ hss hr
  have hmin : amin ((({ r with dn := r.dn + ((finiteStarts tmm).length : Int) } : Row K) :: S').map (·.logl)) =
      some r.logl := by
    rw [amin_eq_some]
    refine ⟨by simp, ?_⟩
    intro l hl
    rw [List.map_cons, List.mem_cons] at hl
    rcases hl with rfl | hl
    · exact le_rfl
    · obtain ⟨x, hx, rfl⟩ := List.mem_map.mp hl
      exact hr x hx
  have hlt : ∀ p ∈ tmm, p.1 < (r.logl : WithBot K) := by
    intro p hp
    obtain ⟨s, h3, h4⟩ := hbelow p hp
    rw [h3]
    exact WithBot.coe_lt_coe.mpr (h4 r (by simp))
  have hn0 : tmm.countP (fun p => decide (p.1 ≤ (r.logl : WithBot K))) = tmm.length := by
    rw [List.countP_eq_length]
    intro p hp
    simpa using (hlt p hp).le
  have hd0 : tmm.countP (fun p => decide (p.1 = (r.logl : WithBot K))) = 0 := by
    rw [List.countP_eq_zero]
    intro p hp
    simpa using (hlt p hp).ne
  rw [dict_apply hmin (by omega) rfl, if_neg]
  rintro ⟨-, h⟩
  rw [hn0] at h
  have hlen : (({ r with dn := r.dn + ((finiteStarts tmm).length : Int) } : Row K) :: S').length - 1 =
      (S'.length - 1) + 1 := by
    simp only [List.length_cons] at hSlen ⊢
    omega
  rw [hlen, List.map_cons, List.take_succ_cons, List.sum_cons, hfl] at h
  have h3 : ((r :: S').map (·.dn)).sum = -(tmm.length : Int) := by
    rw [sum_dn_eq hdn, hcount]
  rw [List.map_cons, List.sum_cons] at h3
  have h4 : ((S'.map (·.dn)).take (S'.length - 1)).sum = (S'.map (·.dn)).sum + 1 := by
    have hS'ne : S' ≠ [] := by rintro rfl; simp at hSlen
    obtain ⟨init, last, hl⟩ := List.eq_nil_or_concat S' |>.resolve_left hS'ne
    rw [List.concat_eq_append] at hl
    have hmem : last ∈ r :: S' := by rw [hl]; simp
    have hend : last.dn = -1 := hlast last (by
      rw [hl, ← List.cons_append, List.getLast?_append, List.getLast?_singleton]; rfl) hmem
    rw [hl]
    simp [hend]
  have h5 : 0 < tmm.length := by
    rw [← hT.length_eq]
    exact List.length_pos_iff.mpr h0
  simp only at h
  have h7 := hdn r (by simp)
  omega

end Nestcheck
