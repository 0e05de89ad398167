import Verif.Proofs.RunArray
import Verif.Props.DeadBirth

/-
C85: the array of samples of a run, and the run made from it.
-/

set_option linter.unusedSectionVars false

namespace Nestcheck
open Spec
variable {σ K : Type} [CommRing K] [LinearOrder K]

/-- A run with at least one sample whose arrays have the same lengths. -/
structure Spec.SameColumns (r : Run K) : Prop where
  nonempty : r.logl ≠ []
  nlive : r.nlive.length = r.logl.length
  theta : r.theta.length = r.logl.length
  labels : ∀ ls ∈ r.labels, ls.length = r.logl.length

/-- Row `i` holds the loglikelihood, label (nan if the run has none), change of the live count after the sample, and parameters
of sample `i`; after the last sample no point is live, and the change is written as -1. -/
structure Spec.RowsOf (r : Run K) (rows : List (Row K)) : Prop where
  length : rows.length = r.logl.length
  logl : ∀ (i : Nat) (row : Row K), rows[i]? = some row → r.logl[i]? = some row.logl
  theta : ∀ (i : Nat) (row : Row K), rows[i]? = some row → r.theta[i]? = some row.theta
  label : ∀ (i : Nat) (row : Row K), rows[i]? = some row → row.label = r.labels.bind (·[i]?)
  change : ∀ (i : Nat) (row : Row K) (a b : Int), rows[i]? = some row → r.nlive[i]? = some a → r.nlive[i + 1]? = some b → row.dn = b - a
  last : ∀ (i : Nat) (row : Row K), rows[i]? = some row → i + 1 = r.logl.length → row.dn = -1

theorem getElem?_of_map {α β : Type} {f : α → β} {xs : List α} {ys : List β} (h : xs.map f = ys) {i : Nat} {x : α}
    (hx : xs[i]? = some x) : ys[i]? = some (f x) := by
  rw [← h, List.getElem?_map, hx]; rfl

theorem rowsOf_of_columns {r : Run K} (hs : SameColumns r) {rows : List (Row K)} (h1 : rows.map (·.logl) = r.logl)
    (h2 : rows.map (·.label) = labelColumn r) (h3 : rows.map (·.dn) = diff r.nlive ++ [-1]) (h4 : rows.map (·.theta) = r.theta) :
    RowsOf r rows := by
  have hlen : rows.length = r.logl.length := by rw [← h1, List.length_map]
  refine ⟨hlen, fun i row h => getElem?_of_map h1 h, fun i row h => getElem?_of_map h4 h, ?_, ?_, ?_⟩
  · intro i row h
    have hi : i < r.logl.length := by rw [← hlen]; exact (List.getElem?_eq_some_iff.mp h).1
    have := getElem?_of_map h2 h
    unfold labelColumn at this
    cases hl : r.labels with
    | none =>
      simp only [hl, List.getElem?_replicate, hi, if_true, Option.some.injEq] at this
      simp [← this]
    | some ls =>
      have hil : i < ls.length := by rw [hs.labels ls hl]; exact hi
      simp only [hl, List.getElem?_map, List.getElem?_eq_getElem hil, Option.map_some, Option.some.injEq] at this
      simp [← this, List.getElem?_eq_getElem hil]
  · intro i row a b h ha hb
    have := getElem?_of_map h3 h
    have hd := getElem?_diff ha hb
    rw [List.getElem?_append_left (List.getElem?_eq_some_iff.mp hd).1, hd] at this
    exact (Option.some.inj this).symm
  · intro i row h hi
    have := getElem?_of_map h3 h
    have hpos : 0 < r.logl.length := List.length_pos_iff.mpr hs.nonempty
    have hd : (diff r.nlive).length = i := by rw [length_diff, hs.nlive]; omega
    rw [List.getElem?_append_right (by omega), hd, Nat.sub_self] at this
    simpa using this.symm

/-- C85.  `array_given_run` succeeds for runs whose arrays have the same lengths, and gives a row for each sample. -/
theorem C85_array {r : Run K} {rows : List (Row K)} : arrayGivenRun r = .ok rows ↔ SameColumns r ∧ RowsOf r rows := by
  constructor
  · intro h
    rcases arrayGivenRun_cases r with ⟨e, he⟩ | ⟨c0, c1, c2, c3, rows', h0, h1, h2, h3, h4⟩
    · rw [he] at h; cases h
    · rw [h0] at h
      cases h
      have hs : SameColumns r := ⟨c0, c1, c2, c3⟩
      exact ⟨hs, rowsOf_of_columns hs h1 h2 h3 h4⟩
  · rintro ⟨hs, hr⟩
    have hpos : 0 < r.logl.length := List.length_pos_iff.mpr hs.nonempty
    have hok : ∃ rows', arrayGivenRun r = .ok rows' ∧ rows'.map (·.logl) = r.logl ∧
        rows'.map (·.label) = labelColumn r ∧ rows'.map (·.dn) = diff r.nlive ++ [-1] ∧ rows'.map (·.theta) = r.theta := by
      have hlab : (labelColumn r).length = r.logl.length := by
        unfold labelColumn
        cases hl : r.labels with
        | none => simp
        | some ls => simpa using hs.labels ls hl
      refine ⟨mkRows r.logl (labelColumn r) (diff r.nlive ++ [-1]) r.theta, ?_, ?_⟩
      · unfold arrayGivenRun
        simp only
        rw [if_neg (by simp [hlab, hs.nlive, hs.theta]), if_neg (by omega)]
      · exact mkRows_map hlab (by simp [length_diff, hs.nlive]; omega) hs.theta
    obtain ⟨rows', h0, h1, h2, h3, h4⟩ := hok
    have hr' := rowsOf_of_columns hs h1 h2 h3 h4
    rw [h0]
    congr 1
    apply List.ext_getElem (by rw [hr.length, hr'.length])
    intro i hi hi'
    have e := List.getElem?_eq_getElem hi'
    have e' := List.getElem?_eq_getElem hi
    have hin : i < r.logl.length := by rw [← hr.length]; exact hi'
    apply row_ext
    · exact Option.some.inj ((hr'.logl i _ e').symm.trans (hr.logl i _ e))
    · rw [hr'.label i _ e', hr.label i _ e]
    · by_cases hl : i + 1 = r.logl.length
      · rw [hr'.last i _ e' hl, hr.last i _ e hl]
      · have a := List.getElem?_eq_getElem (l := r.nlive) (i := i) (by rw [hs.nlive]; omega)
        have b := List.getElem?_eq_getElem (l := r.nlive) (i := i + 1) (by rw [hs.nlive]; omega)
        rw [hr'.change i _ _ _ e' a b, hr.change i _ _ _ e a b]
    · exact Option.some.inj ((hr'.theta i _ e').symm.trans (hr.theta i _ e))

/-- The condition under which live counts can be recovered from their changes: the first one is the number of threads which
start at or below the lowest sample, none is zero, and the last is one. -/
structure Spec.Recoverable (r : Run K) (tmm : List (WithBot K × K)) : Prop where
  first : ∃ m ∈ r.logl, (∀ l ∈ r.logl, m ≤ l) ∧ r.nlive.head? = some (tmm.countP (fun p => decide (p.1 ≤ (m : WithBot K))) : Int)
  pos : ∀ n ∈ r.nlive, 0 < n
  last : r.nlive.getLast? = some 1

theorem columns_of_array {r : Run K} {rows : List (Row K)} (h : arrayGivenRun r = .ok rows) :
    SameColumns r ∧ rows.map (·.logl) = r.logl ∧ rows.map (·.label) = labelColumn r ∧
      rows.map (·.dn) = diff r.nlive ++ [-1] ∧ rows.map (·.theta) = r.theta := by
  rcases arrayGivenRun_cases r with ⟨e, he⟩ | ⟨c0, c1, c2, c3, rows', h0, h1⟩
  · rw [he] at h; cases h
  · rw [h0] at h
    cases h
    exact ⟨⟨c0, c1, c2, c3⟩, h1⟩

/-- C85.  If at most one thread starts exactly at the lowest sample, `dict_given_run_array` recovers the run from its array if its
live counts can be recovered, and only then. -/
theorem C85_round_trip {r : Run K} {rows : List (Row K)} (h : arrayGivenRun r = .ok rows) {tmm : List (WithBot K × K)}
    (hd : ∀ m ∈ r.logl, (∀ l ∈ r.logl, m ≤ l) → tmm.countP (fun p => decide (p.1 = (m : WithBot K))) ≤ 1) (w : World σ) :
    dictGivenRunArray rows tmm w = (.ok { r with tmm := some tmm }, w) ↔ Recoverable r tmm := by
  obtain ⟨hs, h1, h2, h3, h4⟩ := columns_of_array h
  have hlen : rows.length = r.logl.length := by rw [← h1, List.length_map]
  have hpos : 0 < r.logl.length := List.length_pos_iff.mpr hs.nonempty
  obtain ⟨m, hm⟩ : ∃ m, amin r.logl = some m := by
    cases hl : r.logl with
    | nil => exact absurd hl hs.nonempty
    | cons l ls => exact ⟨_, rfl⟩
  obtain ⟨hmem, hmin⟩ := amin_eq_some.mp hm
  have hap := dict_apply (σ := σ) (rows := rows) (tmm := tmm) (by rw [h1]; exact hm) (hd m hmem hmin) rfl w
  have hnl : 0 < r.nlive.length := by rw [hs.nlive]; exact hpos
  have a0 : r.nlive[0]? = some r.nlive[0] := List.getElem?_eq_getElem hnl
  have hdl : (diff r.nlive).length + 1 = r.nlive.length := by rw [length_diff]; omega
  have htake : ∀ i (hi : i < r.nlive.length), ((diff r.nlive ++ [-1]).take i).sum = r.nlive[i] - r.nlive[0] := by
    intro i hi
    rw [List.take_append_of_le_length (by omega)]
    exact sum_take_diff a0 (List.getElem?_eq_getElem hi)
  have hlabels : allSome (labelColumn r) = r.labels := by
    unfold labelColumn
    cases hl : r.labels with
    | some ls => exact allSome_map_some ls
    | none =>
      cases hn : r.logl.length with
      | zero => omega
      | succ n => rfl
  constructor
  · intro e
    rw [hap] at e
    split_ifs at e with hc
    · have e2 := Except.ok.inj (congrArg Prod.fst e)
      have e3 : liveFrom _ (rows.map (·.dn)) = r.nlive := congrArg Run.nlive e2
      have hhead : r.nlive[0]? = some (tmm.countP (fun p => decide (p.1 ≤ (m : WithBot K))) : Int) := by
        rw [← e3]; rfl
      rw [hlen, ← hs.nlive, h3] at hc
      have hz : r.nlive[0] = (tmm.countP (fun p => decide (p.1 ≤ (m : WithBot K))) : Int) := by
        rw [a0] at hhead; exact Option.some.inj hhead
      rw [← hz] at hc
      refine ⟨⟨m, hmem, hmin, by rw [List.head?_eq_getElem?]; exact hhead⟩, ?_, ?_⟩
      · intro n hn
        obtain ⟨i, hi, rfl⟩ := List.mem_iff_getElem.mp hn
        have := hc.1 i hi
        rw [htake i hi] at this
        omega
      · have := hc.2
        rw [htake _ (by omega)] at this
        rw [List.getLast?_eq_getElem?, List.getElem?_eq_getElem (by omega)]
        congr 1
        omega
    · cases (congrArg Prod.fst e)
  · rintro ⟨⟨m', hm', hmin', hhead⟩, hp, hl⟩
    have hmm : m' = m := le_antisymm (hmin' m hmem) (hmin m' hm')
    subst hmm
    rw [List.head?_eq_getElem?, a0] at hhead
    have hz := Option.some.inj hhead
    rw [hap, ← hz, hlen, ← hs.nlive, h3, if_pos]
    · congr 2
      unfold runOfRows
      rw [h1, h2, h4, hlabels]
      congr 1
      apply List.ext_getElem?
      intro i
      by_cases hi : i < r.nlive.length
      · rw [getElem?_liveFrom (by simp; omega), htake i hi, List.getElem?_eq_getElem hi]
        congr 1
        omega
      · rw [List.getElem?_eq_none (by rw [length_liveFrom (by simp)]; simp; omega), List.getElem?_eq_none (by omega)]
    · refine ⟨fun i hi => ?_, ?_⟩
      · rw [htake i hi]
        have := hp _ (List.getElem_mem hi)
        omega
      · rw [htake _ (by omega)]
        rw [List.getLast?_eq_getElem?, List.getElem?_eq_getElem (by omega)] at hl
        have := Option.some.inj hl
        omega

/-- C85.  Two runs have the same array only if they agree in everything but the overall number of live points. -/
theorem C85_injective {r r' : Run K} {rows : List (Row K)} (h : arrayGivenRun r = .ok rows) (h' : arrayGivenRun r' = .ok rows) :
    r.logl = r'.logl ∧ r.theta = r'.theta ∧ r.labels = r'.labels ∧
      ∃ c : Int, r'.nlive = r.nlive.map (· + c) := by
  obtain ⟨hs, h1, h2, h3, h4⟩ := columns_of_array h
  obtain ⟨hs', h1', h2', h3', h4'⟩ := columns_of_array h'
  have hll : r.logl = r'.logl := h1.symm.trans h1'
  have hpos : 0 < r.logl.length := List.length_pos_iff.mpr hs.nonempty
  have hlab : ∀ {q : Run K}, SameColumns q → allSome (labelColumn q) = q.labels := by
    intro q hq
    have := List.length_pos_iff.mpr hq.nonempty
    unfold labelColumn
    cases hl : q.labels with
    | some ls => exact allSome_map_some ls
    | none =>
      cases hn : q.logl.length with
      | zero => omega
      | succ n => rfl
  have hn : r.nlive.length = r'.nlive.length := by rw [hs.nlive, hs'.nlive, hll]
  have hn0 : 0 < r.nlive.length := by rw [hs.nlive]; exact hpos
  have hdd : diff r.nlive = diff r'.nlive := by
    have := h3.symm.trans h3'
    simpa using this
  refine ⟨hll, h4.symm.trans h4', by rw [← hlab hs, ← hlab hs', ← h2, ← h2'], r'.nlive[0] - r.nlive[0], ?_⟩
  apply List.ext_getElem (by simp [hn])
  intro i hi hi'
  rw [List.getElem_map]
  have hi2 : i < r.nlive.length := by simpa using hi'
  have e1 := sum_take_diff (List.getElem?_eq_getElem hn0) (List.getElem?_eq_getElem hi2)
  have e2 := sum_take_diff (List.getElem?_eq_getElem (l := r'.nlive) (by omega : 0 < r'.nlive.length)) (List.getElem?_eq_getElem hi)
  rw [hdd, e2] at e1
  omega

/-! ### Runs made by `process_samples_array` -/

section processed
variable (R : Rng σ K)

/-- A processed run can be written again. -/
theorem writable_of_process {samples : List (Sample K)} {init : K} (hc : Consistent samples init) (A : Argsort K) (da dw : Bool)
    {w w' : World σ} {r : Run K} (h : processSamples A R samples da dw w = (.ok r, w')) :
    ∃ labels tmm, Writable r labels tmm := by
  obtain ⟨hv, hd, -, -, -, hperm⟩ := C03_valid_lossless R hc A da dw w w' h
  obtain ⟨labels, tmm, hv⟩ := hv
  obtain ⟨labels', tmm', l1, l2, -, -, -, hfirst, -⟩ := C02_thread_partition R hc A da dw w w' h
  have e1 : labels' = labels := by rw [hv.labels_eq] at l1; exact (Option.some.inj l1).symm
  have e2 : tmm' = tmm := by rw [hv.tmm_eq] at l2; exact (Option.some.inj l2).symm
  subst e1 e2
  have hlogl : r.logl.Perm (samples.map (·.logl)) := by
    have := hperm.map Prod.fst
    rwa [List.map_fst_zip (by rw [hv.theta_len]), List.map_map] at this
  have hth : ∀ (k : Nat) (mm : WithBot K × K), tmm'[k]? = some mm → ∃ (f : Nat) (s : Sample K), FirstOf labels' k f ∧
      s ∈ samples ∧ r.logl[f]? = some s.logl ∧ mm.1 = if s.birth = init then ⊥ else (s.birth : WithBot K) := by
    intro k mm hmm
    have hk : (k : Int) ∈ labels' := (hv.labels_range k).mpr ⟨by omega, by
      have := (List.getElem?_eq_some_iff.mp hmm).1
      omega⟩
    obtain ⟨f, hf⟩ := exists_firstOf hk
    have hfl : f < r.logl.length := by
      rw [← hv.labels_len]; exact (List.getElem?_eq_some_iff.mp hf.1).1
    have hfl' : r.logl[f]? = some r.logl[f] := List.getElem?_eq_getElem hfl
    obtain ⟨s, hs, hsl⟩ := List.mem_map.mp (hlogl.mem_iff.mp (List.mem_of_getElem? hfl'))
    rw [← hsl] at hfl'
    exact ⟨f, s, hf, hs, hfl', hfirst k f s hs mm hf hfl' hmm⟩
  refine ⟨labels', tmm', ⟨hv, hd, ?_, ?_⟩⟩
  · intro k mm hmm l hl
    obtain ⟨f, s, hf, hs, hfl, e⟩ := hth k mm hmm
    obtain ⟨i, hi, hx⟩ := mem_pick.mp hl
    have hle : s.logl ≤ l := by
      rcases Nat.lt_trichotomy f i with hh | hh | hh
      · exact hv.sorted f i _ _ hh hfl hx
      · subst hh
        rw [hfl] at hx
        exact (Option.some.inj hx).le
      · exact absurd hi (hf.2 i hh)
    rw [e]
    split
    · exact WithBot.bot_lt_coe l
    · rename_i hb
      rcases hc.births s hs with h0 | ⟨t, -, h1, h2⟩
      · exact absurd h0 hb
      · rw [h1]
        exact WithBot.coe_lt_coe.mpr (lt_of_lt_of_le h2 hle)
  · intro mm hmm x hx
    obtain ⟨k, hk⟩ := List.mem_iff_getElem?.mp hmm
    obtain ⟨f, s, -, hs, -, e⟩ := hth k mm hk
    rw [e] at hx
    split at hx
    · simp at hx
    · rename_i hb
      rcases hc.births s hs with h0 | ⟨t, ht, h1, -⟩
      · exact absurd h0 hb
      · rw [← WithBot.coe_eq_coe.mp hx, h1]
        exact hlogl.mem_iff.mpr (List.mem_map.mpr ⟨t, ht, rfl⟩)

/-- C85.  In a run made by `process_samples_array` each live count is the number of threads which have started below and not ended
before the sample. -/
theorem C85_live_threads {samples : List (Sample K)} {init : K} (hc : Consistent samples init) (A : Argsort K) (da dw : Bool)
    {w w' : World σ} {r : Run K} (h : processSamples A R samples da dw w = (.ok r, w')) {tmm : List (WithBot K × K)}
    (ht : r.tmm = some tmm) (i : Nat) (l : K) (hl : r.logl[i]? = some l) :
    r.nlive[i]? = some (tmm.countP (fun p => decide (p.1 < (l : WithBot K) ∧ l ≤ p.2)) : Int) := by
  obtain ⟨labels, tmm', hw⟩ := writable_of_process R hc A da dw h
  have e : tmm' = tmm := by
    have := hw.tmm_eq
    rw [ht] at this
    exact (Option.some.inj this).symm
  subst e
  obtain ⟨-, -, -, -, -, hperm⟩ := C03_valid_lossless R hc A da dw w w' h
  have hlogl : r.logl.Perm (samples.map (·.logl)) := by
    have := hperm.map Prod.fst
    rwa [List.map_fst_zip (by rw [hw.theta_len]), List.map_map] at this
  have hi : ∀ l ∈ r.logl, init < l := by
    intro l hl
    obtain ⟨s, hs, rfl⟩ := List.mem_map.mp (hlogl.mem_iff.mp hl)
    exact hc.below s hs
  obtain ⟨r', h1, -, -, -, -, h2⟩ := C16_rewrite R hw hi A da dw true false (σ := σ)
  have h3 := C16_processed R hc A da dw true false w h
  rw [h1 w] at h3
  have h4 : r' = r := Except.ok.inj (congrArg Prod.fst h3)
  subst h4
  exact h2 i l hl

/-- C85.  A run made by `process_samples_array` in which no thread starts at the lowest sample is recovered from its array. -/
theorem C85_processed {samples : List (Sample K)} {init : K} (hc : Consistent samples init) (A : Argsort K) (da dw : Bool)
    {w w' : World σ} {r : Run K} (h : processSamples A R samples da dw w = (.ok r, w')) {tmm : List (WithBot K × K)}
    (ht : r.tmm = some tmm) (hm : ∀ p ∈ tmm, ∀ m : K, p.1 = (m : WithBot K) → ∃ l ∈ r.logl, l < m) :
    ∃ rows, arrayGivenRun r = .ok rows ∧ ∀ v : World σ, dictGivenRunArray rows tmm v = (.ok r, v) := by
  obtain ⟨labels, tmm', hw⟩ := writable_of_process R hc A da dw h
  have e : tmm' = tmm := by
    have := hw.tmm_eq
    rw [ht] at this
    exact (Option.some.inj this).symm
  subst e
  have hlive := C85_live_threads R hc A da dw h ht
  obtain ⟨r0, h0, hl0, hn0, hn1⟩ := C01_nlive_exact R hc A da dw (σ := σ)
  rw [h0 w] at h
  cases h
  have hne : r.logl ≠ [] := by
    intro hh
    rw [hh] at hl0
    exact hc.nonempty (List.length_eq_zero_iff.mp hl0.symm)
  have hs : SameColumns r := ⟨hne, hw.nlive_len, hw.theta_len, fun ls hls => by
    rw [hw.labels_eq] at hls
    cases hls
    exact hw.labels_len⟩
  obtain ⟨hv, hd, -, -, -, hperm⟩ := C03_valid_lossless R hc A da dw w w (h0 w)
  have hlogl : r.logl.Perm (samples.map (·.logl)) := by
    have := hperm.map Prod.fst
    rwa [List.map_fst_zip (by rw [hw.theta_len]), List.map_map] at this
  have hpos : 0 < r.logl.length := List.length_pos_iff.mpr hne
  have hstr : ∀ (i j : Nat) (x y : K), i < j → r.logl[i]? = some x → r.logl[j]? = some y → x < y :=
    fun i j x y hij hx hy => lt_of_le_of_ne (hw.sorted i j x y hij hx hy) (hd i j x y hij hx hy)
  obtain ⟨rows, hrows⟩ : ∃ rows, arrayGivenRun r = .ok rows := by
    rcases arrayGivenRun_cases r with ⟨e, he⟩ | ⟨-, -, -, -, rows, h1, -⟩
    · exfalso
      unfold arrayGivenRun at he
      simp only at he
      have hlab : (labelColumn r).length = r.logl.length := by
        unfold labelColumn
        rw [hw.labels_eq]
        simpa using hw.labels_len
      rw [if_neg (by simp [hlab, hs.nlive, hs.theta]), if_neg (by omega)] at he
      cases he
    · exact ⟨rows, h1⟩
  refine ⟨rows, hrows, fun v => ?_⟩
  have hmin : ∀ l ∈ r.logl, r.logl[0] ≤ l := by
    intro l hl
    obtain ⟨i, hi, rfl⟩ := List.mem_iff_getElem.mp hl
    rcases Nat.eq_zero_or_pos i with h1 | h1
    · subst h1; exact le_rfl
    · exact (hstr 0 i _ _ h1 (List.getElem?_eq_getElem _) (List.getElem?_eq_getElem _)).le
  have hge : ∀ p ∈ tmm', p.1 ≠ (r.logl[0] : WithBot K) := by
    intro p hp hh
    obtain ⟨l, hl, hlt⟩ := hm p hp _ hh
    exact absurd hlt (not_lt.mpr (hmin l hl))
  have hend : ∀ p ∈ tmm', r.logl[0] ≤ p.2 := by
    intro p hp
    obtain ⟨k, hk⟩ := List.mem_iff_getElem?.mp hp
    have hkm : (k : Int) ∈ labels := (hw.labels_range k).mpr ⟨by omega, by
      have := (List.getElem?_eq_some_iff.mp hk).1
      omega⟩
    obtain ⟨f, hf⟩ := exists_lastOf hkm
    have hfl : f < r.logl.length := by
      rw [← hw.labels_len]; exact (List.getElem?_eq_some_iff.mp hf.1).1
    rw [hw.end_eq k p f _ hk hf (List.getElem?_eq_getElem hfl)]
    exact hmin _ (List.getElem_mem hfl)
  have hrec : Recoverable r tmm' := by
    refine ⟨⟨r.logl[0], List.getElem_mem _, hmin, ?_⟩, ?_, ?_⟩
    · rw [List.head?_eq_getElem?, hlive 0 _ (List.getElem?_eq_getElem hpos)]
      congr 2
      apply List.countP_congr
      intro p hp
      simp only [decide_eq_true_eq]
      exact ⟨fun hh => hh.1.le, fun hh => ⟨lt_of_le_of_ne hh (hge p hp), hend p hp⟩⟩
    · intro n hn
      obtain ⟨i, hi⟩ := List.mem_iff_getElem?.mp hn
      have hil : i < r.logl.length := by rw [← hs.nlive]; exact (List.getElem?_eq_some_iff.mp hi).1
      have e := List.getElem?_eq_getElem hil
      rw [hn1 i _ e] at hi
      rw [← Option.some.inj hi]
      have : 0 < liveAt samples r.logl[i] := by
        obtain ⟨s, hs', hsl⟩ := List.mem_map.mp (hlogl.mem_iff.mp (List.getElem_mem hil))
        refine List.countP_pos_iff.mpr ⟨s, hs', ?_⟩
        rw [decide_eq_true_eq, ← hsl]
        refine ⟨?_, le_rfl⟩
        rcases hc.births s hs' with h5 | ⟨t, -, h5, h6⟩
        · rw [h5]; exact hc.below s hs'
        · rw [h5]; exact h6
      exact_mod_cast this
    · have hll : r.logl.length - 1 < r.logl.length := by omega
      have e := List.getElem?_eq_getElem hll
      rw [List.getLast?_eq_getElem?, hs.nlive, hn1 _ _ e]
      congr 1
      have hmax : ∀ l ∈ r.logl, r.logl[r.logl.length - 1] ≤ l → l = r.logl[r.logl.length - 1] := by
        intro l hl hle
        obtain ⟨i, hi, rfl⟩ := List.mem_iff_getElem.mp hl
        rcases Nat.lt_or_eq_of_le (Nat.le_sub_one_of_lt hi) with h1 | h1
        · exact absurd (hstr i _ _ _ h1 (List.getElem?_eq_getElem _) e) (not_lt.mpr hle)
        · subst h1; rfl
      have hc1 : liveAt samples r.logl[r.logl.length - 1] = (samples.map (·.logl)).count r.logl[r.logl.length - 1] := by
        unfold liveAt
        rw [List.count_eq_countP, List.countP_map]
        apply List.countP_congr
        intro s hs'
        have hsm : s.logl ∈ r.logl := hlogl.mem_iff.mpr (List.mem_map.mpr ⟨s, hs', rfl⟩)
        simp only [decide_eq_true_eq, Function.comp, beq_iff_eq]
        refine ⟨fun hh => hmax _ hsm hh.2, fun hh => ⟨?_, hh.ge⟩⟩
        rw [← hh]
        rcases hc.births s hs' with h5 | ⟨t, -, h5, h6⟩
        · rw [h5]; exact hc.below s hs'
        · rw [h5]; exact h6
      rw [hc1, List.count_eq_one_of_mem hc.distinct (hlogl.mem_iff.mp (List.getElem_mem hll))]
      rfl
  have := (C85_round_trip hrows (tmm := tmm') (fun m hm1 hm2 => by
    have e : m = r.logl[0] := le_antisymm (hm2 _ (List.getElem_mem _)) (hmin m hm1)
    rw [List.countP_eq_zero.mpr]
    · omega
    · intro p hp
      simp only [decide_eq_true_eq]
      rw [e]
      exact hge p hp) v).mpr hrec
  rw [this, ← ht]

end processed

/-! ### Examples -/

/-- Two threads without labels. -/
def unlabelledRun : Run ℤ := { logl := [1, 3, 4], nlive := [2, 2, 1], theta := [[5], [6], [7]], labels := none, tmm := none }

example : arrayGivenRun unlabelledRun = .ok [⟨1, none, 0, [5]⟩, ⟨3, none, -1, [6]⟩, ⟨4, none, -1, [7]⟩] := by rfl

example (w : World σ) : dictGivenRunArray [⟨1, none, 0, [5]⟩, ⟨3, none, -1, [6]⟩, ⟨4, none, -1, [7]⟩] [(⊥, 3), ((0 : ℤ), 4)] w =
    (.ok { unlabelledRun with tmm := some [(⊥, 3), ((0 : ℤ), 4)] }, w) := by
  refine (C85_round_trip (r := unlabelledRun) (by rfl) (by decide) w).mpr ⟨⟨1, by decide, by decide, by decide⟩, by decide, by decide⟩

/-- A third thread makes the live counts too high. -/
example (w : World σ) : dictGivenRunArray [⟨1, none, 0, [5]⟩, ⟨3, none, -1, [6]⟩, ⟨4, none, -1, [7]⟩]
    [(⊥, 3), ((0 : ℤ), 4), ((1 : ℤ), 4)] w ≠ (.ok { unlabelledRun with tmm := some [(⊥, 3), ((0 : ℤ), 4), ((1 : ℤ), 4)] }, w) := by
  rw [Ne, C85_round_trip (r := unlabelledRun) (by rfl) (by decide) w]
  rintro ⟨⟨m, hm, hmin, hh⟩, -, -⟩
  have : m = 1 := by
    have := hmin 1 (by decide)
    simp [unlabelledRun] at hm
    omega
  subst this
  revert hh
  decide

/-- Samples where a thread starts at the second sample. -/
def lateSamples : List (Sample ℤ) := [⟨[1], 5, -100⟩, ⟨[2], 3, -100⟩, ⟨[3], 7, 5⟩, ⟨[4], 8, 5⟩, ⟨[5], 9, 7⟩]

def lateRun : Run ℤ :=
  { logl := [3, 5, 7, 8, 9], nlive := [2, 1, 2, 2, 1], theta := [[2], [1], [3], [4], [5]], labels := some [0, 1, 1, 2, 1],
    tmm := some [(⊥, 3), (⊥, 9), ((5 : ℤ), 8)] }

theorem lateSamples_consistent : Consistent lateSamples (-100) where
  nonempty := by decide
  distinct := by decide
  below := by decide
  births := by decide

theorem lateRun_processed (s : Nat) : processSamples (stableSort ℤ) (counterRng ℤ (by decide)) lateSamples true false ⟨s, []⟩ =
    (.ok lateRun, ⟨s, []⟩) := by rfl

example : ∃ rows, arrayGivenRun lateRun = .ok rows ∧ ∀ v : World Nat,
    dictGivenRunArray rows [(⊥, 3), (⊥, 9), ((5 : ℤ), 8)] v = (.ok lateRun, v) :=
  C85_processed _ lateSamples_consistent _ true false (lateRun_processed 0) rfl (by
    intro p hp m hm
    fin_cases hp
    · simp at hm
    · simp at hm
    · have : m = 5 := by simpa using hm.symm
      subst this
      decide)

/-- The run of the samples of Props/Process, where a thread starts at the lowest sample, is not recovered. -/
example (w : World Nat) : (arrayGivenRun exProcessed >>= fun rows => .ok (dictGivenRunArray rows [(⊥, 7), (⊥, 9), ((3 : ℤ), 12)] w)) =
    .ok (.error .assertion, w) := by rfl

end Nestcheck
