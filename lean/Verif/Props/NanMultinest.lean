import Verif.Props.Nan

/-
C113: nan among the loglikelihoods of MultiNest files is noticed by the comparison of dead and live points
(data_processing.py:290), before the arrays are put together.
-/

namespace Nestcheck
variable {σ K : Type} [CommRing K] [LinearOrder K]

omit [CommRing K] in
theorem nanMax_nan {a : List (Option K)} (h : none ∈ a) : nanMax a = some none := by
  unfold nanMax
  rw [if_neg (List.ne_nil_of_mem h), if_neg]
  rw [Bool.not_eq_true, List.all_eq_false]
  exact ⟨none, h, by simp⟩

omit [CommRing K] in
theorem nanMin_nan {a : List (Option K)} (h : none ∈ a) : nanMin a = some none := by
  unfold nanMin
  rw [if_neg (List.ne_nil_of_mem h), if_neg]
  rw [Bool.not_eq_true, List.all_eq_false]
  exact ⟨none, h, by simp⟩

/-- C113.  A nan loglikelihood of a dead or live point makes `process_multinest_run` raise AssertionError even if the two files
have different numbers of parameters, and nothing has been changed by then. -/
theorem C113_multinest_logl (A : NanArgsort K) (R : Rng σ K) (files : String → Option (List (List (Option K))))
    (fileRoot baseDir : String)
    {dead live : List (List (Option K))} (hd : files (pathJoin baseDir fileRoot ++ "dead-birth.txt") = some dead)
    (hl : files (pathJoin baseDir fileRoot ++ "phys_live-birth.txt") = some live) {n m : Nat}
    (hdn : ∀ r ∈ dead, r.length = n + 4) (hlm : ∀ r ∈ live, r.length = m + 3)
    (h : (∃ r ∈ dead, r[n]? = some none) ∨ ∃ r ∈ live, r[m]? = some none)
    (hd2 : 2 ≤ dead.length) (hl2 : 2 ≤ live.length) (dA dW : Bool) (w : World σ) :
    processMultinestNan A R files fileRoot baseDir dA dW w = (.error .assertion, w) := by
  have ld := loadTextNan_ok hd hdn
  have ll := loadTextNan_ok hl hlm
  have td := twoDimsNan_ok hd2 hdn (by omega)
  have tl := twoDimsNan_ok hl2 hlm (by omega)
  obtain ⟨d3, sd⟩ := tableSamplesNan_exists (n := n) (rows := dead.map (fun r => r.take (r.length - 2))) (by
    intro r hr
    obtain ⟨r', h1, h2⟩ := List.mem_map.mp hr
    rw [← h2, List.length_take, hdn r' h1]
    omega)
  obtain ⟨l3, sl⟩ := tableSamplesNan_exists (n := m) (rows := live.map (fun r => r.take (r.length - 1))) (by
    intro r hr
    obtain ⟨r', h1, h2⟩ := List.mem_map.mp hr
    rw [← h2, List.length_take, hlm r' h1]
    omega)
  have e5 := tableSamplesNan_ok sd
  have e6 := tableSamplesNan_ok sl
  have bad : ∀ {rows : List (List (Option K))} {ss : List (Sample (Option K))} {p k : Nat},
      (∀ r ∈ rows, r.length = p + 2 + k) →
      rows.map (fun r => r.take (r.length - k)) = ss.map (fun s => s.theta ++ [s.logl, s.birth]) →
      (∃ r ∈ rows, r[p]? = some none) → none ∈ ss.map (·.logl) := by
    intro rows ss p k hk he ⟨r, hr, hn⟩
    have hm : r.take (r.length - k) ∈ rows.map (fun r => r.take (r.length - k)) := List.mem_map.mpr ⟨r, hr, rfl⟩
    rw [he] at hm
    obtain ⟨s, hs, e⟩ := List.mem_map.mp hm
    have hlen := hk r hr
    have h1 := congrArg List.length e
    simp [hlen] at h1
    have hp : s.theta.length = p := by omega
    have h2 := congrArg (fun l => l[p]?) e
    rw [List.getElem?_take_of_lt (by omega), hn, ← hp, List.getElem?_append_right le_rfl] at h2
    simp at h2
    exact List.mem_map.mpr ⟨s, hs, h2⟩
  have ne : ∀ {rows : List (List (Option K))} {ss : List (Sample (Option K))} {k : Nat}, 2 ≤ rows.length →
      rows.map (fun r => r.take (r.length - k)) = ss.map (fun s => s.theta ++ [s.logl, s.birth]) → ss.map (·.logl) ≠ [] := by
    intro rows ss k h2 he h0
    have h1 := congrArg List.length he
    have h3 := congrArg List.length h0
    simp at h1 h3
    subst h3
    simp at h1
    subst h1
    simp at h2
  have lift : ∀ {α : Type} {p : Py α} {a : α}, p = .ok a → (M.lift p : M σ α) w = (.ok a, w) := by
    intro α p a hp
    rw [hp]
    rfl
  unfold processMultinestNan
  rw [M.bind_ok (lift ld), M.bind_ok (lift ll), M.bind_ok (lift td), M.bind_ok (lift tl), M.bind_ok (lift sd),
    M.bind_ok (lift sl)]
  rcases h with h | h
  · obtain ⟨b, hb⟩ := nanMin_exists (ne hl2 e6)
    rw [nanMax_nan (bad (k := 2) (by simpa [Nat.add_assoc] using hdn) e5 h), hb]
    simp only
    exact M.bind_error (by rw [M.assert_apply, if_neg (by simp [nanLt])])
  · obtain ⟨a, ha⟩ := nanMax_exists (ne hd2 e5)
    rw [nanMin_nan (bad (k := 1) (by simpa [Nat.add_assoc] using hlm) e6 h), ha]
    simp only
    exact M.bind_error (by rw [M.assert_apply, if_neg (by cases a <;> simp [nanLt])])

/-- Dead points with one parameter, live points with two, and nan as a dead loglikelihood. -/
example (A : NanArgsort ℤ) (R : Rng σ ℤ) (w : World σ) :
    processMultinestNan A R (fun f => if f = pathJoin "c" "r" ++ "dead-birth.txt" then
        some [[some 1, none, some 0, some 0, some 1], [some 2, some 3, some 0, some 0, some 1]]
      else some [[some 1, some 2, some 5, some 0, some 1], [some 1, some 2, some 6, some 0, some 1]])
      "r" "c" false false w = (.error .assertion, w) :=
  C113_multinest_logl A R _ "r" "c" (n := 1) (m := 2) (if_pos rfl) (if_neg (by decide))
    (by simp) (by simp) (Or.inl ⟨_, List.mem_cons_self, rfl⟩) (by simp) (by simp) false false w

end Nestcheck
