import Verif.Model.PlotsKwargs
import Verif.Props.PlotRng
import Verif.Props.Kwargs

/-
C104: the options of the plotting functions.  An option which the function does not know is a
`TypeError` before anything else happens; an option which is not given has its documented default;
the order of the options is irrelevant; and the random state is restored whatever the options of
`bs_param_dists` are.
-/

namespace Nestcheck
noncomputable section
variable {σ α β : Type}

namespace Spec

/-- Some option is not among those of the function. -/
def UnknownPlot (opts : List String) (kw : PlotKwargs) : Prop := ∃ p ∈ kw, p.1 ∉ opts

/-- The same options with the same values, whatever their order. -/
def SamePlotOptions (kw kw' : PlotKwargs) : Prop := ∀ k : String, kw.lookup k = kw'.lookup k

/-- The option is given with this value, or not given and this is its default; `enc` is how the value
is written in the dictionary. -/
def Chosen (kw : PlotKwargs) (key : String) (enc : α → PlotVal) (default a : α) : Prop :=
  kw.lookup key = some (enc a) ∨ kw.lookup key = none ∧ a = default

/-- A value which may be None. -/
def orNone (enc : α → PlotVal) : Option α → PlotVal
  | none => .none
  | some a => enc a

def nliveOpts : List String :=
  ["logx_given_logl", "logl_given_logx", "logx_min", "ymax", "npoints", "figsize", "post_mass_norm", "cum_post_mass_norm"]
def kdeOpts : List String :=
  ["figsize", "num_xticks", "nrows", "ncols", "normalize", "legend", "legend_kwargs"]
def bsDistsOpts : List String :=
  ["ftheta_lims", "n_simulate", "colormap", "mean_color", "nx", "ny", "cache", "parallel", "rasterize_contours", "smooth",
   "flip_axes", "tqdm_kwargs"]
def paramDistsOpts : List String :=
  ["fthetas", "labels", "ftheta_lims", "n_simulate", "random_seed", "figsize", "nx", "ny", "cache", "parallel",
   "rasterize_contours", "tqdm_kwargs"]
def logxOpts : List String :=
  ["fthetas", "labels", "ftheta_lims", "threads_to_plot", "plot_means", "n_simulate", "random_seed", "logx_min", "figsize",
   "colors", "colormaps", "cache", "parallel", "rasterize_contours", "point_size", "thin", "npoints", "tqdm_kwargs"]

end Spec

open Spec

theorem mem_plotWithout {kw : PlotKwargs} {ks : List String} {p : String × PlotVal} :
    p ∈ kw.without ks ↔ p ∈ kw ∧ p.1 ∉ ks := by
  simp [PlotKwargs.without]

theorem plotLookup_without (kw : PlotKwargs) (ks : List String) (j : String) :
    (kw.without ks).lookup j = if j ∈ ks then none else kw.lookup j := by
  induction kw with
  | nil => simp [PlotKwargs.without]
  | cons p kw ih =>
    obtain ⟨a, v⟩ := p
    unfold PlotKwargs.without at ih ⊢
    by_cases hp : a ∈ ks
    · rw [List.filter_cons_of_neg (by simp [hp]), ih]
      split_ifs with hj
      · rfl
      · have : (j == a) = false := by
          simp only [beq_eq_false_iff_ne]
          rintro rfl
          exact hj hp
        simp [List.lookup_cons, this]
    · rw [List.filter_cons_of_pos (by simp [hp])]
      simp only [List.lookup_cons, ih]
      by_cases hja : j = a
      · subst hja; simp [hp]
      · have : (j == a) = false := by simpa using hja
        simp [this]

theorem plotWithout_without (kw : PlotKwargs) (ks js : List String) :
    (kw.without ks).without js = kw.without (ks ++ js) := by
  unfold PlotKwargs.without
  rw [List.filter_filter]
  congr 1
  funext p
  simp [Bool.and_comm]

theorem plotGet_without (kw : PlotKwargs) (ks : List String) (j : String) (d : PlotVal) (h : j ∉ ks) :
    (kw.without ks).get j d = kw.get j d := by
  unfold PlotKwargs.get
  rw [plotLookup_without, if_neg h]

theorem plotLeft_error {kw : PlotKwargs} {opts ks : List String} (h : UnknownPlot opts kw) (hk : ∀ k ∈ ks, k ∈ opts) :
    (kw.without ks).noneLeft = .error .type := by
  obtain ⟨p, hp, hu⟩ := h
  have hm : p ∈ kw.without ks := mem_plotWithout.mpr ⟨hp, fun hc => hu (hk _ hc)⟩
  cases hw : kw.without ks with
  | nil => rw [hw] at hm; cases hm
  | cons => rfl

theorem plotLeft_ok {kw : PlotKwargs} {opts ks : List String} (h : ¬ UnknownPlot opts kw) (hk : ∀ k ∈ opts, k ∈ ks) :
    (kw.without ks).noneLeft = .ok () := by
  have : kw.without ks = [] := by
    unfold PlotKwargs.without
    rw [List.filter_eq_nil_iff]
    intro p hp
    by_contra hc
    refine h ⟨p, hp, fun ho => ?_⟩
    have := hk _ ho
    simp [this] at hc
  rw [this]
  rfl

theorem Spec.SamePlotOptions.without {kw kw' : PlotKwargs} (h : SamePlotOptions kw kw') (ks : List String) :
    SamePlotOptions (kw.without ks) (kw'.without ks) := by
  intro j
  rw [plotLookup_without, plotLookup_without, h j]

theorem Spec.SamePlotOptions.get {kw kw' : PlotKwargs} (h : SamePlotOptions kw kw') (k : String) (d : PlotVal) :
    kw.get k d = kw'.get k d := by
  unfold PlotKwargs.get
  rw [h k]

theorem plotLookup_of_mem {kw : PlotKwargs} {p : String × PlotVal} (h : p ∈ kw) : kw.lookup p.1 ≠ none := by
  induction kw with
  | nil => cases h
  | cons q kw ih =>
    obtain ⟨a, v⟩ := q
    rw [List.lookup_cons]
    rcases List.mem_cons.mp h with rfl | h
    · simp
    · by_cases hq : (p.1 == a) = true
      · simp [hq]
      · simp only [hq]; exact ih h

theorem Spec.SamePlotOptions.noneLeft {kw kw' : PlotKwargs} (h : SamePlotOptions kw kw') :
    kw.noneLeft = kw'.noneLeft := by
  cases kw with
  | nil =>
    cases kw' with
    | nil => rfl
    | cons p kw' => exact absurd (h p.1).symm (plotLookup_of_mem List.mem_cons_self)
  | cons p kw =>
    cases kw' with
    | nil => exact absurd (h p.1) (plotLookup_of_mem List.mem_cons_self)
    | cons => rfl

/-- Options given in another order are the same options. -/
theorem C104_order {kw kw' : PlotKwargs} (hp : kw.Perm kw') (hn : (kw.map Prod.fst).Nodup) : SamePlotOptions kw kw' := by
  induction hp with
  | nil => exact fun _ => rfl
  | cons p _ ih =>
    intro k
    obtain ⟨a, v⟩ := p
    rw [List.lookup_cons, List.lookup_cons, ih (by simp at hn; exact hn.2) k]
  | swap p q l =>
    intro k
    obtain ⟨a, v⟩ := p
    obtain ⟨b, u⟩ := q
    have hab : b ≠ a := by
      simp at hn
      exact hn.1.1
    simp only [List.lookup_cons]
    by_cases h1 : k = a
    · subst h1
      have : (k == b) = false := by simpa using Ne.symm hab
      simp [this]
    · have : (k == a) = false := by simpa using h1
      simp [this]
  | trans h1 _ ih1 ih2 =>
    intro k
    rw [ih1 hn k, ih2 ((h1.map Prod.fst).nodup_iff.mp hn) k]

variable {A : Argsort ℝ} {R : Rng σ ℝ}

/-! ### Options which the function does not know -/

/-- C104 for `plot_run_nlive`. -/
theorem C104_unknown_nlive (names : List String) (dict : RunDict) {kw : PlotKwargs} (h : UnknownPlot nliveOpts kw) (w : World σ) :
    plotRunNliveKw R names dict kw w = (.error .type, w) := by
  unfold plotRunNliveKw
  simp only [plotWithout_without]
  rw [plotLeft_error h (by decide)]
  rfl

/-- C104 for `plot_bs_dists`. -/
theorem C104_unknown_bs (r : Run ℝ) (settings : Option Settings) (fs : List FTheta) (nAxes : Nat) {kw : PlotKwargs}
    (h : UnknownPlot bsDistsOpts kw) (w : World σ) :
    plotBsDistsKw A R r settings fs nAxes kw w = (.error .type, w) := by
  unfold plotBsDistsKw
  simp only [plotWithout_without]
  rw [plotLeft_error h (by decide)]
  rfl

/-- `len` of a value which has no length is a `TypeError`. -/
theorem plotLen_error {v : PlotVal} {e : PyErr} (h : v.len = .error e) : e = .type := by
  cases v <;> simp only [PlotVal.len] at h <;> first | (cases h; rfl) | cases h

/-- C104 for `bs_param_dists`: in particular the random state is not touched. -/
theorem C104_unknown_dists (runs : List (Run ℝ × Option Settings)) {kw : PlotKwargs}
    (h : UnknownPlot paramDistsOpts kw) (w : World σ) :
    bsParamDistsKw A R runs kw w = (.error .type, w) := by
  unfold bsParamDistsKw
  simp only [plotWithout_without]
  rw [plotLeft_error h (by decide)]
  cases hl : (kw.get "fthetas" (.fthetas [columnOf 0, columnOf 1])).len with
  | error e => cases plotLen_error hl; rfl
  | ok n => rfl

/-- C104 for `param_logx_diagram`. -/
theorem C104_unknown_logx (runs : List (Run ℝ × Option Settings)) {kw : PlotKwargs}
    (h : UnknownPlot logxOpts kw) (w : World σ) :
    paramLogxDiagramKw A R runs kw w = (.error .type, w) := by
  unfold paramLogxDiagramKw
  simp only [plotWithout_without]
  rw [plotLeft_error h (by decide)]
  cases hl : (kw.get "fthetas" (.fthetas [columnOf 0, columnOf 1])).len with
  | error e => cases plotLen_error hl; rfl
  | ok n => rfl

/-- C104 for `kde_plot_df`: `TypeError`, or `ZeroDivisionError` if the number of rows is zero. -/
theorem C104_unknown_kde (df : SampleFrame) (xlims : Option (List (String × ℝ × ℝ))) {kw : PlotKwargs}
    (h : UnknownPlot kdeOpts kw) :
    (kdePlotDfKw df xlims kw = .error .type ∨ kdePlotDfKw df xlims kw = .error .zeroDivision) ∧
    ((∀ n : Nat, kw.lookup "nrows" ≠ some (.nat n) ∨ n ≠ 0) → (∀ b, kw.lookup "nrows" ≠ some (.bool b)) →
      kdePlotDfKw df xlims kw = .error .type) := by
  have key : kdePlotDfKw df xlims kw = ((kw.get "nrows" (.nat 1)).toNat >>= fun n =>
      if n = 0 then .error .zeroDivision else .error .type) := by
    unfold kdePlotDfKw
    simp only [plotWithout_without]
    rw [plotLeft_error h (by decide), plotGet_without _ _ _ _ (by decide)]
    congr 1
  rw [key]
  unfold PlotKwargs.get
  constructor
  · cases hv : (kw.lookup "nrows").getD (.nat 1) with
    | nat n =>
      by_cases hn : n = 0
      · right; subst hn; rfl
      · left; simp [PlotVal.toNat, Bind.bind, Except.bind, hn]
    | bool b =>
      cases b
      · right; rfl
      · left; rfl
    | _ => left; rfl
  · intro h0 hb
    cases hl : kw.lookup "nrows" with
    | none => rfl
    | some v =>
      cases v with
      | nat n =>
        have hn : n ≠ 0 := by
          rcases h0 n with h0 | h0
          · exact absurd hl h0
          · exact h0
        simp [PlotVal.toNat, Bind.bind, Except.bind, hn]
      | bool b => exact absurd hl (hb b)
      | _ => rfl

/-! ### Options which are given, and defaults -/

theorem Spec.Chosen.get {kw : PlotKwargs} {key : String} {enc : α → PlotVal} {d a : α} (h : Chosen kw key enc d a) :
    kw.get key (enc d) = enc a := by
  unfold PlotKwargs.get
  rcases h with h | ⟨h, rfl⟩ <;> rw [h] <;> rfl

theorem toLogxFun_orNone (f : Option (List ℝ → List ℝ)) : (orNone PlotVal.logxFun f).toLogxFun = .ok f := by
  cases f <;> rfl
theorem toLoglFun_orNone (f : Option (ℝ → Cell)) : (orNone PlotVal.loglFun f).toLoglFun = .ok f := by
  cases f <;> rfl
theorem toRealOpt_orNone (x : Option ℝ) : (orNone PlotVal.real x).toRealOpt = .ok x := by
  cases x <;> rfl
theorem toKey_orNone (x : Option String) : (orNone PlotVal.str x).toKey = .ok x := by
  cases x <;> rfl
theorem toLabels_orNone (x : Option (List Int)) : (orNone PlotVal.labels x).toLabels = .ok x := by
  cases x <;> rfl

theorem lift_ok_bind (a : α) (f : α → M σ β) : (M.lift (.ok a) >>= f) = f a := rfl

/-- C104: the options of `plot_run_nlive` and their defaults. -/
theorem C104_nlive (names : List String) (dict : RunDict) {kw : PlotKwargs} (h : ¬ UnknownPlot nliveOpts kw)
    {f : Option (List ℝ → List ℝ)} {g : Option (ℝ → Cell)} {lo : Option ℝ} {n : Nat} {m c : Option String}
    (hf : Chosen kw "logx_given_logl" (orNone .logxFun) none f) (hg : Chosen kw "logl_given_logx" (orNone .loglFun) none g)
    (hlo : Chosen kw "logx_min" (orNone .real) none lo) (hn : Chosen kw "npoints" .nat 100 n)
    (hm : Chosen kw "post_mass_norm" (orNone .str) none m) (hc : Chosen kw "cum_post_mass_norm" (orNone .str) none c) :
    plotRunNliveKw R names dict kw = plotRunNlive R names dict f g lo n m c := by
  unfold plotRunNliveKw
  simp only [plotWithout_without]
  rw [plotLeft_ok h (by decide)]
  repeat rw [plotGet_without _ _ _ _ (by decide)]
  have e1 := hf.get
  have e2 := hg.get
  have e3 := hlo.get
  have e4 := hn.get
  have e5 := hm.get
  have e6 := hc.get
  simp only [orNone] at e1 e2 e3 e5 e6
  rw [e1, e2, e3, e4, e5, e6]
  change (M.lift (orNone PlotVal.logxFun f).toLogxFun >>= fun f' => M.lift (orNone PlotVal.loglFun g).toLoglFun >>= fun g' =>
    M.lift (orNone PlotVal.real lo).toRealOpt >>= fun lo' => M.lift (PlotVal.nat n).toNat >>= fun n' =>
    M.lift (orNone PlotVal.str m).toKey >>= fun m' => M.lift (orNone PlotVal.str c).toKey >>= fun c' =>
    plotRunNlive R names dict f' g' lo' n' m' c') = _
  rw [toLogxFun_orNone, toLoglFun_orNone, toRealOpt_orNone, toKey_orNone, toKey_orNone]
  rfl

/-- C104: the options of `plot_bs_dists` and their defaults. -/
theorem C104_bs (r : Run ℝ) (settings : Option Settings) (fs : List FTheta) (nAxes : Nat) {kw : PlotKwargs}
    (h : ¬ UnknownPlot bsDistsOpts kw) {lims : List (ℝ × ℝ)} {n : Nat} {color : Option String}
    (hl : Chosen kw "ftheta_lims" .limits (List.replicate fs.length (-1, 1)) lims)
    (hn : Chosen kw "n_simulate" .nat 100 n) (hc : Chosen kw "mean_color" (orNone .str) none color) :
    plotBsDistsKw A R r settings fs nAxes kw = plotBsDists A R r settings fs nAxes lims.length n color.isSome := by
  unfold plotBsDistsKw
  simp only [plotWithout_without]
  rw [plotLeft_ok h (by decide)]
  repeat rw [plotGet_without _ _ _ _ (by decide)]
  have e1 := hl.get
  have e2 := hn.get
  have e3 := hc.get
  simp only [orNone] at e3
  rw [e1, e2, e3]
  rw [lift_ok_bind]
  by_cases ha : fs.length = nAxes
  · have : (M.assert (decide (fs.length = nAxes)) : M σ Unit) = pure () := by simp [ha]; rfl
    rw [this]
    cases color <;> rfl
  · funext w
    unfold plotBsDists
    simp [M.bind_apply, ha]

/-- C104: the options of `bs_param_dists` and their defaults. -/
theorem C104_dists (runs : List (Run ℝ × Option Settings)) {kw : PlotKwargs} (h : ¬ UnknownPlot paramDistsOpts kw)
    {fs : List FTheta} {labels : List String} {lims : List (ℝ × ℝ)} {n : Nat} {s : Seed}
    (hf : Chosen kw "fthetas" .fthetas [columnOf 0, columnOf 1] fs)
    (hlab : Chosen kw "labels" .strs ((List.range fs.length).map (fun i => "$\\theta_" ++ toString (i + 1) ++ "$")) labels)
    (hl : Chosen kw "ftheta_lims" .limits (List.replicate fs.length (-1, 1)) lims)
    (hn : Chosen kw "n_simulate" .nat 100 n)
    (hs : kw.lookup "random_seed" = some (.seed s) ∨ (∃ m, kw.lookup "random_seed" = some (.nat m) ∧ s = .num m) ∨
      kw.lookup "random_seed" = none ∧ s = .num 0) :
    bsParamDistsKw A R runs kw = bsParamDists A R runs fs labels.length lims.length n s := by
  unfold bsParamDistsKw
  simp only [plotWithout_without]
  rw [plotLeft_ok h (by decide), hf.get]
  rw [show (PlotVal.fthetas fs).len = .ok fs.length from rfl, lift_ok_bind]
  repeat rw [plotGet_without _ _ _ _ (by decide)]
  rw [hlab.get, hl.get, hn.get]
  have e : (kw.get "random_seed" (.nat 0)).toSeed = .ok s := by
    unfold PlotKwargs.get
    rcases hs with hs | ⟨m, hs, rfl⟩ | ⟨hs, rfl⟩ <;> rw [hs] <;> rfl
  rw [e]
  rfl

/-- C104: the options of `param_logx_diagram` and their defaults. -/
theorem C104_logx (runs : List (Run ℝ × Option Settings)) {kw : PlotKwargs} (h : ¬ UnknownPlot logxOpts kw)
    {fs : List FTheta} {labels colors maps : List String} {lims : List (ℝ × ℝ)} {n : Nat} {s : Seed}
    {threads : Option (List Int)} {means : Bool} {lo : Option ℝ} {thin : ℝ}
    (hf : Chosen kw "fthetas" .fthetas [columnOf 0, columnOf 1] fs)
    (hlab : Chosen kw "labels" .strs ((List.range fs.length).map (fun i => "$\\theta_" ++ toString (i + 1) ++ "$")) labels)
    (hl : Chosen kw "ftheta_lims" .limits (List.replicate fs.length (-1, 1)) lims)
    (ht : Chosen kw "threads_to_plot" (orNone .labels) (some [0]) threads)
    (hm : Chosen kw "plot_means" .bool true means) (hn : Chosen kw "n_simulate" .nat 100 n)
    (hs : kw.lookup "random_seed" = some (.seed s) ∨ (∃ m, kw.lookup "random_seed" = some (.nat m) ∧ s = .num m) ∨
      kw.lookup "random_seed" = none ∧ s = .num 0)
    (hlo : Chosen kw "logx_min" (orNone .real) none lo)
    (hc : Chosen kw "colors" .strs ["red", "blue", "grey", "green", "orange"] colors)
    (hmaps : Chosen kw "colormaps" .strs ["Reds_r", "Blues_r", "Greys_r", "Greens_r", "Oranges_r"] maps)
    (hthin : kw.lookup "thin" = some (.real thin) ∨ kw.lookup "thin" = none ∧ thin = 1) :
    paramLogxDiagramKw A R runs kw =
      paramLogxDiagram A R ⟨fs, labels.length, lims.length, threads, means, n, s, lo, colors.length, maps.length, thin⟩ runs := by
  unfold paramLogxDiagramKw
  simp only [plotWithout_without]
  rw [plotLeft_ok h (by decide), hf.get]
  rw [show (PlotVal.fthetas fs).len = .ok fs.length from rfl, lift_ok_bind]
  repeat rw [plotGet_without _ _ _ _ (by decide)]
  have et : kw.get "threads_to_plot" (.labels [0]) = orNone .labels threads := ht.get
  have elo : kw.get "logx_min" .none = orNone .real lo := hlo.get
  rw [hlab.get, hl.get, et, hm.get, hn.get, elo, hc.get, hmaps.get]
  have e : (kw.get "random_seed" (.nat 0)).toSeed = .ok s := by
    unfold PlotKwargs.get
    rcases hs with hs | ⟨m, hs, rfl⟩ | ⟨hs, rfl⟩ <;> rw [hs] <;> rfl
  have ethin : (kw.get "thin" (.nat 1)).toReal = .ok thin := by
    unfold PlotKwargs.get
    rcases hthin with hs | ⟨hs, rfl⟩ <;> rw [hs]
    · rfl
    · change Except.ok ((1 : Nat) : ℝ) = _
      simp
  rw [e, ethin]
  rw [toLabels_orNone, toRealOpt_orNone]
  simp only [PlotVal.toFthetas, PlotVal.len, PlotVal.toNat, PlotVal.truthy, lift_ok_bind]

/-- C104: the options of `kde_plot_df` and their defaults. -/
theorem C104_kde (df : SampleFrame) (xlims : Option (List (String × ℝ × ℝ))) {kw : PlotKwargs} (h : ¬ UnknownPlot kdeOpts kw)
    {nrows ncols : Nat} {normalize legend : Bool} (hr : Chosen kw "nrows" .nat 1 nrows)
    (hc : Chosen kw "ncols" .nat ⌈(df.length : ℝ) / (nrows : ℝ)⌉₊ ncols)
    (hn : Chosen kw "normalize" .bool true normalize) (hl : Chosen kw "legend" .bool false legend) :
    kdePlotDfKw df xlims kw = kdePlotDf df xlims nrows (some ncols) normalize legend := by
  unfold kdePlotDfKw
  simp only [plotWithout_without]
  rw [plotLeft_ok h (by decide)]
  repeat rw [plotGet_without _ _ _ _ (by decide)]
  rw [hr.get, hn.get, hl.get, plotLookup_without, if_neg (by decide)]
  by_cases h0 : nrows = 0
  · subst h0
    rfl
  · have e : kdePlotDf df xlims nrows none normalize legend =
        kdePlotDf df xlims nrows (some ⌈(df.length : ℝ) / (nrows : ℝ)⌉₊) normalize legend := rfl
    simp only [PlotVal.toNat, PlotVal.truthy, Bind.bind, Except.bind, if_neg h0]
    rcases hc with hc | ⟨hc, rfl⟩
    · rw [hc]; rfl
    · rw [hc]; exact e

/-- The default functions of `bs_param_dists` and `param_logx_diagram` are the first two columns of the
samples: for samples which are all long enough it is the list of their entries. -/
theorem C104_columns {j : Nat} {theta : List (List ℝ)} (h : ∀ t ∈ theta, j < t.length) :
    columnOf j theta = .ok (theta.map (fun t => t[j]?)) := by
  unfold columnOf
  induction theta with
  | nil => rfl
  | cons t theta ih =>
    have ht := h t List.mem_cons_self
    have := ih (fun t' ht' => h t' (List.mem_cons_of_mem _ ht'))
    unfold pyMap
    rw [this]
    simp [List.getElem?_eq_getElem ht, Bind.bind, Except.bind, pure, Except.pure]

/-! ### The order of the options is irrelevant -/

/-- C104: options are looked up by name only. -/
theorem C104_dict {kw kw' : PlotKwargs} (h : SamePlotOptions kw kw') :
    (∀ names dict, plotRunNliveKw R names dict kw = plotRunNliveKw R names dict kw') ∧
    (∀ df xlims, kdePlotDfKw df xlims kw = kdePlotDfKw df xlims kw') ∧
    (∀ r settings fs nAxes, plotBsDistsKw A R r settings fs nAxes kw = plotBsDistsKw A R r settings fs nAxes kw') ∧
    (∀ runs, bsParamDistsKw A R runs kw = bsParamDistsKw A R runs kw') ∧
    (∀ runs, paramLogxDiagramKw A R runs kw = paramLogxDiagramKw A R runs kw') := by
  have hg : ∀ ks k d, (kw.without ks).get k d = (kw'.without ks).get k d := fun ks k d => (h.without ks).get k d
  have hl : ∀ ks, (kw.without ks).noneLeft = (kw'.without ks).noneLeft := fun ks => (h.without ks).noneLeft
  have hk : ∀ ks k, (kw.without ks).lookup k = (kw'.without ks).lookup k := fun ks k => h.without ks k
  refine ⟨fun names dict => ?_, fun df xlims => ?_, fun r settings fs nAxes => ?_, fun runs => ?_, fun runs => ?_⟩
  · unfold plotRunNliveKw
    simp only [plotWithout_without, hg, hl, h.get]
  · unfold kdePlotDfKw
    simp only [plotWithout_without, hg, hl, hk]
  · unfold plotBsDistsKw
    simp only [plotWithout_without, hg, hl, h.get]
  · unfold bsParamDistsKw
    simp only [plotWithout_without, hg, hl, h.get]
  · unfold paramLogxDiagramKw
    simp only [plotWithout_without, hg, hl, h.get]

/-! ### The random state -/

theorem restored_lift {x : Py α} {f : α → M σ β} (h : ∀ a, RngRestored (f a)) : RngRestored (M.lift x >>= f) := by
  intro w y w' he
  obtain ⟨a, w1, h1, h2⟩ := M.bind_eq_ok.mp he
  cases x with
  | error e => cases h1
  | ok b =>
    cases h1
    exact h _ _ _ _ h2

/-- C104: `bs_param_dists` restores numpy's random state, whatever its options. -/
theorem C104_rng (runs : List (Run ℝ × Option Settings)) (kw : PlotKwargs) : RngRestored (bsParamDistsKw A R runs kw) := by
  unfold bsParamDistsKw
  refine restored_lift fun nf => restored_lift fun _ => restored_lift fun fs => restored_lift fun nl => restored_lift fun nm =>
    restored_lift fun n => restored_lift fun s => (C53_bs A R runs fs nl nm n s).1

/-- C104: so does `param_logx_diagram`, unless the option `thin` is given. -/
theorem C104_rng_logx (runs : List (Run ℝ × Option Settings)) {kw : PlotKwargs} (h : kw.lookup "thin" = none) :
    RngRestored (paramLogxDiagramKw A R runs kw) := by
  unfold paramLogxDiagramKw
  have : (kw.get "thin" (.nat 1)).toReal = .ok 1 := by
    unfold PlotKwargs.get
    rw [h]
    change Except.ok ((1 : Nat) : ℝ) = _
    simp
  simp only [plotWithout_without]
  rw [plotGet_without _ _ "thin" _ (by decide), this]
  refine restored_lift fun nf => restored_lift fun _ => restored_lift fun fs => restored_lift fun nl => restored_lift fun nm =>
    restored_lift fun t => restored_lift fun n => restored_lift fun s => restored_lift fun lo => restored_lift fun c =>
    restored_lift fun m => ?_
  rw [lift_ok_bind]
  exact (C53_logx A R rfl runs).1

/-- C104: with more than three runs `param_logx_diagram` never returns unless `threads_to_plot` is
given. -/
theorem C104_four_runs {runs : List (Run ℝ × Option Settings)} (h4 : 4 ≤ runs.length) {kw : PlotKwargs}
    (h : kw.lookup "threads_to_plot" = none) (w : World σ) : ∀ y w', paramLogxDiagramKw A R runs kw w ≠ (.ok y, w') := by
  intro y w' he
  unfold paramLogxDiagramKw at he
  have : (kw.get "threads_to_plot" (.labels [0])).toLabels = .ok (some [0]) := by
    unfold PlotKwargs.get
    rw [h]
    rfl
  simp only [plotWithout_without] at he
  rw [plotGet_without _ _ "threads_to_plot" _ (by decide), this] at he
  obtain ⟨nf, w1, -, he⟩ := M.bind_eq_ok.mp he
  obtain ⟨_, w1, -, he⟩ := M.bind_eq_ok.mp he
  obtain ⟨fs, w1, -, he⟩ := M.bind_eq_ok.mp he
  obtain ⟨nl, w1, -, he⟩ := M.bind_eq_ok.mp he
  obtain ⟨nm, w1, -, he⟩ := M.bind_eq_ok.mp he
  rw [lift_ok_bind] at he
  obtain ⟨n, w1, -, he⟩ := M.bind_eq_ok.mp he
  obtain ⟨s, w1, -, he⟩ := M.bind_eq_ok.mp he
  obtain ⟨lo, w1, -, he⟩ := M.bind_eq_ok.mp he
  obtain ⟨c, w1, -, he⟩ := M.bind_eq_ok.mp he
  obtain ⟨m, w1, -, he⟩ := M.bind_eq_ok.mp he
  obtain ⟨thin, w1, -, he⟩ := M.bind_eq_ok.mp he
  exact C53_four_runs A R h4 rfl (by simp) _ _ _ he

/-! ### Cases which satisfy the hypotheses -/

/-- Two options which `bs_param_dists` knows. -/
def exPlotKw : PlotKwargs := [("n_simulate", .nat 5), ("nx", .nat 10)]

example : ¬ UnknownPlot paramDistsOpts exPlotKw := by
  rintro ⟨p, hp, hu⟩
  simp only [exPlotKw, List.mem_cons, List.not_mem_nil, or_false] at hp
  rcases hp with rfl | rfl <;> exact hu (by decide)

/-- The number given, and the defaults of everything else. -/
example (runs : List (Run ℝ × Option Settings)) :
    bsParamDistsKw A R runs exPlotKw = bsParamDists A R runs [columnOf 0, columnOf 1] 2 2 5 (.num 0) := by
  refine C104_dists (labels := ["$\\theta_1$", "$\\theta_2$"]) (lims := [(-1, 1), (-1, 1)]) runs ?_ (.inr ⟨rfl, rfl⟩)
    (.inr ⟨rfl, by decide⟩) (.inr ⟨rfl, rfl⟩) (.inl rfl) (.inr (.inr ⟨rfl, rfl⟩))
  rintro ⟨p, hp, hu⟩
  simp only [exPlotKw, List.mem_cons, List.not_mem_nil, or_false] at hp
  rcases hp with rfl | rfl <;> exact hu (by decide)

/-- A misspelt option. -/
example (runs : List (Run ℝ × Option Settings)) (w : World σ) :
    paramLogxDiagramKw A R runs [("plot_means", .bool false), ("n_simulat", .nat 5)] w = (.error .type, w) :=
  C104_unknown_logx runs ⟨("n_simulat", .nat 5), by simp, by decide⟩ w

/-- With `nrows=0` the misspelt option is not what is reported. -/
example (df : SampleFrame) : kdePlotDfKw df none [("legnd", .bool true), ("nrows", .nat 0)] = .error .zeroDivision := rfl

example (df : SampleFrame) : kdePlotDfKw df none [("legnd", .bool true), ("nrows", .nat 2)] = .error .type := by
  refine (C104_unknown_kde df none ⟨("legnd", .bool true), by simp, by decide⟩).2 (fun n => ?_) (fun b => ?_)
  · by_cases hn : n = 0
    · left
      subst hn
      intro h
      have : (some (PlotVal.nat 2)) = some (PlotVal.nat 0) := h
      simp at this
    · exact .inr hn
  · intro h
    have : (some (PlotVal.nat 2)) = some (PlotVal.bool b) := h
    simp at this

example (names : List String) (dict : RunDict) :
    plotRunNliveKw R names dict [("logx_min", .real (-3)), ("ymax", .real 1)] =
      plotRunNlive R names dict none none (some (-3)) 100 none none := by
  refine C104_nlive names dict ?_ (.inr ⟨rfl, rfl⟩) (.inr ⟨rfl, rfl⟩) (.inl rfl) (.inr ⟨rfl, rfl⟩) (.inr ⟨rfl, rfl⟩) (.inr ⟨rfl, rfl⟩)
  rintro ⟨p, hp, hu⟩
  simp only [List.mem_cons, List.not_mem_nil, or_false] at hp
  rcases hp with rfl | rfl <;> exact hu (by decide)

example : columnOf 1 [[1, 2], [3, 4]] = .ok [some 2, some 4] := C104_columns (by simp)

example : SamePlotOptions exPlotKw exPlotKw.reverse := C104_order (List.reverse_perm _).symm (by decide)

end
end Nestcheck
