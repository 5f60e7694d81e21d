/-
C48 (default values) and C53: every option that a sweep reads is registered.
-/
import Verif.Factory.Props

set_option autoImplicit false

namespace Leonard

/-- The names of the registered options. -/
def registeredKeys : List String := registeredOptions.map Prod.fst

/-- The options when the program has read a configuration file with these lines. -/
def configured (lines : List (List Char)) : Outcome Options := readConfig (optionsOf registeredOptions) lines

/-! ### Lemmas -/

theorem optionsOf_isSome (l : List (String × String)) (k : String) : (optionsOf l k.toList).isSome ↔ k ∈ l.map Prod.fst := by
  unfold optionsOf
  rw [Option.isSome_map, List.find?_isSome]
  simp only [List.mem_reverse, decide_eq_true_eq, List.mem_map]
  constructor
  · rintro ⟨p, hp, h⟩; exact ⟨p, hp, String.toList_inj.1 h⟩
  · rintro ⟨p, hp, rfl⟩; exact ⟨p, hp, rfl⟩

theorem setOption_isSome (o : Options) (p : List Char × List Char) (k : List Char) : (setOption o p k).isSome = (o k).isSome := by
  unfold setOption
  split_ifs with h
  · by_cases hk : k = p.1
    · subst hk; simp [h]
    · simp [hk]
  · rfl

theorem readConfig_isSome (lines : List (List Char)) : ∀ o o' : Options, readConfig o lines = .ok o' →
    ∀ k, (o' k).isSome = (o k).isSome := by
  induction lines with
  | nil => intro o o' h k; simp only [readConfig, Outcome.ok.injEq] at h; rw [h]
  | cons line rest ih =>
    intro o o' h k
    unfold readConfig at h
    cases hl : readLine line with
    | exit c => rw [hl] at h; cases h
    | ub => rw [hl] at h; cases h
    | ok p =>
      rw [hl, Outcome.bind_ok] at h
      cases p with
      | none => exact ih _ _ h k
      | some p => rw [ih _ _ h k, setOption_isSome]

theorem configured_isSome (lines : List (List Char)) (o : Options) (h : configured lines = .ok o) (k : String) :
    (o k.toList).isSome ↔ k ∈ registeredKeys := by
  rw [readConfig_isSome lines _ _ h]
  exact optionsOf_isSome _ k

theorem getOption_ok (o : Options) (k : String) : (∃ v, getOption o k = .ok v) ↔ (o k.toList).isSome := by
  unfold getOption
  cases o k.toList <;> simp

theorem getOption_missing (lines : List (List Char)) (o : Options) (h : configured lines = .ok o) (k : String) (hk : k ∉ registeredKeys) :
    getOption o k = .exit 134 := by
  have := (configured_isSome lines o h k).not.2 hk
  unfold getOption
  cases ho : o k.toList with
  | none => rfl
  | some v => rw [ho] at this; simp at this

theorem getOptions_ok (o : Options) (ks : List String) (h : ∀ k ∈ ks, ∃ v, getOption o k = .ok v) :
    ∃ vs, getOptions o ks = .ok vs ∧ vs.length = ks.length := by
  induction ks with
  | nil => exact ⟨[], rfl, rfl⟩
  | cons k ks ih =>
    obtain ⟨v, hv⟩ := h k (by simp)
    obtain ⟨vs, hvs, hl⟩ := ih fun k' hk' => h k' (by simp [hk'])
    exact ⟨v :: vs, by simp [getOptions, hv, hvs], by simp [hl]⟩

theorem rational_mem (i : ℕ) (hi : i < 32) (s : String) (hs : s ∈ ["heatbath_rational_fraction_", "metropolis_rational_fraction_"]) :
    s ++ toString (i + 1) ∈ registeredKeys := by
  have h : ∀ s ∈ ["heatbath_rational_fraction_", "metropolis_rational_fraction_"], ∀ i ∈ List.range 32,
      s ++ toString (i + 1) ∈ registeredKeys := by decide +kernel
  exact h s hs i (by simpa using hi)

theorem level_mem (i : ℕ) (hi : i < 3) : "force_inverter_precision_level_" ++ toString (i + 1) ∈ registeredKeys := by
  have h : ∀ i ∈ List.range 3, "force_inverter_precision_level_" ++ toString (i + 1) ∈ registeredKeys := by decide +kernel
  exact h i (by simpa using hi)

theorem force_mem (i j : ℕ) (hi : i < 3) (hj : j < 32) :
    "force_rational_fraction_" ++ toString (j + 1) ++ "_level_" ++ toString (i + 1) ∈ registeredKeys := by
  have h : ∀ i ∈ List.range 3, ∀ j ∈ List.range 32,
      "force_rational_fraction_" ++ toString (j + 1) ++ "_level_" ++ toString (i + 1) ∈ registeredKeys := by decide +kernel
  exact h i (by simpa using hi) j (by simpa using hj)

/-! ### C53 -/

/-- **C53** (defaults).  The default of an option is the one that was registered last. -/
theorem C53_last_default (a b : List (String × String)) (k v : String) (hk : k ∉ b.map Prod.fst) :
    optionsOf (a ++ (k, v) :: b) k.toList = some v.toList := by
  have hb : b.reverse.find? (fun p => decide (p.1.toList = k.toList)) = none := by
    rw [List.find?_eq_none]
    intro p hp h
    exact hk (List.mem_map.2 ⟨p, List.mem_reverse.1 hp, String.toList_inj.1 (by simpa using h)⟩)
  unfold optionsOf
  rw [List.reverse_append, List.reverse_cons, List.append_assoc, List.find?_append, hb]
  simp

example : "epsilon" ∉ [("beta", "5")].map Prod.fst ∧
    optionsOf ([("epsilon", "1")] ++ ("epsilon", "2") :: [("beta", "5")]) "epsilon".toList = some "2".toList := by decide

/-- **C53** (the part that holds).  For every configuration file: whatever the file contains, every sweep that can be named, except
`XSpaceCorrelators` and `MaximalAbelianGaugeFixing`, finds every option it reads.  Missing: these two sweeps
(`C53_xspace_counterexample`, `C53_abelian_counterexample`), and the options of more than 32 pseudofermions or 3 levels
(`C53_pseudofermions_counterexample`). -/
theorem C53_registered_partial (lines : List (List Char)) (o : Options) (h : configured lines = .ok o) (name : String)
    (hn : name ∈ printedSweeps) (h1 : name ≠ "XSpaceCorrelators") (h2 : name ≠ "MaximalAbelianGaugeFixing") (key : String)
    (hk : key ∈ sweepReads name) : ∃ v, getOption o key = .ok v := by
  rw [getOption_ok, configured_isSome lines o h]
  have ht : ∀ name ∈ printedSweeps, name ≠ "XSpaceCorrelators" → name ≠ "MaximalAbelianGaugeFixing" →
      ∀ key ∈ sweepReads name, key ∈ registeredKeys := by decide +kernel
  exact ht name hn h1 h2 key hk

/-- **C53** (rational approximations, the part that holds).  With at most 32 pseudofermions and 3 levels all options exist. -/
theorem C53_rational_partial (lines : List (List Char)) (o : Options) (h : configured lines = .ok o) (pseudofermions levels : ℕ)
    (hp : pseudofermions ≤ 32) (hl : levels ≤ 3) :
    ∃ vs, getOptions o (rationalReads pseudofermions levels) = .ok vs ∧ vs.length = (rationalReads pseudofermions levels).length := by
  apply getOptions_ok
  intro k hk
  rw [getOption_ok, configured_isSome lines o h]
  simp only [rationalReads, List.mem_append, List.mem_map, List.mem_range, List.mem_flatMap] at hk
  rcases hk with ((⟨i, hi, rfl⟩ | ⟨i, hi, rfl⟩) | ⟨i, hi, rfl⟩) | ⟨i, hi, j, hj, rfl⟩
  · exact rational_mem i (by omega) _ (by simp)
  · exact rational_mem i (by omega) _ (by simp)
  · exact level_mem i (by omega)
  · exact force_mem i j (by omega) (by omega)

/-- **C53, counterexample 1**.  Whatever the configuration file contains, the sweep `XSpaceCorrelators` ends the program at its first statement. -/
theorem C53_xspace_counterexample (lines : List (List Char)) (o : Options) (h : configured lines = .ok o) :
    "XSpaceCorrelators" ∈ printedSweeps ∧ xSpaceCorrelatorsStart o = .exit 134 :=
  ⟨by decide +kernel, getOption_missing lines o h _ (by decide +kernel)⟩

/-- **C53, counterexample 2**.  Whatever the configuration file contains, the sweep `MaximalAbelianGaugeFixing` ends the program for two colours and
does nothing for another number of colours. -/
theorem C53_abelian_counterexample (lines : List (List Char)) (o : Options) (h : configured lines = .ok o) (n : ℕ) :
    "MaximalAbelianGaugeFixing" ∈ printedSweeps ∧ abelianFixingReads n o = if n = 2 then .exit 134 else .ok [] := by
  refine ⟨by decide +kernel, ?_⟩
  unfold abelianFixingReads
  split_ifs
  · rw [getOptions, getOption_missing lines o h _ (by decide +kernel)]; rfl
  · rfl

/-- **C53, counterexample 3**.  The origin of the source of `OverlapChiralRotation` cannot be set by any configuration file. -/
theorem C53_chiral_rotation_counterexample (lines : List (List Char)) (o : Options) (h : configured lines = .ok o) :
    chiralRotationSource o = none := by
  unfold chiralRotationSource
  rw [getOption_missing lines o h _ (by decide +kernel)]

/-- **C53, counterexample 4**.  With 33 pseudofermions and one level an option is missing, whatever the configuration file contains. -/
theorem C53_pseudofermions_counterexample (lines : List (List Char)) (o : Options) (h : configured lines = .ok o) :
    ∃ k ∈ rationalReads 33 1, getOption o k = .exit 134 := by
  refine ⟨"heatbath_rational_fraction_33", by decide +kernel, getOption_missing lines o h _ (by decide +kernel)⟩

/-- The hypothesis of the theorems is met: a file with a comment, a known option and an unknown one. -/
example : ∃ o, configured ["# comment".toList, "beta = 5.3".toList, "colour = red".toList] = .ok o ∧
    o "beta".toList ≠ none ∧ o "colour".toList = none := by
  have r1 : readLine "# comment".toList = .ok none := by decide +kernel
  have r2 : ∃ p, readLine "beta = 5.3".toList = .ok (some p) := ⟨("beta".toList, "5.3".toList), by decide +kernel⟩
  have r3 : ∃ p, readLine "colour = red".toList = .ok (some p) := ⟨("colour".toList, "red".toList), by decide +kernel⟩
  obtain ⟨p2, r2⟩ := r2
  obtain ⟨p3, r3⟩ := r3
  have ho : configured ["# comment".toList, "beta = 5.3".toList, "colour = red".toList] =
      .ok (setOption (setOption (optionsOf registeredOptions) p2) p3) := by
    generalize hg : optionsOf registeredOptions = g
    unfold configured
    rw [hg]
    simp only [readConfig, r1, r2, r3, Outcome.bind_ok]
  refine ⟨_, ho, ?_, ?_⟩
  · exact Option.isSome_iff_ne_none.1 ((configured_isSome _ _ ho "beta").2 (by decide +kernel))
  · exact Option.not_isSome_iff_eq_none.1 ((configured_isSome _ _ ho "colour").not.2 (by decide +kernel))

/-! ### Default values (C48) -/

/-- The default text of an option. -/
def defaultOf (k : String) : Option String := (optionsOf registeredOptions k.toList).map String.ofList

theorem defaultOf_values : defaultOf "start" = some "hotstart" ∧ defaultOf "name_action" = some "Improved" ∧
    defaultOf "name_integrator" = some "omelyan" ∧ defaultOf "WilsonFlow::flow_type" = some "Wilson" ∧
    defaultOf "dirac_operator" = some "DiracWilson" ∧ defaultOf "measurement_sweeps" = some "{{PureGaugeCM,1,1},{Plaquette,1,1}}" ∧
    defaultOf "warm_up_sweeps" = some "{{TestCommunications,1,1},{PureGaugeCM,1,1},{Plaquette,1,1}}" ∧
    defaultOf "input_format_name" = some "muester_format" := by decide +kernel

/-- **C48** (default values, the part that holds).  The default values of these options are accepted names.  Missing: `warm_up_sweeps` and
`input_format_name`. -/
theorem C48_defaults_partial :
    (∃ s c, defaultOf "start" = some s ∧ startInstance s = .ok c) ∧
    (∃ s c, defaultOf "name_action" = some s ∧ ∀ beta, gaugeActionInstance s beta = .ok (c, beta)) ∧
    (∃ s c, defaultOf "name_integrator" = some s ∧ integratorInstance s = .ok c) ∧
    (∃ s c, defaultOf "WilsonFlow::flow_type" = some s ∧ ∀ n, flowAction s n = .ok (c, 2 * (n : ℝ))) ∧
    (∃ s d, defaultOf "dirac_operator" = some s ∧ (s, d) ∈ discretisationTable) ∧
    (∃ s l, defaultOf "measurement_sweeps" = some s ∧ readSweepList s.toList = .ok l ∧ l.map Sweep.name = ["PureGaugeCM", "Plaquette"]) := by
  obtain ⟨h1, h2, h3, h4, h5, h6, -, -⟩ := defaultOf_values
  refine ⟨⟨_, .HotStartGaugeConfiguration, h1, ?_⟩, ⟨_, .ImprovedGaugeAction, h2, fun _ => ?_⟩, ⟨_, .OmelyanLeapFrog, h3, ?_⟩,
    ⟨_, .WilsonGaugeAction, h4, fun _ => ?_⟩, ⟨_, .wilson, h5, by decide⟩,
    ⟨_, [⟨"PureGaugeCM", 1, 1⟩, ⟨"Plaquette", 1, 1⟩], h6, ?_, rfl⟩⟩
  · simp [startInstance]
  · simp [gaugeActionInstance]
  · simp [integratorInstance]
  · simp [flowAction]
  · decide +kernel

/-- **C48, counterexample 5**.  The default of `warm_up_sweeps` names a sweep that does not exist: a run that does not set this option stops. -/
theorem C48_default_warm_up_counterexample :
    ∃ s, defaultOf "warm_up_sweeps" = some s ∧ readSweepList s.toList = .exit 1 :=
  ⟨_, defaultOf_values.2.2.2.2.2.2.1, by decide +kernel⟩

/-- **C48, counterexample 6**.  The default of `input_format_name` is not a known format, and it is not refused: the reader reports success,
whatever the readers of the known formats would report. -/
theorem C48_default_format_counterexample :
    ∃ s, defaultOf "input_format_name" = some s ∧ s ≠ "leonard_format" ∧ s ≠ "muenster_format" ∧
      ∀ leonard muenster, readDispatch s leonard muenster = true :=
  ⟨_, defaultOf_values.2.2.2.2.2.2.2, by decide, by decide, fun _ _ => by simp [readDispatch]⟩

end Leonard
