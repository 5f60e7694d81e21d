import Mathlib.Algebra.Order.Floor.Semiring
import Verif.Order.FlowProps
import Verif.Measure.Energy

/-!
# C59 What the Wilson flow measures
-/

set_option autoImplicit false

namespace Leonard

open Matrix

variable {S : Type} {N : ℕ}

/-! ### Specification -/

/-- **Specification.** `Σ_{μ<ν} |F_{μν}(x)|²`, the sum of the squares of the entries of the field strength `F = (Q - Q†)/8`, where `Q` is the
sum of the four plaquettes around `x`. -/
noncomputable def fieldSquare (T : Torus S) (U : GField S N) (x : S) : ℝ :=
  ∑ μ, ∑ ν, if μ < ν then ∑ i, ∑ j, ‖cloverF T U μ ν x i j‖ ^ 2 else 0

/-- **Specification.** The energy density: the average of `fieldSquare` over the sites. -/
noncomputable def energyDensity [Fintype S] (T : Torus S) (U : GField S N) : ℝ := (∑ x, fieldSquare T U x) / Fintype.card S

/-- **Specification.** The density of topological charge `ε_{μνρσ} Re tr(F_{μν} F_{ρσ}) / 32π²`; the sum runs over the permutations of the
four directions. -/
noncomputable def chargeDensity (T : Torus S) (U : GField S N) (x : S) : ℝ :=
  (∑ π : Equiv.Perm (Fin 4), ((Equiv.Perm.sign π : ℤ) : ℝ) * (trace (cloverF T U (π 0) (π 1) x * cloverF T U (π 2) (π 3) x)).re)
    / (32 * Real.pi ^ 2)

/-- **Specification.** The topological charge. -/
noncomputable def charge [Fintype S] (T : Torus S) (U : GField S N) : ℝ := ∑ x, chargeDensity T U x

/-- **Specification.** The average of a density over the time slice `t`. -/
noncomputable def sliceAverage [Fintype S] (T : Torus S) (f : S → ℝ) (t : ℕ) : ℝ :=
  (∑ x, if T.coord x 3 = t then f x else 0) / (T.ext 0 * T.ext 1 * T.ext 2 : ℕ)

/-- **Specification.** What has to be written for flow time `t` when the flowed configuration is `V`.  The last clause has a sign which the energy
density does not have; see `C59_energy_correlator_counterexample`. -/
structure RowOf [Fintype S] (T : Torus S) (t : ℝ) (V : GField S N) (row : FlowRow) : Prop where
  time : row.time = t
  wilsonFlow : row.wilsonFlow = t ^ 2 * energyDensity T V
  charge : row.charge = Leonard.charge T V
  topologicalCorrelator : row.topologicalCorrelator = (List.range (T.ext 3)).map (sliceAverage T (chargeDensity T V))
  energyCorrelator : row.energyCorrelator = (List.range (T.ext 3)).map fun t => -sliceAverage T (fieldSquare T V) t

/-! ### Energy and charge of a configuration -/

theorem measure_energy [Fintype S] (T : Torus S) (U : GField S N) : (measureEnergy T U).gaugeEnergy = energyDensity T U := by
  unfold measureEnergy energyDensity fieldSquare
  simp only [siteEnergy_eq, Finset.sum_neg_distrib, neg_neg]

theorem measure_charge [Fintype S] (T : Torus S) (U : GField S N) : (measureEnergy T U).topologicalCharge = charge T U := by
  unfold measureEnergy charge chargeDensity
  simp only [siteCharge_perm]

theorem rowOf_flowRow [Fintype S] (T : Torus S) (t : ℝ) (U : GField S N) : RowOf T t U (flowRow T t U) := by
  refine ⟨rfl, ?_, measure_charge T U, ?_, ?_⟩
  · change t * t * (measureEnergy T U).gaugeEnergy = _
    rw [measure_energy, sq]
  · refine List.map_congr_left fun τ _ => ?_
    change (∑ x, if T.coord x 3 = τ then (siteMeasure T U x).2 else 0) / (spatialVolume T : ℝ) = _
    simp only [siteCharge_perm]
    rfl
  · refine List.map_congr_left fun τ _ => ?_
    change (∑ x, if T.coord x 3 = τ then (siteMeasure T U x).1 else 0) / (spatialVolume T : ℝ) = _
    unfold sliceAverage
    rw [← neg_div, ← Finset.sum_neg_distrib]
    refine congrArg (fun r : ℝ => r / _) (Finset.sum_congr rfl fun x _ => ?_)
    split
    · rw [siteEnergy_eq]; rfl
    · simp

/-- **C59**: what `measureEnergy` computes is the energy density and the topological charge. The energy density is not negative, and it is zero
exactly when the field strength vanishes everywhere. -/
theorem C59_energy_charge [Fintype S] [Nonempty S] (T : Torus S) (U : GField S N) :
    (measureEnergy T U).gaugeEnergy = energyDensity T U ∧ (measureEnergy T U).topologicalCharge = charge T U
    ∧ 0 ≤ energyDensity T U ∧ (energyDensity T U = 0 ↔ ∀ μ ν x, cloverF T U μ ν x = 0) := by
  have hf : ∀ x, 0 ≤ fieldSquare T U x := fun x => Finset.sum_nonneg fun μ _ => Finset.sum_nonneg fun ν _ => by
    split
    · positivity
    · exact le_rfl
  refine ⟨measure_energy T U, measure_charge T U, div_nonneg (Finset.sum_nonneg fun x _ => hf x) (Nat.cast_nonneg _), ?_⟩
  have hc : (Fintype.card S : ℝ) ≠ 0 := Nat.cast_ne_zero.2 Fintype.card_ne_zero
  unfold energyDensity
  rw [div_eq_zero_iff, or_iff_left hc, Finset.sum_eq_zero_iff_of_nonneg fun x _ => hf x]
  constructor
  · intro h
    have h1 : ∀ μ ν x, μ < ν → cloverF T U μ ν x = 0 := by
      intro μ ν x hlt
      have h2 := h x (Finset.mem_univ _)
      unfold fieldSquare at h2
      have n1 : ∀ μ ν, 0 ≤ (if μ < ν then ∑ i, ∑ j, ‖cloverF T U μ ν x i j‖ ^ 2 else 0) := by
        intro μ ν
        split
        · positivity
        · exact le_rfl
      rw [Finset.sum_eq_zero_iff_of_nonneg fun μ _ => Finset.sum_nonneg fun ν _ => n1 μ ν] at h2
      have h3 := h2 μ (Finset.mem_univ _)
      rw [Finset.sum_eq_zero_iff_of_nonneg fun ν _ => n1 μ ν] at h3
      have h4 := h3 ν (Finset.mem_univ _)
      rw [if_pos hlt, Finset.sum_eq_zero_iff_of_nonneg fun i _ => by positivity] at h4
      ext i j
      have h5 := h4 i (Finset.mem_univ _)
      rw [Finset.sum_eq_zero_iff_of_nonneg fun j _ => by positivity] at h5
      simpa using h5 j (Finset.mem_univ _)
    intro μ ν x
    rcases lt_trichotomy μ ν with hlt | rfl | hlt
    · exact h1 μ ν x hlt
    · have h := cloverF_swap T U μ μ x
      have h2 : (2 : ℂ) • cloverF T U μ μ x = 0 := by rw [two_smul]; nth_rewrite 1 [h]; simp
      exact (smul_eq_zero.1 h2).resolve_left two_ne_zero
    · rw [cloverF_swap T U ν μ, h1 ν μ x hlt, neg_zero]
  · intro h x _
    unfold fieldSquare
    refine Finset.sum_eq_zero fun μ _ => Finset.sum_eq_zero fun ν _ => ?_
    split
    · simp [h]
    · rfl

theorem sum_lt_planes (f : Fin 4 → Fin 4 → ℝ) :
    (∑ μ, ∑ ν, if μ < ν then f μ ν else 0) = f 0 1 + f 0 2 + f 0 3 + f 1 2 + f 1 3 + f 2 3 := by
  simp only [Fin.sum_univ_four]
  simp [Fin.lt_def]
  ring

/-- **C59**, the self-duality bound: the energy of a configuration is at least `8π²` for each unit of topological charge. -/
theorem C59_bound [Fintype S] [Nonempty S] (T : Torus S) (U : GField S N) :
    8 * Real.pi ^ 2 * |(measureEnergy T U).topologicalCharge| ≤ Fintype.card S * (measureEnergy T U).gaugeEnergy := by
  have hc : (Fintype.card S : ℝ) ≠ 0 := Nat.cast_ne_zero.2 Fintype.card_ne_zero
  rw [measure_energy]
  unfold energyDensity
  rw [mul_div_cancel₀ _ hc]
  have hp : (0 : ℝ) < 8 * Real.pi ^ 2 := by positivity
  have h : ∀ x, 8 * Real.pi ^ 2 * |(siteMeasure T U x).2| ≤ fieldSquare T U x := by
    intro x
    rw [siteCharge_eq, abs_div, abs_of_pos (by positivity : (0 : ℝ) < 4 * Real.pi ^ 2)]
    have a := fun μ ν => cloverF_antihermitian T U μ ν x
    have b1 := abs_re_trace_mul_le (A := cloverF T U 0 3 x) (a 1 2)
    have b2 := abs_re_trace_mul_le (A := cloverF T U 0 2 x) (a 1 3)
    have b3 := abs_re_trace_mul_le (A := cloverF T U 0 1 x) (a 2 3)
    have e : fieldSquare T U x = ∑ i, ∑ j, ‖cloverF T U 0 1 x i j‖ ^ 2 + ∑ i, ∑ j, ‖cloverF T U 0 2 x i j‖ ^ 2
        + ∑ i, ∑ j, ‖cloverF T U 0 3 x i j‖ ^ 2 + ∑ i, ∑ j, ‖cloverF T U 1 2 x i j‖ ^ 2
        + ∑ i, ∑ j, ‖cloverF T U 1 3 x i j‖ ^ 2 + ∑ i, ∑ j, ‖cloverF T U 2 3 x i j‖ ^ 2 := by
      exact sum_lt_planes fun μ ν => ∑ i, ∑ j, ‖cloverF T U μ ν x i j‖ ^ 2
    rw [e]
    have t := abs_add_le ((trace (cloverF T U 0 3 x * cloverF T U 1 2 x)).re - (trace (cloverF T U 0 2 x * cloverF T U 1 3 x)).re)
      (trace (cloverF T U 0 1 x * cloverF T U 2 3 x)).re
    have t' := abs_sub (trace (cloverF T U 0 3 x * cloverF T U 1 2 x)).re (trace (cloverF T U 0 2 x * cloverF T U 1 3 x)).re
    rw [mul_div_assoc', div_le_iff₀ (by positivity)]
    have hpi : (0 : ℝ) < Real.pi ^ 2 := by positivity
    have key : |(trace (cloverF T U 0 3 x * cloverF T U 1 2 x)).re - (trace (cloverF T U 0 2 x * cloverF T U 1 3 x)).re
      + (trace (cloverF T U 0 1 x * cloverF T U 2 3 x)).re| * 2 ≤ _ := (mul_le_mul_of_nonneg_right (t.trans (add_le_add (t'.trans (add_le_add b1 b2)) b3)) (by norm_num))
    have key2 := mul_le_mul_of_nonneg_right key (by positivity : (0 : ℝ) ≤ 4 * Real.pi ^ 2)
    refine le_trans (le_of_eq (by ring)) (key2.trans (le_of_eq (by ring)))
  calc 8 * Real.pi ^ 2 * |∑ x, (siteMeasure T U x).2| ≤ 8 * Real.pi ^ 2 * ∑ x, |(siteMeasure T U x).2| :=
        mul_le_mul_of_nonneg_left (Finset.abs_sum_le_sum_abs _ _) hp.le
    _ = ∑ x, 8 * Real.pi ^ 2 * |(siteMeasure T U x).2| := Finset.mul_sum _ _ _
    _ ≤ _ := Finset.sum_le_sum fun x _ => h x

/-- **C59**, symmetries: under reflections, permutations of the axes and translations (see `boxSymmetry` and `translation`) the energy does not
change, and the topological charge is multiplied by the determinant of the symmetry: a reflection changes its sign. -/
theorem C59_symmetry [Fintype S] (T : Torus S) (R : LatticeSymmetry T) (U : GField S N) :
    (measureEnergy T (R.pull U)).gaugeEnergy = (measureEnergy T U).gaugeEnergy
    ∧ (measureEnergy T (R.pull U)).topologicalCharge = R.det * (measureEnergy T U).topologicalCharge := by
  constructor
  · change -(∑ x, (siteMeasure T (R.pull U) x).1) / _ = -(∑ x, (siteMeasure T U x).1) / _
    simp only [siteEnergy_pull]
    rw [Equiv.sum_comp R.map fun x => (siteMeasure T U x).1]
  · change ∑ x, (siteMeasure T (R.pull U) x).2 = R.det * ∑ x, (siteMeasure T U x).2
    simp only [siteCharge_pull]
    rw [Equiv.sum_comp R.map fun x => R.det * (siteMeasure T U x).2, Finset.mul_sum]

theorem det_reflection {T : Torus S} (R : LatticeSymmetry T) (ρ : Fin 4) (h1 : R.axis = 1) (h2 : ∀ μ, R.fwd μ = decide (μ ≠ ρ)) : R.det = -1 := by
  unfold LatticeSymmetry.det LatticeSymmetry.sgn
  rw [h1]
  simp only [h2, Fin.prod_univ_four]
  fin_cases ρ <;> simp

/-- The hypotheses of the symmetry are met: on a lattice with different extents each reflection is a symmetry with determinant -1. -/
example (ρ : Fin 4) : ∃ R : LatticeSymmetry (boxTorus exExt3 exExt3_pos), R.det = -1 :=
  ⟨boxSymmetry exExt3 exExt3_pos 1 (fun _ => rfl) fun μ => decide (μ ≠ ρ), det_reflection _ ρ rfl fun _ => rfl⟩

/-- **C59**, consequence: a configuration which a reflection takes into itself has no topological charge. -/
theorem C59_no_charge [Fintype S] (T : Torus S) (R : LatticeSymmetry T) (hR : R.det = -1) (U : GField S N) (h : R.pull U = U) :
    (measureEnergy T U).topologicalCharge = 0 := by
  have := (C59_symmetry T R U).2
  rw [h, hR] at this
  linarith

/-- The hypotheses are met: the configuration with all links the identity. -/
example : (boxSymmetry exExt3 exExt3_pos 1 (fun _ => rfl) fun μ => decide (μ ≠ 2)).pull (fun _ _ => (1 : Mat 3)) = fun _ _ => 1 := by
  funext s μ
  change hopMat _ _ _ _ = 1
  unfold LatticeSymmetry.fwd boxSymmetry
  simp only []
  cases decide (μ ≠ 2) <;> simp [hopMat]

/-- **C59**, time slices: the correlators of the charge add up to the charge, those of the energy to minus the total energy. -/
theorem C59_timeslices [Fintype S] [Nonempty S] (T : Torus S) (U : GField S N) :
    ∑ t ∈ Finset.range (T.ext 3), (measureEnergy T U).topologicalCorrelator t = (measureEnergy T U).topologicalCharge
    ∧ ∑ t ∈ Finset.range (T.ext 3), (measureEnergy T U).energyCorrelator t = -(Fintype.card S * (measureEnergy T U).gaugeEnergy) := by
  have hc : (Fintype.card S : ℝ) ≠ 0 := Nat.cast_ne_zero.2 Fintype.card_ne_zero
  refine ⟨sum_slices T _, (sum_slices T _).trans ?_⟩
  change _ = -(_ * (-(∑ x, (siteMeasure T U x).1) / _))
  rw [mul_div_cancel₀ _ hc, neg_neg]

/-- **C59**, gauge invariance of everything that is measured on a configuration. -/
theorem C59_gauge_measure [Fintype S] (T : Torus S) (U : GField S N) (ω : S → Mat N) (hω : ∀ s, ω s ∈ unitaryGroup (Fin N) ℂ) :
    measureEnergy T (gaugeTransform T ω U) = measureEnergy T U := by
  unfold measureEnergy
  simp only [siteMeasure_gauge T U ω (fun s => mem_unitaryGroup_iff'.1 (hω s)) fun s => mem_unitaryGroup_iff.1 (hω s)]

/-- **C59**: a pure gauge configuration has no energy and no topological charge. -/
theorem C59_pure_gauge [Fintype S] (T : Torus S) (ω : S → Mat N) (hω : ∀ s, ω s ∈ unitaryGroup (Fin N) ℂ) :
    (measureEnergy T (gaugeTransform T ω fun _ _ => 1)).gaugeEnergy = 0
    ∧ (measureEnergy T (gaugeTransform T ω fun _ _ => 1)).topologicalCharge = 0 := by
  rw [C59_gauge_measure T _ ω hω]
  have hF : ∀ x k, fieldStrength T (fun _ _ => (1 : Mat N)) x k = 0 := by
    intro x k
    simp [fieldStrength, leafSum]
  have hs : ∀ x, siteMeasure T (fun _ _ => (1 : Mat N)) x = (0, 0) := by
    intro x
    unfold siteMeasure
    simp [hF]
  constructor
  · change -(∑ x, (siteMeasure T _ x).1) / _ = 0
    simp [hs]
  · change ∑ x, (siteMeasure T _ x).2 = 0
    simp [hs]

/-! ### The rows which are written -/

theorem flowIntegrate_iterate (eig : EigenSolver N) (force : GField S N → GField S N) (step : ℝ) (n k : ℕ) (U : GField S N) :
    (flowIntegrate eig force step n)^[k] U = flowIntegrate eig force (k * step) (k * n) U := by
  rcases Nat.eq_zero_or_pos k with rfl | hk
  · simp [flowIntegrate]
  · unfold flowIntegrate
    rw [← Function.iterate_mul, mul_comm n k]
    have e : (k * step : ℝ) / ((k * n : ℕ) : ℝ) = step / n := by
      push_cast
      exact mul_div_mul_left _ _ (Nat.cast_ne_zero.2 hk.ne')
    rw [e]

theorem flowLoop_rows [Fintype S] (T : Torus S) (integrate : GField S N → GField S N) {step : ℝ} (hstep : 0 < step) (flowTime : ℝ) (m : ℕ) :
    ∀ (fuel : ℕ) (k : ℕ) (U : GField S N), (⌈flowTime / step⌉₊ : ℕ) = k + m → m < fuel →
      ∃ rows, flowLoop T integrate step flowTime fuel (k * step) U = some rows ∧ rows.length = m ∧
        ∀ (i : ℕ) (hi : i < rows.length), rows[i] = flowRow T ((k + i : ℕ) * step) (integrate^[i] U) := by
  induction m with
  | zero =>
    intro fuel k U hk hf
    obtain ⟨fuel, rfl⟩ := Nat.exists_eq_succ_of_ne_zero hf.ne'
    refine ⟨[], ?_, rfl, fun i hi => absurd hi (by simp)⟩
    have h : ¬ ((k : ℝ) * step < flowTime) := by
      rw [not_lt, ← div_le_iff₀ hstep]
      exact Nat.ceil_le.1 (by omega)
    rw [flowLoop, if_neg h]
  | succ m ih =>
    intro fuel k U hk hf
    obtain ⟨fuel, rfl⟩ := Nat.exists_eq_succ_of_ne_zero (by omega : fuel ≠ 0)
    have h : (k : ℝ) * step < flowTime := by
      rw [← lt_div_iff₀ hstep]
      exact Nat.lt_ceil.1 (by omega)
    obtain ⟨rows, h1, h2, h3⟩ := ih fuel (k + 1) (integrate U) (by omega) (by omega)
    refine ⟨flowRow T (k * step) U :: rows, ?_, by simp [h2], ?_⟩
    · rw [flowLoop, if_pos h]
      rw [show (k : ℝ) * step + step = ((k + 1 : ℕ) : ℝ) * step by push_cast; ring, h1]
      rfl
    · intro i hi
      rcases i with _ | i
      · simp
      · simp only [List.getElem_cons_succ]
        rw [h3, Function.iterate_succ_apply, show k + 1 + i = k + (i + 1) by omega]

/-- **Specification.** The staples of the two flows: that of the plaquette action and that of the tree-level improved action. -/
def FlowOf (T : Torus S) (flowType : String) (staple : GField S N → S → Fin 4 → Mat N) : Prop :=
  (flowType = "Wilson" ∧ staple = wilsonStaple T) ∨ (flowType = "Symanzik" ∧ staple = improvedStaple 1 T)

theorem FlowOf.action {T : Torus S} {flowType : String} {staple : GField S N → S → Fin 4 → Mat N} (h : FlowOf T flowType staple) :
    measuredFlow T flowType = .ok staple := by
  rcases h with ⟨rfl, rfl⟩ | ⟨rfl, rfl⟩ <;> rfl

/-- **C59**, the rows: with a positive step the flow ends after `⌈flow_time/step⌉` measurements, and the one with number `k` is taken at flow time
`k step` on the configuration which `k n` integration steps of total length `k step` give. -/
theorem C59_rows [Fintype S] (eig : EigenSolver N) (T : Torus S) (flowType : String) (staple : GField S N → S → Fin 4 → Mat N)
    (hact : FlowOf T flowType staple) {step : ℝ} (hstep : 0 < step) (flowTime : ℝ) (n fuel : ℕ)
    (hfuel : ⌈flowTime / step⌉₊ < fuel) (U : GField S N) :
    ∃ rows, flowExecute eig T flowType step flowTime n fuel U = .ok (some rows) ∧ rows.length = ⌈flowTime / step⌉₊ ∧
      ∀ (k : ℕ) (hk : k < rows.length),
        RowOf T (k * step) (flowIntegrate eig (flowForce (2 * N) staple) (k * step) (k * n) U) rows[k] := by
  obtain ⟨rows, h1, h2, h3⟩ := flowLoop_rows T (flowIntegrate eig (flowForce (2 * N) staple) step n) hstep flowTime ⌈flowTime / step⌉₊ fuel 0 U
    (by simp) hfuel
  refine ⟨rows, ?_, h2, fun k hk => ?_⟩
  · unfold flowExecute
    rw [hact.action]
    simp only []
    rw [← h1]
    simp
  · rw [h3, flowIntegrate_iterate, zero_add]
    exact rowOf_flowRow T _ _

/-- The hypotheses are met for both actions. -/
example : FlowOf (N := 3) (boxTorus exExt3 exExt3_pos) "Wilson" (wilsonStaple (boxTorus exExt3 exExt3_pos))
    ∧ FlowOf (N := 3) (boxTorus exExt3 exExt3_pos) "Symanzik" (improvedStaple 1 (boxTorus exExt3 exExt3_pos)) := ⟨.inl ⟨rfl, rfl⟩, .inr ⟨rfl, rfl⟩⟩

/-- **C59**, selection of the action: exactly the two documented names are accepted, any other ends the program. -/
theorem C59_flow_type [Fintype S] (eig : EigenSolver N) (T : Torus S) (flowType : String) (step flowTime : ℝ) (n fuel : ℕ) (U : GField S N) :
    flowExecute eig T flowType step flowTime n fuel U = .exit 1 ↔ flowType ≠ "Wilson" ∧ flowType ≠ "Symanzik" := by
  unfold flowExecute measuredFlow
  by_cases h1 : flowType = "Wilson"
  · simp [h1]
  · by_cases h2 : flowType = "Symanzik" <;> simp [h1, h2]

/-- **C59**, counterexample to termination: when the step is not positive the loop does not end, however long it runs. -/
theorem C59_termination_counterexample [Fintype S] (eig : EigenSolver N) (T : Torus S) (step flowTime : ℝ) (hstep : step ≤ 0) (ht : 0 < flowTime)
    (n fuel : ℕ) (U : GField S N) : flowExecute eig T "Wilson" step flowTime n fuel U = .ok none := by
  have h : ∀ (fuel : ℕ) (t : ℝ) (V : GField S N), t < flowTime →
      flowLoop T (flowIntegrate eig (flowForce (2 * N) (wilsonStaple T)) step n) step flowTime fuel t V = none := by
    intro fuel
    induction fuel with
    | zero => intro t V _; rfl
    | succ fuel ih => intro t V h; rw [flowLoop, if_pos h, ih _ _ (by linarith)]; rfl
  change Outcome.ok _ = _
  rw [h fuel 0 U ht]

/-- **C59**, gauge invariance of the whole output. -/
theorem C59_gauge [Fintype S] (hN : 0 < N) (eig : EigenSolver N) (he : eig.Correct) (T : Torus S) (flowType : String) (step flowTime : ℝ)
    (n fuel : ℕ) (U : GField S N) (ω : S → Mat N) (hω : ∀ s, ω s ∈ unitaryGroup (Fin N) ℂ) :
    flowExecute eig T flowType step flowTime n fuel (gaugeTransform T ω U) = flowExecute eig T flowType step flowTime n fuel U := by
  have key : ∀ staple : GField S N → S → Fin 4 → Mat N,
      (∀ U, flowIntegrate eig (flowForce (2 * N) staple) step n (gaugeTransform T ω U)
        = gaugeTransform T ω (flowIntegrate eig (flowForce (2 * N) staple) step n U)) →
      ∀ (fuel : ℕ) (t : ℝ) (U : GField S N),
        flowLoop T (flowIntegrate eig (flowForce (2 * N) staple) step n) step flowTime fuel t (gaugeTransform T ω U)
          = flowLoop T (flowIntegrate eig (flowForce (2 * N) staple) step n) step flowTime fuel t U := by
    intro staple h fuel
    induction fuel with
    | zero => intro t U; rfl
    | succ fuel ih =>
      intro t U
      rw [flowLoop, flowLoop, h, ih]
      unfold flowRow
      rw [C59_gauge_measure T U ω hω]
  unfold flowExecute measuredFlow
  by_cases h1 : flowType = "Wilson"
  · simp only [if_pos h1]
    rw [key _ fun U => (C28_covariant hN eig he (2 * N) T 1 step n U ω hω).1]
  · by_cases h2 : flowType = "Symanzik"
    · simp only [if_neg h1, if_pos h2]
      rw [key _ fun U => (C28_covariant hN eig he (2 * N) T 1 step n U ω hω).2]
    · simp only [if_neg h1, if_neg h2]

/-! ### Accuracy -/

section
open scoped ContDiff Matrix.Norms.Operator

theorem contDiff_leafSum [Fintype S] (T : Torus S) (μ ν : Fin 4) (x : S) : ContDiff ℝ ∞ fun U : GField S N => leafSum T U μ ν x := by
  have l := fun (s : S) (μ : Fin 4) => contDiff_link (N := N) s μ
  have c := fun (s : S) (μ : Fin 4) => contDiff_ct (contDiff_link (N := N) s μ)
  refine ContDiff.add (ContDiff.add (ContDiff.add ?_ ?_) ?_) ?_
  · exact (((c _ _).mul (c _ _)).mul (l _ _)).mul (l _ _)
  · exact (((c _ _).mul (l _ _)).mul (l _ _)).mul (c _ _)
  · exact (((l _ _).mul (l _ _)).mul (c _ _)).mul (c _ _)
  · exact (((l _ _).mul (c _ _)).mul (c _ _)).mul (l _ _)

theorem contDiff_fieldStrength [Fintype S] (T : Torus S) (x : S) (k : Fin 6) : ContDiff ℝ ∞ fun U : GField S N => fieldStrength T U x k :=
  contDiff_csmul _ ((contDiff_leafSum T _ _ x).sub (contDiff_ct (contDiff_leafSum T _ _ x)))

theorem contDiff_energyDensity [Fintype S] (T : Torus S) : ContDiff ℝ ∞ fun U : GField S N => energyDensity T U := by
  have e : (fun U : GField S N => energyDensity T U) = fun U => -(∑ x, ∑ k, (trace (fieldStrength T U x k * fieldStrength T U x k)).re) / Fintype.card S :=
    funext fun U => (measure_energy T U).symm
  rw [e]
  exact (ContDiff.sum fun x _ => ContDiff.sum fun k _ => contDiff_re (contDiff_tr ((contDiff_fieldStrength T x k).mul (contDiff_fieldStrength T x k)))).neg.div_const _

theorem contDiff_charge [Fintype S] (T : Torus S) : ContDiff ℝ ∞ fun U : GField S N => charge T U := by
  have e : (fun U : GField S N => charge T U) = fun U => ∑ x, (trace (fieldStrength T U x 2 * fieldStrength T U x 3)
    - trace (fieldStrength T U x 1 * fieldStrength T U x 4) + trace (fieldStrength T U x 0 * fieldStrength T U x 5)).re
      / (4 * Real.pi * Real.pi) := funext fun U => (measure_charge T U).symm
  rw [e]
  have h := fun x k l => contDiff_tr ((contDiff_fieldStrength (N := N) T x k).mul (contDiff_fieldStrength T x l))
  exact ContDiff.sum fun x _ => (contDiff_re (((h x _ _).sub (h x _ _)).add (h x _ _))).div_const _

/-- A smooth function of the links is as accurate as the links. -/
theorem smooth_error [Fintype S] (hN : 0 < N) (eig : EigenSolver N) (he : eig.Correct) (β : ℝ) (T : Torus S)
    {staple : GField S N → S → Fin 4 → Mat N} (hs : ContDiff ℝ ∞ (flowForce β staple))
    {f : GField S N → ℝ} (hf : ContDiff ℝ ∞ f) (V : ℝ → GField S N) (t : ℝ) (ht : 0 ≤ t) (hU : V 0 ∈ suFields S N)
    (hV : Solves (fun V => flowForce β staple V * V) t V) :
    ∃ C : ℝ, 0 ≤ C ∧ ∀ n : ℕ, n ≠ 0 → |f (flowIntegrate eig (flowForce β staple) t n (V 0)) - f (V t)| ≤ C / n ^ 3 := by
  obtain ⟨C, hC⟩ := flow_error hN eig he β staple hs V t ht hU hV
  obtain ⟨r, hr⟩ := isCompact_suFields.exists_bound_of_continuousOn (continuousOn_id (s := suFields S N))
  obtain ⟨L, hL⟩ := (isCompact_closedBall (0 : GField S N) r).exists_bound_of_continuousOn (hf.continuous_fderiv (by simp)).continuousOn
  have hC0 : 0 ≤ C := by
    have h := (norm_nonneg _).trans (hC 1 one_ne_zero)
    simpa using h
  refine ⟨max L 0 * C, mul_nonneg (le_max_right _ _) hC0, fun n hn => ?_⟩
  have m1 : flowIntegrate eig (flowForce β staple) t n (V 0) ∈ Metric.closedBall (0 : GField S N) r := by
    have := hr _ (C28_group hN eig he β staple t n (V 0) hU)
    simpa using this
  have m2 : V t ∈ Metric.closedBall (0 : GField S N) r := by
    have := hr _ (flow_su hN eig he β staple hs V t ht hU hV)
    simpa using this
  have hlip := (convex_closedBall (0 : GField S N) r).norm_image_sub_le_of_norm_fderiv_le (𝕜 := ℝ) (f := f) (C := max L 0)
    (fun x _ => (hf.differentiable (by simp)).differentiableAt) (fun x hx => (hL x hx).trans (le_max_left _ _)) m2 m1
  rw [mul_div_assoc]
  exact hlip.trans (mul_le_mul_of_nonneg_left (hC n hn) (le_max_right _ _))

theorem flowAction_smooth [Fintype S] {T : Torus S} {flowType : String} {staple : GField S N → S → Fin 4 → Mat N}
    (hact : measuredFlow T flowType = .ok staple) (β : ℝ) : ContDiff ℝ ∞ (flowForce β staple) := by
  unfold measuredFlow at hact
  split at hact
  · injection hact with h; rw [← h]; exact contDiff_flowWilson β T
  · split at hact
    · injection hact with h; rw [← h]; exact contDiff_flowImproved 1 β T
    · cases hact

/-- **C59**, accuracy of the rows: for every row the energy density and the topological charge written differ from those of the exact solution of the
flow equation at the flow time of the row by no more than a constant over the third power of the number of integration steps per row. -/
theorem C59_accuracy [Fintype S] (hN : 0 < N) (eig : EigenSolver N) (he : eig.Correct) (T : Torus S) (flowType : String)
    (staple : GField S N → S → Fin 4 → Mat N) (hact : FlowOf T flowType staple) {step : ℝ} (hstep : 0 < step) (flowTime : ℝ)
    (U : GField S N) (hU : ∀ s μ, U s μ ∈ specialUnitaryGroup (Fin N) ℂ) (k : ℕ) (hk : k * step < flowTime)
    (V : ℝ → GField S N) (h0 : V 0 = U) (hV : FlowEquation (2 * N) staple (k * step) V) :
    ∃ C : ℝ, ∀ n : ℕ, n ≠ 0 → ∃ (rows : List FlowRow) (row : FlowRow),
      (∀ fuel, ⌈flowTime / step⌉₊ < fuel → flowExecute eig T flowType step flowTime n fuel U = .ok (some rows)) ∧ rows[k]? = some row ∧ row.time = k * step ∧
      |row.wilsonFlow - (k * step) ^ 2 * energyDensity T (V (k * step))| ≤ C / n ^ 3 ∧ |row.charge - charge T (V (k * step))| ≤ C / n ^ 3 := by
  subst h0
  have hV := (flowEquation_iff (2 * N) staple (k * step) V).1 hV
  have ht : 0 ≤ (k : ℝ) * step := by positivity
  obtain ⟨C1, h1, hC1⟩ := smooth_error hN eig he (2 * N) T (flowAction_smooth hact.action _) (contDiff_energyDensity T) V _ ht hU hV
  obtain ⟨C2, h2, hC2⟩ := smooth_error hN eig he (2 * N) T (flowAction_smooth hact.action _) (contDiff_charge T) V _ ht hU hV
  refine ⟨(k * step) ^ 2 * C1 + C2, fun n hn => ?_⟩
  obtain ⟨rows, e1, e2, e3⟩ := C59_rows eig T flowType staple hact hstep flowTime n (⌈flowTime / step⌉₊ + 1) (Nat.lt_succ_self _) (V 0)
  have hlen : k < rows.length := by
    rw [e2, Nat.lt_ceil, lt_div_iff₀ hstep]
    exact hk
  have hn3 : (0 : ℝ) < (n : ℝ) ^ 3 := by positivity
  have hrow := e3 k hlen
  refine ⟨rows, rows[k], ?_, by simp [hlen], hrow.time, ?_, ?_⟩
  · intro fuel hf
    obtain ⟨rows', f1, f2, f3⟩ := flowLoop_rows T (flowIntegrate eig (flowForce (2 * N) staple) step n) hstep flowTime ⌈flowTime / step⌉₊ fuel 0 (V 0)
      (by simp) hf
    obtain ⟨rows'', g1, g2, g3⟩ := flowLoop_rows T (flowIntegrate eig (flowForce (2 * N) staple) step n) hstep flowTime ⌈flowTime / step⌉₊ (⌈flowTime / step⌉₊ + 1) 0 (V 0)
      (by simp) (Nat.lt_succ_self _)
    have hx : ∀ fuel, flowExecute eig T flowType step flowTime n fuel (V 0)
        = .ok (flowLoop T (flowIntegrate eig (flowForce (2 * N) staple) step n) step flowTime fuel ((0 : ℕ) * step) (V 0)) := by
      intro fuel
      unfold flowExecute
      rw [hact.action]
      simp
    rw [hx, g1] at e1
    have er : rows'' = rows := by injection e1 with e1; injection e1
    rw [hx, f1, ← er]
    congr 2
    refine List.ext_getElem (by rw [f2, g2]) fun i hi hi' => ?_
    rw [f3 i hi, g3 i hi']
  · rw [hrow.wilsonFlow, ← mul_sub, abs_mul, abs_of_nonneg (sq_nonneg _)]
    rcases Nat.eq_zero_or_pos k with rfl | hk0
    · simp
      positivity
    · have := hC1 (k * n) (Nat.mul_ne_zero hk0.ne' hn)
      have hle : C1 / ((k * n : ℕ) : ℝ) ^ 3 ≤ C1 / (n : ℝ) ^ 3 := by
        refine div_le_div_of_nonneg_left h1 hn3 (pow_le_pow_left₀ (Nat.cast_nonneg _) ?_ 3)
        exact_mod_cast Nat.le_mul_of_pos_left n hk0
      calc (k * step) ^ 2 * |energyDensity T _ - energyDensity T _| ≤ (k * step) ^ 2 * (C1 / (n : ℝ) ^ 3) :=
            mul_le_mul_of_nonneg_left (this.trans hle) (sq_nonneg _)
        _ ≤ _ := by rw [add_div, mul_div_assoc]; exact le_add_of_nonneg_right (by positivity)
  · rw [hrow.charge]
    rcases Nat.eq_zero_or_pos k with rfl | hk0
    · simp [flowIntegrate]
      positivity
    · have := hC2 (k * n) (Nat.mul_ne_zero hk0.ne' hn)
      have hle : C2 / ((k * n : ℕ) : ℝ) ^ 3 ≤ C2 / (n : ℝ) ^ 3 := by
        refine div_le_div_of_nonneg_left h2 hn3 (pow_le_pow_left₀ (Nat.cast_nonneg _) ?_ 3)
        exact_mod_cast Nat.le_mul_of_pos_left n hk0
      refine (this.trans hle).trans ?_
      rw [add_div]
      exact le_add_of_nonneg_left (by positivity)

end

/-- The hypotheses of the accuracy can be met: the exact solution exists for every configuration in the group. -/
example (hN : 0 < N) (T : Torus S) [Fintype S] (U : GField S N) (hU : ∀ s μ, U s μ ∈ specialUnitaryGroup (Fin N) ℂ) (k : ℕ) (step : ℝ) (hs : 0 < step) :
    measuredFlow T "Symanzik" = .ok (improvedStaple (N := N) 1 T) ∧
    ∃ V : ℝ → GField S N, V 0 = U ∧ FlowEquation (2 * N) (improvedStaple 1 T) (k * step) V := by
  obtain ⟨eig, he⟩ := exists_correct_eigenSolver (N := N)
  exact ⟨rfl, (C28_third_order hN eig he (2 * N) T (Or.inr ⟨1, rfl, rfl⟩) U hU (k * step) (by positivity)).1⟩

/-! ### The sign of the energy correlator -/

theorem frob_nonneg (A : Mat N) : 0 ≤ ∑ i, ∑ j, ‖A i j‖ ^ 2 := by positivity

theorem frob_pos {A : Mat N} {i j : Fin N} (h : A i j ≠ 0) : 0 < ∑ i, ∑ j, ‖A i j‖ ^ 2 := by
  have h1 : ‖A i j‖ ^ 2 ≤ ∑ j, ‖A i j‖ ^ 2 := Finset.single_le_sum (f := fun j => ‖A i j‖ ^ 2) (fun _ _ => by positivity) (Finset.mem_univ j)
  have h2 : ∑ j, ‖A i j‖ ^ 2 ≤ ∑ i, ∑ j, ‖A i j‖ ^ 2 :=
    Finset.single_le_sum (f := fun i => ∑ j, ‖A i j‖ ^ 2) (fun _ _ => by positivity) (Finset.mem_univ i)
  have h3 : 0 < ‖A i j‖ ^ 2 := by positivity
  exact h3.trans_le (h1.trans h2)

/-- The link `exp(iθσ₃)` with `cos θ = 3/5`. -/
noncomputable def twistA : Mat 2 := !![⟨3 / 5, 4 / 5⟩, 0; 0, ⟨3 / 5, -4 / 5⟩]
/-- The link `exp(iθσ₂)` with `cos θ = 3/5`. -/
noncomputable def twistB : Mat 2 := !![⟨3 / 5, 0⟩, ⟨4 / 5, 0⟩; ⟨-4 / 5, 0⟩, ⟨3 / 5, 0⟩]

/-- The constant configuration with two links which do not commute. -/
noncomputable def twistedLinks (S : Type) : GField S 2 := fun _ μ => if μ = 0 then twistA else if μ = 1 then twistB else 1

theorem twistA_ct : twistAᴴ = !![⟨3 / 5, -4 / 5⟩, 0; 0, ⟨3 / 5, 4 / 5⟩] := by
  ext i j
  fin_cases i <;> fin_cases j <;> simp [twistA, Complex.ext_iff, neg_div]

theorem twistB_ct : twistBᴴ = !![⟨3 / 5, 0⟩, ⟨-4 / 5, 0⟩; ⟨4 / 5, 0⟩, ⟨3 / 5, 0⟩] := by
  ext i j
  fin_cases i <;> fin_cases j <;> simp [twistB, Complex.ext_iff]

theorem twistedLinks_mem (s : S) (μ : Fin 4) : twistedLinks S s μ ∈ specialUnitaryGroup (Fin 2) ℂ := by
  unfold twistedLinks
  split
  · rw [mem_specialUnitaryGroup_iff, mem_unitaryGroup_iff, star_eq_conjTranspose, twistA_ct]
    constructor
    · ext i j
      fin_cases i <;> fin_cases j <;> simp [twistA, Complex.ext_iff] <;> norm_num
    · rw [det_fin_two]
      simp [twistA, Complex.ext_iff]
      norm_num
  · split
    · rw [mem_specialUnitaryGroup_iff, mem_unitaryGroup_iff, star_eq_conjTranspose, twistB_ct]
      constructor
      · ext i j
        fin_cases i <;> fin_cases j <;> simp [twistB, Complex.ext_iff] <;> norm_num
      · rw [det_fin_two]
        simp [twistB, Complex.ext_iff]
        norm_num
    · exact one_mem _

theorem twistedLinks_field (T : Torus S) (x : S) : cloverF T (twistedLinks S) 0 1 x 0 1 = 288 / 625 * Complex.I := by
  have e0 : ∀ y, twistedLinks S y 0 = twistA := fun _ => rfl
  have e1 : ∀ y, twistedLinks S y 1 = twistB := fun _ => rfl
  simp only [cloverF, cloverQ, holo_up, holo_down, holo_nil, Matrix.mul_one, e0, e1, conjTranspose_add, conjTranspose_mul,
    conjTranspose_conjTranspose, twistA_ct, twistB_ct]
  simp only [twistA, twistB, Matrix.smul_apply, Matrix.sub_apply, Matrix.add_apply, Matrix.mul_apply, Fin.sum_univ_two, of_apply,
    cons_val_zero, cons_val_one, smul_eq_mul]
  apply Complex.ext <;> simp <;> norm_num

/-- **C59**, counterexample: the correlator of the energy which is written is not the energy of the time slices: for this configuration of special
unitary links on any lattice the energy density is positive and every entry of the correlator is negative. -/
theorem C59_energy_correlator_counterexample [Fintype S] [Nonempty S] (T : Torus S) :
    (∀ s μ, twistedLinks S s μ ∈ specialUnitaryGroup (Fin 2) ℂ) ∧ 0 < (measureEnergy T (twistedLinks S)).gaugeEnergy ∧
    ∀ t, (∃ x, T.coord x 3 = t) → (measureEnergy T (twistedLinks S)).energyCorrelator t < 0 := by
  have hneg : ∀ x, (siteMeasure T (twistedLinks S) x).1 < 0 := by
    intro x
    rw [siteEnergy_eq, neg_lt_zero]
    refine lt_of_lt_of_eq ?_ (sum_lt_planes fun μ ν => ∑ i, ∑ j, ‖cloverF T (twistedLinks S) μ ν x i j‖ ^ 2).symm
    change 0 < _ + _ + _ + _ + _ + _
    have p : 0 < ∑ i, ∑ j, ‖cloverF T (twistedLinks S) 0 1 x i j‖ ^ 2 := by
      refine frob_pos (i := 0) (j := 1) ?_
      rw [twistedLinks_field]
      simp
    have n : ∀ μ ν, 0 ≤ ∑ i, ∑ j, ‖cloverF T (twistedLinks S) μ ν x i j‖ ^ 2 := fun μ ν => frob_nonneg _
    have n1 := n 0 2; have n2 := n 0 3; have n3 := n 1 2; have n4 := n 1 3; have n5 := n 2 3
    linarith
  refine ⟨fun s μ => twistedLinks_mem s μ, ?_, ?_⟩
  · change 0 < -(∑ x, (siteMeasure T (twistedLinks S) x).1) / _
    refine div_pos (neg_pos.2 (Finset.sum_neg (fun x _ => hneg x) Finset.univ_nonempty)) ?_
    exact_mod_cast Fintype.card_pos
  · rintro t ⟨x, hx⟩
    change (∑ x, if T.coord x 3 = t then (siteMeasure T (twistedLinks S) x).1 else 0) < 0
    refine Finset.sum_neg' (fun y _ => ?_) ⟨x, Finset.mem_univ _, ?_⟩
    · split
      · exact (hneg y).le
      · exact le_rfl
    · rw [if_pos hx]
      exact hneg x

end Leonard
