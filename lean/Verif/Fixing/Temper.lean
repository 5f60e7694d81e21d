import Verif.Fixing.Model
import Verif.Hmc.Stationary
import Mathlib.MeasureTheory.Measure.Haar.Unique

/-!
# Lemmas for the distribution of the parallel tempering

The invariant measure of the gauge group is invariant under gauge transformations of the links; the probabilities of
`GaugeFixing::metropolis`.
-/

set_option autoImplicit false

namespace Leonard

open Matrix MeasureTheory ProbabilityTheory
open scoped ENNReal

variable {S : Type} {N : ℕ}

/-! ### The invariant measure -/

instance : IsTopologicalGroup (SU N) where

theorem su_isCompact : IsCompact ((specialUnitaryGroup (Fin N) ℂ : Submonoid (Mat N)) : Set (Mat N)) := by
  have hK : IsCompact (Set.univ.pi fun _ : Fin N => Set.univ.pi fun _ : Fin N => Metric.closedBall (0 : ℂ) 1) :=
    isCompact_univ_pi fun _ => isCompact_univ_pi fun _ => isCompact_closedBall 0 1
  refine hK.of_isClosed_subset ?_ ?_
  · have e : ((specialUnitaryGroup (Fin N) ℂ : Submonoid (Mat N)) : Set (Mat N)) = {A : Mat N | A * star A = 1} ∩ {A : Mat N | A.det = 1} := by
      ext A
      exact mem_specialUnitaryGroup_iff.trans (and_congr mem_unitaryGroup_iff Iff.rfl)
    rw [e]
    refine IsClosed.inter (isClosed_eq ?_ continuous_const) (isClosed_eq ?_ continuous_const)
    · exact continuous_id.matrix_mul continuous_id.matrix_conjTranspose
    · exact continuous_id.matrix_det
  · intro A hA i _ j _
    rw [Metric.mem_closedBall, dist_zero_right]
    exact entry_norm_bound_of_unitary (mem_specialUnitaryGroup_iff.mp hA).1 i j

instance : CompactSpace (SU N) := isCompact_iff_compactSpace.mp su_isCompact

theorem su_right_invariant (haar : Measure (SU N)) [haar.IsHaarMeasure] (g : SU N) : Measure.map (· * g) haar = haar := by
  have h := Measure.isMulInvariant_eq_smul_of_compactSpace (Measure.map (· * g) haar) haar
  have hu := congrArg (fun m : Measure (SU N) => m Set.univ) h
  simp only [Measure.map_apply (measurable_mul_const g) MeasurableSet.univ, Set.preimage_univ, Measure.smul_apply] at hu
  have h0 : haar Set.univ ≠ 0 := (isOpen_univ.measure_pos haar Set.univ_nonempty).ne'
  have h1 : haar Set.univ ≠ ∞ := measure_ne_top _ _
  have hc : (Measure.haarScalarFactor (Measure.map (· * g) haar) haar : ℝ≥0∞) = 1 := by
    have : (1 : ℝ≥0∞) * haar Set.univ = (Measure.haarScalarFactor (Measure.map (· * g) haar) haar : ℝ≥0∞) * haar Set.univ := by
      rw [one_mul]; exact hu
    exact ((ENNReal.mul_left_inj h0 h1).mp this).symm
  rw [h]
  rw [ENNReal.coe_eq_one.mp hc, one_smul]

/-! ### Random gauge transformations -/

/-- The random numbers of the sites. -/
abbrev SiteDraws (S : Type) (N : ℕ) := S → DrawIndex N → ℝ

/-- Independent normal random numbers with variance 1 for the sites. -/
noncomputable def gaussianSites (S : Type) [Fintype S] (N : ℕ) : Measure (SiteDraws S N) :=
  Measure.pi fun _ => Measure.pi fun _ => gaussianReal 0 1

instance [Fintype S] : IsProbabilityMeasure (gaussianSites S N) := by unfold gaussianSites; infer_instance

/-- The numbers of a site, at the positions where they are used. -/
noncomputable def gaugeDrawOf (x : DrawIndex N → ℝ) : GaugeDraw N := ⟨fun k l => drawAt x k l, fun k l => drawAt x l k, fun i => drawAt x i i⟩

/-- The factors of the numbers. -/
noncomputable def scaleDraw (threads : Bool) (ε : ℝ) (x : DrawIndex N → ℝ) : DrawIndex N → ℝ :=
  fun p => if threads = true ∧ p.1.1 = p.1.2 then x p else ε * x p

theorem gaugeAlgebra_draw (threads : Bool) (ε : ℝ) (x : DrawIndex N → ℝ) :
    gaugeAlgebra threads ε (gaugeDrawOf x) = momentumOf (scaleDraw threads ε x) := by
  have hne : ∀ k l : Fin N, k ≠ l → drawAt (scaleDraw threads ε x) k l = ε * drawAt x k l := by
    intro k l h
    unfold drawAt scaleDraw
    simp [h]
  have hd : ∀ i : Fin N, drawAt (scaleDraw threads ε x) i i = if threads then drawAt x i i else ε * drawAt x i i := by
    intro i
    unfold drawAt scaleDraw
    by_cases h : (i : ℕ) = 0 <;> cases threads <;> simp [h]
  unfold gaugeAlgebra momentumOf gaugeDrawOf
  ext k l
  rcases lt_trichotomy k l with h | h | h
  · simp [randomMomentum, h, hne k l h.ne, hne l k h.ne']
  · subst h
    rw [randomMomentum_diag, randomMomentum_diag]
    simp only [hd]
  · simp [randomMomentum, h, not_lt.mpr h.le, hne k l h.ne', hne l k h.ne]

/-- The random gauge transformation. -/
noncomputable def drawGauge (threads : Bool) (ε : ℝ) (x : SiteDraws S N) : S → SU N := fun s => expSU 1 (scaleDraw threads ε (x s))

theorem drawGauge_mat (threads : Bool) (ε : ℝ) (x : SiteDraws S N) (s : S) :
    randomGauge (fun X => some (NormedSpace.exp X)) threads ε (fun s => gaugeDrawOf (x s)) s = some (drawGauge threads ε x s).1 := by
  unfold randomGauge drawGauge expSU
  simp only [gaugeAlgebra_draw, one_smul]

theorem scaleDraw_neg (threads : Bool) (ε : ℝ) (x : DrawIndex N → ℝ) : scaleDraw threads ε (-x) = -scaleDraw threads ε x := by
  funext p
  unfold scaleDraw
  simp only [Pi.neg_apply]
  split_ifs <;> ring

theorem drawGauge_neg (threads : Bool) (ε : ℝ) (x : SiteDraws S N) (s : S) : drawGauge threads ε (-x) s = (drawGauge threads ε x s)⁻¹ := by
  refine eq_inv_of_mul_eq_one_left ?_
  unfold drawGauge
  rw [Pi.neg_apply, scaleDraw_neg]
  exact expSU_neg_mul 1 _

theorem measurable_drawGauge (threads : Bool) (ε : ℝ) (s : S) : Measurable fun x : SiteDraws S N => drawGauge threads ε x s := by
  unfold drawGauge
  refine (continuous_expSU 1).measurable.comp (measurable_pi_lambda _ fun p => ?_)
  unfold scaleDraw
  by_cases h : threads = true ∧ p.1.1 = p.1.2
  · simp only [if_pos h]; exact (measurable_pi_apply p).comp (measurable_pi_apply s)
  · simp only [if_neg h]
    have h1 : Measurable fun x : SiteDraws S N => x s p := (measurable_pi_apply p).comp (measurable_pi_apply s)
    exact h1.const_mul ε

/-- The links after a gauge transformation. -/
def gaugeLinks (T : Torus S) (ω : S → SU N) (Q : LinkSU S N) : LinkSU S N := fun s μ => ω s * Q s μ * (ω (T.sup μ s))⁻¹

theorem fixTransform_links (T : Torus S) (threads : Bool) (ε : ℝ) (x : SiteDraws S N) (Q : LinkSU S N) :
    fixTransform T (randomGauge (fun X => some (NormedSpace.exp X)) threads ε fun s => gaugeDrawOf (x s)) (linkMat Q) =
      some (linkMat (gaugeLinks T (drawGauge threads ε x) Q)) := by
  unfold fixTransform
  simp only [drawGauge_mat, Option.isSome_some, implies_true, if_true, Option.getD_some]
  rfl

variable [Fintype S]

theorem gaugeLinks_preserving (T : Torus S) (haar : Measure (SU N)) [haar.IsHaarMeasure] (ω : S → SU N) :
    Measure.map (gaugeLinks T ω) (linkMeasure S haar) = linkMeasure S haar := by
  have h1 : ∀ a b : SU N, MeasurePreserving (fun g : SU N => a * g * b⁻¹) haar haar := fun a b =>
    (⟨measurable_mul_const _, su_right_invariant haar b⁻¹⟩ : MeasurePreserving (· * b⁻¹) haar haar).comp (measurePreserving_mul_left haar a)
  have h2 : ∀ s, MeasurePreserving (fun q : Fin 4 → SU N => fun μ => ω s * q μ * (ω (T.sup μ s))⁻¹) (Measure.pi fun _ => haar)
      (Measure.pi fun _ => haar) := fun s => measurePreserving_pi _ _ fun μ => h1 (ω s) (ω (T.sup μ s))
  exact (measurePreserving_pi (fun _ : S => Measure.pi fun _ : Fin 4 => haar) (fun _ => Measure.pi fun _ => haar) h2).map_eq

theorem measurable_gaugeLinks (T : Torus S) (threads : Bool) (ε : ℝ) :
    Measurable (Function.uncurry fun (x : SiteDraws S N) (Q : LinkSU S N) => gaugeLinks T (drawGauge threads ε x) Q) := by
  refine measurable_pi_lambda _ fun s => measurable_pi_lambda _ fun μ => ?_
  have h1 : ∀ s, Measurable fun z : SiteDraws S N × LinkSU S N => drawGauge threads ε z.1 s := fun s =>
    (measurable_drawGauge threads ε s).comp measurable_fst
  have h2 : Measurable fun z : SiteDraws S N × LinkSU S N => z.2 s μ :=
    (measurable_pi_apply μ).comp ((measurable_pi_apply s).comp measurable_snd)
  have h3 : Measurable fun z : SiteDraws S N × LinkSU S N =>
      drawGauge threads ε z.1 s * z.2 s μ * (drawGauge threads ε z.1 (T.sup μ s))⁻¹ := ((h1 s).mul h2).mul (h1 _).inv
  exact h3

theorem gaussianSites_neg : MeasurePreserving (fun x : SiteDraws S N => -x) (gaussianSites S N) (gaussianSites S N) := by
  have h0 : MeasurePreserving (fun x : ℝ => -x) (gaussianReal 0 1) (gaussianReal 0 1) :=
    ⟨measurable_neg, by rw [gaussianReal_map_neg, neg_zero]⟩
  have h1 : MeasurePreserving (fun (x : DrawIndex N → ℝ) p => -x p) (Measure.pi fun _ => gaussianReal 0 1) (Measure.pi fun _ => gaussianReal 0 1) :=
    measurePreserving_pi _ _ fun _ => h0
  exact measurePreserving_pi (fun _ : S => Measure.pi fun _ : DrawIndex N => gaussianReal 0 1)
    (fun _ : S => Measure.pi fun _ : DrawIndex N => gaussianReal 0 1) fun _ => h1

theorem gauge_involution (T : Torus S) (haar : Measure (SU N)) [haar.IsHaarMeasure] (threads : Bool) (ε : ℝ) :
    MeasurePreserving (fun z : LinkSU S N × SiteDraws S N => (gaugeLinks T (drawGauge threads ε z.2) z.1, -z.2))
      ((linkMeasure S haar).prod (gaussianSites S N)) ((linkMeasure S haar).prod (gaussianSites S N)) := by
  have hsk := (gaussianSites_neg (S := S) (N := N)).skew_product (measurable_gaugeLinks T threads ε)
    (Filter.Eventually.of_forall fun x => gaugeLinks_preserving T haar (drawGauge threads ε x))
  have h1 : MeasurePreserving Prod.swap ((linkMeasure S haar).prod (gaussianSites S N)) ((gaussianSites S N).prod (linkMeasure S haar)) :=
    Measure.measurePreserving_swap
  have h2 : MeasurePreserving Prod.swap ((gaussianSites S N).prod (linkMeasure S haar)) ((linkMeasure S haar).prod (gaussianSites S N)) :=
    Measure.measurePreserving_swap
  have h3 := h2.comp (hsk.comp h1)
  exact h3

/-! ### `GaugeFixing::metropolis` -/

/-- The probability of acceptance. -/
noncomputable def fixProb (d : ℝ) : ℝ := if d < -50 then 0 else min 1 (Real.exp d)

theorem fixMetropolis_integral (d : ℝ) (x y : ℝ≥0∞) : ∫⁻ u in Set.Ico (0 : ℝ) 1, (if fixMetropolis (some d) u = true then x else y) =
    ENNReal.ofReal (fixProb d) * x + (1 - ENNReal.ofReal (fixProb d)) * y := by
  by_cases h : d < -50
  · simp [fixMetropolis, fixProb, h]
  · have e : ∀ u ∈ Set.Ico (0 : ℝ) 1, (if fixMetropolis (some d) u = true then x else y) =
        if metropolisLocal (some d) (some 0) u = true then x else y := by
      intro u hu
      have : fixMetropolis (some d) u = metropolisLocal (some d) (some 0) u := by
        simp only [fixMetropolis, metropolisLocal, if_neg h, zero_sub, neg_neg]
        rcases lt_trichotomy d 0 with h0 | h0 | h0
        · rw [if_neg (not_le.mpr h0), if_neg (show ¬ -d < 0 by linarith)]
        · subst h0; rw [if_pos le_rfl, if_neg (by simp), if_pos (by rw [Real.exp_zero]; exact hu.2)]
        · rw [if_pos h0.le, if_pos (by linarith)]
      rw [this]
    rw [setLIntegral_congr_fun measurableSet_Ico e, lintegral_accept]
    simp only [fixProb, if_neg h, zero_sub, neg_neg]

end Leonard
