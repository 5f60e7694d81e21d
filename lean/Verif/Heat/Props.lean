import Verif.Heat.Sweep
import Verif.Gauge.CheckerboardProps
import Verif.Gauge.UpdatesProps
import Verif.Hmc.StationaryProps

/-!
# C64: the heat bath samples the Boltzmann distribution

Exact arithmetic, independent uniform numbers. `HeatStream` is the infinite sequence of numbers of one step, `heatMeasure` their distribution and
`streamDraw n` the first `n` attempts of the loop of `generate_radius`: the loop of the program ends when the model with `n` attempts gives a result
for all large `n`.
-/

set_option autoImplicit false

namespace Leonard

open MeasureTheory Set Real Matrix ComplexConjugate
open scoped ENNReal

variable {N : ℕ} {S : Type} [DecidableEq S]

/-- **C64, the radius.** For every `b > 0` the loop of `generate_radius` ends with probability one, and the number it returns has the density
`sqrt(1 - s²) exp(s/b)` on the interval from -1 to 1. -/
theorem C64_radius (b : ℝ) (hb : 0 < b) :
    ∃ radius : (ℕ → ℝ × ℝ × ℝ × ℝ) → ℝ,
      (∀ᵐ ω ∂(Measure.infinitePi fun _ : ℕ => unif4), ∃ n0, ∀ n ≥ n0,
        generateRadius b ((List.range n).map fun k => ⟨(ω k).1, (ω k).2.1, (ω k).2.2.1, (ω k).2.2.2⟩) = some (radius ω))
      ∧ ∀ f : ℝ → ℝ≥0∞, Measurable f → ∫⁻ ω, f (radius ω) ∂(Measure.infinitePi fun _ : ℕ => unif4)
        = (∫⁻ s in Ioo (-1 : ℝ) 1, ENNReal.ofReal (√(1 - s ^ 2) * exp (s / b)))⁻¹ *
          ∫⁻ s in Ioo (-1 : ℝ) 1, ENNReal.ofReal (√(1 - s ^ 2) * exp (s / b)) * f s := by
  obtain ⟨h1, h2⟩ := radius_law b hb
  refine ⟨radiusResult b, ?_, h2⟩
  filter_upwards [h1] with ω ⟨k, hk⟩
  refine ⟨k + 1, fun n hn => ?_⟩
  have h := generateRadius_stream b n ω
  rw [if_pos ⟨k, by omega, hk⟩] at h
  exact h

/-- **C64, the random SU(2) matrix.** With probability one it is found, it lies in SU(2), and its density with respect to the Haar measure is
`exp(Re tr(g)/(2b))`, normalised. -/
theorem C64_random_su2 (b : ℝ) (hb : 0 < b) :
    ∃ sample : HeatStream → SU 2, (∀ᵐ ω ∂heatMeasure, ∃ n0, ∀ n ≥ n0, randomSu2 b (streamDraw n ω) = some (sample ω).1)
      ∧ ∀ f : SU 2 → ℝ≥0∞, Measurable f → ∫⁻ ω, f (sample ω) ∂heatMeasure
        = (∫⁻ g : SU 2, ENNReal.ofReal (exp ((trace g.1).re / (2 * b))) ∂Measure.haar)⁻¹
          * ∫⁻ g : SU 2, ENNReal.ofReal (exp ((trace g.1).re / (2 * b))) * f g ∂Measure.haar :=
  ⟨sampleSu2 b, randomSu2_stream b hb, (su2_law Measure.haar (NeZero.ne _) b hb).2.2⟩

theorem heatBath2_eq_subUpdate (β : ℝ) (W : Mat 2) (hW : IsQuat W) (d : HeatBathDraw) : heatBath2 β W d = subUpdate β W 0 1 d := by
  have h := heatBathN_two β 1 W (one_mem _) hW fun _ => d
  rw [← h]
  have hpairs : subgroupPairs 2 = [(0, 1)] := by decide
  unfold heatBathN
  rw [hpairs, List.foldlM_cons, Matrix.one_mul]
  unfold heatBathStep
  simp only
  cases subUpdate β W 0 1 d with
  | none => rfl
  | some s =>
    change some (rowUpdate s 0 1 1) = some s
    rw [rowUpdate_two, Matrix.mul_one]

/-- **C64, one link, two colours.** For every staple of the form of a sum of SU(2) matrices which is not zero, the new link is distributed with the
density `exp(β/2 Re tr(V staple))` with respect to the Haar measure, normalised: the conditional distribution of the link given all the others. -/
theorem C64_link_two_colours (β : ℝ) (hβ : 0 < β) (staple : Mat 2) (hq : IsQuat staple) (h0 : staple ≠ 0) :
    ∃ new : HeatStream → SU 2, (∀ᵐ ω ∂heatMeasure, ∃ n0, ∀ n ≥ n0, heatBath2 β staple (streamDraw n ω) = some (new ω).1)
      ∧ ∀ f : SU 2 → ℝ≥0∞, Measurable f → ∫⁻ ω, f (new ω) ∂heatMeasure
        = (∫⁻ V : SU 2, ENNReal.ofReal (exp (β / 2 * (trace (V.1 * staple)).re)) ∂Measure.haar)⁻¹
          * ∫⁻ V : SU 2, ENNReal.ofReal (exp (β / 2 * (trace (V.1 * staple)).re)) * f V ∂Measure.haar := by
  have hd : subDet staple 0 1 ≠ 0 := by
    rw [← quatNorm_subStaple, subStaple_quat hq]
    intro h
    obtain ⟨q1, q2⟩ := hq
    have n1 := Complex.normSq_nonneg (staple 0 0)
    have n2 := Complex.normSq_nonneg (staple 0 1)
    have e1 : staple 0 0 = 0 := Complex.normSq_eq_zero.1 (by unfold quatNorm at h; linarith)
    have e2 : staple 0 1 = 0 := Complex.normSq_eq_zero.1 (by unfold quatNorm at h; linarith)
    refine h0 (Matrix.ext fun i j => ?_)
    fin_cases i <;> fin_cases j <;> simp [e1, e2, q1, q2]
  refine ⟨subElement β staple 0 1, ?_, ?_⟩
  · filter_upwards [subUpdate_stream β hβ two_pos staple 0 1 hd] with ω ⟨n0, h⟩
    exact ⟨n0, fun n hn => by rw [heatBath2_eq_subUpdate β staple hq, h n hn]⟩
  · have h := (subElement_law Measure.haar (NeZero.ne _) β hβ two_pos staple 0 1 hd).2.2
    unfold elementWeight at h
    simp only [subStaple_quat hq, Nat.cast_ofNat] at h
    exact h

/-- **C64, one subgroup.** For every number of colours, plaquette sum `P = U staple` and pair of rows, the matrix that multiplies the rows `k` and `l` of
the link is distributed with the density `exp(β/N Re tr P')` with respect to the Haar measure of SU(2), `P'` being `P` with its rows multiplied by the
matrix: the conditional distribution of the link on the subgroup. -/
theorem C64_subgroup (β : ℝ) (hβ : 0 < β) (hN : 0 < N) (P : Mat N) (k l : Fin N) (hkl : k < l) (hd : subDet P k l ≠ 0) :
    ∃ new : HeatStream → SU 2,
      (∀ᵐ ω ∂heatMeasure, ∃ n0, ∀ n ≥ n0, subUpdate β P k l (streamDraw n ω) = some (new ω).1)
      ∧ ∀ f : SU 2 → ℝ≥0∞, Measurable f → ∫⁻ ω, f (new ω) ∂heatMeasure
        = (∫⁻ a : SU 2, ENNReal.ofReal (exp (β / N * (trace (rowUpdate a.1 k l P)).re)) ∂Measure.haar)⁻¹
          * ∫⁻ a : SU 2, ENNReal.ofReal (exp (β / N * (trace (rowUpdate a.1 k l P)).re)) * f a ∂Measure.haar := by
  obtain ⟨h1, h2, h3⟩ := subElement_law (Measure.haar : Measure (SU 2)) (NeZero.ne _) β hβ hN P k l hd
  refine ⟨subElement β P k l, subUpdate_stream β hβ hN P k l hd, fun f hf => ?_⟩
  let c : ℝ := β / N * ((trace P).re - (trace (subStaple P k l)).re)
  have hc0 : ENNReal.ofReal (exp c) ≠ 0 := by rw [Ne, ENNReal.ofReal_eq_zero, not_le]; exact exp_pos _
  have e : ∀ a : SU 2, ENNReal.ofReal (exp (β / N * (trace (rowUpdate a.1 k l P)).re)) = ENNReal.ofReal (exp c) * elementWeight β P k l a := fun a => by
    have ht := trace_rowUpdate (IsQuat.of_su2 a.2).1 k l hkl.ne P
    rw [elementWeight, ← ENNReal.ofReal_mul (exp_pos _).le, ← exp_add]
    congr 2
    simp only [c]
    rw [← mul_add]
    congr 1
    linarith
  have hm := measurable_elementWeight β P k l
  have hmf : Measurable fun a : SU 2 => elementWeight β P k l a * f a := hm.mul hf
  simp only [e, mul_assoc]
  rw [lintegral_const_mul _ hm, lintegral_const_mul _ hmf, h3 f hf,
    ENNReal.mul_inv (Or.inl hc0) (Or.inl ENNReal.ofReal_ne_top), mul_assoc, mul_left_comm _ (ENNReal.ofReal (exp c)), ← mul_assoc _ (ENNReal.ofReal (exp c)), ENNReal.inv_mul_cancel hc0 ENNReal.ofReal_ne_top, one_mul]

/-! ### The sweep -/

/-- The distribution `exp(-E(U)) dU` is kept by a random change of the configuration. -/
def KeepsBoltzmann {D : Type} [MeasurableSpace D] [Fintype S] (E : GField S N → ℝ) (P : Measure D) (sweep : D → LinkSU S N → LinkSU S N) : Prop :=
  ∀ f : LinkSU S N → ℝ≥0∞, Measurable f →
    ∫⁻ Q, (∫⁻ d, f (sweep d Q) ∂P) * ENNReal.ofReal (exp (-E (linkMat Q))) ∂linkMeasure S Measure.haar
      = ∫⁻ Q, f Q * ENNReal.ofReal (exp (-E (linkMat Q))) ∂linkMeasure S Measure.haar

variable [Fintype S]

/-- **C64, the Wilson action.** For every number of colours, coupling `β > 0`, lattice with all extents at least two and order of the links: from almost
every configuration and with probability one the sweep is defined (no division by zero, all loops end), the new configuration is in SU(N), and the
distribution `exp(-S(U)) dU` is kept. -/
theorem C64_wilson (hN : 2 ≤ N) (T : Torus S) (hT : ∀ μ, 2 ≤ T.ext μ) (β : ℝ) (hβ : 0 < β) (links : List (Link S)) (hl : links.Nodup) :
    ∃ sweep : (Link S × Fin N × Fin N → HeatStream) → LinkSU S N → LinkSU S N,
      (∀ᵐ Q ∂linkMeasure S Measure.haar, ∀ᵐ d ∂(Measure.pi fun _ => heatMeasure), ∃ n0, ∀ n ≥ n0,
        heatSweep β (wilsonStaple T) links (fun i => streamDraw n (d i)) (linkMat Q) = some (linkMat (sweep d Q)))
      ∧ KeepsBoltzmann (wilsonEnergy β T) (Measure.pi fun _ => heatMeasure) sweep := by
  obtain ⟨sweep, -, h1, h2⟩ := heatSweep_law Measure.haar β hβ hN (wilsonEnergy β T) (wilsonStaple T) (fun U s μ V => C20_wilson T hT β U s μ V)
    (measurable_of_continuous_link _ (continuous_wilsonEnergy β T)) (continuous_wilsonStaple T) (wilson_moves T hT) links hl
  exact ⟨sweep, h1, h2⟩

/-- **C64, the improved action.** All extents at least three and `10 u0² > 1`. -/
theorem C64_improved (hN : 2 ≤ N) (T : Torus S) (hT : ∀ μ, 3 ≤ T.ext μ) (u0 : ℝ) (hu : 1 < 10 * u0 ^ 2) (β : ℝ) (hβ : 0 < β)
    (links : List (Link S)) (hl : links.Nodup) :
    ∃ sweep : (Link S × Fin N × Fin N → HeatStream) → LinkSU S N → LinkSU S N,
      (∀ᵐ Q ∂linkMeasure S Measure.haar, ∀ᵐ d ∂(Measure.pi fun _ => heatMeasure), ∃ n0, ∀ n ≥ n0,
        heatSweep β (improvedStaple u0 T) links (fun i => streamDraw n (d i)) (linkMat Q) = some (linkMat (sweep d Q)))
      ∧ KeepsBoltzmann (improvedEnergy u0 β T) (Measure.pi fun _ => heatMeasure) sweep := by
  obtain ⟨sweep, -, h1, h2⟩ := heatSweep_law Measure.haar β hβ hN (improvedEnergy u0 β T) (improvedStaple u0 T) (fun U s μ V => C20_improved T hT u0 β U s μ V)
    (measurable_of_continuous_link _ (continuous_improvedEnergy u0 β T)) (continuous_improvedStaple u0 T) (improved_moves T hT u0 hu) links hl
  exact ⟨sweep, h1, h2⟩

/-- **C64, two colours.** The same for the separate code for two colours, both actions. -/
theorem C64_two_colours (T : Torus S) (β : ℝ) (hβ : 0 < β) (links : List (Link S)) (hl : links.Nodup) (E : GField S 2 → ℝ)
    (stap : GField S 2 → S → Fin 4 → Mat 2)
    (hact : (E = wilsonEnergy β T ∧ stap = wilsonStaple T ∧ ∀ μ, 2 ≤ T.ext μ)
      ∨ ∃ u0 : ℝ, 1 < 10 * u0 ^ 2 ∧ E = improvedEnergy u0 β T ∧ stap = improvedStaple u0 T ∧ ∀ μ, 3 ≤ T.ext μ) :
    ∃ sweep : (Link S → HeatStream) → LinkSU S 2 → LinkSU S 2,
      (∀ᵐ Q ∂linkMeasure S Measure.haar, ∀ᵐ d ∂(Measure.pi fun _ => heatMeasure), ∃ n0, ∀ n ≥ n0,
        heatSweep2 β stap links (fun l => streamDraw n (d l)) (linkMat Q) = some (linkMat (sweep d Q)))
      ∧ KeepsBoltzmann E (Measure.pi fun _ => heatMeasure) sweep := by
  rcases hact with ⟨rfl, rfl, hT⟩ | ⟨u0, hu, rfl, rfl, hT⟩
  · obtain ⟨sweep, -, h1, h2⟩ := heatSweep2_law Measure.haar β hβ (wilsonEnergy β T) (wilsonStaple T) (fun U s μ V => C20_wilson T hT β U s μ V)
      (measurable_of_continuous_link _ (continuous_wilsonEnergy β T)) (continuous_wilsonStaple T) (wilson_moves T hT)
      (fun Q s μ => isQuat_wilsonStaple T _ (fun s μ => (IsQuat.of_su2 (Q s μ).2).1) s μ) links hl
    exact ⟨sweep, h1, h2⟩
  · obtain ⟨sweep, -, h1, h2⟩ := heatSweep2_law Measure.haar β hβ (improvedEnergy u0 β T) (improvedStaple u0 T) (fun U s μ V => C20_improved T hT u0 β U s μ V)
      (measurable_of_continuous_link _ (continuous_improvedEnergy u0 β T)) (continuous_improvedStaple u0 T) (improved_moves T hT u0 hu)
      (fun Q s μ => isQuat_improvedStaple u0 T _ (fun s μ => (IsQuat.of_su2 (Q s μ).2).1) s μ) links hl
    exact ⟨sweep, h1, h2⟩

/-- The order of the checkerboard visits no link twice, so the theorems hold for it. -/
theorem C64_order (T : Torus S) (order : List S) (hall : ∀ s, s ∈ order) (hn : order.Nodup) :
    (sweepLinks order (boardColors T order)).Nodup := by
  rw [List.nodup_iff_count_le_one]
  intro l
  rw [count_sweepLinks order _ hall hn l]
  split <;> omega

/-! ### The hypotheses can be met -/

example : ∃ sweep : (Link (BoxSite exExt) × Fin 3 × Fin 3 → HeatStream) → LinkSU _ 3 → LinkSU _ 3,
    KeepsBoltzmann (wilsonEnergy 6 (boxTorus exExt exExt_pos)) (Measure.pi fun _ => heatMeasure) sweep := by
  obtain ⟨sweep, -, h⟩ := C64_wilson (N := 3) (by norm_num) (boxTorus exExt exExt_pos) (by decide) 6 (by norm_num)
    (sweepLinks Finset.univ.toList (boardColors (boxTorus exExt exExt_pos) Finset.univ.toList)) (C64_order _ _ (by simp) (Finset.nodup_toList _))
  exact ⟨sweep, h⟩

example : ∃ sweep : (Link (BoxSite exExt3) × Fin 3 × Fin 3 → HeatStream) → LinkSU _ 3 → LinkSU _ 3,
    KeepsBoltzmann (improvedEnergy 1 6 (boxTorus exExt3 exExt3_pos)) (Measure.pi fun _ => heatMeasure) sweep := by
  obtain ⟨sweep, -, h⟩ := C64_improved (N := 3) (by norm_num) (boxTorus exExt3 exExt3_pos) (by decide) 1 (by norm_num) 6 (by norm_num)
    (sweepLinks Finset.univ.toList (boardColors (boxTorus exExt3 exExt3_pos) Finset.univ.toList)) (C64_order _ _ (by simp) (Finset.nodup_toList _))
  exact ⟨sweep, h⟩

example : ∃ sweep : (Link (BoxSite exExt) → HeatStream) → LinkSU _ 2 → LinkSU _ 2,
    KeepsBoltzmann (wilsonEnergy (5 / 2) (boxTorus exExt exExt_pos)) (Measure.pi fun _ => heatMeasure) sweep := by
  obtain ⟨sweep, -, h⟩ := C64_two_colours (boxTorus exExt exExt_pos) (5 / 2) (by norm_num)
    (sweepLinks Finset.univ.toList (boardColors (boxTorus exExt exExt_pos) Finset.univ.toList)) (C64_order _ _ (by simp) (Finset.nodup_toList _)) _ _
    (Or.inl ⟨rfl, rfl, by decide⟩)
  exact ⟨sweep, h⟩

/-- A staple that is a sum of SU(2) matrices and not zero. -/
example : IsQuat !![(6 : ℂ), 0; 0, 6] ∧ !![(6 : ℂ), 0; 0, 6] ≠ 0 := by
  refine ⟨⟨by simp, (Complex.conj_ofReal 6).symm⟩, fun h => ?_⟩
  have := congrFun (congrFun h 0) 0
  simp at this

example : subDet (1 : Mat 3) 0 2 ≠ 0 ∧ (0 : Fin 3) < 2 := by
  refine ⟨?_, by decide⟩
  simp [subDet]

end Leonard
