import Verif.Landau.Parseval
import Verif.Fixing.Props

/-!
# C71: the gluon propagator in the Landau gauge
-/

set_option autoImplicit false

namespace Leonard

open Matrix

noncomputable section

variable {S : Type} {N : ℕ} [Fintype S]

/-! ## The specification -/

/-- The gluon propagator: the Fourier transform of the correlation of the gluon field `A = (U - U†)/2i` (traceless part), summed over
directions and colours, divided by the number of polarisations that the Landau gauge leaves, 3, or 4 at zero momentum. -/
def gluonPropagator (T : Torus S) (U : GField S N) (n : Fin 4 → ℕ) : ℝ :=
  (if n = 0 then 1 / 4 else 1 / 3) * ∑ μ, ∑ x, ∑ y,
    Real.cos (∑ ν, 2 * Real.pi * n ν / T.ext ν * ((T.coord x ν : ℝ) - T.coord y ν)) * ((trace (lieField (U x μ) * lieField (U y μ))).re / 2)

/-- `2 sin(π n/L)`. -/
def physicalMomentum (L n : Fin 4 → ℕ) (μ : Fin 4) : ℝ := 2 * Real.sin (Real.pi * n μ / L μ)

omit [Fintype S] in
theorem latticeMomentum_wave (L n : Fin 4 → ℕ) (μ : Fin 4) : latticeMomentum (waveVector L n) μ = physicalMomentum L n μ := by
  unfold latticeMomentum waveVector physicalMomentum
  congr 2
  ring

omit [Fintype S] in
theorem modulus_wave (L n : Fin 4 → ℕ) : momentumModulus (waveVector L n) = Real.sqrt (∑ μ, physicalMomentum L n μ ^ 2) := by
  rw [← Real.sqrt_sq (momentumModulus_nonneg _), momentumModulus_sq]
  simp only [latticeMomentum_wave]

theorem wave_trace (T : Torus S) (U : GField S N) (n : Fin 4 → ℕ) (μ : Fin 4) :
    (trace (gluonWave T U (waveVector T.ext n) μ * (gluonWave T U (waveVector T.ext n) μ)ᴴ)).re
      = ∑ x, ∑ y, Real.cos (∑ ν, 2 * Real.pi * n ν / T.ext ν * ((T.coord x ν : ℝ) - T.coord y ν)) * (trace (lieField (U x μ) * lieField (U y μ))).re := by
  unfold gluonWave
  rw [conjTranspose_sum, Finset.sum_mul_sum, trace_sum, Complex.re_sum]
  refine Finset.sum_congr rfl fun x _ => ?_
  rw [trace_sum, Complex.re_sum]
  refine Finset.sum_congr rfl fun y _ => ?_
  rw [conjTranspose_smul, star_eix, lieField_herm, Matrix.smul_mul, Matrix.mul_smul, smul_smul, trace_smul, ← eix_add, smul_eq_mul]
  have e : gluonPhase T (waveVector T.ext n) μ x + -gluonPhase T (waveVector T.ext n) μ y
      = ∑ ν, 2 * Real.pi * n ν / T.ext ν * ((T.coord x ν : ℝ) - T.coord y ν) := by
    rw [gluonPhase_eq, gluonPhase_eq, ghostPhase_eq, ghostPhase_eq]
    calc _ = (∑ ν, (T.coord x ν : ℝ) * waveVector T.ext n ν) - ∑ ν, (T.coord y ν : ℝ) * waveVector T.ext n ν := by ring
      _ = _ := by
        rw [← Finset.sum_sub_distrib]
        exact Finset.sum_congr rfl fun ν _ => by unfold waveVector; ring
  have hi : (trace (lieField (U x μ) * lieField (U y μ))).im = 0 := by
    have h : star (trace (lieField (U x μ) * lieField (U y μ))) = trace (lieField (U x μ) * lieField (U y μ)) := by
      rw [← trace_conjTranspose, conjTranspose_mul, lieField_herm, lieField_herm, trace_mul_comm]
    have := congrArg Complex.im h
    rw [Complex.star_def, Complex.conj_im] at this
    linarith
  rw [e, Complex.mul_re, hi, mul_zero, sub_zero, ← eix_eq]

/-! ## C71 -/

/-- **C71**: the momenta that are measured are exactly those below the given bounds whose deviation from the diagonal is smaller than the
cut, each once; the first is the zero momentum. -/
theorem C71_momenta (L : Fin 4 → ℕ) (m : Fin 4 → ℝ) (cut : ℝ) :
    (∀ n, n ∈ momentumList L m cut ↔ (∀ μ, (n μ : ℝ) < m μ) ∧ ∑ μ, |2 * Real.pi * n μ / L μ - (∑ ν, 2 * Real.pi * n ν / L ν) / 4| < cut)
      ∧ (momentumList L m cut).Nodup ∧ ((∀ μ, 0 < m μ) → 0 < cut → (momentumList L m cut).head? = some 0) := by
  refine ⟨fun n => ?_, nodup_momentumList L m cut, fun hm hc => ?_⟩
  · have e : ∀ μ, waveVector L n μ = 2 * Real.pi * n μ / L μ := fun μ => by unfold waveVector; ring
    rw [mem_momentumList, momentumDeviation_eq]
    simp only [e]
  · obtain ⟨l, hl⟩ := momentumList_head L m cut hm hc
    rw [hl]; rfl

/-- **C71**: the value written is the gluon propagator at that momentum, and not negative. -/
theorem C71_propagator (T : Torus S) (U : GField S N) (n : Fin 4 → ℕ) (hn : ∀ μ, n μ < T.ext μ) (hL : ∀ μ, T.ext μ ≤ 10 ^ 16) :
    gluonTwoPoint T U (waveVector T.ext n) = gluonPropagator T U n ∧ 0 ≤ gluonPropagator T U n := by
  have e : gluonTwoPoint T U (waveVector T.ext n) = gluonPropagator T U n := by
    rw [gluonTwoPoint_eq]
    unfold gluonPropagator
    simp only [modulus_small_iff T.ext n hn hL, wave_trace]
    rw [div_eq_mul_inv, mul_comm]
    congr 1
    · split <;> norm_num
    · refine Finset.sum_congr rfl fun μ _ => ?_
      rw [Finset.sum_div]
      refine Finset.sum_congr rfl fun x _ => ?_
      rw [Finset.sum_div]
      exact Finset.sum_congr rfl fun y _ => by ring
  refine ⟨e, ?_⟩
  rw [← e]
  unfold gluonTwoPoint
  refine div_nonneg (Finset.sum_nonneg fun μ _ => Finset.sum_nonneg fun c _ => ?_) (by split <;> norm_num)
  rw [plus_mul_minus]
  exact Complex.normSq_nonneg _

/-- **C71**: neither the propagator nor the vertex depends on a constant gauge rotation. -/
theorem C71_colour (T : Torus S) (U : GField S N) (g : Mat N) (hg : g ∈ unitaryGroup (Fin N) ℂ) (k : Fin 4 → ℝ) :
    gluonTwoPoint T (gaugeTransform T (fun _ => g) U) k = gluonTwoPoint T U k
      ∧ gluonThreePoint T (gaugeTransform T (fun _ => g) U) (gluonPlus T (gaugeTransform T (fun _ => g) U) (waveVector T.ext 0)) k
        = gluonThreePoint T U (gluonPlus T U (waveVector T.ext 0)) k := by
  have h1 : gᴴ * g = 1 := mem_unitaryGroup_iff'.1 hg
  have hc : ∀ A B : Mat N, (g * A * gᴴ) * (g * B * gᴴ) = g * (A * B) * gᴴ := by
    intro A B
    calc (g * A * gᴴ) * (g * B * gᴴ) = g * A * (gᴴ * g) * B * gᴴ := by simp only [Matrix.mul_assoc]
      _ = _ := by rw [h1, Matrix.mul_one, Matrix.mul_assoc g A B]
  have ht : ∀ A : Mat N, trace (g * A * gᴴ) = trace A := by
    intro A
    rw [trace_mul_comm, ← Matrix.mul_assoc, h1, Matrix.one_mul]
  have hH : ∀ A : Mat N, (g * A * gᴴ)ᴴ = g * Aᴴ * gᴴ := by
    intro A
    rw [conjTranspose_mul, conjTranspose_mul, conjTranspose_conjTranspose, Matrix.mul_assoc]
  constructor
  · rw [gluonTwoPoint_eq, gluonTwoPoint_eq]
    simp only [gluonWave_global T U g hg, hH, hc, ht]
  · have hz : zeroWave T (gaugeTransform T (fun _ => g) U) k = g * zeroWave T U k * gᴴ := by
      unfold zeroWave
      simp only [gluonWave_global T U g hg]
      rw [Finset.mul_sum, Finset.sum_mul]
      exact Finset.sum_congr rfl fun ν _ => by rw [Matrix.mul_smul, Matrix.smul_mul]
    rw [gluonThreePoint_eq, gluonThreePoint_eq]
    simp only [gluonWave_global T U g hg, hz, hH, hc, ← Matrix.mul_sub, ← Matrix.sub_mul, ht]

/-- **C71**: neither the propagator nor the vertex depends on where the lattice begins. -/
theorem C71_translation (T : Torus S) (U : GField S N) (n : Fin 4 → ℕ) (ρ : Fin 4) :
    gluonTwoPoint T (fun s ν => U (T.sup ρ s) ν) (waveVector T.ext n) = gluonTwoPoint T U (waveVector T.ext n)
      ∧ gluonThreePoint T (fun s ν => U (T.sup ρ s) ν) (gluonPlus T (fun s ν => U (T.sup ρ s) ν) (waveVector T.ext 0)) (waveVector T.ext n)
        = gluonThreePoint T U (gluonPlus T U (waveVector T.ext 0)) (waveVector T.ext n) := by
  have hz : eix (-waveVector T.ext 0 ρ) = 1 := by
    have : -waveVector T.ext 0 ρ = 0 := by simp [waveVector]
    rw [this, eix_zero]
  have he := eix_mul_neg (-waveVector T.ext n ρ)
  constructor
  · rw [gluonTwoPoint_eq, gluonTwoPoint_eq]
    simp only [gluonWave_translate, conjTranspose_smul, star_eix, Matrix.smul_mul, Matrix.mul_smul, smul_smul, he, one_smul,
      mul_comm (eix (-waveVector T.ext n ρ))]
    simp only [mul_comm _ (eix (-waveVector T.ext n ρ)), he, one_smul]
  · have hw : zeroWave T (fun s ν => U (T.sup ρ s) ν) (waveVector T.ext n) = zeroWave T U (waveVector T.ext n) := by
      unfold zeroWave
      simp only [gluonWave_translate, hz, one_smul]
    have hQ : ∀ (A Z : Mat N) (c : ℂ), c * star c = 1 → trace (((c • A) * Z - Z * (c • A)) * (c • A)ᴴ) = trace ((A * Z - Z * A) * Aᴴ) := by
      intro A Z c hc
      rw [conjTranspose_smul, Matrix.smul_mul, Matrix.mul_smul Z, ← smul_sub, Matrix.smul_mul, Matrix.mul_smul, smul_smul, hc, one_smul]
    have hs : ∑ μ, trace ((gluonWave T (fun s ν => U (T.sup ρ s) ν) (waveVector T.ext n) μ * zeroWave T U (waveVector T.ext n)
        - zeroWave T U (waveVector T.ext n) * gluonWave T (fun s ν => U (T.sup ρ s) ν) (waveVector T.ext n) μ)
        * (gluonWave T (fun s ν => U (T.sup ρ s) ν) (waveVector T.ext n) μ)ᴴ)
      = ∑ μ, trace ((gluonWave T U (waveVector T.ext n) μ * zeroWave T U (waveVector T.ext n)
        - zeroWave T U (waveVector T.ext n) * gluonWave T U (waveVector T.ext n) μ) * (gluonWave T U (waveVector T.ext n) μ)ᴴ) := by
      refine Finset.sum_congr rfl fun μ _ => ?_
      rw [gluonWave_translate]
      exact hQ _ _ _ (by rw [star_eix]; exact he)
    rw [gluonThreePoint_eq, gluonThreePoint_eq, hw, hs]

/-- **C71**: how far the field is from being transverse is bounded by the deviation from the Landau gauge that the program prints: in the
Landau gauge `Σ_μ p_μ A_μ(p) = 0` for every colour, so that three polarisations are left and the division by 3 is right. -/
theorem C71_transverse (T : Torus S) (U : GField S N) (n : Fin 4 → ℕ) :
    ∑ c, ‖∑ μ, (physicalMomentum T.ext n μ : ℂ) * gluonPlus T U (waveVector T.ext n) μ c‖ ^ 2
      ≤ (Fintype.card S : ℝ) ^ 2 / 2 * landauDeviation T U := by
  obtain ⟨X, hX⟩ : ∃ X, X = ∑ μ, (latticeMomentum (waveVector T.ext n) μ : ℂ) • gluonWave T U (waveVector T.ext n) μ := ⟨_, rfl⟩
  have h1 : ∀ c, ∑ μ, (physicalMomentum T.ext n μ : ℂ) * gluonPlus T U (waveVector T.ext n) μ c = trace (X * gens N c) := by
    intro c
    rw [hX, Finset.sum_mul, trace_sum]
    exact Finset.sum_congr rfl fun μ _ => by rw [Matrix.smul_mul, trace_smul, gluonPlus_eq, smul_eq_mul, latticeMomentum_wave]
  have h2 : trace X = 0 := by
    rw [hX, trace_sum]
    exact Finset.sum_eq_zero fun μ _ => by rw [trace_smul, trace_gluonWave, smul_zero]
  simp only [h1, ← Complex.normSq_eq_norm_sq]
  rw [sum_normSq_gens X h2, hX, gluonWave_divergence, conjTranspose_smul, Matrix.smul_mul, Matrix.mul_smul, smul_smul]
  have e : Complex.I * star Complex.I = 1 := by simp
  rw [e, one_smul, landauDeviation_eq]
  have hb := wave_bound (fun s => ghostPhase T (waveVector T.ext n) s) (divergence T U)
  by_cases hc : (Fintype.card S : ℝ) = 0
  · rw [hc, zero_mul] at hb
    rw [hc]
    simp only [ne_eq, OfNat.ofNat_ne_zero, not_false_eq_true, zero_pow, zero_div, zero_mul]
    linarith
  · have : (Fintype.card S : ℝ) ^ 2 / 2 * ((∑ s, (trace (divergence T U s * (divergence T U s)ᴴ)).re) / Fintype.card S)
        = (Fintype.card S * ∑ s, (trace (divergence T U s * (divergence T U s)ᴴ)).re) / 2 := by field_simp
    rw [this]
    linarith

/-- **C71**, in the Landau gauge. -/
theorem C71_landau (T : Torus S) (U : GField S N) (hU : GaugeStationary landauFunctional T U) (n : Fin 4 → ℕ) (c : Gen N) :
    ∑ μ, (physicalMomentum T.ext n μ : ℂ) * gluonPlus T U (waveVector T.ext n) μ c = 0 := by
  have h := C71_transverse T U n
  rw [(C47_deviation T U).2 hU, mul_zero] at h
  have h0 := (Finset.sum_eq_zero_iff_of_nonneg (s := Finset.univ)
    (f := fun c => ‖∑ μ, (physicalMomentum T.ext n μ : ℂ) * gluonPlus T U (waveVector T.ext n) μ c‖ ^ 2) fun _ _ => sq_nonneg _).1
    (le_antisymm h (Finset.sum_nonneg fun _ _ => sq_nonneg _)) c (Finset.mem_univ _)
  simpa using h0

/-- **C71**, normalisation: over all momenta of the lattice the propagators, times the number of polarisations, add up to the volume times
the sum of the squares of the field. -/
theorem C71_sum_rule (T : Torus S) (hinj : Function.Injective T.coord) (U : GField S N) (cut : ℝ) (hcut : 8 * Real.pi ≤ cut)
    (hL : ∀ μ, T.ext μ ≤ 10 ^ 16) :
    ((momentumList T.ext (fun μ => T.ext μ) cut).map fun n => (if n = 0 then 4 else 3) * gluonTwoPoint T U (waveVector T.ext n)).sum
      = (∏ μ, T.ext μ : ℕ) * ∑ s, ∑ μ, (trace (lieField (U s μ) * lieField (U s μ))).re / 2 := by
  classical
  have hset : (momentumList T.ext (fun μ => (T.ext μ : ℝ)) cut).toFinset = momentumZone T.ext := by
    ext n
    rw [List.mem_toFinset, mem_momentumList, mem_zone]
    constructor
    · intro h μ
      exact_mod_cast h.1 μ
    · intro h
      refine ⟨fun μ => by exact_mod_cast h μ, lt_of_lt_of_le ?_ hcut⟩
      have hk : ∀ μ, 0 ≤ waveVector T.ext n μ ∧ waveVector T.ext n μ < 2 * Real.pi := by
        intro μ
        have hp := Real.pi_pos
        have hl : (0 : ℝ) < T.ext μ := by exact_mod_cast lt_of_le_of_lt (Nat.zero_le _) (h μ)
        have hn : (n μ : ℝ) < T.ext μ := by exact_mod_cast h μ
        unfold waveVector
        refine ⟨by positivity, ?_⟩
        rw [div_lt_iff₀ hl]
        nlinarith
      have hm : 0 ≤ meanMomentum (waveVector T.ext n) ∧ meanMomentum (waveVector T.ext n) < 2 * Real.pi := by
        unfold meanMomentum
        constructor <;> linarith [hk 0, hk 1, hk 2, hk 3]
      have ha : ∀ μ, |waveVector T.ext n μ - meanMomentum (waveVector T.ext n)| < 2 * Real.pi := by
        intro μ
        rw [abs_lt]
        constructor <;> linarith [hk μ]
      unfold momentumDeviation
      linarith [ha 0, ha 1, ha 2, ha 3]
  rw [← List.sum_toFinset _ (nodup_momentumList _ _ _), hset]
  have h1 : ∀ n ∈ momentumZone T.ext, (if n = 0 then (4 : ℝ) else 3) * gluonTwoPoint T U (waveVector T.ext n)
      = ∑ μ, ∑ c, Complex.normSq (∑ s, eix (gluonPhase T (waveVector T.ext n) μ s) * (((trace (gens N c * lieField (U s μ))).re : ℝ) : ℂ)) := by
    intro n hn
    have hs := modulus_small_iff T.ext n ((mem_zone _ _).1 hn) hL
    unfold gluonTwoPoint
    simp only [hs]
    rw [mul_div_cancel₀]
    · refine Finset.sum_congr rfl fun μ _ => Finset.sum_congr rfl fun c _ => ?_
      rw [plus_mul_minus]
      congr 1
      unfold gluonPlus
      refine Finset.sum_congr rfl fun s _ => ?_
      rw [eix_eq, trace_mul_comm, ← trace_real (C30_generators N) (lieField_herm (U s μ)) c]
    · split <;> norm_num
  rw [Finset.sum_congr rfl h1, Finset.sum_comm]
  have h2 : ∀ μ, ∑ n ∈ momentumZone T.ext, ∑ c, Complex.normSq (∑ s, eix (gluonPhase T (waveVector T.ext n) μ s)
      * (((trace (gens N c * lieField (U s μ))).re : ℝ) : ℂ)) = (∏ μ, T.ext μ : ℕ) * ∑ s, (trace (lieField (U s μ) * lieField (U s μ))).re / 2 := by
    intro μ
    rw [Finset.sum_comm]
    simp only [parseval T hinj]
    rw [← Finset.mul_sum]
    congr 1
    rw [Finset.sum_comm]
    refine Finset.sum_congr rfl fun s _ => ?_
    have h := sum_normSq_gens (lieField (U s μ)) (trace_lieField _)
    rw [lieField_herm] at h
    rw [← h]
    refine Finset.sum_congr rfl fun c _ => ?_
    rw [trace_mul_comm (lieField (U s μ)), trace_real (C30_generators N) (lieField_herm (U s μ)) c, Complex.normSq_ofReal, Complex.ofReal_re]
    ring
  simp only [h2]
  rw [← Finset.mul_sum, Finset.sum_comm]

/-- **C71**, the vertex: the three-point function is purely imaginary, so that its imaginary part, which is written, is all of it; it is the
commutator of the field with the field at zero momentum, contracted with the momentum. -/
theorem C71_vertex (T : Torus S) (U : GField S N) (n : Fin 4 → ℕ) :
    (gluonThreePoint T U (gluonPlus T U (waveVector T.ext 0)) (waveVector T.ext n)).re = 0
      ∧ (gluonThreePoint T U (gluonPlus T U (waveVector T.ext 0)) (waveVector T.ext n)).im
        = -(∑ μ, trace ((gluonWave T U (waveVector T.ext n) μ * (∑ ν, (physicalMomentum T.ext n ν : ℂ) • ∑ s, lieField (U s ν))
            - (∑ ν, (physicalMomentum T.ext n ν : ℂ) • ∑ s, lieField (U s ν)) * gluonWave T U (waveVector T.ext n) μ)
            * (gluonWave T U (waveVector T.ext n) μ)ᴴ)).re / (24 * ∑ μ, physicalMomentum T.ext n μ ^ 2) := by
  have hz : zeroWave T U (waveVector T.ext n) = ∑ ν, (physicalMomentum T.ext n ν : ℂ) • ∑ s, lieField (U s ν) := by
    unfold zeroWave gluonWave
    refine Finset.sum_congr rfl fun ν _ => ?_
    rw [latticeMomentum_wave]
    congr 1
    refine Finset.sum_congr rfl fun s _ => ?_
    have : gluonPhase T (waveVector T.ext 0) ν s = 0 := by simp [gluonPhase, waveVector]
    rw [this, eix_zero, one_smul]
  rw [gluonThreePoint_eq, ← hz]
  obtain ⟨Q, hQ⟩ : ∃ Q, Q = ∑ μ, trace ((gluonWave T U (waveVector T.ext n) μ * zeroWave T U (waveVector T.ext n)
    - zeroWave T U (waveVector T.ext n) * gluonWave T U (waveVector T.ext n) μ) * (gluonWave T U (waveVector T.ext n) μ)ᴴ) := ⟨_, rfl⟩
  have hi : Q.im = 0 := by
    rw [hQ, Complex.im_sum]
    exact Finset.sum_eq_zero fun μ _ => trace_commutator_real _ _ (zeroWave_herm T U _)
  have hm : (momentumModulus (waveVector T.ext n) : ℂ) ^ 2 = ((∑ μ, physicalMomentum T.ext n μ ^ 2 : ℝ) : ℂ) := by
    rw [← Complex.ofReal_pow, momentumModulus_sq]
    simp only [latticeMomentum_wave]
  rw [← hQ, hm]
  have hr : Q = (Q.re : ℂ) := Complex.ext rfl (by rw [hi, Complex.ofReal_im])
  have e : -Complex.I / 24 * Q / ((∑ μ, physicalMomentum T.ext n μ ^ 2 : ℝ) : ℂ)
      = ((-Q.re / (24 * ∑ μ, physicalMomentum T.ext n μ ^ 2) : ℝ) : ℂ) * Complex.I := by
    conv_lhs => rw [hr]
    push_cast
    rw [div_mul_eq_mul_div, div_div, div_mul_eq_mul_div]
    congr 1
    ring
  rw [e]
  generalize -Q.re / (24 * ∑ μ, physicalMomentum T.ext n μ ^ 2) = y
  constructor <;> simp

/-- **C71**, the records: for every measured momentum the record of the propagator holds the momentum, the propagator and the first three
of its integers; the record of the vertex holds all four. What is missing is the last integer in the record of the propagator, see
`C71_record_counterexample`. -/
theorem C71_record_partial (T : Torus S) (U : GField S N) (m : Fin 4 → ℝ) (rest : List ℝ) (cut : ℝ) (hm : ∀ μ, 0 < m μ) (hm' : ∀ μ, m μ ≤ T.ext μ)
    (hc : 0 < cut) (hL : ∀ μ, T.ext μ ≤ 10 ^ 16) :
    ∃ records, gluonExecute T U (m 0 :: m 1 :: m 2 :: m 3 :: rest) cut = .ok records
      ∧ records.length = (momentumList T.ext m cut).length
      ∧ ∀ (i : ℕ) (n : Fin 4 → ℕ), (momentumList T.ext m cut)[i]? = some n → ∃ r, records[i]? = some r
        ∧ r.propagator.take 5 = [Real.sqrt (∑ μ, physicalMomentum T.ext n μ ^ 2), gluonPropagator T U n, (n 0 : ℝ), n 1, n 2]
        ∧ r.vertex = [some (Real.sqrt (∑ μ, physicalMomentum T.ext n μ ^ 2)),
            some (if n = 0 then 0 else (gluonThreePoint T U (gluonPlus T U (waveVector T.ext 0)) (waveVector T.ext n)).im),
            some (n 0 : ℝ), some (n 1 : ℝ), some (n 2 : ℝ), some (n 3 : ℝ)] := by
  have hmm : (![m 0, m 1, m 2, m 3] : Fin 4 → ℝ) = m := by funext μ; fin_cases μ <;> rfl
  refine ⟨_, rfl, ?_, ?_⟩
  · rw [hmm, List.length_map, List.length_zipIdx]
  · intro i n hi
    rw [hmm]
    obtain ⟨l, hl⟩ := momentumList_head T.ext m cut hm hc
    have hmem : n ∈ momentumList T.ext m cut := List.mem_of_getElem? hi
    have hn : ∀ μ, n μ < T.ext μ := by
      intro μ
      have := lt_of_lt_of_le (((mem_momentumList _ _ _ _).1 hmem).1 μ) (hm' μ)
      exact_mod_cast this
    have hz : i = 0 ↔ n = 0 := by
      have h0 : (momentumList T.ext m cut)[0]? = some 0 := by rw [hl]; rfl
      constructor
      · rintro rfl
        rw [h0] at hi
        exact (Option.some.inj hi).symm
      · rintro rfl
        obtain ⟨h1, h2⟩ := List.getElem?_eq_some_iff.1 hi
        obtain ⟨h3, h4⟩ := List.getElem?_eq_some_iff.1 h0
        exact (nodup_momentumList T.ext m cut).getElem_inj_iff.1 (h2.trans h4.symm)
    have hh : (momentumList T.ext m cut).headD 0 = 0 := by rw [hl]; rfl
    refine ⟨gluonRecord T U 0 i n, ?_, ?_, ?_⟩
    · rw [List.getElem?_map, List.getElem?_zipIdx, hi, hh]
      simp
    · unfold gluonRecord
      simp only [List.take, modulus_wave, (C71_propagator T U n hn hL).1]
    · unfold gluonRecord gluonVertex
      simp only [modulus_wave, hz]
      by_cases h : n = 0
      · simp [h]
      · have hne := modulus_ne_zero T.ext n hn h
        rw [modulus_wave] at hne
        simp only [if_neg h, if_neg hne]

/-- **C71** fails for the record: whatever the configuration and the lattice, two different momenta get the same four integers in the records of
the propagator, since the third is written again in place of the fourth. -/
theorem C71_record_counterexample (T : Torus S) (U : GField S N) (hT : ∀ μ, 4 ≤ T.ext μ) :
    ∃ (records : List GluonRecord) (r r' : GluonRecord) (i j : ℕ) (n n' : Fin 4 → ℕ), gluonExecute T U [2, 2, 2, 2] 100 = .ok records
      ∧ (momentumList T.ext ![2, 2, 2, 2] 100)[i]? = some n ∧ (momentumList T.ext ![2, 2, 2, 2] 100)[j]? = some n' ∧ n 3 ≠ n' 3
      ∧ records[i]? = some r ∧ records[j]? = some r' ∧ r.propagator.drop 2 = r'.propagator.drop 2 ∧ r.vertex.drop 2 ≠ r'.vertex.drop 2 := by
  have hmem : ∀ n : Fin 4 → ℕ, (∀ μ, n μ < 2) → n ∈ momentumList T.ext ![2, 2, 2, 2] 100 := by
    intro n hn
    rw [mem_momentumList]
    refine ⟨fun μ => ?_, ?_⟩
    · have : (n μ : ℝ) < 2 := by exact_mod_cast hn μ
      fin_cases μ <;> exact this
    · have hk : ∀ μ, 0 ≤ waveVector T.ext n μ ∧ waveVector T.ext n μ ≤ 2 := by
        intro μ
        have hp := Real.pi_pos
        have hp4 := Real.pi_le_four
        have hl : (4 : ℝ) ≤ T.ext μ := by exact_mod_cast hT μ
        have h1 : (n μ : ℝ) ≤ 1 := by exact_mod_cast Nat.lt_succ_iff.1 (hn μ)
        have h0 : (0 : ℝ) ≤ n μ := by positivity
        unfold waveVector
        refine ⟨by positivity, ?_⟩
        rw [div_le_iff₀ (by linarith)]
        nlinarith
      have hm : 0 ≤ meanMomentum (waveVector T.ext n) ∧ meanMomentum (waveVector T.ext n) ≤ 2 := by
        unfold meanMomentum
        constructor <;> linarith [hk 0, hk 1, hk 2, hk 3]
      have ha : ∀ μ, |waveVector T.ext n μ - meanMomentum (waveVector T.ext n)| ≤ 2 := by
        intro μ
        rw [abs_le]
        constructor <;> linarith [hk μ]
      unfold momentumDeviation
      linarith [ha 0, ha 1, ha 2, ha 3]
  obtain ⟨i, hi⟩ := List.mem_iff_getElem?.1 (hmem ![0, 0, 0, 1] (by decide))
  obtain ⟨j, hj⟩ := List.mem_iff_getElem?.1 (hmem ![0, 0, 0, 0] (by decide))
  refine ⟨_, gluonRecord T U ((momentumList T.ext ![2, 2, 2, 2] 100).headD 0) i ![0, 0, 0, 1],
    gluonRecord T U ((momentumList T.ext ![2, 2, 2, 2] 100).headD 0) j ![0, 0, 0, 0], i, j, _, _, rfl, hi, hj, by decide, ?_, ?_, ?_, ?_⟩
  · rw [List.getElem?_map, List.getElem?_zipIdx, hi]; simp
  · rw [List.getElem?_map, List.getElem?_zipIdx, hj]; simp
  · simp [gluonRecord]
  · simp [gluonRecord]

/-! ## The hypotheses can be met -/

omit [Fintype S] in
theorem boxTorus_coord_injective (g : Ext) (hg : g.Pos) : Function.Injective (boxTorus g hg).coord := by
  intro s s' h
  apply Subtype.ext
  apply Site.ext_get
  intro ν
  have h1 : (s.1.get ν).toNat = (s'.1.get ν).toNat := congrFun h ν
  have h2 := (s.2.get ν).1
  have h3 := (s'.2.get ν).1
  omega

example : Function.Injective (boxTorus exExt3 exExt3_pos).coord ∧ (∀ μ, (boxTorus exExt3 exExt3_pos).ext μ ≤ 10 ^ 16)
    ∧ (∃ n : Fin 4 → ℕ, n ≠ 0 ∧ ∀ μ, n μ < (boxTorus exExt3 exExt3_pos).ext μ)
    ∧ GaugeStationary landauFunctional (boxTorus exExt3 exExt3_pos) (fun _ _ => (1 : Mat 3)) := by
  refine ⟨boxTorus_coord_injective _ _, ?_, ⟨![1, 0, 2, 1], ?_, ?_⟩, ?_⟩
  · intro μ; fin_cases μ <;> decide
  · intro h; have := congrFun h 0; simp at this
  · intro μ; fin_cases μ <;> decide
  · rw [← C47_deviation, landauDeviation_zero_iff]
    intro s
    simp [divergence]

example : ∃ m : Fin 4 → ℝ, (∀ μ, 0 < m μ) ∧ (∀ μ, m μ ≤ (boxTorus exExt3 exExt3_pos).ext μ) := by
  refine ⟨fun _ => 2, fun _ => by norm_num, fun μ => ?_⟩
  change (2 : ℝ) ≤ _
  have : 2 ≤ (boxTorus exExt3 exExt3_pos).ext μ := by fin_cases μ <;> decide
  exact_mod_cast this

end

end Leonard
