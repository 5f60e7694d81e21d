import Verif.Heat.Integrals
import Verif.Heat.Rejection
import Verif.Gauge.Updates
import Mathlib.MeasureTheory.Measure.Prod

/-!
The distribution of the number returned by the rejection loop of the heat bath.
-/

set_option autoImplicit false

namespace Leonard

open MeasureTheory Set Real
open scoped ENNReal Classical

/-- The distribution of a uniform number of the generator, `std::uniform_real_distribution` on [0,1). -/
noncomputable def unif : Measure ℝ := volume.restrict (Ico 0 1)

instance : IsProbabilityMeasure unif := ⟨by simp [unif]⟩

/-- The distribution of the four numbers of one attempt. -/
noncomputable def unif4 : Measure (ℝ × ℝ × ℝ × ℝ) := unif.prod (unif.prod (unif.prod unif))

instance : IsProbabilityMeasure unif4 := by unfold unif4; infer_instance

/-- The numbers of one attempt, in the order they are drawn. -/
def toRadiusDraw (q : ℝ × ℝ × ℝ × ℝ) : RadiusDraw := ⟨q.1, q.2.1, q.2.2.1, q.2.2.2⟩

/-- The value of an attempt. -/
noncomputable def attemptValue (b : ℝ) (q : ℝ × ℝ × ℝ × ℝ) : ℝ := 1 + b * (log q.1 + log q.2.1 * cos (2 * π * q.2.2.1) ^ 2)

/-- The attempts that are accepted. -/
def attemptOk (b : ℝ) : Set (ℝ × ℝ × ℝ × ℝ) := {q | ¬ 1 + attemptValue b q - 2 * q.2.2.2 * q.2.2.2 < 0}

theorem measurable_attemptValue (b : ℝ) : Measurable (attemptValue b) := by
  unfold attemptValue
  fun_prop

theorem measurableSet_attemptOk (b : ℝ) : MeasurableSet (attemptOk b) := by
  have hv := measurable_attemptValue b
  refine (measurableSet_lt (f := fun q : ℝ × ℝ × ℝ × ℝ => 1 + attemptValue b q - 2 * q.2.2.2 * q.2.2.2) ?_ measurable_const).compl
  fun_prop

/-- The number of the program on a sequence of attempts. -/
noncomputable def radiusResult (b : ℝ) (ω : ℕ → ℝ × ℝ × ℝ × ℝ) : ℝ := attemptValue b (firstHit (attemptOk b) ω)

theorem measurable_radiusResult (b : ℝ) : Measurable (radiusResult b) :=
  (measurable_attemptValue b).comp (measurable_firstHit (measurableSet_attemptOk b))

theorem generateRadius_cons (b : ℝ) (q : ℝ × ℝ × ℝ × ℝ) (ds : List RadiusDraw) :
    (q ∈ attemptOk b → generateRadius b (toRadiusDraw q :: ds) = some (attemptValue b q))
    ∧ (q ∉ attemptOk b → generateRadius b (toRadiusDraw q :: ds) = generateRadius b ds) := by
  constructor
  · intro h
    have h' : ¬ 1 + attemptValue b q - 2 * q.2.2.2 * q.2.2.2 < 0 := h
    unfold attemptValue at h' ⊢
    simp only [generateRadius, toRadiusDraw]
    exact if_neg h'
  · intro h
    have h' : 1 + attemptValue b q - 2 * q.2.2.2 * q.2.2.2 < 0 := not_not.1 h
    unfold attemptValue at h'
    simp only [generateRadius, toRadiusDraw]
    exact if_pos h'

/-- The loop of the program on the first `n` attempts of a sequence. -/
theorem generateRadius_stream (b : ℝ) (n : ℕ) (ω : ℕ → ℝ × ℝ × ℝ × ℝ) :
    generateRadius b ((List.range n).map fun k => toRadiusDraw (ω k)) = if ∃ k < n, ω k ∈ attemptOk b then some (radiusResult b ω) else none := by
  have gen : ∀ n (ω : ℕ → ℝ × ℝ × ℝ × ℝ), (∀ k, FirstAt (attemptOk b) ω k → k < n →
      generateRadius b ((List.range n).map fun k => toRadiusDraw (ω k)) = some (attemptValue b (ω k)))
      ∧ ((∀ k < n, ω k ∉ attemptOk b) → generateRadius b ((List.range n).map fun k => toRadiusDraw (ω k)) = none) := by
    intro n
    induction n with
    | zero => intro ω; exact ⟨fun k _ h => absurd h (Nat.not_lt_zero _), fun _ => rfl⟩
    | succ n ih =>
      intro ω
      obtain ⟨h1, h2⟩ := ih fun k => ω (k + 1)
      have e : (List.range (n + 1)).map (fun k => toRadiusDraw (ω k)) = toRadiusDraw (ω 0) :: (List.range n).map fun k => toRadiusDraw (ω (k + 1)) := by
        rw [List.range_succ_eq_map, List.map_cons, List.map_map]
        rfl
      rw [e]
      constructor
      · intro k hk hkn
        rcases Nat.eq_zero_or_pos k with rfl | hpos
        · exact (generateRadius_cons b _ _).1 hk.2
        · rw [(generateRadius_cons b _ _).2 (hk.1 0 hpos)]
          obtain ⟨j, rfl⟩ : ∃ j, k = j + 1 := ⟨k - 1, by omega⟩
          exact h1 j ⟨fun i hi => hk.1 (i + 1) (by omega), hk.2⟩ (by omega)
      · intro h
        rw [(generateRadius_cons b _ _).2 (h 0 (by omega))]
        exact h2 fun k hk => h (k + 1) (by omega)
  by_cases h : ∃ k < n, ω k ∈ attemptOk b
  · rw [if_pos h]
    obtain ⟨k, hk, hok⟩ := h
    obtain ⟨j, hj⟩ := exists_firstAt ⟨k, hok⟩
    have hjk : j ≤ k := by
      by_contra hc
      exact hj.1 k (not_le.1 hc) hok
    rw [(gen n ω).1 j hj (by omega), radiusResult, hj.hit]
  · rw [if_neg h]
    push Not at h
    exact (gen n ω).2 h

/-! ### One attempt -/

/-- The Gaussian integral. -/
noncomputable def gaussConst : ℝ≥0∞ := ∫⁻ y : ℝ, ENNReal.ofReal (exp (-y ^ 2))

theorem gaussConst_ne : gaussConst ≠ 0 ∧ gaussConst ≠ ∞ := by
  have hi : Integrable fun y : ℝ => exp (-y ^ 2) := by
    have := integrable_exp_neg_mul_sq (b := 1) one_pos
    simpa using this
  have h : gaussConst = ENNReal.ofReal (∫ y : ℝ, exp (-y ^ 2)) := (ofReal_integral_eq_lintegral_ofReal hi (ae_of_all _ fun y => (exp_pos _).le)).symm
  have hv : ∫ y : ℝ, exp (-y ^ 2) = √π := by
    have := integral_gaussian 1
    simpa using this
  rw [h, hv]
  refine ⟨?_, ENNReal.ofReal_ne_top⟩
  rw [Ne, ENNReal.ofReal_eq_zero, not_le]
  exact sqrt_pos.2 pi_pos

/-- The square of a variable. -/
theorem lintegral_square (φ : ℝ → ℝ≥0∞) : ∫⁻ t in Ioi (0 : ℝ), φ t = ∫⁻ ρ in Ioi (0 : ℝ), ENNReal.ofReal (2 * ρ) * φ (ρ ^ 2) := by
  have him : (fun ρ : ℝ => ρ ^ 2) '' Ioi 0 = Ioi 0 := by
    ext x
    constructor
    · rintro ⟨t, ht, rfl⟩
      have ht : 0 < t := ht
      change 0 < t ^ 2
      positivity
    · intro hx
      exact ⟨√x, sqrt_pos.2 hx, sq_sqrt (le_of_lt hx)⟩
  have hd : ∀ t ∈ Ioi (0 : ℝ), HasDerivWithinAt (fun ρ : ℝ => ρ ^ 2) (2 * t) (Ioi 0) t := fun t _ => by
    have := hasDerivAt_pow 2 t
    simpa using this.hasDerivWithinAt
  have hinj : InjOn (fun ρ : ℝ => ρ ^ 2) (Ioi 0) := fun x hx y hy h => by
    have hx : 0 < x := hx
    have hy : 0 < y := hy
    have h' : x ^ 2 = y ^ 2 := h
    exact (pow_left_inj₀ hx.le hy.le two_ne_zero).1 h'
  have h := lintegral_image_eq_lintegral_abs_deriv_mul measurableSet_Ioi hd hinj φ
  rw [him] at h
  rw [h]
  refine setLIntegral_congr_fun measurableSet_Ioi fun t ht => ?_
  have ht : 0 < t := ht
  rw [abs_of_pos (by positivity)]

/-- An exponential number times the squared cosine of a uniform angle is the square of a Gaussian number. -/
theorem lintegral_cos_sq (G : ℝ → ℝ≥0∞) (hG : Measurable G) :
    ENNReal.ofReal π * ∫⁻ ξ in Ico (0 : ℝ) 1, ∫⁻ θ in Ico (0 : ℝ) 1, G (-log ξ * cos (2 * π * θ) ^ 2)
      = gaussConst * ∫⁻ x : ℝ, ENNReal.ofReal (exp (-x ^ 2)) * G (x ^ 2) := by
  have h1 := lintegral_log fun t => ∫⁻ θ in Ico (0 : ℝ) 1, G (t * cos (2 * π * θ) ^ 2)
  rw [h1, lintegral_square, ← lintegral_const_mul' _ _ ENNReal.ofReal_ne_top]
  have hF : Measurable fun p : ℝ × ℝ => ENNReal.ofReal (exp (-p.1 ^ 2)) * G (p.1 ^ 2) * ENNReal.ofReal (exp (-p.2 ^ 2)) := by fun_prop
  have h2 := lintegral_polar_unit _ hF
  rw [Measure.volume_eq_prod, lintegral_prod _ hF.aemeasurable] at h2
  have h3 : ∫⁻ x : ℝ, ∫⁻ y : ℝ, ENNReal.ofReal (exp (-x ^ 2)) * G (x ^ 2) * ENNReal.ofReal (exp (-y ^ 2))
      = gaussConst * ∫⁻ x : ℝ, ENNReal.ofReal (exp (-x ^ 2)) * G (x ^ 2) := by
    rw [← lintegral_const_mul _ (by fun_prop)]
    refine lintegral_congr fun x => ?_
    rw [lintegral_const_mul _ (by fun_prop), mul_comm]
    rfl
  simp only at h2
  rw [← h3, h2]
  refine setLIntegral_congr_fun measurableSet_Ioi fun ρ hρ => ?_
  have hρ : 0 < ρ := hρ
  have h4 : ∫⁻ ξ in Ico (0 : ℝ) 1, ENNReal.ofReal (exp (-(ρ * cos (2 * π * ξ)) ^ 2)) * G ((ρ * cos (2 * π * ξ)) ^ 2) * ENNReal.ofReal (exp (-(ρ * sin (2 * π * ξ)) ^ 2))
      = ENNReal.ofReal (exp (-ρ ^ 2)) * ∫⁻ ξ in Ico (0 : ℝ) 1, G (ρ ^ 2 * cos (2 * π * ξ) ^ 2) := by
    rw [← lintegral_const_mul' _ _ ENNReal.ofReal_ne_top]
    refine lintegral_congr fun ξ => ?_
    rw [mul_right_comm, ← ENNReal.ofReal_mul (exp_pos _).le, ← exp_add, mul_pow, mul_pow]
    congr 3
    have := sin_sq_add_cos_sq (2 * π * ξ)
    linear_combination (-ρ ^ 2) * this
  rw [h4]
  have e : ENNReal.ofReal π * ENNReal.ofReal (2 * ρ) = ENNReal.ofReal ρ * ENNReal.ofReal (2 * π) := by
    rw [← ENNReal.ofReal_mul pi_pos.le, ← ENNReal.ofReal_mul hρ.le]
    congr 1
    ring
  rw [← mul_assoc, e, mul_assoc]

/-- A shift of a half line. -/
theorem lintegral_shift (c : ℝ) (φ : ℝ → ℝ≥0∞) : ∫⁻ t in Ioi (0 : ℝ), φ (t + c) = ∫⁻ u in Ioi c, φ u := by
  rw [← lintegral_indicator measurableSet_Ioi, ← lintegral_indicator measurableSet_Ioi, ← lintegral_add_right_eq_self ((Ioi c).indicator φ) c]
  refine lintegral_congr fun t => ?_
  simp [indicator]

/-- The first three numbers of an attempt give a number with the distribution `√u e^{-u}`. -/
theorem lintegral_attempt (g : ℝ → ℝ≥0∞) (hg : Measurable g) :
    ENNReal.ofReal π * ∫⁻ ξ1 in Ico (0 : ℝ) 1, ∫⁻ ξ2 in Ico (0 : ℝ) 1, ∫⁻ ξ3 in Ico (0 : ℝ) 1, g (-(log ξ1 + log ξ2 * cos (2 * π * ξ3) ^ 2))
      = gaussConst * ∫⁻ u in Ioi (0 : ℝ), ENNReal.ofReal (2 * √u * exp (-u)) * g u := by
  let G : ℝ → ℝ≥0∞ := fun c => ∫⁻ t in Ioi (0 : ℝ), ENNReal.ofReal (exp (-t)) * g (t + c)
  have hG : Measurable G := by
    refine Measurable.lintegral_prod_right' (f := fun y : ℝ × ℝ => ENNReal.ofReal (exp (-y.2)) * g (y.2 + y.1)) ?_
    fun_prop
  have h1 : ∫⁻ ξ1 in Ico (0 : ℝ) 1, ∫⁻ ξ2 in Ico (0 : ℝ) 1, ∫⁻ ξ3 in Ico (0 : ℝ) 1, g (-(log ξ1 + log ξ2 * cos (2 * π * ξ3) ^ 2))
      = ∫⁻ ξ2 in Ico (0 : ℝ) 1, ∫⁻ ξ3 in Ico (0 : ℝ) 1, G (-log ξ2 * cos (2 * π * ξ3) ^ 2) := by
    have hm : Measurable fun y : ℝ × ℝ => ∫⁻ ξ3 in Ico (0 : ℝ) 1, g (-(log y.1 + log y.2 * cos (2 * π * ξ3) ^ 2)) := by
      refine Measurable.lintegral_prod_right' (f := fun y : (ℝ × ℝ) × ℝ => g (-(log y.1.1 + log y.1.2 * cos (2 * π * y.2) ^ 2))) ?_
      fun_prop
    rw [lintegral_lintegral_swap hm.aemeasurable]
    refine lintegral_congr fun ξ2 => ?_
    have hm2 : Measurable fun y : ℝ × ℝ => g (-(log y.1 + log ξ2 * cos (2 * π * y.2) ^ 2)) := by fun_prop
    rw [lintegral_lintegral_swap hm2.aemeasurable]
    refine lintegral_congr fun ξ3 => ?_
    have := lintegral_log fun t => g (t + -log ξ2 * cos (2 * π * ξ3) ^ 2)
    change _ = ∫⁻ t in Ioi (0 : ℝ), ENNReal.ofReal (exp (-t)) * g (t + -log ξ2 * cos (2 * π * ξ3) ^ 2)
    rw [← this]
    refine lintegral_congr fun ξ1 => ?_
    congr 1
    ring
  rw [h1, lintegral_cos_sq G hG]
  refine congrArg (fun z => gaussConst * z) ?_
  have h2 : ∀ x : ℝ, ENNReal.ofReal (exp (-x ^ 2)) * G (x ^ 2) = ∫⁻ u in Ioi (0 : ℝ), (Ioi (x ^ 2)).indicator (fun u => ENNReal.ofReal (exp (-u)) * g u) u := by
    intro x
    have hx : 0 ≤ x ^ 2 := sq_nonneg x
    rw [setLIntegral_indicator measurableSet_Ioi, inter_eq_left.2 (Ioi_subset_Ioi hx), ← lintegral_shift, ← lintegral_const_mul' _ _ ENNReal.ofReal_ne_top]
    refine lintegral_congr fun t => ?_
    rw [← mul_assoc, ← ENNReal.ofReal_mul (exp_pos _).le, ← exp_add]
    congr 3
    ring
  simp only [h2]
  have hm : Measurable fun y : ℝ × ℝ => (Ioi (y.1 ^ 2)).indicator (fun u => ENNReal.ofReal (exp (-u)) * g u) y.2 := by
    have : (fun y : ℝ × ℝ => (Ioi (y.1 ^ 2)).indicator (fun u => ENNReal.ofReal (exp (-u)) * g u) y.2)
        = {y : ℝ × ℝ | y.1 ^ 2 < y.2}.indicator fun y => ENNReal.ofReal (exp (-y.2)) * g y.2 := by
      funext y
      simp [indicator]
    rw [this]
    refine Measurable.indicator (by fun_prop) (measurableSet_lt (by fun_prop) (by fun_prop))
  rw [lintegral_lintegral_swap hm.aemeasurable]
  refine setLIntegral_congr_fun measurableSet_Ioi fun u hu => ?_
  have hu : 0 < u := hu
  have h3 : (fun x : ℝ => (Ioi (x ^ 2)).indicator (fun u => ENNReal.ofReal (exp (-u)) * g u) u)
      = (Ioo (-√u) (√u)).indicator fun _ => ENNReal.ofReal (exp (-u)) * g u := by
    funext x
    have hiff : u ∈ Ioi (x ^ 2) ↔ x ∈ Ioo (-√u) (√u) := by
      change x ^ 2 < u ↔ _
      rw [mem_Ioo, ← abs_lt, lt_sqrt (abs_nonneg x), sq_abs]
    by_cases h : u ∈ Ioi (x ^ 2)
    · rw [indicator_of_mem h, indicator_of_mem (hiff.1 h)]
    · rw [indicator_of_notMem h, indicator_of_notMem (fun hc => h (hiff.2 hc))]
  rw [h3, lintegral_indicator_const measurableSet_Ioo, Real.volume_Ioo, mul_right_comm, ← ENNReal.ofReal_mul (exp_pos _).le]
  congr 2
  ring

/-- The acceptance probability. -/
theorem lintegral_accept_radius (s : ℝ) (hs : s < 1) (c : ℝ≥0∞) :
    ∫⁻ r in Ico (0 : ℝ) 1, (if ¬ 1 + s - 2 * r * r < 0 then c else 0) = ENNReal.ofReal (√((1 + s) / 2)) * c := by
  have h : EqOn (fun r : ℝ => if ¬ 1 + s - 2 * r * r < 0 then c else 0) ({r : ℝ | 2 * r * r ≤ 1 + s}.indicator fun _ => c) (Ico 0 1) := by
    intro r _
    simp [indicator]
  have hms : MeasurableSet {r : ℝ | 2 * r * r ≤ 1 + s} := measurableSet_le (by fun_prop) measurable_const
  rw [setLIntegral_congr_fun measurableSet_Ico h, setLIntegral_indicator hms, setLIntegral_const, mul_comm]
  refine congrArg (fun z => z * c) ?_
  by_cases hn : 1 + s < 0
  · have : {r : ℝ | 2 * r * r ≤ 1 + s} ∩ Ico 0 1 = ∅ := by
      ext r
      simp only [mem_inter_iff, mem_setOf_eq, mem_empty_iff_false, iff_false]
      rintro ⟨h1, -⟩
      nlinarith [sq_nonneg r]
    rw [this, measure_empty, sqrt_eq_zero_of_nonpos (by linarith), ENNReal.ofReal_zero]
  · have hp : 0 ≤ (1 + s) / 2 := by linarith
    have : {r : ℝ | 2 * r * r ≤ 1 + s} ∩ Ico 0 1 = Icc 0 (√((1 + s) / 2)) := by
      ext r
      simp only [mem_inter_iff, mem_setOf_eq, mem_Ico, mem_Icc]
      constructor
      · rintro ⟨h1, h0, -⟩
        refine ⟨h0, le_sqrt_of_sq_le ?_⟩
        nlinarith
      · rintro ⟨h0, h1⟩
        have h2 := (le_sqrt h0 hp).1 h1
        refine ⟨by nlinarith, h0, ?_⟩
        nlinarith
    rw [this, Real.volume_Icc, sub_zero]

/-- The number `b` enters through a change of variables. -/
theorem lintegral_reflect (b : ℝ) (hb : 0 < b) (φ : ℝ → ℝ≥0∞) :
    ∫⁻ u in Ioi (0 : ℝ), φ u = ENNReal.ofReal (1 / b) * ∫⁻ s in Iio (1 : ℝ), φ ((1 - s) / b) := by
  have him : (fun s : ℝ => (1 - s) / b) '' Iio 1 = Ioi 0 := by
    ext x
    constructor
    · rintro ⟨t, ht, rfl⟩
      have ht : t < 1 := ht
      exact div_pos (by linarith) hb
    · intro hx
      have hx : 0 < x := hx
      refine ⟨1 - b * x, ?_, ?_⟩
      · change 1 - b * x < 1
        have := mul_pos hb hx
        linarith
      · simp only
        field_simp
        ring
  have hd : ∀ t ∈ Iio (1 : ℝ), HasDerivWithinAt (fun s : ℝ => (1 - s) / b) (-1 / b) (Iio 1) t := fun t _ => by
    have := ((hasDerivAt_id t).const_sub 1).div_const b
    exact this.hasDerivWithinAt
  have hinj : InjOn (fun s : ℝ => (1 - s) / b) (Iio 1) := fun x _ y _ h => by
    have h' : (1 - x) / b = (1 - y) / b := h
    have := (div_left_inj' hb.ne').1 h'
    linarith
  have h := lintegral_image_eq_lintegral_abs_deriv_mul measurableSet_Iio hd hinj φ
  rw [him] at h
  rw [h, lintegral_const_mul' _ _ ENNReal.ofReal_ne_top, abs_div, abs_neg, abs_one, abs_of_pos hb]

/-- The density of the number. -/
noncomputable def radialWeight (b s : ℝ) : ℝ := √(1 - s ^ 2) * exp (s / b)

/-- The distribution of an accepted attempt, up to a factor. -/
theorem lintegral_accepted (b : ℝ) (hb : 0 < b) : ∃ c : ℝ≥0∞, c ≠ 0 ∧ c ≠ ∞ ∧ ∀ f : ℝ → ℝ≥0∞, Measurable f →
    ∫⁻ q in attemptOk b, f (attemptValue b q) ∂unif4 = c * ∫⁻ s in Ioo (-1 : ℝ) 1, ENNReal.ofReal (radialWeight b s) * f s := by
  have hK : 0 < 2 / √b * exp (-1 / b) / √2 := by
    have := sqrt_pos.2 hb
    have h2 : 0 < √(2 : ℝ) := sqrt_pos.2 two_pos
    have := exp_pos (-1 / b)
    positivity
  have hπ : ENNReal.ofReal π ≠ 0 := by
    rw [Ne, ENNReal.ofReal_eq_zero, not_le]; exact pi_pos
  have hb' : ENNReal.ofReal (1 / b) ≠ 0 := by
    rw [Ne, ENNReal.ofReal_eq_zero, not_le]; positivity
  have hK' : ENNReal.ofReal (2 / √b * exp (-1 / b) / √2) ≠ 0 := by
    rw [Ne, ENNReal.ofReal_eq_zero, not_le]; exact hK
  refine ⟨(ENNReal.ofReal π)⁻¹ * (gaussConst * (ENNReal.ofReal (1 / b) * ENNReal.ofReal (2 / √b * exp (-1 / b) / √2))), ?_, ?_, ?_⟩
  · exact mul_ne_zero (ENNReal.inv_ne_zero.2 ENNReal.ofReal_ne_top) (mul_ne_zero gaussConst_ne.1 (mul_ne_zero hb' hK'))
  · exact ENNReal.mul_ne_top (ENNReal.inv_ne_top.2 hπ)
      (ENNReal.mul_ne_top gaussConst_ne.2 (ENNReal.mul_ne_top ENNReal.ofReal_ne_top ENNReal.ofReal_ne_top))
  intro f hf
  let g : ℝ → ℝ≥0∞ := fun u => ∫⁻ r in Ico (0 : ℝ) 1, if ¬ 1 + (1 - b * u) - 2 * r * r < 0 then f (1 - b * u) else 0
  have hgm : Measurable fun y : ℝ × ℝ => if ¬ 1 + (1 - b * y.1) - 2 * y.2 * y.2 < 0 then f (1 - b * y.1) else 0 := by
    refine Measurable.ite ?_ (by fun_prop) measurable_const
    exact (measurableSet_lt (f := fun y : ℝ × ℝ => 1 + (1 - b * y.1) - 2 * y.2 * y.2) (by fun_prop) measurable_const).compl
  have hg : Measurable g := Measurable.lintegral_prod_right' hgm
  have h1 : ∫⁻ q in attemptOk b, f (attemptValue b q) ∂unif4
      = ∫⁻ ξ1 in Ico (0 : ℝ) 1, ∫⁻ ξ2 in Ico (0 : ℝ) 1, ∫⁻ ξ3 in Ico (0 : ℝ) 1, g (-(log ξ1 + log ξ2 * cos (2 * π * ξ3) ^ 2)) := by
    let H : ℝ × ℝ × ℝ × ℝ → ℝ≥0∞ := fun q => if ¬ 1 + attemptValue b q - 2 * q.2.2.2 * q.2.2.2 < 0 then f (attemptValue b q) else 0
    have hH : Measurable H := by
      refine Measurable.ite (measurableSet_attemptOk b) (hf.comp (measurable_attemptValue b)) measurable_const
    have e : ∫⁻ q in attemptOk b, f (attemptValue b q) ∂unif4 = ∫⁻ q, H q ∂unif4 := by
      rw [← lintegral_indicator (measurableSet_attemptOk b)]
      refine lintegral_congr fun q => ?_
      by_cases hq : q ∈ attemptOk b
      · rw [indicator_of_mem hq]
        exact (if_pos hq).symm
      · rw [indicator_of_notMem hq]
        exact (if_neg hq).symm
    rw [e, unif4, lintegral_prod _ hH.aemeasurable]
    refine lintegral_congr fun ξ1 => ?_
    rw [lintegral_prod (fun y : ℝ × ℝ × ℝ => H (ξ1, y)) (hH.comp measurable_prodMk_left).aemeasurable]
    refine lintegral_congr fun ξ2 => ?_
    rw [lintegral_prod (fun y : ℝ × ℝ => H (ξ1, ξ2, y)) (hH.comp (measurable_prodMk_left.comp measurable_prodMk_left)).aemeasurable]
    refine lintegral_congr fun ξ3 => ?_
    refine lintegral_congr fun r => ?_
    have ev : attemptValue b (ξ1, ξ2, ξ3, r) = 1 - b * -(log ξ1 + log ξ2 * cos (2 * π * ξ3) ^ 2) := by
      simp only [attemptValue]
      ring
    simp only [H, ev]
  have h2 := lintegral_attempt g hg
  rw [← h1] at h2
  have h3 : ∫⁻ u in Ioi (0 : ℝ), ENNReal.ofReal (2 * √u * exp (-u)) * g u
      = ENNReal.ofReal (1 / b) * (ENNReal.ofReal (2 / √b * exp (-1 / b) / √2) * ∫⁻ s in Ioo (-1 : ℝ) 1, ENNReal.ofReal (radialWeight b s) * f s) := by
    rw [lintegral_reflect b hb]
    refine congrArg (fun z => ENNReal.ofReal (1 / b) * z) ?_
    rw [← lintegral_const_mul' _ _ ENNReal.ofReal_ne_top]
    have e : EqOn (fun s : ℝ => ENNReal.ofReal (2 * √((1 - s) / b) * exp (-((1 - s) / b))) * g ((1 - s) / b))
        ((Ioo (-1 : ℝ) 1).indicator fun s => ENNReal.ofReal (2 / √b * exp (-1 / b) / √2) * (ENNReal.ofReal (radialWeight b s) * f s)) (Iio 1) := by
      intro s hs
      have hs : s < 1 := hs
      have e1 : 1 - b * ((1 - s) / b) = s := by
        field_simp
        ring
      have e2 : g ((1 - s) / b) = ENNReal.ofReal (√((1 + s) / 2)) * f s := by
        simp only [g, e1]
        exact lintegral_accept_radius s hs (f s)
      simp only
      rw [e2]
      by_cases hm : s ∈ Ioo (-1 : ℝ) 1
      · rw [indicator_of_mem hm, ← mul_assoc, ← mul_assoc, ← ENNReal.ofReal_mul hK.le, ← ENNReal.ofReal_mul (by positivity)]
        congr 2
        have hs1 : 0 ≤ 1 - s := by linarith
        have hs2 : 0 ≤ 1 + s := by linarith [hm.1]
        rw [radialWeight, show 1 - s ^ 2 = (1 - s) * (1 + s) by ring, sqrt_mul hs1, sqrt_div hs1, sqrt_div hs2,
          show -((1 - s) / b) = -1 / b + s / b by ring, exp_add]
        ring
      · rw [indicator_of_notMem hm]
        have hs' : 1 + s ≤ 0 := by
          by_contra hc
          exact hm ⟨by linarith, hs⟩
        rw [sqrt_eq_zero_of_nonpos (by linarith : (1 + s) / 2 ≤ 0), ENNReal.ofReal_zero, zero_mul, mul_zero]
    rw [setLIntegral_congr_fun measurableSet_Iio e, setLIntegral_indicator measurableSet_Ioo]
    congr 2
    exact inter_eq_left.2 fun s hs => hs.2
  rw [h3] at h2
  have h4 := congrArg (fun z => (ENNReal.ofReal π)⁻¹ * z) h2
  rw [← mul_assoc, ENNReal.inv_mul_cancel hπ ENNReal.ofReal_ne_top, one_mul] at h4
  rw [h4]
  ring

/-! ### The loop -/

/-- The normalisation of the density. -/
noncomputable def radialNorm (b : ℝ) : ℝ≥0∞ := ∫⁻ s in Ioo (-1 : ℝ) 1, ENNReal.ofReal (radialWeight b s)

theorem radialWeight_pos {b s : ℝ} (hs : s ∈ Ioo (-1 : ℝ) 1) : 0 < radialWeight b s := by
  refine mul_pos (sqrt_pos.2 ?_) (exp_pos _)
  nlinarith [hs.1, hs.2]

theorem measurable_radialWeight (b : ℝ) : Measurable (radialWeight b) := by
  unfold radialWeight
  fun_prop

theorem radialNorm_ne (b : ℝ) : radialNorm b ≠ 0 ∧ radialNorm b ≠ ∞ := by
  constructor
  · intro h
    rw [radialNorm, lintegral_eq_zero_iff (measurable_radialWeight b).ennreal_ofReal] at h
    have h2 := (ae_restrict_iff' measurableSet_Ioo).1 h
    have h3 : volume (Ioo (-1 : ℝ) 1) = 0 := by
      refine measure_mono_null ?_ (ae_iff.1 h2)
      intro s hs
      simp only [mem_setOf_eq, Classical.not_imp]
      refine ⟨hs, ?_⟩
      simp only [Pi.zero_apply, ENNReal.ofReal_eq_zero, not_le]
      exact radialWeight_pos hs
    rw [Real.volume_Ioo] at h3
    norm_num at h3
  · have hc : ContinuousOn (radialWeight b) (Icc (-1) 1) := by
      unfold radialWeight
      fun_prop
    have hi : IntegrableOn (radialWeight b) (Icc (-1) 1) := hc.integrableOn_Icc
    have h := (hi.mono_set Ioo_subset_Icc_self).lintegral_lt_top
    exact h.ne

/-- The loop ends with probability one, and its number has the density `√(1-s²) e^{s/b}`. -/
theorem radius_law (b : ℝ) (hb : 0 < b) :
    (∀ᵐ ω ∂(Measure.infinitePi fun _ : ℕ => unif4), ∃ k, ω k ∈ attemptOk b)
    ∧ ∀ f : ℝ → ℝ≥0∞, Measurable f → ∫⁻ ω, f (radiusResult b ω) ∂(Measure.infinitePi fun _ : ℕ => unif4)
        = (radialNorm b)⁻¹ * ∫⁻ s in Ioo (-1 : ℝ) 1, ENNReal.ofReal (radialWeight b s) * f s := by
  obtain ⟨c, hc0, hct, hc⟩ := lintegral_accepted b hb
  have hK : unif4 (attemptOk b) = c * radialNorm b := by
    have := hc (fun _ => 1) measurable_const
    simp only [lintegral_const, Measure.restrict_apply MeasurableSet.univ, univ_inter, one_mul, mul_one] at this
    exact this
  obtain ⟨h1, h2⟩ := rejection unif4 (measurableSet_attemptOk b) (by rw [hK]; exact mul_ne_zero hc0 (radialNorm_ne b).1)
  refine ⟨h1.mono fun ω ⟨k, hk⟩ => ⟨k, hk.2⟩, fun f hf => ?_⟩
  have h3 := lintegral_map (μ := Measure.infinitePi fun _ : ℕ => unif4) (hf.comp (measurable_attemptValue b)) (measurable_firstHit (measurableSet_attemptOk b))
  change _ = ∫⁻ ω, f (radiusResult b ω) ∂_ at h3
  rw [← h3, h2, lintegral_smul_measure, smul_eq_mul]
  change _ * ∫⁻ q in attemptOk b, f (attemptValue b q) ∂unif4 = _
  rw [hc f hf, hK, ENNReal.mul_inv (Or.inl hc0) (Or.inl hct), mul_comm c⁻¹, mul_assoc, ← mul_assoc c⁻¹, ENNReal.inv_mul_cancel hc0 hct, one_mul]

end Leonard
