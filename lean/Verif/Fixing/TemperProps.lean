import Verif.Fixing.Temper

/-!
# The distribution of the parallel tempering (C92)

`LandauGaugeFixing::gaugeFixing` runs three copies of the configuration with inverse temperatures `beta1`, `beta2`, `beta3`.  A copy is
changed by a random gauge transformation, accepted with probability `min(1, exp(beta ΔF))` where `F` is the functional to be maximised; so
the weight of a copy is `exp(beta F)`.  The exchanges should keep the weight `exp(beta1 F1 + beta2 F2 + beta3 F3)` of the three copies.
-/

set_option autoImplicit false

namespace Leonard

open Matrix MeasureTheory ProbabilityTheory
open scoped ENNReal

variable {S : Type} {N : ℕ}

/-- A trial for one copy, `LandauGaugeFixing.cpp:136-146`, with the exact exponential. -/
noncomputable def temperTrial (T : Torus S) (threads : Bool) (F : GField S N → ℝ) (ε β : ℝ) (x : SiteDraws S N) (u : ℝ) (U : GField S N) :
    GField S N :=
  (acceptReplica F β (fixTransform T (randomGauge (fun X => some (NormedSpace.exp X)) threads ε fun s => gaugeDrawOf (x s)) U) u ⟨U, F U⟩).conf

/-- An exchange of two copies, `LandauGaugeFixing.cpp:188-198` and `200-210`, `MaximalAbelianGaugeFixing.cpp:96-106` and `108-118`. -/
noncomputable def exchangeCopies (β β' u : ℝ) (a b : Replica S N) : Replica S N × Replica S N :=
  if fixMetropolis (some ((β - β') * (a.value - b.value))) u = true then (b, a) else (a, b)

/-- The weight `exp(β F(a) + β' F(b))` of two copies. -/
noncomputable def copyWeight (β β' : ℝ) (a b : Replica S N) : ℝ≥0∞ := ENNReal.ofReal (Real.exp (β * a.value + β' * b.value))

/-- **C92, steps.** After the trials the second and the third copy, then the first and the second, take part in an exchange. -/
theorem C92_exchanges (T : Torus S) (E : Mat N → Option (Mat N)) (threads : Bool) (F : GField S N → ℝ) (p : TemperPars) (d : TemperDraw S N)
    (x : Tempering S N) : ∃ a b c : Replica S N,
      a = acceptReplica F p.β1 (fixTransform T (randomGauge E threads p.ε1 d.g1) x.r1.conf) d.u1 x.r1 ∧
      b = acceptReplica F p.β2 (fixTransform T (randomGauge E threads p.ε2 d.g2) x.r2.conf) d.u2 x.r2 ∧
      c = acceptReplica F p.β3 (fixTransform T (randomGauge E threads p.ε3 d.g3) x.r3.conf) d.u3 x.r3 ∧
      (temperStep T E threads F p d x).r3 = (exchangeCopies p.β2 p.β3 d.u4 b c).2 ∧
      ((temperStep T E threads F p d x).r1, (temperStep T E threads F p d x).r2) =
        exchangeCopies p.β1 p.β2 d.u5 a (exchangeCopies p.β2 p.β3 d.u4 b c).1 :=
  ⟨_, _, _, rfl, rfl, rfl, rfl, rfl⟩

/-- **C92, trials.** The trial of a copy leaves the distribution with density `exp(β F)` with respect to the invariant measure of the links
unchanged: for every function of the links its average after the trial is its average before.  For every lattice, number of colours, width
of the proposals, with or without threads, and every functional; the part missing is that `metropolis` never accepts a change with
`β ΔF < -50`: it is assumed that there are none. -/
theorem C92_trial_partial [Fintype S] (T : Torus S) (haar : Measure (SU N)) [haar.IsHaarMeasure] (threads : Bool) (ε β : ℝ)
    (F : GField S N → ℝ) (hF : Measurable fun Q : LinkSU S N => F (linkMat Q))
    (h50 : ∀ Q Q' : LinkSU S N, -50 ≤ β * (F (linkMat Q') - F (linkMat Q)))
    (f : GField S N → ℝ≥0∞) (hf : Measurable fun Q : LinkSU S N => f (linkMat Q)) :
    ∫⁻ Q, (∫⁻ x, (∫⁻ u in Set.Ico (0 : ℝ) 1, f (temperTrial T threads F ε β x u (linkMat Q))) ∂gaussianSites S N) *
        ENNReal.ofReal (Real.exp (β * F (linkMat Q))) ∂linkMeasure S haar =
      ∫⁻ Q, f (linkMat Q) * ENNReal.ofReal (Real.exp (β * F (linkMat Q))) ∂linkMeasure S haar := by
  let G : LinkSU S N × SiteDraws S N → LinkSU S N := fun z => gaugeLinks T (drawGauge threads ε z.2) z.1
  let R : LinkSU S N × SiteDraws S N → LinkSU S N × SiteDraws S N := fun z => (G z, -z.2)
  have hR : MeasurePreserving R _ _ := gauge_involution T haar threads ε
  have hRR : ∀ z, R (R z) = z := by
    intro z
    refine Prod.ext ?_ (neg_neg _)
    funext s μ
    change drawGauge threads ε (-z.2) s * (drawGauge threads ε z.2 s * z.1 s μ * (drawGauge threads ε z.2 (T.sup μ s))⁻¹) *
      (drawGauge threads ε (-z.2) (T.sup μ s))⁻¹ = z.1 s μ
    rw [drawGauge_neg, drawGauge_neg]
    group
  let H : LinkSU S N × SiteDraws S N → ℝ := fun z => -(β * F (linkMat z.1))
  have hH : Measurable H := ((hF.const_mul β).neg).comp measurable_fst
  have hst := metropolis_stationary _ R hR hRR H hH (fun z => f (linkMat z.1)) (hf.comp measurable_fst)
  have hGm : Measurable G := measurable_fst.comp hR.measurable
  have hint : ∀ Q x, ∫⁻ u in Set.Ico (0 : ℝ) 1, f (temperTrial T threads F ε β x u (linkMat Q)) =
      ENNReal.ofReal (min 1 (Real.exp (-(H (R (Q, x)) - H (Q, x))))) * f (linkMat (R (Q, x)).1) +
        (1 - ENNReal.ofReal (min 1 (Real.exp (-(H (R (Q, x)) - H (Q, x)))))) * f (linkMat Q) := by
    intro Q x
    have e : ∀ u, f (temperTrial T threads F ε β x u (linkMat Q)) =
        if fixMetropolis (some (β * (F (linkMat (G (Q, x))) - F (linkMat Q)))) u = true then f (linkMat (G (Q, x))) else f (linkMat Q) := by
      intro u
      unfold temperTrial
      rw [fixTransform_links]
      simp only [acceptReplica]
      change f (Replica.conf (if fixMetropolis (some (β * (F (linkMat (G (Q, x))) - F (linkMat Q)))) u = true then _ else _)) = _
      split_ifs <;> rfl
    simp_rw [e]
    rw [fixMetropolis_integral]
    have : fixProb (β * (F (linkMat (G (Q, x))) - F (linkMat Q))) = min 1 (Real.exp (-(H (R (Q, x)) - H (Q, x)))) := by
      rw [fixProb, if_neg (not_lt.mpr (h50 Q (G (Q, x))))]
      congr 2
      change _ = -(-(β * F (linkMat (G (Q, x)))) - -(β * F (linkMat Q)))
      ring
    rw [this]
  have hw : ∀ z : LinkSU S N × SiteDraws S N, ENNReal.ofReal (Real.exp (-H z)) = ENNReal.ofReal (Real.exp (β * F (linkMat z.1))) := by
    intro z
    change ENNReal.ofReal (Real.exp (-(-(β * F (linkMat z.1))))) = _
    rw [neg_neg]
  have hAm : Measurable fun z => ENNReal.ofReal (min 1 (Real.exp (-(H (R z) - H z)))) :=
    (measurable_const.min (Real.measurable_exp.comp ((hH.comp hR.measurable).sub hH).neg)).ennreal_ofReal
  have hKm : Measurable fun z : LinkSU S N × SiteDraws S N => ENNReal.ofReal (min 1 (Real.exp (-(H (R z) - H z)))) * f (linkMat (R z).1) +
      (1 - ENNReal.ofReal (min 1 (Real.exp (-(H (R z) - H z))))) * f (linkMat z.1) :=
    (hAm.mul (hf.comp hGm)).add ((measurable_const.sub hAm).mul (hf.comp measurable_fst))
  have hwm : Measurable fun z : LinkSU S N × SiteDraws S N => ENNReal.ofReal (Real.exp (β * F (linkMat z.1))) :=
    (Real.measurable_exp.comp ((hF.comp measurable_fst).const_mul β)).ennreal_ofReal
  simp only [hw] at hst
  have hl := lintegral_prod (μ := linkMeasure S haar) (ν := gaussianSites S N) _ (hKm.mul hwm).aemeasurable
  have hr := lintegral_prod (μ := linkMeasure S haar) (ν := gaussianSites S N) _ ((hf.comp measurable_fst).mul hwm).aemeasurable
  replace hst := hl.symm.trans (hst.trans hr)
  simp only [Pi.mul_apply, Function.comp_apply] at hst
  simp only [lintegral_const, measure_univ, mul_one] at hst
  rw [← hst]
  refine lintegral_congr fun Q => ?_
  simp only [hint]
  exact (lintegral_mul_const _ (hKm.comp measurable_prodMk_left)).symm

theorem exchange_integral (β β' : ℝ) (a b : Replica S N) (g : Replica S N × Replica S N → ℝ≥0∞) :
    ∫⁻ u in Set.Ico (0 : ℝ) 1, g (exchangeCopies β β' u a b) =
      ENNReal.ofReal (fixProb ((β - β') * (a.value - b.value))) * g (b, a) +
        (1 - ENNReal.ofReal (fixProb ((β - β') * (a.value - b.value)))) * g (a, b) := by
  rw [← fixMetropolis_integral]
  refine lintegral_congr fun u => ?_
  unfold exchangeCopies
  rw [apply_ite g]

/-- **C92, exchanges.** An exchange does not keep the weight `exp(β F(a) + β' F(b))` of two copies: whenever the inverse temperatures differ
and the values of the functional differ, the weight of the pair after the exchange is not what it was before.  (An exchange only turns the
pair `(a, b)` into `(b, a)` and back, so these two states are all that matters.) -/
theorem C92_exchange_counterexample (β β' : ℝ) (a b : Replica S N) (hβ : β ≠ β') (hab : a.value ≠ b.value) :
    ∃ g : Replica S N × Replica S N → ℝ≥0∞,
      (∫⁻ u in Set.Ico (0 : ℝ) 1, g (exchangeCopies β β' u a b)) * copyWeight β β' a b +
          (∫⁻ u in Set.Ico (0 : ℝ) 1, g (exchangeCopies β β' u b a)) * copyWeight β β' b a ≠
        g (a, b) * copyWeight β β' a b + g (b, a) * copyWeight β β' b a := by
  classical
  have hne : (b, a) ≠ (a, b) := fun h => hab (congrArg (fun q : Replica S N × Replica S N => q.2.value) h)
  obtain ⟨g, hg1, hg0⟩ : ∃ g : Replica S N × Replica S N → ℝ≥0∞, g (a, b) = 1 ∧ g (b, a) = 0 :=
    ⟨fun q => if q = (a, b) then 1 else 0, if_pos rfl, if_neg hne⟩
  refine ⟨g, ?_⟩
  rw [exchange_integral, exchange_integral, hg1, hg0]
  simp only [mul_zero, mul_one, zero_add, add_zero, one_mul, zero_mul]
  have hδ : (β - β') * (b.value - a.value) = -((β - β') * (a.value - b.value)) := by ring
  rw [hδ]
  have hw : β * a.value + β' * b.value = (β * b.value + β' * a.value) + (β - β') * (a.value - b.value) := by ring
  have hne0 : (β - β') * (a.value - b.value) ≠ 0 := mul_ne_zero (sub_ne_zero.mpr hβ) (sub_ne_zero.mpr hab)
  have hP1 : ∀ d : ℝ, 0 ≤ d → ENNReal.ofReal (fixProb d) = 1 := by
    intro d hd
    rw [fixProb, if_neg (by linarith), min_eq_left (Real.one_le_exp hd), ENNReal.ofReal_one]
  have hPle : ∀ d : ℝ, ENNReal.ofReal (fixProb d) ≤ 1 := by
    intro d
    rw [ENNReal.ofReal_le_one, fixProb]
    split_ifs
    · exact zero_le_one
    · exact min_le_left _ _
  rcases lt_or_gt_of_ne hne0 with h | h
  · rw [hP1 (-_) (by linarith), one_mul]
    refine ne_of_gt (lt_of_lt_of_le ?_ (self_le_add_left _ _))
    unfold copyWeight
    exact (ENNReal.ofReal_lt_ofReal_iff (Real.exp_pos _)).mpr (Real.exp_lt_exp.mpr (by linarith))
  · rw [hP1 _ h.le, tsub_self, zero_mul, zero_add]
    refine ne_of_lt (lt_of_le_of_lt (mul_le_of_le_one_left (zero_le) (hPle _)) ?_)
    unfold copyWeight
    exact (ENNReal.ofReal_lt_ofReal_iff (Real.exp_pos _)).mpr (Real.exp_lt_exp.mpr (by linarith))

/-- **C92, what the exchanges keep.** The weight kept by an exchange is the one with the two inverse temperatures interchanged, `exp(β' F(a) +
β F(b))`, if the exponent is not beyond the cut at 50. -/
theorem C92_exchange_opposite (β β' : ℝ) (a b : Replica S N) (h50 : |(β - β') * (a.value - b.value)| ≤ 50)
    (g : Replica S N × Replica S N → ℝ≥0∞) :
    (∫⁻ u in Set.Ico (0 : ℝ) 1, g (exchangeCopies β β' u a b)) * copyWeight β' β a b +
        (∫⁻ u in Set.Ico (0 : ℝ) 1, g (exchangeCopies β β' u b a)) * copyWeight β' β b a =
      g (a, b) * copyWeight β' β a b + g (b, a) * copyWeight β' β b a := by
  rw [exchange_integral, exchange_integral]
  have hδ : (β - β') * (b.value - a.value) = -((β - β') * (a.value - b.value)) := by ring
  have hw : β' * b.value + β * a.value = (β' * a.value + β * b.value) + (β - β') * (a.value - b.value) := by ring
  rw [hδ]
  unfold copyWeight
  rw [hw]
  generalize (β - β') * (a.value - b.value) = d at h50
  generalize β' * a.value + β * b.value = e
  obtain ⟨h1, h2⟩ := abs_le.mp h50
  have hp : fixProb d = min 1 (Real.exp d) := by rw [fixProb, if_neg (by linarith)]
  have hp' : fixProb (-d) = min 1 (Real.exp (-d)) := by rw [fixProb, if_neg (by linarith)]
  have hbal : ENNReal.ofReal (fixProb (-d)) * ENNReal.ofReal (Real.exp (e + d)) = ENNReal.ofReal (fixProb d) * ENNReal.ofReal (Real.exp e) := by
    rw [hp, hp', ← ENNReal.ofReal_mul (le_min zero_le_one (Real.exp_pos _).le), ← ENNReal.ofReal_mul (le_min zero_le_one (Real.exp_pos _).le),
      min_mul_of_nonneg _ _ (Real.exp_pos _).le, min_mul_of_nonneg _ _ (Real.exp_pos _).le, ← Real.exp_add, ← Real.exp_add, one_mul, one_mul,
      min_comm]
    congr 3 <;> ring
  have hP : ENNReal.ofReal (fixProb d) ≤ 1 := by rw [ENNReal.ofReal_le_one, hp]; exact min_le_left _ _
  have hP' : ENNReal.ofReal (fixProb (-d)) ≤ 1 := by rw [ENNReal.ofReal_le_one, hp']; exact min_le_left _ _
  generalize ENNReal.ofReal (fixProb d) = P at *
  generalize ENNReal.ofReal (fixProb (-d)) = P' at *
  generalize ENNReal.ofReal (Real.exp e) = w at *
  generalize ENNReal.ofReal (Real.exp (e + d)) = w' at *
  calc (P * g (b, a) + (1 - P) * g (a, b)) * w + (P' * g (a, b) + (1 - P') * g (b, a)) * w'
      = g (b, a) * (P * w) + (1 - P) * g (a, b) * w + (g (a, b) * (P' * w') + (1 - P') * g (b, a) * w') := by ring
    _ = g (b, a) * (P' * w') + (1 - P) * g (a, b) * w + (g (a, b) * (P * w) + (1 - P') * g (b, a) * w') := by rw [hbal]
    _ = (P + (1 - P)) * (g (a, b) * w) + (P' + (1 - P')) * (g (b, a) * w') := by ring
    _ = g (a, b) * w + g (b, a) * w' := by rw [add_tsub_cancel_of_le hP, add_tsub_cancel_of_le hP', one_mul, one_mul]

/-- **C92, direction of the exchanges.** If the copy with the larger inverse temperature has the larger value of the functional, as it should
have, the copies are exchanged for every random number; if it is the other way round by more than `50 / (β - β')`, they never are. -/
theorem C92_direction_counterexample (β β' u : ℝ) (hβ : β' < β) (a b : Replica S N) :
    (b.value ≤ a.value → exchangeCopies β β' u a b = (b, a)) ∧
      (50 / (β - β') < b.value - a.value → exchangeCopies β β' u a b = (a, b)) := by
  have h0 : 0 < β - β' := sub_pos.mpr hβ
  constructor
  · intro h
    have hd : 0 ≤ (β - β') * (a.value - b.value) := mul_nonneg h0.le (by linarith)
    unfold exchangeCopies fixMetropolis
    simp only [if_neg (show ¬ (β - β') * (a.value - b.value) < -50 by linarith), if_pos hd, if_true]
  · intro h
    rw [div_lt_iff₀ h0] at h
    have hd : (β - β') * (a.value - b.value) < -50 := by linarith [mul_comm (b.value - a.value) (β - β')]
    unfold exchangeCopies fixMetropolis
    simp only [if_pos hd, Bool.false_eq_true, if_false]

/-! ### Examples -/

theorem landau_abs_le [Fintype S] (Q : LinkSU S N) : |landauFunctional (linkMat Q)| ≤ Fintype.card S * (4 * N) := by
  unfold landauFunctional
  refine (Finset.abs_sum_le_sum_abs _ _).trans ?_
  have h1 : ∀ s μ, |(trace (linkMat Q s μ)).re| ≤ N := by
    intro s μ
    refine (Complex.abs_re_le_norm _).trans ?_
    unfold Matrix.trace
    refine (norm_sum_le _ _).trans ?_
    refine (Finset.sum_le_sum fun i _ => entry_norm_bound_of_unitary (mem_specialUnitaryGroup_iff.mp (Q s μ).2).1 i i).trans ?_
    simp
  have h2 : ∀ s, |∑ μ, (trace (linkMat Q s μ)).re| ≤ 4 * N := by
    intro s
    refine (Finset.abs_sum_le_sum_abs _ _).trans ((Finset.sum_le_sum fun μ _ => h1 s μ).trans ?_)
    simp
  refine (Finset.sum_le_sum fun s _ => h2 s).trans ?_
  simp

/-- The hypotheses of `C92_trial_partial` hold for the functional of the Landau gauge and every `β` with `|β| 8 N V ≤ 50`. -/
example [Fintype S] (T : Torus S) (threads : Bool) (ε β : ℝ) (hβ : |β| * (Fintype.card S * (8 * N)) ≤ 50) (f : GField S N → ℝ≥0∞)
    (hf : Measurable fun Q : LinkSU S N => f (linkMat Q)) :
    ∫⁻ Q, (∫⁻ x, (∫⁻ u in Set.Ico (0 : ℝ) 1, f (temperTrial T threads landauFunctional ε β x u (linkMat Q))) ∂gaussianSites S N) *
        ENNReal.ofReal (Real.exp (β * landauFunctional (linkMat Q))) ∂linkMeasure S Measure.haar =
      ∫⁻ Q, f (linkMat Q) * ENNReal.ofReal (Real.exp (β * landauFunctional (linkMat Q))) ∂linkMeasure S Measure.haar := by
  refine C92_trial_partial T Measure.haar threads ε β landauFunctional ?_ ?_ f hf
  · unfold landauFunctional Matrix.trace
    refine Finset.measurable_fun_sum _ fun s _ => Finset.measurable_fun_sum _ fun μ _ => Complex.measurable_re.comp ?_
    refine Finset.measurable_fun_sum _ fun i _ => ?_
    have hc : Continuous fun g : SU N => g.1 i i := (continuous_apply i).comp ((continuous_apply i).comp continuous_subtype_val)
    exact hc.measurable.comp ((measurable_pi_apply μ).comp (measurable_pi_apply s))
  · intro Q Q'
    have h1 := abs_le.mp (landau_abs_le Q)
    have h2 := abs_le.mp (landau_abs_le Q')
    have h3 : |landauFunctional (linkMat Q') - landauFunctional (linkMat Q)| ≤ Fintype.card S * (8 * N) := abs_le.mpr ⟨by linarith, by linarith⟩
    have h4 := mul_le_mul_of_nonneg_left h3 (abs_nonneg β)
    rw [← abs_mul] at h4
    have h5 := neg_abs_le (β * (landauFunctional (linkMat Q') - landauFunctional (linkMat Q)))
    linarith

/-- Two copies on which `C92_exchange_counterexample` applies. -/
example : (2 : ℝ) ≠ 1 ∧ (⟨fun _ _ => 1, 8⟩ : Replica Unit 2).value ≠ (⟨fun _ _ => -1, -8⟩ : Replica Unit 2).value :=
  ⟨by norm_num, by norm_num⟩

/-- The bound of `C92_exchange_opposite` for the same copies. -/
example : |((2 : ℝ) - 1) * ((⟨fun _ _ => 1, 8⟩ : Replica Unit 2).value - (⟨fun _ _ => -1, -8⟩ : Replica Unit 2).value)| ≤ 50 := by
  norm_num

end Leonard
