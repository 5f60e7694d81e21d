import Verif.Smear.Model
import Verif.Gauge.ExpMapProps

/-!
# C27 Stout smearing, C28 Wilson flow
-/

set_option autoImplicit false

namespace Leonard

open Matrix ComplexConjugate

variable {S : Type} {N : ℕ}

/-! ### Staples and forces transform -/

section cov
variable (T : Torus S) (U : GField S N) (ω : S → Mat N) (hω : ∀ s, ω s ∈ unitaryGroup (Fin N) ℂ)
include hω

theorem om1 (s : S) : (ω s)ᴴ * ω s = 1 := mem_unitaryGroup_iff'.1 (hω s)
theorem om2 (s : S) : ω s * (ω s)ᴴ = 1 := mem_unitaryGroup_iff.1 (hω s)

theorem stapleUp_gauge (s : S) (μ ν : Fin 4) :
    stapleUp T (gaugeTransform T ω U) s μ ν = ω (T.sup μ s) * stapleUp T U s μ ν * (ω s)ᴴ := by
  have h : ∀ V : GField S N, stapleUp T V s μ ν = holo T V (T.sup μ s) [(ν, true), (μ, false), (ν, false)] := by
    intro V; simp [stapleUp, sdn_sup_comm, Matrix.mul_assoc]
  rw [h, h, holo_gauge T U ω (om1 ω hω) (om2 ω hω)]
  congr 3
  change T.sdn ν (T.sdn μ (T.sup ν (T.sup μ s))) = s
  rw [T.sdn_eq_iff, T.sdn_eq_iff, T.comm]

theorem stapleDown_gauge (s : S) (μ ν : Fin 4) :
    stapleDown T (gaugeTransform T ω U) s μ ν = ω (T.sup μ s) * stapleDown T U s μ ν * (ω s)ᴴ := by
  have h : ∀ V : GField S N, stapleDown T V s μ ν = holo T V (T.sup μ s) [(ν, false), (μ, false), (ν, true)] := by
    intro V; simp [stapleDown, sdn_sup_comm, Matrix.mul_assoc, T.sdn_comm]
  rw [h, h, holo_gauge T U ω (om1 ω hω) (om2 ω hω)]
  congr 3
  change T.sup ν (T.sdn μ (T.sdn ν (T.sup μ s))) = s
  rw [T.sdn_comm μ ν, T.sup_sdn, T.sdn_sup]

theorem rectStaple_gauge (s : S) (μ ν : Fin 4) :
    rectStaple T (gaugeTransform T ω U) s μ ν = ω (T.sup μ s) * rectStaple T U s μ ν * (ω s)ᴴ := by
  rw [rectStaple_eq, rectStaple_eq]
  unfold rectLong rectShort
  simp only [holo_gauge T U ω (om1 ω hω) (om2 ω hω)]
  have e : ∀ p : List Hop, T.walk p (T.sup μ s) = s →
      ω (T.sup μ s) * holo T U (T.sup μ s) p * (ω (T.walk p (T.sup μ s)))ᴴ
        = ω (T.sup μ s) * holo T U (T.sup μ s) p * (ω s)ᴴ := by
    intro p hp; rw [hp]
  rw [e _ ?_, e _ ?_, e _ ?_, e _ ?_, e _ ?_, e _ ?_]
  · simp only [Matrix.mul_add, Matrix.add_mul]
  · change T.sup ν (T.sup ν (T.sdn μ (T.sdn ν (T.sdn ν (T.sup μ s))))) = s
    rw [T.sdn_comm μ ν, T.sup_sdn, T.sdn_comm μ ν, T.sup_sdn, T.sdn_sup]
  · change T.sdn ν (T.sdn ν (T.sdn μ (T.sup ν (T.sup ν (T.sup μ s))))) = s
    rw [T.sdn_eq_iff, T.sdn_eq_iff, T.sdn_eq_iff, T.comm ν μ, T.comm ν μ]
  · change T.sup μ (T.sup ν (T.sdn μ (T.sdn μ (T.sdn ν (T.sup μ s))))) = s
    rw [T.sdn_comm μ ν, T.sdn_comm μ ν, T.sup_sdn, T.sdn_sup, T.sup_sdn]
  · change T.sup ν (T.sdn μ (T.sdn μ (T.sdn ν (T.sup μ (T.sup μ s))))) = s
    rw [T.sdn_comm μ ν, T.sdn_comm μ ν, T.sup_sdn, T.sdn_sup, T.sdn_sup]
  · change T.sup μ (T.sdn ν (T.sdn μ (T.sdn μ (T.sup ν (T.sup μ s))))) = s
    rw [T.sdn_comm ν μ, T.sup_sdn, T.sdn_eq_iff, T.sdn_eq_iff, T.comm]
  · change T.sdn ν (T.sdn μ (T.sdn μ (T.sup ν (T.sup μ (T.sup μ s))))) = s
    rw [T.sdn_eq_iff, T.sdn_eq_iff, T.sdn_eq_iff, T.comm ν μ, T.comm ν μ]

theorem wilsonStaple_gauge (s : S) (μ : Fin 4) :
    wilsonStaple T (gaugeTransform T ω U) s μ = ω (T.sup μ s) * wilsonStaple T U s μ * (ω s)ᴴ := by
  unfold wilsonStaple
  rw [Matrix.mul_sum, Matrix.sum_mul]
  refine Finset.sum_congr rfl fun ν _ => ?_
  split
  · rw [stapleUp_gauge T U ω hω, stapleDown_gauge T U ω hω, Matrix.mul_add, Matrix.add_mul]
  · simp

theorem spatialStaple_gauge (s : S) (μ : Fin 4) :
    spatialStaple T (gaugeTransform T ω U) s μ = ω (T.sup μ s) * spatialStaple T U s μ * (ω s)ᴴ := by
  unfold spatialStaple
  rw [Matrix.mul_sum, Matrix.sum_mul]
  refine Finset.sum_congr rfl fun ν _ => ?_
  split
  · rw [stapleUp_gauge T U ω hω, stapleDown_gauge T U ω hω, Matrix.mul_add, Matrix.add_mul]
  · simp

theorem improvedStaple_gauge (u0 : ℝ) (s : S) (μ : Fin 4) :
    improvedStaple u0 T (gaugeTransform T ω U) s μ = ω (T.sup μ s) * improvedStaple u0 T U s μ * (ω s)ᴴ := by
  unfold improvedStaple
  rw [Matrix.mul_sum, Matrix.sum_mul]
  refine Finset.sum_congr rfl fun ν _ => ?_
  split
  · rw [stapleUp_gauge T U ω hω, stapleDown_gauge T U ω hω, rectStaple_gauge T U ω hω, ← Matrix.add_mul, ← Matrix.mul_add,
      Matrix.mul_sub, Matrix.sub_mul, Matrix.mul_smul, Matrix.smul_mul, Matrix.mul_smul, Matrix.smul_mul]
  · simp

/-- The product of a link with its staple is a closed loop at the site. -/
theorem plaquette_gauge (s : S) (μ : Fin 4) (st : Mat N) :
    gaugeTransform T ω U s μ * (ω (T.sup μ s) * st * (ω s)ᴴ) = ω s * (U s μ * st) * (ω s)ᴴ := by
  unfold gaugeTransform
  calc ω s * U s μ * (ω (T.sup μ s))ᴴ * (ω (T.sup μ s) * st * (ω s)ᴴ)
      = ω s * U s μ * ((ω (T.sup μ s))ᴴ * ω (T.sup μ s)) * st * (ω s)ᴴ := by simp only [Matrix.mul_assoc]
    _ = _ := by rw [om1 ω hω]; simp only [Matrix.mul_one, Matrix.mul_assoc]

theorem trace_conj (s : S) (A : Mat N) : trace (ω s * A * (ω s)ᴴ) = trace A := by
  rw [Matrix.trace_mul_comm, ← Matrix.mul_assoc, om1 ω hω, Matrix.one_mul]

theorem gaugeForce_gauge (β : ℝ) (s : S) (μ : Fin 4) (st : Mat N) :
    gaugeForce β (gaugeTransform T ω U) (ω (T.sup μ s) * st * (ω s)ᴴ) s μ = ω s * gaugeForce β U st s μ * (ω s)ᴴ := by
  unfold gaugeForce
  simp only [plaquette_gauge T U ω hω]
  have e : ∀ c : ℂ, c • ((ω s * (U s μ * st) * (ω s)ᴴ)ᴴ - ω s * (U s μ * st) * (ω s)ᴴ)
      = ω s * (c • ((U s μ * st)ᴴ - U s μ * st)) * (ω s)ᴴ := by
    intro c
    rw [Matrix.mul_smul, Matrix.smul_mul, Matrix.mul_sub, Matrix.sub_mul]
    congr 2
    simp only [conjTranspose_mul, conjTranspose_conjTranspose, Matrix.mul_assoc]
  rw [e, trace_conj ω hω]
  rw [Matrix.mul_sub, Matrix.sub_mul]
  congr 1
  rw [Matrix.mul_smul, Matrix.smul_mul, Matrix.mul_one, om2 ω hω]

theorem stoutGenerator_gauge (ρ : ℝ) (s : S) (μ : Fin 4) (st : Mat N) :
    stoutGenerator ρ (gaugeTransform T ω U s μ) (ω (T.sup μ s) * st * (ω s)ᴴ)
      = ω s * stoutGenerator ρ (U s μ) st * (ω s)ᴴ := by
  unfold stoutGenerator
  have e1 : ∀ V st : Mat N, (ρ : ℂ) • stᴴ * Vᴴ = (ρ : ℂ) • (V * st)ᴴ := by
    intro V st; rw [Matrix.smul_mul, conjTranspose_mul]
  simp only [e1, plaquette_gauge T U ω hω]
  have e : (0.5 : ℂ) • (((ρ : ℂ) • (ω s * (U s μ * st) * (ω s)ᴴ)ᴴ)ᴴ - (ρ : ℂ) • (ω s * (U s μ * st) * (ω s)ᴴ)ᴴ)
      = ω s * ((0.5 : ℂ) • (((ρ : ℂ) • (U s μ * st)ᴴ)ᴴ - (ρ : ℂ) • (U s μ * st)ᴴ)) * (ω s)ᴴ := by
    rw [Matrix.mul_smul, Matrix.smul_mul, Matrix.mul_sub, Matrix.sub_mul]
    congr 2
    · simp only [conjTranspose_smul, conjTranspose_conjTranspose, Matrix.mul_smul, Matrix.smul_mul]
    · rw [Matrix.mul_smul, Matrix.smul_mul]
      congr 1
      simp only [conjTranspose_mul, conjTranspose_conjTranspose, Matrix.mul_assoc]
  rw [e, trace_conj ω hω, Matrix.mul_neg, Matrix.neg_mul, Matrix.mul_sub, Matrix.sub_mul]
  congr 2
  rw [Matrix.mul_smul, Matrix.smul_mul, Matrix.mul_one, om2 ω hω]

end cov

theorem stoutGenerator_lie (hN : 0 < N) (ρ : ℝ) (U st : Mat N) : IsLie (stoutGenerator ρ U st) := by
  unfold stoutGenerator
  have e1 : (ρ : ℂ) • stᴴ * Uᴴ = (ρ : ℂ) • (U * st)ᴴ := by rw [Matrix.smul_mul, conjTranspose_mul]
  simp only [e1]
  set A := (ρ : ℂ) • (U * st)ᴴ
  have hh : star (0.5 : ℂ) = 0.5 := by
    have : (0.5 : ℂ) = ((0.5 : ℝ) : ℂ) := by norm_num
    rw [this, Complex.star_def, Complex.conj_ofReal]
  have hB : ((0.5 : ℂ) • (Aᴴ - A))ᴴ = -((0.5 : ℂ) • (Aᴴ - A)) := by
    rw [conjTranspose_smul, conjTranspose_sub, conjTranspose_conjTranspose, ← smul_neg, neg_sub, hh]
  generalize (0.5 : ℂ) • (Aᴴ - A) = B at *
  have ht : star (trace B) = -trace B := by rw [← trace_conjTranspose, hB, trace_neg]
  have hN' : (N : ℂ) ≠ 0 := by exact_mod_cast hN.ne'
  constructor
  · rw [conjTranspose_neg, conjTranspose_sub, conjTranspose_smul, conjTranspose_one, hB, star_div₀, ht]
    have : star (N : ℂ) = N := by rw [Complex.star_def, Complex.conj_natCast]
    rw [this, neg_div, neg_smul]
    abel
  · rw [trace_neg, trace_sub, trace_smul, trace_one, Fintype.card_fin, smul_eq_mul, div_mul_cancel₀ _ hN', sub_self, neg_zero]

/-! ### The exponentials transform -/

/-- An exponential map commutes with unitary changes of basis of the Lie algebra, including where it fails. -/
def ExpCovariant (E : Mat N → Option (Mat N)) : Prop :=
  ∀ A : Mat N, IsLie A → ∀ ω ∈ unitaryGroup (Fin N) ℂ, E (ω * A * ωᴴ) = (E A).map fun R => ω * R * ωᴴ

/-- The results of an exponential map on the Lie algebra are group elements. -/
def ExpGroup (E : Mat N → Option (Mat N)) : Prop :=
  ∀ A : Mat N, IsLie A → ∀ R, E A = some R → R ∈ specialUnitaryGroup (Fin N) ℂ

theorem exp_conj_unitary (A ω : Mat N) (hω : ω ∈ unitaryGroup (Fin N) ℂ) :
    NormedSpace.exp (ω * A * ωᴴ) = ω * NormedSpace.exp A * ωᴴ := by
  have h1 : ω * ωᴴ = 1 := mem_unitaryGroup_iff.1 hω
  have h2 : ωᴴ * ω = 1 := mem_unitaryGroup_iff'.1 hω
  have hinv : ω⁻¹ = ωᴴ := Matrix.inv_eq_left_inv h2
  rw [← hinv, Matrix.exp_conj ω A ⟨⟨ω, ωᴴ, h1, h2⟩, rfl⟩]

theorem isLie_conj (A ω : Mat N) (hA : IsLie A) (hω : ω ∈ unitaryGroup (Fin N) ℂ) : IsLie (ω * A * ωᴴ) := by
  have h2 : ωᴴ * ω = 1 := mem_unitaryGroup_iff'.1 hω
  constructor
  · simp only [conjTranspose_mul, conjTranspose_conjTranspose, hA.1, Matrix.mul_assoc, Matrix.neg_mul, Matrix.mul_neg]
  · rw [Matrix.trace_mul_comm, ← Matrix.mul_assoc, h2, Matrix.one_mul, hA.2]

theorem conj_ne_zero (A ω : Mat N) (hω : ω ∈ unitaryGroup (Fin N) ℂ) (h0 : A ≠ 0) : ω * A * ωᴴ ≠ 0 := by
  have h2 : ωᴴ * ω = 1 := mem_unitaryGroup_iff'.1 hω
  intro h
  apply h0
  calc A = (ωᴴ * ω) * A * (ωᴴ * ω) := by rw [h2]; simp
    _ = ωᴴ * (ω * A * ωᴴ) * ω := by simp only [Matrix.mul_assoc]
    _ = 0 := by rw [h]; simp

theorem expSu2_covariant : ExpCovariant expSu2 := by
  intro A hA ω hω
  by_cases h : A = 0
  · subst h
    rw [Matrix.mul_zero, Matrix.zero_mul, C26_counterexample_zero.2.1]; rfl
  · rw [C26_two_colours_partial A hA h, C26_two_colours_partial _ (isLie_conj A ω hA hω) (conj_ne_zero A ω hω h),
      exp_conj_unitary A ω hω]
    rfl

theorem expSu2_group : ExpGroup expSu2 := by
  intro A hA R hR
  by_cases h : A = 0
  · subst h; rw [C26_counterexample_zero.2.1] at hR; exact absurd hR (by simp)
  · rw [C26_two_colours_partial A hA h] at hR
    rw [← Option.some.inj hR]; exact exp_mem_su A hA

theorem expSu3_covariant : ExpCovariant expSu3 := by
  intro A _ ω hω
  have h1 : ω * ωᴴ = 1 := mem_unitaryGroup_iff.1 hω
  have h2 : ωᴴ * ω = 1 := mem_unitaryGroup_iff'.1 hω
  have hsq : (ω * A * ωᴴ) * (ω * A * ωᴴ) = ω * (A * A) * ωᴴ := by
    calc _ = ω * A * (ωᴴ * ω) * A * ωᴴ := by simp only [Matrix.mul_assoc]
      _ = _ := by rw [h2]; simp only [Matrix.mul_one, Matrix.mul_assoc]
  have e0 : su3c0 (ω * A * ωᴴ) = su3c0 A := by
    unfold su3c0
    rw [← Matrix.smul_mul, ← Matrix.mul_smul, Matrix.det_mul, Matrix.det_mul, mul_right_comm, ← Matrix.det_mul, h1,
      Matrix.det_one, one_mul]
  have e1 : su3c1 (ω * A * ωᴴ) = su3c1 A := by
    unfold su3c1
    rw [hsq, Matrix.trace_mul_comm, ← Matrix.mul_assoc, h2, Matrix.one_mul]
  have em : su3c0max (ω * A * ωᴴ) = su3c0max A := by unfold su3c0max; rw [e1]
  have et : su3theta (ω * A * ωᴴ) = su3theta A := by unfold su3theta; rw [e0, em]
  have eu : su3u (ω * A * ωᴴ) = su3u A := by unfold su3u; rw [e1, et]
  have ew : su3w (ω * A * ωᴴ) = su3w A := by unfold su3w; rw [e1, et]
  have hlin : ∀ a b c : ℂ, a • (ω * (A * A) * ωᴴ) + b • (ω * A * ωᴴ) + c • (1 : Mat 3)
      = ω * (a • (A * A) + b • A + c • 1) * ωᴴ := by
    intro a b c
    simp only [Matrix.mul_add, Matrix.add_mul, Matrix.mul_smul, Matrix.smul_mul, Matrix.mul_one, h1]
  unfold expSu3
  simp only [e0, e1, em, eu, ew, hsq, hlin]
  by_cases hneg : su3c0 A < 0
  · simp only [if_pos hneg]
    split <;> rfl
  · simp only [if_neg hneg]
    split <;> rfl

/-- The exact exponential, for the other numbers of colours. -/
theorem exp_covariant_group : ExpCovariant (fun A : Mat N => some (NormedSpace.exp A))
    ∧ ExpGroup (fun A : Mat N => some (NormedSpace.exp A)) := by
  refine ⟨fun A _ ω hω => ?_, fun A hA R hR => ?_⟩
  · simp only [exp_conj_unitary A ω hω, Option.map_some]
  · rw [← Option.some.inj hR]; exact exp_mem_su A hA

/-! ## C27 Stout smearing -/

theorem collectLinks_map (f g : S → Fin 4 → Option (Mat N)) (h : S → Fin 4 → Mat N → Mat N)
    (hfg : ∀ s μ, g s μ = (f s μ).map (h s μ)) :
    collectLinks g = (collectLinks f).map fun U s μ => h s μ (U s μ) := by
  have : g = fun s μ => (f s μ).map (h s μ) := funext fun s => funext fun μ => hfg s μ
  subst this
  unfold collectLinks
  by_cases hf : ∀ s μ, (f s μ).isSome
  · rw [dif_pos hf, dif_pos (by simpa using hf)]
    simp only [Option.map_some]
    congr 1
    funext s μ
    simp
  · rw [dif_neg hf, dif_neg (by simpa using hf)]; rfl

theorem collectLinks_some {f : S → Fin 4 → Option (Mat N)} {U : GField S N} (h : collectLinks f = some U) (s : S) (μ : Fin 4) :
    f s μ = some (U s μ) := by
  unfold collectLinks at h
  split at h
  · rw [← Option.some.inj h]; simp
  · exact absurd h (by simp)

theorem smearLink_gauge (hN : 0 < N) (E : Mat N → Option (Mat N)) (hE : ExpCovariant E) (T : Torus S) (ρ : ℝ) (U : GField S N)
    (ω : S → Mat N) (hω : ∀ s, ω s ∈ unitaryGroup (Fin N) ℂ) (s : S) (μ : Fin 4) :
    smearLink E T ρ (gaugeTransform T ω U) s μ = (smearLink E T ρ U s μ).map fun R => ω s * R * (ω (T.sup μ s))ᴴ := by
  unfold smearLink
  rw [wilsonStaple_gauge T U ω hω, stoutGenerator_gauge T U ω hω, hE _ (stoutGenerator_lie hN ρ _ _) _ (hω s), Option.map_map,
    Option.map_map]
  congr 1
  funext R
  simp only [Function.comp, gaugeTransform]
  calc ω s * R * (ω s)ᴴ * (ω s * U s μ * (ω (T.sup μ s))ᴴ)
      = ω s * R * ((ω s)ᴴ * ω s) * U s μ * (ω (T.sup μ s))ᴴ := by simp only [Matrix.mul_assoc]
    _ = _ := by rw [om1 ω hω]; simp only [Matrix.mul_one, Matrix.mul_assoc]

theorem spatialSmearLink_gauge (hN : 0 < N) (E : Mat N → Option (Mat N)) (hE : ExpCovariant E) (T : Torus S) (ρ : ℝ)
    (U : GField S N) (ω : S → Mat N) (hω : ∀ s, ω s ∈ unitaryGroup (Fin N) ℂ) (s : S) (μ : Fin 4) :
    spatialSmearLink E T ρ (gaugeTransform T ω U) s μ
      = (spatialSmearLink E T ρ U s μ).map fun R => ω s * R * (ω (T.sup μ s))ᴴ := by
  unfold spatialSmearLink
  split
  · rw [spatialStaple_gauge T U ω hω, stoutGenerator_gauge T U ω hω, hE _ (stoutGenerator_lie hN ρ _ _) _ (hω s),
      Option.map_map, Option.map_map]
    congr 1
    funext R
    simp only [Function.comp, gaugeTransform]
    calc ω s * R * (ω s)ᴴ * (ω s * U s μ * (ω (T.sup μ s))ᴴ)
        = ω s * R * ((ω s)ᴴ * ω s) * U s μ * (ω (T.sup μ s))ᴴ := by simp only [Matrix.mul_assoc]
      _ = _ := by rw [om1 ω hω]; simp only [Matrix.mul_one, Matrix.mul_assoc]
  · rfl

/-- **C27**, gauge covariance: smearing the transformed configuration is transforming the smeared one, for any number of levels
and any weight, for full and for spatial smearing; and one fails exactly when the other fails. The exponential map is any
covariant one; those of the program are covariant (`C27_exponentials`). -/
theorem C27_covariant (hN : 0 < N) (E : Mat N → Option (Mat N)) (hE : ExpCovariant E) (T : Torus S) (ρ : ℝ) (levels : ℕ)
    (U : GField S N) (ω : S → Mat N) (hω : ∀ s, ω s ∈ unitaryGroup (Fin N) ℂ) :
    smearingLevels E T ρ levels (gaugeTransform T ω U) = (smearingLevels E T ρ levels U).map (gaugeTransform T ω)
    ∧ spatialSmearing E T ρ levels (gaugeTransform T ω U) = (spatialSmearing E T ρ levels U).map (gaugeTransform T ω) := by
  constructor
  · induction levels generalizing U with
    | zero => rfl
    | succ n ih =>
      unfold smearingLevels smearing
      rw [collectLinks_map _ _ _ (smearLink_gauge hN E hE T ρ U ω hω)]
      cases h : collectLinks (smearLink E T ρ U) with
      | none => rfl
      | some V => exact ih V
  · induction levels generalizing U with
    | zero => rfl
    | succ n ih =>
      unfold spatialSmearing
      rw [collectLinks_map _ _ _ (spatialSmearLink_gauge hN E hE T ρ U ω hω)]
      cases h : collectLinks (spatialSmearLink E T ρ U) with
      | none => rfl
      | some V => exact ih V

/-- The exponential maps of the program are covariant, and group-valued for all numbers of colours but three, for which the
result is within `10^-17` of a group element (`C26_three_colours_partial`). -/
theorem C27_exponentials : ExpCovariant expSu2 ∧ ExpGroup expSu2 ∧ ExpCovariant expSu3
    ∧ (∀ N, ExpCovariant (fun A : Mat N => some (NormedSpace.exp A))
      ∧ ExpGroup (fun A : Mat N => some (NormedSpace.exp A)))
    ∧ (∀ A : Mat 3, IsLie A → ∀ R, expSu3 A = some R → ∃ G ∈ specialUnitaryGroup (Fin 3) ℂ, ∀ i j, ‖R i j - G i j‖ ≤ 1e-17) := by
  refine ⟨expSu2_covariant, expSu2_group, expSu3_covariant, fun N => exp_covariant_group, fun A hA R hR => ?_⟩
  by_cases h : A = 0
  · subst h; rw [C26_counterexample_zero.2.2.2.1] at hR; exact absurd hR (by simp)
  · obtain ⟨R', h1, _, h3⟩ := C26_three_colours_partial A hA h
    rw [h1] at hR
    rw [← Option.some.inj hR]
    exact ⟨_, exp_mem_su A hA, h3⟩

/-- **C27**, group: whenever smearing gives a configuration, its links are special unitary, for any number of levels, with a
group-valued exponential. What is missing: smearing fails on configurations with a vanishing generator
(`C27_counterexample_cold`). -/
theorem C27_group_partial (hN : 0 < N) (E : Mat N → Option (Mat N)) (hE : ExpGroup E) (T : Torus S) (ρ : ℝ) (levels : ℕ)
    (U V : GField S N) (hU : ∀ s μ, U s μ ∈ specialUnitaryGroup (Fin N) ℂ)
    (h : smearingLevels E T ρ levels U = some V ∨ spatialSmearing E T ρ levels U = some V) :
    ∀ s μ, V s μ ∈ specialUnitaryGroup (Fin N) ℂ := by
  rcases h with h | h
  · induction levels generalizing U with
    | zero => rw [← Option.some.inj h]; exact hU
    | succ n ih =>
      unfold smearingLevels at h
      rw [Option.bind_eq_some_iff] at h
      obtain ⟨W, hW, h⟩ := h
      refine ih W (fun s μ => ?_) h
      have := collectLinks_some hW s μ
      unfold smearLink at this
      rw [Option.map_eq_some_iff] at this
      obtain ⟨R, hR, hRW⟩ := this
      rw [← hRW]
      exact mul_mem (hE _ (stoutGenerator_lie hN ρ _ _) R hR) (hU s μ)
  · induction levels generalizing U with
    | zero => rw [← Option.some.inj h]; exact hU
    | succ n ih =>
      unfold spatialSmearing at h
      rw [Option.bind_eq_some_iff] at h
      obtain ⟨W, hW, h⟩ := h
      refine ih W (fun s μ => ?_) h
      have := collectLinks_some hW s μ
      unfold spatialSmearLink at this
      split at this
      · rw [Option.map_eq_some_iff] at this
        obtain ⟨R, hR, hRW⟩ := this
        rw [← hRW]
        exact mul_mem (hE _ (stoutGenerator_lie hN ρ _ _) R hR) (hU s μ)
      · rw [← Option.some.inj this]; exact hU s μ

/-- Smearing with the general exponential never fails, on any lattice and for any configuration. -/
example (T : Torus S) (ρ : ℝ) (U : GField S 4) :
    ∃ V, smearingLevels (fun A : Mat 4 => some (NormedSpace.exp A)) T ρ 1 U = some V := by
  unfold smearingLevels smearing collectLinks
  rw [dif_pos (fun s μ => by simp [smearLink])]
  exact ⟨_, rfl⟩

/-- A gauge transformation that is not the identity. -/
example : (Matrix.diagonal fun _ : Fin 2 => Complex.I : Mat 2) ∈ unitaryGroup (Fin 2) ℂ := by
  rw [mem_unitaryGroup_iff]; ext i j; fin_cases i <;> fin_cases j <;> simp [star_eq_conjTranspose]

/-- **C27**, spatial smearing leaves the time links as they are. -/
theorem C27_spatial_time_links (E : Mat N → Option (Mat N)) (T : Torus S) (ρ : ℝ) (levels : ℕ)
    (U V : GField S N) (h : spatialSmearing E T ρ levels U = some V) (s : S) : V s 3 = U s 3 := by
  induction levels generalizing U with
  | zero => rw [← Option.some.inj h]
  | succ n ih =>
    unfold spatialSmearing at h
    rw [Option.bind_eq_some_iff] at h
    obtain ⟨W, hW, h⟩ := h
    rw [ih W h]
    have := collectLinks_some hW s 3
    unfold spatialSmearLink at this
    rw [if_neg (by decide)] at this
    exact (Option.some.inj this).symm

/-- **C27 fails on the cold configuration**: with all links equal to the identity, smearing with two or three colours gives links
that are not numbers instead of the identity, for every weight. -/
theorem C27_counterexample_cold [Nonempty S] (T : Torus S) (ρ : ℝ) :
    smearing expSu2 T ρ (fun _ _ => 1) = none ∧ smearing expSu3 T ρ (fun _ _ => 1) = none := by
  have h : ∀ (N : ℕ), 0 < N → ∀ s μ, stoutGenerator ρ (1 : Mat N) (wilsonStaple T (fun _ _ => 1) s μ) = 0 := by
    intro N hN s μ
    have hw : wilsonStaple T (fun _ _ => (1 : Mat N)) s μ = ((∑ ν : Fin 4, if ν ≠ μ then (2 : ℝ) else 0 : ℝ) : ℂ) • 1 := by
      unfold wilsonStaple
      rw [Complex.ofReal_sum, Finset.sum_smul]
      refine Finset.sum_congr rfl fun ν _ => ?_
      split
      · simp only [stapleUp, stapleDown, conjTranspose_one, Matrix.mul_one]
        push_cast
        rw [two_smul]
      · simp
    rw [hw]
    unfold stoutGenerator
    simp
  constructor
  · unfold smearing collectLinks
    rw [dif_neg]
    intro hall
    have := hall (Classical.arbitrary S) 0
    unfold smearLink at this
    rw [h 2 (by norm_num), C26_counterexample_zero.2.1] at this
    simp at this
  · unfold smearing collectLinks
    rw [dif_neg]
    intro hall
    have := hall (Classical.arbitrary S) 0
    unfold smearLink at this
    rw [h 3 (by norm_num), C26_counterexample_zero.2.2.2.1] at this
    simp at this

/-! ## C28 Wilson flow -/

/-- The linear algebra library diagonalises anti-Hermitian matrices with orthonormal eigenvectors. -/
def EigenSolver.Correct (eig : EigenSolver N) : Prop :=
  ∀ A : Mat N, Aᴴ = -A → (eig A).2 ∈ unitaryGroup (Fin N) ℂ ∧ A = (eig A).2 * Matrix.diagonal (eig A).1 * (eig A).2ᴴ

/-- There is such a decomposition. -/
theorem exists_correct_eigenSolver : ∃ eig : EigenSolver N, eig.Correct := by
  classical
  refine ⟨fun A => if h : Aᴴ = -A then
    (fun i => Complex.I * (Classical.choose (Classical.choose_spec (lie_diagonal A h))) i, Classical.choose (lie_diagonal A h))
    else (0, 0), fun A hA => ?_⟩
  simp only [dif_pos hA]
  exact Classical.choose_spec (Classical.choose_spec (lie_diagonal A hA))

theorem flowExponential_eq (eig : EigenSolver N) (he : eig.Correct) (U F : Mat N) (ε : ℝ) (hF : Fᴴ = -F) :
    flowExponential eig U F ε = NormedSpace.exp (ε • F) * U := by
  obtain ⟨h1, h2⟩ := he F hF
  unfold flowExponential mdLinkUpdate
  congr 1
  have hc : ε • F = conjDiag (eig F).2 (fun i => (ε : ℂ) * (eig F).1 i) := by
    conv_lhs => rw [h2]
    change (ε : ℝ) • conjDiag (eig F).2 (eig F).1 = _
    rw [← conjDiag_smul]; rfl
  rw [hc, exp_conjDiag h1]; rfl

/-- The staple is one that transforms like a path from `s+μ` to `s`. -/
def StapleCovariant (T : Torus S) (staple : GField S N → S → Fin 4 → Mat N) : Prop :=
  ∀ U ω, (∀ s, ω s ∈ unitaryGroup (Fin N) ℂ) → ∀ s μ,
    staple (gaugeTransform T ω U) s μ = ω (T.sup μ s) * staple U s μ * (ω s)ᴴ

/-- The links of a field are the links of another, changed site by site: `W = ω V ω†` at the first site only. -/
theorem flowExponential_gauge (eig : EigenSolver N) (he : eig.Correct) (X F ω ω' : Mat N) (ε : ℝ) (hF : Fᴴ = -F)
    (hω : ω ∈ unitaryGroup (Fin N) ℂ) :
    flowExponential eig (ω * X * ω'ᴴ) (ω * F * ωᴴ) ε = ω * flowExponential eig X F ε * ω'ᴴ := by
  have h2 : ωᴴ * ω = 1 := mem_unitaryGroup_iff'.1 hω
  have hF' : (ω * F * ωᴴ)ᴴ = -(ω * F * ωᴴ) := by
    simp only [conjTranspose_mul, conjTranspose_conjTranspose, hF, Matrix.mul_assoc, Matrix.neg_mul, Matrix.mul_neg]
  rw [flowExponential_eq eig he _ _ ε hF', flowExponential_eq eig he _ _ ε hF]
  have e : ε • (ω * F * ωᴴ) = ω * (ε • F) * ωᴴ := by rw [Matrix.mul_smul, Matrix.smul_mul]
  rw [e, exp_conj_unitary _ ω hω]
  calc ω * NormedSpace.exp (ε • F) * ωᴴ * (ω * X * ω'ᴴ)
      = ω * NormedSpace.exp (ε • F) * (ωᴴ * ω) * X * ω'ᴴ := by simp only [Matrix.mul_assoc]
    _ = _ := by rw [h2]; simp only [Matrix.mul_one, Matrix.mul_assoc]

section flow
variable (hN : 0 < N) (eig : EigenSolver N) (he : eig.Correct) (β : ℝ) (staple : GField S N → S → Fin 4 → Mat N)

include hN in
theorem flowForce_lie (U : GField S N) (s : S) (μ : Fin 4) : IsLie (flowForce β staple U s μ) := by
  obtain ⟨h1, h2⟩ := C21_lie_algebra hN β U (staple U s μ) s μ
  unfold flowForce
  exact ⟨by rw [conjTranspose_neg, h1], by rw [trace_neg, h2, neg_zero]⟩

theorem isLie_add {A B : Mat N} (hA : IsLie A) (hB : IsLie B) : IsLie (A + B) :=
  ⟨by rw [conjTranspose_add, hA.1, hB.1]; abel, by rw [trace_add, hA.2, hB.2, add_zero]⟩

theorem isLie_neg {A : Mat N} (hA : IsLie A) : IsLie (-A) :=
  ⟨by rw [conjTranspose_neg, hA.1], by rw [trace_neg, hA.2, neg_zero]⟩

theorem isLie_sub {A B : Mat N} (hA : IsLie A) (hB : IsLie B) : IsLie (A - B) := by
  rw [sub_eq_add_neg]; exact isLie_add hA (isLie_neg hB)

theorem isLie_smul {A : Mat N} (r : ℝ) (hA : IsLie A) : IsLie ((r : ℂ) • A) :=
  ⟨by rw [conjTranspose_smul, hA.1, Complex.star_def, Complex.conj_ofReal, smul_neg], by rw [trace_smul, hA.2, smul_zero]⟩

theorem isLie_stage1 {A : Mat N} (hA : IsLie A) : IsLie ((1 / 4 : ℂ) • A) := by
  have := isLie_smul (1 / 4) hA; push_cast at this; exact this

theorem isLie_stage2 {A B : Mat N} (hA : IsLie A) (hB : IsLie B) : IsLie ((8 / 9 : ℂ) • B - (17 / 36 : ℂ) • A) := by
  have h1 := isLie_smul (8 / 9) hB
  have h2 := isLie_smul (17 / 36) hA
  push_cast at h1 h2; exact isLie_sub h1 h2

theorem isLie_stage3 {A B C : Mat N} (hA : IsLie A) (hB : IsLie B) (hC : IsLie C) :
    IsLie ((3 / 4 : ℂ) • C - (8 / 9 : ℂ) • B + (17 / 36 : ℂ) • A) := by
  have h1 := isLie_smul (8 / 9) hB
  have h2 := isLie_smul (17 / 36) hA
  have h3 := isLie_smul (3 / 4) hC
  push_cast at h1 h2 h3; exact isLie_add (isLie_sub h3 h1) h2

include he in
theorem flowExponential_mem {U F : Mat N} (ε : ℝ) (hF : IsLie F) (hU : U ∈ specialUnitaryGroup (Fin N) ℂ) :
    flowExponential eig U F ε ∈ specialUnitaryGroup (Fin N) ℂ := by
  rw [flowExponential_eq eig he U F ε hF.1]
  refine mul_mem (exp_mem_su _ ?_) hU
  have := isLie_smul ε hF
  exact this

include hN he in
/-- **C28**, group: for every number of steps the links stay special unitary. -/
theorem C28_group (time : ℝ) (nSteps : ℕ) (U : GField S N) (hU : ∀ s μ, U s μ ∈ specialUnitaryGroup (Fin N) ℂ) :
    ∀ s μ, flowIntegrate eig (flowForce β staple) time nSteps U s μ ∈ specialUnitaryGroup (Fin N) ℂ := by
  have hstep : ∀ (dt : ℝ) (X : GField S N), (∀ s μ, X s μ ∈ specialUnitaryGroup (Fin N) ℂ) →
      ∀ s μ, flowStep eig (flowForce β staple) dt X s μ ∈ specialUnitaryGroup (Fin N) ℂ := by
    intro dt X hX s μ
    have hl := flowForce_lie hN β staple
    exact flowExponential_mem eig he dt (isLie_stage3 (hl _ _ _) (hl _ _ _) (hl _ _ _))
      (flowExponential_mem eig he dt (isLie_stage2 (hl _ _ _) (hl _ _ _))
        (flowExponential_mem eig he dt (isLie_stage1 (hl _ _ _)) (hX s μ)))
  unfold flowIntegrate
  generalize time / (nSteps : ℝ) = dt
  induction nSteps generalizing U with
  | zero => exact hU
  | succ n ih => rw [Function.iterate_succ_apply]; exact ih _ (hstep dt U hU)

include he in
theorem flowStage_gauge (T : Torus S) (dt : ℝ) (X Z : GField S N) (hZ : ∀ s μ, IsLie (Z s μ)) (ω : S → Mat N)
    (hω : ∀ s, ω s ∈ unitaryGroup (Fin N) ℂ) :
    flowStage eig dt (gaugeTransform T ω X) (fun s μ => ω s * Z s μ * (ω s)ᴴ)
      = gaugeTransform T ω (flowStage eig dt X Z) := by
  funext s μ
  exact flowExponential_gauge eig he _ _ _ _ dt (hZ s μ).1 (hω s)

include hN he in
theorem flowStep_gauge (T : Torus S) (hst : StapleCovariant T staple) (dt : ℝ) (X : GField S N) (ω : S → Mat N)
    (hω : ∀ s, ω s ∈ unitaryGroup (Fin N) ℂ) :
    flowStep eig (flowForce β staple) dt (gaugeTransform T ω X)
      = gaugeTransform T ω (flowStep eig (flowForce β staple) dt X) := by
  have hl := flowForce_lie hN β staple
  have hf : ∀ X, flowForce β staple (gaugeTransform T ω X) = fun s μ => ω s * flowForce β staple X s μ * (ω s)ᴴ := by
    intro X
    funext s μ
    unfold flowForce
    rw [hst X ω hω, gaugeForce_gauge T X ω hω, Matrix.mul_neg, Matrix.neg_mul]
  have c1 : ∀ (c : ℂ) (A : Mat N) (s : S), c • (ω s * A * (ω s)ᴴ) = ω s * (c • A) * (ω s)ᴴ := by
    intro c A s; rw [Matrix.mul_smul, Matrix.smul_mul]
  have c2 : ∀ (A B : Mat N) (s : S), ω s * A * (ω s)ᴴ - ω s * B * (ω s)ᴴ = ω s * (A - B) * (ω s)ᴴ := by
    intro A B s; rw [Matrix.mul_sub, Matrix.sub_mul]
  have c3 : ∀ (A B : Mat N) (s : S), ω s * A * (ω s)ᴴ + ω s * B * (ω s)ᴴ = ω s * (A + B) * (ω s)ᴴ := by
    intro A B s; rw [Matrix.mul_add, Matrix.add_mul]
  unfold flowStep
  simp only [hf, c1, c2, c3]
  rw [flowStage_gauge eig he T dt X _ (fun s μ => isLie_stage1 (hl X s μ)) ω hω]
  simp only [hf, c1, c2, c3]
  rw [flowStage_gauge eig he T dt _ _ (fun s μ => isLie_stage2 (hl X s μ) (hl _ s μ)) ω hω]
  simp only [hf, c1, c2, c3]
  rw [flowStage_gauge eig he T dt _ _ (fun s μ => isLie_stage3 (hl X s μ) (hl _ s μ) (hl _ s μ)) ω hω]

include hN he in
/-- **C28**, gauge covariance: the flow of the transformed configuration is the transformed flow, for the flows with the Wilson
and with the improved action, all times and all numbers of steps. -/
theorem C28_covariant (T : Torus S) (u0 time : ℝ) (nSteps : ℕ) (U : GField S N) (ω : S → Mat N)
    (hω : ∀ s, ω s ∈ unitaryGroup (Fin N) ℂ) :
    flowIntegrate eig (flowForce β (wilsonStaple T)) time nSteps (gaugeTransform T ω U)
      = gaugeTransform T ω (flowIntegrate eig (flowForce β (wilsonStaple T)) time nSteps U)
    ∧ flowIntegrate eig (flowForce β (improvedStaple u0 T)) time nSteps (gaugeTransform T ω U)
      = gaugeTransform T ω (flowIntegrate eig (flowForce β (improvedStaple u0 T)) time nSteps U) := by
  have key : ∀ staple : GField S N → S → Fin 4 → Mat N, StapleCovariant T staple →
      flowIntegrate eig (flowForce β staple) time nSteps (gaugeTransform T ω U)
        = gaugeTransform T ω (flowIntegrate eig (flowForce β staple) time nSteps U) := by
    intro staple hst
    unfold flowIntegrate
    generalize time / (nSteps : ℝ) = dt
    induction nSteps generalizing U with
    | zero => rfl
    | succ n ih =>
      rw [Function.iterate_succ_apply, Function.iterate_succ_apply, flowStep_gauge hN eig he β staple T hst dt U ω hω, ih]
  exact ⟨key _ fun U ω hω s μ => wilsonStaple_gauge T U ω hω s μ, key _ fun U ω hω s μ => improvedStaple_gauge T U ω hω u0 s μ⟩

end flow

/-- An eigensolver as assumed here exists. -/
example : ∃ eig : EigenSolver 3, eig.Correct := exists_correct_eigenSolver

end Leonard
