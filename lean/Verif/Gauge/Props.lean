import Verif.Gauge.Deriv
import Verif.Gauge.Loops
import Verif.Layout.MpiShared

/-!
# Gauge invariance, local action, force (C19, C20, C21, C49)

The theorems hold on every `Torus`; `boxTorus g` is the lattice of the program with extents `g`.
-/

set_option autoImplicit false

namespace Leonard

open Matrix

variable {S : Type} {N : ℕ}

/-- A `2 × 2 × 2 × 2` lattice, for the examples. -/
def exExt : Ext := ⟨2, 2, 2, 2⟩
theorem exExt_pos : exExt.Pos := by decide
/-- A `3 × 3 × 4 × 5` lattice, for the examples. -/
def exExt3 : Ext := ⟨3, 3, 4, 5⟩
theorem exExt3_pos : exExt3.Pos := by decide

/-- A gauge transformation that is not constant: `-1` on sites with odd `x`, otherwise `1`. -/
def exOmega (g : Ext) (N : ℕ) : BoxSite g → Mat N := fun s => if s.1.x % 2 = 1 then -1 else 1

theorem exOmega_unitary (g : Ext) (N : ℕ) (s : BoxSite g) : exOmega g N s ∈ unitaryGroup (Fin N) ℂ := by
  unfold exOmega
  split
  · rw [mem_unitaryGroup_iff]; simp
  · exact one_mem _

/-! ## C19 Observables and actions do not depend on the gauge -/

/-- **C19.** The plaquette (total, spatial and temporal), both gauge energies, all Wilson loops and all Polyakov loops
have the same value on a configuration and on any gauge transform of it. -/
theorem C19_gauge_invariance [Fintype S] (T : Torus S) (U : GField S N) (ω : S → Mat N)
    (hω : ∀ s, ω s ∈ unitaryGroup (Fin N) ℂ) :
    plaquetteSums T (gaugeTransform T ω U) = plaquetteSums T U
    ∧ (∀ β, wilsonEnergy β T (gaugeTransform T ω U) = wilsonEnergy β T U)
    ∧ (∀ u0 β, improvedEnergy u0 β T (gaugeTransform T ω U) = improvedEnergy u0 β T U)
    ∧ (∀ xd td r t, wilsonLoopOf T (gaugeTransform T ω U) xd td r t = wilsonLoopOf T U xd td r t)
    ∧ (∀ ν, polyakovLoop T (gaugeTransform T ω U) ν = polyakovLoop T U ν) := by
  have h1 : ∀ s, (ω s)ᴴ * ω s = 1 := fun s => mem_unitaryGroup_iff'.1 (hω s)
  have h2 : ∀ s, ω s * (ω s)ᴴ = 1 := fun s => mem_unitaryGroup_iff.1 (hω s)
  have hp : ∀ s μ ν, trace (gaugeTransform T ω U s μ * gaugeTransform T ω U (T.sup μ s) ν
      * (gaugeTransform T ω U (T.sup ν s) μ)ᴴ * (gaugeTransform T ω U s ν)ᴴ)
      = trace (U s μ * U (T.sup μ s) ν * (U (T.sup ν s) μ)ᴴ * (U s ν)ᴴ) := by
    intro s μ ν
    have e : ∀ V : GField S N, V s μ * V (T.sup μ s) ν * (V (T.sup ν s) μ)ᴴ * (V s ν)ᴴ = holo T V s (pl μ ν) := by
      intro V; rw [holo_pl]; simp only [stapleUp, Matrix.mul_assoc]
    rw [e, e, trace_holo_gauge T U ω h1 h2 _ s (walk_pl T μ ν s)]
  refine ⟨?_, ?_, ?_, ?_, ?_⟩
  · unfold plaquetteSums
    simp only [hp]
  · intro β
    rw [wilsonEnergy_eq, wilsonEnergy_eq]
    simp only [fun μ ν s => trace_holo_gauge T U ω h1 h2 _ s (walk_pl T μ ν s)]
  · intro u0 β
    rw [improvedEnergy_eq, improvedEnergy_eq]
    simp only [fun μ ν s => trace_holo_gauge T U ω h1 h2 _ s (walk_pl T μ ν s),
      fun μ ν s => trace_holo_gauge T U ω h1 h2 _ s (walk_re1 T μ ν s),
      fun μ ν s => trace_holo_gauge T U ω h1 h2 _ s (walk_re2 T μ ν s)]
  · intro xd td r t
    unfold wilsonLoopOf
    simp only [wilsonTrace_gauge T U ω h1 h2]
  · intro ν
    unfold polyakovLoop
    rw [polyakovSum_gauge T U ω h1 h2]

example : (∀ s, exOmega exExt 3 s ∈ unitaryGroup (Fin 3) ℂ)
    ∧ gaugeTransform (boxTorus exExt exExt_pos) (exOmega exExt 3) (fun _ _ => 1) ≠ fun _ _ => 1 := by
  refine ⟨exOmega_unitary _ _, fun h => ?_⟩
  have h0 := congrFun (congrFun h ⟨⟨0, 0, 0, 0⟩, by decide⟩) 0
  have h1 := congrFun (congrFun h0 0) 0
  have e : exOmega exExt 3 ((boxTorus exExt exExt_pos).sup 0 ⟨⟨0, 0, 0, 0⟩, by decide⟩) = -1 := by
    unfold exOmega; rw [if_pos]; decide
  have e0 : exOmega exExt 3 ⟨⟨0, 0, 0, 0⟩, by decide⟩ = 1 := by
    unfold exOmega; rw [if_neg]; decide
  simp only [gaugeTransform, e, e0] at h1
  simp at h1
  norm_num at h1

/-! ## C20 The local action difference is the change of the total energy -/

/-- **C20**, Wilson action. -/
theorem C20_wilson [Fintype S] [DecidableEq S] (T : Torus S) (hT : ∀ μ, 2 ≤ T.ext μ) (β : ℝ) (U : GField S N)
    (s : S) (μ : Fin 4) (V : Mat N) :
    wilsonEnergy β T (setLink U s μ V) - wilsonEnergy β T U = deltaAction β U V (wilsonStaple T U s μ) s μ := by
  rw [wilsonEnergy_setLink T U β (fun μ => hT μ), deltaAction, Matrix.sub_mul, Matrix.trace_sub, Complex.sub_re]
  ring

/-- **C20**, improved action. -/
theorem C20_improved [Fintype S] [DecidableEq S] (T : Torus S) (hT : ∀ μ, 3 ≤ T.ext μ) (u0 β : ℝ) (U : GField S N)
    (s : S) (μ : Fin 4) (V : Mat N) :
    improvedEnergy u0 β T (setLink U s μ V) - improvedEnergy u0 β T U
      = deltaAction β U V (improvedStaple u0 T U s μ) s μ := by
  rw [improvedEnergy_setLink T U u0 β (fun μ => hT μ), deltaAction, Matrix.sub_mul, Matrix.trace_sub, Complex.sub_re]
  ring

example : (∀ μ, 2 ≤ (boxTorus exExt exExt_pos).ext μ) ∧ (∀ μ, 3 ≤ (boxTorus exExt3 exExt3_pos).ext μ) := by
  constructor <;> intro μ <;> fin_cases μ <;> decide

/-! ## C21 The gauge force is the derivative of the gauge energy -/

/-- `X` is in the Lie algebra of the special unitary group. -/
def IsLie (X : Mat N) : Prop := Xᴴ = -X ∧ trace X = 0

/-- **C21**: the force is in the Lie algebra, whatever the staple. -/
theorem C21_lie_algebra (hN : 0 < N) (β : ℝ) (U : GField S N) (st : Mat N) (s : S) (μ : Fin 4) :
    IsLie (gaugeForce β U st s μ) :=
  ⟨gaugeForce_anti β U st s μ, gaugeForce_traceless hN β U st s μ⟩

theorem setLink_exp [DecidableEq S] (U : GField S N) (s : S) (μ : Fin 4) (X : Mat N) (t : ℝ) :
    setLink U s μ (NormedSpace.exp (t • X) * U s μ)
      = moveLinks (fun s' μ' => if s' = s ∧ μ' = μ then X else 0) U t := by
  funext s' μ'
  unfold setLink moveLinks
  split
  · rename_i h; rw [h.1, h.2]; simp
  · rename_i h
    have e : (fun s' μ' => if s' = s ∧ μ' = μ then X else 0 : GField S N) s' μ' = 0 := if_neg h
    rw [e]; simp

theorem sum_single_link [Fintype S] [DecidableEq S] (s : S) (μ : Fin 4) (X : Mat N) (f : S → Fin 4 → Mat N) (c : ℝ) :
    (∑ s', ∑ ρ, c * (trace ((if s' = s ∧ ρ = μ then X else 0) * f s' ρ)).re) = c * (trace (X * f s μ)).re := by
  rw [Finset.sum_eq_single s, Finset.sum_eq_single μ]
  · simp
  · intro ρ _ hne; simp [hne]
  · simp
  · intro s' _ hne; simp [hne]
  · simp

/-- **C21**, Wilson action: moving one link by `exp(tX)` changes the energy at the rate `-2 Re tr(X F)`. -/
theorem C21_wilson_derivative [Fintype S] [DecidableEq S] (T : Torus S) (β : ℝ) (U : GField S N) (s : S) (μ : Fin 4)
    (X : Mat N) (hX : IsLie X) :
    HasDerivAt (fun t : ℝ => wilsonEnergy β T (setLink U s μ (NormedSpace.exp (t • X) * U s μ)))
      (-2 * (trace (X * gaugeForce β U (wilsonStaple T U s μ) s μ)).re) 0 := by
  simp only [setLink_exp]
  have h := hasDerivAt_wilsonEnergy β T (fun s' μ' => if s' = s ∧ μ' = μ then X else 0) U
  rw [sum_single_link s μ X (fun s ρ => U s ρ * wilsonStaple T U s ρ)] at h
  rwa [re_trace_mul_force β U _ X s μ hX.1 hX.2]

/-- **C21**, improved action. -/
theorem C21_improved_derivative [Fintype S] [DecidableEq S] (T : Torus S) (u0 β : ℝ) (U : GField S N) (s : S)
    (μ : Fin 4) (X : Mat N) (hX : IsLie X) :
    HasDerivAt (fun t : ℝ => improvedEnergy u0 β T (setLink U s μ (NormedSpace.exp (t • X) * U s μ)))
      (-2 * (trace (X * gaugeForce β U (improvedStaple u0 T U s μ) s μ)).re) 0 := by
  simp only [setLink_exp]
  have h := hasDerivAt_improvedEnergy u0 β T (fun s' μ' => if s' = s ∧ μ' = μ then X else 0) U
  rw [sum_single_link s μ X (fun s ρ => U s ρ * improvedStaple u0 T U s ρ)] at h
  rwa [re_trace_mul_force β U _ X s μ hX.1 hX.2]

theorem hasDerivAt_momentaEnergy [Fintype S] (P F : GField S N) :
    HasDerivAt (fun t : ℝ => momentaEnergy (fun s μ => P s μ - ((t : ℝ) : ℂ) • F s μ))
      (∑ s, ∑ μ, 2 * (trace (P s μ * F s μ)).re) 0 := by
  unfold momentaEnergy
  refine HasDerivAt.fun_sum fun s _ => HasDerivAt.fun_sum fun μ _ => ?_
  have e : ∀ t : ℝ, -(trace ((P s μ - (t : ℂ) • F s μ) * (P s μ - (t : ℂ) • F s μ))).re
      = -(trace (P s μ * P s μ)).re + (2 * (trace (P s μ * F s μ)).re) * t - (trace (F s μ * F s μ)).re * (t * t) := by
    intro t
    have : (P s μ - (t : ℂ) • F s μ) * (P s μ - (t : ℂ) • F s μ)
        = P s μ * P s μ - (t : ℂ) • (P s μ * F s μ) - (t : ℂ) • (F s μ * P s μ)
          + ((t * t : ℝ) : ℂ) • (F s μ * F s μ) := by
      simp only [Matrix.sub_mul, Matrix.mul_sub, Matrix.smul_mul, Matrix.mul_smul, smul_smul]
      push_cast
      module
    rw [this, Matrix.trace_add, Matrix.trace_sub, Matrix.trace_sub, Complex.add_re, Complex.sub_re, Complex.sub_re,
      re_trace_smul, re_trace_smul, re_trace_smul, Matrix.trace_mul_comm (F s μ) (P s μ)]
    ring
  simp only [e]
  have h := (((hasDerivAt_id (0 : ℝ)).const_mul (2 * (trace (P s μ * F s μ)).re)).const_add
    (-(trace (P s μ * P s μ)).re)).sub
    (((hasDerivAt_id (0 : ℝ)).mul (hasDerivAt_id (0 : ℝ))).const_mul (trace (F s μ * F s μ)).re)
  refine HasDerivAt.congr_deriv h ?_
  simp

/-- **C21**, normalisation: when all links move with velocity `P` and all momenta with minus the force, kinetic plus gauge
energy is stationary, Wilson action. -/
theorem C21_wilson_conserves [Fintype S] (T : Torus S) (β : ℝ) (U P : GField S N) (hP : ∀ s μ, IsLie (P s μ)) :
    HasDerivAt (fun t : ℝ =>
      momentaEnergy (fun s μ => P s μ - (t : ℂ) • gaugeForce β U (wilsonStaple T U s μ) s μ)
        + wilsonEnergy β T (fun s μ => NormedSpace.exp (t • P s μ) * U s μ)) 0 0 := by
  have h := (hasDerivAt_momentaEnergy P (fun s μ => gaugeForce β U (wilsonStaple T U s μ) s μ)).add
    (hasDerivAt_wilsonEnergy β T P U)
  refine HasDerivAt.congr_deriv h ?_
  rw [← Finset.sum_add_distrib]
  refine Finset.sum_eq_zero fun s _ => ?_
  rw [← Finset.sum_add_distrib]
  refine Finset.sum_eq_zero fun μ _ => ?_
  rw [← re_trace_mul_force β U _ (P s μ) s μ (hP s μ).1 (hP s μ).2]
  ring

/-- **C21**, normalisation, improved action. -/
theorem C21_improved_conserves [Fintype S] (T : Torus S) (u0 β : ℝ) (U P : GField S N) (hP : ∀ s μ, IsLie (P s μ)) :
    HasDerivAt (fun t : ℝ =>
      momentaEnergy (fun s μ => P s μ - (t : ℂ) • gaugeForce β U (improvedStaple u0 T U s μ) s μ)
        + improvedEnergy u0 β T (fun s μ => NormedSpace.exp (t • P s μ) * U s μ)) 0 0 := by
  have h := (hasDerivAt_momentaEnergy P (fun s μ => gaugeForce β U (improvedStaple u0 T U s μ) s μ)).add
    (hasDerivAt_improvedEnergy u0 β T P U)
  refine HasDerivAt.congr_deriv h ?_
  rw [← Finset.sum_add_distrib]
  refine Finset.sum_eq_zero fun s _ => ?_
  rw [← Finset.sum_add_distrib]
  refine Finset.sum_eq_zero fun μ _ => ?_
  rw [← re_trace_mul_force β U _ (P s μ) s μ (hP s μ).1 (hP s μ).2]
  ring

example : IsLie (!![Complex.I, 1; -1, -Complex.I] : Mat 2) ∧ (!![Complex.I, 1; -1, -Complex.I] : Mat 2) ≠ 0 := by
  refine ⟨⟨?_, ?_⟩, fun h => ?_⟩
  · ext i j; fin_cases i <;> fin_cases j <;> simp [conjTranspose_apply]
  · simp [Matrix.trace, Fin.sum_univ_two]
  · have := congrFun (congrFun h 0) 1; simp at this

/-! ## C49 Loop observables are normalised -/

theorem re_le_of_norm {z : ℂ} {c : ℝ} (h : ‖z‖ ≤ c) : |z.re| ≤ c := (Complex.abs_re_le_norm z).trans h

theorem abs_pairSum_le (c : Fin 4 → Fin 4 → Prop) [∀ μ ν, Decidable (c μ ν)] [Fintype S] (f : S → Fin 4 → Fin 4 → ℝ)
    (k : ℕ) (hk : (∑ μ : Fin 4, ∑ ν : Fin 4, if c μ ν then 1 else 0) = k) (B : ℝ) (hf : ∀ s μ ν, |f s μ ν| ≤ B) :
    |∑ s, ∑ μ, ∑ ν, if c μ ν then f s μ ν else 0| ≤ k * B * Fintype.card S := by
  calc |∑ s, ∑ μ, ∑ ν, if c μ ν then f s μ ν else 0|
      ≤ ∑ s : S, |∑ μ, ∑ ν, if c μ ν then f s μ ν else 0| := Finset.abs_sum_le_sum_abs _ _
    _ ≤ ∑ s : S, ∑ μ : Fin 4, |∑ ν, if c μ ν then f s μ ν else 0| :=
        Finset.sum_le_sum fun s _ => Finset.abs_sum_le_sum_abs _ _
    _ ≤ ∑ s : S, ∑ μ : Fin 4, ∑ ν : Fin 4, |if c μ ν then f s μ ν else 0| :=
        Finset.sum_le_sum fun s _ => Finset.sum_le_sum fun μ _ => Finset.abs_sum_le_sum_abs _ _
    _ ≤ ∑ s : S, ∑ μ : Fin 4, ∑ ν : Fin 4, (if c μ ν then 1 else 0 : ℕ) * B := by
        refine Finset.sum_le_sum fun s _ => Finset.sum_le_sum fun μ _ => Finset.sum_le_sum fun ν _ => ?_
        split
        · simpa using hf s μ ν
        · simp
    _ = k * B * Fintype.card S := by
        simp only [← Finset.sum_mul, ← Nat.cast_sum]
        rw [hk]; simp; ring

/-- **C49**: on unitary links the plaquettes and all Wilson loops are at most one in absolute value. -/
theorem C49_bounded [Fintype S] [Nonempty S] (hN : 0 < N) (T : Torus S) (U : GField S N)
    (hU : ∀ s μ, U s μ ∈ unitaryGroup (Fin N) ℂ) :
    |(plaquetteSums T U).1| ≤ 1 ∧ |(plaquetteSums T U).2.1| ≤ 1 ∧ |(plaquetteSums T U).2.2| ≤ 1
    ∧ ∀ xd td r t, |wilsonLoopOf T U xd td r t| ≤ 1 := by
  have hV : (0 : ℝ) < Fintype.card S := by exact_mod_cast Fintype.card_pos
  have hN' : (0 : ℝ) < N := by exact_mod_cast hN
  have hb : ∀ s μ ν, |(trace (U s μ * U (T.sup μ s) ν * (U (T.sup ν s) μ)ᴴ * (U s ν)ᴴ)).re| ≤ N := fun s μ ν =>
    re_le_of_norm (norm_trace_unitary_le (mul_mem (mul_mem (mul_mem (hU _ _) (hU _ _)) (Unitary.star_mem (hU _ _)))
      (Unitary.star_mem (hU _ _))))
  refine ⟨?_, ?_, ?_, ?_⟩
  · have h := abs_pairSum_le (fun μ ν : Fin 4 => μ < ν) _ 6 (by decide) _ hb
    simp only [plaquetteSums]
    rw [abs_div, abs_of_pos (by positivity : (0 : ℝ) < 6 * N * Fintype.card S), div_le_one (by positivity)]
    exact_mod_cast h
  · have h := abs_pairSum_le (fun μ ν : Fin 4 => μ < ν ∧ ¬(μ = 3 ∨ ν = 3)) _ 3 (by decide) _ hb
    simp only [plaquetteSums]
    rw [abs_div, abs_of_pos (by positivity : (0 : ℝ) < 3 * N * Fintype.card S), div_le_one (by positivity)]
    simp only [ite_and, ite_not] at h
    exact_mod_cast h
  · have h := abs_pairSum_le (fun μ ν : Fin 4 => μ < ν ∧ (μ = 3 ∨ ν = 3)) _ 3 (by decide) _ hb
    simp only [plaquetteSums]
    rw [abs_div, abs_of_pos (by positivity : (0 : ℝ) < 3 * N * Fintype.card S), div_le_one (by positivity)]
    simp only [ite_and] at h
    exact_mod_cast h
  · intro xd td r t
    unfold wilsonLoopOf
    rw [abs_div, abs_of_pos (by positivity : (0 : ℝ) < N * Fintype.card S), div_le_one (by positivity)]
    refine (Finset.abs_sum_le_sum_abs _ _).trans ?_
    calc _ ≤ ∑ _s : S, (N : ℝ) := by
          refine Finset.sum_le_sum fun s _ => re_le_of_norm (norm_trace_unitary_le ?_)
          simp only [shiftField_eq, wilsonLine_eq]
          exact mul_mem (mul_mem (mul_mem (holo_mem_unitary T U hU _ _) (holo_mem_unitary T U hU _ _))
            (Unitary.star_mem (holo_mem_unitary T U hU _ _))) (Unitary.star_mem (holo_mem_unitary T U hU _ _))
      _ = N * Fintype.card S := by simp; ring

theorem holo_one (T : Torus S) (p : List Hop) (s : S) : holo T (fun _ _ => (1 : Mat N)) s p = 1 := by
  induction p generalizing s with
  | nil => rfl
  | cons h p ih =>
    rw [holo, ih, Matrix.mul_one]
    obtain ⟨μ, b⟩ := h
    cases b <;> simp [hopMat]

/-- **C49**: on the trivial configuration the plaquettes and all Wilson loops are one. -/
theorem C49_unit [Fintype S] [Nonempty S] (hN : 0 < N) (T : Torus S) :
    plaquetteSums T (fun _ _ => (1 : Mat N)) = (1, 1, 1)
    ∧ ∀ xd td r t, wilsonLoopOf T (fun _ _ => (1 : Mat N)) xd td r t = 1 := by
  have hV : (Fintype.card S : ℝ) ≠ 0 := by exact_mod_cast Fintype.card_ne_zero
  have hN' : (N : ℝ) ≠ 0 := by exact_mod_cast hN.ne'
  constructor
  · simp only [plaquetteSums, Matrix.mul_one, conjTranspose_one, Matrix.trace_one, Fintype.card_fin, Complex.natCast_re,
      Finset.sum_const, Finset.card_univ, nsmul_eq_mul, Prod.mk.injEq]
    refine ⟨?_, ?_, ?_⟩
    · simp [Fin.sum_univ_four]; field_simp; norm_num
    · simp [Fin.sum_univ_four]; field_simp; norm_num
    · simp [Fin.sum_univ_four]; field_simp; norm_num
  · intro xd td r t
    unfold wilsonLoopOf
    simp only [shiftField_eq, wilsonLine_eq, holo_one, Matrix.mul_one, conjTranspose_one, Matrix.trace_one,
      Fintype.card_fin, Complex.natCast_re, Finset.sum_const, Finset.card_univ, nsmul_eq_mul]
    field_simp

/-! ### Counting the sites of a slice -/

/-- All slices have the same number of sites. -/
theorem card_slice [Fintype S] (T : Torus S) (ν : Fin 4) (k : ℕ) (hk : k < T.ext ν) :
    (Finset.univ.filter fun s => T.coord s ν = k).card = (Finset.univ.filter fun s => T.coord s ν = 0).card := by
  symm
  refine Finset.card_bij (fun s _ => (T.sup ν)^[k] s) ?_ ?_ ?_
  · intro s hs
    simp only [Finset.mem_filter, Finset.mem_univ, true_and] at *
    rw [T.coord_iterate, hs, Nat.zero_add, Nat.mod_eq_of_lt hk]
  · intro a _ b _ h
    exact ((T.sup ν).injective.iterate k) h
  · intro s hs
    simp only [Finset.mem_filter, Finset.mem_univ, true_and] at *
    obtain ⟨b, hb⟩ := ((T.sup ν).surjective.iterate k) s
    refine ⟨b, ?_, hb⟩
    have h1 := T.coord_iterate ν k b
    rw [hb, hs] at h1
    have h2 := T.coord_lt ν b
    rcases lt_or_ge (T.coord b ν + k) (T.ext ν) with h | h
    · rw [Nat.mod_eq_of_lt h] at h1; omega
    · rw [Nat.mod_eq_sub_mod h, Nat.mod_eq_of_lt (by omega)] at h1; omega

theorem card_eq_slice [Fintype S] (T : Torus S) (ν : Fin 4) :
    Fintype.card S = T.ext ν * (Finset.univ.filter fun s => T.coord s ν = 0).card := by
  have h : Fintype.card S = ∑ k ∈ Finset.range (T.ext ν), (Finset.univ.filter fun s => T.coord s ν = k).card := by
    rw [← Finset.card_univ]
    exact Finset.card_eq_sum_card_fiberwise fun s _ => by simpa using T.coord_lt ν s
  rw [h, Finset.sum_congr rfl fun k hk => card_slice T ν k (Finset.mem_range.1 hk)]
  simp

theorem card_boxSite (g : Ext) :
    Fintype.card (BoxSite g) = (g.get 0).toNat * (g.get 1).toNat * (g.get 2).toNat * (g.get 3).toNat := by
  have : Fintype.card (BoxSite g) = (loopSites g).toFinset.card := by
    rw [Fintype.card_of_subtype]
    intro s; rw [List.mem_toFinset, mem_loopSites]
  rw [this, List.toFinset_card_of_nodup (nodup_loopSites g)]
  simp [loopSites, List.length_flatMap, length_intRange, Ext.get]
  ring

/-- The sites of the slice `coord ν = 0`, times the extent in that direction, are all sites. -/
theorem polyakovSum_unit [Fintype S] (T : Torus S) (ν : Fin 4) :
    polyakovSum T (fun _ _ => (1 : Mat N)) ν = N * (Finset.univ.filter fun s => T.coord s ν = 0).card := by
  rw [polyakovSum_eq]
  simp only [holo_one, Matrix.trace_one, Fintype.card_fin]
  rw [← Finset.sum_filter]
  simp [mul_comm]

/-- **C49**, what the code does: on the trivial configuration the Polyakov loop in direction `ν` is the ratio of the time
extent to the extent in direction `ν`. -/
theorem C49_polyakov_unit_value (hN : 0 < N) (g : Ext) (hg : g.Pos) (ν : Fin 4) :
    polyakovLoop (boxTorus g hg) (fun _ _ => (1 : Mat N)) ν = (g.t : ℂ) / (g.get ν : ℂ) := by
  unfold polyakovLoop
  rw [polyakovSum_unit]
  have h1 := card_eq_slice (boxTorus g hg) ν
  rw [card_boxSite] at h1
  have hp := fun μ => hg.get μ
  set c := (Finset.univ.filter fun s => (boxTorus g hg).coord s ν = 0).card
  have e : ∀ μ, (boxTorus g hg).ext μ = (g.get μ).toNat := fun _ => rfl
  rw [e] at h1
  rw [e, e, e]
  have ht : (g.t : ℂ) = ((g.get 3).toNat : ℂ) := by
    have := Int.toNat_of_nonneg (hp 3).le
    exact_mod_cast this.symm
  have hν : (g.get ν : ℂ) = ((g.get ν).toNat : ℂ) := by
    have := Int.toNat_of_nonneg (hp ν).le
    exact_mod_cast this.symm
  rw [ht, hν]
  have pos : ∀ μ, ((g.get μ).toNat : ℂ) ≠ 0 := fun μ => by
    have := hp μ
    exact_mod_cast (by omega : (g.get μ).toNat ≠ 0)
  have hN' : (N : ℂ) ≠ 0 := by exact_mod_cast hN.ne'
  have h2 : ((g.get 0).toNat : ℂ) * (g.get 1).toNat * (g.get 2).toNat * (g.get 3).toNat = (g.get ν).toNat * c := by
    exact_mod_cast h1
  have p0 := pos 0
  have p1 := pos 1
  have p2 := pos 2
  have pν := pos ν
  push_cast
  rw [div_eq_div_iff (mul_ne_zero hN' (mul_ne_zero (mul_ne_zero p0 p1) p2)) pν]
  linear_combination (-(N : ℂ)) * h2

/-- **C49** for Polyakov loops, in the directions as long as the time direction (in particular time itself): one on the
trivial configuration. Missing: the other directions, where it is false. -/
theorem C49_polyakov_unit_partial (hN : 0 < N) (g : Ext) (hg : g.Pos) (ν : Fin 4) (h : g.get ν = g.t) :
    polyakovLoop (boxTorus g hg) (fun _ _ => (1 : Mat N)) ν = 1 := by
  rw [C49_polyakov_unit_value hN, h]
  have := hg.get 3
  exact div_self (by exact_mod_cast (this.ne' : g.t ≠ 0))

/-- **C49** is false for Polyakov loops in a space direction of a lattice longer in time: the loop of the trivial
configuration is two. -/
theorem C49_polyakov_counterexample :
    polyakovLoop (boxTorus ⟨2, 2, 2, 4⟩ (by decide)) (fun _ _ => (1 : Mat 3)) 0 = 2 := by
  rw [C49_polyakov_unit_value (by decide)]
  norm_num [Ext.get]

/-- **C49** for Polyakov loops in time: at most one in absolute value on unitary links. -/
theorem C49_polyakov_bounded_partial (hN : 0 < N) (g : Ext) (hg : g.Pos) (U : GField (BoxSite g) N)
    (hU : ∀ s μ, U s μ ∈ unitaryGroup (Fin N) ℂ) (ν : Fin 4) (h : g.get ν = g.t) :
    ‖polyakovLoop (boxTorus g hg) U ν‖ ≤ 1 := by
  have h1 := C49_polyakov_unit_partial hN g hg ν h
  unfold polyakovLoop at *
  rw [norm_div]
  have hs : ‖polyakovSum (boxTorus g hg) U ν‖ ≤ ‖polyakovSum (boxTorus g hg) (fun _ _ => (1 : Mat N)) ν‖ := by
    rw [polyakovSum_unit, polyakovSum_eq, ← Finset.sum_filter]
    refine (norm_sum_le _ _).trans ?_
    calc _ ≤ ∑ s ∈ Finset.univ.filter fun s => (boxTorus g hg).coord s ν = 0, (N : ℝ) :=
          Finset.sum_le_sum fun s _ => norm_trace_unitary_le (holo_mem_unitary _ U hU _ _)
      _ = _ := by simp [mul_comm]
  have h2 := congrArg norm h1
  rw [norm_div, norm_one] at h2
  rw [← h2]
  exact div_le_div_of_nonneg_right hs (norm_nonneg _)

example : (⟨2, 3, 4, 2⟩ : Ext).Pos ∧ (⟨2, 3, 4, 2⟩ : Ext).get 0 = (⟨2, 3, 4, 2⟩ : Ext).t := by
  constructor <;> decide

example : Nonempty (BoxSite exExt) ∧ ∀ (s : BoxSite exExt) (μ : Fin 4),
    (fun (s : BoxSite exExt) (_ : Fin 4) => exOmega exExt 3 s) s μ ∈ unitaryGroup (Fin 3) ℂ :=
  ⟨⟨⟨⟨0, 0, 0, 0⟩, by decide⟩⟩, fun s _ => exOmega_unitary _ _ s⟩

end Leonard
