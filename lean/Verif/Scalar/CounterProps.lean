/-
C56 (where the scalar action does not do what is expected of it).
-/
import Verif.Scalar.Props

set_option autoImplicit false

namespace Leonard

open Matrix

variable {S : Type} {N nA nF : ℕ}

/-! ### Lattices with one site in a direction -/

/-- The lattice with one site. -/
def oneSite : Torus Unit where
  sup _ := 1
  comm _ _ _ := rfl
  ext _ := 1
  period _ _ := rfl
  coord _ _ := 0
  coord_sup_ne _ _ _ _ := rfl
  coord_sup _ _ := rfl
  coord_lt _ _ := Nat.one_pos

/-- Without self interaction and mass. -/
def noCouplings : ScalarCouplings := ⟨0, 0, 0, 0, 0, 0⟩

/-- **C56**: `C56_local` needs its hypothesis.  On a lattice with one site the change of the energy at the site is not the change of the energy of the
lattice. -/
theorem C56_local_counterexample : ∃ (U : GField Unit 2) (Φ : Scalars Unit 2 0 1) (v : FundVec 2),
    let Φ' := setFundamental Φ 0 () v
    (∀ s μ, U s μ ∈ unitaryGroup (Fin 2) ℂ) ∧
      siteEnergyFundamental noCouplings (atSite Φ'.1 ()) (atSite Φ'.2 ()) (fundamentalCoupling oneSite U (Φ.2 0) ()) 0
        - siteEnergyFundamental noCouplings (atSite Φ.1 ()) (atSite Φ.2 ()) (fundamentalCoupling oneSite U (Φ.2 0) ()) 0
      ≠ scalarEnergy noCouplings oneSite U Φ' - scalarEnergy noCouplings oneSite U Φ := by
  refine ⟨fun _ _ => 1, (fun _ _ _ => 0, fun _ _ _ => 0), fun _ => 1, fun _ _ => one_mem _, ?_⟩
  have hv : (setFundamental (N := 2) (nA := 0) (nF := 1) (fun _ _ _ => 0, fun _ _ _ => 0) 0 () (fun _ => 1)).2 = fun _ _ _ => 1 := by
    funext i s k
    have hi : i = 0 := Subsingleton.elim _ _
    subst hi
    simp [setFundamental]
  have hK : fundamentalCoupling oneSite (N := 2) (fun _ _ => 1) (fun _ _ => 0) () = 0 := by
    unfold fundamentalCoupling
    have : (fun _ : Fin 2 => (0 : ℂ)) = 0 := rfl
    simp [this]
  simp only [scalarEnergy_eq, siteEnergyFundamental, potentialEnergy_eq, hv, fundamentalKinetic, noCouplings, atSite, hK]
  simp [complexDot, Complex.add_re]

/-! ### Masses -/

theorem coordSum_sup (T : Torus S) (he : ∀ μ, Even (T.ext μ)) (μ : Fin 4) (s : S) : (coordSum T (T.sup μ s) + coordSum T s) % 2 = 1 := by
  have h := T.coord_sup μ s
  have hl := T.coord_lt μ s
  have hne : ∀ ν, μ ≠ ν → T.coord (T.sup μ s) ν = T.coord s ν := fun ν hν => T.coord_sup_ne μ ν s hν
  have hpar : (T.coord (T.sup μ s) μ + T.coord s μ) % 2 = 1 := by
    obtain ⟨k, hk⟩ := he μ
    rw [h]
    rcases lt_or_ge (T.coord s μ + 1) (T.ext μ) with h1 | h1
    · rw [Nat.mod_eq_of_lt h1]; omega
    · have h2 : T.coord s μ + 1 = T.ext μ := by omega
      rw [h2, Nat.mod_self]; omega
  unfold coordSum
  fin_cases μ
  · rw [hne 1 (by decide), hne 2 (by decide), hne 3 (by decide)]; simp only [Fin.zero_eta] at hpar ⊢; omega
  · rw [hne 0 (by decide), hne 2 (by decide), hne 3 (by decide)]; simp only [Fin.mk_one] at hpar ⊢; omega
  · rw [hne 0 (by decide), hne 1 (by decide), hne 3 (by decide)]; simp only [Fin.reduceFinMk] at hpar ⊢; omega
  · rw [hne 0 (by decide), hne 1 (by decide), hne 2 (by decide)]; simp only [Fin.reduceFinMk] at hpar ⊢; omega

/-- Alternating signs. -/
noncomputable def stagger (T : Torus S) (s : S) : ℝ := (-1) ^ coordSum T s

theorem stagger_sup (T : Torus S) (he : ∀ μ, Even (T.ext μ)) (μ : Fin 4) (s : S) : stagger T (T.sup μ s) = -stagger T s := by
  have h := coordSum_sup T he μ s
  unfold stagger
  rcases Nat.even_or_odd (coordSum T s) with h1 | h1 <;> rcases Nat.even_or_odd (coordSum T (T.sup μ s)) with h2 | h2
  · exact absurd (Nat.even_iff.1 (h2.add h1)) (by omega)
  · rw [h1.neg_one_pow, h2.neg_one_pow]
  · rw [h1.neg_one_pow, h2.neg_one_pow, neg_neg]
  · exact absurd (Nat.even_iff.1 (h2.add_odd h1)) (by omega)

theorem stagger_sq (T : Torus S) (s : S) : stagger T s * stagger T s = 1 := by
  unfold stagger
  rw [← mul_pow]
  norm_num

theorem unbounded_of_neg (k : ℝ) (hk : k < 0) (C : ℝ) : ∃ x : ℝ, k * x ^ 2 < C := by
  refine ⟨|C| / -k + 1, ?_⟩
  have hk' : 0 < -k := by linarith
  have hx : 1 ≤ |C| / -k + 1 := by have := div_nonneg (abs_nonneg C) hk'.le; linarith
  have h1 : |C| / -k + 1 ≤ (|C| / -k + 1) ^ 2 := by nlinarith
  have h2 : -k * (|C| / -k + 1) = |C| + -k := by rw [mul_add, mul_div_cancel₀ _ hk'.ne', mul_one]
  have h3 : -k * (|C| / -k + 1) ≤ -k * (|C| / -k + 1) ^ 2 := mul_le_mul_of_nonneg_left h1 hk'.le
  have h4 := neg_abs_le C
  linarith

/-- A field with one component, with the signs `σ`. -/
noncomputable def signField (σ : S → ℝ) (i₀ : Fin nF) (k₀ : Fin N) (x : ℝ) (i : Fin nF) (s : S) : FundVec N := fun k =>
  if i = i₀ ∧ k = k₀ then ((x * σ s : ℝ) : ℂ) else 0

theorem signField_dot (σ : S → ℝ) (i₀ : Fin nF) (k₀ : Fin N) (x : ℝ) (i : Fin nF) (s s' : S) :
    complexDot (signField σ i₀ k₀ x i s) (signField σ i₀ k₀ x i s') = ((if i = i₀ then x ^ 2 * (σ s * σ s') else 0 : ℝ) : ℂ) := by
  unfold complexDot signField
  by_cases hi : i = i₀
  · rw [if_pos hi, Finset.sum_eq_single k₀]
    · rw [if_pos ⟨hi, rfl⟩, if_pos ⟨hi, rfl⟩, Complex.conj_ofReal]
      push_cast; ring
    · intro k _ h
      rw [if_neg fun e => h e.2, if_neg fun e => h e.2, mul_zero]
    · simp
  · rw [if_neg hi, Complex.ofReal_zero]
    exact Finset.sum_eq_zero fun k _ => by rw [if_neg fun e => hi e.1, if_neg fun e => hi e.1, mul_zero]

theorem energy_signs [Fintype S] (c : ScalarCouplings) (T : Torus S) (σ : S → ℝ) (τ : ℝ) (hσ : ∀ s, σ s * σ s = 1)
    (hτ : ∀ μ s, σ (T.sup μ s) = τ * σ s) (i₀ : Fin nF) (k₀ : Fin N) (x : ℝ) (hl : c.lambdaFundamental = 0) :
    scalarEnergy c T (fun _ _ => 1) ((0, signField σ i₀ k₀ x) : Scalars S N nA nF) =
      Fintype.card S * (4 * τ + c.massFundamental / 2 - 8) * x ^ 2 := by
  have hr0 : ∀ s : S, ∀ i : Fin nA, realDot (atSite (0 : Fin nA → S → AdjVec N) s i) (atSite (0 : Fin nA → S → AdjVec N) s i) = 0 := fun s i => by
    simp [realDot, atSite]
  have hA0 : ∀ i : Fin nA, adjointKinetic T (fun _ _ => (1 : Mat N)) ((0 : Fin nA → S → AdjVec N) i) = 0 := fun i => by
    simp [adjointKinetic, realDot]
  have hF : ∀ i : Fin nF, fundamentalKinetic T (fun _ _ => (1 : Mat N)) (signField σ i₀ k₀ x i) =
      if i = i₀ then Fintype.card S * (4 * τ) * x ^ 2 else 0 := by
    intro i
    unfold fundamentalKinetic
    have h1 : ∀ (μ : Fin 4) (s : S), (complexDot (signField σ i₀ k₀ x i s) ((1 : Mat N) *ᵥ signField σ i₀ k₀ x i (T.sup μ s))).re
        = if i = i₀ then x ^ 2 * τ else 0 := by
      intro μ s
      rw [one_mulVec, signField_dot, Complex.ofReal_re, hτ]
      have : x ^ 2 * (σ s * (τ * σ s)) = x ^ 2 * τ := by
        calc x ^ 2 * (σ s * (τ * σ s)) = x ^ 2 * τ * (σ s * σ s) := by ring
          _ = _ := by rw [hσ, mul_one]
      rw [this]
    simp only [h1, Finset.sum_const, Finset.card_univ, Fintype.card_fin, nsmul_eq_mul]
    split
    · push_cast; ring
    · simp
  have hP : ∀ s : S, potentialEnergy c (atSite (0 : Fin nA → S → AdjVec N) s) (atSite (signField σ i₀ k₀ x) s)
      = (c.massFundamental / 2 - 8) * x ^ 2 := by
    intro s
    rw [potentialEnergy_eq]
    have h1 : ∀ i : Fin nF, (complexDot (atSite (signField σ i₀ k₀ x) s i) (atSite (signField σ i₀ k₀ x) s i)).re = if i = i₀ then x ^ 2 else 0 := by
      intro i
      unfold atSite
      rw [signField_dot, hσ, mul_one, Complex.ofReal_re]
    simp only [hr0, h1, hl, Finset.sum_const_zero, mul_zero, zero_mul, zero_div, add_zero, zero_add]
    rw [Finset.sum_ite_eq' Finset.univ i₀]
    simp
  rw [scalarEnergy_eq]
  simp only [hA0, hF, hP, Finset.sum_const_zero, zero_add]
  rw [Finset.sum_ite_eq' Finset.univ i₀]
  simp only [Finset.mem_univ, if_true, Finset.sum_const, Finset.card_univ, nsmul_eq_mul]
  ring

/-- **C56**: the mass of the options is not the square of the mass of the field.  Without self interaction the energy has no lower bound unless the
number given as mass is at least 24 (for lattices with even extensions; at least 8 for all lattices); the defaults of the options are zero. -/
theorem C56_mass_counterexample [Fintype S] [Nonempty S] (T : Torus S) (c : ScalarCouplings) (hN : 0 < N) (hF : 0 < nF) (hl : c.lambdaFundamental = 0)
    (hm : c.massFundamental < 8 ∨ (c.massFundamental < 24 ∧ ∀ μ, Even (T.ext μ))) (C : ℝ) :
    ∃ (U : GField S N) (Φ : Scalars S N nA nF), (∀ s μ, U s μ ∈ unitaryGroup (Fin N) ℂ) ∧ scalarEnergy c T U Φ < C := by
  have hS : (0 : ℝ) < Fintype.card S := Nat.cast_pos.2 Fintype.card_pos
  rcases hm with hm | ⟨hm, he⟩
  · obtain ⟨x, hx⟩ := unbounded_of_neg (Fintype.card S * (4 * 1 + c.massFundamental / 2 - 8)) (mul_neg_of_pos_of_neg hS (by linarith)) C
    refine ⟨fun _ _ => 1, (0, signField (fun _ => 1) ⟨0, hF⟩ ⟨0, hN⟩ x), fun _ _ => one_mem _, ?_⟩
    rwa [← energy_signs (N := N) (nA := nA) c T (fun _ => 1) 1 (by simp) (by simp) ⟨0, hF⟩ ⟨0, hN⟩ x hl] at hx
  · obtain ⟨x, hx⟩ := unbounded_of_neg (Fintype.card S * (4 * (-1) + c.massFundamental / 2 - 8)) (mul_neg_of_pos_of_neg hS (by linarith)) C
    refine ⟨fun _ _ => 1, (0, signField (stagger T) ⟨0, hF⟩ ⟨0, hN⟩ x), fun _ _ => one_mem _, ?_⟩
    rwa [← energy_signs (N := N) (nA := nA) c T (stagger T) (-1) (stagger_sq T) (fun μ s => by rw [stagger_sup T he]; ring) ⟨0, hF⟩ ⟨0, hN⟩ x hl] at hx

end Leonard
