import Verif.Heat.Null
import Verif.Gauge.Actions

/-!
The staples of the two gauge actions contain a link on which they depend in an affine way.
-/

set_option autoImplicit false

namespace Leonard

open Matrix ComplexConjugate

variable {N : ℕ} {S : Type} [DecidableEq S]

theorem mulLink_self (s : S) (ν : Fin 4) (g : SU N) (Q : LinkSU S N) : linkMat (mulLink s ν g Q) s ν = g.1 * linkMat Q s ν := by
  change ((if s = s ∧ ν = ν then g else 1) * Q s ν).1 = _
  rw [if_pos ⟨rfl, rfl⟩]
  rfl

theorem mulLink_other (s : S) (ν : Fin 4) (g : SU N) (Q : LinkSU S N) (x : S) (α : Fin 4) (h : x ≠ s ∨ α ≠ ν) :
    linkMat (mulLink s ν g Q) x α = linkMat Q x α := by
  change ((if x = s ∧ α = ν then g else 1) * Q x α).1 = _
  rw [if_neg, one_mul]
  · rfl
  · rintro ⟨rfl, rfl⟩
    simp at h

omit [DecidableEq S] in
theorem coord_sup_ne_self (T : Torus S) (h : T.Wide 1) (μ : Fin 4) (s : S) : T.coord (T.sup μ s) μ ≠ T.coord s μ := by
  intro e
  have h1 := T.coord_sup μ s
  rw [e] at h1
  have h2 := T.coord_lt μ s
  have h3 := h μ
  rcases lt_or_ge (T.coord s μ + 1) (T.ext μ) with h4 | h4
  · rw [Nat.mod_eq_of_lt h4] at h1; omega
  · have h5 : T.coord s μ + 1 = T.ext μ := by omega
    rw [h5, Nat.mod_self] at h1; omega

theorem exists_ne_dir (μ : Fin 4) : ∃ ν : Fin 4, ν ≠ μ := ⟨μ + 1, by revert μ; decide⟩

theorem normSq_column (X : SU N) (k : Fin N) : ∑ i, Complex.normSq (X.1 i k) = 1 := by
  have h1 : (X⁻¹).1 * X.1 = 1 := congrArg Subtype.val (inv_mul_cancel X)
  rw [inv_val] at h1
  have h2 := congrFun (congrFun h1 k) k
  rw [Matrix.mul_apply, Matrix.one_apply_eq] at h2
  have h3 : ((∑ i, Complex.normSq (X.1 i k) : ℝ) : ℂ) = 1 := by
    rw [← h2, Complex.ofReal_sum]
    refine Finset.sum_congr rfl fun i _ => ?_
    rw [Complex.normSq_eq_conj_mul_self, conjTranspose_apply, Complex.star_def]
  exact_mod_cast h3

theorem goodFactor_su (X : SU N) : GoodFactor X.1 := by
  refine ⟨fun k => ?_, fun h => ?_⟩
  · by_contra hc
    push Not at hc
    have := normSq_column X k
    simp [hc] at this
  · subst h
    exact (IsQuat.of_su2 X.2).1

/-- A combination with real coefficients, the first of which dominates. -/
theorem goodFactor_comb (X Y Z : SU N) (a c : ℝ) (h : 4 * c ^ 2 < a ^ 2) : GoodFactor (((a : ℂ) • X.1 - (c : ℂ) • (Y.1 + Z.1)) : Mat N) := by
  refine ⟨fun k => ?_, fun hN => ?_⟩
  · by_contra hc
    push Not at hc
    have e : ∀ i, a ^ 2 * Complex.normSq (X.1 i k) ≤ c ^ 2 * (2 * Complex.normSq (Y.1 i k) + 2 * Complex.normSq (Z.1 i k)) := fun i => by
      have h1 : (a : ℂ) * X.1 i k = (c : ℂ) * (Y.1 i k + Z.1 i k) := by
        have := hc i
        rw [Matrix.sub_apply, Matrix.smul_apply, Matrix.smul_apply, Matrix.add_apply, smul_eq_mul, smul_eq_mul] at this
        exact sub_eq_zero.1 this
      have h2 := congrArg Complex.normSq h1
      rw [Complex.normSq_mul, Complex.normSq_mul, Complex.normSq_ofReal, Complex.normSq_ofReal, ← pow_two, ← pow_two] at h2
      rw [h2]
      refine mul_le_mul_of_nonneg_left ?_ (sq_nonneg c)
      rw [Complex.normSq_apply, Complex.normSq_apply, Complex.normSq_apply, Complex.add_re, Complex.add_im]
      nlinarith [sq_nonneg ((Y.1 i k).re - (Z.1 i k).re), sq_nonneg ((Y.1 i k).im - (Z.1 i k).im)]
    have e2 := Finset.sum_le_sum fun i (_ : i ∈ Finset.univ) => e i
    simp only [← Finset.mul_sum, Finset.sum_add_distrib] at e2
    rw [normSq_column, normSq_column, normSq_column] at e2
    linarith
  · subst hN
    have hX := (IsQuat.of_su2 X.2).1
    have hY := (IsQuat.of_su2 Y.2).1
    have hZ := (IsQuat.of_su2 Z.2).1
    obtain ⟨x1, x2⟩ := hX
    obtain ⟨y1, y2⟩ := hY
    obtain ⟨z1, z2⟩ := hZ
    constructor <;> simp [x1, x2, y1, y2, z1, z2] <;> ring

/-- The Wilson action. -/
theorem wilson_moves (T : Torus S) (hT : T.Wide 1) (s : S) (μ : Fin 4) : StapleMoves (N := N) (wilsonStaple T) s μ := by
  obtain ⟨ν, hν⟩ := exists_ne_dir μ
  refine ⟨T.sup μ s, ν, Or.inr hν, fun Q => ?_⟩
  let R : SU N := Q (T.sup μ s) ν * (Q (T.sup ν s) μ)⁻¹ * (Q s ν)⁻¹
  have hR : R.1 = stapleUp T (linkMat Q) s μ ν := rfl
  refine ⟨R.1, wilsonStaple T (linkMat Q) s μ - R.1, goodFactor_su R, fun g => ?_⟩
  let U := linkMat Q
  let U' := linkMat (mulLink (T.sup μ s) ν g Q)
  have h0 : U' (T.sup μ s) ν = g.1 * U (T.sup μ s) ν := mulLink_self _ _ _ _
  have ho : ∀ x α, (x ≠ T.sup μ s ∨ α ≠ ν) → U' x α = U x α := fun x α h => mulLink_other _ _ _ _ x α h
  have a1 := T.sup_ne (le_refl 1) hT
  have hup : stapleUp T U' s μ ν = g.1 * stapleUp T U s μ ν := by
    unfold stapleUp
    rw [h0, ho (T.sup ν s) μ (Or.inr hν.symm), ho s ν (Or.inl (a1 μ s).symm), Matrix.mul_assoc, Matrix.mul_assoc, Matrix.mul_assoc]
  have hdn : stapleDown T U' s μ ν = stapleDown T U s μ ν := by
    unfold stapleDown
    rw [ho (T.sup μ (T.sdn ν s)) ν (Or.inl _), ho (T.sdn ν s) μ (Or.inr hν.symm), ho (T.sdn ν s) ν (Or.inl _)]
    · intro h
      exact T.sup_sup_ne_of_ne (le_refl 1) hT hν s ((T.sdn_eq_iff ν _ _).1 h).symm
    · intro h
      have := (T.sup μ).injective h
      exact a1 ν s ((T.sdn_eq_iff ν s s).1 this).symm
  have hoth : ∀ α, α ≠ ν → α ≠ μ → stapleUp T U' s μ α + stapleDown T U' s μ α = stapleUp T U s μ α + stapleDown T U s μ α := fun α h1 h2 => by
    unfold stapleUp stapleDown
    simp only [fun x => ho x α (Or.inr h1), fun x => ho x μ (Or.inr hν.symm)]
  have hsum : wilsonStaple T U' s μ - wilsonStaple T U s μ = g.1 * R.1 - R.1 := by
    unfold wilsonStaple
    rw [← Finset.sum_sub_distrib, Finset.sum_eq_single ν]
    · rw [if_pos hν, if_pos hν, hup, hdn, hR]
      abel
    · intro α _ h1
      by_cases h2 : α ≠ μ
      · rw [if_pos h2, if_pos h2, hoth α h1 h2, sub_self]
      · rw [if_neg h2, if_neg h2, sub_self]
    · intro h; exact absurd (Finset.mem_univ ν) h
  change wilsonStaple T U' s μ = _
  rw [sub_eq_iff_eq_add.1 hsum]
  change _ = g.1 * R.1 + (wilsonStaple T U s μ - R.1)
  abel

/-- The improved action. -/
theorem improved_moves (T : Torus S) (hT : T.Wide 2) (u0 : ℝ) (hu : 1 < 10 * u0 ^ 2) (s : S) (μ : Fin 4) : StapleMoves (N := N) (improvedStaple u0 T) s μ := by
  obtain ⟨ν, hν⟩ := exists_ne_dir μ
  refine ⟨T.sup μ s, ν, Or.inr hν, fun Q => ?_⟩
  let V : SU N := Q (T.sup μ s) ν
  let X : SU N := V * (Q (T.sup ν s) μ)⁻¹ * (Q s ν)⁻¹
  let Y : SU N := V * (Q (T.sup ν s) μ)⁻¹ * (Q (T.sup ν (T.sdn μ s)) μ)⁻¹ * (Q (T.sdn μ s) ν)⁻¹ * Q (T.sdn μ s) μ
  let Z : SU N := V * Q (T.sup ν (T.sup μ s)) ν * (Q (T.sup ν (T.sup ν s)) μ)⁻¹ * (Q (T.sup ν s) ν)⁻¹ * (Q s ν)⁻¹
  let c : ℝ := 1 / (12 * u0 * u0)
  let R : Mat N := ((5 / 3 : ℝ) : ℂ) • X.1 - (c : ℂ) • (Y.1 + Z.1)
  have hc : 4 * c ^ 2 < (5 / 3 : ℝ) ^ 2 := by
    have hu2 : 0 < u0 ^ 2 := by linarith
    have h1 : 0 < c := by
      have : 0 < 12 * u0 * u0 := by nlinarith
      positivity
    have h2 : c < 5 / 6 := by
      have : 0 < 12 * u0 * u0 := by nlinarith
      rw [div_lt_iff₀ this]
      nlinarith
    nlinarith
  refine ⟨R, improvedStaple u0 T (linkMat Q) s μ - R, goodFactor_comb X Y Z _ c hc, fun g => ?_⟩
  let U := linkMat Q
  let U' := linkMat (mulLink (T.sup μ s) ν g Q)
  have h0 : U' (T.sup μ s) ν = g.1 * U (T.sup μ s) ν := mulLink_self _ _ _ _
  have ho : ∀ x α, (x ≠ T.sup μ s ∨ α ≠ ν) → U' x α = U x α := fun x α h => mulLink_other _ _ _ _ x α h
  have w1 : T.Wide 1 := hT.mono (by decide)
  have a1 := T.sup_ne (le_refl 1) w1
  have a2 := T.sup_sup_ne (le_refl 2) hT
  have a3 := fun {α β : Fin 4} (h : α ≠ β) => T.sup_sup_ne_of_ne (le_refl 1) w1 h
  have d1 : ∀ α x, T.sdn α x ≠ x := fun α x h => a1 α x ((T.sdn_eq_iff α x x).1 h).symm
  have d2 : ∀ α x, T.sdn α (T.sdn α x) ≠ x := fun α x h => a2 α x (by
    have := (T.sdn_eq_iff α _ _).1 h
    exact ((T.sdn_eq_iff α _ _).1 this).symm)
  have hm : ∀ x, U' x μ = U x μ := fun x => ho x μ (Or.inr hν.symm)
  have e1 : U' s ν = U s ν := ho s ν (Or.inl (a1 μ s).symm)
  have e2 : U' (T.sup μ (T.sdn ν s)) ν = U (T.sup μ (T.sdn ν s)) ν := ho _ ν (Or.inl fun h => d1 ν s ((T.sup μ).injective h))
  have e3 : U' (T.sdn ν s) ν = U (T.sdn ν s) ν := ho _ ν (Or.inl fun h => a3 hν s ((T.sdn_eq_iff ν _ _).1 h).symm)
  have e4 : U' (T.sup μ (T.sup μ s)) ν = U (T.sup μ (T.sup μ s)) ν := ho _ ν (Or.inl fun h => a1 μ _ h)
  have e5 : U' (T.sdn μ s) ν = U (T.sdn μ s) ν := ho _ ν (Or.inl fun h => a2 μ s ((T.sdn_eq_iff μ _ _).1 h).symm)
  have e6 : U' (T.sdn ν (T.sup μ (T.sup μ s))) ν = U (T.sdn ν (T.sup μ (T.sup μ s))) ν := ho _ ν (Or.inl fun h => by
    have h1 := (T.sdn_eq_iff ν _ _).1 h
    rw [T.comm ν μ] at h1
    exact T.sup_ne_sup (le_refl 1) w1 hν.symm s ((T.sup μ).injective h1))
  have e7 : U' (T.sdn ν (T.sdn μ s)) ν = U (T.sdn ν (T.sdn μ s)) ν := ho _ ν (Or.inl fun h => by
    have h1 := congrArg (fun x => T.coord x ν) ((T.sdn_eq_iff μ _ _).1 ((T.sdn_eq_iff ν _ _).1 h))
    rw [T.coord_sup_ne μ ν _ hν.symm, ← T.coord_sup_ne μ ν s hν.symm] at h1
    exact coord_sup_ne_self T w1 ν _ h1.symm)
  have e8 : U' (T.sup ν (T.sup μ s)) ν = U (T.sup ν (T.sup μ s)) ν := ho _ ν (Or.inl fun h => a1 ν _ h)
  have e9 : U' (T.sup ν s) ν = U (T.sup ν s) ν := ho _ ν (Or.inl fun h => T.sup_ne_sup (le_refl 1) w1 hν s h)
  have e10 : U' (T.sup μ (T.sdn ν (T.sdn ν s))) ν = U (T.sup μ (T.sdn ν (T.sdn ν s))) ν := ho _ ν (Or.inl fun h => d2 ν s ((T.sup μ).injective h))
  have e11 : U' (T.sdn ν (T.sdn ν s)) ν = U (T.sdn ν (T.sdn ν s)) ν := ho _ ν (Or.inl fun h => by
    have h1 := congrArg (fun x => T.coord x μ) ((T.sdn_eq_iff ν _ _).1 ((T.sdn_eq_iff ν _ _).1 h))
    rw [T.coord_sup_ne ν μ _ hν, T.coord_sup_ne ν μ _ hν] at h1
    exact coord_sup_ne_self T w1 μ _ h1.symm)
  have hX : X.1 = stapleUp T U s μ ν := rfl
  have hup : stapleUp T U' s μ ν = g.1 * X.1 := by
    rw [hX]
    unfold stapleUp
    rw [h0, hm, e1, Matrix.mul_assoc, Matrix.mul_assoc, Matrix.mul_assoc]
  have hdn : stapleDown T U' s μ ν = stapleDown T U s μ ν := by
    unfold stapleDown
    rw [e2, hm, e3]
  have hY : Y.1 = U (T.sup μ s) ν * (U (T.sup ν s) μ)ᴴ * (U (T.sup ν (T.sdn μ s)) μ)ᴴ * (U (T.sdn μ s) ν)ᴴ * U (T.sdn μ s) μ := rfl
  have hZ : Z.1 = U (T.sup μ s) ν * U (T.sup ν (T.sup μ s)) ν * (U (T.sup ν (T.sup ν s)) μ)ᴴ * (U (T.sup ν s) ν)ᴴ * (U s ν)ᴴ := rfl
  have hre : rectStaple T U' s μ ν = rectStaple T U s μ ν + (g.1 * (Y.1 + Z.1) - (Y.1 + Z.1)) := by
    unfold rectStaple
    simp only [hm, h0, e1, e2, e3, e4, e5, e6, e7, e8, e9, e10, e11]
    rw [hY, hZ]
    simp only [Matrix.mul_add, Matrix.mul_assoc]
    abel
  have hoth : ∀ α, α ≠ ν → α ≠ μ → stapleUp T U' s μ α + stapleDown T U' s μ α = stapleUp T U s μ α + stapleDown T U s μ α
      ∧ rectStaple T U' s μ α = rectStaple T U s μ α := fun α h1 h2 => by
    unfold stapleUp stapleDown rectStaple
    simp only [fun x => ho x α (Or.inr h1), hm, and_self]
  have hsum : improvedStaple u0 T U' s μ - improvedStaple u0 T U s μ = g.1 * R - R := by
    unfold improvedStaple
    rw [← Finset.sum_sub_distrib, Finset.sum_eq_single ν]
    · rw [if_pos hν, if_pos hν, hup, hdn, hre, hX]
      simp only [R, c, hX, smul_add, smul_sub, Matrix.mul_sub, Matrix.mul_smul, Matrix.mul_add]
      abel
    · intro α _ h1
      by_cases h2 : α ≠ μ
      · rw [if_pos h2, if_pos h2, (hoth α h1 h2).1, (hoth α h1 h2).2, sub_self]
      · rw [if_neg h2, if_neg h2, sub_self]
    · intro h; exact absurd (Finset.mem_univ ν) h
  change improvedStaple u0 T U' s μ = _
  rw [sub_eq_iff_eq_add.1 hsum]
  change _ = g.1 * R + (improvedStaple u0 T U s μ - R)
  abel

end Leonard
