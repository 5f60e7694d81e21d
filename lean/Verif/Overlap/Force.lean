import Verif.Overlap.Algebra

/-!
# The overlap operator as a function of the links
-/

set_option autoImplicit false

namespace Leonard

open Matrix Polynomial
open scoped ContDiff Topology Matrix.Norms.Operator

variable {S : Type} [Fintype S] {M : ℕ}

theorem optMulAdd_eq (T : Torus S) (L : GField S M) (κ : ℝ) (v w : SField S M) (z : ℂ) :
    optMulAdd T L κ true v w z = optMul T L κ true v + z • w :=
  Outcome.ok.inj ((C33_add T L κ 0 0 true id).1 0 v w z)

theorem wilson_csmul (T : Torus S) (κ : ℝ) (L : GField S M) (z : ℂ) (v : SField S M) :
    wilsonFamily T κ L (z • v) = z • wilsonFamily T κ L v := by
  have h : ∀ v, wilsonFamily T κ L v = gamma5Field v + (-κ) • gamma5Field (hoppingSpec T L v) := fun _ => rfl
  have hh : hoppingSpec T L (z • v) = z • hoppingSpec T L v := by
    funext x
    simp only [hoppingSpec, Pi.smul_apply, Finset.smul_sum]
    refine Finset.sum_congr rfl fun μ _ => ?_
    simp only [Matrix.smul_mul, Matrix.mul_smul, smul_add]
  rw [h, h, hh, gamma5Field_smul, gamma5Field_smul, smul_add, smul_comm z]

theorem overlapStep_eq (T : Torus S) (κ c : ℝ) (L : GField S M) (v : SField S M) (r : ℂ) :
    overlapStep T κ c L v r = scaledStep (wilsonFamily T κ L) c v r := by
  rw [overlapStep, optMulAdd_eq, scaledStep, rootFactor_apply, (wilson_isDirac T κ).apply, (wilson_isDirac T κ).apply, neg_smul,
    sub_eq_add_neg]

/-- The scaling of the operator: the sign of the scaling times its modulus to the number of roots. -/
noncomputable def opScale (scaling : ℂ) (n : ℕ) : ℝ := (if scaling.re < 0 then -1 else 1) * |scaling.re| ^ n

theorem rootPoly_eq (scaling : ℂ) (rs : List ℂ) :
    rootPoly scaling rs = C (opScale scaling rs.length : ℂ) * (rs.map fun r => X - C r).prod := by
  have h : ∀ rs : List ℂ, (rs.map fun r => C ((|scaling.re| : ℝ) : ℂ) * (X - C r)).prod =
      C ((|scaling.re| ^ rs.length : ℝ) : ℂ) * (rs.map fun r => X - C r).prod := by
    intro rs
    induction rs with
    | nil => simp
    | cons r rs ih =>
      rw [List.map_cons, List.prod_cons, ih, List.map_cons, List.prod_cons, List.length_cons, pow_succ]
      push_cast
      rw [map_mul]
      ring
  rw [rootPoly, h, opScale, ← mul_assoc, ← map_mul]
  congr 2
  push_cast
  split <;> simp

theorem overlapPoly_eq (T : Torus S) (κ : ℝ) (scaling : ℂ) (roots : List ℂ) (h : roots ≠ []) (old : SField S M) (L : GField S M)
    (v : SField S M) : overlapPoly T κ scaling roots old L v =
      .ok ((opScale scaling roots.length : ℂ) • rootProd (wilsonFamily T κ L) roots v) := by
  have hl := wilson_csmul T κ L
  rw [overlapPoly, C40_poly (sqLin (wilsonFamily T κ L) hl) (fun v z => ?_) scaling old roots h v, rootPoly_eq, map_mul, aeval_C,
    Module.End.mul_apply, Module.algebraMap_end_apply, aeval_rootProd hl]
  rw [optMulAdd_eq]
  change _ = wilsonFamily T κ L (wilsonFamily T κ L v) + z • v
  rw [(wilson_isDirac T κ).apply, (wilson_isDirac T κ).apply]

theorem overlapOut_true (mass : ℝ) (v sg : SField S M) :
    overlapOut mass true v sg = (1 / 2 + mass / 2) • gamma5Field v + (1 / 2 - mass / 2) • sg := by
  funext x
  ext c i
  simp only [overlapOut, if_true, Matrix.of_apply, Pi.add_apply, Pi.smul_apply, Matrix.add_apply, Matrix.smul_apply, gamma5Field, gamma5_apply,
    Complex.real_smul]
  fin_cases c <;> simp <;> ring

theorem overlapOut_false (mass : ℝ) (v sg : SField S M) :
    overlapOut mass false v sg = (1 / 2 + mass / 2) • v + (1 / 2 - mass / 2) • gamma5Field sg := by
  funext x
  ext c i
  simp only [overlapOut, Bool.false_eq_true, if_false, Matrix.of_apply, Pi.add_apply, Pi.smul_apply, Matrix.add_apply, Matrix.smul_apply,
    gamma5Field, gamma5_apply, Complex.real_smul]
  fin_cases c <;> simp <;> ring

/-- The overlap operator with gamma5 as a family of operators. -/
noncomputable def overlapFamily (T : Torus S) (κ mass c : ℝ) (roots : List ℂ) (L : GField S M) : Op (SField S M) :=
  (1 / 2 + mass / 2) • LinearMap.toContinuousLinearMap gamma5Lin
    + ((1 / 2 - mass / 2) * c) • (wilsonFamily T κ L * rootProd (wilsonFamily T κ L) roots)

theorem overlap_isDirac (T : Torus S) (κ mass : ℝ) (scaling : ℂ) (roots : List ℂ) (old : SField S M) (hr : RealRoots roots)
    (mul : GField S M → SField S M → SField S M) (hm : ∀ L v, overlapMul T κ mass scaling roots old true L v = .ok (mul L v)) :
    IsDirac mul (overlapFamily T κ mass (opScale scaling roots.length) roots) := by
  have hne : roots ≠ [] := by
    rintro rfl
    have := hm 0 0
    cases this
  have hW := wilson_isDirac (M := M) T κ
  refine ⟨⟨?_, fun L v w => ?_, rdotB_comm⟩, fun L v => ?_⟩
  · exact contDiff_const.add ((hW.family.smooth.clm_comp (contDiff_rootProd hW.family.smooth roots)).const_smul _)
  · have h1 := symm_rootProd (wilson_csmul T κ L) (hW.family.symm L) hr v w
    have h2 : rdot v (gamma5Field w) = rdot (gamma5Field v) w := by unfold rdot; rw [gamma5Field_move]
    have e : ∀ v, overlapFamily T κ mass (opScale scaling roots.length) roots L v = (1 / 2 + mass / 2) • gamma5Field v
      + ((1 / 2 - mass / 2) * opScale scaling roots.length) • (wilsonFamily T κ L * rootProd (wilsonFamily T κ L) roots) v := fun _ => rfl
    rw [rdotB_apply, rdotB_apply] at h1 ⊢
    rw [e, e, rdot_add, rdot_comm _ w, rdot_add, rdot_smul, rdot_smul, rdot_smul, rdot_smul, h1, h2, rdot_comm w, rdot_comm w]
  · have h := hm L v
    rw [overlapMul, overlapPoly_eq T κ scaling roots hne] at h
    have h' := Outcome.ok.inj h
    rw [← h', overlapOut_true, ← hW.apply, wilson_csmul, Complex.coe_smul, smul_smul]
    rfl

/-- The change of the family. -/
theorem fderiv_overlap (T : Torus S) (κ mass c : ℝ) (roots : List ℂ) (L V : GField S M) :
    fderiv ℝ (overlapFamily T κ mass c roots) L V = ((1 / 2 - mass / 2) * c) •
      (fderiv ℝ (wilsonFamily T κ) L V * rootProd (wilsonFamily T κ L) roots
        + wilsonFamily T κ L * rootDeriv (wilsonFamily T κ L) (fderiv ℝ (wilsonFamily T κ) L V) roots) := by
  have hW := wilson_isDirac (M := M) T κ
  have hline : HasDerivAt (fun t : ℝ => L + t • V) V 0 := by
    have h := ((hasDerivAt_id (0 : ℝ)).smul_const V).const_add L
    rw [one_smul] at h
    exact h
  have h0 : L + (0 : ℝ) • V = L := by rw [zero_smul, add_zero]
  have hQ : HasDerivAt (fun t : ℝ => wilsonFamily T κ (L + t • V)) (fderiv ℝ (wilsonFamily T κ) L V) 0 := by
    have h := (hW.family.hasFDerivAt (L + (0 : ℝ) • V)).comp_hasDerivAt (0 : ℝ) hline
    rw [h0] at h
    exact h
  have hP := (hQ.mul (hasDerivAt_rootProd hQ roots)).const_smul ((1 / 2 - mass / 2) * c)
  have hA : HasDerivAt (fun t : ℝ => overlapFamily T κ mass c roots (L + t • V)) _ 0 :=
    HasDerivAt.const_add (F := Op (SField S M)) ((1 / 2 + mass / 2) • LinearMap.toContinuousLinearMap gamma5Lin) hP
  have hd : DifferentiableAt ℝ (overlapFamily T κ mass c roots) L := by
    have : ContDiff ℝ ∞ (overlapFamily (M := M) T κ mass c roots) :=
      contDiff_const.add ((hW.family.smooth.clm_comp (contDiff_rootProd hW.family.smooth roots)).const_smul _)
    exact (this.differentiable (by simp)).differentiableAt
  have hA2 : HasDerivAt (fun t : ℝ => overlapFamily T κ mass c roots (L + t • V)) (fderiv ℝ (overlapFamily T κ mass c roots) L V) 0 := by
    have hd' : HasFDerivAt (overlapFamily T κ mass c roots) (fderiv ℝ (overlapFamily T κ mass c roots) L) (L + (0 : ℝ) • V) := by
      rw [h0]; exact hd.hasFDerivAt
    exact hd'.comp_hasDerivAt (0 : ℝ) hline
  have hu := hA2.unique hA
  rw [hu, h0]

/-- What the program computes, for scaling `c` to the number of roots. -/
theorem overlap_link (T : Torus S) (κ mass : ℝ) (scaling : ℂ) (roots : List ℂ) : 
    IsLinkDerivative (M := M) (overlapFamily T κ mass (scaling.re ^ roots.length) roots) (overlapDerivative T κ mass scaling roots) := by
  intro L X Y s μ t hL ht
  have hW := wilson_isDirac (M := M) T κ
  have hl := wilson_csmul T κ L
  have hs := hW.family.symm L
  have hd := wilson_isLinkDerivative (M := M) T κ
  rw [fderiv_overlap]
  generalize hV : fderiv ℝ (wilsonFamily T κ) L (oneLink s μ (Complex.I • (t * L s μ))) = Q'
  have hwd : ∀ X Y, (trace (wilsonDerivative T κ L X Y s μ * t * L s μ)).im = -2 * rdot X (Q' Y) := by
    intro X Y
    rw [hd L X Y s μ t hL ht, hV]
  have hsm : ∀ (a : ℝ) (D : Mat M), (trace ((a : ℂ) • D * t * L s μ)).im = a * (trace (D * t * L s μ)).im := by
    intro a D
    rw [Matrix.smul_mul, Matrix.smul_mul, trace_smul, smul_eq_mul, Complex.im_ofReal_mul]
  have hstep : overlapStep T κ scaling.re L = scaledStep (wilsonFamily T κ L) scaling.re := by
    funext v r
    exact overlapStep_eq T κ _ L v r
  have hmul : ∀ v, optMul T L κ true v = wilsonFamily T κ L v := fun v => (hW.apply L v).symm
  have hf : (0.5 - (mass : ℂ) / 2) = ((1 / 2 - mass / 2 : ℝ) : ℂ) := by push_cast; norm_num
  have hsf : (scaling.re : ℂ) * ((1 / 2 - mass / 2 : ℝ) : ℂ) = ((scaling.re * (1 / 2 - mass / 2) : ℝ) : ℂ) := by push_cast; rfl
  unfold overlapDerivative
  simp only [hstep, hmul, hf, hsf]
  rw [Matrix.add_mul, Matrix.add_mul, trace_add, Complex.add_im, Matrix.sum_mul, Matrix.sum_mul, trace_sum, Complex.im_sum, hsm, hwd]
  obtain ⟨l, hlft⟩ : ∃ l : ℕ → SField S M, l = fun i => ((roots.reverse.map (starRingEnd ℂ)).take (roots.length - i - 1)).foldl
      (scaledStep (wilsonFamily T κ L) scaling.re) (wilsonFamily T κ L X) := ⟨_, rfl⟩
  obtain ⟨q, hq⟩ : ∃ q : ℕ → SField S M, q = fun i => (roots.take i).foldl (scaledStep (wilsonFamily T κ L) scaling.re) Y := ⟨_, rfl⟩
  have e1 : ∀ i, (((roots.reverse.map (starRingEnd ℂ)).scanl (scaledStep (wilsonFamily T κ L) scaling.re) (wilsonFamily T κ L X))[roots.length - i - 1]?).getD 0
      = l i := fun i => by rw [hlft]; exact scanl_getD _ _ _ _ _ (by simp; omega)
  have e2 : ∀ i ≤ roots.length, ((roots.scanl (scaledStep (wilsonFamily T κ L) scaling.re) Y)[i]?).getD 0 = q i := fun i hi => by
    rw [hq]; exact scanl_getD _ _ _ _ _ hi
  have hq' : q roots.length = ((scaling.re : ℂ) ^ roots.length) • rootProd (wilsonFamily T κ L) roots Y := by
    rw [hq]
    change (roots.take roots.length).foldl _ _ = _
    rw [List.take_length, foldl_right hl]
  have hterm : ∀ i ∈ Finset.range roots.length, (trace ((((scaling.re * (1 / 2 - mass / 2) : ℝ) : ℂ) • wilsonDerivative T κ L (wilsonFamily T κ L
      ((((roots.reverse.map (starRingEnd ℂ)).scanl (scaledStep (wilsonFamily T κ L) scaling.re) (wilsonFamily T κ L X))[roots.length - i - 1]?).getD 0))
        (((roots.scanl (scaledStep (wilsonFamily T κ L) scaling.re) Y)[i]?).getD 0) s μ
      + ((scaling.re * (1 / 2 - mass / 2) : ℝ) : ℂ) • wilsonDerivative T κ L
        ((((roots.reverse.map (starRingEnd ℂ)).scanl (scaledStep (wilsonFamily T κ L) scaling.re) (wilsonFamily T κ L X))[roots.length - i - 1]?).getD 0)
        (wilsonFamily T κ L (((roots.scanl (scaledStep (wilsonFamily T κ L) scaling.re) Y)[i]?).getD 0)) s μ) * t * L s μ)).im
      = -2 * (1 / 2 - mass / 2) * (scaling.re * (rdot (wilsonFamily T κ L (l i)) (Q' (q i)) + rdot (l i) (Q' (wilsonFamily T κ L (q i))))) := fun i hi => by
    rw [e1, e2 i (Finset.mem_range.1 hi).le, Matrix.add_mul, Matrix.add_mul, trace_add, Complex.add_im, hsm, hsm, hwd, hwd]
    ring
  rw [Finset.sum_congr rfl hterm, e2 _ le_rfl, hq']
  have hsum := root_pairs hl hs Q' scaling.re (wilsonFamily T κ L X) roots Y
  have hp : ((scaling.re : ℂ) ^ roots.length) = ((scaling.re ^ roots.length : ℝ) : ℂ) := by push_cast; rfl
  rw [hp, Complex.coe_smul, map_smul, rdot_smul]
  have hR : rdot X ((((1 / 2 - mass / 2) * scaling.re ^ roots.length) •
      (Q' * rootProd (wilsonFamily T κ L) roots + wilsonFamily T κ L * rootDeriv (wilsonFamily T κ L) Q' roots)) Y) =
      (1 / 2 - mass / 2) * scaling.re ^ roots.length * (rdot X (Q' (rootProd (wilsonFamily T κ L) roots Y))
        + rdot (wilsonFamily T κ L X) (rootDeriv (wilsonFamily T κ L) Q' roots Y)) := by
    have hs' : ∀ v w, rdot v (wilsonFamily T κ L w) = rdot (wilsonFamily T κ L v) w := hs
    change rdot X (((1 / 2 - mass / 2) * scaling.re ^ roots.length) •
      (Q' (rootProd (wilsonFamily T κ L) roots Y) + wilsonFamily T κ L (rootDeriv (wilsonFamily T κ L) Q' roots Y))) = _
    rw [rdot_smul, rdot_add, hs']
  rw [hR]
  rw [hlft, hq]
  rw [← Finset.mul_sum, hsum]
  ring

/-- The force uses the scaling of the operator unless the scaling is negative and the number of roots even. -/
theorem opScale_eq (scaling : ℂ) (n : ℕ) (h : 0 ≤ scaling.re ∨ Odd n) : opScale scaling n = scaling.re ^ n := by
  unfold opScale
  rcases h with h | h
  · rw [if_neg (not_lt.2 h), one_mul, abs_of_nonneg h]
  · split
    · rename_i h'
      rw [abs_of_neg h', h.neg_pow]
      ring
    · rename_i h'
      rw [one_mul, abs_of_nonneg (not_lt.1 h')]

theorem opScale_neg (scaling : ℂ) (n : ℕ) (hs : scaling.re < 0) (h : Even n) : opScale scaling n = -scaling.re ^ n := by
  unfold opScale
  rw [if_pos hs, abs_of_neg hs, h.neg_pow]
  ring

end Leonard
