import Verif.Overlap.Spectral

/-!
# The approximated sign of the Wilson operator
-/

set_option autoImplicit false

namespace Leonard

open Matrix Polynomial
open scoped ComplexConjugate ContDiff Matrix.Norms.Operator

variable {S : Type} [Fintype S] {M : ℕ}

theorem fieldNorm_gamma5 (w : SField S M) : fieldNorm (gamma5Field w) = fieldNorm w := by
  unfold fieldNorm
  simp only [gamma5Field_apply, norm_mul]
  have : ∀ mu, ‖spinSign mu‖ = 1 := by intro mu; unfold spinSign; split <;> simp
  simp only [this, one_mul]

theorem fieldNorm_half (w : SField S M) : fieldNorm ((1 / 2 : ℝ) • w) = 1 / 2 * fieldNorm w := by
  rw [← norm_toE, ← norm_toE, ← Complex.coe_smul, toE_smul, norm_smul]
  norm_num

/-- The Wilson operator with gamma5. -/
noncomputable def wilsonLin (T : Torus S) (κ : ℝ) (L : GField S M) : SField S M →ₗ[ℂ] SField S M where
  toFun v := wilsonFamily T κ L v
  map_add' := map_add _
  map_smul' := wilson_csmul T κ L

theorem wilsonLin_apply (T : Torus S) (κ : ℝ) (L : GField S M) (v : SField S M) : wilsonLin T κ L v = optMul T L κ true v :=
  (wilson_isDirac T κ).apply L v

/-- The polynomial approximation of the sign. -/
noncomputable def signLin (T : Torus S) (κ : ℝ) (scaling : ℂ) (roots : List ℂ) (L : GField S M) : SField S M →ₗ[ℂ] SField S M where
  toFun v := (opScale scaling roots.length : ℂ) • wilsonFamily T κ L (rootProd (wilsonFamily T κ L) roots v)
  map_add' v w := by rw [map_add, map_add, smul_add]
  map_smul' z v := by rw [rootProd_csmul (wilson_csmul T κ L), wilson_csmul, smul_comm]; rfl

theorem signLin_apply (T : Torus S) (κ : ℝ) (scaling : ℂ) (roots : List ℂ) (L : GField S M) (v : SField S M) : signLin T κ scaling roots L v =
    (opScale scaling roots.length : ℂ) • wilsonFamily T κ L (rootProd (wilsonFamily T κ L) roots v) := rfl

theorem overlapMul_eq (T : Torus S) (κ mass : ℝ) (scaling : ℂ) (roots : List ℂ) (h : roots ≠ []) (old : SField S M) (g5 : Bool) (L : GField S M)
    (v : SField S M) : overlapMul T κ mass scaling roots old g5 L v = .ok (overlapOut mass g5 v (signLin T κ scaling roots L v)) := by
  rw [overlapMul, overlapPoly_eq T κ scaling roots h]
  change Outcome.ok _ = _
  rw [← (wilson_isDirac T κ).apply, wilson_csmul, signLin_apply]

theorem overlapMul_ne (T : Torus S) (κ mass : ℝ) (scaling : ℂ) (roots : List ℂ) (old : SField S M) (g5 : Bool) (L : GField S M)
    (v w : SField S M) (h : overlapMul T κ mass scaling roots old g5 L v = .ok w) : roots ≠ [] := by
  rintro rfl
  cases h

theorem rootProd_eigen {Q : Op (SField S M)} (hl : ∀ (z : ℂ) v, Q (z • v) = z • Q v) {lam : ℂ} {v : SField S M} (hv : Q v = lam • v) :
    ∀ rs : List ℂ, rootProd Q rs v = (rs.map fun r => lam ^ 2 - r).prod • v
  | [] => by rw [List.map_nil, List.prod_nil, one_smul]; rfl
  | r :: rs => by
    change rootProd Q rs (rootFactor Q r v) = _
    rw [rootFactor_apply, hv, hl, hv, smul_smul, ← sub_smul, rootProd_csmul hl, rootProd_eigen hl hv rs, smul_smul, List.map_cons, List.prod_cons,
      pow_two]

theorem rootPoly_eval (scaling : ℂ) (rs : List ℂ) (x : ℂ) :
    (rootPoly scaling rs).eval x = (opScale scaling rs.length : ℂ) * (rs.map fun r => x - r).prod := by
  rw [rootPoly_eq, eval_mul, eval_C, eval_list_prod, List.map_map]
  congr 2
  apply List.map_congr_left
  intro r _
  simp

theorem signLin_eigen (T : Torus S) (κ : ℝ) (scaling : ℂ) (roots : List ℂ) (L : GField S M) {lam : ℂ} {v : SField S M}
    (hv : wilsonFamily T κ L v = lam • v) : signLin T κ scaling roots L v = (lam * (rootPoly scaling roots).eval (lam ^ 2)) • v := by
  rw [signLin_apply, rootProd_eigen (wilson_csmul T κ L) hv, wilson_csmul, hv, smul_smul, smul_smul, rootPoly_eval]
  congr 1
  ring

/-- A linear operator symmetric for the real part of the product is Hermitian. -/
theorem hermitian_of_rdot (F : SField S M →ₗ[ℂ] SField S M) (h : ∀ v w, rdot v (F w) = rdot (F v) w) (v w : SField S M) :
    latticeDot v (F w) = latticeDot (F v) w := by
  refine Complex.ext (h v w) ?_
  have h1 := h v ((-Complex.I) • w)
  rw [map_smul] at h1
  unfold rdot at h1
  rw [latticeDot_smul, latticeDot_smul] at h1
  simpa using h1

theorem wilsonLin_hermitian (T : Torus S) (κ : ℝ) (L : GField S M) (v w : SField S M) :
    latticeDot v (wilsonLin T κ L w) = latticeDot (wilsonLin T κ L v) w := by
  have h : ∀ v w, rdot v (wilsonFamily T κ L w) = rdot (wilsonFamily T κ L v) w := (wilson_isDirac (M := M) T κ).family.symm L
  exact hermitian_of_rdot (wilsonLin T κ L) h v w

theorem signLin_hermitian (T : Torus S) (κ : ℝ) (scaling : ℂ) (roots : List ℂ) (hr : RealRoots roots) (L : GField S M) (v w : SField S M) :
    latticeDot v (signLin T κ scaling roots L w) = latticeDot (signLin T κ scaling roots L v) w := by
  refine hermitian_of_rdot _ (fun v w => ?_) v w
  have h := symm_rootProd (wilson_csmul T κ L) ((wilson_isDirac (M := M) T κ).family.symm L) hr v w
  have h' : rdot v (wilsonFamily T κ L (rootProd (wilsonFamily T κ L) roots w)) = rdot (wilsonFamily T κ L (rootProd (wilsonFamily T κ L) roots v)) w := h
  rw [signLin_apply, signLin_apply, Complex.coe_smul, Complex.coe_smul, rdot_smul, rdot_comm _ w, rdot_smul, h', rdot_comm w]

/-- The product with an eigenvector. -/
theorem dot_signLin (T : Torus S) (κ : ℝ) (scaling : ℂ) (roots : List ℂ) (L : GField S M) {lam : ℝ} {u : SField S M}
    (hu : wilsonFamily T κ L u = (lam : ℂ) • u) (x : SField S M) :
    latticeDot u (signLin T κ scaling roots L x) = ((lam : ℂ) * (rootPoly scaling roots).eval ((lam : ℂ) ^ 2)) * latticeDot u x := by
  have hQ : ∀ y, latticeDot u (wilsonFamily T κ L y) = (lam : ℂ) * latticeDot u y := by
    intro y
    have h := wilsonLin_hermitian T κ L u y
    have h' : latticeDot u (wilsonFamily T κ L y) = latticeDot (wilsonFamily T κ L u) y := h
    rw [h', hu, ← latticeDot_conj, latticeDot_smul, map_mul, latticeDot_conj, Complex.conj_ofReal]
  have hP : ∀ (rs : List ℂ) (y : SField S M), latticeDot u (rootProd (wilsonFamily T κ L) rs y) =
      (rs.map fun r => (lam : ℂ) ^ 2 - r).prod * latticeDot u y := by
    intro rs
    induction rs with
    | nil => intro y; rw [List.map_nil, List.prod_nil, one_mul]; rfl
    | cons r rs ih =>
      intro y
      change latticeDot u (rootProd (wilsonFamily T κ L) rs (rootFactor (wilsonFamily T κ L) r y)) = _
      rw [ih, rootFactor_apply, sub_eq_add_neg, ← neg_smul, latticeDot_add, latticeDot_smul, hQ, hQ, List.map_cons, List.prod_cons]
      ring
  rw [signLin_apply, latticeDot_smul, hQ, hP, rootPoly_eval]
  ring

/-- The Ginsparg–Wilson relation is broken by what the square of the sign lacks to one. -/
theorem gw_identity (E : SField S M → SField S M) (hadd : ∀ v w, E (v + w) = E v + E w) (hsm : ∀ (c : ℝ) v, E (c • v) = c • E v)
    (D : SField S M → SField S M) (hD : ∀ v, D v = (1 / 2 : ℝ) • v + (1 / 2 : ℝ) • gamma5Field (E v)) (v : SField S M) :
    gamma5Field (D v) + D (gamma5Field v) - (2 : ℝ) • D (gamma5Field (D v)) = (1 / 2 : ℝ) • gamma5Field (v - E (E v)) := by
  have hg : gamma5Field (v - E (E v)) = gamma5Field v - gamma5Field (E (E v)) := by
    rw [sub_eq_add_neg, ← neg_one_smul ℝ (E (E v)), gamma5Field_add, gamma5Field_rsmul, neg_one_smul, ← sub_eq_add_neg]
  simp only [hD, gamma5Field_add, gamma5Field_rsmul, gamma5Field_gamma5Field, hadd, hsm, hg]
  module

/-! ### The part treated exactly -/

/-- A combination of projections. -/
noncomputable def projSum (f : ℝ → ℂ) (eigs : List (ℝ × SField S M)) (v : SField S M) : SField S M :=
  (eigs.map fun e => (f e.1 * latticeDot e.2 v) • e.2).sum

theorem projSum_nil (f : ℝ → ℂ) (v : SField S M) : projSum f [] v = 0 := rfl

theorem projSum_cons (f : ℝ → ℂ) (e : ℝ × SField S M) (es : List (ℝ × SField S M)) (v : SField S M) :
    projSum f (e :: es) v = (f e.1 * latticeDot e.2 v) • e.2 + projSum f es v := rfl

/-- The sign of the code. -/
noncomputable def codeSign (lam : ℝ) : ℂ := if lam < 0 then -1 else 1

theorem codeSign_sq (lam : ℝ) : codeSign lam * codeSign lam = 1 := by unfold codeSign; split <;> ring

theorem codeSign_conj (lam : ℝ) : starRingEnd ℂ (codeSign lam) = codeSign lam := by unfold codeSign; split <;> simp

theorem exactLoop_eq : ∀ (eigs : List (ℝ × SField S M)) (v o t : SField S M),
    exactLoop eigs v o t = (o + projSum codeSign eigs v, t - projSum (fun _ => 1) eigs v)
  | [], v, o, t => by rw [projSum_nil, projSum_nil, add_zero, sub_zero]; rfl
  | (lam, u) :: es, v, o, t => by
    have h : (if lam < 0 then -latticeDot u v else latticeDot u v) = codeSign lam * latticeDot u v := by unfold codeSign; split <;> ring
    rw [exactLoop, exactLoop_eq es, projSum_cons, projSum_cons, h, one_mul]
    exact Prod.ext (add_assoc _ _ _) (sub_sub _ _ _)

/-- Orthonormal eigenvectors. -/
structure Orthonormals (eigs : List (ℝ × SField S M)) : Prop where
  orth : eigs.Pairwise fun a b => latticeDot a.2 b.2 = 0
  norm : ∀ e ∈ eigs, latticeDot e.2 e.2 = 1

theorem latticeDot_zero (v : SField S M) : latticeDot v (0 : SField S M) = 0 := by
  have := latticeDot_smul v 0 0
  rwa [zero_smul, zero_mul] at this

theorem projSum_orth (f : ℝ → ℂ) (u v : SField S M) : ∀ eigs : List (ℝ × SField S M), (∀ e ∈ eigs, latticeDot u e.2 = 0) →
    latticeDot u (projSum f eigs v) = 0
  | [], _ => latticeDot_zero u
  | e :: es, h => by
    rw [projSum_cons, latticeDot_add, latticeDot_smul, h e (List.mem_cons_self ..), mul_zero, zero_add,
      projSum_orth f u v es fun e he => h e (List.mem_cons_of_mem _ he)]

theorem dot_swap_zero {u v : SField S M} (h : latticeDot u v = 0) : latticeDot v u = 0 := by rw [← latticeDot_conj, h, map_zero]

theorem dot_projSum (f : ℝ → ℂ) (v : SField S M) {eigs : List (ℝ × SField S M)} (h : Orthonormals eigs) {e : ℝ × SField S M} (he : e ∈ eigs) :
    latticeDot e.2 (projSum f eigs v) = f e.1 * latticeDot e.2 v := by
  induction eigs with
  | nil => cases he
  | cons a es ih =>
    have hp := List.pairwise_cons.1 h.orth
    rw [projSum_cons, latticeDot_add, latticeDot_smul]
    rcases List.mem_cons.1 he with rfl | he
    · rw [h.norm _ (List.mem_cons_self ..), mul_one, projSum_orth f _ v es hp.1, add_zero]
    · rw [dot_swap_zero (hp.1 e he), mul_zero, zero_add, ih ⟨hp.2, fun b hb => h.norm b (List.mem_cons_of_mem _ hb)⟩ he]

theorem projSum_zero (f : ℝ → ℂ) (v : SField S M) (eigs : List (ℝ × SField S M)) (h : ∀ e ∈ eigs, latticeDot e.2 v = 0) :
    projSum f eigs v = 0 := by
  induction eigs with
  | nil => rfl
  | cons e es ih =>
    rw [projSum_cons, h e (List.mem_cons_self ..), mul_zero, zero_smul, zero_add, ih fun e he => h e (List.mem_cons_of_mem _ he)]

theorem projSum_add (f : ℝ → ℂ) (v w : SField S M) (eigs : List (ℝ × SField S M)) :
    projSum f eigs (v + w) = projSum f eigs v + projSum f eigs w := by
  induction eigs with
  | nil => rw [projSum_nil, projSum_nil, projSum_nil, add_zero]
  | cons e es ih => rw [projSum_cons, projSum_cons, projSum_cons, ih, latticeDot_add]; module

theorem projSum_csmul (f : ℝ → ℂ) (z : ℂ) (v : SField S M) (eigs : List (ℝ × SField S M)) : projSum f eigs (z • v) = z • projSum f eigs v := by
  induction eigs with
  | nil => rw [projSum_nil, projSum_nil, smul_zero]
  | cons e es ih => rw [projSum_cons, projSum_cons, ih, latticeDot_smul]; module

theorem projSum_projSum (f g : ℝ → ℂ) (v : SField S M) {eigs : List (ℝ × SField S M)} (h : Orthonormals eigs) :
    projSum g eigs (projSum f eigs v) = projSum (fun l => g l * f l) eigs v := by
  have : ∀ e ∈ eigs, (g e.1 * latticeDot e.2 (projSum f eigs v)) • e.2 = ((g e.1 * f e.1) * latticeDot e.2 v) • e.2 := by
    intro e he
    rw [dot_projSum f v h he, mul_assoc]
  exact congrArg List.sum (List.map_congr_left this)

theorem projSum_hermitian (f : ℝ → ℂ) (hf : ∀ l, starRingEnd ℂ (f l) = f l) (v w : SField S M) (eigs : List (ℝ × SField S M)) :
    latticeDot v (projSum f eigs w) = latticeDot (projSum f eigs v) w := by
  induction eigs with
  | nil => rw [projSum_nil, projSum_nil, latticeDot_zero, ← latticeDot_conj, latticeDot_zero, map_zero]
  | cons e es ih =>
    rw [projSum_cons, projSum_cons, latticeDot_add, latticeDot_smul, ih, ← latticeDot_conj w (_ + _), latticeDot_add, latticeDot_smul, map_add, map_mul,
      map_mul, hf, latticeDot_conj, latticeDot_conj, latticeDot_conj]
    ring

/-- The sign with the part on the eigenvectors treated exactly. -/
noncomputable def exactSign (T : Torus S) (κ : ℝ) (scaling : ℂ) (roots : List ℂ) (eigs : List (ℝ × SField S M)) (L : GField S M)
    (v : SField S M) : SField S M :=
  signLin T κ scaling roots L (v - projSum (fun _ => 1) eigs v) + projSum codeSign eigs v

theorem exactOverlapMul_eq (T : Torus S) (κ mass : ℝ) (scaling : ℂ) (roots : List ℂ) (h : roots ≠ []) (old : SField S M)
    (eigs : List (ℝ × SField S M)) (g5 : Bool) (L : GField S M) (v : SField S M) :
    exactOverlapMul T κ mass scaling roots old eigs g5 L v = .ok (overlapOut mass g5 v (exactSign T κ scaling roots eigs L v)) := by
  rw [exactOverlapMul, exactLoop_eq, zero_add, overlapPoly_eq T κ scaling roots h]
  change Outcome.ok _ = _
  rw [← (wilson_isDirac T κ).apply, wilson_csmul, exactSign, signLin_apply]

theorem exactSign_add (T : Torus S) (κ : ℝ) (scaling : ℂ) (roots : List ℂ) (eigs : List (ℝ × SField S M)) (L : GField S M) (v w : SField S M) :
    exactSign T κ scaling roots eigs L (v + w) = exactSign T κ scaling roots eigs L v + exactSign T κ scaling roots eigs L w := by
  unfold exactSign
  rw [projSum_add, projSum_add, add_sub_add_comm, map_add]
  abel

theorem exactSign_csmul (T : Torus S) (κ : ℝ) (scaling : ℂ) (roots : List ℂ) (eigs : List (ℝ × SField S M)) (L : GField S M) (z : ℂ)
    (v : SField S M) : exactSign T κ scaling roots eigs L (z • v) = z • exactSign T κ scaling roots eigs L v := by
  unfold exactSign
  rw [projSum_csmul, projSum_csmul, ← smul_sub, map_smul, smul_add]

/-- The square of the sign differs from one on the rest only. -/
theorem exactSign_sq (T : Torus S) (κ : ℝ) (scaling : ℂ) (roots : List ℂ) {eigs : List (ℝ × SField S M)} (h : Orthonormals eigs)
    (L : GField S M) (hu : ∀ e ∈ eigs, wilsonFamily T κ L e.2 = (e.1 : ℂ) • e.2) (v : SField S M) :
    let w := v - projSum (fun _ => 1) eigs v
    (∀ e ∈ eigs, latticeDot e.2 w = 0) ∧ v - exactSign T κ scaling roots eigs L (exactSign T κ scaling roots eigs L v) =
      w - signLin T κ scaling roots L (signLin T κ scaling roots L w) ∧ fieldNorm w ≤ fieldNorm v := by
  intro w
  have hw : ∀ e ∈ eigs, latticeDot e.2 w = 0 := by
    intro e he
    change latticeDot e.2 (v - projSum (fun _ => 1) eigs v) = 0
    rw [sub_eq_add_neg, ← neg_one_smul ℂ (projSum _ _ _), latticeDot_add, latticeDot_smul, dot_projSum _ _ h he]
    ring
  have hv : v = w + projSum (fun _ => 1) eigs v := (sub_add_cancel v _).symm
  refine ⟨hw, ?_, ?_⟩
  · have h1 : ∀ e ∈ eigs, latticeDot e.2 (signLin T κ scaling roots L w) = 0 := by
      intro e he
      rw [dot_signLin T κ scaling roots L (hu e he), hw e he, mul_zero]
    have e1 : exactSign T κ scaling roots eigs L v = signLin T κ scaling roots L w + projSum codeSign eigs v := rfl
    have e2 : exactSign T κ scaling roots eigs L (exactSign T κ scaling roots eigs L v) =
        signLin T κ scaling roots L (signLin T κ scaling roots L w) + projSum (fun _ => 1) eigs v := by
      rw [exactSign, e1, projSum_add, projSum_add, projSum_zero _ _ _ h1, projSum_zero _ _ _ h1, projSum_projSum _ _ _ h, projSum_projSum _ _ _ h]
      simp only [codeSign_sq, one_mul, zero_add]
      rw [add_sub_cancel_right]
    rw [e2]
    change v - _ = v - projSum (fun _ => 1) eigs v - _
    abel
  · have ho : inner ℂ (toE w) (toE (projSum (fun _ => 1) eigs v)) = 0 := by
      rw [inner_toE]
      exact projSum_orth _ _ _ _ fun e he => dot_swap_zero (hw e he)
    have hn := norm_add_sq_eq_norm_sq_add_norm_sq_of_inner_eq_zero (𝕜 := ℂ) _ _ ho
    rw [← toE_add, ← hv, norm_toE, norm_toE] at hn
    have h0 : 0 ≤ fieldNorm v := by rw [← norm_toE]; exact norm_nonneg _
    nlinarith [mul_self_nonneg ‖toE (projSum (fun _ => 1) eigs v)‖, h0]

end Leonard
