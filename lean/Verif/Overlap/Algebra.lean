import Verif.Overlap.Model
import Verif.Poly.Props
import Verif.Force.Wilson

/-!
# Products over the roots of the approximation
-/

set_option autoImplicit false

namespace Leonard

open Matrix Polynomial
open scoped ContDiff Topology Matrix.Norms.Operator

variable {S : Type} [Fintype S] {M : ℕ}

/-- Multiplication by a complex number. -/
noncomputable def cmulOp (z : ℂ) : Op (SField S M) :=
  LinearMap.toContinuousLinearMap
    { toFun := fun v => z • v, map_add' := fun v w => smul_add z v w, map_smul' := fun c v => smul_comm z c v }

theorem cmulOp_apply (z : ℂ) (v : SField S M) : cmulOp z v = z • v := rfl

theorem rdot_csmul (z : ℂ) (v w : SField S M) : rdot v (z • w) = rdot (starRingEnd ℂ z • v) w := by
  unfold rdot
  rw [latticeDot_smul, ← latticeDot_conj w (starRingEnd ℂ z • v), latticeDot_smul, map_mul, Complex.conj_conj, latticeDot_conj]

/-- The factor of one root. -/
noncomputable def rootFactor (Q : Op (SField S M)) (r : ℂ) : Op (SField S M) := Q * Q - cmulOp r

theorem rootFactor_apply (Q : Op (SField S M)) (r : ℂ) (v : SField S M) : rootFactor Q r v = Q (Q v) - r • v := rfl

/-- The product over all roots. -/
noncomputable def rootProd (Q : Op (SField S M)) : List ℂ → Op (SField S M)
  | [] => 1
  | r :: rs => rootProd Q rs * rootFactor Q r

/-- The adjoint of the product. -/
noncomputable def rootAdj (Q : Op (SField S M)) : List ℂ → Op (SField S M)
  | [] => 1
  | r :: rs => rootFactor Q (starRingEnd ℂ r) * rootAdj Q rs

theorem rdot_rootFactor {Q : Op (SField S M)} (hQ : SymmOp rdotB Q) (r : ℂ) (v w : SField S M) :
    rdot v (rootFactor Q r w) = rdot (rootFactor Q (starRingEnd ℂ r) v) w := by
  have h : ∀ v w, rdot v (Q w) = rdot (Q v) w := hQ
  rw [rootFactor_apply, rootFactor_apply, sub_eq_add_neg, sub_eq_add_neg, rdot_add, rdot_comm _ w, rdot_add, h, h, rdot_comm w,
    ← neg_smul, rdot_csmul, ← neg_smul, map_neg, rdot_comm w]

theorem rdot_rootProd {Q : Op (SField S M)} (hQ : SymmOp rdotB Q) : ∀ (rs : List ℂ) (v w : SField S M),
    rdot v (rootProd Q rs w) = rdot (rootAdj Q rs v) w
  | [], _, _ => rfl
  | r :: rs, v, w => by
    change rdot v (rootProd Q rs (rootFactor Q r w)) = rdot (rootFactor Q (starRingEnd ℂ r) (rootAdj Q rs v)) w
    rw [rdot_rootProd hQ rs, rdot_rootFactor hQ]

theorem rootProd_comm {Q : Op (SField S M)} (hl : ∀ (z : ℂ) v, Q (z • v) = z • Q v) : ∀ (rs : List ℂ) (v : SField S M),
    rootProd Q rs (Q v) = Q (rootProd Q rs v)
  | [], _ => rfl
  | r :: rs, v => by
    change rootProd Q rs (rootFactor Q r (Q v)) = Q (rootProd Q rs (rootFactor Q r v))
    rw [← rootProd_comm hl rs, rootFactor_apply, rootFactor_apply, map_sub Q, hl]

/-- The square of the operator as a complex linear map. -/
noncomputable def sqLin (Q : Op (SField S M)) (hl : ∀ (z : ℂ) v, Q (z • v) = z • Q v) : SField S M →ₗ[ℂ] SField S M where
  toFun v := Q (Q v)
  map_add' v w := by rw [map_add, map_add]
  map_smul' z v := by rw [hl, hl]; rfl

theorem aeval_factor {Q : Op (SField S M)} (hl : ∀ (z : ℂ) v, Q (z • v) = z • Q v) (r : ℂ) (v : SField S M) :
    aeval (sqLin Q hl) (X - C r) v = rootFactor Q r v := by
  rw [map_sub, aeval_X, aeval_C, LinearMap.sub_apply, Module.algebraMap_end_apply, rootFactor_apply]
  rfl

theorem aeval_rootProd {Q : Op (SField S M)} (hl : ∀ (z : ℂ) v, Q (z • v) = z • Q v) : ∀ (rs : List ℂ) (v : SField S M),
    aeval (sqLin Q hl) (rs.map fun r => X - C r).prod v = rootProd Q rs v
  | [], v => by rw [List.map_nil, List.prod_nil, map_one]; rfl
  | r :: rs, v => by
    rw [List.map_cons, List.prod_cons, mul_comm, map_mul, Module.End.mul_apply, aeval_factor, aeval_rootProd hl rs]
    rfl

theorem aeval_rootAdj {Q : Op (SField S M)} (hl : ∀ (z : ℂ) v, Q (z • v) = z • Q v) : ∀ (rs : List ℂ) (v : SField S M),
    aeval (sqLin Q hl) (rs.map fun r => X - C (starRingEnd ℂ r)).prod v = rootAdj Q rs v
  | [], v => by rw [List.map_nil, List.prod_nil, map_one]; rfl
  | r :: rs, v => by
    rw [List.map_cons, List.prod_cons, map_mul, Module.End.mul_apply, aeval_factor, aeval_rootAdj hl rs]
    rfl

/-- The product over the roots is real at real arguments. -/
def RealRoots (rs : List ℂ) : Prop := ∀ x : ℝ, ((rs.map fun r => (x : ℂ) - r).prod).im = 0

theorem realRoots_poly {rs : List ℂ} (h : RealRoots rs) :
    (rs.map fun r => (X : ℂ[X]) - C (starRingEnd ℂ r)).prod = (rs.map fun r => X - C r).prod := by
  refine Polynomial.eq_of_infinite_eval_eq _ _ (Set.Infinite.mono ?_ (Set.infinite_range_of_injective Complex.ofReal_injective))
  rintro _ ⟨x, rfl⟩
  rw [Set.mem_setOf_eq, eval_list_prod, eval_list_prod, List.map_map, List.map_map]
  have e1 : (rs.map (Polynomial.eval (x : ℂ) ∘ fun r => (X : ℂ[X]) - C (starRingEnd ℂ r))).prod =
      starRingEnd ℂ ((rs.map fun r => (x : ℂ) - r).prod) := by
    rw [map_list_prod, List.map_map]
    congr 1
    refine List.map_congr_left fun r _ => ?_
    simp
  have e2 : (rs.map (Polynomial.eval (x : ℂ) ∘ fun r => (X : ℂ[X]) - C r)).prod = (rs.map fun r => (x : ℂ) - r).prod := by
    congr 1
    refine List.map_congr_left fun r _ => ?_
    simp
  rw [e1, e2, Complex.conj_eq_iff_im, h x]

theorem rootAdj_eq {Q : Op (SField S M)} (hl : ∀ (z : ℂ) v, Q (z • v) = z • Q v) {rs : List ℂ} (h : RealRoots rs) (v : SField S M) :
    rootAdj Q rs v = rootProd Q rs v := by
  rw [← aeval_rootAdj hl, ← aeval_rootProd hl, realRoots_poly h]

/-- The polynomial times the operator is symmetric. -/
theorem symm_rootProd {Q : Op (SField S M)} (hl : ∀ (z : ℂ) v, Q (z • v) = z • Q v) (hQ : SymmOp rdotB Q) {rs : List ℂ} (h : RealRoots rs) :
    SymmOp rdotB (Q * rootProd Q rs) := by
  intro v w
  change rdot v (Q (rootProd Q rs w)) = rdot (Q (rootProd Q rs v)) w
  have hs : ∀ v w, rdot v (Q w) = rdot (Q v) w := hQ
  rw [hs, rdot_rootProd hQ, rootAdj_eq hl h, rootProd_comm hl]

theorem contDiff_rootProd {G : Type*} [NormedAddCommGroup G] [NormedSpace ℝ G] {Q : G → Op (SField S M)} (hQ : ContDiff ℝ ∞ Q) :
    ∀ rs : List ℂ, ContDiff ℝ ∞ fun L => rootProd (Q L) rs
  | [] => contDiff_const
  | _ :: rs => (contDiff_rootProd hQ rs).clm_comp ((hQ.clm_comp hQ).sub contDiff_const)

/-- The change of the product. -/
noncomputable def rootDeriv (Q Q' : Op (SField S M)) : List ℂ → Op (SField S M)
  | [] => 0
  | r :: rs => rootDeriv Q Q' rs * rootFactor Q r + rootProd Q rs * (Q' * Q + Q * Q')

theorem hasDerivAt_rootProd {Q : ℝ → Op (SField S M)} {Q' : Op (SField S M)} (hQ : HasDerivAt Q Q' 0) : ∀ rs : List ℂ,
    HasDerivAt (fun t => rootProd (Q t) rs) (rootDeriv (Q 0) Q' rs) 0
  | [] => hasDerivAt_const _ _
  | _ :: rs => (hasDerivAt_rootProd hQ rs).mul ((hQ.mul hQ).sub_const _)

/-- The scaled steps of the program. -/
noncomputable def scaledStep (Q : Op (SField S M)) (c : ℝ) (v : SField S M) (r : ℂ) : SField S M := (c : ℂ) • rootFactor Q r v

theorem rootProd_csmul {Q : Op (SField S M)} (hl : ∀ (z : ℂ) v, Q (z • v) = z • Q v) (z : ℂ) (rs : List ℂ) (v : SField S M) :
    rootProd Q rs (z • v) = z • rootProd Q rs v := by
  rw [← aeval_rootProd hl, map_smul, aeval_rootProd hl]

theorem rootFactor_csmul {Q : Op (SField S M)} (hl : ∀ (z : ℂ) v, Q (z • v) = z • Q v) (z : ℂ) (r : ℂ) (v : SField S M) :
    rootFactor Q r (z • v) = z • rootFactor Q r v := by
  rw [← aeval_factor hl, map_smul, aeval_factor hl]

theorem foldl_right {Q : Op (SField S M)} (hl : ∀ (z : ℂ) v, Q (z • v) = z • Q v) (c : ℝ) : ∀ (rs : List ℂ) (v : SField S M),
    rs.foldl (scaledStep Q c) v = ((c : ℂ) ^ rs.length) • rootProd Q rs v
  | [], v => by rw [List.foldl_nil, List.length_nil, pow_zero, one_smul]; rfl
  | r :: rs, v => by
    rw [List.foldl_cons, foldl_right hl c rs, scaledStep, rootProd_csmul hl, smul_smul, List.length_cons, pow_succ]
    rfl

theorem foldl_left {Q : Op (SField S M)} (hl : ∀ (z : ℂ) v, Q (z • v) = z • Q v) (c : ℝ) : ∀ (rs : List ℂ) (v : SField S M),
    (rs.reverse.map (starRingEnd ℂ)).foldl (scaledStep Q c) v = ((c : ℂ) ^ rs.length) • rootAdj Q rs v
  | [], v => by simp only [List.reverse_nil, List.map_nil, List.foldl_nil, List.length_nil, pow_zero, one_smul]; rfl
  | r :: rs, v => by
    rw [List.reverse_cons, List.map_append, List.foldl_append, foldl_left hl c rs, List.map_singleton, List.foldl_cons, List.foldl_nil,
      scaledStep, rootFactor_csmul hl, smul_smul, List.length_cons, pow_succ, mul_comm]
    rfl

theorem scanl_getD {α β : Type*} (f : β → α → β) (b d : β) (l : List α) (i : ℕ) (h : i ≤ l.length) :
    ((l.scanl f b)[i]?).getD d = (l.take i).foldl f b := by
  induction l generalizing b i with
  | nil =>
    have : i = 0 := by simpa using h
    subst this; rfl
  | cons a l ih =>
    cases i with
    | zero => simp
    | succ i => simpa [List.scanl_cons] using ih (f b a) i (by simpa using h)

/-- The sum of the program, for a bilinear expression in place of the matrices. -/
theorem root_pairs {Q : Op (SField S M)} (hl : ∀ (z : ℂ) v, Q (z • v) = z • Q v) (hQ : SymmOp rdotB Q) (Q' : Op (SField S M)) (c : ℝ)
    (Z : SField S M) : ∀ (rs : List ℂ) (Y : SField S M),
    ∑ i ∈ Finset.range rs.length,
      c * (rdot (Q (((rs.reverse.map (starRingEnd ℂ)).take (rs.length - i - 1)).foldl (scaledStep Q c) Z)) (Q' ((rs.take i).foldl (scaledStep Q c) Y))
        + rdot (((rs.reverse.map (starRingEnd ℂ)).take (rs.length - i - 1)).foldl (scaledStep Q c) Z) (Q' (Q ((rs.take i).foldl (scaledStep Q c) Y))))
      = c ^ rs.length * rdot Z (rootDeriv Q Q' rs Y)
  | [], Y => by
    have : rdot Z (0 : SField S M) = 0 := (rdotL Z).map_zero
    simp only [List.length_nil, Finset.range_zero, Finset.sum_empty, pow_zero, one_mul]
    exact this.symm
  | r :: rs, Y => by
    have hs : ∀ v w, rdot v (Q w) = rdot (Q v) w := hQ
    have hr : ∀ (a : ℝ) (v w : SField S M), rdot ((a : ℂ) • v) w = a * rdot v w := by
      intro a v w
      rw [Complex.coe_smul, rdot_comm, rdot_smul, rdot_comm]
    have hr2 : ∀ (a : ℝ) (v w : SField S M), rdot v ((a : ℂ) • w) = a * rdot v w := by
      intro a v w
      rw [Complex.coe_smul, rdot_smul]
    rw [List.length_cons, Finset.sum_range_succ']
    have h0 : ((r :: rs).reverse.map (starRingEnd ℂ)).take (rs.length + 1 - 0 - 1) = rs.reverse.map (starRingEnd ℂ) := by
      rw [List.reverse_cons, List.map_append, Nat.sub_zero, Nat.add_sub_cancel, List.take_append_of_le_length (by simp)]
      rw [List.take_of_length_le (by simp)]
    have hk : ∀ i, ((r :: rs).reverse.map (starRingEnd ℂ)).take (rs.length + 1 - (i + 1) - 1) =
        (rs.reverse.map (starRingEnd ℂ)).take (rs.length - i - 1) := by
      intro i
      rw [List.reverse_cons, List.map_append, Nat.add_sub_add_right, List.take_append_of_le_length (by simp; omega)]
    simp only [h0, hk, List.take_succ_cons, List.foldl_cons, List.take_zero, List.foldl_nil]
    rw [root_pairs hl hQ Q' c Z rs (scaledStep Q c Y r), foldl_left hl]
    have hd : rdot Z (rootDeriv Q Q' (r :: rs) Y) =
        rdot Z (rootDeriv Q Q' rs (rootFactor Q r Y)) + (rdot (rootAdj Q rs Z) (Q' (Q Y)) + rdot (Q (rootAdj Q rs Z)) (Q' Y)) := by
      change rdot Z (rootDeriv Q Q' rs (rootFactor Q r Y) + rootProd Q rs (Q' (Q Y) + Q (Q' Y))) = _
      rw [rdot_add, rdot_rootProd hQ, rdot_add, hs]
    have hp : ((c : ℂ) ^ rs.length) = ((c ^ rs.length : ℝ) : ℂ) := by push_cast; rfl
    have hsc : scaledStep Q c Y r = c • rootFactor Q r Y := Complex.coe_smul _ _
    rw [hd, hp, hl, hr, hr, hsc, map_smul, rdot_smul]
    ring

end Leonard
