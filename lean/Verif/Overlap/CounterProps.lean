import Verif.Overlap.Props
import Verif.Stout.CounterProps

/-!
# C70: where the force of overlap fermions is wrong
-/

set_option autoImplicit false

namespace Leonard

open Matrix Filter Asymptotics Polynomial
open scoped ContDiff Topology Matrix.Norms.Operator

variable {S : Type} [Fintype S] {N M : ℕ}

theorem rdot_neg_right (v w : SField S M) : rdot v (-w) = -rdot v w := by
  rw [← neg_one_smul ℝ w, rdot_smul, neg_one_mul]

/-- Multiplication by gamma5. -/
noncomputable def gamma5Op : Op (SField S M) := LinearMap.toContinuousLinearMap gamma5Lin

theorem gamma5Op_apply (v : SField S M) : gamma5Op v = gamma5Field v := rfl

/-- The change of the Wilson operator at hopping parameter one. -/
noncomputable def hopOp (T : Torus S) (V : GField S M) : Op (SField S M) := linOp (hopLin T 1) V

theorem hopOp_apply (T : Torus S) (V : GField S M) (v : SField S M) : hopOp T V v = hopLin T 1 V v := rfl

theorem wilson_affine (T : Torus S) (κ : ℝ) (L : GField S M) : wilsonFamily T κ L = gamma5Op + κ • hopOp T L := by
  refine ContinuousLinearMap.ext fun v => ?_
  change gamma5Field v + hopLin T κ L v = gamma5Field v + κ • hopLin T 1 L v
  rw [hopLin_kappa]

theorem fderiv_wilson (T : Torus S) (κ : ℝ) (L V : GField S M) : fderiv ℝ (wilsonFamily T κ) L V = κ • hopOp T V := by
  refine ContinuousLinearMap.ext fun v => ?_
  have h : fderiv ℝ (wilsonFamily T κ) L V v = hopLin T κ V v := fderiv_affineOp _ _ _ _ _
  exact h.trans (hopLin_kappa T κ V v)

theorem rootDeriv_smul (Q Q' : Op (SField S M)) (c : ℝ) : ∀ rs : List ℂ, rootDeriv Q (c • Q') rs = c • rootDeriv Q Q' rs
  | [] => (smul_zero c).symm
  | r :: rs => by
    change rootDeriv Q (c • Q') rs * rootFactor Q r + rootProd Q rs * (c • Q' * Q + Q * c • Q') =
      c • (rootDeriv Q Q' rs * rootFactor Q r + rootProd Q rs * (Q' * Q + Q * Q'))
    rw [rootDeriv_smul Q Q' c rs, smul_mul_assoc, smul_mul_assoc, mul_smul_comm, ← smul_add, mul_smul_comm, smul_add]

theorem continuous_rootProd {Q : ℝ → Op (SField S M)} (hQ : Continuous Q) : ∀ rs : List ℂ, Continuous fun κ => rootProd (Q κ) rs
  | [] => continuous_const
  | _ :: rs => (continuous_rootProd hQ rs).mul ((hQ.mul hQ).sub continuous_const)

theorem continuous_rootDeriv {Q : ℝ → Op (SField S M)} (hQ : Continuous Q) (Q' : Op (SField S M)) : ∀ rs : List ℂ,
    Continuous fun κ => rootDeriv (Q κ) Q' rs
  | [] => continuous_const
  | _ :: rs => ((continuous_rootDeriv hQ Q' rs).mul ((hQ.mul hQ).sub continuous_const)).add
      ((continuous_rootProd hQ rs).mul ((continuous_const.mul hQ).add (hQ.mul continuous_const)))

theorem continuous_wilson (T : Torus S) (L : GField S M) : Continuous fun κ : ℝ => wilsonFamily T κ L := by
  have e : (fun κ : ℝ => wilsonFamily T κ L) = fun κ => gamma5Op + κ • hopOp T L := funext fun κ => wilson_affine T κ L
  rw [e]
  exact continuous_const.add (continuous_id.smul continuous_const)

theorem wilson_zero (T : Torus S) (L : GField S M) : wilsonFamily T 0 L = gamma5Op := by rw [wilson_affine, zero_smul, add_zero]

theorem rootFactor_gamma5 (r : ℂ) (v : SField S M) : rootFactor gamma5Op r v = (1 - r) • v := by
  rw [rootFactor_apply, gamma5Op_apply, gamma5Op_apply, gamma5Field_gamma5Field, sub_smul, one_smul]

/-- The change of the approximated sign, without the scaling and the hopping parameter. -/
noncomputable def signChange (T : Torus S) (L V : GField S M) (roots : List ℂ) (κ : ℝ) : Op (SField S M) :=
  hopOp T V * rootProd (wilsonFamily T κ L) roots + wilsonFamily T κ L * rootDeriv (wilsonFamily T κ L) (hopOp T V) roots

theorem continuous_signChange (T : Torus S) (L V : GField S M) (roots : List ℂ) : Continuous (signChange T L V roots) :=
  (continuous_const.mul (continuous_rootProd (continuous_wilson T L) roots)).add
    ((continuous_wilson T L).mul (continuous_rootDeriv (continuous_wilson T L) _ roots))

theorem fderiv_overlap_change (T : Torus S) (κ mass c : ℝ) (roots : List ℂ) (L V : GField S M) :
    fderiv ℝ (overlapFamily T κ mass c roots) L V = ((1 / 2 - mass / 2) * c * κ) • signChange T L V roots κ := by
  rw [fderiv_overlap, fderiv_wilson, rootDeriv_smul, smul_mul_assoc, mul_smul_comm, ← smul_add, smul_smul]
  rfl

theorem rdot_overlap_change (T : Torus S) (κ mass c : ℝ) (roots : List ℂ) (L V : GField S M) (X Y : SField S M) :
    rdot X (fderiv ℝ (overlapFamily T κ mass c roots) L V Y) = (1 / 2 - mass / 2) * c * κ * rdot X (signChange T L V roots κ Y) := by
  rw [fderiv_overlap_change]
  exact rdot_smul _ _ _

theorem signChange_two (T : Torus S) (L V : GField S M) (v : SField S M) : signChange T L V [0, 2] 0 v = -hopLin T 1 V v := by
  unfold signChange
  rw [wilson_zero]
  have h1 : rootProd gamma5Op [0, 2] v = -v := by
    change rootFactor gamma5Op 2 (rootFactor gamma5Op 0 v) = -v
    rw [rootFactor_gamma5, rootFactor_gamma5, sub_zero, one_smul]
    norm_num
  have h2 : rootDeriv gamma5Op (hopOp T V) [0, 2] v = 0 := by
    obtain ⟨K, hK⟩ : ∃ K : Op (SField S M), K = hopOp T V * gamma5Op + gamma5Op * hopOp T V := ⟨_, rfl⟩
    have e : rootDeriv gamma5Op (hopOp T V) [0, 2] v = K (rootFactor gamma5Op 0 v) + rootFactor gamma5Op 2 (K v) := by
      rw [hK]
      change (0 * rootFactor gamma5Op 2 + 1 * (hopOp T V * gamma5Op + gamma5Op * hopOp T V) : Op (SField S M)) (rootFactor gamma5Op 0 v) + _ = _
      rw [zero_mul, zero_add, one_mul]
      rfl
    rw [e, rootFactor_gamma5, rootFactor_gamma5, sub_zero, one_smul, ← one_smul ℂ (K v), smul_smul, ← add_smul]
    norm_num
  change hopOp T V (rootProd gamma5Op [0, 2] v) + gamma5Op (rootDeriv gamma5Op (hopOp T V) [0, 2] v) = _
  rw [h1, h2, map_zero, add_zero, map_neg, hopOp_apply]

theorem signChange_one (T : Torus S) (L V : GField S M) (v : SField S M) :
    signChange T L V [3] 0 v = -hopLin T 1 V v + gamma5Field (hopLin T 1 V (gamma5Field v)) := by
  unfold signChange
  rw [wilson_zero]
  have h1 : rootProd gamma5Op [3] v = (-2 : ℝ) • v := by
    change rootFactor gamma5Op 3 v = _
    rw [rootFactor_gamma5, ← Complex.coe_smul]
    norm_num
  have h2 : rootDeriv gamma5Op (hopOp T V) [3] v = hopLin T 1 V (gamma5Field v) + gamma5Field (hopLin T 1 V v) := by
    change (0 * rootFactor gamma5Op 3 + 1 * (hopOp T V * gamma5Op + gamma5Op * hopOp T V) : Op (SField S M)) v = _
    rw [zero_mul, zero_add, one_mul]
    rfl
  change hopOp T V (rootProd gamma5Op [3] v) + gamma5Op (rootDeriv gamma5Op (hopOp T V) [3] v) = _
  rw [h1, h2, map_smul, hopOp_apply, gamma5Op_apply, gamma5Field_add, gamma5Field_gamma5Field]
  module

/-- **C70**, scaling, counterexample: with negative scaling and even degree `OverlapFermionForce` gives the change of the operator with the wrong sign.  For
the polynomial with roots 0 and 2, every negative scaling, every mass other than one and every site that is not its own neighbour there are a hopping
parameter and fields for which, at identity links, the rate is not the one of the program. -/
theorem C70_scaling_counterexample [DecidableEq S] (T : Torus S) (s : S) (μ : Fin 4) (hs : T.sup μ s ≠ s) (hM : 0 < M) (mass : ℝ) (hmass : mass ≠ 1)
    (scaling : ℂ) (hsc : scaling.re < 0) (old : SField S M) : ∃ (κ : ℝ) (X Y : SField S M), ∀ mul : GField S M → SField S M → SField S M,
      (∀ L v, overlapMul T κ mass scaling [0, 2] old true L v = .ok (mul L v)) →
      ¬ HasDerivAt (fun ε : ℝ => (latticeDot X (mul (setLink (fun _ _ => 1) s μ (NormedSpace.exp (ε • (Complex.I • (1 : Mat M))) * 1)) Y)).re)
        (-(1 / 2) * (trace (overlapDerivative T κ mass scaling [0, 2] (fun _ _ => 1) X Y s μ * 1 * 1)).im) 0 := by
  have hV : (Complex.I • ((1 : Mat M) * 1)) ≠ 0 := by
    rw [one_mul]
    intro h
    have := congrFun (congrFun h ⟨0, hM⟩) ⟨0, hM⟩
    simp at this
  obtain ⟨X, hX⟩ := hop_first_order_ne T s μ hs _ hV
  obtain ⟨V, hVd⟩ : ∃ V : GField S M, V = oneLink s μ (Complex.I • ((1 : Mat M) * 1)) := ⟨_, rfl⟩
  rw [← hVd] at hX
  obtain ⟨L, hLd⟩ : ∃ L : GField S M, L = fun _ _ => 1 := ⟨_, rfl⟩
  have h1 : ∀ᶠ κ : ℝ in 𝓝 0, rdot X (signChange T L V [0, 2] κ (gamma5Field X)) ≠ 0 := by
    have hc : Continuous fun κ : ℝ => rdot X (signChange T L V [0, 2] κ (gamma5Field X)) :=
      (rdotL X).continuous.comp ((continuous_signChange T L V [0, 2]).clm_apply continuous_const)
    refine hc.continuousAt.eventually_ne ?_
    rw [signChange_two, rdot_neg_right]
    exact neg_ne_zero.2 hX
  have h2 : ∀ᶠ κ : ℝ in 𝓝[≠] 0, κ ≠ 0 := eventually_mem_nhdsWithin
  obtain ⟨κ, h0, hne⟩ := (h2.and (h1.filter_mono nhdsWithin_le_nhds)).exists
  refine ⟨κ, X, gamma5Field X, fun mul hm hd => ?_⟩
  have hr : RealRoots [0, 2] := by intro x; simp
  have hLu : ∀ s μ, L s μ * (L s μ)ᴴ = 1 ∨ L s μ = 0 := fun s μ => Or.inl (by rw [hLd]; simp)
  have ha := C70_scaling T κ mass scaling [0, 2] hr hsc ⟨1, rfl⟩ old mul hm L X (gamma5Field X) s μ 1 hLu (by simp)
  have hb := overlap_rate T κ mass scaling [0, 2] hr old mul hm L X (gamma5Field X) s μ 1
  rw [hLd] at ha
  have e1 := ha.unique hd
  have e2 := (ha.unique (by rw [hLd] at hb; exact hb)).symm
  rw [← hLd, show oneLink s μ (Complex.I • ((1 : Mat M) * L s μ)) = V by rw [hVd, hLd]] at e2
  have hc : opScale scaling ([0, 2] : List ℂ).length ≠ 0 := by
    rw [opScale_neg scaling ([0, 2] : List ℂ).length hsc ⟨1, rfl⟩]
    exact neg_ne_zero.2 (pow_ne_zero _ hsc.ne)
  generalize opScale scaling ([0, 2] : List ℂ).length = c at hc e2
  rw [rdot_overlap_change] at e2
  have hz : (1 / 2 - mass / 2) * c * κ * rdot X (signChange T L V [0, 2] κ (gamma5Field X)) = 0 := by
    rw [e2, hLd]
    linarith
  have hm1 : (1 / 2 - mass / 2) ≠ 0 := fun h => hmass (by linarith)
  exact mul_ne_zero (mul_ne_zero (mul_ne_zero hm1 hc) h0) hne hz

/-! ### Two flavours -/

/-- The change of a matrix element of the Wilson operator, as a linear form on the variations of the links. -/
noncomputable def wilsonForm (T : Torus S) (κ : ℝ) (X Y : SField S M) : GField S M →ₗ[ℝ] ℝ where
  toFun V := -2 * rdot X (hopLin T κ V Y)
  map_add' V W := by rw [map_add, LinearMap.add_apply, rdot_add]; ring
  map_smul' c V := by rw [map_smul, LinearMap.smul_apply, rdot_smul, RingHom.id_apply, smul_eq_mul]; ring

/-- The force of two flavours computed with the derivative of the Wilson operator, whatever the solver. -/
theorem twoFlavor_wilson_force (T : Torus S) (κ : ℝ) (solve : GField S N → SField S N → SField S N) (φ : SField S N) (s : S) (μ : Fin 4) :
    twoFlavorUpdateForce (fundamentalRep N) (wilsonDerivative T κ) solve (fun _ _ => 1) (fun _ _ => 1) φ s μ =
      gradField (fundamentalRep N) (fun _ _ => 1) (wilsonForm T κ (solve (fun _ _ => 1) (solve (fun _ _ => 1) φ)) (solve (fun _ _ => 1) φ)) s μ := by
  unfold twoFlavorUpdateForce linkForce gradField
  rw [← Finset.sum_neg_distrib]
  refine Finset.sum_congr rfl fun i _ => ?_
  rw [← neg_smul]
  congr 1
  have h1 := wilson_isLinkDerivative (M := N) T κ (fun _ _ => 1) (solve (fun _ _ => 1) (solve (fun _ _ => 1) φ)) (solve (fun _ _ => 1) φ) s μ
    ((fundamentalRep N).gen i) (fun _ _ => Or.inl (by simp)) ((fundamental_lawful N).hermitian i)
  have hf : ∀ V v, fderiv ℝ (wilsonFamily T κ) (fun _ _ => (1 : Mat N)) V v = hopLin T κ V v := fun V v => fderiv_affineOp _ _ _ _ _
  rw [hf] at h1
  have h2 : wilsonForm T κ (solve (fun _ _ => 1) (solve (fun _ _ => 1) φ)) (solve (fun _ _ => 1) φ)
      (oneLink s μ (Complex.I • ((fundamentalRep N).gen i * 1))) = -2 * rdot (solve (fun _ _ => 1) (solve (fun _ _ => 1) φ))
      (hopLin T κ (oneLink s μ (Complex.I • ((fundamentalRep N).gen i * 1))) (solve (fun _ _ => 1) φ)) := rfl
  have h3 : (fundamentalRep N).link ((fun _ _ => (1 : Mat N)) s μ) = 1 := rfl
  rw [h2, h3, h1]
  push_cast
  ring

theorem hopLin_symm (T : Torus S) (V : GField S M) (v w : SField S M) : rdot v (hopLin T 1 V w) = rdot (hopLin T 1 V v) w := by
  have h : rdot v (wilsonFamily T 1 V w) = rdot (wilsonFamily T 1 V v) w := (wilson_isDirac T 1).family.symm V v w
  have e : ∀ v, wilsonFamily T 1 V v = gamma5Field v + hopLin T 1 V v := fun v => rfl
  have h5 : rdot v (gamma5Field w) = rdot (gamma5Field v) w := by unfold rdot; rw [gamma5Field_move]
  rw [e, e, rdot_add, rdot_comm (_ + _), rdot_add, rdot_comm w, rdot_comm w, h5] at h
  linarith

theorem opScale_half : opScale (-1 / 2) ([3] : List ℂ).length = -1 / 2 := by
  unfold opScale
  norm_num

theorem overlap_zero (T : Torus S) (mass : ℝ) (L : GField S M) : overlapFamily T 0 mass (-1 / 2) [3] L = gamma5Op := by
  refine ContinuousLinearMap.ext fun v => ?_
  unfold overlapFamily
  rw [wilson_zero]
  change (1 / 2 + mass / 2) • gamma5Field v + ((1 / 2 - mass / 2) * (-1 / 2)) • gamma5Field (rootFactor gamma5Op 3 v) = gamma5Field v
  rw [rootFactor_gamma5, gamma5Field_smul]
  have : (1 - 3 : ℂ) • gamma5Field v = (-2 : ℝ) • gamma5Field v := by
    rw [← Complex.coe_smul]
    norm_num
  rw [this]
  module

theorem continuous_overlap (T : Torus S) (mass c : ℝ) (roots : List ℂ) (L : GField S M) : Continuous fun κ : ℝ => overlapFamily T κ mass c roots L := by
  have h : Continuous fun κ : ℝ => wilsonFamily T κ L * rootProd (wilsonFamily T κ L) roots :=
    (continuous_wilson T L).mul (continuous_rootProd (continuous_wilson T L) roots)
  have h2 : Continuous fun κ : ℝ => ((1 / 2 - mass / 2) * c) • (wilsonFamily T κ L * rootProd (wilsonFamily T κ L) roots) :=
    (continuous_const_smul ((1 / 2 - mass / 2) * c)).comp h
  exact continuous_const.add h2

/-- **C70**, two flavours, counterexample: the two flavour action takes the derivative of the Wilson operator while its energy is that of the overlap
operator.  For the polynomial `(3 - x) / 2`, every mass, every lattice with a site that is not its own neighbour and every number of colours greater than one
there are a hopping parameter, a pseudofermion field and momenta for which, at the identity links, with periodic boundary conditions, an invertible overlap
operator and an exact solver, the total energy changes along the motion at a rate that is not zero. -/
theorem C70_two_flavor_counterexample (T : Torus S) (s : S) (μ : Fin 4) (hs : T.sup μ s ≠ s) (hN : 2 ≤ N) (mass : ℝ) (old : SField S N) :
    ∃ (κ : ℝ) (φ : SField S N) (P : GField S N), (∀ s μ, IsLie (P s μ)) ∧ ∀ mul : GField S N → SField S N → SField S N,
      (∀ L v, overlapMul T κ mass (-1 / 2) [3] old true L v = .ok (mul L v)) →
      Function.Injective (mul (fermionLinks (fundamentalRep N) T "fermion_periodic" fun _ _ => 1)) ∧
      ∀ solve : GField S N → SField S N → SField S N,
        (∀ L v, Function.Injective (mul L) → mul L (solve L v) = v) →
        ∃ rate : ℝ, rate ≠ 0 ∧ HasDerivAt (fun t : ℝ => totalEnergy
          (fun U => twoFlavorFermionEnergy solve (fermionLinks (fundamentalRep N) T "fermion_periodic" U) φ)
          (fun s μ => NormedSpace.exp (t • P s μ) * 1, fun s μ => P s μ - (t : ℂ) •
            twoFlavorUpdateForce (fundamentalRep N) (wilsonDerivative T κ) solve
              (fermionLinks (fundamentalRep N) T "fermion_periodic" fun _ _ => 1) (fun _ _ => 1) φ s μ)) rate 0 := by
  classical
  have i0 : Fin (lieGenerators N).length := ⟨0, lieGenerators_pos hN⟩
  have hX0 : Complex.I • gens N i0 ≠ 0 := by
    intro h
    have h0 : gens N i0 = 0 := (smul_eq_zero.1 h).resolve_left Complex.I_ne_zero
    have := trace_gens_self N i0
    rw [h0] at this
    simp at this
  have hL1 : fermionLinks (fundamentalRep N) T "fermion_periodic" (fun _ _ => (1 : Mat N)) = fun _ _ => 1 := by
    funext x l
    rw [fermionLinks_eq, bcFactor_periodic, one_smul]
    rfl
  obtain ⟨P, hPd⟩ : ∃ P : GField S N, P = oneLink s μ (Complex.I • gens N i0) := ⟨_, rfl⟩
  have hP : ∀ s μ, IsLie (P s μ) := by rw [hPd]; exact isLie_oneLink (isLie_I_gens i0) s μ
  have hlv : linkVelocity (fundamentalRep N) P (fun _ _ => 1) = P := by
    funext x l
    unfold linkVelocity
    conv_rhs => rw [C30_complete N (P x l) (hP x l).2]
    refine Finset.sum_congr rfl fun i _ => ?_
    rw [mul_one]
    rfl
  obtain ⟨X, hX⟩ := hop_first_order_ne T s μ hs _ hX0
  rw [← hPd] at hX
  obtain ⟨L, hLd⟩ : ∃ L : GField S N, L = fun _ _ => 1 := ⟨_, rfl⟩
  obtain ⟨A, hAd⟩ : ∃ A : ℝ → Op (SField S N), A = fun κ => overlapFamily T κ mass (-1 / 2) [3] L := ⟨_, rfl⟩
  have hAc : Continuous A := by rw [hAd]; exact continuous_overlap T mass _ [3] L
  have hA0 : A 0 = gamma5Op := by rw [hAd]; exact overlap_zero T mass L
  have h5u : IsUnit (gamma5Op : Op (SField S N)) := by
    refine isUnit_of_injective _ fun v w e => ?_
    rw [gamma5Op_apply, gamma5Op_apply] at e
    rw [← gamma5Field_gamma5Field v, e, gamma5Field_gamma5Field]
  have hu : ∀ᶠ κ in 𝓝 (0 : ℝ), IsUnit (A κ) := hAc.continuousAt.eventually_mem (Units.isOpen.mem_nhds (by rw [hA0]; exact h5u))
  have h1 : ∀ᶠ κ : ℝ in 𝓝 0, ((1 / 2 - mass / 2) * (-1 / 2)) * rdot X (signChange T L P [3] κ (A κ X)) - rdot X (hopOp T P (A κ X)) ≠ 0 := by
    have hAX : Continuous fun κ => A κ X := hAc.clm_apply continuous_const
    have hc : Continuous fun κ : ℝ => ((1 / 2 - mass / 2) * (-1 / 2)) * rdot X (signChange T L P [3] κ (A κ X)) - rdot X (hopOp T P (A κ X)) :=
      (continuous_const.mul ((rdotL X).continuous.comp ((continuous_signChange T L P [3]).clm_apply hAX))).sub
        ((rdotL X).continuous.comp ((hopOp T P).continuous.comp hAX))
    refine hc.continuousAt.eventually_ne ?_
    rw [hA0, signChange_one, gamma5Op_apply, gamma5Field_gamma5Field, rdot_add, rdot_neg_right, hopOp_apply]
    have h5 : rdot X (gamma5Field (hopLin T 1 P X)) = rdot X (hopLin T 1 P (gamma5Field X)) := by
      have : rdot X (gamma5Field (hopLin T 1 P X)) = rdot (gamma5Field X) (hopLin T 1 P X) := by unfold rdot; rw [gamma5Field_move]
      rw [this, hopLin_symm, rdot_comm]
    rw [h5]
    intro hz
    apply hX
    linarith
  have h2 : ∀ᶠ κ : ℝ in 𝓝[≠] 0, κ ≠ 0 := eventually_mem_nhdsWithin
  obtain ⟨κ, h0, huκ, hne⟩ := (h2.and ((hu.and h1).filter_mono nhdsWithin_le_nhds)).exists
  refine ⟨κ, A κ (A κ X), P, hP, fun mul hm => ?_⟩
  have hr : RealRoots [3] := by intro x; simp
  have hA := overlap_isDirac T κ mass (-1 / 2) [3] old hr mul hm
  rw [opScale_half] at hA
  have huA : IsUnit (overlapFamily T κ mass (-1 / 2) [3] L) := by rw [hAd] at huκ; exact huκ
  have hinj : Function.Injective (mul L) := (injective_iff_isUnit hA L).2 huA
  rw [hL1, ← hLd]
  refine ⟨hinj, fun solve hsol => ?_⟩
  have hAk : A κ = overlapFamily T κ mass (-1 / 2) [3] L := by rw [hAd]
  have hsolv : ∀ v, solve L (A κ v) = v := by
    intro v
    have := (solve_eq hA hinj (hsol L (A κ v) hinj)).2
    rw [this, hAk, apply_isUnit huA]
  have hF : ∀ x l, twoFlavorUpdateForce (fundamentalRep N) (wilsonDerivative T κ) solve L L (A κ (A κ X)) x l =
      gradField (fundamentalRep N) L (wilsonForm T κ X (A κ X)) x l := by
    intro x l
    have := twoFlavor_wilson_force T κ solve (A κ (A κ X)) x l
    rw [← hLd] at this
    rw [hsolv, hsolv] at this
    exact this
  have hvel := hasDerivAt_fermionLinks (fundamentalRep N) (fundamental_lawful N) T "fermion_periodic" (fun _ _ => 1) P hP
  rw [hL1, hlv] at hvel
  have hz : fermionLinks (fundamentalRep N) T "fermion_periodic" (moveLinks P (fun _ _ => 1) 0) = L := by rw [moveLinks_zero, hL1, hLd]
  have hE := hA.family.hasDerivAt_norm (A κ (A κ X)) hvel (by rw [hz]; exact huA)
  rw [hz] at hE
  have hE2 : HasDerivAt (fun t : ℝ => twoFlavorFermionEnergy solve (fermionLinks (fundamentalRep N) T "fermion_periodic"
      (moveLinks P (fun _ _ => 1) t)) (A κ (A κ X))) (normForm rdotB (overlapFamily T κ mass (-1 / 2) [3]) (A κ (A κ X)) L P) 0 := by
    refine hE.congr_of_eventuallyEq ?_
    have hcont := hvel.continuousAt
    have hopen : {L : GField S N | IsUnit (overlapFamily T κ mass (-1 / 2) [3] L)} ∈ 𝓝 (fermionLinks (fundamentalRep N) T "fermion_periodic"
        (moveLinks P (fun _ _ => 1) 0)) := by
      rw [hz]
      exact (hA.family.isOpen_norm contDiff_id).mem_nhds huA
    filter_upwards [hcont.eventually_mem hopen] with t ht
    exact twoFlavor_energy_eq hA hsol _ _ ht
  refine ⟨_, ?_, by
    simp only [hF]
    exact (hasDerivAt_momentaEnergy P _).add hE2⟩
  have hg := gradField_conserves (fundamentalRep N) L (wilsonForm T κ X (A κ X)) P hP
  rw [hLd, hlv, ← hLd] at hg
  have e1 : normForm rdotB (overlapFamily T κ mass (-1 / 2) [3]) (A κ (A κ X)) L P =
      -2 * (((1 / 2 - mass / 2) * (-1 / 2) * κ) * rdot X (signChange T L P [3] κ (A κ X))) := by
    change -2 * rdot (Ring.inverse (overlapFamily T κ mass (-1 / 2) [3] L) (Ring.inverse (overlapFamily T κ mass (-1 / 2) [3] L) (A κ (A κ X))))
      (fderiv ℝ (overlapFamily T κ mass (-1 / 2) [3]) L P (Ring.inverse (overlapFamily T κ mass (-1 / 2) [3] L) (A κ (A κ X)))) = _
    rw [hAk, apply_isUnit huA, apply_isUnit huA, fderiv_overlap_change]
    change -2 * rdot X (((1 / 2 - mass / 2) * (-1 / 2) * κ) • signChange T L P [3] κ _) = _
    rw [rdot_smul]
  have e2 : wilsonForm T κ X (A κ X) P = -2 * (κ * rdot X (hopOp T P (A κ X))) := by
    change -2 * rdot X (hopLin T κ P (A κ X)) = _
    rw [hopLin_kappa, rdot_smul, hopOp_apply]
  have e3 : (∑ s, ∑ μ, 2 * (trace (P s μ * gradField (fundamentalRep N) L (wilsonForm T κ X (A κ X)) s μ)).re) +
      normForm rdotB (overlapFamily T κ mass (-1 / 2) [3]) (A κ (A κ X)) L P = -2 * κ *
        (((1 / 2 - mass / 2) * (-1 / 2)) * rdot X (signChange T L P [3] κ (A κ X)) - rdot X (hopOp T P (A κ X))) := by
    rw [e2] at hg
    rw [e1]
    linarith
  exact e3 ▸ mul_ne_zero (mul_ne_zero (by norm_num) h0) hne

/-- A lattice with two sites in each direction. -/
example : ∃ s, (boxTorus exExt exExt_pos).sup 3 s ≠ s := by
  decide

end Leonard
