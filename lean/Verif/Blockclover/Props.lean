/-
C83: the clover operator restricted to blocks.
-/
import Verif.Blockclover.Model
import Verif.Dirac.HermProps

set_option autoImplicit false

namespace Leonard

open Matrix

variable {S : Type} {N : ℕ}

theorem blockClover_eq (T : Torus S) (U : GField S N) (κ csw : ℝ) (g5 : Bool) (v : SField S N) (x : S) (c : Fin 4) (i : Fin N) :
    blockClover T U κ csw g5 v x c i = withGamma5 g5 (((κ * csw : ℝ) : ℂ) • cloverField T U v) x c i := by
  have hF : fieldStrength T U x = fun k => cloverF T U (planeOf k).1 (planeOf k).2 x := by
    funext k; exact fieldStrength_eq T U k x
  simp only [blockClover, hF, cloverTerm_eq (fun μ ν => cloverF T U μ ν x) (v x)]
  rw [withGamma5_apply]
  change _ = (if g5 then tabGamma5 * (((κ * csw : ℝ) : ℂ) • ∑ μ, ∑ ν, if μ < ν then
    Complex.I • (tabSigma μ ν * (v x * (cloverF T U μ ν x)ᵀ)) else 0) else ((κ * csw : ℝ) : ℂ) • ∑ μ, ∑ ν, if μ < ν then
    Complex.I • (tabSigma μ ν * (v x * (cloverF T U μ ν x)ᵀ)) else 0 : Matrix (Fin 4) (Fin N) ℂ) c i
  generalize (∑ μ, ∑ ν, if μ < ν then Complex.I • (tabSigma μ ν * (v x * (cloverF T U μ ν x)ᵀ)) else 0 :
    Matrix (Fin 4) (Fin N) ℂ) = Q
  simp only [gamma5_apply]
  cases g5 <;> fin_cases c <;> simp [gamma5_apply]

/-- **C83, the operator.** `multiply` of the clover operator restricted to blocks is, at every site and for all blocks, links and parameters,
the site-diagonal part of the full clover operator, minus `κ` times the hopping over the links inside the blocks, plus the
twist `i τ γ₅`; all of it is multiplied with gamma5 when the flag is set.  The clover leaves are not cut at the boundaries
of the blocks. -/
theorem C83_block (T : Torus S) (idx : S → Bool) (U : GField S N) (κ csw τ : ℝ) (g5 : Bool) (v : SField S N) :
    blockImprovedMul T idx U κ csw τ g5 v = withGamma5 g5 (fun x =>
      diagSite T U κ csw x (v x) - (κ : ℂ) • hoppingSpec T (blockLinks T idx U) v x + (Complex.I * τ) • (tabGamma5 * v x)) := by
  funext x
  ext c i
  have e : ∀ x, diagSite T U κ csw x (v x) - (κ : ℂ) • hoppingSpec T (blockLinks T idx U) v x + (Complex.I * τ) • (tabGamma5 * v x)
      = (wilsonSpec T (blockLinks T idx U) κ v + (Complex.I * τ) • gamma5Field v) x
        + (((κ * csw : ℝ) : ℂ) • cloverField T U v) x := by
    intro x
    simp only [diagSite, wilsonSpec, Pi.add_apply, Pi.smul_apply, gamma5Field, cloverField]
    abel
  rw [withGamma5_apply]
  simp only [blockImprovedMul, Matrix.of_apply, C33_block, blockClover_eq, withGamma5_apply, e]
  cases g5
  · simp only [Bool.false_eq_true, if_false, Matrix.add_apply]
  · simp only [if_true, Matrix.mul_add, Matrix.add_apply]

/-- **C83, restriction.** On fields that vanish outside the blocks, the block operator gives at the sites of the blocks what the full clover
operator (plus the twist) gives there: it is the restriction of the full operator to the blocks that a Schwarz preconditioner needs. -/
theorem C83_restriction (T : Torus S) (idx : S → Bool) (U : GField S N) (κ csw τ : ℝ) (g5 : Bool) (v : SField S N)
    (hv : ∀ y, idx y = false → v y = 0) (x : S) (hx : idx x = true) :
    blockImprovedMul T idx U κ csw τ g5 v x = withGamma5 g5 (improvedSpec T U κ csw v + (Complex.I * τ) • gamma5Field v) x := by
  have hh : hoppingSpec T (blockLinks T idx U) v x = hoppingSpec T U v x := by
    simp only [hoppingSpec]
    refine Finset.sum_congr rfl fun μ _ => ?_
    congr 1
    · by_cases h : idx (T.sup μ x) = true
      · simp [blockLinks, hx, h]
      · rw [hv _ (by simpa using h)]; simp
    · by_cases h : idx (T.sdn μ x) = true
      · simp [blockLinks, hx, h, T.sup_sdn]
      · rw [hv _ (by simpa using h)]; simp
  rw [C83_block, withGamma5_apply, withGamma5_apply]
  have e : diagSite T U κ csw x (v x) - (κ : ℂ) • hoppingSpec T (blockLinks T idx U) v x + (Complex.I * τ) • (tabGamma5 * v x)
      = (improvedSpec T U κ csw v + (Complex.I * τ) • gamma5Field v) x := by
    rw [hh]
    simp only [diagSite, improvedSpec, wilsonSpec, Pi.add_apply, Pi.smul_apply, gamma5Field]
    abel
  rw [e]

/-- **C83, decoupling.** The result at a site of the blocks depends only on the field at this site and at its neighbours in the blocks, the
result elsewhere only on the field at the site itself. -/
theorem C83_decoupling (T : Torus S) (idx : S → Bool) (U : GField S N) (κ csw τ : ℝ) (g5 : Bool) (v w : SField S N) (x : S)
    (hvw : v x = w x)
    (hn : ∀ μ, (idx x = true → idx (T.sup μ x) = true → v (T.sup μ x) = w (T.sup μ x)) ∧
      (idx x = true → idx (T.sdn μ x) = true → v (T.sdn μ x) = w (T.sdn μ x))) :
    blockImprovedMul T idx U κ csw τ g5 v x = blockImprovedMul T idx U κ csw τ g5 w x := by
  have hh : hoppingSpec T (blockLinks T idx U) v x = hoppingSpec T (blockLinks T idx U) w x := by
    simp only [hoppingSpec]
    refine Finset.sum_congr rfl fun μ _ => ?_
    congr 1
    · by_cases h : idx x = true ∧ idx (T.sup μ x) = true
      · rw [(hn μ).1 h.1 h.2]
      · have : blockLinks T idx U x μ = 0 := by
          simp only [blockLinks, Bool.and_eq_true]; rw [if_neg h]
        simp [this]
    · by_cases h : idx x = true ∧ idx (T.sdn μ x) = true
      · rw [(hn μ).2 h.1 h.2]
      · have : blockLinks T idx U (T.sdn μ x) μ = 0 := by
          simp only [blockLinks, Bool.and_eq_true, T.sup_sdn]; rw [if_neg (fun h' => h ⟨h'.2, h'.1⟩)]
        simp [this]
  simp only [C83_block, withGamma5_apply, hh, hvw]

/-- **C83, adjoint.** With gamma5 included the adjoint of the block operator, for the inner product of the program, is the block operator with
the opposite twist; without twist it is Hermitian. -/
theorem C83_adjoint [Fintype S] (T : Torus S) (idx : S → Bool) (U : GField S N) (κ csw τ : ℝ) (v w : SField S N) :
    latticeDot v (blockImprovedMul T idx U κ csw τ true w) = latticeDot (blockImprovedMul T idx U κ csw (-τ) true v) w := by
  have E : ∀ (τ : ℝ) (a b : SField S N), latticeDot a (blockImprovedMul T idx U κ csw τ true b) =
      latticeDot a (gamma5Field b) + -(κ : ℂ) * latticeDot a (gamma5Field (hoppingSpec T (blockLinks T idx U) b))
        + ((κ * csw : ℝ) : ℂ) * latticeDot a (gamma5Field (cloverField T U b)) + (Complex.I * τ) * latticeDot a b := fun τ a b => by
    have e : blockImprovedMul T idx U κ csw τ true b = gamma5Field (b + (-(κ : ℂ)) • hoppingSpec T (blockLinks T idx U) b
        + ((κ * csw : ℝ) : ℂ) • cloverField T U b) + (Complex.I * τ) • b := by
      rw [C83_block]
      simp only [withGamma5, if_true]
      funext x
      have h5 : tabGamma5 * (tabGamma5 * b x) = b x := by rw [← Matrix.mul_assoc, C32_gamma5.2.2.1, Matrix.one_mul]
      simp only [gamma5Field, Pi.add_apply, Pi.smul_apply, Pi.neg_apply, Matrix.mul_add, Matrix.mul_sub, Matrix.mul_smul, Matrix.mul_neg, h5,
        diagSite, cloverField, neg_smul]
      abel
    rw [e]
    simp only [gamma5Field_add, gamma5Field_smul, latticeDot_add, latticeDot_smul]
  rw [← latticeDot_conj w, E, E, map_add, map_add, map_add, map_mul, map_mul, map_mul, map_neg, Complex.conj_ofReal, Complex.conj_ofReal,
    hopping_hermitian T _ v w, clover_hermitian T U v w, gamma5_hermitian v w, latticeDot_conj, map_mul, Complex.conj_I, Complex.conj_ofReal]
  push_cast; ring

/-- **C83 fails for multiply-and-add**: `multiplyAdd` hops over the boundaries of the blocks, as it does in the block operator without clover term.
It is enough that some site of the blocks has a forward neighbour outside. -/
theorem C83_add_counterexample (T : Torus S) (hT : T.Wide 2) (idx : S → Bool) (x : S) (μ : Fin 4)
    (h1 : idx x = true) (h2 : idx (T.sup μ x) = false) (κ csw τ : ℝ) (hκ : κ ≠ 0) (g5 : Bool) :
    ¬ LawfulAdd (blockImprovedOp (N := N + 1) T idx (fun _ _ => 1) κ csw τ g5) := by
  intro h
  refine C33_block_counterexample (N := N) T hT idx x μ h1 h2 κ τ hκ g5 fun out v w α => ?_
  have h' := Outcome.ok.inj (h out v w α)
  refine congrArg Outcome.ok ?_
  funext y; ext c i
  have hy := congrFun (congrFun (congrFun h' y) c) i
  simp only [blockImprovedOp, blockImprovedMul, blockImprovedMulAdd, Matrix.of_apply, Pi.add_apply, Pi.smul_apply, Matrix.add_apply] at hy
  simp only [blockOp, Pi.add_apply, Pi.smul_apply, Matrix.add_apply]
  linear_combination hy

/-- **C83 for multiply-and-add, what holds**: at sites outside the blocks and at sites whose eight neighbours belong to the blocks
`multiplyAdd` gives `multiply` plus `alpha*vector2`. -/
theorem C83_add_partial (T : Torus S) (idx : S → Bool) (U : GField S N) (κ csw τ : ℝ) (g5 : Bool) (v w : SField S N)
    (α : ℂ) (x : S) (hx : idx x = false ∨ ∀ μ, idx (T.sup μ x) = true ∧ idx (T.sdn μ x) = true) :
    blockImprovedMulAdd T idx U κ csw τ g5 v w α x = blockImprovedMul T idx U κ csw τ g5 v x + α • w x := by
  ext c i
  have h := congrFun (congrFun (C33_block_partial T idx U κ τ g5 v w α x hx) c) i
  simp only [blockImprovedMul, blockImprovedMulAdd, Matrix.of_apply, Matrix.add_apply] at h ⊢
  rw [h]; ring

/-- The hypotheses are met: on a `3 × 3 × 4 × 5` lattice with blocks of one site in the first direction the origin is black, its neighbour is
not, and a field that is nonzero only at the origin vanishes outside the black blocks. -/
example : (boxTorus exExt3 exExt3_pos).Wide 2 ∧
    blockIndex (boxTorus exExt3 exExt3_pos) ![1, 6, 6, 6] 0 ⟨⟨0, 0, 0, 0⟩, by decide⟩ = true ∧
    blockIndex (boxTorus exExt3 exExt3_pos) ![1, 6, 6, 6] 0
      ((boxTorus exExt3 exExt3_pos).sup 0 ⟨⟨0, 0, 0, 0⟩, by decide⟩) = false := by
  refine ⟨?_, by decide, by decide⟩
  intro μ; fin_cases μ <;> decide

example : ∃ v : SField (BoxSite exExt3) 2, v ≠ 0 ∧
    ∀ y, blockIndex (boxTorus exExt3 exExt3_pos) ![1, 6, 6, 6] 0 y = false → v y = 0 := by
  classical
  refine ⟨fun y => if y = ⟨⟨0, 0, 0, 0⟩, by decide⟩ then Matrix.of fun _ _ => 1 else 0, fun h => ?_, fun y hy => ?_⟩
  · have h1 := congrFun (congrFun (congrFun h ⟨⟨0, 0, 0, 0⟩, by decide⟩) 0) 0
    simp at h1
  · rcases eq_or_ne y ⟨⟨0, 0, 0, 0⟩, by decide⟩ with e | e
    · subst e; revert hy; decide
    · exact if_neg e

end Leonard
