/-
C33: the Dirac kernels compute the textbook operator, and `multiplyAdd` is `multiply` plus a multiple
of the second vector.
-/
import Verif.Dirac.CloverLemmas
import Verif.Gauge.Props

set_option autoImplicit false

namespace Leonard

open Matrix

variable {S : Type} {N : ℕ}

/-- **C33, Wilson operator.** The optimised kernel and the basic kernel both compute
`ψ - κ Σ_μ [(1-γ_μ) U_μ(x) ψ(x+μ) + (1+γ_μ) U_μ(x-μ)† ψ(x-μ)]` with the tabulated gamma matrices,
multiplied by gamma5 when the flag is set, for every lattice, all links (unitary or not), every
hopping parameter and every spinor field. -/
theorem C33_wilson (T : Torus S) (U : GField S N) (κ : ℝ) (g5 : Bool) (v : SField S N) :
    optMul T U κ g5 v = withGamma5 g5 (wilsonSpec T U κ v) ∧
    basicMul T U κ g5 v = withGamma5 g5 (wilsonSpec T U κ v) := by
  constructor
  · funext x
    ext c i
    simp only [optMul, Matrix.of_apply, optSite_eq, gamma5_apply]
    cases g5
    · simp only [withGamma5, Bool.false_eq_true, if_false, wilsonSpec, Matrix.sub_apply, Matrix.smul_apply, smul_eq_mul]
      fin_cases c <;> simp <;> ring
    · simp only [withGamma5, if_true, gamma5Field, gamma5_apply, wilsonSpec, Matrix.sub_apply, Matrix.smul_apply, smul_eq_mul]
      fin_cases c <;> simp <;> ring
  · funext x
    ext c i
    simp only [basicMul, Matrix.of_apply, mulVec_rowMul]
    rw [basicOut_eq T κ g5 v x i (fun mu => U x mu) (fun mu => (U (T.sdn mu x) mu)ᴴ) (hoppingSpec T U v x) rfl,
      withGamma5_apply]
    rfl

/-- **C33, clover improved operator.** The improved kernel computes the Wilson operator plus
`κ c_sw Σ_{μ<ν} i σ_{μν} F_{μν} ψ`, where `F` is the antihermitian part of the sum of the four leaves. -/
theorem C33_improved (T : Torus S) (U : GField S N) (κ csw : ℝ) (g5 : Bool) (v : SField S N) :
    improvedMul T U κ csw g5 v = withGamma5 g5 (improvedSpec T U κ csw v) := by
  funext x
  ext c i
  have hF : fieldStrength T U x = fun k => cloverF T U (planeOf k).1 (planeOf k).2 x := by
    funext k; exact fieldStrength_eq T U k x
  simp only [improvedMul, Matrix.of_apply, optSite_eq, gamma5_apply, hF,
    cloverTerm_eq (fun μ ν => cloverF T U μ ν x) (v x)]
  cases g5
  · simp only [withGamma5, Bool.false_eq_true, if_false, improvedSpec, wilsonSpec, Matrix.add_apply, Matrix.sub_apply,
      Matrix.smul_apply, smul_eq_mul]
    generalize (∑ μ, ∑ ν, if μ < ν then Complex.I • (tabSigma μ ν * (v x * (cloverF T U μ ν x)ᵀ)) else 0 :
      Matrix (Fin 4) (Fin N) ℂ) = Q
    fin_cases c <;> simp <;> ring
  · simp only [withGamma5, if_true, gamma5Field, gamma5_apply, improvedSpec, wilsonSpec, Matrix.add_apply, Matrix.sub_apply,
      Matrix.smul_apply, smul_eq_mul]
    generalize (∑ μ, ∑ ν, if μ < ν then Complex.I • (tabSigma μ ν * (v x * (cloverF T U μ ν x)ᵀ)) else 0 :
      Matrix (Fin 4) (Fin N) ℂ) = Q
    fin_cases c <;> simp <;> ring

/-- **C33, block operator.** `multiply` of the operator restricted to blocks is the Wilson operator with
all links that leave a block set to zero, plus the twist `i τ γ₅`. -/
theorem C33_block (T : Torus S) (idx : S → Bool) (U : GField S N) (κ τ : ℝ) (g5 : Bool) (v : SField S N) :
    blockMul T idx U κ τ g5 v =
      withGamma5 g5 (wilsonSpec T (blockLinks T idx U) κ v + (Complex.I * τ) • gamma5Field v) := by
  funext x
  ext c i
  have hz : ∀ (p : Fin N → ℂ) (n : Fin N), rowMul (0 : Mat N) p n = 0 := fun p n => by simp [rowMul]
  have ht : (⟨0, τ⟩ : ℂ) = Complex.I * τ := by apply Complex.ext <;> simp
  have ht' : (⟨0, -τ⟩ : ℂ) = -(Complex.I * τ) := by apply Complex.ext <;> simp
  have h1 : (⟨1, τ⟩ : ℂ) = 1 + Complex.I * τ := by apply Complex.ext <;> simp
  have h1' : (⟨1, -τ⟩ : ℂ) = 1 - Complex.I * τ := by apply Complex.ext <;> simp
  have h1n : (⟨-1, τ⟩ : ℂ) = -1 + Complex.I * τ := by apply Complex.ext <;> simp
  by_cases hx : idx x = true
  · have hb := basicOut_eq T κ g5 v x i (fun mu => blockLinks T idx U x mu)
      (fun mu => (blockLinks T idx U (T.sdn mu x) mu)ᴴ) (hoppingSpec T (blockLinks T idx U) v x) rfl c
    have e1 : ∀ (mu : Fin 4) (p : Fin N → ℂ) (n : Fin N), rowMul (blockLinks T idx U x mu) p n =
        if idx (T.sup mu x) then rowMul (U x mu) p n else 0 := fun mu p n => by
      by_cases h : idx (T.sup mu x) = true <;> simp [blockLinks, hx, h, hz]
    have e2 : ∀ (mu : Fin 4) (p : Fin N → ℂ) (n : Fin N), rowMul (blockLinks T idx U (T.sdn mu x) mu)ᴴ p n =
        if idx (T.sdn mu x) then rowMul (U (T.sdn mu x) mu)ᴴ p n else 0 := fun mu p n => by
      by_cases h : idx (T.sdn mu x) = true <;> simp [blockLinks, hx, h, hz]
    have ha : (fun mu nu n => if idx (T.sdn mu x) then
          (if idx (T.sup mu x) then (U x mu *ᵥ projUp T v x mu nu) n else 0)
            + ((U (T.sdn mu x) mu)ᴴ *ᵥ projDn T v x mu nu) n
        else (if idx (T.sup mu x) then (U x mu *ᵥ projUp T v x mu nu) n else 0)) =
        (fun mu nu n => rowMul (blockLinks T idx U x mu) (projUp T v x mu nu) n
          + rowMul (blockLinks T idx U (T.sdn mu x) mu)ᴴ (projDn T v x mu nu) n) := by
      funext mu nu n
      rw [e1, e2, mulVec_rowMul, mulVec_rowMul]
      by_cases h : idx (T.sdn mu x) = true <;> simp [h]
    have hs : (fun mu nu n => if idx (T.sdn mu x) then
          (if idx (T.sup mu x) then (U x mu *ᵥ projUp T v x mu nu) n else 0)
            - ((U (T.sdn mu x) mu)ᴴ *ᵥ projDn T v x mu nu) n
        else (if idx (T.sup mu x) then (U x mu *ᵥ projUp T v x mu nu) n else 0)) =
        (fun mu nu n => rowMul (blockLinks T idx U x mu) (projUp T v x mu nu) n
          - rowMul (blockLinks T idx U (T.sdn mu x) mu)ᴴ (projDn T v x mu nu) n) := by
      funext mu nu n
      rw [e1, e2, mulVec_rowMul, mulVec_rowMul]
      by_cases h : idx (T.sdn mu x) = true <;> simp [h]
    simp only [blockMul, Matrix.of_apply, hx, if_true]
    rw [ha, hs, hb, ht, ht', withGamma5_apply]
    simp only [wilsonSpec, Pi.add_apply]
    generalize hoppingSpec T (blockLinks T idx U) v x = X
    cases g5
    · simp only [withGamma5, Bool.false_eq_true, if_false, Pi.add_apply, Pi.smul_apply, Matrix.add_apply,
        Matrix.smul_apply, gamma5Field, gamma5_apply]
      fin_cases c <;> simp <;> ring
    · simp only [withGamma5, if_true, Pi.add_apply, Pi.smul_apply, Matrix.add_apply,
        Matrix.smul_apply, gamma5Field, gamma5_apply]
      fin_cases c <;> simp <;> ring
  · have h0 : hoppingSpec T (blockLinks T idx U) v x = 0 := by
      simp [hoppingSpec, blockLinks, hx]
    simp only [blockMul, Matrix.of_apply, hx, if_false, h1, h1', h1n]
    cases g5
    · simp only [withGamma5, Bool.false_eq_true, if_false, Pi.add_apply, Pi.smul_apply, Matrix.add_apply,
        Matrix.smul_apply, gamma5Field, gamma5_apply, wilsonSpec, h0, smul_zero, sub_zero]
      fin_cases c <;> simp <;> ring
    · simp only [withGamma5, if_true, Pi.add_apply, Pi.smul_apply, Matrix.add_apply,
        Matrix.smul_apply, gamma5Field, gamma5_apply, wilsonSpec, h0, smul_zero, sub_zero]
      fin_cases c <;> simp <;> ring

/-- What a caller of `multiplyAdd(output, vector1, vector2, alpha)` expects: the program goes on and
`output` is `multiply(vector1) + alpha*vector2`, whatever `output` held before. -/
def LawfulAdd (D : DiracOp S N) : Prop :=
  ∀ (out v w : SField S N) (α : ℂ), D.mulAdd out v w α = .ok (D.mul v + α • w)

/-- **C33, multiply-and-add.** `multiplyAdd` is `multiply` plus `alpha` times the second vector for the
Wilson operator (optimised and basic), the clover improved operator, the exact overlap operator, the
overlap operator with gamma5, and the operators that add the vector themselves. -/
theorem C33_add (T : Torus S) (U : GField S N) (κ csw mass : ℝ) (g5 : Bool) (m : SField S N → SField S N) :
    LawfulAdd (wilsonOp T U κ g5) ∧ LawfulAdd (basicOp T U κ g5) ∧ LawfulAdd (improvedOp T U κ csw g5) ∧
    LawfulAdd (exactOverlapOp m mass g5) ∧ LawfulAdd (overlapOp m mass true) ∧ LawfulAdd (explicitAddOp m) := by
  refine ⟨?_, ?_, ?_, ?_, ?_, ?_⟩ <;> intro out v w α
  · refine congrArg Outcome.ok ?_
    funext x; ext c i
    simp only [wilsonOp, optMul, optMulAdd, optSite_eq, Matrix.of_apply, Pi.add_apply, Pi.smul_apply, Matrix.add_apply,
      Matrix.smul_apply, smul_eq_mul]
    generalize tabGamma5 * hoppingSpec T U v x = Q
    cases g5 <;> fin_cases c <;> simp <;> ring
  · refine congrArg Outcome.ok ?_
    funext x; ext c i
    simp only [basicOp, basicMul, basicMulAdd, Matrix.of_apply, Pi.add_apply, Pi.smul_apply, Matrix.add_apply,
      Matrix.smul_apply, smul_eq_mul]
    ring
  · refine congrArg Outcome.ok ?_
    funext x; ext c i
    simp only [improvedOp, improvedMul, improvedMulAdd, optSite_eq, Matrix.of_apply, Pi.add_apply, Pi.smul_apply,
      Matrix.add_apply, Matrix.smul_apply, smul_eq_mul]
    generalize tabGamma5 * hoppingSpec T U v x = Q
    generalize cloverTerm (fieldStrength T U x) (v x) = R
    cases g5 <;> fin_cases c <;> simp <;> ring
  · rfl
  · rfl
  · rfl

/-- **C33, multiply-and-add of composed operators.** The squared operators and the twisted operator have
correct `multiplyAdd` whenever the operator inside has. -/
theorem C33_add_composed (D : DiracOp S N) (h : LawfulAdd D) (τ : ℝ) :
    LawfulAdd (squareOp D) ∧ LawfulAdd (twistedOp τ D) := by
  refine ⟨fun out v w α => h out (D.mul v) w α, fun out v w α => ?_⟩
  have h' := h out v w α
  simp only [twistedOp, h', Outcome.bind]
  refine congrArg Outcome.ok ?_
  simp only [addTwist]
  split
  · funext x; ext c i
    simp only [Matrix.of_apply, Pi.add_apply, Pi.smul_apply, Matrix.add_apply, Matrix.smul_apply, smul_eq_mul]
    split <;> ring
  · rfl

/-- **C33, twist.** A twist of at least `1e-17` adds `i τ γ₅ ψ`; a smaller one is ignored. -/
theorem C33_twist (D : DiracOp S N) (τ : ℝ) (v : SField S N) :
    (twistedOp τ D).mul v = if |τ| > 0.00000000000000001 then D.mul v + (Complex.I * τ) • gamma5Field v else D.mul v := by
  have ht : (⟨0, τ⟩ : ℂ) = Complex.I * τ := by apply Complex.ext <;> simp
  simp only [twistedOp, addTwist, ht]
  split
  · funext x; ext c i
    simp only [Matrix.of_apply, Pi.add_apply, Pi.smul_apply, Matrix.add_apply, Matrix.smul_apply, smul_eq_mul,
      gamma5Field, gamma5_apply]
    fin_cases c <;> simp <;> ring
  · rfl

/-- **The gamma5 flag of the twisted operator.** For the Wilson operator the flag multiplies the whole operator
with gamma5; the twisted operator built on it multiplies only the untwisted part, the twist stays `i τ γ₅`
instead of becoming `i τ`. -/
theorem C33_twist_flag_counterexample [Nonempty S] (T : Torus S) (U : GField S (N + 1)) (κ τ : ℝ)
    (hτ : |τ| > 0.00000000000000001) :
    ∃ v, (twistedOp τ (wilsonOp T U κ true)).mul v ≠ gamma5Field ((twistedOp τ (wilsonOp T U κ false)).mul v) := by
  obtain ⟨x⟩ := ‹Nonempty S›
  refine ⟨fun _ => Matrix.of fun c _ => if c = 2 then 1 else 0, fun h => ?_⟩
  rw [C33_twist, C33_twist, if_pos hτ, if_pos hτ] at h
  simp only [wilsonOp, (C33_wilson T U κ _ _).1, withGamma5, if_true, Bool.false_eq_true, if_false] at h
  have h2 := congrFun (congrFun (congrFun h x) 2) 0
  simp [gamma5Field, gamma5_apply, Matrix.mul_add] at h2
  have h0 : τ ≠ 0 := fun h0 => by rw [h0] at hτ; norm_num at hτ
  have h3 : (Complex.I * τ) = 0 := by linear_combination -h2 / 2
  simp [h0] at h3

/-! ### Where multiply-and-add is wrong -/

/-- **C33 fails for the overlap operator without gamma5**: `multiplyAdd` adds the first spinor component
of `vector2` to all four components.  For every lattice with a site, every colour number and every sign
approximation. -/
theorem C33_overlap_counterexample [Nonempty S] (sgn : SField S (N + 1) → SField S (N + 1)) (mass : ℝ) :
    ¬ LawfulAdd (overlapOp sgn mass false) := by
  intro h
  obtain ⟨x⟩ := ‹Nonempty S›
  have h1 := h 0 0 (fun _ => Matrix.of fun c _ => if c = 1 then 1 else 0) 1
  have h2 := Outcome.ok.inj h1
  have h3 := congrFun (congrFun (congrFun h2 x) 1) 0
  simp [overlapOp] at h3

/-- **C33 fails for the squared twisted operator** for every twist other than zero: `multiplyAdd` adds the
twist times `vector2` instead of the twist times `vector1`. -/
theorem C33_squareTwisted_counterexample [Nonempty S] (D : DiracOp S (N + 1)) (hD : LawfulAdd D) (τ : ℝ) (hτ : τ ≠ 0) :
    ¬ LawfulAdd (squareTwistedOp τ D) := by
  intro h
  obtain ⟨x⟩ := ‹Nonempty S›
  have h1 := h 0 (fun _ => Matrix.of fun _ _ => 1) 0 0
  simp only [squareTwistedOp] at h1
  rw [hD] at h1
  have h3 := congrFun (congrFun (congrFun (Outcome.ok.inj h1) x) 0) 0
  simp at h3
  exact hτ h3

/-- The squared twisted operator does have the law without a twist. -/
theorem C33_squareTwisted_partial (D : DiracOp S N) (hD : LawfulAdd D) : LawfulAdd (squareTwistedOp 0 D) := by
  intro out v w α
  have h := hD out v w α
  simp only [squareTwistedOp, Complex.ofReal_zero, add_zero, zero_smul, h]

/-- `multiplyAdd` of the block operator at a site of the blocks is that of the full operator. -/
theorem blockMulAdd_inside (T : Torus S) (idx : S → Bool) (U : GField S N) (κ τ : ℝ) (g5 : Bool) (v w : SField S N)
    (α : ℂ) (x : S) (hx : idx x = true) :
    blockMulAdd T idx U κ τ g5 v w α x =
      withGamma5 g5 (wilsonSpec T U κ v + (Complex.I * τ) • gamma5Field v) x + α • w x := by
  have h1 : (⟨1, τ⟩ : ℂ) = 1 + Complex.I * τ := by apply Complex.ext <;> simp
  have h1' : (⟨1, -τ⟩ : ℂ) = 1 - Complex.I * τ := by apply Complex.ext <;> simp
  ext c i
  simp only [blockMulAdd, Matrix.of_apply, hx, if_true, blockHopping_eq, withGamma5_apply, wilsonSpec, Pi.add_apply,
    Pi.smul_apply, Matrix.add_apply, h1, h1', gamma5_apply]
  generalize hoppingSpec T U v x = X
  cases g5
  · simp only [Bool.false_eq_true, if_false, Matrix.add_apply, Matrix.sub_apply, Matrix.smul_apply, smul_eq_mul,
      gamma5Field, gamma5_apply]
    fin_cases c <;> simp <;> ring
  · simp only [if_true, Matrix.add_apply, Matrix.sub_apply, Matrix.smul_apply, smul_eq_mul,
      gamma5Field, gamma5_apply]
    fin_cases c <;> simp <;> ring

/-- **C33 fails for the block operator**: `multiplyAdd` hops over block boundaries, `multiply` does not.
It is enough that some site of the blocks has a forward neighbour outside. -/
theorem C33_block_counterexample (T : Torus S) (hT : T.Wide 2) (idx : S → Bool) (x : S) (μ : Fin 4)
    (h1 : idx x = true) (h2 : idx (T.sup μ x) = false) (κ τ : ℝ) (hκ : κ ≠ 0) (g5 : Bool) :
    ¬ LawfulAdd (blockOp (N := N + 1) T idx (fun _ _ => 1) κ τ g5) := by
  classical
  intro h
  have ha := congrFun (Outcome.ok.inj (h 0 (fun y => if y = T.sup μ x then
    Matrix.of (fun c _ => if c = 0 then 1 else 0) else 0) 0 0)) x
  simp only [blockOp] at ha
  rw [C33_block, blockMulAdd_inside _ _ _ _ _ _ _ _ _ _ h1] at ha
  generalize hv : (fun y => if y = T.sup μ x then
    Matrix.of (fun (c : Fin 4) (_ : Fin (N + 1)) => if c = 0 then (1 : ℂ) else 0) else 0) = v at ha
  have vx : v x = 0 := by
    rw [← hv]; simp only []; rw [if_neg]; exact (T.sup_ne (k := 2) (by omega) hT μ x).symm
  have vd : ∀ ν, v (T.sdn ν x) = 0 := fun ν => by
    rw [← hv]; simp only []; rw [if_neg]
    intro e
    rw [T.sdn_eq_iff] at e
    by_cases hμ : ν = μ
    · subst hμ; exact T.sup_sup_ne (le_refl 2) hT ν x e.symm
    · exact T.sup_sup_ne_of_ne (k := 2) (by omega) hT hμ x e.symm
  have vu : ∀ ν, ν ≠ μ → v (T.sup ν x) = 0 := fun ν hν => by
    rw [← hv]; simp only []; rw [if_neg]; exact T.sup_ne_sup (k := 2) (by omega) hT hν x
  have vm : v (T.sup μ x) = Matrix.of (fun c _ => if c = 0 then 1 else 0) := by rw [← hv]; simp
  have hop1 : hoppingSpec T (fun _ _ => (1 : Mat (N + 1))) v x = (1 - tabGamma μ) * v (T.sup μ x) := by
    simp only [hoppingSpec]
    rw [Finset.sum_eq_single μ]
    · rw [vd]; simp
    · intro ν _ hν; rw [vd, vu ν hν]; simp
    · simp
  have hop2 : hoppingSpec T (blockLinks T idx fun _ _ => (1 : Mat (N + 1))) v x = 0 := by
    simp only [hoppingSpec]
    refine Finset.sum_eq_zero fun ν _ => ?_
    rw [vd]
    by_cases hν : ν = μ
    · subst hν; simp [blockLinks, h2]
    · rw [vu ν hν]; simp
  have hb := congrFun (congrFun ha 0) 0
  have g0 : tabGamma μ 0 0 = 0 := by
    fin_cases μ
    · simp [tabGamma_eq0]
    · simp [tabGamma_eq1]
    · simp [tabGamma_eq2]
    · simp [tabGamma_eq3]
  have hm : ((1 - tabGamma μ) * v (T.sup μ x) : Matrix (Fin 4) (Fin (N + 1)) ℂ) 0 0 = 1 := by
    rw [vm, Matrix.mul_apply, Fin.sum_univ_four]; simp [g0]
  simp only [withGamma5_apply, wilsonSpec, Pi.add_apply, hop1, hop2, vx] at hb
  cases g5
  · simp [gamma5Field, vx, hm] at hb
    exact hκ hb
  · simp [gamma5Field, vx, gamma5_apply, hm] at hb
    exact hκ hb

/-- **C33 for the block operator, what holds**: at sites outside the blocks and at sites whose eight
neighbours belong to the blocks `multiplyAdd` gives `multiply` plus `alpha*vector2`. -/
theorem C33_block_partial (T : Torus S) (idx : S → Bool) (U : GField S N) (κ τ : ℝ) (g5 : Bool) (v w : SField S N)
    (α : ℂ) (x : S) (hx : idx x = false ∨ ∀ μ, idx (T.sup μ x) = true ∧ idx (T.sdn μ x) = true) :
    blockMulAdd T idx U κ τ g5 v w α x = blockMul T idx U κ τ g5 v x + α • w x := by
  by_cases h : idx x = true
  · rw [blockMulAdd_inside _ _ _ _ _ _ _ _ _ _ h, C33_block]
    have h' := hx.resolve_left (by simp [h])
    have e : hoppingSpec T (blockLinks T idx U) v x = hoppingSpec T U v x := by
      simp only [hoppingSpec, blockLinks, h, (h' _).1, (h' _).2, T.sup_sdn, Bool.and_self, if_true]
    simp only [withGamma5_apply, wilsonSpec, Pi.add_apply, e]
  · ext c i
    simp only [blockMulAdd, blockMul, Matrix.of_apply, h, Matrix.add_apply, Matrix.smul_apply, smul_eq_mul]
    cases g5 <;> simp <;> ring

/-- **C33 fails for the complement of the block operator and for the Schwarz preconditioner**, whose
`multiplyAdd` does nothing, and for the even-odd operator, whose `multiplyAdd` ends the program. -/
theorem C33_unimplemented_counterexample [Nonempty S] (m : SField S (N + 1) → SField S (N + 1)) :
    ¬ LawfulAdd (emptyAddOp m) ∧ ¬ LawfulAdd (exitAddOp m) := by
  constructor
  · intro h
    obtain ⟨x⟩ := ‹Nonempty S›
    have h1 := Outcome.ok.inj (h (m 0 + fun _ => Matrix.of fun _ _ => 1) 0 0 0)
    have h3 := congrFun (congrFun (congrFun h1 x) 0) 0
    simp [emptyAddOp] at h3
  · intro h
    have h1 := h 0 0 0 0
    simp [exitAddOp] at h1

/-! ### The hypotheses are met -/

/-- Blocks of one site in the first direction on a `3 × 3 × 4 × 5` lattice: the origin belongs to the black
blocks and its neighbour does not. -/
example : (boxTorus exExt3 exExt3_pos).Wide 2 ∧
    blockIndex (boxTorus exExt3 exExt3_pos) ![1, 6, 6, 6] 0 ⟨⟨0, 0, 0, 0⟩, by decide⟩ = true ∧
    blockIndex (boxTorus exExt3 exExt3_pos) ![1, 6, 6, 6] 0
      ((boxTorus exExt3 exExt3_pos).sup 0 ⟨⟨0, 0, 0, 0⟩, by decide⟩) = false := by
  refine ⟨?_, by decide, by decide⟩
  intro μ; fin_cases μ <;> decide

/-- With blocks as large as the lattice every site is inside and away from a boundary. -/
example (x : BoxSite exExt3) : ∀ μ, blockIndex (boxTorus exExt3 exExt3_pos) ![6, 6, 6, 6] 0
    ((boxTorus exExt3 exExt3_pos).sup μ x) = true := by
  have h : ∀ y : BoxSite exExt3, blockIndex (boxTorus exExt3 exExt3_pos) ![6, 6, 6, 6] 0 y = true := fun y => by
    have hl := (boxTorus exExt3 exExt3_pos).coord_lt
    have d : ∀ μ, (boxTorus exExt3 exExt3_pos).coord y μ / 6 = 0 := fun μ =>
      Nat.div_eq_of_lt (lt_trans (hl μ y) (by fin_cases μ <;> decide))
    simp [blockIndex, d]
  exact fun μ => h _

/-- The squared, twisted clover operator. -/
example (T : Torus S) (U : GField S N) (κ csw τ : ℝ) :
    LawfulAdd (twistedOp τ (squareOp (improvedOp T U κ csw true))) :=
  (C33_add_composed _ (C33_add_composed _ (C33_add T U κ csw 0 true id).2.2.1 0).1 τ).2

end Leonard
