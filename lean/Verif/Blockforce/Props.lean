/-
C87: the force of the operator restricted to blocks.
-/
import Verif.Blockforce.Model
import Verif.Force.Wilson
import Verif.Gauge.Path

set_option autoImplicit false

namespace Leonard

open Matrix
open scoped ContDiff Topology Matrix.Norms.Operator

variable {S : Type} [Fintype S] {M : ℕ}

/-- The matrix `D` gives the change of `Re ⟨X, γ₅ D_block Y⟩` when the link at `s` in direction `μ` is rotated by `exp (i t g)`, for every
hermitian `g`.  This is the convention in which all forces of the program are written. -/
def IsBlockForce [DecidableEq S] (T : Torus S) (idx : S → Bool) (κ τ : ℝ) (L : GField S M) (X Y : SField S M) (s : S) (μ : Fin 4) (D : Mat M) :
    Prop :=
  ∀ g : Mat M, gᴴ = g →
    HasDerivAt (fun t : ℝ => (latticeDot X (blockMul T idx (setLink L s μ (NormedSpace.exp (t • (Complex.I • g)) * L s μ)) κ τ true Y)).re)
      (-(1 / 2) * (trace (D * g * L s μ)).im) 0

/-! ### Lemmas -/

theorem blockMul_hop (T : Torus S) (idx : S → Bool) (κ τ : ℝ) (L : GField S M) (Y : SField S M) :
    blockMul T idx L κ τ true Y =
      (gamma5Field Y + gamma5Field ((Complex.I * τ) • gamma5Field Y)) + hopLin T κ (blockLinks T idx L) Y := by
  rw [C33_block]
  change gamma5Field _ = _ + (-κ) • gamma5Field (hoppingSpec T _ Y)
  funext x
  rw [Pi.add_apply, Pi.add_apply, Pi.smul_apply]
  simp only [gamma5Field, wilsonSpec, Pi.add_apply, Pi.smul_apply, Matrix.mul_add, Matrix.mul_sub, Matrix.mul_smul, neg_smul, Complex.coe_smul]
  abel

theorem blockLinks_setLink [DecidableEq S] (T : Torus S) (idx : S → Bool) (L : GField S M) (s : S) (μ : Fin 4) (V : Mat M) :
    blockLinks T idx (setLink L s μ V) =
      blockLinks T idx (setLink L s μ 0) + oneLink s μ (if idx s && idx (T.sup μ s) then V else 0) := by
  funext s' μ'
  rw [Pi.add_apply, Pi.add_apply]
  by_cases h : s' = s ∧ μ' = μ
  · rw [h.1, h.2, oneLink_same]
    simp [blockLinks, setLink]
  · rw [oneLink_ne _ h]
    simp only [blockLinks, setLink, if_neg h, add_zero]

/-- The derivative along a rotation of one link. -/
theorem hasDerivAt_block [DecidableEq S] (T : Torus S) (idx : S → Bool) (κ τ : ℝ) (L : GField S M) (X Y : SField S M) (s : S) (μ : Fin 4)
    (g : Mat M) :
    HasDerivAt (fun t : ℝ => (latticeDot X (blockMul T idx (setLink L s μ (NormedSpace.exp (t • (Complex.I • g)) * L s μ)) κ τ true Y)).re)
      (if idx s && idx (T.sup μ s) then rdot X (hopLin T κ (oneLink s μ (Complex.I • (g * L s μ))) Y) else 0) 0 := by
  have hf : (fun t : ℝ => (latticeDot X (blockMul T idx (setLink L s μ (NormedSpace.exp (t • (Complex.I • g)) * L s μ)) κ τ true Y)).re) =
      fun t : ℝ => rdot X ((gamma5Field Y + gamma5Field ((Complex.I * τ) • gamma5Field Y)) + hopLin T κ (blockLinks T idx (setLink L s μ 0)) Y)
        + if idx s && idx (T.sup μ s) then rdot X (hopLin T κ (oneLink s μ (NormedSpace.exp (t • (Complex.I • g)) * L s μ)) Y) else 0 := by
    funext t
    change rdot X _ = _
    rw [blockMul_hop, blockLinks_setLink, map_add, LinearMap.add_apply, ← add_assoc, rdot_add]
    congr 1
    split
    · rfl
    · rw [map_zero, map_zero, LinearMap.zero_apply, show (0 : SField S M) = (0 : ℝ) • 0 from (zero_smul _ _).symm, rdot_smul, zero_mul]
  rw [hf]
  split
  · let φ : Mat M →ₗ[ℝ] ℝ :=
      { toFun := fun V => rdot X (hopLin T κ (oneLink s μ V) Y)
        map_add' := fun V W => by rw [map_add, map_add, LinearMap.add_apply, rdot_add]
        map_smul' := fun c V => by rw [map_smul, map_smul, LinearMap.smul_apply, rdot_smul]; rfl }
    have he : HasDerivAt (fun t : ℝ => NormedSpace.exp (t • (Complex.I • g)) * L s μ) (Complex.I • (g * L s μ)) 0 := by
      have h := hasDerivAt_exp_smul_const (𝕂 := ℝ) (Complex.I • g) 0
      simp only [zero_smul, NormedSpace.exp_zero, one_mul] at h
      have h2 := h.mul_const (L s μ)
      rwa [Matrix.smul_mul] at h2
    have hc := (LinearMap.toContinuousLinearMap φ).hasFDerivAt.comp_hasDerivAt (0 : ℝ) he
    exact hc.const_add _
  · simpa using hasDerivAt_const (0 : ℝ) _

theorem wilson_trace (T : Torus S) (κ : ℝ) (L : GField S M) (hL : ∀ s μ, UnitaryOrCut (L s μ)) (X Y : SField S M) (s : S) (μ : Fin 4) (g : Mat M)
    (hg : gᴴ = g) :
    -(1 / 2) * (trace (wilsonDerivative T κ L X Y s μ * g * L s μ)).im = rdot X (hopLin T κ (oneLink s μ (Complex.I • (g * L s μ))) Y) := by
  have h := wilson_isLinkDerivative T κ L X Y s μ g hL hg
  have hf : fderiv ℝ (wilsonFamily T κ) L (oneLink s μ (Complex.I • (g * L s μ))) Y = hopLin T κ (oneLink s μ (Complex.I • (g * L s μ))) Y :=
    fderiv_affineOp _ _ _ _ _
  rw [hf] at h
  rw [h]
  ring

/-- Fields on which the hopping along one link does not vanish. -/
theorem exists_hop_ne_zero (T : Torus S) (hT : T.Wide 1) (κ : ℝ) (hκ : κ ≠ 0) (l : Mat (M + 1)) (hl : l * lᴴ = 1) (s : S) (μ : Fin 4) :
    ∃ X Y : SField S (M + 1), rdot X (hopLin T κ (oneLink s μ (Complex.I • (1 * l))) Y) ≠ 0 := by
  classical
  have hs : T.sup μ s ≠ s := T.sup_ne le_rfl hT μ s
  have hG : tabGamma5Minus μ 0 0 = 1 := by
    rw [tabGamma5Minus]
    fin_cases μ <;> simp [toSpin, tabGamma5MinusT]
  let C : Matrix (Fin 4) (Fin (M + 1)) ℂ := Matrix.of fun α i => if α = 0 ∧ i = 0 then 1 else 0
  let B : Matrix (Fin 4) (Fin (M + 1)) ℂ := C * (lᴴ)ᵀ
  let A : Matrix (Fin 4) (Fin (M + 1)) ℂ := tabGamma5Minus μ * (B * (Complex.I • (1 * l))ᵀ)
  have hA : A = Complex.I • (tabGamma5Minus μ * C) := by
    have h2 : (lᴴ)ᵀ * lᵀ = 1 := by rw [← transpose_mul, hl, transpose_one]
    simp only [A, B, one_mul, transpose_smul, Matrix.mul_smul]
    rw [Matrix.mul_assoc C, h2, Matrix.mul_one]
  have hA0 : A 0 0 = Complex.I := by
    rw [hA, Matrix.smul_apply, Matrix.mul_apply, Finset.sum_eq_single 0]
    · simp [C, hG]
    · intro b _ hb; simp [C, hb]
    · simp
  refine ⟨fun y => if y = s then A else 0, fun y => if y = T.sup μ s then B else 0, ?_⟩
  rw [rdot_hop_oneLink]
  simp only [if_true, if_neg hs, conjTranspose_zero, Matrix.zero_mul, trace_zero, add_zero]
  refine mul_ne_zero (neg_ne_zero.2 hκ) ?_
  change (trace (Aᴴ * A)).re ≠ 0
  rw [trace_conj_mul, Complex.re_sum]
  refine ne_of_gt (Finset.sum_pos' (fun α _ => ?_) ⟨0, Finset.mem_univ _, ?_⟩)
  · rw [Complex.re_sum]
    refine Finset.sum_nonneg fun k _ => ?_
    rw [← Complex.normSq_eq_conj_mul_self, Complex.ofReal_re]
    exact Complex.normSq_nonneg _
  · rw [Complex.re_sum]
    refine Finset.sum_pos' (fun k _ => ?_) ⟨0, Finset.mem_univ _, ?_⟩
    · rw [← Complex.normSq_eq_conj_mul_self, Complex.ofReal_re]
      exact Complex.normSq_nonneg _
    · rw [← Complex.normSq_eq_conj_mul_self, Complex.ofReal_re, hA0, Complex.normSq_I]
      exact one_pos

/-! ### C87 -/

/-- **C87, what the force of the block operator has to be.** For all blocks, links and fields: on a link with both ends in the blocks it is the
force of the Wilson operator, and on every other link it is zero. -/
theorem C87_force_of_blocks [DecidableEq S] (T : Torus S) (idx : S → Bool) (κ τ : ℝ) (L : GField S M) (hL : ∀ s μ, UnitaryOrCut (L s μ))
    (X Y : SField S M) (s : S) (μ : Fin 4) :
    IsBlockForce T idx κ τ L X Y s μ (if idx s = true ∧ idx (T.sup μ s) = true then wilsonDerivative T κ L X Y s μ else 0) := by
  intro g hg
  have h := hasDerivAt_block T idx κ τ L X Y s μ g
  by_cases hi : idx s = true ∧ idx (T.sup μ s) = true
  · rw [if_pos hi, wilson_trace T κ L hL X Y s μ g hg]
    rw [if_pos (by simp [hi.1, hi.2])] at h
    exact h
  · rw [if_neg hi]
    rw [if_neg (by simpa using hi)] at h
    simpa using h

/-- **C87, where the force is right.** On a lattice with at least two sites in every direction, with non-zero `κ` and links that are unitary, the
force that the block operator returns is the derivative of that operator for all fields on exactly those links for which `both ends lie in the
blocks` and `the coordinate of the first end is not a multiple of the block size` are both true or both false.  What is missing from the claim are
all the other links. -/
theorem C87_force_partial [DecidableEq S] (T : Torus S) (hT : T.Wide 1) (bs : Fin 4 → ℕ) (idx : S → Bool) (κ τ : ℝ) (hκ : κ ≠ 0)
    (L : GField S (M + 1)) (hL : ∀ s μ, L s μ * (L s μ)ᴴ = 1) (s : S) (μ : Fin 4) :
    (∀ X Y, IsBlockForce T idx κ τ L X Y s μ (blockDerivative T bs κ L X Y s μ)) ↔
      ((idx s = true ∧ idx (T.sup μ s) = true) ↔ T.coord s μ % bs μ ≠ 0) := by
  have hL' : ∀ s μ, UnitaryOrCut (L s μ) := fun s μ => Or.inl (hL s μ)
  constructor
  · intro h
    obtain ⟨X, Y, hXY⟩ := exists_hop_ne_zero T hT κ hκ (L s μ) (hL s μ) s μ
    have h1 := h X Y 1 conjTranspose_one
    have h2 := C87_force_of_blocks T idx κ τ L hL' X Y s μ 1 conjTranspose_one
    have e := h1.unique h2
    rw [← wilson_trace T κ L hL' X Y s μ 1 conjTranspose_one] at hXY
    unfold blockDerivative at e
    by_cases a : idx s = true ∧ idx (T.sup μ s) = true <;> by_cases b : T.coord s μ % bs μ = 0
    · rw [if_pos a, if_pos b] at e
      exact absurd (by rw [← e]; simp) hXY
    · exact ⟨fun _ => b, fun _ => a⟩
    · exact ⟨fun h => absurd h a, fun h => absurd b h⟩
    · rw [if_neg a, if_neg b] at e
      exact absurd (by rw [e]; simp) hXY
  · intro h X Y
    have h2 := C87_force_of_blocks T idx κ τ L hL' X Y s μ
    unfold blockDerivative
    by_cases b : T.coord s μ % bs μ = 0
    · rw [if_pos b]
      rwa [if_neg fun a => h.1 a b] at h2
    · rw [if_neg b]
      rwa [if_pos (h.2 b)] at h2

theorem blockIndex_sup (T : Torus S) (bs : Fin 4 → ℕ) (c : ℕ) (s : S) (μ : Fin 4) (h : T.coord (T.sup μ s) μ / bs μ = T.coord s μ / bs μ) :
    blockIndex T bs c (T.sup μ s) = blockIndex T bs c s := by
  have e : ∀ ν, T.coord (T.sup μ s) ν / bs ν = T.coord s ν / bs ν := fun ν => by
    rcases eq_or_ne μ ν with rfl | hν
    · exact h
    · rw [T.coord_sup_ne _ _ _ hν]
  simp only [blockIndex, e]

/-- **C87, the first link of a block.** With blocks of at least two sites in direction `μ`, that fill the lattice, the force on every first link
of a block of the operator's colour is wrong: the program returns zero, and the operator depends on that link. -/
theorem C87_first_link_counterexample [DecidableEq S] (T : Torus S) (hT : T.Wide 1) (bs : Fin 4 → ℕ) (c : ℕ) (κ τ : ℝ) (hκ : κ ≠ 0)
    (L : GField S (M + 1)) (hL : ∀ s μ, L s μ * (L s μ)ᴴ = 1) (s : S) (μ : Fin 4) (hb : 2 ≤ bs μ) (hd : bs μ ∣ T.ext μ)
    (hs : blockIndex T bs c s = true) (h0 : T.coord s μ % bs μ = 0) :
    (∀ X Y, blockDerivative T bs κ L X Y s μ = 0) ∧
    ∃ X Y, ¬ IsBlockForce T (blockIndex T bs c) κ τ L X Y s μ (blockDerivative T bs κ L X Y s μ) := by
  refine ⟨fun X Y => if_pos h0, ?_⟩
  have hq : T.coord (T.sup μ s) μ / bs μ = T.coord s μ / bs μ := by
    obtain ⟨k, hk⟩ := hd
    have hlt := T.coord_lt μ s
    obtain ⟨q, hq⟩ := Nat.dvd_of_mod_eq_zero h0
    have hqk : q < k := by
      rw [hk, hq] at hlt
      exact lt_of_mul_lt_mul_left hlt (Nat.zero_le _)
    have h1 : T.coord s μ + 1 < T.ext μ := by
      rw [hk, hq]
      nlinarith
    rw [T.coord_sup, Nat.mod_eq_of_lt h1, hq, Nat.mul_div_cancel_left _ (by omega), Nat.mul_add_div (by omega), Nat.div_eq_of_lt (by omega),
      add_zero]
  by_contra hc
  push Not at hc
  have h := (C87_force_partial T hT bs (blockIndex T bs c) κ τ hκ L hL s μ).1 hc
  exact h.1 ⟨hs, by rw [blockIndex_sup T bs c s μ hq, hs]⟩ h0

/-- **C87, links outside the blocks.** On every link that starts at a site outside the blocks, away from the start of a block, the program returns
the force of the Wilson operator, and the block operator does not depend on that link. -/
theorem C87_outside_counterexample [DecidableEq S] (T : Torus S) (hT : T.Wide 1) (bs : Fin 4 → ℕ) (c : ℕ) (κ τ : ℝ) (hκ : κ ≠ 0)
    (L : GField S (M + 1)) (hL : ∀ s μ, L s μ * (L s μ)ᴴ = 1) (s : S) (μ : Fin 4)
    (hs : blockIndex T bs c s = false ∨ blockIndex T bs c (T.sup μ s) = false) (h0 : T.coord s μ % bs μ ≠ 0) :
    (∀ V X Y, latticeDot X (blockMul T (blockIndex T bs c) (setLink L s μ V) κ τ true Y) =
      latticeDot X (blockMul T (blockIndex T bs c) L κ τ true Y)) ∧
    ∃ X Y, ¬ IsBlockForce T (blockIndex T bs c) κ τ L X Y s μ (blockDerivative T bs κ L X Y s μ) := by
  have hn : ¬ (blockIndex T bs c s = true ∧ blockIndex T bs c (T.sup μ s) = true) := by
    rintro ⟨a, b⟩
    rcases hs with h | h
    · rw [a] at h; exact Bool.noConfusion h
    · rw [b] at h; exact Bool.noConfusion h
  constructor
  · intro V X Y
    have e : ∀ W, blockLinks T (blockIndex T bs c) (setLink L s μ W) = blockLinks T (blockIndex T bs c) (setLink L s μ 0) := fun W => by
      rw [blockLinks_setLink, if_neg (by simpa using hn), map_zero, add_zero]
    have hL0 : setLink L s μ (L s μ) = L := by
      funext s' μ'
      simp only [setLink]
      split
      · rename_i h; rw [h.1, h.2]
      · rfl
    have e2 := e (L s μ)
    rw [hL0] at e2
    rw [blockMul_hop, blockMul_hop, e, e2]
  · by_contra hc
    push Not at hc
    exact hn (((C87_force_partial T hT bs (blockIndex T bs c) κ τ hκ L hL s μ).1 hc).2 h0)

/-- The conditions are met by a first link, by the last link of a block and by a link inside. -/
example : (boxTorus exExt3 exExt3_pos).Wide 1 ∧ 2 ≤ (![3, 3, 3, 3] : Fin 4 → ℕ) 0 ∧ (![3, 3, 3, 3] : Fin 4 → ℕ) 0 ∣ (boxTorus exExt3 exExt3_pos).ext 0 ∧
    blockIndex (boxTorus exExt3 exExt3_pos) ![3, 3, 3, 3] 0 ⟨⟨0, 0, 0, 0⟩, by decide⟩ = true ∧
    (∀ (s : BoxSite exExt3) (μ : Fin 4), (1 : Mat 2) * (1 : Mat 2)ᴴ = 1) := by
  refine ⟨?_, by decide, by decide, by decide, fun _ _ => by simp⟩
  intro μ; fin_cases μ <;> decide

end Leonard
