import Verif.Linalg.Props
import Verif.Sap.Props

/-!
# C97: the inverter which the self test needs exists
-/

set_option autoImplicit false

namespace Leonard

open Matrix

noncomputable section

variable {S : Type} {N : ℕ}

/-- **C97**: for unitary links the square of the block operator of the self test can be inverted, so that the hypothesis of `C97_silent` can be met. -/
theorem C97_solvable [Fintype S] (T : Torus S) (U : GField S N) (hU : ∀ x μ, U x μ ∈ unitaryGroup (Fin N) ℂ) (idx : S → Bool) (b : SField S N) :
    ∃! v, blockMul T idx U (1 / 10) 0 true (blockMul T idx U (1 / 10) 0 true v) = b := by
  have h0 : |(1 / 10 : ℝ)| * (8 + 6 * |(0 : ℝ)|) < 1 := by
    rw [abs_zero, abs_of_pos (by norm_num)]
    norm_num
  have hf : Function.Bijective (blockMul T idx U (1 / 10) 0 false) := by
    have h := blockImproved_bijective (T := T) hU h0 idx
    have e : blockMul T idx U (1 / 10) 0 false = blockImprovedMul T idx U (1 / 10) 0 0 false := by
      funext v
      rw [blockImproved_zero]
    rw [e]
    exact h
  have h5 : Function.Bijective (gamma5Field : SField S N → SField S N) :=
    Function.Involutive.bijective fun v => gamma5Field_gamma5Field v
  have e : blockMul T idx U (1 / 10) 0 true = gamma5Field ∘ blockMul T idx U (1 / 10) 0 false := by
    funext v
    simp only [C33_block, withGamma5, Function.comp, if_true, Bool.false_eq_true, if_false]
  have ht : Function.Bijective (blockMul T idx U (1 / 10) 0 true) := by
    rw [e]; exact h5.comp hf
  exact (ht.comp ht).existsUnique b

example (U : GField (Fin 2) 3) (T : Torus (Fin 2)) (hU : ∀ x μ, U x μ ∈ unitaryGroup (Fin 3) ℂ) (κ : ℝ) (a₁ a₂ b₁ b₂ z : SField (Fin 2) 3) :
    ∃ solve, ∀ r ∈ linearAlgebraTest T U (fun x => x = 0) κ solve a₁ a₂ b₁ b₂ z, r = 0 :=
  ⟨fun b => (C97_solvable T U hU (fun x => x = 0) b).choose,
    C97_silent T U _ κ _ (fun b => (C97_solvable T U hU (fun x => x = 0) b).choose_spec.1) a₁ a₂ b₁ b₂ z⟩

end

end Leonard
