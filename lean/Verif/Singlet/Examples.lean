import Verif.Singlet.Props
import Verif.Npr.Examples

/-!
# C76: the hypotheses can be met
-/

set_option autoImplicit false

namespace Leonard

open Matrix

/-- `C76_inverse`, `C76_hopping`, `C76_expansion`. -/
example : ∃ solve : SField (BoxSite exExt3) 3 → SField (BoxSite exExt3) 3, (∃ G, IsGreen (optMul (boxTorus exExt3 exExt3_pos) exMesonLinks (1 / 10) false) G)
    ∧ IsWilsonType (boxTorus exExt3 exExt3_pos) (1 / 10) (fun U : GField (BoxSite exExt3) 3 => optMul (boxTorus exExt3 exExt3_pos) U (1 / 10) false)
    ∧ (∀ b, optMul (boxTorus exExt3 exExt3_pos) exMesonLinks (1 / 10) false (solve b) = b) := by
  obtain ⟨solve, hs⟩ := exists_exact (N := 3) (boxTorus exExt3 exExt3_pos) (κ := 1 / 10) (by rw [abs_of_pos] <;> norm_num)
  exact ⟨solve exMesonLinks, ⟨_, green_exists (hs _ exMesonLinks_unitary)⟩, Or.inl rfl, hs _ exMesonLinks_unitary⟩

/-- `C76_odd`. -/
example : EvenExtents (boxTorus exExt exExt_pos) ∧ Odd 5 := ⟨by intro μ; fin_cases μ <;> decide, by decide⟩

/-- `C76_tail`. -/
example : |(1 / 10 : ℝ)| * (8 + 6 * |(1 / 10 : ℝ)|) < 1 ∧ (∀ x μ, exMesonLinks x μ ∈ unitaryGroup (Fin 3) ℂ)
    ∧ ∃ solve : SField (BoxSite exExt3) 3 → SField (BoxSite exExt3) 3, ∀ b, improvedMul (boxTorus exExt3 exExt3_pos) exMesonLinks (1 / 10) (1 / 10) false (solve b) = b := by
  classical
  have hκ : |(1 / 10 : ℝ)| * (8 + 6 * |(1 / 10 : ℝ)|) < 1 := by rw [abs_of_pos] <;> norm_num
  refine ⟨hκ, exMesonLinks_unitary, fun b => ((C63_solvable _ exMesonLinks_unitary _ _ false b).1 hκ).exists.choose, fun b =>
    ((C63_solvable _ exMesonLinks_unitary _ _ false b).1 hκ).exists.choose_spec⟩

end Leonard
