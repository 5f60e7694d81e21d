import Verif.Npr.Props
import Verif.Meson.BoundProps

/-!
# C75: the hypotheses can be met
-/

set_option autoImplicit false

namespace Leonard

open Matrix
open scoped Topology

/-- Unitary links which are the same at all sites and not one. -/
noncomputable def exConstLinks : GField (BoxSite exExt3) 3 := fun _ _ => diagonal ![Complex.I, -Complex.I, 1]

theorem exConst_unitary : (diagonal ![Complex.I, -Complex.I, 1] : Mat 3)ᴴ * diagonal ![Complex.I, -Complex.I, 1] = 1 := by
  rw [diagonal_conjTranspose, diagonal_mul_diagonal, ← diagonal_one]
  congr 1
  funext i
  fin_cases i <;> simp

/-- `C75_propagator`, `C75_vertex`, `C75_gamma5`, `C75_global`. -/
example : ∃ solve solve' : SField (BoxSite exExt3) 3 → SField (BoxSite exExt3) 3, (∃ G, IsGreen (optMul (boxTorus exExt3 exExt3_pos) exMesonLinks (1 / 10) false) G)
    ∧ IsWilsonType (boxTorus exExt3 exExt3_pos) (1 / 10) (fun U : GField (BoxSite exExt3) 3 => optMul (boxTorus exExt3 exExt3_pos) U (1 / 10) false)
    ∧ (∀ b, optMul (boxTorus exExt3 exExt3_pos) exMesonLinks (1 / 10) false (solve b) = b)
    ∧ (∀ b, optMul (boxTorus exExt3 exExt3_pos) (gaugeTransform (boxTorus exExt3 exExt3_pos) (fun _ => diagonal ![Complex.I, -Complex.I, 1]) exMesonLinks) (1 / 10) false
      (solve' b) = b) := by
  obtain ⟨solve, hs⟩ := exists_exact (N := 3) (boxTorus exExt3 exExt3_pos) (κ := 1 / 10) (by rw [abs_of_pos] <;> norm_num)
  exact ⟨solve exMesonLinks, solve _, ⟨_, green_exists (hs _ exMesonLinks_unitary)⟩, Or.inl rfl, hs _ exMesonLinks_unitary,
    hs _ (gaugeTransform_unitary _ (fun _ => mem_unitaryGroup_iff'.2 exConst_unitary) exMesonLinks_unitary)⟩

/-- `C75_tree`. -/
example : Function.Injective (boxTorus exExt3 exExt3_pos).coord ∧ (∀ x ρ μ, exConstLinks ((boxTorus exExt3 exExt3_pos).sup ρ x) μ = exConstLinks x μ)
    ∧ (exConstLinks ≠ fun _ _ => 1) ∧ ∃ solve : SField (BoxSite exExt3) 3 → SField (BoxSite exExt3) 3, ∀ b, optMul (boxTorus exExt3 exExt3_pos) exConstLinks (1 / 10) false (solve b) = b := by
  obtain ⟨solve, hs⟩ := exists_exact (N := 3) (boxTorus exExt3 exExt3_pos) (κ := 1 / 10) (by rw [abs_of_pos] <;> norm_num)
  refine ⟨boxTorus_coord_injective _ _, fun _ _ _ => rfl, fun h => ?_, solve exConstLinks, hs _ fun _ _ => mem_unitaryGroup_iff'.2 exConst_unitary⟩
  have := congrFun (congrFun (congrFun (congrFun h ⟨⟨0, 0, 0, 0⟩, by decide⟩) 0) 0) 0
  simp [exConstLinks, Complex.ext_iff] at this

/-- `C75_ward`. -/
example : ∃ solve : ℝ → SField (BoxSite exExt3) 3 → SField (BoxSite exExt3) 3, ∀ᶠ m₁ in 𝓝 (2 : ℝ), ∀ b,
    improvedMul (boxTorus exExt3 exExt3_pos) exMesonLinks (1 / (2 * (m₁ + 4))) (1 / 10) false (solve m₁ b) = b := by
  classical
  refine ⟨fun m₁ b => if h : ∃ v, improvedMul (boxTorus exExt3 exExt3_pos) exMesonLinks (1 / (2 * (m₁ + 4))) (1 / 10) false v = b then h.choose else 0, ?_⟩
  filter_upwards [lt_mem_nhds (show (1 : ℝ) < 2 by norm_num)] with m₁ hm b
  have hκ : |1 / (2 * (m₁ + 4))| * (8 + 6 * |(1 / 10 : ℝ)|) < 1 := by
    rw [abs_of_pos (by positivity), abs_of_pos (by norm_num), div_mul_eq_mul_div, div_lt_one (by positivity)]
    linarith
  have h : ∃ v, improvedMul (boxTorus exExt3 exExt3_pos) exMesonLinks (1 / (2 * (m₁ + 4))) (1 / 10) false v = b :=
    ((C63_solvable _ exMesonLinks_unitary _ _ false b).1 hκ).exists
  simp only [dif_pos h]
  exact h.choose_spec

end Leonard
