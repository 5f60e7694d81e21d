import Verif.Xspace.Props
import Verif.Npr.Examples

/-!
# C77: the hypotheses can be met
-/

set_option autoImplicit false

namespace Leonard

open Matrix

/-- `C77_solve`, `C77_exact_partial`, `C77_disconnected_partial`. -/
example : ∃ solveSq : SField (BoxSite exExt3) 3 → SField (BoxSite exExt3) 3,
    IsHermitianWilson (boxTorus exExt3 exExt3_pos) (1 / 10) (fun U : GField (BoxSite exExt3) 3 => optMul (boxTorus exExt3 exExt3_pos) U (1 / 10) false)
      (fun U => optMul (boxTorus exExt3 exExt3_pos) U (1 / 10) true)
    ∧ (∀ b, optMul (boxTorus exExt3 exExt3_pos) exMesonLinks (1 / 10) true (optMul (boxTorus exExt3 exExt3_pos) exMesonLinks (1 / 10) true (solveSq b)) = b)
    ∧ (∃ G, IsGreen (optMul (boxTorus exExt3 exExt3_pos) exMesonLinks (1 / 10) false) G) ∧ IsOrigin (boxTorus exExt3 exExt3_pos) ⟨⟨0, 0, 0, 0⟩, by decide⟩ := by
  obtain ⟨solve, hs⟩ := exists_exact (N := 3) (boxTorus exExt3 exExt3_pos) (κ := 1 / 10) (by rw [abs_of_pos] <;> norm_num)
  have hq : IsHermitianWilson (boxTorus exExt3 exExt3_pos) (1 / 10) (fun U : GField (BoxSite exExt3) 3 => optMul (boxTorus exExt3 exExt3_pos) U (1 / 10) false)
      (fun U => optMul (boxTorus exExt3 exExt3_pos) U (1 / 10) true) := Or.inl ⟨rfl, rfl⟩
  exact ⟨_, hq, squareSolve_spec (fun v => hq.right exMesonLinks v) (hs _ exMesonLinks_unitary), ⟨_, green_exists (hs _ exMesonLinks_unitary)⟩, boxTorus_origin⟩

/-- The second part of `C77_disconnected_partial`: the matrices 0 and 15 are diagonal. -/
example : (∀ mu nu, mu ≠ nu → gammaBits 0 mu nu = 0) ∧ ∀ mu nu, mu ≠ nu → gammaBits 15 mu nu = 0 := by
  constructor
  · intro mu nu h
    simp [gammaBits, one_apply, h]
  · intro mu nu h
    rw [gammaBits_15, gamma5_eq_diagonal, diagonal_apply_ne _ h]

end Leonard
