import Verif.Gluino.Props
import Verif.Npr.Examples

/-!
# C78: the hypotheses can be met
-/

set_option autoImplicit false

namespace Leonard

open Matrix

/-- Links in SU(2) which are not all one. -/
noncomputable def exGluinoLinks : GField (BoxSite exExt3) 2 := gaugeTransform (boxTorus exExt3 exExt3_pos) (exOmega exExt3 2) fun _ _ => 1

theorem exOmega_det (x : BoxSite exExt3) : exOmega exExt3 2 x ∈ specialUnitaryGroup (Fin 2) ℂ := by
  refine mem_specialUnitaryGroup_iff.2 ⟨exOmega_unitary _ _ x, ?_⟩
  unfold exOmega
  split
  · rw [det_neg]; simp
  · exact det_one

theorem exGluinoLinks_su (x : BoxSite exExt3) (μ : Fin 4) : exGluinoLinks x μ ∈ specialUnitaryGroup (Fin 2) ℂ := by
  refine mul_mem (mul_mem (exOmega_det x) (one_mem _)) ?_
  have h : ∀ y, (exOmega exExt3 2 y)ᴴ = exOmega exExt3 2 y := by
    intro y
    unfold exOmega
    split <;> simp
  rw [h]
  exact exOmega_det _

theorem adjoint_links_unitary {S : Type} {N : ℕ} [Fintype S] (T : Torus S) {U : GField S N} (hU : ∀ x μ, U x μ ∈ unitaryGroup (Fin N) ℂ) (x : S) (μ : Fin 4) :
    fermionLinks (adjointRep N) T "fermion_periodic" U x μ ∈ unitaryGroup (Fin (lieGenerators N).length) ℂ := by
  have h := adjointRotation_unitary (S := Unit) (ω := fun _ => U x μ) (fun _ => hU x μ) ()
  rw [fermionLinks_eq]
  have hb : bcFactor T "fermion_periodic" x μ = 1 := by
    unfold bcFactor synchronizeBc
    simp
  rw [hb, one_smul]
  exact mem_unitaryGroup_iff'.2 h

/-- `C78_formula`, `C78_gauge`. -/
example : ∃ solve : GField (BoxSite exExt3) (lieGenerators 2).length → SField (BoxSite exExt3) (lieGenerators 2).length → SField (BoxSite exExt3) (lieGenerators 2).length,
    (∀ W ∈ [exGluinoLinks, gaugeTransform (boxTorus exExt3 exExt3_pos) (exOmega exExt3 2) exGluinoLinks], ∀ b,
      optMul (boxTorus exExt3 exExt3_pos) (fermionLinks (adjointRep 2) (boxTorus exExt3 exExt3_pos) "fermion_periodic" W) (1 / 10) false
        (solve (fermionLinks (adjointRep 2) (boxTorus exExt3 exExt3_pos) "fermion_periodic" W) b) = b)
    ∧ (∃ G, IsGreen (optMul (boxTorus exExt3 exExt3_pos) (fermionLinks (adjointRep 2) (boxTorus exExt3 exExt3_pos) "fermion_periodic" exGluinoLinks) (1 / 10) false) G)
    ∧ ExpCovariant expSu2 ∧ ExpGroup expSu2 ∧ (∀ s μ, exGluinoLinks s μ ∈ specialUnitaryGroup (Fin 2) ℂ) ∧ 3 < (boxTorus exExt3 exExt3_pos).ext 3 := by
  obtain ⟨solve, hs⟩ := exists_exact (N := (lieGenerators 2).length) (boxTorus exExt3 exExt3_pos) (κ := 1 / 10) (by rw [abs_of_pos] <;> norm_num)
  have hu : ∀ s μ, exGluinoLinks s μ ∈ unitaryGroup (Fin 2) ℂ := fun s μ => (mem_specialUnitaryGroup_iff.1 (exGluinoLinks_su s μ)).1
  refine ⟨solve, ?_, ⟨_, green_exists (hs _ (adjoint_links_unitary _ hu))⟩, expSu2_covariant, expSu2_group, exGluinoLinks_su, by decide⟩
  intro W hW b
  refine hs _ (adjoint_links_unitary _ ?_) b
  simp only [List.mem_cons, List.not_mem_nil, or_false] at hW
  rcases hW with rfl | rfl
  · exact hu
  · exact gaugeTransform_unitary _ (exOmega_unitary _ _) hu

/-- `C78_sources`. -/
example : 0 < 12 ∧ 5 ≤ 12 := by decide

end Leonard
