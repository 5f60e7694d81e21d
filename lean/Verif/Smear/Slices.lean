import Verif.Smear.Props

/-!
# C27, spatial smearing stays within a time slice
-/

set_option autoImplicit false

namespace Leonard

open Matrix

variable {S : Type} {N : ℕ}

/-- Two configurations have the same space links in the time slice `t`. -/
def SameSlice (T : Torus S) (t : ℕ) (U U' : GField S N) : Prop :=
  ∀ s, T.coord s 3 = t → ∀ μ : Fin 4, μ ≠ 3 → U s μ = U' s μ

theorem coord_sdn_time (T : Torus S) (μ : Fin 4) (h : μ ≠ 3) (s : S) : T.coord (T.sdn μ s) 3 = T.coord s 3 := by
  have := T.coord_sup_ne μ 3 (T.sdn μ s) h
  rw [T.sup_sdn] at this
  exact this.symm

theorem spatialStaple_slice (T : Torus S) (t : ℕ) (U U' : GField S N) (h : SameSlice T t U U') (s : S) (hs : T.coord s 3 = t)
    (μ : Fin 4) (hμ : μ ≠ 3) : spatialStaple T U s μ = spatialStaple T U' s μ := by
  unfold spatialStaple
  refine Finset.sum_congr rfl fun ν _ => ?_
  split
  · rename_i hν
    have hν3 : ν ≠ 3 := by rintro rfl; exact absurd hν.1 (by decide)
    have d := coord_sdn_time T ν hν3 s
    have u := T.coord_sup_ne ν 3 s hν3
    have u' := T.coord_sup_ne μ 3 s hμ
    have ud := T.coord_sup_ne μ 3 (T.sdn ν s) hμ
    unfold stapleUp stapleDown
    rw [h (T.sup μ s) (u'.trans hs) ν hν3, h (T.sup ν s) (u.trans hs) μ hμ, h s hs ν hν3,
      h (T.sup μ (T.sdn ν s)) (ud.trans (d.trans hs)) ν hν3, h (T.sdn ν s) (d.trans hs) μ hμ, h (T.sdn ν s) (d.trans hs) ν hν3]
  · rfl

/-- **C27**, spatial smearing does not mix time slices: the smeared space links of a time slice are determined by the space links
of this slice, whatever the time links and the other slices are. -/
theorem C27_spatial_slices (E : Mat N → Option (Mat N)) (T : Torus S) (ρ : ℝ) (levels t : ℕ) (U U' V V' : GField S N)
    (hV : spatialSmearing E T ρ levels U = some V) (hV' : spatialSmearing E T ρ levels U' = some V')
    (h : ∀ s, T.coord s 3 = t → ∀ μ : Fin 4, μ ≠ 3 → U s μ = U' s μ) :
    ∀ s, T.coord s 3 = t → ∀ μ : Fin 4, μ ≠ 3 → V s μ = V' s μ := by
  induction levels generalizing U U' with
  | zero => rw [← Option.some.inj hV, ← Option.some.inj hV']; exact h
  | succ n ih =>
    unfold spatialSmearing at hV hV'
    rw [Option.bind_eq_some_iff] at hV hV'
    obtain ⟨W, hW, hV⟩ := hV
    obtain ⟨W', hW', hV'⟩ := hV'
    refine ih W W' hV hV' fun s hs μ hμ => ?_
    have a := collectLinks_some hW s μ
    have b := collectLinks_some hW' s μ
    unfold spatialSmearLink at a b
    rw [spatialStaple_slice T t U U' h s hs μ hμ, h s hs μ hμ] at a
    exact Option.some.inj (a.symm.trans b)

/-- Smearing has a result when the exponential always has one. -/
example (T : Torus S) (ρ : ℝ) (U : GField S 2) :
    ∃ V, spatialSmearing (fun A : Mat 2 => some (NormedSpace.exp A)) T ρ 1 U = some V := by
  refine ⟨fun s μ => (spatialSmearLink (fun A : Mat 2 => some (NormedSpace.exp A)) T ρ U s μ).getD 0, ?_⟩
  unfold spatialSmearing collectLinks
  have : ∀ s μ, (spatialSmearLink (fun A : Mat 2 => some (NormedSpace.exp A)) T ρ U s μ).isSome := by
    intro s μ; unfold spatialSmearLink; split <;> rfl
  rw [dif_pos this, Option.bind_some]
  unfold spatialSmearing
  congr 1
  funext s μ
  obtain ⟨x, hx⟩ := Option.isSome_iff_exists.1 (this s μ)
  simp [hx]

end Leonard
