import Verif.Meson.Ineq
import Verif.Meson.NoiseProps
import Verif.Gauge.Props

/-!
# C61, C62, C63: the hypotheses can be met

On the lattice `3 × 3 × 4 × 5` of `exExt3` with links which are not all equal to one, an exact inverter exists for `κ = 1/10`.
-/

set_option autoImplicit false

namespace Leonard

open Matrix

/-- Links which are unitary and not all one. -/
noncomputable def exMesonLinks : GField (BoxSite exExt3) 3 := gaugeTransform (boxTorus exExt3 exExt3_pos) (exOmega exExt3 3) fun _ _ => 1

theorem gaugeTransform_unitary {S : Type} {N : ℕ} (T : Torus S) {ω : S → Mat N} (hω : ∀ x, ω x ∈ unitaryGroup (Fin N) ℂ) {U : GField S N}
    (hU : ∀ x μ, U x μ ∈ unitaryGroup (Fin N) ℂ) (x : S) (μ : Fin 4) : gaugeTransform T ω U x μ ∈ unitaryGroup (Fin N) ℂ :=
  mul_mem (mul_mem (hω _) (hU _ _)) (Unitary.star_mem (hω _))

theorem exMesonLinks_unitary (x : BoxSite exExt3) (μ : Fin 4) : exMesonLinks x μ ∈ unitaryGroup (Fin 3) ℂ :=
  gaugeTransform_unitary _ (exOmega_unitary _ _) (fun _ _ => one_mem _) x μ

theorem rotateLinks_unitary {S : Type} {N : ℕ} (T : Torus S) (n : ℕ) {U : GField S N} (hU : ∀ x μ, U x μ ∈ unitaryGroup (Fin N) ℂ) (x : S) (μ : Fin 4) :
    rotateLinks T n U x μ ∈ unitaryGroup (Fin N) ℂ := by
  rw [rotateLinks_eq]; exact hU _ _

/-- An inverter which is exact wherever the operator is invertible. -/
theorem exists_exact {S : Type} {N : ℕ} [Fintype S] (T : Torus S) {κ : ℝ} (hκ : |κ| < 1 / 8) :
    ∃ solve : GField S N → SField S N → SField S N, ∀ U, (∀ x μ, U x μ ∈ unitaryGroup (Fin N) ℂ) → ∀ b, optMul T U κ false (solve U b) = b := by
  classical
  refine ⟨fun U b => if h : ∃ v, optMul T U κ false v = b then h.choose else 0, fun U hU b => ?_⟩
  have h : ∃ v, optMul T U κ false v = b := ((C63_solvable T hU κ 0 false b).2 hκ).1.exists
  simp only [dif_pos h]
  exact h.choose_spec

theorem boxTorus_origin : IsOrigin (boxTorus exExt3 exExt3_pos) ⟨⟨0, 0, 0, 0⟩, by decide⟩ := by
  intro x
  constructor
  · intro h
    apply Subtype.ext
    apply Site.ext_get
    intro ν
    have h1 := h ν
    have h2 := (x.2.get ν).1
    change (x.1.get ν).toNat = 0 at h1
    have : x.1.get ν = 0 := by omega
    rw [this]
    fin_cases ν <;> rfl
  · rintro rfl μ
    fin_cases μ <;> rfl

example : exMesonLinks ≠ fun _ _ => 1 := by
  intro h
  have := congrFun (congrFun h ⟨⟨0, 0, 0, 0⟩, by decide⟩) 0
  have e : exOmega exExt3 3 ((boxTorus exExt3 exExt3_pos).sup 0 ⟨⟨0, 0, 0, 0⟩, by decide⟩) = -1 := by
    unfold exOmega; rw [if_pos]; decide
  have e0 : exOmega exExt3 3 ⟨⟨0, 0, 0, 0⟩, by decide⟩ = 1 := by
    unfold exOmega; rw [if_neg]; decide
  simp only [exMesonLinks, gaugeTransform, e, e0] at this
  have h2 := congrFun (congrFun this 0) 0
  simp at h2
  norm_num [Complex.ext_iff] at h2

/-- `C61_wick`, `C61_positive`, `C61_gauge`. -/
example : ∃ solve, (∃ G, IsGreen (optMul (boxTorus exExt3 exExt3_pos) exMesonLinks (1 / 10) false) G) ∧ IsOrigin (boxTorus exExt3 exExt3_pos) ⟨⟨0, 0, 0, 0⟩, by decide⟩
    ∧ (∀ b, optMul (boxTorus exExt3 exExt3_pos) (rotateLinks (boxTorus exExt3 exExt3_pos) 3 exMesonLinks) (1 / 10) false
      (solve (rotateLinks (boxTorus exExt3 exExt3_pos) 3 exMesonLinks) b) = b)
    ∧ (∀ b, optMul (boxTorus exExt3 exExt3_pos) (rotateLinks (boxTorus exExt3 exExt3_pos) 3 (gaugeTransform (boxTorus exExt3 exExt3_pos) (exOmega exExt3 3) exMesonLinks)) (1 / 10) false
      (solve (rotateLinks (boxTorus exExt3 exExt3_pos) 3 (gaugeTransform (boxTorus exExt3 exExt3_pos) (exOmega exExt3 3) exMesonLinks)) b) = b)
    ∧ ∃ p ∈ (mesonExecute (boxTorus exExt3 exExt3_pos) (1 / 10) solve (fun _ => none) 3 exMesonLinks).pion, 0 < p := by
  obtain ⟨solve, hs⟩ := exists_exact (N := 3) (boxTorus exExt3 exExt3_pos) (κ := 1 / 10) (by rw [abs_of_pos] <;> norm_num)
  refine ⟨solve, ⟨_, green_exists (hs _ exMesonLinks_unitary)⟩, boxTorus_origin, hs _ (rotateLinks_unitary _ _ exMesonLinks_unitary),
    hs _ (rotateLinks_unitary _ _ (gaugeTransform_unitary _ (exOmega_unitary _ _) exMesonLinks_unitary)), ?_⟩
  exact C61_positive (boxTorus exExt3 exExt3_pos) (by norm_num) (D := fun U => optMul (boxTorus exExt3 exExt3_pos) U (1 / 10) false) (Or.inl rfl) boxTorus_origin (by norm_num)
    exMesonLinks 3 solve (hs _ (rotateLinks_unitary _ _ exMesonLinks_unitary))

/-- `C61_inequalities` and `C61_pcac_bound`: at every time in the lattice there are entries. -/
example (solve : GField (BoxSite exExt3) 3 → SField (BoxSite exExt3) 3 → SField (BoxSite exExt3) 3) (U : GField (BoxSite exExt3) 3) (n t : ℕ)
    (ht : t < (boxTorus exExt3 exExt3_pos).ext 3) :
    (∃ p, (mesonExecute (boxTorus exExt3 exExt3_pos) (1 / 10) solve (fun _ => none) n U).pion[t]? = some p)
    ∧ (∃ p, (mesonExecute (boxTorus exExt3 exExt3_pos) (1 / 10) solve (fun _ => none) n U).scalar[t]? = some p)
    ∧ (∃ p, (mesonExecute (boxTorus exExt3 exExt3_pos) (1 / 10) solve (fun _ => none) n U).ps[t]? = some p)
    ∧ ∃ m, (mesonExecute (boxTorus exExt3 exExt3_pos) (1 / 10) solve (fun _ => none) n U).pcac[t]? = some m := by
  simp [mesonExecute, mesonOutput, ht]

/-- `C62_unbiased`, `C62_disconnected`, `C62_real` and the counterexample. -/
example : ∃ (solve : SField (BoxSite exExt3) 3 → SField (BoxSite exExt3) 3) (G : BoxSite exExt3 → BoxSite exExt3 → Matrix (Fin 4 × Fin 3) (Fin 4 × Fin 3) ℂ),
    (∀ b, improvedMul (boxTorus exExt3 exExt3_pos) exMesonLinks (1 / 20) 1 false (solve b) = b)
    ∧ IsGreen (improvedMul (boxTorus exExt3 exExt3_pos) exMesonLinks (1 / 20) 1 false) G ∧ |(1 / 20 : ℝ)| * (8 + 6 * |1|) < 1 := by
  have hκ : |(1 / 20 : ℝ)| * (8 + 6 * |1|) < 1 := by rw [abs_of_pos, abs_of_pos] <;> norm_num
  have h := fun b => ((C63_solvable (boxTorus exExt3 exExt3_pos) exMesonLinks_unitary (1 / 20) 1 false b).1 hκ).exists
  choose solve hs using h
  exact ⟨solve, _, hs, green_exists hs, hκ⟩

end Leonard
