import Verif.Stout.Ridder
import Verif.Stout.Force
import Mathlib.Analysis.Calculus.MeanValue

/-!
# The accuracy of the numerical derivative
-/

set_option autoImplicit false

namespace Leonard

open Matrix
open scoped ContDiff Topology Matrix.Norms.Operator

theorem bound_step {φ φ' B B' : ℝ → ℝ} {a : ℝ} (h0 : φ 0 = 0) (hB0 : B 0 = 0) (hφ : ∀ x, HasDerivAt φ (φ' x) x) (hB : ∀ x, HasDerivAt B (B' x) x)
    (hle : ∀ x, 0 ≤ x → x ≤ a → |φ' x| ≤ B' x) (x : ℝ) (hx : 0 ≤ x) (hxa : x ≤ a) : |φ x| ≤ B x :=
  image_norm_le_of_norm_deriv_right_le_deriv_boundary (f := φ) (f' := φ') (a := 0) (b := a)
    (fun y _ => (hφ y).continuousAt.continuousWithinAt) (fun y _ => (hφ y).hasDerivWithinAt) (by simp [h0, hB0]) hB
    (fun y hy => hle y hy.1 hy.2.le) ⟨hx, hxa⟩

theorem hasDerivAt_reflect {f f1 : ℝ → ℝ} (h : ∀ x, HasDerivAt f (f1 x) x) (x : ℝ) : HasDerivAt (fun x => f (-x)) (-f1 (-x)) x := by
  have := (h (-x)).comp x (hasDerivAt_neg x)
  rw [mul_neg_one] at this
  exact this

theorem central_difference {f f1 f2 f3 : ℝ → ℝ} (h1 : ∀ x, HasDerivAt f (f1 x) x) (h2 : ∀ x, HasDerivAt f1 (f2 x) x) (h3 : ∀ x, HasDerivAt f2 (f3 x) x)
    {K a : ℝ} (hK : ∀ x, |x| ≤ a → |f3 x| ≤ K) (x : ℝ) (hx : 0 < x) (hxa : x ≤ a) : |(f x - f (-x)) / (2 * x) - f1 0| ≤ K * x ^ 2 / 6 := by
  have s2 := bound_step (φ := fun x => f2 x - f2 (-x)) (φ' := fun x => f3 x - -f3 (-x)) (B := fun x => 2 * K * x) (B' := fun _ => 2 * K) (a := a)
    (by simp) (by simp) (fun x => (h3 x).sub (hasDerivAt_reflect h3 x)) (fun x => by simpa using (hasDerivAt_id x).const_mul (2 * K))
    (fun y hy hya => by
      have a1 := hK y (by rw [abs_of_nonneg hy]; exact hya)
      have a2 := hK (-y) (by rw [abs_neg, abs_of_nonneg hy]; exact hya)
      rw [sub_neg_eq_add]
      have := abs_add_le (f3 y) (f3 (-y))
      linarith)
  have s1 := bound_step (φ := fun x => f1 x + f1 (-x) - 2 * f1 0) (φ' := fun x => f2 x - f2 (-x)) (B := fun x => K * x ^ 2) (B' := fun x => 2 * K * x) (a := a)
    (by simp; ring) (by simp) (fun x => by
      have := ((h2 x).add (hasDerivAt_reflect h2 x)).sub_const (2 * f1 0)
      rw [← sub_eq_add_neg] at this
      exact this)
    (fun x => by
      have := (hasDerivAt_pow 2 x).const_mul K
      refine HasDerivAt.congr_deriv this ?_
      push_cast; ring) s2
  have s0 := bound_step (φ := fun x => f x - f (-x) - 2 * f1 0 * x) (φ' := fun x => f1 x + f1 (-x) - 2 * f1 0) (B := fun x => K * x ^ 3 / 3)
    (B' := fun x => K * x ^ 2) (a := a) (by simp) (by simp) (fun x => by
      have := ((h1 x).sub (hasDerivAt_reflect h1 x)).sub ((hasDerivAt_id x).const_mul (2 * f1 0))
      rw [sub_neg_eq_add, mul_one] at this
      exact this)
    (fun x => by
      have := ((hasDerivAt_pow 3 x).const_mul K).div_const 3
      refine HasDerivAt.congr_deriv this ?_
      push_cast; ring) s1 x hx.le hxa
  have e : (f x - f (-x)) / (2 * x) - f1 0 = (f x - f (-x) - 2 * f1 0 * x) / (2 * x) := by field_simp
  rw [e, abs_div, abs_of_pos (by linarith : (0 : ℝ) < 2 * x), div_le_iff₀ (by linarith)]
  refine s0.trans (le_of_eq ?_)
  ring

theorem ridder_bound {f f1 f2 f3 : ℝ → ℝ} (h1 : ∀ x, HasDerivAt f (f1 x) x) (h2 : ∀ x, HasDerivAt f1 (f2 x) x) (h3 : ∀ x, HasDerivAt f2 (f3 x) x)
    {K h : ℝ} (h0 : 0 < h) (hK : ∀ x, |x| ≤ h → |f3 x| ≤ K) : |ridder f h - f1 0| ≤ 4 * K * h ^ 2 := by
  have hK0 : 0 ≤ K := (abs_nonneg _).trans (hK 0 (by simpa using h0.le))
  have := ridder_close f (d := f1 0) (e := K * h ^ 2 / 6) h0 fun x hx hxh => by
    refine (central_difference h1 h2 h3 hK x hx hxh).trans ?_
    have : x ^ 2 ≤ h ^ 2 := pow_le_pow_left₀ hx.le hxh 2
    have := mul_le_mul_of_nonneg_left this hK0
    linarith
  have h5 : 0 ≤ K * h ^ 2 := by positivity
  linarith

theorem ridder_smooth {f : ℝ → ℝ} (hf : ContDiff ℝ ∞ f) : ∃ C : ℝ, ∀ h, 0 < h → h ≤ 1 → |ridder f h - deriv f 0| ≤ C * h ^ 2 := by
  have d : ∀ {g : ℝ → ℝ}, ContDiff ℝ ∞ g → ContDiff ℝ ∞ (deriv g) ∧ ∀ x, HasDerivAt g (deriv g x) x := fun {g} hg =>
    ⟨(contDiff_infty_iff_deriv.1 hg).2, fun x => ((contDiff_infty_iff_deriv.1 hg).1 x).hasDerivAt⟩
  have e1 := d hf
  have e2 := d e1.1
  have e3 := d e2.1
  obtain ⟨K, hK⟩ := (isCompact_Icc (a := (-1 : ℝ)) (b := 1)).exists_bound_of_continuousOn (f := deriv (deriv (deriv f))) e3.1.continuous.continuousOn
  refine ⟨4 * K, fun h h0 h1 => ?_⟩
  refine ridder_bound e1.2 e2.2 e3.2 h0 fun x hx => hK x ?_
  have := abs_le.1 (hx.trans h1)
  exact ⟨this.1, this.2⟩

variable {S : Type} [Fintype S] {N M : ℕ}

theorem contDiff_smearTerm (ρ : FermionRep N M) (hρ : ρ.Lawful) (T : Torus S) (r : ℝ) (D : Mat M) (U P : GField S N) (s' : S) (μ' : Fin 4) :
    ContDiff ℝ ∞ fun h : ℝ => (trace (D * ρ.link (stoutLinks T r (moveLinks P U h) s' μ'))).re := by
  have h1 : ContDiff ℝ ∞ fun h : ℝ => stoutLinks T r (moveLinks P U h) s' μ' :=
    (contDiff_link s' μ').comp ((contDiff_stoutLinks T r).comp (contDiff_moveLinks P U))
  have h2 : ContDiff ℝ ∞ fun h : ℝ => D * ρ.link (stoutLinks T r (moveLinks P U h) s' μ') := contDiff_const.mul (hρ.smooth.comp h1)
  exact trL.contDiff.comp h2

end Leonard
