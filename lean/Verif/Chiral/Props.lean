import Verif.Chiral.Lemmas
import Verif.Overlap.Props
import Mathlib.Analysis.SpecialFunctions.Complex.LogBounds

/-!
# C73: the overlap propagator and chiral rotations

`D` is the overlap operator with its mass, `D0` the same without mass; `expField (θ • chiralA D0)` is the chiral rotation
`exp(θ γ5 (1 - D0))` of the fermions, `expField (θ • chiralB D0)` the one `exp(θ (1 - D0) γ5)` of the antifermions.
-/

set_option autoImplicit false

namespace Leonard

open Matrix Filter
open scoped Topology

noncomputable section

variable {S : Type} [Fintype S] {M : ℕ}

/-- The operator `D` is the program's overlap operator, with or without eigenvectors treated exactly, at the given mass. -/
def IsOverlap (exact : Bool) (T : Torus S) (κ mass : ℝ) (scaling : ℂ) (roots : List ℂ) (old : SField S M) (eigs : List (ℝ × SField S M))
    (L : GField S M) (D : SField S M → SField S M) : Prop :=
  ∀ v, overlapVariant exact T κ mass scaling roots old eigs L v = .ok (D v)

/-- **C73**, the propagator: for the solution `x` of `D x = b` at mass `m` the program's propagator is `(x - b)/(1 - m)`, the one with the contact
term removed. -/
theorem C73_propagator (exact : Bool) (T : Torus S) (κ mass : ℝ) (scaling : ℂ) (roots : List ℂ) (old : SField S M) (eigs : List (ℝ × SField S M))
    (L : GField S M) (D D0 : SField S M → SField S M) (hD : IsOverlap exact T κ mass scaling roots old eigs L D)
    (hD0 : IsOverlap exact T κ 0 scaling roots old eigs L D0) (hm : mass ≠ 1) (x : SField S M) :
    constructPropagator (some D0) x = (1 - mass : ℂ)⁻¹ • (x - D x) := by
  have h1 : (1 - mass : ℂ) ≠ 0 := by
    rw [← Complex.ofReal_one, ← Complex.ofReal_sub]
    exact_mod_cast sub_ne_zero.2 (Ne.symm hm)
  change x - D0 x = _
  rw [overlap_mass exact T κ mass scaling roots old eigs L D D0 hD hD0, eq_inv_smul_iff₀ h1]
  module

/-- **C73**, chiral symmetry of the propagator: at mass zero it anticommutes with gamma5 as far as the operator obeys the Ginsparg-Wilson
relation (C70 says how far). -/
theorem C73_anticommutes (exact : Bool) (T : Torus S) (κ : ℝ) (scaling : ℂ) (roots : List ℂ) (old : SField S M) (eigs : List (ℝ × SField S M))
    (L : GField S M) (D0 : SField S M → SField S M) (hD0 : IsOverlap exact T κ 0 scaling roots old eigs L D0) (δ c : ℝ) (hc : 0 < c)
    (hgap : ∀ v, c * fieldNorm v ≤ fieldNorm (D0 v))
    (hGW : ∀ v, fieldNorm (gamma5Field (D0 v) + D0 (gamma5Field v) - (2 : ℝ) • D0 (gamma5Field (D0 v))) ≤ δ / 2 * fieldNorm v)
    (b x y : SField S M) (hx : D0 x = b) (hy : D0 y = gamma5Field b) :
    fieldNorm (gamma5Field (constructPropagator (some D0) x) + constructPropagator (some D0) y) ≤ δ / (2 * c) * fieldNorm x := by
  have h0 : roots ≠ [] := by
    rintro rfl
    have := hD0 x
    cases exact <;> cases this
  obtain ⟨F, hF⟩ := overlap_linear exact T κ 0 scaling roots h0 old eigs L
  have hFD : ∀ v, D0 v = F v := fun v => Outcome.ok.inj ((hD0 v).symm.trans (hF v))
  have e : D0 (gamma5Field (constructPropagator (some D0) x) + constructPropagator (some D0) y)
      = gamma5Field (D0 x) + D0 (gamma5Field x) - (2 : ℝ) • D0 (gamma5Field (D0 x)) := by
    change D0 (gamma5Field (x - D0 x) + (y - D0 y)) = _
    rw [hy, hx]
    have hg : gamma5Field (x - b) = gamma5Field x - gamma5Field b := map_sub gamma5CLin x b
    rw [hg, hFD, map_add, map_sub, map_sub, ← hFD, ← hFD, ← hFD, hy]
    module
  have h1 := hgap (gamma5Field (constructPropagator (some D0) x) + constructPropagator (some D0) y)
  rw [e] at h1
  have h2 := h1.trans (hGW x)
  rw [show δ / (2 * c) * fieldNorm x = (δ / 2 * fieldNorm x) / c by field_simp, le_div_iff₀ hc]
  linarith

/-- **C73**, the rotations: with `n` steps the program rotates fermions and antifermions by the exponentials up to an error that falls like `1/n`,
for every operator, angle and field. -/
theorem C73_rotation (D : SField S M →ₗ[ℂ] SField S M) (a : ℝ) (ha : 0 ≤ a) (hD : ∀ v, fieldNorm (v - D v) ≤ a * fieldNorm v) (θ : ℂ) (n : ℕ) (hn : n ≠ 0)
    (v : SField S M) :
    fieldNorm (psiRotation D n θ v - expField (θ • chiralA D) v) ≤ (‖θ‖ * a) ^ 2 * Real.exp (2 * (‖θ‖ * a)) / n * fieldNorm v
      ∧ fieldNorm (psibarRotation D n θ v - expField (θ • chiralB D) v) ≤ (‖θ‖ * a) ^ 2 * Real.exp (2 * (‖θ‖ * a)) / n * fieldNorm v := by
  constructor
  · refine iterate_exp (chiralA D) θ a ha (fun v => ?_) n hn _ (psiStep_eq D (θ / n)) v
    rw [chiralA_apply, fieldNorm_gamma5]
    exact hD v
  · refine iterate_exp (chiralB D) θ a ha (fun v => ?_) n hn _ (psibarStep_eq D (θ / n)) v
    rw [chiralB_apply]
    exact (hD _).trans_eq (by rw [fieldNorm_gamma5])

/-- **C73**: the action of massless fermions is invariant under the rotations, up to the violation of the Ginsparg-Wilson relation and an error
that falls like `1/n`: rotating the field, applying the operator and rotating as an antifermion gives the operator on the field. -/
theorem C73_invariance (D : SField S M →ₗ[ℂ] SField S M) (a δ : ℝ) (ha : 0 ≤ a) (hδ : 0 ≤ δ) (hD : ∀ v, fieldNorm (v - D v) ≤ a * fieldNorm v)
    (hGW : ∀ v, fieldNorm (gamma5Field (D v) + D (gamma5Field v) - (2 : ℝ) • D (gamma5Field (D v))) ≤ δ / 2 * fieldNorm v)
    (θ : ℂ) (n : ℕ) (hn : n ≠ 0) (v : SField S M) :
    fieldNorm (psibarRotation D n θ (D (psiRotation D n θ v)) - D v)
      ≤ Real.exp (2 * (‖θ‖ * a)) * (‖θ‖ * δ / 2 + (‖θ‖ * a) ^ 2 * (1 + a) / n) * fieldNorm v := by
  obtain ⟨t, ht⟩ : ∃ t, t = θ / (n : ℂ) := ⟨_, rfl⟩
  have hnp : (0 : ℝ) < n := by exact_mod_cast Nat.pos_of_ne_zero hn
  have htn : ‖t‖ = ‖θ‖ / n := by rw [ht, norm_div, Complex.norm_natCast]
  have htri : ∀ v w : SField S M, fieldNorm (v + w) ≤ fieldNorm v + fieldNorm w := by
    intro v w
    simp only [fieldNorm_toEL, map_add]
    exact norm_add_le _ _
  have hsm : ∀ (c : ℂ) (v : SField S M), fieldNorm (c • v) = ‖c‖ * fieldNorm v := by
    intro c v
    simp only [fieldNorm_toEL, map_smul, norm_smul]
  have hnn : ∀ v : SField S M, 0 ≤ fieldNorm v := fun v => by rw [fieldNorm_toEL]; exact norm_nonneg _
  have hA : ∀ v, fieldNorm (chiralA D v) ≤ a * fieldNorm v := fun v => by
    rw [chiralA_apply, fieldNorm_gamma5]; exact hD v
  have hB : ∀ v, fieldNorm (chiralB D v) ≤ a * fieldNorm v := fun v => by
    rw [chiralB_apply]; exact (hD _).trans_eq (by rw [fieldNorm_gamma5])
  have hDn : ∀ v, fieldNorm (D v) ≤ (1 + a) * fieldNorm v := by
    intro v
    have h1 : D v = v + (-1 : ℂ) • (v - D v) := by module
    rw [h1]
    refine (htri _ _).trans ?_
    rw [hsm, norm_neg, norm_one]
    linarith [hD v]
  have hstepn : ∀ (F : SField S M →ₗ[ℂ] SField S M) (f : SField S M → SField S M), (∀ v, f v = v + t • F v) → (∀ v, fieldNorm (F v) ≤ a * fieldNorm v) →
      ∀ (k : ℕ) (v : SField S M), fieldNorm (f^[k] v) ≤ (1 + ‖t‖ * a) ^ k * fieldNorm v := by
    intro F f hf hF k
    induction k with
    | zero => intro v; simp
    | succ k ih =>
      intro v
      rw [Function.iterate_succ_apply, pow_succ, mul_assoc]
      refine (ih _).trans (mul_le_mul_of_nonneg_left ?_ (by positivity))
      rw [hf]
      refine (htri _ _).trans ?_
      rw [hsm]
      nlinarith [hF v, norm_nonneg t]
  have hadd : ∀ (k : ℕ) (v w : SField S M), (psibarStep D t)^[k] (v + w) = (psibarStep D t)^[k] v + (psibarStep D t)^[k] w := by
    intro k
    induction k with
    | zero => intro v w; rfl
    | succ k ih =>
      intro v w
      rw [Function.iterate_succ_apply, Function.iterate_succ_apply, Function.iterate_succ_apply, ← ih]
      congr 1
      rw [psibarStep_eq, psibarStep_eq, psibarStep_eq, map_add]
      module
  obtain ⟨r, hr⟩ : ∃ r : SField S M → SField S M, r = fun w => t • (gamma5Field (D w) + D (gamma5Field w) - (2 : ℝ) • D (gamma5Field (D w)))
    + (t * t) • chiralB D (D (chiralA D w)) := ⟨_, rfl⟩
  have step : ∀ w, psibarStep D t (D (psiStep D t w)) = D w + r w := by
    intro w
    have hg : gamma5Field (w - D w) = gamma5Field w - gamma5Field (D w) := map_sub gamma5CLin w (D w)
    have h2 : D (chiralA D w) = D (gamma5Field w) - D (gamma5Field (D w)) := by rw [chiralA_apply, hg, map_sub]
    have h3 : D (psiStep D t w) = D w + t • D (chiralA D w) := by rw [psiStep_eq, map_add, map_smul]
    have h4 : chiralB D (D w + t • D (chiralA D w)) = (gamma5Field (D w) - D (gamma5Field (D w))) + t • chiralB D (D (chiralA D w)) := by
      rw [map_add, map_smul, chiralB_apply D (D w)]
    rw [psibarStep_eq, h3, h4, hr]
    change _ = D w + (t • (gamma5Field (D w) + D (gamma5Field w) - (2 : ℝ) • D (gamma5Field (D w))) + (t * t) • chiralB D (D (chiralA D w)))
    generalize chiralB D (D (chiralA D w)) = q
    rw [h2, two_smul]
    module
  have hrn : ∀ w, fieldNorm (r w) ≤ (‖t‖ * δ / 2 + (‖t‖ * a) ^ 2 * (1 + a)) * fieldNorm w := by
    intro w
    rw [hr]
    refine (htri _ _).trans ?_
    rw [hsm, hsm, norm_mul]
    have h1 : fieldNorm (chiralB D (D (chiralA D w))) ≤ a * ((1 + a) * (a * fieldNorm w)) :=
      (hB _).trans (mul_le_mul_of_nonneg_left ((hDn _).trans (mul_le_mul_of_nonneg_left (hA w) (by linarith))) ha)
    have h2 := mul_le_mul_of_nonneg_left (hGW w) (norm_nonneg t)
    have h3 := mul_le_mul_of_nonneg_left h1 (mul_nonneg (norm_nonneg t) (norm_nonneg t))
    refine (add_le_add h2 h3).trans_eq ?_
    ring
  obtain ⟨c, hc⟩ : ∃ c, c = 1 + ‖t‖ * a := ⟨_, rfl⟩
  have hc1 : 1 ≤ c := by rw [hc]; have := mul_nonneg (norm_nonneg t) ha; linarith
  have hind : ∀ k : ℕ, fieldNorm ((psibarStep D t)^[k] (D ((psiStep D t)^[k] v)) - D v)
      ≤ k * ((c ^ k) ^ 2 * ((‖t‖ * δ / 2 + (‖t‖ * a) ^ 2 * (1 + a)) * fieldNorm v)) := by
    intro k
    induction k with
    | zero =>
      have : fieldNorm (0 : SField S M) = 0 := by rw [fieldNorm_toEL, map_zero, norm_zero]
      simp [this]
    | succ k ih =>
      have e : (psibarStep D t)^[k + 1] (D ((psiStep D t)^[k + 1] v)) - D v
          = ((psibarStep D t)^[k] (D ((psiStep D t)^[k] v)) - D v) + (psibarStep D t)^[k] (r ((psiStep D t)^[k] v)) := by
        rw [Function.iterate_succ_apply, Function.iterate_succ_apply' (psiStep D t), step, hadd]
        abel
      rw [e]
      refine (htri _ _).trans ?_
      have h0 : 0 ≤ (‖t‖ * δ / 2 + (‖t‖ * a) ^ 2 * (1 + a)) := by
        have := norm_nonneg t
        positivity
      have h1 := hstepn (chiralB D) _ (psibarStep_eq D t) hB k (r ((psiStep D t)^[k] v))
      have h2 := hrn ((psiStep D t)^[k] v)
      have h3 := hstepn (chiralA D) _ (psiStep_eq D t) hA k v
      rw [← hc] at h1 h3
      have hck : 0 ≤ c ^ k := by positivity
      have h4 : fieldNorm ((psibarStep D t)^[k] (r ((psiStep D t)^[k] v))) ≤ (c ^ k) ^ 2 * ((‖t‖ * δ / 2 + (‖t‖ * a) ^ 2 * (1 + a)) * fieldNorm v) := by
        refine h1.trans ((mul_le_mul_of_nonneg_left (h2.trans (mul_le_mul_of_nonneg_left h3 h0)) hck).trans_eq ?_)
        ring
      have hmono : (c ^ k) ^ 2 ≤ (c ^ (k + 1)) ^ 2 := by
        have : c ^ k ≤ c ^ (k + 1) := pow_le_pow_right₀ hc1 (by omega)
        exact pow_le_pow_left₀ hck this 2
      have h5 : (c ^ k) ^ 2 * ((‖t‖ * δ / 2 + (‖t‖ * a) ^ 2 * (1 + a)) * fieldNorm v)
          ≤ (c ^ (k + 1)) ^ 2 * ((‖t‖ * δ / 2 + (‖t‖ * a) ^ 2 * (1 + a)) * fieldNorm v) :=
        mul_le_mul_of_nonneg_right hmono (mul_nonneg h0 (hnn v))
      have h6 := mul_le_mul_of_nonneg_left h5 (Nat.cast_nonneg (α := ℝ) k)
      push_cast
      linarith
  have hfin := hind n
  have hcn : (c ^ n) ^ 2 ≤ Real.exp (2 * (‖θ‖ * a)) := by
    have h1 : c ≤ Real.exp (‖t‖ * a) := by rw [hc]; linarith [Real.add_one_le_exp (‖t‖ * a)]
    have h2 : c ^ n ≤ Real.exp (‖θ‖ * a) := by
      refine (pow_le_pow_left₀ (by linarith) h1 n).trans_eq ?_
      rw [← Real.exp_nat_mul, htn]
      congr 1
      field_simp
    refine (pow_le_pow_left₀ (by positivity) h2 2).trans_eq ?_
    rw [← Real.exp_nat_mul]
    norm_num
  change fieldNorm ((psibarStep D (θ / n))^[n] (D ((psiStep D (θ / n))^[n] v)) - D v) ≤ _
  rw [← ht]
  refine hfin.trans ?_
  have h0 : 0 ≤ (‖t‖ * δ / 2 + (‖t‖ * a) ^ 2 * (1 + a)) * fieldNorm v := by
    have := norm_nonneg t
    have := hnn v
    positivity
  refine (mul_le_mul_of_nonneg_left (mul_le_mul_of_nonneg_right hcn h0) hnp.le).trans_eq ?_
  rw [htn]
  field_simp

/-- **C73**, the mass: with mass `m` the program rotates by `1 - m` times the angle. -/
theorem C73_angle (exact : Bool) (T : Torus S) (κ mass : ℝ) (scaling : ℂ) (roots : List ℂ) (old : SField S M) (eigs : List (ℝ × SField S M))
    (L : GField S M) (D D0 : SField S M → SField S M) (hD : IsOverlap exact T κ mass scaling roots old eigs L D)
    (hD0 : IsOverlap exact T κ 0 scaling roots old eigs L D0) (n : ℕ) (θ : ℂ) (v : SField S M) :
    psiRotation D n θ v = psiRotation D0 n ((1 - mass) * θ) v ∧ psibarRotation D n θ v = psibarRotation D0 n ((1 - mass) * θ) v := by
  have hm := overlap_mass exact T κ mass scaling roots old eigs L D D0 hD hD0
  have h1 : psiStep D (θ / n) = psiStep D0 ((1 - mass) * θ / n) := by
    funext w x
    ext mu i
    simp only [psiStep, Matrix.of_apply, hm, Pi.add_apply, Pi.smul_apply, Matrix.add_apply, Matrix.smul_apply, smul_eq_mul]
    split <;> ring
  have h2 : psibarStep D (θ / n) = psibarStep D0 ((1 - mass) * θ / n) := by
    funext w x
    ext mu i
    simp only [psibarStep, Matrix.of_apply, hm, Pi.add_apply, Pi.smul_apply, Matrix.add_apply, Matrix.smul_apply, smul_eq_mul]
    ring
  unfold psiRotation psibarRotation
  rw [h1, h2]
  exact ⟨rfl, rfl⟩

/-- **C73**, the condensates: the first is the propagator closed with the source; the second, for growing numbers of steps, is the same with the
fermion and the antifermion each rotated by `(1 - m) π/2`. What is missing is the angle: it is `π/2` for mass zero only, see
`C73_mass_counterexample`. -/
theorem C73_condensate_partial (exact : Bool) (T : Torus S) (κ mass : ℝ) (scaling : ℂ) (roots : List ℂ) (old : SField S M) (eigs : List (ℝ × SField S M))
    (L : GField S M) (D : SField S M → SField S M) (D0 : SField S M →ₗ[ℂ] SField S M) (hD : IsOverlap exact T κ mass scaling roots old eigs L D)
    (hD0 : IsOverlap exact T κ 0 scaling roots old eigs L D0) (noise inverse : SField S M) :
    (∀ steps, (rotatedCondensates D D0 steps noise inverse).1 = latticeDot noise (inverse - D0 inverse)) ∧
    Tendsto (fun steps => (rotatedCondensates D D0 steps noise inverse).2) atTop (𝓝 (latticeDot noise
      (expField ((2 * ((1 - mass) * ⟨0, Real.pi / 2⟩) : ℂ) • chiralA D0) inverse
        - D0 (expField ((2 * ((1 - mass) * ⟨0, Real.pi / 2⟩) : ℂ) • chiralA D0) inverse)))) := by
  refine ⟨fun _ => rfl, ?_⟩
  obtain ⟨θ, hθ⟩ : ∃ θ : ℂ, θ = (1 - mass) * ⟨0, Real.pi / 2⟩ := ⟨_, rfl⟩
  rw [← hθ]
  obtain ⟨P, hP⟩ : ∃ P : SField S M →ₗ[ℂ] SField S M, P = LinearMap.id - D0 := ⟨_, rfl⟩
  have hPa : ∀ v, v - D0 v = P v := fun v => by rw [hP]; rfl
  -- the antifermion rotation moves through the propagator
  have hmove : ∀ (t : ℂ) (k : ℕ) (w : SField S M), (psibarStep D0 t)^[k] (P w) = P ((psiStep D0 t)^[k] w) := by
    intro t k
    induction k with
    | zero => intro w; rfl
    | succ k ih =>
      intro w
      rw [Function.iterate_succ_apply, Function.iterate_succ_apply, ← ih]
      congr 1
      rw [psibarStep_eq, psiStep_eq, map_add, map_smul, chiralB_apply, chiralA_apply, hPa, hPa]
  have hval : ∀ steps, (rotatedCondensates D D0 steps noise inverse).2 = latticeDot noise (P (psiRotation D0 (2 * steps) (2 * θ) inverse)) := by
    intro steps
    change latticeDot noise (psibarRotation D steps ⟨0, Real.pi / 2⟩ (psiRotation D steps ⟨0, Real.pi / 2⟩ inverse
      - D0 (psiRotation D steps ⟨0, Real.pi / 2⟩ inverse))) = _
    rw [(C73_angle exact T κ mass scaling roots old eigs L D D0 hD hD0 steps _ _).1, (C73_angle exact T κ mass scaling roots old eigs L D D0 hD hD0 steps _ _).2,
      ← hθ, hPa]
    congr 1
    unfold psibarRotation psiRotation
    rw [hmove, ← Function.iterate_add_apply]
    congr 2
    · push_cast
      rw [mul_div_mul_left _ _ (two_ne_zero)]
    · omega
  simp only [hval, hPa]
  -- the error
  obtain ⟨a, ha, hPn⟩ : ∃ a : ℝ, 0 ≤ a ∧ ∀ v, fieldNorm (P v) ≤ a * fieldNorm v := by
    refine ⟨‖fieldOp P‖, norm_nonneg _, fun v => ?_⟩
    rw [fieldNorm_toEL, fieldNorm_toEL, ← fieldOp_apply]
    exact ContinuousLinearMap.le_opNorm _ _
  rw [tendsto_iff_norm_sub_tendsto_zero]
  have hbound : ∀ steps : ℕ, ‖latticeDot noise (P (psiRotation D0 (2 * steps) (2 * θ) inverse)) - latticeDot noise (P (expField ((2 * θ) • chiralA D0) inverse))‖
      ≤ (fieldNorm noise * (a * ((‖2 * θ‖ * a) ^ 2 * Real.exp (2 * (‖2 * θ‖ * a)) * fieldNorm inverse)) / 2 + ‖latticeDot noise (P (psiRotation D0 0 (2 * θ) inverse)) - latticeDot noise (P (expField ((2 * θ) • chiralA D0) inverse))‖ * 0) * (1 / (steps : ℝ))
        + if steps = 0 then ‖latticeDot noise (P (psiRotation D0 0 (2 * θ) inverse)) - latticeDot noise (P (expField ((2 * θ) • chiralA D0) inverse))‖ else 0 := by
    intro steps
    by_cases hs : steps = 0
    · subst hs
      simp
    · rw [if_neg hs, mul_zero, add_zero, add_zero]
      have hsub : latticeDot noise (P (psiRotation D0 (2 * steps) (2 * θ) inverse)) - latticeDot noise (P (expField ((2 * θ) • chiralA D0) inverse))
          = latticeDot noise (P (psiRotation D0 (2 * steps) (2 * θ) inverse - expField ((2 * θ) • chiralA D0) inverse)) := by
        rw [map_sub, ← inner_toE, ← inner_toE, ← inner_toE, ← inner_sub_right]
        rfl
      rw [hsub, ← inner_toE]
      refine (norm_inner_le_norm _ _).trans ?_
      rw [norm_toE, norm_toE]
      have h1 := (C73_rotation D0 a ha (fun v => by rw [hPa]; exact hPn v) (2 * θ) (2 * steps) (by omega) inverse).1
      have h2 := (hPn _).trans (mul_le_mul_of_nonneg_left h1 ha)
      have hn0 : 0 ≤ fieldNorm noise := by rw [fieldNorm_toEL]; exact norm_nonneg _
      refine (mul_le_mul_of_nonneg_left h2 hn0).trans_eq ?_
      have hs' : (steps : ℝ) ≠ 0 := by exact_mod_cast hs
      push_cast
      field_simp
  refine squeeze_zero (fun _ => norm_nonneg _) hbound ?_
  have t1 : Tendsto (fun steps : ℕ => 1 / (steps : ℝ)) atTop (𝓝 0) := tendsto_one_div_atTop_nhds_zero_nat
  have t2 : Tendsto (fun steps : ℕ => if steps = 0 then ‖latticeDot noise (P (psiRotation D0 0 (2 * θ) inverse))
      - latticeDot noise (P (expField ((2 * θ) • chiralA D0) inverse))‖ else 0) atTop (𝓝 0) := by
    refine tendsto_const_nhds.congr' ?_
    filter_upwards [eventually_ge_atTop 1] with k hk
    rw [if_neg (by omega)]
  simpa using (t1.const_mul _).add t2

/-! ## The witness: a constant field on trivial links -/

/-- A constant field of positive chirality. -/
def constantField (i : Fin M) : SField S M := fun _ => Matrix.of fun mu j => if mu = 0 ∧ j = i then 1 else 0

theorem gamma5_constant (i : Fin M) : gamma5Field (constantField i : SField S M) = constantField i := by
  funext x
  ext mu j
  rw [gamma5Field_apply]
  simp only [constantField, Matrix.of_apply]
  fin_cases mu <;> simp [spinSign]

theorem wilson_constant (T : Torus S) (κ : ℝ) (i : Fin M) :
    optMul T (fun _ _ => (1 : Mat M)) κ true (constantField i) = ((1 - 8 * κ : ℝ) : ℂ) • (constantField i : SField S M) := by
  funext x
  ext mu j
  simp only [optMul, optSite, rowDag, rowMul, constantField, Matrix.of_apply, Pi.smul_apply, Matrix.smul_apply, smul_eq_mul, if_true]
  fin_cases mu <;> by_cases hj : j = i <;> simp [Matrix.one_apply, hj, Complex.ext_iff]
  ring

/-- **C73** fails with a mass: with trivial links, hopping parameter `1/4` and the polynomial `x`, which is exact there, a constant field of
positive chirality is a zero mode of the massless operator. The chiral rotation by `π/2` multiplies it by `i`; the program, with mass `1/2` and many
steps, by `exp(iπ/4)`. -/
theorem C73_mass_counterexample (T : Torus S) (i : Fin M) (old : SField S M) :
    ∃ (D : SField S M → SField S M) (D0 : SField S M →ₗ[ℂ] SField S M),
      IsOverlap false T (1 / 4) (1 / 2) 1 [0] old [] (fun _ _ => 1) D ∧ IsOverlap false T (1 / 4) 0 1 [0] old [] (fun _ _ => 1) D0 ∧
      D0 (constantField i) = 0 ∧
      expField ((⟨0, Real.pi / 2⟩ : ℂ) • chiralA D0) (constantField i) = Complex.I • (constantField i : SField S M) ∧
      Tendsto (fun n => psiRotation D n ⟨0, Real.pi / 2⟩ (constantField i)) atTop (𝓝 (Complex.exp (Complex.I * (Real.pi / 4)) • (constantField i : SField S M))) := by
  obtain ⟨D, hD⟩ := overlap_linear false T (1 / 4) (1 / 2) 1 [0] (by simp) old [] (fun _ _ => (1 : Mat M))
  obtain ⟨D0, hD0⟩ := overlap_linear false T (1 / 4) 0 1 [0] (by simp) old [] (fun _ _ => (1 : Mat M))
  have hQ : wilsonFamily T (1 / 4) (fun _ _ => (1 : Mat M)) (constantField i) = -(constantField i : SField S M) := by
    rw [(wilson_isDirac T (1 / 4)).apply, wilson_constant]
    norm_num
  have hz : D0 (constantField i) = 0 := by
    have h1 := hD0 (constantField i)
    change overlapMul T (1 / 4) 0 1 [0] old false (fun _ _ => 1) (constantField i) = _ at h1
    rw [overlapMul_eq T (1 / 4) 0 1 [0] (by simp), overlapOut_false] at h1
    have h2 := Outcome.ok.inj h1
    rw [← h2, signLin_apply]
    have h3 : rootProd (wilsonFamily T (1 / 4) (fun _ _ => (1 : Mat M))) [0] (constantField i) = (constantField i : SField S M) := by
      change rootFactor (wilsonFamily T (1 / 4) (fun _ _ => (1 : Mat M))) 0 (constantField i) = _
      rw [rootFactor_apply, hQ, map_neg, hQ, zero_smul, sub_zero, neg_neg]
    rw [h3, hQ]
    have h4 : gamma5Field (-(constantField i) : SField S M) = -(constantField i) := by
      have h5 : gamma5Field (-(constantField i) : SField S M) = -gamma5Field (constantField i) := map_neg gamma5CLin (constantField i)
      rw [h5, gamma5_constant]
    simp only [opScale]
    norm_num
    rw [h4]
    module
  have hA : chiralA D0 (constantField i) = (1 : ℂ) • (constantField i : SField S M) := by
    rw [chiralA_apply, hz, sub_zero, gamma5_constant, one_smul]
  have hstep : ∀ θ : ℂ, expField (θ • chiralA D0) (constantField i) = Complex.exp θ • (constantField i : SField S M) := by
    intro θ
    refine expField_eigen _ θ _ ?_
    rw [LinearMap.smul_apply, hA, one_smul]
  refine ⟨D, D0, hD, hD0, hz, ?_, ?_⟩
  · rw [hstep]
    congr 1
    rw [show (⟨0, Real.pi / 2⟩ : ℂ) = (Real.pi / 2) * Complex.I from Complex.ext (by simp) (by simp), Complex.exp_pi_div_two_mul_I]
  · have e : ∀ n : ℕ, psiRotation D n ⟨0, Real.pi / 2⟩ (constantField i) = (1 + (⟨0, Real.pi / 4⟩ : ℂ) / n) ^ n • (constantField i : SField S M) := by
      intro n
      rw [(C73_angle false T (1 / 4) (1 / 2) 1 [0] old [] _ D D0 hD hD0 n _ _).1]
      have e1 : ((1 - ((1 / 2 : ℝ) : ℂ)) * ⟨0, Real.pi / 2⟩ : ℂ) = ⟨0, Real.pi / 4⟩ := by
        apply Complex.ext
        · simp
        · simp; ring
      rw [e1]
      generalize (⟨0, Real.pi / 4⟩ : ℂ) = θ
      unfold psiRotation
      generalize θ / (n : ℂ) = t
      induction n with
      | zero => simp
      | succ k ih =>
        rw [Function.iterate_succ_apply', ih, psiStep_eq, map_smul, hA, pow_succ]
        module
    simp only [e]
    have ht := Complex.tendsto_one_add_div_pow_exp (⟨0, Real.pi / 4⟩ : ℂ)
    rw [show Complex.I * (Real.pi / 4 : ℂ) = ⟨0, Real.pi / 4⟩ from Complex.ext (by simp) (by simp)]
    exact ht.smul_const _

/-! ## The hypotheses can be met -/

theorem exists_field_bound (F : SField S M →ₗ[ℂ] SField S M) : ∃ a : ℝ, 0 ≤ a ∧ ∀ v, fieldNorm (F v) ≤ a * fieldNorm v := by
  refine ⟨‖fieldOp F‖, norm_nonneg _, fun v => ?_⟩
  rw [fieldNorm_toEL, fieldNorm_toEL, ← fieldOp_apply]
  exact ContinuousLinearMap.le_opNorm _ _

theorem exists_defect_bound (D : SField S M →ₗ[ℂ] SField S M) : ∃ δ : ℝ, 0 ≤ δ ∧
    ∀ v, fieldNorm (gamma5Field (D v) + D (gamma5Field v) - (2 : ℝ) • D (gamma5Field (D v))) ≤ δ / 2 * fieldNorm v := by
  obtain ⟨d, hd, hb⟩ := exists_field_bound D
  refine ⟨2 * (d + d + 2 * (d * d)), by positivity, fun v => ?_⟩
  have h1 : fieldNorm (gamma5Field (D v)) ≤ d * fieldNorm v := by rw [fieldNorm_gamma5]; exact hb v
  have h2 : fieldNorm (D (gamma5Field v)) ≤ d * fieldNorm v := (hb _).trans_eq (by rw [fieldNorm_gamma5])
  have h3 : fieldNorm (D (gamma5Field (D v))) ≤ d * (d * fieldNorm v) := (hb _).trans (mul_le_mul_of_nonneg_left h1 hd)
  generalize gamma5Field (D v) = p at *
  generalize D (gamma5Field v) = q at *
  generalize D p = r at *
  have h4 : fieldNorm (p + q - (2 : ℝ) • r) ≤ fieldNorm p + fieldNorm q + 2 * fieldNorm r := by
    rw [two_smul]
    simp only [fieldNorm_toEL, map_sub, map_add]
    refine (norm_sub_le _ _).trans ?_
    linarith [norm_add_le (toEL p) (toEL q), norm_add_le (toEL r) (toEL r)]
  linarith

/-- Every overlap operator is linear and bounded, and violates the Ginsparg-Wilson relation by a bounded amount. -/
example (exact : Bool) (T : Torus S) (κ mass : ℝ) (scaling r : ℂ) (old : SField S M) (eigs : List (ℝ × SField S M)) (L : GField S M) :
    ∃ D : SField S M →ₗ[ℂ] SField S M, IsOverlap exact T κ mass scaling [r] old eigs L D ∧ (∃ a : ℝ, 0 ≤ a ∧ ∀ v, fieldNorm (v - D v) ≤ a * fieldNorm v) ∧
      ∃ δ : ℝ, 0 ≤ δ ∧ ∀ v, fieldNorm (gamma5Field (D v) + D (gamma5Field v) - (2 : ℝ) • D (gamma5Field (D v))) ≤ δ / 2 * fieldNorm v := by
  obtain ⟨D, hD⟩ := overlap_linear exact T κ mass scaling [r] (List.cons_ne_nil _ _) old eigs L
  have h1 := exists_field_bound (LinearMap.id - D)
  have h2 := exists_defect_bound D
  exact ⟨D, hD, h1, h2⟩

theorem gamma5Field_gamma5 (v : SField S M) : gamma5Field (gamma5Field v) = v := by
  funext x
  ext mu i
  rw [gamma5Field_apply, gamma5Field_apply]
  fin_cases mu <;> simp [spinSign]

/-- For hopping parameter zero the polynomial `x` is exact and the operator has a gap. -/
example (T : Torus S) (old : SField S M) (L : GField S M) : ∃ D0 : SField S M → SField S M, IsOverlap false T 0 0 1 [0] old [] L D0 ∧
    (∀ v, 1 * fieldNorm v ≤ fieldNorm (D0 v)) ∧
    ∀ v, fieldNorm (gamma5Field (D0 v) + D0 (gamma5Field v) - (2 : ℝ) • D0 (gamma5Field (D0 v))) ≤ 0 / 2 * fieldNorm v := by
  have hQ : ∀ v : SField S M, wilsonFamily T 0 L v = gamma5Field v := by
    intro v
    rw [(wilson_isDirac T 0).apply, (C33_wilson T L 0 true v).1]
    change gamma5Field (wilsonSpec T L 0 v) = _
    congr 1
    funext x
    change v x - ((0 : ℝ) : ℂ) • hoppingSpec T L v x = v x
    rw [Complex.ofReal_zero, zero_smul, sub_zero]
  refine ⟨fun v => v, fun v => ?_, fun v => by rw [one_mul], fun v => ?_⟩
  · change overlapMul T 0 0 1 [0] old false L v = _
    rw [overlapMul_eq T 0 0 1 [0] (by simp), overlapOut_false, signLin_apply]
    congr 1
    have h3 : rootProd (wilsonFamily T 0 L) [0] v = v := by
      change rootFactor (wilsonFamily T 0 L) 0 v = _
      rw [rootFactor_apply, hQ, hQ, zero_smul, sub_zero, gamma5Field_gamma5]
    rw [h3, hQ]
    have h4 : (opScale 1 ([0] : List ℂ).length : ℂ) = 1 := by simp [opScale]
    rw [h4, one_smul, gamma5Field_gamma5]
    module
  · have h : gamma5Field v + gamma5Field v - (2 : ℝ) • gamma5Field v = 0 := by rw [two_smul, sub_self]
    rw [h, fieldNorm_toEL, map_zero, norm_zero, zero_div, zero_mul]

/-- A lattice and a colour for the witness. -/
example : Nonempty (Torus (BoxSite exExt)) ∧ Nonempty (Fin 3) := ⟨⟨boxTorus exExt exExt_pos⟩, ⟨0⟩⟩

end

end Leonard
