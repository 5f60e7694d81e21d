import Verif.Overlap.Sign
import Verif.Force.CloverProps

/-!
# C70: overlap fermions
-/

set_option autoImplicit false

namespace Leonard

open Matrix Filter Asymptotics Polynomial
open scoped ContDiff Topology Matrix.Norms.Operator

variable {S : Type} [Fintype S] {N M : ℕ}

/-- **C70**, the mass and the degree: if the polynomial has a root, both operators return a field for every mass, the field at mass `m` is `m` times the
argument plus `1 - m` times the field at mass zero, and the version with gamma5 is gamma5 times the other; without a root nothing is defined. -/
theorem C70_mass (T : Torus S) (κ mass : ℝ) (scaling : ℂ) (roots : List ℂ) (old : SField S M) (L : GField S M) (eigs : List (ℝ × SField S M))
    (v : SField S M) :
    (roots ≠ [] → ∃ w x, overlapMul T κ 0 scaling roots old false L v = .ok w ∧ exactOverlapMul T κ 0 scaling roots old eigs false L v = .ok x ∧
      overlapMul T κ mass scaling roots old false L v = .ok (mass • v + (1 - mass) • w) ∧
      exactOverlapMul T κ mass scaling roots old eigs false L v = .ok (mass • v + (1 - mass) • x) ∧
      overlapMul T κ mass scaling roots old true L v = .ok (gamma5Field (mass • v + (1 - mass) • w)) ∧
      exactOverlapMul T κ mass scaling roots old eigs true L v = .ok (gamma5Field (mass • v + (1 - mass) • x))) ∧
    (roots = [] → overlapMul T κ mass scaling roots old false L v = .ub ∧ exactOverlapMul T κ mass scaling roots old eigs false L v = .ub) := by
  refine ⟨fun h => ?_, ?_⟩
  · refine ⟨_, _, overlapMul_eq T κ 0 scaling roots h old false L v, exactOverlapMul_eq T κ 0 scaling roots h old eigs false L v, ?_, ?_, ?_, ?_⟩
    · rw [overlapMul_eq T κ mass scaling roots h, overlapOut_false, overlapOut_false]
      congr 1
      module
    · rw [exactOverlapMul_eq T κ mass scaling roots h, overlapOut_false, overlapOut_false]
      congr 1
      module
    · rw [overlapMul_eq T κ mass scaling roots h, overlapOut_true, overlapOut_false]
      simp only [gamma5Field_add, gamma5Field_rsmul, gamma5Field_gamma5Field]
      congr 1
      module
    · rw [exactOverlapMul_eq T κ mass scaling roots h, overlapOut_true, overlapOut_false]
      simp only [gamma5Field_add, gamma5Field_rsmul, gamma5Field_gamma5Field]
      congr 1
      module
  · rintro rfl
    exact ⟨rfl, rfl⟩

/-- **C70**, eigenvectors: on an eigenvector of the Wilson operator with gamma5 the approximated sign is the eigenvalue times the polynomial of its square;
with exact treatment it is the sign itself on the eigenvectors given. -/
theorem C70_eigenvector (T : Torus S) (κ mass : ℝ) (scaling : ℂ) (roots : List ℂ) (h : roots ≠ []) (old : SField S M) (L : GField S M)
    (lam : ℝ) (v : SField S M) (hv : optMul T L κ true v = (lam : ℂ) • v) :
    overlapMul T κ mass scaling roots old true L v =
      .ok (((1 + mass) / 2) • gamma5Field v + ((1 - mass) / 2) • (((lam : ℂ) * (rootPoly scaling roots).eval ((lam : ℂ) ^ 2)) • v)) ∧
    ∀ eigs : List (ℝ × SField S M), eigs.Pairwise (fun a b => latticeDot a.2 b.2 = 0) → (∀ e ∈ eigs, latticeDot e.2 e.2 = 1) →
      (lam, v) ∈ eigs → exactOverlapMul T κ mass scaling roots old eigs true L v =
        .ok (((1 + mass) / 2) • gamma5Field v + ((1 - mass) / 2) • ((if lam < 0 then -1 else 1 : ℂ) • v)) := by
  rw [← (wilson_isDirac T κ).apply] at hv
  refine ⟨?_, fun eigs ho hn he => ?_⟩
  · rw [overlapMul_eq T κ mass scaling roots h, overlapOut_true, signLin_eigen T κ scaling roots L hv]
    congr 1
    module
  · have hON : Orthonormals eigs := ⟨ho, hn⟩
    have key : ∀ f : ℝ → ℂ, projSum f eigs v = f lam • v := by
      intro f
      have h1 : ∀ es : List (ℝ × SField S M), es.Pairwise (fun a b => latticeDot a.2 b.2 = 0) → (∀ e ∈ es, latticeDot e.2 e.2 = 1) →
          (lam, v) ∈ es → projSum f es v = f lam • v := by
        intro es
        induction es with
        | nil => intro _ _ h; cases h
        | cons a es ih =>
          intro ho hn hm
          have hp := List.pairwise_cons.1 ho
          rcases List.mem_cons.1 hm with rfl | hm
          · rw [projSum_cons, hn _ (List.mem_cons_self ..), mul_one, projSum_zero, add_zero]
            exact fun e he => dot_swap_zero (hp.1 e he)
          · have : latticeDot a.2 v = 0 := hp.1 (lam, v) hm
            rw [projSum_cons, this, mul_zero, zero_smul, zero_add, ih hp.2 (fun e he => hn e (List.mem_cons_of_mem _ he)) hm]
      exact h1 eigs ho hn he
    rw [exactOverlapMul_eq T κ mass scaling roots h, overlapOut_true, exactSign, key, key, one_smul, sub_self, map_zero, zero_add]
    congr 1
    unfold codeSign
    module

/-- **C70**, Hermiticity: if the polynomial is real on the real line, both operators with gamma5 are Hermitian, for every mass and all links. -/
theorem C70_hermitian (T : Torus S) (κ mass : ℝ) (scaling : ℂ) (roots : List ℂ) (hr : ∀ x : ℝ, ((roots.map fun r => (x : ℂ) - r).prod).im = 0)
    (old : SField S M) (L : GField S M) (eigs : List (ℝ × SField S M)) (v w : SField S M) :
    (∀ v' w', overlapMul T κ mass scaling roots old true L v = .ok v' → overlapMul T κ mass scaling roots old true L w = .ok w' →
      latticeDot v w' = latticeDot v' w) ∧
    ∀ v' w', (∀ e ∈ eigs, optMul T L κ true e.2 = (e.1 : ℂ) • e.2) → exactOverlapMul T κ mass scaling roots old eigs true L v = .ok v' →
      exactOverlapMul T κ mass scaling roots old eigs true L w = .ok w' → latticeDot v w' = latticeDot v' w := by
  have hne : ∀ {g5 : Bool} {a b : SField S M}, overlapMul T κ mass scaling roots old g5 L a = .ok b → roots ≠ [] :=
    fun h => overlapMul_ne T κ mass scaling roots old _ L _ _ h
  have hout : ∀ E : SField S M → SField S M, (∀ v w, latticeDot v (E w) = latticeDot (E v) w) →
      latticeDot v (overlapOut mass true w (E w)) = latticeDot (overlapOut mass true v (E v)) w := by
    intro E hE
    simp only [overlapOut_true, ← Complex.coe_smul]
    rw [latticeDot_add, latticeDot_smul, latticeDot_smul, gamma5Field_move, hE, ← latticeDot_conj w (_ + _), latticeDot_add, latticeDot_smul, latticeDot_smul,
      map_add, map_mul, map_mul, Complex.conj_ofReal, Complex.conj_ofReal, latticeDot_conj, latticeDot_conj]
  have hS := signLin_hermitian (M := M) T κ scaling roots hr L
  constructor
  · intro v' w' h1 h2
    have h0 := hne h1
    rw [overlapMul_eq T κ mass scaling roots h0] at h1 h2
    rw [← Outcome.ok.inj h1, ← Outcome.ok.inj h2]
    exact hout _ hS
  · intro v' w' hu h1 h2
    have h0 : roots ≠ [] := by rintro rfl; cases h1
    rw [exactOverlapMul_eq T κ mass scaling roots h0] at h1 h2
    rw [← Outcome.ok.inj h1, ← Outcome.ok.inj h2]
    refine hout _ fun v w => ?_
    have hu' : ∀ e ∈ eigs, wilsonFamily T κ L e.2 = (e.1 : ℂ) • e.2 := fun e he => by rw [(wilson_isDirac T κ).apply]; exact hu e he
    -- the polynomial commutes with the projections
    have hcomm : ∀ x y, latticeDot x (signLin T κ scaling roots L (projSum (fun _ => 1) eigs y)) =
        latticeDot (signLin T κ scaling roots L (projSum (fun _ => 1) eigs x)) y := by
      intro x y
      have e : ∀ (es : List (ℝ × SField S M)), (∀ e ∈ es, wilsonFamily T κ L e.2 = (e.1 : ℂ) • e.2) → ∀ z,
          signLin T κ scaling roots L (projSum (fun _ => 1) es z) =
            projSum (fun l => (l : ℂ) * (rootPoly scaling roots).eval ((l : ℂ) ^ 2)) es z := by
        intro es
        induction es with
        | nil => intro _ z; rw [projSum_nil, projSum_nil, map_zero]
        | cons a es ih =>
          intro h z
          rw [projSum_cons, projSum_cons, map_add, ih (fun e he => h e (List.mem_cons_of_mem _ he)), map_smul,
            signLin_eigen T κ scaling roots L (h a (List.mem_cons_self ..)), smul_smul, one_mul]
          congr 2
          ring
      rw [e eigs hu', e eigs hu']
      refine projSum_hermitian _ (fun l => ?_) _ _ _
      have hl : ((rootPoly scaling roots).eval ((l : ℂ) ^ 2)).im = 0 := by
        rw [rootPoly_eval, Complex.mul_im, Complex.ofReal_im, zero_mul, add_zero]
        have := hr (l ^ 2)
        push_cast at this
        rw [this, mul_zero]
      rw [map_mul, Complex.conj_ofReal, Complex.conj_eq_iff_im.2 hl]
    have hsub : ∀ a b c : SField S M, latticeDot a (b - c) = latticeDot a b - latticeDot a c := by
      intro a b c
      rw [sub_eq_add_neg, ← neg_one_smul ℂ c, latticeDot_add, latticeDot_smul]; ring
    have hsub' : ∀ a b c : SField S M, latticeDot (b - c) a = latticeDot b a - latticeDot c a := by
      intro a b c
      rw [← latticeDot_conj, hsub, map_sub, latticeDot_conj, latticeDot_conj]
    have hadd' : ∀ a b c : SField S M, latticeDot (b + c) a = latticeDot b a + latticeDot c a := by
      intro a b c
      rw [← latticeDot_conj, latticeDot_add, map_add, latticeDot_conj, latticeDot_conj]
    unfold exactSign
    rw [latticeDot_add, hadd', projSum_hermitian _ codeSign_conj, map_sub, map_sub, hsub, hsub', hS, hcomm]

/-- **C70**, the Ginsparg–Wilson relation: if, for every eigenvalue of the Wilson operator with gamma5, the square of the approximated sign differs from one
by at most `δ`, then the massless overlap operator obeys `γ5 D + D γ5 = 2 D γ5 D` up to `δ / 2` times the norm of the field, for all fields, links and
lattices. -/
theorem C70_ginsparg_wilson (T : Torus S) (κ : ℝ) (scaling : ℂ) (roots : List ℂ) (old : SField S M) (L : GField S M)
    (D : SField S M → SField S M) (hD : ∀ v, overlapMul T κ 0 scaling roots old false L v = .ok (D v)) (δ : ℝ)
    (hδ : ∀ (lam : ℝ) (v : SField S M), v ≠ 0 → optMul T L κ true v = (lam : ℂ) • v →
      ‖1 - ((lam : ℂ) * (rootPoly scaling roots).eval ((lam : ℂ) ^ 2)) ^ 2‖ ≤ δ) (v : SField S M) :
    fieldNorm (gamma5Field (D v) + D (gamma5Field v) - (2 : ℝ) • D (gamma5Field (D v))) ≤ δ / 2 * fieldNorm v := by
  have h0 := overlapMul_ne T κ 0 scaling roots old false L _ _ (hD v)
  have hDe : ∀ v, D v = (1 / 2 : ℝ) • v + (1 / 2 : ℝ) • gamma5Field (signLin T κ scaling roots L v) := by
    intro v
    have := hD v
    rw [overlapMul_eq T κ 0 scaling roots h0, overlapOut_false] at this
    rw [← Outcome.ok.inj this]
    module
  rw [gw_identity (signLin T κ scaling roots L) (map_add _) (fun c v => by rw [← Complex.coe_smul, map_smul, Complex.coe_smul]) D hDe v, fieldNorm_half,
    fieldNorm_gamma5]
  have hb := field_bound (wilsonLin T κ L) (LinearMap.id - signLin T κ scaling roots L ∘ₗ signLin T κ scaling roots L) (wilsonLin_hermitian T κ L) []
    (fun u hu => by cases hu) (fun lam => 1 - ((lam : ℂ) * (rootPoly scaling roots).eval ((lam : ℂ) ^ 2)) ^ 2) δ (fun x lam hx => ?_)
    (fun lam x _ hx he => hδ lam x hx (by rw [← wilsonLin_apply]; exact he)) v (fun u hu => by cases hu)
  · have e : (LinearMap.id - signLin T κ scaling roots L ∘ₗ signLin T κ scaling roots L : SField S M →ₗ[ℂ] SField S M) v =
      v - signLin T κ scaling roots L (signLin T κ scaling roots L v) := rfl
    rw [e] at hb
    linarith
  · change x - signLin T κ scaling roots L (signLin T κ scaling roots L x) = _
    rw [signLin_eigen T κ scaling roots L hx, map_smul, signLin_eigen T κ scaling roots L hx]
    module

/-- **C70**, exact treatment: with orthonormal eigenvectors of the Wilson operator given, only the eigenvalues of eigenvectors orthogonal to all of them
matter for the Ginsparg–Wilson relation. -/
theorem C70_exact (T : Torus S) (κ : ℝ) (scaling : ℂ) (roots : List ℂ) (old : SField S M) (L : GField S M) (eigs : List (ℝ × SField S M))
    (horth : eigs.Pairwise fun a b => latticeDot a.2 b.2 = 0) (hnorm : ∀ e ∈ eigs, latticeDot e.2 e.2 = 1)
    (heig : ∀ e ∈ eigs, optMul T L κ true e.2 = (e.1 : ℂ) • e.2)
    (D : SField S M → SField S M) (hD : ∀ v, exactOverlapMul T κ 0 scaling roots old eigs false L v = .ok (D v)) (δ : ℝ) (hδ0 : 0 ≤ δ)
    (hδ : ∀ (lam : ℝ) (v : SField S M), v ≠ 0 → (∀ e ∈ eigs, latticeDot e.2 v = 0) → optMul T L κ true v = (lam : ℂ) • v →
      ‖1 - ((lam : ℂ) * (rootPoly scaling roots).eval ((lam : ℂ) ^ 2)) ^ 2‖ ≤ δ) (v : SField S M) :
    fieldNorm (gamma5Field (D v) + D (gamma5Field v) - (2 : ℝ) • D (gamma5Field (D v))) ≤ δ / 2 * fieldNorm v := by
  have h0 : roots ≠ [] := by
    rintro rfl
    have := hD v
    cases this
  have hDe : ∀ v, D v = (1 / 2 : ℝ) • v + (1 / 2 : ℝ) • gamma5Field (exactSign T κ scaling roots eigs L v) := by
    intro v
    have := hD v
    rw [exactOverlapMul_eq T κ 0 scaling roots h0, overlapOut_false] at this
    rw [← Outcome.ok.inj this]
    module
  rw [gw_identity (exactSign T κ scaling roots eigs L) (exactSign_add T κ scaling roots eigs L)
    (fun c v => by rw [← Complex.coe_smul, exactSign_csmul, Complex.coe_smul]) D hDe v, fieldNorm_half, fieldNorm_gamma5]
  have heig' : ∀ e ∈ eigs, wilsonFamily T κ L e.2 = (e.1 : ℂ) • e.2 := fun e he => by rw [(wilson_isDirac T κ).apply]; exact heig e he
  obtain ⟨hw, he, hn⟩ := exactSign_sq T κ scaling roots ⟨horth, hnorm⟩ L heig' v
  rw [he]
  generalize v - projSum (fun _ => 1) eigs v = w at hw hn
  have hb := field_bound (wilsonLin T κ L) (LinearMap.id - signLin T κ scaling roots L ∘ₗ signLin T κ scaling roots L) (wilsonLin_hermitian T κ L)
    (eigs.map Prod.snd) (fun u hu => ?_) (fun lam => 1 - ((lam : ℂ) * (rootPoly scaling roots).eval ((lam : ℂ) ^ 2)) ^ 2) δ (fun x lam hx => ?_)
    (fun lam x ho hx he => hδ lam x hx (fun e he => ho e.2 (List.mem_map_of_mem he)) (by rw [← wilsonLin_apply]; exact he)) w (fun u hu => ?_)
  · have e : (LinearMap.id - signLin T κ scaling roots L ∘ₗ signLin T κ scaling roots L : SField S M →ₗ[ℂ] SField S M) w =
      w - signLin T κ scaling roots L (signLin T κ scaling roots L w) := rfl
    rw [e] at hb
    nlinarith [mul_le_mul_of_nonneg_left hn hδ0]
  · obtain ⟨e, he, rfl⟩ := List.mem_map.1 hu
    exact ⟨e.1, heig' e he⟩
  · change x - signLin T κ scaling roots L (signLin T κ scaling roots L x) = _
    rw [signLin_eigen T κ scaling roots L hx, map_smul, signLin_eigen T κ scaling roots L hx]
    module
  · obtain ⟨e, he, rfl⟩ := List.mem_map.1 hu
    exact hw e he

/-! ### The force -/

/-- The rate of change of the operator with one link, whatever the sign of the scaling. -/
theorem overlap_rate [DecidableEq S] (T : Torus S) (κ mass : ℝ) (scaling : ℂ) (roots : List ℂ) (hr : RealRoots roots) (old : SField S M)
    (mul : GField S M → SField S M → SField S M) (hm : ∀ L v, overlapMul T κ mass scaling roots old true L v = .ok (mul L v))
    (L : GField S M) (X Y : SField S M) (s : S) (μ : Fin 4) (t : Mat M) :
    HasDerivAt (fun ε : ℝ => (latticeDot X (mul (setLink L s μ (NormedSpace.exp (ε • (Complex.I • t)) * L s μ)) Y)).re)
      (rdot X (fderiv ℝ (overlapFamily T κ mass (opScale scaling roots.length) roots) L (oneLink s μ (Complex.I • (t * L s μ))) Y)) 0 := by
  have hline : HasDerivAt (fun ε : ℝ => setLink L s μ (NormedSpace.exp (ε • (Complex.I • t)) * L s μ))
      (oneLink s μ (Complex.I • (t * L s μ))) 0 := by
    refine hasDerivAt_pi.2 fun s' => hasDerivAt_pi.2 fun μ' => ?_
    by_cases h : s' = s ∧ μ' = μ
    · obtain ⟨rfl, rfl⟩ := h
      rw [oneLink_same]
      simp only [setLink, and_self, if_true]
      refine HasDerivAt.congr_deriv ((hasDerivAt_exp_smul_const (𝕂 := ℝ) (Complex.I • t) 0).mul_const (L s' μ')) ?_
      simp [Matrix.smul_mul]
    · rw [oneLink_ne _ h]
      simp only [setLink, h, if_false]
      exact hasDerivAt_const _ _
  have h0 : setLink L s μ (NormedSpace.exp ((0 : ℝ) • (Complex.I • t)) * L s μ) = L := by
    funext s' μ'
    unfold setLink
    split
    · rename_i h
      rw [h.1, h.2, zero_smul, NormedSpace.exp_zero, one_mul]
    · rfl
  have h := (overlap_isDirac T κ mass scaling roots old hr mul hm).hasDerivAt_rdot hline X Y
  rw [h0] at h
  exact h

/-- **C70**, the force, the operator: if the scaling is not negative or the degree of the polynomial is odd, and the polynomial is real on the real line,
the derivative of `OverlapFermionForce` is the change of the overlap operator with one link: moving the link along the Hermitian generator `t` changes
`Re ⟨X, Q Y⟩` at a rate that is minus half the imaginary part of `tr(D t U)`, `D` being the matrix of the program.  Missing: negative scaling and even
degree, for which it is false (`C70_scaling_counterexample`). -/
theorem C70_operator_partial [DecidableEq S] (T : Torus S) (κ mass : ℝ) (scaling : ℂ) (roots : List ℂ)
    (hr : ∀ x : ℝ, ((roots.map fun r => (x : ℂ) - r).prod).im = 0) (hsc : 0 ≤ scaling.re ∨ Odd roots.length) (old : SField S M)
    (mul : GField S M → SField S M → SField S M) (hm : ∀ L v, overlapMul T κ mass scaling roots old true L v = .ok (mul L v))
    (L : GField S M) (X Y : SField S M) (s : S) (μ : Fin 4) (t : Mat M)
    (hL : ∀ s μ, L s μ * (L s μ)ᴴ = 1 ∨ L s μ = 0) (ht : tᴴ = t) :
    HasDerivAt (fun ε : ℝ => (latticeDot X (mul (setLink L s μ (NormedSpace.exp (ε • (Complex.I • t)) * L s μ)) Y)).re)
      (-(1 / 2) * (trace (overlapDerivative T κ mass scaling roots L X Y s μ * t * L s μ)).im) 0 := by
  refine HasDerivAt.congr_deriv (overlap_rate T κ mass scaling roots hr old mul hm L X Y s μ t) ?_
  rw [opScale_eq scaling _ hsc, overlap_link T κ mass scaling roots L X Y s μ t hL ht]
  ring

/-- With negative scaling and even degree the derivative of the program is that of the opposite operator. -/
theorem C70_scaling [DecidableEq S] (T : Torus S) (κ mass : ℝ) (scaling : ℂ) (roots : List ℂ)
    (hr : ∀ x : ℝ, ((roots.map fun r => (x : ℂ) - r).prod).im = 0) (hsc : scaling.re < 0) (heven : Even roots.length) (old : SField S M)
    (mul : GField S M → SField S M → SField S M) (hm : ∀ L v, overlapMul T κ mass scaling roots old true L v = .ok (mul L v))
    (L : GField S M) (X Y : SField S M) (s : S) (μ : Fin 4) (t : Mat M)
    (hL : ∀ s μ, L s μ * (L s μ)ᴴ = 1 ∨ L s μ = 0) (ht : tᴴ = t) :
    HasDerivAt (fun ε : ℝ => (latticeDot X (mul (setLink L s μ (NormedSpace.exp (ε • (Complex.I • t)) * L s μ)) Y)).re)
      (1 / 2 * (trace (overlapDerivative T κ mass scaling roots L X Y s μ * t * L s μ)).im) 0 := by
  refine HasDerivAt.congr_deriv (overlap_rate T κ mass scaling roots hr old mul hm L X Y s μ t) ?_
  have h := overlap_link T κ mass scaling roots L X Y s μ t hL ht
  have e : rdot X (fderiv ℝ (overlapFamily T κ mass (opScale scaling roots.length) roots) L (oneLink s μ (Complex.I • (t * L s μ))) Y) =
      -rdot X (fderiv ℝ (overlapFamily T κ mass (scaling.re ^ roots.length) roots) L (oneLink s μ (Complex.I • (t * L s μ))) Y) := by
    rw [opScale_neg scaling _ hsc heven, fderiv_overlap, fderiv_overlap, mul_neg, neg_smul]
    change rdot X (-(_ • _ : Op (SField S M)) Y) = _
    rw [← neg_one_smul ℝ (_ : SField S M), rdot_smul]
    ring
  rw [e, h]
  ring

/-- **C70**, any number of flavours: with exact solutions of the shifted equations and positive shifts, the energy of the pseudofermions of the overlap
operator plus that of the momenta does not change along the force of the program, for all boundary conditions, at all links that are unitary or cut and
for all momenta; and the force is in the Lie algebra.  Missing: negative scaling and even degree (`C70_scaling_counterexample`); the operator that treats
eigenvectors exactly, whose force the program takes to be that of the polynomial. -/
theorem C70_nflavor_partial (ρ : FermionRep N M) (hρ : ρ.Lawful) (T : Torus S) (κ mass : ℝ) (scaling : ℂ) (roots : List ℂ)
    (hr : ∀ x : ℝ, ((roots.map fun r => (x : ℂ) - r).prod).im = 0) (hsc : 0 ≤ scaling.re ∨ Odd roots.length) (old : SField S M)
    (mul : GField S M → SField S M → SField S M) (hm : ∀ L v, overlapMul T κ mass scaling roots old true L v = .ok (mul L v)) (bc : String)
    (solveShift : GField S M → ℝ → SField S M → SField S M) (ps : List (PseudoFermion S M))
    (hs : ∀ p ∈ ps, ∀ β ∈ p.betas, 0 < β ∧ ∀ L, mul L (mul L (solveShift L β p.φ)) + β • solveShift L β p.φ = p.φ)
    (U P : GField S N) (hU : ∀ s μ, U s μ * (U s μ)ᴴ = 1 ∨ U s μ = 0) (hopen : bc = "open" → switchOpenBc T.ext T.coord U = U)
    (hP : ∀ s μ, IsLie (P s μ)) :
    HasDerivAt (fun t : ℝ => totalEnergy (fun U => nFlavorFermionEnergy solveShift (fermionLinks ρ T bc U) ps)
      (fun s μ => NormedSpace.exp (t • P s μ) * U s μ, fun s μ => P s μ - (t : ℂ) •
        nFlavorUpdateForce ρ T mul (overlapDerivative T κ mass scaling roots) solveShift bc (fermionLinks ρ T bc U) U ps s μ)) 0 0 ∧
    ∀ s μ, IsLie (nFlavorUpdateForce ρ T mul (overlapDerivative T κ mass scaling roots) solveShift bc (fermionLinks ρ T bc U) U ps s μ) := by
  have hA := overlap_isDirac T κ mass scaling roots old hr mul hm
  rw [opScale_eq scaling _ hsc] at hA
  exact nFlavor_conserves ρ hρ T bc hA (overlap_link T κ mass scaling roots) solveShift ps hs U P ⟨hU, hopen⟩ hP

/-- **C70**, the order of the integrator with any number of flavours of overlap fermions.  Missing: as for `C70_nflavor_partial`. -/
theorem C70_nflavor_order_partial (eig : EigenSolver N) (he : eig.Correct) (ρ : FermionRep N M) (hρ : ρ.Lawful) (T : Torus S) (κ mass : ℝ)
    (scaling : ℂ) (roots : List ℂ) (hr : ∀ x : ℝ, ((roots.map fun r => (x : ℂ) - r).prod).im = 0) (hsc : 0 ≤ scaling.re ∨ Odd roots.length)
    (old : SField S M) (mul : GField S M → SField S M → SField S M)
    (hm : ∀ L v, overlapMul T κ mass scaling roots old true L v = .ok (mul L v)) (bc : String)
    (solveShift : GField S M → ℝ → SField S M → SField S M) (ps : ℕ → List (PseudoFermion S M))
    (hs : ∀ k, ∀ p ∈ ps k, ∀ β ∈ p.betas, 0 < β ∧ ∀ L, mul L (mul L (solveShift L β p.φ)) + β • solveShift L β p.φ = p.φ)
    (gaugeEnergy : GField S N → ℝ) (gaugeForce : GField S N → GField S N)
    (hg : Conservative Set.univ gaugeEnergy (fun _ : Unit => gaugeForce) [()])
    (name : String) (p : ℕ) (hname : integratorOrder name = some p) (h4 : name ≠ "fourth_omelyan") (levels : ℕ) (steps : List ℕ)
    (fs : List NFlavorForce × List ℕ) (hfs : nFlavorForces levels steps = .ok fs) (l : ℝ → List (MdOp NFlavorForce))
    (hl : ∀ t, mdIntegrate name fs.1 fs.2 t = .ok (l t)) (U P : GField S N) (hU : ∀ s μ, U s μ * (U s μ)ᴴ = 1 ∨ U s μ = 0)
    (hopen : bc = "open" → switchOpenBc T.ext T.coord U = U) (hP : ∀ s μ, IsLie (P s μ)) :
    let energy := fun U => gaugeEnergy U + ∑ k ∈ Finset.range (levelsUsed steps.length),
      nFlavorFermionEnergy solveShift (fermionLinks ρ T bc U) (ps k)
    let force := nFlavorForce (fun k U => nFlavorUpdateForce ρ T mul (overlapDerivative T κ mass scaling roots) solveShift bc
      (fermionLinks ρ T bc U) U (ps k)) gaugeForce
    (fun t : ℝ => totalEnergy energy (mdRun (eigenLink eig) force (l t) (U, P)) - totalEnergy energy (U, P)) =O[𝓝 0] fun t => t ^ (p + 1) := by
  have hA := overlap_isDirac T κ mass scaling roots old hr mul hm
  rw [opScale_eq scaling _ hsc] at hA
  exact nFlavor_order eig he ρ hρ T hA (overlap_link T κ mass scaling roots) bc solveShift ps hs gaugeEnergy gaugeForce hg name p hname h4 levels
    steps fs hfs l hl U P hU hopen hP

/-! ### The hypotheses can be met -/

/-- A polynomial of odd degree with negative scaling: `x (3 - x^2) / 2` approximates the sign, it is real, and the operator is defined. -/
example (T : Torus S) (κ mass : ℝ) (old : SField S M) : (∀ x : ℝ, ((([3] : List ℂ).map fun r => (x : ℂ) - r).prod).im = 0) ∧
    (0 ≤ (-1 / 2 : ℂ).re ∨ Odd ([3] : List ℂ).length) ∧
    ∃ mul : GField S M → SField S M → SField S M, ∀ L v, overlapMul T κ mass (-1 / 2) [3] old true L v = .ok (mul L v) :=
  ⟨fun x => by simp, Or.inr (by decide), fun L v => overlapOut mass true v (signLin T κ (-1 / 2) [3] L v), fun L v =>
    overlapMul_eq T κ mass _ _ (by simp) old true L v⟩

/-- Roots in conjugate pairs. -/
example : ∀ x : ℝ, ((([1 + Complex.I, 1 - Complex.I] : List ℂ).map fun r => (x : ℂ) - r).prod).im = 0 := by
  intro x
  simp

/-- Exact solutions of the shifted equations exist for all positive shifts. -/
example (T : Torus S) (κ mass : ℝ) (scaling : ℂ) (roots : List ℂ) (hr : RealRoots roots) (old : SField S M)
    (mul : GField S M → SField S M → SField S M) (hm : ∀ L v, overlapMul T κ mass scaling roots old true L v = .ok (mul L v))
    (ps : List (PseudoFermion S M)) (hb : ∀ p ∈ ps, ∀ β ∈ p.betas, 0 < β) :
    ∃ solveShift : GField S M → ℝ → SField S M → SField S M, ∀ p ∈ ps, ∀ β ∈ p.betas, 0 < β ∧
      ∀ L, mul L (mul L (solveShift L β p.φ)) + β • solveShift L β p.φ = p.φ := by
  have hA := overlap_isDirac T κ mass scaling roots old hr mul hm
  refine ⟨fun L β φ => Ring.inverse (shiftOp (overlapFamily T κ mass (opScale scaling roots.length) roots L) β) φ, fun p hp β hβ =>
    ⟨hb p hp β hβ, fun L => ?_⟩⟩
  have h := Ring.mul_inverse_cancel _ (isUnit_shift hA.family L (hb p hp β hβ))
  have h1 := congrArg (fun B : Op (SField S M) => B p.φ) h
  have e : ∀ v, shiftOp (overlapFamily T κ mass (opScale scaling roots.length) roots L) β v = mul L (mul L v) + β • v := by
    intro v
    rw [← hA.apply, ← hA.apply]
    rfl
  rw [← e]
  exact h1

/-- At small hopping parameter the approximation of the first example has `δ = 3/2`, for all unitary links. -/
example (T : Torus S) (L : GField S M) (hL : ∀ x μ, L x μ ∈ unitaryGroup (Fin M) ℂ) (lam : ℝ) (v : SField S M) (hv : v ≠ 0)
    (he : optMul T L (1 / 16) true v = (lam : ℂ) • v) :
    ‖1 - ((lam : ℂ) * (rootPoly (-1 / 2) [3]).eval ((lam : ℂ) ^ 2)) ^ 2‖ ≤ 3 / 2 := by
  have hpos : 0 < fieldNorm v := by
    rw [← norm_toE]
    refine norm_pos_iff.2 fun h => hv ?_
    exact toEL.injective (h.trans toE_zero.symm)
  rw [(C33_wilson T L _ _ v).1] at he
  have h1 : gamma5Field v = (lam : ℂ) • v + ((1 / 16 : ℝ) : ℂ) • gamma5Field (hoppingSpec T L v) := by
    rw [← he]
    have : wilsonSpec T L (1 / 16) v = v + (-((1 / 16 : ℝ) : ℂ)) • hoppingSpec T L v := by
      funext x
      change v x - ((1 / 16 : ℝ) : ℂ) • hoppingSpec T L v x = v x + (-((1 / 16 : ℝ) : ℂ)) • hoppingSpec T L v x
      module
    change _ = gamma5Field (wilsonSpec T L (1 / 16) v) + _
    rw [this, gamma5Field_add, gamma5Field_smul]
    module
  have hh : ‖toE (gamma5Field (hoppingSpec T L v))‖ ≤ 8 * fieldNorm v := by
    rw [norm_toE, fieldNorm_gamma5, ← norm_toE, ← norm_toE]
    exact norm_hopping hL v
  have h2 := congrArg toE h1
  rw [toE_add, toE_smul, toE_smul] at h2
  have hg : ‖toE (gamma5Field v)‖ = fieldNorm v := by rw [norm_toE, fieldNorm_gamma5]
  have hl : ‖(lam : ℂ) • toE v‖ = |lam| * fieldNorm v := by rw [norm_smul, norm_toE, Complex.norm_real, Real.norm_eq_abs]
  have hk : ‖((1 / 16 : ℝ) : ℂ) • toE (gamma5Field (hoppingSpec T L v))‖ ≤ 1 / 2 * fieldNorm v := by
    rw [norm_smul, Complex.norm_real, Real.norm_eq_abs, abs_of_pos (by norm_num)]
    linarith
  have a1 : fieldNorm v ≤ |lam| * fieldNorm v + 1 / 2 * fieldNorm v := by
    rw [← hg, h2]
    refine (norm_add_le _ _).trans ?_
    rw [hl, ← h2, hg]
    linarith
  have a2 : |lam| * fieldNorm v ≤ fieldNorm v + 1 / 2 * fieldNorm v := by
    rw [← hl]
    have : (lam : ℂ) • toE v = toE (gamma5Field v) - ((1 / 16 : ℝ) : ℂ) • toE (gamma5Field (hoppingSpec T L v)) := by rw [h2]; abel
    rw [this]
    refine (norm_sub_le _ _).trans ?_
    rw [hg]
    linarith
  have b1 : 1 / 2 ≤ |lam| := by nlinarith
  have b2 : |lam| ≤ 3 / 2 := by nlinarith
  have c1 : 1 / 4 ≤ lam ^ 2 := by rw [← sq_abs]; nlinarith
  have c2 : lam ^ 2 ≤ 9 / 4 := by rw [← sq_abs]; nlinarith [abs_nonneg lam]
  have e : 1 - ((lam : ℂ) * (rootPoly (-1 / 2) [3]).eval ((lam : ℂ) ^ 2)) ^ 2 = (((1 - lam ^ 2) ^ 2 * (4 - lam ^ 2) / 4 : ℝ) : ℂ) := by
    rw [rootPoly_eval]
    have : opScale (-1 / 2) 1 = -1 / 2 := by unfold opScale; norm_num
    simp only [List.length_singleton, this, List.map_cons, List.map_nil, List.prod_cons, List.prod_nil]
    push_cast
    ring
  rw [e, Complex.norm_real, Real.norm_eq_abs, abs_le]
  constructor <;> nlinarith [sq_nonneg (1 - lam ^ 2), mul_nonneg (sq_nonneg (1 - lam ^ 2)) (by linarith : (0:ℝ) ≤ 4 - lam ^ 2)]

end Leonard
