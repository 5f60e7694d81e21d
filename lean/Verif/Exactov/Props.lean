import Verif.Exactov.Model
import Verif.Overlap.Props
import Verif.Arnoldi.Ritz

/-!
# C94: the eigenvectors kept by the exact overlap operator
-/

set_option autoImplicit false

namespace Leonard

open Matrix

variable {S : Type} [Fintype S] {M : ℕ}

/-- **Specification.** The lattice and the hopping parameter set last. -/
def lastSet (L : GField S M) (κ : ℝ) : List (ExactCall S M) → GField S M × ℝ
  | [] => (L, κ)
  | .setLattice L' :: cs => lastSet L' κ cs
  | .setKappa κ' :: cs => lastSet L κ' cs
  | .multiply :: cs => lastSet L κ cs

/-- **C94, the pairs in use.** After every sequence of calls on a new operator, `multiply` works with the lattice and the hopping parameter set last,
and with pairs that belong to them: either each of them passes the test `Σ |Q u - λ u| ≤ tolerance` for the operator of the present lattice, or they
are the answer of the eigenvalue solver for the present lattice and hopping parameter, with gamma5. -/
theorem C94_current (T : Torus S) (solve : GField S M → ℝ → Bool → List (ℂ × SField S M)) (tol : ℝ) (L₀ : GField S M)
    (calls : List (ExactCall S M)) :
    let st := exactPrepare T solve tol (calls.foldl (exactCall T solve tol) (ExactOverlap.fresh L₀))
    (st.lattice, st.kappa) = lastSet L₀ 0 calls ∧
      ((∀ e ∈ st.eigs, eigenDeviation (optMul T st.lattice st.kappa true) e ≤ tol) ∨
        st.eigs = (solve st.lattice st.kappa true).map fun p => (signedRoot (optMul T st.lattice st.kappa true) p, p.2)) := by
  classical
  have inv : ∀ (calls : List (ExactCall S M)) (st : ExactOverlap S M), st.inner5 = true →
      (st.recompute = false → st.eigs = (solve st.lattice st.kappa true).map fun p => (signedRoot (optMul T st.lattice st.kappa true) p, p.2)) →
      let st' := exactPrepare T solve tol (calls.foldl (exactCall T solve tol) st)
      (st'.lattice, st'.kappa) = lastSet st.lattice st.kappa calls ∧
        ((∀ e ∈ st'.eigs, eigenDeviation (optMul T st'.lattice st'.kappa true) e ≤ tol) ∨
          st'.eigs = (solve st'.lattice st'.kappa true).map fun p => (signedRoot (optMul T st'.lattice st'.kappa true) p, p.2)) := by
    have prep : ∀ st : ExactOverlap S M, (exactPrepare T solve tol st).lattice = st.lattice ∧ (exactPrepare T solve tol st).kappa = st.kappa ∧
        (exactPrepare T solve tol st).inner5 = true := by
      intro st
      unfold exactPrepare computeEigenvalues
      refine ⟨?_, ?_, rfl⟩ <;> (simp only []; split_ifs <;> rfl)
    intro calls
    induction calls with
    | nil =>
      intro st h5 hr
      refine ⟨?_, ?_⟩
      · rw [List.foldl_nil, (prep st).1, (prep st).2.1]; rfl
      · rw [List.foldl_nil, (prep st).1, (prep st).2.1]
        by_cases h : st.recompute = true
        · by_cases hc : checkEigenvalues (optMul T st.lattice st.kappa st.inner5) tol st.eigs
          · left
            intro e he
            have e1 : (exactPrepare T solve tol st).eigs = st.eigs := by
              unfold exactPrepare computeEigenvalues
              simp only [h, if_true, if_pos hc]
            rw [e1] at he
            have := hc.2 e he
            rw [h5] at this
            exact not_lt.mp this
          · right
            unfold exactPrepare computeEigenvalues
            simp only [h, if_true, if_neg hc]
            rw [h5]
        · right
          unfold exactPrepare
          simp only [h]
          exact hr (by simpa using h)
    | cons c cs ih =>
      intro st h5 hr
      cases c with
      | setLattice L => exact ih { st with lattice := L, recompute := true } h5 (fun h => by cases h)
      | setKappa κ => exact ih { st with kappa := κ, recompute := true } h5 (fun h => by cases h)
      | multiply =>
        have h := ih (exactPrepare T solve tol st) rfl (fun h => by
          rw [(prep st).1, (prep st).2.1]
          unfold exactPrepare computeEigenvalues at h ⊢
          by_cases h1 : st.recompute = true
          · by_cases hc : checkEigenvalues (optMul T st.lattice st.kappa st.inner5) tol st.eigs
            · simp only [h1, if_true, if_pos hc] at h
              cases h
            · simp only [h1, if_true, if_neg hc]
              rw [h5]
          · simp only [h1]
            exact hr (by simpa using h1))
        rw [(prep st).1, (prep st).2.1] at h
        exact h
  exact inv calls (ExactOverlap.fresh L₀) rfl (fun h => by cases h)

/-- **C94, eigenvalues.** For a normalised eigenvector of the Wilson operator with gamma5 the eigenvalue found from the square is the right one. -/
theorem C94_eigenvalue (T : Torus S) (L : GField S M) (κ lam : ℝ) (u : SField S M) (hu : latticeDot u u = 1)
    (h : optMul T L κ true u = (lam : ℂ) • u) : signedRoot (optMul T L κ true) (((lam ^ 2 : ℝ) : ℂ), u) = lam := by
  unfold signedRoot
  simp only [h, latticeDot_smul, hu, mul_one, Complex.ofReal_re, Real.sqrt_sq_eq_abs]
  split_ifs with h0
  · rw [abs_of_neg h0, neg_neg]
  · rw [abs_of_nonneg (not_lt.mp h0)]

/-- **C94, the square.** A normalised eigenvector of the square, as returned by the solver, is an eigenvector of the operator with the eigenvalue
found if and only if it is orthogonal to the eigenvectors of the operator with the one or with the other sign of the square root. -/
theorem C94_square (T : Torus S) (L : GField S M) (κ : ℝ) (l2 : ℂ) (u : SField S M) (hu : latticeDot u u = 1)
    (h : optMul T L κ true (optMul T L κ true u) = l2 • u) :
    optMul T L κ true u = ((signedRoot (optMul T L κ true) (l2, u) : ℝ) : ℂ) • u ↔
      (l2 ≠ 0 → (∀ w, optMul T L κ true w = ((√l2.re : ℝ) : ℂ) • w → latticeDot w u = 0) ∨
        (∀ w, optMul T L κ true w = ((-√l2.re : ℝ) : ℂ) • w → latticeDot w u = 0)) := by
  have hl : ∀ v, optMul T L κ true v = wilsonLin T κ L v := fun v => (wilsonLin_apply T κ L v).symm
  have hherm : ∀ v w, latticeDot v (optMul T L κ true w) = latticeDot (optMul T L κ true v) w := fun v w => by
    have := wilsonLin_hermitian T κ L v w
    rwa [wilsonLin_apply, wilsonLin_apply] at this
  have hre : l2 = ((latticeNorm2 (optMul T L κ true u) : ℝ) : ℂ) := by
    rw [← latticeDot_self]
    have h1 := hherm u (optMul T L κ true u)
    rw [h, latticeDot_smul, hu, mul_one] at h1
    exact h1
  set n := latticeNorm2 (optMul T L κ true u) with hn
  have hn0 : 0 ≤ n := latticeNorm2_nonneg' _
  by_cases hz : l2 = 0
  · have h0 : n = 0 := by rw [hz] at hre; exact_mod_cast hre.symm
    have hq : optMul T L κ true u = 0 := latticeNorm2_eq_zero h0
    refine ⟨fun _ h => absurd hz h, fun _ => ?_⟩
    rw [hq, hz]
    simp [signedRoot]
  · have hs : l2.re = n := by rw [hre, Complex.ofReal_re]
    have hs0 : ((√n : ℝ) : ℂ) ≠ 0 := by
      intro h0
      have h1 : √n = 0 := by exact_mod_cast h0
      rw [Real.sqrt_eq_zero hn0] at h1
      rw [h1] at hre
      exact hz (by rw [hre, Complex.ofReal_zero])
    have hs2 : ((√n : ℝ) : ℂ) * ((√n : ℝ) : ℂ) = l2 := by
      rw [← Complex.ofReal_mul, Real.mul_self_sqrt hn0, ← hre]
    have hl2 : l2 = (((√n) ^ 2 : ℝ) : ℂ) := by rw [Real.sq_sqrt hn0, ← hre]
    have hl2' : l2 = (((-√n) ^ 2 : ℝ) : ℂ) := by rw [neg_sq]; exact hl2
    rw [hs]
    -- a vector `Q u + t u` with `Q w = t w` orthogonal to `u` vanishes
    have key : ∀ t : ℝ, (t : ℂ) * (t : ℂ) = l2 → (∀ w, optMul T L κ true w = (t : ℂ) • w → latticeDot w u = 0) →
        optMul T L κ true u = ((-t : ℝ) : ℂ) • u := by
      intro t ht hp
      have hw : optMul T L κ true (optMul T L κ true u + (t : ℂ) • u) = (t : ℂ) • (optMul T L κ true u + (t : ℂ) • u) := by
        rw [hl, map_add, map_smul, ← hl, ← hl, h, smul_add, smul_smul, ht, add_comm]
      have ho := hp _ hw
      have h2 : latticeDot (optMul T L κ true u + (t : ℂ) • u) (optMul T L κ true u + (t : ℂ) • u) = 0 := by
        rw [latticeDot_add, latticeDot_smul, ho, hherm, hw, latticeDot_smul_left, ho]
        simp
      rw [latticeDot_self] at h2
      have h3 : optMul T L κ true u + (t : ℂ) • u = 0 := latticeNorm2_eq_zero (by exact_mod_cast h2)
      rw [Complex.ofReal_neg, neg_smul]
      exact eq_neg_of_add_eq_zero_left h3
    -- eigenvectors with different eigenvalues
    have orth : ∀ t : ℝ, (t : ℂ) ≠ 0 → optMul T L κ true u = (t : ℂ) • u → ∀ w, optMul T L κ true w = ((-t : ℝ) : ℂ) • w → latticeDot w u = 0 := by
      intro t ht he w hw
      have h1 := hherm w u
      rw [he, hw, latticeDot_smul, latticeDot_smul_left, Complex.conj_ofReal, Complex.ofReal_neg] at h1
      have h2 : (2 * (t : ℂ)) * latticeDot w u = 0 := by linear_combination h1
      exact (mul_eq_zero.mp h2).resolve_left (mul_ne_zero two_ne_zero ht)
    constructor
    · intro he _
      by_cases hneg : (latticeDot u (optMul T L κ true u)).re < 0
      · left
        have hr : signedRoot (optMul T L κ true) (l2, u) = -√n := by unfold signedRoot; simp only [if_pos hneg, hs]
        rw [hr] at he
        intro w hw
        exact orth (-√n) (by rw [Complex.ofReal_neg]; exact neg_ne_zero.mpr hs0) he w (by rw [neg_neg]; exact hw)
      · right
        have hr : signedRoot (optMul T L κ true) (l2, u) = √n := by unfold signedRoot; simp only [if_neg hneg, hs]
        rw [hr] at he
        exact orth (√n) hs0 he
    · intro hpm
      rcases hpm hz with hp | hp
      · have he := key (√n) hs2 hp
        rw [hl2', C94_eigenvalue T L κ (-√n) u hu he]
        exact he
      · have he := key (-√n) (by rw [Complex.ofReal_neg, neg_mul_neg]; exact hs2) hp
        rw [neg_neg] at he
        rw [hl2, C94_eigenvalue T L κ (√n) u hu he]
        exact he

/-- **C94, chiral symmetry.** If the solver returns orthonormal eigenvectors of the square, each of them orthogonal to the
eigenvectors of the operator with one sign of the square root, then the massless operator with the pairs computed fulfils the Ginsparg–Wilson relation up to the error of the polynomial on the
eigenvectors orthogonal to those found. -/
theorem C94_ginsparg_wilson_partial (T : Torus S) (solve : GField S M → ℝ → Bool → List (ℂ × SField S M)) (L : GField S M) (κ : ℝ) (scaling : ℂ)
    (roots : List ℂ) (old : SField S M)
    (horth : (solve L κ true).Pairwise fun a b => latticeDot a.2 b.2 = 0) (hnorm : ∀ p ∈ solve L κ true, latticeDot p.2 p.2 = 1)
    (hsq : ∀ p ∈ solve L κ true, optMul T L κ true (optMul T L κ true p.2) = p.1 • p.2)
    (hpm : ∀ p ∈ solve L κ true, p.1 ≠ 0 → (∀ w, optMul T L κ true w = ((√p.1.re : ℝ) : ℂ) • w → latticeDot w p.2 = 0) ∨
      (∀ w, optMul T L κ true w = ((-√p.1.re : ℝ) : ℂ) • w → latticeDot w p.2 = 0))
    (D : SField S M → SField S M)
    (hD : ∀ v, exactOverlapMul T κ 0 scaling roots old ((solve L κ true).map fun p => (signedRoot (optMul T L κ true) p, p.2)) false L v = .ok (D v))
    (δ : ℝ) (hδ0 : 0 ≤ δ)
    (hδ : ∀ (lam : ℝ) (v : SField S M), v ≠ 0 → (∀ p ∈ solve L κ true, latticeDot p.2 v = 0) → optMul T L κ true v = (lam : ℂ) • v →
      ‖1 - ((lam : ℂ) * (rootPoly scaling roots).eval ((lam : ℂ) ^ 2)) ^ 2‖ ≤ δ) (v : SField S M) :
    fieldNorm (gamma5Field (D v) + D (gamma5Field v) - (2 : ℝ) • D (gamma5Field (D v))) ≤ δ / 2 * fieldNorm v := by
  have h1 : ((solve L κ true).map fun p => (signedRoot (optMul T L κ true) p, p.2)).Pairwise fun a b => latticeDot a.2 b.2 = 0 := by
    rw [List.pairwise_map]; exact horth
  refine C70_exact T κ scaling roots old L _ h1 ?_ ?_ D hD δ hδ0 ?_ v
  · intro e he
    obtain ⟨p, hp, rfl⟩ := List.mem_map.1 he
    exact hnorm p hp
  · intro e he
    obtain ⟨p, hp, rfl⟩ := List.mem_map.1 he
    exact (C94_square T L κ p.1 p.2 (hnorm p hp) (hsq p hp)).mpr (hpm p hp)
  · intro lam v hv ho he
    refine hδ lam v hv (fun p hp => ?_) he
    exact ho (signedRoot (optMul T L κ true) p, p.2) (List.mem_map_of_mem (f := fun p => (signedRoot (optMul T L κ true) p, p.2)) hp)

theorem optMul_zero_kappa (T : Torus S) (L : GField S M) (v : SField S M) : optMul T L 0 true v = gamma5Field v := by
  rw [(C33_wilson T L 0 true v).1]
  change gamma5Field (wilsonSpec T L 0 v) = _
  congr 1
  funext x
  simp [wilsonSpec]

/-- **C94 fails for degenerate squares.** At `κ = 0` on every lattice there is a normalised eigenvector `u` of the square of the operator, the kind
of answer the solver gives, for which the eigenvalue kept is `1` although `u` is no eigenvector of the operator: with this pair the massless operator
maps `u` to `(u + γ₅ u) / 2`, whereas with the eigenvectors of the operator itself that span it, it maps `u` to `u`, as the overlap operator does. -/
theorem C94_degenerate_counterexample [DecidableEq S] (T : Torus S) (s : S) (hM : 0 < M) (L : GField S M) (scaling : ℂ) (roots : List ℂ)
    (hr : roots ≠ []) (old : SField S M) :
    ∃ u a b : SField S M, latticeDot u u = 1 ∧ optMul T L 0 true (optMul T L 0 true u) = (1 : ℂ) • u ∧
      signedRoot (optMul T L 0 true) (1, u) = 1 ∧ (∀ lam : ℂ, optMul T L 0 true u ≠ lam • u) ∧
      latticeDot a a = 1 ∧ latticeDot b b = 1 ∧ latticeDot a b = 0 ∧ optMul T L 0 true a = a ∧ optMul T L 0 true b = -b ∧
      exactOverlapMul T 0 0 scaling roots old [(1, a), (-1, b)] false L u = .ok u ∧
      exactOverlapMul T 0 0 scaling roots old [(1, u)] false L u = .ok ((1 / 2 : ℝ) • (u + gamma5Field u)) ∧
      (1 / 2 : ℝ) • (u + gamma5Field u) ≠ u := by
  let j0 : Fin 4 × Fin M := (0, ⟨0, hM⟩)
  let j2 : Fin 4 × Fin M := (2, ⟨0, hM⟩)
  let a : SField S M := unitField s j0
  let b : SField S M := unitField s j2
  let r : ℂ := ((√(1 / 2) : ℝ) : ℂ)
  have hr2 : r * r = 1 / 2 := by
    change ((√(1 / 2) : ℝ) : ℂ) * ((√(1 / 2) : ℝ) : ℂ) = _
    rw [← Complex.ofReal_mul, Real.mul_self_sqrt (by norm_num)]
    norm_num
  have hr0 : r ≠ 0 := by intro h; rw [h] at hr2; norm_num at hr2
  have hrc : starRingEnd ℂ r = r := Complex.conj_ofReal _
  have haa : latticeDot a a = 1 := by
    rw [← latticeDot_conj]; change starRingEnd ℂ (latticeDot a (unitField s j0)) = 1
    rw [latticeDot_unitField]; simp [a, unitField, j0]
  have hbb : latticeDot b b = 1 := by
    rw [← latticeDot_conj]; change starRingEnd ℂ (latticeDot b (unitField s j2)) = 1
    rw [latticeDot_unitField]; simp [b, unitField, j2]
  have hab : latticeDot a b = 0 := by
    change latticeDot a (unitField s j2) = 0
    rw [latticeDot_unitField]; simp [a, unitField, j0, j2]
  have hba : latticeDot b a = 0 := dot_swap_zero hab
  have hga : gamma5Field a = a := by
    funext x; ext mu i
    rw [gamma5Field_apply]
    by_cases h : x = s ∧ (mu, i) = j0
    · have : mu = 0 := congrArg Prod.fst h.2
      subst this; simp [spinSign]
    · simp [a, unitField, h]
  have hgb : gamma5Field b = -b := by
    funext x; ext mu i
    rw [gamma5Field_apply]
    by_cases h : x = s ∧ (mu, i) = j2
    · have : mu = 2 := congrArg Prod.fst h.2
      subst this; simp [spinSign]
    · simp [b, unitField, h]
  have hgu : gamma5Field (r • (a + b)) = r • (a - b) := by
    rw [gamma5Field_smul, gamma5Field_add, hga, hgb, sub_eq_add_neg]
  have hau : latticeDot a (r • (a + b)) = r := by rw [latticeDot_smul, latticeDot_add, haa, hab, add_zero, mul_one]
  have hbu : latticeDot b (r • (a + b)) = r := by rw [latticeDot_smul, latticeDot_add, hbb, hba, zero_add, mul_one]
  have hua : latticeDot (r • (a + b)) a = r := by
    have := latticeDot_conj a (r • (a + b))
    rw [hau, hrc] at this
    exact this.symm
  have hub : latticeDot (r • (a + b)) b = r := by
    have := latticeDot_conj b (r • (a + b))
    rw [hbu, hrc] at this
    exact this.symm
  have huu : latticeDot (r • (a + b)) (r • (a + b)) = 1 := by
    rw [latticeDot_smul, latticeDot_add, hua, hub, mul_add, hr2]
    norm_num
  have h00 : a s 0 ⟨0, hM⟩ = 1 := by simp [a, unitField, j0]
  have h02 : a s 2 ⟨0, hM⟩ = 0 := by simp [a, unitField, j0]
  have h20 : b s 0 ⟨0, hM⟩ = 0 := by simp [b, unitField, j2]
  have h22 : b s 2 ⟨0, hM⟩ = 1 := by simp [b, unitField, j2]
  refine ⟨r • (a + b), a, b, huu, ?_, ?_, ?_, haa, hbb, hab, ?_, ?_, ?_, ?_, ?_⟩
  · rw [optMul_zero_kappa, optMul_zero_kappa, gamma5Field_gamma5Field, one_smul]
  · unfold signedRoot
    have h0 : (latticeDot (r • (a + b)) (optMul T L 0 true (r • (a + b)))).re = 0 := by
      rw [optMul_zero_kappa, hgu, latticeDot_smul, latticeDot_sub', hua, hub, sub_self, mul_zero,
        Complex.zero_re]
    rw [h0, if_neg (lt_irrefl 0), Complex.one_re, Real.sqrt_one]
  · intro lam h
    rw [optMul_zero_kappa, hgu] at h
    have e0 := congrFun (congrFun (congrFun h s) 0) ⟨0, hM⟩
    have e2 := congrFun (congrFun (congrFun h s) 2) ⟨0, hM⟩
    simp only [Pi.smul_apply, Pi.add_apply, Pi.sub_apply, Matrix.smul_apply, Matrix.add_apply, Matrix.sub_apply, smul_eq_mul, h00, h02, h20, h22,
      add_zero, zero_add, sub_zero, zero_sub, mul_one, mul_neg] at e0 e2
    have h1 : lam = 1 := mul_right_cancel₀ hr0 (by rw [one_mul]; exact e0.symm)
    rw [h1, one_mul] at e2
    exact hr0 (by linear_combination (-1 / 2 : ℂ) * e2)
  · rw [optMul_zero_kappa, hga]
  · rw [optMul_zero_kappa, hgb]
  · rw [exactOverlapMul_eq T 0 0 scaling roots hr, overlapOut_false]
    have hs : exactSign T 0 scaling roots [(1, a), (-1, b)] L (r • (a + b)) = r • (a - b) := by
      unfold exactSign
      simp only [projSum_cons, projSum_nil, hau, hbu, codeSign]
      rw [if_neg (by norm_num), if_pos (by norm_num)]
      have : r • (a + b) - ((1 * r) • a + ((1 * r) • b + 0)) = 0 := by module
      rw [this, map_zero]
      module
    rw [hs, ← hgu, gamma5Field_gamma5Field]
    congr 1
    module
  · rw [exactOverlapMul_eq T 0 0 scaling roots hr, overlapOut_false]
    have hs : exactSign T 0 scaling roots [(1, r • (a + b))] L (r • (a + b)) = r • (a + b) := by
      unfold exactSign
      simp only [projSum_cons, projSum_nil, huu, codeSign]
      rw [if_neg (by norm_num)]
      have : r • (a + b) - ((1 * 1 : ℂ) • (r • (a + b)) + 0) = 0 := by module
      rw [this, map_zero]
      module
    rw [hs]
    congr 1
    module
  · intro h
    rw [hgu] at h
    have e2 := congrFun (congrFun (congrFun h s) 2) ⟨0, hM⟩
    simp only [Pi.smul_apply, Pi.add_apply, Pi.sub_apply, Matrix.smul_apply, Matrix.add_apply, Matrix.sub_apply, smul_eq_mul, h02, h22,
      zero_add, zero_sub, mul_one, mul_neg, add_neg_cancel, smul_zero] at e2
    exact hr0 e2.symm

/-- **C94, the test.** The test does detect such a pair: the deviation of a pair that is no eigenpair is positive, so that it fails for every smaller
tolerance; a tested pair fulfils `‖Q u - λ u‖ ≤ tolerance`. -/
theorem C94_test (Q : SField S M → SField S M) (e : ℝ × SField S M) :
    fieldNorm (Q e.2 - (e.1 : ℂ) • e.2) ≤ eigenDeviation Q e ∧ (eigenDeviation Q e = 0 ↔ Q e.2 = (e.1 : ℂ) • e.2) := by
  have h0 : ∀ x mu c, 0 ≤ ‖Q e.2 x mu c - (e.1 : ℂ) * e.2 x mu c‖ := fun _ _ _ => norm_nonneg _
  have hD : eigenDeviation Q e = ∑ p : S × Fin 4 × Fin M, ‖Q e.2 p.1 p.2.1 p.2.2 - (e.1 : ℂ) * e.2 p.1 p.2.1 p.2.2‖ := by
    simp only [eigenDeviation, Fintype.sum_prod_type]
  have hN : fieldNorm (Q e.2 - (e.1 : ℂ) • e.2) = √(∑ p : S × Fin 4 × Fin M, ‖Q e.2 p.1 p.2.1 p.2.2 - (e.1 : ℂ) * e.2 p.1 p.2.1 p.2.2‖ ^ 2) := by
    simp only [fieldNorm, Fintype.sum_prod_type]
    rfl
  refine ⟨?_, ?_⟩
  · rw [hD, hN]
    refine Real.sqrt_le_iff.mpr ⟨Finset.sum_nonneg fun _ _ => norm_nonneg _, ?_⟩
    exact Finset.sum_sq_le_sq_sum_of_nonneg fun p _ => norm_nonneg _
  · rw [hD, Finset.sum_eq_zero_iff_of_nonneg fun _ _ => norm_nonneg _]
    constructor
    · intro h
      funext x; ext mu c
      have := h (x, mu, c) (Finset.mem_univ _)
      exact sub_eq_zero.mp (norm_eq_zero.mp this)
    · intro h p _
      rw [norm_eq_zero, h]
      exact sub_self _

/-! ### Examples -/

theorem gamma5_unit [DecidableEq S] (s : S) (mu : Fin 4) (i : Fin M) :
    gamma5Field (unitField s (mu, i)) = ((spinSign mu : ℂ)) • (unitField s (mu, i) : SField S M) := by
  funext x; ext nu c
  rw [gamma5Field_apply]
  change _ = spinSign mu * _
  by_cases h : x = s ∧ (nu, c) = (mu, i)
  · have : nu = mu := congrArg Prod.fst h.2
    rw [this]
  · have h' : (unitField s (mu, i) : SField S M) x nu c = 0 := if_neg h
    rw [h', mul_zero, mul_zero]

/-- An eigenvector with a negative eigenvalue. -/
example : signedRoot (optMul (boxTorus exExt3 exExt3_pos) (fun _ _ => (1 : Mat 2)) 0 true)
    (((((-1 : ℝ)) ^ 2 : ℝ) : ℂ), unitField ⟨⟨0, 0, 0, 0⟩, by decide⟩ (2, 0)) = -1 := by
  refine C94_eigenvalue _ _ 0 (-1) _ ?_ ?_
  · rw [latticeDot_unitField]; simp [unitField]
  · rw [optMul_zero_kappa, gamma5_unit]
    simp [spinSign]

/-- The hypotheses of `C94_ginsparg_wilson_partial` on the pairs hold for a solver which returns two eigenvectors with the eigenvalue `1` of the
square. -/
example : let T := boxTorus exExt3 exExt3_pos
    let L : GField (BoxSite exExt3) 2 := fun _ _ => 1
    let pairs : List (ℂ × SField (BoxSite exExt3) 2) :=
      [(1, unitField ⟨⟨0, 0, 0, 0⟩, by decide⟩ (0, 0)), (1, unitField ⟨⟨0, 0, 0, 0⟩, by decide⟩ (2, 0))]
    (pairs.Pairwise fun a b => latticeDot a.2 b.2 = 0) ∧ (∀ p ∈ pairs, latticeDot p.2 p.2 = 1) ∧
      (∀ p ∈ pairs, optMul T L 0 true (optMul T L 0 true p.2) = p.1 • p.2) ∧
      (∀ p ∈ pairs, p.1 ≠ 0 → (∀ w, optMul T L 0 true w = ((√p.1.re : ℝ) : ℂ) • w → latticeDot w p.2 = 0) ∨
        (∀ w, optMul T L 0 true w = ((-√p.1.re : ℝ) : ℂ) • w → latticeDot w p.2 = 0)) := by
  intro T L pairs
  have hn : ∀ p ∈ pairs, latticeDot p.2 p.2 = 1 := by
    intro p hp
    rcases List.mem_cons.1 hp with rfl | hp
    · rw [latticeDot_unitField]; simp [unitField]
    · rcases List.mem_singleton.1 hp with rfl
      rw [latticeDot_unitField]; simp [unitField]
  have hq : ∀ p ∈ pairs, optMul T L 0 true (optMul T L 0 true p.2) = p.1 • p.2 := by
    intro p hp
    rw [optMul_zero_kappa, optMul_zero_kappa, gamma5Field_gamma5Field]
    rcases List.mem_cons.1 hp with rfl | hp
    · rw [one_smul]
    · rcases List.mem_singleton.1 hp with rfl
      rw [one_smul]
  refine ⟨?_, hn, hq, ?_⟩
  · simp only [pairs, List.pairwise_cons, List.mem_singleton, forall_eq, List.not_mem_nil, false_imp_iff, implies_true, List.Pairwise.nil, and_true]
    rw [latticeDot_unitField]; simp [unitField]
  · intro p hp
    refine (C94_square T L 0 p.1 p.2 (hn p hp) (hq p hp)).mp ?_
    have he : ∀ lam : ℝ, lam ^ 2 = 1 → p.1 = 1 → optMul T L 0 true p.2 = (lam : ℂ) • p.2 →
        optMul T L 0 true p.2 = ((signedRoot (optMul T L 0 true) (p.1, p.2) : ℝ) : ℂ) • p.2 := by
      intro lam h1 h2 h3
      have := C94_eigenvalue T L 0 lam p.2 (hn p hp) h3
      rw [h1, Complex.ofReal_one] at this
      rw [h2, this]
      exact h3
    rcases List.mem_cons.1 hp with rfl | hp
    · refine he 1 (by norm_num) rfl ?_
      rw [optMul_zero_kappa, gamma5_unit]; simp [spinSign]
    · rcases List.mem_singleton.1 hp with rfl
      refine he (-1) (by norm_num) rfl ?_
      rw [optMul_zero_kappa, gamma5_unit]; simp [spinSign]

end Leonard
