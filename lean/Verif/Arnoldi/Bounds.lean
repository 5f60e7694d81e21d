import Verif.Arnoldi.Result
import Mathlib.Analysis.Complex.Polynomial.Basic

/-!
# The returned values and the eigenvalues of the operator
-/

set_option autoImplicit false

namespace Leonard

open Matrix Polynomial

variable {S : Type} [Fintype S] {M : ℕ}

/-- The operator of the process as a linear map. -/
noncomputable def modeLin (D : SField S M →ₗ[ℂ] SField S M) (mode : EigenMode) : SField S M →ₗ[ℂ] SField S M where
  toFun := modeApply D mode
  map_add' v w := by
    change D (mode.factor • (v + w)) + (7 : ℂ) • (v + w) = (D (mode.factor • v) + (7 : ℂ) • v) + (D (mode.factor • w) + (7 : ℂ) • w)
    rw [smul_add, map_add, smul_add]
    abel
  map_smul' c v := by
    change D (mode.factor • c • v) + (7 : ℂ) • c • v = c • (D (mode.factor • v) + (7 : ℂ) • v)
    rw [smul_comm, map_smul, smul_comm (7 : ℂ) c v, smul_add]

theorem modeLin_apply (D : SField S M →ₗ[ℂ] SField S M) (mode : EigenMode) (v : SField S M) : modeLin D mode v = mode.factor • D v + (7 : ℂ) • v := by
  change D (mode.factor • v) + (7 : ℂ) • v = _
  rw [map_smul]

/-- The two modes that the program uses, with their sign. -/
def EigenMode.sign : EigenMode → ℝ
  | .smallestReal => -1
  | _ => 1

/-- The mode asks for real parts. -/
def EigenMode.IsReal : EigenMode → Prop
  | .largestReal => True
  | .smallestReal => True
  | _ => False

theorem factor_sign {mode : EigenMode} (h : mode.IsReal) : mode.factor = (mode.sign : ℂ) ∧ mode.sign * mode.sign = 1 := by
  cases mode with
  | largestReal => exact ⟨Complex.ofReal_one.symm, one_mul 1⟩
  | smallestReal => exact ⟨by change (-1 : ℂ) = ((-1 : ℝ) : ℂ); push_cast; rfl, by change (-1 : ℝ) * -1 = 1; norm_num⟩
  | largestImaginary => exact absurd h not_false
  | smallestImaginary => exact absurd h not_false

variable {D : SField S M →ₗ[ℂ] SField S M} {eig : DenseSolver} {n extra : ℕ} {mode : EigenMode} {epsilon : ℝ}

theorem modeLin_hermitian (hm : mode.IsReal) (hD : ∀ v w, latticeDot v (D w) = latticeDot (D v) w) (v w : SField S M) :
    latticeDot v (modeLin D mode w) = latticeDot (modeLin D mode v) w := by
  obtain ⟨h1, _⟩ := factor_sign hm
  rw [modeLin_apply, modeLin_apply, latticeDot_add, latticeDot_smul, latticeDot_smul, ← latticeDot_conj w (_ + _), latticeDot_add, latticeDot_smul, latticeDot_smul, map_add, map_mul, map_mul,
    latticeDot_conj, latticeDot_conj, hD, h1, Complex.conj_ofReal, map_ofNat]

/-- A run of the program ends in a complete process. -/
theorem run_full {A D : SField S M →ₗ[ℂ] SField S M} (he : eig.Correct) (hn : 1 ≤ n) {restarts : ℕ} {start : SField S M} {old : ℕ → SField S M} {r : List (ℂ × SField S M) × ℝ}
    (h : maximumEigenvalues A D eig n extra restarts epsilon start old = some r) :
    ∃ s0 s t, startArnoldi A start old = some s0 ∧ extendArnoldi A 0 (extra + n) s0 = some s ∧ Full A (extra + n) s ∧ Full A (extra + n) t ∧
      r = finishArnoldi D eig (extra + n) extra t ∧ ((∀ v w, latticeDot v (A w) = latticeDot (A v) w) → Below (extra + n) s t) := by
  obtain ⟨s0, h0, h⟩ := Option.bind_eq_some_iff.1 h
  obtain ⟨s, h1, h⟩ := Option.bind_eq_some_iff.1 h
  have hs := start_full hn h0 h1
  obtain ⟨t, ht, hr, hb⟩ := eigenLoop_result he hn restarts s r hs h
  exact ⟨s0, s, t, h0, h1, hs, ht, hr, hb⟩

theorem finishPair_value {A D : SField S M →ₗ[ℂ] SField S M} (he : eig.Correct) {steps : ℕ} {t : ArnoldiState S M} (ht : Full A steps t) (i : Fin steps) :
    (finishPair D eig steps t i).1 = latticeDot (ritzVector eig steps t i) (D (ritzVector eig steps t i)) := by
  change latticeDot _ _ / (latticeNorm2 (ritzVector eig steps t i) : ℂ) = _
  rw [ritz_norm he ht, Complex.ofReal_one, div_one]

/-- The eigenvalue of the matrix that belongs to a returned value. -/
theorem pair_theta (he : eig.Correct) {steps : ℕ} {t : ArnoldiState S M} (ht : Full (modeLin D mode) steps t) (i : Fin steps) :
    mode.factor * (finishPair D eig steps t i).1 + 7 = (eig steps (hMatrix steps t.H)).1 i := by
  have h := ritz_form he ht i i
  rw [latticeDot_self, ritz_norm he ht, Complex.ofReal_one, mul_one, modeLin_apply, latticeDot_add, latticeDot_smul, latticeDot_smul, latticeDot_self, ritz_norm he ht,
    Complex.ofReal_one, mul_one] at h
  rw [finishPair_value he ht, h]

theorem pair_re (hm : mode.IsReal) (he : eig.Correct) {steps : ℕ} {t : ArnoldiState S M} (ht : Full (modeLin D mode) steps t) (i : Fin steps) :
    mode.sign * (finishPair D eig steps t i).1.re + 7 = ((eig steps (hMatrix steps t.H)).1 i).re := by
  have h := congrArg Complex.re (pair_theta he ht i)
  rwa [(factor_sign hm).1, Complex.add_re, Complex.re_ofReal_mul, Complex.re_ofNat] at h

/-- The eigenvalues of the matrix are not negative. -/
theorem theta_nonneg (hm : mode.IsReal) (he : eig.Correct) (hlow : ∀ v, -7 * latticeNorm2 v ≤ mode.sign * (latticeDot v (D v)).re) {steps : ℕ} {t : ArnoldiState S M}
    (ht : Full (modeLin D mode) steps t) (i : Fin steps) : 0 ≤ ((eig steps (hMatrix steps t.H)).1 i).re := by
  rw [← pair_re hm he ht, finishPair_value he ht]
  have := hlow (ritzVector eig steps t i)
  rw [ritz_norm he ht] at this
  linarith

/-- Growing modulus means growing real part. -/
theorem theta_ordered (hm : mode.IsReal) (hD : ∀ v w, latticeDot v (D w) = latticeDot (D v) w) (he : eig.Correct) (ho : eig.Ordered)
    (hlow : ∀ v, -7 * latticeNorm2 v ≤ mode.sign * (latticeDot v (D v)).re) {steps : ℕ} {t : ArnoldiState S M} (ht : Full (modeLin D mode) steps t) {i j : Fin steps} (hij : i ≤ j) :
    ((eig steps (hMatrix steps t.H)).1 i).re ≤ ((eig steps (hMatrix steps t.H)).1 j).re := by
  have h := ho steps (hMatrix steps t.H) hij
  have hn : ∀ k, ‖(eig steps (hMatrix steps t.H)).1 k‖ = ((eig steps (hMatrix steps t.H)).1 k).re := by
    intro k
    have him := root_real (ht.hermitian (modeLin_hermitian hm hD)) (mem_root he (hMatrix steps t.H) k)
    have : (eig steps (hMatrix steps t.H)).1 k = (((eig steps (hMatrix steps t.H)).1 k).re : ℂ) := Complex.ext (by rw [Complex.ofReal_re]) (by rw [Complex.ofReal_im, him])
    rw [this, Complex.norm_real, Complex.ofReal_re, Real.norm_eq_abs, abs_of_nonneg (theta_nonneg hm he hlow ht k)]
  simp only [hn] at h
  exact h

/-- The orthonormal vectors diagonalise the quadratic form of the operator. -/
theorem ritz_diag (hm : mode.IsReal) (hD : ∀ v w, latticeDot v (D w) = latticeDot (D v) w) (he : eig.Correct) {steps : ℕ} {t : ArnoldiState S M} (ht : Full (modeLin D mode) steps t)
    (i j : Fin steps) : latticeDot (ritzVector eig steps t i) (D (ritzVector eig steps t j)) = if i = j then (((finishPair D eig steps t j).1.re : ℝ) : ℂ) else 0 := by
  have hA := modeLin_hermitian hm hD
  by_cases hij : i = j
  · subst hij
    rw [if_pos rfl, finishPair_value he ht]
    have h1 : starRingEnd ℂ (latticeDot (ritzVector eig steps t i) (D (ritzVector eig steps t i))) = latticeDot (ritzVector eig steps t i) (D (ritzVector eig steps t i)) := by
      rw [latticeDot_conj, ← hD]
    exact (Complex.conj_eq_iff_re.1 h1).symm
  · rw [if_neg hij]
    have h := ritz_form he ht i j
    rw [ritz_orth he ht hA, if_neg hij, mul_zero, modeLin_apply, latticeDot_add, latticeDot_smul, latticeDot_smul, ritz_orth he ht hA, if_neg hij, mul_zero, add_zero] at h
    refine (mul_eq_zero.1 h).resolve_left fun h0 => ?_
    obtain ⟨h1, h2⟩ := factor_sign hm
    rw [h1, Complex.ofReal_eq_zero] at h0
    rw [h0, mul_zero] at h2
    exact zero_ne_one h2

/-! ## The space that is searched -/

/-- A vector made from the first vectors of the process. -/
theorem krylov_step {A : SField S M →ₗ[ℂ] SField S M} {steps k : ℕ} {s : ArnoldiState S M} (hs : Arnoldi A steps (steps - 1) s) (hk : k + 1 < steps) (y : Fin steps → ℂ)
    (hy : ∀ i : Fin steps, k < i.val → y i = 0) :
    A (combine steps s.V y) = combine steps s.V (hMatrix steps s.H *ᵥ y) ∧ ∀ i : Fin steps, k + 1 < i.val → (hMatrix steps s.H *ᵥ y) i = 0 := by
  refine ⟨by rw [combine_apply hs, hy ⟨steps - 1, hs.lt⟩ (by simp only; omega), zero_smul, add_zero], fun i hi => ?_⟩
  rw [Matrix.mulVec, dotProduct]
  refine Finset.sum_eq_zero fun c _ => ?_
  by_cases hc : k < c.val
  · rw [hy c hc, mul_zero]
  · rw [hMatrix_apply, hs.hess _ _ (by omega), zero_mul]

theorem combine_add {steps : ℕ} (V : ℕ → SField S M) (x y : Fin steps → ℂ) : combine steps V (x + y) = combine steps V x + combine steps V y := by
  unfold combine
  rw [← Finset.sum_add_distrib]
  exact Finset.sum_congr rfl fun i _ => by rw [Pi.add_apply, add_smul]

theorem combine_smul {steps : ℕ} (V : ℕ → SField S M) (c : ℂ) (x : Fin steps → ℂ) : combine steps V (c • x) = c • combine steps V x := by
  unfold combine
  rw [Finset.smul_sum]
  exact Finset.sum_congr rfl fun i _ => by rw [Pi.smul_apply, smul_smul, smul_eq_mul]

/-- Powers of the operator on the start vector. -/
theorem krylov_power (hm : mode.IsReal) {steps : ℕ} {s : ArnoldiState S M} (hs : Arnoldi (modeLin D mode) steps (steps - 1) s) (v : SField S M) (a : ℂ) (hv : v = a • s.V 0) :
    ∀ k, k < steps → ∃ y : Fin steps → ℂ, (D^[k]) v = combine steps s.V y ∧ ∀ i : Fin steps, k < i.val → y i = 0 := by
  intro k
  induction k with
  | zero =>
    intro hk
    refine ⟨a • Pi.single ⟨0, hk⟩ 1, ?_, fun i hi => ?_⟩
    · rw [combine_smul, Function.iterate_zero, id, hv]
      congr 1
      unfold combine
      rw [Finset.sum_eq_single ⟨0, hk⟩]
      · rw [Pi.single_eq_same, one_smul]
      · intro b _ hb
        rw [Pi.single_eq_of_ne hb, zero_smul]
      · intro h; exact absurd (Finset.mem_univ _) h
    · rw [Pi.smul_apply, Pi.single_eq_of_ne (by intro h; rw [h] at hi; exact absurd hi (lt_irrefl _)), smul_zero]
  | succ k ih =>
    intro hk
    obtain ⟨y, h1, h2⟩ := ih (by omega)
    obtain ⟨h3, h4⟩ := krylov_step hs hk y h2
    obtain ⟨f1, f2⟩ := factor_sign hm
    have f3 : mode.factor * mode.factor = 1 := by rw [f1, ← Complex.ofReal_mul, f2, Complex.ofReal_one]
    refine ⟨mode.factor • (hMatrix steps s.H *ᵥ y) + (-7 * mode.factor) • y, ?_, fun i hi => ?_⟩
    · rw [Function.iterate_succ_apply', h1, combine_add, combine_smul, combine_smul, ← h3, modeLin_apply, smul_add, smul_smul, smul_smul, f3]
      module
    · rw [Pi.add_apply, Pi.smul_apply, Pi.smul_apply, h4 i hi, h2 i (by omega), smul_zero, smul_zero, add_zero]

/-- Polynomials of the operator on the start vector lie in the space that is searched. -/
theorem krylov_combine (hm : mode.IsReal) {steps : ℕ} {s : ArnoldiState S M} (hs : Arnoldi (modeLin D mode) steps (steps - 1) s) (v : SField S M) (a : ℂ) (hv : v = a • s.V 0)
    (c : Fin steps → ℂ) : ∃ y, ∑ k : Fin steps, c k • (D^[k.val]) v = combine steps s.V y := by
  choose! y hy _ using krylov_power hm hs v a hv
  refine ⟨∑ k : Fin steps, c k • y k.val, ?_⟩
  have h : ∀ t : Finset (Fin steps), combine steps s.V (∑ k ∈ t, c k • y k.val) = ∑ k ∈ t, c k • combine steps s.V (y k.val) := by
    intro t
    classical
    induction t using Finset.induction_on with
    | empty => unfold combine; simp
    | insert b t hb ih => rw [Finset.sum_insert hb, Finset.sum_insert hb, combine_add, combine_smul, ih]
  rw [h]
  exact Finset.sum_congr rfl fun k _ => by rw [hy k.val k.isLt]

theorem startArnoldi_vector {A : SField S M → SField S M} {start : SField S M} {old : ℕ → SField S M} {s : ArnoldiState S M} (h : startArnoldi A start old = some s) :
    ∃ a : ℂ, start = a • s.V 0 := by
  unfold startArnoldi at h
  simp only at h
  split at h
  · cases h
  rename_i hb
  have hbc : ((√(latticeNorm2 start) : ℝ) : ℂ) ≠ 0 := by exact_mod_cast hb
  refine ⟨(√(latticeNorm2 start) : ℂ), ?_⟩
  rw [← Option.some.inj h]
  simp only [Function.update_self]
  rw [smul_smul, mul_inv_cancel₀ hbc, one_smul]

/-- An eigenvector of the operator in the space that is searched gives an eigenvalue of the matrix. -/
theorem eigen_root {A : SField S M →ₗ[ℂ] SField S M} {steps : ℕ} {s : ArnoldiState S M} (hs : Full A steps s) (y : Fin steps → ℂ) (z : ℂ) (hz : A (combine steps s.V y) = z • combine steps s.V y)
    (h0 : combine steps s.V y ≠ 0) : (hMatrix steps s.H).charpoly.IsRoot z := by
  refine (root_iff_eigen _ _).2 ⟨y, fun h1 => h0 ?_, ?_⟩
  · rw [h1]; unfold combine; simp
  · have h2 : ∀ x, star x ⬝ᵥ (hMatrix steps s.H *ᵥ y - z • y) = 0 := by
      intro x
      have h3 := combine_form hs.1 x y
      rw [hz, latticeDot_smul, combine_dot hs.1.orth] at h3
      rw [dotProduct_sub, ← h3, dotProduct_smul, smul_eq_mul, sub_self]
    exact sub_eq_zero.1 (star_dot_self_zero (h2 _))

/-! ## A dense solver exists -/

theorem exists_unit_eigenvector {m : ℕ} (B : Matrix (Fin m) (Fin m) ℂ) (z : ℂ) (h : B.charpoly.IsRoot z) : ∃ x : Fin m → ℂ, B *ᵥ x = z • x ∧ ∑ r, ‖x r‖ ^ 2 = 1 := by
  obtain ⟨x, hx0, hx⟩ := (root_iff_eigen B z).1 h
  have hpos : 0 < ∑ r, ‖x r‖ ^ 2 := by
    refine lt_of_le_of_ne (Finset.sum_nonneg fun i _ => by positivity) fun h1 => hx0 ?_
    exact star_dot_self_zero (by rw [star_dot_self, ← h1, Complex.ofReal_zero])
  refine ⟨((√(∑ r, ‖x r‖ ^ 2) : ℝ) : ℂ)⁻¹ • x, by rw [Matrix.mulVec_smul, hx, smul_comm], ?_⟩
  simp only [Pi.smul_apply, smul_eq_mul, norm_mul, norm_inv, Complex.norm_real, mul_pow, inv_pow, Real.norm_eq_abs, sq_abs]
  rw [← Finset.mul_sum, Real.sq_sqrt hpos.le, inv_mul_cancel₀ hpos.ne']

/-- A solver with all the properties exists. -/
theorem exists_denseSolver : ∃ eig : DenseSolver, eig.Correct ∧ eig.Ordered := by
  have key : ∀ (m : ℕ) (B : Matrix (Fin m) (Fin m) ℂ), ∃ (th : Fin m → ℂ) (W : Matrix (Fin m) (Fin m) ℂ), (∀ i, B *ᵥ (fun r => W r i) = th i • fun r => W r i) ∧
      (∀ i, ∑ r, ‖W r i‖ ^ 2 = 1) ∧ ∏ i, (X - C (th i)) = B.charpoly ∧ Monotone fun i => ‖th i‖ := by
    intro m B
    haveI : Std.Total fun x y : ℂ => ‖x‖ ≤ ‖y‖ := ⟨fun x y => le_total _ _⟩
    haveI : IsTrans ℂ fun x y : ℂ => ‖x‖ ≤ ‖y‖ := ⟨fun x y z h1 h2 => le_trans h1 h2⟩
    have hsp : B.charpoly.Splits := IsAlgClosed.splits _
    have hcard : B.charpoly.roots.card = m := by
      rw [Polynomial.splits_iff_card_roots.1 hsp, Matrix.charpoly_natDegree_eq_dim, Fintype.card_fin]
    generalize hl : B.charpoly.roots.toList.insertionSort (fun x y : ℂ => ‖x‖ ≤ ‖y‖) = l
    have hlen : l.length = m := by rw [← hl, List.length_insertionSort, Multiset.length_toList, hcard]
    have hperm : l.Perm B.charpoly.roots.toList := by rw [← hl]; exact List.perm_insertionSort _ _
    have hsort : l.Pairwise fun x y : ℂ => ‖x‖ ≤ ‖y‖ := by rw [← hl]; exact List.pairwise_insertionSort _ _
    have hroot : ∀ i : Fin m, B.charpoly.IsRoot (l[i.val]'(by rw [hlen]; exact i.isLt)) := by
      intro i
      have h1 : l[i.val]'(by rw [hlen]; exact i.isLt) ∈ B.charpoly.roots := by
        rw [← Multiset.mem_toList, ← hperm.mem_iff]
        exact List.getElem_mem _
      exact (Polynomial.mem_roots'.1 h1).2
    choose W hW1 hW2 using fun i => exists_unit_eigenvector B _ (hroot i)
    refine ⟨fun i => l[i.val]'(by rw [hlen]; exact i.isLt), Matrix.of fun r i => W i r, hW1, hW2, ?_, ?_⟩
    · have h1 : (l.map fun z => (X - C z : ℂ[X])).prod = B.charpoly := by
        rw [(hperm.map _).prod_eq, ← Multiset.prod_coe, ← Multiset.map_coe, Multiset.coe_toList]
        exact (hsp.eq_prod_roots_of_monic B.charpoly_monic).symm
      rw [← h1, ← List.prod_ofFn]
      congr 1
      refine List.ext_getElem (by simp [hlen]) fun i h2 h3 => ?_
      simp
    · intro i j hij
      rcases eq_or_lt_of_le hij with rfl | hlt
      · exact le_rfl
      · exact List.pairwise_iff_getElem.1 hsort i.val j.val _ _ hlt
  choose th W h1 h2 h3 h4 using key
  exact ⟨fun m B => (th m B, W m B), ⟨fun m B => h1 m B, fun m B => h2 m B, fun m B => h3 m B⟩, fun m B => h4 m B⟩

end Leonard
