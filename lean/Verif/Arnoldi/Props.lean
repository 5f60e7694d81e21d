import Verif.Arnoldi.Example

/-!
# C74: the eigenvalue solver
-/

set_option autoImplicit false

namespace Leonard

open Matrix Polynomial

/-- The operator is Hermitian for the scalar product of two spinor fields. -/
def HermitianOp {S : Type} [Fintype S] {M : ℕ} (D : SField S M → SField S M) : Prop := ∀ v w, latticeDot v (D w) = latticeDot (D v) w

/-- The fields are orthonormal. -/
def OrthonormalFields {S : Type} [Fintype S] {M : ℕ} {ι : Type} [DecidableEq ι] (w : ι → SField S M) : Prop := ∀ a b, latticeDot (w a) (w b) = if a = b then 1 else 0

section

variable {S : Type} [Fintype S] {M : ℕ} {D : SField S M →ₗ[ℂ] SField S M} {mode : EigenMode} {eig : DenseSolver} {n extra restarts : ℕ} {epsilon : ℝ} {start : SField S M}
  {old : ℕ → SField S M} {r : List (ℂ × SField S M) × ℝ}

private theorem run_mode (he : eig.Correct) (hn : 1 ≤ n) (h : maximumEigenvalues (modeApply D mode) D eig n extra restarts epsilon start old = some r) :
    ∃ s0 s t, startArnoldi (modeLin D mode) start old = some s0 ∧ extendArnoldi (modeLin D mode) 0 (extra + n) s0 = some s ∧ Full (modeLin D mode) (extra + n) s ∧
      Full (modeLin D mode) (extra + n) t ∧ r = finishArnoldi D eig (extra + n) extra t ∧
      ((∀ v w, latticeDot v (modeLin D mode w) = latticeDot (modeLin D mode v) w) → Below (extra + n) s t) :=
  run_full (A := modeLin D mode) he hn h

/-- C74: for any operator and mode, and any number of restarts, the run returns as many pairs as asked for. Each vector has norm one, each value is the expectation value
of the operator in its vector, and the deviation which decides about convergence bounds the residual of every pair. -/
theorem C74_pairs (he : eig.Correct) (hn : 1 ≤ n) (h : maximumEigenvalues (modeApply D mode) D eig n extra restarts epsilon start old = some r) :
    r.1.length = n ∧ ∀ p ∈ r.1, latticeNorm2 p.2 = 1 ∧ p.1 = latticeDot p.2 (D p.2) ∧ ∑ x, ∑ mu, ∑ c, ‖D p.2 x mu c - p.1 * p.2 x mu c‖ ≤ r.2 := by
  obtain ⟨_, _, t, _, _, _, ht, hr, _⟩ := run_mode he hn h
  subst hr
  refine ⟨finish_length D n extra t, fun p hp => ?_⟩
  have h3 := finish_deviation D n extra t p hp
  obtain ⟨k, hk, rfl⟩ := List.mem_iff_getElem.1 hp
  rw [finish_get] at h3 ⊢
  exact ⟨ritz_norm he ht _, finishPair_value he ht _, h3⟩

/-- C74: a run that ends with a deviation below the precision does not depend on the number of restarts that were allowed. -/
theorem C74_stop (h : maximumEigenvalues (modeApply D mode) D eig n extra (restarts + 1) epsilon start old = some r) (hr : r.2 < epsilon) (more : ℕ) :
    maximumEigenvalues (modeApply D mode) D eig n extra (restarts + 1 + more) epsilon start old = some r := by
  have key : ∀ (m : ℕ) (s : ArnoldiState S M), eigenLoop (modeApply D mode) D eig n extra epsilon (m + 1) s = some r → eigenLoop (modeApply D mode) D eig n extra epsilon (m + 1 + more) s = some r := by
    intro m
    induction m with
    | zero =>
      intro s hs
      rw [show 0 + 1 + more = more + 1 by omega]
      rw [eigenLoop] at hs ⊢
      obtain ⟨s1, h1, hs⟩ := Option.bind_eq_some_iff.1 hs
      obtain ⟨s2, h2, hs⟩ := Option.bind_eq_some_iff.1 hs
      rw [h1, Option.bind_some, h2, Option.bind_some]
      simp only [eigenLoop, ite_self, Option.some.injEq] at hs
      rw [hs]
      exact if_pos hr
    | succ m ih =>
      intro s hs
      rw [show m + 1 + 1 + more = m + 1 + more + 1 by omega]
      rw [eigenLoop] at hs ⊢
      obtain ⟨s1, h1, hs⟩ := Option.bind_eq_some_iff.1 hs
      obtain ⟨s2, h2, hs⟩ := Option.bind_eq_some_iff.1 hs
      rw [h1, Option.bind_some, h2, Option.bind_some]
      simp only at hs ⊢
      split_ifs at hs ⊢ with hc
      · exact hs
      · exact ih s2 hs
  unfold maximumEigenvalues at h ⊢
  obtain ⟨s1, h1, h⟩ := Option.bind_eq_some_iff.1 h
  obtain ⟨s2, h2, h⟩ := Option.bind_eq_some_iff.1 h
  rw [h1, Option.bind_some, h2, Option.bind_some]
  exact key restarts s2 h

/-- C74: for a Hermitian operator the returned values are real and all different, and the vectors are orthonormal. In particular an eigenvalue is returned at most once,
whatever its multiplicity. -/
theorem C74_orthonormal (hD : HermitianOp D) (hm : mode.IsReal) (he : eig.Correct) (hn : 1 ≤ n)
    (h : maximumEigenvalues (modeApply D mode) D eig n extra restarts epsilon start old = some r) :
    (∀ i j : Fin r.1.length, latticeDot r.1[i].2 r.1[j].2 = if i = j then 1 else 0) ∧ (∀ p ∈ r.1, p.1.im = 0) ∧ Function.Injective fun i : Fin r.1.length => r.1[i].1 := by
  obtain ⟨_, _, t, _, _, _, ht, hr, _⟩ := run_mode he hn h
  subst hr
  have hA := modeLin_hermitian hm hD
  have hlen := finish_length (eig := eig) D n extra t
  have him : ∀ i : Fin (extra + n), (finishPair D eig (extra + n) t i).1.im = 0 := fun i => by
    have h1 := ritz_diag hm hD he ht i i
    rw [if_pos rfl, ← finishPair_value he ht i] at h1
    rw [h1, Complex.ofReal_im]
  refine ⟨fun i j => ?_, fun p hp => ?_, fun i j hij => ?_⟩
  · rw [Fin.getElem_fin, Fin.getElem_fin, finish_get, finish_get]
    refine (ritz_orth he ht hA _ _).trans (if_congr ?_ rfl rfl)
    rw [Fin.mk.injEq, Fin.ext_iff]
    have := i.isLt
    have := j.isLt
    omega
  · obtain ⟨k, hk, rfl⟩ := List.mem_iff_getElem.1 hp
    rw [finish_get]
    exact him _
  · simp only [Fin.getElem_fin] at hij
    rw [finish_get, finish_get] at hij
    have h1 := congrArg (fun z => mode.factor * z + 7) hij
    simp only [pair_theta he ht] at h1
    have h2 := ht.distinct hA he h1
    rw [Fin.mk.injEq] at h2
    rw [Fin.ext_iff]
    have := i.isLt
    have := j.isLt
    omega

/-- C74: every returned value is within the deviation of an exact eigenvalue. -/
theorem C74_distance (hD : HermitianOp D) (hm : mode.IsReal) (he : eig.Correct) (hn : 1 ≤ n)
    (h : maximumEigenvalues (modeApply D mode) D eig n extra restarts epsilon start old = some r) (p : ℂ × SField S M) (hp : p ∈ r.1) :
    ∃ (mu : ℝ) (u : SField S M), u ≠ 0 ∧ D u = (mu : ℂ) • u ∧ ‖(mu : ℂ) - p.1‖ ≤ r.2 := by
  obtain ⟨h1, h2, h3⟩ := (C74_pairs he hn h).2 p hp
  have h4 := (C74_orthonormal hD hm he hn h).2.1 p hp
  obtain ⟨N, u, mu, hb⟩ := exists_eigenBasis D hD
  have hp0 : p.2 ≠ 0 := fun h0 => by
    rw [h0] at h1
    have h5 := latticeDot_self (0 : SField S M)
    rw [h1] at h5
    simp [latticeDot] at h5
  have hre : p.1 = ((p.1.re : ℝ) : ℂ) := Complex.ext rfl h4
  obtain ⟨a, ha⟩ := hb.near hD p.1.re p.2 hp0
  refine ⟨mu a, u a, fun h0 => ?_, hb.eigen a, ?_⟩
  · have h5 := hb.orth a a
    rw [if_pos rfl, h0] at h5
    simp [latticeDot] at h5
  · have hf : fieldNorm p.2 = 1 := by
      rw [← Real.sqrt_one, ← h1, ← fieldNorm_sq, Real.sqrt_sq (show 0 ≤ fieldNorm p.2 from Real.sqrt_nonneg _)]
    rw [hf, mul_one, ← hre] at ha
    rw [hre, ← Complex.ofReal_sub, Complex.norm_real, Real.norm_eq_abs]
    exact ha.trans ((fieldNorm_le_l1 _).trans h3)

/-- C74: with a dense solver that orders by modulus, as Eigen does in practice, and an operator whose spectrum lies above -7 (for the smallest values: below 7), the values
are returned in the order asked for, and the value number `k` is never beyond the true one: there are `k + 1` orthonormal eigenvectors whose eigenvalues are at least as
large (as small). -/
theorem C74_bound (hD : HermitianOp D) (hm : mode.IsReal) (he : eig.Correct) (ho : eig.Ordered) (hlow : ∀ v, -7 * latticeNorm2 v ≤ mode.sign * (latticeDot v (D v)).re) (hn : 1 ≤ n)
    (h : maximumEigenvalues (modeApply D mode) D eig n extra restarts epsilon start old = some r) :
    (∀ i j : Fin r.1.length, i ≤ j → mode.sign * r.1[j].1.re ≤ mode.sign * r.1[i].1.re) ∧
    ∀ k : Fin r.1.length, ∃ (w : Fin (k.val + 1) → SField S M) (mu : Fin (k.val + 1) → ℝ), OrthonormalFields w ∧ (∀ a, D (w a) = (mu a : ℂ) • w a) ∧
      ∀ a, mode.sign * r.1[k].1.re ≤ mode.sign * mu a := by
  obtain ⟨_, _, t, _, _, _, ht, hr, _⟩ := run_mode he hn h
  subst hr
  have hlen := finish_length (eig := eig) D n extra t
  have hord : ∀ i j : Fin (finishArnoldi D eig (extra + n) extra t).1.length, i ≤ j →
      mode.sign * (finishArnoldi D eig (extra + n) extra t).1[j].1.re ≤ mode.sign * (finishArnoldi D eig (extra + n) extra t).1[i].1.re := by
    intro i j hij
    rw [Fin.getElem_fin, Fin.getElem_fin, finish_get, finish_get]
    have hij' : i.val ≤ j.val := hij
    have h1 := theta_ordered hm hD he ho hlow ht (i := ⟨extra + n - 1 - j.val, by omega⟩) (j := ⟨extra + n - 1 - i.val, by omega⟩) (by rw [Fin.mk_le_mk]; omega)
    rw [← pair_re hm he ht, ← pair_re hm he ht] at h1
    linarith
  refine ⟨hord, fun k => ?_⟩
  obtain ⟨N, u, mu, hb⟩ := exists_eigenBasis D hD
  -- the returned vectors up to number `k`
  have hk := k.isLt
  have hidx : ∀ a : Fin (k.val + 1), extra + n - 1 - a.val < extra + n := fun a => by omega
  have hw : ∀ a b : Fin (k.val + 1), latticeDot (ritzVector eig (extra + n) t ⟨extra + n - 1 - a.val, hidx a⟩) (ritzVector eig (extra + n) t ⟨extra + n - 1 - b.val, hidx b⟩)
      = if a = b then 1 else 0 := fun a b => by
    refine (ritz_orth he ht (modeLin_hermitian hm hD) _ _).trans (if_congr ?_ rfl rfl)
    rw [Fin.mk.injEq, Fin.ext_iff]
    have := a.isLt
    have := b.isLt
    omega
  have hf : ∀ a b : Fin (k.val + 1), latticeDot (ritzVector eig (extra + n) t ⟨extra + n - 1 - a.val, hidx a⟩) (D (ritzVector eig (extra + n) t ⟨extra + n - 1 - b.val, hidx b⟩))
      = if a = b then (((finishPair D eig (extra + n) t ⟨extra + n - 1 - b.val, hidx b⟩).1.re : ℝ) : ℂ) else 0 := fun a b => by
    refine (ritz_diag hm hD he ht _ _).trans (if_congr ?_ rfl rfl)
    rw [Fin.mk.injEq, Fin.ext_iff]
    have := a.isLt
    have := b.isLt
    omega
  have hle : ∀ a : Fin (k.val + 1), mode.sign * (finishArnoldi D eig (extra + n) extra t).1[k].1.re ≤ mode.sign * (finishPair D eig (extra + n) t ⟨extra + n - 1 - a.val, hidx a⟩).1.re := fun a => by
    have ha := a.isLt
    have h1 := hord ⟨a.val, by omega⟩ k (by rw [Fin.le_def]; exact Nat.lt_succ_iff.1 ha)
    rw [Fin.getElem_fin (i := ⟨a.val, _⟩), finish_get] at h1
    exact h1
  have main : ∃ e : Fin (k.val + 1) → Fin N, Function.Injective e ∧ ∀ a, mode.sign * (finishArnoldi D eig (extra + n) extra t).1[k].1.re ≤ mode.sign * mu (e a) := by
    generalize mode.sign * (finishArnoldi D eig (extra + n) extra t).1[k].1.re = c at hle
    cases mode with
    | largestReal =>
      obtain ⟨e, e1, e2⟩ := hb.separation _ _ _ c hw hf (fun a => by have := hle a; simp only [EigenMode.sign, one_mul] at this; exact this)
      exact ⟨e, e1, fun a => by simp only [EigenMode.sign, one_mul]; exact e2 a⟩
    | smallestReal =>
      have hf' : ∀ a b : Fin (k.val + 1), latticeDot (ritzVector eig (extra + n) t ⟨extra + n - 1 - a.val, hidx a⟩) ((-D) (ritzVector eig (extra + n) t ⟨extra + n - 1 - b.val, hidx b⟩))
          = if a = b then ((-(finishPair D eig (extra + n) t ⟨extra + n - 1 - b.val, hidx b⟩).1.re : ℝ) : ℂ) else 0 := fun a b => by
        have e : ∀ v w : SField S M, latticeDot v (-w) = -latticeDot v w := fun v w => by
          rw [← neg_one_smul ℂ w, latticeDot_smul]; ring
        rw [LinearMap.neg_apply, e, hf]
        split_ifs
        · rw [Complex.ofReal_neg]
        · exact neg_zero
      obtain ⟨e, e1, e2⟩ := hb.neg.separation _ _ _ c hw hf' (fun a => by have := hle a; simp only [EigenMode.sign, neg_one_mul] at this; exact this)
      exact ⟨e, e1, fun a => by simp only [EigenMode.sign, neg_one_mul]; exact e2 a⟩
    | largestImaginary => exact absurd hm id
    | smallestImaginary => exact absurd hm id
  obtain ⟨e, e1, e2⟩ := main
  exact ⟨fun a => u (e a), fun a => mu (e a), fun a b => (hb.orth _ _).trans (if_congr ⟨fun h => e1 h, fun h => congrArg e h⟩ rfl rfl), fun a => hb.eigen _, e2⟩

/-- The first value is the largest Ritz value. -/
private theorem first_value (hD : HermitianOp D) (hm : mode.IsReal) (he : eig.Correct) (ho : eig.Ordered) (hlow : ∀ v, -7 * latticeNorm2 v ≤ mode.sign * (latticeDot v (D v)).re) (hn : 1 ≤ n)
    {t : ArnoldiState S M} (ht : Full (modeLin D mode) (extra + n) t) (h0 : 0 < (finishArnoldi D eig (extra + n) extra t).1.length) (z : ℂ) (hz : (hMatrix (extra + n) t.H).charpoly.IsRoot z) :
    z.re ≤ mode.sign * (finishArnoldi D eig (extra + n) extra t).1[0].1.re + 7 := by
  rw [finish_get, pair_re hm he ht]
  obtain ⟨i, rfl⟩ := root_mem he _ z hz
  refine theta_ordered hm hD he ho hlow ht ?_
  rw [Fin.le_def]
  have := i.isLt
  simp only
  omega

/-- C74: no number of restarts loses what the first cycle had found: the first value is at least the expectation value of the operator in every combination of the
start vector and its first images under the operator. -/
theorem C74_krylov (hD : HermitianOp D) (hm : mode.IsReal) (he : eig.Correct) (ho : eig.Ordered) (hlow : ∀ v, -7 * latticeNorm2 v ≤ mode.sign * (latticeDot v (D v)).re) (hn : 1 ≤ n)
    (h : maximumEigenvalues (modeApply D mode) D eig n extra restarts epsilon start old = some r) (h0 : 0 < r.1.length) (c : Fin (extra + n) → ℂ) (w : SField S M)
    (hw : w = ∑ k : Fin (extra + n), c k • (D^[k.val]) start) : mode.sign * (latticeDot w (D w)).re ≤ mode.sign * r.1[0].1.re * latticeNorm2 w := by
  obtain ⟨s0, s, t, e0, e1, hs, ht, hr, hbel⟩ := run_mode he hn h
  subst hr
  have hA := modeLin_hermitian hm hD
  obtain ⟨a, ha⟩ := startArnoldi_vector e0
  have hV : s.V 0 = s0.V 0 :=
    (extendArnoldi_inv _ (startArnoldi_inv _ (extra + n) (by omega) start old s0 e0) (fun c hc => absurd hc (Nat.not_lt_zero c)) e1).2.2.2 0 le_rfl
  obtain ⟨y, hy⟩ := krylov_combine hm hs.1 start a (by rw [hV]; exact ha) c
  rw [← hw] at hy
  by_cases hy0 : y = 0
  · have : w = 0 := by rw [hy, hy0]; unfold combine; simp
    rw [this]
    simp [latticeDot, latticeNorm2]
  obtain ⟨z, hz, hle⟩ := hs.above hA y hy0
  obtain ⟨z', hz', hzz⟩ := hbel hA z hz
  have hfirst := first_value hD hm he ho hlow hn ht h0 z' hz'
  have hform := combine_form hs.1 y y
  have hnorm := combine_dot hs.1.orth y y
  rw [← hy] at hform hnorm
  have hn2 : latticeNorm2 w = (star y ⬝ᵥ y).re := by rw [← hnorm, latticeDot_self, Complex.ofReal_re]
  have hAw : (latticeDot w (modeLin D mode w)).re = mode.sign * (latticeDot w (D w)).re + 7 * latticeNorm2 w := by
    rw [modeLin_apply, latticeDot_add, latticeDot_smul, latticeDot_smul, latticeDot_self, (factor_sign hm).1, Complex.add_re, Complex.re_ofReal_mul]
    congr 1
    rw [show (7 : ℂ) = ((7 : ℝ) : ℂ) by norm_num, Complex.re_ofReal_mul, Complex.ofReal_re]
  have h1 : (latticeDot w (modeLin D mode w)).re ≤ z.re * latticeNorm2 w := by rw [hform, hn2]; exact hle
  have h2 := mul_le_mul_of_nonneg_right (hzz.trans hfirst) (latticeNorm2_nonneg' w)
  rw [hAw] at h1
  nlinarith [h1, h2]

/-- C74: with more restarts the first value does not move away from the end of the spectrum. -/
theorem C74_monotone (hD : HermitianOp D) (hm : mode.IsReal) (he : eig.Correct) (ho : eig.Ordered) (hlow : ∀ v, -7 * latticeNorm2 v ≤ mode.sign * (latticeDot v (D v)).re) (hn : 1 ≤ n)
    (more : ℕ) {r' : List (ℂ × SField S M) × ℝ} (h : maximumEigenvalues (modeApply D mode) D eig n extra restarts epsilon start old = some r)
    (h' : maximumEigenvalues (modeApply D mode) D eig n extra (restarts + more) epsilon start old = some r') (h0 : 0 < r.1.length) (h0' : 0 < r'.1.length) :
    mode.sign * r.1[0].1.re ≤ mode.sign * r'.1[0].1.re := by
  have hA := modeLin_hermitian hm hD
  unfold maximumEigenvalues at h h'
  obtain ⟨s0, e0, h⟩ := Option.bind_eq_some_iff.1 h
  obtain ⟨s, e1, h⟩ := Option.bind_eq_some_iff.1 h
  rw [e0, Option.bind_some, e1, Option.bind_some] at h'
  obtain ⟨t, t', ht, ht', hr, hr', hbel⟩ := eigenLoop_below (A := modeLin D mode) he hn hA more restarts s r r' (start_full hn e0 e1) h h'
  subst hr
  subst hr'
  have h1 : (hMatrix (extra + n) t.H).charpoly.IsRoot ((eig (extra + n) (hMatrix (extra + n) t.H)).1 ⟨extra + n - 1 - 0, by omega⟩) := mem_root he _ _
  obtain ⟨z', hz', hle⟩ := hbel _ h1
  have h2 := first_value hD hm he ho hlow hn ht' h0' z' hz'
  rw [← pair_re hm he ht] at hle
  have h3 := hle.trans h2
  rw [finish_get (k := 0) (hk := h0)]
  linarith

/-- C74: the smallest eigenvalues of a positive operator, found with an exact inverse and an ordering by modulus: norm one, real and positive values in rising order, and
value number `k` is never below the true one: `k + 1` orthonormal eigenvectors have eigenvalues that are at most as large. -/
theorem C74_minimum {G : SField S M →ₗ[ℂ] SField S M} (hD : HermitianOp D) (hpos : ∀ v, v ≠ 0 → 0 < (latticeDot v (D v)).re) (hG : ∀ v, D (G v) = v) (he : eig.Correct)
    (ho : eig.Ordered) (hn : 1 ≤ n) {l : List (ℂ × SField S M)} (h : minimumEigenvalues G eig n extra start old = some l) :
    l.length = n ∧ (∀ p ∈ l, latticeNorm2 p.2 = 1 ∧ p.1 * latticeDot p.2 (G p.2) = 1 ∧ p.1.im = 0 ∧ 0 < p.1.re) ∧
    (∀ i j : Fin l.length, latticeDot l[i].2 l[j].2 = if i = j then 1 else 0) ∧ (∀ i j : Fin l.length, i ≤ j → l[i].1.re ≤ l[j].1.re) ∧
    ∀ k : Fin l.length, ∃ (w : Fin (k.val + 1) → SField S M) (mu : Fin (k.val + 1) → ℝ), OrthonormalFields w ∧ (∀ a, D (w a) = (mu a : ℂ) • w a) ∧ ∀ a, mu a ≤ l[k].1.re := by
  -- the inverse is Hermitian and positive
  have hGh : ∀ v w, latticeDot v (G w) = latticeDot (G v) w := fun v w => by
    conv_lhs => rw [← hG v]
    conv_rhs => rw [← hG w]
    exact (hD _ _).symm
  have hGpos : ∀ v, v ≠ 0 → 0 < (latticeDot v (G v)).re := fun v hv => by
    have h1 : latticeDot v (G v) = latticeDot (G v) (D (G v)) := by rw [hD, hG]
    rw [h1]
    refine hpos _ fun h0 => hv ?_
    rw [← hG v, h0, map_zero]
  have hinj : ∀ v, D v = 0 → v = 0 := fun v hv => by
    by_contra h0
    have := hpos v h0
    rw [hv] at this
    simp [latticeDot] at this
  unfold minimumEigenvalues at h
  obtain ⟨s0, e0, h⟩ := Option.bind_eq_some_iff.1 h
  obtain ⟨t, e1, h⟩ := Option.bind_eq_some_iff.1 h
  have ht : Full G (extra + n) t := start_full hn e0 e1
  rw [Option.some.injEq] at h
  have hlen : l.length = n := by rw [← h]; simp
  have hget : ∀ k (hk : k < l.length), l[k] = (1 / (eig (extra + n) (hMatrix (extra + n) t.H)).1 ⟨extra + n - 1 - k, by omega⟩, ritzVector eig (extra + n) t ⟨extra + n - 1 - k, by omega⟩) := by
    intro k hk
    subst h
    simp [List.getElem_take, List.getElem_reverse]
  obtain ⟨theta, htheta⟩ : ∃ th : Fin (extra + n) → ℂ, th = (eig (extra + n) (hMatrix (extra + n) t.H)).1 := ⟨_, rfl⟩
  have hform : ∀ i j, latticeDot (ritzVector eig (extra + n) t i) (G (ritzVector eig (extra + n) t j)) = if i = j then theta j else 0 := fun i j => by
    rw [ritz_form he ht, ritz_orth he ht hGh, ← htheta]
    split_ifs
    · exact mul_one _
    · exact mul_zero _
  have hne : ∀ i, ritzVector eig (extra + n) t i ≠ 0 := fun i h0 => by
    have h1 := ritz_norm he ht i
    rw [h0] at h1
    simp [latticeNorm2] at h1
  have hth_im : ∀ i, (theta i).im = 0 := fun i => by
    rw [htheta]
    exact root_real (ht.hermitian hGh) (mem_root he _ i)
  have hth_pos : ∀ i, 0 < (theta i).re := fun i => by
    have h1 := hGpos _ (hne i)
    rw [hform, if_pos rfl] at h1
    exact h1
  have hth : ∀ i, theta i = (((theta i).re : ℝ) : ℂ) := fun i => Complex.ext rfl (hth_im i)
  have hmono : ∀ i j, i ≤ j → (theta i).re ≤ (theta j).re := fun i j hij => by
    have h1 := ho (extra + n) (hMatrix (extra + n) t.H) hij
    rw [← htheta] at h1
    simp only at h1
    rw [hth i, hth j, Complex.norm_real, Complex.norm_real, Real.norm_of_nonneg (hth_pos i).le, Real.norm_of_nonneg (hth_pos j).le] at h1
    exact h1
  have hval : ∀ k (hk : k < l.length), l[k].1 = (((1 / (theta ⟨extra + n - 1 - k, by omega⟩).re : ℝ)) : ℂ) := fun k hk => by
    rw [hget k hk, ← htheta]
    change 1 / theta _ = _
    rw [Complex.ofReal_div, Complex.ofReal_one, ← hth]
  refine ⟨hlen, fun p hp => ?_, fun i j => ?_, fun i j hij => ?_, fun k => ?_⟩
  · obtain ⟨k, hk, rfl⟩ := List.mem_iff_getElem.1 hp
    have hv := hval k hk
    have h2 : l[k].2 = ritzVector eig (extra + n) t ⟨extra + n - 1 - k, by omega⟩ := by rw [hget k hk]
    rw [hv, h2]
    refine ⟨ritz_norm he ht _, ?_, Complex.ofReal_im _, ?_⟩
    · rw [hform, if_pos rfl, Complex.ofReal_div, Complex.ofReal_one, ← hth]
      refine one_div_mul_cancel fun h0 => ?_
      have := hth_pos ⟨extra + n - 1 - k, by omega⟩
      rw [h0] at this
      exact lt_irrefl _ this
    · rw [Complex.ofReal_re]
      exact one_div_pos.2 (hth_pos _)
  · rw [Fin.getElem_fin, Fin.getElem_fin, hget, hget]
    refine (ritz_orth he ht hGh _ _).trans (if_congr ?_ rfl rfl)
    rw [Fin.mk.injEq, Fin.ext_iff]
    have := i.isLt
    have := j.isLt
    omega
  · rw [Fin.getElem_fin, Fin.getElem_fin, hval, hval, Complex.ofReal_re, Complex.ofReal_re]
    refine one_div_le_one_div_of_le (hth_pos _) (hmono _ _ ?_)
    have hij' : i.val ≤ j.val := hij
    rw [Fin.mk_le_mk]
    omega
  · obtain ⟨N, u, mu, hb⟩ := exists_eigenBasis G hGh
    have hk := k.isLt
    have hidx : ∀ a : Fin (k.val + 1), extra + n - 1 - a.val < extra + n := fun a => by omega
    obtain ⟨e, e1, e2⟩ := hb.separation (k.val + 1) (fun a => ritzVector eig (extra + n) t ⟨extra + n - 1 - a.val, hidx a⟩) (fun a => (theta ⟨extra + n - 1 - a.val, hidx a⟩).re)
      (theta ⟨extra + n - 1 - k.val, by omega⟩).re
      (fun a b => by
        refine (ritz_orth he ht hGh _ _).trans (if_congr ?_ rfl rfl)
        rw [Fin.mk.injEq, Fin.ext_iff]
        have := a.isLt
        have := b.isLt
        omega)
      (fun a b => by
        refine (hform _ _).trans ?_
        rw [hth]
        refine if_congr ?_ rfl rfl
        rw [Fin.mk.injEq, Fin.ext_iff]
        have := a.isLt
        have := b.isLt
        omega)
      (fun a => hmono _ _ (by rw [Fin.mk_le_mk]; have := a.isLt; omega))
    have hmu : ∀ a, 0 < mu (e a) := fun a => (hth_pos _).trans_le (e2 a)
    refine ⟨fun a => u (e a), fun a => 1 / mu (e a), fun a b => (hb.orth _ _).trans (if_congr ⟨fun h => e1 h, fun h => congrArg e h⟩ rfl rfl), fun a => ?_, fun a => ?_⟩
    · have h1 : u (e a) = (mu (e a) : ℂ) • D (u (e a)) := by rw [← map_smul, ← hb.eigen, hG]
      have h2 : (mu (e a) : ℂ) ≠ 0 := by exact_mod_cast (hmu a).ne'
      change D (u (e a)) = ((1 / mu (e a) : ℝ) : ℂ) • u (e a)
      conv_rhs => rw [h1]
      rw [smul_smul, Complex.ofReal_div, Complex.ofReal_one, one_div, inv_mul_cancel₀ h2, one_smul]
    · rw [Fin.getElem_fin, hval, Complex.ofReal_re]
      exact one_div_le_one_div_of_le (hth_pos _) (e2 a)

end

/-! ## Cases -/

/-- A start vector with components on the first and the third spin. -/
noncomputable def exStart : SField Unit 1 := fun _ => Matrix.of fun mu _ => if mu = 0 then 3 / 5 else if mu = 2 then 4 / 5 else 0

/-- A vector with all components. -/
noncomputable def exAll : SField Unit 1 := fun _ => Matrix.of fun _ _ => 1

private theorem exStart_norm : latticeNorm2 exStart = 1 := by
  rw [unitNorm, Fin.sum_univ_four]
  simp [exStart]
  norm_num

/-- The hypotheses of the theorems on `maximumEigenvalues` hold for a run with restarts: four different eigenvalues, all within the window, and a start vector that
overlaps with all eigenvectors. -/
example (mode : EigenMode) (hm : mode.IsReal) (epsilon : ℝ) (old : ℕ → SField Unit 1) : ∃ (eig : DenseSolver) (d : Fin 4 → ℝ) (r : List (ℂ × SField Unit 1) × ℝ),
    eig.Correct ∧ eig.Ordered ∧ HermitianOp (diagLin d) ∧ (∀ v, -7 * latticeNorm2 v ≤ mode.sign * (latticeDot v (diagLin d v)).re) ∧
    maximumEigenvalues (modeApply (diagLin d) mode) (diagLin d) eig 1 1 1 epsilon exAll old = some r := by
  obtain ⟨eig, he, ho⟩ := exists_denseSolver
  have hinj : Function.Injective fun mu : Fin 4 => ((mu.val : ℕ) : ℝ) := fun a b h => Fin.ext (Nat.cast_injective (R := ℝ) h)
  obtain ⟨r, hr⟩ := exists_run_restart hm hinj he epsilon exAll old (fun mu => one_ne_zero)
  refine ⟨eig, fun mu => ((mu.val : ℕ) : ℝ), r, he, ho, diagLin_hermitian _, fun v => ?_, hr⟩
  have hn := latticeNorm2_nonneg' v
  cases mode with
  | largestReal =>
    have h := diagLin_low (fun mu : Fin 4 => ((mu.val : ℕ) : ℝ)) 0 (fun mu => Nat.cast_nonneg _) v
    simp only [EigenMode.sign, one_mul]
    linarith
  | smallestReal =>
    have h := diagLin_low (fun mu : Fin 4 => -((mu.val : ℕ) : ℝ)) (-7) (fun mu => by
      have h1 : ((mu.val : ℕ) : ℝ) ≤ 7 := by exact_mod_cast (show mu.val ≤ 7 by omega)
      linarith) v
    have e : diagLin (fun mu : Fin 4 => -((mu.val : ℕ) : ℝ)) v = (-1 : ℂ) • diagLin (fun mu : Fin 4 => ((mu.val : ℕ) : ℝ)) v := by
      funext x
      ext mu c
      change ((-((mu.val : ℕ) : ℝ) : ℝ) : ℂ) * v x mu c = -1 * ((((mu.val : ℕ) : ℝ) : ℂ) * v x mu c)
      rw [Complex.ofReal_neg]
      ring
    rw [e, latticeDot_smul] at h
    simp only [EigenMode.sign]
    refine h.trans (le_of_eq ?_)
    rw [neg_one_mul, neg_one_mul, Complex.neg_re]
  | largestImaginary => exact absurd hm id
  | smallestImaginary => exact absurd hm id

/-- Runs with `restarts` and `restarts + more`, as in `C74_monotone` and `C74_stop`; with a large enough precision the first run has converged. -/
example (mode : EigenMode) (hm : mode.IsReal) (old : ℕ → SField Unit 1) (eig : DenseSolver) (he : eig.Correct) : ∃ (d : Fin 4 → ℝ) (epsilon : ℝ)
    (r r' : List (ℂ × SField Unit 1) × ℝ), maximumEigenvalues (modeApply (diagLin d) mode) (diagLin d) eig 1 1 0 epsilon exAll old = some r ∧
    maximumEigenvalues (modeApply (diagLin d) mode) (diagLin d) eig 1 1 (0 + 1) epsilon exAll old = some r' ∧ r'.2 < epsilon := by
  have hinj : Function.Injective fun mu : Fin 4 => ((mu.val : ℕ) : ℝ) := fun a b h => Fin.ext (Nat.cast_injective (R := ℝ) h)
  obtain ⟨r0, hr0⟩ := exists_run_restart hm hinj he 0 exAll old (fun mu => one_ne_zero)
  have key : ∀ epsilon r', maximumEigenvalues (modeApply (diagLin fun mu : Fin 4 => ((mu.val : ℕ) : ℝ)) mode) (diagLin fun mu : Fin 4 => ((mu.val : ℕ) : ℝ)) eig 1 1 (0 + 1) epsilon exAll old
      = some r' → r' = r0 := by
    intro epsilon r' h
    unfold maximumEigenvalues at h hr0
    obtain ⟨s1, e1, h⟩ := Option.bind_eq_some_iff.1 h
    obtain ⟨s2, e2, h⟩ := Option.bind_eq_some_iff.1 h
    rw [e1, Option.bind_some, e2, Option.bind_some] at hr0
    rw [eigenLoop] at h hr0
    obtain ⟨s3, e3, h⟩ := Option.bind_eq_some_iff.1 h
    obtain ⟨s4, e4, h⟩ := Option.bind_eq_some_iff.1 h
    rw [e3, Option.bind_some, e4, Option.bind_some] at hr0
    simp only [eigenLoop, ite_self, Option.some.injEq] at h hr0
    rw [← h, ← hr0]
  obtain ⟨r', hr'⟩ := exists_run_restart hm hinj he (r0.2 + 1) exAll old (fun mu => one_ne_zero)
  obtain ⟨r, hr⟩ := exists_run (d := fun mu : Fin 4 => ((mu.val : ℕ) : ℝ)) hm eig (n := 1) (extra := 1) rfl (r0.2 + 1) exAll old 0 1 (fun h => absurd (hinj h) (by decide)) one_ne_zero one_ne_zero
  exact ⟨_, r0.2 + 1, r, r', hr, hr', by rw [key _ _ hr']; linarith⟩

/-- The hypotheses of `C74_minimum`. -/
example (eig : DenseSolver) (old : ℕ → SField Unit 1) : ∃ (D G : SField Unit 1 →ₗ[ℂ] SField Unit 1) (l : List (ℂ × SField Unit 1)), HermitianOp D ∧
    (∀ v, v ≠ 0 → 0 < (latticeDot v (D v)).re) ∧ (∀ v, D (G v) = v) ∧ minimumEigenvalues G eig 1 0 exStart old = some l := by
  have h4 : ∀ mu : Fin 4, (((mu.val + 1 : ℕ) : ℝ) : ℂ) ≠ 0 := fun mu => by
    rw [Complex.ofReal_natCast]
    exact Nat.cast_ne_zero.2 (Nat.succ_ne_zero _)
  obtain ⟨s, hs⟩ := startArnoldi_some (diagLin fun mu => (((mu.val + 1 : ℕ) : ℝ))⁻¹) exStart old (fun h => by
    have h1 := exStart_norm
    rw [h] at h1
    simp [latticeNorm2] at h1)
  obtain ⟨l, hl⟩ : ∃ l, minimumEigenvalues (diagLin fun mu => (((mu.val + 1 : ℕ) : ℝ))⁻¹) eig 1 0 exStart old = some l := by
    unfold minimumEigenvalues
    rw [hs, Option.bind_some]
    exact ⟨_, rfl⟩
  refine ⟨diagLin fun mu => ((mu.val + 1 : ℕ) : ℝ), diagLin fun mu => (((mu.val + 1 : ℕ) : ℝ))⁻¹, l, diagLin_hermitian _, fun v hv => ?_, fun v => ?_, hl⟩
  · have h := diagLin_low (fun mu : Fin 4 => ((mu.val + 1 : ℕ) : ℝ)) 1 (fun mu => by exact_mod_cast Nat.succ_le_succ (Nat.zero_le _)) v
    rw [one_mul] at h
    exact ((latticeNorm2_nonneg' v).lt_of_ne fun h0 => hv (latticeNorm2_eq_zero h0.symm)).trans_le h
  · funext x
    ext mu c
    rw [diagLin_apply, diagLin_apply, Complex.ofReal_inv, ← mul_assoc, mul_inv_cancel₀ (h4 mu), one_mul]

/-- C74 fails without the condition on the spectrum: an operator with the eigenvalues -20 and 0, asked for the largest one with one extra vector, answers -20. Both are
found; the choice between them is made by the modulus of the shifted values -13 and 7. -/
theorem C74_order_counterexample : ∃ D : SField Unit 1 →ₗ[ℂ] SField Unit 1, HermitianOp D ∧ (∃ u, u ≠ 0 ∧ D u = 0) ∧ ∀ (eig : DenseSolver), eig.Correct → eig.Ordered →
    ∀ (epsilon : ℝ) (old : ℕ → SField Unit 1), ∃ r v, maximumEigenvalues (modeApply D .largestReal) D eig 1 1 0 epsilon exStart old = some r ∧ r.1 = [(-20, v)] := by
  obtain ⟨d, hd⟩ : ∃ d : Fin 4 → ℝ, d = fun mu => if mu = 0 ∨ mu = 1 then -20 else 0 := ⟨_, rfl⟩
  have hm : EigenMode.largestReal.IsReal := trivial
  have hw2 : diagLin d (∑ k : Fin 2, (![20, 1] k : ℂ) • ((diagLin d)^[k.val]) exStart) = 0 := by
    funext x
    ext mu c
    rw [Fin.sum_univ_two]
    change (d mu : ℂ) * (20 * exStart x mu c + 1 * ((d mu : ℂ) * exStart x mu c)) = 0
    rw [hd]
    fin_cases mu <;> simp [exStart]
  have hw2' : (∑ k : Fin 2, (![20, 1] k : ℂ) • ((diagLin d)^[k.val]) exStart) ≠ 0 := fun h0 => by
    have h1 := congrFun (congrFun (congrFun h0 ()) 2) 0
    rw [Fin.sum_univ_two] at h1
    change (20 * exStart () 2 0 + 1 * ((d 2 : ℂ) * exStart () 2 0)) = 0 at h1
    rw [hd] at h1
    simp [exStart] at h1
  have hw1 : diagLin d (∑ k : Fin 2, (![0, 1] k : ℂ) • ((diagLin d)^[k.val]) exStart) = (-20 : ℂ) • ∑ k : Fin 2, (![0, 1] k : ℂ) • ((diagLin d)^[k.val]) exStart := by
    funext x
    ext mu c
    rw [Fin.sum_univ_two]
    change (d mu : ℂ) * (0 * exStart x mu c + 1 * ((d mu : ℂ) * exStart x mu c)) = -20 * (0 * exStart x mu c + 1 * ((d mu : ℂ) * exStart x mu c))
    rw [hd]
    fin_cases mu <;> simp
  have hw1' : (∑ k : Fin 2, (![0, 1] k : ℂ) • ((diagLin d)^[k.val]) exStart) ≠ 0 := fun h0 => by
    have h1 := congrFun (congrFun (congrFun h0 ()) 0) 0
    rw [Fin.sum_univ_two] at h1
    change (0 * exStart () 0 0 + 1 * ((d 0 : ℂ) * exStart () 0 0)) = 0 at h1
    rw [hd] at h1
    simp [exStart] at h1
  refine ⟨diagLin d, diagLin_hermitian d, ⟨_, hw2', hw2⟩, fun eig he ho epsilon old => ?_⟩
  obtain ⟨r, hr⟩ := exists_run (d := d) hm eig (n := 1) (extra := 1) rfl epsilon exStart old 0 2 (by rw [hd]; simp) (by simp [exStart]) (by simp [exStart])
  refine ⟨r, ?_⟩
  have hr' := hr
  unfold maximumEigenvalues at hr'
  obtain ⟨s0, e0, hr'⟩ := Option.bind_eq_some_iff.1 hr'
  obtain ⟨t, e1, hr'⟩ := Option.bind_eq_some_iff.1 hr'
  have hr2 : r = finishArnoldi (diagLin d) eig (1 + 1) 1 t := (Option.some.inj hr').symm
  have ht : Full (modeLin (diagLin d) .largestReal) (1 + 1) t := start_full (n := 1) (extra := 1) le_rfl e0 e1
  obtain ⟨a, ha⟩ := startArnoldi_vector e0
  have hV : t.V 0 = s0.V 0 :=
    (extendArnoldi_inv (modeLin (diagLin d) .largestReal) (startArnoldi_inv (modeLin (diagLin d) .largestReal) (1 + 1) (by omega) exStart old s0 e0) (fun c hc => absurd hc (Nat.not_lt_zero c)) e1).2.2.2 0 le_rfl
  rw [← hV] at ha
  obtain ⟨y1, hy1⟩ := krylov_combine hm ht.1 exStart a ha ![0, 1]
  obtain ⟨y2, hy2⟩ := krylov_combine hm ht.1 exStart a ha ![20, 1]
  have hfac : EigenMode.largestReal.factor = 1 := rfl
  have r1 := eigen_root ht y1 (-13) (by
    rw [← hy1, modeLin_apply, hfac, one_smul]
    refine (congrArg (· + _) hw1).trans ?_
    rw [← add_smul, show (-20 : ℂ) + 7 = -13 by norm_num]) (by rw [← hy1]; exact hw1')
  have r2 := eigen_root ht y2 7 (by
    rw [← hy2, modeLin_apply, hfac, one_smul]
    refine (congrArg (· + _) hw2).trans ?_
    rw [zero_add]) (by rw [← hy2]; exact hw2')
  obtain ⟨i, hi⟩ := root_mem he _ _ r1
  obtain ⟨j, hj⟩ := root_mem he _ _ r2
  have hlast : (eig (1 + 1) (hMatrix (1 + 1) t.H)).1 1 = -13 := by
    by_cases hi1 : i = 1
    · rw [← hi1, hi]
    · exfalso
      have hi0 : i = 0 := by
        apply Fin.ext
        have := i.isLt
        have : i.val ≠ 1 := fun h => hi1 (Fin.ext h)
        change i.val = 0
        omega
      have hj1 : j = 1 := by
        by_contra hj1
        have hj0 : j = 0 := by
          apply Fin.ext
          have := j.isLt
          have : j.val ≠ 1 := fun h => hj1 (Fin.ext h)
          change j.val = 0
          omega
        rw [hj0] at hj
        rw [hi0, hj] at hi
        norm_num at hi
      rw [hi0] at hi
      rw [hj1] at hj
      have h1 := ho (1 + 1) (hMatrix (1 + 1) t.H) (show (0 : Fin (1 + 1)) ≤ 1 from Fin.zero_le _)
      simp only [hi, hj] at h1
      norm_num at h1
  have hlen := finish_length (eig := eig) (diagLin d) 1 1 t
  have h0 : 0 < (finishArnoldi (diagLin d) eig (1 + 1) 1 t).1.length := by rw [hlen]; exact one_pos
  have hval : (finishArnoldi (diagLin d) eig (1 + 1) 1 t).1[0].1 = -20 := by
    rw [finish_get]
    have h1 := pair_theta (mode := .largestReal) he ht 1
    rw [hlast, hfac, one_mul] at h1
    change (finishPair (diagLin d) eig (1 + 1) t 1).1 = -20
    linear_combination h1
  refine ⟨(finishArnoldi (diagLin d) eig (1 + 1) 1 t).1[0].2, hr, ?_⟩
  rw [hr2]
  refine List.ext_getElem (by rw [hlen]; rfl) fun k h1 h2 => ?_
  have hk : k = 0 := by rw [hlen] at h1; omega
  subst hk
  exact Prod.ext hval rfl

/-- C74 does not give degenerate eigenvalues with their multiplicity: the eigenvalue 1 is double, nothing is larger, and the largest two are asked for; one of the two values
returned is not 1. -/
theorem C74_degenerate_counterexample : ∃ D : SField Unit 1 →ₗ[ℂ] SField Unit 1, HermitianOp D ∧ (∃ u1 u2 : SField Unit 1, latticeNorm2 u1 = 1 ∧ latticeNorm2 u2 = 1 ∧
      latticeDot u1 u2 = 0 ∧ D u1 = u1 ∧ D u2 = u2) ∧ ∀ (eig : DenseSolver), eig.Correct → ∀ (epsilon : ℝ) (old : ℕ → SField Unit 1),
    ∃ r, maximumEigenvalues (modeApply D .largestReal) D eig 2 0 0 epsilon exStart old = some r ∧ r.1.length = 2 ∧ ∃ p ∈ r.1, p.1 ≠ 1 := by
  obtain ⟨d, hd⟩ : ∃ d : Fin 4 → ℝ, d = fun mu => if mu = 0 ∨ mu = 1 then 1 else 0 := ⟨_, rfl⟩
  have hm : EigenMode.largestReal.IsReal := trivial
  refine ⟨diagLin d, diagLin_hermitian d, ⟨fun _ => Matrix.of fun mu _ => if mu = 0 then 1 else 0, fun _ => Matrix.of fun mu _ => if mu = 1 then 1 else 0, ?_, ?_, ?_, ?_, ?_⟩,
    fun eig he epsilon old => ?_⟩
  · rw [unitNorm, Fin.sum_univ_four]; simp
  · rw [unitNorm, Fin.sum_univ_four]; simp
  · rw [unitDot, Fin.sum_univ_four]; simp
  · funext x; ext mu c; rw [diagLin_apply, hd]; fin_cases mu <;> simp
  · funext x; ext mu c; rw [diagLin_apply, hd]; fin_cases mu <;> simp
  · obtain ⟨r, hr⟩ := exists_run (d := d) hm eig (n := 2) (extra := 0) rfl epsilon exStart old 0 2 (by rw [hd]; simp) (by simp [exStart]) (by simp [exStart])
    have hlen := (C74_pairs he (by norm_num) hr).1
    obtain ⟨_, _, hinj⟩ := C74_orthonormal (diagLin_hermitian d) hm he (by norm_num) hr
    refine ⟨r, hr, hlen, ?_⟩
    by_contra hall
    push Not at hall
    have h0 : 0 < r.1.length := by omega
    have h1 : 1 < r.1.length := by omega
    have h2 := hinj (show r.1[(⟨0, h0⟩ : Fin r.1.length)].1 = r.1[(⟨1, h1⟩ : Fin r.1.length)].1 from
      (hall _ (List.getElem_mem _)).trans (hall _ (List.getElem_mem _)).symm)
    exact absurd (congrArg Fin.val h2) (by norm_num)

/-- The only vector of a run with one vector. -/
private theorem one_vector {S : Type} [Fintype S] {M : ℕ} {A : SField S M →ₗ[ℂ] SField S M} {eig : DenseSolver} (he : eig.Correct) {t : ArnoldiState S M} (ht : Full A (0 + 1) t) (i : Fin (0 + 1)) :
    ∃ y : ℂ, starRingEnd ℂ y * y = 1 ∧ ritzVector eig (0 + 1) t i = y • t.V 0 := by
  refine ⟨(eig (0 + 1) (hMatrix (0 + 1) t.H)).2 0 i, ?_, ?_⟩
  · have h := he.norm (0 + 1) (hMatrix (0 + 1) t.H) i
    rw [Fin.sum_univ_one] at h
    rw [← Complex.normSq_eq_conj_mul_self, Complex.normSq_eq_norm_sq, h, Complex.ofReal_one]
  · exact Fin.sum_univ_one _

/-- C74: an unconverged result is returned like any other. Without extra vectors the value does not move whatever the number of restarts and the precision; here it
is 9/25 although all eigenvalues are 0 and 1. -/
theorem C74_unconverged_counterexample : ∃ D : SField Unit 1 →ₗ[ℂ] SField Unit 1, HermitianOp D ∧ (∀ (z : ℂ) (u : SField Unit 1), u ≠ 0 → D u = z • u → z = 0 ∨ z = 1) ∧
    ∀ (eig : DenseSolver), eig.Correct → ∀ (restarts : ℕ) (epsilon : ℝ) (old : ℕ → SField Unit 1),
    ∃ r v, maximumEigenvalues (modeApply D .largestReal) D eig 1 0 restarts epsilon exStart old = some r ∧ r.1 = [(9 / 25, v)] := by
  obtain ⟨d, hd⟩ : ∃ d : Fin 4 → ℝ, d = fun mu => if mu = 0 ∨ mu = 1 then 1 else 0 := ⟨_, rfl⟩
  refine ⟨diagLin d, diagLin_hermitian d, fun z u hu h => ?_, fun eig he restarts epsilon old => ?_⟩
  · have hex : ∃ mu, u () mu 0 ≠ 0 := by
      by_contra hall
      push Not at hall
      apply hu
      funext x
      ext mu c
      rw [Subsingleton.elim x (), Subsingleton.elim c 0]
      exact hall mu
    obtain ⟨mu, hmu⟩ := hex
    have h1 := congrFun (congrFun (congrFun h ()) mu) 0
    rw [diagLin_apply] at h1
    have h2 : (d mu : ℂ) = z := mul_right_cancel₀ hmu h1
    rw [← h2, hd]
    by_cases hc : mu = 0 ∨ mu = 1
    · right; simp [hc]
    · left; simp [hc]
  · obtain ⟨t, e0⟩ := startArnoldi_some (modeLin (diagLin d) .largestReal) exStart old (fun h => by
      have h1 := exStart_norm
      rw [h] at h1
      simp [latticeNorm2] at h1)
    have e1 : extendArnoldi (modeLin (diagLin d) .largestReal) 0 (0 + 1) t = some t := rfl
    have ht : Full (modeLin (diagLin d) .largestReal) (0 + 1) t := start_full (n := 1) (extra := 0) le_rfl e0 e1
    have hloop : ∀ m, eigenLoop (modeApply (diagLin d) .largestReal) (diagLin d) eig 1 0 epsilon m t = some (finishArnoldi (diagLin d) eig (0 + 1) 0 t) := by
      intro m
      induction m with
      | zero => rfl
      | succ m ih =>
        rw [eigenLoop]
        change (if (finishArnoldi (diagLin d) eig (0 + 1) 0 t).2 < epsilon then some (finishArnoldi (diagLin d) eig (0 + 1) 0 t)
          else eigenLoop (modeApply (diagLin d) .largestReal) (diagLin d) eig 1 0 epsilon m t) = _
        rw [ih, ite_self]
    have hlen := finish_length (eig := eig) (diagLin d) 1 0 t
    have h0 : 0 < (finishArnoldi (diagLin d) eig (0 + 1) 0 t).1.length := by rw [hlen]; exact one_pos
    have hval : (finishArnoldi (diagLin d) eig (0 + 1) 0 t).1[0].1 = 9 / 25 := by
      rw [finish_get, finishPair_value he ht]
      obtain ⟨y, hy, hv⟩ := one_vector he ht ⟨0 + 1 - 1 - 0, by omega⟩
      obtain ⟨a, ha⟩ := startArnoldi_vector e0
      rw [hv, map_smul, latticeDot_smul, latticeDot_smul_left]
      have hn := exStart_norm
      have h1 := latticeDot_self exStart
      rw [hn, ha, latticeDot_smul, latticeDot_smul_left, ht.1.orth 0 0 (Nat.zero_le _) (Nat.zero_le _), if_pos rfl] at h1
      have h2 : latticeDot exStart (diagLin d exStart) = 9 / 25 := by
        rw [unitDot, Fin.sum_univ_four]
        simp only [diagLin_apply, hd]
        have hc : starRingEnd ℂ (3 / 5) = 3 / 5 := by rw [show (3 / 5 : ℂ) = ((3 / 5 : ℝ) : ℂ) by norm_num, Complex.conj_ofReal]
        have h3 : exStart () 0 0 = 3 / 5 := rfl
        have h4 : exStart () 1 0 = 0 := rfl
        rw [h3, h4, hc]
        simp
        norm_num
      rw [ha, map_smul, latticeDot_smul, latticeDot_smul_left] at h2
      rw [Complex.ofReal_one] at h1
      generalize latticeDot (t.V 0) (diagLin d (t.V 0)) = q at h2 ⊢
      linear_combination h2 - q * h1 + q * hy
    refine ⟨finishArnoldi (diagLin d) eig (0 + 1) 0 t, (finishArnoldi (diagLin d) eig (0 + 1) 0 t).1[0].2, ?_, ?_⟩
    · change (startArnoldi (modeLin (diagLin d) .largestReal) exStart old).bind _ = _
      rw [e0, Option.bind_some]
      change (extendArnoldi (modeLin (diagLin d) .largestReal) 0 (0 + 1) t).bind _ = _
      rw [e1, Option.bind_some]
      exact hloop restarts
    · refine List.ext_getElem (by rw [hlen]; rfl) fun k h1 h2 => ?_
      have hk : k = 0 := by rw [hlen] at h1; omega
      subst hk
      exact Prod.ext hval rfl

/-! ## The operator without gamma5 -/

/-- C74: an exact eigenpair of the operator used for the smallest eigenvalues of a Wilson operator without gamma5 gives an eigenpair of that operator, with the inverse
eigenvalue, after multiplication of the vector with gamma5. -/
theorem C74_nonhermitian {S : Type} {M : ℕ} (Q : SField S M →ₗ[ℂ] SField S M) (solveSquare : SField S M → SField S M) (hsolve : ∀ v, Q (Q (solveSquare v)) = v) (z : ℂ) (hz : z ≠ 0)
    (v : SField S M) (h : nonHermitianApply Q solveSquare v = z • v) : gamma5Field (Q (gamma5Field v)) = (1 / z) • gamma5Field v := by
  have h1 : Q (solveSquare v) = z • gamma5Field v := by
    rw [← gamma5Field_gamma5Field (Q (solveSquare v)), ← gamma5Field_smul, ← h]
    rfl
  have h2 := hsolve v
  rw [h1, map_smul] at h2
  have h3 : Q (gamma5Field v) = (1 / z) • v := by
    conv_rhs => rw [← h2]
    rw [smul_smul, one_div, inv_mul_cancel₀ hz, one_smul]
  rw [h3, gamma5Field_smul]

/-- The operator of the case below: its inverse and itself on the first and third spin. -/
noncomputable def exQ (a b c : ℝ) : SField Unit 1 →ₗ[ℂ] SField Unit 1 where
  toFun v := fun x => Matrix.of fun mu k => if mu = 0 then (a : ℂ) * v x 0 k + b * v x 2 k else if mu = 2 then (b : ℂ) * v x 0 k + c * v x 2 k else v x mu k
  map_add' v w := by
    funext x
    ext mu k
    simp only [Pi.add_apply, Matrix.add_apply, Matrix.of_apply]
    split_ifs <;> ring
  map_smul' z v := by
    funext x
    ext mu k
    simp only [Pi.smul_apply, Matrix.smul_apply, Matrix.of_apply, smul_eq_mul, RingHom.id_apply]
    split_ifs <;> ring

theorem exQ_apply (a b c : ℝ) (v : SField Unit 1) (x : Unit) (mu : Fin 4) (k : Fin 1) :
    exQ a b c v x mu k = if mu = 0 then (a : ℂ) * v x 0 k + b * v x 2 k else if mu = 2 then (b : ℂ) * v x 0 k + c * v x 2 k else v x mu k := rfl

theorem exQ_inverse (a b c a' b' c' : ℝ) (h1 : a * a' + b * b' = 1) (h2 : a * b' + b * c' = 0) (h3 : b * a' + c * b' = 0) (h4 : b * b' + c * c' = 1) (v : SField Unit 1) :
    exQ a b c (exQ a' b' c' v) = v := by
  have k1 : (a * a' + b * b' : ℂ) = 1 := by exact_mod_cast h1
  have k2 : (a * b' + b * c' : ℂ) = 0 := by exact_mod_cast h2
  have k3 : (b * a' + c * b' : ℂ) = 0 := by exact_mod_cast h3
  have k4 : (b * b' + c * c' : ℂ) = 1 := by exact_mod_cast h4
  have n20 : (2 : Fin 4) ≠ 0 := by decide
  funext x
  ext mu k
  rw [exQ_apply]
  simp only [exQ_apply, if_true, if_neg n20]
  by_cases m0 : mu = 0
  · subst m0
    rw [if_pos rfl]
    linear_combination v x 0 k * k1 + v x 2 k * k2
  · by_cases m2 : mu = 2
    · subst m2
      rw [if_neg n20, if_pos rfl]
      linear_combination v x 0 k * k3 + v x 2 k * k4
    · rw [if_neg m0, if_neg m2, if_neg m0, if_neg m2]

theorem exQ_hermitian (a b c : ℝ) : HermitianOp (exQ a b c) := fun v w => by
  rw [unitDot, unitDot, Fin.sum_univ_four, Fin.sum_univ_four]
  simp only [exQ_apply]
  simp
  ring

/-- The start vector of the case below. -/
noncomputable def exStart5 : SField Unit 1 := fun _ => Matrix.of fun mu _ => if mu = 0 then 4 / 5 else if mu = 2 then -(3 / 5) else 0

/-- C74 fails for the smallest eigenvalues of an operator without gamma5: even for an exact solver and a start vector that is already an eigenvector of the operator in
use, the returned pair is not an eigenpair of the operator that was asked about. -/
theorem C74_nonhermitian_counterexample : ∃ (Q : SField Unit 1 →ₗ[ℂ] SField Unit 1) (solveSquare : SField Unit 1 → SField Unit 1) (start : SField Unit 1), HermitianOp Q ∧
    (∀ v, Q (Q (solveSquare v)) = v) ∧ ∀ (eig : DenseSolver), eig.Correct → ∀ old : ℕ → SField Unit 1, ∃ v, minimumEigenvalues (nonHermitianApply Q solveSquare) eig 1 0 start old
      = some [(1, v)] ∧ latticeNorm2 v = 1 ∧ nonHermitianApply Q solveSquare v = v ∧ gamma5Field (Q v) ≠ v := by
  obtain ⟨Q, hQ⟩ : ∃ Q, Q = exQ (-8) 12 (-17) := ⟨_, rfl⟩
  obtain ⟨P, hP⟩ : ∃ P, P = exQ (17 / 8) (3 / 2) 1 := ⟨_, rfl⟩
  have hQP : ∀ v, Q (P v) = v := fun v => by
    rw [hQ, hP]
    exact exQ_inverse _ _ _ _ _ _ (by norm_num) (by norm_num) (by norm_num) (by norm_num) v
  have hg : ∀ (v : SField Unit 1) (mu : Fin 4), gamma5Field v () mu 0 = if mu = 0 ∨ mu = 1 then v () mu 0 else -v () mu 0 := fun v mu => by
    change (tabGamma5 * v ()) mu 0 = _
    rw [tabGamma5_eq, Matrix.mul_apply, Fin.sum_univ_four]
    fin_cases mu <;> simp
  have hext : ∀ v w : SField Unit 1, (∀ mu, v () mu 0 = w () mu 0) → v = w := fun v w h => by
    funext x
    ext mu c
    rw [Subsingleton.elim x (), Subsingleton.elim c 0]
    exact h mu
  have hfix : gamma5Field (P exStart5) = exStart5 := by
    refine hext _ _ fun mu => ?_
    rw [hg, hP, exQ_apply]
    fin_cases mu <;> simp [exStart5] <;> norm_num
  have hbad : ∀ y : ℂ, y ≠ 0 → gamma5Field (Q (y • exStart5)) ≠ y • exStart5 := fun y hy h => by
    rw [map_smul, gamma5Field_smul] at h
    have h1 := congrFun (congrFun (congrFun h ()) 0) 0
    change y * gamma5Field (Q exStart5) () 0 0 = y * exStart5 () 0 0 at h1
    have h2 := mul_left_cancel₀ hy h1
    rw [hg, hQ, exQ_apply] at h2
    simp [exStart5] at h2
    norm_num at h2
  obtain ⟨A, hA⟩ : ∃ A : SField Unit 1 →ₗ[ℂ] SField Unit 1, ∀ v, A v = gamma5Field (P v) :=
    ⟨{ toFun := fun v => gamma5Field (P v), map_add' := fun v w => by rw [map_add, gamma5Field_add], map_smul' := fun c v => by rw [map_smul, gamma5Field_smul]; rfl }, fun v => rfl⟩
  have happly : nonHermitianApply Q (fun v => P (P v)) = A := by
    funext v
    rw [hA]
    unfold nonHermitianApply
    rw [hQP]
  have hAs : A exStart5 = exStart5 := by rw [hA, hfix]
  refine ⟨Q, fun v => P (P v), exStart5, by rw [hQ]; exact exQ_hermitian _ _ _, fun v => by rw [hQP, hQP], fun eig he old => ?_⟩
  rw [happly]
  obtain ⟨t, e0⟩ := startArnoldi_some A exStart5 old (fun h => by
    have h1 := congrFun (congrFun (congrFun h ()) 0) 0
    simp [exStart5] at h1)
  have e1 : extendArnoldi A 0 (0 + 1) t = some t := rfl
  have ht : Full A (0 + 1) t := start_full (n := 1) (extra := 0) le_rfl e0 e1
  obtain ⟨a, ha⟩ := startArnoldi_vector e0
  have ha0 : a ≠ 0 := fun h => by
    rw [h, zero_smul] at ha
    have h1 := congrFun (congrFun (congrFun ha ()) 0) 0
    simp [exStart5] at h1
  have hV : t.V 0 = a⁻¹ • exStart5 := by rw [ha, smul_smul, inv_mul_cancel₀ ha0, one_smul]
  obtain ⟨y, hy, hv⟩ := one_vector he ht 0
  have hy0 : y ≠ 0 := fun h => by rw [h] at hy; simp at hy
  have hv' : ritzVector eig (0 + 1) t 0 = (y * a⁻¹) • exStart5 := by rw [hv, hV, smul_smul]
  have hAv : A (ritzVector eig (0 + 1) t 0) = ritzVector eig (0 + 1) t 0 := by rw [hv', map_smul, hAs]
  have hnorm := ritz_norm he ht 0
  have htheta : (eig (0 + 1) (hMatrix (0 + 1) t.H)).1 0 = 1 := by
    have h1 := ritz_form he ht 0 0
    rw [hAv, latticeDot_self, hnorm, Complex.ofReal_one, mul_one] at h1
    exact h1.symm
  refine ⟨ritzVector eig (0 + 1) t 0, ?_, hnorm, hAv, ?_⟩
  · unfold minimumEigenvalues
    rw [e0, Option.bind_some]
    change some [(1 / (eig (0 + 1) (hMatrix (0 + 1) t.H)).1 0, ritzVector eig (0 + 1) t 0)] = _
    rw [htheta, one_div_one]
  · rw [hv']
    exact hbad _ (mul_ne_zero hy0 (inv_ne_zero ha0))

/-- The hypotheses of `C74_nonhermitian`. -/
example : ∃ (Q : SField Unit 1 →ₗ[ℂ] SField Unit 1) (solveSquare : SField Unit 1 → SField Unit 1) (v : SField Unit 1), v ≠ 0 ∧ (∀ w, Q (Q (solveSquare w)) = w) ∧
    nonHermitianApply Q solveSquare v = (1 : ℂ) • v := by
  obtain ⟨Q, s, start, _, h2, h3⟩ := C74_nonhermitian_counterexample
  obtain ⟨eig, he, _⟩ := exists_denseSolver
  obtain ⟨v, _, h4, h5, _⟩ := h3 eig he (fun _ => 0)
  refine ⟨Q, s, v, fun h => ?_, h2, by rw [one_smul]; exact h5⟩
  rw [h] at h4
  simp [latticeNorm2] at h4

end Leonard
