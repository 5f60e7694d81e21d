import Verif.Chebeigen.Filter

/-!
# C89: eigenvalues with Chebyshev acceleration
-/

set_option autoImplicit false

namespace Leonard

open Matrix Polynomial

section

variable {S : Type} [Fintype S] {M : ℕ} {D : SField S M →ₗ[ℂ] SField S M} {a b : ℝ} {order : ℕ} {eig : DenseSolver} {n extra restarts : ℕ} {epsilon : ℝ} {random : SField S M}
  {old : ℕ → SField S M} {r : List (ℂ × SField S M) × ℝ}

private theorem run_cheb (he : eig.Correct) (hn : 1 ≤ n) (h : chebyshevEigenvalues D a b order eig n extra restarts epsilon random old = some r) :
    a ≠ b ∧ ∃ t, Full (filterOp D a b order) (extra + n) t ∧ r = finishArnoldi D eig (extra + n) extra t := by
  have hab : a ≠ b := fun h0 => by
    unfold chebyshevEigenvalues at h
    rw [((C39_defined a b order 0 D random).2).2 h0] at h
    cases h
  refine ⟨hab, ?_⟩
  unfold chebyshevEigenvalues at h
  obtain ⟨start, _, h⟩ := Option.bind_eq_some_iff.1 h
  rw [chebyshevApply_eq D hab] at h
  obtain ⟨_, _, t, _, _, _, ht, hr, _⟩ := run_full (A := filterOp D a b order) he hn h
  exact ⟨t, ht, hr⟩

/-- C89: the accelerated run also returns as many pairs as asked for, and they belong to the operator itself and not to the polynomial: each vector has norm one, each value
is the expectation value of the operator in its vector, and the deviation bounds the residual of every pair. -/
theorem C89_pairs (he : eig.Correct) (hn : 1 ≤ n) (h : chebyshevEigenvalues D a b order eig n extra restarts epsilon random old = some r) :
    r.1.length = n ∧ ∀ p ∈ r.1, latticeNorm2 p.2 = 1 ∧ p.1 = latticeDot p.2 (D p.2) ∧ ∑ x, ∑ mu, ∑ c, ‖D p.2 x mu c - p.1 * p.2 x mu c‖ ≤ r.2 := by
  obtain ⟨_, t, ht, hr⟩ := run_cheb he hn h
  subst hr
  refine ⟨finish_length D n extra t, fun p hp => ?_⟩
  have h3 := finish_deviation D n extra t p hp
  obtain ⟨k, hk, rfl⟩ := List.mem_iff_getElem.1 hp
  rw [finish_get] at h3 ⊢
  exact ⟨ritz_norm he ht _, finishPair_value he ht _, h3⟩

/-- C89: for a Hermitian operator the vectors are orthonormal, the values are real, and each is within the deviation of an exact eigenvalue. -/
theorem C89_hermitian (hD : HermitianOp D) (he : eig.Correct) (hn : 1 ≤ n) (h : chebyshevEigenvalues D a b order eig n extra restarts epsilon random old = some r) :
    (∀ i j : Fin r.1.length, latticeDot r.1[i].2 r.1[j].2 = if i = j then 1 else 0) ∧ (∀ p ∈ r.1, p.1.im = 0) ∧
    ∀ p ∈ r.1, ∃ (mu : ℝ) (u : SField S M), u ≠ 0 ∧ D u = (mu : ℂ) • u ∧ ‖(mu : ℂ) - p.1‖ ≤ r.2 := by
  have hpairs := (C89_pairs he hn h).2
  obtain ⟨_, t, ht, hr⟩ := run_cheb he hn h
  have him : ∀ p ∈ r.1, p.1.im = 0 := fun p hp => by
    rw [(hpairs p hp).2.1]
    have h1 := latticeDot_conj p.2 (D p.2)
    rw [← hD p.2 p.2] at h1
    exact Complex.conj_eq_iff_im.1 h1
  refine ⟨fun i j => ?_, him, fun p hp => ?_⟩
  · subst hr
    have hlen := finish_length (eig := eig) D n extra t
    rw [Fin.getElem_fin, Fin.getElem_fin, finish_get, finish_get]
    refine (ritz_orth he ht (filterOp_hermitian hD) _ _).trans (if_congr ?_ rfl rfl)
    rw [Fin.mk.injEq, Fin.ext_iff]
    have := i.isLt
    have := j.isLt
    omega
  · obtain ⟨h1, h2, h3⟩ := hpairs p hp
    have h4 := him p hp
    obtain ⟨N, u, mu, hb⟩ := exists_eigenBasis D hD
    have hp0 : p.2 ≠ 0 := fun h0 => by
      rw [h0] at h1
      simp [latticeNorm2] at h1
    have hre : p.1 = ((p.1.re : ℝ) : ℂ) := Complex.ext rfl h4
    obtain ⟨i, hi⟩ := hb.near hD p.1.re p.2 hp0
    refine ⟨mu i, u i, fun h0 => ?_, hb.eigen i, ?_⟩
    · have h5 := hb.orth i i
      rw [if_pos rfl, h0] at h5
      simp [latticeDot] at h5
    · have hf : fieldNorm p.2 = 1 := by
        rw [← Real.sqrt_one, ← h1, ← fieldNorm_sq, Real.sqrt_sq (show 0 ≤ fieldNorm p.2 from Real.sqrt_nonneg _)]
      rw [hf, mul_one, ← hre] at hi
      rw [hre, ← Complex.ofReal_sub, Complex.norm_real, Real.norm_eq_abs]
      exact hi.trans ((fieldNorm_le_l1 _).trans h3)

/-- C89: with an odd order and a dense solver that orders by modulus, a vector in which the filter has an expectation value above one stands behind none with a smaller
one, and it is not a chance result: if it is number `k`, the operator has `k + 1` orthonormal eigenvectors outside the interval whose filter value is at least as large. -/
theorem C89_bound (hD : HermitianOp D) (he : eig.Correct) (ho : eig.Ordered) (hab : a < b) (hodd : Odd order) (hn : 1 ≤ n)
    (h : chebyshevEigenvalues D a b order eig n extra restarts epsilon random old = some r) (k : Fin r.1.length)
    (hk : 1 < (latticeDot r.1[k].2 (filterOp D a b order r.1[k].2)).re) :
    (∀ i ≤ k, (latticeDot r.1[k].2 (filterOp D a b order r.1[k].2)).re ≤ (latticeDot r.1[i].2 (filterOp D a b order r.1[i].2)).re) ∧
    ∃ (w : Fin (k.val + 1) → SField S M) (mu : Fin (k.val + 1) → ℝ), OrthonormalFields w ∧ (∀ i, D (w i) = (mu i : ℂ) • w i) ∧ (∀ i, mu i < a ∨ b < mu i) ∧
      ∀ i, (latticeDot r.1[k].2 (filterOp D a b order r.1[k].2)).re ≤ filterValue a b order (mu i) := by
  obtain ⟨hne, t, ht, hr⟩ := run_cheb he hn h
  subst hr
  have hlen := finish_length (eig := eig) D n extra t
  have hA := filterOp_hermitian (a := a) (b := b) (order := order) hD
  obtain ⟨N, u, mu, hb⟩ := exists_eigenBasis D hD
  have hbF := filterBasis (order := order) hne hb
  obtain ⟨theta, htheta⟩ : ∃ th : Fin (extra + n) → ℂ, th = (eig (extra + n) (hMatrix (extra + n) t.H)).1 := ⟨_, rfl⟩
  have hform : ∀ i j, latticeDot (ritzVector eig (extra + n) t i) (filterOp D a b order (ritzVector eig (extra + n) t j)) = if i = j then theta j else 0 := fun i j => by
    rw [ritz_form he ht, ritz_orth he ht hA, ← htheta]
    split_ifs
    · exact mul_one _
    · exact mul_zero _
  have him : ∀ i, theta i = (((theta i).re : ℝ) : ℂ) := fun i => Complex.ext rfl (by
    rw [htheta]
    exact root_real (ht.hermitian hA) (mem_root he _ i))
  have hge : ∀ i, -1 ≤ (theta i).re := fun i => by
    have h1 := hform i i
    rw [if_pos rfl, hbF.form] at h1
    rw [← h1, Complex.ofReal_re]
    have h2 := hbF.norm (ritzVector eig (extra + n) t i)
    rw [ritz_norm he ht] at h2
    rw [h2, ← Finset.sum_neg_distrib]
    refine Finset.sum_le_sum fun j _ => ?_
    have h3 := filter_ge (a := a) (b := b) hodd (mu j)
    nlinarith [sq_nonneg ‖latticeDot (u j) (ritzVector eig (extra + n) t i)‖]
  have hvec : ∀ i : Fin (finishArnoldi D eig (extra + n) extra t).1.length, (latticeDot (finishArnoldi D eig (extra + n) extra t).1[i].2
      (filterOp D a b order (finishArnoldi D eig (extra + n) extra t).1[i].2)).re = (theta ⟨extra + n - 1 - i.val, by omega⟩).re := fun i => by
    rw [Fin.getElem_fin, finish_get]
    change (latticeDot (ritzVector eig (extra + n) t _) (filterOp D a b order (ritzVector eig (extra + n) t _))).re = _
    rw [hform, if_pos rfl]
  have hkl := k.isLt
  rw [hvec] at hk
  have hord : ∀ i : Fin (finishArnoldi D eig (extra + n) extra t).1.length, i ≤ k → (theta ⟨extra + n - 1 - k.val, by omega⟩).re ≤ (theta ⟨extra + n - 1 - i.val, by omega⟩).re := fun i hi => by
    have h1 := ho (extra + n) (hMatrix (extra + n) t.H) (show (⟨extra + n - 1 - k.val, by omega⟩ : Fin (extra + n)) ≤ ⟨extra + n - 1 - i.val, by omega⟩ by
      rw [Fin.mk_le_mk]
      have : i.val ≤ k.val := hi
      omega)
    rw [← htheta] at h1
    simp only at h1
    rw [him, him ⟨extra + n - 1 - i.val, _⟩, Complex.norm_real, Complex.norm_real, Real.norm_eq_abs, Real.norm_eq_abs, abs_of_pos (by linarith)] at h1
    rcases abs_cases (theta ⟨extra + n - 1 - i.val, by omega⟩).re with ⟨h2, _⟩ | ⟨h2, _⟩
    · rw [h2] at h1
      exact h1
    · rw [h2] at h1
      have := hge ⟨extra + n - 1 - i.val, by omega⟩
      linarith
  refine ⟨fun i hi => by rw [hvec, hvec]; exact hord i hi, ?_⟩
  have hidx : ∀ i : Fin (k.val + 1), extra + n - 1 - i.val < extra + n := fun i => by omega
  have hinj : ∀ i j : Fin (k.val + 1), ((⟨extra + n - 1 - i.val, hidx i⟩ : Fin (extra + n)) = ⟨extra + n - 1 - j.val, hidx j⟩) ↔ i = j := fun i j => by
    rw [Fin.mk.injEq, Fin.ext_iff]
    have := i.isLt
    have := j.isLt
    omega
  obtain ⟨e, e1, e2⟩ := hbF.separation (k.val + 1) (fun i => ritzVector eig (extra + n) t ⟨extra + n - 1 - i.val, hidx i⟩) (fun i => (theta ⟨extra + n - 1 - i.val, hidx i⟩).re)
    (theta ⟨extra + n - 1 - k.val, by omega⟩).re (fun i j => (ritz_orth he ht hA _ _).trans (if_congr (hinj i j) rfl rfl))
    (fun i j => by
      rw [hform]
      refine if_congr (hinj i j) (him _) rfl)
    (fun i => hord ⟨i.val, by have := i.isLt; omega⟩ (by rw [Fin.le_def]; exact Nat.lt_succ_iff.1 i.isLt))
  refine ⟨fun i => u (e i), fun i => mu (e i), fun i j => (hb.orth _ _).trans (if_congr ⟨fun h => e1 h, fun h => congrArg e h⟩ rfl rfl), fun i => hb.eigen _, fun i => ?_,
    fun i => by rw [hvec]; exact e2 i⟩
  by_contra hc
  push Not at hc
  have h1 := (abs_le.1 (filter_inside (order := order) hab hc.1 hc.2)).2
  have h2 := e2 i
  linarith

/-- C89: a converged run of odd order gives the smallest eigenvalues. If no eigenvalue is above the interval, a value below the interval stands behind none that is larger,
and if it is number `k`, the operator has `k + 1` orthonormal eigenvectors with eigenvalues that are at most as large. -/
theorem C89_smallest (hD : HermitianOp D) (he : eig.Correct) (ho : eig.Ordered) (hab : a < b) (hodd : Odd order) (hup : ∀ v, (latticeDot v (D v)).re ≤ b * latticeNorm2 v) (hn : 1 ≤ n)
    (h : chebyshevEigenvalues D a b order eig n extra restarts epsilon random old = some r) (hconv : r.2 = 0) (k : Fin r.1.length) (hk : r.1[k].1.re < a) :
    (∀ i ≤ k, r.1[i].1.re ≤ r.1[k].1.re) ∧
    ∃ (w : Fin (k.val + 1) → SField S M) (mu : Fin (k.val + 1) → ℝ), OrthonormalFields w ∧ (∀ i, D (w i) = (mu i : ℂ) • w i) ∧ ∀ i, mu i ≤ r.1[k].1.re := by
  have hpairs := (C89_pairs he hn h).2
  have him := (C89_hermitian hD he hn h).2.1
  have hmem : ∀ i : Fin r.1.length, r.1[i] ∈ r.1 := fun i => List.getElem_mem _
  have hre : ∀ i : Fin r.1.length, r.1[i].1 = ((r.1[i].1.re : ℝ) : ℂ) := fun i => Complex.ext rfl (him _ (hmem i))
  have heig : ∀ i : Fin r.1.length, D r.1[i].2 = ((r.1[i].1.re : ℝ) : ℂ) • r.1[i].2 := fun i => by
    have h1 := (hpairs _ (hmem i)).2.2
    rw [hconv] at h1
    have h0 : fieldNorm (D r.1[i].2 - r.1[i].1 • r.1[i].2) = 0 :=
      le_antisymm ((fieldNorm_le_l1 _).trans h1) (Real.sqrt_nonneg _)
    have h2 : latticeNorm2 (D r.1[i].2 - r.1[i].1 • r.1[i].2) = 0 := by
      rw [← fieldNorm_sq, h0]
      exact zero_pow two_ne_zero
    rw [← hre]
    exact sub_eq_zero.1 (latticeNorm2_eq_zero h2)
  have hval : ∀ i : Fin r.1.length, (latticeDot r.1[i].2 (filterOp D a b order r.1[i].2)).re = filterValue a b order r.1[i].1.re := fun i => by
    rw [filterOp_eigen hab.ne (heig i), latticeDot_smul, latticeDot_self, (hpairs _ (hmem i)).1, Complex.ofReal_one, mul_one, Complex.ofReal_re]
  have hle : ∀ i : Fin r.1.length, r.1[i].1.re ≤ b := fun i => by
    have h1 := hup r.1[i].2
    rw [← (hpairs _ (hmem i)).2.1, (hpairs _ (hmem i)).1, mul_one] at h1
    exact h1
  obtain ⟨b1, w, mu, b2, b3, _, b5⟩ := C89_bound hD he ho hab hodd hn h k (by rw [hval]; exact filter_below hab hodd hk)
  refine ⟨fun i hi => ?_, w, mu, b2, b3, fun i => ?_⟩
  · have h1 := b1 i hi
    rw [hval, hval] at h1
    exact filter_le_of_le hab hodd (hle i) hk h1
  · have h1 := b5 i
    rw [hval] at h1
    refine filter_le_of_le hab hodd ?_ hk h1
    have h2 := hup (w i)
    have h3 := b2 i i
    rw [if_pos rfl, latticeDot_self] at h3
    have h4 : latticeNorm2 (w i) = 1 := by exact_mod_cast h3
    rw [b3, latticeDot_smul, latticeDot_self, h4, Complex.ofReal_one, mul_one, mul_one, Complex.ofReal_re] at h2
    exact h2

end

/-- C89: why the order must be odd, as the option says. The program keeps the largest values of the filter. For odd order an eigenvalue below the interval has a larger value than any in
the interval, the larger the smaller it is. For even order it has a smaller value than any in the interval, the smaller the smaller it is, so that the wanted eigenvalues are the
first to be removed; and the program accepts such an order. -/
theorem C89_order (a b : ℝ) (hab : a < b) (order : ℕ) (x y : ℝ) (hx : x < a) (hxy : x < y) (hy : y ≤ b) :
    ∃ p q : ℝ, chebScalar a b order x = some (p : ℂ) ∧ chebScalar a b order y = some (q : ℂ) ∧ (Odd order ↔ q < p) ∧ (Even order ↔ p < q) := by
  refine ⟨filterValue a b order x, filterValue a b order y, filter_scalar hab.ne x, filter_scalar hab.ne y, ?_⟩
  have h1 : Odd order → filterValue a b order y < filterValue a b order x := fun ho => by
    rcases lt_or_ge y a with h | h
    · exact filter_strict hab ho hxy h
    · exact lt_of_le_of_lt (abs_le.1 (filter_inside hab h hy)).2 (filter_below hab ho hx)
  have h2 : Even order → filterValue a b order x < filterValue a b order y := fun ho => by
    rcases lt_or_ge y a with h | h
    · exact filter_strict_even hab ho hxy h
    · exact lt_of_lt_of_le (filter_below_even hab ho hx) (abs_le.1 (filter_inside hab h hy)).1
  rcases Nat.even_or_odd order with h | h
  · exact ⟨⟨fun ho => absurd ho (Nat.not_odd_iff_even.2 h), fun hl => absurd hl (not_lt.2 (h2 h).le)⟩, ⟨h2, fun _ => h⟩⟩
  · exact ⟨⟨h1, fun _ => h⟩, ⟨fun he => absurd he (Nat.not_even_iff_odd.2 h), fun hl => absurd hl (not_lt.2 (h1 h).le)⟩⟩

/-- A start vector with one component. -/
noncomputable def exOne : SField Unit 1 := fun _ => Matrix.of fun mu _ => if mu = 0 then 1 else 0

/-- The hypotheses of the theorems hold for a run that has converged: eigenvalues 0, 1, 2 and 3, the interval from 1 to 3, order one, and a value below the interval. -/
example (epsilon : ℝ) (old : ℕ → SField Unit 1) : ∃ (eig : DenseSolver) (d : Fin 4 → ℝ) (r : List (ℂ × SField Unit 1) × ℝ), eig.Correct ∧ eig.Ordered ∧ HermitianOp (diagLin d) ∧
    (∀ v, (latticeDot v (diagLin d v)).re ≤ 3 * latticeNorm2 v) ∧ chebyshevEigenvalues (diagLin d) 1 3 1 eig 1 0 0 epsilon exOne old = some r ∧ r.2 = 0 ∧
    ∃ k : Fin r.1.length, r.1[k].1.re < 1 := by
  obtain ⟨eig, he, ho⟩ := exists_denseSolver
  obtain ⟨d, hd⟩ : ∃ d : Fin 4 → ℝ, d = fun mu => ((mu.val : ℕ) : ℝ) := ⟨_, rfl⟩
  have hD0 : diagLin d exOne = 0 := by
    funext x
    ext mu c
    rw [diagLin_apply, hd]
    fin_cases mu <;> simp [exOne]
  have h13 : (1 : ℝ) < 3 := by norm_num
  have hF : filterOp (diagLin d) 1 3 1 exOne = (filterValue 1 3 1 0 : ℂ) • exOne := filterOp_eigen h13.ne (by rw [hD0, Complex.ofReal_zero, zero_smul])
  have hF0 : (filterValue 1 3 1 0 : ℂ) ≠ 0 := by
    have := filter_below h13 odd_one (show (0 : ℝ) < 1 by norm_num)
    exact Complex.ofReal_ne_zero.2 (lt_trans one_pos this).ne'
  have hone : exOne ≠ 0 := fun h => by
    have h1 := congrFun (congrFun (congrFun h ()) 0) 0
    simp [exOne] at h1
  obtain ⟨t, e0⟩ := startArnoldi_some (filterOp (diagLin d) 1 3 1) ((filterValue 1 3 1 0 : ℂ) • exOne) old (smul_ne_zero hF0 hone)
  have ht : Full (filterOp (diagLin d) 1 3 1) (0 + 1) t := start_full (n := 1) (extra := 0) le_rfl e0 rfl
  obtain ⟨z, hz⟩ := startArnoldi_vector e0
  have hz0 : z ≠ 0 := fun h => by
    rw [h, zero_smul] at hz
    exact smul_ne_zero hF0 hone hz
  have hrun : chebyshevEigenvalues (diagLin d) 1 3 1 eig 1 0 0 epsilon exOne old = some (finishArnoldi (diagLin d) eig (0 + 1) 0 t) := by
    unfold chebyshevEigenvalues
    rw [C39_operator (diagLin d) 1 3 h13.ne, Option.bind_some, chebyshevApply_eq _ h13.ne]
    change maximumEigenvalues (filterOp (diagLin d) 1 3 1) (diagLin d) eig 1 0 0 epsilon (filterOp (diagLin d) 1 3 1 exOne) old = _
    rw [hF]
    unfold maximumEigenvalues
    rw [e0, Option.bind_some]
    rfl
  have hV : diagLin d (t.V 0) = 0 := by
    have h1 : diagLin d (z • t.V 0) = 0 := by rw [← hz, map_smul, hD0, smul_zero]
    rw [map_smul] at h1
    exact (smul_eq_zero.1 h1).resolve_left hz0
  have hR : ∀ i, diagLin d (ritzVector eig (0 + 1) t i) = 0 := fun i => by
    have h1 : ritzVector eig (0 + 1) t i = (eig (0 + 1) (hMatrix (0 + 1) t.H)).2 0 i • t.V 0 := Fin.sum_univ_one _
    rw [h1, map_smul, hV, smul_zero]
  have hp : ∀ i, (finishPair (diagLin d) eig (0 + 1) t i).1 = 0 := fun i => by
    rw [finishPair_value he ht, hR]
    simp [latticeDot]
  have hdev : ∀ i, pairDeviation (diagLin d) (finishPair (diagLin d) eig (0 + 1) t i) = 0 := fun i => by
    unfold pairDeviation
    rw [hp, zero_smul, sub_zero]
    change l1Norm (diagLin d (ritzVector eig (0 + 1) t i)) = 0
    rw [hR]
    simp [l1Norm]
  have hlen := finish_length (eig := eig) (diagLin d) 1 0 t
  refine ⟨eig, d, finishArnoldi (diagLin d) eig (0 + 1) 0 t, he, ho, diagLin_hermitian d, fun v => ?_, hrun, ?_, ⟨0, by rw [hlen]; exact one_pos⟩, ?_⟩
  · have h := diagLin_low (fun mu => 3 - d mu) 0 (fun mu => by
      rw [hd]
      have h1 : ((mu.val : ℕ) : ℝ) ≤ 3 := by exact_mod_cast (show mu.val ≤ 3 by omega)
      linarith) v
    have e : diagLin (fun mu => 3 - d mu) v = (3 : ℂ) • v - diagLin d v := by
      funext x
      ext mu c
      change ((3 - d mu : ℝ) : ℂ) * v x mu c = 3 * v x mu c - (d mu : ℂ) * v x mu c
      push_cast
      ring
    rw [e, latticeDot_sub', latticeDot_smul, latticeDot_self, Complex.sub_re, zero_mul] at h
    have h3 : ((3 : ℂ) * (latticeNorm2 v : ℂ)).re = 3 * latticeNorm2 v := by
      rw [show (3 : ℂ) = ((3 : ℝ) : ℂ) by norm_num, Complex.re_ofReal_mul, Complex.ofReal_re]
    linarith
  · have hall : ∀ (l : List (Fin (0 + 1))), l.foldl (fun m i => if 0 ≤ i.val then (if m < pairDeviation (diagLin d) (finishPair (diagLin d) eig (0 + 1) t i) then
        pairDeviation (diagLin d) (finishPair (diagLin d) eig (0 + 1) t i) else m) else m) (0 : ℝ) = 0 := by
      intro l
      induction l with
      | nil => rfl
      | cons i l ih =>
        rw [List.foldl_cons, hdev, if_pos (Nat.zero_le _), if_neg (lt_irrefl _)]
        exact ih
    exact hall _
  · rw [Fin.getElem_fin, finish_get, hp]
    norm_num

end Leonard
