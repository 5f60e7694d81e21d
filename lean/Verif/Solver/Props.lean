/-
C36: a solver that reports success returns a solution to the requested precision.
-/
import Verif.Solver.Terminate
import Verif.Solver.PrecDrift
import Verif.Dirac.EvenOddSchur
import Verif.Dirac.HermProps

set_option autoImplicit false

namespace Leonard

open Vec

variable {V : Type} [AddCommGroup V] [Module ℂ V] [Vec V]

/-- The vector `x` solves `A x = b` to the precision `prec`: the squared norm of the true residual is below it. -/
def SolvesTo (A : V → V) (b : V) (prec : ℝ) (x : Option V) : Prop := ∃ y, x = some y ∧ norm2 (b - A y) < prec

/-- A solver that finds nothing to do: the right-hand side and the guess fit exactly. -/
def ExactGuess (A : V → V) (b g : V) : Prop := A g = b

/-! ### Conjugate gradient -/

/-- **C36**, conjugate gradient: success means that the true residual of the returned vector is below the precision,
for every linear operator, source, guess and step limit. -/
theorem C36_cg {A : V → V} (hA : Linear A) (eps : ℝ) (maxSteps : ℕ) (b : V) (guess : Option V)
    (h : (cgSolve A eps maxSteps b guess).ok = true) : SolvesTo A b eps (cgSolve A eps maxSteps b guess).x :=
  cgLoop_ok hA b eps maxSteps 0 _ _ _ _ rfl h

/-- **C36**, conjugate gradient: for a Hermitian positive operator the solver succeeds as soon as it may take as many steps
as the space has dimensions, unless the guess is already exact. -/
theorem C36_cg_converges [FiniteDimensional ℂ V] {A : V → V} (hA : Linear A) (hH : HermPos A) {eps : ℝ} (heps : 0 < eps)
    (maxSteps : ℕ) (b : V) (guess : Option V) (hg : ¬ ExactGuess A b (guess.getD b)) (hn : Module.finrank ℂ V ≤ maxSteps) :
    (cgSolve A eps maxSteps b guess).ok = true := by
  refine cgLoop_terminates hA hH heps maxSteps 0 ⊥ _ _ _ _ (CgInv.start hA ?_) (by simpa using hn)
  intro h0
  exact hg (sub_eq_zero.mp h0).symm

/-! ### Stabilised biconjugate gradient -/

/-- **C36**, biconjugate gradient: success means that the true residual is below the precision, *or* the returned vector is
the source itself.  What is missing: the second case need not be a solution, see `C36_bicg_counterexample`. -/
theorem C36_bicg_partial {A : V → V} (hA : Linear A) (prec : ℝ) (maxSteps : ℕ) (b rnd : V) (guess : Option V)
    (h : (bicgSolve A prec maxSteps b rnd guess).ok = true) :
    SolvesTo A b prec (bicgSolve A prec maxSteps b rnd guess).x ∨ (bicgSolve A prec maxSteps b rnd guess).x = some b := by
  obtain ⟨y, hy, h | h⟩ := bicgLoop_ok hA b _ prec maxSteps 0 _ _ _ _ _ _ _ rfl h
  · exact Or.inl ⟨y, hy, h⟩
  · subst h; exact Or.inr hy

/-- **C36**, biconjugate gradient with a shift. -/
theorem C36_bicg_shift_partial {A : V → V} {B : ℂ → V → V} (hA : Linear A) (hB : ∀ σ v, B σ v = A v + σ • v) (σ : ℂ)
    (prec : ℝ) (maxSteps : ℕ) (b rnd : V) (guess : Option V) (h : (bicgShiftSolve B σ prec maxSteps b rnd guess).ok = true) :
    SolvesTo (fun v => A v + σ • v) b prec (bicgShiftSolve B σ prec maxSteps b rnd guess).x ∨
      (bicgShiftSolve B σ prec maxSteps b rnd guess).x = some b := by
  have hL : Linear (B σ) := ⟨fun v w => by rw [hB, hB, hB, hA.add, smul_add]; abel,
    fun a v => by rw [hB, hB, hA.smul, smul_add, smul_comm σ a]⟩
  have := C36_bicg_partial hL prec maxSteps b rnd guess h
  have e : (fun v => A v + σ • v) = B σ := by funext v; rw [hB]
  rw [e]
  exact this

/-- **C36** is violated by the biconjugate gradient solver: with the operator `2` and any source longer than the precision
it reports success and returns the source, whose residual is not below the precision. -/
theorem C36_bicg_counterexample (prec : ℝ) (hp : 0 ≤ prec) (maxSteps : ℕ) (hm : 0 < maxSteps) (b rnd : V)
    (hb : prec < norm2 b) :
    (bicgSolve (fun v : V => (2 : ℂ) • v) prec maxSteps b rnd none).ok = true ∧
      (bicgSolve (fun v : V => (2 : ℂ) • v) prec maxSteps b rnd none).x = some b ∧ ¬ norm2 (b - (2 : ℂ) • b) < prec := by
  obtain ⟨n, rfl⟩ : ∃ n, maxSteps = n + 1 := ⟨maxSteps - 1, by omega⟩
  have hn : (norm2 b : ℂ) ≠ 0 := by exact_mod_cast (by linarith : norm2 b ≠ 0)
  have h1 : b + (2 : ℂ) • b = (3 : ℂ) • b := by module
  have h2 : b - (2 : ℂ) • b = (-1 : ℂ) • b := by module
  have hb' : prec < norm2 b := hb
  have main : bicgSolve (fun v : V => (2 : ℂ) • v) prec (n + 1) b rnd none = ⟨true, some b, none⟩ := by
    simp only [bicgSolve, startVector, gt_iff_lt, hb', if_true, h1, h2, bicgLoop]
    have e1 : dot ((3 : ℂ) • b) ((-1 : ℂ) • b) = -3 * norm2 b := by
      rw [dot_smul, smul_dot, dot_self, map_ofNat]; ring
    rw [e1]
    rw [if_neg (mul_ne_zero (by norm_num) hn), if_neg one_ne_zero]
    have e2 : ((-1 : ℂ) • b + (-3 * (norm2 b : ℂ) / 1 * (1 / 1)) • (0 - (1 : ℂ) • (0 : V))) = (-1 : ℂ) • b := by simp
    rw [e2]
    have e3 : dot ((3 : ℂ) • b) ((2 : ℂ) • (-1 : ℂ) • b) = -6 * norm2 b := by
      rw [dot_smul, dot_smul, smul_dot, dot_self, map_ofNat]; ring
    rw [e3, if_neg (mul_ne_zero (by norm_num) hn)]
    have e4 : (-3 * (norm2 b : ℂ)) / (-6 * norm2 b) = 1 / 2 := by field_simp; norm_num
    have e5 : ((-1 : ℂ) • b - (1 / 2 : ℂ) • (2 : ℂ) • (-1 : ℂ) • b) = 0 := by
      rw [smul_smul (1 / 2 : ℂ) 2]; norm_num
    rw [e4, e5, smul_zero, dot_zero, Complex.zero_re, if_pos rfl]
  rw [main]
  refine ⟨rfl, rfl, ?_⟩
  rw [h2, norm2_smul]
  simp
  linarith

/-- **C36**, preconditioned biconjugate gradient: success means a small residual if the preconditioner does nothing to the
image of the operator.  What is missing: with any other preconditioner the vector and its recursively computed residual drift
apart, because line 84 applies the operator to `s` while line 93 adds the preconditioned `s`; see
`C36_prec_drift_counterexample`. -/
theorem C36_prec_partial {A P : V → V} (hA : Linear A) (hP : ∀ v, A (P v) = A v) (prec : ℝ) (maxSteps : ℕ) (b rnd : V)
    (guess : Option V) (h : (bicgPrecSolve A P prec maxSteps b rnd guess).ok = true) :
    SolvesTo A b prec (bicgPrecSolve A P prec maxSteps b rnd guess).x :=
  bicgPrecLoop_ok hA hP b _ prec maxSteps 0 _ _ _ _ _ _ _ rfl h

/-- **C36** is violated by the preconditioned solver: with the operator `(1 1; -1 1)` and the preconditioner
`(-7 -8; 5 4)/2` it reports success for every step limit above six, but the true residual of the returned vector is far above
the precision. -/
theorem C36_prec_drift_counterexample (maxSteps : ℕ) (hm : 7 ≤ maxSteps) : ∃ (A P : (Fin 2 → ℂ) → Fin 2 → ℂ) (b g y : Fin 2 → ℂ)
    (prec : ℝ), Linear A ∧ Linear P ∧ 0 < prec ∧ (bicgPrecSolve A P prec maxSteps b 0 (some g)).ok = true
      ∧ (bicgPrecSolve A P prec maxSteps b 0 (some g)).x = some y ∧ prec < norm2 (b - A y) := by
  obtain ⟨n, rfl⟩ : ∃ n, maxSteps = n + 7 := ⟨maxSteps - 7, by omega⟩
  obtain ⟨y0, y1, h1, h2⟩ := drift_run n
  refine ⟨driftA, driftP, _, _, rv y0 y1, _, ⟨?_, ?_⟩, ⟨?_, ?_⟩, ?_, by rw [h1], by rw [h1], h2⟩
  · intro v w; ext i; fin_cases i <;> simp [driftA] <;> ring
  · intro a v; ext i; fin_cases i <;> simp [driftA] <;> ring
  · intro v w; ext i; fin_cases i <;> simp [driftP] <;> ring
  · intro a v; ext i; fin_cases i <;> simp [driftP] <;> ring
  · norm_num

/-! ### GMRESR -/

/-- **C36**, GMRESR: for every preconditioner, success means that the true residual is below the precision. -/
theorem C36_gmres {A : V → V} (hA : Linear A) (P : ℕ → V → V) (allocated dim : ℕ) (prec : ℝ) (maxSteps : ℕ) (b rnd : V)
    (guess : Option V) (c u : ℕ → V) (res : SolveResult V)
    (h : gmresSolve A P allocated dim prec maxSteps b rnd guess c u = .ok res) (hok : res.ok = true) :
    SolvesTo A b prec res.x := by
  unfold gmresSolve at h
  split_ifs at h with h1 h2
  cases h
  exact (gmresLoop_spec (bound := norm2 (b - A (startVector prec b rnd guess))) hA P prec maxSteps 0 _ (by
      by_cases hm : maxSteps = 0
      · exact Or.inr hm
      · exact Or.inl (Nat.pos_of_ne_zero fun hd => h1 ⟨hm, hd⟩))
    ⟨rfl, fun i hi => absurd hi (by omega), le_rfl⟩).1 hok

/-- **C36**, GMRESR: also without success the returned vector is never worse than the start vector. -/
theorem C36_gmres_monotone {A : V → V} (hA : Linear A) (P : ℕ → V → V) (allocated dim : ℕ) (prec : ℝ) (maxSteps : ℕ)
    (b rnd g : V) (c u : ℕ → V) (res : SolveResult V) (y : V)
    (h : gmresSolve A P allocated dim prec maxSteps b rnd (some g) c u = .ok res) (hy : res.x = some y) :
    norm2 (b - A y) ≤ norm2 (b - A g) := by
  unfold gmresSolve at h
  split_ifs at h with h1 h2
  cases h
  exact (gmresLoop_spec (bound := norm2 (b - A g)) hA P prec maxSteps 0 _ (by
      by_cases hm : maxSteps = 0
      · exact Or.inr hm
      · exact Or.inl (Nat.pos_of_ne_zero fun hd => h1 ⟨hm, hd⟩))
    ⟨rfl, fun i hi => absurd hi (by omega), le_rfl⟩).2 y hy

/-- **C36**, GMRESR: if the preconditioned operator is definite, the solver succeeds as soon as it may take, and remember,
as many steps as the space has dimensions, unless the guess is already exact. -/
theorem C36_gmres_converges [FiniteDimensional ℂ V] {A : V → V} {P : ℕ → V → V}
    (hP : ∀ k v, v ≠ 0 → dot v (A (P k v)) ≠ 0) {dim : ℕ} (hd : Module.finrank ℂ V ≤ dim) {prec : ℝ} (hprec : 0 < prec)
    {maxSteps : ℕ} (hm : Module.finrank ℂ V ≤ maxSteps) (b rnd g : V) (hg : ¬ ExactGuess A b g) (c u : ℕ → V) (res : SolveResult V)
    (h : gmresSolve A P dim dim prec maxSteps b rnd (some g) c u = .ok res) : res.ok = true := by
  unfold gmresSolve at h
  split_ifs at h with h1 h2
  cases h
  refine gmresLoop_terminates hP hd hprec maxSteps 0 _ ⟨fun i hi => absurd hi (by omega), fun i hi => absurd hi (by omega),
    fun i hi => absurd hi (by omega)⟩ ?_ (by simpa using hm)
  intro h0
  exact hg (sub_eq_zero.mp h0).symm

/-! ### Multigrid -/

/-- **C36**, conjugate gradient on the coarse lattice: on a single process, and if at least one step is allowed, success
means a small residual.  What is missing: `C36_mg_cg_counterexample`. -/
theorem C36_mg_cg_partial {A : V → V} (hA : Linear A) (prec : ℝ) (maxSteps : ℤ) (hm : 0 < maxSteps) (b : V)
    (h : (mgCgSolve A norm2 prec maxSteps b).ok = true) : SolvesTo A b prec (mgCgSolve A norm2 prec maxSteps b).x :=
  mgCgLoop_ok hA b norm2 prec _ 0 _ _ _ _ (by omega) rfl h

/-- **C36**, biconjugate gradient on the coarse lattice, with the same exception as `C36_bicg_partial`. -/
theorem C36_mg_bicg_partial {A : V → V} (hA : Linear A) (prec : ℝ) (maxSteps : ℕ) (b : V)
    (h : (mgBicgSolve A prec maxSteps b).ok = true) :
    SolvesTo A b prec (mgBicgSolve A prec maxSteps b).x ∨ (mgBicgSolve A prec maxSteps b).x = some b := by
  obtain ⟨y, hy, h | h⟩ := mgBicgLoop_ok hA b _ prec maxSteps 0 _ _ _ _ _ _ _ rfl h
  · exact Or.inl ⟨y, hy, h⟩
  · subst h; exact Or.inr hy

/-- **C36** is violated by the coarse conjugate gradient solver: with no steps allowed it reports success for any source. -/
theorem C36_mg_cg_counterexample (A : V → V) (loc : V → ℝ) (prec : ℝ) (b : V) :
    (mgCgSolve A loc prec 0 b).ok = true ∧ (mgCgSolve A loc prec 0 b).x = some b := ⟨rfl, rfl⟩

/-- **C36** is violated by `MultiGridSolver`: it reports success whatever happened; with no steps allowed it returns the
guess, however bad. -/
theorem C36_multigrid_counterexample (A : V → V) (P : ℕ → V → V) (prec : ℝ) (b : V) (c u : ℕ → V) :
    (∀ maxSteps guess, (mgSolve A P prec maxSteps b guess c u).1.ok = true) ∧
      (∀ g, (mgSolve A P prec 0 b (some g) c u).1.x = some g) := ⟨fun _ _ => rfl, fun _ => rfl⟩

/-- **C36**, `MultiGridSolver`: what can be relied on is that a returned vector without NaN is not worse than the guess. -/
theorem C36_multigrid_partial {A : V → V} (hA : Linear A) (P : ℕ → V → V) (prec : ℝ) (maxSteps : ℕ) (b g y : V) (c u : ℕ → V)
    (hy : (mgSolve A P prec maxSteps b (some g) c u).1.x = some y) : norm2 (b - A y) ≤ norm2 (b - A g) :=
  mgLoop_spec hA P prec maxSteps maxSteps 0 _ ⟨rfl, fun i hi => absurd hi (by omega), le_rfl⟩ y hy

/-! ### Starting at the solution -/

/-- **C36** is violated by every solver when it is started at the exact solution: the first step divides zero by zero (or
sees a vanishing inner product), and failure is reported. -/
theorem C36_exact_start_counterexample {A : V → V} (hA : Linear A) (b g rnd : V) (hg : ExactGuess A b g) (prec : ℝ)
    (maxSteps : ℕ) (hm : 0 < maxSteps) (c u : ℕ → V) :
    (cgSolve A prec maxSteps b (some g)).ok = false ∧
    (cgSolve A prec maxSteps b (some g)).x = none ∧
    (bicgSolve A prec maxSteps b rnd (some g)).ok = false ∧
    (gmresSolve A (fun _ v => v) 13 13 prec maxSteps b rnd (some g) c u) = .ok ⟨false, none, some maxSteps⟩ := by
  obtain ⟨n, rfl⟩ : ∃ n, maxSteps = n + 1 := ⟨maxSteps - 1, by omega⟩
  have h0 : b - A g = 0 := sub_eq_zero.mpr hg.symm
  refine ⟨?_, ?_, ?_, ?_⟩
  · simp [cgSolve, h0, cgLoop, hA.zero, dot_zero]
  · simp [cgSolve, h0, cgLoop, hA.zero, dot_zero]
  · simp [bicgSolve, startVector, h0, bicgLoop, dot_zero]
  · unfold gmresSolve
    rw [if_neg (by omega), if_neg (by omega)]
    simp [startVector, h0, gmresLoop, gmresStep, gmresOrtho, hA.zero, norm2_zero]

/-! ### The hypotheses can be met -/

/-- The operators of the code are linear: the clover operator. -/
theorem improvedMul_linear {S : Type} {N : ℕ} (T : Torus S) (U : GField S N) (κ csw : ℝ) (g5 : Bool) :
    Linear (improvedMul T U κ csw g5) := by
  constructor
  · intro v w
    rw [C33_improved, C33_improved, C33_improved, improvedSpec_add]
    cases g5
    · rfl
    · funext x; exact Matrix.mul_add _ _ _
  · intro c v
    rw [C33_improved, C33_improved, improvedSpec_smul]
    cases g5
    · rfl
    · funext x; exact Matrix.mul_smul tabGamma5 c (improvedSpec T U κ csw v x)

/-- **C36 for the operator of the simulations.** On every finite lattice the conjugate gradient method applied to the
square of the clover improved operator with gamma5 finds the solution in at most as many steps as the
field has components, unless the operator has a zero mode or the initial vector solves the system
already; the flag tells the truth. -/
theorem C36_cg_clover {S : Type} [Fintype S] {N : ℕ} (T : Torus S) (U : GField S N) (κ csw : ℝ)
    (hinj : ∀ v, improvedMul T U κ csw true v = 0 → v = 0) {eps : ℝ} (heps : 0 < eps) (maxSteps : ℕ)
    (hm : Fintype.card S * (4 * N) ≤ maxSteps) (b : SField S N) (guess : Option (SField S N))
    (hg : improvedMul T U κ csw true (improvedMul T U κ csw true (guess.getD b)) ≠ b) :
    ∃ y, (cgSolve (fun v => improvedMul T U κ csw true (improvedMul T U κ csw true v)) eps maxSteps b guess).ok = true ∧
      (cgSolve (fun v => improvedMul T U κ csw true (improvedMul T U κ csw true v)) eps maxSteps b guess).x = some y ∧
      latticeNorm2 (b - improvedMul T U κ csw true (improvedMul T U κ csw true y)) < eps := by
  have h1 := improvedMul_linear T U κ csw true
  have hL : Linear (fun v => improvedMul T U κ csw true (improvedMul T U κ csw true v)) :=
    ⟨fun v w => by rw [h1.add, h1.add], fun a v => by rw [h1.smul, h1.smul]⟩
  have hs : ∀ v w, dot v (improvedMul T U κ csw true w) = dot (improvedMul T U κ csw true v) w := fun v w =>
    (C34_hermitian T U κ csw v w).2.2
  have hH : HermPos (fun v => improvedMul T U κ csw true (improvedMul T U κ csw true v)) := by
    refine ⟨fun v w => by rw [hs, hs], fun v hv => ?_⟩
    rw [hs]
    exact norm2_pos fun h => hv (hinj v h)
  have hr : Module.finrank ℂ (SField S N) ≤ maxSteps := by
    refine le_trans (le_of_eq ?_) hm
    unfold SField
    rw [Module.finrank_pi_fintype]
    simp [Module.finrank_matrix]
  have hok := C36_cg_converges hL hH heps maxSteps b guess hg hr
  obtain ⟨y, hy, h2⟩ := C36_cg hL eps maxSteps b guess hok
  exact ⟨y, hok, hy, by rw [← norm2_eq_latticeNorm2]; exact h2⟩

example (eps : ℝ) (h : 0 < eps) : ∃ (A : (Fin 2 → ℂ) → Fin 2 → ℂ) (b : Fin 2 → ℂ), Linear A ∧ HermPos A
    ∧ ¬ ExactGuess A b ((none : Option (Fin 2 → ℂ)).getD b) ∧ (cgSolve A eps 2 b none).ok = true := by
  have hL : Linear (fun v : Fin 2 → ℂ => ![2 * v 0, 3 * v 1]) := by
    constructor
    · intro v w; ext i; fin_cases i <;> simp <;> ring
    · intro a v; ext i; fin_cases i <;> simp <;> ring
  have hH : HermPos (fun v : Fin 2 → ℂ => ![2 * v 0, 3 * v 1]) := by
    constructor
    · intro v w
      show ∑ m, _ = ∑ m, _
      simp [Fin.sum_univ_two, map_ofNat]; ring
    · intro v hv
      have : 0 < norm2 v := norm2_pos hv
      have e : norm2 v = Complex.normSq (v 0) + Complex.normSq (v 1) := by
        show (∑ m, starRingEnd ℂ (v m) * v m).re = _
        simp only [Fin.sum_univ_two, mul_comm (starRingEnd ℂ _), Complex.mul_conj, Complex.add_re, Complex.ofReal_re]
      have e2 : (dot v (![2 * v 0, 3 * v 1] : Fin 2 → ℂ)) = ((2 * Complex.normSq (v 0) + 3 * Complex.normSq (v 1) : ℝ) : ℂ) := by
        show ∑ m, _ = _
        simp only [Fin.sum_univ_two, Complex.ofReal_add, Complex.ofReal_mul, ← Complex.mul_conj]
        simp; ring
      rw [e2, Complex.ofReal_re]
      have := Complex.normSq_nonneg (v 0)
      have := Complex.normSq_nonneg (v 1)
      linarith
  have hg : ¬ ExactGuess (fun v : Fin 2 → ℂ => ![2 * v 0, 3 * v 1]) ![1, 1] ((none : Option (Fin 2 → ℂ)).getD ![1, 1]) := by
    intro h
    have := congrFun h 0
    simp at this
  exact ⟨_, ![1, 1], hL, hH, hg, C36_cg_converges hL hH h 2 _ none hg (by simp)⟩

end Leonard
