import Verif.Sap.Props
import Verif.Solver.Rate

/-!
# C93: the Schwarz alternating procedure with the solver of the blocks
-/

set_option autoImplicit false

namespace Leonard

open Matrix

variable {S : Type} [Fintype S] {N : ℕ}

/-! ### Model -/

/-- `gmresr->solve(blockOperator, b, ...)` without guess and preconditioner, `ComplementBlockDiracOperator.cpp:31,47` (the arrays of `GMRESR` hold 13
vectors, `GMRESR.cpp:6`).  `rnd` is the random vector, `c` and `u` what the arrays hold before. -/
noncomputable def blockSolve (A : SField S N → SField S N) (ε : ℝ) (maxSteps : ℕ) (rnd : SField S N) (c u : ℕ → SField S N) (b : SField S N) :
    Outcome (SolveResult (SField S N)) :=
  gmresSolve A (fun _ v => v) 13 13 ε maxSteps b rnd none c u

/-- `ComplementBlockDiracOperator::multiply`, `ComplementBlockDiracOperator.cpp:25-65`, with solvers that may fail.  `none` in the first component
stands for NaN; the second component says whether both solvers reported success, which the program does not look at. -/
def complementRun (D : SField S N → SField S N) (solveRed solveBlack : SField S N → Outcome (SolveResult (SField S N))) (red black : S → Bool)
    (input : SField S N) : Option (SField S N) × Bool :=
  match solveRed input with
  | .ok ⟨okRed, some s, _⟩ =>
    let tmp1 := projectBlock red s
    match solveBlack (input - D tmp1) with
    | .ok ⟨okBlack, some t, _⟩ => (some (projectBlock black t + tmp1), okRed && okBlack)
    | _ => (none, false)
  | _ => (none, false)

/-- The loop of `SAPPreconditioner::multiply`, `SAPPreconditioner.cpp:18-28`: `K n` is the `n`-th call of `ComplementBlockDiracOperator::multiply`, the
calls differ in the random numbers and the contents of the arrays; `k0` is `tmp1`. -/
def sapRunLoop (D : SField S N → SField S N) (K : ℕ → SField S N → Option (SField S N) × Bool) (k0 : SField S N) :
    ℕ → Option (SField S N) × Bool → Option (SField S N) × Bool
  | 0, out => out
  | n + 1, out =>
    match sapRunLoop D K k0 n out with
    | (some o, ok) =>
      match K (n + 1) (D o) with
      | (some k, ok') => (some (o - k + k0), ok && ok')
      | (none, _) => (none, false)
    | (none, _) => (none, false)

/-- `SAPPreconditioner::multiply`, `SAPPreconditioner.cpp:10-29`. -/
def sapRun (D : SField S N → SField S N) (K : ℕ → SField S N → Option (SField S N) × Bool) (steps : ℕ) (input : SField S N) :
    Option (SField S N) × Bool :=
  match K 0 input with
  | (some k0, ok) => sapRunLoop D K k0 steps (some input, ok)
  | (none, _) => (none, false)

/-! ### Lemmas -/

theorem clover_part (T : Torus S) (U : GField S N) (v w : SField S N) (x : S) (h : v x = w x) : cloverField T U v x = cloverField T U w x := by
  simp [cloverField, h]

theorem norm_toE_part (idx : S → Bool) (v : SField S N) :
    ‖toE (projectBlock idx v)‖ ^ 2 = partNorm2 idx v := by
  rw [norm_toE, fieldNorm_parts idx]
  have h1 : partNorm2 idx (projectBlock idx v) = partNorm2 idx v := partNorm2_congr fun x hx => by simp [projectBlock, hx]
  have h2 : partNorm2 (fun x => !idx x) (projectBlock idx v) = 0 :=
    Finset.sum_eq_zero fun x _ => by cases h : idx x <;> simp [projectBlock, h]
  rw [h1, h2, add_zero]

/-- The operator restricted to blocks is close to the identity. -/
theorem blockImproved_close {T : Torus S} {U : GField S N} (hU : ∀ x μ, U x μ ∈ unitaryGroup (Fin N) ℂ) (κ csw : ℝ) (idx : S → Bool)
    (v : SField S N) :
    fieldNorm (blockImprovedMul T idx U κ csw 0 false v - v) ^ 2 ≤ (|κ| * (8 + 6 * |csw|)) ^ 2 * fieldNorm v ^ 2 := by
  set h := |κ| * (8 + 6 * |csw|) with hh
  have h0 : 0 ≤ h := by positivity
  rw [fieldNorm_parts idx, fieldNorm_parts idx v, mul_add]
  refine add_le_add ?_ ?_
  · have e : partNorm2 idx (blockImprovedMul T idx U κ csw 0 false v - v) =
        partNorm2 idx (improvedSpec T U κ csw (projectBlock idx v) - projectBlock idx v) := by
      refine partNorm2_congr fun x hx => ?_
      rw [Pi.sub_apply, Pi.sub_apply, improvedBlock_part T idx U κ csw v x hx]
      simp [projectBlock, hx]
    rw [e]
    refine (partNorm2_le _ _).trans ?_
    have hb := norm_improved_sub (T := T) hU κ csw (projectBlock idx v)
    have e1 : toE (improvedSpec T U κ csw (projectBlock idx v)) - toE (projectBlock idx v) =
      toE (improvedSpec T U κ csw (projectBlock idx v) - projectBlock idx v) := rfl
    rw [e1] at hb
    rw [← norm_toE, ← norm_toE_part, ← mul_pow]
    exact pow_le_pow_left₀ (norm_nonneg _) hb 2
  · have e : partNorm2 (fun x => !idx x) (blockImprovedMul T idx U κ csw 0 false v - v) =
        partNorm2 (fun x => !idx x) (((κ * csw : ℝ) : ℂ) • cloverField T U (projectBlock (fun x => !idx x) v)) := by
      refine partNorm2_congr fun x hx => ?_
      have hx' : idx x = false := by simpa using hx
      have hc : cloverField T U (projectBlock (fun x => !idx x) v) x = cloverField T U v x :=
        clover_part T U _ _ x (by simp [projectBlock, hx'])
      have hhop : hoppingSpec T (blockLinks T idx U) v x = 0 := by
        simp only [hoppingSpec]
        refine Finset.sum_eq_zero fun μ _ => ?_
        simp [blockLinks, hx', T.sup_sdn]
      rw [Pi.sub_apply, C83_block, Pi.smul_apply, hc]
      simp only [withGamma5, Bool.false_eq_true, if_false, hhop, smul_zero, sub_zero, Complex.ofReal_zero, mul_zero, zero_smul, add_zero]
      exact add_sub_cancel_left (v x) (((κ * csw : ℝ) : ℂ) • cloverField T U v x)
    rw [e]
    refine (partNorm2_le _ _).trans ?_
    have hb := norm_clover (T := T) hU (projectBlock (fun x => !idx x) v)
    rw [← norm_toE, ← norm_toE_part, ← mul_pow, toE_smul, norm_smul, Complex.norm_real, Real.norm_eq_abs, abs_mul]
    refine pow_le_pow_left₀ (by positivity) ?_ 2
    have h6 : |κ| * |csw| * 6 ≤ h := by rw [hh]; nlinarith [abs_nonneg κ, abs_nonneg csw]
    calc |κ| * |csw| * ‖toE (cloverField T U (projectBlock (fun x => !idx x) v))‖
        ≤ |κ| * |csw| * (6 * ‖toE (projectBlock (fun x => !idx x) v)‖) := mul_le_mul_of_nonneg_left hb (by positivity)
      _ = |κ| * |csw| * 6 * ‖toE (projectBlock (fun x => !idx x) v)‖ := by ring
      _ ≤ _ := mul_le_mul_of_nonneg_right h6 (norm_nonneg _)

theorem sapBlock_close {T : Torus S} {bs : Fin 4 → ℕ} {U : GField S N} (hU : ∀ x μ, U x μ ∈ unitaryGroup (Fin N) ℂ) {κ csw : ℝ}
    {D : SField S N → SField S N} {A : ℕ → SField S N → SField S N} (hop : SapOperators T bs U κ csw D A) (c : ℕ) (v : SField S N) :
    ‖toE (A c v) - toE v‖ ≤ |κ| * (8 + 6 * |csw|) * ‖toE v‖ := by
  have key : fieldNorm (A c v - v) ^ 2 ≤ (|κ| * (8 + 6 * |csw|)) ^ 2 * fieldNorm v ^ 2 := by
    rcases hop with ⟨-, rfl⟩ | ⟨-, rfl⟩
    · have := blockImproved_close (T := T) hU κ 0 (blockIndex T bs c) v
      rw [blockImproved_zero] at this
      refine this.trans (mul_le_mul_of_nonneg_right (pow_le_pow_left₀ (by positivity) ?_ 2) (sq_nonneg _))
      rw [abs_zero]
      nlinarith [abs_nonneg κ, abs_nonneg csw, mul_nonneg (abs_nonneg κ) (abs_nonneg csw)]
    · exact blockImproved_close (T := T) hU κ csw (blockIndex T bs c) v
  have e1 : toE (A c v) - toE v = toE (A c v - v) := rfl
  rw [e1, norm_toE, norm_toE]
  rw [← mul_pow] at key
  exact le_of_sq_le_sq key (by have : 0 ≤ fieldNorm v := Real.sqrt_nonneg _; positivity)

theorem blockImproved_linear (T : Torus S) (idx : S → Bool) (U : GField S N) (κ csw : ℝ) : Linear (blockImprovedMul T idx U κ csw 0 false) :=
  ⟨fun v w => by rw [blockImproved_lin, blockImproved_lin, blockImproved_lin, map_add],
    fun a v => by rw [blockImproved_lin, blockImproved_lin, map_smul]⟩

theorem blockMul_linear (T : Torus S) (idx : S → Bool) (U : GField S N) (κ : ℝ) : Linear (blockMul T idx U κ 0 false) := by
  have h : blockMul T idx U κ 0 false = blockImprovedMul T idx U κ 0 0 false := funext fun v => (blockImproved_zero T idx U κ v).symm
  rw [h]
  exact blockImproved_linear T idx U κ 0

theorem sapOperators_linear {T : Torus S} {bs : Fin 4 → ℕ} {U : GField S N} {κ csw : ℝ} {D : SField S N → SField S N}
    {A : ℕ → SField S N → SField S N} (hop : SapOperators T bs U κ csw D A) (col : ℕ) : Linear (A col) := by
  rcases hop with ⟨-, rfl⟩ | ⟨-, rfl⟩
  · exact blockMul_linear T _ U κ
  · exact blockImproved_linear T _ U κ csw

/-! ### The theorems -/

/-- **C93, the solver of the blocks.** For unitary links and `h = |κ| (8 + 6 |csw|) < 1` the solver used in the blocks succeeds for every source as soon
as the number of steps `n` allowed fulfils `(1 - ((1-h)/(1+h))²)ⁿ ‖b - A x₀‖² < ε`, and then the squared residual is below `ε`; the exception are
sources for which the start vector is the exact solution. -/
theorem C93_block_solver (T : Torus S) (bs : Fin 4 → ℕ) (U : GField S N) (hU : ∀ x μ, U x μ ∈ unitaryGroup (Fin N) ℂ) (κ csw h : ℝ)
    (hh : |κ| * (8 + 6 * |csw|) = h) (h1 : h < 1) (D : SField S N → SField S N) (A : ℕ → SField S N → SField S N)
    (hop : SapOperators T bs U κ csw D A) (col : ℕ) (ε : ℝ) (hε : 0 < ε) (n : ℕ) (hn0 : 0 < n) (rnd b : SField S N) (c u : ℕ → SField S N)
    (x₀ : SField S N) (hx₀ : x₀ = if ε < fieldNorm b ^ 2 then b else rnd) (hex : A col x₀ ≠ b)
    (hn : (1 - ((1 - h) / (1 + h)) ^ 2) ^ n * fieldNorm (b - A col x₀) ^ 2 < ε) :
    ∃ res y, blockSolve (A col) ε n rnd c u b = .ok res ∧ res.ok = true ∧ res.x = some y ∧ fieldNorm (b - A col y) ^ 2 < ε := by
  have hn2 : ∀ v : SField S N, Leonard.norm2 v = fieldNorm v ^ 2 := fun v => by rw [norm2_eq_latticeNorm2, fieldNorm_sq]
  have hs : startVector ε b rnd none = x₀ := by
    rw [hx₀, startVector, hn2]
  have h0 : 0 ≤ h := by rw [← hh]; positivity
  have hclose := fun v => sapBlock_close hU hop col v
  rw [hh] at hclose
  have hlow : ∀ (_ : ℕ) (v : SField S N), (1 - h) * Leonard.norm2 v ≤ ‖Vec.dot v (A col v)‖ := by
    intro _ v
    rw [hn2, ← norm_toE]
    change _ ≤ ‖latticeDot v (A col v)‖
    rw [← inner_toE]
    have e : inner ℂ (toE v) (toE (A col v)) = inner ℂ (toE v) (toE v) + inner ℂ (toE v) (toE (A col v) - toE v) := by
      rw [← inner_add_right, add_sub_cancel]
    rw [e, inner_self_eq_norm_sq_to_K]
    have h3 : ‖inner ℂ (toE v) (toE (A col v) - toE v)‖ ≤ ‖toE v‖ * (h * ‖toE v‖) :=
      (norm_inner_le_norm _ _).trans (mul_le_mul_of_nonneg_left (hclose v) (norm_nonneg _))
    have h4 := norm_sub_le_norm_add (((‖toE v‖ : ℝ) : ℂ) ^ 2) (inner ℂ (toE v) (toE (A col v) - toE v))
    have h5 : ‖((‖toE v‖ : ℝ) : ℂ) ^ 2‖ = ‖toE v‖ ^ 2 := by rw [norm_pow, Complex.norm_real, norm_norm]
    rw [h5] at h4
    refine le_trans ?_ h4
    nlinarith
  have hup : ∀ (_ : ℕ) (v : SField S N), Leonard.norm2 (A col v) ≤ (1 + h) ^ 2 * Leonard.norm2 v := by
    intro _ v
    rw [hn2, hn2, ← norm_toE, ← norm_toE, ← mul_pow]
    refine pow_le_pow_left₀ (norm_nonneg _) ?_ 2
    have h3 := norm_add_le (toE v) (toE (A col v) - toE v)
    rw [add_sub_cancel] at h3
    nlinarith [hclose v]
  have hdef : ∃ res, blockSolve (A col) ε n rnd c u b = .ok res := by
    unfold blockSolve gmresSolve
    rw [if_neg (by omega), if_neg (by omega)]
    exact ⟨_, rfl⟩
  obtain ⟨res, hres⟩ := hdef
  have hok : res.ok = true := by
    refine C36_gmres_rate (α := 1 - h) (β := 1 + h) (P := fun _ v => v) (by linarith) (by linarith) hlow hup hε hn0 b rnd none ?_ ?_ c u res hres
    · rw [hs]; exact hex
    · rw [hs, hn2, ← div_pow]; exact hn
  have hlin : Linear (A col) := sapOperators_linear hop col
  obtain ⟨y, hy, hy2⟩ := C36_gmres hlin _ 13 13 ε n b rnd none c u res hres hok
  exact ⟨res, y, hres, hok, hy, by rw [← hn2]; exact hy2⟩

/-- **C93, the whole procedure.** If all solvers of the blocks report success, then after at least one step the squared residual of the full system on
the black sites is at most four times the precision, for all random numbers and contents of the arrays of the solver in each of the calls. -/
theorem C93_run (T : Torus S) (bs : Fin 4 → ℕ) (U : GField S N) (κ csw : ℝ) (D : SField S N → SField S N)
    (A : ℕ → SField S N → SField S N) (hop : SapOperators T bs U κ csw D A) (ε : ℝ) (maxSteps : ℕ) (rnd : ℕ → ℕ → SField S N)
    (c u : ℕ → ℕ → ℕ → SField S N) (steps : ℕ) (b y : SField S N)
    (h : sapRun D (fun n => complementRun D (blockSolve (A 1) ε maxSteps (rnd n 1) (c n 1) (u n 1))
      (blockSolve (A 0) ε maxSteps (rnd n 0) (c n 0) (u n 0)) (blockIndex T bs 1) (blockIndex T bs 0)) (steps + 1) b = (some y, true)) :
    partNorm2 (blockIndex T bs 0) (b - D y) ≤ 4 * ε := by
  have hlin : Linear (A 0) := sapOperators_linear hop 0
  set K : ℕ → SField S N → Option (SField S N) × Bool := fun n => complementRun D (blockSolve (A 1) ε maxSteps (rnd n 1) (c n 1) (u n 1))
      (blockSolve (A 0) ε maxSteps (rnd n 0) (c n 0) (u n 0)) (blockIndex T bs 1) (blockIndex T bs 0) with hKdef
  have hK : ∀ n b' z, K n b' = (some z, true) → partNorm2 (blockIndex T bs 0) (b' - D z) ≤ ε := by
    intro n b' z hz
    simp only [hKdef, complementRun] at hz
    split at hz
    · rename_i okRed s _ _
      split at hz
      · rename_i okBlack t stp hb
        simp only [Prod.mk.injEq, Option.some.injEq, Bool.and_eq_true] at hz
        obtain ⟨hz, hok⟩ := hz
        obtain ⟨y', hy', hy2⟩ := C36_gmres hlin _ 13 13 ε maxSteps _ _ none _ _ _ hb hok.2
        simp only [Option.some.injEq] at hy'
        subst hy'
        rw [norm2_eq_latticeNorm2, ← fieldNorm_sq] at hy2
        rw [← hz]
        obtain ⟨cc, -, rfl, hA⟩ := sapOperators_spec hop
        refine le_trans (le_of_eq ?_) ((partNorm2_le (blockIndex T bs 0) _).trans hy2.le)
        refine partNorm2_congr fun x hx => ?_
        simp only [Pi.sub_apply]
        rw [improvedSpec_add, Pi.add_apply, hA 0 _ x hx]
        abel
      · simp at hz
    · simp at hz
  have hloop : ∀ k0 ok, partNorm2 (blockIndex T bs 0) (b - D k0) ≤ ε → sapRunLoop D K k0 (steps + 1) (some b, ok) = (some y, true) →
      partNorm2 (blockIndex T bs 0) (b - D y) ≤ 4 * ε := by
    intro k0 ok hk0 hl
    rw [sapRunLoop] at hl
    split at hl
    · rename_i o ok1 _
      split at hl
      · rename_i k ok2 hk
        simp only [Prod.mk.injEq, Option.some.injEq, Bool.and_eq_true] at hl
        obtain ⟨hy, -, hok2⟩ := hl
        rw [hok2] at hk
        have h2 := hK _ _ _ hk
        obtain ⟨cc, -, rfl, hA⟩ := sapOperators_spec hop
        have e : b - improvedSpec T U κ cc y = (b - improvedSpec T U κ cc k0) - (improvedSpec T U κ cc o - improvedSpec T U κ cc k) := by
          rw [← hy, improvedSpec_add, improvedSpec_sub]; abel
        rw [e]
        exact (partNorm2_sub_le _ _ _).trans (by linarith)
      · simp at hl
    · simp at hl
  unfold sapRun at h
  split at h
  · rename_i k0 ok hk
    cases ok with
    | true => exact hloop k0 true (hK 0 b k0 hk) h
    | false =>
      exfalso
      have hf : ∀ n o, (sapRunLoop D K k0 n (o, false)).2 = false := by
        intro n
        induction n with
        | zero => intro o; rfl
        | succ n ih =>
          intro o
          rw [sapRunLoop]
          have := ih o
          split
          · rename_i o' ok' he
            rw [he] at this
            change ok' = false at this
            split <;> simp [this]
          · rfl
      have := hf (steps + 1) (some b)
      rw [h] at this
      cases this
  · simp at h

/-- **C93 fails for sources in the black blocks.** For the Wilson operator and every source that is not zero and vanishes on the red blocks, for example
every point source on a black site, the solver of the red blocks starts at the exact solution and divides zero by zero: the result of the
preconditioner is NaN, for every lattice, `κ`, links, positive precision and number of steps. -/
theorem C93_source_counterexample (T : Torus S) (bs : Fin 4 → ℕ) (U : GField S N) (κ precision : ℝ) (hp : 0 < precision) (maxSteps : ℕ)
    (hm : 0 < maxSteps) (rnd : ℕ → ℕ → SField S N) (c u : ℕ → ℕ → ℕ → SField S N) (steps : ℕ) (b : SField S N) (hb : b ≠ 0)
    (hred : ∀ x, blockIndex T bs 1 x = true → b x = 0) :
    let ε := sapPrecision precision (fieldNorm b ^ 2)
    let A := fun k => blockMul T (blockIndex T bs k) U κ 0 false
    let D := optMul T U κ false
    sapRun D (fun n => complementRun D (blockSolve (A 1) ε maxSteps (rnd n 1) (c n 1) (u n 1))
      (blockSolve (A 0) ε maxSteps (rnd n 0) (c n 0) (u n 0)) (blockIndex T bs 1) (blockIndex T bs 0)) steps b = (none, false) := by
  intro ε A D
  have hpos : 0 < fieldNorm b ^ 2 := by
    rw [fieldNorm_sq, ← norm2_eq_latticeNorm2]; exact norm2_pos hb
  have hε : ε < fieldNorm b ^ 2 := by
    change sapPrecision _ _ < _
    unfold sapPrecision
    split_ifs with h
    · norm_num; linarith
    · linarith
  have hfix : A 1 b = b := by
    change blockMul T (blockIndex T bs 1) U κ 0 false b = b
    rw [← blockImproved_zero]
    funext x
    by_cases hx : blockIndex T bs 1 x = true
    · rw [improvedBlock_part T _ U κ 0 b x hx, hred x hx]
      have h0 : projectBlock (blockIndex T bs 1) b = 0 := by
        funext z
        by_cases hz : blockIndex T bs 1 z = true
        · simp [projectBlock, hred z hz]
        · simp [projectBlock, hz]
      have hz : improvedSpec T U κ 0 (0 : SField S N) = 0 := by
        have := improvedSpec_sub T U κ 0 (0 : SField S N) 0
        rw [sub_self, sub_self] at this; exact this
      rw [h0, hz]; rfl
    · have hhop : hoppingSpec T (blockLinks T (blockIndex T bs 1) U) b x = 0 := by
        simp only [hoppingSpec]
        refine Finset.sum_eq_zero fun μ _ => ?_
        simp [blockLinks, hx, T.sup_sdn]
      rw [C83_block]
      simp [withGamma5, hhop, diagSite]
  have hlin : Linear (A 1) := blockMul_linear T _ U κ
  have hsolve : blockSolve (A 1) ε maxSteps (rnd 0 1) (c 0 1) (u 0 1) b = .ok ⟨false, none, some maxSteps⟩ := by
    have h1 := (C36_exact_start_counterexample hlin b b (rnd 0 1) hfix ε maxSteps hm (c 0 1) (u 0 1)).2.2.2
    rw [← h1]
    unfold blockSolve gmresSolve
    have hs : startVector ε b (rnd 0 1) none = startVector ε b (rnd 0 1) (some b) := by
      rw [startVector, startVector, norm2_eq_latticeNorm2, ← fieldNorm_sq, if_pos hε]
    rw [hs]
  unfold sapRun
  have hK : complementRun D (blockSolve (A 1) ε maxSteps (rnd 0 1) (c 0 1) (u 0 1))
      (blockSolve (A 0) ε maxSteps (rnd 0 0) (c 0 0) (u 0 0)) (blockIndex T bs 1) (blockIndex T bs 0) b = (none, false) := by
    unfold complementRun
    rw [hsolve]
  simp only [hK]

/-! ### Examples -/

/-- The hypotheses of `C93_block_solver`: a point source below the precision, with the zero vector as start, and one step. -/
example : ∃ x₀ : SField (BoxSite exExt3) 2, ∃ (ε : ℝ) (b rnd : SField (BoxSite exExt3) 2) (h : ℝ), |(1 / 20 : ℝ)| * (8 + 6 * |(0 : ℝ)|) = h ∧ h < 1 ∧
    0 < ε ∧ (x₀ = if ε < fieldNorm b ^ 2 then b else rnd) ∧
    blockMul (boxTorus exExt3 exExt3_pos) (blockIndex (boxTorus exExt3 exExt3_pos) ![1, 6, 6, 6] 1) (fun _ _ => 1) (1 / 20) 0 false x₀ ≠ b ∧
    (1 - ((1 - h) / (1 + h)) ^ 2) ^ 1 * fieldNorm (b - blockMul (boxTorus exExt3 exExt3_pos)
      (blockIndex (boxTorus exExt3 exExt3_pos) ![1, 6, 6, 6] 1) (fun _ _ => 1) (1 / 20) 0 false x₀) ^ 2 < ε := by
  set b : SField (BoxSite exExt3) 2 := unitField ⟨⟨0, 0, 0, 0⟩, by decide⟩ (0, 0) with hb
  have h1 : fieldNorm b ^ 2 = 1 := by
    have h2 : latticeDot b b = 1 := by rw [hb, latticeDot_unitField]; simp [unitField]
    rw [fieldNorm_sq, ← norm2_eq_latticeNorm2]
    change (latticeDot b b).re = 1
    rw [h2, Complex.one_re]
  have h0 := (blockMul_linear (boxTorus exExt3 exExt3_pos) (blockIndex (boxTorus exExt3 exExt3_pos) ![1, 6, 6, 6] 1) (fun _ _ => (1 : Mat 2))
    (1 / 20)).zero
  refine ⟨0, 2, b, 0, 2 / 5, by norm_num, by norm_num, by norm_num, ?_, ?_, ?_⟩
  · rw [h1, if_neg (by norm_num)]
  · rw [h0]
    intro hc
    rw [← hc, fieldNorm_sq, ← norm2_eq_latticeNorm2, norm2_zero] at h1
    norm_num at h1
  · rw [h0, sub_zero, h1]
    norm_num

/-- The solver of the blocks with the identity. -/
theorem blockSolve_id (ε : ℝ) (c u : ℕ → SField S N) (b : SField S N) (hb : b ≠ 0) (h : fieldNorm b ^ 2 < ε) :
    blockSolve (fun v => v) ε 1 0 c u b = .ok ⟨true, some b, some 0⟩ := by
  have hp := norm2_pos hb
  have hn : ¬ norm2 b > ε := by rw [norm2_eq_latticeNorm2, ← fieldNorm_sq]; exact not_lt.mpr h.le
  have he : 0 < ε := lt_of_le_of_lt (sq_nonneg _) h
  have e : (Vec.dot ((((√(norm2 b))⁻¹ : ℝ) : ℂ) • b) b) • ((((√(norm2 b))⁻¹ : ℝ) : ℂ) • b) = b := by
    rw [smul_dot, Complex.conj_ofReal, dot_self, smul_smul]
    have : (((√(norm2 b))⁻¹ : ℝ) : ℂ) * (norm2 b : ℂ) * (((√(norm2 b))⁻¹ : ℝ) : ℂ) = 1 := by
      rw [← Complex.ofReal_mul, ← Complex.ofReal_mul, mul_right_comm, ← mul_inv, Real.mul_self_sqrt hp.le, inv_mul_cancel₀ hp.ne', Complex.ofReal_one]
    rw [this, one_smul]
  unfold blockSolve gmresSolve
  rw [if_neg (by omega), if_neg (by omega)]
  simp only [startVector, if_neg hn, gmresLoop, gmresStep, gmresOrtho, Nat.zero_mod, sub_zero, if_neg hp.ne', zero_add, e, sub_self, norm2_zero,
    if_pos he]

/-- The hypothesis of `C93_run` can be met: `κ = 0`, a source below the precision with parts on both colours. -/
example : let T := boxTorus exExt3 exExt3_pos
    let A : ℕ → SField (BoxSite exExt3) 2 → SField (BoxSite exExt3) 2 :=
      fun k => blockMul T (blockIndex T ![1, 6, 6, 6] k) (fun _ _ => 1) 0 0 false
    let D := optMul T (fun _ _ => (1 : Mat 2)) 0 false
    ∃ (b : SField (BoxSite exExt3) 2) (ε : ℝ), b ≠ 0 ∧ sapRun D (fun _ => complementRun D (blockSolve (A 1) ε 1 0 (fun _ => 0) (fun _ => 0))
      (blockSolve (A 0) ε 1 0 (fun _ => 0) (fun _ => 0)) (blockIndex T ![1, 6, 6, 6] 1) (blockIndex T ![1, 6, 6, 6] 0)) 1 b = (some b, true) := by
  intro T A D
  have hA : ∀ k, A k = fun v => v := by
    intro k
    funext v
    change blockMul T _ _ 0 0 false v = v
    rw [C33_block]
    funext x
    simp [withGamma5, wilsonSpec]
  have hD : ∀ v, D v = v := by
    intro v
    change optMul T _ 0 false v = v
    rw [(C33_wilson T _ 0 false v).1]
    change wilsonSpec T _ 0 v = v
    funext x
    simp [wilsonSpec]
  let b : SField (BoxSite exExt3) 2 := fun _ _ _ => 1
  have hb : b ≠ 0 := fun h => one_ne_zero (congrFun (congrFun (congrFun h ⟨⟨0, 0, 0, 0⟩, by decide⟩) 0) 0)
  refine ⟨b, fieldNorm b ^ 2 + 1, hb, ?_⟩
  set bl := blockIndex T ![1, 6, 6, 6] 0 with hbl
  have hsplit : b - projectBlock (blockIndex T ![1, 6, 6, 6] 1) b = projectBlock bl b := by
    funext x
    rw [Pi.sub_apply]
    unfold projectBlock
    rw [blockIndex_red, ← hbl]
    cases bl x <;> simp
  have hsum : projectBlock bl (projectBlock bl b) + projectBlock (blockIndex T ![1, 6, 6, 6] 1) b = b := by
    funext x
    rw [Pi.add_apply]
    unfold projectBlock
    rw [blockIndex_red, ← hbl]
    cases bl x <;> simp
  have hb0 : projectBlock bl b ≠ 0 := fun h => by
    have h1 := congrFun (congrFun (congrFun h ⟨⟨0, 0, 0, 0⟩, by decide⟩) 0) 0
    have h2 : bl ⟨⟨0, 0, 0, 0⟩, by decide⟩ = true := by rw [hbl]; simp [blockIndex, T, boxTorus, Site.get]
    simp only [projectBlock, h2, if_true] at h1
    exact one_ne_zero h1
  have hn : fieldNorm (projectBlock bl b) ^ 2 < fieldNorm b ^ 2 + 1 := by
    rw [← norm_toE, norm_toE_part]
    linarith [partNorm2_le bl b]
  have hK : complementRun D (blockSolve (A 1) (fieldNorm b ^ 2 + 1) 1 0 (fun _ => 0) (fun _ => 0))
      (blockSolve (A 0) (fieldNorm b ^ 2 + 1) 1 0 (fun _ => 0) (fun _ => 0)) (blockIndex T ![1, 6, 6, 6] 1) bl b = (some b, true) := by
    unfold complementRun
    rw [hA, hA, blockSolve_id _ _ _ b hb (by linarith)]
    simp only [hD, hsplit]
    rw [blockSolve_id _ _ _ _ hb0 hn]
    simp only [hsum, Bool.and_self]
  unfold sapRun
  simp only [hK, sapRunLoop, hD, sub_self, zero_add, Bool.and_self]

end Leonard
