/-
C38: settings of a solver take effect on the next solve and do not change by solving.
-/
import Verif.Solver.Settings
import Verif.Solver.Props

set_option autoImplicit false

namespace Leonard

open Vec

variable {V : Type} [AddCommGroup V] [Module ℂ V] [Vec V]

/-! ### What a user expects -/

/-- The settings of a solver as the user made them. -/
structure Settings where
  precision : ℝ
  maxSteps : ℕ
  dim : ℕ
  evenOdd : Bool

/-- The results a user expects from a sequence of calls: every solve uses the settings made last, and nothing else. -/
def expected {R : Type} (solve : Settings → Problem V → R) : Settings → List (SolverCall V) → List R
  | _, [] => []
  | s, .setPrecision ε :: cs => expected solve { s with precision := ε } cs
  | s, .setMaximumSteps n :: cs => expected solve { s with maxSteps := n } cs
  | s, .setDimension d :: cs => expected solve { s with dim := d } cs
  | s, .setEvenOdd b :: cs => expected solve { s with evenOdd := b } cs
  | s, .solve q :: cs => solve s q :: expected solve s cs

/-- Is the call a solve? -/
def SolverCall.isSolve : SolverCall V → Bool
  | .solve _ => true
  | _ => false

/-- Does the call change the precision or the step limit? -/
def SolverCall.changes : SolverCall V → Bool
  | .setPrecision _ => true
  | .setMaximumSteps _ => true
  | _ => false

/-! ### The kept vectors of GMRESR do not matter -/

theorem gmresOrtho_congr {c u c' u' : ℕ → V} (cj uj : V) : ∀ j, (∀ i < j, c i = c' i ∧ u i = u' i) →
    gmresOrtho c u cj uj j = gmresOrtho c' u' cj uj j := by
  intro j
  induction j with
  | zero => intro _; rfl
  | succ i ih =>
    intro h
    simp only [gmresOrtho, ih fun k hk => h k (by omega), (h i (by omega)).1, (h i (by omega)).2]

/-- Two states that agree in everything the iteration has written. -/
def GmresAgree (k dim : ℕ) (s s' : GmresState V) : Prop :=
  s.x = s'.x ∧ s.r = s'.r ∧ ∀ i, i < k → i < dim → s.c i = s'.c i ∧ s.u i = s'.u i

theorem gmresStep_congr (A : V → V) {k dim : ℕ} (hd : 0 < dim) (w : V) {s s' : GmresState V} (h : GmresAgree k dim s s') :
    (gmresStep A (k % dim) w s = none ∧ gmresStep A (k % dim) w s' = none) ∨
    ∃ t t', gmresStep A (k % dim) w s = some t ∧ gmresStep A (k % dim) w s' = some t' ∧ GmresAgree (k + 1) dim t t' := by
  obtain ⟨hx, hr, hc⟩ := h
  have hj : k % dim < dim := Nat.mod_lt _ hd
  have hjk : k % dim ≤ k := Nat.mod_le _ _
  have ho := gmresOrtho_congr (A w) w (k % dim) fun i hi => hc i (by omega) (by omega)
  simp only [gmresStep, ho, hr, hx]
  by_cases h0 : norm2 (gmresOrtho s'.c s'.u (A w) w (k % dim)).1 = 0
  · left; simp [h0]
  · right
    rw [if_neg h0, if_neg h0]
    refine ⟨_, _, rfl, rfl, rfl, rfl, fun i h1 h2 => ?_⟩
    by_cases hi : i = k % dim
    · subst hi; simp
    · simp only [Function.update_of_ne hi]
      refine hc i ?_ h2
      have hne : i ≠ k := by
        rintro rfl
        exact hi (Nat.mod_eq_of_lt h2).symm
      omega

theorem gmresLoop_congr (A : V → V) (P : ℕ → V → V) {dim : ℕ} (prec : ℝ) : ∀ (n k : ℕ) (s s' : GmresState V),
    (0 < dim ∨ n = 0) → GmresAgree k dim s s' → gmresLoop A P dim prec n k s = gmresLoop A P dim prec n k s' := by
  intro n
  induction n with
  | zero => intro k s s' _ h; simp [gmresLoop, h.1]
  | succ n ih =>
    intro k s s' hd h
    have hd' : 0 < dim := by omega
    simp only [gmresLoop, ← h.2.1]
    rcases gmresStep_congr A hd' (P k s.r) h with ⟨h1, h2⟩ | ⟨t, t', h1, h2, h3⟩
    · rw [h1, h2]
    · rw [h1, h2]
      simp only [h3.2.1, h3.1, ih (k + 1) t t' (Or.inl hd') h3]

theorem mgLoop_congr (A : V → V) (P : ℕ → V → V) (prec : ℝ) (ms : ℕ) : ∀ (n k : ℕ) (s s' : GmresState V),
    GmresAgree k 15 s s' → mgLoop A P prec ms n k s = mgLoop A P prec ms n k s' := by
  intro n
  induction n with
  | zero => intro k s s' h; simp [mgLoop, h.1]
  | succ n ih =>
    intro k s s' h
    simp only [mgLoop, ← h.2.1]
    rcases gmresStep_congr A (by norm_num) (P k s.r) h with ⟨h1, h2⟩ | ⟨t, t', h1, h2, h3⟩
    · rw [h1, h2]
    · rw [h1, h2]
      simp only [h3.2.1, h3.1, ih (k + 1) t t' h3]

/-- **C38**, GMRESR: what an earlier solve left in memory has no influence. -/
theorem C38_gmres_memory (A : V → V) (P : ℕ → V → V) (allocated dim : ℕ) (prec : ℝ) (maxSteps : ℕ) (b rnd : V) (guess : Option V)
    (c u c' u' : ℕ → V) :
    gmresSolve A P allocated dim prec maxSteps b rnd guess c u = gmresSolve A P allocated dim prec maxSteps b rnd guess c' u' := by
  unfold gmresSolve
  split
  · rfl
  split
  · rfl
  rename_i h _
  refine congrArg Outcome.ok ?_
  refine gmresLoop_congr A P prec maxSteps 0 _ _ ?_ ⟨rfl, rfl, fun i hi => absurd hi (by omega)⟩
  omega

/-- **C38**, GMRESR: in every sequence of calls in which the dimension is set to values between 1 and the number 13 of the
constructor only, every solve gives what the settings made last give on a new object, and no call leaves
the arrays.  What is missing: larger dimensions, see `C38_dimension_counterexample`. -/
theorem C38_gmres_partial (ws : ℕ → (ℕ → V) × (ℕ → V)) (cs : List (SolverCall V))
    (hcs : ∀ d, SolverCall.setDimension d ∈ cs → 1 ≤ d ∧ d ≤ 13) :
    gmresRun ws 0 GmresObj.new cs = expected (fun s q => gmresSolve q.A q.P 13 s.dim s.precision s.maxSteps q.source q.rnd q.guess 0 0)
        ⟨1 / 10 ^ 10, 1000, 13, true⟩ cs ∧
      ∀ r ∈ gmresRun ws 0 GmresObj.new cs, r ≠ .ub := by
  suffices h : ∀ (cs : List (SolverCall V)) (i : ℕ) (o : GmresObj) (b : Bool), o.allocated = 13 → 1 ≤ o.dim → o.dim ≤ 13 →
      (∀ d, SolverCall.setDimension d ∈ cs → 1 ≤ d ∧ d ≤ 13) →
      gmresRun ws i o cs = expected (fun s q => gmresSolve q.A q.P 13 s.dim s.precision s.maxSteps q.source q.rnd q.guess 0 0)
        ⟨o.precision, o.maxSteps, o.dim, b⟩ cs ∧ ∀ r ∈ gmresRun ws i o cs, r ≠ .ub by
    exact h cs 0 GmresObj.new true rfl (by simp [GmresObj.new]) (by simp [GmresObj.new]) hcs
  intro cs
  induction cs with
  | nil => intro i o b _ _ _ _; simp [gmresRun, expected]
  | cons c cs ih =>
    intro i o b ha h1 h2 hcs
    have hcs' : ∀ d, SolverCall.setDimension d ∈ cs → 1 ≤ d ∧ d ≤ 13 := fun d hd => hcs d (List.mem_cons_of_mem _ hd)
    cases c with
    | setPrecision ε => exact ih (i + 1) { o with precision := ε } b ha h1 h2 hcs'
    | setMaximumSteps n => exact ih (i + 1) { o with maxSteps := n } b ha h1 h2 hcs'
    | setDimension d =>
      have := hcs d (by simp)
      exact ih (i + 1) { o with dim := d } b ha this.1 this.2 hcs'
    | setEvenOdd e => exact ih (i + 1) o e ha h1 h2 hcs'
    | solve q =>
      obtain ⟨ih1, ih2⟩ := ih (i + 1) o b ha h1 h2 hcs'
      simp only [gmresRun, expected, ih1, ha, List.mem_cons, forall_eq_or_imp]
      refine ⟨by rw [C38_gmres_memory _ _ _ _ _ _ _ _ _ _ _ 0 0], ?_, by rw [← ih1]; exact ih2⟩
      unfold gmresSolve
      rw [if_neg (by omega), if_neg (by omega)]
      simp

/-- **C38** is violated by GMRESR: after the dimension is set to 14 every solve that may take 14 steps leaves the arrays. -/
theorem C38_dimension_counterexample (ws : ℕ → (ℕ → V) × (ℕ → V)) (q : Problem V) :
    gmresRun ws 0 GmresObj.new [.setDimension 14, .solve q] = [.ub] ∧
    gmresRun ws 0 (GmresObj.copy { GmresObj.new with dim := 14 }) [.solve q] ≠ [.ub] := by
  constructor
  · simp [gmresRun, GmresObj.new, gmresSolve]
  · simp [gmresRun, GmresObj.new, GmresObj.copy, gmresSolve]

/-! ### PreconditionedBiCGStab -/

/-- **C38**, PreconditionedBiCGStab: when precision and step limit are set before the first solve only, every solve uses the settings
made last.  What is missing: later changes, see `C38_prec_counterexample`. -/
theorem C38_prec_partial {R : Type} (core : ℝ → ℕ → Bool → Problem V → R) (pre post : List (SolverCall V))
    (hpre : ∀ c ∈ pre, c.isSolve = false) (hpost : ∀ c ∈ post, c.changes = false) :
    precRun core PrecState.new (pre ++ post) =
      expected (fun s q => core s.precision s.maxSteps s.evenOdd q) ⟨1 / 10 ^ 10, 1000, 0, true⟩ (pre ++ post) := by
  have hpost' : ∀ (cs : List (SolverCall V)) (st : PrecState) (d : ℕ), (∀ c ∈ cs, c.changes = false) →
      (st.inner = none ∨ st.inner = some (st.precision, st.maxSteps)) →
      precRun core st cs = expected (fun s q => core s.precision s.maxSteps s.evenOdd q) ⟨st.precision, st.maxSteps, d, st.evenOdd⟩ cs := by
    intro cs
    induction cs with
    | nil => intro st d _ _; rfl
    | cons c cs ih =>
      intro st d hc hi
      have hc' : ∀ c ∈ cs, c.changes = false := fun c h => hc c (List.mem_cons_of_mem _ h)
      cases c with
      | setPrecision ε => have := hc _ List.mem_cons_self; simp [SolverCall.changes] at this
      | setMaximumSteps n => have := hc _ List.mem_cons_self; simp [SolverCall.changes] at this
      | setDimension e => exact ih st e hc' hi
      | setEvenOdd b => exact ih { st with evenOdd := b } d hc' hi
      | solve q =>
        have e : st.inner.getD (st.precision, st.maxSteps) = (st.precision, st.maxSteps) := by
          rcases hi with h | h <;> rw [h] <;> rfl
        have := ih { st with inner := some (st.precision, st.maxSteps) } d hc' (Or.inr rfl)
        simp only [precRun, PrecState.call, e, Option.toList, expected, List.singleton_append]
        rw [this]
  suffices h : ∀ (pre : List (SolverCall V)) (st : PrecState) (d : ℕ), (∀ c ∈ pre, c.isSolve = false) → st.inner = none →
      precRun core st (pre ++ post) =
        expected (fun s q => core s.precision s.maxSteps s.evenOdd q) ⟨st.precision, st.maxSteps, d, st.evenOdd⟩ (pre ++ post) by
    exact h pre PrecState.new 0 hpre rfl
  intro pre
  induction pre with
  | nil => intro st d _ hi; exact hpost' post st d hpost (Or.inl hi)
  | cons c cs ih =>
    intro st d hc hi
    have hc' : ∀ c ∈ cs, c.isSolve = false := fun c h => hc c (List.mem_cons_of_mem _ h)
    cases c with
    | setPrecision ε => exact ih { st with precision := ε } d hc' hi
    | setMaximumSteps n => exact ih { st with maxSteps := n } d hc' hi
    | setDimension e => exact ih st e hc' hi
    | setEvenOdd b => exact ih { st with evenOdd := b } d hc' hi
    | solve q => have := hc _ List.mem_cons_self; simp [SolverCall.isSolve] at this

/-- **C38** is violated by PreconditionedBiCGStab: once it has solved with a step limit of zero, a larger limit has no effect;
every later solve fails, for every operator, source and guess. -/
theorem C38_prec_counterexample (n : ℕ) (q q' : Problem V) : ∀ r ∈ precRun
      (fun ε n _ (q : Problem V) => bicgSolve q.A ε n q.source q.rnd q.guess) PrecState.new
      [.setMaximumSteps 0, .solve q, .setMaximumSteps n, .solve q'], r.ok = false := by
  intro r hr
  simp [precRun, PrecState.call, PrecState.new, bicgSolve, bicgLoop] at hr
  rcases hr with rfl | rfl <;> rfl

/-- The same problem on a new object with the larger limit succeeds. -/
theorem C38_prec_fresh : ∃ q : Problem (Fin 1 → ℂ), ∀ r ∈ precRun
      (fun ε n _ (q : Problem (Fin 1 → ℂ)) => bicgSolve q.A ε n q.source q.rnd q.guess) PrecState.new
      [.setMaximumSteps 1, .solve q], r.ok = true := by
  refine ⟨⟨fun v => v, fun _ v => v, fun _ => 1, 0, some 0⟩, fun r hr => ?_⟩
  have hd : ∀ x y : ℂ, dot (fun _ : Fin 1 => x) (fun _ : Fin 1 => y) = starRingEnd ℂ x * y := fun x y => by
    show ∑ m : Fin 1, _ = _
    simp
  simp [precRun, PrecState.call, PrecState.new, bicgSolve, bicgLoop, startVector, hd] at hr
  rw [hr, dot_zero]
  simp

/-! ### MultiGridSolver -/

/-- **C38**, MultiGridSolver: precision and memory behave as expected, and a solve that does not reach the precision leaves the step
limit alone; after one that does, the limit is the number of steps it took before the last one.  What is missing: this last
effect, see `C38_multigrid_counterexample`. -/
theorem C38_multigrid_partial (A : V → V) (hA : Linear A) (P : ℕ → V → V) (prec : ℝ) (maxSteps : ℕ) (b : V) (guess : Option V)
    (c u c' u' : ℕ → V) :
    mgSolve A P prec maxSteps b guess c u = mgSolve A P prec maxSteps b guess c' u' ∧
    (mgSolve A P prec maxSteps b guess c u).2 ≤ maxSteps ∧
    ((mgSolve A P prec maxSteps b guess c u).2 ≠ maxSteps → SolvesTo A b prec (mgSolve A P prec maxSteps b guess c u).1.x) := by
  have hagree : GmresAgree 0 15 (⟨startVector prec b 0 guess, b - A (startVector prec b 0 guess), c, u⟩ : GmresState V)
      ⟨startVector prec b 0 guess, b - A (startVector prec b 0 guess), c', u'⟩ := ⟨rfl, rfl, fun i hi => absurd hi (by omega)⟩
  have key : ∀ (bound : ℝ) (n k : ℕ) (st : GmresState V), k + n = maxSteps → GmresInv A b bound 15 k st →
      (mgLoop A P prec maxSteps n k st).2 ≤ maxSteps ∧
      ((mgLoop A P prec maxSteps n k st).2 ≠ maxSteps → SolvesTo A b prec (mgLoop A P prec maxSteps n k st).1) := by
    intro bound n
    induction n with
    | zero => intro k st _ _; simp [mgLoop]
    | succ n ih =>
      intro k st hk h
      simp only [mgLoop]
      cases hs : gmresStep A (k % 15) (P k st.r) st with
      | none => simp
      | some st' =>
        have h' := gmresStep_inv hA (by norm_num) _ h hs
        simp only []
        by_cases h1 : norm2 st'.r < prec
        · rw [if_pos h1]
          exact ⟨by omega, fun _ => ⟨st'.x, rfl, by rw [← h'.res]; exact h1⟩⟩
        · rw [if_neg h1]
          exact ih (k + 1) st' (by omega) h'
  refine ⟨?_, ?_⟩
  · simp only [mgSolve, mgLoop_congr A P prec maxSteps maxSteps 0 _ _ hagree]
  · simp only [mgSolve]
    exact key (norm2 (b - A (startVector prec b 0 guess))) maxSteps 0 _ (by omega)
      ⟨rfl, fun i hi => absurd hi (by omega), le_rfl⟩

/-- **C38** is violated by MultiGridSolver: a solve that converges in its first step sets the step limit to zero; every later solve
returns the initial vector, and reports success. -/
theorem C38_multigrid_counterexample : ∃ (A : (Fin 1 → ℂ) → Fin 1 → ℂ) (P : ℕ → (Fin 1 → ℂ) → Fin 1 → ℂ) (b : Fin 1 → ℂ), Linear A ∧
    ∀ (ws : ℕ → (ℕ → Fin 1 → ℂ) × (ℕ → Fin 1 → ℂ)) (b' rnd : Fin 1 → ℂ) (g : Fin 1 → ℂ), ∃ r,
      mgRun ws 0 (1, 1000) [.solve ⟨A, P, b, rnd, none⟩, .solve ⟨A, P, b', rnd, some g⟩] = [r, ⟨true, some g, none⟩] := by
  refine ⟨fun v => (2 : ℂ) • v, fun _ v => v, fun _ => 2, ⟨fun v w => smul_add _ _ _, fun a v => smul_comm _ _ _⟩, ?_⟩
  intro ws b' rnd g
  have hd : ∀ x y : ℂ, dot (fun _ : Fin 1 => x) (fun _ : Fin 1 => y) = starRingEnd ℂ x * y := fun x y => by
    show ∑ m : Fin 1, _ = _
    simp
  have hn : ∀ x : ℂ, norm2 (fun _ : Fin 1 => x) = Complex.normSq x := fun x => by
    unfold norm2; rw [hd, mul_comm, Complex.mul_conj, Complex.ofReal_re]
  have e1 : (fun _ : Fin 1 => (2 : ℂ)) - (2 : ℂ) • (fun _ : Fin 1 => (2 : ℂ)) = fun _ => -2 := by
    funext; simp only [Pi.sub_apply, Pi.smul_apply, smul_eq_mul]; norm_num
  have e2 : (2 : ℂ) • (fun _ : Fin 1 => (-2 : ℂ)) = fun _ => -4 := by
    funext; simp only [Pi.smul_apply, smul_eq_mul]; norm_num
  have n4 : norm2 (fun _ : Fin 1 => (-4 : ℂ)) = 16 := by
    rw [hn, Complex.normSq_neg, Complex.normSq_ofNat]; norm_num
  have s16 : Real.sqrt 16 = 4 := by
    rw [show (16 : ℝ) = 4 ^ 2 by norm_num]; exact Real.sqrt_sq (by norm_num)
  have e3 : ((((4 : ℝ))⁻¹ : ℝ) : ℂ) • (fun _ : Fin 1 => (-4 : ℂ)) = fun _ => -1 := by
    funext; simp only [Pi.smul_apply, smul_eq_mul]; push_cast; norm_num
  have d1 : dot (fun _ : Fin 1 => (-1 : ℂ)) (fun _ : Fin 1 => (-2 : ℂ)) = 2 := by
    rw [hd, map_neg, map_one]; norm_num
  have e4 : (fun _ : Fin 1 => (-2 : ℂ)) - (2 : ℂ) • (fun _ : Fin 1 => (-1 : ℂ)) = 0 := by
    funext; simp only [Pi.sub_apply, Pi.smul_apply, smul_eq_mul]; norm_num
  have n2 : norm2 (fun _ : Fin 1 => (2 : ℂ)) > 1 := by
    rw [hn, Complex.normSq_ofNat]; norm_num
  have step : ∀ c u : ℕ → Fin 1 → ℂ, (mgSolve (fun v : Fin 1 → ℂ => (2 : ℂ) • v) (fun _ v => v) 1 1000 (fun _ => 2) none c u).2 = 0 := by
    intro c u
    simp only [mgSolve, startVector, if_pos n2, e1]
    rw [show (1000 : ℕ) = 999 + 1 from rfl, mgLoop]
    simp only [gmresStep, Nat.zero_mod, gmresOrtho, e2, n4, s16, e3, d1, e4]
    norm_num [norm2_zero]
  refine ⟨(mgSolve (fun v : Fin 1 → ℂ => (2 : ℂ) • v) (fun _ v => v) 1 1000 (fun _ => 2) none (ws 0).1 (ws 0).2).1, ?_⟩
  simp only [mgRun, step]
  rfl

/-! ### The block basis -/

/-- **C38**, block basis: setting the dimension once to the present one leaves everything consistent.  What is missing: every other
value, see `C38_basis_counterexample`. -/
theorem C38_basis_partial (n : ℤ) : (BasisState.new n).setDimension n = BasisState.new n ∧
    (BasisState.new n).orthogonalize = .ok n := by
  simp [BasisState.new, BasisState.setDimension, BasisState.orthogonalize]

/-- **C38** is violated by the block basis: after the dimension is set to a smaller value orthogonalisation leaves the array; after it
is set to a larger one only the old number of vectors is orthonormalised. -/
theorem C38_basis_counterexample (n m : ℤ) :
    (m < n → ((BasisState.new n).setDimension m).orthogonalize = .ub) ∧
    (n < m → ((BasisState.new n).setDimension m).orthogonalize = .ok n) := by
  constructor <;> intro h
  · simp [BasisState.new, BasisState.setDimension, BasisState.orthogonalize, h, h.ne]
  · have : ¬ m < n := by omega
    simp [BasisState.new, BasisState.setDimension, BasisState.orthogonalize, this, h.ne']

/-! ### The hypotheses can be met -/

example (q q' : Problem V) : ∃ pre post : List (SolverCall V), (∀ c ∈ pre, c.isSolve = false) ∧ (∀ c ∈ post, c.changes = false) ∧
    pre ++ post = [.setPrecision 1, .setMaximumSteps 7, .solve q, .setEvenOdd false, .solve q'] :=
  ⟨[.setPrecision 1, .setMaximumSteps 7], [.solve q, .setEvenOdd false, .solve q'], by simp [SolverCall.isSolve],
    by simp [SolverCall.changes], rfl⟩

example (q : Problem V) : ∀ d, SolverCall.setDimension d ∈ [SolverCall.setDimension 5, .solve q, .setDimension 13, .solve q] → 1 ≤ d ∧ d ≤ 13 := by
  intro d h
  simp at h
  rcases h with rfl | rfl <;> omega

end Leonard
