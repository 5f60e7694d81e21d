/-
C37: a multishift solver that reports success solves every shifted system.
-/
import Verif.Solver.ShiftLemmas

set_option autoImplicit false

namespace Leonard

open Vec

variable {V : Type} [AddCommGroup V] [Module ℂ V] [Vec V]

/-- The vectors `xs` solve the systems `(A + σ) x = b`, one for every shift in the list, to the precision `eps`. -/
def SolvesAll (A : V → V) (b : V) (eps : ℝ) (shifts : List ℝ) (xs : List (Option V)) : Prop :=
  List.Forall₂ (fun σ x => SolvesTo (fun v => A v + ((σ : ℝ) : ℂ) • v) b eps x) shifts xs

theorem solvesAll_of {A : V → V} {B : ℂ → V → V} (hB : ∀ σ v, B σ v = A v + σ • v) {b : V} {eps : ℝ} {shifts : List ℝ}
    {xs : List (Option V)} (h : List.Forall₂ (fun σ x => SolvesTo (B (σ : ℝ)) b eps x) shifts xs) :
    SolvesAll A b eps shifts xs := by
  have : B = fun σ v => A v + σ • v := by funext σ v; exact hB σ v
  subst this
  exact h

/-- **C37**, mass extrapolation solver: success with at least one step means that every returned vector solves its own
system, for every linear operator, source and list of shifts.  What is missing: with a step limit of zero success is
reported as well, see `C37_no_steps_counterexample`. -/
theorem C37_me_partial {A : V → V} {B : ℂ → V → V} (hA : Linear A) (hB : ∀ σ v, B σ v = A v + σ • v) (eps : ℝ)
    {maxSteps : ℕ} (hm : maxSteps ≠ 0) (b : V) (room : ℕ) (shifts : List ℝ) (xs : List (Option V))
    (h : meSolve B eps maxSteps b room shifts = .ok (true, xs)) : SolvesAll A b eps shifts xs := by
  have hL := shift_linear hA hB
  cases shifts with
  | nil => simp [meSolve] at h
  | cons σ rest =>
    simp only [meSolve] at h
    split at h
    · simp at h
    simp only [Outcome.ok.injEq, Prod.mk.injEq, Bool.and_eq_true] at h
    obtain ⟨⟨h1, h2⟩, rfl⟩ := h
    exact solvesAll_of hB (List.Forall₂.cons
      (shiftCgLoop_ok (hL _) b eps maxSteps _ _ _ _ hm (by rw [(hL _).zero, sub_zero]) h1) (meLoop_ok hL b eps hm rest _ h2))

/-- **C37**, chronological solver: the same, whatever the memory of the new vectors held before. -/
theorem C37_chrono_partial {A : V → V} {B : ℂ → V → V} (hA : Linear A) (hB : ∀ σ v, B σ v = A v + σ • v) (eps : ℝ)
    {maxSteps : ℕ} (hm : maxSteps ≠ 0) (b : V) (room : ℕ) (old : ℕ → V) (shifts : List ℝ) (xs : List (Option V))
    (h : chronoSolve B eps maxSteps b room old shifts = .ok (true, xs)) : SolvesAll A b eps shifts xs := by
  have hL := shift_linear hA hB
  cases shifts with
  | nil => simp [chronoSolve] at h
  | cons σ rest =>
    simp only [chronoSolve] at h
    split at h
    · simp at h
    simp only [Outcome.ok.injEq, Prod.mk.injEq, Bool.and_eq_true] at h
    obtain ⟨⟨h1, h2⟩, rfl⟩ := h
    exact solvesAll_of hB (List.Forall₂.cons
      (shiftCgLoop_ok (hL _) b eps maxSteps _ _ _ _ hm (by rw [(hL _).zero, sub_zero]) h1) (chronoLoop_ok hL b eps hm old rest 1 _ h2))

/-- **C37**, minimal residual solver: success means that every vector solves its own system if, from the first shift that is not
negative on, the last shift is the smallest one and the operator with this shift is Hermitian and positive.  What is
missing: other orders of the shifts, see `C37_order_counterexample`. -/
theorem C37_mmmr_partial {A : V → V} {B : ℂ → V → V} (hA : Linear A) (hB : ∀ σ v, B σ v = A v + σ • v) (eps : ℝ)
    (maxSteps : ℕ) (b : V) (room : ℕ) (shifts : List ℝ) (hne : shifts ≠ [])
    (hH : HermPos fun v => A v + ((shifts.getLast hne : ℝ) : ℂ) • v)
    (hord : ∀ σ ∈ shifts.dropWhile (fun σ => decide (σ < 0)), shifts.getLast hne ≤ σ) (xs : List (Option V))
    (h : mmmrSolve B eps maxSteps b room shifts = .ok (true, xs)) : SolvesAll A b eps shifts xs := by
  have e : B (shifts.getLast hne : ℝ) = fun v => A v + ((shifts.getLast hne : ℝ) : ℂ) • v := by funext v; exact hB _ v
  unfold mmmrSolve at h
  split at h
  · simp at h
  exact solvesAll_of hB (mmmrFront_ok hA hB (by norm_num) eps b shifts xs (fun _ => ⟨by rw [e]; exact hH, hord⟩) h)

/-- **C37** is violated when no step is allowed: the first two solvers report success and return zero for every shift. -/
theorem C37_no_steps_counterexample {A : V → V} {B : ℂ → V → V} (hA : Linear A) (hB : ∀ σ v, B σ v = A v + σ • v)
    (b : V) (eps : ℝ) (heps : 0 < eps) (hb : eps ≤ norm2 b) (σ : ℝ) (old : ℕ → V) :
    meSolve B eps 0 b 1 [σ] = .ok (true, [some 0]) ∧ chronoSolve B eps 0 b 1 old [σ] = .ok (true, [some 0]) ∧
    ¬ SolvesAll A b eps [σ] [some 0] := by
  refine ⟨by simp [meSolve, meLoop, shiftCgLoop], by simp [chronoSolve, chronoLoop, shiftCgLoop], ?_⟩
  rintro (_ | ⟨⟨y, hy, h⟩, _⟩)
  cases hy
  simp only [hA.zero, smul_zero, add_zero, sub_zero] at h
  linarith

/-- **C37** is violated by the minimal residual solver when the last shift is not the smallest: with the unit operator and the
shifts 0 and 1 it stops when the system of the last shift is solved, the other one is not. -/
theorem C37_order_counterexample : ∃ xs, mmmrSolve (fun σ (v : Fin 1 → ℂ) => v + σ • v) (5 / 1000) 1 (fun _ => 1) 2 [0, 1] = .ok (true, xs) ∧
    ¬ SolvesAll (fun v : Fin 1 → ℂ => v) (fun _ => 1) (5 / 1000) [0, 1] xs := by
  have hd : ∀ x y : ℂ, dot (fun _ : Fin 1 => x) (fun _ : Fin 1 => y) = starRingEnd ℂ x * y := fun x y => by
    show ∑ m : Fin 1, _ = _
    simp
  have hn : ∀ x : ℂ, norm2 (fun _ : Fin 1 => x) = Complex.normSq x := fun x => by
    unfold norm2; rw [hd, mul_comm, Complex.mul_conj, Complex.ofReal_re]
  have e1 : ∀ x y : ℂ, (fun _ : Fin 1 => x) + y • (fun _ : Fin 1 => x) = fun _ => x + y * x := fun x y => rfl
  have e2 : ∀ x y z : ℂ, (fun _ : Fin 1 => x) - y • (fun _ : Fin 1 => z) = fun _ => x - y * z := fun x y z => rfl
  have e3 : ∀ y z : ℂ, (0 : Fin 1 → ℂ) + y • (fun _ : Fin 1 => z) = fun _ => y * z := fun y z => by
    funext; simp
  refine ⟨[some fun _ => 19 / 21, some fun _ => 475 / 1000], ?_, ?_⟩
  · simp only [mmmrSolve, mmmrFront, mmmrLoop, mmmrShift]
    simp [e1, e2, e3, hd, hn]
    have e4 : (fun _ : Fin 1 => (1 : ℂ)) + (fun _ : Fin 1 => (1 : ℂ)) = fun _ => 2 := by
      funext; simp only [Pi.add_apply]; norm_num
    have e5 : (fun _ : Fin 1 => (1 : ℂ)) - (((475 / 1000 : ℂ) • fun _ : Fin 1 => (1 : ℂ)) + (475 / 1000 : ℂ) • fun _ : Fin 1 => (1 : ℂ)) =
        fun _ => ((1 / 20 : ℝ) : ℂ) := by
      funext; simp only [Pi.add_apply, Pi.sub_apply, Pi.smul_apply, smul_eq_mul]; push_cast; norm_num
    have d1 : dot (fun _ : Fin 1 => (2 : ℂ)) (fun _ : Fin 1 => (1 : ℂ)) = 2 := by rw [hd, map_ofNat, mul_one]
    have d2 : dot (fun _ : Fin 1 => (2 : ℂ)) (fun _ : Fin 1 => (2 : ℂ)) = 4 := by rw [hd, map_ofNat]; norm_num
    have a : (0.95 : ℂ) * (2 / 4) = 475 / 1000 := by norm_num
    simp only [e4, d1, d2, a, e5, hn, Complex.normSq_ofReal]
    norm_num
  · rintro (_ | ⟨⟨y, hy, h⟩, _⟩)
    cases hy
    have : ((fun _ => 1 : Fin 1 → ℂ) - ((fun _ => 19 / 21 : Fin 1 → ℂ) + (((0 : ℝ) : ℂ)) • (fun _ => 19 / 21 : Fin 1 → ℂ))) =
        fun _ => ((2 / 21 : ℝ) : ℂ) := by
      funext; simp; norm_num
    rw [this, hn, Complex.normSq_ofReal] at h
    norm_num at h

/-- **C37**, memory: an empty list of shifts, too few vectors for the results, or (minimal residual solver) only negative shifts
lead outside the arrays; in all other cases they do not. -/
theorem C37_bounds (B : ℂ → V → V) (eps : ℝ) (maxSteps : ℕ) (b : V) (room : ℕ) (old : ℕ → V) (shifts : List ℝ) :
    (meSolve B eps maxSteps b room shifts = .ub ↔ shifts = [] ∨ room < shifts.length) ∧
    (chronoSolve B eps maxSteps b room old shifts = .ub ↔ shifts = [] ∨ room < shifts.length) ∧
    (mmmrSolve B eps maxSteps b room shifts = .ub ↔ (∀ σ ∈ shifts, σ < 0) ∨ room < shifts.length) := by
  refine ⟨?_, ?_, ?_⟩
  · cases shifts with
    | nil => simp [meSolve]
    | cons σ rest => by_cases h : room < rest.length + 1 <;> simp [meSolve, h]
  · cases shifts with
    | nil => simp [chronoSolve]
    | cons σ rest => by_cases h : room < rest.length + 1 <;> simp [chronoSolve, h]
  · unfold mmmrSolve
    by_cases h : room < shifts.length
    · simp [h]
    simp only [h, if_false, or_false]
    clear h
    induction shifts with
    | nil => simp [mmmrFront]
    | cons σ rest ih =>
      by_cases h0 : σ < 0
      · simp only [mmmrFront, if_pos h0, List.mem_cons, forall_eq_or_imp, h0, true_and, ← ih]
        cases mmmrFront B 0.95 eps maxSteps b rest <;> simp [bind, Outcome.bind]
      · simp [mmmrFront, h0]

/-- **C37**, the mass extrapolation solver finds all solutions of Hermitian positive systems when it may take as many steps as
the space has dimensions; it can only fail if the source is zero or if the vector returned for one of the shifts
happens to solve the system of another one exactly. -/
theorem C37_me_converges [FiniteDimensional ℂ V] {A : V → V} {B : ℂ → V → V} (hA : Linear A)
    (hB : ∀ σ v, B σ v = A v + σ • v) {eps : ℝ} (heps : 0 < eps) {maxSteps : ℕ} (hn : Module.finrank ℂ V ≤ maxSteps) (b : V)
    (hb : b ≠ 0) (room : ℕ) (shifts : List ℝ) (hH : ∀ σ ∈ shifts, HermPos fun v => A v + ((σ : ℝ) : ℂ) • v) (xs : List (Option V))
    (h : meSolve B eps maxSteps b room shifts = .ok (false, xs)) : ∃ σ ∈ shifts, ∃ y, some y ∈ xs ∧ A y + ((σ : ℝ) : ℂ) • y = b := by
  have hL := shift_linear hA hB
  have e : ∀ σ : ℝ, B σ = fun v => A v + (σ : ℂ) • v := fun σ => by funext v; exact hB _ v
  cases shifts with
  | nil => simp [meSolve] at h
  | cons σ rest =>
    simp only [meSolve] at h
    split at h
    · simp at h
    simp only [Outcome.ok.injEq, Prod.mk.injEq] at h
    obtain ⟨h1, rfl⟩ := h
    have h2 : (shiftCgLoop (B σ) eps maxSteps 0 b (some b) (norm2 b)).1 = true :=
      shiftCgLoop_terminates (hL _) (by rw [e]; exact hH σ (by simp)) heps maxSteps ⊥ _ _ _ _ (CgInv.start (hL _) hb) (by simpa using hn)
    obtain ⟨y, hy⟩ := shiftCgLoop_some eps maxSteps _ _ _ _ h2
    rw [h2, Bool.true_and, hy] at h1
    obtain ⟨τ, h3, z, h4, h5⟩ := meLoop_converges hL heps hn b rest y
      (fun τ hτ => by rw [e]; exact hH τ (List.mem_cons_of_mem _ hτ)) h1
    rw [hy]
    exact ⟨τ, List.mem_cons_of_mem _ h3, z, h5, by rw [← hB]; exact h4⟩

/-- **C37**, the minimal residual solver converges geometrically on Hermitian positive systems: with `m` and `K` bounds of the operator
with the last shift, each step multiplies the squared residual by at most `1 - 0.9975 m²/K`. -/
theorem C37_mmmr_converges {A : V → V} {B : ℂ → V → V} (hB : ∀ σ v, B σ v = A v + σ • v) {eps : ℝ} (heps : 0 < eps) (n : ℕ)
    (b : V) (hb : b ≠ 0) (room : ℕ) (shifts : List ℝ) (hroom : shifts.length ≤ room) (hne : shifts ≠ []) (hpos : ∀ σ ∈ shifts, 0 ≤ σ)
    (hH : HermPos fun v => A v + ((shifts.getLast hne : ℝ) : ℂ) • v) {m K : ℝ} (hm : 0 < m)
    (hlow : ∀ v, m * norm2 v ≤ (dot v (A v + ((shifts.getLast hne : ℝ) : ℂ) • v)).re)
    (hup : ∀ v, norm2 (A v + ((shifts.getLast hne : ℝ) : ℂ) • v) ≤ K * norm2 v)
    (hrate : (1 - 0.9975 * m ^ 2 / K) ^ (n + 1) * norm2 b < eps) :
    ∃ xs, mmmrSolve B eps (n + 1) b room shifts = .ok (true, xs) := by
  have e : ∀ σ : ℝ, B σ = fun v => A v + (σ : ℂ) • v := fun σ => by funext v; exact hB _ v
  cases shifts with
  | nil => exact absurd rfl hne
  | cons σ rest =>
    have h0 : ¬ σ < 0 := not_lt.mpr (hpos σ (by simp))
    unfold mmmrSolve
    rw [if_neg (by omega), mmmrFront, if_neg h0]
    have h1 := mmmrLoop_converges (B := B) (σl := (σ :: rest).getLast hne) (by rw [e]; exact hH) hm
      (by intro v; rw [e]; exact hlow v) (by intro v; rw [e]; exact hup v) (omega := 0.95) (by norm_num) (by norm_num) heps n
      b 0 ((σ :: rest).dropLast.map fun s => (s, some (1, 0))) hb
      (by have : (0.95 : ℝ) * (2 - 0.95) = 0.9975 := by norm_num
          rw [this]; exact hrate)
    generalize mmmrLoop B 0.95 eps ((σ :: rest).getLast hne) (n + 1) b 0 ((σ :: rest).dropLast.map fun s => (s, some (1, 0))) = res at *
    obtain ⟨r1, r2⟩ := res
    simp only at h1
    subst h1
    exact ⟨r2, rfl⟩

/-! ### The hypotheses can be met -/

/-- The unit operator on one component, with the shifts 2 and 1: the minimal residual solver succeeds for every source. -/
example (eps : ℝ) (heps : 0 < eps) (b : Fin 1 → ℂ) (hb : b ≠ 0) : ∃ n xs,
    mmmrSolve (fun σ (v : Fin 1 → ℂ) => v + σ • v) eps (n + 1) b 2 [2, 1] = .ok (true, xs) ∧
      SolvesAll (fun v : Fin 1 → ℂ => v) b eps [2, 1] xs := by
  have hL : Linear (fun v : Fin 1 → ℂ => v) := ⟨fun _ _ => rfl, fun _ _ => rfl⟩
  have hd : ∀ v : Fin 1 → ℂ, v + ((([2, 1] : List ℝ).getLast (by simp) : ℝ) : ℂ) • v = (2 : ℂ) • v := fun v => by
    simp only [List.getLast_cons_cons, List.getLast_singleton, Complex.ofReal_one]; module
  have hdot : ∀ v : Fin 1 → ℂ, (dot v ((2 : ℂ) • v)).re = 2 * norm2 v := fun v => by
    rw [dot_smul, dot_self]; simp
  have hH : HermPos fun v : Fin 1 → ℂ => v + ((([2, 1] : List ℝ).getLast (by simp) : ℝ) : ℂ) • v := by
    simp only [hd]
    refine ⟨fun v w => by rw [smul_dot, dot_smul, map_ofNat], fun v hv => ?_⟩
    rw [hdot]
    have := norm2_pos hv
    linarith
  obtain ⟨n, hn⟩ := exists_pow_lt_of_lt_one (show 0 < eps / norm2 b from div_pos heps (norm2_pos hb))
    (show (1 - 0.9975 * 2 ^ 2 / 4 : ℝ) < 1 by norm_num)
  have hq : (1 - 0.9975 * 2 ^ 2 / 4 : ℝ) ^ (n + 1) * norm2 b < eps := by
    rw [← lt_div_iff₀ (norm2_pos hb)]
    refine lt_of_le_of_lt ?_ hn
    rw [pow_succ]
    have : (0 : ℝ) ≤ (1 - 0.9975 * 2 ^ 2 / 4) ^ n := by positivity
    nlinarith
  obtain ⟨xs, hxs⟩ := C37_mmmr_converges (A := fun v : Fin 1 → ℂ => v) (B := fun σ v => v + σ • v) (fun _ _ => rfl) heps n b hb 2
    [2, 1] (by simp) (by simp) (by simp) hH (m := 2) (K := 4) (by norm_num)
    (fun v => by rw [hd, hdot]) (fun v => by rw [hd, norm2_smul]; norm_num [Complex.normSq_ofNat]) hq
  refine ⟨n, xs, hxs, C37_mmmr_partial hL (fun _ _ => rfl) eps _ b 2 [2, 1] (by simp) hH ?_ xs hxs⟩
  intro σ hσ
  have := List.dropWhile_subset _ hσ
  simp at this
  rcases this with rfl | rfl <;> simp

end Leonard
