import Verif.Mgsetup.Model
import Verif.Mgsolve.Props
import Verif.Solver.Props

/-!
# C98: the construction of the multigrid basis
-/

set_option autoImplicit false

namespace Leonard

open Vec Matrix

noncomputable section

variable {S R : Type} [Fintype S] [DecidableEq R] {N : ℕ}

/-! ### Lemmas -/

theorem mapM_outcome_length {α β : Type} (f : α → Outcome β) : ∀ (l : List α) (r : List β), l.mapM f = .ok r → r.length = l.length
  | [], r, h => by
    rw [List.mapM_nil] at h
    cases h; rfl
  | a :: l, r, h => by
    rw [List.mapM_cons] at h
    cases ha : f a with
    | ok b =>
      cases hl : l.mapM f with
      | ok bs =>
        rw [ha, hl] at h
        cases h
        simp [mapM_outcome_length f l bs hl]
      | exit c => rw [ha, hl] at h; cases h
      | ub => rw [ha, hl] at h; cases h
    | exit c => rw [ha] at h; cases h
    | ub => rw [ha] at h; cases h

theorem mapM_outcome_ok {α β : Type} (f : α → Outcome β) (hf : ∀ a, ∃ b, f a = .ok b) : ∀ l : List α, ∃ r, l.mapM f = .ok r
  | [] => ⟨[], rfl⟩
  | a :: l => by
    obtain ⟨b, hb⟩ := hf a
    obtain ⟨bs, hbs⟩ := mapM_outcome_ok f hf l
    exact ⟨b :: bs, by rw [List.mapM_cons, hb, hbs]; rfl⟩

theorem mapM_option_length {α : Type} : ∀ (l : List (Option α)) (r : List α), l.mapM id = some r → r.length = l.length
  | [], r, h => by
    rw [List.mapM_nil] at h
    cases h; rfl
  | a :: l, r, h => by
    rw [List.mapM_cons] at h
    cases a with
    | none => cases h
    | some b =>
      cases hl : l.mapM id with
      | none => rw [hl] at h; cases h
      | some bs =>
        rw [hl] at h
        cases h
        simp [mapM_option_length l bs hl]

theorem gmresSolve_defined (D P : SField S N → SField S N) (precision : ℝ) (steps : ℕ) (b rnd : SField S N) (g : Option (SField S N)) (c u : ℕ → SField S N) :
    ∃ r, gmresSolve D (fun _ => P) 13 13 precision steps b rnd g c u = .ok r := by
  unfold gmresSolve
  rw [if_neg (by simp), if_neg (by omega)]
  exact ⟨_, rfl⟩

theorem setupVector_defined (D P : SField S N → SField S N) (precision : ℝ) (steps : ℕ) (start rnd : SField S N) :
    ∃ r, setupVector D P precision steps start rnd = .ok r := by
  obtain ⟨f, hf⟩ := gmresSolve_defined D P precision steps 0 rnd (some start) (fun _ => 0) (fun _ => 0)
  unfold setupVector
  rw [hf, Outcome.bind_ok]
  cases hx : f.x with
  | none => exact ⟨_, rfl⟩
  | some tmp =>
    obtain ⟨s, hs⟩ := gmresSolve_defined D P precision steps tmp rnd none (fun _ => 0) (fun _ => 0)
    exact ⟨s.x, by simp only [hs, Outcome.bind_ok]⟩

theorem initVector_defined (D P : SField S N → SField S N) (precision : ℝ) (steps : ℕ) (v : SField S N × SField S N) :
    ∃ r, initVector D P precision steps v = .ok r := by
  unfold initVector
  cases normalizeField v.1 with
  | none => exact ⟨_, rfl⟩
  | some s => exact setupVector_defined D P precision steps s v.2

theorem finishBasis_spec (rank : S → R) (idx : S → ℕ) {ws : List (Option (SField S N))} {us : List (S → Fin 4 × Fin N → ℂ)}
    (h : finishBasis rank idx ws = some us) : us.length = ws.length ∧ BlockOrthonormal rank idx us.length fun i => us.getD i 0 := by
  unfold finishBasis at h
  rw [Option.bind_eq_some_iff] at h
  obtain ⟨vs, hvs, h⟩ := h
  obtain ⟨h1, h2, -⟩ := C46_orthogonalize rank idx h
  exact ⟨by rw [h1, List.length_map, mapM_option_length _ _ hvs], h2⟩

/-! ### The theorems -/

/-- **C98**: both functions never leave the arrays of the solver. They end with a division by zero, or with as many vectors as asked for, orthonormal in every block. This holds
for every operator, preconditioner, precision, number of steps and all random vectors. -/
theorem C98_basis (rank : S → R) (idx : S → ℕ) (D P : SField S N → SField S N) (precision : ℝ) (steps : ℕ) (random : List (SField S N × SField S N))
    (old : List (S → Fin 4 × Fin N → ℂ)) (rnd : SField S N) :
    (∃ r, initializeBasis rank idx D P precision steps random = .ok r ∧
      ∀ us, r = some us → us.length = random.length ∧ BlockOrthonormal rank idx us.length fun i => us.getD i 0) ∧
    ∃ r, updateBasis rank idx D P precision steps old rnd = .ok r ∧
      ∀ us, r = some us → us.length = old.length ∧ BlockOrthonormal rank idx us.length fun i => us.getD i 0 := by
  constructor
  · obtain ⟨ws, hws⟩ := mapM_outcome_ok _ (initVector_defined D P precision steps) random
    refine ⟨_, by rw [initializeBasis, hws, Outcome.bind_ok], fun us h => ?_⟩
    obtain ⟨h1, h2⟩ := finishBasis_spec rank idx h
    exact ⟨by rw [h1, mapM_outcome_length _ _ _ hws], h2⟩
  · obtain ⟨ws, hws⟩ := mapM_outcome_ok _ (fun w => setupVector_defined D P precision (steps / 5 + 1) (unflatField w) rnd) old
    refine ⟨_, by rw [updateBasis, hws, Outcome.bind_ok], fun us h => ?_⟩
    obtain ⟨h1, h2⟩ := finishBasis_spec rank idx h
    exact ⟨by rw [h1, mapM_outcome_length _ _ _ hws], h2⟩

/-- **C98**: no solution makes the vector worse. The result `tmp` of the first one has `‖D tmp‖ ≤ ‖D start‖`, and if `tmp` is longer than the precision the basis vector `y` has
`‖tmp - D y‖ ≤ ‖tmp - D tmp‖`. -/
theorem C98_smoothing {D : SField S N → SField S N} (hD : Linear D) (P : SField S N → SField S N) (precision : ℝ) (steps : ℕ) (start rnd y : SField S N)
    (h : setupVector D P precision steps start rnd = .ok (some y)) :
    ∃ first tmp, gmresSolve D (fun _ => P) 13 13 precision steps 0 rnd (some start) (fun _ => 0) (fun _ => 0) = .ok first ∧ first.x = some tmp ∧
      fieldNorm (D tmp) ≤ fieldNorm (D start) ∧ (precision < fieldNorm tmp ^ 2 → fieldNorm (tmp - D y) ≤ fieldNorm (tmp - D tmp)) := by
  have hn2 : ∀ v : SField S N, Leonard.norm2 v = fieldNorm v ^ 2 := fun v => by rw [norm2_eq_latticeNorm2, fieldNorm_sq]
  have hneg : ∀ v : SField S N, Leonard.norm2 (0 - v) = Leonard.norm2 v := fun v => by rw [zero_sub, ← neg_one_smul ℂ v, norm2_smul]; simp
  have hnn : ∀ v : SField S N, 0 ≤ fieldNorm v := fun v => Real.sqrt_nonneg _
  obtain ⟨f, hf⟩ := gmresSolve_defined D P precision steps 0 rnd (some start) (fun _ => 0) (fun _ => 0)
  unfold setupVector at h
  rw [hf, Outcome.bind_ok] at h
  cases hx : f.x with
  | none => rw [hx] at h; cases h
  | some tmp =>
    obtain ⟨s, hs⟩ := gmresSolve_defined D P precision steps tmp rnd none (fun _ => 0) (fun _ => 0)
    rw [hx] at h
    simp only [hs, Outcome.bind_ok] at h
    have hy : s.x = some y := Outcome.ok.inj h
    refine ⟨f, tmp, hf, hx, ?_, fun hp => ?_⟩
    · have h1 := C36_gmres_monotone hD _ _ _ _ _ _ _ _ _ _ f tmp hf hx
      rw [hneg, hneg, hn2, hn2] at h1
      exact (sq_le_sq₀ (hnn _) (hnn _)).1 h1
    · have hs' : gmresSolve D (fun _ => P) 13 13 precision steps tmp rnd (some tmp) (fun _ => 0) (fun _ => 0) = .ok s := by
        rw [← hs]
        unfold gmresSolve
        have : startVector precision tmp rnd none = tmp := by
          rw [startVector, if_pos (by rw [hn2]; exact hp)]
        rw [this]
        rfl
      have h1 := C36_gmres_monotone hD _ _ _ _ _ _ _ _ _ _ s y hs' hy
      rw [hn2, hn2] at h1
      exact (sq_le_sq₀ (hnn _) (hnn _)).1 h1

/-- **C98**: the solver converges with the basis that `initializeBasis` (or `updateBasis`) leaves, under the conditions of C95 on the hopping parameter and the coarse solver; nothing has to be
assumed about the basis. -/
theorem C98_convergence [Fintype R] (T : Torus S) (bs : Fin 4 → ℕ) (U : GField S N) (hU : ∀ x μ, U x μ ∈ unitaryGroup (Fin N) ℂ) (κ csw h : ℝ)
    (hh : |κ| * (8 + 6 * |csw|) = h) (h1 : h < 1) (D : SField S N → SField S N) (A : ℕ → SField S N → SField S N)
    (hop : SapOperators T bs U κ csw D A) (solveRed solveBlack : SField S N → SField S N) (hr : ∀ b, A 1 (solveRed b) = b)
    (hb : ∀ b, A 0 (solveBlack b) = b) (n : ℕ) (rank : S → R) (idx thread : S → ℕ) (blocks threads : ℕ)
    (hidx : ∀ x, idx x < blocks) (hne : ∀ r, ∀ j < blocks, ∃ x, rank x = r ∧ idx x = j) (ht : ∀ x, thread x < threads)
    (P : SField S N → SField S N) (gmresPrecision : ℝ) (gmresSteps : ℕ) (random : List (SField S N × SField S N)) (us : List (S → Fin 4 × Fin N → ℂ))
    (hus : initializeBasis rank idx D P gmresPrecision gmresSteps random = .ok (some us) ∨
      ∃ old rnd, updateBasis rank idx D P gmresPrecision gmresSteps old rnd = .ok (some us))
    (η : ℝ) (hη : 0 ≤ η) (coarse : ℕ → (R → ℕ → ℂ) → R → ℕ → ℂ)
    (hc : ∀ k r, CoarseWithin D rank idx thread blocks us.length threads (fun i => us.getD i 0) η (coarse k) r) (ρ q : ℝ) (hq : q = h ^ 2 / (1 - h ^ 2))
    (hρ : ρ = ((1 + η) * (1 + h) * h / (1 - h) ^ 2) ^ 2 * ((q + q ^ 2) * q ^ (2 * n))) (hρ1 : ρ < 1) (precision : ℝ) (hp : 0 < precision)
    (maxSteps : ℕ) (hm : 0 < maxSteps) (b : SField S N) (guess : Option (SField S N)) (c u : ℕ → SField S N) (x₀ : SField S N)
    (hx₀ : x₀ = guess.getD (if precision < fieldNorm b ^ 2 then b else 0)) (hex : D x₀ ≠ b)
    (hn : ρ ^ maxSteps * fieldNorm (b - D x₀) ^ 2 < precision) :
    let sap := sapMul D (complementMul D solveRed solveBlack (blockIndex T bs 1) (blockIndex T bs 0)) (n + 1)
    ∃ y steps, mgSolve D (fun k r => mgCycle D rank idx thread blocks us.length threads (fun i => us.getD i 0) (coarse k) sap r) precision maxSteps b guess c u =
        (⟨true, some y, none⟩, steps) ∧ fieldNorm (b - D y) ^ 2 < precision ∧ steps < maxSteps := by
  have ho : BlockOrthonormal rank idx us.length fun i => us.getD i 0 := by
    rcases hus with hus | ⟨old, rnd, hus⟩
    · obtain ⟨r, e, hr⟩ := (C98_basis rank idx D P gmresPrecision gmresSteps random [] 0).1
      rw [hus] at e
      exact (hr us (Outcome.ok.inj e).symm).2
    · obtain ⟨r, e, hr⟩ := (C98_basis rank idx D P gmresPrecision gmresSteps [] old rnd).2
      rw [hus] at e
      exact (hr us (Outcome.ok.inj e).symm).2
  exact C95_convergence T bs U hU κ csw h hh h1 D A hop solveRed solveBlack hr hb n rank idx thread blocks us.length threads _ hidx hne ht ho η hη coarse hc ρ q hq hρ hρ1
    precision hp maxSteps hm b guess c u x₀ hx₀ hex hn

/-! ### A preconditioner that is too good -/

/-- With an exact preconditioner GMRESR gives the exact solution or a division by zero. -/
theorem gmres_exact {D P : SField S N → SField S N} (hD : Linear D) (hinj : ∀ v, D v = 0 → v = 0) (hP : ∀ r, D (P r) = r) {precision : ℝ} (hp : 0 < precision)
    {steps : ℕ} (hs : 0 < steps) (rnd : SField S N) (g : Option (SField S N)) (c u : ℕ → SField S N) :
    ∃ r, gmresSolve D (fun _ => P) 13 13 precision steps 0 rnd g c u = .ok r ∧ (r.x = none ∨ r.x = some 0) := by
  unfold gmresSolve
  rw [if_neg (by simp), if_neg (by omega)]
  refine ⟨_, rfl, ?_⟩
  set x := startVector precision 0 rnd g
  obtain ⟨m, rfl⟩ : ∃ m, steps = m + 1 := ⟨steps - 1, by omega⟩
  simp only [gmresLoop, gmresStep, Nat.zero_mod, gmresOrtho, hP]
  by_cases h0 : Leonard.norm2 (0 - D x) = 0
  · rw [if_pos h0]
    exact Or.inl rfl
  · rw [if_neg h0]
    set r := (0 : SField S N) - D x with hr
    have hpos : 0 < Leonard.norm2 r := lt_of_le_of_ne (norm2_nonneg r) (Ne.symm h0)
    set s : ℝ := (Real.sqrt (Leonard.norm2 r))⁻¹ with hs
    have hss : s * s * Leonard.norm2 r = 1 := by
      rw [hs, ← mul_inv, Real.mul_self_sqrt hpos.le, inv_mul_cancel₀ h0]
    have hdot : dot ((s : ℂ) • r) r * (s : ℂ) = 1 := by
      rw [← dot_conj, dot_smul, dot_self, map_mul, Complex.conj_ofReal, Complex.conj_ofReal]
      have h2 : ((s * s * Leonard.norm2 r : ℝ) : ℂ) = 1 := by rw [hss, Complex.ofReal_one]
      rw [← h2]
      push_cast
      ring
    have hr0 : r - dot ((s : ℂ) • r) r • (s : ℂ) • r = 0 := by rw [smul_smul, hdot, one_smul, sub_self]
    have hx0 : x + dot ((s : ℂ) • r) r • (s : ℂ) • P r = 0 := by
      rw [smul_smul, hdot, one_smul]
      apply hinj
      rw [hD.add, hP, hr]
      abel
    simp only [hr0, hx0, norm2_zero, if_pos hp]
    simp

theorem setup_exact {D P : SField S N → SField S N} (hD : Linear D) (hinj : ∀ v, D v = 0 → v = 0) (hP : ∀ r, D (P r) = r) {precision : ℝ} (hp : 0 < precision)
    {steps : ℕ} (hs : 0 < steps) (start rnd : SField S N) :
    setupVector D P precision steps start rnd = .ok none ∨ setupVector D P precision steps start rnd = .ok (some 0) := by
  obtain ⟨f, hf, hfx⟩ := gmres_exact hD hinj hP hp hs rnd (some start) (fun _ => 0) (fun _ => 0)
  obtain ⟨g, hg, hgx⟩ := gmres_exact hD hinj hP hp hs rnd none (fun _ => 0) (fun _ => 0)
  unfold setupVector
  rw [hf, Outcome.bind_ok]
  rcases hfx with e | e
  · rw [e]; exact Or.inl rfl
  · rw [e]
    simp only [hg, Outcome.bind_ok]
    rcases hgx with e' | e'
    · rw [e']; exact Or.inl rfl
    · rw [e']; exact Or.inr rfl

/-- **C98** fails for good preconditioners: when the preconditioner solves the system, both solutions give zero and the orthogonalisation divides by zero, for all random vectors and every
number of basis vectors except zero. -/
theorem setup_exact_none [Nonempty S] (rank : S → R) (idx : S → ℕ) {D P : SField S N → SField S N} (hD : Linear D) (hinj : ∀ v, D v = 0 → v = 0) (hP : ∀ r, D (P r) = r)
    {precision : ℝ} (hp : 0 < precision) {steps : ℕ} (hs : 0 < steps) (random : List (SField S N × SField S N)) (hne : random ≠ []) :
    initializeBasis rank idx D P precision steps random = .ok none := by
  obtain ⟨v, rest, rfl⟩ := List.exists_cons_of_ne_nil hne
  obtain ⟨ws, hws⟩ := mapM_outcome_ok _ (initVector_defined D P precision steps) rest
  have hv : initVector D P precision steps v = .ok none ∨ initVector D P precision steps v = .ok (some 0) := by
    unfold initVector
    cases normalizeField v.1 with
    | none => exact Or.inl rfl
    | some s => exact setup_exact hD hinj hP hp hs s v.2
  unfold initializeBasis
  rw [List.mapM_cons, hws]
  rcases hv with e | e
  · rw [e]
    change Outcome.ok (finishBasis rank idx (none :: ws)) = _
    congr 1
  · rw [e]
    change Outcome.ok (finishBasis rank idx (some 0 :: ws)) = _
    congr 1
    unfold finishBasis
    rw [List.mapM_cons]
    cases hl : ws.mapM id with
    | none => rfl
    | some vs =>
      change (basisOrthogonalize rank idx ((0 :: vs).map flatField)) = none
      have hz : blockNormalize (fun _ : S => ()) (flatField (0 : SField S N)) = none := by
        unfold blockNormalize
        rw [if_pos]
        obtain ⟨x⟩ := ‹Nonempty S›
        exact ⟨x, by simp [blockDot, flatField]⟩
      rw [List.map_cons, basisOrthogonalize, blockGramSchmidt]
      simp only [List.foldl_nil, hz, Option.bind_none]

/-- **C98** fails without hopping: for `κ = 0`, exact solutions in the blocks and at least one step of the smoother, the basis cannot be constructed, for all links and random vectors. -/
theorem C98_heavy_counterexample [Nonempty S] (T : Torus S) (bs : Fin 4 → ℕ) (U : GField S N) (hU : ∀ x μ, U x μ ∈ unitaryGroup (Fin N) ℂ) (csw : ℝ)
    (D : SField S N → SField S N) (A : ℕ → SField S N → SField S N) (hop : SapOperators T bs U 0 csw D A) (solveRed solveBlack : SField S N → SField S N)
    (hr : ∀ b, A 1 (solveRed b) = b) (hb : ∀ b, A 0 (solveBlack b) = b) (n : ℕ) (rank : S → R) (idx : S → ℕ) (precision : ℝ) (hp : 0 < precision) (steps : ℕ)
    (hs : 0 < steps) (random : List (SField S N × SField S N)) (hne : random ≠ []) :
    initializeBasis rank idx D (sapMul D (complementMul D solveRed solveBlack (blockIndex T bs 1) (blockIndex T bs 0)) (n + 1)) precision steps random = .ok none := by
  have hz : ∀ v : SField S N, fieldNorm v ^ 2 = 0 → v = 0 := by
    intro v h
    rw [fieldNorm_sq] at h
    exact (C34_dot v v).2.2.1.1 h
  have hid : ∀ v, D v = v := by
    intro v
    have h := sapFull_close hU hop v
    rw [abs_zero, zero_mul, zero_mul] at h
    refine sub_eq_zero.1 (hz _ ?_)
    rw [le_antisymm h (Real.sqrt_nonneg _), zero_pow two_ne_zero]
  refine setup_exact_none rank idx (sapFull_linear hop) (fun v h => by rwa [hid] at h) (fun r => ?_) hp hs random hne
  have h := C93_rate T bs U hU 0 csw 0 (by simp) one_pos D A hop solveRed solveBlack hr hb r r (hid r) n
  rw [sub_self] at h
  rw [hid]
  refine sub_eq_zero.1 (hz _ (le_antisymm ?_ (sq_nonneg _)))
  refine h.trans (le_of_eq ?_)
  simp

/-- The hypotheses of the counterexample can be met: the operators of the blocks are the identity. -/
example (T : Torus S) (bs : Fin 4 → ℕ) (U : GField S N) : ∀ c b, blockMul T (blockIndex T bs c) U 0 0 false (id b) = b := by
  intro c b
  funext x
  simp [C33_block, withGamma5, wilsonSpec]

/-- `C98_convergence`: a basis of one vector is constructed from the random vector with all components one, when the solver takes no steps; the lattice has one site. -/
example (D P : SField Unit 3 → SField Unit 3) : ∃ us, initializeBasis (fun _ : Unit => ()) (fun _ => 0) D P (1 / 2) 0 [(fun _ => Matrix.of fun _ _ => 1, 0)] = .ok (some us) := by
  set v : SField Unit 3 := fun _ => Matrix.of fun _ _ => 1 with hv
  have hv0 : v ≠ 0 := by
    intro h
    have := congrFun (congrFun (congrFun h ()) 0) 0
    simp [hv] at this
  have hn : 0 < Leonard.norm2 v := norm2_pos hv0
  set s : ℝ := (Real.sqrt (Leonard.norm2 v))⁻¹ with hs
  have hs0 : s ≠ 0 := inv_ne_zero (Real.sqrt_pos.2 hn).ne'
  have h1 : Leonard.norm2 ((s : ℂ) • v) = 1 := by
    rw [norm2_smul, Complex.normSq_ofReal, hs, ← mul_inv, Real.mul_self_sqrt hn.le, inv_mul_cancel₀ hn.ne']
  have hset : setupVector D P (1 / 2) 0 ((s : ℂ) • v) 0 = .ok (some ((s : ℂ) • v)) := by
    have hst : startVector (1 / 2) ((s : ℂ) • v) 0 none = (s : ℂ) • v := by rw [startVector, if_pos (by rw [h1]; norm_num)]
    have hs2 : startVector (1 / 2) (0 : SField Unit 3) 0 (some ((s : ℂ) • v)) = (s : ℂ) • v := rfl
    simp only [setupVector, gmresSolve, gmresLoop, hs2, ne_eq, not_true_eq_false, false_and, if_false, Nat.min_zero, Nat.not_lt_zero, Outcome.bind_ok, hst]
  have hinit : initVector D P (1 / 2) 0 (v, 0) = .ok (some ((s : ℂ) • v)) := by
    simp only [initVector, normalizeField, if_neg hn.ne']
    exact hset
  have hli : ∀ p : Unit, LinearIndependent ℂ fun i : Fin 1 => onBlock (fun _ : Unit => ()) (fun _ => 0) p ((fun _ => flatField ((s : ℂ) • v)) i) := by
    intro p
    rw [linearIndependent_unique_iff]
    intro h
    have := congrFun (congrFun h ⟨(), rfl, rfl⟩) (0, 0)
    simp [onBlock, flatField, hv] at this
    exact hs0 this
  obtain ⟨us, hus⟩ := (C46_orthogonalize_defined (fun _ : Unit => ()) (fun _ => 0) (fun _ : Fin 1 => flatField ((s : ℂ) • v))).2 hli
  refine ⟨us, ?_⟩
  unfold initializeBasis
  rw [List.mapM_cons, hinit]
  change Outcome.ok (finishBasis _ _ [some ((s : ℂ) • v)]) = _
  congr 1

end

end Leonard
