/-
C82: the multigrid multishift solver solves the shifted systems.
-/
import Verif.Shiftmg.Lemmas
import Verif.Dirac.HermProps

set_option autoImplicit false

namespace Leonard

open Vec

section general

variable {V : Type} [AddCommGroup V] [Module ℂ V] [Vec V]

/-- The residual of `(H² + s) x = b` is at most `bound`. -/
def SquareSolves (H : V → V) (s : ℝ) (b : V) (bound : ℝ) (x : Option V) : Prop :=
  ∃ v, x = some v ∧ norm2 (b - (H (H v) + (s : ℂ) • v)) ≤ bound

theorem shiftRest_reached {A : ℝ → V → V} (hA : ∀ τ, Linear (A τ)) (P : ℝ → ℕ → V → V) (G : V → V) (prec : ℝ) (c u : ℕ → V)
    (junk : ℕ → Option V) (b : V) (Q : ℝ → Option V → Prop)
    (hQ : ∀ s y x, norm2 (b - A (-Real.sqrt s) y) < prec → norm2 (G y - A (Real.sqrt s) x) < prec → Q s (some x)) :
    ∀ (shifts : List ℝ) (limit pass : ℕ) (py px : Option V),
      List.Forall₂ (fun s e => e.reached = true → Q s e.x) shifts (shiftRest A P G prec c u junk b limit pass py px shifts) := by
  intro shifts
  induction shifts with
  | nil => intro _ _ _ _; exact List.Forall₂.nil
  | cons s rest ih =>
    intro limit pass py px
    refine List.Forall₂.cons (fun h => ?_) (ih _ _ _ _)
    obtain ⟨y, x, hx, e1, e2⟩ := twistPair_reached hA P prec c u limit b _ _ s h
    rw [hx]
    exact hQ s y x e1 e2

theorem shiftRest_limit {A : ℝ → V → V} (hA : ∀ τ, Linear (A τ)) (P : ℝ → ℕ → V → V) (G : V → V) (prec : ℝ) (c u : ℕ → V)
    (junk : ℕ → Option V) (b : V) :
    ∀ (shifts : List ℝ) (limit pass : ℕ) (py px : Option V),
      2 * ((shiftRest A P G prec c u junk b limit pass py px shifts).filter (·.reached)).length ≤ limit := by
  intro shifts
  induction shifts with
  | nil => intro _ _ _ _; simp [shiftRest]
  | cons s rest ih =>
    intro limit pass py px
    have h := twistPair_le hA P G prec c u limit b (some (if pass < 2 then py else junk pass)) (some px) s
    have h2 := ih (twistPair A P G prec c u limit b (some (if pass < 2 then py else junk pass)) (some px) s).2 (pass + 1)
      (twistPair A P G prec c u limit b (some (if pass < 2 then py else junk pass)) (some px) s).1.y
      (twistPair A P G prec c u limit b (some (if pass < 2 then py else junk pass)) (some px) s).1.x
    simp only [shiftRest]
    generalize twistPair A P G prec c u limit b (some (if pass < 2 then py else junk pass)) (some px) s = e at h h2 ⊢
    rw [List.filter_cons]
    split
    · rename_i hr
      rw [if_pos hr] at h
      rw [List.length_cons]
      omega
    · omega

/-- **C82**, step limit: for small shifts the number of systems for which the precision is reached is at most half of the
step limit of the multigrid solver, because every solve that reaches it lowers the limit for the following ones.  For
every family of linear operators, every multigrid cycle and every memory content. -/
theorem C82_limit {A : ℝ → V → V} (hA : ∀ τ, Linear (A τ)) (B : ℂ → V → V) (P : ℝ → ℕ → V → V) (G : V → V) (eps prec : ℝ)
    (c u : ℕ → V) (junk : ℕ → Option V) (maxSteps limit : ℕ) (b : V) (shifts : List ℝ)
    (hs : ∀ s ∈ shifts, 0 ≤ s ∧ s ≤ 0.001) :
    2 * ((shiftTrace B A P G eps prec c u junk maxSteps limit b shifts).filter (·.reached)).length ≤ limit := by
  cases shifts with
  | nil => simp [shiftTrace]
  | cons s rest =>
    have h0 := hs s (by simp)
    have hn : ¬ (s < 0 ∨ s > 0.001) := by rintro (h | h) <;> linarith [h0.1, h0.2]
    simp only [shiftTrace, if_neg hn, List.filter_cons]
    have h := twistPair_le hA P G prec c u limit (G b) none none s
    have h2 := shiftRest_limit hA P G prec c u junk (G b) rest (twistPair A P G prec c u limit (G b) none none s).2 0
      (twistPair A P G prec c u limit (G b) none none s).1.y (twistPair A P G prec c u limit (G b) none none s).1.x
    split
    · rename_i hr
      rw [if_pos hr] at h
      rw [List.length_cons]
      omega
    · omega

/-- The operator of the shifts, abstractly: see `C82_shifts_partial` for the lattice operator. -/
theorem shiftTrace_reached {G D : V → V} (hG : Linear G) (hGG : ∀ v, G (G v) = v) (hn : ∀ v, norm2 (G v) = norm2 v)
    (hD : Linear D) {A : ℝ → V → V}
    (hA : ∀ τ v, A τ v = if |τ| > 0.00000000000000001 then D v + (Complex.I * τ) • G v else D v) {B : ℂ → V → V}
    (hB : ∀ σ v, B σ v = G (D (G (D v))) + σ • v) (P : ℝ → ℕ → V → V) {eps prec L : ℝ} (hL0 : 0 ≤ L) (c u : ℕ → V)
    (junk : ℕ → Option V) (maxSteps limit : ℕ) (b : V) (back : List ℝ)
    (hback : ∀ s ∈ back, s = 0 ∨ s > 1e-34) (hL : ∀ s ∈ back, ∀ v, norm2 (A (-Real.sqrt s) v) ≤ L * norm2 v) :
    ∀ front : List ℝ, (∀ s ∈ front, s < 0 ∨ s > 0.001) →
    List.Forall₂ (fun s e => e.reached = true → SquareSolves (fun v => G (D v)) s b (max eps (2 * (1 + L) * prec)) e.x)
      (front ++ back) (shiftTrace B A P G eps prec c u junk maxSteps limit b (front ++ back)) := by
  have hAl : ∀ τ, Linear (A τ) := fun τ => by
    constructor
    · intro v w
      simp only [hA]
      split
      · rw [hD.add, hG.add, smul_add]; abel
      · exact hD.add v w
    · intro a v
      simp only [hA]
      split
      · rw [hD.smul, hG.smul, smul_add, smul_comm]
      · exact hD.smul a v
  have hBl : ∀ σ : ℂ, Linear (B σ) := fun σ => by
    constructor
    · intro v w; simp only [hB, hD.add, hG.add, smul_add]; abel
    · intro a v; simp only [hB, hD.smul, hG.smul, smul_add, smul_comm σ a]
  -- the product of the two twisted operators
  have hprod : ∀ s, (s = 0 ∨ s > 1e-34) → ∀ v, G (A (-Real.sqrt s) (G (A (Real.sqrt s) v))) = G (D (G (D v))) + (s : ℂ) • v := by
    intro s hs v
    rcases hs with rfl | hs
    · simp [hA]
    · have hs0 : 0 ≤ s := le_trans (by norm_num) hs.le
      have hq : Real.sqrt s > 0.00000000000000001 := by
        rw [gt_iff_lt, Real.lt_sqrt (by norm_num)]
        exact lt_of_eq_of_lt (by norm_num) hs
      have ha : |Real.sqrt s| > 0.00000000000000001 := by rwa [abs_of_nonneg (Real.sqrt_nonneg s)]
      have ha' : |-Real.sqrt s| > 0.00000000000000001 := by rwa [abs_neg]
      rw [hA (Real.sqrt s), if_pos ha, hA (-Real.sqrt s), if_pos ha']
      simp only [hG.add, hG.smul, hD.add, hD.smul, hGG, smul_add, smul_smul]
      have e : (Complex.I * ((-Real.sqrt s : ℝ) : ℂ)) * (Complex.I * ((Real.sqrt s : ℝ) : ℂ)) = (s : ℂ) := by
        have h1 : ((Real.sqrt s : ℝ) : ℂ) * ((Real.sqrt s : ℝ) : ℂ) = (s : ℂ) := by
          rw [← Complex.ofReal_mul, Real.mul_self_sqrt hs0]
        push_cast
        linear_combination (-((Real.sqrt s : ℝ) : ℂ) * ((Real.sqrt s : ℝ) : ℂ)) * Complex.I_mul_I + h1
      rw [e]
      have e2 : Complex.I * ((-Real.sqrt s : ℝ) : ℂ) = -(Complex.I * ((Real.sqrt s : ℝ) : ℂ)) := by push_cast; ring
      rw [e2, neg_smul]
      abel
  have hQ : ∀ s, (s = 0 ∨ s > 1e-34) → (∀ v, norm2 (A (-Real.sqrt s) v) ≤ L * norm2 v) → ∀ y x,
      norm2 (G b - A (-Real.sqrt s) y) < prec → norm2 (G y - A (Real.sqrt s) x) < prec →
      SquareSolves (fun v => G (D v)) s b (max eps (2 * (1 + L) * prec)) (some x) := by
    intro s hs hLs y x e1 e2
    refine ⟨x, rfl, le_trans ?_ (le_max_right _ _)⟩
    have := pair_residual hG hGG hn (hAl (-Real.sqrt s)) hLs hL0 e1 e2
    rwa [hprod s hs] at this
  have hrest : ∀ (shifts : List ℝ) (limit pass : ℕ) (py px : Option V),
      (∀ s ∈ shifts, s = 0 ∨ s > 1e-34) → (∀ s ∈ shifts, ∀ v, norm2 (A (-Real.sqrt s) v) ≤ L * norm2 v) →
      List.Forall₂ (fun s e => e.reached = true → SquareSolves (fun v => G (D v)) s b (max eps (2 * (1 + L) * prec)) e.x) shifts
        (shiftRest A P G prec c u junk (G b) limit pass py px shifts) := by
    intro shifts
    induction shifts with
    | nil => intro _ _ _ _ _ _; exact List.Forall₂.nil
    | cons s rest ih =>
      intro limit pass py px h1 h2
      refine List.Forall₂.cons (fun h => ?_)
        (ih _ _ _ _ (fun t ht => h1 t (List.mem_cons_of_mem _ ht)) (fun t ht => h2 t (List.mem_cons_of_mem _ ht)))
      obtain ⟨y, x, hx, e1, e2⟩ := twistPair_reached hAl P prec c u limit (G b) _ _ s h
      rw [hx]
      exact hQ s (h1 s (by simp)) (h2 s (by simp)) y x e1 e2
  -- conjugate gradients
  have hcg : ∀ s : ℝ, (decide (maxSteps ≠ 0) && (shiftCgLoop (B s) eps maxSteps 0 b (some b) (norm2 b)).1) = true →
      SquareSolves (fun v => G (D v)) s b (max eps (2 * (1 + L) * prec))
        (shiftCgLoop (B s) eps maxSteps 0 b (some b) (norm2 b)).2 := by
    intro s h
    rw [Bool.and_eq_true] at h
    obtain ⟨x, hx, e⟩ := shiftCgLoop_ok (hBl s) b eps maxSteps 0 b (some b) (norm2 b) (of_decide_eq_true h.1)
      (by rw [(hBl s).zero, sub_zero]) h.2
    refine ⟨x, hx, le_trans ?_ (le_max_left _ _)⟩
    rw [hB] at e
    exact e.le
  have hb : List.Forall₂ (fun s e => e.reached = true → SquareSolves (fun v => G (D v)) s b (max eps (2 * (1 + L) * prec)) e.x)
      back (shiftTrace B A P G eps prec c u junk maxSteps limit b back) := by
    have hQs := hQ
    clear hprod
    induction back with
    | nil => exact List.Forall₂.nil
    | cons s rest ih =>
      have h1 : ∀ t ∈ rest, t = 0 ∨ t > 1e-34 := fun t ht => hback t (List.mem_cons_of_mem _ ht)
      have h2 : ∀ t ∈ rest, ∀ v, norm2 (A (-Real.sqrt t) v) ≤ L * norm2 v := fun t ht => hL t (List.mem_cons_of_mem _ ht)
      rw [shiftTrace]
      split
      · exact List.Forall₂.cons (fun h => hcg s h) (ih h1 h2)
      · refine List.Forall₂.cons (fun h => ?_) (hrest rest _ _ _ _ h1 h2)
        obtain ⟨y, x, hx, e1, e2⟩ := twistPair_reached hAl P prec c u limit (G b) _ _ s h
        rw [hx]
        exact hQs s (hback s (by simp)) (hL s (by simp)) y x e1 e2
  intro front
  induction front with
  | nil => intro _; exact hb
  | cons s rest ih =>
    intro hf
    rw [List.cons_append, shiftTrace, if_pos (hf s (by simp))]
    exact List.Forall₂.cons (fun h => hcg s h) (ih fun t ht => hf t (List.mem_cons_of_mem _ ht))

/-- With the identity as operator and a preconditioner that inverts the twisted operators exactly. -/
theorem shift_exact_wrong {G : V → V} (hG : Linear G) (hGG : ∀ v, G (G v) = v) (hn : ∀ v, norm2 (G v) = norm2 v) {A : ℝ → V → V}
    (hA : ∀ τ v, A τ v = if |τ| > 0.00000000000000001 then v + (Complex.I * τ) • G v else v) {P : ℝ → ℕ → V → V}
    (hP : ∀ τ k v, A τ (P τ k v) = v) (B : ℂ → V → V) (eps : ℝ) {prec : ℝ} (hp : 0 < prec) (c u : ℕ → V) (junk : ℕ → Option V)
    (maxSteps limit : ℕ) (b : V) (hb : 4 * prec ≤ norm2 b) :
    ∃ x, mgShiftSolve B A P G eps prec c u junk maxSteps (limit + 1) b 1 [1 / 10000] = .ok (true, [some x]) ∧
      norm2 (b - (x + ((1 / 10000 : ℝ) : ℂ) • x)) = norm2 b / 10000 := by
  have hq : Real.sqrt (1 / 10000) = 1 / 100 := by
    rw [show (1 / 10000 : ℝ) = (1 / 100) ^ 2 by norm_num]; exact Real.sqrt_sq (by norm_num)
  have hA1 : ∀ v, A (1 / 100) v = v + (Complex.I / 100) • G v := fun v => by
    rw [hA, if_pos (by rw [abs_of_pos] <;> norm_num)]
    congr 2; push_cast; ring
  have hA2 : ∀ v, A (-(1 / 100)) v = v - (Complex.I / 100) • G v := fun v => by
    rw [hA, if_pos (by rw [abs_neg, abs_of_pos] <;> norm_num), sub_eq_add_neg, ← neg_smul]
    congr 2; push_cast; ring
  have hsub : ∀ v w, G (v - w) = G v - G w := fun v w => by
    rw [sub_eq_add_neg, hG.add, ← neg_one_smul ℂ w, hG.smul, neg_one_smul, ← sub_eq_add_neg]
  have hb0 : b ≠ 0 := fun h => by rw [h, norm2_zero] at hb; linarith
  have hr : G b - A (-(1 / 100)) (G b) = (Complex.I / 100) • b := by rw [hA2, hGG]; abel
  have hr0 : G b - A (-(1 / 100)) (G b) ≠ 0 := by
    rw [hr]
    exact smul_ne_zero (div_ne_zero Complex.I_ne_zero (by norm_num)) hb0
  have h1 := mgSolve_exact (A := A (-(1 / 100))) (P (-(1 / 100))) hp limit (G b) c u (by rw [hn]; linarith) hr0 (hP _ _ _)
  set y := G b + P (-(1 / 100)) 0 (G b - A (-(1 / 100)) (G b)) with hy
  -- the first system is solved
  have hlin : ∀ v w, A (-(1 / 100)) (v + w) = A (-(1 / 100)) v + A (-(1 / 100)) w := fun v w => by
    simp only [hA2, hG.add, smul_add]; abel
  have hAy : A (-(1 / 100)) y = G b := by rw [hy, hlin, hP]; abel
  have hAy' : y - (Complex.I / 100) • G y = G b := by rw [← hA2]; exact hAy
  have hyG : G y - (Complex.I / 100) • y = b := by
    have := congrArg G hAy'
    rwa [hsub, hG.smul, hGG, hGG] at this
  have hny : norm2 (G y) > prec := by
    have h2 : norm2 (G b) ≤ 2 * norm2 y + 2 * norm2 (-((Complex.I / 100) • G y)) := by
      rw [← hAy', sub_eq_add_neg]; exact norm2_add_le _ _
    rw [← neg_smul, norm2_smul, hn, hn] at h2
    have e : Complex.normSq (-(Complex.I / 100)) = 1 / 10000 := by
      rw [Complex.normSq_neg, map_div₀, Complex.normSq_I, Complex.normSq_ofNat]; norm_num
    rw [e] at h2
    rw [hn]
    linarith
  refine ⟨G y, ?_, ?_⟩
  · have hc : ¬ ((1 / 10000 : ℝ) < 0 ∨ (1 / 10000 : ℝ) > 0.001) := by norm_num
    have hc' : ¬ ((1 / 10000 : ℝ) < 0 ∧ limit + 1 ≠ 0) := by norm_num
    have hl : ¬ (1 < [(1 / 10000 : ℝ)].length) := by simp
    rw [mgShiftSolve, if_neg hl]
    simp only [shiftTrace, if_neg hc, twistPair, if_neg hc', hq, limitedSolve, h1, Option.map_some, shiftRest, List.map_cons,
      List.map_nil]
    simp only [mgSolve, mgLoop, startVector, if_pos hny]
  · -- x = G y; (1 + s) x = b + i t G b
    have e1 : G y + ((1 / 10000 : ℝ) : ℂ) • G y = b + (Complex.I / 100) • G b := by
      have e : ((1 / 10000 : ℝ) : ℂ) = -((Complex.I / 100) * (Complex.I / 100)) := by
        push_cast; linear_combination (1 / 10000 : ℂ) * Complex.I_mul_I
      have e' : b + (Complex.I / 100) • G b = (G y - (Complex.I / 100) • y) + (Complex.I / 100) • (y - (Complex.I / 100) • G y) := by
        rw [hyG, hAy']
      rw [e', e]
      module
    rw [e1, show b - (b + (Complex.I / 100) • G b) = (-(Complex.I / 100)) • G b by rw [neg_smul]; abel, norm2_smul, hn]
    rw [Complex.normSq_neg, map_div₀, Complex.normSq_I, Complex.normSq_ofNat]
    ring

end general

section lattice

variable {S : Type} {N : ℕ} [Fintype S]

theorem norm2_gamma5Field (v : SField S N) : norm2 (gamma5Field v) = norm2 v := by
  have : latticeDot (gamma5Field v) (gamma5Field v) = latticeDot v v := by
    rw [gamma5Field_move, gamma5Field_gamma5Field]
  unfold norm2
  exact congrArg Complex.re this

theorem gamma5Field_linear : Linear (gamma5Field (S := S) (N := N)) := ⟨gamma5Field_add, gamma5Field_smul⟩

/-- **C82**: every shift for which the loops end because of a small residual is solved: the vector returned satisfies
`(H² + s) x = b`, with `H` the Hermitian Wilson or clover operator, to the precision of the two solvers.  For all
lattices, links, parameters, sources, lists of shifts, multigrid cycles and contents of unwritten memory.  `L` bounds the
square of the operator norm of the twisted operators.  What is missing: the flag returned is `true` whether or not the
loops end in this way, and all but a few of them cannot, see `C82_limit` and `C82_flag_counterexample`; negative shifts
after a small one. -/
theorem C82_shifts_partial (T : Torus S) (U : GField S N) (κ csw : ℝ) {B : ℂ → SField S N → SField S N}
    (hB : ∀ o v σ, (squareOp (improvedOp T U κ csw true)).mulAdd o v v σ = .ok (B σ v)) (P : ℝ → ℕ → SField S N → SField S N)
    {eps prec L : ℝ} (hL0 : 0 ≤ L) (c u : ℕ → SField S N) (junk : ℕ → Option (SField S N)) (maxSteps limit : ℕ) (b : SField S N)
    (front back : List ℝ) (hfront : ∀ s ∈ front, s < 0 ∨ s > 0.001) (hback : ∀ s ∈ back, s = 0 ∨ s > 1e-34)
    (hL : ∀ s ∈ back, ∀ v, norm2 ((twistedOp (-Real.sqrt s) (improvedOp T U κ csw false)).mul v) ≤ L * norm2 v) :
    List.Forall₂
      (fun s e => e.reached = true → SquareSolves (improvedOp T U κ csw true).mul s b (max eps (2 * (1 + L) * prec)) e.x)
      (front ++ back)
      (shiftTrace B (fun τ => (twistedOp τ (improvedOp T U κ csw false)).mul) P gamma5Field eps prec c u junk maxSteps limit b
        (front ++ back)) := by
  have hH : ∀ v, (improvedOp T U κ csw true).mul v = gamma5Field ((improvedOp T U κ csw false).mul v) := fun v => by
    simp only [improvedOp, C33_improved, withGamma5, if_true, Bool.false_eq_true, if_false]
  have hB' : ∀ σ v, B σ v = gamma5Field ((improvedOp T U κ csw false).mul (gamma5Field ((improvedOp T U κ csw false).mul v))) + σ • v := by
    intro σ v
    have h1 := hB 0 v σ
    rw [((C33_add_composed _ ((C33_add T U κ csw 0 true id).2.2.1) 0).1 0 v v σ)] at h1
    rw [← Outcome.ok.inj h1]
    simp only [squareOp, hH]
  have := shiftTrace_reached (G := gamma5Field) (D := (improvedOp T U κ csw false).mul) gamma5Field_linear gamma5Field_gamma5Field
    norm2_gamma5Field (improvedMul_linear T U κ csw false) (A := fun τ => (twistedOp τ (improvedOp T U κ csw false)).mul)
    (fun τ v => C33_twist _ τ v) hB' P (eps := eps) (prec := prec) hL0 c u junk maxSteps limit b back hback hL front hfront
  simpa only [← hH] using this

/-- **C82**, the flag: the solver reports success for every input with enough room. -/
theorem C82_flag_counterexample (T : Torus S) (U : GField S N) (B : ℂ → SField S N → SField S N) (eps : ℝ) {prec : ℝ}
    (hp : 0 < prec) (c u : ℕ → SField S N) (junk : ℕ → Option (SField S N)) (maxSteps limit : ℕ) (b : SField S N)
    (hb : 4 * prec ≤ norm2 b) :
    ∃ (P : ℝ → ℕ → SField S N → SField S N) (x : SField S N),
      (∀ τ k v, (twistedOp τ (wilsonOp T U 0 false)).mul (P τ k v) = v) ∧
      mgShiftSolve B (fun τ => (twistedOp τ (wilsonOp T U 0 false)).mul) P gamma5Field eps prec c u junk maxSteps (limit + 1) b 1
        [1 / 10000] = .ok (true, [some x]) ∧
      norm2 (b - ((wilsonOp T U 0 true).mul ((wilsonOp T U 0 true).mul x) + ((1 / 10000 : ℝ) : ℂ) • x)) = norm2 b / 10000 := by
  have hD : ∀ v, (wilsonOp T U 0 false).mul v = v := fun v => by
    simp only [wilsonOp, (C33_wilson T U 0 false v).1, withGamma5, Bool.false_eq_true, if_false]
    funext x
    simp [wilsonSpec]
  have hH : ∀ v, (wilsonOp T U 0 true).mul ((wilsonOp T U 0 true).mul v) = v := fun v => by
    have h : ∀ v, (wilsonOp T U 0 true).mul v = gamma5Field v := fun v => by
      have := hD v
      simp only [wilsonOp, (C33_wilson T U 0 false v).1, (C33_wilson T U 0 true v).1, withGamma5, Bool.false_eq_true, if_false,
        if_true] at this ⊢
      rw [this]
    rw [h, h, gamma5Field_gamma5Field]
  have hA : ∀ (τ : ℝ) (v : SField S N), (twistedOp τ (wilsonOp T U 0 false)).mul v =
      if |τ| > 0.00000000000000001 then v + (Complex.I * τ) • gamma5Field v else v := fun τ v => by rw [C33_twist, hD]
  let P : ℝ → ℕ → SField S N → SField S N := fun τ _ v =>
    if |τ| > 0.00000000000000001 then (1 + (τ : ℂ) ^ 2)⁻¹ • (v - (Complex.I * τ) • gamma5Field v) else v
  have hP : ∀ τ k v, (twistedOp τ (wilsonOp T U 0 false)).mul (P τ k v) = v := by
    intro τ k v
    rw [hA]
    simp only [P]
    split
    · have h0 : (1 + (τ : ℂ) ^ 2) ≠ 0 := by
        have : (1 + (τ : ℂ) ^ 2) = ((1 + τ ^ 2 : ℝ) : ℂ) := by push_cast; rfl
        rw [this]; exact Complex.ofReal_ne_zero.2 (by positivity)
      rw [gamma5Field_smul, sub_eq_add_neg, ← neg_smul, gamma5Field_add, gamma5Field_smul, gamma5Field_gamma5Field]
      have e : ∀ w : SField S N, (1 + (τ : ℂ) ^ 2)⁻¹ • (v + (-(Complex.I * τ)) • w) +
          (Complex.I * τ) • ((1 + (τ : ℂ) ^ 2)⁻¹ • (w + (-(Complex.I * τ)) • v)) =
          ((1 + (τ : ℂ) ^ 2)⁻¹ * (1 - (Complex.I * τ) * (Complex.I * τ))) • v := fun w => by module
      rw [e]
      have e2 : (1 + (τ : ℂ) ^ 2)⁻¹ * (1 - (Complex.I * τ) * (Complex.I * τ)) = 1 := by
        rw [inv_mul_eq_one₀ h0]; linear_combination ((τ : ℂ) ^ 2) * Complex.I_mul_I
      rw [e2, one_smul]
    · rfl
  obtain ⟨x, h1, h2⟩ := shift_exact_wrong (G := gamma5Field) gamma5Field_linear gamma5Field_gamma5Field norm2_gamma5Field
    (A := fun τ => (twistedOp τ (wilsonOp T U 0 false)).mul) hA hP B eps hp c u junk maxSteps limit b hb
  exact ⟨P, x, hP, h1, by rw [hH]; exact h2⟩

end lattice

end Leonard
