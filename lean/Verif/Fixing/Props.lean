import Verif.Fixing.AbelianLemmas
import Verif.Fixing.Deviation

/-!
# C47 Gauge fixing
-/

set_option autoImplicit false

namespace Leonard

open Matrix

variable {S : Type} {N : ℕ}

/-- Gauge fixing ends normally when there is a copy and the numbers of local steps are zero or at least the number of outputs. -/
theorem C47_defined [Fintype S] (E site : Mat N → Option (Mat N)) (threads : Bool) (T : Torus S) (o : LandauPars)
    (d : ℕ → ℕ → TemperDraw S N) (U : GField S N) (hc : 0 < o.copies) (ho : 0 < o.outputSteps)
    (hl : o.localSteps = 0 ∨ o.outputSteps ≤ o.localSteps) (hf : o.finalSteps = 0 ∨ o.outputSteps ≤ o.finalSteps) :
    ∃ V, landauExecute E site threads T o d U = .ok V := by
  have hlocal : ∀ n, (n = 0 ∨ o.outputSteps ≤ n) → ∀ left, left ≤ n → ∀ c r, ∃ r', landauLocal site T n o.outputSteps o.precision left c r = .ok r' := by
    intro n hn left
    induction left with
    | zero => intro _ c r; exact ⟨r, rfl⟩
    | succ left ih =>
      intro hle c r
      have hn0 : o.outputSteps ≤ n := by rcases hn with h | h <;> omega
      have hne : ¬(o.outputSteps = 0 ∨ n / o.outputSteps = 0) := by
        rintro (h | h)
        · omega
        · rcases Nat.div_eq_zero_iff.1 h with h | h <;> omega
      rw [landauLocal]
      simp only
      rw [if_neg hne]
      split
      · exact ⟨_, rfl⟩
      · split
        · exact ih (by omega) _ _
        · split <;> exact ih (by omega) _ _
  have hfix : ∀ n, (n = 0 ∨ o.outputSteps ≤ n) → ∀ d U, ∃ r, landauFix E site threads T o.temper o.steps n o.outputSteps o.precision d U = .ok r :=
    fun n hn d U => hlocal n hn n (le_refl _) _ _
  have hcopies : ∀ n, ∃ l, landauCopies E site threads T o d U n = .ok l := by
    intro n
    induction n with
    | zero => exact ⟨[], rfl⟩
    | succ n ih =>
      obtain ⟨l, hl'⟩ := ih
      obtain ⟨r, hr⟩ := hfix o.localSteps hl (d n) U
      exact ⟨l ++ [r], by rw [landauCopies, hl', Outcome.bind_ok, hr, Outcome.bind_ok]⟩
  obtain ⟨l, hl'⟩ := hcopies o.copies
  obtain ⟨hlen, _⟩ := landauCopies_mem o.copies l hl'
  have hs := landauSelect_lt l (by omega)
  obtain ⟨r, hr⟩ := hfix o.finalSteps hf (d o.copies) l[(landauSelect l).2].conf
  refine ⟨r.conf, ?_⟩
  unfold landauExecute
  rw [hl', Outcome.bind_ok, List.getElem?_eq_getElem hs]
  simp only
  rw [hr, Outcome.bind_ok]

example : ∃ o : LandauPars, 0 < o.copies ∧ 0 < o.outputSteps ∧ (o.localSteps = 0 ∨ o.outputSteps ≤ o.localSteps)
    ∧ (o.finalSteps = 0 ∨ o.outputSteps ≤ o.finalSteps) :=
  ⟨⟨⟨1, 1, 1, 5, 1, 1 / 5⟩, 2, 10, 20, 5, 3, 1e-12⟩, by norm_num, by norm_num, by norm_num, by norm_num⟩

/-- With fewer local steps than outputs, or without outputs, the program divides by zero; without copies it reads outside of a vector. -/
theorem C47_steps_counterexample [Fintype S] (E site : Mat N → Option (Mat N)) (threads : Bool) (T : Torus S) (o : LandauPars)
    (d : ℕ → ℕ → TemperDraw S N) (U : GField S N)
    (h : o.copies = 0 ∨ 0 < o.localSteps ∧ (o.outputSteps = 0 ∨ o.localSteps < o.outputSteps)) :
    landauExecute E site threads T o d U = .ub := by
  rcases h with h | ⟨h1, h2⟩
  · unfold landauExecute
    rw [h, landauCopies, Outcome.bind_ok]
    rfl
  · have hfix : ∀ n, landauFix E site threads T o.temper o.steps o.localSteps o.outputSteps o.precision (d n) U = .ub := by
      intro n
      unfold landauFix
      obtain ⟨k, hk⟩ := Nat.exists_eq_succ_of_ne_zero h1.ne'
      generalize hL : o.localSteps = L at *
      conv_lhs => arg 6; rw [hk]
      rw [landauLocal]
      simp only
      rw [if_pos]
      rcases h2 with h2 | h2
      · exact Or.inl h2
      · exact Or.inr (Nat.div_eq_of_lt h2)
    by_cases hc : o.copies = 0
    · unfold landauExecute
      rw [hc, landauCopies, Outcome.bind_ok]
      rfl
    · have hcopies : ∀ n, landauCopies E site threads T o d U (n + 1) = .ub := by
        intro n
        induction n with
        | zero => rw [landauCopies, landauCopies, Outcome.bind_ok, hfix, Outcome.bind_ub]
        | succ n ih => rw [landauCopies, ih, Outcome.bind_ub]
      obtain ⟨k, hk⟩ := Nat.exists_eq_succ_of_ne_zero hc
      unfold landauExecute
      rw [hk, hcopies, Outcome.bind_ub]

example : ∃ o : LandauPars, 0 < o.copies ∧ 0 < o.localSteps ∧ o.localSteps < o.outputSteps :=
  ⟨⟨⟨1, 1, 1, 5, 1, 1 / 5⟩, 2, 10, 20, 50, 3, 1e-12⟩, by norm_num, by norm_num, by norm_num⟩

/-- C47, Landau gauge, two colours: for all options, random numbers and step counts the new configuration is a gauge transform of the
given one by special unitary matrices, and its functional is at least as large. -/
theorem C47_landau [Fintype S] (threads : Bool) (T : Torus S) (o : LandauPars) (d : ℕ → ℕ → TemperDraw S 2) (U V : GField S 2)
    (hU : ∀ s μ, U s μ ∈ specialUnitaryGroup (Fin 2) ℂ) (h : landauExecute expSu2 landauSite2 threads T o d U = .ok V) :
    GaugeEquiv (specialUnitaryGroup (Fin 2) ℂ) T U V ∧ landauFunctional U ≤ landauFunctional V := by
  have hE : ∀ ε (k : GaugeDraw 2) B, expSu2 (gaugeAlgebra threads ε k) = some B → B ∈ specialUnitaryGroup (Fin 2) ℂ :=
    fun ε k B hB => expSu2_mem _ B (gaugeAlgebra_lie threads ε k) hB
  have hsite : ∀ W : GField S 2, (∀ s μ, W s μ ∈ specialUnitaryGroup (Fin 2) ℂ) → ∀ V, GaugeEquiv (specialUnitaryGroup (Fin 2) ℂ) T W V →
      ∀ s g, landauSite2 (landauStaple T V s) = some g → g ∈ specialUnitaryGroup (Fin 2) ℂ :=
    fun W hW V hV s g hg => landauSite2_mem _ g (isQuat_landauStaple (isQuat_gaugeEquiv hW hV) s) hg
  obtain ⟨l, h1, h2⟩ := outcome_bind_ok h
  obtain ⟨hl, hcopy⟩ := landauCopies_mem o.copies l h1
  split at h2
  · cases h2
  rename_i r hr
  obtain ⟨f, h3, h4⟩ := outcome_bind_ok h2
  simp only [Outcome.ok.injEq] at h4
  subst h4
  obtain ⟨hi, hri⟩ := List.getElem?_eq_some_iff.1 hr
  have hc := hcopy _ hi
  rw [hri] at hc
  obtain ⟨g1, l1⟩ := landauFix_good hE (hsite U hU) hc
  have hR := fun s μ => isQuat_gaugeEquiv hU g1.equiv s μ
  obtain ⟨g2, l2⟩ := landauFix_good hE (hsite _ hR) h3
  refine ⟨g1.equiv.trans g2.equiv, ?_⟩
  calc landauFunctional U ≤ r.value := l1
    _ = landauFunctional r.conf := g1.value
    _ ≤ f.value := l2
    _ = _ := g2.value

/-- Three copies with a few steps each from the cold configuration of a 2⁴ lattice: there is a result, and all hypotheses hold. -/
example (d : ℕ → ℕ → TemperDraw (BoxSite exExt) 2) : ∃ (o : LandauPars) (U V : GField (BoxSite exExt) 2),
    (∀ s μ, U s μ ∈ specialUnitaryGroup (Fin 2) ℂ) ∧ landauExecute expSu2 landauSite2 true (boxTorus exExt exExt_pos) o d U = .ok V := by
  obtain ⟨V, hV⟩ := C47_defined expSu2 landauSite2 true (boxTorus exExt exExt_pos) ⟨⟨1, 1, 1, 5, 1, 1 / 5⟩, 2, 10, 20, 5, 3, 1e-12⟩ d
    (fun _ _ => 1) (by norm_num) (by norm_num) (by norm_num) (by norm_num)
  exact ⟨_, _, V, fun _ _ => one_mem _, hV⟩

/-- C47, Landau gauge, any number of colours, for an exponential map that gives unitary matrices and exact decompositions of Hermitian
matrices: the transformation is unitary, and the functional does not decrease. Missing: for more than two colours the transformation has
not determinant one, see `C47_landau_counterexample`. -/
theorem C47_landau_partial [Fintype S] (E : Mat N → Option (Mat N)) (eig : EigenSolver N) (threads : Bool) (T : Torus S) (o : LandauPars)
    (d : ℕ → ℕ → TemperDraw S N) (U V : GField S N) (hexp : ∀ A B, IsLie A → E A = some B → B ∈ unitaryGroup (Fin N) ℂ)
    (he : eig.CorrectHerm) (h : landauExecute E (landauSiteN eig) threads T o d U = .ok V) :
    GaugeEquiv (unitaryGroup (Fin N) ℂ) T U V ∧ landauFunctional U ≤ landauFunctional V := by
  have hE : ∀ ε (k : GaugeDraw N) B, E (gaugeAlgebra threads ε k) = some B → B ∈ unitaryGroup (Fin N) ℂ :=
    fun ε k B hB => hexp _ B (gaugeAlgebra_lie threads ε k) hB
  have hsite : ∀ W : GField S N, ∀ V, GaugeEquiv (unitaryGroup (Fin N) ℂ) T W V →
      ∀ s g, landauSiteN eig (landauStaple T V s) = some g → g ∈ unitaryGroup (Fin N) ℂ :=
    fun W V _ s g hg => landauSiteN_unitary he hg
  obtain ⟨l, h1, h2⟩ := outcome_bind_ok h
  obtain ⟨hl, hcopy⟩ := landauCopies_mem o.copies l h1
  split at h2
  · cases h2
  rename_i r hr
  obtain ⟨f, h3, h4⟩ := outcome_bind_ok h2
  simp only [Outcome.ok.injEq] at h4
  subst h4
  obtain ⟨hi, hri⟩ := List.getElem?_eq_some_iff.1 hr
  have hc := hcopy _ hi
  rw [hri] at hc
  obtain ⟨g1, l1⟩ := landauFix_good hE (hsite U) hc
  obtain ⟨g2, l2⟩ := landauFix_good hE (hsite _) h3
  refine ⟨g1.equiv.trans g2.equiv, ?_⟩
  calc landauFunctional U ≤ r.value := l1
    _ = landauFunctional r.conf := g1.value
    _ ≤ f.value := l2
    _ = _ := g2.value

/-- There is an exact solver, and the exponential series is an exponential map with unitary values. -/
example (d : ℕ → ℕ → TemperDraw (BoxSite exExt) 3) : ∃ (eig : EigenSolver 3) (o : LandauPars) (U V : GField (BoxSite exExt) 3),
    eig.CorrectHerm ∧ landauExecute (fun A => some (NormedSpace.exp A)) (landauSiteN eig) true (boxTorus exExt exExt_pos) o d U = .ok V := by
  obtain ⟨eig, he⟩ := exists_correctHerm (N := 3)
  obtain ⟨V, hV⟩ := C47_defined (fun A => some (NormedSpace.exp A)) (landauSiteN eig) true (boxTorus exExt exExt_pos)
    ⟨⟨1, 1, 1, 5, 1, 1 / 5⟩, 2, 10, 20, 5, 3, 1e-12⟩ d (fun _ _ => 1) (by norm_num) (by norm_num) (by norm_num) (by norm_num)
  exact ⟨eig, _, _, V, he, hV⟩

example (A B : Mat 3) (hA : IsLie A) (h : (fun A => some (NormedSpace.exp A)) A = some B) : B ∈ unitaryGroup (Fin 3) ℂ := by
  rw [← Option.some.inj h, mem_unitaryGroup_iff, star_eq_conjTranspose, ← Matrix.exp_conjTranspose, hA.1,
    ← Matrix.exp_add_of_commute _ _ (Commute.neg_right (Commute.refl A)), add_neg_cancel, NormedSpace.exp_zero]

/-- Two colours: the result is at least as good as every copy whose functional is positive. Missing: copies without positive functional, see
`C47_copies_counterexample`. -/
theorem C47_copies_partial [Fintype S] (threads : Bool) (T : Torus S) (o : LandauPars) (d : ℕ → ℕ → TemperDraw S 2) (U V : GField S 2)
    (hU : ∀ s μ, U s μ ∈ specialUnitaryGroup (Fin 2) ℂ) (h : landauExecute expSu2 landauSite2 threads T o d U = .ok V) (n : ℕ)
    (hn : n < o.copies) :
    ∃ r, landauFix expSu2 landauSite2 threads T o.temper o.steps o.localSteps o.outputSteps o.precision (d n) U = .ok r
      ∧ (0 < landauFunctional r.conf → landauFunctional r.conf ≤ landauFunctional V) := by
  have hE : ∀ ε (k : GaugeDraw 2) B, expSu2 (gaugeAlgebra threads ε k) = some B → B ∈ specialUnitaryGroup (Fin 2) ℂ :=
    fun ε k B hB => expSu2_mem _ B (gaugeAlgebra_lie threads ε k) hB
  have hsite : ∀ W : GField S 2, (∀ s μ, W s μ ∈ specialUnitaryGroup (Fin 2) ℂ) → ∀ V, GaugeEquiv (specialUnitaryGroup (Fin 2) ℂ) T W V →
      ∀ s g, landauSite2 (landauStaple T V s) = some g → g ∈ specialUnitaryGroup (Fin 2) ℂ :=
    fun W hW V hV s g hg => landauSite2_mem _ g (isQuat_landauStaple (isQuat_gaugeEquiv hW hV) s) hg
  obtain ⟨l, h1, h2⟩ := outcome_bind_ok h
  obtain ⟨hl, hcopy⟩ := landauCopies_mem o.copies l h1
  split at h2
  · cases h2
  rename_i r hr
  obtain ⟨f, h3, h4⟩ := outcome_bind_ok h2
  simp only [Outcome.ok.injEq] at h4
  subst h4
  have hn' : n < l.length := by omega
  refine ⟨l[n], hcopy n hn', fun hpos => ?_⟩
  obtain ⟨g0, _⟩ := landauFix_good hE (hsite U hU) (hcopy n hn')
  rw [← g0.value] at hpos ⊢
  have hb := landauSelect_best l l[n] r (List.getElem_mem hn') hpos hr
  obtain ⟨hi, hri⟩ := List.getElem?_eq_some_iff.1 hr
  have hc := hcopy _ hi
  rw [hri] at hc
  obtain ⟨g1, _⟩ := landauFix_good hE (hsite U hU) hc
  have hR := fun s μ => isQuat_gaugeEquiv hU g1.equiv s μ
  obtain ⟨g2, l2⟩ := landauFix_good hE (hsite _ hR) h3
  calc l[n].value ≤ r.value := hb
    _ = landauFunctional r.conf := g1.value
    _ ≤ f.value := l2
    _ = _ := g2.value

/-- The deviation that is reported vanishes exactly on the stationary points of the functional on the gauge orbit, the configurations in
Landau gauge. -/
theorem C47_deviation [Fintype S] (T : Torus S) (U : GField S N) : landauDeviation T U = 0 ↔ GaugeStationary landauFunctional T U := by
  rw [landauDeviation_zero_iff]
  constructor
  · intro h X hX
    have := hasDerivAt_landau T U X hX
    simpa [h] using this
  · intro h
    have hL : ∀ s, IsLie (Complex.I • divergence T U s) := by
      intro s
      refine ⟨?_, by rw [trace_smul, trace_divergence, smul_zero]⟩
      rw [conjTranspose_smul, divergence_herm]
      simp
    have h1 := h _ hL
    have h2 := (hasDerivAt_landau T U _ hL).unique h1
    have h3 : ∀ s, (trace (Complex.I • divergence T U s * Complex.I • divergence T U s)).re
        = -(trace (divergence T U s * (divergence T U s)ᴴ)).re := by
      intro s
      rw [Matrix.smul_mul, Matrix.mul_smul, smul_smul, Complex.I_mul_I, divergence_herm]
      simp
    simp only [h3, Finset.sum_neg_distrib, neg_eq_zero] at h2
    intro s
    have h4 := (Finset.sum_eq_zero_iff_of_nonneg (s := Finset.univ) (f := fun s => (trace (divergence T U s * (divergence T U s)ᴴ)).re)
      fun s _ => by
        show 0 ≤ (trace (divergence T U s * (divergence T U s)ᴴ)).re
        rw [trace_herm_sq]
        exact Finset.sum_nonneg fun i _ => Finset.sum_nonneg fun j _ => Complex.normSq_nonneg _).1 h2 s (Finset.mem_univ _)
    exact (trace_herm_sq_eq_zero _).1 h4

/-- C47, maximal abelian gauge (two colours): the new configuration is a gauge transform of the given one by special unitary matrices, and
its functional is at least as large. -/
theorem C47_abelian [Fintype S] [DecidableEq S] (threads : Bool) (T : Torus S) (order : List S) (p : TemperPars) (steps steps1 steps2 : ℕ)
    (d : ℕ → TemperDraw S 2) (d1 d2 : ℕ → (S → GaugeDraw 2) × ℝ) (U V : GField S 2)
    (h : abelianExecute expSu2 threads T order p steps steps1 steps2 d d1 d2 U = .ok V) :
    GaugeEquiv (specialUnitaryGroup (Fin 2) ℂ) T U V ∧ abelianFunctional U ≤ abelianFunctional V := by
  have hE : ∀ ε (k : GaugeDraw 2) B, expSu2 (gaugeAlgebra threads ε k) = some B → B ∈ specialUnitaryGroup (Fin 2) ℂ :=
    fun ε k B hB => expSu2_mem _ B (gaugeAlgebra_lie threads ε k) hB
  have hG : ∀ g ∈ specialUnitaryGroup (Fin 2) ℂ, gᴴ ∈ specialUnitaryGroup (Fin 2) ℂ := fun g hg => ct_mem_su hg
  have ht := temper_good (G := specialUnitaryGroup (Fin 2) ℂ) (T := T) (F := abelianFunctional) (threads := threads) p d U hE steps
  unfold abelianExecute at h
  simp only at h
  obtain ⟨y, h1, h2⟩ := outcome_bind_ok h
  obtain ⟨z, h3, h4⟩ := outcome_bind_ok h2
  simp only [Outcome.ok.injEq] at h4
  subst h4
  obtain ⟨a1, b1, c1⟩ := abelianPhase_good hG hE ht.r1 ht.best h1
  obtain ⟨a2, b2, c2⟩ := abelianPhase_good hG hE a1 b1 h3
  refine ⟨b2.equiv, ?_⟩
  rw [← b2.value]
  exact ht.le.trans (c1.trans c2)

/-- The local phase of the maximal abelian gauge never decreases the functional, on lattices with more than one site in every direction: a
sweep over sites in any order, with any matrices. -/
theorem C47_abelian_sites [Fintype S] [DecidableEq S] (T : Torus S) (hT : T.Wide 1) (ω : S → Option (Mat 2)) (order : List S) :
    ∀ U V : GField S 2, order.foldl (abelianSite T ω) (some U) = some V → abelianFunctional U ≤ abelianFunctional V := by
  have hnone : ∀ (l : List S), l.foldl (abelianSite T ω) none = none := by
    intro l
    induction l with
    | nil => rfl
    | cons s l ih => rw [List.foldl_cons]; exact ih
  induction order with
  | nil => intro U V h; rw [← Option.some.inj h]
  | cons s l ih =>
    intro U V h
    rw [List.foldl_cons] at h
    cases hs : abelianSite T ω (some U) s with
    | none => rw [hs, hnone] at h; cases h
    | some W =>
      rw [hs] at h
      obtain ⟨g, _, hW⟩ := abelianSite_eq T ω U W s hs
      refine le_trans ?_ (ih W V h)
      rcases hW with ⟨rfl, hle⟩ | rfl
      · have := abelianFunctional_site T hT g s U
        linarith
      · exact le_refl _

example : (boxTorus exExt exExt_pos).Wide 1 := by
  intro μ
  fin_cases μ <;> decide

/-- Without threads the size of the random transformation is proportional to `epsilon`. Missing: with threads, see
`C47_epsilon_counterexample`. -/
theorem C47_epsilon_partial (ε : ℝ) (d : GaugeDraw N) : gaugeAlgebra false ε d = (ε : ℂ) • gaugeAlgebra false 1 d := by
  ext k l
  simp only [gaugeAlgebra, randomMomentum, Matrix.of_apply, Matrix.smul_apply, smul_eq_mul, one_mul, Bool.false_eq_true, if_false]
  split
  · apply Complex.ext <;> simp <;> ring
  · split
    · apply Complex.ext <;> simp <;> ring
    · rw [Finset.mul_sum]
      refine Finset.sum_congr rfl fun i _ => ?_
      split
      · simp
      · split
        · apply Complex.ext <;> simp <;> ring
        · split
          · apply Complex.ext <;> simp <;> ring
          · simp

/-- With threads the diagonal part is not scaled: even `epsilon = 0` gives a transformation far from the identity. -/
theorem C47_epsilon_counterexample : ∃ d : GaugeDraw 2, gaugeAlgebra true 0 d = !![Complex.I, 0; 0, -Complex.I] := by
  refine ⟨⟨fun _ _ => 0, fun _ _ => 0, fun _ => 2⟩, ?_⟩
  ext k l
  fin_cases k <;> fin_cases l <;> simp [gaugeAlgebra, randomMomentum, Fin.sum_univ_two, Complex.ext_iff] <;>
    · rw [one_add_one_eq_two]; exact div_self (by positivity)

/-- The projection after the maximal abelian gauge sets the off-diagonal entries to zero and keeps the diagonal, but the result is not
unitary: the links leave the group. -/
theorem C47_projection_counterexample : ∃ U : Mat 2, U ∈ specialUnitaryGroup (Fin 2) ℂ ∧ abelianProject U = 0 := by
  refine ⟨!![0, 1; -1, 0], ?_, ?_⟩
  · rw [mem_specialUnitaryGroup_iff, mem_unitaryGroup_iff]
    refine ⟨?_, by simp [det_fin_two]⟩
    ext i j
    fin_cases i <;> fin_cases j <;> simp [Matrix.mul_apply, Fin.sum_univ_two, star_apply]
  · ext i j
    fin_cases i <;> fin_cases j <;> simp [abelianProject]

end Leonard
