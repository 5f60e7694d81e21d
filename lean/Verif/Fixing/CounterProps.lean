import Verif.Fixing.Props

/-!
# C47 Configurations where gauge fixing fails
-/

set_option autoImplicit false

namespace Leonard

open Matrix

variable {S : Type} {N : ℕ}

/-! ### Three colours: the links leave the group -/

theorem polarFactor_diagonal {eig : EigenSolver N} (he : eig.CorrectHerm) (q : Fin N → ℂ) (hq : ∀ i, q i ≠ 0) :
    polarFactor eig (Matrix.diagonal q) = some (Matrix.diagonal fun i => q i / (‖q i‖ : ℝ)) := by
  have hQQ : (Matrix.diagonal q)ᴴ * Matrix.diagonal q = Matrix.diagonal fun i => ((‖q i‖ ^ 2 : ℝ) : ℂ) := by
    rw [diagonal_conjTranspose, diagonal_mul_diagonal]
    congr 1
    funext i
    rw [Pi.star_apply, Complex.star_def, mul_comm, Complex.mul_conj, Complex.normSq_eq_norm_sq]
  unfold polarFactor
  simp only
  obtain ⟨hm, hA⟩ := he ((Matrix.diagonal q)ᴴ * Matrix.diagonal q) (by rw [conjTranspose_mul, conjTranspose_conjTranspose])
  generalize (eig ((Matrix.diagonal q)ᴴ * Matrix.diagonal q)).1 = d at *
  generalize (eig ((Matrix.diagonal q)ᴴ * Matrix.diagonal q)).2 = m at *
  have hmm : mᴴ * m = 1 := mem_unitaryGroup_iff'.1 hm
  have hmm' : m * mᴴ = 1 := mem_unitaryGroup_iff.1 hm
  rw [hQQ] at hA
  -- entries of `m` link only equal eigenvalues
  have hcomm : (Matrix.diagonal fun i => ((‖q i‖ ^ 2 : ℝ) : ℂ)) * m = m * Matrix.diagonal d := by
    rw [hA, Matrix.mul_assoc, hmm, Matrix.mul_one]
  have hent : ∀ i j, ((‖q i‖ ^ 2 : ℝ) : ℂ) * m i j = m i j * d j := by
    intro i j
    have := congrFun (congrFun hcomm i) j
    rwa [diagonal_mul, mul_diagonal] at this
  have hlink : ∀ i j, m i j ≠ 0 → d j = ((‖q i‖ ^ 2 : ℝ) : ℂ) := by
    intro i j h
    exact (mul_left_cancel₀ h (by rw [← hent i j, mul_comm])).symm
  have hne : ¬∃ i, d i = 0 := by
    rintro ⟨j, hj⟩
    have hcol : ∃ i, m i j ≠ 0 := by
      by_contra hc
      push Not at hc
      have := congrFun (congrFun hmm j) j
      rw [Matrix.mul_apply, Matrix.one_apply_eq] at this
      simp [hc] at this
    obtain ⟨i, hi⟩ := hcol
    have h2 := hlink i j hi
    rw [hj] at h2
    have : ‖q i‖ ^ 2 = 0 := by exact_mod_cast h2.symm
    exact hq i (norm_eq_zero.1 (pow_eq_zero_iff (two_ne_zero)|>.1 this))
  rw [if_neg hne]
  congr 1
  have hR : m * Matrix.diagonal (fun i => 1 / d i ^ (1 / 2 : ℂ)) = (Matrix.diagonal fun i => 1 / ((‖q i‖ : ℝ) : ℂ)) * m := by
    ext i j
    rw [mul_diagonal, diagonal_mul]
    by_cases h : m i j = 0
    · rw [h]; simp
    · rw [hlink i j h, ofReal_cpow_half _ (by positivity), Real.sqrt_sq (norm_nonneg _), mul_comm]
  rw [Matrix.mul_assoc (Matrix.diagonal q), hR, Matrix.mul_assoc, Matrix.mul_assoc, hmm', Matrix.mul_one, diagonal_mul_diagonal]
  congr 1
  funext i
  ring

/-- The phase that a pair of colours takes out of a diagonal matrix. -/
noncomputable def pairPhase (k l : Fin N) (q : Fin N → ℂ) (i : Fin N) : ℂ := if i = k ∨ i = l then q i / (‖q i‖ : ℝ) else 1

theorem landauPair_diagonal {eig : EigenSolver N} (he : eig.CorrectHerm) (k l : Fin N) (g : Mat N) (q : Fin N → ℂ) (hq : ∀ i, q i ≠ 0) :
    landauPair eig (k, l) (some (g, Matrix.diagonal q))
      = some (Matrix.diagonal (fun i => star (pairPhase k l q i)) * g, Matrix.diagonal fun i => star (pairPhase k l q i) * q i) := by
  have hsub : subMatrix k l (Matrix.diagonal q) = Matrix.diagonal fun i => if i = k ∨ i = l then q i else 1 := by
    ext i j
    unfold subMatrix
    rw [Matrix.of_apply]
    by_cases hij : i = j
    · subst hij
      simp only [and_self, diagonal_apply_eq, one_apply_eq]
    · rw [diagonal_apply_ne _ hij, diagonal_apply_ne _ hij, one_apply_ne hij, ite_self]
  have hq' : ∀ i, (if i = k ∨ i = l then q i else 1) ≠ 0 := by
    intro i
    split
    · exact hq i
    · exact one_ne_zero
  have hph : (fun i => (if i = k ∨ i = l then q i else 1) / (‖(if i = k ∨ i = l then q i else 1)‖ : ℝ)) = pairPhase k l q := by
    funext i
    unfold pairPhase
    split <;> simp
  unfold landauPair
  simp only
  rw [hsub, polarFactor_diagonal he _ hq', hph]
  simp only
  have hct : (Matrix.diagonal (pairPhase k l q))ᴴ = Matrix.diagonal fun i => star (pairPhase k l q i) := by
    rw [diagonal_conjTranspose]; rfl
  have hu : (Matrix.diagonal (pairPhase k l q))ᴴ * Matrix.diagonal (pairPhase k l q) = 1 := by
    rw [hct, diagonal_mul_diagonal]
    have : (fun i => star (pairPhase k l q i) * pairPhase k l q i) = fun _ => 1 := by
      funext i
      unfold pairPhase
      split
      · have hn : ((‖q i‖ : ℝ) : ℂ) ≠ 0 := by exact_mod_cast (norm_ne_zero_iff.2 (hq i))
        rw [star_div₀, Complex.star_def, Complex.conj_ofReal, div_mul_div_comm, mul_comm (starRingEnd ℂ (q i)), Complex.mul_conj,
          Complex.normSq_eq_norm_sq]
        rw [div_eq_one_iff_eq (mul_ne_zero hn hn)]
        push_cast
        ring
      · simp
    rw [this, diagonal_one]
  rw [hu, trace_one, Fintype.card_fin, sub_self, norm_zero, if_neg (by norm_num), hct, diagonal_mul_diagonal]

theorem colourPairs_three : colourPairs 3 = [(0, 1), (0, 2), (1, 2)] := by decide

/-- The entries of the staple of the example. -/
noncomputable def exStaple : Fin 3 → ℂ := ![⟨6, 2⟩, ⟨6, 2⟩, 4]

theorem exNorm : ‖(⟨6, 2⟩ : ℂ)‖ = Real.sqrt 40 := by
  rw [Complex.norm_def, Complex.normSq_mk]; norm_num

/-- The transformation found for it. -/
noncomputable def exPhase : Fin 3 → ℂ := ![⟨6 / Real.sqrt 40, -2 / Real.sqrt 40⟩, ⟨6 / Real.sqrt 40, -2 / Real.sqrt 40⟩, 1]

theorem sqrt40_pos : 0 < Real.sqrt 40 := Real.sqrt_pos.2 (by norm_num)

theorem conj_phase : star ((⟨6, 2⟩ : ℂ) / (Real.sqrt 40 : ℝ)) = ⟨6 / Real.sqrt 40, -2 / Real.sqrt 40⟩ := by
  rw [Complex.star_def, map_div₀, Complex.conj_ofReal]
  apply Complex.ext
  · rw [Complex.div_ofReal_re]; rfl
  · rw [Complex.div_ofReal_im]; rfl

theorem phase_mul : (⟨6 / Real.sqrt 40, -2 / Real.sqrt 40⟩ : ℂ) * ⟨6, 2⟩ = (Real.sqrt 40 : ℝ) := by
  have h := sqrt40_pos.ne'
  have h2 : Real.sqrt 40 * Real.sqrt 40 = 40 := Real.mul_self_sqrt (by norm_num)
  apply Complex.ext
  · simp only [Complex.mul_re, Complex.ofReal_re]
    field_simp
    nlinarith
  · simp only [Complex.mul_im, Complex.ofReal_im]
    ring

theorem landauSiteN_example {eig : EigenSolver 3} (he : eig.CorrectHerm) :
    landauSiteN eig (Matrix.diagonal exStaple) = some (Matrix.diagonal exPhase) := by
  have h40 := sqrt40_pos
  have hc : ((Real.sqrt 40 : ℝ) : ℂ) ≠ 0 := by exact_mod_cast h40.ne'
  have hne : ((⟨6, 2⟩ : ℂ)) ≠ 0 := by intro h; have := congrArg Complex.re h; norm_num at this
  unfold landauSiteN
  rw [colourPairs_three]
  simp only [List.foldl_cons, List.foldl_nil]
  have p1 : (fun i => star (pairPhase 0 1 exStaple i)) = exPhase := by
    funext i
    fin_cases i
    · simp only [pairPhase, exStaple, exPhase, Fin.zero_eta, Matrix.cons_val_zero, true_or, if_true, exNorm]
      exact conj_phase
    · simp only [pairPhase, exStaple, exPhase, Fin.mk_one, Matrix.cons_val_one, Matrix.cons_val_zero, or_true, if_true, exNorm]
      exact conj_phase
    · simp [pairPhase, exPhase]
  have p2 : (fun i => star (pairPhase 0 1 exStaple i) * exStaple i) = ![((Real.sqrt 40 : ℝ) : ℂ), ((Real.sqrt 40 : ℝ) : ℂ), 4] := by
    funext i
    have := congrFun p1 i
    rw [this]
    fin_cases i
    · exact phase_mul
    · exact phase_mul
    · simp [exPhase, exStaple]
  rw [landauPair_diagonal he 0 1 1 exStaple (by intro i; fin_cases i <;> simp [exStaple, hne]), p1, p2, Matrix.mul_one]
  have n40 : ‖((Real.sqrt 40 : ℝ) : ℂ)‖ = Real.sqrt 40 := by rw [Complex.norm_real, Real.norm_of_nonneg h40.le]
  have q2 : ∀ k l : Fin 3, (fun i => star (pairPhase k l ![((Real.sqrt 40 : ℝ) : ℂ), ((Real.sqrt 40 : ℝ) : ℂ), 4] i)) = fun _ => 1 := by
    intro k l
    funext i
    unfold pairPhase
    split
    · fin_cases i
      · show star (((Real.sqrt 40 : ℝ) : ℂ) / (‖((Real.sqrt 40 : ℝ) : ℂ)‖ : ℝ)) = 1
        rw [n40, div_self hc, star_one]
      · show star (((Real.sqrt 40 : ℝ) : ℂ) / (‖((Real.sqrt 40 : ℝ) : ℂ)‖ : ℝ)) = 1
        rw [n40, div_self hc, star_one]
      · show star ((4 : ℂ) / (‖(4 : ℂ)‖ : ℝ)) = 1
        simp
    · simp
  have q3 : ∀ k l : Fin 3, (fun i => star (pairPhase k l ![((Real.sqrt 40 : ℝ) : ℂ), ((Real.sqrt 40 : ℝ) : ℂ), 4] i)
      * ![((Real.sqrt 40 : ℝ) : ℂ), ((Real.sqrt 40 : ℝ) : ℂ), 4] i) = ![((Real.sqrt 40 : ℝ) : ℂ), ((Real.sqrt 40 : ℝ) : ℂ), 4] := by
    intro k l
    funext i
    rw [congrFun (q2 k l) i, one_mul]
  have hq : ∀ i, ![((Real.sqrt 40 : ℝ) : ℂ), ((Real.sqrt 40 : ℝ) : ℂ), 4] i ≠ 0 := by
    intro i; fin_cases i
    · exact hc
    · exact hc
    · show (4 : ℂ) ≠ 0
      norm_num
  rw [landauPair_diagonal he 0 2 _ _ hq, q2, q3, landauPair_diagonal he 1 2 _ _ hq, q2, q3, diagonal_one, Matrix.one_mul, Matrix.one_mul]
  rfl

/-- The sites of even parity. -/
def evenSite (T : Torus S) (s : S) : Prop := (T.coord s 0 + T.coord s 1 + T.coord s 2 + T.coord s 3) % 2 = 0

instance (T : Torus S) : DecidablePred (evenSite T) := fun s => by unfold evenSite; infer_instance

theorem evenSite_sup (T : Torus S) (hext : ∀ μ, T.ext μ = 2) (μ : Fin 4) (s : S) : evenSite T (T.sup μ s) ↔ ¬evenSite T s := by
  have h1 := T.coord_sup μ s
  rw [hext] at h1
  have h2 := fun ν h => T.coord_sup_ne μ ν s h
  unfold evenSite
  fin_cases μ
  · have a := h2 1 (by decide); have b := h2 2 (by decide); have c := h2 3 (by decide)
    simp only [Fin.zero_eta] at *
    omega
  · have a := h2 0 (by decide); have b := h2 2 (by decide); have c := h2 3 (by decide)
    simp only [Fin.mk_one] at *
    omega
  · have a := h2 0 (by decide); have b := h2 1 (by decide); have c := h2 3 (by decide)
    simp only [Fin.reduceFinMk] at *
    omega
  · have a := h2 0 (by decide); have b := h2 1 (by decide); have c := h2 2 (by decide)
    simp only [Fin.reduceFinMk] at *
    omega

theorem evenSite_sdn (T : Torus S) (hext : ∀ μ, T.ext μ = 2) (μ : Fin 4) (s : S) : evenSite T (T.sdn μ s) ↔ ¬evenSite T s := by
  have := evenSite_sup T hext μ (T.sdn μ s)
  rw [T.sup_sdn] at this
  tauto

/-- The links of the example in direction 0. -/
noncomputable def exLink : Mat 3 := Matrix.diagonal ![Complex.I, Complex.I, -1]

/-- The configuration of the example. -/
noncomputable def exField (T : Torus S) : GField S 3 := fun s μ =>
  if μ = 0 then (if evenSite T s then exLink else exLinkᴴ) else 1

theorem exLink_mem : exLink ∈ specialUnitaryGroup (Fin 3) ℂ := by
  rw [mem_specialUnitaryGroup_iff, mem_unitaryGroup_iff]
  refine ⟨?_, ?_⟩
  · unfold exLink
    rw [Matrix.star_eq_conjTranspose, diagonal_conjTranspose, diagonal_mul_diagonal]
    have : (fun i => (![Complex.I, Complex.I, -1] : Fin 3 → ℂ) i * star (![Complex.I, Complex.I, -1] : Fin 3 → ℂ) i) = fun _ => 1 := by
      funext i; fin_cases i <;> simp
    rw [this, diagonal_one]
  · unfold exLink
    rw [det_diagonal, Fin.prod_univ_three]
    simp

theorem exField_mem (T : Torus S) (s : S) (μ : Fin 4) : exField T s μ ∈ specialUnitaryGroup (Fin 3) ℂ := by
  unfold exField
  split
  · split
    · exact exLink_mem
    · exact ct_mem_su exLink_mem
  · exact one_mem _

theorem exField_staple (T : Torus S) (hext : ∀ μ, T.ext μ = 2) (s : S) (hs : evenSite T s) :
    landauStaple T (exField T) s = Matrix.diagonal exStaple := by
  have h1 : ∀ μ, ¬evenSite T (T.sdn μ s) := fun μ => by rw [evenSite_sdn T hext]; exact not_not.2 hs
  unfold landauStaple exField
  rw [Fin.sum_univ_four]
  simp only [if_true, hs, h1, if_false, conjTranspose_conjTranspose, show (1 : Fin 4) ≠ 0 by decide, show (2 : Fin 4) ≠ 0 by decide,
    show (3 : Fin 4) ≠ 0 by decide, conjTranspose_one]
  unfold exLink
  rw [← diagonal_one, diagonal_add, diagonal_add, diagonal_add, diagonal_add, diagonal_add]
  congr 1
  funext i
  fin_cases i
  · apply Complex.ext <;> simp [exStaple] <;> norm_num
  · apply Complex.ext <;> simp [exStaple] <;> norm_num
  · apply Complex.ext <;> simp [exStaple] <;> norm_num

/-- What one overrelaxation makes of the example. -/
noncomputable def exFixed (T : Torus S) : GField S 3 :=
  gaugeTransform T (fun s => if evenSite T s then Matrix.diagonal exPhase else 1) (exField T)

theorem exFixed_transform (T : Torus S) (hext : ∀ μ, T.ext μ = 2) {eig : EigenSolver 3} (he : eig.CorrectHerm) :
    fixTransform T (landauOverrelax (landauSiteN eig) T (exField T) 0) (exField T) = some (exFixed T) := by
  have h : ∀ s, landauOverrelax (landauSiteN eig) T (exField T) 0 s = some (if evenSite T s then Matrix.diagonal exPhase else 1) := by
    intro s
    unfold landauOverrelax
    by_cases hs : evenSite T s
    · rw [if_pos (by exact hs), if_pos hs, exField_staple T hext s hs, landauSiteN_example he]
    · rw [if_neg (by exact hs), if_neg hs]
  unfold fixTransform
  rw [if_pos (fun s => by rw [h]; rfl)]
  congr 1
  funext s μ
  rw [h, h]
  rfl

theorem exFixed_gain (T : Torus S) (hext : ∀ μ, T.ext μ = 2) [Fintype S] [Nonempty S] : landauFunctional (exField T) < landauFunctional (exFixed T) := by
  have h40 := sqrt40_pos
  have hsq : Real.sqrt 40 * Real.sqrt 40 = 40 := Real.mul_self_sqrt (by norm_num)
  have hgt : 6 < Real.sqrt 40 := Real.lt_sqrt_of_sq_lt (by norm_num)
  unfold landauFunctional
  refine Finset.sum_lt_sum_of_nonempty Finset.univ_nonempty fun s _ => ?_
  unfold exFixed gaugeTransform exField
  rw [Fin.sum_univ_four, Fin.sum_univ_four]
  by_cases hs : evenSite T s
  · have h1 : ∀ μ, ¬evenSite T (T.sup μ s) := fun μ => by rw [evenSite_sup T hext]; exact not_not.2 hs
    simp only [if_true, hs, h1, if_false, show (1 : Fin 4) ≠ 0 by decide, show (2 : Fin 4) ≠ 0 by decide, show (3 : Fin 4) ≠ 0 by decide,
      conjTranspose_one, Matrix.mul_one]
    unfold exLink
    rw [diagonal_mul_diagonal, trace_diagonal, trace_diagonal, trace_diagonal, trace_one, Fin.sum_univ_three, Fin.sum_univ_three, Fin.sum_univ_three]
    simp [exPhase]
    have hd : 6 / Real.sqrt 40 = 6 * Real.sqrt 40 / 40 := by field_simp; nlinarith
    have hd2 : 2 / Real.sqrt 40 = 2 * Real.sqrt 40 / 40 := by field_simp; nlinarith
    have hd3 : -2 / Real.sqrt 40 = -(2 * Real.sqrt 40 / 40) := by rw [neg_div, hd2]
    simp only [hd, hd3]
    nlinarith
  · have h1 : ∀ μ, evenSite T (T.sup μ s) := fun μ => by rw [evenSite_sup T hext]; exact hs
    simp only [if_true, hs, h1, if_false, show (1 : Fin 4) ≠ 0 by decide, show (2 : Fin 4) ≠ 0 by decide, show (3 : Fin 4) ≠ 0 by decide,
      Matrix.one_mul]
    unfold exLink
    rw [diagonal_conjTranspose, diagonal_conjTranspose, diagonal_mul_diagonal, trace_diagonal, trace_diagonal, trace_diagonal, trace_one,
      Fin.sum_univ_three, Fin.sum_univ_three, Fin.sum_univ_three]
    simp [exPhase]
    have hd : 6 / Real.sqrt 40 = 6 * Real.sqrt 40 / 40 := by field_simp; nlinarith
    have hd2 : 2 / Real.sqrt 40 = 2 * Real.sqrt 40 / 40 := by field_simp; nlinarith
    have hd3 : -2 / Real.sqrt 40 = -(2 * Real.sqrt 40 / 40) := by rw [neg_div, hd2]
    simp only [hd, hd3]
    nlinarith

/-- Three colours, exact arithmetic, a correct eigenvalue solver: there is a configuration of special unitary links on a 2⁴ lattice for
which one step of overrelaxation is accepted and gives links with determinant `(4-3i)/5`. The transformation found from pairs of colours is
unitary but its determinant is not one. -/
theorem C47_landau_counterexample (eig : EigenSolver 3) (he : eig.CorrectHerm) (E : Mat 3 → Option (Mat 3)) (threads : Bool) (p : TemperPars)
    (precision : ℝ) (d : ℕ → TemperDraw (BoxSite exExt) 3) :
    ∃ U : GField (BoxSite exExt) 3, (∀ s μ, U s μ ∈ specialUnitaryGroup (Fin 3) ℂ) ∧
      ∃ r, landauFix E (landauSiteN eig) threads (boxTorus exExt exExt_pos) p 0 1 1 precision d U = .ok r ∧
        ∃ s μ, (r.conf s μ).det = ⟨4 / 5, -3 / 5⟩ := by
  have hext : ∀ μ, (boxTorus exExt exExt_pos).ext μ = 2 := by intro μ; fin_cases μ <;> rfl
  have hne : Nonempty (BoxSite exExt) := ⟨⟨⟨0, 0, 0, 0⟩, by simp [InBox, exExt]⟩⟩
  generalize boxTorus exExt exExt_pos = T at *
  refine ⟨exField T, exField_mem T, ⟨exFixed T, landauFunctional (exFixed T)⟩, ?_, ?_⟩
  · unfold landauFix
    rw [landauLocal]
    simp only [temper]
    rw [if_neg (by norm_num), if_neg (by simp), Nat.sub_self, exFixed_transform T hext he]
    simp only
    rw [if_pos (sub_pos.2 (exFixed_gain T hext)), landauLocal]
  · obtain ⟨s0⟩ := hne
    obtain ⟨s, hs⟩ : ∃ s, evenSite T s := by
      by_cases h : evenSite T s0
      · exact ⟨s0, h⟩
      · exact ⟨T.sup 0 s0, (evenSite_sup T hext 0 s0).2 h⟩
    refine ⟨s, 1, ?_⟩
    have h1 : ¬evenSite T (T.sup 1 s) := by rw [evenSite_sup T hext]; exact not_not.2 hs
    simp only [exFixed, gaugeTransform, exField, hs, h1, if_true, if_false, show (1 : Fin 4) ≠ 0 by decide, conjTranspose_one, Matrix.mul_one]
    rw [det_diagonal, Fin.prod_univ_three]
    have h40 := sqrt40_pos
    have hsq : Real.sqrt 40 * Real.sqrt 40 = 40 := Real.mul_self_sqrt (by norm_num)
    apply Complex.ext
    · simp [exPhase]
      field_simp
      nlinarith
    · simp [exPhase]
      field_simp
      nlinarith

/-! ### Copies with a negative functional -/

theorem gaugeAlgebra_zero (threads : Bool) (ε : ℝ) : gaugeAlgebra threads ε (⟨fun _ _ => 0, fun _ _ => 0, fun _ => 0⟩ : GaugeDraw N) = 0 := by
  have hz : (⟨0, 0⟩ : ℂ) = 0 := rfl
  ext k l
  simp only [gaugeAlgebra, randomMomentum, mul_zero, zero_div, neg_zero, zero_mul, ite_self, hz, Matrix.of_apply, Finset.sum_const_zero,
    Matrix.zero_apply]

/-- A draw of one diagonal number. -/
noncomputable def diagDraw (θ : ℝ) : GaugeDraw 2 := ⟨fun _ _ => 0, fun _ _ => 0, fun _ => 2 * θ⟩

theorem gaugeAlgebra_diag (θ : ℝ) : gaugeAlgebra false 1 (diagDraw θ) = !![⟨0, θ⟩, 0; 0, ⟨0, -θ⟩] := by
  have h : Real.sqrt 2 / Real.sqrt 2 = 1 := div_self (by positivity)
  ext k l
  fin_cases k <;> fin_cases l <;> simp [gaugeAlgebra, randomMomentum, diagDraw, Fin.sum_univ_two, Complex.ext_iff]
  all_goals first
    | (rw [one_add_one_eq_two, h]; ring)
    | skip

theorem expSu2_diag (θ : ℝ) (hθ : 0 < θ) : expSu2 !![⟨0, θ⟩, 0; 0, ⟨0, -θ⟩]
    = some !![⟨Real.cos θ, Real.sin θ⟩, 0; 0, ⟨Real.cos θ, -Real.sin θ⟩] := by
  have hr : Real.sqrt (θ * θ) = θ := Real.sqrt_mul_self hθ.le
  unfold expSu2
  simp only [Matrix.cons_val_zero, Matrix.cons_val_one, Matrix.of_apply, Matrix.cons_val', Complex.zero_re, Complex.zero_im, mul_zero, add_zero,
    hr, if_neg hθ.ne']
  have e1 : (-((θ : ℂ) - θ) * (starRingEnd ℂ) (⟨Real.cos θ, Real.sin θ⟩ : ℂ) + ((θ : ℂ) + θ) * ⟨Real.cos θ, Real.sin θ⟩) / (2 * θ)
      = ⟨Real.cos θ, Real.sin θ⟩ := by
    have hc : (θ : ℂ) ≠ 0 := by exact_mod_cast hθ.ne'
    field_simp
    ring
  have e2 : ((⟨-0, 0⟩ : ℂ) * (starRingEnd ℂ) (⟨Real.cos θ, Real.sin θ⟩ : ℂ) + ⟨0, -0⟩ * ⟨Real.cos θ, Real.sin θ⟩) / (2 * θ) = 0 := by
    have z : (⟨-0, 0⟩ : ℂ) = 0 := by apply Complex.ext <;> simp
    have z' : (⟨0, -0⟩ : ℂ) = 0 := by apply Complex.ext <;> simp
    rw [z, z']; simp
  rw [e1, e2]
  congr 1
  ext i j
  fin_cases i <;> fin_cases j <;> simp
  rfl

/-- The example: all links are minus one. -/
noncomputable def minusField (S : Type) : GField S 2 := fun _ _ => -1

theorem minusField_mem (s : S) (μ : Fin 4) : minusField S s μ ∈ specialUnitaryGroup (Fin 2) ℂ := by
  unfold minusField
  rw [mem_specialUnitaryGroup_iff, mem_unitaryGroup_iff]
  exact ⟨by simp, by simp [det_fin_two]⟩

noncomputable def noDraw (S : Type) : S → GaugeDraw 2 := fun _ => ⟨fun _ _ => 0, fun _ _ => 0, fun _ => 0⟩

noncomputable def alternatingDraw (T : Torus S) : S → GaugeDraw 2 := fun s => diagDraw (if evenSite T s then Real.pi / 2 else Real.pi)

theorem noDraw_transform (T : Torus S) [Nonempty S] (U : GField S 2) : fixTransform T (randomGauge expSu2 false 1 (noDraw S)) U = none := by
  unfold fixTransform
  rw [if_neg]
  intro h
  have := h (Classical.arbitrary S)
  unfold randomGauge noDraw at this
  rw [gaugeAlgebra_zero, C26_counterexample_zero.2.1] at this
  cases this

/-- The transform of the example. -/
noncomputable def alternating (T : Torus S) : GField S 2 :=
  gaugeTransform T (fun s => if evenSite T s then !![Complex.I, 0; 0, -Complex.I] else -1) (minusField S)

theorem alternating_transform (T : Torus S) :
    fixTransform T (randomGauge expSu2 false 1 (alternatingDraw T)) (minusField S) = some (alternating T) := by
  have h : ∀ s, randomGauge expSu2 false 1 (alternatingDraw T) s = some (if evenSite T s then !![Complex.I, 0; 0, -Complex.I] else -1) := by
    intro s
    unfold randomGauge alternatingDraw
    rw [gaugeAlgebra_diag]
    split
    · rw [expSu2_diag _ (by positivity), Real.cos_pi_div_two, Real.sin_pi_div_two]
      congr 1
      ext i j
      fin_cases i <;> fin_cases j <;> simp [Complex.ext_iff]
    · rw [expSu2_diag _ Real.pi_pos, Real.cos_pi, Real.sin_pi]
      congr 1
      ext i j
      fin_cases i <;> fin_cases j <;> simp [Complex.ext_iff]
  unfold fixTransform
  rw [if_pos (fun s => by rw [h]; rfl)]
  congr 1
  funext s μ
  rw [h, h]
  rfl

theorem alternating_functional (T : Torus S) (hext : ∀ μ, T.ext μ = 2) [Fintype S] : landauFunctional (alternating T) = 0 := by
  unfold landauFunctional
  refine Finset.sum_eq_zero fun s _ => Finset.sum_eq_zero fun μ _ => ?_
  unfold alternating gaugeTransform minusField
  by_cases hs : evenSite T s
  · have h1 : ¬evenSite T (T.sup μ s) := by rw [evenSite_sup T hext]; exact not_not.2 hs
    simp [hs, h1, trace, Fin.sum_univ_two]
  · have h1 : evenSite T (T.sup μ s) := (evenSite_sup T hext μ s).2 hs
    simp [hs, h1, trace, Fin.sum_univ_two]

theorem minusField_functional [Fintype S] [Nonempty S] : landauFunctional (minusField S) < 0 := by
  unfold landauFunctional minusField
  refine Finset.sum_neg' (fun s _ => ?_) ⟨Classical.arbitrary S, Finset.mem_univ _, ?_⟩ <;> simp [trace, Fin.sum_univ_two, Fin.sum_univ_four] <;> norm_num

/-- The options of the example. -/
noncomputable def exLandauPars : LandauPars := ⟨⟨1, 1, 1, 5, 1, 1 / 5⟩, 1, 0, 0, 1, 2, 1e-12⟩

/-- The random numbers of the example: only the second copy draws any. -/
noncomputable def exDraws (T : Torus S) : ℕ → ℕ → TemperDraw S 2 := fun n _ =>
  ⟨if n = 1 then alternatingDraw T else noDraw S, noDraw S, noDraw S, 0, 0, 0, 0, 0⟩

theorem exDraws_fix (T : Torus S) [Fintype S] [Nonempty S] (hext : ∀ μ, T.ext μ = 2) (n : ℕ) :
    landauFix expSu2 landauSite2 false T exLandauPars.temper 1 0 1 1e-12 (exDraws T n) (minusField S)
      = .ok (if n = 1 then ⟨alternating T, 0⟩ else ⟨minusField S, landauFunctional (minusField S)⟩) := by
  unfold landauFix
  rw [landauLocal, temper, temper, temperStep]
  by_cases hn : n = 1
  · simp only [exDraws, hn, if_true, exLandauPars, alternating_transform, noDraw_transform, improveBest, alternating_functional T hext,
      minusField_functional]
  · simp only [exDraws, hn, if_false, exLandauPars, noDraw_transform, improveBest]

/-- With two colours on a 2⁴ lattice: a configuration, options and random numbers for which the second copy reaches a larger functional than
the configuration that is kept. The search for the largest value starts at zero and misses the copies that are not positive. -/
theorem C47_copies_counterexample : ∃ (o : LandauPars) (d : ℕ → ℕ → TemperDraw (BoxSite exExt) 2) (U V : GField (BoxSite exExt) 2)
    (r : Replica (BoxSite exExt) 2), (∀ s μ, U s μ ∈ specialUnitaryGroup (Fin 2) ℂ) ∧ 1 < o.copies ∧
      landauExecute expSu2 landauSite2 false (boxTorus exExt exExt_pos) o d U = .ok V ∧
      landauFix expSu2 landauSite2 false (boxTorus exExt exExt_pos) o.temper o.steps o.localSteps o.outputSteps o.precision (d 1) U = .ok r ∧
      landauFunctional V < landauFunctional r.conf := by
  have hext : ∀ μ, (boxTorus exExt exExt_pos).ext μ = 2 := by intro μ; fin_cases μ <;> rfl
  have hne : Nonempty (BoxSite exExt) := ⟨⟨⟨0, 0, 0, 0⟩, by simp [InBox, exExt]⟩⟩
  generalize boxTorus exExt exExt_pos = T at *
  have hfix := exDraws_fix T hext
  have hneg := minusField_functional (S := BoxSite exExt)
  refine ⟨exLandauPars, exDraws T, minusField _, minusField _, ⟨alternating T, 0⟩, minusField_mem, by norm_num [exLandauPars], ?_, ?_, ?_⟩
  · have hcop : landauCopies expSu2 landauSite2 false T exLandauPars (exDraws T) (minusField (BoxSite exExt)) 2
        = .ok [⟨minusField (BoxSite exExt), landauFunctional (minusField (BoxSite exExt))⟩, ⟨alternating T, 0⟩] := by
      have f0 := hfix 0
      have f1 := hfix 1
      rw [landauCopies, landauCopies, landauCopies]
      show (((Outcome.ok [] >>= fun l => landauFix expSu2 landauSite2 false T exLandauPars.temper 1 0 1 1e-12 (exDraws T 0) (minusField _) >>= fun r =>
        Outcome.ok (l ++ [r])) >>= fun l => landauFix expSu2 landauSite2 false T exLandauPars.temper 1 0 1 1e-12 (exDraws T 1) (minusField _) >>= fun r =>
        Outcome.ok (l ++ [r])) : Outcome (List (Replica (BoxSite exExt) 2))) = _
      rw [f0, f1]
      simp
    have hsel : (landauSelect [⟨minusField (BoxSite exExt), landauFunctional (minusField (BoxSite exExt))⟩, ⟨alternating T, 0⟩]).2 = 0 := by
      simp [landauSelect, not_lt.2 hneg.le]
    unfold landauExecute
    show (landauCopies expSu2 landauSite2 false T exLandauPars (exDraws T) (minusField _) 2 >>= _) = _
    rw [hcop, Outcome.bind_ok, hsel]
    simp only [List.getElem?_cons_zero]
    have f2 := hfix 2
    show (landauFix expSu2 landauSite2 false T exLandauPars.temper 1 0 1 1e-12 (exDraws T 2) (minusField _) >>= _) = _
    rw [f2]
    simp
  · exact hfix 1
  · rw [show (⟨alternating T, 0⟩ : Replica (BoxSite exExt) 2).conf = alternating T from rfl, alternating_functional T hext]
    exact hneg

end Leonard
