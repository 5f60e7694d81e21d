import Verif.Xspace.NoisyProps
import Verif.Xspace.Examples

/-!
# C96: the connected correlators from noise contain the disconnected ones
-/

set_option autoImplicit false

namespace Leonard

open Matrix

noncomputable section

variable {N : ℕ}

/-- The step from one of the two sites to the other. -/
def otherSite : Equiv.Perm Bool := ⟨not, not, Bool.not_not, Bool.not_not⟩

@[simp] theorem otherSite_apply (x : Bool) : otherSite x = !x := rfl

/-- The lattice of the witness: two sites in the first direction, one in the others. -/
def pairTorus : Torus Bool where
  sup μ := if μ = 0 then otherSite else 1
  comm μ ν s := by cases s <;> by_cases h : μ = 0 <;> by_cases k : ν = 0 <;> simp [h, k]
  ext μ := if μ = 0 then 2 else 1
  period μ s := by by_cases h : μ = 0 <;> simp [h]
  coord s μ := if μ = 0 then (if s then 1 else 0) else 0
  coord_sup_ne μ ν s h := by
    by_cases k : μ = 0
    · have : ν ≠ 0 := fun e => h (k.trans e.symm)
      simp [this]
    · simp [k]
  coord_sup μ s := by by_cases h : μ = 0 <;> cases s <;> simp [h]
  coord_lt μ s := by by_cases h : μ = 0 <;> cases s <;> simp [h]

theorem pairTorus_injective : Function.Injective pairTorus.coord := by
  intro a b h
  have := congrFun h 0
  cases a <;> cases b <;> simp [pairTorus] at this ⊢

/-- The Wilson operator on unit links of the two sites, for the hopping parameter 1/12. -/
theorem pair_wilson (v : SField Bool N) : wilsonSpec pairTorus (fun _ _ => (1 : Mat N)) (1 / 12) v = fun x => (1 / 2 : ℂ) • v x - (1 / 6 : ℂ) • v (!x) := by
  have h2 : ∀ (μ : Fin 4) (w : Matrix (Fin 4) (Fin N) ℂ), (1 - tabGamma μ) * w + (1 + tabGamma μ) * w = (2 : ℂ) • w := by
    intro μ w
    rw [← Matrix.add_mul, show (1 - tabGamma μ) + (1 + tabGamma μ) = (2 : ℂ) • (1 : SpinMat) by rw [two_smul]; abel, Matrix.smul_mul, Matrix.one_mul]
  have hup : ∀ μ x, pairTorus.sup μ x = if μ = 0 then !x else x := by
    intro μ x; by_cases h : μ = 0 <;> simp [pairTorus, h]
  have hdn : ∀ μ x, pairTorus.sdn μ x = if μ = 0 then !x else x := by
    intro μ x
    rw [pairTorus.sdn_eq_iff, hup]
    by_cases h : μ = 0 <;> simp [h]
  funext x
  unfold wilsonSpec hoppingSpec
  simp only [conjTranspose_one, transpose_one, Matrix.mul_one, hup, hdn, h2]
  rw [Fin.sum_univ_four]
  simp only [if_true, show ¬ ((1 : Fin 4) = 0) by decide, show ¬ ((2 : Fin 4) = 0) by decide, show ¬ ((3 : Fin 4) = 0) by decide, if_false]
  ext mu c
  simp only [Matrix.sub_apply, Matrix.smul_apply, Matrix.add_apply, smul_eq_mul]
  push_cast
  ring

/-- The inverter of the witness. -/
def pairSolve (b : SField Bool N) : SField Bool N := fun x => (9 / 4 : ℂ) • b x + (3 / 4 : ℂ) • b (!x)

/-- The Green function of the witness. -/
def pairGreen (x y : Bool) : Matrix (Fin 4 × Fin N) (Fin 4 × Fin N) ℂ := if x = y then (9 / 4 : ℂ) • 1 else (3 / 4 : ℂ) • 1

theorem pair_solve (b : SField Bool N) : optMul pairTorus (fun _ _ => (1 : Mat N)) (1 / 12) false (pairSolve b) = b := by
  rw [(C33_wilson _ _ _ _ _).1]
  change wilsonSpec pairTorus (fun _ _ => (1 : Mat N)) (1 / 12) (pairSolve b) = b
  rw [pair_wilson]
  funext x
  ext mu c
  simp only [pairSolve, Matrix.sub_apply, Matrix.smul_apply, Matrix.add_apply, smul_eq_mul, Bool.not_not]
  ring

theorem pair_green : IsGreen (optMul pairTorus (fun _ _ => (1 : Mat N)) (1 / 12) false) pairGreen := by
  intro y j
  rw [show (fun x => Matrix.of fun mu i => pairGreen x y (mu, i) j : SField Bool N) = pairSolve (unitField y j) from ?_, pair_solve]
  funext x
  ext mu c
  simp only [pairSolve, pairGreen, unitField, Matrix.of_apply, Matrix.add_apply, Matrix.smul_apply, smul_eq_mul]
  by_cases hj : (mu, c) = j
  · subst hj
    cases x <;> cases y <;> simp
  · cases x <;> cases y <;> simp [hj]

theorem gammaBits_zero : gammaBits 0 = 1 := by
  simp [gammaBits]

theorem pair_adjoint : tabGamma 3 * (gammaBits 0)ᴴ * tabGamma 3 = 1 := by
  rw [gammaBits_zero, conjTranspose_one, Matrix.mul_one, gamma_sq]

theorem pair_kron : kroneckerMap (· * ·) (1 : SpinMat) (1 : Mat N) = (1 : Matrix (Fin 4 × Fin N) (Fin 4 × Fin N) ℂ) := one_kronecker_one

/-- The connected and the disconnected correlator of the scalar at the two sites. -/
theorem pair_values (x : Bool) : connectedAt (pairGreen (N := N)) 0 x (!x) = 9 / 4 * N ∧ disconnectedAt (pairGreen (N := N)) 0 x (!x) = 81 * (N : ℂ) ^ 2 := by
  have h1 : ¬ x = !x := by cases x <;> decide
  have h2 : ¬ (!x) = x := by cases x <;> decide
  unfold connectedAt disconnectedAt
  rw [pair_adjoint, gammaBits_zero, pair_kron]
  simp only [pairGreen, if_neg h1, if_neg h2, if_true, Matrix.one_mul, Matrix.mul_one, Matrix.smul_mul, Matrix.mul_smul, trace_smul, trace_one, smul_eq_mul,
    Fintype.card_prod, Fintype.card_fin]
  push_cast
  constructor <;> ring

/-- **C96**: the numbers written as connected correlator do not estimate it. For free quarks on a lattice of two sites (hopping parameter 1/12) the connected correlator of
the scalar at distance one is `N/8`, but the mean over the noise of every number which is written for it is `N/8 + 9N²/2`. -/
theorem C96_mean_counterexample (hN : 0 < N) : ∃ (solveSq : SField Bool N → SField Bool N) (G : Bool → Bool → Matrix (Fin 4 × Fin N) (Fin 4 × Fin N) ℂ),
    let U : GField Bool N := fun _ _ => 1
    let κ : ℝ := 1 / 12
    (∀ b, optMul pairTorus U κ true (optMul pairTorus U κ true (solveSq b)) = b) ∧ IsGreen (optMul pairTorus U κ false) G
    ∧ (∃ h : 1 < xspacePoints.length, xspacePoints[1] = ![1, 0, 0, 0])
    ∧ (4 * (κ : ℂ) ^ 2 * ∑ x, connectedAt G 0 x (!x) = N / 8) ∧ ((N : ℂ) / 8 ≠ N / 8 + 9 * (N : ℂ) ^ 2 / 2)
    ∧ ∀ {n : ℕ} (k : Fin n), average (fun rs : Fin n → Noise Bool N =>
        (((xspaceStochastic pairTorus κ (optMul pairTorus U κ true) solveSq rs)[1]?.bind fun p => p.2[0]?).bind fun l => l[k.val]?).getD 0) = N / 8 + 9 * (N : ℂ) ^ 2 / 2 := by
  have hq : IsHermitianWilson pairTorus (1 / 12) (fun U : GField Bool N => optMul pairTorus U (1 / 12) false) fun U => optMul pairTorus U (1 / 12) true :=
    Or.inl ⟨rfl, rfl⟩
  have sq := squareSolve_spec (fun v => hq.right (fun _ _ => (1 : Mat N)) v) pair_solve
  have hlen : 1 < xspacePoints.length := by decide
  have hp : xspacePoints[1] = ![1, 0, 0, 0] := rfl
  have hN' : (N : ℂ) ≠ 0 := by exact_mod_cast hN.ne'
  refine ⟨squareSolve pairSolve, pairGreen, sq, pair_green, ⟨hlen, hp⟩, ?_, ?_, ?_⟩
  · simp only [(pair_values _).1, Fintype.sum_bool]
    push_cast
    ring
  · intro h
    have : 9 * (N : ℂ) ^ 2 / 2 = 0 := by linear_combination -h
    have h9 : (N : ℂ) ^ 2 = 0 := by linear_combination (2 / 9) * this
    exact hN' (pow_eq_zero_iff (two_ne_zero) |>.1 h9)
  · intro n k
    have h := C96_mean_partial pairTorus pairTorus_injective hq (fun _ _ => (1 : Mat N)) (squareSolve pairSolve) sq pair_green k 1 hlen
      ⟨0, by rw [hp]; simp [pairTorus]⟩ 0
    refine h.trans ?_
    have hc : ∀ x y : Bool, (∀ μ, pairTorus.coord y μ = (pairTorus.coord x μ + xspacePoints[1] μ) % pairTorus.ext μ) ↔ y = !x := by
      intro x y
      rw [hp]
      constructor
      · intro h
        have := h 0
        cases x <;> cases y <;> simp [pairTorus] at this ⊢
      · rintro rfl μ
        fin_cases μ <;> cases x <;> simp [pairTorus]
    simp only [hc, Finset.sum_ite_eq', Finset.mem_univ, if_true, (pair_values _).1, (pair_values _).2, Fintype.sum_bool]
    push_cast
    ring

/-- `C96_mean_partial`: the hypotheses can be met on the lattice with three sites in each direction and the links of the other examples. -/
example : (∃ solveSq : SField (BoxSite exExt3) 3 → SField (BoxSite exExt3) 3,
    (∀ b, optMul (boxTorus exExt3 exExt3_pos) exMesonLinks (1 / 10) true (optMul (boxTorus exExt3 exExt3_pos) exMesonLinks (1 / 10) true (solveSq b)) = b)
    ∧ (∃ G, IsGreen (optMul (boxTorus exExt3 exExt3_pos) exMesonLinks (1 / 10) false) G))
    ∧ Function.Injective (boxTorus exExt3 exExt3_pos).coord := by
  obtain ⟨solve, hs⟩ := exists_exact (N := 3) (boxTorus exExt3 exExt3_pos) (κ := 1 / 10) (by rw [abs_of_pos] <;> norm_num)
  have hq : IsHermitianWilson (boxTorus exExt3 exExt3_pos) (1 / 10) (fun U : GField (BoxSite exExt3) 3 => optMul (boxTorus exExt3 exExt3_pos) U (1 / 10) false)
      (fun U => optMul (boxTorus exExt3 exExt3_pos) U (1 / 10) true) := Or.inl ⟨rfl, rfl⟩
  exact ⟨⟨_, squareSolve_spec (fun v => hq.right exMesonLinks v) (hs _ exMesonLinks_unitary), ⟨_, green_exists (hs _ exMesonLinks_unitary)⟩⟩, boxTorus_coord_injective _ _⟩

end

end Leonard
