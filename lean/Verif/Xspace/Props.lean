import Verif.Xspace.Model
import Verif.Singlet.Lemmas
import Verif.Meson.Counter
import Verif.Npr.Props

/-!
# C77: correlators of points
-/

set_option autoImplicit false

namespace Leonard

open Matrix

noncomputable section

variable {S : Type} {N : ℕ}

/-- **Specification.** The Wilson operators of the program with γ₅. -/
def IsHermitianWilson (T : Torus S) (κ : ℝ) (D Q : GField S N → SField S N → SField S N) : Prop :=
  (D = (fun U => optMul T U κ false) ∧ Q = fun U => optMul T U κ true) ∨ (D = (fun U => basicMul T U κ false) ∧ Q = fun U => basicMul T U κ true)
    ∨ ∃ csw, D = (fun U => improvedMul T U κ csw false) ∧ Q = fun U => improvedMul T U κ csw true

theorem IsHermitianWilson.left {T : Torus S} {κ : ℝ} {D Q : GField S N → SField S N → SField S N} (h : IsHermitianWilson T κ D Q) : IsWilsonType T κ D := by
  rcases h with ⟨h, _⟩ | ⟨h, _⟩ | ⟨csw, h, _⟩
  · exact Or.inl h
  · exact Or.inr (Or.inl h)
  · exact Or.inr (Or.inr ⟨csw, h⟩)

theorem IsHermitianWilson.right {T : Torus S} {κ : ℝ} {D Q : GField S N → SField S N → SField S N} (h : IsHermitianWilson T κ D Q) (U : GField S N) (v : SField S N) :
    Q U v = gamma5Field (D U v) := by
  rcases h with ⟨rfl, rfl⟩ | ⟨rfl, rfl⟩ | ⟨csw, rfl, rfl⟩
  · simp only [(C33_wilson T U κ _ v).1, withGamma5]; rfl
  · simp only [(C33_wilson T U κ _ v).2, withGamma5]; rfl
  · simp only [C33_improved, withGamma5]; rfl

/-- **C77**: the inversions return the solution for the operator without γ₅, by way of the square of the operator with γ₅. -/
theorem C77_solve [Finite S] (T : Torus S) {κ : ℝ} {D Q : GField S N → SField S N → SField S N} (hQ : IsHermitianWilson T κ D Q) (U : GField S N)
    (solveSq : SField S N → SField S N) (hs : ∀ b, Q U (Q U (solveSq b)) = b) (b : SField S N) : D U (xspaceInverse (Q U) solveSq b) = b := by
  cases nonempty_fintype S
  obtain ⟨csw, hD⟩ := hQ.left.spec
  have hsur : ∀ b, ∃ v, improvedSpec T U κ csw v = b := by
    intro b
    refine ⟨Q U (solveSq (gamma5Field b)), ?_⟩
    have := hs (gamma5Field b)
    rw [hQ.right U (Q U (solveSq (gamma5Field b)))] at this
    have h2 := congrArg gamma5Field this
    rw [gamma5Field_gamma5Field, gamma5Field_gamma5Field] at h2
    rw [← hD]; exact h2
  have hinj := improved_injective hsur
  have h := hs (Q U (latticeGamma5 b))
  rw [(C34_dot b b).2.2.2.2.1] at h
  unfold xspaceInverse
  rw [(C34_dot b b).2.2.2.2.1]
  generalize solveSq (Q U (gamma5Field b)) = w at *
  have h5 : ∀ a c : SField S N, gamma5Field a = gamma5Field c → a = c := fun a c e => by
    have := congrArg gamma5Field e
    rwa [gamma5Field_gamma5Field, gamma5Field_gamma5Field] at this
  have h1 : Q U w = gamma5Field b := by
    refine hinj (h5 _ _ ?_)
    rw [hQ.right U (Q U w), hQ.right U (gamma5Field b), hD] at h
    exact h
  rw [hQ.right U w] at h1
  exact h5 _ _ h1

theorem xspaceSign_eq (α mu : Fin 4) : xspaceSign α mu = spinSign mu * spinSign α := by
  unfold xspaceSign spinSign
  fin_cases α <;> fin_cases mu <;> norm_num

/-- **C77** (part): what is written as exact connected correlator of the points `o` and `x`, for an exact inverter. Instead of
`tr(Γ G(o,x) Γ G(x,o))` it is the trace with the transpose of the last factor. -/
theorem C77_exact_partial [Fintype S] [DecidableEq S] (T : Torus S) {κ : ℝ} {D Q : GField S N → SField S N → SField S N} (hQ : IsHermitianWilson T κ D Q)
    (U : GField S N) {o : S} (ho : IsOrigin T o) (solveSq : SField S N → SField S N) (hs : ∀ b, Q U (Q U (solveSq b)) = b)
    {G : S → S → Matrix (Fin 4 × Fin N) (Fin 4 × Fin N) ℂ} (hG : IsGreen (D U) G) :
    xspaceExact T κ (Q U) solveSq o = xspacePoints.map fun c => (c, (List.finRange 16).map fun v =>
      let x := xspaceShift T c o
      let K := kroneckerMap (· * ·) (gammaBits v) (1 : Mat N)
      4 * (κ : ℂ) ^ 2 * trace (K * G o x * K * (G x o)ᵀ)) := by
  obtain ⟨csw, hD⟩ := hQ.left.spec
  have hsol := C77_solve T hQ U solveSq hs
  rw [hD] at hG hsol
  have hF : ∀ α c x mu d, xspaceInverse (Q U) solveSq (pointSource T α c) x mu d = G x o (mu, d) (α, c) := by
    intro α c x mu d
    have h1 : improvedSpec T U κ csw (xspaceInverse (Q U) solveSq (pointSource T α c)) = improvedSpec T U κ csw (fun x => Matrix.of fun mu i => G x o (mu, i) (α, c)) := by
      rw [hsol, hG, pointSource_eq ho]
    exact congrFun (congrFun (congrFun (improved_injective (fun b => ⟨_, hsol b⟩) h1) x) mu) d
  unfold xspaceExact
  refine List.map_congr_left fun c _ => ?_
  refine congrArg (Prod.mk c) (List.map_congr_left (l := List.finRange 16) fun v _ => ?_)
  have hK : ∀ (Γ : SpinMat) (M : Matrix (Fin 4 × Fin N) (Fin 4 × Fin N) ℂ) (ρ : Fin 4) (c : Fin N) j,
      (kroneckerMap (· * ·) Γ (1 : Mat N) * M) (ρ, c) j = ∑ α, Γ ρ α * M (α, c) j := by
    intro Γ M mu d j
    rw [Matrix.mul_apply, Fintype.sum_prod_type]
    refine Finset.sum_congr rfl fun nu _ => ?_
    rw [Finset.sum_eq_single d]
    · simp [kroneckerMap_apply]
    · intro e _ he; simp [kroneckerMap_apply, one_apply, Ne.symm he]
    · simp
  have hK' : ∀ (Γ : SpinMat) (M : Matrix (Fin 4 × Fin N) (Fin 4 × Fin N) ℂ) j (nu : Fin 4) (d : Fin N),
      (M * kroneckerMap (· * ·) Γ (1 : Mat N)) j (nu, d) = ∑ mu, M j (mu, d) * Γ mu nu := by
    intro Γ M j nu d
    rw [Matrix.mul_apply, Fintype.sum_prod_type]
    refine Finset.sum_congr rfl fun mu _ => ?_
    rw [Finset.sum_eq_single d]
    · simp [kroneckerMap_apply]
    · intro e _ he; simp [kroneckerMap_apply, one_apply, he]
    · simp
  have hv : gammaBits v = tabChroma v := (C32_chroma v).symm
  generalize xspaceShift T c o = x
  have key : xspaceConnected (fun α c => xspaceInverse (Q U) solveSq (pointSource T α c)) v x
      = trace (kroneckerMap (· * ·) (tabChroma v) (1 : Mat N) * G o x * kroneckerMap (· * ·) (tabChroma v) (1 : Mat N) * (G x o)ᵀ) := by
    simp only [xspaceConnected, hF, Matrix.trace, Matrix.diag, Fintype.sum_prod_type]
    refine Finset.sum_congr rfl fun ρ _ => Finset.sum_congr rfl fun c _ => ?_
    rw [Matrix.mul_apply, Fintype.sum_prod_type]
    simp only [transpose_apply, hK', hK, Finset.sum_mul]
    calc ∑ α, ∑ mu, ∑ nu, ∑ d, xspaceSign α mu * tabChroma v ρ α * starRingEnd ℂ (G x o (mu, d) (α, c)) * tabChroma v mu nu * G x o (ρ, c) (nu, d)
        = ∑ α, ∑ nu, ∑ mu, ∑ d, xspaceSign α mu * tabChroma v ρ α * starRingEnd ℂ (G x o (mu, d) (α, c)) * tabChroma v mu nu * G x o (ρ, c) (nu, d) :=
          Finset.sum_congr rfl fun α _ => Finset.sum_comm
      _ = ∑ nu, ∑ α, ∑ mu, ∑ d, xspaceSign α mu * tabChroma v ρ α * starRingEnd ℂ (G x o (mu, d) (α, c)) * tabChroma v mu nu * G x o (ρ, c) (nu, d) :=
          Finset.sum_comm
      _ = ∑ nu, ∑ α, ∑ d, ∑ mu, xspaceSign α mu * tabChroma v ρ α * starRingEnd ℂ (G x o (mu, d) (α, c)) * tabChroma v mu nu * G x o (ρ, c) (nu, d) :=
          Finset.sum_congr rfl fun nu _ => Finset.sum_congr rfl fun α _ => Finset.sum_comm
      _ = ∑ nu, ∑ d, ∑ α, ∑ mu, xspaceSign α mu * tabChroma v ρ α * starRingEnd ℂ (G x o (mu, d) (α, c)) * tabChroma v mu nu * G x o (ρ, c) (nu, d) :=
          Finset.sum_congr rfl fun nu _ => Finset.sum_comm
      _ = ∑ nu, ∑ d, ∑ mu, ∑ α, xspaceSign α mu * tabChroma v ρ α * starRingEnd ℂ (G x o (mu, d) (α, c)) * tabChroma v mu nu * G x o (ρ, c) (nu, d) :=
          Finset.sum_congr rfl fun nu _ => Finset.sum_congr rfl fun d _ => Finset.sum_comm
      _ = _ := Finset.sum_congr rfl fun nu _ => Finset.sum_congr rfl fun d _ => Finset.sum_congr rfl fun mu _ => Finset.sum_congr rfl fun α _ => by
          rw [green_gamma5 hG x o (mu, d) (α, c), xspaceSign_eq]
          ring
  simp only [hv, key]
  ring

/-! ### The witness: one site, and the same links in another gauge -/

/-- The Pauli matrix σ₂. -/
def pauli2 : Mat 2 := !![0, -Complex.I; Complex.I, 0]

/-- A rotation which takes σ₃ to σ₂. -/
def turnW : Mat 2 := !![(1 + Complex.I) / 2, (1 + Complex.I) / 2; (-1 + Complex.I) / 2, (1 - Complex.I) / 2]

theorem turnW_unitary : turnWᴴ * turnW = 1 := by
  have h2 : starRingEnd ℂ 2 = 2 := Complex.conj_ofNat 2
  ext i j
  fin_cases i <;> fin_cases j <;> simp [turnW, Matrix.mul_apply, h2] <;> ring_nf <;> simp <;> norm_num

theorem turnW_pauli : turnW * pauli3 * turnWᴴ = pauli2 := by
  have h2 : starRingEnd ℂ 2 = 2 := Complex.conj_ofNat 2
  ext i j
  rw [pauli3, Matrix.mul_apply]
  simp only [mul_diagonal, Fin.sum_univ_two]
  fin_cases i <;> fin_cases j <;> simp [turnW, pauli2, h2] <;> ring_nf <;> simp <;> ring_nf

theorem pauli2_transpose : pauli2ᵀ = -pauli2 := by
  ext i j
  fin_cases i <;> fin_cases j <;> simp [pauli2]

theorem gamma0_transpose : (tabGamma 0)ᵀ = -tabGamma 0 := by
  have h : (tabGammaT 0)ᵀ = -tabGammaT 0 := by decide +kernel
  have e : ∀ A, (toSpin A)ᵀ = toSpin Aᵀ := fun A => rfl
  have e2 : ∀ A, toSpin (-A) = -toSpin A := fun A => by unfold toSpin; rw [map_neg]
  unfold tabGamma
  rw [e, h, e2]

theorem gammaBits_15 : gammaBits 15 = tabGamma5 := (C32_chroma 15).symm.trans chroma15

theorem kron_transpose (Γ : SpinMat) (W : Mat 2) : (kroneckerMap (· * ·) Γ W)ᵀ = kroneckerMap (· * ·) Γᵀ Wᵀ := rfl

/-- The inverter of the witness for the square of the operator with γ₅. -/
def squareSolve (solve : SField S N → SField S N) (b : SField S N) : SField S N := solve (gamma5Field (solve (gamma5Field b)))

theorem squareSolve_spec {D Q : SField S N → SField S N} (hQ : ∀ v, Q v = gamma5Field (D v)) {solve : SField S N → SField S N}
    (hs : ∀ b, D (solve b) = b) (b : SField S N) : Q (Q (squareSolve solve b)) = b := by
  simp only [squareSolve, hQ, hs, gamma5Field_gamma5Field]

/-- The number written for the pseudoscalar at one site, when the Green function is `2(1 - iK)` with `K` hermitian, of square one and of trace zero. -/
theorem transposed_trace {n : Type} [Fintype n] [DecidableEq n] {K : Matrix n n ℂ} (h2 : K * K = 1) (hH : Kᴴ = K) (ht : trace K = 0) {s : ℂ} (hT : Kᵀ = s • K) :
    trace (((2 : ℂ) • (1 - Complex.I • K))ᴴ * ((2 : ℂ) • (1 - Complex.I • K))ᵀ) = 4 * (1 + s) * Fintype.card n
    ∧ trace (((2 : ℂ) • (1 - Complex.I • K))ᴴ * ((2 : ℂ) • (1 - Complex.I • K))) = 8 * (Fintype.card n : ℂ) := by
  have e1 : ((2 : ℂ) • (1 - Complex.I • K))ᴴ = (2 : ℂ) • (1 + Complex.I • K) := by
    rw [conjTranspose_smul, conjTranspose_sub, conjTranspose_one, conjTranspose_smul, hH]
    simp
  have key : ∀ a : ℂ, trace ((2 : ℂ) • (1 + Complex.I • K) * (2 : ℂ) • (1 - (Complex.I * a) • K)) = 4 * (1 + a) * Fintype.card n := by
    intro a
    have : (2 : ℂ) • (1 + Complex.I • K) * (2 : ℂ) • (1 - (Complex.I * a) • K) = (4 * (1 + a)) • 1 + (4 * Complex.I * (1 - a)) • K := by
      simp only [Matrix.smul_mul, Matrix.mul_smul, Matrix.add_mul, Matrix.mul_sub, Matrix.one_mul, Matrix.mul_one, h2]
      ext i j
      simp only [Matrix.sub_apply, Matrix.add_apply, Matrix.smul_apply, smul_eq_mul]
      linear_combination (-(4 * a) * (1 : Matrix n n ℂ) i j) * Complex.I_mul_I
    rw [this, trace_add, trace_smul, trace_smul, ht, trace_one]
    simp
  constructor
  · rw [e1, transpose_smul, transpose_sub, transpose_one, transpose_smul, hT, smul_smul, key]
  · have := key 1
    rw [mul_one] at this
    rw [e1, this]
    ring

theorem point_trace (W : Mat 2) (hW : trace W = 0) : trace (kroneckerMap (· * ·) (tabGamma 0) W) = 0 := by
  have h := trace_kronecker (tabGamma 0) W
  rw [hW, mul_zero] at h
  exact h

theorem kron_herm {Γ : SpinMat} {W : Mat 2} (hΓ : Γᴴ = Γ) (hW : Wᴴ = W) : (kroneckerMap (· * ·) Γ W)ᴴ = kroneckerMap (· * ·) Γ W := by
  ext ⟨a, b⟩ ⟨c, d⟩
  have h1 := congrFun (congrFun hΓ a) c
  have h2 := congrFun (congrFun hW b) d
  rw [conjTranspose_apply] at h1 h2
  simp only [conjTranspose_apply, kroneckerMap_apply, star_mul', h1, h2]

/-- The Green function at one site with γ₅ on both sides. -/
theorem gamma5_green [Fintype S] [DecidableEq S] {T : Torus S} {U : GField S N} {κ csw : ℝ} {G : S → S → Matrix (Fin 4 × Fin N) (Fin 4 × Fin N) ℂ}
    (hG : IsGreen (improvedSpec T U κ csw) G) (x y : S) :
    kroneckerMap (· * ·) tabGamma5 (1 : Mat N) * G x y * kroneckerMap (· * ·) tabGamma5 (1 : Mat N) = (G y x)ᴴ := by
  have h5 : kroneckerMap (· * ·) tabGamma5 (1 : Mat N) = diagonal fun i : Fin 4 × Fin N => spinSign i.1 := by
    rw [gamma5_eq_diagonal]
    ext ⟨a, b⟩ ⟨c, d⟩
    simp only [kroneckerMap_apply, diagonal_apply, one_apply, Prod.mk.injEq]
    by_cases h1 : a = c <;> by_cases h2 : b = d <;> simp [h1, h2]
  ext i j
  rw [h5, mul_diagonal, diagonal_mul, conjTranspose_apply, green_gamma5 hG y x j i]
  simp only [Complex.star_def]
  have hs : ∀ a, spinSign a * spinSign a = 1 := by intro a; unfold spinSign; split <;> norm_num
  linear_combination (spinSign j.1 * spinSign j.1 * starRingEnd ℂ (G y x j i)) * hs i.1 + starRingEnd ℂ (G y x j i) * hs j.1

/-- **C77**: what is written as exact correlator is wrong and depends on the gauge. On the lattice with one site there are unitary links and a gauge
transformation, such that the pseudoscalar correlator is 4 for both; the program writes 0 for the one and 4 for the other, at all points. -/
theorem C77_exact_counterexample : ∃ (U : GField Unit 2) (ω : Unit → Mat 2) (s s' : SField Unit 2 → SField Unit 2)
      (G G' : Unit → Unit → Matrix (Fin 4 × Fin 2) (Fin 4 × Fin 2) ℂ),
    let κ : ℝ := 1 / 8
    let U' := gaugeTransform pointTorus ω U
    let K := kroneckerMap (· * ·) tabGamma5 (1 : Mat 2)
    (∀ x μ, U x μ ∈ unitaryGroup (Fin 2) ℂ) ∧ (∀ x, (ω x)ᴴ * ω x = 1)
    ∧ (∀ b, optMul pointTorus U κ true (optMul pointTorus U κ true (s b)) = b) ∧ IsGreen (optMul pointTorus U κ false) G
    ∧ (∀ b, optMul pointTorus U' κ true (optMul pointTorus U' κ true (s' b)) = b) ∧ IsGreen (optMul pointTorus U' κ false) G'
    ∧ 4 * (κ : ℂ) ^ 2 * trace (K * G () () * K * G () ()) = 4 ∧ 4 * (κ : ℂ) ^ 2 * trace (K * G' () () * K * G' () ()) = 4
    ∧ (∀ p ∈ xspaceExact pointTorus κ (optMul pointTorus U κ true) s (), p.2[15]? = some 0)
    ∧ (∀ p ∈ xspaceExact pointTorus κ (optMul pointTorus U' κ true) s' (), p.2[15]? = some 4) := by
  have hq : IsHermitianWilson pointTorus (1 / 8) (fun U : GField Unit 2 => optMul pointTorus U (1 / 8) false) fun U => optMul pointTorus U (1 / 8) true :=
    Or.inl ⟨rfl, rfl⟩
  have himp : ∀ U : GField Unit 2, optMul pointTorus U (1 / 8) false = improvedSpec pointTorus U (1 / 8) 0 := by
    intro U
    funext v
    rw [(C33_wilson _ _ _ _ _).1, improvedSpec_zero]
    rfl
  have hW : ∀ x : Unit, ((fun _ => turnW : Unit → Mat 2) x)ᴴ * (fun _ => turnW : Unit → Mat 2) x = 1 := fun _ => turnW_unitary
  have hW' : ∀ x : Unit, (fun _ => turnW : Unit → Mat 2) x * ((fun _ => turnW : Unit → Mat 2) x)ᴴ = 1 := fun _ => mul_eq_one_comm.1 turnW_unitary
  have hG := point_green
  have hG' := green_gauge (by rw [← himp]; exact hG) hW
  rw [← himp] at hG'
  have hs : ∀ b, optMul pointTorus pointLinks (1 / 8) false (pointSolve b) = b := fun b => by
    rw [(C33_wilson _ _ _ _ _).1]; exact point_solve b
  have hs' : ∀ b, optMul pointTorus (gaugeTransform pointTorus (fun _ => turnW) pointLinks) (1 / 8) false
      (spinorTransform (fun _ => turnW) (pointSolve (spinorTransform (fun _ => turnWᴴ) b))) = b := fun b => by
    rw [himp, improved_gauge pointTorus pointLinks _ hW hW', ← himp, hs]
    funext x
    simp only [spinorTransform]
    rw [Matrix.mul_assoc, ← transpose_mul, hW' x, transpose_one, Matrix.mul_one]
  have g : (tabGamma 0)ᴴ = tabGamma 0 := (C32_clifford 0 0).2
  have hp3 : pauli3ᴴ = pauli3 := by rw [pauli3, diagonal_conjTranspose]; congr 1; funext i; fin_cases i <;> simp
  have hp2 : pauli2ᴴ = pauli2 := by ext i j; fin_cases i <;> fin_cases j <;> simp [pauli2]
  have hp2s : pauli2 * pauli2 = 1 := by ext i j; fin_cases i <;> fin_cases j <;> simp [pauli2]
  have hK2 : kroneckerMap (· * ·) (tabGamma 0) pauli2 * kroneckerMap (· * ·) (tabGamma 0) pauli2 = 1 := by
    have h := mul_kronecker_mul (tabGamma 0) (tabGamma 0) pauli2 pauli2
    rw [gamma_sq, hp2s] at h
    exact h.symm.trans one_kronecker_one
  have hGe : colorMat turnW * pointGreen () () * colorMat turnWᴴ = (2 : ℂ) • (1 - Complex.I • kroneckerMap (· * ·) (tabGamma 0) pauli2) := by
    have e1 : colorMat turnW * kroneckerMap (· * ·) (tabGamma 0) pauli3 * colorMat turnWᴴ = kroneckerMap (· * ·) (tabGamma 0) pauli2 := by
      have h1 := mul_kronecker_mul (1 : SpinMat) (tabGamma 0) turnW pauli3
      have h2 := mul_kronecker_mul (tabGamma 0) (1 : SpinMat) (turnW * pauli3) turnWᴴ
      rw [Matrix.one_mul] at h1
      rw [Matrix.mul_one, turnW_pauli, h1] at h2
      exact h2.symm
    have e2 : colorMat turnW * colorMat turnWᴴ = 1 := by rw [colorMat_mul, hW' (), colorMat_one]
    rw [pointGreen, Matrix.mul_smul, Matrix.smul_mul, Matrix.mul_sub, Matrix.sub_mul, Matrix.mul_one, e2, Matrix.mul_smul, Matrix.smul_mul, e1]
  have t3 : (kroneckerMap (· * ·) (tabGamma 0) pauli3)ᵀ = (-1 : ℂ) • kroneckerMap (· * ·) (tabGamma 0) pauli3 := by
    rw [kron_transpose, gamma0_transpose, pauli3_transpose]
    ext ⟨a, b⟩ ⟨c, d⟩
    simp
  have t2 : (kroneckerMap (· * ·) (tabGamma 0) pauli2)ᵀ = (1 : ℂ) • kroneckerMap (· * ·) (tabGamma 0) pauli2 := by
    rw [kron_transpose, gamma0_transpose, pauli2_transpose]
    ext ⟨a, b⟩ ⟨c, d⟩
    simp
  have r3 := transposed_trace point_square (kron_herm g hp3) (point_trace _ (by rw [pauli3, trace_diagonal]; simp)) t3
  have r2 := transposed_trace hK2 (kron_herm g hp2) (point_trace _ (by simp [pauli2, trace_fin_two])) t2
  have c8 : ((Fintype.card (Fin 4 × Fin 2) : ℕ) : ℂ) = 8 := by simp; try norm_num
  rw [c8] at r3 r2
  have a3 := gamma5_green (by rw [← himp]; exact hG) () ()
  have a2 := gamma5_green (by rw [← himp]; exact hG') () ()
  have ks : ((1 / 8 : ℝ) : ℂ) = 1 / 8 := by push_cast; rfl
  have sq := squareSolve_spec (fun v => hq.right pointLinks v) hs
  have sq' := squareSolve_spec (fun v => hq.right (gaugeTransform pointTorus (fun _ => turnW) pointLinks) v) hs'
  have ho : IsOrigin pointTorus () := by simp [IsOrigin, pointTorus]
  have f := C77_exact_partial pointTorus hq pointLinks ho _ sq hG
  have f' := C77_exact_partial pointTorus hq (gaugeTransform pointTorus (fun _ => turnW) pointLinks) ho _ sq' hG'
  refine ⟨pointLinks, fun _ => turnW, _, _, pointGreen, _, pointLinks_unitary, hW, sq, hG, sq', hG', ?_, ?_, ?_, ?_⟩
  · rw [a3, pointGreen, r3.2, ks]; norm_num
  · rw [a2, hGe, r2.2, ks]; norm_num
  · intro p hp
    rw [f, List.mem_map] at hp
    obtain ⟨c, _, rfl⟩ := hp
    rw [List.getElem?_map, show (List.finRange 16)[15]? = some 15 from rfl]
    simp only [Option.map_some, gammaBits_15]
    rw [a3, pointGreen, r3.1]
    norm_num
  · intro p hp
    rw [f', List.mem_map] at hp
    obtain ⟨c, _, rfl⟩ := hp
    rw [List.getElem?_map, show (List.finRange 16)[15]? = some 15 from rfl]
    simp only [Option.map_some, gammaBits_15]
    rw [a2, hGe, r2.1, ks]
    norm_num

/-! ### The disconnected part -/

/-- **C77** (part): the mean over the noise of the number which stands for the trace of `Γ` and the Green function at `x`. It is the trace for the
matrices which are diagonal, and for the others the sum of the diagonal elements of the Green function with the sums of the columns of `Γ`. -/
theorem C77_disconnected_partial [Fintype S] [DecidableEq S] (T : Torus S) {κ : ℝ} {D Q : GField S N → SField S N → SField S N} (hQ : IsHermitianWilson T κ D Q)
    (U : GField S N) (solveSq : SField S N → SField S N) (hs : ∀ b, Q U (Q U (solveSq b)) = b)
    {G : S → S → Matrix (Fin 4 × Fin N) (Fin 4 × Fin N) ℂ} (hG : IsGreen (D U) G) {n : ℕ} (hn : 0 < n) (x : S) (v : Fin 16) :
    average (fun rs : Fin n → Noise S N => xspaceLoop (xspaceTrace (Q U) solveSq rs) v x) = ∑ mu, ∑ nu, ∑ c, gammaBits v mu nu * G x x (nu, c) (nu, c)
    ∧ ((∀ mu nu, mu ≠ nu → gammaBits v mu nu = 0) →
      average (fun rs : Fin n → Noise S N => xspaceLoop (xspaceTrace (Q U) solveSq rs) v x) = trace (kroneckerMap (· * ·) (gammaBits v) (1 : Mat N) * G x x)) := by
  obtain ⟨csw, hD⟩ := hQ.left.spec
  have hsol := C77_solve T hQ U solveSq hs
  rw [hD] at hG hsol
  have hv : gammaBits v = tabChroma v := (C32_chroma v).symm
  have hone : ∀ nu c, average (fun r : Noise S N => starRingEnd ℂ (randomNoise r x nu c) * xspaceInverse (Q U) solveSq (randomNoise r) x nu c) = G x x (nu, c) (nu, c) := by
    intro nu c
    have h1 : ∀ r : Noise S N, starRingEnd ℂ (randomNoise r x nu c) * xspaceInverse (Q U) solveSq (randomNoise r) x nu c
        = quad (Matrix.of fun p q => if p = (x, nu, c) then greenMatrix G p q else 0) (noiseEquiv r) := by
      intro r
      rw [solve_green hsol hG]
      unfold quad
      rw [Finset.sum_eq_single (x, nu, c) (f := fun i => ∑ j, _)]
      · simp only [Matrix.of_apply, if_true, randomNoise_apply, eta_conj, Finset.mul_sum]
        exact Finset.sum_congr rfl fun q _ => by ring
      · intro p _ hp
        exact Finset.sum_eq_zero fun q _ => by simp [hp]
      · simp
    simp only [h1]
    rw [average_equiv noiseEquiv (fun b => quad (Matrix.of fun p q => if p = (x, nu, c) then greenMatrix G p q else 0) b), average_quad]
    unfold Matrix.trace
    rw [Finset.sum_eq_single (x, nu, c)]
    · simp [greenMatrix]
    · intro p _ hp; simp [hp]
    · simp
  have hmain : average (fun rs : Fin n → Noise S N => xspaceLoop (xspaceTrace (Q U) solveSq rs) v x) = ∑ mu, ∑ nu, ∑ c, gammaBits v mu nu * G x x (nu, c) (nu, c) := by
    rw [hv]
    simp only [xspaceLoop, gammaApply, Matrix.of_apply]
    simp only [average_sum, average_mul]
    refine Finset.sum_congr rfl fun mu _ => ?_
    rw [Finset.sum_comm]
    refine Finset.sum_congr rfl fun nu _ => Finset.sum_congr rfl fun c _ => ?_
    have := (mean_of_samples hn fun r : Noise S N => starRingEnd ℂ (randomNoise r x nu c) * xspaceInverse (Q U) solveSq (randomNoise r) x nu c).1
    rw [hone] at this
    simp only [xspaceTrace, Matrix.of_apply]
    rw [this]
  refine ⟨hmain, fun hd => ?_⟩
  rw [hmain]
  simp only [Matrix.trace, Matrix.diag, Fintype.sum_prod_type]
  refine Finset.sum_congr rfl fun mu _ => ?_
  rw [Finset.sum_eq_single mu (fun nu _ h => Finset.sum_eq_zero fun c _ => by rw [hd mu nu (Ne.symm h), zero_mul]) (by simp)]
  refine Finset.sum_congr rfl fun c _ => ?_
  rw [Matrix.mul_apply, Fintype.sum_prod_type, Finset.sum_eq_single mu, Finset.sum_eq_single c]
  · simp [kroneckerMap_apply]
  · intro e _ he; simp [kroneckerMap_apply, one_apply, Ne.symm he]
  · simp
  · intro nu _ h; exact Finset.sum_eq_zero fun e _ => by simp [kroneckerMap_apply, hd mu nu (Ne.symm h)]
  · simp

/-- **C77**: the disconnected part is wrong for the matrices which are not diagonal. For free quarks on one site the trace of γ₃ and the
Green function is zero; whatever the noise, the program writes a positive number for γ₃. -/
theorem C77_disconnected_counterexample (hN : 0 < N) : ∃ (solveSq : SField Unit N → SField Unit N) (G : Unit → Unit → Matrix (Fin 4 × Fin N) (Fin 4 × Fin N) ℂ),
    let U : GField Unit N := fun _ _ => 1
    let κ : ℝ := 1 / 16
    (∀ b, optMul pointTorus U κ true (optMul pointTorus U κ true (solveSq b)) = b) ∧ IsGreen (optMul pointTorus U κ false) G
    ∧ gammaBits 8 = tabGamma 3 ∧ trace (kroneckerMap (· * ·) (tabGamma 3) (1 : Mat N) * G () ()) = 0
    ∧ ∀ {n : ℕ} (_ : 0 < n) (rs : Fin n → Noise Unit N), ∀ p ∈ xspaceDisconnected pointTorus κ (optMul pointTorus U κ true) solveSq rs, p.2[8]? = some (((N : ℝ) ^ 2 : ℝ) : ℂ) := by
  have hD : ∀ v : SField Unit N, optMul pointTorus (fun _ _ => 1) (1 / 16) false v = (1 / 2 : ℂ) • v := by
    intro v
    have h := (C63_sharp pointTorus (1 / 16) 0 (v ())).1
    rw [show (fun _ : Unit => v ()) = v from rfl] at h
    rw [h]
    funext x
    change ((1 - 8 * (1 / 16) : ℝ) : ℂ) • v x = (1 / 2 : ℂ) • v x
    congr 1
    push_cast; norm_num
  have hQ : ∀ v : SField Unit N, optMul pointTorus (fun _ _ => 1) (1 / 16) true v = gamma5Field ((1 / 2 : ℂ) • v) := by
    intro v
    rw [← hD, IsHermitianWilson.right (T := pointTorus) (κ := 1 / 16) (D := fun U => optMul pointTorus U (1 / 16) false) (Q := fun U => optMul pointTorus U (1 / 16) true) (Or.inl ⟨rfl, rfl⟩)]
  have h5 : ∀ (a : ℂ) (v : SField Unit N), gamma5Field (a • v) = a • gamma5Field v := by
    intro a v; funext x; ext mu i
    simp only [gamma5Field_apply, Pi.smul_apply, Matrix.smul_apply, smul_eq_mul]; ring
  have h8 : gammaBits 8 = tabGamma 3 := by
    unfold gammaBits
    have a0 : (8 : Fin 16).val.testBit 0 = false := by decide
    have a1 : (8 : Fin 16).val.testBit 1 = false := by decide
    have a2 : (8 : Fin 16).val.testBit 2 = false := by decide
    have a3 : (8 : Fin 16).val.testBit 3 = true := by decide
    rw [a0, a1, a2, a3]
    simp
  have hsum : ∑ mu, ∑ nu, tabChroma 8 mu nu = 4 := by
    have h : ∑ mu, ∑ nu, tabChromaT 8 mu nu = 4 := by decide +kernel
    have := congrArg GaussianInt.toComplex h
    rw [map_sum] at this
    simp only [map_sum] at this
    rw [show (4 : ℂ) = GaussianInt.toComplex 4 from (map_ofNat GaussianInt.toComplex 4).symm, ← this]
    rfl
  refine ⟨fun b => (4 : ℂ) • b, fun _ _ => (2 : ℂ) • 1, ?_, ?_, h8, ?_, ?_⟩
  · intro b
    simp only [hQ, h5, gamma5Field_gamma5Field, smul_smul]
    norm_num
  · rintro y ⟨α, c⟩
    rw [hD]
    funext x
    ext mu i
    simp only [Pi.smul_apply, Matrix.smul_apply, Matrix.of_apply, smul_eq_mul, one_apply, unitField]
    by_cases h : mu = α ∧ i = c
    · simp [h]
    · have : ¬ (mu, i) = (α, c) := by simpa using h
      simp [h, this]
  · rw [Matrix.mul_smul, Matrix.mul_one, trace_smul]
    have h := trace_kronecker (tabGamma 3) (1 : Mat N)
    have e8 : tabChroma 8 = tabGamma 3 := (C32_chroma 8).trans h8
    have t8 := trace_chroma 8
    rw [if_neg (by decide), e8] at t8
    rw [t8, zero_mul] at h
    have h' : trace (kroneckerMap (· * ·) (tabGamma 3) (1 : Mat N)) = 0 := h
    rw [h', smul_zero]
  · intro n hn rs p hp
    have hn' : (n : ℂ) ≠ 0 := by exact_mod_cast hn.ne'
    have ht : xspaceTrace (optMul pointTorus (fun _ _ => 1) (1 / 16) true) (fun b => (4 : ℂ) • b) rs = fun _ => Matrix.of fun _ _ => (2 : ℂ) := by
      funext x
      ext mu c
      have h1 : ∀ k, starRingEnd ℂ (randomNoise (rs k) x mu c) * xspaceInverse (optMul pointTorus (fun _ _ => 1) (1 / 16) true) (fun b => (4 : ℂ) • b) (randomNoise (rs k)) x mu c = 2 := by
        intro k
        have hx : xspaceInverse (optMul pointTorus (fun _ _ => 1) (1 / 16) true) (fun b => (4 : ℂ) • b) (randomNoise (rs k)) = (2 : ℂ) • randomNoise (rs k) := by
          unfold xspaceInverse
          rw [(C34_dot (randomNoise (rs k)) (randomNoise (rs k))).2.2.2.2.1, hQ, h5, gamma5Field_gamma5Field]
          change (4 : ℂ) • ((1 / 2 : ℂ) • randomNoise (rs k)) = _
          rw [smul_smul]
          norm_num
        rw [hx]
        simp only [Pi.smul_apply, Matrix.smul_apply, smul_eq_mul, randomNoise, Matrix.of_apply]
        split <;> simp
      simp only [xspaceTrace, Matrix.of_apply, h1, Finset.sum_const, Finset.card_univ, Fintype.card_fin, nsmul_eq_mul]
      field_simp
    have hl : xspaceLoop (fun _ : Unit => Matrix.of fun _ _ => (2 : ℂ) : SField Unit N) 8 () = 8 * N := by
      simp only [xspaceLoop, gammaApply, Matrix.of_apply, Finset.sum_const, Finset.card_univ, Fintype.card_fin, nsmul_eq_mul, ← Finset.sum_mul, ← Finset.mul_sum]
      rw [hsum]
      ring
    unfold xspaceDisconnected at hp
    rw [List.mem_map] at hp
    obtain ⟨c, _, rfl⟩ := hp
    rw [List.getElem?_map, show (List.finRange 16)[8]? = some 8 from rfl]
    simp only [Option.map_some, ht]
    rw [Fintype.sum_unique]
    change some _ = some _
    rw [show (default : Unit) = () from rfl, hl]
    push_cast
    congr 1
    ring

/-- **C77**: the list of points. There are nineteen; on the axis of the third direction there is none. -/
theorem C77_points : xspacePoints.length = 19 ∧ (∀ d ∈ [1, 2, 3], ∀ μ : Fin 4, (Pi.single μ d ∈ xspacePoints ↔ μ ≠ 2)) := by
  decide

end

end Leonard
