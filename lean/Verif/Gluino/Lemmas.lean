import Verif.Gluino.Model
import Verif.Singlet.Lemmas
import Verif.Force.Energy
import Verif.Smear.Props

/-!
# The gluino-glue correlator: covariance and kernels
-/

set_option autoImplicit false

namespace Leonard

open Matrix

noncomputable section

variable {S : Type} {N M : ℕ}

/-- **Specification.** The gauge transformation of the adjoint fields. -/
def adjointRotation (ω : S → Mat N) (s : S) : Mat (lieGenerators N).length := (toAdjoint (gens N) (ω s)).map Complex.ofReal

theorem adjointRotation_unitary {ω : S → Mat N} (hω : ∀ s, ω s ∈ unitaryGroup (Fin N) ℂ) (s : S) : (adjointRotation ω s)ᴴ * adjointRotation ω s = 1 := by
  have hT := C30_generators N
  have hc := C30_complete N
  have h : (toAdjoint (gens N) (ω s))ᵀ * toAdjoint (gens N) (ω s) = 1 := by
    rw [← toAdjoint_conjTranspose hT, ← toAdjoint_mul hT hc _ (hω s), ← star_eq_conjTranspose, mem_unitaryGroup_iff'.1 (hω s), toAdjoint_one hT]
  ext i j
  have e := congrArg Complex.ofReal (congrFun (congrFun h i) j)
  rw [Matrix.mul_apply, Complex.ofReal_sum] at e
  rw [Matrix.mul_apply]
  simp only [adjointRotation, conjTranspose_apply, map_apply, Complex.star_def, Complex.conj_ofReal]
  simp only [transpose_apply, Complex.ofReal_mul] at e
  rw [e]
  simp only [one_apply]
  split <;> simp

theorem adjointRotation_orthogonal {ω : S → Mat N} (hω : ∀ s, ω s ∈ unitaryGroup (Fin N) ℂ) (s : S) (a b : Fin (lieGenerators N).length) :
    ∑ c, adjointRotation ω s c a * adjointRotation ω s c b = if a = b then 1 else 0 := by
  have h := congrFun (congrFun (adjointRotation_unitary hω s) a) b
  rw [Matrix.mul_apply, one_apply] at h
  rw [← h]
  exact Finset.sum_congr rfl fun c _ => by
    simp only [adjointRotation, conjTranspose_apply, map_apply, Complex.star_def, Complex.conj_ofReal]

theorem link_gauge (T : Torus S) {ω : S → Mat N} (hω : ∀ s, ω s ∈ unitaryGroup (Fin N) ℂ) {U : GField S N} {s : S} {μ : Fin 4}
    (hU : U s μ ∈ unitaryGroup (Fin N) ℂ) : (adjointRep N).link (gaugeTransform T ω U s μ)
      = adjointRotation ω s * (adjointRep N).link (U s μ) * (adjointRotation ω (T.sup μ s))ᴴ := by
  have hT := C30_generators N
  have hc := C30_complete N
  have h : toAdjoint (gens N) (gaugeTransform T ω U s μ) = toAdjoint (gens N) (ω s) * toAdjoint (gens N) (U s μ) * (toAdjoint (gens N) (ω (T.sup μ s)))ᵀ := by
    rw [gaugeTransform, toAdjoint_mul hT hc, toAdjoint_mul hT hc _ hU, toAdjoint_conjTranspose hT]
    rw [← star_eq_conjTranspose]
    exact Unitary.star_mem (hω _)
  unfold adjointRep adjointRotation
  simp only []
  rw [h]
  have hm : ∀ A B : Matrix (Fin (lieGenerators N).length) (Fin (lieGenerators N).length) ℝ, (A * B).map Complex.ofReal = A.map Complex.ofReal * B.map Complex.ofReal := by
    intro A B
    ext i j
    simp only [map_apply, Matrix.mul_apply, Complex.ofReal_sum, Complex.ofReal_mul]
  rw [hm, hm]
  congr 1
  ext i j
  simp [map_apply, conjTranspose_apply]

theorem fermionLinks_gauge [Fintype S] (T : Torus S) (bc : String) {ω : S → Mat N} (hω : ∀ s, ω s ∈ unitaryGroup (Fin N) ℂ) {U : GField S N}
    (hU : ∀ s μ, U s μ ∈ unitaryGroup (Fin N) ℂ) :
    fermionLinks (adjointRep N) T bc (gaugeTransform T ω U) = gaugeTransform T (adjointRotation ω) (fermionLinks (adjointRep N) T bc U) := by
  funext s μ
  rw [fermionLinks_eq, link_gauge T hω (hU s μ)]
  simp only [gaugeTransform, fermionLinks_eq, Matrix.mul_smul, Matrix.smul_mul]

/-! ### The smearing of the source -/

theorem smearStep_gauge (T : Torus S) (L : GField S M) (α K : ℝ) (d : ℕ) {ω : S → Mat M} (hω : ∀ s, (ω s)ᴴ * ω s = 1) (v : SField S M) :
    smearStep T (gaugeTransform T ω L) α K d (spinorTransform ω v) = spinorTransform ω (smearStep T L α K d v) := by
  funext x
  simp only [smearStep, spinorTransform, Matrix.smul_mul, Matrix.add_mul, Matrix.sum_mul]
  congr 2
  refine Finset.sum_congr rfl fun ν _ => ?_
  split
  · rw [Matrix.add_mul, Matrix.smul_mul, Matrix.smul_mul]
    congr 2
    · rw [Matrix.mul_assoc, Matrix.mul_assoc, ← transpose_mul, ← transpose_mul, gaugeTransform]
      rw [Matrix.mul_assoc, hω, Matrix.mul_one]
    · rw [Matrix.mul_assoc, Matrix.mul_assoc, ← transpose_mul, ← transpose_mul, gaugeTransform, T.sup_sdn]
      rw [conjTranspose_mul, conjTranspose_mul, conjTranspose_conjTranspose, Matrix.mul_assoc, Matrix.mul_assoc, hω, Matrix.mul_one]
  · rw [Matrix.zero_mul]

theorem smearDefault_gauge (T : Torus S) (L : GField S M) (α : ℝ) (levels : ℕ) {ω : S → Mat M} (hω : ∀ s, (ω s)ᴴ * ω s = 1) (v : SField S M) :
    smearDefault T (gaugeTransform T ω L) α levels (spinorTransform ω v) = spinorTransform ω (smearDefault T L α levels v) := by
  unfold smearDefault
  induction levels generalizing v with
  | zero => rfl
  | succ n ih => rw [smearSource, smearSource, smearStep_gauge T L _ _ _ hω, ih]

/-- **Specification.** The sum over the links in the three space directions, as a matrix on all components of a field. -/
def spatialHop [DecidableEq S] (T : Torus S) (L : GField S M) : Matrix (S × Fin 4 × Fin M) (S × Fin 4 × Fin M) ℂ :=
  Matrix.of fun p q => if p.2.1 = q.2.1 then ∑ ν : Fin 3, ((if q.1 = T.sup ν.castSucc p.1 then L p.1 ν.castSucc p.2.2 q.2.2 else 0)
    + (if q.1 = T.sdn ν.castSucc p.1 then (L (T.sdn ν.castSucc p.1) ν.castSucc)ᴴ p.2.2 q.2.2 else 0)) else 0

theorem hasMatrix_smearStep [Fintype S] [DecidableEq S] (T : Torus S) (L : GField S M) (α K : ℝ) :
    HasMatrix (smearStep T L α K 3) ((K : ℂ) • (1 + (α : ℂ) • spatialHop T L)) := by
  intro v x mu i
  have hsite : ∀ (y : S) (A : Mat M), ∑ q : S × Fin 4 × Fin M, (if mu = q.2.1 then (if q.1 = y then A i q.2.2 else 0) else 0) * v q.1 q.2.1 q.2.2 = (v y * Aᵀ) mu i := by
    intro y A
    simp only [Fintype.sum_prod_type]
    rw [Finset.sum_eq_single y, Finset.sum_eq_single mu, Matrix.mul_apply]
    · exact Finset.sum_congr rfl fun c _ => by simp [mul_comm]
    · intro nu _ h; exact Finset.sum_eq_zero fun c _ => by simp [Ne.symm h]
    · simp
    · intro z _ h; exact Finset.sum_eq_zero fun nu _ => Finset.sum_eq_zero fun c _ => by simp [h]
    · simp
  have hone : ∑ q : S × Fin 4 × Fin M, (1 : Matrix (S × Fin 4 × Fin M) (S × Fin 4 × Fin M) ℂ) (x, mu, i) q * v q.1 q.2.1 q.2.2 = v x mu i := by
    rw [Finset.sum_eq_single (x, mu, i)]
    · simp
    · intro q _ hq; rw [one_apply_ne (Ne.symm hq), zero_mul]
    · simp
  have hhop : ∑ q : S × Fin 4 × Fin M, spatialHop T L (x, mu, i) q * v q.1 q.2.1 q.2.2
      = ∑ ν : Fin 3, ((v (T.sup ν.castSucc x) * (L x ν.castSucc)ᵀ) mu i + (v (T.sdn ν.castSucc x) * ((L (T.sdn ν.castSucc x) ν.castSucc)ᴴ)ᵀ) mu i) := by
    simp only [← hsite, ← Finset.sum_add_distrib]
    rw [Finset.sum_comm]
    refine Finset.sum_congr rfl fun q _ => ?_
    simp only [spatialHop, Matrix.of_apply]
    split
    · rw [Finset.sum_mul]
      exact Finset.sum_congr rfl fun ν _ => by ring
    · simp
  have e : ∀ q : S × Fin 4 × Fin M, ((K : ℂ) • (1 + (α : ℂ) • spatialHop T L)) (x, mu, i) q * v q.1 q.2.1 q.2.2
      = K * ((1 : Matrix (S × Fin 4 × Fin M) (S × Fin 4 × Fin M) ℂ) (x, mu, i) q * v q.1 q.2.1 q.2.2) + K * α * (spatialHop T L (x, mu, i) q * v q.1 q.2.1 q.2.2) := by
    intro q
    simp only [Matrix.smul_apply, Matrix.add_apply, smul_eq_mul]
    ring
  simp only [e, Finset.sum_add_distrib, ← Finset.mul_sum, hone, hhop]
  rw [smearStep, Fin.sum_univ_castSucc (n := 3)]
  have h3 : ¬ (Fin.last 3).val ≠ 3 := by simp
  have hl : ∀ ν : Fin 3, (ν.castSucc : Fin 4).val ≠ 3 := fun ν => by simp; omega
  simp only [h3, hl, if_true, if_false, add_zero, ne_eq, not_false_eq_true]
  simp only [Matrix.smul_apply, Matrix.add_apply, Matrix.sum_apply, smul_eq_mul, Finset.mul_sum]
  rw [mul_add, Finset.mul_sum]
  congr 1
  rw [← Finset.sum_add_distrib, Finset.mul_sum]
  exact Finset.sum_congr rfl fun ν _ => by ring

theorem hasMatrix_smear [Fintype S] [DecidableEq S] (T : Torus S) (L : GField S M) (α : ℝ) (levels : ℕ) :
    HasMatrix (smearDefault T L α levels) ((((0.9 : ℝ) : ℂ) • (1 + (α : ℂ) • spatialHop T L)) ^ levels) := by
  unfold smearDefault
  induction levels with
  | zero =>
    intro v x mu i
    rw [pow_zero, Finset.sum_eq_single (x, mu, i)]
    · simp [smearSource]
    · intro q _ hq; rw [one_apply_ne (Ne.symm hq), zero_mul]
    · simp
  | succ n ih =>
    rw [pow_succ]
    exact ih.comp (hasMatrix_smearStep T L α 0.9)

/-! ### The glue field -/

/-- **Specification.** The hermitian field strength in the generator `b`: the trace of it and `-i` times the antihermitian one. -/
def glueField (T : Torus S) (V : GField S N) (x : S) (μ ν : Fin 4) (b : Fin (lieGenerators N).length) : ℂ := -Complex.I * trace (cloverF T V μ ν x * gens N b)

theorem gluinoClover_eq (T : Torus S) (U : GField S N) (s : S) {μ ν : Fin 4} (h : μ ≠ ν) : gluinoClover T U s μ ν = -Complex.I • cloverF T U μ ν s := by
  have hQ : cloverQ T U μ ν s = U s μ * U (T.sup μ s) ν * (U (T.sup ν s) μ)ᴴ * (U s ν)ᴴ
      + (U (T.sdn ν s) ν)ᴴ * U (T.sdn ν s) μ * U (T.sdn ν (T.sup μ s)) ν * (U s μ)ᴴ
      + U s ν * (U (T.sdn μ (T.sup ν s)) μ)ᴴ * (U (T.sdn μ s) ν)ᴴ * U (T.sdn μ s) μ
      + (U (T.sdn μ s) μ)ᴴ * (U (T.sdn ν (T.sdn μ s)) ν)ᴴ * U (T.sdn ν (T.sdn μ s)) μ * U (T.sdn ν s) ν := by
    have e1 : T.sdn μ (T.sup ν (T.sup μ s)) = T.sup ν s := by rw [T.comm, T.sdn_sup]
    have e2 : T.sdn ν (T.sdn μ (T.sup ν (T.sup μ s))) = s := by rw [e1, T.sdn_sup]
    have e3 : T.sdn ν (T.sdn μ (T.sup ν s)) = T.sdn μ s := by rw [← T.sup_sdn_comm, T.sdn_sup]
    have e4 : T.sup μ (T.sdn ν (T.sdn μ s)) = T.sdn ν s := by rw [T.sup_sdn_comm, T.sup_sdn]
    have e5 : T.sup ν (T.sup μ (T.sdn ν s)) = T.sup μ s := by rw [T.comm, T.sup_sdn]
    have e6 : T.sup μ (T.sdn ν s) = T.sdn ν (T.sup μ s) := T.sup_sdn_comm μ ν s
    simp only [cloverQ, holo_up, holo_down, holo_nil, e1, e3, e4, e5, T.sdn_sup, Matrix.mul_one, Matrix.mul_assoc]
    rw [e6]
    abel
  unfold gluinoClover cloverF
  simp only [if_pos h, ← hQ]
  rw [smul_smul]
  congr 1
  apply Complex.ext <;> simp <;> norm_num

theorem tabSigma_self (μ : Fin 4) : tabSigma μ μ = 0 := by
  have h : ∀ μ : Fin 4, tabSigmaT μ μ = 0 := by decide +kernel
  unfold tabSigma
  rw [h]
  ext i j
  simp [toSpin]

theorem sigma_trace (T : Torus S) (V : GField S N) (x : S) (μ ν ρ α : Fin 4) (b : Fin (lieGenerators N).length) :
    tabSigma μ ν ρ α * trace (gluinoClover T V x μ ν * gens N b) = tabSigma μ ν ρ α * glueField T V x μ ν b := by
  by_cases h : μ = ν
  · subst h; rw [tabSigma_self]; simp
  · rw [gluinoClover_eq T V x h, Matrix.smul_mul, trace_smul, smul_eq_mul, glueField]

/-- **Specification.** The operator `σ_ij F_ij` with the spin matrix to the left, summed over the space directions: column `α` of it. -/
def glueColumn (T : Torus S) (V : GField S N) (α : Fin 4) : SField S (lieGenerators N).length := fun x =>
  Matrix.of fun ρ b => ∑ k : Fin 3, ∑ l : Fin 3, tabSigma k.castSucc l.castSucc ρ α * glueField T V x k.castSucc l.castSucc b

/-- Row `α` of the same. -/
def glueRow (T : Torus S) (V : GField S N) (α : Fin 4) : SField S (lieGenerators N).length := fun x =>
  Matrix.of fun β a => ∑ i : Fin 3, ∑ j : Fin 3, tabSigma i.castSucc j.castSucc α β * glueField T V x i.castSucc j.castSucc a

theorem glueField_gauge (T : Torus S) (V : GField S N) {ω : S → Mat N} (hω : ∀ s, ω s ∈ unitaryGroup (Fin N) ℂ) (x : S) (μ ν : Fin 4)
    (b : Fin (lieGenerators N).length) :
    glueField T (gaugeTransform T ω V) x μ ν b = ∑ c, adjointRotation ω x b c * glueField T V x μ ν c := by
  have hT := C30_generators N
  have hc := C30_complete N
  have hω' : ∀ s, (ω s)ᴴ * ω s = 1 := fun s => mem_unitaryGroup_iff'.1 (hω s)
  have hst : (ω x)ᴴ ∈ unitaryGroup (Fin N) ℂ := by rw [← star_eq_conjTranspose]; exact Unitary.star_mem (hω x)
  have h := conj_generator hT hc hst b
  rw [conjTranspose_conjTranspose, toAdjoint_conjTranspose hT] at h
  unfold glueField
  rw [cloverF_gauge T V ω hω' fun s => mul_eq_one_comm.1 (hω' s)]
  have e : trace (ω x * cloverF T V μ ν x * (ω x)ᴴ * gens N b) = trace (cloverF T V μ ν x * ((ω x)ᴴ * gens N b * ω x)) := by
    rw [Matrix.mul_assoc, Matrix.mul_assoc, trace_mul_comm]
    simp only [Matrix.mul_assoc]
  rw [e, h, Finset.mul_sum, trace_sum, Finset.mul_sum]
  refine Finset.sum_congr rfl fun c _ => ?_
  rw [Matrix.mul_smul, trace_smul, smul_eq_mul, transpose_apply]
  simp only [adjointRotation, map_apply]
  ring

theorem glueColumn_gauge (T : Torus S) (V : GField S N) {ω : S → Mat N} (hω : ∀ s, ω s ∈ unitaryGroup (Fin N) ℂ) (α : Fin 4) :
    glueColumn T (gaugeTransform T ω V) α = spinorTransform (adjointRotation ω) (glueColumn T V α) := by
  funext x
  ext ρ b
  simp only [glueColumn, spinorTransform, Matrix.of_apply, Matrix.mul_apply, transpose_apply, glueField_gauge T V hω, Finset.sum_mul, Finset.mul_sum]
  symm
  rw [Finset.sum_comm]
  refine Finset.sum_congr rfl fun k _ => ?_
  rw [Finset.sum_comm]
  exact Finset.sum_congr rfl fun l _ => Finset.sum_congr rfl fun c _ => by ring

theorem glueRow_gauge (T : Torus S) (V : GField S N) {ω : S → Mat N} (hω : ∀ s, ω s ∈ unitaryGroup (Fin N) ℂ) (α : Fin 4) :
    glueRow T (gaugeTransform T ω V) α = spinorTransform (adjointRotation ω) (glueRow T V α) := by
  funext x
  ext ρ b
  simp only [glueRow, spinorTransform, Matrix.of_apply, Matrix.mul_apply, transpose_apply, glueField_gauge T V hω, Finset.sum_mul, Finset.mul_sum]
  symm
  rw [Finset.sum_comm]
  refine Finset.sum_congr rfl fun k _ => ?_
  rw [Finset.sum_comm]
  exact Finset.sum_congr rfl fun l _ => Finset.sum_congr rfl fun c _ => by ring

/-- The column on one time slice. -/
def glueSource (T : Torus S) (V : GField S N) (t0 : ℕ) (α : Fin 4) : SField S (lieGenerators N).length := fun x => if T.coord x 3 = t0 then glueColumn T V α x else 0

theorem gluinoSource_sum (T : Torus S) (V : GField S N) (t0 : ℕ) (α : Fin 4) : ∑ ρ, ∑ b, gluinoSource T V t0 α ρ b = glueSource T V t0 α := by
  funext x
  ext ρ' b'
  simp only [Finset.sum_apply, Matrix.sum_apply, gluinoSource, Matrix.of_apply, glueSource]
  rw [Finset.sum_eq_single ρ', Finset.sum_eq_single b']
  · by_cases h : T.coord x 3 = t0 <;> simp [h, glueColumn, sigma_trace]
  · intro b _ hb; simp [Ne.symm hb]
  · simp
  · intro ρ _ hρ; exact Finset.sum_eq_zero fun b _ => by simp [Ne.symm hρ]
  · simp

theorem sum_order {m : ℕ} (f : Fin 4 → Fin 3 → Fin 3 → Fin m → Fin m → ℝ) :
    ∑ ρ, ∑ i, ∑ j, ∑ a, ∑ b, f ρ i j a b = ∑ a, ∑ ρ, ∑ b, ∑ i, ∑ j, f ρ i j a b := by
  calc ∑ ρ, ∑ i, ∑ j, ∑ a, ∑ b, f ρ i j a b
      = ∑ ρ, ∑ i, ∑ a, ∑ j, ∑ b, f ρ i j a b := Finset.sum_congr rfl fun ρ _ => Finset.sum_congr rfl fun i _ => Finset.sum_comm
    _ = ∑ ρ, ∑ a, ∑ i, ∑ j, ∑ b, f ρ i j a b := Finset.sum_congr rfl fun ρ _ => Finset.sum_comm
    _ = ∑ a, ∑ ρ, ∑ i, ∑ j, ∑ b, f ρ i j a b := Finset.sum_comm
    _ = ∑ a, ∑ ρ, ∑ i, ∑ b, ∑ j, f ρ i j a b := Finset.sum_congr rfl fun a _ => Finset.sum_congr rfl fun ρ _ => Finset.sum_congr rfl fun i _ => Finset.sum_comm
    _ = _ := Finset.sum_congr rfl fun a _ => Finset.sum_congr rfl fun ρ _ => Finset.sum_comm

/-- The correlator with the sums over the sources done first. -/
theorem gluinoCorrelator_eq [Fintype S] [DecidableEq S] (T : Torus S) (V : GField S N) (Ls : GField S (lieGenerators N).length) (rho : ℝ) (levels : ℕ)
    {solve : SField S (lieGenerators N).length → SField S (lieGenerators N).length}
    {A : Matrix (S × Fin 4 × Fin (lieGenerators N).length) (S × Fin 4 × Fin (lieGenerators N).length) ℂ} (hA : HasMatrix solve A) (t0 t : ℕ) :
    gluinoCorrelator T V Ls rho levels solve t0 t = -(∑ α, ∑ x, if (2 * T.ext 3 + T.coord x 3 - t0) % T.ext 3 = t then
      ∑ β, ∑ a, (glueRow T V α x β a * smearDefault T Ls rho levels (solve (smearDefault T Ls rho levels (glueSource T V t0 α))) x β a).re else 0) / 4 := by
  unfold gluinoCorrelator
  refine congrArg (fun z : ℝ => -z / 4) ?_
  refine Finset.sum_congr rfl fun α _ => Finset.sum_congr rfl fun x _ => ?_
  split
  · have hM := ((hasMatrix_smear T Ls rho levels).comp hA).comp (hasMatrix_smear T Ls rho levels)
    have hψ : ∀ β a, smearDefault T Ls rho levels (solve (smearDefault T Ls rho levels (glueSource T V t0 α))) x β a
        = ∑ ρ, ∑ b, gluinoPsi T V Ls rho levels solve t0 α ρ b x β a := by
      intro β a
      have h1 : ∀ ρ b, gluinoPsi T V Ls rho levels solve t0 α ρ b x β a = _ := fun ρ b => hM (gluinoSource T V t0 α ρ b) x β a
      refine (hM (glueSource T V t0 α) x β a).trans ?_
      rw [← gluinoSource_sum]
      simp only [h1, Finset.sum_apply, Matrix.sum_apply, Finset.mul_sum]
      rw [Finset.sum_comm]
      refine Finset.sum_congr rfl fun ρ _ => ?_
      rw [Finset.sum_comm]
    simp only [hψ, sigma_trace]
    rw [Finset.sum_comm]
    refine Finset.sum_congr rfl fun β _ => ?_
    simp only [glueRow, Matrix.of_apply, Finset.sum_mul, Finset.mul_sum, Complex.re_sum]
    exact sum_order fun ρ (i j : Fin 3) a b => (tabSigma i.castSucc j.castSucc α β * glueField T V x i.castSucc j.castSucc a
      * gluinoPsi T V Ls rho levels solve t0 α ρ b x β a).re
  · rfl

end

end Leonard
