import Verif.Rep.Props

/-!
# C30 for the adjoint generators
-/

set_option autoImplicit false

namespace Leonard

open Matrix

section
variable {N : ℕ} {ι : Type} [DecidableEq ι] [Fintype ι] {T : ι → Mat N}

omit [Fintype ι] in
theorem adjointGenerator_eq (T : ι → Mat N) (i m n : ι) :
    adjointGenerator T i m n = 2 * trace (T m * (T i * T n - T n * T i)) := by
  have e : trace ((T m * T n - T n * T m) * T i) = - trace (T m * (T i * T n - T n * T i)) := by
    rw [Matrix.sub_mul, Matrix.mul_sub, trace_sub, trace_sub]
    have h1 : trace (T n * T m * T i) = trace (T m * (T i * T n)) := by
      rw [Matrix.mul_assoc, trace_mul_comm, Matrix.mul_assoc]
    rw [h1, Matrix.mul_assoc]
    ring
  unfold adjointGenerator
  by_cases h : m = n
  · subst h
    have : trace (T m * (T i * T m - T m * T i)) = 0 := by
      have := e
      rw [sub_self, Matrix.zero_mul, trace_zero] at this
      exact neg_eq_zero.1 this.symm
    simp [this]
  · rw [if_pos h, e]; ring

theorem adjoint_action (hc : IsComplete T) (i n : ι) :
    T i * T n - T n * T i = ∑ m, adjointGenerator T i m n • T m := by
  have ht : trace (T i * T n - T n * T i) = 0 := by rw [trace_sub, trace_mul_comm, sub_self]
  conv_lhs => rw [hc _ ht]
  exact Finset.sum_congr rfl fun m _ => by rw [adjointGenerator_eq]

theorem adjoint_mul_apply (hc : IsComplete T) (i j m n : ι) :
    (adjointGenerator T i * adjointGenerator T j) m n
      = 2 * trace (T m * (T i * (T j * T n - T n * T j) - (T j * T n - T n * T j) * T i)) := by
  rw [adjoint_action hc j n, Matrix.mul_apply, Finset.mul_sum, Finset.sum_mul, ← Finset.sum_sub_distrib, Finset.mul_sum,
    trace_sum, Finset.mul_sum]
  refine Finset.sum_congr rfl fun k _ => ?_
  rw [adjointGenerator_eq T i m k, Matrix.mul_smul, Matrix.smul_mul, ← smul_sub, Matrix.mul_smul, trace_smul, smul_eq_mul]
  ring

theorem adjoint_commutator (hc : IsComplete T) (i j : ι) :
    adjointGenerator T i * adjointGenerator T j - adjointGenerator T j * adjointGenerator T i
      = ∑ k, adjointGenerator T i k j • adjointGenerator T k := by
  ext m n
  rw [Matrix.sub_apply, adjoint_mul_apply hc, adjoint_mul_apply hc, Matrix.sum_apply]
  have e : ∑ k, (adjointGenerator T i k j • adjointGenerator T k) m n
      = 2 * trace (T m * ((T i * T j - T j * T i) * T n - T n * (T i * T j - T j * T i))) := by
    rw [adjoint_action hc i j, Finset.mul_sum, Finset.sum_mul, ← Finset.sum_sub_distrib, Finset.mul_sum, trace_sum,
      Finset.mul_sum]
    refine Finset.sum_congr rfl fun k _ => ?_
    rw [Matrix.smul_apply, adjointGenerator_eq T k m n, Matrix.mul_smul, Matrix.smul_mul, ← smul_sub, Matrix.mul_smul,
      trace_smul, smul_eq_mul, smul_eq_mul]
    ring
  rw [e, ← mul_sub, ← trace_sub, ← Matrix.mul_sub]
  congr 3
  noncomm_ring

end

/-- **C30**: the adjoint generators act on the generators by commutation, satisfy the same commutation relations as the
generators, are Hermitian and antisymmetric (so purely imaginary), for every number of colours. -/
theorem C30_adjoint (N : ℕ) (i j : Fin (lieGenerators N).length) :
    (∀ n, gens N i * gens N n - gens N n * gens N i = ∑ m, adjointGenerator (gens N) i m n • gens N m)
    ∧ (∃ f : Fin (lieGenerators N).length → ℂ, gens N i * gens N j - gens N j * gens N i = ∑ k, f k • gens N k
      ∧ adjointGenerator (gens N) i * adjointGenerator (gens N) j - adjointGenerator (gens N) j * adjointGenerator (gens N) i
        = ∑ k, f k • adjointGenerator (gens N) k)
    ∧ (adjointGenerator (gens N) i)ᴴ = adjointGenerator (gens N) i
    ∧ (adjointGenerator (gens N) i)ᵀ = - adjointGenerator (gens N) i := by
  have hc := C30_complete N
  have hg := C30_generators N
  have ht : (adjointGenerator (gens N) i)ᵀ = - adjointGenerator (gens N) i := by
    ext m n
    rw [transpose_apply, Matrix.neg_apply]
    unfold adjointGenerator
    by_cases h : m = n
    · simp [h]
    · rw [if_pos h, if_pos (Ne.symm h), ← neg_sub (gens N m * gens N n), Matrix.neg_mul, trace_neg]; ring
  refine ⟨fun n => adjoint_action hc i n, ⟨_, adjoint_action hc i j, adjoint_commutator hc i j⟩, ?_, ht⟩
  ext m n
  rw [conjTranspose_apply]
  unfold adjointGenerator
  by_cases h : m = n
  · simp [h]
  · rw [if_pos h, if_pos (Ne.symm h), star_mul, ← trace_conjTranspose, conjTranspose_mul, conjTranspose_sub, conjTranspose_mul,
      conjTranspose_mul, hg.hermitian, hg.hermitian, hg.hermitian, trace_mul_comm]
    simp [mul_comm]

/-- **C30**: the adjoint generators written out for two colours are the general ones. -/
theorem C30_adjoint_two (i : Fin 3) : adjointGenerators2 i = adjointGenerator gens2 i := by
  obtain ⟨h0, h1, h2⟩ := gens2_single
  ext m n
  fin_cases i <;> fin_cases m <;> fin_cases n <;>
    simp only [adjointGenerators2, adjointGenerator, Fin.zero_eta, Fin.mk_one, Fin.reduceFinMk, h0, h1, h2, Matrix.add_mul,
      Matrix.mul_add, Matrix.sub_mul, trace_add, trace_sub] <;> simp [Matrix.single_mul_single_same] <;> ring

end Leonard
