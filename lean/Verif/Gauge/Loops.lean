import Verif.Gauge.Actions
import Mathlib.Analysis.CStarAlgebra.Matrix

/-!
# Lemmas on Wilson and Polyakov loops
-/

set_option autoImplicit false

namespace Leonard

open Matrix

variable {S : Type} {N : ℕ} (T : Torus S) (U : GField S N)

theorem walk_replicate (μ : Fin 4) (n : ℕ) (s : S) : T.walk (List.replicate n (μ, true)) s = (T.sup μ)^[n] s := by
  induction n generalizing s with
  | zero => rfl
  | succ n ih => rw [List.replicate_succ, T.walk_up, ih, Function.iterate_succ_apply]

theorem shiftField_eq {A : Type} (μ : Fin 4) (f : S → A) (n : ℕ) (s : S) :
    shiftField T μ f n s = f ((T.sup μ)^[n] s) := by
  induction n generalizing s with
  | zero => rfl
  | succ n ih =>
    change shiftField T μ f n (T.sup μ s) = _
    rw [ih, Function.iterate_succ_apply]

theorem wilsonLine_shifted (μ : Fin 4) (n : ℕ) (s : S) : (wilsonLine T U μ n).2 s = U ((T.sup μ)^[n] s) μ := by
  induction n generalizing s with
  | zero => rfl
  | succ n ih => rw [wilsonLine]; simp only []; rw [ih, Function.iterate_succ_apply]

/-- The line of length `n + 1` is the product of the links along it. -/
theorem wilsonLine_eq (μ : Fin 4) (n : ℕ) (s : S) :
    (wilsonLine T U μ n).1 s = holo T U s (List.replicate (n + 1) (μ, true)) := by
  induction n generalizing s with
  | zero => simp [wilsonLine]
  | succ n ih =>
    rw [wilsonLine, List.replicate_succ' , holo_append, walk_replicate]
    simp only [ih, wilsonLine_shifted, holo_up, holo_nil, Matrix.mul_one, Function.iterate_succ_apply]

theorem iterate_comm (μ ν : Fin 4) (m n : ℕ) (s : S) :
    (T.sup μ)^[m] ((T.sup ν)^[n] s) = (T.sup ν)^[n] ((T.sup μ)^[m] s) := by
  have h : Function.Commute (T.sup μ) (T.sup ν) := fun x => T.comm μ ν x
  exact h.iterate_iterate m n s

theorem wilsonTrace_gauge (ω : S → Mat N) (hω : ∀ s, (ω s)ᴴ * ω s = 1) (hω' : ∀ s, ω s * (ω s)ᴴ = 1)
    (xd td : Fin 4) (r t : ℕ) (s : S) :
    trace ((wilsonLine T (gaugeTransform T ω U) xd r).1 s
        * shiftField T xd (wilsonLine T (gaugeTransform T ω U) td t).1 (r + 1) s
        * (shiftField T td (wilsonLine T (gaugeTransform T ω U) xd r).1 (t + 1) s)ᴴ
        * ((wilsonLine T (gaugeTransform T ω U) td t).1 s)ᴴ)
      = trace ((wilsonLine T U xd r).1 s * shiftField T xd (wilsonLine T U td t).1 (r + 1) s
        * (shiftField T td (wilsonLine T U xd r).1 (t + 1) s)ᴴ * ((wilsonLine T U td t).1 s)ᴴ) := by
  simp only [shiftField_eq, wilsonLine_eq, holo_gauge T U ω hω hω', walk_replicate]
  rw [iterate_comm T xd td]
  generalize holo T U s (List.replicate (r + 1) (xd, true)) = A
  generalize holo T U ((T.sup xd)^[r + 1] s) (List.replicate (t + 1) (td, true)) = B
  generalize holo T U ((T.sup td)^[t + 1] s) (List.replicate (r + 1) (xd, true)) = C
  generalize holo T U s (List.replicate (t + 1) (td, true)) = D
  have h1 := hω ((T.sup xd)^[r + 1] s)
  have h2 := hω ((T.sup td)^[t + 1] ((T.sup xd)^[r + 1] s))
  have h3 := hω ((T.sup td)^[t + 1] s)
  have h0 := hω s
  generalize ω ((T.sup xd)^[r + 1] s) = w1 at *
  generalize ω ((T.sup td)^[t + 1] ((T.sup xd)^[r + 1] s)) = w2 at *
  generalize ω ((T.sup td)^[t + 1] s) = w3 at *
  generalize ω s = w0 at *
  have : w0 * A * w1ᴴ * (w1 * B * w2ᴴ) * (w3 * C * w2ᴴ)ᴴ * (w0 * D * w3ᴴ)ᴴ
      = w0 * (A * B * Cᴴ * Dᴴ * w0ᴴ) := by
    simp only [conjTranspose_mul, conjTranspose_conjTranspose]
    calc _ = w0 * (A * (w1ᴴ * w1) * B * (w2ᴴ * w2) * Cᴴ * (w3ᴴ * w3) * Dᴴ * w0ᴴ) := by simp only [Matrix.mul_assoc]
      _ = _ := by rw [h1, h2, h3]; simp only [Matrix.mul_one]
  rw [this, Matrix.trace_mul_comm, Matrix.mul_assoc, h0, Matrix.mul_one]

/-! ### Polyakov loops -/

theorem polyakov_tmp (ν : Fin 4) (n : ℕ) (s : S) (μ : Fin 4) :
    (polyakovState T U ν n).1 s μ = U ((T.sup ν)^[n] s) μ := by
  induction n generalizing s with
  | zero => rfl
  | succ n ih => rw [polyakovState]; simp only []; rw [ih, Function.iterate_succ_apply]

theorem polyakov_line (ν : Fin 4) (n : ℕ) (s : S) (h : T.coord s ν = 0) :
    (polyakovState T U ν n).2 s = holo T U s (List.replicate n (ν, true)) := by
  induction n with
  | zero => rfl
  | succ n ih =>
    rw [polyakovState]
    simp only [if_pos h]
    rw [ih, polyakov_tmp, List.replicate_succ', holo_append, walk_replicate]
    simp

theorem polyakovSum_eq [Fintype S] (ν : Fin 4) : polyakovSum T U ν
    = ∑ s, if T.coord s ν = 0 then trace (holo T U s (List.replicate (T.ext ν) (ν, true))) else 0 := by
  unfold polyakovSum
  refine Finset.sum_congr rfl fun s _ => ?_
  split
  · rename_i h; rw [polyakov_line T U ν _ s h]
  · rfl

theorem polyakovSum_gauge [Fintype S] (ω : S → Mat N) (hω : ∀ s, (ω s)ᴴ * ω s = 1) (hω' : ∀ s, ω s * (ω s)ᴴ = 1)
    (ν : Fin 4) : polyakovSum T (gaugeTransform T ω U) ν = polyakovSum T U ν := by
  rw [polyakovSum_eq, polyakovSum_eq]
  refine Finset.sum_congr rfl fun s _ => ?_
  split
  · exact trace_holo_gauge T U ω hω hω' _ s (by rw [walk_replicate, T.period])
  · rfl

/-! ### Bounds -/

theorem holo_mem_unitary (hU : ∀ s μ, U s μ ∈ unitaryGroup (Fin N) ℂ) (p : List Hop) (s : S) :
    holo T U s p ∈ unitaryGroup (Fin N) ℂ := by
  induction p generalizing s with
  | nil => exact one_mem _
  | cons h p ih =>
    refine mul_mem ?_ (ih _)
    obtain ⟨μ, b⟩ := h
    cases b
    · exact Unitary.star_mem (hU _ _)
    · exact hU _ _

theorem norm_trace_unitary_le {A : Mat N} (h : A ∈ unitaryGroup (Fin N) ℂ) : ‖trace A‖ ≤ N := by
  have hd : ∀ i, ‖A i i‖ ≤ 1 := fun i => entry_norm_bound_of_unitary h i i
  calc ‖trace A‖ ≤ ∑ i, ‖A i i‖ := norm_sum_le _ _
    _ ≤ ∑ _i : Fin N, (1 : ℝ) := Finset.sum_le_sum fun i _ => hd i
    _ = N := by simp

end Leonard
