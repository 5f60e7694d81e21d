import Verif.Xspace.Props

/-!
# C77: the mean of the disconnected part
-/

set_option autoImplicit false

namespace Leonard

open Matrix

noncomputable section

variable {S : Type} {N : ℕ}

/-- **C77**: the points are the sites at the given distances from the starting point. -/
theorem C77_shift (T : Torus S) (c : Fin 4 → ℕ) (x : S) (μ : Fin 4) : T.coord (xspaceShift T c x) μ = (T.coord x μ + c μ) % T.ext μ := by
  unfold xspaceShift
  fin_cases μ
  · change T.coord _ 0 = (T.coord x 0 + c 0) % T.ext 0
    rw [T.coord_iterate_ne 3 0 (by decide), T.coord_iterate_ne 2 0 (by decide), T.coord_iterate_ne 1 0 (by decide), T.coord_iterate]
  · change T.coord _ 1 = (T.coord x 1 + c 1) % T.ext 1
    rw [T.coord_iterate_ne 3 1 (by decide), T.coord_iterate_ne 2 1 (by decide), T.coord_iterate, T.coord_iterate_ne 0 1 (by decide)]
  · change T.coord _ 2 = (T.coord x 2 + c 2) % T.ext 2
    rw [T.coord_iterate_ne 3 2 (by decide), T.coord_iterate, T.coord_iterate_ne 1 2 (by decide), T.coord_iterate_ne 0 2 (by decide)]
  · change T.coord _ 3 = (T.coord x 3 + c 3) % T.ext 3
    rw [T.coord_iterate, T.coord_iterate_ne 2 3 (by decide), T.coord_iterate_ne 1 3 (by decide), T.coord_iterate_ne 0 3 (by decide)]

/-- The mean of the product of two means over the same independent samples. -/
theorem average_two_means {Ω : Type} [Fintype Ω] [Nonempty Ω] {n : ℕ} (hn : 0 < n) (f g : Ω → ℂ) :
    average (fun ω : Fin n → Ω => (∑ k, f (ω k)) / n * ((∑ k, g (ω k)) / n))
      = average f * average g + (average (fun ω => f ω * g ω) - average f * average g) / n := by
  have hn' : (n : ℂ) ≠ 0 := by exact_mod_cast hn.ne'
  have e : (fun ω : Fin n → Ω => (∑ k, f (ω k)) / n * ((∑ k, g (ω k)) / n)) = fun ω => (1 / n ^ 2 : ℂ) * ∑ k, ∑ l, f (ω k) * g (ω l) := by
    funext ω
    rw [← Finset.sum_mul_sum]
    ring
  have hk : ∀ k l : Fin n, average (fun ω : Fin n → Ω => f (ω k) * g (ω l))
      = average f * average g + if l = k then average (fun ω => f ω * g ω) - average f * average g else 0 := by
    intro k l
    split
    · next h =>
      subst h
      rw [average_one (n := n) (fun a => f a * g a) l]
      ring
    · next h => rw [average_two f g (Ne.symm h), add_zero]
  rw [e, average_mul, average_sum]
  simp only [average_sum, hk, Finset.sum_add_distrib, Finset.sum_ite_eq', Finset.mem_univ, if_true, Finset.sum_const, Finset.card_univ, Fintype.card_fin, nsmul_eq_mul,
    Finset.sum_ite_eq]
  field_simp

theorem sum_outward {α β γ δ : Type} [Fintype α] [Fintype β] [Fintype γ] [Fintype δ] (f : α → β → γ → δ → ℂ) :
    ∑ a, ∑ b, ∑ c, ∑ d, f a b c d = ∑ d, ∑ a, ∑ b, ∑ c, f a b c d := by
  rw [Finset.sum_comm (s := (Finset.univ : Finset δ))]
  refine Finset.sum_congr rfl fun a _ => ?_
  rw [Finset.sum_comm (s := (Finset.univ : Finset δ))]
  refine Finset.sum_congr rfl fun b _ => ?_
  rw [Finset.sum_comm (s := (Finset.univ : Finset δ))]

theorem xspaceLoop_mean [Fintype S] [DecidableEq S] {n : ℕ} (Q solveSq : SField S N → SField S N) (rs : Fin n → Noise S N) (v : Fin 16) (x : S) :
    xspaceLoop (xspaceTrace Q solveSq rs) v x = (∑ k, xspaceLoop (xspaceTrace Q solveSq fun _ : Fin 1 => rs k) v x) / n := by
  have h : ∀ mu c, xspaceTrace Q solveSq rs x mu c = ∑ k, xspaceTrace Q solveSq (fun _ : Fin 1 => rs k) x mu c / n := by
    intro mu c
    simp only [xspaceTrace, Matrix.of_apply, Finset.univ_unique, Finset.sum_singleton, Nat.cast_one, div_one, Finset.sum_div]
  simp only [xspaceLoop, gammaApply, Matrix.of_apply, h, Finset.mul_sum, Finset.sum_div, mul_div_assoc]
  exact sum_outward _

/-- **C77** (part): the mean over the noise of what is written as disconnected correlator of the distance `c`. With `m x` the mean value of the number at the
site `x` (`C77_disconnected_partial`), it is the sum of `m x m y` over the pairs of sites at the distance `c`, and in addition the covariances of a single noise
vector divided by the number of noise vectors: the same noise serves for both sites. -/
theorem C77_disconnected_mean_partial [Fintype S] [DecidableEq S] (T : Torus S) (hT : Function.Injective T.coord) (κ : ℝ) (Q solveSq : SField S N → SField S N) {n : ℕ} (hn : 0 < n) :
    let ℓ := fun (r : Noise S N) (v : Fin 16) (x : S) => xspaceLoop (xspaceTrace Q solveSq fun _ : Fin 1 => r) v x
    let m := fun v x => average (ℓ · v x)
    ∀ (i : ℕ) (hi : i < xspacePoints.length) (v : Fin 16),
      average (fun rs : Fin n → Noise S N => (((xspaceDisconnected T κ Q solveSq rs)[i]?.bind fun p => p.2[v.val]?).getD 0))
        = 4 * (κ : ℂ) ^ 2 * ∑ x, ∑ y, if ∀ μ, T.coord y μ = (T.coord x μ + xspacePoints[i] μ) % T.ext μ then
          m v x * m v y + (average (fun r => ℓ r v x * ℓ r v y) - m v x * m v y) / n else 0 := by
  intro ℓ m i hi v
  have h1 : ∀ rs : Fin n → Noise S N, ((xspaceDisconnected T κ Q solveSq rs)[i]?.bind fun p => p.2[v.val]?).getD 0
      = 4 * κ * κ * ∑ x, xspaceLoop (xspaceTrace Q solveSq rs) v x * xspaceLoop (xspaceTrace Q solveSq rs) v (xspaceShift T xspacePoints[i] x) := by
    intro rs
    unfold xspaceDisconnected
    rw [List.getElem?_map, List.getElem?_eq_getElem hi]
    simp only [Option.map_some, Option.bind_some, List.getElem?_map]
    rw [List.getElem?_eq_getElem (by rw [List.length_finRange]; exact v.isLt), List.getElem_finRange]
    rfl
  simp only [h1, average_mul, average_sum]
  rw [pow_two, ← mul_assoc]
  congr 1
  refine Finset.sum_congr rfl fun x _ => ?_
  rw [Finset.sum_eq_single (xspaceShift T xspacePoints[i] x)]
  · rw [if_pos (C77_shift T _ x)]
    simp only [xspaceLoop_mean Q solveSq (n := n)]
    exact average_two_means hn (fun r => ℓ r v x) fun r => ℓ r v (xspaceShift T xspacePoints[i] x)
  · intro y _ hy
    rw [if_neg]
    intro h
    exact hy (hT (funext fun μ => by rw [h μ, C77_shift]))
  · simp

/-- The points are different and the coordinates name the sites: the hypotheses of `C77_disconnected_mean_partial` can be met. -/
example : Function.Injective (boxTorus exExt3 exExt3_pos).coord ∧ 0 < xspacePoints.length := ⟨boxTorus_coord_injective _ _, by decide⟩

end

end Leonard
