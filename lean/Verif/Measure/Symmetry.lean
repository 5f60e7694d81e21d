import Mathlib.GroupTheory.Perm.Fin
import Mathlib.Tactic.Ring
import Verif.Dirac.HermLemmas
import Verif.Gauge.Loops

/-!
# The symmetries of the lattice

Reflections and permutations of the axes, what they do to a configuration, and what they do to the field strength.
-/

set_option autoImplicit false

namespace Leonard

open Matrix

section

variable {S : Type} {N : ℕ}

/-- The opposite hop. -/
def Hop.rev (h : Hop) : Hop := (h.1, !h.2)

/-- The path run backwards. -/
def revPath (p : List Hop) : List Hop := (p.map Hop.rev).reverse

variable (T : Torus S) (U : GField S N)

theorem hop_rev (h : Hop) (s : S) : T.hop h.rev (T.hop h s) = s := by
  obtain ⟨μ, b⟩ := h
  cases b
  · exact T.sup_sdn μ s
  · exact T.sdn_sup μ s

theorem rev_rev (h : Hop) : h.rev.rev = h := by
  obtain ⟨μ, b⟩ := h
  cases b <;> rfl

theorem hopMat_rev (h : Hop) (s : S) : hopMat T U (T.hop h s) h.rev = (hopMat T U s h)ᴴ := by
  obtain ⟨μ, b⟩ := h
  cases b
  · change U (T.sdn μ s) μ = ((U (T.sdn μ s) μ)ᴴ)ᴴ
    rw [conjTranspose_conjTranspose]
  · change (U (T.sdn μ (T.sup μ s)) μ)ᴴ = _
    rw [T.sdn_sup]
    rfl

theorem holo_rev (p : List Hop) (s : S) : holo T U (T.walk p s) (revPath p) = (holo T U s p)ᴴ := by
  induction p generalizing s with
  | nil => simp [revPath]
  | cons h p ih =>
    have e : revPath (h :: p) = revPath p ++ [h.rev] := by simp [revPath]
    have w : T.walk (revPath p) (T.walk p (T.hop h s)) = T.hop h s := by
      generalize T.hop h s = x
      clear ih e s h
      induction p generalizing x with
      | nil => rfl
      | cons h p ih =>
        have e : revPath (h :: p) = revPath p ++ [h.rev] := by simp [revPath]
        rw [e, Torus.walk_append]
        change T.hop h.rev (T.walk (revPath p) (T.walk p (T.hop h x))) = x
        rw [ih, hop_rev]
    rw [e, Torus.walk_cons, holo_append, ih, w]
    change _ * (hopMat T U (T.hop h s) h.rev * 1) = (hopMat T U s h * holo T U (T.hop h s) p)ᴴ
    rw [hopMat_rev, Matrix.mul_one, conjTranspose_mul]

/-! ### The clover of two hops -/

/-- The four plaquettes around `x` in the plane of two hops. -/
noncomputable def cloverHop (a b : Hop) (x : S) : Mat N :=
  holo T U x [a, b, a.rev, b.rev] + holo T U x [b, a.rev, b.rev, a]
  + holo T U x [a.rev, b.rev, a, b] + holo T U x [b.rev, a, b, a.rev]

theorem cloverQ_eq_hop (μ ν : Fin 4) (x : S) : cloverQ T U μ ν x = cloverHop T U (μ, true) (ν, true) x := rfl

theorem hop_comm (a b : Hop) (s : S) : T.hop a (T.hop b s) = T.hop b (T.hop a s) := by
  obtain ⟨μ, b1⟩ := a
  obtain ⟨ν, b2⟩ := b
  have h1 : T.sdn μ (T.sup ν s) = T.sup ν (T.sdn μ s) := by
    apply (T.sup μ).injective
    rw [T.sup_sdn, T.comm, T.sup_sdn]
  have h2 : T.sup μ (T.sdn ν s) = T.sdn ν (T.sup μ s) := by
    apply (T.sup ν).injective
    rw [T.sup_sdn, ← T.comm, T.sup_sdn]
  have h3 : T.sdn μ (T.sdn ν s) = T.sdn ν (T.sdn μ s) := by
    apply (T.sup μ).injective
    rw [T.sup_sdn]
    apply (T.sup ν).injective
    rw [T.sup_sdn, T.comm, T.sup_sdn, T.sup_sdn]
  cases b1 <;> cases b2
  · exact h3
  · exact h1
  · exact h2
  · exact T.comm μ ν s

theorem holo_plaq_rev (a b : Hop) (x : S) : (holo T U x [a, b, a.rev, b.rev])ᴴ = holo T U x [b, a, b.rev, a.rev] := by
  have h := holo_rev T U [a, b, a.rev, b.rev] x
  have w : T.walk [a, b, a.rev, b.rev] x = x := by
    simp only [Torus.walk_cons, Torus.walk_nil]
    rw [hop_comm T b a, hop_rev, hop_rev]
  rw [w] at h
  rw [← h]
  simp [revPath, rev_rev]

theorem cloverHop_swap (a b : Hop) (x : S) : cloverHop T U b a x = (cloverHop T U a b x)ᴴ := by
  have h1 := holo_plaq_rev T U a b x
  have h2 := holo_plaq_rev T U b a.rev x
  have h3 := holo_plaq_rev T U a.rev b.rev x
  have h4 := holo_plaq_rev T U b.rev a x
  simp only [rev_rev] at h2 h3 h4
  simp only [cloverHop, conjTranspose_add, h1, h2, h3, h4]
  abel

theorem cloverHop_rev (a b : Hop) (x : S) : cloverHop T U a.rev b x = (cloverHop T U a b x)ᴴ := by
  have h1 := holo_plaq_rev T U a b x
  have h2 := holo_plaq_rev T U b a.rev x
  have h3 := holo_plaq_rev T U a.rev b.rev x
  have h4 := holo_plaq_rev T U b.rev a x
  simp only [rev_rev] at h2 h3 h4
  simp only [cloverHop, conjTranspose_add, h1, h2, h3, h4, rev_rev]
  abel

theorem cloverHop_rev' (a b : Hop) (x : S) : cloverHop T U a b.rev x = (cloverHop T U a b x)ᴴ := by
  rw [cloverHop_swap T U b.rev a, cloverHop_rev, cloverHop_swap T U a b, conjTranspose_conjTranspose]

theorem cloverF_swap (μ ν : Fin 4) (x : S) : cloverF T U ν μ x = -cloverF T U μ ν x := by
  unfold cloverF
  rw [cloverQ_eq_hop, cloverQ_eq_hop, cloverHop_swap, conjTranspose_conjTranspose, ← smul_neg, neg_sub]

/-! ### Symmetries -/

/-- A symmetry of the periodic lattice: a permutation of the sites which takes a step in direction `μ` to a step in direction
`axis μ`, forwards or backwards according to `fwd μ`. -/
structure LatticeSymmetry (T : Torus S) where
  map : Equiv.Perm S
  axis : Equiv.Perm (Fin 4)
  fwd : Fin 4 → Bool
  map_sup : ∀ μ s, map (T.sup μ s) = T.hop (axis μ, fwd μ) (map s)

/-- The sign of a direction under the symmetry. -/
def LatticeSymmetry.sgn {T : Torus S} (R : LatticeSymmetry T) (μ : Fin 4) : ℝ := if R.fwd μ then 1 else -1

/-- The determinant of the symmetry as a linear map of the axes. -/
def LatticeSymmetry.det {T : Torus S} (R : LatticeSymmetry T) : ℝ :=
  ((Equiv.Perm.sign R.axis : ℤ) : ℝ) * ∏ μ, R.sgn μ

/-- The configuration seen through the symmetry: the link from `s` in direction `μ` is the parallel transport along the image of that
step. -/
def LatticeSymmetry.pull {T : Torus S} (R : LatticeSymmetry T) (U : GField S N) : GField S N :=
  fun s μ => hopMat T U (R.map s) (R.axis μ, R.fwd μ)

variable {T}

/-- The image of a hop. -/
def LatticeSymmetry.image (R : LatticeSymmetry T) (h : Hop) : Hop := (R.axis h.1, if h.2 then R.fwd h.1 else !(R.fwd h.1))

theorem LatticeSymmetry.image_rev (R : LatticeSymmetry T) (h : Hop) : R.image h.rev = (R.image h).rev := by
  obtain ⟨μ, b⟩ := h
  cases b <;> simp [LatticeSymmetry.image, Hop.rev]

theorem LatticeSymmetry.map_hop (R : LatticeSymmetry T) (h : Hop) (s : S) : R.map (T.hop h s) = T.hop (R.image h) (R.map s) := by
  obtain ⟨μ, b⟩ := h
  cases b
  · change R.map (T.sdn μ s) = T.hop (Hop.rev (R.axis μ, R.fwd μ)) (R.map s)
    have h := R.map_sup μ (T.sdn μ s)
    rw [T.sup_sdn] at h
    rw [h, hop_rev]
  · exact R.map_sup μ s

theorem LatticeSymmetry.hopMat_pull (R : LatticeSymmetry T) (h : Hop) (s : S) :
    hopMat T (R.pull U) s h = hopMat T U (R.map s) (R.image h) := by
  obtain ⟨μ, b⟩ := h
  cases b
  · change (hopMat T U (R.map (T.sdn μ s)) (R.axis μ, R.fwd μ))ᴴ = hopMat T U (R.map s) (Hop.rev (R.axis μ, R.fwd μ))
    have h := R.map_sup μ (T.sdn μ s)
    rw [T.sup_sdn] at h
    rw [h, hopMat_rev]
  · rfl

theorem LatticeSymmetry.holo_pull (R : LatticeSymmetry T) (p : List Hop) (s : S) :
    holo T (R.pull U) s p = holo T U (R.map s) (p.map R.image) := by
  induction p generalizing s with
  | nil => rfl
  | cons h p ih =>
    change hopMat T (R.pull U) s h * holo T (R.pull U) (T.hop h s) p
      = hopMat T U (R.map s) (R.image h) * holo T U (T.hop (R.image h) (R.map s)) (p.map R.image)
    rw [ih, R.hopMat_pull, R.map_hop]

theorem LatticeSymmetry.cloverHop_pull (R : LatticeSymmetry T) (a b : Hop) (x : S) :
    cloverHop T (R.pull U) a b x = cloverHop T U (R.image a) (R.image b) (R.map x) := by
  simp only [cloverHop, R.holo_pull, List.map_cons, List.map_nil, R.image_rev]

/-- The field strength is a tensor. -/
theorem LatticeSymmetry.cloverF_pull (R : LatticeSymmetry T) (μ ν : Fin 4) (x : S) :
    cloverF T (R.pull U) μ ν x = ((R.sgn μ * R.sgn ν : ℝ) : ℂ) • cloverF T U (R.axis μ) (R.axis ν) (R.map x) := by
  unfold cloverF
  rw [cloverQ_eq_hop, cloverQ_eq_hop, R.cloverHop_pull]
  have e : ∀ ρ, R.image (ρ, true) = (R.axis ρ, R.fwd ρ) := fun ρ => rfl
  rw [e, e]
  have f : ∀ ρ, ((ρ, false) : Hop) = Hop.rev (ρ, true) := fun ρ => rfl
  unfold LatticeSymmetry.sgn
  cases R.fwd μ <;> cases R.fwd ν
  · rw [f, f, cloverHop_rev, cloverHop_rev', conjTranspose_conjTranspose]; simp
  · rw [f, cloverHop_rev, conjTranspose_conjTranspose, ← neg_sub, smul_neg]; simp
  · rw [f, cloverHop_rev', conjTranspose_conjTranspose, ← neg_sub, smul_neg]; simp
  · simp

end

/-! ### Sums over permutations of the axes -/

/-- Labels of the permutations of the axes. -/
def permParams : Finset (Fin 4 × Fin 4 × Fin 4) := Finset.univ ×ˢ ({1, 2, 3} ×ˢ {2, 3})

/-- The permutation with a label. -/
def permOf (a : Fin 4 × Fin 4 × Fin 4) : Equiv.Perm (Fin 4) := Equiv.swap 0 a.1 * (Equiv.swap 1 a.2.1 * Equiv.swap 2 a.2.2)

/-- Sign and values of the permutation with a label. -/
def permTable : Fin 4 × Fin 4 × Fin 4 → ℤ × Fin 4 × Fin 4 × Fin 4 × Fin 4
  | (0, 1, 2) => (1, 0, 1, 2, 3)
  | (0, 1, 3) => (-1, 0, 1, 3, 2)
  | (0, 2, 2) => (-1, 0, 2, 1, 3)
  | (0, 2, 3) => (1, 0, 2, 3, 1)
  | (0, 3, 2) => (-1, 0, 3, 2, 1)
  | (0, 3, 3) => (1, 0, 3, 1, 2)
  | (1, 1, 2) => (-1, 1, 0, 2, 3)
  | (1, 1, 3) => (1, 1, 0, 3, 2)
  | (1, 2, 2) => (1, 1, 2, 0, 3)
  | (1, 2, 3) => (-1, 1, 2, 3, 0)
  | (1, 3, 2) => (1, 1, 3, 2, 0)
  | (1, 3, 3) => (-1, 1, 3, 0, 2)
  | (2, 1, 2) => (-1, 2, 1, 0, 3)
  | (2, 1, 3) => (1, 2, 1, 3, 0)
  | (2, 2, 2) => (1, 2, 0, 1, 3)
  | (2, 2, 3) => (-1, 2, 0, 3, 1)
  | (2, 3, 2) => (1, 2, 3, 0, 1)
  | (2, 3, 3) => (-1, 2, 3, 1, 0)
  | (3, 1, 2) => (-1, 3, 1, 2, 0)
  | (3, 1, 3) => (1, 3, 1, 0, 2)
  | (3, 2, 2) => (1, 3, 2, 1, 0)
  | (3, 2, 3) => (-1, 3, 2, 0, 1)
  | (3, 3, 2) => (1, 3, 0, 2, 1)
  | (3, 3, 3) => (-1, 3, 0, 1, 2)
  | _ => (0, 0, 0, 0, 0)

theorem sum_perm_four (f : Fin 4 → Fin 4 → Fin 4 → Fin 4 → ℝ) :
    ∑ π : Equiv.Perm (Fin 4), ((Equiv.Perm.sign π : ℤ) : ℝ) * f (π 0) (π 1) (π 2) (π 3)
      = f 0 1 2 3 - f 0 1 3 2 - f 0 2 1 3 + f 0 2 3 1 + f 0 3 1 2 - f 0 3 2 1
      - f 1 0 2 3 + f 1 0 3 2 + f 1 2 0 3 - f 1 2 3 0 - f 1 3 0 2 + f 1 3 2 0
      + f 2 0 1 3 - f 2 0 3 1 - f 2 1 0 3 + f 2 1 3 0 + f 2 3 0 1 - f 2 3 1 0
      - f 3 0 1 2 + f 3 0 2 1 + f 3 1 0 2 - f 3 1 2 0 - f 3 2 0 1 + f 3 2 1 0 := by
  have hu : (Finset.univ : Finset (Equiv.Perm (Fin 4))) = permParams.image permOf := by decide +kernel
  have hi : ∀ a ∈ permParams, ∀ b ∈ permParams, permOf a = permOf b → a = b := by decide +kernel
  rw [hu, Finset.sum_image hi]
  have hv : ∀ a ∈ permParams, ((Equiv.Perm.sign (permOf a) : ℤ) : ℝ) * f (permOf a 0) (permOf a 1) (permOf a 2) (permOf a 3)
      = ((permTable a).1 : ℝ) * f (permTable a).2.1 (permTable a).2.2.1 (permTable a).2.2.2.1 (permTable a).2.2.2.2 := by
    have h : ∀ a ∈ permParams, ((Equiv.Perm.sign (permOf a) : ℤ), permOf a 0, permOf a 1, permOf a 2, permOf a 3) = permTable a := by decide +kernel
    intro a ha
    rw [← h a ha]
  rw [Finset.sum_congr rfl hv]
  have hl : ∀ g : Fin 4 × Fin 4 × Fin 4 → ℝ, ∑ a ∈ permParams, g a =
      g (0, 1, 2) + g (0, 1, 3) + g (0, 2, 2) + g (0, 2, 3) + g (0, 3, 2) + g (0, 3, 3)
      + (g (1, 1, 2) + g (1, 1, 3) + g (1, 2, 2) + g (1, 2, 3) + g (1, 3, 2) + g (1, 3, 3))
      + (g (2, 1, 2) + g (2, 1, 3) + g (2, 2, 2) + g (2, 2, 3) + g (2, 3, 2) + g (2, 3, 3))
      + (g (3, 1, 2) + g (3, 1, 3) + g (3, 2, 2) + g (3, 2, 3) + g (3, 3, 2) + g (3, 3, 3)) := by
    intro g
    unfold permParams
    rw [Finset.sum_product, Fin.sum_univ_four]
    simp only [Finset.sum_product]
    have h3 : ∀ k : Fin 4 → ℝ, ∑ q ∈ ({1, 2, 3} : Finset (Fin 4)), k q = k 1 + k 2 + k 3 := by
      intro k; rw [Finset.sum_insert (by decide), Finset.sum_pair (by decide)]; ring
    have h2 : ∀ k : Fin 4 → ℝ, ∑ q ∈ ({2, 3} : Finset (Fin 4)), k q = k 2 + k 3 := by
      intro k; rw [Finset.sum_pair (by decide)]
    simp only [h3, h2]
    ring
  rw [hl]
  simp only [permTable]
  push_cast
  ring

end Leonard
