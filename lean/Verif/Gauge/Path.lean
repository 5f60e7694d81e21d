import Verif.Gauge.Model
import Mathlib.Data.Matrix.Basic
import Mathlib.Algebra.Star.BigOperators

/-!
# Parallel transport along paths

Tools for the proofs: products of links along a path, how they change under gauge transformations and under variations of
the links, and the sum over all translates of a closed path.
-/

set_option autoImplicit false

namespace Leonard

open Matrix

/-- One step: direction and whether it is taken upwards. -/
abbrev Hop := Fin 4 × Bool

variable {S : Type} {N : ℕ}

namespace Torus
variable (T : Torus S)

/-- One step as a permutation of the sites. -/
def hop : Hop → Equiv.Perm S
  | (μ, true) => T.sup μ
  | (μ, false) => (T.sup μ).symm

/-- The end of a path. -/
def walk : List Hop → Equiv.Perm S
  | [] => Equiv.refl S
  | h :: p => (T.hop h).trans (walk p)

@[simp] theorem walk_nil (s : S) : T.walk [] s = s := rfl
@[simp] theorem walk_up (s : S) (μ : Fin 4) (p : List Hop) : T.walk ((μ, true) :: p) s = T.walk p (T.sup μ s) := rfl
@[simp] theorem walk_down (s : S) (μ : Fin 4) (p : List Hop) : T.walk ((μ, false) :: p) s = T.walk p (T.sdn μ s) := rfl
theorem walk_cons (s : S) (h : Hop) (p : List Hop) : T.walk (h :: p) s = T.walk p (T.hop h s) := rfl

theorem walk_append (p q : List Hop) (s : S) : T.walk (p ++ q) s = T.walk q (T.walk p s) := by
  induction p generalizing s with
  | nil => rfl
  | cons h p ih => rw [List.cons_append, walk_cons, ih]; rfl

end Torus

/-- The matrix of one step. -/
def hopMat (T : Torus S) (U : GField S N) (s : S) : Hop → Mat N
  | (μ, true) => U s μ
  | (μ, false) => (U (T.sdn μ s) μ)ᴴ

/-- The ordered product of the links along a path. -/
def holo (T : Torus S) (U : GField S N) : S → List Hop → Mat N
  | _, [] => 1
  | s, h :: p => hopMat T U s h * holo T U (T.hop h s) p

section
variable (T : Torus S) (U : GField S N)

@[simp] theorem holo_nil (s : S) : holo T U s [] = 1 := rfl
@[simp] theorem holo_up (s : S) (μ : Fin 4) (p : List Hop) :
    holo T U s ((μ, true) :: p) = U s μ * holo T U (T.sup μ s) p := rfl
@[simp] theorem holo_down (s : S) (μ : Fin 4) (p : List Hop) :
    holo T U s ((μ, false) :: p) = (U (T.sdn μ s) μ)ᴴ * holo T U (T.sdn μ s) p := rfl

theorem holo_append (p q : List Hop) (s : S) : holo T U s (p ++ q) = holo T U s p * holo T U (T.walk p s) q := by
  induction p generalizing s with
  | nil => simp
  | cons h p ih => simp only [List.cons_append, holo, ih, Matrix.mul_assoc, Torus.walk_cons]

/-! ### Gauge transformations -/

theorem hopMat_gauge (ω : S → Mat N) (s : S) (h : Hop) :
    hopMat T (gaugeTransform T ω U) s h = ω s * hopMat T U s h * (ω (T.hop h s))ᴴ := by
  obtain ⟨μ, b⟩ := h
  cases b
  · simp only [hopMat, gaugeTransform, Torus.hop, conjTranspose_mul, conjTranspose_conjTranspose, Torus.sup_sdn,
      Matrix.mul_assoc]
    rfl
  · rfl

theorem holo_gauge (ω : S → Mat N) (hω : ∀ s, (ω s)ᴴ * ω s = 1) (hω' : ∀ s, ω s * (ω s)ᴴ = 1)
    (p : List Hop) (s : S) :
    holo T (gaugeTransform T ω U) s p = ω s * holo T U s p * (ω (T.walk p s))ᴴ := by
  induction p generalizing s with
  | nil => simp [hω']
  | cons h p ih =>
    simp only [holo, ih, hopMat_gauge, Torus.walk_cons]
    calc _ = ω s * hopMat T U s h * ((ω (T.hop h s))ᴴ * ω (T.hop h s)) * holo T U (T.hop h s) p *
          (ω (T.walk p (T.hop h s)))ᴴ := by simp only [Matrix.mul_assoc]
      _ = _ := by rw [hω, Matrix.mul_one]; simp only [Matrix.mul_assoc]

theorem trace_holo_gauge (ω : S → Mat N) (hω : ∀ s, (ω s)ᴴ * ω s = 1) (hω' : ∀ s, ω s * (ω s)ᴴ = 1)
    (p : List Hop) (s : S) (hp : T.walk p s = s) :
    trace (holo T (gaugeTransform T ω U) s p) = trace (holo T U s p) := by
  rw [holo_gauge T U ω hω hω', hp, Matrix.trace_mul_comm, ← Matrix.mul_assoc, hω, Matrix.one_mul]

/-! ### Variations -/

/-- The first variation of the product along a path when the link field changes by `D`. -/
def dholo (D : GField S N) : S → List Hop → Mat N
  | _, [] => 0
  | s, h :: p => hopMat T D s h * holo T U (T.hop h s) p + hopMat T U s h * dholo D (T.hop h s) p

@[simp] theorem dholo_nil (D : GField S N) (s : S) : dholo T U D s [] = 0 := rfl

/-- Contribution of one step of a closed path, whose other steps are `rest`, to the staple of `(s, ρ)`. -/
def hopStaple (s : S) (ρ : Fin 4) (h : Hop) (rest : List Hop) : Mat N :=
  if h.1 = ρ then (if h.2 then holo T U (T.sup ρ s) rest else (holo T U s rest)ᴴ) else 0

/-- The staple of `(s, ρ)` from the steps of `post` in the closed path `pre ++ post`. -/
def pathStaple (s : S) (ρ : Fin 4) : List Hop → List Hop → Mat N
  | _, [] => 0
  | pre, h :: post => hopStaple T U s ρ h (post ++ pre) + pathStaple s ρ (pre ++ [h]) post

theorem re_trace_conjTranspose (A : Mat N) : (trace Aᴴ).re = (trace A).re := by
  rw [trace_conjTranspose]; exact Complex.conj_re _

/-- Moving the varied link to the front of the trace and summing over all translates. -/
theorem sum_hop [Fintype S] (D : GField S N) (pre : List Hop) (h : Hop) (post : List Hop)
    (hc : ∀ s, T.walk (pre ++ h :: post) s = s) :
    (∑ s, (trace (holo T U s pre * (hopMat T D (T.walk pre s) h * holo T U (T.hop h (T.walk pre s)) post))).re)
      = ∑ s, ∑ ρ, (trace (D s ρ * hopStaple T U s ρ h (post ++ pre))).re := by
  have key : ∀ s, (trace (holo T U s pre * (hopMat T D (T.walk pre s) h * holo T U (T.hop h (T.walk pre s)) post))).re
      = (trace (hopMat T D (T.walk pre s) h * holo T U (T.hop h (T.walk pre s)) (post ++ pre))).re := by
    intro s
    rw [Matrix.trace_mul_comm, Matrix.mul_assoc, holo_append]
    have := hc s
    rw [T.walk_append, T.walk_cons] at this
    rw [this]
  simp only [key]
  rw [Equiv.sum_comp (T.walk pre) fun y => (trace (hopMat T D y h * holo T U (T.hop h y) (post ++ pre))).re]
  obtain ⟨μ, b⟩ := h
  have hs : ∀ s, ∑ ρ, (trace (D s ρ * hopStaple T U s ρ (μ, b) (post ++ pre))).re
      = (trace (D s μ * hopStaple T U s μ (μ, b) (post ++ pre))).re := by
    intro s
    refine Finset.sum_eq_single μ (fun ρ _ hne => ?_) (fun h => absurd (Finset.mem_univ _) h)
    simp [hopStaple, Ne.symm hne]
  simp only [hs]
  cases b
  · rw [← Equiv.sum_comp (T.sup μ)]
    refine Finset.sum_congr rfl fun s _ => ?_
    simp only [hopMat, hopStaple, Torus.hop, if_true, Torus.sdn_sup, Equiv.symm_apply_apply]
    rw [← re_trace_conjTranspose, conjTranspose_mul, conjTranspose_conjTranspose, Matrix.trace_mul_comm]
    simp
  · simp [hopMat, hopStaple, Torus.hop]

theorem sum_dholo_aux [Fintype S] (D : GField S N) (post pre : List Hop)
    (hc : ∀ s, T.walk (pre ++ post) s = s) :
    (∑ s, (trace (holo T U s pre * dholo T U D (T.walk pre s) post)).re)
      = ∑ s, ∑ ρ, (trace (D s ρ * pathStaple T U s ρ pre post)).re := by
  induction post generalizing pre with
  | nil => simp [pathStaple]
  | cons h post ih =>
    have h2 := ih (pre ++ [h]) (by simpa using hc)
    have h1 := sum_hop T U D pre h post hc
    simp only [dholo, pathStaple, Matrix.mul_add, Matrix.trace_add, Complex.add_re, Finset.sum_add_distrib]
    rw [h1, ← h2]
    congr 1
    refine Finset.sum_congr rfl fun s _ => ?_
    rw [holo_append, T.walk_append, Matrix.mul_assoc]
    simp [holo, Torus.walk_cons]

/-- The variation of the sum over translates of a closed path is linear in the varied links, with its staple. -/
theorem sum_dholo [Fintype S] (D : GField S N) (p : List Hop) (hc : ∀ s, T.walk p s = s) :
    (∑ s, (trace (dholo T U D s p)).re) = ∑ s, ∑ ρ, (trace (D s ρ * pathStaple T U s ρ [] p)).re := by
  have := sum_dholo_aux T U D p [] hc
  simpa using this

/-! ### Changing one link -/

/-- The configuration with the link `(s, μ)` replaced by `V`. -/
def setLink [DecidableEq S] (U : GField S N) (s : S) (μ : Fin 4) (V : Mat N) : GField S N :=
  fun s' μ' => if s' = s ∧ μ' = μ then V else U s' μ'

/-- The link a step uses. -/
def hopLink (T : Torus S) (s : S) : Hop → S × Fin 4
  | (μ, true) => (s, μ)
  | (μ, false) => (T.sdn μ s, μ)

/-- The links a path uses. -/
def pathLinks (T : Torus S) : S → List Hop → List (S × Fin 4)
  | _, [] => []
  | s, h :: p => hopLink T s h :: pathLinks T (T.hop h s) p

variable [DecidableEq S]

/-- The difference field of `setLink`. -/
def linkDiff (s0 : S) (μ0 : Fin 4) (V : Mat N) : GField S N :=
  fun s μ => if s = s0 ∧ μ = μ0 then V - U s0 μ0 else 0

theorem hopMat_setLink (s0 : S) (μ0 : Fin 4) (V : Mat N) (s : S) (h : Hop) :
    hopMat T (setLink U s0 μ0 V) s h = hopMat T U s h + hopMat T (linkDiff U s0 μ0 V) s h := by
  obtain ⟨μ, b⟩ := h
  have : ∀ s', setLink U s0 μ0 V s' μ = U s' μ + linkDiff U s0 μ0 V s' μ := by
    intro s'
    unfold setLink linkDiff
    split
    · rename_i e; rw [e.1, e.2]; simp
    · simp
  cases b <;> simp [hopMat, this, conjTranspose_add]

theorem hopMat_linkDiff_ne (s0 : S) (μ0 : Fin 4) (V : Mat N) (s : S) (h : Hop) (hne : hopLink T s h ≠ (s0, μ0)) :
    hopMat T (linkDiff U s0 μ0 V) s h = 0 := by
  obtain ⟨μ, b⟩ := h
  cases b
  · simp only [hopMat, linkDiff, hopLink, ne_eq, Prod.mk.injEq] at *
    rw [if_neg hne, conjTranspose_zero]
  · simp only [hopMat, linkDiff, hopLink, ne_eq, Prod.mk.injEq] at *
    rw [if_neg hne]

theorem holo_setLink_notMem (s0 : S) (μ0 : Fin 4) (V : Mat N) (p : List Hop) (s : S)
    (hn : (s0, μ0) ∉ pathLinks T s p) :
    holo T (setLink U s0 μ0 V) s p = holo T U s p ∧ dholo T U (linkDiff U s0 μ0 V) s p = 0 := by
  induction p generalizing s with
  | nil => simp
  | cons h p ih =>
    simp only [pathLinks, List.mem_cons, not_or] at hn
    obtain ⟨i1, i2⟩ := ih _ hn.2
    have h0 := hopMat_linkDiff_ne T U s0 μ0 V s h (fun e => hn.1 e.symm)
    simp only [holo, dholo, i1, i2, h0, hopMat_setLink]
    simp

theorem holo_setLink (s0 : S) (μ0 : Fin 4) (V : Mat N) (p : List Hop) (s : S) (hn : (pathLinks T s p).Nodup) :
    holo T (setLink U s0 μ0 V) s p = holo T U s p + dholo T U (linkDiff U s0 μ0 V) s p := by
  induction p generalizing s with
  | nil => simp
  | cons h p ih =>
    simp only [pathLinks, List.nodup_cons] at hn
    by_cases hm : hopLink T s h = (s0, μ0)
    · obtain ⟨i1, i2⟩ := holo_setLink_notMem T U s0 μ0 V p (T.hop h s) (hm ▸ hn.1)
      simp only [holo, dholo, i1, i2, hopMat_setLink, Matrix.add_mul, Matrix.mul_zero, add_zero]
    · have h0 := hopMat_linkDiff_ne T U s0 μ0 V s h hm
      simp only [holo, dholo, ih _ hn.2, hopMat_setLink, h0, add_zero, Matrix.mul_add, Matrix.zero_mul, zero_add]

theorem sum_linkDiff [Fintype S] (s0 : S) (μ0 : Fin 4) (V : Mat N) (st : S → Fin 4 → Mat N) :
    (∑ s, ∑ ρ, (trace (linkDiff U s0 μ0 V s ρ * st s ρ)).re) = (trace ((V - U s0 μ0) * st s0 μ0)).re := by
  rw [Finset.sum_eq_single s0, Finset.sum_eq_single μ0]
  · simp [linkDiff]
  · intro ρ _ hne; simp [linkDiff, hne]
  · simp
  · intro s _ hne; simp [linkDiff, hne]
  · simp

/-- The change of the sum over translates of a closed path when one link is replaced. -/
theorem sum_holo_setLink [Fintype S] (s0 : S) (μ0 : Fin 4) (V : Mat N) (p : List Hop)
    (hc : ∀ s, T.walk p s = s) (hn : ∀ s, (pathLinks T s p).Nodup) :
    (∑ s, (trace (holo T (setLink U s0 μ0 V) s p)).re)
      = (∑ s, (trace (holo T U s p)).re) + (trace ((V - U s0 μ0) * pathStaple T U s0 μ0 [] p)).re := by
  simp only [fun s => holo_setLink T U s0 μ0 V p s (hn s), Matrix.trace_add, Complex.add_re, Finset.sum_add_distrib]
  rw [sum_dholo T U _ p hc, sum_linkDiff]

end

end Leonard
