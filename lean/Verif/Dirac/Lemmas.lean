/-
Lemmas about the Dirac kernels.
-/
import Verif.Dirac.Spec
import Verif.Dirac.GammaProps
import Mathlib.Tactic.Ring
import Mathlib.Tactic.LinearCombination
import Mathlib.Data.Complex.BigOperators

set_option autoImplicit false

namespace Leonard

open Matrix

variable {S : Type} {N : ℕ}

theorem mk_add_I (a b : ℂ) : (⟨a.re - b.im, a.im + b.re⟩ : ℂ) = a + Complex.I * b := by
  apply Complex.ext <;> simp; ring
theorem mk_sub_I (a b : ℂ) : (⟨a.re + b.im, a.im - b.re⟩ : ℂ) = a - Complex.I * b := by
  apply Complex.ext <;> simp
theorem mk_add (a b : ℂ) : (⟨a.re + b.re, a.im + b.im⟩ : ℂ) = a + b := rfl
theorem mk_sub (a b : ℂ) : (⟨a.re - b.re, a.im - b.im⟩ : ℂ) = a - b := rfl
theorem mk_rot (a b : ℂ) : (⟨a.im - b.im, b.re - a.re⟩ : ℂ) = Complex.I * (b - a) := by
  apply Complex.ext <;> simp

theorem rowMul_eq (U : Mat N) (w : Matrix (Fin 4) (Fin N) ℂ) (s : Fin 4) (i : Fin N) :
    rowMul U (w s) i = (w * Uᵀ) s i := rfl
theorem rowDag_eq (U : Mat N) (p : Fin N → ℂ) (i : Fin N) : rowDag U p i = rowMul Uᴴ p i := rfl

theorem rowMul_add (U : Mat N) (p q : Fin N → ℂ) (i : Fin N) :
    rowMul U (fun n => p n + q n) i = rowMul U p i + rowMul U q i := by
  simp [rowMul, add_mul, Finset.sum_add_distrib]
theorem rowMul_sub (U : Mat N) (p q : Fin N → ℂ) (i) :
    rowMul U (fun n => p n - q n) i = rowMul U p i - rowMul U q i := by
  simp [rowMul, sub_mul, Finset.sum_sub_distrib]
theorem rowMul_const (U : Mat N) (c : ℂ) (p : Fin N → ℂ) (i) :
    rowMul U (fun n => c * p n) i = c * rowMul U p i := by
  simp [rowMul, mul_assoc, Finset.mul_sum]
theorem mulVec_rowMul (U : Mat N) (p : Fin N → ℂ) (i) : (U *ᵥ p) i = rowMul U p i := by
  simp only [mulVec, dotProduct, rowMul]; exact Finset.sum_congr rfl fun _ _ => mul_comm _ _

/-! ### Components of `γ₅ H` -/

theorem tabGamma_eq0 : tabGamma 0 = !![0, 0, 0, -Complex.I; 0, 0, -Complex.I, 0; 0, Complex.I, 0, 0; Complex.I, 0, 0, 0] := by
  ext a b; fin_cases a <;> fin_cases b <;> simp [tabGamma, toSpin, tabGammaT, -GaussianInt.toComplex_def, toComplex_gI]
theorem tabGamma_eq1 : tabGamma 1 = !![0, 0, 0, -1; 0, 0, 1, 0; 0, 1, 0, 0; -1, 0, 0, 0] := by
  ext a b; fin_cases a <;> fin_cases b <;> simp [tabGamma, toSpin, tabGammaT]
theorem tabGamma_eq2 : tabGamma 2 = !![0, 0, -Complex.I, 0; 0, 0, 0, Complex.I; Complex.I, 0, 0, 0; 0, -Complex.I, 0, 0] := by
  ext a b; fin_cases a <;> fin_cases b <;> simp [tabGamma, toSpin, tabGammaT, toComplex_gI]
theorem tabGamma_eq3 : tabGamma 3 = !![0, 0, 1, 0; 0, 0, 0, 1; 1, 0, 0, 0; 0, 1, 0, 0] := by
  ext a b; fin_cases a <;> fin_cases b <;> simp [tabGamma, toSpin, tabGammaT]
theorem tabGamma5_eq : tabGamma5 = !![1, 0, 0, 0; 0, 1, 0, 0; 0, 0, -1, 0; 0, 0, 0, -1] := by
  ext a b; fin_cases a <;> fin_cases b <;> simp [tabGamma5, toSpin, tabGamma5T]

theorem gamma5_apply (w : Matrix (Fin 4) (Fin N) ℂ) (c : Fin 4) (i : Fin N) :
    (tabGamma5 * w) c i = ![w 0 i, w 1 i, -w 2 i, -w 3 i] c := by
  fin_cases c <;> simp [tabGamma5_eq, Matrix.mul_apply, Fin.sum_univ_four]

/-- The four components of the hopping term. -/
theorem hopping_apply (a b : Fin 4 → Matrix (Fin 4) (Fin N) ℂ) (c : Fin 4) (i : Fin N) :
    (∑ μ, ((1 - tabGamma μ) * a μ + (1 + tabGamma μ) * b μ) : Matrix (Fin 4) (Fin N) ℂ) c i =
    let I := Complex.I
    ![(a 0 0 i + I * a 0 3 i + a 1 0 i + a 1 3 i + a 2 0 i + I * a 2 2 i + a 3 0 i - a 3 2 i)
        + (b 0 0 i - I * b 0 3 i + b 1 0 i - b 1 3 i + b 2 0 i - I * b 2 2 i + b 3 0 i + b 3 2 i),
      (a 0 1 i + I * a 0 2 i + a 1 1 i - a 1 2 i + a 2 1 i - I * a 2 3 i + a 3 1 i - a 3 3 i)
        + (b 0 1 i - I * b 0 2 i + b 1 1 i + b 1 2 i + b 2 1 i + I * b 2 3 i + b 3 1 i + b 3 3 i),
      -((I * a 0 1 i - a 0 2 i + a 1 1 i - a 1 2 i + I * a 2 0 i - a 2 2 i + a 3 0 i - a 3 2 i)
        + (-I * b 0 1 i - b 0 2 i - b 1 1 i - b 1 2 i - I * b 2 0 i - b 2 2 i - b 3 0 i - b 3 2 i)),
      -((I * a 0 0 i - a 0 3 i - a 1 0 i - a 1 3 i - I * a 2 1 i - a 2 3 i + a 3 1 i - a 3 3 i)
        + (-I * b 0 0 i - b 0 3 i + b 1 0 i - b 1 3 i + I * b 2 1 i - b 2 3 i - b 3 1 i - b 3 3 i))] c := by
  simp only [Fin.sum_univ_four, Matrix.add_apply, Matrix.sub_mul, Matrix.add_mul, Matrix.one_mul, Matrix.sub_apply,
    tabGamma_eq0, tabGamma_eq1, tabGamma_eq2, tabGamma_eq3, Matrix.mul_apply]
  fin_cases c <;> simp <;> ring

/-- The optimised kernel in terms of the hopping term. -/
theorem optSite_eq (T : Torus S) (U : GField S N) (κ : ℝ) (v : SField S N) (x : S) (i : Fin N) (s : Fin 4 → ℂ)
    (c : Fin 4) :
    optSite T U κ v x i s c = s c - κ * (tabGamma5 * hoppingSpec T U v x) c i := by
  rw [gamma5_apply]
  simp only [hoppingSpec, hopping_apply (fun μ => v (T.sup μ x) * (U x μ)ᵀ)
    (fun μ => v (T.sdn μ x) * ((U (T.sdn μ x) μ)ᴴ)ᵀ), ← rowMul_eq]
  simp only [optSite, rowDag_eq, mk_add_I, mk_sub_I, mk_rot, rowMul_add, rowMul_sub, rowMul_const]
  fin_cases c <;> simp <;> ring_nf <;> simp only [Complex.I_sq] <;> ring

theorem basicOut_complex (κ : ℝ) (g5 : Bool) (v : SField S N) (x : S) (i : Fin N)
    (tp tm : Fin 4 → Fin 2 → Fin N → ℂ) :
    basicOut κ g5 v x i tp tm =
      let I := Complex.I
      let h2 := v x 2 i + κ * (tm 1 1 i + tm 3 0 i + I * tm 0 1 i + I * tm 2 0 i)
      let h3 := v x 3 i + κ * (-I * tm 2 1 i + I * tm 0 0 i - tm 1 0 i + tm 3 1 i)
      ![v x 0 i - κ * (tp 0 0 i + tp 1 0 i + tp 2 0 i + tp 3 0 i),
        v x 1 i - κ * (tp 0 1 i + tp 1 1 i + tp 2 1 i + tp 3 1 i),
        if g5 then -h2 else h2, if g5 then -h3 else h3] := by
  funext c
  cases g5 <;> fin_cases c <;> apply Complex.ext <;> simp [basicOut] <;> ring_nf <;> simp

theorem rowMul_projUp00 (T : Torus S) (v : SField S N) (x : S) (A : Mat N) (i : Fin N) :
    rowMul A (projUp T v x 0 0) i = (v (T.sup 0 x) * Aᵀ) 0 i + Complex.I * (v (T.sup 0 x) * Aᵀ) 3 i := by
  change rowMul A (fun n => ⟨(v (T.sup 0 x) 0 n).re - (v (T.sup 0 x) 3 n).im, (v (T.sup 0 x) 0 n).im + (v (T.sup 0 x) 3 n).re⟩) i = _
  simp only [mk_add_I, mk_sub_I, mk_add, mk_sub, rowMul_add, rowMul_sub, rowMul_const, rowMul_eq]
theorem rowMul_projUp01 (T : Torus S) (v : SField S N) (x : S) (A : Mat N) (i : Fin N) :
    rowMul A (projUp T v x 0 1) i = (v (T.sup 0 x) * Aᵀ) 1 i + Complex.I * (v (T.sup 0 x) * Aᵀ) 2 i := by
  change rowMul A (fun n => ⟨(v (T.sup 0 x) 1 n).re - (v (T.sup 0 x) 2 n).im, (v (T.sup 0 x) 1 n).im + (v (T.sup 0 x) 2 n).re⟩) i = _
  simp only [mk_add_I, mk_sub_I, mk_add, mk_sub, rowMul_add, rowMul_sub, rowMul_const, rowMul_eq]
theorem rowMul_projUp10 (T : Torus S) (v : SField S N) (x : S) (A : Mat N) (i : Fin N) :
    rowMul A (projUp T v x 1 0) i = (v (T.sup 1 x) * Aᵀ) 0 i + (v (T.sup 1 x) * Aᵀ) 3 i := by
  change rowMul A (fun n => ⟨(v (T.sup 1 x) 0 n).re + (v (T.sup 1 x) 3 n).re, (v (T.sup 1 x) 0 n).im + (v (T.sup 1 x) 3 n).im⟩) i = _
  simp only [mk_add_I, mk_sub_I, mk_add, mk_sub, rowMul_add, rowMul_sub, rowMul_const, rowMul_eq]
theorem rowMul_projUp11 (T : Torus S) (v : SField S N) (x : S) (A : Mat N) (i : Fin N) :
    rowMul A (projUp T v x 1 1) i = (v (T.sup 1 x) * Aᵀ) 1 i - (v (T.sup 1 x) * Aᵀ) 2 i := by
  change rowMul A (fun n => ⟨(v (T.sup 1 x) 1 n).re - (v (T.sup 1 x) 2 n).re, (v (T.sup 1 x) 1 n).im - (v (T.sup 1 x) 2 n).im⟩) i = _
  simp only [mk_add_I, mk_sub_I, mk_add, mk_sub, rowMul_add, rowMul_sub, rowMul_const, rowMul_eq]
theorem rowMul_projUp20 (T : Torus S) (v : SField S N) (x : S) (A : Mat N) (i : Fin N) :
    rowMul A (projUp T v x 2 0) i = (v (T.sup 2 x) * Aᵀ) 0 i + Complex.I * (v (T.sup 2 x) * Aᵀ) 2 i := by
  change rowMul A (fun n => ⟨(v (T.sup 2 x) 0 n).re - (v (T.sup 2 x) 2 n).im, (v (T.sup 2 x) 0 n).im + (v (T.sup 2 x) 2 n).re⟩) i = _
  simp only [mk_add_I, mk_sub_I, mk_add, mk_sub, rowMul_add, rowMul_sub, rowMul_const, rowMul_eq]
theorem rowMul_projUp21 (T : Torus S) (v : SField S N) (x : S) (A : Mat N) (i : Fin N) :
    rowMul A (projUp T v x 2 1) i = (v (T.sup 2 x) * Aᵀ) 1 i - Complex.I * (v (T.sup 2 x) * Aᵀ) 3 i := by
  change rowMul A (fun n => ⟨(v (T.sup 2 x) 1 n).re + (v (T.sup 2 x) 3 n).im, (v (T.sup 2 x) 1 n).im - (v (T.sup 2 x) 3 n).re⟩) i = _
  simp only [mk_add_I, mk_sub_I, mk_add, mk_sub, rowMul_add, rowMul_sub, rowMul_const, rowMul_eq]
theorem rowMul_projUp30 (T : Torus S) (v : SField S N) (x : S) (A : Mat N) (i : Fin N) :
    rowMul A (projUp T v x 3 0) i = (v (T.sup 3 x) * Aᵀ) 0 i - (v (T.sup 3 x) * Aᵀ) 2 i := by
  change rowMul A (fun n => ⟨(v (T.sup 3 x) 0 n).re - (v (T.sup 3 x) 2 n).re, (v (T.sup 3 x) 0 n).im - (v (T.sup 3 x) 2 n).im⟩) i = _
  simp only [mk_add_I, mk_sub_I, mk_add, mk_sub, rowMul_add, rowMul_sub, rowMul_const, rowMul_eq]
theorem rowMul_projUp31 (T : Torus S) (v : SField S N) (x : S) (A : Mat N) (i : Fin N) :
    rowMul A (projUp T v x 3 1) i = (v (T.sup 3 x) * Aᵀ) 1 i - (v (T.sup 3 x) * Aᵀ) 3 i := by
  change rowMul A (fun n => ⟨(v (T.sup 3 x) 1 n).re - (v (T.sup 3 x) 3 n).re, (v (T.sup 3 x) 1 n).im - (v (T.sup 3 x) 3 n).im⟩) i = _
  simp only [mk_add_I, mk_sub_I, mk_add, mk_sub, rowMul_add, rowMul_sub, rowMul_const, rowMul_eq]
theorem rowMul_projDn00 (T : Torus S) (v : SField S N) (x : S) (A : Mat N) (i : Fin N) :
    rowMul A (projDn T v x 0 0) i = (v (T.sdn 0 x) * Aᵀ) 0 i - Complex.I * (v (T.sdn 0 x) * Aᵀ) 3 i := by
  change rowMul A (fun n => ⟨(v (T.sdn 0 x) 0 n).re + (v (T.sdn 0 x) 3 n).im, (v (T.sdn 0 x) 0 n).im - (v (T.sdn 0 x) 3 n).re⟩) i = _
  simp only [mk_add_I, mk_sub_I, mk_add, mk_sub, rowMul_add, rowMul_sub, rowMul_const, rowMul_eq]
theorem rowMul_projDn01 (T : Torus S) (v : SField S N) (x : S) (A : Mat N) (i : Fin N) :
    rowMul A (projDn T v x 0 1) i = (v (T.sdn 0 x) * Aᵀ) 1 i - Complex.I * (v (T.sdn 0 x) * Aᵀ) 2 i := by
  change rowMul A (fun n => ⟨(v (T.sdn 0 x) 1 n).re + (v (T.sdn 0 x) 2 n).im, (v (T.sdn 0 x) 1 n).im - (v (T.sdn 0 x) 2 n).re⟩) i = _
  simp only [mk_add_I, mk_sub_I, mk_add, mk_sub, rowMul_add, rowMul_sub, rowMul_const, rowMul_eq]
theorem rowMul_projDn10 (T : Torus S) (v : SField S N) (x : S) (A : Mat N) (i : Fin N) :
    rowMul A (projDn T v x 1 0) i = (v (T.sdn 1 x) * Aᵀ) 0 i - (v (T.sdn 1 x) * Aᵀ) 3 i := by
  change rowMul A (fun n => ⟨(v (T.sdn 1 x) 0 n).re - (v (T.sdn 1 x) 3 n).re, (v (T.sdn 1 x) 0 n).im - (v (T.sdn 1 x) 3 n).im⟩) i = _
  simp only [mk_add_I, mk_sub_I, mk_add, mk_sub, rowMul_add, rowMul_sub, rowMul_const, rowMul_eq]
theorem rowMul_projDn11 (T : Torus S) (v : SField S N) (x : S) (A : Mat N) (i : Fin N) :
    rowMul A (projDn T v x 1 1) i = (v (T.sdn 1 x) * Aᵀ) 1 i + (v (T.sdn 1 x) * Aᵀ) 2 i := by
  change rowMul A (fun n => ⟨(v (T.sdn 1 x) 1 n).re + (v (T.sdn 1 x) 2 n).re, (v (T.sdn 1 x) 1 n).im + (v (T.sdn 1 x) 2 n).im⟩) i = _
  simp only [mk_add_I, mk_sub_I, mk_add, mk_sub, rowMul_add, rowMul_sub, rowMul_const, rowMul_eq]
theorem rowMul_projDn20 (T : Torus S) (v : SField S N) (x : S) (A : Mat N) (i : Fin N) :
    rowMul A (projDn T v x 2 0) i = (v (T.sdn 2 x) * Aᵀ) 0 i - Complex.I * (v (T.sdn 2 x) * Aᵀ) 2 i := by
  change rowMul A (fun n => ⟨(v (T.sdn 2 x) 0 n).re + (v (T.sdn 2 x) 2 n).im, (v (T.sdn 2 x) 0 n).im - (v (T.sdn 2 x) 2 n).re⟩) i = _
  simp only [mk_add_I, mk_sub_I, mk_add, mk_sub, rowMul_add, rowMul_sub, rowMul_const, rowMul_eq]
theorem rowMul_projDn21 (T : Torus S) (v : SField S N) (x : S) (A : Mat N) (i : Fin N) :
    rowMul A (projDn T v x 2 1) i = (v (T.sdn 2 x) * Aᵀ) 1 i + Complex.I * (v (T.sdn 2 x) * Aᵀ) 3 i := by
  change rowMul A (fun n => ⟨(v (T.sdn 2 x) 1 n).re - (v (T.sdn 2 x) 3 n).im, (v (T.sdn 2 x) 1 n).im + (v (T.sdn 2 x) 3 n).re⟩) i = _
  simp only [mk_add_I, mk_sub_I, mk_add, mk_sub, rowMul_add, rowMul_sub, rowMul_const, rowMul_eq]
theorem rowMul_projDn30 (T : Torus S) (v : SField S N) (x : S) (A : Mat N) (i : Fin N) :
    rowMul A (projDn T v x 3 0) i = (v (T.sdn 3 x) * Aᵀ) 0 i + (v (T.sdn 3 x) * Aᵀ) 2 i := by
  change rowMul A (fun n => ⟨(v (T.sdn 3 x) 0 n).re + (v (T.sdn 3 x) 2 n).re, (v (T.sdn 3 x) 0 n).im + (v (T.sdn 3 x) 2 n).im⟩) i = _
  simp only [mk_add_I, mk_sub_I, mk_add, mk_sub, rowMul_add, rowMul_sub, rowMul_const, rowMul_eq]
theorem rowMul_projDn31 (T : Torus S) (v : SField S N) (x : S) (A : Mat N) (i : Fin N) :
    rowMul A (projDn T v x 3 1) i = (v (T.sdn 3 x) * Aᵀ) 1 i + (v (T.sdn 3 x) * Aᵀ) 3 i := by
  change rowMul A (fun n => ⟨(v (T.sdn 3 x) 1 n).re + (v (T.sdn 3 x) 3 n).re, (v (T.sdn 3 x) 1 n).im + (v (T.sdn 3 x) 3 n).im⟩) i = _
  simp only [mk_add_I, mk_sub_I, mk_add, mk_sub, rowMul_add, rowMul_sub, rowMul_const, rowMul_eq]

theorem withGamma5_apply (g5 : Bool) (f : SField S N) (x : S) :
    withGamma5 g5 f x = if g5 then tabGamma5 * f x else f x := by cases g5 <;> rfl

/-- The basic kernel in terms of the hopping term, with arbitrary matrices in the place of the links. -/
theorem basicOut_eq (T : Torus S) (κ : ℝ) (g5 : Bool) (v : SField S N) (x : S) (i : Fin N) (A B : Fin 4 → Mat N)
    (X : Matrix (Fin 4) (Fin N) ℂ) (hX : X = ∑ μ, ((1 - tabGamma μ) * (v (T.sup μ x) * (A μ)ᵀ)
        + (1 + tabGamma μ) * (v (T.sdn μ x) * (B μ)ᵀ))) (c : Fin 4) :
    basicOut κ g5 v x i (fun mu nu n => rowMul (A mu) (projUp T v x mu nu) n + rowMul (B mu) (projDn T v x mu nu) n)
      (fun mu nu n => rowMul (A mu) (projUp T v x mu nu) n - rowMul (B mu) (projDn T v x mu nu) n) c =
    (if g5 then tabGamma5 * (v x - (κ : ℂ) • X) else v x - (κ : ℂ) • X) c i := by
  rw [basicOut_complex]
  have hR : ∀ c : Fin 4, X c i = _ := fun c => (congrFun (congrFun hX c) i).trans
    (hopping_apply (fun μ => v (T.sup μ x) * (A μ)ᵀ) (fun μ => v (T.sdn μ x) * (B μ)ᵀ) c i)
  simp only [rowMul_projUp00, rowMul_projUp01, rowMul_projUp10, rowMul_projUp11, rowMul_projUp20, rowMul_projUp21,
    rowMul_projUp30, rowMul_projUp31, rowMul_projDn00, rowMul_projDn01, rowMul_projDn10, rowMul_projDn11,
    rowMul_projDn20, rowMul_projDn21, rowMul_projDn30, rowMul_projDn31]
  cases g5
  · have e : (if false = true then tabGamma5 * (v x - (κ : ℂ) • X) else v x - (κ : ℂ) • X) c i = v x c i - κ * X c i := rfl
    rw [e, hR]
    fin_cases c <;> simp <;> ring_nf <;> (try simp only [Complex.I_sq]) <;> (try ring_nf) <;> (try simp)
  · have e : (if true = true then tabGamma5 * (v x - (κ : ℂ) • X) else v x - (κ : ℂ) • X) c i =
        ![v x 0 i - κ * X 0 i, v x 1 i - κ * X 1 i, -(v x 2 i - κ * X 2 i), -(v x 3 i - κ * X 3 i)] c := by
      rw [if_pos rfl, gamma5_apply]; rfl
    rw [e, hR, hR, hR, hR]
    fin_cases c <;> simp <;> ring_nf <;> (try simp only [Complex.I_sq]) <;> (try ring_nf) <;> (try simp)

/-- The hopping of `BlockDiracWilsonOperator::multiplyAdd` is that of the full operator. -/
theorem blockHopping_eq (T : Torus S) (U : GField S N) (v : SField S N) (x : S) (i : Fin N) (c : Fin 4) :
    blockHopping (fun mu nu => (U x mu *ᵥ v (T.sup mu x) nu) i)
        (fun mu nu => ((U (T.sdn mu x) mu)ᴴ *ᵥ v (T.sdn mu x) nu) i) c = (tabGamma5 * hoppingSpec T U v x) c i := by
  have hR : ∀ c : Fin 4, hoppingSpec T U v x c i = _ := fun c =>
    hopping_apply (fun μ => v (T.sup μ x) * (U x μ)ᵀ) (fun μ => v (T.sdn μ x) * ((U (T.sdn μ x) μ)ᴴ)ᵀ) c i
  rw [gamma5_apply, hR, hR, hR, hR]
  simp only [blockHopping, mulVec_rowMul, rowMul_eq]
  fin_cases c <;> simp

end Leonard
