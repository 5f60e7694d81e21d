/-
Lemmas for C35: the reduced operator in closed form.
-/
import Verif.Dirac.EvenOddLemmas

set_option autoImplicit false

namespace Leonard

open Matrix

variable {S : Type} {N : ℕ}

theorem evenRegular_iff (T : Torus S) (U : GField S 3) (κ csw : ℝ) :
    EvenRegular T U κ csw ↔ ∀ x, siteParity T x = 0 → IsUnit (cloverMatrix κ csw (fieldStrength T U x)).det := by
  refine forall_congr' fun x => imp_congr_right fun _ => ?_
  constructor
  · intro h
    by_contra hd
    have h0 : (cloverMatrix κ csw (fieldStrength T U x)).det = 0 := by
      by_contra h1; exact hd (isUnit_iff_ne_zero.2 h1)
    obtain ⟨p, hp, hp0⟩ := Matrix.exists_mulVec_eq_zero_iff.2 h0
    have hw := h (Matrix.of fun α i => p (cIdx α i)) (by
      rw [← applyClover_diag]
      ext α c
      rw [applyClover_three]
      have := congrFun hp0 (cIdx α c)
      simp only [Matrix.mulVec, dotProduct, cIdx_sum] at this
      simpa using this)
    apply hp
    funext q
    have hq : q = cIdx ⟨q.val / 3, by omega⟩ ⟨q.val % 3, Nat.mod_lt _ (by decide)⟩ := by
      apply Fin.ext; simp only [cIdx]; omega
    have := congrFun (congrFun hw ⟨q.val / 3, by omega⟩) ⟨q.val % 3, Nat.mod_lt _ (by decide)⟩
    simp only [Matrix.of_apply, ← hq] at this
    simpa using this
  · intro hu w hw
    rw [← applyClover_diag] at hw
    have := congrArg (applyClover (cloverMatrix κ csw (fieldStrength T U x))⁻¹) hw
    rw [applyClover_mul, Matrix.nonsing_inv_mul _ hu, applyClover_one] at this
    rw [this]
    ext α c; simp [applyClover]

/-- The inverse of the site-diagonal part. -/
noncomputable def diagInv (T : Torus S) (U : GField S 3) (κ csw : ℝ) (x : S) (w : Matrix (Fin 4) (Fin 3) ℂ) :
    Matrix (Fin 4) (Fin 3) ℂ := applyClover (cloverMatrix κ csw (fieldStrength T U x))⁻¹ w

theorem diag_diagInv (T : Torus S) (U : GField S 3) (κ csw : ℝ) (h : EvenRegular T U κ csw) (x : S)
    (hx : siteParity T x = 0) (w : Matrix (Fin 4) (Fin 3) ℂ) :
    diagSite T U κ csw x (diagInv T U κ csw x w) = w ∧ diagInv T U κ csw x (diagSite T U κ csw x w) = w := by
  have hu := (evenRegular_iff T U κ csw).1 h x hx
  rw [diagInv, diagInv, ← applyClover_diag, ← applyClover_diag, applyClover_mul, applyClover_mul,
    Matrix.mul_nonsing_inv _ hu, Matrix.nonsing_inv_mul _ hu, applyClover_one]
  exact ⟨rfl, rfl⟩

theorem eeInverse_eq (T : Torus S) (U : GField S 3) (κ csw : ℝ) (h : EvenRegular T U κ csw) (v : SField S 3) :
    eeInverse T U κ csw v = .ok (some fun x => if siteParity T x = 0 then diagInv T U κ csw x (v x) else v x) := by
  unfold eeInverse
  rw [if_neg (by decide), if_pos ((evenRegular_iff T U κ csw).1 h)]
  rfl

theorem diagInv_neg (T : Torus S) (U : GField S 3) (κ csw : ℝ) (x : S) (w : Matrix (Fin 4) (Fin 3) ℂ) :
    diagInv T U κ csw x (-w) = -diagInv T U κ csw x w := by
  ext α c; simp [diagInv, applyClover]

theorem hopping_neg (T : Torus S) (U : GField S N) (v : SField S N) (x : S) :
    hoppingSpec T U (-v) x = -hoppingSpec T U v x := by
  simp only [hoppingSpec, Pi.neg_apply, Matrix.neg_mul, Matrix.mul_neg, ← Finset.sum_neg_distrib, neg_add]

theorem hopping_parity_neg (T : Torus S) (hT : EvenExtents T) (U : GField S N) (v w : SField S N) (p : ℕ) (x : S)
    (hx : siteParity T x = p) (h : ∀ y, siteParity T y = 1 - p → v y = -w y) :
    hoppingSpec T U v x = -hoppingSpec T U w x := by
  rw [← hopping_neg]
  exact hopping_parity T hT U v (-w) p x hx h

theorem improvedSpec_add (T : Torus S) (U : GField S N) (κ csw : ℝ) (a b : SField S N) :
    improvedSpec T U κ csw (a + b) = improvedSpec T U κ csw a + improvedSpec T U κ csw b := by
  have eh : hoppingSpec T U (a + b) = hoppingSpec T U a + hoppingSpec T U b := by
    funext z
    simp only [hoppingSpec, Pi.add_apply, Matrix.add_mul, Matrix.mul_add, ← Finset.sum_add_distrib]
    exact Finset.sum_congr rfl fun _ _ => by abel
  have ec : cloverField T U (a + b) = cloverField T U a + cloverField T U b := by
    funext z
    simp only [cloverField, Pi.add_apply, ← Finset.sum_add_distrib]
    refine Finset.sum_congr rfl fun _ _ => Finset.sum_congr rfl fun _ _ => ?_
    split_ifs
    · rw [Matrix.add_mul, Matrix.mul_add, smul_add]
    · simp
  simp only [improvedSpec_eq, eh, ec, smul_add]
  abel

theorem improvedSpec_smul (T : Torus S) (U : GField S N) (κ csw : ℝ) (c : ℂ) (a : SField S N) :
    improvedSpec T U κ csw (c • a) = c • improvedSpec T U κ csw a := by
  have eh : hoppingSpec T U (c • a) = c • hoppingSpec T U a := by
    funext z
    simp only [hoppingSpec, Pi.smul_apply, Matrix.smul_mul, Matrix.mul_smul, Finset.smul_sum, smul_add]
  have ec : cloverField T U (c • a) = c • cloverField T U a := by
    funext z
    simp only [cloverField, Pi.smul_apply, Finset.smul_sum]
    refine Finset.sum_congr rfl fun _ _ => Finset.sum_congr rfl fun _ _ => ?_
    split_ifs
    · rw [Matrix.smul_mul, Matrix.mul_smul, smul_comm]
    · simp
  simp only [improvedSpec_eq, eh, ec, smul_add]
  rw [smul_comm c (-(κ : ℂ)), smul_comm c ((κ * csw : ℝ) : ℂ)]

theorem parity_cases (T : Torus S) (x : S) : siteParity T x = 0 ∨ siteParity T x = 1 := by
  have := siteParity_lt T x; omega

theorem ooMinus_odd (T : Torus S) (U : GField S N) (κ csw : ℝ) (out v : SField S N) (x : S) (hx : siteParity T x = 1) :
    ooMinus T U κ csw out v x = diagSite T U κ csw x (v x) - out x := by
  rw [ooMinus, if_pos hx]
  ext c n
  rw [Matrix.sub_apply, cloverTerm_diag, Matrix.of_apply]
  fin_cases c <;> simp <;> ring

theorem eoFinish_odd (T : Torus S) (g5 : Bool) (out v : SField S N) (x : S) (hx : siteParity T x = 1) :
    eoFinish T g5 out v x = withGamma5 g5 out x := by
  rw [eoFinish, if_neg (by omega)]
  cases g5
  · rfl
  · ext c n
    simp only [if_true, withGamma5, gamma5Field, gamma5_apply, Matrix.of_apply]

variable [DecidableEq S]

theorem evenOddMul_eq (T : Torus S) (hT : EvenExtents T) (U : GField S 3) (κ csw : ℝ) (h : EvenRegular T U κ csw)
    (g5 : Bool) (order : List S) (ho : Visits order) (v : SField S 3) :
    ∃ r, evenOddMul T U κ csw g5 order v = .ok (some r) ∧ (∀ x, siteParity T x = 0 → r x = v x) ∧
      ∀ w : SField S 3, (∀ x, siteParity T x = 1 → w x = v x) →
        (∀ x, siteParity T x = 0 → w x = diagInv T U κ csw x ((κ : ℂ) • hoppingSpec T U v x)) →
        ∀ x, siteParity T x = 1 → r x = withGamma5 g5 (improvedSpec T U κ csw w) x := by
  refine ⟨_, by rw [evenOddMul, eeInverse_eq T U κ csw h]; rfl, ?_, ?_⟩
  · intro x hx; simp only [eoFinish, if_pos hx]
  · intro w hw1 hw0 x hx
    beta_reduce
    rw [eoFinish_odd _ _ _ _ _ hx, withGamma5_apply, withGamma5_apply, ooMinus_odd _ _ _ _ _ _ _ hx,
      eoHopInPlace_eq T hT U κ 1 (by decide) order ho.1 ho.2, eoHop, eoSite_eq _ _ _ _ _ _ hx, improvedSpec_diag, hw1 x hx]
    rw [hopping_parity_neg T hT U _ w 1 x hx]
    · rw [smul_neg, neg_neg]
    · intro y hy
      have hy0 : siteParity T y = 0 := hy
      simp only [if_pos hy0, eoHop, eoSite_eq T U κ 0 v y hy0, diagInv_neg, hw0 y hy0]

end Leonard
