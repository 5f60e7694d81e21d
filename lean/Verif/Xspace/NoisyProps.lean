import Verif.Xspace.Noisy

/-!
# C96: connected correlators of points from noise
-/

set_option autoImplicit false

namespace Leonard

open Matrix

noncomputable section

variable {S : Type} {N : ℕ}

theorem chroma8_gamma3 : tabChroma 8 = tabGamma 3 := by
  rw [C32_chroma 8]
  have a0 : (8 : Fin 16).val.testBit 0 = false := by decide
  have a1 : (8 : Fin 16).val.testBit 1 = false := by decide
  have a2 : (8 : Fin 16).val.testBit 2 = false := by decide
  have a3 : (8 : Fin 16).val.testBit 3 = true := by decide
  rw [a0, a1, a2, a3]
  simp

/-- Four signs of which the first two are different. -/
theorem average_eta_pair {J : Type} [Fintype J] [DecidableEq J] {a b : J} (h : a ≠ b) (z w : J) :
    average (fun r : J → Bool => eta r a * eta r b * (eta r z * eta r w)) = (if a = z ∧ b = w then 1 else 0) + if a = w ∧ b = z then 1 else 0 := by
  by_cases hzw : z = w
  · subst hzw
    have e : (fun r : J → Bool => eta r a * eta r b * (eta r z * eta r z)) = fun r => eta r a * eta r b := by
      funext r; rw [eta_sq, mul_one]
    rw [e, average_eta_two, if_neg h]
    have : ¬ (a = z ∧ b = z) := fun k => h (k.1.trans k.2.symm)
    rw [if_neg this, add_zero]
  · exact average_eta_four h hzw

/-- The mean of two signs at different places with the components of two solutions. -/
theorem average_solutions {J : Type} [Fintype J] [DecidableEq J] (A : Matrix J J ℂ) {a b : J} (h : a ≠ b) (p q : J) :
    average (fun r : J → Bool => eta r a * eta r b * ((∑ z, A p z * eta r z) * ∑ w, A q w * eta r w)) = A p a * A q b + A p b * A q a := by
  have e : (fun r : J → Bool => eta r a * eta r b * ((∑ z, A p z * eta r z) * ∑ w, A q w * eta r w))
      = fun r => ∑ z, ∑ w, A p z * A q w * (eta r a * eta r b * (eta r z * eta r w)) := by
    funext r
    rw [Finset.sum_mul_sum, Finset.mul_sum]
    refine Finset.sum_congr rfl fun z _ => ?_
    rw [Finset.mul_sum]
    exact Finset.sum_congr rfl fun w _ => by ring
  rw [e, average_sum]
  simp only [average_sum, average_mul, average_eta_pair h, mul_add, Finset.sum_add_distrib]
  congr 1
  · rw [Finset.sum_eq_single a, Finset.sum_eq_single b]
    · simp
    · intro w _ hw; simp [Ne.symm hw]
    · simp
    · intro z _ hz; exact Finset.sum_eq_zero fun w _ => by simp [Ne.symm hz]
    · simp
  · rw [Finset.sum_eq_single b, Finset.sum_eq_single a]
    · simp
    · intro w _ hw; simp [Ne.symm hw]
    · simp
    · intro z _ hz; exact Finset.sum_eq_zero fun w _ => by simp [Ne.symm hz]
    · simp

theorem trace_one_kron (Γ : SpinMat) (G : Matrix (Fin 4 × Fin N) (Fin 4 × Fin N) ℂ) :
    trace (kroneckerMap (· * ·) Γ (1 : Mat N) * G) = ∑ mu, ∑ nu, ∑ c, Γ mu nu * G (nu, c) (mu, c) := by
  simp only [trace, diag, Fintype.sum_prod_type, Matrix.mul_apply, kroneckerMap_apply, one_apply, mul_ite, mul_one, mul_zero, ite_mul, zero_mul,
    Finset.sum_ite_eq, Finset.mem_univ, if_true]
  exact Finset.sum_congr rfl fun mu _ => Finset.sum_comm

theorem trace_two_kron (Γ Γ' : SpinMat) (G H : Matrix (Fin 4 × Fin N) (Fin 4 × Fin N) ℂ) :
    trace (kroneckerMap (· * ·) Γ (1 : Mat N) * G * kroneckerMap (· * ·) Γ' (1 : Mat N) * H)
      = ∑ mu, ∑ nu, ∑ α, ∑ β, ∑ c1, ∑ c2, Γ mu nu * Γ' α β * (G (nu, c1) (α, c2) * H (β, c2) (mu, c1)) := by
  have e : ∀ (K : Matrix (Fin 4 × Fin N) (Fin 4 × Fin N) ℂ) (q : Fin 4 × Fin N) (mu : Fin 4) (c : Fin N),
      (kroneckerMap (· * ·) Γ' (1 : Mat N) * K) (mu, c) q = ∑ β, Γ' mu β * K (β, c) q := by
    intro K q mu c
    simp only [Matrix.mul_apply, Fintype.sum_prod_type, kroneckerMap_apply, one_apply, mul_ite, mul_one, mul_zero, ite_mul, zero_mul,
      Finset.sum_ite_eq, Finset.mem_univ, if_true]
  rw [Matrix.mul_assoc, Matrix.mul_assoc, trace_one_kron]
  refine Finset.sum_congr rfl fun mu _ => Finset.sum_congr rfl fun nu _ => ?_
  have h : ∀ c1, Γ mu nu * (G * (kroneckerMap (· * ·) Γ' (1 : Mat N) * H)) (nu, c1) (mu, c1)
      = ∑ α, ∑ β, ∑ c2, Γ mu nu * Γ' α β * (G (nu, c1) (α, c2) * H (β, c2) (mu, c1)) := by
    intro c1
    rw [Matrix.mul_apply, Fintype.sum_prod_type, Finset.mul_sum]
    refine Finset.sum_congr rfl fun α _ => ?_
    rw [Finset.mul_sum, Finset.sum_comm]
    refine Finset.sum_congr rfl fun c2 _ => ?_
    rw [e, Finset.mul_sum, Finset.mul_sum]
    exact Finset.sum_congr rfl fun β _ => by ring
  simp only [h]
  rw [Finset.sum_comm]
  refine Finset.sum_congr rfl fun α _ => ?_
  rw [Finset.sum_comm]

theorem trace_kron_mul (Γ Γ' : SpinMat) (G H : Matrix (Fin 4 × Fin N) (Fin 4 × Fin N) ℂ) :
    trace (kroneckerMap (· * ·) Γ (1 : Mat N) * G) * trace (kroneckerMap (· * ·) Γ' (1 : Mat N) * H)
      = ∑ mu, ∑ nu, ∑ α, ∑ β, ∑ c1, ∑ c2, Γ mu nu * Γ' α β * (G (nu, c1) (mu, c1) * H (β, c2) (α, c2)) := by
  simp only [trace_one_kron, Finset.sum_mul]
  refine Finset.sum_congr rfl fun mu _ => Finset.sum_congr rfl fun nu _ => ?_
  have h : ∀ c1, Γ mu nu * G (nu, c1) (mu, c1) * (∑ α, ∑ β, ∑ c2, Γ' α β * H (β, c2) (α, c2))
      = ∑ α, ∑ β, ∑ c2, Γ mu nu * Γ' α β * (G (nu, c1) (mu, c1) * H (β, c2) (α, c2)) := by
    intro c1
    simp only [Finset.mul_sum]
    exact Finset.sum_congr rfl fun α _ => Finset.sum_congr rfl fun β _ => Finset.sum_congr rfl fun c2 _ => by ring
  simp only [h]
  rw [Finset.sum_comm]
  refine Finset.sum_congr rfl fun α _ => ?_
  rw [Finset.sum_comm]

/-- **Specification.** The connected correlator of the sites `x` and `y`: `tr(Γ G(x,y) γ₄Γ†γ₄ G(y,x))`. -/
def connectedAt (G : S → S → Matrix (Fin 4 × Fin N) (Fin 4 × Fin N) ℂ) (v : Fin 16) (x y : S) : ℂ :=
  trace (kroneckerMap (· * ·) (gammaBits v) (1 : Mat N) * G x y * kroneckerMap (· * ·) (tabGamma 3 * (gammaBits v)ᴴ * tabGamma 3) (1 : Mat N) * G y x)

/-- **Specification.** The disconnected correlator of the sites `x` and `y`: `tr(Γ G(x,x)) tr(γ₄Γ†γ₄ G(y,y))`. -/
def disconnectedAt (G : S → S → Matrix (Fin 4 × Fin N) (Fin 4 × Fin N) ℂ) (v : Fin 16) (x y : S) : ℂ :=
  trace (kroneckerMap (· * ·) (gammaBits v) (1 : Mat N) * G x x) * trace (kroneckerMap (· * ·) (tabGamma 3 * (gammaBits v)ᴴ * tabGamma 3) (1 : Mat N) * G y y)

/-- The mean of the number of two different sites. -/
theorem average_noisySite [Fintype S] [DecidableEq S] (T : Torus S) {κ : ℝ} {D Q : GField S N → SField S N → SField S N} (hQ : IsHermitianWilson T κ D Q)
    (U : GField S N) (solveSq : SField S N → SField S N) (hs : ∀ b, Q U (Q U (solveSq b)) = b)
    {G : S → S → Matrix (Fin 4 × Fin N) (Fin 4 × Fin N) ℂ} (hG : IsGreen (D U) G) {x y : S} (hxy : x ≠ y) (v : Fin 16) :
    average (fun r : Noise S N => xspaceNoisySite v (randomNoise r x) (xspaceInverse (Q U) solveSq (randomNoise r) x) (randomNoise r y)
      (xspaceInverse (Q U) solveSq (randomNoise r) y)) = connectedAt G v x y + disconnectedAt G v x y := by
  obtain ⟨csw, hD⟩ := hQ.left.spec
  have hsol := C77_solve T hQ U solveSq hs
  rw [hD] at hG hsol
  have hterm : ∀ (mu nu α β : Fin 4) (c1 c2 : Fin N), average (fun r : Noise S N => tabChroma v mu nu * starRingEnd ℂ (randomNoise r y α c2)
        * xspaceInverse (Q U) solveSq (randomNoise r) x nu c1 * xspaceAdjoint v α β * starRingEnd ℂ (randomNoise r x mu c1)
        * xspaceInverse (Q U) solveSq (randomNoise r) y β c2)
      = tabChroma v mu nu * xspaceAdjoint v α β * (G x y (nu, c1) (α, c2) * G y x (β, c2) (mu, c1))
        + tabChroma v mu nu * xspaceAdjoint v α β * (G x x (nu, c1) (mu, c1) * G y y (β, c2) (α, c2)) := by
    intro mu nu α β c1 c2
    have hne : ((y, α, c2) : S × Fin 4 × Fin N) ≠ (x, mu, c1) := fun h => hxy (congrArg Prod.fst h).symm
    have h := average_solutions (greenMatrix G) hne (x, nu, c1) (y, β, c2)
    have e : (fun r : Noise S N => tabChroma v mu nu * starRingEnd ℂ (randomNoise r y α c2)
          * xspaceInverse (Q U) solveSq (randomNoise r) x nu c1 * xspaceAdjoint v α β * starRingEnd ℂ (randomNoise r x mu c1)
          * xspaceInverse (Q U) solveSq (randomNoise r) y β c2)
        = fun r => tabChroma v mu nu * xspaceAdjoint v α β * (eta (noiseEquiv r) (y, α, c2) * eta (noiseEquiv r) (x, mu, c1)
          * ((∑ z, greenMatrix G (x, nu, c1) z * eta (noiseEquiv r) z) * ∑ w, greenMatrix G (y, β, c2) w * eta (noiseEquiv r) w)) := by
      funext r
      rw [solve_green hsol hG, solve_green hsol hG]
      simp only [randomNoise_apply, eta_conj]
      ring
    rw [e, average_mul, average_equiv noiseEquiv (fun b => eta b (y, α, c2) * eta b (x, mu, c1)
          * ((∑ z, greenMatrix G (x, nu, c1) z * eta b z) * ∑ w, greenMatrix G (y, β, c2) w * eta b w)), h]
    simp only [greenMatrix, Matrix.of_apply]
    ring
  have hv : gammaBits v = tabChroma v := (C32_chroma v).symm
  have ha : tabGamma 3 * (tabChroma v)ᴴ * tabGamma 3 = xspaceAdjoint v := by rw [xspaceAdjoint, chroma8_gamma3]
  unfold connectedAt disconnectedAt xspaceNoisySite
  rw [hv, trace_two_kron, trace_kron_mul, ha]
  simp only [average_sum, hterm, Finset.sum_add_distrib]

/-- **C96** (part): the mean over the noise of each number which is written for a point other than the starting point. It is not the connected correlator of the pairs
of sites at this distance, but the sum of the connected and the disconnected one: the same noise vector serves for both propagators. -/
theorem C96_mean_partial [Fintype S] [DecidableEq S] (T : Torus S) (hT : Function.Injective T.coord) {κ : ℝ} {D Q : GField S N → SField S N → SField S N}
    (hQ : IsHermitianWilson T κ D Q) (U : GField S N) (solveSq : SField S N → SField S N) (hs : ∀ b, Q U (Q U (solveSq b)) = b)
    {G : S → S → Matrix (Fin 4 × Fin N) (Fin 4 × Fin N) ℂ} (hG : IsGreen (D U) G) {n : ℕ} (k : Fin n) (i : ℕ) (hi : i < xspacePoints.length)
    (h0 : ∃ μ, ¬ T.ext μ ∣ xspacePoints[i] μ) (v : Fin 16) :
    average (fun rs : Fin n → Noise S N => (((xspaceStochastic T κ (Q U) solveSq rs)[i]?.bind fun p => p.2[v.val]?).bind fun l => l[k.val]?).getD 0)
      = 4 * (κ : ℂ) ^ 2 * ∑ x, ∑ y, if ∀ μ, T.coord y μ = (T.coord x μ + xspacePoints[i] μ) % T.ext μ then connectedAt G v x y + disconnectedAt G v x y else 0 := by
  have h1 : ∀ rs : Fin n → Noise S N, (((xspaceStochastic T κ (Q U) solveSq rs)[i]?.bind fun p => p.2[v.val]?).bind fun l => l[k.val]?).getD 0
      = 4 * κ * κ * xspaceNoisy T (Q U) solveSq (rs k) xspacePoints[i] v := by
    intro rs
    unfold xspaceStochastic
    rw [List.getElem?_map, List.getElem?_eq_getElem hi]
    simp only [Option.map_some, Option.bind_some, List.getElem?_map]
    rw [List.getElem?_eq_getElem (by rw [List.length_finRange]; exact v.isLt), List.getElem_finRange]
    simp only [Option.map_some, Option.bind_some, List.getElem?_map]
    rw [List.getElem?_eq_getElem (by rw [List.length_finRange]; exact k.isLt), List.getElem_finRange]
    rfl
  simp only [h1]
  rw [average_mul, average_one (n := n) (fun r => xspaceNoisy T (Q U) solveSq r xspacePoints[i] v) k, pow_two, ← mul_assoc]
  congr 1
  unfold xspaceNoisy
  simp only [average_sum]
  refine Finset.sum_congr rfl fun x _ => ?_
  have hne : x ≠ xspaceShift T xspacePoints[i] x := by
    intro h
    obtain ⟨μ, hμ⟩ := h0
    have e := C77_shift T xspacePoints[i] x μ
    rw [← h] at e
    apply hμ
    have hm : T.coord x μ ≡ T.coord x μ + xspacePoints[i] μ [MOD T.ext μ] := by
      unfold Nat.ModEq
      rw [← e, Nat.mod_eq_of_lt (T.coord_lt μ x)]
    exact (Nat.modEq_zero_iff_dvd).1 (Nat.ModEq.add_left_cancel' (T.coord x μ) (by simpa using hm)).symm
  rw [average_noisySite T hQ U solveSq hs hG hne v, Finset.sum_eq_single (xspaceShift T xspacePoints[i] x)]
  · rw [if_pos (C77_shift T _ x)]
  · intro y _ hy
    rw [if_neg]
    intro h
    exact hy (hT (funext fun μ => by rw [h μ, C77_shift]))
  · simp

end

end Leonard
