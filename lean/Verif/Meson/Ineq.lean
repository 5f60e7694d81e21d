import Verif.Meson.Props
import Mathlib.LinearAlgebra.Matrix.Kronecker

/-!
# C61: positivity, inequalities and gauge invariance of the meson correlators
-/

set_option autoImplicit false

namespace Leonard

open Matrix

variable {S : Type} {N : ℕ}

theorem gamma4_apply (a b : Fin 4) : tabGamma 3 a b = if b = a + 2 then 1 else 0 := by
  have h : tabGammaT 3 = Matrix.of fun a b : Fin 4 => if b = a + 2 then (1 : GaussianInt) else 0 := by decide +kernel
  have h' : tabGamma 3 a b = GaussianInt.toComplex (tabGammaT 3 a b) := rfl
  rw [h', h, Matrix.of_apply]
  split <;> simp

theorem gamma5gamma4_apply (a b : Fin 4) : tabGamma5Gamma 3 a b = if b = a + 2 then spinSign a else 0 := by
  rw [(C32_derived 3 3).2.2.1, gamma5_left, gamma4_apply]
  split <;> simp

theorem re_conj_mul_bound (a b : ℂ) : |(starRingEnd ℂ a * b).re| ≤ (Complex.normSq a + Complex.normSq b) / 2 := by
  simp only [Complex.mul_re, Complex.conj_re, Complex.conj_im, Complex.normSq_apply]
  rw [abs_le]
  constructor
  · nlinarith [sq_nonneg (a.re + b.re), sq_nonneg (a.im + b.im)]
  · nlinarith [sq_nonneg (a.re - b.re), sq_nonneg (a.im - b.im)]

/-- A contraction with two signed permutations of the spin is bounded by the sum of the squares. -/
theorem site_bound (A B : Fin 4 → Fin 4 → ℂ) (π π' : Equiv.Perm (Fin 4)) (s s' : Fin 4 → ℂ) (hs : ∀ a, s a = 1 ∨ s a = -1) (hs' : ∀ a, s' a = 1 ∨ s' a = -1)
    (hA : ∀ a b, A a b = if b = π a then s a else 0) (hB : ∀ a b, B a b = if b = π' a then s' a else 0) (z : Fin 4 → Fin N → Fin 4 → Fin N → ℂ) :
    |(∑ mu, ∑ nu, ∑ α, ∑ β, ∑ c, ∑ d, A mu nu * B α β * starRingEnd ℂ (z α c mu d) * z β c nu d).re| ≤ ∑ mu, ∑ α, ∑ c, ∑ d, Complex.normSq (z α c mu d) := by
  have e : ∀ mu, ∑ nu, ∑ α, ∑ β, ∑ c, ∑ d, A mu nu * B α β * starRingEnd ℂ (z α c mu d) * z β c nu d
      = ∑ α, ∑ c, ∑ d, s mu * s' α * (starRingEnd ℂ (z α c mu d) * z (π' α) c (π mu) d) := by
    intro mu
    rw [Finset.sum_eq_single (π mu)]
    · refine Finset.sum_congr rfl fun α _ => ?_
      rw [Finset.sum_eq_single (π' α)]
      · simp only [hA, hB, if_true, mul_assoc]
      · intro β _ hβ; simp [hB, hβ]
      · simp
    · intro nu _ hnu; simp [hA, hnu]
    · simp
  simp only [e, Complex.re_sum]
  have hb : ∀ mu α c d, |(s mu * s' α * (starRingEnd ℂ (z α c mu d) * z (π' α) c (π mu) d)).re|
      ≤ (Complex.normSq (z α c mu d) + Complex.normSq (z (π' α) c (π mu) d)) / 2 := by
    intro mu α c d
    refine le_trans (le_of_eq ?_) (re_conj_mul_bound _ _)
    rcases hs mu with h | h <;> rcases hs' α with h' | h' <;> rw [h, h'] <;> simp only [one_mul, mul_one, neg_mul, neg_neg, mul_neg, Complex.neg_re, abs_neg]
  calc _ ≤ ∑ mu, ∑ α, ∑ c, ∑ d, (Complex.normSq (z α c mu d) + Complex.normSq (z (π' α) c (π mu) d)) / 2 :=
        (Finset.abs_sum_le_sum_abs _ _).trans <| Finset.sum_le_sum fun mu _ => (Finset.abs_sum_le_sum_abs _ _).trans <| Finset.sum_le_sum fun α _ =>
          (Finset.abs_sum_le_sum_abs _ _).trans <| Finset.sum_le_sum fun c _ => (Finset.abs_sum_le_sum_abs _ _).trans <| Finset.sum_le_sum fun d _ => hb mu α c d
    _ = ((∑ mu, ∑ α, ∑ c, ∑ d, Complex.normSq (z α c mu d)) + ∑ mu, ∑ α, ∑ c, ∑ d, Complex.normSq (z (π' α) c (π mu) d)) / 2 := by
        simp only [← Finset.sum_add_distrib, Finset.sum_div]
    _ = _ := by
        have h : ∑ mu, ∑ α, ∑ c, ∑ d, Complex.normSq (z (π' α) c (π mu) d) = ∑ mu, ∑ α, ∑ c, ∑ d, Complex.normSq (z α c mu d) := by
          rw [Equiv.sum_comp π fun mu => ∑ α, ∑ c, ∑ d, Complex.normSq (z (π' α) c mu d)]
          exact Finset.sum_congr rfl fun mu _ => Equiv.sum_comp π' fun α => ∑ c, ∑ d, Complex.normSq (z α c mu d)
        rw [h]; ring

section
variable [Fintype S] (T : Torus S) (P : Fin 4 → Fin N → SField S N)

/-- The sum of the squares of the columns at a site. -/
noncomputable def siteSquares (x : S) : ℝ := ∑ mu, ∑ α, ∑ c, ∑ d, Complex.normSq (P α c x mu d)

theorem siteSquares_nonneg (x : S) : 0 ≤ siteSquares P x :=
  Finset.sum_nonneg fun _ _ => Finset.sum_nonneg fun _ _ => Finset.sum_nonneg fun _ _ => Finset.sum_nonneg fun _ _ => Complex.normSq_nonneg _

theorem pionOperator_squares (t : ℕ) : pionOperator T P t = ∑ x, if T.coord x 3 = t then siteSquares P x else 0 := by
  rw [pionOperator]
  have hq : ∀ z : ℂ, (starRingEnd ℂ z * z).re = Complex.normSq z := fun z => by rw [mul_comm, Complex.mul_conj, Complex.ofReal_re]
  simp only [hq]
  calc _ = ∑ α, ∑ x, ∑ c, (if T.coord x 3 = t then ∑ mu, ∑ d, Complex.normSq (P α c x mu d) else 0) := Finset.sum_congr rfl fun α _ => Finset.sum_comm
    _ = ∑ x, ∑ α, ∑ c, (if T.coord x 3 = t then ∑ mu, ∑ d, Complex.normSq (P α c x mu d) else 0) := Finset.sum_comm
    _ = _ := Finset.sum_congr rfl fun x _ => by
      split
      · unfold siteSquares
        calc _ = ∑ α, ∑ mu, ∑ c, ∑ d, Complex.normSq (P α c x mu d) := Finset.sum_congr rfl fun α _ => Finset.sum_comm
          _ = _ := Finset.sum_comm
      · simp

theorem pionOperator_nonneg (t : ℕ) : 0 ≤ pionOperator T P t := by
  rw [pionOperator_squares]
  refine Finset.sum_nonneg fun x _ => ?_
  split
  · exact siteSquares_nonneg P x
  · exact le_rfl

theorem scalarOperator_bound (t : ℕ) : |scalarOperator T P t| ≤ pionOperator T P t := by
  rw [scalarOperator_eq, pionOperator_squares]
  refine (Finset.abs_sum_le_sum_abs _ _).trans (Finset.sum_le_sum fun x _ => ?_)
  split
  · have hs : ∀ a, spinSign a = 1 ∨ spinSign a = -1 := by intro a; unfold spinSign; split <;> simp
    exact site_bound (fun a b => tabGamma5Gamma 3 a b) (fun a b => tabGamma5Gamma 3 a b) (Equiv.addRight 2) (Equiv.addRight 2) spinSign spinSign hs hs
      gamma5gamma4_apply gamma5gamma4_apply fun α c mu d => P α c x mu d
  · simp

theorem psOperator_bound (t : ℕ) : |psOperator T P t| ≤ 2 * pionOperator T P t := by
  rw [psOperator_eq, pionOperator_squares, Finset.mul_sum]
  refine (Finset.abs_sum_le_sum_abs _ _).trans (Finset.sum_le_sum fun x _ => ?_)
  split
  · have h1 := site_bound (fun a b => tabGamma 3 a b) (fun a b => (1 : SpinMat) b a) (Equiv.addRight 2) 1 (fun _ => 1) (fun _ => 1) (fun _ => Or.inl rfl)
      (fun _ => Or.inl rfl) gamma4_apply (fun a b => by by_cases h : b = a <;> simp [one_apply, h]) fun α c mu d => P α c x mu d
    have h2 := site_bound (fun a b => (1 : SpinMat) a b) (fun a b => tabGamma 3 a b) 1 (Equiv.addRight 2) (fun _ => 1) (fun _ => 1) (fun _ => Or.inl rfl)
      (fun _ => Or.inl rfl) (fun a b => by
        by_cases h : b = a
        · simp [one_apply, h]
        · simp [one_apply, h, Ne.symm h]) gamma4_apply fun α c mu d => P α c x mu d
    rw [Complex.sub_re, two_mul]
    exact (abs_sub _ _).trans (add_le_add h1 h2)
  · simp

end

/-- **C61**: whatever the inverter returns, the pion correlator is not negative, and it bounds the other two and the PCAC mass. -/
theorem C61_inequalities [Fintype S] (T : Torus S) (κ : ℝ) (solve : GField S N → SField S N → SField S N)
    (overlap : GField S N → Option (SField S N → SField S N)) (n : ℕ) (U : GField S N) (t : ℕ) {p s q : ℝ}
    (hp : (mesonExecute T κ solve overlap n U).pion[t]? = some p) (hsc : (mesonExecute T κ solve overlap n U).scalar[t]? = some s)
    (hq : (mesonExecute T κ solve overlap n U).ps[t]? = some q) : 0 ≤ p ∧ |s| ≤ p ∧ |q| ≤ 2 * p := by
  simp only [mesonExecute, mesonOutput, List.getElem?_map, Option.map_eq_some_iff] at hp hsc hq
  obtain ⟨a, ha, rfl⟩ := hp
  obtain ⟨b, hb, rfl⟩ := hsc
  obtain ⟨c, hc, rfl⟩ := hq
  obtain rfl : a = b := by rw [ha] at hb; exact Option.some.inj hb
  obtain rfl : a = c := by rw [ha] at hc; exact Option.some.inj hc
  have hk : 0 ≤ 4 * κ * κ := by nlinarith [mul_self_nonneg κ]
  refine ⟨mul_nonneg hk (pionOperator_nonneg T _ _), ?_, ?_⟩
  · rw [abs_mul, abs_of_nonneg hk]
    exact mul_le_mul_of_nonneg_left (scalarOperator_bound T _ _) hk
  · rw [abs_mul, abs_of_nonneg hk, mul_left_comm]
    exact mul_le_mul_of_nonneg_left (psOperator_bound T _ _) hk

theorem range_getElem? {n t a : ℕ} (h : (List.range n)[t]? = some a) : t < n ∧ a = t := by
  obtain ⟨hl, he⟩ := List.getElem?_eq_some_iff.1 h
  rw [List.getElem_range] at he
  exact ⟨by simpa using hl, he.symm⟩

/-- **C61**: the PCAC mass is bounded by the pion correlator at the neighbouring times. -/
theorem C61_pcac_bound [Fintype S] (T : Torus S) (κ : ℝ) (solve : GField S N → SField S N → SField S N)
    (overlap : GField S N → Option (SField S N → SField S N)) (n : ℕ) (U : GField S N) (t : ℕ) {m p₀ p₁ p₂ : ℝ}
    (hm : (mesonExecute T κ solve overlap n U).pcac[t]? = some (some m)) (h0 : (mesonExecute T κ solve overlap n U).pion[t]? = some p₀)
    (h1 : (mesonExecute T κ solve overlap n U).pion[(t + T.ext 3 - 1) % T.ext 3]? = some p₁)
    (h2 : (mesonExecute T κ solve overlap n U).pion[(t + 1) % T.ext 3]? = some p₂) : |m| * (2 * p₀) ≤ p₁ + p₂ := by
  simp only [mesonExecute, mesonOutput, List.getElem?_map, Option.map_eq_some_iff] at hm h0 h1 h2
  obtain ⟨a, ha, hm⟩ := hm
  obtain ⟨b, hb, rfl⟩ := h0
  obtain ⟨c, hc, rfl⟩ := h1
  obtain ⟨d, hd, rfl⟩ := h2
  obtain ⟨ht, rfl⟩ := range_getElem? ha
  obtain ⟨_, rfl⟩ := range_getElem? hb
  obtain ⟨_, rfl⟩ := range_getElem? hc
  obtain ⟨_, rfl⟩ := range_getElem? hd
  rw [prev_time ht, next_time ht] at hm
  generalize (fun (α : Fin 4) (c : Fin N) => constructPropagator (overlap (rotateLinks T n U)) (solve (rotateLinks T n U) (pointSource T α c))) = P at *
  have b1 := psOperator_bound T P ((b + T.ext 3 - 1) % T.ext 3)
  have b2 := psOperator_bound T P ((b + 1) % T.ext 3)
  have hp := pionOperator_nonneg T P b
  generalize psOperator T P ((b + T.ext 3 - 1) % T.ext 3) = q1 at *
  generalize psOperator T P ((b + 1) % T.ext 3) = q2 at *
  generalize pionOperator T P ((b + T.ext 3 - 1) % T.ext 3) = r1 at *
  generalize pionOperator T P ((b + 1) % T.ext 3) = r2 at *
  generalize pionOperator T P b = r0 at *
  split at hm
  · exact absurd hm (by simp)
  · next h =>
    obtain rfl := Option.some.inj hm
    have hr : 0 < r0 := lt_of_le_of_ne hp fun h' => h (by rw [← h', mul_zero])
    have hk : 0 ≤ 4 * κ * κ := by nlinarith [mul_self_nonneg κ]
    have e : |(q1 - q2) / (4 * r0)| * (2 * (4 * κ * κ * r0)) = 4 * κ * κ * (|q1 - q2| / 2) := by
      rw [abs_div, abs_of_pos (by linarith : 0 < 4 * r0)]
      field_simp
      ring
    rw [e, ← mul_add]
    refine mul_le_mul_of_nonneg_left ?_ hk
    have := (abs_sub q1 q2).trans (add_le_add b1 b2)
    linarith

/-- **C61**: for an exact inverter the pion correlator does not vanish. -/
theorem C61_positive [Fintype S] (T : Torus S) {κ : ℝ} (hκ : κ ≠ 0) {D : GField S N → SField S N → SField S N} (hD : IsWilsonType T κ D) {o : S}
    (ho : IsOrigin T o) (hN : 0 < N) (U : GField S N) (n : ℕ) (solve : GField S N → SField S N → SField S N)
    (hs : ∀ b, D (rotateLinks T n U) (solve (rotateLinks T n U) b) = b) : ∃ p ∈ (mesonExecute T κ solve (fun _ => none) n U).pion, 0 < p := by
  classical
  obtain ⟨csw, hD⟩ := hD.spec
  rw [hD] at hs
  have hk : 0 < 4 * κ * κ := by have := mul_self_pos.2 hκ; nlinarith
  let c : Fin N := ⟨0, hN⟩
  have h0 : solve (rotateLinks T n U) (pointSource T 0 c) ≠ 0 := by
    intro h
    have h1 := hs (pointSource T 0 c)
    rw [h, show improvedSpec T (rotateLinks T n U) κ csw 0 = 0 from map_zero (improvedLin T _ κ csw), pointSource_eq ho] at h1
    have h2 := congrFun (congrFun (congrFun h1 o) 0) c
    simp [unitField] at h2
  obtain ⟨x, hx⟩ := Function.ne_iff.1 h0
  obtain ⟨mu, d, hz⟩ : ∃ mu d, solve (rotateLinks T n U) (pointSource T 0 c) x mu d ≠ 0 := by
    by_contra h
    push Not at h
    exact hx (by ext mu d; exact h mu d)
  refine ⟨_, List.mem_map.2 ⟨T.coord x 3, List.mem_range.2 (T.coord_lt 3 x), rfl⟩, mul_pos hk ?_⟩
  rw [pionOperator_squares]
  refine Finset.sum_pos' (fun y _ => ?_) ⟨x, Finset.mem_univ x, ?_⟩
  · split
    · exact siteSquares_nonneg _ y
    · exact le_rfl
  · rw [if_pos rfl]
    refine Finset.sum_pos' (fun _ _ => Finset.sum_nonneg fun _ _ => Finset.sum_nonneg fun _ _ => Finset.sum_nonneg fun _ _ => Complex.normSq_nonneg _)
      ⟨mu, Finset.mem_univ _, Finset.sum_pos' (fun _ _ => Finset.sum_nonneg fun _ _ => Finset.sum_nonneg fun _ _ => Complex.normSq_nonneg _)
        ⟨0, Finset.mem_univ _, Finset.sum_pos' (fun _ _ => Finset.sum_nonneg fun _ _ => Complex.normSq_nonneg _)
          ⟨c, Finset.mem_univ _, Finset.sum_pos' (fun _ _ => Complex.normSq_nonneg _) ⟨d, Finset.mem_univ _, Complex.normSq_pos.2 hz⟩⟩⟩⟩

/-! ### Gauge invariance -/

/-- A colour matrix on spinors. -/
noncomputable def colorMat (W : Mat N) : Matrix (Fin 4 × Fin N) (Fin 4 × Fin N) ℂ := kroneckerMap (· * ·) (1 : SpinMat) W

theorem colorMat_mul (A B : Mat N) : colorMat A * colorMat B = colorMat (A * B) := by
  unfold colorMat
  have h := mul_kronecker_mul (1 : SpinMat) (1 : SpinMat) A B
  rw [Matrix.one_mul] at h
  exact h.symm

theorem colorMat_one : colorMat (1 : Mat N) = 1 := one_kronecker_one

theorem colorMat_comm (Γ : SpinMat) (W : Mat N) : colorMat W * kroneckerMap (· * ·) Γ (1 : Mat N) = kroneckerMap (· * ·) Γ (1 : Mat N) * colorMat W := by
  unfold colorMat
  have h1 := mul_kronecker_mul (1 : SpinMat) Γ W (1 : Mat N)
  have h2 := mul_kronecker_mul Γ (1 : SpinMat) (1 : Mat N) W
  rw [Matrix.one_mul, Matrix.mul_one] at h1 h2
  exact h1.symm.trans h2

theorem trace_gauge {Γ₁ Γ₂ : SpinMat} {A B : Matrix (Fin 4 × Fin N) (Fin 4 × Fin N) ℂ} {X Y : Mat N} (hX : Xᴴ * X = 1) (hY : Yᴴ * Y = 1) :
    trace (kroneckerMap (· * ·) Γ₁ (1 : Mat N) * (colorMat X * A * colorMat Yᴴ) * kroneckerMap (· * ·) Γ₂ (1 : Mat N) * (colorMat Y * B * colorMat Xᴴ))
      = trace (kroneckerMap (· * ·) Γ₁ (1 : Mat N) * A * kroneckerMap (· * ·) Γ₂ (1 : Mat N) * B) := by
  have hx : colorMat Xᴴ * colorMat X = 1 := by rw [colorMat_mul, hX, colorMat_one]
  have hy : colorMat Yᴴ * colorMat Y = 1 := by rw [colorMat_mul, hY, colorMat_one]
  have c1 := colorMat_comm Γ₁ X
  have c2 := colorMat_comm Γ₂ Yᴴ
  generalize kroneckerMap (· * ·) Γ₁ (1 : Mat N) = K₁ at *
  generalize kroneckerMap (· * ·) Γ₂ (1 : Mat N) = K₂ at *
  generalize colorMat X = a at *
  generalize colorMat Xᴴ = a' at *
  generalize colorMat Y = b at *
  generalize colorMat Yᴴ = b' at *
  have e : K₁ * (a * A * b') * K₂ * (b * B * a') = a * (K₁ * A * K₂ * B * a') := by
    calc K₁ * (a * A * b') * K₂ * (b * B * a') = (K₁ * a) * A * (b' * K₂) * b * B * a' := by simp only [Matrix.mul_assoc]
      _ = a * K₁ * A * (K₂ * b') * b * B * a' := by rw [c1, c2]
      _ = a * K₁ * A * K₂ * (b' * b) * B * a' := by simp only [Matrix.mul_assoc]
      _ = _ := by rw [hy]; simp only [Matrix.mul_assoc, Matrix.one_mul]
  rw [e, trace_mul_comm, Matrix.mul_assoc, hx, Matrix.mul_one]

theorem green_gauge [DecidableEq S] {T : Torus S} {U : GField S N} {κ csw : ℝ} {G : S → S → Matrix (Fin 4 × Fin N) (Fin 4 × Fin N) ℂ}
    (hG : IsGreen (improvedSpec T U κ csw) G) {ω : S → Mat N} (hω : ∀ x, (ω x)ᴴ * ω x = 1) :
    IsGreen (improvedSpec T (gaugeTransform T ω U) κ csw) fun x y => colorMat (ω x) * G x y * colorMat (ω y)ᴴ := by
  have hω' : ∀ x, ω x * (ω x)ᴴ = 1 := fun x => mul_eq_one_comm.1 (hω x)
  rintro y ⟨α, c⟩
  have hv : (fun x => Matrix.of fun mu i => (colorMat (ω x) * G x y * colorMat (ω y)ᴴ) (mu, i) (α, c))
      = spinorTransform ω (∑ k, starRingEnd ℂ (ω y c k) • fun x => Matrix.of fun mu i => G x y (mu, i) (α, k)) := by
    funext x
    ext mu i
    have h1 : ∀ (M : Matrix (Fin 4 × Fin N) (Fin 4 × Fin N) ℂ) (W : Mat N) p, (M * colorMat W) p (α, c) = ∑ k, M p (α, k) * W k c := by
      intro M W p
      rw [Matrix.mul_apply, Fintype.sum_prod_type, Finset.sum_eq_single α]
      · simp [colorMat, kroneckerMap_apply]
      · intro β _ hβ; simp [colorMat, kroneckerMap_apply, one_apply, hβ]
      · simp
    have h2 : ∀ (M : Matrix (Fin 4 × Fin N) (Fin 4 × Fin N) ℂ) (W : Mat N) q, (colorMat W * M) (mu, i) q = ∑ l, W i l * M (mu, l) q := by
      intro M W q
      rw [Matrix.mul_apply, Fintype.sum_prod_type, Finset.sum_eq_single mu]
      · simp [colorMat, kroneckerMap_apply]
      · intro β _ hβ; simp [colorMat, kroneckerMap_apply, one_apply, Ne.symm hβ]
      · simp
    rw [Matrix.of_apply, h1]
    simp only [h2]
    simp only [Matrix.of_apply, spinorTransform, Matrix.mul_apply, transpose_apply, Finset.sum_apply, Pi.smul_apply, Matrix.sum_apply,
      Matrix.smul_apply, smul_eq_mul, conjTranspose_apply, Finset.sum_mul, Complex.star_def]
    rw [Finset.sum_comm]
    exact Finset.sum_congr rfl fun l _ => Finset.sum_congr rfl fun k _ => by ring
  have hl : improvedSpec T U κ csw (∑ k, starRingEnd ℂ (ω y c k) • fun x => Matrix.of fun mu i => G x y (mu, i) (α, k))
      = ∑ k, starRingEnd ℂ (ω y c k) • unitField y (α, k) := by
    have h := map_sum (improvedLin T U κ csw) (fun k => starRingEnd ℂ (ω y c k) • fun x => Matrix.of fun mu i => G x y (mu, i) (α, k)) Finset.univ
    simp only [map_smul] at h
    refine h.trans (Finset.sum_congr rfl fun k _ => ?_)
    exact congrArg _ (hG y (α, k))
  rw [hv, improved_gauge T U ω hω hω', hl]
  funext x
  ext mu i
  simp only [spinorTransform, Matrix.mul_apply, transpose_apply, Finset.sum_apply, Pi.smul_apply, Matrix.sum_apply, Matrix.smul_apply, smul_eq_mul,
    unitField, Matrix.of_apply, Prod.mk.injEq]
  by_cases hxy : x = y ∧ mu = α
  · obtain ⟨rfl, rfl⟩ := hxy
    have h := congrFun (congrFun (hω' x) i) c
    rw [Matrix.mul_apply, one_apply] at h
    simp only [conjTranspose_apply, Complex.star_def] at h
    simp only [true_and]
    rw [← h]
    refine Finset.sum_congr rfl fun k _ => ?_
    rw [Finset.sum_eq_single k]
    · simp [mul_comm]
    · intro l _ hl; simp [Ne.symm hl]
    · simp
  · have : ∀ k : Fin N, ¬(x = y ∧ mu = α ∧ k = c) := fun k h => hxy ⟨h.1, h.2.1⟩
    have h' : ∀ k l : Fin N, ¬(x = y ∧ mu = α ∧ k = l) := fun k l h => hxy ⟨h.1, h.2.1⟩
    simp [h']

theorem green_exists [DecidableEq S] {D solve : SField S N → SField S N} (hs : ∀ b, D (solve b) = b) :
    IsGreen D fun x y => Matrix.of fun p q => solve (unitField y q) x p.1 p.2 := by
  intro y j
  exact hs (unitField y j)

theorem rotateLinks_gauge (T : Torus S) (ω : S → Mat N) (n : ℕ) (U : GField S N) :
    rotateLinks T n (gaugeTransform T ω U) = gaugeTransform T (fun x => ω ((T.sup 3)^[n] x)) (rotateLinks T n U) := by
  rw [rotateLinks_eq, rotateLinks_eq]
  funext x mu
  have hc : Function.Commute (T.sup 3) (T.sup mu) := fun s => T.comm 3 mu s
  have h : T.sup mu ((T.sup 3)^[n] x) = (T.sup 3)^[n] (T.sup mu x) := ((hc.iterate_left n) x).symm
  simp only [gaugeTransform, h]

/-- **C61**: with an exact inverter nothing that is written depends on the gauge. -/
theorem C61_gauge [Fintype S] (T : Torus S) {κ : ℝ} {D : GField S N → SField S N → SField S N} (hD : IsWilsonType T κ D) {o : S}
    (ho : IsOrigin T o) (U : GField S N) (n : ℕ) (solve : GField S N → SField S N → SField S N) {ω : S → Mat N} (hω : ∀ x, (ω x)ᴴ * ω x = 1)
    (hs : ∀ b, D (rotateLinks T n U) (solve (rotateLinks T n U) b) = b)
    (hs' : ∀ b, D (rotateLinks T n (gaugeTransform T ω U)) (solve (rotateLinks T n (gaugeTransform T ω U)) b) = b) :
    mesonExecute T κ solve (fun _ => none) n (gaugeTransform T ω U) = mesonExecute T κ solve (fun _ => none) n U := by
  classical
  obtain ⟨csw, hD⟩ := hD.spec
  rw [hD] at hs hs'
  have hG := green_exists hs
  have hG' := green_gauge hG (ω := fun x => ω ((T.sup 3)^[n] x)) fun x => hω _
  rw [← rotateLinks_gauge] at hG'
  have k := operators_green ho hs hG
  have k' := operators_green ho hs' hG'
  have ht : ∀ (G : S → S → Matrix (Fin 4 × Fin N) (Fin 4 × Fin N) ℂ) (Γ₁ Γ₂ : SpinMat) (x y : S),
      siteTrace (fun x y => colorMat (ω ((T.sup 3)^[n] x)) * G x y * colorMat (ω ((T.sup 3)^[n] y))ᴴ) Γ₁ Γ₂ x y = siteTrace G Γ₁ Γ₂ x y :=
    fun G Γ₁ Γ₂ x y => trace_gauge (hω _) (hω _)
  simp only [ht] at k'
  unfold mesonExecute mesonOutput
  simp only [(k _).1, (k _).2.1, (k _).2.2, (k' _).1, (k' _).2.1, (k' _).2.2]

end Leonard
