import Verif.Mgsolve.Model
import Verif.Multigrid.Props
import Verif.Sap.Gmres

/-!
# C95: the multigrid solver converges
-/

set_option autoImplicit false

namespace Leonard

open Matrix

/-! ### Lemmas: the outer iteration -/

section outer

open Vec

variable {V : Type} [AddCommGroup V] [Module ℂ V] [Vec V]

theorem norm2_sub_real (v w : V) : norm2 (v - w) = norm2 v - 2 * (dot w v).re + norm2 w := by
  unfold norm2
  rw [dot_sub, sub_dot, sub_dot]
  have h : (dot v w).re = (dot w v).re := by rw [← dot_conj w v, Complex.conj_re]
  simp only [Complex.sub_re]
  rw [h]; ring

/-- The best multiple of a direction is at least as good as the direction itself. -/
theorem norm2_best (r a : V) (ha : 0 < norm2 a) : norm2 r - Complex.normSq (dot a r) / norm2 a ≤ norm2 (r - a) := by
  rw [norm2_sub_real]
  have h1 : (dot a r).re ^ 2 ≤ Complex.normSq (dot a r) := by
    rw [Complex.normSq_apply]; nlinarith [mul_self_nonneg (dot a r).im]
  have h2 : 2 * (dot a r).re - norm2 a ≤ Complex.normSq (dot a r) / norm2 a := by
    rw [le_div_iff₀ ha]
    nlinarith [sq_nonneg ((dot a r).re - norm2 a)]
  linarith

/-- If the corrections `P k r` reduce the squared residual by a factor `ρ < 1`, so does every step of the multigrid solver. -/
theorem mgLoop_rate {A : V → V} (hA : Linear A) {P : ℕ → V → V} {ρ : ℝ} (hρ : ρ < 1) (hP : ∀ k r, norm2 (r - A (P k r)) ≤ ρ * norm2 r)
    {b : V} {bound prec : ℝ} (hprec : 0 < prec) (ms : ℕ) :
    ∀ (n k : ℕ) (st : GmresState V), GmresInv A b bound 15 k st → GmresOrth st.c st.r (k % 15) → st.r ≠ 0 → 0 < n →
      ρ ^ n * norm2 st.r < prec →
      ∃ y s, mgLoop A P prec ms n k st = (some y, s) ∧ norm2 (b - A y) < prec ∧ k ≤ s ∧ s < k + n := by
  intro n
  induction n with
  | zero => intro _ _ _ _ _ h0; omega
  | succ n ih =>
    intro k st hi ho hr _ hn
    have hr0 := norm2_pos hr
    have hPk := hP k st.r
    have hlt : norm2 (st.r - A (P k st.r)) < norm2 st.r := lt_of_le_of_lt hPk (by nlinarith)
    have hw : dot (A (P k st.r)) st.r ≠ 0 := by
      intro h0
      rw [norm2_sub_real, h0, Complex.zero_re] at hlt
      linarith [norm2_nonneg (A (P k st.r))]
    obtain ⟨st', hs, ho', hred⟩ := gmresStep_reduces ho hw
    have hA0 : 0 < norm2 (A (P k st.r)) := norm2_pos (fun h0 => hw (by rw [h0, zero_dot]))
    have hfac : norm2 st'.r ≤ ρ * norm2 st.r := hred.trans ((norm2_best _ _ hA0).trans hPk)
    have hρ0 : 0 ≤ ρ := by
      by_contra hc
      have := mul_neg_of_neg_of_pos (not_le.mp hc) hr0
      linarith [norm2_nonneg st'.r]
    have hi' := gmresStep_inv hA (by omega) _ hi hs
    simp only [mgLoop]
    rw [hs]
    by_cases hp : norm2 st'.r < prec
    · simp only [hp, if_true]
      exact ⟨_, _, rfl, by rw [← hi'.res]; exact hp, le_rfl, by omega⟩
    · simp only [hp, if_false]
      have hn0 : 0 < n := by
        rcases Nat.eq_zero_or_pos n with h0 | h0
        · subst h0
          exact absurd (lt_of_le_of_lt hfac (by simpa using hn)) hp
        · exact h0
      have hmod : GmresOrth st'.c st'.r ((k + 1) % 15) := by
        by_cases hm : k % 15 + 1 = 15
        · have : (k + 1) % 15 = 0 := by omega
          rw [this]
          exact ⟨fun i hi => absurd hi (by omega), fun i hi => absurd hi (by omega), fun i hi => absurd hi (by omega)⟩
        · have : (k + 1) % 15 = k % 15 + 1 := by omega
          rw [this]; exact ho'
      have hne : st'.r ≠ 0 := by
        intro h0
        rw [h0, norm2_zero] at hp
        exact hp hprec
      have hpow : ρ ^ n * norm2 st'.r < prec := by
        refine lt_of_le_of_lt ?_ hn
        rw [pow_succ ρ n, mul_assoc]
        exact mul_le_mul_of_nonneg_left hfac (pow_nonneg hρ0 n)
      obtain ⟨y, s, h1, h2, h3, h4⟩ := ih (k + 1) st' hi' hmod hne hn0 hpow
      exact ⟨y, s, h1, h2, by omega, by omega⟩

end outer

/-! ### Lemmas: the coarse correction -/

/-- What is left of `r` after a correction `m` from a subspace, `w` being the part of the operator beside the identity and `p` the remaining part of
the residual in the subspace. -/
theorem coarse_residual {E : Type} [NormedAddCommGroup E] [InnerProductSpace ℂ E] {r m w p s : E} {h η : ℝ} (h1 : h < 1) (h0 : 0 ≤ h)
    (hs : s = r - (m + w)) (hw : ‖w‖ ≤ h * ‖m‖) (hp : ‖p‖ ≤ η * ‖r‖) (hm : inner ℂ m (s - p) = 0) (hp0 : inner ℂ p (s - p) = 0) :
    ‖s‖ ≤ (1 + η) / (1 - h) * ‖r‖ := by
  have key : ∀ a b : E, inner ℂ a a = inner ℂ a b → ‖a‖ ≤ ‖b‖ := by
    intro a b hab
    have e1 : ‖inner ℂ a a‖ = ‖a‖ ^ 2 := by rw [inner_self_eq_norm_sq_to_K, norm_pow]; simp
    have e2 : ‖a‖ ^ 2 ≤ ‖a‖ * ‖b‖ := by rw [← e1, hab]; exact norm_inner_le_norm _ _
    rcases (norm_nonneg a).eq_or_lt with h | h
    · rw [← h]; exact norm_nonneg _
    · nlinarith
  have hmb : ‖m‖ ≤ ‖r‖ + h * ‖m‖ + η * ‖r‖ := by
    have e : m = (r - w - p) - (s - p) := by rw [hs]; abel
    have h2 : ‖m‖ ≤ ‖r - w - p‖ := key _ _ (by
      conv_lhs => rw [show inner ℂ m m = inner ℂ m ((r - w - p) - (s - p)) from by rw [← e]]
      rw [inner_sub_right, hm, sub_zero])
    have h3 := norm_sub_le (r - w) p
    have h4 := norm_sub_le r w
    linarith
  have ht : ‖s - p‖ ≤ ‖r‖ + h * ‖m‖ := by
    have e : s - p = (r - w) - (m + p) := by rw [hs]; abel
    have hm' : inner ℂ (s - p) m = 0 := by rw [← inner_conj_symm, hm, map_zero]
    have hp' : inner ℂ (s - p) p = 0 := by rw [← inner_conj_symm, hp0, map_zero]
    have h2 : ‖s - p‖ ≤ ‖r - w‖ := key _ _ (by
      conv_lhs => rw [show inner ℂ (s - p) (s - p) = inner ℂ (s - p) ((r - w) - (m + p)) from by rw [← e]]
      rw [inner_sub_right, inner_add_right, hm', hp', add_zero, sub_zero])
    have h4 := norm_sub_le r w
    linarith
  have hs' : ‖s‖ ≤ ‖r‖ + h * ‖m‖ + η * ‖r‖ := by
    have := norm_add_le (s - p) p
    rw [sub_add_cancel] at this
    linarith
  have hm2 : (1 - h) * ‖m‖ ≤ (1 + η) * ‖r‖ := by linarith
  rw [div_mul_eq_mul_div, le_div_iff₀ (by linarith)]
  nlinarith

variable {S R : Type} [Fintype S] [Fintype R] [DecidableEq R] {N : ℕ}

theorem inner_unflat (a b : S → Fin 4 × Fin N → ℂ) : inner ℂ (toE (unflatField a)) (toE (unflatField b)) = fineDot a b := by
  rw [inner_toE]
  simp only [latticeDot, fineDot, Fintype.sum_prod_type]
  rfl

omit [Fintype S] in
theorem field_of_toE_zero {v : SField S N} (h : toE v = 0) : v = 0 :=
  funext fun x => Matrix.ext fun mu i => congrFun (congrArg WithLp.ofLp h) (x, mu, i)

theorem unflat_flat (v : SField S N) : unflatField (flatField v) = v := rfl

/-! ### Specification -/

/-- **Specification.** The coarse solver used for the residual `r`: the squared norm of its residual, summed over the `d n` entries on each of the
processes, is at most `η²` times that of `r`.  The exact solver has `η = 0`, a solver which returns zero has `η = 1`. -/
def CoarseWithin (D : SField S N → SField S N) (rank : S → R) (idx thread : S → ℕ) (n d threads : ℕ) (basis : ℕ → S → Fin 4 × Fin N → ℂ)
    (η : ℝ) (coarse : (R → ℕ → ℂ) → R → ℕ → ℂ) (r : SField S N) : Prop :=
  let b := mgRestrict rank idx thread n d threads basis (flatField r)
  let e := fun k m => b k m - mgMultiply rank idx thread n d threads basis (fun w => flatField (D (unflatField w))) (coarse b) k m
  ∑ k, ∑ m ∈ Finset.range (d * n), ‖e k m‖ ^ 2 ≤ η ^ 2 * fieldNorm r ^ 2

/-! ### The theorems -/

/-- **C95, one cycle.** For an operator with `‖D v - v‖ ≤ h ‖v‖`, `h < 1`, any blocks and any orthonormal block basis: if the coarse solver leaves a
residual of at most `η ‖r‖` and the smoother one of at most `σ` times its source, then the correction of one cycle leaves a residual of at most
`σ (1 + η) / (1 - h)` times that before. -/
theorem C95_cycle (D : SField S N → SField S N) (hD : Linear D) (h : ℝ) (h0 : 0 ≤ h) (h1 : h < 1)
    (hclose : ∀ v, fieldNorm (D v - v) ≤ h * fieldNorm v) (rank : S → R) (idx thread : S → ℕ) (n d threads : ℕ)
    (basis : ℕ → S → Fin 4 × Fin N → ℂ) (hidx : ∀ x, idx x < n) (hne : ∀ r, ∀ j < n, ∃ x, rank x = r ∧ idx x = j)
    (ht : ∀ x, thread x < threads) (ho : BlockOrthonormal rank idx d basis) (η : ℝ) (hη : 0 ≤ η) (coarse : (R → ℕ → ℂ) → R → ℕ → ℂ)
    (σ : ℝ) (hσ : 0 ≤ σ) (sap : SField S N → SField S N) (hsap : ∀ s, fieldNorm (s - D (sap s)) ≤ σ * fieldNorm s) (r : SField S N)
    (hc : CoarseWithin D rank idx thread n d threads basis η coarse r) :
    fieldNorm (r - D (mgCycle D rank idx thread n d threads basis coarse sap r)) ≤ σ * ((1 + η) / (1 - h)) * fieldNorm r := by
  set restrict := mgRestrict rank idx thread n d threads basis with hR
  set prolong := mgProlong rank idx n d basis with hPr
  set y := coarse (restrict (flatField r)) with hy
  set m : SField S N := unflatField (prolong y) with hm
  set s := r - D m with hs
  set e : R → ℕ → ℂ := fun k i => restrict (flatField r) k i - restrict (flatField (D m)) k i with he
  have hadj := fun c x => C46_adjoint rank idx thread n d threads basis hidx ht c x
  have hdot : ∀ c, coarseDot (d * n) c e = fineDot (prolong c) (flatField s) := by
    intro c
    have e1 : coarseDot (d * n) c e = coarseDot (d * n) c (restrict (flatField r)) - coarseDot (d * n) c (restrict (flatField (D m))) := by
      simp only [coarseDot, he, mul_sub, Finset.sum_sub_distrib]
    rw [e1, hadj, hadj]
    simp only [fineDot, hs, flatField, Pi.sub_apply, Matrix.sub_apply, mul_sub, Finset.sum_sub_distrib]
    rfl
  have hPe : ∀ c, fineDot (prolong c) (prolong e) = coarseDot (d * n) c e := by
    intro c
    rw [← hadj c (prolong e)]
    refine Finset.sum_congr rfl fun k _ => Finset.sum_congr rfl fun i hi => ?_
    rw [C46_coarse_identity rank idx thread n d threads basis hne ht ho e k i (Finset.mem_range.1 hi)]
  set p : SField S N := unflatField (prolong e) with hp
  have horth : ∀ c, inner ℂ (toE (unflatField (prolong c))) (toE s - toE p) = 0 := by
    intro c
    have e1 : toE s = toE (unflatField (flatField s)) := rfl
    rw [inner_sub_right, hp, inner_unflat, e1, inner_unflat, hPe, hdot, sub_self]
  have hpn : ‖toE p‖ ≤ η * ‖toE r‖ := by
    have h2 : ((‖toE p‖ : ℝ) : ℂ) ^ 2 = coarseDot (d * n) e e := by
      have := inner_self_eq_norm_sq_to_K (𝕜 := ℂ) (toE p)
      rw [hp, inner_unflat, hPe] at this
      exact this.symm
    have h3 : coarseDot (d * n) e e = ((∑ k, ∑ i ∈ Finset.range (d * n), ‖e k i‖ ^ 2 : ℝ) : ℂ) := by
      simp only [coarseDot]
      push_cast
      exact Finset.sum_congr rfl fun k _ => Finset.sum_congr rfl fun i _ => by
        rw [mul_comm, Complex.mul_conj, Complex.normSq_eq_norm_sq]; push_cast; rfl
    have h4 : ‖toE p‖ ^ 2 = ∑ k, ∑ i ∈ Finset.range (d * n), ‖e k i‖ ^ 2 := by
      have := h2.trans h3
      exact_mod_cast this
    have h5 : ‖toE p‖ ^ 2 ≤ (η * ‖toE r‖) ^ 2 := by
      rw [h4, mul_pow, norm_toE]
      exact hc
    exact le_of_sq_le_sq h5 (by positivity)
  have hw : ‖toE (D m - m)‖ ≤ h * ‖toE m‖ := by rw [norm_toE, norm_toE]; exact hclose m
  have hsE : toE s = toE r - (toE m + toE (D m - m)) := by
    rw [← toE_add, add_sub_cancel]; rfl
  have hmain := coarse_residual h1 h0 hsE hw hpn (horth y) (horth e)
  rw [norm_toE, norm_toE] at hmain
  have hfin : r - D (mgCycle D rank idx thread n d threads basis coarse sap r) = s - D (sap s) := by
    change r - D (sap s + m) = s - D (sap s)
    rw [hD.add, hs]; abel
  rw [hfin, mul_assoc]
  exact (hsap s).trans (mul_le_mul_of_nonneg_left hmain hσ)


/-! ### Lemmas: the operators -/

omit [Fintype R] in
theorem mgRestrict_add (rank : S → R) (idx thread : S → ℕ) (n d threads : ℕ) (basis : ℕ → S → Fin 4 × Fin N → ℂ) (x y : S → Fin 4 × Fin N → ℂ)
    (k : R) (m : ℕ) : mgRestrict rank idx thread n d threads basis (x + y) k m =
      mgRestrict rank idx thread n d threads basis x k m + mgRestrict rank idx thread n d threads basis y k m := by
  simp only [mgRestrict_sum, ← Finset.sum_add_distrib]
  refine Finset.sum_congr rfl fun i _ => Finset.sum_congr rfl fun l _ => Finset.sum_congr rfl fun j _ => ?_
  split_ifs
  · simp only [mgProj, ← Finset.sum_add_distrib]
    refine Finset.sum_congr rfl fun p _ => ?_
    split_ifs
    · simp only [Pi.add_apply, mul_add, Finset.sum_add_distrib]
    · simp
  · simp

omit [Fintype R] in
theorem mgRestrict_smul (rank : S → R) (idx thread : S → ℕ) (n d threads : ℕ) (basis : ℕ → S → Fin 4 × Fin N → ℂ) (a : ℂ)
    (x : S → Fin 4 × Fin N → ℂ) (k : R) (m : ℕ) : mgRestrict rank idx thread n d threads basis (a • x) k m =
      a * mgRestrict rank idx thread n d threads basis x k m := by
  simp only [mgRestrict_sum, Finset.mul_sum]
  refine Finset.sum_congr rfl fun i _ => Finset.sum_congr rfl fun l _ => Finset.sum_congr rfl fun j _ => ?_
  split_ifs
  · simp only [mgProj, Finset.mul_sum]
    refine Finset.sum_congr rfl fun p _ => ?_
    split_ifs
    · rw [Finset.mul_sum]
      exact Finset.sum_congr rfl fun _ _ => by simp only [Pi.smul_apply, smul_eq_mul]; ring
    · simp
  · simp

theorem sapFull_close {T : Torus S} {bs : Fin 4 → ℕ} {U : GField S N} (hU : ∀ x μ, U x μ ∈ unitaryGroup (Fin N) ℂ) {κ csw : ℝ}
    {D : SField S N → SField S N} {A : ℕ → SField S N → SField S N} (hop : SapOperators T bs U κ csw D A) (v : SField S N) :
    fieldNorm (D v - v) ≤ |κ| * (8 + 6 * |csw|) * fieldNorm v := by
  obtain ⟨c, hc, rfl, -⟩ := sapOperators_spec hop
  have h := norm_improved_sub (T := T) hU κ c v
  have e1 : toE (improvedSpec T U κ c v) - toE v = toE (improvedSpec T U κ c v - v) := rfl
  rw [e1, norm_toE, norm_toE] at h
  refine h.trans (mul_le_mul_of_nonneg_right (mul_le_mul_of_nonneg_left (by linarith) (abs_nonneg κ)) (Real.sqrt_nonneg _))

omit [Fintype S] in
theorem sapFull_linear {T : Torus S} {bs : Fin 4 → ℕ} {U : GField S N} {κ csw : ℝ}
    {D : SField S N → SField S N} {A : ℕ → SField S N → SField S N} (hop : SapOperators T bs U κ csw D A) : Linear D := by
  obtain ⟨c, -, rfl, -⟩ := sapOperators_spec hop
  exact ⟨fun v w => improvedSpec_add T U κ c v w, fun a v => improvedSpec_smul T U κ c a v⟩

/-- A linear operator near the identity can be inverted. -/
theorem close_surjective {D : SField S N → SField S N} (hD : Linear D) {h : ℝ} (h1 : h < 1) (hclose : ∀ v, fieldNorm (D v - v) ≤ h * fieldNorm v)
    (b : SField S N) : ∃ x, D x = b := by
  let L : SField S N →ₗ[ℂ] SField S N := ⟨⟨D, hD.add⟩, hD.smul⟩
  have hi : Function.Injective L := by
    rw [← LinearMap.ker_eq_bot, LinearMap.ker_eq_bot']
    intro v hv
    have h2 := hclose v
    have hv' : D v = 0 := hv
    rw [hv', zero_sub] at h2
    have e : fieldNorm (-v) = fieldNorm v := by rw [← norm_toE, ← norm_toE]; exact norm_neg (toE v)
    rw [e] at h2
    have h3 : fieldNorm v = 0 := by
      have : 0 ≤ fieldNorm v := Real.sqrt_nonneg _
      nlinarith
    rw [← norm_toE, norm_eq_zero] at h3
    exact field_of_toE_zero h3
  exact LinearMap.injective_iff_surjective.1 hi b

/-- The residual the smoother leaves. -/
theorem smoother_residual {T : Torus S} {bs : Fin 4 → ℕ} {U : GField S N} (hU : ∀ x μ, U x μ ∈ unitaryGroup (Fin N) ℂ) {κ csw h : ℝ}
    (hh : |κ| * (8 + 6 * |csw|) = h) (h1 : h < 1) {D : SField S N → SField S N} {A : ℕ → SField S N → SField S N}
    (hop : SapOperators T bs U κ csw D A) (solveRed solveBlack : SField S N → SField S N) (hr : ∀ b, A 1 (solveRed b) = b)
    (hb : ∀ b, A 0 (solveBlack b) = b) (n : ℕ) (s : SField S N) :
    fieldNorm (s - D (sapMul D (complementMul D solveRed solveBlack (blockIndex T bs 1) (blockIndex T bs 0)) (n + 1) s)) ≤
      (1 + h) * √((h ^ 2 / (1 - h ^ 2) + (h ^ 2 / (1 - h ^ 2)) ^ 2) * (h ^ 2 / (1 - h ^ 2)) ^ (2 * n)) * (h / (1 - h)) * fieldNorm s := by
  have h0 : 0 ≤ h := by rw [← hh]; positivity
  have hclose := fun v => sapFull_close hU hop v
  rw [hh] at hclose
  have hD := sapFull_linear hop
  obtain ⟨x, hx⟩ := close_surjective hD h1 hclose s
  have hrate := C93_rate T bs U hU κ csw h hh h1 D A hop solveRed solveBlack hr hb s x hx n
  set y := sapMul D (complementMul D solveRed solveBlack (blockIndex T bs 1) (blockIndex T bs 0)) (n + 1) s with hy
  set Q := (h ^ 2 / (1 - h ^ 2) + (h ^ 2 / (1 - h ^ 2)) ^ 2) * (h ^ 2 / (1 - h ^ 2)) ^ (2 * n) with hQ
  have hnn : ∀ v : SField S N, 0 ≤ fieldNorm v := fun v => Real.sqrt_nonneg _
  have hq0 : 0 ≤ h ^ 2 / (1 - h ^ 2) := div_nonneg (by positivity) (by nlinarith)
  have hQ0 : 0 ≤ Q := by positivity
  have hrate' : fieldNorm (y - x) ≤ √Q * fieldNorm (s - x) := by
    refine le_of_sq_le_sq ?_ (mul_nonneg (Real.sqrt_nonneg _) (hnn _))
    rw [mul_pow, Real.sq_sqrt hQ0]
    exact hrate
  have tri : ∀ v w : SField S N, fieldNorm (v + w) ≤ fieldNorm v + fieldNorm w := by
    intro v w
    rw [← norm_toE, ← norm_toE, ← norm_toE]
    exact norm_add_le (toE v) (toE w)
  have hneg : ∀ v w : SField S N, fieldNorm (v - w) = fieldNorm (w - v) := by
    intro v w
    rw [← norm_toE, ← norm_toE]
    exact norm_sub_rev (toE v) (toE w)
  have hsx : fieldNorm (s - x) ≤ h / (1 - h) * fieldNorm s := by
    have a1 : fieldNorm (s - x) ≤ h * fieldNorm x := by rw [← hx]; exact hclose x
    have a2 := tri s (x - s)
    rw [add_sub_cancel, hneg x s] at a2
    have a3 : (1 - h) * fieldNorm x ≤ fieldNorm s := by linarith
    rw [div_mul_eq_mul_div, le_div_iff₀ (by linarith)]
    nlinarith [hnn x]
  have hDy : fieldNorm (s - D y) ≤ (1 + h) * fieldNorm (y - x) := by
    have e : s - D y = D (x - y) := by
      have := hD.add (x - y) y
      rw [sub_add_cancel, hx] at this
      rw [this, add_sub_cancel_right]
    have a1 := tri (x - y) (D (x - y) - (x - y))
    rw [add_sub_cancel] at a1
    rw [e, hneg y x]
    linarith [hclose (x - y)]
  calc fieldNorm (s - D y) ≤ (1 + h) * fieldNorm (y - x) := hDy
    _ ≤ (1 + h) * (√Q * (h / (1 - h) * fieldNorm s)) :=
        mul_le_mul_of_nonneg_left (hrate'.trans (mul_le_mul_of_nonneg_left hsx (Real.sqrt_nonneg _))) (by linarith)
    _ = _ := by ring

/-! ### The solver -/

/-- **C95, the coarse system.** Under the hypotheses of `C95_cycle` the coarse system has an exact solution for every residual. -/
theorem C95_coarse_solvable (D : SField S N → SField S N) (hD : Linear D) (h : ℝ) (h1 : h < 1)
    (hclose : ∀ v, fieldNorm (D v - v) ≤ h * fieldNorm v) (rank : S → R) (idx thread : S → ℕ) (n d threads : ℕ)
    (basis : ℕ → S → Fin 4 × Fin N → ℂ) (hidx : ∀ x, idx x < n) (hne : ∀ r, ∀ j < n, ∃ x, rank x = r ∧ idx x = j)
    (ht : ∀ x, thread x < threads) (ho : BlockOrthonormal rank idx d basis) :
    ∃ coarse, ∀ r, CoarseWithin D rank idx thread n d threads basis 0 coarse r := by
  classical
  let ext : (R × Fin (d * n) → ℂ) → R → ℕ → ℂ := fun y k m => if hm : m < d * n then y (k, ⟨m, hm⟩) else 0
  set F : (S → Fin 4 × Fin N → ℂ) → S → Fin 4 × Fin N → ℂ := fun w => flatField (D (unflatField w)) with hF
  set M := mgMultiply rank idx thread n d threads basis F with hM
  have hP : ∀ c, mgProlong rank idx n d basis c = fun p k => ∑ i ∈ Finset.range d, c (rank p) (i * n + idx p) * basis i p k :=
    fun c => funext fun p => funext fun k => mgProlong_sum rank idx n d basis c p k
  have extadd : ∀ y z, mgProlong rank idx n d basis (ext (y + z)) = mgProlong rank idx n d basis (ext y) + mgProlong rank idx n d basis (ext z) := by
    intro y z
    rw [hP, hP, hP]
    funext p k
    simp only [Pi.add_apply, ← Finset.sum_add_distrib]
    refine Finset.sum_congr rfl fun i _ => ?_
    simp only [ext]
    split_ifs
    · simp only [Pi.add_apply]; ring
    · ring
  have extsmul : ∀ (a : ℂ) y, mgProlong rank idx n d basis (ext (a • y)) = a • mgProlong rank idx n d basis (ext y) := by
    intro a y
    rw [hP, hP]
    funext p k
    simp only [Pi.smul_apply, smul_eq_mul, Finset.mul_sum]
    refine Finset.sum_congr rfl fun i _ => ?_
    simp only [ext]
    split_ifs
    · simp only [Pi.smul_apply, smul_eq_mul]; ring
    · ring
  have Fadd : ∀ w w', F (w + w') = F w + F w' := by
    intro w w'
    have e : unflatField (w + w') = unflatField w + unflatField w' := rfl
    simp only [hF]
    rw [e, hD.add]; rfl
  have Fsmul : ∀ (a : ℂ) w, F (a • w) = a • F w := by
    intro a w
    have e : unflatField (a • w) = a • unflatField w := rfl
    simp only [hF]
    rw [e, hD.smul]; rfl
  let L : (R × Fin (d * n) → ℂ) →ₗ[ℂ] (R × Fin (d * n) → ℂ) :=
    { toFun := fun y q => M (ext y) q.1 q.2.1
      map_add' := fun y z => funext fun q => by
        simp only [hM, mgMultiply, Pi.add_apply]
        rw [extadd, Fadd, mgRestrict_add]
      map_smul' := fun a y => funext fun q => by
        simp only [hM, mgMultiply, Pi.smul_apply, RingHom.id_apply, smul_eq_mul]
        rw [extsmul, Fsmul, mgRestrict_smul] }
  have hinj : Function.Injective L := by
    rw [← LinearMap.ker_eq_bot, LinearMap.ker_eq_bot']
    intro y hy
    set m : SField S N := unflatField (mgProlong rank idx n d basis (ext y)) with hm
    have hz : coarseDot (d * n) (ext y) (M (ext y)) = 0 := by
      refine Finset.sum_eq_zero fun k _ => Finset.sum_eq_zero fun i hi => ?_
      have : M (ext y) k i = 0 := congrFun hy (k, ⟨i, Finset.mem_range.1 hi⟩)
      rw [this, mul_zero]
    rw [hM, C46_operator rank idx thread n d threads basis hidx ht] at hz
    have hz' : inner ℂ (toE m) (toE (D m)) = 0 := by
      rw [← hz, ← inner_unflat]; rfl
    have e : toE (D m) = toE m + toE (D m - m) := by rw [← toE_add, add_sub_cancel]
    rw [e, inner_add_right, inner_self_eq_norm_sq_to_K] at hz'
    have h2 : ‖toE m‖ ^ 2 ≤ ‖toE m‖ * (h * ‖toE m‖) := by
      have e2 : ((‖toE m‖ : ℝ) : ℂ) ^ 2 = -inner ℂ (toE m) (toE (D m - m)) := eq_neg_of_add_eq_zero_left hz'
      have e3 : ‖toE m‖ ^ 2 = ‖((‖toE m‖ : ℝ) : ℂ) ^ 2‖ := by rw [norm_pow, Complex.norm_real, norm_norm]
      rw [e3, e2, norm_neg]
      refine (norm_inner_le_norm _ _).trans (mul_le_mul_of_nonneg_left ?_ (norm_nonneg _))
      rw [norm_toE, norm_toE]; exact hclose m
    have h3 : ‖toE m‖ = 0 := by
      by_contra hc
      have : 0 < ‖toE m‖ := lt_of_le_of_ne (norm_nonneg _) (Ne.symm hc)
      nlinarith [mul_pos this this]
    rw [norm_eq_zero] at h3
    have hm0 : m = 0 := field_of_toE_zero h3
    have hp0 : mgProlong rank idx n d basis (ext y) = 0 := by
      have : flatField m = mgProlong rank idx n d basis (ext y) := rfl
      rw [← this, hm0]; rfl
    funext q
    have h4 := C46_coarse_identity rank idx thread n d threads basis hne ht ho (ext y) q.1 q.2.1 q.2.2
    rw [hp0] at h4
    have h5 : ext y q.1 q.2.1 = y q := by simp only [ext, dif_pos q.2.2]
    rw [h5] at h4
    have h6 := mgRestrict_smul rank idx thread n d threads basis 0 (0 : S → Fin 4 × Fin N → ℂ) q.1 q.2.1
    rw [smul_zero, zero_mul] at h6
    rw [← h4, h6]; rfl
  have hsur := LinearMap.injective_iff_surjective.1 hinj
  choose inv hinv using hsur
  refine ⟨fun b => ext (inv fun q => b q.1 q.2.1), fun r => ?_⟩
  simp only [CoarseWithin]
  rw [zero_pow two_ne_zero, zero_mul]
  refine le_of_eq (Finset.sum_eq_zero fun k _ => Finset.sum_eq_zero fun i hi => ?_)
  have := congrFun (hinv fun q => mgRestrict rank idx thread n d threads basis (flatField r) q.1 q.2.1) (k, ⟨i, Finset.mem_range.1 hi⟩)
  change M (ext _) k i = mgRestrict rank idx thread n d threads basis (flatField r) k i at this
  rw [← this, sq_eq_zero_iff, norm_eq_zero]
  exact sub_self (M _ k i)

/-- **C95, convergence.** For unitary links and `h = |κ| (8 + 6 |csw|) < 1`, with exact solutions in the blocks of the smoother (`n + 1` steps), a coarse
solver with residual `η`, any orthonormal block basis: with `q = h²/(1-h²)` and `ρ = ((1+η)(1+h)h/(1-h)²)² (q+q²) q^{2n} < 1` the squared residual
falls by the factor `ρ` in every step; as soon as `ρ^maxSteps ‖b - D x₀‖²` is below the precision the solver returns a vector with a squared
residual below the precision, before its maximal number of steps, unless the start vector is the exact solution. -/
theorem C95_convergence (T : Torus S) (bs : Fin 4 → ℕ) (U : GField S N) (hU : ∀ x μ, U x μ ∈ unitaryGroup (Fin N) ℂ) (κ csw h : ℝ)
    (hh : |κ| * (8 + 6 * |csw|) = h) (h1 : h < 1) (D : SField S N → SField S N) (A : ℕ → SField S N → SField S N)
    (hop : SapOperators T bs U κ csw D A) (solveRed solveBlack : SField S N → SField S N) (hr : ∀ b, A 1 (solveRed b) = b)
    (hb : ∀ b, A 0 (solveBlack b) = b) (n : ℕ) (rank : S → R) (idx thread : S → ℕ) (blocks d threads : ℕ)
    (basis : ℕ → S → Fin 4 × Fin N → ℂ) (hidx : ∀ x, idx x < blocks) (hne : ∀ r, ∀ j < blocks, ∃ x, rank x = r ∧ idx x = j)
    (ht : ∀ x, thread x < threads) (ho : BlockOrthonormal rank idx d basis) (η : ℝ) (hη : 0 ≤ η) (coarse : ℕ → (R → ℕ → ℂ) → R → ℕ → ℂ)
    (hc : ∀ k r, CoarseWithin D rank idx thread blocks d threads basis η (coarse k) r) (ρ q : ℝ) (hq : q = h ^ 2 / (1 - h ^ 2))
    (hρ : ρ = ((1 + η) * (1 + h) * h / (1 - h) ^ 2) ^ 2 * ((q + q ^ 2) * q ^ (2 * n))) (hρ1 : ρ < 1) (precision : ℝ) (hp : 0 < precision)
    (maxSteps : ℕ) (hm : 0 < maxSteps) (b : SField S N) (guess : Option (SField S N)) (c u : ℕ → SField S N) (x₀ : SField S N)
    (hx₀ : x₀ = guess.getD (if precision < fieldNorm b ^ 2 then b else 0)) (hex : D x₀ ≠ b)
    (hn : ρ ^ maxSteps * fieldNorm (b - D x₀) ^ 2 < precision) :
    let sap := sapMul D (complementMul D solveRed solveBlack (blockIndex T bs 1) (blockIndex T bs 0)) (n + 1)
    ∃ y steps, mgSolve D (fun k r => mgCycle D rank idx thread blocks d threads basis (coarse k) sap r) precision maxSteps b guess c u =
        (⟨true, some y, none⟩, steps) ∧ fieldNorm (b - D y) ^ 2 < precision ∧ steps < maxSteps := by
  intro sap
  have hn2 : ∀ v : SField S N, Leonard.norm2 v = fieldNorm v ^ 2 := fun v => by rw [norm2_eq_latticeNorm2, fieldNorm_sq]
  have h0 : 0 ≤ h := by rw [← hh]; positivity
  have hclose := fun v => sapFull_close hU hop v
  rw [hh] at hclose
  have hD := sapFull_linear hop
  have hq0 : 0 ≤ q := by rw [hq]; exact div_nonneg (by positivity) (by nlinarith)
  have hQ0 : 0 ≤ (q + q ^ 2) * q ^ (2 * n) := by positivity
  set σ := (1 + h) * √((q + q ^ 2) * q ^ (2 * n)) * (h / (1 - h)) with hσ
  have hσ0 : 0 ≤ σ := mul_nonneg (mul_nonneg (by linarith) (Real.sqrt_nonneg _)) (div_nonneg h0 (by linarith))
  have hsap : ∀ s, fieldNorm (s - D (sap s)) ≤ σ * fieldNorm s := by
    intro s
    have := smoother_residual hU hh h1 hop solveRed solveBlack hr hb n s
    rw [← hq] at this
    exact this
  have hρσ : ρ = (σ * ((1 + η) / (1 - h))) ^ 2 := by
    have h1' : (1 - h) ≠ 0 := by linarith
    rw [hρ, hσ]
    have e := Real.sq_sqrt hQ0
    calc _ = ((1 + η) * (1 + h) * h / (1 - h) ^ 2) ^ 2 * √((q + q ^ 2) * q ^ (2 * n)) ^ 2 := by rw [e]
      _ = _ := by field_simp
  have hP : ∀ (k : ℕ) (r : SField S N), Leonard.norm2 (r - D (mgCycle D rank idx thread blocks d threads basis (coarse k) sap r)) ≤
      ρ * Leonard.norm2 r := by
    intro k r
    have := C95_cycle D hD h h0 h1 hclose rank idx thread blocks d threads basis hidx hne ht ho η hη (coarse k) σ hσ0 sap hsap r (hc k r)
    rw [hn2, hn2, hρσ, ← mul_pow]
    exact pow_le_pow_left₀ (Real.sqrt_nonneg _) this 2
  have hs : startVector precision b 0 guess = x₀ := by
    rw [hx₀]
    cases guess with
    | none => rw [startVector, hn2]; rfl
    | some g => rfl
  have hne0 : b - D x₀ ≠ 0 := fun h0 => hex (sub_eq_zero.mp h0).symm
  obtain ⟨y, s, e1, e2, -, e4⟩ := mgLoop_rate (b := b) (bound := Leonard.norm2 (b - D x₀)) hD hρ1 hP hp maxSteps maxSteps 0
    ⟨x₀, b - D x₀, c, u⟩ ⟨rfl, fun i hi => absurd hi (by omega), le_rfl⟩
    (by rw [Nat.zero_mod]; exact ⟨fun i hi => absurd hi (by omega), fun i hi => absurd hi (by omega), fun i hi => absurd hi (by omega)⟩)
    hne0 hm (by rw [hn2]; exact hn)
  refine ⟨y, s, ?_, by rw [← hn2]; exact e2, by omega⟩
  unfold mgSolve
  simp only [hs, e1]

/-! ### Examples -/

/-- `κ = 1/20`, no clover term, `7` steps of the smoother, exact coarse solver: the factor is below `10⁻⁸`. -/
example : |(1 / 20 : ℝ)| * (8 + 6 * |(0 : ℝ)|) = 2 / 5 ∧ ((2 : ℝ) / 5) ^ 2 / (1 - (2 / 5) ^ 2) = 4 / 21 ∧
    ((1 + 0) * (1 + 2 / 5) * (2 / 5) / (1 - 2 / 5) ^ 2) ^ 2 * ((4 / 21 + (4 / 21) ^ 2) * (4 / 21) ^ (2 * 6)) < (1 / 10 ^ 8 : ℝ) := by
  refine ⟨?_, ?_, ?_⟩ <;> norm_num [abs_of_pos]

/-- One block, one vector: a lattice with one process. -/
example : BlockOrthonormal (fun _ : BoxSite exExt3 => ()) (fun _ => 0) 1
    (fun _ x (k : Fin 4 × Fin 2) => if x = ⟨⟨0, 0, 0, 0⟩, by decide⟩ ∧ k = 0 then 1 else 0) := by
  intro i hi j hj p
  have : i = j := by omega
  rw [if_pos this]
  simp [ite_and]

end Leonard
