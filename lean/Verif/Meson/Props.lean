import Verif.Meson.Green

/-!
# C61: meson correlators
-/

set_option autoImplicit false

namespace Leonard

open Matrix

variable {S : Type} {N : ℕ}

/-- **Specification.** The Wilson operators of the program without γ₅: optimised, basic, and with clover term. -/
def IsWilsonType (T : Torus S) (κ : ℝ) (D : GField S N → SField S N → SField S N) : Prop :=
  D = (fun U => optMul T U κ false) ∨ D = (fun U => basicMul T U κ false) ∨ ∃ csw, D = fun U => improvedMul T U κ csw false

/-- **Specification.** `o` is the site with all coordinates zero. -/
def IsOrigin (T : Torus S) (o : S) : Prop := ∀ x, (∀ μ, T.coord x μ = 0) ↔ x = o

theorem IsWilsonType.spec {T : Torus S} {κ : ℝ} {D : GField S N → SField S N → SField S N} (h : IsWilsonType T κ D) :
    ∃ csw, ∀ U, D U = improvedSpec T U κ csw := by
  rcases h with rfl | rfl | ⟨csw, rfl⟩
  · exact ⟨0, fun U => funext fun v => by change optMul T U κ false v = _; rw [(C33_wilson T U κ false v).1, improvedSpec_zero]; rfl⟩
  · exact ⟨0, fun U => funext fun v => by change basicMul T U κ false v = _; rw [(C33_wilson T U κ false v).2, improvedSpec_zero]; rfl⟩
  · exact ⟨csw, fun U => funext fun v => by change improvedMul T U κ csw false v = _; rw [C33_improved]; rfl⟩

theorem pointSource_eq [DecidableEq S] {T : Torus S} {o : S} (ho : IsOrigin T o) (α : Fin 4) (c : Fin N) :
    pointSource T α c = unitField o (α, c) := by
  funext x
  ext mu i
  have h : (T.coord x 0 = 0 ∧ T.coord x 1 = 0 ∧ T.coord x 2 = 0 ∧ T.coord x 3 = 0) ↔ x = o := by
    rw [← ho x]
    constructor
    · rintro ⟨h0, h1, h2, h3⟩ μ; fin_cases μ <;> assumption
    · exact fun h => ⟨h 0, h 1, h 2, h 3⟩
  simp only [pointSource, unitField, Matrix.of_apply, h, Prod.mk.injEq]
  by_cases hx : x = o <;> simp [hx]

/-- The columns which the program computes are those of the Green function of the rotated links. -/
theorem propagator_eq [Fintype S] [DecidableEq S] {T : Torus S} {κ csw : ℝ} {o : S} (ho : IsOrigin T o) {V : GField S N}
    {solve : SField S N → SField S N} (hs : ∀ b, improvedSpec T V κ csw (solve b) = b) {G : S → S → Matrix (Fin 4 × Fin N) (Fin 4 × Fin N) ℂ}
    (hG : IsGreen (improvedSpec T V κ csw) G) (α : Fin 4) (c : Fin N) :
    solve (pointSource T α c) = fun x => Matrix.of fun mu i => G x o (mu, i) (α, c) := by
  refine improved_injective (fun b => ⟨solve b, hs b⟩) ?_
  rw [hs, hG, pointSource_eq ho]

theorem gamma4_symm (a b : Fin 4) : tabGamma 3 a b = tabGamma 3 b a := by
  have h : (tabGammaT 3)ᵀ = tabGammaT 3 := by decide +kernel
  have h' := congrFun (congrFun (congrArg toSpin h) b) a
  exact h'

theorem gamma5gamma4_antisymm (a b : Fin 4) : tabGamma5Gamma 3 a b = -tabGamma5Gamma 3 b a := by
  have h : (tabGamma5GammaT 3)ᵀ = -tabGamma5GammaT 3 := by decide +kernel
  have h' := congrFun (congrFun (congrArg toSpin h) b) a
  rw [show toSpin (-tabGamma5GammaT 3) = -toSpin (tabGamma5GammaT 3) from map_neg _ _] at h'
  exact h'

/-- The trace of a contraction between two sites. -/
noncomputable def siteTrace (G : S → S → Matrix (Fin 4 × Fin N) (Fin 4 × Fin N) ℂ) (Γ₁ Γ₂ : SpinMat) (x y : S) : ℂ :=
  trace (kroneckerMap (· * ·) Γ₁ (1 : Mat N) * G x y * kroneckerMap (· * ·) Γ₂ (1 : Mat N) * G y x)

section
variable [Fintype S] {T : Torus S} {P : Fin 4 → Fin N → SField S N}

theorem pionOperator_eq (t : ℕ) : pionOperator T P t = ∑ x, if T.coord x 3 = t then
    (∑ mu, ∑ nu, ∑ α, ∑ β, ∑ c, ∑ d, (1 : SpinMat) mu nu * (1 : SpinMat) β α * starRingEnd ℂ (P α c x mu d) * P β c x nu d).re else 0 := by
  unfold pionOperator
  calc _ = ∑ α, ∑ x, ∑ c, (if T.coord x 3 = t then ∑ mu, ∑ d, (starRingEnd ℂ (P α c x mu d) * P α c x mu d).re else 0) :=
        Finset.sum_congr rfl fun α _ => Finset.sum_comm
    _ = ∑ x, ∑ α, ∑ c, (if T.coord x 3 = t then ∑ mu, ∑ d, (starRingEnd ℂ (P α c x mu d) * P α c x mu d).re else 0) := Finset.sum_comm
    _ = _ := Finset.sum_congr rfl fun x _ => by
        split
        · rw [Complex.re_sum]
          have e : ∀ mu, ∑ nu, ∑ α, ∑ β, ∑ c, ∑ d, (1 : SpinMat) mu nu * (1 : SpinMat) β α * starRingEnd ℂ (P α c x mu d) * P β c x nu d
              = ∑ α, ∑ c, ∑ d, starRingEnd ℂ (P α c x mu d) * P α c x mu d := by
            intro mu
            rw [Finset.sum_eq_single mu]
            · refine Finset.sum_congr rfl fun α _ => ?_
              rw [Finset.sum_eq_single α]
              · simp
              · intro β _ hβ; simp [one_apply, hβ]
              · simp
            · intro nu _ hnu; simp [one_apply, Ne.symm hnu]
            · simp
          simp only [e, Complex.re_sum]
          calc _ = ∑ α, ∑ mu, ∑ c, ∑ d, (starRingEnd ℂ (P α c x mu d) * P α c x mu d).re := Finset.sum_congr rfl fun α _ => Finset.sum_comm
            _ = _ := Finset.sum_comm
        · simp

theorem scalarOperator_eq (t : ℕ) : scalarOperator T P t = ∑ x, if T.coord x 3 = t then
    (∑ mu, ∑ nu, ∑ α, ∑ β, ∑ c, ∑ d, tabGamma5Gamma 3 mu nu * tabGamma5Gamma 3 α β * starRingEnd ℂ (P α c x mu d) * P β c x nu d).re else 0 := by
  unfold scalarOperator
  calc _ = ∑ α, ∑ β, ∑ x, ∑ c, (if T.coord x 3 = t then ∑ mu, ∑ nu, ∑ d,
          (tabGamma5Gamma 3 mu nu * tabGamma5Gamma 3 α β * starRingEnd ℂ (P α c x mu d) * P β c x nu d).re else 0) :=
        Finset.sum_congr rfl fun α _ => Finset.sum_congr rfl fun β _ => Finset.sum_comm
    _ = ∑ α, ∑ x, ∑ β, ∑ c, (if T.coord x 3 = t then ∑ mu, ∑ nu, ∑ d,
          (tabGamma5Gamma 3 mu nu * tabGamma5Gamma 3 α β * starRingEnd ℂ (P α c x mu d) * P β c x nu d).re else 0) :=
        Finset.sum_congr rfl fun α _ => Finset.sum_comm
    _ = ∑ x, ∑ α, ∑ β, ∑ c, (if T.coord x 3 = t then ∑ mu, ∑ nu, ∑ d,
          (tabGamma5Gamma 3 mu nu * tabGamma5Gamma 3 α β * starRingEnd ℂ (P α c x mu d) * P β c x nu d).re else 0) := Finset.sum_comm
    _ = _ := Finset.sum_congr rfl fun x _ => by
        split
        · simp only [Complex.re_sum]
          generalize hf : (fun (mu nu α β : Fin 4) (c d : Fin N) =>
            (tabGamma5Gamma 3 mu nu * tabGamma5Gamma 3 α β * starRingEnd ℂ (P α c x mu d) * P β c x nu d).re) = f
          have hf' : ∀ mu nu α β c d, (tabGamma5Gamma 3 mu nu * tabGamma5Gamma 3 α β * starRingEnd ℂ (P α c x mu d) * P β c x nu d).re
            = f mu nu α β c d := fun mu nu α β c d => by rw [← hf]
          simp only [hf']
          calc ∑ α, ∑ β, ∑ c, ∑ mu, ∑ nu, ∑ d, f mu nu α β c d
              = ∑ α, ∑ β, ∑ mu, ∑ c, ∑ nu, ∑ d, f mu nu α β c d := Finset.sum_congr rfl fun α _ => Finset.sum_congr rfl fun β _ => Finset.sum_comm
            _ = ∑ α, ∑ mu, ∑ β, ∑ c, ∑ nu, ∑ d, f mu nu α β c d := Finset.sum_congr rfl fun α _ => Finset.sum_comm
            _ = ∑ mu, ∑ α, ∑ β, ∑ c, ∑ nu, ∑ d, f mu nu α β c d := Finset.sum_comm
            _ = ∑ mu, ∑ α, ∑ β, ∑ nu, ∑ c, ∑ d, f mu nu α β c d :=
                Finset.sum_congr rfl fun mu _ => Finset.sum_congr rfl fun α _ => Finset.sum_congr rfl fun β _ => Finset.sum_comm
            _ = ∑ mu, ∑ α, ∑ nu, ∑ β, ∑ c, ∑ d, f mu nu α β c d := Finset.sum_congr rfl fun mu _ => Finset.sum_congr rfl fun α _ => Finset.sum_comm
            _ = ∑ mu, ∑ nu, ∑ α, ∑ β, ∑ c, ∑ d, f mu nu α β c d := Finset.sum_congr rfl fun mu _ => Finset.sum_comm
        · simp

theorem psOperator_eq (t : ℕ) : psOperator T P t = ∑ x, if T.coord x 3 = t then
    ((∑ mu, ∑ nu, ∑ α, ∑ β, ∑ c, ∑ d, tabGamma 3 mu nu * (1 : SpinMat) β α * starRingEnd ℂ (P α c x mu d) * P β c x nu d)
      - ∑ mu, ∑ nu, ∑ α, ∑ β, ∑ c, ∑ d, (1 : SpinMat) mu nu * tabGamma 3 α β * starRingEnd ℂ (P α c x mu d) * P β c x nu d).re else 0 := by
  unfold psOperator
  calc _ = ∑ α, ∑ β, ∑ x, ∑ c, (if T.coord x 3 = t then ∑ mu, ∑ d,
          (0 - tabGamma 3 α β * starRingEnd ℂ (P α c x mu d) * P β c x mu d + tabGamma 3 α β * starRingEnd ℂ (P mu c x α d) * P mu c x β d).re else 0) :=
        Finset.sum_congr rfl fun α _ => Finset.sum_congr rfl fun β _ => Finset.sum_comm
    _ = ∑ α, ∑ x, ∑ β, ∑ c, (if T.coord x 3 = t then ∑ mu, ∑ d,
          (0 - tabGamma 3 α β * starRingEnd ℂ (P α c x mu d) * P β c x mu d + tabGamma 3 α β * starRingEnd ℂ (P mu c x α d) * P mu c x β d).re else 0) :=
        Finset.sum_congr rfl fun α _ => Finset.sum_comm
    _ = ∑ x, ∑ α, ∑ β, ∑ c, (if T.coord x 3 = t then ∑ mu, ∑ d,
          (0 - tabGamma 3 α β * starRingEnd ℂ (P α c x mu d) * P β c x mu d + tabGamma 3 α β * starRingEnd ℂ (P mu c x α d) * P mu c x β d).re else 0) :=
        Finset.sum_comm
    _ = _ := Finset.sum_congr rfl fun x _ => by
        split
        · have e1 : ∑ mu, ∑ nu, ∑ α, ∑ β, ∑ c, ∑ d, tabGamma 3 mu nu * (1 : SpinMat) β α * starRingEnd ℂ (P α c x mu d) * P β c x nu d
              = ∑ α, ∑ β, ∑ c, ∑ mu, ∑ d, tabGamma 3 α β * starRingEnd ℂ (P mu c x α d) * P mu c x β d := by
            refine Finset.sum_congr rfl fun mu _ => Finset.sum_congr rfl fun nu _ => ?_
            rw [Finset.sum_comm (s := (Finset.univ : Finset (Fin N)))]
            refine Finset.sum_congr rfl fun α _ => ?_
            rw [Finset.sum_eq_single α]
            · simp
            · intro β _ hβ; simp [one_apply, hβ]
            · simp
          have e2 : ∑ mu, ∑ nu, ∑ α, ∑ β, ∑ c, ∑ d, (1 : SpinMat) mu nu * tabGamma 3 α β * starRingEnd ℂ (P α c x mu d) * P β c x nu d
              = ∑ α, ∑ β, ∑ c, ∑ mu, ∑ d, tabGamma 3 α β * starRingEnd ℂ (P α c x mu d) * P β c x mu d := by
            have h : ∀ mu, ∑ nu, ∑ α, ∑ β, ∑ c, ∑ d, (1 : SpinMat) mu nu * tabGamma 3 α β * starRingEnd ℂ (P α c x mu d) * P β c x nu d
                = ∑ α, ∑ β, ∑ c, ∑ d, tabGamma 3 α β * starRingEnd ℂ (P α c x mu d) * P β c x mu d := by
              intro mu
              rw [Finset.sum_eq_single mu]
              · simp
              · intro nu _ hnu; simp [one_apply, Ne.symm hnu]
              · simp
            simp only [h]
            rw [Finset.sum_comm]
            refine Finset.sum_congr rfl fun α _ => ?_
            rw [Finset.sum_comm]
            exact Finset.sum_congr rfl fun β _ => Finset.sum_comm
          rw [e1, e2]
          simp only [← Finset.sum_sub_distrib, Complex.re_sum]
          refine Finset.sum_congr rfl fun α _ => Finset.sum_congr rfl fun β _ => Finset.sum_congr rfl fun c _ => Finset.sum_congr rfl fun mu _ =>
            Finset.sum_congr rfl fun d _ => ?_
          congr 1
          ring
        · simp

end

theorem gamma5_gamma5 : tabGamma5 * tabGamma5 = 1 := C32_gamma5.2.2.1

/-- A contraction of the Green function, seen from the origin of the rotated links. -/
theorem contraction_rotate [Fintype S] {T : Torus S} {o : S} (ho : IsOrigin T o) (G : S → S → Matrix (Fin 4 × Fin N) (Fin 4 × Fin N) ℂ) (Γ₁ Γ₂ : SpinMat)
    (n t : ℕ) (ht : t < T.ext 3) : contraction T G Γ₁ Γ₂ ((T.sup 3)^[n] o) t = ∑ x, if T.coord x 3 = t then
      trace (kroneckerMap (· * ·) Γ₁ (1 : Mat N) * G ((T.sup 3)^[n] x) ((T.sup 3)^[n] o) * kroneckerMap (· * ·) Γ₂ (1 : Mat N)
        * G ((T.sup 3)^[n] o) ((T.sup 3)^[n] x)) else 0 := by
  unfold contraction
  have h0 : T.coord o 3 = 0 := (ho o).2 rfl 3
  rw [coord_iterate, h0, zero_add]
  rw [← Equiv.sum_comp ((T.sup 3) ^ n)]
  refine Finset.sum_congr rfl fun x _ => ?_
  have hp : ((T.sup 3) ^ n) x = (T.sup 3)^[n] x := by rw [Equiv.Perm.iterate_eq_pow]
  rw [hp, coord_iterate]
  have hc : (T.coord x 3 + n) % T.ext 3 = (n % T.ext 3 + t) % T.ext 3 ↔ T.coord x 3 = t := by
    rw [Nat.mod_add_mod, Nat.add_comm n t]
    constructor
    · intro h
      have h' : T.coord x 3 ≡ t [MOD T.ext 3] := Nat.ModEq.add_right_cancel' n h
      exact h'.eq_of_lt_of_lt (T.coord_lt 3 x) ht
    · intro h; rw [h]
  simp only [hc]

/-- The sums of the program for an exact solver, as traces of the Green function of the same links. -/
theorem operators_green [Fintype S] [DecidableEq S] {T : Torus S} {κ csw : ℝ} {o : S} (ho : IsOrigin T o) {V : GField S N}
    {solve : SField S N → SField S N} (hs : ∀ b, improvedSpec T V κ csw (solve b) = b) {G : S → S → Matrix (Fin 4 × Fin N) (Fin 4 × Fin N) ℂ}
    (hG : IsGreen (improvedSpec T V κ csw) G) (t : ℕ) :
    pionOperator T (fun α c => constructPropagator none (solve (pointSource T α c))) t
        = (∑ x, if T.coord x 3 = t then siteTrace G tabGamma5 tabGamma5 x o else 0).re
    ∧ scalarOperator T (fun α c => constructPropagator none (solve (pointSource T α c))) t
        = (∑ x, if T.coord x 3 = t then siteTrace G (tabGamma 3) (tabGamma 3) x o else 0).re
    ∧ psOperator T (fun α c => constructPropagator none (solve (pointSource T α c))) t
        = ((∑ x, if T.coord x 3 = t then siteTrace G (tabGamma5 * tabGamma 3) tabGamma5 x o else 0)
          + ∑ x, if T.coord x 3 = t then siteTrace G tabGamma5 (tabGamma5 * tabGamma 3) x o else 0).re := by
  have hP : (fun (α : Fin 4) (c : Fin N) => constructPropagator none (solve (pointSource T α c)))
      = fun α c x => Matrix.of fun mu i => G x o (mu, i) (α, c) := by
    funext α c
    exact propagator_eq ho hs hG α c
  have h54 : tabGamma5 * tabGamma 3 = tabGamma5Gamma 3 := ((C32_derived 3 3).2.2.1).symm
  have h45 : tabGamma 3 * tabGamma5 = -tabGamma5Gamma 3 := by rw [← h54, C32_gamma5.2.2.2.1, neg_neg]
  have hre : ∀ (p : S → Prop) [DecidablePred p] (f : S → ℂ), (∑ x, if p x then f x else 0).re = ∑ x, if p x then (f x).re else 0 := by
    intro p _ f
    rw [Complex.re_sum]
    exact Finset.sum_congr rfl fun x _ => by split <;> rfl
  rw [hP]
  refine ⟨?_, ?_, ?_⟩
  · rw [hre, pionOperator_eq]
    refine Finset.sum_congr rfl fun x _ => ?_
    rw [siteTrace, trace_contraction hG x o, gamma5_gamma5]
    rfl
  · rw [hre, scalarOperator_eq]
    refine Finset.sum_congr rfl fun x _ => ?_
    have hx : ∀ α β, (-tabGamma5Gamma 3) β α = tabGamma5Gamma 3 α β := fun α β => by rw [Matrix.neg_apply, gamma5gamma4_antisymm α β]
    rw [siteTrace, trace_contraction hG x o, h54, h45]
    simp only [hx]
    rfl
  · rw [← Finset.sum_add_distrib, psOperator_eq]
    have hite : ∀ (p : Prop) [Decidable p] (a b : ℂ), (if p then a else 0) + (if p then b else 0) = if p then a + b else 0 := by
      intro p _ a b; split <;> simp
    simp only [hite]
    rw [hre]
    refine Finset.sum_congr rfl fun x _ => ?_
    have e1 : tabGamma5 * (tabGamma5 * tabGamma 3) = tabGamma 3 := by rw [← Matrix.mul_assoc, gamma5_gamma5, Matrix.one_mul]
    have e2 : tabGamma5 * tabGamma 3 * tabGamma5 = -tabGamma 3 := by
      rw [C32_gamma5.2.2.2.1, Matrix.neg_mul, Matrix.mul_assoc, gamma5_gamma5, Matrix.mul_one]
    rw [siteTrace, siteTrace, trace_contraction hG x o, trace_contraction hG x o, e1, e2, gamma5_gamma5]
    have hn : ∀ α β, (-tabGamma 3) β α = -tabGamma 3 α β := fun α β => by rw [Matrix.neg_apply, gamma4_symm]
    simp only [hn, mul_neg, neg_mul, Finset.sum_neg_distrib, ← sub_eq_add_neg]
    rfl

theorem prev_time {n t : ℕ} (ht : t < n) : (if t = 0 then n - 1 else t - 1) = (t + n - 1) % n := by
  split
  · next h => subst h; rw [Nat.zero_add, Nat.mod_eq_of_lt (by omega)]
  · next h => rw [show t + n - 1 = (t - 1) + n by omega, Nat.add_mod_right, Nat.mod_eq_of_lt (by omega)]

theorem next_time {n t : ℕ} (ht : t < n) : (if t = n - 1 then 0 else t + 1) = (t + 1) % n := by
  split
  · next h => rw [show t + 1 = n by omega, Nat.mod_self]
  · next h => rw [Nat.mod_eq_of_lt (by omega)]

/-- **C61**: the correlators which the program writes are contractions of the Green function of the operator on the links of the configuration, between
the source, at time `t_source_origin`, and the time slices after it. The first is that of the pseudoscalar density with itself, the second that of the
time component of the vector current with itself (it is written under the name of the scalar), the third that of the time component of the axial
current with the pseudoscalar density, in both orders; the PCAC mass is the symmetric difference of the third in time over four times the first. -/
theorem C61_wick [Fintype S] [DecidableEq S] (T : Torus S) {κ : ℝ} {D : GField S N → SField S N → SField S N} (hD : IsWilsonType T κ D) {o : S}
    (ho : IsOrigin T o) (U : GField S N) (n : ℕ) (solve : GField S N → SField S N → SField S N)
    (hs : ∀ b, D (rotateLinks T n U) (solve (rotateLinks T n U) b) = b) {G : S → S → Matrix (Fin 4 × Fin N) (Fin 4 × Fin N) ℂ} (hG : IsGreen (D U) G) :
    (mesonExecute T κ solve (fun _ => none) n U).pion
        = (List.range (T.ext 3)).map (fun t => 4 * κ ^ 2 * (contraction T G tabGamma5 tabGamma5 ((T.sup 3)^[n] o) t).re)
    ∧ (mesonExecute T κ solve (fun _ => none) n U).scalar
        = (List.range (T.ext 3)).map (fun t => 4 * κ ^ 2 * (contraction T G (tabGamma 3) (tabGamma 3) ((T.sup 3)^[n] o) t).re)
    ∧ (mesonExecute T κ solve (fun _ => none) n U).ps
        = (List.range (T.ext 3)).map (fun t => 4 * κ ^ 2 * (contraction T G (tabGamma5 * tabGamma 3) tabGamma5 ((T.sup 3)^[n] o) t
            + contraction T G tabGamma5 (tabGamma5 * tabGamma 3) ((T.sup 3)^[n] o) t).re)
    ∧ (mesonExecute T κ solve (fun _ => none) n U).pcac
        = (List.range (T.ext 3)).map (fun t =>
            let A := fun s => (contraction T G (tabGamma5 * tabGamma 3) tabGamma5 ((T.sup 3)^[n] o) s
              + contraction T G tabGamma5 (tabGamma5 * tabGamma 3) ((T.sup 3)^[n] o) s).re
            let P := (contraction T G tabGamma5 tabGamma5 ((T.sup 3)^[n] o) t).re
            if P = 0 then none else some ((A ((t + T.ext 3 - 1) % T.ext 3) - A ((t + 1) % T.ext 3)) / (4 * P))) := by
  obtain ⟨csw, hD⟩ := hD.spec
  rw [hD] at hs hG
  have key := operators_green ho hs (green_rotate hG n)
  have hc : ∀ Γ₁ Γ₂ t, t < T.ext 3 → contraction T G Γ₁ Γ₂ ((T.sup 3)^[n] o) t = ∑ x, if T.coord x 3 = t then
      siteTrace (fun x y => G ((T.sup 3)^[n] x) ((T.sup 3)^[n] y)) Γ₁ Γ₂ x o else 0 := fun Γ₁ Γ₂ t ht => contraction_rotate ho G Γ₁ Γ₂ n t ht
  have hmul : ∀ a b : ℝ, a = b → 4 * κ * κ * a = 4 * κ ^ 2 * b := fun a b h => by rw [h]; ring
  unfold mesonExecute
  simp only [mesonOutput]
  refine ⟨List.map_congr_left fun t ht => hmul _ _ ?_, List.map_congr_left fun t ht => hmul _ _ ?_, List.map_congr_left fun t ht => hmul _ _ ?_,
    List.map_congr_left fun t ht => ?_⟩
  · rw [(key t).1, hc _ _ t (List.mem_range.1 ht)]
  · rw [(key t).2.1, hc _ _ t (List.mem_range.1 ht)]
  · rw [(key t).2.2, hc _ _ t (List.mem_range.1 ht), hc _ _ t (List.mem_range.1 ht)]
  · have ht' := List.mem_range.1 ht
    have hlt : ∀ k, k % T.ext 3 < T.ext 3 := fun k => Nat.mod_lt _ (by omega)
    rw [prev_time ht', next_time ht', (key t).1, (key _).2.2, (key _).2.2]
    simp only [hc _ _ t ht', hc _ _ _ (hlt _)]
    simp only [mul_eq_zero, OfNat.ofNat_ne_zero, false_or]

end Leonard
