import Verif.Hmc.Lemmas
import Mathlib.RingTheory.PowerSeries.Basic
import Mathlib.LinearAlgebra.Dual.Lemmas

/-!
# Order of the integrators: formal power series

`A` generates the motion of the links and `B i` the change of the momenta by force `i`; both are elements of a ring that need not be
commutative.  An update of length `ε` stands for `exp (ε X A)` or `exp (ε X B i)`, and a sequence of updates for the product.
-/

set_option autoImplicit false

namespace Leonard

open PowerSeries Finset

variable {ι : Type} {R : Type*} [Ring R] [Algebra ℝ R]

/-- `exp (X a)`. -/
noncomputable def expS (a : R) : R⟦X⟧ := PowerSeries.mk fun k => ((k.factorial : ℝ)⁻¹) • a ^ k

/-- `S (r X)`. -/
noncomputable def scaleS (r : ℝ) (S : R⟦X⟧) : R⟦X⟧ := PowerSeries.mk fun k => r ^ k • coeff k S

/-- Equality of the coefficients below `n`. -/
def AgreeS (n : ℕ) (S T : R⟦X⟧) : Prop := ∀ k < n, coeff k S = coeff k T

theorem coeff_expS (a : R) (k : ℕ) : coeff k (expS a) = ((k.factorial : ℝ)⁻¹) • a ^ k := coeff_mk _ _

theorem coeff_scaleS (r : ℝ) (S : R⟦X⟧) (k : ℕ) : coeff k (scaleS r S) = r ^ k • coeff k S := coeff_mk _ _

theorem scaleS_mul (r : ℝ) (S T : R⟦X⟧) : scaleS r (S * T) = scaleS r S * scaleS r T := by
  ext n
  rw [coeff_scaleS, coeff_mul, coeff_mul, Finset.smul_sum]
  refine Finset.sum_congr rfl fun p hp => ?_
  rw [coeff_scaleS, coeff_scaleS, smul_mul_smul_comm, ← pow_add, mem_antidiagonal.1 hp]

theorem scaleS_one (r : ℝ) : scaleS r (1 : R⟦X⟧) = 1 := by
  ext n
  rw [coeff_scaleS, coeff_one]
  split
  · subst_vars; simp
  · simp

theorem scaleS_scaleS (r s : ℝ) (S : R⟦X⟧) : scaleS r (scaleS s S) = scaleS (r * s) S := by
  ext n; rw [coeff_scaleS, coeff_scaleS, coeff_scaleS, smul_smul, mul_pow]

theorem scaleS_expS (r : ℝ) (a : R) : scaleS r (expS a) = expS (r • a) := by
  ext n; rw [coeff_scaleS, coeff_expS, coeff_expS, smul_pow, smul_comm]

theorem expS_zero : expS (0 : R) = 1 := by
  ext n
  rw [coeff_expS, coeff_one]
  split
  · subst_vars; simp
  · rename_i h; rw [zero_pow h, smul_zero]

theorem expS_add (s t : ℝ) (a : R) : expS (s • a) * expS (t • a) = expS ((s + t) • a) := by
  ext n
  rw [coeff_mul, coeff_expS, smul_pow, (Commute.all s t).add_pow', Finset.sum_smul, Finset.smul_sum]
  refine Finset.sum_congr rfl fun p hp => ?_
  have hp' := mem_antidiagonal.1 hp
  rw [coeff_expS, coeff_expS, smul_pow, smul_pow, smul_smul, smul_smul, smul_mul_smul_comm, ← pow_add, hp', smul_smul]
  congr 1
  rw [← hp', nsmul_eq_mul, Nat.choose_symm_add, Nat.add_choose p.1 p.2, Nat.cast_div (Nat.factorial_mul_factorial_dvd_factorial_add _ _)
    (by positivity)]
  have : ((p.1 + p.2).factorial : ℝ) ≠ 0 := by positivity
  have : (p.1.factorial : ℝ) ≠ 0 := by positivity
  have : (p.2.factorial : ℝ) ≠ 0 := by positivity
  push_cast
  field_simp

theorem coeff_zero_mul (S T : R⟦X⟧) : coeff 0 (S * T) = coeff 0 S * coeff 0 T := by
  rw [coeff_mul, Finset.Nat.antidiagonal_zero, Finset.sum_singleton]

theorem coeff_one_mul (S T : R⟦X⟧) : coeff 1 (S * T) = coeff 0 S * coeff 1 T + coeff 1 S * coeff 0 T := by
  rw [coeff_mul, show antidiagonal 1 = ({(0, 1), (1, 0)} : Finset (ℕ × ℕ)) from rfl, Finset.sum_pair (by decide)]

/-- `S(X) S(-X) = 1`. -/
def SymS (S : R⟦X⟧) : Prop := S * scaleS (-1) S = 1

theorem symS_expS (a : R) : SymS (expS a) := by
  unfold SymS
  rw [scaleS_expS]
  have := expS_add 1 (-1) a
  rwa [one_smul, add_neg_cancel, zero_smul, expS_zero] at this

theorem coeff_low_mul {m : ℕ} {D : R⟦X⟧} (hD : ∀ k < m, coeff k D = 0) (Y : R⟦X⟧) : coeff m (D * Y) = coeff m D * coeff 0 Y := by
  rw [coeff_mul, Finset.sum_eq_single (m, 0)]
  · rintro ⟨i, j⟩ hp hne
    have hij := mem_antidiagonal.1 hp
    simp only at hij
    rcases Nat.lt_or_ge i m with h | h
    · rw [hD i h, zero_mul]
    · exact absurd (Prod.ext (show i = m by omega) (show j = 0 by omega)) hne
  · intro h; exact absurd (mem_antidiagonal.2 (by simp)) h

theorem coeff_mul_low {m : ℕ} {D : R⟦X⟧} (hD : ∀ k < m, coeff k D = 0) (Y : R⟦X⟧) : coeff m (Y * D) = coeff 0 Y * coeff m D := by
  rw [coeff_mul, Finset.sum_eq_single (0, m)]
  · rintro ⟨i, j⟩ hp hne
    have hij := mem_antidiagonal.1 hp
    simp only at hij
    rcases Nat.lt_or_ge j m with h | h
    · rw [hD j h, mul_zero]
    · exact absurd (Prod.ext (show i = 0 by omega) (show j = m by omega)) hne
  · intro h; exact absurd (mem_antidiagonal.2 (by simp)) h

/-- The first coefficient in which two products differ. -/
theorem coeff_mul_sub {m : ℕ} {S S' T T' : R⟦X⟧} (h : AgreeS m S T) (h' : AgreeS m S' T') :
    coeff m (S * S') - coeff m (T * T') = (coeff m S - coeff m T) * coeff 0 S' + coeff 0 T * (coeff m S' - coeff m T') := by
  have e : S * S' - T * T' = (S - T) * S' + T * (S' - T') := by noncomm_ring
  rw [← map_sub, e, map_add, coeff_low_mul (D := S - T), coeff_mul_low (D := S' - T'), map_sub, map_sub]
  · intro k hk; rw [map_sub, h' k hk, sub_self]
  · intro k hk; rw [map_sub, h k hk, sub_self]

theorem AgreeS.mul {m : ℕ} {S S' T T' : R⟦X⟧} (h : AgreeS m S T) (h' : AgreeS m S' T') : AgreeS m (S * S') (T * T') := by
  intro k hk
  rw [coeff_mul, coeff_mul]
  refine Finset.sum_congr rfl fun p hp => ?_
  have := mem_antidiagonal.1 hp
  rw [h p.1 (by omega), h' p.2 (by omega)]

theorem AgreeS.scale {m : ℕ} {S T : R⟦X⟧} (h : AgreeS m S T) (r : ℝ) : AgreeS m (scaleS r S) (scaleS r T) := by
  intro k hk
  rw [coeff_scaleS, coeff_scaleS, h k hk]

theorem AgreeS.succ {m : ℕ} {S T : R⟦X⟧} (h : AgreeS m S T) (hm : coeff m S = coeff m T) : AgreeS (m + 1) S T := by
  intro k hk
  rcases Nat.lt_succ_iff_lt_or_eq.1 hk with h1 | h1
  · exact h k h1
  · rw [h1, hm]

/-- A symmetric series that agrees with another one to an odd order agrees to the next order. -/
theorem AgreeS.even {m : ℕ} {S T : R⟦X⟧} (h : AgreeS m S T) (hm : Even m) (hS : SymS S) (hT : SymS T)
    (h0 : coeff 0 S = 1) (h1 : coeff 0 T = 1) : AgreeS (m + 1) S T := by
  refine h.succ ?_
  have e := coeff_mul_sub h (h.scale (-1))
  rw [hS, hT, sub_self, coeff_scaleS, coeff_scaleS, coeff_scaleS, h0, h1, hm.neg_one_pow] at e
  simp only [one_smul, pow_zero, mul_one, one_mul] at e
  have e2 : (2 : ℝ) • (coeff m S - coeff m T) = 0 := by rw [two_smul, ← e]
  have := (smul_eq_zero.1 e2).resolve_left (by norm_num)
  exact sub_eq_zero.1 this

/-- Three copies of different lengths of a method whose first error is at `X ^ m`. -/
theorem AgreeS.triple {m : ℕ} (hm : 0 < m) {S : R⟦X⟧} {a : R} (h : AgreeS m S (expS a)) {b c : ℝ} (h1 : b + c + b = 1)
    (hc : 2 * b ^ m + c ^ m = 0) : AgreeS (m + 1) (scaleS b S * scaleS c S * scaleS b S) (expS a) := by
  have he : expS a = scaleS b (expS a) * scaleS c (expS a) * scaleS b (expS a) := by
    rw [scaleS_expS, scaleS_expS, expS_add, expS_add, h1, one_smul]
  have h0 : coeff 0 S = 1 := by rw [h 0 hm, coeff_expS]; simp
  have hh := ((h.scale b).mul (h.scale c)).mul (h.scale b)
  rw [← he] at hh
  refine hh.succ ?_
  have e1 := coeff_mul_sub ((h.scale b).mul (h.scale c)) (h.scale b)
  rw [← he, coeff_mul_sub (h.scale b) (h.scale c)] at e1
  rw [← sub_eq_zero, e1]
  have z1 : ∀ r, coeff 0 (scaleS r S) = 1 := fun r => by rw [coeff_scaleS, h0]; simp
  have z2 : ∀ r, coeff 0 (scaleS r (expS a)) = 1 := fun r => by rw [coeff_scaleS, coeff_expS]; simp
  rw [z1, z1, coeff_zero_mul, z2, z2, mul_one, mul_one, one_mul, one_mul, one_mul]
  rw [coeff_scaleS, coeff_scaleS, coeff_scaleS, coeff_scaleS, ← smul_sub, ← smul_sub, ← add_smul, ← add_smul]
  rw [show b ^ m + c ^ m + b ^ m = 2 * b ^ m + c ^ m by ring, hc, zero_smul]

/-! ### Sequences of updates -/

/-- The element that generates an update. -/
def MdOp.gen (A : R) (B : ι → R) : MdOp ι → R
  | .link ε => ε • A
  | .mom i ε => ε • B i

/-- The series of a sequence of updates. -/
noncomputable def runS (A : R) (B : ι → R) (l : List (MdOp ι)) : R⟦X⟧ := (l.map fun o => expS (o.gen A B)).prod

/-- The update with `r` times the step. -/
def MdOp.scale (r : ℝ) : MdOp ι → MdOp ι
  | .link ε => .link (r * ε)
  | .mom i ε => .mom i (r * ε)

variable (A : R) (B : ι → R)

theorem gen_scale (r : ℝ) (o : MdOp ι) : (o.scale r).gen A B = r • o.gen A B := by
  cases o <;> simp [MdOp.scale, MdOp.gen, smul_smul]

theorem runS_append (l m : List (MdOp ι)) : runS A B (l ++ m) = runS A B l * runS A B m := by simp [runS]

theorem runS_scale (r : ℝ) (l : List (MdOp ι)) : runS A B (l.map (MdOp.scale r)) = scaleS r (runS A B l) := by
  induction l with
  | nil => simp [runS, scaleS_one]
  | cons o l ih =>
    have e : ∀ (o : MdOp ι) l, runS A B (o :: l) = expS (o.gen A B) * runS A B l := fun o l => by simp [runS]
    rw [List.map_cons, e, e, ih, scaleS_mul, scaleS_expS, gen_scale]

theorem runS_reverse (l : List (MdOp ι)) : runS A B l * runS A B (l.reverse.map (MdOp.scale (-1))) = 1 := by
  induction l with
  | nil => simp [runS]
  | cons o l ih =>
    have e : ∀ (o : MdOp ι) l, runS A B (o :: l) = expS (o.gen A B) * runS A B l := fun o l => by simp [runS]
    have e1 : ∀ o : MdOp ι, runS A B [o] = expS (o.gen A B) := fun o => by simp [runS]
    rw [List.reverse_cons, List.map_append, runS_append, e, mul_assoc, ← mul_assoc (runS A B l), ih, one_mul, List.map_cons, List.map_nil,
      e1, gen_scale, ← scaleS_expS]
    exact symS_expS _

theorem coeff_zero_runS (l : List (MdOp ι)) : coeff 0 (runS A B l) = 1 := by
  induction l with
  | nil => simp [runS]
  | cons o l ih =>
    rw [show runS A B (o :: l) = expS (o.gen A B) * runS A B l by simp [runS], coeff_zero_mul, ih, coeff_expS]
    simp

theorem coeff_one_runS (l : List (MdOp ι)) : coeff 1 (runS A B l) = (l.map (MdOp.gen A B)).sum := by
  induction l with
  | nil => simp [runS, coeff_one]
  | cons o l ih =>
    rw [show runS A B (o :: l) = expS (o.gen A B) * runS A B l by simp [runS], coeff_one_mul, ih, coeff_zero_runS, coeff_expS, coeff_expS,
      List.map_cons, List.sum_cons]
    simp only [Nat.factorial_zero, Nat.factorial_one, Nat.cast_one, inv_one, one_smul, pow_zero, pow_one, one_mul, mul_one]
    exact add_comm _ _

/-! ### The length of the trajectory is a factor -/

theorem leapFrog_scale (r : ℝ) (fs : List ι) (ns : List ℕ) (t : ℝ) :
    leapFrog fs ns (r * t) = (leapFrog fs ns t).mapOk (List.map (MdOp.scale r)) := by
  fun_induction leapFrog fs ns t with
  | case1 => rfl
  | case2 => rfl
  | case3 => simp [leapFrog, Outcome.mapOk]
  | case4 f fs n ns t hn step ih =>
    rw [mapOk_bind, leapFrog, if_neg hn]
    simp only [mul_div_assoc]
    change ((if fs.isEmpty then Outcome.ok [MdOp.link (r * step)] else leapFrog fs ns (r * step)) >>= _) = _
    have e : (if fs.isEmpty = true then Outcome.ok [MdOp.link (r * step)] else leapFrog fs ns (r * step)) =
        (if fs.isEmpty = true then Outcome.ok [MdOp.link step] else leapFrog fs ns step).mapOk (List.map (MdOp.scale r)) := by
      split
      · rfl
      · exact ih
    rw [e, bind_mapOk]
    congr 1
    funext inner
    change Outcome.ok _ = Outcome.ok _
    congr 1
    simp [List.map_flatten, List.map_replicate, MdOp.scale, step]

theorem omelyan_scale (r : ℝ) (fs : List ι) (ns : List ℕ) (t : ℝ) :
    omelyan fs ns (r * t) = (omelyan fs ns t).mapOk (List.map (MdOp.scale r)) := by
  fun_induction omelyan fs ns t with
  | case1 => rfl
  | case2 => rfl
  | case3 => simp [omelyan, Outcome.mapOk]
  | case4 f fs n ns t hn step lambda ih =>
    rw [mapOk_bind, omelyan, if_neg hn]
    simp only [mul_div_assoc]
    change ((if fs.isEmpty then Outcome.ok [MdOp.link (r * (step / 2))] else omelyan fs ns (r * (step / 2))) >>= _) = _
    have e : (if fs.isEmpty = true then Outcome.ok [MdOp.link (r * (step / 2))] else omelyan fs ns (r * (step / 2))) =
        (if fs.isEmpty = true then Outcome.ok [MdOp.link (step / 2)] else omelyan fs ns (step / 2)).mapOk (List.map (MdOp.scale r)) := by
      split
      · rfl
      · exact ih
    rw [e, bind_mapOk]
    congr 1
    funext inner
    change Outcome.ok _ = Outcome.ok _
    congr 1
    simp [List.map_flatten, List.map_replicate, MdOp.scale, step, lambda, mul_left_comm]

theorem fourthOmelyan_scale (r : ℝ) (fs : List ι) (ns : List ℕ) (t : ℝ) :
    fourthOmelyan fs ns (r * t) = (fourthOmelyan fs ns t).mapOk (List.map (MdOp.scale r)) := by
  fun_induction fourthOmelyan fs ns t with
  | case1 => rfl
  | case2 => rfl
  | case3 => simp [fourthOmelyan, Outcome.mapOk]
  | case4 f fs n ns t hn step theta rho mu lambda ih1 ih2 ih3 =>
    have e : ∀ x : ℝ, (∀ h : ¬ fs.isEmpty = true, fourthOmelyan fs ns (r * x) = (fourthOmelyan fs ns x).mapOk (List.map (MdOp.scale r))) →
        (if fs.isEmpty = true then Outcome.ok [MdOp.link (r * x)] else fourthOmelyan fs ns (r * x)) =
        (if fs.isEmpty = true then Outcome.ok [MdOp.link x] else fourthOmelyan fs ns x).mapOk (List.map (MdOp.scale r)) := by
      intro x hx
      split
      · rfl
      · rename_i h; exact hx h
    rw [fourthOmelyan, if_neg hn]
    simp only []
    rw [show fourthTheta * (r * t / n) = r * (theta * step) by simp only [theta, step]; ring,
      show fourthLambda * (r * t / n) = r * (lambda * step) by simp only [lambda, step]; ring,
      show (1 - 2 * (fourthLambda + fourthTheta)) * (r * t / n) / 2 = r * ((1 - 2 * (lambda + theta)) * step / 2) by
        simp only [lambda, theta, step]; ring]
    rw [e _ fun _ => ih1, e _ fun _ => ih2, e _ fun _ => ih3, bind_mapOk, mapOk_bind]
    congr 1
    funext inner1
    rw [bind_mapOk, mapOk_bind]
    congr 1
    funext inner2
    rw [bind_mapOk, mapOk_bind]
    congr 1
    funext inner3
    change Outcome.ok _ = Outcome.ok _
    congr 1
    simp [List.map_flatten, List.map_replicate, MdOp.scale, step, rho, mu, mul_div_assoc, mul_left_comm]

theorem fourthOrder_scale (r : ℝ) (fs : List ι) (ns : List ℕ) (t : ℝ) :
    fourthOrder fs ns (r * t) = (fourthOrder fs ns t).mapOk (List.map (MdOp.scale r)) := by
  simp only [fourthOrder, mul_left_comm _ r, leapFrog_scale r, bind_mapOk, mapOk_bind]
  simp [Outcome.mapOk]

theorem sixthOrder_scale (r : ℝ) (fs : List ι) (ns : List ℕ) (t : ℝ) :
    sixthOrder fs ns (r * t) = (sixthOrder fs ns t).mapOk (List.map (MdOp.scale r)) := by
  simp only [sixthOrder, mul_left_comm _ r, fourthOrder_scale r, bind_mapOk, mapOk_bind]
  simp [Outcome.mapOk]

theorem mdIntegrate_scale (r : ℝ) (name : String) (fs : List ι) (ns : List ℕ) (t : ℝ) :
    mdIntegrate name fs ns (r * t) = (mdIntegrate name fs ns t).mapOk (List.map (MdOp.scale r)) := by
  unfold mdIntegrate
  split
  · exact leapFrog_scale _ _ _ _
  split
  · exact fourthOrder_scale _ _ _ _
  split
  · exact sixthOrder_scale _ _ _ _
  split
  · exact omelyan_scale _ _ _ _
  split
  · exact fourthOmelyan_scale _ _ _ _
  · rfl

/-! ### Orders -/

/-- A symmetric sequence whose steps add up is of second order. -/
theorem agree_three {l : List (MdOp ι)} {fs : List ι} (hp : l.reverse = l)
    (ht : ∀ (w : MdOp ι → ℝ) (a : ℝ) (c : ι → ℝ), MdWeight w a c → totalTime w l = a + (fs.map c).sum) :
    SymS (runS A B l) ∧ AgreeS 3 (runS A B l) (expS (A + (fs.map B).sum)) := by
  have hs : SymS (runS A B l) := by
    have := runS_reverse A B l
    rwa [hp, runS_scale] at this
  refine ⟨hs, ?_⟩
  have h2 : AgreeS 2 (runS A B l) (expS (A + (fs.map B).sum)) := by
    intro k hk
    have hk' : k = 0 ∨ k = 1 := by omega
    rcases hk' with rfl | rfl
    · rw [coeff_zero_runS, coeff_expS]; simp
    · rw [coeff_one_runS, coeff_expS]
      simp only [Nat.factorial_one, Nat.cast_one, inv_one, one_smul, pow_one]
      rw [← sub_eq_zero, ← Module.forall_dual_apply_eq_zero_iff ℝ]
      intro φ
      have := ht (fun o => φ (o.gen A B)) (φ A) (fun i => φ (B i)) ⟨fun ε => by simp [MdOp.gen, mul_comm], fun i ε => by simp [MdOp.gen, mul_comm]⟩
      rw [map_sub, map_add, map_list_sum, map_list_sum, List.map_map, List.map_map, sub_eq_zero]
      exact this
  refine h2.even (by decide) hs (symS_expS _) (coeff_zero_runS A B l) ?_
  rw [coeff_expS]; simp

theorem symS_triple {S : R⟦X⟧} (hS : SymS S) (b c : ℝ) : SymS (scaleS b S * scaleS c S * scaleS b S) := by
  have h : ∀ r, scaleS r S * scaleS (-r) S = 1 := fun r => by
    have := congrArg (scaleS r) hS
    rwa [scaleS_mul, scaleS_scaleS, scaleS_one, mul_neg_one] at this
  unfold SymS
  rw [scaleS_mul, scaleS_mul, scaleS_scaleS, scaleS_scaleS, neg_one_mul, neg_one_mul]
  calc scaleS b S * scaleS c S * scaleS b S * (scaleS (-b) S * scaleS (-c) S * scaleS (-b) S)
      = scaleS b S * (scaleS c S * (scaleS b S * scaleS (-b) S) * scaleS (-c) S) * scaleS (-b) S := by noncomm_ring
    _ = 1 := by rw [h, mul_one, h, mul_one, h]

theorem leapFrog_order {fs : List ι} {ns : List ℕ} {l : List (MdOp ι)} (h : leapFrog fs ns 1 = .ok l) :
    SymS (runS A B l) ∧ AgreeS 3 (runS A B l) (expS (A + (fs.map B).sum)) :=
  agree_three A B (leapFrog_palindrome _ _ _ _ h) fun w a c hw => by simpa using leapFrog_time hw _ _ _ _ h

/-- The composition of a symmetric method of even order `m - 1` with itself. -/
theorem triple_order {S : R⟦X⟧} {a : R} {m : ℕ} (hm : Odd m) (hS : SymS S) (h : AgreeS m S (expS a)) {x : ℝ} (hx : x ^ m = 2) (hx2 : x ≠ 2) :
    SymS (scaleS (1 / (2 - x)) S * scaleS (-x / (2 - x)) S * scaleS (1 / (2 - x)) S) ∧
      AgreeS (m + 2) (scaleS (1 / (2 - x)) S * scaleS (-x / (2 - x)) S * scaleS (1 / (2 - x)) S) (expS a) := by
  have hd : 2 - x ≠ 0 := sub_ne_zero.2 hx2.symm
  have h3 := h.triple hm.pos (b := 1 / (2 - x)) (c := -x / (2 - x)) (by field_simp; ring) (by
    rw [div_pow, div_pow, hm.neg_pow, hx]; ring)
  have hs := symS_triple hS (1 / (2 - x)) (-x / (2 - x))
  refine ⟨hs, h3.even (by obtain ⟨k, rfl⟩ := hm; exact ⟨k + 1, by ring⟩) hs (symS_expS _) ?_ ?_⟩
  · rw [h3 0 (by omega), coeff_expS]; simp
  · rw [coeff_expS]; simp

theorem two_rpow_pow (m : ℕ) (hm : m ≠ 0) : ((2 : ℝ) ^ ((1 : ℝ) / m)) ^ m = 2 := by
  rw [← Real.rpow_natCast, ← Real.rpow_mul (by norm_num), one_div, inv_mul_cancel₀ (by exact_mod_cast hm), Real.rpow_one]

theorem fourthOrder_order {fs : List ι} {ns : List ℕ} {l : List (MdOp ι)} (h : fourthOrder fs ns 1 = .ok l) :
    SymS (runS A B l) ∧ AgreeS 5 (runS A B l) (expS (A + (fs.map B).sum)) := by
  simp only [fourthOrder, leapFrog_scale _ fs ns 1] at h
  obtain ⟨x, h1, h⟩ := outcome_bind_ok h
  obtain ⟨y, h2, h⟩ := outcome_bind_ok h
  obtain ⟨z, h3, h⟩ := outcome_bind_ok h
  cases h
  cases h0 : leapFrog fs ns 1 with
  | ok l0 =>
    rw [h0] at h1 h2 h3
    cases h1; cases h2; cases h3
    obtain ⟨hs, ha⟩ := leapFrog_order A B h0
    rw [runS_append, runS_append, runS_scale, runS_scale]
    exact triple_order (m := 3) (by decide) hs ha (by exact_mod_cast two_rpow_pow 3 (by norm_num)) (by
      have := rpow_ne_two (x := 1 / 3) (by norm_num) (by norm_num)
      intro e; exact this (by linarith))
  | exit c => rw [h0] at h1; cases h1
  | ub => rw [h0] at h1; cases h1

theorem sixthOrder_order {fs : List ι} {ns : List ℕ} {l : List (MdOp ι)} (h : sixthOrder fs ns 1 = .ok l) :
    SymS (runS A B l) ∧ AgreeS 7 (runS A B l) (expS (A + (fs.map B).sum)) := by
  simp only [sixthOrder, fourthOrder_scale _ fs ns 1] at h
  obtain ⟨x, h1, h⟩ := outcome_bind_ok h
  obtain ⟨y, h2, h⟩ := outcome_bind_ok h
  obtain ⟨z, h3, h⟩ := outcome_bind_ok h
  cases h
  cases h0 : fourthOrder fs ns 1 with
  | ok l0 =>
    rw [h0] at h1 h2 h3
    cases h1; cases h2; cases h3
    obtain ⟨hs, ha⟩ := fourthOrder_order A B h0
    rw [runS_append, runS_append, runS_scale, runS_scale]
    exact triple_order (m := 5) (by decide) hs ha (by exact_mod_cast two_rpow_pow 5 (by norm_num)) (by
      have := rpow_ne_two (x := 1 / 5) (by norm_num) (by norm_num)
      intro e; exact this (by linarith))
  | exit c => rw [h0] at h1; cases h1
  | ub => rw [h0] at h1; cases h1

end Leonard
