import Verif.Order.Props

/-!
# Leading errors of the integrators of second order: formal part
-/

set_option autoImplicit false

namespace Leonard

open PowerSeries Finset

variable {ι : Type} {R : Type*} [Ring R] [Algebra ℝ R]

/-- Coefficients of the words of length at most three in two letters. -/
structure W3 where
  (a b aa ab ba bb aaa aab aba abb baa bab bba bbb : ℝ)

/-- `S` is given by the words to third order. -/
structure HasW (A B : R) (S : R⟦X⟧) (w : W3) : Prop where
  zero : coeff 0 S = 1
  one : coeff 1 S = w.a • A + w.b • B
  two : coeff 2 S = w.aa • (A * A) + w.ab • (A * B) + w.ba • (B * A) + w.bb • (B * B)
  three : coeff 3 S = w.aaa • (A * A * A) + w.aab • (A * A * B) + w.aba • (A * B * A) + w.abb • (A * B * B) +
    w.baa • (B * A * A) + w.bab • (B * A * B) + w.bba • (B * B * A) + w.bbb • (B * B * B)

/-- One more update at the front. -/
noncomputable def W3.push : MdOp Unit → W3 → W3
  | .link e, w => { w with
      a := w.a + e
      aa := w.aa + e * w.a + e ^ 2 / 2
      ab := w.ab + e * w.b
      aaa := w.aaa + e * w.aa + e ^ 2 / 2 * w.a + e ^ 3 / 6
      aab := w.aab + e * w.ab + e ^ 2 / 2 * w.b
      aba := w.aba + e * w.ba
      abb := w.abb + e * w.bb }
  | .mom _ e, w => { w with
      b := w.b + e
      ba := w.ba + e * w.a
      bb := w.bb + e * w.b + e ^ 2 / 2
      baa := w.baa + e * w.aa
      bab := w.bab + e * w.ab
      bba := w.bba + e * w.ba + e ^ 2 / 2 * w.a
      bbb := w.bbb + e * w.bb + e ^ 2 / 2 * w.b + e ^ 3 / 6 }

/-- The words of a sequence of updates. -/
noncomputable def words (l : List (MdOp Unit)) : W3 := l.foldr W3.push ⟨0, 0, 0, 0, 0, 0, 0, 0, 0, 0, 0, 0, 0, 0⟩

theorem coeff_two_mul (S T : R⟦X⟧) : coeff 2 (S * T) = coeff 0 S * coeff 2 T + coeff 1 S * coeff 1 T + coeff 2 S * coeff 0 T := by
  rw [coeff_mul, Finset.Nat.sum_antidiagonal_eq_sum_range_succ_mk, Finset.sum_range_succ, Finset.sum_range_succ, Finset.sum_range_one]

theorem coeff_three_mul (S T : R⟦X⟧) : coeff 3 (S * T) =
    coeff 0 S * coeff 3 T + coeff 1 S * coeff 2 T + coeff 2 S * coeff 1 T + coeff 3 S * coeff 0 T := by
  rw [coeff_mul, Finset.Nat.sum_antidiagonal_eq_sum_range_succ_mk, Finset.sum_range_succ, Finset.sum_range_succ, Finset.sum_range_succ,
    Finset.sum_range_one]

theorem coeff_low_expS (a : R) : coeff 0 (expS a) = 1 ∧ coeff 1 (expS a) = a ∧ coeff 2 (expS a) = (1 / 2 : ℝ) • (a * a) ∧
    coeff 3 (expS a) = (1 / 6 : ℝ) • (a * a * a) := by
  refine ⟨?_, ?_, ?_, ?_⟩ <;> rw [coeff_expS]
  · simp
  · simp
  · rw [pow_two]; norm_num [Nat.factorial]
  · rw [pow_succ, pow_two]; norm_num [Nat.factorial]

theorem HasW.push {A B : R} {S : R⟦X⟧} {w : W3} (h : HasW A B S w) (o : MdOp Unit) :
    HasW A B (expS (o.gen A fun _ => B) * S) (w.push o) := by
  cases o with
  | link e =>
    obtain ⟨e0, e1, e2, e3⟩ := coeff_low_expS (e • A)
    constructor
    · rw [coeff_zero_mul, MdOp.gen, e0, h.zero, one_mul]
    · rw [coeff_one_mul, MdOp.gen, e0, e1, h.zero, h.one]
      simp only [W3.push]
      simp only [one_mul, mul_one]
      module
    · rw [coeff_two_mul, MdOp.gen, e0, e1, e2, h.zero, h.one, h.two]
      simp only [W3.push, one_mul, mul_one, smul_mul_assoc, mul_smul_comm, mul_add, add_mul, mul_assoc]
      module
    · rw [coeff_three_mul, MdOp.gen, e0, e1, e2, e3, h.zero, h.one, h.two, h.three]
      simp only [W3.push, one_mul, mul_one, smul_mul_assoc, mul_smul_comm, mul_add, add_mul, mul_assoc]
      module
  | mom i e =>
    obtain ⟨e0, e1, e2, e3⟩ := coeff_low_expS (e • B)
    constructor
    · rw [coeff_zero_mul, MdOp.gen, e0, h.zero, one_mul]
    · rw [coeff_one_mul, MdOp.gen, e0, e1, h.zero, h.one]
      simp only [W3.push]
      simp only [one_mul, mul_one]
      module
    · rw [coeff_two_mul, MdOp.gen, e0, e1, e2, h.zero, h.one, h.two]
      simp only [W3.push, one_mul, mul_one, smul_mul_assoc, mul_smul_comm, mul_add, add_mul, mul_assoc]
      module
    · rw [coeff_three_mul, MdOp.gen, e0, e1, e2, e3, h.zero, h.one, h.two, h.three]
      simp only [W3.push, one_mul, mul_one, smul_mul_assoc, mul_smul_comm, mul_add, add_mul, mul_assoc]
      module

theorem hasW_words (A B : R) (l : List (MdOp Unit)) : HasW A B (runS A (fun _ => B) l) (words l) := by
  induction l with
  | nil => constructor <;> simp [runS, words, coeff_one]
  | cons o l ih =>
    rw [show runS A (fun _ => B) (o :: l) = expS (o.gen A fun _ => B) * runS A (fun _ => B) l by simp [runS]]
    exact ih.push o

/-- `S` differs from the exact motion at third order by the two double commutators with factors `a` and `b`. -/
structure ErrS (A B : R) (a b : ℝ) (S : R⟦X⟧) : Prop where
  low : AgreeS 3 S (expS (A + B))
  high : coeff 3 S - coeff 3 (expS (A + B)) = a • (A * A * B - (2 : ℝ) • (A * B * A) + B * A * A) + b • (A * B * B - (2 : ℝ) • (B * A * B) + B * B * A)

theorem errS_of_words {A B : R} {l : List (MdOp Unit)} {a b : ℝ} {w : W3} (hw : words l = w)
    (h1 : w.a = 1 ∧ w.b = 1) (h2 : w.aa = 1 / 2 ∧ w.ab = 1 / 2 ∧ w.ba = 1 / 2 ∧ w.bb = 1 / 2)
    (h3 : w.aaa = 1 / 6 ∧ w.bbb = 1 / 6) (h4 : w.aab = 1 / 6 + a ∧ w.aba = 1 / 6 - 2 * a ∧ w.baa = 1 / 6 + a)
    (h5 : w.abb = 1 / 6 + b ∧ w.bab = 1 / 6 - 2 * b ∧ w.bba = 1 / 6 + b) : ErrS A B a b (runS A (fun _ => B) l) := by
  have h := hasW_words A B l
  rw [hw] at h
  obtain ⟨e0, e1, e2, e3⟩ := coeff_low_expS (A + B)
  refine ⟨fun k hk => ?_, ?_⟩
  · have hk' : k = 0 ∨ k = 1 ∨ k = 2 := by omega
    rcases hk' with rfl | rfl | rfl
    · rw [h.zero, e0]
    · rw [h.one, e1, h1.1, h1.2, one_smul, one_smul]
    · rw [h.two, e2, h2.1, h2.2.1, h2.2.2.1, h2.2.2.2]
      simp only [mul_add, add_mul]
      module
  · rw [h.three, e3, h3.1, h3.2, h4.1, h4.2.1, h4.2.2, h5.1, h5.2.1, h5.2.2]
    simp only [mul_add, add_mul]
    module

/-- `n` steps of length `1 / n`. -/
theorem ErrS.repeat {A B : R} {a b : ℝ} {S : R⟦X⟧} (h : ErrS A B a b S) (n : ℕ) (hn : n ≠ 0) :
    ErrS A B (a / n ^ 2) (b / n ^ 2) (scaleS (1 / n) S ^ n) := by
  set r : ℝ := 1 / n with hr
  set D := coeff 3 S - coeff 3 (expS (A + B)) with hD
  have h0 : coeff 0 S = 1 := by rw [h.low 0 (by norm_num)]; exact (coeff_low_expS _).1
  have key : ∀ k : ℕ, AgreeS 3 (scaleS r S ^ k) (expS ((k * r) • (A + B))) ∧
      coeff 3 (scaleS r S ^ k) - coeff 3 (expS ((k * r) • (A + B))) = (k * r ^ 3) • D := by
    intro k
    induction k with
    | zero => simp [expS_zero, AgreeS]
    | succ k ih =>
      have e : expS (((k + 1 : ℕ) * r) • (A + B)) = expS ((k * r) • (A + B)) * scaleS r (expS (A + B)) := by
        rw [scaleS_expS, expS_add]; push_cast; congr 2; ring
      rw [pow_succ, e]
      refine ⟨ih.1.mul (h.low.scale r), ?_⟩
      rw [coeff_mul_sub ih.1 (h.low.scale r), ih.2, coeff_scaleS, coeff_scaleS, coeff_scaleS, h0, (coeff_low_expS _).1, ← smul_sub, ← hD]
      simp only [pow_zero, one_smul, mul_one, one_mul]
      rw [← add_smul]
      push_cast
      congr 1
      ring
  have hk := key n
  have hn' : (n : ℝ) ≠ 0 := by exact_mod_cast hn
  have e1 : (n : ℝ) * r = 1 := by rw [hr]; field_simp
  rw [e1, one_smul] at hk
  refine ⟨hk.1, ?_⟩
  rw [hk.2, hD, h.high, smul_add, smul_smul, smul_smul]
  congr 2
  · rw [hr]; field_simp
  · rw [hr]; field_simp

theorem runS_single (A : R) (B : ι → R) (o : MdOp ι) : runS A B [o] = expS (o.gen A B) := by simp [runS]

theorem runS_replicate (A : R) (B : ι → R) (n : ℕ) (l : List (MdOp ι)) : runS A B (List.replicate n l).flatten = runS A B l ^ n := by
  induction n with
  | zero => simp [runS]
  | succ n ih => rw [List.replicate_succ, List.flatten_cons, runS_append, ih, pow_succ']

theorem runS_merge (A : R) (B : ι → R) (f : ι) (a : ℝ) (l : List (MdOp ι)) (k : ℕ) :
    runS A B ([.mom f a] ++ (List.replicate k (l ++ [.mom f (a + a)])).flatten ++ l ++ [.mom f a]) = runS A B ([.mom f a] ++ l ++ [.mom f a]) ^ (k + 1) := by
  have e : expS (((a + a) : ℝ) • B f) = expS (a • B f) * expS (a • B f) := (expS_add a a (B f)).symm
  simp only [runS_append, runS_replicate, runS_single, MdOp.gen]
  rw [e]
  generalize expS (a • B f) = p
  generalize runS A B l = q
  induction k with
  | zero => simp
  | succ k ih =>
    rw [pow_succ (p * q * p), ← ih, pow_succ]
    simp only [mul_assoc]

/-! ### The integrators -/

theorem errS_leapFrog (A B : R) (n : ℕ) (hn : n ≠ 0) {l : List (MdOp Unit)} (h : leapFrog [()] [n] 1 = .ok l) :
    ErrS A B (1 / 12 / n ^ 2) (-1 / 24 / n ^ 2) (runS A (fun _ => B) l) := by
  have h1 : ErrS A B (1 / 12) (-1 / 24) (runS A (fun _ => B) [.mom () (1 / 2), .link 1, .mom () (1 / 2)]) :=
    errS_of_words rfl (by norm_num [words, W3.push]) (by norm_num [words, W3.push]) (by norm_num [words, W3.push])
      (by norm_num [words, W3.push]) (by norm_num [words, W3.push])
  have h2 := h1.repeat n hn
  convert h2 using 1
  rw [leapFrog, if_neg hn] at h
  simp only [List.isEmpty_nil, if_true, ok_bind] at h
  cases h
  obtain ⟨k, rfl⟩ := Nat.exists_eq_succ_of_ne_zero hn
  have := runS_merge A (fun _ => B) () (1 / (k.succ : ℝ) / 2) [.link (1 / (k.succ : ℝ))] k
  rw [add_halves] at this
  rw [Nat.succ_sub_one, this, ← runS_scale]
  congr 2
  simp [MdOp.scale]
  ring

/-- The five updates of the integrators with one parameter. -/
noncomputable def fiveStep (lam t : ℝ) : List (MdOp Unit) :=
  [.mom () (lam * t), .link (t / 2), .mom () ((1 - 2 * lam) * t), .link (t / 2), .mom () (lam * t)]

theorem errS_five (A B : R) (lam : ℝ) : ErrS A B ((6 * lam - 1) / 24) ((6 * lam ^ 2 - 6 * lam + 1) / 12) (runS A (fun _ => B) (fiveStep lam 1)) := by
  refine errS_of_words rfl ?_ ?_ ?_ ?_ ?_ <;> simp only [fiveStep, words, W3.push, List.foldr]
  · constructor <;> ring
  · refine ⟨?_, ?_, ?_, ?_⟩ <;> ring
  · constructor <;> ring
  · refine ⟨?_, ?_, ?_⟩ <;> ring
  · refine ⟨?_, ?_, ?_⟩ <;> ring

theorem errS_omelyan (A B : R) (n : ℕ) (hn : n ≠ 0) {l : List (MdOp Unit)} (h : omelyan [()] [n] 1 = .ok l) :
    ErrS A B ((6 * omelyanLambda - 1) / 24 / n ^ 2) ((6 * omelyanLambda ^ 2 - 6 * omelyanLambda + 1) / 12 / n ^ 2) (runS A (fun _ => B) l) := by
  convert (errS_five A B omelyanLambda).repeat n hn using 1
  rw [omelyan, if_neg hn] at h
  simp only [List.isEmpty_nil, if_true, ok_bind] at h
  cases h
  obtain ⟨k, rfl⟩ := Nat.exists_eq_succ_of_ne_zero hn
  rw [← runS_scale]
  have e : (fiveStep omelyanLambda 1).map (MdOp.scale (1 / (k.succ : ℝ))) = [.mom () (omelyanLambda * (1 / (k.succ : ℝ)))] ++
      [.link (1 / (k.succ : ℝ) / 2), .mom () ((1 - 2 * omelyanLambda) * (1 / (k.succ : ℝ))), .link (1 / (k.succ : ℝ) / 2)] ++
      [.mom () (omelyanLambda * (1 / (k.succ : ℝ)))] := by
    simp only [fiveStep, List.map_cons, List.map_nil, MdOp.scale, List.cons_append, List.nil_append]
    ring_nf
  rw [e, ← runS_merge, Nat.succ_sub_one]
  simp only [runS_append, runS_replicate]
  rw [← two_mul, ← mul_assoc]
  generalize hp : omelyanLambda * (1 / (k.succ : ℝ)) = x
  rw [show 2 * omelyanLambda * (1 / (k.succ : ℝ)) = 2 * x by rw [← hp]; ring]
  generalize runS A (fun _ : Unit => B) [MdOp.mom () x] = p
  generalize runS A (fun _ : Unit => B) [MdOp.mom () (2 * x)] = p2
  have e3 : runS A (fun _ : Unit => B) [.link (1 / (k.succ : ℝ) / 2), .mom () ((1 - 2 * omelyanLambda) * (1 / (k.succ : ℝ))), .link (1 / (k.succ : ℝ) / 2)] =
     runS A (fun _ : Unit => B) [.link (1 / (k.succ : ℝ) / 2)] * runS A (fun _ : Unit => B) [.mom () ((1 - 2 * omelyanLambda) * (1 / (k.succ : ℝ)))] *
      runS A (fun _ : Unit => B) [.link (1 / (k.succ : ℝ) / 2)] := by
    rw [← runS_append, ← runS_append]; rfl
  rw [e3]
  generalize runS A (fun _ : Unit => B) [.link (1 / (k.succ : ℝ) / 2)] = q
  generalize runS A (fun _ : Unit => B) [.mom () ((1 - 2 * omelyanLambda) * (1 / (k.succ : ℝ)))] = m
  have : ∀ j : ℕ, q * m * q * (p2 * q * m * q) ^ j = (q * m * q * p2) ^ j * (q * m * q) := by
    intro j
    induction j with
    | zero => simp
    | succ j ih => rw [pow_succ, ← mul_assoc, ih, pow_succ]; simp only [mul_assoc]
  have hk := congrArg (fun z => p * z * p) (this k)
  simp only [mul_assoc] at hk ⊢
  exact hk

/-- The list of one step of the integrator with five force evaluations. -/
theorem errS_fourthOmelyan : ∃ a b : ℝ, |a| ≤ 1 / 10 ^ 12 ∧ |b| ≤ 1 / 10 ^ 12 ∧ ∀ {R : Type} [Ring R] [Algebra ℝ R] (A B : R) (n : ℕ),
    n ≠ 0 → ∀ {l : List (MdOp Unit)}, fourthOmelyan [()] [n] 1 = .ok l → ErrS A B (a / n ^ 2) (b / n ^ 2) (runS A (fun _ => B) l) := by
  let one : List (MdOp Unit) := [.link fourthTheta, .mom () fourthRho, .link fourthLambda, .mom () fourthMu,
    .link ((1 - 2 * (fourthLambda + fourthTheta)) / 2), .mom () (1 - 2 * (fourthMu + fourthRho)),
    .link ((1 - 2 * (fourthLambda + fourthTheta)) / 2), .mom () fourthMu, .link fourthLambda, .mom () fourthRho, .link fourthTheta]
  refine ⟨(words one).aab - 1 / 6, (words one).abb - 1 / 6, ?_, ?_, fun {R} _ _ A B n hn l h => ?_⟩
  · simp only [one, words, W3.push, List.foldr, fourthTheta, fourthRho, fourthLambda, fourthMu]
    norm_num [abs_le]
  · simp only [one, words, W3.push, List.foldr, fourthTheta, fourthRho, fourthLambda, fourthMu]
    norm_num [abs_le]
  rw [fourthOmelyan, if_neg hn] at h
  simp only [List.isEmpty_nil, if_true, ok_bind] at h
  cases h
  have h1 : ErrS A B ((words one).aab - 1 / 6) ((words one).abb - 1 / 6) (runS A (fun _ => B) one) := by
    refine errS_of_words rfl ?_ ?_ ?_ ?_ ?_
    all_goals simp only [one, words, W3.push, List.foldr, fourthTheta, fourthRho, fourthLambda, fourthMu]
    all_goals norm_num
  convert h1.repeat n hn using 1
  rw [runS_replicate, ← runS_scale]
  congr 2
  simp only [one, List.map_cons, List.map_nil, MdOp.scale, List.cons_append, List.nil_append]
  ring_nf

theorem ErrS.third {A B : R} {a b : ℝ} {S : R⟦X⟧} (h : ErrS A B a b S) : cS 3 S = (1 / 6 : ℝ) • ((A + B) * (A + B) * (A + B)) +
    (a • (A * A * B - (2 : ℝ) • (A * B * A) + B * A * A) + b • (A * B * B - (2 : ℝ) • (B * A * B) + B * B * A)) := by
  have h3 := h.high
  rw [(coeff_low_expS (A + B)).2.2.2] at h3
  exact sub_eq_iff_eq_add'.1 h3

end Leonard
