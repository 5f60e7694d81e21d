/-
C41, C43: reversibility of molecular dynamics, lengths of trajectories.
-/
import Verif.Hmc.Lemmas

set_option autoImplicit false

namespace Leonard

open Matrix

variable {ι S : Type} {N : ℕ}

/-! ### C41 -/

/-- Reversal of the momenta. -/
def flipMomenta (x : GField S N × GField S N) : GField S N × GField S N := (x.1, fun s μ => -x.2 s μ)

/-- All matrices of a field are anti-Hermitian. -/
def AntiField (P : GField S N) : Prop := ∀ s μ, (P s μ)ᴴ = -P s μ

theorem eigenLink_eq (eig : EigenSolver N) (he : eig.Correct) (ε : ℝ) (P U : Mat N) (hP : Pᴴ = -P) :
    eigenLink eig ε P U = NormedSpace.exp (ε • P) * U := flowExponential_eq eig he U P ε hP

theorem exp_neg_mul_exp (A : Mat N) : NormedSpace.exp (-A) * NormedSpace.exp A = 1 := by
  rw [← Matrix.exp_add_of_commute _ _ (Commute.neg_left (Commute.refl A)), neg_add_cancel, NormedSpace.exp_zero]

theorem anti_sub_smul {P F : Mat N} (ε : ℝ) (hP : Pᴴ = -P) (hF : Fᴴ = -F) : (P - (ε : ℂ) • F)ᴴ = -(P - (ε : ℂ) • F) := by
  rw [conjTranspose_sub, conjTranspose_smul, hP, hF, Complex.star_def, Complex.conj_ofReal, smul_neg]
  abel

section
variable {F : ι → GField S N → GField S N} (hF : ∀ i U, AntiField (F i U))
include hF

theorem mdStep_anti (E : ℝ → Mat N → Mat N → Mat N) (o : MdOp ι) (x : GField S N × GField S N) (hx : AntiField x.2) :
    AntiField (mdStep E F o x).2 := by
  cases o with
  | link ε => exact hx
  | mom i ε => intro s μ; exact anti_sub_smul ε (hx s μ) (hF i x.1 s μ)

theorem mdRun_anti (E : ℝ → Mat N → Mat N → Mat N) (l : List (MdOp ι)) (x : GField S N × GField S N) (hx : AntiField x.2) :
    AntiField (mdRun E F l x).2 := by
  induction l generalizing x with
  | nil => exact hx
  | cons o l ih => exact ih _ (mdStep_anti hF E o x hx)

theorem mdStep_flip {E : ℝ → Mat N → Mat N → Mat N} (hE : ∀ ε P U, Pᴴ = -P → E ε (-P) (E ε P U) = U) (o : MdOp ι)
    (x : GField S N × GField S N) (hx : AntiField x.2) : mdStep E F o (flipMomenta (mdStep E F o x)) = flipMomenta x := by
  cases o with
  | link ε =>
    refine Prod.ext ?_ rfl
    funext s μ
    exact hE ε _ _ (hx s μ)
  | mom i ε =>
    refine Prod.ext rfl ?_
    funext s μ
    change -(x.2 s μ - (ε : ℂ) • F i x.1 s μ) - (ε : ℂ) • F i x.1 s μ = -x.2 s μ
    abel

/-- Performing the updates, reversing the momenta and performing the updates in the opposite order restores the state. -/
theorem mdRun_reverse {E : ℝ → Mat N → Mat N → Mat N} (hE : ∀ ε P U, Pᴴ = -P → E ε (-P) (E ε P U) = U) (l : List (MdOp ι))
    (x : GField S N × GField S N) (hx : AntiField x.2) : mdRun E F l.reverse (flipMomenta (mdRun E F l x)) = flipMomenta x := by
  induction l generalizing x with
  | nil => rfl
  | cons o l ih =>
    have h1 := ih (mdStep E F o x) (mdStep_anti hF E o x hx)
    rw [List.reverse_cons]
    unfold mdRun at h1 ⊢
    rw [List.foldl_append]
    change mdStep E F o (List.foldl (fun x o => mdStep E F o x) (flipMomenta (List.foldl (fun x o => mdStep E F o x) (mdStep E F o x) l)) l.reverse) = _
    rw [h1]
    exact mdStep_flip hF hE o x hx

end

theorem eigenLink_rev (eig : EigenSolver N) (he : eig.Correct) (ε : ℝ) (P U : Mat N) (hP : Pᴴ = -P) :
    eigenLink eig ε (-P) (eigenLink eig ε P U) = U := by
  have hP' : (-P)ᴴ = - -P := by rw [conjTranspose_neg, hP]
  rw [eigenLink_eq eig he ε (-P) _ hP', eigenLink_eq eig he ε P U hP, ← Matrix.mul_assoc, smul_neg, exp_neg_mul_exp, Matrix.one_mul]

/-- **C41.** For every integrator, every list of forces with any numbers of steps and every length: integrating, reversing the momenta
and integrating again with the same parameters gives the start with reversed momenta.  The forces are any functions of the links
with anti-Hermitian values (C21), the momenta are anti-Hermitian (C45), and the eigenvectors found by the library are orthonormal. -/
theorem C41_reversible_partial (eig : EigenSolver N) (he : eig.Correct) (F : ι → GField S N → GField S N) (hF : ∀ i U, AntiField (F i U))
    (name : String) (forces : List ι) (steps : List ℕ) (t : ℝ) (l : List (MdOp ι)) (h : mdIntegrate name forces steps t = .ok l)
    (x : GField S N × GField S N) (hx : AntiField x.2) :
    mdRun (eigenLink eig) F l (flipMomenta (mdRun (eigenLink eig) F l x)) = flipMomenta x := by
  have := mdRun_reverse hF (eigenLink_rev eig he) l x hx
  rwa [mdIntegrate_palindrome name forces steps t l h] at this

theorem flip_flip (x : GField S N × GField S N) : flipMomenta (flipMomenta x) = x := by
  refine Prod.ext rfl ?_
  funext s μ
  exact neg_neg _

theorem flip_anti {x : GField S N × GField S N} (hx : AntiField x.2) : AntiField (flipMomenta x).2 := by
  intro s μ
  change (-x.2 s μ)ᴴ = - -x.2 s μ
  rw [conjTranspose_neg, hx s μ]

theorem mdStep_neg (eig : EigenSolver N) (he : eig.Correct) (F : ι → GField S N → GField S N) (o : MdOp ι)
    (x : GField S N × GField S N) (hx : AntiField x.2) :
    mdStep (eigenLink eig) F o.neg (flipMomenta x) = flipMomenta (mdStep (eigenLink eig) F o x) := by
  cases o with
  | link ε =>
    refine Prod.ext ?_ rfl
    funext s μ
    change eigenLink eig (-ε) (-x.2 s μ) (x.1 s μ) = eigenLink eig ε (x.2 s μ) (x.1 s μ)
    have h' : (-x.2 s μ)ᴴ = - -x.2 s μ := flip_anti hx s μ
    rw [eigenLink_eq eig he _ _ _ h', eigenLink_eq eig he _ _ _ (hx s μ), neg_smul, smul_neg, neg_neg]
  | mom i ε =>
    refine Prod.ext rfl ?_
    funext s μ
    change -x.2 s μ - ((-ε : ℝ) : ℂ) • F i x.1 s μ = -(x.2 s μ - (ε : ℂ) • F i x.1 s μ)
    push_cast
    rw [neg_smul]
    abel

theorem mdRun_neg (eig : EigenSolver N) (he : eig.Correct) (F : ι → GField S N → GField S N) (hF : ∀ i U, AntiField (F i U))
    (l : List (MdOp ι)) (x : GField S N × GField S N) (hx : AntiField x.2) :
    mdRun (eigenLink eig) F (l.map MdOp.neg) (flipMomenta x) = flipMomenta (mdRun (eigenLink eig) F l x) := by
  induction l generalizing x with
  | nil => rfl
  | cons o l ih =>
    change mdRun (eigenLink eig) F (l.map MdOp.neg) (mdStep (eigenLink eig) F o.neg (flipMomenta x)) = _
    rw [mdStep_neg eig he F o x hx, ih _ (mdStep_anti hF _ o x hx)]
    rfl

/-- **C41, opposite length.** Integrating again with the opposite length returns to the start, links and momenta: the check behind
`REVERSIBILITY_CHECK`. -/
theorem C41_opposite_length (eig : EigenSolver N) (he : eig.Correct) (F : ι → GField S N → GField S N) (hF : ∀ i U, AntiField (F i U))
    (name : String) (forces : List ι) (steps : List ℕ) (t : ℝ) (l : List (MdOp ι)) (h : mdIntegrate name forces steps t = .ok l)
    (x : GField S N × GField S N) (hx : AntiField x.2) : ∃ l', mdIntegrate name forces steps (-t) = .ok l' ∧
      mdRun (eigenLink eig) F l' (mdRun (eigenLink eig) F l x) = x := by
  refine ⟨l.map MdOp.neg, by rw [mdIntegrate_neg, h]; rfl, ?_⟩
  have h1 := C41_reversible_partial eig he F hF name forces steps t l h x hx
  have h2 := mdRun_neg eig he F hF l (flipMomenta (mdRun (eigenLink eig) F l x)) (flip_anti (mdRun_anti hF _ l x hx))
  rw [flip_flip, h1, flip_flip] at h2
  exact h2

/-- **C41, group.** During the integration links stay special unitary and momenta stay in the Lie algebra. -/
theorem C41_group (eig : EigenSolver N) (he : eig.Correct) (F : ι → GField S N → GField S N) (hF : ∀ i U s μ, IsLie (F i U s μ))
    (l : List (MdOp ι)) (x : GField S N × GField S N) (hU : ∀ s μ, x.1 s μ ∈ specialUnitaryGroup (Fin N) ℂ)
    (hP : ∀ s μ, IsLie (x.2 s μ)) : (∀ s μ, (mdRun (eigenLink eig) F l x).1 s μ ∈ specialUnitaryGroup (Fin N) ℂ) ∧
      ∀ s μ, IsLie ((mdRun (eigenLink eig) F l x).2 s μ) := by
  induction l generalizing x with
  | nil => exact ⟨hU, hP⟩
  | cons o l ih =>
    refine ih (mdStep (eigenLink eig) F o x) ?_ ?_
    · cases o with
      | link ε =>
        intro s μ
        change eigenLink eig ε (x.2 s μ) (x.1 s μ) ∈ _
        rw [eigenLink_eq eig he _ _ _ (hP s μ).1]
        refine mul_mem (exp_mem_su _ ?_) (hU s μ)
        have := isLie_smul ε (hP s μ)
        exact this
      | mom i ε => exact hU
    · cases o with
      | link ε => exact hP
      | mom i ε => intro s μ; exact isLie_sub (hP s μ) (isLie_smul ε (hF i x.1 s μ))

/-- The hypotheses of `C41_reversible_partial` hold for two nested forces, the outer one in two steps and the inner one in three. -/
example : ∃ l, mdIntegrate "omelyan" ["fermions", "gauge"] [2, 3] 1 = .ok l ∧ l.length = 57 := by
  refine ⟨_, by simp [mdIntegrate, omelyan, ok_bind]; rfl, ?_⟩
  simp

example : ∃ eig : EigenSolver N, eig.Correct := exists_correct_eigenSolver

/-- The matrix `diag(i a, -i a)`. -/
noncomputable def smallMomentum (a : ℝ) : Mat 2 := !![⟨0, a⟩, 0; 0, ⟨0, -a⟩]

/-- **C41** is violated by the library-free exponential for two colours when a momentum is small but not zero: the truncated series used
below `1e-7` is not inverted by changing the sign.  One step of the second-order integrator without force. -/
theorem C41_toolkit_counterexample : ∃ (l : List (MdOp Unit)) (x : GField Unit 2 × GField Unit 2),
    mdIntegrate "second_order" [()] [1] 1 = .ok l ∧ (∀ s μ, IsLie (x.2 s μ)) ∧ (∀ s μ, x.1 s μ = 1) ∧
    mdRun toolkitLink (fun _ _ _ _ => 0) l (flipMomenta (mdRun toolkitLink (fun _ _ _ _ => 0) l x)) ≠ flipMomenta x := by
  refine ⟨[.mom () (1 / 2), .link 1, .mom () (1 / 2)], (fun _ _ => 1, fun _ _ => smallMomentum (1 / 10 ^ 8)), ?_, ?_, fun _ _ => rfl, ?_⟩
  · simp [mdIntegrate, leapFrog, ok_bind]
  · intro s μ
    constructor
    · ext i j
      fin_cases i <;> fin_cases j <;> simp [smallMomentum, Complex.ext_iff]
    · simp [smallMomentum, Matrix.trace_fin_two, Complex.ext_iff]
  · intro h
    have h1 := congrFun (congrFun (congrArg Prod.fst h) ()) 0
    have hs : Real.sqrt ((1 / 10 ^ 8 : ℝ) * (1 / 10 ^ 8)) = 1 / 10 ^ 8 := Real.sqrt_mul_self (by norm_num)
    have hs' : Real.sqrt (-(1 / 10 ^ 8 : ℝ) * -(1 / 10 ^ 8)) = 1 / 10 ^ 8 := by rw [neg_mul_neg]; exact hs
    simp only [mdRun, List.foldl_cons, List.foldl_nil, mdStep, flipMomenta, toolkitLink, smul_zero, sub_zero, Complex.ofReal_one, one_smul,
      Matrix.mul_one] at h1
    have h2 := congrFun (congrFun h1 0) 0
    simp only [matrixExp2, smallMomentum, Matrix.of_apply, Matrix.cons_val_zero, Matrix.cons_val_one, Matrix.neg_apply, Matrix.mul_apply,
      Fin.sum_univ_two, Complex.neg_im, Complex.neg_re, Complex.zero_im, Complex.zero_re, neg_zero, mul_zero, add_zero, hs, hs'] at h2
    norm_num [Complex.ext_iff] at h2

/-- **C41 needs orthonormal eigenvectors.** For the zero momentum every pair of independent unit vectors is a pair of eigenvectors; with one
that is not orthogonal the update changes the link. -/
theorem C41_eigenvectors_counterexample : ∃ eig : EigenSolver 2,
    (∀ k : Fin 2, (0 : Mat 2) *ᵥ (fun j => (eig 0).2 j k) = (eig 0).1 k • fun j => (eig 0).2 j k) ∧
    (∀ k : Fin 2, ∑ j, Complex.normSq ((eig 0).2 j k) = 1) ∧ (eig 0).2.det ≠ 0 ∧ eigenLink eig 1 0 1 ≠ 1 := by
  refine ⟨fun _ => (fun _ => 0, !![1, 3 / 5; 0, 4 / 5]), ?_, ?_, ?_, ?_⟩
  · intro k; simp
  · intro k; fin_cases k <;> simp [Fin.sum_univ_two, Complex.normSq_apply] <;> norm_num
  · simp [Matrix.det_fin_two]
  · intro h
    have := congrFun (congrFun h 0) 0
    simp [eigenLink, mdLinkUpdate, Matrix.mul_apply, Matrix.vecMul, dotProduct, Fin.sum_univ_two, Complex.conj_ofNat] at this

/-! ### C43 -/

open Classical in
/-- **C43.** For every integrator, every list of forces, numbers of steps and length, the steps of the links sum up to the length, and so do
the steps of the momenta for each force (counted as often as it is in the list). -/
theorem C43_lengths (name : String) (forces : List ι) (steps : List ℕ) (t : ℝ) (l : List (MdOp ι))
    (h : mdIntegrate name forces steps t = .ok l) :
    totalTime MdOp.linkTime l = t ∧ ∀ i, totalTime (MdOp.forceTime i) l = forces.count i * t := by
  constructor
  · have := mdIntegrate_time (w := MdOp.linkTime) (a := 1) (c := fun _ => 0) ⟨fun ε => (one_mul ε).symm, fun i ε => (zero_mul ε).symm⟩
      name forces steps t l h
    simpa using this
  · intro i
    have := mdIntegrate_time (w := MdOp.forceTime i) (a := 0) (c := fun j => if j = i then 1 else 0)
      ⟨fun ε => (zero_mul ε).symm, fun j ε => by simp [MdOp.forceTime]⟩ name forces steps t l h
    rw [this, zero_add]
    congr 1
    clear this h
    induction forces with
    | nil => simp
    | cons f fs ih => simp only [List.map_cons, List.sum_cons, ih, List.count_cons, beq_iff_eq]; split <;> simp [add_comm]

/-- A list of steps that can be used for a list of forces. -/
def StepsFor (k : ℕ) (steps : List ℕ) : Prop := k ≤ steps.length ∧ ∀ n ∈ steps.take k, n ≠ 0

theorem stepsFor_cons (k n : ℕ) (ns : List ℕ) : StepsFor (k + 1) (n :: ns) ↔ n ≠ 0 ∧ StepsFor k ns := by
  unfold StepsFor
  simp only [List.length_cons, Nat.add_le_add_iff_right, List.take_succ_cons, List.mem_cons, forall_eq_or_imp]
  tauto

theorem leapFrog_defined (fs : List ι) (ns : List ℕ) (t : ℝ) :
    (∃ l, leapFrog fs ns t = .ok l) ↔ fs ≠ [] ∧ StepsFor fs.length ns := by
  fun_induction leapFrog fs ns t with
  | case1 => simp
  | case2 => simp [StepsFor]
  | case3 => simp [stepsFor_cons]
  | case4 f fs n ns t hn step ih =>
    rw [List.length_cons, stepsFor_cons]
    simp only [ne_eq, reduceCtorEq, not_false_eq_true, hn, true_and]
    cases fs with
    | nil => simp [ok_bind, StepsFor]
    | cons g gs =>
      simp only [List.isEmpty_cons, Bool.false_eq_true, if_false, ne_eq, reduceCtorEq, not_false_eq_true, true_and] at ih ⊢
      rw [← ih]
      constructor
      · rintro ⟨l, h⟩; obtain ⟨a, h1, _⟩ := outcome_bind_ok h; exact ⟨a, h1⟩
      · rintro ⟨a, h⟩; rw [h, ok_bind]; exact ⟨_, rfl⟩

theorem omelyan_defined (fs : List ι) (ns : List ℕ) (t : ℝ) :
    (∃ l, omelyan fs ns t = .ok l) ↔ fs ≠ [] ∧ StepsFor fs.length ns := by
  fun_induction omelyan fs ns t with
  | case1 => simp
  | case2 => simp [StepsFor]
  | case3 => simp [stepsFor_cons]
  | case4 f fs n ns t hn step lambda ih =>
    rw [List.length_cons, stepsFor_cons]
    simp only [ne_eq, reduceCtorEq, not_false_eq_true, hn, true_and]
    cases fs with
    | nil => simp [ok_bind, StepsFor]
    | cons g gs =>
      simp only [List.isEmpty_cons, Bool.false_eq_true, if_false, ne_eq, reduceCtorEq, not_false_eq_true, true_and] at ih ⊢
      rw [← ih]
      constructor
      · rintro ⟨l, h⟩; obtain ⟨a, h1, _⟩ := outcome_bind_ok h; exact ⟨a, h1⟩
      · rintro ⟨a, h⟩; rw [h, ok_bind]; exact ⟨_, rfl⟩

theorem fourthOmelyan_defined (fs : List ι) (ns : List ℕ) (t : ℝ) :
    (∃ l, fourthOmelyan fs ns t = .ok l) ↔ fs ≠ [] ∧ StepsFor fs.length ns := by
  fun_induction fourthOmelyan fs ns t with
  | case1 => simp
  | case2 => simp [StepsFor]
  | case3 => simp [stepsFor_cons]
  | case4 f fs n ns t hn step theta rho mu lambda ih1 ih2 ih3 =>
    rw [List.length_cons, stepsFor_cons]
    simp only [ne_eq, reduceCtorEq, not_false_eq_true, hn, true_and]
    cases fs with
    | nil => simp [ok_bind, StepsFor]
    | cons g gs =>
      simp only [List.isEmpty_cons, Bool.false_eq_true, if_false, ne_eq, reduceCtorEq, not_false_eq_true, true_and] at ih1 ih2 ih3 ⊢
      constructor
      · rintro ⟨l, h⟩; obtain ⟨a, h1, _⟩ := outcome_bind_ok h; exact ih1.mp ⟨a, h1⟩
      · intro h
        obtain ⟨a, h1⟩ := ih1.mpr h
        obtain ⟨b, h2⟩ := ih2.mpr h
        obtain ⟨c, h3⟩ := ih3.mpr h
        rw [h1, ok_bind, h2, ok_bind, h3, ok_bind]; exact ⟨_, rfl⟩

theorem fourthOrder_defined (fs : List ι) (ns : List ℕ) (t : ℝ) :
    (∃ l, fourthOrder fs ns t = .ok l) ↔ fs ≠ [] ∧ StepsFor fs.length ns := by
  constructor
  · rintro ⟨l, h⟩; obtain ⟨a, h1, _⟩ := outcome_bind_ok h; exact (leapFrog_defined _ _ _).mp ⟨a, h1⟩
  · intro h
    have hh := fun t => (leapFrog_defined fs ns t).mpr h
    unfold fourthOrder
    simp only []
    obtain ⟨a, h1⟩ := hh (1 / (2 - (2 : ℝ) ^ ((1 : ℝ) / 3)) * t)
    obtain ⟨b, h2⟩ := hh (-(2 : ℝ) ^ ((1 : ℝ) / 3) / (2 - (2 : ℝ) ^ ((1 : ℝ) / 3)) * t)
    rw [h1, ok_bind, h2, ok_bind, ok_bind]; exact ⟨_, rfl⟩

theorem sixthOrder_defined (fs : List ι) (ns : List ℕ) (t : ℝ) :
    (∃ l, sixthOrder fs ns t = .ok l) ↔ fs ≠ [] ∧ StepsFor fs.length ns := by
  constructor
  · rintro ⟨l, h⟩; obtain ⟨a, h1, _⟩ := outcome_bind_ok h; exact (fourthOrder_defined _ _ _).mp ⟨a, h1⟩
  · intro h
    have hh := fun t => (fourthOrder_defined fs ns t).mpr h
    unfold sixthOrder
    simp only []
    obtain ⟨a, h1⟩ := hh (1 / (2 - (2 : ℝ) ^ ((1 : ℝ) / 5)) * t)
    obtain ⟨b, h2⟩ := hh (-(2 : ℝ) ^ ((1 : ℝ) / 5) / (2 - (2 : ℝ) ^ ((1 : ℝ) / 5)) * t)
    rw [h1, ok_bind, h2, ok_bind, ok_bind]; exact ⟨_, rfl⟩

/-- **C43, domain.** An integration is performed exactly for one of the five names, at least one force, and a positive number of steps for
each force; numbers of steps beyond the forces are ignored. -/
theorem C43_defined (name : String) (forces : List ι) (steps : List ℕ) (t : ℝ) : (∃ l, mdIntegrate name forces steps t = .ok l) ↔
    name ∈ ["second_order", "fourth_order", "sixth_order", "omelyan", "fourth_omelyan"] ∧ forces ≠ [] ∧
      forces.length ≤ steps.length ∧ ∀ n ∈ steps.take forces.length, n ≠ 0 := by
  change _ ↔ _ ∧ _ ∧ StepsFor forces.length steps
  unfold mdIntegrate
  split
  · rw [leapFrog_defined]; simp [*]
  split
  · rw [fourthOrder_defined]; simp [*]
  split
  · rw [sixthOrder_defined]; simp [*]
  split
  · rw [omelyan_defined]; simp [*]
  split
  · rw [fourthOmelyan_defined]; simp [*]
  · simp [*]

/-- **C43, one force, leapfrog.** The version of the leapfrog for one force takes the length of one step: the trajectory has `n` times this
length. -/
theorem C43_single_leapfrog (f : ι) (n : ℤ) (hn : 1 ≤ n) (step : ℝ) : totalTime MdOp.linkTime (leapFrogSingle f n step) = n * step := by
  have e : leapFrogSingle f n step = [.mom f (step / 2)] ++ (List.replicate (n - 1).toNat [.link step, .mom f step]).flatten ++
    [.link step, .mom f (step / 2)] := rfl
  rw [e]
  simp only [totalTime_append, totalTime_replicate]
  have h1 : (((n - 1).toNat : ℕ) : ℝ) = (n : ℝ) - 1 := by
    have : (((n - 1).toNat : ℕ) : ℤ) = n - 1 := Int.toNat_of_nonneg (by omega)
    have h2 := congrArg (fun z : ℤ => (z : ℝ)) this
    push_cast at h2
    exact h2
  rw [h1]
  simp [totalTime, MdOp.linkTime]
  ring

/-- **C43** is violated by the version of the Omelyan integrator for one force: its step is stored in an `int`.  A trajectory of length one
half in ten steps does not move anything, and no trajectory of a length below the number of steps does. -/
theorem C43_single_counterexample (f : ι) (n : ℕ) (hn : 0 < n) (t : ℝ) (h0 : 0 ≤ t) (ht : t < n) :
    totalTime MdOp.linkTime (omelyanSingle f n t) = 0 ∧ totalTime (MdOp.forceTime f) (omelyanSingle f n t) = 0 := by
  have hn' : (0 : ℝ) < n := by exact_mod_cast hn
  have hz : truncInt (t / n) = 0 := by
    unfold truncInt
    rw [if_pos (by positivity), Int.floor_eq_zero_iff]
    exact ⟨by positivity, by rw [div_lt_one hn']; exact ht⟩
  have key : ∀ w : MdOp ι → ℝ, (w (.link 0) = 0) → (w (.mom f 0) = 0) → totalTime w (omelyanSingle f n t) = 0 := by
    intro w h1 h2
    simp only [omelyanSingle, hz, Int.cast_zero, mul_zero, zero_div, totalTime_append, totalTime_replicate]
    simp [totalTime, h1, h2]
  exact ⟨key _ rfl rfl, key _ rfl (by simp [MdOp.forceTime])⟩

/-- The five integrators for one force. -/
example (name : String) (h : name ∈ ["second_order", "fourth_order", "sixth_order", "omelyan", "fourth_omelyan"]) :
    ∃ l, mdIntegrate name ["gauge"] [10] (1 / 2) = .ok l := (C43_defined _ _ _ _).mpr ⟨h, by simp⟩

end Leonard
