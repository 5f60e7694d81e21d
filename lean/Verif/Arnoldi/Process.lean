import Verif.Arnoldi.Shift
import Mathlib.Algebra.Polynomial.BigOperators
import Mathlib.Algebra.Module.LinearMap.End

/-!
# The whole process
-/

set_option autoImplicit false

namespace Leonard

open Matrix Polynomial

variable {S : Type} [Fintype S] {M : ℕ}

/-- No entry below the diagonal vanishes up to column `k - 1`. -/
def Unreduced (k : ℕ) (H : ℕ → ℕ → ℂ) : Prop := ∀ c, c < k → H (c + 1) c ≠ 0

theorem extend_fold (A : SField S M →ₗ[ℂ] SField S M) (steps : ℕ) : ∀ (cnt m : ℕ) (s t : ArnoldiState S M), m + cnt < steps → Arnoldi A steps m s → Unreduced m s.H →
    (List.range' m cnt).foldlM (fun s j => extendStep A j s) s = some t →
    Arnoldi A steps (m + cnt) t ∧ Unreduced (m + cnt) t.H ∧ (∀ i c, i ≤ m → c ≤ m → t.H i c = s.H i c) ∧ (∀ i, i ≤ m → t.V i = s.V i) := by
  intro cnt
  induction cnt with
  | zero =>
    intro m s t _ hs hu h
    have h := Option.some.inj h
    subst h
    exact ⟨hs, hu, fun _ _ _ _ => rfl, fun _ _ => rfl⟩
  | succ cnt ih =>
    intro m s t hm hs hu h
    rw [List.range'_succ, List.foldlM_cons] at h
    obtain ⟨u, hu1, hu2⟩ := Option.bind_eq_some_iff.1 h
    obtain ⟨a1, a2, a3, a4⟩ := extendStep_inv A steps m (by omega) s u hs hu1
    have hun : Unreduced (m + 1) u.H := by
      intro c hc
      by_cases hcm : c = m
      · subst hcm; exact a2
      · rw [a3 (c + 1) c (by omega) (by omega)]; exact hu c (by omega)
    obtain ⟨b1, b2, b3, b4⟩ := ih (m + 1) u t (by omega) a1 hun hu2
    rw [add_assoc, add_comm 1 cnt] at b1 b2
    exact ⟨b1, b2, fun i c hi hc => by rw [b3 i c (by omega) (by omega), a3 i c hi hc], fun i hi => by rw [b4 i (by omega), a4 i hi]⟩

/-- `extendArnoldi` completes the process and leaves what is there. -/
theorem extendArnoldi_inv (A : SField S M →ₗ[ℂ] SField S M) {steps m : ℕ} {s t : ArnoldiState S M} (hs : Arnoldi A steps m s) (hu : Unreduced m s.H)
    (h : extendArnoldi A m steps s = some t) :
    Arnoldi A steps (steps - 1) t ∧ Unreduced (steps - 1) t.H ∧ (∀ i c, i ≤ m → c ≤ m → t.H i c = s.H i c) ∧ (∀ i, i ≤ m → t.V i = s.V i) := by
  have hlt := hs.lt
  have h1 := extend_fold A steps (steps - 1 - m) m s t (by omega) hs hu h
  have h2 : m + (steps - 1 - m) = steps - 1 := by omega
  rwa [h2] at h1

/-- The first vector is multiplied by the operator minus the shift. -/
theorem filter_core {A : SField S M →ₗ[ℂ] SField S M} {steps j : ℕ} {s : ArnoldiState S M} (hs : Arnoldi A steps (j + 1) s) (mu : ℂ)
    {Q R : Matrix (Fin steps) (Fin steps) ℂ} (hqr : QRSpec (j + 1 + 1) (hMatrix steps s.H - mu • (1 : Matrix (Fin steps) (Fin steps) ℂ)) Q R) :
    A (s.V 0) - mu • s.V 0 = entry R 0 0 • (if 0 < steps then ∑ l : Fin steps, entry Q l 0 • s.V l else s.V 0) := by
  have h0 : 0 < steps := lt_of_le_of_lt (Nat.zero_le _) hs.lt
  rw [if_pos h0, hs.rel 0 (Nat.zero_le _), if_neg (by omega), add_zero, Finset.smul_sum, entry_of R h0 h0]
  have h1 : ∀ l : Fin steps, R ⟨0, h0⟩ ⟨0, h0⟩ • entry Q l 0 • s.V l = s.H l 0 • s.V l - if l = ⟨0, h0⟩ then mu • s.V 0 else 0 := by
    intro l
    have h2 := congrFun (congrFun hqr.prod l) ⟨0, h0⟩
    rw [Matrix.mul_apply, Finset.sum_eq_single ⟨0, h0⟩] at h2
    · rw [entry_of Q l.isLt h0, smul_smul, mul_comm, h2, Matrix.sub_apply, hMatrix_apply, Matrix.smul_apply, Matrix.one_apply, smul_eq_mul, sub_smul]
      by_cases h3 : l = ⟨0, h0⟩
      · rw [if_pos h3, if_pos h3, mul_one, h3]
      · rw [if_neg h3, if_neg h3, mul_zero, zero_smul]
    · intro m _ hm
      rw [hqr.tri m ⟨0, h0⟩ (Fin.lt_def.2 (Nat.pos_of_ne_zero fun h3 => hm (Fin.ext h3))), mul_zero]
    · intro h3; exact absurd (Finset.mem_univ _) h3
  rw [Finset.sum_congr rfl fun l _ => h1 l, Finset.sum_sub_distrib, Finset.sum_ite_eq' Finset.univ, if_pos (Finset.mem_univ _)]

/-- One pass of the restart with an exact shift. -/
theorem restartStep_shift {A : SField S M →ₗ[ℂ] SField S M} {steps j : ℕ} {s : ArnoldiState S M} (hs : Arnoldi A steps (j + 1) s) (hu : Unreduced (j + 1) s.H) (mu : ℂ)
    (hroot : (hMatrix (j + 2) s.H).charpoly.IsRoot mu) :
    Unreduced j (restartStep steps mu (j + 1) s).H ∧
    (hMatrix (j + 2) s.H).charpoly = (X - C mu) * (hMatrix (j + 1) (restartStep steps mu (j + 1) s).H).charpoly ∧
    (∃ r : ℂ, r ≠ 0 ∧ A (s.V 0) - mu • s.V 0 = r • (restartStep steps mu (j + 1) s).V 0) ∧
    (∃ r : ℂ, r ≠ 0 ∧ (restartStep steps mu (j + 1) s).f = r • s.f) := by
  have hqr := restart_qr hs mu
  obtain ⟨h1, h2, h3, h4, h5⟩ := shift_core hs.lt hqr rfl hu hroot
  have hH : ∀ a b, a ≠ j + 1 → b ≠ j + 1 → (restartStep steps mu (j + 1) s).H a b =
      entry ((householderQR (hMatrix steps s.H - mu • (1 : Matrix (Fin steps) (Fin steps) ℂ))).2 * (householderQR (hMatrix steps s.H - mu • (1 : Matrix (Fin steps) (Fin steps) ℂ))).1
        + mu • (1 : Matrix (Fin steps) (Fin steps) ℂ)) a b := fun a b ha hb => if_neg (by omega)
  refine ⟨fun c hc => ?_, ?_, ⟨_, h3, filter_core hs mu hqr⟩, ?_⟩
  · rw [hH (c + 1) c (by omega) (by omega)]
    exact h1 c hc
  · rw [h5]
    congr 2
    ext i c
    rw [hMatrix_apply, hMatrix_apply, hH i c (by omega) (by omega)]
  · refine ⟨starRingEnd ℂ (entry (householderQR (hMatrix steps s.H - mu • (1 : Matrix (Fin steps) (Fin steps) ℂ))).1 (j + 1) j), ?_, ?_⟩
    · rwa [Ne, map_eq_zero]
    · change entry _ (j + 1) (j + 1 - 1) • _ + starRingEnd ℂ (entry _ (j + 1) (j + 1 - 1)) • s.f = _
      rw [Nat.add_sub_cancel, h2, zero_smul, zero_add]

theorem sortedRitz_length (eig : DenseSolver) (steps : ℕ) (H : ℕ → ℕ → ℂ) : (sortedRitz eig steps H).length = steps := by
  rw [sortedRitz, List.length_insertionSort, List.length_ofFn]

theorem sortedRitz_perm (eig : DenseSolver) (steps : ℕ) (H : ℕ → ℕ → ℂ) : (sortedRitz eig steps H).Perm (List.ofFn (eig steps (hMatrix steps H)).1) :=
  List.perm_insertionSort _ _

theorem sortedRitz_sorted (eig : DenseSolver) (steps : ℕ) (H : ℕ → ℕ → ℂ) : (sortedRitz eig steps H).Pairwise fun x y => y.re ≤ x.re := by
  haveI : Std.Total fun x y : ℂ => y.re ≤ x.re := ⟨fun x y => le_total _ _⟩
  haveI : IsTrans ℂ fun x y : ℂ => y.re ≤ x.re := ⟨fun x y z h1 h2 => le_trans h2 h1⟩
  exact List.pairwise_insertionSort _ _

theorem sortedRitz_charpoly {eig : DenseSolver} (he : eig.Correct) (steps : ℕ) (H : ℕ → ℕ → ℂ) :
    ((sortedRitz eig steps H).map fun z => (X - C z : ℂ[X])).prod = (hMatrix steps H).charpoly := by
  rw [((sortedRitz_perm eig steps H).map _).prod_eq, List.map_ofFn, List.prod_ofFn]
  exact he.all steps (hMatrix steps H)

/-- The restart keeps exactly the wanted eigenvalues of the matrix and filters the first vector. -/
theorem restartArnoldi_inv {A : SField S M →ₗ[ℂ] SField S M} {eig : DenseSolver} (he : eig.Correct) {n extra : ℕ} (hn : 1 ≤ n) {s : ArnoldiState S M}
    (hs : Arnoldi A (extra + n) (extra + n - 1) s) (hu : Unreduced (extra + n - 1) s.H) :
    Arnoldi A (extra + n) (n - 1) (restartArnoldi eig (extra + n) extra s) ∧ Unreduced (n - 1) (restartArnoldi eig (extra + n) extra s).H ∧
    (hMatrix n (restartArnoldi eig (extra + n) extra s).H).charpoly = (((sortedRitz eig (extra + n) s.H).take n).map fun z => (X - C z : ℂ[X])).prod ∧
    (∃ r : ℂ, r ≠ 0 ∧ (((sortedRitz eig (extra + n) s.H).drop n).map fun z => A - z • (1 : Module.End ℂ (SField S M))).prod (s.V 0)
      = r • (restartArnoldi eig (extra + n) extra s).V 0) := by
  generalize hst : extra + n = steps at *
  generalize hsh : sortedRitz eig steps s.H = shifts
  have hlen : shifts.length = steps := by rw [← hsh, sortedRitz_length]
  have hcp : (shifts.map fun z => (X - C z : ℂ[X])).prod = (hMatrix steps s.H).charpoly := by rw [← hsh, sortedRitz_charpoly he]
  have key : ∀ e, e ≤ extra →
      let t := ((List.range e).map fun i => steps - 1 - i).foldl (fun s j => restartStep steps (shifts.getD j 0) j s) s
      Arnoldi A steps (steps - 1 - e) t ∧ Unreduced (steps - 1 - e) t.H ∧
      (hMatrix (steps - e) t.H).charpoly = ((shifts.take (steps - e)).map fun z => (X - C z : ℂ[X])).prod ∧
      (∃ r : ℂ, r ≠ 0 ∧ ((shifts.drop (steps - e)).map fun z => A - z • (1 : Module.End ℂ (SField S M))).prod (s.V 0) = r • t.V 0) := by
    intro e
    induction e with
    | zero =>
      intro _
      refine ⟨hs, hu, ?_, 1, one_ne_zero, ?_⟩
      · rw [Nat.sub_zero, List.take_of_length_le hlen.le, hcp]; rfl
      · rw [Nat.sub_zero, List.drop_of_length_le hlen.le, one_smul]; rfl
    | succ e ih =>
      intro hle
      obtain ⟨a1, a2, a3, r, hr, a4⟩ := ih (by omega)
      simp only [List.range_succ, List.map_append, List.map_cons, List.map_nil, List.foldl_append, List.foldl_cons, List.foldl_nil]
      generalize ((List.range e).map fun i => steps - 1 - i).foldl (fun s j => restartStep steps (shifts.getD j 0) j s) s = t at a1 a2 a3 a4 ⊢
      obtain ⟨j, hj⟩ : ∃ j, steps - 1 - e = j + 1 := ⟨steps - 1 - e - 1, by omega⟩
      have hj2 : steps - e = j + 2 := by omega
      have hj3 : steps - (e + 1) = j + 1 := by omega
      have hj4 : steps - 1 - (e + 1) = j := by omega
      rw [hj] at a1 a2 ⊢
      rw [hj2] at a3 a4
      rw [hj3, hj4]
      have hjl : j + 1 < shifts.length := by omega
      have hget : shifts.getD (j + 1) 0 = shifts[j + 1] := List.getD_eq_getElem _ _ hjl
      have htake : shifts.take (j + 2) = shifts.take (j + 1) ++ [shifts.getD (j + 1) 0] := by rw [List.take_succ_eq_append_getElem hjl, hget]
      have hdrop : shifts.drop (j + 1) = shifts.getD (j + 1) 0 :: shifts.drop (j + 2) := by rw [List.drop_eq_getElem_cons hjl, hget]
      generalize shifts.getD (j + 1) 0 = mu at htake hdrop ⊢
      rw [htake, List.map_append, List.prod_append, List.map_cons, List.map_nil, List.prod_singleton] at a3
      have hroot : (hMatrix (j + 2) t.H).charpoly.IsRoot mu := by
        rw [a3, IsRoot.def, eval_mul, eval_sub, eval_X, eval_C, sub_self, mul_zero]
      obtain ⟨b1, b2, ⟨r2, hr2, b3⟩, _⟩ := restartStep_shift a1 a2 mu hroot
      refine ⟨restartStep_inv a1 mu, b1, ?_, r * r2, mul_ne_zero hr hr2, ?_⟩
      · rw [a3, mul_comm] at b2
        exact (mul_left_cancel₀ (X_sub_C_ne_zero mu) b2).symm
      · rw [hdrop, List.map_cons, List.prod_cons, Module.End.mul_apply, a4, map_smul, LinearMap.sub_apply, LinearMap.smul_apply, Module.End.one_apply, b3, smul_smul]
  have := key extra le_rfl
  rw [show steps - 1 - extra = n - 1 by omega, show steps - extra = n by omega] at this
  unfold restartArnoldi
  rw [hsh]
  exact this

/-! ## Vectors made from the process -/

/-- A combination of the vectors. -/
noncomputable def combine (steps : ℕ) (V : ℕ → SField S M) (y : Fin steps → ℂ) : SField S M := ∑ j : Fin steps, y j • V j

theorem combine_dot {steps : ℕ} {V : ℕ → SField S M} (hV : ∀ i c, i ≤ steps - 1 → c ≤ steps - 1 → latticeDot (V i) (V c) = if i = c then 1 else 0) (x y : Fin steps → ℂ) :
    latticeDot (combine steps V x) (combine steps V y) = star x ⬝ᵥ y := by
  unfold combine
  rw [latticeDot_sum_left, dotProduct]
  refine Finset.sum_congr rfl fun i _ => ?_
  rw [latticeDot_smul_left, latticeDot_sum, Finset.sum_eq_single i]
  · rw [latticeDot_smul, hV i i (by omega) (by omega), if_pos rfl, mul_one]; rfl
  · intro c _ hc
    rw [latticeDot_smul, hV i c (by omega) (by omega), if_neg (fun h => hc (Fin.ext h.symm)), mul_zero]
  · intro h; exact absurd (Finset.mem_univ _) h

/-- The operator on a combination. -/
theorem combine_apply {A : SField S M →ₗ[ℂ] SField S M} {steps : ℕ} {s : ArnoldiState S M} (hs : Arnoldi A steps (steps - 1) s) (y : Fin steps → ℂ) :
    A (combine steps s.V y) = combine steps s.V (hMatrix steps s.H *ᵥ y) + y ⟨steps - 1, hs.lt⟩ • s.f := by
  unfold combine
  rw [map_sum]
  have h1 : ∀ c : Fin steps, A (y c • s.V c) = (∑ i : Fin steps, (hMatrix steps s.H i c * y c) • s.V i) + if c = ⟨steps - 1, hs.lt⟩ then y c • s.f else 0 := by
    intro c
    rw [map_smul, hs.rel c (by omega), smul_add, Finset.smul_sum]
    congr 1
    · exact Finset.sum_congr rfl fun i _ => by rw [smul_smul, mul_comm]; rfl
    · by_cases h : c = ⟨steps - 1, hs.lt⟩
      · rw [if_pos h, if_pos (by rw [h])]
      · rw [if_neg h, if_neg (fun h2 => h (Fin.ext h2)), smul_zero]
  rw [Finset.sum_congr rfl fun c _ => h1 c, Finset.sum_add_distrib, Finset.sum_ite_eq' Finset.univ, if_pos (Finset.mem_univ _), Finset.sum_comm]
  congr 1
  refine Finset.sum_congr rfl fun i _ => ?_
  rw [← Finset.sum_smul]
  rfl

theorem combine_perp {A : SField S M →ₗ[ℂ] SField S M} {steps : ℕ} {s : ArnoldiState S M} (hs : Arnoldi A steps (steps - 1) s) (y : Fin steps → ℂ) :
    latticeDot (combine steps s.V y) s.f = 0 := by
  unfold combine
  rw [latticeDot_sum_left]
  exact Finset.sum_eq_zero fun i _ => by rw [latticeDot_smul_left, hs.perp i (by omega), mul_zero]

/-- The quadratic form of the operator on a combination is that of the matrix. -/
theorem combine_form {A : SField S M →ₗ[ℂ] SField S M} {steps : ℕ} {s : ArnoldiState S M} (hs : Arnoldi A steps (steps - 1) s) (x y : Fin steps → ℂ) :
    latticeDot (combine steps s.V x) (A (combine steps s.V y)) = star x ⬝ᵥ (hMatrix steps s.H *ᵥ y) := by
  rw [combine_apply hs, latticeDot_add, latticeDot_smul, combine_perp hs, mul_zero, add_zero, combine_dot hs.orth]

end Leonard
