import Verif.Arnoldi.Ritz
import Mathlib.Data.Finset.Sort

/-!
# What the program returns
-/

set_option autoImplicit false

namespace Leonard

open Matrix Polynomial

variable {S : Type} [Fintype S] {M : ℕ}

/-! ## More restarts -/

/-- Every eigenvalue of the matrix of `s` is below some eigenvalue of the matrix of `t`. -/
def Below (steps : ℕ) (s t : ArnoldiState S M) : Prop :=
  ∀ x, (hMatrix steps s.H).charpoly.IsRoot x → ∃ y, (hMatrix steps t.H).charpoly.IsRoot y ∧ x.re ≤ y.re

theorem Below.refl (steps : ℕ) (s : ArnoldiState S M) : Below steps s s := fun x hx => ⟨x, hx, le_rfl⟩

theorem Below.trans {steps : ℕ} {s t r : ArnoldiState S M} (h1 : Below steps s t) (h2 : Below steps t r) : Below steps s r := fun x hx => by
  obtain ⟨y, hy, hxy⟩ := h1 x hx
  obtain ⟨z, hz, hyz⟩ := h2 y hy
  exact ⟨z, hz, hxy.trans hyz⟩

/-- A vector continued by zero. -/
noncomputable def padVec {n : ℕ} (steps : ℕ) (y : Fin n → ℂ) : Fin steps → ℂ := fun i => if h : i.val < n then y ⟨i.val, h⟩ else 0

theorem padVec_cast {n steps : ℕ} (hn : n ≤ steps) (y : Fin n → ℂ) (i : Fin n) : padVec steps y (Fin.castLE hn i) = y i := dif_pos i.isLt

theorem padVec_sum {n steps : ℕ} (hn : n ≤ steps) (y : Fin n → ℂ) (g : Fin steps → ℂ → ℂ) (hg : ∀ i, g i 0 = 0) :
    ∑ i, g i (padVec steps y i) = ∑ i : Fin n, g (Fin.castLE hn i) (y i) := by
  symm
  refine Finset.sum_of_injOn (Fin.castLE hn) (fun a _ b _ hab => Fin.castLE_injective hn hab) (fun _ _ => Finset.mem_univ _) (fun l _ hl => ?_)
    fun i _ => by rw [padVec_cast]
  rw [padVec, dif_neg, hg]
  intro h1
  exact hl ⟨⟨l.val, h1⟩, Finset.mem_coe.2 (Finset.mem_univ _), Fin.ext rfl⟩

theorem padVec_form {n steps : ℕ} (hn : n ≤ steps) (y : Fin n → ℂ) (H H' : ℕ → ℕ → ℂ) (hH : ∀ i c, i < n → c < n → H i c = H' i c) :
    star (padVec steps y) ⬝ᵥ (hMatrix steps H *ᵥ padVec steps y) = star y ⬝ᵥ (hMatrix n H' *ᵥ y) := by
  rw [dotProduct, dotProduct]
  have h1 := padVec_sum hn y (fun i z => star z * (hMatrix steps H *ᵥ padVec steps y) i) (fun i => by simp)
  refine Eq.trans h1 (Finset.sum_congr rfl fun i _ => ?_)
  rw [Pi.star_apply]
  congr 1
  rw [Matrix.mulVec, Matrix.mulVec, dotProduct, dotProduct]
  have h2 := padVec_sum hn y (fun c z => hMatrix steps H (Fin.castLE hn i) c * z) (fun c => mul_zero _)
  refine Eq.trans h2 (Finset.sum_congr rfl fun c _ => ?_)
  rw [hMatrix_apply, hMatrix_apply, Fin.val_castLE, Fin.val_castLE, hH i c i.isLt c.isLt]

theorem padVec_norm {n steps : ℕ} (hn : n ≤ steps) (y : Fin n → ℂ) : star (padVec steps y) ⬝ᵥ padVec steps y = star y ⬝ᵥ y := by
  rw [dotProduct, dotProduct]
  exact padVec_sum hn y (fun _ z => star z * z) (fun i => by simp)

variable {A : SField S M →ₗ[ℂ] SField S M} {eig : DenseSolver} {n extra : ℕ}

/-- One restart. -/
theorem cycle_full (he : eig.Correct) (hn : 1 ≤ n) {s t : ArnoldiState S M} (hs : Full A (extra + n) s)
    (h : extendArnoldi A (n - 1) (extra + n) (restartArnoldi eig (extra + n) extra s) = some t) : Full A (extra + n) t := by
  obtain ⟨a1, a2, _, _⟩ := restartArnoldi_inv he hn hs.1 hs.2
  obtain ⟨b1, b2, _, _⟩ := extendArnoldi_inv A a1 a2 h
  exact ⟨b1, b2⟩

theorem cycle_below (he : eig.Correct) (hn : 1 ≤ n) (hA : ∀ v w, latticeDot v (A w) = latticeDot (A v) w) {s t : ArnoldiState S M} (hs : Full A (extra + n) s)
    (h : extendArnoldi A (n - 1) (extra + n) (restartArnoldi eig (extra + n) extra s) = some t) : Below (extra + n) s t := by
  have ht := cycle_full he hn hs h
  obtain ⟨a1, a2, a3, _⟩ := restartArnoldi_inv he hn hs.1 hs.2
  obtain ⟨_, _, b3, _⟩ := extendArnoldi_inv A a1 a2 h
  intro x hx
  -- the first of the sorted eigenvalues
  have hmem : x ∈ sortedRitz eig (extra + n) s.H := by
    obtain ⟨i, hi⟩ := root_mem he _ x hx
    rw [(sortedRitz_perm eig (extra + n) s.H).mem_iff, List.mem_ofFn]
    exact ⟨i, hi⟩
  have hso := sortedRitz_sorted eig (extra + n) s.H
  generalize sortedRitz eig (extra + n) s.H = l at hmem hso a3
  obtain ⟨h0, l', rfl⟩ : ∃ h0 l', l = h0 :: l' := by
    cases l with
    | nil => exact absurd hmem List.not_mem_nil
    | cons a b => exact ⟨a, b, rfl⟩
  have hx0 : x.re ≤ h0.re := by
    rcases List.mem_cons.1 hmem with rfl | h1
    · exact le_rfl
    · exact (List.pairwise_cons.1 hso).1 x h1
  have hroot : (hMatrix n (restartArnoldi eig (extra + n) extra s).H).charpoly.IsRoot h0 := by
    obtain ⟨m, rfl⟩ : ∃ m, n = m + 1 := ⟨n - 1, by omega⟩
    rw [a3, List.take_succ_cons, List.map_cons, List.prod_cons, IsRoot.def, eval_mul, eval_sub, eval_X, eval_C, sub_self, zero_mul]
  obtain ⟨y, hy0, hy⟩ := (root_iff_eigen _ _).1 hroot
  have hle : n ≤ extra + n := by omega
  have hf := padVec_form hle y t.H (restartArnoldi eig (extra + n) extra s).H (fun i c hi hc => b3 i c (by omega) (by omega))
  have hpos : 0 < (star y ⬝ᵥ y).re := by
    rw [star_dot_self, Complex.ofReal_re]
    refine lt_of_le_of_ne (Finset.sum_nonneg fun i _ => by positivity) fun h1 => hy0 ?_
    exact star_dot_self_zero (by rw [star_dot_self, ← h1, Complex.ofReal_zero])
  have hp0 : padVec (extra + n) y ≠ 0 := by
    intro h1
    have h2 := padVec_norm hle y
    rw [h1, star_zero, zero_dotProduct] at h2
    rw [← h2] at hpos
    exact lt_irrefl _ hpos
  obtain ⟨z, hz, hzle⟩ := ht.above hA (padVec (extra + n) y) hp0
  rw [hf, hy, dotProduct_smul, padVec_norm hle, smul_eq_mul] at hzle
  refine ⟨z, hz, hx0.trans ?_⟩
  have him : (star y ⬝ᵥ y).im = 0 := by rw [star_dot_self, Complex.ofReal_im]
  rw [Complex.mul_re, him, mul_zero, sub_zero] at hzle
  exact le_of_mul_le_mul_right hzle hpos

variable {D : SField S M →ₗ[ℂ] SField S M} {epsilon : ℝ}

/-- The result comes from a complete process. -/
theorem eigenLoop_result (he : eig.Correct) (hn : 1 ≤ n) : ∀ (m : ℕ) (s : ArnoldiState S M) (r : List (ℂ × SField S M) × ℝ), Full A (extra + n) s →
    eigenLoop A D eig n extra epsilon m s = some r →
    ∃ t, Full A (extra + n) t ∧ r = finishArnoldi D eig (extra + n) extra t ∧ ((∀ v w, latticeDot v (A w) = latticeDot (A v) w) → Below (extra + n) s t) := by
  intro m
  induction m with
  | zero =>
    intro s r hs h
    exact ⟨s, hs, (Option.some.inj h).symm, fun _ => Below.refl _ _⟩
  | succ m ih =>
    intro s r hs h
    rw [eigenLoop] at h
    obtain ⟨s1, h1, h⟩ := Option.bind_eq_some_iff.1 h
    obtain ⟨s2, h2, h⟩ := Option.bind_eq_some_iff.1 h
    have f1 := cycle_full he hn hs h1
    have f2 := cycle_full he hn f1 h2
    have hb : (∀ v w, latticeDot v (A w) = latticeDot (A v) w) → Below (extra + n) s s2 := fun hA => (cycle_below he hn hA hs h1).trans (cycle_below he hn hA f1 h2)
    simp only at h
    split at h
    · exact ⟨s2, f2, (Option.some.inj h).symm, hb⟩
    · obtain ⟨t, ht, hr, hbt⟩ := ih s2 r f2 h
      exact ⟨t, ht, hr, fun hA => (hb hA).trans (hbt hA)⟩

/-- With more restarts the eigenvalues do not fall. -/
theorem eigenLoop_below (he : eig.Correct) (hn : 1 ≤ n) (hA : ∀ v w, latticeDot v (A w) = latticeDot (A v) w) (k : ℕ) : ∀ (m : ℕ) (s : ArnoldiState S M)
    (r r' : List (ℂ × SField S M) × ℝ), Full A (extra + n) s → eigenLoop A D eig n extra epsilon m s = some r → eigenLoop A D eig n extra epsilon (m + k) s = some r' →
    ∃ t t', Full A (extra + n) t ∧ Full A (extra + n) t' ∧ r = finishArnoldi D eig (extra + n) extra t ∧ r' = finishArnoldi D eig (extra + n) extra t' ∧ Below (extra + n) t t' := by
  intro m
  induction m with
  | zero =>
    intro s r r' hs h h'
    obtain ⟨t', ht', hr', hb⟩ := eigenLoop_result he hn _ s r' hs h'
    exact ⟨s, t', hs, ht', (Option.some.inj h).symm, hr', hb hA⟩
  | succ m ih =>
    intro s r r' hs h h'
    rw [Nat.add_right_comm] at h'
    rw [eigenLoop] at h h'
    obtain ⟨s1, h1, h⟩ := Option.bind_eq_some_iff.1 h
    obtain ⟨s2, h2, h⟩ := Option.bind_eq_some_iff.1 h
    obtain ⟨s1', h1', h'⟩ := Option.bind_eq_some_iff.1 h'
    obtain ⟨s2', h2', h'⟩ := Option.bind_eq_some_iff.1 h'
    obtain rfl : s1' = s1 := Option.some.inj (h1'.symm.trans h1)
    obtain rfl : s2' = s2 := Option.some.inj (h2'.symm.trans h2)
    have f2 := cycle_full he hn (cycle_full he hn hs h1) h2
    simp only at h h'
    by_cases hd : (finishArnoldi D eig (extra + n) extra s2').2 < epsilon
    · rw [if_pos hd] at h h'
      exact ⟨s2', s2', f2, f2, (Option.some.inj h).symm, (Option.some.inj h').symm, Below.refl _ _⟩
    · rw [if_neg hd] at h h'
      exact ih s2' r r' f2 h h'

/-- The start of the whole process. -/
theorem start_full (hn : 1 ≤ n) {start : SField S M} {old : ℕ → SField S M} {s0 s : ArnoldiState S M} (h0 : startArnoldi A start old = some s0)
    (h : extendArnoldi A 0 (extra + n) s0 = some s) : Full A (extra + n) s := by
  obtain ⟨a1, a2, _, _⟩ := extendArnoldi_inv A (startArnoldi_inv A (extra + n) (by omega) start old s0 h0) (fun c hc => absurd hc (Nat.not_lt_zero c)) h
  exact ⟨a1, a2⟩

/-! ## The pairs -/

theorem ritzVector_eq (steps : ℕ) (t : ArnoldiState S M) (i : Fin steps) : ritzVector eig steps t i = combine steps t.V (fun r => (eig steps (hMatrix steps t.H)).2 r i) := rfl

theorem ritz_norm (he : eig.Correct) {steps : ℕ} {t : ArnoldiState S M} (ht : Full A steps t) (i : Fin steps) : latticeNorm2 (ritzVector eig steps t i) = 1 := by
  have h1 := latticeDot_self (ritzVector eig steps t i)
  rw [ritzVector_eq, combine_dot ht.1.orth, star_dot_self, he.norm] at h1
  rw [ritzVector_eq]
  exact_mod_cast h1.symm

theorem ritz_form (he : eig.Correct) {steps : ℕ} {t : ArnoldiState S M} (ht : Full A steps t) (i j : Fin steps) :
    latticeDot (ritzVector eig steps t i) (A (ritzVector eig steps t j)) = (eig steps (hMatrix steps t.H)).1 j * latticeDot (ritzVector eig steps t i) (ritzVector eig steps t j) := by
  rw [ritzVector_eq, ritzVector_eq, combine_form ht.1, combine_dot ht.1.orth, he.vector, dotProduct_smul, smul_eq_mul]

theorem ritz_orth (he : eig.Correct) {steps : ℕ} {t : ArnoldiState S M} (ht : Full A steps t) (hA : ∀ v w, latticeDot v (A w) = latticeDot (A v) w) (i j : Fin steps) :
    latticeDot (ritzVector eig steps t i) (ritzVector eig steps t j) = if i = j then 1 else 0 := by
  by_cases hij : i = j
  · rw [if_pos hij, hij, latticeDot_self, ritz_norm he ht, Complex.ofReal_one]
  · rw [if_neg hij]
    have h1 := ritz_form he ht i j
    have h2 := ritz_form he ht j i
    rw [hA, ← latticeDot_conj, h2, map_mul, latticeDot_conj, Complex.conj_eq_iff_im.2 (root_real (ht.hermitian hA) (mem_root he _ i))] at h1
    have h3 : ((eig steps (hMatrix steps t.H)).1 i - (eig steps (hMatrix steps t.H)).1 j) * latticeDot (ritzVector eig steps t i) (ritzVector eig steps t j) = 0 := by
      rw [sub_mul, h1, sub_self]
    refine (mul_eq_zero.1 h3).resolve_left fun h4 => hij ?_
    exact ht.distinct hA he (sub_eq_zero.1 h4)

theorem finish_length (D : SField S M → SField S M) (n extra : ℕ) (t : ArnoldiState S M) : (finishArnoldi D eig (extra + n) extra t).1.length = n := by
  simp [finishArnoldi]

theorem finish_get (D : SField S M → SField S M) (n extra : ℕ) (t : ArnoldiState S M) (k : ℕ) (hk : k < (finishArnoldi D eig (extra + n) extra t).1.length) :
    (finishArnoldi D eig (extra + n) extra t).1[k] = finishPair D eig (extra + n) t ⟨extra + n - 1 - k, by rw [finish_length] at hk; omega⟩ := by
  simp only [finishArnoldi, List.getElem_take, List.getElem_reverse, List.getElem_map, List.getElem_finRange, List.length_map, List.length_finRange]
  rfl

theorem foldl_max_le {ι : Type} (c : ι → Prop) [DecidablePred c] (g : ι → ℝ) : ∀ (l : List ι) (a : ℝ),
    a ≤ l.foldl (fun m i => if c i then (if m < g i then g i else m) else m) a ∧ ∀ i ∈ l, c i → g i ≤ l.foldl (fun m i => if c i then (if m < g i then g i else m) else m) a := by
  intro l
  induction l with
  | nil => intro a; exact ⟨le_rfl, fun i hi => absurd hi List.not_mem_nil⟩
  | cons x l ih =>
    intro a
    rw [List.foldl_cons]
    obtain ⟨h1, h2⟩ := ih (if c x then (if a < g x then g x else a) else a)
    refine ⟨le_trans ?_ h1, fun i hi hci => ?_⟩
    · split_ifs with h3 h4
      · exact h4.le
      · exact le_rfl
      · exact le_rfl
    · rcases List.mem_cons.1 hi with rfl | h3
      · refine le_trans ?_ h1
        rw [if_pos hci]
        split_ifs with h4
        · exact le_rfl
        · exact not_lt.1 h4
      · exact h2 i h3 hci

theorem finish_deviation (D : SField S M → SField S M) (n extra : ℕ) (t : ArnoldiState S M) (p : ℂ × SField S M) (hp : p ∈ (finishArnoldi D eig (extra + n) extra t).1) :
    pairDeviation D p ≤ (finishArnoldi D eig (extra + n) extra t).2 := by
  obtain ⟨k, hk, rfl⟩ := List.getElem_of_mem hp
  rw [finish_get]
  have hk' := hk
  rw [finish_length] at hk'
  exact (foldl_max_le (fun i : Fin (extra + n) => extra ≤ i.val) (fun i => pairDeviation D (finishPair D eig (extra + n) t i)) (List.finRange (extra + n)) 0).2 _
    (List.mem_finRange _) (by simp only; omega)

theorem fieldNorm_le_l1 (v : SField S M) : fieldNorm v ≤ l1Norm v := by
  have h0 : 0 ≤ l1Norm v := Finset.sum_nonneg fun _ _ => Finset.sum_nonneg fun _ _ => Finset.sum_nonneg fun _ _ => norm_nonneg _
  refine Real.sqrt_le_iff.2 ⟨h0, ?_⟩
  have e : ∀ g : S × Fin 4 × Fin M → ℝ, ∑ x, ∑ mu, ∑ c, g (x, mu, c) = ∑ p, g p := fun g => by rw [Fintype.sum_prod_type]; exact Finset.sum_congr rfl fun x _ => by rw [Fintype.sum_prod_type]
  rw [l1Norm, e (fun p => ‖v p.1 p.2.1 p.2.2‖ ^ 2), e (fun p => ‖v p.1 p.2.1 p.2.2‖)]
  exact Finset.sum_sq_le_sq_sum_of_nonneg fun p _ => norm_nonneg _

/-! ## Comparison with the eigenvalues of the operator -/

/-- A space on which the quadratic form is at least `c` shows as many eigenvalues that are at least `c`. -/
theorem EigenBasis.separation {N : ℕ} {u : Fin N → SField S M} {mu : Fin N → ℝ} (h : EigenBasis D N u mu) (k : ℕ) (w : Fin k → SField S M) (lam : Fin k → ℝ) (c : ℝ)
    (hw : ∀ a b, latticeDot (w a) (w b) = if a = b then 1 else 0) (hform : ∀ a b, latticeDot (w a) (D (w b)) = if a = b then (lam b : ℂ) else 0) (hc : ∀ a, c ≤ lam a) :
    ∃ e : Fin k → Fin N, Function.Injective e ∧ ∀ a, c ≤ mu (e a) := by
  classical
  by_cases hcard : k ≤ (Finset.univ.filter fun a => c ≤ mu a).card
  · refine ⟨fun a => Finset.orderEmbOfCardLe _ hcard a, fun a b hab => (Finset.orderEmbOfCardLe _ hcard).injective hab, fun a => ?_⟩
    exact (Finset.mem_filter.1 (Finset.orderEmbOfCardLe_mem _ hcard a)).2
  exfalso
  let L : (Fin k → ℂ) →ₗ[ℂ] ((Finset.univ.filter fun a => c ≤ mu a) → ℂ) :=
    { toFun := fun x a => latticeDot (u a) (∑ l, x l • w l)
      map_add' := fun x y => by funext a; rw [Pi.add_apply, ← latticeDot_add, ← Finset.sum_add_distrib]; simp only [Pi.add_apply, add_smul]
      map_smul' := fun z x => by funext a; rw [Pi.smul_apply, RingHom.id_apply, smul_eq_mul, ← latticeDot_smul, Finset.smul_sum]; simp only [Pi.smul_apply, smul_eq_mul, smul_smul] }
  have hker : LinearMap.ker L ≠ ⊥ := by
    apply LinearMap.ker_ne_bot_of_finrank_lt
    rw [Module.finrank_fintype_fun_eq_card, Module.finrank_fintype_fun_eq_card, Fintype.card_fin, Fintype.card_coe]
    omega
  obtain ⟨x, hx, hx0⟩ := (Submodule.ne_bot_iff _).1 hker
  have hLx : ∀ a, c ≤ mu a → latticeDot (u a) (∑ l, x l • w l) = 0 := fun a ha => congrFun (LinearMap.mem_ker.1 hx) ⟨a, Finset.mem_filter.2 ⟨Finset.mem_univ _, ha⟩⟩
  have hdot : ∀ y : Fin k → SField S M, latticeDot (∑ l, x l • w l) (∑ l, x l • y l) = ∑ a, ∑ b, starRingEnd ℂ (x a) * x b * latticeDot (w a) (y b) := by
    intro y
    rw [latticeDot_sum_left]
    refine Finset.sum_congr rfl fun a _ => ?_
    rw [latticeDot_smul_left, latticeDot_sum, Finset.mul_sum]
    exact Finset.sum_congr rfl fun b _ => by rw [latticeDot_smul]; ring
  have hn : latticeNorm2 (∑ l, x l • w l) = ∑ a, ‖x a‖ ^ 2 := by
    have h1 := latticeDot_self (∑ l, x l • w l)
    rw [hdot w] at h1
    simp only [hw, mul_ite, mul_one, mul_zero, Finset.sum_ite_eq, Finset.mem_univ, if_true] at h1
    have h2 : ∑ a, starRingEnd ℂ (x a) * x a = ((∑ a, ‖x a‖ ^ 2 : ℝ) : ℂ) := by
      rw [Complex.ofReal_sum]
      exact Finset.sum_congr rfl fun a _ => by rw [← Complex.normSq_eq_conj_mul_self, Complex.normSq_eq_norm_sq]
    rw [h2] at h1
    exact_mod_cast h1.symm
  have hf : latticeDot (∑ l, x l • w l) (D (∑ l, x l • w l)) = ((∑ a, lam a * ‖x a‖ ^ 2 : ℝ) : ℂ) := by
    have h0 : D (∑ l, x l • w l) = ∑ l, x l • D (w l) := by rw [map_sum]; exact Finset.sum_congr rfl fun l _ => map_smul _ _ _
    rw [h0, hdot fun l => D (w l)]
    simp only [hform, mul_ite, mul_zero, Finset.sum_ite_eq, Finset.mem_univ, if_true]
    rw [Complex.ofReal_sum]
    refine Finset.sum_congr rfl fun a _ => ?_
    rw [← Complex.normSq_eq_conj_mul_self, Complex.normSq_eq_norm_sq, Complex.ofReal_mul, mul_comm]
  rw [h.form, Complex.ofReal_inj] at hf
  have hge : c * latticeNorm2 (∑ l, x l • w l) ≤ ∑ a, lam a * ‖x a‖ ^ 2 := by
    rw [hn, Finset.mul_sum]
    exact Finset.sum_le_sum fun a _ => mul_le_mul_of_nonneg_right (hc a) (by positivity)
  have hpos : 0 < latticeNorm2 (∑ l, x l • w l) := by
    rw [hn]
    refine lt_of_le_of_ne (Finset.sum_nonneg fun i _ => by positivity) fun h1 => hx0 ?_
    exact star_dot_self_zero (by rw [star_dot_self, ← h1, Complex.ofReal_zero])
  have hlt : ∑ a, mu a * ‖latticeDot (u a) (∑ l, x l • w l)‖ ^ 2 < c * latticeNorm2 (∑ l, x l • w l) := by
    rw [h.norm, Finset.mul_sum]
    have hle : ∀ a, mu a * ‖latticeDot (u a) (∑ l, x l • w l)‖ ^ 2 ≤ c * ‖latticeDot (u a) (∑ l, x l • w l)‖ ^ 2 := by
      intro a
      by_cases ha : c ≤ mu a
      · rw [hLx a ha, norm_zero]; simp
      · exact mul_le_mul_of_nonneg_right (not_le.1 ha).le (by positivity)
    refine Finset.sum_lt_sum (fun a _ => hle a) ?_
    have : ∃ a, ‖latticeDot (u a) (∑ l, x l • w l)‖ ^ 2 ≠ 0 := by
      by_contra h6
      push Not at h6
      rw [h.norm, Finset.sum_eq_zero fun a _ => h6 a] at hpos
      exact lt_irrefl _ hpos
    obtain ⟨a, ha⟩ := this
    refine ⟨a, Finset.mem_univ _, mul_lt_mul_of_pos_right ?_ (lt_of_le_of_ne (by positivity) (Ne.symm ha))⟩
    by_contra h7
    exact ha (by rw [hLx a (not_lt.1 h7), norm_zero, zero_pow two_ne_zero])
  linarith

theorem EigenBasis.neg {N : ℕ} {u : Fin N → SField S M} {mu : Fin N → ℝ} (h : EigenBasis D N u mu) : EigenBasis (-D) N u (fun a => -mu a) :=
  ⟨h.orth, fun a => by rw [LinearMap.neg_apply, h.eigen, Complex.ofReal_neg, neg_smul], h.norm⟩

end Leonard
