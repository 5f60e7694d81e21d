import Verif.Sap.Model
import Verif.Blockclover.Props
import Verif.Meson.BoundProps
import Mathlib.Topology.Algebra.Order.Field
import Mathlib.Analysis.SpecificLimits.Basic

/-!
# C93: the preconditioner of the multigrid solver (Schwarz alternating procedure)
-/

set_option autoImplicit false

namespace Leonard

open Matrix

variable {S : Type} {N : ℕ}

/-- **Specification.** The squared norm of a field on a set of sites. -/
noncomputable def partNorm2 [Fintype S] (idx : S → Bool) (v : SField S N) : ℝ := ∑ x, if idx x then ∑ mu, ∑ i, ‖v x mu i‖ ^ 2 else 0

/-- **Specification.** A solver for `A` with squared residual at most `ε`. -/
def SolvesWithin [Fintype S] (A : SField S N → SField S N) (ε : ℝ) (solve : SField S N → SField S N) : Prop :=
  ∀ b, fieldNorm (b - A (solve b)) ^ 2 ≤ ε

/-- The operators the procedure is used with: the Wilson operator or the clover operator, and its restriction to the black (`0`) or the red (`1`)
blocks of the given size. -/
def SapOperators (T : Torus S) (bs : Fin 4 → ℕ) (U : GField S N) (κ csw : ℝ) (D : SField S N → SField S N)
    (A : ℕ → SField S N → SField S N) : Prop :=
  (D = optMul T U κ false ∧ A = fun c => blockMul T (blockIndex T bs c) U κ 0 false) ∨
  (D = improvedMul T U κ csw false ∧ A = fun c => blockImprovedMul T (blockIndex T bs c) U κ csw 0 false)

/-! ### Lemmas -/

theorem blockIndex_red (T : Torus S) (bs : Fin 4 → ℕ) (x : S) : blockIndex T bs 1 x = !blockIndex T bs 0 x := by
  unfold blockIndex
  generalize T.coord x 0 / bs 0 + T.coord x 1 / bs 1 + T.coord x 2 / bs 2 + T.coord x 3 / bs 3 = n
  rcases Nat.mod_two_eq_zero_or_one n with h | h <;> rw [h] <;> rfl

theorem improvedBlock_part (T : Torus S) (idx : S → Bool) (U : GField S N) (κ csw : ℝ) (v : SField S N) (x : S) (hx : idx x = true) :
    blockImprovedMul T idx U κ csw 0 false v x = improvedSpec T U κ csw (projectBlock idx v) x := by
  rw [C83_decoupling T idx U κ csw 0 false v (projectBlock idx v) x (by simp [projectBlock, hx])
    (fun μ => ⟨fun _ h => by simp [projectBlock, h], fun _ h => by simp [projectBlock, h]⟩),
    C83_restriction T idx U κ csw 0 false _ (fun y hy => by simp [projectBlock, hy]) x hx]
  simp [withGamma5]

theorem blockImproved_zero (T : Torus S) (idx : S → Bool) (U : GField S N) (κ : ℝ) (v : SField S N) :
    blockImprovedMul T idx U κ 0 0 false v = blockMul T idx U κ 0 false v := by
  rw [C83_block, C33_block]
  funext x
  simp [withGamma5, diagSite, wilsonSpec]

/-- Both choices of the operators are of this kind. -/
theorem sapOperators_spec {T : Torus S} {bs : Fin 4 → ℕ} {U : GField S N} {κ csw : ℝ} {D : SField S N → SField S N}
    {A : ℕ → SField S N → SField S N} (h : SapOperators T bs U κ csw D A) :
    ∃ c : ℝ, |c| ≤ |csw| ∧ D = improvedSpec T U κ c ∧
      ∀ k v x, blockIndex T bs k x = true → A k v x = improvedSpec T U κ c (projectBlock (blockIndex T bs k) v) x := by
  rcases h with ⟨rfl, rfl⟩ | ⟨rfl, rfl⟩
  · refine ⟨0, by simp, ?_, fun k v x hx => ?_⟩
    · funext v; rw [(C33_wilson T U κ false v).1, improvedSpec_zero]; rfl
    · change blockMul T _ U κ 0 false v x = _
      rw [← blockImproved_zero, improvedBlock_part T _ U κ 0 v x hx]
  · refine ⟨csw, le_rfl, ?_, fun k v x hx => improvedBlock_part T _ U κ csw v x hx⟩
    funext v; rw [C33_improved]; rfl

theorem improvedSpec_sub (T : Torus S) (U : GField S N) (κ csw : ℝ) (a b : SField S N) :
    improvedSpec T U κ csw (a - b) = improvedSpec T U κ csw a - improvedSpec T U κ csw b := by
  have h := improvedSpec_add T U κ csw (a - b) b
  rw [sub_add_cancel] at h
  rw [h, add_sub_cancel_right]

section norms

variable [Fintype S]

theorem partNorm2_nonneg (idx : S → Bool) (v : SField S N) : 0 ≤ partNorm2 idx v :=
  Finset.sum_nonneg fun x _ => by split_ifs <;> positivity

theorem partNorm2_congr {idx : S → Bool} {v w : SField S N} (h : ∀ x, idx x = true → v x = w x) : partNorm2 idx v = partNorm2 idx w := by
  refine Finset.sum_congr rfl fun x _ => ?_
  by_cases hx : idx x = true
  · rw [if_pos hx, if_pos hx, h x hx]
  · rw [if_neg hx, if_neg hx]

theorem fieldNorm_parts (idx : S → Bool) (v : SField S N) : fieldNorm v ^ 2 = partNorm2 idx v + partNorm2 (fun x => !idx x) v := by
  rw [fieldNorm, Real.sq_sqrt (Finset.sum_nonneg fun x _ => by positivity), partNorm2, partNorm2, ← Finset.sum_add_distrib]
  refine Finset.sum_congr rfl fun x _ => ?_
  cases h : idx x <;> simp

theorem partNorm2_le (idx : S → Bool) (v : SField S N) : partNorm2 idx v ≤ fieldNorm v ^ 2 := by
  rw [fieldNorm_parts idx v]
  exact le_add_of_nonneg_right (partNorm2_nonneg _ _)

theorem partNorm2_neg (idx : S → Bool) (v : SField S N) : partNorm2 idx (-v) = partNorm2 idx v := by
  simp [partNorm2]

theorem partNorm2_sub_le (idx : S → Bool) (v w : SField S N) : partNorm2 idx (v - w) ≤ 2 * partNorm2 idx v + 2 * partNorm2 idx w := by
  unfold partNorm2
  rw [Finset.mul_sum, Finset.mul_sum, ← Finset.sum_add_distrib]
  refine Finset.sum_le_sum fun x _ => ?_
  split_ifs
  · simp only [Finset.mul_sum, ← Finset.sum_add_distrib]
    refine Finset.sum_le_sum fun mu _ => Finset.sum_le_sum fun i _ => ?_
    have h : ‖(v - w) x mu i‖ ≤ ‖v x mu i‖ + ‖w x mu i‖ := norm_sub_le _ _
    have h0 : 0 ≤ ‖(v - w) x mu i‖ := norm_nonneg _
    nlinarith [sq_nonneg (‖v x mu i‖ - ‖w x mu i‖)]
  · simp

end norms

/-- The residual of one cycle on the black sites. -/
theorem cycle_residual [Fintype S] {T : Torus S} {bs : Fin 4 → ℕ} {U : GField S N} {κ csw : ℝ} {D : SField S N → SField S N}
    {A : ℕ → SField S N → SField S N} (h : SapOperators T bs U κ csw D A) {ε : ℝ} (sr sb : SField S N → SField S N)
    (hb : SolvesWithin (A 0) ε sb) (b : SField S N) :
    partNorm2 (blockIndex T bs 0) (b - D (complementMul D sr sb (blockIndex T bs 1) (blockIndex T bs 0) b)) ≤ ε := by
  obtain ⟨c, -, rfl, hA⟩ := sapOperators_spec h
  set t1 := projectBlock (blockIndex T bs 1) (sr b) with ht1
  set t2 := b - improvedSpec T U κ c t1 with ht2
  refine le_trans (le_of_eq ?_) ((partNorm2_le (blockIndex T bs 0) _).trans (hb t2))
  refine partNorm2_congr fun x hx => ?_
  change (b - improvedSpec T U κ c (projectBlock (blockIndex T bs 0) (sb t2) + t1)) x = t2 x - A 0 (sb t2) x
  rw [improvedSpec_add, hA 0 _ x hx, ht2]
  simp only [Pi.sub_apply, Pi.add_apply]
  abel

/-! ### The theorems -/

/-- **C93, one cycle.** After one red-black cycle the residual of the full system on the black sites is the residual of the solver of the black
blocks: its squared norm is at most the precision asked for. -/
theorem C93_cycle [Fintype S] (T : Torus S) (bs : Fin 4 → ℕ) (U : GField S N) (κ csw : ℝ) (D : SField S N → SField S N)
    (A : ℕ → SField S N → SField S N) (h : SapOperators T bs U κ csw D A) (ε : ℝ) (solveRed solveBlack : SField S N → SField S N)
    (hb : SolvesWithin (A 0) ε solveBlack) (b : SField S N) :
    partNorm2 (blockIndex T bs 0) (b - D (complementMul D solveRed solveBlack (blockIndex T bs 1) (blockIndex T bs 0) b)) ≤ ε :=
  cycle_residual h solveRed solveBlack hb b

/-- **C93, the result.** With at least one step, whatever the lattice, links, `κ`, block size and number of steps, the residual of the full system
after the preconditioner has on the black sites a squared norm of at most four times the precision of the blocks, which is never more than
`2/5` of the squared norm of the source.  On a lattice with black sites only this is a bound on the whole residual. -/
theorem C93_black [Fintype S] (T : Torus S) (bs : Fin 4 → ℕ) (U : GField S N) (κ csw : ℝ) (D : SField S N → SField S N)
    (A : ℕ → SField S N → SField S N) (h : SapOperators T bs U κ csw D A) (precision : ℝ) (b : SField S N)
    (solve : ℝ → ℕ → SField S N → SField S N)
    (hb : SolvesWithin (A 0) (sapPrecision precision (fieldNorm b ^ 2)) (solve (sapPrecision precision (fieldNorm b ^ 2)) 0)) (steps : ℕ) :
    let ε := sapPrecision precision (fieldNorm b ^ 2)
    let r := b - D (sapMul D (complementMul D (solve ε 1) (solve ε 0) (blockIndex T bs 1) (blockIndex T bs 0)) (steps + 1) b)
    partNorm2 (blockIndex T bs 0) r ≤ 4 * ε ∧ 4 * ε ≤ 2 / 5 * fieldNorm b ^ 2 ∧
      ((∀ x, blockIndex T bs 0 x = true) → fieldNorm r ^ 2 ≤ 4 * ε) := by
  intro ε r
  have h1 : partNorm2 (blockIndex T bs 0) r ≤ 4 * ε := by
    set K := complementMul D (solve ε 1) (solve ε 0) (blockIndex T bs 1) (blockIndex T bs 0) with hK
    have hc : ∀ b', partNorm2 (blockIndex T bs 0) (b' - D (K b')) ≤ ε := fun b' => cycle_residual h _ _ hb b'
    set p := sapMul D K steps b with hp
    have hr : r = (b - D (K b)) - (D p - D (K (D p))) := by
      change b - D (sapMul D K (steps + 1) b) = _
      unfold sapMul
      rw [Function.iterate_succ_apply']
      change b - D (p - K (D p) + K b) = _
      obtain ⟨c, -, rfl, -⟩ := sapOperators_spec h
      rw [improvedSpec_add, improvedSpec_sub]
      abel
    rw [hr]
    have := partNorm2_sub_le (blockIndex T bs 0) (b - D (K b)) (D p - D (K (D p)))
    linarith [hc b, hc (D p)]
  refine ⟨h1, ?_, fun hall => ?_⟩
  · change 4 * sapPrecision precision (fieldNorm b ^ 2) ≤ _
    unfold sapPrecision
    have h0 : 0 ≤ fieldNorm b ^ 2 := by positivity
    split_ifs with hlt
    · linarith
    · linarith
  · rw [fieldNorm_parts (blockIndex T bs 0)]
    have : partNorm2 (fun x => !blockIndex T bs 0 x) r = 0 := by simp [partNorm2, hall]
    linarith

/-- **C93, exact solution.** With solvers of the blocks that are functions of the source, the solution of the full system is reproduced: if the loop
has reached the solution it stays there. -/
theorem C93_fixed (D K : SField S N → SField S N) (b x : SField S N) (hx : D x = b) : sapStep D K b x = x := by
  rw [sapStep, hx, sub_add_cancel]

/-- Half a cycle: if the residual vanishes on some sites, the error there is bounded by the error elsewhere. -/
theorem half_cycle [Fintype S] {T : Torus S} {U : GField S N} (hU : ∀ x μ, U x μ ∈ unitaryGroup (Fin N) ℂ) (κ c h : ℝ)
    (hh : |κ| * (8 + 6 * |c|) ≤ h) (h1 : h < 1) (idx : S → Bool) (e : SField S N) (he : ∀ x, idx x = true → improvedSpec T U κ c e x = 0) :
    partNorm2 idx e ≤ h ^ 2 / (1 - h ^ 2) * partNorm2 (fun x => !idx x) e := by
  have h0 : 0 ≤ h := le_trans (by positivity) hh
  have hn : fieldNorm (improvedSpec T U κ c e - e) ^ 2 ≤ h ^ 2 * fieldNorm e ^ 2 := by
    have := norm_improved_sub (T := T) hU κ c e
    have e1 : toE (improvedSpec T U κ c e) - toE e = toE (improvedSpec T U κ c e - e) := rfl
    rw [e1, norm_toE, norm_toE] at this
    have hp : 0 ≤ fieldNorm e := Real.sqrt_nonneg _
    have hp' : 0 ≤ fieldNorm (improvedSpec T U κ c e - e) := Real.sqrt_nonneg _
    rw [← mul_pow]
    exact pow_le_pow_left₀ hp' (this.trans (mul_le_mul_of_nonneg_right hh hp)) 2
  have hpart : partNorm2 idx e = partNorm2 idx (improvedSpec T U κ c e - e) := by
    rw [← partNorm2_neg idx e]
    refine partNorm2_congr fun x hx => ?_
    rw [Pi.sub_apply, he x hx, zero_sub]; rfl
  have h2 := (hpart.le.trans (partNorm2_le idx _)).trans hn
  rw [fieldNorm_parts idx e] at h2
  have hpos : 0 < 1 - h ^ 2 := by nlinarith
  rw [div_mul_eq_mul_div, le_div_iff₀ hpos]
  linarith

/-- One step of the loop with exact solutions in the blocks. -/
theorem exact_step [Fintype S] {T : Torus S} {bs : Fin 4 → ℕ} {U : GField S N} (hU : ∀ x μ, U x μ ∈ unitaryGroup (Fin N) ℂ) {κ csw h : ℝ}
    (hh : |κ| * (8 + 6 * |csw|) = h) (h1 : h < 1) {D : SField S N → SField S N}
    {A : ℕ → SField S N → SField S N} (hop : SapOperators T bs U κ csw D A) (sr sb : SField S N → SField S N)
    (hr : ∀ b, A 1 (sr b) = b) (hb : ∀ b, A 0 (sb b) = b) (b x o : SField S N) (hx : D x = b) :
    let o' := sapStep D (complementMul D sr sb (blockIndex T bs 1) (blockIndex T bs 0)) b o
    partNorm2 (blockIndex T bs 0) (o' - x) ≤ (h ^ 2 / (1 - h ^ 2)) ^ 2 * partNorm2 (blockIndex T bs 0) (o - x) ∧
      partNorm2 (blockIndex T bs 1) (o' - x) ≤ h ^ 2 / (1 - h ^ 2) * partNorm2 (blockIndex T bs 0) (o - x) := by
  intro o'
  obtain ⟨c, hc, rfl, hA⟩ := sapOperators_spec hop
  have hh' : |κ| * (8 + 6 * |c|) ≤ h := by
    rw [← hh]
    exact mul_le_mul_of_nonneg_left (by linarith) (abs_nonneg κ)
  have h0 : 0 ≤ h := le_trans (by positivity) hh'
  set q := h ^ 2 / (1 - h ^ 2) with hq
  have hq0 : 0 ≤ q := div_nonneg (by positivity) (by nlinarith)
  set M := improvedSpec T U κ c with hM
  set red := blockIndex T bs 1 with hred
  set black := blockIndex T bs 0 with hblack
  have hrb : red = fun y => !black y := funext fun y => blockIndex_red T bs y
  have hbr : black = fun y => !red y := by funext y; rw [hrb]; simp
  set ro := projectBlock red (sr (M o)) with hro
  set rb := projectBlock red (sr b) with hrb'
  set bo := projectBlock black (sb (M o - M ro)) with hbo
  set bb := projectBlock black (sb (b - M rb)) with hbb
  have ho' : o' - x = (o - x) - (ro - rb) - (bo - bb) := by
    change o - (bo + ro) + (bb + rb) - x = _
    abel
  have dr : ∀ y, red y = true → M ((o - x) - (ro - rb)) y = 0 := by
    intro y hy
    have e1 : M ro y = M o y := by rw [hro, ← hA 1 _ y hy, hr]
    have e2 : M rb y = b y := by rw [hrb', ← hA 1 _ y hy, hr]
    rw [hM, improvedSpec_sub, improvedSpec_sub, improvedSpec_sub, ← hM, hx]
    simp only [Pi.sub_apply, e1, e2, sub_self]
  have db : ∀ y, black y = true → M (o' - x) y = 0 := by
    intro y hy
    have e1 : M bo y = (M o - M ro) y := by rw [hbo, ← hA 0 _ y hy, hb]
    have e2 : M bb y = (b - M rb) y := by rw [hbb, ← hA 0 _ y hy, hb]
    rw [ho', hM, improvedSpec_sub, improvedSpec_sub, improvedSpec_sub, improvedSpec_sub, improvedSpec_sub, ← hM, hx]
    simp only [Pi.sub_apply, e1, e2]
    abel
  have s1 := half_cycle hU κ c h hh' h1 red _ dr
  have s2 := half_cycle hU κ c h hh' h1 black _ db
  rw [← hbr] at s1
  rw [← hrb] at s2
  have zr : ∀ v : SField S N, ∀ y, black y = true → projectBlock red v y = 0 := fun v y hy => by
    simp [projectBlock, hrb, hy]
  have zb : ∀ v : SField S N, ∀ y, red y = true → projectBlock black v y = 0 := fun v y hy => by
    rw [hrb] at hy
    simp at hy
    simp [projectBlock, hy]
  have k1 : partNorm2 black ((o - x) - (ro - rb)) = partNorm2 black (o - x) := partNorm2_congr fun y hy => by
    simp only [Pi.sub_apply, hro, hrb', zr _ y hy, sub_zero]
  have k2 : partNorm2 red (o' - x) = partNorm2 red ((o - x) - (ro - rb)) := partNorm2_congr fun y hy => by
    rw [ho']
    simp only [Pi.sub_apply, hbo, hbb, zb _ y hy, sub_zero]
  rw [k1] at s1
  rw [← k2] at s1
  refine ⟨?_, s1⟩
  calc _ ≤ q * partNorm2 red (o' - x) := s2
    _ ≤ q * (q * partNorm2 black (o - x)) := mul_le_mul_of_nonneg_left s1 hq0
    _ = _ := by ring

/-- **C93, rate.** For unitary links and `h = |κ| (8 + 6 |csw|) < 1`, with exact solutions in the blocks: with `q = h² / (1 - h²)`, the squared
error of the result after `n + 1` steps is at most `(q + q²) q^{2n}` times the squared error of the source itself, for blocks of any size. -/
theorem C93_rate [Fintype S] (T : Torus S) (bs : Fin 4 → ℕ) (U : GField S N) (hU : ∀ x μ, U x μ ∈ unitaryGroup (Fin N) ℂ) (κ csw h : ℝ)
    (hh : |κ| * (8 + 6 * |csw|) = h) (h1 : h < 1) (D : SField S N → SField S N) (A : ℕ → SField S N → SField S N)
    (hop : SapOperators T bs U κ csw D A) (solveRed solveBlack : SField S N → SField S N) (hr : ∀ b, A 1 (solveRed b) = b)
    (hb : ∀ b, A 0 (solveBlack b) = b) (b x : SField S N) (hx : D x = b) (n : ℕ) :
    let q := h ^ 2 / (1 - h ^ 2)
    fieldNorm (sapMul D (complementMul D solveRed solveBlack (blockIndex T bs 1) (blockIndex T bs 0)) (n + 1) b - x) ^ 2 ≤
      (q + q ^ 2) * q ^ (2 * n) * fieldNorm (b - x) ^ 2 := by
  intro q
  have h0 : 0 ≤ h := by rw [← hh]; positivity
  have hq0 : 0 ≤ q := div_nonneg (by positivity) (by nlinarith)
  set K := complementMul D solveRed solveBlack (blockIndex T bs 1) (blockIndex T bs 0) with hK
  have hstep := fun o => exact_step hU hh h1 hop solveRed solveBlack hr hb b x o hx
  have hblack : ∀ m, partNorm2 (blockIndex T bs 0) (sapMul D K m b - x) ≤ q ^ (2 * m) * fieldNorm (b - x) ^ 2 := by
    intro m
    induction m with
    | zero => simpa [sapMul] using partNorm2_le (blockIndex T bs 0) (b - x)
    | succ m ih =>
      have s := (hstep (sapMul D K m b)).1
      have e : sapMul D K (m + 1) b = sapStep D K b (sapMul D K m b) := Function.iterate_succ_apply' _ _ _
      rw [e]
      refine s.trans ((mul_le_mul_of_nonneg_left ih (by positivity)).trans (le_of_eq ?_))
      change q ^ 2 * _ = _
      rw [← mul_assoc, ← pow_add]
      congr 2
      ring
  have e : sapMul D K (n + 1) b = sapStep D K b (sapMul D K n b) := Function.iterate_succ_apply' _ _ _
  have hrb : (fun y => !blockIndex T bs 0 y) = blockIndex T bs 1 := funext fun y => (blockIndex_red T bs y).symm
  rw [fieldNorm_parts (blockIndex T bs 0), hrb, e]
  have s := hstep (sapMul D K n b)
  have s1 : partNorm2 (blockIndex T bs 0) (sapStep D K b (sapMul D K n b) - x) ≤ q ^ 2 * partNorm2 (blockIndex T bs 0) (sapMul D K n b - x) := s.1
  have s2 : partNorm2 (blockIndex T bs 1) (sapStep D K b (sapMul D K n b) - x) ≤ q * partNorm2 (blockIndex T bs 0) (sapMul D K n b - x) := s.2
  have hm := mul_le_mul_of_nonneg_left (hblack n) (by positivity : 0 ≤ q + q ^ 2)
  calc _ ≤ q ^ 2 * partNorm2 (blockIndex T bs 0) (sapMul D K n b - x) + q * partNorm2 (blockIndex T bs 0) (sapMul D K n b - x) := add_le_add s1 s2
    _ = (q + q ^ 2) * partNorm2 (blockIndex T bs 0) (sapMul D K n b - x) := by ring
    _ ≤ _ := hm.trans (le_of_eq (by ring))

/-- **C93, convergence.** If moreover `2 h² < 1` the result of the preconditioner converges to the solution of the full system when the number of
steps grows. -/
theorem C93_convergence [Fintype S] (T : Torus S) (bs : Fin 4 → ℕ) (U : GField S N) (hU : ∀ x μ, U x μ ∈ unitaryGroup (Fin N) ℂ)
    (κ csw : ℝ) (h2 : 2 * (|κ| * (8 + 6 * |csw|)) ^ 2 < 1) (D : SField S N → SField S N) (A : ℕ → SField S N → SField S N)
    (hop : SapOperators T bs U κ csw D A) (solveRed solveBlack : SField S N → SField S N) (hr : ∀ b, A 1 (solveRed b) = b)
    (hb : ∀ b, A 0 (solveBlack b) = b) (b x : SField S N) (hx : D x = b) :
    Filter.Tendsto (fun n => sapMul D (complementMul D solveRed solveBlack (blockIndex T bs 1) (blockIndex T bs 0)) n b)
      Filter.atTop (nhds x) := by
  set h := |κ| * (8 + 6 * |csw|) with hh
  have h0 : 0 ≤ h := by positivity
  have h1 : h < 1 := by nlinarith
  set K := complementMul D solveRed solveBlack (blockIndex T bs 1) (blockIndex T bs 0) with hK
  set q := h ^ 2 / (1 - h ^ 2) with hq
  have hpos : 0 < 1 - h ^ 2 := by nlinarith
  have hq0 : 0 ≤ q := div_nonneg (by positivity) hpos.le
  have hq1 : q < 1 := by rw [hq, div_lt_one hpos]; linarith
  have hrate := fun n => C93_rate T bs U hU κ csw h hh.symm h1 D A hop solveRed solveBlack hr hb b x hx n
  have hlim : Filter.Tendsto (fun n : ℕ => (q + q ^ 2) * q ^ (2 * n) * fieldNorm (b - x) ^ 2) Filter.atTop (nhds 0) := by
    have := (tendsto_pow_atTop_nhds_zero_of_lt_one (by positivity : 0 ≤ q ^ 2) (by nlinarith : q ^ 2 < 1)).const_mul ((q + q ^ 2) * fieldNorm (b - x) ^ 2)
    rw [mul_zero] at this
    refine this.congr fun n => ?_
    rw [pow_mul]; ring
  have hsq := squeeze_zero (fun n => sq_nonneg _) hrate hlim
  rw [← Filter.tendsto_add_atTop_iff_nat 1]
  refine tendsto_pi_nhds.mpr fun y => tendsto_pi_nhds.mpr fun mu => tendsto_pi_nhds.mpr fun i => ?_
  rw [tendsto_iff_norm_sub_tendsto_zero]
  have hle : ∀ v : SField S N, ‖v y mu i‖ ^ 2 ≤ fieldNorm v ^ 2 := by
    intro v
    rw [fieldNorm, Real.sq_sqrt (Finset.sum_nonneg fun x _ => by positivity)]
    exact (Finset.single_le_sum (f := fun i => ‖v y mu i‖ ^ 2) (fun _ _ => by positivity) (Finset.mem_univ i)).trans
      ((Finset.single_le_sum (f := fun mu => ∑ i, ‖v y mu i‖ ^ 2) (fun _ _ => by positivity) (Finset.mem_univ mu)).trans
        (Finset.single_le_sum (f := fun y => ∑ mu, ∑ i, ‖v y mu i‖ ^ 2) (fun _ _ => by positivity) (Finset.mem_univ y)))
  have h3 := squeeze_zero (fun n => sq_nonneg _) (fun n => hle (sapMul D K (n + 1) b - x)) hsq
  have h4 := h3.sqrt
  rw [Real.sqrt_zero] at h4
  refine h4.congr fun n => ?_
  rw [Real.sqrt_sq (norm_nonneg _)]
  rfl

/-- **C93 fails for the block size**: the option for the block size of the Schwarz procedure has no effect, for every value given the blocks are
those of the multigrid; on every lattice with a site `(1, 0, 0, 0)` the blocks asked for can differ from these. -/
theorem C93_block_size_counterexample (T : Torus S) (bs₀ : Fin 4 → ℕ) :
    (∀ sap multigrid c, blockIndex T (blockSizeAfter bs₀ (sapBlockCalls sap multigrid)) c = blockIndex T multigrid c) ∧
    ∀ x : S, T.coord x 0 = 1 → T.coord x 1 = 0 → T.coord x 2 = 0 → T.coord x 3 = 0 →
      ∃ sap multigrid, blockIndex T sap 0 x ≠ blockIndex T (blockSizeAfter bs₀ (sapBlockCalls sap multigrid)) 0 x := by
  refine ⟨fun _ _ _ => rfl, fun x h0 h1 h2 h3 => ⟨![1, 2, 2, 2], ![2, 2, 2, 2], ?_⟩⟩
  simp [blockIndex, blockSizeAfter, sapBlockCalls, h0, h1, h2, h3]

theorem blockImproved_lin (T : Torus S) (idx : S → Bool) (U : GField S N) (κ csw : ℝ) (v : SField S N) :
    blockImprovedMul T idx U κ csw 0 false v =
      (improvedLin T (blockLinks T idx U) κ 0 + (improvedLin T U κ csw - improvedLin T U κ 0)) v := by
  change _ = improvedSpec T (blockLinks T idx U) κ 0 v + (improvedSpec T U κ csw v - improvedSpec T U κ 0 v)
  rw [C83_block, improvedSpec_zero, improvedSpec_zero]
  funext x
  simp only [withGamma5, Bool.false_eq_true, if_false, diagSite, wilsonSpec, improvedSpec, Pi.add_apply, Pi.sub_apply, Complex.ofReal_zero,
    mul_zero, zero_smul, add_zero]
  abel

theorem blockImproved_bijective [Fintype S] {T : Torus S} {U : GField S N} (hU : ∀ x μ, U x μ ∈ unitaryGroup (Fin N) ℂ) {κ csw : ℝ}
    (hκ : |κ| * (8 + 6 * |csw|) < 1) (idx : S → Bool) : Function.Bijective (blockImprovedMul T idx U κ csw 0 false) := by
  have hL : blockImprovedMul T idx U κ csw 0 false =
      ⇑(improvedLin T (blockLinks T idx U) κ 0 + (improvedLin T U κ csw - improvedLin T U κ 0)) :=
    funext (blockImproved_lin T idx U κ csw)
  have hi : Function.Injective (improvedLin T (blockLinks T idx U) κ 0 + (improvedLin T U κ csw - improvedLin T U κ 0)) := by
    rw [← LinearMap.ker_eq_bot, LinearMap.ker_eq_bot']
    intro v hv
    rw [← blockImproved_lin] at hv
    have hz : ∀ w : SField S N, fieldNorm w ^ 2 = 0 → w = 0 := by
      intro w hw
      have h1 : toE w = 0 := norm_eq_zero.1 (by rw [norm_toE]; exact pow_eq_zero_iff (two_ne_zero) |>.mp hw)
      funext x
      ext mu i
      exact congrFun (congrArg WithLp.ofLp h1) (x, mu, i)
    have hin : projectBlock idx v = 0 := by
      have h1 := half_cycle (T := T) hU κ csw _ le_rfl hκ idx (projectBlock idx v) (fun x hx => by
        rw [← improvedBlock_part T idx U κ csw v x hx, hv]; rfl)
      have h2 : partNorm2 (fun x => !idx x) (projectBlock idx v) = 0 :=
        Finset.sum_eq_zero fun x _ => by cases h : idx x <;> simp [projectBlock, h]
      refine hz _ ?_
      rw [fieldNorm_parts idx]
      rw [h2, mul_zero] at h1
      linarith [partNorm2_nonneg idx (projectBlock idx v)]
    have hv0 : ∀ x, idx x = true → v x = 0 := fun x hx => by
      have := congrFun hin x
      simpa [projectBlock, hx] using this
    have hcl : v = -(((κ * csw : ℝ) : ℂ) • cloverField T U v) := by
      funext x
      by_cases hx : idx x = true
      · simp [cloverField, hv0 x hx]
      · have h1 := congrFun hv x
        rw [C83_block] at h1
        have hh : hoppingSpec T (blockLinks T idx U) v x = 0 := by
          simp only [hoppingSpec]
          refine Finset.sum_eq_zero fun μ _ => ?_
          simp [blockLinks, hx, T.sup_sdn]
        simp only [withGamma5, Bool.false_eq_true, if_false, hh, smul_zero, sub_zero, Complex.ofReal_zero, mul_zero, zero_smul, add_zero,
          Pi.zero_apply] at h1
        exact eq_neg_of_add_eq_zero_left h1
    have hn : ‖toE v‖ = |κ * csw| * ‖toE (cloverField T U v)‖ := by
      conv_lhs => rw [hcl]
      have e : toE (-(((κ * csw : ℝ) : ℂ) • cloverField T U v)) = -(((κ * csw : ℝ) : ℂ) • toE (cloverField T U v)) := rfl
      rw [e, norm_neg, norm_smul, Complex.norm_real, Real.norm_eq_abs]
    have hb := norm_clover (T := T) hU v
    have h6 : |κ * csw| * 6 < 1 := by
      rw [abs_mul]
      nlinarith [abs_nonneg κ, abs_nonneg csw]
    have h0 : ‖toE v‖ = 0 := by
      have := norm_nonneg (toE v)
      nlinarith [mul_le_mul_of_nonneg_left hb (abs_nonneg (κ * csw))]
    exact hz v (by rw [← norm_toE, h0]; simp)
  rw [hL]
  exact ⟨hi, LinearMap.injective_iff_surjective.1 hi⟩

/-- **C93, the blocks.** The systems to be solved in the blocks have exactly one solution for every source, for unitary links and
`|κ| (8 + 6 |csw|) < 1`; so exact solvers, as used above, exist. -/
theorem C93_blocks_solvable [Fintype S] (T : Torus S) (bs : Fin 4 → ℕ) (U : GField S N) (hU : ∀ x μ, U x μ ∈ unitaryGroup (Fin N) ℂ)
    (κ csw : ℝ) (hκ : |κ| * (8 + 6 * |csw|) < 1) (D : SField S N → SField S N) (A : ℕ → SField S N → SField S N)
    (hop : SapOperators T bs U κ csw D A) (c : ℕ) (b : SField S N) : ∃! v, A c v = b := by
  rcases hop with ⟨-, rfl⟩ | ⟨-, rfl⟩
  · have h0 : |κ| * (8 + 6 * |(0 : ℝ)|) < 1 := by
      rw [abs_zero]
      nlinarith [abs_nonneg κ, abs_nonneg csw, mul_nonneg (abs_nonneg κ) (abs_nonneg csw)]
    have h := (blockImproved_bijective (T := T) hU h0 (blockIndex T bs c)).existsUnique b
    simpa only [blockImproved_zero] using h
  · exact (blockImproved_bijective (T := T) hU hκ (blockIndex T bs c)).existsUnique b

/-! ### Examples -/

example : SapOperators (boxTorus exExt3 exExt3_pos) ![1, 6, 6, 6] (fun _ _ => (1 : Mat 2)) (1 / 20) 0
    (optMul (boxTorus exExt3 exExt3_pos) (fun _ _ => 1) (1 / 20) false)
    (fun c => blockMul (boxTorus exExt3 exExt3_pos) (blockIndex (boxTorus exExt3 exExt3_pos) ![1, 6, 6, 6] c) (fun _ _ => 1) (1 / 20) 0 false) ∧
    2 * (|(1 / 20 : ℝ)| * (8 + 6 * |(0 : ℝ)|)) ^ 2 < 1 :=
  ⟨Or.inl ⟨rfl, rfl⟩, by rw [abs_of_pos (by norm_num)]; norm_num⟩

example : (boxTorus exExt3 exExt3_pos).coord ⟨⟨1, 0, 0, 0⟩, by decide⟩ 0 = 1 := by decide

end Leonard
