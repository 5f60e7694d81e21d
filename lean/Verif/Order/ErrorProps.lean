import Verif.Order.Words

/-!
# C52: leading errors of the integrators of second order
-/

set_option autoImplicit false

namespace Leonard

open Filter Asymptotics Finset Matrix
open scoped ContDiff Topology Matrix.Norms.Operator

variable {S : Type} [Fintype S] {N : ℕ}

/-- The energy changes by `t ^ 3` times `c`, and terms of higher order. -/
def EnergyGrows (eig : EigenSolver N) (energy : GField S N → ℝ) (F : GField S N → GField S N) (x : GField S N × GField S N)
    (l : ℝ → List (MdOp Unit)) (c : ℝ) : Prop :=
  (fun t : ℝ => totalEnergy energy (mdRun (eigenLink eig) (fun _ => F) (l t) x) - totalEnergy energy x - t ^ 3 * c) =O[𝓝 0] fun t => t ^ 4

theorem energy_third (eig : EigenSolver N) (he : eig.Correct) {O : Set (GField S N)} {energy : GField S N → ℝ}
    {F : GField S N → GField S N} (h : Conservative O energy (fun _ : Unit => F) [()]) (x : GField S N × GField S N) (hx : x.1 ∈ O)
    (hP : ∀ s μ, IsLie (x.2 s μ)) :
    ∃ E₁ E₂ : ℝ, ∀ (l : List (MdOp Unit)) (a b : ℝ), (∀ {R : Type} [Ring R] [Algebra ℝ R] (A B : R), ErrS A B a b (runS A (fun _ => B) l)) →
      EnergyGrows eig energy F x (fun t => l.map (MdOp.scale t)) (a * E₁ + b * E₂) := by
  have hΩ := h.isOpen.prod (isOpen_univ (X := GField S N))
  have hA : ContDiffOn ℝ ∞ (linkDir : Phase S N → Phase S N) (O ×ˢ Set.univ) := contDiff_linkDir.contDiffOn
  have hB : ∀ i : Unit, ContDiffOn ℝ ∞ (momDir (S := S) (fun _ : Unit => F) i) (O ×ˢ Set.univ) := fun i => contDiffOn_momDir (h.smooth_force i)
  set A := (lieD hΩ linkDir hA : Module.End ℝ (smoothOn (O ×ˢ Set.univ) ℝ)) with hAd
  set B := (lieD hΩ _ (hB ()) : Module.End ℝ (smoothOn (O ×ˢ Set.univ) ℝ)) with hBd
  set f : smoothOn (O ×ˢ (Set.univ : Set (GField S N))) ℝ := ⟨bigEnergy energy, contDiffOn_bigEnergy h.smooth_energy⟩ with hf
  have hz : (A + B) f = 0 := by
    refine Subtype.ext (funext fun y => ?_)
    change (A f).1 y + (B f).1 y = 0
    by_cases hy : y ∈ O ×ˢ (Set.univ : Set (GField S N))
    · have h1 := h.direction y hy
      rw [List.map_singleton, List.sum_singleton, map_add] at h1
      rw [hAd, hBd, lieD_apply hΩ hA f hy, lieD_apply hΩ (hB ()) f hy]
      exact h1
    · rw [hAd, hBd, lieD_apply_out hΩ hA f hy, lieD_apply_out hΩ (hB ()) f hy, add_zero]
  refine ⟨((A * A * B - (2 : ℝ) • (A * B * A) + B * A * A) f).1 x, ((A * B * B - (2 : ℝ) • (B * A * B) + B * B * A) f).1 x, fun l a b hl => ?_⟩
  have hmem : x ∈ O ×ˢ (Set.univ : Set (GField S N)) := ⟨hx, trivial⟩
  have h1 := run_expand (W := ℝ) hΩ hA hB (opFlow_flow h.isOpen h.smooth_force) f l x hmem 4
  have ht : Tendsto (fun t : ℝ => (t, x)) (𝓝 0) (𝓝 (0, x)) := by
    rw [nhds_prod_eq]; exact tendsto_id.prodMk tendsto_const_nhds
  refine (h1.comp_tendsto ht).congr_left fun t => ?_
  have h2 := mdRun_eq_flowRun eig he h.lie l t x hP
  have hE := hl A B
  have c0 : cS 0 (runS A (fun _ => B) l) = 1 := (hE.low 0 (by norm_num)).trans (coeff_low_expS _).1
  have c1 : cS 1 (runS A (fun _ => B) l) f = 0 := by
    rw [show cS 1 (runS A (fun _ => B) l) = A + B from (hE.low 1 (by norm_num)).trans (coeff_low_expS _).2.1, hz]
  have c2 : cS 2 (runS A (fun _ => B) l) f = 0 := by
    rw [show cS 2 (runS A (fun _ => B) l) = (1 / 2 : ℝ) • ((A + B) * (A + B)) from (hE.low 2 (by norm_num)).trans (coeff_low_expS _).2.2.1,
      LinearMap.smul_apply, Module.End.mul_apply, hz, map_zero, smul_zero]
  have c3 : cS 3 (runS A (fun _ => B) l) f = a • (A * A * B - (2 : ℝ) • (A * B * A) + B * A * A) f +
      b • (A * B * B - (2 : ℝ) • (B * A * B) + B * B * A) f := by
    have e : cS 3 (runS A (fun _ => B) l) = (1 / 6 : ℝ) • ((A + B) * (A + B) * (A + B)) +
        (a • (A * A * B - (2 : ℝ) • (A * B * A) + B * A * A) + b • (A * B * B - (2 : ℝ) • (B * A * B) + B * B * A)) := hE.third
    have e2 : ((1 / 6 : ℝ) • ((A + B) * (A + B) * (A + B))) f = 0 := by
      rw [LinearMap.smul_apply, Module.End.mul_apply, hz, map_zero, smul_zero]
    rw [e, LinearMap.add_apply, e2, zero_add, LinearMap.add_apply, LinearMap.smul_apply, LinearMap.smul_apply]
  have hsum : ∑ k ∈ range 4, t ^ k • (cS k (runS A (fun _ => B) l) f).1 x = bigEnergy energy x + t ^ 3 *
      (a * ((A * A * B - (2 : ℝ) • (A * B * A) + B * A * A) f).1 x + b * ((A * B * B - (2 : ℝ) • (B * A * B) + B * B * A) f).1 x) := by
    rw [Finset.sum_range_succ, Finset.sum_range_succ, Finset.sum_range_succ, Finset.sum_range_one, c0, c1, c2, c3]
    simp only [Submodule.coe_zero, Pi.zero_apply, smul_zero, add_zero, pow_zero, one_smul, Module.End.one_apply, hf]
    rfl
  change bigEnergy energy (flowRun (opFlow fun _ => F) l t x) - ∑ k ∈ range 4, t ^ k • (cS k (runS A (fun _ => B) l) f).1 x = _
  rw [hsum, h2.1, bigEnergy_eq energy _ h2.2, bigEnergy_eq energy x hP]
  ring

/-- **C52**, comparison of the integrators at third order.  There are two numbers, which depend only on the fields and the action, such that the
leading error of `second_order` with `n` steps is `1/12` and `-1/24` of them, divided by `n ^ 2`; those of the integrators with two force
evaluations per step and parameter `lam` are as given; and those of `fourth_omelyan` are smaller by eleven orders of magnitude. -/
theorem C52_leading_error_partial (eig : EigenSolver N) (he : eig.Correct) (O : Set (GField S N)) (energy : GField S N → ℝ)
    (F : GField S N → GField S N) (h : Conservative O energy (fun _ : Unit => F) [()]) (U P : GField S N) (hU : U ∈ O)
    (hP : ∀ s μ, IsLie (P s μ)) : ∃ E₁ E₂ : ℝ,
    (∀ (n : ℕ) l, (∀ t, mdIntegrate "second_order" [()] [n] t = .ok (l t)) →
      EnergyGrows eig energy F (U, P) l ((1 / 12 * E₁ - 1 / 24 * E₂) / n ^ 2)) ∧
    (∀ lam : ℝ, EnergyGrows eig energy F (U, P) (fun t => [.mom () (lam * t), .link (t / 2), .mom () ((1 - 2 * lam) * t), .link (t / 2), .mom () (lam * t)])
      ((6 * lam - 1) / 24 * E₁ + (6 * lam ^ 2 - 6 * lam + 1) / 12 * E₂)) ∧
    (∀ (n : ℕ) l, (∀ t, mdIntegrate "omelyan" [()] [n] t = .ok (l t)) →
      EnergyGrows eig energy F (U, P) l (((6 * omelyanLambda - 1) / 24 * E₁ + (6 * omelyanLambda ^ 2 - 6 * omelyanLambda + 1) / 12 * E₂) / n ^ 2)) ∧
    (∃ a b : ℝ, |a| ≤ 1 / 10 ^ 12 ∧ |b| ≤ 1 / 10 ^ 12 ∧ ∀ (n : ℕ) l, (∀ t, mdIntegrate "fourth_omelyan" [()] [n] t = .ok (l t)) →
      EnergyGrows eig energy F (U, P) l ((a * E₁ + b * E₂) / n ^ 2)) := by
  obtain ⟨E₁, E₂, hE⟩ := energy_third eig he h (U, P) hU hP
  have hlt : ∀ {name : String} {n : ℕ} {l : ℝ → List (MdOp Unit)}, (∀ t, mdIntegrate name [()] [n] t = .ok (l t)) →
      n ≠ 0 ∧ ∀ t, l t = (l 1).map (MdOp.scale t) := by
    intro name n l hl
    refine ⟨?_, fun t => ?_⟩
    · have := ((C43_defined name [()] [n] 1).1 ⟨_, hl 1⟩).2.2.2
      exact this n (by simp)
    · have h1 := mdIntegrate_scale t name [()] [n] 1
      rw [mul_one, hl, hl] at h1
      exact Outcome.ok.inj h1
  have use : ∀ {l : ℝ → List (MdOp Unit)} {a b c : ℝ}, (∀ t, l t = (l 1).map (MdOp.scale t)) →
      (∀ {R : Type} [Ring R] [Algebra ℝ R] (A B : R), ErrS A B a b (runS A (fun _ => B) (l 1))) → c = a * E₁ + b * E₂ →
      EnergyGrows eig energy F (U, P) l c := by
    intro l a b c h1 h2 h3
    have := hE (l 1) a b h2
    rw [h3]
    convert this using 1
    exact funext h1
  refine ⟨E₁, E₂, fun n l hl => ?_, fun lam => ?_, fun n l hl => ?_, ?_⟩
  · obtain ⟨hn, hs⟩ := hlt hl
    exact use hs (fun A B => errS_leapFrog A B n hn (by simpa [mdIntegrate] using hl 1)) (by ring)
  · refine use (l := fiveStep lam) (fun t => ?_) (fun A B => errS_five A B lam) rfl
    simp only [fiveStep, List.map_cons, List.map_nil, MdOp.scale]
    ring_nf
  · obtain ⟨hn, hs⟩ := hlt hl
    exact use hs (fun A B => errS_omelyan A B n hn (by simpa [mdIntegrate] using hl 1)) (by ring)
  · obtain ⟨a, b, ha, hb, herr⟩ := errS_fourthOmelyan
    refine ⟨a, b, ha, hb, fun n l hl => ?_⟩
    obtain ⟨hn, hs⟩ := hlt hl
    exact use hs (fun A B => herr A B n hn (by simpa [mdIntegrate] using hl 1)) (by ring)

/-- **C52**: among all integrators with two force evaluations per step, the parameter of `omelyan` makes the sum of the squares of the two leading
errors least (to seventeen decimal places), and this sum is less than that of two steps of half the length of `second_order`. -/
theorem C52_omelyan_best_partial (lam : ℝ) :
    ((6 * omelyanLambda - 1) / 24) ^ 2 + ((6 * omelyanLambda ^ 2 - 6 * omelyanLambda + 1) / 12) ^ 2 ≤
      ((6 * lam - 1) / 24) ^ 2 + ((6 * lam ^ 2 - 6 * lam + 1) / 12) ^ 2 + 1 / 10 ^ 17 ∧
    ((6 * omelyanLambda - 1) / 24) ^ 2 + ((6 * omelyanLambda ^ 2 - 6 * omelyanLambda + 1) / 12) ^ 2 <
      (1 / 6) * ((1 / 12 / 2 ^ 2) ^ 2 + (1 / 24 / 2 ^ 2) ^ 2 : ℝ) := by
  refine ⟨?_, by norm_num [omelyanLambda]⟩
  obtain ⟨d, rfl⟩ : ∃ d, lam = omelyanLambda + d := ⟨lam - omelyanLambda, by ring⟩
  have e : ((6 * (omelyanLambda + d) - 1) / 24) ^ 2 + ((6 * (omelyanLambda + d) ^ 2 - 6 * (omelyanLambda + d) + 1) / 12) ^ 2 =
      ((6 * omelyanLambda - 1) / 24) ^ 2 + ((6 * omelyanLambda ^ 2 - 6 * omelyanLambda + 1) / 12) ^ 2 +
      (2 * ((6 * omelyanLambda - 1) / 24 / 4 + (6 * omelyanLambda ^ 2 - 6 * omelyanLambda + 1) / 12 * (omelyanLambda - 1 / 2))) * d +
      (d * (d / 2 + (omelyanLambda - 1 / 2))) ^ 2 + (1 / 16 + (6 * omelyanLambda ^ 2 - 6 * omelyanLambda + 1) / 12) * d ^ 2 := by ring
  have hg : |2 * ((6 * omelyanLambda - 1) / 24 / 4 + (6 * omelyanLambda ^ 2 - 6 * omelyanLambda + 1) / 12 * (omelyanLambda - 1 / 2))| ≤ 1 / 10 ^ 9 * (31 / 20) := by
    norm_num [omelyanLambda, abs_le]
  have hb : 0 ≤ (6 * omelyanLambda ^ 2 - 6 * omelyanLambda + 1) / 12 := by norm_num [omelyanLambda]
  rw [e]
  generalize 2 * ((6 * omelyanLambda - 1) / 24 / 4 + (6 * omelyanLambda ^ 2 - 6 * omelyanLambda + 1) / 12 * (omelyanLambda - 1 / 2)) = g at *
  have h2 : g ^ 2 ≤ (1 / 10 ^ 9 * (31 / 20)) ^ 2 := sq_le_sq' (abs_le.1 hg).1 (abs_le.1 hg).2
  have h3 := mul_nonneg hb (sq_nonneg d)
  have h4 := sq_nonneg (d / 4 + 2 * g)
  have h5 := sq_nonneg (d * (d / 2 + (omelyanLambda - 1 / 2)))
  have h6 : 4 * ((1 : ℝ) / 10 ^ 9 * (31 / 20)) ^ 2 ≤ 1 / 10 ^ 17 := by norm_num
  nlinarith

/-- The constant of the code is not the best one: `0.1931833275037836` is better.  (The digits differ by an additional `2` in the eighth place.) -/
theorem C52_omelyan_best_counterexample :
    ((6 * 0.1931833275037836 - 1) / 24) ^ 2 + ((6 * 0.1931833275037836 ^ 2 - 6 * 0.1931833275037836 + 1) / 12) ^ 2 <
      ((6 * omelyanLambda - 1) / 24) ^ 2 + ((6 * omelyanLambda ^ 2 - 6 * omelyanLambda + 1) / 12) ^ 2 := by
  norm_num [omelyanLambda]

/-- The hypotheses are met by the Wilson action. -/
example (hN : 0 < N) (β : ℝ) (T : Torus S) :
    Conservative (Set.univ : Set (GField S N)) (wilsonEnergy β T) (fun (_ : Unit) U s μ => gaugeForce β U (wilsonStaple T U s μ) s μ) [()] :=
  conservative_wilson hN β T

end Leonard
