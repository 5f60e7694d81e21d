import Verif.Order.Steps

/-!
# C54: more steps, better conservation of the energy
-/

set_option autoImplicit false

namespace Leonard

open Filter Asymptotics Finset Matrix
open scoped ContDiff Topology Matrix.Norms.Operator

variable {ι S : Type} [Fintype S] {N : ℕ}

section
variable (eig : EigenSolver N) (he : eig.Correct) {O : Set (GField S N)} (hO : suFields S N ⊆ O) {energy : GField S N → ℝ}
  {F : ι → GField S N → GField S N} {f : ι} {fs : List ι} (h : Conservative O energy F (f :: fs)) (ns : List ℕ)
include he hO h

theorem goodSteps_leapFrog (t : ℝ) : GoodSteps eig energy F fun n => leapFrog (f :: fs) (n :: ns) t :=
  goodSteps_base eig he hO h (fun n t => leapFrog (f :: fs) (n :: ns) t) (fun _ _ _ hl => leapFrog_repeats hl)
    (fun t => leapFrog_scale t _ _ _) (fun _ hl _ _ _ A B => (leapFrog_order A B hl).2) t

theorem goodSteps_omelyan (t : ℝ) : GoodSteps eig energy F fun n => omelyan (f :: fs) (n :: ns) t :=
  goodSteps_base eig he hO h (fun n t => omelyan (f :: fs) (n :: ns) t) (fun _ _ _ hl => omelyan_repeats hl)
    (fun t => omelyan_scale t _ _ _) (fun l hl _ _ _ A B => mdIntegrate_agree_two A B (name := "omelyan") (ns := 1 :: ns) (by simpa [mdIntegrate] using hl)) t

theorem goodSteps_fourthOmelyan (t : ℝ) : GoodSteps eig energy F fun n => fourthOmelyan (f :: fs) (n :: ns) t :=
  goodSteps_base eig he hO h (fun n t => fourthOmelyan (f :: fs) (n :: ns) t) (fun _ _ _ hl => fourthOmelyan_repeats hl)
    (fun t => fourthOmelyan_scale t _ _ _)
    (fun l hl _ _ _ A B => mdIntegrate_agree_two A B (name := "fourth_omelyan") (ns := 1 :: ns) (by simpa [mdIntegrate] using hl)) t

theorem goodSteps_fourthOrder (t : ℝ) : GoodSteps eig energy F fun n => fourthOrder (f :: fs) (n :: ns) t := by
  have h1 := goodSteps_leapFrog eig he hO h ns (1 / (2 - (2 : ℝ) ^ ((1 : ℝ) / 3)) * t)
  have h2 := goodSteps_leapFrog eig he hO h ns (-(2 : ℝ) ^ ((1 : ℝ) / 3) / (2 - (2 : ℝ) ^ ((1 : ℝ) / 3)) * t)
  have h12 := h1.comp h2 (i := fun n => leapFrog (f :: fs) (n :: ns) (1 / (2 - (2 : ℝ) ^ ((1 : ℝ) / 3)) * t) >>= fun x =>
      leapFrog (f :: fs) (n :: ns) (-(2 : ℝ) ^ ((1 : ℝ) / 3) / (2 - (2 : ℝ) ^ ((1 : ℝ) / 3)) * t) >>= fun y => .ok (x ++ y)) fun n l hl => by
    obtain ⟨x, e1, hl⟩ := outcome_bind_ok hl
    obtain ⟨y, e2, hl⟩ := outcome_bind_ok hl
    cases hl
    exact ⟨x, y, e1, e2, rfl⟩
  refine h12.comp h1 fun n l hl => ?_
  simp only [fourthOrder] at hl
  obtain ⟨x, e1, hl⟩ := outcome_bind_ok hl
  obtain ⟨y, e2, hl⟩ := outcome_bind_ok hl
  obtain ⟨z, e3, hl⟩ := outcome_bind_ok hl
  cases hl
  exact ⟨x ++ y, z, by rw [e1, ok_bind, e2, ok_bind], e3, rfl⟩

theorem goodSteps_sixthOrder (t : ℝ) : GoodSteps eig energy F fun n => sixthOrder (f :: fs) (n :: ns) t := by
  have h1 := goodSteps_fourthOrder eig he hO h ns (1 / (2 - (2 : ℝ) ^ ((1 : ℝ) / 5)) * t)
  have h2 := goodSteps_fourthOrder eig he hO h ns (-(2 : ℝ) ^ ((1 : ℝ) / 5) / (2 - (2 : ℝ) ^ ((1 : ℝ) / 5)) * t)
  have h12 := h1.comp h2 (i := fun n => fourthOrder (f :: fs) (n :: ns) (1 / (2 - (2 : ℝ) ^ ((1 : ℝ) / 5)) * t) >>= fun x =>
      fourthOrder (f :: fs) (n :: ns) (-(2 : ℝ) ^ ((1 : ℝ) / 5) / (2 - (2 : ℝ) ^ ((1 : ℝ) / 5)) * t) >>= fun y => .ok (x ++ y)) fun n l hl => by
    obtain ⟨x, e1, hl⟩ := outcome_bind_ok hl
    obtain ⟨y, e2, hl⟩ := outcome_bind_ok hl
    cases hl
    exact ⟨x, y, e1, e2, rfl⟩
  refine h12.comp h1 fun n l hl => ?_
  simp only [sixthOrder] at hl
  obtain ⟨x, e1, hl⟩ := outcome_bind_ok hl
  obtain ⟨y, e2, hl⟩ := outcome_bind_ok hl
  obtain ⟨z, e3, hl⟩ := outcome_bind_ok hl
  cases hl
  exact ⟨x ++ y, z, by rw [e1, ok_bind, e2, ok_bind], e3, rfl⟩

end

/-- **C54.** At fixed length of the trajectory the change of the energy falls with the square of the number of steps, for every integrator,
every energy with its forces on any number of time scales, and every start in the group. -/
theorem C54_steps (eig : EigenSolver N) (he : eig.Correct) (O : Set (GField S N)) (hO : ∀ U : GField S N, (∀ s μ, U s μ ∈ specialUnitaryGroup (Fin N) ℂ) → U ∈ O)
    (energy : GField S N → ℝ) (F : ι → GField S N → GField S N) (f : ι) (fs : List ι) (h : Conservative O energy F (f :: fs)) (name : String)
    (ns : List ℕ) (t : ℝ) (U P : GField S N) (hU : ∀ s μ, U s μ ∈ specialUnitaryGroup (Fin N) ℂ) (hP : ∀ s μ, IsLie (P s μ)) :
    ∃ C : ℝ, ∀ n : ℕ, n ≠ 0 → ∀ l, mdIntegrate name (f :: fs) (n :: ns) t = .ok l →
      |totalEnergy energy (mdRun (eigenLink eig) F l (U, P)) - totalEnergy energy (U, P)| ≤ C / n ^ 2 := by
  have key : ∀ integ : ℕ → Outcome (List (MdOp ι)), GoodSteps eig energy F integ → ∃ C : ℝ, ∀ n : ℕ, n ≠ 0 → ∀ l, integ n = .ok l →
      |totalEnergy energy (mdRun (eigenLink eig) F l (U, P)) - totalEnergy energy (U, P)| ≤ C / n ^ 2 := by
    intro integ hg
    obtain ⟨R', C, _, hC⟩ := hg ‖P‖
    exact ⟨C, fun n hn l hl => (hC n hn l hl (U, P) ⟨hU, hP, le_rfl⟩).2⟩
  have hO' : suFields S N ⊆ O := fun U hU => hO U hU
  unfold mdIntegrate
  split_ifs
  · exact key _ (goodSteps_leapFrog eig he hO' h ns t)
  · exact key _ (goodSteps_fourthOrder eig he hO' h ns t)
  · exact key _ (goodSteps_sixthOrder eig he hO' h ns t)
  · exact key _ (goodSteps_omelyan eig he hO' h ns t)
  · exact key _ (goodSteps_fourthOmelyan eig he hO' h ns t)
  · exact ⟨0, fun n _ l hl => by cases hl⟩

/-- A small change of the energy is accepted. -/
theorem metropolisLocal_accepts {a b u : ℝ} (h : u < Real.exp (-|b - a|)) : metropolisLocal (some a) (some b) u = true := by
  unfold metropolisLocal
  simp only []
  split
  · rfl
  · rename_i hd
    rw [if_pos]
    refine h.trans_le (Real.exp_le_exp.2 ?_)
    rw [abs_of_nonneg (not_lt.1 hd)]

/-- **C54**, consequence: with enough steps every trajectory of the pure gauge update is accepted. -/
theorem C54_accepts (eig : EigenSolver N) (he : eig.Correct) (O : Set (GField S N))
    (hO : ∀ U : GField S N, (∀ s μ, U s μ ∈ specialUnitaryGroup (Fin N) ℂ) → U ∈ O) (energy : GField S N → ℝ)
    (force : GField S N → GField S N) (h : Conservative O energy (fun _ : Unit => force) [()]) (name : String) (t : ℝ)
    (U P : GField S N) (hU : ∀ s μ, U s μ ∈ specialUnitaryGroup (Fin N) ℂ) (hP : ∀ s μ, IsLie (P s μ)) (u : ℝ) (hu : u < 1) :
    ∃ n0 : ℕ, ∀ n ≥ n0, ∀ l, mdIntegrate name [()] [n] t = .ok l →
      pureGaugeExecute (eigenLink eig) energy force name [n] t P U u = .ok (mdRun (eigenLink eig) (fun _ => force) l (U, P)).1 := by
  obtain ⟨C, hC⟩ := C54_steps eig he O hO energy _ () [] h name [] t U P hU hP
  have hlim : Tendsto (fun n : ℕ => Real.exp (-(C / (n : ℝ) ^ 2))) atTop (𝓝 1) := by
    have h1 : Tendsto (fun n : ℕ => C / (n : ℝ) ^ 2) atTop (𝓝 0) :=
      tendsto_const_nhds.div_atTop ((tendsto_pow_atTop two_ne_zero).comp tendsto_natCast_atTop_atTop)
    have := (Real.continuous_exp.tendsto _).comp h1.neg
    simpa [Function.comp_def] using this
  obtain ⟨n0, hn0⟩ := eventually_atTop.1 (hlim.eventually (lt_mem_nhds hu))
  refine ⟨max n0 1, fun n hn l hl => ?_⟩
  have h1 := hC n (by have := le_of_max_le_right hn; omega) l hl
  have h2 := hn0 n (le_of_max_le_left hn)
  have h3 : pureGaugeExecute (eigenLink eig) energy force name [n] t P U u =
      .ok (if metropolisLocal (some (totalEnergy energy (U, P))) (some (totalEnergy energy (mdRun (eigenLink eig) (fun _ => force) l (U, P)))) u
        then (mdRun (eigenLink eig) (fun _ => force) l (U, P)).1 else U) := by
    unfold pureGaugeExecute
    rw [show ([n] : List ℕ).headD 0 = n from rfl, hl, ok_bind]
    rfl
  rw [h3, metropolisLocal_accepts (h2.trans_le (Real.exp_le_exp.2 (neg_le_neg h1))), if_pos rfl]

/-- **C54** for the actions of the code. -/
theorem C54_gauge_actions (eig : EigenSolver N) (he : eig.Correct) (hN : 0 < N) (β u0 : ℝ) (T : Torus S) (name : String) (t : ℝ)
    (U P : GField S N) (hU : ∀ s μ, U s μ ∈ specialUnitaryGroup (Fin N) ℂ) (hP : ∀ s μ, IsLie (P s μ)) (u : ℝ) (hu : u < 1) :
    ∃ n0 : ℕ, ∀ n ≥ n0, ∀ l, mdIntegrate name [()] [n] t = .ok l →
      (pureGaugeExecute (eigenLink eig) (wilsonEnergy β T) (fun U s μ => gaugeForce β U (wilsonStaple T U s μ) s μ) name [n] t P U u =
        .ok (mdRun (eigenLink eig) (fun _ U s μ => gaugeForce β U (wilsonStaple T U s μ) s μ) l (U, P)).1) ∧
      (pureGaugeExecute (eigenLink eig) (improvedEnergy u0 β T) (fun U s μ => gaugeForce β U (improvedStaple u0 T U s μ) s μ) name [n] t P U u =
        .ok (mdRun (eigenLink eig) (fun _ U s μ => gaugeForce β U (improvedStaple u0 T U s μ) s μ) l (U, P)).1) := by
  obtain ⟨n1, h1⟩ := C54_accepts eig he Set.univ (fun _ _ => trivial) _ _ (conservative_wilson hN β T) name t U P hU hP u hu
  obtain ⟨n2, h2⟩ := C54_accepts eig he Set.univ (fun _ _ => trivial) _ _ (conservative_improved hN u0 β T) name t U P hU hP u hu
  exact ⟨max n1 n2, fun n hn l hl => ⟨h1 n (le_of_max_le_left hn) l hl, h2 n (le_of_max_le_right hn) l hl⟩⟩

/-- The hypotheses are met by the Wilson action on every lattice; the integration is defined for every positive number of steps. -/
example (hN : 0 < N) (β : ℝ) (T : Torus S) (n : ℕ) (hn : n ≠ 0) (t : ℝ) :
    (Conservative (Set.univ : Set (GField S N)) (wilsonEnergy β T) (fun (_ : Unit) U s μ => gaugeForce β U (wilsonStaple T U s μ) s μ) [()]) ∧
    ∃ l, mdIntegrate "omelyan" [()] [n] t = .ok l :=
  ⟨conservative_wilson hN β T, (C43_defined _ _ _ _).2 (by simp [hn])⟩

end Leonard
