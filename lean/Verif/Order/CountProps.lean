import Verif.Hmc.Lemmas

/-!
# C43: how often the forces of the two flavour update are computed
-/

set_option autoImplicit false

namespace Leonard

/-- The update computes the force `f`. -/
def MdOp.computes {ι : Type} [DecidableEq ι] (f : ι) : MdOp ι → Bool
  | .link _ => false
  | .mom i _ => i == f

theorem countP_replicate {ι : Type} (p : MdOp ι → Bool) (n : ℕ) (l : List (MdOp ι)) :
    (List.replicate n l).flatten.countP p = n * l.countP p := by
  induction n with
  | zero => simp
  | succ n ih => rw [List.replicate_succ, List.flatten_cons, List.countP_append, ih]; ring

theorem leapFrog_two {ι : Type} [DecidableEq ι] {f g : ι} (hfg : f ≠ g) {m n : ℕ} {t : ℝ} {l : List (MdOp ι)} (h : leapFrog [f, g] [m, n] t = .ok l) :
    l.countP (MdOp.computes f) = m + 1 ∧ l.countP (MdOp.computes g) = m * (n + 1) := by
  rw [leapFrog] at h
  split at h
  · cases h
  rename_i hm
  obtain ⟨inner, h1, h⟩ := outcome_bind_ok h
  rw [if_neg (by simp), leapFrog] at h1
  split at h1
  · cases h1
  rename_i hn
  simp only [List.isEmpty_nil, if_true, ok_bind] at h1
  cases h1
  cases h
  obtain ⟨m, rfl⟩ := Nat.exists_eq_succ_of_ne_zero hm
  obtain ⟨n, rfl⟩ := Nat.exists_eq_succ_of_ne_zero hn
  constructor
  all_goals simp only [List.countP_append, countP_replicate, List.countP_cons, List.countP_nil, MdOp.computes, beq_self_eq_true,
    beq_eq_false_iff_ne.2 hfg, beq_eq_false_iff_ne.2 hfg.symm, if_true, Nat.succ_sub_one]
  all_goals simp
  all_goals ring

theorem omelyan_two {ι : Type} [DecidableEq ι] {f g : ι} (hfg : f ≠ g) {m n : ℕ} {t : ℝ} {l : List (MdOp ι)} (h : omelyan [f, g] [m, n] t = .ok l) :
    l.countP (MdOp.computes f) = 2 * m + 1 ∧ l.countP (MdOp.computes g) = 2 * m * (2 * n + 1) := by
  rw [omelyan] at h
  split at h
  · cases h
  rename_i hm
  obtain ⟨inner, h1, h⟩ := outcome_bind_ok h
  rw [if_neg (by simp), omelyan] at h1
  split at h1
  · cases h1
  rename_i hn
  simp only [List.isEmpty_nil, if_true, ok_bind] at h1
  cases h1
  cases h
  obtain ⟨m, rfl⟩ := Nat.exists_eq_succ_of_ne_zero hm
  obtain ⟨n, rfl⟩ := Nat.exists_eq_succ_of_ne_zero hn
  constructor
  all_goals simp only [List.countP_append, countP_replicate, List.countP_cons, List.countP_nil, MdOp.computes, beq_self_eq_true,
    beq_eq_false_iff_ne.2 hfg, beq_eq_false_iff_ne.2 hfg.symm, if_true, Nat.succ_sub_one]
  all_goals simp
  all_goals ring

theorem fourthOmelyan_two {ι : Type} [DecidableEq ι] {f g : ι} (hfg : f ≠ g) {m n : ℕ} {t : ℝ} {l : List (MdOp ι)}
    (h : fourthOmelyan [f, g] [m, n] t = .ok l) : l.countP (MdOp.computes f) = 5 * m ∧ l.countP (MdOp.computes g) = 6 * m * (5 * n) := by
  have inner : ∀ {t : ℝ} {l : List (MdOp ι)}, (if ([g] : List ι).isEmpty then Outcome.ok [MdOp.link t] else fourthOmelyan [g] [n] t) = .ok l →
      l.countP (MdOp.computes f) = 0 ∧ l.countP (MdOp.computes g) = 5 * n := by
    intro t l h
    rw [if_neg (by simp), fourthOmelyan] at h
    split at h
    · cases h
    simp only [List.isEmpty_nil, if_true, ok_bind] at h
    cases h
    constructor
    all_goals simp only [List.countP_append, countP_replicate, List.countP_cons, List.countP_nil, MdOp.computes, beq_self_eq_true,
      beq_eq_false_iff_ne.2 hfg.symm, if_true]
    all_goals simp
    all_goals ring
  rw [fourthOmelyan] at h
  split at h
  · cases h
  obtain ⟨i1, h1, h⟩ := outcome_bind_ok h
  obtain ⟨i2, h2, h⟩ := outcome_bind_ok h
  obtain ⟨i3, h3, h⟩ := outcome_bind_ok h
  obtain ⟨a1, b1⟩ := inner h1
  obtain ⟨a2, b2⟩ := inner h2
  obtain ⟨a3, b3⟩ := inner h3
  cases h
  constructor
  all_goals simp only [List.countP_append, countP_replicate, List.countP_cons, List.countP_nil, MdOp.computes, beq_self_eq_true,
    beq_eq_false_iff_ne.2 hfg, if_true, a1, a2, a3, b1, b2, b3]
  all_goals simp
  all_goals ring

theorem fourthOrder_two {ι : Type} [DecidableEq ι] {f g : ι} (hfg : f ≠ g) {m n : ℕ} {t : ℝ} {l : List (MdOp ι)}
    (h : fourthOrder [f, g] [m, n] t = .ok l) : l.countP (MdOp.computes f) = 3 * (m + 1) ∧ l.countP (MdOp.computes g) = 3 * (m * (n + 1)) := by
  simp only [fourthOrder] at h
  obtain ⟨x, h1, h⟩ := outcome_bind_ok h
  obtain ⟨y, h2, h⟩ := outcome_bind_ok h
  obtain ⟨z, h3, h⟩ := outcome_bind_ok h
  cases h
  have := leapFrog_two hfg h1
  have := leapFrog_two hfg h2
  have := leapFrog_two hfg h3
  simp only [List.countP_append]
  omega

theorem sixthOrder_two {ι : Type} [DecidableEq ι] {f g : ι} (hfg : f ≠ g) {m n : ℕ} {t : ℝ} {l : List (MdOp ι)}
    (h : sixthOrder [f, g] [m, n] t = .ok l) : l.countP (MdOp.computes f) = 9 * (m + 1) ∧ l.countP (MdOp.computes g) = 9 * (m * (n + 1)) := by
  simp only [sixthOrder] at h
  obtain ⟨x, h1, h⟩ := outcome_bind_ok h
  obtain ⟨y, h2, h⟩ := outcome_bind_ok h
  obtain ⟨z, h3, h⟩ := outcome_bind_ok h
  cases h
  have := fourthOrder_two hfg h1
  have := fourthOrder_two hfg h2
  have := fourthOrder_two hfg h3
  simp only [List.countP_append]
  omega

/-- **C43**, cost of the two flavour update: with `number_hmc_steps = {m,n}` the fermion force, for which the Dirac equation has to be solved, is
computed about `m` times and the gauge force about `m n` times, never the sum of both. -/
theorem C43_two_flavor_cost (name : String) (m n : ℕ) (t : ℝ) (l : List (MdOp TwoFlavorForce))
    (h : mdIntegrate name (twoFlavorForces [m, n]).1 (twoFlavorForces [m, n]).2 t = .ok l) :
    (name, l.countP (MdOp.computes .fermion), l.countP (MdOp.computes .gauge)) ∈
      [("second_order", m + 1, m * (n + 1)), ("fourth_order", 3 * (m + 1), 3 * (m * (n + 1))), ("sixth_order", 9 * (m + 1), 9 * (m * (n + 1))),
       ("omelyan", 2 * m + 1, 2 * m * (2 * n + 1)), ("fourth_omelyan", 5 * m, 6 * m * (5 * n))] := by
  have hne : TwoFlavorForce.fermion ≠ TwoFlavorForce.gauge := by decide
  simp only [twoFlavorForces] at h
  unfold mdIntegrate at h
  split at h
  · have := leapFrog_two hne h; simp_all
  split at h
  · have := fourthOrder_two hne h; simp_all
  split at h
  · have := sixthOrder_two hne h; simp_all
  split at h
  · have := omelyan_two hne h; simp_all
  split at h
  · have := fourthOmelyan_two hne h; simp_all
  · cases h

/-- The hypothesis is met with three steps of the fermion force and five of the gauge force for each. -/
example : ∃ l, mdIntegrate "second_order" (twoFlavorForces [3, 5]).1 (twoFlavorForces [3, 5]).2 1 = .ok l ∧
    l.countP (MdOp.computes .fermion) = 4 ∧ l.countP (MdOp.computes .gauge) = 18 := by
  obtain ⟨l, hl⟩ : ∃ l, mdIntegrate "second_order" (twoFlavorForces [3, 5]).1 (twoFlavorForces [3, 5]).2 1 = .ok l := by
    simp [mdIntegrate, twoFlavorForces, leapFrog]
  have := C43_two_flavor_cost _ _ _ _ _ hl
  simp at this
  exact ⟨l, hl, this⟩

end Leonard
