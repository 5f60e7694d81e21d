import Verif.Seed.Model
import Mathlib.Tactic.Linarith
import Mathlib.Tactic.Ring
import Mathlib.Data.List.Nodup
import Mathlib.Data.List.GetD

/-!
# C79: processes and runs start from different random numbers
-/

set_option autoImplicit false

namespace Leonard

/-- The clock of a machine after 2001: more than a thousand million seconds. -/
def Modern (clock : ℤ) : Prop := 10 ^ 9 ≤ clock

/-- The numbers that `uniform_int_distribution<>(-1000000000,1000000000)` can give. -/
def InRange (rnd : ℤ) : Prop := -10 ^ 9 ≤ rnd ∧ rnd ≤ 10 ^ 9

/-- All numbers of a list are different. -/
def differentB : List ℕ → Bool
  | [] => true
  | a :: l => !l.elem a && differentB l

theorem differentB_spec (l : List ℕ) (h : differentB l = true) : l.Nodup := by
  induction l with
  | nil => exact List.nodup_nil
  | cons a l ih =>
    simp only [differentB, Bool.and_eq_true, Bool.not_eq_true', ← Bool.not_eq_true, List.elem_eq_mem, decide_eq_true_eq] at h
    exact List.nodup_cons.2 ⟨h.1, ih h.2⟩

theorem processOffset_inj (r r' : ℕ) (hr : r < 534) (hr' : r' < 534) (h : processOffset r = processOffset r') : r = r' := by
  have hn : ((List.range 534).map processOffset).Nodup := differentB_spec _ (by decide +kernel)
  exact List.inj_on_of_nodup_map hn (List.mem_range.2 hr) (List.mem_range.2 hr') h

theorem seedTable_bound (c : ℕ) : seedTable.getD c 0 < 500000 := by
  have h : ∀ x ∈ seedTable, x < 500000 := by decide +kernel
  rcases lt_or_ge c seedTable.length with hc | hc
  · rw [List.getD_eq_getElem _ _ hc]
    exact h _ (List.getElem_mem hc)
  · rw [List.getD_eq_default _ _ hc]
    norm_num

theorem processOffset_bound (r : ℕ) : processOffset r < 500000 + 511 := by
  have h : ∀ x ∈ mpiSeedTable, x < 500000 := by decide +kernel
  have h1 : mpiSeedTable.getD (r % 512) 0 < 500000 := by
    rcases lt_or_ge (r % 512) mpiSeedTable.length with hc | hc
    · rw [List.getD_eq_getElem _ _ hc]
      exact h _ (List.getElem_mem hc)
    · rw [List.getD_eq_default _ _ hc]
      norm_num
  have h2 : (12 * r + 13) % (512 - 1) < 511 := Nat.mod_lt _ (by norm_num)
  unfold processOffset
  omega

theorem generatorState_eq (a b : ℤ) (hab : |a - b| < 2 ^ 32) (h : generatorState a = generatorState b) : a = b := by
  unfold generatorState at h
  rw [abs_lt] at hab
  omega

theorem randomSeedMpi_eq (c r : ℕ) {clock rnd : ℤ} (hc : Modern clock) (hn : InRange rnd) :
    randomSeedMpi c r clock rnd = (seedTable.getD (c % 128) 0 : ℤ) + processOffset r + clock + rnd := by
  unfold Modern at hc
  unfold InRange at hn
  exact abs_of_nonneg (by omega)

theorem randomSeedSerial_eq (c : ℕ) {clock rnd : ℤ} (hc : Modern clock) (hn : InRange rnd) :
    randomSeedSerial c clock rnd = (seedTable.getD (c % 23) 0 : ℤ) + clock + rnd := by
  unfold Modern at hc
  unfold InRange at hn
  exact abs_of_nonneg (by omega)

/-- **C79**: with at most 534 processes, the generators which the processes make in the same second at the same call have different states: two processes never draw
the same random numbers. -/
theorem C79_processes (counter r r' : ℕ) (clock rnd : ℤ) (hr : r < 534) (hr' : r' < 534) (hne : r ≠ r') (hc : Modern clock) (hn : InRange rnd) :
    generatorState (randomSeedMpi counter r clock rnd) ≠ generatorState (randomSeedMpi counter r' clock rnd) := by
  intro h
  rw [randomSeedMpi_eq _ _ hc hn, randomSeedMpi_eq _ _ hc hn] at h
  have h1 := processOffset_bound r
  have h2 := processOffset_bound r'
  have e := generatorState_eq _ _ (by rw [abs_lt]; omega) h
  exact hne (processOffset_inj r r' hr hr' (by omega))

/-- **C79**: runs which are started in different seconds have generators with different states, in every process and at every call, for 68 years. -/
theorem C79_runs (counter r : ℕ) (clock clock' rnd : ℤ) (hne : clock ≠ clock') (hd : |clock - clock'| < 2 ^ 31) (hc : Modern clock) (hc' : Modern clock') (hn : InRange rnd) :
    generatorState (randomSeedMpi counter r clock rnd) ≠ generatorState (randomSeedMpi counter r clock' rnd)
      ∧ generatorState (randomSeedSerial counter clock rnd) ≠ generatorState (randomSeedSerial counter clock' rnd) := by
  rw [abs_lt] at hd
  constructor <;> intro h
  · rw [randomSeedMpi_eq _ _ hc hn, randomSeedMpi_eq _ _ hc' hn] at h
    have e := generatorState_eq _ _ (by rw [abs_lt]; omega) h
    omega
  · rw [randomSeedSerial_eq _ hc hn, randomSeedSerial_eq _ hc' hn] at h
    have e := generatorState_eq _ _ (by rw [abs_lt]; omega) h
    omega

/-- **C79** (part): two generators of one process, made in the same second at the calls `c` and `c'`, have the same state exactly if the numbers `rnd`, `rnd'` of
the calls differ by the difference of the entries of the table; nothing else keeps them apart. -/
theorem C79_calls_partial (c c' r : ℕ) (clock rnd rnd' : ℤ) (hc : Modern clock) (hn : InRange rnd) (hn' : InRange rnd') :
    generatorState (randomSeedMpi c r clock rnd) = generatorState (randomSeedMpi c' r clock rnd')
      ↔ rnd' - rnd = (seedTable.getD (c % 128) 0 : ℤ) - seedTable.getD (c' % 128) 0 := by
  have b1 := seedTable_bound (c % 128)
  have b2 := seedTable_bound (c' % 128)
  rw [randomSeedMpi_eq _ _ hc hn, randomSeedMpi_eq _ _ hc hn']
  unfold InRange at hn hn'
  constructor
  · intro h
    have e := generatorState_eq _ _ (by rw [abs_lt]; omega) h
    omega
  · intro h
    refine congrArg generatorState ?_
    omega

/-- **C79** fails with 535 processes: 294 and 534 have the same state in every generator. -/
theorem C79_processes_counterexample (counter : ℕ) (clock rnd : ℤ) : randomSeedMpi counter 294 clock rnd = randomSeedMpi counter 534 clock rnd := by
  have h : processOffset 294 = processOffset 534 := by decide +kernel
  unfold randomSeedMpi
  rw [h]

/-- **C79** fails if the processes read the clock in two different seconds: then the processes 505 and 508 have the same state in every generator. -/
theorem C79_clock_counterexample (counter : ℕ) (clock rnd : ℤ) : randomSeedMpi counter 505 (clock + 1) rnd = randomSeedMpi counter 508 clock rnd := by
  have h : processOffset 505 + 1 = processOffset 508 := by decide +kernel
  unfold randomSeedMpi
  generalize processOffset 505 = p at h ⊢
  generalize processOffset 508 = q at h ⊢
  subst h
  generalize seedTable.getD (counter % 128) 0 = t
  refine congrArg abs ?_
  omega

/-- Two processes of a run in 2025: the hypotheses of `C79_processes` are met. -/
example : (3 : ℕ) < 534 ∧ (500 : ℕ) < 534 ∧ (3 : ℕ) ≠ 500 ∧ Modern 1760000000 ∧ InRange (-999999999) := by
  unfold Modern InRange
  norm_num

/-- Two runs a minute apart: the hypotheses of `C79_runs` are met. -/
example : (1760000000 : ℤ) ≠ 1760000060 ∧ |(1760000000 : ℤ) - 1760000060| < 2 ^ 31 ∧ Modern 1760000000 ∧ Modern 1760000060 ∧ InRange 5 := by
  unfold Modern InRange
  norm_num [abs_lt]

end Leonard
