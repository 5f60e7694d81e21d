import Verif.Control.Spec
import Mathlib.Data.List.Flatten
import Mathlib.Data.List.Induction
import Mathlib.Tactic.Ring
import Mathlib.Algebra.Order.Ring.Nat
import Mathlib.Data.Nat.Init

/-!
# Lemmas for the control properties
-/

set_option autoImplicit false

namespace Leonard

/-! ### Schedule -/

/-- The executions of one pass over the list. -/
def passEvents (b : Bool) (k pos : ℕ) (l : List Sweep) : List Event :=
  (l.zipIdx pos).flatMap fun p =>
    if p.1.sweepToJump ∣ k then (List.range p.1.numberTimes).map fun i => ⟨b, k, p.2, i⟩ else []

theorem callAll_eq (b : Bool) (k : ℕ) (l : List Sweep) (h : ∀ s ∈ l, s.sweepToJump ≠ 0) :
    ∀ pos, callAll b k pos l = .ok (passEvents b k pos l) := by
  induction l with
  | nil => intro pos; rfl
  | cons s l ih =>
    intro pos
    have h0 : s.sweepToJump ≠ 0 := h s (by simp)
    have ih' := ih (fun t ht => h t (by simp [ht])) (pos + 1)
    unfold callAll
    rw [ih']
    unfold callSweep passEvents
    by_cases hk : s.sweepToJump ∣ k
    · simp [h0, hk, Nat.mod_eq_zero_of_dvd hk]
    · have : k % s.sweepToJump ≠ 0 := fun e => hk (Nat.dvd_of_mod_eq_zero e)
      simp [h0, hk, this]

theorem phaseFrom_eq (b : Bool) (l : List Sweep) (h : ∀ s ∈ l, s.sweepToJump ≠ 0) :
    ∀ n d, phaseFrom b l d n = .ok ((List.range' d n).flatMap fun k => passEvents b k 0 l) := by
  intro n
  induction n with
  | zero => intro d; rfl
  | succ n ih =>
    intro d
    unfold phaseFrom
    rw [callAll_eq b d l h 0, ih (d + 1)]
    simp [List.range'_succ]

theorem mem_passEvents (b : Bool) (k pos : ℕ) (l : List Sweep) (e : Event) :
    e ∈ passEvents b k pos l ↔ e.measurement = b ∧ e.sweep = k ∧ pos ≤ e.position ∧ ∃ s, l[e.position - pos]? = some s ∧
      s.sweepToJump ∣ k ∧ e.iteration < s.numberTimes := by
  unfold passEvents
  simp only [List.mem_flatMap, Prod.exists, List.mem_zipIdx_iff_le_and_getElem?_sub]
  constructor
  · rintro ⟨s, i, ⟨hle, hs⟩, hm⟩
    split at hm
    · next hd =>
      simp only [List.mem_map, List.mem_range] at hm
      obtain ⟨j, hj, rfl⟩ := hm
      exact ⟨rfl, rfl, hle, s, hs, hd, hj⟩
    · simp at hm
  · rintro ⟨h1, h2, hle, s, hs, hd, hj⟩
    refine ⟨s, e.position, ⟨hle, hs⟩, ?_⟩
    rw [if_pos hd]
    simp only [List.mem_map, List.mem_range]
    refine ⟨e.iteration, hj, ?_⟩
    cases e; simp_all

theorem passEvents_pairwise (b : Bool) (k : ℕ) (l : List Sweep) : ∀ pos, (passEvents b k pos l).Pairwise Event.Before := by
  induction l with
  | nil => intro pos; simp [passEvents]
  | cons s l ih =>
    intro pos
    have e : passEvents b k pos (s :: l) = (if s.sweepToJump ∣ k then (List.range s.numberTimes).map
        fun i => (⟨b, k, pos, i⟩ : Event) else []) ++ passEvents b k (pos + 1) l := by
      simp [passEvents]
    rw [e, List.pairwise_append]
    refine ⟨?_, ih _, ?_⟩
    · split
      · rw [List.pairwise_map]
        refine List.Pairwise.imp ?_ List.pairwise_lt_range
        intro i j hij
        right; exact ⟨rfl, Or.inr ⟨rfl, Or.inr ⟨rfl, hij⟩⟩⟩
      · simp
    · intro x hx y hy
      rw [mem_passEvents] at hy
      split at hx
      · simp only [List.mem_map, List.mem_range] at hx
        obtain ⟨i, hi, rfl⟩ := hx
        right
        refine ⟨hy.1.symm, Or.inr ⟨hy.2.1.symm, Or.inl ?_⟩⟩
        have := hy.2.2.1
        show pos < y.position
        omega
      · simp at hx

theorem phase_pairwise (b : Bool) (l : List Sweep) (n : ℕ) : ∀ d,
    ((List.range' d n).flatMap fun k => passEvents b k 0 l).Pairwise Event.Before := by
  induction n with
  | zero => intro d; simp
  | succ n ih =>
    intro d
    rw [List.range'_succ, List.flatMap_cons, List.pairwise_append]
    refine ⟨passEvents_pairwise b d l 0, ih _, ?_⟩
    intro x hx y hy
    rw [mem_passEvents] at hx
    simp only [List.mem_flatMap, List.mem_range'_1] at hy
    obtain ⟨k, hk, hy⟩ := hy
    rw [mem_passEvents] at hy
    right
    refine ⟨by rw [hx.1, hy.1], Or.inl ?_⟩
    rw [hx.2.1, hy.2.1]; omega

theorem mem_phase (b : Bool) (l : List Sweep) (n : ℕ) (e : Event) :
    e ∈ ((List.range' 0 n).flatMap fun k => passEvents b k 0 l) ↔ e.measurement = b ∧ e.sweep < n ∧
      ∃ s, l[e.position]? = some s ∧ s.sweepToJump ∣ e.sweep ∧ e.iteration < s.numberTimes := by
  simp only [List.mem_flatMap, List.mem_range'_1, mem_passEvents, Nat.sub_zero]
  constructor
  · rintro ⟨k, ⟨_, hk⟩, h1, h2, _, h3⟩
    subst h2; exact ⟨h1, by omega, h3⟩
  · rintro ⟨h1, h2, h3⟩
    exact ⟨e.sweep, ⟨by omega, by omega⟩, h1, rfl, by omega, h3⟩

/-- How often one pass runs the sweep at a given position. -/
theorem count_passEvents (b b' : Bool) (k p : ℕ) (l : List Sweep) : ∀ pos,
    (passEvents b k pos l).countP (fun e => e.measurement == b' && e.position == p) =
      if b = b' ∧ pos ≤ p then (match l[p - pos]? with
        | some s => if s.sweepToJump ∣ k then s.numberTimes else 0
        | none => 0) else 0 := by
  induction l with
  | nil => intro pos; simp [passEvents]
  | cons s l ih =>
    intro pos
    have e : passEvents b k pos (s :: l) = (if s.sweepToJump ∣ k then (List.range s.numberTimes).map
        fun i => (⟨b, k, pos, i⟩ : Event) else []) ++ passEvents b k (pos + 1) l := by
      simp [passEvents]
    have e1 : ((if s.sweepToJump ∣ k then (List.range s.numberTimes).map
        fun i => (⟨b, k, pos, i⟩ : Event) else []).countP (fun e => e.measurement == b' && e.position == p)) =
        if b = b' ∧ pos = p then (if s.sweepToJump ∣ k then s.numberTimes else 0) else 0 := by
      split
      · rw [List.countP_map]
        by_cases hb : b = b' ∧ pos = p
        · rw [if_pos hb, List.countP_eq_length.2]
          · simp
          · intro i _; simp [hb.1, hb.2]
        · rw [if_neg hb, List.countP_eq_zero]
          intro i _; simp only [Function.comp]
          intro h; simp at h; exact hb h
      · simp
    rw [e, List.countP_append, e1, ih (pos + 1)]
    by_cases hb : b = b'
    · subst hb
      rcases Nat.lt_trichotomy pos p with h | h | h
      · have : p - pos = (p - (pos + 1)) + 1 := by omega
        simp [this, show ¬ pos = p by omega, show pos + 1 ≤ p by omega, show pos ≤ p by omega]
      · subst h; simp
      · simp [show ¬ pos = p by omega, show ¬ pos + 1 ≤ p by omega, show ¬ pos ≤ p by omega]
    · simp [hb]

theorem ceil_succ (n p : ℕ) (hp : p ≠ 0) : (n + 1 + (p - 1)) / p = (n + (p - 1)) / p + if p ∣ n then 1 else 0 := by
  have h : n + 1 + (p - 1) = (n + (p - 1)) + 1 := by omega
  rw [h, Nat.succ_div]
  congr 1
  have h2 : n + (p - 1) + 1 = n + p := by omega
  rw [h2]
  simp [Nat.dvd_add_left (Nat.dvd_refl p)]

theorem count_phase (b : Bool) (l : List Sweep) (p : ℕ) (s : Sweep) (hs : l[p]? = some s) (h0 : s.sweepToJump ≠ 0) (n : ℕ) :
    ((List.range' 0 n).flatMap fun k => passEvents b k 0 l).countP (fun e => e.measurement == b && e.position == p) =
      s.numberTimes * ((n + (s.sweepToJump - 1)) / s.sweepToJump) := by
  induction n with
  | zero =>
    have : (0 + (s.sweepToJump - 1)) / s.sweepToJump = 0 := Nat.div_eq_of_lt (by omega)
    rw [this]; simp
  | succ n ih =>
    rw [List.range'_1_concat, List.flatMap_append, List.countP_append, ih, ceil_succ n _ h0]
    simp only [List.flatMap_cons, List.flatMap_nil, List.append_nil, count_passEvents]
    simp [hs]
    split <;> ring

theorem count_phase_other (b b' : Bool) (h : b ≠ b') (l : List Sweep) (p n : ℕ) :
    ((List.range' 0 n).flatMap fun k => passEvents b k 0 l).countP (fun e => e.measurement == b' && e.position == p) = 0 := by
  rw [List.countP_eq_zero]
  intro e he
  rw [mem_phase] at he
  simp [he.1, h]

end Leonard
