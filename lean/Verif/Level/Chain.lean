import Verif.Level.Region
import Verif.Heat.Props
import Mathlib.LinearAlgebra.Multilinear.Basic
import Mathlib.MeasureTheory.Integral.Prod

/-!
Updates of different slices do not influence each other.
-/

set_option autoImplicit false

namespace Leonard

section chain
variable {ι D X : Type}

/-- A run of steps. -/
def runSteps (st : ι → D → X → X) (l : List ι) (d : ι → D) (x : X) : X := l.foldl (fun x i => st i (d i) x) x

theorem runSteps_append (st : ι → D → X → X) (l l' : List ι) (d : ι → D) (x : X) : runSteps st (l ++ l') d x = runSteps st l' d (runSteps st l d x) :=
  List.foldl_append

/-- Steps that belong to parts of the state: a step changes only its part, and in a way that depends on its part only. -/
structure Local (st : ι → D → X → X) (l : List ι) (part : ι → ℕ) (Agree : ℕ → X → X → Prop) : Prop where
  refl : ∀ k x, Agree k x x
  trans : ∀ k x y z, Agree k x y → Agree k y z → Agree k x z
  inside : ∀ i ∈ l, ∀ d x y, Agree (part i) x y → Agree (part i) (st i d x) (st i d y)
  outside : ∀ i ∈ l, ∀ k, part i ≠ k → ∀ d x, Agree k (st i d x) x

variable {st : ι → D → X → X} {l0 : List ι} {part : ι → ℕ} {Agree : ℕ → X → X → Prop}

/-- What a run does to a part is what the steps of that part do. -/
theorem Local.filter (h : Local st l0 part Agree) (k : ℕ) (l : List ι) (hl : ∀ i ∈ l, i ∈ l0) (d : ι → D) (x y : X) (hxy : Agree k x y) :
    Agree k (runSteps st l d x) (runSteps st (l.filter fun i => part i = k) d y) := by
  induction l generalizing x y with
  | nil => exact hxy
  | cons i l ih =>
    have hi := hl i List.mem_cons_self
    have hl' : ∀ j ∈ l, j ∈ l0 := fun j hj => hl j (List.mem_cons_of_mem i hj)
    by_cases hp : part i = k
    · rw [List.filter_cons_of_pos (by simpa using hp)]
      refine ih hl' _ _ ?_
      subst hp
      exact h.inside i hi _ _ _ hxy
    · rw [List.filter_cons_of_neg (by simpa using hp)]
      exact ih hl' _ _ (h.trans _ _ _ _ (h.outside i hi k hp _ _) hxy)

/-- The steps of part `k` among the first `c k` rounds, part after part. -/
def mixedList (part : ι → ℕ) (rounds : ℕ → List ι) (c : ℕ → ℕ) (parts : List ℕ) : List ι := parts.flatMap fun k => (rounds (c k)).filter fun i => part i = k

theorem mixedList_filter (part : ι → ℕ) (rounds : ℕ → List ι) (c : ℕ → ℕ) (parts : List ℕ) (hn : parts.Nodup) (k : ℕ) (hk : k ∈ parts) :
    (mixedList part rounds c parts).filter (fun i => part i = k) = (rounds (c k)).filter fun i => part i = k := by
  unfold mixedList
  induction parts with
  | nil => simp at hk
  | cons a parts ih =>
    rw [List.nodup_cons] at hn
    rw [List.flatMap_cons, List.filter_append, List.filter_filter]
    by_cases ha : a = k
    · subst ha
      have h0 : (parts.flatMap fun k => (rounds (c k)).filter fun i => part i = k).filter (fun i => part i = a) = [] := by
        rw [List.filter_eq_nil_iff]
        intro i hi
        simp only [List.mem_flatMap, List.mem_filter, decide_eq_true_eq] at hi
        obtain ⟨b, hb, -, hib⟩ := hi
        simp only [decide_eq_true_eq]
        intro hc
        rw [hib] at hc
        exact hn.1 (hc ▸ hb)
      rw [h0, List.append_nil]
      simp
    · have hk' : k ∈ parts := by
        rcases List.mem_cons.1 hk with h | h
        · exact absurd h.symm ha
        · exact h
      have h0 : (rounds (c a)).filter (fun i => decide (part i = k) && decide (part i = a)) = [] := by
        rw [List.filter_eq_nil_iff]
        intro i _
        simp only [Bool.and_eq_true, decide_eq_true_eq, not_and]
        intro h1 h2
        exact ha (h2.symm.trans h1)
      rw [h0, List.nil_append]
      exact ih hn.2 hk'

theorem mixedList_nodup (part : ι → ℕ) (rounds : ℕ → List ι) (hr : ∀ n, (rounds n).Nodup) (c : ℕ → ℕ) (parts : List ℕ) (hn : parts.Nodup) :
    (mixedList part rounds c parts).Nodup := by
  unfold mixedList
  rw [List.nodup_flatMap]
  refine ⟨fun k _ => (hr _).filter _, ?_⟩
  refine hn.imp fun {a b} hab i hi hj => ?_
  simp only [List.mem_filter, decide_eq_true_eq] at hi hj
  exact hab (hi.2.symm.trans hj.2)

/-- Each part of the mixed run is that part of the run of its number of rounds. -/
theorem Local.mixed (h : Local st l0 part Agree) (hsym : ∀ k x y, Agree k x y → Agree k y x) (rounds : ℕ → List ι) (hr : ∀ n, ∀ i ∈ rounds n, i ∈ l0)
    (c : ℕ → ℕ) (parts : List ℕ) (hn : parts.Nodup) (k : ℕ) (hk : k ∈ parts) (d : ι → D) (x : X) :
    Agree k (runSteps st (mixedList part rounds c parts) d x) (runSteps st (rounds (c k)) d x) := by
  have h1 := h.filter k (mixedList part rounds c parts) (fun i hi => by
    simp only [mixedList, List.mem_flatMap, List.mem_filter] at hi
    obtain ⟨a, -, hi, -⟩ := hi
    exact hr _ i hi) d x x (h.refl k x)
  rw [mixedList_filter part rounds c parts hn k hk] at h1
  exact h.trans _ _ _ _ h1 (hsym _ _ _ (h.filter k (rounds (c k)) (hr _) d x x (h.refl k x)))

end chain

end Leonard
