/-
C90: what the test of the communication says.
-/
import Verif.Testcomm.Model
import Verif.Gauge.Props
import Mathlib.Tactic.Ring
import Mathlib.Tactic.Linarith
import Mathlib.Data.Fintype.Card

set_option autoImplicit false

namespace Leonard

open Matrix

variable {S : Type} {N : ℕ}

/-! ### Spec -/

/-- The tables of the lattice `T`. -/
def torusTables (T : Torus S) : NeighbourTables S := ⟨fun μ s => T.sup μ s, fun μ s => T.sdn μ s⟩

/-- Every step changes the coordinate of its direction by one, around the torus. -/
def StepsCoordinates (X : NeighbourTables S) (ext : Fin 4 → ℕ) (coord : S → Fin 4 → ℕ) : Prop :=
  ∀ s μ, (coord (X.up μ s) μ : ℤ) = ((coord s μ : ℤ) + 1) % ext μ ∧ (coord (X.down μ s) μ : ℤ) = ((coord s μ : ℤ) - 1) % ext μ

/-- Steps are invertible and commute, whatever they have to do with the coordinates. -/
structure StepsCommute (X : NeighbourTables S) : Prop where
  left : ∀ μ s, X.down μ (X.up μ s) = s
  right : ∀ μ s, X.up μ (X.down μ s) = s
  comm : ∀ μ ν s, X.up μ (X.up ν s) = X.up ν (X.up μ s)

/-- Tables whose steps in direction 0 also move in direction 1. -/
def skewTables (T : Torus S) : NeighbourTables S :=
  ⟨fun μ s => if μ = 0 then T.sup 1 (T.sup 0 s) else T.sup μ s, fun μ s => if μ = 0 then T.sdn 1 (T.sdn 0 s) else T.sdn μ s⟩

/-! ### Lemmas -/

theorem StepsCommute.up_down {X : NeighbourTables S} (h : StepsCommute X) (μ ν : Fin 4) (s : S) :
    X.up μ (X.down ν s) = X.down ν (X.up μ s) := by
  have := h.left ν (X.up μ (X.down ν s))
  rw [h.comm, h.right] at this
  exact this.symm

theorem comm_sum {X : NeighbourTables S} [Fintype S] (h : StepsCommute X) (μ : Fin 4) (f : S → ℝ) : ∑ s, f (X.up μ s) = ∑ s, f s :=
  Equiv.sum_comp ⟨X.up μ, X.down μ, h.left μ, h.right μ⟩ f

theorem comm_sum_down {X : NeighbourTables S} [Fintype S] (h : StepsCommute X) (μ : Fin 4) (f : S → ℝ) : ∑ s, f (X.down μ s) = ∑ s, f s :=
  Equiv.sum_comp ⟨X.down μ, X.up μ, h.right μ, h.left μ⟩ f

theorem commDifferences_zero [Fintype S] {X : NeighbourTables S} (h : StepsCommute X) {n : ℕ} (U : GField S N)
    (v : S → Fin 4 → Fin n → ℂ) : commDifferences X U v = [0, 0, 0, 0, 0] := by
  have hu : ∀ μ s, X.up 0 (X.up μ s) = X.up μ (X.up 0 s) := fun μ s => h.comm 0 μ s
  have hd : ∀ μ s, X.up 0 (X.down μ s) = X.down μ (X.up 0 s) := fun μ s => h.up_down 0 μ s
  have h1 : commWilson X (commWrap X U) = commWilson X U := by
    unfold commWilson
    conv_rhs => rw [← comm_sum h 0]
    refine Finset.sum_congr rfl fun s _ => ?_
    simp only [commWrap, hu]
  have h2 : commImproved X (commWrap X U) = commImproved X U := by
    unfold commImproved
    conv_rhs => rw [← comm_sum h 0]
    refine Finset.sum_congr rfl fun s _ => ?_
    simp only [commWrap, hu]
  have h3 : commStaple X (commWrap X U) = commStaple X U := by
    unfold commStaple
    conv_rhs => rw [← comm_sum h 0]
    refine Finset.sum_congr rfl fun s _ => ?_
    simp only [commWrap, hu, hd]
  have h4 : commNorm (fun s => v (X.up 2 s)) = commNorm v := comm_sum h 2 fun s => ∑ μ, ∑ c, Complex.normSq (v s μ c)
  have h5 : commNorm (fun s => v (X.down 2 s)) = commNorm v := comm_sum_down h 2 fun s => ∑ μ, ∑ c, Complex.normSq (v s μ c)
  simp [commDifferences, h1, h2, h3, h4, h5]

theorem comm_modulus (x : ℤ) (m : ℕ) (h0 : -1 ≤ x) (h1 : x ≤ m) (hm : 0 < m) : modulusLocal x m = x % m := by
  unfold modulusLocal
  split_ifs with a b
  · have : x = m := by omega
    subst this; simp
  · have : x = -1 := by omega
    subst this
    rw [← Int.add_emod_right, Int.emod_eq_of_lt (by omega) (by omega)]
  · rw [Int.emod_eq_of_lt (by omega) (by omega)]

theorem commMessages_empty [Fintype S] (X : NeighbourTables S) (ext : Fin 4 → ℕ) (coord : S → Fin 4 → ℕ) (hc : ∀ s μ, coord s μ < ext μ) :
    commMessages X ext coord = ∅ ↔ StepsCoordinates X ext coord := by
  have hp : ∀ s μ, modulusLocal ((coord s μ : ℤ) + 1) (ext μ) = ((coord s μ : ℤ) + 1) % ext μ := fun s μ => by
    have := hc s μ
    exact comm_modulus _ _ (by omega) (by omega) (by omega)
  have hm : ∀ s μ, modulusLocal ((coord s μ : ℤ) - 1) (ext μ) = ((coord s μ : ℤ) - 1) % ext μ := fun s μ => by
    have := hc s μ
    exact comm_modulus _ _ (by omega) (by omega) (by omega)
  unfold commMessages StepsCoordinates
  rw [Finset.filter_eq_empty_iff]
  constructor
  · intro h s μ
    have ht := h (x := (s, μ, true)) (Finset.mem_univ _)
    have hf := h (x := (s, μ, false)) (Finset.mem_univ _)
    simp only [commComplains, hp, hm, bne_iff_ne, ne_eq, not_not] at ht hf
    exact ⟨ht.symm, hf.symm⟩
  · rintro h ⟨s, μ, b⟩ -
    cases b
    · simp only [commComplains, hm, (h s μ).2]; simp
    · simp only [commComplains, hp, (h s μ).1]; simp

theorem torusTables_commute (T : Torus S) : StepsCommute (torusTables T) where
  left μ s := T.sdn_sup μ s
  right μ s := T.sup_sdn μ s
  comm μ ν s := T.comm μ ν s

theorem comm_coord_sdn (T : Torus S) (μ : Fin 4) (s : S) : (T.coord (T.sdn μ s) μ : ℤ) = ((T.coord s μ : ℤ) - 1) % T.ext μ := by
  have h := T.coord_sup μ (T.sdn μ s)
  rw [T.sup_sdn] at h
  have hl := T.coord_lt μ (T.sdn μ s)
  rw [h]
  push_cast
  rw [Int.sub_emod, Int.emod_emod, ← Int.sub_emod, add_sub_cancel_right, Int.emod_eq_of_lt (by omega) (by omega)]

theorem comm_coord_sdn_ne (T : Torus S) (μ ν : Fin 4) (h : μ ≠ ν) (s : S) : T.coord (T.sdn μ s) ν = T.coord s ν := by
  have := T.coord_sup_ne μ ν (T.sdn μ s) h
  rw [T.sup_sdn] at this
  exact this.symm

theorem torusTables_coordinates (T : Torus S) : StepsCoordinates (torusTables T) T.ext T.coord := fun s μ =>
  ⟨by simp [torusTables, T.coord_sup], by simp [torusTables, comm_coord_sdn]⟩

theorem skewTables_commute (T : Torus S) : StepsCommute (skewTables T) where
  left μ s := by
    by_cases h : μ = 0
    · simp only [skewTables, h, if_true]; rw [T.comm 1 0, T.sdn_sup, T.sdn_sup]
    · simp [skewTables, h]
  right μ s := by
    by_cases h : μ = 0
    · simp only [skewTables, h, if_true]; rw [T.sdn_comm 1 0, T.sup_sdn, T.sup_sdn]
    · simp [skewTables, h]
  comm μ ν s := by
    by_cases h : μ = 0 <;> by_cases h' : ν = 0
    · subst h; subst h'; rfl
    · simp only [skewTables, h, h', if_true, if_false]; rw [T.comm 0 ν, T.comm 1 ν]
    · simp only [skewTables, h, h', if_true, if_false]; rw [T.comm 0 μ, T.comm 1 μ]
    · simp only [skewTables, h, h', if_false]; rw [T.comm]

theorem skewTables_coordinates (T : Torus S) : StepsCoordinates (skewTables T) T.ext T.coord := fun s μ => by
  by_cases h : μ = 0
  · subst h
    simp only [skewTables, if_true]
    rw [T.coord_sup_ne 1 0 _ (by decide), comm_coord_sdn_ne T 1 0 (by decide)]
    exact ⟨by simp [T.coord_sup], comm_coord_sdn T 0 s⟩
  · simp only [skewTables, h, if_false]
    exact ⟨by simp [T.coord_sup], comm_coord_sdn T μ s⟩

/-! ### Properties -/

/-- **C90**: on every lattice, with the right tables and halos, the five printed differences vanish for every configuration and every
random vector, and no coordinate is reported. -/
theorem C90_silent [Fintype S] (T : Torus S) {n : ℕ} (U : GField S N) (v : S → Fin 4 → Fin n → ℂ) :
    commDifferences (torusTables T) U v = [0, 0, 0, 0, 0] ∧ commMessages (torusTables T) T.ext T.coord = ∅ :=
  ⟨commDifferences_zero (torusTables_commute T) U v,
    (commMessages_empty _ _ _ fun s μ => T.coord_lt μ s).2 (torusTables_coordinates T)⟩

/-- **C90**: whatever the tables are, there is no message exactly if every step changes the coordinate of its own direction by one. -/
theorem C90_coordinates [Fintype S] (X : NeighbourTables S) (ext : Fin 4 → ℕ) (coord : S → Fin 4 → ℕ) (hc : ∀ s μ, coord s μ < ext μ) :
    commMessages X ext coord = ∅ ↔ StepsCoordinates X ext coord :=
  commMessages_empty X ext coord hc

/-- **C90**: the test with the norms passes for every vector exactly if the steps in direction 2 are permutations of the sites. -/
theorem C90_norm [Fintype S] (X : NeighbourTables S) (U : GField S N) {n : ℕ} [NeZero n] :
    ((∀ v : S → Fin 4 → Fin n → ℂ, (commDifferences X U v).drop 3 = [0, 0])
      ↔ Function.Bijective (X.up 2) ∧ Function.Bijective (X.down 2)) := by
  classical
  have key : ∀ f : S → S, (∀ v : S → Fin 4 → Fin n → ℂ, commNorm v - commNorm (fun s => v (f s)) = 0) ↔ Function.Bijective f := by
    intro f
    constructor
    · intro h
      rw [← Finite.surjective_iff_bijective]
      intro s
      have h1 := h fun s' μ c => if s' = s ∧ μ = 0 ∧ c = 0 then 1 else 0
      by_contra hne
      push Not at hne
      have hz : commNorm (fun s' : S => fun (μ : Fin 4) (c : Fin n) => if f s' = s ∧ μ = 0 ∧ c = 0 then (1 : ℂ) else 0) = 0 := by
        unfold commNorm
        simp [hne]
      have ho : 0 < commNorm (fun s' : S => fun (μ : Fin 4) (c : Fin n) => if s' = s ∧ μ = 0 ∧ c = 0 then (1 : ℂ) else 0) := by
        unfold commNorm
        refine Finset.sum_pos' (fun _ _ => Finset.sum_nonneg fun _ _ => Finset.sum_nonneg fun _ _ => Complex.normSq_nonneg _)
          ⟨s, Finset.mem_univ _, ?_⟩
        refine Finset.sum_pos' (fun _ _ => Finset.sum_nonneg fun _ _ => Complex.normSq_nonneg _) ⟨0, Finset.mem_univ _, ?_⟩
        exact Finset.sum_pos' (fun _ _ => Complex.normSq_nonneg _) ⟨0, Finset.mem_univ _, by simp⟩
      have h2 : _ - _ = (0 : ℝ) := h1
      rw [hz] at h2
      linarith
    · intro h v
      have : commNorm (fun s => v (f s)) = commNorm v :=
        Equiv.sum_comp (Equiv.ofBijective f h) fun s => ∑ μ, ∑ c, Complex.normSq (v s μ c)
      rw [this, sub_self]
  rw [← key, ← key]
  simp only [commDifferences, List.drop_succ_cons, List.drop_zero, List.cons.injEq, and_true]
  exact forall_and

/-- **C90** is not a test of the neighbours: tables whose steps in direction 0 move in direction 1 as well pass all parts of the test for
every configuration and vector, although on every site the neighbour is the wrong one. -/
theorem C90_skewed_counterexample [Fintype S] (T : Torus S) (h : 2 ≤ T.ext 1) {n : ℕ} (U : GField S N) (v : S → Fin 4 → Fin n → ℂ) :
    commDifferences (skewTables T) U v = [0, 0, 0, 0, 0] ∧ commMessages (skewTables T) T.ext T.coord = ∅
      ∧ ∀ s, (skewTables T).up 0 s ≠ T.sup 0 s := by
  refine ⟨commDifferences_zero (skewTables_commute T) U v,
    (commMessages_empty _ _ _ fun s μ => T.coord_lt μ s).2 (skewTables_coordinates T), fun s e => ?_⟩
  simp only [skewTables, if_true] at e
  have h1 := T.coord_sup 1 (T.sup 0 s)
  rw [e] at h1
  have h2 := T.coord_lt 1 (T.sup 0 s)
  rcases lt_or_ge (T.coord (T.sup 0 s) 1 + 1) (T.ext 1) with h3 | h3
  · rw [Nat.mod_eq_of_lt h3] at h1; omega
  · have h4 : T.coord (T.sup 0 s) 1 + 1 = T.ext 1 := by omega
    rw [h4, Nat.mod_self] at h1; omega

/-- **C90**: the three energies that are compared are the Wilson action and the improved action at `β` equal to the number of colours, and
the sum over all links of minus the real trace of the link times the staple of the improved action. -/
theorem C90_energies [Fintype S] (T : Torus S) (hN : N ≠ 0) (U : GField S N) :
    commWilson (torusTables T) U = wilsonEnergy N T U ∧ commImproved (torusTables T) U = improvedEnergy 1 N T U
      ∧ commStaple (torusTables T) U = ∑ s, ∑ μ, -(trace (U s μ * improvedStaple 1 T U s μ)).re := by
  have hN' : (N : ℝ) ≠ 0 := Nat.cast_ne_zero.2 hN
  refine ⟨?_, ?_, ?_⟩
  · simp only [commWilson, wilsonEnergy, stapleUp, torusTables, div_self hN', neg_mul, one_mul]
  · simp only [commImproved, improvedEnergy, stapleUp, torusTables, div_self hN', neg_mul, one_mul, mul_one]
    push_cast
    rfl
  · unfold commStaple improvedStaple
    refine Finset.sum_congr rfl fun s _ => Finset.sum_congr rfl fun μ _ => ?_
    congr 4
    refine Finset.sum_congr rfl fun ν _ => ?_
    split_ifs
    · simp only [torusTables, stapleUp, stapleDown, rectStaple, mul_one, smul_add]
      push_cast
      abel
    · rfl

/-- The hypotheses are met by the lattice of three sites in each direction. -/
example : 2 ≤ (boxTorus exExt3 exExt3_pos).ext 1 ∧
    ∀ s μ, (boxTorus exExt3 exExt3_pos).coord s μ < (boxTorus exExt3 exExt3_pos).ext μ :=
  ⟨by decide, fun s μ => (boxTorus exExt3 exExt3_pos).coord_lt μ s⟩

end Leonard
