import Verif.Bc.Model
import Verif.Gauge.Props
import Verif.Rep.Props

/-!
# C31: boundary conditions
-/

set_option autoImplicit false

namespace Leonard

open Matrix

section
variable {S : Type}

/-- The link leaves the last slice in its direction: it leads to the slice with coordinate 0. -/
def Leaves (T : Torus S) (s : S) (μ : Fin 4) : Prop := T.coord (T.sup μ s) μ = 0

instance (T : Torus S) (s : S) (μ : Fin 4) : Decidable (Leaves T s μ) := inferInstanceAs (Decidable (_ = 0))

/-- The site lies in the last time slice. -/
def LastTime (T : Torus S) (s : S) : Prop := T.coord s 3 + 1 = T.ext 3

instance (T : Torus S) (s : S) : Decidable (LastTime T s) := inferInstanceAs (Decidable (_ = _))

theorem leaves_iff (T : Torus S) (s : S) (μ : Fin 4) : Leaves T s μ ↔ (T.coord s μ : ℤ) = T.ext μ - 1 := by
  unfold Leaves
  rw [T.coord_sup]
  have h := T.coord_lt μ s
  constructor
  · intro h0
    rcases Nat.lt_or_ge (T.coord s μ + 1) (T.ext μ) with h1 | h1
    · rw [Nat.mod_eq_of_lt h1] at h0; omega
    · omega
  · intro h0
    have : T.coord s μ + 1 = T.ext μ := by omega
    rw [this, Nat.mod_self]

section
variable {A : Type} [InvolutiveNeg A]

/-- **C31**: antiperiodic boundary conditions negate exactly the time links that leave the last time slice; the spatial version
exactly the links in direction 2 that leave the last slice in that direction; the full version exactly the links of any direction
that leave the last slice in that direction. -/
theorem C31_antiperiodic (T : Torus S) (F : S → Fin 4 → A) (s : S) (μ : Fin 4) :
    switchAntiperiodicBc T.ext T.coord F s μ = (if μ = 3 ∧ Leaves T s μ then -F s μ else F s μ)
    ∧ switchSpatialAntiperiodicBc T.ext T.coord F s μ = (if μ = 2 ∧ Leaves T s μ then -F s μ else F s μ)
    ∧ switchFullAntiperiodicBc T.ext T.coord F s μ = (if Leaves T s μ then -F s μ else F s μ) := by
  refine ⟨?_, ?_, ?_⟩
  · unfold switchAntiperiodicBc
    by_cases h : μ = 3
    · subst h; simp [leaves_iff]
    · simp [h]
  · unfold switchSpatialAntiperiodicBc
    by_cases h : μ = 2
    · subst h; simp [leaves_iff]
    · simp [h]
  · unfold switchFullAntiperiodicBc negLast
    simp only [leaves_iff]
    fin_cases μ <;> simp

/-- **C31**: applying antiperiodic boundary conditions twice restores the field. -/
theorem C31_twice (T : Torus S) (F : S → Fin 4 → A) :
    switchAntiperiodicBc T.ext T.coord (switchAntiperiodicBc T.ext T.coord F) = F
    ∧ switchSpatialAntiperiodicBc T.ext T.coord (switchSpatialAntiperiodicBc T.ext T.coord F) = F
    ∧ switchFullAntiperiodicBc T.ext T.coord (switchFullAntiperiodicBc T.ext T.coord F) = F := by
  refine ⟨?_, ?_, ?_⟩ <;> funext s μ
  · rw [(C31_antiperiodic T _ s μ).1, (C31_antiperiodic T F s μ).1]; split <;> simp
  · rw [(C31_antiperiodic T _ s μ).2.1, (C31_antiperiodic T F s μ).2.1]; split <;> simp
  · rw [(C31_antiperiodic T _ s μ).2.2, (C31_antiperiodic T F s μ).2.2]; split <;> simp

end

/-- **C31**: what holds of open boundary conditions. A link is set to zero exactly if one of its ends lies in the last time slice, all
other links are kept; in particular every time link that leaves the last slice is zero. What is missing: the statement says that only
the links leaving the last slice are set to zero, see `C31_open_counterexample`. -/
theorem C31_open_partial {A : Type} [Zero A] (T : Torus S) (F : S → Fin 4 → A) (s : S) (μ : Fin 4) :
    ((LastTime T s ∨ LastTime T (T.sup μ s)) → switchOpenBc T.ext T.coord F s μ = 0)
    ∧ (¬ (LastTime T s ∨ LastTime T (T.sup μ s)) → switchOpenBc T.ext T.coord F s μ = F s μ)
    ∧ (Leaves T s 3 → switchOpenBc T.ext T.coord F s 3 = 0) := by
  have hlt := T.coord_lt 3 s
  have key : (LastTime T s ∨ LastTime T (T.sup μ s)) ↔
      ((T.coord s 3 : ℤ) = T.ext 3 - 1 ∨ (μ = 3 ∧ (T.coord s 3 : ℤ) = T.ext 3 - 2)) := by
    unfold LastTime
    by_cases h : μ = 3
    · subst h
      rw [T.coord_sup]
      rcases Nat.lt_or_ge (T.coord s 3 + 1) (T.ext 3) with h1 | h1
      · rw [Nat.mod_eq_of_lt h1]; omega
      · have : T.coord s 3 + 1 = T.ext 3 := by omega
        rw [this]; simp; omega
    · rw [T.coord_sup_ne μ 3 s h]; simp [h]; omega
  refine ⟨?_, ?_, ?_⟩
  · rw [key]
    unfold switchOpenBc
    rintro (h | ⟨rfl, h⟩)
    · simp [h]
    · simp [h]
  · rw [key]
    push Not
    rintro ⟨h1, h2⟩
    unfold switchOpenBc
    rw [if_neg h1]
    split
    · rename_i h3
      by_cases h : μ = 3
      · exact absurd h3 (h2 h)
      · simp [h]
    · rfl
  · rw [leaves_iff]
    intro h
    simp [switchOpenBc, h]

/-- **C31**: open boundary conditions also set links to zero that do not leave the last slice: a space link inside the last time
slice and the time link from the slice before. -/
theorem C31_open_counterexample : ∃ (s s' : BoxSite exExt3),
    ¬ Leaves (boxTorus exExt3 exExt3_pos) s 0 ∧ ¬ Leaves (boxTorus exExt3 exExt3_pos) s' 3
    ∧ ∀ F : GField (BoxSite exExt3) 2,
      switchOpenBc (boxTorus exExt3 exExt3_pos).ext (boxTorus exExt3 exExt3_pos).coord F s 0 = 0
      ∧ switchOpenBc (boxTorus exExt3 exExt3_pos).ext (boxTorus exExt3 exExt3_pos).coord F s' 3 = 0 := by
  refine ⟨⟨⟨0, 0, 0, 4⟩, by decide⟩, ⟨⟨0, 0, 0, 3⟩, by decide⟩, by decide +kernel, by decide +kernel, fun F => ⟨?_, ?_⟩⟩
  · exact (C31_open_partial _ F _ 0).1 (Or.inl (by decide +kernel))
  · exact (C31_open_partial _ F _ 3).1 (Or.inr (by decide +kernel))

/-- **C31**: on a process that stores copies of sites of other processes, the boundary conditions keep the copies equal to the
originals: if every stored site `k` holds the links of its site `site k`, it still does afterwards. -/
theorem C31_copies {K A : Type} [Neg A] [Zero A] (ext : Fin 4 → ℕ) (coord : S → Fin 4 → ℕ) (site : K → S) (bc : Option String)
    (F : K → Fin 4 → A) (G : S → Fin 4 → A) (h : ∀ k μ, F k μ = G (site k) μ) (k : K) (μ : Fin 4) :
    setFermionBc ext (fun k => coord (site k)) bc F k μ = setFermionBc ext coord bc G (site k) μ := by
  have hF : F = fun k μ => G (site k) μ := by funext k μ; exact h k μ
  subst hF
  unfold setFermionBc
  split <;> rfl

end

/-! ### Loops -/

section
variable {S : Type} {N : ℕ}

/-- Number of times a path crosses the boundary between the last and the first time slice. -/
def timeCrossings (T : Torus S) : S → List Hop → ℕ
  | _, [] => 0
  | s, (μ, true) :: p => (if μ = 3 ∧ Leaves T s μ then 1 else 0) + timeCrossings T (T.sup μ s) p
  | s, (μ, false) :: p => (if μ = 3 ∧ Leaves T (T.sdn μ s) μ then 1 else 0) + timeCrossings T (T.sdn μ s) p

/-- **C31**: with antiperiodic boundary conditions the product of the links along any path changes by the sign `(-1)^n`, where `n`
is the number of times the path crosses the boundary. -/
theorem C31_path_sign (T : Torus S) (U : GField S N) (p : List Hop) (s : S) :
    holo T (switchAntiperiodicBc T.ext T.coord U) s p = (-1 : ℂ) ^ timeCrossings T s p • holo T U s p := by
  induction p generalizing s with
  | nil => simp [timeCrossings]
  | cons h p ih =>
    obtain ⟨μ, b⟩ := h
    cases b
    · rw [holo_down, holo_down, ih, (C31_antiperiodic T U _ μ).1]
      simp only [timeCrossings]
      split
      · rw [pow_add, pow_one, conjTranspose_neg]; simp
      · simp
    · rw [holo_up, holo_up, ih, (C31_antiperiodic T U _ μ).1]
      simp only [timeCrossings]
      split
      · rw [pow_add, pow_one]; simp
      · simp

theorem timeCrossings_line (T : Torus S) (n : ℕ) (s : S) (h : T.coord s 3 + n = T.ext 3) (hn : 0 < n) :
    timeCrossings T s (List.replicate n (3, true)) = 1 := by
  induction n generalizing s with
  | zero => omega
  | succ n ih =>
    rw [List.replicate_succ]
    simp only [timeCrossings, true_and]
    by_cases h1 : n = 0
    · subst h1
      have : Leaves T s 3 := (leaves_iff T s 3).2 (by omega)
      simp [this, timeCrossings]
    · have hnot : ¬ Leaves T s 3 := by rw [leaves_iff]; omega
      have hc : T.coord (T.sup 3 s) 3 = T.coord s 3 + 1 := by rw [T.coord_sup, Nat.mod_eq_of_lt (by omega)]
      rw [if_neg hnot, ih (T.sup 3 s) (by omega) (by omega)]

/-- **C31**: antiperiodic boundary conditions change the sign of the Polyakov loop in time direction. -/
theorem C31_polyakov [Fintype S] (T : Torus S) (U : GField S N) :
    polyakovSum T (switchAntiperiodicBc T.ext T.coord U) 3 = -polyakovSum T U 3 := by
  rw [polyakovSum_eq, polyakovSum_eq, ← Finset.sum_neg_distrib]
  refine Finset.sum_congr rfl fun s _ => ?_
  split
  · rename_i h
    rw [C31_path_sign, timeCrossings_line T _ s (by omega) (Nat.zero_lt_of_lt (T.coord_lt 3 s)), pow_one, trace_smul]
    simp
  · simp

/-- **C31**: antiperiodic boundary conditions do not change the plaquettes. -/
theorem C31_plaquette [Fintype S] (T : Torus S) (U : GField S N) :
    plaquetteSums T (switchAntiperiodicBc T.ext T.coord U) = plaquetteSums T U := by
  have key : ∀ s μ ν, μ < ν →
      switchAntiperiodicBc T.ext T.coord U s μ * switchAntiperiodicBc T.ext T.coord U (T.sup μ s) ν
        * (switchAntiperiodicBc T.ext T.coord U (T.sup ν s) μ)ᴴ * (switchAntiperiodicBc T.ext T.coord U s ν)ᴴ
      = U s μ * U (T.sup μ s) ν * (U (T.sup ν s) μ)ᴴ * (U s ν)ᴴ := by
    intro s μ ν hlt
    have hμ : μ ≠ 3 := by rintro rfl; exact absurd hlt (by omega)
    have e1 : ∀ r, switchAntiperiodicBc T.ext T.coord U r μ = U r μ := fun r => by
      rw [(C31_antiperiodic T U r μ).1, if_neg fun h => hμ h.1]
    rw [e1, e1]
    by_cases h : ν = 3
    · subst h
      have hl : Leaves T (T.sup μ s) 3 ↔ Leaves T s 3 := by rw [leaves_iff, leaves_iff, T.coord_sup_ne μ 3 s hμ]
      rw [(C31_antiperiodic T U (T.sup μ s) 3).1, (C31_antiperiodic T U s 3).1]
      by_cases h3 : Leaves T s 3
      · rw [if_pos ⟨rfl, hl.2 h3⟩, if_pos ⟨rfl, h3⟩, conjTranspose_neg, Matrix.mul_neg, Matrix.mul_neg, Matrix.neg_mul,
          Matrix.neg_mul, neg_neg]
      · rw [if_neg fun h => h3 (hl.1 h.2), if_neg fun h => h3 h.2]
    · have e2 : ∀ r, switchAntiperiodicBc T.ext T.coord U r ν = U r ν := fun r => by
        rw [(C31_antiperiodic T U r ν).1, if_neg fun h' => h h'.1]
      rw [e2, e2]
  have k2 : ∀ (c : Prop) [Decidable c] (c' : Prop) [Decidable c'] s (μ ν : Fin 4), (if μ < ν then if c then if c' then
        (trace (switchAntiperiodicBc T.ext T.coord U s μ * switchAntiperiodicBc T.ext T.coord U (T.sup μ s) ν
        * (switchAntiperiodicBc T.ext T.coord U (T.sup ν s) μ)ᴴ * (switchAntiperiodicBc T.ext T.coord U s ν)ᴴ)).re else 0 else 0 else 0)
      = if μ < ν then if c then if c' then (trace (U s μ * U (T.sup μ s) ν * (U (T.sup ν s) μ)ᴴ * (U s ν)ᴴ)).re else 0 else 0
        else 0 := by
    intro c _ c' _ s μ ν
    by_cases h : μ < ν
    · rw [if_pos h, if_pos h, key s μ ν h]
    · rw [if_neg h, if_neg h]
  have k0 := fun s μ ν => k2 True True s μ ν
  simp only [if_true] at k0
  have k1 := fun s μ ν => k2 (μ = 3 ∨ ν = 3) True s μ ν
  simp only [if_true] at k1
  have k3 := fun s (μ ν : Fin 4) => k2 (¬ (μ = 3 ∨ ν = 3)) True s μ ν
  simp only [if_true, ite_not] at k3
  unfold plaquetteSums
  simp only [k0, k1, k3]

/-! ### Rebuilding the fermion links -/

variable {A B : Type} [Neg A] [Zero A]

/-- **C31**: what holds of rebuilding. Unless the boundary conditions are open, rebuilding leaves the gauge links alone, and
rebuilding again changes nothing. What is missing: with open boundary conditions rebuilding changes the gauge links and rebuilding
again changes the adjoint links, see `C31_rebuild_counterexample`. -/
theorem C31_rebuild_partial (E : Mat N → Option (Mat N)) (T : Torus S) (conv : Mat N → A) (convAdj : Mat N → B) (levels : ℤ)
    (ρ : ℝ) (bc : String) (hbc : bc ≠ "open") (e e' : LinkState S N A B)
    (h : synchronize E T conv convAdj levels ρ bc e = some e') :
    e'.gauge = e.gauge ∧ synchronize E T conv convAdj levels ρ bc e' = some e' := by
  unfold synchronize at *
  obtain ⟨sm, hs, rfl⟩ := Option.map_eq_some_iff.1 h
  simp only [hbc, if_false]
  exact ⟨trivial, by rw [hs]; rfl⟩

theorem switchOpenBc_twice {K A : Type} [Zero A] (ext : Fin 4 → ℕ) (coord : K → Fin 4 → ℕ) (F : K → Fin 4 → A) :
    switchOpenBc ext coord (switchOpenBc ext coord F) = switchOpenBc ext coord F := by
  funext k μ
  unfold switchOpenBc
  by_cases h1 : (coord k 3 : ℤ) = ext 3 - 1
  · simp [h1]
  · by_cases h2 : (coord k 3 : ℤ) = ext 3 - 2
    · by_cases h3 : μ = 3
      · simp [h2, h3]
      · simp [h2, h3]
    · simp [h1, h2]

/-- **C31**: with open boundary conditions and no smearing, rebuilding a second time leaves the gauge links and, if the conversion
takes zero to zero, the fermion links unchanged, and from then on nothing changes. -/
theorem C31_rebuild_open (E : Mat N → Option (Mat N)) (T : Torus S) (conv : Mat N → A) (h0 : conv 0 = 0) (convAdj : Mat N → B)
    (ρ : ℝ) (e e1 e2 : LinkState S N A B) (h1 : synchronize E T conv convAdj 0 ρ "open" e = some e1)
    (h2 : synchronize E T conv convAdj 0 ρ "open" e1 = some e2) :
    e2.gauge = e1.gauge ∧ e2.fermion = e1.fermion ∧ synchronize E T conv convAdj 0 ρ "open" e2 = some e2 := by
  unfold synchronize at *
  simp only [Int.toNat_zero, smearingLevels, Option.map_some, Option.some.injEq, if_true] at h1 h2 ⊢
  subst h1
  simp only [switchOpenBc_twice] at h2
  subst h2
  have hf : ∀ G : GField S N, (switchOpenBc T.ext T.coord fun s μ => conv (switchOpenBc T.ext T.coord G s μ))
      = switchOpenBc T.ext T.coord fun s μ => conv (G s μ) := by
    intro G
    funext s μ
    unfold switchOpenBc
    by_cases h1 : (T.coord s 3 : ℤ) = T.ext 3 - 1
    · simp [h1]
    · by_cases h2 : (T.coord s 3 : ℤ) = T.ext 3 - 2
      · by_cases h3 : μ = 3
        · simp [h2, h3]
        · simp [h2, h3]
      · simp [h1, h2]
  refine ⟨rfl, ?_, ?_⟩
  · simp only [synchronizeBc]; exact hf e.gauge
  · simp only [switchOpenBc_twice]

theorem synchronize_zero (E : Mat N → Option (Mat N)) (T : Torus S) (conv : Mat N → A) (convAdj : Mat N → B) (ρ : ℝ)
    (bc : String) (e : LinkState S N A B) : synchronize E T conv convAdj 0 ρ bc e = some
      { gauge := if bc = "open" then switchOpenBc T.ext T.coord e.gauge else e.gauge
        fermion := synchronizeBc T.ext T.coord bc fun s μ => conv (e.gauge s μ)
        adjoint := fun s μ => convAdj (e.gauge s μ) } := rfl

/-- **C31**: with open boundary conditions rebuilding the fermion links changes the gauge links, and rebuilding them again changes the
adjoint links. Two colours, all links equal to the identity. -/
theorem C31_rebuild_counterexample : ∃ (e e1 e2 : LinkState (BoxSite exExt3) 2 (Mat 2) (Matrix (Fin 3) (Fin 3) ℝ)),
    (∀ s μ, e.gauge s μ = 1)
    ∧ synchronize (fun _ => none) (boxTorus exExt3 exExt3_pos) id toAdjoint2 0 0 "open" e = some e1
    ∧ synchronize (fun _ => none) (boxTorus exExt3 exExt3_pos) id toAdjoint2 0 0 "open" e1 = some e2
    ∧ e1.gauge ≠ e.gauge ∧ e2.adjoint ≠ e1.adjoint := by
  let s : BoxSite exExt3 := ⟨⟨0, 0, 0, 4⟩, by decide⟩
  have hz : ∀ F : GField (BoxSite exExt3) 2,
      switchOpenBc (boxTorus exExt3 exExt3_pos).ext (boxTorus exExt3 exExt3_pos).coord F s 0 = 0 := fun F =>
    (C31_open_partial _ F _ 0).1 (Or.inl (by decide +kernel))
  refine ⟨⟨fun _ _ => 1, fun _ _ => 0, fun _ _ => 0⟩, _, _, fun _ _ => rfl, synchronize_zero _ _ _ _ _ _ _,
    synchronize_zero _ _ _ _ _ _ _, ?_, ?_⟩
  · intro h
    have := congrFun (congrFun h s) 0
    simp only [if_true] at this
    rw [hz] at this
    exact zero_ne_one this
  · intro h
    have := congrFun (congrFun h s) 0
    simp only [if_true] at this
    rw [hz] at this
    have h2 := congrFun (congrFun this 2) 2
    have z0 : toAdjoint2 0 2 2 = 0 := by simp [toAdjoint2]
    have z1 : toAdjoint2 1 2 2 = 1 := by simp [toAdjoint2]; norm_num
    rw [z0, z1] at h2
    exact zero_ne_one h2

/-- **C31**: smearing and boundary conditions act on the fermion links only: whatever the smearing settings, the adjoint links
are the conversions of the stored gauge links. -/
theorem C31_adjoint_links (E : Mat N → Option (Mat N)) (T : Torus S) (conv : Mat N → A) (convAdj : Mat N → B) (levels levels' : ℤ)
    (ρ ρ' : ℝ) (bc bc' : String) (e e1 e2 : LinkState S N A B)
    (h1 : synchronize E T conv convAdj levels ρ bc e = some e1) (h2 : synchronize E T conv convAdj levels' ρ' bc' e = some e2) :
    e1.adjoint = e2.adjoint ∧ ∀ s μ, e1.adjoint s μ = convAdj (e.gauge s μ) := by
  unfold synchronize at *
  obtain ⟨_, _, rfl⟩ := Option.map_eq_some_iff.mp h1
  obtain ⟨_, _, rfl⟩ := Option.map_eq_some_iff.mp h2
  exact ⟨rfl, fun _ _ => rfl⟩

/-- **C31**: with `fermion_full_antiperiodic` the links rebuilt by `synchronize` are antiperiodic in time only, although the
measurements that set the boundary conditions themselves negate all four directions. -/
theorem C31_full_counterexample : ∃ F : GField (BoxSite exExt3) 2,
    synchronizeBc (boxTorus exExt3 exExt3_pos).ext (boxTorus exExt3 exExt3_pos).coord "fermion_full_antiperiodic" F
      = switchAntiperiodicBc (boxTorus exExt3 exExt3_pos).ext (boxTorus exExt3 exExt3_pos).coord F
    ∧ synchronizeBc (boxTorus exExt3 exExt3_pos).ext (boxTorus exExt3 exExt3_pos).coord "fermion_full_antiperiodic" F
      ≠ setFermionBc (boxTorus exExt3 exExt3_pos).ext (boxTorus exExt3 exExt3_pos).coord (some "fermion_full_antiperiodic") F := by
  refine ⟨fun _ _ => 1, rfl, ?_⟩
  show switchAntiperiodicBc _ _ _ ≠ switchFullAntiperiodicBc _ _ _
  intro h
  have := congrFun (congrFun h ⟨⟨2, 0, 0, 0⟩, by decide⟩) 0
  rw [(C31_antiperiodic _ _ _ 0).1, (C31_antiperiodic _ _ _ 0).2.2, if_neg (by simp), if_pos (by decide +kernel)] at this
  have h2 := congrFun (congrFun this 0) 0
  simp at h2
  norm_num [Complex.ext_iff] at h2

/-- **C31**: except for that name, and when the option is set, the two places where boundary conditions are set agree. -/
theorem C31_same_bc {A : Type} [Neg A] [Zero A] (ext : Fin 4 → ℕ) (coord : S → Fin 4 → ℕ) (bc : String)
    (h : bc ≠ "fermion_full_antiperiodic") (F : S → Fin 4 → A) :
    synchronizeBc ext coord bc F = setFermionBc ext coord (some bc) F := by
  unfold synchronizeBc setFermionBc
  split <;> simp_all

/-- The hypotheses of `C31_rebuild_partial` are met: antiperiodic boundary conditions, no smearing, a link that is negated. -/
example : ∃ e' : LinkState (BoxSite exExt3) 2 (Mat 2) (Matrix (Fin 3) (Fin 3) ℝ),
    synchronize (fun _ => none) (boxTorus exExt3 exExt3_pos) id toAdjoint2 0 0 "fermion_antiperiodic"
      ⟨fun _ _ => 1, fun _ _ => 0, fun _ _ => 0⟩ = some e' ∧ e'.fermion ⟨⟨0, 0, 0, 4⟩, by decide⟩ 3 = -1 := by
  refine ⟨_, synchronize_zero _ _ _ _ _ _ _, ?_⟩
  simp only [synchronizeBc]
  rw [(C31_antiperiodic _ _ _ 3).1, if_pos (by decide +kernel)]
  rfl

end

end Leonard
