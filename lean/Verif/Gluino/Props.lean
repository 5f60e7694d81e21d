import Verif.Gluino.Lemmas
import Verif.Meson.Examples

/-!
# C78: the gluino-glue correlator
-/

set_option autoImplicit false

namespace Leonard

open Matrix

noncomputable section

variable {S : Type} {N : ℕ}

theorem sum_order5 {m : ℕ} (f : Fin m → Fin m → Fin 4 → Fin 4 → Fin 4 → ℂ) :
    ∑ a, ∑ b, ∑ α, ∑ ρ, ∑ β, f a b α ρ β = ∑ α, ∑ β, ∑ a, ∑ ρ, ∑ b, f a b α ρ β := by
  calc ∑ a, ∑ b, ∑ α, ∑ ρ, ∑ β, f a b α ρ β
      = ∑ a, ∑ α, ∑ b, ∑ ρ, ∑ β, f a b α ρ β := Finset.sum_congr rfl fun a _ => Finset.sum_comm
    _ = ∑ α, ∑ a, ∑ b, ∑ ρ, ∑ β, f a b α ρ β := Finset.sum_comm
    _ = ∑ α, ∑ a, ∑ b, ∑ β, ∑ ρ, f a b α ρ β := Finset.sum_congr rfl fun α _ => Finset.sum_congr rfl fun a _ => Finset.sum_congr rfl fun b _ => Finset.sum_comm
    _ = ∑ α, ∑ a, ∑ β, ∑ b, ∑ ρ, f a b α ρ β := Finset.sum_congr rfl fun α _ => Finset.sum_congr rfl fun a _ => Finset.sum_comm
    _ = ∑ α, ∑ β, ∑ a, ∑ b, ∑ ρ, f a b α ρ β := Finset.sum_congr rfl fun α _ => Finset.sum_comm
    _ = _ := Finset.sum_congr rfl fun α _ => Finset.sum_congr rfl fun β _ => Finset.sum_congr rfl fun a _ => Finset.sum_comm

theorem sum_order4 {m : ℕ} [Fintype S] (f : Fin 4 → Fin 4 → Fin m → S → ℂ) : ∑ α, ∑ β, ∑ a, ∑ y, f α β a y = ∑ y, ∑ α, ∑ β, ∑ a, f α β a y := by
  calc ∑ α, ∑ β, ∑ a, ∑ y, f α β a y
      = ∑ α, ∑ β, ∑ y, ∑ a, f α β a y := Finset.sum_congr rfl fun α _ => Finset.sum_congr rfl fun β _ => Finset.sum_comm
    _ = ∑ α, ∑ y, ∑ β, ∑ a, f α β a y := Finset.sum_congr rfl fun α _ => Finset.sum_comm
    _ = _ := Finset.sum_comm

/-- **C78**: what is written for the source time `t0` and the distance `t`: minus a quarter of the real part of the sum over the sites `y` of the slice `t0`
and the sites `x` of the slice at distance `t` of the trace in spin of `σF(x) G̃(x,y) σF(y)`, with `σF = Σ_ij σ_ij F_ij` over the space directions and
`G̃` the Green function of the gluino smeared at both ends with the `levels`-th power of `0.9 (1 + ρ H)`, where `H` sums the links `Ls` in the space directions. -/
theorem C78_formula [Fintype S] [DecidableEq S] (T : Torus S) {κ : ℝ} {D : GField S (lieGenerators N).length → SField S (lieGenerators N).length → SField S (lieGenerators N).length}
    (hD : IsWilsonType T κ D) (V : GField S N) (L Ls : GField S (lieGenerators N).length) (rho : ℝ) (levels : ℕ)
    {solve : SField S (lieGenerators N).length → SField S (lieGenerators N).length} (hs : ∀ b, D L (solve b) = b)
    {G : S → S → Matrix (Fin 4 × Fin (lieGenerators N).length) (Fin 4 × Fin (lieGenerators N).length) ℂ} (hG : IsGreen (D L) G)
    {t0 t : ℕ} (ht0 : t0 < T.ext 3) (ht : t < T.ext 3) :
    let J := (((0.9 : ℝ) : ℂ) • (1 + (rho : ℂ) • spatialHop T Ls)) ^ levels
    let σF := fun (x : S) (a : Fin (lieGenerators N).length) => ∑ i : Fin 3, ∑ j : Fin 3, glueField T V x i.castSucc j.castSucc a • tabSigma i.castSucc j.castSucc
    gluinoCorrelator T V Ls rho levels solve t0 t = -(1 / 4) * (∑ x, ∑ y, if T.coord y 3 = t0 ∧ T.coord x 3 = (t0 + t) % T.ext 3 then
      ∑ a, ∑ b, trace (σF x a * (Matrix.of fun β ρ => (J * greenMatrix G * J) (x, β, a) (y, ρ, b)) * σF y b) else 0).re := by
  intro J σF
  obtain ⟨csw, hD'⟩ := hD.spec
  rw [hD'] at hs hG
  have hM := ((hasMatrix_smear T Ls rho levels).comp (hasMatrix_solve hs hG)).comp (hasMatrix_smear T Ls rho levels)
  rw [gluinoCorrelator_eq T V Ls rho levels (hasMatrix_solve hs hG)]
  have hslice : ∀ x, ((2 * T.ext 3 + T.coord x 3 - t0) % T.ext 3 = t) ↔ T.coord x 3 = (t0 + t) % T.ext 3 := by
    intro x
    have hx := T.coord_lt 3 x
    have e : 2 * T.ext 3 + T.coord x 3 - t0 = T.ext 3 + (T.ext 3 + T.coord x 3 - t0) := by omega
    rw [e, Nat.add_mod_left]
    rcases lt_or_ge (T.coord x 3) t0 with h | h
    · rw [Nat.mod_eq_of_lt (by omega)]
      rcases lt_or_ge (t0 + t) (T.ext 3) with h2 | h2
      · rw [Nat.mod_eq_of_lt h2]; omega
      · rw [Nat.mod_eq_sub_mod h2, Nat.mod_eq_of_lt (by omega)]; omega
    · rw [show T.ext 3 + T.coord x 3 - t0 = T.ext 3 + (T.coord x 3 - t0) by omega, Nat.add_mod_left, Nat.mod_eq_of_lt (by omega)]
      rcases lt_or_ge (t0 + t) (T.ext 3) with h2 | h2
      · rw [Nat.mod_eq_of_lt h2]; omega
      · rw [Nat.mod_eq_sub_mod h2, Nat.mod_eq_of_lt (by omega)]; omega
  simp only [hslice]
  have key : ∑ α, ∑ x, (if T.coord x 3 = (t0 + t) % T.ext 3 then
      ∑ β, ∑ a, (glueRow T V α x β a * smearDefault T Ls rho levels (solve (smearDefault T Ls rho levels (glueSource T V t0 α))) x β a).re else 0)
      = (∑ x, ∑ y, if T.coord y 3 = t0 ∧ T.coord x 3 = (t0 + t) % T.ext 3 then
      ∑ a, ∑ b, trace (σF x a * (Matrix.of fun β ρ => (J * greenMatrix G * J) (x, β, a) (y, ρ, b)) * σF y b) else 0).re := by
    rw [Finset.sum_comm, Complex.re_sum]
    refine Finset.sum_congr rfl fun x _ => ?_
    by_cases hx : T.coord x 3 = (t0 + t) % T.ext 3
    · simp only [hx, and_true, if_true]
      have hrow : ∀ α β a, glueRow T V α x β a = σF x a α β := by
        intro α β a
        simp only [glueRow, σF, Matrix.of_apply, Matrix.sum_apply, Matrix.smul_apply, smul_eq_mul]
        exact Finset.sum_congr rfl fun i _ => Finset.sum_congr rfl fun j _ => mul_comm _ _
      have hcol : ∀ α y ρ b, glueSource T V t0 α y ρ b = if T.coord y 3 = t0 then σF y b ρ α else 0 := by
        intro α y ρ b
        unfold glueSource
        split
        · simp only [glueColumn, σF, Matrix.of_apply, Matrix.sum_apply, Matrix.smul_apply, smul_eq_mul]
          exact Finset.sum_congr rfl fun i _ => Finset.sum_congr rfl fun j _ => mul_comm _ _
        · rfl
      have hψ : ∀ α β a, smearDefault T Ls rho levels (solve (smearDefault T Ls rho levels (glueSource T V t0 α))) x β a
          = ∑ y, ∑ ρ, ∑ b, (J * greenMatrix G * J) (x, β, a) (y, ρ, b) * if T.coord y 3 = t0 then σF y b ρ α else 0 := by
        intro α β a
        refine (hM (glueSource T V t0 α) x β a).trans ?_
        simp only [Fintype.sum_prod_type, hcol]
        rfl
      simp only [← Complex.re_sum, hψ, hrow]
      refine congrArg Complex.re ?_
      generalize J * greenMatrix G * J = K
      clear_value σF
      have hr : ∀ y, (if T.coord y 3 = t0 then ∑ a, ∑ b, trace (σF x a * (Matrix.of fun β ρ => K (x, β, a) (y, ρ, b)) * σF y b) else 0)
          = ∑ α, ∑ β, ∑ a, ∑ ρ, ∑ b, σF x a α β * (K (x, β, a) (y, ρ, b) * if T.coord y 3 = t0 then σF y b ρ α else 0) := by
        intro y
        split
        · simp only [Matrix.trace, Matrix.diag, Matrix.mul_apply, Finset.sum_mul, Matrix.of_apply]
          refine (sum_order5 _).trans ?_
          refine Finset.sum_congr rfl fun α _ => Finset.sum_congr rfl fun β _ => Finset.sum_congr rfl fun a _ => Finset.sum_congr rfl fun ρ _ =>
            Finset.sum_congr rfl fun b _ => ?_
          ring
        · simp
      simp only [hr, Finset.mul_sum]
      exact sum_order4 fun α β a y => ∑ ρ, ∑ b, σF x a α β * (K (x, β, a) (y, ρ, b) * if T.coord y 3 = t0 then σF y b ρ α else 0)
    · simp [hx]
  rw [key]
  ring

set_option maxHeartbeats 800000 in
/-- **C78**: gauge invariance. For unitary links, all gauge transformations, boundary conditions, levels of both smearings and times of the sources: the
measurement writes the same numbers, and the smearing fails for both or for none. -/
theorem C78_gauge [Fintype S] [DecidableEq S] (hN : 0 < N) (E : Mat N → Option (Mat N)) (hE : ExpCovariant E) (hE' : ExpGroup E) (T : Torus S) {κ : ℝ}
    {D : GField S (lieGenerators N).length → SField S (lieGenerators N).length → SField S (lieGenerators N).length} (hD : IsWilsonType T κ D)
    (bc : String) (stoutLevels : ℕ) (stoutRho rho : ℝ) (levels : ℕ)
    (solve : GField S (lieGenerators N).length → SField S (lieGenerators N).length → SField S (lieGenerators N).length)
    (U : GField S N) (hU : ∀ s μ, U s μ ∈ specialUnitaryGroup (Fin N) ℂ) {ω : S → Mat N} (hω : ∀ s, ω s ∈ unitaryGroup (Fin N) ℂ)
    (hs : ∀ W ∈ [U, gaugeTransform T ω U], ∀ b, D (fermionLinks (adjointRep N) T bc W) (solve (fermionLinks (adjointRep N) T bc W) b) = b) (starts : List ℕ) :
    gluinoExecute E T bc stoutLevels stoutRho rho levels solve (gaugeTransform T ω U) starts
      = gluinoExecute E T bc stoutLevels stoutRho rho levels solve U starts := by
  obtain ⟨csw, hD'⟩ := hD.spec
  have hUu : ∀ s μ, U s μ ∈ unitaryGroup (Fin N) ℂ := fun s μ => (mem_specialUnitaryGroup_iff.1 (hU s μ)).1
  have hL := fermionLinks_gauge T bc hω hUu
  have hs1 := hs U (by simp)
  have hs2 := hs (gaugeTransform T ω U) (by simp)
  rw [hL, hD'] at hs2
  rw [hD'] at hs1
  have hG := green_exists hs1
  have hM := hasMatrix_solve hs1 hG
  have hA := adjointRotation_unitary hω
  have hA' : ∀ s, adjointRotation ω s * (adjointRotation ω s)ᴴ = 1 := fun s => mul_eq_one_comm.1 (hA s)
  have hM2 := hasMatrix_solve hs2 (green_gauge hG hA)
  have hsol : ∀ b, solve (gaugeTransform T (adjointRotation ω) (fermionLinks (adjointRep N) T bc U)) (spinorTransform (adjointRotation ω) b)
      = spinorTransform (adjointRotation ω) (solve (fermionLinks (adjointRep N) T bc U) b) := by
    intro b
    refine improved_injective (fun b => ⟨_, hs2 b⟩) ?_
    rw [hs2, improved_gauge T _ _ hA hA', hs1]
  have hrun : ∀ (V : GField S N) (Ls : GField S (lieGenerators N).length),
      (starts.map fun t0 => (List.range (T.ext 3)).map (gluinoCorrelator T (gaugeTransform T ω V) (gaugeTransform T (adjointRotation ω) Ls) rho levels
        (solve (gaugeTransform T (adjointRotation ω) (fermionLinks (adjointRep N) T bc U))) t0))
      = starts.map fun t0 => (List.range (T.ext 3)).map (gluinoCorrelator T V Ls rho levels (solve (fermionLinks (adjointRep N) T bc U)) t0) := by
    intro V Ls
    refine List.map_congr_left fun t0 _ => List.map_congr_left fun t _ => ?_
    rw [gluinoCorrelator_eq T _ _ rho levels hM2, gluinoCorrelator_eq T _ _ rho levels hM]
    refine congrArg (fun z : ℝ => -z / 4) ?_
    refine Finset.sum_congr rfl fun α _ => Finset.sum_congr rfl fun x _ => ?_
    split
    · have hsrc : glueSource T (gaugeTransform T ω V) t0 α = spinorTransform (adjointRotation ω) (glueSource T V t0 α) := by
        funext y
        unfold glueSource
        rw [glueColumn_gauge T V hω]
        by_cases h : T.coord y 3 = t0 <;> simp [spinorTransform, h]
      rw [hsrc, smearDefault_gauge T Ls rho levels hA, hsol, smearDefault_gauge T Ls rho levels hA, glueRow_gauge T V hω]
      simp only [← Complex.re_sum]
      refine congrArg Complex.re ?_
      refine Finset.sum_congr rfl fun β _ => ?_
      generalize glueRow T V α = f
      generalize smearDefault T Ls rho levels (solve (fermionLinks (adjointRep N) T bc U) (smearDefault T Ls rho levels (glueSource T V t0 α))) = g
      simp only [spinorTransform, Matrix.mul_apply, transpose_apply, Finset.sum_mul, Finset.mul_sum]
      calc ∑ a, ∑ c, ∑ d, f x β d * adjointRotation ω x a d * (g x β c * adjointRotation ω x a c)
          = ∑ c, ∑ d, ∑ a, f x β d * adjointRotation ω x a d * (g x β c * adjointRotation ω x a c) := by
            rw [Finset.sum_comm]
            exact Finset.sum_congr rfl fun c _ => Finset.sum_comm
        _ = ∑ c, ∑ d, f x β d * g x β c * (if d = c then 1 else 0) := Finset.sum_congr rfl fun c _ => Finset.sum_congr rfl fun d _ => by
            rw [← adjointRotation_orthogonal hω x d c, Finset.mul_sum]
            exact Finset.sum_congr rfl fun a _ => by ring
        _ = _ := by simp
    · rfl
  unfold gluinoExecute
  simp only [hL]
  split
  · rw [(C27_covariant hN E hE T stoutRho stoutLevels U ω hω).2]
    rcases hV : spatialSmearing E T stoutRho stoutLevels U with _ | V
    · simp only [Option.map_none]
    · have hVu := C27_group_partial hN E hE' T stoutRho stoutLevels U V hU (Or.inr hV)
      have hlink : (fun s μ => (adjointRep N).link (gaugeTransform T ω V s μ)) = gaugeTransform T (adjointRotation ω) fun s μ => (adjointRep N).link (V s μ) := by
        funext s μ
        exact link_gauge T hω (mem_specialUnitaryGroup_iff.1 (hVu s μ)).1
      simp only [Option.map_some]
      rw [hlink]
      exact congrArg some (hrun V _)
  · exact congrArg some (hrun U _)

/-- **C78**: the number of sources. For `0 < n ≤ extT` the loop ends after the multiples of `⌊extT/n⌋` below `extT`, which are at least `n`, and `n` when
`n` divides `extT`; for `n = 0` there is one source. -/
theorem C78_sources {extT n : ℕ} (hT : 0 < extT) (hn : n ≤ extT) :
    ∃ fuel starts, gluinoStarts extT (gluinoDelta extT n) fuel 0 = some starts ∧ starts = (List.range ((extT + gluinoDelta extT n - 1) / gluinoDelta extT n)).map (· * gluinoDelta extT n)
      ∧ max n 1 ≤ starts.length ∧ (n ∣ extT → n ≠ 0 → starts.length = n) ∧ (n = 0 → starts = [0]) ∧ (∀ t ∈ starts, t < extT) := by
  set δ := gluinoDelta extT n with hδ
  have hpos : 0 < δ := by
    rw [hδ, gluinoDelta]
    split
    · rename_i h; exact Nat.div_pos hn h
    · exact hT
  have hloop : ∀ k fuel t0, extT ≤ t0 + k * δ → (∀ j < k, t0 + j * δ < extT) → k < fuel → gluinoStarts extT δ fuel t0 = some ((List.range k).map fun j => t0 + j * δ) := by
    intro k
    induction k with
    | zero =>
      intro fuel t0 h _ hf
      obtain ⟨f, rfl⟩ : ∃ f, fuel = f + 1 := ⟨fuel - 1, by omega⟩
      simp only [zero_mul, add_zero] at h
      simp [gluinoStarts, not_lt.2 h]
    | succ k ih =>
      intro fuel t0 h hj hf
      obtain ⟨f, rfl⟩ : ∃ f, fuel = f + 1 := ⟨fuel - 1, by omega⟩
      have h0 := hj 0 (by omega)
      rw [zero_mul, add_zero] at h0
      rw [gluinoStarts, if_pos h0, ih f (t0 + δ) (by rw [Nat.succ_mul] at h; omega) (fun j hjk => by
        have := hj (j + 1) (by omega)
        rw [Nat.succ_mul] at this
        omega) (by omega)]
      rw [List.range_succ_eq_map]
      simp only [Option.map_some, List.map_cons, List.map_map, zero_mul, add_zero]
      congr 2
      refine List.map_congr_left fun j _ => ?_
      simp only [Function.comp, Nat.succ_mul]
      omega
  set m := (extT + δ - 1) / δ with hm
  have hm1 : extT ≤ m * δ := by
    have := Nat.div_add_mod (extT + δ - 1) δ
    have h2 := Nat.mod_lt (extT + δ - 1) hpos
    rw [← hm, mul_comm] at this
    omega
  have hm2 : ∀ j < m, j * δ < extT := by
    intro j hj
    have h1 : (j + 1) * δ ≤ m * δ := Nat.mul_le_mul_right _ hj
    have h2 : m * δ ≤ extT + δ - 1 := Nat.div_mul_le_self _ _
    rw [Nat.succ_mul] at h1
    omega
  refine ⟨m + 1, (List.range m).map (· * δ), ?_, rfl, ?_, ?_, ?_, ?_⟩
  · rw [hloop m (m + 1) 0 (by omega) (fun j hj => by rw [zero_add]; exact hm2 j hj) (by omega)]
    simp
  · rw [List.length_map, List.length_range, max_le_iff]
    have hn' : n * δ ≤ extT := by
      rw [hδ, gluinoDelta]
      split
      · exact Nat.mul_div_le _ _
      · rename_i h; simp [Nat.eq_zero_of_not_pos h]
    constructor
    · by_contra h
      have h1 : (m + 1) * δ ≤ n * δ := Nat.mul_le_mul_right _ (by omega)
      rw [Nat.succ_mul] at h1
      omega
    · by_contra h
      have : m = 0 := Nat.lt_one_iff.1 (not_le.1 h)
      rw [this, zero_mul] at hm1
      omega
  · intro hd h0
    rw [List.length_map, List.length_range]
    obtain ⟨q, rfl⟩ := hd
    have : δ = q := by rw [hδ, gluinoDelta, if_pos (by omega), Nat.mul_div_cancel_left _ (by omega)]
    rw [this] at hm hpos hm1 hm2
    refine le_antisymm ?_ (Nat.le_of_mul_le_mul_right hm1 hpos)
    by_contra h
    have := hm2 n (by omega)
    exact lt_irrefl _ this
  · intro h0
    have : δ = extT := by rw [hδ, gluinoDelta, if_neg (by omega)]
    have hm' : m = 1 := by
      rw [hm, this, Nat.div_eq_iff hT]; omega
    rw [hm']; simp
  · intro t ht
    rw [List.mem_map] at ht
    obtain ⟨j, hj, rfl⟩ := ht
    exact hm2 j (List.mem_range.1 hj)

/-- **C78**: with more sources than time slices the loop never ends; and there can be more sources than asked for: with 8 time slices and 3 sources
there are 4, with 5 sources there are 8. -/
theorem C78_sources_counterexample : (∀ extT n : ℕ, 0 < extT → extT < n → ∀ fuel, gluinoStarts extT (gluinoDelta extT n) fuel 0 = none)
    ∧ gluinoStarts 8 (gluinoDelta 8 3) 9 0 = some [0, 2, 4, 6] ∧ gluinoStarts 8 (gluinoDelta 8 5) 9 0 = some [0, 1, 2, 3, 4, 5, 6, 7] := by
  refine ⟨fun extT n h1 h2 fuel => ?_, by decide, by decide⟩
  have hδ : gluinoDelta extT n = 0 := by rw [gluinoDelta, if_pos (by omega), Nat.div_eq_of_lt h2]
  rw [hδ]
  induction fuel with
  | zero => rfl
  | succ f ih => rw [gluinoStarts, if_pos h1, ih]; rfl

end

end Leonard
