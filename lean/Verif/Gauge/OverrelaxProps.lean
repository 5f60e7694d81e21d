import Verif.Gauge.UpdatesProps
import Verif.Gauge.CheckerboardProps

/-!
# C24 Overrelaxation, C25 Reunitarisation
-/

set_option autoImplicit false

namespace Leonard

open Matrix ComplexConjugate

/-! ## C24 Overrelaxation preserves the energy and undoes itself -/

theorem overrelax2_trace (U S : Mat 2) (hS : IsQuat S) : (trace (overrelax2 U S * S)).re = (trace (U * S)).re := by
  unfold overrelax2
  simp only [hS.norm_det]
  split
  · rename_i h
    have h0 : (quatNorm S : ℂ) ≠ 0 := by
      intro e
      have e' : quatNorm S = 0 := by exact_mod_cast e
      rw [e'] at h; norm_num at h
    rw [Matrix.smul_mul, Matrix.mul_assoc, hS.conjTranspose_mul, Matrix.mul_smul, Matrix.mul_one, smul_smul]
    have : ((1 / quatNorm S : ℝ) : ℂ) * (quatNorm S : ℂ) = 1 := by push_cast; field_simp
    rw [this, one_smul, ← conjTranspose_mul, trace_conjTranspose]
    simp
  · rfl

theorem overrelax2_twice (U S : Mat 2) (hS : IsQuat S) : overrelax2 (overrelax2 U S) S = U := by
  unfold overrelax2
  simp only [hS.norm_det]
  split
  · rename_i h
    have h0 : (quatNorm S : ℂ) ≠ 0 := by
      intro e
      have e' : quatNorm S = 0 := by exact_mod_cast e
      rw [e'] at h; norm_num at h
    rw [conjTranspose_smul, conjTranspose_mul, conjTranspose_mul, conjTranspose_conjTranspose, conjTranspose_conjTranspose,
      Complex.star_def, Complex.conj_ofReal]
    have e : Sᴴ * (S * (U * S)) * Sᴴ = (quatNorm S * quatNorm S : ℂ) • U := by
      calc Sᴴ * (S * (U * S)) * Sᴴ = (Sᴴ * S) * U * (S * Sᴴ) := by simp only [Matrix.mul_assoc]
        _ = _ := by
          rw [hS.conjTranspose_mul, hS.mul_conjTranspose, Matrix.smul_mul, Matrix.mul_smul, Matrix.one_mul, Matrix.mul_one,
            smul_smul]
    rw [Matrix.mul_smul, Matrix.smul_mul, smul_smul, e, smul_smul]
    have : ((1 / quatNorm S : ℝ) : ℂ) * ((1 / quatNorm S : ℝ) : ℂ) * (quatNorm S * quatNorm S : ℂ) = 1 := by
      push_cast; field_simp
    rw [this, one_smul]
  · rfl

/-- **C24**, two colours: one link update leaves the gauge energy of the whole configuration as it was, and applying it twice
gives back the link. Both actions. -/
theorem C24_two_colours {S : Type} [Fintype S] [DecidableEq S] (T : Torus S) (U : GField S 2)
    (hU : ∀ s μ, U s μ ∈ specialUnitaryGroup (Fin 2) ℂ) (s : S) (μ : Fin 4) (β u0 : ℝ) :
    ((∀ μ, 2 ≤ T.ext μ) →
      wilsonEnergy β T (setLink U s μ (overrelax2 (U s μ) (wilsonStaple T U s μ))) = wilsonEnergy β T U)
    ∧ ((∀ μ, 3 ≤ T.ext μ) →
      improvedEnergy u0 β T (setLink U s μ (overrelax2 (U s μ) (improvedStaple u0 T U s μ))) = improvedEnergy u0 β T U)
    ∧ overrelax2 (overrelax2 (U s μ) (wilsonStaple T U s μ)) (wilsonStaple T U s μ) = U s μ
    ∧ overrelax2 (overrelax2 (U s μ) (improvedStaple u0 T U s μ)) (improvedStaple u0 T U s μ) = U s μ := by
  have hq : ∀ s μ, IsQuat (U s μ) := fun s μ => (IsQuat.of_su2 (hU s μ)).1
  have h1 := isQuat_wilsonStaple T U hq s μ
  have h2 := isQuat_improvedStaple u0 T U hq s μ
  refine ⟨fun hT => ?_, fun hT => ?_, overrelax2_twice _ _ h1, overrelax2_twice _ _ h2⟩
  · rw [← sub_eq_zero, C20_wilson T hT, deltaAction, overrelax2_trace _ _ h1]
    ring
  · rw [← sub_eq_zero, C20_improved T hT, deltaAction, overrelax2_trace _ _ h2]
    ring

/-- **C24**, two colours, sweeps: updating any list of links, in particular a whole sweep, leaves the energy as it was. -/
theorem C24_two_colours_sweep {S : Type} [Fintype S] [DecidableEq S] (T : Torus S) (hT : ∀ μ, 2 ≤ T.ext μ) (U : GField S 2)
    (hU : ∀ s μ, U s μ ∈ specialUnitaryGroup (Fin 2) ℂ) (β : ℝ) (links : List (S × Fin 4)) :
    let new := links.foldl (fun W l => setLink W l.1 l.2 (overrelax2 (W l.1 l.2) (wilsonStaple T W l.1 l.2))) U
    wilsonEnergy β T new = wilsonEnergy β T U ∧ ∀ s μ, new s μ ∈ specialUnitaryGroup (Fin 2) ℂ := by
  induction links generalizing U with
  | nil => exact ⟨rfl, hU⟩
  | cons l ls ih =>
    have hnew : ∀ s μ, setLink U l.1 l.2 (overrelax2 (U l.1 l.2) (wilsonStaple T U l.1 l.2)) s μ
        ∈ specialUnitaryGroup (Fin 2) ℂ := by
      intro s μ
      by_cases h : s = l.1 ∧ μ = l.2
      · obtain ⟨rfl, rfl⟩ := h
        rw [setLink, if_pos ⟨rfl, rfl⟩]
        exact ((C23_overrelaxation T).1 U hU _ _ 1).1
      · rw [setLink, if_neg h]; exact hU s μ
    obtain ⟨a, b⟩ := ih _ hnew
    refine ⟨?_, b⟩
    simp only [List.foldl_cons]
    exact a.trans ((C24_two_colours T U hU l.1 l.2 β 1).1 hT)

/-- **C24**, more than two colours: the proposal undoes itself, and the link moves only if the energy does not grow or with the
probability `exp(-ΔE)`. What is missing: the energy changes (`C24_counterexample`). -/
theorem C24_more_colours_partial {N : ℕ} (hN : 0 < N) (Q U : Mat N) (hQ : Q ∈ unitaryGroup (Fin N) ℂ) (delta ξ : ℝ) :
    overrelaxTrial Q (overrelaxTrial Q U) = U
    ∧ (overrelaxN Q U delta ξ = overrelaxTrial Q U ∨ overrelaxN Q U delta ξ = U)
    ∧ (overrelaxN Q U delta ξ ≠ U → delta < 0 ∨ ξ < Real.exp (-delta)) := by
  have hs := (mem_specialUnitaryGroup_iff.1 (scaleFirstRow_mem Q hQ hN)).1
  have e1 := mem_unitaryGroup_iff.1 hs
  have e2 := mem_unitaryGroup_iff'.1 hs
  rw [Matrix.star_eq_conjTranspose] at e1 e2
  refine ⟨?_, ?_, ?_⟩
  · unfold overrelaxTrial
    simp only
    generalize scaleFirstRow (conj Q.det) Q = A at *
    simp only [conjTranspose_mul, conjTranspose_conjTranspose]
    calc Aᴴ * (A * (U * A)) * Aᴴ = (Aᴴ * A) * U * (A * Aᴴ) := by simp only [Matrix.mul_assoc]
      _ = U := by rw [e1, e2]; simp
  · unfold overrelaxN; split_ifs <;> simp
  · unfold overrelaxN; split_ifs <;> simp_all

/-- A cyclic permutation, which is in SU(3). -/
def cyc3 : Mat 3 := !![0, 0, 1; 1, 0, 0; 0, 1, 0]

/-- A diagonal sign matrix in SU(3). -/
def sgn3 : Mat 3 := !![-1, 0, 0; 0, -1, 0; 0, 0, 1]

/-- A rotation in SU(3). -/
noncomputable def rot3 : Mat 3 := !![3 / 5, 0, 4 / 5; 0, 1, 0; -(4 / 5), 0, 3 / 5]

theorem mem_su3_of {A : Mat 3} (h : A * Aᴴ = 1) (d : A.det = 1) : A ∈ specialUnitaryGroup (Fin 3) ℂ :=
  mem_specialUnitaryGroup_iff.2 ⟨mem_unitaryGroup_iff.2 h, d⟩

theorem rot3_conjTranspose : rot3ᴴ = !![3 / 5, 0, -(4 / 5); 0, 1, 0; 4 / 5, 0, 3 / 5] := by
  have h3 : (starRingEnd ℂ) 3 = 3 := map_ofNat _ 3
  have h4 : (starRingEnd ℂ) 4 = 4 := map_ofNat _ 4
  have h5 : (starRingEnd ℂ) 5 = 5 := map_ofNat _ 5
  ext i j
  fin_cases i <;> fin_cases j <;> simp [rot3, h3, h4, h5]

theorem cyc3_mem : cyc3 ∈ specialUnitaryGroup (Fin 3) ℂ := by
  refine mem_su3_of ?_ ?_
  · ext i j; fin_cases i <;> fin_cases j <;> simp [cyc3, Matrix.mul_apply, Fin.sum_univ_three]
  · simp [cyc3, Matrix.det_fin_three]

theorem sgn3_mem : sgn3 ∈ specialUnitaryGroup (Fin 3) ℂ := by
  refine mem_su3_of ?_ ?_
  · ext i j; fin_cases i <;> fin_cases j <;> simp [sgn3, Matrix.mul_apply, Fin.sum_univ_three]
  · simp [sgn3, Matrix.det_fin_three]

theorem rot3_mem : rot3 ∈ specialUnitaryGroup (Fin 3) ℂ := by
  refine mem_su3_of ?_ ?_
  · rw [rot3_conjTranspose]
    ext i j
    fin_cases i <;> fin_cases j <;>
      simp [rot3, Matrix.mul_apply, Fin.sum_univ_three] <;> norm_num
  · simp [rot3, Matrix.det_fin_three]; norm_num

/-- **C24 fails for more than two colours**: on every lattice there is a configuration of SU(3) links, with a staple that is its
own triangular factor (so the unitary factor is `1`), for which the overrelaxation step is always accepted and lowers the
energy, for every random number. -/
theorem C24_counterexample {S : Type} [Fintype S] [DecidableEq S] (T : Torus S) (hT : ∀ μ, 2 ≤ T.ext μ) (s : S) :
    ∃ U : GField S 3, (∀ s μ, U s μ ∈ specialUnitaryGroup (Fin 3) ℂ)
      ∧ (∃ R : Mat 3, (∀ i j, j < i → R i j = 0) ∧ wilsonStaple T U s 0 = 1 * R)
      ∧ ∀ β : ℝ, 0 < β → ∀ ξ : ℝ,
          wilsonEnergy β T (setLink U s 0 (overrelaxN 1 (U s 0)
            (deltaAction β U (overrelaxTrial 1 (U s 0)) (wilsonStaple T U s 0) s 0) ξ)) < wilsonEnergy β T U := by
  have hw : T.Wide 1 := fun μ => hT μ
  let U : GField S 3 := fun x ν =>
    if x = s ∧ ν = 0 then rot3 else if x = T.sup 0 s ∧ ν = 1 then cyc3 else if x = T.sup 0 s ∧ ν = 2 then cyc3 * sgn3 else 1
  have hmem : ∀ x ν, U x ν ∈ specialUnitaryGroup (Fin 3) ℂ := by
    intro x ν
    simp only [U]
    split_ifs
    · exact rot3_mem
    · exact cyc3_mem
    · exact mul_mem cyc3_mem sgn3_mem
    · exact one_mem _
  have a1 : T.sup 0 s ≠ s := T.sup_ne (le_refl 1) hw 0 s
  have a2 : ∀ ν, T.sup ν s ≠ s := fun ν => T.sup_ne (le_refl 1) hw ν s
  have a3 : ∀ ν, T.sdn ν s ≠ s := fun ν h => T.sup_ne (le_refl 1) hw ν s ((T.sdn_eq_iff _ _ _).1 h).symm
  have a4 : ∀ ν, T.sup 0 (T.sdn ν s) ≠ T.sup 0 s := fun ν h => a3 ν ((T.sup 0).injective h)
  have a5 : ∀ ν, ν ≠ 0 → T.sdn ν s ≠ T.sup 0 s := by
    intro ν hν h
    exact T.sup_sup_ne_of_ne (le_refl 1) hw hν s ((T.sdn_eq_iff _ _ _).1 h).symm
  have hst : wilsonStaple T U s 0 = !![4, 0, 2; 0, 4, 0; 0, 0, 4] := by
    have up : ∀ ν, ν ≠ 0 → stapleUp T U s 0 ν = U (T.sup 0 s) ν := by
      intro ν hν
      have e1 : U (T.sup ν s) 0 = 1 := by simp [U, a2 ν]
      have e2 : U s ν = 1 := by simp [U, hν, a1.symm]
      simp [stapleUp, e1, e2]
    have dn : ∀ ν, ν ≠ 0 → stapleDown T U s 0 ν = 1 := by
      intro ν hν
      have e1 : U (T.sup 0 (T.sdn ν s)) ν = 1 := by simp [U, a4 ν, hν]
      have e2 : U (T.sdn ν s) 0 = 1 := by simp [U, a3 ν]
      have e3 : U (T.sdn ν s) ν = 1 := by simp [U, a3 ν, a5 ν hν]
      simp [stapleDown, e1, e2, e3]
    have u1 : U (T.sup 0 s) 1 = cyc3 := by simp [U]
    have u2 : U (T.sup 0 s) 2 = cyc3 * sgn3 := by simp [U]
    have u3 : U (T.sup 0 s) 3 = 1 := by simp [U]
    unfold wilsonStaple
    rw [Fin.sum_univ_four]
    simp only [up 1 (by decide), up 2 (by decide), up 3 (by decide), dn 1 (by decide), dn 2 (by decide), dn 3 (by decide),
      u1, u2, u3]
    ext i j
    fin_cases i <;> fin_cases j <;> simp [cyc3, sgn3, Matrix.mul_apply, Fin.sum_univ_three] <;> norm_num
  refine ⟨U, hmem, ⟨!![4, 0, 2; 0, 4, 0; 0, 0, 4], ?_, by rw [hst, Matrix.one_mul]⟩, fun β hβ ξ => ?_⟩
  · intro i j; fin_cases i <;> fin_cases j <;> simp
  · have hU0 : U s 0 = rot3 := by simp [U]
    have htr : overrelaxTrial 1 (U s 0) = rot3ᴴ := by
      have : scaleFirstRow (conj (1 : Mat 3).det) 1 = (1 : Mat 3) := by
        ext i j; simp [scaleFirstRow]
      unfold overrelaxTrial
      simp only
      rw [this, hU0]; simp
    have hd : deltaAction β U (overrelaxTrial 1 (U s 0)) (wilsonStaple T U s 0) s 0 = -(β / 3) * (16 / 5) := by
      rw [hst, htr, rot3_conjTranspose]
      unfold deltaAction
      rw [hU0]
      simp [rot3, Matrix.trace, Fin.sum_univ_three, Matrix.mul_apply, Matrix.sub_apply]
      ring
    have hneg : deltaAction β U (overrelaxTrial 1 (U s 0)) (wilsonStaple T U s 0) s 0 < 0 := by
      rw [hd]; nlinarith
    have : overrelaxN 1 (U s 0) (deltaAction β U (overrelaxTrial 1 (U s 0)) (wilsonStaple T U s 0) s 0) ξ
        = overrelaxTrial 1 (U s 0) := by
      unfold overrelaxN; rw [if_pos hneg]
    rw [this, ← sub_neg, C20_wilson T hT]
    exact hneg

/-! ## C25 Reunitarisation -/

/-- **C25**, two colours: links in SU(2) are left as they are. -/
theorem C25_two_colours_fixes (U : Mat 2) (hU : U ∈ specialUnitaryGroup (Fin 2) ℂ) : reunit2 U = some U := by
  obtain ⟨⟨q1, q2⟩, hn⟩ := IsQuat.of_su2 hU
  have e : (U 0 0).im * (U 0 0).im + (U 0 1).im * (U 0 1).im + (U 0 1).re * (U 0 1).re + (U 0 0).re * (U 0 0).re = 1 := by
    simp only [quatNorm, Complex.normSq_apply] at hn; linarith
  unfold reunit2
  simp only [e, Real.sqrt_one]
  rw [if_neg one_ne_zero]
  congr 1
  ext i j
  fin_cases i <;> fin_cases j <;> apply Complex.ext <;> simp [q1, q2]

/-- **C25**, two colours: from any matrix with a non-zero first row the result is in SU(2). -/
theorem C25_two_colours_group (U : Mat 2) (h : U 0 0 ≠ 0 ∨ U 0 1 ≠ 0) :
    ∃ V, reunit2 U = some V ∧ V ∈ specialUnitaryGroup (Fin 2) ℂ := by
  have hpos : 0 < (U 0 0).im * (U 0 0).im + (U 0 1).im * (U 0 1).im + (U 0 1).re * (U 0 1).re
      + (U 0 0).re * (U 0 0).re := by
    rcases h with h | h
    · have := Complex.normSq_pos.2 h
      rw [Complex.normSq_apply] at this
      nlinarith [mul_self_nonneg (U 0 1).im, mul_self_nonneg (U 0 1).re]
    · have := Complex.normSq_pos.2 h
      rw [Complex.normSq_apply] at this
      nlinarith [mul_self_nonneg (U 0 0).im, mul_self_nonneg (U 0 0).re]
  have hs := Real.sqrt_pos.2 hpos
  unfold reunit2
  simp only [if_neg hs.ne']
  refine ⟨_, rfl, IsQuat.mem_su2 ⟨?_, ?_⟩ ?_⟩
  · apply Complex.ext <;> simp
  · apply Complex.ext <;> simp
  · simp only [quatNorm, Matrix.of_apply, Matrix.cons_val', Matrix.cons_val_zero, Matrix.cons_val_one, Complex.normSq_mk]
    have h2 := Real.mul_self_sqrt hpos.le
    generalize Real.sqrt _ = r at *
    field_simp
    nlinarith

theorem foldl_projectOut {N : ℕ} (i : Fin N) (W : Mat N) (js : List (Fin N))
    (h : ∀ j ∈ js, ∑ k, conj (W j k) * W i k = 0) : js.foldl (projectOut i) W = W := by
  induction js with
  | nil => rfl
  | cons j js ih =>
    have e : projectOut i W j = W := by
      ext r k
      simp only [projectOut]
      rw [h j (List.mem_cons_self ..)]
      split
      · rename_i hr; rw [hr]; ring
      · rfl
    rw [List.foldl_cons, e]
    exact ih fun j' hj' => h j' (List.mem_cons_of_mem _ hj')

/-- Rows before `n` are those of `U` divided by `c`, the others multiplied by `c`. -/
noncomputable def halfScaled {N : ℕ} (c : ℝ) (U : Mat N) (n : ℕ) : Mat N :=
  fun r k => if r.val < n then U r k / (c : ℂ) else (c : ℂ) * U r k

theorem rows_orthonormal {N : ℕ} {U : Mat N} (hU : U ∈ unitaryGroup (Fin N) ℂ) (i j : Fin N) :
    ∑ k, conj (U j k) * U i k = if i = j then 1 else 0 := by
  have := congrFun (congrFun (mem_unitaryGroup_iff.1 hU) i) j
  rw [Matrix.mul_apply, Matrix.one_apply] at this
  rw [← this]
  exact Finset.sum_congr rfl fun k _ => by rw [Matrix.star_apply, mul_comm]; rfl

theorem reunitRow_halfScaled {N : ℕ} (c : ℝ) (hc : 0 < c) (U : Mat N) (hU : U ∈ unitaryGroup (Fin N) ℂ) (i : Fin N) :
    reunitRow (halfScaled c U i.val) i = some (halfScaled c U (i.val + 1)) := by
  have hc' : (c : ℂ) ≠ 0 := by exact_mod_cast hc.ne'
  unfold reunitRow
  rw [foldl_projectOut]
  · have hn : ∑ k, conj (halfScaled c U i.val i k) * halfScaled c U i.val i k = ((c ^ 2 : ℝ) : ℂ) := by
      have := rows_orthonormal hU i i
      rw [if_pos rfl] at this
      simp only [halfScaled, lt_irrefl, if_false, map_mul, Complex.conj_ofReal]
      rw [← mul_one ((c ^ 2 : ℝ) : ℂ), ← this, Finset.mul_sum]
      refine Finset.sum_congr rfl fun k _ => ?_
      push_cast; ring
    unfold scaleRow
    simp only [hn]
    have hne : ‖((c ^ 2 : ℝ) : ℂ)‖ = c ^ 2 := by
      rw [Complex.norm_real]; exact abs_of_pos (by positivity)
    rw [hne, if_neg (by positivity)]
    congr 1
    ext r k
    simp only [halfScaled]
    by_cases hr : r = i
    · subst hr
      rw [if_pos rfl, if_neg (lt_irrefl _), if_pos (Nat.lt_succ_self _)]
      push_cast; field_simp
    · have hrv : r.val ≠ i.val := fun h => hr (Fin.ext h)
      rw [if_neg hr]
      by_cases hlt : r.val < i.val
      · rw [if_pos hlt, if_pos (by omega)]
      · rw [if_neg hlt, if_neg (by omega)]
  · intro j hj
    simp only [List.mem_filter, List.mem_finRange, true_and, decide_eq_true_eq] at hj
    have := rows_orthonormal hU i j
    rw [if_neg hj.ne'] at this
    simp only [halfScaled, lt_irrefl, if_false]
    have hjv : j.val < i.val := hj
    simp only [hjv, if_true, map_div₀, Complex.conj_ofReal]
    rw [← this]
    refine Finset.sum_congr rfl fun k _ => ?_
    field_simp

theorem foldlM_take_finRange {N : ℕ} {α : Type} (f : α → Fin N → Option α) (st : ℕ → α)
    (h : ∀ i : Fin N, f (st i.val) i = some (st (i.val + 1))) (n : ℕ) (hn : n ≤ N) :
    ((List.finRange N).take n).foldlM f (st 0) = some (st n) := by
  induction n with
  | zero => rfl
  | succ n ih =>
    rw [List.take_add_one, List.foldlM_append, ih (by omega)]
    have : (List.finRange N)[n]? = some ⟨n, by omega⟩ := by
      rw [List.getElem?_eq_getElem (by simpa using hn)]; simp
    rw [this]
    simp only [Option.toList_some, Option.bind_eq_bind, Option.bind_some, List.foldlM_cons, List.foldlM_nil]
    rw [h ⟨n, by omega⟩]
    rfl

/-- A link in SU(N) multiplied by a positive number `c` comes back divided by `c`. -/
theorem reunitN_scaled {N : ℕ} (c : ℝ) (hc : 0 < c) (U : Mat N) (hU : U ∈ specialUnitaryGroup (Fin N) ℂ) :
    reunitN ((c : ℂ) • U) = some ((c : ℂ)⁻¹ • U) := by
  have hc' : (c : ℂ) ≠ 0 := by exact_mod_cast hc.ne'
  obtain ⟨hu, hdet⟩ := mem_specialUnitaryGroup_iff.1 hU
  have h0 : (c : ℂ) • U = halfScaled c U 0 := by ext r k; simp [halfScaled]
  have hN : halfScaled c U N = (c : ℂ)⁻¹ • U := by
    ext r k
    simp [halfScaled, div_eq_inv_mul]
  have hf := foldlM_take_finRange reunitRow (halfScaled c U) (reunitRow_halfScaled c hc U hu) N (le_refl N)
  rw [List.take_of_length_le (by simp)] at hf
  unfold reunitN
  rw [h0, hf, Option.map_some, hN]
  congr 1
  have hd : ((c : ℂ)⁻¹ • U).det = (((c⁻¹) ^ N : ℝ) : ℂ) := by
    rw [Matrix.det_smul, hdet, Fintype.card_fin, mul_one]; push_cast; rfl
  have harg : ((c : ℂ)⁻¹ • U).det.arg = 0 := by
    rw [hd]; exact Complex.arg_ofReal_of_nonneg (by positivity)
  unfold fixPhase
  simp only [harg, Real.cos_zero, Real.sin_zero, neg_zero]
  ext r k
  split
  · have : (⟨1, 0⟩ : ℂ) = 1 := rfl
    rw [this, mul_one]
  · rfl

/-- **C25**, more than two colours: links in SU(N) are left as they are. What is missing: other matrices do not come back in
the group (`C25_counterexample`). -/
theorem C25_more_colours_fixes_partial {N : ℕ} (U : Mat N) (hU : U ∈ specialUnitaryGroup (Fin N) ℂ) : reunitN U = some U := by
  have := reunitN_scaled 1 one_pos U hU
  simpa using this

/-- **C25 fails for more than two colours**: a link that has drifted away from the group by a factor `c ≠ 1` comes back as far
away on the other side: it is divided by `c` once too often, and is not unitary. -/
theorem C25_counterexample {N : ℕ} (hN : 0 < N) (c : ℝ) (hc : 0 < c) (hc1 : c ≠ 1) (U : Mat N)
    (hU : U ∈ specialUnitaryGroup (Fin N) ℂ) :
    reunitN ((c : ℂ) • U) = some ((c : ℂ)⁻¹ • U) ∧ (c : ℂ)⁻¹ • U ∉ unitaryGroup (Fin N) ℂ := by
  refine ⟨reunitN_scaled c hc U hU, fun h => ?_⟩
  have hu := (mem_specialUnitaryGroup_iff.1 hU).1
  have h1 := mem_unitaryGroup_iff.1 h
  rw [star_smul, Matrix.smul_mul, Matrix.mul_smul, mem_unitaryGroup_iff.1 hu, smul_smul] at h1
  have h2 := congrFun (congrFun h1 ⟨0, hN⟩) ⟨0, hN⟩
  rw [Matrix.smul_apply, Matrix.one_apply_eq, smul_eq_mul, mul_one, ← Complex.ofReal_inv, Complex.star_def,
    Complex.conj_ofReal] at h2
  have h3 : c⁻¹ * c⁻¹ = 1 := by exact_mod_cast h2
  have hi : 0 < c⁻¹ := inv_pos.2 hc
  have h4 : c⁻¹ = 1 := by nlinarith
  exact hc1 (inv_eq_one.1 h4)

/-- The determinant after the phase of the last row is fixed. -/
theorem det_fixPhase {N : ℕ} (hN : 0 < N) (U : Mat N) : (fixPhase U).det = (‖U.det‖ : ℂ) := by
  obtain ⟨n, rfl⟩ := Nat.exists_eq_succ_of_ne_zero hN.ne'
  have e : fixPhase U = U.updateRow (Fin.last n)
      ((⟨Real.cos U.det.arg, -Real.sin U.det.arg⟩ : ℂ) • U (Fin.last n)) := by
    ext r k
    rw [Matrix.updateRow_apply]
    simp only [fixPhase, Pi.smul_apply, smul_eq_mul]
    by_cases h : r = Fin.last n
    · rw [if_pos h, if_pos (by rw [h]; rfl), h, mul_comm]
    · have h' : ¬ (r.val + 1 = n + 1) := fun h2 => h (Fin.ext (by simpa using h2))
      rw [if_neg h, if_neg h']
  rw [e, Matrix.det_updateRow_smul, Matrix.updateRow_eq_self]
  have hp : (⟨Real.cos U.det.arg, -Real.sin U.det.arg⟩ : ℂ) = Complex.exp (-(U.det.arg * Complex.I)) := by
    rw [← neg_mul, ← Complex.ofReal_neg, Complex.exp_mul_I, ← Complex.ofReal_cos, ← Complex.ofReal_sin]
    apply Complex.ext
    · simp only [Complex.add_re, Complex.mul_re, Complex.ofReal_re, Complex.ofReal_im, Complex.I_re, Complex.I_im, Real.cos_neg]
      ring
    · simp only [Complex.add_im, Complex.mul_im, Complex.ofReal_re, Complex.ofReal_im, Complex.I_re, Complex.I_im, Real.sin_neg]
      ring
  rw [hp]
  conv_lhs => rw [← Complex.norm_mul_exp_arg_mul_I U.det]
  rw [mul_left_comm, ← Complex.exp_add, Complex.norm_mul_exp_arg_mul_I, neg_add_cancel, Complex.exp_zero, mul_one]

/-- **C25**, more than two colours: whatever the link was, if reunitarisation succeeds the determinant of the result is real
and not negative, i.e. its phase has been removed. -/
theorem C25_determinant_partial {N : ℕ} (hN : 0 < N) (U V : Mat N) (h : reunitN U = some V) :
    ∃ r : ℝ, 0 ≤ r ∧ V.det = r := by
  unfold reunitN at h
  obtain ⟨W, _, rfl⟩ := Option.map_eq_some_iff.1 h
  exact ⟨_, norm_nonneg _, det_fixPhase hN W⟩

/-- **C25**, more than two colours: a unitary link whose determinant has drifted to any phase comes back in SU(N), with all
rows but the last unchanged. What is missing: links that are not unitary (`C25_counterexample`). -/
theorem C25_unitary_partial {N : ℕ} (hN : 0 < N) (U : Mat N) (hU : U ∈ unitaryGroup (Fin N) ℂ) :
    ∃ V, reunitN U = some V ∧ V ∈ specialUnitaryGroup (Fin N) ℂ ∧ ∀ r k, r.val + 1 < N → V r k = U r k := by
  have h0 : U = halfScaled 1 U 0 := by ext r k; simp [halfScaled]
  have hN' : halfScaled 1 U N = U := by ext r k; simp [halfScaled]
  have hf := foldlM_take_finRange reunitRow (halfScaled 1 U) (reunitRow_halfScaled 1 one_pos U hU) N (le_refl N)
  rw [List.take_of_length_le (by simp), ← h0, hN'] at hf
  have hdet : ‖U.det‖ = 1 := by
    have := congrArg (fun z : ℂ => ‖z‖) (congrArg Matrix.det (mem_unitaryGroup_iff.1 hU))
    rw [Matrix.det_mul, norm_mul, Matrix.det_one, norm_one, Matrix.star_eq_conjTranspose, Matrix.det_conjTranspose,
      norm_star] at this
    nlinarith [norm_nonneg U.det]
  refine ⟨fixPhase U, by rw [reunitN, hf]; rfl, ?_, fun r k hr => by simp [fixPhase, hr.ne]⟩
  rw [mem_specialUnitaryGroup_iff]
  refine ⟨?_, by rw [det_fixPhase hN, hdet]; simp⟩
  have hz : ∀ t : ℝ, (⟨Real.cos t, -Real.sin t⟩ : ℂ) * star (⟨Real.cos t, -Real.sin t⟩ : ℂ) = 1 := by
    intro t
    rw [Complex.star_def, Complex.mul_conj, Complex.normSq_apply]
    have := Real.sin_sq_add_cos_sq t
    rw [show Real.cos t * Real.cos t + -Real.sin t * -Real.sin t = 1 by nlinarith]
    simp
  have e : fixPhase U = Matrix.diagonal (fun r : Fin N => if r.val + 1 = N then
      (⟨Real.cos U.det.arg, -Real.sin U.det.arg⟩ : ℂ) else 1) * U := by
    ext r k
    rw [Matrix.diagonal_mul]
    simp only [fixPhase]
    split
    · rw [mul_comm]
    · rw [one_mul]
  rw [e]
  refine mul_mem ?_ hU
  rw [mem_unitaryGroup_iff, Matrix.star_eq_conjTranspose, Matrix.diagonal_conjTranspose, Matrix.diagonal_mul_diagonal,
    ← Matrix.diagonal_one]
  congr 1
  funext r
  rw [Pi.star_apply]
  split
  · exact hz _
  · simp

/-- A unitary link with determinant `-i`, to which `C25_unitary_partial` applies and `C25_more_colours_fixes_partial` does not. -/
example : (Complex.I • (1 : Mat 3)) ∈ unitaryGroup (Fin 3) ℂ ∧ (Complex.I • (1 : Mat 3)) ∉ specialUnitaryGroup (Fin 3) ℂ := by
  constructor
  · rw [mem_unitaryGroup_iff]
    simp [star_smul, smul_smul]
  · rw [mem_specialUnitaryGroup_iff]
    rintro ⟨_, h⟩
    rw [Matrix.det_smul, Matrix.det_one, mul_one, Fintype.card_fin, pow_succ, Complex.I_sq] at h
    have := congrArg Complex.re h
    simp at this

example : (1 : Mat 3) ∈ specialUnitaryGroup (Fin 3) ℂ ∧ rot3 ∈ specialUnitaryGroup (Fin 3) ℂ := ⟨one_mem _, rot3_mem⟩

end Leonard
