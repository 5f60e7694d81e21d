/-
Lemmas for C35.
-/
import Verif.Dirac.EvenOddSpec
import Verif.Dirac.HermLemmas

set_option autoImplicit false

namespace Leonard

open Matrix

variable {S : Type} {N : ℕ}

/-! ### Parity -/

theorem siteParity_lt (T : Torus S) (x : S) : siteParity T x < 2 := Nat.mod_lt _ (by decide)

theorem siteParity_sup (T : Torus S) (h : EvenExtents T) (μ : Fin 4) (x : S) :
    siteParity T (T.sup μ x) = 1 - siteParity T x := by
  have hm : T.coord (T.sup μ x) μ % 2 = (T.coord x μ + 1) % 2 := by
    rw [T.coord_sup]; exact Nat.mod_mod_of_dvd _ (Nat.dvd_of_mod_eq_zero (h μ))
  have hn : ∀ ν, μ ≠ ν → T.coord (T.sup μ x) ν = T.coord x ν := fun ν hν => T.coord_sup_ne μ ν x hν
  unfold siteParity
  fin_cases μ
  · have := hn 1 (by decide); have := hn 2 (by decide); have := hn 3 (by decide)
    simp only [Fin.zero_eta, Fin.mk_one, Fin.reduceFinMk] at *; omega
  · have := hn 0 (by decide); have := hn 2 (by decide); have := hn 3 (by decide)
    simp only [Fin.zero_eta, Fin.mk_one, Fin.reduceFinMk] at *; omega
  · have := hn 0 (by decide); have := hn 1 (by decide); have := hn 3 (by decide)
    simp only [Fin.zero_eta, Fin.mk_one, Fin.reduceFinMk] at *; omega
  · have := hn 0 (by decide); have := hn 1 (by decide); have := hn 2 (by decide)
    simp only [Fin.zero_eta, Fin.mk_one, Fin.reduceFinMk] at *; omega

theorem siteParity_sdn (T : Torus S) (h : EvenExtents T) (μ : Fin 4) (x : S) :
    siteParity T (T.sdn μ x) = 1 - siteParity T x := by
  have := siteParity_sup T h μ (T.sdn μ x)
  rw [T.sup_sdn] at this
  have := siteParity_lt T (T.sdn μ x)
  omega

/-! ### The hopping term -/

theorem eoSite_eq (T : Torus S) (U : GField S N) (κ : ℝ) (part : ℕ) (v : SField S N) (x : S)
    (h : siteParity T x = part) : eoSite T U κ part v x = -((κ : ℂ) • hoppingSpec T U v x) := by
  rw [eoSite, if_pos h]
  ext c i
  simp only [Matrix.of_apply, mulVec_rowMul]
  have hb := basicOut_eq T κ false v x i (fun mu => U x mu) (fun mu => (U (T.sdn mu x) mu)ᴴ) (hoppingSpec T U v x) rfl c
  simp only [Bool.false_eq_true, if_false, Matrix.sub_apply] at hb
  rw [Matrix.neg_apply, show -((κ : ℂ) • hoppingSpec T U v x) c i = (v x c i - ((κ : ℂ) • hoppingSpec T U v x) c i) - v x c i by
    ring, ← hb]
  generalize (fun mu nu n => rowMul (U x mu) (projUp T v x mu nu) n + rowMul (U (T.sdn mu x) mu)ᴴ (projDn T v x mu nu) n) = tp
  generalize (fun mu nu n => rowMul (U x mu) (projUp T v x mu nu) n - rowMul (U (T.sdn mu x) mu)ᴴ (projDn T v x mu nu) n) = tm
  fin_cases c <;> apply Complex.ext <;> simp [eoOut, basicOut]

theorem hopping_congr (T : Torus S) (U : GField S N) (v w : SField S N) (x : S)
    (h1 : ∀ μ, v (T.sup μ x) = w (T.sup μ x)) (h2 : ∀ μ, v (T.sdn μ x) = w (T.sdn μ x)) :
    hoppingSpec T U v x = hoppingSpec T U w x := by
  simp only [hoppingSpec, h1, h2]

theorem hopping_parity (T : Torus S) (hT : EvenExtents T) (U : GField S N) (v w : SField S N) (p : ℕ) (x : S)
    (hx : siteParity T x = p) (h : ∀ y, siteParity T y = 1 - p → v y = w y) :
    hoppingSpec T U v x = hoppingSpec T U w x :=
  hopping_congr T U v w x (fun μ => h _ (by rw [siteParity_sup T hT, hx])) (fun μ => h _ (by rw [siteParity_sdn T hT, hx]))

/-- Visiting the sites one after the other in any order gives the same as all at once. -/
theorem eoHopInPlace_eq [DecidableEq S] (T : Torus S) (hT : EvenExtents T) (U : GField S N) (κ : ℝ) (part : ℕ)
    (hp : part < 2) (order : List S) (hall : ∀ x, x ∈ order) (hnd : order.Nodup) (v : SField S N) :
    eoHopInPlace T U κ part order v = eoHop T U κ part v := by
  have key : ∀ (l : List S), l.Nodup → ∀ (o : SField S N), (∀ y, siteParity T y ≠ part → o y = v y) →
      ∀ x, (l.foldl (fun o x => Function.update o x (eoSite T U κ part o x)) o) x =
        if x ∈ l then eoSite T U κ part v x else o x := by
    intro l
    induction l with
    | nil => intro _ o _ x; simp
    | cons a l ih =>
      intro hl o ho x
      rw [List.nodup_cons] at hl
      have ea : eoSite T U κ part o a = eoSite T U κ part v a := by
        by_cases ha : siteParity T a = part
        · rw [eoSite_eq _ _ _ _ _ _ ha, eoSite_eq _ _ _ _ _ _ ha,
            hopping_parity T hT U o v part a ha (fun y hy => ho y (by omega))]
        · rw [eoSite, eoSite, if_neg ha, if_neg ha, ho a ha]
      rw [List.foldl_cons, ih hl.2 _ ?_ x]
      · by_cases hx : x = a
        · subst hx
          rw [if_neg hl.1, if_pos List.mem_cons_self, Function.update_self, ea]
        · by_cases hxl : x ∈ l
          · rw [if_pos hxl, if_pos (List.mem_cons_of_mem _ hxl)]
          · rw [if_neg hxl, if_neg (by simp [hx, hxl]), Function.update_of_ne hx]
      · intro y hy
        by_cases hya : y = a
        · subst hya
          rw [Function.update_self, eoSite, if_neg hy, ho y hy]
        · rw [Function.update_of_ne hya, ho y hy]
  funext x
  unfold eoHopInPlace eoHop
  rw [key order hnd v (fun _ _ => rfl) x, if_pos (hall x)]

/-! ### The site-diagonal part -/

theorem improvedSpec_diag (T : Torus S) (U : GField S N) (κ csw : ℝ) (v : SField S N) (x : S) :
    improvedSpec T U κ csw v x = diagSite T U κ csw x (v x) - (κ : ℂ) • hoppingSpec T U v x := by
  simp only [improvedSpec, wilsonSpec, diagSite]; abel

theorem cloverTerm_diag (T : Torus S) (U : GField S N) (κ csw : ℝ) (x : S) (w : Matrix (Fin 4) (Fin N) ℂ) (c : Fin 4)
    (n : Fin N) :
    diagSite T U κ csw x w c n = w c n + (κ * csw : ℂ) *
      ![cloverTerm (fieldStrength T U x) w 0 n, cloverTerm (fieldStrength T U x) w 1 n,
        -cloverTerm (fieldStrength T U x) w 2 n, -cloverTerm (fieldStrength T U x) w 3 n] c := by
  have hF : fieldStrength T U x = fun k => cloverF T U (planeOf k).1 (planeOf k).2 x := by
    funext k; exact fieldStrength_eq T U k x
  simp only [diagSite, hF, cloverTerm_eq (fun μ ν => cloverF T U μ ν x) w, gamma5_apply, Matrix.add_apply, Matrix.smul_apply,
    smul_eq_mul, Complex.ofReal_mul]
  generalize (∑ μ, ∑ ν, if μ < ν then Complex.I • (tabSigma μ ν * (w * (cloverF T U μ ν x)ᵀ)) else 0 :
      Matrix (Fin 4) (Fin N) ℂ) = Q
  fin_cases c <;> simp

/-- The row of spin `α` and colour `i`. -/
def cIdx (α : Fin 4) (i : Fin 3) : Fin (4 * 3) := ⟨3 * α.val + i.val, by omega⟩

theorem cIdx_inj (α β : Fin 4) (i j : Fin 3) : cIdx α i = cIdx β j ↔ α = β ∧ i = j := by
  constructor
  · intro h
    have : 3 * α.val + i.val = 3 * β.val + j.val := congrArg Fin.val h
    constructor <;> apply Fin.ext <;> omega
  · rintro ⟨rfl, rfl⟩; rfl

theorem cIdx_sum (f : Fin (4 * 3) → ℂ) : ∑ p, f p = ∑ α, ∑ i, f (cIdx α i) := by
  rw [← Finset.sum_product', ← Equiv.sum_comp (finProdFinEquiv (m := 4) (n := 3))]
  refine Finset.sum_congr rfl fun a _ => congrArg f ?_
  apply Fin.ext
  simp [finProdFinEquiv, cIdx, add_comm]

theorem applyClover_three (M : Matrix (Fin (4 * 3)) (Fin (4 * 3)) ℂ) (v : Matrix (Fin 4) (Fin 3) ℂ) (α : Fin 4) (c : Fin 3) :
    applyClover M v α c = ∑ β, ∑ b, M (cIdx α c) (cIdx β b) * v β b := by
  simp only [applyClover, Matrix.of_apply]
  refine Finset.sum_congr rfl fun β _ => Finset.sum_congr rfl fun b _ => ?_
  rw [dif_pos ⟨by omega, by omega⟩]
  rfl

theorem applyClover_mul (A B : Matrix (Fin (4 * 3)) (Fin (4 * 3)) ℂ) (v : Matrix (Fin 4) (Fin 3) ℂ) :
    applyClover A (applyClover B v) = applyClover (A * B) v := by
  ext α c
  simp only [applyClover_three, Matrix.mul_apply, cIdx_sum]
  simp only [Finset.mul_sum, Finset.sum_mul]
  have : ∀ (f : Fin 4 → Fin 3 → Fin 4 → Fin 3 → ℂ), ∑ β, ∑ b, ∑ γ, ∑ d, f β b γ d = ∑ γ, ∑ d, ∑ β, ∑ b, f β b γ d := by
    intro f
    calc ∑ β, ∑ b, ∑ γ, ∑ d, f β b γ d = ∑ β, ∑ γ, ∑ b, ∑ d, f β b γ d :=
          Finset.sum_congr rfl fun _ _ => Finset.sum_comm
      _ = ∑ γ, ∑ β, ∑ b, ∑ d, f β b γ d := Finset.sum_comm
      _ = ∑ γ, ∑ β, ∑ d, ∑ b, f β b γ d :=
          Finset.sum_congr rfl fun _ _ => Finset.sum_congr rfl fun _ _ => Finset.sum_comm
      _ = _ := Finset.sum_congr rfl fun _ _ => Finset.sum_comm
  rw [this]
  refine Finset.sum_congr rfl fun _ _ => Finset.sum_congr rfl fun _ _ => Finset.sum_congr rfl fun _ _ =>
    Finset.sum_congr rfl fun _ _ => by ring

theorem applyClover_one (v : Matrix (Fin 4) (Fin 3) ℂ) : applyClover 1 v = v := by
  ext α c
  simp only [applyClover_three, Matrix.one_apply, cIdx_inj]
  rw [Finset.sum_eq_single α, Finset.sum_eq_single c]
  · simp
  · intro b _ hb; simp [hb.symm]
  · simp
  · intro β _ hβ; simp [hβ.symm]
  · simp

theorem cloverMatrix_apply (κ csw : ℝ) (F : Fin 6 → Mat 3) (α β : Fin 4) (i j : Fin 3) :
    cloverMatrix κ csw F (cIdx α i) (cIdx β j) = (if α = β ∧ i = j then 1 else 0) + cloverCoef κ csw F α β i j := by
  simp only [cloverMatrix, Matrix.of_apply, Matrix.one_apply, cIdx_inj]
  congr 1
  have e : ∀ (γ : Fin 4) (k : Fin 3) (δ : Fin 4) (l : Fin 3),
      (3 * γ.val + k.val = (cIdx α i).val ∧ 3 * δ.val + l.val = (cIdx β j).val) ↔ (γ = α ∧ k = i) ∧ (δ = β ∧ l = j) :=
    fun γ k δ l => by
      rw [← cIdx_inj, ← cIdx_inj, Fin.ext_iff, Fin.ext_iff]; rfl
  simp only [e]
  rw [Finset.sum_eq_single α, Finset.sum_eq_single i, Finset.sum_eq_single β, Finset.sum_eq_single j]
  · simp
  · intro b _ hb; simp [hb]
  · simp
  · intro b _ hb; simp [hb]
  · simp
  · intro b _ hb; simp [hb]
  · simp
  · intro b _ hb; simp [hb]
  · simp

theorem applyClover_diag (T : Torus S) (U : GField S 3) (κ csw : ℝ) (x : S) (w : Matrix (Fin 4) (Fin 3) ℂ) :
    applyClover (cloverMatrix κ csw (fieldStrength T U x)) w = diagSite T U κ csw x w := by
  ext α c
  rw [cloverTerm_diag, applyClover_three]
  simp only [cloverMatrix_apply, add_mul, Finset.sum_add_distrib]
  congr 1
  · rw [Finset.sum_eq_single α, Finset.sum_eq_single c]
    · simp
    · intro b _ hb; simp [hb.symm]
    · simp
    · intro β _ hβ; simp [hβ.symm]
    · simp
  · generalize fieldStrength T U x = F
    fin_cases α <;>
      simp [cloverCoef, cloverTerm, Fin.sum_univ_four, mulI_eq, Finset.mul_sum, mul_add, ← Finset.sum_add_distrib,
        ← Finset.sum_neg_distrib] <;>
      refine Finset.sum_congr rfl fun j _ => ?_ <;> ring

end Leonard
