/-
Lemmas about block sums and block Gram-Schmidt.
-/
import Verif.Multigrid.Model
import Mathlib.Algebra.BigOperators.Ring.Finset
import Mathlib.Algebra.BigOperators.Group.Finset.Piecewise
import Mathlib.LinearAlgebra.LinearIndependent.Lemmas
import Mathlib.Tactic.Ring
import Mathlib.Tactic.Linarith

set_option autoImplicit false

namespace Leonard

noncomputable section

variable {P κ R B : Type} [Fintype P] [Fintype κ] [DecidableEq R] [DecidableEq B]

section
variable (blk : P → B)

theorem blockDot_eq (w v : P → κ → ℂ) (b : B) : blockDot blk w v b = ∑ p with blk p = b, ∑ k, starRingEnd ℂ (w p k) * v p k := by
  rw [Finset.sum_filter]; rfl

theorem blockDot_congr {w w' v v' : P → κ → ℂ} {b : B} (hw : ∀ p, blk p = b → w p = w' p) (hv : ∀ p, blk p = b → v p = v' p) :
    blockDot blk w v b = blockDot blk w' v' b := by
  refine Finset.sum_congr rfl fun p _ => ?_
  split
  · rename_i h
    rw [hw p h, hv p h]
  · rfl

theorem blockDot_sub (w v v' : P → κ → ℂ) (b : B) : blockDot blk w (fun p k => v p k - v' p k) b = blockDot blk w v b - blockDot blk w v' b := by
  simp only [blockDot_eq, mul_sub, Finset.sum_sub_distrib]

theorem blockDot_add (w v v' : P → κ → ℂ) (b : B) : blockDot blk w (fun p k => v p k + v' p k) b = blockDot blk w v b + blockDot blk w v' b := by
  simp only [blockDot_eq, mul_add, Finset.sum_add_distrib]

theorem blockDot_mul (w v : P → κ → ℂ) (c : B → ℂ) (b : B) : blockDot blk w (fun p k => c (blk p) * v p k) b = c b * blockDot blk w v b := by
  rw [blockDot_eq, blockDot_eq, Finset.mul_sum]
  refine Finset.sum_congr rfl fun p hp => ?_
  rw [Finset.mem_filter] at hp
  rw [hp.2, Finset.mul_sum]
  exact Finset.sum_congr rfl fun k _ => by ring

theorem blockDot_conj (w v : P → κ → ℂ) (b : B) : starRingEnd ℂ (blockDot blk w v b) = blockDot blk v w b := by
  simp only [blockDot_eq, map_sum, map_mul, Complex.conj_conj]
  exact Finset.sum_congr rfl fun p _ => Finset.sum_congr rfl fun k _ => mul_comm _ _

theorem blockDot_mul_left (w v : P → κ → ℂ) (c : B → ℂ) (b : B) :
    blockDot blk (fun p k => c (blk p) * w p k) v b = starRingEnd ℂ (c b) * blockDot blk w v b := by
  rw [← blockDot_conj, blockDot_mul, map_mul, blockDot_conj]

theorem blockDot_self (v : P → κ → ℂ) (b : B) : blockDot blk v v b = ((∑ p with blk p = b, ∑ k, Complex.normSq (v p k) : ℝ) : ℂ) := by
  rw [blockDot_eq]
  push_cast
  exact Finset.sum_congr rfl fun p _ => Finset.sum_congr rfl fun k _ => by rw [mul_comm, Complex.mul_conj]

theorem blockDot_self_re (v : P → κ → ℂ) (b : B) : ((blockDot blk v v b).re : ℂ) = blockDot blk v v b := by
  rw [blockDot_self, Complex.ofReal_re]

theorem blockDot_self_nonneg (v : P → κ → ℂ) (b : B) : 0 ≤ (blockDot blk v v b).re := by
  rw [blockDot_self, Complex.ofReal_re]
  exact Finset.sum_nonneg fun p _ => Finset.sum_nonneg fun k _ => Complex.normSq_nonneg _

theorem blockDot_self_zero (v : P → κ → ℂ) (b : B) : (blockDot blk v v b).re = 0 ↔ ∀ p, blk p = b → v p = 0 := by
  rw [blockDot_self, Complex.ofReal_re, Finset.sum_eq_zero_iff_of_nonneg fun p _ => Finset.sum_nonneg fun k _ => Complex.normSq_nonneg _]
  refine ⟨fun h p hp => ?_, fun h p hp => ?_⟩
  · have := h p (by simpa using hp)
    rw [Finset.sum_eq_zero_iff_of_nonneg fun k _ => Complex.normSq_nonneg _] at this
    funext k
    exact Complex.normSq_eq_zero.1 (this k (Finset.mem_univ _))
  · rw [h p (by simpa using hp)]
    simp

/-- A list of vectors that are orthonormal on every block that has sites. -/
def BlockOrtho (us : List (P → κ → ℂ)) : Prop :=
  us.Pairwise (fun a b => ∀ p, blockDot blk a b (blk p) = 0) ∧ ∀ u ∈ us, ∀ p, blockDot blk u u (blk p) = 1

/-- `v` is the sum of its projections on the vectors of the list, block by block. -/
def BlockSpan (us : List (P → κ → ℂ)) (v : P → κ → ℂ) : Prop :=
  ∀ p k, v p k = (us.map fun u => blockDot blk u v (blk p) * u p k).sum

theorem blockDot_symm_zero {a b : P → κ → ℂ} (h : ∀ p, blockDot blk a b (blk p) = 0) (p : P) : blockDot blk b a (blk p) = 0 := by
  rw [← blockDot_conj, h, map_zero]

theorem blockOrtho_append {us : List (P → κ → ℂ)} {u : P → κ → ℂ} (h : BlockOrtho blk us) (ho : ∀ w ∈ us, ∀ p, blockDot blk w u (blk p) = 0)
    (hu : ∀ p, blockDot blk u u (blk p) = 1) : BlockOrtho blk (us ++ [u]) := by
  refine ⟨List.pairwise_append.2 ⟨h.1, by simp, fun a ha b hb => ?_⟩, fun w hw => ?_⟩
  · rw [List.mem_singleton] at hb
    subst hb
    exact ho a ha
  · rw [List.mem_append, List.mem_singleton] at hw
    rcases hw with hw | hw
    · exact h.2 w hw
    · subst hw; exact hu

/-- The loop of projections in closed form. -/
theorem foldl_blockProject {us : List (P → κ → ℂ)} (h : us.Pairwise (fun a b => ∀ p, blockDot blk a b (blk p) = 0)) (v : P → κ → ℂ) :
    us.foldl (blockProject blk) v = fun p k => v p k - (us.map fun u => blockDot blk u v (blk p) * u p k).sum := by
  induction us generalizing v with
  | nil => simp
  | cons w us ih =>
    rw [List.pairwise_cons] at h
    rw [List.foldl_cons, ih h.2]
    funext p k
    rw [List.map_cons, List.sum_cons, ← sub_sub]
    have hm : (us.map fun u => blockDot blk u (blockProject blk v w) (blk p) * u p k) = us.map fun u => blockDot blk u v (blk p) * u p k := by
      refine List.map_congr_left fun u hu => ?_
      have := blockDot_sub blk u v (fun p k => blockDot blk w v (blk p) * w p k) (blk p)
      rw [show blockProject blk v w = fun p k => v p k - blockDot blk w v (blk p) * w p k from rfl, this,
        blockDot_mul blk u w (fun b => blockDot blk w v b) (blk p), blockDot_symm_zero blk (h.1 u hu), mul_zero, sub_zero]
    rw [hm]
    rfl

theorem blockDot_listSum (w : P → κ → ℂ) (us : List (P → κ → ℂ)) (c : (P → κ → ℂ) → B → ℂ) (b : B) :
    blockDot blk w (fun p k => (us.map fun u => c u (blk p) * u p k).sum) b = (us.map fun u => c u b * blockDot blk w u b).sum := by
  induction us with
  | nil => simp [blockDot]
  | cons u us ih =>
    simp only [List.map_cons, List.sum_cons]
    rw [blockDot_add, ih, blockDot_mul]

theorem sum_ortho {us : List (P → κ → ℂ)} (h : BlockOrtho blk us) (w : P → κ → ℂ) (hw : w ∈ us) (c : (P → κ → ℂ) → ℂ) (p : P) :
    (us.map fun u => c u * blockDot blk w u (blk p)).sum = c w := by
  induction us with
  | nil => simp at hw
  | cons u us ih =>
    have h1 := List.pairwise_cons.1 h.1
    rw [List.map_cons, List.sum_cons]
    have key : ∀ x, (∀ u ∈ us, blockDot blk x u (blk p) = 0) → (us.map fun u => c u * blockDot blk x u (blk p)).sum = 0 := by
      intro x hx
      refine List.sum_eq_zero fun y hy => ?_
      obtain ⟨u, hu, rfl⟩ := List.mem_map.1 hy
      rw [hx u hu, mul_zero]
    by_cases hwu : w ∈ us
    · rw [ih ⟨h1.2, fun u hu => h.2 u (List.mem_cons_of_mem _ hu)⟩ hwu, blockDot_symm_zero blk (h1.1 w hwu), mul_zero, zero_add]
    · obtain rfl : w = u := by
        rcases List.mem_cons.1 hw with h | h
        · exact h
        · exact absurd h hwu
      rw [h.2 w List.mem_cons_self, mul_one, key w (fun x hx => h1.1 x hx p), add_zero]

/-- After the loop of projections the vector is orthogonal to all vectors of the list. -/
theorem foldl_blockProject_ortho {us : List (P → κ → ℂ)} (h : BlockOrtho blk us) (v w : P → κ → ℂ) (hw : w ∈ us) (p : P) :
    blockDot blk w (us.foldl (blockProject blk) v) (blk p) = 0 := by
  rw [foldl_blockProject blk h.1, blockDot_sub, blockDot_listSum blk w us (fun u b => blockDot blk u v b), sum_ortho blk h w hw (fun u => blockDot blk u v (blk p)) p,
    sub_self]

theorem blockNormalize_some {v u : P → κ → ℂ} (h : blockNormalize blk v = some u) :
    (∀ p, 0 < (blockDot blk v v (blk p)).re) ∧ u = fun p k => ((Real.sqrt (blockDot blk v v (blk p)).re : ℝ) : ℂ)⁻¹ * v p k := by
  unfold blockNormalize at h
  split at h
  · simp at h
  · rename_i hn
    refine ⟨fun p => lt_of_le_of_ne (blockDot_self_nonneg blk v _) fun hz => hn ⟨p, hz.symm⟩, ?_⟩
    rw [← Option.some.inj h]
    funext p k
    rw [div_eq_inv_mul]

theorem blockNormalize_isSome (v : P → κ → ℂ) : (∃ u, blockNormalize blk v = some u) ↔ ∀ p, ∃ q, blk q = blk p ∧ v q ≠ 0 := by
  unfold blockNormalize
  split
  · rename_i h
    obtain ⟨p, hp⟩ := h
    simp only [reduceCtorEq, exists_false, false_iff, not_forall]
    refine ⟨p, ?_⟩
    rintro ⟨q, hq, hv⟩
    exact hv ((blockDot_self_zero blk v _).1 hp q hq)
  · rename_i h
    simp only [Option.some.injEq, exists_eq', true_iff]
    intro p
    by_contra hc
    push Not at hc
    exact h ⟨p, (blockDot_self_zero blk v _).2 hc⟩

theorem sqrt_inv_sq {x : ℝ} (hx : 0 < x) : ((Real.sqrt x : ℝ) : ℂ)⁻¹ * (((Real.sqrt x : ℝ) : ℂ)⁻¹ * (x : ℂ)) = 1 := by
  have h : ((Real.sqrt x : ℝ) : ℂ) ≠ 0 := by exact_mod_cast (Real.sqrt_pos.2 hx).ne'
  have h2 : (x : ℂ) = ((Real.sqrt x : ℝ) : ℂ) * ((Real.sqrt x : ℝ) : ℂ) := by exact_mod_cast (Real.mul_self_sqrt hx.le).symm
  rw [h2]
  field_simp

/-- The normalised vector is normalised, and orthogonal to what the vector was orthogonal to. -/
theorem blockNormalize_dot {v u : P → κ → ℂ} (h : blockNormalize blk v = some u) :
    (∀ p, blockDot blk u u (blk p) = 1) ∧ (∀ w p, blockDot blk w v (blk p) = 0 → blockDot blk w u (blk p) = 0) ∧
    (∀ p k, v p k = blockDot blk u v (blk p) * u p k) := by
  obtain ⟨hp, rfl⟩ := blockNormalize_some blk h
  let s : B → ℂ := fun b => ((Real.sqrt (blockDot blk v v b).re : ℝ) : ℂ)⁻¹
  have hconj : ∀ b, starRingEnd ℂ (s b) = s b := fun b => by simp only [s]; rw [← Complex.ofReal_inv, Complex.conj_ofReal]
  refine ⟨fun p => ?_, fun w p hw => ?_, fun p k => ?_⟩
  · have := blockDot_mul blk (fun p k => s (blk p) * v p k) v s (blk p)
    have e := blockDot_mul_left blk v v s (blk p)
    rw [hconj, ← blockDot_self_re] at e
    rw [e] at this
    exact this.trans (sqrt_inv_sq (hp p))
  · have := blockDot_mul blk w v s (blk p)
    rw [hw, mul_zero] at this
    exact this
  · have := blockDot_mul_left blk v v s (blk p)
    rw [hconj, ← blockDot_self_re] at this
    have h1 := sqrt_inv_sq (hp p)
    have h2 : blockDot blk (fun p k => ((Real.sqrt (blockDot blk v v (blk p)).re : ℝ) : ℂ)⁻¹ * v p k) v (blk p) = s (blk p) * ((blockDot blk v v (blk p)).re : ℂ) := this
    rw [h2]
    change _ = s (blk p) * _ * (s (blk p) * v p k)
    calc v p k = (s (blk p) * (s (blk p) * ((blockDot blk v v (blk p)).re : ℂ))) * v p k := by rw [show s (blk p) * (s (blk p) * ((blockDot blk v v (blk p)).re : ℂ)) = 1 from h1, one_mul]
      _ = _ := by ring

theorem blockSpan_append {us : List (P → κ → ℂ)} {u v : P → κ → ℂ} (h : BlockSpan blk us v) (ho : ∀ w ∈ us, ∀ p, blockDot blk w u (blk p) = 0) :
    BlockSpan blk (us ++ [u]) v := by
  intro p k
  rw [List.map_append, List.sum_append, ← h p k]
  have : blockDot blk u v (blk p) = 0 := by
    rw [blockDot_congr blk (fun _ _ => rfl) (v' := fun p k => (us.map fun u => blockDot blk u v (blk p) * u p k).sum) (fun q _ => funext fun k => h q k),
      blockDot_listSum blk u us (fun u b => blockDot blk u v b)]
    refine List.sum_eq_zero fun y hy => ?_
    obtain ⟨w, hw, rfl⟩ := List.mem_map.1 hy
    rw [blockDot_symm_zero blk (ho w hw), mul_zero]
  simp [this]

/-- One step of the loop over the vectors. -/
theorem gramSchmidt_step {done : List (P → κ → ℂ)} (hd : BlockOrtho blk done) {v u : P → κ → ℂ}
    (hu : blockNormalize blk (done.foldl (blockProject blk) v) = some u) :
    BlockOrtho blk (done ++ [u]) ∧ (∀ w ∈ done, ∀ p, blockDot blk w u (blk p) = 0) ∧ BlockSpan blk (done ++ [u]) v := by
  obtain ⟨h1, h2, h3⟩ := blockNormalize_dot blk hu
  have ho : ∀ w ∈ done, ∀ p, blockDot blk w u (blk p) = 0 := fun w hw p => h2 w p (foldl_blockProject_ortho blk hd v w hw p)
  refine ⟨blockOrtho_append blk hd ho h1, ho, fun p k => ?_⟩
  have hv := h3 p k
  have hdot : blockDot blk u (done.foldl (blockProject blk) v) (blk p) = blockDot blk u v (blk p) := by
    rw [foldl_blockProject blk hd.1, blockDot_sub, blockDot_listSum blk u done (fun u b => blockDot blk u v b)]
    rw [List.sum_eq_zero, sub_zero]
    intro y hy
    obtain ⟨w, hw, rfl⟩ := List.mem_map.1 hy
    rw [blockDot_symm_zero blk (ho w hw), mul_zero]
  rw [hdot] at hv
  rw [foldl_blockProject blk hd.1] at hv
  simp only [List.map_append, List.map_cons, List.map_nil, List.sum_append, List.sum_cons, List.sum_nil, add_zero]
  linear_combination hv

theorem gramSchmidt_spec : ∀ (rest done us : List (P → κ → ℂ)), BlockOrtho blk done → blockGramSchmidt blk done rest = some us →
    BlockOrtho blk us ∧ us.length = done.length + rest.length ∧ (∀ v, BlockSpan blk done v → BlockSpan blk us v) ∧ ∀ v ∈ rest, BlockSpan blk us v
  | [], done, us, hd, h => by
    simp only [blockGramSchmidt, Option.some.injEq] at h
    subst h
    exact ⟨hd, by simp, fun _ h => h, by simp⟩
  | v :: rest, done, us, hd, h => by
    rw [blockGramSchmidt, Option.bind_eq_some_iff] at h
    obtain ⟨u, hu, h⟩ := h
    obtain ⟨h1, h2, h3⟩ := gramSchmidt_step blk hd hu
    obtain ⟨i1, i2, i3, i4⟩ := gramSchmidt_spec rest (done ++ [u]) us h1 h
    refine ⟨i1, ?_, fun w hw => i3 w (blockSpan_append blk hw h2), ?_⟩
    · rw [i2]; simp; ring
    · intro w hw
      rcases List.mem_cons.1 hw with rfl | hw
      · exact i3 _ h3
      · exact i4 w hw

theorem blockSpan_sum {us : List (P → κ → ℂ)} (ws : List (P → κ → ℂ)) (hw : ∀ w ∈ ws, BlockSpan blk us w) (c : (P → κ → ℂ) → ℂ) :
    BlockSpan blk us (fun p k => (ws.map fun w => c w * w p k).sum) := by
  intro p k
  have h1 : ∀ u, blockDot blk u (fun p k => (ws.map fun w => c w * w p k).sum) (blk p) = (ws.map fun w => c w * blockDot blk u w (blk p)).sum :=
    fun u => blockDot_listSum blk u ws (fun w _ => c w) (blk p)
  simp only [h1]
  clear h1
  induction ws with
  | nil => simp
  | cons w ws ih =>
    simp only [List.map_cons, List.sum_cons]
    rw [ih fun w hw' => hw w (List.mem_cons_of_mem _ hw'), hw w List.mem_cons_self p k]
    clear ih hw
    induction us with
    | nil => simp
    | cons u us ihu =>
      simp only [List.map_cons, List.sum_cons] at ihu ⊢
      linear_combination ihu

theorem gramSchmidt_append (v : P → κ → ℂ) : ∀ (rest done : List (P → κ → ℂ)), blockGramSchmidt blk done (rest ++ [v]) =
    (blockGramSchmidt blk done rest).bind fun us => (blockNormalize blk (us.foldl (blockProject blk) v)).map fun u => us ++ [u]
  | [], done => by
    simp only [List.nil_append, blockGramSchmidt, Option.bind_some]
    cases blockNormalize blk (done.foldl (blockProject blk) v) <;> rfl
  | w :: rest, done => by
    simp only [List.cons_append, blockGramSchmidt]
    cases blockNormalize blk (done.foldl (blockProject blk) w) with
    | none => rfl
    | some u => exact gramSchmidt_append v rest (done ++ [u])

end

end

end Leonard
