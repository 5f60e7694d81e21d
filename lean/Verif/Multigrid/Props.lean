/-
C46: the multigrid coarse space.
-/
import Verif.Multigrid.Defined
import Verif.Layout.Lemmas
import Verif.Gauge.Torus
import Mathlib.LinearAlgebra.Dimension.OrzechProperty
import Mathlib.Algebra.BigOperators.Fin
import Mathlib.Data.List.ReduceOption

set_option autoImplicit false

namespace Leonard

/-! ### Blocks -/

theorem mgCount_spec {l b : ℤ} (hl : 0 < l) (hb : 0 < b) : 0 < mgCount l b ∧ (mgCount l b - 1) * b < l ∧ l ≤ mgCount l b * b := by
  have h1 := Int.mul_ediv_add_emod l b
  have h2 := Int.emod_nonneg l hb.ne'
  have h3 := Int.emod_lt_of_pos l hb
  have h4 : 0 ≤ l / b := Int.ediv_nonneg hl.le hb.le
  unfold mgCount
  split
  · rename_i h
    have h5 : 0 < l % b := by omega
    rw [mul_comm] at h1
    refine ⟨by omega, ?_, ?_⟩
    · rw [add_sub_cancel_right]; linarith
    · rw [add_mul, one_mul]; linarith
  · rename_i h
    have h0 : l % b = 0 := by omega
    rw [add_zero]
    refine ⟨?_, ?_, ?_⟩
    · rcases h4.lt_or_eq with h | h
      · exact h
      · rw [← h] at h1; omega
    · nlinarith
    · nlinarith

theorem mgCount_div {l b x : ℤ} (hb : 0 < b) (h0 : 0 ≤ x) (hx : x < l) : 0 ≤ x / b ∧ x / b < mgCount l b :=
  ⟨Int.ediv_nonneg h0 hb.le, Int.ediv_lt_of_lt_mul hb (lt_of_lt_of_le hx (mgCount_spec (by omega) hb).2.2)⟩

theorem mgBlocks_inBox {loc b : Ext} (hl : loc.Pos) (hb : b.Pos) (s : Site) :
    InBox (mgBlocks loc b) ⟨s.x % loc.x / b.x, s.y % loc.y / b.y, s.z % loc.z / b.z, s.t % loc.t / b.t⟩ :=
  ⟨mgCount_div hb.1 (Int.emod_nonneg _ hl.1.ne') (Int.emod_lt_of_pos _ hl.1),
    mgCount_div hb.2.1 (Int.emod_nonneg _ hl.2.1.ne') (Int.emod_lt_of_pos _ hl.2.1),
    mgCount_div hb.2.2.1 (Int.emod_nonneg _ hl.2.2.1.ne') (Int.emod_lt_of_pos _ hl.2.2.1),
    mgCount_div hb.2.2.2 (Int.emod_nonneg _ hl.2.2.2.ne') (Int.emod_lt_of_pos _ hl.2.2.2)⟩

theorem mgIndex_eq (loc b : Ext) (s : Site) : mgIndex loc b s =
    rawIndex (mgBlocks loc b) ⟨s.x % loc.x / b.x, s.y % loc.y / b.y, s.z % loc.z / b.z, s.t % loc.t / b.t⟩ := rfl

/-- **C46, blocks.** For every lattice of one process and every size of the blocks (also when they do not fit): the numbers of blocks are
below the total number, two sites have the same number exactly when they lie in the same block (their coordinates inside of the process
divided by the size of the blocks agree), and on every process every number belongs to some site. -/
theorem C46_blocks {loc b : Ext} (hl : loc.Pos) (hb : b.Pos) :
    (∀ s, 0 ≤ mgIndex loc b s ∧ mgIndex loc b s < mgTotal loc b) ∧
    (∀ s s', mgIndex loc b s = mgIndex loc b s' ↔ s.x % loc.x / b.x = s'.x % loc.x / b.x ∧ s.y % loc.y / b.y = s'.y % loc.y / b.y ∧
      s.z % loc.z / b.z = s'.z % loc.z / b.z ∧ s.t % loc.t / b.t = s'.t % loc.t / b.t) ∧
    ∀ (r : Site) (j : ℤ), 0 ≤ j → j < mgTotal loc b →
      ∃ s : Site, s.x / loc.x = r.x ∧ s.y / loc.y = r.y ∧ s.z / loc.z = r.z ∧ s.t / loc.t = r.t ∧ mgIndex loc b s = j := by
  refine ⟨fun s => ?_, fun s s' => ⟨fun h => ?_, fun h => ?_⟩, fun r j h0 hj => ?_⟩
  · rw [mgIndex_eq]
    exact rawIndex_bounds (mgBlocks_inBox hl hb s)
  · have := rawIndex_inj (mgBlocks_inBox hl hb s) (mgBlocks_inBox hl hb s') h
    simp only [Site.mk.injEq] at this
    exact this
  · rw [mgIndex_eq, mgIndex_eq, h.1, h.2.1, h.2.2.1, h.2.2.2]
  · have hp : (mgBlocks loc b).Pos := ⟨(mgCount_spec hl.1 hb.1).1, (mgCount_spec hl.2.1 hb.2.1).1, (mgCount_spec hl.2.2.1 hb.2.2.1).1,
      (mgCount_spec hl.2.2.2 hb.2.2.2).1⟩
    have hin : InBox (mgBlocks loc b) (unIndex (mgBlocks loc b) j) := unIndex_inBox hp ⟨h0, hj⟩
    have key : ∀ {l b q r : ℤ}, 0 < l → 0 < b → 0 ≤ q ∧ q < mgCount l b → (r * l + q * b) / l = r ∧ (r * l + q * b) % l / b = q := by
      intro l b q r hl hb hq
      have h1 : q * b < l := lt_of_le_of_lt (by nlinarith [hq.2]) (mgCount_spec hl hb).2.1
      have h2 : 0 ≤ q * b := by nlinarith [hq.1]
      refine ⟨?_, ?_⟩
      · rw [add_comm, Int.add_mul_ediv_right _ _ hl.ne', Int.ediv_eq_zero_of_lt h2 h1, zero_add]
      · rw [add_comm, Int.add_mul_emod_self_right, Int.emod_eq_of_lt h2 h1, Int.mul_ediv_cancel _ hb.ne']
    refine ⟨⟨r.x * loc.x + (unIndex (mgBlocks loc b) j).x * b.x, r.y * loc.y + (unIndex (mgBlocks loc b) j).y * b.y,
      r.z * loc.z + (unIndex (mgBlocks loc b) j).z * b.z, r.t * loc.t + (unIndex (mgBlocks loc b) j).t * b.t⟩,
      (key hl.1 hb.1 hin.1).1, (key hl.2.1 hb.2.1 hin.2.1).1, (key hl.2.2.1 hb.2.2.1 hin.2.2.1).1, (key hl.2.2.2 hb.2.2.2 hin.2.2.2).1, ?_⟩
    rw [mgIndex_eq]
    dsimp only
    rw [(key hl.1 hb.1 hin.1).2, (key hl.2.1 hb.2.1 hin.2.1).2, (key hl.2.2.1 hb.2.2.1 hin.2.2.1).2, (key hl.2.2.2 hb.2.2.2 hin.2.2.2).2]
    exact rawIndex_unIndex j

/-- The lattice of a run with process grid `pg` and local extents `loc`. -/
def gridLattice (pg loc : Ext) : Ext := ⟨pg.x * loc.x, pg.y * loc.y, pg.z * loc.z, pg.t * loc.t⟩

/-- The coordinates of the process that has a site. -/
def gridRank {pg loc : Ext} (hl : loc.Pos) (s : BoxSite (gridLattice pg loc)) : BoxSite pg :=
  ⟨⟨s.1.x / loc.x, s.1.y / loc.y, s.1.z / loc.z, s.1.t / loc.t⟩,
    ⟨Int.ediv_nonneg s.2.1.1 hl.1.le, Int.ediv_lt_of_lt_mul hl.1 s.2.1.2⟩,
    ⟨Int.ediv_nonneg s.2.2.1.1 hl.2.1.le, Int.ediv_lt_of_lt_mul hl.2.1 s.2.2.1.2⟩,
    ⟨Int.ediv_nonneg s.2.2.2.1.1 hl.2.2.1.le, Int.ediv_lt_of_lt_mul hl.2.2.1 s.2.2.2.1.2⟩,
    ⟨Int.ediv_nonneg s.2.2.2.2.1 hl.2.2.2.le, Int.ediv_lt_of_lt_mul hl.2.2.2 s.2.2.2.2.2⟩⟩

/-- **C46, lattice.** The numbers of the blocks on every process of a run are what the theorems below need: below the number of blocks, and
each one taken. -/
theorem C46_lattice {pg loc b : Ext} (hl : loc.Pos) (hb : b.Pos) :
    (∀ s : BoxSite (gridLattice pg loc), (mgIndex loc b s.1).toNat < (mgTotal loc b).toNat) ∧
    ∀ r : BoxSite pg, ∀ j < (mgTotal loc b).toNat, ∃ s : BoxSite (gridLattice pg loc), gridRank hl s = r ∧ (mgIndex loc b s.1).toNat = j := by
  obtain ⟨h1, -, h3⟩ := C46_blocks hl hb
  refine ⟨fun s => ?_, fun r j hj => ?_⟩
  · have := h1 s.1
    omega
  · obtain ⟨s, hx, hy, hz, ht, hs⟩ := h3 r.1 j (by omega) (by omega)
    have key : ∀ {x l a n : ℤ}, 0 < l → x / l = a → 0 ≤ a ∧ a < n → 0 ≤ x ∧ x < n * l := by
      intro x l a n hl h ha
      have h1 := Int.mul_ediv_add_emod x l
      have h2 := Int.emod_nonneg x hl.ne'
      have h3 := Int.emod_lt_of_pos x hl
      rw [h] at h1
      constructor <;> nlinarith
    refine ⟨⟨s, key hl.1 hx r.2.1, key hl.2.1 hy r.2.2.1, key hl.2.2.1 hz r.2.2.2.1, key hl.2.2.2 ht r.2.2.2.2⟩, Subtype.ext ?_, ?_⟩
    · change (⟨s.x / loc.x, s.y / loc.y, s.z / loc.z, s.t / loc.t⟩ : Site) = r.1
      rw [hx, hy, hz, ht]
    · change (mgIndex loc b s).toNat = j
      rw [hs, Int.toNat_natCast]

/-- Extents 6 and blocks of size 4: two blocks per direction, the second one smaller. -/
example : mgTotal ⟨6, 6, 6, 6⟩ ⟨4, 4, 4, 4⟩ = 16 ∧ mgIndex ⟨6, 6, 6, 6⟩ ⟨4, 4, 4, 4⟩ ⟨11, 0, 5, 3⟩ = 10 := by decide

noncomputable section

variable {P κ R : Type} [Fintype P] [Fintype κ] [DecidableEq R]

/-! ### Orthonormalisation -/

/-- On every block that has sites the first `d` vectors are orthonormal. -/
def BlockOrthonormal (rank : P → R) (idx : P → ℕ) (d : ℕ) (basis : ℕ → P → κ → ℂ) : Prop :=
  ∀ i < d, ∀ j < d, ∀ p, (∑ q with rank q = rank p ∧ idx q = idx p, ∑ k, starRingEnd ℂ (basis i q k) * basis j q k) = if i = j then 1 else 0

theorem blockDot_pair (rank : P → R) (idx : P → ℕ) (w v : P → κ → ℂ) (p : P) :
    blockDot (fun p => (rank p, idx p)) w v (rank p, idx p) = ∑ q with rank q = rank p ∧ idx q = idx p, ∑ k, starRingEnd ℂ (w q k) * v q k := by
  rw [blockDot_eq]
  refine Finset.sum_congr ?_ fun _ _ => rfl
  ext q
  simp

theorem getD_get {α : Type} {l : List α} {i : ℕ} {a : α} (h : i < l.length) : l.getD i a = l[i] := by simp [h]

theorem blockOrthonormal_of {rank : P → R} {idx : P → ℕ} {us : List (P → κ → ℂ)} (h : BlockOrtho (fun p => (rank p, idx p)) us) :
    BlockOrthonormal rank idx us.length fun i => us.getD i 0 := by
  intro i hi j hj p
  rw [← blockDot_pair]
  beta_reduce
  rw [getD_get hi, getD_get hj]
  have hp := List.pairwise_iff_getElem.1 h.1
  rcases lt_trichotomy i j with hlt | rfl | hlt
  · rw [if_neg hlt.ne]
    exact hp i j hi hj hlt p
  · rw [if_pos rfl]
    exact h.2 _ (List.getElem_mem hi) p
  · rw [if_neg hlt.ne', ← blockDot_conj, hp j i hj hi hlt p, map_zero]

/-- The part of a vector on the block of the site `p` of its process. -/
def onBlock (rank : P → R) (idx : P → ℕ) (p : P) (v : P → κ → ℂ) : {q // rank q = rank p ∧ idx q = idx p} → κ → ℂ := fun q k => v q.1 k

theorem onBlock_independent (rank : P → R) (idx : P → ℕ) (p : P) {ι : Type} (f : ι → P → κ → ℂ) :
    (LinearIndependent ℂ fun i => onBlock rank idx p (f i)) ↔ LinearIndependent ℂ fun i => blockPart (fun p => (rank p, idx p)) p (f i) := by
  let e : {q // (rank q, idx q) = (rank p, idx p)} ≃ {q // rank q = rank p ∧ idx q = idx p} := Equiv.subtypeEquivRight fun q => by simp
  let L : ({q // rank q = rank p ∧ idx q = idx p} → κ → ℂ) ≃ₗ[ℂ] ({q // (rank q, idx q) = (rank p, idx p)} → κ → ℂ) :=
    LinearEquiv.funCongrLeft ℂ (κ → ℂ) e
  have := L.toLinearMap.linearIndependent_iff (v := fun i => onBlock rank idx p (f i)) L.ker
  exact this.symm

theorem globalSpan {n : ℕ} (f : Fin n → P → κ → ℂ) {us : List (P → κ → ℂ)} (h : blockGramSchmidt (fun _ => ()) [] (List.ofFn f) = some us)
    {B : Type} [DecidableEq B] (blk : P → B) (p : P) :
    Submodule.span ℂ {x | ∃ u ∈ us, x = blockPart blk p u} = Submodule.span ℂ (Set.range fun i => blockPart blk p (f i)) := by
  have h0 := (gramSchmidt_isSome (fun _ : P => ()) n f).2 us h p
  let L : ({q : P // () = ()} → κ → ℂ) →ₗ[ℂ] ({q // blk q = blk p} → κ → ℂ) :=
    { toFun := fun v q k => v ⟨q.1, rfl⟩ k, map_add' := fun _ _ => rfl, map_smul' := fun _ _ => rfl }
  have h1 := congrArg (Submodule.map L) h0
  rw [Submodule.map_span, Submodule.map_span] at h1
  have e1 : L '' {x | ∃ u ∈ us, x = blockPart (fun _ => ()) p u} = {x | ∃ u ∈ us, x = blockPart blk p u} := by
    ext x
    constructor
    · rintro ⟨_, ⟨u, hu, rfl⟩, rfl⟩
      exact ⟨u, hu, rfl⟩
    · rintro ⟨u, hu, rfl⟩
      exact ⟨_, ⟨u, hu, rfl⟩, rfl⟩
  have e2 : L '' (Set.range fun i => blockPart (fun _ => ()) p (f i)) = Set.range fun i => blockPart blk p (f i) := by
    rw [← Set.range_comp]
    rfl
  rw [e1, e2] at h1
  exact h1

/-- **C46, when the basis can be orthonormalised.** It is exactly when on every block the parts of the vectors are linearly independent;
otherwise the program divides by zero. -/
theorem C46_orthogonalize_defined (rank : P → R) (idx : P → ℕ) {n : ℕ} (f : Fin n → P → κ → ℂ) :
    (∃ us, basisOrthogonalize rank idx (List.ofFn f) = some us) ↔ ∀ p, LinearIndependent ℂ fun i => onBlock rank idx p (f i) := by
  have hnil : ∀ {B : Type} [DecidableEq B] (blk : P → B), BlockOrtho blk ([] : List (P → κ → ℂ)) := fun blk => ⟨List.Pairwise.nil, by simp⟩
  have key : ∀ us, blockGramSchmidt (fun _ => ()) [] (List.ofFn f) = some us →
      ((∃ ws, blockGramSchmidt (fun p => (rank p, idx p)) [] us = some ws) ↔ ∀ p, LinearIndependent ℂ fun i => onBlock rank idx p (f i)) := by
    intro us hus
    have hlen : us.length = n := by
      have := (gramSchmidt_spec _ _ _ us (hnil _) hus).2.1
      simpa using this
    obtain ⟨g, rfl⟩ : ∃ g : Fin n → P → κ → ℂ, us = List.ofFn g := by
      subst hlen
      exact ⟨fun i => us[i], by simp⟩
    rw [(gramSchmidt_isSome _ n g).1]
    refine forall_congr' fun p => ?_
    rw [onBlock_independent, linearIndependent_iff_card_eq_finrank_span, linearIndependent_iff_card_eq_finrank_span]
    have hs := globalSpan f hus (fun p => (rank p, idx p)) p
    have hset : {x | ∃ u ∈ List.ofFn g, x = blockPart (fun p => (rank p, idx p)) p u} = Set.range fun i => blockPart (fun p => (rank p, idx p)) p (g i) := by
      ext x
      simp only [List.mem_ofFn, Set.mem_setOf_eq, Set.mem_range]
      constructor
      · rintro ⟨u, ⟨i, rfl⟩, rfl⟩
        exact ⟨i, rfl⟩
      · rintro ⟨i, rfl⟩
        exact ⟨_, ⟨i, rfl⟩, rfl⟩
    rw [hset] at hs
    unfold Set.finrank
    rw [hs]
  unfold basisOrthogonalize
  constructor
  · rintro ⟨ws, h⟩
    rw [Option.bind_eq_some_iff] at h
    obtain ⟨us, hus, hws⟩ := h
    exact (key us hus).1 ⟨ws, hws⟩
  · intro h
    obtain ⟨us, hus⟩ := (gramSchmidt_isSome (fun _ : P => ()) n f).1.2 fun p => by
      refine LinearIndependent.of_comp (LinearMap.funLeft ℂ (κ → ℂ) fun q : {q // rank q = rank p ∧ idx q = idx p} => (⟨q.1, rfl⟩ : {q : P // () = ()})) (h p)
    obtain ⟨ws, hws⟩ := (key us hus).2 h
    exact ⟨ws, by rw [hus]; exact hws⟩

/-- The projection of `v` on the span of the first `d` vectors, block by block. -/
def blockExpansion (rank : P → R) (idx : P → ℕ) (d : ℕ) (basis : ℕ → P → κ → ℂ) (v : P → κ → ℂ) (p : P) (k : κ) : ℂ :=
  ∑ i ∈ Finset.range d, (∑ q with rank q = rank p ∧ idx q = idx p, ∑ l, starRingEnd ℂ (basis i q l) * v q l) * basis i p k

theorem blockExpansion_of_span {rank : P → R} {idx : P → ℕ} {us : List (P → κ → ℂ)} {v : P → κ → ℂ} (h : BlockSpan (fun p => (rank p, idx p)) us v) :
    blockExpansion rank idx us.length (fun i => us.getD i 0) v = v := by
  funext p k
  refine Eq.trans ?_ (h p k).symm
  unfold blockExpansion
  rw [← sum_map_range]
  congr 1
  refine List.ext_getElem (by simp) fun i hi hi' => ?_
  have hlt : i < us.length := by simpa using hi'
  simp only [List.getElem_map, List.getElem_range]
  rw [getD_get hlt, ← blockDot_pair]

/-- **C46, orthonormalisation.** The new vectors are as many as the old ones, orthonormal on every block, and every old vector is the
sum of its projections on them, block by block. -/
theorem C46_orthogonalize (rank : P → R) (idx : P → ℕ) {vs us : List (P → κ → ℂ)} (h : basisOrthogonalize rank idx vs = some us) :
    us.length = vs.length ∧ BlockOrthonormal rank idx us.length (fun i => us.getD i 0) ∧
    ∀ v ∈ vs, blockExpansion rank idx us.length (fun i => us.getD i 0) v = v := by
  have hnil : ∀ {B : Type} [DecidableEq B] (blk : P → B), BlockOrtho blk ([] : List (P → κ → ℂ)) := fun blk => ⟨List.Pairwise.nil, by simp⟩
  unfold basisOrthogonalize at h
  rw [Option.bind_eq_some_iff] at h
  obtain ⟨ws, hws, hus⟩ := h
  obtain ⟨a1, a2, -, a4⟩ := gramSchmidt_spec _ _ _ ws (hnil _) hws
  obtain ⟨b1, b2, -, b4⟩ := gramSchmidt_spec _ _ _ us (hnil _) hus
  refine ⟨by simpa [a2] using b2, blockOrthonormal_of b1, fun v hv => blockExpansion_of_span ?_⟩
  have h1 := blockSpan_sum (fun p => (rank p, idx p)) ws b4 (fun w => blockDot (fun _ => ()) w v ())
  have h2 : v = fun p k => (ws.map fun w => blockDot (fun _ => ()) w v () * w p k).sum := funext fun p => funext fun k => a4 v hv p k
  rw [← h2] at h1
  exact h1

/-! ### Restriction and prolongation -/

/-- The inner product of two vectors of the fine lattice, over all processes. -/
def fineDot (x y : P → κ → ℂ) : ℂ := ∑ p, ∑ k, starRingEnd ℂ (x p k) * y p k

/-- The inner product of two coarse vectors with `m` entries on every process. -/
def coarseDot [Fintype R] (m : ℕ) (c e : R → ℕ → ℂ) : ℂ := ∑ r, ∑ i ∈ Finset.range m, starRingEnd ℂ (c r i) * e r i

theorem sum_range_mul (d n : ℕ) (f : ℕ → ℂ) : ∑ m ∈ Finset.range (d * n), f m = ∑ i ∈ Finset.range d, ∑ j ∈ Finset.range n, f (i * n + j) := by
  induction d with
  | zero => simp
  | succ d ih => rw [Nat.succ_mul, Finset.sum_range_add, ih, Finset.sum_range_succ]

/-- **C46, adjoint.** Restriction is the adjoint of prolongation, for any vectors, blocks, processes and threads. -/
theorem C46_adjoint [Fintype R] (rank : P → R) (idx thread : P → ℕ) (n d threads : ℕ) (basis : ℕ → P → κ → ℂ) (hidx : ∀ p, idx p < n)
    (ht : ∀ p, thread p < threads) (c : R → ℕ → ℂ) (x : P → κ → ℂ) :
    coarseDot (d * n) c (mgRestrict rank idx thread n d threads basis x) = fineDot (mgProlong rank idx n d basis c) x := by
  unfold coarseDot fineDot
  have h1 : ∀ r, ∑ m ∈ Finset.range (d * n), starRingEnd ℂ (c r m) * mgRestrict rank idx thread n d threads basis x r m =
      ∑ i ∈ Finset.range d, ∑ j ∈ Finset.range n, ∑ p, if rank p = r ∧ idx p = j then ∑ k, starRingEnd ℂ (c r (i * n + j) * basis i p k) * x p k else 0 := by
    intro r
    rw [sum_range_mul]
    refine Finset.sum_congr rfl fun i hi => Finset.sum_congr rfl fun j hj => ?_
    rw [mgRestrict_entry rank idx thread n d threads basis x r ht (Finset.mem_range.1 hi) (Finset.mem_range.1 hj), blockDot, Finset.mul_sum]
    refine Finset.sum_congr rfl fun p _ => ?_
    by_cases h : rank p = r ∧ idx p = j
    · rw [if_pos h, if_pos (Prod.ext h.1 h.2), Finset.mul_sum]
      exact Finset.sum_congr rfl fun k _ => by rw [map_mul]; ring
    · rw [if_neg h, if_neg fun h' => h ⟨congrArg Prod.fst h', congrArg Prod.snd h'⟩, mul_zero]
  simp only [h1]
  have h2 : ∀ p, (∑ k, starRingEnd ℂ (mgProlong rank idx n d basis c p k) * x p k) =
      ∑ i ∈ Finset.range d, ∑ k, starRingEnd ℂ (c (rank p) (i * n + idx p) * basis i p k) * x p k := by
    intro p
    rw [Finset.sum_comm]
    refine Finset.sum_congr rfl fun k _ => ?_
    rw [mgProlong_sum, map_sum, Finset.sum_mul]
  simp only [h2]
  rw [Finset.sum_comm (s := (Finset.univ : Finset P)), Finset.sum_comm (s := (Finset.univ : Finset R))]
  refine Finset.sum_congr rfl fun i _ => ?_
  have h3 : ∀ r, (∑ j ∈ Finset.range n, ∑ p, if rank p = r ∧ idx p = j then ∑ k, starRingEnd ℂ (c r (i * n + j) * basis i p k) * x p k else 0) =
      ∑ p, if rank p = r then ∑ k, starRingEnd ℂ (c r (i * n + idx p) * basis i p k) * x p k else 0 := by
    intro r
    rw [Finset.sum_comm]
    refine Finset.sum_congr rfl fun p _ => ?_
    rw [Finset.sum_eq_single (idx p)]
    · simp
    · intro j _ hj
      rw [if_neg fun h => hj h.2.symm]
    · intro h
      exact absurd (Finset.mem_range.2 (hidx p)) h
  simp only [h3]
  rw [Finset.sum_comm]
  refine Finset.sum_congr rfl fun p _ => ?_
  rw [Finset.sum_ite_eq Finset.univ (rank p), if_pos (Finset.mem_univ _)]

/-- Prolongation of a restriction is the projection, block by block. -/
theorem mgProlong_restrict (rank : P → R) (idx thread : P → ℕ) (n d threads : ℕ) (basis : ℕ → P → κ → ℂ) (hidx : ∀ p, idx p < n)
    (ht : ∀ p, thread p < threads) (x : P → κ → ℂ) :
    mgProlong rank idx n d basis (mgRestrict rank idx thread n d threads basis x) = blockExpansion rank idx d basis x := by
  funext p k
  rw [mgProlong_sum]
  refine Finset.sum_congr rfl fun i hi => ?_
  rw [mgRestrict_entry rank idx thread n d threads basis x _ ht (Finset.mem_range.1 hi) (hidx p), ← blockDot_pair]

/-- **C46, coarse identity.** For an orthonormal block basis, restriction after prolongation changes no entry of a coarse vector. -/
theorem C46_coarse_identity (rank : P → R) (idx thread : P → ℕ) (n d threads : ℕ) (basis : ℕ → P → κ → ℂ)
    (hne : ∀ r, ∀ j < n, ∃ p, rank p = r ∧ idx p = j) (ht : ∀ p, thread p < threads)
    (ho : BlockOrthonormal rank idx d basis) (c : R → ℕ → ℂ) (r : R) (m : ℕ) (hm : m < d * n) :
    mgRestrict rank idx thread n d threads basis (mgProlong rank idx n d basis c) r m = c r m := by
  have hn : 0 < n := Nat.pos_of_ne_zero fun h => by rw [h, mul_zero] at hm; omega
  have hj : m % n < n := Nat.mod_lt _ hn
  have hi : m / n < d := Nat.div_lt_of_lt_mul (by rwa [mul_comm] at hm)
  have hme : m = m / n * n + m % n := by rw [mul_comm]; exact (Nat.div_add_mod m n).symm
  rw [hme]
  generalize m / n = i at *
  generalize m % n = j at *
  obtain ⟨p, rfl, rfl⟩ := hne r j hj
  rw [mgRestrict_entry rank idx thread n d threads basis _ _ ht hi hj, blockDot_pair]
  have h1 : ∀ q, rank q = rank p ∧ idx q = idx p → ∀ k, mgProlong rank idx n d basis c q k = ∑ j ∈ Finset.range d, c (rank p) (j * n + idx p) * basis j q k := by
    intro q hq k
    rw [mgProlong_sum, hq.1, hq.2]
  rw [Finset.sum_congr rfl (g := fun q => ∑ j ∈ Finset.range d, c (rank p) (j * n + idx p) * ∑ k, starRingEnd ℂ (basis i q k) * basis j q k)]
  · rw [Finset.sum_comm]
    simp only [← Finset.mul_sum]
    rw [Finset.sum_eq_single i]
    · rw [ho i hi i hi p, if_pos rfl, mul_one]
    · intro j hj hne
      rw [ho i hi j (Finset.mem_range.1 hj) p, if_neg (Ne.symm hne), mul_zero]
    · intro h
      exact absurd (Finset.mem_range.2 hi) h
  · intro q hq
    rw [Finset.mem_filter] at hq
    simp only [h1 q hq.2, Finset.mul_sum]
    rw [Finset.sum_comm]
    exact Finset.sum_congr rfl fun j _ => Finset.sum_congr rfl fun k _ => by ring

theorem mgProlong_congr (rank : P → R) (idx : P → ℕ) (n d : ℕ) (basis : ℕ → P → κ → ℂ) (hidx : ∀ p, idx p < n) {c e : R → ℕ → ℂ}
    (h : ∀ r, ∀ m < d * n, c r m = e r m) : mgProlong rank idx n d basis c = mgProlong rank idx n d basis e := by
  funext p k
  rw [mgProlong_sum, mgProlong_sum]
  refine Finset.sum_congr rfl fun i hi => ?_
  rw [h]
  have h1 : i < d := Finset.mem_range.1 hi
  calc i * n + idx p < i * n + n := by have := hidx p; omega
    _ = (i + 1) * n := by ring
    _ ≤ d * n := Nat.mul_le_mul_right n h1

/-- **C46, orthogonal projection.** For an orthonormal block basis, prolongation after restriction is a projection, it is its own adjoint,
and it leaves every prolonged coarse vector unchanged. -/
theorem C46_projection [Fintype R] (rank : P → R) (idx thread : P → ℕ) (n d threads : ℕ) (basis : ℕ → P → κ → ℂ) (hidx : ∀ p, idx p < n)
    (hne : ∀ r, ∀ j < n, ∃ p, rank p = r ∧ idx p = j) (ht : ∀ p, thread p < threads) (ho : BlockOrthonormal rank idx d basis) :
    let Q := fun x => mgProlong rank idx n d basis (mgRestrict rank idx thread n d threads basis x)
    (∀ x, Q (Q x) = Q x) ∧ (∀ x y, fineDot (Q x) y = fineDot x (Q y)) ∧ ∀ c, Q (mgProlong rank idx n d basis c) = mgProlong rank idx n d basis c := by
  have h3 : ∀ c, mgProlong rank idx n d basis (mgRestrict rank idx thread n d threads basis (mgProlong rank idx n d basis c)) =
      mgProlong rank idx n d basis c := fun c =>
    mgProlong_congr rank idx n d basis hidx fun r m hm => C46_coarse_identity rank idx thread n d threads basis hne ht ho c r m hm
  have hconj : ∀ x y : P → κ → ℂ, starRingEnd ℂ (fineDot x y) = fineDot y x := by
    intro x y
    simp only [fineDot, map_sum, map_mul, Complex.conj_conj]
    exact Finset.sum_congr rfl fun p _ => Finset.sum_congr rfl fun k _ => mul_comm _ _
  have hcc : ∀ (m : ℕ) (x y : R → ℕ → ℂ), starRingEnd ℂ (coarseDot m x y) = coarseDot m y x := by
    intro m x y
    simp only [coarseDot, map_sum, map_mul, Complex.conj_conj]
    exact Finset.sum_congr rfl fun p _ => Finset.sum_congr rfl fun k _ => mul_comm _ _
  refine ⟨fun x => h3 _, fun x y => ?_, h3⟩
  rw [← C46_adjoint rank idx thread n d threads basis hidx ht, ← hconj (mgProlong _ _ _ _ _ _) x,
    ← C46_adjoint rank idx thread n d threads basis hidx ht, hcc]

/-- **C46, coarse operator.** The coarse operator is restriction times operator times prolongation: its matrix elements are those of the
operator between prolonged vectors. -/
theorem C46_operator [Fintype R] (rank : P → R) (idx thread : P → ℕ) (n d threads : ℕ) (basis : ℕ → P → κ → ℂ) (hidx : ∀ p, idx p < n)
    (ht : ∀ p, thread p < threads) (D : (P → κ → ℂ) → P → κ → ℂ) (c e : R → ℕ → ℂ) :
    coarseDot (d * n) c (mgMultiply rank idx thread n d threads basis D e) = fineDot (mgProlong rank idx n d basis c) (D (mgProlong rank idx n d basis e)) :=
  C46_adjoint rank idx thread n d threads basis hidx ht c _

/-- **C46, shifted coarse operator.** With an orthonormal block basis the coarse operator of `D + α` is the coarse operator plus `α`. -/
theorem C46_shift (rank : P → R) (idx thread : P → ℕ) (n d threads : ℕ) (basis : ℕ → P → κ → ℂ)
    (hne : ∀ r, ∀ j < n, ∃ p, rank p = r ∧ idx p = j) (ht : ∀ p, thread p < threads) (ho : BlockOrthonormal rank idx d basis)
    (D : (P → κ → ℂ) → P → κ → ℂ) (c : R → ℕ → ℂ) (α : ℂ) (r : R) (m : ℕ) (hm : m < d * n) :
    mgMultiplyAdd rank idx thread n d threads basis (fun α x => D x + α • x) c α r m =
      mgMultiply rank idx thread n d threads basis D c r m + α * c r m := by
  unfold mgMultiplyAdd mgMultiply
  have hlin : ∀ x y : P → κ → ℂ, mgRestrict rank idx thread n d threads basis (x + α • y) r m =
      mgRestrict rank idx thread n d threads basis x r m + α * mgRestrict rank idx thread n d threads basis y r m := by
    intro x y
    have hn : 0 < n := Nat.pos_of_ne_zero fun h => by rw [h, mul_zero] at hm; omega
    have hj : m % n < n := Nat.mod_lt _ hn
    have hi : m / n < d := Nat.div_lt_of_lt_mul (by rwa [mul_comm] at hm)
    have hme : m = m / n * n + m % n := by rw [mul_comm]; exact (Nat.div_add_mod m n).symm
    rw [hme, mgRestrict_entry _ _ _ _ _ _ _ _ _ ht hi hj, mgRestrict_entry _ _ _ _ _ _ _ _ _ ht hi hj, mgRestrict_entry _ _ _ _ _ _ _ _ _ ht hi hj,
      ← blockDot_mul (fun p => (rank p, idx p)) (basis (m / n)) y (fun _ => α), ← blockDot_add]
    rfl
  rw [hlin, C46_coarse_identity rank idx thread n d threads basis hne ht ho c r m hm]

/-- **C46, everything together.** Given vectors that are linearly independent on every block, the orthonormalised basis exists, and with it:
coarse vectors are unchanged by prolongation and restriction; prolongation after restriction is an orthogonal projection; it leaves every one
of the given vectors unchanged. -/
theorem C46_multigrid [Fintype R] (rank : P → R) (idx thread : P → ℕ) (n threads : ℕ) (hidx : ∀ p, idx p < n)
    (hne : ∀ r, ∀ j < n, ∃ p, rank p = r ∧ idx p = j) (ht : ∀ p, thread p < threads) {d : ℕ} (f : Fin d → P → κ → ℂ)
    (hf : ∀ p, LinearIndependent ℂ fun i => onBlock rank idx p (f i)) :
    ∃ us, basisOrthogonalize rank idx (List.ofFn f) = some us ∧
      let basis := fun i => us.getD i 0
      let restrict := mgRestrict rank idx thread n d threads basis
      let prolong := mgProlong rank idx n d basis
      (∀ c r, ∀ m < d * n, restrict (prolong c) r m = c r m) ∧
      (∀ x, prolong (restrict (prolong (restrict x))) = prolong (restrict x)) ∧
      (∀ x y, fineDot (prolong (restrict x)) y = fineDot x (prolong (restrict y))) ∧ ∀ i, prolong (restrict (f i)) = f i := by
  obtain ⟨us, hus⟩ := (C46_orthogonalize_defined rank idx f).2 hf
  obtain ⟨h1, h2, h3⟩ := C46_orthogonalize rank idx hus
  rw [List.length_ofFn] at h1
  rw [h1] at h2 h3
  obtain ⟨p1, p2, -⟩ := C46_projection rank idx thread n d threads (fun i => us.getD i 0) hidx hne ht h2
  refine ⟨us, hus, fun c r m hm => C46_coarse_identity rank idx thread n d threads _ hne ht h2 c r m hm, p1, p2, fun i => ?_⟩
  exact (mgProlong_restrict rank idx thread n d threads _ hidx ht (f i)).trans (h3 (f i) (by simp))

theorem orthoOne_spec {B : Type} [DecidableEq B] (blk : P → B) : ∀ (ws : List (Option (P → κ → ℂ))) (done : List (P → κ → ℂ)) (v u : P → κ → ℂ),
    BlockOrtho blk (done ++ ws.reduceOption) → (∀ w ∈ done, ∀ p, blockDot blk w v (blk p) = 0) → blockOrthoOne blk ws v = some u →
    (∀ w ∈ done ++ ws.reduceOption, ∀ p, blockDot blk w u (blk p) = 0) ∧ (ws ≠ [] → ∀ p, blockDot blk u u (blk p) = 1)
  | [], done, v, u, _, hd, h => by
    simp only [blockOrthoOne, Option.some.injEq] at h
    subst h
    exact ⟨by simpa [List.reduceOption_nil] using hd, by simp⟩
  | w :: ws, done, v, u, ho, hd, h => by
    rw [blockOrthoOne, Option.bind_eq_some_iff] at h
    obtain ⟨x, hx, h⟩ := h
    obtain ⟨n1, n2, -⟩ := blockNormalize_dot blk hx
    have last : ws = [] → ∀ p, blockDot blk u u (blk p) = 1 := by
      rintro rfl
      simp only [blockOrthoOne, Option.some.injEq] at h
      subst h
      exact n1
    cases w with
    | none =>
      have hd' : ∀ w ∈ done, ∀ p, blockDot blk w x (blk p) = 0 := fun w hw p => n2 w p (hd w hw p)
      obtain ⟨i1, i2⟩ := orthoOne_spec blk ws done x u ho hd' h
      refine ⟨i1, fun _ => ?_⟩
      by_cases hw : ws = []
      · exact last hw
      · exact i2 hw
    | some w =>
      rw [List.reduceOption_cons_of_some] at ho ⊢
      rw [show done ++ w :: ws.reduceOption = (done ++ [w]) ++ ws.reduceOption by simp] at ho ⊢
      have hwself : ∀ p, blockDot blk w w (blk p) = 1 := ho.2 w (by simp)
      have hpd : ∀ y ∈ done, ∀ p, blockDot blk y w (blk p) = 0 := by
        intro y hy
        have := (List.pairwise_append.1 (List.pairwise_append.1 ho.1).1).2.2 y hy w (by simp)
        exact this
      have hd' : ∀ y ∈ done ++ [w], ∀ p, blockDot blk y x (blk p) = 0 := by
        intro y hy p
        refine n2 y p ?_
        change blockDot blk y (blockProject blk v w) (blk p) = 0
        rw [show blockProject blk v w = fun p k => v p k - blockDot blk w v (blk p) * w p k from rfl, blockDot_sub,
          blockDot_mul blk y w (fun b => blockDot blk w v b)]
        rw [List.mem_append, List.mem_singleton] at hy
        rcases hy with hy | rfl
        · rw [hd y hy, hpd y hy, mul_zero, sub_zero]
        · rw [hwself, mul_one, sub_self]
      obtain ⟨i1, i2⟩ := orthoOne_spec blk ws (done ++ [w]) x u ho hd' h
      refine ⟨i1, fun _ => ?_⟩
      by_cases hw : ws = []
      · exact last hw
      · exact i2 hw

/-- **C46, one vector.** Orthonormalising one vector again: if the other vectors of the basis are orthonormal on every block, then the new vector is
orthogonal to all of them and normalised, on every block. -/
theorem C46_orthogonalize_one (rank : P → R) (idx : P → ℕ) (vs : List (P → κ → ℂ)) (i : ℕ) (hi : i < vs.length) (v u : P → κ → ℂ)
    (ho : BlockOrthonormal rank idx (vs.length - 1) fun j => (vs.eraseIdx i).getD j 0) (h : basisOrthogonalizeOne rank idx vs i v = some u) :
    (∀ w ∈ vs.eraseIdx i, ∀ p, ∑ q with rank q = rank p ∧ idx q = idx p, ∑ k, starRingEnd ℂ (w q k) * u q k = 0) ∧
    ∀ p, ∑ q with rank q = rank p ∧ idx q = idx p, ∑ k, starRingEnd ℂ (u q k) * u q k = 1 := by
  have hred : (vs.mapIdx fun j w => if j = i then none else some w).reduceOption = vs.eraseIdx i := by
    clear ho h hi
    induction vs generalizing i with
    | nil => rfl
    | cons w vs ih =>
      rw [List.mapIdx_cons]
      cases i with
      | zero =>
        rw [if_pos rfl, List.reduceOption_cons_of_none]
        simp only [Nat.add_eq_zero_iff, one_ne_zero, and_false, if_false, List.eraseIdx_cons_zero]
        clear ih
        induction vs with
        | nil => rfl
        | cons w vs ih => rw [List.mapIdx_cons, List.reduceOption_cons_of_some]; exact congrArg _ ih
      | succ i =>
        rw [if_neg (by omega), List.reduceOption_cons_of_some, List.eraseIdx_cons_succ, ← ih i]
        simp
  have hlen : (vs.eraseIdx i).length = vs.length - 1 := by simp [List.length_eraseIdx, hi]
  have hbo : BlockOrtho (fun p => (rank p, idx p)) (vs.eraseIdx i) := by
    rw [← hlen] at ho
    refine ⟨List.pairwise_iff_getElem.2 fun a b ha hb hab p => ?_, fun w hw p => ?_⟩
    · have := ho a ha b hb p
      beta_reduce at this ⊢
      rw [getD_get ha, getD_get hb, if_neg hab.ne, ← blockDot_pair] at this
      exact this
    · obtain ⟨a, ha, rfl⟩ := List.getElem_of_mem hw
      have := ho a ha a ha p
      beta_reduce at this ⊢
      rw [getD_get ha, if_pos rfl, ← blockDot_pair] at this
      exact this
  unfold basisOrthogonalizeOne at h
  rw [Option.bind_eq_some_iff] at h
  obtain ⟨x, -, h⟩ := h
  obtain ⟨h1, h2⟩ := orthoOne_spec (fun p => (rank p, idx p)) _ [] x u (by rw [hred]; exact hbo) (by simp) h
  rw [hred] at h1
  refine ⟨fun w hw p => ?_, fun p => ?_⟩
  · rw [← blockDot_pair]; exact h1 w hw p
  · rw [← blockDot_pair]
    refine h2 ?_ p
    intro hnil
    have := congrArg List.length hnil
    rw [List.length_mapIdx, List.length_nil] at this
    omega

/-- Two processes with three sites each in two blocks, two threads and a vector that is not zero on any block. -/
example : ∃ (rank : Fin 2 × Fin 3 → Fin 2) (idx thread : Fin 2 × Fin 3 → ℕ) (f : Fin 1 → Fin 2 × Fin 3 → Fin 2 → ℂ), (∀ p, idx p < 2) ∧
    (∀ r, ∀ j < 2, ∃ p, rank p = r ∧ idx p = j) ∧ (∀ p, thread p < 2) ∧ ∀ p, LinearIndependent ℂ fun i => onBlock rank idx p (f i) := by
  refine ⟨fun p => p.1, fun p => if p.2 = 0 then 0 else 1, fun p => if p.2 = 2 then 1 else 0, fun _ p k => if k = 0 then 1 else (p.2 : ℕ), ?_, ?_, ?_, ?_⟩
  · decide
  · decide
  · decide
  · intro p
    rw [linearIndependent_unique_iff]
    intro h
    have := congrFun (congrFun h ⟨p, rfl, rfl⟩) 0
    simp [onBlock] at this

end

end Leonard
