import Verif.Layout.Lemmas

/-!
# C01, C02: numbering of sites and neighbour tables (single-process layout and MPI index function)
-/

set_option autoImplicit false

namespace Leonard

/-- **C01** (numbering). For every lattice with positive extents the site number of a coordinate inside
the lattice is in `[0,V)`, different coordinates have different numbers and every number is used. -/
theorem C01_site_number_bijective (g : Ext) (hg : g.Pos) :
    (∀ s, InBox g s → 0 ≤ globalCoordinateLocal g s ∧ globalCoordinateLocal g s < g.x * g.y * g.z * g.t) ∧
    (∀ s s', InBox g s → InBox g s' → globalCoordinateLocal g s = globalCoordinateLocal g s' → s = s') ∧
    (∀ i, 0 ≤ i → i < g.x * g.y * g.z * g.t → ∃ s, InBox g s ∧ globalCoordinateLocal g s = i) := by
  refine ⟨fun s h => ?_, fun s s' h h' e => ?_, fun i h0 h1 => ?_⟩
  · rw [globalCoordinateLocal_inBox h]; exact rawIndex_bounds h
  · rw [globalCoordinateLocal_inBox h, globalCoordinateLocal_inBox h'] at e
    exact rawIndex_inj h h' e
  · have hb := unIndex_inBox hg (i := i) ⟨h0, h1⟩
    exact ⟨unIndex g i, hb, by rw [globalCoordinateLocal_inBox hb, rawIndex_unIndex]⟩

example : Ext.Pos ⟨3, 2, 5, 4⟩ ∧ InBox ⟨3, 2, 5, 4⟩ ⟨2, 1, 3, 0⟩ := by decide

/-- **C01** (coordinate queries). The coordinate queries on the number made from a coordinate return that
coordinate, component by component, and no entry exists outside `[0,V)`. -/
theorem C01_coordinate_queries (g : Ext) (s : Site) (h : InBox g s) :
    (localInitialize g).globalIndex (globalCoordinateLocal g s) 0 = some s.x ∧
    (localInitialize g).globalIndex (globalCoordinateLocal g s) 1 = some s.y ∧
    (localInitialize g).globalIndex (globalCoordinateLocal g s) 2 = some s.z ∧
    (localInitialize g).globalIndex (globalCoordinateLocal g s) 3 = some s.t := by
  rw [globalCoordinateLocal_inBox h]
  simp [LocalTables.globalIndex, local_coord h, Site.dir]

/-- **C01** (both layouts number the sites alike). The MPI layout's numbering wraps every coordinate fully
and agrees with the single-process one up to one lattice length outside the lattice; beyond that the
two differ (`C01_wrap_counterexample`). -/
theorem C01_mpi_agrees (g : Ext) (hg : g.Pos) (s : Site) (h : NearBox g s) :
    globalCoordinateMpi g s = some (globalCoordinateLocal g s) := by
  rw [globalCoordinateMpi_eq hg, globalCoordinateLocal_eq h]

example : NearBox ⟨3, 2, 5, 4⟩ ⟨-1, 2, 5, -4⟩ := by unfold NearBox; decide

/-- The single-process numbering does not wrap a coordinate that is two lattice lengths away: it then returns a number
outside `[0,V)`, while the MPI numbering returns the periodic image. -/
theorem C01_wrap_counterexample :
    globalCoordinateMpi ⟨1, 1, 1, 2⟩ ⟨0, 0, 0, 4⟩ = some 0 ∧
    globalCoordinateLocal ⟨1, 1, 1, 2⟩ ⟨0, 0, 0, 4⟩ = 2 := by
  refine ⟨?_, by decide⟩
  rw [globalCoordinateMpi_eq (by decide)]; decide

/-- Every intermediate value of the index computation stays in `[0,V)`, so 32-bit arithmetic does not
overflow as soon as the volume itself is representable. -/
theorem C01_index_no_overflow (g : Ext) (s : Site) (h : InBox g s) :
    let a := g.y * s.x
    let b := a + s.y
    let c := g.z * b
    let d := c + s.z
    let e := g.t * d
    let f := e + s.t
    (0 ≤ a ∧ 0 ≤ b ∧ 0 ≤ c ∧ 0 ≤ d ∧ 0 ≤ e ∧ 0 ≤ f) ∧
    (a < g.volume ∧ b < g.volume ∧ c < g.volume ∧ d < g.volume ∧ e < g.volume ∧ f < g.volume) := by
  intro a b c d e f
  have hf := (rawIndex_bounds h).2
  obtain ⟨hx, hy, hz, ht⟩ := h
  have ha : 0 ≤ a := mul_nonneg (by omega) hx.1
  have hab : a ≤ b := by simp only [b]; omega
  have hbc : b ≤ c := by simp only [c]; nlinarith
  have hcd : c ≤ d := by simp only [d]; omega
  have hde : d ≤ e := by simp only [e]; nlinarith
  have hef : e ≤ f := by simp only [f]; omega
  have hf' : f < g.volume := hf
  omega

/-- **C02** (what a step does). A step up (down) from any site leads to a site number in `[0,V)` whose
coordinate in that direction is increased (decreased) by one modulo the extent; the other three coordinates
are unchanged. -/
theorem C02_step_changes_one_coordinate (g : Ext) (hg : g.Pos) (i : ℤ) (h0 : 0 ≤ i) (h1 : i < g.volume) (mu : Fin 4) :
    ∃ u d : ℤ,
      (localInitialize g).supAt i mu = some u ∧ (localInitialize g).sdnAt i mu = some d ∧
      (0 ≤ u ∧ u < g.volume) ∧ (0 ≤ d ∧ d < g.volume) ∧
      ∃ c cu cd : Fin 4 → ℤ,
        (∀ nu, (localInitialize g).globalIndex i nu = some (c nu)) ∧
        (∀ nu, (localInitialize g).globalIndex u nu = some (cu nu)) ∧
        (∀ nu, (localInitialize g).globalIndex d nu = some (cd nu)) ∧
        cu mu = (c mu + 1) % g.dir mu ∧ cd mu = (c mu - 1) % g.dir mu ∧
        ∀ nu, nu ≠ mu → cu nu = c nu ∧ cd nu = c nu := by
  have hb := unIndex_inBox hg ⟨h0, h1⟩
  have hi := rawIndex_unIndex (g := g) i
  have hu := stepUp_inBox hg mu (unIndex g i)
  have hd := stepDown_inBox hg mu (unIndex g i)
  refine ⟨rawIndex g (stepUp g mu (unIndex g i)), rawIndex g (stepDown g mu (unIndex g i)), ?_, ?_,
    rawIndex_bounds hu, rawIndex_bounds hd, (unIndex g i).dir, (stepUp g mu (unIndex g i)).dir,
    (stepDown g mu (unIndex g i)).dir, ?_, ?_, ?_, ?_, ?_, ?_⟩
  · rw [LocalTables.supAt, ← hi, local_sup hb, hi]; rfl
  · rw [LocalTables.sdnAt, ← hi, local_down hb, hi]; rfl
  · intro nu; rw [LocalTables.globalIndex, ← hi, local_coord hb, hi]; rfl
  · intro nu; rw [LocalTables.globalIndex, local_coord hu]; rfl
  · intro nu; rw [LocalTables.globalIndex, local_coord hd]; rfl
  · fin_cases mu <;> simp [stepUp, wrap, Site.dir, Site.add, deltaPlus, Ext.dir]
  · fin_cases mu <;> simp [stepDown, wrap, Site.dir, Site.add, deltaMinus, Ext.dir] <;> rfl
  · intro nu hne
    obtain ⟨hx, hy, hz, ht⟩ := hb
    fin_cases mu <;> fin_cases nu <;>
      simp [stepUp, stepDown, wrap, Site.dir, Site.add, deltaPlus, deltaMinus, Int.emod_eq_of_lt, *] at hne ⊢

example : Ext.Pos ⟨3, 1, 5, 4⟩ ∧ (0 : ℤ) ≤ 37 ∧ 37 < Ext.volume ⟨3, 1, 5, 4⟩ := by decide

/-- **C02** (translations). Up then down and down then up return to the start, and steps in any two
directions commute, for every site of every lattice. -/
theorem C02_steps_invert_and_commute (g : Ext) (hg : g.Pos) (i : ℤ) (h0 : 0 ≤ i) (h1 : i < g.volume) (mu nu : Fin 4) :
    let T := localInitialize g
    (T.supAt i mu >>= fun j => T.sdnAt j mu) = some i ∧
    (T.sdnAt i mu >>= fun j => T.supAt j mu) = some i ∧
    (T.supAt i mu >>= fun j => T.supAt j nu) = (T.supAt i nu >>= fun j => T.supAt j mu) ∧
    (T.sdnAt i mu >>= fun j => T.sdnAt j nu) = (T.sdnAt i nu >>= fun j => T.sdnAt j mu) ∧
    (T.supAt i mu >>= fun j => T.sdnAt j nu) = (T.sdnAt i nu >>= fun j => T.supAt j mu) ∧
    (T.supAt i mu >>= fun j => T.supAt j nu).isSome ∧
    (T.sdnAt i mu >>= fun j => T.sdnAt j nu).isSome ∧
    (T.supAt i mu >>= fun j => T.sdnAt j nu).isSome := by
  intro T
  have hb := unIndex_inBox hg ⟨h0, h1⟩
  have hi := rawIndex_unIndex (g := g) i
  have up : ∀ s, InBox g s → ∀ m, T.supAt (rawIndex g s) m = some (rawIndex g (stepUp g m s)) := by
    intro s hs m; simp only [T, LocalTables.supAt, local_sup hs]; rfl
  have dn : ∀ s, InBox g s → ∀ m, T.sdnAt (rawIndex g s) m = some (rawIndex g (stepDown g m s)) := by
    intro s hs m; simp only [T, LocalTables.sdnAt, local_down hs]; rfl
  have bu := fun m s => stepUp_inBox hg m s
  have bd := fun m s => stepDown_inBox hg m s
  rw [← hi]
  simp [up, dn, bu, bd, hb, stepDown_stepUp, stepUp_stepDown]
  exact ⟨by rw [stepUp_comm], by rw [stepDown_comm], by rw [stepUpDown_comm]⟩

/-- **C02** (permutation). For each direction the step up is a permutation of the site numbers: no two
sites have the same upper neighbour and every site is the upper neighbour of some site. -/
theorem C02_step_is_permutation (g : Ext) (hg : g.Pos) (mu : Fin 4) :
    (∀ i j, 0 ≤ i → i < g.volume → 0 ≤ j → j < g.volume →
      (localInitialize g).supAt i mu = (localInitialize g).supAt j mu → i = j) ∧
    (∀ k, 0 ≤ k → k < g.volume → ∃ i, 0 ≤ i ∧ i < g.volume ∧ (localInitialize g).supAt i mu = some k) := by
  constructor
  · intro i j hi0 hi1 hj0 hj1 e
    have a := (C02_steps_invert_and_commute g hg i hi0 hi1 mu mu).1
    have b := (C02_steps_invert_and_commute g hg j hj0 hj1 mu mu).1
    rw [e] at a
    exact Option.some.inj (a.symm.trans b)
  · intro k hk0 hk1
    obtain ⟨u, d, -, hd, -, hdb, -⟩ := C02_step_changes_one_coordinate g hg k hk0 hk1 mu
    have a := (C02_steps_invert_and_commute g hg k hk0 hk1 mu mu).2.1
    rw [hd] at a
    exact ⟨d, hdb.1, hdb.2, a⟩

end Leonard
