import Verif.Layout.Spec
import Mathlib.Tactic.FinCases
import Mathlib.Tactic.Positivity
import Mathlib.Data.List.Induction

set_option autoImplicit false

namespace Leonard

theorem mem_intRange {n i : ℤ} : i ∈ intRange n ↔ 0 ≤ i ∧ i < n := by
  unfold intRange
  simp only [List.mem_map, List.mem_range]
  constructor
  · rintro ⟨a, ha, rfl⟩
    simp only [Int.ofNat_eq_natCast]
    omega
  · rintro ⟨h0, h1⟩
    exact ⟨i.toNat, by omega, by simp only [Int.ofNat_eq_natCast]; omega⟩

theorem nodup_intRange (n : ℤ) : (intRange n).Nodup := by
  unfold intRange
  exact List.Nodup.map (fun a b h => by simpa using h) List.nodup_range

theorem length_intRange (n : ℤ) : (intRange n).length = n.toNat := by
  simp [intRange]

theorem mem_loopSites {g : Ext} {s : Site} : s ∈ loopSites g ↔ InBox g s := by
  unfold loopSites InBox
  simp only [List.mem_flatMap, List.mem_map, mem_intRange]
  constructor
  · rintro ⟨x, hx, y, hy, z, hz, t, ht, rfl⟩
    exact ⟨hx, hy, hz, ht⟩
  · rintro ⟨hx, hy, hz, ht⟩
    exact ⟨s.x, hx, s.y, hy, s.z, hz, s.t, ht, rfl⟩

theorem modulusMpi_eq (v m : ℤ) (hm : 0 < m) : modulusMpi v m = some (v % m) := by
  -- strong induction on a measure of the distance to the range
  have key : ∀ n : ℕ, ∀ v : ℤ, (if v < 0 then -v else v).toNat < n → modulusMpi v m = some (v % m) := by
    intro n
    induction n with
    | zero => intro v h; omega
    | succ n ih =>
      intro v h
      rw [modulusMpi]
      by_cases h1 : v ≥ m
      · rw [if_pos h1, ih (v - m) (by split at h <;> split <;> omega)]
        simp
      · rw [if_neg h1]
        by_cases h2 : v < 0
        · rw [if_pos h2]
          by_cases h3 : v + m < 0
          · rw [ih (v + m) (by rw [if_pos h3]; rw [if_pos h2] at h; omega)]
            simp
          · rw [modulusMpi, if_neg (by omega), if_neg h3]
            congr 1
            rw [← Int.add_emod_right v m]
            exact (Int.emod_eq_of_lt (by omega) (by omega)).symm
        · rw [if_neg h2, Int.emod_eq_of_lt (by omega) (by omega)]
  exact key _ v (Nat.lt_succ_self _)

theorem modulusLocal_eq (v m : ℤ) (h0 : -m ≤ v) (h1 : v < 2 * m) : modulusLocal v m = v % m := by
  unfold modulusLocal
  split
  · rw [← Int.sub_emod_right v m]
    exact (Int.emod_eq_of_lt (by omega) (by omega)).symm
  · split
    · rw [← Int.add_emod_right v m]
      exact (Int.emod_eq_of_lt (by omega) (by omega)).symm
    · exact (Int.emod_eq_of_lt (by omega) (by omega)).symm

theorem modulusLocal_of_range {v m : ℤ} (h0 : 0 ≤ v) (h1 : v < m) : modulusLocal v m = v := by
  rw [modulusLocal_eq v m (by omega) (by omega), Int.emod_eq_of_lt h0 h1]

theorem wrap_inBox {g : Ext} (hg : g.Pos) (s : Site) : InBox g (wrap g s) := by
  obtain ⟨hx, hy, hz, ht⟩ := hg
  refine ⟨⟨?_, ?_⟩, ⟨?_, ?_⟩, ⟨?_, ?_⟩, ⟨?_, ?_⟩⟩
  all_goals first
    | exact Int.emod_nonneg _ (by omega)
    | exact Int.emod_lt_of_pos _ (by assumption)

theorem wrap_of_inBox {g : Ext} {s : Site} (h : InBox g s) : wrap g s = s := by
  obtain ⟨⟨a, b⟩, ⟨c, d⟩, ⟨e, f⟩, ⟨i, j⟩⟩ := h
  simp [wrap, Int.emod_eq_of_lt, *]

theorem wrap_wrap_add {g : Ext} (s d : Site) : wrap g ((wrap g s).add d) = wrap g (s.add d) := by
  simp [wrap, Site.add]

/-- Coordinates at most one lattice length outside in each direction. -/
def NearBox (g : Ext) (s : Site) : Prop :=
  (-g.x ≤ s.x ∧ s.x < 2 * g.x) ∧ (-g.y ≤ s.y ∧ s.y < 2 * g.y) ∧ (-g.z ≤ s.z ∧ s.z < 2 * g.z) ∧
    (-g.t ≤ s.t ∧ s.t < 2 * g.t)

theorem globalCoordinateMpi_eq {g : Ext} (hg : g.Pos) (s : Site) :
    globalCoordinateMpi g s = some (rawIndex g (wrap g s)) := by
  obtain ⟨hx, hy, hz, ht⟩ := hg
  simp [globalCoordinateMpi, modulusMpi_eq, *, wrap]

theorem globalCoordinateLocal_eq {g : Ext} {s : Site} (h : NearBox g s) :
    globalCoordinateLocal g s = rawIndex g (wrap g s) := by
  obtain ⟨⟨a, b⟩, ⟨c, d⟩, ⟨e, f⟩, ⟨i, j⟩⟩ := h
  simp [globalCoordinateLocal, modulusLocal_eq, *, wrap]

theorem InBox.near {g : Ext} {s : Site} (h : InBox g s) : NearBox g s := by
  unfold InBox at h; unfold NearBox; omega

theorem InBox.pos {g : Ext} {s : Site} (h : InBox g s) : g.Pos := by
  unfold InBox at h; unfold Ext.Pos; omega

theorem InBox.near_plus {g : Ext} {s : Site} (h : InBox g s) (i : Fin 4) : NearBox g (s.add (deltaPlus i)) := by
  unfold InBox at h; unfold NearBox
  fin_cases i <;> simp [Site.add, deltaPlus] <;> omega

theorem InBox.near_minus {g : Ext} {s : Site} (h : InBox g s) (i : Fin 4) : NearBox g (s.add (deltaMinus i)) := by
  unfold InBox at h; unfold NearBox
  fin_cases i <;> simp [Site.add, deltaMinus] <;> omega

/-! ### Mixed radix -/

theorem radix_bound {b q r n : ℤ} (hq : 0 ≤ q ∧ q < n) (hr : 0 ≤ r ∧ r < b) :
    0 ≤ b * q + r ∧ b * q + r < b * n := by
  constructor
  · nlinarith
  · nlinarith

theorem radix_div {b q r : ℤ} (hr : 0 ≤ r ∧ r < b) : (b * q + r) / b = q := by
  rw [add_comm, Int.add_mul_ediv_left _ _ (by omega), Int.ediv_eq_zero_of_lt hr.1 hr.2, zero_add]

theorem radix_mod {b q r : ℤ} (hr : 0 ≤ r ∧ r < b) : (b * q + r) % b = r := by
  rw [add_comm, Int.add_mul_emod_self_left, Int.emod_eq_of_lt hr.1 hr.2]

/-- Decoding a site number. -/
def unIndex (g : Ext) (i : ℤ) : Site :=
  ⟨i / g.t / g.z / g.y, i / g.t / g.z % g.y, i / g.t % g.z, i % g.t⟩

theorem unIndex_rawIndex {g : Ext} {s : Site} (h : InBox g s) : unIndex g (rawIndex g s) = s := by
  obtain ⟨hx, hy, hz, ht⟩ := h
  unfold unIndex rawIndex
  rw [radix_div ht, radix_div hz, radix_div hy, radix_mod ht, radix_mod hz, radix_mod hy]

theorem rawIndex_unIndex {g : Ext} (i : ℤ) : rawIndex g (unIndex g i) = i := by
  unfold unIndex rawIndex
  simp only [Int.mul_ediv_add_emod]

theorem rawIndex_bounds {g : Ext} {s : Site} (h : InBox g s) :
    0 ≤ rawIndex g s ∧ rawIndex g s < g.volume := by
  obtain ⟨hx, hy, hz, ht⟩ := h
  have h1 := radix_bound hx hy
  have h2 := radix_bound h1 hz
  have h3 := radix_bound h2 ht
  unfold rawIndex Ext.volume
  refine ⟨h3.1, ?_⟩
  calc _ < _ := h3.2
    _ = _ := by ring

theorem unIndex_inBox {g : Ext} (hg : g.Pos) {i : ℤ} (h : 0 ≤ i ∧ i < g.volume) : InBox g (unIndex g i) := by
  obtain ⟨hx, hy, hz, ht⟩ := hg
  unfold Ext.volume at h
  have a1 : i / g.t < g.x * g.y * g.z := Int.ediv_lt_of_lt_mul ht h.2
  have a2 : i / g.t / g.z < g.x * g.y := Int.ediv_lt_of_lt_mul hz a1
  have a3 : i / g.t / g.z / g.y < g.x := Int.ediv_lt_of_lt_mul hy a2
  have b1 : 0 ≤ i / g.t := Int.ediv_nonneg h.1 ht.le
  have b2 : 0 ≤ i / g.t / g.z := Int.ediv_nonneg b1 hz.le
  have b3 : 0 ≤ i / g.t / g.z / g.y := Int.ediv_nonneg b2 hy.le
  exact ⟨⟨b3, a3⟩, ⟨Int.emod_nonneg _ hy.ne', Int.emod_lt_of_pos _ hy⟩,
    ⟨Int.emod_nonneg _ hz.ne', Int.emod_lt_of_pos _ hz⟩, ⟨Int.emod_nonneg _ ht.ne', Int.emod_lt_of_pos _ ht⟩⟩

theorem rawIndex_inj {g : Ext} {s s' : Site} (h : InBox g s) (h' : InBox g s')
    (e : rawIndex g s = rawIndex g s') : s = s' := by
  rw [← unIndex_rawIndex h, e, unIndex_rawIndex h']

theorem Ext.Pos.volume_pos {g : Ext} (hg : g.Pos) : 0 < g.volume := by
  obtain ⟨hx, hy, hz, ht⟩ := hg
  unfold Ext.volume; positivity

/-! ### Tables filled by a loop -/

theorem foldl_write_get {α β : Type} (k : β → ℤ) (v : β → α) (l : List β)
    (inj : ∀ a ∈ l, ∀ b ∈ l, k a = k b → v a = v b) (m : Mem α) (a : β) (ha : a ∈ l) :
    (l.foldl (fun m b => m.write (k b) (v b)) m) (k a) = some (v a) := by
  induction l using List.reverseRecOn generalizing a with
  | nil => cases ha
  | append_singleton l b ih =>
    rw [List.foldl_append]
    simp only [List.foldl_cons, List.foldl_nil, Mem.write]
    split
    · rename_i h
      rw [inj b (by simp) a ha h.symm]
    · rename_i h
      have : a ∈ l := by
        rcases List.mem_append.1 ha with h' | h'
        · exact h'
        · simp only [List.mem_singleton] at h'; subst h'; exact absurd rfl h
      exact ih (fun a ha b hb => inj a (by simp [ha]) b (by simp [hb])) a this

theorem foldl_write_none {α β : Type} (k : β → ℤ) (v : β → α) (l : List β) (m : Mem α) (i : ℤ)
    (h : ∀ b ∈ l, k b ≠ i) :
    (l.foldl (fun m b => m.write (k b) (v b)) m) i = m i := by
  induction l generalizing m with
  | nil => rfl
  | cons b l ih =>
    rw [List.foldl_cons, ih _ (fun b hb => h b (by simp [hb]))]
    simp only [Mem.write]
    rw [if_neg (Ne.symm (h b (by simp)))]

theorem globalCoordinateLocal_inBox {g : Ext} {s : Site} (h : InBox g s) :
    globalCoordinateLocal g s = rawIndex g s := by
  rw [globalCoordinateLocal_eq h.near, wrap_of_inBox h]

/-- The site one step up in direction `i`, on the torus. -/
def stepUp (g : Ext) (i : Fin 4) (s : Site) : Site := wrap g (s.add (deltaPlus i))

/-- The site one step down in direction `i`, on the torus. -/
def stepDown (g : Ext) (i : Fin 4) (s : Site) : Site := wrap g (s.add (deltaMinus i))

private theorem loop_inj {α : Type} {g : Ext} (v : Site → α) :
    ∀ a ∈ loopSites g, ∀ b ∈ loopSites g, globalCoordinateLocal g a = globalCoordinateLocal g b → v a = v b := by
  intro a ha b hb e
  have ha := mem_loopSites.1 ha
  have hb := mem_loopSites.1 hb
  rw [globalCoordinateLocal_inBox ha, globalCoordinateLocal_inBox hb] at e
  rw [rawIndex_inj ha hb e]

theorem local_sup {g : Ext} {s : Site} (h : InBox g s) :
    (localInitialize g).sup (rawIndex g s) = some fun i => rawIndex g (stepUp g i s) := by
  have := foldl_write_get (globalCoordinateLocal g)
    (fun s => fun i => globalCoordinateLocal g (s.add (deltaPlus i))) (loopSites g)
    (loop_inj _) Mem.empty s (mem_loopSites.2 h)
  rw [globalCoordinateLocal_inBox h] at this
  refine this.trans ?_
  congr 1
  funext i
  exact globalCoordinateLocal_eq (h.near_plus i)

theorem local_down {g : Ext} {s : Site} (h : InBox g s) :
    (localInitialize g).down (rawIndex g s) = some fun i => rawIndex g (stepDown g i s) := by
  have := foldl_write_get (globalCoordinateLocal g)
    (fun s => fun i => globalCoordinateLocal g (s.add (deltaMinus i))) (loopSites g)
    (loop_inj _) Mem.empty s (mem_loopSites.2 h)
  rw [globalCoordinateLocal_inBox h] at this
  refine this.trans ?_
  congr 1
  funext i
  exact globalCoordinateLocal_eq (h.near_minus i)

theorem local_coord {g : Ext} {s : Site} (h : InBox g s) :
    (localInitialize g).coord (rawIndex g s) = some s := by
  have := foldl_write_get (globalCoordinateLocal g) (fun s => s) (loopSites g)
    (loop_inj _) Mem.empty s (mem_loopSites.2 h)
  rw [globalCoordinateLocal_inBox h] at this
  exact this

theorem local_localIndex {g : Ext} {i : ℤ} (h : 0 ≤ i ∧ i < g.volume) :
    (localInitialize g).localIndex i = some i :=
  foldl_write_get (fun s => s) (fun s => s) (intRange g.volume) (fun _ _ _ _ e => e) Mem.empty i (mem_intRange.2 h)

theorem stepUp_inBox {g : Ext} (hg : g.Pos) (i : Fin 4) (s : Site) : InBox g (stepUp g i s) := wrap_inBox hg _
theorem stepDown_inBox {g : Ext} (hg : g.Pos) (i : Fin 4) (s : Site) : InBox g (stepDown g i s) := wrap_inBox hg _

theorem stepDown_stepUp {g : Ext} {s : Site} (h : InBox g s) (i : Fin 4) : stepDown g i (stepUp g i s) = s := by
  unfold stepDown stepUp
  rw [wrap_wrap_add]
  have : (s.add (deltaPlus i)).add (deltaMinus i) = s := by
    fin_cases i <;> simp [Site.add, deltaPlus, deltaMinus]
  rw [this, wrap_of_inBox h]

theorem stepUp_stepDown {g : Ext} {s : Site} (h : InBox g s) (i : Fin 4) : stepUp g i (stepDown g i s) = s := by
  unfold stepDown stepUp
  rw [wrap_wrap_add]
  have : (s.add (deltaMinus i)).add (deltaPlus i) = s := by
    fin_cases i <;> simp [Site.add, deltaPlus, deltaMinus]
  rw [this, wrap_of_inBox h]

theorem Site.add_right_comm (s a b : Site) : (s.add a).add b = (s.add b).add a := by
  simp [Site.add, _root_.add_right_comm]

theorem stepUp_comm {g : Ext} (i j : Fin 4) (s : Site) :
    stepUp g i (stepUp g j s) = stepUp g j (stepUp g i s) := by
  unfold stepUp; rw [wrap_wrap_add, wrap_wrap_add, Site.add_right_comm]

theorem stepUpDown_comm {g : Ext} (i j : Fin 4) (s : Site) :
    stepUp g i (stepDown g j s) = stepDown g j (stepUp g i s) := by
  unfold stepUp stepDown; rw [wrap_wrap_add, wrap_wrap_add, Site.add_right_comm]

theorem stepDown_comm {g : Ext} (i j : Fin 4) (s : Site) :
    stepDown g i (stepDown g j s) = stepDown g j (stepDown g i s) := by
  unfold stepDown; rw [wrap_wrap_add, wrap_wrap_add, Site.add_right_comm]

end Leonard
