/-
Lemmas about the multishift solvers, for C37.
-/
import Verif.Solver.Props

set_option autoImplicit false

namespace Leonard

open Vec

variable {V : Type} [AddCommGroup V] [Module ℂ V] [Vec V]

theorem shift_linear {A : V → V} {B : ℂ → V → V} (hA : Linear A) (hB : ∀ σ v, B σ v = A v + σ • v) (σ : ℂ) :
    Linear (B σ) :=
  ⟨fun v w => by rw [hB, hB, hB, hA.add, smul_add]; abel,
    fun a v => by rw [hB, hB, hA.smul, smul_add, smul_comm σ a]⟩

theorem shiftCgLoop_ok {M : V → V} (hM : Linear M) (b : V) (eps : ℝ) :
    ∀ (n : ℕ) (x r : V) (p : Option V) (norm : ℝ), n ≠ 0 → r = b - M x →
      (shiftCgLoop M eps n x r p norm).1 = true → SolvesTo M b eps (shiftCgLoop M eps n x r p norm).2 := by
  intro n
  induction n with
  | zero => intro x r p norm h0 _ h; exact absurd rfl h0
  | succ n ih =>
    intro x r p norm _ hr h
    cases p with
    | none => simp [shiftCgLoop] at h
    | some p =>
      simp only [shiftCgLoop] at h ⊢
      by_cases h1 : (dot p (M p)).re = 0
      · simp [h1] at h
      rw [if_neg h1] at h ⊢
      by_cases h2 : norm2 (r - ((norm / (dot p (M p)).re : ℝ) : ℂ) • M p) < eps
      · rw [if_pos h2]
        refine ⟨_, rfl, ?_⟩
        rw [hr, residual_step hM] at h2
        exact h2
      rw [if_neg h2] at h ⊢
      by_cases h3 : n = 0
      · simp [h3] at h
      rw [if_neg h3] at h ⊢
      exact ih _ _ _ _ h3 (by rw [hr, residual_step hM]) h

theorem meLoop_ok {B : ℂ → V → V} (hB : ∀ σ, Linear (B σ)) (b : V) (eps : ℝ) {maxSteps : ℕ} (hm : maxSteps ≠ 0) :
    ∀ (shifts : List ℝ) (prev : Option V), (meLoop B eps maxSteps b prev shifts).1 = true →
      List.Forall₂ (fun σ x => SolvesTo (B (σ : ℝ)) b eps x) shifts (meLoop B eps maxSteps b prev shifts).2 := by
  intro shifts
  induction shifts with
  | nil => intro prev _; simp [meLoop]
  | cons σ rest ih =>
    intro prev h
    cases prev with
    | none => simp [meLoop, hm] at h
    | some x =>
      simp only [meLoop, Bool.and_eq_true] at h ⊢
      exact List.Forall₂.cons (shiftCgLoop_ok (hB _) b eps maxSteps _ _ _ _ hm rfl h.1) (ih _ h.2)

theorem chronoStep_ok {M : V → V} (hM : Linear M) (b : V) (eps : ℝ) {maxSteps : ℕ} (hm : maxSteps ≠ 0) (old : V)
    (prev : Option V) (h : (chronoStep M eps maxSteps b old prev).1 = true) :
    SolvesTo M b eps (chronoStep M eps maxSteps b old prev).2 := by
  unfold chronoStep at h ⊢
  cases hg : prev.bind fun v => chronoGuess M b v old with
  | none => rw [hg] at h; simp [hm] at h
  | some g =>
    rw [hg] at h
    exact shiftCgLoop_ok hM b eps maxSteps _ _ _ _ hm rfl h

theorem chronoLoop_ok {B : ℂ → V → V} (hB : ∀ σ, Linear (B σ)) (b : V) (eps : ℝ) {maxSteps : ℕ} (hm : maxSteps ≠ 0)
    (old : ℕ → V) : ∀ (shifts : List ℝ) (i : ℕ) (prev : Option V), (chronoLoop B eps maxSteps b old i prev shifts).1 = true →
      List.Forall₂ (fun σ x => SolvesTo (B (σ : ℝ)) b eps x) shifts (chronoLoop B eps maxSteps b old i prev shifts).2 := by
  intro shifts
  induction shifts with
  | nil => intro i prev _; simp [chronoLoop]
  | cons σ rest ih =>
    intro i prev h
    simp only [chronoLoop, Bool.and_eq_true] at h ⊢
    exact List.Forall₂.cons (chronoStep_ok (hB _) b eps hm _ _ h.1) (ih _ _ h.2)

theorem shiftCg_converges [FiniteDimensional ℂ V] {M : V → V} (hM : Linear M) (hH : HermPos M) {eps : ℝ} (heps : 0 < eps)
    {maxSteps : ℕ} (hn : Module.finrank ℂ V ≤ maxSteps) (b x : V) (hx : M x ≠ b) :
    (shiftCg M eps maxSteps b x).1 = true := by
  refine shiftCgLoop_terminates hM hH heps maxSteps ⊥ _ _ _ _ (CgInv.start hM ?_) (by simpa using hn)
  intro h0
  exact hx (sub_eq_zero.mp h0).symm

theorem shiftCgLoop_some {M : V → V} (eps : ℝ) : ∀ (n : ℕ) (x r : V) (p : Option V) (norm : ℝ),
    (shiftCgLoop M eps n x r p norm).1 = true → ∃ y, (shiftCgLoop M eps n x r p norm).2 = some y := by
  intro n
  induction n with
  | zero => intro x r p norm _; exact ⟨x, by simp [shiftCgLoop]⟩
  | succ n ih =>
    intro x r p norm h
    cases p with
    | none => simp [shiftCgLoop] at h
    | some p =>
      simp only [shiftCgLoop] at h ⊢
      by_cases h1 : (dot p (M p)).re = 0
      · simp [h1] at h
      rw [if_neg h1] at h ⊢
      by_cases h2 : norm2 (r - ((norm / (dot p (M p)).re : ℝ) : ℂ) • M p) < eps
      · rw [if_pos h2]; exact ⟨_, rfl⟩
      rw [if_neg h2] at h ⊢
      by_cases h3 : n = 0
      · simp [h3] at h
      rw [if_neg h3] at h ⊢
      exact ih _ _ _ _ h

theorem meLoop_converges [FiniteDimensional ℂ V] {B : ℂ → V → V} (hB : ∀ σ, Linear (B σ)) {eps : ℝ} (heps : 0 < eps)
    {maxSteps : ℕ} (hn : Module.finrank ℂ V ≤ maxSteps) (b : V) :
    ∀ (shifts : List ℝ) (x : V), (∀ σ ∈ shifts, HermPos (B (σ : ℝ))) →
      (meLoop B eps maxSteps b (some x) shifts).1 = false →
      ∃ σ ∈ shifts, ∃ y, B (σ : ℝ) y = b ∧ some y ∈ some x :: (meLoop B eps maxSteps b (some x) shifts).2 := by
  intro shifts
  induction shifts with
  | nil => intro x _ h; simp [meLoop] at h
  | cons σ rest ih =>
    intro x hH h
    by_cases hx : B (σ : ℝ) x = b
    · exact ⟨σ, by simp, x, hx, by simp⟩
    have h1 := shiftCg_converges (hB (σ : ℝ)) (hH σ (by simp)) heps hn b x hx
    obtain ⟨y, hy⟩ := shiftCgLoop_some eps maxSteps _ _ _ _ h1
    change (shiftCg (B σ) eps maxSteps b x).2 = some y at hy
    simp only [meLoop, h1, Bool.true_and, hy] at h ⊢
    obtain ⟨τ, h2, z, h3, h4⟩ := ih y (fun τ hτ => hH τ (List.mem_cons_of_mem _ hτ)) h
    exact ⟨τ, List.mem_cons_of_mem _ h2, z, h3, List.mem_cons_of_mem _ h4⟩

/-! ### The minimal residual solver -/

/-- What holds for one further shift: the residual is a multiple of at most one of the common residual. -/
def MmmrInv (A : V → V) (b r : V) (e : ℝ × Option (ℂ × V)) : Prop :=
  ∃ f x, e.2 = some (f, x) ∧ Complex.normSq f ≤ 1 ∧ b - (A x + (e.1 : ℂ) • x) = f • r

theorem mmmrShift_inv {A : V → V} (hA : Linear A) {b r : V} {σl σ : ℝ} {alpha : ℝ} (ha : 0 ≤ alpha) (hσ : σl ≤ σ)
    {e : Option (ℂ × V)} (h : MmmrInv A b r (σ, e)) :
    MmmrInv A b (r - (alpha : ℂ) • (A r + (σl : ℂ) • r)) (σ, mmmrShift σl alpha r σ e) := by
  obtain ⟨f, x, he, hf, hr⟩ := h
  simp only at he hr
  subst he
  have hd : (1 : ℂ) + ((σ - σl : ℝ) : ℂ) * alpha = ((1 + (σ - σl) * alpha : ℝ) : ℂ) := by push_cast; ring
  have hd1 : 1 ≤ 1 + (σ - σl) * alpha := by nlinarith [sub_nonneg.mpr hσ, mul_nonneg (sub_nonneg.mpr hσ) ha]
  have hd0 : (1 : ℂ) + ((σ - σl : ℝ) : ℂ) * alpha ≠ 0 := by
    rw [hd]; exact Complex.ofReal_ne_zero.mpr (by linarith)
  refine ⟨f / (1 + ((σ - σl : ℝ) : ℂ) * alpha), x + ((f / (1 + ((σ - σl : ℝ) : ℂ) * alpha)) * alpha) • r, ?_, ?_, ?_⟩
  · simp only [mmmrShift, Option.bind_some, if_neg hd0]
  · rw [Complex.normSq_div, hd, Complex.normSq_ofReal]
    rw [div_le_one (by nlinarith)]
    nlinarith
  · simp only
    generalize hD : (1 : ℂ) + ((σ - σl : ℝ) : ℂ) * alpha = D at *
    have hfD : f = (f / D) * D := by field_simp
    rw [hA.add, hA.smul]
    have e1 : b - (A x + ((f / D) * alpha) • A r + (σ : ℂ) • (x + ((f / D) * alpha) • r)) =
        (b - (A x + (σ : ℂ) • x)) - ((f / D) * alpha) • (A r + (σ : ℂ) • r) := by
      simp only [smul_add, smul_smul, mul_comm (σ : ℂ)]; abel
    rw [e1, hr]
    generalize hg : f / D = g at *
    rw [hfD, ← hD]
    push_cast
    module

theorem mmmr_alpha {M : V → V} (hH : HermPos M) {omega : ℝ} (ho : 0 ≤ omega) (r : V) :
    ∃ a : ℝ, 0 ≤ a ∧ (omega : ℂ) * (dot (M r) r / dot (M r) (M r)) = (a : ℂ) := by
  refine ⟨omega * ((dot r (M r)).re / norm2 (M r)), ?_, ?_⟩
  · refine mul_nonneg ho (div_nonneg ?_ (norm2_nonneg _))
    by_cases h : r = 0
    · rw [h, zero_dot]; simp
    · exact (hH.pos r h).le
  · rw [hH.herm, dot_self, hH.form_real]
    push_cast; rfl

theorem mmmrLoop_ok {A : V → V} {B : ℂ → V → V} (hA : Linear A) (hB : ∀ σ v, B σ v = A v + σ • v) {omega : ℝ}
    (ho : 0 ≤ omega) (eps : ℝ) {σl : ℝ} (hH : HermPos (B (σl : ℝ))) (b : V) :
    ∀ (n : ℕ) (r xl : V) (xs : List (ℝ × Option (ℂ × V))), r = b - B σl xl → (∀ e ∈ xs, σl ≤ e.1 ∧ MmmrInv A b r e) →
      (mmmrLoop B omega eps σl n r xl xs).1 = true →
      List.Forall₂ (fun σ x => SolvesTo (B (σ : ℝ)) b eps x) (xs.map Prod.fst ++ [σl]) (mmmrLoop B omega eps σl n r xl xs).2 := by
  intro n
  induction n with
  | zero => intro r xl xs _ _ h; simp [mmmrLoop] at h
  | succ n ih =>
    intro r xl xs hr hxs h
    obtain ⟨a, ha, hal⟩ := mmmr_alpha hH ho r
    have hL := shift_linear hA hB (σl : ℝ)
    simp only [mmmrLoop] at h ⊢
    by_cases h0 : dot (B σl r) (B σl r) = 0
    · simp [h0] at h
    rw [if_neg h0] at h ⊢
    rw [hal] at h ⊢
    have hr' : r - (a : ℂ) • B σl r = b - B σl (xl + (a : ℂ) • r) := by
      nth_rewrite 1 [hr]; rw [residual_step hL]
    have hxs' : ∀ e ∈ xs.map fun e => (e.1, mmmrShift σl (a : ℂ) r e.1 e.2), σl ≤ e.1 ∧ MmmrInv A b (r - (a : ℂ) • B σl r) e := by
      intro e he
      obtain ⟨e0, he0, rfl⟩ := List.mem_map.mp he
      refine ⟨(hxs e0 he0).1, ?_⟩
      rw [hB]
      exact mmmrShift_inv hA ha (hxs e0 he0).1 (hxs e0 he0).2
    have hfst : (xs.map fun e => (e.1, mmmrShift σl (a : ℂ) r e.1 e.2)).map Prod.fst = xs.map Prod.fst := by
      rw [List.map_map]; rfl
    by_cases h1 : norm2 (r - (a : ℂ) • B σl r) < eps
    · rw [if_pos h1]
      rw [← hfst]
      generalize (xs.map fun e => (e.1, mmmrShift σl (a : ℂ) r e.1 e.2)) = ys at hxs'
      refine List.rel_append ?_ (List.Forall₂.cons ⟨_, rfl, by rw [← hr']; exact h1⟩ List.Forall₂.nil)
      rw [List.forall₂_map_left_iff, List.forall₂_map_right_iff, List.forall₂_same]
      intro e he
      obtain ⟨_, f, x, h2, h3, h4⟩ := hxs' e he
      refine ⟨x, by rw [h2]; rfl, ?_⟩
      rw [hB, h4, norm2_smul]
      calc _ ≤ 1 * norm2 (r - (a : ℂ) • B σl r) := mul_le_mul_of_nonneg_right h3 (norm2_nonneg _)
        _ < eps := by rw [one_mul]; exact h1
    · rw [if_neg h1] at h ⊢
      have := ih _ _ _ hr' hxs' h
      rw [hfst] at this
      exact this

theorem mmmrFront_zero {B : ℂ → V → V} {omega eps : ℝ} {b : V} : ∀ {shifts : List ℝ} {rs : Bool × List (Option V)},
    mmmrFront B omega eps 0 b shifts = .ok rs → rs.1 = false := by
  intro shifts
  induction shifts with
  | nil => intro rs h; simp [mmmrFront] at h
  | cons σ rest ih =>
    intro rs h
    by_cases h0 : σ < 0
    · simp only [mmmrFront, if_pos h0] at h
      cases hf : mmmrFront B omega eps 0 b rest with
      | ub => rw [hf] at h; simp [bind, Outcome.bind] at h
      | exit c => rw [hf] at h; simp [bind, Outcome.bind] at h
      | ok rs' =>
        rw [hf] at h
        simp only [bind, Outcome.bind, Outcome.ok.injEq] at h
        rw [← h]
        simp [ih hf]
    · simp only [mmmrFront, if_neg h0, Outcome.ok.injEq] at h
      rw [← h]
      rfl

theorem mmmrFront_ok {A : V → V} {B : ℂ → V → V} (hA : Linear A) (hB : ∀ σ v, B σ v = A v + σ • v) {omega : ℝ}
    (ho : 0 ≤ omega) (eps : ℝ) (b : V) {maxSteps : ℕ} : ∀ (shifts : List ℝ) (xs : List (Option V)),
      (∀ h : shifts ≠ [], HermPos (B (shifts.getLast h : ℝ)) ∧ ∀ σ ∈ shifts.dropWhile (fun σ => decide (σ < 0)), shifts.getLast h ≤ σ) →
      mmmrFront B omega eps maxSteps b shifts = .ok (true, xs) →
      List.Forall₂ (fun σ x => SolvesTo (B (σ : ℝ)) b eps x) shifts xs := by
  intro shifts
  induction shifts with
  | nil => intro xs _ h; simp [mmmrFront] at h
  | cons σ rest ih =>
    intro xs hs h
    obtain ⟨hH, hle⟩ := hs (by simp)
    by_cases h0 : σ < 0
    · simp only [mmmrFront, if_pos h0] at h
      cases hf : mmmrFront B omega eps maxSteps b rest with
      | ub => rw [hf] at h; simp [bind, Outcome.bind] at h
      | exit c => rw [hf] at h; simp [bind, Outcome.bind] at h
      | ok rs =>
        rw [hf] at h
        simp only [bind, Outcome.bind, Outcome.ok.injEq, Prod.mk.injEq, Bool.and_eq_true] at h
        obtain ⟨⟨h1, h2⟩, rfl⟩ := h
        have hm : maxSteps ≠ 0 := by
          rintro rfl
          rw [mmmrFront_zero hf] at h2
          exact absurd h2 (by simp)
        refine List.Forall₂.cons (shiftCgLoop_ok (shift_linear hA hB _) b eps maxSteps _ _ _ _ hm (by
          rw [(shift_linear hA hB _).zero, sub_zero]) h1) (ih rs.2 ?_ (by rw [hf]; obtain ⟨r1, r2⟩ := rs; simp only at h2; rw [h2]))
        intro hne
        rw [List.getLast_cons hne] at hH hle
        refine ⟨hH, ?_⟩
        simpa [List.dropWhile_cons, h0] using hle
    · simp only [mmmrFront, if_neg h0, Outcome.ok.injEq] at h
      have hdw : (σ :: rest).dropWhile (fun σ => decide (σ < 0)) = σ :: rest := by simp [List.dropWhile_cons, h0]
      rw [hdw] at hle
      generalize hl : (σ :: rest).getLast (by simp) = σl at *
      have h1 := mmmrLoop_ok hA hB ho eps hH b maxSteps b 0 ((σ :: rest).dropLast.map fun s => (s, some (1, 0)))
        (by rw [(shift_linear hA hB _).zero, sub_zero]) ?_ (by rw [h])
      · rw [h, List.map_map] at h1
        have e : ((σ :: rest).dropLast.map (Prod.fst ∘ fun s => (s, some ((1 : ℂ), (0 : V))))) ++ [σl] = σ :: rest := by
          rw [← hl]
          conv_rhs => rw [← List.dropLast_append_getLast (List.cons_ne_nil σ rest)]
          congr 1
          exact List.map_id _
        rw [e] at h1
        exact h1
      · intro e he
        obtain ⟨s, hs', rfl⟩ := List.mem_map.mp he
        refine ⟨hle s (List.mem_of_mem_dropLast hs'), 1, 0, rfl, by simp, ?_⟩
        simp [hA.zero]

/-- One minimal residual step shortens the residual by a fixed factor. -/
theorem mmmr_contract {M : V → V} (hH : HermPos M) {m K : ℝ} (hm : 0 < m)
    (hlow : ∀ v, m * norm2 v ≤ (dot v (M v)).re) (hup : ∀ v, norm2 (M v) ≤ K * norm2 v) {omega : ℝ} (ho : 0 ≤ omega)
    (ho2 : omega ≤ 2) {r : V} (hr : r ≠ 0) :
    0 < K ∧ norm2 (M r) ≠ 0 ∧ norm2 (r - ((omega : ℂ) * (dot (M r) r / dot (M r) (M r))) • M r) ≤
      (1 - omega * (2 - omega) * m ^ 2 / K) * norm2 r := by
  have hn := norm2_pos hr
  have hd := hH.pos r hr
  have hp : M r ≠ 0 := by
    intro h; rw [h, dot_zero] at hd; simp at hd
  have hpn := norm2_pos hp
  have hK : 0 < K := by
    by_contra hK
    have := hup r
    nlinarith
  refine ⟨hK, hpn.ne', ?_⟩
  set d := (dot r (M r)).re with hdd
  have e1 : dot (M r) r = (d : ℂ) := by rw [hH.herm, hH.form_real]
  have e2 : dot r (M r) = (d : ℂ) := hH.form_real r
  have e : dot (r - ((omega : ℂ) * (dot (M r) r / dot (M r) (M r))) • M r)
      (r - ((omega : ℂ) * (dot (M r) r / dot (M r) (M r))) • M r) =
      ((norm2 r - omega * (2 - omega) * (d ^ 2 / norm2 (M r)) : ℝ) : ℂ) := by
    have hne : (norm2 (M r) : ℂ) ≠ 0 := Complex.ofReal_ne_zero.mpr hpn.ne'
    rw [dot_sub, sub_dot, sub_dot, dot_smul, dot_smul, smul_dot, smul_dot, dot_self, dot_self, e1, e2]
    simp only [map_mul, map_div₀, Complex.conj_ofReal]
    push_cast
    field_simp
    ring
  have : norm2 (r - ((omega : ℂ) * (dot (M r) r / dot (M r) (M r))) • M r) =
      norm2 r - omega * (2 - omega) * (d ^ 2 / norm2 (M r)) := by
    unfold norm2 at *
    rw [e, Complex.ofReal_re]
  rw [this]
  have h1 : m ^ 2 / K * norm2 r ≤ d ^ 2 / norm2 (M r) := by
    rw [div_mul_eq_mul_div, div_le_div_iff₀ hK hpn]
    have h2 := hlow r
    have h3 := hup r
    calc m ^ 2 * norm2 r * norm2 (M r) ≤ m ^ 2 * norm2 r * (K * norm2 r) := by
          apply mul_le_mul_of_nonneg_left h3; positivity
      _ = (m * norm2 r) ^ 2 * K := by ring
      _ ≤ d ^ 2 * K := by
          apply mul_le_mul_of_nonneg_right _ hK.le
          exact pow_le_pow_left₀ (by positivity) h2 2
  have h4 : 0 ≤ omega * (2 - omega) := mul_nonneg ho (by linarith)
  have := mul_le_mul_of_nonneg_left h1 h4
  calc norm2 r - omega * (2 - omega) * (d ^ 2 / norm2 (M r)) ≤ norm2 r - omega * (2 - omega) * (m ^ 2 / K * norm2 r) := by linarith
    _ = _ := by ring

theorem mmmrLoop_converges {B : ℂ → V → V} {σl : ℝ} (hH : HermPos (B (σl : ℝ))) {m K : ℝ} (hm : 0 < m)
    (hlow : ∀ v, m * norm2 v ≤ (dot v (B (σl : ℝ) v)).re) (hup : ∀ v, norm2 (B (σl : ℝ) v) ≤ K * norm2 v) {omega : ℝ}
    (ho : 0 ≤ omega) (ho2 : omega ≤ 2) {eps : ℝ} (heps : 0 < eps) :
    ∀ (n : ℕ) (r xl : V) (xs : List (ℝ × Option (ℂ × V))), r ≠ 0 →
      (1 - omega * (2 - omega) * m ^ 2 / K) ^ (n + 1) * norm2 r < eps →
      (mmmrLoop B omega eps σl (n + 1) r xl xs).1 = true := by
  intro n
  induction n with
  | zero =>
    intro r xl xs hr h
    obtain ⟨_, h1, h2⟩ := mmmr_contract hH hm hlow hup ho ho2 hr
    simp only [mmmrLoop]
    have h0 : dot (B σl r) (B σl r) ≠ 0 := by rw [dot_self]; exact Complex.ofReal_ne_zero.mpr h1
    rw [if_neg h0, if_pos]
    rw [pow_one] at h
    exact lt_of_le_of_lt h2 h
  | succ n ih =>
    intro r xl xs hr h
    obtain ⟨_, h1, h2⟩ := mmmr_contract hH hm hlow hup ho ho2 hr
    rw [mmmrLoop]
    have h0 : dot (B σl r) (B σl r) ≠ 0 := by rw [dot_self]; exact Complex.ofReal_ne_zero.mpr h1
    simp only []
    rw [if_neg h0]
    generalize hr' : r - ((omega : ℂ) * (dot (B σl r) r / dot (B σl r) (B σl r))) • B σl r = r' at *
    by_cases h3 : norm2 r' < eps
    · rw [if_pos h3]
    rw [if_neg h3]
    have hr'0 : r' ≠ 0 := by
      intro h0; rw [h0, norm2_zero] at h3; exact h3 heps
    refine ih _ _ _ hr'0 (lt_of_le_of_lt ?_ h)
    have hq : 0 ≤ 1 - omega * (2 - omega) * m ^ 2 / K := by
      by_contra hc
      have := norm2_pos hr
      have := norm2_pos hr'0
      nlinarith
    generalize 1 - omega * (2 - omega) * m ^ 2 / K = q at *
    rw [pow_succ _ (n + 1), mul_assoc]
    exact mul_le_mul_of_nonneg_left h2 (pow_nonneg hq _)

end Leonard
