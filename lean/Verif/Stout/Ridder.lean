import Verif.Stout.Model
import Mathlib.Analysis.Calculus.Taylor

/-!
# The numerical derivative of the smearing force
-/

set_option autoImplicit false

namespace Leonard

/-- How much a column can enlarge the error of the differences. -/
noncomputable def ridderGain (factor : ℝ) : ℕ → ℝ
  | 0 => 1
  | n + 1 => (factor + 1) / (factor - 1) * ridderGain (1.3 * 1.3 * factor) n

theorem one_le_ridderGain {factor : ℝ} (h : 1 < factor) (n : ℕ) : 1 ≤ ridderGain factor n := by
  induction n generalizing factor with
  | zero => exact le_rfl
  | succ n ih =>
    have h1 : 1 ≤ (factor + 1) / (factor - 1) := by rw [le_div_iff₀ (by linarith)]; linarith
    have h2 := ih (factor := 1.3 * 1.3 * factor) (by linarith)
    unfold ridderGain
    nlinarith

theorem ridderGain_mono {factor : ℝ} (h : 1 < factor) {m n : ℕ} (hmn : m ≤ n) : ridderGain factor m ≤ ridderGain factor n := by
  induction m generalizing factor n with
  | zero => exact one_le_ridderGain h n
  | succ m ih =>
    obtain ⟨n, rfl⟩ : ∃ k, n = k + 1 := ⟨n - 1, by omega⟩
    have h1 : 0 ≤ (factor + 1) / (factor - 1) := div_nonneg (by linarith) (by linarith)
    unfold ridderGain
    exact mul_le_mul_of_nonneg_left (ih (by linarith) (by omega)) h1

/-- Entries of a column are close to the derivative `d`, with the error growing along the column. -/
def Close (factor w e d : ℝ) (l : List ℝ) : Prop := ∀ i (h : i < l.length), |l[i] - d| ≤ w * ridderGain factor i * e

theorem extrapolate_close {factor x p e d : ℝ} (h : 1 < factor) (hx : |x - d| ≤ e) (hp : |p - d| ≤ e) :
    |(x * factor - p) / (factor - 1) - d| ≤ (factor + 1) / (factor - 1) * e := by
  have h0 : 0 < factor - 1 := by linarith
  have e1 : (x * factor - p) / (factor - 1) - d = ((x - d) * factor - (p - d)) / (factor - 1) := by field_simp; ring
  rw [e1, abs_div, abs_of_pos h0, div_mul_eq_mul_div]
  refine div_le_div_of_nonneg_right ?_ h0.le
  calc |(x - d) * factor - (p - d)| ≤ |(x - d) * factor| + |p - d| := abs_sub _ _
    _ = |x - d| * factor + |p - d| := by rw [abs_mul, abs_of_pos (by linarith : (0 : ℝ) < factor)]
    _ ≤ e * factor + e := by gcongr
    _ = (factor + 1) * e := by ring

theorem ridderColumn_close {factor w x e d : ℝ} (hf : 1 < factor) (he : 0 ≤ w * e) (prev : List ℝ) (best : ℝ × ℝ) {B : ℝ}
    (hx : |x - d| ≤ w * e) (hp : Close factor w e d prev) (hB : w * ridderGain factor prev.length * e ≤ B) (hb : |best.2 - d| ≤ B) :
    Close factor w e d (ridderColumn factor x prev best).1 ∧ |(ridderColumn factor x prev best).2.2 - d| ≤ B ∧
      (ridderColumn factor x prev best).1.length = prev.length + 1 := by
  induction prev generalizing factor w x best with
  | nil =>
    refine ⟨fun i hi => ?_, hb, rfl⟩
    have : i = 0 := by simpa [ridderColumn] using hi
    subst this
    simpa [ridderColumn, ridderGain] using hx
  | cons p ps ih =>
    have hp0 : |p - d| ≤ w * e := by
      have h := hp 0 (by simp)
      rw [ridderGain, mul_one] at h
      exact h
    have hy := extrapolate_close hf hx hp0
    have hf' : (1 : ℝ) < 1.3 * 1.3 * factor := by linarith
    have hr : 0 ≤ (factor + 1) / (factor - 1) := div_nonneg (by linarith) (by linarith)
    have hp' : Close (1.3 * 1.3 * factor) (w * ((factor + 1) / (factor - 1))) e d ps := by
      intro i hi
      have := hp (i + 1) (by simpa using hi)
      simp only [List.getElem_cons_succ, ridderGain] at this
      refine this.trans (le_of_eq ?_)
      ring
    have hy' : |(x * factor - p) / (factor - 1) - d| ≤ w * ((factor + 1) / (factor - 1)) * e := by
      refine hy.trans (le_of_eq ?_); ring
    have he' : 0 ≤ w * ((factor + 1) / (factor - 1)) * e := by
      have := mul_nonneg hr he
      calc (0 : ℝ) ≤ (factor + 1) / (factor - 1) * (w * e) := this
        _ = _ := by ring
    have hB' : w * ((factor + 1) / (factor - 1)) * ridderGain (1.3 * 1.3 * factor) ps.length * e ≤ B := by
      refine le_trans (le_of_eq ?_) hB
      simp only [List.length_cons, ridderGain]
      ring
    have hyB : |(x * factor - p) / (factor - 1) - d| ≤ B := by
      refine hy'.trans (le_trans ?_ hB')
      have h1 := one_le_ridderGain hf' ps.length
      have := mul_le_mul_of_nonneg_left h1 he'
      calc w * ((factor + 1) / (factor - 1)) * e = w * ((factor + 1) / (factor - 1)) * e * 1 := by ring
        _ ≤ w * ((factor + 1) / (factor - 1)) * e * ridderGain (1.3 * 1.3 * factor) ps.length := this
        _ = _ := by ring
    unfold ridderColumn
    simp only
    generalize hy0 : (x * factor - p) / (factor - 1) = y at *
    have hbest : |(if max |y - x| |y - p| < best.1 then (max |y - x| |y - p|, y) else best).2 - d| ≤ B := by
      split
      · exact hyB
      · exact hb
    obtain ⟨h1, h2, h3⟩ := ih hf' he' _ hy' hp' hB' hbest
    refine ⟨fun i hi => ?_, h2, by rw [List.length_cons, h3, List.length_cons]⟩
    match i, hi with
    | 0, _ => simpa [ridderGain] using hx
    | i + 1, hi =>
      have := h1 i (by simpa using hi)
      simp only [List.getElem_cons_succ, ridderGain]
      refine this.trans (le_of_eq ?_)
      ring

theorem ridderLoop_close (f : ℝ → ℝ) {d e B : ℝ} (he : 0 ≤ e) (k : ℕ) (h : ℝ) (prev : List ℝ) (best : ℝ × ℝ) (h0 : 0 < h) {m : ℕ}
    (hm : prev.length + k ≤ m + 1) (hf : ∀ x, 0 < x → x ≤ h → |(f x - f (-x)) / (2 * x) - d| ≤ e) (hp : Close (1.3 * 1.3) 1 e d prev)
    (hB : ridderGain (1.3 * 1.3) m * e ≤ B) (hb : |best.2 - d| ≤ B) : |ridderLoop f k h prev best - d| ≤ B := by
  induction k generalizing h prev best with
  | zero => exact hb
  | succ k ih =>
    have hh : 0 < h / 1.3 := by positivity
    have hle : h / 1.3 ≤ h := div_le_self h0.le (by norm_num)
    have hB1 : 1 * ridderGain (1.3 * 1.3) prev.length * e ≤ B := by
      rw [one_mul]
      exact (mul_le_mul_of_nonneg_right (ridderGain_mono (by norm_num) (by omega)) he).trans hB
    obtain ⟨h1, h2, h3⟩ := ridderColumn_close (by norm_num) (by simpa using he) prev best (by simpa using hf _ hh hle) hp hB1 hb
    unfold ridderLoop
    simp only
    split
    · exact h2
    · exact ih (h / 1.3) _ _ hh (by omega) (fun x hx hxh => hf x hx (hxh.trans hle)) h1 h2

theorem ridderGain_bound : ridderGain (1.3 * 1.3) 24 ≤ 23 := by
  simp only [ridderGain]
  norm_num

/-- The result of `ridder` is as close to the derivative as the differences it uses, up to a factor. -/
theorem ridder_close (f : ℝ → ℝ) {d e h : ℝ} (h0 : 0 < h) (hf : ∀ x, 0 < x → x ≤ h → |(f x - f (-x)) / (2 * x) - d| ≤ e) :
    |ridder f h - d| ≤ 23 * e := by
  have h1 := hf h h0 le_rfl
  have he : 0 ≤ e := (abs_nonneg _).trans h1
  unfold ridder
  refine ridderLoop_close f he 24 h _ _ h0 (m := 24) (by simp) hf ?_ ?_ ?_
  · intro i hi
    have : i = 0 := by simpa using hi
    subst this
    simpa [ridderGain] using h1
  · exact mul_le_mul_of_nonneg_right ridderGain_bound he
  · simp only
    linarith

theorem ridder_const (c h : ℝ) (h0 : 0 < h) : ridder (fun _ => c) h = 0 := by
  have := ridder_close (fun _ => c) (d := 0) (e := 0) h0 fun x _ _ => by simp
  rw [mul_zero, sub_zero] at this
  exact abs_nonpos_iff.1 this

end Leonard
