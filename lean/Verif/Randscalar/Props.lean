/-
C91: the random start of the scalar fields.
-/
import Verif.Randscalar.Model
import Verif.Randscalar.Gauss
import Verif.Scalar.Props
import Verif.Meanfield.Model

set_option autoImplicit false

namespace Leonard

open Matrix MeasureTheory ProbabilityTheory

variable {S : Type} {N nA nF : ℕ}

/-! ### Lemmas -/

theorem foldl_set_range {A : Type} (generate : ℕ → A) (n : ℕ) (l : List A) (h : n ≤ l.length) :
    (List.range n).foldl (fun l f => l.set f (generate f)) l = (List.range n).map generate ++ l.drop n := by
  induction n with
  | zero => simp
  | succ n ih =>
    rw [List.range_succ, List.foldl_append, ih (by omega), List.map_append, List.foldl_cons, List.foldl_nil]
    rw [List.set_append_right _ _ (by simp)]
    have hd : l.drop n = l[n] :: l.drop (n + 1) := List.drop_eq_getElem_cons (by omega)
    rw [hd, List.length_map, List.length_range, Nat.sub_self, List.set_cons_zero, List.append_assoc]
    rfl

theorem fillFields_eq {A : Type} (opt : ℕ) (fields : List A) (a : A) (generate : ℕ → A) :
    fillFields opt fields a generate = (List.range opt).map generate := by
  unfold fillFields
  have hl : (if fields.length ≠ opt then resizeFields fields opt a else fields).length = opt := by
    split_ifs with h
    · simp only [resizeFields, List.length_append, List.length_take, List.length_replicate]; omega
    · simpa using h
  rw [foldl_set_range _ _ _ hl.ge, List.drop_of_length_le hl.le, List.append_nil]

instance [Fintype S] {ι : Type} [Fintype ι] : IsProbabilityMeasure (normalDraws S ι) := by unfold normalDraws; infer_instance

theorem measurable_gaussianAdjoint : Measurable (gaussianAdjointScalar : AdjointDraws S N → S → AdjVec N) := measurable_id

theorem measurable_gaussianFundamental : Measurable (gaussianFundamentalScalar : FundamentalDraws S N → S → FundVec N) := by
  refine measurable_pi_lambda _ fun s => measurable_pi_lambda _ fun i => ?_
  have h : ∀ j, Measurable fun d : FundamentalDraws S N => d s j := fun j => (measurable_pi_apply j).comp (measurable_pi_apply s)
  exact Complex.measurableEquivRealProd.symm.measurable.comp ((h (i, 0)).prodMk (h (i, 1)))

instance [Fintype S] : IsProbabilityMeasure ((normalDraws S (Fin (lieGenerators N).length)).map (gaussianAdjointScalar : AdjointDraws S N → S → AdjVec N)) :=
  Measure.isProbabilityMeasure_map measurable_gaussianAdjoint.aemeasurable

instance [Fintype S] : IsProbabilityMeasure ((normalDraws S (Fin N × Fin 2)).map (gaussianFundamentalScalar : FundamentalDraws S N → S → FundVec N)) :=
  Measure.isProbabilityMeasure_map measurable_gaussianFundamental.aemeasurable

/-- The real and imaginary parts of `V φ` as a linear function of those of `φ`. -/
noncomputable def partsMap (V : Mat N) : (Fin N × Fin 2 → ℝ) →ₗ[ℝ] (Fin N × Fin 2 → ℝ) where
  toFun d p := if p.2 = 0 then ((V *ᵥ fun i => (⟨d (i, 0), d (i, 1)⟩ : ℂ)) p.1).re else ((V *ᵥ fun i => (⟨d (i, 0), d (i, 1)⟩ : ℂ)) p.1).im
  map_add' d e := by
    have : (fun i => (⟨(d + e) (i, 0), (d + e) (i, 1)⟩ : ℂ)) = (fun i => (⟨d (i, 0), d (i, 1)⟩ : ℂ)) + fun i => (⟨e (i, 0), e (i, 1)⟩ : ℂ) := by
      funext i; apply Complex.ext <;> simp
    funext p
    rw [this, mulVec_add]
    by_cases h : p.2 = 0 <;> simp [h]
  map_smul' r d := by
    have : (fun i => (⟨(r • d) (i, 0), (r • d) (i, 1)⟩ : ℂ)) = (r : ℂ) • (fun i => (⟨d (i, 0), d (i, 1)⟩ : ℂ)) := by
      funext i; apply Complex.ext <;> simp
    funext p
    rw [this, mulVec_smul]
    by_cases h : p.2 = 0 <;> simp [h]

theorem partsMap_norm {V : Mat N} (hV : V ∈ unitaryGroup (Fin N) ℂ) (d : Fin N × Fin 2 → ℝ) : ∑ p, partsMap V d p ^ 2 = ∑ p, d p ^ 2 := by
  have h := complexDot_unitary hV (fun i => (⟨d (i, 0), d (i, 1)⟩ : ℂ)) (fun i => (⟨d (i, 0), d (i, 1)⟩ : ℂ))
  have e : ∀ w : Fin N → ℂ, (complexDot w w).re = ∑ i, (w i).re ^ 2 + ∑ i, (w i).im ^ 2 := fun w => by
    simp only [complexDot, Complex.re_sum, Complex.mul_re, Complex.conj_re, Complex.conj_im, ← Finset.sum_add_distrib]
    exact Finset.sum_congr rfl fun i _ => by ring
  have h' := congrArg Complex.re h
  rw [e, e] at h'
  rw [Fintype.sum_prod_type, Fintype.sum_prod_type]
  simp only [Fin.sum_univ_two, Finset.sum_add_distrib]
  simpa [partsMap] using h'

/-! ### Properties -/

/-- **C91**: afterwards there are as many fields as the options say, whatever fields there were before, and each holds its own normal numbers: nothing of the old
fields is left. -/
theorem C91_fields (optA optF : ℕ) (fieldsA : List (S → AdjVec N)) (fieldsF : List (S → FundVec N)) (junkA : S → AdjVec N) (junkF : S → FundVec N)
    (dA : ℕ → AdjointDraws S N) (dF : ℕ → FundamentalDraws S N) :
    randomScalarExecute optA optF fieldsA fieldsF junkA junkF dA dF
      = ((List.range optA).map dA, (List.range optF).map fun f s i => ((dF f s (i, 0) : ℂ) + dF f s (i, 1) * Complex.I)) := by
  unfold randomScalarExecute
  rw [fillFields_eq, fillFields_eq]
  refine Prod.ext rfl (List.map_congr_left fun f _ => funext fun s => funext fun i => ?_)
  apply Complex.ext <;> simp [gaussianFundamentalScalar]

/-- **C91**: the distribution of the fields is gauge invariant: gauge transforming the fields with any unitary matrices, one for each site, leaves it as it is. -/
theorem C91_gauge [Fintype S] (ω : S → Mat N) (hω : ∀ s, ω s ∈ unitaryGroup (Fin N) ℂ) :
    MeasurePreserving (scalarTransform ω) (randomScalarLaw S N nA nF) (randomScalarLaw S N nA nF) := by
  have hA : MeasurePreserving (fun φ : S → AdjVec N => fun s => toAdjoint (gens N) (ω s) *ᵥ φ s)
      ((normalDraws S (Fin (lieGenerators N).length)).map gaussianAdjointScalar) ((normalDraws S (Fin (lieGenerators N).length)).map gaussianAdjointScalar) := by
    have : (normalDraws S (Fin (lieGenerators N).length)).map (gaussianAdjointScalar : AdjointDraws S N → S → AdjVec N)
        = normalDraws S (Fin (lieGenerators N).length) := Measure.map_id
    rw [this]
    refine measurePreserving_pi _ _ fun s => normal_rotation (1 / 2) (Matrix.mulVecLin (toAdjoint (gens N) (ω s))) fun x => ?_
    have := realDot_adjoint (hω s) x x
    simp only [realDot, ← pow_two] at this
    exact this
  have hF : MeasurePreserving (fun φ : S → FundVec N => fun s => ω s *ᵥ φ s)
      ((normalDraws S (Fin N × Fin 2)).map gaussianFundamentalScalar) ((normalDraws S (Fin N × Fin 2)).map gaussianFundamentalScalar) := by
    have h1 : MeasurePreserving (fun d : FundamentalDraws S N => fun s => partsMap (ω s) (d s)) (normalDraws S (Fin N × Fin 2)) (normalDraws S (Fin N × Fin 2)) :=
      measurePreserving_pi _ _ fun s => normal_rotation (1 / 2) (partsMap (ω s)) fun x => partsMap_norm (hω s) x
    have hm : Measurable (fun φ : S → FundVec N => fun s => ω s *ᵥ φ s) := by
      refine measurable_pi_lambda _ fun s => ?_
      have hc : Continuous fun v : FundVec N => ω s *ᵥ v := continuous_const.matrix_mulVec continuous_id
      exact hc.measurable.comp (measurable_pi_apply s)
    refine ⟨hm, ?_⟩
    rw [Measure.map_map hm measurable_gaussianFundamental]
    have hc : ((fun φ : S → FundVec N => fun s => ω s *ᵥ φ s) ∘ gaussianFundamentalScalar)
        = gaussianFundamentalScalar ∘ fun d : FundamentalDraws S N => fun s => partsMap (ω s) (d s) := by
      funext d s i
      apply Complex.ext <;> simp [gaussianFundamentalScalar, partsMap] <;> rfl
    rw [hc, ← Measure.map_map measurable_gaussianFundamental h1.measurable, h1.map_eq]
  exact (measurePreserving_pi _ _ fun _ : Fin nA => hA).prod (measurePreserving_pi _ _ fun _ : Fin nF => hF)

/-- **C91**: every component of an adjoint field and the real and imaginary part of every component of a fundamental field are normal numbers of mean zero and
variance one half, so the mean square is one half for adjoint and one for fundamental components. -/
theorem C91_components [Fintype S] (iA : Fin nA) (iF : Fin nF) (s : S) (k : Fin (lieGenerators N).length) (c : Fin N) :
    (randomScalarLaw S N nA nF).map (fun Φ => Φ.1 iA s k) = gaussianReal 0 (1 / 2)
      ∧ (randomScalarLaw S N nA nF).map (fun Φ => (Φ.2 iF s c).re) = gaussianReal 0 (1 / 2)
      ∧ (randomScalarLaw S N nA nF).map (fun Φ => (Φ.2 iF s c).im) = gaussianReal 0 (1 / 2)
      ∧ ∫ Φ, Φ.1 iA s k ^ 2 ∂randomScalarLaw S N nA nF = 1 / 2
      ∧ ∫ Φ, Complex.normSq (Φ.2 iF s c) ∂randomScalarLaw S N nA nF = 1 := by
  have hd : ∀ {ι : Type} [Fintype ι] (j : ι), MeasurePreserving (fun d : S → ι → ℝ => d s j) (normalDraws S ι) (gaussianReal 0 (1 / 2)) := fun j =>
    (measurePreserving_eval (fun _ => gaussianReal 0 (1 / 2)) j).comp (measurePreserving_eval (fun _ => Measure.pi fun _ => gaussianReal 0 (1 / 2)) s)
  have hA : MeasurePreserving (fun Φ : Scalars S N nA nF => Φ.1 iA) (randomScalarLaw S N nA nF)
      ((normalDraws S (Fin (lieGenerators N).length)).map gaussianAdjointScalar) :=
    (measurePreserving_eval _ iA).comp measurePreserving_fst
  have hF : MeasurePreserving (fun Φ : Scalars S N nA nF => Φ.2 iF) (randomScalarLaw S N nA nF)
      ((normalDraws S (Fin N × Fin 2)).map gaussianFundamentalScalar) :=
    (measurePreserving_eval _ iF).comp measurePreserving_snd
  have mA : Measurable fun φ : S → AdjVec N => φ s k := (measurable_pi_apply k).comp (measurable_pi_apply s)
  have mF : Measurable fun φ : S → FundVec N => φ s c := (measurable_pi_apply c).comp (measurable_pi_apply s)
  have h1 : (randomScalarLaw S N nA nF).map (fun Φ => Φ.1 iA s k) = gaussianReal 0 (1 / 2) := by
    have : (fun Φ : Scalars S N nA nF => Φ.1 iA s k) = (fun φ : S → AdjVec N => φ s k) ∘ fun Φ => Φ.1 iA := rfl
    rw [this, ← Measure.map_map mA hA.measurable, hA.map_eq, Measure.map_map mA measurable_gaussianAdjoint]
    exact (hd k).map_eq
  have h2 : (randomScalarLaw S N nA nF).map (fun Φ => (Φ.2 iF s c).re) = gaussianReal 0 (1 / 2) := by
    have : (fun Φ : Scalars S N nA nF => (Φ.2 iF s c).re) = (Complex.re ∘ fun φ : S → FundVec N => φ s c) ∘ fun Φ => Φ.2 iF := rfl
    rw [this, ← Measure.map_map (Complex.measurable_re.comp mF) hF.measurable, hF.map_eq,
      Measure.map_map (Complex.measurable_re.comp mF) measurable_gaussianFundamental]
    exact (hd (c, 0)).map_eq
  have h3 : (randomScalarLaw S N nA nF).map (fun Φ => (Φ.2 iF s c).im) = gaussianReal 0 (1 / 2) := by
    have : (fun Φ : Scalars S N nA nF => (Φ.2 iF s c).im) = (Complex.im ∘ fun φ : S → FundVec N => φ s c) ∘ fun Φ => Φ.2 iF := rfl
    rw [this, ← Measure.map_map (Complex.measurable_im.comp mF) hF.measurable, hF.map_eq,
      Measure.map_map (Complex.measurable_im.comp mF) measurable_gaussianFundamental]
    exact (hd (c, 1)).map_eq
  have hsq : ∫ x : ℝ, x ^ 2 ∂gaussianReal 0 (1 / 2) = 1 / 2 := by
    have hv := variance_id_gaussianReal (μ := 0) (v := (1 / 2 : NNReal))
    rw [variance_eq_integral measurable_id.aemeasurable] at hv
    simpa using hv
  have hint : Integrable (fun x : ℝ => x ^ 2) (gaussianReal 0 (1 / 2)) := by
    have : MemLp (id : ℝ → ℝ) 2 (gaussianReal 0 (1 / 2)) := memLp_id_gaussianReal 2
    exact this.integrable_sq
  have m2 : Measurable fun x : ℝ => x ^ 2 := by fun_prop
  have mA' : Measurable fun Φ : Scalars S N nA nF => Φ.1 iA s k := mA.comp hA.measurable
  have mR : Measurable fun Φ : Scalars S N nA nF => (Φ.2 iF s c).re := (Complex.measurable_re.comp mF).comp hF.measurable
  have mI : Measurable fun Φ : Scalars S N nA nF => (Φ.2 iF s c).im := (Complex.measurable_im.comp mF).comp hF.measurable
  have key : ∀ X : Scalars S N nA nF → ℝ, Measurable X → (randomScalarLaw S N nA nF).map X = gaussianReal 0 (1 / 2) →
      ∫ Φ, X Φ ^ 2 ∂randomScalarLaw S N nA nF = 1 / 2 ∧ Integrable (fun Φ => X Φ ^ 2) (randomScalarLaw S N nA nF) := fun X hX hl => by
    constructor
    · rw [← hsq, ← hl, integral_map hX.aemeasurable m2.aestronglyMeasurable]
    · have := hint
      rw [← hl, integrable_map_measure m2.aestronglyMeasurable hX.aemeasurable] at this
      exact this
  refine ⟨h1, h2, h3, (key _ mA' h1).1, ?_⟩
  have : ∀ Φ : Scalars S N nA nF, Complex.normSq (Φ.2 iF s c) = (Φ.2 iF s c).re ^ 2 + (Φ.2 iF s c).im ^ 2 := fun Φ => by
    rw [Complex.normSq_apply]; ring
  simp_rw [this]
  rw [integral_add (key _ mR h2).2 (key _ mI h3).2, (key _ mR h2).1, (key _ mI h3).1]
  norm_num

/-- A gauge transformation that is not diagonal meets the hypothesis of `C91_gauge`. -/
example : ∀ _ : Fin 5, (!![0, 1; 1, 0] : Mat 2) ∈ unitaryGroup (Fin 2) ℂ := fun _ => by
  rw [mem_unitaryGroup_iff, star_eq_conjTranspose]
  ext i j; fin_cases i <;> fin_cases j <;> simp [Matrix.mul_apply, Fin.sum_univ_two, Matrix.conjTranspose_apply]

end Leonard
