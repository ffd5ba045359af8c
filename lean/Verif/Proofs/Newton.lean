import Verif.Model.Newton
import Verif.Spec.Newton
import Mathlib.Algebra.MvPolynomial.PDeriv
import Mathlib.Analysis.Calculus.FDeriv.Mul
import Mathlib.Analysis.Calculus.FDeriv.WithLp
import Mathlib.Analysis.InnerProductSpace.Calculus
import Mathlib.Analysis.Normed.Ring.Units
import Mathlib.Topology.Algebra.MvPolynomial

/-!
# Helper lemmas: Newton polishing
-/

set_option linter.unusedSectionVars false

namespace YRoots.Legacy

open MvPolynomial Filter Topology

variable {ι : Type*} [Fintype ι] [DecidableEq ι]

theorem hasFDerivAt_eval (p : MvPolynomial ι ℂ) (x : EuclideanSpace ℂ ι) :
    HasFDerivAt (fun y : EuclideanSpace ℂ ι => eval (fun i => y i) p)
      (∑ j, eval (fun i => x i) (pderiv j p) • (EuclideanSpace.proj j : EuclideanSpace ℂ ι →L[ℂ] ℂ)) x := by
  induction p using MvPolynomial.induction_on with
  | C a =>
    simp only [eval_C]
    refine (hasFDerivAt_const (𝕜 := ℂ) a x).congr_fderiv ?_
    ext y
    simp
  | add p q hp hq =>
    simp only [map_add]
    refine (hp.add hq).congr_fderiv ?_
    ext y
    simp [add_mul, Finset.sum_add_distrib]
  | mul_X p i hp =>
    have hX : HasFDerivAt (fun y : EuclideanSpace ℂ ι => y i) (EuclideanSpace.proj i : EuclideanSpace ℂ ι →L[ℂ] ℂ) x :=
      (EuclideanSpace.proj i : EuclideanSpace ℂ ι →L[ℂ] ℂ).hasFDerivAt
    simp only [map_mul, eval_X]
    refine (hp.mul hX).congr_fderiv ?_
    have hj : ∀ j, eval (fun i => x i) (pderiv j (p * X i)) =
        x i * eval (fun i => x i) (pderiv j p) + if j = i then eval (fun i => x i) p else 0 := by
      intro j
      rw [Derivation.leibniz, pderiv_X, smul_eq_mul, smul_eq_mul, map_add, map_mul, map_mul, eval_X, Pi.single_apply]
      by_cases h : j = i
      · rw [if_pos h, if_pos h.symm, map_one]; ring
      · rw [if_neg h, if_neg (Ne.symm h), map_zero]; ring
    ext y
    simp only [ContinuousLinearMap.add_apply, ContinuousLinearMap.smul_apply, ContinuousLinearMap.sum_apply, smul_eq_mul, hj, add_mul,
      Finset.sum_add_distrib, ite_mul, zero_mul, Finset.sum_ite_eq', Finset.mem_univ, if_true, mul_assoc, Finset.mul_sum]
    rw [add_comm]

theorem hasFDerivAt_newtonF (p : ι → MvPolynomial ι ℂ) (x : EuclideanSpace ℂ ι) :
    HasFDerivAt (newtonF (polyValue p)) (Matrix.toEuclideanCLM (n := ι) (𝕜 := ℂ) (newtonDf (polyGrad p) x)) x := by
  rw [← hasFDerivWithinAt_univ, hasFDerivWithinAt_euclidean]
  intro i
  rw [hasFDerivWithinAt_univ]
  refine (hasFDerivAt_eval (p i) x).congr_fderiv ?_
  ext y
  simp [newtonDf, polyGrad, Matrix.mulVec, dotProduct]

theorem continuous_newtonDf (p : ι → MvPolynomial ι ℂ) : Continuous (newtonDf (polyGrad p)) := by
  refine continuous_matrix fun i j => ?_
  exact (MvPolynomial.continuous_eval (pderiv j (p i))).comp (PiLp.continuous_ofLp 2 _)

theorem continuous_toEuclideanCLM : Continuous (Matrix.toEuclideanCLM (n := ι) (𝕜 := ℂ)) :=
  (Matrix.toEuclideanCLM (n := ι) (𝕜 := ℂ)).toAlgEquiv.toLinearMap.continuous_of_finiteDimensional

/-- Near a zero with invertible Jacobian a Newton step halves the distance. -/
theorem newton_step (p : ι → MvPolynomial ι ℂ) (z : EuclideanSpace ℂ ι) (hz : newtonF (polyValue p) z = 0)
    (hdet : (newtonDf (polyGrad p) z).det ≠ 0) :
    ∃ r > 0, ∀ x, ‖x - z‖ < r → (newtonDf (polyGrad p) x).det ≠ 0 ∧
      ∀ delta : EuclideanSpace ℂ ι, Matrix.toEuclideanCLM (n := ι) (𝕜 := ℂ) (newtonDf (polyGrad p) x) delta = -newtonF (polyValue p) x →
        ‖delta + x - z‖ ≤ ‖x - z‖ / 2 := by
  set T : EuclideanSpace ℂ ι → (EuclideanSpace ℂ ι →L[ℂ] EuclideanSpace ℂ ι) :=
    fun x => Matrix.toEuclideanCLM (n := ι) (𝕜 := ℂ) (newtonDf (polyGrad p) x) with hT
  have hTc : Continuous T := continuous_toEuclideanCLM.comp (continuous_newtonDf p)
  have hu : ∀ x, (newtonDf (polyGrad p) x).det ≠ 0 → IsUnit (T x) := fun x hx =>
    ((Matrix.isUnit_iff_isUnit_det _).2 (isUnit_iff_ne_zero.2 hx)).map (Matrix.toEuclideanCLM (n := ι) (𝕜 := ℂ))
  have hinv : ContinuousAt (fun x => Ring.inverse (T x)) z := by
    obtain ⟨u, hu⟩ := hu z hdet
    refine ContinuousAt.comp (g := Ring.inverse) ?_ hTc.continuousAt
    rw [← hu]; exact NormedRing.inverse_continuousAt u
  set M := ‖Ring.inverse (T z)‖ + 1 with hM
  have hMpos : 0 < M := by positivity
  have h1 : ∀ᶠ x in 𝓝 z, (newtonDf (polyGrad p) x).det ≠ 0 :=
    ((continuous_newtonDf p).matrix_det.continuousAt (x := z)).eventually_ne hdet
  have h2 : ∀ᶠ x in 𝓝 z, ‖Ring.inverse (T x)‖ < M := hinv.norm.eventually_lt_const (by rw [hM]; linarith)
  have h3 : ∀ᶠ x in 𝓝 z, ‖T x - T z‖ < 1 / (4 * M) := by
    have : ContinuousAt (fun x => ‖T x - T z‖) z := (hTc.continuousAt.sub continuousAt_const).norm
    refine this.eventually_lt_const ?_
    simp only [sub_self, norm_zero]; positivity
  have h4 : ∀ᶠ x in 𝓝 z, ‖newtonF (polyValue p) x - newtonF (polyValue p) z - T z (x - z)‖ ≤ 1 / (4 * M) * ‖x - z‖ :=
    (hasFDerivAt_newtonF p z).isLittleO.bound (show (0 : ℝ) < 1 / (4 * M) by positivity)
  obtain ⟨r, hr, hball⟩ := Metric.eventually_nhds_iff.1 (h1.and (h2.and (h3.and h4)))
  refine ⟨r, hr, fun x hx => ?_⟩
  obtain ⟨g1, g2, g3, g4⟩ := hball (by rwa [dist_eq_norm])
  refine ⟨g1, fun delta hd => ?_⟩
  rw [hz, sub_zero] at g4
  have hI : Ring.inverse (T x) * T x = 1 := Ring.inverse_mul_cancel _ (hu x g1)
  have hIa : ∀ v, Ring.inverse (T x) (T x v) = v := fun v => by
    have := congrArg (fun A : EuclideanSpace ℂ ι →L[ℂ] EuclideanSpace ℂ ι => A v) hI
    simpa using this
  have he : delta + x - z = Ring.inverse (T x) ((T x - T z) (x - z) - (newtonF (polyValue p) x - T z (x - z))) := by
    rw [← hIa (delta + x - z)]
    congr 1
    rw [add_sub_assoc, map_add]
    have : T x delta = -newtonF (polyValue p) x := hd
    rw [this, ContinuousLinearMap.sub_apply]
    abel
  rw [he]
  refine (ContinuousLinearMap.le_opNorm _ _).trans ?_
  have k1 : ‖(T x - T z) (x - z) - (newtonF (polyValue p) x - T z (x - z))‖ ≤ 1 / (4 * M) * ‖x - z‖ + 1 / (4 * M) * ‖x - z‖ := by
    refine (norm_sub_le _ _).trans (add_le_add ?_ g4)
    exact (ContinuousLinearMap.le_opNorm _ _).trans (mul_le_mul_of_nonneg_right g3.le (norm_nonneg _))
  refine (mul_le_mul g2.le k1 (norm_nonneg _) hMpos.le).trans (le_of_eq ?_)
  field_simp
  ring

end YRoots.Legacy
