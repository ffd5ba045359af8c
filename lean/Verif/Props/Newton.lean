import Verif.Proofs.Newton

/-!
# C89: Newton polishing and sampling of roots

Specification in `Spec/Newton`.
-/

set_option linter.unusedSectionVars false

namespace YRoots.Legacy

open MvPolynomial

variable {ι : Type*} [Fintype ι] [DecidableEq ι]
variable {solve : Matrix ι ι ℂ → EuclideanSpace ℂ ι → Option (EuclideanSpace ℂ ι)}

/-- There are such solvers. -/
theorem solvesLinear_exists : ∃ solve : Matrix ι ι ℂ → EuclideanSpace ℂ ι → Option (EuclideanSpace ℂ ι), SolvesLinear solve := by
  classical
  refine ⟨fun A b => if A.det = 0 then none else some (WithLp.toLp 2 (A⁻¹.mulVec b.ofLp)), fun A b => ⟨fun h => ?_, fun h => if_pos h⟩⟩
  refine ⟨_, if_neg h, ?_⟩
  rw [Matrix.mulVec_mulVec, Matrix.mul_nonsing_inv _ (isUnit_iff_ne_zero.2 h), Matrix.one_mulVec]

theorem solve_unique {A : Matrix ι ι ℂ} (hA : A.det ≠ 0) {x y : EuclideanSpace ℂ ι} (h : A.mulVec x.ofLp = A.mulVec y.ofLp) : x = y := by
  have := congrArg (fun v => A⁻¹.mulVec v) h
  simp only [Matrix.mulVec_mulVec, Matrix.nonsing_inv_mul _ (isUnit_iff_ne_zero.2 hA), Matrix.one_mulVec] at this
  exact (WithLp.ofLp_injective 2) this

/-- **C89** (fixed points).  A common zero with invertible Jacobian is returned unchanged. -/
theorem C89_fixed (hs : SolvesLinear solve) (p : ι → MvPolynomial ι ℂ) {z : EuclideanSpace ℂ ι} (hz : SimpleZero p z) (tol : ℝ) (niter : ℕ) :
    newtonPolish solve (polyValue p) (polyGrad p) tol niter z = some z := by
  have hF : newtonF (polyValue p) z = 0 := by
    ext i; exact hz.1 i
  induction niter with
  | zero => rfl
  | succ niter ih =>
    obtain ⟨d, hd, he⟩ := (hs (newtonDf (polyGrad p) z) (-newtonF (polyValue p) z)).1 hz.2
    have h0 : d = 0 := solve_unique hz.2 (he.trans (by rw [hF]; simp))
    subst h0
    rw [newtonPolish, hd]
    simp only [zero_add, ih, ite_self]

/-- **C89** (affine systems).  For an affine system with an invertible matrix one iteration is enough, from any starting point. -/
theorem C89_affine (hs : SolvesLinear solve) (A : Matrix ι ι ℂ) (hA : A.det ≠ 0) (b : ι → ℂ) (value : ι → EuclideanSpace ℂ ι → ℂ)
    (grad : ι → EuclideanSpace ℂ ι → ι → ℂ) (hv : ∀ i x, value i x = A.mulVec x.ofLp i + b i) (hg : ∀ i x j, grad i x j = A i j) :
    ∃ z, (∀ i, value i z = 0) ∧ ∀ tol root niter, newtonPolish solve value grad tol (niter + 1) root = some z := by
  have hJ : ∀ x, newtonDf grad x = A := fun x => by ext i j; exact hg i x j
  obtain ⟨z, hz, he⟩ := (hs A (WithLp.toLp 2 (-b))).1 hA
  have hz0 : ∀ i, value i z = 0 := fun i => by
    rw [hv, he]; simp
  refine ⟨z, hz0, fun tol => ?_⟩
  have hfix : ∀ niter, newtonPolish solve value grad tol niter z = some z := by
    intro niter
    induction niter with
    | zero => rfl
    | succ niter ih =>
      obtain ⟨d, hd, he⟩ := (hs (newtonDf grad z) (-newtonF value z)).1 (by rw [hJ]; exact hA)
      have hF : newtonF value z = 0 := by ext i; exact hz0 i
      have h0 : d = 0 := solve_unique (A := newtonDf grad z) (by rw [hJ]; exact hA) (he.trans (by rw [hF]; simp))
      subst h0
      rw [newtonPolish, hd]
      simp only [zero_add, ih, ite_self]
  intro root niter
  obtain ⟨d, hd, he'⟩ := (hs (newtonDf grad root) (-newtonF value root)).1 (by rw [hJ]; exact hA)
  have hstep : d + root = z := by
    refine solve_unique hA ?_
    rw [hJ] at he'
    rw [he, WithLp.ofLp_add, Matrix.mulVec_add, he']
    ext i
    simp [newtonF, hv]
  rw [newtonPolish, hd]
  simp only [hstep, hfix, ite_self]

/-- Non-vacuity: the system `2 x + y - 3 = 0`, `x + y - 2 = 0`. -/
example : ∃ solve, SolvesLinear solve ∧ ∀ tol root niter, newtonPolish solve
    (fun i x => (!![2, 1; 1, 1] : Matrix (Fin 2) (Fin 2) ℂ).mulVec x.ofLp i + ![-3, -2] i)
    (fun i _ j => (!![2, 1; 1, 1] : Matrix (Fin 2) (Fin 2) ℂ) i j) tol (niter + 1) root = some (WithLp.toLp 2 ![1, 1]) := by
  obtain ⟨solve, hs⟩ := solvesLinear_exists (ι := Fin 2)
  have hdet : (!![2, 1; 1, 1] : Matrix (Fin 2) (Fin 2) ℂ).det ≠ 0 := by
    rw [Matrix.det_fin_two]; norm_num
  obtain ⟨z, hz, h⟩ := C89_affine hs _ hdet ![-3, -2] _ _ (fun _ _ => rfl) fun _ _ _ => rfl
  refine ⟨solve, hs, fun tol root niter => (h tol root niter).trans (congrArg some (solve_unique hdet ?_))⟩
  funext i
  have h2 := eq_neg_of_add_eq_zero_left (hz i)
  rw [h2]
  fin_cases i <;> simp [Matrix.mulVec, dotProduct, Fin.sum_univ_two] <;> norm_num

/-- **C89** (convergence).  Near a common zero with invertible Jacobian the distance is at least halved in each iteration, until it is
below the tolerance; no exception is raised. -/
theorem C89_convergence (hs : SolvesLinear solve) (p : ι → MvPolynomial ι ℂ) {z : EuclideanSpace ℂ ι} (hz : SimpleZero p z) :
    ∃ r > 0, ∀ root, ‖root - z‖ < r → ∀ tol niter, ∃ y, newtonPolish solve (polyValue p) (polyGrad p) tol niter root = some y ∧
      ‖y - z‖ ≤ max (‖root - z‖ / 2 ^ niter) tol := by
  obtain ⟨r, hr, hstep⟩ := newton_step p z (by ext i; exact hz.1 i) hz.2
  refine ⟨r, hr, fun root hroot tol niter => ?_⟩
  induction niter generalizing root with
  | zero => exact ⟨root, rfl, by simp⟩
  | succ niter ih =>
    obtain ⟨hdet, hhalf⟩ := hstep root hroot
    obtain ⟨d, hd, he⟩ := (hs (newtonDf (polyGrad p) root) (-newtonF (polyValue p) root)).1 hdet
    have hh := hhalf d ((WithLp.ofLp_injective 2) he)
    have h0 := norm_nonneg (root - z)
    rw [newtonPolish, hd]
    simp only
    split_ifs with ht
    · refine ⟨_, rfl, le_max_of_le_right ?_⟩
      have : ‖root - z‖ ≤ ‖d‖ + ‖d + root - z‖ := by
        have := norm_sub_le (d + root - z) d
        rw [show d + root - z - d = root - z by abel] at this
        linarith
      linarith
    · obtain ⟨y, hy, hb⟩ := ih (d + root) (by linarith)
      refine ⟨y, hy, hb.trans (max_le_max ?_ le_rfl)⟩
      rw [pow_succ']
      rw [← div_div]
      exact div_le_div_of_nonneg_right hh (by positivity)

/-- Non-vacuity: for the system `x² - 1 = 0`, `x y = 0` the point `(1, 0)` is a simple zero. -/
example : SimpleZero (![X 0 ^ 2 - C 1, X 0 * X 1] : Fin 2 → MvPolynomial (Fin 2) ℂ) (WithLp.toLp 2 ![1, 0]) := by
  constructor
  · intro i
    fin_cases i <;> simp [polyValue]
  · rw [Matrix.det_fin_two]
    simp [polyGrad, Derivation.leibniz, Derivation.leibniz_pow]

/-- **C89** (singular Jacobian).  If the Jacobian is singular at the starting point the call raises, unless no iteration is made. -/
theorem C89_singular (hs : SolvesLinear solve) (p : ι → MvPolynomial ι ℂ) (root : EuclideanSpace ℂ ι)
    (h : (Matrix.of fun i j => polyGrad p i root j).det = 0) (tol : ℝ) (niter : ℕ) :
    newtonPolish solve (polyValue p) (polyGrad p) tol (niter + 1) root = none := by
  have : newtonDf (polyGrad p) root = Matrix.of fun i j => polyGrad p i root j := rfl
  rw [newtonPolish, (hs _ _).2 (this ▸ h)]

/-- Non-vacuity: in particular a double zero that is exact cannot be polished. -/
example (solve : Matrix (Fin 1) (Fin 1) ℂ → EuclideanSpace ℂ (Fin 1) → Option (EuclideanSpace ℂ (Fin 1))) (hs : SolvesLinear solve) :
    newtonPolish solve (polyValue fun _ => X 0 ^ 2) (polyGrad fun _ => X 0 ^ 2) (1 / 100000) 100 0 = none := by
  refine C89_singular hs _ _ ?_ _ 99
  simp [polyGrad, Derivation.leibniz_pow]

theorem eval_real (q : MvPolynomial ι ℝ) (x : EuclideanSpace ℂ ι) (hx : ∀ i, (x i).im = 0) :
    eval (fun k => x k) (map Complex.ofRealHom q) = ((eval (fun k => (x k).re) q : ℝ) : ℂ) := by
  have hx' : ∀ i, x i = ((x i).re : ℂ) := fun i => by
    apply Complex.ext <;> simp [hx i]
  induction q using MvPolynomial.induction_on with
  | C a => simp
  | add p q hp hq => rw [map_add, map_add, map_add, hp, hq, Complex.ofReal_add]
  | mul_X p i hp => rw [map_mul, map_mul, map_mul, hp, map_X, eval_X, eval_X, Complex.ofReal_mul, ← hx']

/-- **C89** (real points).  For polynomials with real coefficients the iteration stays real. -/
theorem C89_real (hs : SolvesLinear solve) (q : ι → MvPolynomial ι ℝ) (tol : ℝ) (niter : ℕ) (root y : EuclideanSpace ℂ ι)
    (hroot : ∀ i, (root i).im = 0)
    (h : newtonPolish solve (polyValue fun i => map Complex.ofRealHom (q i)) (polyGrad fun i => map Complex.ofRealHom (q i)) tol niter root =
      some y) : ∀ i, (y i).im = 0 := by
  induction niter generalizing root with
  | zero =>
    simp only [newtonPolish, Option.some.injEq] at h
    subst h; exact hroot
  | succ niter ih =>
    rw [newtonPolish] at h
    set J := newtonDf (polyGrad fun i => map Complex.ofRealHom (q i)) root with hJ
    set F := newtonF (polyValue fun i => map Complex.ofRealHom (q i)) root with hF
    set A : Matrix ι ι ℝ := Matrix.of fun i j => eval (fun k => (root k).re) (pderiv j (q i)) with hA
    set b : ι → ℝ := fun i => -eval (fun k => (root k).re) (q i) with hb
    have hJA : J = A.map Complex.ofRealHom := by
      ext i j
      simp only [hJ, newtonDf, polyGrad, Matrix.of_apply, Matrix.map_apply, hA]
      rw [pderiv_map, eval_real _ _ hroot]
      rfl
    by_cases hdet : J.det = 0
    · rw [(hs J (-F)).2 hdet] at h
      simp at h
    · obtain ⟨d, hd, he⟩ := (hs J (-F)).1 hdet
      have hdetA : A.det ≠ 0 := by
        intro h0
        apply hdet
        rw [hJA]
        have := (RingHom.map_det Complex.ofRealHom A).symm
        rw [RingHom.mapMatrix_apply] at this
        rw [this, h0, map_zero]
      have hreal : d = WithLp.toLp 2 fun i => ((A⁻¹.mulVec b i : ℝ) : ℂ) := by
        refine solve_unique hdet (he.trans ?_)
        rw [hJA]
        have h1 : (A.map Complex.ofRealHom).mulVec (fun i => ((A⁻¹.mulVec b i : ℝ) : ℂ)) = fun i => ((A.mulVec (A⁻¹.mulVec b) i : ℝ) : ℂ) := by
          funext i
          exact (RingHom.map_mulVec Complex.ofRealHom A (A⁻¹.mulVec b) i).symm
        refine Eq.trans ?_ h1.symm
        rw [Matrix.mulVec_mulVec, Matrix.mul_nonsing_inv _ (isUnit_iff_ne_zero.2 hdetA), Matrix.one_mulVec]
        funext i
        simp only [hF, newtonF, polyValue, hb, WithLp.ofLp_neg, Pi.neg_apply]
        rw [eval_real _ _ hroot]
        simp
      have hnext : ∀ i, ((d + root) i).im = 0 := fun i => by
        rw [hreal]; simp [hroot i]
      rw [hd] at h
      simp only at h
      split_ifs at h
      · simp only [Option.some.injEq] at h
        subst h; exact hnext
      · exact ih _ hnext h

/-- Non-vacuity: the polynomial `x² - 1` and its zero `1`. -/
example : ∃ solve, SolvesLinear solve ∧ ∃ y, newtonPolish solve (polyValue fun _ : Fin 1 => map Complex.ofRealHom (X 0 ^ 2 - C 1))
    (polyGrad fun _ => map Complex.ofRealHom (X 0 ^ 2 - C 1)) (1 / 100000) 100 (WithLp.toLp 2 fun _ => 1) = some y := by
  obtain ⟨solve, hs⟩ := solvesLinear_exists (ι := Fin 1)
  refine ⟨solve, hs, _, C89_fixed hs _ ⟨fun i => by simp [polyValue], ?_⟩ _ _⟩
  simp [polyGrad, Derivation.leibniz_pow]

/-! ### Sampling -/

theorem sample_error (polish : EuclideanSpace ℂ ι → Option (EuclideanSpace ℂ ι)) (starts : List (EuclideanSpace ℂ ι)) :
    starts.foldl (fun st testRoot => st.bind fun realRoots => (polish testRoot).map fun y => sampleStep realRoots (rePart y))
      (none : Option (List (EuclideanSpace ℝ ι))) = none := by
  induction starts with
  | nil => rfl
  | cons s l ih => simpa using ih

theorem sampleStep_mem {L : List (EuclideanSpace ℝ ι)} {y x : EuclideanSpace ℝ ι} (h : x ∈ L) : x ∈ sampleStep L y := by
  unfold sampleStep
  split_ifs
  · exact h
  · exact h
  · simp [h]

/-- **C89** (sampling).  The call raises exactly if one of the calls of `newton_polish` does.  Otherwise the answer consists of
end points in the unit cube, pairwise at least `1e-5` apart, and each end point in the cube is within `1e-5` of one of them. -/
theorem C89_sample (polish : EuclideanSpace ℂ ι → Option (EuclideanSpace ℂ ι)) (starts : List (EuclideanSpace ℂ ι)) :
    (getRootSample polish starts = none ↔ ∃ s ∈ starts, polish s = none) ∧
    ∀ roots, getRootSample polish starts = some roots →
      (∀ x ∈ roots, (∀ i, |x i| ≤ 1) ∧ ∃ s ∈ starts, ∃ y, polish s = some y ∧ ∀ i, x i = (y i).re) ∧
      roots.Pairwise (fun x x' => 1 / 100000 ≤ dist x x') ∧
      ∀ s ∈ starts, ∀ y, polish s = some y → (∀ i, |(y i).re| ≤ 1) →
        ∃ x ∈ roots, dist (WithLp.toLp 2 fun i => (y i).re) x < 1 / 100000 := by
  unfold getRootSample
  suffices key : ∀ (starts : List (EuclideanSpace ℂ ι)) (L : List (EuclideanSpace ℝ ι)),
      let R := starts.foldl (fun st testRoot => st.bind fun realRoots => (polish testRoot).map fun y => sampleStep realRoots (rePart y)) (some L)
      (R = none ↔ ∃ s ∈ starts, polish s = none) ∧
      ((∀ x ∈ L, ∀ i, |x i| ≤ 1) → L.Pairwise (fun x x' => 1 / 100000 ≤ dist x x') → ∀ roots, R = some roots →
        (∀ x ∈ L, x ∈ roots) ∧
        (∀ x ∈ roots, (∀ i, |x i| ≤ 1) ∧ (x ∈ L ∨ ∃ s ∈ starts, ∃ y, polish s = some y ∧ ∀ i, x i = (y i).re)) ∧
        roots.Pairwise (fun x x' => 1 / 100000 ≤ dist x x') ∧
        ∀ s ∈ starts, ∀ y, polish s = some y → (∀ i, |(y i).re| ≤ 1) →
          ∃ x ∈ roots, dist (WithLp.toLp 2 fun i => (y i).re) x < 1 / 100000) by
    obtain ⟨h1, h2⟩ := key starts []
    refine ⟨h1, fun roots h => ?_⟩
    obtain ⟨-, g2, g3, g4⟩ := h2 (by simp) (by simp) roots h
    exact ⟨fun x hx => ⟨(g2 x hx).1, (g2 x hx).2.resolve_left (by simp)⟩, g3, g4⟩
  intro starts
  induction starts with
  | nil =>
    intro L
    refine ⟨by simp, fun hc hp roots h => ?_⟩
    simp only [List.foldl_nil, Option.some.injEq] at h
    subst h
    exact ⟨fun x h => h, fun x hx => ⟨hc x hx, .inl hx⟩, hp, by simp⟩
  | cons s l ih =>
    intro L
    simp only [List.foldl_cons, Option.bind_some]
    cases hs : polish s with
    | none =>
      simp only [Option.map_none, sample_error]
      exact ⟨by simp [hs], fun _ _ roots h => by simp at h⟩
    | some y =>
      simp only [Option.map_some]
      obtain ⟨h1, h2⟩ := ih (sampleStep L (rePart y))
      constructor
      · rw [h1]
        simp [hs]
      · intro hc hp roots h
        have hstep : (∀ x ∈ sampleStep L (rePart y), (∀ i, |x i| ≤ 1) ∧ (x ∈ L ∨ x = rePart y)) ∧
            (sampleStep L (rePart y)).Pairwise (fun x x' => 1 / 100000 ≤ dist x x') ∧
            ((∀ i, |(y i).re| ≤ 1) → ∃ x ∈ sampleStep L (rePart y), dist (rePart y) x < 1 / 100000) := by
          unfold sampleStep
          by_cases ha : ∃ i, 1 < |rePart y i|
          · rw [if_pos ha]
            refine ⟨fun x hx => ⟨hc x hx, .inl hx⟩, hp, fun hle => ?_⟩
            obtain ⟨i, hi⟩ := ha
            exact absurd (hle i) (not_le.2 hi)
          · rw [if_neg ha]
            by_cases hb : ∃ root ∈ L, ‖rePart y - root‖ < 1 / 100000
            · rw [if_pos hb]
              refine ⟨fun x hx => ⟨hc x hx, .inl hx⟩, hp, fun _ => ?_⟩
              obtain ⟨x, hx, hlt⟩ := hb
              exact ⟨x, hx, by rwa [dist_eq_norm]⟩
            · rw [if_neg hb]
              push Not at ha hb
              refine ⟨fun x hx => ?_, ?_, fun _ => ⟨rePart y, by simp, by rw [dist_self]; norm_num⟩⟩
              · rcases List.mem_append.1 hx with hx | hx
                · exact ⟨hc x hx, .inl hx⟩
                · rw [List.mem_singleton.1 hx]; exact ⟨ha, .inr rfl⟩
              · rw [List.pairwise_append]
                refine ⟨hp, by simp, fun x hx x' hx' => ?_⟩
                rw [List.mem_singleton.1 hx', dist_comm, dist_eq_norm]
                exact hb x hx
        obtain ⟨g1, g2, g3, g4⟩ := h2 (fun x hx => (hstep.1 x hx).1) hstep.2.1 roots h
        refine ⟨fun x hx => g1 x (sampleStep_mem hx), fun x hx => ⟨(g2 x hx).1, ?_⟩, g3, ?_⟩
        · rcases (g2 x hx).2 with hx | ⟨s', hs', y', hy'⟩
          · rcases (hstep.1 x hx).2 with hx | rfl
            · exact .inl hx
            · exact .inr ⟨s, by simp, y, hs, fun i => rfl⟩
          · exact .inr ⟨s', by simp [hs'], y', hy'⟩
        · intro s' hs' y' hy' hle
          rcases List.mem_cons.1 hs' with rfl | hs'
          · rw [hs] at hy'
            simp only [Option.some.injEq] at hy'
            subst hy'
            obtain ⟨x, hx, hlt⟩ := hstep.2.2 hle
            exact ⟨x, g1 x hx, hlt⟩
          · exact g4 s' hs' y' hy' hle

/-- Non-vacuity: without polishing, a start in the cube is found and one outside of it is not. -/
example : getRootSample (ι := Fin 1) some [WithLp.toLp 2 ![1 / 2], WithLp.toLp 2 ![2]] = some [WithLp.toLp 2 fun _ => 1 / 2] := by
  have e1 : rePart (WithLp.toLp 2 ![(1 / 2 : ℂ)]) = WithLp.toLp 2 fun _ => 1 / 2 := by
    ext i; fin_cases i; simp [rePart]
  have e2 : rePart (WithLp.toLp 2 ![(2 : ℂ)]) = WithLp.toLp 2 fun _ => 2 := by
    ext i; fin_cases i; simp [rePart]
  simp only [getRootSample, List.foldl_cons, List.foldl_nil, Option.bind_some, Option.map_some, e1, e2]
  have s1 : sampleStep [] (WithLp.toLp 2 fun _ : Fin 1 => (1 / 2 : ℝ)) = [WithLp.toLp 2 fun _ => 1 / 2] := by
    unfold sampleStep
    rw [if_neg, if_neg]
    · rfl
    · simp
    · simp [abs_of_pos]; norm_num
  rw [s1]
  unfold sampleStep
  rw [if_pos]
  exact ⟨0, by simp⟩

end YRoots.Legacy
