import Verif.Model.Approx
import Mathlib.Analysis.SpecialFunctions.Trigonometric.Chebyshev.Basic
import Mathlib.Algebra.Polynomial.Roots
import Mathlib.Algebra.BigOperators.Ring.Finset
import Mathlib.Algebra.BigOperators.Field

/-!
# Helper lemmas: discrete cosine orthogonality and interpolation
-/

set_option linter.unusedSectionVars false
set_option linter.unusedVariables false
set_option linter.unusedSimpArgs false

namespace YRoots

open Finset Real

variable {n : ℕ}

/-- Trapezoidal weight. -/
noncomputable def wt (N k : ℕ) : ℝ := (if k = 0 then 1 / 2 else 1) * (if k = N then 1 / 2 else 1)

theorem wt_pos (N k : ℕ) : 0 < wt N k := by unfold wt; split_ifs <;> norm_num

/-- Trapezoidal sums telescope over neighbours. -/
theorem trap_eq (N : ℕ) (hN : 1 ≤ N) (g : ℕ → ℝ) :
    ∑ k ∈ range (N + 1), wt N k * g k = ∑ k ∈ range N, (g k + g (k + 1)) / 2 := by
  obtain ⟨m, rfl⟩ : ∃ m, N = m + 1 := ⟨N - 1, by omega⟩
  have h1 : ∑ k ∈ range (m + 1 + 1), wt (m + 1) k * g k = (∑ k ∈ range (m + 2), g k) - g 0 / 2 - g (m + 1) / 2 := by
    rw [sum_range_succ, sum_range_succ', sum_range_succ (n := m + 1), sum_range_succ' (n := m)]
    have : ∀ k ∈ range m, wt (m + 1) (k + 1) * g (k + 1) = g (k + 1) := by
      intro k hk
      have := mem_range.1 hk
      simp [wt, show k ≠ m by omega]
    rw [sum_congr rfl this]
    simp [wt]
    ring
  rw [h1, ← Finset.sum_div, sum_add_distrib]
  rw [sum_range_succ (n := m + 1)]
  have e : ∑ k ∈ range (m + 1), g (k + 1) = ∑ k ∈ range (m + 1), g k + g (m + 1) - g 0 := by
    have := sum_range_succ' g (m + 1)
    have := sum_range_succ g (m + 1)
    linarith
  rw [e]; ring

/-- The trapezoidal sum of `cos (k m π / N)`. -/
theorem trap_cos (N : ℕ) (hN : 1 ≤ N) (m : ℤ) :
    ∑ k ∈ range (N + 1), wt N k * cos (k * (m * π / N)) = if (2 * N : ℤ) ∣ m then (N : ℝ) else 0 := by
  have hN0 : (N : ℝ) ≠ 0 := by positivity
  rw [trap_eq N hN fun k => cos (k * (m * π / N))]
  split
  · rename_i h
    obtain ⟨q, rfl⟩ := h
    have : ∀ k : ℕ, cos ((k : ℝ) * (((2 * N * q : ℤ) : ℝ) * π / N)) = 1 := by
      intro k
      have e : (k : ℝ) * (((2 * N * q : ℤ) : ℝ) * π / N) = ((k * q : ℤ) : ℝ) * (2 * π) := by
        push_cast; field_simp
      rw [e, cos_int_mul_two_pi]
    rw [sum_congr rfl (g := fun _ => (1 : ℝ)) (fun k _ => by rw [this, this]; norm_num)]
    simp
  · rename_i h
    set θ : ℝ := m * π / N with hθ
    have hs : sin (θ / 2) ≠ 0 := by
      intro h0
      rw [sin_eq_zero_iff] at h0
      obtain ⟨q, hq⟩ := h0
      apply h
      refine ⟨q, ?_⟩
      have : (m : ℝ) = 2 * N * q := by
        have hpi := pi_ne_zero
        rw [hθ] at hq
        field_simp at hq
        linarith
      exact_mod_cast this
    have tele : ∀ M : ℕ, (∑ k ∈ range M, (cos (k * θ) + cos ((k + 1 : ℕ) * θ)) / 2) * (2 * sin (θ / 2)) =
        cos (θ / 2) * sin (M * θ) := by
      intro M
      induction M with
      | zero => simp
      | succ M ih =>
        rw [sum_range_succ, add_mul, ih]
        obtain ⟨φ, hφ⟩ : ∃ φ : ℝ, φ = M * θ + θ / 2 := ⟨_, rfl⟩
        have e1 : (M : ℝ) * θ = φ - θ / 2 := by rw [hφ]; ring
        have e2 : ((M + 1 : ℕ) : ℝ) * θ = φ + θ / 2 := by rw [hφ]; push_cast; ring
        rw [e2, e1, cos_sub, cos_add, sin_sub, sin_add]
        ring
    have h0 : sin (N * θ) = 0 := by
      have : (N : ℝ) * θ = m * π := by rw [hθ]; field_simp
      rw [this, sin_int_mul_pi]
    have := tele N
    rw [h0, mul_zero] at this
    rcases mul_eq_zero.1 this with h1 | h1
    · exact h1
    · exact absurd h1 (by simpa using hs)

/-- Discrete orthogonality of cosines. -/
theorem trap_cos_mul (N : ℕ) (hN : 1 ≤ N) (i j : ℕ) (hi : i ≤ N) (hj : j ≤ N) :
    ∑ k ∈ range (N + 1), wt N k * (cos (k * (i * π / N)) * cos (k * (j * π / N))) =
      if i = j then N / (2 * wt N j) else 0 := by
  have e : ∀ k : ℕ, wt N k * (cos (k * (i * π / N)) * cos (k * (j * π / N))) =
      (wt N k * cos (k * (((i + j : ℤ) : ℝ) * π / N)) + wt N k * cos (k * (((i - j : ℤ) : ℝ) * π / N))) / 2 := by
    intro k
    have a1 : (k : ℝ) * (((i + j : ℤ) : ℝ) * π / N) = k * (i * π / N) + k * (j * π / N) := by push_cast; ring
    have a2 : (k : ℝ) * (((i - j : ℤ) : ℝ) * π / N) = k * (i * π / N) - k * (j * π / N) := by push_cast; ring
    rw [a1, a2, cos_add, cos_sub]; ring
  rw [sum_congr rfl fun k _ => e k, ← Finset.sum_div, sum_add_distrib, trap_cos N hN, trap_cos N hN]
  have hN0 : (N : ℝ) ≠ 0 := by positivity
  by_cases hij : i = j
  · subst hij
    simp only [sub_self, dvd_zero, if_true]
    by_cases h0 : i = 0
    · subst h0
      simp [wt, show ¬ (0 = N) by omega]
    · by_cases h1 : i = N
      · subst h1
        have : (2 * i : ℤ) ∣ (i + i : ℤ) := ⟨1, by ring⟩
        rw [if_pos this]
        simp [wt, h0]
      · have : ¬ (2 * N : ℤ) ∣ (i + i : ℤ) := by
          intro hd
          have := Int.le_of_dvd (by omega) hd
          omega
        rw [if_neg this]
        simp [wt, h0, h1]
  · have h1 : ¬ (2 * N : ℤ) ∣ (i + j : ℤ) := by
      intro hd
      have := Int.le_of_dvd (by omega) hd
      omega
    have h2 : ¬ (2 * N : ℤ) ∣ (i - j : ℤ) := by
      intro hd
      have := Int.eq_zero_of_abs_lt_dvd hd (by rw [abs_lt]; omega)
      omega
    rw [if_neg h1, if_neg h2, if_neg hij]
    simp

/-- The kernel of the transform is `2 wt cos`. -/
theorem dctKernel_eq (N k j : ℕ) (hN : 1 ≤ N) : dctKernel N k j = 2 * wt N j * cos (j * (k * π / N)) := by
  have hN0 : (N : ℝ) ≠ 0 := by positivity
  unfold dctKernel wt
  by_cases h0 : j = 0
  · subst h0
    simp [show ¬ (0 = N) by omega]
  · by_cases h1 : j = N
    · subst h1
      have : (j : ℝ) * (k * π / j) = k * π := by field_simp
      rw [this, cos_nat_mul_pi]
      simp [h0]
    · simp only [h0, h1, if_false]
      congr 2
      · ring
      · ring

theorem chebT_chebPt (N k j : ℕ) : chebT k (chebPt N j) = cos (k * (j * π / N)) := by
  unfold chebT chebPt
  rw [Polynomial.Chebyshev.T_real_cos]
  simp

/-- Halving the edges multiplies by the weights. -/
theorem halveEdges_eq (degs : Fin n → ℕ) (c : (Fin n → ℕ) → ℝ) (k : Fin n → ℕ) :
    halveEdges degs c k = c k * ∏ i, wt (degs i) (k i) := by
  have gen : ∀ (l : List (Fin n)) (c : (Fin n → ℕ) → ℝ),
      l.foldl (fun c d =>
        let c := fun k => if k d = 0 then c k / 2 else c k
        fun k => if k d = degs d then c k / 2 else c k) c k = c k * (l.map fun i => wt (degs i) (k i)).prod := by
    intro l
    induction l with
    | nil => intro c; simp
    | cons d l ih =>
      intro c
      rw [List.foldl_cons, ih]
      simp only [List.map_cons, List.prod_cons, wt]
      split_ifs <;> ring
  unfold halveEdges
  rw [gen, Fin.prod_univ_def]

/-- The index grid. -/
def gridIdx (N : Fin n → ℕ) : Finset (Fin n → ℕ) := Fintype.piFinset fun i => range (N i + 1)

theorem mem_gridIdx {N j : Fin n → ℕ} : j ∈ gridIdx N ↔ ∀ i, j i ≤ N i := by
  simp [gridIdx, Nat.lt_succ_iff]

/-- All coefficients, before slicing. -/
noncomputable def fullCoef (N : Fin n → ℕ) (v : (Fin n → ℕ) → ℝ) (k : Fin n → ℕ) : ℝ :=
  halveEdges N (dctn N fun j => v j / ∏ i, (N i : ℝ)) k

theorem fullCoef_eq (N : Fin n → ℕ) (hN : ∀ i, 1 ≤ N i) (v : (Fin n → ℕ) → ℝ) (k : Fin n → ℕ) :
    fullCoef N v k = ∑ j ∈ gridIdx N, v j *
      ∏ i, (2 / N i * wt (N i) (k i) * (wt (N i) (j i) * cos (j i * (k i * π / N i)))) := by
  unfold fullCoef
  rw [halveEdges_eq]
  unfold dctn
  rw [sum_mul]
  apply sum_congr rfl
  intro j _
  have h1 : (∏ i, (N i : ℝ)) ≠ 0 := prod_ne_zero_iff.2 fun i _ => by have := hN i; positivity
  rw [div_mul_eq_mul_div, div_mul_eq_mul_div, div_eq_iff h1, mul_assoc, mul_assoc, ← prod_mul_distrib, ← prod_mul_distrib]
  congr 1
  apply prod_congr rfl
  intro i _
  have : (N i : ℝ) ≠ 0 := by have := hN i; positivity
  rw [dctKernel_eq _ _ _ (hN i)]
  field_simp

theorem prod_delta {N i j : Fin n → ℕ} (g : Fin n → ℝ) (h : ∀ t, i t = j t → g t = 1) (h' : ∀ t, i t ≠ j t → g t = 0) :
    ∏ t, g t = if i = j then 1 else 0 := by
  split
  · rename_i e
    exact prod_eq_one fun t _ => h t (congrFun e t)
  · rename_i e
    obtain ⟨t, ht⟩ := Function.ne_iff.1 e
    exact prod_eq_zero (mem_univ t) (h' t ht)

/-- The series takes the given values on the grid. -/
theorem fullCoef_interp (N : Fin n → ℕ) (hN : ∀ i, 1 ≤ N i) (v : (Fin n → ℕ) → ℝ) (j : Fin n → ℕ) (hj : j ∈ gridIdx N) :
    ∑ k ∈ gridIdx N, fullCoef N v k * ∏ i, chebT (k i) (chebPt (N i) (j i)) = v j := by
  have hj' := mem_gridIdx.1 hj
  simp_rw [fullCoef_eq N hN, sum_mul, mul_assoc]
  rw [sum_comm]
  have : ∀ j' ∈ gridIdx N, ∑ k ∈ gridIdx N, v j' * ((∏ i, (2 / N i * (wt (N i) (k i) *
      (wt (N i) (j' i) * cos (j' i * (k i * π / N i)))))) * ∏ i, chebT (k i) (chebPt (N i) (j i))) =
      v j' * if j' = j then 1 else 0 := by
    intro j' hj1
    have hj1' := mem_gridIdx.1 hj1
    rw [← mul_sum]
    congr 1
    simp_rw [← prod_mul_distrib]
    unfold gridIdx
    rw [← prod_univ_sum (fun i => range (N i + 1)) (fun i k => 2 / (N i : ℝ) * (wt (N i) k *
      (wt (N i) (j' i) * cos (j' i * (k * π / N i)))) * chebT k (chebPt (N i) (j i)))]
    have hone : ∀ i, ∑ k ∈ range (N i + 1), 2 / (N i : ℝ) * (wt (N i) k *
        (wt (N i) (j' i) * cos (j' i * (k * π / N i)))) * chebT k (chebPt (N i) (j i)) =
        2 / N i * wt (N i) (j' i) * (if j' i = j i then N i / (2 * wt (N i) (j i)) else 0) := by
      intro i
      rw [← trap_cos_mul (N i) (hN i) (j' i) (j i) (hj1' i) (hj' i), mul_sum]
      apply sum_congr rfl
      intro k _
      rw [chebT_chebPt, show (j' i : ℝ) * (k * π / N i) = k * (j' i * π / N i) by ring]
      ring
    apply prod_delta (N := N)
    · intro t ht
      have h1 : (N t : ℝ) ≠ 0 := by have := hN t; positivity
      have h2 := (wt_pos (N t) (j t)).ne'
      rw [hone, if_pos ht, ht]
      field_simp
    · intro t ht
      rw [hone, if_neg ht, mul_zero]
  rw [sum_congr rfl this]
  simp [hj]

/-- The transform recovers the coefficients of a series from its values on the grid. -/
theorem fullCoef_recover (N : Fin n → ℕ) (hN : ∀ i, 1 ≤ N i) (c : (Fin n → ℕ) → ℝ) (v : (Fin n → ℕ) → ℝ)
    (hv : ∀ j ∈ gridIdx N, v j = ∑ m ∈ gridIdx N, c m * ∏ i, chebT (m i) (chebPt (N i) (j i)))
    (k : Fin n → ℕ) (hk : k ∈ gridIdx N) : fullCoef N v k = c k := by
  have hk' := mem_gridIdx.1 hk
  rw [fullCoef_eq N hN, sum_congr rfl fun j hj => by rw [hv j hj]]
  simp_rw [sum_mul, mul_assoc]
  rw [sum_comm]
  have : ∀ m ∈ gridIdx N, ∑ j ∈ gridIdx N, c m * ((∏ i, chebT (m i) (chebPt (N i) (j i))) *
      ∏ i, (2 / N i * (wt (N i) (k i) * (wt (N i) (j i) * cos (j i * (k i * π / N i)))))) =
      c m * if m = k then 1 else 0 := by
    intro m hm
    have hm' := mem_gridIdx.1 hm
    rw [← mul_sum]
    congr 1
    simp_rw [← prod_mul_distrib]
    unfold gridIdx
    rw [← prod_univ_sum (fun i => range (N i + 1)) (fun i j => chebT (m i) (chebPt (N i) j) *
      (2 / (N i : ℝ) * (wt (N i) (k i) * (wt (N i) j * cos (j * (k i * π / N i))))))]
    have hone : ∀ i, ∑ j ∈ range (N i + 1), chebT (m i) (chebPt (N i) j) *
        (2 / (N i : ℝ) * (wt (N i) (k i) * (wt (N i) j * cos (j * (k i * π / N i))))) =
        2 / N i * wt (N i) (k i) * (if m i = k i then N i / (2 * wt (N i) (k i)) else 0) := by
      intro i
      rw [← trap_cos_mul (N i) (hN i) (m i) (k i) (hm' i) (hk' i), mul_sum]
      apply sum_congr rfl
      intro j _
      rw [chebT_chebPt, show (m i : ℝ) * (j * π / N i) = j * (m i * π / N i) by ring]
      ring
    apply prod_delta (N := N)
    · intro t ht
      have h1 : (N t : ℝ) ≠ 0 := by have := hN t; positivity
      have h2 := (wt_pos (N t) (k t)).ne'
      rw [hone, if_pos ht]
      field_simp
    · intro t ht
      rw [hone, if_neg ht, mul_zero]
  rw [sum_congr rfl this]
  simp [hk]

/-! ### Polynomials in each variable -/

/-- `f` is a polynomial of degree at most `D` in variable `d`, whatever the others are. -/
def PolyAlong (d : Fin n) (D : ℕ) (f : (Fin n → ℝ) → ℝ) : Prop :=
  ∀ x, ∃ p : Polynomial ℝ, p.natDegree ≤ D ∧ ∀ t, f (Function.update x d t) = p.eval t

theorem PolyAlong.mono {d : Fin n} {D E : ℕ} {f : (Fin n → ℝ) → ℝ} (h : PolyAlong d D f) (hDE : D ≤ E) :
    PolyAlong d E f := fun x => by
  obtain ⟨p, hp, he⟩ := h x
  exact ⟨p, hp.trans hDE, he⟩

theorem PolyAlong.sub {d : Fin n} {D : ℕ} {f g : (Fin n → ℝ) → ℝ} (hf : PolyAlong d D f) (hg : PolyAlong d D g) :
    PolyAlong d D (fun x => f x - g x) := fun x => by
  obtain ⟨p, hp, he⟩ := hf x
  obtain ⟨q, hq, he'⟩ := hg x
  exact ⟨p - q, (Polynomial.natDegree_sub_le_of_le hp hq).trans (by simp), fun t => by simp [he, he']⟩

theorem transformPt_update (x a b : Fin n → ℝ) (d : Fin n) (t : ℝ) :
    transformPt (Function.update x d t) a b = Function.update (transformPt x a b) d (transform1 t (a d) (b d)) := by
  ext i
  by_cases h : i = d
  · subst h; simp [transformPt, transform1]
  · simp [transformPt, h]

theorem PolyAlong.comp_transform {d : Fin n} {D : ℕ} {f : (Fin n → ℝ) → ℝ} (hf : PolyAlong d D f) (a b : Fin n → ℝ) :
    PolyAlong d D (fun x => f (transformPt x a b)) := fun x => by
  obtain ⟨p, hp, he⟩ := hf (transformPt x a b)
  refine ⟨p.comp (Polynomial.C ((b d - a d) / 2) * Polynomial.X + Polynomial.C ((b d + a d) / 2)), ?_, fun t => ?_⟩
  · refine Polynomial.natDegree_comp_le.trans ?_
    calc p.natDegree * _ ≤ p.natDegree * 1 := Nat.mul_le_mul_left _ (Polynomial.natDegree_linear_le)
      _ ≤ D := by omega
  · simp only [transformPt_update, he]
    simp [transform1]
    congr 1
    ring

/-- A Chebyshev series with coefficients `c` on `gridIdx N`. -/
theorem series_polyAlong (N : Fin n → ℕ) (c : (Fin n → ℕ) → ℝ) (d : Fin n) :
    PolyAlong d (N d) (fun x => ∑ k ∈ gridIdx N, c k * ∏ i, chebT (k i) (x i)) := fun x => by
  refine ⟨∑ k ∈ gridIdx N, Polynomial.C (c k * ∏ i ∈ univ.erase d, chebT (k i) (x i)) *
      Polynomial.Chebyshev.T ℝ (k d), ?_, fun t => ?_⟩
  · apply Polynomial.natDegree_sum_le_of_forall_le
    intro k hk
    have := mem_gridIdx.1 hk d
    refine (Polynomial.natDegree_C_mul_le _ _).trans ?_
    rw [Polynomial.Chebyshev.natDegree_T]
    simpa using this
  · rw [Polynomial.eval_finset_sum]
    apply sum_congr rfl
    intro k _
    rw [Polynomial.eval_mul, Polynomial.eval_C, ← mul_prod_erase _ _ (mem_univ d), mul_assoc]
    congr 1
    rw [mul_comm, Function.update_self]
    congr 1
    apply prod_congr rfl
    intro i hi
    rw [Function.update_of_ne (ne_of_mem_erase hi)]

/-- A function that is a polynomial of degree at most `N i` in variable `i ∈ s` and vanishes on the product grid with `N i + 1`
different points in these directions vanishes everywhere (with the other coordinates fixed on the grid). -/
theorem vanish_of_grid (N : Fin n → ℕ) (pts : Fin n → ℕ → ℝ) (hinj : ∀ i, Set.InjOn (pts i) {j | j ≤ N i})
    (s : Finset (Fin n)) (g : (Fin n → ℝ) → ℝ) (hg : ∀ i ∈ s, PolyAlong i (N i) g)
    (h0 : ∀ j ∈ gridIdx N, g (fun i => pts i (j i)) = 0) (x : Fin n → ℝ)
    (hx : ∀ i ∉ s, ∃ j ≤ N i, x i = pts i j) : g x = 0 := by
  induction s using Finset.induction_on generalizing x with
  | empty =>
    choose j hj hxj using fun i => hx i (by simp)
    have : x = fun i => pts i (j i) := funext hxj
    rw [this]
    exact h0 j (mem_gridIdx.2 hj)
  | insert d s hd ih =>
    obtain ⟨p, hp, he⟩ := hg d (mem_insert_self _ _) x
    have hz : ∀ j ≤ N d, p.eval (pts d j) = 0 := by
      intro j hj
      rw [← he]
      apply ih (fun i hi => hg i (mem_insert_of_mem hi))
      intro i hi
      by_cases hid : i = d
      · subst hid; exact ⟨j, hj, by simp⟩
      · obtain ⟨j', h1, h2⟩ := hx i (by simp [hid, hi])
        exact ⟨j', h1, by rw [Function.update_of_ne hid, h2]⟩
    have hp0 : p = 0 := by
      apply Polynomial.eq_zero_of_natDegree_lt_card_of_eval_eq_zero' p ((range (N d + 1)).image (pts d))
      · intro y hy
        obtain ⟨j, hj, rfl⟩ := mem_image.1 hy
        exact hz j (by have := mem_range.1 hj; omega)
      · rw [card_image_of_injOn]
        · simp; omega
        · intro u hu w hw h
          exact hinj d (by have := mem_range.1 hu; exact Nat.lt_succ_iff.1 this)
            (by have := mem_range.1 hw; exact Nat.lt_succ_iff.1 this) h
    have := he (x d)
    rw [Function.update_eq_self, hp0] at this
    simpa using this

theorem chebPt_injOn (N : ℕ) (hN : 1 ≤ N) : Set.InjOn (chebPt N) {j | j ≤ N} := by
  intro i hi j hj h
  have hN0 : (0 : ℝ) < N := by positivity
  have key : ∀ k : ℕ, k ≤ N → (k : ℝ) * π / N ∈ Set.Icc 0 π := by
    intro k hk
    refine ⟨by positivity, ?_⟩
    rw [div_le_iff₀ hN0, mul_comm]
    exact mul_le_mul_of_nonneg_left (by exact_mod_cast hk) pi_pos.le
  have := injOn_cos (key i hi) (key j hj) h
  have hpi := pi_pos
  field_simp at this
  exact_mod_cast this

theorem one_le_bumpDegs (degs : Fin n → ℕ) (i : Fin n) : 1 ≤ bumpDegs degs i := by
  unfold bumpDegs; split <;> omega

theorem le_bumpDegs (degs : Fin n → ℕ) (i : Fin n) : degs i ≤ bumpDegs degs i := by
  unfold bumpDegs; split <;> omega

theorem bumpDegs_eq {degs : Fin n → ℕ} (h : ∀ i, 1 ≤ degs i) : bumpDegs degs = degs := by
  ext i; unfold bumpDegs; have := h i; split <;> omega

theorem intervalApproximate_coef (f : (Fin n → ℝ) → ℝ) (degs : Fin n → ℕ) (a b : Fin n → ℝ) (k : Fin n → ℕ) :
    (intervalApproximate f degs a b).coeffs.coef k =
      fullCoef (bumpDegs degs) (fun j => f (gridPt (bumpDegs degs) a b j)) k := rfl

theorem intervalApproximate_idx (f : (Fin n → ℝ) → ℝ) (degs : Fin n → ℕ) (a b : Fin n → ℝ) :
    (intervalApproximate f degs a b).coeffs.idx = gridIdx degs := rfl

/-- The unsliced series equals a polynomial of these degrees wherever the other coordinates are on the grid. -/
theorem fullCoef_exact (N : Fin n → ℕ) (hN : ∀ i, 1 ≤ N i) (g : (Fin n → ℝ) → ℝ) (s : Finset (Fin n))
    (hg : ∀ i ∈ s, PolyAlong i (N i) g) (x : Fin n → ℝ) (hx : ∀ i ∉ s, ∃ j ≤ N i, x i = chebPt (N i) j) :
    g x = ∑ k ∈ gridIdx N, fullCoef N (fun j => g fun i => chebPt (N i) (j i)) k * ∏ i, chebT (k i) (x i) := by
  rw [← sub_eq_zero]
  apply vanish_of_grid N (fun i => chebPt (N i)) (fun i => chebPt_injOn _ (hN i)) s
    (fun x => g x - ∑ k ∈ gridIdx N, fullCoef N (fun j => g fun i => chebPt (N i) (j i)) k * ∏ i, chebT (k i) (x i))
  · intro i hi
    exact (hg i hi).sub (series_polyAlong N _ i)
  · intro j hj
    have := fullCoef_interp N hN (fun j => g fun i => chebPt (N i) (j i)) j hj
    simp only [this, sub_self]
  · exact hx

theorem eq_of_polyAlong_zero (g : (Fin n → ℝ) → ℝ) (s : Finset (Fin n)) (hg : ∀ i ∈ s, PolyAlong i 0 g)
    (x y : Fin n → ℝ) (h : ∀ i ∉ s, x i = y i) : g x = g y := by
  induction s using Finset.induction_on generalizing x with
  | empty => rw [funext fun i => h i (by simp)]
  | insert d s hd ih =>
    obtain ⟨p, hp, he⟩ := hg d (mem_insert_self _ _) x
    have h1 : g x = g (Function.update x d (y d)) := by
      have e1 := he (x d)
      have e2 := he (y d)
      rw [Function.update_eq_self] at e1
      rw [Polynomial.eq_C_of_natDegree_le_zero hp] at e1 e2
      simp at e1 e2
      rw [e1, e2]
    rw [h1]
    apply ih fun i hi => hg i (mem_insert_of_mem hi)
    intro i hi
    by_cases hid : i = d
    · subst hid; simp
    · rw [Function.update_of_ne hid]
      exact h i (by simp [hid, hi])

theorem intervalApproximate_exact (f : (Fin n → ℝ) → ℝ) (degs : Fin n → ℕ) (a b : Fin n → ℝ)
    (hf : ∀ i, PolyAlong i (degs i) f) (x : Fin n → ℝ) :
    (intervalApproximate f degs a b).coeffs.eval x = f (transformPt x a b) := by
  set N := bumpDegs degs with hN
  have hN1 : ∀ i, 1 ≤ N i := one_le_bumpDegs degs
  set g : (Fin n → ℝ) → ℝ := fun x => f (transformPt x a b) with hg
  have hgp : ∀ i, PolyAlong i (degs i) g := fun i => (hf i).comp_transform a b
  set x' : Fin n → ℝ := fun i => if degs i = 0 then 0 else x i with hx'
  have e1 : g x = g x' := by
    apply eq_of_polyAlong_zero g (univ.filter fun i => degs i = 0)
    · intro i hi
      have := (mem_filter.1 hi).2
      have h := hgp i
      rwa [this] at h
    · intro i hi
      have : degs i ≠ 0 := by simpa using hi
      simp [hx', this]
  have e2 := fullCoef_exact N hN1 g univ (fun i _ => (hgp i).mono (le_bumpDegs degs i)) x' (by simp)
  change _ = g x
  rw [e1, e2]
  unfold Tensor.eval
  rw [intervalApproximate_idx]
  have hsub : gridIdx degs ⊆ gridIdx N := by
    intro k hk
    rw [mem_gridIdx] at *
    exact fun i => (hk i).trans (le_bumpDegs degs i)
  rw [← sum_subset hsub]
  · apply sum_congr rfl
    intro k hk
    rw [mem_gridIdx] at hk
    congr 1
    apply prod_congr rfl
    intro i _
    by_cases h : degs i = 0
    · have : k i = 0 := by have := hk i; omega
      simp [this]
    · simp [hx', h]
  · intro k hk hk'
    rw [mem_gridIdx] at hk hk'
    push Not at hk'
    obtain ⟨i, hi⟩ := hk'
    have h0 : degs i = 0 := by
      by_contra h
      have h1 := hk i
      have : N i = degs i := by rw [hN]; unfold bumpDegs; simp [h]
      omega
    have h1 : k i = 1 := by
      have h1 := hk i
      have : N i = 1 := by rw [hN]; unfold bumpDegs; simp [h0]
      omega
    rw [prod_eq_zero (mem_univ i), mul_zero]
    simp [h1, hx', h0]

/-! ### Polynomials given by tensors -/

theorem evalPow_polyAlong (M : Tensor n ℝ) (d : Fin n) : PolyAlong d (M.shape d - 1) (fun x => M.evalPow x) := fun x => by
  refine ⟨∑ k ∈ M.idx, Polynomial.C (M.coef k * ∏ i ∈ univ.erase d, (x i) ^ (k i)) * Polynomial.X ^ (k d), ?_,
    fun t => ?_⟩
  · apply Polynomial.natDegree_sum_le_of_forall_le
    intro k hk
    have : k d < M.shape d := mem_range.1 (Fintype.mem_piFinset.1 hk d)
    exact (Polynomial.natDegree_C_mul_X_pow_le _ _).trans (by omega)
  · rw [Polynomial.eval_finset_sum]
    unfold Tensor.evalPow
    apply sum_congr rfl
    intro k _
    rw [Polynomial.eval_mul, Polynomial.eval_C, Polynomial.eval_pow, Polynomial.eval_X, ← mul_prod_erase _ _ (mem_univ d),
      mul_assoc, mul_comm (Function.update x d t d ^ k d), Function.update_self]
    congr 2
    apply prod_congr rfl
    intro i hi
    rw [Function.update_of_ne (ne_of_mem_erase hi)]

end YRoots
