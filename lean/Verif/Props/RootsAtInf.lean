import Verif.Model.RootsAtInf
import Verif.Props.OneDim

/-!
# C63: roots at infinity of plane curves
-/

namespace YRoots.OneD

open Polynomial

/-! ### Specification -/

/-- The part of degree `max(m,n) - 1` of the polynomial with coefficient array `A`; for an upper triangular array it is the
leading form, whose zeros are the points at infinity of the curve. -/
noncomputable def topForm (m n : ℕ) (A : ℕ → ℕ → ℝ) (x y : ℂ) : ℂ :=
  ∑ i ∈ Finset.range m, ∑ j ∈ Finset.range n, if i + j = max m n - 1 then (A i j : ℂ) * x ^ i * y ^ j else 0

/-- The points have the form `(x, 1)` or `(1, 0)` and are, up to scaling, exactly the zeros of the form. -/
def AreZeros (F : ℂ → ℂ → ℂ) (pts : List (ℂ × ℂ)) : Prop :=
  (∀ q ∈ pts, q.2 = 1 ∨ q = (1, 0)) ∧ ∀ x y, (x, y) ≠ (0, 0) → (F x y = 0 ↔ ∃ q ∈ pts, x * q.2 = y * q.1)

/-! ### Helper lemmas -/

theorem antiDiag_length (m n : ℕ) (A : ℕ → ℕ → ℝ) : (antiDiag m n A).length = max m n := by simp [antiDiag]

theorem antiDiag_getD (m n : ℕ) (A : ℕ → ℕ → ℝ) (i : ℕ) (hi : i < max m n) :
    (antiDiag m n A).getD i 0 = padded m n A i (max m n - 1 - i) := by
  rw [List.getD_eq_getElem _ _ (by rwa [antiDiag_length])]
  simp [antiDiag]

theorem topForm_eq (m n : ℕ) (A : ℕ → ℕ → ℝ) (x y : ℂ) :
    topForm m n A x y = ∑ i ∈ Finset.range (max m n), (((antiDiag m n A).getD i 0 : ℝ) : ℂ) * x ^ i * y ^ (max m n - 1 - i) := by
  have h1 : ∀ i ∈ Finset.range (max m n), (((antiDiag m n A).getD i 0 : ℝ) : ℂ) * x ^ i * y ^ (max m n - 1 - i) =
      if i < m then (∑ j ∈ Finset.range n, if i + j = max m n - 1 then (A i j : ℂ) * x ^ i * y ^ j else 0) else 0 := by
    intro i hi
    rw [Finset.mem_range] at hi
    rw [antiDiag_getD m n A i hi, padded]
    by_cases him : i < m
    · rw [if_pos him]
      by_cases hj : max m n - 1 - i < n
      · rw [if_pos ⟨him, hj⟩, Finset.sum_eq_single (max m n - 1 - i)]
        · rw [if_pos (by omega)]
        · intro j _ hne
          rw [if_neg (by omega)]
        · intro h
          exact absurd (Finset.mem_range.2 hj) h
      · rw [if_neg (fun h => hj h.2), Finset.sum_eq_zero]
        · simp
        · intro j hj'
          rw [Finset.mem_range] at hj'
          rw [if_neg (by omega)]
    · rw [if_neg (fun h => him h.1), if_neg him]
      simp
  rw [Finset.sum_congr rfl h1, ← Finset.sum_filter]
  unfold topForm
  refine Finset.sum_congr ?_ fun _ _ => rfl
  ext i
  simp only [Finset.mem_filter, Finset.mem_range]
  omega

theorem powPoly_eval (v : List ℝ) (r : ℂ) :
    (powPoly v).eval r = ∑ i ∈ Finset.range v.length, ((v.getD i 0 : ℝ) : ℂ) * r ^ i := by
  simp [powPoly, eval_finsetSum]

theorem topForm_finite (m n : ℕ) (A : ℕ → ℕ → ℝ) (x y : ℂ) (hy : y ≠ 0) :
    topForm m n A x y = y ^ (max m n - 1) * (powPoly (antiDiag m n A)).eval (x / y) := by
  rw [topForm_eq, powPoly_eval, antiDiag_length, Finset.mul_sum]
  refine Finset.sum_congr rfl fun i hi => ?_
  rw [Finset.mem_range] at hi
  rw [div_pow]
  have : y ^ (max m n - 1) = y ^ i * y ^ (max m n - 1 - i) := by rw [← pow_add]; congr 1; omega
  rw [this]
  field_simp

theorem topForm_infinite (m n : ℕ) (A : ℕ → ℕ → ℝ) (x : ℂ) (hl : 2 ≤ max m n) :
    topForm m n A x 0 = (((antiDiag m n A).getLastD 0 : ℝ) : ℂ) * x ^ (max m n - 1) := by
  rw [topForm_eq, Finset.sum_eq_single (max m n - 1)]
  · have : (antiDiag m n A).getLastD 0 = (antiDiag m n A).getD (max m n - 1) 0 := by
      rw [List.getLastD_eq_getLast?, List.getLast?_eq_getElem?, antiDiag_length, List.getD_eq_getElem?_getD]
    rw [this]
    simp
  · intro i hi hne
    rw [Finset.mem_range] at hi
    rw [zero_pow (by omega), mul_zero]
  · intro h
    exact absurd (Finset.mem_range.2 (by omega)) h

/-- Cleaning keeps the polynomial and leaves a nonzero last entry. -/
theorem cleanLast_spec (v : List ℝ) (h : ∃ c ∈ v, c ≠ 0) :
    ∃ hne : cleanLast v ≠ [], (cleanLast v).getLast hne ≠ 0 ∧ powPoly (cleanLast v) = powPoly v := by
  have hr : (v.reverse.dropWhile fun c => decide (c = 0)) ≠ [] := by
    intro h0
    rw [List.dropWhile_eq_nil_iff] at h0
    obtain ⟨c, hc, hc0⟩ := h
    exact hc0 (by simpa using h0 c (List.mem_reverse.2 hc))
  have hdef : cleanLast v = (v.reverse.dropWhile fun c => decide (c = 0)).reverse := by
    unfold cleanLast
    simp only [if_neg hr]
  have hne : cleanLast v ≠ [] := by rw [hdef]; simpa using hr
  refine ⟨hne, ?_, ?_⟩
  · simp only [hdef, List.getLast_reverse]
    have := List.head_dropWhile_not (fun c : ℝ => decide (c = 0)) hr
    simpa using this
  · have hsplit : v = cleanLast v ++ (v.reverse.takeWhile fun c => decide (c = 0)).reverse := by
      rw [hdef, ← List.reverse_append, List.takeWhile_append_dropWhile, List.reverse_reverse]
    have hz : ∀ c ∈ (v.reverse.takeWhile fun c => decide (c = 0)).reverse, c = 0 := by
      intro c hc
      simpa using List.mem_takeWhile_imp (List.mem_reverse.1 hc)
    generalize (v.reverse.takeWhile fun c => decide (c = 0)).reverse = z at hsplit hz
    generalize cleanLast v = w at hsplit
    subst hsplit
    unfold powPoly
    rw [List.length_append, Finset.sum_range_add, Finset.sum_eq_zero (s := Finset.range z.length), add_zero]
    · refine Finset.sum_congr rfl fun i hi => ?_
      rw [Finset.mem_range] at hi
      rw [List.getD_append _ _ _ _ hi]
    · intro i hi
      rw [Finset.mem_range] at hi
      rw [List.getD_append_right _ _ _ _ (by omega)]
      have : z.getD (w.length + i - w.length) 0 = 0 := by
        rw [List.getD_eq_getElem _ _ (by omega)]
        exact hz _ (List.getElem_mem _)
      rw [this]
      simp

theorem powPoly_ne_zero (v : List ℝ) (h : ∃ c ∈ v, c ≠ 0) : powPoly v ≠ 0 := by
  intro h0
  obtain ⟨c, hc, hc0⟩ := h
  obtain ⟨i, hi, rfl⟩ := List.getElem_of_mem hc
  have := congrArg (fun p => p.coeff i) h0
  simp only [powPoly, finsetSum_coeff, coeff_C_mul, coeff_X_pow, coeff_zero] at this
  rw [Finset.sum_eq_single i] at this
  · rw [if_pos rfl, mul_one, List.getD_eq_getElem _ _ hi] at this
    exact hc0 (by exact_mod_cast this)
  · intro j _ hne
    rw [if_neg (Ne.symm hne), mul_zero]
  · intro h'
    exact absurd (Finset.mem_range.2 hi) h'

/-- With a single nonzero coefficient the polynomial is a monomial. -/
theorem single_coeff (v : List ℝ) (h : (v.filter fun c => decide (c ≠ 0)).length = 1) :
    ∃ a < v.length, v.getD a 0 ≠ 0 ∧ ∀ i, i ≠ a → v.getD i 0 = 0 := by
  obtain ⟨c, hc⟩ := List.length_eq_one_iff.1 h
  have hmem : c ∈ v.filter fun c => decide (c ≠ 0) := by rw [hc]; simp
  obtain ⟨hcv, hc0⟩ := List.mem_filter.1 hmem
  have hc0' : c ≠ 0 := by simpa using hc0
  clear hmem hc0
  induction v with
  | nil => simp at hcv
  | cons b v ih =>
    by_cases hb : b = 0
    · subst hb
      have h1 : v.filter (fun c => decide (c ≠ 0)) = [c] := by simpa using hc
      obtain ⟨a, ha, h2, h3⟩ := ih (by rw [h1]; rfl) h1 (by
        rcases List.mem_cons.1 hcv with e | e
        · exact absurd e hc0'
        · exact e)
      refine ⟨a + 1, by simpa using ha, by simpa using h2, fun i hi => ?_⟩
      cases i with
      | zero => simp
      | succ i => simpa using h3 i (by omega)
    · have h1 : v.filter (fun c => decide (c ≠ 0)) = [] := by
        rw [List.filter_cons_of_pos (by simpa using hb)] at hc
        exact (List.cons.inj hc).2
      refine ⟨0, by simp, by simpa using hb, fun i hi => ?_⟩
      cases i with
      | zero => exact absurd rfl hi
      | succ i =>
        rw [List.getD_cons_succ]
        by_cases hiv : i < v.length
        · rw [List.getD_eq_getElem _ _ hiv]
          have := List.filter_eq_nil_iff.1 h1 _ (List.getElem_mem hiv)
          simpa using this
        · rw [List.getD_eq_default _ _ (by omega)]

/-- The finite part: `roots_at_inf` collects the roots of the dehomogenised form. -/
theorem rootsAtInf_xs (E : Eigen) (hE : E.OK) (m n : ℕ) (A : ℕ → ℕ → ℝ) (hl : 2 ≤ max m n)
    (hne : ∃ c ∈ antiDiag m n A, c ≠ 0) :
    ∃ xs : List ℂ, rootsAtInf E m n A = .ok (infPoints (antiDiag m n A) (xs.map some)) ∧
      ∀ r, r ∈ xs ↔ (powPoly (antiDiag m n A)).eval r = 0 := by
  set v := antiDiag m n A with hv
  have hlen : v.length = max m n := antiDiag_length m n A
  unfold rootsAtInf
  simp only [← hv]
  by_cases h1 : (v.filter fun c => decide (c ≠ 0)).length = 1
  · rw [if_pos h1]
    obtain ⟨a, ha, ha0, hother⟩ := single_coeff v h1
    have heval : ∀ r, (powPoly v).eval r = ((v.getD a 0 : ℝ) : ℂ) * r ^ a := by
      intro r
      rw [powPoly_eval, Finset.sum_eq_single a]
      · intro i _ hi; rw [hother i hi]; simp
      · intro h; exact absurd (Finset.mem_range.2 ha) h
    have ha0' : ((v.getD a 0 : ℝ) : ℂ) ≠ 0 := by exact_mod_cast ha0
    by_cases h0 : v.getD 0 0 ≠ 0
    · rw [if_pos h0]
      have haz : a = 0 := by
        by_contra hne'
        exact h0 (hother 0 (Ne.symm hne'))
      subst haz
      refine ⟨[], ?_, fun r => ?_⟩
      · have hlast : v.getLastD 0 = 0 := by
          rw [List.getLastD_eq_getLast?, List.getLast?_eq_getElem?, ← List.getD_eq_getElem?_getD]
          exact hother _ (by omega)
        have hcl : CloseToZero ((v.getLastD 0 : ℝ) : ℂ) := by rw [hlast]; simp [CloseToZero]
        rw [infPoints, if_pos hcl]
        rfl
      · rw [heval]; simpa using ha0
    · rw [if_neg h0]
      have haz : a ≠ 0 := by rintro rfl; exact h0 ha0
      refine ⟨[0], rfl, fun r => ?_⟩
      rw [heval, List.mem_singleton, mul_eq_zero, or_iff_right ha0', pow_eq_zero_iff haz]
  · rw [if_neg h1]
    obtain ⟨hcne, hlast, hpoly⟩ := cleanLast_spec v hne
    obtain ⟨l, hsol, hroots⟩ := C49_power E hE (cleanLast v) hcne hlast 0 (.inl rfl) true
    rw [hsol]
    rw [hpoly] at hroots
    have hxs : l = ((l.filterMap id).map some) := by
      have hall : ∀ o ∈ l, ∃ r, o = some r := by
        intro o ho
        have : o ∈ (powPoly v).roots.map some := by rw [← hroots]; exact ho
        obtain ⟨r, -, rfl⟩ := Multiset.mem_map.1 this
        exact ⟨r, rfl⟩
      clear hsol hroots
      induction l with
      | nil => rfl
      | cons o l ih =>
        obtain ⟨r, rfl⟩ := hall o List.mem_cons_self
        have := ih fun o ho => hall o (List.mem_cons_of_mem _ ho)
        conv_lhs => rw [this]
        rfl
    refine ⟨l.filterMap id, by rw [← hxs], fun r => ?_⟩
    have h2 : r ∈ l.filterMap id ↔ some r ∈ l := by
      simp [List.mem_filterMap]
    rw [h2, ← Multiset.mem_coe, hroots, Multiset.mem_map]
    constructor
    · rintro ⟨s, hs, e⟩
      rw [← Option.some_inj.1 e]
      exact (mem_roots'.1 hs).2
    · intro h
      exact ⟨r, (mem_roots (powPoly_ne_zero v hne)).2 h, rfl⟩

/-! ### The properties -/

/-- C63, the part that is right: for a form of positive degree that is not zero, and whose last coefficient is zero or not
within `1e-8` of zero, `roots_at_inf` returns exactly the zeros of the form. -/
theorem C63_roots_at_inf_partial (E : Eigen) (hE : E.OK) (m n : ℕ) (A : ℕ → ℕ → ℝ) (hl : 2 ≤ max m n)
    (hne : ∃ i j, i < m ∧ j < n ∧ i + j = max m n - 1 ∧ A i j ≠ 0)
    (hlast : topForm m n A 1 0 = 0 ∨ 1 / 10 ^ 8 < ‖topForm m n A 1 0‖) :
    ∃ pts, rootsAtInf E m n A = .ok (pts.map some) ∧ AreZeros (topForm m n A) pts := by
  have hne' : ∃ c ∈ antiDiag m n A, c ≠ 0 := by
    obtain ⟨i, j, hi, hj, hij, h0⟩ := hne
    have hil : i < max m n := by omega
    refine ⟨(antiDiag m n A).getD i 0, ?_, ?_⟩
    · rw [List.getD_eq_getElem _ _ (by rwa [antiDiag_length])]
      exact List.getElem_mem _
    · rw [antiDiag_getD m n A i hil, padded, if_pos ⟨hi, by omega⟩]
      rwa [show max m n - 1 - i = j by omega]
  obtain ⟨xs, hx, hmem⟩ := rootsAtInf_xs E hE m n A hl hne'
  have hinf : ∀ x, topForm m n A x 0 = (((antiDiag m n A).getLastD 0 : ℝ) : ℂ) * x ^ (max m n - 1) := fun x =>
    topForm_infinite m n A x hl
  rw [hinf, one_pow, mul_one] at hlast
  classical
  by_cases hc : (((antiDiag m n A).getLastD 0 : ℝ) : ℂ) = 0
  · refine ⟨xs.map (fun x => (x, 1)) ++ [(1, 0)], ?_, ?_, ?_⟩
    · rw [hx, infPoints, if_pos (by rw [hc]; simp [CloseToZero])]
      simp [Function.comp_def]
    · intro q hq
      rcases List.mem_append.1 hq with h | h
      · obtain ⟨x, -, rfl⟩ := List.mem_map.1 h; simp
      · rw [List.mem_singleton.1 h]; simp
    · intro x y hxy
      by_cases hy : y = 0
      · subst hy
        rw [hinf, hc]
        simp only [zero_mul, true_iff]
        exact ⟨(1, 0), by simp, by simp⟩
      · rw [topForm_finite m n A x y hy, mul_eq_zero, or_iff_right (pow_ne_zero _ hy), ← hmem]
        constructor
        · intro h
          exact ⟨(x / y, 1), List.mem_append_left _ (List.mem_map_of_mem h), by field_simp⟩
        · rintro ⟨q, hq, e⟩
          rcases List.mem_append.1 hq with h | h
          · obtain ⟨r, hr, rfl⟩ := List.mem_map.1 h
            have : x / y = r := by field_simp; linear_combination e
            rwa [this]
          · rw [List.mem_singleton.1 h] at e
            simp at e
            exact absurd e.symm hy
  · have hlast' := hlast.resolve_left hc
    refine ⟨xs.map (fun x => (x, 1)), ?_, ?_, ?_⟩
    · rw [hx, infPoints, if_neg (by unfold CloseToZero; exact not_le.2 hlast')]
      simp [Function.comp_def]
    · intro q hq
      obtain ⟨x, -, rfl⟩ := List.mem_map.1 hq; simp
    · intro x y hxy
      by_cases hy : y = 0
      · subst hy
        have hx0 : x ≠ 0 := by rintro rfl; exact hxy rfl
        rw [hinf, mul_eq_zero, or_iff_right hc]
        constructor
        · intro h; exact absurd (pow_eq_zero_iff (by omega) |>.1 h) hx0
        · rintro ⟨q, hq, e⟩
          obtain ⟨r, hr, rfl⟩ := List.mem_map.1 hq
          simp at e
          exact absurd e hx0
      · rw [topForm_finite m n A x y hy, mul_eq_zero, or_iff_right (pow_ne_zero _ hy), ← hmem]
        constructor
        · intro h
          exact ⟨(x / y, 1), List.mem_map_of_mem h, by field_simp⟩
        · rintro ⟨q, hq, e⟩
          obtain ⟨r, hr, rfl⟩ := List.mem_map.1 hq
          have : x / y = r := by field_simp; linear_combination e
          rwa [this]

/-- False for nonzero constants: the point `(1, 0)` is returned. -/
theorem C63_constant_false (E : Eigen) (c : ℝ) (hc : c ≠ 0) :
    rootsAtInf E 1 1 (fun _ _ => c) = .ok [some (1, 0)] ∧ topForm 1 1 (fun _ _ => c) 1 0 ≠ 0 := by
  constructor
  · simp [rootsAtInf, antiDiag, padded, hc]
  · simp [topForm, hc]

/-- At `(x, 1)` the polynomial `second_poly` is the leading form at `(1, x)`. -/
theorem secondPoly_finite (m n : ℕ) (A : ℕ → ℕ → ℝ) (x : ℂ) : secondPoly m n A (x, 1) = topForm m n A 1 x := by
  rw [topForm_eq, secondPoly, ← Finset.sum_range_reflect]
  refine Finset.sum_congr rfl fun i hi => ?_
  rw [Finset.mem_range] at hi
  rw [show max m n - 1 - (max m n - 1 - i) = i by omega]
  simp

/-- At `(1, 0)` it is the leading form. -/
theorem secondPoly_infinite (m n : ℕ) (A : ℕ → ℕ → ℝ) (hl : 0 < max m n) : secondPoly m n A (1, 0) = topForm m n A 1 0 := by
  rw [topForm_eq, secondPoly, Finset.sum_eq_single 0, Finset.sum_eq_single (max m n - 1)]
  · simp
  · intro i hi hne
    rw [Finset.mem_range] at hi
    rw [zero_pow (by omega), mul_zero]
  · intro h
    exact absurd (Finset.mem_range.2 (by omega)) h
  · intro i _ hne
    rw [zero_pow hne, mul_zero]
  · intro h
    exact absurd (Finset.mem_range.2 hl) h

theorem anyClose_iff (g : Array2) (pts : List (ℂ × ℂ)) :
    anyClose g (pts.map some) = true ↔ ∃ q ∈ pts, CloseToZero (secondPoly g.m g.n g.coef q) := by
  unfold anyClose
  rw [List.any_eq_true]
  constructor
  · rintro ⟨o, ho, h⟩
    obtain ⟨q, hq, rfl⟩ := List.mem_map.1 ho
    exact ⟨q, hq, by simpa using h⟩
  · rintro ⟨q, hq, h⟩
    exact ⟨some q, List.mem_map_of_mem hq, by simpa using h⟩

/-- A point of the list that is proportional to a point of one of the two forms is equal to it. -/
theorem normal_unique {p q : ℂ × ℂ} (hp : p.2 = 1 ∨ p = (1, 0)) (hq : q.2 = 1 ∨ q = (1, 0)) (h : p.1 * q.2 = p.2 * q.1) :
    p = q := by
  obtain ⟨a, b⟩ := p
  obtain ⟨c, d⟩ := q
  simp only [Prod.mk.injEq] at *
  rcases hp with rfl | ⟨rfl, rfl⟩ <;> rcases hq with rfl | ⟨rfl, rfl⟩ <;> simp_all

/-- C63, common roots, the part that is right: if the leading form of the second polynomial is symmetric in `x` and `y`, the
answer is `True` exactly if some root at infinity of the first, in the form `(x, 1)` or `(1, 0)`, makes the leading form of
the second at most `1e-8`. -/
theorem C63_common_partial (E : Eigen) (hE : E.OK) (f g : Array2) (hl : 2 ≤ max f.m f.n) (hg : 0 < max g.m g.n)
    (hne : ∃ i j, i < f.m ∧ j < f.n ∧ i + j = max f.m f.n - 1 ∧ f.coef i j ≠ 0)
    (hlast : topForm f.m f.n f.coef 1 0 = 0 ∨ 1 / 10 ^ 8 < ‖topForm f.m f.n f.coef 1 0‖)
    (hsym : ∀ x y, topForm g.m g.n g.coef x y = topForm g.m g.n g.coef y x) :
    ∃ b, commonRootAtInf E f g = .ok b ∧ (b = true ↔ ∃ x y, (y = 1 ∨ (x = 1 ∧ y = 0)) ∧ topForm f.m f.n f.coef x y = 0 ∧
      ‖topForm g.m g.n g.coef x y‖ ≤ 1 / 10 ^ 8) := by
  obtain ⟨pts, hp, h0, hz⟩ := C63_roots_at_inf_partial E hE f.m f.n f.coef hl hne hlast
  have hsecond : ∀ q : ℂ × ℂ, (q.2 = 1 ∨ q = (1, 0)) → secondPoly g.m g.n g.coef q = topForm g.m g.n g.coef q.1 q.2 := by
    rintro ⟨x, y⟩ h
    rcases h with h | h
    · simp only at h
      subst h
      rw [secondPoly_finite, hsym]
    · rw [h, secondPoly_infinite _ _ _ hg]
  refine ⟨anyClose g (pts.map some), by unfold commonRootAtInf; rw [hp], ?_⟩
  rw [anyClose_iff]
  constructor
  · rintro ⟨q, hq, hc⟩
    have hn := h0 q hq
    refine ⟨q.1, q.2, ?_, ?_, ?_⟩
    · rcases hn with h | h
      · exact .inl h
      · exact .inr (by rw [h]; exact ⟨rfl, rfl⟩)
    · refine (hz q.1 q.2 ?_).2 ⟨q, hq, by ring⟩
      rcases hn with h | h
      · intro e
        rw [(Prod.mk.inj e).2] at h
        exact zero_ne_one h
      · rw [h]; simp
    · rw [← hsecond q hn]
      exact hc
  · rintro ⟨x, y, hn, hf, hgz⟩
    have hn' : ((x, y) : ℂ × ℂ).2 = 1 ∨ ((x, y) : ℂ × ℂ) = (1, 0) := by
      rcases hn with h | ⟨h1, h2⟩
      · exact .inl h
      · exact .inr (by rw [h1, h2])
    have hxy : ((x, y) : ℂ × ℂ) ≠ (0, 0) := by
      rcases hn with rfl | ⟨rfl, rfl⟩ <;> simp
    obtain ⟨q, hq, e⟩ := (hz x y hxy).1 hf
    have := normal_unique hn' (h0 q hq) e
    refine ⟨q, hq, ?_⟩
    rw [hsecond q (h0 q hq), ← this]
    exact hgz

/-- C63, common roots: a common root `(1, 0)` is always found. -/
theorem C63_common_horizontal (E : Eigen) (hE : E.OK) (f g : Array2) (hl : 2 ≤ max f.m f.n) (hg : 0 < max g.m g.n)
    (hne : ∃ i j, i < f.m ∧ j < f.n ∧ i + j = max f.m f.n - 1 ∧ f.coef i j ≠ 0)
    (hf : topForm f.m f.n f.coef 1 0 = 0) (hgz : topForm g.m g.n g.coef 1 0 = 0) :
    commonRootAtInf E f g = .ok true := by
  obtain ⟨pts, hp, h0, hz⟩ := C63_roots_at_inf_partial E hE f.m f.n f.coef hl hne (.inl hf)
  obtain ⟨q, hq, e⟩ := (hz 1 0 (by simp)).1 hf
  have hqe : ((1, 0) : ℂ × ℂ) = q := normal_unique (.inr rfl) (h0 q hq) e
  unfold commonRootAtInf
  rw [hp]
  simp only
  congr 1
  rw [anyClose_iff]
  refine ⟨q, hq, ?_⟩
  rw [← hqe, secondPoly_infinite _ _ _ hg, hgz]
  simp [CloseToZero]

/-- The polynomial `x`. -/
def polyX : Array2 := ⟨2, 2, fun i j => if i = 1 ∧ j = 0 then 1 else 0⟩

/-- C63 is false for common roots: the curve `x = 0` has no common root at infinity with itself, according to
`common_root_at_inf`, because the coefficients of the second polynomial are put on the main diagonal in reverse order. -/
theorem C63_common_false (E : Eigen) :
    commonRootAtInf E polyX polyX = .ok false ∧ topForm polyX.m polyX.n polyX.coef 0 1 = 0 := by
  have hv : antiDiag 2 2 polyX.coef = [0, 1] := by simp [antiDiag, padded, polyX, List.range_succ]
  constructor
  · have h1 : rootsAtInf E 2 2 polyX.coef = .ok [some (0, 1)] := by
      unfold rootsAtInf
      simp only [hv]
      rw [if_pos (by simp), if_neg (by simp)]
      rw [infPoints, if_neg (by simp only [CloseToZero]; norm_num)]
      rfl
    unfold commonRootAtInf
    have h2 : rootsAtInf E polyX.m polyX.n polyX.coef = .ok [some (0, 1)] := h1
    rw [h2]
    simp only [anyClose, List.any_cons, List.any_nil, Bool.or_false]
    have h3 : secondPoly polyX.m polyX.n polyX.coef (0, 1) = 1 := by
      rw [secondPoly_finite]
      simp [topForm, polyX, Finset.sum_range_succ]
    rw [h3]
    congr 1
    simp only [CloseToZero]
    norm_num
  · simp [topForm, polyX, Finset.sum_range_succ]

/-- The hypotheses hold for `f = x² - y²`, whose roots at infinity are `(1, 1)` and `(-1, 1)`. -/
example (E : Eigen) (hE : E.OK) :
    ∃ pts, rootsAtInf E 3 3 (fun i j => if i = 2 ∧ j = 0 then 1 else if i = 0 ∧ j = 2 then -1 else 0) = .ok (pts.map some) ∧
      AreZeros (fun x y => x ^ 2 - y ^ 2) pts := by
  have h : topForm 3 3 (fun i j => if i = 2 ∧ j = 0 then 1 else if i = 0 ∧ j = 2 then -1 else 0) = fun x y => x ^ 2 - y ^ 2 := by
    funext x y
    simp [topForm, Finset.sum_range_succ]
    ring
  rw [← h]
  refine C63_roots_at_inf_partial E hE 3 3 _ (by norm_num) ⟨2, 0, by norm_num, by norm_num, by norm_num, by norm_num⟩ (.inr ?_)
  rw [h]
  norm_num

/-- The hypotheses of `C63_common_partial` hold for `f = x² - y²` and `g = x + y`; the common root is `(-1, 1)`. -/
example (E : Eigen) (hE : E.OK) :
    commonRootAtInf E ⟨3, 3, fun i j => if i = 2 ∧ j = 0 then 1 else if i = 0 ∧ j = 2 then -1 else 0⟩
      ⟨2, 2, fun i j => if i + j = 1 then 1 else 0⟩ = .ok true := by
  obtain ⟨b, h1, h2⟩ := C63_common_partial E hE
    ⟨3, 3, fun i j => if i = 2 ∧ j = 0 then 1 else if i = 0 ∧ j = 2 then -1 else 0⟩
    ⟨2, 2, fun i j => if i + j = 1 then 1 else 0⟩ (by norm_num) (by norm_num)
    ⟨2, 0, by norm_num, by norm_num, by norm_num, by norm_num⟩
    (.inr (by simp only [topForm, Finset.sum_range_succ, Finset.sum_range_zero]; norm_num))
    (fun x y => by simp [topForm, Finset.sum_range_succ, add_comm])
  rw [h1, h2.2 ⟨-1, 1, .inl rfl, by simp [topForm, Finset.sum_range_succ], by simp [topForm, Finset.sum_range_succ]⟩]

/-- The hypotheses of `C63_common_horizontal` hold for `f = x y` and `g = 2 y`. -/
example (E : Eigen) (hE : E.OK) :
    commonRootAtInf E ⟨3, 3, fun i j => if i = 1 ∧ j = 1 then 1 else 0⟩ ⟨2, 2, fun i j => if i = 0 ∧ j = 1 then 2 else 0⟩ =
      .ok true :=
  C63_common_horizontal E hE _ _ (by norm_num) (by norm_num) ⟨1, 1, by norm_num, by norm_num, by norm_num, by norm_num⟩
    (by simp [topForm, Finset.sum_range_succ]) (by simp [topForm, Finset.sum_range_succ])

end YRoots.OneD
