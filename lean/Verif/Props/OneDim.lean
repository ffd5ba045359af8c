import Verif.Proofs.OneDimRoots
import Mathlib.Data.List.GetD
import Mathlib.Data.List.TakeWhile

/-!
# C49: the one-dimensional solver returns all roots with multiplicity

`Finds r P` (see `Verif.Spec.OneDim`): the call returns, and what it returns is the multiset of all complex roots of `P`.
-/

namespace YRoots.OneD

open Polynomial

theorem powPoly_zeros (k : ℕ) (c : List ℝ) : powPoly (List.replicate k 0 ++ c) = X ^ k * powPoly c := by
  rw [powPoly, List.length_append, List.length_replicate, Finset.sum_range_add, powPoly, Finset.mul_sum]
  have h1 : ∑ i ∈ Finset.range k, C (((List.replicate k 0 ++ c).getD i 0 : ℝ) : ℂ) * X ^ i = 0 := by
    refine Finset.sum_eq_zero fun i hi => ?_
    have hi := Finset.mem_range.1 hi
    rw [List.getD_append _ _ _ _ (by simpa using hi)]
    simp [List.getElem?_replicate, hi]
  rw [h1, zero_add]
  refine Finset.sum_congr rfl fun i _ => ?_
  rw [List.getD_append_right _ _ _ _ (by simp), List.length_replicate, Nat.add_sub_cancel_left, pow_add]
  ring

theorem trimZeros_spec (full : List ℝ) (hne : full ≠ []) (hlast : full.getLast hne ≠ 0) :
    ∃ k, full = List.replicate k 0 ++ trimZeros full ∧ trimZeros full ≠ [] ∧ (trimZeros full).getD 0 0 ≠ 0 ∧
      (trimZeros full).getD ((trimZeros full).length - 1) 0 ≠ 0 := by
  set p : ℝ → Bool := fun c => decide (c = 0) with hp
  have hsplit := List.takeWhile_append_dropWhile (p := p) (l := full)
  have hd : full.dropWhile p ≠ [] := by
    rw [Ne, List.dropWhile_eq_nil_iff]
    intro h
    exact hlast (of_decide_eq_true (h _ (List.getLast_mem hne)))
  have hgl : (full.dropWhile p).getLast hd = full.getLast hne := by
    rw [← List.getLast_append_of_ne_nil (l := full.takeWhile p) (by simp [hne]) hd]
    simp only [hsplit]
  have htrim : trimZeros full = full.dropWhile p := by
    rw [trimZeros]
    have hh : ((full.dropWhile p).reverse).dropWhile p = (full.dropWhile p).reverse := by
      rw [List.dropWhile_eq_self_iff]
      intro hl
      rw [List.getElem_zero, List.head_reverse, hgl]
      simpa [hp] using hlast
    change ((full.dropWhile p).reverse.dropWhile p).reverse = _
    rw [hh, List.reverse_reverse]
  rw [htrim]
  refine ⟨(full.takeWhile p).length, ?_, hd, ?_, ?_⟩
  · have : full.takeWhile p = List.replicate (full.takeWhile p).length 0 := by
      rw [List.eq_replicate_iff]
      exact ⟨rfl, fun x hx => of_decide_eq_true (show p x = true from List.mem_takeWhile_imp hx)⟩
    rw [← this, hsplit]
  · have := List.head_dropWhile_not p hd
    rw [List.head_eq_getElem] at this
    have hl : 0 < (full.dropWhile p).length := List.length_pos_iff.2 hd
    simp only [List.getD_eq_getElem?_getD, List.getElem?_eq_getElem hl, Option.getD_some]
    simpa [hp] using this
  · have hl : (full.dropWhile p).length - 1 < (full.dropWhile p).length := by
      have := List.length_pos_iff.2 hd; omega
    simp only [List.getD_eq_getElem?_getD, List.getElem?_eq_getElem hl, Option.getD_some]
    rw [← List.getLast_eq_getElem hd, hgl]
    exact hlast

/-- **C49**, `MultiPower` objects (whose last coefficient is nonzero, as cleaning leaves them): with the companion and
the division matrix, from eigenvalues and from eigenvectors, `solve` returns all roots with multiplicity. -/
theorem C49_power (E : Eigen) (hE : E.OK) (coeff : List ℝ) (hne : coeff ≠ []) (hlast : coeff.getLast hne ≠ 0) (MSmatrix : ℤ)
    (hMS : MSmatrix = 0 ∨ MSmatrix = -1) (eigvals : Bool) : Finds (solve E (.power coeff) MSmatrix eigvals) (powPoly coeff) := by
  obtain ⟨k, hk, hc, h0, hl⟩ := trimZeros_spec coeff hne hlast
  have hroots : (powPoly coeff).roots = Multiset.replicate k 0 + (powPoly (trimZeros coeff)).roots := by
    conv_lhs => rw [hk, powPoly_zeros]
    have hd : powPoly (trimZeros coeff) ≠ 0 := by
      intro hz
      by_cases h1 : (trimZeros coeff).length = 1
      · have : powPoly (trimZeros coeff) = C (((trimZeros coeff).getD 0 0 : ℝ) : ℂ) := by rw [powPoly, h1]; simp
        rw [this, C_eq_zero] at hz
        exact h0 (by exact_mod_cast hz)
      · have hlen := List.length_pos_iff.2 hc
        have := powPoly_natDegree (trimZeros coeff) ((trimZeros coeff).length - 1) (by omega) hl
        rw [hz, natDegree_zero] at this
        omega
    rw [roots_mul (mul_ne_zero (pow_ne_zero _ X_ne_zero) hd), roots_pow, roots_X, Multiset.nsmul_singleton]
  have hlen : coeff.length - (trimZeros coeff).length = k := by
    have := congrArg List.length hk
    rw [List.length_append, List.length_replicate] at this
    omega
  have hcomb : ∀ r : Except Failure (List (Option ℂ)), Finds r (powPoly (trimZeros coeff)) →
      Finds (match r with
        | .error e => .error e
        | .ok r => .ok (List.replicate (coeff.length - (trimZeros coeff).length) (some 0) ++ r)) (powPoly coeff) := by
    rintro r ⟨l, rfl, hl⟩
    refine ⟨_, rfl, ?_⟩
    rw [hroots, Multiset.map_add, Multiset.map_replicate, ← hl, hlen, ← Multiset.coe_add, Multiset.coe_replicate]
  rw [solve, if_neg (by omega)]
  refine hcomb _ ?_
  rcases hMS with rfl | rfl
  · rw [if_pos rfl]; exact multPower_finds hE _ _ hc hl
  · rw [if_neg (by decide)]; exact divPower_finds hE _ _ hc hl h0

/-- **C49**, `MultiCheb` objects with the colleague matrix. -/
theorem C49_cheb (E : Eigen) (hE : E.OK) (coeff : List ℝ) (hne : coeff ≠ []) (hlast : coeff.getLast hne ≠ 0)
    (eigvals : Bool) : Finds (solve E (.cheb coeff) 0 eigvals) (chebPoly coeff) := by
  rw [solve, if_neg (by decide)]
  refine multCheb_finds hE _ _ hne ?_
  have hl := List.length_pos_iff.2 hne
  simp only [List.getD_eq_getElem?_getD, List.getElem?_eq_getElem (show coeff.length - 1 < coeff.length by omega),
    Option.getD_some]
  rwa [← List.getLast_eq_getElem hne]

/-- **C49**, `MultiCheb` objects with the division matrix.  `_partial`: for polynomials of positive degree that are
nonzero at `0`; otherwise the claim is false, see below. -/
theorem C49_cheb_division_partial (E : Eigen) (hE : E.OK) (coeff : List ℝ) (hlen : 2 ≤ coeff.length)
    (hlast : coeff.getLast (by rintro rfl; simp at hlen) ≠ 0) (h0 : (chebPoly coeff).eval 0 ≠ 0) (eigvals : Bool) :
    Finds (solve E (.cheb coeff) (-1) eigvals) (chebPoly coeff) := by
  rw [solve, if_neg (by decide)]
  refine divCheb_finds hE _ _ hlen ?_ h0
  simp only [List.getD_eq_getElem?_getD, List.getElem?_eq_getElem (show coeff.length - 1 < coeff.length by omega),
    Option.getD_some]
  rwa [← List.getLast_eq_getElem (by rintro rfl; simp at hlen)]

/-- False for constants: `getXinv` raises `IndexError` before the constant case is looked at. -/
theorem C49_false_constant (E : Eigen) (c : ℝ) (eigvals : Bool) :
    solve E (.cheb [c]) (-1) eigvals = .error .indexError := by
  rw [solve, if_neg (by decide)]
  rfl

/-- False if `0` is a root: every nonzero root is lost, whatever the polynomial. -/
theorem C49_false_zero_root (E : Eigen) (coeff : List ℝ) (hlen : 3 ≤ coeff.length) (h0 : (chebPoly coeff).eval 0 = 0)
    (r : ℂ) (hr : r ∈ (chebPoly coeff).roots) (hr0 : r ≠ 0) : ¬Finds (solve E (.cheb coeff) (-1) true) (chebPoly coeff) := by
  rintro ⟨l, hl, hroots⟩
  rw [solve, if_neg (by decide)] at hl
  obtain ⟨l', hl', hz⟩ := divCheb_zero (E := E) coeff hlen h0
  have : l = l' := by
    change divCheb E coeff true = .ok l at hl
    rw [hl'] at hl
    exact (Except.ok.inj hl).symm
  subst this
  refine hr0 (hz r ?_)
  rw [← Multiset.mem_coe, hroots]
  exact Multiset.mem_map_of_mem _ hr

/-- False for an uncleaned `MultiPower` (`clean_zeros=False`): each trailing zero coefficient is reported as a root 0. -/
theorem C49_false_uncleaned (E : Eigen) (eigvals : Bool) :
    ¬Finds (solve E (.power [1, 1, 0]) 0 eigvals) (powPoly [1, 1, 0]) := by
  have ht : trimZeros [1, 1, 0] = [1, 1] := by
    simp [trimZeros, List.dropWhile]
  rintro ⟨l, hl, hroots⟩
  rw [solve, if_neg (by decide)] at hl
  simp [ht, multPower] at hl
  have h0 : (some 0 : Option ℂ) ∈ (powPoly [1, 1, 0]).roots.map some := by
    rw [← hroots, ← hl]; simp
  obtain ⟨r, hr, hr2⟩ := Multiset.mem_map.1 h0
  have h1 := (mem_roots'.1 hr).2
  rw [Option.some_inj.1 hr2] at h1
  simp [powPoly, Finset.sum_range_succ, IsRoot] at h1

/-! ### Examples -/

/-- Exact eigenvalue routines exist. -/
theorem exists_eigen : ∃ E : Eigen, E.OK := by
  have hex : ∀ (n : ℕ) (A : Matrix (Fin n) (Fin n) ℝ) (z : ℂ), z ∈ (A.map ((↑) : ℝ → ℂ)).charpoly.roots →
      ∃ v : Fin n → ℂ, v ≠ 0 ∧
        ∀ j, ∑ i, (starRingEnd ℂ) (v i) * ((A i j : ℝ) : ℂ) = z * (starRingEnd ℂ) (v j) := by
    intro n A z hz
    have hroot := (mem_roots'.1 hz).2
    rw [IsRoot, Matrix.eval_charpoly] at hroot
    obtain ⟨u, hu, hu2⟩ := Matrix.exists_vecMul_eq_zero_iff.2 hroot
    refine ⟨fun i => (starRingEnd ℂ) (u i), fun h => hu (funext fun i => ?_), fun j => ?_⟩
    · have := congrFun h i
      simpa using this
    · have := congrFun hu2 j
      rw [Matrix.vecMul_sub, Pi.sub_apply, Pi.zero_apply, sub_eq_zero] at this
      simp only [Complex.conj_conj]
      rw [Matrix.scalar_apply, Matrix.vecMul_diagonal] at this
      rw [mul_comm, this]
      rfl
  classical
  refine ⟨⟨fun n A => (A.map ((↑) : ℝ → ℂ)).charpoly.roots.toList, fun n A =>
    (A.map ((↑) : ℝ → ℂ)).charpoly.roots.toList.map fun z =>
      (z, if h : z ∈ (A.map ((↑) : ℝ → ℂ)).charpoly.roots then (hex n A z h).choose else 0)⟩, ?_, ?_, ?_⟩
  · intro n A; simp
  · intro n A
    simp only [List.map_map]
    rw [show (Prod.fst ∘ fun z : ℂ => (z, if h : z ∈ (A.map ((↑) : ℝ → ℂ)).charpoly.roots then (hex n A z h).choose
      else 0)) = id from rfl, List.map_id]
    simp
  · intro n A p hp
    obtain ⟨z, hz, rfl⟩ := List.mem_map.1 hp
    have hz' : z ∈ (A.map ((↑) : ℝ → ℂ)).charpoly.roots := by simpa using hz
    simp only [dif_pos hz']
    exact (hex n A z hz').choose_spec

/-- `x(x² - 2)`: the hypotheses of `C49_power` hold and the three roots are found. -/
example : ∃ E : Eigen, E.OK ∧ Finds (solve E (.power [0, -2, 0, 1]) (-1) true) (powPoly [0, -2, 0, 1]) := by
  obtain ⟨E, hE⟩ := exists_eigen
  exact ⟨E, hE, C49_power E hE _ (by simp) (by simp) _ (Or.inr rfl) _⟩

/-- `T₂ + T₁ - 3 T₀`, by both matrices. -/
example : ∃ E : Eigen, E.OK ∧ Finds (solve E (.cheb [-3, 1, 1]) 0 false) (chebPoly [-3, 1, 1]) ∧
    Finds (solve E (.cheb [-3, 1, 1]) (-1) true) (chebPoly [-3, 1, 1]) := by
  obtain ⟨E, hE⟩ := exists_eigen
  refine ⟨E, hE, C49_cheb E hE _ (by simp) (by simp) _, C49_cheb_division_partial E hE _ (by simp) (by simp) ?_ _⟩
  simp [chebPoly, Finset.sum_range_succ, Chebyshev.T_two]
  norm_num

/-- `T₀ + T₁ + T₂ = 2x² + x`: `0` and `-1/2` are roots, and the division matrix loses `-1/2`. -/
example (E : Eigen) : ¬Finds (solve E (.cheb [1, 1, 1]) (-1) true) (chebPoly [1, 1, 1]) := by
  have hP : chebPoly [1, 1, 1] = C 2 * X ^ 2 + X := by
    simp [chebPoly, Finset.sum_range_succ, Chebyshev.T_two]
    rw [show (C 2 : ℂ[X]) = 2 from rfl]
    ring
  refine C49_false_zero_root E _ (by simp) (by rw [hP]; simp) (-1 / 2) ?_ (by norm_num)
  rw [hP, mem_roots']
  refine ⟨fun h => ?_, by simp [IsRoot]; norm_num⟩
  have := congrArg (fun p => p.eval 1) h
  norm_num at this

end YRoots.OneD
