import Verif.Proofs.PermutationsCheb
import Verif.Props.MonMult

/-!
# Properties C86-C87: index arrays multiply rows of the Macaulay matrix by monomials

Specification (`Verif/Spec/Rows.lean`): `Columns dim D L` says that `L` is the list of the monomials of the columns, in graded
lexicographic order; `rowSum L r (monVal x dim)` and `rowSum L r (chebVal x dim)` are the values at `x` of the polynomial with the
coefficients `r`, in the power and the Chebyshev basis.
-/

set_option linter.unusedSectionVars false

namespace YRoots.Legacy

variable {K : Type*} [CommRing K]

/-! ### Helper lemmas: the order of the columns -/

theorem asc_sorted : ∀ (n d : ℕ), (asc n d).Pairwise (· < ·)
  | 0, d => by unfold asc; split_ifs <;> simp
  | n + 1, d => by
    rw [asc, List.pairwise_flatMap]
    refine ⟨fun i _ => ?_, ?_⟩
    · rw [List.pairwise_map]
      exact (asc_sorted n (d - i)).imp fun h => List.cons_lt_cons_iff.2 (.inr ⟨rfl, h⟩)
    · refine List.Pairwise.imp ?_ (List.pairwise_lt_range (n := d + 1))
      intro a b hab m hm m' hm'
      rw [List.mem_map] at hm hm'
      obtain ⟨x, -, rfl⟩ := hm
      obtain ⟨y, -, rfl⟩ := hm'
      exact List.cons_lt_cons_iff.2 (.inl hab)

theorem cols_columns {dim : ℕ} (hd : 1 ≤ dim) (D : ℕ) : Columns dim D (cols dim D) := by
  refine ⟨mem_cols hd D, ?_⟩
  induction D with
  | zero => rw [cols_zero hd]; simp
  | succ D ih =>
    rw [cols_succ hd, List.pairwise_append]
    refine ⟨?_, ih, fun a ha b hb => .inl ?_⟩
    · rw [List.pairwise_reverse]
      refine List.Pairwise.imp_of_mem ?_ (asc_sorted dim (D + 1))
      intro a b ha hb hab
      rw [mem_asc] at ha hb
      exact .inr ⟨by omega, hab⟩
    · rw [List.mem_reverse, mem_asc] at ha
      rw [mem_cols hd] at hb
      omega

theorem GrlexGt.irrefl (a : List ℕ) : ¬ GrlexGt a a := by
  rintro (h | ⟨_, h⟩)
  · omega
  · exact lt_irrefl a h

theorem GrlexGt.asymm {a b : List ℕ} (h1 : GrlexGt a b) (h2 : GrlexGt b a) : a = b := by
  rcases h1 with h1 | ⟨e1, h1⟩ <;> rcases h2 with h2 | ⟨e2, h2⟩
  · omega
  · omega
  · omega
  · exact absurd h1 (lt_asymm h2)

theorem Columns.eq {dim D : ℕ} {L L' : List (List ℕ)} (h : Columns dim D L) (h' : Columns dim D L') : L = L' := by
  have nd : ∀ {L : List (List ℕ)}, Columns dim D L → L.Nodup := fun h =>
    List.Pairwise.imp (R := GrlexGt) (fun {a b} hab (heq : a = b) => GrlexGt.irrefl b (heq ▸ hab)) h.sorted
  have hperm : L.Perm L' := (List.perm_ext_iff_of_nodup (nd h) (nd h')).2 fun m => (h.mem m).trans (h'.mem m).symm
  exact hperm.eq_of_pairwise (fun a b _ _ h1 h2 => GrlexGt.asymm h1 h2) h.sorted h'.sorted

/-! ### Helper lemmas: products -/

theorem addMon_getD {a m : List ℕ} {dim : ℕ} (ha : a.length = dim) (hm : m.length = dim) {k : ℕ} (hk : k < dim) :
    (addMon a m).getD k 0 = a.getD k 0 + m.getD k 0 := by
  rw [addMon, List.getD_eq_getElem _ _ (by simp [ha, hm, hk]), List.getElem_zipWith, List.getD_eq_getElem _ _ (by omega),
    List.getD_eq_getElem _ _ (by omega)]

theorem monVal_addMon (x : ℕ → K) {dim : ℕ} {a m : List ℕ} (ha : a.length = dim) (hm : m.length = dim) :
    monVal x dim (addMon a m) = monVal x dim a * monVal x dim m := by
  unfold monVal
  rw [← Finset.prod_mul_distrib]
  exact Finset.prod_congr rfl fun k hk => by rw [addMon_getD ha hm (Finset.mem_range.1 hk), pow_add]

theorem chebVal_fold (x : ℕ → K) {dim i c : ℕ} (hi : i < dim) {m : List ℕ} (hm : m.length = dim) :
    chebVal x dim (addMon (varMon dim i c) m) + chebVal x dim (absSub m (varMon dim i c)) =
      2 * chebT c (x i) * chebVal x dim m := by
  have hmem : i ∈ Finset.range dim := Finset.mem_range.2 hi
  have split : ∀ l : List ℕ, (∀ k, k ≠ i → l.getD k 0 = m.getD k 0) →
      chebVal x dim l = chebT (l.getD i 0) (x i) * ∏ k ∈ (Finset.range dim).erase i, chebT (m.getD k 0) (x k) := by
    intro l hl
    unfold chebVal
    rw [← Finset.mul_prod_erase _ _ hmem]
    congr 1
    exact Finset.prod_congr rfl fun k hk => by rw [hl k (Finset.mem_erase.1 hk).1]
  rw [split (addMon _ _) fun k hk => by
      rw [incAt_eq_addMon c hi m hm, getD_incAt (by omega), if_neg hk],
    split (absSub _ _) fun k hk => by rw [getD_absSub hi hm, if_neg hk], split m fun _ _ => rfl,
    incAt_eq_addMon c hi m hm, getD_incAt (by omega), if_pos rfl, getD_absSub hi hm, if_pos rfl, ← add_mul]
  rw [← mul_assoc]
  congr 1
  by_cases h : c ≤ m.getD i 0
  · rw [show m.getD i 0 - c + (c - m.getD i 0) = m.getD i 0 - c by omega]
    exact (chebT_mul (x i) c (m.getD i 0) h).symm
  · rw [show m.getD i 0 - c + (c - m.getD i 0) = c - m.getD i 0 by omega, add_comm (m.getD i 0) c]
    rw [← chebT_mul (x i) (m.getD i 0) c (by omega)]
    ring

/-! ### The properties -/

/-- **C86** (columns).  `mons_ordered(dim, D)[::-1]` lists the exponent tuples of length `dim` and degree at most `D` in decreasing
graded lexicographic order. -/
theorem C86_columns (dim D : ℕ) (hd : 1 ≤ dim) : Columns dim D (monsOrdered dim D).reverse := cols_columns hd D

/-- **C86**.  `all_permutations(deg, dim, D)` has an entry for exactly the monomials in `dim` variables of degree at most `deg` (and
those of degree one), it is a permutation of the columns, and indexing a row with it multiplies the polynomial by the monomial, for all
rows for which the product has degree at most `D`. -/
theorem C86_power {dim D : ℕ} (deg : ℕ) (hd : 1 ≤ dim) (hD : 1 ≤ D) {L : List (List ℕ)} (hL : Columns dim D L) (a : List ℕ) :
    ((a.length = dim ∧ a.sum ≤ max 1 deg) ↔ ∃ P, (allPermutations deg dim D).lookup a = some P) ∧
    ∀ P, (allPermutations deg dim D).lookup a = some P → P.Perm (List.range L.length) ∧
      ∀ r : List K, LowRow L D a.sum r → ∀ x : ℕ → K,
        rowSum L (gather r P) (monVal x dim) = monVal x dim a * rowSum L r (monVal x dim) := by
  obtain ⟨h1, h2⟩ := allPermutations_spec deg hd hD
  rw [hL.eq (cols_columns hd D)]
  refine ⟨⟨fun h => Option.isSome_iff_exists.1 (h2 a h.1 h.2), ?_⟩, fun P hP => ?_⟩
  · rintro ⟨P, hP⟩
    have := h1 _ (lookup_mem hP)
    exact ⟨this.1, this.2.1⟩
  · obtain ⟨ha, -, hm⟩ := h1 _ (lookup_mem hP)
    refine ⟨hm.perm, fun r hr x => ?_⟩
    rw [hm.rowSum r _ hr, rowSum, rowSum, Finset.mul_sum]
    refine Finset.sum_congr rfl fun k hk => ?_
    rw [monVal_addMon x ha ((mem_cols hd D _).1 (getD_mem_cols (Finset.mem_range.1 hk))).1]
    ring

/-- For a matrix of degree zero the arrays are too long: the loop of `permutation_array` starts with the columns of degree one. -/
theorem C86_degree_zero : permutationArray 0 2 0 = [0, 2, 1] ∧ (monsOrdered 2 0).length = 1 := by decide

/-- Non-vacuity: `(2x + 3) * y = 2xy + 3y` with columns `x², xy, y², x, y, 1`. -/
example : Columns 2 2 [[2, 0], [1, 1], [0, 2], [1, 0], [0, 1], [0, 0]] ∧
    (allPermutations 2 2 2).lookup [0, 1] = some [0, 3, 4, 1, 5, 2] ∧
    LowRow [[2, 0], [1, 1], [0, 2], [1, 0], [0, 1], [0, 0]] 2 1 [0, 0, 0, (2 : ℤ), 0, 3] ∧
    gather [0, 0, 0, (2 : ℤ), 0, 3] [0, 3, 4, 1, 5, 2] = [0, 2, 0, 0, 3, 0] ∧
    (allPermutations 2 2 2).lookup [1, 1] = some [3, 5, 1, 4, 2, 0] := by
  refine ⟨?_, by decide, by unfold LowRow; decide, by decide, by decide⟩
  have h : (monsOrdered 2 2).reverse = [[2, 0], [1, 1], [0, 2], [1, 0], [0, 1], [0, 0]] := by decide
  rw [← h]
  exact C86_columns 2 2 (by omega)

/-- **C87**.  `all_permutations_cheb(deg, dim, D)` has an entry for exactly the powers `1, …, max(1, deg)` of each variable.  The entry
for the power `c` of the variable `i` consists of three index arrays for the columns; half the sum of the row indexed by them is the
row of `T_c(x_i)` times the polynomial, for all rows for which the product has degree at most `D`. -/
theorem C87_cheb {dim D : ℕ} (deg : ℕ) (hd : 1 ≤ dim) (hD : 1 ≤ D) {L : List (List ℕ)} (hL : Columns dim D L) (a : List ℕ) :
    ((∃ i < dim, ∃ c, 1 ≤ c ∧ c ≤ max 1 deg ∧ a = (List.replicate dim 0).set i c) ↔
      ∃ t, (allPermutationsCheb deg dim D).lookup a = some t) ∧
    ∀ i < dim, ∀ c, 1 ≤ c → ∀ P Q R, (allPermutationsCheb deg dim D).lookup ((List.replicate dim 0).set i c) = some (P, Q, R) →
      (∀ I ∈ [P, Q, R], I.length = L.length ∧ ∀ k ∈ I, k < L.length) ∧
      ∀ r : List K, LowRow L D c r → ∀ x : ℕ → K,
        rowSum L (gather r P) (chebVal x dim) + rowSum L (gather r Q) (chebVal x dim) + rowSum L (gather r R) (chebVal x dim) =
          2 * chebT c (x i) * rowSum L r (chebVal x dim) := by
  obtain ⟨h1, h2⟩ := allPermutationsCheb_spec (K := K) (dim := dim) deg hD
  rw [hL.eq (cols_columns hd D)]
  refine ⟨⟨?_, ?_⟩, fun i hi c hc P Q R hlook => ?_⟩
  · rintro ⟨i, hi, c, hc, hcd, rfl⟩
    exact Option.isSome_iff_exists.1 (h2 i hi c hc hcd)
  · rintro ⟨t, ht⟩
    obtain ⟨i, hi, c, hc, hcd, he, -⟩ := h1 _ (lookup_mem ht)
    exact ⟨i, hi, c, hc, hcd, he⟩
  · obtain ⟨i', hi', c', hc', -, he, hm, hf⟩ := h1 _ (lookup_mem hlook)
    simp only at he hm hf
    obtain ⟨rfl, rfl⟩ := varMon_inj hi hi' hc he
    refine ⟨fun I hI => ?_, fun r hr x => ?_⟩
    · simp only [List.mem_cons, List.not_mem_nil, or_false] at hI
      rcases hI with rfl | rfl | rfl
      · exact ⟨hm.length, fun k hk => by simpa using hm.perm.mem_iff.1 hk⟩
      · exact ⟨hf.lengthQ, hf.ltQ⟩
      · exact ⟨hf.lengthR, hf.ltR⟩
    · have hs : ((List.replicate dim 0).set i c).sum = c := sum_varMon c hi
      rw [hm.rowSum r _ (by rw [hs]; exact hr), add_assoc, hf.sum r _ hr, rowSum, rowSum, rowSum, ← Finset.sum_add_distrib, Finset.mul_sum]
      refine Finset.sum_congr rfl fun k hk => ?_
      have := chebVal_fold x (c := c) hi ((mem_cols hd D _).1 (getD_mem_cols (Finset.mem_range.1 hk))).1
      rw [← mul_add]
      refine (congrArg (r.getD k 0 * ·) this).trans ?_
      ring

/-- Non-vacuity: `2 T₁(x) T₁(x) = T₂(x) + T₀` and `2 T₁(x) T₀ = T₁(x) + T₁(x)` in the columns `x², xy, y², x, y, 1`. -/
example : (allPermutationsCheb 2 2 2).lookup [1, 0] = some ([3, 4, 0, 5, 1, 2], [0, 0, 0, 0, 0, 3], [0, 4, 0, 5, 0, 0]) ∧
    LowRow [[2, 0], [1, 1], [0, 2], [1, 0], [0, 1], [0, 0]] 2 1 [0, 0, 0, (3 : ℤ), 0, 5] ∧
    gather [0, 0, 0, (3 : ℤ), 0, 5] [3, 4, 0, 5, 1, 2] = [3, 0, 0, 5, 0, 0] ∧
    gather [0, 0, 0, (3 : ℤ), 0, 5] [0, 0, 0, 0, 0, 3] = [0, 0, 0, 0, 0, 3] ∧
    gather [0, 0, 0, (3 : ℤ), 0, 5] [0, 4, 0, 5, 0, 0] = [0, 0, 0, 5, 0, 0] := by
  refine ⟨by decide, by unfold LowRow; decide, by decide, by decide, by decide⟩

end YRoots.Legacy
