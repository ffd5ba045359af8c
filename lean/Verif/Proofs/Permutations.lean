import Verif.Model.Permutations
import Verif.Proofs.MonCombos
import Verif.Props.TriangularSolve
import Mathlib.Algebra.BigOperators.Group.List.Lemmas

/-!
# Helper lemmas: index arrays for the multiplication of rows
-/

set_option linter.unusedSectionVars false
set_option linter.unusedVariables false
set_option linter.unusedSimpArgs false

namespace YRoots.Legacy

/-! ### The order of the monomials of one degree -/

/-- Increase an exponent. -/
def incAt (i c : ℕ) (m : List ℕ) : List ℕ := m.set i (m.getD i 0 + c)

/-- The exponent tuples of length `n` and degree `d`, in the order of `mon_combosHighest`. -/
def asc : ℕ → ℕ → List (List ℕ)
  | 0, d => if d = 0 then [[]] else []
  | n + 1, d => (List.range (d + 1)).flatMap fun i => (asc n (d - i)).map (i :: ·)

theorem asc_zero : ∀ n, asc n 0 = [List.replicate n 0]
  | 0 => rfl
  | n + 1 => by simp [asc, asc_zero n, List.replicate_succ]

theorem asc_succ (n d : ℕ) : asc (n + 1) (d + 1) = (asc n (d + 1)).map (0 :: ·) ++ (asc (n + 1) d).map (incAt 0 1) := by
  rw [asc, List.range_succ_eq_map, List.flatMap_cons, List.flatMap_map, asc, List.map_flatMap]
  congr 1
  refine List.flatMap_congr fun i hi => ?_
  rw [List.map_map, show d + 1 - i.succ = d - i by omega]
  refine List.map_congr_left fun m _ => ?_
  simp [incAt]

theorem mem_asc : ∀ (n d : ℕ) (m : List ℕ), m ∈ asc n d ↔ m.length = n ∧ m.sum = d
  | 0, d, m => by
    unfold asc
    split_ifs with h
    · subst h
      simp only [List.mem_singleton]
      constructor
      · rintro rfl; simp
      · rintro ⟨h, -⟩; exact List.length_eq_zero_iff.1 h
    · simp only [List.not_mem_nil, false_iff, not_and]
      intro hm
      rw [List.length_eq_zero_iff.1 hm]
      simpa using Ne.symm h
  | n + 1, d, m => by
    simp only [asc, List.mem_flatMap, List.mem_range, List.mem_map, mem_asc n]
    constructor
    · rintro ⟨i, hi, l, ⟨h1, h2⟩, rfl⟩
      simp only [List.length_cons, List.sum_cons]
      omega
    · rintro ⟨h1, h2⟩
      cases m with
      | nil => simp at h1
      | cons a l =>
        simp only [List.length_cons, List.sum_cons] at h1 h2
        exact ⟨a, by omega, l, ⟨by omega, by omega⟩, rfl⟩

theorem length_asc : ∀ (n d : ℕ), (asc (n + 1) d).length = numMons d (n + 1)
  | 0, 0 => by decide
  | 0, d + 1 => by
    rw [asc_succ, List.length_append, List.length_map, List.length_map, length_asc 0 d]
    simp [asc, numMons]
  | n + 1, 0 => by simp [asc_zero, numMons]
  | n + 1, d + 1 => by
    rw [asc_succ, List.length_append, List.length_map, List.length_map, length_asc n (d + 1), length_asc (n + 1) d]
    unfold numMons
    rw [show d + 1 + (n + 1 + 1) - 1 = (d + n + 1) + 1 by omega, Nat.choose_succ_succ, show d + 1 + (n + 1) - 1 = d + n + 1 by omega,
      show d + (n + 1 + 1) - 1 = d + n + 1 by omega, Nat.succ_eq_add_one]
    omega

theorem combosHighest_asc : ∀ (d : ℕ) (mon : List ℕ) (left spot : ℕ), mon.length = spot + d + 1 →
    (1 ≤ d → ∀ k, spot ≤ k → mon.getD k 0 = 0) →
    (monCombosHighest d mon left spot).1 = (asc (d + 1) left).map (mon.take spot ++ ·) ∧
    (monCombosHighest d mon left spot).2.length = mon.length ∧
    (monCombosHighest d mon left spot).2.take spot = mon.take spot ∧
    (1 ≤ d → (monCombosHighest d mon left spot).2 = mon) := by
  intro d
  induction d with
  | zero =>
    intro mon left spot hl _
    have h1 : asc 1 left = [[left]] := by
      have : ∀ l, asc 1 l = [[l]] := by
        intro l
        induction l with
        | zero => rfl
        | succ l ih => rw [asc_succ, ih]; simp [asc, incAt]
      exact this left
    refine ⟨?_, by simp [monCombosHighest], by simp [monCombosHighest, List.take_set_of_le], by omega⟩
    rw [monCombosHighest, zero_add, h1]
    simp only [List.map_cons, List.map_nil, List.cons.injEq, and_true]
    rw [List.set_eq_take_append_cons_drop, if_pos (by omega), List.drop_of_length_le (by omega)]
  | succ d ih =>
    intro mon left spot hl hz
    have hz := hz (by omega)
    unfold monCombosHighest
    by_cases h0 : left = 0
    · subst h0
      rw [if_pos rfl]
      refine ⟨?_, rfl, rfl, fun _ => rfl⟩
      rw [asc_zero, List.map_cons, List.map_nil]
      show [mon] = [_]
      congr 1
      have hlen : mon.length = (List.take spot mon ++ List.replicate (d + 1 + 1) 0).length := by
        rw [List.length_append, List.length_take, List.length_replicate]; omega
      refine ext_getD hlen fun k => ?_
      by_cases hk : k < spot
      · rw [List.getD_append _ _ _ _ (by simp; omega), List.getD_eq_getElem _ _ (by omega),
          List.getD_eq_getElem _ _ (by simp; omega), List.getElem_take]
      · rw [hz k (by omega), List.getD_append_right _ _ _ _ (by simp; omega)]
        by_cases hk2 : k - (mon.take spot).length < d + 1 + 1
        · rw [List.getD_eq_getElem _ _ (by simpa using hk2)]; simp
        · exact (getD_beyond _ _ (by simp at hk2 ⊢; omega)).symm
    · rw [if_neg h0]
      refine ⟨?_, rfl, rfl, fun _ => rfl⟩
      have key : ∀ j, j ≤ left + 1 →
          (((List.range j).foldl (fun (st : List (List ℕ) × List ℕ) i =>
            ((st.1 ++ (monCombosHighest d (st.2.set spot i) (left - i) (spot + 1)).1),
              (monCombosHighest d (st.2.set spot i) (left - i) (spot + 1)).2)) ([], mon)).1 =
            (List.range j).flatMap (fun i => (asc (d + 1) (left - i)).map fun m => mon.take spot ++ (i :: m))) ∧
          ((List.range j).foldl (fun (st : List (List ℕ) × List ℕ) i =>
            ((st.1 ++ (monCombosHighest d (st.2.set spot i) (left - i) (spot + 1)).1),
              (monCombosHighest d (st.2.set spot i) (left - i) (spot + 1)).2)) ([], mon)).2.length = mon.length ∧
          ((List.range j).foldl (fun (st : List (List ℕ) × List ℕ) i =>
            ((st.1 ++ (monCombosHighest d (st.2.set spot i) (left - i) (spot + 1)).1),
              (monCombosHighest d (st.2.set spot i) (left - i) (spot + 1)).2)) ([], mon)).2.take spot = mon.take spot ∧
          (1 ≤ d → ∀ k, spot + 1 ≤ k → ((List.range j).foldl (fun (st : List (List ℕ) × List ℕ) i =>
            ((st.1 ++ (monCombosHighest d (st.2.set spot i) (left - i) (spot + 1)).1),
              (monCombosHighest d (st.2.set spot i) (left - i) (spot + 1)).2)) ([], mon)).2.getD k 0 = 0) := by
        intro j
        induction j with
        | zero => intro _; exact ⟨rfl, rfl, rfl, fun _ k hk => hz k (by omega)⟩
        | succ j ihj =>
          intro hj
          obtain ⟨a1, a2, a3, a4⟩ := ihj (by omega)
          simp only [List.range_succ, List.foldl_append, List.foldl_cons, List.foldl_nil]
          generalize (List.range j).foldl (fun (st : List (List ℕ) × List ℕ) i =>
            ((st.1 ++ (monCombosHighest d (st.2.set spot i) (left - i) (spot + 1)).1),
              (monCombosHighest d (st.2.set spot i) (left - i) (spot + 1)).2)) ([], mon) = r at a1 a2 a3 a4
          obtain ⟨b1, b2, b3, b4⟩ := ih (r.2.set spot j) (left - j) (spot + 1) (by simp; omega) (fun hd k hk => by
            rw [getD_set, if_neg (by omega)]; exact a4 hd k hk)
          have htake : (r.2.set spot j).take (spot + 1) = mon.take spot ++ [j] := by
            rw [List.set_eq_take_append_cons_drop, if_pos (by omega), List.take_append, a3]
            simp [List.take_take, show min spot mon.length = spot by omega, show min (spot + 1) spot = spot by omega]
          refine ⟨?_, by rw [b2]; simpa using a2, ?_, fun hd k hk => ?_⟩
          · rw [a1, b1, htake, List.flatMap_append]
            simp
          · have := congrArg (List.take spot) (b3.trans htake)
            rw [List.take_take, List.take_append] at this
            simpa [show min spot (spot + 1) = spot by omega, List.take_take, show min spot mon.length = spot by omega] using this
          · rw [b4 hd, getD_set, if_neg (by omega)]; exact a4 hd k hk
      have := (key (left + 1) le_rfl).1
      rw [asc, List.map_flatMap]
      simp only [List.map_map, Function.comp_def]
      exact this

theorem combosHighest_eq {dim : ℕ} (hd : 1 ≤ dim) (d : ℕ) :
    (monCombosHighest (dim - 1) (List.replicate dim 0) d 0).1 = asc dim d := by
  obtain ⟨n, rfl⟩ : ∃ n, dim = n + 1 := ⟨dim - 1, by omega⟩
  rw [Nat.add_sub_cancel, (combosHighest_asc n (List.replicate (n + 1) 0) d 0 (by simp) (fun _ k _ => by
    by_cases hk : k < n + 1
    · rw [List.getD_eq_getElem _ _ (by simpa using hk)]; simp
    · exact getD_beyond _ _ (by simp; omega))).1]
  simp

/-! ### The columns of a row -/

/-- The order of the columns: `mons_ordered(dim, D)[::-1]`. -/
def cols (dim D : ℕ) : List (List ℕ) := (monsOrdered dim D).reverse

theorem cols_zero {dim : ℕ} (hd : 1 ≤ dim) : cols dim 0 = [List.replicate dim 0] := by
  simp [cols, monsOrdered, combosHighest_eq hd, asc_zero]

theorem cols_succ {dim : ℕ} (hd : 1 ≤ dim) (D : ℕ) : cols dim (D + 1) = (asc dim (D + 1)).reverse ++ cols dim D := by
  simp only [cols, monsOrdered, List.range_succ, List.flatMap_append, List.reverse_append, combosHighest_eq hd,
    List.flatMap_cons, List.flatMap_nil, List.append_nil]

theorem mem_cols {dim : ℕ} (hd : 1 ≤ dim) (D : ℕ) (m : List ℕ) : m ∈ cols dim D ↔ m.length = dim ∧ m.sum ≤ D := by
  simp only [cols, monsOrdered, combosHighest_eq hd, List.mem_reverse, List.mem_flatMap, List.mem_range, mem_asc]
  constructor
  · rintro ⟨a, h, h1, h2⟩; exact ⟨h1, by omega⟩
  · rintro ⟨h1, h2⟩; exact ⟨_, by omega, h1, rfl⟩

theorem nodup_asc {dim : ℕ} (hd : 1 ≤ dim) (d : ℕ) : (asc dim d).Nodup := by
  obtain ⟨n, rfl⟩ : ∃ n, dim = n + 1 := ⟨dim - 1, by omega⟩
  have : ∀ (n d : ℕ), (asc n d).Nodup := by
    intro n
    induction n with
    | zero => intro d; unfold asc; split_ifs <;> simp
    | succ n ih =>
      intro d
      rw [asc, List.nodup_flatMap]
      refine ⟨fun i _ => (ih _).map fun a b h => (List.cons.inj h).2, ?_⟩
      refine List.Pairwise.imp_of_mem ?_ (List.nodup_range (n := d + 1))
      intro a b _ _ hab m h1 h2
      rw [List.mem_map] at h1 h2
      obtain ⟨x, -, rfl⟩ := h1
      obtain ⟨y, -, h⟩ := h2
      exact hab (List.cons.inj h).1.symm
  exact this _ _

theorem nodup_cols {dim : ℕ} (hd : 1 ≤ dim) (D : ℕ) : (cols dim D).Nodup := by
  induction D with
  | zero => rw [cols_zero hd]; simp
  | succ D ih =>
    rw [cols_succ hd, List.nodup_append]
    refine ⟨List.nodup_reverse.2 (nodup_asc hd _), ih, fun a ha b hb hab => ?_⟩
    subst hab
    rw [List.mem_reverse, mem_asc] at ha
    rw [mem_cols hd] at hb
    omega

theorem length_cols {dim : ℕ} (hd : 1 ≤ dim) (D : ℕ) :
    (cols dim D).length = ((List.range (D + 1)).map fun d => numMons d dim).sum := by
  obtain ⟨n, rfl⟩ : ∃ n, dim = n + 1 := ⟨dim - 1, by omega⟩
  induction D with
  | zero => rw [cols_zero hd]; simp [numMons]
  | succ D ih =>
    rw [cols_succ hd, List.length_append, ih, List.length_reverse, length_asc, List.range_succ (n := D + 1)]
    simp [add_comm]

/-! ### The bits -/

/-- Divisibility by the variable `i`. -/
def divBy (i : ℕ) (m : List ℕ) : Bool := decide (1 ≤ m.getD i 0)

theorem getD_replicate_zero (n k : ℕ) : (List.replicate n 0).getD k 0 = 0 := by
  by_cases hk : k < n
  · rw [List.getD_eq_getElem _ _ (by simpa using hk)]; simp
  · exact getD_beyond _ _ (by simp; omega)

theorem incAt_divBy_zero (m : List ℕ) (h : m ≠ []) : divBy 0 (incAt 0 1 m) = true := by
  cases m with
  | nil => exact absurd rfl h
  | cons a l => simp [divBy, incAt]

theorem asc_ne_nil {n d : ℕ} {m : List ℕ} (h : m ∈ asc (n + 1) d) : m ≠ [] := by
  rintro rfl
  have := (mem_asc _ _ _).1 h
  simp at this

theorem asc_one : ∀ n, (asc n 1).reverse = (List.range n).map fun i => varMon n i 1
  | 0 => by simp [asc]
  | n + 1 => by
    have : asc (n + 1) 1 = (asc n 1).map (0 :: ·) ++ (asc (n + 1) 0).map (incAt 0 1) := asc_succ n 0
    rw [this, List.reverse_append, ← List.map_reverse, ← List.map_reverse, asc_one n, asc_zero, List.range_succ_eq_map]
    simp [incAt, varMon, List.replicate_succ]

theorem varMon_getD {dim i c k : ℕ} (hi : i < dim) : (varMon dim i c).getD k 0 = if k = i then c else 0 := by
  rw [varMon, getD_set, List.length_replicate, getD_replicate_zero]
  simp [hi]

theorem arraysLow_one (n i : ℕ) (hi : i < n) :
    (List.replicate n false).set i true = ((asc n 1).reverse).map (divBy i) := by
  rw [asc_one]
  refine List.ext_getElem (by simp) fun k h1 h2 => ?_
  have hk : k < n := by simpa using h1
  simp only [List.getElem_set, List.getElem_replicate, List.map_map, List.getElem_map, List.getElem_range, Function.comp,
    divBy, varMon_getD hk]
  by_cases hik : i = k
  · simp [hik]
  · simp [hik]

theorem divBy_succ_cons (i a : ℕ) (m : List ℕ) : divBy (i + 1) (a :: m) = divBy i m := by simp [divBy]

theorem divBy_succ_inc (i : ℕ) (m : List ℕ) : divBy (i + 1) (incAt 0 1 m) = divBy (i + 1) m := by
  cases m <;> simp [divBy, incAt]

/-- The recursion of the descending order. -/
theorem desc_succ (n d : ℕ) : (asc (n + 1) (d + 1)).reverse =
    ((asc (n + 1) d).reverse).map (incAt 0 1) ++ ((asc n (d + 1)).reverse).map (0 :: ·) := by
  rw [asc_succ, List.reverse_append, List.map_reverse, List.map_reverse]

theorem arrays_eq (mon : ℕ) : ∀ (dim deg : ℕ), mon < dim → 1 ≤ deg →
    arrays mon dim deg = ((asc dim deg).reverse).map (divBy (dim - 1 - mon)) := by
  intro dim
  induction dim with
  | zero => intro deg h; omega
  | succ n ih =>
    intro deg hm hd
    unfold arrays
    by_cases hn : n = mon
    · subst hn
      rw [if_pos rfl]
      obtain ⟨d, rfl⟩ : ∃ d, deg = d + 1 := ⟨deg - 1, by omega⟩
      have h0 : n + 1 - 1 - n = 0 := by omega
      rw [h0, desc_succ, List.map_append]
      have hlen : (asc n (d + 1)).length = numMons (d + 1) n := by
        cases n with
        | zero => simp [asc, numMons]
        | succ n => exact length_asc n (d + 1)
      have hlen2 : (asc (n + 1) d).length = numMons (d + 1) (n + 1) - numMons (d + 1) n := by
        have := length_asc n (d + 1)
        rw [asc_succ, List.length_append, List.length_map, List.length_map] at this
        omega
      show List.replicate _ true ++ List.replicate _ false = _
      congr 1
      · symm
        rw [List.eq_replicate_iff]
        refine ⟨by simp [hlen2], fun b hb => ?_⟩
        simp only [List.mem_map, List.mem_reverse] at hb
        obtain ⟨_, ⟨m, hm, rfl⟩, rfl⟩ := hb
        exact incAt_divBy_zero m (asc_ne_nil hm)
      · symm
        rw [List.eq_replicate_iff]
        refine ⟨by simp [hlen], fun b hb => ?_⟩
        simp only [List.mem_map, List.mem_reverse] at hb
        obtain ⟨_, ⟨m, hm, rfl⟩, rfl⟩ := hb
        simp [divBy]
    · rw [if_neg hn]
      have key : ∀ d, arraysLow (arrays mon n) (n + 1) mon (d + 1) =
          ((asc (n + 1) (d + 1)).reverse).map (divBy (n + 1 - 1 - mon)) := by
        intro d
        induction d with
        | zero =>
          rw [arraysLow, show n + 1 - mon - 1 = n + 1 - 1 - mon by omega]
          exact arraysLow_one (n + 1) _ (by omega)
        | succ d ihd =>
          rw [arraysLow, ihd, ih (d + 2) (by omega) (by omega), desc_succ n (d + 1), List.map_append, List.map_map, List.map_map]
          have hs : n + 1 - 1 - mon = (n - 1 - mon) + 1 := by omega
          rw [hs]
          congr 1
          exact List.map_congr_left fun m _ => (divBy_succ_inc _ m).symm
      obtain ⟨d, rfl⟩ : ∃ d, deg = d + 1 := ⟨deg - 1, by omega⟩
      exact key d

theorem permBitsLast_eq {dim : ℕ} (hd : 1 ≤ dim) : ∀ deg, permBitsLast dim (dim - 1) deg = (cols dim deg).map (divBy 0)
  | 0 => by simp [permBitsLast, cols_zero hd, divBy, getD_replicate_zero]
  | d + 1 => by
    rw [permBitsLast, permBitsLast_eq hd d, cols_succ hd, List.map_append, arrays_eq _ _ _ (by omega) (by omega)]
    simp

theorem permBitsOther_eq {dim mon : ℕ} (hm : mon < dim - 1) : ∀ d,
    (permBitsOther dim mon (d + 1)).1 = ((asc dim (d + 1)).reverse).map (divBy (dim - 1 - mon)) ∧
    (permBitsOther dim mon (d + 1)).2 = (cols dim (d + 1)).map (divBy (dim - 1 - mon))
  | 0 => by
    have h := arraysLow_one dim (dim - 1 - mon) (by omega)
    rw [permBitsOther, show dim - mon - 1 = dim - 1 - mon by omega]
    refine ⟨h, ?_⟩
    rw [cols_succ (by omega), cols_zero (by omega), List.map_append, ← h]
    simp [divBy, getD_replicate_zero]
  | d + 1 => by
    obtain ⟨h1, h2⟩ := permBitsOther_eq hm d
    have h3 : (permBitsOther dim mon (d + 1)).1 ++ arrays mon (dim - 1) (d + 2) =
        ((asc dim (d + 2)).reverse).map (divBy (dim - 1 - mon)) := by
      obtain ⟨n, rfl⟩ : ∃ n, dim = n + 1 := ⟨dim - 1, by omega⟩
      rw [h1, desc_succ n (d + 1), Nat.add_sub_cancel, arrays_eq _ _ _ (by omega) (by omega), List.map_append, List.map_map, List.map_map]
      have hs : n - mon = (n - 1 - mon) + 1 := by omega
      rw [hs]
      congr 1
      exact List.map_congr_left fun m _ => (divBy_succ_inc _ m).symm
    rw [permBitsOther]
    refine ⟨h3, ?_⟩
    simp only [h3, h2]
    rw [cols_succ (by omega) (d + 1), List.map_append]

/-- The bits of `permutation_array`. -/
theorem permBits_eq {dim mon D : ℕ} (hm : mon < dim) (hD : 1 ≤ D) :
    (if mon = dim - 1 then permBitsLast dim mon D else (permBitsOther dim mon D).2) = (cols dim D).map (divBy (dim - 1 - mon)) := by
  by_cases h : mon = dim - 1
  · rw [if_pos h, h, permBitsLast_eq (by omega)]
    simp
  · rw [if_neg h]
    obtain ⟨d, rfl⟩ : ∃ d, D = d + 1 := ⟨D - 1, by omega⟩
    exact (permBitsOther_eq (by omega) d).2

/-! ### The divisible columns -/

theorem filter_desc (i : ℕ) : ∀ (n d : ℕ), i < n →
    ((asc n (d + 1)).reverse).filter (divBy i) = ((asc n d).reverse).map (incAt i 1) := by
  induction i with
  | zero =>
    intro n d hi
    obtain ⟨n, rfl⟩ : ∃ k, n = k + 1 := ⟨n - 1, by omega⟩
    rw [desc_succ, List.filter_append]
    have h1 : (((asc (n + 1) d).reverse).map (incAt 0 1)).filter (divBy 0) = ((asc (n + 1) d).reverse).map (incAt 0 1) := by
      rw [List.filter_eq_self]
      intro a ha
      simp only [List.mem_map, List.mem_reverse] at ha
      obtain ⟨m, hm, rfl⟩ := ha
      exact incAt_divBy_zero m (asc_ne_nil hm)
    have h2 : (((asc n (d + 1)).reverse).map (0 :: ·)).filter (divBy 0) = [] := by
      rw [List.filter_eq_nil_iff]
      intro a ha
      simp only [List.mem_map, List.mem_reverse] at ha
      obtain ⟨m, hm, rfl⟩ := ha
      simp [divBy]
    rw [h1, h2, List.append_nil]
  | succ i ih =>
    intro n d hi
    obtain ⟨n, rfl⟩ : ∃ k, n = k + 1 := ⟨n - 1, by omega⟩
    have hB : ∀ d, (((asc n (d + 1)).reverse).map (0 :: ·)).filter (divBy (i + 1)) =
        (((asc n d).reverse).map (0 :: ·)).map (incAt (i + 1) 1) := by
      intro d
      rw [List.filter_map, List.map_map]
      have : (divBy (i + 1) ∘ (0 :: ·)) = divBy i := funext fun m => divBy_succ_cons i 0 m
      rw [this, ih n d (by omega), List.map_map]
      refine List.map_congr_left fun m _ => ?_
      simp [incAt]
    induction d with
    | zero =>
      rw [desc_succ, List.filter_append, hB 0, asc_zero, asc_zero]
      simp [incAt, divBy, List.replicate_succ, getD_replicate_zero]
    | succ d ihd =>
      rw [desc_succ n (d + 1), List.filter_append, hB (d + 1), List.filter_map]
      have : (divBy (i + 1) ∘ incAt 0 1) = divBy (i + 1) := funext fun m => divBy_succ_inc i m
      rw [this, ihd, desc_succ n d, List.map_append, List.map_map]
      congr 1
      rw [List.map_map]
      refine List.map_congr_left fun m hm => ?_
      have := asc_ne_nil (List.mem_reverse.1 hm)
      cases m with
      | nil => exact absurd rfl this
      | cons a l => simp [incAt]

theorem filter_cols {dim : ℕ} (hd : 1 ≤ dim) {i : ℕ} (hi : i < dim) : ∀ D,
    (cols dim (D + 1)).filter (divBy i) = (cols dim D).map (incAt i 1)
  | 0 => by
    rw [cols_succ hd, cols_zero hd, List.filter_append, filter_desc i dim 0 hi, asc_zero]
    simp [divBy, getD_replicate_zero]
  | D + 1 => by
    rw [cols_succ hd (D + 1), List.filter_append, filter_cols hd hi D, filter_desc i dim (D + 1) hi, cols_succ hd D, List.map_append]

end YRoots.Legacy
