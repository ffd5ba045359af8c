import Verif.Model.Rref
import Verif.Props.SolveLinear
import Mathlib.Algebra.BigOperators.Intervals
import Mathlib.Algebra.BigOperators.Ring.Finset
import Mathlib.Tactic.Ring
import Mathlib.Tactic.Linarith
import Mathlib.Tactic.FieldSimp
import Mathlib.Tactic.NormNum

/-!
# C70: `rref` and `nullspace` keep the solutions
-/

namespace YRoots.Legacy

open Finset

variable {K : Type*} [Field K] [LinearOrder K]

/-! ### Specification -/

/-- `x` solves the equations in the rows of `A`, where the constants (the last column) are multiplied by `e`: `e = 1` is the system
itself, `e = 0` the homogeneous one. -/
def Solves (m v : ℕ) (A : ℕ → ℕ → K) (e : K) (x : ℕ → K) : Prop := ∀ i < m, ∑ c ∈ range v, A i c * x c + e * A i v = 0

/-! ### Helper lemmas -/

theorem swapped_self {α : Type*} (j k : ℕ) (f : ℕ → α) (i : ℕ) : swapped j k f i = f (Equiv.swap j k i) := by
  unfold swapped
  rw [Equiv.swap_apply_def]
  split_ifs <;> simp_all

theorem mem_subPositions {m v j : ℕ} {p : ℕ × ℕ} : p ∈ subPositions m v j ↔ (j ≤ p.1 ∧ p.1 < m) ∧ j ≤ p.2 ∧ p.2 < v := by
  obtain ⟨k, l⟩ := p
  simp only [subPositions, List.mem_flatMap, List.mem_range'_1, List.mem_map, Prod.mk.injEq]
  constructor
  · rintro ⟨k', hk, l', hl, rfl, rfl⟩
    omega
  · intro h
    exact ⟨k, by omega, l, by omega, rfl, rfl⟩

theorem rref_foldl_max_spec {α : Type*} (f : α → K) (l : List α) (s : K) :
    s ≤ l.foldl (fun s p => max s (f p)) s ∧ (∀ p ∈ l, f p ≤ l.foldl (fun s p => max s (f p)) s) ∧
      (l.foldl (fun s p => max s (f p)) s = s ∨ ∃ p ∈ l, l.foldl (fun s p => max s (f p)) s = f p) := by
  induction l generalizing s with
  | nil => simp
  | cons a l ih =>
    obtain ⟨h1, h2, h3⟩ := ih (max s (f a))
    simp only [List.foldl_cons, List.mem_cons, forall_eq_or_imp, exists_eq_or_imp]
    refine ⟨le_trans (le_max_left _ _) h1, ⟨le_trans (le_max_right _ _) h1, h2⟩, ?_⟩
    rcases h3 with h3 | h3
    · rcases max_choice s (f a) with h | h
      · exact Or.inl (h3.trans h)
      · exact Or.inr (Or.inl (h3.trans h))
    · exact Or.inr (Or.inr h3)

variable [IsStrictOrderedRing K]

theorem rrefPivot_some {m v j : ℕ} {A : ℕ → ℕ → K} {k l : ℕ} (h : rrefPivot m v j A = some (k, l)) :
    (j ≤ k ∧ k < m) ∧ (j ≤ l ∧ l < v) ∧ ∀ i c, j ≤ i → i < m → j ≤ c → c < v → |A i c| ≤ |A k l| := by
  unfold rrefPivot at h
  have h1 := List.find?_some h
  have h2 := List.mem_of_find?_eq_some h
  simp only [decide_eq_true_eq] at h1
  rw [mem_subPositions] at h2
  refine ⟨h2.1, h2.2, fun i c hi hi' hc hc' => ?_⟩
  rw [h1]
  exact (rref_foldl_max_spec (fun p : ℕ × ℕ => |A p.1 p.2|) _ 0).2.1 (i, c) (mem_subPositions.2 ⟨⟨hi, hi'⟩, hc, hc'⟩)

theorem rrefPivot_none {m v j : ℕ} {A : ℕ → ℕ → K} (h : rrefPivot m v j A = none) : m ≤ j ∨ v ≤ j := by
  by_contra hc
  push Not at hc
  unfold rrefPivot at h
  simp only [List.find?_eq_none, decide_eq_true_eq] at h
  obtain ⟨h1, h2, h3⟩ := rref_foldl_max_spec (fun p : ℕ × ℕ => |A p.1 p.2|) (subPositions m v j) 0
  have hm : (j, j) ∈ subPositions m v j := mem_subPositions.2 ⟨⟨le_rfl, hc.1⟩, le_rfl, hc.2⟩
  rcases h3 with h3 | ⟨p, hp, h3⟩
  · refine h _ hm (le_antisymm (h2 _ hm) ?_)
    rw [h3]
    exact abs_nonneg _
  · exact h p hp h3.symm

/-- What holds before step `j`. -/
structure RrefInv (m v j : ℕ) (A₀ A : ℕ → ℕ → K) (P : ℕ → ℕ) : Prop where
  inj : Function.Injective P
  lt : ∀ c, c < v → P c < v
  last : P v = v
  sol : ∀ e x, Solves m v A₀ e x ↔ Solves m v A e fun c => x (P c)
  cols : ∀ c < j, ∀ i < m, A i c = if i = c then 1 else 0

theorem RrefInv.swap {m v j : ℕ} {A₀ A : ℕ → ℕ → K} {P : ℕ → ℕ} (h : RrefInv m v j A₀ A P) {k l : ℕ} (hk : j ≤ k ∧ k < m)
    (hl : j ≤ l ∧ l < v) : RrefInv m v j A₀ (fun i => swapped j l (swapped j k A i)) (swapped j l P) := by
  have hjm : j < m := lt_of_le_of_lt hk.1 hk.2
  have hjv : j < v := lt_of_le_of_lt hl.1 hl.2
  have hs : ∀ {a b : ℕ} {N : ℕ}, a < N → b < N → ∀ i, (Equiv.swap a b i < N ↔ i < N) := by
    intro a b N ha hb i
    rw [Equiv.swap_apply_def]
    split_ifs with h1 h2
    · subst h1; exact ⟨fun _ => ha, fun _ => hb⟩
    · subst h2; exact ⟨fun _ => hb, fun _ => ha⟩
    · rfl
  have hP : swapped j l P = fun c => P (Equiv.swap j l c) := funext fun c => swapped_self _ _ _ _
  have hA : (fun i => swapped j l (swapped j k A i)) = fun i c => A (Equiv.swap j k i) (Equiv.swap j l c) := by
    funext i c
    rw [swapped_self, swapped_self]
  rw [hP, hA]
  have hv : Equiv.swap j l v = v := Equiv.swap_apply_of_ne_of_ne (by omega) (by omega)
  refine ⟨h.inj.comp (Equiv.swap j l).injective, fun c hc => h.lt _ ((hs hjv hl.2 c).2 hc), ?_, fun e x => ?_, fun c hc i hi => ?_⟩
  · show P (Equiv.swap j l v) = v
    rw [hv, h.last]
  · rw [h.sol e x]
    have hsum : ∀ i, ∑ c ∈ range v, A i (Equiv.swap j l c) * x (P (Equiv.swap j l c)) = ∑ c ∈ range v, A i c * x (P c) := by
      intro i
      refine Finset.sum_nbij' (fun c => Equiv.swap j l c) (fun c => Equiv.swap j l c) ?_ ?_ ?_ ?_ ?_
      · intro c hc; simpa [hs hjv hl.2] using hc
      · intro c hc; simpa [hs hjv hl.2] using hc
      · intro c _; simp
      · intro c _; simp
      · intro c _; rfl
    constructor
    · intro H i hi
      beta_reduce
      rw [hsum, hv]
      exact H _ ((hs hjm hk.2 i).2 hi)
    · intro H i hi
      have := H (Equiv.swap j k i) ((hs hjm hk.2 i).2 hi)
      beta_reduce at this
      rw [hsum, hv, Equiv.swap_apply_self] at this
      exact this
  · have hc' : Equiv.swap j l c = c := Equiv.swap_apply_of_ne_of_ne (by omega) (by omega)
    show A (Equiv.swap j k i) (Equiv.swap j l c) = _
    rw [hc', h.cols c hc _ ((hs hjm hk.2 i).2 hi)]
    congr 1
    rw [Equiv.swap_apply_def]
    split_ifs with h1 h2
    · subst h1; exact propext ⟨fun e => by omega, fun e => by omega⟩
    · subst h2; exact propext ⟨fun e => by omega, fun e => by omega⟩
    · rfl

theorem RrefInv.elim {m v j : ℕ} {A₀ A A' : ℕ → ℕ → K} {P : ℕ → ℕ} (h : RrefInv m v j A₀ A P) (hj : j < m) (hp : A j j ≠ 0)
    (h1 : ∀ c, A' j c = A j c / A j j) (h2 : ∀ i, i ≠ j → ∀ c, A' i c = if j ≤ c then A i c - A j c * A i j / A j j else A i c) :
    RrefInv m v (j + 1) A₀ A' P := by
  have hrow : A' = fun i c => if i = j then A j c / A j j else A i c - A j c * (A i j / A j j) := by
    funext i c
    by_cases hi : i = j
    · rw [if_pos hi, hi, h1]
    · rw [if_neg hi, h2 i hi]
      by_cases hc : j ≤ c
      · rw [if_pos hc, mul_div_assoc]
      · rw [if_neg hc, h.cols c (by omega) j hj, if_neg (by omega)]
        simp
  rw [hrow]
  refine ⟨h.inj, h.lt, h.last, fun e x => ?_, fun c hc i hi => ?_⟩
  · rw [h.sol e x]
    set y : ℕ → K := fun c => x (P c) with hy
    have e1 : ∀ i, i ≠ j → ∑ c ∈ range v, (A i c - A j c * (A i j / A j j)) * y c + e * (A i v - A j v * (A i j / A j j)) =
        (∑ c ∈ range v, A i c * y c + e * A i v) - (A i j / A j j) * (∑ c ∈ range v, A j c * y c + e * A j v) := by
      intro i _
      have : ∀ c, (A i c - A j c * (A i j / A j j)) * y c = A i c * y c - (A i j / A j j) * (A j c * y c) := fun c => by ring
      rw [Finset.sum_congr rfl fun c _ => this c, Finset.sum_sub_distrib, ← Finset.mul_sum]
      ring
    have e2 : ∑ c ∈ range v, A j c / A j j * y c + e * (A j v / A j j) = (∑ c ∈ range v, A j c * y c + e * A j v) / A j j := by
      rw [eq_div_iff hp, add_mul, Finset.sum_mul]
      congr 1
      · exact Finset.sum_congr rfl fun c _ => by field_simp
      · field_simp
    constructor
    · intro H i hi
      by_cases hij : i = j
      · subst hij
        simp only [if_true]
        rw [e2, H i hi, zero_div]
      · simp only [if_neg hij]
        rw [e1 i hij, H i hi, H j hj]
        simp
    · intro H
      have Hj : ∑ c ∈ range v, A j c * y c + e * A j v = 0 := by
        have := H j hj
        simp only [if_true] at this
        rw [e2] at this
        exact (div_eq_zero_iff.1 this).resolve_right hp
      intro i hi
      by_cases hij : i = j
      · rw [hij]; exact Hj
      · have := H i hi
        simp only [if_neg hij] at this
        rw [e1 i hij, Hj] at this
        simpa using this
  · by_cases hcj : c = j
    · subst hcj
      beta_reduce
      by_cases hic : i = c
      · rw [if_pos hic, if_pos hic, div_self hp]
      · rw [if_neg hic, if_neg hic]
        field_simp
        ring
    · have hc' : c < j := by omega
      beta_reduce
      rw [h.cols c hc' j hj, if_neg (by omega : j ≠ c), h.cols c hc' i hi]
      by_cases hij : i = j
      · rw [if_pos hij, if_neg (by omega : i ≠ c)]
        simp
      · rw [if_neg hij]
        simp

theorem rrefLoop_spec (m v : ℕ) (A₀ : ℕ → ℕ → K) (t j : ℕ) (htj : t + j = m) (A : ℕ → ℕ → K) (P : ℕ → ℕ) (h : RrefInv m v j A₀ A P) :
    (∃ r B Q, rrefLoop m v t j A P = .ok (r, B, Q) ∧ RrefInv m v r A₀ B Q ∧ r ≤ m ∧ (j ≤ v → r ≤ v) ∧
      (r = m ∨ r < v) ∧ ∀ i, r ≤ i → i < m → ∀ c < v, B i c = 0) ∨
    (rrefLoop m v t j A P = .error .emptyMax ∧ v < m ∧ ∀ x, Solves m v A₀ 0 x → j ≤ v → ∀ c < v, x c = 0) := by
  induction t generalizing j A P with
  | zero =>
    refine Or.inl ⟨m, A, P, rfl, ?_, le_rfl, fun h => by omega, Or.inl rfl, fun i h1 h2 => by omega⟩
    have : j = m := by omega
    rwa [this] at h
  | succ t ih =>
    rw [rrefLoop]
    cases hp : rrefPivot m v j A with
    | none =>
      refine Or.inr ⟨rfl, ?_, ?_⟩
      · have := rrefPivot_none hp; omega
      · intro x hx hjv c hc
        have hvj : j = v := by have := rrefPivot_none hp; omega
        subst hvj
        obtain ⟨c', hc', rfl⟩ : ∃ c' < j, P c' = c := by
          have : (range j).image P = range j := Finset.eq_of_subset_of_card_le
            (fun a ha => by obtain ⟨b, hb, rfl⟩ := Finset.mem_image.1 ha; exact Finset.mem_range.2 (h.lt b (Finset.mem_range.1 hb)))
            (by rw [Finset.card_image_of_injective _ h.inj])
          have hmem : c ∈ (range j).image P := by rw [this]; exact Finset.mem_range.2 hc
          obtain ⟨b, hb, hbc⟩ := Finset.mem_image.1 hmem
          exact ⟨b, Finset.mem_range.1 hb, hbc⟩
        have := (h.sol 0 x).1 hx c' (by omega)
        rw [zero_mul, add_zero, Finset.sum_eq_single_of_mem c' (Finset.mem_range.2 hc')] at this
        · rw [h.cols c' hc' c' (by omega), if_pos rfl, one_mul] at this
          exact this
        · intro b hb hbc
          rw [h.cols b (Finset.mem_range.1 hb) c' (by omega), if_neg (Ne.symm hbc), zero_mul]
    | some kl =>
      obtain ⟨k, l⟩ := kl
      obtain ⟨hk, hl, hmax⟩ := rrefPivot_some hp
      have hjm : j < m := lt_of_le_of_lt hk.1 hk.2
      have hjv : j < v := lt_of_le_of_lt hl.1 hl.2
      have hs := h.swap hk hl
      have hjj : swapped j l (swapped j k A j) j = A k l := by simp [swapped]
      dsimp only
      by_cases h0 : swapped j l (swapped j k A j) j = 0
      · rw [if_pos h0]
        refine Or.inl ⟨j, _, _, rfl, hs, hjm.le, fun _ => hjv.le, Or.inr hjv, fun i hi hi' c hc => ?_⟩
        by_cases hcj : c < j
        · rw [hs.cols c hcj i hi', if_neg (by omega)]
        · rw [hjj] at h0
          have hz : ∀ i c, j ≤ i → i < m → j ≤ c → c < v → A i c = 0 := fun i c h1 h2 h3 h4 => by
            have := hmax i c h1 h2 h3 h4
            rw [h0, abs_zero] at this
            exact abs_eq_zero.1 (le_antisymm this (abs_nonneg _))
          simp only [swapped]
          split_ifs <;> (apply hz <;> omega)
      · rw [if_neg h0]
        suffices H : ∀ A' : ℕ → ℕ → K, RrefInv m v (j + 1) A₀ A' (swapped j l P) →
            (∃ r B Q, rrefLoop m v t (j + 1) A' (swapped j l P) = .ok (r, B, Q) ∧ RrefInv m v r A₀ B Q ∧ r ≤ m ∧ (j ≤ v → r ≤ v) ∧
              (r = m ∨ r < v) ∧ ∀ i, r ≤ i → i < m → ∀ c < v, B i c = 0) ∨
            (rrefLoop m v t (j + 1) A' (swapped j l P) = .error .emptyMax ∧ v < m ∧
              ∀ x, Solves m v A₀ 0 x → j ≤ v → ∀ c < v, x c = 0) by
          refine H _ (hs.elim hjm h0 (fun c => ?_) fun i hi c => ?_)
          · simp
          · simp [hi]
        intro A' he
        rcases ih (j + 1) (by omega) _ _ he with ⟨r, B, Q, h1, h2, h3, h4, h5, h6⟩ | ⟨h1, h2, h3⟩
        · exact Or.inl ⟨r, B, Q, h1, h2, h3, fun _ => h4 hjv, h5, h6⟩
        · exact Or.inr ⟨h1, h2, fun x hx _ => h3 x hx hjv⟩

theorem rref_spec (m v : ℕ) (A : ℕ → ℕ → K) :
    (∃ r B P, rref true m v A = .ok (r, B, P) ∧ RrefInv m v r A B P ∧ r ≤ m ∧ r ≤ v ∧
      (r = m ∨ r < v) ∧ ∀ i, r ≤ i → i < m → ∀ c < v, B i c = 0) ∨
    (rref true m v A = .error .emptyMax ∧ v < m ∧ ∀ x, Solves m v A 0 x → ∀ c < v, x c = 0) := by
  have h0 : RrefInv m v 0 A A id := ⟨Function.injective_id, fun _ h => h, rfl, fun _ _ => Iff.rfl, fun c hc => by omega⟩
  rcases rrefLoop_spec m v A m 0 rfl A id h0 with ⟨r, B, P, h1, h2, h3, h4, h5, h6⟩ | ⟨h1, h2, h3⟩
  · exact Or.inl ⟨r, B, P, by simpa [rref] using h1, h2, h3, h4 (Nat.zero_le _), h5, h6⟩
  · exact Or.inr ⟨by simpa [rref] using h1, h2, fun x hx => h3 x hx (Nat.zero_le _)⟩

/-! ### The theorems -/

/-- **C70.**  What `rref` returns is in reduced row echelon form after the permutation `P` of the columns, with the constants left
in the last column, and has the null space of the given matrix: the homogeneous solutions are the same. -/
theorem C70_nullspace (m v : ℕ) (A : ℕ → ℕ → K) (r : ℕ) (B : ℕ → ℕ → K) (P : ℕ → ℕ) (h : rref true m v A = .ok (r, B, P)) :
    r ≤ m ∧ r ≤ v ∧ Set.BijOn P (Set.Iio v) (Set.Iio v) ∧ P v = v ∧ (∀ i < r, ∀ c < r, B i c = if i = c then 1 else 0) ∧
      ∀ x, Solves m v A 0 x ↔ Solves r v B 0 fun c => x (P c) := by
  rcases rref_spec m v A with ⟨r', B', P', h1, h2, h3, h4, -, h5⟩ | ⟨h1, -⟩
  · rw [h1] at h
    simp only [Except.ok.injEq, Prod.mk.injEq] at h
    obtain ⟨rfl, rfl, rfl⟩ := h
    refine ⟨h3, h4, ⟨fun c hc => h2.lt c hc, h2.inj.injOn, ?_⟩, h2.last, fun i hi c hc => h2.cols c hc i (by omega), fun x => ?_⟩
    · have : (range v).image P' = range v := Finset.eq_of_subset_of_card_le
        (fun a ha => by obtain ⟨b, hb, rfl⟩ := Finset.mem_image.1 ha; exact Finset.mem_range.2 (h2.lt b (Finset.mem_range.1 hb)))
        (by rw [Finset.card_image_of_injective _ h2.inj])
      intro c hc
      have hmem : c ∈ (range v).image P' := by rw [this]; exact Finset.mem_range.2 hc
      obtain ⟨b, hb, hbc⟩ := Finset.mem_image.1 hmem
      exact ⟨b, Finset.mem_range.1 hb, hbc⟩
    · rw [h2.sol 0 x]
      refine ⟨fun H i hi => H i (by omega), fun H i hi => ?_⟩
      by_cases hir : i < r'
      · exact H i hir
      · rw [Finset.sum_eq_zero fun c hc => by rw [h5 i (by omega) hi c (Finset.mem_range.1 hc), zero_mul]]
        simp
  · rw [h1] at h
    simp at h

/-- **C70.**  Every solution of the given equations solves the returned ones; the converse holds if no row was dropped, or if the given
equations have a solution at all. -/
theorem C70_solutions_partial (m v : ℕ) (A : ℕ → ℕ → K) (r : ℕ) (B : ℕ → ℕ → K) (P : ℕ → ℕ) (h : rref true m v A = .ok (r, B, P)) :
    (∀ x, Solves m v A 1 x → Solves r v B 1 fun c => x (P c)) ∧
      (r = m ∨ (∃ x, Solves m v A 1 x) → ∀ x, Solves r v B 1 (fun c => x (P c)) → Solves m v A 1 x) := by
  rcases rref_spec m v A with ⟨r', B', P', h1, h2, h3, h4, -, h5⟩ | ⟨h1, -⟩
  · rw [h1] at h
    simp only [Except.ok.injEq, Prod.mk.injEq] at h
    obtain ⟨rfl, rfl, rfl⟩ := h
    refine ⟨fun x hx i hi => (h2.sol 1 x).1 hx i (by omega), fun hc x hx => (h2.sol 1 x).2 fun i hi => ?_⟩
    by_cases hir : i < r'
    · exact hx i hir
    · rcases hc with rfl | ⟨x₀, hx₀⟩
      · omega
      · have h6 := (h2.sol 1 x₀).1 hx₀ i hi
        have h7 : ∀ y : ℕ → K, ∑ c ∈ range v, B' i c * y c = 0 := fun y =>
          Finset.sum_eq_zero fun c hc => by rw [h5 i (by omega) hi c (Finset.mem_range.1 hc), zero_mul]
        rw [h7] at h6
        rw [h7]
        exact h6
  · rw [h1] at h
    simp at h

/-- **C70.**  When `rref` ends: it raises `ValueError` exactly if there are more equations than variables and the equations leave no
freedom. -/
theorem C70_defined (m v : ℕ) (A : ℕ → ℕ → K) :
    rref true m v A = .error .emptyMax ↔ v < m ∧ ∀ x, Solves m v A 0 x → ∀ c < v, x c = 0 := by
  rcases rref_spec m v A with ⟨r, B, P, h1, h2, h3, h4, h6, h5⟩ | ⟨h1, h2⟩
  · refine ⟨fun h => (by rw [h1] at h; simp at h), fun ⟨hvm, hx⟩ => ?_⟩
    have hrv : r < v := by omega
    exfalso
    -- column `r` is free
    set y : ℕ → K := fun c => if c = r then 1 else if c < r then -B c r else 0 with hy
    have hyP : (fun c => y (Function.invFun P (P c))) = y := by
      funext c
      rw [Function.leftInverse_invFun h2.inj c]
    have := hx (fun a => y (Function.invFun P a)) ((h2.sol 0 _).2 ?_) (P r) (h2.lt r hrv)
    · beta_reduce at this
      rw [Function.leftInverse_invFun h2.inj r] at this
      simp [hy] at this
    · rw [hyP]
      intro i hi
      by_cases hir : i < r
      · have hne : i ≠ r := by omega
        rw [zero_mul, add_zero, ← Finset.sum_subset (s₁ := {i, r}) (fun a ha => by simp at ha; simp; omega), Finset.sum_pair hne]
        · simp [hy, hne, hir, h2.cols i hir i hi]
        · intro c hc hc'
          simp only [Finset.mem_insert, Finset.mem_singleton, not_or] at hc'
          by_cases hcr : c < r
          · rw [h2.cols c hcr i hi, if_neg (fun e => hc'.1 e.symm), zero_mul]
          · simp [hy, hc'.2, hcr]
      · rw [Finset.sum_eq_zero fun c hc => by rw [h5 i (by omega) hi c (Finset.mem_range.1 hc), zero_mul]]
        simp
  · exact ⟨fun _ => h2, fun _ => h1⟩

/-- **C70.**  `nullspace` of linear polynomials: the returned equations have the common zeros of the polynomials, if no row was dropped
or the polynomials have a common zero at all. -/
theorem C70_polys_partial {n : ℕ} (polys : List (Tensor n K)) (hl : ∀ p ∈ polys, Linear p) (r : ℕ) (B : ℕ → ℕ → K) (P : ℕ → ℕ)
    (h : nullspace true polys = .ok (r, B, P)) (hc : r = polys.length ∨ ∃ z, ∀ p ∈ polys, p.eval z = 0) (x : ℕ → K) :
    (∀ p ∈ polys, p.eval (fun i => x i) = 0) ↔ Solves r n B 1 fun c => x (P c) := by
  unfold nullspace at h
  split_ifs at h with h0
  push Not at h0
  obtain ⟨-, hs⟩ := h0
  set A : ℕ → ℕ → K := fun i c => match polys[i]? with
    | some p => if c = n then p.const else p.coef fun j => if j.1 = c then 1 else 0
    | none => 0 with hA
  have key : ∀ x : ℕ → K, (∀ p ∈ polys, p.eval (fun i => x i) = 0) ↔ Solves polys.length n A 1 x := by
    intro x
    have hrow : ∀ p ∈ polys, p.eval (fun i => x i) =
        ∑ c ∈ range n, (if c = n then p.const else p.coef fun j => if j.1 = c then 1 else 0) * x c + 1 * p.const := by
      intro p hp
      rw [eval_linear (fun j => by have := hs p hp j; omega) (hl p hp), one_mul, add_comm]
      congr 1
      rw [Finset.sum_range]
      refine Finset.sum_congr rfl fun j _ => ?_
      rw [if_neg (by omega)]
      congr 1
      unfold linCoef
      congr 1
      funext i
      simp [Pi.single_apply, Fin.ext_iff]
    constructor
    · intro H i hi
      have hp := List.getElem_mem hi
      have := H _ hp
      rw [hrow _ hp] at this
      simpa [hA, List.getElem?_eq_getElem hi] using this
    · intro H p hp
      obtain ⟨i, hi, rfl⟩ := List.getElem_of_mem hp
      rw [hrow _ hp]
      have := H i hi
      simpa [hA, List.getElem?_eq_getElem hi] using this
  obtain ⟨h1, h2⟩ := C70_solutions_partial _ _ _ _ _ _ h
  rw [key x]
  refine ⟨h1 x, h2 (hc.imp id fun ⟨z, hz⟩ => ⟨fun i => if h : i < n then z ⟨i, h⟩ else 0, (key _).1 ?_⟩) x⟩
  simpa using hz

/-- The result as lists, for the examples. -/
def rrefShow (v : ℕ) : Except RrefFailure (ℕ × (ℕ → ℕ → ℚ) × (ℕ → ℕ)) → Except RrefFailure (List (List ℚ) × List ℕ)
  | .ok (r, B, P) => .ok ((List.range r).map fun i => (List.range (v + 1)).map (B i), (List.range v).map P)
  | .error e => .error e

instance : DecidableEq (Except RrefFailure (List (List ℚ) × List ℕ))
  | .ok a, .ok b => if h : a = b then .isTrue (h ▸ rfl) else .isFalse fun e => h (Except.ok.inj e)
  | .error a, .error b => if h : a = b then .isTrue (h ▸ rfl) else .isFalse fun e => h (Except.error.inj e)
  | .ok _, .error _ => .isFalse nofun
  | .error _, .ok _ => .isFalse nofun

/-- `x = 0` and `x + 1 = 0` in two variables: the result is the equation `x = 0`, which has solutions. -/
theorem C70_inconsistent_false : ∃ A : ℕ → ℕ → ℚ, (∀ x, ¬ Solves 2 2 A 1 x) ∧
    ∃ r B P, rref true 2 2 A = .ok (r, B, P) ∧ Solves r 2 B 1 fun _ => 0 := by
  set A : ℕ → ℕ → ℚ := fun i c => if c = 0 then 1 else if c = 2 ∧ i = 1 then 1 else 0 with hA
  refine ⟨A, fun x hx => ?_, ?_⟩
  · have h0 := hx 0 (by norm_num)
    have h1 := hx 1 (by norm_num)
    simp [hA, Finset.sum_range_succ] at h0 h1
    rw [h0] at h1
    norm_num at h1
  · have hs : rrefShow 2 (rref true 2 2 A) = .ok ([[1, 0, 0]], [0, 1]) := by
      rw [hA]
      decide +kernel
    match hr : rref true 2 2 A with
    | .error e => rw [hr] at hs; simp [rrefShow] at hs
    | .ok (r, B, P) =>
      rw [hr] at hs
      simp only [rrefShow, Except.ok.injEq, Prod.mk.injEq] at hs
      have hr1 : r = 1 := by simpa using congrArg List.length hs.1
      subst hr1
      refine ⟨1, B, P, rfl, fun i hi => ?_⟩
      have : i = 0 := by omega
      subst this
      have h := hs.1
      simp [List.range_succ] at h
      simp [h]

/-- Three equations for two unknowns, `x = 0`, `y = 0`, `x + y = 0`, raise `ValueError`, though they have the solution `0`. -/
theorem C70_tall_false : ∃ A : ℕ → ℕ → ℚ, Solves 3 2 A 1 (fun _ => 0) ∧ rref true 3 2 A = .error .emptyMax := by
  set A : ℕ → ℕ → ℚ := fun i c => if c = 2 then 0 else if i = c ∨ i = 2 then 1 else 0 with hA
  refine ⟨A, fun i hi => by simp [hA], (C70_defined 3 2 A).2 ⟨by norm_num, fun x hx c hc => ?_⟩⟩
  have := hx c (by omega)
  have hc' : c = 0 ∨ c = 1 := by omega
  rcases hc' with rfl | rfl <;> simpa [hA, Finset.sum_range_succ] using this

omit [IsStrictOrderedRing K] in
/-- With the numpy of `requirements.txt` (1.24.3) `np.float` does not exist. -/
example (m v : ℕ) (A : ℕ → ℕ → K) : ∀ r, rref false m v A ≠ .ok r := fun r h => by simp [rref] at h

/-- Two planes in space, `x + 2 z = 1` and `x + y + 4 z = 0`: the first pivot is `4 z`, the second one is `y`; the result is
`z + x / 2 - 1 / 2`, `y - x + 2`. -/
example : ∃ (A : ℕ → ℕ → ℚ) (B : ℕ → ℕ → ℚ) (P : ℕ → ℕ), (∀ x, Solves 2 3 A 1 x ↔ x 0 + 2 * x 2 - 1 = 0 ∧ x 0 + x 1 + 4 * x 2 = 0) ∧
    rref true 2 3 A = .ok (2, B, P) ∧ P 0 = 2 ∧ P 1 = 1 ∧ B 1 2 = -1 ∧
    ∀ x, Solves 2 3 A 1 x ↔ Solves 2 3 B 1 fun c => x (P c) := by
  set A : ℕ → ℕ → ℚ := fun i c => if i = 0 then (if c = 0 then 1 else if c = 2 then 2 else if c = 3 then -1 else 0) else
    (if c = 1 ∨ c = 0 then 1 else if c = 2 then 4 else 0) with hA
  have hs : rrefShow 3 (rref true 2 3 A) = .ok ([[1, 0, 1 / 2, -1 / 2], [0, 1, -1, 2]], [2, 1, 0]) := by
    rw [hA]
    decide +kernel
  match hr : rref true 2 3 A with
  | .error e => rw [hr] at hs; simp [rrefShow] at hs
  | .ok (r, B, P) =>
    rw [hr] at hs
    simp only [rrefShow, Except.ok.injEq, Prod.mk.injEq] at hs
    have hr2 : r = 2 := by simpa using congrArg List.length hs.1
    subst hr2
    have hB := hs.1
    have hP := hs.2
    simp [List.range_succ] at hB hP
    refine ⟨A, B, P, fun x => ?_, hr, hP.1, hP.2.1, hB.2.2.2.1, fun x => ?_⟩
    · constructor
      · intro h
        have a := h 0 (by norm_num)
        have b := h 1 (by norm_num)
        simp [hA, Finset.sum_range_succ] at a b
        exact ⟨by linarith, by linarith⟩
      · rintro ⟨a, b⟩ i hi
        have : i = 0 ∨ i = 1 := by omega
        rcases this with rfl | rfl <;> simp [hA, Finset.sum_range_succ] <;> linarith
    · obtain ⟨h3, h4⟩ := C70_solutions_partial 2 3 A 2 B P hr
      exact ⟨h3 x, h4 (Or.inl rfl) x⟩

end YRoots.Legacy
