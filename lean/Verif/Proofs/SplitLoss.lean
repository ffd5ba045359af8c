import Verif.Proofs.TransformExtra

/-!
# Row dropping when an interval is cut in the middle

The right half of `T_129` (`α = β = 1/2`) in the default transformation, computed with integers.
-/

namespace YRoots

namespace SplitLoss

/-- Sum of two coefficient lists of different length. -/
def addL : List ℤ → List ℤ → List ℤ
  | [], l => l
  | a :: s, [] => a :: s
  | a :: s, b :: t => (a + b) :: addL s t

theorem addL_getD : ∀ (s t : List ℤ) (i : ℕ), (addL s t).getD i 0 = s.getD i 0 + t.getD i 0
  | [], t, i => by simp [addL]
  | a :: s, [], i => by simp [addL]
  | a :: s, b :: t, 0 => by simp [addL]
  | a :: s, b :: t, i + 1 => by simpa [addL] using addL_getD s t i

theorem addL_length : ∀ s t : List ℤ, (addL s t).length = max s.length t.length
  | [], t => by simp [addL]
  | a :: s, [] => by simp [addL]
  | a :: s, b :: t => by simp [addL, addL_length s t]

/-- Shift to the right, with the doubling of the first entry. -/
def up : List ℤ → List ℤ
  | [] => []
  | c :: t => 0 :: 2 * c :: t

/-- The next column without dropping, denominators taken out. -/
def full (P C : List ℤ) : List ℤ :=
  addL (P.map fun z => -4 * z) (addL (up C) (addL C.tail (C.map fun z => 2 * z)))

/-- The next column. -/
def hStep (k : ℕ) (P C : List ℤ) : List ℤ :=
  if 2 ^ (k + 2) < (C.getLastD 0).natAbs * 10 ^ 16 then full P C else (full P C).take C.length

/-- The columns `k` and `k + 1`, with denominators `2^k` and `2^(k+1)`. -/
def hRun : ℕ → List ℤ × List ℤ
  | 0 => ([1], [1, 1])
  | m + 1 => ((hRun m).2, hStep m (hRun m).1 (hRun m).2)

/-! ### Evaluation by the kernel -/

/-- `f n`, after the evaluation of `n`. -/
def forceN {α : Type} (n : ℕ) (f : ℕ → α) : α := Nat.rec (f 0) (fun m _ => f (m + 1)) n

theorem forceN_eq {α : Type} (n : ℕ) (f : ℕ → α) : forceN n f = f n := by
  cases n <;> rfl

/-- `f z`, after the evaluation of `z`. -/
def forceZ {α : Type} (z : ℤ) (f : ℤ → α) : α :=
  match z with
  | .ofNat n => forceN n fun n => f (.ofNat n)
  | .negSucc n => forceN n fun n => f (.negSucc n)

theorem forceZ_eq {α : Type} (z : ℤ) (f : ℤ → α) : forceZ z f = f z := by
  cases z <;> simp [forceZ, forceN_eq]

/-- `f l`, after the evaluation of the entries. -/
def forceL {α : Type} : List ℤ → (List ℤ → α) → α
  | [], f => f []
  | a :: l, f => forceZ a fun a => forceL l fun l => f (a :: l)

theorem forceL_eq {α : Type} : ∀ (l : List ℤ) (f : List ℤ → α), forceL l f = f l
  | [], f => rfl
  | a :: l, f => by rw [forceL, forceZ_eq, forceL_eq l]

/-- `hRun` entry by entry. -/
def hGo (test : List ℤ → Bool) : ℕ → ℕ → List ℤ → List ℤ → Bool
  | 0, _, _, C => test C
  | r + 1, k, P, C => forceL (hStep k P C) fun C' => hGo test r (k + 1) C C'

theorem hGo_eq (test : List ℤ → Bool) (r k : ℕ) : hGo test r k (hRun k).1 (hRun k).2 = test (hRun (k + r)).2 := by
  induction r generalizing k with
  | zero => rfl
  | succ r ih =>
    rw [hGo, forceL_eq]
    have := ih (k + 1)
    rw [show k + 1 + r = k + (r + 1) by ring] at this
    exact this

theorem hRun_sum : (130 : ℤ) * 2 ^ 129 < 2 ^ 52 * (2 ^ 129 - (hRun 128).2.sum) := by
  have h := hGo_eq (fun C => decide ((130 : ℤ) * 2 ^ 129 < 2 ^ 52 * (2 ^ 129 - C.sum))) 128 0
  have h2 : hGo (fun C => decide ((130 : ℤ) * 2 ^ 129 < 2 ^ 52 * (2 ^ 129 - C.sum))) 128 0 (hRun 0).1 (hRun 0).2 = true := by
    decide +kernel
  rw [h2, Nat.zero_add] at h
  exact of_decide_eq_true h.symm

/-! ### The run of the transformation -/

variable {K : Type*} [Field K]

theorem up_getD (C : List ℤ) (i : ℕ) :
    (((up C).getD i 0 + C.tail.getD i 0 : ℤ) : K) = mulX (fun j => ((C.getD j 0 : ℤ) : K)) i := by
  cases C with
  | nil => rcases i with _ | _ | i <;> simp [up, mulX]
  | cons c t => rcases i with _ | _ | i <;> simp [up, mulX]

theorem full_getD (P C : List ℤ) (i : ℕ) :
    (((full P C).getD i 0 : ℤ) : K) =
      -4 * ((P.getD i 0 : ℤ) : K) + mulX (fun j => ((C.getD j 0 : ℤ) : K)) i + 2 * ((C.getD i 0 : ℤ) : K) := by
  have hm : ∀ (l : List ℤ) (a : ℤ), (l.map fun z => a * z).getD i 0 = a * l.getD i 0 := by
    intro l a
    rw [List.getD_eq_getElem?_getD, List.getD_eq_getElem?_getD, List.getElem?_map]
    cases l[i]? <;> simp
  unfold full
  rw [addL_getD, addL_getD, addL_getD, hm, hm, ← up_getD]
  push_cast
  ring

theorem getD_ge {l : List ℤ} {i : ℕ} (h : l.length ≤ i) : l.getD i 0 = 0 := by
  rw [List.getD_eq_getElem?_getD, List.getElem?_eq_none h, Option.getD_none]

theorem full_length {P C : List ℤ} (h : P.length ≤ C.length) (hC : C ≠ []) : (full P C).length = C.length + 1 := by
  unfold full
  obtain ⟨c, t, rfl⟩ := List.exists_cons_of_ne_nil hC
  simp only [addL_length, List.length_map, up, List.length_cons, List.tail_cons] at h ⊢
  omega

theorem mulX_div (f g : ℕ → K) (D : K) (h : ∀ j, g j = f j / D) (i : ℕ) : mulX g i = mulX f i / D := by
  rcases i with _ | _ | i
  · simp [mulX, h]
  · simp [mulX, h]; ring
  · simp [mulX, h]; ring

variable [LinearOrder K] [IsStrictOrderedRing K] {V : Type*} [AddCommGroup V] [Module K V]

/-- The run of the default transformation with `α = β = 1/2` is `hRun`. -/
theorem tRun_half (coeffs : ℕ → V) (m : ℕ) :
    let s := tRun ((1 : K) / 10 ^ 16) coeffs (1 / 2) (1 / 2) m
    s.maxRow = (hRun m).2.length ∧ (hRun m).1.length ≤ (hRun m).2.length ∧
      (∀ i, s.arr1 i = ((hRun m).1.getD i 0 : ℤ) / (2 : K) ^ m) ∧
      ∀ i, s.arr2 i = ((hRun m).2.getD i 0 : ℤ) / (2 : K) ^ (m + 1) := by
  induction m with
  | zero =>
    simp only [tRun_zero, tInit, hRun]
    refine ⟨by simp, by simp, fun i => ?_, fun i => ?_⟩
    · rcases i with _ | i <;> simp
    · rcases i with _ | _ | i <;> simp
  | succ m ih =>
    obtain ⟨h1, h2, h3, h4⟩ := ih
    have hs := tRun_supp ((1 : K) / 10 ^ 16) coeffs (1 / 2) (1 / 2) m
    have hlen : 2 ≤ (hRun m).2.length := h1 ▸ hs.two_le
    have hne : (hRun m).2 ≠ [] := by intro h; rw [h] at hlen; simp at hlen
    obtain ⟨δ, hd, ha, -⟩ := tStep_spec ((1 : K) / 10 ^ 16) coeffs (1 / 2) (1 / 2) _ (m + 2) hs
    have hsupp' := tRun_supp ((1 : K) / 10 ^ 16) coeffs (1 / 2) (1 / 2) (m + 1)
    simp only [tRun_succ] at hsupp' ⊢
    have hmax : (tStep ((1 : K) / 10 ^ 16) coeffs (1 / 2) (1 / 2) (tRun ((1 : K) / 10 ^ 16) coeffs (1 / 2) (1 / 2) m)
        (m + 2)).maxRow = (hRun (m + 1)).2.length := by
      have hlast : (hRun m).2.getLastD 0 = (hRun m).2.getD ((hRun m).2.length - 1) 0 := by
        rw [List.getLastD_eq_getLast?, List.getLast?_eq_getElem?, List.getD_eq_getElem?_getD]
      have hiff : |(1 : K) / 2 * (tRun ((1 : K) / 10 ^ 16) coeffs (1 / 2) (1 / 2) m).arr2
          ((tRun ((1 : K) / 10 ^ 16) coeffs (1 / 2) (1 / 2) m).maxRow - 1)| > 1 / 10 ^ 16 ↔
          2 ^ (m + 2) < ((hRun m).2.getLastD 0).natAbs * 10 ^ 16 := by
        rw [h1, h4, hlast]
        generalize (hRun m).2.getD ((hRun m).2.length - 1) 0 = z
        rw [show (1 : K) / 2 * ((z : K) / 2 ^ (m + 1)) = (z : K) / 2 ^ (m + 2) by rw [pow_succ 2 (m + 1)]; field_simp,
          abs_div, abs_of_pos (show (0 : K) < 2 ^ (m + 2) by positivity), gt_iff_lt,
          div_lt_div_iff₀ (by positivity) (by positivity), one_mul, ← Int.cast_abs, Int.abs_eq_natAbs]
        exact_mod_cast Iff.rfl
      simp only [tStep, hiff, hRun, hStep]
      split
      · rw [full_length h2 hne, h1]
      · rw [List.length_take, full_length h2 hne, h1]; omega
    refine ⟨hmax, ?_, fun i => ?_, fun i => ?_⟩
    · simp only [hRun, hStep]
      split
      · rw [full_length h2 hne]; omega
      · rw [List.length_take, full_length h2 hne]; omega
    · simpa [tStep, hRun] using h4 i
    · by_cases hi : (hRun (m + 1)).2.length ≤ i
      · rw [hsupp'.z2 i (by rw [hmax]; exact hi), getD_ge hi]; simp
      · rw [not_le] at hi
        have hget : (hRun (m + 1)).2.getD i 0 = (full (hRun m).1 (hRun m).2).getD i 0 := by
          simp only [hRun, hStep] at hi ⊢
          split at hi
          · rename_i h; rw [if_pos h]
          · rename_i h
            rw [if_neg h, List.getD_eq_getElem?_getD, List.getD_eq_getElem?_getD, List.getElem?_take]
            rw [List.length_take] at hi
            rw [if_pos (by omega)]
        have hδ : (if i = (tRun ((1 : K) / 10 ^ 16) coeffs (1 / 2) (1 / 2) m).maxRow then δ else 0) = 0 := by
          rcases hd with ⟨h, -⟩ | ⟨-, h⟩
          · simp [h]
          · rw [if_neg]; rw [hmax] at h; omega
        rw [ha, hδ, hget, full_getD, h3, mulX_div _ _ _ h4, h4]
        rw [pow_succ 2 (m + 1), pow_succ 2 m]
        field_simp
        ring

end SplitLoss

end YRoots
