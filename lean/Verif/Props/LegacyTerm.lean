import Verif.Model.TermOrder
import Mathlib.Order.WellQuasiOrder
import Mathlib.Order.WellFoundedSet
import Mathlib.Data.List.GetD
import Mathlib.Algebra.Order.BigOperators.Group.List
import Mathlib.Algebra.Order.Group.Nat
import Mathlib.Tactic.Linarith

/-!
# C59: `Term` is a monomial order

On tuples of the same length each of the three orders is a strict total order, compatible with the multiplication of
monomials, with `1` as least element, and without infinite descending sequences; each is the order of that name in the
textbooks.  On tuples of different lengths it is not an order.
-/

namespace YRoots.Legacy

/-! ### Specification -/

/-- A monomial order on the exponent tuples of length `n`. -/
structure IsMonomialOrder (n : ℕ) (lt : List ℕ → List ℕ → Prop) : Prop where
  irrefl : ∀ a, a.length = n → ¬ lt a a
  trans : ∀ a b c, a.length = n → b.length = n → c.length = n → lt a b → lt b c → lt a c
  total : ∀ a b, a.length = n → b.length = n → a ≠ b → lt a b ∨ lt b a
  mul : ∀ a b c, a.length = n → b.length = n → c.length = n →
    (lt (List.zipWith (· + ·) a c) (List.zipWith (· + ·) b c) ↔ lt a b)
  one : ∀ a, a.length = n → a ≠ List.replicate n 0 → lt (List.replicate n 0) a
  wf : ¬ ∃ f : ℕ → List ℕ, (∀ k, (f k).length = n) ∧ ∀ k, lt (f (k + 1)) (f k)

/-- The first position where the tuples differ has the smaller exponent in `a`. -/
def LexLT (a b : List ℕ) : Prop := ∃ k < a.length, a.getD k 0 < b.getD k 0 ∧ ∀ j < k, a.getD j 0 = b.getD j 0

/-- The last position where the tuples differ has the larger exponent in `a`. -/
def RevLexLT (a b : List ℕ) : Prop :=
  ∃ k < a.length, b.getD k 0 < a.getD k 0 ∧ ∀ j < a.length, k < j → a.getD j 0 = b.getD j 0

/-- The textbook definitions. -/
def TermSpec : TermOrder → List ℕ → List ℕ → Prop
  | .grevlex, a, b => a.sum < b.sum ∨ a.sum = b.sum ∧ RevLexLT a b
  | .lexographic, a, b => LexLT a b
  | .grlex, a, b => a.sum < b.sum ∨ a.sum = b.sum ∧ LexLT a b

/-! ### Helper lemmas -/

theorem revScan_eq : ∀ a b : List ℕ, revScan a b = lexScan b a
  | [], [] => rfl
  | [], _ :: _ => rfl
  | _ :: _, [] => rfl
  | i :: a, j :: b => by
    unfold revScan lexScan
    rcases lt_trichotomy i j with h | h | h
    · simp [h, h.not_gt]
    · simp [h, revScan_eq a b]
    · simp [h, h.not_gt]

theorem lexScan_iff : ∀ a b : List ℕ, a.length = b.length → (lexScan a b = true ↔ LexLT a b)
  | [], [], _ => by simp [lexScan, LexLT]
  | [], _ :: _, h => by simp at h
  | _ :: _, [], h => by simp at h
  | i :: a, j :: b, h => by
    have ih := lexScan_iff a b (by simpa using h)
    unfold lexScan
    rcases lt_trichotomy i j with c | c | c
    · simp only [if_pos c, true_iff]
      exact ⟨0, by simp, by simpa using c, by simp⟩
    · subst c
      simp only [lt_irrefl, if_false, gt_iff_lt, ih]
      constructor
      · rintro ⟨k, hk, h1, h2⟩
        refine ⟨k + 1, by simpa using hk, by simpa using h1, ?_⟩
        rintro (_ | j) hj
        · simp
        · simpa using h2 j (by omega)
      · rintro ⟨_ | k, hk, h1, h2⟩
        · simp at h1
        · refine ⟨k, by simpa using hk, by simpa using h1, fun j hj => ?_⟩
          simpa using h2 (j + 1) (by omega)
    · simp only [if_neg c.not_gt, gt_iff_lt, if_pos c]
      simp only [Bool.false_eq_true, false_iff]
      rintro ⟨_ | k, hk, h1, h2⟩
      · simp at h1; omega
      · have := h2 0 (by omega); simp at this; omega

theorem lexScan_irrefl : ∀ a, lexScan a a = false
  | [] => rfl
  | i :: a => by simp [lexScan, lexScan_irrefl a]

theorem lexScan_trans : ∀ a b c : List ℕ, a.length = b.length → b.length = c.length →
    lexScan a b = true → lexScan b c = true → lexScan a c = true
  | [], [], _, _, _, h, _ => by simp [lexScan] at h
  | [], _ :: _, _, h, _, _, _ => by simp at h
  | _ :: _, [], _, h, _, _, _ => by simp at h
  | _ :: _, _ :: _, [], _, h, _, _ => by simp at h
  | i :: a, j :: b, k :: c, h1, h2, h3, h4 => by
    have ih := lexScan_trans a b c (by simpa using h1) (by simpa using h2)
    unfold lexScan at h3 h4 ⊢
    split_ifs at h3 h4 ⊢ <;> first | rfl | omega | exact ih h3 h4

theorem lexScan_total : ∀ a b : List ℕ, a.length = b.length → a ≠ b → lexScan a b = true ∨ lexScan b a = true
  | [], [], _, h => absurd rfl h
  | [], _ :: _, h, _ => by simp at h
  | _ :: _, [], h, _ => by simp at h
  | i :: a, j :: b, h, hne => by
    unfold lexScan
    rcases lt_trichotomy i j with c | c | c
    · simp [c]
    · subst c
      simpa using lexScan_total a b (by simpa using h) (by rintro rfl; exact hne rfl)
    · simp [c, c.not_gt]

theorem lexScan_add : ∀ a b c : List ℕ, a.length = b.length → b.length = c.length →
    lexScan (List.zipWith (· + ·) a c) (List.zipWith (· + ·) b c) = lexScan a b
  | [], [], _, _, _ => by simp [lexScan]
  | [], _ :: _, _, h, _ => by simp at h
  | _ :: _, [], _, h, _ => by simp at h
  | _ :: _, _ :: _, [], _, h => by simp at h
  | i :: a, j :: b, k :: c, h1, h2 => by
    have ih := lexScan_add a b c (by simpa using h1) (by simpa using h2)
    simp only [List.zipWith_cons_cons, lexScan, ih]
    split_ifs <;> first | rfl | omega

theorem lexScan_zero : ∀ a : List ℕ, a ≠ List.replicate a.length 0 → lexScan (List.replicate a.length 0) a = true
  | [], h => by simp at h
  | i :: a, h => by
    rw [List.length_cons, List.replicate_succ]
    unfold lexScan
    rcases Nat.eq_zero_or_pos i with c | c
    · subst c
      simp only [lt_irrefl, if_false, gt_iff_lt]
      exact lexScan_zero a fun e => h (by rw [List.length_cons, List.replicate_succ, ← e])
    · simp [c]

theorem sum_zipWith_add : ∀ a c : List ℕ, a.length = c.length → (List.zipWith (· + ·) a c).sum = a.sum + c.sum
  | [], [], _ => rfl
  | [], _ :: _, h => by simp at h
  | _ :: _, [], h => by simp at h
  | i :: a, j :: c, h => by
    simp only [List.zipWith_cons_cons, List.sum_cons, sum_zipWith_add a c (by simpa using h)]
    omega

theorem graded_iff (s : List ℕ → List ℕ → Bool) (a b : List ℕ) :
    (if a.sum < b.sum then true else if a.sum > b.sum then false else s a b) = true ↔
      a.sum < b.sum ∨ a.sum = b.sum ∧ s a b = true := by
  rcases lt_trichotomy a.sum b.sum with c | c | c
  · simp [c]
  · simp [c]
  · simp [c, c.not_gt, c.ne']

theorem sum_eq_zero_replicate {n : ℕ} {a : List ℕ} (h : a.length = n) (h0 : a.sum = 0) : a = List.replicate n 0 := by
  rw [List.eq_replicate_iff]
  refine ⟨h, fun x hx => ?_⟩
  exact List.sum_eq_zero_iff.1 h0 x hx

/-- Dickson's lemma: an order with the first five properties has no infinite descending sequence. -/
theorem no_descent {n : ℕ} {lt : List ℕ → List ℕ → Prop} (irrefl : ∀ a, a.length = n → ¬ lt a a)
    (trans : ∀ a b c, a.length = n → b.length = n → c.length = n → lt a b → lt b c → lt a c)
    (mul : ∀ a b c, a.length = n → b.length = n → c.length = n →
      (lt (List.zipWith (· + ·) a c) (List.zipWith (· + ·) b c) ↔ lt a b))
    (one : ∀ a, a.length = n → a ≠ List.replicate n 0 → lt (List.replicate n 0) a) :
    ¬ ∃ f : ℕ → List ℕ, (∀ k, (f k).length = n) ∧ ∀ k, lt (f (k + 1)) (f k) := by
  rintro ⟨f, hl, hd⟩
  have hdec : ∀ i j, i < j → lt (f j) (f i) := by
    intro i j hij
    induction j, hij using Nat.le_induction with
    | base => exact hd i
    | succ j _ ih => exact trans _ _ _ (hl _) (hl _) (hl _) (hd j) ih
  let g : ℕ → Fin n → ℕ := fun k i => (f k).getD i 0
  obtain ⟨i, j, hij, hle⟩ := wellQuasiOrdered_le g
  have key : ∀ a b : List ℕ, a.length = n → b.length = n → (∀ k : Fin n, a.getD k 0 ≤ b.getD k 0) →
      ∃ c, c.length = n ∧ List.zipWith (· + ·) c a = b := by
    intro a b ha hb h
    refine ⟨List.zipWith (· - ·) b a, by simp [ha, hb], ?_⟩
    apply List.ext_getElem
    · simp [ha, hb]
    · intro k h1 h2
      have h3 : a.getD k 0 ≤ b.getD k 0 := h ⟨k, by omega⟩
      simp only [List.getElem_zipWith]
      rw [List.getD_eq_getElem _ _ (by simpa [ha, hb] using h2), List.getD_eq_getElem _ _ (by simpa [ha, hb] using h2)] at h3
      omega
  obtain ⟨c, hc, hb⟩ := key (f i) (f j) (hl i) (hl j) hle
  have hlt := hdec i j hij
  by_cases h0 : c = List.replicate n 0
  · have : f j = f i := by
      rw [← hb, h0]
      apply List.ext_getElem
      · simp [hl]
      · intro k h1 h2; simp
    rw [this] at hlt
    exact irrefl _ (hl i) hlt
  · have h1 := (mul _ _ (f i) (by simp) hc (hl i)).2 (one c hc h0)
    rw [hb] at h1
    have h2 : List.zipWith (· + ·) (List.replicate n 0) (f i) = f i := by
      apply List.ext_getElem
      · simp [hl]
      · intro k h1 h2; simp
    rw [h2] at h1
    exact irrefl _ (hl i) (trans _ _ _ (hl i) (hl j) (hl i) h1 hlt)

theorem IsMonomialOrder.of {n : ℕ} {lt : List ℕ → List ℕ → Prop} (irrefl : ∀ a, a.length = n → ¬ lt a a)
    (trans : ∀ a b c, a.length = n → b.length = n → c.length = n → lt a b → lt b c → lt a c)
    (total : ∀ a b, a.length = n → b.length = n → a ≠ b → lt a b ∨ lt b a)
    (mul : ∀ a b c, a.length = n → b.length = n → c.length = n →
      (lt (List.zipWith (· + ·) a c) (List.zipWith (· + ·) b c) ↔ lt a b))
    (one : ∀ a, a.length = n → a ≠ List.replicate n 0 → lt (List.replicate n 0) a) : IsMonomialOrder n lt :=
  ⟨irrefl, trans, total, mul, one, no_descent irrefl trans mul one⟩

theorem reverse_zipWith_add {a c : List ℕ} (h : a.length = c.length) :
    (List.zipWith (· + ·) a c).reverse = List.zipWith (· + ·) a.reverse c.reverse :=
  List.reverse_zipWith h

/-! ### The properties -/

/-- C59: each order of `Term.__lt__` is the textbook order on tuples of the same length. -/
theorem C59_textbook (o : TermOrder) (a b : List ℕ) (h : a.length = b.length) : termLt o a b = true ↔ TermSpec o a b := by
  cases o with
  | lexographic => exact lexScan_iff a b h
  | grlex =>
    unfold termLt TermSpec
    rw [graded_iff lexScan, lexScan_iff a b h]
  | grevlex =>
    unfold termLt TermSpec
    rw [graded_iff (fun a b => revScan a.reverse b.reverse)]
    show _ ∨ _ ∧ revScan a.reverse b.reverse = true ↔ _
    rw [revScan_eq, lexScan_iff _ _ (by simp [h])]
    have hg : ∀ (l : List ℕ) k, k < l.length → l.reverse.getD k 0 = l.getD (l.length - 1 - k) 0 := by
      intro l k hk
      rw [List.getD_eq_getElem _ _ (by simpa using hk), List.getD_eq_getElem _ _ (by omega), List.getElem_reverse]
    have : LexLT b.reverse a.reverse ↔ RevLexLT a b := by
      constructor
      · rintro ⟨k, hk, h1, h2⟩
        simp only [List.length_reverse] at hk
        rw [hg b k hk, hg a k (by omega)] at h1
        refine ⟨a.length - 1 - k, by omega, by rwa [← h] at h1, fun j hj hkj => ?_⟩
        have := h2 (a.length - 1 - j) (by omega)
        rw [hg b _ (by omega), hg a _ (by omega)] at this
        rw [show a.length - 1 - (a.length - 1 - j) = j by omega, show b.length - 1 - (a.length - 1 - j) = j by omega] at this
        exact this.symm
      · rintro ⟨k, hk, h1, h2⟩
        refine ⟨a.length - 1 - k, by simp; omega, ?_, fun j hj => ?_⟩
        · rw [hg b _ (by omega), hg a _ (by omega)]
          rwa [show a.length - 1 - (a.length - 1 - k) = k by omega, show b.length - 1 - (a.length - 1 - k) = k by omega]
        · rw [hg b _ (by omega), hg a _ (by omega), ← h]
          exact (h2 (a.length - 1 - j) (by omega) (by omega)).symm
    rw [this]

/-- C59: each order of `Term.__lt__` is a monomial order on the tuples of one length. -/
theorem C59_monomial_order (o : TermOrder) (n : ℕ) : IsMonomialOrder n fun a b => termLt o a b = true := by
  cases o with
  | lexographic =>
    refine .of (fun a _ => by simp [termLt, lexScan_irrefl]) ?_ ?_ ?_ ?_
    · intro a b c ha hb hc; exact lexScan_trans a b c (by omega) (by omega)
    · intro a b ha hb; exact lexScan_total a b (by omega)
    · intro a b c ha hb hc
      simp only [termLt, lexScan_add a b c (by omega) (by omega)]
    · intro a ha h; subst ha; exact lexScan_zero a h
  | grlex =>
    have e : ∀ a b, termLt .grlex a b = true ↔ a.sum < b.sum ∨ a.sum = b.sum ∧ lexScan a b = true := fun a b =>
      graded_iff lexScan a b
    refine .of (fun a _ => by simp [e, lexScan_irrefl]) ?_ ?_ ?_ ?_
    · intro a b c ha hb hc
      simp only [e]
      rintro (h | ⟨h, h'⟩) (k | ⟨k, k'⟩)
      · exact .inl (by omega)
      · exact .inl (by omega)
      · exact .inl (by omega)
      · exact .inr ⟨by omega, lexScan_trans a b c (by omega) (by omega) h' k'⟩
    · intro a b ha hb hne
      simp only [e]
      rcases lt_trichotomy a.sum b.sum with h | h | h
      · exact .inl (.inl h)
      · rcases lexScan_total a b (by omega) hne with k | k
        · exact .inl (.inr ⟨h, k⟩)
        · exact .inr (.inr ⟨h.symm, k⟩)
      · exact .inr (.inl h)
    · intro a b c ha hb hc
      simp only [e, lexScan_add a b c (by omega) (by omega), sum_zipWith_add a c (by omega),
        sum_zipWith_add b c (by omega)]
      simp
    · intro a ha h
      simp only [e]
      refine .inl ?_
      rw [List.sum_replicate, nsmul_zero]
      exact Nat.pos_of_ne_zero fun h0 => h (sum_eq_zero_replicate ha h0)
  | grevlex =>
    have e : ∀ a b, termLt .grevlex a b = true ↔
        a.sum < b.sum ∨ a.sum = b.sum ∧ lexScan b.reverse a.reverse = true := fun a b => by
      rw [← revScan_eq]; exact graded_iff (fun a b => revScan a.reverse b.reverse) a b
    refine .of (fun a _ => by simp [e, lexScan_irrefl]) ?_ ?_ ?_ ?_
    · intro a b c ha hb hc
      simp only [e]
      rintro (h | ⟨h, h'⟩) (k | ⟨k, k'⟩)
      · exact .inl (by omega)
      · exact .inl (by omega)
      · exact .inl (by omega)
      · exact .inr ⟨by omega, lexScan_trans _ _ _ (by simp; omega) (by simp; omega) k' h'⟩
    · intro a b ha hb hne
      simp only [e]
      rcases lt_trichotomy a.sum b.sum with h | h | h
      · exact .inl (.inl h)
      · rcases lexScan_total a.reverse b.reverse (by simp; omega) (by simpa using hne) with k | k
        · exact .inr (.inr ⟨h.symm, k⟩)
        · exact .inl (.inr ⟨h, k⟩)
      · exact .inr (.inl h)
    · intro a b c ha hb hc
      simp only [e, sum_zipWith_add a c (by omega), sum_zipWith_add b c (by omega)]
      rw [reverse_zipWith_add (by omega), reverse_zipWith_add (by omega),
        lexScan_add _ _ _ (by simp; omega) (by simp; omega)]
      simp
    · intro a ha h
      simp only [e]
      refine .inl ?_
      rw [List.sum_replicate, nsmul_zero]
      exact Nat.pos_of_ne_zero fun h0 => h (sum_eq_zero_replicate ha h0)

/-- C59: on tuples of the same length the other comparison operators belong to `<`. -/
theorem C59_operators (a b : List ℕ) (h : a.length = b.length) :
    (termGt a b = true ↔ termLt .grevlex b a = true) ∧ (termGe a b = true ↔ ¬ termLt .grevlex a b = true) ∧
      (termLe a b = true ↔ ¬ termLt .grevlex b a = true) := by
  have O := C59_monomial_order .grevlex b.length
  have asym : termLt .grevlex a b = true → ¬ termLt .grevlex b a = true := fun h1 h2 =>
    O.irrefl a h (O.trans a b a h rfl h h1 h2)
  have irr : termLt .grevlex b b ≠ true := O.irrefl b rfl
  simp only [termGt, termGe, termLe, termEq]
  by_cases he : a = b
  · subst he; simp [irr]
  · rcases O.total a b h rfl he with h1 | h1
    · have := asym h1; simp [h1, he, this]
    · have : ¬ termLt .grevlex a b = true := fun h2 => asym h2 h1
      simp [h1, he, this]

example : termGt [2, 1, 0] [1, 1, 1] = true ∧ termLe [2, 1, 0] [1, 1, 1] = false :=
  ⟨((C59_operators [2, 1, 0] [1, 1, 1] rfl).1).2 (by decide +kernel), by decide +kernel⟩

/-- C59 is false for tuples of different lengths: each of `x` and `x₂` is larger than the other. -/
theorem C59_lengths_false : ∃ a b : List ℕ, termGt a b = true ∧ termGt b a = true :=
  ⟨[1], [0, 1], by decide⟩

/-- `x²y` and `xyz` in three variables: `xyz` is smaller in all three orders. -/
example : termLt .grevlex [1, 1, 1] [2, 1, 0] = true ∧ termLt .lexographic [1, 1, 1] [2, 1, 0] = true ∧
    termLt .grlex [1, 1, 1] [2, 1, 0] = true ∧ termGe [2, 1, 0] [1, 1, 1] = true := by decide

/-- The graded orders differ: `x z²` against `y³`. -/
example : termLt .grevlex [1, 0, 2] [0, 3, 0] = true ∧ termLt .grlex [1, 0, 2] [0, 3, 0] = false := by decide

end YRoots.Legacy
