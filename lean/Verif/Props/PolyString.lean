import Verif.Model.PolyString
import Mathlib.Data.List.GetD
import Mathlib.Data.List.Range
import Mathlib.Data.List.Forall2
import Mathlib.Data.List.Nodup
import Mathlib.Algebra.BigOperators.Fin
import Mathlib.Algebra.BigOperators.Intervals
import Mathlib.Algebra.BigOperators.Ring.Finset
import Mathlib.Data.Rat.Defs
import Mathlib.Algebra.Field.Rat

/-!
# C67: `makePolyCoeffMatrix` reads the polynomial that is written in the string
-/

namespace YRoots.Legacy

variable {K : Type}

/-! ### Specification: the syntax of the documentation of the function -/

/-- One monomial: the text of the coefficient, its value, and the factors `(v, power)`; `none` stands for a missing `^power`. -/
structure TermSrc (K : Type) where
  text : List Char
  coef : K
  factors : List (ℕ × Option ℕ)

/-- The exponent of a factor. -/
def factorPow (f : ℕ × Option ℕ) : ℕ := f.2.getD 1

/-- `x3` or `x3^2`. -/
def factorStr : ℕ × Option ℕ → List Char
  | (v, none) => 'x' :: Nat.toDigits 10 v
  | (v, some p) => 'x' :: (Nat.toDigits 10 v ++ '^' :: Nat.toDigits 10 p)

/-- The monomial as a string. -/
def TermSrc.str (t : TermSrc K) : List Char := t.text ++ ['*'].intercalate (t.factors.map factorStr)

/-- The polynomial as a string. -/
def polyStr (ts : List (TermSrc K)) : List Char := ['+'].intercalate (ts.map TermSrc.str)

/-- The total exponent of the variable `i`. -/
def TermSrc.expo (t : TermSrc K) (i : ℕ) : ℕ := (t.factors.map fun f => if f.1 = i then factorPow f else 0).sum

/-- The value of the monomial. -/
def TermSrc.value [CommRing K] (t : TermSrc K) (X : ℕ → K) : K := t.coef * (t.factors.map fun f => X f.1 ^ factorPow f).prod

/-- The text of the coefficient denotes the coefficient: nothing for 1, `-` for -1 (both before a variable), or a number. -/
structure TermSrc.WF [Ring K] (P : PyParse K) (t : TermSrc K) : Prop where
  noX : 'x' ∉ t.text
  noPlus : '+' ∉ t.text
  coef : (t.text = [] ∧ t.coef = 1 ∧ t.factors ≠ []) ∨ (t.text = ['-'] ∧ t.coef = -1 ∧ t.factors ≠ []) ∨
    (t.text ≠ [] ∧ t.text ≠ ['-'] ∧ P.float t.text = some t.coef)

/-- Number of variables: one more than the largest index, at least one. -/
def numVars (ts : List (TermSrc K)) : ℕ := (ts.flatMap fun t => t.factors.map fun f => f.1 + 1).foldl max 1

/-- The degree in the variable `i`. -/
def degIn (ts : List (TermSrc K)) (i : ℕ) : ℕ := (ts.map fun t => t.expo i).foldl max 0

/-! ### Helper lemmas -/

theorem not_mem_digits (n : ℕ) {c : Char} (hc : c.isDigit = false) : c ∉ Nat.toDigits 10 n := fun h => by
  have := Nat.isDigit_of_mem_toDigits (by decide) (by decide) h
  simp [hc] at this

theorem not_mem_factorStr (f : ℕ × Option ℕ) {c : Char} (hc : c.isDigit = false) (h1 : c ≠ 'x') (h2 : c ≠ '^') : c ∉ factorStr f := by
  obtain ⟨v, p⟩ := f
  cases p <;> simp [factorStr, h1, h2, not_mem_digits _ hc]

theorem foldl_max_le_iff (l : List ℕ) (a N : ℕ) : l.foldl max a ≤ N ↔ a ≤ N ∧ ∀ x ∈ l, x ≤ N := by
  induction l generalizing a with
  | nil => simp
  | cons b l ih =>
    rw [List.foldl_cons, ih]
    simp [and_assoc]

theorem le_foldl_max {l : List ℕ} {a x : ℕ} (h : x ∈ l) : x ≤ l.foldl max a := ((foldl_max_le_iff l a _).1 le_rfl).2 x h

theorem le_foldl_max' (l : List ℕ) (a : ℕ) : a ≤ l.foldl max a := ((foldl_max_le_iff l a _).1 le_rfl).1

/-- Growing the list of exponents and setting one. -/
def growSet (l : List ℕ) (f : ℕ × Option ℕ) : List ℕ := (l ++ List.replicate (f.1 + 1 - l.length) 0).set f.1 (factorPow f)

theorem growSet_length (l : List ℕ) (f : ℕ × Option ℕ) : (growSet l f).length = max l.length (f.1 + 1) := by
  simp [growSet]
  omega

theorem growSet_getD (l : List ℕ) (f : ℕ × Option ℕ) (i : ℕ) :
    (growSet l f).getD i 0 = if f.1 = i then factorPow f else l.getD i 0 := by
  unfold growSet
  rw [List.getD_eq_getElem?_getD, List.getElem?_set]
  by_cases h : f.1 = i
  · rw [if_pos h, if_pos h, if_pos (by simp; omega)]
    rfl
  · rw [if_neg h, if_neg h, List.getD_eq_getElem?_getD, List.getElem?_append]
    split
    · rfl
    · rename_i h'
      rw [List.getElem?_replicate, List.getElem?_eq_none (by omega)]
      split <;> rfl

theorem parseFactor_nat (P : PyParse K) (hint : ∀ n : ℕ, P.int (Nat.toDigits 10 n) = some (n : ℤ)) (l : List ℕ) (f : ℕ × Option ℕ) :
    parseFactor P (l.map (↑)) (factorStr f) = .ok ((growSet l f).map (↑)) := by
  obtain ⟨v, p⟩ := f
  have hsplit : (factorStr (v, p)).splitOn '^' = ('x' :: Nat.toDigits 10 v) :: (p.map (Nat.toDigits 10)).toList := by
    have hx : '^' ∉ 'x' :: Nat.toDigits 10 v := by simp [not_mem_digits v (c := '^') (by decide)]
    cases p with
    | none => simpa [factorStr] using List.splitOn_eq_singleton hx
    | some p =>
      have := List.splitOn_append_cons_self_of_not_mem hx (Nat.toDigits 10 p)
      rw [List.splitOn_eq_singleton (not_mem_digits p (c := '^') (by decide))] at this
      simpa [factorStr] using this
  have hpow : parsePower P (('x' :: Nat.toDigits 10 v) :: (p.map (Nat.toDigits 10)).toList) = .ok (factorPow (v, p) : ℤ) := by
    cases p with
    | none => rfl
    | some p => simp [parsePower, PyParse.intE, hint, factorPow]
  have hvar : parseVar P (('x' :: Nat.toDigits 10 v) :: (p.map (Nat.toDigits 10)).toList) = .ok (v : ℤ) := by
    simp [parseVar, PyParse.intE, hint]
  have hgrow : (if (((l.map ((↑) : ℕ → ℤ)).length : ℕ) : ℤ) ≤ (v : ℤ) then
      (l.map ((↑) : ℕ → ℤ)) ++ List.replicate ((v : ℤ) - ((l.map ((↑) : ℕ → ℤ)).length : ℕ) + 1).toNat 0 else l.map (↑)) =
      (l ++ List.replicate (v + 1 - l.length) 0).map ((↑) : ℕ → ℤ) := by
    rw [List.map_append, List.map_replicate, List.length_map]
    split
    · congr 2
      omega
    · rw [show v + 1 - l.length = 0 by omega]
      simp
  have hidx : pyIndex ((l ++ List.replicate (v + 1 - l.length) 0).map ((↑) : ℕ → ℤ)).length (v : ℤ) = .ok v := by
    unfold pyIndex
    rw [if_pos ⟨by omega, by simp; omega⟩]
    rfl
  unfold parseFactor
  simp only [hsplit, hpow, hvar, bind, Except.bind]
  rw [if_pos (by omega), hgrow, hidx]
  simp [growSet, List.map_set, pure, Except.pure]

theorem foldlM_factors (P : PyParse K) (hint : ∀ n : ℕ, P.int (Nat.toDigits 10 n) = some (n : ℤ)) :
    ∀ (fs : List (ℕ × Option ℕ)) (l : List ℕ),
      (fs.map factorStr).foldlM (parseFactor P) (l.map (↑)) = .ok ((fs.foldl growSet l).map (↑))
  | [], l => rfl
  | f :: fs, l => by
    rw [List.map_cons, List.foldlM_cons, parseFactor_nat P hint]
    exact foldlM_factors P hint fs _

theorem foldl_growSet_length : ∀ (fs : List (ℕ × Option ℕ)) (l : List ℕ),
    (fs.foldl growSet l).length = (fs.map fun f => f.1 + 1).foldl max l.length
  | [], l => rfl
  | f :: fs, l => by
    rw [List.foldl_cons, foldl_growSet_length fs, growSet_length]
    rfl

theorem foldl_growSet_getD (i : ℕ) : ∀ (fs : List (ℕ × Option ℕ)) (l : List ℕ), (fs.map Prod.fst).Nodup →
    (fs.foldl growSet l).getD i 0 = if i ∈ fs.map Prod.fst then (fs.map fun f => if f.1 = i then factorPow f else 0).sum else l.getD i 0
  | [], l, _ => by simp
  | f :: fs, l, h => by
    rw [List.map_cons, List.nodup_cons] at h
    have hz : i ∉ fs.map Prod.fst → (fs.map fun f => if f.1 = i then factorPow f else 0).sum = 0 := fun hi =>
      List.sum_eq_zero fun x hx => by
        obtain ⟨g, hg, rfl⟩ := List.mem_map.1 hx
        rw [if_neg fun e : g.1 = i => hi (e ▸ List.mem_map_of_mem hg)]
    rw [List.foldl_cons, foldl_growSet_getD i fs _ h.2, growSet_getD]
    by_cases hf : f.1 = i
    · have hi : i ∉ fs.map Prod.fst := hf ▸ h.1
      rw [if_neg hi, if_pos hf, if_pos (by simp [hf]), List.map_cons, List.sum_cons, if_pos hf, hz hi, add_zero]
    · by_cases hi : i ∈ fs.map Prod.fst
      · rw [if_pos hi, if_pos (by simp only [List.map_cons]; exact List.mem_cons_of_mem _ hi), List.map_cons, List.sum_cons, if_neg hf, zero_add]
      · rw [if_neg hi, if_neg hf, if_neg (by simp only [List.map_cons, List.mem_cons, not_or]; exact ⟨fun e => hf e.symm, hi⟩)]

theorem firstX_append {s r : List Char} (hs : 'x' ∉ s) (hr : r = [] ∨ ∃ q, r = 'x' :: q) : firstX (s ++ r) = s.length := by
  induction s with
  | nil =>
    rcases hr with rfl | ⟨q, rfl⟩ <;> simp [firstX]
  | cons c s ih =>
    simp only [List.mem_cons, not_or] at hs
    rw [List.cons_append, firstX, if_neg (Ne.symm hs.1), ih hs.2, List.length_cons]

theorem intercalate_head (fs : List (ℕ × Option ℕ)) :
    ['*'].intercalate (fs.map factorStr) = [] ∨ ∃ q, ['*'].intercalate (fs.map factorStr) = 'x' :: q := by
  match fs with
  | [] => exact Or.inl rfl
  | [(v, none)] => exact Or.inr ⟨_, by simp [factorStr, List.intercalate]; rfl⟩
  | [(v, some p)] => exact Or.inr ⟨_, by simp [factorStr, List.intercalate]; rfl⟩
  | (v, none) :: g :: fs => exact Or.inr ⟨_, by simp [factorStr, List.intercalate]; rfl⟩
  | (v, some p) :: g :: fs => exact Or.inr ⟨_, by simp [factorStr, List.intercalate]; rfl⟩

theorem not_mem_intercalate {c d : Char} (hcd : c ≠ d) (ls : List (List Char)) (h : ∀ l ∈ ls, c ∉ l) : c ∉ [d].intercalate ls := by
  match ls with
  | [] => simp [List.intercalate]
  | [l] => simpa [List.intercalate] using h l (by simp)
  | l :: m :: ls =>
    have ih := not_mem_intercalate hcd (m :: ls) fun x hx => h x (List.mem_cons_of_mem _ hx)
    have : [d].intercalate (l :: m :: ls) = l ++ d :: [d].intercalate (m :: ls) := by simp [List.intercalate]
    rw [this]
    simp only [List.mem_append, List.mem_cons, not_or]
    exact ⟨h l (by simp), hcd, ih⟩

/-- The exponents as the function collects them. -/
def natSpot (t : TermSrc K) : List ℕ := t.factors.foldl growSet [0]

theorem parseMonomial_str [Ring K] (P : PyParse K) (hint : ∀ n : ℕ, P.int (Nat.toDigits 10 n) = some (n : ℤ)) (t : TermSrc K)
    (hw : t.WF P) : parseMonomial P t.str = .ok ((natSpot t).map (↑), t.coef) := by
  have hfx : firstX t.str = t.text.length := firstX_append hw.noX (intercalate_head t.factors)
  have hc : parseCoef P t.text = .ok t.coef := by
    unfold parseCoef
    rcases hw.coef with ⟨h1, h2, -⟩ | ⟨h1, h2, -⟩ | ⟨h1, h2, h3⟩
    · simp [h1, h2]
    · simp [h1, h2]
    · rw [if_neg h2, if_neg h1, PyParse.floatE, h3]
  have hf : ((['*'].intercalate (t.factors.map factorStr)).splitOn '*').foldlM (parseFactor P) [0] = .ok ((natSpot t).map (↑)) := by
    by_cases h : t.factors = []
    · rw [natSpot, h]
      rfl
    · rw [List.splitOn_intercalate]
      · exact foldlM_factors P hint t.factors [0]
      · intro l hl
        obtain ⟨f, -, rfl⟩ := List.mem_map.1 hl
        exact not_mem_factorStr f (by decide) (by decide) (by decide)
      · simpa using h
  unfold parseMonomial
  rw [hfx, TermSrc.str, List.take_left, List.drop_left, hc]
  change Except.bind _ _ = _
  simp only [Except.bind]
  change Except.bind (List.foldlM _ _ _) _ = _
  rw [hf]
  rfl

theorem natSpot_length (t : TermSrc K) : (natSpot t).length = (t.factors.map fun f => f.1 + 1).foldl max 1 :=
  foldl_growSet_length t.factors [0]

theorem padSpot_eq (t : TermSrc K) (hn : (t.factors.map Prod.fst).Nodup) {n : ℕ} (h : (natSpot t).length ≤ n) :
    padSpot n ((natSpot t).map (↑)) = (List.range n).map fun i => (t.expo i : ℤ) := by
  have hg : ∀ i, (natSpot t).getD i 0 = t.expo i := fun i => by
    rw [natSpot, foldl_growSet_getD i t.factors [0] hn, TermSrc.expo]
    split
    · rfl
    · rename_i hi
      rw [List.sum_eq_zero]
      · cases i <;> rfl
      · intro x hx
        obtain ⟨g, hg, rfl⟩ := List.mem_map.1 hx
        rw [if_neg fun e : g.1 = i => hi (e ▸ List.mem_map_of_mem hg)]
  unfold padSpot
  apply List.ext_getElem
  · simp
    omega
  · intro i h1 h2
    simp only [List.getElem_map, List.getElem_range]
    rw [← hg i, List.getElem_append]
    split
    · rename_i h'
      rw [List.getElem_map, List.getD_eq_getElem _ _ (by simpa using h')]
    · rename_i h'
      rw [List.getElem_replicate, List.getD_eq_default _ _ (by simpa using h')]
      rfl

theorem foldl_zipWith_max (n : ℕ) : ∀ (es : List (ℕ → ℕ)) (a : ℕ → ℕ),
    (es.map fun e => (List.range n).map fun i => (e i : ℤ)).foldl (List.zipWith max) ((List.range n).map fun i => (a i : ℤ)) =
      (List.range n).map fun i => (((es.map fun e => e i).foldl max (a i) : ℕ) : ℤ)
  | [], a => rfl
  | e :: es, a => by
    rw [List.map_cons, List.foldl_cons]
    have : List.zipWith max ((List.range n).map fun i => (a i : ℤ)) ((List.range n).map fun i => (e i : ℤ)) =
        (List.range n).map fun i => ((max (a i) (e i) : ℕ) : ℤ) := by
      rw [List.zipWith_map, List.zipWith_self]
      simp
    rw [this, foldl_zipWith_max n es]
    rfl

theorem setSpot_nat (A : NDArr K) (k : List ℕ) (c : K) (h : List.Forall₂ (fun N i => i < N) A.shape k) :
    setSpot A (k.map (↑)) c = .ok ⟨A.shape, fun j => if j = k then c else A.coef j⟩ := by
  have hm : ∀ (N k : List ℕ), List.Forall₂ (fun N i => i < N) N k →
      (N.zip (k.map ((↑) : ℕ → ℤ))).mapM (fun p => pyIndex p.1 p.2) = .ok k := by
    intro N k h
    induction h with
    | nil => rfl
    | @cons a b N k hab h ih =>
      rw [List.map_cons, List.zip_cons_cons, List.mapM_cons]
      have : pyIndex a (b : ℤ) = .ok b := by
        unfold pyIndex
        rw [if_pos ⟨by omega, by omega⟩]
        rfl
      simp only [this]
      change Except.bind (List.mapM _ _) _ = _
      rw [ih]
      rfl
  unfold setSpot
  rw [hm _ _ h]
  rfl

/-- Repeated assignment to different places. -/
theorem foldlM_setSpot [AddCommMonoid K] (shape : List ℕ) : ∀ (kc : List (List ℕ × K)) (g : List ℕ → K),
    (∀ p ∈ kc, List.Forall₂ (fun N i => i < N) shape p.1) → (kc.map Prod.fst).Nodup → (∀ p ∈ kc, g p.1 = 0) →
    ∃ A : NDArr K, (kc.map fun p => (p.1.map ((↑) : ℕ → ℤ), p.2)).foldlM (fun A p => setSpot A p.1 p.2) ⟨shape, g⟩ = .ok A ∧
      A.shape = shape ∧ ∀ j, A.coef j = g j + (kc.map fun p => if j = p.1 then p.2 else 0).sum
  | [], g, _, _, _ => ⟨⟨shape, g⟩, rfl, rfl, fun j => by simp⟩
  | p :: kc, g, h, hn, hg => by
    rw [List.map_cons, List.nodup_cons] at hn
    obtain ⟨A, hA, hs, hc⟩ := foldlM_setSpot shape kc (fun j => if j = p.1 then p.2 else g j)
      (fun q hq => h q (List.mem_cons_of_mem _ hq)) hn.2 fun q hq => by
        rw [if_neg fun e : q.1 = p.1 => hn.1 (e ▸ List.mem_map_of_mem hq), hg q (List.mem_cons_of_mem _ hq)]
    refine ⟨A, ?_, hs, fun j => ?_⟩
    · rw [List.map_cons, List.foldlM_cons, setSpot_nat _ _ _ (h p (by simp))]
      exact hA
    · rw [hc j, List.map_cons, List.sum_cons, ← add_assoc]
      congr 1
      by_cases hj : j = p.1
      · rw [if_pos hj, if_pos hj, hj, hg p (by simp), zero_add]
      · rw [if_neg hj, if_neg hj, add_zero]

theorem prod_expo [CommRing K] (X : ℕ → K) (n : ℕ) : ∀ fs : List (ℕ × Option ℕ), (∀ f ∈ fs, f.1 < n) →
    ∏ i ∈ Finset.range n, X i ^ (fs.map fun f => if f.1 = i then factorPow f else 0).sum = (fs.map fun f => X f.1 ^ factorPow f).prod
  | [], _ => by simp
  | f :: fs, h => by
    simp only [List.map_cons, List.sum_cons, List.prod_cons, pow_add]
    rw [Finset.prod_mul_distrib, prod_expo X n fs fun g hg => h g (List.mem_cons_of_mem _ hg)]
    congr 1
    rw [Finset.prod_eq_single f.1]
    · rw [if_pos rfl]
    · intro i _ hi
      rw [if_neg (Ne.symm hi), pow_zero]
    · intro hf
      exact absurd (Finset.mem_range.2 (h f (by simp))) hf

theorem foldl_max_flatMap {α : Type} (g : α → List ℕ) : ∀ (ts : List α) (a : ℕ),
    (ts.flatMap g).foldl max a = (ts.map fun t => (g t).foldl max a).foldl max a
  | [], a => rfl
  | t :: ts, a => by
    apply le_antisymm
    · rw [foldl_max_le_iff]
      refine ⟨le_foldl_max' _ _, fun x hx => ?_⟩
      obtain ⟨s, hs, hx⟩ := List.mem_flatMap.1 hx
      exact (le_foldl_max hx (a := a)).trans (le_foldl_max (List.mem_map.2 ⟨s, hs, rfl⟩))
    · rw [foldl_max_le_iff]
      refine ⟨le_foldl_max' _ _, fun x hx => ?_⟩
      obtain ⟨s, hs, rfl⟩ := List.mem_map.1 hx
      rw [foldl_max_le_iff]
      exact ⟨le_foldl_max' _ _, fun y hy => le_foldl_max (List.mem_flatMap.2 ⟨s, hs, hy⟩)⟩

theorem foldl_max_one {l : List ℕ} (h : ∀ x ∈ l, 1 ≤ x) (hl : l ≠ []) : l.foldl max 0 = l.foldl max 1 := by
  obtain ⟨a, l, rfl⟩ := List.exists_cons_of_ne_nil hl
  rw [List.foldl_cons, List.foldl_cons, Nat.zero_max, max_eq_right (h a (by simp))]

/-! ### The theorem -/

/-- **C67.**  If every variable occurs at most once in a monomial and no two monomials have the same exponents, the array represents
the polynomial written in the string: the variable `x0` belongs to the last axis, and the length of every axis is one more than the
degree. -/
theorem C67_reads_partial [CommRing K] (P : PyParse K) (hint : ∀ n : ℕ, P.int (Nat.toDigits 10 n) = some (n : ℤ))
    (ts : List (TermSrc K)) (hne : ts ≠ []) (hw : ∀ t ∈ ts, t.WF P) (hv : ∀ t ∈ ts, (t.factors.map Prod.fst).Nodup)
    (hd : (ts.map TermSrc.expo).Nodup) :
    ∃ A : NDArr K, makePolyCoeffMatrix P (polyStr ts) = .ok A ∧ A.shape.length = numVars ts ∧
      (∀ i < numVars ts, A.shape.getD (numVars ts - 1 - i) 0 = degIn ts i + 1) ∧
      ∀ X : ℕ → K, A.toTensor.evalPow (fun i => X (numVars ts - 1 - i)) = (ts.map fun t => t.value X).sum := by
  set n := numVars ts with hn
  have hsplit : (polyStr ts).splitOn '+' = ts.map TermSrc.str := by
    apply List.splitOn_intercalate
    · intro l hl
      obtain ⟨t, ht, rfl⟩ := List.mem_map.1 hl
      unfold TermSrc.str
      simp only [List.mem_append, not_or]
      refine ⟨(hw t ht).noPlus, not_mem_intercalate (by decide) _ fun l hl => ?_⟩
      obtain ⟨f, -, rfl⟩ := List.mem_map.1 hl
      exact not_mem_factorStr f (by decide) (by decide) (by decide)
    · simpa using hne
  have hparsed : ((polyStr ts).splitOn '+').mapM (parseMonomial P) =
      .ok (ts.map fun t => ((natSpot t).map ((↑) : ℕ → ℤ), t.coef)) := by
    rw [hsplit]
    have : ∀ l : List (TermSrc K), (∀ t ∈ l, t.WF P) → (l.map TermSrc.str).mapM (parseMonomial P) =
        .ok (l.map fun t => ((natSpot t).map ((↑) : ℕ → ℤ), t.coef)) := by
      intro l
      induction l with
      | nil => exact fun _ => rfl
      | cons t l ih =>
        intro h
        rw [List.map_cons, List.mapM_cons, parseMonomial_str P hint t (h t (by simp))]
        change Except.bind (List.mapM _ _) _ = _
        rw [ih fun t ht => h t (List.mem_cons_of_mem _ ht)]
        rfl
    exact this ts hw
  have hlen : ((ts.map fun t => ((natSpot t).map ((↑) : ℕ → ℤ), t.coef)).map fun p => p.1.length).foldl max 0 = n := by
    rw [hn, numVars, foldl_max_flatMap, List.map_map, foldl_max_one]
    · congr 1
      apply List.map_congr_left
      intro t _
      simp only [Function.comp_apply, List.length_map]
      exact natSpot_length t
    · intro x hx
      obtain ⟨t, -, rfl⟩ := List.mem_map.1 hx
      simp only [Function.comp_apply, List.length_map]
      rw [natSpot_length]
      exact le_foldl_max' _ _
    · simpa using hne
  have hle : ∀ t ∈ ts, (natSpot t).length ≤ n := fun t ht => by
    rw [← hlen, List.map_map]
    apply le_foldl_max
    refine List.mem_map.2 ⟨t, ht, ?_⟩
    simp
  have hspots : (ts.map fun t => ((natSpot t).map ((↑) : ℕ → ℤ), t.coef)).map (fun p => padSpot n p.1) =
      (ts.map TermSrc.expo).map fun e => (List.range n).map fun i => (e i : ℤ) := by
    rw [List.map_map, List.map_map]
    apply List.map_congr_left
    intro t ht
    exact padSpot_eq t (hv t ht) (hle t ht)
  have hmax : maxRows ((ts.map TermSrc.expo).map fun e => (List.range n).map fun i => (e i : ℤ)) =
      (List.range n).map fun i => (degIn ts i : ℤ) := by
    obtain ⟨t, ts', rfl⟩ := List.exists_cons_of_ne_nil hne
    rw [List.map_cons, List.map_cons, maxRows, foldl_zipWith_max]
    apply List.map_congr_left
    intro i _
    congr 1
    simp [degIn, Function.comp_def]
  have hsize : (((List.range n).map fun i => (degIn ts i : ℤ)).map (· + 1)).reverse =
      ((List.range n).map fun i => ((degIn ts i + 1 : ℕ) : ℤ)).reverse := by
    rw [List.map_map]
    congr 1
  set shape := ((List.range n).map fun i => degIn ts i + 1).reverse with hshape
  have hcast : (((List.range n).map fun i => ((degIn ts i + 1 : ℕ) : ℤ)).reverse).map Int.toNat = shape := by
    rw [hshape, ← List.map_reverse, ← List.map_reverse, List.map_map]
    rfl
  have hdeg : ∀ t ∈ ts, ∀ i, t.expo i < degIn ts i + 1 := fun t ht i =>
    Nat.lt_succ_of_le (le_foldl_max (List.mem_map.2 ⟨t, ht, rfl⟩))
  have hexpo : ∀ t ∈ ts, ∀ i, n ≤ i → t.expo i = 0 := fun t ht i hi => by
    apply List.sum_eq_zero
    intro x hx
    obtain ⟨f, hf, rfl⟩ := List.mem_map.1 hx
    have : f.1 + 1 ≤ n := by
      refine le_trans ?_ (hle t ht)
      rw [natSpot_length]
      exact le_foldl_max (List.mem_map.2 ⟨f, hf, rfl⟩)
    rw [if_neg (by omega)]
  set key : TermSrc K → List ℕ := fun t => ((List.range n).map t.expo).reverse with hkey
  obtain ⟨A, hA, hs, hc⟩ := foldlM_setSpot (K := K) shape (ts.map fun t => (key t, t.coef)) (fun _ => 0)
    (fun p hp => by
      obtain ⟨t, ht, rfl⟩ := List.mem_map.1 hp
      simp only [hkey, hshape]
      rw [List.forall₂_reverse_iff, List.forall₂_map_left_iff, List.forall₂_map_right_iff, List.forall₂_same]
      exact fun i _ => hdeg t ht i)
    (by
      rw [List.map_map]
      have : (Prod.fst ∘ fun t => (key t, t.coef)) = key := rfl
      rw [this]
      rw [List.nodup_map_iff_inj_on (List.Nodup.of_map _ hd)]
      intro t ht s hs h
      have hts := List.inj_on_of_nodup_map hd ht hs
      apply hts
      funext i
      by_cases hi : i < n
      · have h' : (List.range n).map t.expo = (List.range n).map s.expo := List.reverse_injective h
        exact List.map_inj_left.1 h' i (List.mem_range.2 hi)
      · rw [hexpo t ht i (by omega), hexpo s hs i (by omega)])
    (fun _ _ => rfl)
  have hlenA : A.shape.length = n := by simp [hs, hshape]
  refine ⟨A, ?_, hlenA, fun i hi => ?_, fun X => ?_⟩
  · unfold makePolyCoeffMatrix
    rw [hparsed]
    change (if _ then _ else _) = _
    simp only [hlen, hspots, hmax, hsize, hcast]
    rw [if_neg]
    · rw [← hA]
      have hz : ((ts.map TermSrc.expo).map fun e => (List.range n).map fun i => (e i : ℤ)).zip
          ((ts.map fun t => ((natSpot t).map ((↑) : ℕ → ℤ), t.coef)).map Prod.snd) =
          ts.map fun t => ((List.range n).map fun i => (t.expo i : ℤ), t.coef) := by
        rw [List.map_map, List.map_map, List.zip_map']
        rfl
      rw [hz, List.foldlM_map, List.map_map, List.foldlM_map]
      congr 1
      funext A t
      simp only [Function.comp_apply, hkey]
      rw [List.map_reverse, List.map_map]
      rfl
    · rintro ⟨s, hs, hlt⟩
      rw [List.mem_reverse] at hs
      obtain ⟨i, -, rfl⟩ := List.mem_map.1 hs
      omega
  · have : A.shape.getD (n - 1 - i) 0 = shape.getD (n - 1 - i) 0 := by rw [hs]
    rw [this, hshape, List.getD_eq_getElem _ _ (by simp; omega), List.getElem_reverse]
    simp only [List.getElem_map, List.getElem_range, List.length_map, List.length_range]
    rw [show n - 1 - (n - 1 - i) = i by omega]
  · set kt : TermSrc K → Fin A.shape.length → ℕ := fun t i => t.expo (n - 1 - i) with hkt
    have hofFn : ∀ t, List.ofFn (kt t) = key t := fun t => by
      apply List.ext_getElem
      · simp [hkey, hlenA]
      · intro i h1 h2
        simp [hkey, hkt, List.getElem_reverse]
    have hmem : ∀ t ∈ ts, kt t ∈ A.toTensor.idx := fun t ht => by
      unfold Tensor.idx
      rw [Fintype.mem_piFinset]
      intro i
      rw [Finset.mem_range]
      have h1 : A.toTensor.shape i = degIn ts (n - 1 - i) + 1 := by
        have : A.toTensor.shape i = A.shape[(i : ℕ)] := rfl
        rw [this]
        simp only [hs, hshape, List.getElem_reverse, List.getElem_map, List.getElem_range, List.length_map, List.length_range]
      rw [h1]
      exact hdeg t ht _
    have hcoef : ∀ k, A.toTensor.coef k = (ts.map fun t => if k = kt t then t.coef else 0).sum := fun k => by
      have : A.toTensor.coef k = A.coef (List.ofFn k) := rfl
      rw [this, hc, zero_add, List.map_map]
      congr 1
      apply List.map_congr_left
      intro t _
      simp only [Function.comp_apply, ← hofFn t, List.ofFn_inj]
    have hsum : ∀ (l : List (TermSrc K)), (∀ t ∈ l, t ∈ ts) →
        ∑ k ∈ A.toTensor.idx, (l.map fun t => if k = kt t then t.coef else 0).sum * ∏ i : Fin A.shape.length, X (n - 1 - i) ^ k i =
          (l.map fun t => t.value X).sum := by
      intro l
      induction l with
      | nil => simp
      | cons t l ih =>
        intro hl
        simp only [List.map_cons, List.sum_cons, add_mul]
        rw [Finset.sum_add_distrib, ih fun s hs => hl s (List.mem_cons_of_mem _ hs)]
        congr 1
        have ht := hl t (by simp)
        rw [Finset.sum_eq_single (kt t)]
        · rw [if_pos rfl, TermSrc.value]
          congr 1
          simp only [hkt]
          rw [Fin.prod_univ_eq_prod_range (fun i => X (n - 1 - i) ^ t.expo (n - 1 - i)) A.shape.length, hlenA,
            Finset.prod_range_reflect (fun i => X i ^ t.expo i) n]
          exact prod_expo X n t.factors fun f hf => by
            have : f.1 + 1 ≤ n := by
              refine le_trans ?_ (hle t ht)
              rw [natSpot_length]
              exact le_foldl_max (List.mem_map.2 ⟨f, hf, rfl⟩)
            omega
        · intro k _ hk
          rw [if_neg hk, zero_mul]
        · intro h
          exact absurd (hmem t ht) h
    unfold Tensor.evalPow
    rw [← hsum ts fun _ h => h]
    exact Finset.sum_congr rfl fun k _ => by rw [hcoef k]

/-! ### Examples and negations -/

/-- Digits, and the coefficients `3`, `-2`. -/
def digitParse : PyParse ℚ where
  int s := some (Nat.ofDigitChars 10 s 0)
  float s := if s = ['3'] then some 3 else if s = ['-', '2'] then some (-2) else none

theorem digitParse_int (n : ℕ) : digitParse.int (Nat.toDigits 10 n) = some (n : ℤ) := by
  simp [digitParse]

/-- `3x0^2+-2x1*x0+-x2`. -/
def exTerms : List (TermSrc ℚ) :=
  [⟨['3'], 3, [(0, some 2)]⟩, ⟨['-', '2'], -2, [(1, none), (0, none)]⟩, ⟨['-'], -1, [(2, none)]⟩]

example : polyStr exTerms = "3x0^2+-2x1*x0+-x2".toList := by decide +kernel

/-- The hypotheses of `C67_reads_partial` hold for a polynomial of three variables. -/
example : ∃ A : NDArr ℚ, makePolyCoeffMatrix digitParse "3x0^2+-2x1*x0+-x2".toList = .ok A ∧ A.shape.length = 3 ∧
    ∀ X : ℕ → ℚ, A.toTensor.evalPow (fun i => X (2 - i)) = 3 * X 0 ^ 2 + -2 * (X 1 * X 0) + -X 2 := by
  obtain ⟨A, h1, h2, -, h4⟩ := C67_reads_partial digitParse digitParse_int exTerms (by decide)
    (by
      intro t ht
      simp only [exTerms, List.mem_cons, List.not_mem_nil, or_false] at ht
      rcases ht with rfl | rfl | rfl
      · exact ⟨by decide, by decide, Or.inr (Or.inr ⟨by decide, by decide, by decide +kernel⟩)⟩
      · exact ⟨by decide, by decide, Or.inr (Or.inr ⟨by decide, by decide, by decide +kernel⟩)⟩
      · exact ⟨by decide, by decide, Or.inr (Or.inl ⟨rfl, rfl, by decide⟩)⟩)
    (by
      intro t ht
      simp only [exTerms, List.mem_cons, List.not_mem_nil, or_false] at ht
      rcases ht with rfl | rfl | rfl <;> decide)
    (by
      refine List.Nodup.of_map (fun e : ℕ → ℕ => (e 0, e 1, e 2)) ?_
      decide)
  have hn : numVars exTerms = 3 := by decide
  rw [hn] at h2 h4
  refine ⟨A, ?_, h2, fun X => ?_⟩
  · rw [← h1]
    congr 1
  · rw [h4 X]
    simp [exTerms, TermSrc.value, factorPow, add_assoc]

/-- `x0+x0` is read as `x0`: the second monomial overwrites the first. -/
theorem C67_repeated_false : ∃ (P : PyParse ℚ) (ts : List (TermSrc ℚ)), (∀ n : ℕ, P.int (Nat.toDigits 10 n) = some (n : ℤ)) ∧
    polyStr ts = "x0+x0".toList ∧ (∀ t ∈ ts, t.WF P) ∧ (∀ t ∈ ts, (t.factors.map Prod.fst).Nodup) ∧
    ∃ A : NDArr ℚ, makePolyCoeffMatrix P (polyStr ts) = .ok A ∧ A.shape = [2] ∧ A.coef [0] = 0 ∧ A.coef [1] = 1 ∧
      (ts.map fun t => t.value fun _ => 1).sum = 2 := by
  refine ⟨digitParse, [⟨[], 1, [(0, none)]⟩, ⟨[], 1, [(0, none)]⟩], digitParse_int, by decide +kernel, ?_, ?_, ?_⟩
  · intro t ht
    simp only [List.mem_cons, List.not_mem_nil, or_false, or_self] at ht
    subst ht
    exact ⟨by decide, by decide, Or.inl ⟨rfl, rfl, by decide⟩⟩
  · decide
  · refine ⟨_, rfl, by decide +kernel, by decide +kernel, by decide +kernel, ?_⟩
    simp [TermSrc.value]
    norm_num

/-- `x0*x0` is read as `x0`: the second factor overwrites the exponent of the first. -/
theorem C67_square_false : ∃ (P : PyParse ℚ) (ts : List (TermSrc ℚ)), (∀ n : ℕ, P.int (Nat.toDigits 10 n) = some (n : ℤ)) ∧
    polyStr ts = "x0*x0".toList ∧ (∀ t ∈ ts, t.WF P) ∧ (ts.map TermSrc.expo).Nodup ∧
    ∃ A : NDArr ℚ, makePolyCoeffMatrix P (polyStr ts) = .ok A ∧ A.shape = [2] ∧ A.coef [0] = 0 ∧ A.coef [1] = 1 ∧
      (ts.map fun t => t.value fun _ => 2).sum = 4 := by
  refine ⟨digitParse, [⟨[], 1, [(0, none), (0, none)]⟩], digitParse_int, by decide +kernel, ?_, by simp, ?_⟩
  · intro t ht
    simp only [List.mem_cons, List.not_mem_nil, or_false] at ht
    subst ht
    exact ⟨by decide, by decide, Or.inl ⟨rfl, rfl, by decide⟩⟩
  · refine ⟨_, rfl, by decide +kernel, by decide +kernel, by decide +kernel, ?_⟩
    simp [TermSrc.value, factorPow]
    norm_num

/-- `digitParse` with a minus sign before an integer. -/
def signParse : PyParse ℚ where
  int s := if s.head? = some '-' then some (-Nat.ofDigitChars 10 s.tail 0) else digitParse.int s
  float := digitParse.float

theorem signParse_int (n : ℕ) : signParse.int (Nat.toDigits 10 n) = some (n : ℤ) := by
  have h : (Nat.toDigits 10 n).head? ≠ some '-' := fun h => not_mem_digits n (by decide : '-'.isDigit = false) (List.mem_of_mem_head? h)
  simp only [signParse, if_neg h, digitParse_int]

/-- A negative exponent is not rejected: it counts from the end of the axis, so `3x0^2+-2x0^-1` is read as `-2x0^2`. -/
theorem C67_negative_false : ∃ P : PyParse ℚ, (∀ n : ℕ, P.int (Nat.toDigits 10 n) = some (n : ℤ)) ∧ P.int "-1".toList = some (-1) ∧
    ∃ A : NDArr ℚ, makePolyCoeffMatrix P "3x0^2+-2x0^-1".toList = .ok A ∧ A.shape = [3] ∧ A.coef [0] = 0 ∧ A.coef [1] = 0 ∧
      A.coef [2] = -2 := by
  refine ⟨signParse, signParse_int, by decide +kernel, _, rfl, by decide +kernel, by decide +kernel, by decide +kernel, by decide +kernel⟩

end YRoots.Legacy
