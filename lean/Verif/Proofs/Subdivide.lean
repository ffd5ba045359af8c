import Verif.Proofs.InverseOrder
import Verif.Proofs.Zoom
import Mathlib.Tactic.Linarith

/-!
# Helper lemmas: subdivision
-/

set_option linter.unusedSectionVars false
set_option linter.unusedVariables false
set_option linter.unusedSimpArgs false

namespace YRoots

open Finset

/-! ### Dimensions -/

section Dims

variable {n : ℕ} {K : Type*} [Field K] [LinearOrder K]

theorem foldl_erase_keep {A : Type*} [DecidableEq A] (P : List A → A → Prop) [∀ l a, Decidable (P l a)]
    (l ds : List A) (hP : ∀ l a, P l a → l.length ≠ 1) (hnd : ds.Nodup) (hne : ds ≠ []) :
    let r := l.foldl (fun ds i => if P ds i then ds.erase i else ds) ds
    r.Nodup ∧ r ≠ [] ∧ r ⊆ ds := by
  induction l generalizing ds with
  | nil => exact ⟨hnd, hne, fun _ h => h⟩
  | cons a l ih =>
    simp only [List.foldl_cons]
    split_ifs with h
    · have h1 : ds.erase a ≠ [] := by
        intro he
        have h2 := List.length_erase (a := a) (l := ds)
        rw [he] at h2
        have := hP _ _ h
        have hl : ds.length ≠ 0 := fun h => hne (List.length_eq_zero_iff.1 h)
        rw [List.length_nil] at h2
        split_ifs at h2
        · omega
        · omega
      obtain ⟨r1, r2, r3⟩ := ih (ds.erase a) (hnd.erase a) h1
      exact ⟨r1, r2, fun x hx => List.mem_of_mem_erase (r3 hx)⟩
    · exact ih ds hnd hne

theorem considerDims_eq (B : Box n K) : considerDims B
    = (List.finRange n).foldl (fun ds i => if npIsclose (B.lo i) (B.hi i) ∧ ds.length ≠ 1 then ds.erase i else ds)
      (List.finRange n) := by
  unfold considerDims
  congr 1
  funext ds i
  by_cases h1 : npIsclose (B.lo i) (B.hi i) = true <;> by_cases h2 : ds.length ≠ 1 <;> simp [h1, h2]

theorem considerDims_spec (hn : 0 < n) (B : Box n K) : (considerDims B).Nodup ∧ considerDims B ≠ [] := by
  rw [considerDims_eq]
  have := foldl_erase_keep (fun ds i => npIsclose (B.lo i) (B.hi i) = true ∧ ds.length ≠ 1) (List.finRange n)
    (List.finRange n) (fun _ _ h => h.2) (List.nodup_finRange n)
    (by intro h; have := congrArg List.length h; simp at this; omega)
  exact ⟨this.1, this.2.1⟩

/-- A dimension that is not close to a point is considered. -/
theorem considerDims_mem (B : Box n K) (i : Fin n) (hi : npIsclose (B.lo i) (B.hi i) = false) :
    i ∈ considerDims B := by
  rw [considerDims_eq]
  have : ∀ (l ds : List (Fin n)), i ∈ ds → i ∈ l.foldl (fun ds j =>
      if npIsclose (B.lo j) (B.hi j) = true ∧ ds.length ≠ 1 then ds.erase j else ds) ds := by
    intro l
    induction l with
    | nil => exact fun ds h => h
    | cons a l ih =>
      intro ds h
      rw [List.foldl_cons]
      apply ih
      split_ifs with hc
      · have : i ≠ a := by rintro rfl; rw [hi] at hc; simp at hc
        exact (List.mem_erase_of_ne this).2 h
      · exact h
  exact this _ _ (List.mem_finRange i)

theorem degreeDims_spec (Ms : Fin n → Tensor n K) (dims : List (Fin n)) (hnd : dims.Nodup) :
    (degreeDims Ms dims).Nodup ∧ degreeDims Ms dims ⊆ dims ∧ (dims ≠ [] → degreeDims Ms dims ≠ []) := by
  unfold degreeDims
  split_ifs with h
  · have hne : dims ≠ [] := by rintro rfl; simp at h
    have := foldl_erase_keep (fun ds i => ds.length > 1 ∧
      (∑ k, (Ms k).shape i) < (∑ j, ∑ k, (Ms k).shape j) / (n + 1)) dims dims
      (fun _ _ h => by omega) hnd hne
    exact ⟨this.1, this.2.2, fun _ => this.2.1⟩
  · exact ⟨hnd, fun _ h => h, fun h => h⟩

theorem foldl_max_spec (l : List K) (a : K) :
    (l.foldl max a = a ∨ l.foldl max a ∈ l) ∧ a ≤ l.foldl max a ∧ ∀ x ∈ l, x ≤ l.foldl max a := by
  induction l generalizing a with
  | nil => simp
  | cons b l ih =>
    rw [List.foldl_cons]
    obtain ⟨h1, h2, h3⟩ := ih (max a b)
    refine ⟨?_, (le_max_left _ _).trans h2, ?_⟩
    · rcases h1 with h1 | h1
      · rcases max_choice a b with h | h
        · left; rw [h1, h]
        · right; rw [h1, h]; exact List.mem_cons_self
      · right; exact List.mem_cons_of_mem _ h1
    · intro x hx
      rcases List.mem_cons.1 hx with rfl | hx
      · exact (le_max_right _ _).trans h2
      · exact h3 x hx

theorem listMax_spec (l : List K) (h : l ≠ []) : listMax l ∈ l ∧ ∀ x ∈ l, x ≤ listMax l := by
  cases l with
  | nil => exact absurd rfl h
  | cons a l =>
    obtain ⟨h1, h2, h3⟩ := foldl_max_spec l a
    simp only [listMax, List.tail_cons, List.headD_cons]
    refine ⟨?_, ?_⟩
    · rcases h1 with h1 | h1
      · rw [h1]; exact List.mem_cons_self
      · exact List.mem_cons_of_mem _ h1
    · intro x hx
      rcases List.mem_cons.1 hx with rfl | hx
      · exact h2
      · exact h3 x hx

variable [IsStrictOrderedRing K]

theorem longDims_ne_nil (B : Box n K) (dims : List (Fin n)) (i : Fin n) (hi : i ∈ dims)
    (hpos : B.lo i < B.hi i) : longDims B dims ≠ [] := by
  have hne : (dims.map fun i => B.hi i - B.lo i) ≠ [] := by
    intro h; rw [List.map_eq_nil_iff] at h; rw [h] at hi; simp at hi
  obtain ⟨h1, h2⟩ := listMax_spec _ hne
  obtain ⟨j, hj, hjm⟩ := List.mem_map.1 h1
  have h3 := h2 _ (List.mem_map.2 ⟨i, hi, rfl⟩)
  have : j ∈ longDims B dims := by
    unfold longDims
    simp only [List.mem_filter, decide_eq_true_eq]
    refine ⟨hj, ?_⟩
    rw [← hjm] at h3 ⊢
    linarith
  intro h; rw [h] at this; simp at this

theorem longDims_nodup (B : Box n K) (dims : List (Fin n)) (h : dims.Nodup) : (longDims B dims).Nodup :=
  h.filter _

/-- Contract of `np.argsort`: a permutation of the positions. -/
def ArgsortOK (argsort : List ℕ → List ℕ) : Prop := ∀ l, (argsort l).Perm (List.range l.length)

theorem sortDims_perm {argsort : List ℕ → List ℕ} (ha : ArgsortOK argsort) (M : Tensor n K)
    (dims : List (Fin n)) : (sortDims argsort M dims).Perm dims := by
  unfold sortDims
  have h1 : (argsort (dims.map M.shape)).reverse.Perm (List.range dims.length) := by
    have := ha (dims.map M.shape)
    rw [List.length_map] at this
    exact (List.reverse_perm _).trans this
  refine (h1.filterMap _).trans ?_
  have : (List.range dims.length).filterMap (fun k => dims[k]?) = dims := by
    have h : (List.range dims.length).filterMap (fun k => dims[k]?)
        = (List.finRange dims.length).filterMap (fun k => dims[k.1]?) := by
      rw [← List.map_coe_finRange_eq_range, List.filterMap_map]; rfl
    rw [h]
    have h' : (fun k : Fin dims.length => dims[k.1]?) = fun k => some (dims.get k) := by
      funext k; simp
    rw [h', List.filterMap_eq_map', List.map_get_finRange]
  rw [this]

/-- The dimensions in which all polynomials are split. -/
def subDims (Ms : Fin n → Tensor n K) (ti : TrackedInterval n K) (level : ℕ) : List (Fin n) :=
  if level > 5 then considerDims ti.interval
  else degreeDims Ms (longDims ti.interval (considerDims ti.interval))

theorem getSubdivisionDims_perm {argsort : List ℕ → List ℕ} (ha : ArgsortOK argsort)
    (Ms : Fin n → Tensor n K) (ti : TrackedInterval n K) (level : ℕ) (i : Fin n) :
    (getSubdivisionDims argsort Ms ti level i).Perm (subDims Ms ti level) :=
  sortDims_perm ha _ _

theorem subDims_nodup (hn : 0 < n) (Ms : Fin n → Tensor n K) (ti : TrackedInterval n K) (level : ℕ) :
    (subDims Ms ti level).Nodup := by
  unfold subDims
  have h := (considerDims_spec hn ti.interval).1
  split_ifs
  · exact h
  · exact (degreeDims_spec Ms _ (longDims_nodup _ _ h)).1

theorem biUnion_orders {argsort : List ℕ → List ℕ} (ha : ArgsortOK argsort) (hn : 0 < n)
    (Ms : Fin n → Tensor n K) (ti : TrackedInterval n K) (level : ℕ) :
    (Finset.univ.biUnion fun i => (getSubdivisionDims argsort Ms ti level i).toFinset)
      = (subDims Ms ti level).toFinset := by
  ext d
  simp only [Finset.mem_biUnion, Finset.mem_univ, true_and, List.mem_toFinset]
  constructor
  · rintro ⟨i, hi⟩; exact (getSubdivisionDims_perm ha Ms ti level i).mem_iff.1 hi
  · intro h; exact ⟨⟨0, hn⟩, (getSubdivisionDims_perm ha Ms ti level _).mem_iff.2 h⟩

end Dims

/-! ### Sub-boxes -/

section Boxes

variable {n : ℕ} {K : Type*} [Field K] [LinearOrder K]

/-- Specification: one half (cut at `mid`, in local coordinates) of a box. -/
def halfBox (mid : Fin n → K) (d : Fin n) (right : Bool) (S : Box n K) : Box n K :=
  if right then { S with lo := Function.update S.lo d (S.map mid d) }
  else { S with hi := Function.update S.hi d (S.map mid d) }

theorem halfBox_other (mid : Fin n → K) (d : Fin n) (b : Bool) (S : Box n K) (i : Fin n) (h : i ≠ d) :
    (halfBox mid d b S).lo i = S.lo i ∧ (halfBox mid d b S).hi i = S.hi i := by
  cases b <;> simp [halfBox, h]

theorem halfBox_map_other (mid : Fin n → K) (d : Fin n) (b : Bool) (S : Box n K) (i : Fin n) (h : i ≠ d)
    (x : Fin n → K) : (halfBox mid d b S).map x i = S.map x i := by
  unfold Box.map; rw [(halfBox_other mid d b S i h).1, (halfBox_other mid d b S i h).2]

theorem halfBox_same (mid : Fin n → K) (d : Fin n) (b : Bool) (S : Box n K) :
    (halfBox mid d b S).lo d = (if b then S.map mid d else S.lo d) ∧
      (halfBox mid d b S).hi d = (if b then S.hi d else S.map mid d) := by
  cases b <;> simp [halfBox]

theorem halfBox_comm (mid : Fin n → K) : CommSplit (halfBox (K := K) mid) := by
  intro d d' b b' S h
  have e : ∀ i, (halfBox mid d b (halfBox mid d' b' S)).lo i = (halfBox mid d' b' (halfBox mid d b S)).lo i ∧
      (halfBox mid d b (halfBox mid d' b' S)).hi i = (halfBox mid d' b' (halfBox mid d b S)).hi i := by
    intro i
    by_cases h1 : i = d
    · subst h1
      rw [(halfBox_same _ _ _ _).1, (halfBox_same _ _ _ _).2, (halfBox_other mid d' b' _ i h).1,
        (halfBox_other mid d' b' _ i h).2, (halfBox_other mid d' b' _ i h).1,
        (halfBox_other mid d' b' _ i h).2, (halfBox_same _ _ _ _).1, (halfBox_same _ _ _ _).2,
        halfBox_map_other mid d' b' S i h]
      exact ⟨rfl, rfl⟩
    · by_cases h2 : i = d'
      · subst h2
        rw [(halfBox_same mid i b' (halfBox mid d b S)).1, (halfBox_same mid i b' (halfBox mid d b S)).2,
          (halfBox_other mid d b _ i h1).1,
          (halfBox_other mid d b _ i h1).2, (halfBox_other mid d b _ i h1).1,
          (halfBox_other mid d b _ i h1).2, (halfBox_same _ _ _ _).1, (halfBox_same _ _ _ _).2,
          halfBox_map_other mid d b S i h1]
        exact ⟨rfl, rfl⟩
      · simp only [(halfBox_other mid d b _ i h1).1, (halfBox_other mid d b _ i h1).2,
          (halfBox_other mid d' b' _ i h2).1, (halfBox_other mid d' b' _ i h2).2, and_self]
  ext i
  · exact (e i).1
  · exact (e i).2

variable [IsStrictOrderedRing K]

/-- Local form: the half is the image of the unit half. -/
theorem halfBox_map (mid : Fin n → K) (d : Fin n) (b : Bool) (S : Box n K) (x : Fin n → K) :
    (halfBox mid d b S).map x = S.map (Function.update x d
      (if b then (1 - mid d) / 2 * x d + (1 + mid d) / 2 else (mid d + 1) / 2 * x d + (mid d - 1) / 2)) := by
  funext i
  by_cases h : i = d
  · subst h
    unfold Box.map
    rw [(halfBox_same mid i b S).1, (halfBox_same mid i b S).2]
    cases b <;> simp [Box.map] <;> ring
  · rw [halfBox_map_other mid d b S i h]
    simp [Box.map, h]

theorem halfBox_ok (mid : Fin n → K) (hmid : InCube mid) (d : Fin n) (b : Bool) (S : Box n K) (h : S.Ordered) :
    (halfBox mid d b S).Ordered ∧ (halfBox mid d b S).Within S := by
  have hm := TrackedInterval.map_within S h hmid d
  have e : ∀ i, S.lo i ≤ (halfBox mid d b S).lo i ∧ (halfBox mid d b S).lo i ≤ (halfBox mid d b S).hi i ∧
      (halfBox mid d b S).hi i ≤ S.hi i := by
    intro i
    by_cases hi : i = d
    · subst hi
      rw [(halfBox_same mid i b S).1, (halfBox_same mid i b S).2]
      cases b
      · simpa using hm
      · simpa using hm
    · rw [(halfBox_other mid d b S i hi).1, (halfBox_other mid d b S i hi).2]
      exact ⟨le_rfl, h i, le_rfl⟩
  exact ⟨fun i => (e i).2.1, fun i => ⟨(e i).1, (e i).2.2⟩⟩

theorem halfBox_cover (mid : Fin n → K) (d : Fin n) (S : Box n K) {x : Fin n → K} (hx : S.Mem x) :
    ∃ b, (halfBox mid d b S).Mem x := by
  rcases le_total (x d) (S.map mid d) with h | h
  · refine ⟨false, fun i => ?_⟩
    by_cases hi : i = d
    · subst hi
      rw [(halfBox_same mid i false S).1, (halfBox_same mid i false S).2]
      exact ⟨(hx i).1, h⟩
    · rw [(halfBox_other mid d _ S i hi).1, (halfBox_other mid d _ S i hi).2]; exact hx i
  · refine ⟨true, fun i => ?_⟩
    by_cases hi : i = d
    · subst hi
      rw [(halfBox_same mid i true S).1, (halfBox_same mid i true S).2]
      exact ⟨h, (hx i).2⟩
    · rw [(halfBox_other mid d _ S i hi).1, (halfBox_other mid d _ S i hi).2]; exact hx i

/-- The sub-boxes cover the box. -/
theorem splitBoxes_cover (mid : Fin n → K) (dims : List (Fin n)) (S : Box n K) {x : Fin n → K} (hx : S.Mem x) :
    ∃ C ∈ splitAll (halfBox mid) dims [S], C.Mem x := by
  induction dims generalizing S with
  | nil => exact ⟨S, by simp [splitAll], hx⟩
  | cons d ds ih =>
    rw [splitAll_cons]
    obtain ⟨b, hb⟩ := halfBox_cover mid d S hx
    obtain ⟨C, hC, hm⟩ := ih _ hb
    refine ⟨C, ?_, hm⟩
    rw [List.mem_append]
    cases b
    · exact .inl hC
    · exact .inr hC

/-- Fin-indexed form of the permutation lemma. -/
theorem pick_inverse_fin {A : Type*} (f : Fin n → Bool → A → A) (hf : CommSplit f) (order : List (Fin n))
    (hnd : order.Nodup) (x : A) :
    pick (splitAll f order [x]) (getInverseOrder (order.map (·.1)))
      = .ok (splitAll f (order.toFinset.sort (· ≤ ·)) [x]) := by
  let f' : ℕ → Bool → A → A := fun i b a => if h : i < n then f ⟨i, h⟩ b a else a
  have e : ∀ l : List (Fin n), splitAll f l [x] = splitAll f' (l.map (·.1)) [x] := by
    intro l
    rw [splitAll_map]
    congr 1
    funext d b a
    simp [f']
  have hf' : CommSplit f' := by
    intro d d' b b' a h
    simp only [f']
    split_ifs with h1 h2
    · exact hf _ _ _ _ _ (by simpa [Fin.ext_iff] using h)
    · rfl
    · rfl
    · rfl
  have hnd' : (order.map (·.1)).Nodup := hnd.map Fin.val_injective
  rw [e, pick_inverse f' hf' _ hnd', e]
  congr 3
  apply List.Perm.eq_of_pairwise (le := (· ≤ ·))
  · intro a b _ _ h1 h2; exact le_antisymm h1 h2
  · have h := List.pairwise_mergeSort (le := fun (i j : ℕ) => decide (i ≤ j))
      (fun a b c h1 h2 => by simp only [decide_eq_true_eq] at *; exact h1.trans h2)
      (fun a b => by simp only [Bool.or_eq_true, decide_eq_true_eq]; exact le_total _ _) (order.map (·.1))
    exact h.imp fun h => by simpa using h
  · rw [List.pairwise_map]
    exact (Finset.pairwise_sort order.toFinset (· ≤ ·)).imp fun h => h
  · refine (List.mergeSort_perm _ _).trans (List.Perm.map _ ?_)
    have := Finset.sort_perm_toList order.toFinset (· ≤ ·)
    exact ((List.toFinset_toList hnd).symm).trans this.symm

end Boxes

/-! ### Children -/

section Children

variable {n : ℕ} {K : Type*} [Field K] [LinearOrder K] [IsStrictOrderedRing K]

/-- Relation between a child polynomial (with error) and its sub-box `S` of the unit cube, for the parent
polynomial `M` with error `e`. -/
structure PolyRel (N : ℕ) (M : Tensor n K) (e : K) (p : Tensor n K × K) (S : Box n K) : Prop where
  ordered : S.Ordered
  within : S.Within (Box.unit n K)
  fits : ∀ j, 0 < p.1.shape j ∧ p.1.shape j ≤ N
  close : ∀ x, InCube x → |M.eval (S.map x) - p.1.eval x| ≤ p.2 - e

theorem unit_ordered (n : ℕ) : (Box.unit n K).Ordered := fun i => by simp [Box.unit]

theorem PolyRel.init {N : ℕ} {M : Tensor n K} (hM : ∀ j, 0 < M.shape j ∧ M.shape j ≤ N) (e : K) :
    PolyRel N M e (M, e) (Box.unit n K) where
  ordered := unit_ordered n
  within := fun i => ⟨le_rfl, le_rfl⟩
  fits := hM
  close x hx := by rw [TrackedInterval.unit_map]; simp

theorem PolyRel.step {N : ℕ} {exact : Bool} (hT : TransformOK K n exact N) {M : Tensor n K} {e : K}
    {mid : Fin n → K} (hmid : InCube mid) (d : Fin n) (b : Bool) (p : Tensor n K × K) (S : Box n K)
    (h : PolyRel N M e p S) : PolyRel N M e (splitPoly mid exact d b p) (halfBox mid d b S) := by
  obtain ⟨ho, hw⟩ := halfBox_ok mid hmid d b S h.ordered
  have hm := abs_le.1 (hmid d)
  have key : ∀ α β : K, (∀ t : K, |t| ≤ 1 → |α * t + β| ≤ 1) →
      (∀ x, (halfBox mid d b S).map x = S.map (Function.update x d (α * x d + β))) →
      (∀ j, 0 < (transformND p.1 d α β exact).shape j ∧ (transformND p.1 d α β exact).shape j ≤ N) ∧
      ∀ x, InCube x → |M.eval ((halfBox mid d b S).map x) - (transformND p.1 d α β exact).eval x|
        ≤ getTransformationError p.1 d + p.2 - e := by
    intro α β hαβ hmap
    constructor
    · intro j
      by_cases hj : j = d
      · subst hj
        have := transformND_shape_le exact p.1 j α β (h.fits j).1
        exact ⟨this.1, this.2.trans (h.fits j).2⟩
      · rw [transformND_shape_other exact p.1 d α β j hj]; exact h.fits j
    · intro x hx
      have h1 := hT p.1 (fun j => (h.fits j).1) (fun j => (h.fits j).2) d α β hαβ x hx
      have hc : InCube (Function.update x d (α * x d + β)) := by
        intro i
        by_cases hi : i = d
        · subst hi; rw [Function.update_self]; exact hαβ _ (hx i)
        · rw [Function.update_of_ne hi]; exact hx i
      have h2 := h.close _ hc
      rw [hmap x]
      have h3 := abs_sub_le (M.eval (S.map (Function.update x d (α * x d + β))))
        (p.1.eval (Function.update x d (α * x d + β))) ((transformND p.1 d α β exact).eval x)
      linarith
  cases b with
  | false =>
    have k := key ((mid d + 1) / 2) ((mid d - 1) / 2)
      (by intro t ht; rw [abs_le] at ht ⊢; constructor <;> nlinarith [ht.1, ht.2])
      (by intro x; rw [halfBox_map]; simp)
    exact ⟨ho, within_trans hw h.within, k.1, k.2⟩
  | true =>
    have k := key (-((mid d - 1) / 2)) ((mid d + 1) / 2)
      (by intro t ht; rw [abs_le] at ht ⊢; constructor <;> nlinarith [ht.1, ht.2])
      (by intro x; rw [halfBox_map]; congr 2; simp; ring)
    exact ⟨ho, within_trans hw h.within, k.1, k.2⟩

/-- What a child interval inherits from its parent. -/
structure Inherits (t t' : TrackedInterval n K) : Prop where
  top : t'.topInterval = t.topInterval
  empty : t'.empty = t.empty
  finalStep : t'.finalStep = t.finalStep
  throwFinal : t.finalStep = true → t'.canThrowOutFinalStep = t.canThrowOutFinalStep
  throw' : t.canThrowOutFinalStep = false → t'.canThrowOutFinalStep = false
  preI : t.finalStep = true → t'.preFinalInterval = t.preFinalInterval
  preT : t.finalStep = true → t'.preFinalTransforms = t.preFinalTransforms
  dup : t.finalStep = true → t'.possibleDuplicateRoots = t.possibleDuplicateRoots
  dup' : t.possibleDuplicateRoots = [] → t'.possibleDuplicateRoots = []
  mids : ∀ i, t'.nextTransformPoints i = t.nextTransformPoints i ∨ t'.nextTransformPoints i = 0
  tracks : ∀ B, Tracks B t → Tracks B t'

theorem Inherits.refl (t : TrackedInterval n K) : Inherits t t :=
  ⟨rfl, rfl, rfl, fun _ => rfl, id, fun _ => rfl, fun _ => rfl, fun _ => rfl, id, fun _ => .inl rfl, fun _ h => h⟩

theorem Inherits.trans {t u v : TrackedInterval n K} (h : Inherits t u) (h' : Inherits u v) : Inherits t v where
  top := h'.top.trans h.top
  empty := h'.empty.trans h.empty
  finalStep := h'.finalStep.trans h.finalStep
  throwFinal hf := (h'.throwFinal (h.finalStep.trans hf)).trans (h.throwFinal hf)
  throw' ht := h'.throw' (h.throw' ht)
  preI hf := (h'.preI (h.finalStep.trans hf)).trans (h.preI hf)
  preT hf := (h'.preT (h.finalStep.trans hf)).trans (h.preT hf)
  dup hf := (h'.dup (h.finalStep.trans hf)).trans (h.dup hf)
  dup' hd := h'.dup' (h.dup' hd)
  mids i := by
    rcases h'.mids i with h1 | h1
    · rw [h1]; exact h.mids i
    · exact .inr h1
  tracks B hB := h'.tracks B (h.tracks B hB)

theorem Inherits.copy (t : TrackedInterval n K) : Inherits t t.copy := by
  unfold TrackedInterval.copy
  split_ifs with hf
  · exact ⟨rfl, rfl, hf.symm, fun _ => rfl, id, fun _ => rfl, fun _ => rfl, fun _ => rfl, id, fun _ => .inl rfl,
      fun B h => by have := h.step .copy trivial; simp only [TOp.run, TrackedInterval.copy, hf, if_true] at this; exact this⟩
  · refine ⟨rfl, rfl, ?_, fun h => absurd h hf, fun _ => rfl, fun h => absurd h hf, fun h => absurd h hf,
      fun h => absurd h hf, fun _ => rfl, fun _ => .inl rfl, fun B h => ?_⟩
    · simp only [TrackedInterval.new]; cases h : t.finalStep
      · rfl
      · exact absurd h hf
    · have := h.step .copy trivial
      simp only [TOp.run, TrackedInterval.copy, hf, if_false] at this
      exact this

theorem Inherits.applySub (t : TrackedInterval n K) (s : Box n K) (ho : s.Ordered)
    (hw : s.Within (Box.unit n K)) : Inherits t (t.applySub s) := by
  refine ⟨rfl, rfl, rfl, fun _ => rfl, id, fun _ => rfl, fun _ => rfl, fun _ => rfl, id, fun _ => .inl rfl, ?_⟩
  intro B h
  have := h.step (.add s) hw
  simp only [TOp.run] at this
  have e : t.addTransform s = t.applySub s := by
    rcases TrackedInterval.addTransform_cases t s hw with ⟨⟨i, hi⟩, -⟩ | ⟨s', -, -, he, e⟩
    · exact absurd (ho i) (not_le.2 hi)
    · rw [e, he ho]
  rwa [e] at this

/-- The image of a sub-box of the unit cube in a box. -/
noncomputable def imageBox (B S : Box n K) : Box n K := ⟨B.map S.lo, B.map S.hi⟩

theorem copy_interval (t : TrackedInterval n K) : t.copy.interval = t.interval := by
  unfold TrackedInterval.copy; split_ifs <;> rfl

theorem imageBox_map (B S : Box n K) (x : Fin n → K) : (imageBox B S).map x = B.map (S.map x) := by
  funext i; simp only [imageBox, Box.map]; ring

theorem splitInterval_spec (mid : Fin n → K) (hmid : InCube mid) (d : Fin n) (b : Bool)
    (t : TrackedInterval n K) :
    Inherits t (splitInterval mid d b t) ∧
      (splitInterval mid d b t).interval = halfBox mid d b t.interval := by
  have hm := abs_le.1 (hmid d)
  set sub : Box n K := if b then ⟨Function.update (fun _ => -1) d (mid d), fun _ => 1⟩
    else ⟨fun _ => -1, Function.update (fun _ => 1) d (mid d)⟩ with hsub
  have hb : ∀ i, -1 ≤ sub.lo i ∧ sub.lo i ≤ sub.hi i ∧ sub.hi i ≤ 1 := by
    intro i
    rw [hsub]
    by_cases hi : i = d
    · subst hi; cases b <;> simp [hm]
    · cases b <;> simp [hi]
  have ho : sub.Ordered := fun i => (hb i).2.1
  have hw : sub.Within (Box.unit n K) := fun i => ⟨(hb i).1, (hb i).2.2⟩
  have e : t.copy.addTransform sub = t.copy.applySub sub := by
    rcases TrackedInterval.addTransform_cases t.copy sub hw with ⟨⟨i, hi⟩, -⟩ | ⟨s', -, -, he, e⟩
    · exact absurd (ho i) (not_le.2 hi)
    · rw [e, he ho]
  have h1 := (Inherits.copy t).trans (Inherits.applySub t.copy sub ho hw)
  have hs : splitInterval mid d b t = { t.copy.applySub sub with
      nextTransformPoints := Function.update (t.copy.applySub sub).nextTransformPoints d 0 } := by
    unfold splitInterval
    simp only [← hsub, e]
  rw [hs]
  constructor
  · refine ⟨h1.top, h1.empty, h1.finalStep, h1.throwFinal, h1.throw', h1.preI, h1.preT, h1.dup, h1.dup', ?_, ?_⟩
    · intro i
      by_cases hi : i = d
      · right; simp [hi]
      · simp only [Function.update_of_ne hi]; exact h1.mids i
    · intro B hB
      have := h1.tracks B hB
      exact ⟨this.top, this.ordered, this.image, this.within, this.pre⟩
  · simp only [TrackedInterval.applySub_interval t.copy sub ho hw, copy_interval]
    have e2 : ∀ i, t.interval.map sub.lo i = (halfBox mid d b t.interval).lo i ∧
        t.interval.map sub.hi i = (halfBox mid d b t.interval).hi i := by
      intro i
      by_cases hi : i = d
      · subst hi
        rw [(halfBox_same mid i b t.interval).1, (halfBox_same mid i b t.interval).2, hsub]
        cases b <;> simp [Box.map] <;> ring
      · rw [(halfBox_other mid d b t.interval i hi).1, (halfBox_other mid d b t.interval i hi).2, hsub]
        cases b <;> simp [Box.map, hi] <;> constructor <;> ring
    ext i
    · exact (e2 i).1
    · exact (e2 i).2

theorem halfBox_image (B S : Box n K) (mid : Fin n → K) (d : Fin n) (b : Bool) :
    halfBox mid d b (imageBox B S) = imageBox B (halfBox mid d b S) := by
  apply TrackedInterval.box_eq_of_map
  intro x
  rw [halfBox_map, imageBox_map, imageBox_map, halfBox_map]

/-- Relation between a child interval and its sub-box. -/
def IntervalRel (ti t' : TrackedInterval n K) (S : Box n K) : Prop :=
  Inherits ti t' ∧ t'.interval = imageBox ti.interval S

theorem IntervalRel.init (ti : TrackedInterval n K) : IntervalRel ti ti (Box.unit n K) := by
  refine ⟨Inherits.refl ti, ?_⟩
  apply TrackedInterval.box_eq_of_map
  intro x
  rw [imageBox_map, TrackedInterval.unit_map]

theorem IntervalRel.step {ti : TrackedInterval n K} {mid : Fin n → K} (hmid : InCube mid) (d : Fin n) (b : Bool)
    (t' : TrackedInterval n K) (S : Box n K) (h : IntervalRel ti t' S) :
    IntervalRel ti (splitInterval mid d b t') (halfBox mid d b S) := by
  obtain ⟨h1, h2⟩ := splitInterval_spec mid hmid d b t'
  exact ⟨h.1.trans h1, by rw [h2, h.2, halfBox_image]⟩

theorem mapM_ok {A B : Type*} (f : A → Except Exc B) (g : A → B) (l : List A) (h : ∀ a ∈ l, f a = .ok (g a)) :
    l.mapM f = .ok (l.map g) := by
  induction l with
  | nil => rfl
  | cons a l ih =>
    rw [List.mapM_cons, h a List.mem_cons_self, ih fun b hb => h b (List.mem_cons_of_mem _ hb)]
    rfl

theorem pick_cons {A : Type*} (l : List A) (i : ℕ) (idx : List ℕ) :
    pick l (i :: idx) = match l[i]? with
      | none => .error .indexError
      | some a => match pick l idx with
        | .error e => .error e
        | .ok r => .ok (a :: r) := by
  unfold pick
  rw [List.mapM_cons]
  cases l[i]? with
  | none => rfl
  | some a =>
    simp only
    cases (List.mapM (fun i => match l[i]? with
      | some a => Except.ok a
      | none => Except.error Exc.indexError) idx) <;> rfl

theorem forall₂_pick {A B : Type*} {R : A → B → Prop} {l : List A} {m : List B} (h : List.Forall₂ R l m)
    (idx : List ℕ) {r : List B} (hm : pick m idx = .ok r) :
    ∃ s, pick l idx = .ok s ∧ List.Forall₂ R s r := by
  induction idx generalizing r with
  | nil =>
    have : pick m [] = .ok [] := rfl
    rw [this] at hm; cases hm
    exact ⟨[], rfl, .nil⟩
  | cons i idx ih =>
    rw [pick_cons] at hm ⊢
    have hl := h.length_eq
    rcases Nat.lt_or_ge i m.length with hi | hi
    · have hi' : i < l.length := by omega
      rw [List.getElem?_eq_getElem hi] at hm
      rw [List.getElem?_eq_getElem hi']
      simp only at hm ⊢
      cases hq : pick m idx with
      | error e => rw [hq] at hm; cases hm
      | ok r' =>
        rw [hq] at hm
        obtain ⟨s, hs, hr⟩ := ih hq
        rw [hs]
        cases hm
        exact ⟨_, rfl, .cons (List.Forall₂.get h hi' hi) hr⟩
    · rw [List.getElem?_eq_none hi] at hm
      cases hm

/-- Each polynomial's children are aligned with the sub-boxes in increasing dimension order. -/
theorem polyChildren_spec {N : ℕ} {exact : Bool} (hT : TransformOK K n exact N) {mid : Fin n → K}
    (hmid : InCube mid) {M : Tensor n K} (hM : ∀ j, 0 < M.shape j ∧ M.shape j ≤ N) (e : K)
    (order dims : List (Fin n)) (hnd : dims.Nodup) (hp : order.Perm dims) (hne : n = 1 ∨ dims ≠ []) :
    ∃ P, polyChildren mid exact M e order = .ok P ∧
      List.Forall₂ (PolyRel N M e) P (splitAll (halfBox mid) (dims.toFinset.sort (· ≤ ·)) [Box.unit n K]) := by
  have h := splitAll_forall₂ (R := PolyRel N M e) (f := splitPoly mid exact) (g := halfBox mid) order
    (fun d _ b p S h => h.step hT hmid d b p S) [(M, e)] [Box.unit n K] (.cons (PolyRel.init hM e) .nil)
  have hnd' : order.Nodup := hp.nodup_iff.2 hnd
  have hfs : order.toFinset = dims.toFinset := by ext d; simp [hp.mem_iff]
  unfold polyChildren
  by_cases hn : n = 1
  · simp only [if_pos hn]
    refine ⟨_, rfl, ?_⟩
    have hlen : order.length ≤ 1 := by
      have := hnd'.length_le_card
      simpa [hn] using this
    have : dims.toFinset.sort (· ≤ ·) = order := by
      apply List.Perm.eq_of_pairwise (le := (· ≤ ·))
      · intro a b _ _ h1 h2; exact le_antisymm h1 h2
      · exact (Finset.pairwise_sort dims.toFinset (· ≤ ·)).imp fun h => h
      · match order, hlen with
        | [], _ => exact .nil
        | [a], _ => exact List.pairwise_singleton _ _
      · rw [← hfs]
        exact (Finset.sort_perm_toList order.toFinset (· ≤ ·)).trans (List.toFinset_toList hnd')
    rw [this]
    exact h
  · have hne' : order ≠ [] := by
      rcases hne with h | h
      · exact absurd h hn
      · intro h'; rw [h'] at hp; exact h hp.symm.eq_nil
    simp only [if_neg hn, if_neg hne']
    rw [← hfs]
    exact forall₂_pick h _ (pick_inverse_fin (halfBox mid) (halfBox_comm mid) order hnd' (Box.unit n K))

theorem forall₂_zipIdx {A B C : Type*} {R : A → B → Prop} {Q : C → B → Prop} {l : List A} {m : List B}
    (g : A → ℕ → C) (k : ℕ) (h : List.Forall₂ R l m)
    (hQ : ∀ j a b, m[j]? = some b → R a b → Q (g a (k + j)) b) :
    List.Forall₂ Q ((l.zipIdx k).map fun q => g q.1 q.2) m := by
  induction h generalizing k with
  | nil => exact .nil
  | cons hab _ ih =>
    rw [List.zipIdx_cons, List.map_cons]
    refine .cons ?_ (ih (k + 1) ?_)
    · exact hQ 0 _ _ rfl hab
    · intro j a b hj hr
      have := hQ (j + 1) a b (by simpa using hj) hr
      rwa [show k + (j + 1) = k + 1 + j by ring] at this

theorem getSubdivisionIntervals_spec {N : ℕ} {exact : Bool} (hT : TransformOK K n exact N)
    {argsort : List ℕ → List ℕ} (ha : ArgsortOK argsort) (hn : 0 < n)
    {Ms : Fin n → Tensor n K} (hM : Fits N Ms) (errors : Fin n → K) (ti : TrackedInterval n K)
    (hmid : InCube ti.nextTransformPoints) (level : ℕ) (hne : n = 1 ∨ subDims Ms ti level ≠ []) :
    ∃ cs, getSubdivisionIntervals argsort (fun s => s.sort (· ≤ ·)) Ms errors ti exact level = .ok cs ∧
      List.Forall₂ (fun c S => IntervalRel ti c.ti S ∧
          ∀ i, PolyRel N (Ms i) (errors i) (c.Ms i, c.errors i) S) cs
        (splitAll (halfBox ti.nextTransformPoints) ((subDims Ms ti level).toFinset.sort (· ≤ ·))
          [Box.unit n K]) := by
  have hnd := subDims_nodup hn Ms ti level
  have hp := getSubdivisionDims_perm ha Ms ti level
  unfold getSubdivisionIntervals
  simp only [biUnion_orders ha hn Ms ti level]
  have hcard : ¬ ∃ i, (subDims Ms ti level).toFinset.card ≠ (getSubdivisionDims argsort Ms ti level i).length := by
    rintro ⟨i, hi⟩
    exact hi (by rw [(hp i).length_eq, List.toFinset_card_of_nodup hnd])
  rw [if_neg hcard]
  choose P hP hR using fun i => polyChildren_spec hT hmid (hM i) (errors i)
    (getSubdivisionDims argsort Ms ti level i) (subDims Ms ti level) hnd (hp i) hne
  rw [mapM_ok _ P _ fun i _ => hP i]
  set boxes := splitAll (halfBox ti.nextTransformPoints) ((subDims Ms ti level).toFinset.sort (· ≤ ·))
    [Box.unit n K] with hboxes
  have hI := splitAll_forall₂ (R := IntervalRel ti) (f := splitInterval ti.nextTransformPoints)
    (g := halfBox ti.nextTransformPoints) ((subDims Ms ti level).toFinset.sort (· ≤ ·))
    (fun d _ b p S h => h.step hmid d b p S) [ti] [Box.unit n K] (.cons (IntervalRel.init ti) .nil)
  rw [← hboxes] at hI
  set tis := splitAll (splitInterval ti.nextTransformPoints) ((subDims Ms ti level).toFinset.sort (· ≤ ·)) [ti]
  have hlen : ∀ i, (P i).length = boxes.length := fun i => (hR i).length_eq
  obtain ⟨m, rfl⟩ : ∃ m, n = m + 1 := ⟨n - 1, by omega⟩
  show ∃ cs, zipChildren ((List.finRange (m + 1)).map P) tis = .ok cs ∧ _
  have hall : ∀ p ∈ (List.finRange (m + 1)).map P, p.length = boxes.length := by
    intro p hp
    obtain ⟨i, -, rfl⟩ := List.mem_map.1 hp
    exact hlen i
  have hget : ∀ i : Fin (m + 1), ((List.finRange (m + 1)).map P).getD i [] = P i := by
    intro i
    rw [List.getD_eq_getElem?_getD, List.getElem?_map, List.getElem?_eq_getElem (by simp; omega)]
    simp
  cases hA : (List.finRange (m + 1)).map P with
  | nil => simp [List.finRange_succ] at hA
  | cons p0 rest =>
    rw [hA] at hall hget
    have h0 : p0.length = boxes.length := hall p0 List.mem_cons_self
    simp only [zipChildren]
    rw [if_pos (by intro p hp; rw [h0, hall p hp])]
    refine ⟨_, rfl, ?_⟩
    have htake : tis.take p0.length = tis := by rw [h0, ← hI.length_eq, List.take_length]
    rw [htake]
    apply forall₂_zipIdx (fun a j => (⟨fun i => (childPoly (p0 :: rest) i j).1,
      fun i => (childPoly (p0 :: rest) i j).2, a⟩ : Child (m + 1) K)) 0 hI
    intro j a S hj hr
    refine ⟨hr, fun i => ?_⟩
    have hjl : j < boxes.length := (List.getElem?_eq_some_iff.1 hj).1
    have hjl' : j < (P i).length := by rw [hlen i]; exact hjl
    have hSe : boxes[j] = S := by
      rw [List.getElem?_eq_getElem hjl] at hj; exact Option.some.inj hj
    have := List.Forall₂.get (hR i) hjl' hjl
    simp only [childPoly, hget, Nat.zero_add]
    rw [List.getD_eq_getElem?_getD, List.getElem?_eq_getElem hjl']
    simp only [Option.getD_some]
    rw [← hSe]
    exact this

end Children

end YRoots
