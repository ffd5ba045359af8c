import Verif.Model.Subdivide
import Mathlib.Data.List.Sort
import Mathlib.Data.List.Perm.Subperm
import Mathlib.Algebra.BigOperators.Group.List.Basic
import Mathlib.Tactic.Ring

/-!
# Helper lemmas: `getInverseOrder` and the doubling loop
-/

set_option linter.unusedVariables false
set_option linter.unusedSimpArgs false

namespace YRoots

/-! ### Scatter -/

theorem foldl_set_length (ps : List (ℕ × ℕ)) (out : List ℕ) :
    (ps.foldl (fun out p => out.set p.1 p.2) out).length = out.length := by
  induction ps generalizing out with
  | nil => rfl
  | cons p ps ih => rw [List.foldl_cons, ih, List.length_set]

theorem foldl_set_other (ps : List (ℕ × ℕ)) (out : List ℕ) (i : ℕ) (hi : ∀ p ∈ ps, p.1 ≠ i) :
    (ps.foldl (fun out p => out.set p.1 p.2) out)[i]? = out[i]? := by
  induction ps generalizing out with
  | nil => rfl
  | cons p ps ih =>
    rw [List.foldl_cons, ih _ (fun q hq => hi q (List.mem_cons_of_mem _ hq)),
      List.getElem?_set_ne (hi p List.mem_cons_self)]

theorem foldl_set_mem (ps : List (ℕ × ℕ)) (out : List ℕ) (hnd : (ps.map Prod.fst).Nodup)
    (p : ℕ × ℕ) (hp : p ∈ ps) (hl : p.1 < out.length) :
    (ps.foldl (fun out p => out.set p.1 p.2) out)[p.1]? = some p.2 := by
  induction ps generalizing out with
  | nil => simp at hp
  | cons q ps ih =>
    rw [List.map_cons, List.nodup_cons] at hnd
    rw [List.foldl_cons]
    rcases List.mem_cons.1 hp with rfl | hp
    · rw [foldl_set_other]
      · simp [hl]
      · intro r hr h
        exact hnd.1 (h ▸ List.mem_map_of_mem hr)
    · exact ih _ hnd.2 hp (by rw [List.length_set]; exact hl)

theorem scatter_length (idx : List ℕ) : (scatter idx).length = idx.length := by
  unfold scatter; rw [foldl_set_length]; simp

theorem scatter_get (idx : List ℕ) (h : idx.Perm (List.range idx.length)) (j : ℕ) (v : ℕ)
    (hj : idx[j]? = some v) : (scatter idx)[v]? = some j := by
  have hnd : idx.Nodup := h.nodup_iff.2 List.nodup_range
  have hm : v ∈ idx := List.mem_of_getElem? hj
  have hv : v < idx.length := by
    have := h.mem_iff.1 hm
    simpa using this
  unfold scatter
  apply foldl_set_mem idx.zipIdx _ _ (v, j)
  · rw [List.mem_zipIdx_iff_getElem?]; exact hj
  · simpa using hv
  · simpa using hnd

theorem scatter_perm (idx : List ℕ) (h : idx.Perm (List.range idx.length)) :
    (scatter idx).Perm (List.range idx.length) := by
  have hsub : (List.range idx.length).Subperm (scatter idx) := by
    apply List.subperm_of_subset List.nodup_range
    intro j hj
    rw [List.mem_range] at hj
    have := scatter_get idx h j (idx[j]) (by simp [hj])
    exact List.mem_of_getElem? this
  exact (hsub.perm_of_length_le (by rw [scatter_length]; simp)).symm

/-! ### Argsort -/

theorem argsort_perm (l : List ℕ) : (argsortDistinct l).Perm (List.range l.length) :=
  List.perm_insertionSort _ _

theorem argsort_length (l : List ℕ) : (argsortDistinct l).length = l.length := by
  rw [(argsort_perm l).length_eq, List.length_range]

theorem range_map_getD (l : List ℕ) : (List.range l.length).map (fun i => l.getD i 0) = l := by
  apply List.ext_getElem
  · simp
  · intro i h1 h2
    simp [List.getD_eq_getElem?_getD, h2]

/-- Reading the list through its argsort gives the sorted list. -/
theorem map_argsort (l : List ℕ) :
    (argsortDistinct l).map (fun i => l.getD i 0) = l.mergeSort := by
  apply List.Perm.eq_of_pairwise (le := (· ≤ ·))
  · intro a b _ _ h1 h2; exact le_antisymm h1 h2
  · haveI : Std.Total (fun i j => l.getD i 0 ≤ l.getD j 0) := ⟨fun a b => le_total _ _⟩
    haveI : IsTrans ℕ (fun i j => l.getD i 0 ≤ l.getD j 0) := ⟨fun a b c h1 h2 => le_trans h1 h2⟩
    have h := List.pairwise_insertionSort (fun i j => l.getD i 0 ≤ l.getD j 0) (List.range l.length)
    rw [List.pairwise_map]
    exact h
  · have h := List.pairwise_mergeSort (le := fun (i j : ℕ) => decide (i ≤ j))
      (fun a b c h1 h2 => by simp only [decide_eq_true_eq] at *; exact h1.trans h2)
      (fun a b => by simp only [Bool.or_eq_true, decide_eq_true_eq]; exact le_total _ _) l
    exact h.imp fun h => by simpa using h
  · have h1 := (argsort_perm l).map (fun i => l.getD i 0)
    rw [range_map_getD] at h1
    exact h1.trans (List.mergeSort_perm l _).symm

/-! ### Bit vectors -/

/-- Binary value, first bit most significant. -/
def bval : List ℕ → ℕ
  | [] => 0
  | b :: v => b * 2 ^ v.length + bval v

theorem mem_bitVectors (k : ℕ) (v : List ℕ) :
    v ∈ bitVectors k ↔ v.length = k ∧ ∀ b ∈ v, b = 0 ∨ b = 1 := by
  induction k generalizing v with
  | zero =>
    simp only [bitVectors, List.mem_singleton, List.length_eq_zero_iff]
    constructor
    · rintro rfl; simp
    · exact fun h => h.1
  | succ k ih =>
    simp only [bitVectors, List.mem_append, List.mem_map, ih]
    constructor
    · rintro (⟨u, ⟨h1, h2⟩, rfl⟩ | ⟨u, ⟨h1, h2⟩, rfl⟩)
      · exact ⟨by simp [h1], fun b hb => by
          rcases List.mem_cons.1 hb with rfl | hb
          · exact .inl rfl
          · exact h2 b hb⟩
      · exact ⟨by simp [h1], fun b hb => by
          rcases List.mem_cons.1 hb with rfl | hb
          · exact .inr rfl
          · exact h2 b hb⟩
    · rintro ⟨h1, h2⟩
      cases v with
      | nil => simp at h1
      | cons b u =>
        have hu : u.length = k := by simpa using h1
        have hb := h2 b List.mem_cons_self
        have hr : ∀ b ∈ u, b = 0 ∨ b = 1 := fun b hb => h2 b (List.mem_cons_of_mem _ hb)
        rcases hb with rfl | rfl
        · left; exact ⟨u, ⟨hu, hr⟩, rfl⟩
        · right; exact ⟨u, ⟨hu, hr⟩, rfl⟩

theorem bitVectors_length (k : ℕ) : (bitVectors k).length = 2 ^ k := by
  induction k with
  | zero => rfl
  | succ k ih => simp [bitVectors, ih, pow_succ]; ring

theorem map_bval_bitVectors (k : ℕ) : (bitVectors k).map bval = List.range (2 ^ k) := by
  induction k with
  | zero => rfl
  | succ k ih =>
    have h0 : ((bitVectors k).map fun v => 0 :: v).map bval = (bitVectors k).map bval := by
      rw [List.map_map]; apply List.map_congr_left; intro v _; simp [bval]
    have h1 : ((bitVectors k).map fun v => 1 :: v).map bval
        = ((bitVectors k).map bval).map (fun x => 2 ^ k + x) := by
      rw [List.map_map, List.map_map]; apply List.map_congr_left; intro v hv
      simp [bval, ((mem_bitVectors k v).1 hv).1]
    rw [bitVectors, List.map_append, h0, h1, ih, pow_succ, mul_two, List.range_add]

theorem bval_getElem (k j : ℕ) (v : List ℕ) (h : (bitVectors k)[j]? = some v) : bval v = j := by
  have h1 : ((bitVectors k).map bval)[j]? = some (bval v) := by rw [List.getElem?_map, h]; rfl
  rw [map_bval_bitVectors] at h1
  rw [List.getElem?_eq_some_iff] at h1
  obtain ⟨hj, h2⟩ := h1
  rw [List.getElem_range] at h2
  exact h2.symm

theorem bitVectors_bval (k : ℕ) (v : List ℕ) (hv : v ∈ bitVectors k) :
    (bitVectors k)[bval v]? = some v := by
  obtain ⟨j, hj, h⟩ := List.mem_iff_getElem.1 hv
  have h2 : (bitVectors k)[j]? = some v := by rw [List.getElem?_eq_getElem hj, h]
  rwa [bval_getElem k j v h2]

theorem bval_eq_sum (v : List ℕ) :
    bval v = ((List.range v.length).map fun r => v.getD r 0 * 2 ^ (v.length - 1 - r)).sum := by
  induction v with
  | nil => rfl
  | cons b v ih =>
    rw [bval, ih, List.length_cons, List.range_succ_eq_map, List.map_cons, List.sum_cons, List.map_map]
    simp only [List.getD_cons_zero, Nat.add_sub_cancel, Nat.sub_zero]
    congr 2
    apply List.map_congr_left
    intro r _
    simp only [Function.comp, List.getD_cons_succ]
    congr 2
    omega

theorem dot_eq_sum (u v : List ℕ) (h : v.length = u.length) :
    dot u v = ((List.range u.length).map fun i => u.getD i 0 * v.getD i 0).sum := by
  unfold dot
  congr 1
  apply List.ext_getElem
  · simp [h]
  · intro i h1 h2
    have hi : i < u.length := by simpa using h2
    have hi' : i < v.length := by omega
    simp [hi, hi', List.getD_eq_getElem?_getD]

/-! ### The index computed for a bit vector -/

/-- The bit vector `v` (in the given order of dimensions), read in sorted order. -/
def resorted (order v : List ℕ) : List ℕ := (argsortDistinct order).map fun i => v.getD i 0

theorem dot_eq_bval (order v : List ℕ) (hv : v.length = order.length) :
    dot v ((scatter (argsortDistinct order)).map fun r => 2 ^ (order.length - 1 - r))
      = bval (resorted order v) := by
  have hp := argsort_perm order
  have hl := argsort_length order
  have hp' : (argsortDistinct order).Perm (List.range (argsortDistinct order).length) := by rwa [hl]
  rw [dot_eq_sum _ _ (by rw [List.length_map, scatter_length, hl, hv]), bval_eq_sum]
  have hlen : (resorted order v).length = order.length := by simp [resorted, hl]
  rw [hlen, hv]
  -- sum over positions, reordered by the argsort
  have h1 := (hp.map fun i => v.getD i 0 *
    ((scatter (argsortDistinct order)).map fun r => 2 ^ (order.length - 1 - r)).getD i 0).sum_eq
  rw [← h1]
  congr 1
  apply List.ext_getElem
  · simp [hl]
  · intro r hr1 hr2
    have hr : r < (argsortDistinct order).length := by simpa using hr1
    have hs := scatter_get _ hp' r _ (List.getElem?_eq_getElem hr)
    simp only [List.getElem_map, List.getElem_range, List.getD_eq_getElem?_getD, List.getElem?_map, hs,
      resorted, List.getElem?_eq_getElem hr, Option.map_some, Option.getD_some]

theorem resorted_mem (order v : List ℕ) (hv : v ∈ bitVectors order.length) :
    resorted order v ∈ bitVectors order.length := by
  rw [mem_bitVectors] at hv ⊢
  refine ⟨by simp [resorted, argsort_length], ?_⟩
  intro b hb
  simp only [resorted, List.mem_map] at hb
  obtain ⟨i, hi, rfl⟩ := hb
  rw [(argsort_perm order).mem_iff, List.mem_range, ← hv.1] at hi
  rw [List.getD_eq_getElem?_getD, List.getElem?_eq_getElem hi]
  exact hv.2 _ (List.getElem_mem hi)

theorem resorted_injective (order v v' : List ℕ) (hv : v.length = order.length)
    (hv' : v'.length = order.length) (h : resorted order v = resorted order v') : v = v' := by
  apply List.ext_getElem (by omega)
  intro i hi hi'
  have hm : i ∈ argsortDistinct order := by
    rw [(argsort_perm order).mem_iff, List.mem_range]; omega
  have := List.map_inj_left.1 h i hm
  simpa [List.getD_eq_getElem?_getD, hi, hi'] using this

/-- `newOrder`. -/
def newOrder (order : List ℕ) : List ℕ :=
  (bitVectors order.length).map fun v => bval (resorted order v)

theorem getInverseOrder_eq (order : List ℕ) : getInverseOrder order = scatter (newOrder order) := by
  unfold getInverseOrder newOrder
  dsimp only
  congr 1
  apply List.map_congr_left
  intro v hv
  exact dot_eq_bval order v ((mem_bitVectors _ v).1 hv).1

theorem newOrder_length (order : List ℕ) : (newOrder order).length = 2 ^ order.length := by
  simp [newOrder, bitVectors_length]

theorem newOrder_perm (order : List ℕ) : (newOrder order).Perm (List.range (newOrder order).length) := by
  rw [newOrder_length]
  have hnd : (newOrder order).Nodup := by
    unfold newOrder
    apply List.Nodup.map_on
    · intro v hv v' hv' h
      have h1 := bitVectors_bval _ _ (resorted_mem order v hv)
      have h2 := bitVectors_bval _ _ (resorted_mem order v' hv')
      rw [h, h2] at h1
      exact resorted_injective order v v' ((mem_bitVectors _ v).1 hv).1 ((mem_bitVectors _ v').1 hv').1
        (Option.some.inj h1).symm
    · have h : ((bitVectors order.length).map bval).Nodup := by
        rw [map_bval_bitVectors]; exact List.nodup_range
      exact List.Nodup.of_map _ h
  have hsub : (newOrder order).Subperm (List.range (2 ^ order.length)) := by
    apply List.subperm_of_subset hnd
    intro x hx
    simp only [newOrder, List.mem_map] at hx
    obtain ⟨v, hv, rfl⟩ := hx
    have h1 := bitVectors_bval _ _ (resorted_mem order v hv)
    have h2 := (List.getElem?_eq_some_iff.1 h1).1
    rw [bitVectors_length] at h2
    exact List.mem_range.2 h2
  exact hsub.perm_of_length_le (by rw [newOrder_length]; simp)

/-! ### The doubling loop -/

section Split

variable {A D : Type*}

theorem splitAll_append (f : D → Bool → A → A) (dims : List D) (l l' : List A) :
    splitAll f dims (l ++ l') = splitAll f dims l ++ splitAll f dims l' := by
  unfold splitAll
  induction dims generalizing l l' with
  | nil => rfl
  | cons d ds ih => rw [List.foldl_cons, List.flatMap_append, ih]; rfl

theorem splitAll_cons (f : D → Bool → A → A) (d : D) (ds : List D) (x : A) :
    splitAll f (d :: ds) [x] = splitAll f ds [f d false x] ++ splitAll f ds [f d true x] := by
  rw [← splitAll_append]; rfl

/-- Apply the halves chosen by the bits. -/
def applyBits (f : D → Bool → A → A) (dims : List D) (v : List ℕ) (x : A) : A :=
  (dims.zip v).foldl (fun a p => f p.1 (p.2 = 1) a) x

theorem splitAll_eq (f : D → Bool → A → A) (dims : List D) (x : A) :
    splitAll f dims [x] = (bitVectors dims.length).map fun v => applyBits f dims v x := by
  induction dims generalizing x with
  | nil => rfl
  | cons d ds ih =>
    rw [splitAll_cons, ih, ih, List.length_cons, bitVectors, List.map_append, List.map_map, List.map_map]
    congr 1

theorem splitAll_length (f : D → Bool → A → A) (dims : List D) (x : A) :
    (splitAll f dims [x]).length = 2 ^ dims.length := by
  rw [splitAll_eq, List.length_map, bitVectors_length]

/-- Step-wise related starting points give pointwise related children. -/
theorem splitAll_forall₂ {B : Type*} {R : A → B → Prop} {f : D → Bool → A → A} {g : D → Bool → B → B}
    (dims : List D) (h : ∀ d ∈ dims, ∀ b x y, R x y → R (f d b x) (g d b y)) (l : List A) (m : List B)
    (hl : List.Forall₂ R l m) : List.Forall₂ R (splitAll f dims l) (splitAll g dims m) := by
  unfold splitAll
  induction dims generalizing l m with
  | nil => exact hl
  | cons d ds ih =>
    rw [List.foldl_cons, List.foldl_cons]
    apply ih (fun d' hd' => h d' (List.mem_cons_of_mem _ hd'))
    have hd := h d List.mem_cons_self
    induction hl with
    | nil => exact .nil
    | cons hab _ ih' =>
      simp only [List.flatMap_cons]
      exact .cons (hd false _ _ hab) (.cons (hd true _ _ hab) ih')

end Split

theorem pick_ok {A : Type*} (l : List A) (idx : List ℕ) (h : ∀ i ∈ idx, i < l.length) :
    ∃ r, pick l idx = .ok r ∧ r.length = idx.length ∧
      ∀ (p i : ℕ), idx[p]? = some i → r[p]? = l[i]? := by
  induction idx with
  | nil => exact ⟨[], rfl, rfl, by simp⟩
  | cons i idx ih =>
    obtain ⟨r, hr, hlen, hget⟩ := ih fun j hj => h j (List.mem_cons_of_mem _ hj)
    have hi := h i List.mem_cons_self
    refine ⟨l[i] :: r, ?_, by simp [hlen], ?_⟩
    · unfold pick at hr ⊢
      rw [List.mapM_cons, hr]
      simp only [List.getElem?_eq_getElem hi]
      rfl
    · intro p j hp
      cases p with
      | zero =>
        simp only [List.getElem?_cons_zero, Option.some.injEq] at hp ⊢
        rw [← hp, List.getElem?_eq_getElem hi]
      | succ p => simpa using hget p j (by simpa using hp)

end YRoots

namespace YRoots

theorem splitAll_map {A D E : Type*} (f : E → Bool → A → A) (g : D → E) (dims : List D) (l : List A) :
    splitAll f (dims.map g) l = splitAll (fun d => f (g d)) dims l := by
  unfold splitAll; rw [List.foldl_map]

/-- Specification of `f`: halving along different dimensions commutes. -/
def CommSplit {A D : Type*} (f : D → Bool → A → A) : Prop :=
  ∀ d d' b b' x, d ≠ d' → f d b (f d' b' x) = f d' b' (f d b x)

theorem applyBits_perm {A : Type*} (f : ℕ → Bool → A → A) (hf : CommSplit f) (order : List ℕ)
    (hnd : order.Nodup) (v : List ℕ) (hv : v.length = order.length) (x : A) :
    applyBits f order v x = applyBits f order.mergeSort (resorted order v) x := by
  have hp := argsort_perm order
  have h1 : order.zip v = (List.range order.length).map fun i => (order.getD i 0, v.getD i 0) := by
    apply List.ext_getElem
    · simp [hv]
    · intro i hi1 hi2
      have hi : i < order.length := by simpa using hi2
      have hi' : i < v.length := by omega
      simp [hi, hi', List.getD_eq_getElem?_getD]
  have h2 : order.mergeSort.zip (resorted order v)
      = (argsortDistinct order).map fun i => (order.getD i 0, v.getD i 0) := by
    rw [← map_argsort]
    unfold resorted
    rw [List.zip_map', ]
  unfold applyBits
  rw [h1, h2]
  have hP := hp.symm.map fun i => (order.getD i 0, v.getD i 0)
  apply hP.foldl_eq'
  intro p hpm q hqm z
  obtain ⟨i, hi, rfl⟩ := List.mem_map.1 hpm
  obtain ⟨j, hj, rfl⟩ := List.mem_map.1 hqm
  by_cases hij : i = j
  · subst hij; rfl
  · rw [List.mem_range] at hi hj
    refine hf _ _ _ _ _ ?_
    intro he
    apply hij
    simp only [List.getD_eq_getElem?_getD, List.getElem?_eq_getElem hi, List.getElem?_eq_getElem hj,
      Option.getD_some] at he
    exact ((List.Nodup.getElem_inj_iff hnd).1 he).symm

theorem pick_inverse {A : Type*} (f : ℕ → Bool → A → A) (hf : CommSplit f) (order : List ℕ)
    (hnd : order.Nodup) (x : A) :
    pick (splitAll f order [x]) (getInverseOrder order) = .ok (splitAll f order.mergeSort [x]) := by
  have hN := newOrder_perm order
  have hP := scatter_perm _ hN
  have hlen := newOrder_length order
  have hsl : order.mergeSort.length = order.length := (List.mergeSort_perm order _).length_eq
  rw [getInverseOrder_eq]
  obtain ⟨r, hr, hrl, hget⟩ := pick_ok (splitAll f order [x]) (scatter (newOrder order)) (by
    intro i hi
    rw [hP.mem_iff, List.mem_range, hlen] at hi
    rwa [splitAll_length])
  rw [hr]
  congr 1
  apply List.ext_getElem?
  intro p
  by_cases hp : p < 2 ^ order.length
  · -- the position `j` with `newOrder[j] = p`
    have hm : p ∈ newOrder order := by rw [hN.mem_iff, hlen]; exact List.mem_range.2 hp
    obtain ⟨j, hj, hjp⟩ := List.mem_iff_getElem.1 hm
    have hjp' : (newOrder order)[j]? = some p := by rw [List.getElem?_eq_getElem hj, hjp]
    have hs := scatter_get _ hN j p hjp'
    rw [hget p j hs, splitAll_eq, splitAll_eq, hsl, List.getElem?_map, List.getElem?_map]
    have hj2 : j < (bitVectors order.length).length := by rw [bitVectors_length, ← hlen]; exact hj
    set v := (bitVectors order.length)[j] with hv
    have hvm : v ∈ bitVectors order.length := List.getElem_mem hj2
    have hval : bval (resorted order v) = p := by
      have : (newOrder order)[j]? = some (bval (resorted order v)) := by
        unfold newOrder
        rw [List.getElem?_map, List.getElem?_eq_getElem hj2, ← hv]; rfl
      rw [this] at hjp'
      exact Option.some.inj hjp'
    have hb := bitVectors_bval _ _ (resorted_mem order v hvm)
    rw [hval] at hb
    rw [hb, List.getElem?_eq_getElem hj2, ← hv]
    simp only [Option.map_some]
    rw [applyBits_perm f hf order hnd v ((mem_bitVectors _ v).1 hvm).1]
  · have h1 : r.length ≤ p := by rw [hrl, scatter_length, hlen]; omega
    have h2 : (splitAll f order.mergeSort [x]).length ≤ p := by rw [splitAll_length, hsl]; omega
    rw [List.getElem?_eq_none h1, List.getElem?_eq_none h2]

end YRoots
