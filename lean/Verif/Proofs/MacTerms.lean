import Verif.Model.Macaulay
import Verif.Props.MonCombos

/-! # Helper lemmas on the ordered monomials -/

namespace YRoots.Legacy

variable {dim : ℕ}

theorem mem_highestRev (hd : 1 ≤ dim) (d : ℕ) (m : List ℕ) : m ∈ highestRev dim d ↔ m.length = dim ∧ m.sum = d := by
  rw [highestRev, List.mem_reverse]; exact (C56_monomials d dim hd).1.1 m

theorem nodup_highestRev (hd : 1 ≤ dim) (d : ℕ) : (highestRev dim d).Nodup := by
  rw [highestRev, List.nodup_reverse]; exact (C56_monomials d dim hd).1.2.1

theorem length_highestRev (hd : 1 ≤ dim) (d : ℕ) : (highestRev dim d).length = (d + dim - 1).choose d := by
  rw [highestRev, List.length_reverse]; exact (C56_monomials d dim hd).1.2.2

theorem mem_otherMons (hd : 1 ≤ dim) (d : ℕ) (m : List ℕ) : m ∈ otherMons dim d ↔ m.length = dim ∧ 2 ≤ m.sum ∧ m.sum ≤ d := by
  induction d using otherMons.induct with
  | case1 => simp only [otherMons, List.not_mem_nil, false_iff]; omega
  | case2 => simp only [otherMons, List.not_mem_nil, false_iff]; omega
  | case3 d ih => rw [otherMons, List.mem_append, ih, mem_highestRev hd]; omega

theorem pairwise_append_of {α : Type*} {R : α → α → Prop} {l l' : List α} (h : l.Pairwise R) (h' : l'.Pairwise R)
    (hh : ∀ a ∈ l, ∀ b ∈ l', R a b) : (l ++ l').Pairwise R := List.pairwise_append.2 ⟨h, h', hh⟩

/-- Different entries, degrees not increasing. -/
def Before (a b : List ℕ) : Prop := a ≠ b ∧ b.sum ≤ a.sum

theorem before_of_lt {a b : List ℕ} (h : b.sum < a.sum) : Before a b := ⟨fun e => by rw [e] at h; omega, h.le⟩

theorem pairwise_highestRev (hd : 1 ≤ dim) (d : ℕ) : (highestRev dim d).Pairwise Before := by
  refine List.Pairwise.imp_of_mem ?_ (nodup_highestRev hd d)
  intro a b ha hb hab
  exact ⟨hab, by rw [((mem_highestRev hd d a).1 ha).2, ((mem_highestRev hd d b).1 hb).2]⟩

theorem pairwise_otherMons (hd : 1 ≤ dim) (d : ℕ) : (otherMons dim d).Pairwise Before := by
  induction d using otherMons.induct with
  | case1 => exact List.Pairwise.nil
  | case2 => exact List.Pairwise.nil
  | case3 d ih =>
    rw [otherMons]
    refine pairwise_append_of (pairwise_highestRev hd _) ih fun a ha b hb => before_of_lt ?_
    have h1 := (mem_highestRev hd _ a).1 ha
    have h2 := (mem_otherMons hd _ b).1 hb
    omega

theorem foldl_prefix (g : List ℕ → ℕ → List (List ℕ) × List ℕ) (l : List ℕ) (a : List (List ℕ)) (t : List ℕ) :
    ∃ r, (l.foldl (fun (st : List (List ℕ) × List ℕ) i => (st.1 ++ (g st.2 i).1, (g st.2 i).2)) (a, t)).1 = a ++ r := by
  induction l generalizing a t with
  | nil => exact ⟨[], by simp⟩
  | cons x l ih =>
    rw [List.foldl_cons]
    obtain ⟨r, hr⟩ := ih (a ++ (g t x).1) (g t x).2
    exact ⟨(g t x).1 ++ r, by rw [hr, List.append_assoc]⟩

theorem set_self (mon : List ℕ) (spot : ℕ) (h : mon.getD spot 0 = 0) : mon.set spot 0 = mon := by
  by_cases hs : spot < mon.length
  · rw [List.getD_eq_getElem _ _ hs] at h
    rw [← h]; exact List.set_getElem_self hs
  · exact List.set_eq_of_length_le (by omega)

/-- The first of the monomials is `1`. -/
theorem monCombos_head (d : ℕ) (mon : List ℕ) (left spot : ℕ) (h : ∀ j, spot ≤ j → mon.getD j 0 = 0) :
    ∃ l, (monCombos d mon left spot).1 = mon :: l := by
  induction d generalizing mon left spot with
  | zero =>
    simp only [monCombos]
    rw [List.range_succ_eq_map, List.map_cons, set_self _ _ (h spot le_rfl)]
    exact ⟨_, rfl⟩
  | succ d ih =>
    rw [monCombos]
    by_cases hl : left = 0
    · rw [if_pos hl]; exact ⟨[], rfl⟩
    · rw [if_neg hl]
      simp only [List.range_succ_eq_map, List.foldl_cons, List.nil_append, set_self _ _ (h spot le_rfl), Nat.sub_zero]
      obtain ⟨l, hl⟩ := ih mon left (spot + 1) fun j hj => h j (by omega)
      rw [hl]
      obtain ⟨r, hr⟩ := foldl_prefix (fun t i => monCombos d (t.set spot i) (left - i) (spot + 1))
        (List.map Nat.succ (List.range left)) (mon :: l) (monCombos d mon left (spot + 1)).2
      exact ⟨l ++ r, hr⟩

/-- The monomials of degree at most one. -/
theorem monCombos_one (dim : ℕ) (hd : 1 ≤ dim) :
    ∃ l, (monCombos (dim - 1) (List.replicate dim 0) 1 0).1 = List.replicate dim 0 :: l ∧ ∀ m ∈ l, m.sum = 1 := by
  have hmem := (C56_monomials 1 dim hd).2.1
  have hnd := (C56_monomials 1 dim hd).2.2.1
  have hhead : ∃ l, (monCombos (dim - 1) (List.replicate dim 0) 1 0).1 = List.replicate dim 0 :: l :=
    monCombos_head _ _ _ _ fun j _ => replicate_zero dim j
  obtain ⟨l, hl⟩ := hhead
  refine ⟨l, hl, fun m hm => ?_⟩
  rw [hl] at hmem hnd
  have h1 := (hmem m).1 (List.mem_cons_of_mem _ hm)
  have h2 : m ≠ List.replicate dim 0 := fun e => (List.nodup_cons.1 hnd).1 (e ▸ hm)
  by_contra h3
  have h4 : m.sum = 0 := by omega
  refine h2 (List.eq_replicate_iff.2 ⟨h1.1, fun b hb => ?_⟩)
  exact List.sum_eq_zero_iff.1 h4 b hb

theorem pairwise_xs (hd : 1 ≤ dim) : (monCombos (dim - 1) (List.replicate dim 0) 1 0).1.reverse.Pairwise Before := by
  rw [List.pairwise_reverse]
  have hnd := (C56_monomials 1 dim hd).2.2.1
  obtain ⟨l, hl, h1⟩ := monCombos_one dim hd
  rw [hl] at hnd ⊢
  rw [List.nodup_cons] at hnd
  rw [List.pairwise_cons]
  refine ⟨fun a ha => before_of_lt (by rw [h1 a ha]; simp), ?_⟩
  refine List.Pairwise.imp_of_mem ?_ hnd.2
  intro a b ha hb hab
  exact ⟨fun e => hab e.symm, by rw [h1 a ha, h1 b hb]⟩

theorem mem_terms (hd : 1 ≤ dim) {degree : ℕ} (hD : 1 ≤ degree) (m : List ℕ) :
    m ∈ (sortedMatrixTerms degree dim).1 ↔ m.length = dim ∧ m.sum ≤ degree := by
  have hx := (C56_monomials 1 dim hd).2.1 m
  simp only [sortedMatrixTerms]
  by_cases h1 : degree = 1
  · rw [if_pos h1, List.mem_reverse, hx, h1]
  · rw [if_neg h1]
    simp only [List.mem_append, List.mem_reverse, hx, mem_otherMons hd, mem_highestRev hd]
    omega

theorem pairwise_terms (hd : 1 ≤ dim) {degree : ℕ} (hD : 1 ≤ degree) : (sortedMatrixTerms degree dim).1.Pairwise Before := by
  simp only [sortedMatrixTerms]
  by_cases h1 : degree = 1
  · rw [if_pos h1]; exact pairwise_xs hd
  · rw [if_neg h1]
    refine pairwise_append_of (pairwise_append_of (pairwise_highestRev hd _) (pairwise_otherMons hd _) ?_) (pairwise_xs hd) ?_
    · intro a ha b hb
      have h2 := (mem_highestRev hd _ a).1 ha
      have h3 := (mem_otherMons hd _ b).1 hb
      exact before_of_lt (by omega)
    · intro a ha b hb
      have h3 := ((C56_monomials 1 dim hd).2.1 b).1 (List.mem_reverse.1 hb)
      rw [List.mem_append, mem_highestRev hd, mem_otherMons hd] at ha
      exact before_of_lt (by omega)

end YRoots.Legacy
