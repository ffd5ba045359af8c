import Verif.Proofs.Permutations
import Verif.Spec.Rows
import Mathlib.Tactic.LinearCombination

/-!
# Helper lemmas: index arrays multiply rows
-/

set_option linter.unusedSectionVars false
set_option linter.unusedVariables false
set_option linter.unusedSimpArgs false

namespace YRoots.Legacy

variable {K : Type*} [CommRing K]

/-- The sum of exponent tuples. -/
def addMon (a m : List ℕ) : List ℕ := List.zipWith (· + ·) a m

/-- The index array sends the entry of a monomial to the entry of `a` times the monomial. -/
structure MulPerm (dim D : ℕ) (a : List ℕ) (P : List ℕ) : Prop where
  perm : P.Perm (List.range (cols dim D).length)
  mul : ∀ k < (cols dim D).length, addMon a ((cols dim D).getD (P.getD k 0) []) = (cols dim D).getD k [] ∨
    D < ((cols dim D).getD (P.getD k 0) []).sum + a.sum

theorem MulPerm.length {dim D : ℕ} {a P : List ℕ} (h : MulPerm dim D a P) : P.length = (cols dim D).length := by
  rw [h.perm.length_eq, List.length_range]

theorem MulPerm.lt {dim D : ℕ} {a P : List ℕ} (h : MulPerm dim D a P) {k : ℕ} (hk : k < (cols dim D).length) :
    P.getD k 0 < (cols dim D).length := by
  have : P.getD k 0 ∈ P := by
    rw [List.getD_eq_getElem _ _ (by rw [h.length]; exact hk)]; exact List.getElem_mem _
  simpa using h.perm.mem_iff.1 this

theorem getD_gather {α : Type*} [Zero α] (r : List α) (P : List ℕ) {k : ℕ} (hk : k < P.length) :
    (gather r P).getD k 0 = r.getD (P.getD k 0) 0 := by
  rw [gather, List.getD_eq_getElem _ _ (by simpa using hk), List.getElem_map, List.getD_eq_getElem _ _ hk]

theorem length_gather {α : Type*} [Zero α] (r : List α) (P : List ℕ) : (gather r P).length = P.length := by simp [gather]

/-- Summing along a permutation. -/
theorem sum_perm {N : ℕ} {P : List ℕ} (hP : P.Perm (List.range N)) (f : ℕ → K) :
    ∑ k ∈ Finset.range N, f (P.getD k 0) = ∑ k ∈ Finset.range N, f k := by
  have hl : P.length = N := by rw [hP.length_eq, List.length_range]
  have hn : P.Nodup := hP.nodup_iff.2 List.nodup_range
  refine Finset.sum_bij (fun k _ => P.getD k 0) (fun k hk => ?_) (fun a ha b hb hab => ?_) (fun b hb => ?_) (fun _ _ => rfl)
  · have hk' : k < P.length := by rw [hl]; exact Finset.mem_range.1 hk
    rw [List.getD_eq_getElem _ _ hk']
    simpa using hP.mem_iff.1 (List.getElem_mem hk')
  · have ha' : a < P.length := by rw [hl]; exact Finset.mem_range.1 ha
    have hb' : b < P.length := by rw [hl]; exact Finset.mem_range.1 hb
    rw [List.getD_eq_getElem _ _ ha', List.getD_eq_getElem _ _ hb'] at hab
    exact (List.Nodup.getElem_inj_iff hn).1 hab
  · have : b ∈ P := hP.mem_iff.2 (by simpa using hb)
    obtain ⟨k, hk, rfl⟩ := List.getElem_of_mem this
    exact ⟨k, by rw [Finset.mem_range, ← hl]; exact hk, List.getD_eq_getElem _ _ hk⟩

theorem MulPerm.rowSum {dim D : ℕ} {a P : List ℕ} (h : MulPerm dim D a P) (r : List K) (φ : List ℕ → K)
    (hr : LowRow (cols dim D) D a.sum r) :
    rowSum (cols dim D) (gather r P) φ = rowSum (cols dim D) r fun m => φ (addMon a m) := by
  unfold Legacy.rowSum
  rw [← sum_perm h.perm fun k => r.getD k 0 * φ (addMon a ((cols dim D).getD k []))]
  refine Finset.sum_congr rfl fun k hk => ?_
  have hk := Finset.mem_range.1 hk
  rw [getD_gather r P (by rw [h.length]; exact hk)]
  rcases h.mul k hk with h1 | h1
  · rw [h1]
  · rw [hr _ (h.lt hk) h1, zero_mul, zero_mul]

theorem getD_mem_cols {dim D k : ℕ} (hk : k < (cols dim D).length) : (cols dim D).getD k [] ∈ cols dim D := by
  rw [List.getD_eq_getElem _ _ hk]; exact List.getElem_mem _

theorem addMon_assoc : ∀ (a b m : List ℕ), addMon a (addMon b m) = addMon (addMon a b) m
  | [], b, m => by simp [addMon]
  | a :: l, [], m => by simp [addMon]
  | a :: l, b :: l', [] => by simp [addMon]
  | a :: l, b :: l', c :: m => by
    have := addMon_assoc l l' m
    simp only [addMon, List.zipWith_cons_cons, List.cons.injEq] at this ⊢
    exact ⟨by omega, this⟩

theorem addMon_sum : ∀ (a b : List ℕ), a.length = b.length → (addMon a b).sum = a.sum + b.sum
  | [], [], _ => by simp [addMon]
  | a :: l, b :: l', h => by
    have := addMon_sum l l' (by simpa using h)
    simp only [addMon, List.zipWith_cons_cons, List.sum_cons] at this ⊢
    omega

theorem addMon_zero : ∀ (m : List ℕ), addMon (List.replicate m.length 0) m = m
  | [] => rfl
  | a :: m => by
    have := addMon_zero m
    simp only [addMon] at this
    simp [addMon, List.replicate_succ, this]

/-- Composition of index arrays. -/
theorem MulPerm.comp {dim D : ℕ} (hd : 1 ≤ dim) {a b P Q : List ℕ} (ha : a.length = dim) (hb : b.length = dim)
    (hP : MulPerm dim D a P) (hQ : MulPerm dim D b Q) : MulPerm dim D (addMon b a) (gather P Q) := by
  refine ⟨?_, fun k hk => ?_⟩
  · have : (gather P Q).Perm (gather P (List.range (cols dim D).length)) := hQ.perm.map _
    refine this.trans ?_
    have h2 : gather P (List.range (cols dim D).length) = P := by
      refine List.ext_getElem (by simp [gather, hP.length]) fun k h1 h2 => ?_
      simp [gather, List.getElem?_eq_getElem h2]
    rw [h2]
    exact hP.perm
  · rw [getD_gather P Q (by rw [hQ.length]; exact hk), addMon_sum b a (by omega)]
    have hj := hQ.lt hk
    have hlen : ((cols dim D).getD (P.getD (Q.getD k 0) 0) []).length = dim :=
      ((mem_cols hd D _).1 (getD_mem_cols (hP.lt hj))).1
    rcases hP.mul _ hj with h1 | h1
    · rcases hQ.mul k hk with h2 | h2
      · left
        rw [← addMon_assoc, h1, h2]
      · right
        rw [← h1, addMon_sum a _ (by omega)] at h2
        omega
    · right; omega

/-! ### One variable -/

theorem map_getD_range (L : List (List ℕ)) : (List.range L.length).map (fun k => L.getD k []) = L := by
  refine List.ext_getElem (by simp) fun k h1 h2 => ?_
  simp [List.getElem?_eq_getElem h2]

theorem whereTrue_map (L : List (List ℕ)) (p : List ℕ → Bool) :
    (whereTrue (L.map p)).map (fun k => L.getD k []) = L.filter p := by
  conv_rhs => rw [← map_getD_range L, List.filter_map]
  unfold whereTrue
  rw [List.length_map]
  congr 1
  refine List.filter_congr fun k hk => ?_
  have hk := List.mem_range.1 hk
  rw [Function.comp, List.getD_eq_getElem _ _ (by simpa using hk), List.getElem_map, List.getD_eq_getElem _ _ hk]

theorem incAt_eq_addMon {dim i : ℕ} (c : ℕ) (hi : i < dim) (m : List ℕ) (hm : m.length = dim) :
    addMon (varMon dim i c) m = incAt i c m := by
  refine ext_getD (by simp [addMon, varMon, incAt, hm]) fun k => ?_
  unfold incAt
  rw [getD_set]
  by_cases hk : k < dim
  · rw [addMon, List.getD_eq_getElem _ _ (by simp [varMon, hm, hk]), List.getElem_zipWith, ← List.getD_eq_getElem _ 0,
      ← List.getD_eq_getElem _ 0, varMon_getD hi]
    by_cases hki : k = i
    · subst hki; rw [if_pos rfl, if_pos ⟨rfl, by omega⟩]; omega
    · rw [if_neg hki, if_neg (by tauto)]; omega
  · rw [getD_beyond _ _ (by simp [addMon, varMon, hm]; omega), if_neg (by omega), getD_beyond _ _ (by omega)]

theorem sum_varMon {dim i : ℕ} (c : ℕ) (hi : i < dim) : (varMon dim i c).sum = c := by
  unfold varMon
  induction dim generalizing i with
  | zero => omega
  | succ n ih =>
    cases i with
    | zero => simp [List.replicate_succ]
    | succ i => simpa [List.replicate_succ] using ih (i := i) (by omega)

theorem permutationArray_mul {dim D i : ℕ} (hi : i < dim) (hD : 1 ≤ D) :
    MulPerm dim D (varMon dim i 1) (permutationArray D dim (dim - 1 - i)) := by
  obtain ⟨E, rfl⟩ : ∃ E, D = E + 1 := ⟨D - 1, by omega⟩
  have hd : 1 ≤ dim := by omega
  set L := cols dim (E + 1) with hL
  have hbits := permBits_eq (dim := dim) (mon := dim - 1 - i) (D := E + 1) (by omega) (by omega)
  rw [show dim - 1 - (dim - 1 - i) = i by omega] at hbits
  set F := whereTrue ((L.map (divBy i)).map (! ·)) with hF
  set T := whereTrue (L.map (divBy i)) with hT
  have hPeq : permutationArray (E + 1) dim (dim - 1 - i) = inverseP (F ++ T) := by
    unfold permutationArray
    rw [hbits]
  have hFT : (F ++ T).Perm (List.range L.length) := by
    have h1 : F = (List.range L.length).filter fun k => !((L.map (divBy i)).getD k false) := by
      rw [hF, whereTrue, List.length_map, List.length_map]
      refine List.filter_congr fun k hk => ?_
      have hk := List.mem_range.1 hk
      rw [List.getD_eq_getElem _ _ (by simpa using hk), List.getElem_map, List.getD_eq_getElem _ _ (by simpa using hk)]
    have h2 : T = (List.range L.length).filter fun k => (L.map (divBy i)).getD k false := by
      rw [hT, whereTrue, List.length_map]
    rw [h1, h2]
    refine List.perm_append_comm.trans ?_
    exact List.filter_append_perm _ _
  have hlen : (F ++ T).length = L.length := by rw [hFT.length_eq, List.length_range]
  obtain ⟨hi1, hi2, hi3⟩ := C62_inverse_P (F ++ T) (by rw [hlen]; exact hFT)
  have hTm : T.map (fun k => L.getD k []) = (cols dim E).map (incAt i 1) := by
    rw [hT, whereTrue_map, hL, filter_cols hd hi]
  have hTl : T.length = (cols dim E).length := by simpa using congrArg List.length hTm
  have hLe : L = (asc dim (E + 1)).reverse ++ cols dim E := cols_succ hd E
  have hFl : F.length = (asc dim (E + 1)).reverse.length := by
    have h1 : F.length + T.length = L.length := by rw [← List.length_append]; exact hlen
    have h2 := congrArg List.length hLe
    rw [List.length_append] at h2
    omega
  rw [hPeq]
  refine ⟨?_, fun k hk => ?_⟩
  · refine (List.perm_ext_iff_of_nodup ?_ List.nodup_range).2 fun a => ?_
    · rw [List.nodup_iff_injective_getElem]
      intro a b hab
      have ha : a.1 < (F ++ T).length := lt_of_lt_of_eq a.2 hi1
      have hb : b.1 < (F ++ T).length := lt_of_lt_of_eq b.2 hi1
      obtain ⟨_, e1⟩ := hi3 a ha
      obtain ⟨_, e2⟩ := hi3 b hb
      have hab2 : (inverseP (F ++ T)).getD a.1 0 = (inverseP (F ++ T)).getD b.1 0 := by
        rw [List.getD_eq_getElem _ _ a.2, List.getD_eq_getElem _ _ b.2]; exact hab
      simp only [hab2] at e1
      exact Fin.ext (e1.symm.trans e2)
    · rw [List.mem_range]
      constructor
      · intro ha
        obtain ⟨x, hx, rfl⟩ := List.getElem_of_mem ha
        obtain ⟨h1, -⟩ := hi3 x (by rw [← hi1]; exact hx)
        rw [List.getD_eq_getElem _ _ hx, hlen] at h1
        exact h1
      · intro ha
        have ha' : a < (F ++ T).length := by rw [hlen]; exact ha
        have hlt : (F ++ T)[a] < (inverseP (F ++ T)).length := by
          rw [hi1, hlen]
          simpa using hFT.mem_iff.1 (List.getElem_mem ha')
        have := hi2 a ha'
        rw [List.getD_eq_getElem _ _ hlt] at this
        rw [← this]
        exact List.getElem_mem _
  · obtain ⟨hj, hk2⟩ := hi3 k (by rw [hlen]; exact hk)
    set j := (inverseP (F ++ T)).getD k 0 with hjdef
    rw [sum_varMon 1 hi]
    by_cases hjF : j < F.length
    · right
      rw [← hL, hLe, List.getD_append _ _ _ _ (by omega), List.getD_eq_getElem _ _ (by omega)]
      have := List.getElem_mem (l := (asc dim (E + 1)).reverse) (n := j) (by omega)
      rw [List.mem_reverse, mem_asc] at this
      omega
    · left
      rw [← hL]
      rw [List.length_append] at hj
      have hjT : j - F.length < T.length := by omega
      rw [List.getElem_append_right (by omega)] at hk2
      have e1 : L.getD k [] = (T.map fun k => L.getD k []).getD (j - F.length) [] := by
        rw [List.getD_eq_getElem (T.map _) _ (by simpa using hjT), List.getElem_map, hk2]
      have e2 : L.getD j [] = (cols dim E).getD (j - F.length) [] := by
        rw [hLe, List.getD_append_right _ _ _ _ (by omega), hFl]
      rw [e1, e2, hTm]
      have hjE : j - F.length < (cols dim E).length := by omega
      rw [List.getD_eq_getElem (List.map _ _) _ (by simpa using hjE), List.getElem_map, List.getD_eq_getElem _ _ hjE]
      exact incAt_eq_addMon 1 hi _ ((mem_cols hd E _).1 (List.getElem_mem hjE)).1

/-! ### The dictionary -/

/-- All entries of the dictionary are right. -/
def GoodPerms (dim D B : ℕ) (perms : List (List ℕ × List ℕ)) : Prop :=
  ∀ e ∈ perms, e.1.length = dim ∧ e.1.sum ≤ B ∧ MulPerm dim D e.1 e.2

theorem lookup_mem {α β : Type*} [BEq α] [LawfulBEq α] {a : α} {b : β} : ∀ {l : List (α × β)}, l.lookup a = some b → (a, b) ∈ l
  | [], h => by simp at h
  | (x, y) :: l, h => by
    rw [List.lookup_cons] at h
    by_cases hax : (a == x) = true
    · rw [hax] at h
      have : a = x := eq_of_beq hax
      subst this
      simp only [Option.some.injEq] at h
      exact h ▸ List.mem_cons_self
    · rw [Bool.not_eq_true] at hax
      rw [hax] at h
      exact List.mem_cons_of_mem _ (lookup_mem h)

theorem lookup_isSome_cons {α β : Type*} [BEq α] [LawfulBEq α] {a : α} {l : List (α × β)} (e : α × β)
    (h : (l.lookup a).isSome) : ((e :: l).lookup a).isSome := by
  obtain ⟨x, y⟩ := e
  rw [List.lookup_cons]
  cases hax : a == x with
  | true => rfl
  | false => exact h

theorem lookup_isSome_self {α β : Type*} [BEq α] [LawfulBEq α] (a : α) (b : β) (l : List (α × β)) :
    (((a, b) :: l).lookup a).isSome := by
  simp [List.lookup_cons]

theorem permInit_spec {dim D : ℕ} (hd : 1 ≤ dim) (hD : 1 ≤ D) :
    GoodPerms dim D 1 (permInit dim D) ∧ ∀ m : List ℕ, m.length = dim → m.sum ≤ 1 → ((permInit dim D).lookup m).isSome := by
  set z : List ℕ × List ℕ := (List.replicate dim 0, List.range (((List.range (D + 1)).map fun d => numMons d dim).sum)) with hz
  have key : ∀ j, j ≤ dim →
      GoodPerms dim D 1 ((List.range j).foldl (fun perms i =>
        (varMon dim i 1, permutationArray D dim (dim - 1 - i)) :: perms) [z]) ∧
      (((List.range j).foldl (fun perms i =>
        (varMon dim i 1, permutationArray D dim (dim - 1 - i)) :: perms) [z]).lookup (List.replicate dim 0)).isSome ∧
      ∀ i < j, (((List.range j).foldl (fun perms i =>
        (varMon dim i 1, permutationArray D dim (dim - 1 - i)) :: perms) [z]).lookup (varMon dim i 1)).isSome := by
    intro j
    induction j with
    | zero =>
      intro _
      refine ⟨fun e he => ?_, lookup_isSome_self _ _ _, fun i hi => by omega⟩
      simp only [List.range_zero, List.foldl_nil, List.mem_singleton] at he
      subst he
      refine ⟨by simp [hz], by simp [hz], ?_, fun k hk => .inl ?_⟩
      · rw [hz, ← length_cols hd]
      · rw [hz, ← length_cols hd]
        have h1 : (List.range (cols dim D).length).getD k 0 = k := by
          rw [List.getD_eq_getElem _ _ (by simpa using hk), List.getElem_range]
        simp only [h1]
        have := ((mem_cols hd D _).1 (getD_mem_cols hk)).1
        have h2 := addMon_zero ((cols dim D).getD k [])
        rwa [this] at h2
    | succ j ih =>
      intro hj
      obtain ⟨h1, h2, h3⟩ := ih (by omega)
      simp only [List.range_succ, List.foldl_append, List.foldl_cons, List.foldl_nil]
      refine ⟨fun e he => ?_, lookup_isSome_cons _ h2, fun i hi => ?_⟩
      · rcases List.mem_cons.1 he with rfl | he
        · exact ⟨by simp [varMon], by rw [sum_varMon 1 (by omega)], permutationArray_mul (by omega) hD⟩
        · exact h1 e he
      · by_cases hij : i = j
        · subst hij; exact lookup_isSome_self _ _ _
        · exact lookup_isSome_cons _ (h3 i (by omega))
  obtain ⟨h1, h2, h3⟩ := key dim le_rfl
  refine ⟨h1, fun m hm hs => ?_⟩
  by_cases hm0 : m.sum = 0
  · have : m = List.replicate dim 0 := by
      rw [List.eq_replicate_iff]
      exact ⟨hm, fun b hb => List.sum_eq_zero_iff.1 hm0 b hb⟩
    rw [this]; exact h2
  · have hmem : m ∈ (asc dim 1).reverse := by rw [List.mem_reverse, mem_asc]; omega
    rw [asc_one, List.mem_map] at hmem
    obtain ⟨i, hi, rfl⟩ := hmem
    exact h3 i (List.mem_range.1 hi)

theorem subVar_some {mon diff : List ℕ} {i : ℕ} (h : subVar mon i = some diff) (hi : i < mon.length) :
    diff.length = mon.length ∧ diff.sum + 1 = mon.sum ∧ addMon diff (varMon mon.length i 1) = mon := by
  unfold subVar at h
  split_ifs at h with h1
  rw [Option.some.injEq] at h
  subst h
  have hadd : addMon (mon.set i (mon.getD i 0 - 1)) (varMon mon.length i 1) = mon := by
    refine ext_getD (by simp [addMon, varMon]) fun k => ?_
    by_cases hk : k < mon.length
    · rw [addMon, List.getD_eq_getElem _ _ (by simp [varMon, hk]), List.getElem_zipWith, ← List.getD_eq_getElem _ 0,
        ← List.getD_eq_getElem _ 0, varMon_getD hi, getD_set]
      by_cases hki : k = i
      · subst hki; rw [if_pos ⟨rfl, hi⟩, if_pos rfl]; omega
      · rw [if_neg (by tauto), if_neg hki]; omega
    · rw [getD_beyond _ _ (by simp [addMon, varMon]; omega), getD_beyond _ _ (by omega)]
  refine ⟨by simp, ?_, hadd⟩
  have := congrArg List.sum hadd
  rw [addMon_sum _ _ (by simp [varMon]), sum_varMon 1 hi] at this
  exact this

theorem exists_pos_of_sum {m : List ℕ} (h : 1 ≤ m.sum) : ∃ i < m.length, 1 ≤ m.getD i 0 := by
  by_contra hcon
  push Not at hcon
  have : m.sum = 0 := List.sum_eq_zero_iff.2 fun x hx => by
    obtain ⟨k, hk, rfl⟩ := List.getElem_of_mem hx
    have := hcon k hk
    rw [List.getD_eq_getElem _ _ hk] at this
    omega
  omega

theorem permStep_spec {dim D B : ℕ} (hd : 1 ≤ dim) {perms : List (List ℕ × List ℕ)} {mon : List ℕ} (hg : GoodPerms dim D B perms)
    (hm : mon.length = dim) (hs : 1 ≤ mon.sum) (hB : mon.sum ≤ B)
    (hlow : ∀ m : List ℕ, m.length = dim → m.sum + 1 ≤ mon.sum → (perms.lookup m).isSome)
    (hvar : ∀ m : List ℕ, m.length = dim → m.sum ≤ 1 → (perms.lookup m).isSome) :
    GoodPerms dim D B (permStep dim perms mon) ∧ ((permStep dim perms mon).lookup mon).isSome ∧
    ∀ m, (perms.lookup m).isSome → ((permStep dim perms mon).lookup m).isSome := by
  unfold permStep
  cases hf : (List.range dim).findSome? (fun i =>
      (subVar mon i).bind fun diff => (perms.lookup diff).bind fun pd =>
        (perms.lookup (varMon dim i 1)).map fun pv => gather pv pd) with
  | none =>
    exfalso
    obtain ⟨i, hi, hpos⟩ := exists_pos_of_sum hs
    rw [List.findSome?_eq_none_iff] at hf
    have h1 := hf i (by simpa using hm ▸ hi)
    have hsub : subVar mon i = some (mon.set i (mon.getD i 0 - 1)) := if_pos hpos
    obtain ⟨a, b, -⟩ := subVar_some hsub hi
    obtain ⟨pd, hpd⟩ := Option.isSome_iff_exists.1 (hlow (mon.set i (mon.getD i 0 - 1)) (by omega) (by omega))
    obtain ⟨pv, hpv⟩ := Option.isSome_iff_exists.1 (hvar (varMon dim i 1) (by simp [varMon]) (by rw [sum_varMon 1 (by omega)]))
    rw [hsub, Option.bind_some, hpd, Option.bind_some, hpv] at h1
    simp at h1
  | some P =>
    obtain ⟨i, hi, h1⟩ := List.exists_of_findSome?_eq_some hf
    have hi := List.mem_range.1 hi
    rw [Option.bind_eq_some_iff] at h1
    obtain ⟨diff, hsub, h1⟩ := h1
    rw [Option.bind_eq_some_iff] at h1
    obtain ⟨pd, hpd, h1⟩ := h1
    rw [Option.map_eq_some_iff] at h1
    obtain ⟨pv, hpv, rfl⟩ := h1
    obtain ⟨a, b, c⟩ := subVar_some hsub (by omega)
    refine ⟨fun e he => ?_, lookup_isSome_self _ _ _, fun m h => lookup_isSome_cons _ h⟩
    rcases List.mem_cons.1 he with rfl | he
    · refine ⟨hm, hB, ?_⟩
      have := MulPerm.comp hd (by simp [varMon]) (a.trans hm) (hg _ (lookup_mem hpv)).2.2 (hg _ (lookup_mem hpd)).2.2
      rw [← hm, c] at this
      rw [← hm]
      exact this
    · exact hg e he

theorem permLoop_spec {dim D B d : ℕ} (hd : 1 ≤ dim) (hdB : d + 1 ≤ B) (h1d : 1 ≤ d) :
    ∀ (mons : List (List ℕ)) (perms : List (List ℕ × List ℕ)), (∀ m ∈ mons, m.length = dim ∧ m.sum = d + 1) →
      GoodPerms dim D B perms → (∀ m : List ℕ, m.length = dim → m.sum ≤ d → (perms.lookup m).isSome) →
      GoodPerms dim D B (mons.foldl (permStep dim) perms) ∧
      (∀ m : List ℕ, (perms.lookup m).isSome → ((mons.foldl (permStep dim) perms).lookup m).isSome) ∧
      ∀ m ∈ mons, ((mons.foldl (permStep dim) perms).lookup m).isSome
  | [], perms, _, hg, _ => ⟨hg, fun _ h => h, fun m hm => by simp at hm⟩
  | mon :: mons, perms, hmons, hg, hlow => by
    have hmon := hmons mon List.mem_cons_self
    obtain ⟨a, b, c⟩ := permStep_spec hd hg hmon.1 (by omega) (by omega) (fun m h1 h2 => hlow m h1 (by omega))
      (fun m h1 h2 => hlow m h1 (by omega))
    obtain ⟨a', b', c'⟩ := permLoop_spec hd hdB h1d mons (permStep dim perms mon)
      (fun m hm => hmons m (List.mem_cons_of_mem _ hm)) a (fun m h1 h2 => c m (hlow m h1 h2))
    rw [List.foldl_cons]
    refine ⟨a', fun m h => b' m (c m h), fun m hm => ?_⟩
    rcases List.mem_cons.1 hm with rfl | hm
    · exact b' _ b
    · exact c' m hm

theorem allPermutations_spec {dim D : ℕ} (deg : ℕ) (hd : 1 ≤ dim) (hD : 1 ≤ D) :
    GoodPerms dim D (max 1 deg) (allPermutations deg dim D) ∧
    ∀ m : List ℕ, m.length = dim → m.sum ≤ max 1 deg → ((allPermutations deg dim D).lookup m).isSome := by
  have key : ∀ j, j ≤ deg - 1 →
      GoodPerms dim D (max 1 deg) ((List.range' 2 j).foldl (fun perms d =>
        (monCombosHighest (dim - 1) (List.replicate dim 0) d 0).1.foldl (permStep dim) perms) (permInit dim D)) ∧
      ∀ m : List ℕ, m.length = dim → m.sum ≤ j + 1 → (((List.range' 2 j).foldl (fun perms d =>
        (monCombosHighest (dim - 1) (List.replicate dim 0) d 0).1.foldl (permStep dim) perms) (permInit dim D)).lookup m).isSome := by
    intro j
    induction j with
    | zero =>
      intro _
      obtain ⟨a, b⟩ := permInit_spec hd hD
      exact ⟨fun e he => ⟨(a e he).1, (a e he).2.1.trans (le_max_left _ _), (a e he).2.2⟩, fun m h1 h2 => b m h1 (by omega)⟩
    | succ j ih =>
      intro hj
      obtain ⟨a, b⟩ := ih (by omega)
      rw [List.range'_concat, List.foldl_append, List.foldl_cons, List.foldl_nil]
      rw [show 2 + 1 * j = (j + 1) + 1 by omega, combosHighest_eq hd]
      have := permLoop_spec (D := D) (B := max 1 deg) (d := j + 1) hd (by omega) (by omega) (asc dim (j + 1 + 1)) _
        (fun m hm => (mem_asc _ _ _).1 hm) a b
      refine ⟨this.1, fun m h1 h2 => ?_⟩
      by_cases hms : m.sum = j + 1 + 1
      · exact this.2.2 m ((mem_asc _ _ _).2 ⟨h1, hms⟩)
      · exact this.2.1 m (b m h1 (by omega))
  obtain ⟨a, b⟩ := key (deg - 1) le_rfl
  exact ⟨a, fun m h1 h2 => b m h1 (by omega)⟩

end YRoots.Legacy
