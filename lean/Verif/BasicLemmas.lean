import Verif.Basic

/-! Helper lemmas about `uniq`, `indexOf` and `product`. -/

namespace Hsm

section uniq
variable {α : Type} [DecidableEq α]

/-- Recursive characterisation with an accumulator. -/
def uniqAcc (acc l : List α) : List α :=
  l.foldl (fun acc x => if x ∈ acc then acc else acc ++ [x]) acc

theorem uniqAcc_nil (acc : List α) : uniqAcc acc [] = acc := rfl

theorem uniqAcc_cons (acc : List α) (x : α) (l : List α) :
    uniqAcc acc (x :: l) = uniqAcc (if x ∈ acc then acc else acc ++ [x]) l := rfl

theorem uniqAcc_eq (l acc : List α) :
    uniqAcc acc l = acc ++ (uniqAcc [] l).filter (fun x => decide (x ∉ acc)) := by
  induction l generalizing acc with
  | nil => simp [uniqAcc_nil]
  | cons x l ih =>
    rw [uniqAcc_cons, uniqAcc_cons]
    have h0 : (if x ∈ ([] : List α) then ([] : List α) else [] ++ [x]) = [x] := by simp
    rw [h0, ih [x]]
    by_cases hx : x ∈ acc
    · simp only [hx, if_true]
      rw [ih acc, List.filter_append, List.filter_filter]
      have : ([x] : List α).filter (fun y => decide (y ∉ acc)) = [] := by simp [hx]
      rw [this, List.nil_append]
      congr 1
      apply List.filter_congr
      intro y _
      by_cases hy : y ∈ acc
      · simp [hy]
      · have : y ≠ x := fun h => hy (h ▸ hx)
        simp [hy, this]
    · simp only [hx, if_false]
      rw [ih (acc ++ [x]), List.filter_append, List.filter_filter]
      have : ([x] : List α).filter (fun y => decide (y ∉ acc)) = [x] := by simp [hx]
      rw [this, List.append_assoc]
      congr 1
      congr 1
      apply List.filter_congr
      intro y _
      by_cases hy : y ∈ acc <;> simp [hy]

theorem uniq_nil : uniq ([] : List α) = [] := rfl

theorem uniq_cons (x : α) (l : List α) :
    uniq (x :: l) = x :: (uniq l).filter (fun y => decide (y ≠ x)) := by
  show uniqAcc [] (x :: l) = _
  rw [uniqAcc_cons]
  have h0 : (if x ∈ ([] : List α) then ([] : List α) else [] ++ [x]) = [x] := by simp
  rw [h0, uniqAcc_eq]
  simp [uniq, uniqAcc]

theorem mem_uniq {x : α} {l : List α} : x ∈ uniq l ↔ x ∈ l := by
  induction l with
  | nil => simp [uniq_nil]
  | cons y l ih =>
    rw [uniq_cons]
    by_cases h : x = y <;> simp [h, ih]

theorem nodup_uniq (l : List α) : (uniq l).Nodup := by
  induction l with
  | nil => simp [uniq_nil]
  | cons y l ih =>
    rw [uniq_cons]
    refine List.nodup_cons.2 ⟨by simp, ?_⟩
    exact ih.sublist List.filter_sublist

theorem uniq_sublist (l : List α) : (uniq l).Sublist l := by
  induction l with
  | nil => simp [uniq_nil]
  | cons y l ih =>
    rw [uniq_cons]
    exact List.Sublist.cons_cons y (List.filter_sublist.trans ih)

theorem uniq_of_nodup {l : List α} (h : l.Nodup) : uniq l = l := by
  induction l with
  | nil => rfl
  | cons y l ih =>
    rw [uniq_cons, ih (List.nodup_cons.1 h).2]
    congr 1
    rw [List.filter_eq_self]
    intro a ha
    have : a ≠ y := fun e => (List.nodup_cons.1 h).1 (e ▸ ha)
    simp [this]

theorem uniq_uniq (l : List α) : uniq (uniq l) = uniq l := uniq_of_nodup (nodup_uniq l)

theorem uniq_ne_nil {l : List α} (h : l ≠ []) : uniq l ≠ [] := by
  cases l with
  | nil => exact absurd rfl h
  | cons x l => rw [uniq_cons]; simp

/-- The head of the de-duplicated list is the head of the list. -/
theorem head?_uniq (l : List α) : (uniq l).head? = l.head? := by
  cases l with
  | nil => rfl
  | cons x l => rw [uniq_cons]; simp

theorem uniq_filter (l : List α) (q : α → Bool) : uniq (l.filter q) = (uniq l).filter q := by
  induction l with
  | nil => rfl
  | cons x l ih =>
    rw [uniq_cons]
    cases hq : q x with
    | true =>
      rw [List.filter_cons_of_pos hq, List.filter_cons_of_pos hq, uniq_cons, ih,
        List.filter_filter, List.filter_filter]
      congr 1
      apply List.filter_congr
      intro y _
      rw [Bool.and_comm]
    | false =>
      rw [List.filter_cons_of_neg (by simp [hq]), List.filter_cons_of_neg (by simp [hq]), ih,
        List.filter_filter]
      apply List.filter_congr
      intro y _
      by_cases hy : y = x
      · subst hy; simp [hq]
      · simp [hy]

/-- `uniq` agrees with the standard library's duplicate removal. -/
theorem uniq_eq_eraseDups [BEq α] [LawfulBEq α] (l : List α) : uniq l = l.eraseDups := by
  generalize hn : l.length = n
  induction n using Nat.strongRecOn generalizing l with
  | _ n ih =>
    cases l with
    | nil => simp [uniq_nil]
    | cons x l =>
      rw [uniq_cons, List.eraseDups_cons, ← ih _ _ (l.filter fun b => !b == x) rfl, uniq_filter]
      · congr 1
        apply List.filter_congr
        intro y _
        by_cases hy : y = x <;> simp [hy]
      · have := List.length_filter_le (fun b => !b == x) l
        simp at hn
        omega

end uniq

section index
variable {α : Type} [DecidableEq α]

theorem matchSum_of_not_mem {x : α} {l : List α} (h : x ∉ l) (n : BitVec 64) (i : Nat) :
    matchSum x n i l = 0 := by
  induction l generalizing i with
  | nil => rfl
  | cons y l ih =>
    simp only [List.mem_cons, not_or] at h
    simp [matchSum, ih h.2, Ne.symm h.1]

theorem matchSum_of_nodup {x : α} {l : List α} (h : x ∈ l) (hn : l.Nodup) (n : BitVec 64)
    (i : Nat) : matchSum x n i l = BitVec.ofNat 64 (i + l.idxOf x) - n := by
  induction l generalizing i with
  | nil => cases h
  | cons y l ih =>
    have hn' := List.nodup_cons.1 hn
    by_cases hxy : y = x
    · subst hxy
      simp [matchSum, matchSum_of_not_mem hn'.1]
    · have hx : x ∈ l := by
        rcases List.mem_cons.1 h with rfl | h
        · exact absurd rfl hxy
        · exact h
      simp only [matchSum, hxy, if_false]
      rw [ih hx hn'.2, List.idxOf_cons]
      have hb : (y == x) = false := by simpa using hxy
      simp [hb, Nat.add_assoc, Nat.add_comm 1]

theorem indexOf_of_not_mem {x : α} {l : List α} (h : x ∉ l) (hs : l.length < 2 ^ 64) :
    indexOf l x = l.length := by
  simp only [indexOf, matchSum_of_not_mem h]
  simp [Nat.mod_eq_of_lt hs]

theorem indexOf_of_nodup {x : α} {l : List α} (h : x ∈ l) (hn : l.Nodup)
    (hs : l.length < 2 ^ 64) : indexOf l x = l.idxOf x := by
  have hlt : l.idxOf x < l.length := List.idxOf_lt_length_iff.2 h
  simp only [indexOf, matchSum_of_nodup h hn]
  rw [BitVec.add_comm, BitVec.sub_add_cancel]
  simp only [Nat.zero_add, BitVec.toNat_ofNat]
  exact Nat.mod_eq_of_lt (Nat.lt_trans hlt hs)

theorem indexOf_lt_iff {x : α} {l : List α} (hn : l.Nodup) (hs : l.length < 2 ^ 64) :
    indexOf l x < l.length ↔ x ∈ l := by
  by_cases h : x ∈ l
  · rw [indexOf_of_nodup h hn hs]
    simp [h, List.idxOf_lt_length_iff]
  · rw [indexOf_of_not_mem h hs]
    simp [h]

theorem indexOf_getElem {x : α} {l : List α} (h : x ∈ l) (hn : l.Nodup)
    (hs : l.length < 2 ^ 64) : l[indexOf l x]? = some x := by
  rw [indexOf_of_nodup h hn hs]
  have hlt : l.idxOf x < l.length := List.idxOf_lt_length_iff.2 h
  rw [List.getElem?_eq_getElem hlt, List.getElem_idxOf]

theorem indexOf_inj {x y : α} {l : List α} (hx : x ∈ l) (hy : y ∈ l) (hn : l.Nodup)
    (hs : l.length < 2 ^ 64) (h : indexOf l x = indexOf l y) : x = y := by
  have h1 := indexOf_getElem hx hn hs
  have h2 := indexOf_getElem hy hn hs
  rw [h, h2] at h1
  exact (Option.some.inj h1).symm

theorem indexOf_of_getElem {x : α} {l : List α} {i : Nat} (h : l[i]? = some x) (hn : l.Nodup)
    (hs : l.length < 2 ^ 64) : indexOf l x = i := by
  obtain ⟨hi, hx⟩ := List.getElem?_eq_some_iff.1 h
  have hm : x ∈ l := hx ▸ List.getElem_mem hi
  rw [indexOf_of_nodup hm hn hs, ← hx]
  exact List.Nodup.idxOf_getElem hn i hi

end index

section product
variable {α β : Type}

theorem length_product (l : List α) (m : List β) :
    (product l m).length = l.length * m.length := by
  induction l with
  | nil => simp [product]
  | cons a l ih =>
    simp only [product, List.flatMap_cons, List.length_append, List.length_map,
      List.length_cons] at ih ⊢
    rw [ih, Nat.add_mul, Nat.one_mul, Nat.add_comm]

theorem mem_product {l : List α} {m : List β} {a : α} {b : β} :
    (a, b) ∈ product l m ↔ a ∈ l ∧ b ∈ m := by
  simp only [product, List.mem_flatMap, List.mem_map, Prod.mk.injEq]
  constructor
  · rintro ⟨x, hx, y, hy, rfl, rfl⟩; exact ⟨hx, hy⟩
  · rintro ⟨ha, hb⟩; exact ⟨a, ha, b, hb, rfl, rfl⟩

theorem nodup_product {l : List α} {m : List β} (hl : l.Nodup) (hm : m.Nodup) :
    (product l m).Nodup := by
  induction l with
  | nil => simp [product]
  | cons a l ih =>
    have hl' := List.nodup_cons.1 hl
    have : product (a :: l) m = m.map (fun b => (a, b)) ++ product l m := by
      simp [product]
    rw [this, List.nodup_append]
    refine ⟨?_, ih hl'.2, ?_⟩
    · exact List.Pairwise.map _ (fun b c h e => h (Prod.mk.inj e).2) hm
    · rintro ⟨x, y⟩ hxy ⟨x', y'⟩ hxy' he
      rw [← he, mem_product] at hxy'
      simp only [List.mem_map, Prod.mk.injEq] at hxy
      obtain ⟨_, _, rfl, _⟩ := hxy
      exact hl'.1 hxy'.1

theorem getElem?_product {l : List α} {m : List β} {i j : Nat} {a : α} {b : β}
    (ha : l[i]? = some a) (hb : m[j]? = some b) :
    (product l m)[i * m.length + j]? = some (a, b) := by
  induction l generalizing i with
  | nil => simp at ha
  | cons x l ih =>
    have hj : j < m.length := (List.getElem?_eq_some_iff.1 hb).1
    have e : product (x :: l) m = m.map (fun b => (x, b)) ++ product l m := by
      simp [product]
    rw [e]
    cases i with
    | zero =>
      simp only [List.getElem?_cons_zero, Option.some.injEq] at ha
      subst ha
      rw [Nat.zero_mul, Nat.zero_add, List.getElem?_append_left (by simpa using hj)]
      simp [hb]
    | succ i =>
      simp only [List.getElem?_cons_succ] at ha
      rw [List.getElem?_append_right (by simp [Nat.succ_mul]; omega)]
      rw [← ih ha]
      congr 1
      simp [Nat.succ_mul]; omega

end product
end Hsm
