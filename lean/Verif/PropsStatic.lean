import Verif.Moment
import Verif.Machines

/-!
# Properties of the compile-time part

C01, C02, C06, C16, C17, C31, C32, C40, C46, C47.
-/

namespace Hsm

/-! ## C40: type lookup -/

section C40
variable {α : Type} [DecidableEq α]

/-- Sum of the distances of the occurrences of `x` from the end of a list of length `n`. -/
def deficit (x : α) (n : Nat) : Nat → List α → Nat
  | _, [] => 0
  | i, y :: l => (if y = x then n - i else 0) + deficit x n (i + 1) l

theorem matchSum_deficit (x : α) (n : Nat) : ∀ (l : List α) (i : Nat), i + l.length ≤ n →
    BitVec.ofNat 64 (deficit x n i l) + matchSum x (BitVec.ofNat 64 n) i l = 0 := by
  intro l
  induction l with
  | nil => intro i _; rfl
  | cons y l ih =>
    intro i hi
    rw [List.length_cons] at hi
    have := ih (i + 1) (by omega)
    unfold deficit matchSum
    split
    · have h1 : BitVec.ofNat 64 (n - i + deficit x n (i + 1) l)
          = BitVec.ofNat 64 (n - i) + BitVec.ofNat 64 (deficit x n (i + 1) l) :=
        BitVec.ofNat_add _ _
      have h2 : BitVec.ofNat 64 (n - i) + (BitVec.ofNat 64 i - BitVec.ofNat 64 n) = 0 := by
        have h3 : BitVec.ofNat 64 n = BitVec.ofNat 64 (n - i) + BitVec.ofNat 64 i := by
          rw [← BitVec.ofNat_add]; congr 1; omega
        rw [h3]
        generalize BitVec.ofNat 64 (n - i) = a
        generalize BitVec.ofNat 64 i = b
        rw [BitVec.sub_eq_add_neg, ← BitVec.add_assoc, ← BitVec.sub_eq_add_neg, BitVec.sub_self]
        rfl
      rw [h1]
      generalize BitVec.ofNat 64 (n - i) = a at *
      generalize BitVec.ofNat 64 i - BitVec.ofNat 64 n = b at *
      generalize BitVec.ofNat 64 (deficit x n (i + 1) l) = c at *
      generalize matchSum x (BitVec.ofNat 64 n) (i + 1) l = d at *
      calc a + c + (b + d) = (a + b) + (c + d) := by ac_rfl
        _ = 0 := by rw [h2, this]; rfl
    · simpa using this

theorem deficit_le (x : α) (n : Nat) : ∀ (l : List α) (i : Nat), deficit x n i l ≤ l.length * n := by
  intro l
  induction l with
  | nil => intro i; simp [deficit]
  | cons y l ih =>
    intro i
    have := ih (i + 1)
    unfold deficit
    rw [List.length_cons, Nat.succ_mul]
    split <;> omega

theorem deficit_pos (x : α) (n : Nat) : ∀ (l : List α) (i : Nat), i + l.length ≤ n → x ∈ l →
    0 < deficit x n i l := by
  intro l
  induction l with
  | nil => intro i _ h; cases h
  | cons y l ih =>
    intro i hi hx
    rw [List.length_cons] at hi
    unfold deficit
    by_cases hy : y = x
    · rw [if_pos hy]; omega
    · have := ih (i + 1) (by omega) (by
        rcases List.mem_cons.1 hx with rfl | h
        · exact absurd rfl hy
        · exact h)
      omega

theorem deficit_gt (x : α) (n : Nat) : ∀ (l : List α) (i j : Nat), i + l.length ≤ n →
    l[j]? = some x → 2 ≤ l.count x → n - (i + j) < deficit x n i l := by
  intro l
  induction l with
  | nil => intro i j _ h; simp at h
  | cons y l ih =>
    intro i j hi hj hc
    rw [List.length_cons] at hi
    unfold deficit
    cases j with
    | zero =>
      simp only [List.getElem?_cons_zero, Option.some.injEq] at hj
      subst hj
      rw [if_pos rfl]
      have : y ∈ l := by
        rw [← List.count_pos_iff]
        rw [List.count_cons_self] at hc
        omega
      have := deficit_pos y n l (i + 1) (by omega) this
      omega
    | succ j =>
      rw [List.getElem?_cons_succ] at hj
      by_cases hy : y = x
      · subst hy
        rw [if_pos rfl]
        have := deficit_pos y n l (i + 1) (by omega) (List.mem_of_getElem? hj)
        omega
      · rw [if_neg hy]
        have hc' : 2 ≤ l.count x := by
          rw [List.count_cons_of_ne hy] at hc; exact hc
        have := ih (i + 1) j (by omega) hj hc'
        have h2 : i + 1 + j = i + (j + 1) := by omega
        rw [h2] at this
        omega

/-- C40: absent elements are mapped to the length. -/
theorem C40_absent {l : List α} {x : α} (h : x ∉ l) (hs : l.length < 2 ^ 64) :
    indexOf l x = l.length := indexOf_of_not_mem h hs

example : indexOf [10, 20, 30] 7 = 3 := C40_absent (by decide) (by decide)

/-- C40: an element that occurs exactly once is mapped to its position. -/
theorem C40_once {l : List α} {x : α} {i : Nat} (hi : l[i]? = some x) (hc : l.count x = 1)
    (hs : l.length < 2 ^ 64) : indexOf l x = i := by
  have key : ∀ (l : List α) (i k n : Nat), l[i]? = some x → l.count x = 1 → k + l.length ≤ n →
      deficit x n k l = n - (k + i) := by
    intro l
    induction l with
    | nil => intro i k n h; simp at h
    | cons y l ih =>
      intro i k n hi hc hk
      rw [List.length_cons] at hk
      unfold deficit
      cases i with
      | zero =>
        simp only [List.getElem?_cons_zero, Option.some.injEq] at hi
        subst hi
        rw [List.count_cons_self] at hc
        have h0 : y ∉ l := fun h => by
          have := List.count_pos_iff.2 h; omega
        have hz : ∀ (l : List α) k, y ∉ l → deficit y n k l = 0 := by
          intro l
          induction l with
          | nil => intro k _; rfl
          | cons z l ih =>
            intro k h
            simp only [List.mem_cons, not_or] at h
            unfold deficit
            rw [if_neg (fun e => h.1 e.symm), ih _ h.2]
        rw [if_pos rfl, hz l _ h0]
        omega
      | succ i =>
        rw [List.getElem?_cons_succ] at hi
        by_cases hy : y = x
        · subst hy
          rw [List.count_cons_self] at hc
          have := List.count_pos_iff.2 (List.mem_of_getElem? hi)
          omega
        · rw [if_neg hy]
          rw [List.count_cons_of_ne hy] at hc
          rw [ih i (k + 1) n hi hc (by omega)]
          omega
  have hil : i < l.length := (List.getElem?_eq_some_iff.1 hi).1
  have h1 := key l i 0 l.length hi hc (by omega)
  have h2 := matchSum_deficit x l.length l 0 (by omega)
  rw [h1] at h2
  unfold indexOf
  have h3 : BitVec.ofNat 64 l.length = BitVec.ofNat 64 i + BitVec.ofNat 64 (l.length - (0 + i)) := by
    rw [← BitVec.ofNat_add]; congr 1; omega
  have h4 : BitVec.ofNat 64 l.length + matchSum x (BitVec.ofNat 64 l.length) 0 l
      = BitVec.ofNat 64 i := by
    conv => lhs; arg 1; rw [h3]
    rw [BitVec.add_assoc, h2]; simp
  rw [h4, BitVec.toNat_ofNat, Nat.mod_eq_of_lt (by omega)]

example : indexOf [10, 20, 30, 20] 30 = 2 := C40_once (by decide) (by decide) (by decide)

/-- C40: an element that occurs several times is mapped neither to one of its positions
nor to the length. -/
theorem C40_duplicate {l : List α} {x : α} (hc : 2 ≤ l.count x) (hs : l.length < 2 ^ 32) :
    l[indexOf l x]? ≠ some x ∧ indexOf l x ≠ l.length := by
  have h2 := matchSum_deficit x l.length l 0 (by omega)
  have hle := deficit_le x l.length l 0
  have hmem : x ∈ l := List.count_pos_iff.1 (by omega)
  have hpos := deficit_pos x l.length l 0 (by omega) hmem
  have hsq : l.length * l.length < 2 ^ 64 :=
    Nat.lt_of_lt_of_le (Nat.mul_lt_mul'' hs hs) (by decide)
  generalize hD : deficit x l.length 0 l = D at h2 hle hpos
  have hval : indexOf l x = (l.length + (2 ^ 64 - D)) % 2 ^ 64 := by
    have hneg : matchSum x (BitVec.ofNat 64 l.length) 0 l = BitVec.ofNat 64 (2 ^ 64 - D) := by
      have h5 : BitVec.ofNat 64 D + BitVec.ofNat 64 (2 ^ 64 - D) = 0 := by
        rw [← BitVec.ofNat_add, show D + (2 ^ 64 - D) = 2 ^ 64 by omega]; rfl
      generalize matchSum x (BitVec.ofNat 64 l.length) 0 l = m at *
      generalize BitVec.ofNat 64 (2 ^ 64 - D) = m' at *
      generalize BitVec.ofNat 64 D = b at *
      calc m = m + (b + m') := by rw [h5]; simp
        _ = (b + m) + m' := by ac_rfl
        _ = m' := by rw [h2]; simp
    unfold indexOf
    rw [hneg, ← BitVec.ofNat_add, BitVec.toNat_ofNat]
  by_cases hDn : D ≤ l.length
  · have hv : indexOf l x = l.length - D := by
      rw [hval, show l.length + (2 ^ 64 - D) = (l.length - D) + 2 ^ 64 by omega,
        Nat.add_mod_right, Nat.mod_eq_of_lt (by omega)]
    rw [hv]
    refine ⟨?_, by omega⟩
    intro hx
    have := deficit_gt x l.length l 0 _ (by omega) hx hc
    omega
  · have hv : indexOf l x = l.length + (2 ^ 64 - D) := by
      rw [hval, Nat.mod_eq_of_lt (by omega)]
    have : l.length < indexOf l x := by omega
    refine ⟨?_, by omega⟩
    rw [List.getElem?_eq_none (by omega)]
    simp

/-- With two occurrences the result is the position of another element here. -/
example : indexOf [10, 20, 30, 40, 40] 40 = 2 := by decide +kernel

end C40

/-! ## C47: removing duplicates -/

section C47
variable {α : Type} [DecidableEq α]

theorem idxOf_cons_ne {x z : α} {l : List α} (h : z ≠ x) : (z :: l).idxOf x = l.idxOf x + 1 := by
  rw [List.idxOf_cons]
  have : (z == x) = false := by simpa using h
  rw [this]; rfl

/-- C47: the result has no duplicates, the same elements, keeps the order of first
occurrences, and removing duplicates again changes nothing. -/
theorem C47_uniq (l : List α) :
    (uniq l).Nodup ∧ (∀ x, x ∈ uniq l ↔ x ∈ l) ∧ uniq (uniq l) = uniq l ∧
    (∀ x y, x ∈ l → y ∈ l → ((uniq l).idxOf x < (uniq l).idxOf y ↔ l.idxOf x < l.idxOf y)) := by
  refine ⟨nodup_uniq l, fun x => mem_uniq, uniq_uniq l, ?_⟩
  have hfilt : ∀ (l : List α) (q : α → Bool) (x y : α), q x = true → q y = true →
      ((l.filter q).idxOf x < (l.filter q).idxOf y ↔ l.idxOf x < l.idxOf y) := by
    intro l q
    induction l with
    | nil => intro x y _ _; simp
    | cons z l ih =>
      intro x y hx hy
      rw [List.filter_cons]
      by_cases hz : q z = true
      · rw [if_pos hz]
        have := ih x y hx hy
        by_cases h1 : z = x
        · by_cases h2 : z = y
          · rw [← h1, ← h2]; simp
          · rw [← h1, List.idxOf_cons_self, List.idxOf_cons_self, idxOf_cons_ne h2,
              idxOf_cons_ne h2]; omega
        · by_cases h2 : z = y
          · rw [← h2, List.idxOf_cons_self, List.idxOf_cons_self]; omega
          · rw [idxOf_cons_ne h2, idxOf_cons_ne h2, idxOf_cons_ne h1,
              idxOf_cons_ne h1]; omega
      · rw [if_neg hz]
        have h1 : z ≠ x := fun e => hz (e ▸ hx)
        have h2 : z ≠ y := fun e => hz (e ▸ hy)
        rw [ih x y hx hy, idxOf_cons_ne h2, idxOf_cons_ne h1]
        omega
  induction l with
  | nil => intro x y h; cases h
  | cons z l ih =>
    intro x y hx hy
    rw [uniq_cons]
    by_cases h1 : z = x
    · by_cases h2 : z = y
      · rw [← h1, ← h2]; simp
      · rw [← h1, List.idxOf_cons_self, List.idxOf_cons_self, idxOf_cons_ne h2,
          idxOf_cons_ne h2]; omega
    · by_cases h2 : z = y
      · rw [← h2, List.idxOf_cons_self, List.idxOf_cons_self]; omega
      · have hx' : x ∈ l := (List.mem_cons.1 hx).resolve_left fun e => h1 e.symm
        have hy' : y ∈ l := (List.mem_cons.1 hy).resolve_left fun e => h2 e.symm
        have h3 := hfilt (uniq l) (fun y => decide (y ≠ z)) x y (by simpa using fun e => h1 e.symm)
          (by simpa using fun e => h2 e.symm)
        have h4 := ih x y hx' hy'
        rw [idxOf_cons_ne h2, idxOf_cons_ne h2, idxOf_cons_ne h1,
              idxOf_cons_ne h1]
        omega

example : uniq [3, 1, 3, 2, 1] = [3, 1, 2] := by decide

end C47

/-! ## C02: locations are encoded without collisions -/

namespace Machine
variable {M : Machine}

/-- C02: two different pairs of the machine have different indices, parent and state are
recovered by division and remainder, and a pair that is not of the machine gets the
index of none of them. -/
theorem C02_encoding (hM : M.Regular) {p : Name} {s : StTy} (hp : p ∈ M.composites)
    (hs : s ∈ M.states) :
    (∀ q t, M.comb q t = M.comb p s → q = p ∧ t = s) ∧
    M.composites[M.comb p s / M.states.length]? = some p ∧
    M.states[M.comb p s % M.states.length]? = some s ∧
    (∀ q t, ¬ (q ∈ M.composites ∧ t ∈ M.states) →
      M.states.length * M.composites.length ≤ M.comb q t) ∧
    M.comb p s < M.states.length * M.composites.length := by
  have hn : M.states.length = M.nStates := by rw [states_eq]; rfl
  have hz : M.states.length * M.composites.length = M.size := by
    rw [states_eq, composites_eq]; rfl
  rw [hn]
  rw [hn] at hz
  rw [hz]
  refine ⟨?_, ?_, ?_, ?_, hM.comb_lt.2 ⟨hp, hs⟩⟩
  · intro q t h
    have := hM.comb_inj hp hs h
    exact ⟨congrArg Prod.fst this, congrArg Prod.snd this⟩
  · rw [hM.comb_div hp hs]
    rw [composites_eq]
    exact indexOf_getElem (composites_eq ▸ hp) (composites_eq ▸ nodup_parents) hM.nParents_small
  · rw [hM.comb_mod hp hs, states_eq]
    exact indexOf_getElem (states_eq ▸ hs) (states_eq ▸ nodup_stateIds hM.rootFresh)
      hM.nStates_small
  · intro q t h
    rw [hM.comb_not_mem h]
    exact Nat.le_refl _

example : Ex.demo.Regular ∧ Ex.Comp ∈ Ex.demo.composites ∧ StTy.st Ex.CB ∈ Ex.demo.states :=
  ⟨Ex.demo_regular, by decide +kernel, by decide +kernel⟩

/-! ## C31: every row of every reachable composite is in force -/

/-- C31: the rows in force are the declared rows of the composites in force, each with
its own composite as parent. -/
theorem C31_rows_in_force (hM : M.Regular) (t : XRow) :
    t ∈ M.flat ↔ ∃ p r, M.InForce p ∧ r ∈ M.rows p ∧
      t = { parent := p, source := r.source, event := r.event, guard := r.guard,
            action := r.action, target := r.target, internal := false } :=
  mem_flat_iff hM.ranked

/-- C31, order: the rows of a composite are listed in declaration order, each followed by
the rows of the composite it leads into. -/
theorem C31_order (hM : M.Regular) (p : Name) :
    (∀ r q, r ∈ M.rows p → M.Enters r.target q → M.rank q < M.rank p) ∧
    ∃ f : Row → List XRow, M.flatten p = (M.rows p).flatMap f ∧
      ∀ r, (∀ q, M.Enters r.target q → f r = ext p r :: M.flatten q) ∧
        ((∀ q, ¬ M.Enters r.target q) → f r = [ext p r]) := by
  refine ⟨fun r q hr he => hM.ranked p r q hr (subMachine_iff.2 he), _, flatten_eq hM.ranked p, ?_⟩
  intro r
  constructor
  · intro q hq
    simp only [subMachine_iff.2 hq]
  · intro h
    cases hs : M.subMachine r.target with
    | none => rfl
    | some q => exact absurd (subMachine_iff.1 hs) (h q)

/-- C31: the lists the code collects are the rows in force in reading order, the internal
rows at the places where states occur, and the events, composites and states they mention. -/
theorem C31_collected (M : Machine) : M.flat = M.extRows ∧ M.iflat = M.intRows ∧
    M.eventIds = M.events ∧ M.parents = M.composites ∧ M.stateIds = M.states :=
  ⟨extRows_eq.symm, intRows_eq.symm, events_eq.symm, composites_eq.symm, states_eq.symm⟩

/-- The composite of the demo machine is in force, and one of its rows. -/
example : Ex.demo.InForce Ex.Comp ∧
    ext Ex.Comp (Ex.row (.st Ex.CB) (Ex.ev 2) none (some 7) (.st Ex.CA)) ∈ Ex.demo.flat := by
  refine ⟨.sub .refl (r := Ex.row (Ex.ini Ex.Idle) (Ex.ev 0) none (some 1) (.st Ex.Comp))
    (by decide +kernel) ⟨by decide +kernel, Or.inl rfl⟩, by decide +kernel⟩

end Machine

/-! ## C01: which rows are consulted, and in which order -/

section C01
variable {P W : Type} {M : Machine} {sem : Sem P W}

/-- C01: at location `(p, st)` the entries consulted for event `e` are exactly those of
the candidates of `e` at `(p, st)` in their order, for the dependencies given so far
from the latest to the first (one pass if `set_dependency` was never called). -/
theorem C01_consulted (hM : M.Regular) {d : Dep} {ops : List (Op P)} {s : SM P W}
    (h : Moment M sem d ops s) {r : Nat} {p : Name} {st : StTy} (ha : At M s r p st)
    (e : EventTy) : lookup M e r s = .ok (M.entries (depsOf d ops) e p st) s := by
  rw [lookup_ok]
  exact ⟨rfl, _, ha.2.2, hM.comb_lt.2 ⟨ha.1, ha.2.1⟩,
    ((h.good hM).table e p st ha.1 ha.2.1).symm⟩

/-- Every candidate has an entry. -/
theorem entries_cands (hM : M.Regular) (d : Dep) (e : EventTy) (p : Name) (st : StTy) :
    (M.entries [d] e p st).length = (M.cands e p st).length ∧
    ∀ (i : Nat) c, (M.cands e p st)[i]? = some c → ∃ en, M.entryOfCand d c = some en ∧
      (M.entries [d] e p st)[i]? = some en := by
  have hsome : ∀ c ∈ M.cands e p st, ∃ en, M.entryOfCand d c = some en := by
    intro c hc
    rcases Machine.cand_row hc with rfl | ⟨t, ht, _, h | h⟩
    · exact ⟨_, rfl⟩
    · obtain ⟨l, hl⟩ := hM.targetLoc_some ht
      exact ⟨_, by rw [h]; simp only [Machine.entryOfCand, hl]; rfl⟩
    · obtain ⟨l, hl⟩ := hM.targetLoc_some ht
      exact ⟨_, by rw [h]; simp only [Machine.entryOfCand, hl]; rfl⟩
  have hen : M.entries [d] e p st = (M.cands e p st).filterMap (M.entryOfCand d) := by
    simp [Machine.entries]
  rw [hen]
  clear hen
  generalize M.cands e p st = cs at hsome
  induction cs with
  | nil => simp
  | cons c cs ih =>
    obtain ⟨en, hen⟩ := hsome c (by simp)
    rw [List.filterMap_cons_some hen]
    obtain ⟨h1, h2⟩ := ih (fun c hc => hsome c (by simp [hc]))
    refine ⟨by simp [h1], ?_⟩
    intro i c' hi
    cases i with
    | zero =>
      simp only [List.getElem?_cons_zero, Option.some.injEq] at hi
      subst hi
      exact ⟨en, hen, rfl⟩
    | succ i =>
      rw [List.getElem?_cons_succ] at hi ⊢
      exact h2 i c' hi

/-- C01: every candidate has an entry in the list consulted, so none is missing: the `i`-th candidate is
the `i`-th one consulted in every pass, and the list has no others. -/
theorem C01_none_missing (hM : M.Regular) {d : Dep} {ops : List (Op P)} {s : SM P W}
    (h : Moment M sem d ops s) {r : Nat} {p : Name} {st : StTy} (ha : At M s r p st) (e : EventTy) :
    ∃ es, lookup M e r s = .ok es s ∧
      es.length = (depsOf d ops).length * (M.cands e p st).length ∧
      ∀ (k i : Nat) (c : Cand) (dep : Dep), (depsOf d ops)[k]? = some dep →
        (M.cands e p st)[i]? = some c → ∃ en, M.entryOfCand dep c = some en ∧
        es[k * (M.cands e p st).length + i]? = some en := by
  refine ⟨_, C01_consulted hM h ha e, ?_⟩
  generalize depsOf d ops = ds
  induction ds with
  | nil => simp [Machine.entries]
  | cons d0 ds ih =>
    have hcons : M.entries (d0 :: ds) e p st = M.entries [d0] e p st ++ M.entries ds e p st := by
      simp [Machine.entries]
    obtain ⟨h1, h2⟩ := entries_cands hM d0 e p st
    rw [hcons]
    refine ⟨by rw [List.length_append, ih.1, h1, List.length_cons, Nat.succ_mul, Nat.add_comm], ?_⟩
    intro k i c dep hk hi
    cases k with
    | zero =>
      simp only [List.getElem?_cons_zero, Option.some.injEq] at hk
      subst hk
      obtain ⟨en, he, hen⟩ := h2 i c hi
      refine ⟨en, he, ?_⟩
      rw [Nat.zero_mul, Nat.zero_add, List.getElem?_append_left]
      · exact hen
      · rw [h1]; exact (List.getElem?_eq_some_iff.1 hi).1
    | succ k =>
      rw [List.getElem?_cons_succ] at hk
      obtain ⟨en, he, hen⟩ := ih.2 k i c dep hk hi
      refine ⟨en, he, ?_⟩
      rw [List.getElem?_append_right (by rw [h1, Nat.succ_mul]; omega), h1, Nat.succ_mul,
        show k * (M.cands e p st).length + (M.cands e p st).length + i - (M.cands e p st).length =
          k * (M.cands e p st).length + i by omega]
      exact hen

/-- The candidates of event 0 in `Idle` of the demo machine: the last declared first. -/
example : Ex.demo.cands (Ex.ev 0) Ex.Root (.st Ex.Idle) =
    [ .row ⟨0, .st 1, .user 0, some 100, some 2, .st 2, false⟩,
      .row ⟨0, .ps false (.initial 1), .user 0, none, some 1, .st 3, false⟩ ] := by
  decide +kernel

/-- A deferral comes first; in `CB` the internal row of `CB` is tried before that of its
composite, both after external rows. -/
example : Ex.demo.cands (Ex.ev 3) Ex.Root (.st Ex.Busy) = [.defer] ∧
    Ex.demo.cands (Ex.ev 6) Ex.Comp (.st Ex.CB) =
      [ .row ⟨3, .st 5, .user 6, some 103, some 11, .st 5, true⟩,
        .row ⟨3, .st 5, .user 6, none, some 8, .st 5, true⟩ ] := by
  decide +kernel

/-- The hypotheses of `C01_consulted` are met by a history of the demo machine. -/
example : ∃ s, RunTo Ex.demo (Ex.sem fun _ => true) 7
    [.process (Ex.ev 0) 1, .setDependency 8, .process (Ex.ev 1) 2] s ∧
    At Ex.demo s 0 Ex.Root (.st Ex.Idle) := by
  obtain ⟨s, h1, h2⟩ := Ex.exists_run Ex.demo (Ex.sem fun _ => true) (fuel := 5) (d := 7) (w := [])
    (ops := [.process (Ex.ev 0) 1, .setDependency 8, .process (Ex.ev 1) 2])
    (f := fun s => s.cur == [some (Ex.demo.comb Ex.Root (.st Ex.Idle))]) (by decide +kernel)
  refine ⟨s, h1, by decide +kernel, by decide +kernel, ?_⟩
  rw [eq_of_beq h2]; rfl

end C01

namespace Machine
variable {M : Machine}

/-! ## C16, C17: rows on composites -/

end Machine

section
variable {P W : Type} {M : Machine} {sem : Sem P W} {d : Dep} {ops : List (Op P)} {s : SM P W}

/-- C16: a row on composite `C` is consulted in every direct child of `C`; its entry has
the composite as source object, and destination, guard and callbacks of the row. -/
theorem C16_composite_row (hM : M.Regular) (hm : Moment M sem d ops s) {q : Name} {r : Row}
    (hq : M.InForce q) (hr : r ∈ M.rows q) {C : Name} (hs : r.source = .st C)
    (hc : M.isComposite C = true) {i : Nat} {S : StTy} (ha : At M s i C S) (hch : M.IsChild C S) :
    ∃ es l t, lookup M r.event i s = .ok es s ∧
      t = (⟨q, r.source, r.event, r.guard, r.action, r.target, false⟩ : XRow) ∧
      M.targetLoc t = some l ∧
      ∀ dd ∈ depsOf d ops, ∃ en ∈ es, ∃ x, en.defer = false ∧ en.internal = false ∧
        en.to = M.comb l.1 l.2 ∧ (en.history = true ↔ ∃ o p, r.target = .ps o (.history p)) ∧
        en.tr = some x ∧ x.src = .st C ∧ x.dst = l.2 ∧ x.guard = r.guard ∧
        x.cbs = M.callbacks t ∧ x.dep = dd := by
  have ht : Machine.ext q r ∈ M.flat := (Machine.mem_flat_iff hM.ranked).2 ⟨q, r, hq, hr, rfl⟩
  have hmem : Machine.ext q r ∈ M.flat ++ M.iflat := List.mem_append_left _ ht
  obtain ⟨l, hl⟩ := hM.targetLoc_some hmem
  refine ⟨_, l, _, C01_consulted hM hm ha _, rfl, hl, ?_⟩
  intro dd hd
  refine ⟨_, Machine.mem_entries.2 ⟨dd, hd, .exit (Machine.ext q r) C, Machine.mem_cands.2 (Or.inr (Or.inl
    ⟨_, ht, rfl, hs, hc, hch, rfl⟩)), by simp only [Machine.entryOfCand, hl]; rfl⟩, _, rfl, rfl,
    rfl, ?_, rfl, rfl, rfl, rfl, by
      show (M.toRun (Machine.ext q r)).getD [] = _
      exact Machine.toRun_cbs _, rfl⟩
  show Machine.toHistory r.target = true ↔ _
  unfold Machine.toHistory
  split
  · simp_all
  · rename_i hn
    simp only [Bool.false_eq_true, false_iff]
    rintro ⟨o, p, h⟩
    exact hn _ _ h

/-- The row `Comp + ev 1` applies in `CB`. -/
example : Ex.demo.IsChild Ex.Comp (.st Ex.CB) ∧
    (Cand.exit ⟨0, .st 3, .user 1, none, some 5, .st 1, false⟩ 3)
      ∈ Ex.demo.cands (Ex.ev 1) Ex.Comp (.st Ex.CB) := by
  decide +kernel

/-- C17, the part that holds: an event for which there is a row on composite `C` is not
ignored at a location whose parent is `C` itself (depth one).  Missing: locations inside
composites nested in `C`, where the claim is false (`C17_refuted`). -/
theorem C17_partial (hM : M.Regular) (hm : Moment M sem d ops s) {q : Name} {r : Row}
    (hq : M.InForce q) (hr : r ∈ M.rows q) {C : Name} (hs : r.source = .st C)
    (hc : M.isComposite C = true) {i : Nat} {S : StTy} (ha : At M s i C S) (hch : M.IsChild C S) :
    ∃ es, lookup M r.event i s = .ok es s ∧ ∃ en ∈ es, ∃ x, en.tr = some x ∧ x.src = .st C ∧
      x.guard = r.guard := by
  obtain ⟨es, l, _, h1, _, _, h2⟩ := C16_composite_row hM hm hq hr hs hc ha hch
  obtain ⟨en, h3, x, _, _, _, _, h4, h5, _, h6, _⟩ := h2 d (by simp [depsOf])
  exact ⟨es, h1, en, h3, x, h4, h5, h6⟩

end

namespace Machine
variable {M : Machine}

/-- A machine with a composite (4) inside a composite (2); the row `2 + ev 1` leaves the
outer one. -/
def _root_.Hsm.Ex.nested : Machine := ofList
  [ { table := some
        [ Ex.row (Ex.ini 1) (Ex.ev 0) none none (.st 2),
          Ex.row (.st 2) (Ex.ev 1) none none (.st 1) ] },
    { },
    { table := some
        [ Ex.row (Ex.ini 3) (Ex.ev 0) none none (.st 4) ] },
    { },
    { table := some
        [ Ex.row (Ex.ini 5) (Ex.ev 0) none none (.st 6) ] },
    { }, { } ] [2, 0, 1]

theorem _root_.Hsm.Ex.nested_regular : Ex.nested.Regular := regular_ofList (by decide +kernel)

end Machine

/-- The full claim C17: rows on a composite apply at all depths. -/
def C17_claim : Prop :=
  ∀ (M : Machine), M.Regular → M.Scoped → ∀ (sem : Sem Nat (List Nat)) (d : Dep)
    (ops : List (Op Nat)) (s : SM Nat (List Nat)), RunTo M sem d ops s →
    ∀ q r C, M.InForce q → r ∈ M.rows q → r.source = .st C → M.isComposite C = true →
    ∀ i D S, M.Nested C D → At M s i D S → M.IsChild D S →
    ∃ es, lookup M r.event i s = .ok es s ∧ ∃ en ∈ es, ∃ x, en.tr = some x ∧ x.src = .st C ∧
      x.guard = r.guard

/-- C17 is false: in the nested machine the row on the outer composite is not consulted
when the machine is in the inner one, and the event is ignored. -/
theorem C17_refuted : ¬ C17_claim ∧
    ∃ s, RunTo Ex.nested (Ex.sem fun _ => true) 7 [.process (Ex.ev 0) 1, .process (Ex.ev 0) 1] s ∧
      At Ex.nested s 0 4 (.st 5) ∧ lookup Ex.nested (Ex.ev 1) 0 s = .ok [] s ∧
      ∃ s', processEvent Ex.nested (Ex.sem fun _ => true) 5 (Ex.ev 1) 1 s = .ok false s' ∧
        s'.cur = s.cur := by
  have hrun : (Ex.run Ex.nested (Ex.sem fun _ => true) 5 7 []
      [.process (Ex.ev 0) 1, .process (Ex.ev 0) 1]).any (fun s =>
        s.cur == [some (Ex.nested.comb 4 (.st 5))] &&
        (match processEvent Ex.nested (Ex.sem fun _ => true) 5 (Ex.ev 1) 1 s with
         | .ok b s' => b == false && s'.cur == s.cur
         | _ => false)) = true := by decide +kernel
  obtain ⟨s, hr, hs⟩ := Ex.exists_run _ _ hrun
  simp only [Bool.and_eq_true, beq_iff_eq] at hs
  obtain ⟨hcur, hp⟩ := hs
  have ha : At Ex.nested s 0 4 (.st 5) :=
    ⟨by decide +kernel, by decide +kernel, by rw [hcur]; rfl⟩
  have hl : lookup Ex.nested (Ex.ev 1) 0 s = .ok [] s := by
    rw [C01_consulted Ex.nested_regular (.start hr) ha]
    have : Ex.nested.entries (depsOf 7 [.process (Ex.ev 0) 1, .process (Ex.ev 0) 1])
        (Ex.ev 1) 4 (.st 5) = [] := by decide +kernel
    rw [this]
  refine ⟨?_, s, hr, ha, hl, ?_⟩
  · intro h
    obtain ⟨es, h1, en, h2, _⟩ := h Ex.nested Ex.nested_regular
      (Machine.scoped_of_check (by decide +kernel)) _ _ _ _ hr 0
      (Ex.row (.st 2) (Ex.ev 1) none none (.st 1)) 2 .refl (by decide +kernel) rfl
      (by decide +kernel) 0 4 (.st 5)
      (.sub .refl (r := Ex.row (Ex.ini 3) (Ex.ev 0) none none (.st 4)) (by decide +kernel)
        ⟨by decide +kernel, Or.inl rfl⟩) ha (by decide +kernel)
    rw [show (Ex.row (.st 2) (Ex.ev 1) none none (.st 1)).event = Ex.ev 1 from rfl, hl] at h1
    cases h1
    cases h2
  · split at hp
    · rename_i b s' hpr
      simp only [Bool.and_eq_true, beq_iff_eq] at hp
      exact ⟨s', by rw [hpr, hp.1], hp.2⟩
    · cases hp

namespace Machine
variable {M : Machine}

/-! ## C32: internal rows apply where declared -/

/-- `(p, .st s)` occurs in the machine: `s` is the root (as its own parent), or a row of a
composite in force mentions it as plain or initial source or as plain target. -/
def Occurs (M : Machine) (p s : Name) : Prop :=
  (p = M.root ∧ s = M.root) ∨
  ∃ r ∈ M.rows p, M.InForce p ∧
    (r.source = .st s ∨ (∃ o, r.source = .ps o (.initial s)) ∨ r.target = .st s)

theorem occurs_iff (hM : M.Regular) {p s : Name} : M.Occurs p s ↔ (p, StTy.st s) ∈ M.statePairs := by
  unfold Occurs statePairs
  rw [mem_uniq, List.mem_cons, List.mem_flatMap]
  apply or_congr
  · simp
  · constructor
    · rintro ⟨r, hr, hp, h⟩
      refine ⟨_, (mem_flat_iff hM.ranked).2 ⟨p, r, hp, hr, rfl⟩, ?_⟩
      rcases h with h | ⟨o, h⟩ | h <;> simp [ext, h, stripInitial]
    · rintro ⟨t, ht, h⟩
      obtain ⟨q, r, hq, hr, rfl⟩ := (mem_flat_iff hM.ranked).1 ht
      simp only [ext, List.mem_cons, Prod.mk.injEq, List.not_mem_nil, or_false] at h
      rcases h with ⟨rfl, h⟩ | ⟨rfl, h⟩
      · refine ⟨r, hr, hq, ?_⟩
        unfold stripInitial at h
        split at h
        · rename_i o s' hs'
          cases h
          exact Or.inr (Or.inl ⟨o, hs'⟩)
        · exact Or.inl h.symm
      · exact ⟨r, hr, hq, Or.inr (Or.inr h.symm)⟩

theorem mem_iflat (hM : M.Regular) {t : XRow} : t ∈ M.iflat ↔
    ∃ p s, M.Occurs p s ∧ ∃ is, (M.decl s).itable = some is ∧ ∃ i ∈ is,
      (M.isComposite s = true ∧ ∃ r ∈ M.rows s, t = internalRow s r.source i ∨
        t = internalRow s r.target i) ∨
      (M.isComposite s = false ∧ t = internalRow p (.st s) i) := by
  unfold iflat
  rw [mem_uniq, List.mem_flatMap]
  constructor
  · rintro ⟨⟨p, st⟩, hp, ht⟩
    cases st with
    | ps o k => simp [internalRowsOf] at ht
    | st s =>
      refine ⟨p, s, (occurs_iff hM).2 hp, ?_⟩
      unfold internalRowsOf at ht
      cases hi : (M.decl s).itable with
      | none => simp [hi] at ht
      | some is =>
        simp only [hi] at ht
        refine ⟨is, rfl, ?_⟩
        cases hc : M.isComposite s with
        | true =>
          simp only [hc, if_true, List.mem_flatMap, List.mem_map] at ht
          obtain ⟨i, hi, c, hcs, rfl⟩ := ht
          unfold childStates at hcs
          rw [mem_uniq, List.mem_flatMap] at hcs
          obtain ⟨r, hr, hcr⟩ := hcs
          simp only [List.mem_cons, List.not_mem_nil, or_false] at hcr
          refine ⟨i, hi, Or.inl ⟨rfl, r, hr, ?_⟩⟩
          rcases hcr with rfl | rfl
          · exact Or.inl rfl
          · exact Or.inr rfl
        | false =>
          simp only [hc, Bool.false_eq_true, if_false, List.mem_map] at ht
          obtain ⟨i, hi, rfl⟩ := ht
          exact ⟨i, hi, Or.inr ⟨rfl, rfl⟩⟩
  · rintro ⟨p, s, hocc, is, his, i, hi, h⟩
    refine ⟨(p, .st s), (occurs_iff hM).1 hocc, ?_⟩
    unfold internalRowsOf
    simp only [his]
    rcases h with ⟨hc, r, hr, h⟩ | ⟨hc, rfl⟩
    · simp only [hc, if_true, List.mem_flatMap, List.mem_map]
      refine ⟨i, hi, ?_⟩
      have hmem : ∀ c, c = r.source ∨ c = r.target → c ∈ M.childStates s := by
        intro c hcr
        unfold childStates
        rw [mem_uniq, List.mem_flatMap]
        exact ⟨r, hr, by simpa using hcr⟩
      rcases h with rfl | rfl
      · exact ⟨_, hmem _ (Or.inl rfl), rfl⟩
      · exact ⟨_, hmem _ (Or.inr rfl), rfl⟩
    · simp only [hc, Bool.false_eq_true, if_false, List.mem_map]
      exact ⟨i, hi, rfl⟩

/-- An internal row of a composite `P` that occurs in the machine is a
candidate in every direct child `S` of `P`. -/
theorem internal_cand_composite (hM : M.Regular) {p P : Name} (hocc : M.Occurs p P)
    (hc : M.isComposite P = true) {is : List IRow} (his : (M.decl P).itable = some is) {i : IRow}
    (hi : i ∈ is) {S : Name} (hch : M.IsChild P (.st S)) :
    ∃ t, Cand.row t ∈ M.cands i.event P (.st S) ∧ t.internal = true ∧ t.guard = i.guard ∧
      t.action = i.action ∧ t.parent = P := by
  obtain ⟨r, hr, h⟩ := hch
  rcases h with h | h
  · refine ⟨internalRow P r.source i, mem_cands.2 (Or.inr (Or.inr (Or.inr
      ⟨_, (mem_iflat hM).2 ⟨p, P, hocc, is, his, i, hi, Or.inl ⟨hc, r, hr, Or.inl rfl⟩⟩, rfl, ?_,
        rfl⟩))), rfl, rfl, rfl, rfl⟩
    show sourceLoc P r.source = _
    rw [plain_eq] at h
    unfold stripInitial at h
    split at h
    · rename_i o s' hs'
      cases h
      rw [hs']; rfl
    · rw [← h]; rfl
  · refine ⟨internalRow P r.target i, mem_cands.2 (Or.inr (Or.inr (Or.inr
      ⟨_, (mem_iflat hM).2 ⟨p, P, hocc, is, his, i, hi, Or.inl ⟨hc, r, hr, Or.inr rfl⟩⟩, rfl, ?_,
        rfl⟩))), rfl, rfl, rfl, rfl⟩
    show sourceLoc P r.target = _
    rw [← h]; rfl

/-- An internal row of a state `S` without transition table is a
candidate in `S` under every parent whose rows mention `S`. -/
theorem internal_cand_simple (hM : M.Regular) {p S : Name} (hocc : M.Occurs p S)
    (hc : M.isComposite S = false) {is : List IRow} (his : (M.decl S).itable = some is) {i : IRow}
    (hi : i ∈ is) :
    ∃ t, Cand.row t ∈ M.cands i.event p (.st S) ∧ t.internal = true ∧ t.guard = i.guard ∧
      t.action = i.action ∧ t.parent = p :=
  ⟨internalRow p (.st S) i, mem_cands.2 (Or.inr (Or.inr (Or.inr
    ⟨_, (mem_iflat hM).2 ⟨p, S, hocc, is, his, i, hi, Or.inr ⟨hc, rfl⟩⟩, rfl, rfl, rfl⟩))),
    rfl, rfl, rfl, rfl⟩

/-- An internal candidate at `(p, st)` is an internal row declared by a
composite or by a simple state of the machine. -/
theorem internal_cand_only (hM : M.Regular) {e : EventTy} {p : Name} {st : StTy} {t : XRow}
    (h : Cand.row t ∈ M.cands e p st) (hi : t.internal = true) :
    ∃ q S is i, M.Occurs q S ∧ (M.decl S).itable = some is ∧ i ∈ is ∧ i.event = e ∧
      t.guard = i.guard ∧ t.action = i.action ∧
      ((M.isComposite S = true ∧ t.parent = S) ∨
       (M.isComposite S = false ∧ (p, st) = (q, .st S))) := by
  rcases mem_cands.1 h with ⟨h, _⟩ | ⟨t', _, _, _, _, _, h⟩ | ⟨t', ht', _, _, h⟩ | ⟨t', ht', he, hl, h⟩
  · cases h
  · cases h
  · cases h
    rw [flat_internal hM.ranked ht'] at hi; cases hi
  · cases h
    obtain ⟨q, S, hocc, is, his, i, hi, h⟩ := (mem_iflat hM).1 ht'
    refine ⟨q, S, is, i, hocc, his, hi, ?_⟩
    rcases h with ⟨hc, r, hr, rfl | rfl⟩ | ⟨hc, rfl⟩
    · exact ⟨he, rfl, rfl, Or.inl ⟨hc, rfl⟩⟩
    · exact ⟨he, rfl, rfl, Or.inl ⟨hc, rfl⟩⟩
    · refine ⟨he, rfl, rfl, Or.inr ⟨hc, ?_⟩⟩
      rw [← hl]; rfl

end Machine

section
variable {P W : Type} {M : Machine} {sem : Sem P W} {d : Dep} {ops : List (Op P)} {s : SM P W}

/-- The entry of an internal row: not a move, guard and action of the row, no exit or entry
action of the state. -/
def IsInternal (i : IRow) (dd : Dep) (en : Entry) : Prop :=
  en.internal = true ∧ en.defer = false ∧ ∃ x, en.tr = some x ∧ x.internal = true ∧
    x.guard = i.guard ∧ x.dep = dd ∧ (∀ a, (Phase.action, a) ∈ x.cbs ↔ i.action = some a) ∧
    ∀ a, (Phase.exit, a) ∉ x.cbs ∧ (Phase.entry, a) ∉ x.cbs

theorem internal_exec {t : XRow} (ht : t.internal = true) {i : IRow} (hg : t.guard = i.guard)
    (hac : t.action = i.action) {dd : Dep} {c : Nat} {b : Bool} {src dst : StTy} :
    IsInternal i dd
      { to := c, history := b, defer := false, internal := t.internal,
        tr := some { internal := t.internal, action := M.toRun t, guard := t.guard,
                     src := src, dst := dst, dep := dd } } := by
  refine ⟨ht, rfl, _, rfl, ht, hg, rfl, ?_, ?_⟩
  · intro a
    show _ ∈ (M.toRun t).getD [] ↔ _
    rw [Machine.toRun_cbs, ← hac]
    unfold Machine.callbacks
    simp [ht]
  · intro a
    show _ ∉ (M.toRun t).getD [] ∧ _ ∉ (M.toRun t).getD []
    rw [Machine.toRun_cbs]
    unfold Machine.callbacks
    simp [ht]

theorem internal_entry (hM : M.Regular) {e : EventTy} {p : Name} {st : StTy} {t : XRow}
    (h : Cand.row t ∈ M.cands e p st) (ht : t.internal = true) {i : IRow}
    (hg : t.guard = i.guard) (hac : t.action = i.action) {deps : List Dep} {dd : Dep}
    (hd : dd ∈ deps) : ∃ en ∈ M.entries deps e p st, IsInternal i dd en := by
  have hmem : t ∈ M.flat ++ M.iflat := by
    rcases Machine.cand_row h with h | ⟨t', ht', _, h | h⟩
    · cases h
    · cases h; exact ht'
    · cases h
  obtain ⟨l, hl⟩ := hM.targetLoc_some hmem
  refine ⟨_, Machine.mem_entries.2 ⟨dd, hd, _, h, by simp only [Machine.entryOfCand, hl]; rfl⟩,
    internal_exec ht hg hac⟩

/-- C32, composites: an internal row of a composite `C` that occurs in the machine is
consulted in every direct child `S` of `C`. -/
theorem C32_composite (hM : M.Regular) (hm : Moment M sem d ops s) {p C : Name}
    (hocc : M.Occurs p C) (hc : M.isComposite C = true) {is : List IRow}
    (his : (M.decl C).itable = some is) {i : IRow} (hi : i ∈ is) {S : Name} {r : Nat}
    (ha : At M s r C (.st S)) (hch : M.IsChild C (.st S)) :
    ∃ es, lookup M i.event r s = .ok es s ∧
      ∀ dd ∈ depsOf d ops, ∃ en ∈ es, IsInternal i dd en := by
  obtain ⟨t, h1, h2, h3, h4, _⟩ := Machine.internal_cand_composite hM hocc hc his hi hch
  exact ⟨_, C01_consulted hM hm ha _, fun dd hd => internal_entry hM h1 h2 h3 h4 hd⟩

/-- C32, simple states: an internal row of a state `S` without transition table is consulted
in `S` under every parent whose rows mention `S`. -/
theorem C32_simple (hM : M.Regular) (hm : Moment M sem d ops s) {p S : Name}
    (hocc : M.Occurs p S) (hc : M.isComposite S = false) {is : List IRow}
    (his : (M.decl S).itable = some is) {i : IRow} (hi : i ∈ is) {r : Nat}
    (ha : At M s r p (.st S)) :
    ∃ es, lookup M i.event r s = .ok es s ∧
      ∀ dd ∈ depsOf d ops, ∃ en ∈ es, IsInternal i dd en := by
  obtain ⟨t, h1, h2, h3, h4, _⟩ := Machine.internal_cand_simple hM hocc hc his hi
  exact ⟨_, C01_consulted hM hm ha _, fun dd hd => internal_entry hM h1 h2 h3 h4 hd⟩

/-- C32, converse: an internal entry consulted at `(p, st)` is an internal row declared by
a simple state that is there, or by the composite the location is in. -/
theorem C32_only (hM : M.Regular) (hm : Moment M sem d ops s) {e : EventTy} {r : Nat}
    {es : List Entry} {s' : SM P W} (hl : lookup M e r s = .ok es s') {en : Entry} (hen : en ∈ es)
    (hi : en.internal = true) :
    ∃ p st, At M s r p st ∧ ∃ q S is i dd, M.Occurs q S ∧ (M.decl S).itable = some is ∧ i ∈ is ∧
      i.event = e ∧ dd ∈ depsOf d ops ∧ IsInternal i dd en ∧
      ((M.isComposite S = true ∧ (p = S ∨ ∃ r ∈ M.rows S, ∃ o s',
          r.source = .ps o (.exit p s') ∨ r.source = .ps o (.direct p s') ∨
          r.target = .ps o (.exit p s') ∨ r.target = .ps o (.direct p s'))) ∨
       (M.isComposite S = false ∧ p = q ∧ st = .st S)) := by
  obtain ⟨rfl, p, st, ha, rfl⟩ := (hm.good hM).lookup hM hl
  refine ⟨p, st, ha, ?_⟩
  obtain ⟨dd, hd, c, hc, hce⟩ := Machine.mem_entries.1 hen
  rcases Machine.mem_cands.1 hc with ⟨rfl, _⟩ | ⟨t, ht, _, _, _, _, rfl⟩ | ⟨t, ht, _, _, rfl⟩ |
    ⟨t, ht, he, hsl, rfl⟩
  · cases hce; cases hi
  · obtain ⟨l, _, rfl⟩ := Option.map_eq_some_iff.1 hce
    exact absurd (Machine.flat_internal hM.ranked ht) (by rw [show t.internal = true from hi]; simp)
  · obtain ⟨l, _, rfl⟩ := Option.map_eq_some_iff.1 hce
    exact absurd (Machine.flat_internal hM.ranked ht) (by rw [show t.internal = true from hi]; simp)
  · obtain ⟨l, _, rfl⟩ := Option.map_eq_some_iff.1 hce
    replace hi : t.internal = true := hi
    obtain ⟨q, S, hocc, is, his, i, hii, h⟩ := (Machine.mem_iflat hM).1 ht
    have hint : t.guard = i.guard ∧ t.action = i.action ∧ t.event = i.event := by
      rcases h with ⟨_, r, _, rfl | rfl⟩ | ⟨_, rfl⟩ <;> exact ⟨rfl, rfl, rfl⟩
    refine ⟨q, S, is, i, dd, hocc, his, hii, by rw [← hint.2.2, he], hd,
      internal_exec hi hint.1 hint.2.1, ?_⟩
    rcases h with ⟨hcS, r, hr, rfl | rfl⟩ | ⟨hcS, rfl⟩
    · left
      refine ⟨hcS, ?_⟩
      have hsl' : Machine.sourceLoc S r.source = (p, st) := hsl
      cases hk : r.source with
      | st s' => rw [hk] at hsl'; cases hsl'; exact Or.inl rfl
      | ps o k =>
        rw [hk] at hsl'
        cases k <;> cases hsl'
        all_goals first
          | exact Or.inl rfl
          | exact Or.inr ⟨r, hr, o, _, Or.inl hk⟩
          | exact Or.inr ⟨r, hr, o, _, Or.inr (Or.inl hk)⟩
          | exact Or.inr ⟨r, hr, o, _, Or.inr (Or.inr (Or.inl hk))⟩
          | exact Or.inr ⟨r, hr, o, _, Or.inr (Or.inr (Or.inr hk))⟩
    · left
      refine ⟨hcS, ?_⟩
      have hsl' : Machine.sourceLoc S r.target = (p, st) := hsl
      cases hk : r.target with
      | st s' => rw [hk] at hsl'; cases hsl'; exact Or.inl rfl
      | ps o k =>
        rw [hk] at hsl'
        cases k <;> cases hsl'
        all_goals first
          | exact Or.inl rfl
          | exact Or.inr ⟨r, hr, o, _, Or.inl hk⟩
          | exact Or.inr ⟨r, hr, o, _, Or.inr (Or.inl hk)⟩
          | exact Or.inr ⟨r, hr, o, _, Or.inr (Or.inr (Or.inl hk))⟩
          | exact Or.inr ⟨r, hr, o, _, Or.inr (Or.inr (Or.inr hk))⟩
    · right
      refine ⟨hcS, ?_⟩
      have hsl' : (q, StTy.st S) = (p, st) := hsl
      cases hsl'
      exact ⟨rfl, rfl⟩

end

namespace Machine
variable {M : Machine}

/-- The internal row of the composite of the demo machine applies in `CA`, and the one of
the root in `Busy`. -/
example : Ex.demo.Occurs Ex.Root Ex.Comp ∧ Ex.demo.IsChild Ex.Comp (.st Ex.CA) ∧
    Ex.demo.cands (Ex.ev 6) Ex.Comp (.st Ex.CA) =
      [ .row ⟨3, .st 4, .user 6, none, some 8, .st 4, true⟩,
        .row ⟨3, .ps false (.initial 4), .user 6, none, some 8, .ps false (.initial 4), true⟩ ] ∧
    Ex.demo.cands (Ex.ev 7) Ex.Root (.st Ex.Busy) =
      [ .row ⟨0, .st 2, .user 7, none, some 12, .st 2, true⟩ ] := by
  refine ⟨Or.inr ⟨Ex.row (.st Ex.Comp) (Ex.ev 1) none (some 5) (.st Ex.Idle), by decide +kernel,
    .refl, Or.inl rfl⟩, ?_⟩
  decide +kernel

/-! ## C06: construction is safe exactly when scopes are real -/

/-- Every composite named as the parent of an exit or direct source, used as the source of
a row, or owning internal rows, has rows and is entered by the machine. -/
def ScopesReal (M : Machine) : Prop :=
  (∀ t ∈ M.extRows ++ M.intRows, M.InForce (sourceLoc t.parent t.source).1 ∧
    M.rows (sourceLoc t.parent t.source).1 ≠ []) ∧
  (∀ t ∈ M.extRows, ∀ p, t.source = .st p → M.isComposite p = true → M.rows p ≠ [] → M.InForce p)

theorem scopesReal_iff (hM : M.Regular) : M.ScopesReal ↔
    (∀ t ∈ M.flat ++ M.iflat, (sourceLoc t.parent t.source).1 ∈ M.composites) ∧
      (∀ t ∈ M.flat, ∀ p, t.source = .st p → M.isComposite p = true → M.rows p ≠ [] →
        p ∈ M.composites) := by
  unfold ScopesReal
  rw [extRows_eq, intRows_eq]
  simp only [mem_parents_iff hM.ranked]
  constructor
  · rintro ⟨h1, h2⟩
    exact ⟨h1, fun t ht p hp hc hr => ⟨h2 t ht p hp hc hr, hr⟩⟩
  · rintro ⟨h1, h2⟩
    exact ⟨h1, fun t ht p hp hc hr => (h2 t ht p hp hc hr).1⟩

/-- C06: filling the tables succeeds if scopes are real, and otherwise writes outside
them. -/
theorem C06_fill (hM : M.Regular) (d : Dep) (T : Table) :
    (M.ScopesReal → ∃ T', M.fill d T = .ok T') ∧ (¬ M.ScopesReal → M.fill d T = .error .ub) := by
  rw [scopesReal_iff hM, ← pushes_in_bounds hM d, fill_eq hM.accepts]
  constructor
  · intro h; exact ⟨_, pushAll_ok h T⟩
  · intro h
    apply pushAll_ub
    simpa using h

/-- C06, destinations: a row in force stores a destination inside the tables exactly if
the parent of its destination is a composite with rows. -/
theorem C06_targets (hM : M.Regular) {t : XRow} (ht : t ∈ M.extRows) {l : Name × StTy}
    (hl : M.targetLoc t = some l) :
    M.comb l.1 l.2 < M.states.length * M.composites.length ↔
      M.isComposite l.1 = true ∧ M.rows l.1 ≠ [] := by
  rw [show M.states.length * M.composites.length = M.size by
    rw [states_eq, composites_eq]; rfl]
  rw [extRows_eq] at ht
  rw [hM.comb_lt, mem_parents_iff hM.ranked]
  have hst := hM.targetLoc_state (List.mem_append_left _ ht) hl
  obtain ⟨p, r, hp, hr, rfl⟩ := (mem_flat_iff hM.ranked).1 ht
  have hcomp : M.rows l.1 ≠ [] → M.isComposite l.1 = true := by
    intro h
    cases hc : M.isComposite l.1 with
    | true => rfl
    | false => exact absurd (rows_of_not_composite hc) h
  constructor
  · rintro ⟨⟨_, h⟩, _⟩; exact ⟨hcomp h, h⟩
  · rintro ⟨hc, hne⟩
    refine ⟨⟨?_, hne⟩, hst⟩
    unfold targetLoc at hl
    have ht : (ext p r).target = r.target := rfl
    rw [ht] at hl
    have hpar : (ext p r).parent = p := rfl
    rw [hpar] at hl
    have enter : ∀ q, M.Enters r.target q → M.InForce q := fun q h => .sub hp hr h
    split at hl
    · rename_i s hs
      split at hl
      · rename_i hcs
        cases hi : (M.declaredInitials s).head? with
        | none => rw [hi] at hl; cases hl
        | some i =>
          rw [hi] at hl; cases hl
          exact enter s ⟨hcs, Or.inl hs⟩
      · cases hl; exact hp
    · rename_i o q s hs
      cases hl
      exact enter q ⟨hc, Or.inr ⟨o, Or.inl ⟨s, hs⟩⟩⟩
    · rename_i o q s hs
      cases hl
      exact enter q ⟨hc, Or.inr ⟨o, Or.inr (Or.inl ⟨s, hs⟩)⟩⟩
    · rename_i o q hs
      cases hi : (M.declaredInitials q).head? with
      | none => rw [hi] at hl; cases hl
      | some i =>
        rw [hi] at hl; cases hl
        exact enter q ⟨hc, Or.inr ⟨o, Or.inr (Or.inr hs)⟩⟩
    · cases hl; exact hp
    · cases hl; exact hp

end Machine

section C06
variable {P W : Type} {M : Machine}

theorem fillHandlers_ok (hM : M.Regular) (d : Dep) (H : HTable) : ∃ H', M.fillHandlers d H = .ok H' := by
  have total : ∀ {α β : Type} (f : β → α → Except BuildErr β) (l : List α),
      (∀ b, ∀ a ∈ l, ∃ b', f b a = .ok b') → ∀ b, ∃ b', l.foldlM f b = .ok b' := by
    intro α β f l hf
    induction l with
    | nil => intro b; exact ⟨b, rfl⟩
    | cons a l ih =>
      intro b
      obtain ⟨b1, h1⟩ := hf b a (by simp)
      obtain ⟨b2, h2⟩ := ih (fun b a ha => hf b a (by simp [ha])) b1
      exact ⟨b2, by rw [List.foldlM_cons, h1]; exact h2⟩
  unfold Machine.fillHandlers
  rw [← Machine.events_eq, ← Machine.composites_eq, ← Machine.states_eq]
  apply total
  intro H e _
  apply total
  intro H p hp
  apply total
  intro H s hs
  rw [if_pos (hM.comb_lt.2 ⟨hp, hs⟩)]
  exact ⟨_, rfl⟩

/-- C06: construction of an accepted machine succeeds exactly if scopes are real and, when
some composite has several regions, the root has an initial state.  Otherwise it is
undefined behaviour. -/
theorem C06_construct (hM : M.Regular) (d : Dep) (w : W) :
    ((∃ s : SM P W, construct M d w = .ok s) ↔
      M.ScopesReal ∧ (M.orthogonal = true → M.declaredInitials M.root ≠ [])) ∧
    ((¬ ∃ s : SM P W, construct M d w = .ok s) →
      (construct M d w : Except BuildErr (SM P W)) = .error .ub) := by
  rw [Machine.declaredInitials_eq]
  have hacc := hM.accepts
  have hH : ∃ H, initHandlers M d = .ok H := by
    unfold initHandlers
    split
    · exact fillHandlers_ok hM d _
    · exact ⟨_, rfl⟩
  obtain ⟨H, hH⟩ := hH
  have hfill := Machine.C06_fill hM d (fun _ _ => [])
  have hget := Machine.initialTable_get hM hM.root_mem
  by_cases hS : M.ScopesReal
  · obtain ⟨T, hT⟩ := hfill.1 hS
    have hcons : (construct M d w : Except BuildErr (SM P W)) = initState M w H T := by
      unfold construct
      rw [if_pos hacc, hH, hT]
      rfl
    rw [hcons]
    unfold initState
    rw [hget]
    simp only
    cases hp : M.orthogonal with
    | false =>
      simp [updateRegions, Machine.parallel_eq, hp, hS]
    | true =>
      cases hi : M.initials M.root with
      | nil =>
        have hcur : (initCur [] M.maxInit)[0]? = some none := by
          have : 1 < M.maxInit := by
            rw [← Machine.parallel_eq] at hp
            simpa [Machine.parallel] using hp
          simp [initCur, List.getElem?_replicate]
          omega
        simp [updateRegions, Machine.parallel_eq, hp, currentParent, readCur, Res.bind, hcur]
      | cons i is =>
        have hcur : (initCur (M.comb M.root (.st i) :: is.map fun s => M.comb M.root (.st s))
            M.maxInit)[0]? = some (some (M.comb M.root (.st i))) := by
          simp [initCur]
        have hmem : StTy.st i ∈ M.states := hM.initial_mem hM.root_mem (by rw [hi]; simp)
        have hdiv := hM.comb_div hM.root_mem hmem
        have hdiv' : M.initialTable[M.comb M.root (.st i) / M.nStates]? =
            some ((M.initials M.root).map fun s => M.comb M.root (.st s)) := by
          rw [hdiv]; exact hget
        simp [updateRegions, Machine.parallel_eq, hp, currentParent, readCur, Res.bind, hcur, hdiv', hS]
  · have hcons : (construct M d w : Except BuildErr (SM P W)) = .error .ub := by
      unfold construct
      rw [if_pos hacc, hH, hfill.2 hS]
      rfl
    rw [hcons]
    refine ⟨⟨?_, ?_⟩, fun _ => rfl⟩
    · rintro ⟨s, h⟩; cases h
    · rintro ⟨h, _⟩; exact absurd h hS

/-- Real scopes in the demo machine, with an exit source and composite sources. -/
example : Ex.demo.ScopesReal :=
  (Machine.scopesReal_iff Ex.demo_regular).2 ⟨Ex.demo_scoped.src, Ex.demo_scoped.comp⟩

/-- A machine with a row out of an exit point of composite 2, which nothing enters. -/
def Ex.unscoped : Machine := Machine.ofList
  [ { table := some
        [ Ex.row (Ex.ini 1) (Ex.ev 0) none none (.st 3),
          Ex.row (.ps false (.exit 2 1)) (Ex.ev 1) none none (.st 1) ] },
    { },
    { table := some [ Ex.row (Ex.ini 1) (Ex.ev 0) none none (.st 3) ] },
    { } ] [2, 0, 1]

/-- It compiles, and constructing it is undefined behaviour. -/
example : Ex.unscoped.Regular ∧
    (construct Ex.unscoped 7 () : Except BuildErr (SM Nat Unit)) = .error .ub := by
  have hreg : Ex.unscoped.Regular := Machine.regular_ofList (by decide +kernel)
  refine ⟨hreg, (C06_construct hreg 7 ()).2 ?_⟩
  rw [(C06_construct hreg 7 ()).1, Machine.scopesReal_iff hreg]
  rintro ⟨⟨h, _⟩, _⟩
  exact absurd (h ⟨0, .ps false (.exit 2 1), .user 1, none, none, .st 1, false⟩
    (by decide +kernel)) (by decide +kernel)

/-! ## C46: the initial configuration -/

/-- C46: after construction the regions are at the root's declared initial states, slots
beyond them are unwritten, nothing is queued and nothing has run. -/
theorem C46_initial (hM : M.Regular) {d : Dep} {w : W} {s : SM P W}
    (h : construct M d w = .ok s) :
    (∀ (i : Nat) q, (M.declaredInitials M.root)[i]? = some q → At M s i M.root (.st q)) ∧
    (∀ (i : Nat), (M.declaredInitials M.root).length ≤ i → ∀ c, s.cur[i]? ≠ some (some c)) ∧
    s.queue = [] ∧ s.trace = [] ∧ s.log = [] ∧ s.world = w ∧
    activeRegions M s = if M.orthogonal then (M.declaredInitials M.root).length else 1 := by
  rw [Machine.declaredInitials_eq]
  obtain ⟨_, _, _, ⟨init, hi, hcur, hpar⟩, _, _, hq, hw, htr, hlog⟩ := construct_ok h
  rw [Machine.initialTable_get hM hM.root_mem] at hi
  cases hi
  refine ⟨?_, ?_, hq, htr, hlog, hw, ?_⟩
  · intro i q hq
    refine ⟨hM.root_mem, hM.initial_mem hM.root_mem (List.mem_of_getElem? hq), ?_⟩
    rw [hcur, getElem?_initCur, List.getElem?_map, hq]; rfl
  · intro i hi c hc
    rw [hcur, getElem?_initCur, List.getElem?_map, List.getElem?_eq_none hi] at hc
    cases hc
  · unfold activeRegions
    cases hp : M.orthogonal with
    | false => simp
    | true =>
      obtain ⟨k, l, hk, hl, hr⟩ := hpar hp
      simp only [if_true]
      rw [hcur, getElem?_initCur, List.getElem?_map] at hk
      cases hq : (M.initials M.root)[0]? with
      | none => rw [hq] at hk; cases hk
      | some q =>
        rw [hq] at hk
        cases hk
        rw [hM.comb_div hM.root_mem (hM.initial_mem hM.root_mem (List.mem_of_getElem? hq))] at hl
        have := Machine.initialTable_get hM hM.root_mem
        rw [this] at hl
        cases hl
        rw [hr]; simp

/-- Two initial states in the two-region machine. -/
example : Ex.orth.declaredInitials Ex.orth.root = [1, 3] ∧
    ∃ s : SM Nat (List Nat), construct Ex.orth 7 [] = .ok s := by
  refine ⟨by decide +kernel, (C06_construct Ex.orth_regular 7 []).1.2 ⟨?_, ?_⟩⟩
  · exact (Machine.scopesReal_iff Ex.orth_regular).2 ⟨Ex.orth_scoped.src, Ex.orth_scoped.comp⟩
  · intro _; decide +kernel

/-! ## C54: which machines compile -/

theorem foldlM_no_reject {α β : Type} {f : β → α → Except BuildErr β} {l : List α}
    (h : ∀ b, ∀ a ∈ l, f b a ≠ .error .reject) (b : β) : l.foldlM f b ≠ .error .reject := by
  induction l generalizing b with
  | nil => rw [List.foldlM_nil]; intro h; cases h
  | cons a l ih =>
    rw [List.foldlM_cons]
    cases hf : f b a with
    | error e =>
      intro he
      exact h b a (by simp) (hf.trans he)
    | ok b' => exact ih (fun b a ha => h b a (by simp [ha])) b'

/-- C54: the compiler rejects a machine exactly if it does not meet the conditions of
`Compiles`. -/
theorem C54_compiles (M : Machine) (d : Dep) (w : W) :
    (construct M d w : Except BuildErr (SM P W)) = .error .reject ↔ ¬ M.Compiles := by
  rw [← Machine.accepts_iff]
  unfold construct
  split
  · rename_i hacc
    simp only [hacc, not_true_eq_false, iff_false]
    have h1 : initHandlers M d ≠ .error .reject := by
      unfold initHandlers
      split
      · unfold Machine.fillHandlers
        refine foldlM_no_reject (fun H e _ => foldlM_no_reject (fun H p _ =>
          foldlM_no_reject (fun H s _ => ?_) _) _) _
        split <;> intro h <;> cases h
      · intro h; cases h
    have h2 : M.fill d (fun _ _ => []) ≠ .error .reject := by
      rw [Machine.fill_eq hacc]
      unfold Machine.pushAll
      refine foldlM_no_reject (fun T x _ => ?_) _
      unfold Machine.pushFront
      split <;> intro h <;> cases h
    cases hH : initHandlers M d with
    | error e => intro h; cases h; exact h1 hH
    | ok H =>
      cases hT : M.fill d (fun _ _ => []) with
      | error e => intro h; cases h; exact h2 hT
      | ok T =>
        show (initState M w H T : Except BuildErr (SM P W)) ≠ _
        unfold initState
        split
        · intro h; cases h
        · split <;> intro h <;> cases h
  · rename_i hacc
    simp [hacc]

/-- The demo machine compiles; it does not with its first initial state replaced by the
composite. -/
example : Ex.demo.Compiles ∧
    ¬ (Machine.ofList [{ table := some [⟨Ex.ini 1, .user 0, none, none, .st 1⟩] },
        { table := some [⟨Ex.ini 2, .user 0, none, none, .st 2⟩] }] [2, 1]).Compiles := by
  rw [← Machine.accepts_iff, ← Machine.accepts_iff]
  decide +kernel

end C06

end Hsm
