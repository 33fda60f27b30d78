import Verif.PropsStatic

/-!
# Small helpers of the library (C78)

Models `switch.h`, `for_each.h`, `for_each_idx.h`, `collect_actions.h`, `make_index_map`
(index_map.h) and the index functions of `idx.h` that the runtime does not use.
-/

namespace Hsm

/-! ## Model -/

/-- `switch_` (switch.h:21-24): the function of the first case whose predicate holds.  `none`: taking
the value of an empty optional, which does not compile. -/
def switchOf {α : Type} (cases : List (Bool × α)) : Option α :=
  (cases.find? fun c => c.1).map (·.2)

/-- `lazy_switch_` (switch.h:29-32): the predicates are evaluated when looked at. -/
def lazySwitchOf {α : Type} (cases : List ((Unit → Bool) × α)) : Option α :=
  (cases.find? fun c => c.1 ()).map (·.2)

/-- `otherwise` (switch.h:20). -/
def otherwise {α : Type} (f : α) : Bool × α := (true, f)

/-- `for_each` (for_each.h:14-18): a comma fold over the elements; a closure that throws (`none`) ends
it. -/
def forEach {α S : Type} (f : α → S → Option S) : List α → S → Option S
  | [], s => some s
  | a :: l, s => (f a s).bind (forEach f l)

/-- The loop of `for_each_idx` (for_each_idx.h:10-16); `i` is `index`. -/
def forEachFrom {α S : Type} (f : α → Nat → S → Option S) : Nat → List α → S → Option S
  | _, [], s => some s
  | i, a :: l, s => (f a i s).bind (forEachFrom f (i + 1) l)

/-- `for_each_idx` (for_each_idx.h:10-16). -/
def forEachIdx {α S : Type} (f : α → Nat → S → Option S) (l : List α) (s : S) : Option S :=
  forEachFrom f 0 l s

/-- `make_index_map` (index_map.h:51-57): elements zipped with `0, 1, …`. -/
def makeIndexMap {α : Type} (l : List α) : List (α × Nat) := l.zip (List.range l.length)

/-- `getIdx` (idx.h:30): `bh::find` in such a map; `none` does not compile. -/
def getIdx {α : Type} [DecidableEq α] (m : List (α × Nat)) (x : α) : Option Nat :=
  (m.find? fun e => e.1 == x).map (·.2)

namespace Machine
variable (M : Machine)

/-- `collect_actions_recursive`, `collect_action_typeids_recursive` (collect_actions.h:22-28): the
actions of the external rows, `none` for rows without one (`noAction`).  The same with guards
(collect_guards.h) does not compile: it takes `at_c<3>` of an object that is no tuple. -/
def actionIds : List (Option Cb) := uniq (M.flat.map (·.action))

/-- `getActionIdx` (idx.h:86-88). -/
def actionIdx (a : Option Cb) : Nat := indexOf M.actionIds a

/-- `getEventIdx` (idx.h:82-84). -/
def eventIdx (e : EventTy) : Nat := indexOf M.eventIds e

end Machine

/-! ## Specification -/

/-- `f` is called on the elements of `l` from the left, each with its place in the list and on what the
call before left; `n` calls were made. -/
inductive Swept {α S : Type} (f : α → Nat → S → Option S) (l : List α) (s : S) : Nat → S → Prop
  | none : Swept f l s 0 s
  | more {n : Nat} {a : α} {s1 s2 : S} (h : Swept f l s n s1) (ha : l[n]? = some a)
      (hf : f a n s1 = some s2) : Swept f l s (n + 1) s2

/-! ## Proofs -/

theorem Swept.shift {α S : Type} {f : α → Nat → S → Option S} {a : α} {l : List α} {s s1 : S}
    (h0 : f a 0 s = some s1) {n : Nat} {t : S}
    (h : Swept (fun a i => f a (i + 1)) l s1 n t) : Swept f (a :: l) s (n + 1) t := by
  induction h with
  | none => exact .more .none rfl h0
  | more _ ha hf ih => exact .more ih (by simpa using ha) hf

theorem forEachFrom_succ {α S : Type} (f : α → Nat → S → Option S) (l : List α) :
    ∀ (i : Nat) (s : S), forEachFrom f (i + 1) l s = forEachFrom (fun a i => f a (i + 1)) i l s := by
  induction l with
  | nil => intro i s; rfl
  | cons a l ih =>
    intro i s
    simp only [forEachFrom]
    congr 1
    funext s
    exact ih _ _

/-- C78: `switch_` gives the function of the first case that holds; every case before it does not. -/
theorem C78_switch {α : Type} (cases : List (Bool × α)) (f : α) :
    switchOf cases = some f ↔
      ∃ i : Nat, cases[i]? = some (true, f) ∧
        ∀ (j : Nat) (c : Bool × α), j < i → cases[j]? = some c → c.1 = false := by
  unfold switchOf
  induction cases with
  | nil => simp
  | cons c cs ih =>
    obtain ⟨b, g⟩ := c
    cases b with
    | true =>
      simp only [List.find?_cons, Option.map_some, Option.some.injEq]
      constructor
      · rintro rfl; exact ⟨0, rfl, by simp⟩
      · rintro ⟨i, hi, hj⟩
        cases i with
        | zero => simpa using hi
        | succ i => have := hj 0 _ (by omega) rfl; cases this
    | false =>
      simp only [List.find?_cons]
      rw [ih]
      constructor
      · rintro ⟨i, hi, hj⟩
        refine ⟨i + 1, by simpa using hi, fun j c h hc => ?_⟩
        cases j with
        | zero => cases hc; rfl
        | succ j => exact hj j c (by omega) (by simpa using hc)
      · rintro ⟨i, hi, hj⟩
        cases i with
        | zero => simp at hi
        | succ i => exact ⟨i, by simpa using hi, fun j c h hc => hj (j + 1) c (by omega) (by simpa using hc)⟩

/-- C78: with an `otherwise` a switch always has a result. -/
theorem C78_otherwise {α : Type} (cases : List (Bool × α)) (g : α) :
    ∃ f, switchOf (cases ++ [otherwise g]) = some f ∧
      ((∀ c ∈ cases, c.1 = false) → f = g) := by
  induction cases with
  | nil => exact ⟨g, rfl, fun _ => rfl⟩
  | cons c cs ih =>
    obtain ⟨b, f⟩ := c
    cases b with
    | true => exact ⟨f, rfl, fun h => by cases h _ List.mem_cons_self⟩
    | false =>
      obtain ⟨f', h1, h2⟩ := ih
      exact ⟨f', h1, fun h => h2 fun c hc => h c (List.mem_cons_of_mem _ hc)⟩

/-- C78: the lazy switch gives the same as the other one. -/
theorem C78_lazy {α : Type} (cases : List ((Unit → Bool) × α)) :
    lazySwitchOf cases = switchOf (cases.map fun c => (c.1 (), c.2)) := by
  unfold lazySwitchOf switchOf
  induction cases with
  | nil => rfl
  | cons c cs ih =>
    simp only [List.map_cons, List.find?_cons]
    cases c.1 () with
    | true => rfl
    | false => exact ih

/-- C78: `for_each_idx` calls its closure on every element with its index, in order, once; it ends
early exactly if a call throws. -/
theorem C78_for_each_idx {α S : Type} (f : α → Nat → S → Option S) (l : List α) (s : S) :
    (∀ t, forEachIdx f l s = some t ↔ Swept f l s l.length t) ∧
    (forEachIdx f l s = none ↔
      ∃ n a t, Swept f l s n t ∧ l[n]? = some a ∧ f a n t = none) := by
  have key : ∀ (l : List α) (f : α → Nat → S → Option S) (s : S),
      (∀ t, forEachFrom f 0 l s = some t → Swept f l s l.length t) ∧
      (forEachFrom f 0 l s = none →
        ∃ n a t, Swept f l s n t ∧ l[n]? = some a ∧ f a n t = none) := by
    intro l
    induction l with
    | nil =>
      intro f s
      refine ⟨fun t h => ?_, fun h => by cases h⟩
      cases h; exact .none
    | cons a l ih =>
      intro f s
      show (∀ t, (f a 0 s).bind (forEachFrom f 1 l) = some t → _) ∧
        ((f a 0 s).bind (forEachFrom f 1 l) = none → _)
      cases h0 : f a 0 s with
      | none => exact ⟨(fun t h => nomatch h), fun _ => ⟨0, a, s, .none, rfl, h0⟩⟩
      | some s1 =>
        obtain ⟨h1, h2⟩ := ih (fun a i => f a (i + 1)) s1
        refine ⟨fun t h => ?_, fun h => ?_⟩
        · exact (h1 t (by rw [← forEachFrom_succ]; exact h)).shift h0
        · obtain ⟨n, b, t, hs, hb, ht⟩ := h2 (by rw [← forEachFrom_succ]; exact h)
          exact ⟨n + 1, b, t, hs.shift h0, by simpa using hb, ht⟩
  have uniq : ∀ {n : Nat} {t t' : S}, Swept f l s n t → Swept f l s n t' → t = t' := by
    intro n t t' h
    induction h generalizing t' with
    | none => intro h'; cases h'; rfl
    | more _ ha hf ih =>
      intro h'
      cases h' with
      | more h' ha' hf' =>
        cases ih h'
        rw [ha] at ha'; cases ha'
        rw [hf] at hf'; exact Option.some.inj hf'
  have less : ∀ {n m : Nat} {t : S}, Swept f l s n t → m ≤ n → ∃ u, Swept f l s m u := by
    intro n m t h
    induction h with
    | none => intro hm; exact ⟨s, by obtain rfl : m = 0 := by omega
                                     exact .none⟩
    | @more n a s1 s2 h ha hf ih =>
      intro hm
      rcases Nat.lt_or_ge n m with h' | h'
      · obtain rfl : m = n + 1 := by omega
        exact ⟨_, .more h ha hf⟩
      · exact ih h'
  obtain ⟨h1, h2⟩ := key l f s
  have excl : ∀ {t : S}, Swept f l s l.length t → ∀ {n a u}, Swept f l s n u → l[n]? = some a →
      f a n u = none → False := by
    intro t ht n a u hu ha hf
    have hn : n < l.length := (List.getElem?_eq_some_iff.1 ha).1
    obtain ⟨v, hv⟩ := less ht hn
    cases hv with
    | more hv ha' hf' =>
      cases uniq hu hv
      rw [ha] at ha'; cases ha'
      rw [hf] at hf'; cases hf'
  refine ⟨fun t => ⟨h1 t, fun h => ?_⟩, h2, ?_⟩
  · cases hr : forEachIdx f l s with
    | none =>
      obtain ⟨n, a, u, hu, ha, hf⟩ := h2 hr
      exact (excl h hu ha hf).elim
    | some t' => rw [uniq h (h1 _ hr)]
  · rintro ⟨n, a, u, hu, ha, hf⟩
    cases hr : forEachIdx f l s with
    | none => rfl
    | some t => exact (excl (h1 _ hr) hu ha hf).elim

/-- C78: `for_each` is `for_each_idx` without the index. -/
theorem C78_for_each {α S : Type} (f : α → S → Option S) (l : List α) (s : S) :
    forEach f l s = forEachIdx (fun a _ => f a) l s := by
  have : ∀ (i : Nat) (s : S), forEach f l s = forEachFrom (fun a _ => f a) i l s := by
    induction l with
    | nil => intro i s; rfl
    | cons a l ih => intro i s; simp only [forEach, forEachFrom]; congr 1; funext s; exact ih _ _
  exact this 0 s

/-- C78: the index map of a list without repetitions has the positions, which are also what `index_of`
computes, and nothing else. -/
theorem C78_index_map {α : Type} [DecidableEq α] {l : List α} (hl : l.Nodup) (hs : l.length < 2 ^ 64)
    (x : α) : (∀ i, getIdx (makeIndexMap l) x = some i ↔ l[i]? = some x) ∧
      (x ∈ l → getIdx (makeIndexMap l) x = some (indexOf l x)) ∧
      (x ∉ l → getIdx (makeIndexMap l) x = none) := by
  have key : ∀ (l : List α) (k : Nat), l.Nodup → ∀ i,
      ((l.zip (List.range' k l.length)).find? fun e => e.1 == x).map (·.2) = some i ↔
        ∃ j, i = k + j ∧ l[j]? = some x := by
    intro l
    induction l with
    | nil => intro k _ i; simp
    | cons a l ih =>
      intro k hn i
      simp only [List.length_cons, List.range'_succ, List.zip_cons_cons, List.find?_cons]
      by_cases h : a = x
      · subst h
        simp only [BEq.rfl, Option.map_some, Option.some.injEq]
        constructor
        · rintro rfl; exact ⟨0, rfl, rfl⟩
        · rintro ⟨j, rfl, hj⟩
          cases j with
          | zero => rfl
          | succ j =>
            exact absurd (List.mem_of_getElem? (by simpa using hj)) (List.nodup_cons.1 hn).1
      · simp only [beq_eq_false_iff_ne.2 h]
        rw [ih (k + 1) (List.nodup_cons.1 hn).2]
        constructor
        · rintro ⟨j, rfl, hj⟩; exact ⟨j + 1, by omega, by simpa using hj⟩
        · rintro ⟨j, rfl, hj⟩
          cases j with
          | zero => exact absurd (by simpa using hj) h
          | succ j => exact ⟨j, by omega, by simpa using hj⟩
  have h1 : ∀ i, getIdx (makeIndexMap l) x = some i ↔ l[i]? = some x := by
    intro i
    unfold getIdx makeIndexMap
    rw [List.range_eq_range', key l 0 hl i]
    constructor
    · rintro ⟨j, rfl, hj⟩; simpa using hj
    · intro h; exact ⟨i, by omega, h⟩
  refine ⟨h1, fun hx => ?_, fun hx => ?_⟩
  · obtain ⟨i, hi⟩ := List.mem_iff_getElem?.1 hx
    rw [(h1 i).2 hi, indexOf_of_getElem hi hl hs]
  · cases h : getIdx (makeIndexMap l) x with
    | none => rfl
    | some i => exact absurd (List.mem_of_getElem? ((h1 i).1 h)) hx

/-- C78: `getActionIdx` numbers the actions of the external rows in force without gaps or collisions,
in the order in which they are first read; an action of no row gets a number beyond. -/
theorem C78_actions {M : Machine} (hs : M.actionIds.length < 2 ^ 64) (a : Option Cb) :
    ((∃ t ∈ M.extRows, t.action = a) ↔ M.actionIds[M.actionIdx a]? = some a) ∧
    ((¬ ∃ t ∈ M.extRows, t.action = a) → M.actionIdx a = M.actionIds.length) ∧
    (∀ t ∈ M.extRows, t.action = a → ∀ b, M.actionIdx b = M.actionIdx a → b = a) := by
  have hmem : a ∈ M.actionIds ↔ ∃ t ∈ M.extRows, t.action = a := by
    rw [M.extRows_eq]
    unfold Machine.actionIds
    rw [(C47_uniq _).2.1, List.mem_map]
  have hget : ∀ {b}, b ∈ M.actionIds → M.actionIds[M.actionIdx b]? = some b := by
    intro b hb
    obtain ⟨i, hi⟩ := List.mem_iff_getElem?.1 hb
    unfold Machine.actionIdx
    rw [indexOf_of_getElem hi (C47_uniq _).1 hs]
    exact hi
  have habs : ∀ {b}, b ∉ M.actionIds → M.actionIdx b = M.actionIds.length := fun hb => C40_absent hb hs
  refine ⟨⟨fun h => hget (hmem.2 h), fun h => hmem.1 (List.mem_of_getElem? h)⟩,
    fun h => habs fun h' => h (hmem.1 h'), fun t ht hta b hb => ?_⟩
  have ha := hget (hmem.2 ⟨t, ht, hta⟩)
  by_cases h : b ∈ M.actionIds
  · have := hget h
    rw [hb, ha] at this
    exact (Option.some.inj this).symm
  · rw [← hb, habs h] at ha
    simp at ha

/-- C78: the same for events and `getEventIdx`. -/
theorem C78_events {M : Machine} (hs : M.events.length < 2 ^ 64) (e : EventTy) :
    (e ∈ M.events ↔ M.events[M.eventIdx e]? = some e) ∧
    (e ∉ M.events → M.eventIdx e = M.events.length) ∧
    (e ∈ M.events → ∀ b, M.eventIdx b = M.eventIdx e → b = e) := by
  have hn : M.events.Nodup := by rw [M.events_eq]; exact (C47_uniq _).1
  have hix : ∀ b, M.eventIdx b = indexOf M.events b := by
    intro b; rw [M.events_eq]; rfl
  have hget : ∀ {b}, b ∈ M.events → M.events[M.eventIdx b]? = some b := by
    intro b hb
    obtain ⟨i, hi⟩ := List.mem_iff_getElem?.1 hb
    rw [hix, indexOf_of_getElem hi hn hs]
    exact hi
  have habs : ∀ {b}, b ∉ M.events → M.eventIdx b = M.events.length :=
    fun hb => by rw [hix]; exact C40_absent hb hs
  refine ⟨⟨hget, List.mem_of_getElem?⟩, habs, fun ha b hb => ?_⟩
  have ha := hget ha
  by_cases h : b ∈ M.events
  · have := hget h
    rw [hb, ha] at this
    exact (Option.some.inj this).symm
  · rw [← hb, habs h] at ha
    simp at ha

/-! ## Examples: the repository's unit tests -/

/-- test/unit/switch_tests.cpp -/
example : switchOf [(true, true), otherwise false] = some true ∧
    switchOf [(false, false), otherwise true] = some true ∧
    lazySwitchOf [((fun _ => false), false), ((fun _ => true), true)] = some true := by decide

/-- test/unit/for_each_tests.cpp -/
example : forEachIdx (fun a i (s : List (Nat × Nat)) => some (s ++ [(a, i)])) [5, 6, 7] [] =
    some [(5, 0), (6, 1), (7, 2)] := by decide

/-- test/unit/index_map_tests.cpp -/
example : getIdx (makeIndexMap [4, 9]) 4 = some 0 ∧ getIdx (makeIndexMap [4, 9]) 9 = some 1 := by decide

/-- The demo machine: some row has no action, which is an action type of its own. -/
example : Ex.demo.actionIds.Nodup ∧ none ∈ Ex.demo.actionIds := by decide +kernel

end Hsm
