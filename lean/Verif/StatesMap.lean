import Verif.PropsTrace

/-!
# The state objects (C55)

Models `make_states_map.h`, `to_pairs.h`, `to_map.h`, the value half of `collect_states.h` and
`unwrap_typeid_to_shared_ptr`.
-/

namespace Hsm

/-! ## Model -/

/-- A `std::shared_ptr<std::unique_ptr<T>>` made by `unwrap_typeid_to_shared_ptr`
(traits.h:51-58): `id` is its identity, `cls` is `T`, `present` says whether the inner pointer
points to an object at first. -/
structure StateObj where
  id : Nat
  cls : StTy
  present : Bool
deriving DecidableEq, Repr

namespace Machine
variable (M : Machine)

/-- `collect_child_states_recursive` (collect_states.h:69-72): no duplicates are removed. -/
def allSubStates : List StTy := M.flat.flatMap fun t => [stripInitial t.source, t.target]

/-- `collect_states_recursive` (collect_states.h:81-84): duplicates are removed after the root
was appended, unlike in `collect_state_typeids_recursive`. -/
def allStates : List StTy := uniq (M.allSubStates ++ [.st M.root])

/-- `bh::transform(…, unwrap_typeid_to_shared_ptr)` (make_states_map.h:24): one new object per
element; `i` is the identity of the next one. -/
def makeObjs (i : Nat) : List StTy → List StateObj
  | [] => []
  | st :: l => ⟨i, st, M.defaultCtor st⟩ :: makeObjs (i + 1) l

/-- `make_states_map` (make_states_map.h:21-27).  `bh::zip` stops with the shorter list;
`to_pairs` (to_pairs.h:12-16) turns its two-element tuples into pairs and `to_map` (to_map.h:12-16)
makes the map, here the list of its pairs. -/
def statesMap : List (StTy × StateObj) := M.stateIds.zip (M.makeObjs 0 M.allStates)

/-- `bh::find(statesMap, typeid)` (fill_dispatch_table.h:97-98,
fill_unexpected_event_handler_tables.h). -/
def objOf (st : StTy) : Option StateObj := (M.statesMap.find? fun x => x.1 == st).map (·.2)

/-! ## Proofs -/

theorem makeObjs_cls (l : List StTy) : ∀ i, (M.makeObjs i l).map (·.cls) = l := by
  induction l with
  | nil => intro i; rfl
  | cons x l ih => intro i; simp [makeObjs, ih]

theorem makeObjs_id (l : List StTy) : ∀ i, (M.makeObjs i l).map (·.id) = List.range' i l.length := by
  induction l with
  | nil => intro i; rfl
  | cons x l ih => intro i; simp [makeObjs, ih, List.range'_succ]

theorem makeObjs_present (l : List StTy) : ∀ i, ∀ o ∈ M.makeObjs i l,
    o.present = M.defaultCtor o.cls := by
  induction l with
  | nil => intro i o h; cases h
  | cons x l ih =>
    intro i o h
    rcases List.mem_cons.1 h with rfl | h
    · rfl
    · exact ih _ o h

theorem uniq_snoc {α : Type} [DecidableEq α] (l : List α) (x : α) :
    uniq (l ++ [x]) = if x ∈ l then uniq l else uniq l ++ [x] := by
  unfold uniq
  rw [List.foldl_append]
  show (if x ∈ uniq l then uniq l else uniq l ++ [x]) = _
  simp only [mem_uniq]
  rfl

theorem zip_append_left {α β : Type} (l : List α) (x : α) (m : List β) (h : l.length = m.length) :
    (l ++ [x]).zip m = l.zip m := by
  have := List.zip_append (l₁ := l) (r₁ := [x]) (l₂ := m) (r₂ := ([] : List β)) h
  simpa using this

/-- The keys are those the objects were made for, in this order. -/
theorem statesMap_eq : M.statesMap = M.allStates.zip (M.makeObjs 0 M.allStates) := by
  have hlen : (M.makeObjs 0 M.allStates).length = M.allStates.length := by
    have := congrArg List.length (M.makeObjs_cls M.allStates 0)
    simpa using this
  unfold statesMap
  have hsub : M.subStateIds = uniq M.allSubStates := rfl
  by_cases h : StTy.st M.root ∈ M.allSubStates
  · have he : M.allStates = uniq M.allSubStates := by
      unfold allStates; rw [uniq_snoc, if_pos h]
    unfold stateIds
    rw [hsub, zip_append_left _ _ _ (by rw [hlen, he]), he]
  · have he : M.allStates = uniq M.allSubStates ++ [.st M.root] := by
      unfold allStates; rw [uniq_snoc, if_neg h]
    unfold stateIds
    rw [hsub, ← he]

theorem statesMap_keys : M.statesMap.map (·.1) = M.allStates := by
  rw [statesMap_eq, List.map_fst_zip]
  have := congrArg List.length (M.makeObjs_cls M.allStates 0)
  simp at this
  omega

theorem mem_allStates {st : StTy} : st ∈ M.allStates ↔ st ∈ M.states := by
  rw [states_eq]
  unfold allStates stateIds subStateIds
  rw [mem_uniq, List.mem_append, List.mem_append, mem_uniq]
  rfl

theorem statesMap_get {i : Nat} {st : StTy} {o : StateObj} (h : M.statesMap[i]? = some (st, o)) :
    o.cls = st ∧ o.id = i ∧ o.present = M.defaultCtor st := by
  rw [statesMap_eq, List.getElem?_zip_eq_some] at h
  obtain ⟨h1, h2⟩ := h
  have hc : (M.makeObjs 0 M.allStates)[i]?.map (·.cls) = M.allStates[i]? := by
    rw [← List.getElem?_map, makeObjs_cls]
  rw [h1, h2] at hc
  have hc : o.cls = st := by simpa using hc
  have hi : (M.makeObjs 0 M.allStates)[i]?.map (·.id) = (List.range' 0 M.allStates.length)[i]? := by
    rw [← List.getElem?_map, makeObjs_id]
  rw [h2] at hi
  obtain ⟨hlt, hi⟩ := List.getElem?_eq_some_iff.1 hi.symm
  simp at hi
  refine ⟨hc, by simpa using hi.symm, ?_⟩
  rw [← hc]
  exact M.makeObjs_present _ 0 o (List.mem_of_getElem? h2)

theorem objOf_some {st : StTy} {o : StateObj} (h : M.objOf st = some o) :
    ∃ i : Nat, M.statesMap[i]? = some (st, o) := by
  unfold objOf at h
  rw [Option.map_eq_some_iff] at h
  obtain ⟨x, hx, rfl⟩ := h
  have h1 := List.find?_some hx
  have h2 := List.mem_of_find?_eq_some hx
  obtain ⟨i, hi⟩ := List.getElem?_of_mem h2
  have h1 : x.1 = st := by simpa using h1
  exact ⟨i, by rw [hi, ← h1]⟩

end Machine

variable {P W : Type} {M : Machine} {sem : Sem P W}

/-- C55: there is one object per state: the map has no key twice, a state is found in it
exactly if it is a state of the machine (the root included), what is found is an object of the
class of this state, made by the default constructor if there is one and missing otherwise,
and different states have different objects. -/
theorem C55_objects (M : Machine) :
    (M.statesMap.map (·.1)).Nodup ∧
    (∀ st, st ∈ M.states ↔ ∃ o, M.objOf st = some o) ∧
    (∀ st o, M.objOf st = some o → o.cls = st ∧ o.present = M.defaultCtor st) ∧
    (∀ st st' o o', M.objOf st = some o → M.objOf st' = some o' → (o.id = o'.id ↔ st = st')) := by
  refine ⟨?_, ?_, ?_, ?_⟩
  · rw [M.statesMap_keys]
    exact nodup_uniq _
  · intro st
    rw [← M.mem_allStates, ← M.statesMap_keys]
    constructor
    · intro h
      obtain ⟨x, hx, rfl⟩ := List.mem_map.1 h
      have : (M.statesMap.find? fun y => y.1 == x.1).isSome := by
        rw [List.find?_isSome]; exact ⟨x, hx, by simp⟩
      obtain ⟨y, hy⟩ := Option.isSome_iff_exists.1 this
      exact ⟨y.2, by unfold Machine.objOf; rw [hy]; rfl⟩
    · intro ⟨o, ho⟩
      obtain ⟨i, hi⟩ := M.objOf_some ho
      exact List.mem_map.2 ⟨_, List.mem_of_getElem? hi, rfl⟩
  · intro st o h
    obtain ⟨i, hi⟩ := M.objOf_some h
    have := M.statesMap_get hi
    exact ⟨this.1, this.2.2⟩
  · intro st st' o o' h h'
    obtain ⟨i, hi⟩ := M.objOf_some h
    obtain ⟨j, hj⟩ := M.objOf_some h'
    constructor
    · intro he
      rw [(M.statesMap_get hi).2.1, (M.statesMap_get hj).2.1] at he
      subst he
      rw [hi] at hj
      cases hj
      rfl
    · rintro rfl
      rw [h] at h'
      cases h'
      rfl

/-- The states whose objects a callback gets. -/
def Call.objects : Call P → List StTy
  | .guard _ a _ _ _ => [a.src, a.dst]
  | .action _ _ a _ _ _ => [a.src, a.dst]
  | .handler _ _ st _ _ _ _ => [st]

theorem RowAt.src_mem (hM : M.Regular) {deps : List Dep} {cur : List (Option Nat)} {r : Nat}
    {ev : EventTy} {cd : Cand} {t : XRow} {d : Dep} {l : Name × StTy}
    (h : RowAt M deps cur r ev cd t d l) : cd.src ∈ M.states ∧ l.2 ∈ M.states := by
  obtain ⟨p, st, _, _, _, hc⟩ := h.place
  have hcomp : ∀ t ∈ M.flat ++ M.iflat, M.rowCompiles t = true := by
    intro t ht
    rcases List.mem_append.1 ht with ht | ht
    · exact Machine.accepts_flat hM.accepts ht
    · exact Machine.accepts_iflat hM.accepts ht
  have hrow : t ∈ M.flat ++ M.iflat := by
    rcases Machine.cand_row hc with rfl | ⟨t', ht', _, rfl | rfl⟩
    · cases h.row
    · cases h.row; exact ht'
    · cases h.row; exact ht'
  refine ⟨?_, hM.targetLoc_state hrow h.loc⟩
  rcases Machine.mem_cands.1 hc with ⟨rfl, _⟩ | ⟨t', ht', _, hs, _, _, rfl⟩ | ⟨t', ht', _, _, rfl⟩ |
    ⟨t', ht', _, _, rfl⟩
  · cases h.row
  · have := Machine.rowCompiles_iff.1 (hcomp t' (List.mem_append_left _ ht'))
    obtain ⟨_, _, h1, _⟩ := this
    have h2 : Machine.resolveSrc t' = .st p := by unfold Machine.resolveSrc; rw [hs]
    rw [h2] at h1
    exact h1
  · obtain ⟨_, _, h1, _⟩ := Machine.rowCompiles_iff.1 (hcomp t' (List.mem_append_left _ ht'))
    show (Machine.sourceLoc t'.parent t'.source).2 ∈ _
    rw [Machine.sourceLoc_eq]
    exact h1
  · obtain ⟨_, _, h1, _⟩ := Machine.rowCompiles_iff.1 (hcomp t' (List.mem_append_right _ ht'))
    show (Machine.sourceLoc t'.parent t'.source).2 ∈ _
    rw [Machine.sourceLoc_eq]
    exact h1

/-- C55, use: in every history every object handed to a callback is the one in the map for a
state of the machine (so the lookups the rows and handlers were bound with succeed). -/
theorem C55_calls (hM : M.Regular) {d : Dep} {ops : List (Op P)} {s : SM P W}
    (h : RunTo M sem d ops s) {c : Call P} (hc : c ∈ s.trace) {st : StTy} (hst : st ∈ c.objects) :
    ∃ o, M.objOf st = some o ∧ o.cls = st := by
  have key : st ∈ M.states := by
    obtain ⟨pre, post, hp⟩ := List.append_of_mem hc
    cases C41_calls hM h hp with
    | guard hr _ =>
      have := hr.src_mem hM
      rcases List.mem_cons.1 hst with rfl | hst
      · exact this.1
      · rw [List.mem_singleton.1 hst]
        show (if _ then _ else _) ∈ _
        split
        · exact this.1
        · exact this.2
    | action hr _ _ _ _ _ _ =>
      have := hr.src_mem hM
      rcases List.mem_cons.1 hst with rfl | hst
      · exact this.1
      · rw [List.mem_singleton.1 hst]
        show (if _ then _ else _) ∈ _
        split
        · exact this.1
        · exact this.2
    | handler _ _ hs _ =>
      rw [List.mem_singleton.1 hst]
      exact hs
  obtain ⟨o, ho⟩ := ((C55_objects M).2.1 st).1 key
  exact ⟨o, ho, ((C55_objects M).2.2.1 st o ho).1⟩

/-! ## Concrete machines -/

namespace Ex

/-- The machine of test/unit/make_states_map_tests.cpp: six objects, no two the same. -/
def objects : Machine := Machine.ofList
  [ { table := some
        [ row (ini 2) (ev 1) (some 1) (some 1) (.st 3),
          row (.st 3) (ev 1) (some 1) (some 1) (.st 1),
          row (ini 4) (ev 1) (some 1) (some 1) (.st 5) ] },
    { table := some [ row (ini 2) (ev 1) (some 1) (some 1) (.st 3) ] } ] [1]

/-- In `rootInside` the root is the source of one of its own rows; the list of keys has it
twice, the list of objects once, and the zipped lists still agree. -/
def rootInside : Machine := Machine.ofList
  [ { table := some
        [ row (ini 1) (ev 1) none (some 1) (.st 2),
          row (.st 0) (ev 2) none (some 1) (.st 1) ] } ] [1]

end Ex

example : Ex.objects.statesMap.length = 6 ∧
    (Ex.objects.statesMap.map fun x => x.2.id) = [0, 1, 2, 3, 4, 5] ∧
    Ex.objects.objOf (.st 3) = some ⟨1, .st 3, true⟩ ∧
    Ex.objects.objOf (.st 0) = some ⟨5, .st 0, true⟩ := by decide +kernel

example : Ex.rootInside.stateIds = [.st 1, .st 2, .st 0, .st 0] ∧
    Ex.rootInside.allStates = [.st 1, .st 2, .st 0] ∧
    Ex.rootInside.objOf (.st 0) = some ⟨2, .st 0, true⟩ ∧
    ¬ Ex.rootInside.states.Nodup := by decide +kernel

/-- The hypotheses of `C55_calls` are met: three objects of the demo machine are handed out. -/
example : (Ex.run Ex.demo (Ex.sem fun _ => true) 5 7 []
    [.process (Ex.ev 0) 1, .process (Ex.ev 1) 2]).any (fun s =>
      s.trace.length == 5 && s.trace.all fun c => c.objects.all fun st =>
        (Ex.demo.objOf st).isSome) = true := by
  decide +kernel

end Hsm
