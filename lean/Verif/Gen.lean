import Verif.StatesMap
import Verif.PropsQueue
import Verif.PropsPriority

/-!
# The amalgamated header (C61, C62, C63)

`include/hsm/gen/hsm.h` is the single file the README tells users to download.  It was made from
an older version of the headers.  Compared line by line, it differs from them in
`flatten_internal_transition_table` (gen/hsm.h:1346-1423) and in `sm` (gen/hsm.h:2300-2602); the
functions that differ are modelled here, the others are those of `Static.lean`, `Tables.lean` and
`Runtime.lean`.
-/

namespace Hsm

/-! ## Model -/

namespace Machine
variable (M : Machine)

/-- The body of `get_internal_transitions` for one state (gen/hsm.h:1391-1412), including
`get_internal_transition_table` (:1346-1363) and `extend_internal_transition` (:1371-1384): only
composites have internal rows; those of a simple state are replaced by an empty tuple. -/
def internalRowsOfG : StTy → List XRow
  | .st s =>
    match (M.decl s).itable with
    | none => []
    | some is =>
      if M.isComposite s then
        is.flatMap fun i => (M.childStates s).map fun c => internalRow s c i
      else []
  | .ps _ _ => []

/-- `flatten_internal_transition_table` (gen/hsm.h:1418-1423): over the states of the machine, the
root last; duplicates are not removed. -/
def iflatG : List XRow := M.allStates.flatMap M.internalRowsOfG

/-- `collect_event_typeids_recursive` (gen/hsm.h:1447-1452). -/
def eventIdsG : List EventTy := uniq ((M.flat ++ M.iflatG).map (·.event))

/-- `sm::fill_dispatch_table` (gen/hsm.h:2593-2601). -/
def fillG (dep : Dep) (T : Table) : Except BuildErr Table := do
  let T ← M.fillWith dep M.iflatG T
  let T ← M.fillWith dep M.flat T
  M.fillDeferred T

/-- `fill_unexpected_event_handler_tables` for the given events; the code is that of
`Machine.fillHandlers`. (gen/hsm.h:2107-2139) -/
def fillHandlersFor (evs : List EventTy) (dep : Dep) (H : HTable) : Except BuildErr HTable :=
  evs.foldlM (fun H e =>
    M.parents.foldlM (fun H p =>
      M.stateIds.foldlM (fun (H : HTable) s =>
        if M.comb p s < M.size then
          .ok fun e' c' => if e' = e ∧ c' = M.comb p s then some (s, dep) else H e' c'
        else .error BuildErr.ub) H) H) H

/-- What the compiler checks: as `Machine.accepts`, without the assertions that the initial states
of the root are simple and have no internal rows (gen/hsm.h:2324-2332). -/
def acceptsG : Bool :=
  M.isComposite M.root
    && !M.flat.isEmpty
    && decide (M.maxInit ≠ 0)
    && M.flat.all M.rowCompiles
    && M.iflatG.all M.rowCompiles
    && M.deferringRows.all (fun t =>
        ((M.deferOf (stripInitial t.source)).getD []).all fun e => decide (e ∈ M.eventIdsG))

end Machine

section
variable {P W : Type} (M : Machine) (sem : Sem P W)

/-- One pass of the region loop of `process_anonymous_transitions` (gen/hsm.h:2474-2494): every
region gets a new `noneEvent`. -/
def anonRoundG : List Nat → Bool → SM P W → Res (SM P W) (Option Bool)
  | [], agf, s => .ok (some agf) s
  | r :: rs, agf, s =>
    (lookup M .none r s).bind fun es s =>
      match es with
      | [] => .ok none s
      | es =>
        (tryAnon M sem r es sem.nonePayload s).bind fun fp s =>
          anonRoundG rs (agf && !fp.1) s

/-- The `while (true)` loop (gen/hsm.h:2470-2499), at most `fuel` iterations. -/
def anonLoopG : Nat → SM P W → Res (SM P W) Unit
  | 0, _ => .timeout
  | fuel + 1, s =>
    (anonRoundG M sem (List.range (currentRegions M s)) true s).bind fun o s =>
      match o with
      | none => .ok () s
      | some true => .ok () s
      | some false => anonLoopG fuel s

/-- `process_anonymous_transitions` (gen/hsm.h:2467-2501). -/
def processAnonG (fuel : Nat) (s : SM P W) : Res (SM P W) Unit :=
  if M.hasAnon then anonLoopG M sem fuel s else .ok () s

/-- `process_event_internal` (gen/hsm.h:2410-2456): the result is a `bool`, which is `true` for
deferred and for rejected events, too.  The region loop is that of the modular header. -/
def processInternalG (fuel : Nat) (ev : EventTy) (p : P) (s : SM P W) :
    Res (SM P W) (Bool × P) :=
  (regionLoop M sem ev (List.range (currentRegions M s)) true true p s).bind fun op s =>
    match op.1 with
    | .deferred => .ok (true, op.2) s
    | .done agf ati =>
      if ati then .ok (false, op.2) s
      else if agf then .ok (true, op.2) s
      else (processAnonG M sem fuel s).bind fun _ s => .ok (true, op.2) s

/-- `process_deferred_events` (gen/hsm.h:2458-2465). -/
def processDeferredG (fuel : Nat) (s : SM P W) : Res (SM P W) Unit :=
  if M.hasDefer then
    match s.queue with
    | [] => .ok () s
    | (e, p) :: q =>
      (processInternalG M sem fuel e p { s with queue := q }).bind fun _ s => .ok () s
  else .ok () s

/-- `process_event` (gen/hsm.h:2351-2365): no result; deferred events are processed whenever
`process_event_internal` returned `true`. -/
def processEventG (fuel : Nat) (ev : EventTy) (p : P) (s : SM P W) : Res (SM P W) Unit :=
  (processInternalG M sem fuel ev p s).bind fun bp s =>
    if bp.1 then processDeferredG M sem fuel s
    else (callHandler M sem ev bp.2 s).bind fun _ s => .ok () s

/-- `set_dependency` (gen/hsm.h:2403-2407). -/
def setDependencyG (d : Dep) (s : SM P W) : Res (SM P W) Unit :=
  match M.fillG d s.table with
  | .ok T => .ok () { s with table := T }
  | .error _ => .ub .bounds

/-- The constructor (gen/hsm.h:2318-2349). -/
def constructG (dep : Dep) (w : W) : Except BuildErr (SM P W) :=
  if M.acceptsG then do
    let H ← (if (M.decl M.root).handler.isSome then
        M.fillHandlersFor M.eventIdsG dep (fun _ _ => none)
      else .ok (fun _ _ => none))
    let T ← M.fillG dep (fun _ _ => [])
    initState M w H T
  else .error .reject

/-- A call on a machine object that can change it; there is no `set`. (gen/hsm.h:2351, 2403) -/
inductive OpG (P : Type)
  | process (ev : EventTy) (p : P)
  | setDependency (d : Dep)

/-- Run one call. (gen/hsm.h:2351-2410) -/
def stepG (fuel : Nat) : OpG P → SM P W → Res (SM P W) Unit
  | .process ev p, s => processEventG M sem fuel ev p s
  | .setDependency d, s => setDependencyG M d s

/-- The static assertion of `process_event` (gen/hsm.h:2353-2357). -/
def OpOkG : OpG P → Prop
  | .process ev _ => ev ∈ M.eventIdsG
  | .setDependency _ => True

/-- Histories of machines of the amalgamated header. -/
inductive RunToG (d : Dep) : List (OpG P) → SM P W → Prop
  | init {w : W} {s : SM P W} (h : constructG M d w = .ok s) : RunToG d [] s
  | ok {s s' : SM P W} {ops : List (OpG P)} {op : OpG P} {fuel : Nat}
      (hr : RunToG d ops s) (hop : OpOkG M op) (h : stepG M sem fuel op s = .ok () s') :
      RunToG d (ops ++ [op]) s'
  | throw {s s' : SM P W} {ops : List (OpG P)} {op : OpG P} {fuel : Nat} {x : Exn}
      (hr : RunToG d ops s) (hop : OpOkG M op) (h : stepG M sem fuel op s = .throw x s') :
      RunToG d (ops ++ [op]) s'
  | world {s : SM P W} {ops : List (OpG P)} (hr : RunToG d ops s) (w : W) :
      RunToG d ops { s with world := w }

/-! ## Specification -/

/-- The same call on the modular header. -/
def OpG.op : OpG P → Op P
  | .process ev p => .process ev p
  | .setDependency d => .setDependency d

/-- Internal rows both headers understand in the same way: simple states have none, no composite
declares one twice, and the rows of a composite that has some do not mention exit or direct entry
points, which stand for states of other composites. -/
structure Machine.PlainInternals : Prop where
  simple : ∀ s, StTy.st s ∈ M.states → M.isComposite s = false → (M.decl s).itable.getD [] = []
  once : ∀ s, ((M.decl s).itable.getD []).Nodup
  own : ∀ s, (M.decl s).itable.getD [] ≠ [] → ∀ r ∈ M.rows s,
    (Machine.sourceLoc s r.source).1 = s ∧ (Machine.sourceLoc s r.target).1 = s

/-- Callbacks leave the none event as it is (it is an empty class, event.h:37-38). -/
structure Sem.KeepsNone : Prop where
  guard : ∀ g args p w b p' w', args.event = .none → sem.guard g args p w = .ok b p' w' → p' = p
  action : ∀ a args p w p' w', args.event = .none → sem.action a args p w = .ok () p' w' → p' = p

end

/-! ## Proofs: the rows -/

namespace Machine
variable {M : Machine}

theorem internalRowsOfG_parent {st : StTy} {t : XRow} (h : t ∈ M.internalRowsOfG st) :
    st = .st t.parent ∧ t.internal = true ∧ t.source ∈ M.childStates t.parent ∧
      (M.decl t.parent).itable.getD [] ≠ [] := by
  rcases st with s | ⟨o, k⟩
  · unfold internalRowsOfG at h
    cases hi : (M.decl s).itable with
    | none => simp [hi] at h
    | some is =>
      simp only [hi] at h
      split at h
      · obtain ⟨i, h1, h⟩ := List.mem_flatMap.1 h
        obtain ⟨c, hc, rfl⟩ := List.mem_map.1 h
        refine ⟨rfl, rfl, hc, ?_⟩
        show (M.decl s).itable.getD [] ≠ []
        rw [hi]
        exact List.ne_nil_of_mem h1
      · cases h
  · cases h

theorem internalRowsOfG_nodup (h : M.PlainInternals) (st : StTy) : (M.internalRowsOfG st).Nodup := by
  rcases st with s | ⟨o, k⟩
  · unfold internalRowsOfG
    cases hi : (M.decl s).itable with
    | none => simp only [hi]; exact List.nodup_nil
    | some is =>
      simp only [hi]
      split
      · have hn := h.once s
        rw [hi] at hn
        simp only [Option.getD_some] at hn
        refine List.pairwise_flatMap.2 ⟨fun i _ => ?_, ?_⟩
        · refine List.pairwise_map.2 ((nodup_uniq _).imp ?_)
          intro c c' hne hc
          exact hne (congrArg XRow.source hc)
        · refine hn.imp ?_
          intro i j hij
          rintro t h1 _ h2 rfl
          obtain ⟨c, _, rfl⟩ := List.mem_map.1 h1
          obtain ⟨c', _, hc'⟩ := List.mem_map.1 h2
          apply hij
          have e1 := congrArg XRow.event hc'
          have e2 := congrArg XRow.guard hc'
          have e3 := congrArg XRow.action hc'
          simp only [internalRow] at e1 e2 e3
          cases i; cases j; simp_all
      · exact List.nodup_nil
  · exact List.nodup_nil

theorem mem_statePairs_snd {st : StTy} : (∃ q, (q, st) ∈ M.statePairs) ↔ st ∈ M.allStates := by
  unfold statePairs allStates allSubStates
  simp only [mem_uniq, List.mem_cons, List.mem_flatMap, List.mem_append, Prod.mk.injEq,
    List.not_mem_nil, or_false]
  constructor
  · rintro ⟨q, ⟨_, rfl⟩ | ⟨t, ht, ⟨_, rfl⟩ | ⟨_, rfl⟩⟩⟩
    · exact Or.inr rfl
    · exact Or.inl ⟨t, ht, Or.inl rfl⟩
    · exact Or.inl ⟨t, ht, Or.inr rfl⟩
  · rintro (⟨t, ht, rfl | rfl⟩ | rfl)
    · exact ⟨t.parent, Or.inr ⟨t, ht, Or.inl ⟨rfl, rfl⟩⟩⟩
    · exact ⟨t.parent, Or.inr ⟨t, ht, Or.inr ⟨rfl, rfl⟩⟩⟩
    · exact ⟨M.root, Or.inl ⟨rfl, rfl⟩⟩

theorem internalRowsOf_eqG (h : M.PlainInternals) {x : Name × StTy} (hx : x ∈ M.statePairs) :
    M.internalRowsOf x = M.internalRowsOfG x.2 := by
  obtain ⟨q, s | ⟨o, k⟩⟩ := x
  · have hs : StTy.st s ∈ M.states := (M.mem_allStates).1 (mem_statePairs_snd.1 ⟨q, hx⟩)
    unfold internalRowsOf internalRowsOfG
    cases hi : (M.decl s).itable with
    | none => simp only [hi]
    | some is =>
      simp only [hi]
      split
      · rfl
      · rename_i hc
        have := h.simple s hs (by simpa using hc)
        rw [hi] at this
        simp only [Option.getD_some] at this
        subst this
        rfl
  · rfl

theorem uniq_repeat {α β : Type} [DecidableEq α] [DecidableEq β] (g : β → List α) (a : β)
    (hg : ∀ b, b ≠ a → g b = []) (hn : (g a).Nodup) (l : List β) :
    uniq (l.flatMap g) = if a ∈ l then g a else [] := by
  induction l with
  | nil => rfl
  | cons b l ih =>
    rw [List.flatMap_cons]
    by_cases hb : b = a
    · subst hb
      have : (if b ∈ l then g b else []).filter (fun x => decide (x ∉ g b)) = [] := by
        rw [List.filter_eq_nil_iff]
        intro x hx
        split at hx
        · simpa using hx
        · cases hx
      rw [uniq_append, ih, uniq_of_nodup hn, this, List.append_nil, if_pos List.mem_cons_self]
    · rw [hg b hb, List.nil_append, ih]
      simp [Ne.symm hb]

theorem filter_flatMap_parent {α : Type} (l : List α) (f : α → List XRow) (q : XRow → Bool) :
    (l.flatMap f).filter q = l.flatMap fun x => (f x).filter q := by
  induction l with
  | nil => rfl
  | cons a l ih => rw [List.flatMap_cons, List.filter_append, ih, List.flatMap_cons]

theorem ofG_filter (p : Name) (st : StTy) (hne : st ≠ .st p) :
    (M.internalRowsOfG st).filter (fun t => t.parent = p) = [] := by
  rw [List.filter_eq_nil_iff]
  intro t ht hp
  have := (internalRowsOfG_parent ht).1
  have hp : t.parent = p := by simpa using hp
  exact hne (hp ▸ this)

/-- The internal rows of one composite are the same in both headers. -/
theorem iflat_filter (h : M.PlainInternals) (p : Name) :
    M.iflat.filter (fun t => t.parent = p) = M.iflatG.filter (fun t => t.parent = p) := by
  have hL : (M.internalRowsOfG (.st p)).filter (fun t => t.parent = p)
      = M.internalRowsOfG (.st p) := by
    rw [List.filter_eq_self]
    intro t ht
    have := (internalRowsOfG_parent ht).1
    simpa using (StTy.st.inj this).symm
  have h1 : M.statePairs.flatMap M.internalRowsOf
      = (M.statePairs.map (·.2)).flatMap M.internalRowsOfG := by
    rw [List.flatMap_map]
    exact flatMap_congr' fun x hx => internalRowsOf_eqG h hx
  unfold iflat iflatG
  rw [← uniq_filter, h1, filter_flatMap_parent, filter_flatMap_parent,
    uniq_repeat (fun x => (M.internalRowsOfG x).filter fun t => t.parent = p) (.st p)
      (fun b hb => ofG_filter p b hb) (by rw [hL]; exact internalRowsOfG_nodup h _)]
  have hm : StTy.st p ∈ M.statePairs.map (·.2) ↔ StTy.st p ∈ M.allStates := by
    rw [← mem_statePairs_snd]
    simp
  by_cases hp : StTy.st p ∈ M.allStates
  · rw [if_pos (hm.2 hp)]
    exact (flatMap_single (nodup_uniq _) (.st p)
      (fun x => (M.internalRowsOfG x).filter fun t => t.parent = p)
      (fun b hb => ofG_filter p b hb) (fun hn => absurd hp hn)).symm
  · rw [if_neg (fun e => hp (hm.1 e)), eq_comm, List.flatMap_eq_nil_iff]
    intro x hx
    exact ofG_filter p x (fun e => hp (e ▸ hx))

theorem mem_iflatG (h : M.PlainInternals) {t : XRow} : t ∈ M.iflatG ↔ t ∈ M.iflat := by
  have := congrArg (t ∈ ·) (iflat_filter h t.parent)
  simpa using this.symm

theorem eventIdsG_mem (h : M.PlainInternals) {e : EventTy} : e ∈ M.eventIdsG ↔ e ∈ M.eventIds := by
  unfold eventIdsG eventIds
  simp only [mem_uniq, List.mem_map, List.mem_append, mem_iflatG h]

theorem iflatG_loc (h : M.PlainInternals) {t : XRow} (ht : t ∈ M.iflatG) :
    (sourceLoc t.parent t.source).1 = t.parent ∧ t.internal = true := by
  unfold iflatG at ht
  obtain ⟨st, _, ht⟩ := List.mem_flatMap.1 ht
  obtain ⟨_, h2, h3, h4⟩ := internalRowsOfG_parent ht
  refine ⟨?_, h2⟩
  unfold childStates at h3
  rw [mem_uniq] at h3
  obtain ⟨r, hr, h3⟩ := List.mem_flatMap.1 h3
  have := h.own _ h4 r hr
  simp only [List.mem_cons, List.not_mem_nil, or_false] at h3
  rcases h3 with h3 | h3 <;> rw [h3]
  · exact this.1
  · exact this.2

theorem flatMap_filter_of {α β : Type} (l : List α) (q : α → Bool) (f : α → List β)
    (h : ∀ a ∈ l, q a = false → f a = []) : l.flatMap f = (l.filter q).flatMap f := by
  induction l with
  | nil => rfl
  | cons a l ih =>
    rw [List.flatMap_cons, ih (fun a ha => h a (by simp [ha]))]
    cases hq : q a with
    | true => rw [List.filter_cons_of_pos hq, List.flatMap_cons]
    | false => rw [List.filter_cons_of_neg (by simp [hq]), h a (by simp) hq, List.nil_append]

theorem cell_int_local (hM : M.Regular) (h : M.PlainInternals) {rows : List XRow}
    (hr : ∀ t ∈ rows, t ∈ M.iflatG) (dep : Dep) (e : EventTy) {p : Name} {s : StTy}
    (hp : p ∈ M.composites) (hs : s ∈ M.states) :
    cell (withPushes M dep rows) e (M.comb p s)
      = ((rows.filter (fun t => t.parent = p)).filter (fun t => t.event = e)).flatMap fun t =>
          cell (rowPushes M dep t) e (M.comb p s) := by
  rw [cell_withPushes, flatMap_filter_of _ (fun t => t.parent = p)]
  · rw [List.filter_filter, List.filter_filter]
    simp only [Bool.and_comm]
  · intro t ht hq
    obtain ⟨h1, h2⟩ := List.mem_filter.1 ht
    have h2 : t.event = e := by simpa using h2
    subst h2
    have hl := iflatG_loc h (hr t h1)
    have := cell_int hM.laid (dep := dep) hp hs hl.2
    rw [← List.reverse_eq_nil_iff, this]
    unfold intCands
    rw [if_neg, List.filterMap_nil]
    intro hc
    rw [hc] at hl
    simp only [decide_eq_false_iff_not] at hq
    exact hq hl.1.symm

theorem fillG_eq (hM : M.Regular) (h : M.PlainInternals) (dep : Dep) (T : Table) :
    M.fillG dep T = M.fill dep T := by
  have hacc := hM.accepts
  have e1 : M.fillG dep T
      = pushAll M (withPushes M dep M.iflatG ++ (withPushes M dep M.flat ++ deferPushes M)) T := by
    unfold fillG
    rw [pushAll_append, fillWith_eq (fun t ht => accepts_iflat hacc ((mem_iflatG h).1 ht))]
    show Except.bind _ _ = _
    congr 1
    funext T'
    rw [pushAll_append, fillWith_eq (fun t ht => accepts_flat hacc ht)]
    show Except.bind _ _ = _
    congr 1
    funext T''
    exact fillDeferred_eq T''
  rw [e1, fill_eq hacc]
  have hmem : ∀ x, x ∈ withPushes M dep M.iflatG ++ (withPushes M dep M.flat ++ deferPushes M)
      ↔ x ∈ fillPushes M dep := by
    intro x
    unfold fillPushes pushesWith
    simp only [List.mem_append, mem_withPushes, mem_iflatG h]
  by_cases hb : ∀ x ∈ fillPushes M dep, x.2.1 < M.size
  · rw [pushAll_ok hb, pushAll_ok (fun x hx => hb x ((hmem x).1 hx))]
    refine congrArg Except.ok (funext fun e => funext fun c => ?_)
    refine congrArg (fun l => List.reverse l ++ T e c) ?_
    unfold fillPushes pushesWith
    rw [cell_append, cell_append (withPushes M dep M.iflat)]
    refine congrArg (· ++ cell (withPushes M dep M.flat ++ deferPushes M) e c) ?_
    by_cases hc : c < M.size
    · obtain ⟨p, s, hp, hs, rfl⟩ := hM.comb_surj hc
      rw [cell_int_local hM h (fun t ht => ht) dep e hp hs,
        cell_int_local hM h (fun t ht => (mem_iflatG h).2 ht) dep e hp hs, iflat_filter h]
    · have none : ∀ rows, (∀ t ∈ rows, t ∈ M.iflat) → cell (withPushes M dep rows) e c = [] := by
        intro rows hr
        unfold cell
        rw [List.filterMap_eq_nil_iff]
        intro x hx
        rw [if_neg]
        rintro ⟨_, rfl⟩
        apply hc
        apply hb
        obtain ⟨t, ht, hx⟩ := mem_withPushes.1 hx
        exact List.mem_append_left _ (mem_withPushes.2 ⟨t, hr t ht, hx⟩)
      rw [none _ (fun t ht => (mem_iflatG h).1 ht), none _ (fun t ht => ht)]
  · have hb : ∃ x ∈ fillPushes M dep, ¬ x.2.1 < M.size := by simpa using hb
    rw [pushAll_ub hb, pushAll_ub]
    obtain ⟨x, hx, hn⟩ := hb
    exact ⟨x, (hmem x).2 hx, hn⟩

theorem acceptsG_of (hM : M.Regular) (h : M.PlainInternals) : M.acceptsG = true := by
  have hacc := hM.accepts
  unfold accepts at hacc
  unfold acceptsG
  simp only [Bool.and_eq_true] at hacc ⊢
  obtain ⟨⟨⟨⟨⟨⟨⟨h1, h2⟩, h3⟩, _⟩, _⟩, h6⟩, h7⟩, h8⟩ := hacc
  refine ⟨⟨⟨⟨⟨h1, h2⟩, h3⟩, h6⟩, ?_⟩, ?_⟩
  · rw [List.all_eq_true] at h7 ⊢
    exact fun t ht => h7 t ((mem_iflatG h).1 ht)
  · simp only [List.all_eq_true, decide_eq_true_eq] at h8 ⊢
    exact fun t ht e he => (eventIdsG_mem h).2 (h8 t ht e he)

/-! ## Proofs: the handlers -/

/-- What one pass over the states does to one cell. -/
def handlerCell (M : Machine) (dep : Dep) (l : List (Name × StTy)) (c : Nat)
    (old : Option (StTy × Dep)) : Option (StTy × Dep) :=
  l.foldl (fun o x => if c = M.comb x.1 x.2 then some (x.2, dep) else o) old

theorem fillHandlersFor_eq (hM : M.Laid) (dep : Dep) {evs : List EventTy} (hn : evs.Nodup)
    (H : HTable) : M.fillHandlersFor evs dep H = .ok fun e c =>
      if e ∈ evs then handlerCell M dep (product M.parents M.stateIds) c (H e c) else H e c := by
  have states : ∀ (e : EventTy) (p : Name) (l : List StTy) (H : HTable),
      (∀ s ∈ l, M.comb p s < M.size) →
      l.foldlM (fun (H : HTable) s =>
        if M.comb p s < M.size then
          Except.ok fun e' c' => if e' = e ∧ c' = M.comb p s then some (s, dep) else H e' c'
        else .error BuildErr.ub) H
      = .ok fun e' c' => if e' = e then handlerCell M dep (l.map (p, ·)) c' (H e' c') else H e' c' := by
    intro e p l
    induction l with
    | nil => intro H _; simp only [List.foldlM_nil, List.map_nil, handlerCell, List.foldl_nil, ite_self]; rfl
    | cons s l ih =>
      intro H hl
      rw [List.foldlM_cons, if_pos (hl s (by simp))]
      show l.foldlM _ _ = _
      rw [ih _ (fun s hs => hl s (by simp [hs]))]
      congr 1
      funext e' c'
      by_cases he : e' = e
      · simp only [he, if_true, true_and, handlerCell, List.map_cons, List.foldl_cons]
      · simp only [he, if_false, false_and]
  have parents : ∀ (e : EventTy) (ps : List Name) (H : HTable), (∀ p ∈ ps, p ∈ M.composites) →
      ps.foldlM (fun H p =>
        M.stateIds.foldlM (fun (H : HTable) s =>
          if M.comb p s < M.size then
            Except.ok fun e' c' => if e' = e ∧ c' = M.comb p s then some (s, dep) else H e' c'
          else .error BuildErr.ub) H) H
      = .ok fun e' c' => if e' = e then handlerCell M dep (product ps M.stateIds) c' (H e' c')
          else H e' c' := by
    intro e ps
    induction ps with
    | nil => intro H _; simp only [List.foldlM_nil, product, List.flatMap_nil, handlerCell, List.foldl_nil, ite_self]; rfl
    | cons p ps ih =>
      intro H hl
      rw [List.foldlM_cons, states e p _ H (fun s hs =>
        hM.comb_lt.2 ⟨hl p (by simp), by rw [states_eq]; exact hs⟩)]
      show ps.foldlM _ _ = _
      rw [ih _ (fun p hp => hl p (by simp [hp]))]
      congr 1
      funext e' c'
      by_cases he : e' = e
      · simp only [he, if_true, handlerCell, product, List.flatMap_cons, List.foldl_append]
      · simp only [he, if_false]
  unfold fillHandlersFor
  induction evs generalizing H with
  | nil => rfl
  | cons e evs ih =>
    obtain ⟨h1, h2⟩ := List.nodup_cons.1 hn
    rw [List.foldlM_cons, parents e _ H (fun p hp => by rw [composites_eq]; exact hp)]
    show evs.foldlM _ _ = _
    rw [ih h2]
    congr 1
    funext e' c'
    by_cases he : e' = e
    · subst he; simp [h1]
    · simp [he]

theorem initHandlersG_eq (hM : M.Regular) (h : M.PlainInternals) (dep : Dep) :
    (if (M.decl M.root).handler.isSome then M.fillHandlersFor M.eventIdsG dep (fun _ _ => none)
      else .ok (fun _ _ => none)) = initHandlers M dep := by
  unfold initHandlers
  split
  · show _ = M.fillHandlersFor M.eventIds dep _
    rw [fillHandlersFor_eq hM.laid dep (evs := M.eventIdsG) (nodup_uniq _),
      fillHandlersFor_eq hM.laid dep (evs := M.eventIds) (nodup_uniq _)]
    refine congrArg Except.ok (funext fun e => funext fun c => ?_)
    simp only [eventIdsG_mem h]
  · rfl

end Machine

section
variable {P W : Type} {M : Machine} {sem : Sem P W}

theorem constructG_eq (hM : M.Regular) (h : M.PlainInternals) (dep : Dep) (w : W) :
    (constructG M dep w : Except BuildErr (SM P W)) = construct M dep w := by
  unfold constructG construct
  rw [if_pos (Machine.acceptsG_of hM h), if_pos hM.accepts, Machine.initHandlersG_eq hM h,
    Machine.fillG_eq hM h]

/-! ## Proofs: running -/

theorem execGuard_keeps (hk : sem.KeepsNone) {x : Exec} {p : P} {s s' : SM P W} {b : Bool × P}
    (h : execGuard M sem x .none p s = .ok b s') : b.2 = p := by
  cases hg : x.guard with
  | none => rw [execGuard_none hg] at h; cases h; rfl
  | some g =>
    rw [execGuard_some hg] at h
    split at h
    · split at h
      · rename_i hc
        cases h
        exact hk.guard _ _ _ _ _ _ _ rfl hc
      · cases h
      · cases h
    · cases h

theorem runCbs_keeps (hk : sem.KeepsNone) {args : Args} (ha : args.event = .none) :
    ∀ (cs : List (Phase × Cb)) {p p' : P} {s s' : SM P W},
      runCbs sem args cs p s = .ok p' s' → p' = p
  | [], _, _, _, _, h => by cases h; rfl
  | (ph, a) :: cs, p, p', s, s', h => by
    unfold runCbs at h
    split at h
    · rename_i hc
      exact (runCbs_keeps hk ha cs h).trans (hk.action _ _ _ _ _ _ ha hc)
    · cases h
    · cases h

theorem fire_keeps (hk : sem.KeepsNone) {r : Nat} {e : Entry} {x : Exec} {p p' : P}
    {s s' : SM P W} (h : fire M sem r .none e x p s = .ok p' s') : p' = p := by
  unfold fire at h
  cases hu : updateState M r e s with
  | ok a s1 =>
    rw [hu] at h
    simp only [Res.bind] at h
    unfold execAction at h
    split at h
    · cases h; rfl
    · split at h
      · refine runCbs_keeps hk ?_ _ h
        unfold actionArgs
        split <;> rfl
      · cases h
  | throw x s1 => rw [hu] at h; cases h
  | ub u => rw [hu] at h; cases h
  | timeout => rw [hu] at h; cases h

theorem tryAnon_keeps (hk : sem.KeepsNone) {r : Nat} : ∀ (es : List Entry) {p : P}
    {s s' : SM P W} {b : Bool × P}, tryAnon M sem r es p s = .ok b s' → b.2 = p
  | [], _, _, _, _, h => by cases h; rfl
  | e :: es, p, s, s', b, h => by
    unfold tryAnon at h
    split at h
    · cases h
    · rename_i x _
      cases hg : execGuard M sem x .none p s with
      | ok gp s1 =>
        rw [hg] at h
        have h1 := execGuard_keeps hk hg
        simp only [Res.bind] at h
        by_cases hb : gp.1 = true
        · rw [if_pos hb] at h
          cases hf : fire M sem r .none e x gp.2 s1 with
          | ok p2 s2 =>
            rw [hf] at h
            cases h
            exact (fire_keeps hk hf).trans h1
          | throw x s1 => rw [hf] at h; cases h
          | ub u => rw [hf] at h; cases h
          | timeout => rw [hf] at h; cases h
        · rw [if_neg hb] at h
          exact (tryAnon_keeps hk es h).trans h1
      | throw x s1 => rw [hg] at h; cases h
      | ub u => rw [hg] at h; cases h
      | timeout => rw [hg] at h; cases h

theorem anonRoundG_eq (hk : sem.KeepsNone) : ∀ (rs : List Nat) (agf : Bool) (s : SM P W),
    anonRound M sem rs agf sem.nonePayload s
      = (anonRoundG M sem rs agf s).bind fun o s => .ok (o, sem.nonePayload) s
  | [], _, _ => rfl
  | r :: rs, agf, s => by
    unfold anonRound anonRoundG
    cases hl : lookup M .none r s with
    | ok es s1 =>
      cases es with
      | nil => rfl
      | cons e es =>
        simp only [Res.bind]
        cases ht : tryAnon M sem r (e :: es) sem.nonePayload s1 with
        | ok fp s2 =>
          simp only []
          rw [tryAnon_keeps hk _ ht, anonRoundG_eq hk rs]
          rfl
        | throw x s1 => rfl
        | ub u => rfl
        | timeout => rfl
    | throw x s1 => rfl
    | ub u => rfl
    | timeout => rfl

theorem anonLoopG_eq (hk : sem.KeepsNone) : ∀ (fuel : Nat) (s : SM P W),
    anonLoop M sem fuel sem.nonePayload s = anonLoopG M sem fuel s
  | 0, _ => rfl
  | fuel + 1, s => by
    unfold anonLoop anonLoopG
    rw [anonRoundG_eq hk]
    cases anonRoundG M sem (List.range (currentRegions M s)) true s with
    | ok o s1 =>
      simp only [Res.bind]
      rcases o with _ | _ | _
      · rfl
      · exact anonLoopG_eq hk fuel s1
      · rfl
    | throw x s1 => rfl
    | ub u => rfl
    | timeout => rfl

theorem processAnonG_eq (hk : sem.KeepsNone) (fuel : Nat) (s : SM P W) :
    processAnonG M sem fuel s = processAnon M sem fuel s := by
  unfold processAnonG processAnon
  rw [anonLoopG_eq hk]

/-- The result `process_event_internal` of the amalgamated header reports. -/
def ProcRes.handled : ProcRes → Bool
  | .allTransitionsInvalid => false
  | _ => true

theorem processInternalG_eq (hk : sem.KeepsNone) (fuel : Nat) (ev : EventTy) (p : P)
    (s : SM P W) : processInternalG M sem fuel ev p s
      = (processInternal M sem fuel ev p s).bind fun rp s => .ok (rp.1.handled, rp.2) s := by
  unfold processInternalG processInternal
  cases regionLoop M sem ev (List.range (currentRegions M s)) true true p s with
  | ok op s1 =>
    obtain ⟨o, p1⟩ := op
    cases o with
    | deferred => rfl
    | done agf ati =>
      simp only [Res.bind]
      cases ati with
      | true => rfl
      | false =>
        cases agf with
        | true => rfl
        | false =>
          simp only [Bool.false_eq_true, if_false]
          rw [processAnonG_eq hk]
          cases processAnon M sem fuel s1 <;> rfl
  | throw x s1 => rfl
  | ub u => rfl
  | timeout => rfl

theorem processDeferredG_eq (hk : sem.KeepsNone) (fuel : Nat) (s : SM P W) :
    processDeferredG M sem fuel s = processDeferred M sem fuel s := by
  unfold processDeferredG processDeferred
  cases hq : s.queue with
  | nil => rfl
  | cons x q =>
    simp only [processInternalG_eq hk]
    cases processInternal M sem fuel x.1 x.2 { s with queue := q } <;> rfl

end
end Hsm
