import Verif.PropsMoving
import Verif.PropsGenAll

/-!
# C106: moving machine objects of the amalgamated header

The model is in `Moving.lean`.
-/

namespace Hsm

section
variable {P W : Type} {M : Machine} {sem : Sem P W}

/-! ## Invariants -/

section
variable {U : Prop} {R : Nat → Prop} {I : SM P W → Prop}

theorem Preserves.roundG (h : Preserves M sem U R I) (ha : M.anonymous = true) :
    ∀ (rs : List Nat) (agf : Bool) (s : SM P W), (∀ r ∈ rs, R r) → I s →
    (anonRoundG M sem rs agf s).Sat U (fun _ => I) (fun _ => I) := by
  intro rs
  induction rs with
  | nil => intro _ s _ hs; exact hs
  | cons r rs ih =>
    intro agf s hrs hs
    unfold anonRoundG
    apply Res.Sat.bind'
    · intro es s1 heq
      obtain ⟨rfl, c, h1, _, rfl⟩ := lookup_ok.1 heq
      cases hes : s1.table .none c with
      | nil => exact hs
      | cons e es =>
        refine Res.Sat.bind (h.tryAnon ha (hrs r (by simp)) _ _ s1 hs h1
          (fun e' he' => by rw [hes]; exact he')) ?_
        rintro ⟨b, p1⟩ s2 hs2
        exact ih _ _ (fun r' hr' => hrs r' (by simp [hr'])) hs2
    · intro x s1 heq; exact absurd heq lookup_throw
    · intro u heq; exact h.look s .none r hs (hrs r (by simp)) u heq

theorem Preserves.loopG (h : Preserves M sem U R I) (ha : M.anonymous = true) :
    ∀ (fuel : Nat) (s : SM P W), I s → (anonLoopG M sem fuel s).Sat U (fun _ => I) (fun _ => I) := by
  intro fuel
  induction fuel with
  | zero => intro s _; trivial
  | succ n ih =>
    intro s hs
    unfold anonLoopG
    rw [currentRegions_eq]
    apply Res.Sat.bind (h.roundG ha _ _ s (h.range hs) hs)
    intro b s1 hs1
    match b with
    | none => exact hs1
    | some true => exact hs1
    | some false => exact ih _ hs1

theorem Preserves.internalG (h : Preserves M sem U R I) (fuel : Nat) (ev : EventTy) (p : P)
    (s : SM P W) (hs : I s) : (processInternalG M sem fuel ev p s).Sat U (fun _ => I) (fun _ => I) := by
  unfold processInternalG
  rw [currentRegions_eq]
  refine Res.Sat.bind (h.regionLoop ev _ _ _ p s (h.range hs) hs) ?_
  rintro ⟨o, p1⟩ s1 hs1
  dsimp only
  split
  · exact hs1
  · split
    · exact hs1
    · split
      · exact hs1
      · refine Res.Sat.bind ?_ fun _ _ h => h
        unfold processAnonG
        rw [Machine.hasAnon_eq]
        split
        · rename_i ha
          exact h.loopG ha fuel s1 hs1
        · exact hs1

/-- What survives all visits of regions survives the call. -/
theorem Preserves.eventG (h : Preserves M sem U R I) (fuel : Nat) (ev : EventTy) (p : P) (s : SM P W)
    (hh : ∀ s p, I s → (callHandler M sem ev p s).Sat U (fun _ => I) (fun _ => I)) (hs : I s) :
    (Hsm.processEventG M sem fuel ev p s).Sat U (fun _ => I) (fun _ => I) := by
  unfold Hsm.processEventG
  refine Res.Sat.bind (h.internalG fuel ev p s hs) ?_
  rintro ⟨b, p1⟩ s1 hs1
  dsimp only
  split
  · unfold processDeferredG
    split
    · split
      · exact hs1
      · rename_i e p2 q hq
        exact Res.Sat.bind (h.internalG fuel e p2 _ (h.pop _ _ _ _ hs1 hq)) fun _ _ h => h
    · exact hs1
  · exact Res.Sat.bind (hh s1 p1 hs1) fun _ _ h => h

end

/-- The handlers of a machine are bound to the dependency it was constructed with. -/
theorem RunToG.handlers (hM : M.RegularG) {d : Dep} {ops : List (OpG P)} {s : SM P W}
    (h : RunToG M sem d ops s) (hh : (M.decl M.root).handler.isSome = true) : ∀ e ∈ M.eventsG,
    ∀ p ∈ M.composites, ∀ st ∈ M.states, s.handlers e (M.comb p st) = some (st, d) := by
  have step : ∀ {s : SM P W} (fuel : Nat) (op : OpG P) (H : HTable), s.handlers = H →
      (stepG M sem fuel op s).Sat True (fun _ s => s.handlers = H) (fun _ s => s.handlers = H) := by
    intro s fuel op H hs
    cases op with
    | process ev p =>
      exact (Preserves.tables (M := M) (sem := sem) fun _ H' => H' = H).eventG fuel ev p s
        (fun s p hs => callHandler_easy (fun s => s.handlers = H) (fun _ _ _ h => h) ev s p hs) hs
    | setDependency d' =>
      show (setDependencyG M d' s).Sat _ _ _
      unfold setDependencyG
      split
      · exact hs
      · trivial
  induction h with
  | init h => exact ((C82_construct (P := P) hM d _).2.2 _ h).handlers hh
  | @ok s s' ops op fuel hr hop h ih =>
    have := step fuel op s.handlers rfl
    rw [h] at this
    rw [show s'.handlers = s.handlers from this]
    exact ih
  | @throw s s' ops op fuel x hr hop h ih =>
    have := step fuel op s.handlers rfl
    rw [h] at this
    rw [show s'.handlers = s.handlers from this]
    exact ih
  | world hr w ih => exact ih

/-! ## Programs -/

/-- C106: moving is not observable.  A program that does not use what it moved away gets the same
replies, and stops for the same reason, as if machines never moved; and in the end each variable
holds the machine it stands for. -/
theorem C106_same (fuel : Nat) (ops : List (HOp (OpG P))) (w : W) :
    match Fleet.run (.gen M sem fuel) ops (Fleet.start w) with
    | .ok (rs, F) => ∃ H, Heap.run (.gen M sem fuel) ops (Heap.start w) = .ok (rs, H) ∧
        F.world = H.world ∧ ∀ h n, F.var h = some (.machine n) →
          ∃ s, F.machines[n]? = some s ∧ H.obj h = some (s, true)
    | .error .lifetime => True
    | .error e => Heap.run (.gen M sem fuel) ops (Heap.start w) = .error e :=
  Brand.same ops w

theorem stepOnG_ok {fuel : Nat} {op : OpG P} {s s' : SM P W} {b : Bool}
    (h : stepOnG M sem fuel op (s, true) = .ok b s') : stepG M sem fuel op s = .ok () s' := by
  unfold stepOnG at h
  rw [if_pos rfl] at h
  obtain ⟨_, s1, h1, h2⟩ := Res.bind_ok.1 h
  cases h2
  exact h1

theorem stepOnG_throw {fuel : Nat} {op : OpG P} {s s' : SM P W} {x : Exn}
    (h : stepOnG M sem fuel op (s, true) = .throw x s') : stepG M sem fuel op s = .throw x s' := by
  unfold stepOnG at h
  rw [if_pos rfl] at h
  dsimp only at h
  revert h
  cases stepG M sem fuel op s <;> intro h <;> cases h
  rfl

theorem Brand.gen_keeps (fuel : Nat) :
    (Brand.gen M sem fuel).Keeps (OpOkG M) (RunToG M sem) where
  init := .init
  ok := fun hr hop h => .ok hr hop (stepOnG_ok h)
  throw := fun hr hop h => .throw hr hop (stepOnG_throw h)
  world := .world

/-- C106: whatever was moved, a machine's state is one it can reach by the calls it got: everything
proved about histories holds of machines that are moved. -/
theorem C106_life (fuel : Nat) (w : W) {ops : List (HOp (OpG P))}
    (hops : ∀ h op, HOp.call h op ∈ ops → OpOkG M op) {rs : List Reply} {H : Heap P W}
    (hr : Heap.run (.gen M sem fuel) ops (Heap.start w) = .ok (rs, H)) {h : Nat} {d : Dep}
    {l : List (OpG P)} (hl : life ops.reverse h = some (d, l)) :
    ∃ s, H.obj h = some (s, true) ∧ RunToG M sem d l s :=
  life_runTo (Brand.gen_keeps fuel) w ops.reverse (fun h op hm => hops h op (List.mem_reverse.1 hm))
    (by rw [List.reverse_reverse]; exact hr) hl

/-- C106: an object has lost its state objects if and only if it was moved away and not assigned to since. -/
theorem C106_gone (fuel : Nat) (w : W) {ops : List (HOp (OpG P))}
    (hops : ∀ h op, HOp.call h op ∈ ops → OpOkG M op) {rs : List Reply} {H : Heap P W}
    (hr : Heap.run (.gen M sem fuel) ops (Heap.start w) = .ok (rs, H)) {h : Nat} {s : SM P W} {b : Bool}
    (ho : H.obj h = some (s, b)) : b = false ↔ life ops.reverse h = none := by
  constructor
  · rintro rfl
    cases hl : life ops.reverse h with
    | none => rfl
    | some x =>
      obtain ⟨s', h1, -⟩ := C106_life fuel w hops hr (d := x.1) (l := x.2) hl
      rw [ho] at h1
      cases h1
  · intro h1
    cases b with
    | false => rfl
    | true => exact absurd h1 (life_of_obj w ops.reverse (by rw [List.reverse_reverse]; exact hr) ho)

/-! ## What is left behind -/

theorem blind_stepG (fuel : Nat) : (Brand.gen M sem fuel).Blind := by
  intro op s hs
  show (stepOnG M sem fuel op (s, false)).Sat _ _ _
  unfold stepOnG
  rw [if_neg Bool.false_ne_true]
  suffices h : (stepG M sem.blind fuel op
      { s with table := fun ev c => (s.table ev c).map Entry.blind }).Sat True
      (fun _ s' => ∀ k ∈ s'.trace, k.byHandler = true)
      (fun _ s' => ∀ k ∈ s'.trace, k.byHandler = true) from Res.Sat.bind h fun _ _ h => h
  cases op with
  | process ev p =>
    refine (Preserves.blind (M := M) (sem := sem)).eventG fuel ev p _ ?_ hs
    intro s p hs
    apply Res.sat_of_true
    · intro p1 s1 h
      rcases callHandler_ok h with ⟨_, _, rfl⟩ | ⟨_, _, _, _, _, _, _, _, _, _, rfl⟩
      · exact hs
      · intro k hk
        rcases List.mem_append.1 hk with hk | hk
        · exact hs k hk
        · rw [List.mem_singleton.1 hk]; rfl
    · intro n s1 h
      rcases callHandler_throw h with ⟨_, rfl, _⟩ | ⟨_, _, _, _, _, _, _, _, _, _, _, _, _, rfl⟩
      · exact hs
      · intro k hk
        rcases List.mem_append.1 hk with hk | hk
        · exact hs k hk
        · rw [List.mem_singleton.1 hk]; rfl
  | setDependency d =>
    show (setDependencyG M d _).Sat _ _ _
    unfold setDependencyG
    split
    · exact hs
    · exact trivial

/-- C106: an object that was moved away calls no guards and no actions, whatever is done with it; what it
calls are handlers for unexpected events. -/
theorem C106_silent (fuel : Nat) (w : W) {ops : List (HOp (OpG P))}
    (hops : ∀ h op, HOp.call h op ∈ ops → OpOkG M op) {rs : List Reply} {H : Heap P W}
    (hr : Heap.run (.gen M sem fuel) ops (Heap.start w) = .ok (rs, H)) {h : Nat}
    (hl : life ops.reverse h = none) {o : SM P W × Bool} (ho : H.obj h = some o) :
    ∀ k ∈ o.1.trace, k.byHandler = true := by
  obtain ⟨s, b⟩ := o
  have hb := (C106_gone fuel w hops hr ho).2 hl
  subst hb
  exact blind_of_obj (blind_stepG fuel) w ops.reverse (by rw [List.reverse_reverse]; exact hr) ho

theorem hollow_regionLoopG (hM : M.RegularG) {H : HTable} {s : SM P W} (ev : EventTy) (a b : Bool)
    (p : P) : ∀ (rs : List Nat), (∀ r ∈ rs, ∃ q st, At M s r q st) →
    regionLoop M sem ev rs a b p (s.hollow H) = .ok (.done a b, p) (s.hollow H) := by
  intro rs
  induction rs with
  | nil => intro _; rfl
  | cons r rs ih =>
    intro hrs
    obtain ⟨q, st, hq, hst, hc⟩ := hrs r List.mem_cons_self
    have h1 : regionStep M sem r ev p (s.hollow H) = .ok (.none, p) (s.hollow H) := by
      unfold regionStep lookup readCur
      rw [show (s.hollow H).cur = s.cur from rfl, hc]
      show Res.bind (if _ then _ else _) _ = _
      rw [if_pos (hM.laid.comb_lt.2 ⟨hq, hst⟩)]
      rfl
    unfold regionLoop
    rw [h1]
    exact ih fun r hr => hrs r (List.mem_cons_of_mem _ hr)

theorem hollow_processG (hM : M.RegularG) {H : HTable} {s : SM P W}
    (hs : ∀ r < activeRegions M s, ∃ q st, At M s r q st) (fuel : Nat) (ev : EventTy) (p : P) :
    processEventG M sem fuel ev p (s.hollow H) =
      (callHandler M sem ev p (s.hollow H)).bind fun _ s => .ok () s := by
  unfold processEventG processInternalG
  rw [show currentRegions M (s.hollow H) = activeRegions M s by
    rw [currentRegions_eq]; rfl]
  rw [hollow_regionLoopG hM ev true true p _ fun r hr => hs r (List.mem_range.1 hr)]
  rfl

/-- C106: an object that was moved away takes no event: nothing happens.  If the machine has a handler for
unexpected events, then after `auto t = std::move(s)` a null pointer is called. -/
theorem C106_left (hM : M.RegularG) {s : SM P W}
    (hs : ∀ r < activeRegions M s, ∃ q st, At M s r q st) (h0 : ∃ q st, At M s 0 q st)
    (fuel : Nat) (ev : EventTy) (p : P) :
    stepOnG M sem fuel (.process ev p) (s.moveCtor.2, false) =
      if (M.decl M.root).handler.isSome then .ub .nullHandler else .ok true s.moveCtor.2 := by
  show (processEventG M sem.blind fuel ev p (s.hollow fun _ _ => none)).bind _ = _
  rw [hollow_processG hM hs]
  obtain ⟨q, st, hq, hst, hc⟩ := h0
  unfold callHandler
  cases hh : (M.decl M.root).handler with
  | none => rfl
  | some h =>
    dsimp only
    unfold readCur
    rw [show (s.hollow fun _ _ => none).cur = s.cur from rfl, hc]
    show Res.bind (Res.bind (if _ then _ else _) _) _ = _
    rw [if_pos (hM.laid.comb_lt.2 ⟨hq, hst⟩)]
    rfl

/-- C106: after `t = std::move(s)`, the handler for unexpected events of `s` is called with the
dependency of what was in `t` before. -/
theorem C106_swapped (hM : M.RegularG) {s t : SM P W} {d : Dep} {ops : List (OpG P)}
    (ht : RunToG M sem d ops t) (hs : ∀ r < activeRegions M s, ∃ q st, At M s r q st)
    {q : Name} {st : StTy} (h0 : At M s 0 q st) {hd : Cb}
    (hhd : (M.decl M.root).handler = some hd) {ev : EventTy} (hev : ev ∈ M.eventsG)
    (hdc : M.defaultCtor st = true) (fuel : Nat) (p : P) :
    (stepOnG M sem fuel (.process ev p) ((t.moveAssign s).2, false)).answer =
      match sem.handler hd ev st d p s.world with
      | .ok _ _ _ => .ok true ()
      | .throw n _ _ => .throw (.user n) ()
      | .ub => .ub .callback := by
  show (Res.bind (processEventG M sem.blind fuel ev p (s.hollow t.handlers)) _).answer = _
  rw [hollow_processG hM hs]
  obtain ⟨hq, hst, hc⟩ := h0
  unfold callHandler
  rw [hhd]
  dsimp only
  unfold readCur
  rw [show (s.hollow t.handlers).cur = s.cur from rfl, hc]
  show (Res.bind (Res.bind (if _ then _ else _) _) _).answer = _
  rw [if_pos (hM.laid.comb_lt.2 ⟨hq, hst⟩)]
  rw [show (s.hollow t.handlers).handlers ev (M.comb q st) = some (st, d) from
    ht.handlers hM (by rw [hhd]; rfl) ev hev q hq st hst]
  dsimp only
  rw [if_pos (by unfold objOk; rw [hdc]; rfl)]
  rw [show (s.hollow t.handlers).world = s.world from rfl, show sem.blind.handler = sem.handler from rfl]
  cases sem.handler hd ev st d p s.world <;> rfl

/-- C106: after `set_dependency` an object that was moved away takes events again, if the first row for them
calls nothing and, unless it is internal, the machine has no history.  Otherwise the behaviour is undefined.
For machines without regions and anonymous rows. -/
theorem C106_refilled (hM : M.RegularG) (hO : M.orthogonal = false) (hA : M.anonymous = false)
    {s s1 : SM P W} {q : Name} {st : StTy} (h0 : At M s 0 q st) {fuel : Nat} {d : Dep} {b : Bool}
    (h1 : stepOnG M sem fuel (.setDependency d) (s.moveCtor.2, false) = .ok b s1) (ev : EventTy) (p : P) :
    match M.candsG ev q st with
    | [] => (stepOnG M sem fuel (.process ev p) (s1, false)).answer =
        if (M.decl M.root).handler.isSome then .ub .nullHandler else .ok true ()
    | cd :: _ =>
      match cd.row? with
      | none => ∃ s2, stepOnG M sem fuel (.process ev p) (s1, false) = .ok true s2 ∧
          s2.cur = s.cur ∧ s2.queue = [(ev, p)]
      | some t => ∀ l, M.targetLoc t = some l →
        (M.Silent t → ∃ s2, stepOnG M sem fuel (.process ev p) (s1, false) = .ok true s2 ∧
          s2.cur = if t.internal then s.cur else s.cur.set 0 (some (M.comb l.1 l.2))) ∧
        (¬ M.Silent t → ∃ u, stepOnG M sem fuel (.process ev p) (s1, false) = .ub u) := by
  obtain ⟨hq, hst, hc⟩ := h0
  -- what `set_dependency` leaves
  obtain ⟨T, hT, rfl⟩ : ∃ T, M.fillG d (fun _ _ => []) = .ok T ∧
      s1 = { s.moveCtor.2 with table := T } := by
    unfold stepOnG at h1
    rw [if_neg Bool.false_ne_true] at h1
    change (setDependencyG M d _).bind _ = _ at h1
    obtain ⟨_, s2, h2, h3⟩ := Res.bind_ok.1 h1
    cases h3
    unfold setDependencyG at h2
    split at h2
    · rename_i T hT
      cases h2
      exact ⟨T, hT, rfl⟩
    · cases h2
  have hcell : T ev (M.comb q st) = (M.candsG ev q st).filterMap (M.entryOfCand d) := by
    rw [Machine.fillG_spec hM hT ev hq hst, List.append_nil]
  have hlt := hM.laid.comb_lt.2 ⟨hq, hst⟩
  generalize hs3 : ({ ({ s.moveCtor.2 with table := T } : SM P W) with
    table := fun ev c => (T ev c).map Entry.blind } : SM P W) = s3
  have hstep : stepOnG M sem fuel (.process ev p) ({ s.moveCtor.2 with table := T }, false) =
      (processEventG M sem.blind fuel ev p s3).bind fun _ s => .ok true s := by rw [← hs3]; rfl
  have hcur : s3.cur = s.cur := by rw [← hs3]; rfl
  have hque : s3.queue = [] := by rw [← hs3]; rfl
  have hhnd : s3.handlers = fun _ _ => none := by rw [← hs3]; rfl
  have hhist : s3.hist = s.hist.map fun _ => [] := by rw [← hs3]; rfl
  have hlook : lookup M ev 0 s3 =
      .ok (((M.candsG ev q st).filterMap (M.entryOfCand d)).map Entry.blind) s3 := by
    unfold lookup readCur
    rw [hcur, hc]
    show Res.bind (.ok _ _) _ = _
    show (if _ then _ else _) = _
    rw [if_pos hlt, ← hcell, ← hs3]
  have hreg : ∀ s4 : SM P W, currentRegions M s4 = 1 := by
    intro s4; unfold currentRegions; rw [Machine.parallel_eq, hO]; rfl
  have hanon : ∀ s4 : SM P W, processAnonG M sem.blind fuel s4 = .ok () s4 := by
    intro s4; unfold processAnonG; rw [Machine.hasAnon_eq, hA]; rfl
  have hint : processInternalG M sem.blind fuel ev p s3 =
      (regionStep M sem.blind 0 ev p s3).bind fun o s => .ok (decide (o.1 ≠ .none), o.2) s := by
    unfold processInternalG
    rw [hreg, show List.range 1 = [0] from rfl]
    unfold regionLoop
    cases regionStep M sem.blind 0 ev p s3 with
    | ok o s4 =>
      obtain ⟨o, p1⟩ := o
      cases o with
      | fired =>
        show Res.bind (processAnonG M sem.blind fuel s4) _ = _
        rw [hanon]; rfl
      | _ => rfl
    | throw n s4 => rfl
    | ub u => rfl
    | timeout => rfl
  have hone := blind_regionStep (M := M) (sem := sem) (p := p) hO hc hcur hque hhist hlook
  rw [hstep]
  unfold processEventG
  cases hcs : M.candsG ev q st with
  | nil =>
    rw [hcs] at hone
    rw [hint, hone]
    show (Res.bind (Res.bind (callHandler M sem.blind ev p s3) _) _).answer = _
    unfold callHandler
    cases (M.decl M.root).handler with
    | none => rfl
    | some hd =>
      dsimp only
      unfold readCur
      rw [hcur, hc]
      show Res.answer (Res.bind (Res.bind (if _ then _ else _) _) _) = _
      rw [if_pos hlt, hhnd]; rfl
  | cons cd cs =>
    rw [hcs] at hone
    dsimp only at hone ⊢
    cases hrow : cd.row? with
    | none =>
      rw [hrow] at hone
      refine ⟨{ s3 with queue := [(ev, p)] }, ?_, hcur, rfl⟩
      rw [hint, hone]
      show (processDeferredG M sem.blind fuel { s3 with queue := [(ev, p)] }).bind _ = _
      unfold processDeferredG
      split
      · dsimp only
        have : ({ s3 with queue := [] } : SM P W) = s3 := by rw [← hque]
        rw [this, hint, hone]; rfl
      · rfl
    | some t =>
      rw [hrow] at hone
      intro l hl
      obtain ⟨h1, h2⟩ := hone l hl
      refine ⟨fun hs => ?_, fun hs => ?_⟩
      · obtain ⟨s4, h3, h4, h5⟩ := h1 hs
        refine ⟨s4, ?_, h4⟩
        rw [hint, h3]
        show (processDeferredG M sem.blind fuel s4).bind _ = _
        unfold processDeferredG
        rw [h5]
        split <;> rfl
      · obtain ⟨u, hu⟩ := h2 hs
        exact ⟨u, by rw [hint, hu]; rfl⟩

end

/-! ## Examples -/

namespace Ex

/-- `errand` for the amalgamated header. -/
def errandG : List (HOp (OpG Nat)) :=
  [ .create 0 7, .call 0 (.process (ev 3) 1), .call 0 (.process (ev 3) 2),
    .create 1 8, .call 1 (.process (ev 5) 3),
    .move 2 0, .call 1 (.process (ev 6) 4), .assign 1 2, .destroy 0,
    .call 1 (.process (ev 1) 5) ]

/-- Nothing that was moved away is used; the deferred event is replayed after the moves. -/
example : (match Fleet.run (.gen demo (sem fun _ => true) 9) errandG (Fleet.start []) with
    | .ok x => some (x.1.length, x.2.world)
    | .error _ => none) = some (5, [4, 20, 102, 9, 24, 8, 21, 3, 4, 20]) := by decide +kernel

/-- The calls the machine now in variable 1 got. -/
example : (life errandG.reverse 1).map (fun x => (x.1, x.2.length)) = some (7, 3) := by
  decide +kernel

example : life errandG.reverse 2 = none := rfl

theorem husk_regularG : husk.RegularG := Machine.regularG_ofList (by decide +kernel)

/-- What happened to a program. -/
def heapEndG (ops : List (HOp (OpG Nat))) : List Reply ⊕ Stuck :=
  match Heap.run (.gen husk (sem fun _ => true) 9) ops (Heap.start []) with
  | .ok x => .inl x.1
  | .error e => .inr e

/-- What was moved away does nothing, until its dependency is set; then it takes the rows that call
nothing. -/
example : heapEndG [ .create 0 7, .move 1 0, .call 0 (.process (ev 0) 1), .call 0 (.setDependency 8),
    .call 0 (.process (ev 0) 1), .call 0 (.process (ev 1) 1), .call 0 (.process (ev 0) 1),
    .call 1 (.process (ev 2) 1) ] =
    .inl [.ret true, .ret true, .ret true, .ret true, .ret true, .ret true] := by decide +kernel

/-- A row with a guard, and one with an action. -/
example : ∀ e ∈ [([ev 2] : List EventTy), [ev 0, ev 0]],
    heapEndG ([.create 0 7, .move 1 0, .call 0 (.setDependency 8)] ++ e.map fun e => .call 0 (.process e 1)) =
      .inr (.ub .callback) := by decide +kernel

/-- A state as in `C106_left` and `C106_swapped`, of a machine with a handler. -/
example : ∃ s, RunToG demo (sem fun _ => true) 0 [.process (ev 0) 1] s ∧
    (∀ r < activeRegions demo s, ∃ q st, At demo s r q st) ∧ At demo s 0 Root (.st Busy) ∧
    (demo.decl demo.root).handler.isSome ∧ demo.defaultCtor (.st Busy) = true ∧ ev 0 ∈ demo.eventsG := by
  obtain ⟨s, hr, hs⟩ := exists_runG (M := demo) (sm := sem fun _ => true) (fuel := 9) (d := 0)
    (w := []) (ops := [.process (ev 0) 1])
    (f := fun s => decide (s.cur = [some (demo.comb Root (.st Busy))] ∧
      activeRegions demo s = 1)) (by decide +kernel)
  obtain ⟨h1, h2⟩ := of_decide_eq_true hs
  have h : At demo s 0 Root (.st Busy) :=
    ⟨by decide +kernel, by decide +kernel, by rw [h1]; rfl⟩
  refine ⟨s, hr, fun r hr => ?_, h, by decide +kernel, rfl, by decide +kernel⟩
  rw [h2] at hr
  obtain rfl : r = 0 := by omega
  exact ⟨_, _, h⟩

/-- The object of the first example meets the hypotheses of `C106_refilled`; rows of both kinds. -/
example : husk.orthogonal = false ∧ husk.anonymous = false ∧
    (∃ s s1 : SM Nat (List Nat), At husk s 0 0 (.st 1) ∧
      stepOnG husk (sem fun _ => true) 9 (.setDependency 8) (s.moveCtor.2, false) = .ok true s1) ∧
    ((husk.candsG (ev 0) 0 (.st 1)).filterMap Cand.row?).map (fun t => decide (husk.Silent t)) = [true] ∧
    ((husk.candsG (ev 2) 0 (.st 1)).filterMap Cand.row?).map (fun t => decide (husk.Silent t)) = [false] := by
  refine ⟨by decide +kernel, by decide +kernel, ?_, by decide +kernel, by decide +kernel⟩
  obtain ⟨s, hr, hs⟩ := exists_runG (M := husk) (sm := sem fun _ => true) (fuel := 9) (d := 0)
    (w := []) (ops := []) (f := fun s => decide (s.cur = [some (husk.comb 0 (.st 1))])) (by decide +kernel)
  have h : At husk s 0 0 (.st 1) :=
    ⟨by decide +kernel, by decide +kernel, by rw [of_decide_eq_true hs]; rfl⟩
  obtain ⟨T, hT⟩ : ∃ T, husk.fillG 8 (fun _ _ => []) = .ok T := by
    cases h : husk.fillG 8 (fun _ _ => []) with
    | ok T => exact ⟨T, rfl⟩
    | error e =>
      have : (match husk.fillG 8 (fun _ _ => []) with | .ok _ => true | .error _ => false) = true := by
        decide +kernel
      rw [h] at this
      cases this
  refine ⟨s, { s.moveCtor.2 with table := T }, h, ?_⟩
  unfold stepOnG
  rw [if_neg Bool.false_ne_true]
  unfold stepG setDependencyG
  dsimp only
  rw [show (fun ev c => List.map Entry.blind (s.moveCtor.2.table ev c)) = fun _ _ => [] from rfl, hT]
  rfl

/-- Why what was moved away should not be used: the handler is called through a null pointer. -/
theorem C106_use_after_move : ∃ ops : List (HOp (OpG Nat)),
    Heap.run (.gen demo (sem fun _ => true) 9) ops (Heap.start []) = .error (.ub .nullHandler) :=
  ⟨[.create 0 7, .move 1 0, .call 0 (.process (ev 0) 1)], by
    unfold Heap.run
    rfl⟩

end Ex
end Hsm
