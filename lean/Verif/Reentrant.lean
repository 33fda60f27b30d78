import Verif.PropsHist

/-!
# Callbacks that use the machine

`Runtime.lean` has callbacks that change nothing but their event and the user's world.  Here a
callback is a program that may also call `process_event`, `set` and `set_dependency` on the
machine that runs it, see what they return or throw, and go on.  The library does nothing to
prevent or to queue such calls: they are handled at once, inside the call that is being handled.
-/

namespace Hsm

/-! ## Model -/

/-- What a call on the machine returned (`true` for the calls that return nothing) or threw. (sm.h:88-173) -/
inductive Reply
  | ret (b : Bool)
  | threw (x : Exn)
deriving DecidableEq, Repr

/-- What a callback does: return, throw, something undefined, or call the machine in world `w`
and go on with the reply and the world it finds then.  `p` is the event it leaves.
(callbacks that refer to the `sm`, e.g. by a dependency: sm.h:47) -/
inductive Prog (P W α : Type)
  | ret (a : α) (p : P) (w : W)
  | throw (x : Exn) (w : W)
  | ub
  | call (op : Op P) (w : W) (k : Reply → W → Prog P W α)

/-- The user's code; as `Sem`, with programs. (dispatch_table.h:54-162) -/
structure SemR (P W : Type) where
  guard : Cb → Args → P → W → Prog P W Bool
  action : Cb → Args → P → W → Prog P W Unit
  handler : Cb → EventTy → StTy → Dep → P → W → Prog P W Unit
  alive : StTy → W → Bool
  nonePayload : P

section
variable {P W : Type} (M : Machine) (sem : SemR P W)

section
variable (call : Op P → SM P W → Res (SM P W) Bool)

/-- Runs a callback; `call` is how the machine handles a call. (dispatch_table.h:54-162) -/
def runProg {α : Type} : Prog P W α → SM P W → Res (SM P W) (α × P)
  | .ret a p w, s => .ok (a, p) { s with world := w }
  | .throw x w, s => .throw x { s with world := w }
  | .ub, _ => .ub .callback
  | .call op w k, s =>
    match call op { s with world := w } with
    | .ok b s' => runProg (k (.ret b) s'.world) s'
    | .throw x s' => runProg (k (.threw x) s'.world) s'
    | .ub u => .ub u
    | .timeout => .timeout

/-- Runs a callback and adds it to the trace.  What was called from inside comes before it.
(dispatch_table.h:54-162) -/
def runCb {α : Type} (pr : Prog P W α) (rec : Option α → Call P) (s : SM P W) :
    Res (SM P W) (α × P) :=
  match runProg call pr s with
  | .ok ap s' => .ok ap { s' with trace := s'.trace ++ [rec (some ap.1)] }
  | .throw x s' => .throw x { s' with trace := s'.trace ++ [rec none] }
  | .ub u => .ub u
  | .timeout => .timeout

/-- Does the object of state `st` exist? (traits.h:51-58) -/
def objOkR (st : StTy) (s : SM P W) : Bool := M.defaultCtor st || sem.alive st s.world

/-- `executeGuard` (dispatch_table.h:85-115). -/
def execGuardR (x : Exec) (ev : EventTy) (p : P) (s : SM P W) : Res (SM P W) (Bool × P) :=
  match x.guard with
  | none => .ok (true, p) s
  | some g =>
    let args : Args :=
      { event := ev, src := x.src, dst := if x.internal then x.src else x.dst,
        byPtr := false, dep := x.dep }
    if objOkR M sem args.src s && objOkR M sem args.dst s then
      runCb call (sem.guard g args p s.world) (fun b => .guard g args p b s.cur) s
    else .ub .nullObject

/-- The calls inside the lambda of `resolveEntryExitAction` (resolve_state.h:143-148). -/
def runCbsR (args : Args) : List (Phase × Cb) → P → SM P W → Res (SM P W) P
  | [], p, s => .ok p s
  | (ph, a) :: cs, p, s =>
    (runCb call (sem.action a args p s.world)
      (fun u => .action ph a args p u.isNone s.cur) s).bind fun up s => runCbsR args cs up.2 s

/-- `executeAction` (dispatch_table.h:54-83). -/
def execActionR (x : Exec) (ev : EventTy) (p : P) (s : SM P W) : Res (SM P W) P :=
  match x.action with
  | none => .ok p s
  | some cs =>
    if objOkR M sem x.src s then runCbsR sem call (actionArgs M x ev) cs p s
    else .ub .nullObject

/-- Update the state, then run the action (sm.h:212-214, :260-261). -/
def fireR (r : Nat) (ev : EventTy) (e : Entry) (x : Exec) (p : P) (s : SM P W) :
    Res (SM P W) P :=
  (updateState M r e s).bind fun _ s => execActionR M sem call x ev p s

/-- The inner loop of `process_event_internal` (sm.h:198-216) over the `std::deque` of cell
`(ev, c)`, which had `n` elements when the loop began.  `push_front` (fill_dispatch_table.h:85)
invalidates the iterators of the loop but not the reference `result`: undefined if the loop
goes on after a guard had elements pushed. -/
def tryEntriesR (r : Nat) (ev : EventTy) (c n : Nat) :
    List Entry → P → SM P W → Res (SM P W) (RegionOut × P)
  | [], p, s => .ok (.rejected, p) s
  | e :: es, p, s =>
    if e.defer then .ok (.deferred, p) { s with queue := s.queue ++ [(ev, p)] }
    else match e.tr with
      | none => .ub .nullTransition
      | some x =>
        (execGuardR M sem call x ev p s).bind fun gp s =>
          if gp.1 then (fireR M sem call r ev e x gp.2 s).bind fun p s => .ok (.fired, p) s
          else if (s.table ev c).length = n then tryEntriesR r ev c n es gp.2 s
          else .ub .iterator

/-- The body of the region loop of `process_event_internal` (sm.h:190-217). -/
def regionStepR (r : Nat) (ev : EventTy) (p : P) (s : SM P W) : Res (SM P W) (RegionOut × P) :=
  (readCur r s).bind fun c s =>
    if c < M.size then
      match s.table ev c with
      | [] => .ok (.none, p) s
      | es => tryEntriesR M sem call r ev c es.length es p s
    else .ub .bounds

/-- The region loop of `process_event_internal` (sm.h:189-217); the number of regions is read
once, before the loop (sm.h:188). -/
def regionLoopR (ev : EventTy) : List Nat → Bool → Bool → P → SM P W →
    Res (SM P W) (LoopOut × P)
  | [], agf, ati, p, s => .ok (.done agf ati, p) s
  | r :: rs, agf, ati, p, s =>
    (regionStepR M sem call r ev p s).bind fun op s =>
      match op.1 with
      | .none => regionLoopR ev rs agf ati op.2 s
      | .rejected => regionLoopR ev rs agf false op.2 s
      | .fired => regionLoopR ev rs false false op.2 s
      | .deferred => .ok (.deferred, op.2) s

/-- The inner loop of `process_anonymous_transitions` (sm.h:255-264), see `tryEntriesR`. -/
def tryAnonR (r : Nat) (c n : Nat) : List Entry → P → SM P W → Res (SM P W) (Bool × P)
  | [], p, s => .ok (false, p) s
  | e :: es, p, s =>
    match e.tr with
    | none => .ub .nullTransition
    | some x =>
      (execGuardR M sem call x .none p s).bind fun gp s =>
        if gp.1 then (fireR M sem call r .none e x gp.2 s).bind fun p s => .ok (true, p) s
        else if (s.table .none c).length = n then tryAnonR r c n es gp.2 s
        else .ub .iterator

/-- One pass of the region loop of `process_anonymous_transitions` (sm.h:247-265). -/
def anonRoundR : List Nat → Bool → P → SM P W → Res (SM P W) (Option Bool × P)
  | [], agf, p, s => .ok (some agf, p) s
  | r :: rs, agf, p, s =>
    (readCur r s).bind fun c s =>
      if c < M.size then
        match s.table .none c with
        | [] => .ok (none, p) s
        | es =>
          (tryAnonR M sem call r c es.length es p s).bind fun fp s =>
            anonRoundR rs (agf && !fp.1) fp.2 s
      else .ub .bounds

/-- The `while (true)` loop of `process_anonymous_transitions` (sm.h:243-270). -/
def anonLoopR : Nat → P → SM P W → Res (SM P W) Unit
  | 0, _, _ => .timeout
  | fuel + 1, p, s =>
    (anonRoundR M sem call (List.range (currentRegions M s)) true p s).bind fun op s =>
      match op.1 with
      | none => .ok () s
      | some true => .ok () s
      | some false => anonLoopR fuel op.2 s

/-- `process_anonymous_transitions` (sm.h:240-272). -/
def processAnonR (fuel : Nat) (s : SM P W) : Res (SM P W) Unit :=
  if M.hasAnon then anonLoopR M sem call fuel sem.nonePayload s else .ok () s

/-- `process_event_internal` (sm.h:183-229). -/
def processInternalR (fuel : Nat) (ev : EventTy) (p : P) (s : SM P W) :
    Res (SM P W) (ProcRes × P) :=
  (regionLoopR M sem call ev (List.range (currentRegions M s)) true true p s).bind fun op s =>
    match op.1 with
    | .deferred => .ok (.deferred, op.2) s
    | .done agf ati =>
      if ati then .ok (.allTransitionsInvalid, op.2) s
      else if agf then .ok (.allGuardsFailed, op.2) s
      else (processAnonR M sem call fuel s).bind fun _ s => .ok (.processed, op.2) s

/-- `process_deferred_events` (sm.h:231-238). -/
def processDeferredR (fuel : Nat) (s : SM P W) : Res (SM P W) Unit :=
  if M.hasDefer then
    match s.queue with
    | [] => .ok () s
    | (e, p) :: q =>
      (processInternalR M sem call fuel e p { s with queue := q }).bind fun _ s => .ok () s
  else .ok () s

/-- `call_unexpected_event_handler` (sm.h:327-335). -/
def callHandlerR (ev : EventTy) (p : P) (s : SM P W) : Res (SM P W) P :=
  match (M.decl M.root).handler with
  | none => .ok p s
  | some h =>
    (readCur 0 s).bind fun c s =>
      if c < M.size then
        match s.handlers ev c with
        | none => .ub .nullHandler
        | some (st, d) =>
          if objOkR M sem st s then
            (runCb call (sem.handler h ev st d p s.world)
              (fun u => .handler h ev st d p u.isNone s.cur) s).bind fun up s => .ok up.2 s
          else .ub .nullObject
      else .throw .outOfRange s

/-- `process_event` (sm.h:88-107). -/
def processEventR (fuel : Nat) (ev : EventTy) (p : P) (s : SM P W) : Res (SM P W) Bool :=
  (processInternalR M sem call fuel ev p s).bind fun rp s =>
    match rp.1 with
    | .allTransitionsInvalid => (callHandlerR M sem call ev rp.2 s).bind fun _ s => .ok false s
    | .deferred => .ok false s
    | .allGuardsFailed => .ok false s
    | .processed => (processDeferredR M sem call fuel s).bind fun _ s => .ok true s

end

/-- A call on the machine; calls from callbacks are nested at most `n` deep. (sm.h:88-173) -/
def stepR (fuel : Nat) : Nat → Op P → SM P W → Res (SM P W) Bool
  | 0, _, _ => .timeout
  | n + 1, op, s =>
    match op with
    | .process ev p => processEventR M sem (stepR fuel n) fuel ev p s
    | .set r p st => (setOp M r p st s).bind fun _ s => .ok true s
    | .setDependency d => (setDependency M d s).bind fun _ s => .ok true s

end

/-! ## Specification -/

section
variable {P W : Type}

/-- Every call the program can make satisfies `Q`, and it does nothing undefined unless `U`. -/
def Prog.Good {α : Type} (U : Prop) (Q : Op P → Prop) : Prog P W α → Prop
  | .ret _ _ _ => True
  | .throw _ _ => True
  | .ub => U
  | .call op _ k => Q op ∧ ∀ r w, (k r w).Good U Q

/-- The same for all callbacks. -/
structure SemR.Good (sem : SemR P W) (U : Prop) (Q : Op P → Prop) : Prop where
  guard : ∀ g a p w, (sem.guard g a p w).Good U Q
  action : ∀ c a p w, (sem.action c a p w).Good U Q
  handler : ∀ h e st d p w, (sem.handler h e st d p w).Good U Q

/-- Histories of calls from outside, with callbacks that use the machine. -/
inductive RunToR (M : Machine) (sem : SemR P W) (d : Dep) : List (Op P) → SM P W → Prop
  | init {w : W} {s : SM P W} (h : construct M d w = .ok s) : RunToR M sem d [] s
  | ok {s s' : SM P W} {ops : List (Op P)} {op : Op P} {fuel n : Nat} {b : Bool}
      (hr : RunToR M sem d ops s) (hop : OpOk M op) (h : stepR M sem fuel n op s = .ok b s') :
      RunToR M sem d (ops ++ [op]) s'
  | throw {s s' : SM P W} {ops : List (Op P)} {op : Op P} {fuel n : Nat} {x : Exn}
      (hr : RunToR M sem d ops s) (hop : OpOk M op) (h : stepR M sem fuel n op s = .throw x s') :
      RunToR M sem d (ops ++ [op]) s'
  | world {s : SM P W} {ops : List (Op P)} (hr : RunToR M sem d ops s) (w : W) :
      RunToR M sem d ops { s with world := w }

/-- Callbacks without calls. -/
def CbRes.prog {α : Type} : CbRes P W α → Prog P W α
  | .ok a p w => .ret a p w
  | .throw n _ w => .throw (.user n) w
  | .ub => .ub

/-- The user code of `Runtime.lean`. -/
def Sem.lift (sem : Sem P W) : SemR P W where
  guard g a p w := (sem.guard g a p w).prog
  action c a p w := (sem.action c a p w).prog
  handler h e st d p w := (sem.handler h e st d p w).prog
  alive := sem.alive
  nonePayload := sem.nonePayload

end

/-! ## Callbacks without calls -/

section
variable {P W : Type} {M : Machine} {sem : Sem P W} {call : Op P → SM P W → Res (SM P W) Bool}

theorem ite_parts {α : Type} {c : Prop} [Decidable c] {a a' b b' : α} (h1 : a = a') (h2 : b = b') :
    (if c then a else b) = if c then a' else b' := by rw [h1, h2]

theorem execGuardR_lift (x : Exec) (ev : EventTy) (p : P) (s : SM P W) :
    execGuardR M sem.lift call x ev p s = execGuard M sem x ev p s := by
  unfold execGuardR execGuard
  cases x.guard with
  | none => rfl
  | some g =>
    show (if (objOk M sem _ s && objOk M sem _ s) = true then _ else _) = _
    refine ite_parts ?_ rfl
    show runCb call (sem.guard g _ p s.world).prog _ s = _
    cases sem.guard g _ p s.world <;> rfl

theorem runCbsR_lift (args : Args) : ∀ (cs : List (Phase × Cb)) (p : P) (s : SM P W),
    runCbsR sem.lift call args cs p s = runCbs sem args cs p s := by
  intro cs
  induction cs with
  | nil => intro p s; rfl
  | cons c cs ih =>
    intro p s
    obtain ⟨ph, a⟩ := c
    unfold runCbsR runCbs
    show (runCb call (sem.action a args p s.world).prog _ s).bind _ = _
    cases sem.action a args p s.world with
    | ok u p' w' => exact ih _ _
    | throw n p' w' => rfl
    | ub => rfl

theorem fireR_lift (r : Nat) (ev : EventTy) (e : Entry) (x : Exec) (p : P) (s : SM P W) :
    fireR M sem.lift call r ev e x p s = fire M sem r ev e x p s := by
  unfold fireR fire
  congr 1
  funext _ s
  unfold execActionR execAction
  cases x.action with
  | none => rfl
  | some cs =>
    show (if objOk M sem _ s = true then _ else _) = _
    rw [runCbsR_lift]

theorem tryEntriesR_lift (r : Nat) (ev : EventTy) (c n : Nat) : ∀ (es : List Entry) (p : P)
    (s : SM P W), (s.table ev c).length = n →
    tryEntriesR M sem.lift call r ev c n es p s = tryEntries M sem r ev es p s := by
  intro es
  induction es with
  | nil => intro p s _; rfl
  | cons e es ih =>
    intro p s hn
    unfold tryEntriesR tryEntries
    refine ite_parts rfl ?_
    cases e.tr with
    | none => rfl
    | some x =>
      simp only [execGuardR_lift, fireR_lift]
      cases hg : execGuard M sem x ev p s with
      | throw x s' => rfl
      | ub u => rfl
      | timeout => rfl
      | ok gp s' =>
        obtain ⟨w, tr, rfl⟩ := execGuard_same hg
        show (if gp.1 = true then _ else _) = (if gp.1 = true then _ else _)
        refine ite_parts rfl ?_
        rw [if_pos (show ((s.ran w tr).table ev c).length = n from hn)]
        exact ih _ _ hn

theorem regionStepR_lift (r : Nat) (ev : EventTy) (p : P) (s : SM P W) :
    regionStepR M sem.lift call r ev p s = regionStep M sem r ev p s := by
  unfold regionStepR regionStep lookup
  cases hc : readCur r s with
  | throw x s' => rfl
  | ub u => rfl
  | timeout => rfl
  | ok c s' =>
    show (if c < M.size then _ else _) = ((if c < M.size then _ else _ : Res (SM P W) _)).bind _
    by_cases h : c < M.size
    · rw [if_pos h, if_pos h]
      show _ = (match s'.table ev c with | [] => _ | es => _)
      cases hes : s'.table ev c with
      | nil => rfl
      | cons e es => exact tryEntriesR_lift r ev c _ _ p s' (by rw [hes])
    · rw [if_neg h, if_neg h]; rfl

theorem regionLoopR_lift (ev : EventTy) : ∀ (rs : List Nat) (agf ati : Bool) (p : P) (s : SM P W),
    regionLoopR M sem.lift call ev rs agf ati p s = regionLoop M sem ev rs agf ati p s := by
  intro rs
  induction rs with
  | nil => intro _ _ _ _; rfl
  | cons r rs ih =>
    intro agf ati p s
    unfold regionLoopR regionLoop
    rw [regionStepR_lift]
    congr 1
    funext op s
    cases op.1 <;> first | exact ih _ _ _ _ | rfl

theorem tryAnonR_lift (r : Nat) (c n : Nat) : ∀ (es : List Entry) (p : P)
    (s : SM P W), (s.table .none c).length = n →
    tryAnonR M sem.lift call r c n es p s = tryAnon M sem r es p s := by
  intro es
  induction es with
  | nil => intro p s _; rfl
  | cons e es ih =>
    intro p s hn
    unfold tryAnonR tryAnon
    cases e.tr with
    | none => rfl
    | some x =>
      simp only [execGuardR_lift, fireR_lift]
      cases hg : execGuard M sem x .none p s with
      | throw x s' => rfl
      | ub u => rfl
      | timeout => rfl
      | ok gp s' =>
        obtain ⟨w, tr, rfl⟩ := execGuard_same hg
        show (if gp.1 = true then _ else _) = (if gp.1 = true then _ else _)
        refine ite_parts rfl ?_
        rw [if_pos (show ((s.ran w tr).table .none c).length = n from hn)]
        exact ih _ _ hn

theorem anonRoundR_lift : ∀ (rs : List Nat) (agf : Bool) (p : P) (s : SM P W),
    anonRoundR M sem.lift call rs agf p s = anonRound M sem rs agf p s := by
  intro rs
  induction rs with
  | nil => intro _ _ _; rfl
  | cons r rs ih =>
    intro agf p s
    unfold anonRoundR anonRound lookup
    cases hc : readCur r s with
    | throw x s' => rfl
    | ub u => rfl
    | timeout => rfl
    | ok c s' =>
      show (if c < M.size then _ else _) = ((if c < M.size then _ else _ : Res (SM P W) _)).bind _
      by_cases h : c < M.size
      · rw [if_pos h, if_pos h]
        show _ = (match s'.table .none c with | [] => _ | es => _)
        cases hes : s'.table .none c with
        | nil => rfl
        | cons e es =>
          show (tryAnonR M sem.lift call r c _ _ p s').bind _ = (tryAnon M sem r _ p s').bind _
          rw [tryAnonR_lift r c _ _ p s' (by rw [hes])]
          congr 1
          funext fp s
          exact ih _ _ _
      · rw [if_neg h, if_neg h]; rfl

theorem anonLoopR_lift : ∀ (fuel : Nat) (p : P) (s : SM P W),
    anonLoopR M sem.lift call fuel p s = anonLoop M sem fuel p s := by
  intro fuel
  induction fuel with
  | zero => intro _ _; rfl
  | succ fuel ih =>
    intro p s
    unfold anonLoopR anonLoop
    rw [anonRoundR_lift]
    congr 1
    funext op s
    match op.1 with
    | none => rfl
    | some true => rfl
    | some false => exact ih _ _

theorem processInternalR_lift (fuel : Nat) (ev : EventTy) (p : P) (s : SM P W) :
    processInternalR M sem.lift call fuel ev p s = processInternal M sem fuel ev p s := by
  unfold processInternalR processInternal processAnonR processAnon
  rw [regionLoopR_lift]
  congr 1
  funext op s
  rw [anonLoopR_lift]
  rfl

theorem callHandlerR_lift (ev : EventTy) (p : P) (s : SM P W) :
    callHandlerR M sem.lift call ev p s = callHandler M sem ev p s := by
  unfold callHandlerR callHandler
  cases (M.decl M.root).handler with
  | none => rfl
  | some h =>
    simp only
    congr 1
    funext c s
    refine ite_parts ?_ rfl
    cases s.handlers ev c with
    | none => rfl
    | some x =>
      obtain ⟨st, d⟩ := x
      show (if objOk M sem _ s = true then _ else _) = (if objOk M sem _ s = true then _ else _)
      refine ite_parts ?_ rfl
      show (runCb call (sem.handler h ev st d p s.world).prog _ s).bind _ = _
      cases sem.handler h ev st d p s.world <;> rfl

/-- Without calls from callbacks the machine does what `Runtime.lean` says. -/
theorem stepR_lift (fuel n : Nat) (op : Op P) (s : SM P W) :
    stepR M sem.lift fuel (n + 1) op s = step M sem fuel op s := by
  unfold stepR step
  cases op with
  | set r p st => rfl
  | setDependency d => rfl
  | process ev p =>
    show processEventR M sem.lift _ fuel ev p s = processEvent M sem fuel ev p s
    unfold processEventR processEvent
    rw [processInternalR_lift]
    congr 1
    funext rp s
    have h1 : processDeferredR M sem.lift (stepR M sem.lift fuel n) fuel s =
        processDeferred M sem fuel s := by
      unfold processDeferredR processDeferred
      refine ite_parts ?_ rfl
      cases s.queue with
      | nil => rfl
      | cons x q =>
        show (processInternalR M sem.lift _ fuel x.1 x.2 _).bind _ = _
        rw [processInternalR_lift]
    cases rp.1 with
    | allTransitionsInvalid => show (callHandlerR _ _ _ _ _ _).bind _ = _; rw [callHandlerR_lift]
    | allGuardsFailed => rfl
    | deferred => rfl
    | processed => show (processDeferredR _ _ _ _ _).bind _ = _; rw [h1]

end
end Hsm
