import Verif.Gen
import Verif.Reentrant

/-!
# The amalgamated header and callbacks that use the machine

As Reentrant.lean, for `include/hsm/gen/hsm.h`.  The functions in which the two headers differ are
modelled here; the others are those of Reentrant.lean.  `process_event` returns nothing there
(gen/hsm.h:2351-2365), so that the reply to it is always `Reply.ret true`, and there is no `set`.
-/

namespace Hsm

/-! ## Model -/

section
variable {P W : Type} (M : Machine) (sem : SemR P W)

section
variable (call : Op P → SM P W → Res (SM P W) Bool)

/-- One pass of the region loop of `process_anonymous_transitions` (gen/hsm.h:2474-2494): every region
gets a new `noneEvent`.  For the iterators of the inner loop see `tryEntriesR`; the cells are
`std::deque`s that are filled by `push_front` here, too. -/
def anonRoundGR : List Nat → Bool → SM P W → Res (SM P W) (Option Bool)
  | [], agf, s => .ok (some agf) s
  | r :: rs, agf, s =>
    (readCur r s).bind fun c s =>
      if c < M.size then
        match s.table .none c with
        | [] => .ok none s
        | es =>
          (tryAnonR M sem call r c es.length es sem.nonePayload s).bind fun fp s =>
            anonRoundGR rs (agf && !fp.1) s
      else .ub .bounds

/-- The `while (true)` loop (gen/hsm.h:2470-2499), at most `fuel` iterations. -/
def anonLoopGR : Nat → SM P W → Res (SM P W) Unit
  | 0, _ => .timeout
  | fuel + 1, s =>
    (anonRoundGR M sem call (List.range (currentRegions M s)) true s).bind fun o s =>
      match o with
      | none => .ok () s
      | some true => .ok () s
      | some false => anonLoopGR fuel s

/-- `process_anonymous_transitions` (gen/hsm.h:2467-2501). -/
def processAnonGR (fuel : Nat) (s : SM P W) : Res (SM P W) Unit :=
  if M.hasAnon then anonLoopGR M sem call fuel s else .ok () s

/-- `process_event_internal` (gen/hsm.h:2410-2456); the number of regions is read once, before the loop
(:2415). -/
def processInternalGR (fuel : Nat) (ev : EventTy) (p : P) (s : SM P W) :
    Res (SM P W) (Bool × P) :=
  (regionLoopR M sem call ev (List.range (currentRegions M s)) true true p s).bind fun op s =>
    match op.1 with
    | .deferred => .ok (true, op.2) s
    | .done agf ati =>
      if ati then .ok (false, op.2) s
      else if agf then .ok (true, op.2) s
      else (processAnonGR M sem call fuel s).bind fun _ s => .ok (true, op.2) s

/-- `process_deferred_events` (gen/hsm.h:2458-2465). -/
def processDeferredGR (fuel : Nat) (s : SM P W) : Res (SM P W) Unit :=
  if M.hasDefer then
    match s.queue with
    | [] => .ok () s
    | (e, p) :: q =>
      (processInternalGR M sem call fuel e p { s with queue := q }).bind fun _ s => .ok () s
  else .ok () s

/-- `process_event` (gen/hsm.h:2351-2365). -/
def processEventGR (fuel : Nat) (ev : EventTy) (p : P) (s : SM P W) : Res (SM P W) Unit :=
  (processInternalGR M sem call fuel ev p s).bind fun bp s =>
    if bp.1 then processDeferredGR M sem call fuel s
    else (callHandlerR M sem call ev bp.2 s).bind fun _ s => .ok () s

end

/-- A call on the machine; calls from callbacks are nested at most `n` deep.  Programs with calls of
`set` do not compile; they are excluded by `OpOkGR`. (gen/hsm.h:2351-2410) -/
def stepGR (fuel : Nat) : Nat → Op P → SM P W → Res (SM P W) Bool
  | 0, _, _ => .timeout
  | n + 1, op, s =>
    match op with
    | .process ev p => (processEventGR M sem (stepGR fuel n) fuel ev p s).bind fun _ s => .ok true s
    | .set _ _ _ => .ok true s
    | .setDependency d => (setDependencyG M d s).bind fun _ s => .ok true s

end

/-! ## Specification -/

section
variable {P W : Type}

/-- What compiles: the static assertion of `process_event` (gen/hsm.h:2353-2357); there is no `set`. -/
def OpOkGR (M : Machine) : Op P → Prop
  | .process ev _ => ev ∈ M.eventIdsG
  | .set _ _ _ => False
  | .setDependency _ => True

theorem opOkGR_op {M : Machine} {op : OpG P} : OpOkGR M op.op ↔ OpOkG M op := by
  cases op <;> exact Iff.rfl

theorem OpOkGR.op {M : Machine} {op : Op P} (h : OpOkGR M op) : ∃ o : OpG P, o.op = op := by
  cases op with
  | process ev p => exact ⟨.process ev p, rfl⟩
  | set r p st => exact h.elim
  | setDependency d => exact ⟨.setDependency d, rfl⟩

/-- Histories of calls from outside, with callbacks that use the machine. -/
inductive RunToGR (M : Machine) (sem : SemR P W) (d : Dep) : List (Op P) → SM P W → Prop
  | init {w : W} {s : SM P W} (h : constructG M d w = .ok s) : RunToGR M sem d [] s
  | ok {s s' : SM P W} {ops : List (Op P)} {op : Op P} {fuel n : Nat} {b : Bool}
      (hr : RunToGR M sem d ops s) (hop : OpOkGR M op) (h : stepGR M sem fuel n op s = .ok b s') :
      RunToGR M sem d (ops ++ [op]) s'
  | throw {s s' : SM P W} {ops : List (Op P)} {op : Op P} {fuel n : Nat} {x : Exn}
      (hr : RunToGR M sem d ops s) (hop : OpOkGR M op) (h : stepGR M sem fuel n op s = .throw x s') :
      RunToGR M sem d (ops ++ [op]) s'
  | world {s : SM P W} {ops : List (Op P)} (hr : RunToGR M sem d ops s) (w : W) :
      RunToGR M sem d ops { s with world := w }

end

/-! ## Callbacks without calls -/

section
variable {P W : Type} {M : Machine} {sem : Sem P W} {call : Op P → SM P W → Res (SM P W) Bool}

theorem anonRoundGR_lift : ∀ (rs : List Nat) (agf : Bool) (s : SM P W),
    anonRoundGR M sem.lift call rs agf s = anonRoundG M sem rs agf s := by
  intro rs
  induction rs with
  | nil => intro _ _; rfl
  | cons r rs ih =>
    intro agf s
    unfold anonRoundGR anonRoundG lookup
    cases hc : readCur r s with
    | throw x s' => rfl
    | ub u => rfl
    | timeout => rfl
    | ok c s' =>
      show (if c < M.size then _ else _) = ((if c < M.size then _ else _ : Res (SM P W) _)).bind _
      by_cases h : c < M.size
      · rw [if_pos h, if_pos h]
        show _ = (match s'.table .none c with | [] => _ | es => _)
        cases hes : s'.table .none c with
        | nil => rfl
        | cons e es =>
          show (tryAnonR M sem.lift call r c _ _ sem.nonePayload s').bind _ =
            (tryAnon M sem r _ sem.nonePayload s').bind _
          rw [tryAnonR_lift r c _ _ sem.nonePayload s' (by rw [hes])]
          congr 1
          funext fp s
          exact ih _ _
      · rw [if_neg h, if_neg h]; rfl

theorem anonLoopGR_lift : ∀ (fuel : Nat) (s : SM P W),
    anonLoopGR M sem.lift call fuel s = anonLoopG M sem fuel s := by
  intro fuel
  induction fuel with
  | zero => intro _; rfl
  | succ fuel ih =>
    intro s
    unfold anonLoopGR anonLoopG
    rw [anonRoundGR_lift]
    congr 1
    funext o s
    match o with
    | none => rfl
    | some true => rfl
    | some false => exact ih _

theorem processInternalGR_lift (fuel : Nat) (ev : EventTy) (p : P) (s : SM P W) :
    processInternalGR M sem.lift call fuel ev p s = processInternalG M sem fuel ev p s := by
  unfold processInternalGR processInternalG processAnonGR processAnonG
  rw [regionLoopR_lift]
  congr 1
  funext op s
  rw [anonLoopGR_lift]
  rfl

/-- Without calls from callbacks the machine does what `Gen.lean` says. -/
theorem stepGR_lift (fuel n : Nat) (op : OpG P) (s : SM P W) :
    stepGR M sem.lift fuel (n + 1) op.op s =
      (stepG M sem fuel op s).bind fun _ s => .ok true s := by
  cases op with
  | setDependency d => rfl
  | process ev p =>
    show (processEventGR M sem.lift _ fuel ev p s).bind _ = (processEventG M sem fuel ev p s).bind _
    congr 1
    unfold processEventGR processEventG
    rw [processInternalGR_lift]
    congr 1
    funext bp s
    have h1 : processDeferredGR M sem.lift (stepGR M sem.lift fuel n) fuel s =
        processDeferredG M sem fuel s := by
      unfold processDeferredGR processDeferredG
      refine ite_parts ?_ rfl
      cases s.queue with
      | nil => rfl
      | cons x q =>
        show (processInternalGR M sem.lift _ fuel x.1 x.2 _).bind _ = _
        rw [processInternalGR_lift]
    rw [h1, callHandlerR_lift]

end
end Hsm
