import Verif.Gen
import Verif.PropsApi

/-!
# The amalgamated header: properties (C61, C62, C63)
-/

namespace Hsm

section
variable {P W : Type} {M : Machine} {sem : Sem P W} {d : Dep} {ops : List (OpG P)} {s s' : SM P W}
  {fuel : Nat} {ev : EventTy} {pl : P}

/-! ## Specification -/

/-- `process_event` of the amalgamated header, the call not being left by an exception: like
`EventRun`, but the oldest waiting event gets its turn after rejected and deferred events as
well. -/
inductive EventRunG (M : Machine) (sem : Sem P W) (deps : List Dep) (d0 : Dep) (ev : EventTy)
    (pl : P) (s : SM P W) : SM P W → Prop
  /-- nothing could react, and there is no handler -/
  | ignored {os : List RegionOut} {pl' : P} {s1 : SM P W}
      (ht : Turn M sem deps ev pl s os pl' s1 s1)
      (hn : ∀ o ∈ os, o = RegionOut.none) (hh : (M.decl M.root).handler = none) :
      EventRunG M sem deps d0 ev pl s s1
  /-- nothing could react, the handler is called with the object of the current state -/
  | unexpected {os : List RegionOut} {pl' pl'' : P} {s1 : SM P W} {h : Cb} {p : Name} {st : StTy}
      {w : W} (ht : Turn M sem deps ev pl s os pl' s1 s1)
      (hn : ∀ o ∈ os, o = RegionOut.none) (hh : (M.decl M.root).handler = some h)
      (ha : At M s1 0 p st) (hc : sem.handler h ev st d0 pl' s1.world = .ok () pl'' w) :
      EventRunG M sem deps d0 ev pl s (s1.ran w [.handler h ev st d0 pl' false s1.cur])
  /-- there were candidates, no event is waiting -/
  | handled {os : List RegionOut} {pl' : P} {s1 s2 : SM P W}
      (ht : Turn M sem deps ev pl s os pl' s1 s2) (hn : ∃ o ∈ os, o ≠ RegionOut.none)
      (hq : M.deferring = false ∨ s2.queue = []) : EventRunG M sem deps d0 ev pl s s2
  /-- there were candidates, the oldest waiting event is taken from the queue and gets its turn -/
  | replayed {os os' : List RegionOut} {pl' rp rp' : P} {s1 s2 s3 s4 : SM P W} {re : EventTy}
      {q : List (EventTy × P)}
      (ht : Turn M sem deps ev pl s os pl' s1 s2) (hn : ∃ o ∈ os, o ≠ RegionOut.none)
      (hd : M.deferring = true) (hq : s2.queue = (re, rp) :: q)
      (ht' : Turn M sem deps re rp { s2 with queue := q } os' rp' s3 s4) :
      EventRunG M sem deps d0 ev pl s s4

/-- `process_event` of the amalgamated header left by exception `k` of a callback. -/
inductive EventThrowG (M : Machine) (sem : Sem P W) (deps : List Dep) (d0 : Dep) (ev : EventTy)
    (pl : P) (s : SM P W) : Nat → SM P W → Prop
  | main {k : Nat} {s' : SM P W} (ht : TurnThrow M sem deps ev pl s k s') :
      EventThrowG M sem deps d0 ev pl s k s'
  | handler {os : List RegionOut} {pl' pl'' : P} {s1 : SM P W} {h : Cb} {p : Name} {st : StTy}
      {w : W} {k : Nat} (ht : Turn M sem deps ev pl s os pl' s1 s1)
      (hn : ∀ o ∈ os, o = RegionOut.none) (hh : (M.decl M.root).handler = some h)
      (ha : At M s1 0 p st) (hc : sem.handler h ev st d0 pl' s1.world = .throw k pl'' w) :
      EventThrowG M sem deps d0 ev pl s k (s1.ran w [.handler h ev st d0 pl' true s1.cur])
  | replay {os : List RegionOut} {pl' rp : P} {s1 s2 s' : SM P W} {re : EventTy}
      {q : List (EventTy × P)} {k : Nat}
      (ht : Turn M sem deps ev pl s os pl' s1 s2) (hn : ∃ o ∈ os, o ≠ RegionOut.none)
      (hd : M.deferring = true) (hq : s2.queue = (re, rp) :: q)
      (ht' : TurnThrow M sem deps re rp { s2 with queue := q } k s') :
      EventThrowG M sem deps d0 ev pl s k s'

/-- Run calls of the amalgamated header one after the other, ignoring exceptions. -/
def runOpsG (M : Machine) (sem : Sem P W) (fuel : Nat) : List (OpG P) → SM P W → Option (SM P W)
  | [], s => some s
  | op :: ops, s =>
    match op with
    | .process e _ =>
      if e ∈ M.eventIdsG then
        match stepG M sem fuel op s with
        | .ok _ s' => runOpsG M sem fuel ops s'
        | .throw _ s' => runOpsG M sem fuel ops s'
        | _ => none
      else none
    | .setDependency _ =>
      match stepG M sem fuel op s with
      | .ok _ s' => runOpsG M sem fuel ops s'
      | .throw _ s' => runOpsG M sem fuel ops s'
      | _ => none

/-- Construct with dependency `d` in world `w`, then run calls. -/
def runG (M : Machine) (sem : Sem P W) (fuel : Nat) (d : Dep) (w : W) (ops : List (OpG P)) :
    Option (SM P W) :=
  match constructG M d w with
  | .ok s => runOpsG M sem fuel ops s
  | .error _ => none

/-! ## Invariants of histories -/

theorem processEventG_eq (hk : sem.KeepsNone) (fuel : Nat) (ev : EventTy) (pl : P) (s : SM P W) :
    processEventG M sem fuel ev pl s
      = (processInternal M sem fuel ev pl s).bind fun rp s =>
          if rp.1.handled then processDeferred M sem fuel s
          else (callHandler M sem ev rp.2 s).bind fun _ s => .ok () s := by
  unfold processEventG
  rw [processInternalG_eq hk]
  cases processInternal M sem fuel ev pl s with
  | ok rp s1 => simp only [Res.bind, processDeferredG_eq hk]
  | throw x s1 => rfl
  | ub u => rfl
  | timeout => rfl

theorem Preserves.processEventG {U : Prop} {R : Nat → Prop} {I : SM P W → Prop}
    (hk : sem.KeepsNone) (h : Preserves M sem U R I) (fuel : Nat) (ev : EventTy) (p : P)
    (s : SM P W)
    (hh : ∀ s p, I s → (callHandler M sem ev p s).Sat U (fun _ => I) (fun _ => I)) (hs : I s) :
    (processEventG M sem fuel ev p s).Sat U (fun _ => I) (fun _ => I) := by
  rw [processEventG_eq hk]
  apply Res.Sat.bind (h.processInternal fuel ev p s hs)
  rintro ⟨o, p1⟩ s1 hs1
  simp only []
  split
  · exact h.processDeferred fuel s1 hs1
  · exact Res.Sat.bind (hh s1 p1 hs1) (fun _ _ hs => hs)

theorem opOkG_event (hP : M.PlainInternals) (h : OpOkG M (.process ev pl)) : ev ∈ M.events := by
  rw [Machine.events_eq]
  exact (Machine.eventIdsG_mem hP).1 h

/-- What survives all calls holds after every history. -/
theorem RunToG.inv (hM : M.Regular) (hP : M.PlainInternals) (hk : sem.KeepsNone)
    {I : List (OpG P) → SM P W → Prop}
    (base : ∀ w s, construct M d w = .ok s → I [] s)
    (pres : ∀ ops, Preserves M sem True (fun _ => True) (I ops))
    (hand : ∀ ops ev s p, ev ∈ M.events → I ops s →
      (callHandler M sem ev p s).Sat True (fun _ => I ops) (fun _ => I ops))
    (same : ∀ ops ev pl s, I ops s → I (ops ++ [.process ev pl]) s)
    (dep : ∀ ops s d' T, I ops s → M.fill d' s.table = .ok T →
      I (ops ++ [.setDependency d']) { s with table := T })
    (world : ∀ ops s w, I ops s → I ops { s with world := w })
    (h : RunToG M sem d ops s) : I ops s := by
  have step : ∀ (ops : List (OpG P)) (s : SM P W) (op : OpG P) (fuel : Nat), I ops s →
      OpOkG M op →
      (stepG M sem fuel op s).Sat True (fun _ => I (ops ++ [op])) (fun _ => I (ops ++ [op])) := by
    intro ops s op fuel hs hop
    cases op with
    | process ev p =>
      have := (pres ops).processEventG hk fuel ev p s
        (fun s p hs => hand ops ev s p (opOkG_event hP hop) hs) hs
      show (Hsm.processEventG M sem fuel ev p s).Sat _ _ _
      cases hr : Hsm.processEventG M sem fuel ev p s with
      | ok a s1 => rw [hr] at this; exact same _ _ _ _ this
      | throw x s1 => rw [hr] at this; exact same _ _ _ _ this
      | ub u => trivial
      | timeout => trivial
    | setDependency d' =>
      show (setDependencyG M d' s).Sat _ _ _
      unfold setDependencyG
      rw [Machine.fillG_eq hM hP]
      cases hT : M.fill d' s.table with
      | ok T => exact dep _ _ _ _ hs hT
      | error e => trivial
  induction h with
  | init h => exact base _ _ (by rw [← constructG_eq hM hP]; exact h)
  | @ok s s' ops op fuel hr hop h ih =>
    have := step ops s op fuel ih hop
    rw [h] at this; exact this
  | @throw s s' ops op fuel x hr hop h ih =>
    have := step ops s op fuel ih hop
    rw [h] at this; exact this
  | world hr w ih => exact world _ _ _ ih

/-- The dependencies given so far, latest first. -/
abbrev depsG (d : Dep) (ops : List (OpG P)) : List Dep := depsOf d (ops.map OpG.op)

theorem depsG_process (d : Dep) (ops : List (OpG P)) (ev : EventTy) (pl : P) :
    depsG d (ops ++ [.process ev pl]) = depsG d ops := by
  simp only [depsG, List.map_append, List.map_cons, List.map_nil]
  exact depsOf_process d _ ev pl

theorem depsG_dep (d d' : Dep) (ops : List (OpG P)) :
    depsG d (ops ++ [.setDependency d']) = d' :: depsG d ops := by
  simp only [depsG, List.map_append, List.map_cons, List.map_nil]
  exact depsOf_dep d d' _

theorem RunToG.ready (hM : M.Regular) (hP : M.PlainInternals) (hk : sem.KeepsNone)
    (h : RunToG M sem d ops s) : Ready M (depsG d ops) d s := by
  have hb : Basic M s := RunToG.inv hM hP hk (I := fun _ => Basic M)
    (fun w s h => basic_construct hM h) (fun _ => Preserves.basic)
    (fun _ ev s p _ hs => callHandler_easy _ (fun _ _ _ h => h.of_eq rfl rfl rfl rfl rfl) ev s p hs)
    (fun _ _ _ _ h => h) (fun _ s d' T hs hT => basic_fill hM hs hT)
    (fun _ s w h => h.of_eq rfl rfl rfl rfl rfl) h
  have ht : TableIs M (depsG d ops) s ∧ HandlersAre M d s :=
    RunToG.inv hM hP hk (I := fun ops s => TableIs M (depsG d ops) s ∧ HandlersAre M d s)
      (fun w s h => (RunTo.init (sem := sem) h).tables hM)
      (fun ops => Preserves.tables fun T H =>
        (∀ e p st, p ∈ M.composites → st ∈ M.states →
          T e (M.comb p st) = M.entries (depsG d ops) e p st) ∧
        ((M.decl M.root).handler.isSome = true → ∀ e ∈ M.events, ∀ p ∈ M.composites,
          ∀ st ∈ M.states, H e (M.comb p st) = some (st, d)))
      (fun _ ev s p _ hs => callHandler_easy _ (fun _ _ _ h => h) ev s p hs)
      (fun ops ev pl s h => by rw [depsG_process]; exact h)
      (fun ops s d' T hs hT => by
        rw [depsG_dep]
        refine ⟨?_, hs.2⟩
        intro e p st hp hst
        show T e (M.comb p st) = _
        rw [Machine.fill_spec hM hT e hp hst, hs.1 e p st hp hst]
        simp [Machine.entries])
      (fun _ _ _ h => h) h
  exact ⟨⟨depsOf_ne_nil d _, hb, ht.1⟩, ht.2⟩

/-! ## C61: a drop-in replacement -/

/-- C61: a call of `process_event` that returns does what `EventRunG` says: exactly what the
modular header does, plus the replay of one waiting event when there were candidates but no row
fired. -/
theorem C61_process (hM : M.Regular) (hP : M.PlainInternals) (hk : sem.KeepsNone)
    (hrun : RunToG M sem d ops s) (hev : ev ∈ M.events)
    (h : processEventG M sem fuel ev pl s = .ok () s') :
    EventRunG M sem (depsG d ops) d ev pl s s' := by
  have hg := hrun.ready hM hP hk
  rw [processEventG_eq hk] at h
  obtain ⟨⟨o, p1⟩, s1, h1, h2⟩ := Res.bind_ok.1 h
  obtain ⟨os, s0, ht, hres⟩ := processInternal_ok hM hg.toGood h1
  have hg1 := hg.toGood.processInternal h1
  have hh1 : HandlersAre M d s1 := by
    have := (Preserves.handlersAre (M := M) (sem := sem) d).processInternal fuel ev pl s hg.handlers
    rw [h1] at this
    exact this
  have replay : (∃ o ∈ os, o ≠ RegionOut.none) → processDeferred M sem fuel s1 = .ok () s' →
      EventRunG M sem (depsG d ops) d ev pl s s' := by
    intro hn h3
    unfold processDeferred at h3
    rw [Machine.hasDefer_eq] at h3
    split at h3
    · rename_i hdef
      split at h3
      · rename_i hq
        cases h3
        exact .handled ht hn (Or.inr hq)
      · rename_i e p q hq
        obtain ⟨⟨o', p2⟩, s3, h5, h6⟩ := Res.bind_ok.1 h3
        cases h6
        obtain ⟨os', s4, ht', _⟩ := processInternal_ok hM (hg1.queue q) h5
        exact .replayed ht hn hdef hq ht'
    · rename_i hdef
      cases h3
      exact .handled ht hn (Or.inl (by simpa using hdef))
  rcases hres with ⟨rfl, rfl, hn⟩ | ⟨ho, rfl, hr, hn⟩ | ⟨rfl, hr⟩
  · simp only [ProcRes.handled, Bool.false_eq_true, if_false] at h2
    obtain ⟨p2, s2, h3, h4⟩ := Res.bind_ok.1 h2
    cases h4
    rcases callHandler_ok h3 with ⟨hno, rfl, rfl⟩ | ⟨hd, c, st, d', w, hsome, hc, hlt, hhs, hcall, rfl⟩
    · exact .ignored ht hn hno
    · obtain ⟨rfl, p, ha⟩ := callHandler_spec hM hev hh1 hsome hc hlt hhs
      exact .unexpected ht hn hsome ha hcall
  · rcases ho with rfl | rfl <;> exact replay hn h2
  · refine replay ?_ h2
    obtain ⟨_, h⟩ := hr
    exact ⟨_, h, by simp⟩

/-- C61 for calls left by an exception: it comes from a callback, or from the bounds check of the
handler table if region 0 is nowhere. -/
theorem C61_process_throw (hM : M.Regular) (hP : M.PlainInternals) (hk : sem.KeepsNone)
    (hrun : RunToG M sem d ops s) (hev : ev ∈ M.events) {x : Exn}
    (h : processEventG M sem fuel ev pl s = .throw x s') :
    (∃ k, x = .user k ∧ EventThrowG M sem (depsG d ops) d ev pl s k s') ∨
    (x = .outOfRange ∧ (∃ c, s'.cur[0]? = some (some c) ∧ M.size ≤ c) ∧
      ∃ os pl', Turn M sem (depsG d ops) ev pl s os pl' s' s' ∧ ∀ o ∈ os, o = RegionOut.none) := by
  have hg := hrun.ready hM hP hk
  rw [processEventG_eq hk] at h
  rcases Res.bind_throw.1 h with h | ⟨⟨o, p1⟩, s1, h1, h2⟩
  · obtain ⟨k, hk', ht⟩ := processInternal_throw hM hg.toGood h
    exact Or.inl ⟨k, hk', .main ht⟩
  obtain ⟨os, s0, ht, hres⟩ := processInternal_ok hM hg.toGood h1
  have hg1 := hg.toGood.processInternal h1
  have hh1 : HandlersAre M d s1 := by
    have := (Preserves.handlersAre (M := M) (sem := sem) d).processInternal fuel ev pl s hg.handlers
    rw [h1] at this
    exact this
  have replay : (∃ o ∈ os, o ≠ RegionOut.none) →
      processDeferred M sem fuel s1 = .throw x s' →
      ∃ k, x = .user k ∧ EventThrowG M sem (depsG d ops) d ev pl s k s' := by
    intro hn h3
    unfold processDeferred at h3
    rw [Machine.hasDefer_eq] at h3
    split at h3
    · rename_i hdef
      split at h3
      · cases h3
      · rename_i e p q hq
        rcases Res.bind_throw.1 h3 with h5 | ⟨_, _, _, h6⟩
        · obtain ⟨k, hk', ht'⟩ := processInternal_throw hM (hg1.queue q) h5
          exact ⟨k, hk', .replay ht hn hdef hq ht'⟩
        · cases h6
    · cases h3
  rcases hres with ⟨rfl, rfl, hn⟩ | ⟨ho, rfl, hr, hn⟩ | ⟨rfl, hr⟩
  · simp only [ProcRes.handled, Bool.false_eq_true, if_false] at h2
    rcases Res.bind_throw.1 h2 with h3 | ⟨_, _, _, h4⟩
    · rcases callHandler_throw h3 with ⟨rfl, rfl, c, hc, hle⟩ |
        ⟨hd, c, st, d', w, k, p', rfl, hsome, hc, hlt, hhs, hcall, rfl⟩
      · exact Or.inr ⟨rfl, ⟨c, hc, hle⟩, os, p1, ht, hn⟩
      · obtain ⟨rfl, p, ha⟩ := callHandler_spec hM hev hh1 hsome hc hlt hhs
        exact Or.inl ⟨k, rfl, .handler ht hn hsome ha hcall⟩
    · cases h4
  · rcases ho with rfl | rfl <;> exact Or.inl (replay hn h2)
  · refine Or.inl (replay ?_ h2)
    obtain ⟨_, h⟩ := hr
    exact ⟨_, h, by simp⟩

/-- Without deferred events the two headers run one call in the same way. -/
theorem stepG_eq (hM : M.Regular) (hP : M.PlainInternals) (hk : sem.KeepsNone)
    (hd : M.deferring = false) (op : OpG P) (s : SM P W) :
    stepG M sem fuel op s = (step M sem fuel op.op s).bind fun _ s => .ok () s := by
  cases op with
  | process ev pl =>
    show processEventG M sem fuel ev pl s = (processEvent M sem fuel ev pl s).bind _
    have hno : ∀ s : SM P W, processDeferred M sem fuel s = .ok () s := by
      intro s
      unfold processDeferred
      rw [Machine.hasDefer_eq, hd]
      rfl
    rw [processEventG_eq hk]
    unfold processEvent
    cases processInternal M sem fuel ev pl s with
    | ok rp s1 =>
      obtain ⟨o, p1⟩ := rp
      cases o with
      | allTransitionsInvalid =>
        simp only [Res.bind, ProcRes.handled, Bool.false_eq_true, if_false]
        cases callHandler M sem ev p1 s1 <;> rfl
      | allGuardsFailed => simp only [Res.bind, ProcRes.handled, if_true, hno]
      | processed => simp only [Res.bind, ProcRes.handled, if_true, hno]
      | deferred => simp only [Res.bind, ProcRes.handled, if_true, hno]
    | throw x s1 => rfl
    | ub u => rfl
    | timeout => rfl
  | setDependency d' =>
    show setDependencyG M d' s = ((setDependency M d' s).bind _).bind _
    unfold setDependencyG setDependency
    rw [Machine.fillG_eq hM hP]
    cases M.fill d' s.table <;> rfl

theorem opOkG_iff (hP : M.PlainInternals) (op : OpG P) : OpOkG M op ↔ OpOk M op.op := by
  cases op with
  | process ev pl => exact Machine.eventIdsG_mem hP
  | setDependency d' => exact Iff.rfl

/-- C61 for machines that do not defer events and whose internal rows are plain (what is missing
from the full claim): a machine of the amalgamated header can be in a state after some calls
exactly if a machine of the modular header can be in the same state after the same calls.  The
state includes the locations, the history, the tables and the trace of all callbacks. -/
theorem C61_partial (hM : M.Regular) (hP : M.PlainInternals) (hk : sem.KeepsNone)
    (hd : M.deferring = false) (d : Dep) (ops : List (OpG P)) (s : SM P W) :
    RunToG M sem d ops s ↔ RunTo M sem d (ops.map OpG.op) s := by
  constructor
  · intro h
    induction h with
    | init h => exact .init (by rw [← constructG_eq hM hP]; exact h)
    | @ok s s' ops op fuel hr hop h ih =>
      rw [stepG_eq hM hP hk hd] at h
      obtain ⟨b, s1, h1, h2⟩ := Res.bind_ok.1 h
      cases h2
      rw [List.map_append]
      exact .ok ih ((opOkG_iff hP op).1 hop) h1
    | @throw s s' ops op fuel x hr hop h ih =>
      rw [stepG_eq hM hP hk hd] at h
      rcases Res.bind_throw.1 h with h | ⟨_, _, _, h⟩
      · rw [List.map_append]
        exact .throw ih ((opOkG_iff hP op).1 hop) h
      · cases h
    | world hr w ih => exact .world ih w
  · generalize hl : ops.map OpG.op = l
    intro h
    induction h generalizing ops with
    | init h =>
      obtain rfl : ops = [] := by simpa using hl
      exact .init (by rw [constructG_eq hM hP]; exact h)
    | @ok s s' l op fuel b hr hop h ih =>
      obtain ⟨ops', x, rfl, h1, h2⟩ := List.map_eq_append_iff.1 hl
      obtain ⟨op', rfl, rfl⟩ : ∃ op', x = [op'] ∧ op'.op = op := by
        cases x with
        | nil => cases h2
        | cons a x =>
          simp only [List.map_cons, List.cons.injEq, List.map_eq_nil_iff] at h2
          exact ⟨a, by rw [h2.2], h2.1⟩
      refine .ok (fuel := fuel) (ih _ h1) ((opOkG_iff hP op').2 hop) ?_
      rw [stepG_eq hM hP hk hd, h]
      rfl
    | @throw s s' l op fuel x hr hop h ih =>
      obtain ⟨ops', y, rfl, h1, h2⟩ := List.map_eq_append_iff.1 hl
      obtain ⟨op', rfl, rfl⟩ : ∃ op', y = [op'] ∧ op'.op = op := by
        cases y with
        | nil => cases h2
        | cons a y =>
          simp only [List.map_cons, List.cons.injEq, List.map_eq_nil_iff] at h2
          exact ⟨a, by rw [h2.2], h2.1⟩
      refine .throw (fuel := fuel) (x := x) (ih _ h1) ((opOkG_iff hP op').2 hop) ?_
      rw [stepG_eq hM hP hk hd, h]
      rfl
    | world hr w ih => exact .world (ih _ hl) w

/-! ## C62: the queue -/

/-- The queue after a call: the event itself may have been appended at the end, then the oldest
event may have been taken from the front, and this one may have been appended again. -/
def QueueStepG (ev : EventTy) (q q' : List (EventTy × P)) : Prop :=
  ∃ q1, (q1 = q ∨ ∃ pl', q1 = q ++ [(ev, pl')]) ∧
    (q' = q1 ∨ ∃ e p q2, q1 = (e, p) :: q2 ∧ (q' = q2 ∨ ∃ p', q' = q2 ++ [(e, p')]))

/-- C62 with "at most one event leaves the queue per call, and it is the oldest" instead of
"events are replayed in the order in which they arrived"; for calls that return and for calls left
by an exception. -/
theorem C62_partial (hM : M.Regular) (hP : M.PlainInternals) (hk : sem.KeepsNone)
    (hrun : RunToG M sem d ops s) {op : OpG P} (hop : OpOkG M op)
    (h : stepG M sem fuel op s = .ok () s' ∨ ∃ x, stepG M sem fuel op s = .throw x s') :
    match op with
    | .process ev _ => QueueStepG ev s.queue s'.queue
    | .setDependency _ => s'.queue = s.queue := by
  cases op with
  | process ev pl =>
    have turn : ∀ {os pl' s1 s2}, Turn M sem (depsG d ops) ev pl s os pl' s1 s2 →
        s2.queue = s.queue ∨ ∃ pl', s2.queue = s.queue ++ [(ev, pl')] := by
      intro os pl' s1 s2 ht
      rcases ht.queue with ⟨_, h⟩ | ⟨_, h⟩
      · exact Or.inl h
      · exact Or.inr ⟨_, h⟩
    rcases h with h | ⟨x, h⟩
    · cases C61_process hM hP hk hrun (opOkG_event hP hop) h with
      | ignored ht hn hh => exact ⟨_, turn ht, Or.inl rfl⟩
      | unexpected ht hn hh ha hc => exact ⟨_, turn ht, Or.inl rfl⟩
      | handled ht hn hq => exact ⟨_, turn ht, Or.inl rfl⟩
      | replayed ht hn hd hq ht' =>
        refine ⟨_, turn ht, Or.inr ⟨_, _, _, hq, ?_⟩⟩
        rcases ht'.queue with ⟨_, h⟩ | ⟨_, h⟩
        · exact Or.inl h
        · exact Or.inr ⟨_, h⟩
    · rcases C61_process_throw hM hP hk hrun (opOkG_event hP hop) h with
        ⟨k, _, he⟩ | ⟨_, _, os, pl', ht, _⟩
      · cases he with
        | main ht => exact ⟨_, Or.inl rfl, Or.inl (Lift.queue.turnThrow ht)⟩
        | handler ht hn hh ha hc => exact ⟨_, turn ht, Or.inl rfl⟩
        | replay ht hn hd hq ht' =>
          exact ⟨_, turn ht, Or.inr ⟨_, _, _, hq, Or.inl (Lift.queue.turnThrow ht')⟩⟩
      · exact ⟨_, turn ht, Or.inl rfl⟩
  | setDependency d' =>
    have : ∀ {R : Res (SM P W) Unit}, R = setDependencyG M d' s →
        (R = .ok () s' ∨ ∃ x, R = .throw x s') → s'.queue = s.queue := by
      rintro R rfl h
      unfold setDependencyG at h
      split at h <;> rcases h with h | ⟨_, h⟩ <;> cases h <;> rfl
    exact this rfl h

/-! ## C63: defined behaviour -/

theorem RunToG.solid (hM : M.Regular) (hP : M.PlainInternals) (hk : sem.KeepsNone)
    (hS : Safe M sem) (h : RunToG M sem d ops s) : Solid M s :=
  RunToG.inv hM hP hk (I := fun _ => Solid M)
    (fun _ _ h => Reach.solid hM hS ⟨d, [], .init h⟩)
    (fun _ => Preserves.solid hM hS.scopes)
    (fun _ ev s p _ hs => callHandler_easy _ (fun _ _ _ h =>
      ⟨h.slots.of_eq rfl rfl rfl rfl rfl, h.written, h.regions⟩) ev s p hs)
    (fun _ _ _ _ h => h)
    (fun _ s d T hs hT => ⟨⟨basic_fill hM hs.slots.basic hT, hs.slots.cur, hs.slots.hist⟩,
      hs.written, hs.regions⟩)
    (fun _ s w hs => ⟨hs.slots.of_eq rfl rfl rfl rfl rfl, hs.written, hs.regions⟩)
    h

/-- C63 for safe machines whose internal rows are plain: the constructor returns, and after any
history no call runs into undefined behaviour. -/
theorem C63_partial (hM : M.Regular) (hP : M.PlainInternals) (hk : sem.KeepsNone)
    (hS : Safe M sem) :
    (∀ d w, ∃ s : SM P W, constructG M d w = .ok s) ∧
    ∀ d ops (s : SM P W), RunToG M sem d ops s →
      (∀ fuel op, OpOkG M op → (stepG M sem fuel op s).Defined) ∧
      (∀ st, (isState M st s).Defined) ∧ (∀ p, (parentIs M p s).Defined) ∧
      (∀ r p st, (isRegion M r p st s).Defined) ∧ (status M s).Defined := by
  refine ⟨?_, ?_⟩
  · intro d w
    obtain ⟨s, hs⟩ := (C05_partial hM hS).1 d w
    exact ⟨s, by rw [constructG_eq hM hP]; exact hs⟩
  intro d ops s hr
  have hs := hr.solid hM hP hk hS
  refine ⟨?_, hs.observers hM⟩
  intro fuel op hop
  cases op with
  | process ev p =>
    exact ((Preserves.safe hM hS).processEventG hk fuel ev p s (fun s p hs =>
      (callHandler_defined hM hS (opOkG_event hP hop) p hs).sat (callHandler_easy _ (fun _ _ _ h =>
        ⟨h.slots.of_eq rfl rfl rfl rfl rfl, h.written, h.regions⟩) ev s p hs)) hs).defined
  | setDependency d' =>
    show (setDependencyG M d' s).Defined
    unfold setDependencyG
    rw [Machine.fillG_eq hM hP]
    obtain ⟨T, hT⟩ := (Machine.C06_fill hM d' s.table).1
      ((Machine.scopesReal_iff hM).2 ⟨hS.scopes.src, hS.scopes.comp⟩)
    rw [hT]; exact Res.defined_ok

end

/-! ## Examples and counterexamples -/

namespace Ex

section
variable {P W : Type} {M : Machine} {sm : Sem P W} {fuel : Nat} {d : Dep} {w : W}
  {ops : List (OpG P)}

theorem runOpsG_runToG : ∀ {pre : List (OpG P)} {s s' : SM P W}, RunToG M sm d pre s →
    runOpsG M sm fuel ops s = some s' → RunToG M sm d (pre ++ ops) s' := by
  induction ops with
  | nil => intro pre s s' h1 h2; cases h2; simpa using h1
  | cons op ops ih =>
    intro pre s s' h1 h2
    have go : OpOkG M op → (match stepG M sm fuel op s with
        | .ok _ s' => runOpsG M sm fuel ops s'
        | .throw _ s' => runOpsG M sm fuel ops s'
        | _ => none) = some s' → RunToG M sm d (pre ++ op :: ops) s' := by
      intro hop h2
      split at h2
      · rename_i b s1 h3
        simpa using ih (.ok h1 hop h3) h2
      · rename_i x s1 h3
        simpa using ih (.throw h1 hop h3) h2
      · cases h2
    cases op with
    | process e p =>
      unfold runOpsG at h2
      simp only at h2
      split at h2
      · rename_i he; exact go he h2
      · cases h2
    | setDependency d' =>
      unfold runOpsG at h2
      exact go trivial h2

theorem exists_runG {f : SM P W → Bool} (h : (runG M sm fuel d w ops).any f = true) :
    ∃ s, RunToG M sm d ops s ∧ f s = true := by
  unfold runG at h
  split at h
  · rename_i s0 h0
    cases hr : runOpsG M sm fuel ops s0 with
    | none => rw [hr] at h; cases h
    | some s =>
      rw [hr] at h
      exact ⟨s, by simpa using runOpsG_runToG (.init h0) hr, h⟩
  · cases h

end

theorem keepsNone (on : Nat → Bool) (bad bg : List Nat) : (sem on bad bg).KeepsNone := by
  constructor
  · intro g args p w b p' w' _ h
    simp only [sem] at h
    split at h
    · cases h
    · cases h; rfl
  · intro a args p w p' w' _ h
    simp only [sem] at h
    split at h
    · cases h
    · cases h; rfl

/-- Evaluates `PlainInternals` for a listed machine. -/
def plainB (M : Machine) (n : Nat) : Bool :=
  (List.range n).all fun s =>
    (M.isComposite s || ((M.decl s).itable.getD []).isEmpty) &&
    decide ((M.decl s).itable.getD []).Nodup &&
    (((M.decl s).itable.getD []).isEmpty || (M.rows s).all fun r =>
      decide ((Machine.sourceLoc s r.source).1 = s ∧ (Machine.sourceLoc s r.target).1 = s))

theorem plain_of_check {ds : List Decl} {ranks : List Nat}
    (h : plainB (Machine.ofList ds ranks) ds.length = true) :
    (Machine.ofList ds ranks).PlainInternals := by
  have key : ∀ s, ((Machine.ofList ds ranks).decl s).itable.getD [] = [] ∨
      s ∈ List.range ds.length := by
    intro s
    by_cases hs : s < ds.length
    · exact Or.inr (List.mem_range.2 hs)
    · left
      show ((ds.getD s {}).itable.getD []) = []
      rw [List.getD_eq_getElem?_getD, List.getElem?_eq_none (Nat.le_of_not_lt hs)]; rfl
  unfold plainB at h
  have h := List.all_eq_true.1 h
  refine ⟨?_, ?_, ?_⟩
  · intro s _ hc
    rcases key s with hk | hk
    · exact hk
    · have := h s hk
      simp only [Bool.and_eq_true, hc, Bool.false_or, List.isEmpty_iff] at this
      exact this.1.1
  · intro s
    rcases key s with hk | hk
    · rw [hk]; exact List.nodup_nil
    · have := h s hk
      simp only [Bool.and_eq_true, decide_eq_true_eq] at this
      exact this.1.2
  · intro s hne r hr
    rcases key s with hk | hk
    · exact absurd hk hne
    · have := h s hk
      simp only [Bool.and_eq_true, Bool.or_eq_true, List.isEmpty_iff] at this
      have := List.all_eq_true.1 (this.2.resolve_left hne) r hr
      exact of_decide_eq_true this

/-- A composite (3) with an internal row, guards, history, an anonymous row and a handler; nothing
is deferred. -/
def bundled : Machine := Machine.ofList
  [ { table := some
        [ row (ini 1) (ev 0) none (some 1) (.st 3),
          row (.st 1) (ev 3) (some 100) (some 2) (.st 2),
          row (.st 3) (ev 1) none (some 3) (.st 1),
          row (.st 1) (ev 4) none none (.ps true (.history 3)),
          row (.ps false (.exit 3 5)) (ev 3) none none (.st 2),
          row (.st 2) .none (some 101) (some 4) (.st 1) ]
      handler := some 50 },
    { }, { onEntry := some 20, onExit := some 21 },
    { table := some
        [ row (ini 4) (ev 2) (some 102) (some 6) (.st 5),
          row (.st 5) (ev 2) none (some 7) (.st 4) ]
      itable := some [⟨ev 6, none, some 8⟩] },
    { }, { } ] [1]

theorem bundled_regular : bundled.Regular := Machine.regular_ofList (by decide +kernel)
theorem bundled_scoped : bundled.Scoped := Machine.scoped_of_check (by decide +kernel)
theorem bundled_plain : bundled.PlainInternals := plain_of_check (by decide +kernel)
theorem bundled_safe (on : Nat → Bool) (bad bg : List Nat) : Safe bundled (sem on bad bg) :=
  safe_of_check bundled_scoped (by decide +kernel)

/-- State 1 defers events 1 and 2; state 2 handles both and may reject event 3. -/
def waiting : Machine := Machine.ofList
  [ { table := some
        [ row (ini 1) (ev 0) none (some 1) (.st 2),
          row (.st 2) (ev 2) none (some 2) (.st 2),
          row (.st 2) (ev 1) none (some 3) (.st 3),
          row (.st 2) (ev 3) (some 100) (some 4) (.st 1) ] },
    { defer := some [ev 1, ev 2] }, { }, { } ] [1]

theorem waiting_regular : waiting.Regular := Machine.regular_ofList (by decide +kernel)
theorem waiting_scoped : waiting.Scoped := Machine.scoped_of_check (by decide +kernel)
theorem waiting_plain : waiting.PlainInternals := plain_of_check (by decide +kernel)
theorem waiting_safe (on : Nat → Bool) (bad bg : List Nat) : Safe waiting (sem on bad bg) :=
  safe_of_check waiting_scoped (by decide +kernel)

/-- State 2 has an internal row for event 0. -/
def innerG : Machine := Machine.ofList
  [ { table := some
        [ row (ini 1) (ev 0) none (some 1) (.st 2), row (.st 2) (ev 1) none (some 2) (.st 1) ] },
    { }, { itable := some [⟨ev 0, none, some 5⟩] } ] [1]

theorem innerG_regular : innerG.Regular := Machine.regular_ofList (by decide +kernel)
theorem innerG_scoped : innerG.Scoped := Machine.scoped_of_check (by decide +kernel)

/-- The root and composite 2 both have an internal row for event 5, and the root mentions the exit
point of 2 at state 3. -/
def shared : Machine := Machine.ofList
  [ { table := some
        [ row (ini 1) (ev 0) none none (.st 2), row (.ps false (.exit 2 3)) (ev 1) none none (.st 4) ]
      itable := some [⟨ev 5, none, some 1⟩] },
    { },
    { table := some [ row (ini 3) (ev 2) none none (.st 3) ]
      itable := some [⟨ev 5, none, some 2⟩] } ] [1]

theorem shared_regular : shared.Regular := Machine.regular_ofList (by decide +kernel)
theorem shared_scoped : shared.Scoped := Machine.scoped_of_check (by decide +kernel)

end Ex

/-- Two evaluations that disagree. -/
theorem Ex.disagree {M : Machine} {sm : Sem Nat (List Nat)} {fuel : Nat} {ops : List (OpG Nat)}
    {f : SM Nat (List Nat) → SM Nat (List Nat) → Bool}
    (h : (Ex.run M sm fuel 7 [] (ops.map OpG.op)).any
      (fun s => (runG M sm fuel 7 [] ops).any (f s)) = true) :
    ∃ s sG, Ex.run M sm fuel 7 [] (ops.map OpG.op) = some s ∧ runG M sm fuel 7 [] ops = some sG ∧
      f s sG = true := by
  cases h1 : Ex.run M sm fuel 7 [] (ops.map OpG.op) with
  | none => rw [h1] at h; cases h
  | some s =>
    rw [h1] at h
    cases h2 : runG M sm fuel 7 [] ops with
    | none => rw [h2] at h; cases h
    | some sG => rw [h2] at h; exact ⟨s, sG, rfl, rfl, h⟩

/-- C61 does not hold for machines that defer events: with the same calls, `waiting` ends in
different states. -/
theorem C61_refuted_deferral : ¬ ∀ (M : Machine), M.Regular → M.Scoped → M.PlainInternals →
    ∀ (sem : Sem Nat (List Nat)), sem.KeepsNone →
    ∀ (fuel : Nat) (d : Dep) (w : List Nat) (ops : List (OpG Nat)) (s sG : SM Nat (List Nat)),
    Ex.run M sem fuel d w (ops.map OpG.op) = some s → runG M sem fuel d w ops = some sG →
    sG.cur = s.cur := by
  intro hall
  obtain ⟨s, sG, h1, h2, h3⟩ := Ex.disagree (M := Ex.waiting) (sm := Ex.sem fun _ => true) (fuel := 5)
    (ops := [.process (Ex.ev 1) 1, .process (Ex.ev 2) 2, .process (Ex.ev 0) 0])
    (f := fun s sG => s.cur != sG.cur) (by decide +kernel)
  have := hall _ Ex.waiting_regular Ex.waiting_scoped Ex.waiting_plain _ (Ex.keepsNone _ [] []) _ _ _
    _ _ _ h1 h2
  rw [this] at h3
  simp at h3

/-- C61 does not hold for machines whose simple states have internal rows: the amalgamated header
ignores them. -/
theorem C61_refuted_internal : ¬ ∀ (M : Machine), M.Regular → M.Scoped → M.deferring = false →
    ∀ (sem : Sem Nat (List Nat)), sem.KeepsNone →
    ∀ (fuel : Nat) (d : Dep) (w : List Nat) (ops : List (OpG Nat)) (s sG : SM Nat (List Nat)),
    Ex.run M sem fuel d w (ops.map OpG.op) = some s → runG M sem fuel d w ops = some sG →
    sG.world = s.world := by
  intro hall
  obtain ⟨s, sG, h1, h2, h3⟩ := Ex.disagree (M := Ex.innerG) (sm := Ex.sem fun _ => true) (fuel := 5)
    (ops := [.process (Ex.ev 0) 1, .process (Ex.ev 0) 2])
    (f := fun s sG => s.world == [1, 5] && sG.world == [1]) (by decide +kernel)
  have := hall _ Ex.innerG_regular Ex.innerG_scoped (by decide +kernel) _ (Ex.keepsNone _ [] []) _ _ _
    _ _ _ h1 h2
  simp only [Bool.and_eq_true, beq_iff_eq] at h3
  rw [h3.1, h3.2] at this
  cases this

/-- C61 does not hold for machines that have no internal rows in simple states but mention exit
points, either: the order of the internal rows differs, and with it the action that runs. -/
theorem C61_refuted_order : ¬ ∀ (M : Machine), M.Regular → M.Scoped → M.deferring = false →
    (∀ s, M.isComposite s = false → (M.decl s).itable.getD [] = []) →
    ∀ (sem : Sem Nat (List Nat)), sem.KeepsNone →
    ∀ (fuel : Nat) (d : Dep) (w : List Nat) (ops : List (OpG Nat)) (s sG : SM Nat (List Nat)),
    Ex.run M sem fuel d w (ops.map OpG.op) = some s → runG M sem fuel d w ops = some sG →
    sG.world = s.world := by
  intro hall
  obtain ⟨s, sG, h1, h2, h3⟩ := Ex.disagree (M := Ex.shared) (sm := Ex.sem fun _ => true) (fuel := 5)
    (ops := [.process (Ex.ev 0) 1, .process (Ex.ev 5) 2])
    (f := fun s sG => s.world == [2] && sG.world == [1]) (by decide +kernel)
  have := hall _ Ex.shared_regular Ex.shared_scoped (by decide +kernel) (fun s hs => by
    match s with
    | 0 => cases hs
    | 1 => rfl
    | 2 => cases hs
    | _ + 3 => rfl) _ (Ex.keepsNone _ [] []) _ _ _ _ _ _ h1 h2
  simp only [Bool.and_eq_true, beq_iff_eq] at h3
  rw [h3.1, h3.2] at this
  cases this

/-- C61_partial and C61_process apply: `bundled` goes through its composite, an internal row, an
anonymous row, history and the handler. -/
example : (Ex.bundled.Regular ∧ Ex.bundled.PlainInternals ∧ Ex.bundled.deferring = false) ∧ ∃ s, RunToG Ex.bundled (Ex.sem fun _ => true) 7
    [.process (Ex.ev 0) 1, .process (Ex.ev 6) 2, .process (Ex.ev 2) 3, .process (Ex.ev 3) 4,
      .process (Ex.ev 4) 5, .process (Ex.ev 4) 6] s ∧
    s.world = [1, 8, 102, 6, 20, 101, 21, 4, 50] := by
  refine ⟨⟨Ex.bundled_regular, Ex.bundled_plain, by decide +kernel⟩, ?_⟩
  obtain ⟨s, h1, h2⟩ := Ex.exists_runG (M := Ex.bundled) (sm := Ex.sem fun _ => true) (fuel := 5)
    (d := 7) (w := []) (ops := [.process (Ex.ev 0) 1, .process (Ex.ev 6) 2, .process (Ex.ev 2) 3,
      .process (Ex.ev 3) 4, .process (Ex.ev 4) 5, .process (Ex.ev 4) 6])
    (f := fun s => s.world == [1, 8, 102, 6, 20, 101, 21, 4, 50]) (by decide +kernel)
  exact ⟨s, h1, beq_iff_eq.1 h2⟩

/-- C62 does not hold: events 1 and 2 are deferred one after the other in a state that is not left,
no callback runs, and afterwards event 2 is in front of event 1. -/
theorem C62_refuted_order : ¬ ∀ (M : Machine), M.Regular → M.Scoped → M.PlainInternals →
    (∀ t ∈ M.extRows ++ M.intRows, t.action.isSome = true) →
    ∀ (sem : Sem Nat (List Nat)), sem.KeepsNone →
    ∀ (d : Dep) (ops : List (OpG Nat)) (s s' : SM Nat (List Nat)) (fuel : Nat) (ev : EventTy)
      (pl : Nat),
    RunToG M sem d ops s → ev ∈ M.events → processEventG M sem fuel ev pl s = .ok () s' →
    s'.trace = s.trace → s'.queue = s.queue ∨ s'.queue = s.queue ++ [(ev, pl)] := by
  intro hall
  obtain ⟨s, h1, h2⟩ := Ex.exists_runG (M := Ex.waiting) (sm := Ex.sem fun _ => true) (fuel := 5)
    (d := 7) (w := []) (ops := [.process (Ex.ev 1) 1])
    (f := fun s => s.queue == [(Ex.ev 1, 1)] && s.trace.length == 0 &&
      match processEventG Ex.waiting (Ex.sem fun _ => true) 5 (Ex.ev 2) 2 s with
      | .ok _ s' => s'.queue == [(Ex.ev 2, 2), (Ex.ev 1, 1)] && s'.trace.length == 0
      | _ => false) (by decide +kernel)
  simp only [Bool.and_eq_true, beq_iff_eq, List.length_eq_zero_iff] at h2
  obtain ⟨⟨hq, ht⟩, h3⟩ := h2
  split at h3
  · rename_i u s' h4
    simp only [Bool.and_eq_true, beq_iff_eq, List.length_eq_zero_iff] at h3
    have := hall _ Ex.waiting_regular Ex.waiting_scoped Ex.waiting_plain (by decide +kernel) _
      (Ex.keepsNone _ [] []) 7 _ _ _ 5 _ _ h1 (by decide +kernel) h4 (by rw [ht, h3.2])
    rw [hq, h3.1] at this
    revert this
    decide
  · cases h3

/-- C62 does not hold: event 3 is only ever rejected and never deferred, yet processing it changes
the state, because a waiting event is replayed. -/
theorem C62_refuted_effect : ¬ ∀ (M : Machine), M.Regular → M.Scoped → M.PlainInternals →
    ∀ (sem : Sem Nat (List Nat)), sem.KeepsNone →
    ∀ (d : Dep) (ops : List (OpG Nat)) (s s' : SM Nat (List Nat)) (fuel : Nat) (ev : EventTy)
      (pl : Nat),
    RunToG M sem d ops s → ev ∈ M.events →
    (∀ t ∈ M.extRows ++ M.intRows, t.event = ev → ∃ g, t.guard = some g ∧
      ∀ args p w, ∃ p' w', sem.guard g args p w = .ok false p' w') →
    (∀ n, ev ∉ (M.decl n).defer.getD []) →
    processEventG M sem fuel ev pl s = .ok () s' → s'.cur = s.cur := by
  intro hall
  obtain ⟨s, h1, h2⟩ := Ex.exists_runG (M := Ex.waiting) (sm := Ex.sem fun _ => false) (fuel := 5)
    (d := 7) (w := []) (ops := [.process (Ex.ev 1) 1, .process (Ex.ev 2) 2, .process (Ex.ev 0) 0])
    (f := fun s =>
      match processEventG Ex.waiting (Ex.sem fun _ => false) 5 (Ex.ev 3) 3 s with
      | .ok _ s' => s'.cur != s.cur
      | _ => false) (by decide +kernel)
  split at h2
  · rename_i u s' h4
    have := hall _ Ex.waiting_regular Ex.waiting_scoped Ex.waiting_plain _
      (Ex.keepsNone _ [] []) 7 _ _ _ 5 _ _ h1 (by decide +kernel) ?_ ?_ h4
    · rw [this] at h2; simp at h2
    · intro t ht he
      have hg : ∀ t ∈ Ex.waiting.extRows ++ Ex.waiting.intRows, t.event = Ex.ev 3 →
          t.guard.isSome = true := by decide +kernel
      obtain ⟨g, hg⟩ := Option.isSome_iff_exists.1 (hg t ht he)
      exact ⟨g, hg, fun args p w => ⟨p, w ++ [g], by simp [Ex.sem]⟩⟩
    · intro n
      match n with
      | 0 => decide
      | 1 => decide
      | 2 => decide
      | 3 => decide
      | _ + 4 => exact List.not_mem_nil
  · cases h2

/-- C62_partial and C63_partial apply to `waiting` with events in the queue. -/
example : Ex.waiting.Regular ∧ Ex.waiting.PlainInternals ∧ (∀ on, Safe Ex.waiting (Ex.sem on)) ∧
    ∃ s, RunToG Ex.waiting (Ex.sem fun _ => true) 7 [.process (Ex.ev 1) 1, .process (Ex.ev 2) 2] s ∧
      s.queue = [(Ex.ev 2, 2), (Ex.ev 1, 1)] := by
  refine ⟨Ex.waiting_regular, Ex.waiting_plain, fun on => Ex.waiting_safe on [] [], ?_⟩
  obtain ⟨s, h1, h2⟩ := Ex.exists_runG (M := Ex.waiting) (sm := Ex.sem fun _ => true) (fuel := 5)
    (d := 7) (w := []) (ops := [.process (Ex.ev 1) 1, .process (Ex.ev 2) 2])
    (f := fun s => s.queue == [(Ex.ev 2, 2), (Ex.ev 1, 1)]) (by decide +kernel)
  exact ⟨s, h1, beq_iff_eq.1 h2⟩

/-- C63 does not hold for all machines: after entering composite 2 of `wide`, which has two
regions, `process_event` reads a slot that was never written. -/
theorem C63_refuted : ¬ ∀ (M : Machine), M.Regular → M.Scoped → M.PlainInternals →
    ∀ (sem : Sem Nat (List Nat)), sem.KeepsNone → Harmless sem →
    ∀ (d : Dep) (ops : List (OpG Nat)) (s : SM Nat (List Nat)) (fuel : Nat) (op : OpG Nat),
    RunToG M sem d ops s → OpOkG M op → (stepG M sem fuel op s).Defined := by
  intro hall
  obtain ⟨s, h1, h2⟩ := Ex.exists_runG (M := Ex.wide) (sm := Ex.sem fun _ => true) (fuel := 5)
    (d := 7) (w := []) (ops := [.process (Ex.ev 0) 1])
    (f := fun s =>
      match stepG Ex.wide (Ex.sem fun _ => true) 5 (.process (Ex.ev 2) 3) s with
      | .ub _ => true
      | _ => false) (by decide +kernel)
  split at h2
  · rename_i u h3
    exact hall _ Ex.wide_regular Ex.wide_scoped (Ex.plain_of_check (by decide +kernel)) _
      (Ex.keepsNone _ [] []) (Ex.harmless _) 7 _ s 5 (.process (Ex.ev 2) 3) h1
      (show Ex.ev 2 ∈ Ex.wide.eventIdsG by decide +kernel) u h3
  · cases h2

end Hsm
