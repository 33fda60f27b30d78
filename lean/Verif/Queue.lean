import Verif.Runtime

/-!
# The queue of deferred events

Models `variant_queue.h`.  The callables given to `visit` are arbitrary terminating programs
that may use the same queue (`sm` does so: handling a deferred event can defer again), throw,
and catch.
-/

namespace Hsm

/-- What is observable at a queue (ghost). (variant_queue.h:39-62) -/
inductive QEv (P : Type)
  /-- `push` was called with an object of type `T` -/
  | pushed (T : EventTy) (p : P)
  /-- `visit` called its callable -/
  | handed (T : EventTy) (p : P)
  /-- `visit` threw since the queue was empty -/
  | refused
  /-- `size` returned `n` -/
  | size (n : Nat)
  /-- `empty` returned `b` -/
  | empty (b : Bool)
deriving DecidableEq, Repr

/-- `variant_queue` (variant_queue.h:21-25).  `std::variant` is modelled by the index of the
alternative and the value, `std::queue` by a list whose head is the front.  `trace` is ghost. -/
structure VQueue (P : Type) where
  items : List (Nat × P)
  trace : List (QEv P)

namespace VQueue
variable {P : Type} (evs : List EventTy)

/-- The constructor (variant_queue.h:28-29). -/
def make : VQueue P := ⟨[], []⟩

/-- `empty` (variant_queue.h:31-33). -/
def isEmpty (q : VQueue P) : Bool × VQueue P :=
  let b := q.items.isEmpty
  (b, { q with trace := q.trace ++ [.empty b] })

/-- `size` (variant_queue.h:35-37). -/
def length (q : VQueue P) : Nat × VQueue P :=
  let n := q.items.length
  (n, { q with trace := q.trace ++ [.size n] })

/-- `push` (variant_queue.h:39-47).  Both overloads copy the event into a variant; the
converting constructor of `std::variant` picks the alternative of the event's type.  That
this is one of `evs` is checked by the compiler. -/
def push (T : EventTy) (p : P) (q : VQueue P) : VQueue P :=
  { items := q.items ++ [(evs.idxOf T, p)], trace := q.trace ++ [.pushed T p] }

/-- `visit` (variant_queue.h:49-62).  The callable is given the type and value of the front
element and the queue without it; it returns or throws. -/
def visit (f : EventTy → P → VQueue P → Option Exn × VQueue P) (q : VQueue P) :
    Option Exn × VQueue P :=
  match q.items with
  | [] => (some .runtimeError, { q with trace := q.trace ++ [.refused] })
  | (i, p) :: rest =>
    let T := (evs[i]?).getD .none
    f T p { items := rest, trace := q.trace ++ [.handed T p] }

end VQueue

/-- Terminating programs that use one queue for events of types `evs`.  The continuation of
`visit` gets the exception that left `visit`, if any, and may go on or throw.
(the uses of variant_queue.h:31-62) -/
inductive QProg (evs : List EventTy) (P : Type)
  | done
  | throw (x : Exn)
  | push (T : EventTy) (h : T ∈ evs) (p : P) (k : QProg evs P)
  | size (k : Nat → QProg evs P)
  | empty (k : Bool → QProg evs P)
  | visit (f : EventTy → P → QProg evs P) (k : Option Exn → QProg evs P)

namespace QProg
variable {evs : List EventTy} {P : Type}

/-- Running a program on the model of the queue. (variant_queue.h:31-62) -/
def run : QProg evs P → VQueue P → Option Exn × VQueue P
  | done, q => (none, q)
  | throw x, q => (some x, q)
  | push T _ p k, q => run k (q.push evs T p)
  | size k, q => let r := q.length; run (k r.1) r.2
  | empty k, q => let r := q.isEmpty; run (k r.1) r.2
  | visit f k, q => let r := q.visit evs (fun T p => run (f T p)); run (k r.1) r.2

end QProg

/-! ## Specification -/

/-- What was pushed, in order. -/
def QEv.pushes {P : Type} : List (QEv P) → List (EventTy × P)
  | [] => []
  | .pushed T p :: tr => (T, p) :: QEv.pushes tr
  | _ :: tr => QEv.pushes tr

/-- What was handed to callables, in order. -/
def QEv.hands {P : Type} : List (QEv P) → List (EventTy × P)
  | [] => []
  | .handed T p :: tr => (T, p) :: QEv.hands tr
  | _ :: tr => QEv.hands tr

/-- First in, first out, said without a queue: the `k`-th element handed out is the `k`-th
pushed; `visit` refuses, and `empty` says yes, if as many were handed out as pushed; `size`
is the difference. -/
def QEv.Fifo {P : Type} (tr : List (QEv P)) : Prop :=
  ∀ pre e post, tr = pre ++ e :: post →
    match e with
    | .pushed _ _ => True
    | .handed T p => (QEv.pushes pre)[(QEv.hands pre).length]? = some (T, p)
    | .refused => (QEv.pushes pre).length = (QEv.hands pre).length
    | .size n => n + (QEv.hands pre).length = (QEv.pushes pre).length
    | .empty b => b = true ↔ (QEv.pushes pre).length = (QEv.hands pre).length

/-! ## Proofs -/

section
variable {evs : List EventTy} {P : Type}

theorem QEv.pushes_append (a b : List (QEv P)) : QEv.pushes (a ++ b) = QEv.pushes a ++ QEv.pushes b := by
  induction a with
  | nil => rfl
  | cons e a ih => cases e <;> simp [QEv.pushes, ih]

theorem QEv.hands_append (a b : List (QEv P)) : QEv.hands (a ++ b) = QEv.hands a ++ QEv.hands b := by
  induction a with
  | nil => rfl
  | cons e a ih => cases e <;> simp [QEv.hands, ih]

/-- The content of the queue: types and values. -/
def VQueue.content (evs : List EventTy) (q : VQueue P) : List (EventTy × P) :=
  q.items.map fun x => ((evs[x.1]?).getD .none, x.2)

/-- The trace is first-in-first-out, and the content is what was pushed and not handed out. -/
structure VQueue.Inv (evs : List EventTy) (q : VQueue P) : Prop where
  fifo : QEv.Fifo q.trace
  content : QEv.pushes q.trace = QEv.hands q.trace ++ q.content evs

theorem QEv.Fifo.snoc {tr : List (QEv P)} (h : QEv.Fifo tr) {e : QEv P}
    (he : match e with
      | .pushed _ _ => True
      | .handed T p => (QEv.pushes tr)[(QEv.hands tr).length]? = some (T, p)
      | .refused => (QEv.pushes tr).length = (QEv.hands tr).length
      | .size n => n + (QEv.hands tr).length = (QEv.pushes tr).length
      | .empty b => b = true ↔ (QEv.pushes tr).length = (QEv.hands tr).length) :
    QEv.Fifo (tr ++ [e]) := by
  intro pre e' post heq
  rcases List.eq_nil_or_concat post with rfl | ⟨post', x, rfl⟩
  · obtain ⟨rfl, h2⟩ := List.append_inj' heq (by simp)
    cases h2
    exact he
  · rw [List.concat_eq_append, ← List.cons_append, ← List.append_assoc] at heq
    obtain ⟨h1, _⟩ := List.append_inj' heq (by simp)
    exact h pre e' post' h1

theorem VQueue.Inv.push {q : VQueue P} (h : q.Inv evs) {T : EventTy} (hT : T ∈ evs) (p : P) :
    (q.push evs T p).Inv evs := by
  refine ⟨h.fifo.snoc trivial, ?_⟩
  have hi : evs[evs.idxOf T]? = some T := by
    rw [List.getElem?_eq_getElem (List.idxOf_lt_length_iff.2 hT), List.getElem_idxOf]
  simp [VQueue.push, VQueue.content, QEv.pushes_append, QEv.hands_append, QEv.pushes, QEv.hands, h.content, hi]

theorem VQueue.Inv.run (pr : QProg evs P) : ∀ q : VQueue P, q.Inv evs → (pr.run q).2.Inv evs := by
  induction pr with
  | done => exact fun q h => h
  | throw x => exact fun q h => h
  | push T hT p k ih => exact fun q h => ih _ (h.push hT p)
  | size k ih =>
    intro q h
    refine ih _ _ ⟨h.fifo.snoc ?_, ?_⟩
    · simp [h.content, VQueue.content]; omega
    · simpa [VQueue.length, QEv.pushes_append, QEv.hands_append, QEv.pushes, QEv.hands, VQueue.content] using h.content
  | empty k ih =>
    intro q h
    refine ih _ _ ⟨h.fifo.snoc ?_, ?_⟩
    · simp [h.content, VQueue.content]
    · simpa [VQueue.isEmpty, QEv.pushes_append, QEv.hands_append, QEv.pushes, QEv.hands, VQueue.content] using h.content
  | visit f k ihf ihk =>
    intro q h
    refine ihk _ _ ?_
    unfold VQueue.visit
    split
    · rename_i hq
      refine ⟨h.fifo.snoc ?_, ?_⟩
      · simp [h.content, VQueue.content, hq]
      · simpa [QEv.pushes_append, QEv.hands_append, QEv.pushes, QEv.hands, VQueue.content] using h.content
    · rename_i i p rest hq
      refine ihf _ _ _ ⟨h.fifo.snoc ?_, ?_⟩
      · simp [h.content, VQueue.content, hq]
      · simp [QEv.pushes_append, QEv.hands_append, QEv.pushes, QEv.hands, h.content, VQueue.content, hq]

/-- C35: whatever a program does with a queue (pushing and visiting also from within
callables, throwing, catching), what is observed is first-in-first-out, and at the end the
queue has what was pushed and not handed out. -/
theorem C35_fifo (pr : QProg evs P) :
    QEv.Fifo (pr.run VQueue.make).2.trace ∧
    (pr.run VQueue.make).2.content evs =
      (QEv.pushes (pr.run VQueue.make).2.trace).drop (QEv.hands (pr.run VQueue.make).2.trace).length := by
  have h : (pr.run VQueue.make).2.Inv evs := by
    refine VQueue.Inv.run pr _ ⟨?_, rfl⟩
    intro pre e post heq
    simp [VQueue.make] at heq
  refine ⟨h.fifo, ?_⟩
  rw [h.content]
  simp

/-- C35: `visit` on an empty queue throws `std::runtime_error`, calls nothing and changes
nothing; on any other queue it calls the callable once, with the oldest element and the queue
without it, and returns or throws as the callable does. -/
theorem C35_visit (q : VQueue P) (f : EventTy → P → VQueue P → Option Exn × VQueue P) :
    (q.content evs = [] → (q.visit evs f).1 = some .runtimeError ∧
      (q.visit evs f).2.content evs = [] ∧ QEv.hands (q.visit evs f).2.trace = QEv.hands q.trace) ∧
    (∀ T p rest, q.content evs = (T, p) :: rest → ∃ q', q'.content evs = rest ∧
      q'.trace = q.trace ++ [.handed T p] ∧ q.visit evs f = f T p q') := by
  unfold VQueue.visit VQueue.content
  constructor
  · intro h
    rw [List.map_eq_nil_iff] at h
    rw [h]
    simp [h, QEv.hands_append, QEv.hands]
  · intro T p rest h
    match hq : q.items with
    | [] => rw [hq] at h; cases h
    | x :: xs =>
      rw [hq] at h
      simp only [List.map_cons, List.cons.injEq, Prod.mk.injEq] at h
      obtain ⟨⟨rfl, rfl⟩, rfl⟩ := h
      exact ⟨_, rfl, rfl, rfl⟩

end

/-! ## A program

Push 1 and 2; visit: the callable pushes what it got again and throws; visit, and visit from within the
callable; visit the
empty queue: its exception is passed on. -/

def QProg.sample : QProg [EventTy.user 0, EventTy.user 1] Nat :=
  .push (.user 1) (by simp) 1 <| .push (.user 0) (by simp) 2 <|
  .visit (fun T p => if h : T ∈ [EventTy.user 0, EventTy.user 1] then .push T h (p + 10) (.throw (.user 3)) else .done) fun _ =>
  .size fun _ =>
  .visit (fun _ _ => .visit (fun _ _ => .done) fun _ => .empty fun _ => .done) fun _ =>
  .visit (fun _ _ => .done) fun x => match x with | some x => .throw x | none => .done

example : QProg.sample.run VQueue.make =
    (some .runtimeError, ⟨[],
      [.pushed (.user 1) 1, .pushed (.user 0) 2, .handed (.user 1) 1, .pushed (.user 1) 11, .size 2,
       .handed (.user 0) 2, .handed (.user 1) 11, .empty true, .refused]⟩) := by
  rfl

end Hsm
