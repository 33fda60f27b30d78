import Verif.ReentrantGen

/-!
# Moving machine objects (C81, C106)

`sm` (sm.h:28-44) declares no copy or move operations.  Copying does not compile, since
`dunique_ptr` cannot be copied (dunique_ptr.h:19-20).  Moving compiles and moves the members one
by one.
-/

namespace Hsm

/-! ## Model -/

section
variable {P W : Type}

/-- What is left of an object whose members were moved away (sm.h:37-44): numbers keep their
values (`m_currentCombinedState`, `m_currentRegions`; copying a slot that was never written is
taken to be harmless); the vectors of `m_initial_states` and
`m_history`, the deque of `m_defer_queue` and the deques of `m_dispatchTables` are empty.  The
standard leaves that open for deques; it is so in the usual implementations.  The pointers of
`m_unexpectedEventHandlerTables` are `H`.  Those of `m_statesMap` are null, see `Heap`.  The ghosts
go with the machine. -/
def SM.hollow (H : HTable) (s : SM P W) : SM P W :=
  { cur := s.cur, initial := s.initial.map fun _ => [], hist := s.hist.map fun _ => [],
    queue := [], regions := s.regions, table := fun _ _ => [], handlers := H,
    world := s.world, trace := [], log := [] }

/-- The implicit move constructor `sm(sm&&)`: the new object and what becomes of the old one.  The
move constructor of `dunique_ptr` leaves null pointers (dunique_ptr.h:21-25). -/
def SM.moveCtor (s : SM P W) : SM P W × SM P W :=
  ({ cur := s.cur, initial := s.initial, hist := s.hist, queue := s.queue, regions := s.regions,
     table := s.table, handlers := s.handlers, world := s.world, trace := s.trace, log := s.log },
   s.hollow fun _ _ => none)

/-- The implicit move assignment `t = std::move(s)` of different objects: the new `t` and the new
`s`.  The move assignment of `dunique_ptr` swaps (dunique_ptr.h:26-30), so `s` gets the handlers
of `t`. -/
def SM.moveAssign (t s : SM P W) : SM P W × SM P W :=
  ({ cur := s.cur, initial := s.initial, hist := s.hist, queue := s.queue, regions := s.regions,
     table := s.table, handlers := s.handlers, world := s.world, trace := s.trace, log := s.log },
   s.hollow t.handlers)

/-- A program's variables of type `sm`: `none` if there is no object, otherwise the object and
whether its `m_statesMap` holds the state objects.  All callbacks share one world. (sm.h:29, 37-44) -/
structure Heap (P W : Type) where
  obj : Nat → Option (SM P W × Bool)
  world : W

/-- What a program does with its variables. (sm.h:47, 88-173 and the implicit move operations of sm.h:29) -/
inductive HOp (C : Type)
  /-- `sm<S, D> h{d};` -/
  | create (h : Nat) (d : Dep)
  /-- `auto h = std::move(g);` -/
  | move (h g : Nat)
  /-- `h = std::move(g);` -/
  | assign (h g : Nat)
  /-- the end of the lifetime of `h` -/
  | destroy (h : Nat)
  /-- a call on `h` -/
  | call (h : Nat) (op : C)

/-- Why a program cannot go on. (sm.h:42-44, 88-173) -/
inductive Stuck
  /-- a variable is used that holds no object, or made where one is, or assigned to itself -/
  | lifetime
  /-- the machine cannot be constructed -/
  | build (e : BuildErr)
  | ub (u : UB)
  | timeout
deriving DecidableEq, Repr

/-- Set variable `h`. (sm.h:29) -/
def Heap.put (H : Heap P W) (h : Nat) (o : Option (SM P W × Bool)) : Heap P W :=
  { H with obj := fun k => if k = h then o else H.obj k }

variable (M : Machine) (sem : Sem P W)

/-- Guards and actions get the objects `m_statesMap` points to (dispatch_table.h:54-115), so if the pointers
are null they cannot be called.  Handlers have pointers of their own
(make_unexpected_event_handler_tables.h:20-48). -/
def Sem.blind (sem : Sem P W) : Sem P W :=
  { sem with guard := fun _ _ _ _ => .ub, action := fun _ _ _ _ => .ub }

/-- What a `DispatchTableEntry` with null pointers does: `**source` is evaluated if there is an action, even
if it runs nothing (dispatch_table.h:54-83).  The call stands for that, see `Sem.blind`. -/
def Exec.blind (x : Exec) : Exec := { x with action := x.action.map fun _ => [(.action, 0)] }

/-- A `NextState` (dispatch_table.h:155-162) whose row has null pointers. -/
def Entry.blind (e : Entry) : Entry := { e with tr := e.tr.map Exec.blind }

/-- A call on an object, whose `m_statesMap` holds the state objects or null pointers.  `set_dependency`
copies these pointers into the rows (fill_dispatch_table.h:97-98, 168-169); before it there are no rows in an
object with null pointers. (sm.h:88-173) -/
def stepOn (fuel : Nat) (op : Op P) (o : SM P W × Bool) : Res (SM P W) Bool :=
  if o.2 then step M sem fuel op o.1
  else step M sem.blind fuel op { o.1 with table := fun ev c => (o.1.table ev c).map Entry.blind }

/-- The same for the amalgamated header: `sm` has the same members (gen/hsm.h:2308-2315), and
`process_event` returns nothing (gen/hsm.h:2351-2407). -/
def stepOnG (fuel : Nat) (op : OpG P) (o : SM P W × Bool) : Res (SM P W) Bool :=
  (if o.2 then stepG M sem fuel op o.1
    else stepG M sem.blind fuel op { o.1 with table := fun ev c => (o.1.table ev c).map Entry.blind }).bind
    fun _ s => .ok true s

/-- A class `sm`: its constructor and its calls. (sm.h:47, 88-173) -/
structure Brand (C P W : Type) where
  make : Dep → W → Except BuildErr (SM P W)
  call : C → SM P W × Bool → Res (SM P W) Bool

/-- The class of the modular header. (sm.h:29) -/
def Brand.modular (fuel : Nat) : Brand (Op P) P W := ⟨construct M, stepOn M sem fuel⟩

/-- The class of the amalgamated header. (gen/hsm.h:2300) -/
def Brand.gen (fuel : Nat) : Brand (OpG P) P W := ⟨constructG M, stepOnG M sem fuel⟩

variable {C : Type} (B : Brand C P W)

/-- A call on the object `o` of variable `h`. (sm.h:88-173) -/
def Heap.call (H : Heap P W) (h : Nat) (o : SM P W × Bool) (op : C) :
    Except Stuck (Option Reply × Heap P W) :=
  match B.call op ({ o.1 with world := H.world }, o.2) with
  | .ok b s => .ok (some (.ret b), { H.put h (some (s, o.2)) with world := s.world })
  | .throw x s => .ok (some (.threw x), { H.put h (some (s, o.2)) with world := s.world })
  | .ub u => .error (.ub u)
  | .timeout => .error .timeout

/-- One step of a program. (sm.h:29, 47, 88-173) -/
def Heap.exec (H : Heap P W) : HOp C → Except Stuck (Option Reply × Heap P W)
  | .create h d =>
    match H.obj h with
    | some _ => .error .lifetime
    | none =>
      match B.make d H.world with
      | .ok s => .ok (none, H.put h (some (s, true)))
      | .error e => .error (.build e)
  | .move h g =>
    match H.obj h, H.obj g with
    | none, some o =>
      .ok (none, (H.put h (some (o.1.moveCtor.1, o.2))).put g (some (o.1.moveCtor.2, false)))
    | _, _ => .error .lifetime
  | .assign h g =>
    if h = g then .error .lifetime
    else match H.obj h, H.obj g with
      | some t, some o =>
        .ok (none, (H.put h (some ((t.1.moveAssign o.1).1, o.2))).put g
          (some ((t.1.moveAssign o.1).2, false)))
      | _, _ => .error .lifetime
  | .destroy h =>
    match H.obj h with
    | none => .error .lifetime
    | some _ => .ok (none, H.put h none)
  | .call h op =>
    match H.obj h with
    | none => .error .lifetime
    | some o => H.call B h o op

/-- A program, and what its calls returned or threw. (sm.h:29, 47, 88-173) -/
def Heap.run : List (HOp C) → Heap P W → Except Stuck (List Reply × Heap P W)
  | [], H => .ok ([], H)
  | op :: ops, H =>
    match H.exec B op with
    | .error e => .error e
    | .ok (r, H) =>
      match Heap.run ops H with
      | .error e => .error e
      | .ok (rs, H) => .ok (r.toList ++ rs, H)

/-- At first there are no objects. (sm.h:29) -/
def Heap.start (w : W) : Heap P W := ⟨fun _ => none, w⟩

/-! ## Specification -/

/-- What a variable stands for when machines do not move: the machine with this number, or
nothing any more. -/
inductive Holds
  | machine (n : Nat)
  | gone
deriving DecidableEq, Repr

/-- Machines that never move, in the order of their creation, the variables standing for them, and
the world. -/
structure Fleet (P W : Type) where
  machines : List (SM P W)
  var : Nat → Option Holds
  world : W

def Fleet.start (w : W) : Fleet P W := ⟨[], fun _ => none, w⟩

/-- Variable `h` stands for `x`. -/
def Fleet.stand (F : Fleet P W) (h : Nat) (x : Option Holds) : Fleet P W :=
  { F with var := fun k => if k = h then x else F.var k }

/-- One step of a program.  Moving only passes on the right to use a machine; using what was
passed on, other than for destroying and assigning to it, is an error. -/
def Fleet.exec (F : Fleet P W) : HOp C → Except Stuck (Option Reply × Fleet P W)
  | .create h d =>
    match F.var h with
    | some _ => .error .lifetime
    | none =>
      match B.make d F.world with
      | .ok s =>
        .ok (none, { F.stand h (some (.machine F.machines.length)) with
          machines := F.machines ++ [s] })
      | .error e => .error (.build e)
  | .move h g =>
    match F.var h, F.var g with
    | none, some (.machine n) => .ok (none, (F.stand h (some (.machine n))).stand g (some .gone))
    | _, _ => .error .lifetime
  | .assign h g =>
    if h = g then .error .lifetime
    else match F.var h, F.var g with
      | some _, some (.machine n) =>
        .ok (none, (F.stand h (some (.machine n))).stand g (some .gone))
      | _, _ => .error .lifetime
  | .destroy h =>
    match F.var h with
    | none => .error .lifetime
    | some _ => .ok (none, F.stand h none)
  | .call h op =>
    match F.var h with
    | some (.machine n) =>
      match F.machines[n]? with
      | none => .error .lifetime
      | some s =>
        match B.call op ({ s with world := F.world }, true) with
        | .ok b s =>
          .ok (some (.ret b), { F with machines := F.machines.set n s, world := s.world })
        | .throw x s =>
          .ok (some (.threw x), { F with machines := F.machines.set n s, world := s.world })
        | .ub u => .error (.ub u)
        | .timeout => .error .timeout
    | _ => .error .lifetime

/-- A program on machines that never move. -/
def Fleet.run : List (HOp C) → Fleet P W → Except Stuck (List Reply × Fleet P W)
  | [], F => .ok ([], F)
  | op :: ops, F =>
    match F.exec B op with
    | .error e => .error e
    | .ok (r, F) =>
      match Fleet.run ops F with
      | .error e => .error e
      | .ok (rs, F) => .ok (r.toList ++ rs, F)

/-- The dependency the machine in variable `h` was constructed with and the calls it got so far,
in this or another variable; `none` if there is no machine in `h`. -/
def life : List (HOp C) → Nat → Option (Dep × List C)
  | [], _ => none
  | op :: before, k =>
    -- the program is given backwards
    match op with
    | .create h d => if k = h then some (d, []) else life before k
    | .move h g => if k = g then none else if k = h then life before g else life before k
    | .assign h g => if k = g then none else if k = h then life before g else life before k
    | .destroy h => if k = h then none else life before k
    | .call h op =>
      if k = h then (life before k).map fun x => (x.1, x.2 ++ [op]) else life before k

end
end Hsm
