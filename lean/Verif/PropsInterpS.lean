import Verif.InterpS
import Verif.PropsInterpGenR
import Verif.PropsSystemsGen

/-!
# The model and the interpreter for several machines (C119, C120)
-/

namespace Hsm

section
variable {ι P W : Type} {E : ι → List Dep → EventTy → Name → StTy → List Entry} {evs : ι → List EventTy}
  {ok : ι → Op P → Prop} {Ms : ι → Machine} {sem : SemS ι P W}

/-- The program `h` is a picture of `t`: every machine object is a picture of its configuration, and they are
making the same call, if any, an `ok` one. -/
structure Ensemble (Ms : ι → Machine) (E : ι → List Dep → EventTy → Name → StTy → List Entry)
    (evs : ι → List EventTy) (ok : ι → Op P → Prop) (h : Hub ι P W) (t : Scene ι P W) : Prop where
  user : h.user = t.user
  request : h.request = t.request
  fair : ∀ i op, h.request = some (i, op) → ok i op
  parts : ∀ i, Portrait (Ms i) (E i) (evs i) Eq (t.parts i) (h.parts i)

theorem Portrait.rebase {M : Machine} {E : List Dep → EventTy → Name → StTy → List Entry} {evs : List EventTy}
    {W W' V V' : Type} {U : W → W' → Prop} {U' : V → V' → Prop} {c : Conf P W'} {s : SM P W}
    (h : Portrait M E evs U c s) {v : V} {v' : V'} (hv : U' v v') :
    Portrait M E evs U' (c.rebase v') (s.rebase v) :=
  ⟨h.cur, h.slots, h.initial, h.histLen, h.hist, h.memory, h.queue, h.regions, h.bound, h.table, h.handlers, hv,
    h.trace⟩

theorem Ensemble.idle {h : Hub ι P W} {t : Scene ι P W} (H : Ensemble Ms E evs ok h t) :
    Ensemble Ms E evs ok { h with request := none } { t with request := none } :=
  ⟨H.user, rfl, fun _ _ e => (by cases e), H.parts⟩

theorem Ensemble.fetch {h : Hub ι P W} {t : Scene ι P W} (H : Ensemble Ms E evs ok h t) (i : ι) :
    Portrait (Ms i) (E i) (evs i) (Ensemble Ms E evs ok) (t.fetch i) (h.fetch i) :=
  (H.parts i).rebase H.idle

theorem kin_script {i : ι} {o : Op P} (ho : ok i o) {α : Type} : ∀ {pr : SProg ι P W α} {m : ι → SM P Unit}
    {m' : ι → Conf P Unit}, pr.Good True ok → (∀ j, Portrait (Ms j) (E j) (evs j) Eq (m' j) (m j)) →
    (pr.prog o m).Kin (Ensemble Ms E evs ok) (ok i) (pr.script o m')
  | .ret _ _ _, _, _, _, hm => ⟨rfl, rfl, rfl, rfl, fun _ _ e => (by cases e), hm⟩
  | .throw _ _, _, _, _, hm => ⟨rfl, rfl, rfl, fun _ _ e => (by cases e), hm⟩
  | .ub, _, _, _, _ => trivial
  | .call j op w k, _, _, hg, hm => by
    refine ⟨rfl, ho, ⟨rfl, rfl, ?_, hm⟩, fun r v v' hv => ?_⟩
    · intro i op e; cases e; exact hg.1
    · show (SProg.prog o (k r v.user) v.parts).Kin _ _ (SProg.script o (k r v'.user) v'.parts)
      rw [hv.user]
      exact kin_script ho (hg.2 r _) hv.parts

theorem SemS.Good.kin (hg : sem.Good True ok) {i : ι} {o : Op P} (ho : ok i o) :
    SemR.Kin (Ensemble Ms E evs ok) (ok i) (sem.at i o) (sem.on i o) where
  guard g a p h t H := by
    show (SProg.prog o _ _).Kin _ _ (SProg.script o _ _)
    rw [H.user]; exact kin_script ho (hg.guard _ _ _ _ _) H.parts
  action c a p h t H := by
    show (SProg.prog o _ _).Kin _ _ (SProg.script o _ _)
    rw [H.user]; exact kin_script ho (hg.action _ _ _ _ _) H.parts
  handler c e st d p h t H := by
    show (SProg.prog o _ _).Kin _ _ (SProg.script o _ _)
    rw [H.user]; exact kin_script ho (hg.handler _ _ _ _ _ _ _) H.parts
  alive st h t H := by
    show sem.alive i st h.user = sem.alive i st t.user
    rw [H.user]
  nonePayload := rfl

variable [DecidableEq ι]

theorem Ensemble.store {i : ι} {c : Conf P (Scene ι P W)} {s : SM P (Hub ι P W)}
    (h : Portrait (Ms i) (E i) (evs i) (Ensemble Ms E evs ok) c s) :
    Ensemble Ms E evs ok (s.world.store i s) (c.world.store i c) := by
  refine ⟨h.world.user, rfl, fun _ _ e => (by cases e), fun j => ?_⟩
  show Portrait _ _ _ Eq (if j = i then c.rebase () else c.world.parts j)
    (if j = i then s.rebase () else s.world.parts j)
  by_cases hj : j = i
  · subst hj
    rw [if_pos rfl, if_pos rfl]
    exact h.rebase rfl
  · rw [if_neg hj, if_neg hj]
    exact h.world.parts j

theorem Ensemble.home {i : ι} {α : Type} {V : α → α → Prop} {r : Res (SM P (Hub ι P W)) α}
    {q : Res (Conf P (Scene ι P W)) α}
    (h : AgreesOn (Ms i) (E i) (evs i) (Ensemble Ms E evs ok) V r q) :
    (r.home i).Rel V (Ensemble Ms E evs ok) (q.curtain i) := by
  cases r <;> cases q <;> first | exact h.elim | skip
  · exact ⟨h.1, Ensemble.store h.2⟩
  · exact ⟨h.1, Ensemble.store h.2⟩
  · exact h
  · trivial

/-- Calls made by callbacks do the same on both sides if calls do. -/
theorem Ensemble.echo {step : ι → Op P → Hub ι P W → Res (Hub ι P W) Bool}
    {exec : ι → Op P → Scene ι P W → Res (Scene ι P W) Bool}
    (ih : ∀ i op h t, ok i op → Ensemble Ms E evs ok h t →
      (step i op h).Rel Eq (Ensemble Ms E evs ok) (exec i op t)) (i : ι) :
    EchoOn (Ms i) (E i) (evs i) (Ensemble Ms E evs ok) (ok i) (nested step i) (aside exec i) := by
  intro o _ c s h
  unfold nested aside
  rw [← h.world.request]
  cases hq : s.world.request with
  | none => trivial
  | some x =>
    obtain ⟨j, op⟩ := x
    have := ih j op _ _ (h.world.fair j op hq) (Ensemble.store h)
    revert this
    dsimp only
    cases step j op (s.world.store i s) <;> cases exec j op (c.world.store i c) <;> intro H <;>
      first | exact H.elim | skip
    · exact ⟨H.1, H.2.fetch i⟩
    · exact ⟨H.1, H.2.fetch i⟩
    · exact H
    · trivial

/-- Whole histories do the same on both sides if calls do. -/
theorem Ensemble.inTurn {κ σ τ : Type} {f : κ → σ → Res σ Bool} {g : κ → τ → Res τ Bool} {R : σ → τ → Prop} :
    ∀ {xs : List κ} {s : σ} {t : τ}, (∀ x ∈ xs, ∀ s t, R s t → (f x s).Rel Eq R (g x t)) → R s t →
    match inTurn f xs s, inTurn g xs t with
    | some s, some t => R s t
    | none, none => True
    | _, _ => False := by
  intro xs
  induction xs with
  | nil => intro s t _ h; exact h
  | cons x xs ih =>
    intro s t hs h
    have hc := hs x List.mem_cons_self s t h
    have ih := fun {s t} => @ih s t fun y hy => hs y (List.mem_cons_of_mem _ hy)
    unfold Hsm.inTurn
    revert hc
    cases f x s <;> cases g x t <;> intro hc <;> first | exact hc.elim | skip
    · exact ih hc.2
    · exact ih hc.2
    · trivial
    · trivial

theorem Ensemble.exact {σ τ : Type} {R : σ → τ → Prop} {r : Res σ Bool} {q : Res τ Bool} (h : r.Rel Eq R q) :
    (∀ u, r = .ub u ↔ q = .ub u) ∧ (r = .timeout ↔ q = .timeout) := by
  cases r <;> cases q <;> first | exact h.elim | skip
  · exact ⟨fun _ => ⟨fun e => (by cases e), fun e => (by cases e)⟩, fun e => (by cases e), fun e => (by cases e)⟩
  · exact ⟨fun _ => ⟨fun e => (by cases e), fun e => (by cases e)⟩, fun e => (by cases e), fun e => (by cases e)⟩
  · cases h
    exact ⟨fun _ => ⟨fun e => (by cases e; rfl), fun e => (by cases e; rfl)⟩, fun e => (by cases e), fun e => (by cases e)⟩
  · exact ⟨fun _ => ⟨fun e => (by cases e), fun e => (by cases e)⟩, fun _ => rfl, fun _ => rfl⟩

/-! ## The modular header -/

/-- The program `h` of machines of the modular header is a picture of `t`. -/
abbrev DepictsS (Ms : ι → Machine) (h : Hub ι P W) (t : Scene ι P W) : Prop :=
  Ensemble Ms (fun i => (Ms i).entries) (fun i => (Ms i).events) (fun i => OpOk (Ms i)) h t

/-- C119, calls: one call on one machine of a program and on the configurations the program depicts, with all
calls that callbacks make meanwhile. -/
theorem C119_step (hM : ∀ i, (Ms i).Regular) (hS : ∀ i, (Ms i).ScopesReal)
    (hg : sem.Good True (fun i => OpOk (Ms i))) (fuel n : Nat) {i : ι} {op : Op P} {h : Hub ι P W}
    {t : Scene ι P W} (hop : OpOk (Ms i) op) (H : DepictsS Ms h t) :
    (stepS Ms sem fuel n i op h).Rel Eq (DepictsS Ms) (execS Ms sem fuel n i op t) := by
  induction n generalizing i op h t with
  | zero => trivial
  | succ n ih =>
    have ih : ∀ i op h t, OpOk (Ms i) op → DepictsS Ms h t →
        (stepS Ms sem fuel n i op h).Rel Eq (DepictsS Ms) (execS Ms sem fuel n i op t) :=
      fun i op h t ho H => ih ho H
    unfold stepS execS
    refine Ensemble.home ?_
    cases op with
    | process ev p =>
      exact Depicts.receiveR (H.fetch i) (hM i)
        (Ensemble.echo ih i) (hg.kin hop) fuel
        (by rw [Machine.events_eq]; exact hop) p
    | set r p st => exact Portrait.jump (H.fetch i) r p (Machine.states_eq ▸ hop.2)
    | setDependency d => exact Portrait.extend (H.fetch i) (hM i) (hS i) d

omit [DecidableEq ι] in
/-- C119, construction: newly constructed machines depict the new configurations. -/
theorem C119_construct (hM : ∀ i, (Ms i).Regular) {d : ι → Dep} {h : Hub ι P W}
    (hi : ∀ i, construct (Ms i) (d i) () = .ok (h.parts i)) (hq : h.request = none) :
    DepictsS Ms h (curtainUp Ms d h.user) :=
  ⟨rfl, hq, fun _ _ e => (by rw [hq] at e; cases e), fun i => C77_construct (hM i) (hi i)⟩

/-- C119: whatever is called on newly constructed machines, one call after the other, also after exceptions,
the interpreter tells what all of them look like, and if undefined behaviour was met or a call did not end on
the way. -/
theorem C119_history (hM : ∀ i, (Ms i).Regular) (hg : sem.Good True (fun i => OpOk (Ms i))) {d : ι → Dep}
    {h : Hub ι P W} (hi : ∀ i, construct (Ms i) (d i) () = .ok (h.parts i)) (hq : h.request = none)
    (fuel n : Nat) (ops : List (ι × Op P)) (hops : ∀ x ∈ ops, OpOk (Ms x.1) x.2) :
    match inTurn (fun x => stepS Ms sem fuel n x.1 x.2) ops h,
      inTurn (fun x => execS Ms sem fuel n x.1 x.2) ops (curtainUp Ms d h.user) with
    | some h, some t => DepictsS Ms h t
    | none, none => True
    | _, _ => False := by
  have := Ensemble.inTurn (R := DepictsS Ms) (f := fun x => stepS Ms sem fuel n x.1 x.2)
    (g := fun x => execS Ms sem fuel n x.1 x.2)
    (fun x hx _ _ H => C119_step hM (fun i => ((C06_construct (hM i) (d i) ()).1.1 ⟨_, hi i⟩).1) hg fuel n
      (hops x hx) H) (C119_construct hM hi hq)
  revert this
  generalize inTurn (fun x => stepS Ms sem fuel n x.1 x.2) ops h = a
  generalize inTurn (fun x => execS Ms sem fuel n x.1 x.2) ops _ = b
  cases a <;> cases b <;> exact id

/-- C119, undefined behaviour: a call is undefined exactly if the interpreter says so, and of the same kind; it
does not return exactly if the interpreter's does not. -/
theorem C119_undefined (hM : ∀ i, (Ms i).Regular) (hS : ∀ i, (Ms i).ScopesReal)
    (hg : sem.Good True (fun i => OpOk (Ms i))) (fuel n : Nat) {i : ι} {op : Op P} {h : Hub ι P W}
    {t : Scene ι P W} (hop : OpOk (Ms i) op) (H : DepictsS Ms h t) :
    (∀ u, stepS Ms sem fuel n i op h = .ub u ↔ execS Ms sem fuel n i op t = .ub u) ∧
      (stepS Ms sem fuel n i op h = .timeout ↔ execS Ms sem fuel n i op t = .timeout) :=
  Ensemble.exact (C119_step hM hS hg fuel n hop H)

theorem stepS_idle (fuel n : Nat) (i : ι) (op : Op P) (h : Hub ι P W) :
    stepS Ms sem fuel n i op { h with request := none } = stepS Ms sem fuel n i op h := by
  cases n <;> rfl

/-- C119: every program depicts configurations, whatever was called before. -/
theorem C119_reach (hM : ∀ i, (Ms i).Regular) (hg : sem.Good True (fun i => OpOk (Ms i))) {d : ι → Dep}
    {ops : List (ι × Op P)} {h : Hub ι P W} (hr : RunToS Ms sem d ops h) :
    (∀ i, (Ms i).ScopesReal) ∧ ∃ t, DepictsS Ms { h with request := none } t := by
  induction hr with
  | init hi =>
    exact ⟨fun i => ((C06_construct (hM i) _ ()).1.1 ⟨_, hi i⟩).1, _, C119_construct hM hi rfl⟩
  | @ok h h' ops i op fuel n b hr hop hs ih =>
    obtain ⟨hS, t, H⟩ := ih
    have := C119_step hM hS hg fuel n hop H
    rw [stepS_idle, hs] at this
    revert this
    cases execS Ms sem fuel n i op t <;> intro H <;> first | exact H.elim | skip
    exact ⟨hS, _, H.2.idle⟩
  | @throw h h' ops i op fuel n x hr hop hs ih =>
    obtain ⟨hS, t, H⟩ := ih
    have := C119_step hM hS hg fuel n hop H
    rw [stepS_idle, hs] at this
    revert this
    cases execS Ms sem fuel n i op t <;> intro H <;> first | exact H.elim | skip
    exact ⟨hS, _, H.2.idle⟩
  | world hr w ih =>
    obtain ⟨hS, t, H⟩ := ih
    exact ⟨hS, { t with user := w }, rfl, H.request, H.fair, H.parts⟩


/-! ## The amalgamated header -/

/-- The program `h` of machines of the amalgamated header is a picture of `t`. -/
abbrev DepictsGS (Ms : ι → Machine) (h : Hub ι P W) (t : Scene ι P W) : Prop :=
  Ensemble Ms (fun i => (Ms i).entriesG) (fun i => (Ms i).eventsG) (fun i => OpOkGR (Ms i)) h t

/-- C120, calls: one call on one machine of a program and on the configurations the program depicts, with all
calls that callbacks make meanwhile. -/
theorem C120_step (hM : ∀ i, (Ms i).RegularG) (hS : ∀ i, (Ms i).ScopesRealG)
    (hg : sem.Good True (fun i => OpOkGR (Ms i))) (fuel n : Nat) {i : ι} {op : Op P} {h : Hub ι P W}
    {t : Scene ι P W} (hop : OpOkGR (Ms i) op) (H : DepictsGS Ms h t) :
    (stepGS Ms sem fuel n i op h).Rel Eq (DepictsGS Ms) (execGS Ms sem fuel n i op t) := by
  induction n generalizing i op h t with
  | zero => trivial
  | succ n ih =>
    have ih : ∀ i op h t, OpOkGR (Ms i) op → DepictsGS Ms h t →
        (stepGS Ms sem fuel n i op h).Rel Eq (DepictsGS Ms) (execGS Ms sem fuel n i op t) :=
      fun i op h t ho H => ih ho H
    unfold stepGS execGS
    refine Ensemble.home ?_
    cases op with
    | process ev p =>
      refine Res.Rel.bind (DepictsG.receiveGR (H.fetch i) (hM i)
        (Ensemble.echo ih i) (hg.kin hop) fuel
        (by rw [Machine.eventsG_eq (hM i).laid]; exact hop) p) fun _ _ _ _ _ H => ⟨rfl, H⟩
    | set r p st => exact hop.elim
    | setDependency d =>
      show AgreesOn _ _ _ _ Eq ((setDependencyG (Ms i) d (h.fetch i)).bind fun _ s => .ok true s)
        (Res.bind (.ok () { t.fetch i with deps := d :: (t.fetch i).deps }) fun _ c => .ok true c)
      exact Res.Rel.bind (DepictsG.extend (H.fetch i) (hM i) (hS i) d) fun _ _ _ _ _ H => ⟨rfl, H⟩

omit [DecidableEq ι] in
/-- C120, construction: newly constructed machines depict the new configurations. -/
theorem C120_construct (hM : ∀ i, (Ms i).RegularG) {d : ι → Dep} {h : Hub ι P W}
    (hi : ∀ i, constructG (Ms i) (d i) () = .ok (h.parts i)) (hq : h.request = none) :
    DepictsGS Ms h (curtainUp Ms d h.user) :=
  ⟨rfl, hq, fun _ _ e => (by rw [hq] at e; cases e), fun i => (C82_construct (hM i) (d i) ()).2.2 _ (hi i)⟩

/-- C120: whatever is called on newly constructed machines, one call after the other, also after exceptions,
the interpreter tells what all of them look like, and if undefined behaviour was met or a call did not end on
the way. -/
theorem C120_history (hM : ∀ i, (Ms i).RegularG) (hg : sem.Good True (fun i => OpOkGR (Ms i))) {d : ι → Dep}
    {h : Hub ι P W} (hi : ∀ i, constructG (Ms i) (d i) () = .ok (h.parts i)) (hq : h.request = none)
    (fuel n : Nat) (ops : List (ι × Op P)) (hops : ∀ x ∈ ops, OpOkGR (Ms x.1) x.2) :
    match inTurn (fun x => stepGS Ms sem fuel n x.1 x.2) ops h,
      inTurn (fun x => execGS Ms sem fuel n x.1 x.2) ops (curtainUp Ms d h.user) with
    | some h, some t => DepictsGS Ms h t
    | none, none => True
    | _, _ => False := by
  have := Ensemble.inTurn (R := DepictsGS Ms) (f := fun x => stepGS Ms sem fuel n x.1 x.2)
    (g := fun x => execGS Ms sem fuel n x.1 x.2)
    (fun x hx _ _ H => C120_step hM (fun i => ((C82_construct (hM i) (d i) ()).1.1 ⟨_, hi i⟩).1) hg fuel n
      (hops x hx) H) (C120_construct hM hi hq)
  revert this
  generalize inTurn (fun x => stepGS Ms sem fuel n x.1 x.2) ops h = a
  generalize inTurn (fun x => execGS Ms sem fuel n x.1 x.2) ops _ = b
  cases a <;> cases b <;> exact id

/-- C120, undefined behaviour: a call is undefined exactly if the interpreter says so, and of the same kind; it
does not return exactly if the interpreter's does not. -/
theorem C120_undefined (hM : ∀ i, (Ms i).RegularG) (hS : ∀ i, (Ms i).ScopesRealG)
    (hg : sem.Good True (fun i => OpOkGR (Ms i))) (fuel n : Nat) {i : ι} {op : Op P} {h : Hub ι P W}
    {t : Scene ι P W} (hop : OpOkGR (Ms i) op) (H : DepictsGS Ms h t) :
    (∀ u, stepGS Ms sem fuel n i op h = .ub u ↔ execGS Ms sem fuel n i op t = .ub u) ∧
      (stepGS Ms sem fuel n i op h = .timeout ↔ execGS Ms sem fuel n i op t = .timeout) :=
  Ensemble.exact (C120_step hM hS hg fuel n hop H)

theorem stepGS_idle (fuel n : Nat) (i : ι) (op : Op P) (h : Hub ι P W) :
    stepGS Ms sem fuel n i op { h with request := none } = stepGS Ms sem fuel n i op h := by
  cases n <;> rfl

/-- C120: every program depicts configurations, whatever was called before. -/
theorem C120_reach (hM : ∀ i, (Ms i).RegularG) (hg : sem.Good True (fun i => OpOkGR (Ms i))) {d : ι → Dep}
    {ops : List (ι × Op P)} {h : Hub ι P W} (hr : RunToGS Ms sem d ops h) :
    (∀ i, (Ms i).ScopesRealG) ∧ ∃ t, DepictsGS Ms { h with request := none } t := by
  induction hr with
  | init hi =>
    exact ⟨fun i => ((C82_construct (hM i) _ ()).1.1 ⟨_, hi i⟩).1, _, C120_construct hM hi rfl⟩
  | @ok h h' ops i op fuel n b hr hop hs ih =>
    obtain ⟨hS, t, H⟩ := ih
    have := C120_step hM hS hg fuel n hop H
    rw [stepGS_idle, hs] at this
    revert this
    cases execGS Ms sem fuel n i op t <;> intro H <;> first | exact H.elim | skip
    exact ⟨hS, _, H.2.idle⟩
  | @throw h h' ops i op fuel n x hr hop hs ih =>
    obtain ⟨hS, t, H⟩ := ih
    have := C120_step hM hS hg fuel n hop H
    rw [stepGS_idle, hs] at this
    revert this
    cases execGS Ms sem fuel n i op t <;> intro H <;> first | exact H.elim | skip
    exact ⟨hS, _, H.2.idle⟩
  | world hr w ih =>
    obtain ⟨hS, t, H⟩ := ih
    exact ⟨hS, { t with user := w }, rfl, H.request, H.fair, H.parts⟩

end

/-! ## Examples -/

namespace Ex

def builds : Except BuildErr (SM Nat Unit) → Bool
  | .ok _ => true
  | _ => false

theorem twins_built : ∃ s : SM Nat Unit, construct hop 7 () = .ok s := by
  have : builds (construct hop 7 ()) = true := by decide +kernel
  cases h : construct hop 7 () with
  | ok s => exact ⟨s, rfl⟩
  | error e => rw [h] at this; cases this

theorem twins_builtG : ∃ s : SM Nat Unit, constructG hop 7 () = .ok s := by
  have : builds (constructG hop 7 ()) = true := by decide +kernel
  cases h : constructG hop 7 () with
  | ok s => exact ⟨s, rfl⟩
  | error e => rw [h] at this; cases this

/-- C119 applies: event 0 makes the first machine move, its action makes the second one move, and that one's
action makes the first one move again; the interpreter tells how it ends, and so it does end. -/
example : ∃ h h' : Hub Bool Nat (List Nat), (∀ i, construct (twins i) 7 () = .ok (h.parts i)) ∧
    inTurn (fun x => stepS twins (semS true quietS pingPong) 5 5 x.1 x.2) [(false, .process (ev 0) 1)] h = some h' ∧
    h'.user = [100, 1, 2, 3, 20] ∧ (h'.parts false).cur = [some (hop.comb 0 (.st 1))] ∧
    (h'.parts true).cur = [some (hop.comb 0 (.st 3))] := by
  obtain ⟨s, hs⟩ := twins_built
  refine ⟨⟨[], fun _ => s, none⟩, ?_⟩
  have hi : ∀ i, construct (twins i) 7 () = .ok s := fun _ => hs
  have h1 := C119_history (Ms := twins) (d := fun _ => 7) (h := ⟨[], fun _ => s, none⟩) (fun _ => hop_regular)
    pingPong_good hi rfl 5 5 [(false, .process (ev 0) 1)]
    (by intro x hx; rw [List.mem_singleton.1 hx]; exact hop_ok 0 (by decide) 1)
  have h2 : (inTurn (fun x : Bool × Op Nat => execS twins (semS true quietS pingPong) 5 5 x.1 x.2)
      [(false, .process (ev 0) 1)] (curtainUp twins (fun _ => 7) [])).any (fun t => t.user == [100, 1, 2, 3, 20] &&
        ((t.parts false).slots == [some (0, .st 1)] && (t.parts true).slots == [some (0, .st 3)])) = true := by
    decide +kernel
  revert h1 h2
  dsimp only
  generalize inTurn (fun x : Bool × Op Nat => execS twins (semS true quietS pingPong) 5 5 x.1 x.2) _ _ = b
  generalize inTurn _ _ _ = a
  cases a <;> cases b <;> intro h1 h2 <;> first | exact h1.elim | cases h2 | skip
  simp only [Option.any_some, Bool.and_eq_true, beq_iff_eq] at h2
  refine ⟨_, hi, rfl, h1.user.trans h2.1, ?_, ?_⟩
  · rw [(h1.parts false).cur, h2.2.1]; rfl
  · rw [(h1.parts true).cur, h2.2.2]; rfl

/-- C120 applies: event 0 makes the first machine move, its action makes the second one move, and that one's
action makes the first one move again; the interpreter tells how it ends, and so it does end. -/
example : ∃ h h' : Hub Bool Nat (List Nat), (∀ i, constructG (twins i) 7 () = .ok (h.parts i)) ∧
    inTurn (fun x => stepGS twins (semS true quietS pingPong) 5 5 x.1 x.2) [(false, .process (ev 0) 1)] h = some h' ∧
    h'.user = [100, 1, 2, 3, 20] ∧ (h'.parts false).cur = [some (hop.comb 0 (.st 1))] ∧
    (h'.parts true).cur = [some (hop.comb 0 (.st 3))] := by
  obtain ⟨s, hs⟩ := twins_builtG
  refine ⟨⟨[], fun _ => s, none⟩, ?_⟩
  have hi : ∀ i, constructG (twins i) 7 () = .ok s := fun _ => hs
  have h1 := C120_history (Ms := twins) (d := fun _ => 7) (h := ⟨[], fun _ => s, none⟩) (fun _ => hop_regularG)
    pingPong_goodG hi rfl 5 5 [(false, .process (ev 0) 1)]
    (by intro x hx; rw [List.mem_singleton.1 hx]; exact hop_okG 0 (by decide) 1)
  have h2 : (inTurn (fun x : Bool × Op Nat => execGS twins (semS true quietS pingPong) 5 5 x.1 x.2)
      [(false, .process (ev 0) 1)] (curtainUp twins (fun _ => 7) [])).any (fun t => t.user == [100, 1, 2, 3, 20] &&
        ((t.parts false).slots == [some (0, .st 1)] && (t.parts true).slots == [some (0, .st 3)])) = true := by
    decide +kernel
  revert h1 h2
  dsimp only
  generalize inTurn (fun x : Bool × Op Nat => execGS twins (semS true quietS pingPong) 5 5 x.1 x.2) _ _ = b
  generalize inTurn _ _ _ = a
  cases a <;> cases b <;> intro h1 h2 <;> first | exact h1.elim | cases h2 | skip
  simp only [Option.any_some, Bool.and_eq_true, beq_iff_eq] at h2
  refine ⟨_, hi, rfl, h1.user.trans h2.1, ?_, ?_⟩
  · rw [(h1.parts false).cur, h2.2.1]; rfl
  · rw [(h1.parts true).cur, h2.2.2]; rfl

/-- C119 applies: the guard of the first machine sends event 1 to the second one, whose action adds a dependency
to the first one, which the guard then does not allow to move: what follows is undefined. -/
example : ∃ h : Hub Bool Nat (List Nat), (∀ i, construct (twins i) 7 () = .ok (h.parts i)) ∧
    stepS twins (semS false askOther rewireOther) 5 5 false (.process (ev 0) 1) h = .ub .iterator := by
  obtain ⟨s, hs⟩ := twins_built
  refine ⟨⟨[], fun _ => s, none⟩, fun _ => hs, ?_⟩
  refine ((C119_undefined (fun _ => hop_regular) (fun _ => ((C06_construct hop_regular 7 ()).1.1 ⟨s, hs⟩).1) ?_
    5 5 (hop_ok 0 (by decide) 1) (C119_construct (d := fun _ => 7) (fun _ => hop_regular) (fun _ => hs) rfl)).1 _).2 ?_
  · refine semS_good (fun i c x hx => ?_) (fun i c x hx => ?_)
    · unfold askOther at hx
      split at hx
      · rw [List.mem_singleton.1 hx]; exact hop_ok 1 (by decide) 5
      · cases hx
    · unfold rewireOther at hx
      split at hx
      · rw [List.mem_singleton.1 hx]; trivial
      · cases hx
  · have : ∀ r : Res (Scene Bool Nat (List Nat)) Bool, (match r with | .ub .iterator => true | _ => false) = true →
        r = .ub .iterator := by
      intro r h; split at h
      · rfl
      · cases h
    show execS twins (semS false askOther rewireOther) 5 5 false (.process (ev 0) 1)
      (curtainUp twins (fun _ => 7) []) = .ub .iterator
    exact this _ (by decide +kernel)

end Ex
end Hsm
