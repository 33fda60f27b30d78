import Verif.PropsHeadersR
import Verif.PropsSystemsGen

/-!
# Both headers and several machines (C125)

C98 for programs with any number of machines whose callbacks use one another.
-/

namespace Hsm

/-! ## Specification -/

section
variable {ι P W : Type}

/-- What the program does does not depend on what `process_event` returns. -/
def SProg.Incurious {α : Type} : SProg ι P W α → Prop
  | .ret _ _ _ => True
  | .throw _ _ => True
  | .ub => True
  | .call _ _ _ k => (∀ w, k (.ret false) w = k (.ret true) w) ∧ ∀ r w, (k r w).Incurious

/-- The program leaves the event as it is: if it returns, then with `p`. -/
def SProg.Untouched {α : Type} (p : P) : SProg ι P W α → Prop
  | .ret _ q _ => q = p
  | .throw _ _ => True
  | .ub => True
  | .call _ _ _ k => ∀ r w, (k r w).Untouched p

/-- No callback of any machine looks at what `process_event` returns. -/
structure SemS.Incurious (sem : SemS ι P W) : Prop where
  guard : ∀ i g a p w, (sem.guard i g a p w).Incurious
  action : ∀ i c a p w, (sem.action i c a p w).Incurious
  handler : ∀ i h e st d p w, (sem.handler i h e st d p w).Incurious

/-- Callbacks leave the none event as it is (it is an empty class, event.h:37-38). -/
structure SemS.KeepsNone (sem : SemS ι P W) : Prop where
  guard : ∀ i g args p w, args.event = .none → (sem.guard i g args p w).Untouched p
  action : ∀ i a args p w, args.event = .none → (sem.action i a args p w).Untouched p

end

/-! ## Proofs -/

section
variable {ι P W : Type} {Ms : ι → Machine} {sem : SemS ι P W}

/-- The call that is being made is one the amalgamated header accepts. -/
def Requested (Ms : ι → Machine) (_ : Op P) (h : Hub ι P W) : Prop :=
  ∃ j op, h.request = some (j, op) ∧ OpOkGR (Ms j) op

theorem SProg.polite {α : Type} (o : Op P) (pr : SProg ι P W α) : pr.Good True (fun i => OpOkGR (Ms i)) →
    pr.Incurious → ∀ m, (pr.prog o m).Polite (Requested Ms) := by
  induction pr with
  | ret a p w => intro _ _ m; trivial
  | throw x w => intro _ _ m; trivial
  | ub => intro _ _ m; trivial
  | call i op w k ih =>
    intro hg hi m
    refine ⟨⟨i, op, rfl, hg.1⟩, fun h => ?_, fun r h => ih r h.user (hg.2 r h.user) (hi.2 r h.user) h.parts⟩
    dsimp only
    rw [hi.1]

theorem SemS.polite (hg : sem.Good True (fun i => OpOkGR (Ms i))) (hi : sem.Incurious) (i : ι) (o : Op P) :
    (sem.at i o).Polite (Requested Ms) :=
  ⟨fun _ _ _ _ => SProg.polite o _ (hg.guard _ _ _ _ _) (hi.guard _ _ _ _ _) _,
    fun _ _ _ _ => SProg.polite o _ (hg.action _ _ _ _ _) (hi.action _ _ _ _ _) _,
    fun _ _ _ _ _ _ => SProg.polite o _ (hg.handler _ _ _ _ _ _ _) (hi.handler _ _ _ _ _ _ _) _⟩

theorem SProg.untouched {α : Type} {p : P} (o : Op P) (pr : SProg ι P W α) : pr.Untouched p →
    ∀ m, (pr.prog o m).Untouched p := by
  induction pr with
  | ret a q w => intro h m; exact h
  | throw x w => intro _ m; trivial
  | ub => intro _ m; trivial
  | call i op w k ih => intro h m r hub; exact ih r hub.user (h r hub.user) hub.parts

theorem SemS.keepsNone (hk : sem.KeepsNone) (i : ι) (o : Op P) : (sem.at i o).KeepsNone :=
  ⟨fun _ _ _ _ h => SProg.untouched o _ (hk.guard _ _ _ _ _ h) _,
    fun _ _ _ _ h => SProg.untouched o _ (hk.action _ _ _ _ _ h) _⟩

variable [DecidableEq ι]

theorem Res.home_yes {i : ι} (x : Res (SM P (Hub ι P W)) Bool) :
    (x.bind fun _ s => .ok true s).home i = (x.home i).bind fun _ h => .ok true h := by
  cases x <;> rfl

theorem mute_nested {step stepG : ι → Op P → Hub ι P W → Res (Hub ι P W) Bool}
    (h : ∀ j op, OpOkGR (Ms j) op → ∀ h, stepG j op h = (step j op h).bind fun _ h => .ok true h) (i : ι) :
    Mute (Requested Ms) (nested step i) (nested stepG i) := by
  rintro op s ⟨j, op', hq, hop⟩
  unfold nested
  rw [hq]
  dsimp only
  rw [h j op' hop]
  cases step j op' (s.world.store i s) <;> rfl

/-! ## The property -/

section
variable (hM : ∀ i, (Ms i).Regular) (hP : ∀ i, (Ms i).PlainInternals) (hd : ∀ i, (Ms i).deferring = false)
  (hg : sem.Good True fun i => OpOkGR (Ms i)) (hi : sem.Incurious) (hk : sem.KeepsNone)
include hM hP hd hg hi hk

/-- C125, calls: one call on one of the machines of a program does the same to all of them and to the user's
world under both headers, with all calls that callbacks make meanwhile on any of them; only what it returns may
differ. -/
theorem C125_step (fuel n : Nat) (i : ι) {op : Op P} (hop : OpOkGR (Ms i) op) (h : Hub ι P W) :
    stepGS Ms sem fuel n i op h = (stepS Ms sem fuel n i op h).bind fun _ h => .ok true h := by
  induction n generalizing i op h with
  | zero => rfl
  | succ n ih =>
    cases op with
    | process ev p =>
      have key := Mute.processEvent (mute_nested (fun j op hop h => ih j hop h) i)
        (SemS.polite hg hi i (.process ev p)) (SemS.keepsNone hk i (.process ev p)) (hd i) fuel ev p (h.fetch i)
      unfold stepGS stepS
      dsimp only
      rw [key, Res.home_yes]
    | set r p st => exact hop.elim
    | setDependency d =>
      unfold stepGS stepS setDependencyG setDependency
      dsimp only
      rw [Machine.fillG_eq (hM i) (hP i)]
      cases (Ms i).fill d (h.fetch i).table <;> rfl

omit hd hg hi hk hM in
theorem opOk_of_opOkGR {i : ι} {op : Op P} (h : OpOkGR (Ms i) op) : OpOk (Ms i) op := by
  cases op with
  | process ev p => exact (Machine.eventIdsG_mem (hP i)).1 h
  | set r p st => exact h.elim
  | setDependency d => trivial

/-- C125: if no machine of a program defers events, their internal rows are plain, and callbacks do not look at
what `process_event` returns, then the program can have reached a state after some calls under the amalgamated
header exactly if it can have reached the same state after the same calls under the modular headers. -/
theorem C125_runs (d : ι → Dep) (ops : List (ι × Op P)) (hops : ∀ x ∈ ops, OpOkGR (Ms x.1) x.2) (h : Hub ι P W) :
    RunToGS Ms sem d ops h ↔ RunToS Ms sem d ops h := by
  constructor
  · intro h
    induction h with
    | init h => exact .init fun i => constructG_eq (hM i) (hP i) (d i) () ▸ h i
    | @ok h h' ops i op fuel n b hr hop hs ih =>
      rw [C125_step hM hP hd hg hi hk fuel n i hop] at hs
      cases hs' : stepS Ms sem fuel n i op h with
      | ok b' t =>
        rw [hs'] at hs
        cases hs
        exact .ok (ih fun x hx => hops x (by simp [hx])) (opOk_of_opOkGR hP hop) hs'
      | throw x t => rw [hs'] at hs; cases hs
      | ub u => rw [hs'] at hs; cases hs
      | timeout => rw [hs'] at hs; cases hs
    | @throw h h' ops i op fuel n x hr hop hs ih =>
      rw [C125_step hM hP hd hg hi hk fuel n i hop] at hs
      cases hs' : stepS Ms sem fuel n i op h with
      | ok b' t => rw [hs'] at hs; cases hs
      | throw x t =>
        rw [hs'] at hs
        cases hs
        exact .throw (ih fun x hx => hops x (by simp [hx])) (opOk_of_opOkGR hP hop) hs'
      | ub u => rw [hs'] at hs; cases hs
      | timeout => rw [hs'] at hs; cases hs
    | world hr w ih => exact .world (ih hops) w
  · intro h
    induction h with
    | init h => exact .init fun i => (constructG_eq (hM i) (hP i) (d i) ()).trans (h i)
    | @ok h h' ops i op fuel n b hr hop hs ih =>
      have hop' := hops (i, op) (by simp)
      refine .ok (b := true) (ih fun x hx => hops x (by simp [hx])) hop' (fuel := fuel) (n := n) ?_
      rw [C125_step hM hP hd hg hi hk fuel n i hop', hs]
      rfl
    | @throw h h' ops i op fuel n x hr hop hs ih =>
      have hop' := hops (i, op) (by simp)
      refine .throw (x := x) (ih fun x hx => hops x (by simp [hx])) hop' (fuel := fuel) (n := n) ?_
      rw [C125_step hM hP hd hg hi hk fuel n i hop', hs]
      rfl
    | world hr w ih => exact .world (ih hops) w

end
end

/-! ## Witnesses -/

namespace Ex

theorem makesS_incurious {α : Type} {a : α} {p : Nat} : ∀ {ops : List (Bool × Op Nat)} {w : List Nat},
    (makesS a p ops w).Incurious
  | [], _ => trivial
  | _ :: _, _ => ⟨fun _ => rfl, fun _ _ => makesS_incurious⟩

theorem semS_incurious {on : Bool} {asks calls : Bool → Nat → List (Bool × Op Nat)} :
    (semS on asks calls).Incurious :=
  ⟨fun _ _ _ _ _ => makesS_incurious, fun _ _ _ _ _ => makesS_incurious, fun _ _ _ _ _ _ _ => makesS_incurious⟩

theorem makesS_untouched {α : Type} {a : α} {p : Nat} : ∀ {ops : List (Bool × Op Nat)} {w : List Nat},
    (makesS a p ops w).Untouched p
  | [], _ => rfl
  | _ :: _, _ => fun _ _ => makesS_untouched

theorem semS_keepsNone {on : Bool} {asks calls : Bool → Nat → List (Bool × Op Nat)} :
    (semS on asks calls).KeepsNone :=
  ⟨fun _ _ _ _ _ _ => makesS_untouched, fun _ _ _ _ _ _ => makesS_untouched⟩

/-- C125 applies to two machines that send events to one another. -/
example : ∃ h, RunToS twins (semS true quietS pingPong) (fun _ => 7) [(false, .process (ev 0) 1)] h ∧
    RunToGS twins (semS true quietS pingPong) (fun _ => 7) [(false, .process (ev 0) 1)] h ∧
    1 < (h.parts false).log.length ∧ 0 < (h.parts true).log.length := by
  obtain ⟨h, hr, hs⟩ := exists_runS twins (semS true quietS pingPong) (fuel := 5) (n := 5) (d := fun _ => 7)
    (w := []) (ops := [(false, .process (ev 0) 1)])
    (f := fun h => decide (1 < (h.parts false).log.length ∧ 0 < (h.parts true).log.length)) (by decide +kernel)
  refine ⟨h, hr, (C125_runs (fun _ => hop_regular) (fun _ => hop_plain) (fun _ => by decide +kernel)
    (semS_good (quietS_all (Q := fun i => OpOkGR (twins i))) (pingPong_all (Q := fun i => OpOkGR (twins i))
      (hop_okG 1 (by decide) 5) (hop_okG 2 (by decide) 6))) semS_incurious semS_keepsNone _ _ (fun x hx => by
        cases List.mem_singleton.1 hx; exact hop_okG 0 (by decide) _) h).2 hr, of_decide_eq_true hs⟩

end Ex
end Hsm
