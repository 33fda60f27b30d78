import Verif.PropsInterpGenR

/-!
# Both headers and callbacks that use the machine (C98)

`process_event` of the modular headers returns whether something fired; that of the amalgamated header
returns nothing.  Apart from that, machines for which the two headers do not differ by what they defer or
by their internal rows do the same under both, also if their callbacks call the machine.
-/

namespace Hsm

/-! ## Specification -/

section
variable {P W : Type}

/-- What the program does does not depend on what `process_event` returns.  (It may depend on what is
thrown.) -/
def Prog.Incurious {α : Type} : Prog P W α → Prop
  | .ret _ _ _ => True
  | .throw _ _ => True
  | .ub => True
  | .call _ _ k => (∀ w, k (.ret false) w = k (.ret true) w) ∧ ∀ r w, (k r w).Incurious

/-- The program leaves the event as it is: if it returns, then with `p`. -/
def Prog.Untouched {α : Type} (p : P) : Prog P W α → Prop
  | .ret _ q _ => q = p
  | .throw _ _ => True
  | .ub => True
  | .call _ _ k => ∀ r w, (k r w).Untouched p

/-- No callback looks at what `process_event` returns. -/
structure SemR.Incurious (sem : SemR P W) : Prop where
  guard : ∀ g a p w, (sem.guard g a p w).Incurious
  action : ∀ c a p w, (sem.action c a p w).Incurious
  handler : ∀ h e st d p w, (sem.handler h e st d p w).Incurious

/-- Callbacks leave the none event as it is (it is an empty class, event.h:37-38). -/
structure SemR.KeepsNone (sem : SemR P W) : Prop where
  guard : ∀ g args p w, args.event = .none → (sem.guard g args p w).Untouched p
  action : ∀ a args p w, args.event = .none → (sem.action a args p w).Untouched p

end

/-! ## Proofs -/

section
variable {P W : Type} {M : Machine} {sem : SemR P W}
  {call callG : Op P → SM P W → Res (SM P W) Bool}

/-- Calls that are asked for, `ok`, do under the amalgamated header what they do under the modular headers, but
return `true`. -/
def Mute (ok : Op P → W → Prop) (call callG : Op P → SM P W → Res (SM P W) Bool) : Prop :=
  ∀ op s, ok op s.world → callG op s = (call op s).bind fun _ s => .ok true s

/-- The program makes only calls `ok` asks for, and does not depend on what they return. -/
def Prog.Polite (ok : Op P → W → Prop) {α : Type} : Prog P W α → Prop
  | .ret _ _ _ => True
  | .throw _ _ => True
  | .ub => True
  | .call op w k => ok op w ∧ (∀ w, k (.ret false) w = k (.ret true) w) ∧ ∀ r w, (k r w).Polite ok

/-- The same for all callbacks. -/
structure SemR.Polite (sem : SemR P W) (ok : Op P → W → Prop) : Prop where
  guard : ∀ g a p w, (sem.guard g a p w).Polite ok
  action : ∀ c a p w, (sem.action c a p w).Polite ok
  handler : ∀ h e st d p w, (sem.handler h e st d p w).Polite ok

theorem Prog.Good.polite {Q : Op P → Prop} {α : Type} (pr : Prog P W α) :
    pr.Good True Q → pr.Incurious → pr.Polite fun op _ => Q op := by
  induction pr with
  | ret a p w => intro _ _; trivial
  | throw x w => intro _ _; trivial
  | ub => intro _ _; trivial
  | call op w k ih => intro hg hi; exact ⟨hg.1, hi.1, fun r w => ih r w (hg.2 r w) (hi.2 r w)⟩

theorem SemR.Good.polite {Q : Op P → Prop} (hg : sem.Good True Q) (hi : sem.Incurious) :
    sem.Polite fun op _ => Q op :=
  ⟨fun _ _ _ _ => (hg.guard _ _ _ _).polite _ (hi.guard _ _ _ _),
    fun _ _ _ _ => (hg.action _ _ _ _).polite _ (hi.action _ _ _ _),
    fun _ _ _ _ _ _ => (hg.handler _ _ _ _ _ _).polite _ (hi.handler _ _ _ _ _ _)⟩

variable {ok : Op P → W → Prop}

theorem Mute.runProg (h : Mute ok call callG) {α : Type} (pr : Prog P W α) :
    pr.Polite ok → ∀ s, runProg callG pr s = runProg call pr s := by
  induction pr with
  | ret a p w => intro _ s; rfl
  | throw x w => intro _ s; rfl
  | ub => intro _ s; rfl
  | call op w k ih =>
    intro hg s
    unfold Hsm.runProg
    rw [h op { s with world := w } hg.1]
    cases call op { s with world := w } with
    | ok b s' =>
      show Hsm.runProg callG (k (.ret true) s'.world) s' = Hsm.runProg call (k (.ret b) s'.world) s'
      rw [ih _ _ (hg.2.2 _ _)]
      cases b with
      | true => rfl
      | false => rw [hg.2.1]
    | throw x s' => exact ih _ _ (hg.2.2 _ _) _
    | ub u => rfl
    | timeout => rfl

theorem Mute.runCb (h : Mute ok call callG) {α : Type} {pr : Prog P W α} (hg : pr.Polite ok)
    (rec : Option α → Call P) (s : SM P W) : runCb callG pr rec s = runCb call pr rec s := by
  unfold Hsm.runCb
  rw [h.runProg pr hg]

section
variable (h : Mute ok call callG) (hg : sem.Polite ok)
include h hg

theorem Mute.execGuard (x : Exec) (ev : EventTy) (p : P) (s : SM P W) :
    execGuardR M sem callG x ev p s = execGuardR M sem call x ev p s := by
  unfold execGuardR
  cases x.guard with
  | none => rfl
  | some g =>
    dsimp only
    rw [h.runCb (hg.guard _ _ _ _)]

theorem Mute.runCbs (args : Args) : ∀ (cs : List (Phase × Cb)) (p : P) (s : SM P W),
    runCbsR sem callG args cs p s = runCbsR sem call args cs p s := by
  intro cs
  induction cs with
  | nil => intro p s; rfl
  | cons c cs ih =>
    intro p s
    obtain ⟨ph, a⟩ := c
    unfold runCbsR
    rw [h.runCb (hg.action _ _ _ _)]
    congr 1
    funext u s
    exact ih _ _

theorem Mute.fire (r : Nat) (ev : EventTy) (e : Entry) (x : Exec) (p : P) (s : SM P W) :
    fireR M sem callG r ev e x p s = fireR M sem call r ev e x p s := by
  unfold fireR execActionR
  simp only [h.runCbs hg]

theorem Mute.tryEntries (r : Nat) (ev : EventTy) (c n : Nat) : ∀ (es : List Entry) (p : P) (s : SM P W),
    tryEntriesR M sem callG r ev c n es p s = tryEntriesR M sem call r ev c n es p s := by
  intro es
  induction es with
  | nil => intro p s; rfl
  | cons e es ih =>
    intro p s
    unfold tryEntriesR
    simp only [h.execGuard hg, h.fire hg, ih]

theorem Mute.regionStep (r : Nat) (ev : EventTy) (p : P) (s : SM P W) :
    regionStepR M sem callG r ev p s = regionStepR M sem call r ev p s := by
  unfold regionStepR
  simp only [h.tryEntries hg]

theorem Mute.regionLoop (ev : EventTy) : ∀ (rs : List Nat) (agf ati : Bool) (p : P) (s : SM P W),
    regionLoopR M sem callG ev rs agf ati p s = regionLoopR M sem call ev rs agf ati p s := by
  intro rs
  induction rs with
  | nil => intro _ _ _ _; rfl
  | cons r rs ih =>
    intro agf ati p s
    unfold regionLoopR
    simp only [h.regionStep hg, ih]

theorem Mute.tryAnon (r : Nat) (c n : Nat) : ∀ (es : List Entry) (p : P) (s : SM P W),
    tryAnonR M sem callG r c n es p s = tryAnonR M sem call r c n es p s := by
  intro es
  induction es with
  | nil => intro p s; rfl
  | cons e es ih =>
    intro p s
    unfold tryAnonR
    simp only [h.execGuard hg, h.fire hg, ih]

theorem Mute.callHandler (ev : EventTy) (p : P) (s : SM P W) :
    callHandlerR M sem callG ev p s = callHandlerR M sem call ev p s := by
  unfold callHandlerR
  cases (M.decl M.root).handler with
  | none => rfl
  | some hd => simp only [h.runCb (hg.handler _ _ _ _ _ _)]

end

/-! ## The none event -/

theorem Prog.Untouched.run {α : Type} {p : P} (pr : Prog P W α) : pr.Untouched p →
    ∀ {s s' : SM P W} {b : α × P}, runProg call pr s = .ok b s' → b.2 = p := by
  induction pr with
  | ret a q w => intro hu s s' b h; cases h; exact hu
  | throw x w => intro _ s s' b h; cases h
  | ub => intro _ s s' b h; cases h
  | call op w k ih =>
    intro hu s s' b h
    unfold Hsm.runProg at h
    split at h
    · exact ih _ _ (hu _ _) h
    · exact ih _ _ (hu _ _) h
    · cases h
    · cases h

theorem Prog.Untouched.runCb {α : Type} {p : P} {pr : Prog P W α} (hu : pr.Untouched p)
    {rec : Option α → Call P} {s s' : SM P W} {b : α × P} (h : Hsm.runCb call pr rec s = .ok b s') :
    b.2 = p := by
  unfold Hsm.runCb at h
  split at h
  · rename_i heq; cases h; exact Prog.Untouched.run pr hu heq
  · cases h
  · cases h
  · cases h

section
variable (hk : sem.KeepsNone)
include hk

theorem execGuardR_keeps {x : Exec} {p : P} {s s' : SM P W} {b : Bool × P}
    (h : execGuardR M sem call x .none p s = .ok b s') : b.2 = p := by
  unfold execGuardR at h
  cases hx : x.guard with
  | none => rw [hx] at h; cases h; rfl
  | some g =>
    rw [hx] at h
    dsimp only at h
    generalize (if x.internal = true then x.src else x.dst) = dst at h
    split at h
    · exact Prog.Untouched.runCb (hk.guard g _ p s.world rfl) h
    · cases h

theorem runCbsR_keeps {args : Args} (ha : args.event = .none) :
    ∀ (cs : List (Phase × Cb)) {p p' : P} {s s' : SM P W},
      runCbsR sem call args cs p s = .ok p' s' → p' = p
  | [], _, _, _, _, h => by cases h; rfl
  | (ph, a) :: cs, p, p', s, s', h => by
    unfold runCbsR at h
    cases hc : runCb call (sem.action a args p s.world) (fun u => .action ph a args p u.isNone s.cur) s with
    | ok b s1 =>
      rw [hc] at h
      have h1 := Prog.Untouched.runCb (hk.action a args p s.world ha) hc
      exact (runCbsR_keeps ha cs h).trans h1
    | throw x s1 => rw [hc] at h; cases h
    | ub u => rw [hc] at h; cases h
    | timeout => rw [hc] at h; cases h

theorem fireR_keeps {r : Nat} {e : Entry} {x : Exec} {p p' : P} {s s' : SM P W}
    (h : fireR M sem call r .none e x p s = .ok p' s') : p' = p := by
  unfold fireR at h
  cases hu : updateState M r e s with
  | ok a s1 =>
    rw [hu] at h
    simp only [Res.bind] at h
    unfold execActionR at h
    split at h
    · cases h; rfl
    · split at h
      · refine runCbsR_keeps hk ?_ _ h
        unfold actionArgs
        split <;> rfl
      · cases h
  | throw x s1 => rw [hu] at h; cases h
  | ub u => rw [hu] at h; cases h
  | timeout => rw [hu] at h; cases h

theorem tryAnonR_keeps {r c n : Nat} : ∀ (es : List Entry) {p : P} {s s' : SM P W} {b : Bool × P},
    tryAnonR M sem call r c n es p s = .ok b s' → b.2 = p
  | [], _, _, _, _, h => by cases h; rfl
  | e :: es, p, s, s', b, h => by
    unfold tryAnonR at h
    split at h
    · cases h
    · rename_i x _
      cases hg : execGuardR M sem call x .none p s with
      | ok gp s1 =>
        rw [hg] at h
        have h1 := execGuardR_keeps hk hg
        simp only [Res.bind] at h
        by_cases hb : gp.1 = true
        · rw [if_pos hb] at h
          cases hf : fireR M sem call r .none e x gp.2 s1 with
          | ok p2 s2 =>
            rw [hf] at h
            cases h
            exact (fireR_keeps hk hf).trans h1
          | throw x s1 => rw [hf] at h; cases h
          | ub u => rw [hf] at h; cases h
          | timeout => rw [hf] at h; cases h
        · rw [if_neg hb] at h
          split at h
          · exact (tryAnonR_keeps es h).trans h1
          · cases h
      | throw x s1 => rw [hg] at h; cases h
      | ub u => rw [hg] at h; cases h
      | timeout => rw [hg] at h; cases h

end

section
variable (h : Mute ok call callG) (hg : sem.Polite ok) (hk : sem.KeepsNone)
include h hg hk

theorem Mute.anonRound : ∀ (rs : List Nat) (agf : Bool) (s : SM P W),
    anonRoundR M sem call rs agf sem.nonePayload s
      = (anonRoundGR M sem callG rs agf s).bind fun o s => .ok (o, sem.nonePayload) s
  | [], _, _ => rfl
  | r :: rs, agf, s => by
    unfold anonRoundR anonRoundGR
    cases hl : readCur r s with
    | ok c s1 =>
      simp only [Res.bind]
      by_cases hc : c < M.size
      · rw [if_pos hc, if_pos hc]
        cases s1.table .none c with
        | nil => rfl
        | cons e es =>
          dsimp only
          rw [h.tryAnon hg]
          cases ht : tryAnonR M sem call r c (e :: es).length (e :: es) sem.nonePayload s1 with
          | ok fp s2 =>
            simp only []
            rw [tryAnonR_keeps hk _ ht, Mute.anonRound rs]
            rfl
          | throw x s1 => rfl
          | ub u => rfl
          | timeout => rfl
      · rw [if_neg hc, if_neg hc]
    | throw x s1 => rfl
    | ub u => rfl
    | timeout => rfl

theorem Mute.anonLoop : ∀ (fuel : Nat) (s : SM P W),
    anonLoopR M sem call fuel sem.nonePayload s = anonLoopGR M sem callG fuel s
  | 0, _ => rfl
  | fuel + 1, s => by
    unfold anonLoopR anonLoopGR
    rw [h.anonRound hg hk]
    cases anonRoundGR M sem callG (List.range (currentRegions M s)) true s with
    | ok o s1 =>
      simp only [Res.bind]
      rcases o with _ | _ | _
      · rfl
      · exact Mute.anonLoop fuel s1
      · rfl
    | throw x s1 => rfl
    | ub u => rfl
    | timeout => rfl

theorem Mute.processInternal (fuel : Nat) (ev : EventTy) (p : P) (s : SM P W) :
    processInternalGR M sem callG fuel ev p s
      = (processInternalR M sem call fuel ev p s).bind fun rp s => .ok (rp.1.handled, rp.2) s := by
  unfold processInternalGR processInternalR
  rw [h.regionLoop hg]
  cases regionLoopR M sem call ev (List.range (currentRegions M s)) true true p s with
  | ok op s1 =>
    obtain ⟨o, p1⟩ := op
    cases o with
    | deferred => rfl
    | done agf ati =>
      simp only [Res.bind]
      cases ati with
      | true => rfl
      | false =>
        cases agf with
        | true => rfl
        | false =>
          simp only [Bool.false_eq_true, if_false]
          unfold processAnonGR processAnonR
          rw [h.anonLoop hg hk]
          generalize (if M.hasAnon = true then anonLoopGR M sem callG fuel s1 else .ok () s1) = o
          cases o <;> rfl
  | throw x s1 => rfl
  | ub u => rfl
  | timeout => rfl

theorem Mute.processEvent (hd : M.deferring = false) (fuel : Nat) (ev : EventTy) (p : P) (s : SM P W) :
    ((processEventGR M sem callG fuel ev p s).bind fun _ s => .ok true s)
      = (processEventR M sem call fuel ev p s).bind fun _ s => .ok true s := by
  unfold processEventGR processEventR processDeferredGR processDeferredR
  rw [h.processInternal hg hk, Machine.hasDefer_eq, hd]
  simp only [Bool.false_eq_true, if_false, h.callHandler hg]
  cases processInternalR M sem call fuel ev p s with
  | ok rp s1 =>
    obtain ⟨o, q⟩ := rp
    cases o with
    | allTransitionsInvalid =>
      simp only [Res.bind, ProcRes.handled, Bool.false_eq_true, if_false]
      cases callHandlerR M sem call ev q s1 <;> rfl
    | deferred => rfl
    | allGuardsFailed => rfl
    | processed => rfl
  | throw x s1 => rfl
  | ub u => rfl
  | timeout => rfl

end

/-! ## The property -/

/-- C98, calls: one call on a machine object does the same to it under both headers, with all calls that
callbacks make meanwhile; only what it returns may differ. -/
theorem C98_step (hM : M.Regular) (hP : M.PlainInternals) (hd : M.deferring = false)
    (hg : sem.Good True (OpOkGR M)) (hi : sem.Incurious) (hk : sem.KeepsNone) (fuel n : Nat) {op : Op P}
    (hop : OpOkGR M op) (s : SM P W) :
    stepGR M sem fuel n op s = (stepR M sem fuel n op s).bind fun _ s => .ok true s := by
  induction n generalizing op s with
  | zero => rfl
  | succ n ih =>
    cases op with
    | process ev p =>
      exact Mute.processEvent (call := stepR M sem fuel n) (callG := stepGR M sem fuel n)
        (ok := fun op _ => OpOkGR M op) (fun op s hop => ih hop s) (hg.polite hi) hk hd fuel ev p s
    | set r p st => exact hop.elim
    | setDependency d =>
      unfold stepGR stepR setDependencyG setDependency
      dsimp only
      rw [Machine.fillG_eq hM hP]
      cases M.fill d s.table <;> rfl

/-- C98: with callbacks that use the machine but do not look at what `process_event` returns, a machine of
the amalgamated header that defers nothing and whose internal rows are plain can be in a state after some
calls exactly if a machine of the modular headers can be in the same state after the same calls. -/
theorem C98_runs_partial (hM : M.Regular) (hP : M.PlainInternals) (hd : M.deferring = false)
    (hg : sem.Good True (OpOkGR M)) (hi : sem.Incurious) (hk : sem.KeepsNone) (d : Dep) (ops : List (Op P))
    (hops : ∀ op ∈ ops, OpOkGR M op) (s : SM P W) : RunToGR M sem d ops s ↔ RunToR M sem d ops s := by
  have hok : ∀ {op : Op P}, OpOkGR M op → OpOk M op := by
    intro op h
    cases op with
    | process ev p => exact (Machine.eventIdsG_mem hP).1 h
    | set r p st => exact h.elim
    | setDependency d => trivial
  constructor
  · intro h
    induction h with
    | init h => exact .init (constructG_eq hM hP d _ ▸ h)
    | @ok s t ops op fuel n b hr hop h ih =>
      rw [C98_step hM hP hd hg hi hk fuel n hop] at h
      cases hs : stepR M sem fuel n op s with
      | ok b' s' =>
        rw [hs] at h
        cases h
        exact .ok (ih fun op ho => hops op (by simp [ho])) (hok hop) hs
      | throw x s' => rw [hs] at h; cases h
      | ub u => rw [hs] at h; cases h
      | timeout => rw [hs] at h; cases h
    | @throw s t ops op fuel n x hr hop h ih =>
      rw [C98_step hM hP hd hg hi hk fuel n hop] at h
      cases hs : stepR M sem fuel n op s with
      | ok b' s' => rw [hs] at h; cases h
      | throw x s' =>
        rw [hs] at h
        cases h
        exact .throw (ih fun op ho => hops op (by simp [ho])) (hok hop) hs
      | ub u => rw [hs] at h; cases h
      | timeout => rw [hs] at h; cases h
    | world hr w ih => exact .world (ih hops) w
  · intro h
    induction h with
    | init h => exact .init (constructG_eq hM hP d _ ▸ h)
    | @ok s t ops op fuel n b hr hop h ih =>
      have hop' := hops op (by simp)
      refine .ok (b := true) (ih fun op ho => hops op (by simp [ho])) hop' (fuel := fuel) (n := n) ?_
      rw [C98_step hM hP hd hg hi hk fuel n hop', h]
      rfl
    | @throw s t ops op fuel n x hr hop h ih =>
      have hop' := hops op (by simp)
      refine .throw (x := x) (ih fun op ho => hops op (by simp [ho])) hop' (fuel := fuel) (n := n) ?_
      rw [C98_step hM hP hd hg hi hk fuel n hop', h]
      rfl
    | world hr w ih => exact .world (ih hops) w

end

/-! ## Witnesses -/

namespace Ex

theorem makes_incurious {α : Type} {a : α} {p : Nat} : ∀ {ops : List (Op Nat)} {w : List Nat},
    (makes a p ops w).Incurious
  | [], _ => trivial
  | _ :: _, _ => ⟨fun _ => rfl, fun _ _ => makes_incurious⟩

theorem semR_incurious {on : Nat → Bool} {asks calls : Nat → List (Op Nat)} :
    (semR on asks calls).Incurious :=
  ⟨fun _ _ _ _ => makes_incurious, fun _ _ _ _ => makes_incurious, fun _ _ _ _ _ _ => makes_incurious⟩

theorem makes_untouched {α : Type} {a : α} {p : Nat} : ∀ {ops : List (Op Nat)} {w : List Nat},
    (makes a p ops w).Untouched p
  | [], _ => rfl
  | _ :: _, _ => fun _ _ => makes_untouched

theorem semR_keepsNone {on : Nat → Bool} {asks calls : Nat → List (Op Nat)} :
    (semR on asks calls).KeepsNone :=
  ⟨fun _ _ _ _ _ => makes_untouched, fun _ _ _ _ _ => makes_untouched⟩

theorem hop_plain : hop.PlainInternals := plain_of_check (by decide +kernel)

theorem hop_okG (n : Nat) (h : n < 3) (p : Nat) : OpOkGR hop (.process (ev n) p) := by
  have : ∀ n < 3, decide (ev n ∈ hop.eventIdsG) = true := by decide +kernel
  exact (of_decide_eq_true (this n h) : ev n ∈ hop.eventIdsG)

/-- C98 applies to `hop` with a guard that moves the machine and an action that moves it, too: after event 0
both headers have been through the same. -/
example : ∃ (sem : SemR Nat (List Nat)) (s : SM Nat (List Nat)), RunToR hop sem 7 [.process (ev 0) 1] s ∧
    RunToGR hop sem 7 [.process (ev 0) 1] s ∧ s.log.length = 4 := by
  obtain ⟨s, h1, h2⟩ := exists_runR hop
    (semR (fun _ => true) (only 100 [.process (ev 1) 2]) (only 1 [.process (ev 2) 3, .process (ev 1) 4]))
    (fuel := 5) (n := 5) (d := 7) (w := []) (ops := [.process (ev 0) 1])
    (f := fun s => decide (s.log.length = 4)) (by decide +kernel)
  refine ⟨_, s, h1, ?_, of_decide_eq_true h2⟩
  refine (C98_runs_partial hop_regular hop_plain (by decide +kernel)
    (semR_good (only_all ?_) (only_all ?_)) semR_incurious semR_keepsNone 7 _ ?_ s).2 h1
  · intro op h; cases List.mem_singleton.1 h; exact hop_okG 1 (by decide) _
  · intro op h
    simp only [List.mem_cons, List.not_mem_nil, or_false] at h
    rcases h with rfl | rfl
    · exact hop_okG 2 (by decide) _
    · exact hop_okG 1 (by decide) _
  · intro op h; cases List.mem_singleton.1 h; exact hop_okG 0 (by decide) _

end Ex

section
open Ex

/-- C98 does not hold for machines that defer events: an event the action sends and that is rejected has the
event that waits handled within the action under the amalgamated header, but not under the modular headers;
so what the action sends next finds the machine elsewhere. -/
theorem C98_refuted : ¬ ∀ (M : Machine), M.Regular → M.RegularG → M.Scoped → M.PlainInternals →
    ∀ (sem : SemR Nat (List Nat)), sem.Good True (OpOkGR M) → sem.Incurious → sem.KeepsNone →
    ∀ (fuel n : Nat) (d : Dep) (w : List Nat) (ops : List (Op Nat)) (c c' : Conf Nat (List Nat)),
    (∀ op ∈ ops, OpOkGR M op) → M.execAllR sem fuel n ops (M.fresh d w) = some c →
    M.execAllGR sem fuel n ops (M.fresh d w) = some c' → c'.world = c.world := by
  intro h
  have h := h waiting waiting_regular waiting_regularG waiting_scoped waiting_plain hasty hasty_ok
    semR_incurious semR_keepsNone 5 5 7 [] [.process (ev 1) 4, .process (ev 0) 1]
  have h1 : (waiting.execAllR hasty 5 5 [.process (ev 1) 4, .process (ev 0) 1] (waiting.fresh 7 [])).map
      (fun c => c.world) = some [1, 100, 2, 3] := by decide +kernel
  have h2 : (waiting.execAllGR hasty 5 5 [.process (ev 1) 4, .process (ev 0) 1] (waiting.fresh 7 [])).map
      (fun c => c.world) = some [1, 100, 3] := by decide +kernel
  obtain ⟨c, hc, e1⟩ := Option.map_eq_some_iff.1 h1
  obtain ⟨c', hc', e2⟩ := Option.map_eq_some_iff.1 h2
  have := h c c' (by
    intro op hop
    simp only [List.mem_cons, List.not_mem_nil, or_false] at hop
    rcases hop with rfl | rfl
    · exact waiting_okG 1 (by decide) _
    · exact waiting_okG 0 (by decide) _) hc hc'
  rw [e1, e2] at this
  cases this

end

end Hsm
