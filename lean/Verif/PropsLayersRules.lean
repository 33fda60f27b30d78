import Verif.PropsLayersCheck
import Verif.PropsMonitor
import Verif.PropsMonitorGen

/-!
# Rules about what callbacks observe hold in layered programs (C131)
-/

namespace Hsm

/-! ## Specification -/

/-- The callback a client sees being called. -/
def Sign.callback : Sign → Option (Call Unit)
  | .call k => some k
  | _ => none

/-- The event a client sends. -/
def Sign.sent : Sign → Option EventTy
  | .event e => some e
  | _ => none

/-- The event a call hands over. -/
def Op.sent {P : Type} : Op P → Option EventTy
  | .process ev _ => some ev
  | _ => none

/-- The call is one of `process_event`. -/
def Op.Sends {P : Type} : Op P → Prop
  | .process _ _ => True
  | _ => False

/-- The monitor only listens to callbacks being called. -/
def Monitor.Overhears {Q : Type} (mon : Monitor Q) : Prop :=
  ∀ q s, s.callback = none → mon.step q s = some q

/-- What the record of a machine says was called. -/
def SM.heard {P W : Type} (s : SM P W) : List Sign := s.trace.map fun k => .call k.plain

/-! ## The record only grows -/

section
variable {P W : Type} {M : Machine} {sem : Sem P W}

theorem Sem.lift_runs {Q : Op P → Prop} : Runs sem.lift (fun _ => True) Q (fun _ : SM P W => True) where
  guards call hc g a p s hs := runProg_lasts (fun _ _ _ => trivial) hc _ s
    (by show (sem.guard g a p s.world).prog.Good _ _; cases sem.guard g a p s.world <;> trivial) hs
  actions call hc c a p s hs := runProg_lasts (fun _ _ _ => trivial) hc _ s
    (by show (sem.action c a p s.world).prog.Good _ _; cases sem.action c a p s.world <;> trivial) hs
  handlers call hc c e st d p s hs := runProg_lasts (fun _ _ _ => trivial) hc _ s
    (by show (sem.handler c e st d p s.world).prog.Good _ _; cases sem.handler c e st d p s.world <;> trivial) hs

theorem Res.satU_true {σ α : Type} (r : Res σ α) :
    r.SatU (fun _ => True) (fun _ _ => True) (fun _ _ => True) := by
  cases r <;> trivial

theorem KeepsLoop.lift (Q : Op P → Prop) : KeepsLoop M sem.lift (fun _ => True) Q (fun _ => True)
    (fun _ => True) (fun _ _ _ _ => True) :=
  { Sem.lift_runs with
    traced := by intros; trivial
    obj := by intros; trivial
    regions := by intros; trivial
    look := by intros; exact Or.inl fun _ => trivial
    entry := by intros; trivial
    null := by intros; trivial
    stay := by intros; trivial
    iter := by intros; trivial
    move := by intros; exact Res.satU_true _
    push := by intros; trivial
    pop := by intros; trivial
    handler := by intros; exact Or.inl fun _ => trivial }

theorem step_grows (fuel : Nat) {op : Op P} (hop : OpOk M op) (s : SM P W) :
    (step M sem fuel op s).SatU (fun _ => True) (fun _ s' => s.trace <+: s'.trace)
      (fun _ s' => s.trace <+: s'.trace) := by
  have hk : Keeps M sem.lift (fun _ => True) (OpOk M) (fun _ => True) (fun _ => True) (fun _ _ _ _ => True) :=
    { KeepsLoop.lift _ with
      opOk := fun _ h => h
      set := by intros; trivial
      dep := by intros; exact Res.satU_true _ }
  have := hk.held fuel 1 op s hop trivial
  rw [stepR_lift] at this
  generalize step M sem fuel op s = q at this
  cases q <;> first | exact this.2.1 | trivial

theorem stepG_grows (hM : M.RegularG) (fuel : Nat) {op : OpG P} (hop : OpOkG M op) (s : SM P W) :
    (stepG M sem fuel op s).SatU (fun _ => True) (fun _ s' => s.trace <+: s'.trace)
      (fun _ s' => s.trace <+: s'.trace) := by
  have hk : KeepsG M sem.lift (fun _ => True) (OpOkGR M) (fun _ => True) (fun _ => True) (fun _ _ _ _ => True) :=
    { KeepsLoop.lift _ with
      known := fun _ _ h => GivesDG.known (D := fun _ => True) hM ⟨h, fun _ _ => trivial⟩
      dep := by intros; exact Res.satU_true _ }
  have := hk.held fuel 1 op.op s (opOkGR_op.2 hop) trivial
  rw [stepGR_lift] at this
  generalize stepG M sem fuel op s = q at this
  cases q <;> first | exact this.2.1 | trivial

theorem construct_silent {d : Dep} {w : W} {s : SM P W} (hs : construct M d w = .ok s) : s.trace = [] := by
  obtain ⟨_, _, _, _, _, _, _, _, htr, _⟩ := construct_ok hs
  exact htr

theorem constructG_silent {d : Dep} {w : W} {s : SM P W} (hs : constructG M d w = .ok s) : s.trace = [] := by
  obtain ⟨H, T, _, hT, hI⟩ := constructG_ok hs
  obtain ⟨_, hTs, ⟨init, h0, hcur, _⟩, hin, hhi, _, _, htr, hlog⟩ := initState_ok hI
  exact htr

theorem heard_since {s s' : SM P W} (h : s.trace <+: s'.trace) : s.heard ++ callsSince s s' = s'.heard := by
  obtain ⟨l, hl⟩ := h
  unfold SM.heard callsSince
  rw [← hl]
  simp

theorem callbacks_heard (l : List (Call P)) :
    (l.map fun k => Sign.call k.plain).filterMap Sign.callback = l.map Call.plain := by
  induction l with
  | nil => rfl
  | cons a l ih => simp [Sign.callback, ih]

theorem sent_heard (l : List (Call P)) :
    (l.map fun k => Sign.call k.plain).filterMap Sign.sent = [] := by
  induction l with
  | nil => rfl
  | cons a l ih => simp [Sign.sent]

/-- What is observed, up to a point, has as its callbacks what is on record. -/
theorem observed_append {ss : List Sign} {s s' : SM P W} {ev : EventTy} {last : Sign} (hl : last.callback = none)
    (hl' : last.sent = none) {evs : List EventTy} (h1 : ss.filterMap Sign.callback = s.trace.map Call.plain)
    (h2 : ss.filterMap Sign.sent = evs) (h : s.trace <+: s'.trace) :
    (ss ++ .event ev :: callsSince s s' ++ [last]).filterMap Sign.callback = s'.trace.map Call.plain ∧
    (ss ++ .event ev :: callsSince s s' ++ [last]).filterMap Sign.sent = evs ++ [ev] := by
  obtain ⟨l, hl2⟩ := h
  have e : callsSince s s' = l.map fun k => Sign.call k.plain := by
    unfold callsSince
    rw [← hl2]
    simp
  rw [e]
  constructor
  · have e1 : [last].filterMap Sign.callback = [] := by rw [List.filterMap_cons, hl]; rfl
    rw [List.filterMap_append, List.filterMap_append, e1, List.append_nil, ← hl2, List.map_append, h1,
      ← callbacks_heard l]
    rfl
  · have e1 : [last].filterMap Sign.sent = [] := by rw [List.filterMap_cons, hl']; rfl
    have e2 : (.event ev :: l.map fun k => Sign.call k.plain).filterMap Sign.sent = [ev] := by
      rw [List.filterMap_cons]
      show ev :: _ = _
      rw [sent_heard]
    rw [List.filterMap_append, List.filterMap_append, e1, List.append_nil, e2, h2]

theorem RunTo.observed {d : Dep} {ops : List (Op P)} {s : SM P W} (hr : RunTo M sem d ops s)
    (ho : ∀ op ∈ ops, op.Sends) : ∃ ss, Observed M sem d ss s ∧
      ss.filterMap Sign.callback = s.trace.map Call.plain ∧ ss.filterMap Sign.sent = ops.filterMap Op.sent := by
  induction hr with
  | init h => exact ⟨[], .init h, by rw [construct_silent h]; rfl, rfl⟩
  | @ok s s' ops op fuel b hr hop h ih =>
    obtain ⟨ss, h1, h2, h3⟩ := ih fun o hm => ho o (List.mem_append_left _ hm)
    have := ho op (by simp)
    cases op with
    | set r p st => cases this
    | setDependency d => cases this
    | process ev p =>
      have hg := step_grows (sem := sem) fuel hop s
      rw [h] at hg
      obtain ⟨h4, h5⟩ := observed_append (last := .answer b) (ev := ev) rfl rfl h2 h3 hg
      exact ⟨_, h1.ok hop h, h4, by rw [h5]; simp [Op.sent]⟩
  | @throw s s' ops op fuel x hr hop h ih =>
    obtain ⟨ss, h1, h2, h3⟩ := ih fun o hm => ho o (List.mem_append_left _ hm)
    have := ho op (by simp)
    cases op with
    | set r p st => cases this
    | setDependency d => cases this
    | process ev p =>
      have hg := step_grows (sem := sem) fuel hop s
      rw [h] at hg
      obtain ⟨h4, h5⟩ := observed_append (last := .exception) (ev := ev) rfl rfl h2 h3 hg
      exact ⟨_, h1.throw hop h, h4, by rw [h5]; simp [Op.sent]⟩
  | world hr w ih =>
    obtain ⟨ss, h1, h2, h3⟩ := ih ho
    exact ⟨ss, h1.world w, h2, h3⟩

theorem RunToG.observed (hM : M.RegularG) {d : Dep} {ops : List (OpG P)} {s : SM P W} (hr : RunToG M sem d ops s)
    (ho : ∀ op ∈ ops, op.op.Sends) : ∃ ss, ObservedG M sem d ss s ∧
      ss.filterMap Sign.callback = s.trace.map Call.plain ∧
      ss.filterMap Sign.sent = (ops.map OpG.op).filterMap Op.sent := by
  induction hr with
  | init h => exact ⟨[], .init h, by rw [constructG_silent h]; rfl, rfl⟩
  | @ok s s' ops op fuel hr hop h ih =>
    obtain ⟨ss, h1, h2, h3⟩ := ih fun o hm => ho o (List.mem_append_left _ hm)
    have := ho op (by simp)
    cases op with
    | setDependency d => cases this
    | process ev p =>
      have hg := stepG_grows (sem := sem) hM fuel hop s
      rw [h] at hg
      obtain ⟨h4, h5⟩ := observed_append (last := .answer true) (ev := ev) rfl rfl h2 h3 hg
      exact ⟨_, h1.ok hop h, h4, by rw [h5]; simp [Op.sent, OpG.op]⟩
  | @throw s s' ops op fuel x hr hop h ih =>
    obtain ⟨ss, h1, h2, h3⟩ := ih fun o hm => ho o (List.mem_append_left _ hm)
    have := ho op (by simp)
    cases op with
    | setDependency d => cases this
    | process ev p =>
      have hg := stepG_grows (sem := sem) hM fuel hop s
      rw [h] at hg
      obtain ⟨h4, h5⟩ := observed_append (last := .exception) (ev := ev) rfl rfl h2 h3 hg
      exact ⟨_, h1.throw hop h, h4, by rw [h5]; simp [Op.sent, OpG.op]⟩
  | world hr w ih =>
    obtain ⟨ss, h1, h2, h3⟩ := ih ho
    exact ⟨ss, h1.world w, h2, h3⟩

end

section
variable {Q : Type} {mon : Monitor Q}

/-- A monitor that only listens to callbacks hears nothing else. -/
theorem Monitor.Overhears.all (h : mon.Overhears) : ∀ (ss : List Sign) (q : Option Q),
    mon.hearAll q ((ss.filterMap Sign.callback).map .call) = mon.hearAll q ss := by
  intro ss
  induction ss with
  | nil => intro q; rfl
  | cons s ss ih =>
    intro q
    cases q with
    | none => rw [Monitor.hearAll_none, Monitor.hearAll_none]
    | some q =>
      cases hs : s.callback with
      | none =>
        rw [List.filterMap_cons, hs]
        show _ = mon.hearAll (mon.step q s) ss
        rw [h q s hs]
        exact ih _
      | some k =>
        rw [List.filterMap_cons, hs]
        cases s <;> cases hs
        exact ih _

theorem Monitor.Keeps.before {ss ss' : List Sign} (h : mon.Keeps ss') (hp : ss <+: ss') : mon.Keeps ss := by
  obtain ⟨l, rfl⟩ := hp
  intro hn
  refine h ?_
  unfold Monitor.hearAll at *
  rw [List.foldl_append, hn]
  exact Monitor.hearAll_none l

end

/-! ## C131 -/

section
variable {ι P W Q : Type} [DecidableEq ι] [DecidableEq Q] {Ms : ι → Machine} {sem : SemS ι P W} {layer : ι → Nat}
  {d : ι → Dep} {ops : List (ι × Op P)} {h : Hub ι P W} {mon : Monitor Q} {i : ι} {S : List (Stage × Eye Q)}

/-- C131: the rules a machine keeps on its own it keeps in a layered program.  The signs are those of the machine on
its own: the callbacks in them are those on record in the program, and the events sent from outside are among
the events in them, in order. -/
theorem C131_keeps (hs : sem.Layered Ms layer) (hO : sem.Good True fun _ => Op.Sends)
    (hr : RunToS Ms sem d ops h) (ho : ∀ x ∈ ops, x.2.Sends) (hM : (Ms i).Regular)
    (hS : (Ms i).seesAll mon S = true) (hk : keepsRules S = true) :
    ∃ ss, mon.Keeps ss ∧ Observed (Ms i) (sem.solo Ms i) (d i) ss (h.fetch i) ∧
      ss.filterMap Sign.callback = (h.parts i).trace.map Call.plain ∧
      ((callsOf i ops).filterMap Op.sent).Sublist (ss.filterMap Sign.sent) := by
  obtain ⟨ops', h1, h2, h3⟩ := C130_alone hs hO hr ho i
  obtain ⟨ss, h4, h5, h6⟩ := h3.observed h2
  exact ⟨ss, C86_keeps hM hS hk h4, h4, h5, by rw [h6]; exact h1.filterMap _⟩

/-- C131: a rule about callbacks only is kept by what is on record in the program, up to every point. -/
theorem C131_record (hs : sem.Layered Ms layer) (hO : sem.Good True fun _ => Op.Sends)
    (hr : RunToS Ms sem d ops h) (ho : ∀ x ∈ ops, x.2.Sends) (hM : (Ms i).Regular) (hm : mon.Overhears)
    (hS : (Ms i).seesAll mon S = true) (hk : keepsRules S = true) {ss : List Sign}
    (hss : ss <+: (h.parts i).heard) : mon.Keeps ss := by
  obtain ⟨ss', h1, _, h2, _⟩ := C131_keeps hs hO hr ho hM hS hk
  refine Monitor.Keeps.before ?_ hss
  unfold Monitor.Keeps SM.heard
  have := hm.all ss' (some mon.init)
  rw [h2, List.map_map] at this
  intro hn
  exact h1 (this.symm.trans hn)

/-- C131 for the amalgamated header. -/
theorem C131_keepsG (hs : sem.LayeredG Ms layer) (hO : sem.Good True fun _ => Op.Sends)
    (hr : RunToGS Ms sem d ops h) (ho : ∀ x ∈ ops, x.2.Sends) (hM : (Ms i).RegularG)
    (hS : (Ms i).seesAllG mon S = true) (hk : keepsRules S = true) :
    ∃ ss, mon.Keeps ss ∧ ObservedG (Ms i) (sem.soloG Ms i) (d i) ss (h.fetch i) ∧
      ss.filterMap Sign.callback = (h.parts i).trace.map Call.plain ∧
      ((callsOf i ops).filterMap Op.sent).Sublist (ss.filterMap Sign.sent) := by
  obtain ⟨ops', h1, h2, h3⟩ := (hr.led hs hO ho i).fetch
  obtain ⟨ops'', rfl, h3'⟩ := h3.plain
  obtain ⟨ss, h4, h5, h6⟩ := h3'.observed hM fun op hm => h2 _ (List.mem_map_of_mem hm)
  exact ⟨ss, C104_keeps hM hS hk h4, h4, h5, by rw [h6]; exact h1.filterMap _⟩

/-- C131, the record, for the amalgamated header. -/
theorem C131_recordG (hs : sem.LayeredG Ms layer) (hO : sem.Good True fun _ => Op.Sends)
    (hr : RunToGS Ms sem d ops h) (ho : ∀ x ∈ ops, x.2.Sends) (hM : (Ms i).RegularG) (hm : mon.Overhears)
    (hS : (Ms i).seesAllG mon S = true) (hk : keepsRules S = true) {ss : List Sign}
    (hss : ss <+: (h.parts i).heard) : mon.Keeps ss := by
  obtain ⟨ss', h1, _, h2, _⟩ := C131_keepsG hs hO hr ho hM hS hk
  refine Monitor.Keeps.before ?_ hss
  unfold Monitor.Keeps SM.heard
  have := hm.all ss' (some mon.init)
  rw [h2, List.map_map] at this
  intro hn
  exact h1 (this.symm.trans hn)

end

/-! ## Examples -/

namespace Programs
open Ex

theorem fair_overhears : fair.Overhears := by
  intro q s hs
  cases s <;> first | rfl | cases hs

/-- C131, turnstile: whichever machines use the turnstile of example/turnstile/main.cpp, it keeps its promise. -/
theorem C131_turnstile {ι P W : Type} [DecidableEq ι] {Ms : ι → Machine} {sem : SemS ι P W} {layer : ι → Nat}
    {d : ι → Dep} {ops : List (ι × Op P)} {h : Hub ι P W} {i : ι} (hi : Ms i = turnstile)
    (hs : sem.Layered Ms layer) (hO : sem.Good True fun _ => Op.Sends) (hr : RunToS Ms sem d ops h)
    (ho : ∀ x ∈ ops, x.2.Sends) : fair.Keeps (h.parts i).heard :=
  C131_record hs hO hr ho (by rw [hi]; exact turnstile_regular) fair_overhears
    (S := turnstile.watch fair 2) (by rw [hi]; decide +kernel) (by decide +kernel) List.prefix_rfl

/-- C131, turnstile, for the amalgamated header. -/
theorem C131_turnstileG {ι P W : Type} [DecidableEq ι] {Ms : ι → Machine} {sem : SemS ι P W} {layer : ι → Nat}
    {d : ι → Dep} {ops : List (ι × Op P)} {h : Hub ι P W} {i : ι} (hi : Ms i = turnstile)
    (hs : sem.LayeredG Ms layer) (hO : sem.Good True fun _ => Op.Sends) (hr : RunToGS Ms sem d ops h)
    (ho : ∀ x ∈ ops, x.2.Sends) : fair.Keeps (h.parts i).heard :=
  C131_recordG hs hO hr ho (by rw [hi]; exact Machine.regularG_ofList (by decide +kernel)) fair_overhears
    (S := turnstile.watchG fair 2) (by rw [hi]; decide +kernel) (by decide +kernel) List.prefix_rfl

/-- A machine that uses the turnstile. -/
def station (i : Bool) : Machine := if i then turnstile else hop

/-- The guard of the first machine sends a coin, its action 1 pushes. -/
def fares (i : Bool) (c : Nat) : List (Bool × Op Nat) :=
  if i = false ∧ c = 100 then [(true, .process coin 5)]
  else if i = false ∧ c = 1 then [(true, .process push 6)] else []

theorem fares_all {Q : Bool → Bool → Op Nat → Prop} (h1 : Q false true (.process coin 5))
    (h2 : Q false true (.process push 6)) (i : Bool) (c : Nat) : ∀ x ∈ fares i c, Q i x.1 x.2 := by
  intro x hx
  unfold fares at hx
  split at hx
  · rename_i h
    rw [List.mem_singleton.1 hx, h.1]
    exact h1
  · split at hx
    · rename_i h
      rw [List.mem_singleton.1 hx, h.1]
      exact h2
    · cases hx

theorem fares_layered : (semS true fares fares).Layered station rankOf := by
  have h1 : OpOk turnstile (.process coin 5 : Op Nat) := by apply opOkB_iff; decide +kernel
  have h2 : OpOk turnstile (.process push 6 : Op Nat) := by apply opOkB_iff; decide +kernel
  have h := fares_all (Q := fun i j op => rankOf j < rankOf i ∧ OpOk (station j) op) ⟨by decide, h1⟩ ⟨by decide, h2⟩
  exact ⟨fun i g _ _ _ => makesS_good (h i g), fun i c _ _ _ => makesS_good (h i c),
    fun i c _ _ _ _ _ => makesS_good (h i c)⟩

/-- The first machine is sent an event, its callbacks send a coin and push, and the client of the program pushes
once more: the turnstile's guard is asked twice, it blinks, and it beeps, not before it was pushed. -/
example : ∃ h, RunToS station (semS true fares fares) (fun _ => 7)
      [(false, .process (ev 0) 1), (true, .process push 2)] h ∧
    (h.parts true).trace.map Call.who = [noError, blink, noError, beep] ∧ fair.Keeps (h.parts true).heard := by
  obtain ⟨h, hr, hs⟩ := exists_runS station (semS true fares fares) (fuel := 5) (n := 5) (d := fun _ => 7) (w := [])
    (ops := [(false, .process (ev 0) 1), (true, .process push 2)])
    (f := fun h => (h.parts true).trace.map Call.who == [noError, blink, noError, beep]) (by decide +kernel)
  rw [beq_iff_eq] at hs
  refine ⟨h, hr, hs, C131_turnstile rfl fares_layered ?_ hr ?_⟩
  · exact semS_good (fares_all (Q := fun _ _ op => op.Sends) trivial trivial)
      (fares_all (Q := fun _ _ op => op.Sends) trivial trivial)
  · intro x hx
    rcases List.mem_cons.1 hx with rfl | hx
    · trivial
    · rw [List.mem_singleton.1 hx]; trivial

theorem fares_layeredG : (semS true fares fares).LayeredG station rankOf := by
  have h1 : OpOkGR turnstile (.process coin 5 : Op Nat) := by
    show coin ∈ turnstile.eventIdsG
    decide +kernel
  have h2 : OpOkGR turnstile (.process push 6 : Op Nat) := by
    show push ∈ turnstile.eventIdsG
    decide +kernel
  have h := fares_all (Q := fun i j op => rankOf j < rankOf i ∧ OpOkGR (station j) op) ⟨by decide, h1⟩ ⟨by decide, h2⟩
  exact ⟨fun i g _ _ _ => makesS_good (h i g), fun i c _ _ _ => makesS_good (h i c),
    fun i c _ _ _ _ _ => makesS_good (h i c)⟩

/-- The same with the amalgamated header. -/
example : ∃ h, RunToGS station (semS true fares fares) (fun _ => 7)
      [(false, .process (ev 0) 1), (true, .process push 2)] h ∧
    (h.parts true).trace.map Call.who = [noError, blink, noError, beep] ∧ fair.Keeps (h.parts true).heard := by
  obtain ⟨h, hr, hs⟩ := exists_runGS station (semS true fares fares) (fuel := 5) (n := 5) (d := fun _ => 7) (w := [])
    (ops := [(false, .process (ev 0) 1), (true, .process push 2)])
    (f := fun h => (h.parts true).trace.map Call.who == [noError, blink, noError, beep]) (by decide +kernel)
  rw [beq_iff_eq] at hs
  refine ⟨h, hr, hs, C131_turnstileG rfl fares_layeredG ?_ hr ?_⟩
  · exact semS_good (fares_all (Q := fun _ _ op => op.Sends) trivial trivial)
      (fares_all (Q := fun _ _ op => op.Sends) trivial trivial)
  · intro x hx
    rcases List.mem_cons.1 hx with rfl | hx
    · trivial
    · rw [List.mem_singleton.1 hx]; trivial

/-- The rule is not empty: had the turnstile beeped after a coin, it would be broken. -/
example (a : Args) : ¬ fair.Keeps [.call (.guard noError { a with event := coin } () (some true) []),
    .call (.action .action beep a () false [])] := fun h => h rfl

end Programs
end Hsm
