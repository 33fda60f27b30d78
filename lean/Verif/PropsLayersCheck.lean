import Verif.PropsLayersGen
import Verif.PropsHang
import Verif.PropsCheckerGen

/-!
# Checks for one machine hold in layered programs (C130)
-/

namespace Hsm

/-! ## Callbacks made defined -/

section
variable {P W : Type} {M : Machine}

/-- A callback that throws instead of doing something undefined. -/
def CbRes.made {α : Type} (p : P) (w : W) : CbRes P W α → CbRes P W α
  | .ub => .throw 0 p w
  | r => r

/-- The same callbacks, throwing where they did something undefined. -/
def Sem.made (sem : Sem P W) : Sem P W where
  guard g a p w := (sem.guard g a p w).made p w
  action c a p w := (sem.action c a p w).made p w
  handler c e st d p w := (sem.handler c e st d p w).made p w
  alive := sem.alive
  nonePayload := sem.nonePayload

theorem CbRes.made_ne {α : Type} {p : P} {w : W} {r : CbRes P W α} : r.made p w ≠ .ub := by
  cases r <;> exact fun h => nomatch h

theorem CbRes.made_eq {α : Type} {p : P} {w : W} (r : CbRes P W α) : True ∧ r = .ub ∨ r.made p w = r := by
  cases r <;> first | exact Or.inl ⟨trivial, rfl⟩ | exact Or.inr rfl

theorem Sem.made_fills (sem : Sem P W) : sem.made.Fills True sem :=
  ⟨fun _ _ _ _ => CbRes.made_eq _, fun _ _ _ _ => CbRes.made_eq _, fun _ _ _ _ _ _ => CbRes.made_eq _,
    fun _ _ => rfl, rfl⟩

theorem CbRes.made_tracks {α : Type} (r : CbRes P W α) (p : P) (call : Op P → SM P W → Res (SM P W) Bool) (s : SM P W)
    (w w' : W) (hw : s.world = w') : (runProg call r.prog s).Tracks True True (fun _ => True) Eq
      (runProg call (r.made p w).prog (s.rebase w')) := by
  cases r with
  | ok a p v => exact ⟨rfl, v, rfl, rfl⟩
  | throw n p v => exact ⟨v, rfl, rfl⟩
  | ub => exact ⟨trivial, trivial⟩

theorem Sem.made_tracks (sem : Sem P W) (call : Op P → SM P W → Res (SM P W) Bool) :
    sem.lift.Tracks True True (fun _ => True) Eq call sem.made.lift call where
  guard g a p s w' hw := by
    subst hw
    exact (sem.guard g a p s.world).made_tracks p call s _ _ rfl
  action c a p s w' hw := by
    subst hw
    exact (sem.action c a p s.world).made_tracks p call s _ _ rfl
  handler c e st d p s w' hw := by
    subst hw
    exact (sem.handler c e st d p s.world).made_tracks p call s _ _ rfl
  alive st w w' hw := by rw [hw]; rfl
  nonePayload := rfl

theorem SM.rebase_self (s : SM P W) : s.rebase s.world = s := rfl

theorem Res.Tracks.ok_eq {α : Type} {a : α} {s : SM P W} {q : Res (SM P W) α}
    (h : Res.Tracks True True (fun _ => True) Eq (.ok a s) q) : q = .ok a s := by
  cases q <;> first | exact h.elim | (obtain ⟨rfl, w', rfl, rfl⟩ := h; rfl)

theorem Res.Tracks.throw_eq {α : Type} {x : Exn} {s : SM P W} {q : Res (SM P W) α}
    (h : Res.Tracks True True (fun _ => True) Eq (.throw x s) q) : ∃ x', q = .throw x' s := by
  cases q <;> first | exact h.elim | (obtain ⟨w', rfl, rfl⟩ := h; exact ⟨_, rfl⟩)

theorem step_made (sem : Sem P W) (fuel : Nat) (op : Op P) (s : SM P W) :
    (step M sem fuel op s).Tracks True True (fun _ => True) Eq (step M sem.made fuel op s) := by
  rw [← stepR_lift fuel 0, ← stepR_lift fuel 0]
  cases op with
  | process ev p => exact processEventR_tracks (sem.made_tracks _) fuel ev p (w' := s.world) rfl
  | set r p st =>
    exact (setOp_sim (M := M) (ρ := Eq) (w' := s.world) rfl r p st).tracks.bind fun _ s w' h => ⟨rfl, w', rfl, h⟩
  | setDependency d =>
    exact (setDependency_sim (M := M) (ρ := Eq) (w' := s.world) rfl d).tracks.bind fun _ s w' h => ⟨rfl, w', rfl, h⟩

theorem RunTo.made {sem : Sem P W} {d : Dep} {ops : List (Op P)} {s : SM P W} (h : RunTo M sem d ops s) :
    RunTo M sem.made d ops s := by
  induction h with
  | init h => exact .init h
  | @ok s s' ops op fuel b hr hop h ih =>
    have := step_made (M := M) sem fuel op s
    rw [h] at this
    exact ih.ok hop this.ok_eq
  | @throw s s' ops op fuel x hr hop h ih =>
    have := step_made (M := M) sem fuel op s
    rw [h] at this
    obtain ⟨x', hx⟩ := this.throw_eq
    exact ih.throw hop hx
  | world hr w ih => exact ih.world w

/-! The same with the amalgamated header. -/

theorem stepGR_made (sem : Sem P W) (fuel : Nat) (op : OpG P) (s : SM P W) :
    (stepGR M sem.lift fuel 1 op.op s).Tracks True True (fun _ => True) Eq
      (stepGR M sem.made.lift fuel 1 op.op s) := by
  cases op with
  | process ev p =>
    exact (processEventGR_tracks (sem.made_tracks _) fuel ev p (w' := s.world) rfl).bind
      fun _ s w' h => ⟨rfl, w', rfl, h⟩
  | setDependency d =>
    exact (setDependencyG_sim (M := M) (ρ := Eq) (w' := s.world) rfl d).tracks.bind fun _ s w' h => ⟨rfl, w', rfl, h⟩

theorem RunToG.made {sem : Sem P W} {d : Dep} {ops : List (OpG P)} {s : SM P W} (h : RunToG M sem d ops s) :
    RunToG M sem.made d ops s := by
  induction h with
  | init h => exact .init h
  | @ok s s' ops op fuel hr hop h ih =>
    have := stepGR_made (M := M) sem fuel op s
    rw [stepGR_lift, stepGR_lift, h] at this
    have := this.ok_eq
    cases hq : stepG M sem.made fuel op s <;> rw [hq] at this <;> cases this
    exact ih.ok hop hq
  | @throw s s' ops op fuel x hr hop h ih =>
    have := stepGR_made (M := M) sem fuel op s
    rw [stepGR_lift, stepGR_lift, h] at this
    obtain ⟨x', this⟩ := this.throw_eq
    cases hq : stepG M sem.made fuel op s <;> rw [hq] at this <;> cases this
    exact ih.throw hop hq
  | world hr w ih => exact ih.world w

end

/-! ## The properties -/

/-- `set` is called only with arguments in `A`. -/
def Op.SetIn {P : Type} (A : List SetArgs) : Op P → Prop
  | .set r p st => (r, p, st) ∈ A
  | _ => True

theorem setsIn_of {P : Type} {A : List SetArgs} {ops : List (Op P)} (h : ∀ op ∈ ops, op.SetIn A) : SetsIn A ops :=
  fun r p st hm => h (.set r p st) hm

section
variable {ι P W : Type} [DecidableEq ι] {Ms : ι → Machine} {sem : SemS ι P W} {layer : ι → Nat} {d : ι → Dep}
  {ops : List (ι × Op P)} {h : Hub ι P W} {A : ι → List SetArgs} {S : ι → List (Bool × Spot)}

/-- C130: if the callbacks of a layered program make only calls of a certain kind, and so does the client, then the
members of each machine are those after calls of that kind on the machine on its own. -/
theorem C130_alone {O : ι → Op P → Prop} (hs : sem.Layered Ms layer) (hO : sem.Good True O)
    (hr : RunToS Ms sem d ops h) (ho : ∀ x ∈ ops, O x.1 x.2) (i : ι) :
    ∃ ops', (callsOf i ops).Sublist ops' ∧ (∀ op ∈ ops', O i op) ∧
      RunTo (Ms i) (sem.solo Ms i) (d i) ops' (h.fetch i) :=
  (hr.led hs hO ho i).fetch

/-- C130: the spots listed for a machine are all the places it can be at in a layered program. -/
theorem C130_places (hs : sem.Layered Ms layer) (hO : sem.Good True fun i op => op.SetIn (A i))
    (hr : RunToS Ms sem d ops h) (ho : ∀ x ∈ ops, x.2.SetIn (A x.1)) {i : ι} (hM : (Ms i).Regular)
    (hS : (Ms i).closed (A i) (S i) = true) : ∃ n, (false, n) ∈ S i ∧ IsAt (Ms i) (h.fetch i) n := by
  obtain ⟨ops', _, h1, h2⟩ := C130_alone hs hO hr ho i
  exact C80_closed hM hS h2 (setsIn_of h1)

theorem SemS.Good.may {O : ι → Op P → Prop} {Y : Prop} (h : sem.Good Y O) : sem.Good True O :=
  ⟨fun i g a p w => (h.guard i g a p w).mono (fun _ => trivial) fun _ _ h => h,
    fun i c a p w => (h.action i c a p w).mono (fun _ => trivial) fun _ _ h => h,
    fun i c e st d p w => (h.handler i c e st d p w).mono (fun _ => trivial) fun _ _ h => h⟩

/-- C130: if every machine of a layered program is accepted by the checker, nothing undefined happens. -/
theorem C130_defined (hs : sem.Layered Ms layer) (hO : sem.Good False fun i op => op.SetIn (A i))
    (hr : RunToS Ms sem d ops h) (ho : ∀ x ∈ ops, x.2.SetIn (A x.1)) (hM : ∀ i, (Ms i).Regular)
    (hS : ∀ i, (Ms i).closed (A i) (S i) = true) (hsafe : ∀ i, (Ms i).safe (S i) = true)
    (objects : ∀ i st w, (Ms i).selfMade st = true ∨ sem.alive i st w = true) (fuel n : Nat) {i : ι} {op : Op P}
    (hop : OpOk (Ms i) op) (hop' : op.SetIn (A i)) : (stepS Ms sem fuel n i op h).Defined := by
  have key : ∀ n (j : ι) (op : Op P) (h : Hub ι P W), OpOk (Ms j) op → op.SetIn (A j) →
      LedBelow Ms sem (fun i op => op.SetIn (A i)) layer d (fun _ => []) (layer j) h →
      Led Ms sem (fun i op => op.SetIn (A i)) d [] j (h.parts j) → (stepS Ms sem fuel n j op h).Defined := by
    intro n
    induction n with
    | zero => intro j op h _ _ _ _ u hu; cases hu
    | succ n ih =>
      intro j op h hop hop' hl hlj
      obtain ⟨q, h1, h2⟩ := stepS_tracks (T := True) (X := True) (V := fun _ => False)
        (Φ := LedBelow Ms sem (fun i op => op.SetIn (A i)) layer d (fun _ => []) (layer j))
        (fuel := fuel) (n := n) (j := j) hs LedBelow.congr
        (fun k op g hk hop hop' hg => (stepS_led hs hO.may d _ fuel n hk hop hop' hg).imp fun _ h => h.1)
        (Or.inl trivial)
        (fun k op g hk hop hop' hg u hu =>
          ih k op g hop hop' (fun i hi => hg i (Nat.lt_trans hi hk)) (hg k hk) u hu)
        (fun h => h.elim) hO (sem.solo Ms j).made_fills op (h := h) hl
      obtain ⟨ops', _, ho', hr'⟩ := hlj.fetch
      have hd := C80_defined (hM j) (hS j) (hsafe j) (sem := (sem.solo Ms j).made) (fun st w => objects j st w.user)
        (fun _ _ _ _ => CbRes.made_ne) (fun _ _ _ _ => CbRes.made_ne) (fun _ _ _ _ _ _ => CbRes.made_ne)
        hr'.made (setsIn_of ho') hop fuel
      rw [h1]
      intro u hu
      cases q with
      | ok b s => cases hu
      | throw x s => cases hu
      | timeout => cases hu
      | ub u =>
        revert hd h2
        generalize step (Ms j) (sem.solo Ms j).made fuel op (h.fetch j) = q'
        intro hd h2
        cases q' <;> first | exact h2.2 | exact hd _ rfl
  have hl := hr.led hs hO.may ho
  exact key n i op h hop hop' (fun k _ => (hl k).mono (List.nil_sublist _)) ((hl i).mono (List.nil_sublist _))

/-- C130: if the checker finds a bound for the rounds of anonymous rows of every machine, every call ends. -/
theorem C130_ends (hs : sem.Layered Ms layer) (hO : sem.Good True fun i op => op.SetIn (A i))
    (hr : RunToS Ms sem d ops h) (ho : ∀ x ∈ ops, x.2.SetIn (A x.1)) (hM : ∀ i, (Ms i).Regular)
    (hS : ∀ i, (Ms i).closed (A i) (S i) = true) {k : ι → Nat} (hk : ∀ i, (Ms i).calm (k i) (S i) = true)
    {fuel n : Nat} (hf : ∀ i, k i ≤ fuel) {i : ι} {op : Op P} (hop : OpOk (Ms i) op) (hn : layer i < n) :
    stepS Ms sem fuel n i op h ≠ .timeout :=
  stepS_ends hs hO (fun j _ _ _ h1 h2 h3 => C84_returns (hM j) (hS j) (hk j) h2 (setsIn_of h1) h3 (hf j)) hr ho hop hn

/-- C130, places, for the amalgamated header. -/
theorem C130_placesG (hs : sem.LayeredG Ms layer) (hr : RunToGS Ms sem d ops h) {i : ι} (hM : (Ms i).RegularG)
    (hS : (Ms i).closedG (S i) = true) : ∃ n, (false, n) ∈ S i ∧ IsAt (Ms i) (h.fetch i) n := by
  obtain ⟨ops', _, h2⟩ := C128_alone hs hr i
  exact C103_closed hM hS h2

/-- C130, nothing undefined, for the amalgamated header. -/
theorem C130_definedG (hs : sem.LayeredG Ms layer) (hO : sem.Good False fun _ _ => True)
    (hr : RunToGS Ms sem d ops h) (hM : ∀ i, (Ms i).RegularG) (hS : ∀ i, (Ms i).closedG (S i) = true)
    (hsafe : ∀ i, (Ms i).safeG (S i) = true)
    (objects : ∀ i st w, (Ms i).selfMade st = true ∨ sem.alive i st w = true) (fuel n : Nat) {i : ι} {op : Op P}
    (hop : OpOkGR (Ms i) op) : (stepGS Ms sem fuel n i op h).Defined := by
  have key : ∀ n (j : ι) (op : Op P) (h : Hub ι P W), OpOkGR (Ms j) op →
      LedBelowG Ms sem (fun _ _ => True) layer d (fun _ => []) (layer j) h →
      LedG Ms sem (fun _ _ => True) d [] j (h.parts j) → (stepGS Ms sem fuel n j op h).Defined := by
    intro n
    induction n with
    | zero => intro j op h _ _ _ u hu; cases hu
    | succ n ih =>
      intro j op h hop hl hlj
      obtain ⟨q, h1, h2⟩ := stepGS_tracks (T := True) (X := True) (V := fun _ => False)
        (Φ := LedBelowG Ms sem (fun _ _ => True) layer d (fun _ => []) (layer j))
        (fuel := fuel) (n := n) (j := j) hs LedBelowG.congr
        (fun k op g hk hop hop' hg => (stepGS_led hs hO.may d _ fuel n hk hop hop' hg).imp fun _ h => h.1)
        (Or.inl trivial)
        (fun k op g hk hop hop' hg u hu =>
          ih k op g hop (fun i hi => hg i (Nat.lt_trans hi hk)) (hg k hk) u hu)
        (fun h => h.elim) hO (sem.soloG Ms j).made_fills op (h := h) hl
      obtain ⟨ops', _, _, hr'⟩ := hlj.fetch
      obtain ⟨ops'', _, hr''⟩ := hr'.plain
      obtain ⟨o, rfl⟩ := hop.op
      have hd := C103_defined (hM j) (hS j) (hsafe j) (sem := (sem.soloG Ms j).made) (fun st w => objects j st w.user)
        (fun _ _ _ _ => CbRes.made_ne) (fun _ _ _ _ => CbRes.made_ne) (fun _ _ _ _ _ _ => CbRes.made_ne)
        hr''.made (opOkGR_op.1 hop) fuel
      rw [h1]
      intro u hu
      cases q with
      | ok b s => cases hu
      | throw x s => cases hu
      | timeout => cases hu
      | ub u =>
        revert hd h2
        rw [stepGR_lift fuel 0 o]
        generalize stepG (Ms j) (sem.soloG Ms j).made fuel o (h.fetch j) = q'
        intro hd h2
        cases q' <;> first | exact h2.2 | exact hd _ rfl
  have hl := hr.led hs hO.may fun _ _ => trivial
  exact key n i op h hop (fun k _ => (hl k).mono (List.nil_sublist _)) ((hl i).mono (List.nil_sublist _))

/-- C130, all calls end, for the amalgamated header. -/
theorem C130_endsG (hs : sem.LayeredG Ms layer) (hr : RunToGS Ms sem d ops h) (hM : ∀ i, (Ms i).RegularG)
    (hS : ∀ i, (Ms i).closedG (S i) = true) {k : ι → Nat} (hk : ∀ i, (Ms i).calmG (k i) (S i) = true)
    {fuel n : Nat} (hf : ∀ i, k i ≤ fuel) {i : ι} {op : Op P} (hop : OpOkGR (Ms i) op) (hn : layer i < n) :
    stepGS Ms sem fuel n i op h ≠ .timeout :=
  C128_ends hs (fun j _ _ _ h2 h3 => C103_returns (hM j) (hS j) (hk j) h2 h3 (hf j)) hr hop hn

end

/-! ## Examples -/

namespace Ex

/-- A machine with cyclic anonymous rows, and one with a composite that has too many regions. -/
def clockwork (i : Bool) : Machine := if i then dormant else pendulum

/-- Guards of the first machine send an event to the second. -/
def ticks (i : Bool) (_ : Nat) : List (Bool × Op Nat) := if i then [] else [(true, .process (ev 0) 5)]

theorem dormant_ok : OpOk dormant (.process (ev 0) 5 : Op Nat) := by
  show ev 0 ∈ dormant.eventIds
  decide +kernel

theorem dormant_okG : OpOkGR dormant (.process (ev 0) 5 : Op Nat) := by
  show ev 0 ∈ dormant.eventIdsG
  decide +kernel

theorem ticks_all {Q : Bool → Bool → Op Nat → Prop} (h : Q false true (.process (ev 0) 5)) (i : Bool) (c : Nat) :
    ∀ x ∈ ticks i c, Q i x.1 x.2 := by
  cases i with
  | false => intro x hx; rw [List.mem_singleton.1 hx]; exact h
  | true => exact fun x hx => absurd hx List.not_mem_nil

theorem clockwork_layered : (semS true ticks quietS).Layered clockwork rankOf :=
  ⟨fun i g _ _ _ => makesS_good (ticks_all (Q := fun i j op => rankOf j < rankOf i ∧ OpOk (clockwork j) op)
    ⟨by decide, dormant_ok⟩ i g), fun _ _ _ _ _ => makesS_good fun _ h => absurd h List.not_mem_nil,
    fun _ _ _ _ _ _ _ => makesS_good fun _ h => absurd h List.not_mem_nil⟩

theorem clockwork_good {U : Prop} : (semS true ticks quietS).Good U fun _ op => op.SetIn [] :=
  semS_good (ticks_all (Q := fun _ _ op => op.SetIn []) trivial) fun _ _ _ h => absurd h List.not_mem_nil

/-- What the checker lists. -/
def clockworkSpots (i : Bool) : List (Bool × Spot) := if i then dormant.explore [] 1 else pendulum.explore [] 3

theorem clockwork_regular (i : Bool) : (clockwork i).Regular := by
  cases i
  · exact pendulum_regular
  · exact dormant_regular

/-- C130 applies, for clients that do not call `set`: no call is undefined, and none needs more than two rounds. -/
example {d : Bool → Dep} {ops : List (Bool × Op Nat)} {h : Hub Bool Nat (List Nat)}
    (hr : RunToS clockwork (semS true ticks quietS) d ops h) (ho : ∀ x ∈ ops, x.2.SetIn []) {i : Bool} {op : Op Nat}
    (hop : OpOk (clockwork i) op) (hop' : op.SetIn []) :
    (stepS clockwork (semS true ticks quietS) 2 2 i op h).Defined ∧
      stepS clockwork (semS true ticks quietS) 2 2 i op h ≠ .timeout := by
  have hS : ∀ i, (clockwork i).closed [] (clockworkSpots i) = true := by decide +kernel
  have hsafe : ∀ i, (clockwork i).safe (clockworkSpots i) = true := by decide +kernel
  have hk : ∀ i, (clockwork i).calm 2 (clockworkSpots i) = true := by decide +kernel
  exact ⟨C130_defined (A := fun _ => []) clockwork_layered clockwork_good hr ho clockwork_regular hS hsafe
    (fun _ _ _ => Or.inr rfl) 2 2 hop hop',
    C130_ends (A := fun _ => []) clockwork_layered clockwork_good hr ho clockwork_regular hS (k := fun _ => 2) hk
      (fun _ => Nat.le_refl _) hop (by cases i <;> decide)⟩

/-- The program has histories with calls, in which the guard of the first machine is asked and calls the second. -/
example : ∃ h, RunToS clockwork (semS true ticks quietS) (fun _ => 7) [(false, .process (ev 0) 1)] h ∧
    h.user = [0] ∧ (h.parts true).log.length = 1 := by
  obtain ⟨h, hr, hs⟩ := exists_runS clockwork (semS true ticks quietS) (fuel := 2) (n := 2) (d := fun _ => 7) (w := [])
    (ops := [(false, .process (ev 0) 1)])
    (f := fun h => h.user == [0] && (h.parts true).log.length == 1) (by decide +kernel)
  simp only [Bool.and_eq_true, beq_iff_eq] at hs
  exact ⟨h, hr, hs.1, hs.2⟩

theorem pendulum_swings {ρ : Name × StTy → Nat} (h : Acyclic pendulum ρ) {a : StTy} {b : Name}
    (ha : a ∈ pendulum.states)
    (hab : (pendulum.cands .none 0 a).any (fun c => c.row?.any fun t =>
      decide (t.target = .st b ∧ pendulum.targetLoc t = some (0, .st b))) = true) : ρ (0, .st b) < ρ (0, a) := by
  obtain ⟨c, hc, hx⟩ := List.any_eq_true.1 hab
  rcases hr : c.row? with _ | t
  · rw [hr] at hx; cases hx
  · rw [hr] at hx
    obtain ⟨h1, h2⟩ := of_decide_eq_true (p := t.target = .st b ∧ pendulum.targetLoc t = some (0, .st b)) hx
    refine (h 0 (by decide +kernel) a ha c hc t hr).2 (0, .st b) ?_
    unfold Leads
    rw [h1]
    exact h2

/-- C127_acyclic and C129 say nothing: the rows of the first machine are cyclic, and the second is not safe. -/
example : (∀ ρ, ¬ Acyclic (clockwork false) ρ) ∧ ¬ SafeS clockwork (semS true ticks quietS) true := by
  refine ⟨fun ρ h => ?_, fun h => ?_⟩
  · have h1 := pendulum_swings h (a := .st 2) (b := 3) (by decide +kernel) (by decide +kernel)
    have h2 := pendulum_swings h (a := .st 3) (b := 2) (by decide +kernel) (by decide +kernel)
    omega
  · exact absurd h.regions (by
      show ¬ ∀ p ∈ dormant.composites, (dormant.declaredInitials p).length ≤ (dormant.declaredInitials dormant.root).length
      decide +kernel)

theorem clockwork_layeredG : (semS true ticks quietS).LayeredG clockwork rankOf :=
  ⟨fun i g _ _ _ => makesS_good (ticks_all (Q := fun i j op => rankOf j < rankOf i ∧ OpOkGR (clockwork j) op)
    ⟨by decide, dormant_okG⟩ i g), fun _ _ _ _ _ => makesS_good fun _ h => absurd h List.not_mem_nil,
    fun _ _ _ _ _ _ _ => makesS_good fun _ h => absurd h List.not_mem_nil⟩

/-- What the checker for the amalgamated header lists. -/
def clockworkSpotsG (i : Bool) : List (Bool × Spot) := if i then dormant.exploreG 1 else pendulum.exploreG 2

/-- The same with the amalgamated header, for all clients. -/
example {d : Bool → Dep} {ops : List (Bool × Op Nat)} {h : Hub Bool Nat (List Nat)}
    (hr : RunToGS clockwork (semS true ticks quietS) d ops h) {i : Bool} {op : Op Nat}
    (hop : OpOkGR (clockwork i) op) : (stepGS clockwork (semS true ticks quietS) 2 2 i op h).Defined ∧
      stepGS clockwork (semS true ticks quietS) 2 2 i op h ≠ .timeout := by
  have hS : ∀ i, (clockwork i).closedG (clockworkSpotsG i) = true := by decide +kernel
  have hsafe : ∀ i, (clockwork i).safeG (clockworkSpotsG i) = true := by decide +kernel
  have hk : ∀ i, (clockwork i).calmG 2 (clockworkSpotsG i) = true := by decide +kernel
  have hM : ∀ i, (clockwork i).RegularG := fun i => by
    cases i
    · exact pendulum_regularG
    · exact Machine.regularG_ofList (by decide +kernel)
  exact ⟨C130_definedG clockwork_layeredG
    (semS_good (ticks_all (Q := fun _ _ _ => True) trivial) fun _ _ _ h => absurd h List.not_mem_nil) hr hM hS hsafe
    (fun _ _ _ => Or.inr rfl) 2 2 hop,
    C130_endsG clockwork_layeredG hr hM hS (k := fun _ => 2) hk (fun _ => Nat.le_refl _) hop (by cases i <;> decide)⟩

end Ex
end Hsm
