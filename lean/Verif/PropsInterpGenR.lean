import Verif.InterpGenR
import Verif.ReentrantGen
import Verif.PropsInterpGen
import Verif.PropsInterpR
import Verif.PropsGenAll

/-!
# The model and the interpreter for the amalgamated header and callbacks that use the machine (C97)
-/

namespace Hsm

/-- The machine object `s` of the amalgamated header is a picture of the configuration `c`, the rest of the
program being the same in the sense of `U`. -/
abbrev DepictsGIn {P W W' : Type} (M : Machine) (U : W → W' → Prop) (c : Conf P W') (s : SM P W) : Prop :=
  Portrait M M.entriesG M.eventsG U c s

/-- The same outcome. -/
abbrev AgreesGIn {P W W' α β : Type} (M : Machine) (U : W → W' → Prop) (V : α → β → Prop)
    (r : Res (SM P W) α) (q : Res (Conf P W') β) : Prop :=
  AgreesOn M M.entriesG M.eventsG U V r q

section
variable {P W W' : Type} {M : Machine} {sem : SemR P W} {semC : SemR P W'} {U : W → W' → Prop} {s : SM P W}
  {c : Conf P W'}
  {call : Op P → SM P W → Res (SM P W) Bool} {callC : Op P → Conf P W' → Res (Conf P W') Bool}

/-- What calls from inside do is the same on both sides. -/
abbrev EchoG (M : Machine) (U : W → W' → Prop) (call : Op P → SM P W → Res (SM P W) Bool)
    (callC : Op P → Conf P W' → Res (Conf P W') Bool) : Prop :=
  EchoOn M M.entriesG M.eventsG U (OpOkGR M) call callC

theorem entriesG_length (hM : M.RegularG) (deps : List Dep) (ev : EventTy) (l : Name × StTy) :
    (M.entriesG deps ev l.1 l.2).length = deps.length * (M.candsG ev l.1 l.2).length := by
  rw [Machine.entriesG_pairs]
  have key : ∀ cs : List (Dep × Cand), Sound M cs →
      (cs.filterMap fun x => M.entryOfCand x.1 x.2).length = cs.length := by
    intro cs
    induction cs with
    | nil => intro _; rfl
    | cons x cs ih =>
      intro h
      have ih := ih fun y hy => h y (List.mem_cons_of_mem _ hy)
      have : ∃ e, M.entryOfCand x.1 x.2 = some e := by
        rcases h x List.mem_cons_self with hx | ⟨t, l, hr, hl, _⟩
        · rw [hx]; exact ⟨_, rfl⟩
        · obtain ⟨e, _, he, _⟩ := entryOfCand_full (M := M) (d := x.1) hr hl
          exact ⟨e, he⟩
      obtain ⟨e, he⟩ := this
      rw [List.filterMap_cons_some (f := fun x : Dep × Cand => M.entryOfCand x.1 x.2) he,
        List.length_cons, ih, List.length_cons]
  rw [key _ (sound_candsG hM deps ev l)]
  induction deps with
  | nil => simp
  | cons d ds ih =>
    rw [List.flatMap_cons, List.length_append, ih, List.length_map, List.length_cons, Nat.succ_mul,
      Nat.add_comm]

/-- The cell a loop runs over is as long as it was just if no dependency was added. -/
theorem cell_sameG (hM : M.RegularG) (h : DepictsGIn M U c s) (ev : EventTy) {l : Name × StTy}
    (hp : l.1 ∈ M.composites) (hl : l.2 ∈ M.states) (hn : M.candsG ev l.1 l.2 ≠ []) (deps : List Dep) :
    (s.table ev (M.comb l.1 l.2)).length = (M.entriesG deps ev l.1 l.2).length ↔
      c.deps.length = deps.length := by
  rw [h.table ev l.1 l.2 hp hl, entriesG_length hM, entriesG_length hM]
  have := List.length_pos_iff.2 hn
  constructor
  · exact Nat.eq_of_mul_eq_mul_right this
  · intro h; rw [h]

theorem DepictsG.visitGR (h : DepictsGIn M U c s) (hM : M.RegularG) (he : EchoG M U call callC)
    (hg : SemR.Kin U (OpOkGR M) sem semC) (r : Nat) (ev : EventTy) (p : P) :
    AgreesGIn M U Eq (regionStepR M sem call r ev p s) (M.visitGR semC callC false r ev p c) := by
  unfold regionStepR Machine.visitGR
  refine Portrait.lookupR h hM.laid ev (f := fun k es s => match es with
      | [] => .ok (.none, p) s
      | es => tryEntriesR M sem call r ev k es.length es p s)
    (g := fun l c => if M.candsG ev l.1 l.2 = [] then .ok (.none, p) c
      else M.attemptR semC callC false r ev c.deps.length
        (c.deps.flatMap fun d => (M.candsG ev l.1 l.2).map fun cd => (d, cd)) p c) ?_
  intro l hp hls
  by_cases hn : M.candsG ev l.1 l.2 = []
  · rw [if_pos hn, (Machine.entriesG_eq_nil hM h.bound).2 hn]
    exact ⟨rfl, h⟩
  · have hne : M.entriesG c.deps ev l.1 l.2 ≠ [] := fun h' =>
      hn ((Machine.entriesG_eq_nil hM h.bound).1 h')
    have := Portrait.attemptR hM.laid he hg r ev (fun h => cell_sameG hM h ev hp hls hn c.deps) _ (sound_candsG hM c.deps ev l) h p
    rw [← Machine.entriesG_pairs] at this
    rw [if_neg hn]
    revert this hne
    cases M.entriesG c.deps ev l.1 l.2 with
    | nil => intro h' _; exact absurd rfl h'
    | cons e es => intro _ h; exact h

theorem DepictsG.sweepGR (hM : M.RegularG) (he : EchoG M U call callC) (hg : SemR.Kin U (OpOkGR M) sem semC)
    (ev : EventTy) : ∀ (rs : List Nat) (os : List RegionOut)
    (agf ati : Bool), Flags os agf ati → ∀ {c : Conf P W'} {s : SM P W}, DepictsGIn M U c s → ∀ p : P,
    AgreesGIn M U (fun a b => b.2 = a.2 ∧
        ((a.1 = .deferred ∧ RegionOut.deferred ∈ b.1) ∨
          ∃ agf ati, a.1 = .done agf ati ∧ Flags b.1 agf ati))
      (regionLoopR M sem call ev rs agf ati p s) (M.sweepGR semC callC ev rs os p c) := by
  intro rs
  induction rs with
  | nil => intro os agf ati hF c s h p; exact ⟨⟨rfl, Or.inr ⟨_, _, rfl, hF⟩⟩, h⟩
  | cons r rs ih =>
    intro os agf ati hF c s h p
    unfold regionLoopR Machine.sweepGR
    refine (DepictsG.visitGR h hM he hg r ev p).bind fun a b s c hab h => ?_
    subst hab
    obtain ⟨o, p⟩ := a
    have hF' := fun ho => hF.snoc (o := o) ho
    cases o with
    | none =>
      rw [if_neg (by simp)]
      have := hF' (by simp)
      simp only [ne_eq, reduceCtorEq, not_false_eq_true, decide_true, Bool.and_true] at this
      exact ih _ _ _ this h p
    | rejected =>
      rw [if_neg (by simp)]
      have := hF' (by simp)
      simp only [ne_eq, reduceCtorEq, not_false_eq_true, decide_true, Bool.and_true, decide_false,
        Bool.and_false] at this
      exact ih _ _ _ this h p
    | fired =>
      rw [if_neg (by simp)]
      have := hF' (by simp)
      simp only [ne_eq, reduceCtorEq, not_true_eq_false, decide_false, Bool.and_false] at this
      exact ih _ _ _ this h p
    | deferred =>
      rw [if_pos rfl]
      exact ⟨⟨rfl, Or.inl ⟨rfl, by simp⟩⟩, h⟩

theorem DepictsG.roundGR (hM : M.RegularG) (he : EchoG M U call callC) (hg : SemR.Kin U (OpOkGR M) sem semC) : ∀ (rs : List Nat) (os : List RegionOut) (agf : Bool),
    agf = decide (RegionOut.fired ∉ os) → ∀ {c : Conf P W'} {s : SM P W}, DepictsGIn M U c s →
    AgreesGIn M U (fun a b => b = true ↔ a = some false)
      (anonRoundGR M sem call rs agf s) (M.roundGR semC callC rs os c) := by
  intro rs
  induction rs with
  | nil =>
    intro os agf hF c s h
    refine ⟨?_, h⟩
    subst hF
    simp
  | cons r rs ih =>
    intro os agf hF c s h
    unfold anonRoundGR Machine.roundGR Machine.visitGR
    rw [Res.bind_assoc, ← hg.nonePayload]
    generalize hpp : sem.nonePayload = p
    have := Portrait.lookupR h hM.laid .none (r := r)
      (f := fun k es s => match es with
        | [] => .ok none s
        | es => (tryAnonR M sem call r k es.length es p s).bind fun fp s => anonRoundGR M sem call rs (agf && !fp.1) s)
      (g := fun l c => (if M.candsG .none l.1 l.2 = [] then .ok (.none, p) c
        else M.attemptR semC callC true r .none c.deps.length
          (c.deps.flatMap fun d => (M.candsG .none l.1 l.2).map fun cd => (d, cd)) p c).bind
            fun o c => if o.1 = .none then .ok false c else M.roundGR semC callC rs (os ++ [o.1]) c)
      (V := fun a b => b = true ↔ a = some false) ?_
    · revert this
      generalize (readCur r s).bind _ = x
      intro h
      have e : ∀ l : Name × StTy, ∀ c : Conf P W', ((if l.1 ∈ M.composites then
          if M.candsG .none l.1 l.2 = [] then .ok (.none, p) c
          else M.attemptR semC callC true r .none c.deps.length
            (c.deps.flatMap fun d => (M.candsG .none l.1 l.2).map fun cd => (d, cd)) p c
          else .ub .bounds : Res (Conf P W') (RegionOut × P)).bind
            fun o c => if o.1 = .none then .ok false c
              else M.roundGR semC callC rs (os ++ [o.1]) c) =
          if l.1 ∈ M.composites then (if M.candsG .none l.1 l.2 = [] then .ok (.none, p) c
            else M.attemptR semC callC true r .none c.deps.length
              (c.deps.flatMap fun d => (M.candsG .none l.1 l.2).map fun cd => (d, cd)) p c).bind
              fun o c => if o.1 = .none then .ok false c
                else M.roundGR semC callC rs (os ++ [o.1]) c
          else .ub .bounds := by
        intro l c
        split <;> rfl
      simp only [e]
      exact h
    · intro l hp hls
      by_cases hn : M.candsG .none l.1 l.2 = []
      · rw [if_pos hn, (Machine.entriesG_eq_nil hM h.bound).2 hn]
        exact ⟨by simp, h⟩
      · have hne : M.entriesG c.deps .none l.1 l.2 ≠ [] := fun h' =>
          hn ((Machine.entriesG_eq_nil hM h.bound).1 h')
        have := Portrait.attemptAnonR hM.laid he hg r (fun h => cell_sameG hM h .none hp hls hn c.deps) _ (sound_candsG hM c.deps .none l) h p
        rw [← Machine.entriesG_pairs] at this
        rw [if_neg hn]
        revert this hne
        cases M.entriesG c.deps .none l.1 l.2 with
        | nil => intro h' _; exact absurd rfl h'
        | cons e es =>
          intro _ h
          refine h.bind fun a b s c hab h => ?_
          obtain ⟨b1, b2⟩ := b
          obtain ⟨h1, h2⟩ := hab
          dsimp only at h1 h2
          subst h1 h2
          rw [if_neg (by dsimp only; split <;> simp)]
          refine ih _ _ ?_ h
          subst hF
          cases a.1 <;> simp

theorem DepictsG.settleGR (hM : M.RegularG) (he : EchoG M U call callC) (hg : SemR.Kin U (OpOkGR M) sem semC) (fuel : Nat) : ∀ {c : Conf P W'} {s : SM P W},
    DepictsGIn M U c s → AgreesGIn M U (fun _ _ => True) (anonLoopGR M sem call fuel s) (M.settleGR semC callC fuel c) := by
  induction fuel with
  | zero => intro c s h; trivial
  | succ n ih =>
    intro c s h
    unfold anonLoopGR Machine.settleGR
    rw [h.taking]
    refine (DepictsG.roundGR hM he hg _ [] true (by simp) h).bind ?_
    rintro a b s c h2 h
    cases a with
    | none =>
      rw [if_neg (by simp [h2])]
      exact ⟨trivial, h⟩
    | some x =>
      cases x with
      | true => rw [if_neg (by simp [h2])]; exact ⟨trivial, h⟩
      | false => rw [if_pos (by simp [h2])]; exact ih h

theorem DepictsG.handleGR (h : DepictsGIn M U c s) (hM : M.RegularG) (he : EchoG M U call callC) (hg : SemR.Kin U (OpOkGR M) sem semC) (fuel : Nat) (ev : EventTy) (p : P) :
    AgreesGIn M U (fun a b => b.2 = a.2 ∧ (a.1 = false ↔ ∀ o ∈ b.1, o = RegionOut.none))
      (processInternalGR M sem call fuel ev p s) (M.handleGR semC callC fuel ev p c) := by
  unfold processInternalGR Machine.handleGR
  rw [h.taking]
  refine (DepictsG.sweepGR hM he hg ev _ [] true true ⟨by simp, by simp, by simp⟩ h p).bind ?_
  rintro ⟨a1, a2⟩ ⟨b1, b2⟩ s c ⟨h1, h2⟩ h
  dsimp only at h1 h2 ⊢
  subst h1
  have hyes : ∀ o ∈ b1, o ≠ RegionOut.none → (true = false ↔ ∀ o ∈ b1, o = RegionOut.none) := by
    intro o ho hn
    constructor
    · intro h; cases h
    · intro h; exact absurd (h o ho) hn
  rcases h2 with ⟨rfl, hd⟩ | ⟨agf, ati, rfl, hF⟩
  · rw [if_neg fun h' => h'.1 hd]
    exact ⟨⟨rfl, hyes _ hd (by simp)⟩, h⟩
  · obtain ⟨h1, h2, h3⟩ := hF
    dsimp only
    by_cases hall : ∀ o ∈ b1, o = RegionOut.none
    · have hnf : RegionOut.fired ∉ b1 := fun h' => by cases hall _ h'
      rw [h2, decide_eq_true hall, if_pos rfl, if_neg fun h' => hnf h'.2.1]
      exact ⟨⟨rfl, by simpa using hall⟩, h⟩
    · rw [h2, decide_eq_false hall]
      simp only [Bool.false_eq_true, if_false]
      have hno : (true = false ↔ ∀ o ∈ b1, o = RegionOut.none) :=
        ⟨fun h => (by cases h), fun h => absurd h hall⟩
      by_cases hf : RegionOut.fired ∈ b1
      · rw [h1, decide_eq_false (not_not.2 hf)]
        simp only [Bool.false_eq_true, if_false]
        unfold processAnonGR
        rw [Machine.hasAnon_eq]
        by_cases ha : M.anonymous = true
        · rw [if_pos ha, if_pos ⟨h3, hf, ha⟩]
          exact (DepictsG.settleGR hM he hg fuel h).bind fun _ _ s c _ h => ⟨⟨rfl, hno⟩, h⟩
        · rw [if_neg ha, if_neg fun h' => ha h'.2.2]
          exact ⟨⟨rfl, hno⟩, h⟩
      · rw [h1, decide_eq_true hf, if_pos rfl, if_neg fun h' => hf h'.2.1]
        exact ⟨⟨rfl, hno⟩, h⟩

theorem DepictsG.replayGR (h : DepictsGIn M U c s) (hM : M.RegularG) (he : EchoG M U call callC)
    (hg : SemR.Kin U (OpOkGR M) sem semC) (fuel : Nat) :
    AgreesGIn M U (fun _ _ => True) (processDeferredGR M sem call fuel s) (M.replayGR semC callC fuel c) := by
  unfold processDeferredGR Machine.replayGR
  rw [Machine.hasDefer_eq, h.queue]
  cases hq : c.waiting with
  | nil => split <;> exact ⟨trivial, h⟩
  | cons x q =>
    obtain ⟨ev, p⟩ := x
    dsimp only
    split
    · have h' : DepictsGIn M U { c with waiting := q } { s with queue := q } := { h with queue := rfl }
      exact (DepictsG.handleGR h' hM he hg fuel ev p).bind fun _ _ s c _ h => ⟨trivial, h⟩
    · exact ⟨trivial, h⟩

theorem DepictsG.receiveGR (h : DepictsGIn M U c s) (hM : M.RegularG) (he : EchoG M U call callC)
    (hg : SemR.Kin U (OpOkGR M) sem semC) (fuel : Nat) {ev : EventTy} (hev : ev ∈ M.eventsG) (p : P) :
    AgreesGIn M U (fun _ _ => True) (processEventGR M sem call fuel ev p s)
      (M.receiveGR semC callC fuel ev p c) := by
  unfold processEventGR Machine.receiveGR
  refine (DepictsG.handleGR h hM he hg fuel ev p).bind ?_
  rintro ⟨b, a2⟩ ⟨os, b2⟩ s c ⟨h1, h2⟩ h
  dsimp only at h1 h2 ⊢
  subst h1
  cases b with
  | false =>
    rw [if_pos (h2.1 rfl)]
    simp only [Bool.false_eq_true, if_false]
    have := Portrait.complainR h hM.laid he hg hev b2
    revert this
    cases callHandlerR M sem call ev b2 s <;> cases M.complainR semC callC ev b2 c <;> exact id
  | true =>
    rw [if_neg fun h' => absurd (h2.2 h') (by simp), if_pos rfl]
    exact DepictsG.replayGR h hM he hg fuel

end

/-! ## Calls and histories -/

section
variable {P W : Type} {M : Machine} {sem : SemR P W} {s : SM P W} {c : Conf P W}
  {call : Op P → SM P W → Res (SM P W) Bool} {callC : Op P → Conf P W → Res (Conf P W) Bool}

/-- C97, events: if calls from inside agree, so does the call outside. -/
theorem C97_event (h : DepictsG M c s) (hM : M.RegularG) (he : EchoG M Eq call callC)
    (hg : sem.Good True (OpOkGR M)) (fuel : Nat) {ev : EventTy} (hev : ev ∈ M.eventsG) (p : P) :
    AgreesG M (fun _ _ => True) (processEventGR M sem call fuel ev p s)
      (M.receiveGR sem callC fuel ev p c) :=
  DepictsG.receiveGR h hM he hg.kin fuel hev p


/-- C97, calls: one call on a machine object and on the configuration it depicts, with all calls that
callbacks make meanwhile. -/
theorem C97_step (h : DepictsG M c s) (hM : M.RegularG) (hS : M.ScopesRealG) (hg : sem.Good True (OpOkGR M))
    (fuel n : Nat) {op : Op P} (hop : OpOkGR M op) :
    AgreesG M Eq (stepGR M sem fuel n op s) (M.execGR sem fuel n op c) := by
  induction n generalizing op c s with
  | zero => trivial
  | succ n ih =>
    cases op with
    | process ev p =>
      refine (C97_event (call := stepGR M sem fuel n) (callC := M.execGR sem fuel n) h hM
        (fun op hop c s h => ih h hop) hg fuel
        (by rw [Machine.eventsG_eq hM.laid]; exact hop) p).bind fun _ _ s c _ h => ⟨rfl, h⟩
    | set r p st => exact hop.elim
    | setDependency d =>
      have := DepictsG.extend h hM hS d
      show AgreesG M Eq ((setDependencyG M d s).bind fun _ s => .ok true s)
        (Res.bind (.ok () { c with deps := d :: c.deps }) fun _ c => .ok true c)
      exact Res.Rel.bind this fun _ _ s c _ h => ⟨rfl, h⟩

/-- C97: whatever is called on a newly constructed machine, one call after the other, also after
exceptions, the interpreter tells what it looks like, and if undefined behaviour was met or a loop
did not end on the way. -/
theorem C97_history (hM : M.RegularG) (hg : sem.Good True (OpOkGR M)) {d : Dep} {w : W}
    (h : constructG M d w = .ok s) (fuel n : Nat) (ops : List (Op P)) (hops : ∀ op ∈ ops, OpOkGR M op) :
    match runAll (stepGR M sem fuel n) ops s, M.execAllGR sem fuel n ops (M.fresh d w) with
    | some s', some c => DepictsG M c s'
    | none, none => True
    | _, _ => False := by
  obtain ⟨h1, _, h2⟩ := C82_construct (P := P) hM d w
  have hS : M.ScopesRealG := (h1.1 ⟨s, h⟩).1
  have h0 := h2 s h
  revert h0
  generalize M.fresh d w = c
  clear h h1 h2
  induction ops generalizing s c with
  | nil => intro h0; exact h0
  | cons op ops ih =>
    intro h0
    have hc := C97_step (sem := sem) h0 hM hS hg fuel n (hops op List.mem_cons_self)
    have ih := fun {s} => @ih s fun op hop => hops op (List.mem_cons_of_mem _ hop)
    unfold runAll Machine.execAllGR
    revert hc
    cases stepGR M sem fuel n op s <;> cases M.execGR sem fuel n op c <;> intro hc <;>
      first | exact hc.elim | exact ih _ hc.2 | trivial

/-- C97, undefined behaviour: a call is undefined exactly if the interpreter says so, and of the same
kind; it does not return exactly if the interpreter's does not. -/
theorem C97_undefined (h : DepictsG M c s) (hM : M.RegularG) (hS : M.ScopesRealG)
    (hg : sem.Good True (OpOkGR M)) (fuel n : Nat) {op : Op P} (hop : OpOkGR M op) :
    (∀ u, stepGR M sem fuel n op s = .ub u ↔ M.execGR sem fuel n op c = .ub u) ∧
      (stepGR M sem fuel n op s = .timeout ↔ M.execGR sem fuel n op c = .timeout) := by
  have hc := C97_step (sem := sem) h hM hS hg fuel n hop
  revert hc
  cases stepGR M sem fuel n op s <;> cases M.execGR sem fuel n op c <;> intro hc <;>
    first | exact hc.elim | simp
  exact hc

/-- C97: every machine object a client can hold depicts a configuration. -/
theorem C97_reach (hM : M.RegularG) (hg : sem.Good True (OpOkGR M)) {d : Dep} {ops : List (Op P)}
    (h : RunToGR M sem d ops s) : M.ScopesRealG ∧ ∃ c, DepictsG M c s := by
  induction h with
  | @init w s h =>
    obtain ⟨h1, _, h2⟩ := C82_construct (P := P) hM d w
    exact ⟨(h1.1 ⟨s, h⟩).1, _, h2 s h⟩
  | @ok s t ops op fuel n b hr hop h ih =>
    obtain ⟨hS, c, hc⟩ := ih
    have hs := C97_step (sem := sem) hc hM hS hg fuel n hop
    rw [h] at hs
    refine ⟨hS, ?_⟩
    revert hs
    cases M.execGR sem fuel n op c <;> intro hs <;> first | exact hs.elim | exact ⟨_, hs.2⟩
  | @throw s t ops op fuel n x hr hop h ih =>
    obtain ⟨hS, c, hc⟩ := ih
    have hs := C97_step (sem := sem) hc hM hS hg fuel n hop
    rw [h] at hs
    refine ⟨hS, ?_⟩
    revert hs
    cases M.execGR sem fuel n op c <;> intro hs <;> first | exact hs.elim | exact ⟨_, hs.2⟩
  | @world s ops hr w ih =>
    obtain ⟨hS, c, hc⟩ := ih
    exact ⟨hS, { c with world := w }, { hc with world := rfl }⟩

/-- C97: callbacks without calls are those of the other properties of the amalgamated header. -/
theorem C97_conservative (sem : Sem P W) (fuel n : Nat) (op : OpG P) (s : SM P W) :
    stepGR M sem.lift fuel (n + 1) op.op s =
      (stepG M sem fuel op s).bind fun _ s => .ok true s := stepGR_lift fuel n op s

end

namespace Ex

theorem waiting_regularG : waiting.RegularG := Machine.regularG_ofList (by decide +kernel)

theorem waiting_okG (n : Nat) (h : n < 4) (p : Nat) : OpOkGR waiting (.process (ev n) p) := by
  have : ∀ n < 4, decide (ev n ∈ waiting.eventIdsG) = true := by decide +kernel
  exact (of_decide_eq_true (this n h) : ev n ∈ waiting.eventIdsG)

/-- The action of the row from 1 to 2 sends events 3 and 2. -/
def hasty : SemR Nat (List Nat) := semR (fun _ => false) never (only 1 [.process (ev 3) 5, .process (ev 2) 6])

theorem hasty_ok : hasty.Good True (OpOkGR waiting) :=
  semR_good never_all (only_all (by
    intro op hop
    simp only [List.mem_cons, List.not_mem_nil, or_false] at hop
    rcases hop with rfl | rfl
    · exact waiting_okG 3 (by decide) _
    · exact waiting_okG 2 (by decide) _))

/-- Event 1 waits in state 1.  Under the amalgamated header its turn comes within the action of the row to 2,
as soon as event 3 was rejected there, so that event 2 finds the machine in 3, where nothing happens.
Under the modular headers event 2 is handled before. -/
example : ((waiting.execAllGR hasty 5 5 [.process (ev 1) 4, .process (ev 0) 1] (waiting.fresh 7 [])).map
      fun c => (c.slots, c.world)) = some ([some (0, .st 3)], [1, 100, 3]) ∧
    ((waiting.execAllR hasty 5 5 [.process (ev 1) 4, .process (ev 0) 1] (waiting.fresh 7 [])).map
      fun c => (c.slots, c.world)) = some ([some (0, .st 3)], [1, 100, 2, 3]) := by
  decide +kernel

/-- C97 applies to this machine, after all histories. -/
example {s : SM Nat (List Nat)} {ops : List (Op Nat)} (h : RunToGR waiting hasty 7 ops s) (fuel n : Nat) :
    ∃ c, DepictsG waiting c s ∧ AgreesG waiting Eq (stepGR waiting hasty fuel n (.process (ev 0) 1) s)
      (waiting.execGR hasty fuel n (.process (ev 0) 1) c) := by
  obtain ⟨hS, c, hc⟩ := C97_reach waiting_regularG hasty_ok h
  exact ⟨c, hc, C97_step hc waiting_regularG hS hasty_ok fuel n (waiting_okG 0 (by decide) 1)⟩

end Ex

end Hsm
