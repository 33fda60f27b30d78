import Verif.Enabled
import Verif.Machines

/-!
# Handling one event

C07-C15 and C18.  The first two theorems say that every call of `process_event` on a
machine with a history is a run in the sense of `SpecStep`; the rest is read off from
that.
-/

namespace Hsm

section
variable {P W : Type} {M : Machine} {sem : Sem P W} {d : Dep} {ops : List (Op P)} {s s' : SM P W}
  {fuel : Nat} {ev : EventTy} {pl : P}

/-! ## C07: the first enabled row fires, and only that one -/

/-- C07: a call that returns went through the regions, the anonymous rounds and the replay
as specified.  In every region the candidates are tried in order, each guard at most once
and only until the first that is enabled, which alone fires (`RegionRun`). -/
theorem C07_process (hM : M.Regular) (hrun : RunTo M sem d ops s) (hev : ev ∈ M.events)
    {b : Bool} (h : processEvent M sem fuel ev pl s = .ok b s') :
    EventRun M sem (depsOf d ops) d ev pl s b s' :=
  processEvent_ok hM hev (hrun.ready hM) h

/-- C07 for calls left by an exception.  With real scopes there is no other exception than
those of callbacks. -/
theorem C07_process_throw (hM : M.Regular) (hS : M.Scoped) (hrun : RunTo M sem d ops s)
    (hev : ev ∈ M.events) {x : Exn} (h : processEvent M sem fuel ev pl s = .throw x s') :
    ∃ k, x = .user k ∧ EventThrow M sem (depsOf d ops) d ev pl s k s' := by
  rcases processEvent_throw hM hev (hrun.ready hM) h with h1 | ⟨_, ⟨c, hc, hle⟩, _⟩
  · exact h1
  · have hr' : RunTo M sem d (ops ++ [.process ev pl]) s' :=
      .throw (fuel := fuel) hrun (opOk_event hev) h
    have := (hr'.reach.slots hM hS).cur 0 c hc
    omega

/-- Guard of an entry. -/
def Entry.guard? (e : Entry) : Option Cb := e.tr.bind (·.guard)

/-- Guard and answer of a call. -/
def Call.answer {P : Type} : Call P → Option (Cb × Option Bool)
  | .guard g _ _ b _ => some (g, b)
  | _ => none

theorem FalseRun.answers {cur : List (Option Nat)} {es : List Entry} {p p' : P}
    {w w' : W} {tr : List (Call P)} (h : FalseRun sem cur ev es p w tr p' w') :
    es.map Entry.guard? = (tr.map fun c => c.answer.map (·.1)) ∧
    ∀ c ∈ tr, ∃ g, c.answer = some (g, some false) := by
  induction h with
  | nil => simp
  | @cons e es x g p p1 p2 w w1 w2 tr hd ht hg hc hr ih =>
    constructor
    · simp only [List.map_cons, ih.1]
      congr 1
      simp [Entry.guard?, ht, hg, Call.answer]
    · intro c hc
      rcases List.mem_cons.1 hc with rfl | hc
      · exact ⟨g, rfl⟩
      · exact ih.2 c hc

/-- C07, spelled out for one region.  `es` are the candidates at the region's location; a
prefix `pre` of them was evaluated.  The guard calls `gs` are exactly the guards of `pre`
in order, each once; then come the actions `as`.
* If a row fired, it is the last of `pre`; it has no guard or its guard returned true, all
  earlier ones have guards that returned false, and candidates after it were not looked at.
* If none fired, no guard returned true; unless the event is deferred all were tried.
* If the event is deferred, no guard was called. -/
theorem C07_region (hM : M.Regular) (hm : Moment M sem d ops s) {r : Nat}
    {pl' : P} {o : RegionOut} (h : Handles M sem r ev pl s o pl' s') :
    ∃ p st pre post gs as, At M s r p st ∧ M.entries (depsOf d ops) ev p st = pre ++ post ∧
      s'.trace = s.trace ++ gs ++ as ∧
      (∀ c ∈ gs, c.isGuard = true) ∧ (∀ c ∈ as, c.isAction = true) ∧
      gs.map (fun c => c.answer.map (·.1)) = (pre.map Entry.guard?).filter Option.isSome ∧
      (o = .fired → ∃ pre0 e, pre = pre0 ++ [e] ∧ (∀ e ∈ pre0, e.guard?.isSome = true) ∧
        (∀ c ∈ gs.take pre0.length, ∃ g, c.answer = some (g, some false)) ∧
        (e.guard? = none ∨ ∃ g c, e.guard? = some g ∧ gs[pre0.length]? = some c ∧
          c.answer = some (g, some true))) ∧
      (o ≠ .fired → as = [] ∧ (o ≠ .deferred → post = []) ∧ (o = .deferred → gs = []) ∧
        ∀ c ∈ gs, ∃ g, c.answer = some (g, some false)) := by
  cases h.run hM hm with
  | none ha hc =>
    refine ⟨_, _, [], [], [], [], ha, ?_, by simp, by simp, by simp, by simp, by simp, by simp⟩
    simp [Machine.entries, hc]
  | rejected ha hne hf =>
    obtain ⟨h1, h2⟩ := hf.answers
    refine ⟨_, _, _, [], _, [], ha, (List.append_nil _).symm, by simp [SM.ran], hf.guards,
      by simp, ?_, by simp, fun _ => ⟨rfl, fun _ => rfl, by simp, h2⟩⟩
    rw [h1, List.filter_eq_self.2]
    intro a ha
    obtain ⟨c, hc, rfl⟩ := List.mem_map.1 ha
    obtain ⟨g, hg⟩ := h2 c hc
    rw [hg]; rfl
  | deferred ha hd =>
    exact ⟨_, _, [], _, [], [], ha, rfl, by simp, by simp, by simp, by simp, by simp, by simp⟩
  | @fired p st c t d l x pre p1 p2 p3 tr1 tr2 tr3 w1 w2 w3 s1 ha hs hf hg he hr =>
    obtain ⟨e, post, hes, hen, htr⟩ := hs.entries
    obtain ⟨h1, h2⟩ := hf.answers
    have hlen : tr1.length = pre.length := by
      have := congrArg List.length h1
      simpa using this.symm
    have hpre : ∀ e ∈ pre, e.guard?.isSome = true := by
      intro e he
      have hm : e.guard? ∈ pre.map Entry.guard? := List.mem_map.2 ⟨e, he, rfl⟩
      rw [h1] at hm
      obtain ⟨c, hc, hcg⟩ := List.mem_map.1 hm
      obtain ⟨g, hg⟩ := h2 c hc
      rw [← hcg, hg]; rfl
    have hfil : (pre.map Entry.guard?).filter Option.isSome = pre.map Entry.guard? := by
      apply List.filter_eq_self.2
      intro a ha
      obtain ⟨e, he, rfl⟩ := List.mem_map.1 ha
      exact hpre e he
    have htrace : (s1.ran w3 tr3).trace = s.trace ++ (tr1 ++ tr2) ++ tr3 := by
      have : s1.trace = (s.ran w2 (tr1 ++ tr2)).trace := by
        unfold Effect at he
        split at he
        · rw [he]
        · exact he.trace
      simp [SM.ran, this]
    refine ⟨p, st, pre ++ [e], post, tr1 ++ tr2, tr3, ha, by simp [hes], htrace, ?_, hr.actions,
      ?_, ?_, by simp⟩
    · intro c hc
      rcases List.mem_append.1 hc with hc | hc
      · exact hf.guards c hc
      · exact hg.guards c hc
    · simp only [List.map_append, List.filter_append, hfil, ← h1]
      congr 1
      cases hg with
      | absent hn => simp [Entry.guard?, htr, hn]
      | called hn hc => simp [Entry.guard?, htr, hn, Call.answer]
    · intro _
      refine ⟨pre, e, rfl, hpre, ?_, ?_⟩
      · intro c hc
        rw [List.take_append_of_le_length (by omega), List.take_of_length_le (by omega)] at hc
        exact h2 c hc
      · cases hg with
        | absent hn => exact Or.inl (by simp [Entry.guard?, htr, hn])
        | @called g p' w' hn hc =>
          refine Or.inr ⟨g, .guard g (guardArgs x ev) p1 (some true) s.cur,
            by simp [Entry.guard?, htr, hn], ?_, rfl⟩
          rw [List.getElem?_append_right (by omega), hlen]
          simp

/-- C07: there is at most one first enabled candidate.  A row fires in the region exactly if
there is one; then it is that one, and what happens after the guards is its effect and its
callbacks. -/
theorem C07_first (hM : M.Regular) (hm : Moment M sem d ops s) {r : Nat} {pl' : P} {o : RegionOut}
    (h : Handles M sem r ev pl s o pl' s') :
    (o = .fired ↔ ∃ c t dd l gs p1 w1,
      FirstEnabled M sem (depsOf d ops) r ev pl s c t dd l gs p1 w1) ∧
    (∀ c t dd l gs p1 w1, FirstEnabled M sem (depsOf d ops) r ev pl s c t dd l gs p1 w1 →
      (∀ c' t' dd' l' gs' p2 w2,
        FirstEnabled M sem (depsOf d ops) r ev pl s c' t' dd' l' gs' p2 w2 →
        c' = c ∧ t' = t ∧ dd' = dd ∧ l' = l ∧ gs' = gs ∧ p2 = p1 ∧ w2 = w1) ∧
      ∃ s1 tr w, Effect M r t (s.ran w1 gs) s1 ∧
        ActRun sem s1.cur (cbArgs M c t l ev dd) (M.callbacks t) p1 w1 tr pl' w ∧
        s' = s1.ran w tr) := by
  have hr := h.run hM hm
  refine ⟨⟨fun ho => ?_, fun ⟨c, t, dd, l, gs, p1, w1, he⟩ => (hr.first hM he).1⟩, ?_⟩
  · subst ho
    exact hr.enabled
  · intro c t dd l gs p1 w1 he
    exact ⟨fun c' t' dd' l' gs' p2 w2 he' => he.unique hM he', (hr.first hM he).2⟩

/-- In the demo machine two rows compete for event 0 in `Idle`: the guarded one declared
last is asked first; if its guard says no, the other one fires. -/
example : (Ex.run Ex.demo (Ex.sem fun g => g != 100) 5 7 [] [.process (Ex.ev 0) 1]).any
      (fun s => s.cur == [some (Ex.demo.comb Ex.Comp (.st Ex.CA))] && s.world == [100, 1, 22, 24])
    = true ∧
    (Ex.run Ex.demo (Ex.sem fun _ => true) 5 7 [] [.process (Ex.ev 0) 1]).any
      (fun s => s.cur == [some (Ex.demo.comb Ex.Root (.st Ex.Busy))] && s.world == [100, 2, 20])
    = true := by
  decide +kernel

/-! ## C08: the result says whether something fired -/

/-- C08. -/
theorem C08_result (hM : M.Regular) (hrun : RunTo M sem d ops s) (hev : ev ∈ M.events)
    {b : Bool} (h : processEvent M sem fuel ev pl s = .ok b s') :
    ∃ os pl' s1, LoopRun M sem (depsOf d ops) ev (List.range (activeRegions M s)) pl s os pl' s1 ∧
      (b = true ↔ RegionOut.deferred ∉ os ∧ RegionOut.fired ∈ os) := by
  have key : ∀ {os pl' s1 s2}, Turn M sem (depsOf d ops) ev pl s os pl' s1 s2 →
      LoopRun M sem (depsOf d ops) ev (List.range (activeRegions M s)) pl s os pl' s1 := by
    intro os pl' s1 s2 ht
    cases ht with
    | quiet h _ => exact h
    | react h _ _ => exact h
  cases C07_process hM hrun hev h with
  | ignored ht hn hh =>
    exact ⟨_, _, _, key ht, by simp, fun hr => by cases hn _ hr.2⟩
  | unexpected ht hn hh ha hc =>
    exact ⟨_, _, _, key ht, by simp, fun hr => by cases hn _ hr.2⟩
  | unhandled ht hr hn => exact ⟨_, _, _, key ht, by simp, fun h => absurd h hr⟩
  | handled ht hr hq => exact ⟨_, _, _, key ht, fun _ => hr, fun _ => rfl⟩
  | replayed ht hr hd hq ht' => exact ⟨_, _, _, key ht, fun _ => hr, fun _ => rfl⟩

/-! ## C09: the unexpected-event handler -/

/-- No active region has a row or a deferral for the event. -/
def NothingFits (M : Machine) (s : SM P W) (ev : EventTy) : Prop :=
  ∀ r < activeRegions M s, ∃ p st, At M s r p st ∧ M.cands ev p st = []

theorem Turn.loop {deps : List Dep} {os : List RegionOut} {pl' : P} {s1 s2 : SM P W}
    (ht : Turn M sem deps ev pl s os pl' s1 s2) :
    LoopRun M sem deps ev (List.range (activeRegions M s)) pl s os pl' s1 := by
  cases ht with
  | quiet h _ => exact h
  | react h _ _ => exact h

theorem Turn.nothing (hM : M.Regular) {deps : List Dep} {os : List RegionOut} {pl' : P}
    {s1 s2 : SM P W} (ht : Turn M sem deps ev pl s os pl' s1 s2) :
    (∀ o ∈ os, o = RegionOut.none) ↔ NothingFits M s ev := by
  constructor
  · intro hn r hr
    exact (ht.loop.none hn).2.2 r (List.mem_range.2 hr)
  · intro hn
    exact ht.loop.of_none hM (fun r hr => hn r (List.mem_range.1 hr))

/-- C09: the handler is among the calls made during `process_event` if and only if nothing
fits the event (and there is a handler); then it is the only call, gets the event, the
object of region 0's current state, and nothing else changes. -/
theorem C09_handler (hM : M.Regular) (hrun : RunTo M sem d ops s) (hev : ev ∈ M.events)
    {b : Bool} (h : processEvent M sem fuel ev pl s = .ok b s') :
    ((∃ tr, s'.trace = s.trace ++ tr ∧ ∃ c ∈ tr, c.isHandler = true) ↔
      (M.decl M.root).handler.isSome = true ∧ NothingFits M s ev) ∧
    (NothingFits M s ev → b = false ∧
      ((M.decl M.root).handler = none ∧ s' = s ∨
       ∃ hd p st w, (M.decl M.root).handler = some hd ∧ At M s 0 p st ∧
        s' = s.ran w [.handler hd ev st d pl false s.cur])) := by
  have nohand : ∀ {s1 : SM P W}, Frame s s1 →
      ¬ ∃ tr, s1.trace = s.trace ++ tr ∧ ∃ c ∈ tr, c.isHandler = true := by
    rintro s1 hf ⟨tr, h1, c, hc, hh⟩
    obtain ⟨tr', h2, h3⟩ := hf.trace
    rw [h1] at h2
    have := List.append_cancel_left h2
    subst this
    rw [h3 c hc] at hh; cases hh
  have notnone : ∀ {os : List RegionOut}, Reacted os → ¬ ∀ o ∈ os, o = RegionOut.none := by
    intro os hr hn
    cases hn _ hr.2
  cases C07_process hM hrun hev h with
  | ignored ht hn hh =>
    obtain ⟨rfl, rfl, _⟩ := ht.loop.none hn
    exact ⟨⟨fun hx => absurd hx (nohand (Frame.refl _)), fun hx => by simp [hh] at hx⟩,
      fun _ => ⟨rfl, Or.inl ⟨hh, rfl⟩⟩⟩
  | unexpected ht hn hh ha hc =>
    obtain ⟨rfl, rfl, _⟩ := ht.loop.none hn
    refine ⟨⟨fun _ => ⟨by simp [hh], (ht.nothing hM).1 hn⟩, fun _ => ⟨_, rfl, _,
      List.mem_singleton.2 rfl, rfl⟩⟩, fun _ => ⟨rfl, Or.inr ⟨_, _, _, _, hh, ha, rfl⟩⟩⟩
  | unhandled ht hr hn =>
    obtain ⟨o, ho, hne⟩ := hn
    refine ⟨⟨fun hx => absurd hx (nohand ht.frame), fun hx => ?_⟩, fun hx => ?_⟩
    · exact absurd ((ht.nothing hM).2 hx.2 o ho) hne
    · exact absurd ((ht.nothing hM).2 hx o ho) hne
  | handled ht hr hq =>
    refine ⟨⟨fun hx => absurd hx (nohand ht.frame), fun hx => ?_⟩, fun hx => ?_⟩
    · exact absurd ((ht.nothing hM).2 hx.2) (notnone hr)
    · exact absurd ((ht.nothing hM).2 hx) (notnone hr)
  | replayed ht hr hd hq ht' =>
    have hf : Frame s s' := ht.frame.trans ((Frame.queue _).trans ht'.frame)
    refine ⟨⟨fun hx => absurd hx (nohand hf), fun hx => ?_⟩, fun hx => ?_⟩
    · exact absurd ((ht.nothing hM).2 hx.2) (notnone hr)
    · exact absurd ((ht.nothing hM).2 hx) (notnone hr)

/-- C09 when an exception leaves the call: only a throwing handler call contains a handler
call, and then nothing fitted the event and nothing changed. -/
theorem C09_handler_throw (hM : M.Regular) (hS : M.Scoped) (hrun : RunTo M sem d ops s)
    (hev : ev ∈ M.events) {x : Exn} (h : processEvent M sem fuel ev pl s = .throw x s')
    (hh : ∃ tr, s'.trace = s.trace ++ tr ∧ ∃ c ∈ tr, c.isHandler = true) :
    NothingFits M s ev ∧ ∃ hd p st w, (M.decl M.root).handler = some hd ∧ At M s 0 p st ∧
      s' = s.ran w [.handler hd ev st d pl true s.cur] := by
  have nohand : ∀ {s1 : SM P W}, Frame s s1 →
      ¬ ∃ tr, s1.trace = s.trace ++ tr ∧ ∃ c ∈ tr, c.isHandler = true := by
    rintro s1 hf ⟨tr, h1, c, hc, hh⟩
    obtain ⟨tr', h2, h3⟩ := hf.trace
    rw [h1] at h2
    have := List.append_cancel_left h2
    subst this
    rw [h3 c hc] at hh; cases hh
  obtain ⟨k, rfl, he⟩ := C07_process_throw hM hS hrun hev h
  cases he with
  | main ht => exact absurd hh (nohand (Lift.frame.turnThrow ht))
  | handler ht hn hhd ha hc =>
    obtain ⟨rfl, rfl, _⟩ := ht.loop.none hn
    exact ⟨(ht.nothing hM).1 hn, _, _, _, _, hhd, ha, rfl⟩
  | replay ht hr hd hq ht' =>
    exact absurd hh (nohand (ht.frame.trans ((Frame.queue _).trans (Lift.frame.turnThrow ht'))))

/-- The demo machine in `Idle` has nothing for event 1; its handler is number 50. -/
example : Ex.ev 1 ∈ Ex.demo.eventIds ∧ Ex.demo.cands (Ex.ev 1) Ex.Root (.st Ex.Idle) = [] ∧
    (Ex.run Ex.demo (Ex.sem fun _ => true) 5 7 [] [.process (Ex.ev 1) 4]).any (fun s =>
      s.trace == [.handler 50 (Ex.ev 1) (.st Ex.Idle) 7 4 false s.cur]) = true := by
  decide +kernel

/-! ## C10: an event nobody accepts leaves the machine untouched -/

/-- C10: if `process_event` returns false, either the event was deferred (the queue has
grown by it), or nothing but world and trace changed and only guards, or the
unexpected-event handler alone, ran. -/
theorem C10_untouched (hM : M.Regular) (hrun : RunTo M sem d ops s) (hev : ev ∈ M.events)
    (h : processEvent M sem fuel ev pl s = .ok false s') :
    (∃ pl', s'.queue = s.queue ++ [(ev, pl')]) ∨
    ∃ w tr, s' = s.ran w tr ∧ ((∀ c ∈ tr, c.isGuard = true) ∨
      (NothingFits M s ev ∧ ∃ c, tr = [c] ∧ c.isHandler = true)) := by
  cases C07_process hM hrun hev h with
  | ignored ht hn hh =>
    obtain ⟨rfl, rfl, _⟩ := ht.loop.none hn
    exact Or.inr ⟨_, [], (ran_nil _).symm, Or.inl (by simp)⟩
  | unexpected ht hn hh ha hc =>
    obtain ⟨rfl, rfl, _⟩ := ht.loop.none hn
    exact Or.inr ⟨_, _, rfl, Or.inr ⟨(ht.nothing hM).1 hn, _, rfl, rfl⟩⟩
  | unhandled ht hr hn =>
    rcases ht.loop.last with ⟨h1, h2, h3⟩ | ⟨os', h1, h2, h3, h4⟩
    · obtain ⟨w, tr, rfl, hg⟩ := ht.loop.quiet (fun o ho => by
        cases o with
        | none => exact Or.inl rfl
        | rejected => exact Or.inr rfl
        | fired => exact absurd ⟨h1, ho⟩ hr
        | deferred => exact absurd ho h1)
      exact Or.inr ⟨w, tr, rfl, Or.inl hg⟩
    · exact Or.inl ⟨_, h4⟩

/-- In `CA` of the demo machine the guard of the row for event 2 can say no.  (It is asked
three times: `Comp` is the target of three rows, so its rows are in the table three
times.) -/
example : (Ex.run Ex.demo (Ex.sem fun _ => false) 5 7 []
      [.set 0 Ex.Comp (.st Ex.CA), .process (Ex.ev 2) 4]).any (fun s =>
      s.world == [101, 101, 101] && s.cur == [some (Ex.demo.comb Ex.Comp (.st Ex.CA))]) = true := by
  decide +kernel

/-! ## C11: internal rows never move the machine -/

/-- Phase of an action call. -/
def Call.phase {P : Type} : Call P → Option Phase
  | .action ph _ _ _ _ _ => some ph
  | _ => none

theorem ActRun.shape {cur : List (Option Nat)} {args : Args} {cs : List (Phase × Cb)} {p p' : P}
    {w w' : W} {tr : List (Call P)} (h : ActRun sem cur args cs p w tr p' w') :
    ∀ c ∈ tr, ∃ ph a q, c = .action ph a args q false cur ∧ (ph, a) ∈ cs := by
  induction h with
  | nil => intro c hc; cases hc
  | cons _ _ ih =>
    intro c hc
    rcases List.mem_cons.1 hc with rfl | hc
    · exact ⟨_, _, _, rfl, by simp⟩
    · obtain ⟨ph, a, q, h1, h2⟩ := ih c hc
      exact ⟨ph, a, q, h1, by simp [h2]⟩

/-- C11: when an internal row `t` fires in a region, the machine is the same except for
world and trace; after the guards only the row's action ran and, if the state the row
belongs to is a composite, the entry action of that composite's first initial state (the
code does not suppress that one).  In particular no exit and no entry action of the state
itself. -/
theorem C11_internal (hM : M.Regular) (hm : Moment M sem d ops s) {r : Nat}
    {pl' : P} {o : RegionOut} (h : Handles M sem r ev pl s o pl' s') {c : Cand} {t : XRow}
    {dd : Dep} {l : Name × StTy} {gs : List (Call P)} {p1 : P} {w1 : W}
    (he : FirstEnabled M sem (depsOf d ops) r ev pl s c t dd l gs p1 w1)
    (hi : t.internal = true) :
    o = .fired ∧ ∃ w as, s' = s.ran w (gs ++ as) ∧
      ∀ c ∈ as, ∃ ph a args q cur, c = .action ph a args q false cur ∧
        (ph = .action ∧ t.action = some a ∨ ph = .initEntry ∧ M.initEntryCb t = some a) := by
  obtain ⟨ho, s1, tr, w, hef, hr, rfl⟩ := (h.run hM hm).first hM he
  refine ⟨ho, ?_⟩
  unfold Effect at hef
  rw [if_pos hi] at hef
  subst hef
  refine ⟨_, _, ran_ran .., ?_⟩
  intro c hc
  obtain ⟨ph, a, q, rfl, hm⟩ := hr.shape c hc
  refine ⟨ph, a, _, q, _, rfl, ?_⟩
  unfold Machine.callbacks at hm
  simp only [hi, if_true, Option.toList_none, List.map_nil, List.nil_append, List.append_nil,
    List.mem_append, List.mem_map, Option.mem_toList] at hm
  rcases hm with ⟨a', h1, h2⟩ | ⟨a', h1, h2⟩
  · cases h2; exact Or.inl ⟨rfl, h1⟩
  · cases h2; exact Or.inr ⟨rfl, h1⟩

/-- Internal row of `CB` in the demo machine: action 11 only. -/
example : (Ex.run Ex.demo (Ex.sem fun g => g == 103) 5 7 []
      [.set 0 Ex.Comp (.st Ex.CB), .process (Ex.ev 6) 4]).any (fun s =>
      s.world.take 2 == [103, 11] && s.cur == [some (Ex.demo.comb Ex.Comp (.st Ex.CB))]
        && s.log == []) = true := by
  decide +kernel

/-! ## C12: order of callbacks -/

theorem ActRun.list {cur : List (Option Nat)} {args : Args} {cs : List (Phase × Cb)} {p p' : P}
    {w w' : W} {tr : List (Call P)} (h : ActRun sem cur args cs p w tr p' w') :
    ∃ ps : List P, ps.length = cs.length ∧ tr =
      (List.zip cs ps).map fun x => Call.action x.1.1 x.1.2 args x.2 false cur := by
  induction h with
  | nil => exact ⟨[], rfl, rfl⟩
  | @cons ph a cs p p1 p2 w w1 w2 tr hc hr ih =>
    obtain ⟨ps, h1, h2⟩ := ih
    exact ⟨p :: ps, by simp [h1], by simp [h2]⟩

theorem ActThrow.list {cur : List (Option Nat)} {args : Args} {cs : List (Phase × Cb)} {p : P}
    {w w' : W} {tr : List (Call P)} {k : Nat} (h : ActThrow sem cur args cs p w tr k w') :
    ∃ pre ph a post, cs = pre ++ (ph, a) :: post ∧ ∃ (ps : List P) (q : P),
      ps.length = pre.length ∧ tr =
      ((List.zip pre ps).map fun x => Call.action x.1.1 x.1.2 args x.2 false cur) ++
        [.action ph a args q true cur] := by
  induction h with
  | @here ph a cs p p1 w w1 n hc => exact ⟨[], ph, a, cs, rfl, [], p, rfl, rfl⟩
  | @later ph a cs p p1 w w1 w2 n tr hc hr ih =>
    obtain ⟨pre, ph', a', post, h1, ps, q, h2, h3⟩ := ih
    exact ⟨(ph, a) :: pre, ph', a', post, by simp [h1], p :: ps, q, by simp [h2], by simp [h3]⟩

theorem Effect.trace {r : Nat} {t : XRow} {s s1 : SM P W} (he : Effect M r t s s1) :
    s1.trace = s.trace := by
  unfold Effect at he
  split at he
  · rw [he]
  · exact he.trace

/-- C12: the callbacks that run when external row `t` fires are, in this order and each
once: `on_exit` of the source (of the composite for exit points), the action, `on_entry` of
the target, `on_entry` of the first initial state of a composite target - all with the
same event, source object, target object and dependency. -/
theorem C12_order (hM : M.Regular) (hm : Moment M sem d ops s) {r : Nat}
    {pl' : P} {o : RegionOut} (h : Handles M sem r ev pl s o pl' s') {c : Cand} {t : XRow}
    {dd : Dep} {l : Name × StTy} {gs : List (Call P)} {p1 : P} {w1 : W}
    (he : FirstEnabled M sem (depsOf d ops) r ev pl s c t dd l gs p1 w1)
    (hi : t.internal = false) :
    o = .fired ∧ ∃ ps : List P,
      s'.trace = s.trace ++ gs ++ (List.zip ((M.exitCb t).toList.map (Phase.exit, ·)
            ++ t.action.toList.map (Phase.action, ·)
            ++ (M.entryCb t).toList.map (Phase.entry, ·)
            ++ (M.initEntryCb t).toList.map (Phase.initEntry, ·)) ps).map
          (fun x => Call.action x.1.1 x.1.2 (cbArgs M c t l ev dd) x.2 false s'.cur) ∧
      ps.length = ((M.exitCb t).toList ++ t.action.toList ++ (M.entryCb t).toList
        ++ (M.initEntryCb t).toList).length := by
  obtain ⟨ho, s1, tr, w, hef, hr, rfl⟩ := (h.run hM hm).first hM he
  refine ⟨ho, ?_⟩
  obtain ⟨ps, h1, h2⟩ := hr.list
  unfold Machine.callbacks at h1 h2
  simp only [hi, Bool.false_eq_true, if_false] at h1 h2
  refine ⟨ps, ?_, ?_⟩
  · show s1.trace ++ tr = _
    rw [hef.trace, h2]
    rfl
  · rw [h1]
    simp

/-- C12, exceptions: if a callback throws, either it is a guard, then no callback of any row
ran; or the row was enabled, the callbacks before the throwing one in the order ran, it ran,
and the later ones did not. -/
theorem C12_order_throw (hM : M.Regular) (hm : Moment M sem d ops s) {r : Nat}
    {x : Exn} (h : HandlesThrow M sem r ev pl s x s') :
    ∃ k, x = .user k ∧
    ((∃ gs g args q, s'.trace = s.trace ++ gs ++ [.guard g args q none s.cur] ∧
        (∀ c ∈ gs, ∃ g, c.answer = some (g, some false)) ∧
        ¬ ∃ c t dd l gs p1 w1, FirstEnabled M sem (depsOf d ops) r ev pl s c t dd l gs p1 w1) ∨
    ∃ c t dd l gs p1 w1 pre ph a post,
      FirstEnabled M sem (depsOf d ops) r ev pl s c t dd l gs p1 w1 ∧
      M.callbacks t = pre ++ (ph, a) :: post ∧
      ∃ (ps : List P) (q : P), ps.length = pre.length ∧
        s'.trace = s.trace ++ gs ++ ((List.zip pre ps).map fun x =>
            Call.action x.1.1 x.1.2 (cbArgs M c t l ev dd) x.2 false s'.cur) ++
          [.action ph a (cbArgs M c t l ev dd) q true s'.cur]) := by
  obtain ⟨k, hk, h⟩ := h.run hM hm
  refine ⟨k, hk, ?_⟩
  have h0 := h
  cases h with
  | guard ha hs hf hg hc =>
    refine Or.inl ⟨_, _, _, _, (List.append_assoc _ _ _).symm, hf.answers.2, ?_⟩
    rintro ⟨c, t, dd, l, gs, p1, w1, he⟩
    obtain ⟨s1, tr, w, hef, hr, hs'⟩ := h0.first hM he
    obtain ⟨pre', ph, a, post, h1, ps, q, h2, h3⟩ := hr.list
    have := congrArg (fun s => s.trace.getLast?) hs'
    simp [SM.ran, h3] at this
  | @action p st c t d l x pre p1 p2 tr1 tr2 tr3 w1 w2 w3 s1 k ha hs hf hg he hr =>
    right
    obtain ⟨pre', ph, a, post, h1, ps, q, h2, h3⟩ := hr.list
    refine ⟨c, t, d, l, tr1 ++ tr2, p2, w2, pre', ph, a, post,
      ⟨_, _, _, _, _, _, _, _, ha, hs, hf, hg, rfl⟩, h1, ps, q, h2, ?_⟩
    show s1.trace ++ tr3 = _
    rw [he.trace, h3]
    simp [SM.ran]

/-- Entering the composite of the demo machine from `Busy`-like rows: exit, action, entry,
initial entry. -/
example : Ex.demo.callbacks ⟨Ex.Root, .st Ex.Busy, Ex.ev 0, none, some 1, .st Ex.Comp, false⟩ =
    [(.exit, 21), (.action, 1), (.entry, 22), (.initEntry, 24)] := by
  decide +kernel

/-! ## C13: the configuration changes before the action runs -/

/-- C13: if a callback of a fired row throws while the event is handled, `process_event`
is left by that exception.  The throwing region `r` had made its move before the first of
the row's callbacks ran (`cur` in the calls is the final configuration), the later regions
are where they were, the regions before are as the loop left them, nothing was queued or
taken from the queue. -/
theorem C13_action_throw (hM : M.Regular) (hm : Moment M sem d ops s) {rs : List Nat}
    (hnd : rs.Nodup) {agf ati : Bool} {x : Exn}
    (h : regionLoop M sem ev rs agf ati pl s = .throw x s') :
    ∃ k os r p1 s1, x = .user k ∧ rs[os.length]? = some r ∧
      LoopRun M sem (depsOf d ops) ev (rs.take os.length) pl s os p1 s1 ∧
      (∀ i ∈ rs.drop os.length, s1.cur[i]? = s.cur[i]?) ∧
      (∀ i, i ≠ r → s'.cur[i]? = s1.cur[i]?) ∧ s'.queue = s.queue ∧
      ((∃ w gs, s' = s1.ran w gs ∧ ∀ c ∈ gs, c.isGuard = true) ∨
       ∃ c t dd l gs q w as ss w',
        FirstEnabled M sem (depsOf d ops) r ev p1 s1 c t dd l gs q w ∧
        Effect M r t (s1.ran w gs) ss ∧ s' = ss.ran w' as ∧
        ∀ c ∈ as, ∃ ph a args q thr, c = .action ph a args q thr s'.cur) := by
  obtain ⟨k, os, r, hk, h⟩ := regionLoop_throw hM (hm.good hM) h
  obtain ⟨hd, p1, s1, hl, ht⟩ := h.split
  refine ⟨k, os, r, p1, s1, hk, h.mem, hl, ?_, fun i hi => ht.others hi, ?_, ?_⟩
  · intro i hi
    apply hl.others
    intro hi'
    rw [← List.take_append_drop os.length rs] at hnd
    exact (List.nodup_append.1 hnd).2.2 i hi' i hi rfl
  · rw [Lift.queue.throw _ _ _ _ _ _ ht, Lift.queue.loop hl hd]
  · cases ht with
    | guard ha hs hf hg hc =>
      refine Or.inl ⟨_, _, rfl, ?_⟩
      intro c hc
      rcases List.mem_append.1 hc with hc | hc
      · exact hf.guards c hc
      · simp only [List.mem_singleton] at hc; rw [hc]; rfl
    | action ha hs hf hg he hr =>
      refine Or.inr ⟨_, _, _, _, _, _, _, _, _, _,
        ⟨_, _, _, _, _, _, _, _, ha, hs, hf, hg, rfl⟩, he, rfl, ?_⟩
      intro c hc
      obtain ⟨pre', ph, a, post, h1, ps, q, h2, h3⟩ := hr.list
      rw [h3] at hc
      rcases List.mem_append.1 hc with hc | hc
      · obtain ⟨x, _, rfl⟩ := List.mem_map.1 hc
        exact ⟨_, _, _, _, _, rfl⟩
      · simp only [List.mem_singleton] at hc
        rw [hc]; exact ⟨_, _, _, _, _, rfl⟩

theorem AnonRoundThrow.last {deps : List Dep} {rs : List Nat} {pl : P} {s s' : SM P W} {k : Nat}
    (h : AnonRoundThrow M sem deps rs pl s k s') :
    ∃ r p1 s1, RegionThrow M sem deps r .none p1 s1 k s' := by
  induction h with
  | here h => exact ⟨_, _, _, h⟩
  | later _ _ _ ih => exact ih

theorem AnonThrow.last {deps : List Dep} {pl : P} {s s' : SM P W} {k : Nat}
    (h : AnonThrow M sem deps pl s k s') :
    ∃ r p1 s1, RegionThrow M sem deps r .none p1 s1 k s' := by
  induction h with
  | here h => exact h.last
  | later _ _ ih => exact ih

theorem TurnThrow.last {deps : List Dep} {k : Nat} (h : TurnThrow M sem deps ev pl s k s') :
    ∃ r e p1 s1, RegionThrow M sem deps r e p1 s1 k s' := by
  cases h with
  | region h =>
    obtain ⟨_, p1, s1, _, ht⟩ := h.split
    exact ⟨_, _, _, _, ht⟩
  | anon h hy hh ha =>
    obtain ⟨r, p1, s1, ht⟩ := ha.last
    exact ⟨_, _, _, _, ht⟩

/-- C13, the exception is the last thing that happens: a call of `process_event` that is
left by an exception leaves the machine exactly as the throwing guard, action or handler
left it; no later region, no anonymous row and no deferred event is processed. -/
theorem C13_stops (hM : M.Regular) (hS : M.Scoped) (hrun : RunTo M sem d ops s)
    (hev : ev ∈ M.events) {x : Exn} (h : processEvent M sem fuel ev pl s = .throw x s') :
    ∃ k, x = .user k ∧
      ((∃ r e p1 s1, RegionThrow M sem (depsOf d ops) r e p1 s1 k s') ∨
       ∃ hd st p1 w, s' = s.ran w [.handler hd ev st d p1 true s.cur]) := by
  obtain ⟨k, rfl, he⟩ := C07_process_throw hM hS hrun hev h
  refine ⟨k, rfl, ?_⟩
  cases he with
  | main ht => exact Or.inl ht.last
  | handler ht hn hh ha hc =>
    obtain ⟨rfl, rfl, _⟩ := ht.loop.none hn
    exact Or.inr ⟨_, _, _, _, rfl⟩
  | replay ht hr hd hq ht' => exact Or.inl ht'.last

/-- Action 2 of the demo machine throws; it has moved to `Busy` nevertheless. -/
example : (match construct Ex.demo 7 [] with
    | .ok s => (match processEvent Ex.demo (Ex.sem (fun _ => true) [2]) 5 (Ex.ev 0) 1 s with
      | .throw (.user 2) s' => s'.cur == [some (Ex.demo.comb Ex.Root (.st Ex.Busy))]
          && s'.world == [100, 2]
      | _ => false)
    | .error _ => false) = true := by
  decide +kernel

/-! ## C14: a throwing guard does not move its region -/

/-- C14: if a guard throws in region `r` while the event is handled, region `r` and all
later regions are where they were; nothing fired in region `r`, nothing was queued. -/
theorem C14_guard_throw (hM : M.Regular) (hm : Moment M sem d ops s) {n : Nat} {agf ati : Bool}
    {x : Exn} (h : regionLoop M sem ev (List.range n) agf ati pl s = .throw x s')
    (hg : ∃ g args q cur, s'.trace.getLast? = some (.guard g args q none cur)) :
    ∃ k r, x = .user k ∧ r < n ∧ (∀ i, r ≤ i → s'.cur[i]? = s.cur[i]?) ∧ s'.queue = s.queue ∧
    ∃ os p1 s1 w gs, os.length = r ∧ LoopRun M sem (depsOf d ops) ev (List.range r) pl s os p1 s1 ∧ s' = s1.ran w gs ∧
      ∀ c ∈ gs, c.isGuard = true := by
  obtain ⟨k, os, r, hk, h⟩ := regionLoop_throw hM (hm.good hM) h
  have hmem := h.mem
  obtain ⟨hd, p1, s1, hl, ht⟩ := h.split
  rw [List.getElem?_range (by
    have := (List.getElem?_eq_some_iff.1 hmem).1; simpa using this)] at hmem
  cases hmem
  have hlt : os.length ≤ n := by
    rcases Nat.lt_or_ge n os.length with h1 | h1
    · have := h.mem
      rw [List.getElem?_eq_none (by simp; omega)] at this; cases this
    · exact h1
  have htake : (List.range n).take os.length = List.range os.length := by
    rw [List.take_range, Nat.min_eq_left hlt]
  rw [htake] at hl
  have hq : s'.queue = s.queue := by
    rw [Lift.queue.throw _ _ _ _ _ _ ht, Lift.queue.loop hl hd]
  have hgs : ∃ w gs, s' = s1.ran w gs ∧ ∀ c ∈ gs, c.isGuard = true := by
    cases ht with
    | guard ha hs hf hg hc =>
      refine ⟨_, _, rfl, ?_⟩
      intro c hc
      rcases List.mem_append.1 hc with hc | hc
      · exact hf.guards c hc
      · simp only [List.mem_singleton] at hc; rw [hc]; rfl
    | action ha hs hf hg' he hr =>
      exfalso
      obtain ⟨g, args, q, cur, hlast⟩ := hg
      obtain ⟨pre', ph, a, post, h1, ps, q', h2, h3⟩ := hr.list
      rw [h3] at hlast
      simp [SM.ran] at hlast
  obtain ⟨w, gs, rfl, hgg⟩ := hgs
  refine ⟨k, os.length, hk, by have := h.mem; have := (List.getElem?_eq_some_iff.1 this).1; simpa using this,
    ?_, hq, os, p1, s1, w, gs, rfl, hl, rfl, hgg⟩
  intro i hi
  exact hl.others (by simp; omega)

/-- Guard 100 of the demo machine throws: it stays in `Idle`. -/
example : (match construct Ex.demo 7 [] with
    | .ok s => (match processEvent Ex.demo (Ex.sem (fun _ => true) [] [100]) 5 (Ex.ev 0) 1 s with
      | .throw (.user 100) s' => s'.cur == s.cur && s'.world == [100] && s'.queue == []
      | _ => false)
    | .error _ => false) = true := by
  decide +kernel

/-! ## C15: regions are handled independently and in order -/

/-- C15: while an event is handled, the regions `0, 1, …` are taken in increasing order, as
many as were active before the event (fewer only if the last one taken deferred it).  The
candidates tried in region `k` are those at region `k`'s location from before the event,
and only region `k`'s location can change in step `k`. -/
theorem C15_regions (hM : M.Regular) (hrun : RunTo M sem d ops s) (hev : ev ∈ M.events)
    {b : Bool} (h : processEvent M sem fuel ev pl s = .ok b s') :
    ∃ os pl' s1, LoopRun M sem (depsOf d ops) ev (List.range (activeRegions M s)) pl s os pl' s1 ∧
      (os.length = activeRegions M s ∨
        os.length ≤ activeRegions M s ∧ os.getLast? = some .deferred) ∧
      ∀ k o, os[k]? = some o → ∃ pk sk pk' sk' p st,
        LoopRun M sem (depsOf d ops) ev (List.range k) pl s (os.take k) pk sk ∧
        RegionRun M sem (depsOf d ops) k ev pk sk o pk' sk' ∧
        At M s k p st ∧ At M sk k p st ∧
        (∀ i, k ≤ i → sk.cur[i]? = s.cur[i]?) ∧ ∀ i, i ≠ k → sk'.cur[i]? = sk.cur[i]? := by
  have key : ∀ {os pl' s1 s2}, Turn M sem (depsOf d ops) ev pl s os pl' s1 s2 →
      ∃ os pl' s1, LoopRun M sem (depsOf d ops) ev (List.range (activeRegions M s)) pl s os pl' s1
      := fun ht => ⟨_, _, _, ht.loop⟩
  have : ∃ os pl' s1, LoopRun M sem (depsOf d ops) ev (List.range (activeRegions M s)) pl s os
      pl' s1 := by
    cases C07_process hM hrun hev h with
    | ignored ht hn hh => exact key ht
    | unexpected ht hn hh ha hc => exact key ht
    | unhandled ht hr hn => exact key ht
    | handled ht hr hq => exact key ht
    | replayed ht hr hd hq ht' => exact key ht
  obtain ⟨os, pl', s1, hl⟩ := this
  refine ⟨os, pl', s1, hl, ?_, ?_⟩
  · rcases hl.last with ⟨_, h2, _⟩ | ⟨os', h1, _, h3, _⟩
    · exact Or.inl (by simpa using h2)
    · exact Or.inr ⟨by simpa using h3, by rw [h1]; simp⟩
  · intro k o hk
    obtain ⟨r, pk, sk, pk', sk', h1, h2, h3, h4, h5⟩ := hl.split hk
    have hlt : k < activeRegions M s := by
      have := (List.getElem?_eq_some_iff.1 h1).1; simpa using this
    rw [List.getElem?_range hlt] at h1
    cases h1
    rw [List.take_range, Nat.min_eq_left (Nat.le_of_lt hlt)] at h2
    have hsame : ∀ i, k ≤ i → sk.cur[i]? = s.cur[i]? := fun i hi => h2.others (by simp; omega)
    have hat : ∃ p st, At M sk k p st := by
      cases h4 with
      | none ha => exact ⟨_, _, ha⟩
      | rejected ha => exact ⟨_, _, ha⟩
      | deferred ha => exact ⟨_, _, ha⟩
      | fired ha => exact ⟨_, _, ha⟩
    obtain ⟨p, st, ha⟩ := hat
    refine ⟨pk, sk, pk', sk', p, st, h2, h4, ⟨ha.1, ha.2.1, ?_⟩, ha, hsame,
      fun i hi => h4.others hi⟩
    rw [← hsame k (Nat.le_refl _)]
    exact ha.2.2

/-- Event 0 moves both regions of the two-region machine. -/
example : (Ex.run Ex.orth (Ex.sem fun g => g == 100) 5 7 [] [.process (Ex.ev 0) 1]).any (fun s =>
      s.cur == [some (Ex.orth.comb 0 (.st 2)), some (Ex.orth.comb 0 (.st 4))] &&
      s.world.take 3 == [1, 100, 3]) = true := by
  decide +kernel

/-! ## C18: deferring an event only queues it -/

/-- C18: if the first region that has candidates for the event defers it there, then
`process_event` returns false and the machine is the same except that the event with its
payload is at the back of the queue. -/
theorem C18_defer (hM : M.Regular) (hrun : RunTo M sem d ops s) {r : Nat} {p : Name} {st : StTy}
    (hr : r < activeRegions M s) (ha : At M s r p st) (hd : Cand.defer ∈ M.cands ev p st)
    (hbefore : ∀ i < r, ∃ p st, At M s i p st ∧ M.cands ev p st = []) :
    processEvent M sem fuel ev pl s = .ok false { s with queue := s.queue ++ [(ev, pl)] } := by
  have hg := hrun.good hM
  -- the loop from region `i ≤ r` on
  have loop : ∀ (n i : Nat) (agf ati : Bool), i + n = r →
      regionLoop M sem ev ((List.range (activeRegions M s)).drop i) agf ati pl s =
        .ok (.deferred, pl) { s with queue := s.queue ++ [(ev, pl)] } := by
    intro n
    induction n with
    | zero =>
      intro i agf ati hi
      have hi : i = r := by omega
      subst hi
      have hlt : i < (List.range (activeRegions M s)).length := by simpa using hr
      rw [List.drop_eq_getElem_cons hlt, List.getElem_range]
      unfold regionLoop regionStep
      rw [hrun.lookup hM ha]
      obtain ⟨l, hl⟩ := Machine.cands_defer hd
      have hmem : ∃ en, en ∈ M.entries (depsOf d ops) ev p st ∧ en.defer = true := by
        obtain ⟨d', hd'⟩ := List.exists_mem_of_ne_nil _ hg.ne
        obtain ⟨e', he', hd'', htr⟩ : ∃ e', M.entryOfCand d' .defer = some e' ∧ e'.defer = true ∧
          e'.tr = none := ⟨_, rfl, rfl, rfl⟩
        exact ⟨e', Machine.mem_entries.2 ⟨d', hd', _, hd, he'⟩, hd''⟩
      obtain ⟨en, hen, hdd⟩ := hmem
      obtain ⟨e', es, h1, h2, _, _⟩ := Machine.entries_head_defer hen hdd
      simp only [Res.bind, h1]
      unfold tryEntries
      rw [h2]
      simp
    | succ n ih =>
      intro i agf ati hi
      have hlt : i < (List.range (activeRegions M s)).length := by simp; omega
      rw [List.drop_eq_getElem_cons hlt, List.getElem_range]
      obtain ⟨p', st', ha', hc'⟩ := hbefore i (by omega)
      unfold regionLoop regionStep
      rw [hrun.lookup hM ha', (Machine.entries_eq_nil hM hg.ne).2 hc']
      simp only [Res.bind]
      exact ih (i + 1) agf ati (by omega)
  have := loop r 0 true true (by omega)
  unfold processEvent processInternal
  rw [currentRegions_eq]
  rw [List.drop_zero] at this
  rw [this]
  rfl

/-- `Busy` defers event 3 in the demo machine. -/
example : Cand.defer ∈ Ex.demo.cands (Ex.ev 3) Ex.Root (.st Ex.Busy) ∧
    (Ex.run Ex.demo (Ex.sem fun _ => true) 5 7 [] [.process (Ex.ev 0) 1, .process (Ex.ev 3) 9]).any
      (fun s => s.queue == [(Ex.ev 3, 9)] &&
        s.cur == [some (Ex.demo.comb Ex.Root (.st Ex.Busy))]) = true := by
  decide +kernel

end
end Hsm
