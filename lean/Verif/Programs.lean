import Verif.PropsPlain
import Verif.PropsOrder
import Verif.PropsApi
import Verif.RepoTests

/-!
# C72: the programs shipped with the library

The machines of `example/`, `README.md`, `integration/` and `benchmark/`, and what they do for every
sequence of events, of any length, stated without reference to transition tables.
-/

namespace Hsm
namespace Programs
open Ex

/-! ## Replacing the automaton by one written by hand -/

/-- Runs an automaton on events: the state reached and the callbacks called. -/
def follow {Γ : Type} (f : Γ → EventTy → Γ × List Cb) (c : Γ) : List EventTy → Γ × List Cb
  | [] => (c, [])
  | e :: es => ((follow f (f c e).1 es).1, (f c e).2 ++ (follow f (f c e).1 es).2)

theorem behave_follow {M : Machine} {yes : Cb → Bool} {Γ : Type} {f : Γ → EventTy → Γ × List Cb}
    {loc : Γ → Name × StTy}
    (h : ∀ c, ∀ e ∈ M.events, (M.answer yes e (loc c)).2 = (loc (f c e).1, (f c e).2)) :
    ∀ (es : List EventTy), (∀ e ∈ es, e ∈ M.events) → ∀ c,
      M.behave yes (loc c) es = (loc (follow f c es).1, (follow f c es).2) := by
  intro es
  induction es with
  | nil => intro _ c; rfl
  | cons e es ih =>
    intro he c
    have := h c e (he e List.mem_cons_self)
    simp only [Machine.behave, follow]
    rw [this, ih (fun e' he' => he e' (List.mem_cons_of_mem _ he'))]

section
variable {M : Machine} {P W : Type} {sem : Sem P W}

/-- The events a history sends are events of the machine. -/
theorem sends_events (hM : M.Regular) {d : Dep} {evs : List (EventTy × P)} {s : SM P W}
    (h : RunTo M sem d (sends evs) s) : ∀ e ∈ evs.map (·.1), e ∈ M.events := by
  intro e he
  obtain ⟨x, hx, rfl⟩ := List.mem_map.1 he
  have := h.opsOk (.process x.1 x.2) (List.mem_map.2 ⟨x, hx, rfl⟩)
  exact this.event

/-- If an automaton answers every event as the tables do, the machine behaves like it. -/
theorem C72_automaton (hM : M.Regular) (hS : M.Scoped) (hP : M.Plain) (hp : Populated M sem)
    {yes : Cb → Bool} (hy : Steady sem yes) {Γ : Type} {f : Γ → EventTy → Γ × List Cb}
    {loc : Γ → Name × StTy} {c : Γ} {i : Name} (hi : (M.declaredInitials M.root).head? = some i)
    (hc : loc c = (M.root, .st i))
    (h : ∀ c, ∀ e ∈ M.events, (M.answer yes e (loc c)).2 = (loc (f c e).1, (f c e).2))
    {d : Dep} {evs : List (EventTy × P)} {s : SM P W} (hr : RunTo M sem d (sends evs) s) :
    At M s 0 (loc (follow f c (evs.map (·.1))).1).1 (loc (follow f c (evs.map (·.1))).1).2 ∧
      s.trace.map Call.who = (follow f c (evs.map (·.1))).2 := by
  have := C71_behaviour hM hS hP hp hy hi hr
  rw [← hc, behave_follow h _ (sends_events hM hr)] at this
  exact this

theorem populated_ofList {ds : List Decl} {ranks : List Nat} (h : ds.all (·.defaultCtor) = true)
    (sem : Sem P W) : Populated (.ofList ds ranks) sem := by
  intro st w
  left
  cases st with
  | ps o k => cases k <;> rfl
  | st s =>
    show (ds.getD s {}).defaultCtor = true
    rw [List.getD_eq_getElem?_getD]
    cases hs : ds[s]? with
    | none => rfl
    | some x => exact List.all_eq_true.1 h x (List.mem_of_getElem? hs)

end

/-! ## example/turnstile/main.cpp:28-44 (also README.md:198-214, integration/cpm/main.cpp and
integration/fetch_content/main.cpp): Locked = 1, Unlocked = 2 -/

def push : EventTy := ev 1
def coin : EventTy := ev 2
def beep : Cb := 1
def blink : Cb := 2
def noError : Cb := 100

def turnstile : Machine := .ofList
  [ { table := some
        [ row (ini 1) push none (some beep) (.st 1),
          row (.st 1) coin (some noError) (some blink) (.st 2),
          row (.st 2) push (some noError) none (.st 1),
          row (.st 2) coin none (some blink) (.st 2) ] } ] []

theorem turnstile_regular : turnstile.Regular := Machine.regular_ofList (by decide +kernel)
theorem turnstile_scoped : turnstile.Scoped := Machine.scoped_of_check (by decide +kernel)
theorem turnstile_plain : turnstile.Plain := ⟨by decide +kernel, by decide +kernel, by decide +kernel, by decide +kernel⟩
theorem turnstile_flat : turnstile.Flat := Machine.flat_of_check (by decide +kernel)

/-- What the turnstile calls: `open` says whether the event before was a coin. -/
def gate : Bool → List EventTy → List Cb
  | _, [] => []
  | false, e :: es => (if e = coin then [noError, blink] else [beep]) ++ gate (decide (e = coin)) es
  | true, e :: es => (if e = coin then [blink] else [noError]) ++ gate (decide (e = coin)) es

/-- C72, turnstile: it is unlocked exactly if the last event was a coin; a push on the locked
turnstile beeps, a coin blinks, and the guard is asked when the state is to change. -/
theorem C72_turnstile {P W : Type} {sem : Sem P W} (hy : Steady sem fun _ => true) {d : Dep}
    {evs : List (EventTy × P)} {s : SM P W} (h : RunTo turnstile sem d (sends evs) s) :
    At turnstile s 0 0 (.st (if (evs.map (·.1)).getLast? = some coin then 2 else 1)) ∧
      s.trace.map Call.who = gate false (evs.map (·.1)) := by
  have key := C72_automaton turnstile_regular turnstile_scoped turnstile_plain
    (populated_ofList (by decide +kernel) sem) hy (Γ := Bool)
    (f := fun c e => (decide (e = coin), gate c [e])) (loc := fun c => (0, .st (if c then 2 else 1)))
    (c := false) (i := 1) (by decide +kernel) rfl (by decide +kernel) h
  generalize evs.map (·.1) = es at key
  have hl : ∀ (es : List EventTy) (c : Bool),
      follow (fun (c : Bool) (e : EventTy) => (decide (e = coin), gate c [e])) c es =
        (match es.getLast? with | some e => decide (e = coin) | none => c, gate c es) := by
    intro es
    induction es with
    | nil => intro c; cases c <;> rfl
    | cons e es ih =>
      intro c
      simp only [follow, ih]
      cases es with
      | nil => cases c <;> simp [gate]
      | cons e' es =>
        obtain ⟨x, hx⟩ : ∃ x, (e' :: es).getLast? = some x := ⟨_, List.getLast?_eq_some_getLast (by simp)⟩
        cases c <;> simp [gate, List.getLast?_cons_cons, hx]
  rw [hl] at key
  cases hes : es.getLast? with
  | none => rw [hes] at key; exact key
  | some e =>
    rw [hes] at key
    by_cases he : e = coin
    · simp only [he, decide_true, if_true] at key ⊢
      exact key
    · simp only [he, decide_false, Option.some.injEq, if_false] at key ⊢
      exact key

/-- C72, turnstile: if the guard reports an error, no coin opens it. -/
theorem C72_turnstile_error {P W : Type} {sem : Sem P W} (hy : Steady sem fun _ => false) {d : Dep}
    {evs : List (EventTy × P)} {s : SM P W} (h : RunTo turnstile sem d (sends evs) s) :
    At turnstile s 0 0 (.st 1) ∧
      s.trace.map Call.who = evs.map fun x => if x.1 = coin then noError else beep := by
  have key := C72_automaton turnstile_regular turnstile_scoped turnstile_plain
    (populated_ofList (by decide +kernel) sem) hy (Γ := Unit)
    (f := fun _ e => ((), [if e = coin then noError else beep])) (loc := fun _ => (0, .st 1))
    (c := ()) (i := 1) (by decide +kernel) rfl (fun _ => by decide +kernel) h
  refine ⟨key.1, key.2.trans ?_⟩
  clear key h
  induction evs with
  | nil => rfl
  | cons x evs ih => simp only [List.map_cons, follow, ih]; rfl

/-- The hypotheses are met: coin, coin, push. -/
example : ∃ s, RunTo turnstile (Ex.sem fun _ => true) 7 (sends [(coin, 0), (coin, 0), (push, 0)]) s ∧
    At turnstile s 0 0 (.st 1) ∧ s.trace.map Call.who = [noError, blink, blink, noError] := by
  have hy : Steady (Ex.sem fun _ => true) fun _ => true :=
    ⟨fun g args p w => ⟨_, _, rfl⟩, fun a args p w => ⟨_, _, rfl⟩, fun h e st d p w => ⟨_, _, rfl⟩⟩
  obtain ⟨s, hs⟩ := C71_total turnstile_regular turnstile_scoped turnstile_plain
    (populated_ofList (by decide +kernel) _) hy 7 [] [(coin, 0), (coin, 0), (push, 0)] (by decide +kernel)
  exact ⟨s, hs, C72_turnstile hy hs⟩

/-! ## example/cdplayer/main.cpp:52-100: Empty = 1, Open = 2, Stopped = 3, Paused = 4, Song1..3 = 5..7,
Playing = 8; cd_detected = 1, open_close = 2, stop = 3, play = 4, pause2 = 5, end_pause = 6,
next_song = 7, prev_song = 8; store_cd_info = 1, open_drawer = 2, close_drawer = 3,
stopped_again = 4, start_playback = 5, stop_and_open = 6, pause_playback = 7, stop_playback = 8,
resume_playback = 9, start_next_song = 10, start_prev_song = 11 -/

def cdplayer : Machine := .ofList
  [ { table := some
        [ row (ini 1) (ev 1) none (some 1) (.st 3), row (.st 1) (ev 2) none (some 2) (.st 2),
          row (.st 2) (ev 2) none (some 3) (.st 1),
          row (.st 3) (ev 2) none (some 2) (.st 2), row (.st 3) (ev 3) none (some 4) (.st 3),
          row (.st 3) (ev 4) none (some 5) (.st 8),
          row (.st 8) (ev 2) none (some 6) (.st 2), row (.st 8) (ev 5) none (some 7) (.st 4),
          row (.st 8) (ev 3) none (some 8) (.st 3),
          row (.st 4) (ev 6) none (some 9) (.st 8), row (.st 4) (ev 3) none (some 8) (.st 3),
          row (.st 4) (ev 2) none (some 6) (.st 2) ] },
    { }, { }, { }, { }, { }, { }, { },
    { table := some
        [ row (ini 5) (ev 7) none (some 10) (.st 6),
          row (.st 6) (ev 8) none (some 11) (.st 5), row (.st 6) (ev 7) none (some 10) (.st 7),
          row (.st 7) (ev 8) none (some 11) (.st 6) ] } ] [1]

theorem cdplayer_regular : cdplayer.Regular := Machine.regular_ofList (by decide +kernel)
theorem cdplayer_scoped : cdplayer.Scoped := Machine.scoped_of_check (by decide +kernel)
theorem cdplayer_plain : cdplayer.Plain :=
  ⟨by decide +kernel, by decide +kernel, by decide +kernel, by decide +kernel⟩

/-- The player, written by hand. -/
inductive Cd
  | empty
  | opened
  | stopped
  | paused
  | playing (song : Fin 3)
deriving DecidableEq

namespace Cd

/-- Where the machine is. -/
def loc : Cd → Name × StTy
  | .empty => (0, .st 1)
  | .opened => (0, .st 2)
  | .stopped => (0, .st 3)
  | .paused => (0, .st 4)
  | .playing n => (8, .st (5 + n))

/-- The next state and the action, by the number of the event. -/
def next : Cd → Nat → Cd × List Cb
  | .empty, 1 => (.stopped, [1])
  | .empty, 2 => (.opened, [2])
  | .opened, 2 => (.empty, [3])
  | .stopped, 2 => (.opened, [2])
  | .stopped, 3 => (.stopped, [4])
  | .stopped, 4 => (.playing 0, [5])
  | .playing _, 2 => (.opened, [6])
  | .playing _, 5 => (.paused, [7])
  | .playing _, 3 => (.stopped, [8])
  | .playing 0, 7 => (.playing 1, [10])
  | .playing 1, 7 => (.playing 2, [10])
  | .playing 1, 8 => (.playing 0, [11])
  | .playing 2, 8 => (.playing 1, [11])
  | .paused, 6 => (.playing 0, [9])
  | .paused, 3 => (.stopped, [8])
  | .paused, 2 => (.opened, [6])
  | c, _ => (c, [])

/-- The same, by the event. -/
def react (c : Cd) : EventTy → Cd × List Cb
  | .user n => c.next n
  | _ => (c, [])

end Cd

/-- C72, CD player: for all sequences of events it behaves like the player written by hand.  In
particular it starts with the first song when it resumes. -/
theorem C72_cdplayer {P W : Type} {sem : Sem P W} {yes : Cb → Bool} (hy : Steady sem yes) {d : Dep}
    {evs : List (EventTy × P)} {s : SM P W} (h : RunTo cdplayer sem d (sends evs) s) :
    At cdplayer s 0 (follow Cd.react .empty (evs.map (·.1))).1.loc.1
      (follow Cd.react .empty (evs.map (·.1))).1.loc.2 ∧
      s.trace.map Call.who = (follow Cd.react .empty (evs.map (·.1))).2 := by
  refine C72_automaton cdplayer_regular cdplayer_scoped cdplayer_plain
    (populated_ofList (by decide +kernel) sem) hy (loc := Cd.loc) (c := .empty) (i := 1)
    (by decide +kernel) rfl ?_ h
  have hev : cdplayer.events = [ev 1, ev 2, ev 3, ev 4, ev 7, ev 8, ev 5, ev 6] := by decide +kernel
  have hnone : ∀ t ∈ cdplayer.extRows ++ cdplayer.intRows, t.guard = none := by decide +kernel
  have hyes : ∀ e l, cdplayer.answer yes e l = cdplayer.answer (fun _ => true) e l := by
    intro e l
    unfold Machine.answer
    split
    · rfl
    have : ∀ t ∈ cdplayer.rowsAt e l, t.guard = none := by
      intro t ht
      obtain ⟨c, hc, hr⟩ := List.mem_filterMap.1 ht
      exact hnone t (cdplayer_regular.cand_loc hc hr).1
    cases hrs : cdplayer.rowsAt e l with
    | nil => rfl
    | cons t ts =>
      have := this t (by rw [hrs]; simp)
      simp [Machine.tryRows, this]
  intro c e he
  rw [hyes]
  revert e
  rw [hev]
  cases c with
  | empty => decide +kernel
  | opened => decide +kernel
  | stopped => decide +kernel
  | paused => decide +kernel
  | playing n => revert n; decide +kernel

/-- Stopping, opening and closing, and detecting a disc brings a player that is playing, paused or
stopped back to where the music can be started. -/
example : ∀ c : Cd, c ≠ .empty → c ≠ .opened →
    (follow Cd.react c [ev 3, ev 2, ev 2, ev 1, ev 4]).1 = .playing 0 := by
  intro c h1 h2
  cases c with
  | empty => exact absurd rfl h1
  | opened => exact absurd rfl h2
  | stopped => rfl
  | paused => rfl
  | playing n => revert n; decide

/-! ## benchmark/simple/hsm.cpp:37-57: Empty = 1, Open = 2, Stopped = 3, Playing = 4, Pause = 5; events and
actions as for the CD player -/

def simplePlayer : Machine := .ofList
  [ { table := some
        [ row (.st 3) (ev 4) none (some 5) (.st 4), row (.st 5) (ev 6) none (some 9) (.st 4),
          row (.st 2) (ev 2) none (some 3) (.st 1), row (ini 1) (ev 2) none (some 2) (.st 2),
          row (.st 5) (ev 2) none (some 6) (.st 2), row (.st 3) (ev 2) none (some 2) (.st 2),
          row (.st 4) (ev 2) none (some 6) (.st 2), row (.st 4) (ev 5) none (some 7) (.st 5),
          row (.st 4) (ev 3) none (some 8) (.st 3), row (.st 5) (ev 3) none (some 8) (.st 3),
          row (.st 1) (ev 1) none (some 1) (.st 3), row (.st 3) (ev 3) none (some 4) (.st 3) ] } ] []

theorem simplePlayer_regular : simplePlayer.Regular := Machine.regular_ofList (by decide +kernel)
theorem simplePlayer_scoped : simplePlayer.Scoped := Machine.scoped_of_check (by decide +kernel)
theorem simplePlayer_plain : simplePlayer.Plain :=
  ⟨by decide +kernel, by decide +kernel, by decide +kernel, by decide +kernel⟩

/-- The events of one turn of the benchmark's loop (benchmark/simple/hsm.cpp:72-86). -/
def lap : List EventTy := [ev 2, ev 2, ev 1, ev 4, ev 5, ev 6, ev 5, ev 3, ev 3, ev 2, ev 2]

theorem behave_append {M : Machine} {yes : Cb → Bool} : ∀ (es es' : List EventTy) (l : Name × StTy),
    M.behave yes l (es ++ es') = ((M.behave yes (M.behave yes l es).1 es').1,
      (M.behave yes l es).2 ++ (M.behave yes (M.behave yes l es).1 es').2) := by
  intro es es'
  induction es with
  | nil => intro l; simp [Machine.behave]
  | cons e es ih => intro l; simp [Machine.behave, ih]

/-- C72, simple benchmark: after any number of turns of its loop the player is empty again, and every
turn has called the same eleven actions: no event was ignored. -/
theorem C72_simple {P W : Type} {sem : Sem P W} (hy : Steady sem fun _ => true) {d : Dep}
    {evs : List (EventTy × P)} {s : SM P W} (h : RunTo simplePlayer sem d (sends evs) s) {n : Nat}
    (he : evs.map (·.1) = (List.replicate n lap).flatten) :
    At simplePlayer s 0 0 (.st 1) ∧
      s.trace.map Call.who = (List.replicate n [2, 3, 1, 5, 7, 9, 7, 8, 4, 2, 3]).flatten := by
  have key := C71_behaviour simplePlayer_regular simplePlayer_scoped simplePlayer_plain
    (populated_ofList (by decide +kernel) sem) hy (i := 1) (by decide +kernel) h
  have : ∀ n, simplePlayer.behave (fun _ => true) (0, .st 1) (List.replicate n lap).flatten =
      ((0, .st 1), (List.replicate n [2, 3, 1, 5, 7, 9, 7, 8, 4, 2, 3]).flatten) := by
    intro n
    induction n with
    | zero => rfl
    | succ n ih =>
      have hlap : simplePlayer.behave (fun _ => true) (0, .st 1) lap =
          ((0, .st 1), [2, 3, 1, 5, 7, 9, 7, 8, 4, 2, 3]) := by decide +kernel
      rw [List.replicate_succ, List.flatten_cons, behave_append, hlap]
      simp only
      rw [ih, List.replicate_succ, List.flatten_cons]
  rw [he] at key
  rw [show (simplePlayer.root, StTy.st 1) = (0, StTy.st 1) from rfl, this] at key
  exact key

/-! ## benchmark/complex/ComplexStateMachine.h:214-270: idle and s1..s50 are states 1..51, guard = 100,
action = 1 -/

/-- Row `k` of the ring. -/
def link (k : Nat) : Row :=
  row (if k = 0 then ini 1 else .st (k + 1)) (ev (k + 1)) (some 100) (some 1)
    (.st (if k = 50 then 1 else k + 2))

def ring : Machine := .ofList [{ table := some ((List.range 51).map link) }] []

theorem ring_regular : ring.Regular := Machine.regular_ofList (by decide +kernel)
theorem ring_scoped : ring.Scoped := Machine.scoped_of_check (by decide +kernel)
theorem ring_plain : ring.Plain :=
  ⟨by decide +kernel, by decide +kernel, by decide +kernel, by decide +kernel⟩
theorem ring_flat : ring.Flat := Machine.flat_of_check (by decide +kernel)

/-- The ring, written by hand: in state `k` event `k + 1` leads on, everything else is ignored. -/
def onward (k : Fin 51) (e : EventTy) : Fin 51 × List Cb :=
  if e = ev (k + 1) then (k + 1, [100, 1]) else (k, [])

theorem ring_rows (k : Fin 51) (e : EventTy) :
    ring.rowsAt e (0, .st (k + 1)) = if e = ev (k + 1) then [(link k).read 0] else [] := by
  rw [show (0, StTy.st (k + 1)) = (ring.root, StTy.st (k + 1)) from rfl, C71_flat ring_flat]
  split
  · rename_i he
    subst he
    revert k
    decide +kernel
  · rename_i he
    rw [List.filter_eq_nil_iff.2]
    · rfl
    · intro r hr
      obtain ⟨j, _, rfl⟩ := List.mem_map.1 hr
      have hsrc : Machine.plain (link j).source = .st (j + 1) := by
        unfold link row
        by_cases hj : j = 0
        · subst hj; rfl
        · simp only [if_neg hj]; rfl
      rw [hsrc]
      simp only [decide_eq_true_eq, not_and]
      intro h1 h2
      have h2 : j = k := by
        simp only [StTy.st.injEq] at h2
        exact Nat.succ.inj h2
      exact he (by rw [← h1, h2]; rfl)

theorem ring_answer (k : Fin 51) (e : EventTy) :
    (ring.answer (fun _ => true) e (0, .st (k + 1))).2 =
      ((0, .st ((onward k e).1 + 1)), (onward k e).2) := by
  unfold Machine.answer
  rw [ring_rows]
  unfold onward
  split
  · revert k; intro k he
    clear he
    rw [if_neg (by simp)]
    revert k
    decide +kernel
  · rw [if_pos rfl]
    rfl

/-- C72, complex benchmark: for every sequence of events the machine is in the state the ring written
by hand is in. -/
theorem C72_ring {P W : Type} {sem : Sem P W} (hy : Steady sem fun _ => true) {d : Dep}
    {evs : List (EventTy × P)} {s : SM P W} (h : RunTo ring sem d (sends evs) s) :
    At ring s 0 0 (.st ((follow onward 0 (evs.map (·.1))).1 + 1)) ∧
      s.trace.map Call.who = (follow onward 0 (evs.map (·.1))).2 :=
  C72_automaton ring_regular ring_scoped ring_plain (populated_ofList (by decide +kernel) sem) hy
    (loc := fun k : Fin 51 => (0, .st (k + 1))) (c := 0) (i := 1) (by decide +kernel) rfl
    (fun k e _ => ring_answer k e) h

/-- C72, complex benchmark: its loop (benchmark/complex/hsm.cpp:14-115) never sends the event that
leads out of the last state.  Once there, all further events are ignored. -/
theorem C72_ring_stuck {P W : Type} {sem : Sem P W} (hy : Steady sem fun _ => true) {d : Dep}
    {evs more : List (EventTy × P)} {s s' : SM P W} (h : RunTo ring sem d (sends evs) s)
    (ha : At ring s 0 0 (.st 51)) (hm : ∀ x ∈ more, x.1 ≠ ev 51)
    (h' : RunTo ring sem d (sends (evs ++ more)) s') :
    At ring s' 0 0 (.st 51) ∧ s'.trace.map Call.who = s.trace.map Call.who := by
  have k1 := C72_ring hy h
  have k2 := C72_ring hy h'
  have hfl : ∀ (es es' : List EventTy) (c : Fin 51), follow onward c (es ++ es') =
      ((follow onward (follow onward c es).1 es').1,
        (follow onward c es).2 ++ (follow onward (follow onward c es).1 es').2) := by
    intro es es'
    induction es with
    | nil => intro c; simp [follow]
    | cons e es ih => intro c; simp [follow, ih]
  have hstay : ∀ es : List EventTy, (∀ e ∈ es, e ≠ ev 51) → follow onward 50 es = (50, []) := by
    intro es
    induction es with
    | nil => intro _; rfl
    | cons e es ih =>
      intro he
      have h50 : onward 50 e = (50, []) := by
        exact if_neg (he e List.mem_cons_self)
      simp only [follow, h50, ih (fun e' he' => he e' (List.mem_cons_of_mem _ he'))]
      rfl
  have hpos : (follow onward 0 (evs.map (·.1))).1 = 50 := by
    have := ha.2.2
    rw [k1.1.2.2] at this
    have := ring_regular.comb_inj ha.1 ha.2.1 (Option.some.inj (Option.some.inj this))
    simp only [Prod.mk.injEq, StTy.st.injEq, true_and] at this
    exact Fin.ext (Nat.succ.inj this)
  rw [List.map_append, hfl, hpos, hstay _ (by simpa using hm)] at k2
  rw [List.append_nil] at k2
  exact ⟨k2.1, k2.2.trans k1.2.symm⟩

/-- The hypotheses are met: the benchmark's events `e1` to `e50` lead to the last state. -/
example : (follow onward 0 ((List.range 50).map fun k => ev (k + 1))).1 = 50 := by decide +kernel

/-! ## The machines of test/integration -/

/-- Evaluates `Safe` as far as it concerns the machine. -/
def safeB (M : Machine) (n : Nat) : Bool :=
  M.scopedB &&
  M.composites.all (fun p =>
    decide ((M.declaredInitials p).length ≤ (M.declaredInitials M.root).length)) &&
  (!M.historic || M.composites.all fun p =>
    decide ((M.declaredInitials p).length = (M.declaredInitials M.root).length)) &&
  (!M.anonymous || M.extRows.all fun t => decide (EventTy.none ∉ M.defers t.source)) &&
  (List.range n).all fun s => (M.decl s).defaultCtor

theorem safe_of_check {ds : List Decl} {ranks : List Nat} (h : safeB (.ofList ds ranks) ds.length = true)
    {P W : Type} {sem : Sem P W} (hg : ∀ g a p w, sem.guard g a p w ≠ .ub)
    (ha : ∀ a args p w, sem.action a args p w ≠ .ub)
    (hh : ∀ h e st d p w, sem.handler h e st d p w ≠ .ub) : Safe (.ofList ds ranks) sem := by
  unfold safeB at h
  simp only [Bool.and_eq_true, List.all_eq_true, decide_eq_true_eq, Bool.or_eq_true,
    Bool.not_eq_true'] at h
  obtain ⟨⟨⟨⟨h1, h2⟩, h3⟩, h4⟩, h5⟩ := h
  refine ⟨Machine.scoped_of_check h1, h2, ?_, ?_, ?_, hg, ha, hh⟩
  · intro hist
    rcases h3 with h3 | h3
    · rw [hist] at h3; cases h3
    · exact h3
  · intro han p st hc
    rcases h4 with h4 | h4
    · rw [han] at h4; cases h4
    · unfold Machine.cands at hc
      rw [List.mem_append, List.mem_append] at hc
      rcases hc with (hc | hc) | hc
      · have hz : ∀ ts : List XRow, (∀ t ∈ ts, t ∈ (Machine.ofList ds ranks).extRows) →
            (ts.map ((Machine.ofList ds ranks).deferCount .none p st)).sum = 0 := by
          intro ts
          induction ts with
          | nil => intro _; rfl
          | cons t ts ih =>
            intro hts
            rw [List.map_cons, List.sum_cons, ih (fun t' ht' => hts t' (List.mem_cons_of_mem _ ht'))]
            unfold Machine.deferCount
            rw [List.count_eq_zero_of_not_mem (h4 t (hts t List.mem_cons_self))]
            simp
        rw [hz _ (fun _ h => h)] at hc
        simp at hc
      · obtain ⟨t, _, ht⟩ := List.mem_flatMap.1 hc
        simp only [Machine.extCands, List.mem_append] at ht
        rcases ht with ht | ht <;> split at ht <;> simp at ht
      · obtain ⟨t, _, ht⟩ := List.mem_flatMap.1 hc
        simp only [Machine.intCands] at ht
        split at ht <;> simp at ht
  · intro st
    left
    cases st with
    | ps o k => cases k <;> rfl
    | st s =>
      by_cases hs : s < ds.length
      · exact h5 s (List.mem_range.2 hs)
      · show (ds.getD s {}).defaultCtor = true
        rw [List.getD_eq_getElem?_getD, List.getElem?_eq_none (Nat.le_of_not_lt hs)]; rfl

/-- The machines of test/integration (see `RepoTests`) except two, and those of example/ and
benchmark/. -/
def shipped : List Machine :=
  [RepoTests.basic, RepoTests.guards, RepoTests.entryExit, RepoTests.anon, RepoTests.defer, RepoTests.direct, RepoTests.pseudo, RepoTests.exitHistory, RepoTests.history, RepoTests.internal, RepoTests.regions, RepoTests.setting, RepoTests.returns, RepoTests.unexpected, RepoTests.initialState, RepoTests.noAction, RepoTests.logging, RepoTests.injected, RepoTests.anonOnce,
    turnstile, cdplayer, simplePlayer, ring]

theorem shipped_safe {P W : Type} {sem : Sem P W} (hg : ∀ g a p w, sem.guard g a p w ≠ .ub)
    (ha : ∀ a args p w, sem.action a args p w ≠ .ub)
    (hh : ∀ h e st d p w, sem.handler h e st d p w ≠ .ub) :
    ∀ M ∈ shipped, M.Regular ∧ Safe M sem := by
  unfold shipped
  simp only [List.forall_mem_cons]
  refine ⟨?_, ?_, ?_, ?_, ?_, ?_, ?_, ?_, ?_, ?_, ?_, ?_, ?_, ?_, ?_, ?_, ?_, ?_, ?_, ?_, ?_, ?_, ?_, fun _ h => by cases h⟩
  · exact ⟨Machine.regular_ofList (by decide +kernel), safe_of_check (by decide +kernel) hg ha hh⟩
  · exact ⟨Machine.regular_ofList (by decide +kernel), safe_of_check (by decide +kernel) hg ha hh⟩
  · exact ⟨Machine.regular_ofList (by decide +kernel), safe_of_check (by decide +kernel) hg ha hh⟩
  · exact ⟨Machine.regular_ofList (by decide +kernel), safe_of_check (by decide +kernel) hg ha hh⟩
  · exact ⟨Machine.regular_ofList (by decide +kernel), safe_of_check (by decide +kernel) hg ha hh⟩
  · exact ⟨Machine.regular_ofList (by decide +kernel), safe_of_check (by decide +kernel) hg ha hh⟩
  · exact ⟨Machine.regular_ofList (by decide +kernel), safe_of_check (by decide +kernel) hg ha hh⟩
  · exact ⟨Machine.regular_ofList (by decide +kernel), safe_of_check (by decide +kernel) hg ha hh⟩
  · exact ⟨Machine.regular_ofList (by decide +kernel), safe_of_check (by decide +kernel) hg ha hh⟩
  · exact ⟨Machine.regular_ofList (by decide +kernel), safe_of_check (by decide +kernel) hg ha hh⟩
  · exact ⟨Machine.regular_ofList (by decide +kernel), safe_of_check (by decide +kernel) hg ha hh⟩
  · exact ⟨Machine.regular_ofList (by decide +kernel), safe_of_check (by decide +kernel) hg ha hh⟩
  · exact ⟨Machine.regular_ofList (by decide +kernel), safe_of_check (by decide +kernel) hg ha hh⟩
  · exact ⟨Machine.regular_ofList (by decide +kernel), safe_of_check (by decide +kernel) hg ha hh⟩
  · exact ⟨Machine.regular_ofList (by decide +kernel), safe_of_check (by decide +kernel) hg ha hh⟩
  · exact ⟨Machine.regular_ofList (by decide +kernel), safe_of_check (by decide +kernel) hg ha hh⟩
  · exact ⟨Machine.regular_ofList (by decide +kernel), safe_of_check (by decide +kernel) hg ha hh⟩
  · exact ⟨Machine.regular_ofList (by decide +kernel), safe_of_check (by decide +kernel) hg ha hh⟩
  · exact ⟨Machine.regular_ofList (by decide +kernel), safe_of_check (by decide +kernel) hg ha hh⟩
  · exact ⟨turnstile_regular, safe_of_check (by decide +kernel) hg ha hh⟩
  · exact ⟨cdplayer_regular, safe_of_check (by decide +kernel) hg ha hh⟩
  · exact ⟨simplePlayer_regular, safe_of_check (by decide +kernel) hg ha hh⟩
  · exact ⟨ring_regular, safe_of_check (by decide +kernel) hg ha hh⟩

/-- C72: whatever their callbacks do and whatever events, `set` and `set_dependency` calls they get,
these machines never run into undefined behaviour. -/
theorem C72_safe {P W : Type} {sem : Sem P W} (hg : ∀ g a p w, sem.guard g a p w ≠ .ub)
    (ha : ∀ a args p w, sem.action a args p w ≠ .ub)
    (hh : ∀ h e st d p w, sem.handler h e st d p w ≠ .ub) :
    ∀ M ∈ shipped, (∀ d w, ∃ s : SM P W, construct M d w = .ok s) ∧
      ∀ s : SM P W, Reach M sem s → ∀ fuel op, OpOk M op → (step M sem fuel op s).Defined := by
  intro M hM
  obtain ⟨h1, h2⟩ := shipped_safe hg ha hh M hM
  obtain ⟨h3, h4⟩ := C05_partial h1 h2
  exact ⟨h3, fun s hs fuel op hop => (h4 s hs).1 fuel op hop⟩

/-- C72: the other two do.  The machine of reproducer/should_enter_substate_with_multiple_regions.cpp
reads an uninitialised slot when `e2` follows the only event the test sends; that of
custom_targets.cpp uses a state object that does not exist if the state is entered by the row that
does not create it. -/
theorem C72_unsafe :
    Hits RepoTests.enterRegions (Ex.sem fun _ => true) .uninit ∧
    Hits RepoTests.custom (Ex.semLate fun _ => true) .nullObject := by
  constructor
  · exact Ex.hits_of_run (ops := [.process (ev 1) 1]) (op := .process (ev 2) 1)
      (Machine.regular_ofList (by decide +kernel)) (Machine.scoped_of_check (by decide +kernel))
      (Ex.harmless _) (by decide +kernel) (by decide +kernel)
  · exact Ex.hits_of_run (ops := [.process (ev 3) 1]) (op := .process (ev 2) 1)
      (Machine.regular_ofList (by decide +kernel)) (Machine.scoped_of_check (by decide +kernel))
      (Ex.harmless fun _ => true) (by decide +kernel) (by decide +kernel)

end Programs
end Hsm
