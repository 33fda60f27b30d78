import Verif.PropsEvent

/-!
# Deferred events

C19, C20, C21, C43, C45.
-/

namespace Hsm

section
variable {P W : Type} {M : Machine} {sem : Sem P W} {d : Dep} {ops : List (Op P)} {s s' : SM P W}
  {fuel : Nat} {ev : EventTy} {pl : P} {deps : List Dep}

/-! ## C19: the queue is a FIFO -/

/-- What handling event `ev` may do to the queue: nothing; append the event; remove the
oldest element, and possibly append that element's event again. -/
def QueueStep (ev : EventTy) (q q' : List (EventTy × P)) : Prop :=
  q' = q ∨ (∃ pl', q' = q ++ [(ev, pl')]) ∨
  ∃ e p q0, q = (e, p) :: q0 ∧ (q' = q0 ∨ ∃ p', q' = q0 ++ [(e, p')])

/-- The queue after an event had its turn. -/
theorem Turn.queue {os : List RegionOut} {pl' : P} {s1 s2 : SM P W}
    (h : Turn M sem deps ev pl s os pl' s1 s2) :
    (RegionOut.deferred ∉ os ∧ s2.queue = s.queue) ∨
    (RegionOut.deferred ∈ os ∧ s2.queue = s.queue ++ [(ev, pl')]) := by
  rcases h.loop.last with ⟨h1, _, h3⟩ | ⟨os', h1, _, _, h4⟩
  · refine Or.inl ⟨h1, ?_⟩
    cases h with
    | quiet => exact h3
    | react hl hy ha => rw [Lift.queue.settles ha, h3]
  · have hd : RegionOut.deferred ∈ os := by rw [h1]; simp
    refine Or.inr ⟨hd, ?_⟩
    cases h with
    | quiet => exact h4
    | react hl hy ha => exact absurd hd hy.1

/-- C19: every call, whether it returns or is left by an exception, changes the queue in one
of the allowed ways; `set` and `set_dependency` do not touch it. -/
theorem C19_queue (hM : M.Regular) (hrun : RunTo M sem d ops s) {op : Op P} (hop : OpOk M op)
    (h : (∃ b, step M sem fuel op s = .ok b s') ∨ ∃ x, step M sem fuel op s = .throw x s') :
    match op with
    | .process ev _ => QueueStep ev s.queue s'.queue
    | _ => s'.queue = s.queue := by
  have turn : ∀ {ev pl os pl' s1 s2}, Turn M sem (depsOf d ops) ev pl s os pl' s1 s2 →
      QueueStep ev s.queue s2.queue := by
    intro ev pl os pl' s1 s2 ht
    rcases ht.queue with ⟨_, h⟩ | ⟨_, h⟩
    · exact Or.inl h
    · exact Or.inr (Or.inl ⟨_, h⟩)
  cases op with
  | process ev pl =>
    have hev : ev ∈ M.events := hop.event
    rcases h with ⟨b, h⟩ | ⟨x, h⟩
    · cases C07_process hM hrun hev h with
      | ignored ht hn hh => exact turn ht
      | unexpected ht hn hh ha hc => have := turn ht; exact this
      | unhandled ht hr hn => exact turn ht
      | handled ht hr hq => exact turn ht
      | replayed ht hr hd hq ht' =>
        rcases ht.queue with ⟨_, h1⟩ | ⟨h1, _⟩
        · rw [h1] at hq
          refine Or.inr (Or.inr ⟨_, _, _, hq, ?_⟩)
          rcases ht'.queue with ⟨_, h2⟩ | ⟨_, h2⟩
          · exact Or.inl h2
          · exact Or.inr ⟨_, h2⟩
        · exact absurd h1 hr.1
    · rcases processEvent_throw hM hev (hrun.ready hM) h with ⟨k, _, he⟩ | ⟨_, _, os, pl', ht, _⟩
      · cases he with
        | main ht => exact Or.inl (Lift.queue.turnThrow ht)
        | handler ht hn hh ha hc => have := turn ht; exact this
        | replay ht hr hd hq ht' =>
          rcases ht.queue with ⟨_, h1⟩ | ⟨h1, _⟩
          · rw [h1] at hq
            exact Or.inr (Or.inr ⟨_, _, _, hq, Or.inl (Lift.queue.turnThrow ht')⟩)
          · exact absurd h1 hr.1
      · exact turn ht
  | set r p st =>
    have : ∀ {R : Res (SM P W) Bool}, R = (setOp M r p st s).bind (fun _ s => .ok true s) →
        ((∃ b, R = .ok b s') ∨ ∃ x, R = .throw x s') → s'.queue = s.queue := by
      rintro R rfl h
      unfold setOp at h
      split at h <;> rcases h with ⟨_, h⟩ | ⟨_, h⟩ <;> cases h <;> rfl
    exact this rfl h
  | setDependency d' =>
    have : ∀ {R : Res (SM P W) Bool}, R = (setDependency M d' s).bind (fun _ s => .ok true s) →
        ((∃ b, R = .ok b s') ∨ ∃ x, R = .throw x s') → s'.queue = s.queue := by
      rintro R rfl h
      unfold setDependency at h
      split at h <;> rcases h with ⟨_, h⟩ | ⟨_, h⟩ <;> cases h <;> rfl
    exact this rfl h

/-! ## C20: a deferred event is replayed after a bounded number of processed events -/

/-- Only a machine with deferring states defers. -/
theorem deferring_of_cands {p : Name} {st : StTy} (h : Cand.defer ∈ M.cands ev p st) :
    M.deferring = true := by
  rcases Machine.mem_cands.1 h with ⟨_, t, ht, _, hd⟩ | ⟨_, _, _, _, _, _, h⟩ | ⟨_, _, _, _, h⟩ |
    ⟨_, _, _, _, h⟩
  · rw [← Machine.hasDefer_eq]
    unfold Machine.hasDefer Machine.deferringRows
    rw [Bool.not_eq_true', Bool.eq_false_iff]
    intro he
    rw [List.isEmpty_iff, List.filter_eq_nil_iff] at he
    apply he t ht
    cases hdd : M.deferOf (Machine.stripInitial t.source) with
    | none => rw [hdd] at hd; cases hd
    | some l => rfl
  · cases h
  · cases h
  · cases h

theorem LoopRun.deferring {rs : List Nat} {os : List RegionOut} {pl' : P}
    (h : LoopRun M sem deps ev rs pl s os pl' s') (hd : RegionOut.deferred ∈ os) :
    M.deferring = true := by
  induction h with
  | nil => cases hd
  | cons h1 ho h2 ih =>
    rcases List.mem_cons.1 hd with h | h
    · exact absurd h.symm ho
    · exact ih h
  | stop h1 =>
    cases h1 with
    | deferred ha hc => exact deferring_of_cands hc

/-- One step of the history keeps "the queue is empty unless there are deferring states". -/
theorem RunTo.deferring (hM : M.Regular) (hrun : RunTo M sem d ops s) (hq : s.queue ≠ []) :
    M.deferring = true := by
  have turn : ∀ {ev pl os pl' s1} {s s2 : SM P W} {deps : List Dep},
      Turn M sem deps ev pl s os pl' s1 s2 →
      (s.queue ≠ [] → M.deferring = true) → s2.queue ≠ [] → M.deferring = true := by
    intro ev pl os pl' s1 s s2 deps ht ih hq
    rcases ht.queue with ⟨_, h⟩ | ⟨h, _⟩
    · rw [h] at hq; exact ih hq
    · exact ht.loop.deferring h
  revert hq
  induction hrun with
  | init h =>
    intro hq
    obtain ⟨_, _, _, _, _, _, h, _⟩ := construct_ok h
    exact absurd h hq
  | @ok s s' ops op fuel b hr hop h ih =>
    cases op with
    | process ev pl =>
      cases C07_process hM hr hop.event h with
      | ignored ht hn hh => exact turn ht ih
      | unexpected ht hn hh ha hc => have := turn ht ih; exact this
      | unhandled ht hr hn => exact turn ht ih
      | handled ht hr hq => exact turn ht ih
      | replayed ht hr hd hq ht' => intro _; exact hd
    | set r p st => have := C19_queue hM hr hop (Or.inl ⟨_, h⟩); rw [this]; exact ih
    | setDependency d' => have := C19_queue hM hr hop (Or.inl ⟨_, h⟩); rw [this]; exact ih
  | @throw s s' ops op fuel x hr hop h ih =>
    cases op with
    | process ev pl =>
      rcases processEvent_throw hM hop.event (hr.ready hM) h with ⟨k, _, he⟩ | ⟨_, _, os, pl', ht, _⟩
      · cases he with
        | main ht => rw [Lift.queue.turnThrow ht]; exact ih
        | handler ht hn hh ha hc => have := turn ht ih; exact this
        | replay ht hr hd hq ht' => intro _; exact hd
      · exact turn ht ih
    | set r p st => have := C19_queue hM hr hop (Or.inr ⟨_, h⟩); rw [this]; exact ih
    | setDependency d' => have := C19_queue hM hr hop (Or.inr ⟨_, h⟩); rw [this]; exact ih
  | world hr w ih => exact ih

/-- `Calls M sem n cs s s'`: the calls `cs`, which all return, lead from `s` to `s'`; `n` of
them are calls of `process_event` that returned true. -/
inductive Calls (M : Machine) (sem : Sem P W) : Nat → List (Op P) → SM P W → SM P W → Prop
  | nil (s : SM P W) : Calls M sem 0 [] s s
  | accepted {n fuel : Nat} {cs : List (Op P)} {ev : EventTy} {pl : P} {s s1 s2 : SM P W}
      (h : Calls M sem n cs s s1) (hev : ev ∈ M.events)
      (hp : processEvent M sem fuel ev pl s1 = .ok true s2) :
      Calls M sem (n + 1) (cs ++ [.process ev pl]) s s2
  | refused {n fuel : Nat} {cs : List (Op P)} {ev : EventTy} {pl : P} {s s1 s2 : SM P W}
      (h : Calls M sem n cs s s1) (hev : ev ∈ M.events)
      (hp : processEvent M sem fuel ev pl s1 = .ok false s2) :
      Calls M sem n (cs ++ [.process ev pl]) s s2
  | set {n r : Nat} {cs : List (Op P)} {p : Name} {st : StTy} {s s1 s2 : SM P W}
      (h : Calls M sem n cs s s1) (hp : p ∈ M.composites) (hst : st ∈ M.states)
      (hs : setOp M r p st s1 = .ok () s2) : Calls M sem n (cs ++ [.set r p st]) s s2
  | setDependency {n : Nat} {cs : List (Op P)} {d : Dep} {s s1 s2 : SM P W}
      (h : Calls M sem n cs s s1) (hs : Hsm.setDependency M d s1 = .ok () s2) :
      Calls M sem n (cs ++ [.setDependency d]) s s2
  | world {n : Nat} {cs : List (Op P)} {s s1 : SM P W} (h : Calls M sem n cs s s1) (w : W) :
      Calls M sem n cs s { s1 with world := w }

theorem Calls.runTo {n : Nat} {cs : List (Op P)} (h : Calls M sem n cs s s')
    (hrun : RunTo M sem d ops s) : RunTo M sem d (ops ++ cs) s' := by
  induction h with
  | nil => simpa using hrun
  | @accepted n fuel cs ev pl s s1 s2 h hev hp ih =>
    rw [← List.append_assoc]
    exact .ok (op := .process ev pl) (fuel := fuel) (ih hrun) (opOk_event hev) hp
  | @refused n fuel cs ev pl s s1 s2 h hev hp ih =>
    rw [← List.append_assoc]
    exact .ok (op := .process ev pl) (fuel := fuel) (ih hrun) (opOk_event hev) hp
  | @set n r cs p st s s1 s2 h hp hst hs ih =>
    rw [← List.append_assoc]
    exact .ok (op := .set r p st) (fuel := 0) (ih hrun) (opOk_place ⟨hp, hst⟩)
      (b := true) (by show Res.bind _ _ = _; rw [hs]; rfl)
  | @setDependency n cs d s s1 s2 h hs ih =>
    rw [← List.append_assoc]
    exact .ok (op := .setDependency d) (fuel := 0) (ih hrun) trivial
      (b := true) (by show Res.bind _ _ = _; rw [hs]; rfl)
  | world h w ih => exact .world (ih hrun) w

/-- A call that returns true on a machine with a waiting event replays the oldest one, and
only that one. -/
theorem C20_replays (hM : M.Regular) (hrun : RunTo M sem d ops s) (hev : ev ∈ M.events)
    {e : EventTy} {p : P} {q : List (EventTy × P)} (hq : s.queue = (e, p) :: q)
    (h : processEvent M sem fuel ev pl s = .ok true s') :
    ∃ os pl' s1 s2 os' p' s3, Turn M sem (depsOf d ops) ev pl s os pl' s1 s2 ∧ Reacted os ∧
      s2.queue = s.queue ∧
      Turn M sem (depsOf d ops) e p { s2 with queue := q } os' p' s3 s' ∧
      (s'.queue = q ∨ s'.queue = q ++ [(e, p')]) := by
  have hd := hrun.deferring hM (by rw [hq]; simp)
  cases C07_process hM hrun hev h with
  | handled ht hr hx =>
    rcases ht.queue with ⟨_, h1⟩ | ⟨h1, _⟩
    · rcases hx with hx | hx
      · rw [hd] at hx; cases hx
      · rw [h1, hq] at hx; cases hx
    · exact absurd h1 hr.1
  | replayed ht hr hd hx ht' =>
    rcases ht.queue with ⟨_, h1⟩ | ⟨h1, _⟩
    · have hx' := hx
      rw [h1, hq] at hx'
      cases hx'
      refine ⟨_, _, _, _, _, _, _, ht, hr, h1, ht', ?_⟩
      rcases ht'.queue with ⟨_, h2⟩ | ⟨_, h2⟩
      · exact Or.inl h2
      · exact Or.inr h2
    · exact absurd h1 hr.1

/-- A call that returns false keeps all waiting events. -/
theorem refused_queue (hM : M.Regular) (hrun : RunTo M sem d ops s) (hev : ev ∈ M.events)
    (h : processEvent M sem fuel ev pl s = .ok false s') :
    s'.queue = s.queue ∨ ∃ pl', s'.queue = s.queue ++ [(ev, pl')] := by
  have turn : ∀ {os pl' s1 s2}, Turn M sem (depsOf d ops) ev pl s os pl' s1 s2 →
      s2.queue = s.queue ∨ ∃ pl', s2.queue = s.queue ++ [(ev, pl')] := by
    intro os pl' s1 s2 ht
    rcases ht.queue with ⟨_, h⟩ | ⟨_, h⟩
    · exact Or.inl h
    · exact Or.inr ⟨_, h⟩
  cases C07_process hM hrun hev h with
  | ignored ht hn hh => exact turn ht
  | unexpected ht hn hh ha hc => have := turn ht; exact this
  | unhandled ht hr hn => exact turn ht

/-- C20, waiting: an element with `k` elements before it is untouched, with `k - n`
elements before it, after calls of which `n ≤ k` returned true. -/
theorem C20_waits (hM : M.Regular) (hrun : RunTo M sem d ops s) {e : EventTy} {p : P}
    {pre post : List (EventTy × P)} (hq : s.queue = pre ++ (e, p) :: post) {n : Nat}
    (hn : n ≤ pre.length) {cs : List (Op P)} (h : Calls M sem n cs s s') :
    ∃ post', s'.queue = pre.drop n ++ (e, p) :: post' := by
  induction h with
  | nil => exact ⟨post, by simpa using hq⟩
  | @accepted n fuel cs ev pl s s1 s2 h hev hp ih =>
    obtain ⟨post', h1⟩ := ih hrun hq (by omega)
    have ho := h.runTo hrun
    obtain ⟨⟨e0, p0⟩, hx⟩ : ∃ x, pre[n]? = some x := ⟨pre[n], List.getElem?_eq_getElem (by omega)⟩
    have hdrop : pre.drop n = (e0, p0) :: pre.drop (n + 1) := by
      have hlt : n < pre.length := by omega
      rw [List.drop_eq_getElem_cons hlt]
      rw [List.getElem?_eq_getElem hlt] at hx
      rw [Option.some.inj hx]
    rw [hdrop, List.cons_append] at h1
    obtain ⟨_, _, _, _, _, p', _, _, _, _, _, h2⟩ := C20_replays hM ho hev h1 hp
    rcases h2 with h2 | h2
    · exact ⟨post', h2⟩
    · exact ⟨post' ++ [(e0, p')], by rw [h2]; simp⟩
  | @refused n fuel cs ev pl s s1 s2 h hev hp ih =>
    obtain ⟨post', h1⟩ := ih hrun hq hn
    have ho := h.runTo hrun
    rcases refused_queue hM ho hev hp with h2 | ⟨pl', h2⟩
    · exact ⟨post', by rw [h2, h1]⟩
    · exact ⟨post' ++ [(ev, pl')], by rw [h2, h1]; simp⟩
  | set h hp hst hs ih =>
    obtain ⟨post', h1⟩ := ih hrun hq hn
    unfold setOp at hs
    split at hs <;> cases hs
    exact ⟨post', h1⟩
  | setDependency h hs ih =>
    obtain ⟨post', h1⟩ := ih hrun hq hn
    unfold Hsm.setDependency at hs
    split at hs <;> cases hs
    exact ⟨post', h1⟩
  | world h w ih => exact ih hrun hq hn

/-- C20: the element with `k` elements before it is replayed, with its payload, by the call
that returns true after calls of which exactly `k` returned true. -/
theorem C20_bounded (hM : M.Regular) (hrun : RunTo M sem d ops s) {e : EventTy} {p : P}
    {pre post : List (EventTy × P)} (hq : s.queue = pre ++ (e, p) :: post) {s1 s2 : SM P W}
    {cs : List (Op P)} (h : Calls M sem pre.length cs s s1) (hev : ev ∈ M.events)
    (hp : processEvent M sem fuel ev pl s1 = .ok true s2) :
    ∃ os pl' sa sb os' p' sc q,
      Turn M sem (depsOf d (ops ++ cs)) ev pl s1 os pl' sa sb ∧ Reacted os ∧
      sb.queue = (e, p) :: q ∧
      Turn M sem (depsOf d (ops ++ cs)) e p { sb with queue := q } os' p' sc s2 := by
  obtain ⟨post', h1⟩ := C20_waits hM hrun hq (Nat.le_refl _) h
  rw [List.drop_length, List.nil_append] at h1
  have ho := h.runTo hrun
  obtain ⟨os, pl', sa, sb, os', p', sc, ht, hr, hqq, ht', _⟩ := C20_replays hM ho hev h1 hp
  exact ⟨os, pl', sa, sb, os', p', sc, post', ht, hr, by rw [hqq, h1], ht'⟩

/-! ## C45: order of main event, anonymous rows and replay -/

/-- The event a callback was called for. -/
def Call.event {P : Type} : Call P → EventTy
  | .guard _ a _ _ _ => a.event
  | .action _ _ a _ _ _ => a.event
  | .handler _ e _ _ _ _ _ => e

/-- `tr` is what handling event `ev`, coming in with payload `pl`, adds to the trace: all
calls are for `ev`, the first one gets `pl`, and if there is none the payload is still
`pl`. -/
def Serves (ev : EventTy) (pl : P) (tr : List (Call P)) (pl' : P) : Prop :=
  (∀ c ∈ tr, c.event = ev) ∧
    ((tr = [] ∧ pl' = pl) ∨ ∃ c t, tr = c :: t ∧ c.payload = pl)

theorem Serves.trans {p0 p1 p2 : P} {t1 t2 : List (Call P)} (h1 : Serves ev p0 t1 p1)
    (h2 : Serves ev p1 t2 p2) : Serves ev p0 (t1 ++ t2) p2 := by
  refine ⟨?_, ?_⟩
  · intro c hc
    rcases List.mem_append.1 hc with hc | hc
    · exact h1.1 c hc
    · exact h2.1 c hc
  · rcases h1.2 with ⟨rfl, rfl⟩ | ⟨c, t, rfl, h⟩
    · simpa using h2.2
    · exact Or.inr ⟨c, t ++ t2, rfl, h⟩

theorem Serves.nil (p : P) : Serves ev p [] p := ⟨by simp, Or.inl ⟨rfl, rfl⟩⟩

theorem Serves.weaken {p0 p1 p2 : P} {tr : List (Call P)} (h : Serves ev p0 tr p1)
    (hne : tr ≠ []) : Serves ev p0 tr p2 := by
  refine ⟨h.1, ?_⟩
  rcases h.2 with ⟨h, _⟩ | h
  · exact absurd h hne
  · exact Or.inr h

theorem FalseRun.serves {cur : List (Option Nat)} {es : List Entry} {p p' : P} {w w' : W}
    {tr : List (Call P)} (h : FalseRun sem cur ev es p w tr p' w') : Serves ev p tr p' := by
  induction h with
  | nil => exact Serves.nil _
  | cons hd ht hg hc hr ih =>
    refine ⟨?_, Or.inr ⟨_, _, rfl, rfl⟩⟩
    intro c hc
    rcases List.mem_cons.1 hc with rfl | hc
    · rfl
    · exact ih.1 c hc

theorem TrueGuard.serves {cur : List (Option Nat)} {x : Exec} {p p' : P} {w w' : W}
    {tr : List (Call P)} (h : TrueGuard sem cur ev x p w tr p' w') : Serves ev p tr p' := by
  cases h with
  | absent => exact Serves.nil _
  | called =>
    refine ⟨?_, Or.inr ⟨_, _, rfl, rfl⟩⟩
    intro c hc
    simp only [List.mem_singleton] at hc
    rw [hc]; rfl

theorem ActRun.serves {cur : List (Option Nat)} {args : Args} (ha : args.event = ev)
    {cs : List (Phase × Cb)} {p p' : P} {w w' : W}
    {tr : List (Call P)} (h : ActRun sem cur args cs p w tr p' w') : Serves ev p tr p' := by
  induction h with
  | nil => exact Serves.nil _
  | cons hc hr ih =>
    refine ⟨?_, Or.inr ⟨_, _, rfl, rfl⟩⟩
    intro c hc
    rcases List.mem_cons.1 hc with rfl | hc
    · exact ha
    · exact ih.1 c hc

theorem ActThrow.serves {cur : List (Option Nat)} {args : Args} (ha : args.event = ev)
    {cs : List (Phase × Cb)} {p : P} {w w' : W} {k : Nat} (p' : P)
    {tr : List (Call P)} (h : ActThrow sem cur args cs p w tr k w') : Serves ev p tr p' := by
  induction h with
  | here =>
    refine ⟨?_, Or.inr ⟨_, _, rfl, rfl⟩⟩
    intro c hc
    simp only [List.mem_singleton] at hc
    rw [hc]; exact ha
  | later hc hr ih =>
    refine ⟨?_, Or.inr ⟨_, _, rfl, rfl⟩⟩
    intro c hc
    rcases List.mem_cons.1 hc with rfl | hc
    · exact ha
    · exact ih.1 c hc

theorem RegionRun.serves {r : Nat} {o : RegionOut} {pl' : P}
    (h : RegionRun M sem deps r ev pl s o pl' s') :
    ∃ tr, s'.trace = s.trace ++ tr ∧ Serves ev pl tr pl' := by
  cases h with
  | none => exact ⟨[], by simp, Serves.nil _⟩
  | rejected ha hne hf => exact ⟨_, rfl, hf.serves⟩
  | deferred => exact ⟨[], by simp, Serves.nil _⟩
  | fired ha hs hf hg he hr =>
    refine ⟨_, ?_, (hf.serves.trans hg.serves).trans (hr.serves rfl)⟩
    simp only [SM.ran]
    rw [he.trace]
    simp [SM.ran]

theorem RegionThrow.serves {r : Nat} {k : Nat} (pl' : P)
    (h : RegionThrow M sem deps r ev pl s k s') :
    ∃ tr, s'.trace = s.trace ++ tr ∧ Serves ev pl tr pl' := by
  cases h with
  | guard ha hs hf hg hc =>
    refine ⟨_, rfl, hf.serves.trans ⟨?_, Or.inr ⟨_, _, rfl, rfl⟩⟩⟩
    intro c hc
    simp only [List.mem_singleton] at hc
    rw [hc]; rfl
  | action ha hs hf hg he hr =>
    refine ⟨_, ?_, (hf.serves.trans hg.serves).trans (hr.serves rfl pl')⟩
    simp only [SM.ran]
    rw [he.trace]
    simp [SM.ran]

theorem LoopRun.serves {rs : List Nat} {os : List RegionOut} {pl' : P}
    (h : LoopRun M sem deps ev rs pl s os pl' s') :
    ∃ tr, s'.trace = s.trace ++ tr ∧ Serves ev pl tr pl' := by
  induction h with
  | nil => exact ⟨[], by simp, Serves.nil _⟩
  | cons h1 ho h2 ih =>
    obtain ⟨t1, e1, r1⟩ := h1.serves
    obtain ⟨t2, e2, r2⟩ := ih
    exact ⟨t1 ++ t2, by rw [e2, e1, List.append_assoc], r1.trans r2⟩
  | stop h1 => exact h1.serves

theorem LoopThrow.serves {rs : List Nat} {os : List RegionOut} {r k : Nat} (pl' : P)
    (h : LoopThrow M sem deps ev rs pl s os r k s') :
    ∃ tr, s'.trace = s.trace ++ tr ∧ Serves ev pl tr pl' := by
  obtain ⟨_, p1, s1, hl, ht⟩ := h.split
  obtain ⟨t1, e1, r1⟩ := hl.serves
  obtain ⟨t2, e2, r2⟩ := ht.serves pl'
  exact ⟨t1 ++ t2, by rw [e2, e1, List.append_assoc], r1.trans r2⟩

/-- New calls are all for `noneEvent`. -/
def AnonCalls (s s' : SM P W) : Prop :=
  ∃ tr, s'.trace = s.trace ++ tr ∧ ∀ c ∈ tr, c.event = .none

theorem AnonCalls.refl (s : SM P W) : AnonCalls s s := ⟨[], by simp, by simp⟩

theorem AnonCalls.trans {s1 s2 s3 : SM P W} (h1 : AnonCalls s1 s2) (h2 : AnonCalls s2 s3) :
    AnonCalls s1 s3 := by
  obtain ⟨t1, e1, r1⟩ := h1
  obtain ⟨t2, e2, r2⟩ := h2
  refine ⟨t1 ++ t2, by rw [e2, e1, List.append_assoc], ?_⟩
  intro c hc
  rcases List.mem_append.1 hc with hc | hc
  · exact r1 c hc
  · exact r2 c hc

theorem AnonRound.calls {rs : List Nat} {os : List RegionOut} {b : Option Bool} {pl' : P}
    (h : AnonRound M sem deps rs pl s os b pl' s') : AnonCalls s s' := by
  induction h with
  | nil => exact AnonCalls.refl _
  | stop => exact AnonCalls.refl _
  | cons h1 ho h2 ih =>
    obtain ⟨t1, e1, r1⟩ := h1.serves
    exact AnonCalls.trans ⟨t1, e1, r1.1⟩ ih

theorem Settles.calls (h : Settles M sem deps s s') : AnonCalls s s' := by
  unfold Settles at h
  split at h
  · generalize sem.nonePayload = p at h
    induction h with
    | done h hb => exact h.calls
    | again h hr ih => exact h.calls.trans ih
  · rw [h]; exact AnonCalls.refl _

/-- The calls made during the turn of an event: first those of the event, then anonymous
ones. -/
theorem Turn.calls {os : List RegionOut} {pl' : P} {s1 s2 : SM P W}
    (h : Turn M sem deps ev pl s os pl' s1 s2) :
    ∃ t1 t2, s1.trace = s.trace ++ t1 ∧ s2.trace = s1.trace ++ t2 ∧ Serves ev pl t1 pl' ∧
      (∀ c ∈ t2, c.event = .none) ∧ (t2 ≠ [] → Reacted os) := by
  cases h with
  | quiet h hn =>
    obtain ⟨t1, e1, r1⟩ := h.serves
    exact ⟨t1, [], e1, by simp, r1, by simp, by simp⟩
  | react h hy ha =>
    obtain ⟨t1, e1, r1⟩ := h.serves
    obtain ⟨t2, e2, r2⟩ := ha.calls
    exact ⟨t1, t2, e1, e2, r1, r2, fun _ => hy⟩

/-- C45: during a call of `process_event` that returns true, first the event goes through
the regions (`s` to `s1`) and the anonymous rounds it triggered are completed (`s1` to
`s2`).  Either that is all (no event is waiting), or then the oldest waiting event, taken
off the queue, goes through the regions of the resulting configuration (to `s3`), followed
by its own anonymous rounds (to `s'`); the call returns with the queue as that one turn
left it.  The trace is the calls of the event, anonymous calls, the calls of the replayed
event, anonymous calls. -/
theorem C45_order (hM : M.Regular) (hrun : RunTo M sem d ops s) (hev : ev ∈ M.events)
    (h : processEvent M sem fuel ev pl s = .ok true s') :
    ∃ os pl' s1 s2, LoopRun M sem (depsOf d ops) ev (List.range (activeRegions M s)) pl s os pl' s1 ∧
      Reacted os ∧ Settles M sem (depsOf d ops) s1 s2 ∧
      ((s' = s2 ∧ (M.deferring = false ∨ s2.queue = [])) ∨
       ∃ re rp q os' rp' s3, s.queue = (re, rp) :: q ∧ s2.queue = (re, rp) :: q ∧
        LoopRun M sem (depsOf d ops) re (List.range (activeRegions M s2)) rp
          { s2 with queue := q } os' rp' s3 ∧
        (Reacted os' → Settles M sem (depsOf d ops) s3 s') ∧ (¬ Reacted os' → s' = s3) ∧
        (s'.queue = q ∨ s'.queue = q ++ [(re, rp')]) ∧
        ∃ t1 t2 t3 t4, s'.trace = s.trace ++ t1 ++ t2 ++ t3 ++ t4 ∧
          (∀ c ∈ t1, c.event = ev) ∧ (∀ c ∈ t2, c.event = .none) ∧
          (∀ c ∈ t3, c.event = re) ∧ ∀ c ∈ t4, c.event = .none) := by
  have react : ∀ {os pl' s1 s2}, Turn M sem (depsOf d ops) ev pl s os pl' s1 s2 → Reacted os →
      Settles M sem (depsOf d ops) s1 s2 := by
    intro os pl' s1 s2 ht hr
    cases ht with
    | quiet _ hn => exact absurd hr hn
    | react _ _ ha => exact ha
  cases C07_process hM hrun hev h with
  | handled ht hr hq => exact ⟨_, _, _, _, ht.loop, hr, react ht hr, Or.inl ⟨rfl, hq⟩⟩
  | @replayed os os' pl' rp rp' s1 s2 s3 s4 re q ht hr hd hq ht' =>
    have hqq : s2.queue = s.queue := by
      rcases ht.queue with ⟨_, h⟩ | ⟨h, _⟩
      · exact h
      · exact absurd h hr.1
    refine ⟨_, _, _, _, ht.loop, hr, react ht hr, Or.inr ⟨re, rp, q, os', rp', s3, by rw [← hqq, hq],
      hq, ht'.loop, ?_, ?_, ?_, ?_⟩⟩
    · intro hr'
      cases ht' with
      | quiet _ hn => exact absurd hr' hn
      | react _ _ ha => exact ha
    · intro hr'
      cases ht' with
      | quiet _ hn => rfl
      | react _ hy ha => exact absurd hy hr'
    · rcases ht'.queue with ⟨_, h2⟩ | ⟨_, h2⟩
      · exact Or.inl h2
      · exact Or.inr h2
    · obtain ⟨t1, t2, e1, e2, r1, r2, _⟩ := ht.calls
      obtain ⟨t3, t4, e3, e4, r3, r4, _⟩ := ht'.calls
      refine ⟨t1, t2, t3, t4, ?_, r1.1, r2, r3.1, r4⟩
      rw [e4, e3]
      show s2.trace ++ t3 ++ t4 = _
      rw [e2, e1]

/-! ## C43: replayed events carry the payload they were deferred with -/

/-- C43: an event deferred with payload `p`, whatever calls are made until it is replayed
(`n` of them accepted, as many as there were events waiting before it), is replayed with
payload `p`: the first callback called for it gets `p`. -/
theorem C43_payload (hM : M.Regular) (hrun : RunTo M sem d ops s) {e : EventTy} {p : P}
    {pre post : List (EventTy × P)} (hq : s.queue = pre ++ (e, p) :: post) {s1 s2 : SM P W}
    {cs : List (Op P)} (h : Calls M sem pre.length cs s s1) (hev : ev ∈ M.events)
    (hp : processEvent M sem fuel ev pl s1 = .ok true s2) :
    ∃ t1 t2 t3, s2.trace = s1.trace ++ t1 ++ t2 ++ t3 ∧ (∀ c ∈ t1, c.event = ev ∨ c.event = .none) ∧
      (∀ c ∈ t2, c.event = e) ∧ (∀ c ∈ t3, c.event = .none) ∧
      ∀ c, t2.head? = some c → c.payload = p := by
  obtain ⟨os, pl', sa, sb, os', p', sc, q, ht, hr, hqq, ht'⟩ :=
    C20_bounded hM hrun hq h hev hp
  obtain ⟨t1, t2, e1, e2, r1, r2, _⟩ := ht.calls
  obtain ⟨t3, t4, e3, e4, r3, r4, _⟩ := ht'.calls
  refine ⟨t1 ++ t2, t3, t4, ?_, ?_, r3.1, r4, ?_⟩
  · rw [e4, e3]
    show sb.trace ++ t3 ++ t4 = _
    rw [e2, e1]
    simp
  · intro c hc
    rcases List.mem_append.1 hc with hc | hc
    · exact Or.inl (r1.1 c hc)
    · exact Or.inr (r2 c hc)
  · intro c hc
    rcases r3.2 with ⟨h, _⟩ | ⟨c', t, h, hpl⟩
    · rw [h] at hc; cases hc
    · rw [h] at hc; cases hc; exact hpl

/-- C43 when an exception leaves the call that replays the event: the turn of the replayed
event starts with the payload it was queued with. -/
theorem C43_payload_throw (hM : M.Regular) (hrun : RunTo M sem d ops s) {e : EventTy} {p : P}
    {q : List (EventTy × P)} (hq : s.queue = (e, p) :: q) (hev : ev ∈ M.events) {x : Exn}
    (h : processEvent M sem fuel ev pl s = .throw x s') :
    s'.queue = s.queue ∨
    (s'.queue = q ∧ ∃ t1 t2 t3, s'.trace = s.trace ++ t1 ++ t2 ++ t3 ∧
      (∀ c ∈ t1, c.event = ev ∨ c.event = .none) ∧ (∀ c ∈ t2, c.event = e) ∧
      (∀ c ∈ t3, c.event = .none) ∧ ∀ c, t2.head? = some c → c.payload = p) := by
  have head : ∀ {t : List (Call P)} {p'}, Serves e p t p' →
      ∀ c, t.head? = some c → c.payload = p := by
    intro t p' hs c hc
    rcases hs.2 with ⟨h, _⟩ | ⟨c', t', h, hpl⟩
    · rw [h] at hc; cases hc
    · rw [h] at hc; cases hc; exact hpl
  have anon : ∀ {deps : List Dep} {pl} {s s' : SM P W} {k}, AnonThrow M sem deps pl s k s' →
      AnonCalls s s' := by
    intro deps pl s s' k h
    have round : ∀ {rs : List Nat} {pl} {s s' : SM P W} {k},
        AnonRoundThrow M sem deps rs pl s k s' → AnonCalls s s' := by
      intro rs pl s s' k h
      induction h with
      | @here _ _ pl _ _ _ h =>
        obtain ⟨t1, e1, r1⟩ := h.serves pl
        exact ⟨t1, e1, r1.1⟩
      | later h1 ho h2 ih =>
        obtain ⟨t1, e1, r1⟩ := h1.serves
        exact AnonCalls.trans ⟨t1, e1, r1.1⟩ ih
    induction h with
    | here h => exact round h
    | later h _ ih => exact h.calls.trans ih
  rcases processEvent_throw hM hev (hrun.ready hM) h with ⟨k, _, he⟩ | ⟨_, _, os, pl', ht, hn⟩
  · cases he with
    | main ht => exact Or.inl (Lift.queue.turnThrow ht)
    | handler ht hn hh ha hc =>
      obtain ⟨rfl, _⟩ := ht.loop.none hn
      exact Or.inl rfl
    | @replay os pl' rp s1 s2 _ re q' k ht hr hd hx ht' =>
      have hqq : s2.queue = s.queue := by
        rcases ht.queue with ⟨_, h⟩ | ⟨h, _⟩
        · exact h
        · exact absurd h hr.1
      have hx' := hx
      rw [hqq, hq] at hx'
      cases hx'
      refine Or.inr ⟨Lift.queue.turnThrow ht', ?_⟩
      obtain ⟨t1, t2, e1, e2, r1, r2, _⟩ := ht.calls
      have hm : ∀ c ∈ t1 ++ t2, c.event = ev ∨ c.event = .none := by
        intro c hc
        rcases List.mem_append.1 hc with hc | hc
        · exact Or.inl (r1.1 c hc)
        · exact Or.inr (r2 c hc)
      cases ht' with
      | region hl =>
        obtain ⟨t3, e3, r3⟩ := hl.serves p
        refine ⟨t1 ++ t2, t3, [], ?_, hm, r3.1, by simp, head r3⟩
        rw [e3]
        show s2.trace ++ t3 = _
        rw [e2, e1]; simp
      | anon hl hy hh ha =>
        obtain ⟨t3, e3, r3⟩ := hl.serves
        obtain ⟨t4, e4, r4⟩ := anon ha
        refine ⟨t1 ++ t2, t3, t4, ?_, hm, r3.1, r4, head r3⟩
        rw [e4, e3]
        show s2.trace ++ t3 ++ t4 = _
        rw [e2, e1]; simp
  · obtain ⟨rfl, _⟩ := ht.loop.none hn
    exact Or.inl rfl

/-! ## C21: a deferred event is not lost -/

/-- An unguarded row, or a deferral, is in force for event `e` at `(p, st)`. -/
def Welcome (M : Machine) (e : EventTy) (p : Name) (st : StTy) : Prop :=
  ∃ c ∈ M.cands e p st, ∀ t, c.row? = some t → t.guard = none

theorem FalseRun.all_guarded {cur : List (Option Nat)} {es : List Entry} {p p' : P} {w w' : W}
    {tr : List (Call P)} (h : FalseRun sem cur ev es p w tr p' w') :
    ∀ e ∈ es, e.defer = false ∧ ∃ x g, e.tr = some x ∧ x.guard = some g := by
  induction h with
  | nil => intro e he; cases he
  | cons hd ht hg _ _ ih =>
    intro e he
    rcases List.mem_cons.1 he with rfl | he
    · exact ⟨hd, _, _, ht, hg⟩
    · exact ih e he

/-- A welcome event is not rejected. -/
theorem RegionRun.welcome (hM : M.Regular) (hne : deps ≠ []) {r : Nat} {o : RegionOut} {pl' : P}
    (h : RegionRun M sem deps r ev pl s o pl' s') {p : Name} {st : StTy} (ha : At M s r p st)
    (hw : Welcome M ev p st) : o = .fired ∨ o = .deferred := by
  obtain ⟨c, hc, hg⟩ := hw
  cases h with
  | none ha' hn =>
    obtain ⟨rfl, rfl⟩ := ha.unique hM ha'
    rw [hn] at hc; cases hc
  | rejected ha' hn hf =>
    obtain ⟨rfl, rfl⟩ := ha.unique hM ha'
    exfalso
    obtain ⟨dd, hdd⟩ := List.exists_mem_of_ne_nil _ hne
    rcases Machine.cand_row hc with rfl | ⟨t, ht, _, hct⟩
    · have hmem := Machine.mem_entries.2 ⟨dd, hdd, _, hc, rfl⟩
      have := (hf.all_guarded _ hmem).1
      cases this
    · obtain ⟨l, hl⟩ := hM.targetLoc_some ht
      obtain ⟨en, hen, x, hx, hxg⟩ : ∃ en, M.entryOfCand dd c = some en ∧
          ∃ x, en.tr = some x ∧ x.guard = t.guard := by
        rcases hct with rfl | rfl
        · simp [Machine.entryOfCand, hl]
        · simp [Machine.entryOfCand, hl]
      have hmem : en ∈ M.entries deps ev p st := Machine.mem_entries.2 ⟨dd, hdd, _, hc, hen⟩
      obtain ⟨_, x', g, hx', hg'⟩ := hf.all_guarded _ hmem
      rw [hx] at hx'
      cases hx'
      rw [hxg, hg t (by rcases hct with rfl | rfl <;> rfl)] at hg'
      cases hg'
  | deferred => exact Or.inr rfl
  | fired => exact Or.inl rfl

/-- C21, the part that holds.  An event at the head of the queue leaves it only by being
replayed in a call that returns true (or by an exception during its replay).  Then a row
accepts it, or it is queued again, or (this is what the full claim excludes, see
`C21_refuted`) no region reacts; the last cannot happen if in some active region an
unguarded row or a deferral is in force for it.  An element not at the head stays (C20). -/
theorem C21_partial (hM : M.Regular) (hrun : RunTo M sem d ops s) (hev : ev ∈ M.events)
    {e : EventTy} {p : P} {q : List (EventTy × P)} (hq : s.queue = (e, p) :: q) {b : Bool}
    (h : processEvent M sem fuel ev pl s = .ok b s') :
    (b = false ∧ ∃ q', s'.queue = (e, p) :: q') ∨
    (b = true ∧ ∃ os pl1 s1 sb q1 s2 os' p' s3,
      Turn M sem (depsOf d ops) ev pl s os pl1 s1 sb ∧ Reacted os ∧ sb.queue = (e, p) :: q1 ∧
      s2 = { sb with queue := q1 } ∧
      Turn M sem (depsOf d ops) e p s2 os' p' s3 s' ∧
      (RegionOut.fired ∈ os' ∨ (∃ p', s'.queue = q1 ++ [(e, p')]) ∨
        ((∀ o ∈ os', o = .none ∨ o = .rejected) ∧
          ∀ r p0 st, r < activeRegions M s2 → At M s2 r p0 st → ¬ Welcome M e p0 st))) := by
  cases b with
  | false =>
    refine Or.inl ⟨rfl, ?_⟩
    rcases refused_queue hM hrun hev h with h | ⟨pl', h⟩
    · exact ⟨q, by rw [h, hq]⟩
    · exact ⟨_, by rw [h, hq]; rfl⟩
  | true =>
    refine Or.inr ⟨rfl, ?_⟩
    obtain ⟨os, pl', s1, s2, os', p', s3, ht, hr, hqq, ht', hx⟩ := C20_replays hM hrun hev hq h
    refine ⟨os, pl', s1, s2, q, _, os', p', s3, ht, hr, by rw [hqq, hq], rfl, ht', ?_⟩
    by_cases hf : RegionOut.fired ∈ os'
    · exact Or.inl hf
    by_cases hd : RegionOut.deferred ∈ os'
    · rcases ht'.queue with ⟨h1, _⟩ | ⟨_, h1⟩
      · exact absurd hd h1
      · exact Or.inr (Or.inl ⟨_, h1⟩)
    refine Or.inr (Or.inr ⟨?_, ?_⟩)
    · intro o ho
      cases o with
      | none => exact Or.inl rfl
      | rejected => exact Or.inr rfl
      | fired => exact absurd ho hf
      | deferred => exact absurd ho hd
    · intro r p0 st hlt ha hw
      have hlen : os'.length = activeRegions M { s2 with queue := q } := by
        rcases ht'.loop.last with ⟨_, h2, _⟩ | ⟨os'', h1, _⟩
        · simpa using h2
        · exact absurd (by rw [h1]; simp) hd
      obtain ⟨o, ho⟩ : ∃ o, os'[r]? = some o := ⟨os'[r]'(by rw [hlen]; exact hlt),
        List.getElem?_eq_getElem _⟩
      obtain ⟨r', pk, sk, pk', sk', i1, i2, i3, i4, _⟩ := ht'.loop.split ho
      rw [List.getElem?_range hlt] at i1
      cases i1
      rw [List.take_range, Nat.min_eq_left (Nat.le_of_lt hlt)] at i2
      have hsame : sk.cur[r]? = s2.cur[r]? := i2.others (by simp)
      have hak : At M sk r p0 st := ⟨ha.1, ha.2.1, by rw [hsame]; exact ha.2.2⟩
      rcases i4.welcome hM (depsOf_ne_nil _ _) hak hw with rfl | rfl
      · exact hf (List.mem_of_getElem? ho)
      · exact hd (List.mem_of_getElem? ho)

end

/-! ## Concrete machines -/

namespace Ex

/-- `B` defers event 1; nothing handles event 1 in `C`.  Every row has an action and there
is an unexpected-event handler. -/
def lossy : Machine := Machine.ofList
  [ { table := some
        [ row (ini 1) (ev 0) none (some 1) (.st 2),
          row (.st 2) (ev 2) none (some 2) (.st 3),
          row (.st 3) (ev 0) none (some 3) (.st 1),
          row (.st 1) (ev 1) none (some 4) (.st 3) ]
      handler := some 50 },
    { }, { defer := some [ev 1] }, { } ] [1]

theorem lossy_regular : lossy.Regular := Machine.regular_ofList (by decide +kernel)
theorem lossy_scoped : lossy.Scoped := Machine.scoped_of_check (by decide +kernel)

end Ex

/-- C21 does not hold: in `lossy`, event 1 is deferred in `B`, event 2 leads to `C`, where
event 1 is replayed, matches nothing and is gone; no callback ever sees it. -/
theorem C21_refuted : ¬ ∀ (M : Machine), M.Regular → M.Scoped →
    (∀ t ∈ M.extRows ++ M.intRows, t.action.isSome = true) → (M.decl M.root).handler.isSome = true →
    ∀ (sem : Sem Nat (List Nat)) (d : Dep) (ops : List (Op Nat)) (s s' : SM Nat (List Nat))
      (fuel : Nat) (ev : EventTy) (pl : Nat) (b : Bool) (e : EventTy) (p : Nat)
      (q : List (EventTy × Nat)),
    RunTo M sem d ops s → ev ∈ M.events → s.queue = (e, p) :: q →
    processEvent M sem fuel ev pl s = .ok b s' →
    (∃ p', (e, p') ∈ s'.queue) ∨ ∃ c ∈ s'.trace.drop s.trace.length, c.event = e := by
  intro hall
  have hrun : (Ex.run Ex.lossy (Ex.sem fun _ => true) 5 7 []
      [.process (Ex.ev 0) 1, .process (Ex.ev 1) 2]).any (fun s =>
        s.queue == [(Ex.ev 1, 2)] &&
        match processEvent Ex.lossy (Ex.sem fun _ => true) 5 (Ex.ev 2) 3 s with
        | .ok true s' => s'.queue == [] &&
            (s'.trace.drop s.trace.length).all (fun c => c.event != Ex.ev 1)
        | _ => false) = true := by
    decide +kernel
  obtain ⟨s, hr, hs⟩ := Ex.exists_run _ _ hrun
  simp only [Bool.and_eq_true, beq_iff_eq] at hs
  obtain ⟨hq, hs⟩ := hs
  split at hs
  · rename_i s' hp
    simp only [Bool.and_eq_true, beq_iff_eq, List.all_eq_true, bne_iff_ne] at hs
    rcases hall Ex.lossy Ex.lossy_regular Ex.lossy_scoped (by decide +kernel) (by decide +kernel)
      _ _ _ s s' _ _ _ _ _ _ _ hr (by decide +kernel) hq hp with ⟨p', h⟩ | ⟨c, hc, h⟩
    · rw [hs.1] at h; cases h
    · exact hs.2 c hc h
  · cases hs

/-- C19, C20, C43, C45 on the demo machine: two events are deferred in `Busy` (event 3 with
payloads 8 and 9); event 1 leads to `Idle`, where the first is replayed with payload 8 and
leads back to `Busy`; the second stays. -/
example : (Ex.run Ex.demo (Ex.sem fun _ => true) 5 7 []
      [.process (Ex.ev 0) 1, .process (Ex.ev 3) 8, .process (Ex.ev 3) 9]).any (fun s =>
    s.queue == [(Ex.ev 3, 8), (Ex.ev 3, 9)] &&
    match processEvent Ex.demo (Ex.sem fun _ => true) 5 (Ex.ev 1) 2 s with
    | .ok true s' => s'.queue == [(Ex.ev 3, 9)] &&
        (s'.trace.drop s.trace.length).map (fun c => (c.event, c.payload)) ==
          [(Ex.ev 1, 2), (Ex.ev 1, 2), (Ex.ev 3, 8), (Ex.ev 3, 8)]
    | _ => false) = true := by
  decide +kernel

/-- The second is replayed by the second accepted call. -/
example : (Ex.run Ex.demo (Ex.sem fun _ => true) 5 7 []
      [.process (Ex.ev 0) 1, .process (Ex.ev 3) 8, .process (Ex.ev 3) 9, .process (Ex.ev 1) 2]).any
    (fun s => s.queue == [(Ex.ev 3, 9)] &&
    match processEvent Ex.demo (Ex.sem fun _ => true) 5 (Ex.ev 1) 2 s with
    | .ok true s' => s'.queue == [] &&
        (s'.trace.drop s.trace.length).map (fun c => (c.event, c.payload)) ==
          [(Ex.ev 1, 2), (Ex.ev 1, 2), (Ex.ev 3, 9), (Ex.ev 3, 9)]
    | _ => false) = true := by
  decide +kernel

/-- Action 4, run when event 3 is replayed in `Idle`, throws: the queue has lost the event,
its first callback got the payload it was queued with. -/
example : (Ex.run Ex.demo (Ex.sem (fun _ => true) [4]) 5 7 []
      [.process (Ex.ev 0) 1, .process (Ex.ev 3) 8]).any (fun s =>
    s.queue == [(Ex.ev 3, 8)] &&
    match processEvent Ex.demo (Ex.sem (fun _ => true) [4]) 5 (Ex.ev 1) 2 s with
    | .throw (.user 4) s' => s'.queue == [] &&
        (s'.trace.drop s.trace.length).map (fun c => (c.event, c.payload)) ==
          [(Ex.ev 1, 2), (Ex.ev 1, 2), (Ex.ev 3, 8)]
    | _ => false) = true := by
  decide +kernel

end Hsm
