import Verif.EventLemmas

/-! Consequences of the specification relations: what runs change and what they keep. -/

namespace Hsm

/-- Kinds of calls. -/
def Call.isGuard {P : Type} : Call P → Bool
  | .guard .. => true
  | _ => false

def Call.isAction {P : Type} : Call P → Bool
  | .action .. => true
  | _ => false

def Call.isHandler {P : Type} : Call P → Bool
  | .handler .. => true
  | _ => false

/-- The event payload a callback was called with. -/
def Call.payload {P : Type} : Call P → P
  | .guard _ _ p _ _ => p
  | .action _ _ _ p _ _ => p
  | .handler _ _ _ _ p _ _ => p

section
variable {P W : Type} {M : Machine} {sem : Sem P W} {deps : List Dep}

/-! ## Lifting relations between machines -/

/-- `R` is a preorder that contains what one region does short of deferring. -/
structure Lift (M : Machine) (sem : Sem P W) (deps : List Dep) (R : SM P W → SM P W → Prop) :
    Prop where
  refl : ∀ s, R s s
  trans : ∀ s1 s2 s3, R s1 s2 → R s2 s3 → R s1 s3
  region : ∀ r ev pl s o pl' s', RegionRun M sem deps r ev pl s o pl' s' → o ≠ .deferred → R s s'
  throw : ∀ r ev pl s k s', RegionThrow M sem deps r ev pl s k s' → R s s'

namespace Lift
variable {R : SM P W → SM P W → Prop} (L : Lift M sem deps R)
include L

theorem loop {ev : EventTy} {rs : List Nat} {pl pl' : P} {s s' : SM P W} {os : List RegionOut}
    (h : LoopRun M sem deps ev rs pl s os pl' s') (hd : RegionOut.deferred ∉ os) : R s s' := by
  induction h with
  | nil => exact L.refl _
  | cons h1 ho h2 ih =>
    exact L.trans _ _ _ (L.region _ _ _ _ _ _ _ h1 ho) (ih (fun h => hd (by simp [h])))
  | stop h1 => simp at hd

theorem loop_defer (D : ∀ s ev pl, R s { s with queue := s.queue ++ [(ev, pl)] })
    {ev : EventTy} {rs : List Nat} {pl pl' : P} {s s' : SM P W} {os : List RegionOut}
    (h : LoopRun M sem deps ev rs pl s os pl' s') : R s s' := by
  induction h with
  | nil => exact L.refl _
  | cons h1 ho h2 ih => exact L.trans _ _ _ (L.region _ _ _ _ _ _ _ h1 ho) ih
  | stop h1 =>
    cases h1 with
    | deferred ha hc => exact D _ _ _

theorem loopThrow {ev : EventTy} {rs : List Nat} {pl : P} {s s' : SM P W} {os : List RegionOut}
    {r k : Nat} (h : LoopThrow M sem deps ev rs pl s os r k s') : R s s' := by
  induction h with
  | here h => exact L.throw _ _ _ _ _ _ h
  | later h1 ho h2 ih => exact L.trans _ _ _ (L.region _ _ _ _ _ _ _ h1 ho) ih

theorem anonRound {rs : List Nat} {pl pl' : P} {s s' : SM P W} {os : List RegionOut}
    {b : Option Bool} (h : AnonRound M sem deps rs pl s os b pl' s') : R s s' := by
  induction h with
  | nil => exact L.refl _
  | stop h => exact L.refl _
  | cons h1 ho h2 ih =>
    exact L.trans _ _ _ (L.region _ _ _ _ _ _ _ h1 (by rcases ho with rfl | rfl <;> simp)) ih

theorem anonRoundThrow {rs : List Nat} {pl : P} {s s' : SM P W} {k : Nat}
    (h : AnonRoundThrow M sem deps rs pl s k s') : R s s' := by
  induction h with
  | here h => exact L.throw _ _ _ _ _ _ h
  | later h1 ho h2 ih =>
    exact L.trans _ _ _ (L.region _ _ _ _ _ _ _ h1 (by rcases ho with rfl | rfl <;> simp)) ih

theorem anonRun {pl : P} {s s' : SM P W} (h : AnonRun M sem deps pl s s') : R s s' := by
  induction h with
  | done h _ => exact L.anonRound h
  | again h _ ih => exact L.trans _ _ _ (L.anonRound h) ih

theorem anonThrow {pl : P} {s s' : SM P W} {k : Nat} (h : AnonThrow M sem deps pl s k s') :
    R s s' := by
  induction h with
  | here h => exact L.anonRoundThrow h
  | later h _ ih => exact L.trans _ _ _ (L.anonRound h) ih

theorem settles {s s' : SM P W} (h : Settles M sem deps s s') : R s s' := by
  unfold Settles at h
  split at h
  · exact L.anonRun h
  · rw [h]; exact L.refl _

theorem turn {ev : EventTy} {pl pl' : P} {s s1 s' : SM P W} {os : List RegionOut}
    (h : Turn M sem deps ev pl s os pl' s1 s') (hd : RegionOut.deferred ∉ os) : R s s' := by
  cases h with
  | quiet h hn => exact L.loop h hd
  | react h hy ha => exact L.trans _ _ _ (L.loop h hd) (L.settles ha)

theorem turn_defer (D : ∀ s ev pl, R s { s with queue := s.queue ++ [(ev, pl)] })
    {ev : EventTy} {pl pl' : P} {s s1 s' : SM P W} {os : List RegionOut}
    (h : Turn M sem deps ev pl s os pl' s1 s') : R s s' := by
  cases h with
  | quiet h hn => exact L.loop_defer D h
  | react h hy ha => exact L.trans _ _ _ (L.loop_defer D h) (L.settles ha)

theorem turnThrow {ev : EventTy} {pl : P} {s s' : SM P W} {k : Nat}
    (h : TurnThrow M sem deps ev pl s k s') : R s s' := by
  cases h with
  | region h => exact L.loopThrow h
  | anon h hy hh ha => exact L.trans _ _ _ (L.loop h hy.1) (L.anonThrow ha)

/-- Lifting to whole calls. -/
theorem event (D : ∀ s ev pl, R s { s with queue := s.queue ++ [(ev, pl)] })
    (pop : ∀ s re rp q, s.queue = (re, rp) :: q → R s { s with queue := q })
    (hand : ∀ s h e st d pl b w,
      R s (s.ran w [.handler h e st d pl b s.cur]))
    {d0 : Dep} {ev : EventTy} {pl : P} {s s' : SM P W} {b : Bool}
    (h : EventRun M sem deps d0 ev pl s b s') : R s s' := by
  cases h with
  | ignored ht hn hh => exact L.turn_defer D ht
  | unexpected ht hn hh ha hc => exact L.trans _ _ _ (L.turn_defer D ht) (hand _ _ _ _ _ _ _ _)
  | unhandled ht hr hn => exact L.turn_defer D ht
  | handled ht hr hq => exact L.turn_defer D ht
  | replayed ht hr hd hq ht' =>
    exact L.trans _ _ _ (L.turn_defer D ht) (L.trans _ _ _ (pop _ _ _ _ hq) (L.turn_defer D ht'))

theorem eventThrow (D : ∀ s ev pl, R s { s with queue := s.queue ++ [(ev, pl)] })
    (pop : ∀ s re rp q, s.queue = (re, rp) :: q → R s { s with queue := q })
    (hand : ∀ s h e st d pl b w,
      R s (s.ran w [.handler h e st d pl b s.cur]))
    {d0 : Dep} {ev : EventTy} {pl : P} {s s' : SM P W} {k : Nat}
    (h : EventThrow M sem deps d0 ev pl s k s') : R s s' := by
  cases h with
  | main ht => exact L.turnThrow ht
  | handler ht hn hh ha hc => exact L.trans _ _ _ (L.turn_defer D ht) (hand _ _ _ _ _ _ _ _)
  | replay ht hr hd hq ht' =>
    exact L.trans _ _ _ (L.turn_defer D ht) (L.trans _ _ _ (pop _ _ _ _ hq) (L.turnThrow ht'))

end Lift

/-! ## Callback blocks -/

theorem FalseRun.guards {cur : List (Option Nat)} {ev : EventTy} {es : List Entry} {p p' : P}
    {w w' : W} {tr : List (Call P)} (h : FalseRun sem cur ev es p w tr p' w') :
    ∀ c ∈ tr, c.isGuard = true := by
  induction h with
  | nil => intro c hc; cases hc
  | cons _ _ _ _ _ ih =>
    intro c hc
    rcases List.mem_cons.1 hc with rfl | hc
    · rfl
    · exact ih c hc

theorem TrueGuard.guards {cur : List (Option Nat)} {ev : EventTy} {x : Exec} {p p' : P}
    {w w' : W} {tr : List (Call P)} (h : TrueGuard sem cur ev x p w tr p' w') :
    ∀ c ∈ tr, c.isGuard = true := by
  cases h with
  | absent => intro c hc; cases hc
  | called => intro c hc; simp only [List.mem_singleton] at hc; rw [hc]; rfl

theorem ActRun.actions {cur : List (Option Nat)} {args : Args} {cs : List (Phase × Cb)} {p p' : P}
    {w w' : W} {tr : List (Call P)} (h : ActRun sem cur args cs p w tr p' w') :
    ∀ c ∈ tr, c.isAction = true := by
  induction h with
  | nil => intro c hc; cases hc
  | cons _ _ ih =>
    intro c hc
    rcases List.mem_cons.1 hc with rfl | hc
    · rfl
    · exact ih c hc

theorem ActThrow.actions {cur : List (Option Nat)} {args : Args} {cs : List (Phase × Cb)} {p : P}
    {w w' : W} {tr : List (Call P)} {k : Nat} (h : ActThrow sem cur args cs p w tr k w') :
    ∀ c ∈ tr, c.isAction = true := by
  induction h with
  | here => intro c hc; simp only [List.mem_singleton] at hc; rw [hc]; rfl
  | later _ _ ih =>
    intro c hc
    rcases List.mem_cons.1 hc with rfl | hc
    · rfl
    · exact ih c hc

/-! ## What a region keeps -/

/-- What every run keeps. -/
structure Frame (s s' : SM P W) : Prop where
  initial : s'.initial = s.initial
  table : s'.table = s.table
  handlers : s'.handlers = s.handlers
  curLen : s'.cur.length = s.cur.length
  trace : ∃ tr, s'.trace = s.trace ++ tr ∧ ∀ c ∈ tr, c.isHandler = false
  log : ∃ lg, s'.log = s.log ++ lg

theorem Frame.refl (s : SM P W) : Frame s s :=
  ⟨rfl, rfl, rfl, rfl, ⟨[], by simp⟩, ⟨[], by simp⟩⟩

theorem Frame.trans {s1 s2 s3 : SM P W} (h1 : Frame s1 s2) (h2 : Frame s2 s3) : Frame s1 s3 := by
  obtain ⟨t1, ht1, hg1⟩ := h1.trace
  obtain ⟨t2, ht2, hg2⟩ := h2.trace
  obtain ⟨l1, hl1⟩ := h1.log
  obtain ⟨l2, hl2⟩ := h2.log
  refine ⟨h2.initial.trans h1.initial, h2.table.trans h1.table, h2.handlers.trans h1.handlers,
    h2.curLen.trans h1.curLen, ⟨t1 ++ t2, by rw [ht2, ht1, List.append_assoc], ?_⟩,
    ⟨l1 ++ l2, by rw [hl2, hl1, List.append_assoc]⟩⟩
  intro c hc
  rcases List.mem_append.1 hc with hc | hc
  · exact hg1 c hc
  · exact hg2 c hc

theorem Frame.ran {s : SM P W} {w : W} {tr : List (Call P)}
    (h : ∀ c ∈ tr, c.isHandler = false) : Frame s (s.ran w tr) :=
  ⟨rfl, rfl, rfl, rfl, ⟨tr, rfl, h⟩, ⟨[], by simp [SM.ran]⟩⟩

theorem Frame.queue {s : SM P W} (q : List (EventTy × P)) : Frame s { s with queue := q } :=
  ⟨rfl, rfl, rfl, rfl, ⟨[], by simp⟩, ⟨[], by simp⟩⟩

theorem Moves.curLen {r : Nat} {t : XRow} {s s' : SM P W} (h : Moves M r t s s') :
    s'.cur.length = s.cur.length := by
  obtain ⟨c, hc, _⟩ := h.dest
  rw [hc]; simp

theorem Effect.frame {r : Nat} {t : XRow} {s s' : SM P W} (h : Effect M r t s s') :
    Frame s s' := by
  unfold Effect at h
  split at h
  · rw [h]; exact Frame.refl _
  · exact ⟨h.initial, h.table, h.handlers, h.curLen, ⟨[], by simp [h.trace]⟩, ⟨_, h.log⟩⟩

theorem not_handler_of_guard {c : Call P} (h : c.isGuard = true) : c.isHandler = false := by
  cases c <;> first | rfl | cases h

theorem not_handler_of_action {c : Call P} (h : c.isAction = true) : c.isHandler = false := by
  cases c <;> first | rfl | cases h

theorem Lift.frame : Lift M sem deps (Frame (P := P) (W := W)) where
  refl := Frame.refl
  trans := fun _ _ _ => Frame.trans
  region := by
    intro r ev pl s o pl' s' h ho
    cases h with
    | none => exact Frame.refl _
    | rejected ha hne hf => exact Frame.ran fun c hc => not_handler_of_guard (hf.guards c hc)
    | deferred => exact absurd rfl ho
    | fired ha hs hf hg he hr =>
      refine (Frame.ran ?_).trans (he.frame.trans (Frame.ran ?_))
      · intro c hc
        rcases List.mem_append.1 hc with hc | hc
        · exact not_handler_of_guard (hf.guards c hc)
        · exact not_handler_of_guard (hg.guards c hc)
      · exact fun c hc => not_handler_of_action (hr.actions c hc)
  throw := by
    intro r ev pl s k s' h
    cases h with
    | guard ha hs hf hg hc =>
      refine Frame.ran ?_
      intro c hc
      rcases List.mem_append.1 hc with hc | hc
      · exact not_handler_of_guard (hf.guards c hc)
      · simp only [List.mem_singleton] at hc; rw [hc]; rfl
    | action ha hs hf hg he hr =>
      refine (Frame.ran ?_).trans (he.frame.trans (Frame.ran ?_))
      · intro c hc
        rcases List.mem_append.1 hc with hc | hc
        · exact not_handler_of_guard (hf.guards c hc)
        · exact not_handler_of_guard (hg.guards c hc)
      · exact fun c hc => not_handler_of_action (hr.actions c hc)

theorem Turn.frame {ev : EventTy} {pl pl' : P} {s s1 s' : SM P W} {os : List RegionOut}
    (h : Turn M sem deps ev pl s os pl' s1 s') : Frame s s' :=
  Lift.frame.turn_defer (fun _ _ _ => Frame.queue _) h

/-! ## The queue -/

theorem Effect.queue {r : Nat} {t : XRow} {s s' : SM P W} (h : Effect M r t s s') :
    s'.queue = s.queue := by
  unfold Effect at h
  split at h
  · rw [h]
  · exact h.queue

theorem Lift.queue : Lift M sem deps (fun s s' : SM P W => s'.queue = s.queue) where
  refl := fun _ => rfl
  trans := fun _ _ _ h1 h2 => h2.trans h1
  region := by
    intro r ev pl s o pl' s' h ho
    cases h with
    | none => rfl
    | rejected => rfl
    | deferred => exact absurd rfl ho
    | fired ha hs hf hg he hr => exact he.queue
  throw := by
    intro r ev pl s k s' h
    cases h with
    | guard => rfl
    | action ha hs hf hg he hr => exact he.queue

/-- The regions either all handle the event, or the last one reached defers it. -/
theorem LoopRun.last {ev : EventTy} {rs : List Nat} {pl pl' : P} {s s' : SM P W}
    {os : List RegionOut} (h : LoopRun M sem deps ev rs pl s os pl' s') :
    (RegionOut.deferred ∉ os ∧ os.length = rs.length ∧ s'.queue = s.queue) ∨
    (∃ os', os = os' ++ [.deferred] ∧ RegionOut.deferred ∉ os' ∧ os.length ≤ rs.length ∧
      s'.queue = s.queue ++ [(ev, pl')]) := by
  induction h with
  | nil => exact Or.inl ⟨by simp, rfl, rfl⟩
  | @cons r rs pl p1 p2 s s1 s2 o os h1 ho h2 ih =>
    have hq := Lift.queue.region _ _ _ _ _ _ _ h1 ho
    rcases ih with ⟨i1, i2, i3⟩ | ⟨os', i1, i2, i3, i4⟩
    · refine Or.inl ⟨?_, by simp [i2], by rw [i3, hq]⟩
      intro hm
      rcases List.mem_cons.1 hm with hm | hm
      · exact ho hm.symm
      · exact i1 hm
    · refine Or.inr ⟨o :: os', by simp [i1], ?_, by simp [i3], by rw [i4, hq]⟩
      intro hm
      rcases List.mem_cons.1 hm with hm | hm
      · exact ho hm.symm
      · exact i2 hm
  | stop h1 =>
    cases h1 with
    | deferred ha hc => exact Or.inr ⟨[], rfl, by simp, by simp, rfl⟩

/-! ## Quiet regions -/

theorem RegionRun.quiet {r : Nat} {ev : EventTy} {pl pl' : P} {s s' : SM P W} {o : RegionOut}
    (h : RegionRun M sem deps r ev pl s o pl' s') (ho : o = .none ∨ o = .rejected) :
    ∃ w tr, s' = s.ran w tr ∧ ∀ c ∈ tr, c.isGuard = true := by
  cases h with
  | none => exact ⟨s.world, [], (ran_nil _).symm, by simp⟩
  | rejected ha hne hf => exact ⟨_, _, rfl, hf.guards⟩
  | deferred => rcases ho with h | h <;> cases h
  | fired => rcases ho with h | h <;> cases h

theorem LoopRun.quiet {ev : EventTy} {rs : List Nat} {pl pl' : P} {s s' : SM P W}
    {os : List RegionOut} (h : LoopRun M sem deps ev rs pl s os pl' s')
    (ho : ∀ o ∈ os, o = .none ∨ o = .rejected) :
    ∃ w tr, s' = s.ran w tr ∧ ∀ c ∈ tr, c.isGuard = true := by
  induction h with
  | nil => exact ⟨_, [], (ran_nil _).symm, by simp⟩
  | cons h1 _ h2 ih =>
    obtain ⟨w1, t1, rfl, hg1⟩ := h1.quiet (ho _ (by simp))
    obtain ⟨w2, t2, rfl, hg2⟩ := ih (fun o h => ho o (by simp [h]))
    refine ⟨w2, t1 ++ t2, ran_ran .., ?_⟩
    intro c hc
    rcases List.mem_append.1 hc with hc | hc
    · exact hg1 c hc
    · exact hg2 c hc
  | stop h1 => rcases ho _ (List.mem_singleton.2 rfl) with h | h <;> cases h

/-- Nothing happens at all exactly when there are no candidates anywhere. -/
theorem LoopRun.none {ev : EventTy} {rs : List Nat} {pl pl' : P} {s s' : SM P W}
    {os : List RegionOut} (h : LoopRun M sem deps ev rs pl s os pl' s') :
    (∀ o ∈ os, o = RegionOut.none) → s' = s ∧ pl' = pl ∧
      ∀ r ∈ rs, ∃ p st, At M s r p st ∧ M.cands ev p st = [] := by
  induction h with
  | nil => intro _; exact ⟨rfl, rfl, by simp⟩
  | cons h1 _ h2 ih =>
    intro ho
    obtain rfl := ho _ (List.mem_cons_self)
    cases h1 with
    | none ha hc =>
      obtain ⟨rfl, rfl, h3⟩ := ih (fun o h => ho o (by simp [h]))
      refine ⟨rfl, rfl, ?_⟩
      intro r hr
      rcases List.mem_cons.1 hr with rfl | hr
      · exact ⟨_, _, ha, hc⟩
      · exact h3 r hr
  | stop h1 => intro ho; cases ho _ (List.mem_singleton.2 rfl)

theorem At.unique (hM : M.Regular) {s : SM P W} {r : Nat} {p q : Name} {st tt : StTy}
    (h1 : At M s r p st) (h2 : At M s r q tt) : p = q ∧ st = tt := by
  have := h1.2.2.symm.trans h2.2.2
  simp only [Option.some.injEq] at this
  have := hM.comb_inj h2.1 h2.2.1 this
  simpa using this

theorem LoopRun.of_none (hM : M.Regular) {ev : EventTy} {rs : List Nat} {pl pl' : P}
    {s s' : SM P W} {os : List RegionOut} (h : LoopRun M sem deps ev rs pl s os pl' s')
    (hn : ∀ r ∈ rs, ∃ p st, At M s r p st ∧ M.cands ev p st = []) :
    ∀ o ∈ os, o = RegionOut.none := by
  induction h with
  | nil => simp
  | @cons r rs pl p1 p2 s s1 s2 o os h1 ho h2 ih =>
    obtain ⟨p, st, ha, hc⟩ := hn r (by simp)
    have : o = .none ∧ s1 = s := by
      cases h1 with
      | none => exact ⟨rfl, rfl⟩
      | rejected ha' hne hf =>
        obtain ⟨rfl, rfl⟩ := ha.unique hM ha'
        exact absurd hc hne
      | deferred ha' hd =>
        obtain ⟨rfl, rfl⟩ := ha.unique hM ha'
        rw [hc] at hd; cases hd
      | fired ha' hs =>
        obtain ⟨rfl, rfl⟩ := ha.unique hM ha'
        have := hs.mem
        rw [hc] at this; cases this
    obtain ⟨rfl, rfl⟩ := this
    intro o hm
    rcases List.mem_cons.1 hm with rfl | hm
    · rfl
    · exact ih (fun r hr => hn r (by simp [hr])) o hm
  | @stop r rs pl p1 s s1 h1 =>
    obtain ⟨p, st, ha, hc⟩ := hn r (by simp)
    cases h1 with
    | deferred ha' hd =>
      obtain ⟨rfl, rfl⟩ := ha.unique hM ha'
      rw [hc] at hd; cases hd

/-! ## Slots -/

theorem RegionRun.others {r : Nat} {ev : EventTy} {pl pl' : P} {s s' : SM P W} {o : RegionOut}
    (h : RegionRun M sem deps r ev pl s o pl' s') {i : Nat} (hi : i ≠ r) :
    s'.cur[i]? = s.cur[i]? := by
  cases h with
  | none => rfl
  | rejected => rfl
  | deferred => rfl
  | fired ha hs hf hg he hr =>
    show _ = s.cur[i]?
    unfold Effect at he
    split at he
    · rw [he]; rfl
    · obtain ⟨c, hc, _⟩ := he.dest
      simp only [SM.ran] at hc ⊢
      rw [hc, List.getElem?_set_ne (Ne.symm hi)]

theorem RegionThrow.others {r : Nat} {ev : EventTy} {pl : P} {s s' : SM P W} {k : Nat}
    (h : RegionThrow M sem deps r ev pl s k s') {i : Nat} (hi : i ≠ r) :
    s'.cur[i]? = s.cur[i]? := by
  cases h with
  | guard => rfl
  | action ha hs hf hg he hr =>
    show _ = s.cur[i]?
    unfold Effect at he
    split at he
    · rw [he]; rfl
    · obtain ⟨c, hc, _⟩ := he.dest
      simp only [SM.ran] at hc ⊢
      rw [hc, List.getElem?_set_ne (Ne.symm hi)]

theorem LoopRun.others {ev : EventTy} {rs : List Nat} {pl pl' : P} {s s' : SM P W}
    {os : List RegionOut} (h : LoopRun M sem deps ev rs pl s os pl' s') {i : Nat} (hi : i ∉ rs) :
    s'.cur[i]? = s.cur[i]? := by
  induction h with
  | nil => rfl
  | cons h1 ho h2 ih =>
    rw [ih (fun h => hi (by simp [h])), h1.others (fun h => hi (by simp [h]))]
  | stop h1 => exact h1.others (fun h => hi (by simp [h]))

theorem LoopThrow.mem {ev : EventTy} {rs : List Nat} {pl : P} {s s' : SM P W}
    {os : List RegionOut} {r k : Nat} (h : LoopThrow M sem deps ev rs pl s os r k s') :
    rs[os.length]? = some r := by
  induction h with
  | here h => rfl
  | later h1 ho h2 ih => simpa using ih

/-- One region of the loop and what comes before and after. -/
theorem LoopRun.split {ev : EventTy} {rs : List Nat} {pl pl' : P} {s s' : SM P W}
    {os : List RegionOut} (h : LoopRun M sem deps ev rs pl s os pl' s') :
    ∀ {k : Nat} {o : RegionOut}, os[k]? = some o → ∃ r pk sk pk' sk', rs[k]? = some r ∧
      LoopRun M sem deps ev (rs.take k) pl s (os.take k) pk sk ∧
      RegionOut.deferred ∉ os.take k ∧
      RegionRun M sem deps r ev pk sk o pk' sk' ∧
      (o = .deferred ∧ sk' = s' ∧ pk' = pl' ∧ os.length = k + 1 ∨
       o ≠ .deferred ∧ LoopRun M sem deps ev (rs.drop (k + 1)) pk' sk' (os.drop (k + 1)) pl' s') := by
  induction h with
  | nil => intro k o hk; simp at hk
  | @cons r rs pl p1 p2 s s1 s2 o os h1 ho h2 ih =>
    intro k o' hk
    cases k with
    | zero =>
      cases hk
      exact ⟨r, pl, s, p1, s1, rfl, .nil _ _, by simp, h1, Or.inr ⟨ho, h2⟩⟩
    | succ k =>
      obtain ⟨r', pk, sk, pk', sk', i1, i2, i3, i4, i5⟩ := ih (by simpa using hk)
      refine ⟨r', pk, sk, pk', sk', by simpa using i1, .cons h1 ho i2, ?_, i4, ?_⟩
      · intro hm
        rcases List.mem_cons.1 hm with hm | hm
        · exact ho hm.symm
        · exact i3 hm
      · rcases i5 with ⟨a, b, c, d⟩ | ⟨a, b⟩
        · exact Or.inl ⟨a, b, c, by simp [d]⟩
        · exact Or.inr ⟨a, b⟩
  | @stop r rs pl p1 s s1 h1 =>
    intro k o' hk
    cases k with
    | zero =>
      cases hk
      exact ⟨r, pl, s, p1, s1, rfl, .nil _ _, by simp, h1, Or.inl ⟨rfl, rfl, rfl, rfl⟩⟩
    | succ k => simp at hk

/-- The region that threw and what came before. -/
theorem LoopThrow.split {ev : EventTy} {rs : List Nat} {pl : P} {s s' : SM P W}
    {os : List RegionOut} {r k : Nat} (h : LoopThrow M sem deps ev rs pl s os r k s') :
    RegionOut.deferred ∉ os ∧ ∃ p1 s1, LoopRun M sem deps ev (rs.take os.length) pl s os p1 s1 ∧
      RegionThrow M sem deps r ev p1 s1 k s' := by
  induction h with
  | here h => exact ⟨by simp, _, _, .nil _ _, h⟩
  | later h1 ho h2 ih =>
    obtain ⟨i0, p1, s1, i1, i2⟩ := ih
    refine ⟨?_, p1, s1, .cons h1 ho i1, i2⟩
    intro hm
    rcases List.mem_cons.1 hm with hm | hm
    · exact ho hm.symm
    · exact i0 hm

end
end Hsm
