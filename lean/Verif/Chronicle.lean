import Verif.PropsTrace

/-!
# The chronicle of a machine (C41)

The callback trace and the move log of every machine are the two faces of one list of items:
guards that did not say yes, fired rows, and calls of the unexpected-event handler.
-/

namespace Hsm
section
variable {P W : Type} {M : Machine} {sem : Sem P W} {deps : List Dep}

/-! ## Specification vocabulary -/

/-- Something that happened. -/
inductive Item (P : Type)
  /-- the guard of an applicable row was called and said no or threw -/
  | asked (r : Nat) (ev : EventTy) (cd : Cand) (t : XRow) (d : Dep) (l : Name × StTy) (g : Cb)
      (q : P) (res : Option Bool) (cur : List (Option Nat))
  /-- a row was fired in region `r`: guard calls `gs`, then the move, then callbacks `as` -/
  | fired (r : Nat) (ev : EventTy) (cd : Cand) (t : XRow) (d : Dep) (l : Name × StTy)
      (before after : List (Option Nat)) (gs as : List (Call P))
  /-- the unexpected-event handler was called -/
  | handled (h : Cb) (ev : EventTy) (st : StTy) (d : Dep) (q : P) (threw : Bool)
      (cur : List (Option Nat))

namespace Item

/-- The callback invocations of an item. -/
def calls : Item P → List (Call P)
  | asked _ ev cd t d l g q res cur => [.guard g (rowGuardArgs cd t l ev d) q res cur]
  | fired _ _ _ _ _ _ _ _ gs as => gs ++ as
  | handled h ev st d q b cur => [.handler h ev st d q b cur]

/-- The move of an item that begins after `n` calls. -/
def move (n : Nat) : Item P → List Firing
  | fired r _ _ t _ _ before after gs _ =>
    if t.internal then [] else [⟨r, before, after, n + gs.length⟩]
  | _ => []

/-- All calls. -/
def trace (is : List (Item P)) : List (Call P) := is.flatMap calls

/-- All moves, when the first item begins after `n` calls. -/
def log : Nat → List (Item P) → List Firing
  | _, [] => []
  | n, i :: is => i.move n ++ log (n + i.calls.length) is

/-- The item is possible: what it says about rows is true; `mem` says where history rows
lead. -/
def Ok (M : Machine) (deps : List Dep) (d0 : Dep) (mem : Name → Nat → Nat → Prop) :
    Item P → Prop
  | asked r ev cd t d l g _ res cur =>
    RowAt M deps cur r ev cd t d l ∧ t.guard = some g ∧ res ≠ some true
  | fired r ev cd t d l before after gs as =>
    RowAt M deps before r ev cd t d l ∧ SaidYes t (rowGuardArgs cd t l ev d) before gs ∧
    Leaves M mem t r before after ∧
    (CalledAll (cbArgs M cd t l ev d) after (M.callbacks t) as ∨
     CalledSome (cbArgs M cd t l ev d) after (M.callbacks t) as)
  | handled h _ st d _ _ cur =>
    (M.decl M.root).handler = some h ∧ d = d0 ∧
      ∃ p, p ∈ M.composites ∧ st ∈ M.states ∧ cur[0]? = some (some (M.comb p st))

end Item

/-- `is` is the chronicle of machine `s`: the trace is the calls of its items, the log their
moves, and every item is possible. -/
structure Chronicle (M : Machine) (deps : List Dep) (d0 : Dep) (s : SM P W) (is : List (Item P)) :
    Prop where
  trace : s.trace = Item.trace is
  log : s.log = Item.log 0 is
  ok : ∀ i1 i i2, is = i1 ++ i :: i2 → i.Ok M deps d0 (Memo M (Item.log 0 (i1 ++ [i])))

/-! ## Proofs -/

namespace Item

theorem trace_append (a b : List (Item P)) : trace (a ++ b) = trace a ++ trace b := by
  simp [trace]

theorem log_append (n : Nat) (a b : List (Item P)) :
    log n (a ++ b) = log n a ++ log (n + (trace a).length) b := by
  induction a generalizing n with
  | nil => simp [log, trace]
  | cons i a ih =>
    have : (trace (i :: a)).length = i.calls.length + (trace a).length := by simp [trace]
    rw [List.cons_append, log, log, ih, this, List.append_assoc, Nat.add_assoc]

theorem Ok.mono {deps' : List Dep} {d0 : Dep} {mem : Name → Nat → Nat → Prop} {i : Item P}
    (h : i.Ok M deps d0 mem) (hs : ∀ d ∈ deps, d ∈ deps') : i.Ok M deps' d0 mem := by
  cases i with
  | asked => exact ⟨h.1.mono hs, h.2⟩
  | fired => exact ⟨h.1.mono hs, h.2⟩
  | handled => exact h

end Item

theorem Chronicle.append {d0 : Dep} {s s' : SM P W} {is more : List (Item P)}
    (h : Chronicle M deps d0 s is) (ht : s'.trace = s.trace ++ Item.trace more)
    (hl : s'.log = s.log ++ Item.log s.trace.length more)
    (ho : ∀ i1 i i2, more = i1 ++ i :: i2 →
      i.Ok M deps d0 (Memo M (s.log ++ Item.log s.trace.length (i1 ++ [i])))) :
    Chronicle M deps d0 s' (is ++ more) := by
  have hn : 0 + (Item.trace is).length = s.trace.length := by rw [h.trace]; simp
  refine ⟨by rw [ht, h.trace, Item.trace_append], by rw [hl, h.log, Item.log_append, hn], ?_⟩
  intro i1 i i2 he
  rcases List.append_eq_append_iff.1 he with ⟨m, rfl, hm⟩ | ⟨m, rfl, hm⟩
  · have := ho m i i2 hm
    rwa [h.log, ← hn, ← Item.log_append, ← List.append_assoc] at this
  · cases m with
    | nil =>
      have := ho [] i i2 (by simpa using hm.symm)
      rw [h.log, ← hn, ← Item.log_append] at this
      simpa using this
    | cons x xs =>
      simp only [List.cons_append, List.cons.injEq] at hm
      obtain ⟨rfl, _⟩ := hm
      exact h.ok i1 i xs rfl

theorem Chronicle.same {d0 : Dep} {s s' : SM P W} {is : List (Item P)}
    (h : Chronicle M deps d0 s is) (ht : s'.trace = s.trace) (hl : s'.log = s.log) :
    Chronicle M deps d0 s' is :=
  ⟨by rw [ht, h.trace], by rw [hl, h.log], h.ok⟩

/-- Items made of guards that said no. -/
theorem FalseRun.items {cur : List (Option Nat)} {r : Nat} {ev : EventTy} {p : Name} {st : StTy}
    (hp : p ∈ M.composites) (hst : st ∈ M.states) (hc : cur[r]? = some (some (M.comb p st)))
    (d0 : Dep) {es : List Entry} {pl pl' : P} {w w' : W} {tr : List (Call P)}
    (h : FalseRun sem cur ev es pl w tr pl' w') (hes : ∀ e ∈ es, e ∈ M.entries deps ev p st) :
    ∃ is : List (Item P), Item.trace is = tr ∧ (∀ n, Item.log n is = []) ∧
      ∀ i ∈ is, ∀ mem, i.Ok M deps d0 mem := by
  induction h with
  | nil => exact ⟨[], rfl, fun _ => rfl, by simp⟩
  | @cons e es x g p1 _ _ _ _ _ tr hd ht hg hcall hr ih =>
    obtain ⟨is, h1, h2, h3⟩ := ih fun e he => hes e (by simp [he])
    obtain ⟨cd, t, d, l, hra, hgt, hargs⟩ := RowAt.of_entry hp hst hc (hes _ (by simp)) ht
    refine ⟨.asked r ev cd t d l g p1 (some false) cur :: is, ?_, ?_, ?_⟩
    · rw [hargs, ← h1]; rfl
    · intro n; simp [Item.log, Item.move, h2]
    · intro i hi mem
      rcases List.mem_cons.1 hi with rfl | hi
      · exact ⟨hra, by rw [← hgt, hg], by simp⟩
      · exact h3 i hi mem

theorem ActRun.calledAll {cur : List (Option Nat)} {args : Args} {cs : List (Phase × Cb)}
    {p p' : P} {w w' : W} {tr : List (Call P)} (h : ActRun sem cur args cs p w tr p' w') :
    CalledAll args cur cs tr := by
  induction h with
  | nil => exact CalledAll.nil
  | @cons ph a cs p p1 p2 w w1 w2 tr hc hr ih =>
    obtain ⟨ps, h1, h2⟩ := ih
    exact ⟨p :: ps, by simp [h1], by rw [h2]; rfl⟩

theorem ActThrow.calledSome {cur : List (Option Nat)} {args : Args} {cs : List (Phase × Cb)}
    {p : P} {k : Nat} {w w' : W} {tr : List (Call P)} (h : ActThrow sem cur args cs p w tr k w') :
    CalledSome args cur cs tr := by
  induction h with
  | @here ph a cs p p1 w w1 n hc => exact ⟨[], ph, a, cs, [], p, rfl, CalledAll.nil, rfl⟩
  | @later ph a cs p p1 w w1 w2 n tr hc hr ih =>
    obtain ⟨pre, ph', a', post, tr', q, h1, ⟨ps, h2, h3⟩, h4⟩ := ih
    exact ⟨(ph, a) :: pre, ph', a', post, .action ph a args p false cur :: tr', q, by rw [h1]; rfl,
      ⟨p :: ps, by simp [h2], by rw [h3]; rfl⟩, by rw [h4]; rfl⟩

/-- What is carried along: the log explains the memory, and there is a chronicle. -/
def Told (M : Machine) (deps : List Dep) (d0 : Dep) (s : SM P W) : Prop :=
  Story M deps d0 s ∧ ∃ is, Chronicle M deps d0 s is

/-- The item of a row that was fired. -/
theorem Chronicle.fired (hM : M.Regular) {d0 : Dep} {s s1 : SM P W} {is : List (Item P)}
    (h : Chronicle M deps d0 s is) {r : Nat}
    {ev : EventTy} {p : Name} {st : StTy} {cd : Cand} {t : XRow} {d : Dep} {l : Name × StTy}
    {x : Exec} {pre : List Entry} (ha : At M s r p st)
    (hs : Selected M deps ev p st cd t d l x pre) {pl p1 : P} {w1 w w' : W}
    {tr1 tr2 tr3 : List (Call P)}
    (hf : FalseRun sem s.cur ev pre pl s.world tr1 p1 w1)
    (hy : SaidYes t (rowGuardArgs cd t l ev d) s.cur tr2)
    (he : Effect M r t (s.ran w (tr1 ++ tr2)) s1)
    (hc : CalledAll (cbArgs M cd t l ev d) s1.cur (M.callbacks t) tr3 ∨
      CalledSome (cbArgs M cd t l ev d) s1.cur (M.callbacks t) tr3)
    (hok : LogOk M s1) :
    ∃ is', Chronicle M deps d0 (s1.ran w' tr3) is' := by
  obtain ⟨js, hj1, hj2, hj3⟩ := hf.items ha.1 ha.2.1 ha.2.2 d0 hs.pre_mem
  let it : Item P := .fired r ev cd t d l s.cur s1.cur tr2 tr3
  have hlog : s1.log = s.log ++ it.move (s.trace.length + tr1.length) := by
    unfold Effect at he
    split at he
    · rename_i hi
      rw [he]
      simp [it, Item.move, hi, SM.ran]
    · rename_i hi
      rw [he.log]
      simp [it, Item.move, hi, SM.ran, Nat.add_assoc]
  refine ⟨is ++ (js ++ [it]), h.append ?_ ?_ ?_⟩
  · rw [Item.trace_append, hj1]
    show s1.trace ++ tr3 = _
    rw [he.trace_eq]
    simp [SM.ran, Item.trace, it, Item.calls]
  · show s1.log = _
    rw [hlog, Item.log_append, hj2, hj1]
    simp [Item.log]
  · intro i1 i i2 hi
    rcases List.eq_nil_or_concat i2 with rfl | ⟨i', y, rfl⟩
    · obtain ⟨rfl, h2⟩ := List.append_inj' hi rfl
      cases h2
      refine ⟨hs.rowAt ha.1 ha.2.1 ha.2.2, hy, ?_, hc⟩
      rw [Item.log_append, hj2, hj1]
      have : s.log ++ ([] ++ Item.log (s.trace.length + tr1.length) [it]) = s1.log := by
        rw [hlog]; simp [Item.log]
      show Leaves M (Memo M (s.log ++ ([] ++ Item.log (s.trace.length + tr1.length) [it]))) t r s.cur s1.cur
      rw [this]
      unfold Effect at he
      unfold Leaves
      split at he
      · rename_i hi
        rw [if_pos hi, he]; rfl
      · rename_i hi
        rw [if_neg hi]
        obtain ⟨c, hcur, hh, hn⟩ := he.dest
        refine ⟨c, hcur, ?_, hn⟩
        intro o q hq
        have htf : t ∈ M.flat := Explained.row_mem (mem := fun _ _ _ => True)
          (f := ⟨0, [], [], 0⟩) hs.mem hs.row (by simpa using hi)
        exact (hok.memory (Machine.historic_of htf hq) q
          (Machine.history_target hM htf hq).1 r c).1 (hh o q hq)
    · rw [List.concat_eq_append, show i1 ++ i :: (i' ++ [y]) = (i1 ++ i :: i') ++ [y] by simp] at hi
      obtain ⟨rfl, _⟩ := List.append_inj' hi rfl
      exact hj3 i (by simp) _

theorem Chronicle.asked {d0 : Dep} {s : SM P W} {is js : List (Item P)}
    (h : Chronicle M deps d0 s is) {w : W} {tr : List (Call P)} (h1 : Item.trace js = tr)
    (h2 : ∀ n, Item.log n js = []) (h3 : ∀ i ∈ js, ∀ mem, i.Ok M deps d0 mem) :
    Chronicle M deps d0 (s.ran w tr) (is ++ js) := by
  refine h.append (by rw [h1]; rfl) (by rw [h2]; simp [SM.ran]) ?_
  intro i1 i i2 he
  exact h3 i (by rw [he]; simp) _

theorem Lift.told (hM : M.Regular) (d0 : Dep) :
    Lift M sem deps (fun s s' : SM P W => Told M deps d0 s → Told M deps d0 s') where
  refl := fun _ h => h
  trans := fun _ _ _ h1 h2 h => h2 (h1 h)
  region := by
    intro r ev pl s o pl' s' h ho hs
    have hst := (Lift.story (sem := sem) (deps := deps) hM d0).region _ _ _ _ _ _ _ h ho hs.1
    refine ⟨hst, ?_⟩
    obtain ⟨_, is, hc⟩ := hs
    cases h with
    | none => exact ⟨is, hc⟩
    | rejected ha _ hf =>
      obtain ⟨js, h1, h2, h3⟩ := hf.items ha.1 ha.2.1 ha.2.2 d0 (fun _ h => h)
      exact ⟨_, hc.asked h1 h2 h3⟩
    | deferred => exact absurd rfl ho
    | fired ha hsel hf hg he hr =>
      refine hc.fired hM ha hsel hf (hg.yes hsel) he (Or.inl hr.calledAll)
        ⟨hst.ok.memory, hst.ok.moves, hst.ok.len, hst.ok.lens⟩
  throw := by
    intro r ev pl s k s' h hs
    have hst := (Lift.story (sem := sem) (deps := deps) hM d0).throw _ _ _ _ _ _ h hs.1
    refine ⟨hst, ?_⟩
    obtain ⟨_, is, hc⟩ := hs
    cases h with
    | @guard _ _ cd t d l x _ g p1 _ tr _ _ _ ha hsel hf hg hcall =>
      obtain ⟨js, h1, h2, h3⟩ := hf.items ha.1 ha.2.1 ha.2.2 d0 hsel.pre_mem
      have hra := hsel.rowAt ha.1 ha.2.1 ha.2.2
      refine ⟨_, hc.asked (js := js ++ [.asked r ev cd t d l g p1 none s.cur]) ?_ ?_ ?_⟩
      · rw [Item.trace_append, h1, hsel.args]; rfl
      · intro n; rw [Item.log_append, h2]; rfl
      · intro i hi mem
        rcases List.mem_append.1 hi with hi | hi
        · exact h3 i hi mem
        · rw [List.mem_singleton.1 hi]
          exact ⟨hra, hg, by simp⟩
    | action ha hsel hf hg he hr =>
      refine hc.fired hM ha hsel hf (hg.yes hsel) he (Or.inr hr.calledSome)
        ⟨hst.ok.memory, hst.ok.moves, hst.ok.len, hst.ok.lens⟩

theorem Told.same {d0 : Dep} {s s' : SM P W} (h : Told M deps d0 s) (h1 : s'.cur = s.cur)
    (h2 : s'.hist = s.hist) (h3 : s'.log = s.log) (h4 : s'.trace = s.trace) :
    Told M deps d0 s' :=
  ⟨h.1.same h1 h2 h3 h4, h.2.imp fun _ h => h.same h4 h3⟩

theorem Chronicle.handled {d0 : Dep} {s : SM P W} {is : List (Item P)}
    (h : Chronicle M deps d0 s is) {hd : Cb} {e : EventTy} {p : Name} {st : StTy} {pl : P} {b : Bool}
    {w : W} (hh : (M.decl M.root).handler = some hd) (ha : At M s 0 p st) :
    Chronicle M deps d0 (s.ran w [.handler hd e st d0 pl b s.cur])
      (is ++ [.handled hd e st d0 pl b s.cur]) := by
  refine h.asked rfl (fun n => by simp [Item.log, Item.move]) ?_
  intro i hi mem
  rw [List.mem_singleton.1 hi]
  exact ⟨hh, rfl, p, ha.1, ha.2.1, ha.2.2⟩

theorem Told.event (hM : M.Regular) {d0 : Dep} {ev : EventTy} {pl : P} {s s' : SM P W} {b : Bool}
    (h : EventRun M sem deps d0 ev pl s b s') (hs : Told M deps d0 s) : Told M deps d0 s' := by
  have L := Lift.told (sem := sem) (deps := deps) (P := P) (W := W) hM d0
  have D : ∀ (s : SM P W) (ev : EventTy) (pl : P), Told M deps d0 s →
      Told M deps d0 { s with queue := s.queue ++ [(ev, pl)] } :=
    fun s _ _ h => h.same rfl rfl rfl rfl
  refine ⟨hs.1.event hM h, ?_⟩
  cases h with
  | ignored ht hn hh => exact (L.turn_defer D ht hs).2
  | unexpected ht hn hh ha hc =>
    obtain ⟨is, h⟩ := (L.turn_defer D ht hs).2
    exact ⟨_, h.handled hh ha⟩
  | unhandled ht hr hn => exact (L.turn_defer D ht hs).2
  | handled ht hr hq => exact (L.turn_defer D ht hs).2
  | replayed ht hr hd hq ht' =>
    exact (L.turn_defer D ht' ((L.turn_defer D ht hs).same rfl rfl rfl rfl)).2

theorem Told.eventThrow (hM : M.Regular) {d0 : Dep} {ev : EventTy} {pl : P} {s s' : SM P W}
    {k : Nat} (h : EventThrow M sem deps d0 ev pl s k s') (hs : Told M deps d0 s) :
    Told M deps d0 s' := by
  have L := Lift.told (sem := sem) (deps := deps) (P := P) (W := W) hM d0
  have D : ∀ (s : SM P W) (ev : EventTy) (pl : P), Told M deps d0 s →
      Told M deps d0 { s with queue := s.queue ++ [(ev, pl)] } :=
    fun s _ _ h => h.same rfl rfl rfl rfl
  refine ⟨hs.1.eventThrow hM h, ?_⟩
  cases h with
  | main ht => exact (L.turnThrow ht hs).2
  | handler ht hn hh ha hc =>
    obtain ⟨is, h⟩ := (L.turn_defer D ht hs).2
    exact ⟨_, h.handled hh ha⟩
  | replay ht hr hd hq ht' =>
    exact (L.turnThrow ht' ((L.turn_defer D ht hs).same rfl rfl rfl rfl)).2

/-- C41: the trace and the log of every machine reached by any history are told by one
chronicle. -/
theorem C41_chronicle (hM : M.Regular) {d : Dep} {ops : List (Op P)} {s : SM P W}
    (h : RunTo M sem d ops s) : ∃ is, Chronicle M (depsOf d ops) d s is := by
  suffices Told M (depsOf d ops) d s from this.2
  refine RunTo.rel hM (I := fun ops s => Told M (depsOf d ops) d s) ?_ ?_ ?_ ?_ ?_ ?_ ?_ h
  · intro w s h
    obtain ⟨_, _, _, _, _, _, _, _, ht, hl⟩ := construct_ok h
    refine ⟨(RunTo.init (sem := sem) h).story hM, [], by rw [ht]; rfl, by rw [hl]; rfl, ?_⟩
    intro i1 i i2 he
    simp at he
  · intro ops s ev pl b s' _ hs _ h
    rw [depsOf_process]
    exact hs.event hM h
  · intro ops s ev pl k s' _ hs _ h
    rw [depsOf_process]
    exact hs.eventThrow hM h
  · intro ops s op _ hs _ hn
    have : depsOf d (ops ++ [op]) = depsOf d ops := by
      cases op with
      | process => exact depsOf_process ..
      | set => exact depsOf_set ..
      | setDependency d' => exact absurd rfl (hn d')
    rw [this]
    exact hs
  · intro ops s r p st _ hs _ _ _
    rw [depsOf_set]
    obtain ⟨hs, is, hc⟩ := hs
    exact ⟨⟨⟨hs.ok.memory, hs.ok.moves, by simp [hs.ok.len], hs.ok.lens⟩, hs.calls, hs.order, hs.moves⟩,
      is, hc.same rfl rfl⟩
  · intro ops s d' T _ hs _
    rw [depsOf_dep]
    obtain ⟨hs, is, hc⟩ := hs
    refine ⟨(hs.mono fun d h => List.mem_cons_of_mem _ h).same rfl rfl rfl rfl, is, hc.trace, hc.log, ?_⟩
    intro i1 i i2 he
    exact (hc.ok i1 i i2 he).mono fun d h => List.mem_cons_of_mem _ h
  · intro ops s w hs
    exact hs.same rfl rfl rfl rfl

end

/-- A history with guard calls, moves and an unexpected event, to which the theorem applies:
the demo machine moves twice. -/
example : (Ex.run Ex.demo (Ex.sem fun _ => true) 5 7 []
    [.process (Ex.ev 0) 1, .process (Ex.ev 2) 2, .process (Ex.ev 1) 3, .process (Ex.ev 2) 4]).any (fun s =>
      s.log.length == 2 && s.trace.any Call.isGuard && s.trace.any Call.isAction &&
      s.trace.any Call.isHandler) = true := by
  decide +kernel

end Hsm
