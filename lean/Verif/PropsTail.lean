import Verif.PropsReentrant
import Verif.Alike

/-!
# Events sent at the end of a transition

A callback that sends an event to its own machine has it handled at once, inside the transition
(`Reentrant.lean`).  If the callback is the last one of the transition and the sending is the last
thing it does, then, in machines with one region, without anonymous rows and without deferred
events, this is the same as sending the event after the call has returned.  None of these
conditions can be dropped.
-/

namespace Hsm

section
variable {P W : Type}

/-! ## Specification -/

/-- What a callback sends when it is done, if it returns. -/
structure Mail (P W : Type) where
  action : Cb → Args → P → W → Option (Op P)
  handler : Cb → EventTy → StTy → Dep → P → W → Option (Op P)

/-- A callback that sends `o` as its last act: it ignores what the call returns and lets
exceptions through. -/
def CbRes.thenSend (o : Option (Op P)) : CbRes P W Unit → Prog P W Unit
  | .ok _ p w =>
    match o with
    | none => .ret () p w
    | some op => .call op w fun r w' =>
      match r with
      | .ret _ => .ret () p w'
      | .threw x => .throw x w'
  | .throw n _ w => .throw (.user n) w
  | .ub => .ub

/-- A callback that only notes what is to be sent. -/
def CbRes.thenNote (o : Option (Op P)) (box : List (Op P)) {α : Type} :
    CbRes P W α → CbRes P (W × List (Op P)) α
  | .ok a p w => .ok a p (w, box ++ o.toList)
  | .throw n p w => .throw n p (w, box)
  | .ub => .ub

/-- User code in which actions and handlers send what `mail` says, at once. -/
def Sem.sending (sem : Sem P W) (mail : Mail P W) : SemR P W where
  guard g a p w := (sem.guard g a p w).prog
  action c a p w := (sem.action c a p w).thenSend (mail.action c a p w)
  handler h e st d p w := (sem.handler h e st d p w).thenSend (mail.handler h e st d p w)
  alive := sem.alive
  nonePayload := sem.nonePayload

/-- The same user code, but what is to be sent is put into a box. -/
def Sem.noting (sem : Sem P W) (mail : Mail P W) : Sem P (W × List (Op P)) where
  guard g a p w := (sem.guard g a p w.1).thenNote none w.2
  action c a p w := (sem.action c a p w.1).thenNote (mail.action c a p w.1) w.2
  handler h e st d p w := (sem.handler h e st d p w.1).thenNote (mail.handler h e st d p w.1) w.2
  alive st w := sem.alive st w.1
  nonePayload := sem.nonePayload

/-- A client that makes a call and, when it has returned, makes the calls found in the box, one
after the other (at most `n` calls). -/
def drive (M : Machine) (sem : Sem P (W × List (Op P))) (fuel : Nat) :
    Nat → Op P → SM P (W × List (Op P)) → Res (SM P (W × List (Op P))) Bool
  | 0, _, _ => .timeout
  | n + 1, op, s =>
    (step M sem fuel op s).bind fun b s =>
      match s.world.2 with
      | [] => .ok b s
      | o :: box => (drive M sem fuel n o { s with world := (s.world.1, box) }).bind fun _ s => .ok b s

/-- Histories of such a client. -/
inductive DrivenTo (M : Machine) (sem : Sem P (W × List (Op P))) (d : Dep) :
    List (Op P) → SM P (W × List (Op P)) → Prop
  | init {w : W} {s : SM P (W × List (Op P))} (h : construct M d (w, []) = .ok s) :
      DrivenTo M sem d [] s
  | ok {s s' : SM P (W × List (Op P))} {ops : List (Op P)} {op : Op P} {fuel n : Nat} {b : Bool}
      (hr : DrivenTo M sem d ops s) (hop : OpOk M op) (h : drive M sem fuel n op s = .ok b s') :
      DrivenTo M sem d (ops ++ [op]) s'
  | throw {s s' : SM P (W × List (Op P))} {ops : List (Op P)} {op : Op P} {fuel n : Nat} {x : Exn}
      (hr : DrivenTo M sem d ops s) (hop : OpOk M op) (h : drive M sem fuel n op s = .throw x s') :
      DrivenTo M sem d (ops ++ [op]) s'
  | world {s : SM P (W × List (Op P))} {ops : List (Op P)} (hr : DrivenTo M sem d ops s) (w : W) :
      DrivenTo M sem d ops { s with world := (w, []) }

/-- A callback that sends something is the last one of its row. -/
def Mail.Last (mail : Mail P W) (M : Machine) : Prop :=
  ∀ t ∈ M.flat ++ M.iflat, ∀ cs1 ph a cs2, M.callbacks t = cs1 ++ (ph, a) :: cs2 → cs2 ≠ [] →
    ∀ args p w, mail.action a args p w = none

/-- A call of a callback, without whether it threw. -/
def Call.made : Call P → Call P
  | .guard g a p r c => .guard g a p r c
  | .action ph a args p _ c => .action ph a args p false c
  | .handler h e st d p _ c => .handler h e st d p false c

/-- A move, without when it was made. -/
def Firing.move (f : Firing) : Nat × List (Option Nat) × List (Option Nat) :=
  (f.region, f.before, f.after)

/-- The two machines are in the same state, the same callbacks have been called with the same
arguments, and the same moves have been made in the same order. -/
structure SameEnd (s : SM P W) (s' : SM P (W × List (Op P))) : Prop where
  cur : s'.cur = s.cur
  initial : s'.initial = s.initial
  hist : s'.hist = s.hist
  queue : s'.queue = s.queue
  regions : s'.regions = s.regions
  table : s'.table = s.table
  handlers : s'.handlers = s.handlers
  world : s'.world = (s.world, [])
  calls : (s'.trace.map Call.made).Perm (s.trace.map Call.made)
  moves : s'.log.map Firing.move = s.log.map Firing.move

/-- The claim that sending as the last act of a callback is the same as sending afterwards, for
machines and senders that satisfy `Cond`. -/
def C69_claim (Cond : Machine → Mail Nat (List Nat) → Prop) : Prop :=
  ∀ (M : Machine) (sem : Sem Nat (List Nat)) (mail : Mail Nat (List Nat)), M.Regular → M.Scoped →
    Cond M mail → ∀ (d : Dep) (w : List Nat) (s0 : SM Nat (List Nat))
    (s0' : SM Nat (List Nat × List (Op Nat))), construct M d w = .ok s0 →
    construct M d (w, []) = .ok s0' → ∀ (fuel n : Nat) (ops : List (Op Nat)), (∀ op ∈ ops, OpOk M op) →
    ∀ s, runAll (stepR M (sem.sending mail) fuel n) ops s0 = some s →
      ∃ s', runAll (drive M (sem.noting mail) fuel n) ops s0' = some s' ∧ SameEnd s s'

/-! ## Proof -/

/-- The two machines are in the same state, except that the calls of the callbacks `pend`, which are
still running on the left, are not yet in the trace there, and that `box` is still to be sent on the
right. -/
structure Later (M : Machine) (pend : List (Call P)) (box : List (Op P)) (s : SM P W)
    (s' : SM P (W × List (Op P))) : Prop where
  cur : s'.cur = s.cur
  initial : s'.initial = s.initial
  hist : s'.hist = s.hist
  queue : s'.queue = s.queue
  regions : s'.regions = s.regions
  table : s'.table = s.table
  handlers : s'.handlers = s.handlers
  world : s'.world = (s.world, box)
  calls : (s'.trace.map Call.made).Perm ((s.trace ++ pend).map Call.made)
  moves : s'.log.map Firing.move = s.log.map Firing.move
  filled : ∃ deps, TableIs M deps s

/-- `t` is `t0` with a call like `c` added to the trace. -/
def Added (c : Call P) (t t0 : SM P W) : Prop :=
  ∃ c', c'.made = c.made ∧ t = { t0 with trace := t0.trace ++ [c'] }

/-- `r'` is the outcome on the right.  Either nothing is left in the box, and `r` is the same; or
one call is, `Q` holds of the result, and `r` is what that call makes of it on the left. -/
def Flush (M : Machine) (call : Op P → SM P W → Res (SM P W) Bool) (pend : List (Call P)) {α : Type}
    (Q : α → Prop) (r : Res (SM P W) α) : Res (SM P (W × List (Op P))) α → Prop
  | .ok a s' => (∃ s, r = .ok a s ∧ Later M pend [] s s') ∨
      (Q a ∧ ∃ o s c, Later M (c :: pend) [o] s s' ∧
        r.Rel Eq (Added c) ((call o s).bind fun _ t => .ok a t))
  | .throw x s' => ∃ s, r = .throw x s ∧ Later M pend [] s s'
  | .ub u => r = .ub u
  | .timeout => r = .timeout

variable {M : Machine} {sem : Sem P W} {mail : Mail P W} {call : Op P → SM P W → Res (SM P W) Bool}
  {pend : List (Call P)} {box : List (Op P)} {s : SM P W} {s' : SM P (W × List (Op P))}

theorem Flush.bind {α β : Type} {Q : α → Prop} {Q' : β → Prop} {r : Res (SM P W) α}
    {r' : Res (SM P (W × List (Op P))) α} {k : α → SM P W → Res (SM P W) β}
    {k' : α → SM P (W × List (Op P)) → Res (SM P (W × List (Op P))) β}
    (h : Flush M call pend Q r r')
    (h1 : ∀ a s s', Later M pend [] s s' → Flush M call pend Q' (k a s) (k' a s'))
    (h2 : ∀ a, Q a → ∃ b, Q' b ∧ (∀ s, k a s = .ok b s) ∧ ∀ s', k' a s' = .ok b s') :
    Flush M call pend Q' (r.bind k) (r'.bind k') := by
  cases r' with
  | ok a t' =>
    rcases h with ⟨t, rfl, h⟩ | ⟨hq, o, t, c, hl, h⟩
    · exact h1 a t t' h
    · obtain ⟨b, hb, hk, hk'⟩ := h2 a hq
      show Flush M call pend Q' _ (k' a t')
      rw [hk']
      refine Or.inr ⟨hb, o, t, c, hl, ?_⟩
      generalize call o t = x at h
      cases x <;> cases r <;> first | exact h.elim | skip
      · obtain ⟨rfl, h⟩ := h
        show (k _ _).Rel _ _ _
        rw [hk]
        exact ⟨rfl, h⟩
      · exact h
      · exact h
      · exact trivial
  | throw x t' =>
    obtain ⟨t, rfl, h⟩ := h
    exact ⟨t, rfl, h⟩
  | ub u => cases h; rfl
  | timeout => cases h; rfl

/-- Nothing is sent in between. -/
theorem Flush.of_rel {α β : Type} {Q' : β → Prop} {r : Res (SM P W) α}
    {r' : Res (SM P (W × List (Op P))) α} {k : α → SM P W → Res (SM P W) β}
    {k' : α → SM P (W × List (Op P)) → Res (SM P (W × List (Op P))) β}
    (h : r.Rel Eq (Later M pend []) r')
    (h1 : ∀ a s s', Later M pend [] s s' → Flush M call pend Q' (k a s) (k' a s')) :
    Flush M call pend Q' (r.bind k) (r'.bind k') := by
  cases r' <;> cases r <;> first | exact h.elim | skip
  · obtain ⟨rfl, h⟩ := h; exact h1 _ _ _ h
  · obtain ⟨rfl, h⟩ := h; exact ⟨_, rfl, h⟩
  · cases h; rfl
  · rfl

theorem Later.readCur (h : Later M pend box s s') (r : Nat) :
    (readCur r s).Rel Eq (Later M pend box) (Hsm.readCur r s') := by
  unfold Hsm.readCur
  rw [h.cur]
  cases s.cur[r]? with
  | none => rfl
  | some o =>
    cases o with
    | none => rfl
    | some c => exact ⟨rfl, h⟩

theorem Later.currentParent (h : Later M pend box s s') :
    (currentParent M s).Rel Eq (Later M pend box) (Hsm.currentParent M s') := by
  unfold Hsm.currentParent
  refine (h.readCur 0).bind ?_
  rintro a _ s s' rfl h
  exact ⟨rfl, h⟩

theorem Later.updateRegions (h : Later M pend box s s') :
    (updateRegions M s).Rel Eq (Later M pend box) (Hsm.updateRegions M s') := by
  unfold Hsm.updateRegions
  split
  · refine h.currentParent.bind ?_
    rintro a _ s s' rfl h
    rw [h.initial]
    cases s.initial[a]? with
    | none => rfl
    | some l => exact ⟨rfl, { h with initial := rfl, regions := rfl }⟩
  · exact ⟨rfl, h⟩

theorem Later.writeCur (h : Later M pend box s s') (r c : Nat) :
    (writeCur r c s).Rel Eq (Later M pend box) (Hsm.writeCur r c s') := by
  unfold Hsm.writeCur
  rw [h.cur]
  split
  · exact ⟨rfl, { h with cur := rfl }⟩
  · rfl

theorem Later.saveHistory (h : Later M pend box s s') (r : Nat) :
    (saveHistory M r s).Rel Eq (Later M pend box) (Hsm.saveHistory M r s') := by
  unfold Hsm.saveHistory
  refine h.currentParent.bind ?_
  rintro a _ s s' rfl h
  refine (h.readCur r).bind ?_
  rintro c _ s s' rfl h
  rw [h.hist]
  cases s.hist[a]? with
  | none => rfl
  | some l =>
    dsimp only
    split
    · exact ⟨rfl, { h with hist := rfl }⟩
    · rfl

theorem Later.readHistory (h : Later M pend box s s') (p r : Nat) :
    (readHistory p r s).Rel Eq (Later M pend box) (Hsm.readHistory p r s') := by
  unfold Hsm.readHistory
  rw [h.hist]
  cases s.hist[p]? with
  | none => rfl
  | some l =>
    dsimp only
    cases l[r]? with
    | none => rfl
    | some c => exact ⟨rfl, h⟩

theorem Later.moveState (h : Later M pend box s s') (r : Nat) (e : Entry) :
    (moveState M r e s).Rel Eq (Later M pend box) (Hsm.moveState M r e s') := by
  unfold Hsm.moveState
  split
  · refine (h.saveHistory r).bind ?_
    intro _ _ s s' _ h
    refine Res.Rel.bind (V := Eq) ?_ (fun _ _ _ _ _ h => h.updateRegions)
    split
    · refine (h.readHistory _ r).bind ?_
      rintro c _ s s' rfl h
      exact h.writeCur r c
    · exact h.writeCur r _
  · exact (h.writeCur r _).bind fun _ _ _ _ _ h => h.updateRegions

theorem Later.updateState (h : Later M pend box s s') (r : Nat) (e : Entry) :
    (updateState M r e s).Rel Eq (Later M pend box) (Hsm.updateState M r e s') := by
  unfold Hsm.updateState
  split
  · exact ⟨rfl, h⟩
  · refine (h.moveState r e).bind ?_
    intro _ _ t t' _ h'
    refine ⟨rfl, { h' with moves := ?_ }⟩
    simp only [List.map_append, h'.moves, List.map_cons, List.map_nil, Firing.move, h.cur, h'.cur]

theorem Later.ran (h : Later M pend box s s') (w : W) (box' : List (Op P)) {c c' : Call P}
    (hc : c' = c) :
    Later M pend box' { s with world := w, trace := s.trace ++ [c] }
      { s' with world := (w, box'), trace := s'.trace ++ [c'] } := by
  subst hc
  refine { h with world := rfl, calls := ?_ }
  dsimp only
  rw [List.append_assoc, List.map_append, List.map_append]
  refine (h.calls.append_right _).trans ?_
  rw [List.map_append, List.append_assoc]
  refine List.Perm.append_left _ ?_
  rw [List.map_append]
  exact List.perm_append_comm

/-- The callback is still running on the left. -/
theorem Later.sends (h : Later M pend box s s') (w : W) (box' : List (Op P)) {c c' : Call P}
    (hc : c' = c) :
    Later M (c :: pend) box' { s with world := w }
      { s' with world := (w, box'), trace := s'.trace ++ [c'] } := by
  subst hc
  refine { h with world := rfl, calls := ?_ }
  dsimp only
  rw [List.map_append]
  refine (h.calls.append_right _).trans ?_
  rw [List.map_append, List.map_append, List.append_assoc]
  refine List.Perm.append_left _ ?_
  rw [List.map_cons]
  exact List.perm_append_comm

theorem Later.objOk (h : Later M pend box s s') (st : StTy) :
    objOk M (sem.noting mail) st s' = objOkR M (sem.sending mail) st s := by
  unfold Hsm.objOk objOkR
  show (_ || sem.alive st s'.world.1) = (_ || sem.alive st s.world)
  rw [h.world]

theorem noting_guard {w : W} {wb : W × List (Op P)} (h : wb = (w, box)) (g : Cb) (a : Args) (p : P) :
    (sem.noting mail).guard g a p wb = (sem.guard g a p w).thenNote none box := by
  subst h; rfl

theorem noting_action {w : W} {wb : W × List (Op P)} (h : wb = (w, box)) (c : Cb) (a : Args) (p : P) :
    (sem.noting mail).action c a p wb =
      (sem.action c a p w).thenNote (mail.action c a p w) box := by
  subst h; rfl

theorem noting_handler {w : W} {wb : W × List (Op P)} (h : wb = (w, box)) (c : Cb) (e : EventTy)
    (st : StTy) (d : Dep) (p : P) :
    (sem.noting mail).handler c e st d p wb =
      (sem.handler c e st d p w).thenNote (mail.handler c e st d p w) box := by
  subst h; rfl

theorem sending_guard (w : W) (g : Cb) (a : Args) (p : P) :
    (sem.sending mail).guard g a p w = (sem.guard g a p w).prog := rfl

theorem sending_action (w : W) (c : Cb) (a : Args) (p : P) :
    (sem.sending mail).action c a p w = (sem.action c a p w).thenSend (mail.action c a p w) := rfl

theorem sending_handler (w : W) (c : Cb) (e : EventTy) (st : StTy) (d : Dep) (p : P) :
    (sem.sending mail).handler c e st d p w =
      (sem.handler c e st d p w).thenSend (mail.handler c e st d p w) := rfl

theorem Later.execGuard (h : Later M pend [] s s') (x : Exec) (ev : EventTy) (p : P) :
    (execGuardR M (sem.sending mail) call x ev p s).Rel Eq (Later M pend [])
      (execGuard M (sem.noting mail) x ev p s') := by
  unfold Hsm.execGuard execGuardR
  cases x.guard with
  | none => exact ⟨rfl, h⟩
  | some g =>
    dsimp only
    rw [h.objOk, h.objOk, noting_guard h.world, sending_guard]
    generalize (objOkR M (sem.sending mail) _ s && objOkR M (sem.sending mail) _ s) = b
    cases b with
    | false => rfl
    | true =>
      simp only [if_true]
      cases sem.guard g _ p s.world with
      | ok b p' w' => exact ⟨rfl, h.ran w' [] (by rw [h.cur])⟩
      | throw n p' w' => exact ⟨rfl, h.ran w' [] (by rw [h.cur])⟩
      | ub => rfl

theorem Later.execGuard_table (x : Exec) (ev : EventTy) (p : P)
    {gp : Bool × P} {t : SM P W} (h : execGuardR M (sem.sending mail) call x ev p s = .ok gp t) :
    t.table = s.table := by
  unfold execGuardR at h
  cases hx : x.guard with
  | none => rw [hx] at h; cases h; rfl
  | some g =>
    rw [hx] at h
    dsimp only at h
    rw [sending_guard] at h
    generalize (objOkR M (sem.sending mail) _ s && objOkR M (sem.sending mail) _ s) = b at h
    cases b with
    | false => cases h
    | true =>
      simp only [if_true] at h
      change runCb call (sem.guard g (guardArgs x ev) p s.world).prog _ s = _ at h
      cases ho : sem.guard g (guardArgs x ev) p s.world with
      | ok b p' w' => rw [ho] at h; cases h; rfl
      | throw n p' w' => rw [ho] at h; cases h
      | ub => rw [ho] at h; cases h

/-- Callbacks of which only the last may send. -/
def Mail.lastOf (mail : Mail P W) (cs : List (Phase × Cb)) : Prop :=
  ∀ cs1 ph a cs2, cs = cs1 ++ (ph, a) :: cs2 → cs2 ≠ [] → ∀ args p w, mail.action a args p w = none

theorem Later.runCbs (args : Args) : ∀ (cs : List (Phase × Cb)), mail.lastOf cs →
    ∀ (p : P) {s : SM P W} {s' : SM P (W × List (Op P))}, Later M pend [] s s' →
    Flush M call pend (fun _ => True) (runCbsR (sem.sending mail) call args cs p s)
      (runCbs (sem.noting mail) args cs p s') := by
  intro cs
  induction cs with
  | nil => intro _ p s s' h; exact Or.inl ⟨s, rfl, h⟩
  | cons c cs ih =>
    intro hl p s s' h
    obtain ⟨ph, a⟩ := c
    unfold Hsm.runCbs runCbsR
    rw [noting_action h.world, sending_action]
    cases ho : sem.action a args p s.world with
    | throw n p' w' => exact ⟨_, rfl, h.ran w' [] (by rw [h.cur]; rfl)⟩
    | ub => rfl
    | ok u p' w' =>
      cases hm : mail.action a args p s.world with
      | none =>
        exact ih (fun cs1 ph' a' cs2 hcs => hl ((ph, a) :: cs1) ph' a' cs2 (by rw [hcs]; rfl)) p'
          (h.ran w' [] (by rw [h.cur]; rfl))
      | some op =>
        have hnil : cs = [] := by
          apply Classical.byContradiction
          intro hne
          have := hl [] ph a cs rfl hne args p s.world
          rw [hm] at this
          cases this
        subst hnil
        refine Or.inr ⟨trivial, op, _, .action ph a args p false s.cur,
          h.sends w' [op] (by rw [h.cur]), ?_⟩
        show ((runCb call (.call op w' _) _ s).bind _).Rel _ _ _
        unfold runCb runProg
        cases call op { s with world := w' } with
        | ok b t => exact ⟨rfl, _, rfl, rfl⟩
        | throw x t => exact ⟨rfl, .action ph a args p true s.cur, rfl, rfl⟩
        | ub u => rfl
        | timeout => trivial

theorem Later.execAction (h : Later M pend [] s s') (x : Exec) (hx : mail.lastOf x.cbs) (ev : EventTy)
    (p : P) :
    Flush M call pend (fun _ => True) (execActionR M (sem.sending mail) call x ev p s)
      (execAction M (sem.noting mail) x ev p s') := by
  unfold Hsm.execAction execActionR
  unfold Exec.cbs at hx
  cases hxa : x.action with
  | none => exact Or.inl ⟨s, rfl, h⟩
  | some cs =>
    dsimp only
    rw [h.objOk]
    rw [hxa] at hx
    split
    · exact Later.runCbs _ cs hx p h
    · rfl

theorem Later.fire (h : Later M pend [] s s') (r : Nat) (ev : EventTy) (e : Entry) (x : Exec)
    (hx : mail.lastOf x.cbs) (p : P) :
    Flush M call pend (fun _ => True) (fireR M (sem.sending mail) call r ev e x p s)
      (fire M (sem.noting mail) r ev e x p s') := by
  unfold Hsm.fire fireR
  exact Flush.of_rel (h.updateState r e) fun _ _ _ h => h.execAction x hx ev p

theorem Later.tryEntries (r : Nat) (ev : EventTy) (c n : Nat) : ∀ (es : List Entry),
    (∀ e ∈ es, ∀ x, e.tr = some x → mail.lastOf x.cbs) → ∀ (p : P) {s : SM P W}
    {s' : SM P (W × List (Op P))}, Later M pend [] s s' → (s.table ev c).length = n →
    Flush M call pend (fun a => a.1 = .fired)
      (tryEntriesR M (sem.sending mail) call r ev c n es p s)
      (tryEntries M (sem.noting mail) r ev es p s') := by
  intro es
  induction es with
  | nil => intro _ p s s' h _; exact Or.inl ⟨s, rfl, h⟩
  | cons e es ih =>
    intro hes p s s' h hn
    unfold Hsm.tryEntries tryEntriesR
    split
    · refine Or.inl ⟨_, rfl, { h with queue := ?_ }⟩
      show s'.queue ++ _ = s.queue ++ _
      rw [h.queue]
    · cases hx : e.tr with
      | none => rfl
      | some x =>
        dsimp only
        have hg := h.execGuard (sem := sem) (mail := mail) (call := call) x ev p
        have ht := fun gp t => Later.execGuard_table (M := M) (sem := sem) (mail := mail) (call := call)
          (s := s) x ev p (gp := gp) (t := t)
        generalize execGuardR M (sem.sending mail) call x ev p s = a at hg ht
        generalize Hsm.execGuard M (sem.noting mail) x ev p s' = a' at hg
        match a, a', hg, ht with
        | .ok gp t, .ok _ t', ⟨rfl, hg⟩, ht =>
          show Flush M call pend _ (if gp.1 = true then _ else _) (if gp.1 = true then _ else _)
          split
          · refine (hg.fire r ev e x (hes e (by simp) x hx) gp.2).bind ?_ ?_
            · intro a t t' h; exact Or.inl ⟨t, rfl, h⟩
            · intro a _; exact ⟨_, rfl, fun _ => rfl, fun _ => rfl⟩
          · have hn' : (t.table ev c).length = n := by rw [ht gp t rfl, hn]
            rw [if_pos hn']
            exact ih (fun e he => hes e (by simp [he])) gp.2 hg hn'
        | .throw x t, .throw _ t', ⟨rfl, hg⟩, _ => exact ⟨_, rfl, hg⟩
        | .ub u, .ub _, rfl, _ => rfl
        | .timeout, .timeout, _, _ => rfl

theorem Machine.entries_last (hl : mail.Last M) {deps : List Dep} {ev : EventTy} {p : Name} {st : StTy}
    {e : Entry} (he : e ∈ M.entries deps ev p st) {x : Exec} (hx : e.tr = some x) :
    mail.lastOf x.cbs := by
  unfold Machine.entries at he
  obtain ⟨d, _, he⟩ := List.mem_flatMap.1 he
  obtain ⟨c, hc, hen⟩ := List.mem_filterMap.1 he
  rcases Machine.entryOfCand_cases hen with ⟨_, _, h, _⟩ | ⟨t, l, y, h1, _, _, _, _, _, h7, _, h8, _⟩
  · rw [hx] at h; cases h
  · rw [hx] at h7; cases h7
    have ht : t ∈ M.flat ++ M.iflat := by
      rcases Machine.cand_row hc with rfl | ⟨t', ht', _, h⟩
      · rcases h1 with h1 | ⟨_, h1⟩ <;> cases h1
      · rcases h1 with h1 | ⟨q, h1⟩ <;> rcases h with h | h <;> rw [h1] at h <;> cases h <;> exact ht'
    unfold Exec.cbs
    rw [h8, Machine.resolveAction_cbs]
    exact hl t ht

theorem Later.regionStep (hM : M.Regular) (hl : mail.Last M) (h : Later M pend [] s s') (r : Nat)
    (ev : EventTy) (p : P) :
    Flush M call pend (fun a => a.1 = .fired) (regionStepR M (sem.sending mail) call r ev p s)
      (regionStep M (sem.noting mail) r ev p s') := by
  unfold Hsm.regionStep regionStepR lookup
  rw [Res.bind_assoc]
  refine Flush.of_rel (h.readCur r) ?_
  intro c s s' h
  by_cases hc : c < M.size
  · rw [if_pos hc, if_pos hc]
    show Flush M call pend _ _ (match s'.table ev c with | [] => _ | es => _)
    rw [h.table]
    obtain ⟨deps, hT⟩ := h.filled
    obtain ⟨q, st, hq, hst, rfl⟩ := hM.comb_surj hc
    have hes := hT ev q st hq hst
    cases hcell : s.table ev (M.comb q st) with
    | nil => exact Or.inl ⟨s, rfl, h⟩
    | cons e es =>
      exact Later.tryEntries r ev _ _ _ (fun e' he' x hx => Machine.entries_last hl
        (deps := deps) (ev := ev) (p := q) (st := st) (by rw [← hes, hcell]; exact he') hx) p h
        (by rw [hcell])
  · rw [if_neg hc, if_neg hc]; rfl

theorem Later.regionLoop (hM : M.Regular) (hl : mail.Last M) (h : Later M pend [] s s')
    (ev : EventTy) (p : P) :
    Flush M call pend (fun a => a.1 = .done false false)
      (regionLoopR M (sem.sending mail) call ev [0] true true p s)
      (regionLoop M (sem.noting mail) ev [0] true true p s') := by
  unfold Hsm.regionLoop regionLoopR
  refine (h.regionStep hM hl 0 ev p).bind ?_ ?_
  · intro a s s' h
    cases a.1 <;> exact Or.inl ⟨s, rfl, h⟩
  · intro a ha
    rw [ha]
    exact ⟨_, rfl, fun _ => rfl, fun _ => rfl⟩

theorem Later.processInternal (hM : M.Regular) (hl : mail.Last M) (h1 : M.orthogonal = false)
    (h2 : M.anonymous = false) (h : Later M pend [] s s') (fuel : Nat) (ev : EventTy) (p : P) :
    Flush M call pend (fun a => a.1 = .processed)
      (processInternalR M (sem.sending mail) call fuel ev p s)
      (processInternal M (sem.noting mail) fuel ev p s') := by
  unfold Hsm.processInternal processInternalR
  have hr : ∀ {W : Type} (s : SM P W), List.range (currentRegions M s) = [0] := by
    intro W s
    unfold currentRegions
    rw [← Machine.parallel_eq] at h1
    rw [h1]
    rfl
  rw [hr, hr]
  have ha : ∀ {W : Type} (sem : Sem P W) (s : SM P W), processAnon M sem fuel s = .ok () s := by
    intro W sem s
    unfold processAnon
    rw [Machine.hasAnon_eq, h2]
    rfl
  have haR : ∀ (sem : SemR P W) (s : SM P W), processAnonR M sem call fuel s = .ok () s := by
    intro sem s
    unfold processAnonR
    rw [Machine.hasAnon_eq, h2]
    rfl
  refine (h.regionLoop hM hl ev p).bind ?_ ?_
  · intro a s s' h
    rw [ha, haR]
    cases a.1 with
    | deferred => exact Or.inl ⟨s, rfl, h⟩
    | done agf ati => cases agf <;> cases ati <;> exact Or.inl ⟨s, rfl, h⟩
  · intro a hq
    refine ⟨(.processed, a.2), rfl, fun t => ?_, fun t => ?_⟩
    · rw [hq, haR]; rfl
    · rw [hq, ha]; rfl

theorem Later.callHandler (h : Later M pend [] s s') (ev : EventTy) (p : P) :
    Flush M call pend (fun _ => True) (callHandlerR M (sem.sending mail) call ev p s)
      (callHandler M (sem.noting mail) ev p s') := by
  unfold Hsm.callHandler callHandlerR
  cases (M.decl M.root).handler with
  | none => exact Or.inl ⟨s, rfl, h⟩
  | some g =>
    dsimp only
    refine Flush.of_rel (h.readCur 0) ?_
    intro c s s' h
    rw [show s'.handlers ev c = s.handlers ev c by rw [h.handlers]]
    split
    · cases s.handlers ev c with
      | none => rfl
      | some y =>
        obtain ⟨st, d⟩ := y
        dsimp only
        rw [h.objOk, noting_handler h.world, sending_handler]
        split
        · cases ho : sem.handler g ev st d p s.world with
          | throw n p' w' =>
            exact ⟨_, rfl, h.ran w' [] (c := .handler g ev st d p true s.cur) (by rw [h.cur])⟩
          | ub => rfl
          | ok u p' w' =>
            cases hm : mail.handler g ev st d p s.world with
            | none =>
              exact Or.inl ⟨_, rfl, h.ran w' [] (c := .handler g ev st d p false s.cur) (by rw [h.cur])⟩
            | some op =>
              refine Or.inr ⟨trivial, op, _, .handler g ev st d p false s.cur,
                h.sends w' [op] (c' := .handler g ev st d p false s'.cur) (by rw [h.cur]), ?_⟩
              show ((runCb call (.call op w' _) _ s).bind _).Rel _ _ _
              unfold runCb runProg
              cases call op { s with world := w' } with
              | ok b t => exact ⟨rfl, _, rfl, rfl⟩
              | throw x t => exact ⟨rfl, .handler g ev st d p true s.cur, rfl, rfl⟩
              | ub u => rfl
              | timeout => trivial
        · rfl
    · exact ⟨s, rfl, h⟩

theorem Later.processEvent (hM : M.Regular) (hl : mail.Last M) (h1 : M.orthogonal = false)
    (h2 : M.anonymous = false) (h3 : M.deferring = false) (h : Later M pend [] s s') (fuel : Nat)
    (ev : EventTy) (p : P) :
    Flush M call pend (fun _ => True) (processEventR M (sem.sending mail) call fuel ev p s)
      (processEvent M (sem.noting mail) fuel ev p s') := by
  unfold Hsm.processEvent processEventR
  have hd : ∀ {W : Type} (sem : Sem P W) (s : SM P W), processDeferred M sem fuel s = .ok () s := by
    intro W sem s
    unfold processDeferred
    rw [Machine.hasDefer_eq, h3]
    rfl
  have hdR : ∀ (sem : SemR P W) (s : SM P W), processDeferredR M sem call fuel s = .ok () s := by
    intro sem s
    unfold processDeferredR
    rw [Machine.hasDefer_eq, h3]
    rfl
  refine (h.processInternal hM hl h1 h2 fuel ev p).bind ?_ ?_
  · intro a s s' h
    rw [hd, hdR]
    cases a.1 with
    | allTransitionsInvalid =>
      refine (h.callHandler ev a.2).bind ?_ ?_
      · intro _ s s' h; exact Or.inl ⟨s, rfl, h⟩
      · intro _ _; exact ⟨false, trivial, fun _ => rfl, fun _ => rfl⟩
    | deferred => exact Or.inl ⟨s, rfl, h⟩
    | allGuardsFailed => exact Or.inl ⟨s, rfl, h⟩
    | processed => exact Or.inl ⟨s, rfl, h⟩
  · intro a ha
    refine ⟨true, trivial, fun t => ?_, fun t => ?_⟩
    · rw [ha, hdR]; rfl
    · rw [ha, hd]; rfl

theorem Later.added {c : Call P} {t t0 : SM P W} (h : Later M (c :: pend) [] t0 s')
    (ht : Added c t t0) : Later M pend [] t s' := by
  obtain ⟨c', hc, rfl⟩ := ht
  refine { h with calls := ?_ }
  have := h.calls
  rw [List.map_append, List.map_cons, ← hc] at this
  rw [List.append_assoc, List.map_append, List.map_append]
  exact this

/-- The client that sends afterwards does the same. -/
theorem Later.step (hM : M.Regular) (hl : mail.Last M) (h1 : M.orthogonal = false)
    (h2 : M.anonymous = false) (h3 : M.deferring = false) (fuel : Nat) :
    ∀ (n : Nat) (op : Op P) {pend : List (Call P)} {s : SM P W} {s' : SM P (W × List (Op P))},
      Later M pend [] s s' →
      (stepR M (sem.sending mail) fuel n op s).Rel Eq (Later M pend [])
        (drive M (sem.noting mail) fuel n op s') := by
  intro n
  induction n with
  | zero => intro op pend s s' h; trivial
  | succ n ih =>
    intro op pend s s' h
    unfold stepR drive
    cases op with
    | process ev p =>
      dsimp only
      have hp := h.processEvent (sem := sem) (call := stepR M (sem.sending mail) fuel n) hM hl h1 h2 h3
        fuel ev p
      show Res.Rel _ _ _ ((Hsm.processEvent M (sem.noting mail) fuel ev p s').bind _)
      generalize Hsm.processEvent M (sem.noting mail) fuel ev p s' = r' at hp
      generalize processEventR M (sem.sending mail) _ fuel ev p s = r at hp
      cases r' with
      | ok b t' =>
        rcases hp with ⟨t, rfl, hp⟩ | ⟨_, o, t, c, hp, hr⟩
        · show Res.Rel _ _ _ (match t'.world.2 with | [] => _ | o :: box => _)
          rw [hp.world]
          exact ⟨rfl, hp⟩
        · show Res.Rel _ _ _ (match t'.world.2 with | [] => _ | o :: box => _)
          rw [hp.world]
          have hi := ih o (pend := c :: pend) (s := t) (s' := { t' with world := (t.world, []) })
            { hp with world := rfl }
          show Res.Rel _ _ _ ((drive M (sem.noting mail) fuel n o
            { t' with world := (t.world, []) }).bind _)
          generalize drive M (sem.noting mail) fuel n o { t' with world := (t.world, []) } = q' at hi
          generalize stepR M (sem.sending mail) fuel n o t = q at hi hr
          match q, q', r, hi, hr with
          | .ok _ u, .ok _ u', .ok _ v, ⟨_, hi⟩, ⟨rfl, hr⟩ => exact ⟨rfl, hi.added hr⟩
          | .throw _ u, .throw _ u', .throw _ v, ⟨rfl, hi⟩, ⟨rfl, hr⟩ => exact ⟨rfl, hi.added hr⟩
          | .ub _, .ub _, .ub _, rfl, rfl => rfl
          | .timeout, .timeout, .timeout, _, _ => trivial
      | throw x t' => obtain ⟨t, rfl, hp⟩ := hp; exact ⟨rfl, hp⟩
      | ub u => cases hp; rfl
      | timeout => cases hp; trivial
    | set r p st =>
      show ((setOp M r p st s).bind _).Rel _ _ (((setOp M r p st s').bind _).bind _)
      unfold setOp
      rw [show s'.cur.length = s.cur.length by rw [h.cur]]
      split
      · show Res.Rel _ _ _ (match s'.world.2 with | [] => _ | o :: box => _)
        rw [h.world]
        exact ⟨rfl, { h with cur := by rw [h.cur], world := rfl }⟩
      · exact ⟨rfl, h⟩
    | setDependency d =>
      show ((setDependency M d s).bind _).Rel _ _ (((setDependency M d s').bind _).bind _)
      unfold setDependency
      rw [show M.fill d s'.table = M.fill d s.table by rw [h.table]]
      cases hT : M.fill d s.table with
      | error e => rfl
      | ok T =>
        show Res.Rel _ _ _ (match s'.world.2 with | [] => _ | o :: box => _)
        rw [h.world]
        obtain ⟨deps, hd⟩ := h.filled
        refine ⟨rfl, { h with table := rfl, world := rfl, filled := ⟨d :: deps, ?_⟩ }⟩
        intro e p st hp hst
        have := Machine.fill_spec hM hT e hp hst
        rw [hd e p st hp hst] at this
        show T e (M.comb p st) = _
        rw [this]
        simp [Machine.entries]

theorem Later.sameEnd (h : Later M [] [] s s') : SameEnd s s' :=
  ⟨h.cur, h.initial, h.hist, h.queue, h.regions, h.table, h.handlers, h.world, by simpa using h.calls, h.moves⟩

/-- Related outcomes of the constructor. -/
def SameBuilt (M : Machine) : Except BuildErr (SM P W) →
    Except BuildErr (SM P (W × List (Op P))) → Prop
  | .ok s, .ok s' => Later M [] [] s s'
  | .error _, .error _ => True
  | _, _ => False

theorem Later.construct (hM : M.Regular) (d : Dep) (w : W) :
    SameBuilt (P := P) M (construct M d w) (construct M d (w, [])) := by
  unfold Hsm.construct
  split
  · cases initHandlers M d with
    | error e => trivial
    | ok H =>
      cases hT : M.fill d (fun _ _ => []) with
      | error e => trivial
      | ok T =>
        show SameBuilt M (initState M w H T) (initState M (w, []) H T)
        unfold initState
        cases M.initialTable[M.parentIdx M.root]? with
        | none => trivial
        | some init =>
          dsimp only
          have h : Later (P := P) (W := W) M [] []
              ⟨initCur init M.maxInit, M.initialTable, M.initialTable, [], 0, T, H, w, [], []⟩
              ⟨initCur init M.maxInit, M.initialTable, M.initialTable, [], 0, T, H, (w, []), [], []⟩ := by
            refine ⟨rfl, rfl, rfl, rfl, rfl, rfl, rfl, rfl, by simp, rfl, [d], ?_⟩
            intro e p st hp hst
            show T e (M.comb p st) = _
            rw [Machine.fill_spec hM hT e hp hst]
            simp [Machine.entries]
          have := h.updateRegions
          generalize Hsm.updateRegions M (P := P) (W := W) _ = a at this ⊢
          generalize Hsm.updateRegions M (P := P) (W := W × List (Op P)) _ = a' at this ⊢
          match a, a', this with
          | .ok _ t, .ok _ t', h => exact h.2
          | .throw _ _, .throw _ _, _ => trivial
          | .ub _, .ub _, _ => trivial
          | .timeout, .timeout, _ => trivial
  · trivial

theorem RunToR.later (hM : M.Regular) (hl : mail.Last M) (h1 : M.orthogonal = false)
    (h2 : M.anonymous = false) (h3 : M.deferring = false) {d : Dep} {ops : List (Op P)}
    (h : RunToR M (sem.sending mail) d ops s) :
    ∃ s', DrivenTo M (sem.noting mail) d ops s' ∧ Later M [] [] s s' := by
  induction h with
  | @init w s h =>
    have hc := Later.construct (P := P) hM d w
    rw [h] at hc
    cases h' : construct (P := P) M d (w, ([] : List (Op P))) with
    | error e => rw [h'] at hc; exact hc.elim
    | ok s' => rw [h'] at hc; exact ⟨s', .init h', hc⟩
  | @ok s t ops op fuel n b hr hop h ih =>
    obtain ⟨s', hd, hs⟩ := ih
    have := Later.step (sem := sem) hM hl h1 h2 h3 fuel n op hs
    rw [h] at this
    cases h' : drive M (sem.noting mail) fuel n op s' with
    | ok b' t' => rw [h'] at this; exact ⟨t', .ok hd hop h', this.2⟩
    | throw x t' => rw [h'] at this; exact this.elim
    | ub u => rw [h'] at this; exact this.elim
    | timeout => rw [h'] at this; exact this.elim
  | @throw s t ops op fuel n x hr hop h ih =>
    obtain ⟨s', hd, hs⟩ := ih
    have := Later.step (sem := sem) hM hl h1 h2 h3 fuel n op hs
    rw [h] at this
    cases h' : drive M (sem.noting mail) fuel n op s' with
    | ok b' t' => rw [h'] at this; exact this.elim
    | throw x t' => rw [h'] at this; exact ⟨t', .throw hd hop h', this.2⟩
    | ub u => rw [h'] at this; exact this.elim
    | timeout => rw [h'] at this; exact this.elim
  | world hr w ih =>
    obtain ⟨s', hd, hs⟩ := ih
    exact ⟨_, .world hd w, { hs with world := rfl }⟩

theorem DrivenTo.later (hM : M.Regular) (hl : mail.Last M) (h1 : M.orthogonal = false)
    (h2 : M.anonymous = false) (h3 : M.deferring = false) {d : Dep} {ops : List (Op P)}
    (h : DrivenTo M (sem.noting mail) d ops s') :
    ∃ s, RunToR M (sem.sending mail) d ops s ∧ Later M [] [] s s' := by
  induction h with
  | @init w s' h' =>
    have hc := Later.construct (P := P) hM d w
    rw [h'] at hc
    cases h : construct (P := P) M d w with
    | error e => rw [h] at hc; exact hc.elim
    | ok s => rw [h] at hc; exact ⟨s, .init h, hc⟩
  | @ok s' t' ops op fuel n b hr hop h' ih =>
    obtain ⟨s, hd, hs⟩ := ih
    have := Later.step (sem := sem) hM hl h1 h2 h3 fuel n op hs
    rw [h'] at this
    cases h : stepR M (sem.sending mail) fuel n op s with
    | ok b' t => rw [h] at this; exact ⟨t, .ok hd hop h, this.2⟩
    | throw x t => rw [h] at this; exact this.elim
    | ub u => rw [h] at this; exact this.elim
    | timeout => rw [h] at this; exact this.elim
  | @throw s' t' ops op fuel n x hr hop h' ih =>
    obtain ⟨s, hd, hs⟩ := ih
    have := Later.step (sem := sem) hM hl h1 h2 h3 fuel n op hs
    rw [h'] at this
    cases h : stepR M (sem.sending mail) fuel n op s with
    | ok b' t => rw [h] at this; exact this.elim
    | throw x t => rw [h] at this; exact ⟨t, .throw hd hop h, this.2⟩
    | ub u => rw [h] at this; exact this.elim
    | timeout => rw [h] at this; exact this.elim
  | world hr w ih =>
    obtain ⟨s, hd, hs⟩ := ih
    exact ⟨_, .world hd w, { hs with world := rfl }⟩

/-- C69: in a machine with one region, without anonymous rows and without deferred events, whose
callbacks send events (or make other calls) only as the last act of the last callback of a row or of
the unexpected-event handler, any history has its counterpart in which these calls are made by the
client when the call that caused them has returned: the machine is in the same state, the same
callbacks have been called with the same arguments and the same moves made in the same order, and
the next call ends in the same way. -/
theorem C69_tail_partial (hM : M.Regular) (hl : mail.Last M) (h1 : M.orthogonal = false)
    (h2 : M.anonymous = false) (h3 : M.deferring = false) {d : Dep} {ops : List (Op P)}
    (h : RunToR M (sem.sending mail) d ops s) :
    ∃ s', DrivenTo M (sem.noting mail) d ops s' ∧ SameEnd s s' ∧ ∀ fuel n op,
      (stepR M (sem.sending mail) fuel n op s).Rel Eq SameEnd
        (drive M (sem.noting mail) fuel n op s') := by
  obtain ⟨s', hd, hs⟩ := h.later hM hl h1 h2 h3
  exact ⟨s', hd, hs.sameEnd, fun fuel n op =>
    (Later.step hM hl h1 h2 h3 fuel n op hs).imp fun _ _ h => h.sameEnd⟩

/-- C69, the other way round. -/
theorem C69_back_partial (hM : M.Regular) (hl : mail.Last M) (h1 : M.orthogonal = false)
    (h2 : M.anonymous = false) (h3 : M.deferring = false) {d : Dep} {ops : List (Op P)}
    (h : DrivenTo M (sem.noting mail) d ops s') :
    ∃ s, RunToR M (sem.sending mail) d ops s ∧ SameEnd s s' ∧ ∀ fuel n op,
      (stepR M (sem.sending mail) fuel n op s).Rel Eq SameEnd
        (drive M (sem.noting mail) fuel n op s') := by
  obtain ⟨s, hd, hs⟩ := h.later hM hl h1 h2 h3
  exact ⟨s, hd, hs.sameEnd, fun fuel n op =>
    (Later.step hM hl h1 h2 h3 fuel n op hs).imp fun _ _ h => h.sameEnd⟩

end

/-- C69: the claim holds for machines with one region, without anonymous rows and without deferred
events, if only the last callback of a row sends. -/
theorem C69_partial : C69_claim fun M mail =>
    mail.Last M ∧ M.orthogonal = false ∧ M.anonymous = false ∧ M.deferring = false := by
  intro M sem mail hM _ ⟨hl, h1, h2, h3⟩ d w s0 s0' h0 h0' fuel n
  have hL : Later M [] [] s0 s0' := by
    have := Later.construct (P := Nat) hM d w
    rw [h0, h0'] at this
    exact this
  clear h0 h0'
  intro ops
  induction ops generalizing s0 s0' with
  | nil => intro _ s h; cases h; exact ⟨s0', rfl, hL.sameEnd⟩
  | cons op ops ih =>
    intro hops s h
    have hs := Later.step (sem := sem) hM hl h1 h2 h3 fuel n op hL
    unfold runAll at h ⊢
    generalize stepR M (sem.sending mail) fuel n op s0 = a at hs h
    generalize drive M (sem.noting mail) fuel n op s0' = a' at hs
    match a, a', hs with
    | .ok _ t, .ok _ t', hs => exact ih _ _ hs.2 (fun o ho => hops o (by simp [ho])) s h
    | .throw _ t, .throw _ t', hs => exact ih _ _ hs.2 (fun o ho => hops o (by simp [ho])) s h
    | .ub _, .ub _, _ => cases h
    | .timeout, .timeout, _ => cases h

/-! ## Each condition is needed -/

namespace Ex

/-- Callback `c` sends event `e` when it is done. -/
def posts (c : Cb) (e : EventTy) : Mail Nat (List Nat) where
  action a _ p _ := if a = c then some (.process e p) else none
  handler _ _ _ _ _ _ := none

/-- Runs the calls on both machines: the callbacks that ran, or the places, are not the same. -/
def parted (M : Machine) (mail : Mail Nat (List Nat)) (ops : List (Op Nat)) : Bool :=
  match construct M 7 [], construct M 7 (([] : List Nat), ([] : List (Op Nat))) with
  | .ok s0, .ok s0' =>
    match runAll (stepR M ((sem fun _ => true).sending mail) 5 5) ops s0,
      runAll (drive M ((sem fun _ => true).noting mail) 5 5) ops s0' with
    | some s, some s' => ops.all (opOkB M) && (s.cur != s'.cur || s.world != s'.world.1)
    | _, _ => false
  | _, _ => false

theorem refutes {Cond : Machine → Mail Nat (List Nat) → Prop} {M : Machine}
    {mail : Mail Nat (List Nat)} (hM : M.Regular) (hS : M.Scoped) (hc : Cond M mail)
    (ops : List (Op Nat)) (h : parted M mail ops = true) : ¬ C69_claim Cond := by
  intro hall
  unfold parted at h
  split at h
  · rename_i s0 s0' h0 h0'
    split at h
    · rename_i s s' hs hs'
      simp only [Bool.and_eq_true, List.all_eq_true, bne_iff_ne,
        Bool.or_eq_true] at h
      obtain ⟨t', ht', hE⟩ := hall M (sem fun _ => true) mail hM hS hc 7 [] s0 s0' h0 h0' 5 5 ops
        (fun op ho => opOkB_iff M (h.1 op ho)) s hs
      rw [hs'] at ht'
      cases ht'
      rcases h.2 with h2 | h2
      · exact h2 hE.cur.symm
      · exact h2 (by rw [hE.world])
    · cases h
  · cases h

/-- `Mail.Last`, evaluated. -/
def lastB (M : Machine) (c : Cb) : Bool :=
  (M.flat ++ M.iflat).all fun t => (M.callbacks t).dropLast.all fun x => x.2 != c

theorem last_of_check {M : Machine} {c : Cb} {e : EventTy} (h : lastB M c = true) :
    (posts c e).Last M := by
  intro t ht cs1 ph a cs2 hcs hne args p w
  have h1 := List.all_eq_true.1 (List.all_eq_true.1 h t ht) (ph, a) (by
    rw [hcs, List.dropLast_append_of_ne_nil (by simp)]
    cases cs2 with
    | nil => exact absurd rfl hne
    | cons x xs => simp [List.dropLast])
  show (if a = c then _ else none) = none
  rw [if_neg (by simpa using h1)]

/-- 1 to 2 on event 0 with action 1, 2 to 3 on event 1 with action 2; state 2 has an entry action. -/
def relay : Machine := Machine.ofList
  [ { table := some
        [ row (ini 1) (ev 0) none (some 1) (.st 2),
          row (.st 2) (ev 1) none (some 2) (.st 3) ] },
    { }, { onEntry := some 20 }, { } ] [1]

theorem relay_regular : relay.Regular := Machine.regular_ofList (by decide +kernel)
theorem relay_scoped : relay.Scoped := Machine.scoped_of_check (by decide +kernel)

/-- The entry action of `relay` is the last callback of its row. -/
theorem relay_last : (posts 20 (ev 1)).Last relay := last_of_check (by decide +kernel)

/-- It sends event 1, and the machine ends in 3 after the one call of the client. -/
theorem relay_runs : (runR relay ((sem fun _ => true).sending (posts 20 (ev 1))) 5 5 7 []
    [.process (ev 0) 1]).any (fun s => s.cur == [some (relay.comb 0 (.st 3))] &&
      s.world == [1, 20, 2] && s.log.length == 2) = true := by
  decide +kernel

/-- C69 applies to it: the client sends both events and ends there too. -/
example : ∃ s s', RunToR relay ((sem fun _ => true).sending (posts 20 (ev 1))) 7 [.process (ev 0) 1] s ∧
    s.log.length = 2 ∧
    DrivenTo relay ((sem fun _ => true).noting (posts 20 (ev 1))) 7 [.process (ev 0) 1] s' ∧
    s'.cur = [some (relay.comb 0 (.st 3))] ∧ s'.world = ([1, 20, 2], []) := by
  obtain ⟨s, h, hs⟩ := exists_runR relay _ relay_runs
  simp only [Bool.and_eq_true, beq_iff_eq] at hs
  obtain ⟨s', h', hE, _⟩ := C69_tail_partial relay_regular relay_last (by decide +kernel)
    (by decide +kernel) (by decide +kernel) h
  exact ⟨s, s', h, hs.2, h', by rw [hE.cur, hs.1.1], by rw [hE.world, hs.1.2]⟩

/-- Two regions: from 1 to 2 and back, and from 3 on event 0 to 4 but on event 1 to 5. -/
def twin : Machine := Machine.ofList
  [ { table := some
        [ row (ini 1) (ev 0) none (some 1) (.st 2),
          row (.st 2) (ev 1) none none (.st 1),
          row (ini 3) (ev 0) none none (.st 4),
          row (.st 3) (ev 1) none none (.st 5) ] },
    { }, { }, { }, { }, { } ] [1]

theorem twin_regular : twin.Regular := Machine.regular_ofList (by decide +kernel)
theorem twin_scoped : twin.Scoped := Machine.scoped_of_check (by decide +kernel)

/-- 1 to 2 on event 0; an anonymous row from 2 to 3; event 1 leads from 2 to 4, from 3 to 5. -/
def slip : Machine := Machine.ofList
  [ { table := some
        [ row (ini 1) (ev 0) none (some 1) (.st 2),
          row (.st 2) .none none none (.st 3),
          row (.st 2) (ev 1) none none (.st 4),
          row (.st 3) (ev 1) none none (.st 5) ] },
    { }, { }, { }, { }, { } ] [1]

theorem slip_regular : slip.Regular := Machine.regular_ofList (by decide +kernel)
theorem slip_scoped : slip.Scoped := Machine.scoped_of_check (by decide +kernel)

/-- State 1 defers event 2; event 0 leads from 1 to 2; there events 1 and 2 lead to 3 and 4. -/
def stash : Machine := Machine.ofList
  [ { table := some
        [ row (ini 1) (ev 0) none (some 1) (.st 2),
          row (.st 2) (ev 1) none none (.st 3),
          row (.st 2) (ev 2) none none (.st 4) ] },
    { defer := some [ev 2] }, { }, { }, { } ] [1]

theorem stash_regular : stash.Regular := Machine.regular_ofList (by decide +kernel)
theorem stash_scoped : stash.Scoped := Machine.scoped_of_check (by decide +kernel)

end Ex

/-- C69 fails if an action sends although an entry action follows: the entry action runs after the
callbacks of the sent event. -/
theorem C69_refuted_middle : ¬ C69_claim fun M _ =>
    M.orthogonal = false ∧ M.anonymous = false ∧ M.deferring = false :=
  Ex.refutes (mail := Ex.posts 1 (Ex.ev 1)) Ex.relay_regular Ex.relay_scoped
    (by decide +kernel) [.process (Ex.ev 0) 1] (by decide +kernel)

/-- C69 fails with two regions: the second region sees the sent event first. -/
theorem C69_refuted_regions : ¬ C69_claim fun M mail =>
    mail.Last M ∧ M.anonymous = false ∧ M.deferring = false :=
  Ex.refutes (mail := Ex.posts 1 (Ex.ev 1)) Ex.twin_regular Ex.twin_scoped
    ⟨Ex.last_of_check (by decide +kernel), by decide +kernel⟩ [.process (Ex.ev 0) 1] (by decide +kernel)

/-- C69 fails with anonymous rows: the sent event comes before them. -/
theorem C69_refuted_anonymous : ¬ C69_claim fun M mail =>
    mail.Last M ∧ M.orthogonal = false ∧ M.deferring = false :=
  Ex.refutes (mail := Ex.posts 1 (Ex.ev 1)) Ex.slip_regular Ex.slip_scoped
    ⟨Ex.last_of_check (by decide +kernel), by decide +kernel⟩ [.process (Ex.ev 0) 1] (by decide +kernel)

/-- C69 fails with deferred events: the sent event overtakes those that wait. -/
theorem C69_refuted_deferred : ¬ C69_claim fun M mail =>
    mail.Last M ∧ M.orthogonal = false ∧ M.anonymous = false :=
  Ex.refutes (mail := Ex.posts 1 (Ex.ev 1)) Ex.stash_regular Ex.stash_scoped
    ⟨Ex.last_of_check (by decide +kernel), by decide +kernel⟩
    [.process (Ex.ev 2) 1, .process (Ex.ev 0) 1] (by decide +kernel)

end Hsm
