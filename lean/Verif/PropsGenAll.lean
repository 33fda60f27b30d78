import Verif.PropsInterpGen
import Verif.PropsGen

/-!
# The amalgamated header: the queue and safety, for all its machines (C62, C63)

PropsGen.lean proves these for machines whose internal rows both headers understand in the same way and
for callbacks that leave the none event as it is.  With the interpreter (C82) neither is needed.
-/

namespace Hsm

section
variable {P W : Type} {M : Machine} {sem : Sem P W}

/-! ## C62: the queue -/

/-- The waiting events are still those of `c`. -/
def SameWaiting {α : Type} (c : Conf P W) (r : Res (Conf P W) α) : Prop :=
  r.Sat True (fun _ c' => c'.waiting = c.waiting) (fun _ c' => c'.waiting = c.waiting)

theorem SameWaiting.bind {α β : Type} {c : Conf P W} {r : Res (Conf P W) α}
    {f : α → Conf P W → Res (Conf P W) β} (h : SameWaiting c r)
    (hf : ∀ a c', SameWaiting c' (f a c')) : SameWaiting c (r.bind f) := by
  cases r with
  | ok a c' =>
    have hc : c'.waiting = c.waiting := h
    have := hf a c'
    unfold SameWaiting at this
    rw [hc] at this
    exact this
  | throw x c' => exact h
  | ub u => trivial
  | timeout => trivial

theorem SameWaiting.imp {α : Type} {c : Conf P W} {r : Res (Conf P W) α} {Q : α → Conf P W → Prop}
    (h : SameWaiting c r) (hq : ∀ a c', c'.waiting = c.waiting → Q a c') :
    r.Sat True Q (fun _ c' => c'.waiting = c.waiting) := by
  cases r with
  | ok a c' => exact hq a c' h
  | throw x c' => exact h
  | ub u => trivial
  | timeout => trivial

namespace Machine

theorem seek_waiting (r : Nat) (c : Conf P W) : SameWaiting c (seek r c) := by
  unfold seek
  split <;> trivial

theorem put_waiting (r : Nat) (l : Name × StTy) (c : Conf P W) : SameWaiting c (put r l c) := by
  unfold put
  split <;> trivial

theorem recount_waiting (c : Conf P W) : SameWaiting c (M.recount c) := by
  unfold recount
  split
  · refine (seek_waiting 0 c).bind fun l c => ?_
    split <;> trivial
  · rfl

theorem travel_waiting (r : Nat) (t : XRow) (l : Name × StTy) (c : Conf P W) :
    SameWaiting c (M.travel r t l c) := by
  unfold travel
  split
  · rfl
  · split
    · refine SameWaiting.bind ?_ fun _ c => SameWaiting.bind ?_ fun _ c => recount_waiting c
      · unfold remember
        refine (seek_waiting 0 c).bind fun l0 c => (seek_waiting r c).bind fun l c => ?_
        split <;> trivial
      · split
        · refine SameWaiting.bind ?_ fun l c => put_waiting r l c
          unfold recall
          split
          · split <;> trivial
          · trivial
        · exact put_waiting r l c
    · exact (put_waiting r l c).bind fun _ c => recount_waiting c

theorem perform_waiting (args : Args) : ∀ (cs : List (Phase × Cb)) (p : P) (c : Conf P W),
    SameWaiting c (perform sem args cs p c) := by
  intro cs
  induction cs with
  | nil => intro p c; rfl
  | cons x cs ih =>
    intro p c
    obtain ⟨ph, a⟩ := x
    unfold perform
    cases sem.action a args p c.world with
    | ok u p' w => exact ih p' { c with world := w, calls := c.calls ++ [.action ph a args p false []] }
    | throw k p' w => rfl
    | ub => trivial

theorem take_waiting (r : Nat) (ev : EventTy) (d : Dep) (cd : Cand) (t : XRow) (l : Name × StTy)
    (p : P) (c : Conf P W) : SameWaiting c (M.take sem r ev d cd t l p c) := by
  unfold take
  refine (travel_waiting _ _ _ c).bind fun _ c => ?_
  split
  · rfl
  · split
    · exact perform_waiting _ _ _ c
    · trivial

theorem ask_waiting (ev : EventTy) (d : Dep) (cd : Cand) (t : XRow) (l : Name × StTy) (p : P)
    (c : Conf P W) : SameWaiting c (M.ask sem ev d cd t l p c) := by
  unfold ask
  split
  · rfl
  · dsimp only
    split_ifs
    all_goals first
      | trivial
      | (split <;> trivial)

/-- Only a deferral adds to the waiting events. -/
def Postpones (ev : EventTy) (q : List (EventTy × P)) (o : RegionOut) (p : P) (c : Conf P W) : Prop :=
  (o = .deferred ∧ c.waiting = q ++ [(ev, p)]) ∨ (o ≠ .deferred ∧ c.waiting = q)

theorem attempt_waiting (anon : Bool) (r : Nat) (ev : EventTy) : ∀ (cs : List (Dep × Cand)) (p : P)
    (c : Conf P W), (M.attempt sem anon r ev cs p c).Sat True
      (fun a c' => Postpones ev c.waiting a.1 a.2 c' ∧ (anon = true → a.1 ≠ .deferred))
      (fun _ c' => c'.waiting = c.waiting) := by
  intro cs
  induction cs with
  | nil => intro p c; exact ⟨Or.inr ⟨by simp, rfl⟩, fun _ => by simp⟩
  | cons x cs ih =>
    intro p c
    obtain ⟨d, cd⟩ := x
    unfold attempt
    split
    · split
      · trivial
      · rename_i h
        exact ⟨Or.inl ⟨rfl, rfl⟩, fun h' => absurd h' h⟩
    · split
      · trivial
      · rename_i t _ _ l _
        have ha := ask_waiting (M := M) (sem := sem) ev d cd t l p c
        revert ha
        cases M.ask sem ev d cd t l p c with
        | ok a c1 =>
          intro ha
          have ha : c1.waiting = c.waiting := ha
          show Res.Sat _ _ _ (if a.1 then _ else _)
          split
          · have ht := take_waiting (M := M) (sem := sem) r ev d cd t l a.2 c1
            revert ht
            cases M.take sem r ev d cd t l a.2 c1 with
            | ok p2 c2 =>
              intro ht
              exact ⟨Or.inr ⟨by simp, Eq.trans ht ha⟩, fun _ => by simp⟩
            | throw x c2 => intro ht; exact Eq.trans ht ha
            | ub u => intro _; trivial
            | timeout => intro _; trivial
          · have := ih a.2 c1
            rw [ha] at this
            exact this
        | throw x c1 => intro ha; exact ha
        | ub u => intro _; trivial
        | timeout => intro _; trivial

theorem visitG_waiting (anon : Bool) (r : Nat) (ev : EventTy) (p : P) (c : Conf P W) :
    (M.visitG sem anon r ev p c).Sat True
      (fun a c' => Postpones ev c.waiting a.1 a.2 c' ∧ (anon = true → a.1 ≠ .deferred))
      (fun _ c' => c'.waiting = c.waiting) := by
  unfold visitG
  cases hs : seek r c with
  | ok l c1 =>
    have : c1 = c := by
      unfold seek at hs
      split at hs <;> cases hs
      rfl
    subst this
    show Res.Sat _ _ _ (if _ then _ else _)
    split
    · split
      · exact ⟨Or.inr ⟨by simp, rfl⟩, fun _ => by simp⟩
      · exact attempt_waiting anon r ev _ p c1
    · trivial
  | throw x c1 =>
    unfold seek at hs
    split at hs <;> cases hs
  | ub u => trivial
  | timeout => trivial

theorem sweepG_waiting (ev : EventTy) : ∀ (rs : List Nat) (os : List RegionOut) (p : P) (c : Conf P W),
    (M.sweepG sem ev rs os p c).Sat True
      (fun a c' => c'.waiting = c.waiting ++ [(ev, a.2)] ∨ c'.waiting = c.waiting)
      (fun _ c' => c'.waiting = c.waiting) := by
  intro rs
  induction rs with
  | nil => intro os p c; exact Or.inr rfl
  | cons r rs ih =>
    intro os p c
    unfold sweepG
    have hv := visitG_waiting (M := M) (sem := sem) false r ev p c
    revert hv
    cases M.visitG sem false r ev p c with
    | ok o c1 =>
      intro hv
      show Res.Sat _ _ _ (if _ then _ else _)
      rcases hv.1 with ⟨h1, h2⟩ | ⟨h1, h2⟩
      · rw [if_pos h1]; exact Or.inl h2
      · rw [if_neg h1]
        have := ih (os ++ [o.1]) o.2 c1
        rw [h2] at this
        exact this
    | throw x c1 => intro hv; exact hv
    | ub u => intro _; trivial
    | timeout => intro _; trivial

theorem roundG_waiting : ∀ (rs : List Nat) (os : List RegionOut) (c : Conf P W),
    SameWaiting c (M.roundG sem rs os c) := by
  intro rs
  induction rs with
  | nil => intro os c; rfl
  | cons r rs ih =>
    intro os c
    unfold roundG
    have hv := visitG_waiting (M := M) (sem := sem) true r .none sem.nonePayload c
    revert hv
    cases M.visitG sem true r .none sem.nonePayload c with
    | ok o c1 =>
      intro hv
      have h2 : c1.waiting = c.waiting := by
        rcases hv.1 with ⟨h1, _⟩ | ⟨_, h2⟩
        · exact absurd h1 (hv.2 rfl)
        · exact h2
      show SameWaiting c (if _ then _ else _)
      split
      · exact h2
      · have := ih (os ++ [o.1]) c1
        unfold SameWaiting at this
        rw [h2] at this
        exact this
    | throw x c1 => intro hv; exact hv
    | ub u => intro _; trivial
    | timeout => intro _; trivial

theorem settleG_waiting (fuel : Nat) : ∀ c : Conf P W, SameWaiting c (M.settleG sem fuel c) := by
  induction fuel with
  | zero => intro c; trivial
  | succ n ih =>
    intro c
    unfold settleG
    refine (roundG_waiting _ _ c).bind fun a c => ?_
    split
    · exact ih c
    · rfl

theorem handleG_waiting (fuel : Nat) (ev : EventTy) (p : P) (c : Conf P W) :
    (M.handleG sem fuel ev p c).Sat True
      (fun _ c' => c'.waiting = c.waiting ∨ ∃ p', c'.waiting = c.waiting ++ [(ev, p')])
      (fun _ c' => c'.waiting = c.waiting ∨ ∃ p', c'.waiting = c.waiting ++ [(ev, p')]) := by
  unfold handleG
  have hs := sweepG_waiting (M := M) (sem := sem) ev (M.taking c) [] p c
  revert hs
  cases M.sweepG sem ev (M.taking c) [] p c with
  | ok a c1 =>
    intro hs
    have hs : c1.waiting = c.waiting ∨ ∃ p', c1.waiting = c.waiting ++ [(ev, p')] := by
      rcases hs with h | h
      · exact Or.inr ⟨_, h⟩
      · exact Or.inl h
    show Res.Sat _ _ _ (if _ then _ else _)
    split
    · have := settleG_waiting (M := M) (sem := sem) fuel c1
      revert this
      cases M.settleG sem fuel c1 with
      | ok u c2 => intro h; rw [← show c2.waiting = c1.waiting from h] at hs; exact hs
      | throw x c2 => intro h; rw [← show c2.waiting = c1.waiting from h] at hs; exact hs
      | ub u => intro _; trivial
      | timeout => intro _; trivial
    · exact hs
  | throw x c1 => intro hs; exact Or.inl hs
  | ub u => intro _; trivial
  | timeout => intro _; trivial

theorem complain_waiting (ev : EventTy) (p : P) (c : Conf P W) :
    SameWaiting c (M.complain sem ev p c) := by
  unfold complain
  split
  · rfl
  · refine (seek_waiting 0 c).bind fun l c => ?_
    split
    · split
      · split <;> trivial
      · trivial
    · rfl

theorem receiveG_waiting (fuel : Nat) (ev : EventTy) (p : P) (c : Conf P W) :
    (M.receiveG sem fuel ev p c).Sat True (fun _ c' => QueueStepG ev c.waiting c'.waiting)
      (fun _ c' => QueueStepG ev c.waiting c'.waiting) := by
  unfold receiveG
  have hh := handleG_waiting (M := M) (sem := sem) fuel ev p c
  revert hh
  cases M.handleG sem fuel ev p c with
  | ok a c1 =>
    intro hh
    show Res.Sat _ _ _ (if _ then _ else _)
    split
    · have := complain_waiting (M := M) (sem := sem) ev a.2 c1
      revert this
      cases M.complain sem ev a.2 c1 with
      | ok u c2 => intro h; exact ⟨_, hh, Or.inl h⟩
      | throw x c2 => intro h; exact ⟨_, hh, Or.inl h⟩
      | ub u => intro _; trivial
      | timeout => intro _; trivial
    · unfold replayG
      cases hq : c1.waiting with
      | nil => exact ⟨_, hh, Or.inl rfl⟩
      | cons x q =>
        obtain ⟨e, rp⟩ := x
        dsimp only
        split
        · have := handleG_waiting (M := M) (sem := sem) fuel e rp { c1 with waiting := q }
          revert this
          cases M.handleG sem fuel e rp { c1 with waiting := q } with
          | ok b c2 => intro h; exact ⟨_, hh, Or.inr ⟨e, rp, q, hq, h⟩⟩
          | throw x c2 => intro h; exact ⟨_, hh, Or.inr ⟨e, rp, q, hq, h⟩⟩
          | ub u => intro _; trivial
          | timeout => intro _; trivial
        · exact ⟨_, hh, Or.inl rfl⟩
  | throw x c1 => intro hh; exact ⟨_, hh, Or.inl rfl⟩
  | ub u => intro _; trivial
  | timeout => intro _; trivial

end Machine

/-- C62 for all machines the amalgamated header accepts and all callbacks, with "at most one event
leaves the queue per call, and it is the oldest" instead of "events are replayed in the order in which
they arrived"; for calls that return and for calls left by an exception. -/
theorem C62_all_partial (hM : M.RegularG) {d : Dep} {ops : List (OpG P)} {s s' : SM P W} {fuel : Nat}
    (hrun : RunToG M sem d ops s) {op : OpG P} (hop : OpOkG M op)
    (h : stepG M sem fuel op s = .ok () s' ∨ ∃ x, stepG M sem fuel op s = .throw x s') :
    match op with
    | .process ev _ => QueueStepG ev s.queue s'.queue
    | .setDependency _ => s'.queue = s.queue := by
  obtain ⟨hS, c, hc⟩ := C82_reach hM hrun
  have hs := C82_step (sem := sem) hc hM hS fuel hop
  cases op with
  | process ev pl =>
    have hw := Machine.receiveG_waiting (M := M) (sem := sem) fuel ev pl c
    change AgreesG M _ _ (M.receiveG sem fuel ev pl c) at hs
    dsimp only
    revert hw
    revert hs
    rcases h with h | ⟨x, h⟩ <;> rw [h] <;> cases M.receiveG sem fuel ev pl c <;> intro hs hw <;>
      first
      | exact hs.elim
      | (rw [hc.queue, hs.2.queue]; exact hw)
  | setDependency d' =>
    change AgreesG M _ _ (.ok () { c with deps := d' :: c.deps }) at hs
    dsimp only
    revert hs
    rcases h with h | ⟨x, h⟩ <;> rw [h] <;> intro hs
    · rw [hc.queue, hs.2.queue]
    · exact hs.elim

/-! ## C63: safety -/

/-- Sufficient conditions for a machine built with the amalgamated header and its user code to be safe:
all scopes are real, the root has an initial state, every composite has at most as many regions as
the root (exactly as many if history states are used), the none event is not deferred, all state
objects exist, and callbacks themselves are well-behaved. -/
structure SafeG (M : Machine) (sem : Sem P W) : Prop where
  scopes : M.ScopesRealG
  targets : ∀ t ∈ M.extRows ++ M.intRowsG, ∀ l, M.targetLoc t = some l → l.1 ∈ M.composites
  rootInit : M.declaredInitials M.root ≠ []
  regions : ∀ p ∈ M.composites, (M.declaredInitials p).length ≤ (M.declaredInitials M.root).length
  history : M.historic = true → ∀ p ∈ M.composites,
    (M.declaredInitials p).length = (M.declaredInitials M.root).length
  noneNotDeferred : M.anonymous = true → ∀ p st, Cand.defer ∉ M.candsG .none p st
  objects : ∀ st, M.selfMade st = true ∨ ∀ w, sem.alive st w = true
  guards : ∀ g a p w, sem.guard g a p w ≠ .ub
  actions : ∀ a args p w, sem.action a args p w ≠ .ub
  handlers : ∀ h e st d p w, sem.handler h e st d p w ≠ .ub

/-- All slots are written and lie in composites in force, and so does everything remembered. -/
structure Firm (M : Machine) (c : Conf P W) : Prop where
  length : c.slots.length = (M.declaredInitials M.root).length
  slots : ∀ x ∈ c.slots, ∃ l : Name × StTy, x = some l ∧ l.1 ∈ M.composites
  memory : M.historic = true → ∀ p ∈ M.composites,
    (c.memory p).length = (M.declaredInitials M.root).length ∧ ∀ l ∈ c.memory p, l.1 ∈ M.composites
  active : M.orthogonal = true → c.active ≤ (M.declaredInitials M.root).length

/-- Defined, and everything is still in place. -/
abbrev StaysFirm {α : Type} (M : Machine) (r : Res (Conf P W) α) : Prop :=
  r.Sat False (fun _ c => Firm M c) (fun _ c => Firm M c)

namespace Firm
variable {c : Conf P W}

theorem other (h : Firm M c) {c' : Conf P W} (h1 : c'.slots = c.slots) (h2 : c'.memory = c.memory)
    (h3 : c'.active = c.active) : Firm M c' :=
  ⟨by rw [h1]; exact h.length, by rw [h1]; exact h.slots, by rw [h2]; exact h.memory,
    by rw [h3]; exact h.active⟩

theorem seek (h : Firm M c) {r : Nat} (hr : r < (M.declaredInitials M.root).length) :
    ∃ l, Machine.seek r c = .ok l c ∧ l.1 ∈ M.composites := by
  have hr' : r < c.slots.length := by rw [h.length]; exact hr
  obtain ⟨l, h1, h2⟩ := h.slots _ (List.getElem_mem hr')
  exact ⟨l, by unfold Machine.seek; rw [List.getElem?_eq_getElem hr', h1], h2⟩

theorem put (h : Firm M c) {r : Nat} (hr : r < (M.declaredInitials M.root).length) {l : Name × StTy}
    (hl : l.1 ∈ M.composites) : StaysFirm M (Machine.put r l c) := by
  unfold Machine.put
  rw [if_pos (by rw [h.length]; exact hr)]
  refine ⟨by simpa using h.length, ?_, h.memory, h.active⟩
  intro x hx
  rcases List.mem_or_eq_of_mem_set hx with hx | rfl
  · exact h.slots x hx
  · exact ⟨l, rfl, hl⟩

theorem recount (h : Firm M c) (hS : SafeG M sem) : StaysFirm M (M.recount c) := by
  unfold Machine.recount
  split
  · obtain ⟨l, h1, h2⟩ := h.seek (r := 0) (List.length_pos_iff.2 hS.rootInit)
    rw [h1]
    show StaysFirm M (if _ then _ else _)
    rw [if_pos h2]
    exact ⟨h.length, h.slots, h.memory, fun _ => hS.regions _ h2⟩
  · exact h

theorem travel (h : Firm M c) (hS : SafeG M sem) {r : Nat}
    (hr : r < (M.declaredInitials M.root).length) (t : XRow) {l : Name × StTy}
    (hl : l.1 ∈ M.composites) : StaysFirm M (M.travel r t l c) := by
  unfold Machine.travel
  split
  · exact h
  · split
    · rename_i hH
      refine Res.Sat.bind (Q := fun _ c => Firm M c) ?_ fun _ c h =>
        Res.Sat.bind (Q := fun _ c => Firm M c) ?_ fun _ c h => h.recount hS
      · unfold Machine.remember
        obtain ⟨l0, h1, h2⟩ := h.seek (r := 0) (List.length_pos_iff.2 hS.rootInit)
        obtain ⟨l1, h3, h4⟩ := h.seek hr
        rw [h1]
        show StaysFirm M ((Machine.seek r c).bind _)
        rw [h3]
        show StaysFirm M (if _ then _ else _)
        rw [if_pos ⟨h2, by rw [(h.memory hH _ h2).1]; exact hr⟩]
        refine ⟨h.length, h.slots, fun _ p hp => ?_, h.active⟩
        show (if p = l0.1 then (c.memory p).set r l1 else c.memory p).length = _ ∧
          ∀ l ∈ (if p = l0.1 then (c.memory p).set r l1 else c.memory p), _
        have hm := h.memory hH p hp
        split
        · refine ⟨by rw [List.length_set]; exact hm.1, fun l hl => ?_⟩
          rcases List.mem_or_eq_of_mem_set hl with hl | rfl
          · exact hm.2 l hl
          · exact h4
        · exact hm
      · split
        · unfold Machine.recall
          rw [if_pos hl]
          have hm := h.memory hH _ hl
          have hr' : r < (c.memory l.1).length := by rw [hm.1]; exact hr
          rw [List.getElem?_eq_getElem hr']
          exact h.put hr (hm.2 _ (List.getElem_mem hr'))
        · exact h.put hr hl
    · exact Res.Sat.bind (Q := fun _ c => Firm M c) (h.put hr hl) fun _ c h => h.recount hS

theorem present (hS : SafeG M sem) (st : StTy) (c : Conf P W) : M.present sem st c = true := by
  unfold Machine.present
  rcases hS.objects st with h | h <;> simp [h]

theorem perform (hS : SafeG M sem) (args : Args) : ∀ (cs : List (Phase × Cb)) (p : P) {c : Conf P W},
    Firm M c → StaysFirm M (Machine.perform sem args cs p c) := by
  intro cs
  induction cs with
  | nil => intro p c h; exact h
  | cons x cs ih =>
    intro p c h
    obtain ⟨ph, a⟩ := x
    unfold Machine.perform
    have := hS.actions a args p c.world
    revert this
    cases sem.action a args p c.world with
    | ok u p' w => intro _; exact ih p' (h.other rfl rfl rfl)
    | throw k p' w => intro _; exact h.other rfl rfl rfl
    | ub => intro h; exact absurd rfl h

theorem take (h : Firm M c) (hS : SafeG M sem) {r : Nat}
    (hr : r < (M.declaredInitials M.root).length) (ev : EventTy) (d : Dep) (cd : Cand) (t : XRow)
    {l : Name × StTy} (hl : l.1 ∈ M.composites) (p : P) : StaysFirm M (M.take sem r ev d cd t l p c) := by
  unfold Machine.take
  refine Res.Sat.bind (h.travel hS hr t hl) fun _ c h => ?_
  split
  · exact h
  · rw [if_pos (present hS _ _)]
    exact perform hS _ _ _ h

theorem ask (h : Firm M c) (hS : SafeG M sem) (ev : EventTy) (d : Dep) (cd : Cand) (t : XRow)
    (l : Name × StTy) (p : P) : StaysFirm M (M.ask sem ev d cd t l p c) := by
  unfold Machine.ask
  split
  · exact h
  · rename_i g _
    dsimp only
    rw [present hS, present hS, Bool.and_self, if_pos rfl]
    have := hS.guards g ⟨ev, cd.src, if t.internal then cd.src else l.2, false, d⟩ p c.world
    revert this
    cases sem.guard g ⟨ev, cd.src, if t.internal then cd.src else l.2, false, d⟩ p c.world with
    | ok b p' w => intro _; exact h.other rfl rfl rfl
    | throw k p' w => intro _; exact h.other rfl rfl rfl
    | ub => intro h; exact absurd rfl h

theorem attempt (hS : SafeG M sem) (anon : Bool) {r : Nat}
    (hr : r < (M.declaredInitials M.root).length) (ev : EventTy) : ∀ (cs : List (Dep × Cand)),
    (∀ x ∈ cs, (anon = false ∧ x.2 = .defer) ∨ ∃ t l, x.2.row? = some t ∧ M.targetLoc t = some l ∧
      l.1 ∈ M.composites) →
    ∀ (p : P) {c : Conf P W}, Firm M c → StaysFirm M (M.attempt sem anon r ev cs p c) := by
  intro cs
  induction cs with
  | nil => intro _ p c h; exact h
  | cons x cs ih =>
    intro hcs p c h
    have ih := ih fun x hx => hcs x (by simp [hx])
    obtain ⟨d, cd⟩ := x
    unfold Machine.attempt
    rcases hcs (d, cd) (by simp) with ⟨rfl, h2⟩ | ⟨t, l, h1, h2, h3⟩
    · dsimp only at h2
      subst h2
      exact h.other rfl rfl rfl
    · dsimp only at h1
      rw [h1]
      dsimp only
      rw [h2]
      dsimp only
      refine Res.Sat.bind (h.ask hS ev d cd t l p) fun a c h => ?_
      split
      · exact Res.Sat.bind (h.take hS hr ev d cd t h3 a.2) fun _ c h => h
      · exact ih a.2 h

theorem visitG (hM : M.RegularG) (hS : SafeG M sem) (h : Firm M c) {anon : Bool} {r : Nat}
    (hr : r < (M.declaredInitials M.root).length) {ev : EventTy}
    (ha : anon = true → ev = .none ∧ M.anonymous = true) (p : P) :
    StaysFirm M (M.visitG sem anon r ev p c) := by
  unfold Machine.visitG
  obtain ⟨l, h1, h2⟩ := h.seek hr
  rw [h1]
  show StaysFirm M (if _ then _ else _)
  rw [if_pos h2]
  split
  · exact h
  · refine attempt hS anon hr ev _ ?_ p h
    rintro ⟨d, cd⟩ hx
    obtain ⟨d', _, hx⟩ := List.mem_flatMap.1 hx
    obtain ⟨cd', hcd, hx⟩ := List.mem_map.1 hx
    cases hx
    rcases Machine.RegularG.cand_loc hM hcd with rfl | ⟨t, ht, hmem, k, hk, _⟩
    · refine Or.inl ⟨?_, rfl⟩
      cases anon with
      | false => rfl
      | true =>
        obtain ⟨rfl, h4⟩ := ha rfl
        exact absurd hcd (hS.noneNotDeferred h4 _ _)
    · exact Or.inr ⟨t, k, ht, hk, hS.targets t hmem k hk⟩

theorem taking (h : Firm M c) (hS : SafeG M sem) :
    ∀ r ∈ M.taking c, r < (M.declaredInitials M.root).length := by
  intro r hr
  have hr := List.mem_range.1 hr
  have := List.length_pos_iff.2 hS.rootInit
  split at hr
  · rename_i ho
    have := h.active ho
    omega
  · omega

theorem sweepG (hM : M.RegularG) (hS : SafeG M sem) (ev : EventTy) : ∀ (rs : List Nat),
    (∀ r ∈ rs, r < (M.declaredInitials M.root).length) → ∀ (os : List RegionOut) (p : P)
    {c : Conf P W}, Firm M c → StaysFirm M (M.sweepG sem ev rs os p c) := by
  intro rs
  induction rs with
  | nil => intro _ os p c h; exact h
  | cons r rs ih =>
    intro hrs os p c h
    unfold Machine.sweepG
    refine Res.Sat.bind (visitG hM hS h (hrs r (by simp)) (by simp) p) fun o c h => ?_
    split
    · exact h
    · exact ih (fun r hr => hrs r (by simp [hr])) _ _ h

theorem roundG (hM : M.RegularG) (hS : SafeG M sem) (hA : M.anonymous = true) : ∀ (rs : List Nat),
    (∀ r ∈ rs, r < (M.declaredInitials M.root).length) → ∀ (os : List RegionOut)
    {c : Conf P W}, Firm M c → StaysFirm M (M.roundG sem rs os c) := by
  intro rs
  induction rs with
  | nil => intro _ os c h; exact h
  | cons r rs ih =>
    intro hrs os c h
    unfold Machine.roundG
    refine Res.Sat.bind (visitG hM hS h (hrs r (by simp)) (fun _ => ⟨rfl, hA⟩) _) fun o c h => ?_
    split
    · exact h
    · exact ih (fun r hr => hrs r (by simp [hr])) _ h

theorem settleG (hM : M.RegularG) (hS : SafeG M sem) (hA : M.anonymous = true) (fuel : Nat) :
    ∀ {c : Conf P W}, Firm M c → StaysFirm M (M.settleG sem fuel c) := by
  induction fuel with
  | zero => intro c _; trivial
  | succ n ih =>
    intro c h
    unfold Machine.settleG
    refine Res.Sat.bind (roundG hM hS hA _ (h.taking hS) [] h) fun a c h => ?_
    split
    · exact ih h
    · exact h

theorem handleG (hM : M.RegularG) (hS : SafeG M sem) (h : Firm M c) (fuel : Nat) (ev : EventTy) (p : P) :
    StaysFirm M (M.handleG sem fuel ev p c) := by
  unfold Machine.handleG
  refine Res.Sat.bind (sweepG hM hS ev _ (h.taking hS) [] p h) fun a c h => ?_
  split
  · rename_i hc
    exact Res.Sat.bind (settleG hM hS hc.2.2 fuel h) fun _ c h => h
  · exact h

theorem complain (hS : SafeG M sem) (h : Firm M c) (ev : EventTy) (p : P) :
    StaysFirm M (M.complain sem ev p c) := by
  unfold Machine.complain
  split
  · exact h
  · rename_i k _
    obtain ⟨l, h1, h2⟩ := h.seek (r := 0) (List.length_pos_iff.2 hS.rootInit)
    rw [h1]
    show StaysFirm M (if _ then _ else _)
    rw [if_pos h2, if_pos (present hS _ _)]
    have := hS.handlers k ev l.2 c.first p c.world
    revert this
    cases sem.handler k ev l.2 c.first p c.world with
    | ok b p' w => intro _; exact h.other rfl rfl rfl
    | throw k p' w => intro _; exact h.other rfl rfl rfl
    | ub => intro h; exact absurd rfl h

theorem execG (hM : M.RegularG) (hS : SafeG M sem) (h : Firm M c) (fuel : Nat) (op : OpG P) :
    StaysFirm M (M.execG sem fuel op c) := by
  cases op with
  | process ev p =>
    show StaysFirm M (M.receiveG sem fuel ev p c)
    unfold Machine.receiveG
    refine Res.Sat.bind (handleG hM hS h fuel ev p) fun a c h => ?_
    split
    · exact complain hS h ev a.2
    · unfold Machine.replayG
      split
      · exact h
      · split
        · rename_i e q l _ _
          exact Res.Sat.bind (handleG (c := { c with waiting := l }) hM hS (h.other rfl rfl rfl) fuel e q)
            fun _ c h => h
        · exact h
  | setDependency d => exact h.other rfl rfl rfl

theorem fresh (hM : M.RegularG) (hS : SafeG M sem) (d : Dep) (w : W) :
    Firm M (M.fresh d w : Conf P W) := by
  have hroot : M.root ∈ M.composites := hM.laid.root_mem
  have hn : M.slotCount ≤ (M.declaredInitials M.root).length := by
    unfold Machine.slotCount
    generalize hl : (M.composites.map fun p => (M.declaredInitials p).length) = l
    have hl : ∀ x ∈ l, x ≤ (M.declaredInitials M.root).length := by
      subst hl
      intro x hx
      obtain ⟨p, hp, rfl⟩ := List.mem_map.1 hx
      exact hS.regions p hp
    have key : ∀ (l : List Nat) (a k : Nat), (∀ x ∈ l, x ≤ k) → a ≤ k → l.foldl max a ≤ k := by
      intro l
      induction l with
      | nil => intro a k _ h; exact h
      | cons x l ih =>
        intro a k hl h
        exact ih _ k (fun y hy => hl y (by simp [hy])) (Nat.max_le.2 ⟨h, hl x (by simp)⟩)
    exact key l 0 _ hl (Nat.zero_le _)
  have he : (M.fresh d w : Conf P W).slots =
      (M.declaredInitials M.root).map fun i => some (M.root, StTy.st i) := by
    unfold Machine.fresh
    dsimp only
    rw [Nat.sub_eq_zero_of_le hn]
    simp
  refine ⟨by rw [he, List.length_map], ?_, ?_, fun _ => Nat.le_refl _⟩
  · rw [he]
    intro x hx
    obtain ⟨i, _, rfl⟩ := List.mem_map.1 hx
    exact ⟨_, rfl, hroot⟩
  · intro hH p hp
    unfold Machine.fresh
    dsimp only
    refine ⟨by rw [List.length_map]; exact hS.history hH p hp, ?_⟩
    intro l hl
    obtain ⟨i, _, rfl⟩ := List.mem_map.1 hl
    exact hp

end Firm

/-- Machine objects of safe machines depict configurations in which everything is in place. -/
theorem RunToG.firm (hM : M.RegularG) (hS : SafeG M sem) {d : Dep} {ops : List (OpG P)} {s : SM P W}
    (h : RunToG M sem d ops s) : ∃ c, DepictsG M c s ∧ Firm M c := by
  induction h with
  | @init w s h => exact ⟨_, (C82_construct (P := P) hM d w).2.2 s h, Firm.fresh hM hS d w⟩
  | @ok s t ops op fuel hr hop h ih =>
    obtain ⟨c, hc, hf⟩ := ih
    have hs := C82_step (sem := sem) hc hM hS.scopes fuel hop
    have he := Firm.execG hM hS hf fuel op
    rw [h] at hs
    revert he
    revert hs
    cases M.execG sem fuel op c <;> intro hs he <;> first | exact hs.elim | exact ⟨_, hs.2, he⟩
  | @throw s t ops op fuel x hr hop h ih =>
    obtain ⟨c, hc, hf⟩ := ih
    have hs := C82_step (sem := sem) hc hM hS.scopes fuel hop
    have he := Firm.execG hM hS hf fuel op
    rw [h] at hs
    revert he
    revert hs
    cases M.execG sem fuel op c <;> intro hs he <;> first | exact hs.elim | exact ⟨_, hs.2, he⟩
  | @world s ops hr w ih =>
    obtain ⟨c, hc, hf⟩ := ih
    exact ⟨{ c with world := w }, { hc with world := rfl }, hf.other rfl rfl rfl⟩

/-- C63 for all safe machines the amalgamated header accepts: the constructor returns, and after any
history no call runs into undefined behaviour. -/
theorem C63_all_partial (hM : M.RegularG) (hS : SafeG M sem) :
    (∀ d w, ∃ s : SM P W, constructG M d w = .ok s) ∧
    ∀ d ops (s : SM P W), RunToG M sem d ops s →
      (∀ fuel op, OpOkG M op → (stepG M sem fuel op s).Defined) ∧
      (∀ st, (isState M st s).Defined) ∧ (∀ p, (parentIs M p s).Defined) ∧
      (∀ r p st, (isRegion M r p st s).Defined) ∧ (status M s).Defined := by
  refine ⟨fun d w => (C82_construct (P := P) hM d w).1.2 ⟨hS.scopes, fun _ => hS.rootInit⟩, ?_⟩
  intro d ops s hr
  obtain ⟨c, hc, hf⟩ := hr.firm hM hS
  have hpos := List.length_pos_iff.2 hS.rootInit
  refine ⟨?_, observers_defined (n := (M.declaredInitials M.root).length) ?_ hpos ?_ ?_⟩
  · intro fuel op hop u hu
    have := ((C82_undefined (sem := sem) hc hM hS.scopes fuel hop).1 u).1 hu
    exact (Firm.execG hM hS hf fuel op).defined u this
  · rw [hc.cur, List.length_map]; exact hf.length
  · intro r hr
    have hr' : r < c.slots.length := by rw [hf.length]; exact hr
    obtain ⟨l, h1, _⟩ := hf.slots _ (List.getElem_mem hr')
    exact ⟨M.comb l.1 l.2, by rw [hc.cur, List.getElem?_map, List.getElem?_eq_getElem hr', h1]; rfl⟩
  · unfold activeRegions
    split
    · rename_i ho
      rw [hc.regions ho]; exact hf.active ho
    · exact hpos

end

/-! ## Examples -/

namespace Machine

/-- Evaluates `RegularG` for a listed machine. -/
def regularGB (M : Machine) (n : Nat) : Bool :=
  M.isComposite M.root && decide (M.extRows ≠ []) &&
  M.composites.any (fun p => decide (M.declaredInitials p ≠ [])) &&
  (M.extRows ++ M.intRowsG).all (fun t => decide ((sourceLoc t.parent t.source).2 ∈ M.states) &&
    (M.targetLoc t).any fun l => decide (l.2 ∈ M.states)) &&
  M.extRows.all (fun t => (M.defers t.source).all fun e => decide (e ∈ M.eventsG)) &&
  M.rankedB n &&
  M.extRows.all (fun t => decide (plain t.source ≠ .st M.root ∧ t.target ≠ .st M.root)) &&
  decide (M.states.length * M.composites.length < 2 ^ 64)

theorem regularG_ofList {ds : List Decl} {ranks : List Nat}
    (h : (ofList ds ranks).regularGB ds.length = true) : (ofList ds ranks).RegularG := by
  unfold regularGB at h
  simp only [Bool.and_eq_true, decide_eq_true_eq, List.any_eq_true, List.all_eq_true,
    Option.any_eq_true] at h
  obtain ⟨⟨⟨⟨⟨⟨⟨h1, h2⟩, h3⟩, h4⟩, h5⟩, h6⟩, h7⟩, h8⟩ := h
  exact ⟨⟨h1, h2, h3, h4, h5⟩, nesting_ofList h6, h7, h8⟩

/-- Evaluates what `SafeG` asks of a listed machine whose states are all default-constructible. -/
def safeGB (M : Machine) (n : Nat) : Bool :=
  (M.extRows ++ M.intRowsG).all (fun t => decide ((sourceLoc t.parent t.source).1 ∈ M.composites)) &&
  M.extRows.all (fun t => match t.source with
    | .st p => !M.isComposite p || (M.rows p).isEmpty || decide (p ∈ M.composites)
    | .ps _ _ => true) &&
  (M.extRows ++ M.intRowsG).all (fun t => (M.targetLoc t).all fun l => decide (l.1 ∈ M.composites)) &&
  decide (M.declaredInitials M.root ≠ []) &&
  M.composites.all (fun p =>
    decide ((M.declaredInitials p).length ≤ (M.declaredInitials M.root).length)) &&
  (!M.historic || M.composites.all (fun p =>
    decide ((M.declaredInitials p).length = (M.declaredInitials M.root).length))) &&
  M.extRows.all (fun t => decide (EventTy.none ∉ M.defers t.source)) &&
  (List.range n).all (fun s => (M.decl s).defaultCtor)

end Machine

namespace Ex

theorem safeG_of_check {ds : List Decl} {ranks : List Nat} {P W : Type} {sem : Sem P W}
    (h : (Machine.ofList ds ranks).safeGB ds.length = true)
    (hg : ∀ g a p w, sem.guard g a p w ≠ .ub) (ha : ∀ a args p w, sem.action a args p w ≠ .ub)
    (hh : ∀ h e st d p w, sem.handler h e st d p w ≠ .ub) : SafeG (.ofList ds ranks) sem := by
  unfold Machine.safeGB at h
  simp only [Bool.and_eq_true, decide_eq_true_eq, List.all_eq_true, Bool.or_eq_true,
    Bool.not_eq_true'] at h
  obtain ⟨⟨⟨⟨⟨⟨⟨h1, h2⟩, h3⟩, h4⟩, h5⟩, h6⟩, h7⟩, h8⟩ := h
  refine ⟨⟨h1, ?_⟩, ?_, h4, h5, ?_, ?_, ?_, hg, ha, hh⟩
  · intro t ht p hp hc hr
    have := h2 t ht
    rw [hp] at this
    simpa [hc, hr] using this
  · intro t ht l hl
    have := h3 t ht
    rw [hl] at this
    simpa using this
  · intro hH p hp
    rcases h6 with h6 | h6
    · rw [hH] at h6; cases h6
    · exact h6 p hp
  · intro _ p st hc
    unfold Machine.candsG at hc
    simp only [List.mem_append, List.mem_replicate, List.mem_flatMap] at hc
    rcases hc with (⟨hne, _⟩ | ⟨t, _, ht⟩) | ⟨t, _, ht⟩
    · apply hne
      refine List.sum_eq_zero_iff_forall_eq_nat.2 ?_
      intro k hk
      obtain ⟨t, ht, rfl⟩ := List.mem_map.1 hk
      unfold Machine.deferCount
      split
      · exact List.count_eq_zero.2 (h7 t ht)
      · rfl
    · unfold Machine.extCands at ht
      rcases List.mem_append.1 ht with h | h <;> split at h <;> simp at h
    · unfold Machine.intCands at ht
      split at ht <;> simp at ht
  · intro st
    left
    cases st with
    | ps o k => cases k <;> rfl
    | st s =>
      show (ds.getD s {}).defaultCtor = true
      by_cases hs : s < ds.length
      · exact h8 s (List.mem_range.2 hs)
      · rw [List.getD_eq_getElem?_getD, List.getElem?_eq_none (Nat.le_of_not_lt hs)]; rfl

/-- Only the amalgamated header takes this: the initial state 1 has internal rows, which are ignored.
Composite 2 declares one internal row twice; state 3 defers event 1. -/
def bare : Machine := Machine.ofList
  [ { table := some
        [ row (ini 1) (ev 0) none (some 1) (.st 2),
          row (.st 2) (ev 3) none (some 2) (.st 1),
          row (.st 1) (ev 1) none (some 3) (.st 1) ],
      handler := some 50 },
    { itable := some [⟨ev 4, none, some 7⟩] },
    { table := some
        [ row (ini 3) (ev 2) none (some 4) (.st 4),
          row (.st 4) .none (some 100) (some 5) (.st 4) ],
      itable := some [⟨ev 5, some 101, some 6⟩, ⟨ev 5, some 101, some 6⟩] },
    { defer := some [ev 1] }, { } ] [1]

theorem bare_regularG : bare.RegularG := Machine.regularG_ofList (by decide +kernel)

example : ¬ bare.Regular := fun h => by
  have := h.accepts
  revert this
  decide +kernel

/-- Callbacks that write to the event; the world is the list of callbacks that ran, each with the payload
it saw. -/
def scribble (on : Nat → Nat → Bool) : Sem Nat (List (Nat × Nat)) where
  guard g _ p w := .ok (on g p) (p + 1) (w ++ [(g, p)])
  action a _ p w := .ok () (p + 10) (w ++ [(a, p)])
  handler h _ _ _ p w := .ok () p (w ++ [(h, p)])
  alive _ _ := true
  nonePayload := 0

theorem bare_safeG (on : Nat → Nat → Bool) : SafeG bare (scribble on) :=
  safeG_of_check (by decide +kernel) (by intros; simp [scribble]) (by intros; simp [scribble])
    (by intros; simp [scribble])

/-- C82, C62_all_partial and C63_all_partial apply to `bare` with callbacks that write to the none event:
the root knows event 4 only by rows that are ignored, so it is none of its events; the guard of the
internal row is asked twice, as the row is there twice; event 1 is deferred, deferred
once more with event 5, and lost with event 2, as state 4 has no rows for it; the anonymous row sees a
new none event. -/
example : EventTy.none ∈ bare.eventsG ∧ ev 4 ∉ bare.eventsG ∧ ev 4 ∈ bare.events ∧
    ((bare.execAllG (scribble fun g p => g == 101 && p == 1) 5
      [.process (ev 0) 0, .process (ev 1) 0, .process (ev 5) 0, .process (ev 2) 0, .process (ev 3) 0]
      (bare.fresh 7 [])).map fun c => (c.slots, c.world)) =
      some ([some (0, .st 1)],
        [(1, 0), (101, 0), (101, 1), (6, 2), (4, 0), (100, 0), (2, 0)]) := by
  decide +kernel

/-- The same by the model of the library. -/
example : ∃ s, RunToG bare (scribble fun g p => g == 101 && p == 1) 7
      [.process (ev 0) 0, .process (ev 1) 0, .process (ev 5) 0, .process (ev 2) 0, .process (ev 3) 0] s ∧
    s.world = [(1, 0), (101, 0), (101, 1), (6, 2), (4, 0), (100, 0), (2, 0)] := by
  obtain ⟨s, h1, h2⟩ := exists_runG (M := bare) (sm := scribble fun g p => g == 101 && p == 1) (fuel := 5)
    (d := 7) (w := []) (ops := [.process (ev 0) 0, .process (ev 1) 0, .process (ev 5) 0,
      .process (ev 2) 0, .process (ev 3) 0])
    (f := fun s => s.world == [(1, 0), (101, 0), (101, 1), (6, 2), (4, 0), (100, 0), (2, 0)])
    (by decide +kernel)
  exact ⟨s, h1, beq_iff_eq.1 h2⟩

/-- The none event is not kept. -/
example : ¬ (scribble fun _ _ => true).KeepsNone := by
  intro h
  have := h.1 0 ⟨.none, .st 0, .st 0, false, 0⟩ 0 [] true 1 [(0, 0)] rfl (by simp [scribble])
  simp [scribble] at this

end Ex

end Hsm
