import Verif.PropsInterp

/-!
# C79: only verdicts matter

Where a machine goes, which callbacks it calls and what it answers are decided by the events it is
sent, by what guards answer and by which callbacks throw.  Nothing else of the client plays a part:
payloads, what actions do, the world.
-/

namespace Hsm

/-! ## Specification -/

/-- What the machine learns from a callback: the answer of a guard, that an action or handler
returned (`some true`), or that it threw (`none`). -/
def Call.verdict {P : Type} : Call P → Option Bool
  | .guard _ _ _ res _ => res
  | .action _ _ _ _ threw _ => if threw then none else some true
  | .handler _ _ _ _ _ threw _ => if threw then none else some true

/-- A call of a callback without the payload (and the ghost). -/
def Call.blank {P : Type} : Call P → Call Unit
  | .guard g args _ res _ => .guard g args () res []
  | .action ph a args _ threw _ => .action ph a args () threw []
  | .handler h e s d _ threw _ => .handler h e s d () threw []

/-- A call of the machine without the payload. -/
def Op.blank {P : Type} : Op P → Op Unit
  | .process ev _ => .process ev ()
  | .set r p st => .set r p st
  | .setDependency d => .setDependency d

/-- An exception without the user's number. -/
def Exn.blank : Exn → Exn
  | .user _ => .user 0
  | .outOfRange => .outOfRange
  | .runtimeError => .runtimeError

/-- A call ends in state `s` and tells the client `o`. -/
def Res.Tells {σ α : Type} (r : Res σ α) (s : σ) (o : α ⊕ Exn) : Prop :=
  (∃ a, r = .ok a s ∧ o = .inl a) ∨ ∃ x, r = .throw x s ∧ o = .inr x.blank

/-- The same places, memory, waiting events, and calls of callbacks. -/
structure SameShape {P P' W W' : Type} (M : Machine) (s : SM P W) (s' : SM P' W') : Prop where
  cur : s.cur = s'.cur
  hist : s.hist = s'.hist
  queue : s.queue.map Prod.fst = s'.queue.map Prod.fst
  regions : M.orthogonal = true → s.regions = s'.regions
  trace : s.trace.map Call.blank = s'.trace.map Call.blank

/-! ## Scripted callbacks -/

/-- Callbacks that do what a script says. -/
def script : Sem Unit (List (Option Bool)) where
  guard _ _ _
    | [] => .ub
    | none :: w => .throw 0 () w
    | some b :: w => .ok b () w
  action _ _ _
    | [] => .ub
    | none :: w => .throw 0 () w
    | some _ :: w => .ok () () w
  handler _ _ _ _ _
    | [] => .ub
    | none :: w => .throw 0 () w
    | some _ :: w => .ok () () w
  alive _ _ := true
  nonePayload := ()

section
variable {P W : Type} {M : Machine} {sem : Sem P W}

/-- The configuration with a script in place of the client. -/
def Conf.strip (c : Conf P W) (w : List (Option Bool)) : Conf Unit (List (Option Bool)) where
  slots := c.slots
  memory := c.memory
  waiting := c.waiting.map fun e => (e.1, ())
  active := c.active
  deps := c.deps
  first := c.first
  world := w
  calls := c.calls.map Call.blank

/-- What `r` (started in `c`) did, `g` does with the script of the verdicts. -/
def Follows {α β : Type} (φ : α → β) (r : Res (Conf P W) α) (c : Conf P W)
    (g : Conf Unit (List (Option Bool)) → Res (Conf Unit (List (Option Bool))) β) : Prop :=
  match r with
  | .ok a c' => ∃ new, c'.calls = c.calls ++ new ∧
      ∀ rest, g (c.strip (new.map Call.verdict ++ rest)) = .ok (φ a) (c'.strip rest)
  | .throw x c' => ∃ new, c'.calls = c.calls ++ new ∧
      ∀ rest, g (c.strip (new.map Call.verdict ++ rest)) = .throw x.blank (c'.strip rest)
  | _ => True

theorem Follows.ok {α β : Type} {φ : α → β} {a : α} {c c' : Conf P W}
    {g : Conf Unit (List (Option Bool)) → Res (Conf Unit (List (Option Bool))) β}
    (hc : c'.calls = c.calls) (h : ∀ w, g (c.strip w) = .ok (φ a) (c'.strip w)) :
    Follows φ (.ok a c') c g :=
  ⟨[], by rw [hc, List.append_nil], fun rest => h rest⟩

theorem Follows.throw {α β : Type} {φ : α → β} {x : Exn} {c c' : Conf P W}
    {g : Conf Unit (List (Option Bool)) → Res (Conf Unit (List (Option Bool))) β}
    (hc : c'.calls = c.calls) (h : ∀ w, g (c.strip w) = .throw x.blank (c'.strip w)) :
    Follows φ (.throw x c') c g :=
  ⟨[], by rw [hc, List.append_nil], fun rest => h rest⟩

theorem Follows.bind {α β α' β' : Type} {φ : α → β} {φ' : α' → β'} {r : Res (Conf P W) α}
    {c : Conf P W} {g : Conf Unit (List (Option Bool)) → Res (Conf Unit (List (Option Bool))) β}
    {f : α → Conf P W → Res (Conf P W) α'}
    {f' : β → Conf Unit (List (Option Bool)) → Res (Conf Unit (List (Option Bool))) β'}
    (h : Follows φ r c g) (hf : ∀ a c, Follows φ' (f a c) c (f' (φ a))) :
    Follows φ' (r.bind f) c (fun c => (g c).bind f') := by
  cases r with
  | ub u => trivial
  | timeout => trivial
  | throw x c1 =>
    obtain ⟨n1, h1, h2⟩ := h
    exact ⟨n1, h1, fun rest => by show (g _).bind f' = _; rw [h2]; rfl⟩
  | ok a c1 =>
    obtain ⟨n1, h1, h2⟩ := h
    have h3 := hf a c1
    show Follows φ' (f a c1) c _
    cases hr : f a c1 with
    | ub u => trivial
    | timeout => trivial
    | throw x c2 =>
      rw [hr] at h3
      obtain ⟨n2, h3, h4⟩ := h3
      refine ⟨n1 ++ n2, by rw [h3, h1, List.append_assoc], fun rest => ?_⟩
      show (g _).bind f' = _
      rw [List.map_append, List.append_assoc, h2]
      exact h4 rest
    | ok b c2 =>
      rw [hr] at h3
      obtain ⟨n2, h3, h4⟩ := h3
      refine ⟨n1 ++ n2, by rw [h3, h1, List.append_assoc], fun rest => ?_⟩
      show (g _).bind f' = _
      rw [List.map_append, List.append_assoc, h2]
      exact h4 rest

namespace Machine

theorem seek_follows (r : Nat) (c : Conf P W) : Follows id (seek r c) c (seek r) := by
  unfold seek
  cases h : c.slots[r]? with
  | none => trivial
  | some o =>
    cases o with
    | none => trivial
    | some l => exact .ok rfl fun w => by simp only [Conf.strip, h]; rfl

theorem put_follows (r : Nat) (l : Name × StTy) (c : Conf P W) :
    Follows id (put r l c) c (put r l) := by
  unfold put
  by_cases h : r < c.slots.length
  · rw [if_pos h]
    exact .ok rfl fun w => by rw [if_pos (show r < (c.strip w).slots.length from h)]; rfl
  · rw [if_neg h]; trivial

theorem recount_follows (c : Conf P W) : Follows id (M.recount c) c M.recount := by
  unfold recount
  cases M.orthogonal with
  | false => exact .ok rfl fun w => rfl
  | true =>
    simp only [if_true]
    refine (seek_follows 0 c).bind fun l c => ?_
    dsimp only [id]
    by_cases h : l.1 ∈ M.composites
    · simp only [if_pos h]; exact .ok rfl fun w => rfl
    · simp only [if_neg h]; trivial

theorem travel_follows (r : Nat) (t : XRow) (l : Name × StTy) (c : Conf P W) :
    Follows id (M.travel r t l c) c (M.travel r t l) := by
  unfold travel
  by_cases hi : t.internal = true
  · simp only [if_pos hi]; exact .ok rfl fun w => rfl
  simp only [if_neg hi]
  by_cases hh : M.historic = true
  · simp only [if_pos hh]
    refine Follows.bind (φ := id) ?_ fun _ c => Follows.bind (φ := id) ?_ fun _ c => recount_follows c
    · unfold remember
      refine (seek_follows 0 c).bind fun l0 c => (seek_follows r c).bind fun l c => ?_
      dsimp only [id]
      by_cases h : l0.1 ∈ M.composites ∧ r < (c.memory l0.1).length
      · rw [if_pos h]
        exact .ok rfl fun w => by
          rw [if_pos (show l0.1 ∈ M.composites ∧ r < ((c.strip w).memory l0.1).length from h)]
          rfl
      · rw [if_neg h]; trivial
    · by_cases ht : toHistory t.target = true
      · simp only [if_pos ht]
        refine Follows.bind (φ := id) ?_ fun l c => put_follows r l c
        unfold recall
        by_cases hl : l.1 ∈ M.composites
        · simp only [if_pos hl]
          cases hm : (c.memory l.1)[r]? with
          | none => trivial
          | some l' => exact .ok rfl fun w => by simp only [Conf.strip, hm]; rfl
        · simp only [if_neg hl]; trivial
      · simp only [if_neg ht]; exact put_follows r l c
  · simp only [if_neg hh]
    exact (put_follows r l c).bind fun _ c => recount_follows c

theorem ask_follows (ev : EventTy) (d : Dep) (cd : Cand) (t : XRow) (l : Name × StTy) (p : P)
    (c : Conf P W) :
    Follows (fun a => (a.1, ())) (M.ask sem ev d cd t l p c) c (M.ask script ev d cd t l ()) := by
  unfold ask
  cases t.guard with
  | none => exact .ok rfl fun w => rfl
  | some g =>
    dsimp only
    generalize (if t.internal then cd.src else l.2) = dst
    split
    · have hp : ∀ st (c : Conf Unit (List (Option Bool))), M.present script st c = true := fun st c => by
        unfold present script; simp
      simp only [hp, Bool.and_self, if_true]
      cases sem.guard g ⟨ev, cd.src, dst, false, d⟩ p c.world with
      | ok b p' w => exact ⟨[_], rfl, fun rest => by simp [Conf.strip, script, Call.verdict, Call.blank]⟩
      | throw k p' w =>
        exact ⟨[_], rfl, fun rest => by simp [Conf.strip, script, Call.verdict, Call.blank, Exn.blank]⟩
      | ub => trivial
    · trivial

/-- One callback. -/
def once {P W : Type} (sem : Sem P W) (args : Args) (ph : Phase) (a : Cb) (p : P) (c : Conf P W) :
    Res (Conf P W) P :=
  match sem.action a args p c.world with
  | .ok _ p' w => .ok p' { c with world := w, calls := c.calls ++ [.action ph a args p false []] }
  | .throw k _ w =>
    .throw (.user k) { c with world := w, calls := c.calls ++ [.action ph a args p true []] }
  | .ub => .ub .callback

theorem perform_cons {P W : Type} (sem : Sem P W) (args : Args) (ph : Phase) (a : Cb)
    (as : List (Phase × Cb)) (p : P) (c : Conf P W) : perform sem args ((ph, a) :: as) p c =
      (once sem args ph a p c).bind (perform sem args as) := by
  unfold once
  rw [perform]
  cases sem.action a args p c.world <;> rfl

theorem perform_follows (args : Args) : ∀ (cs : List (Phase × Cb)) (p : P) (c : Conf P W),
    Follows (fun _ => ()) (perform sem args cs p c) c (perform script args cs ()) := by
  intro cs
  induction cs with
  | nil => intro p c; exact .ok rfl fun w => rfl
  | cons x cs ih =>
    intro p c
    obtain ⟨ph, a⟩ := x
    have h : Follows (fun _ : P => ()) (once sem args ph a p c) c (once script args ph a ()) := by
      unfold once
      cases sem.action a args p c.world with
      | ok b p' w => exact ⟨[_], rfl, fun rest => by simp [Conf.strip, script, Call.verdict, Call.blank]⟩
      | throw k p' w =>
        exact ⟨[_], rfl, fun rest => by simp [Conf.strip, script, Call.verdict, Call.blank, Exn.blank]⟩
      | ub => trivial
    have e : perform script args ((ph, a) :: cs) () = fun c =>
        (once script args ph a () c).bind (perform script args cs) :=
      funext fun c => perform_cons script args ph a cs () c
    rw [perform_cons, e]
    exact h.bind ih

theorem take_follows (r : Nat) (ev : EventTy) (d : Dep) (cd : Cand) (t : XRow) (l : Name × StTy)
    (p : P) (c : Conf P W) :
    Follows (fun _ => ()) (M.take sem r ev d cd t l p c) c (M.take script r ev d cd t l ()) := by
  unfold take
  refine (travel_follows r t l c).bind fun _ c => ?_
  cases M.toRun t with
  | none => exact .ok rfl fun w => rfl
  | some cs =>
    dsimp only
    split
    · have hp : ∀ st (c : Conf Unit (List (Option Bool))), M.present script st c = true := fun st c => by
        unfold present script; simp
      simp only [hp, if_true]
      exact perform_follows _ cs p c
    · trivial

theorem attempt_follows (anon : Bool) (r : Nat) (ev : EventTy) : ∀ (cs : List (Dep × Cand)) (p : P)
    (c : Conf P W), Follows (fun a => (a.1, ())) (M.attempt sem anon r ev cs p c) c
      (M.attempt script anon r ev cs ()) := by
  intro cs
  induction cs with
  | nil => intro p c; exact .ok rfl fun w => rfl
  | cons x cs ih =>
    intro p c
    obtain ⟨d, cd⟩ := x
    have e : M.attempt script anon r ev ((d, cd) :: cs) () = fun c =>
        match cd.row? with
        | none =>
          if anon then .ub .nullTransition
          else .ok (.deferred, ()) { c with waiting := c.waiting ++ [(ev, ())] }
        | some t =>
          match M.targetLoc t with
          | none => .ub .nullTransition
          | some l =>
            (M.ask script ev d cd t l () c).bind fun a c =>
              if a.1 then (M.take script r ev d cd t l a.2 c).bind fun p c => .ok (.fired, p) c
              else M.attempt script anon r ev cs a.2 c := funext fun c => by rw [attempt]; rfl
    rw [e, attempt]
    clear e
    cases cd.row? with
    | none =>
      cases anon with
      | true => trivial
      | false =>
        exact .ok rfl fun w => by simp [Conf.strip]
    | some t =>
      dsimp only
      cases M.targetLoc t with
      | none => trivial
      | some l =>
        refine (ask_follows ev d cd t l p c).bind fun a c => ?_
        dsimp only
        by_cases ha : a.1 = true
        · simp only [if_pos ha]
          exact (take_follows r ev d cd t l a.2 c).bind fun p c => .ok rfl fun w => rfl
        · simp only [if_neg ha]
          exact ih a.2 c

theorem visit_follows (anon : Bool) (r : Nat) (ev : EventTy) (p : P) (c : Conf P W) :
    Follows (fun a => (a.1, ())) (M.visit sem anon r ev p c) c (M.visit script anon r ev ()) := by
  unfold visit
  refine (seek_follows r c).bind fun l c => ?_
  dsimp only [id]
  split
  · split
    · exact .ok rfl fun w => rfl
    · exact attempt_follows anon r ev _ p c
  · trivial

theorem sweep_follows (ev : EventTy) : ∀ (rs : List Nat) (os : List RegionOut) (p : P)
    (c : Conf P W), Follows (fun a => (a.1, ())) (M.sweep sem ev rs os p c) c
      (M.sweep script ev rs os ()) := by
  intro rs
  induction rs with
  | nil => intro os p c; exact .ok rfl fun w => rfl
  | cons r rs ih =>
    intro os p c
    unfold sweep
    refine (visit_follows false r ev p c).bind fun o c => ?_
    dsimp only
    split
    · exact .ok rfl fun w => rfl
    · exact ih _ o.2 c

theorem round_follows : ∀ (rs : List Nat) (os : List RegionOut) (p : P)
    (c : Conf P W), Follows (fun a => (a.1, ())) (M.round sem rs os p c) c
      (M.round script rs os ()) := by
  intro rs
  induction rs with
  | nil => intro os p c; exact .ok rfl fun w => rfl
  | cons r rs ih =>
    intro os p c
    unfold round
    refine (visit_follows true r .none p c).bind fun o c => ?_
    dsimp only
    split
    · exact .ok rfl fun w => rfl
    · exact ih _ o.2 c

theorem settle_follows : ∀ (fuel : Nat) (p : P) (c : Conf P W),
    Follows id (M.settle sem fuel p c) c (M.settle script fuel ()) := by
  intro fuel
  induction fuel with
  | zero => intro p c; trivial
  | succ fuel ih =>
    intro p c
    unfold settle
    refine (round_follows (M.taking c) [] p c).bind fun a c => ?_
    dsimp only
    split
    · exact ih a.2 c
    · exact .ok rfl fun w => rfl

theorem handle_follows (fuel : Nat) (ev : EventTy) (p : P) (c : Conf P W) :
    Follows (fun a => (a.1, ())) (M.handle sem fuel ev p c) c (M.handle script fuel ev ()) := by
  unfold handle
  refine (sweep_follows ev (M.taking c) [] p c).bind fun a c => ?_
  dsimp only
  split
  · exact (settle_follows fuel sem.nonePayload c).bind fun _ c => .ok rfl fun w => rfl
  · exact .ok rfl fun w => rfl

theorem complain_follows (ev : EventTy) (p : P) (c : Conf P W) :
    Follows id (M.complain sem ev p c) c (M.complain script ev ()) := by
  unfold complain
  cases (M.decl M.root).handler with
  | none => exact .ok rfl fun w => rfl
  | some h =>
    refine (seek_follows 0 c).bind fun l c => ?_
    dsimp only [id]
    by_cases hl : l.1 ∈ M.composites
    · simp only [if_pos hl]
      split
      · have hp : ∀ st (c : Conf Unit (List (Option Bool))), M.present script st c = true :=
          fun st c => by unfold present script; simp
        simp only [hp, if_true]
        cases sem.handler h ev l.2 c.first p c.world with
        | ok b p' w =>
          exact ⟨[_], rfl, fun rest => by simp [Conf.strip, script, Call.verdict, Call.blank]⟩
        | throw k p' w =>
          exact ⟨[_], rfl, fun rest => by
            simp [Conf.strip, script, Call.verdict, Call.blank, Exn.blank]⟩
        | ub => trivial
      · trivial
    · simp only [if_neg hl]
      exact .throw rfl fun w => rfl

theorem Follows.congr {α β : Type} {φ : α → β} {r : Res (Conf P W) α} {c c0 : Conf P W}
    {g g' : Conf Unit (List (Option Bool)) → Res (Conf Unit (List (Option Bool))) β}
    (h : Follows φ r c0 g) (hc : c0.calls = c.calls) (hg : ∀ w, g' (c.strip w) = g (c0.strip w)) :
    Follows φ r c g' := by
  cases r with
  | ub u => trivial
  | timeout => trivial
  | ok a c' =>
    obtain ⟨new, h1, h2⟩ := h
    exact ⟨new, hc ▸ h1, fun rest => (hg _).trans (h2 rest)⟩
  | throw x c' =>
    obtain ⟨new, h1, h2⟩ := h
    exact ⟨new, hc ▸ h1, fun rest => (hg _).trans (h2 rest)⟩

theorem replay_follows (fuel : Nat) (c : Conf P W) :
    Follows id (M.replay sem fuel c) c (M.replay script fuel) := by
  cases hw : c.waiting with
  | nil =>
    rw [show M.replay sem fuel c = .ok () c by unfold replay; rw [hw]]
    exact .ok rfl fun w => by simp only [replay, Conf.strip, hw]; rfl
  | cons e q =>
    obtain ⟨ev, p⟩ := e
    by_cases hd : M.deferring = true
    · rw [show M.replay sem fuel c = (M.handle sem fuel ev p { c with waiting := q }).bind
        fun _ c => .ok () c by unfold replay; rw [hw]; exact if_pos hd]
      refine Follows.congr ((handle_follows (M := M) (sem := sem) fuel ev p { c with waiting := q }).bind
        (f := fun _ c => .ok () c) (f' := fun _ c => .ok () c) (φ' := id)
        fun _ c => .ok rfl fun w => rfl) rfl fun w => ?_
      simp only [replay, Conf.strip, hw, List.map_cons, if_pos hd]
    · rw [show M.replay sem fuel c = .ok () c by unfold replay; rw [hw]; exact if_neg hd]
      exact .ok rfl fun w => by simp only [replay, Conf.strip, hw, List.map_cons, if_neg hd, id]

theorem receive_follows (fuel : Nat) (ev : EventTy) (p : P) (c : Conf P W) :
    Follows id (M.receive sem fuel ev p c) c (M.receive script fuel ev ()) := by
  unfold receive
  refine (handle_follows fuel ev p c).bind fun a c => ?_
  dsimp only
  split
  · exact .ok rfl fun w => rfl
  · split
    · exact (replay_follows fuel c).bind fun _ c => .ok rfl fun w => rfl
    · split
      · exact .ok rfl fun w => rfl
      · exact (complain_follows ev a.2 c).bind fun _ c => .ok rfl fun w => rfl

theorem exec_follows (fuel : Nat) (op : Op P) (c : Conf P W) :
    Follows id (M.exec sem fuel op c) c (M.exec script fuel op.blank) := by
  cases op with
  | process ev p => exact receive_follows fuel ev p c
  | set r p st =>
    show Follows id (if _ then _ else _) c _
    by_cases h : r % 256 < c.slots.length
    · rw [if_pos h]
      exact .ok rfl fun w => if_pos (show r % 256 < (c.strip w).slots.length from h)
    · rw [if_neg h]
      exact .throw rfl fun w => if_neg (show ¬ r % 256 < (c.strip w).slots.length from h)
  | setDependency d => exact .ok rfl fun w => rfl

/-! ## Fuel -/

theorem settle_extends {f f' : Nat} (hf : f ≤ f') (p : P) (c : Conf P W) :
    Extends (M.settle sem f p c) (M.settle sem f' p c) := by
  induction f generalizing f' p c with
  | zero => exact Or.inl rfl
  | succ f ih =>
    obtain ⟨f', rfl⟩ : ∃ n, f' = n + 1 := ⟨f' - 1, by omega⟩
    unfold settle
    refine (Extends.refl _).bind fun a c => ?_
    split
    · exact ih (by omega) _ _
    · exact .refl _

theorem handle_extends {f f' : Nat} (hf : f ≤ f') (ev : EventTy) (p : P) (c : Conf P W) :
    Extends (M.handle sem f ev p c) (M.handle sem f' ev p c) := by
  unfold handle
  refine (Extends.refl _).bind fun a c => ?_
  split
  · exact (settle_extends hf _ _).bind fun _ _ => .refl _
  · exact .refl _

theorem exec_extends {f f' : Nat} (hf : f ≤ f') (op : Op P) (c : Conf P W) :
    Extends (M.exec sem f op c) (M.exec sem f' op c) := by
  cases op with
  | process ev p =>
    show Extends (M.receive sem f ev p c) (M.receive sem f' ev p c)
    unfold receive
    refine (handle_extends hf ev p c).bind fun a c => ?_
    split
    · exact .refl _
    · split
      · refine Extends.bind ?_ fun _ _ => .refl _
        unfold replay
        split
        · exact .refl _
        · split
          · exact (handle_extends hf _ _ _).bind fun _ _ => .refl _
          · exact .refl _
      · split <;> exact .refl _
  | set r p st => exact .refl _
  | setDependency d => exact .refl _

theorem execAll_append (fuel : Nat) (ops ops' : List (Op P)) (c : Conf P W) :
    M.execAll sem fuel (ops ++ ops') c = (M.execAll sem fuel ops c).bind (M.execAll sem fuel ops') := by
  induction ops generalizing c with
  | nil => rfl
  | cons op ops ih =>
    rw [List.cons_append, execAll, execAll]
    cases M.exec sem fuel op c <;> first | exact ih _ | rfl

end Machine

/-! ## Histories -/

/-- One call after a history, as the scripted machine does it. -/
theorem exec_scripted {op : Op P} {fuel : Nat} {c c' : Conf P W} {o : Bool ⊕ Exn}
    (h : (M.exec sem fuel op c).Tells c' o) :
    ∃ new, c'.calls = c.calls ++ new ∧ ∀ rest f, fuel ≤ f →
      (∃ b, M.exec script f op.blank (c.strip (new.map Call.verdict ++ rest)) = .ok b (c'.strip rest) ∧
        o = .inl b) ∨
      ∃ x, M.exec script f op.blank (c.strip (new.map Call.verdict ++ rest)) = .throw x (c'.strip rest) ∧
        o = .inr x := by
  have hf := Machine.exec_follows (M := M) (sem := sem) fuel op c
  rcases h with ⟨b, h, ho⟩ | ⟨x, h, ho⟩
  · rw [h] at hf
    obtain ⟨new, h1, h2⟩ := hf
    refine ⟨new, h1, fun rest f hle => Or.inl ⟨b, ?_, ho⟩⟩
    rcases Machine.exec_extends (M := M) (sem := script) hle op.blank
      (c.strip (new.map Call.verdict ++ rest)) with he | he
    · rw [h2] at he; cases he
    · rw [he, h2]; rfl
  · rw [h] at hf
    obtain ⟨new, h1, h2⟩ := hf
    refine ⟨new, h1, fun rest f hle => Or.inr ⟨x.blank, ?_, ho⟩⟩
    rcases Machine.exec_extends (M := M) (sem := script) hle op.blank
      (c.strip (new.map Call.verdict ++ rest)) with he | he
    · rw [h2] at he; cases he
    · rw [he, h2]

/-- `c` is what the calls `ops` lead to, and the scripted machine does the same. -/
def Scripted (M : Machine) (d : Dep) (ops : List (Op P)) (c : Conf P W) : Prop :=
  ∃ f0, ∀ rest f, f0 ≤ f → M.execAll script f (ops.map Op.blank)
    (M.fresh d (c.calls.map Call.verdict ++ rest)) = some (c.strip rest)

theorem RunTo.scripted (hM : M.Regular) {d : Dep} {ops : List (Op P)} {s : SM P W}
    (h : RunTo M sem d ops s) : ∃ c, Depicts M c s ∧ Scripted M d ops c := by
  have step : ∀ {s s' : SM P W} {ops : List (Op P)} {op : Op P} {fuel : Nat},
      RunTo M sem d ops s → OpOk M op → (∃ c, Depicts M c s ∧ Scripted M d ops c) →
      ((∃ b, step M sem fuel op s = .ok b s') ∨ ∃ x, step M sem fuel op s = .throw x s') →
      ∃ c, Depicts M c s' ∧ Scripted M d (ops ++ [op]) c := by
    intro s s' ops op fuel hr hop ⟨c, hc, f0, hi⟩ h
    have hs := C77_step (sem := sem) hc hM (hr.scopes hM) fuel hop
    obtain ⟨c', o, hc', hk⟩ : ∃ c' o, Depicts M c' s' ∧ (M.exec sem fuel op c).Tells c' o := by
      revert hs
      rcases h with ⟨b, h⟩ | ⟨x, h⟩ <;> rw [h] <;> cases M.exec sem fuel op c <;> intro hs <;>
        first
        | exact hs.elim
        | exact ⟨_, _, hs.2, Or.inl ⟨_, rfl, rfl⟩⟩
        | exact ⟨_, _, hs.2, Or.inr ⟨_, rfl, rfl⟩⟩
    obtain ⟨new, h1, h2⟩ := exec_scripted hk
    refine ⟨c', hc', max f0 fuel, fun rest f hf => ?_⟩
    rw [h1, List.map_append (l₁ := c.calls), List.append_assoc, List.map_append,
      Machine.execAll_append, hi _ f (by omega)]
    show M.execAll script f [op.blank] _ = _
    rw [Machine.execAll]
    rcases h2 rest f (by omega) with ⟨b, h2, _⟩ | ⟨x, h2, _⟩ <;> rw [h2] <;> rfl
  induction h with
  | @init w s h =>
    exact ⟨_, C77_construct hM h, 0, fun rest f _ => rfl⟩
  | ok hr hop h ih => exact step hr hop ih (Or.inl ⟨_, h⟩)
  | throw hr hop h ih => exact step hr hop ih (Or.inr ⟨_, h⟩)
  | world _ w ih =>
    obtain ⟨c, hc, hi⟩ := ih
    exact ⟨{ c with world := w }, { hc with world := rfl }, hi⟩

theorem Call.verdict_bare (x : Call P) : x.bare.verdict = x.verdict := by cases x <;> rfl

theorem Call.blank_bare (x : Call P) : x.bare.blank = x.blank := by cases x <;> rfl

theorem Depicts.verdicts {c : Conf P W} {s : SM P W} (h : Depicts M c s) :
    c.calls.map Call.verdict = s.trace.map Call.verdict := by
  rw [← h.trace, List.map_map]
  exact List.map_congr_left fun x _ => x.verdict_bare

theorem Depicts.blanks {c : Conf P W} {s : SM P W} (h : Depicts M c s) :
    c.calls.map Call.blank = s.trace.map Call.blank := by
  rw [← h.trace, List.map_map]
  exact List.map_congr_left fun x _ => x.blank_bare

end

section
variable {P P' W W' : Type} {M : Machine} {sem : Sem P W} {sem' : Sem P' W'}

theorem Depicts.sameShape (hM : M.Regular) {c : Conf P W} {s : SM P W} {c' : Conf P' W'} {s' : SM P' W'}
    (h : Depicts M c s) (h' : Depicts M c' s') (he : c.strip [] = c'.strip []) : SameShape M s s' where
  cur := by
    have := congrArg Conf.slots he
    rw [h.cur, h'.cur]
    exact congrArg _ this
  hist := by
    have hm : c.memory = c'.memory := congrArg Conf.memory he
    refine List.ext_getElem? fun i => ?_
    by_cases hi : i < M.nParents
    · obtain ⟨p, hp, rfl⟩ : ∃ p ∈ M.composites, M.parentIdx p = i := by
        refine ⟨M.parents[i], ?_, indexOf_of_getElem (List.getElem?_eq_getElem hi) (nodup_uniq _)
          hM.nParents_small⟩
        rw [Machine.composites_eq]; exact List.getElem_mem hi
      rw [h.hist p hp, h'.hist p hp, hm]
    · rw [List.getElem?_eq_none (by rw [h.histLen]; omega),
        List.getElem?_eq_none (by rw [h'.histLen]; omega)]
  queue := by
    have := congrArg (fun c => c.waiting.map Prod.fst) he
    simp only [Conf.strip, List.map_map] at this
    rw [h.queue, h'.queue]
    exact this
  regions ho := by
    rw [h.regions ho, h'.regions ho]
    exact congrArg Conf.active he
  trace := by
    rw [← h.blanks, ← h'.blanks]
    exact congrArg Conf.calls he

/-- C79: two clients make the same calls, up to the payloads.  If the verdicts of one are the first
verdicts of the other, they are all the verdicts of the other, and both machines are at the same places
and have called the same callbacks. -/
theorem C79 (hM : M.Regular) {d : Dep} {ops : List (Op P)} {s : SM P W} {ops' : List (Op P')}
    {s' : SM P' W'} (h : RunTo M sem d ops s) (h' : RunTo M sem' d ops' s')
    (hops : ops.map Op.blank = ops'.map Op.blank)
    (hv : s.trace.map Call.verdict <+: s'.trace.map Call.verdict) :
    SameShape M s s' := by
  obtain ⟨c, hc, f0, hi⟩ := h.scripted hM
  obtain ⟨c', hc', f0', hi'⟩ := h'.scripted hM
  obtain ⟨t, ht⟩ := hv
  rw [← hc.verdicts, ← hc'.verdicts] at ht
  have h1 := hi t (max f0 f0') (by omega)
  have h2 := hi' [] (max f0 f0') (by omega)
  rw [ht, hops] at h1
  rw [List.append_nil, h1] at h2
  have h3 : c.strip t = c'.strip [] := Option.some.inj h2
  have : t = [] := congrArg Conf.world h3
  subst this
  exact hc.sameShape hM hc' h3

/-- C79: the next call then tells both clients the same, if the verdicts agree up to its end. -/
theorem C79_told (hM : M.Regular) {d : Dep} {ops : List (Op P)} {s t : SM P W} {ops' : List (Op P')}
    {s' t' : SM P' W'} (h : RunTo M sem d ops s) (h' : RunTo M sem' d ops' s')
    (hops : ops.map Op.blank = ops'.map Op.blank) {op : Op P} {op' : Op P'}
    (hop : op.blank = op'.blank) (ho : OpOk M op) (ho' : OpOk M op') {fuel fuel' : Nat}
    {o o' : Bool ⊕ Exn} (hr : (step M sem fuel op s).Tells t o)
    (hr' : (step M sem' fuel' op' s').Tells t' o')
    (hv : t.trace.map Call.verdict <+: t'.trace.map Call.verdict) :
    o = o' ∧ SameShape M t t' := by
  refine ⟨?_, ?_⟩
  · have lift : ∀ {P W : Type} {sem : Sem P W} {op : Op P} {ops : List (Op P)} {s t : SM P W}
        {c : Conf P W} {o : Bool ⊕ Exn} {fuel : Nat}, RunTo M sem d ops s → Depicts M c s → OpOk M op →
        (step M sem fuel op s).Tells t o →
        ∃ c', Depicts M c' t ∧ (M.exec sem fuel op c).Tells c' o := by
      intro P W sem op ops s t c o fuel h hc ho hr
      have hs := C77_step (sem := sem) hc hM (h.scopes hM) fuel ho
      revert hs
      rcases hr with ⟨b, h, rfl⟩ | ⟨x, h, rfl⟩ <;> rw [h] <;> cases M.exec sem fuel op c <;> intro hs <;>
        first
        | exact hs.elim
        | exact ⟨_, hs.2, Or.inl ⟨_, rfl, congrArg _ hs.1⟩⟩
        | exact ⟨_, hs.2, Or.inr ⟨_, rfl, congrArg (fun x => Sum.inr (Exn.blank x)) hs.1⟩⟩
    obtain ⟨c, hc, f0, hi⟩ := h.scripted hM
    obtain ⟨c', hc', f0', hi'⟩ := h'.scripted hM
    obtain ⟨e, he, hk⟩ := lift h hc ho hr
    obtain ⟨e', he', hk'⟩ := lift h' hc' ho' hr'
    obtain ⟨new, h1, h2⟩ := exec_scripted hk
    obtain ⟨new', h1', h2'⟩ := exec_scripted hk'
    obtain ⟨u, hu⟩ := hv
    rw [← he.verdicts, ← he'.verdicts, h1, h1'] at hu
    simp only [List.map_append] at hu
    have hf : ∃ f, f0 ≤ f ∧ f0' ≤ f ∧ fuel ≤ f ∧ fuel' ≤ f :=
      ⟨max (max f0 f0') (max fuel fuel'), by omega, by omega, by omega, by omega⟩
    obtain ⟨f, hf1, hf2, hf3, hf4⟩ := hf
    have e1 := hi (new.map Call.verdict ++ u) f hf1
    have e2 := hi' (new'.map Call.verdict) f hf2
    rw [← List.append_assoc, hu, hops, e2] at e1
    have e3 := Option.some.inj e1
    have g1 := h2 u f hf3
    have g2 := h2' [] f hf4
    rw [List.append_nil, e3, ← hop] at g2
    rcases g1 with ⟨b, g1, r1⟩ | ⟨x, g1, r1⟩ <;> rcases g2 with ⟨b', g2, r2⟩ | ⟨x', g2, r2⟩ <;>
      rw [g1] at g2 <;> first | (injection g2 with g2 _; rw [r1, r2, g2]) | cases g2
  · have run : ∀ {P W : Type} {sem : Sem P W} {op : Op P} {ops : List (Op P)} {s t : SM P W}
        {o : Bool ⊕ Exn} {fuel : Nat}, RunTo M sem d ops s → OpOk M op →
        (step M sem fuel op s).Tells t o → RunTo M sem d (ops ++ [op]) t := by
      intro P W sem op ops s t o fuel h ho hr
      rcases hr with ⟨b, hr, _⟩ | ⟨x, hr, _⟩
      · exact .ok h ho hr
      · exact .throw h ho hr
    refine C79 hM (run h ho hr) (run h' ho' hr') ?_ hv
    rw [List.map_append, List.map_append, hops]
    show _ ++ [op.blank] = _ ++ [op'.blank]
    rw [hop]

/-- C79: as long as no guard refuses and nothing throws, every client sees the machine do the same. -/
theorem C79_smooth (hM : M.Regular) {d : Dep} {ops : List (Op P)} {s : SM P W} {ops' : List (Op P')}
    {s' : SM P' W'} (h : RunTo M sem d ops s) (h' : RunTo M sem' d ops' s')
    (hops : ops.map Op.blank = ops'.map Op.blank) (hs : ∀ x ∈ s.trace, x.verdict = some true)
    (hs' : ∀ x ∈ s'.trace, x.verdict = some true) : SameShape M s s' := by
  have rep : ∀ {P : Type} {l : List (Call P)}, (∀ x ∈ l, x.verdict = some true) →
      l.map Call.verdict = List.replicate l.length (some true) := fun {P l} hl =>
    List.eq_replicate_iff.2 ⟨List.length_map _, fun b hb => by
      obtain ⟨x, hx, rfl⟩ := List.mem_map.1 hb
      exact hl x hx⟩
  rcases Nat.le_total s.trace.length s'.trace.length with hle | hle
  · refine C79 hM h h' hops ⟨List.replicate (s'.trace.length - s.trace.length) (some true), ?_⟩
    rw [rep hs, rep hs', List.replicate_append_replicate]
    congr 1
    omega
  · have := C79 hM h' h hops.symm ⟨List.replicate (s.trace.length - s'.trace.length) (some true), by
      rw [rep hs, rep hs', List.replicate_append_replicate]
      congr 1
      omega⟩
    exact ⟨this.cur.symm, this.hist.symm, this.queue.symm, fun ho => (this.regions ho).symm,
      this.trace.symm⟩

end

namespace Ex

/-- A client with a counter for a world, whose guards look at it, and with other payloads. -/
def counting : Sem String Nat where
  guard _ _ p w := .ok (w < 100) (p ++ "!") (w + 1)
  action _ _ p w := .ok () p (w + 2)
  handler _ _ _ _ p w := .ok () p w
  alive _ _ := true
  nonePayload := ""

/-- Two clients as in C79: the verdicts agree, payloads and worlds do not. -/
example :
    (run demo (sem fun _ => true) 5 7 [] [.process (ev 0) 1, .process (ev 1) 2, .process (ev 0) 3]).any
      (fun s => s.trace.map Call.verdict ==
        ((run demo counting 5 7 0 [.process (ev 0) "a", .process (ev 1) "b", .process (ev 0) "c"]).elim []
          fun s => s.trace.map Call.verdict)) = true := by decide +kernel

end Ex

/-- Without the hypothesis on the verdicts C79 is false: another answer of a guard, another place. -/
theorem C79_verdicts_needed : ¬ ∀ (M : Machine), M.Regular → ∀ (sem sem' : Sem Nat (List Nat)) (d : Dep)
    (ops : List (Op Nat)) (s s' : SM Nat (List Nat)), RunTo M sem d ops s → RunTo M sem' d ops s' →
    SameShape M s s' := by
  intro h
  obtain ⟨s, hs, hc⟩ := Ex.exists_run Ex.demo (Ex.sem fun _ => true) (fuel := 5) (d := 7) (w := [])
    (ops := [.process (Ex.ev 0) 1]) (f := fun s => s.cur == [some (Ex.demo.comb 0 (.st 2))])
    (by decide +kernel)
  obtain ⟨s', hs', hc'⟩ := Ex.exists_run Ex.demo (Ex.sem fun _ => false) (fuel := 5) (d := 7) (w := [])
    (ops := [.process (Ex.ev 0) 1]) (f := fun s => s.cur == [some (Ex.demo.comb 3 (.st 4))])
    (by decide +kernel)
  have := (h Ex.demo Ex.demo_regular _ _ 7 _ s s' hs hs').cur
  rw [eq_of_beq hc, eq_of_beq hc'] at this
  revert this
  decide +kernel

end Hsm
