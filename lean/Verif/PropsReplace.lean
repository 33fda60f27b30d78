import Verif.Replace
import Verif.PropsReturn

/-!
# C89: a refined machine can take the place of the other
-/

namespace Hsm

variable {P W α β : Type} {M M' : Machine} {sem : Sem P W} {v v' : StTy → StTy} {d : Dep}

/-! ## A client goes along with what it is said to observe -/

/-- What a client has in mind: the value of the event that is handled, by type; its world; the exception it
threw last; the calls it got; the replies; what it has still to request. -/
structure Mind (P W : Type) where
  payload : EventTy → P
  world : W
  thrown : Option Exn
  calls : List (Call P)
  replies : List Reply
  requests : List (Request P W)

/-- A callback was called with an event of type `e`, whose value is then `p`. -/
def Mind.note (m : Mind P W) (e : EventTy) (p : P) (w : W) (x : Option Exn) (k : Call P) : Mind P W :=
  { m with
    payload := fun e' => if e' = e then p else m.payload e'
    world := w
    thrown := x
    calls := m.calls ++ [k] }

/-- The client `sem` is called; `none` if it would not have behaved that way. -/
def Mind.obey (sem : Sem P W) (d : Dep) (m : Mind P W) : Call Unit → Option (Mind P W)
  | .guard g a _ res _ =>
    match sem.guard g { a with dep := d } (m.payload a.event) m.world, res with
    | .ok b p w, some b' =>
      if b = b' then some (m.note a.event p w none
        (.guard g { a with dep := d } (m.payload a.event) (some b) [])) else none
    | .throw n _ w, none => some (m.note a.event (m.payload a.event) w (some (.user n))
        (.guard g { a with dep := d } (m.payload a.event) none []))
    | _, _ => none
  | .action ph f a _ threw _ =>
    match sem.action f { a with dep := d } (m.payload a.event) m.world, threw with
    | .ok _ p w, false => some (m.note a.event p w none
        (.action ph f { a with dep := d } (m.payload a.event) false []))
    | .throw n _ w, true => some (m.note a.event (m.payload a.event) w (some (.user n))
        (.action ph f { a with dep := d } (m.payload a.event) true []))
    | _, _ => none
  | .handler h e st _ _ threw _ =>
    match sem.handler h e st d (m.payload e) m.world, threw with
    | .ok _ _ w, false => some (m.note e (m.payload e) w none
        (.handler h e st d (m.payload e) false []))
    | .throw n _ w, true => some (m.note e (m.payload e) w (some (.user n))
        (.handler h e st d (m.payload e) true []))
    | _, _ => none

/-- The client sends the next event. -/
def Mind.send (sem : Sem P W) (m : Mind P W) (r : Request P W) (rs : List (Request P W)) : Mind P W :=
  { m with
    payload := fun e => if e = .none then sem.nonePayload else r.payload
    world := r.work m.world
    thrown := none
    requests := rs }

theorem send_none {m : Mind P W} (r : Request P W) (rs : List (Request P W)) :
    (m.send sem r rs).payload .none = sem.nonePayload :=
  if_pos (c := EventTy.none = .none) (e := r.payload) rfl

theorem send_event {m : Mind P W} (r : Request P W) (rs : List (Request P W)) (h : r.event ≠ .none) :
    (m.send sem r rs).payload r.event = r.payload := if_neg h

/-- The client goes along with a sign. -/
def Mind.hear (sem : Sem P W) (d : Dep) (m : Mind P W) : Sign → Option (Mind P W)
  | .event e =>
    match m.requests with
    | [] => none
    | r :: rs => if r.event = e then some (m.send sem r rs) else none
  | .call k => m.obey sem d k
  | .answer b => some { m with replies := m.replies ++ [.ret b] }
  | .exception => some { m with replies := m.replies ++ [.threw (m.thrown.getD .outOfRange)] }

/-- The client goes along with signs. -/
def Mind.hearAll (sem : Sem P W) (d : Dep) : List Sign → Mind P W → Option (Mind P W)
  | [], m => some m
  | s :: ss, m => (m.hear sem d s).bind (hearAll sem d ss)

theorem Mind.hearAll_append (a b : List Sign) (m : Mind P W) :
    Mind.hearAll sem d (a ++ b) m = (Mind.hearAll sem d a m).bind (Mind.hearAll sem d b) := by
  induction a generalizing m with
  | nil => rfl
  | cons s a ih =>
    show (m.hear sem d s).bind _ = ((m.hear sem d s).bind _).bind _
    cases m.hear sem d s with
    | none => rfl
    | some m' => exact ih m'

theorem Mind.hearAll_prefix {a b : List Sign} {m m' : Mind P W} (h : a <+: b)
    (hb : Mind.hearAll sem d b m = some m') : ∃ m1, Mind.hearAll sem d a m = some m1 := by
  obtain ⟨c, rfl⟩ := h
  rw [Mind.hearAll_append] at hb
  cases ha : Mind.hearAll sem d a m with
  | none => rw [ha] at hb; cases hb
  | some m1 => exact ⟨m1, rfl⟩

/-- The beginning. -/
def Mind.start (sem : Sem P W) (w : W) (rs : List (Request P W)) : Mind P W :=
  ⟨fun _ => sem.nonePayload, w, none, [], [], rs⟩

theorem signs_append (a b : List (Call P)) : signs (a ++ b) = signs a ++ signs b := List.map_append

/-- While the client `sem` is served, it has `m` in mind and the machine is at `c`; when the event was
sent, it had `m0` in mind and `pre` were the calls so far. -/
structure Minds (v : StTy → StTy) (sem : Sem P W) (d : Dep) (pre : List (Call P)) (m0 : Mind P W)
    (c : Conf P W) (m : Mind P W) : Prop where
  deps : c.deps = [d]
  first : c.first = d
  since : pre <+: c.calls
  heard : Mind.hearAll sem d ((signs (c.calls.drop pre.length)).map (Sign.seen v)) m0 = some m
  world : c.world = m.world
  calls : c.calls.map (Call.seen v) = m.calls
  replies : m.replies = m0.replies
  requests : m.requests = m0.requests

variable {pre : List (Call P)} {m0 m : Mind P W} {c : Conf P W}

theorem drop_snoc {γ : Type} {a l : List γ} (h : a <+: l) (k : γ) :
    (l ++ [k]).drop a.length = l.drop a.length ++ [k] := by
  obtain ⟨t, rfl⟩ := h
  rw [List.append_assoc]; simp

/-- One call more. -/
theorem Minds.note (h : Minds v sem d pre m0 c m) (k : Call P) {e : EventTy} {p : P} {w : W} {x : Option Exn}
    (hk : m.obey sem d (k.plain.seen v) = some (m.note e p w x (k.seen v))) :
    Minds v sem d pre m0 { c with world := w, calls := c.calls ++ [k] } (m.note e p w x (k.seen v)) where
  deps := h.deps
  first := h.first
  since := h.since.trans (List.prefix_append _ _)
  heard := by
    show Mind.hearAll sem d ((signs ((c.calls ++ [k]).drop pre.length)).map _) m0 = _
    rw [drop_snoc h.since, signs_append, List.map_append, Mind.hearAll_append, h.heard]
    show (m.obey sem d (k.plain.seen v)).bind _ = _
    rw [hk]; rfl
  world := rfl
  calls := by
    show (c.calls ++ [k]).map _ = m.calls ++ [_]
    rw [List.map_append, h.calls]; rfl
  replies := h.replies
  requests := h.requests

/-- Moving. -/
theorem Minds.move {c' : Conf P W} (h : Minds v sem d pre m0 c m) (h1 : c'.deps = c.deps)
    (h2 : c'.first = c.first) (h3 : c'.world = c.world) (h4 : c'.calls = c.calls) :
    Minds v sem d pre m0 c' m where
  deps := h1.trans h.deps
  first := h2.trans h.first
  since := by rw [h4]; exact h.since
  heard := by rw [h4]; exact h.heard
  world := h3.trans h.world
  calls := by rw [h4]; exact h.calls
  replies := h.replies
  requests := h.requests

namespace Machine

end Machine

variable {ev : EventTy}

/-! ### What the client does when it is called -/

section
variable {args : Args} {p : P} {w : W}

theorem obey_guard_ok (ha : args.dep = d) (he : args.event = ev) {g : Cb} {b : Bool}
    (hs : sem.guard g (args.seen v) (m.payload ev) m.world = .ok b p w) :
    m.obey sem d ((Call.guard g args (m.payload ev) (some b) []).plain.seen v) =
      some (m.note ev p w none ((Call.guard g args (m.payload ev) (some b) []).seen v)) := by
  subst ha he
  show (match sem.guard g (args.seen v) (m.payload args.event) m.world, some b with
    | .ok b p w, some b' => if b = b' then _ else none | .throw n _ w, none => _ | _, _ => none) = _
  rw [hs]
  exact if_pos rfl

theorem obey_guard_throw (ha : args.dep = d) (he : args.event = ev) {g : Cb} {n : Nat}
    (hs : sem.guard g (args.seen v) (m.payload ev) m.world = .throw n p w) :
    m.obey sem d ((Call.guard g args (m.payload ev) none []).plain.seen v) =
      some (m.note ev (m.payload ev) w (some (.user n)) ((Call.guard g args (m.payload ev) none []).seen v)) := by
  subst ha he
  show (match sem.guard g (args.seen v) (m.payload args.event) m.world, (none : Option Bool) with
    | .ok b p w, some b' => if b = b' then _ else none | .throw n _ w, none => _ | _, _ => none) = _
  rw [hs]
  rfl

theorem obey_action_ok (ha : args.dep = d) (he : args.event = ev) {ph : Phase} {f : Cb} {u : Unit}
    (hs : sem.action f (args.seen v) (m.payload ev) m.world = .ok u p w) :
    m.obey sem d ((Call.action ph f args (m.payload ev) false []).plain.seen v) =
      some (m.note ev p w none ((Call.action ph f args (m.payload ev) false []).seen v)) := by
  subst ha he
  show (match sem.action f (args.seen v) (m.payload args.event) m.world, false with
    | .ok _ p w, false => _ | .throw n _ w, true => _ | _, _ => none) = _
  rw [hs]
  rfl

theorem obey_action_throw (ha : args.dep = d) (he : args.event = ev) {ph : Phase} {f : Cb} {n : Nat}
    (hs : sem.action f (args.seen v) (m.payload ev) m.world = .throw n p w) :
    m.obey sem d ((Call.action ph f args (m.payload ev) true []).plain.seen v) =
      some (m.note ev (m.payload ev) w (some (.user n))
        ((Call.action ph f args (m.payload ev) true []).seen v)) := by
  subst ha he
  show (match sem.action f (args.seen v) (m.payload args.event) m.world, true with
    | .ok _ p w, false => _ | .throw n _ w, true => _ | _, _ => none) = _
  rw [hs]
  rfl

theorem obey_handler_ok {h : Cb} {st : StTy} {u : Unit}
    (hs : sem.handler h ev (v st) d (m.payload ev) m.world = .ok u p w) :
    m.obey sem d ((Call.handler h ev st d (m.payload ev) false []).plain.seen v) =
      some (m.note ev (m.payload ev) w none ((Call.handler h ev st d (m.payload ev) false []).seen v)) := by
  show (match sem.handler h ev (v st) d (m.payload ev) m.world, false with
    | .ok _ _ w, false => _ | .throw n _ w, true => _ | _, _ => none) = _
  rw [hs]
  rfl

theorem obey_handler_throw {h : Cb} {st : StTy} {n : Nat}
    (hs : sem.handler h ev (v st) d (m.payload ev) m.world = .throw n p w) :
    m.obey sem d ((Call.handler h ev st d (m.payload ev) true []).plain.seen v) =
      some (m.note ev (m.payload ev) w (some (.user n))
        ((Call.handler h ev st d (m.payload ev) true []).seen v)) := by
  show (match sem.handler h ev (v st) d (m.payload ev) m.world, true with
    | .ok _ _ w, false => _ | .throw n _ w, true => _ | _, _ => none) = _
  rw [hs]
  rfl

theorem note_payload (x : Option Exn) (k : Call P) : (m.note ev p w x k).payload ev = p := if_pos rfl

theorem note_other (x : Option Exn) (k : Call P) {q : P} (h : ev ≠ .none → m.payload .none = q) (hne : ev ≠ .none) :
    (m.note ev p w x k).payload .none = q := (if_neg (Ne.symm hne)).trans (h hne)

end

/-- The client is in the middle of a call, and nothing was thrown. -/
structure Going (v : StTy → StTy) (sem : Sem P W) (d : Dep) (pre : List (Call P)) (m0 : Mind P W) (ev : EventTy)
    (c : Conf P W) (m : Mind P W) : Prop extends Minds v sem d pre m0 c m where
  thrown : m.thrown = none
  other : ev ≠ .none → m.payload .none = m0.payload .none

/-- What `r` does goes with what the client has in mind. -/
def Acts (v : StTy → StTy) (sem : Sem P W) (d : Dep) (pre : List (Call P)) (m0 : Mind P W) (ev : EventTy)
    (V : α → P → Prop) : Res (Conf P W) α → Prop
  | .ok a c => ∃ m, Going v sem d pre m0 ev c m ∧ V a (m.payload ev)
  | .throw x c => ∃ m, Minds v sem d pre m0 c m ∧ m.thrown.getD .outOfRange = x
  | .ub _ => True
  | .timeout => True

theorem Acts.bind {V : α → P → Prop} {V' : β → P → Prop} {r : Res (Conf P W) α}
    {f : α → Conf P W → Res (Conf P W) β} (h : Acts v sem d pre m0 ev V r)
    (hf : ∀ a c m, Going v sem d pre m0 ev c m → V a (m.payload ev) → Acts v sem d pre m0 ev V' (f a c)) :
    Acts v sem d pre m0 ev V' (r.bind f) := by
  cases r with
  | ok a c => obtain ⟨m, h1, h2⟩ := h; exact hf a c m h1 h2
  | throw x c => exact h
  | ub _ => trivial
  | timeout => trivial

theorem Going.note (h : Going v sem d pre m0 ev c m) (k : Call P) {p : P} {w : W}
    (hk : m.obey sem d (k.plain.seen v) = some (m.note ev p w none (k.seen v))) :
    Going v sem d pre m0 ev { c with world := w, calls := c.calls ++ [k] } (m.note ev p w none (k.seen v)) :=
  ⟨h.toMinds.note k hk, rfl, note_other _ _ h.other⟩

namespace Machine

theorem perform_acts {args : Args} (ha : args.dep = d) (he : args.event = ev) :
    ∀ (cs : List (Phase × Cb)) {c : Conf P W} {m : Mind P W}, Going v sem d pre m0 ev c m →
    Acts v sem d pre m0 ev (fun a p => a = p) (perform (sem.seen v) args cs (m.payload ev) c)
  | [], c, m, h => ⟨m, h, rfl⟩
  | (ph, a) :: cs, c, m, h => by
    unfold perform
    rw [h.world]
    show Acts _ _ _ _ _ _ _ (match sem.action a (args.seen v) (m.payload ev) m.world with
      | .ok _ p' w => _ | .throw k _ w => _ | .ub => _)
    cases hs : sem.action a (args.seen v) (m.payload ev) m.world with
    | ok u p' w =>
      have := perform_acts ha he cs (h.note _ (obey_action_ok (ph := ph) ha he hs))
      rw [note_payload] at this
      exact this
    | throw n p' w => exact ⟨_, h.toMinds.note _ (obey_action_throw (ph := ph) ha he hs), rfl⟩
    | ub => trivial

theorem travel_acts (r : Nat) (t : XRow) (l : Name × StTy) (h : Going v sem d pre m0 ev c m) :
    Acts v sem d pre m0 ev (fun _ p => p = m.payload ev) (M.travel r t l c) := by
  have hs := travel_sight (M := M) r t l c
  have hf := travel_first (M := M) r t l c
  revert hs hf
  cases M.travel r t l c with
  | ok a c' =>
    rintro ⟨_, _, h2, h3, h4⟩ hf
    exact ⟨m, ⟨h.toMinds.move h2 (hf _ _ rfl) h3 h4, h.thrown, h.other⟩, rfl⟩
  | throw e c' => intro h; exact h.elim
  | ub u => intros; trivial
  | timeout => intros; trivial

theorem ask_acts (cd : Cand) (t : XRow) (l : Name × StTy) (h : Going v sem d pre m0 ev c m) :
    Acts v sem d pre m0 ev (fun a p => a.2 = p) (M.ask (sem.seen v) ev d cd t l (m.payload ev) c) := by
  unfold ask
  cases t.guard with
  | none => exact ⟨m, h, rfl⟩
  | some g =>
    generalize (if t.internal then cd.src else l.2) = dst
    dsimp only
    split
    · generalize hargs : Args.mk ev cd.src dst false d = args
      have ha : args.dep = d := by rw [← hargs]
      have he : args.event = ev := by rw [← hargs]
      rw [h.world]
      show Acts _ _ _ _ _ _ _ (match sem.guard g (args.seen v) (m.payload ev) m.world with
        | .ok _ p' w => _ | .throw k _ w => _ | .ub => _)
      cases hs : sem.guard g (args.seen v) (m.payload ev) m.world with
      | ok u p' w => exact ⟨_, h.note _ (obey_guard_ok ha he hs), (note_payload _ _).symm⟩
      | throw n p' w => exact ⟨_, h.toMinds.note _ (obey_guard_throw ha he hs), rfl⟩
      | ub => trivial
    · trivial

theorem take_acts (r : Nat) (cd : Cand) (t : XRow) (l : Name × StTy) (h : Going v sem d pre m0 ev c m) :
    Acts v sem d pre m0 ev (fun a p => a = p) (M.take (sem.seen v) r ev d cd t l (m.payload ev) c) := by
  unfold take
  refine (travel_acts r t l h).bind fun _ c m' h hp => ?_
  rw [← hp]
  split
  · exact ⟨m', h, rfl⟩
  · split
    · exact perform_acts rfl rfl _ h
    · trivial

theorem attempt_acts (anon : Bool) (r : Nat) : ∀ (cs : List Cand) {c : Conf P W} {m : Mind P W},
    Going v sem d pre m0 ev c m → Acts v sem d pre m0 ev (fun a p => a.2 = p)
      (M.attempt (sem.seen v) anon r ev (cs.map fun cd => (d, cd)) (m.payload ev) c)
  | [], c, m, h => ⟨m, h, rfl⟩
  | cd :: cs, c, m, h => by
    rw [List.map_cons, attempt]
    split
    · split
      · trivial
      · exact ⟨m, ⟨h.toMinds.move rfl rfl rfl rfl, h.thrown, h.other⟩, rfl⟩
    · split
      · trivial
      · refine (ask_acts cd _ _ h).bind fun a c m h hp => ?_
        rw [hp]
        split
        · exact (take_acts r cd _ _ h).bind fun p c m h hp => ⟨m, h, hp⟩
        · exact attempt_acts anon r cs h

theorem visit_acts (anon : Bool) (r : Nat) (h : Going v sem d pre m0 ev c m) :
    Acts v sem d pre m0 ev (fun a p => a.2 = p) (M.visit (sem.seen v) anon r ev (m.payload ev) c) := by
  unfold visit seek
  rcases c.slots[r]? with _ | _ | l
  · trivial
  · trivial
  · show Acts _ _ _ _ _ _ _ (if l.1 ∈ M.composites then _ else _)
    split
    · split
      · exact ⟨m, h, rfl⟩
      · rw [h.deps]
        simp only [List.flatMap_cons, List.flatMap_nil, List.append_nil]
        exact attempt_acts anon r _ h
    · trivial

theorem sweep_acts : ∀ (rs : List Nat) (os : List RegionOut) {c : Conf P W} {m : Mind P W},
    Going v sem d pre m0 ev c m →
    Acts v sem d pre m0 ev (fun a p => a.2 = p) (M.sweep (sem.seen v) ev rs os (m.payload ev) c)
  | [], os, c, m, h => ⟨m, h, rfl⟩
  | r :: rs, os, c, m, h => by
    unfold sweep
    refine (visit_acts false r h).bind fun o c m h hp => ?_
    rw [hp]
    split
    · exact ⟨m, h, rfl⟩
    · exact sweep_acts rs _ h

theorem round_acts : ∀ (rs : List Nat) (os : List RegionOut) {c : Conf P W} {m : Mind P W},
    Going v sem d pre m0 .none c m →
    Acts v sem d pre m0 .none (fun a p => a.2 = p) (M.round (sem.seen v) rs os (m.payload .none) c)
  | [], os, c, m, h => ⟨m, h, rfl⟩
  | r :: rs, os, c, m, h => by
    unfold round
    refine (visit_acts true r h).bind fun o c m h hp => ?_
    rw [hp]
    split
    · exact ⟨m, h, rfl⟩
    · exact round_acts rs _ h

theorem settle_acts : ∀ (fuel : Nat) {c : Conf P W} {m : Mind P W}, Going v sem d pre m0 .none c m →
    Acts v sem d pre m0 .none (fun _ _ => True) (M.settle (sem.seen v) fuel (m.payload .none) c)
  | 0, c, m, h => trivial
  | fuel + 1, c, m, h => by
    unfold settle
    refine (round_acts _ _ h).bind fun a c m h hp => ?_
    rw [hp]
    split
    · exact settle_acts fuel h
    · exact ⟨m, h, trivial⟩

theorem complain_acts (h : Going v sem d pre m0 ev c m) :
    Acts v sem d pre m0 ev (fun _ _ => True) (M.complain (sem.seen v) ev (m.payload ev) c) := by
  unfold complain
  cases (M.decl M.root).handler with
  | none => exact ⟨m, h, trivial⟩
  | some k =>
    dsimp only
    unfold seek
    rcases c.slots[0]? with _ | _ | l
    · trivial
    · trivial
    · show Acts _ _ _ _ _ _ _ (if l.1 ∈ M.composites then _ else _)
      split
      · split
        · rw [h.world, h.first]
          show Acts _ _ _ _ _ _ _ (match sem.handler k ev (v l.2) d (m.payload ev) m.world with
            | .ok _ p' w => _ | .throw k _ w => _ | .ub => _)
          cases hs : sem.handler k ev (v l.2) d (m.payload ev) m.world with
          | ok b p' w =>
            have := h.note _ (obey_handler_ok hs)
            rw [h.first] at this
            exact ⟨_, this, trivial⟩
          | throw n p' w =>
            have := h.toMinds.note _ (obey_handler_throw hs)
            rw [h.first] at this
            exact ⟨_, this, rfl⟩
          | ub => trivial
        · trivial
      · exact ⟨m, h.toMinds, by rw [h.thrown]; rfl⟩

/-- After a whole call. -/
def Serves (v : StTy → StTy) (sem : Sem P W) (d : Dep) (pre : List (Call P)) (m0 : Mind P W) :
    Res (Conf P W) α → Prop
  | .ok _ c => ∃ m, Minds v sem d pre m0 c m ∧ m.thrown = none
  | .throw x c => ∃ m, Minds v sem d pre m0 c m ∧ m.thrown.getD .outOfRange = x
  | .ub _ => True
  | .timeout => True

theorem _root_.Hsm.Acts.serves {V : α → P → Prop} {r : Res (Conf P W) α} (h : Acts v sem d pre m0 ev V r) :
    Serves v sem d pre m0 r := by
  cases r with
  | ok a c => obtain ⟨m, h, _⟩ := h; exact ⟨m, h.toMinds, h.thrown⟩
  | throw x c => exact h
  | ub _ => trivial
  | timeout => trivial

theorem _root_.Hsm.Acts.andThen {V : α → P → Prop} {r : Res (Conf P W) α} {f : α → Conf P W → Res (Conf P W) β}
    (h : Acts v sem d pre m0 ev V r)
    (hf : ∀ a c m, Going v sem d pre m0 ev c m → V a (m.payload ev) → Serves v sem d pre m0 (f a c)) :
    Serves v sem d pre m0 (r.bind f) := by
  cases r with
  | ok a c => obtain ⟨m, h1, h2⟩ := h; exact hf a c m h1 h2
  | throw x c => exact h
  | ub _ => trivial
  | timeout => trivial

theorem replay_off (hd : M.deferring = false) (sem : Sem P W) (fuel : Nat) (c : Conf P W) :
    M.replay sem fuel c = .ok () c := by
  unfold replay
  split
  · rfl
  · rw [hd]; rfl

theorem receive_serves (hd : M.deferring = false) (fuel : Nat) (hne : ev ≠ .none)
    (hn : m0.payload .none = sem.nonePayload) (h : Going v sem d pre m0 ev c m) :
    Serves v sem d pre m0 (M.receive (sem.seen v) fuel ev (m.payload ev) c) := by
  unfold receive handle
  rw [Res.bind_assoc]
  refine (sweep_acts _ _ h).andThen fun a c m h hp => ?_
  have rest : ∀ {c : Conf P W} {m : Mind P W}, Minds v sem d pre m0 c m → m.thrown = none →
      (¬ (.deferred ∉ a.1 ∧ .fired ∈ a.1 ∧ M.anonymous = true) → m.payload ev = a.2 ∧ Going v sem d pre m0 ev c m) →
      Serves v sem d pre m0 (if .deferred ∈ a.1 then (.ok false c : Res (Conf P W) Bool)
        else if .fired ∈ a.1 then (M.replay (sem.seen v) fuel c).bind fun _ c => .ok true c
        else if .rejected ∈ a.1 then .ok false c
        else (M.complain (sem.seen v) ev a.2 c).bind fun _ c => .ok false c) := by
    intro c m h1 h2 h3
    split
    · exact ⟨m, h1, h2⟩
    split
    · rw [replay_off hd]; exact ⟨m, h1, h2⟩
    split
    · exact ⟨m, h1, h2⟩
    · next hf _ =>
      obtain ⟨e, h⟩ := h3 fun h => hf h.2.1
      rw [← e]
      exact (complain_acts h).andThen fun _ c m h _ => ⟨m, h.toMinds, h.thrown⟩
  by_cases hc : .deferred ∉ a.1 ∧ .fired ∈ a.1 ∧ M.anonymous = true
  · rw [if_pos hc, Res.bind_assoc]
    have h' : Going v sem d pre m0 .none c m := ⟨h.toMinds, h.thrown, fun h => absurd rfl h⟩
    have := settle_acts (M := M) fuel h'
    rw [h.other hne, hn] at this
    refine this.andThen fun _ c m h _ => ?_
    exact rest h.toMinds h.thrown fun hn => absurd hc hn
  · rw [if_neg hc]
    exact rest h.toMinds h.thrown fun _ => ⟨hp.symm, h⟩

end Machine

/-! ## The other machine follows -/

/-- The machine is at `c` and the client has `m` in mind, as `x` says; `b` was heard before the call. -/
structure Trails (M : Machine) (v : StTy → StTy) (sem : Sem P W) (d : Dep) (pre : List (Call P)) (m0 : Mind P W)
    (b : List Sign) (c : Conf P W) (x : Eye (List Sign)) (m : Mind P W) : Prop extends
    Minds v sem d pre m0 c m where
  spot : x.spot = M.sight c
  said : x.heard = some (b ++ signs (c.calls.drop pre.length))

/-- The same, and nothing was thrown. -/
structure Trailing (M : Machine) (v : StTy → StTy) (sem : Sem P W) (d : Dep) (pre : List (Call P)) (m0 : Mind P W)
    (b : List Sign) (ev : EventTy) (c : Conf P W) (x : Eye (List Sign)) (m : Mind P W) : Prop extends
    Trails M v sem d pre m0 b c x m where
  thrown : m.thrown = none
  other : ev ≠ .none → m.payload .none = m0.payload .none

/-- The client goes along with what is heard in the end. -/
def Plausible (v : StTy → StTy) (sem : Sem P W) (d : Dep) (m0 : Mind P W) (b : List Sign)
    (y : Res (Eye (List Sign)) β) : Prop :=
  ∃ l m', y.says = some (b ++ l) ∧ Mind.hearAll sem d (l.map (Sign.seen v)) m0 = some m'

/-- The outcome `o` is what `y` says. -/
def Complies.Out (M : Machine) (v : StTy → StTy) (sem : Sem P W) (d : Dep) (pre : List (Call P)) (m0 : Mind P W)
    (b : List Sign) (ev : EventTy) (ψ : β → P → α) (o : Res (Conf P W) α) : Res (Eye (List Sign)) β → Prop
  | .ok a x' => ∃ c' m', o = .ok (ψ a (m'.payload ev)) c' ∧ Trailing M v sem d pre m0 b ev c' x' m'
  | .throw _ x' => ∃ c' m', o = .throw (m'.thrown.getD .outOfRange) c' ∧ Trails M v sem d pre m0 b c' x' m'
  | _ => True

/-- If the client goes along with what `y` says, `g` does that. -/
def Complies (M : Machine) (v : StTy → StTy) (sem : Sem P W) (d : Dep) (pre : List (Call P)) (m0 : Mind P W)
    (b : List Sign) (ev : EventTy) (ψ : β → P → α) (g : P → Conf P W → Res (Conf P W) α) (x : Eye (List Sign))
    (y : Res (Eye (List Sign)) β) : Prop :=
  ∀ c m, Trailing M v sem d pre m0 b ev c x m → Plausible v sem d m0 b y →
    Complies.Out M v sem d pre m0 b ev ψ (g (m.payload ev) c) y

variable {b : List Sign} {x : Eye (List Sign)}

/-- What is heard before the end. -/
theorem Plausible.before {y : Res (Eye (List Sign)) β} {z : Res (Eye (List Sign)) α} (h : Plausible v sem d m0 b y)
    {l : List Sign} (hz : z.says = some (b ++ l)) (hy : y.heardFrom (b ++ l)) : Plausible v sem d m0 b z := by
  obtain ⟨l', m', h1, h2⟩ := h
  have h3 := (List.prefix_append_right_inj b).1 (hy.says h1)
  obtain ⟨m1, h4⟩ := Mind.hearAll_prefix (h3.map (Sign.seen v)) h2
  exact ⟨l, m1, hz, h4⟩

theorem Plausible.next {y : Res (Eye (List Sign)) β} (h : Plausible v sem d m0 b y)
    (ht : Trails M v sem d pre m0 b c x m) {s : Sign}
    (hy : y.heardFrom (b ++ signs (c.calls.drop pre.length) ++ [s])) : ∃ m', m.hear sem d (s.seen v) = some m' := by
  obtain ⟨l', m', h1, h2⟩ := h
  have h3 := hy.says h1
  rw [List.append_assoc] at h3
  obtain ⟨m1, h4⟩ := Mind.hearAll_prefix (((List.prefix_append_right_inj b).1 h3).map (Sign.seen v)) h2
  rw [List.map_append, Mind.hearAll_append, ht.heard] at h4
  refine ⟨m1, ?_⟩
  have : (m.hear sem d (s.seen v)).bind some = some m1 := h4
  rwa [Option.bind_fun_some] at this

theorem Complies.bind {α' β' : Type} {ψ : β → P → α} {ψ' : β' → P → α'} {g : P → Conf P W → Res (Conf P W) α}
    {f : α → Conf P W → Res (Conf P W) α'} {rs : List (Res (Eye (List Sign)) β)}
    {f' : β → Eye (List Sign) → List (Res (Eye (List Sign)) β')} {y : Res (Eye (List Sign)) β'}
    (hy : y ∈ branch rs f') (hc : ∀ l, x.heard = some l → Coded l rs)
    (hm : ∀ a x' l, x'.heard = some l → Coded l (f' a x'))
    (hg : ∀ z ∈ rs, Complies M v sem d pre m0 b ev ψ g x z)
    (hf : ∀ a x', .ok a x' ∈ rs → y ∈ f' a x' → Complies M v sem d pre m0 b ev ψ' (fun p => f (ψ a p)) x' y) :
    Complies M v sem d pre m0 b ev ψ' (fun p c => (g p c).bind f) x y := by
  intro c m ht hp
  rcases mem_branch.1 hy with ⟨a, x', h1, h2⟩ | ⟨e, x', h1, rfl⟩ | ⟨u, h1, rfl⟩ | ⟨h1, rfl⟩
  · obtain ⟨l0, h3, l1, h4⟩ := (hc _ ht.said).from' _ h1
    rw [← h4, List.append_assoc] at h3
    obtain ⟨c1, m1, e1, ht1⟩ := hg _ h1 c m ht (hp.before (z := .ok a x') h3 ((hm a x' _ h3).from' y h2))
    dsimp only
    rw [e1]
    exact hf a x' h1 h2 c1 m1 ht1 hp
  · obtain ⟨c1, m1, e1, ht1⟩ := hg _ h1 c m ht hp
    exact ⟨c1, m1, by dsimp only; rw [e1]; rfl, ht1⟩
  · trivial
  · trivial

theorem Complies.done {ψ : β → P → α} {a : β} :
    Complies M v sem d pre m0 b ev ψ (fun p c => .ok (ψ a p) c) x (.ok a x) := fun c m ht _ => ⟨c, m, rfl, ht⟩

theorem Complies.ub {ψ : β → P → α} {g : P → Conf P W → Res (Conf P W) α} {u : UB} :
    Complies M v sem d pre m0 b ev ψ g x (.ub u) := fun _ _ _ _ => trivial

/-- It is enough to consider configurations that are as `x` says. -/
theorem Complies.congr {ψ : β → P → α} {g g' : P → Conf P W → Res (Conf P W) α} {y : Res (Eye (List Sign)) β}
    (h : Complies M v sem d pre m0 b ev ψ g x y)
    (he : ∀ c m, Trailing M v sem d pre m0 b ev c x m → g' (m.payload ev) c = g (m.payload ev) c) :
    Complies M v sem d pre m0 b ev ψ g' x y := by
  intro c m ht hp
  rw [he c m ht]
  exact h c m ht hp

/-- One call more. -/
theorem Trails.note (h : Trails M v sem d pre m0 b c x m) (k : Call P) {e : EventTy} {p : P} {w : W} {y : Option Exn}
    (hk : m.obey sem d (k.plain.seen v) = some (m.note e p w y (k.seen v))) :
    Trails M v sem d pre m0 b { c with world := w, calls := c.calls ++ [k] }
      (Machine.seeSign recorder (.call k.plain) x) (m.note e p w y (k.seen v)) :=
  ⟨h.toMinds.note k hk, h.spot, by
    rw [Machine.heard_sign h.said]
    show _ = some (b ++ signs ((c.calls ++ [k]).drop pre.length))
    rw [drop_snoc h.since, signs_append, ← List.append_assoc]; rfl⟩

theorem Trailing.note (h : Trailing M v sem d pre m0 b ev c x m) (k : Call P) {p : P} {w : W}
    (hk : m.obey sem d (k.plain.seen v) = some (m.note ev p w none (k.seen v))) :
    Trailing M v sem d pre m0 b ev { c with world := w, calls := c.calls ++ [k] }
      (Machine.seeSign recorder (.call k.plain) x) (m.note ev p w none (k.seen v)) :=
  ⟨h.toTrails.note k hk, rfl, note_other _ _ h.other⟩

section
variable {args : Args} {m' : Mind P W} {p : P}

theorem obey_guard (ha : args.dep = d) (he : args.event = ev) {g : Cb} {res : Option Bool}
    (h : m.obey sem d ((Call.guard g args p res []).plain.seen v) = some m') :
    (∃ b p' w, res = some b ∧ sem.guard g (args.seen v) (m.payload ev) m.world = .ok b p' w) ∨
      ∃ n p' w, res = none ∧ sem.guard g (args.seen v) (m.payload ev) m.world = .throw n p' w := by
  subst ha he
  replace h : (match (generalizing := false) sem.guard g (args.seen v) (m.payload args.event) m.world, res with
    | .ok b p w, some b' =>
      if b = b' then some (m.note args.event p w none
        (.guard g (args.seen v) (m.payload args.event) (some b) [])) else none
    | .throw n _ w, none => some (m.note args.event (m.payload args.event) w (some (.user n))
        (.guard g (args.seen v) (m.payload args.event) none []))
    | _, _ => none) = some m' := h
  cases hs : sem.guard g (args.seen v) (m.payload args.event) m.world with
  | ok b p' w =>
    rw [hs] at h
    cases res with
    | none => cases h
    | some b' =>
      dsimp only at h
      split at h
      · next e => exact Or.inl ⟨b, p', w, by rw [e], rfl⟩
      · cases h
  | throw n p' w =>
    rw [hs] at h
    cases res with
    | none => exact Or.inr ⟨n, p', w, rfl, rfl⟩
    | some b' => cases h
  | ub => rw [hs] at h; cases res <;> cases h

theorem obey_action (ha : args.dep = d) (he : args.event = ev) {ph : Phase} {f : Cb} {threw : Bool}
    (h : m.obey sem d ((Call.action ph f args p threw []).plain.seen v) = some m') :
    (∃ u p' w, threw = false ∧ sem.action f (args.seen v) (m.payload ev) m.world = .ok u p' w) ∨
      ∃ n p' w, threw = true ∧ sem.action f (args.seen v) (m.payload ev) m.world = .throw n p' w := by
  subst ha he
  replace h : (match (generalizing := false) sem.action f (args.seen v) (m.payload args.event) m.world, threw with
    | .ok _ p w, false => some (m.note args.event p w none
        (.action ph f (args.seen v) (m.payload args.event) false []))
    | .throw n _ w, true => some (m.note args.event (m.payload args.event) w (some (.user n))
        (.action ph f (args.seen v) (m.payload args.event) true []))
    | _, _ => none) = some m' := h
  cases hs : sem.action f (args.seen v) (m.payload args.event) m.world with
  | ok u p' w =>
    rw [hs] at h
    cases threw with
    | true => cases h
    | false => exact Or.inl ⟨u, p', w, rfl, rfl⟩
  | throw n p' w =>
    rw [hs] at h
    cases threw with
    | true => exact Or.inr ⟨n, p', w, rfl, rfl⟩
    | false => cases h
  | ub => rw [hs] at h; cases threw <;> cases h

theorem obey_handler {d' : Dep} {hd : Cb} {st : StTy} {threw : Bool}
    (h : m.obey sem d ((Call.handler hd ev st d' p threw []).plain.seen v) = some m') :
    (∃ u p' w, threw = false ∧ sem.handler hd ev (v st) d (m.payload ev) m.world = .ok u p' w) ∨
      ∃ n p' w, threw = true ∧ sem.handler hd ev (v st) d (m.payload ev) m.world = .throw n p' w := by
  replace h : (match (generalizing := false) sem.handler hd ev (v st) d (m.payload ev) m.world, threw with
    | .ok _ _ w, false => some (m.note ev (m.payload ev) w none
        (.handler hd ev (v st) d (m.payload ev) false []))
    | .throw n _ w, true => some (m.note ev (m.payload ev) w (some (.user n))
        (.handler hd ev (v st) d (m.payload ev) true []))
    | _, _ => none) = some m' := h
  cases hs : sem.handler hd ev (v st) d (m.payload ev) m.world with
  | ok u p' w =>
    rw [hs] at h
    cases threw with
    | true => cases h
    | false => exact Or.inl ⟨u, p', w, rfl, rfl⟩
  | throw n p' w =>
    rw [hs] at h
    cases threw with
    | true => exact Or.inr ⟨n, p', w, rfl, rfl⟩
    | false => cases h
  | ub => rw [hs] at h; cases threw <;> cases h

end

namespace Machine

theorem perform_complies {args args' : Args} (ha : args.dep = d) (he : args.event = ev)
    (ha' : { args with dep := 0 } = args') : ∀ (cs : List (Phase × Cb)) (x : Eye (List Sign))
    (y : Res (Eye (List Sign)) Unit), y ∈ seePerform recorder args' cs x →
    Complies M v sem d pre m0 b ev (fun _ p => p) (perform (sem.seen v) args cs) x y
  | [], x, y, h => by
    rw [List.mem_singleton.1 h]
    exact fun c m ht _ => ⟨c, m, rfl, ht⟩
  | (ph, a) :: cs, x, y, h => by
    intro c m ht hp
    have run : ∀ o, sem.action a (args.seen v) (m.payload ev) m.world = o →
        perform (sem.seen v) args ((ph, a) :: cs) (m.payload ev) c = match o with
        | .ok _ p' w =>
          perform (sem.seen v) args cs p' { c with
            world := w, calls := c.calls ++ [.action ph a args (m.payload ev) false []] }
        | .throw k _ w =>
          .throw (.user k) { c with
            world := w, calls := c.calls ++ [.action ph a args (m.payload ev) true []] }
        | .ub => .ub .callback := by
      intro o ho
      rw [← ho, perform, ht.world]
      rfl
    rcases List.mem_cons.1 h with rfl | h
    · obtain ⟨m', hm⟩ := hp.next ht.toTrails (s := .call (.action ph a args' () true []))
        ⟨_, heard_sign ht.said _, List.prefix_refl _⟩
      rw [← ha'] at hm
      rcases obey_action (p := m.payload ev) ha he hm with ⟨_, _, _, h1, _⟩ | ⟨n, p', w, _, hs⟩
      · cases h1
      · rw [run _ hs, ← ha']
        exact ⟨_, _, rfl, ht.toTrails.note _ (obey_action_throw (ph := ph) ha he hs)⟩
    · obtain ⟨m', hm⟩ := hp.next ht.toTrails (s := .call (.action ph a args' () false []))
        ((seePerform_coded args' cs (heard_sign ht.said _)).from' _ h)
      rw [← ha'] at hm
      rcases obey_action (p := m.payload ev) ha he hm with ⟨_, p', w, _, hs⟩ | ⟨n, p', w, h1, _⟩
      · have hn := ht.note _ (obey_action_ok (ph := ph) ha he hs)
        rw [show (Call.action ph a args (m.payload ev) false []).plain = .action ph a args' () false [] from by
          rw [← ha']; rfl] at hn
        have := perform_complies ha he ha' cs _ y h _ _ hn hp
        rw [note_payload] at this
        rw [run _ hs]
        exact this
      · cases h1

theorem travel_complies (r : Nat) (t : XRow) (l : Name × StTy) (x : Eye (List Sign)) :
    Complies M v sem d pre m0 b ev (fun _ p => p) (fun p c => (M.travel r t l c).bind fun _ c => .ok p c) x
      (M.seeTravel r t l x) := by
  intro c m ht _
  dsimp only
  have hs := travel_sight (M := M) r t l c
  have hf := travel_first (M := M) r t l c
  unfold seeTravel
  rw [ht.spot]
  revert hs hf
  cases M.travel r t l c with
  | ok a c' =>
    rintro ⟨h1, _, h2, h3, h4⟩ hf
    rw [h1]
    have hm := ht.toMinds.move h2 (hf _ _ rfl) h3 h4
    exact ⟨c', m, rfl, ⟨⟨hm, rfl, by rw [h4]; exact ht.said⟩, ht.thrown, ht.other⟩⟩
  | throw e c' => intro h; exact h.elim
  | ub u => intro h _; rw [h]; trivial
  | timeout => intro h; exact h.elim

theorem ask_complies (hobj : ∀ st (c : Conf P W), M.present (sem.seen v) st c = true) (cd : Cand) (t : XRow)
    (l : Name × StTy) (x : Eye (List Sign)) (y : Res (Eye (List Sign)) Bool)
    (hy : y ∈ seeAsk recorder ev cd t l x) :
    Complies M v sem d pre m0 b ev (fun a p => (a, p)) (M.ask (sem.seen v) ev d cd t l) x y := by
  unfold seeAsk at hy
  intro c m ht hp
  unfold ask
  cases hg : t.guard with
  | none =>
    rw [hg] at hy
    rw [List.mem_singleton.1 hy]
    exact ⟨c, m, rfl, ht⟩
  | some g =>
    rw [hg] at hy
    generalize (if t.internal then cd.src else l.2) = dst at hy ⊢
    dsimp only at hy ⊢
    rw [hobj, hobj, ht.world]
    simp only [Bool.and_self, if_true]
    have key : ∀ res : Option Bool, y.says = some (b ++ signs (c.calls.drop pre.length) ++
          [.call (.guard g ⟨ev, cd.src, dst, false, 0⟩ () res [])]) →
        (∃ a p' w, res = some a ∧
          sem.guard g (Args.seen v ⟨ev, cd.src, dst, false, d⟩) (m.payload ev) m.world = .ok a p' w) ∨
        ∃ n p' w, res = none ∧
          sem.guard g (Args.seen v ⟨ev, cd.src, dst, false, d⟩) (m.payload ev) m.world = .throw n p' w := by
      intro res hs
      obtain ⟨m', hm⟩ := hp.next ht.toTrails (s := .call (.guard g ⟨ev, cd.src, dst, false, 0⟩ () res [])) (by
        cases y with
        | ok a x' => exact ⟨_, hs, List.prefix_refl _⟩
        | throw e x' => exact ⟨_, hs, List.prefix_refl _⟩
        | ub _ => trivial
        | timeout => trivial)
      exact obey_guard (args := ⟨ev, cd.src, dst, false, d⟩) (p := m.payload ev) rfl rfl hm
    show Complies.Out _ _ _ _ _ _ _ _ _
      (match sem.guard g (Args.seen v ⟨ev, cd.src, dst, false, d⟩) (m.payload ev) m.world with
        | .ok _ p' w => _ | .throw k _ w => _ | .ub => _) y
    have yes : ∀ a : Bool, y = .ok a (seeSign recorder (.call (.guard g ⟨ev, cd.src, dst, false, 0⟩ () (some a) [])) x) →
        Complies.Out M v sem d pre m0 b ev (fun a p => (a, p))
          (match sem.guard g (Args.seen v ⟨ev, cd.src, dst, false, d⟩) (m.payload ev) m.world with
          | .ok b p' w => .ok (b, p') { c with
              world := w, calls := c.calls ++ [.guard g ⟨ev, cd.src, dst, false, d⟩ (m.payload ev) (some b) []] }
          | .throw k _ w => .throw (.user k) { c with
              world := w, calls := c.calls ++ [.guard g ⟨ev, cd.src, dst, false, d⟩ (m.payload ev) none []] }
          | .ub => .ub .callback) y := by
      intro a e
      rcases key (some a) (by rw [e]; exact heard_sign ht.said _) with ⟨_, p', w, h1, hs⟩ | ⟨_, _, _, h1, _⟩
      · cases h1
        rw [hs, e]
        exact ⟨_, _, by rw [note_payload], ht.note (.guard g ⟨ev, cd.src, dst, false, d⟩ (m.payload ev) (some a) [])
          (obey_guard_ok rfl rfl hs)⟩
      · cases h1
    rcases List.mem_cons.1 hy with e | hy
    · rcases key none (by rw [e]; exact heard_sign ht.said _) with ⟨_, _, _, h1, _⟩ | ⟨n, p', w, _, hs⟩
      · cases h1
      · rw [hs, e]
        exact ⟨_, _, rfl, ht.toTrails.note (.guard g ⟨ev, cd.src, dst, false, d⟩ (m.payload ev) none [])
          (obey_guard_throw rfl rfl hs)⟩
    · rcases List.mem_cons.1 hy with e | hy
      · exact yes true e
      · exact yes false (List.mem_singleton.1 hy)

theorem take_complies (hobj : ∀ st (c : Conf P W), M.present (sem.seen v) st c = true) (r : Nat) (cd : Cand) (t : XRow)
    (l : Name × StTy) (x : Eye (List Sign)) (y : Res (Eye (List Sign)) Unit)
    (hy : y ∈ M.seeTake recorder r ev cd t l x) :
    Complies M v sem d pre m0 b ev (fun _ p => p) (M.take (sem.seen v) r ev d cd t l) x y := by
  have e : M.take (sem.seen v) r ev d cd t l = fun p c =>
      ((M.travel r t l c).bind fun _ c => .ok p c).bind fun p c =>
        match M.toRun t with
        | none => .ok p c
        | some cs =>
          if M.present (sem.seen v) cd.src c then perform (sem.seen v) (cbArgs M cd t l ev d) cs p c
          else .ub .nullObject := funext fun p => funext fun c => by
    rw [Res.bind_assoc]; rfl
  rw [e]
  refine Complies.bind (ψ := fun _ p => p) hy (fun l' hl => .one ?_) ?_ (fun z hz => ?_) fun _ x' _ hy => ?_
  · unfold seeTravel
    cases M.mayTravel r t l x.spot with
    | ok a n => exact ⟨l', hl, List.prefix_refl _⟩
    | throw a n => exact ⟨l', hl, List.prefix_refl _⟩
    | ub u => trivial
    | timeout => trivial
  · intro a x' l' hl
    cases M.toRun t with
    | none => exact .one ⟨l', hl, List.prefix_refl _⟩
    | some cs => exact seePerform_coded _ cs hl
  · rw [List.mem_singleton.1 hz]; exact travel_complies r t l x
  · revert hy
    cases M.toRun t with
    | none => intro hy; rw [List.mem_singleton.1 hy]; exact .done
    | some cs =>
      intro hy
      refine (perform_complies (args := cbArgs M cd t l ev d) rfl rfl rfl cs x' y hy).congr fun c m _ => ?_
      dsimp only
      rw [hobj, if_pos rfl]

theorem attempt_complies (hobj : ∀ st (c : Conf P W), M.present (sem.seen v) st c = true) (anon : Bool) (r : Nat) :
    ∀ (cs : List Cand) (x : Eye (List Sign)) (y : Res (Eye (List Sign)) RegionOut),
    y ∈ M.seeAttempt recorder anon r ev cs x →
    Complies M v sem d pre m0 b ev (fun o p => (o, p))
      (M.attempt (sem.seen v) anon r ev (cs.map fun cd => (d, cd))) x y
  | [], x, y, h => by
    rw [List.mem_singleton.1 h]
    exact fun c m ht _ => ⟨c, m, rfl, ht⟩
  | cd :: cs, x, y, h => by
    rw [seeAttempt] at h
    have e : M.attempt (sem.seen v) anon r ev ((cd :: cs).map fun cd => (d, cd)) = fun p c =>
        match cd.row? with
        | none =>
          if anon then .ub .nullTransition
          else .ok (.deferred, p) { c with waiting := c.waiting ++ [(ev, p)] }
        | some t =>
          match M.targetLoc t with
          | none => .ub .nullTransition
          | some l =>
            (M.ask (sem.seen v) ev d cd t l p c).bind fun a c =>
              if a.1 then (M.take (sem.seen v) r ev d cd t l a.2 c).bind fun p c => .ok (.fired, p) c
              else M.attempt (sem.seen v) anon r ev (cs.map fun cd => (d, cd)) a.2 c :=
      funext fun p => funext fun c => by rw [List.map_cons, attempt]; rfl
    rw [e]
    clear e
    revert h
    cases cd.row? with
    | none =>
      intro h
      dsimp only at h ⊢
      cases anon with
      | true => rw [List.mem_singleton.1 h]; exact .ub
      | false =>
        rw [List.mem_singleton.1 h]
        exact fun c m ht _ => ⟨_, m, rfl, ⟨⟨ht.toMinds.move rfl rfl rfl rfl, ht.spot, ht.said⟩, ht.thrown, ht.other⟩⟩
    | some t =>
      dsimp only
      cases M.targetLoc t with
      | none => intro h; rw [List.mem_singleton.1 h]; exact .ub
      | some l =>
        intro h
        dsimp only at h ⊢
        refine Complies.bind (ψ := fun a p => (a, p)) h (fun l' hl => seeAsk_coded ev cd t l hl) (fun a x' l' hl => ?_)
          (fun z hz => ask_complies hobj cd t l x z hz) fun a x' _ h => ?_
        · split
          · exact (seeTake_coded r ev cd t l hl).branch fun _ x l h => .one ⟨_, h, List.prefix_refl _⟩
          · exact seeAttempt_coded anon r ev cs hl
        · cases a with
          | true =>
            exact Complies.bind (ψ := fun _ p => p) h (fun l' hl => seeTake_coded r ev cd t l hl)
              (fun _ x l h => .one ⟨_, h, List.prefix_refl _⟩) (fun z hz => take_complies hobj r cd t l x' z hz)
              fun _ x'' _ h => by
                rw [List.mem_singleton.1 h]
                exact Complies.done (ψ := fun o p => (o, p))
          | false => exact attempt_complies hobj anon r cs x' y h

theorem visit_complies (hobj : ∀ st (c : Conf P W), M.present (sem.seen v) st c = true) (anon : Bool) (r : Nat)
    (x : Eye (List Sign)) (y : Res (Eye (List Sign)) RegionOut) (h : y ∈ M.seeVisit recorder anon r ev x) :
    Complies M v sem d pre m0 b ev (fun o p => (o, p)) (M.visit (sem.seen v) anon r ev) x y := by
  unfold seeVisit at h
  have sl : ∀ {c : Conf P W} {m : Mind P W}, Trailing M v sem d pre m0 b ev c x m →
      c.slots[r]? = x.spot.slots[r]? := fun hc => by rw [hc.spot]; rfl
  rcases hs : x.spot.slots[r]? with _ | _ | l
  · rw [hs] at h; rw [List.mem_singleton.1 h]; exact .ub
  · rw [hs] at h; rw [List.mem_singleton.1 h]; exact .ub
  · rw [hs] at h
    dsimp only at h
    by_cases hp : l.1 ∈ M.composites
    · rw [if_pos hp] at h
      by_cases hn : M.cands ev l.1 l.2 = []
      · rw [if_pos hn] at h
        rw [List.mem_singleton.1 h]
        refine (Complies.done (ψ := fun o p => (o, p))).congr fun c m hc => ?_
        unfold visit seek
        rw [sl hc, hs]
        show (if l.1 ∈ M.composites then _ else _) = _
        rw [if_pos hp, if_pos hn]
      · rw [if_neg hn] at h
        refine (attempt_complies hobj anon r _ x y h).congr fun c m hc => ?_
        unfold visit seek
        rw [sl hc, hs]
        show (if l.1 ∈ M.composites then _ else _) = _
        rw [if_pos hp, if_neg hn, hc.deps]
        simp only [List.flatMap_cons, List.flatMap_nil, List.append_nil]
    · rw [if_neg hp] at h; rw [List.mem_singleton.1 h]; exact .ub

theorem sweep_complies (hobj : ∀ st (c : Conf P W), M.present (sem.seen v) st c = true)
    (y : Res (Eye (List Sign)) (List RegionOut)) :
    ∀ (rs : List Nat) (os : List RegionOut) (x : Eye (List Sign)), y ∈ M.seeSweep recorder ev rs os x →
    Complies M v sem d pre m0 b ev (fun o p => (o, p)) (M.sweep (sem.seen v) ev rs os) x y
  | [], os, x, h => by
    rw [List.mem_singleton.1 h]
    exact fun c m ht _ => ⟨c, m, rfl, ht⟩
  | r :: rs, os, x, h => by
    rw [show M.sweep (sem.seen v) ev (r :: rs) os = fun p c => (M.visit (sem.seen v) false r ev p c).bind fun o c =>
      if o.1 = .deferred then .ok (os ++ [.deferred], o.2) c
      else M.sweep (sem.seen v) ev rs (os ++ [o.1]) o.2 c from rfl]
    refine Complies.bind (ψ := fun o p => (o, p)) h (fun l hl => seeVisit_coded false r ev hl) (fun o x' l hl => ?_)
      (fun z hz => visit_complies hobj false r x z hz) fun o x' _ h => ?_
    · split
      · exact .one ⟨_, hl, List.prefix_refl _⟩
      · exact seeSweep_coded ev rs _ hl
    · by_cases ho : o = .deferred
      · simp only [if_pos ho] at h ⊢
        rw [List.mem_singleton.1 h]; exact Complies.done (ψ := fun o p => (o, p))
      · simp only [if_neg ho] at h ⊢
        exact sweep_complies hobj y rs _ x' h

theorem round_complies (hobj : ∀ st (c : Conf P W), M.present (sem.seen v) st c = true)
    (y : Res (Eye (List Sign)) Bool) :
    ∀ (rs : List Nat) (os : List RegionOut) (x : Eye (List Sign)), y ∈ M.seeRound recorder rs os x →
    Complies M v sem d pre m0 b .none (fun o p => (o, p)) (M.round (sem.seen v) rs os) x y
  | [], os, x, h => by
    rw [List.mem_singleton.1 h]
    exact fun c m ht _ => ⟨c, m, rfl, ht⟩
  | r :: rs, os, x, h => by
    rw [show M.round (sem.seen v) (r :: rs) os = fun p c => (M.visit (sem.seen v) true r .none p c).bind fun o c =>
      if o.1 = .none then .ok (false, o.2) c
      else M.round (sem.seen v) rs (os ++ [o.1]) o.2 c from rfl]
    refine Complies.bind (ψ := fun o p => (o, p)) h (fun l hl => seeVisit_coded true r .none hl) (fun o x' l hl => ?_)
      (fun z hz => visit_complies hobj true r x z hz) fun o x' _ h => ?_
    · split
      · exact .one ⟨_, hl, List.prefix_refl _⟩
      · exact seeRound_coded rs _ hl
    · by_cases ho : o = .none
      · simp only [if_pos ho] at h ⊢
        rw [List.mem_singleton.1 h]; exact Complies.done (ψ := fun o p => (o, p))
      · simp only [if_neg ho] at h ⊢
        exact round_complies hobj y rs _ x' h

theorem complain_complies (hobj : ∀ st (c : Conf P W), M.present (sem.seen v) st c = true)
    (x : Eye (List Sign)) (y : Res (Eye (List Sign)) Unit) (h : y ∈ M.seeComplain recorder ev x) :
    Complies M v sem d pre m0 b ev (fun a _ => a) (M.complain (sem.seen v) ev) x y := by
  unfold seeComplain at h
  intro c m ht hp
  unfold complain
  cases hh : (M.decl M.root).handler with
  | none =>
    rw [hh] at h
    rw [List.mem_singleton.1 h]
    exact ⟨c, m, rfl, ht⟩
  | some k =>
    rw [hh] at h
    have sl : c.slots[0]? = x.spot.slots[0]? := by rw [ht.spot]; rfl
    dsimp only at h ⊢
    unfold seek
    rw [sl]
    rcases hs : x.spot.slots[0]? with _ | _ | l
    · rw [hs] at h; rw [List.mem_singleton.1 h]; trivial
    · rw [hs] at h; rw [List.mem_singleton.1 h]; trivial
    · rw [hs] at h
      dsimp only at h
      show Complies.Out _ _ _ _ _ _ _ _ _ (if l.1 ∈ M.composites then _ else _) y
      by_cases hc : l.1 ∈ M.composites
      · rw [if_pos hc] at h
        rw [if_pos hc, hobj, if_pos rfl, ht.world]
        have key : ∀ threw : Bool, y.says = some (b ++ signs (c.calls.drop pre.length) ++
              [.call (.handler k ev l.2 0 () threw [])]) →
            (∃ u p' w, threw = false ∧ sem.handler k ev (v l.2) d (m.payload ev) m.world = .ok u p' w) ∨
            ∃ n p' w, threw = true ∧ sem.handler k ev (v l.2) d (m.payload ev) m.world = .throw n p' w := by
          intro threw hs
          obtain ⟨m', hm⟩ := hp.next ht.toTrails (s := .call (.handler k ev l.2 0 () threw [])) (by
            cases y with
            | ok a x' => exact ⟨_, hs, List.prefix_refl _⟩
            | throw e x' => exact ⟨_, hs, List.prefix_refl _⟩
            | ub _ => trivial
            | timeout => trivial)
          exact obey_handler (p := m.payload ev) (d' := 0) hm
        have hf := ht.first
        rcases List.mem_cons.1 h with e | h
        · rcases key false (by rw [e]; exact heard_sign ht.said _) with ⟨u, p', w, _, hs⟩ | ⟨_, _, _, h1, _⟩
          · have hs' : (sem.seen v).handler k ev l.2 c.first (m.payload ev) m.world = .ok u p' w := by
              rw [hf]; exact hs
            rw [hs', e]
            refine ⟨_, m.note ev (m.payload ev) w none
              ((Call.handler k ev l.2 d (m.payload ev) false []).seen v), rfl, ?_⟩
            rw [hf]
            have := ht.note (.handler k ev l.2 d (m.payload ev) false []) (obey_handler_ok hs)
            rw [hf] at this
            exact this
          · cases h1
        · rw [List.mem_singleton] at h
          rcases key true (by rw [h]; exact heard_sign ht.said _) with ⟨_, _, _, h1, _⟩ | ⟨n, p', w, _, hs⟩
          · cases h1
          · have hs' : (sem.seen v).handler k ev l.2 c.first (m.payload ev) m.world = .throw n p' w := by
              rw [hf]; exact hs
            rw [hs', h]
            refine ⟨_, m.note ev (m.payload ev) w (some (.user n))
              ((Call.handler k ev l.2 d (m.payload ev) true []).seen v), rfl, ?_⟩
            rw [hf]
            have := ht.toTrails.note (.handler k ev l.2 d (m.payload ev) true []) (obey_handler_throw hs)
            rw [hf] at this
            exact this
      · rw [if_neg hc] at h
        rw [if_neg hc, List.mem_singleton.1 h]
        exact ⟨c, m, by rw [ht.thrown]; rfl, ht.toTrails⟩

/-! ### Whole calls -/

/-- The rest of a call goes on as `y` says, however much it may loop; `T` are the rounds of anonymous rows. -/
def Goes.Out (T : Nat → P → Conf P W → Res (Conf P W) Unit) (M : Machine) (v : StTy → StTy)
    (sem : Sem P W) (d : Dep) (pre : List (Call P)) (m0 : Mind P W) (b : List Sign)
    (o : Nat → Res (Conf P W) Bool) : Res (Eye (List Sign)) Stage → Prop
  | .ok .idle x' => ∃ a x'' c' m', x' = seeSign recorder (.answer a) x'' ∧ (∀ fuel, o fuel = .ok a c') ∧
      Trails M v sem d pre m0 b c' x'' m' ∧ m'.thrown = none
  | .ok (.rounds _) x' => ∃ c' m', (∀ fuel, o fuel = (T fuel (m'.payload .none) c').bind
      fun _ c => .ok true c) ∧ Trailing M v sem d pre m0 b .none c' x' m'
  | .throw _ x' => ∃ c' m', (∀ fuel, o fuel = .throw (m'.thrown.getD .outOfRange) c') ∧
      Trails M v sem d pre m0 b c' x' m'
  | _ => True

/-- If the client goes along with what `y` says, the rest `g` of a call does that. -/
def Goes (T : Nat → P → Conf P W → Res (Conf P W) Unit) (M : Machine) (v : StTy → StTy) (sem : Sem P W)
    (d : Dep) (pre : List (Call P)) (m0 : Mind P W) (b : List Sign) (ev : EventTy)
    (g : Nat → P → Conf P W → Res (Conf P W) Bool) (x : Eye (List Sign)) (y : Res (Eye (List Sign)) Stage) : Prop :=
  ∀ c m, Trailing M v sem d pre m0 b ev c x m → Plausible v sem d m0 b y →
    Goes.Out T M v sem d pre m0 b (fun fuel => g fuel (m.payload ev) c) y

variable {T : Nat → P → Conf P W → Res (Conf P W) Unit}

theorem Goes.answer {a : Bool} {y : Res (Eye (List Sign)) Stage} (h : y ∈ seeAnswer recorder a x) :
    Goes T M v sem d pre m0 b ev (fun _ _ c => .ok a c) x y := by
  rw [List.mem_singleton.1 h]
  exact fun c m ht _ => ⟨a, x, c, m, rfl, fun _ => rfl, ht.toTrails, ht.thrown⟩

theorem Goes.congr {g g' : Nat → P → Conf P W → Res (Conf P W) Bool} {y : Res (Eye (List Sign)) Stage}
    (h : Goes T M v sem d pre m0 b ev g x y)
    (he : ∀ c m fuel, Trailing M v sem d pre m0 b ev c x m →
      g' fuel (m.payload ev) c = g fuel (m.payload ev) c) : Goes T M v sem d pre m0 b ev g' x y := by
  intro c m ht hp
  rw [show (fun fuel => g' fuel (m.payload ev) c) = fun fuel => g fuel (m.payload ev) c from
    funext fun fuel => he c m fuel ht]
  exact h c m ht hp

theorem Goes.bind {ψ : β → P → α} {g : P → Conf P W → Res (Conf P W) α}
    {f : Nat → α → Conf P W → Res (Conf P W) Bool} {rs : List (Res (Eye (List Sign)) β)}
    {f' : β → Eye (List Sign) → List (Res (Eye (List Sign)) Stage)} {y : Res (Eye (List Sign)) Stage}
    (hy : y ∈ branch rs f') (hc : ∀ l, x.heard = some l → Coded l rs)
    (hm : ∀ a x' l, x'.heard = some l → Coded l (f' a x'))
    (hg : ∀ z ∈ rs, Complies M v sem d pre m0 b ev ψ g x z)
    (hf : ∀ a x', .ok a x' ∈ rs → y ∈ f' a x' → Goes T M v sem d pre m0 b ev (fun fuel p => f fuel (ψ a p)) x' y) :
    Goes T M v sem d pre m0 b ev (fun fuel p c => (g p c).bind (f fuel)) x y := by
  intro c m ht hp
  rcases mem_branch.1 hy with ⟨a, x', h1, h2⟩ | ⟨e, x', h1, rfl⟩ | ⟨u, h1, rfl⟩ | ⟨h1, rfl⟩
  · obtain ⟨l0, h3, l1, h4⟩ := (hc _ ht.said).from' _ h1
    rw [← h4, List.append_assoc] at h3
    obtain ⟨c1, m1, e1, ht1⟩ := hg _ h1 c m ht (hp.before (z := .ok a x') h3 ((hm a x' _ h3).from' y h2))
    dsimp only
    rw [e1]
    exact hf a x' h1 h2 c1 m1 ht1 hp
  · obtain ⟨c1, m1, e1, ht1⟩ := hg _ h1 c m ht hp
    exact ⟨c1, m1, fun _ => by dsimp only; rw [e1]; rfl, ht1⟩
  · trivial
  · trivial

theorem seeReplay_off (hd : M.deferring = false) (x : Eye (List Sign)) :
    M.seeReplay recorder x = seeAnswer recorder true x := by
  unfold seeReplay
  split
  · rfl
  · rw [hd]; rfl

theorem receive_goes (hobj : ∀ st (c : Conf P W), M.present (sem.seen v) st c = true) (hd : M.deferring = false)
    (hne : ev ≠ .none) (hn : m0.payload .none = sem.nonePayload) (x : Eye (List Sign))
    (y : Res (Eye (List Sign)) Stage) (h : y ∈ M.seeReceive recorder ev x) :
    Goes (M.settle (sem.seen v)) M v sem d pre m0 b ev (fun fuel => M.receive (sem.seen v) fuel ev) x y := by
  have key : Goes (M.settle (sem.seen v)) M v sem d pre m0 b ev (fun fuel p c =>
      (M.sweep (sem.seen v) ev (M.involved x.spot) [] p c).bind fun a c =>
      (if .deferred ∉ a.1 ∧ .fired ∈ a.1 ∧ M.anonymous then
        (M.settle (sem.seen v) fuel sem.nonePayload c).bind fun _ c => .ok a c
      else .ok a c).bind fun a c =>
        if .deferred ∈ a.1 then .ok false c
        else if .fired ∈ a.1 then (M.replay (sem.seen v) fuel c).bind fun _ c => .ok true c
        else if .rejected ∈ a.1 then .ok false c
        else (M.complain (sem.seen v) ev a.2 c).bind fun _ c => .ok false c) x y := by
    refine Goes.bind (ψ := fun o p => (o, p)) h (fun l hl => seeSweep_coded ev _ _ hl) (fun os x' l hl => ?_)
      (fun z hz => sweep_complies hobj z _ _ _ hz) fun os x' _ h => ?_
    · split
      · exact seeAnswer_coded _ hl
      split
      · split
        · exact .one ⟨_, hl, List.prefix_refl _⟩
        · exact seeReplay_coded hl
      split
      · exact seeAnswer_coded _ hl
      · exact (seeComplain_coded ev hl).branch fun _ _ _ hl => seeAnswer_coded _ hl
    dsimp only at h ⊢
    by_cases h1 : RegionOut.deferred ∈ os
    · rw [if_pos h1] at h
      refine (Goes.answer h).congr fun c m fuel _ => ?_
      rw [if_neg (fun h => h.1 h1)]
      show (if _ then _ else _) = _
      rw [if_pos h1]
    rw [if_neg h1] at h
    by_cases h2 : RegionOut.fired ∈ os
    · rw [if_pos h2] at h
      by_cases h3 : M.anonymous = true
      · rw [if_pos h3] at h
        rw [List.mem_singleton.1 h]
        refine fun c m ht _ => ⟨c, m, fun fuel => ?_, ⟨ht.toTrails, ht.thrown, fun h => absurd rfl h⟩⟩
        dsimp only
        rw [if_pos ⟨h1, h2, h3⟩, Res.bind_assoc, ht.other hne, hn]
        congr 1
        funext _ c
        show (if _ then _ else _) = _
        rw [if_neg h1, if_pos h2, replay_off hd]
        rfl
      · rw [if_neg h3, seeReplay_off hd] at h
        refine (Goes.answer h).congr fun c m fuel _ => ?_
        rw [if_neg (fun h => h3 h.2.2)]
        show (if _ then _ else _) = _
        rw [if_neg h1, if_pos h2, replay_off hd]
        rfl
    rw [if_neg h2] at h
    by_cases h3 : RegionOut.rejected ∈ os
    · rw [if_pos h3] at h
      refine (Goes.answer h).congr fun c m fuel _ => ?_
      rw [if_neg (fun h => h2 h.2.1)]
      show (if _ then _ else _) = _
      rw [if_neg h1, if_neg h2, if_pos h3]
    · rw [if_neg h3] at h
      have := Goes.bind (T := M.settle (sem.seen v)) (f := fun _ _ c => .ok false c) (ψ := fun a (_ : P) => a) (v := v) (sem := sem) (d := d)
        (pre := pre) (m0 := m0) (b := b) (ev := ev) h (fun l hl => seeComplain_coded ev hl)
        (fun _ _ _ hl => seeAnswer_coded _ hl) (fun z hz => complain_complies hobj x' z hz)
        fun _ x'' _ h => Goes.answer h
      refine this.congr fun c m fuel _ => ?_
      rw [if_neg (fun h => h2 h.2.1)]
      show (if _ then _ else _) = _
      rw [if_neg h1, if_neg h2, if_neg h3]
  refine key.congr fun c m fuel hc => ?_
  unfold receive handle
  rw [show M.taking c = M.involved x.spot from by rw [hc.spot]; rfl, Res.bind_assoc]
  rfl

end Machine

/-! ## From beginning to end -/

/-- The client was served by `M`, has `m` in mind, and the machine is at `c`. -/
structure Stood (M : Machine) (v : StTy → StTy) (sem : Sem P W) (d : Dep) (w : W) (ts : List (Request P W))
    (m : Mind P W) (s : SM P W) (c : Conf P W) : Prop where
  served : ∃ past, ts = past ++ m.requests ∧ Served M (sem.seen v) d w past m.replies s
  depicts : Depicts M c s
  deps : c.deps = [d]
  first : c.first = d
  world : c.world = m.world
  calls : c.calls.map (Call.seen v) = m.calls

variable {w : W} {ts : List (Request P W)} {s : SM P W}

theorem Stood.begin (hM : M.Regular) (h : construct M d w = .ok s) :
    Stood M v sem d w ts (.start sem w ts) s (M.fresh d w) :=
  ⟨⟨[], rfl, .init h⟩, C77_construct hM h, rfl, rfl, rfl, rfl⟩

/-- The next call. -/
theorem Stood.going (h : Stood M v sem d w ts m s c) (r : Request P W) (rs : List (Request P W)) :
    Minds v sem d c.calls (m.send sem r rs) { c with world := r.work c.world } (m.send sem r rs) where
  deps := h.deps
  first := h.first
  since := List.prefix_refl _
  heard := by
    show Mind.hearAll sem d ((signs (c.calls.drop c.calls.length)).map _) _ = _
    rw [List.drop_length]; rfl
  world := by show r.work c.world = r.work m.world; rw [h.world]
  calls := h.calls
  replies := rfl
  requests := rfl

theorem Stood.finish (hM : M.Regular) (hS : M.ScopesReal) (h : Stood M v sem d w ts m s c) {r : Request P W}
    {rs : List (Request P W)} (hr : m.requests = r :: rs) (hev : r.event ∈ M.events) {c' : Conf P W} {m' : Mind P W}
    (hm : Minds v sem d c.calls (m.send sem r rs) c' m') {fuel : Nat} {q : Reply}
    (ho : (∃ a, M.receive (sem.seen v) fuel r.event r.payload { c with world := r.work c.world } = .ok a c' ∧
        q = .ret a) ∨
      ∃ e, M.receive (sem.seen v) fuel r.event r.payload { c with world := r.work c.world } = .throw e c' ∧
        q = .threw e) :
    ∃ s', Stood M v sem d w ts { m' with replies := m'.replies ++ [q] } s' c' := by
  obtain ⟨past, h1, h2⟩ := h.served
  have hop : OpOk M (.process r.event r.payload) := by
    show r.event ∈ M.eventIds
    rw [← M.events_eq]; exact hev
  have hx := C77_step (sem := sem.seen v) (h.depicts.reworld (r.work c.world)) hM hS fuel hop
  rw [show M.exec (sem.seen v) fuel (.process r.event r.payload) { c with world := r.work c.world } =
    M.receive (sem.seen v) fuel r.event r.payload { c with world := r.work c.world } from rfl] at hx
  have hw : s.world = c.world := h.depicts.world
  have fin : ∀ s', Depicts M c' s' → Served M (sem.seen v) d w (past ++ [r]) (m.replies ++ [q]) s' →
      Stood M v sem d w ts { m' with replies := m'.replies ++ [q] } s' c' := fun s' hd hs =>
    { served := ⟨past ++ [r], by
        rw [h1, hr, show ({ m' with replies := m'.replies ++ [q] } : Mind P W).requests = rs from hm.requests]; simp,
        by rw [show ({ m' with replies := m'.replies ++ [q] } : Mind P W).replies = m.replies ++ [q] from by
          show m'.replies ++ [q] = _
          rw [hm.replies]; rfl]; exact hs⟩
      depicts := hd
      deps := hm.deps
      first := hm.first
      world := hm.world
      calls := hm.calls }
  rw [← hw] at hx ho
  revert hx
  rcases ho with ⟨a, ho, rfl⟩ | ⟨e, ho, rfl⟩ <;> rw [ho] <;>
    cases hst : step M (sem.seen v) fuel (.process r.event r.payload) { s with world := r.work s.world } <;> intro hx
  case inl.ok b' s' =>
    obtain ⟨rfl, hx⟩ := hx
    exact ⟨s', fin s' hx (h2.ok hop hst)⟩
  case inr.throw e' s' =>
    obtain ⟨rfl, hx⟩ := hx
    exact ⟨s', fin s' hx (h2.throw hop hst)⟩
  all_goals exact hx.elim

/-! ### The first machine -/

theorem Mind.hear_more {m m' : Mind P W} {s : Sign} (h : m.hear sem d s = some m') (q : List (Request P W)) :
    Mind.hear sem d { m with requests := m.requests ++ q } s = some { m' with requests := m'.requests ++ q } := by
  cases s with
  | event e =>
    obtain ⟨f, w, th, k, rp, rq⟩ := m
    cases rq with
    | nil => cases h
    | cons r rq =>
      change (if r.event = e then _ else _) = _ at h
      show (if r.event = e then _ else _) = _
      split at h
      · next he => rw [if_pos he]; cases h; rfl
      · cases h
  | call k =>
    change m.obey sem d k = _ at h
    show Mind.obey sem d { m with requests := m.requests ++ q } k = _
    cases k with
    | guard g a _ res _ =>
      unfold Mind.obey at h ⊢
      dsimp only at h ⊢
      split at h
      · split at h
        · next hb => rw [if_pos hb]; cases h; rfl
        · cases h
      · cases h; rfl
      · cases h
    | action ph f a _ threw _ =>
      unfold Mind.obey at h ⊢
      dsimp only at h ⊢
      split at h
      · cases h; rfl
      · cases h; rfl
      · cases h
    | handler hd e st _ _ threw _ =>
      unfold Mind.obey at h ⊢
      dsimp only at h ⊢
      split at h
      · cases h; rfl
      · cases h; rfl
      · cases h
  | answer b => cases h; rfl
  | exception => cases h; rfl

theorem Mind.hearAll_more : ∀ {ss : List Sign} {m m' : Mind P W}, Mind.hearAll sem d ss m = some m' →
    ∀ q : List (Request P W), Mind.hearAll sem d ss { m with requests := m.requests ++ q } =
      some { m' with requests := m'.requests ++ q }
  | [], m, m', h, q => by cases h; rfl
  | s :: ss, m, m', h, q => by
    change (m.hear sem d s).bind _ = _ at h
    show (Mind.hear sem d _ s).bind _ = _
    cases h1 : m.hear sem d s with
    | none => rw [h1] at h; cases h
    | some m1 =>
      rw [h1] at h
      rw [Mind.hear_more h1 q]
      exact Mind.hearAll_more h q

theorem seen_signs (k : List (Call P)) : (signs k).map (Sign.seen v) = k.map fun k => .call (k.plain.seen v) := by
  unfold signs
  rw [List.map_map]; rfl

/-- What the client observes goes with what it has in mind. -/
theorem Served.mind (hM : M.Regular) (hd : M.deferring = false) {rs : List Reply}
    (h : Served M (sem.seen v) d w ts rs s) (hts : ∀ t ∈ ts, t.event ≠ .none) :
    ∃ ss m c, Observed M (sem.seen v) d ss s ∧
      Mind.hearAll sem d (ss.map (Sign.seen v)) (.start sem w ts) = some m ∧ m.requests = [] ∧ m.replies = rs ∧
      Depicts M c s ∧ c.deps = [d] ∧ c.first = d ∧ c.world = m.world ∧ c.calls.map (Call.seen v) = m.calls := by
  have step : ∀ {ts : List (Request P W)} {rs : List Reply} {s s' : SM P W} {t : Request P W} {fuel : Nat},
      OpOk M (.process t.event t.payload) → t.event ≠ .none →
      (∃ ss m c, Observed M (sem.seen v) d ss s ∧
        Mind.hearAll sem d (ss.map (Sign.seen v)) (.start sem w ts) = some m ∧ m.requests = [] ∧ m.replies = rs ∧
        Depicts M c s ∧ c.deps = [d] ∧ c.first = d ∧ c.world = m.world ∧ c.calls.map (Call.seen v) = m.calls) →
      ∀ (last : Sign) (q : Reply),
      ((∃ a, Hsm.step M (sem.seen v) fuel (.process t.event t.payload) { s with world := t.work s.world } = .ok a s' ∧
          q = .ret a ∧ last = .answer a) ∨
        ∃ e, Hsm.step M (sem.seen v) fuel (.process t.event t.payload) { s with world := t.work s.world } =
          .throw e s' ∧ q = .threw e ∧ last = .exception) →
      ∃ ss m c, Observed M (sem.seen v) d ss s' ∧
        Mind.hearAll sem d (ss.map (Sign.seen v)) (.start sem w (ts ++ [t])) = some m ∧ m.requests = [] ∧
        m.replies = rs ++ [q] ∧ Depicts M c s' ∧ c.deps = [d] ∧ c.first = d ∧ c.world = m.world ∧
        c.calls.map (Call.seen v) = m.calls := by
    intro ts rs s s' t fuel hop hne ih last q hst
    obtain ⟨ss, m, c, ho, hh, hq, hr, hdp, h1, h2, h3, h4⟩ := ih
    obtain ⟨ops, hrun⟩ := ho.runs
    have hw : s.world = c.world := hdp.world
    have hdp' := hdp.reworld (t.work s.world)
    have hx := C77_step (sem := sem.seen v) hdp' hM (hrun.scopes hM) fuel hop
    rw [show M.exec (sem.seen v) fuel (.process t.event t.payload) { c with world := t.work s.world } =
      M.receive (sem.seen v) fuel t.event t.payload { c with world := t.work s.world } from rfl] at hx
    have hm : Minds v sem d c.calls (m.send sem t []) { c with world := t.work s.world } (m.send sem t []) :=
      { deps := h1
        first := h2
        since := List.prefix_refl _
        heard := by
          show Mind.hearAll sem d ((signs (c.calls.drop c.calls.length)).map _) _ = _
          rw [List.drop_length]; rfl
        world := by show t.work s.world = t.work m.world; rw [hw, h3]
        calls := h4
        replies := rfl
        requests := rfl }
    have hs := Machine.receive_serves (M := M) (ev := t.event) hd fuel hne (send_none t []) ⟨hm, rfl, fun _ => rfl⟩
    rw [send_event t [] hne] at hs
    have hh' := Mind.hearAll_more hh [t]
    rw [show ({ Mind.start sem w ts with requests := (Mind.start sem w ts).requests ++ [t] } : Mind P W) =
      .start sem w (ts ++ [t]) from rfl, hq] at hh'
    have fin : ∀ c' m', Depicts M c' s' → Minds v sem d c.calls (m.send sem t []) c' m' →
        m'.hear sem d last = some { m' with replies := m'.replies ++ [q] } → last.seen v = last →
        Observed M (sem.seen v) d (ss ++ .event t.event :: callsSince { s with world := t.work s.world } s' ++ [last]) s' →
        ∃ ss m c, Observed M (sem.seen v) d ss s' ∧
        Mind.hearAll sem d (ss.map (Sign.seen v)) (.start sem w (ts ++ [t])) = some m ∧ m.requests = [] ∧
        m.replies = rs ++ [q] ∧ Depicts M c s' ∧ c.deps = [d] ∧ c.first = d ∧ c.world = m.world ∧
        c.calls.map (Call.seen v) = m.calls := by
      intro c' m' hc' hm' hl hls hob
      refine ⟨_, { m' with replies := m'.replies ++ [q] }, c', hob, ?_, hm'.requests, ?_, hc', hm'.deps, hm'.first,
        hm'.world, hm'.calls⟩
      · obtain ⟨l, hl'⟩ := hm'.since
        rw [hdp'.since hc' hl'.symm]
        simp only [List.map_append, List.map_cons, List.map_nil, hls]
        rw [Mind.hearAll_append, Mind.hearAll_append, hh']
        have hheard := hm'.heard
        rw [← hl', List.drop_append_of_le_length (Nat.le_refl _), List.drop_length, List.nil_append] at hheard
        show ((Mind.hear sem d _ (.event t.event)).bind _).bind _ = _
        rw [show Mind.hear sem d { m with requests := [] ++ [t] } (.event t.event) = some (m.send sem t []) from
          if_pos rfl]
        show (Mind.hearAll sem d _ _).bind _ = _
        rw [hheard]
        show (m'.hear sem d last).bind _ = _
        rw [hl]; rfl
      · show m'.replies ++ [q] = _
        rw [hm'.replies]
        show m.replies ++ [q] = _
        rw [hr]
    rcases hst with ⟨a, hst, rfl, rfl⟩ | ⟨e, hst, rfl, rfl⟩
    · have hob := (ho.world (t.work s.world)).ok hop hst
      rw [hst] at hx
      cases hc' : M.receive (sem.seen v) fuel t.event t.payload { c with world := t.work s.world } with
      | ok b' c' =>
        rw [hc'] at hx hs
        obtain ⟨m', hm', _⟩ := hs
        exact fin c' m' hx.2 hm' rfl rfl hob
      | _ => rw [hc'] at hx; exact hx.elim
    · have hob := (ho.world (t.work s.world)).throw hop hst
      rw [hst] at hx
      cases hc' : M.receive (sem.seen v) fuel t.event t.payload { c with world := t.work s.world } with
      | throw e' c' =>
        rw [hc'] at hx hs
        obtain ⟨rfl, hx⟩ := hx
        obtain ⟨m', hm', he⟩ := hs
        exact fin c' m' hx hm' (by rw [← he]; rfl) rfl hob
      | _ => rw [hc'] at hx; exact hx.elim
  induction h with
  | init h => exact ⟨[], _, _, .init h, rfl, rfl, rfl, C77_construct hM h, rfl, rfl, rfl, rfl⟩
  | ok hr hop h ih =>
    exact step hop (hts _ (by simp)) (ih fun t ht => hts t (by simp [ht])) _ _ (Or.inl ⟨_, h, rfl, rfl⟩)
  | throw hr hop h ih =>
    exact step hop (hts _ (by simp)) (ih fun t ht => hts t (by simp [ht])) _ _ (Or.inr ⟨_, h, rfl, rfl⟩)

/-! ### The second machine -/

/-- The client gets there, too. -/
def Attains (M : Machine) (v : StTy → StTy) (sem : Sem P W) (d : Dep) (w : W) (ts : List (Request P W))
    (m : Mind P W) : Stage → Eye (List Sign) → Prop
  | .idle, x => ∃ s c, Stood M v sem d w ts m s c ∧ x.spot = M.sight c
  | .rounds _, x => ∃ m0 s c r rs b c' m' k, Stood M v sem d w ts m0 s c ∧ m0.requests = r :: rs ∧
      r.event ∈ M.events ∧ Mind.hearAll sem d (b.map (Sign.seen v)) (.start sem w ts) = some (m0.send sem r rs) ∧
      Trailing M v sem d c.calls (m0.send sem r rs) b .none c' x m' ∧
      ∀ fuel, M.receive (sem.seen v) (fuel + k) r.event r.payload { c with world := r.work c.world } =
        (M.settle (sem.seen v) fuel (m'.payload .none) c').bind fun _ c => .ok true c

theorem plausible_of {b l : List Sign} {m1 m' : Mind P W} {y : Res (Eye (List Sign)) β}
    (hb : Mind.hearAll sem d (b.map (Sign.seen v)) m0 = some m1) (hs : y.says = some l) (hy : y.heardFrom b)
    (hl : Mind.hearAll sem d (l.map (Sign.seen v)) m0 = some m') : Plausible v sem d m1 b y := by
  obtain ⟨t, rfl⟩ := hy.says hs
  rw [List.map_append, Mind.hearAll_append, hb] at hl
  exact ⟨t, m', hs, hl⟩

/-- What was heard leads to what the client has in mind. -/
theorem Trails.mind {b l : List Sign} {m1 : Mind P W}
    (ht : Trails M v sem d pre m1 b c x m) (hb : Mind.hearAll sem d (b.map (Sign.seen v)) m0 = some m1)
    (hs : x.heard = some l) : Mind.hearAll sem d (l.map (Sign.seen v)) m0 = some m := by
  rw [ht.said] at hs
  cases hs
  rw [List.map_append, Mind.hearAll_append, hb]
  exact ht.heard

/-- Whatever may be heard of the second machine and the client goes along with happens to the client. -/
theorem Machine.Sees.attains (hM : M.Regular) (hd : M.deferring = false)
    (hC : M.ScopesReal ∧ (M.orthogonal = true → M.declaredInitials M.root ≠ []))
    (hobj : ∀ st (c : Conf P W), M.present (sem.seen v) st c = true) (hts : ∀ t ∈ ts, t.event ≠ .none)
    {g : Stage} (h : M.Sees recorder g x) : ∀ l m, x.heard = some l →
    Mind.hearAll sem d (l.map (Sign.seen v)) (.start sem w ts) = some m → Attains M v sem d w ts m g x := by
  have step : ∀ {g : Stage} {x : Eye (List Sign)}, (∃ l, x.heard = some l) → (∀ l m, x.heard = some l →
      Mind.hearAll sem d (l.map (Sign.seen v)) (.start sem w ts) = some m → Attains M v sem d w ts m g x) →
      (∀ g' x', .ok g' x' ∈ M.seeNext recorder g x → ∀ l m, x'.heard = some l →
        Mind.hearAll sem d (l.map (Sign.seen v)) (.start sem w ts) = some m → Attains M v sem d w ts m g' x') ∧
      ∀ e x', .throw e x' ∈ M.seeNext recorder g x → ∀ l m, (seeSign recorder .exception x').heard = some l →
        Mind.hearAll sem d (l.map (Sign.seen v)) (.start sem w ts) = some m →
        Attains M v sem d w ts m .idle (seeSign recorder .exception x') := by
    intro g x hx ih
    obtain ⟨l0, hx⟩ := hx
    have before : ∀ y ∈ M.seeNext recorder g x, ∀ l m, y.says = some l →
        Mind.hearAll sem d (l.map (Sign.seen v)) (.start sem w ts) = some m →
        ∃ m0, Mind.hearAll sem d (l0.map (Sign.seen v)) (.start sem w ts) = some m0 ∧ Attains M v sem d w ts m0 g x := by
      intro y hy l m hl hm
      have h1 := ((seeNext_coded g hx).from' y hy).says hl
      obtain ⟨m0, hm0⟩ := Mind.hearAll_prefix (h1.map (Sign.seen v)) hm
      exact ⟨m0, hm0, ih l0 m0 hx hm0⟩
    -- the sign at the end of a call adds a reply
    have ended : ∀ {m0 : Mind P W} {s : SM P W} {c : Conf P W} {r : Request P W} {rs : List (Request P W)}
        {b l : List Sign} {x'' : Eye (List Sign)} {c' : Conf P W} {m m' : Mind P W} {fuel : Nat} (last : Sign) (q : Reply),
        Stood M v sem d w ts m0 s c → m0.requests = r :: rs → r.event ∈ M.events →
        Mind.hearAll sem d (b.map (Sign.seen v)) (.start sem w ts) = some (m0.send sem r rs) →
        Trails M v sem d c.calls (m0.send sem r rs) b c' x'' m' → (seeSign recorder last x'').heard = some l →
        Mind.hearAll sem d (l.map (Sign.seen v)) (.start sem w ts) = some m →
        m'.hear sem d (last.seen v) = some { m' with replies := m'.replies ++ [q] } →
        ((∃ a, M.receive (sem.seen v) fuel r.event r.payload { c with world := r.work c.world } = .ok a c' ∧
          q = .ret a) ∨
        ∃ e, M.receive (sem.seen v) fuel r.event r.payload { c with world := r.work c.world } = .throw e c' ∧
          q = .threw e) → Attains M v sem d w ts m .idle (seeSign recorder last x'') := by
      intro m0 s c r rs b l x'' c' m m' fuel last q hs hr hev hb ht hl hm hq ho
      obtain ⟨s', hs'⟩ := hs.finish hM hC.1 hr hev ht.toMinds ho
      have e : m = { m' with replies := m'.replies ++ [q] } := by
        rw [heard_sign ht.said] at hl
        cases hl
        rw [List.map_append, Mind.hearAll_append, ht.mind hb ht.said] at hm
        change (m'.hear sem d (last.seen v)).bind _ = _ at hm
        rw [hq] at hm
        exact (Option.some.inj hm).symm
      rw [e]
      exact ⟨s', c', hs', ht.spot⟩
    cases g with
    | idle =>
      have call : ∀ y ev, ev ∈ M.events → y ∈ M.seeReceive recorder ev (seeSign recorder (.event ev) x) → ∀ l m,
          y.says = some l → Mind.hearAll sem d (l.map (Sign.seen v)) (.start sem w ts) = some m →
          ∃ m0 s c r rs b, Stood M v sem d w ts m0 s c ∧ m0.requests = r :: rs ∧ r.event ∈ M.events ∧
            Mind.hearAll sem d (b.map (Sign.seen v)) (.start sem w ts) = some (m0.send sem r rs) ∧
            Goes.Out (M.settle (sem.seen v)) M v sem d c.calls (m0.send sem r rs) b (fun fuel =>
              M.receive (sem.seen v) fuel r.event r.payload { c with world := r.work c.world }) y := by
        intro y ev hev hy l m hl hm
        obtain ⟨m0, hm0, s, c, hs, hsp⟩ := before y (List.mem_flatMap.2 ⟨ev, hev, hy⟩) l m hl hm
        have hfrom := (seeReceive_coded (M := M) ev (heard_sign hx (.event ev))).from' y hy
        obtain ⟨m1, hm1⟩ := Mind.hearAll_prefix ((hfrom.says hl).map (Sign.seen v)) hm
        have hm1' := hm1
        rw [List.map_append, Mind.hearAll_append, hm0] at hm1
        change (m0.hear sem d (.event ev)).bind some = _ at hm1
        rw [Option.bind_fun_some] at hm1
        have : ∃ r rs, m0.requests = r :: rs ∧ r.event = ev ∧ m1 = m0.send sem r rs := by
          unfold Mind.hear at hm1
          cases hq : m0.requests with
          | nil => rw [hq] at hm1; cases hm1
          | cons r rs =>
            rw [hq] at hm1
            dsimp only at hm1
            split at hm1
            · next he => exact ⟨r, rs, rfl, he, (Option.some.inj hm1).symm⟩
            · cases hm1
        obtain ⟨r, rs, hr, rfl, rfl⟩ := this
        have hne : r.event ≠ .none := hts r (by
          obtain ⟨past, h1, _⟩ := hs.served
          rw [h1, hr]; simp)
        refine ⟨m0, s, c, r, rs, l0 ++ [.event r.event], hs, hr, hev, hm1', ?_⟩
        have hgo := receive_goes (M := M) (v := v) (d := d) (pre := c.calls) (m0 := m0.send sem r rs)
          (b := l0 ++ [.event r.event]) hobj hd hne (send_none r rs) _ _ hy { c with world := r.work c.world }
          (m0.send sem r rs) ⟨⟨hs.going r rs, hsp, by
            rw [heard_sign hx]
            show _ = some (_ ++ signs (c.calls.drop c.calls.length))
            rw [List.drop_length]; simp [signs]⟩, rfl, fun _ => rfl⟩
          (plausible_of hm1' hl hfrom hm)
        rw [send_event r rs hne] at hgo
        exact hgo
      refine ⟨fun g' x' hn l m hl hm => ?_, fun e x' hn l m hl hm => ?_⟩
      · obtain ⟨ev, hev, hn⟩ := List.mem_flatMap.1 hn
        obtain ⟨m0, s, c, r, rs, b, hs, hr, hev, hb, ho⟩ := call _ ev hev hn l m hl hm
        cases g' with
        | idle =>
          obtain ⟨a, x'', c', m', rfl, ho, ht, hth⟩ := ho
          exact ended (.answer a) (.ret a) hs hr hev hb ht hl hm rfl (Or.inl ⟨a, ho 0, rfl⟩)
        | rounds first =>
          obtain ⟨c', m', ho, ht⟩ := ho
          exact ⟨m0, s, c, r, rs, b, c', m', 0, hs, hr, hev, hb, ht, ho⟩
      · obtain ⟨ev, hev, hn⟩ := List.mem_flatMap.1 hn
        obtain ⟨l1, hl1, _⟩ : ∃ l1, x'.heard = some l1 ∧ _ :=
          (seeReceive_coded (M := M) ev (heard_sign hx (.event ev))).from' _ hn
        obtain ⟨m1, hm1⟩ : ∃ m1, Mind.hearAll sem d (l1.map (Sign.seen v)) (.start sem w ts) = some m1 := by
          rw [heard_sign hl1] at hl
          cases hl
          exact Mind.hearAll_prefix ((List.prefix_append _ _).map _) hm
        obtain ⟨m0, s, c, r, rs, b, hs, hr, hev, hb, c', m', ho, ht⟩ := call _ ev hev hn l1 m1 hl1 hm1
        exact ended .exception (.threw (m'.thrown.getD .outOfRange)) hs hr hev hb ht hl hm rfl (Or.inr ⟨_, ho 0, rfl⟩)
    | rounds first =>
      have call : ∀ y, y ∈ M.seeNext recorder (.rounds first) x → ∀ l m,
          y.says = some l → Mind.hearAll sem d (l.map (Sign.seen v)) (.start sem w ts) = some m →
          ∃ m0 s c r rs b k, Stood M v sem d w ts m0 s c ∧ m0.requests = r :: rs ∧ r.event ∈ M.events ∧
            Mind.hearAll sem d (b.map (Sign.seen v)) (.start sem w ts) = some (m0.send sem r rs) ∧
            Goes.Out (M.settle (sem.seen v)) M v sem d c.calls (m0.send sem r rs) b (fun fuel =>
              M.receive (sem.seen v) (fuel + k) r.event r.payload { c with world := r.work c.world }) y := by
        intro y hy l m hl hm
        obtain ⟨_, _, m0, s, c, r, rs, b, c', m', k, hs, hr, hev, hb, ht, ho⟩ := before y hy l m hl hm
        have hfrom := ((seeNext_coded (M := M) (.rounds first) ht.said).from' y hy).mono (List.prefix_append _ _)
        refine ⟨m0, s, c, r, rs, b, k + 1, hs, hr, hev, hb, ?_⟩
        have hgo : Goes (M.settle (sem.seen v)) M v sem d c.calls (m0.send sem r rs) b .none (fun fuel p c =>
            (M.round (sem.seen v) (M.involved x.spot) [] p c).bind fun a c =>
              (if a.1 then M.settle (sem.seen v) fuel a.2 c else .ok () c).bind fun _ c => .ok true c) x y := by
          refine Goes.bind (ψ := fun o p => (o, p)) hy (fun l hl => seeRound_coded _ _ hl) (fun more x' l hl => ?_)
            (fun z hz => round_complies hobj z _ _ _ hz) fun more x' _ h => ?_
          · split
            · exact .one ⟨_, hl, List.prefix_refl _⟩
            split
            · exact seeReplay_coded hl
            · exact seeAnswer_coded _ hl
          · cases more with
            | true =>
              rw [if_pos rfl] at h
              rw [List.mem_singleton.1 h]
              exact fun c m ht _ => ⟨c, m, fun _ => rfl, ht⟩
            | false =>
              rw [if_neg (by simp), seeReplay_off hd, ite_self] at h
              exact (Goes.answer h).congr fun _ _ _ _ => rfl
        have := hgo c' m' ht (plausible_of hb hl hfrom hm)
        rw [show (fun fuel => M.receive (sem.seen v) (fuel + (k + 1)) r.event r.payload
            { c with world := r.work c.world }) = fun fuel =>
            (M.round (sem.seen v) (M.involved x.spot) [] (m'.payload .none) c').bind fun a c =>
              (if a.1 then M.settle (sem.seen v) fuel a.2 c else .ok () c).bind fun _ c => .ok true c from
          funext fun fuel => by
            rw [show fuel + (k + 1) = (fuel + 1) + k by omega, ho (fuel + 1), settle, Res.bind_assoc,
              show M.taking c' = M.involved x.spot from by rw [ht.spot]; rfl]]
        exact this
      refine ⟨fun g' x' hn l m hl hm => ?_, fun e x' hn l m hl hm => ?_⟩
      · obtain ⟨m0, s, c, r, rs, b, k, hs, hr, hev, hb, ho⟩ := call _ hn l m hl hm
        cases g' with
        | idle =>
          obtain ⟨a, x'', c', m', rfl, ho, ht, hth⟩ := ho
          exact ended (.answer a) (.ret a) hs hr hev hb ht hl hm rfl (Or.inl ⟨a, ho 0, rfl⟩)
        | rounds first =>
          obtain ⟨c', m', ho, ht⟩ := ho
          exact ⟨m0, s, c, r, rs, b, c', m', k, hs, hr, hev, hb, ht, ho⟩
      · obtain ⟨l1, hl1, _⟩ : ∃ l1, x'.heard = some l1 ∧ _ := (seeNext_coded (M := M) (.rounds first) hx).from' _ hn
        obtain ⟨m1, hm1⟩ : ∃ m1, Mind.hearAll sem d (l1.map (Sign.seen v)) (.start sem w ts) = some m1 := by
          rw [heard_sign hl1] at hl
          cases hl
          exact Mind.hearAll_prefix ((List.prefix_append _ _).map _) hm
        obtain ⟨m0, s, c, r, rs, b, k, hs, hr, hev, hb, c', m', ho, ht⟩ := call _ hn l1 m1 hl1 hm1
        exact ended .exception (.threw (m'.thrown.getD .outOfRange)) hs hr hev hb ht hl hm rfl (Or.inr ⟨_, ho 0, rfl⟩)
  have main : (∃ l, x.heard = some l) ∧ ∀ l m, x.heard = some l →
      Mind.hearAll sem d (l.map (Sign.seen v)) (.start sem w ts) = some m → Attains M v sem d w ts m g x := by
    induction h with
    | start =>
      refine ⟨⟨[], rfl⟩, fun l m hl hm => ?_⟩
      cases hl
      cases hm
      obtain ⟨s, hs⟩ := ((C06_construct (P := P) hM d w).1).2 hC
      exact ⟨s, _, .begin hM hs, rfl⟩
    | ok h hn ih =>
      obtain ⟨⟨l, hl⟩, ih⟩ := ih
      obtain ⟨l', hl', _⟩ := (seeNext_coded (M := M) _ hl).from' _ hn
      exact ⟨⟨l', hl'⟩, (step ⟨l, hl⟩ ih).1 _ _ hn⟩
    | throw h hn ih =>
      obtain ⟨⟨l, hl⟩, ih⟩ := ih
      obtain ⟨l', hl', _⟩ := (seeNext_coded (M := M) _ hl).from' _ hn
      exact ⟨⟨_, heard_sign hl' _⟩, (step ⟨l, hl⟩ ih).2 _ _ hn⟩
  exact main.2

/-! ## The claims -/

theorem Call.seen_bare (k : Call P) : k.bare.seen v = k.remembered v := by cases k <;> rfl

theorem Depicts.remembered (h : Depicts M c s) : c.calls.map (Call.seen v) = s.trace.map (Call.remembered v) := by
  rw [← h.trace, List.map_map]
  exact List.map_congr_left fun k _ => Call.seen_bare k

/-- C89: a client that is served by `M` is served by `M'` in the same way, if whatever clients of `M` observe
some client of `M'` observes.  Neither machine defers events, and the client sends no event of type `none`. -/
theorem C89_replaces (hM : M.Regular) (hM' : M'.Regular)
    (hC' : M'.ScopesReal ∧ (M'.orthogonal = true → M'.declaredInitials M'.root ≠ [])) (hd : M.deferring = false)
    (hd' : M'.deferring = false) (hR : Refines M M' v v')
    (hobj : ∀ st w, M'.selfMade st = true ∨ sem.alive (v' st) w = true) {rs : List Reply}
    (hts : ∀ t ∈ ts, t.event ≠ .none) (h : Served M (sem.seen v) d w ts rs s) :
    ∃ s', Served M' (sem.seen v') d w ts rs s' ∧ s'.world = s.world ∧
      s'.trace.map (Call.remembered v') = s.trace.map (Call.remembered v) := by
  obtain ⟨ss, m, c, ho, hm, hq, hr, hdp, _, _, hw, hk⟩ := h.mind hM hd hts
  obtain ⟨P', W', sem', ss', s', ho', hss⟩ := hR _ _ _ _ _ _ ho
  obtain ⟨c', x, _, _, _, hx, _, _, hh⟩ := ho'.sees (mon := recorder) hM'
  rw [show some recorder.init = some ([] : List Sign) from rfl, recorder_hearAll, List.nil_append] at hh
  have hobj' : ∀ st (c : Conf P W), M'.present (sem.seen v') st c = true := by
    intro st c
    unfold Machine.present
    rcases hobj st c.world with h | h
    · rw [h]; rfl
    · rw [show (sem.seen v').alive st c.world = true from h]; simp
  obtain ⟨s1, c1, hs1, _⟩ := hx.attains hM' hd' hC' hobj' hts ss' m hh (by rw [hss]; exact hm)
  obtain ⟨past, h1, h2⟩ := hs1.served
  rw [hq, List.append_nil] at h1
  subst h1
  rw [hr] at h2
  refine ⟨s1, h2, ?_, ?_⟩
  · rw [hs1.depicts.world, hs1.world, hdp.world, hw]
  · rw [← hs1.depicts.remembered, hs1.calls, ← hdp.remembered, hk]

/-- C89: if nobody can tell the machines apart, every client gets the same from both. -/
theorem C89_interchangeable (hM : M.Regular) (hM' : M'.Regular)
    (hC : M.ScopesReal ∧ (M.orthogonal = true → M.declaredInitials M.root ≠ []))
    (hC' : M'.ScopesReal ∧ (M'.orthogonal = true → M'.declaredInitials M'.root ≠ [])) (hd : M.deferring = false)
    (hd' : M'.deferring = false) (hR : Refines M M' v v') (hR' : Refines M' M v' v)
    (hobj : ∀ st w, M.selfMade st = true ∨ sem.alive (v st) w = true)
    (hobj' : ∀ st w, M'.selfMade st = true ∨ sem.alive (v' st) w = true)
    (hts : ∀ t ∈ ts, t.event ≠ .none) (rs : List Reply) (w' : W) (ks : List (Call P)) :
    (∃ s, Served M (sem.seen v) d w ts rs s ∧ s.world = w' ∧ s.trace.map (Call.remembered v) = ks) ↔
      ∃ s, Served M' (sem.seen v') d w ts rs s ∧ s.world = w' ∧ s.trace.map (Call.remembered v') = ks := by
  constructor
  · rintro ⟨s, h, rfl, rfl⟩
    exact C89_replaces hM hM' hC' hd hd' hR hobj' hts h
  · rintro ⟨s, h, rfl, rfl⟩
    exact C89_replaces hM' hM hC hd' hd hR' hobj hts h

/-! ## Examples -/

namespace Ex

/-- Makes requests one after the other. -/
def serve (M : Machine) (sem : Sem P W) (fuel : Nat) : List (Request P W) → List Reply → SM P W →
    Option (List Reply × SM P W)
  | [], rs, s => some (rs, s)
  | t :: ts, rs, s =>
    if t.event ∈ M.events then
      match step M sem fuel (.process t.event t.payload) { s with world := t.work s.world } with
      | .ok b s' => serve M sem fuel ts (rs ++ [.ret b]) s'
      | .throw x s' => serve M sem fuel ts (rs ++ [.threw x]) s'
      | _ => none
    else none

/-- Constructs a machine and makes requests. -/
def service (M : Machine) (sem : Sem P W) (fuel : Nat) (d : Dep) (w : W) (ts : List (Request P W)) :
    Option (List Reply × SM P W) :=
  match construct M d w with
  | .ok s => serve M sem fuel ts [] s
  | .error _ => none

theorem serve_served {fuel : Nat} : ∀ {ts past : List (Request P W)} {rs rs' : List Reply} {s s' : SM P W},
    Served M sem d w past rs s → serve M sem fuel ts rs s = some (rs', s') → Served M sem d w (past ++ ts) rs' s'
  | [], past, rs, rs', s, s', h, he => by cases he; rwa [List.append_nil]
  | t :: ts, past, rs, rs', s, s', h, he => by
    unfold serve at he
    rw [show past ++ t :: ts = past ++ [t] ++ ts by simp]
    split at he
    · next hev =>
      have hop : OpOk M (.process t.event t.payload) := by
        show t.event ∈ M.eventIds
        rw [← M.events_eq]; exact hev
      split at he
      · next hs => exact serve_served (h.ok hop hs) he
      · next hs => exact serve_served (h.throw hop hs) he
      · cases he
    · cases he

theorem service_served {fuel : Nat} {rs : List Reply} (h : service M sem fuel d w ts = some (rs, s)) :
    Served M sem d w ts rs s := by
  unfold service at h
  split at h
  · next hs => exact serve_served (.init hs) h
  · cases h

theorem exists_served {fuel : Nat} {p : List Reply × SM P W → Bool}
    (h : (service M sem fuel d w ts).any p = true) : ∃ rs s, Served M sem d w ts rs s ∧ p (rs, s) = true := by
  cases hs : service M sem fuel d w ts with
  | none => rw [hs] at h; cases h
  | some x => rw [hs] at h; exact ⟨x.1, x.2, service_served hs, h⟩

/-- Every client gets the same from the nested lamp and from the flat one. -/
example {sem : Sem P W} (ho : ∀ st w, sem.alive st w = true) (hts : ∀ t ∈ ts, t.event ≠ .none) (rs : List Reply)
    (w' : W) (ks : List (Call P)) :
    (∃ s, Served lamp (sem.seen blind) d w ts rs s ∧ s.world = w' ∧ s.trace.map (Call.remembered blind) = ks) ↔
      ∃ s, Served lampFlat (sem.seen blind) d w ts rs s ∧ s.world = w' ∧
        s.trace.map (Call.remembered blind) = ks :=
  C89_interchangeable lamp_regular lampFlat_regular lamp_builds lampFlat_builds (by decide +kernel) (by decide +kernel)
    (C87_refines lamp_regular lampFlat_regular lampFlat_builds (k := 1)
      (S := lamp.watch (lampFlat.shadow blind blind 1) 4) (by decide +kernel) (by decide +kernel))
    (C87_refines lampFlat_regular lamp_regular lamp_builds (k := 1)
      (S := lampFlat.watch (lamp.shadow blind blind 1) 4) (by decide +kernel) (by decide +kernel))
    (fun _ _ => Or.inr (ho _ _)) (fun _ _ => Or.inr (ho _ _)) hts rs w' ks

/-- A client that notes the values of the events its actions get, and whose second action throws when it is
called with 3. -/
def noting : Sem Nat (List Nat) where
  guard _ _ p w := .ok true (p + 1) w
  action a _ p w := if a = 2 ∧ p = 3 then .throw p p (w ++ [p]) else .ok () p (w ++ [p])
  handler _ _ _ _ p w := .ok () p (w ++ [100 + p])
  alive _ _ := true
  nonePayload := 0

/-- It sends 0 three times with the values 1, 2 and 3, and once more. -/
def fourTimes : List (Request Nat (List Nat)) :=
  [⟨id, .user 0, 1⟩, ⟨id, .user 0, 2⟩, ⟨fun w => w ++ [50], .user 0, 3⟩, ⟨id, .user 0, 3⟩]

/-- What it gets from the shuttle without the stop it gets from the one with it. -/
example : ∃ s, Served shuttleVia (noting.seen blind) 7 [] fourTimes
    [.ret true, .ret true, .ret true, .threw (.user 3)] s ∧ s.world = [2, 50, 3] := by
  obtain ⟨rs, s, h, hp⟩ := exists_served (M := shuttle) (sem := noting.seen blind) (fuel := 3) (d := 7) (w := [])
    (ts := fourTimes) (p := fun x => decide (x.1 = [.ret true, .ret true, .ret true, .threw (.user 3)]) &&
      decide (x.2.world = [2, 50, 3])) (by decide +kernel)
  rw [Bool.and_eq_true, decide_eq_true_eq, decide_eq_true_eq] at hp
  obtain ⟨s', h1, h2, -⟩ := C89_replaces (v := blind) (v' := blind) shuttle_regular shuttleVia_regular
    shuttleVia_builds (by decide +kernel) (by decide +kernel)
    (C87_refines shuttle_regular shuttleVia_regular shuttleVia_builds (k := 3)
      (S := shuttle.watch (shuttleVia.shadow blind blind 3) 4) (by decide +kernel) (by decide +kernel))
    (fun _ _ => Or.inr rfl) (by decide +kernel) h
  exact ⟨s', hp.1 ▸ h1, h2.trans hp.2⟩

/-- If the client itself sends an event of type `none`, its value shows whether rows are passed silently. -/
def plainly : Machine := .ofList
  [ { table := some [ row (ini 1) .none none (some 1) (.st 2), row (.st 2) .none none (some 2) (.st 3) ] },
    {}, {}, {}, {} ] [1]

def roundabout : Machine := .ofList
  [ { table := some [ row (ini 1) .none none none (.st 4), row (.st 4) .none none (some 1) (.st 2),
        row (.st 2) .none none (some 2) (.st 3) ] },
    {}, {}, {}, {} ] [1]

theorem plainly_regular : plainly.Regular := Machine.regular_ofList (by decide +kernel)
theorem roundabout_regular : roundabout.Regular := Machine.regular_ofList (by decide +kernel)
theorem roundabout_scoped : roundabout.Scoped := Machine.scoped_of_check (by decide +kernel)

theorem roundabout_builds : roundabout.ScopesReal ∧
    (roundabout.orthogonal = true → roundabout.declaredInitials roundabout.root ≠ []) :=
  ⟨(Machine.scopesReal_iff roundabout_regular).2 ⟨roundabout_scoped.src, roundabout_scoped.comp⟩,
    fun h => absurd h (by decide +kernel)⟩

example : Refines plainly roundabout blind blind :=
  C87_refines plainly_regular roundabout_regular roundabout_builds (k := 4)
    (S := plainly.watch (roundabout.shadow blind blind 4) 8) (by decide +kernel) (by decide +kernel)

example : (service plainly (noting.seen blind) 5 7 [] [⟨id, .none, 7⟩]).map (fun x => x.2.world) = some [7, 0] ∧
    (service roundabout (noting.seen blind) 5 7 [] [⟨id, .none, 7⟩]).map (fun x => x.2.world) = some [0, 0] := by
  decide +kernel

end Ex
end Hsm
