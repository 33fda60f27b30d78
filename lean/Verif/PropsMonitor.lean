import Verif.Monitor
import Verif.PropsChecker
import Verif.Programs

/-!
# C86: rules about what clients observe can be checked
-/

namespace Hsm

variable {P W Q : Type} {E : List EventTy} {M : Machine} {mon : Monitor Q} {sem : Sem P W}

/-! ## What the monitor hears -/

theorem Monitor.hearAll_append (q : Option Q) (a b : List Sign) :
    mon.hearAll q (a ++ b) = mon.hearAll (mon.hearAll q a) b := List.foldl_append

theorem Monitor.hearAll_none : ∀ a : List Sign, mon.hearAll none a = none
  | [] => rfl
  | _ :: a => Monitor.hearAll_none a

/-- The signs of some calls. -/
def signs (l : List (Call P)) : List Sign := l.map fun k => .call k.plain

theorem Call.plain_bare (k : Call P) : k.bare.plain = k.plain := by cases k <;> rfl

/-- The configuration is as `x` says, if the calls `pre` came before and the monitor was at `q` then. -/
structure InView (E : List EventTy) (M : Machine) (mon : Monitor Q) (δ : Dep) (pre : List (Call P)) (q : Option Q) (c : Conf P W)
    (x : Eye Q) : Prop where
  spot : x.spot = M.sight c
  waiting : x.waiting = c.waiting.map Prod.fst
  known : ∀ e ∈ c.waiting, e.1 ∈ E
  deps : c.deps = [δ]
  heard : ∃ l, c.calls = pre ++ l ∧ x.heard = mon.hearAll q (signs l)

/-- What happened is among the possibilities. -/
def Covers {α β : Type} (E : List EventTy) (M : Machine) (mon : Monitor Q) (δ : Dep) (pre : List (Call P)) (q : Option Q) (φ : α → β)
    (r : Res (Conf P W) α) (rs : List (Res (Eye Q) β)) : Prop :=
  match r with
  | .ok a c => ∃ x, .ok (φ a) x ∈ rs ∧ InView E M mon δ pre q c x
  | .throw _ c => ∃ y x, .throw y x ∈ rs ∧ InView E M mon δ pre q c x
  | .ub _ => True
  | .timeout => True

variable {δ : Dep} {pre : List (Call P)} {q : Option Q}

theorem Covers.bind {α β α' β' : Type} {φ : α → β} {φ' : α' → β'} {r : Res (Conf P W) α}
    {rs : List (Res (Eye Q) β)} {f : α → Conf P W → Res (Conf P W) α'}
    {f' : β → Eye Q → List (Res (Eye Q) β')} (h : Covers E M mon δ pre q φ r rs)
    (hf : ∀ a c x, InView E M mon δ pre q c x → Covers E M mon δ pre q φ' (f a c) (f' (φ a) x)) :
    Covers E M mon δ pre q φ' (r.bind f) (branch rs f') := by
  cases r with
  | ok a c =>
    obtain ⟨x, hx, ha⟩ := h
    have h2 := hf a c x ha
    show Covers E M mon δ pre q φ' (f a c) _
    revert h2
    cases f a c with
    | ok b c2 => rintro ⟨y, hy, h⟩; exact ⟨y, mem_branch.2 (Or.inl ⟨_, _, hx, hy⟩), h⟩
    | throw e c2 => rintro ⟨e', y, hy, h⟩; exact ⟨e', y, mem_branch.2 (Or.inl ⟨_, _, hx, hy⟩), h⟩
    | ub u => exact id
    | timeout => exact id
  | throw e c =>
    obtain ⟨e', x, hx, h⟩ := h
    exact ⟨e', x, mem_branch.2 (Or.inr (Or.inl ⟨_, _, hx, rfl⟩)), h⟩
  | ub u => trivial
  | timeout => trivial

theorem Covers.mono {α β : Type} {φ : α → β} {r : Res (Conf P W) α} {rs rs' : List (Res (Eye Q) β)}
    (h : Covers E M mon δ pre q φ r rs) (hs : ∀ x ∈ rs, x ∈ rs') : Covers E M mon δ pre q φ r rs' := by
  cases r with
  | ok a c => obtain ⟨x, hx, h⟩ := h; exact ⟨x, hs _ hx, h⟩
  | throw e c => obtain ⟨y, x, hx, h⟩ := h; exact ⟨y, x, hs _ hx, h⟩
  | ub u => trivial
  | timeout => trivial

theorem Covers.done {α β : Type} {φ : α → β} {a : α} {c : Conf P W} {x : Eye Q}
    (h : InView E M mon δ pre q c x) : Covers E M mon δ pre q φ (.ok a c) [.ok (φ a) x] :=
  ⟨x, List.mem_singleton.2 rfl, h⟩

theorem InView.note {c : Conf P W} {x : Eye Q} (h : InView E M mon δ pre q c x) (k : Call P) (w : W) :
    InView E M mon δ pre q { c with world := w, calls := c.calls ++ [k] }
      (Machine.seeSign mon (.call k.plain) x) where
  spot := h.spot
  waiting := h.waiting
  known := h.known
  deps := h.deps
  heard := by
    obtain ⟨l, h1, h2⟩ := h.heard
    refine ⟨l ++ [k], by show c.calls ++ [k] = _; rw [h1, List.append_assoc], ?_⟩
    show mon.hear x.heard _ = _
    rw [h2, signs, signs, List.map_append, Monitor.hearAll_append]
    rfl

namespace Machine

theorem travel_covers {c : Conf P W} {x : Eye Q} (h : InView E M mon δ pre q c x) (r : Nat) (t : XRow)
    (l : Name × StTy) :
    Covers E M mon δ pre q (fun _ => ()) (M.travel r t l c) [M.seeTravel r t l x] := by
  have ht := travel_sight (M := M) r t l c
  unfold seeTravel
  rw [h.spot]
  revert ht
  cases M.travel r t l c with
  | ok a c' =>
    rintro ⟨e, hw, hd, _, hk⟩
    rw [e]
    refine ⟨{ x with spot := M.sight c' }, List.mem_singleton.2 rfl, rfl, ?_, ?_, ?_, ?_⟩
    · rw [hw]; exact h.waiting
    · rw [hw]; exact h.known
    · rw [hd]; exact h.deps
    · rw [hk]; exact h.heard
  | throw e c' => intro ht; exact ht.elim
  | ub u => intro _; trivial
  | timeout => intro _; trivial

theorem ask_covers {c : Conf P W} {x : Eye Q} (h : InView E M mon δ pre q c x) (ev : EventTy) (d : Dep) (cd : Cand)
    (t : XRow) (l : Name × StTy) (p : P) :
    Covers E M mon δ pre q Prod.fst (M.ask sem ev d cd t l p c) (seeAsk mon ev cd t l x) := by
  unfold ask seeAsk
  cases t.guard with
  | none => exact .done h
  | some g =>
    dsimp only
    generalize (if t.internal = true then cd.src else l.2) = dst
    split
    · cases sem.guard g ⟨ev, cd.src, dst, false, d⟩ p c.world with
      | ok b p' w =>
        refine ⟨_, ?_, h.note (.guard g ⟨ev, cd.src, dst, false, d⟩ p (some b) []) w⟩
        cases b
        · exact List.mem_cons_of_mem _ (List.mem_cons_of_mem _ List.mem_cons_self)
        · exact List.mem_cons_of_mem _ List.mem_cons_self
      | throw k p' w =>
        exact ⟨_, _, List.mem_cons_self, h.note (.guard g ⟨ev, cd.src, dst, false, d⟩ p none []) w⟩
      | ub => trivial
    · trivial

theorem perform_covers {args args' : Args} (ha : { args with dep := 0 } = args') :
    ∀ (cs : List (Phase × Cb)) (p : P) {c : Conf P W} {x : Eye Q}, InView E M mon δ pre q c x →
    Covers E M mon δ pre q (fun _ => ()) (perform sem args cs p c) (seePerform mon args' cs x)
  | [], _, _, _, h => .done h
  | (ph, a) :: cs, p, c, x, h => by
    subst ha
    unfold perform seePerform
    cases sem.action a args p c.world with
    | ok b p' w =>
      exact (perform_covers rfl cs p' (h.note (.action ph a args p false []) w)).mono fun y hy =>
        List.mem_cons_of_mem _ hy
    | throw k p' w => exact ⟨_, _, List.mem_cons_self, h.note (.action ph a args p true []) w⟩
    | ub => trivial

theorem take_covers {c : Conf P W} {x : Eye Q} (h : InView E M mon δ pre q c x) (r : Nat) (ev : EventTy) (d : Dep)
    (cd : Cand) (t : XRow) (l : Name × StTy) (p : P) :
    Covers E M mon δ pre q (fun _ => ()) (M.take sem r ev d cd t l p c) (M.seeTake mon r ev cd t l x) := by
  unfold take seeTake
  refine (travel_covers h r t l).bind fun _ c x h => ?_
  cases M.toRun t with
  | none => exact .done h
  | some cs =>
    dsimp only
    split
    · exact perform_covers rfl cs p h
    · trivial

theorem attempt_covers (anon : Bool) (r : Nat) {ev : EventTy} (hev : ev ∈ E) (d : Dep) :
    ∀ (cs : List Cand) (p : P) {c : Conf P W} {x : Eye Q}, InView E M mon δ pre q c x →
    Covers E M mon δ pre q Prod.fst (M.attempt sem anon r ev (cs.map fun cd => (d, cd)) p c)
      (M.seeAttempt mon anon r ev cs x)
  | [], p, c, x, h => .done h
  | cd :: cs, p, c, x, h => by
    rw [List.map_cons]
    unfold attempt seeAttempt
    cases cd.row? with
    | none =>
      cases anon with
      | true => trivial
      | false =>
        refine ⟨_, List.mem_singleton.2 rfl, h.spot, ?_, ?_, h.deps, h.heard⟩
        · show x.waiting ++ [ev] = (c.waiting ++ [(ev, p)]).map Prod.fst
          rw [h.waiting, List.map_append]; rfl
        · intro e he
          rcases List.mem_append.1 he with he | he
          · exact h.known e he
          · rw [List.mem_singleton.1 he]; exact hev
    | some t =>
      dsimp only
      cases M.targetLoc t with
      | none => trivial
      | some l =>
        dsimp only
        refine (ask_covers h ev d cd t l p).bind fun a c x h => ?_
        cases a.1 with
        | true =>
          exact Covers.bind (φ := fun _ => ()) (take_covers h r ev d cd t l a.2) fun p c x h => .done h
        | false => exact attempt_covers anon r hev d cs a.2 h

theorem visit_covers {c : Conf P W} {x : Eye Q} (h : InView M.events M mon δ pre q c x) (anon : Bool) (r : Nat)
    {ev : EventTy} (hev : ev ∈ M.events) (p : P) :
    Covers M.events M mon δ pre q Prod.fst (M.visit sem anon r ev p c) (M.seeVisit mon anon r ev x) := by
  unfold visit seeVisit seek
  rw [h.spot]
  rw [show (M.sight c).slots = c.slots from rfl]
  rcases c.slots[r]? with _ | _ | l
  · trivial
  · trivial
  · show Covers M.events M mon δ pre q Prod.fst (if l.1 ∈ M.composites then _ else _)
      (if l.1 ∈ M.composites then _ else _)
    split
    · split
      · exact .done h
      · have hd := h.deps
        rw [hd, List.flatMap_cons, List.flatMap_nil, List.append_nil]
        exact attempt_covers anon r hev δ _ p h
    · trivial

theorem sweep_covers {ev : EventTy} (hev : ev ∈ M.events) : ∀ (rs : List Nat) (os : List RegionOut) (p : P)
    {c : Conf P W} {x : Eye Q}, InView M.events M mon δ pre q c x →
    Covers M.events M mon δ pre q Prod.fst (M.sweep sem ev rs os p c) (M.seeSweep mon ev rs os x)
  | [], _, _, _, _, h => .done h
  | r :: rs, os, p, c, x, h => by
    unfold sweep seeSweep
    refine (visit_covers h false r hev p).bind fun o c x h => ?_
    split
    · exact .done h
    · exact sweep_covers hev rs _ _ h

theorem round_covers (hev : EventTy.none ∈ M.events) : ∀ (rs : List Nat) (os : List RegionOut) (p : P)
    {c : Conf P W} {x : Eye Q}, InView M.events M mon δ pre q c x →
    Covers M.events M mon δ pre q Prod.fst (M.round sem rs os p c) (M.seeRound mon rs os x)
  | [], _, _, _, _, h => .done h
  | r :: rs, os, p, c, x, h => by
    unfold round seeRound
    refine (visit_covers h true r hev p).bind fun o c x h => ?_
    split
    · exact .done h
    · exact round_covers hev rs _ _ h

theorem complain_covers {c : Conf P W} {x : Eye Q} (h : InView E M mon δ pre q c x) (ev : EventTy) (p : P) :
    Covers E M mon δ pre q id (M.complain sem ev p c) (M.seeComplain mon ev x) := by
  unfold complain seeComplain
  cases (M.decl M.root).handler with
  | none => exact .done h
  | some k =>
    dsimp only
    unfold seek
    rw [h.spot]
    rw [show (M.sight c).slots = c.slots from rfl]
    rcases c.slots[0]? with _ | _ | l
    · trivial
    · trivial
    · show Covers E M mon δ pre q id (if l.1 ∈ M.composites then _ else _) (if l.1 ∈ M.composites then _ else _)
      split
      · split
        · cases sem.handler k ev l.2 c.first p c.world with
          | ok b p' w => exact ⟨_, List.mem_cons_self, h.note (.handler k ev l.2 c.first p false []) w⟩
          | throw e p' w =>
            exact ⟨_, _, List.mem_cons_of_mem _ List.mem_cons_self, h.note (.handler k ev l.2 c.first p true []) w⟩
          | ub => trivial
        · trivial
      · exact ⟨_, _, List.mem_singleton.2 rfl, h⟩

/-! ## Whole calls -/

/-- All of these steps may be taken. -/
def Legit (M : Machine) (mon : Monitor Q) (rs : List (Res (Eye Q) Stage)) : Prop :=
  (∀ g x, .ok g x ∈ rs → M.Sees mon g x) ∧
    ∀ e x, .throw e x ∈ rs → M.Sees mon .idle (seeSign mon .exception x)

theorem Sees.legit {g : Stage} {x : Eye Q} (h : M.Sees mon g x) : Legit M mon (M.seeNext mon g x) :=
  ⟨fun _ _ hn => h.ok hn, fun _ _ hn => h.throw hn⟩

theorem Legit.answer {b : Bool} {x : Eye Q} (h : Legit M mon (seeAnswer mon b x)) :
    M.Sees mon .idle (seeSign mon (.answer b) x) := h.1 _ _ List.mem_cons_self

/-- Where a part of a call ends. -/
def Ends {α : Type} (M : Machine) (mon : Monitor Q) (δ : Dep) (pre : List (Call P)) (q : Option Q)
    (V : α → Eye Q → Prop) (r : Res (Conf P W) α) : Prop :=
  match r with
  | .ok a c => ∃ x, V a x ∧ InView M.events M mon δ pre q c x
  | .throw _ c => ∃ x, M.Sees mon .idle (seeSign mon .exception x) ∧ InView M.events M mon δ pre q c x
  | .ub _ => True
  | .timeout => True

theorem Ends.bind {α β : Type} {V : α → Eye Q → Prop} {V' : β → Eye Q → Prop} {r : Res (Conf P W) α}
    {f : α → Conf P W → Res (Conf P W) β} (h : Ends M mon δ pre q V r)
    (hf : ∀ a c x, V a x → InView M.events M mon δ pre q c x → Ends M mon δ pre q V' (f a c)) :
    Ends M mon δ pre q V' (r.bind f) := by
  cases r with
  | ok a c => obtain ⟨x, hv, ha⟩ := h; exact hf a c x hv ha
  | throw e c => exact h
  | ub u => trivial
  | timeout => trivial

theorem covers_ends {α β : Type} {φ : α → β} {r : Res (Conf P W) α} {rs : List (Res (Eye Q) β)}
    {f' : β → Eye Q → List (Res (Eye Q) Stage)} (h : Covers M.events M mon δ pre q φ r rs)
    (hL : Legit M mon (branch rs f')) :
    Ends M mon δ pre q (fun a x => Legit M mon (f' (φ a) x)) r := by
  cases r with
  | ok a c =>
    obtain ⟨y, hy, ha⟩ := h
    exact ⟨y, ⟨fun g' z hz => hL.1 _ _ (mem_branch.2 (Or.inl ⟨_, _, hy, hz⟩)),
      fun e z hz => hL.2 _ _ (mem_branch.2 (Or.inl ⟨_, _, hy, hz⟩))⟩, ha⟩
  | throw e c =>
    obtain ⟨e', y, hy, ha⟩ := h
    exact ⟨y, hL.2 _ _ (mem_branch.2 (Or.inr (Or.inl ⟨_, _, hy, rfl⟩))), ha⟩
  | ub u => trivial
  | timeout => trivial

theorem taking_involved {c : Conf P W} {x : Eye Q} (h : InView E M mon δ pre q c x) :
    M.taking c = M.involved x.spot := by rw [h.spot]; rfl

theorem settle_ends (hev : EventTy.none ∈ M.events) {first : Bool} : ∀ (fuel : Nat) (p : P) {c : Conf P W}
    {x : Eye Q}, InView M.events M mon δ pre q c x → M.Sees mon (.rounds first) x →
    Ends M mon δ pre q (fun _ x => Legit M mon (if first then M.seeReplay mon x else seeAnswer mon true x))
      (M.settle sem fuel p c)
  | 0, _, _, _, _, _ => trivial
  | fuel + 1, p, c, x, h, hs => by
    unfold settle
    rw [taking_involved h]
    refine (covers_ends (round_covers hev _ _ p h) hs.legit).bind fun a c x hL h => ?_
    cases ha : a.1 with
    | true =>
      rw [ha] at hL
      exact settle_ends hev fuel _ h (hL.1 _ _ List.mem_cons_self)
    | false => rw [ha] at hL; exact ⟨x, hL, h⟩

theorem handle_ends {first : Bool} {k : List RegionOut → Eye Q → List (Res (Eye Q) Stage)} (fuel : Nat)
    {ev : EventTy} (hev : ev ∈ M.events) (p : P) {c : Conf P W} {x : Eye Q} (h : InView M.events M mon δ pre q c x)
    (hL : Legit M mon (branch (M.seeSweep mon ev (M.involved x.spot) [] x) fun os x =>
      if .deferred ∉ os ∧ .fired ∈ os ∧ M.anonymous then [.ok (.rounds first) x] else k os x)) :
    Ends M mon δ pre q (fun a x => if .deferred ∉ a.1 ∧ .fired ∈ a.1 ∧ M.anonymous then
        Legit M mon (if first then M.seeReplay mon x else seeAnswer mon true x)
      else Legit M mon (k a.1 x)) (M.handle sem fuel ev p c) := by
  unfold handle
  rw [taking_involved h]
  refine (covers_ends (sweep_covers hev _ _ p h) hL).bind fun a c x hL h => ?_
  by_cases hc : .deferred ∉ a.1 ∧ .fired ∈ a.1 ∧ M.anonymous
  · rw [if_pos hc] at hL ⊢
    refine (settle_ends (none_event hc.2.2) fuel _ h (hL.1 _ _ List.mem_cons_self)).bind
      fun _ c x hL h => ?_
    exact ⟨x, by dsimp only; rw [if_pos hc]; exact hL, h⟩
  · rw [if_neg hc] at hL ⊢
    exact ⟨x, by dsimp only; rw [if_neg hc]; exact hL, h⟩

theorem replay_ends (fuel : Nat) {c : Conf P W} {x : Eye Q} (h : InView M.events M mon δ pre q c x)
    (hL : Legit M mon (M.seeReplay mon x)) :
    Ends M mon δ pre q (fun _ x => Legit M mon (seeAnswer mon true x)) (M.replay sem fuel c) := by
  unfold replay
  unfold seeReplay at hL
  rw [h.waiting] at hL
  cases hq : c.waiting with
  | nil => rw [hq] at hL; exact ⟨x, hL, h⟩
  | cons y l =>
    obtain ⟨ev, p⟩ := y
    rw [hq] at hL
    rw [List.map_cons] at hL
    dsimp only at hL ⊢
    by_cases hd : M.deferring = true
    · rw [if_pos hd] at hL ⊢
      have h' : InView M.events M mon δ pre q { c with waiting := l } { x with waiting := l.map Prod.fst } :=
        { h with
          waiting := rfl
          known := fun e he => h.known e (by rw [hq]; exact List.mem_cons_of_mem _ he) }
      refine (handle_ends (first := false) (k := fun _ x => seeAnswer mon true x) fuel
        (h.known (ev, p) (by rw [hq]; exact List.mem_cons_self)) p h' hL).bind fun a c x hL h => ?_
      refine ⟨x, ?_, h⟩
      split at hL <;> exact hL
    · rw [if_neg hd] at hL ⊢
      exact ⟨x, hL, h⟩

theorem receive_ends (fuel : Nat) {ev : EventTy} (hev : ev ∈ M.events) (p : P) {c : Conf P W} {x : Eye Q}
    (h : InView M.events M mon δ pre q c x) (hL : Legit M mon (M.seeReceive mon ev x)) :
    Ends M mon δ pre q (fun b x => M.Sees mon .idle (seeSign mon (.answer b) x))
      (M.receive sem fuel ev p c) := by
  have e : M.seeReceive mon ev x = branch (M.seeSweep mon ev (M.involved x.spot) [] x) fun os x =>
      if .deferred ∉ os ∧ .fired ∈ os ∧ M.anonymous then [.ok (.rounds true) x]
      else if .deferred ∈ os then seeAnswer mon false x
        else if .fired ∈ os then M.seeReplay mon x
        else if .rejected ∈ os then seeAnswer mon false x
        else branch (M.seeComplain mon ev x) fun _ x => seeAnswer mon false x := by
    unfold seeReceive
    congr 1
    funext os x
    by_cases h1 : RegionOut.deferred ∈ os
    · simp [h1]
    · by_cases h2 : RegionOut.fired ∈ os
      · by_cases h3 : M.anonymous = true
        · simp [h1, h2, h3]
        · simp [h1, h2, h3]
      · simp [h1, h2]
  rw [e] at hL
  unfold receive
  refine (handle_ends fuel hev p h hL).bind fun a c x hL h => ?_
  by_cases h1 : RegionOut.deferred ∈ a.1
  · rw [if_neg (fun h => h.1 h1), if_pos h1] at hL
    rw [if_pos h1]
    exact ⟨x, hL.answer, h⟩
  rw [if_neg h1]
  by_cases h2 : RegionOut.fired ∈ a.1
  · rw [if_pos h2]
    have hr : Legit M mon (M.seeReplay mon x) := by
      by_cases h3 : M.anonymous = true
      · rw [if_pos ⟨h1, h2, h3⟩] at hL; exact hL
      · rw [if_neg (fun h => h3 h.2.2), if_neg h1, if_pos h2] at hL; exact hL
    exact (replay_ends fuel h hr).bind fun _ c x hL h => ⟨x, hL.answer, h⟩
  rw [if_neg (fun h => h2 h.2.1), if_neg h1, if_neg h2] at hL
  rw [if_neg h2]
  by_cases h3 : RegionOut.rejected ∈ a.1
  · rw [if_pos h3] at hL ⊢
    exact ⟨x, hL.answer, h⟩
  · rw [if_neg h3] at hL ⊢
    exact (covers_ends (complain_covers h ev a.2) hL).bind fun _ c x hL h => ⟨x, hL.answer, h⟩

end Machine

/-! ## Soundness -/

theorem InView.begin {c : Conf P W} {x : Eye Q} (h1 : x.spot = M.sight c)
    (h2 : x.waiting = c.waiting.map Prod.fst) (h3 : ∀ e ∈ c.waiting, e.1 ∈ E)
    (h4 : c.deps = [δ]) : InView E M mon δ c.calls x.heard c x :=
  ⟨h1, h2, h3, h4, [], (List.append_nil _).symm, rfl⟩

theorem Depicts.since {c c' : Conf P W} {s s' : SM P W} (h : Depicts M c s) (h' : Depicts M c' s')
    {l : List (Call P)} (hl : c'.calls = c.calls ++ l) : callsSince s s' = signs l := by
  have e : (s'.trace.drop s.trace.length).map Call.bare = l := by
    rw [List.map_drop, h'.trace, hl, ← h.trace, List.drop_append_of_le_length (by simp)]
    simp
  unfold callsSince signs
  rw [← e, List.map_map]
  exact List.map_congr_left fun k _ => by show _ = Sign.call k.bare.plain; rw [Call.plain_bare]

theorem Observed.runs {d : Dep} {ss : List Sign} {s : SM P W} (h : Observed M sem d ss s) :
    ∃ ops, RunTo M sem d ops s := by
  induction h with
  | init h => exact ⟨_, .init h⟩
  | ok _ hop h ih => obtain ⟨ops, ih⟩ := ih; exact ⟨_, .ok ih hop h⟩
  | throw _ hop h ih => obtain ⟨ops, ih⟩ := ih; exact ⟨_, .throw ih hop h⟩
  | world _ w ih => obtain ⟨ops, ih⟩ := ih; exact ⟨_, .world ih w⟩

/-- The machine is at a place that may be the case after the monitor heard `ss`. -/
def Watched (M : Machine) (mon : Monitor Q) (d : Dep) (ss : List Sign) (s : SM P W) : Prop :=
  ∃ c x, Depicts M c s ∧ c.deps = [d] ∧ (∀ e ∈ c.waiting, e.1 ∈ M.events) ∧
    M.Sees mon .idle x ∧ x.spot = M.sight c ∧ x.waiting = c.waiting.map Prod.fst ∧
    x.heard = mon.hearAll (some mon.init) ss

/-- What a client observes, and where its machine is, is among what may be the case. -/
theorem Observed.sees (hM : M.Regular) {d : Dep} {ss : List Sign} {s : SM P W}
    (h : Observed M sem d ss s) : Watched M mon d ss s := by
  have step : ∀ {ss : List Sign} {s s' : SM P W} {ev : EventTy} {p : P} {fuel : Nat},
      Observed M sem d ss s → OpOk M (.process ev p) →
      Watched M mon d ss s → ∀ last : Sign,
      ((∃ b, step M sem fuel (.process ev p) s = .ok b s' ∧ last = .answer b) ∨
        ∃ e, step M sem fuel (.process ev p) s = .throw e s' ∧ last = .exception) →
      Watched M mon d (ss ++ .event ev :: callsSince s s' ++ [last]) s' := by
    intro ss s s' ev p fuel hr hop ih last hst
    obtain ⟨c, x, hc, hd, hk, hs, h1, h2, h3⟩ := ih
    obtain ⟨ops, hr⟩ := hr.runs
    have hev : ev ∈ M.events := by rw [M.events_eq]; exact hop
    have hx := C77_step (sem := sem) hc hM (hr.scopes hM) fuel hop
    have hL : Machine.Legit M mon (M.seeReceive mon ev (Machine.seeSign mon (.event ev) x)) :=
      ⟨fun g y hy => hs.ok (List.mem_flatMap.2 ⟨ev, hev, hy⟩),
        fun e y hy => hs.throw (List.mem_flatMap.2 ⟨ev, hev, hy⟩)⟩
    have hb : InView M.events M mon d c.calls (Machine.seeSign mon (.event ev) x).heard c
      (Machine.seeSign mon (.event ev) x) := .begin h1 h2 hk hd
    have hR := Machine.receive_ends (sem := sem) fuel hev p hb hL
    have he : M.exec sem fuel (.process ev p) c = M.receive sem fuel ev p c := rfl
    rw [he] at hx
    have fin : ∀ (c' : Conf P W) (y : Eye Q), Depicts M c' s' →
        InView M.events M mon d c.calls (Machine.seeSign mon (.event ev) x).heard c' y →
        M.Sees mon .idle (Machine.seeSign mon last y) →
        Watched M mon d (ss ++ .event ev :: callsSince s s' ++ [last]) s' := fun c' y hc' hy hS => by
      obtain ⟨l, hl, hh⟩ := hy.heard
      refine ⟨c', Machine.seeSign mon last y, hc', hy.deps, hy.known, hS, hy.spot, hy.waiting, ?_⟩
      show mon.hear y.heard last = _
      rw [hc.since hc' hl, Monitor.hearAll_append, Monitor.hearAll_append, ← h3, hh]
      rfl
    rcases hst with ⟨b, hst, rfl⟩ | ⟨e, hst, rfl⟩
    · rw [hst] at hx
      cases hc' : M.receive sem fuel ev p c with
      | ok b' c' =>
        rw [hc'] at hx hR
        obtain ⟨rfl, hx⟩ := hx
        obtain ⟨y, hS, hy⟩ := hR
        exact fin c' y hx hy hS
      | _ => rw [hc'] at hx; exact hx.elim
    · rw [hst] at hx
      cases hc' : M.receive sem fuel ev p c with
      | throw e' c' =>
        rw [hc'] at hx hR
        obtain ⟨rfl, hx⟩ := hx
        obtain ⟨y, hS, hy⟩ := hR
        exact fin c' y hx hy hS
      | _ => rw [hc'] at hx; exact hx.elim
  induction h with
  | @init w s h =>
    exact ⟨_, _, C77_construct hM h, rfl, fun _ h => (nomatch h), .start, rfl, rfl, rfl⟩
  | ok hr hop h ih => exact step hr hop ih _ (Or.inl ⟨_, h, rfl⟩)
  | throw hr hop h ih => exact step hr hop ih _ (Or.inr ⟨_, h, rfl⟩)
  | world _ w ih =>
    obtain ⟨c, x, hc, h⟩ := ih
    exact ⟨{ c with world := w }, x, { hc with world := rfl }, h⟩

/-! ## Every possibility is some client's -/

section
variable {tape : Sem Unit W} {T : Dictates tape}

/-- The outcome `o` is what `y` says, and the rest of the script is left. -/
def PlayedOut {α β : Type} (E : List EventTy) (M : Machine) (mon : Monitor Q) (δ : Dep) (ψ : β → α) (pre : List (Call Unit))
    (q : Option Q) (rest : W) (o : Res (Conf Unit W) α) : Res (Eye Q) β → Prop
  | .ok b x' => ∃ c', o = .ok (ψ b) c' ∧ InView E M mon δ pre q c' x' ∧ c'.world = rest
  | .throw _ x' => ∃ e c', o = .throw e c' ∧ InView E M mon δ pre q c' x' ∧ c'.world = rest
  | _ => True

/-- With some script, `g` started as `x` says ends as `y` says. -/
def Realizes {α β : Type} (E : List EventTy) (T : Dictates tape) (M : Machine) (mon : Monitor Q) (δ : Dep) (ψ : β → α)
    (g : Conf Unit W → Res (Conf Unit W) α) (x : Eye Q) (y : Res (Eye Q) β) : Prop :=
  ∃ v, ∀ pre q c rest, InView E M mon δ pre q c x → c.world = T.feed v rest →
    PlayedOut E M mon δ ψ pre q rest (g c) y

theorem Realizes.bind {α β α' β' : Type} {ψ : β → α} {ψ' : β' → α'}
    {g : Conf Unit W → Res (Conf Unit W) α} {f : α → Conf Unit W → Res (Conf Unit W) α'} {x : Eye Q}
    {rs : List (Res (Eye Q) β)} {f' : β → Eye Q → List (Res (Eye Q) β')} {y : Res (Eye Q) β'}
    (hy : y ∈ branch rs f') (hg : ∀ z ∈ rs, Realizes E T M mon δ ψ g x z)
    (hf : ∀ b x', .ok b x' ∈ rs → y ∈ f' b x' → Realizes E T M mon δ ψ' (f (ψ b)) x' y) :
    Realizes E T M mon δ ψ' (fun c => (g c).bind f) x y := by
  rcases mem_branch.1 hy with ⟨b, x', h1, h2⟩ | ⟨e, x', h1, rfl⟩ | ⟨u, h1, rfl⟩ | ⟨h1, rfl⟩
  · obtain ⟨v1, hv1⟩ := hg _ h1
    obtain ⟨v2, hv2⟩ := hf b x' h1 h2
    refine ⟨v1 ++ v2, fun pre q c rest hc hw => ?_⟩
    obtain ⟨c1, e1, hc1, hw1⟩ := hv1 pre q c (T.feed v2 rest) hc (by rw [hw, T.feed_append])
    have := hv2 pre q c1 rest hc1 hw1
    dsimp only
    rw [e1]
    exact this
  · obtain ⟨v1, hv1⟩ := hg _ h1
    refine ⟨v1, fun pre q c rest hc hw => ?_⟩
    obtain ⟨e, c1, e1, hc1, hw1⟩ := hv1 pre q c rest hc hw
    exact ⟨e, c1, by dsimp only; rw [e1]; rfl, hc1, hw1⟩
  · exact ⟨[], fun _ _ _ _ _ _ => trivial⟩
  · exact ⟨[], fun _ _ _ _ _ _ => trivial⟩

theorem Realizes.done {α β : Type} {ψ : β → α} {b : β} {x : Eye Q} :
    Realizes E T M mon δ ψ (fun c => .ok (ψ b) c) x (.ok b x) :=
  ⟨[], fun _ _ c _ hc hw => ⟨c, rfl, hc, hw⟩⟩

theorem Realizes.ub {α β : Type} {ψ : β → α} {g : Conf Unit W → Res (Conf Unit W) α} {x : Eye Q} {u : UB} :
    Realizes E T M mon δ ψ g x (.ub u) := ⟨[], fun _ _ _ _ _ _ => trivial⟩

/-- It is enough to consider configurations that are as `x` says. -/
theorem Realizes.congr {α β : Type} {ψ : β → α} {g g' : Conf Unit W → Res (Conf Unit W) α} {x : Eye Q}
    {y : Res (Eye Q) β} (h : Realizes E T M mon δ ψ g x y)
    (he : ∀ pre q c, InView E M mon δ pre q c x → g' c = g c) : Realizes E T M mon δ ψ g' x y := by
  obtain ⟨v, hv⟩ := h
  refine ⟨v, fun pre q c rest hc hw => ?_⟩
  rw [he pre q c hc]
  exact hv pre q c rest hc hw

namespace Machine

theorem perform_realizes {args args' : Args} (ha : { args with dep := 0 } = args') :
    ∀ (cs : List (Phase × Cb)) (x : Eye Q) (y : Res (Eye Q) Unit), y ∈ seePerform mon args' cs x →
    Realizes E T M mon δ (fun _ => ()) (perform tape args cs ()) x y
  | [], x, y, h => by rw [List.mem_singleton.1 h]; exact .done
  | (ph, a) :: cs, x, y, h => by
    rcases List.mem_cons.1 h with rfl | h
    · refine ⟨[none], fun pre q c rest hc hw => ?_⟩
      subst ha
      rw [perform, hw, T.feed_cons, T.action]
      exact ⟨_, _, rfl, hc.note (.action ph a args () true []) rest, rfl⟩
    · obtain ⟨v, hv⟩ := perform_realizes ha cs _ y h
      refine ⟨some true :: v, fun pre q c rest hc hw => ?_⟩
      rw [perform, hw, T.feed_cons, T.action]
      subst ha
      exact hv pre q _ rest (hc.note (.action ph a args () false []) _) rfl

theorem travel_realizes (r : Nat) (t : XRow) (l : Name × StTy) (x : Eye Q) :
    Realizes E T M mon δ (fun _ => ()) (M.travel r t l) x (M.seeTravel r t l x) := by
  refine ⟨[], fun pre q c rest hc hw => ?_⟩
  have h := travel_covers hc r t l
  have hs := travel_sight (M := M) r t l c
  revert h hs
  cases M.travel r t l c with
  | ok a c' =>
    rintro ⟨x', hx, h⟩ hs
    rw [← List.mem_singleton.1 hx]
    exact ⟨c', rfl, h, by rw [hs.2.2.2.1]; exact hw⟩
  | throw e c' => intro _ hs; exact hs.elim
  | ub u =>
    intro _ hs
    unfold seeTravel
    rw [hc.spot, hs]
    trivial
  | timeout => intro _ hs; exact hs.elim

theorem ask_realizes (ev : EventTy) (d : Dep) (cd : Cand) (t : XRow) (l : Name × StTy) (x : Eye Q)
    (y : Res (Eye Q) Bool) (hy : y ∈ seeAsk mon ev cd t l x) :
    Realizes E T M mon δ (fun b => (b, ())) (M.ask tape ev d cd t l ()) x y := by
  unfold seeAsk at hy
  cases hg : t.guard with
  | none =>
    rw [hg] at hy
    rw [List.mem_singleton.1 hy]
    refine Realizes.done.congr fun _ _ c _ => ?_
    unfold ask
    rw [hg]
  | some g =>
    rw [hg] at hy
    have key : ∀ (b : Option Bool) c rest, c.world = T.push b rest →
        M.ask tape ev d cd t l () c = match b with
          | none => .throw (.user 0) { c with
              world := rest
              calls := c.calls ++ [.guard g ⟨ev, cd.src, if t.internal then cd.src else l.2, false, d⟩
                () none []] }
          | some b => .ok (b, ()) { c with
              world := rest
              calls := c.calls ++ [.guard g ⟨ev, cd.src, if t.internal then cd.src else l.2, false, d⟩
                () (some b) []] } := by
      intro b c rest hw
      unfold ask
      rw [hg]
      simp only [T.present, Bool.and_self, if_true]
      rw [hw, T.guard]
      cases b <;> rfl
    dsimp only at hy
    have rest_ : ∀ b : Bool, Realizes E T M mon δ (fun b => (b, ())) (M.ask tape ev d cd t l ()) x
        (.ok b (seeSign mon (.call (.guard g ⟨ev, cd.src, if t.internal then cd.src else l.2, false, 0⟩ ()
          (some b) [])) x)) := fun b => by
      refine ⟨[some b], fun pre q c rest hc hw => ⟨_, key (some b) c rest hw, ?_, rfl⟩⟩
      exact hc.note (.guard g ⟨ev, cd.src, if t.internal then cd.src else l.2, false, d⟩ () (some b) []) rest
    rcases List.mem_cons.1 hy with rfl | hy
    · refine ⟨[none], fun pre q c rest hc hw => ⟨_, _, key none c rest hw, ?_, rfl⟩⟩
      exact hc.note (.guard g ⟨ev, cd.src, if t.internal then cd.src else l.2, false, d⟩ () none []) rest
    · rcases List.mem_cons.1 hy with rfl | hy
      · exact rest_ true
      · rw [List.mem_singleton.1 hy]; exact rest_ false

theorem take_realizes (r : Nat) (ev : EventTy) (d : Dep) (cd : Cand) (t : XRow) (l : Name × StTy)
    (x : Eye Q) (y : Res (Eye Q) Unit) (hy : y ∈ M.seeTake mon r ev cd t l x) :
    Realizes E T M mon δ (fun _ => ()) (M.take tape r ev d cd t l ()) x y := by
  unfold take
  refine Realizes.bind (ψ := fun _ => ()) hy (fun z hz => ?_) fun _ x' _ hy => ?_
  · rw [List.mem_singleton.1 hz]; exact travel_realizes r t l x
  · revert hy
    cases M.toRun t with
    | none => intro hy; rw [List.mem_singleton.1 hy]; exact .done
    | some cs =>
      intro hy
      dsimp only
      simp only [T.present, if_true]
      exact perform_realizes rfl cs x' y hy

theorem attempt_realizes (anon : Bool) (r : Nat) {ev : EventTy} (hev : ev ∈ E) (d : Dep) :
    ∀ (cs : List Cand) (x : Eye Q) (y : Res (Eye Q) RegionOut), y ∈ M.seeAttempt mon anon r ev cs x →
    Realizes E T M mon δ (fun o => (o, ())) (M.attempt tape anon r ev (cs.map fun cd => (d, cd)) ()) x y
  | [], x, y, h => by
    rw [List.mem_singleton.1 h]
    exact Realizes.done
  | cd :: cs, x, y, h => by
    rw [seeAttempt] at h
    have e : M.attempt tape anon r ev ((cd :: cs).map fun cd => (d, cd)) () = fun c =>
        match cd.row? with
        | none =>
          if anon then .ub .nullTransition
          else .ok (.deferred, ()) { c with waiting := c.waiting ++ [(ev, ())] }
        | some t =>
          match M.targetLoc t with
          | none => .ub .nullTransition
          | some l =>
            (M.ask tape ev d cd t l () c).bind fun a c =>
              if a.1 then (M.take tape r ev d cd t l a.2 c).bind fun p c => .ok (.fired, p) c
              else M.attempt tape anon r ev (cs.map fun cd => (d, cd)) a.2 c :=
      funext fun c => by rw [List.map_cons, attempt]; rfl
    rw [e]
    clear e
    revert h
    cases cd.row? with
    | none =>
      intro h
      dsimp only at h ⊢
      cases anon with
      | true => rw [List.mem_singleton.1 h]; exact .ub
      | false =>
        rw [List.mem_singleton.1 h]
        refine ⟨[], fun pre q c rest hc hw => ⟨_, rfl, ?_, hw⟩⟩
        refine ⟨hc.spot, ?_, ?_, hc.deps, hc.heard⟩
        · show x.waiting ++ [ev] = (c.waiting ++ [(ev, ())]).map Prod.fst
          rw [hc.waiting, List.map_append]; rfl
        · intro e he
          rcases List.mem_append.1 he with he | he
          · exact hc.known e he
          · rw [List.mem_singleton.1 he]; exact hev
    | some t =>
      dsimp only
      cases M.targetLoc t with
      | none => intro h; rw [List.mem_singleton.1 h]; exact .ub
      | some l =>
        intro h
        dsimp only at h ⊢
        refine Realizes.bind (ψ := fun b => (b, ())) h (fun z hz => ask_realizes ev d cd t l x z hz)
          fun b x' _ h => ?_
        cases b with
        | true =>
          exact Realizes.bind (ψ := fun _ => ()) h (fun z hz => take_realizes r ev d cd t l x' z hz)
            fun _ x'' _ h => by rw [List.mem_singleton.1 h]; exact .done
        | false => exact attempt_realizes anon r hev d cs x' y h

theorem visit_realizes (anon : Bool) (r : Nat) {ev : EventTy} (hev : ev ∈ M.events) (x : Eye Q)
    (y : Res (Eye Q) RegionOut) (h : y ∈ M.seeVisit mon anon r ev x) :
    Realizes M.events T M mon δ (fun o => (o, ())) (M.visit tape anon r ev ()) x y := by
  unfold seeVisit at h
  have sl : ∀ {pre q} {c : Conf Unit W}, InView M.events M mon δ pre q c x → c.slots[r]? = x.spot.slots[r]? :=
    fun hc => by rw [hc.spot]; rfl
  rcases hs : x.spot.slots[r]? with _ | _ | l
  · rw [hs] at h; rw [List.mem_singleton.1 h]; exact .ub
  · rw [hs] at h; rw [List.mem_singleton.1 h]; exact .ub
  · rw [hs] at h
    dsimp only at h
    by_cases hp : l.1 ∈ M.composites
    · rw [if_pos hp] at h
      by_cases hn : M.cands ev l.1 l.2 = []
      · rw [if_pos hn] at h
        rw [List.mem_singleton.1 h]
        refine Realizes.done.congr fun _ _ c hc => ?_
        unfold visit seek
        rw [sl hc, hs]
        show (if l.1 ∈ M.composites then _ else _) = _
        rw [if_pos hp, if_pos hn]
      · rw [if_neg hn] at h
        refine (attempt_realizes anon r hev δ _ x y h).congr fun _ _ c hc => ?_
        unfold visit seek
        rw [sl hc, hs]
        show (if l.1 ∈ M.composites then _ else _) = _
        rw [if_pos hp, if_neg hn, hc.deps]
        simp only [List.flatMap_cons, List.flatMap_nil, List.append_nil]
    · rw [if_neg hp] at h; rw [List.mem_singleton.1 h]; exact .ub

theorem sweep_realizes {ev : EventTy} (hev : ev ∈ M.events) (y : Res (Eye Q) (List RegionOut)) :
    ∀ (rs : List Nat) (os : List RegionOut) (x : Eye Q), y ∈ M.seeSweep mon ev rs os x →
    Realizes M.events T M mon δ (fun o => (o, ())) (M.sweep tape ev rs os ()) x y
  | [], os, x, h => by rw [List.mem_singleton.1 h]; exact Realizes.done
  | r :: rs, os, x, h => by
    rw [show M.sweep tape ev (r :: rs) os () = fun c => (M.visit tape false r ev () c).bind fun o c =>
      if o.1 = .deferred then .ok (os ++ [.deferred], o.2) c
      else M.sweep tape ev rs (os ++ [o.1]) o.2 c from rfl]
    refine Realizes.bind (ψ := fun o => (o, ())) h (fun z hz => visit_realizes false r hev x z hz)
      fun o x' _ h => ?_
    dsimp only
    by_cases ho : o = .deferred
    · simp only [if_pos ho] at h ⊢
      rw [List.mem_singleton.1 h]; exact Realizes.done
    · simp only [if_neg ho] at h ⊢
      exact sweep_realizes hev y rs _ x' h

theorem round_realizes (hev : EventTy.none ∈ M.events) (y : Res (Eye Q) Bool) :
    ∀ (rs : List Nat) (os : List RegionOut) (x : Eye Q), y ∈ M.seeRound mon rs os x →
    Realizes M.events T M mon δ (fun o => (o, ())) (M.round tape rs os ()) x y
  | [], os, x, h => by rw [List.mem_singleton.1 h]; exact Realizes.done
  | r :: rs, os, x, h => by
    rw [show M.round tape (r :: rs) os () = fun c => (M.visit tape true r .none () c).bind fun o c =>
      if o.1 = .none then .ok (false, o.2) c
      else M.round tape rs (os ++ [o.1]) o.2 c from rfl]
    refine Realizes.bind (ψ := fun o => (o, ())) h (fun z hz => visit_realizes true r hev x z hz)
      fun o x' _ h => ?_
    dsimp only
    by_cases ho : o = .none
    · simp only [if_pos ho] at h ⊢
      rw [List.mem_singleton.1 h]; exact Realizes.done
    · simp only [if_neg ho] at h ⊢
      exact round_realizes hev y rs _ x' h

theorem complain_realizes (ev : EventTy) (x : Eye Q) (y : Res (Eye Q) Unit) (h : y ∈ M.seeComplain mon ev x) :
    Realizes E T M mon δ id (M.complain tape ev ()) x y := by
  unfold seeComplain at h
  cases hh : (M.decl M.root).handler with
  | none =>
    rw [hh] at h
    rw [List.mem_singleton.1 h]
    refine Realizes.done.congr fun _ _ c hc => ?_
    unfold complain
    rw [hh]
  | some k =>
    rw [hh] at h
    have sl : ∀ {pre q} {c : Conf Unit W}, InView E M mon δ pre q c x → c.slots[0]? = x.spot.slots[0]? :=
      fun hc => by rw [hc.spot]; rfl
    dsimp only at h
    rcases hs : x.spot.slots[0]? with _ | _ | l
    · rw [hs] at h; rw [List.mem_singleton.1 h]; exact .ub
    · rw [hs] at h; rw [List.mem_singleton.1 h]; exact .ub
    · rw [hs] at h
      dsimp only at h
      by_cases hp : l.1 ∈ M.composites
      · rw [if_pos hp] at h
        have key : ∀ pre q c (b : Option Bool) rest, InView E M mon δ pre q c x → c.world = T.push b rest →
            M.complain tape ev () c = match b with
              | none => .throw (.user 0)
                  { c with world := rest, calls := c.calls ++ [.handler k ev l.2 c.first () true []] }
              | some _ => .ok ()
                  { c with world := rest, calls := c.calls ++ [.handler k ev l.2 c.first () false []] } := by
          intro pre q c b rest hc hw
          unfold complain seek
          rw [hh]
          dsimp only
          rw [sl hc, hs]
          show (if l.1 ∈ M.composites then _ else _) = _
          rw [if_pos hp]
          simp only [T.present, if_true]
          rw [hw, T.handler]
          cases b <;> rfl
        rcases List.mem_cons.1 h with rfl | h
        · exact ⟨[some true], fun pre q c rest hc hw => ⟨_, key pre q c _ rest hc hw,
            hc.note (.handler k ev l.2 c.first () false []) rest, rfl⟩⟩
        · rw [List.mem_singleton.1 h]
          exact ⟨[none], fun pre q c rest hc hw => ⟨_, _, key pre q c _ rest hc hw,
            hc.note (.handler k ev l.2 c.first () true []) rest, rfl⟩⟩
      · rw [if_neg hp] at h
        rw [List.mem_singleton.1 h]
        refine ⟨[], fun pre q c rest hc hw => ⟨.outOfRange, c, ?_, hc, hw⟩⟩
        unfold complain seek
        rw [hh]
        dsimp only
        rw [sl hc, hs]
        show (if l.1 ∈ M.composites then _ else _) = _
        rw [if_neg hp]

/-- With some script, and however much the call may loop, the rest `g` of a call goes on as `y` says. -/
def Proceeds (T : Dictates tape) (M : Machine) (mon : Monitor Q) (δ : Dep)
    (g : Nat → Conf Unit W → Res (Conf Unit W) Bool) (x : Eye Q) : Res (Eye Q) Stage → Prop
  | .ok .idle x' => ∃ v b x'', x' = seeSign mon (.answer b) x'' ∧ ∀ pre q c rest fuel,
      InView M.events M mon δ pre q c x → c.world = T.feed v rest →
      ∃ c', g fuel c = .ok b c' ∧ InView M.events M mon δ pre q c' x'' ∧ c'.world = rest
  | .ok (.rounds first) x' => ∃ v, ∀ pre q c rest fuel,
      InView M.events M mon δ pre q c x → c.world = T.feed v rest →
      ∃ c', (g fuel c = (M.settle tape fuel () c').bind fun _ c =>
        (if first then M.replay tape fuel c else .ok () c).bind fun _ c => .ok true c) ∧
        InView M.events M mon δ pre q c' x' ∧ c'.world = rest
  | .throw _ x' => ∃ v, ∀ pre q c rest fuel, InView M.events M mon δ pre q c x → c.world = T.feed v rest →
      ∃ e c', g fuel c = .throw e c' ∧ InView M.events M mon δ pre q c' x' ∧ c'.world = rest
  | _ => True

theorem Proceeds.answer {b : Bool} {x : Eye Q} {y : Res (Eye Q) Stage} (h : y ∈ seeAnswer mon b x) :
    Proceeds T M mon δ (fun _ c => .ok b c) x y := by
  rw [List.mem_singleton.1 h]
  exact ⟨[], b, x, rfl, fun _ _ c _ _ hc hw => ⟨c, rfl, hc, hw⟩⟩

theorem Proceeds.congr {g g' : Nat → Conf Unit W → Res (Conf Unit W) Bool} {x : Eye Q}
    {y : Res (Eye Q) Stage} (h : Proceeds T M mon δ g x y)
    (he : ∀ pre q c fuel, InView M.events M mon δ pre q c x → g' fuel c = g fuel c) : Proceeds T M mon δ g' x y := by
  rcases y with ⟨_ | first, x'⟩ | ⟨e, x'⟩ | u | _
  · obtain ⟨v, b, x'', e, hv⟩ := h
    exact ⟨v, b, x'', e, fun pre q c rest fuel hc hw => by
      rw [he pre q c fuel hc]; exact hv pre q c rest fuel hc hw⟩
  · obtain ⟨v, hv⟩ := h
    exact ⟨v, fun pre q c rest fuel hc hw => by rw [he pre q c fuel hc]; exact hv pre q c rest fuel hc hw⟩
  · obtain ⟨v, hv⟩ := h
    exact ⟨v, fun pre q c rest fuel hc hw => by rw [he pre q c fuel hc]; exact hv pre q c rest fuel hc hw⟩
  · trivial
  · trivial

theorem Proceeds.bind {α β : Type} {ψ : β → α} {g : Conf Unit W → Res (Conf Unit W) α}
    {f : Nat → α → Conf Unit W → Res (Conf Unit W) Bool} {x : Eye Q}
    {rs : List (Res (Eye Q) β)} {f' : β → Eye Q → List (Res (Eye Q) Stage)} {y : Res (Eye Q) Stage}
    (hy : y ∈ branch rs f') (hg : ∀ z ∈ rs, Realizes M.events T M mon δ ψ g x z)
    (hf : ∀ b x', .ok b x' ∈ rs → y ∈ f' b x' → Proceeds T M mon δ (fun fuel => f fuel (ψ b)) x' y) :
    Proceeds T M mon δ (fun fuel c => (g c).bind (f fuel)) x y := by
  rcases mem_branch.1 hy with ⟨b, x', h1, h2⟩ | ⟨e, x', h1, rfl⟩ | ⟨u, h1, rfl⟩ | ⟨h1, rfl⟩
  · obtain ⟨v1, hv1⟩ := hg _ h1
    have h3 := hf b x' h1 h2
    rcases y with ⟨_ | first, z⟩ | ⟨e, z⟩ | u | _
    · obtain ⟨v2, b', x'', e, hv2⟩ := h3
      refine ⟨v1 ++ v2, b', x'', e, fun pre q c rest fuel hc hw => ?_⟩
      obtain ⟨c1, e1, hc1, hw1⟩ := hv1 pre q c (T.feed v2 rest) hc (by rw [hw, T.feed_append])
      dsimp only
      rw [e1]
      exact hv2 pre q c1 rest fuel hc1 hw1
    · obtain ⟨v2, hv2⟩ := h3
      refine ⟨v1 ++ v2, fun pre q c rest fuel hc hw => ?_⟩
      obtain ⟨c1, e1, hc1, hw1⟩ := hv1 pre q c (T.feed v2 rest) hc (by rw [hw, T.feed_append])
      dsimp only
      rw [e1]
      exact hv2 pre q c1 rest fuel hc1 hw1
    · obtain ⟨v2, hv2⟩ := h3
      refine ⟨v1 ++ v2, fun pre q c rest fuel hc hw => ?_⟩
      obtain ⟨c1, e1, hc1, hw1⟩ := hv1 pre q c (T.feed v2 rest) hc (by rw [hw, T.feed_append])
      dsimp only
      rw [e1]
      exact hv2 pre q c1 rest fuel hc1 hw1
    · trivial
    · trivial
  · obtain ⟨v1, hv1⟩ := hg _ h1
    refine ⟨v1, fun pre q c rest fuel hc hw => ?_⟩
    obtain ⟨e, c1, e1, hc1, hw1⟩ := hv1 pre q c rest hc hw
    exact ⟨e, c1, by dsimp only; rw [e1]; rfl, hc1, hw1⟩
  · trivial
  · trivial

theorem replay_proceeds (x : Eye Q) (y : Res (Eye Q) Stage) (h : y ∈ M.seeReplay mon x) :
    Proceeds T M mon δ (fun fuel c => (M.replay tape fuel c).bind fun _ c => .ok true c) x y := by
  unfold seeReplay at h
  cases hx : x.waiting with
  | nil =>
    rw [hx] at h
    refine (Proceeds.answer h).congr fun _ _ c _ hc => ?_
    have : c.waiting = [] := by
      have := hc.waiting
      rw [hx] at this
      exact List.map_eq_nil_iff.1 this.symm
    unfold replay
    rw [this]
    rfl
  | cons ev l =>
    rw [hx] at h
    dsimp only at h
    have hw : ∀ {pre q} {c : Conf Unit W}, InView M.events M mon δ pre q c x → ∃ l', c.waiting = (ev, ()) :: l' ∧
        l = l'.map Prod.fst := fun {_ _ c} hc => by
      have := hc.waiting
      rw [hx] at this
      cases hq : c.waiting with
      | nil => rw [hq] at this; cases this
      | cons a l' => rw [hq] at this; cases this; exact ⟨l', rfl, rfl⟩
    by_cases hd : M.deferring = true
    · rw [if_pos hd] at h
      -- without a known event there is nothing to show
      by_cases hev : ev ∈ M.events
      · have key : Proceeds T M mon δ (fun fuel c => (M.sweep tape ev (M.involved x.spot) [] () c).bind fun a c =>
            (if .deferred ∉ a.1 ∧ .fired ∈ a.1 ∧ M.anonymous then
              (M.settle tape fuel () c).bind fun _ c => .ok a c
            else .ok a c).bind fun _ c => .ok true c) { x with waiting := l } y := by
          refine Proceeds.bind (ψ := fun o => (o, ())) h (fun z hz => sweep_realizes hev z _ _ _ hz)
            fun os x' _ h => ?_
          dsimp only
          by_cases hc : .deferred ∉ os ∧ .fired ∈ os ∧ M.anonymous
          · rw [if_pos hc] at h
            rw [List.mem_singleton.1 h]
            refine ⟨[], fun pre q c rest fuel hin hw => ⟨c, ?_, hin, hw⟩⟩
            dsimp only
            rw [if_pos hc, Res.bind_assoc]
            rfl
          · rw [if_neg hc] at h
            simp only [if_neg hc]
            exact Proceeds.answer h
        have goal : ∀ {pre q} {c : Conf Unit W} (hc : InView M.events M mon δ pre q c x),
            ∃ c1, InView M.events M mon δ pre q c1 { x with waiting := l } ∧ c1.world = c.world ∧ ∀ fuel,
            ((M.replay tape fuel c).bind fun _ c => .ok true c) =
              (M.sweep tape ev (M.involved x.spot) [] () c1).bind fun a c =>
              (if .deferred ∉ a.1 ∧ .fired ∈ a.1 ∧ M.anonymous then
                (M.settle tape fuel () c).bind fun _ c => .ok a c
              else .ok a c).bind fun _ c => .ok true c := fun {pre q c} hc => by
          obtain ⟨l', h1, h2⟩ := hw hc
          refine ⟨{ c with waiting := l' }, ?_, rfl, fun fuel => ?_⟩
          · exact { hc with
              waiting := h2
              known := fun e he => hc.known e (by rw [h1]; exact List.mem_cons_of_mem _ he) }
          · unfold replay
            rw [h1]
            dsimp only
            rw [if_pos hd]
            unfold handle
            rw [show M.taking { c with waiting := l' } = M.involved x.spot from by rw [hc.spot]; rfl]
            rw [Res.bind_assoc, Res.bind_assoc]
            rfl
        rcases y with ⟨_ | first, z⟩ | ⟨e, z⟩ | u | _
        · obtain ⟨v, b, x'', e, hv⟩ := key
          refine ⟨v, b, x'', e, fun pre q c rest fuel hc hw => ?_⟩
          obtain ⟨c1, h1, h2, h3⟩ := goal hc
          dsimp only
          rw [h3 fuel]
          exact hv pre q c1 rest fuel h1 (h2.trans hw)
        · obtain ⟨v, hv⟩ := key
          refine ⟨v, fun pre q c rest fuel hc hw => ?_⟩
          obtain ⟨c1, h1, h2, h3⟩ := goal hc
          dsimp only
          rw [h3 fuel]
          exact hv pre q c1 rest fuel h1 (h2.trans hw)
        · obtain ⟨v, hv⟩ := key
          refine ⟨v, fun pre q c rest fuel hc hw => ?_⟩
          obtain ⟨c1, h1, h2, h3⟩ := goal hc
          dsimp only
          rw [h3 fuel]
          exact hv pre q c1 rest fuel h1 (h2.trans hw)
        · trivial
        · trivial
      · have no : ∀ {pre q} {c : Conf Unit W}, ¬ InView M.events M mon δ pre q c x := fun hc => by
          obtain ⟨l', h1, _⟩ := hw hc
          exact hev (hc.known (ev, ()) (by rw [h1]; exact List.mem_cons_self))
        rcases y with ⟨_ | first, z⟩ | ⟨e, z⟩ | u | _
        · obtain ⟨x'', rfl⟩ : ∃ x'', z = seeSign mon (.answer true) x'' := by
            rcases mem_branch.1 h with ⟨b, x', h1, h2⟩ | ⟨_, _, _, h1⟩ | ⟨_, _, h1⟩ | ⟨_, h1⟩
            · split at h2
              · cases List.mem_singleton.1 h2
              · cases List.mem_singleton.1 h2; exact ⟨_, rfl⟩
            · cases h1
            · cases h1
            · cases h1
          exact ⟨[], true, x'', rfl, fun _ _ _ _ _ hc _ => (no hc).elim⟩
        · exact ⟨[], fun _ _ _ _ _ hc _ => (no hc).elim⟩
        · exact ⟨[], fun _ _ _ _ _ hc _ => (no hc).elim⟩
        · trivial
        · trivial
    · rw [if_neg hd] at h
      refine (Proceeds.answer h).congr fun _ _ c _ hc => ?_
      obtain ⟨l', h1, _⟩ := hw hc
      unfold replay
      rw [h1]
      dsimp only
      rw [if_neg hd]
      rfl

theorem receive_proceeds {ev : EventTy} (hev : ev ∈ M.events) (x : Eye Q) (y : Res (Eye Q) Stage)
    (h : y ∈ M.seeReceive mon ev x) :
    Proceeds T M mon δ (fun fuel => M.receive tape fuel ev ()) x y := by
  have key : Proceeds T M mon δ (fun fuel c => (M.sweep tape ev (M.involved x.spot) [] () c).bind fun a c =>
      (if .deferred ∉ a.1 ∧ .fired ∈ a.1 ∧ M.anonymous then
        (M.settle tape fuel () c).bind fun _ c => .ok a c
      else .ok a c).bind fun a c =>
        if .deferred ∈ a.1 then .ok false c
        else if .fired ∈ a.1 then (M.replay tape fuel c).bind fun _ c => .ok true c
        else if .rejected ∈ a.1 then .ok false c
        else (M.complain tape ev a.2 c).bind fun _ c => .ok false c) x y := by
    refine Proceeds.bind (ψ := fun o => (o, ())) h (fun z hz => sweep_realizes hev z _ _ _ hz)
      fun os x' _ h => ?_
    dsimp only at h ⊢
    by_cases h1 : RegionOut.deferred ∈ os
    · rw [if_pos h1] at h
      simp only [if_neg (fun h : RegionOut.deferred ∉ os ∧ .fired ∈ os ∧ M.anonymous = true => h.1 h1)]
      refine (Proceeds.answer h).congr fun _ _ c _ _ => ?_
      simp only [Res.bind, if_pos h1]
    rw [if_neg h1] at h
    by_cases h2 : RegionOut.fired ∈ os
    · rw [if_pos h2] at h
      by_cases h3 : M.anonymous = true
      · rw [if_pos h3] at h
        rw [List.mem_singleton.1 h]
        refine ⟨[], fun pre q c rest fuel hin hw => ⟨c, ?_, hin, hw⟩⟩
        dsimp only
        rw [if_pos ⟨h1, h2, h3⟩, Res.bind_assoc]
        simp only [Res.bind, if_neg h1, if_pos h2, if_true]
      · rw [if_neg h3] at h
        refine (replay_proceeds x' y h).congr fun _ _ c fuel _ => ?_
        rw [if_neg (fun h => h3 h.2.2)]
        show (if _ then _ else _) = _
        rw [if_neg h1, if_pos h2]
    rw [if_neg h2] at h
    by_cases h3 : RegionOut.rejected ∈ os
    · rw [if_pos h3] at h
      refine (Proceeds.answer h).congr fun _ _ c _ _ => ?_
      rw [if_neg (fun h => h2 h.2.1)]
      show (if _ then _ else _) = _
      rw [if_neg h1, if_neg h2, if_pos h3]
    · rw [if_neg h3] at h
      have := Proceeds.bind (f := fun _ _ c => .ok false c) (T := T) (δ := δ) h (fun z hz => complain_realizes ev x' z hz)
        fun _ x'' _ h => Proceeds.answer h
      refine this.congr fun _ _ c _ _ => ?_
      rw [if_neg (fun h => h2 h.2.1)]
      show (if _ then _ else _) = _
      rw [if_neg h1, if_neg h2, if_neg h3]
  refine key.congr fun _ _ c fuel hc => ?_
  unfold receive handle
  rw [taking_involved hc, Res.bind_assoc]

end Machine

/-- A client observed `ss`, and the machine and the monitor are as `x` says. -/
structure Stands (M : Machine) (tape : Sem Unit W) (mon : Monitor Q) (δ : Dep) (ss : List Sign)
    (s : SM Unit W) (c : Conf Unit W) (x : Eye Q) : Prop where
  observed : Observed M tape δ ss s
  depicts : Depicts M c s
  spot : x.spot = M.sight c
  waiting : x.waiting = c.waiting.map Prod.fst
  known : ∀ e ∈ c.waiting, e.1 ∈ M.events
  deps : c.deps = [δ]
  heard : x.heard = mon.hearAll (some mon.init) ss

/-- Some client gets there. -/
def GetsTo (T : Dictates tape) (M : Machine) (mon : Monitor Q) (δ : Dep) : Stage → Eye Q → Prop
  | .idle, x => ∃ ss s c, Stands M tape mon δ ss s c x
  | .rounds first, x => ∃ ss s c x0 ev v k j, Stands M tape mon δ ss s c x0 ∧ ev ∈ M.events ∧
      ∀ rest fuel, ∃ c', InView M.events M mon δ c.calls (mon.hear x0.heard (.event ev)) c' x ∧ c'.world = rest ∧
        M.receive tape (fuel + k) ev () { c with world := T.feed v rest } =
          (M.settle tape (fuel + j) () c').bind fun _ c =>
            (if first then M.replay tape (fuel + k) c else .ok () c).bind fun _ c => .ok true c

theorem Stands.finish (hM : M.Regular) {ss : List Sign} {s : SM Unit W} {c c' : Conf Unit W} {x y : Eye Q}
    (h : Stands M tape mon δ ss s c x) {ev : EventTy} (hev : ev ∈ M.events) {w : W} {fuel : Nat}
    (hy : InView M.events M mon δ c.calls (mon.hear x.heard (.event ev)) c' y) {last : Sign}
    (hr : (∃ b, M.receive tape fuel ev () { c with world := w } = .ok b c' ∧ last = .answer b) ∨
      ∃ e, M.receive tape fuel ev () { c with world := w } = .throw e c' ∧ last = .exception) :
    ∃ ss s c, Stands M tape mon δ ss s c (Machine.seeSign mon last y) := by
  have hop : OpOk M (.process ev ()) := by
    show ev ∈ M.eventIds
    rw [← M.events_eq]; exact hev
  obtain ⟨ops, hrun⟩ := h.observed.runs
  have hs := C77_step (sem := tape) (h.depicts.reworld w) hM (hrun.scopes hM) fuel hop
  have e : M.exec tape fuel (.process ev ()) { c with world := w } =
    M.receive tape fuel ev () { c with world := w } := rfl
  rw [e] at hs
  obtain ⟨l, hl, hh⟩ := hy.heard
  have fin : ∀ s', Depicts M c' s' →
      Observed M tape δ (ss ++ .event ev :: callsSince { s with world := w } s' ++ [last]) s' →
      Stands M tape mon δ (ss ++ .event ev :: callsSince { s with world := w } s' ++ [last]) s' c'
        (Machine.seeSign mon last y) := fun s' hd ho =>
    { observed := ho
      depicts := hd
      spot := hy.spot
      waiting := hy.waiting
      known := hy.known
      deps := hy.deps
      heard := by
        show mon.hear y.heard last = _
        rw [(h.depicts.reworld w).since hd (l := l) hl, Monitor.hearAll_append, Monitor.hearAll_append,
          ← h.heard, hh]
        rfl }
  revert hs
  rcases hr with ⟨b, hr, rfl⟩ | ⟨x, hr, rfl⟩ <;> rw [hr] <;>
    cases hst : step M tape fuel (.process ev ()) { s with world := w } <;> intro hs
  case inl.ok b' s' =>
    obtain ⟨rfl, hs⟩ := hs
    exact ⟨_, _, _, fin s' hs ((h.observed.world w).ok hop hst)⟩
  case inr.throw e' s' =>
    exact ⟨_, _, _, fin s' hs.2 ((h.observed.world w).throw hop hst)⟩
  all_goals exact hs.elim

theorem Machine.seeReplay_anonymous {x x' : Eye Q} {first : Bool}
    (h : .ok (.rounds first) x' ∈ M.seeReplay mon x) : M.anonymous = true := by
  unfold Machine.seeReplay at h
  split at h
  · cases List.mem_singleton.1 h
  · split at h
    · rcases mem_branch.1 h with ⟨b, z, h1, h2⟩ | ⟨_, _, _, h1⟩ | ⟨_, _, h1⟩ | ⟨_, h1⟩
      · split at h2
        · next hc => exact hc.2.2
        · cases List.mem_singleton.1 h2
      · cases h1
      · cases h1
      · cases h1
    · cases List.mem_singleton.1 h

theorem Machine.seeReceive_anonymous {x x' : Eye Q} {first : Bool} {ev : EventTy}
    (h : .ok (.rounds first) x' ∈ M.seeReceive mon ev x) : M.anonymous = true := by
  rcases mem_branch.1 h with ⟨b, z, h1, h2⟩ | ⟨_, _, _, h1⟩ | ⟨_, _, h1⟩ | ⟨_, h1⟩
  · split at h2
    · cases List.mem_singleton.1 h2
    split at h2
    · split at h2
      · assumption
      · exact seeReplay_anonymous h2
    split at h2
    · cases List.mem_singleton.1 h2
    rcases mem_branch.1 h2 with ⟨b, z, h1, h2⟩ | ⟨_, _, _, h1⟩ | ⟨_, _, h1⟩ | ⟨_, h1⟩
    · cases List.mem_singleton.1 h2
    · cases h1
    · cases h1
    · cases h1
  · cases h1
  · cases h1
  · cases h1

theorem Machine.Sees.anonymous {first : Bool} {x : Eye Q} (h : M.Sees mon (.rounds first) x) :
    M.anonymous = true := by
  generalize hg : Stage.rounds first = g at h
  induction h generalizing first with
  | start => cases hg
  | @ok g g' x x' h hn ih =>
    subst hg
    cases g with
    | rounds f => exact ih rfl
    | idle =>
      obtain ⟨ev, _, hn⟩ := List.mem_flatMap.1 hn
      exact seeReceive_anonymous hn
  | throw _ _ _ => cases hg

/-- Every possibility is some client's. -/
theorem Machine.Sees.getsTo (hM : M.Regular) (w0 : W)
    (hC : M.ScopesReal ∧ (M.orthogonal = true → M.declaredInitials M.root ≠ [])) {g : Stage} {x : Eye Q}
    (h : M.Sees mon g x) : GetsTo T M mon δ g x := by
  have step : ∀ {g : Stage} {x : Eye Q}, M.Sees mon g x → GetsTo T M mon δ g x →
      (∀ g' x', .ok g' x' ∈ M.seeNext mon g x → GetsTo T M mon δ g' x') ∧
      ∀ e x', .throw e x' ∈ M.seeNext mon g x → GetsTo T M mon δ .idle (seeSign mon .exception x') := by
    intro g x hsees hx
    cases g with
    | idle =>
      obtain ⟨ss, s, c, hs⟩ := hx
      have hb : ∀ (ev : EventTy) (w : W), InView M.events M mon δ c.calls (mon.hear x.heard (.event ev)) { c with world := w }
          (seeSign mon (.event ev) x) := fun ev w =>
        ⟨hs.spot, hs.waiting, hs.known, hs.deps, [], (List.append_nil _).symm, rfl⟩
      refine ⟨fun g' x' hn => ?_, fun e x' hn => ?_⟩
      · obtain ⟨ev, hev, hn⟩ := List.mem_flatMap.1 hn
        have hp := receive_proceeds (T := T) (δ := δ) hev _ _ hn
        cases g' with
        | idle =>
          obtain ⟨v, b, x'', rfl, hv⟩ := hp
          obtain ⟨c', h1, h2, h3⟩ := hv _ _ { c with world := T.feed v w0 } w0 0 (hb ev _) rfl
          exact hs.finish hM hev h2 (Or.inl ⟨b, h1, rfl⟩)
        | rounds first =>
          obtain ⟨v, hv⟩ := hp
          refine ⟨ss, s, c, x, ev, v, 0, 0, hs, hev, fun rest fuel => ?_⟩
          obtain ⟨c', h1, h2, h3⟩ := hv _ _ { c with world := T.feed v rest } rest fuel (hb ev _) rfl
          exact ⟨c', h2, h3, h1⟩
      · obtain ⟨ev, hev, hn⟩ := List.mem_flatMap.1 hn
        obtain ⟨v, hv⟩ := receive_proceeds (T := T) (δ := δ) hev _ _ hn
        obtain ⟨e, c', h1, h2, h3⟩ := hv _ _ { c with world := T.feed v w0 } w0 0 (hb ev _) rfl
        exact hs.finish hM hev h2 (Or.inr ⟨e, h1, rfl⟩)
    | rounds first =>
      obtain ⟨ss, s, c, x0, ev, v, k, j, hs, hev, hx⟩ := hx
      have hnone : EventTy.none ∈ M.events := none_event hsees.anonymous
      -- one round
      have round : ∀ (v1 : List (Option Bool)) (rest : W) (fuel : Nat), ∃ c',
          InView M.events M mon δ c.calls (mon.hear x0.heard (.event ev)) c' x ∧ c'.world = T.feed v1 rest ∧
          M.receive tape (fuel + (k + 1)) ev () { c with world := T.feed (v ++ v1) rest } =
            ((M.round tape (M.involved x.spot) [] () c').bind fun a c =>
              if a.1 then M.settle tape (fuel + j) a.2 c else .ok () c).bind fun _ c =>
              (if first then M.replay tape (fuel + (k + 1)) c else .ok () c).bind fun _ c => .ok true c := by
        intro v1 rest fuel
        obtain ⟨c', h1, h2, h3⟩ := hx (T.feed v1 rest) (fuel + 1)
        refine ⟨c', h1, h2, ?_⟩
        rw [T.feed_append, show fuel + (k + 1) = fuel + 1 + k by omega, h3,
          show fuel + 1 + j = fuel + j + 1 by omega]
        congr 1
        rw [settle, taking_involved h1]
      have main : ∀ y, y ∈ M.seeNext mon (.rounds first) x →
          (∀ g' x', y = .ok g' x' → GetsTo T M mon δ g' x') ∧
          ∀ e x', y = .throw e x' → GetsTo T M mon δ .idle (seeSign mon .exception x') := by
        intro y hy
        rcases mem_branch.1 hy with ⟨b, z, h1, h2⟩ | ⟨e, z, h1, rfl⟩ | ⟨u, h1, rfl⟩ | ⟨h1, rfl⟩
        · obtain ⟨v1, hv1⟩ := round_realizes (T := T) (δ := δ) hnone _ _ _ _ h1
          cases b with
          | true =>
            rw [if_pos rfl] at h2
            cases List.mem_singleton.1 h2
            refine ⟨fun g' x' e => ?_, fun _ _ e => nomatch e⟩
            cases e
            refine ⟨ss, s, c, x0, ev, v ++ v1, k + 1, j, hs, hev, fun rest fuel => ?_⟩
            obtain ⟨c', g1, g2, g3⟩ := round v1 rest fuel
            obtain ⟨c1, e1, k1, k2⟩ := hv1 _ _ c' rest g1 g2
            refine ⟨c1, k1, k2, ?_⟩
            rw [g3, e1]
            rfl
          | false =>
            rw [if_neg (by simp)] at h2
            have after : ∀ (v2 : List (Option Bool)) (rest : W) (fuel : Nat), ∃ c',
                InView M.events M mon δ c.calls (mon.hear x0.heard (.event ev)) c' z ∧ c'.world = T.feed v2 rest ∧
                M.receive tape (fuel + (k + 1)) ev () { c with world := T.feed (v ++ v1 ++ v2) rest } =
                  (if first then M.replay tape (fuel + (k + 1)) c' else .ok () c').bind
                    fun _ c => .ok true c := by
              intro v2 rest fuel
              obtain ⟨c', g1, g2, g3⟩ := round v1 (T.feed v2 rest) fuel
              obtain ⟨c1, e1, k1, k2⟩ := hv1 _ _ c' (T.feed v2 rest) g1 g2
              refine ⟨c1, k1, k2, ?_⟩
              rw [T.feed_append, g3, e1]
              rfl
            cases first with
            | false =>
              rw [if_neg (by simp)] at h2
              cases List.mem_singleton.1 h2
              refine ⟨fun g' x' e => ?_, fun _ _ e => nomatch e⟩
              cases e
              obtain ⟨c', g1, g2, g3⟩ := after [] w0 0
              exact hs.finish hM hev g1 (Or.inl ⟨true, g3, rfl⟩)
            | true =>
              rw [if_pos rfl] at h2
              have hp := replay_proceeds (T := T) (δ := δ) _ _ h2
              refine ⟨fun g' x' e => ?_, fun e' x' e => ?_⟩
              · subst e
                cases g' with
                | idle =>
                  obtain ⟨v2, b, x'', rfl, hv⟩ := hp
                  obtain ⟨c', g1, g2, g3⟩ := after v2 w0 0
                  obtain ⟨c1, e1, k1, k2⟩ := hv _ _ c' w0 (0 + (k + 1)) g1 g2
                  exact hs.finish hM hev k1 (Or.inl ⟨b, g3.trans e1, rfl⟩)
                | rounds first' =>
                  obtain ⟨v2, hv⟩ := hp
                  refine ⟨ss, s, c, x0, ev, v ++ v1 ++ v2, k + 1, k + 1, hs, hev, fun rest fuel => ?_⟩
                  obtain ⟨c', g1, g2, g3⟩ := after v2 rest fuel
                  obtain ⟨c1, e1, k1, k2⟩ := hv _ _ c' rest (fuel + (k + 1)) g1 g2
                  exact ⟨c1, k1, k2, g3.trans e1⟩
              · subst e
                obtain ⟨v2, hv⟩ := hp
                obtain ⟨c', g1, g2, g3⟩ := after v2 w0 0
                obtain ⟨e2, c1, e1, k1, k2⟩ := hv _ _ c' w0 (0 + (k + 1)) g1 g2
                exact hs.finish hM hev k1 (Or.inr ⟨e2, g3.trans e1, rfl⟩)
        · refine ⟨(fun _ _ e => nomatch e), fun e' x' he => ?_⟩
          cases he
          obtain ⟨v1, hv1⟩ := round_realizes (T := T) (δ := δ) hnone _ _ _ _ h1
          obtain ⟨c', g1, g2, g3⟩ := round v1 w0 0
          obtain ⟨e2, c1, e1, k1, k2⟩ := hv1 _ _ c' w0 g1 g2
          exact hs.finish hM hev k1 (Or.inr ⟨e2, by rw [g3, e1]; rfl, rfl⟩)
        · exact ⟨(fun _ _ e => nomatch e), fun _ _ e => nomatch e⟩
        · exact ⟨(fun _ _ e => nomatch e), fun _ _ e => nomatch e⟩
      exact ⟨fun g' x' hn => (main _ hn).1 _ _ rfl, fun e x' hn => (main _ hn).2 _ _ rfl⟩
  induction h with
  | start =>
    obtain ⟨s, hs⟩ := ((C06_construct (P := Unit) hM δ w0).1).2 hC
    exact ⟨[], s, _, .init hs, C77_construct hM hs, rfl, rfl, fun _ h => (nomatch h), rfl, rfl⟩
  | ok h hn ih => exact (step h ih).1 _ _ hn
  | throw h hn ih => exact (step h ih).2 _ _ hn

end

/-! ## The claims -/

theorem Machine.seesAll_sees [DecidableEq Q] {S : List (Stage × Eye Q)} (hS : M.seesAll mon S = true)
    {g : Stage} {x : Eye Q} (h : M.Sees mon g x) : (g, x) ∈ S := by
  unfold seesAll at hS
  rw [Bool.and_eq_true, decide_eq_true_eq, List.all_eq_true] at hS
  induction h with
  | start => exact hS.1
  | ok h hn ih => exact of_decide_eq_true (List.all_eq_true.1 (hS.2 _ ih) _ hn)
  | throw h hn ih => exact of_decide_eq_true (List.all_eq_true.1 (hS.2 _ ih) _ hn)

theorem Machine.watch_sees [DecidableEq Q] : ∀ (k : Nat) {g : Stage} {x : Eye Q}, (g, x) ∈ M.watch mon k →
    M.Sees mon g x
  | 0, g, x, h => by cases List.mem_singleton.1 h; exact .start
  | k + 1, g, x, h => by
    unfold watch at h
    rw [List.mem_eraseDups] at h
    rcases List.mem_append.1 h with h | h
    · exact watch_sees k h
    · obtain ⟨⟨g0, x0⟩, h0, h⟩ := List.mem_flatMap.1 h
      obtain ⟨y, hy, h⟩ := List.mem_filterMap.1 h
      have h0 := watch_sees k h0
      cases y with
      | ok g' x' => cases h; exact h0.ok hy
      | throw e x' => cases h; exact h0.throw hy
      | ub u => cases h
      | timeout => cases h

/-! ## Watching comes to an end -/

/-- The spot is one of finitely many, and nothing waits. -/
def Machine.Trim (M : Machine) (x : Eye Q) : Prop := M.Neat [] x.spot ∧ x.waiting = []

namespace Machine
variable {x : Eye Q}

theorem Trim.sign (h : M.Trim x) (s : Sign) : M.Trim (seeSign mon s x) := h

theorem seeTravel_trim (r : Nat) (t : XRow) {l : Name × StTy} (hl : l ∈ M.stations []) (h : M.Trim x) :
    (M.seeTravel r t l x).Holds M.Trim := by
  have := mayTravel_neat r t hl h.1
  unfold seeTravel
  revert this
  cases M.mayTravel r t l x.spot <;> intro this
  · exact ⟨this, h.2⟩
  · exact ⟨this, h.2⟩
  · exact this
  · trivial

theorem seePerform_trim (args : Args) : ∀ (cs : List (Phase × Cb)) {x : Eye Q}, M.Trim x →
    ∀ y ∈ seePerform mon args cs x, y.Holds M.Trim
  | [], _, h => Holds.one h
  | _ :: cs, _, h => fun y hy => by
    rcases List.mem_cons.1 hy with rfl | hy
    · exact h
    · exact seePerform_trim args cs (h.sign _) y hy

theorem seeTake_trim (r : Nat) (ev : EventTy) (cd : Cand) (t : XRow) {l : Name × StTy} (hl : l ∈ M.stations [])
    (h : M.Trim x) : ∀ y ∈ M.seeTake mon r ev cd t l x, y.Holds M.Trim := by
  unfold seeTake
  refine Holds.branch (Holds.one (seeTravel_trim r t hl h)) fun _ x h => ?_
  split
  · exact Holds.one h
  · exact seePerform_trim _ _ h

theorem seeAttempt_trim (anon : Bool) (r : Nat) (ev : EventTy) : ∀ (cs : List Cand) {x : Eye Q}, M.Trim x →
    (∀ cd ∈ cs, cd.row? ≠ none ∧ ∀ t, cd.row? = some t → ∀ l, M.targetLoc t = some l → l ∈ M.stations []) →
    ∀ y ∈ M.seeAttempt mon anon r ev cs x, y.Holds M.Trim
  | [], _, h, _ => Holds.one h
  | cd :: cs, x, h, hcs => by
    rw [seeAttempt]
    have hcd := hcs cd List.mem_cons_self
    cases hr : cd.row? with
    | none => exact (hcd.1 hr).elim
    | some t =>
      dsimp only
      cases hl : M.targetLoc t with
      | none => exact Holds.one ⟨nofun, nofun⟩
      | some l =>
        refine Holds.branch (I := M.Trim) ?_ fun b x h => ?_
        · unfold seeAsk
          split
          · exact Holds.one h
          · intro y hy
            rcases List.mem_cons.1 hy with rfl | hy
            · exact h
            rcases List.mem_cons.1 hy with rfl | hy
            · exact h
            · rw [List.mem_singleton.1 hy]; exact h
        · cases b with
          | true =>
            exact Holds.branch (seeTake_trim r ev cd t (hcd.2 t hr l hl) h) fun _ x h => Holds.one h
          | false => exact seeAttempt_trim anon r ev cs h fun cd h => hcs cd (List.mem_cons_of_mem _ h)

theorem seeVisit_trim (hd : M.deferring = false) (anon : Bool) (r : Nat) (ev : EventTy) (h : M.Trim x) :
    ∀ y ∈ M.seeVisit mon anon r ev x, y.Holds M.Trim := by
  unfold seeVisit
  split
  · exact Holds.one ⟨nofun, nofun⟩
  · exact Holds.one ⟨nofun, nofun⟩
  · split
    · split
      · exact Holds.one h
      · exact seeAttempt_trim anon r ev _ h fun cd hcd => ⟨no_defer hd hcd, fun t ht l hl => cands_places hcd ht hl⟩
    · exact Holds.one ⟨nofun, nofun⟩

theorem seeSweep_trim (hd : M.deferring = false) (ev : EventTy) : ∀ (rs : List Nat) (os : List RegionOut)
    {x : Eye Q}, M.Trim x → ∀ y ∈ M.seeSweep mon ev rs os x, y.Holds M.Trim
  | [], _, _, h => Holds.one h
  | r :: rs, os, x, h => by
    refine Holds.branch (seeVisit_trim hd false r ev h) fun o n h => ?_
    split
    · exact Holds.one h
    · exact seeSweep_trim hd ev rs _ h

theorem seeRound_trim (hd : M.deferring = false) : ∀ (rs : List Nat) (os : List RegionOut)
    {x : Eye Q}, M.Trim x → ∀ y ∈ M.seeRound mon rs os x, y.Holds M.Trim
  | [], _, _, h => Holds.one h
  | r :: rs, os, x, h => by
    refine Holds.branch (seeVisit_trim hd true r .none h) fun o n h => ?_
    split
    · exact Holds.one h
    · exact seeRound_trim hd rs _ h

theorem seeReplay_trim (h : M.Trim x) : ∀ y ∈ M.seeReplay mon x, y.Holds M.Trim := by
  unfold seeReplay
  rw [h.2]
  exact Holds.one h

theorem seeNext_trim (hd : M.deferring = false) (g : Stage) (h : M.Trim x) :
    ∀ y ∈ M.seeNext mon g x, y.Holds M.Trim := by
  cases g with
  | rounds first =>
    refine Holds.branch (seeRound_trim hd _ _ h) fun b x h => ?_
    split
    · exact Holds.one h
    split
    · exact seeReplay_trim h
    · exact Holds.one h
  | idle =>
    intro y hy
    obtain ⟨ev, _, hy⟩ := List.mem_flatMap.1 hy
    refine Holds.branch (seeSweep_trim hd ev _ _ (h.sign _)) (fun os x h => ?_) y hy
    split
    · exact Holds.one h
    split
    · split
      · exact Holds.one h
      · exact seeReplay_trim h
    split
    · exact Holds.one h
    refine Holds.branch (I := M.Trim) ?_ fun _ x h => Holds.one h
    unfold seeComplain
    split
    · exact Holds.one h
    split
    · exact Holds.one ⟨nofun, nofun⟩
    · exact Holds.one ⟨nofun, nofun⟩
    split
    · intro y hy
      rcases List.mem_cons.1 hy with rfl | hy
      · exact h
      · rw [List.mem_singleton.1 hy]; exact h
    · exact Holds.one h

theorem Sees.trim (hd : M.deferring = false) {g : Stage} (h : M.Sees mon g x) : M.Trim x := by
  induction h with
  | start => exact ⟨start_neat, rfl⟩
  | ok _ hn ih => exact seeNext_trim hd _ ih _ hn
  | throw _ hn ih => exact seeNext_trim hd _ ih _ hn

variable [DecidableEq Q]

theorem watch_grows (k : Nat) {s : Stage × Eye Q} (h : s ∈ M.watch mon k) : s ∈ M.watch mon (k + 1) := by
  rw [watch, List.mem_eraseDups]
  exact List.mem_append_left _ h

theorem watch_start : ∀ k, (Stage.idle, M.seeStart mon) ∈ M.watch mon k
  | 0 => List.mem_cons_self
  | k + 1 => watch_grows k (watch_start k)

theorem watch_closed {k : Nat} (h : ∀ s ∈ M.watch mon (k + 1), s ∈ M.watch mon k) :
    M.seesAll mon (M.watch mon k) = true := by
  unfold seesAll
  rw [Bool.and_eq_true, List.all_eq_true]
  refine ⟨decide_eq_true (watch_start k), fun s hs => List.all_eq_true.2 fun y hy => ?_⟩
  have key : ∀ z, (match (generalizing := false) y with
      | .ok g x => some (g, x)
      | .throw _ x => some (Stage.idle, seeSign mon .exception x)
      | _ => none) = some z → z ∈ M.watch mon k := by
    intro z hz
    refine h z ?_
    rw [watch, List.mem_eraseDups]
    exact List.mem_append_right _ (List.mem_flatMap.2 ⟨s, hs, List.mem_filterMap.2 ⟨y, hy, hz⟩⟩)
  cases y with
  | ok g x => exact decide_eq_true (key _ rfl)
  | throw e x => exact decide_eq_true (key _ rfl)
  | ub u => rfl
  | timeout => rfl

theorem watch_ends_of {F : Set (Option Q)} (hQ : F.Finite) (hsees : ∀ g x, M.Sees mon g x → x.heard ∈ F)
    (hd : M.deferring = false) : ∃ k, M.seesAll mon (M.watch mon k) = true := by
  by_contra hne
  have hF : {s : Stage × Eye Q | M.Trim s.2 ∧ s.2.heard ∈ F}.Finite := by
    have hG : (Set.univ : Set Stage).Finite :=
      (Set.toFinite {Stage.idle, .rounds true, .rounds false}).subset fun g _ => by
        rcases g with _ | _ | _ <;> simp
    refine ((hG.prod ((neat_finite (M := M) (A := [])).prod hQ)).image
      fun s => (s.1, (⟨s.2.1, [], s.2.2⟩ : Eye Q))).subset ?_
    rintro ⟨g, x⟩ ⟨h, hx⟩
    refine ⟨(g, x.spot, x.heard), ⟨trivial, h.1, hx⟩, ?_⟩
    obtain ⟨n, w, q⟩ := x
    have : w = [] := h.2
    subst this
    rfl
  have hsub : ∀ k, (M.watch mon k).toFinset ⊆ hF.toFinset := by
    intro k s hs
    rw [Set.Finite.mem_toFinset]
    have := watch_sees k (g := s.1) (x := s.2) (List.mem_toFinset.1 hs)
    exact ⟨this.trim hd, hsees _ _ this⟩
  have hcard : ∀ k, k < (M.watch mon k).toFinset.card := by
    intro k
    induction k with
    | zero => exact Finset.card_pos.2 ⟨_, List.mem_toFinset.2 (watch_start 0)⟩
    | succ k ih =>
      have : (M.watch mon k).toFinset ⊂ (M.watch mon (k + 1)).toFinset := by
        refine ⟨fun s hs => List.mem_toFinset.2 (watch_grows k (List.mem_toFinset.1 hs)), fun hle => ?_⟩
        exact hne ⟨k, watch_closed fun s hs => List.mem_toFinset.1 (hle (List.mem_toFinset.2 hs))⟩
      have := Finset.card_lt_card this
      omega
  have h1 := hcard hF.toFinset.card
  have h2 := Finset.card_le_card (hsub hF.toFinset.card)
  omega

theorem watch_ends [Finite Q] (hd : M.deferring = false) : ∃ k, M.seesAll mon (M.watch mon k) = true :=
  watch_ends_of Set.finite_univ (fun _ _ _ => trivial) hd

end Machine

/-- C86: if nothing is deferred and the monitor has finitely many states, `watch` gets there: some list it
computes leaves out nothing. -/
theorem C86_found [DecidableEq Q] [Finite Q] (hd : M.deferring = false) (mon : Monitor Q) :
    ∃ k, M.seesAll mon (M.watch mon k) = true := Machine.watch_ends hd

/-- C86: if a list leaves out nothing and every entry keeps the rules, then no client observes a break
of the rules, whatever its callbacks do. -/
theorem C86_keeps [DecidableEq Q] (hM : M.Regular) {S : List (Stage × Eye Q)}
    (hS : M.seesAll mon S = true) (hk : keepsRules S = true) {d : Dep} {ss : List Sign} {s : SM P W}
    (h : Observed M sem d ss s) : mon.Keeps ss := by
  obtain ⟨c, x, _, _, _, hs, _, _, hh⟩ := h.sees (mon := mon) hM
  unfold Monitor.Keeps
  rw [← hh]
  have := List.all_eq_true.1 hk _ (Machine.seesAll_sees hS hs)
  intro hn
  rw [hn] at this
  cases this

/-- C86: what is observed up to some point in the middle of a call keeps the rules as well. -/
theorem C86_prefix [DecidableEq Q] (hM : M.Regular) {S : List (Stage × Eye Q)}
    (hS : M.seesAll mon S = true) (hk : keepsRules S = true) {d : Dep} {ss ss' : List Sign} {s : SM P W}
    (h : Observed M sem d (ss ++ ss') s) : mon.Keeps ss := by
  intro hn
  refine C86_keeps hM hS hk h ?_
  rw [Monitor.hearAll_append, hn, Monitor.hearAll_none]

/-- C86: if a list that `watch` computes has an entry that breaks the rules, then some client observes
that: one whose callbacks read their answers from a script. -/
theorem C86_broken [DecidableEq Q] (hM : M.Regular)
    (hC : M.ScopesReal ∧ (M.orthogonal = true → M.declaredInitials M.root ≠ []))
    {k : Nat} (hk : keepsRules (M.watch mon k) = false) (d : Dep) :
    ∃ ss s, Observed M script d ss s ∧ ¬ mon.Keeps ss := by
  have : ∃ x, (Stage.idle, x) ∈ M.watch mon k ∧ x.heard = none := by
    by_contra hno
    have : keepsRules (M.watch mon k) = true := List.all_eq_true.2 fun y hy => by
      obtain ⟨g, x⟩ := y
      cases g with
      | rounds _ => rfl
      | idle =>
        show x.heard.isSome = true
        cases hx : x.heard with
        | some _ => rfl
        | none => exact (hno ⟨x, hy, hx⟩).elim
    rw [hk] at this
    cases this
  obtain ⟨x, hx, hn⟩ := this
  obtain ⟨ss, s, c, hs⟩ := (Machine.watch_sees k hx).getsTo (T := listed) (δ := d) hM [] hC
  exact ⟨ss, s, hs.observed, fun h => h (by rw [← hs.heard]; exact hn)⟩

/-- C86: the possibilities are exactly those of clients.  The rules are kept at all of them just if all
clients observe that they are kept. -/
theorem C86_exact (hM : M.Regular)
    (hC : M.ScopesReal ∧ (M.orthogonal = true → M.declaredInitials M.root ≠ [])) (mon : Monitor Q) :
    (∀ x, M.Sees mon .idle x → x.heard ≠ none) ↔
    ∀ (P W : Type) (sem : Sem P W) (d : Dep) (ss : List Sign) (s : SM P W), Observed M sem d ss s →
      mon.Keeps ss := by
  constructor
  · intro h P W sem d ss s ho
    obtain ⟨c, x, _, _, _, hs, _, _, hh⟩ := ho.sees (mon := mon) hM
    unfold Monitor.Keeps
    rw [← hh]
    exact h x hs
  · intro h x hx
    obtain ⟨ss, s, c, hs⟩ := hx.getsTo (T := listed) (δ := 0) hM [] hC
    rw [hs.heard]
    exact h _ _ _ _ ss s hs.observed

/-- C86: a list that `watch` computes and that leaves out nothing decides the question. -/
theorem C86_decides [DecidableEq Q] (hM : M.Regular)
    (hC : M.ScopesReal ∧ (M.orthogonal = true → M.declaredInitials M.root ≠ []))
    {k : Nat} (hS : M.seesAll mon (M.watch mon k) = true) :
    keepsRules (M.watch mon k) = true ↔
    ∀ (P W : Type) (sem : Sem P W) (d : Dep) (ss : List Sign) (s : SM P W), Observed M sem d ss s →
      mon.Keeps ss := by
  constructor
  · intro hk P W sem d ss s h
    exact C86_keeps hM hS hk h
  · intro h
    cases hk : keepsRules (M.watch mon k) with
    | true => rfl
    | false =>
      obtain ⟨ss, s, ho, hn⟩ := C86_broken hM hC hk 0
      exact (hn (h _ _ _ _ ss s ho)).elim

/-! ## Examples -/

namespace Ex

/-- A wicket: locked (1) and open (2).  A coin (event 0) that guard 10 accepts unlocks it (action 1),
a push (event 1) locks it again (action 2). -/
def wicket : Machine := .ofList
  [ { table := some [ row (ini 1) (ev 0) (some 10) (some 1) (.st 2), row (.st 2) (ev 1) none (some 2) (.st 1) ]
      handler := some 9 }, {}, {} ] [1]

theorem wicket_regular : wicket.Regular := Machine.regular_ofList (by decide +kernel)
theorem wicket_scoped : wicket.Scoped := Machine.scoped_of_check (by decide +kernel)

theorem wicket_builds : wicket.ScopesReal ∧
    (wicket.orthogonal = true → wicket.declaredInitials wicket.root ≠ []) :=
  ⟨(Machine.scopesReal_iff wicket_regular).2 ⟨wicket_scoped.src, wicket_scoped.comp⟩,
    fun h => absurd h (by decide +kernel)⟩

/-- Unlocking and locking alternate. -/
def alternate : Monitor Bool where
  init := false
  step q
    | .call (.action _ 1 _ _ _ _) => if q then none else some true
    | .call (.action _ 2 _ _ _ _) => if q then some false else none
    | _ => some q

/-- The same, but if unlocking or locking fails with an exception it is to be done again. -/
def rollback : Monitor Bool where
  init := false
  step q
    | .call (.action _ 1 _ _ threw _) => if q then none else some !threw
    | .call (.action _ 2 _ _ threw _) => if q then some threw else none
    | _ => some q

theorem wicket_alternates : wicket.seesAll alternate (wicket.watch alternate 2) = true ∧
    keepsRules (wicket.watch alternate 2) = true := by decide +kernel

/-- No client observes that the wicket is unlocked twice without being locked in between. -/
example {sem : Sem P W} {d : Dep} {ss : List Sign} {s : SM P W} (h : Observed wicket sem d ss s) :
    alternate.Keeps ss := C86_keeps wicket_regular wicket_alternates.1 wicket_alternates.2 h

/-- Some clients do observe that it is not unlocked again after unlocking it threw: the machine is open
already then. -/
theorem wicket_no_rollback : ∃ ss s, Observed wicket script 0 ss s ∧ ¬ rollback.Keeps ss :=
  C86_broken wicket_regular wicket_builds (k := 2) (by decide +kernel) 0

/-- Without a rule about exceptions the question is settled the other way. -/
example : ¬ ∀ (P W : Type) (sem : Sem P W) (d : Dep) (ss : List Sign) (s : SM P W),
    Observed wicket sem d ss s → rollback.Keeps ss := fun h => by
  obtain ⟨ss, s, h1, h2⟩ := wicket_no_rollback
  exact h2 (h _ _ _ _ ss s h1)

/-- What a client observes that sends `evs`. -/
def listen (M : Machine) (sem : Sem P W) (fuel : Nat) : List (EventTy × P) → List Sign → SM P W → Option (List Sign)
  | [], ss, _ => some ss
  | (e, p) :: es, ss, s =>
    if e ∈ M.eventIds then
      match step M sem fuel (.process e p) s with
      | .ok b s' => listen M sem fuel es (ss ++ .event e :: callsSince s s' ++ [.answer b]) s'
      | .throw _ s' => listen M sem fuel es (ss ++ .event e :: callsSince s s' ++ [.exception]) s'
      | _ => none
    else none

theorem listen_observed {sem : Sem P W} {d : Dep} {fuel : Nat} {out : List Sign} :
    ∀ {evs : List (EventTy × P)} {ss : List Sign} {s : SM P W}, Observed M sem d ss s →
    listen M sem fuel evs ss s = some out → ∃ s', Observed M sem d out s'
  | [], ss, s, h, he => by cases he; exact ⟨s, h⟩
  | (e, p) :: es, ss, s, h, he => by
    unfold listen at he
    split at he
    · next hev =>
      split at he
      · next b s' hs => exact listen_observed (h.ok hev hs) he
      · next x s' hs => exact listen_observed (h.throw hev hs) he
      · cases he
    · cases he

/-- A client whose first coin is accepted observes the coin, the guard, the action and the answer; when
it pushes, action 2 throws. -/
example : ∃ ss s, Observed wicket (Ex.sem (fun _ => true) [2]) 7 ss s ∧ ss =
    [.event (ev 0), .call (.guard 10 ⟨ev 0, .st 1, .st 2, false, 0⟩ () (some true) []),
      .call (.action .action 1 ⟨ev 0, .st 1, .st 2, false, 0⟩ () false []), .answer true,
      .event (ev 1), .call (.action .action 2 ⟨ev 1, .st 2, .st 1, false, 0⟩ () true []), .exception] := by
  have hl : ∀ s, construct wicket 7 ([] : List Nat) = .ok s → listen wicket (Ex.sem (fun _ => true) [2]) 5
      [(ev 0, 3), (ev 1, 4)] [] s = (match construct wicket 7 ([] : List Nat) with
        | .ok s => listen wicket (Ex.sem (fun _ => true) [2]) 5 [(ev 0, 3), (ev 1, 4)] [] s
        | .error _ => none) := fun s hs => by rw [hs]
  obtain ⟨s, hs⟩ := ((C06_construct (P := Nat) (W := List Nat) wicket_regular 7 []).1).2 wicket_builds
  obtain ⟨s', h⟩ := listen_observed (out := _) (Observed.init hs) ((hl s hs).trans
    (by decide +kernel : _ = some [.event (ev 0), .call (.guard 10 ⟨ev 0, .st 1, .st 2, false, 0⟩ () (some true) []),
      .call (.action .action 1 ⟨ev 0, .st 1, .st 2, false, 0⟩ () false []), .answer true,
      .event (ev 1), .call (.action .action 2 ⟨ev 1, .st 2, .st 1, false, 0⟩ () true []), .exception]))
  exact ⟨_, s', h, rfl⟩

end Ex

namespace Programs

/-- What the turnstile of example/turnstile/main.cpp promises whatever its callbacks do: it does not
beep after an accepted coin, before a push was accepted, and it blinks only then. -/
def fair : Monitor Bool where
  init := false
  step opened
    | .call (.guard 100 a _ (some true) _) => some (decide (a.event = coin))
    | .call (.action _ 1 _ _ _ _) => if opened then none else some false
    | .call (.action _ 2 _ _ _ _) => if opened then some true else none
    | _ => some opened

/-- C86, turnstile. -/
theorem C86_turnstile {sem : Sem P W} {d : Dep} {ss : List Sign} {s : SM P W}
    (h : Observed turnstile sem d ss s) : fair.Keeps ss :=
  C86_keeps turnstile_regular (S := turnstile.watch fair 2) (by decide +kernel) (by decide +kernel) h

end Programs

end Hsm
