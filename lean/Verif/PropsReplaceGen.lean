import Verif.ReplaceGen
import Verif.PropsReplace
import Verif.PropsShadowGen

/-!
# C107: a refined machine can take the place of the other, whichever header it is built with
-/

namespace Hsm

variable {P W α β : Type} {M M' : Machine} {sem : Sem P W} {v v' : StTy → StTy} {d : Dep}
  {pre : List (Call P)} {m0 m : Mind P W} {c : Conf P W} {ev : EventTy} {b : List Sign} {x : Eye (List Sign)}

/-! ## What was heard tells outcomes apart -/

namespace Machine

theorem seeVisitG_coded (anon : Bool) (r : Nat) (ev : EventTy) {x : Eye (List Sign)} (h : x.heard = some b) :
    Coded b (M.seeVisitG recorder anon r ev x) := by
  unfold seeVisitG
  split
  · exact .one trivial
  · exact .one trivial
  · split
    · split
      · exact .one ⟨_, h, List.prefix_refl _⟩
      · exact seeAttempt_coded anon r ev _ h
    · exact .one trivial

theorem seeSweepG_coded (ev : EventTy) : ∀ (rs : List Nat) (os : List RegionOut) {b : List Sign}
    {x : Eye (List Sign)}, x.heard = some b → Coded b (M.seeSweepG recorder ev rs os x)
  | [], os, _, _, h => .one ⟨_, h, List.prefix_refl _⟩
  | r :: rs, os, _, _, h => by
    refine (seeVisitG_coded false r ev h).branch fun o x b h => ?_
    split
    · exact .one ⟨_, h, List.prefix_refl _⟩
    · exact seeSweepG_coded ev rs _ h

theorem seeRoundG_coded : ∀ (rs : List Nat) (os : List RegionOut) {b : List Sign}
    {x : Eye (List Sign)}, x.heard = some b → Coded b (M.seeRoundG recorder rs os x)
  | [], os, _, _, h => .one ⟨_, h, List.prefix_refl _⟩
  | r :: rs, os, _, _, h => by
    refine (seeVisitG_coded true r .none h).branch fun o x b h => ?_
    split
    · exact .one ⟨_, h, List.prefix_refl _⟩
    · exact seeRoundG_coded rs _ h

theorem seeReplayG_coded {x : Eye (List Sign)} (h : x.heard = some b) : Coded b (M.seeReplayG recorder x) := by
  unfold seeReplayG
  split
  · exact seeAnswer_coded true h
  · split
    · refine (seeSweepG_coded _ _ _ ?_).branch fun os x b h => ?_
      · exact h
      · split
        · exact .one ⟨_, h, List.prefix_refl _⟩
        · exact seeAnswer_coded true h
    · exact seeAnswer_coded true h

theorem seeReceiveG_coded (ev : EventTy) {x : Eye (List Sign)} (h : x.heard = some b) :
    Coded b (M.seeReceiveG recorder ev x) := by
  refine (seeSweepG_coded ev _ _ h).branch fun os x b h => ?_
  split
  · exact .one ⟨_, h, List.prefix_refl _⟩
  split
  · exact (seeComplain_coded ev h).branch fun _ x b h => seeAnswer_coded _ h
  · exact seeReplayG_coded h

theorem seeNextG_coded (g : Stage) {x : Eye (List Sign)} (h : x.heard = some b) :
    Coded b (M.seeNextG recorder g x) := by
  cases g with
  | rounds first =>
    refine (seeRoundG_coded _ _ h).branch fun more x b h => ?_
    split
    · exact .one ⟨_, h, List.prefix_refl _⟩
    split
    · exact seeReplayG_coded h
    · exact seeAnswer_coded _ h
  | idle =>
    have hc := fun ev => seeReceiveG_coded (M := M) ev (heard_sign h (.event ev))
    refine ⟨fun y hy => ?_, fun y hy y' hy' l l' hl hl' hp => ?_⟩
    · obtain ⟨ev, _, hy⟩ := List.mem_flatMap.1 hy
      exact ((hc ev).from' y hy).mono (List.prefix_append _ _)
    · obtain ⟨ev, _, hy⟩ := List.mem_flatMap.1 hy
      obtain ⟨ev', _, hy'⟩ := List.mem_flatMap.1 hy'
      have := snoc_prefix ((((hc ev).from' y hy).says hl).trans hp) (((hc ev').from' y' hy').says hl')
      injection this with this
      subst this
      exact (hc ev).apart y hy y' hy' l l' hl hl' hp

/-! ## The none event keeps its value -/

theorem _root_.Hsm.Mind.obey_none (hk : sem.KeepsNone) {k : Call Unit} {m' : Mind P W}
    (h : m.obey sem d k = some m') : m'.payload .none = m.payload .none := by
  have key : ∀ {e : EventTy} {p : P} {w : W} {y : Option Exn} {q : Call P}, (e = .none → p = m.payload e) →
      some (m.note e p w y q) = some m' → m'.payload .none = m.payload .none := by
    intro e p w y q hp h
    cases h
    show (if EventTy.none = e then p else m.payload .none) = _
    split
    · next he => rw [hp he.symm, he]
    · rfl
  cases k with
  | guard g a _ res _ =>
    unfold Mind.obey at h
    dsimp only at h
    split at h
    · next hs =>
      split at h
      · exact key (fun he => hk.guard _ _ _ _ _ _ _ he hs) h
      · cases h
    · exact key (fun _ => rfl) h
    · cases h
  | action ph f a _ threw _ =>
    unfold Mind.obey at h
    dsimp only at h
    split at h
    · next hs => exact key (fun he => hk.action _ _ _ _ _ _ he hs) h
    · exact key (fun _ => rfl) h
    · cases h
  | handler hd e st _ _ threw _ =>
    unfold Mind.obey at h
    dsimp only at h
    split at h
    · exact key (fun _ => rfl) h
    · exact key (fun _ => rfl) h
    · cases h

theorem _root_.Hsm.Mind.calls_none (hk : sem.KeepsNone) : ∀ {ks : List (Call P)} {m m' : Mind P W},
    Mind.hearAll sem d ((signs ks).map (Sign.seen v)) m = some m' → m'.payload .none = m.payload .none
  | [], m, m', h => by cases h; rfl
  | k :: ks, m, m', h => by
    change (m.obey sem d (k.plain.seen v)).bind _ = _ at h
    cases h1 : m.obey sem d (k.plain.seen v) with
    | none => rw [h1] at h; cases h
    | some m1 =>
      rw [h1] at h
      exact (Mind.calls_none (ks := ks) hk h).trans (Mind.obey_none hk h1)

theorem _root_.Hsm.Minds.quiet (h : Minds v sem d pre m0 c m) (hk : sem.KeepsNone)
    (hn : m0.payload .none = sem.nonePayload) : m.payload .none = sem.nonePayload :=
  (Mind.calls_none hk h.heard).trans hn

/-! ## A client goes along with what it is said to observe -/

theorem visitG_acts (anon : Bool) (r : Nat) (h : Going v sem d pre m0 ev c m) :
    Acts v sem d pre m0 ev (fun a p => a.2 = p) (M.visitG (sem.seen v) anon r ev (m.payload ev) c) := by
  unfold visitG seek
  rcases c.slots[r]? with _ | _ | l
  · trivial
  · trivial
  · show Acts _ _ _ _ _ _ _ (if l.1 ∈ M.composites then _ else _)
    split
    · split
      · exact ⟨m, h, rfl⟩
      · rw [h.deps]
        simp only [List.flatMap_cons, List.flatMap_nil, List.append_nil]
        exact attempt_acts anon r _ h
    · trivial

theorem sweepG_acts : ∀ (rs : List Nat) (os : List RegionOut) {c : Conf P W} {m : Mind P W},
    Going v sem d pre m0 ev c m →
    Acts v sem d pre m0 ev (fun a p => a.2 = p) (M.sweepG (sem.seen v) ev rs os (m.payload ev) c)
  | [], os, c, m, h => ⟨m, h, rfl⟩
  | r :: rs, os, c, m, h => by
    unfold sweepG
    refine (visitG_acts false r h).bind fun o c m h hp => ?_
    rw [hp]
    split
    · exact ⟨m, h, rfl⟩
    · exact sweepG_acts rs _ h

theorem roundG_acts (hk : sem.KeepsNone) (hn : m0.payload .none = sem.nonePayload) :
    ∀ (rs : List Nat) (os : List RegionOut) {c : Conf P W} {m : Mind P W}, Going v sem d pre m0 .none c m →
    Acts v sem d pre m0 .none (fun _ _ => True) (M.roundG (sem.seen v) rs os c)
  | [], os, c, m, h => ⟨m, h, trivial⟩
  | r :: rs, os, c, m, h => by
    unfold roundG
    have hv := visitG_acts (M := M) true r h
    rw [h.toMinds.quiet hk hn] at hv
    refine hv.bind fun o c m h _ => ?_
    split
    · exact ⟨m, h, trivial⟩
    · exact roundG_acts hk hn rs _ h

theorem settleG_acts (hk : sem.KeepsNone) (hn : m0.payload .none = sem.nonePayload) :
    ∀ (fuel : Nat) {c : Conf P W} {m : Mind P W}, Going v sem d pre m0 .none c m →
    Acts v sem d pre m0 .none (fun _ _ => True) (M.settleG (sem.seen v) fuel c)
  | 0, c, m, h => trivial
  | fuel + 1, c, m, h => by
    unfold settleG
    refine (roundG_acts hk hn _ _ h).bind fun a c m h _ => ?_
    split
    · exact settleG_acts hk hn fuel h
    · exact ⟨m, h, trivial⟩

theorem replayG_off (hd : M.deferring = false) (sem : Sem P W) (fuel : Nat) (c : Conf P W) :
    M.replayG sem fuel c = .ok () c := by
  unfold replayG
  split
  · rfl
  · rw [hd]; rfl

theorem receiveG_serves (hd : M.deferring = false) (hk : sem.KeepsNone) (fuel : Nat)
    (hn : m0.payload .none = sem.nonePayload) (h : Going v sem d pre m0 ev c m) :
    Serves v sem d pre m0 (M.receiveG (sem.seen v) fuel ev (m.payload ev) c) := by
  unfold receiveG handleG
  rw [Res.bind_assoc]
  refine (sweepG_acts _ _ h).andThen fun a c m h hp => ?_
  by_cases hc : .deferred ∉ a.1 ∧ .fired ∈ a.1 ∧ M.anonymous = true
  · rw [if_pos hc, Res.bind_assoc]
    have h' : Going v sem d pre m0 .none c m := ⟨h.toMinds, h.thrown, fun h => absurd rfl h⟩
    refine (settleG_acts hk hn fuel h').andThen fun _ c m h _ => ?_
    show Serves _ _ _ _ _ (if _ then _ else _)
    rw [if_neg fun h => absurd (h _ hc.2.1) (by decide), replayG_off hd]
    exact ⟨m, h.toMinds, h.thrown⟩
  · rw [if_neg hc]
    show Serves _ _ _ _ _ (if _ then _ else _)
    split
    · rw [hp]
      exact (complain_acts h).serves
    · rw [replayG_off hd]
      exact ⟨m, h.toMinds, h.thrown⟩

/-! ## The other machine follows -/

theorem visitG_complies (hobj : ∀ st (c : Conf P W), M.present (sem.seen v) st c = true) (anon : Bool) (r : Nat)
    (x : Eye (List Sign)) (y : Res (Eye (List Sign)) RegionOut) (h : y ∈ M.seeVisitG recorder anon r ev x) :
    Complies M v sem d pre m0 b ev (fun o p => (o, p)) (M.visitG (sem.seen v) anon r ev) x y := by
  unfold seeVisitG at h
  have sl : ∀ {c : Conf P W} {m : Mind P W}, Trailing M v sem d pre m0 b ev c x m →
      c.slots[r]? = x.spot.slots[r]? := fun hc => by rw [hc.spot]; rfl
  rcases hs : x.spot.slots[r]? with _ | _ | l
  · rw [hs] at h; rw [List.mem_singleton.1 h]; exact .ub
  · rw [hs] at h; rw [List.mem_singleton.1 h]; exact .ub
  · rw [hs] at h
    dsimp only at h
    by_cases hp : l.1 ∈ M.composites
    · rw [if_pos hp] at h
      by_cases hn : M.candsG ev l.1 l.2 = []
      · rw [if_pos hn] at h
        rw [List.mem_singleton.1 h]
        refine (Complies.done (ψ := fun o p => (o, p))).congr fun c m hc => ?_
        unfold visitG seek
        rw [sl hc, hs]
        show (if l.1 ∈ M.composites then _ else _) = _
        rw [if_pos hp, if_pos hn]
      · rw [if_neg hn] at h
        refine (attempt_complies hobj anon r _ x y h).congr fun c m hc => ?_
        unfold visitG seek
        rw [sl hc, hs]
        show (if l.1 ∈ M.composites then _ else _) = _
        rw [if_pos hp, if_neg hn, hc.deps]
        simp only [List.flatMap_cons, List.flatMap_nil, List.append_nil]
    · rw [if_neg hp] at h; rw [List.mem_singleton.1 h]; exact .ub

theorem sweepG_complies (hobj : ∀ st (c : Conf P W), M.present (sem.seen v) st c = true)
    (y : Res (Eye (List Sign)) (List RegionOut)) :
    ∀ (rs : List Nat) (os : List RegionOut) (x : Eye (List Sign)), y ∈ M.seeSweepG recorder ev rs os x →
    Complies M v sem d pre m0 b ev (fun o p => (o, p)) (M.sweepG (sem.seen v) ev rs os) x y
  | [], os, x, h => by
    rw [List.mem_singleton.1 h]
    exact fun c m ht _ => ⟨c, m, rfl, ht⟩
  | r :: rs, os, x, h => by
    rw [show M.sweepG (sem.seen v) ev (r :: rs) os = fun p c => (M.visitG (sem.seen v) false r ev p c).bind fun o c =>
      if o.1 = .deferred then .ok (os ++ [.deferred], o.2) c
      else M.sweepG (sem.seen v) ev rs (os ++ [o.1]) o.2 c from rfl]
    refine Complies.bind (ψ := fun o p => (o, p)) h (fun l hl => seeVisitG_coded false r ev hl) (fun o x' l hl => ?_)
      (fun z hz => visitG_complies hobj false r x z hz) fun o x' _ h => ?_
    · split
      · exact .one ⟨_, hl, List.prefix_refl _⟩
      · exact seeSweepG_coded ev rs _ hl
    · by_cases ho : o = .deferred
      · simp only [if_pos ho] at h ⊢
        rw [List.mem_singleton.1 h]; exact Complies.done (ψ := fun o p => (o, p))
      · simp only [if_neg ho] at h ⊢
        exact sweepG_complies hobj y rs _ x' h

theorem roundG_complies (hobj : ∀ st (c : Conf P W), M.present (sem.seen v) st c = true) (hk : sem.KeepsNone)
    (hn : m0.payload .none = sem.nonePayload) (y : Res (Eye (List Sign)) Bool) :
    ∀ (rs : List Nat) (os : List RegionOut) (x : Eye (List Sign)), y ∈ M.seeRoundG recorder rs os x →
    Complies M v sem d pre m0 b .none (fun a _ => a) (fun _ => M.roundG (sem.seen v) rs os) x y
  | [], os, x, h => by
    rw [List.mem_singleton.1 h]
    exact fun c m ht _ => ⟨c, m, rfl, ht⟩
  | r :: rs, os, x, h => by
    have key : Complies M v sem d pre m0 b .none (fun a _ => a) (fun p c =>
        (M.visitG (sem.seen v) true r .none p c).bind fun o c =>
          if o.1 = .none then .ok false c else M.roundG (sem.seen v) rs (os ++ [o.1]) c) x y := by
      refine Complies.bind (ψ := fun o p => (o, p)) h (fun l hl => seeVisitG_coded true r .none hl)
        (fun o x' l hl => ?_) (fun z hz => visitG_complies hobj true r x z hz) fun o x' _ h => ?_
      · split
        · exact .one ⟨_, hl, List.prefix_refl _⟩
        · exact seeRoundG_coded rs _ hl
      · by_cases ho : o = .none
        · simp only [if_pos ho] at h ⊢
          rw [List.mem_singleton.1 h]; exact Complies.done (ψ := fun a (_ : P) => a)
        · simp only [if_neg ho] at h ⊢
          exact roundG_complies hobj hk hn y rs _ x' h
    refine key.congr fun c m ht => ?_
    rw [ht.toMinds.quiet hk hn]
    rfl

/-! ### Whole calls -/

theorem seeReplayG_off (hd : M.deferring = false) (x : Eye (List Sign)) :
    M.seeReplayG recorder x = seeAnswer recorder true x := by
  unfold seeReplayG
  split
  · rfl
  · rw [hd]; rfl

/-- A call, with the reply that stands for its return. -/
def replyG (M : Machine) (sem : Sem P W) (fuel : Nat) (ev : EventTy) (p : P) (c : Conf P W) :
    Res (Conf P W) Bool :=
  (M.receiveG sem fuel ev p c).bind fun _ c => .ok true c

theorem receiveG_goes (hobj : ∀ st (c : Conf P W), M.present (sem.seen v) st c = true) (hd : M.deferring = false)
    (x : Eye (List Sign)) (y : Res (Eye (List Sign)) Stage) (h : y ∈ M.seeReceiveG recorder ev x) :
    Goes (fun fuel _ => M.settleG (sem.seen v) fuel) M v sem d pre m0 b ev
      (fun fuel => M.replyG (sem.seen v) fuel ev) x y := by
  have key : Goes (fun fuel _ => M.settleG (sem.seen v) fuel) M v sem d pre m0 b ev (fun fuel p c =>
      (M.sweepG (sem.seen v) ev (M.involved x.spot) [] p c).bind fun a c =>
      ((if .deferred ∉ a.1 ∧ .fired ∈ a.1 ∧ M.anonymous then
        (M.settleG (sem.seen v) fuel c).bind fun _ c => .ok a c
      else .ok a c).bind fun a c =>
        if ∀ o ∈ a.1, o = RegionOut.none then M.complain (sem.seen v) ev a.2 c
        else M.replayG (sem.seen v) fuel c).bind fun _ c => .ok true c) x y := by
    refine Goes.bind (ψ := fun o p => (o, p)) h (fun l hl => seeSweepG_coded ev _ _ hl) (fun os x' l hl => ?_)
      (fun z hz => sweepG_complies hobj z _ _ _ hz) fun os x' _ h => ?_
    · split
      · exact .one ⟨_, hl, List.prefix_refl _⟩
      split
      · exact (seeComplain_coded ev hl).branch fun _ _ _ hl => seeAnswer_coded _ hl
      · exact seeReplayG_coded hl
    dsimp only at h ⊢
    by_cases h1 : RegionOut.deferred ∉ os ∧ RegionOut.fired ∈ os ∧ M.anonymous = true
    · rw [if_pos h1] at h
      rw [List.mem_singleton.1 h]
      refine fun c m ht _ => ⟨c, m, fun fuel => ?_, ⟨ht.toTrails, ht.thrown, fun h => absurd rfl h⟩⟩
      dsimp only
      rw [if_pos h1, Res.bind_assoc, Res.bind_assoc]
      congr 1
      funext _ c
      show Res.bind (if _ then _ else _) _ = _
      rw [if_neg fun h => absurd (h _ h1.2.1) (by decide), replayG_off hd]
      rfl
    rw [if_neg h1] at h
    by_cases h2 : ∀ o ∈ os, o = RegionOut.none
    · rw [if_pos h2] at h
      have := Goes.bind (T := fun fuel _ => M.settleG (sem.seen v) fuel) (f := fun _ _ c => .ok true c)
        (ψ := fun a (_ : P) => a) (v := v) (sem := sem) (d := d) (pre := pre) (m0 := m0) (b := b) (ev := ev) h
        (fun l hl => seeComplain_coded ev hl) (fun _ _ _ hl => seeAnswer_coded _ hl)
        (fun z hz => complain_complies hobj x' z hz) fun _ x'' _ h => Goes.answer h
      refine this.congr fun c m fuel _ => ?_
      rw [if_neg h1]
      show Res.bind (if _ then _ else _) _ = _
      rw [if_pos h2]
    · rw [if_neg h2, seeReplayG_off hd] at h
      refine (Goes.answer h).congr fun c m fuel _ => ?_
      rw [if_neg h1]
      show Res.bind (if _ then _ else _) _ = _
      rw [if_neg h2, replayG_off hd]
      rfl
  refine key.congr fun c m fuel hc => ?_
  unfold replyG receiveG handleG
  rw [show M.taking c = M.involved x.spot from by rw [hc.spot]; rfl, Res.bind_assoc, Res.bind_assoc]
  congr 1
  funext a c
  rw [Res.bind_assoc]

theorem replyG_ok {fuel : Nat} {p : P} {a : Bool} {c' : Conf P W} (h : M.replyG sem fuel ev p c = .ok a c') :
    a = true ∧ M.receiveG sem fuel ev p c = .ok () c' := by
  unfold replyG at h
  cases hr : M.receiveG sem fuel ev p c with
  | ok u c1 => rw [hr] at h; cases h; exact ⟨rfl, rfl⟩
  | throw e c1 => rw [hr] at h; cases h
  | ub u => rw [hr] at h; cases h
  | timeout => rw [hr] at h; cases h

theorem replyG_throw {fuel : Nat} {p : P} {e : Exn} {c' : Conf P W}
    (h : M.replyG sem fuel ev p c = .throw e c') : M.receiveG sem fuel ev p c = .throw e c' := by
  unfold replyG at h
  cases hr : M.receiveG sem fuel ev p c with
  | ok u c1 => rw [hr] at h; cases h
  | throw e c1 => rw [hr] at h; cases h; rfl
  | ub u => rw [hr] at h; cases h
  | timeout => rw [hr] at h; cases h

end Machine

/-! ## From beginning to end -/

/-- The client was served by `M`, has `m` in mind, and the machine is at `c`. -/
structure StoodG (M : Machine) (v : StTy → StTy) (sem : Sem P W) (d : Dep) (w : W) (ts : List (Request P W))
    (m : Mind P W) (s : SM P W) (c : Conf P W) : Prop where
  served : ∃ past, ts = past ++ m.requests ∧ ServedG M (sem.seen v) d w past m.replies s
  depicts : DepictsG M c s
  deps : c.deps = [d]
  first : c.first = d
  world : c.world = m.world
  calls : c.calls.map (Call.seen v) = m.calls

variable {w : W} {ts : List (Request P W)} {s : SM P W}

theorem StoodG.begin (hM : M.RegularG) (h : constructG M d w = .ok s) :
    StoodG M v sem d w ts (.start sem w ts) s (M.fresh d w) :=
  ⟨⟨[], rfl, .init h⟩, (C82_construct hM d w).2.2 s h, rfl, rfl, rfl, rfl⟩

/-- The next call. -/
theorem StoodG.going (h : StoodG M v sem d w ts m s c) (r : Request P W) (rs : List (Request P W)) :
    Minds v sem d c.calls (m.send sem r rs) { c with world := r.work c.world } (m.send sem r rs) where
  deps := h.deps
  first := h.first
  since := List.prefix_refl _
  heard := by
    show Mind.hearAll sem d ((signs (c.calls.drop c.calls.length)).map _) _ = _
    rw [List.drop_length]; rfl
  world := by show r.work c.world = r.work m.world; rw [h.world]
  calls := h.calls
  replies := rfl
  requests := rfl

theorem DepictsG.reworld (h : DepictsG M c s) (w : W) :
    DepictsG M { c with world := w } { s with world := w } := { h with world := rfl }

theorem StoodG.finish (hM : M.RegularG) (hS : M.ScopesRealG) (h : StoodG M v sem d w ts m s c) {r : Request P W}
    {rs : List (Request P W)} (hr : m.requests = r :: rs) (hev : r.event ∈ M.eventsG) {c' : Conf P W} {m' : Mind P W}
    (hm : Minds v sem d c.calls (m.send sem r rs) c' m') {fuel : Nat} {q : Reply}
    (ho : (∃ a, M.replyG (sem.seen v) fuel r.event r.payload { c with world := r.work c.world } = .ok a c' ∧
        q = .ret a) ∨
      ∃ e, M.replyG (sem.seen v) fuel r.event r.payload { c with world := r.work c.world } = .throw e c' ∧
        q = .threw e) :
    ∃ s', StoodG M v sem d w ts { m' with replies := m'.replies ++ [q] } s' c' := by
  replace ho : (M.receiveG (sem.seen v) fuel r.event r.payload { c with world := r.work c.world } = .ok () c' ∧
        q = .ret true) ∨
      ∃ e, M.receiveG (sem.seen v) fuel r.event r.payload { c with world := r.work c.world } = .throw e c' ∧
        q = .threw e := by
    rcases ho with ⟨a, ho, rfl⟩ | ⟨e, ho, rfl⟩
    · obtain ⟨rfl, ho'⟩ := Machine.replyG_ok ho
      exact Or.inl ⟨ho', rfl⟩
    · exact Or.inr ⟨e, Machine.replyG_throw ho, rfl⟩
  obtain ⟨past, h1, h2⟩ := h.served
  have hop : OpOkG M (.process r.event r.payload) := by
    rw [Machine.eventsG_eq hM.laid] at hev
    exact hev
  have hx := C82_step (sem := sem.seen v) (DepictsG.reworld h.depicts (r.work c.world)) hM hS fuel hop
  rw [show M.execG (sem.seen v) fuel (.process r.event r.payload) { c with world := r.work c.world } =
    M.receiveG (sem.seen v) fuel r.event r.payload { c with world := r.work c.world } from rfl] at hx
  have hw : s.world = c.world := h.depicts.world
  have fin : ∀ s', DepictsG M c' s' → ServedG M (sem.seen v) d w (past ++ [r]) (m.replies ++ [q]) s' →
      StoodG M v sem d w ts { m' with replies := m'.replies ++ [q] } s' c' := fun s' hd hs =>
    { served := ⟨past ++ [r], by
        rw [h1, hr, show ({ m' with replies := m'.replies ++ [q] } : Mind P W).requests = rs from hm.requests]; simp,
        by rw [show ({ m' with replies := m'.replies ++ [q] } : Mind P W).replies = m.replies ++ [q] from by
          show m'.replies ++ [q] = _
          rw [hm.replies]; rfl]; exact hs⟩
      depicts := hd
      deps := hm.deps
      first := hm.first
      world := hm.world
      calls := hm.calls }
  rw [← hw] at hx ho
  revert hx
  rcases ho with ⟨ho, rfl⟩ | ⟨e, ho, rfl⟩ <;> rw [ho] <;>
    cases hst : stepG M (sem.seen v) fuel (.process r.event r.payload) { s with world := r.work s.world } <;> intro hx
  case inl.ok b' s' =>
    exact ⟨s', fin s' hx.2 (h2.ok hop hst)⟩
  case inr.throw e' s' =>
    obtain ⟨rfl, hx⟩ := hx
    exact ⟨s', fin s' hx (h2.throw hop hst)⟩
  all_goals exact hx.elim

/-! ### The first machine -/

/-- What the client observes goes with what it has in mind. -/
theorem ServedG.mind (hM : M.RegularG) (hd : M.deferring = false) (hk : sem.KeepsNone) {rs : List Reply}
    (h : ServedG M (sem.seen v) d w ts rs s) (hts : ∀ t ∈ ts, t.event ≠ .none) :
    ∃ ss m c, ObservedG M (sem.seen v) d ss s ∧
      Mind.hearAll sem d (ss.map (Sign.seen v)) (.start sem w ts) = some m ∧ m.requests = [] ∧ m.replies = rs ∧
      DepictsG M c s ∧ c.deps = [d] ∧ c.first = d ∧ c.world = m.world ∧ c.calls.map (Call.seen v) = m.calls := by
  have step : ∀ {ts : List (Request P W)} {rs : List Reply} {s s' : SM P W} {t : Request P W} {fuel : Nat},
      OpOkG M (.process t.event t.payload) → t.event ≠ .none →
      (∃ ss m c, ObservedG M (sem.seen v) d ss s ∧
        Mind.hearAll sem d (ss.map (Sign.seen v)) (.start sem w ts) = some m ∧ m.requests = [] ∧ m.replies = rs ∧
        DepictsG M c s ∧ c.deps = [d] ∧ c.first = d ∧ c.world = m.world ∧ c.calls.map (Call.seen v) = m.calls) →
      ∀ (last : Sign) (q : Reply),
      (Hsm.stepG M (sem.seen v) fuel (.process t.event t.payload) { s with world := t.work s.world } = .ok () s' ∧
          q = .ret true ∧ last = .answer true ∨
        ∃ e, Hsm.stepG M (sem.seen v) fuel (.process t.event t.payload) { s with world := t.work s.world } =
          .throw e s' ∧ q = .threw e ∧ last = .exception) →
      ∃ ss m c, ObservedG M (sem.seen v) d ss s' ∧
        Mind.hearAll sem d (ss.map (Sign.seen v)) (.start sem w (ts ++ [t])) = some m ∧ m.requests = [] ∧
        m.replies = rs ++ [q] ∧ DepictsG M c s' ∧ c.deps = [d] ∧ c.first = d ∧ c.world = m.world ∧
        c.calls.map (Call.seen v) = m.calls := by
    intro ts rs s s' t fuel hop hne ih last q hst
    obtain ⟨ss, m, c, ho, hh, hq, hr, hdp, h1, h2, h3, h4⟩ := ih
    obtain ⟨ops, hrun⟩ := ho.runs
    have hw : s.world = c.world := hdp.world
    have hdp' := DepictsG.reworld hdp (t.work s.world)
    have hx := C82_step (sem := sem.seen v) hdp' hM (C82_reach hM hrun).1 fuel hop
    rw [show M.execG (sem.seen v) fuel (.process t.event t.payload) { c with world := t.work s.world } =
      M.receiveG (sem.seen v) fuel t.event t.payload { c with world := t.work s.world } from rfl] at hx
    have hm : Minds v sem d c.calls (m.send sem t []) { c with world := t.work s.world } (m.send sem t []) :=
      { deps := h1
        first := h2
        since := List.prefix_refl _
        heard := by
          show Mind.hearAll sem d ((signs (c.calls.drop c.calls.length)).map _) _ = _
          rw [List.drop_length]; rfl
        world := by show t.work s.world = t.work m.world; rw [hw, h3]
        calls := h4
        replies := rfl
        requests := rfl }
    have hs := Machine.receiveG_serves (M := M) (ev := t.event) hd hk fuel (send_none t []) ⟨hm, rfl, fun _ => rfl⟩
    rw [send_event t [] hne] at hs
    have hh' := Mind.hearAll_more hh [t]
    rw [show ({ Mind.start sem w ts with requests := (Mind.start sem w ts).requests ++ [t] } : Mind P W) =
      .start sem w (ts ++ [t]) from rfl, hq] at hh'
    have fin : ∀ c' m', DepictsG M c' s' → Minds v sem d c.calls (m.send sem t []) c' m' →
        m'.hear sem d last = some { m' with replies := m'.replies ++ [q] } → last.seen v = last →
        ObservedG M (sem.seen v) d (ss ++ .event t.event :: callsSince { s with world := t.work s.world } s' ++ [last]) s' →
        ∃ ss m c, ObservedG M (sem.seen v) d ss s' ∧
        Mind.hearAll sem d (ss.map (Sign.seen v)) (.start sem w (ts ++ [t])) = some m ∧ m.requests = [] ∧
        m.replies = rs ++ [q] ∧ DepictsG M c s' ∧ c.deps = [d] ∧ c.first = d ∧ c.world = m.world ∧
        c.calls.map (Call.seen v) = m.calls := by
      intro c' m' hc' hm' hl hls hob
      refine ⟨_, { m' with replies := m'.replies ++ [q] }, c', hob, ?_, hm'.requests, ?_, hc', hm'.deps, hm'.first,
        hm'.world, hm'.calls⟩
      · obtain ⟨l, hl'⟩ := hm'.since
        rw [hdp'.since hc' hl'.symm]
        simp only [List.map_append, List.map_cons, List.map_nil, hls]
        rw [Mind.hearAll_append, Mind.hearAll_append, hh']
        have hheard := hm'.heard
        rw [← hl', List.drop_append_of_le_length (Nat.le_refl _), List.drop_length, List.nil_append] at hheard
        show ((Mind.hear sem d _ (.event t.event)).bind _).bind _ = _
        rw [show Mind.hear sem d { m with requests := [] ++ [t] } (.event t.event) = some (m.send sem t []) from
          if_pos rfl]
        show (Mind.hearAll sem d _ _).bind _ = _
        rw [hheard]
        show (m'.hear sem d last).bind _ = _
        rw [hl]; rfl
      · show m'.replies ++ [q] = _
        rw [hm'.replies]
        show m.replies ++ [q] = _
        rw [hr]
    rcases hst with ⟨hst, rfl, rfl⟩ | ⟨e, hst, rfl, rfl⟩
    · have hob := (ho.world (t.work s.world)).ok hop hst
      rw [hst] at hx
      cases hc' : M.receiveG (sem.seen v) fuel t.event t.payload { c with world := t.work s.world } with
      | ok b' c' =>
        rw [hc'] at hx hs
        obtain ⟨m', hm', _⟩ := hs
        exact fin c' m' hx.2 hm' rfl rfl hob
      | _ => rw [hc'] at hx; exact hx.elim
    · have hob := (ho.world (t.work s.world)).throw hop hst
      rw [hst] at hx
      cases hc' : M.receiveG (sem.seen v) fuel t.event t.payload { c with world := t.work s.world } with
      | throw e' c' =>
        rw [hc'] at hx hs
        obtain ⟨rfl, hx⟩ := hx
        obtain ⟨m', hm', he⟩ := hs
        exact fin c' m' hx hm' (by rw [← he]; rfl) rfl hob
      | _ => rw [hc'] at hx; exact hx.elim
  induction h with
  | init h => exact ⟨[], _, _, .init h, rfl, rfl, rfl, (C82_construct hM d w).2.2 _ h, rfl, rfl, rfl, rfl⟩
  | ok hr hop h ih =>
    exact step hop (hts _ (by simp)) (ih fun t ht => hts t (by simp [ht])) _ _ (Or.inl ⟨h, rfl, rfl⟩)
  | throw hr hop h ih =>
    exact step hop (hts _ (by simp)) (ih fun t ht => hts t (by simp [ht])) _ _ (Or.inr ⟨_, h, rfl, rfl⟩)

/-! ### The second machine -/

/-- The client gets there, too. -/
def AttainsG (M : Machine) (v : StTy → StTy) (sem : Sem P W) (d : Dep) (w : W) (ts : List (Request P W))
    (m : Mind P W) : Stage → Eye (List Sign) → Prop
  | .idle, x => ∃ s c, StoodG M v sem d w ts m s c ∧ x.spot = M.sight c
  | .rounds _, x => ∃ m0 s c r rs b c' m' k, StoodG M v sem d w ts m0 s c ∧ m0.requests = r :: rs ∧
      r.event ∈ M.eventsG ∧ Mind.hearAll sem d (b.map (Sign.seen v)) (.start sem w ts) = some (m0.send sem r rs) ∧
      Trailing M v sem d c.calls (m0.send sem r rs) b .none c' x m' ∧
      ∀ fuel, M.replyG (sem.seen v) (fuel + k) r.event r.payload { c with world := r.work c.world } =
        (M.settleG (sem.seen v) fuel c').bind fun _ c => .ok true c

/-- Whatever may be heard of the second machine and the client goes along with happens to the client. -/
theorem Machine.SeesG.attains (hM : M.RegularG) (hd : M.deferring = false) (hk : sem.KeepsNone)
    (hC : M.ScopesRealG ∧ (M.orthogonal = true → M.declaredInitials M.root ≠ []))
    (hobj : ∀ st (c : Conf P W), M.present (sem.seen v) st c = true) (hts : ∀ t ∈ ts, t.event ≠ .none)
    {g : Stage} (h : M.SeesG recorder g x) : ∀ l m, x.heard = some l →
    Mind.hearAll sem d (l.map (Sign.seen v)) (.start sem w ts) = some m → AttainsG M v sem d w ts m g x := by
  have step : ∀ {g : Stage} {x : Eye (List Sign)}, (∃ l, x.heard = some l) → (∀ l m, x.heard = some l →
      Mind.hearAll sem d (l.map (Sign.seen v)) (.start sem w ts) = some m → AttainsG M v sem d w ts m g x) →
      (∀ g' x', .ok g' x' ∈ M.seeNextG recorder g x → ∀ l m, x'.heard = some l →
        Mind.hearAll sem d (l.map (Sign.seen v)) (.start sem w ts) = some m → AttainsG M v sem d w ts m g' x') ∧
      ∀ e x', .throw e x' ∈ M.seeNextG recorder g x → ∀ l m, (seeSign recorder .exception x').heard = some l →
        Mind.hearAll sem d (l.map (Sign.seen v)) (.start sem w ts) = some m →
        AttainsG M v sem d w ts m .idle (seeSign recorder .exception x') := by
    intro g x hx ih
    obtain ⟨l0, hx⟩ := hx
    have before : ∀ y ∈ M.seeNextG recorder g x, ∀ l m, y.says = some l →
        Mind.hearAll sem d (l.map (Sign.seen v)) (.start sem w ts) = some m →
        ∃ m0, Mind.hearAll sem d (l0.map (Sign.seen v)) (.start sem w ts) = some m0 ∧ AttainsG M v sem d w ts m0 g x := by
      intro y hy l m hl hm
      have h1 := ((seeNextG_coded g hx).from' y hy).says hl
      obtain ⟨m0, hm0⟩ := Mind.hearAll_prefix (h1.map (Sign.seen v)) hm
      exact ⟨m0, hm0, ih l0 m0 hx hm0⟩
    -- the sign at the end of a call adds a reply
    have ended : ∀ {m0 : Mind P W} {s : SM P W} {c : Conf P W} {r : Request P W} {rs : List (Request P W)}
        {b l : List Sign} {x'' : Eye (List Sign)} {c' : Conf P W} {m m' : Mind P W} {fuel : Nat} (last : Sign) (q : Reply),
        StoodG M v sem d w ts m0 s c → m0.requests = r :: rs → r.event ∈ M.eventsG →
        Mind.hearAll sem d (b.map (Sign.seen v)) (.start sem w ts) = some (m0.send sem r rs) →
        Trails M v sem d c.calls (m0.send sem r rs) b c' x'' m' → (seeSign recorder last x'').heard = some l →
        Mind.hearAll sem d (l.map (Sign.seen v)) (.start sem w ts) = some m →
        m'.hear sem d (last.seen v) = some { m' with replies := m'.replies ++ [q] } →
        ((∃ a, M.replyG (sem.seen v) fuel r.event r.payload { c with world := r.work c.world } = .ok a c' ∧
          q = .ret a) ∨
        ∃ e, M.replyG (sem.seen v) fuel r.event r.payload { c with world := r.work c.world } = .throw e c' ∧
          q = .threw e) → AttainsG M v sem d w ts m .idle (seeSign recorder last x'') := by
      intro m0 s c r rs b l x'' c' m m' fuel last q hs hr hev hb ht hl hm hq ho
      obtain ⟨s', hs'⟩ := hs.finish hM hC.1 hr hev ht.toMinds ho
      have e : m = { m' with replies := m'.replies ++ [q] } := by
        rw [heard_sign ht.said] at hl
        cases hl
        rw [List.map_append, Mind.hearAll_append, ht.mind hb ht.said] at hm
        change (m'.hear sem d (last.seen v)).bind _ = _ at hm
        rw [hq] at hm
        exact (Option.some.inj hm).symm
      rw [e]
      exact ⟨s', c', hs', ht.spot⟩
    cases g with
    | idle =>
      have call : ∀ y ev, ev ∈ M.eventsG → y ∈ M.seeReceiveG recorder ev (seeSign recorder (.event ev) x) → ∀ l m,
          y.says = some l → Mind.hearAll sem d (l.map (Sign.seen v)) (.start sem w ts) = some m →
          ∃ m0 s c r rs b, StoodG M v sem d w ts m0 s c ∧ m0.requests = r :: rs ∧ r.event ∈ M.eventsG ∧
            Mind.hearAll sem d (b.map (Sign.seen v)) (.start sem w ts) = some (m0.send sem r rs) ∧
            Goes.Out (fun fuel _ => M.settleG (sem.seen v) fuel) M v sem d c.calls (m0.send sem r rs) b (fun fuel =>
              M.replyG (sem.seen v) fuel r.event r.payload { c with world := r.work c.world }) y := by
        intro y ev hev hy l m hl hm
        obtain ⟨m0, hm0, s, c, hs, hsp⟩ := before y (List.mem_flatMap.2 ⟨ev, hev, hy⟩) l m hl hm
        have hfrom := (seeReceiveG_coded (M := M) ev (heard_sign hx (.event ev))).from' y hy
        obtain ⟨m1, hm1⟩ := Mind.hearAll_prefix ((hfrom.says hl).map (Sign.seen v)) hm
        have hm1' := hm1
        rw [List.map_append, Mind.hearAll_append, hm0] at hm1
        change (m0.hear sem d (.event ev)).bind some = _ at hm1
        rw [Option.bind_fun_some] at hm1
        have : ∃ r rs, m0.requests = r :: rs ∧ r.event = ev ∧ m1 = m0.send sem r rs := by
          unfold Mind.hear at hm1
          cases hq : m0.requests with
          | nil => rw [hq] at hm1; cases hm1
          | cons r rs =>
            rw [hq] at hm1
            dsimp only at hm1
            split at hm1
            · next he => exact ⟨r, rs, rfl, he, (Option.some.inj hm1).symm⟩
            · cases hm1
        obtain ⟨r, rs, hr, rfl, rfl⟩ := this
        have hne : r.event ≠ .none := hts r (by
          obtain ⟨past, h1, _⟩ := hs.served
          rw [h1, hr]; simp)
        refine ⟨m0, s, c, r, rs, l0 ++ [.event r.event], hs, hr, hev, hm1', ?_⟩
        have hgo := receiveG_goes (M := M) (v := v) (d := d) (pre := c.calls) (m0 := m0.send sem r rs)
          (b := l0 ++ [.event r.event]) hobj hd _ _ hy { c with world := r.work c.world }
          (m0.send sem r rs) ⟨⟨hs.going r rs, hsp, by
            rw [heard_sign hx]
            show _ = some (_ ++ signs (c.calls.drop c.calls.length))
            rw [List.drop_length]; simp [signs]⟩, rfl, fun _ => rfl⟩
          (plausible_of hm1' hl hfrom hm)
        rw [send_event r rs hne] at hgo
        exact hgo
      refine ⟨fun g' x' hn l m hl hm => ?_, fun e x' hn l m hl hm => ?_⟩
      · obtain ⟨ev, hev, hn⟩ := List.mem_flatMap.1 hn
        obtain ⟨m0, s, c, r, rs, b, hs, hr, hev, hb, ho⟩ := call _ ev hev hn l m hl hm
        cases g' with
        | idle =>
          obtain ⟨a, x'', c', m', rfl, ho, ht, hth⟩ := ho
          exact ended (.answer a) (.ret a) hs hr hev hb ht hl hm rfl (Or.inl ⟨a, ho 0, rfl⟩)
        | rounds first =>
          obtain ⟨c', m', ho, ht⟩ := ho
          exact ⟨m0, s, c, r, rs, b, c', m', 0, hs, hr, hev, hb, ht, ho⟩
      · obtain ⟨ev, hev, hn⟩ := List.mem_flatMap.1 hn
        obtain ⟨l1, hl1, _⟩ : ∃ l1, x'.heard = some l1 ∧ _ :=
          (seeReceiveG_coded (M := M) ev (heard_sign hx (.event ev))).from' _ hn
        obtain ⟨m1, hm1⟩ : ∃ m1, Mind.hearAll sem d (l1.map (Sign.seen v)) (.start sem w ts) = some m1 := by
          rw [heard_sign hl1] at hl
          cases hl
          exact Mind.hearAll_prefix ((List.prefix_append _ _).map _) hm
        obtain ⟨m0, s, c, r, rs, b, hs, hr, hev, hb, c', m', ho, ht⟩ := call _ ev hev hn l1 m1 hl1 hm1
        exact ended .exception (.threw (m'.thrown.getD .outOfRange)) hs hr hev hb ht hl hm rfl (Or.inr ⟨_, ho 0, rfl⟩)
    | rounds first =>
      have call : ∀ y, y ∈ M.seeNextG recorder (.rounds first) x → ∀ l m,
          y.says = some l → Mind.hearAll sem d (l.map (Sign.seen v)) (.start sem w ts) = some m →
          ∃ m0 s c r rs b k, StoodG M v sem d w ts m0 s c ∧ m0.requests = r :: rs ∧ r.event ∈ M.eventsG ∧
            Mind.hearAll sem d (b.map (Sign.seen v)) (.start sem w ts) = some (m0.send sem r rs) ∧
            Goes.Out (fun fuel _ => M.settleG (sem.seen v) fuel) M v sem d c.calls (m0.send sem r rs) b (fun fuel =>
              M.replyG (sem.seen v) (fuel + k) r.event r.payload { c with world := r.work c.world }) y := by
        intro y hy l m hl hm
        obtain ⟨_, _, m0, s, c, r, rs, b, c', m', k, hs, hr, hev, hb, ht, ho⟩ := before y hy l m hl hm
        have hfrom := ((seeNextG_coded (M := M) (.rounds first) ht.said).from' y hy).mono (List.prefix_append _ _)
        refine ⟨m0, s, c, r, rs, b, k + 1, hs, hr, hev, hb, ?_⟩
        have hgo : Goes (fun fuel _ => M.settleG (sem.seen v) fuel) M v sem d c.calls (m0.send sem r rs) b .none (fun fuel _ c =>
            (M.roundG (sem.seen v) (M.involved x.spot) [] c).bind fun a c =>
              (if a then M.settleG (sem.seen v) fuel c else .ok () c).bind fun _ c => .ok true c) x y := by
          refine Goes.bind (ψ := fun a (_ : P) => a) hy (fun l hl => seeRoundG_coded _ _ hl) (fun more x' l hl => ?_)
            (fun z hz => roundG_complies hobj hk (send_none r rs) z _ _ _ hz) fun more x' _ h => ?_
          · split
            · exact .one ⟨_, hl, List.prefix_refl _⟩
            split
            · exact seeReplayG_coded hl
            · exact seeAnswer_coded _ hl
          · cases more with
            | true =>
              rw [if_pos rfl] at h
              rw [List.mem_singleton.1 h]
              exact fun c m ht _ => ⟨c, m, fun _ => rfl, ht⟩
            | false =>
              rw [if_neg (by simp), seeReplayG_off hd, ite_self] at h
              exact (Goes.answer h).congr fun _ _ _ _ => rfl
        have := hgo c' m' ht (plausible_of hb hl hfrom hm)
        rw [show (fun fuel => M.replyG (sem.seen v) (fuel + (k + 1)) r.event r.payload
            { c with world := r.work c.world }) = fun fuel =>
            (M.roundG (sem.seen v) (M.involved x.spot) [] c').bind fun a c =>
              (if a then M.settleG (sem.seen v) fuel c else .ok () c).bind fun _ c => .ok true c from
          funext fun fuel => by
            rw [show fuel + (k + 1) = (fuel + 1) + k by omega, ho (fuel + 1), settleG, Res.bind_assoc,
              show M.taking c' = M.involved x.spot from by rw [ht.spot]; rfl]]
        exact this
      refine ⟨fun g' x' hn l m hl hm => ?_, fun e x' hn l m hl hm => ?_⟩
      · obtain ⟨m0, s, c, r, rs, b, k, hs, hr, hev, hb, ho⟩ := call _ hn l m hl hm
        cases g' with
        | idle =>
          obtain ⟨a, x'', c', m', rfl, ho, ht, hth⟩ := ho
          exact ended (.answer a) (.ret a) hs hr hev hb ht hl hm rfl (Or.inl ⟨a, ho 0, rfl⟩)
        | rounds first =>
          obtain ⟨c', m', ho, ht⟩ := ho
          exact ⟨m0, s, c, r, rs, b, c', m', k, hs, hr, hev, hb, ht, ho⟩
      · obtain ⟨l1, hl1, _⟩ : ∃ l1, x'.heard = some l1 ∧ _ := (seeNextG_coded (M := M) (.rounds first) hx).from' _ hn
        obtain ⟨m1, hm1⟩ : ∃ m1, Mind.hearAll sem d (l1.map (Sign.seen v)) (.start sem w ts) = some m1 := by
          rw [heard_sign hl1] at hl
          cases hl
          exact Mind.hearAll_prefix ((List.prefix_append _ _).map _) hm
        obtain ⟨m0, s, c, r, rs, b, k, hs, hr, hev, hb, c', m', ho, ht⟩ := call _ hn l1 m1 hl1 hm1
        exact ended .exception (.threw (m'.thrown.getD .outOfRange)) hs hr hev hb ht hl hm rfl (Or.inr ⟨_, ho 0, rfl⟩)
  have main : (∃ l, x.heard = some l) ∧ ∀ l m, x.heard = some l →
      Mind.hearAll sem d (l.map (Sign.seen v)) (.start sem w ts) = some m → AttainsG M v sem d w ts m g x := by
    induction h with
    | start =>
      refine ⟨⟨[], rfl⟩, fun l m hl hm => ?_⟩
      cases hl
      cases hm
      obtain ⟨s, hs⟩ := ((C82_construct (P := P) hM d w).1).2 hC
      exact ⟨s, _, .begin hM hs, rfl⟩
    | ok h hn ih =>
      obtain ⟨⟨l, hl⟩, ih⟩ := ih
      obtain ⟨l', hl', _⟩ := (seeNextG_coded (M := M) _ hl).from' _ hn
      exact ⟨⟨l', hl'⟩, (step ⟨l, hl⟩ ih).1 _ _ hn⟩
    | throw h hn ih =>
      obtain ⟨⟨l, hl⟩, ih⟩ := ih
      obtain ⟨l', hl', _⟩ := (seeNextG_coded (M := M) _ hl).from' _ hn
      exact ⟨⟨_, heard_sign hl' _⟩, (step ⟨l, hl⟩ ih).2 _ _ hn⟩
  exact main.2

/-! ## Clients that do not look at what calls return -/

/-- Replies are only written down. -/
theorem Mind.obey_replies {m m1 : Mind P W} {k : Call Unit} (h : m.obey sem d k = some m1) (rs : List Reply) :
    Mind.obey sem d { m with replies := rs } k = some { m1 with replies := rs } ∧ m1.replies = m.replies := by
  cases k with
  | guard g a _ res _ =>
    unfold Mind.obey at h ⊢
    dsimp only at h ⊢
    split at h
    · split at h
      · next hb => rw [if_pos hb]; cases h; exact ⟨rfl, rfl⟩
      · cases h
    · cases h; exact ⟨rfl, rfl⟩
    · cases h
  | action ph f a _ threw _ =>
    unfold Mind.obey at h ⊢
    dsimp only at h ⊢
    split at h
    · cases h; exact ⟨rfl, rfl⟩
    · cases h; exact ⟨rfl, rfl⟩
    · cases h
  | handler hd e st _ _ threw _ =>
    unfold Mind.obey at h ⊢
    dsimp only at h ⊢
    split at h
    · cases h; exact ⟨rfl, rfl⟩
    · cases h; exact ⟨rfl, rfl⟩
    · cases h

/-- A client that goes along with a sign goes along with one that looks the same. -/
theorem Mind.hear_look {m m1 : Mind P W} {s s' : Sign} (e : s'.look v' = s.look v)
    (h : m.hear sem d (s.seen v) = some m1) {rs : List Reply}
    (hr : rs.map Reply.look = m.replies.map Reply.look) :
    ∃ rs1, Mind.hear sem d { m with replies := rs } (s'.seen v') = some { m1 with replies := rs1 } ∧
      rs1.map Reply.look = m1.replies.map Reply.look := by
  cases s with
  | event ev =>
    cases s' with
    | event ev' =>
      cases (Sign.event.inj e : ev' = ev)
      obtain ⟨f, w, th, k, rp, rq⟩ := m
      cases rq with
      | nil => cases h
      | cons r rq =>
        change (if r.event = ev then _ else _) = _ at h
        refine ⟨rs, ?_⟩
        show (if r.event = ev then _ else _) = _ ∧ _
        split at h
        · next he => rw [if_pos he]; cases h; exact ⟨rfl, hr⟩
        · cases h
    | _ => cases e
  | call k =>
    cases s' with
    | call k' =>
      have e' : k'.seen v' = k.seen v := Sign.call.inj e
      obtain ⟨h1, h2⟩ := Mind.obey_replies (rs := rs) h
      refine ⟨rs, ?_, by rw [hr, h2]⟩
      show Mind.obey sem d _ (k'.seen v') = _
      rw [e']
      exact h1
    | _ => cases e
  | answer a =>
    cases s' with
    | answer a' =>
      cases h
      exact ⟨rs ++ [.ret a'], rfl, by simp [hr, Reply.look]⟩
    | _ => cases e
  | exception =>
    cases s' with
    | exception =>
      cases h
      exact ⟨rs ++ [.threw (m.thrown.getD .outOfRange)], rfl, by simp [hr]⟩
    | _ => cases e

theorem Mind.hearAll_look : ∀ {ss ss' : List Sign} {m m1 : Mind P W} {rs : List Reply},
    ss'.map (Sign.look v') = ss.map (Sign.look v) → Mind.hearAll sem d (ss.map (Sign.seen v)) m = some m1 →
    rs.map Reply.look = m.replies.map Reply.look →
    ∃ rs1, Mind.hearAll sem d (ss'.map (Sign.seen v')) { m with replies := rs } = some { m1 with replies := rs1 } ∧
      rs1.map Reply.look = m1.replies.map Reply.look
  | [], [], m, m1, rs, _, h, hr => by cases h; exact ⟨rs, rfl, hr⟩
  | [], _ :: _, _, _, _, e, _, _ => by cases e
  | _ :: _, [], _, _, _, e, _, _ => by cases e
  | s :: ss, s' :: ss', m, m1, rs, e, h, hr => by
    obtain ⟨e1, e2⟩ := List.cons.inj e
    change (m.hear sem d (s.seen v)).bind _ = _ at h
    cases h1 : m.hear sem d (s.seen v) with
    | none => rw [h1] at h; cases h
    | some m2 =>
      rw [h1] at h
      obtain ⟨rs1, h3, h4⟩ := Mind.hear_look e1 h1 hr
      obtain ⟨rs2, h5, h6⟩ := Mind.hearAll_look e2 h h4
      refine ⟨rs2, ?_, h6⟩
      show (Mind.hear sem d _ (s'.seen v')).bind _ = _
      rw [h3]
      exact h5

/-! ## The claims -/

variable {h h' : Header}

theorem DepictsG.remembered (h : DepictsG M c s) : c.calls.map (Call.seen v) = s.trace.map (Call.remembered v) := by
  rw [← h.trace, List.map_map]
  exact List.map_congr_left fun k _ => Call.seen_bare k

theorem ServedIn.mind (hM : M.RegularIn h) (hd : M.deferring = false) (hk : sem.KeepsNone) {rs : List Reply}
    (hs : ServedIn h M (sem.seen v) d w ts rs s) (hts : ∀ t ∈ ts, t.event ≠ .none) :
    ∃ ss m, ObservedIn h M (sem.seen v) d ss s ∧
      Mind.hearAll sem d (ss.map (Sign.seen v)) (.start sem w ts) = some m ∧ m.requests = [] ∧ m.replies = rs ∧
      s.world = m.world ∧ s.trace.map (Call.remembered v) = m.calls := by
  cases h with
  | modular =>
    obtain ⟨ss, m, c, ho, hm, hq, hr, hdp, _, _, hw, hc⟩ := Served.mind hM hd hs hts
    exact ⟨ss, m, ho, hm, hq, hr, hdp.world.trans hw, by rw [← hdp.remembered, hc]⟩
  | amalgamated =>
    obtain ⟨ss, m, c, ho, hm, hq, hr, hdp, _, _, hw, hc⟩ := ServedG.mind hM hd hk hs hts
    exact ⟨ss, m, ho, hm, hq, hr, hdp.world.trans hw, by rw [← DepictsG.remembered hdp, hc]⟩

theorem Machine.SeesIn.attains (hM : M.RegularIn h) (hd : M.deferring = false) (hk : sem.KeepsNone)
    (hC : M.BuildsIn h) (hobj : ∀ st (c : Conf P W), M.present (sem.seen v) st c = true)
    (hts : ∀ t ∈ ts, t.event ≠ .none) (hs : M.SeesIn h recorder .idle x) {l : List Sign} (hl : x.heard = some l)
    (hm : Mind.hearAll sem d (l.map (Sign.seen v)) (.start sem w ts) = some m) (hq : m.requests = []) :
    ∃ s, ServedIn h M (sem.seen v) d w ts m.replies s ∧ s.world = m.world ∧
      s.trace.map (Call.remembered v) = m.calls := by
  cases h with
  | modular =>
    obtain ⟨s, c, hs, _⟩ := Machine.Sees.attains hM hd hC hobj hts hs l m hl hm
    obtain ⟨past, h1, h2⟩ := hs.served
    rw [hq, List.append_nil] at h1
    subst h1
    exact ⟨s, h2, hs.depicts.world.trans hs.world, by rw [← hs.depicts.remembered, hs.calls]⟩
  | amalgamated =>
    obtain ⟨s, c, hs, _⟩ := Machine.SeesG.attains hM hd hk hC hobj hts hs l m hl hm
    obtain ⟨past, h1, h2⟩ := hs.served
    rw [hq, List.append_nil] at h1
    subst h1
    exact ⟨s, h2, hs.depicts.world.trans hs.world, by rw [← DepictsG.remembered hs.depicts, hs.calls]⟩

/-- C107: a client that is served by `M` with header `h` is served by `M'` with header `h'` in the same way, if
whatever clients of `M` observe some client of `M'` observes.  Neither machine defers events, and the client
neither sends events of type `none` nor changes them. -/
theorem C107_replaces (hM : M.RegularIn h) (hM' : M'.RegularIn h') (hd : M.deferring = false)
    (hd' : M'.deferring = false) (hk : sem.KeepsNone) (hR : RefinesIn h h' M M' v v')
    (hobj : ∀ st w, M'.selfMade st = true ∨ sem.alive (v' st) w = true) {rs : List Reply}
    (hts : ∀ t ∈ ts, t.event ≠ .none) (hs : ServedIn h M (sem.seen v) d w ts rs s) :
    ∃ rs' s', ServedIn h' M' (sem.seen v') d w ts rs' s' ∧ rs'.map Reply.look = rs.map Reply.look ∧
      s'.world = s.world ∧ s'.trace.map (Call.remembered v') = s.trace.map (Call.remembered v) := by
  obtain ⟨ss, m, ho, hm, hq, hr, hw, hc⟩ := hs.mind hM hd hk hts
  obtain ⟨P', W', sem', ss', s', ho', hss⟩ := hR _ _ _ _ _ _ ho
  obtain ⟨x, hx, hh⟩ := ho'.sees (mon := recorder) hM'
  rw [show some recorder.init = some ([] : List Sign) from rfl, recorder_hearAll, List.nil_append] at hh
  obtain ⟨rs1, hm1, hr1⟩ := Mind.hearAll_look (rs := []) hss hm rfl
  have hobj' : ∀ st (c : Conf P W), M'.present (sem.seen v') st c = true := by
    intro st c
    unfold Machine.present
    rcases hobj st c.world with h | h
    · rw [h]; rfl
    · rw [show (sem.seen v').alive st c.world = true from h]; simp
  obtain ⟨s1, h1, h2, h3⟩ := hx.attains hM' hd' hk (ho'.builds hM') hobj' hts hh hm1 hq
  exact ⟨rs1, s1, h1, hr ▸ hr1, h2.trans hw.symm, h3.trans hc.symm⟩

/-- C107: if nobody can tell the machines apart, every client gets the same from both. -/
theorem C107_interchangeable (hM : M.RegularIn h) (hM' : M'.RegularIn h') (hd : M.deferring = false)
    (hd' : M'.deferring = false) (hk : sem.KeepsNone) (hR : RefinesIn h h' M M' v v')
    (hR' : RefinesIn h' h M' M v' v) (hobj : ∀ st w, M.selfMade st = true ∨ sem.alive (v st) w = true)
    (hobj' : ∀ st w, M'.selfMade st = true ∨ sem.alive (v' st) w = true)
    (hts : ∀ t ∈ ts, t.event ≠ .none) (L : List Reply) (w' : W) (ks : List (Call P)) :
    (∃ rs s, ServedIn h M (sem.seen v) d w ts rs s ∧ rs.map Reply.look = L ∧ s.world = w' ∧
        s.trace.map (Call.remembered v) = ks) ↔
      ∃ rs s, ServedIn h' M' (sem.seen v') d w ts rs s ∧ rs.map Reply.look = L ∧ s.world = w' ∧
        s.trace.map (Call.remembered v') = ks := by
  constructor
  · rintro ⟨rs, s, h, rfl, rfl, rfl⟩
    exact C107_replaces hM hM' hd hd' hk hR hobj' hts h
  · rintro ⟨rs, s, h, rfl, rfl, rfl⟩
    exact C107_replaces hM' hM hd' hd hk hR' hobj hts h

/-! ## Examples -/

namespace Ex

/-- Makes requests one after the other. -/
def serveG (M : Machine) (sem : Sem P W) (fuel : Nat) : List (Request P W) → List Reply → SM P W →
    Option (List Reply × SM P W)
  | [], rs, s => some (rs, s)
  | t :: ts, rs, s =>
    if t.event ∈ M.eventIdsG then
      match stepG M sem fuel (.process t.event t.payload) { s with world := t.work s.world } with
      | .ok _ s' => serveG M sem fuel ts (rs ++ [.ret true]) s'
      | .throw x s' => serveG M sem fuel ts (rs ++ [.threw x]) s'
      | _ => none
    else none

/-- Constructs a machine and makes requests. -/
def serviceG (M : Machine) (sem : Sem P W) (fuel : Nat) (d : Dep) (w : W) (ts : List (Request P W)) :
    Option (List Reply × SM P W) :=
  match constructG M d w with
  | .ok s => serveG M sem fuel ts [] s
  | .error _ => none

theorem serveG_served {fuel : Nat} : ∀ {ts past : List (Request P W)} {rs rs' : List Reply} {s s' : SM P W},
    ServedG M sem d w past rs s → serveG M sem fuel ts rs s = some (rs', s') → ServedG M sem d w (past ++ ts) rs' s'
  | [], past, rs, rs', s, s', h, he => by cases he; rwa [List.append_nil]
  | t :: ts, past, rs, rs', s, s', h, he => by
    unfold serveG at he
    rw [show past ++ t :: ts = past ++ [t] ++ ts by simp]
    split at he
    · next hev =>
      split at he
      · next hs => exact serveG_served (h.ok hev hs) he
      · next hs => exact serveG_served (h.throw hev hs) he
      · cases he
    · cases he

theorem exists_servedG {fuel : Nat} {p : List Reply × SM P W → Bool}
    (h : (serviceG M sem fuel d w ts).any p = true) : ∃ rs s, ServedG M sem d w ts rs s ∧ p (rs, s) = true := by
  cases hs : serviceG M sem fuel d w ts with
  | none => rw [hs] at h; cases h
  | some x =>
    rw [hs] at h
    refine ⟨x.1, x.2, ?_, h⟩
    unfold serviceG at hs
    split at hs
    · next hc => exact serveG_served (.init hc) hs
    · cases hs

/-- A program with an internal row of a plain state can move to the amalgamated header if that row becomes a
row from the state to itself: all its clients get the same. -/
example {sem : Sem P W} (hk : sem.KeepsNone) (ho : ∀ st w, sem.alive st w = true) (hts : ∀ t ∈ ts, t.event ≠ .none)
    (L : List Reply) (w' : W) (ks : List (Call P)) :
    (∃ rs s, ServedIn .modular innerG (sem.seen id) d w ts rs s ∧ rs.map Reply.look = L ∧ s.world = w' ∧
        s.trace.map (Call.remembered id) = ks) ↔
      ∃ rs s, ServedIn .amalgamated innerLoop (sem.seen id) d w ts rs s ∧ rs.map Reply.look = L ∧ s.world = w' ∧
        s.trace.map (Call.remembered id) = ks :=
  C107_interchangeable (h := .modular) (h' := .amalgamated) innerG_regular innerLoop_regularG (by decide +kernel)
    (by decide +kernel) hk innerG_moves.1 innerG_moves.2 (fun _ _ => Or.inr (ho _ _)) (fun _ _ => Or.inr (ho _ _))
    hts L w' ks

/-- A client that notes the values of the events its actions get. -/
def jotting : Sem Nat (List Nat) where
  guard _ _ p w := .ok true p w
  action _ _ p w := .ok () p (w ++ [p])
  handler _ _ _ _ p w := .ok () p w
  alive _ _ := true
  nonePayload := 0

/-- Sends 0 twice. -/
def bothTimes : List (Request Nat (List Nat)) := [⟨id, .user 0, 1⟩, ⟨fun w => w ++ [50], .user 0, 2⟩]

/-- What a client gets from the modular headers it gets from the amalgamated one: the second call runs action 5
with value 2. -/
example : ∃ rs s, ServedG innerLoop (jotting.seen id) 7 [] bothTimes rs s ∧ s.world = [1, 50, 2] := by
  obtain ⟨rs, s, h, hp⟩ := exists_served (M := innerG) (sem := jotting.seen id) (fuel := 3) (d := 7) (w := [])
    (ts := bothTimes) (p := fun x => decide (x.2.world = [1, 50, 2])) (by decide +kernel)
  rw [decide_eq_true_eq] at hp
  obtain ⟨rs', s', h1, _, h2, _⟩ := C107_replaces (h := .modular) (h' := .amalgamated) innerG_regular
    innerLoop_regularG (by decide +kernel) (by decide +kernel) (sem := jotting)
    ⟨fun _ _ _ _ _ _ _ _ h => by cases h; rfl, fun _ _ _ _ _ _ _ h => by cases h; rfl⟩ innerG_moves.1
    (fun _ _ => Or.inr rfl) (by decide +kernel) h
  exact ⟨rs', s', h1, h2.trans hp⟩

/-- Two anonymous rows in a row. -/
def abacus : Machine := .ofList
  [ { table := some [ row (ini 1) (.user 0) none none (.st 2), row (.st 2) .none (some 1) (some 1) (.st 3),
        row (.st 3) .none (some 1) (some 1) (.st 4) ] },
    {}, {}, {}, {} ] [1]

theorem abacus_regular : abacus.Regular := Machine.regular_ofList (by decide +kernel)
theorem abacus_regularG : abacus.RegularG := Machine.regularG_ofList (by decide +kernel)

/-- No client can tell with which header it was built, as far as types go. -/
example : RefinesIn .modular .amalgamated abacus abacus id id :=
  C105_refines (h := .modular) (h' := .amalgamated) abacus_regular abacus_regularG
    (builtG abacus_regularG (by decide +kernel)) (k := 4)
    (S := abacus.watchIn .modular (abacus.shadowIn .amalgamated id id 4) 8) (by decide +kernel) (by decide +kernel)

/-- But a client that changes events of type `none` can: with the amalgamated header each region gets a new
one. -/
example : (service abacus noting 5 7 [] [⟨id, .user 0, 7⟩]).map (fun x => x.2.world) = some [1, 2] ∧
    (serviceG abacus noting 5 7 [] [⟨id, .user 0, 7⟩]).map (fun x => x.2.world) = some [1, 1] := by
  decide +kernel

end Ex

end Hsm
