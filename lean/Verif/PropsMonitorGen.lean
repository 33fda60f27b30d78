import Verif.MonitorGen
import Verif.PropsMonitor
import Verif.PropsCheckerGen

/-!
# C104: rules about what clients of the amalgamated header observe can be checked
-/

namespace Hsm

variable {P W Q : Type} {M : Machine} {mon : Monitor Q} {sem : Sem P W} {δ : Dep} {pre : List (Call P)}
  {q : Option Q}

namespace Machine

theorem visit_coversG {c : Conf P W} {x : Eye Q} (h : InView M.eventsG M mon δ pre q c x) (anon : Bool) (r : Nat)
    {ev : EventTy} (hev : ev ∈ M.eventsG) (p : P) :
    Covers M.eventsG M mon δ pre q Prod.fst (M.visitG sem anon r ev p c) (M.seeVisitG mon anon r ev x) := by
  unfold visitG seeVisitG seek
  rw [h.spot]
  rw [show (M.sight c).slots = c.slots from rfl]
  rcases c.slots[r]? with _ | _ | l
  · trivial
  · trivial
  · show Covers M.eventsG M mon δ pre q Prod.fst (if l.1 ∈ M.composites then _ else _)
      (if l.1 ∈ M.composites then _ else _)
    split
    · split
      · exact .done h
      · have hd := h.deps
        rw [hd, List.flatMap_cons, List.flatMap_nil, List.append_nil]
        exact attempt_covers anon r hev δ _ p h
    · trivial

theorem sweep_coversG {ev : EventTy} (hev : ev ∈ M.eventsG) : ∀ (rs : List Nat) (os : List RegionOut) (p : P)
    {c : Conf P W} {x : Eye Q}, InView M.eventsG M mon δ pre q c x →
    Covers M.eventsG M mon δ pre q Prod.fst (M.sweepG sem ev rs os p c) (M.seeSweepG mon ev rs os x)
  | [], _, _, _, _, h => .done h
  | r :: rs, os, p, c, x, h => by
    unfold sweepG seeSweepG
    refine (visit_coversG h false r hev p).bind fun o c x h => ?_
    split
    · exact .done h
    · exact sweep_coversG hev rs _ _ h

theorem round_coversG (hev : EventTy.none ∈ M.eventsG) : ∀ (rs : List Nat) (os : List RegionOut)
    {c : Conf P W} {x : Eye Q}, InView M.eventsG M mon δ pre q c x →
    Covers M.eventsG M mon δ pre q id (M.roundG sem rs os c) (M.seeRoundG mon rs os x)
  | [], _, _, _, h => Covers.done (φ := id) h
  | r :: rs, os, c, x, h => by
    unfold roundG seeRoundG
    refine (visit_coversG h true r hev sem.nonePayload).bind fun o c x h => ?_
    split
    · exact Covers.done (φ := id) h
    · exact round_coversG hev rs _ h

/-! ## Whole calls -/

/-- All of these steps may be taken. -/
def LegitG (M : Machine) (mon : Monitor Q) (rs : List (Res (Eye Q) Stage)) : Prop :=
  (∀ g x, .ok g x ∈ rs → M.SeesG mon g x) ∧
    ∀ e x, .throw e x ∈ rs → M.SeesG mon .idle (seeSign mon .exception x)

theorem SeesG.legit {g : Stage} {x : Eye Q} (h : M.SeesG mon g x) : LegitG M mon (M.seeNextG mon g x) :=
  ⟨fun _ _ hn => h.ok hn, fun _ _ hn => h.throw hn⟩

theorem LegitG.answer {b : Bool} {x : Eye Q} (h : LegitG M mon (seeAnswer mon b x)) :
    M.SeesG mon .idle (seeSign mon (.answer b) x) := h.1 _ _ List.mem_cons_self

/-- Where a part of a call ends. -/
def EndsG {α : Type} (M : Machine) (mon : Monitor Q) (δ : Dep) (pre : List (Call P)) (q : Option Q)
    (V : α → Eye Q → Prop) (r : Res (Conf P W) α) : Prop :=
  match r with
  | .ok a c => ∃ x, V a x ∧ InView M.eventsG M mon δ pre q c x
  | .throw _ c => ∃ x, M.SeesG mon .idle (seeSign mon .exception x) ∧ InView M.eventsG M mon δ pre q c x
  | .ub _ => True
  | .timeout => True

theorem EndsG.bind {α β : Type} {V : α → Eye Q → Prop} {V' : β → Eye Q → Prop} {r : Res (Conf P W) α}
    {f : α → Conf P W → Res (Conf P W) β} (h : EndsG M mon δ pre q V r)
    (hf : ∀ a c x, V a x → InView M.eventsG M mon δ pre q c x → EndsG M mon δ pre q V' (f a c)) :
    EndsG M mon δ pre q V' (r.bind f) := by
  cases r with
  | ok a c => obtain ⟨x, hv, ha⟩ := h; exact hf a c x hv ha
  | throw e c => exact h
  | ub u => trivial
  | timeout => trivial

theorem EndsG.bind_done {α : Type} {V V' : α → Eye Q → Prop} {r : Res (Conf P W) α}
    (h : EndsG M mon δ pre q V r) (hf : ∀ a x, V a x → V' a x) : EndsG M mon δ pre q V' r := by
  cases r with
  | ok a c => obtain ⟨x, hv, ha⟩ := h; exact ⟨x, hf a x hv, ha⟩
  | throw e c => exact h
  | ub u => trivial
  | timeout => trivial

theorem covers_endsG {α β : Type} {φ : α → β} {r : Res (Conf P W) α} {rs : List (Res (Eye Q) β)}
    {f' : β → Eye Q → List (Res (Eye Q) Stage)} (h : Covers M.eventsG M mon δ pre q φ r rs)
    (hL : LegitG M mon (branch rs f')) :
    EndsG M mon δ pre q (fun a x => LegitG M mon (f' (φ a) x)) r := by
  cases r with
  | ok a c =>
    obtain ⟨y, hy, ha⟩ := h
    exact ⟨y, ⟨fun g' z hz => hL.1 _ _ (mem_branch.2 (Or.inl ⟨_, _, hy, hz⟩)),
      fun e z hz => hL.2 _ _ (mem_branch.2 (Or.inl ⟨_, _, hy, hz⟩))⟩, ha⟩
  | throw e c =>
    obtain ⟨e', y, hy, ha⟩ := h
    exact ⟨y, hL.2 _ _ (mem_branch.2 (Or.inr (Or.inl ⟨_, _, hy, rfl⟩))), ha⟩
  | ub u => trivial
  | timeout => trivial

theorem settle_endsG (hev : EventTy.none ∈ M.eventsG) {first : Bool} : ∀ (fuel : Nat) {c : Conf P W}
    {x : Eye Q}, InView M.eventsG M mon δ pre q c x → M.SeesG mon (.rounds first) x →
    EndsG M mon δ pre q (fun _ x => LegitG M mon (if first then M.seeReplayG mon x else seeAnswer mon true x))
      (M.settleG sem fuel c)
  | 0, _, _, _, _ => trivial
  | fuel + 1, c, x, h, hs => by
    unfold settleG
    rw [taking_involved h]
    refine (covers_endsG (round_coversG hev _ _ h) hs.legit).bind fun a c x hL h => ?_
    cases a with
    | true => exact settle_endsG hev fuel h (hL.1 _ _ List.mem_cons_self)
    | false => exact ⟨x, hL, h⟩

theorem handle_endsG {first : Bool} {k : List RegionOut → Eye Q → List (Res (Eye Q) Stage)} (fuel : Nat)
    {ev : EventTy} (hev : ev ∈ M.eventsG) (p : P) {c : Conf P W} {x : Eye Q} (h : InView M.eventsG M mon δ pre q c x)
    (hL : LegitG M mon (branch (M.seeSweepG mon ev (M.involved x.spot) [] x) fun os x =>
      if .deferred ∉ os ∧ .fired ∈ os ∧ M.anonymous then [.ok (.rounds first) x] else k os x)) :
    EndsG M mon δ pre q (fun a x => if .deferred ∉ a.1 ∧ .fired ∈ a.1 ∧ M.anonymous then
        LegitG M mon (if first then M.seeReplayG mon x else seeAnswer mon true x)
      else LegitG M mon (k a.1 x)) (M.handleG sem fuel ev p c) := by
  unfold handleG
  rw [taking_involved h]
  refine (covers_endsG (sweep_coversG hev _ _ p h) hL).bind fun a c x hL h => ?_
  by_cases hc : .deferred ∉ a.1 ∧ .fired ∈ a.1 ∧ M.anonymous
  · rw [if_pos hc] at hL ⊢
    refine (settle_endsG (none_eventG hc.2.2) fuel h (hL.1 _ _ List.mem_cons_self)).bind
      fun _ c x hL h => ?_
    exact ⟨x, by dsimp only; rw [if_pos hc]; exact hL, h⟩
  · rw [if_neg hc] at hL ⊢
    exact ⟨x, by dsimp only; rw [if_neg hc]; exact hL, h⟩

theorem replay_endsG (fuel : Nat) {c : Conf P W} {x : Eye Q} (h : InView M.eventsG M mon δ pre q c x)
    (hL : LegitG M mon (M.seeReplayG mon x)) :
    EndsG M mon δ pre q (fun _ x => LegitG M mon (seeAnswer mon true x)) (M.replayG sem fuel c) := by
  unfold replayG
  unfold seeReplayG at hL
  rw [h.waiting] at hL
  cases hq : c.waiting with
  | nil => rw [hq] at hL; exact ⟨x, hL, h⟩
  | cons y l =>
    obtain ⟨ev, p⟩ := y
    rw [hq] at hL
    rw [List.map_cons] at hL
    dsimp only at hL ⊢
    by_cases hd : M.deferring = true
    · rw [if_pos hd] at hL ⊢
      have h' : InView M.eventsG M mon δ pre q { c with waiting := l } { x with waiting := l.map Prod.fst } :=
        { h with
          waiting := rfl
          known := fun e he => h.known e (by rw [hq]; exact List.mem_cons_of_mem _ he) }
      refine (handle_endsG (first := false) (k := fun _ x => seeAnswer mon true x) fuel
        (h.known (ev, p) (by rw [hq]; exact List.mem_cons_self)) p h' hL).bind fun a c x hL h => ?_
      refine ⟨x, ?_, h⟩
      split at hL <;> exact hL
    · rw [if_neg hd] at hL ⊢
      exact ⟨x, hL, h⟩

theorem receive_endsG (fuel : Nat) {ev : EventTy} (hev : ev ∈ M.eventsG) (p : P) {c : Conf P W} {x : Eye Q}
    (h : InView M.eventsG M mon δ pre q c x) (hL : LegitG M mon (M.seeReceiveG mon ev x)) :
    EndsG M mon δ pre q (fun _ x => M.SeesG mon .idle (seeSign mon (.answer true) x))
      (M.receiveG sem fuel ev p c) := by
  unfold receiveG
  refine (handle_endsG fuel hev p h hL).bind fun a c x hL h => ?_
  by_cases hn : ∀ o ∈ a.1, o = RegionOut.none
  · rw [if_pos hn]
    rw [if_neg (fun h => by cases hn _ h.2.1), if_pos hn] at hL
    exact (covers_endsG (complain_covers h ev a.2) hL).bind_done fun _ x hL => hL.answer
  · rw [if_neg hn]
    have hr : LegitG M mon (M.seeReplayG mon x) := by
      rw [if_neg hn] at hL
      split at hL <;> exact hL
    exact (replay_endsG fuel h hr).bind_done fun _ x hL => hL.answer

end Machine

/-! ## Soundness -/

theorem DepictsG.since {c c' : Conf P W} {s s' : SM P W} (h : DepictsG M c s) (h' : DepictsG M c' s')
    {l : List (Call P)} (hl : c'.calls = c.calls ++ l) : callsSince s s' = signs l := by
  have e : (s'.trace.drop s.trace.length).map Call.bare = l := by
    rw [List.map_drop, h'.trace, hl, ← h.trace, List.drop_append_of_le_length (by simp)]
    simp
  unfold callsSince signs
  rw [← e, List.map_map]
  exact List.map_congr_left fun k _ => by show _ = Sign.call k.bare.plain; rw [Call.plain_bare]

theorem ObservedG.runs {d : Dep} {ss : List Sign} {s : SM P W} (h : ObservedG M sem d ss s) :
    ∃ ops, RunToG M sem d ops s := by
  induction h with
  | init h => exact ⟨_, .init h⟩
  | ok _ hop h ih => obtain ⟨ops, ih⟩ := ih; exact ⟨_, .ok ih hop h⟩
  | throw _ hop h ih => obtain ⟨ops, ih⟩ := ih; exact ⟨_, .throw ih hop h⟩
  | world _ w ih => obtain ⟨ops, ih⟩ := ih; exact ⟨_, .world ih w⟩

/-- The machine is at a place that may be the case after the monitor heard `ss`. -/
def WatchedG (M : Machine) (mon : Monitor Q) (d : Dep) (ss : List Sign) (s : SM P W) : Prop :=
  ∃ c x, DepictsG M c s ∧ c.deps = [d] ∧ (∀ e ∈ c.waiting, e.1 ∈ M.eventsG) ∧
    M.SeesG mon .idle x ∧ x.spot = M.sight c ∧ x.waiting = c.waiting.map Prod.fst ∧
    x.heard = mon.hearAll (some mon.init) ss

/-- What a client observes, and where its machine is, is among what may be the case. -/
theorem ObservedG.sees (hM : M.RegularG) {d : Dep} {ss : List Sign} {s : SM P W}
    (h : ObservedG M sem d ss s) : WatchedG M mon d ss s := by
  have step : ∀ {ss : List Sign} {s s' : SM P W} {ev : EventTy} {p : P} {fuel : Nat},
      ObservedG M sem d ss s → OpOkG M (.process ev p) →
      WatchedG M mon d ss s → ∀ last : Sign,
      (stepG M sem fuel (.process ev p) s = .ok () s' ∧ last = .answer true ∨
        ∃ e, stepG M sem fuel (.process ev p) s = .throw e s' ∧ last = .exception) →
      WatchedG M mon d (ss ++ .event ev :: callsSince s s' ++ [last]) s' := by
    intro ss s s' ev p fuel hr hop ih last hst
    obtain ⟨c, x, hc, hd, hk, hs, h1, h2, h3⟩ := ih
    obtain ⟨ops, hr⟩ := hr.runs
    have hev : ev ∈ M.eventsG := by rw [Machine.eventsG_eq hM.laid]; exact hop
    have hx := C82_step (sem := sem) hc hM (C82_reach hM hr).1 fuel hop
    have hL : Machine.LegitG M mon (M.seeReceiveG mon ev (Machine.seeSign mon (.event ev) x)) :=
      ⟨fun g y hy => hs.ok (List.mem_flatMap.2 ⟨ev, hev, hy⟩),
        fun e y hy => hs.throw (List.mem_flatMap.2 ⟨ev, hev, hy⟩)⟩
    have hb : InView M.eventsG M mon d c.calls (Machine.seeSign mon (.event ev) x).heard c
      (Machine.seeSign mon (.event ev) x) := .begin h1 h2 hk hd
    have hR := Machine.receive_endsG (sem := sem) fuel hev p hb hL
    have he : M.execG sem fuel (.process ev p) c = M.receiveG sem fuel ev p c := rfl
    rw [he] at hx
    have fin : ∀ (c' : Conf P W) (y : Eye Q), DepictsG M c' s' →
        InView M.eventsG M mon d c.calls (Machine.seeSign mon (.event ev) x).heard c' y →
        M.SeesG mon .idle (Machine.seeSign mon last y) →
        WatchedG M mon d (ss ++ .event ev :: callsSince s s' ++ [last]) s' := fun c' y hc' hy hS => by
      obtain ⟨l, hl, hh⟩ := hy.heard
      refine ⟨c', Machine.seeSign mon last y, hc', hy.deps, hy.known, hS, hy.spot, hy.waiting, ?_⟩
      show mon.hear y.heard last = _
      rw [hc.since hc' hl, Monitor.hearAll_append, Monitor.hearAll_append, ← h3, hh]
      rfl
    rcases hst with ⟨hst, rfl⟩ | ⟨e, hst, rfl⟩
    · rw [hst] at hx
      cases hc' : M.receiveG sem fuel ev p c with
      | ok b' c' =>
        rw [hc'] at hx hR
        obtain ⟨y, hS, hy⟩ := hR
        exact fin c' y hx.2 hy hS
      | _ => rw [hc'] at hx; exact hx.elim
    · rw [hst] at hx
      cases hc' : M.receiveG sem fuel ev p c with
      | throw e' c' =>
        rw [hc'] at hx hR
        obtain ⟨rfl, hx⟩ := hx
        obtain ⟨y, hS, hy⟩ := hR
        exact fin c' y hx hy hS
      | _ => rw [hc'] at hx; exact hx.elim
  induction h with
  | @init w s h =>
    exact ⟨_, _, (C82_construct hM d w).2.2 s h, rfl, fun _ h => (nomatch h), .start, rfl, rfl, rfl⟩
  | ok hr hop h ih => exact step hr hop ih _ (Or.inl ⟨h, rfl⟩)
  | throw hr hop h ih => exact step hr hop ih _ (Or.inr ⟨_, h, rfl⟩)
  | world _ w ih =>
    obtain ⟨c, x, hc, h⟩ := ih
    exact ⟨{ c with world := w }, x, { hc with world := rfl }, h⟩

/-! ## Every possibility is some client's -/

section
variable {tape : Sem Unit W} {T : Dictates tape}

namespace Machine

theorem visit_realizesG (anon : Bool) (r : Nat) {ev : EventTy} (hev : ev ∈ M.eventsG) (x : Eye Q)
    (y : Res (Eye Q) RegionOut) (h : y ∈ M.seeVisitG mon anon r ev x) :
    Realizes M.eventsG T M mon δ (fun o => (o, ())) (M.visitG tape anon r ev ()) x y := by
  unfold seeVisitG at h
  have sl : ∀ {pre q} {c : Conf Unit W}, InView M.eventsG M mon δ pre q c x → c.slots[r]? = x.spot.slots[r]? :=
    fun hc => by rw [hc.spot]; rfl
  rcases hs : x.spot.slots[r]? with _ | _ | l
  · rw [hs] at h; rw [List.mem_singleton.1 h]; exact .ub
  · rw [hs] at h; rw [List.mem_singleton.1 h]; exact .ub
  · rw [hs] at h
    dsimp only at h
    by_cases hp : l.1 ∈ M.composites
    · rw [if_pos hp] at h
      by_cases hn : M.candsG ev l.1 l.2 = []
      · rw [if_pos hn] at h
        rw [List.mem_singleton.1 h]
        refine Realizes.done.congr fun _ _ c hc => ?_
        unfold visitG seek
        rw [sl hc, hs]
        show (if l.1 ∈ M.composites then _ else _) = _
        rw [if_pos hp, if_pos hn]
      · rw [if_neg hn] at h
        refine (attempt_realizes anon r hev δ _ x y h).congr fun _ _ c hc => ?_
        unfold visitG seek
        rw [sl hc, hs]
        show (if l.1 ∈ M.composites then _ else _) = _
        rw [if_pos hp, if_neg hn, hc.deps]
        simp only [List.flatMap_cons, List.flatMap_nil, List.append_nil]
    · rw [if_neg hp] at h; rw [List.mem_singleton.1 h]; exact .ub

theorem sweep_realizesG {ev : EventTy} (hev : ev ∈ M.eventsG) (y : Res (Eye Q) (List RegionOut)) :
    ∀ (rs : List Nat) (os : List RegionOut) (x : Eye Q), y ∈ M.seeSweepG mon ev rs os x →
    Realizes M.eventsG T M mon δ (fun o => (o, ())) (M.sweepG tape ev rs os ()) x y
  | [], os, x, h => by rw [List.mem_singleton.1 h]; exact Realizes.done
  | r :: rs, os, x, h => by
    rw [show M.sweepG tape ev (r :: rs) os () = fun c => (M.visitG tape false r ev () c).bind fun o c =>
      if o.1 = .deferred then .ok (os ++ [.deferred], o.2) c
      else M.sweepG tape ev rs (os ++ [o.1]) o.2 c from rfl]
    refine Realizes.bind (ψ := fun o => (o, ())) h (fun z hz => visit_realizesG false r hev x z hz)
      fun o x' _ h => ?_
    dsimp only
    by_cases ho : o = .deferred
    · simp only [if_pos ho] at h ⊢
      rw [List.mem_singleton.1 h]; exact Realizes.done
    · simp only [if_neg ho] at h ⊢
      exact sweep_realizesG hev y rs _ x' h

theorem round_realizesG (hev : EventTy.none ∈ M.eventsG) (y : Res (Eye Q) Bool) :
    ∀ (rs : List Nat) (os : List RegionOut) (x : Eye Q), y ∈ M.seeRoundG mon rs os x →
    Realizes M.eventsG T M mon δ id (M.roundG tape rs os) x y
  | [], os, x, h => by rw [List.mem_singleton.1 h]; exact Realizes.done (ψ := id)
  | r :: rs, os, x, h => by
    rw [show M.roundG tape (r :: rs) os = fun c => (M.visitG tape true r .none () c).bind fun o c =>
      if o.1 = .none then .ok false c
      else M.roundG tape rs (os ++ [o.1]) c from rfl]
    refine Realizes.bind (ψ := fun o => (o, ())) h (fun z hz => visit_realizesG true r hev x z hz)
      fun o x' _ h => ?_
    dsimp only
    by_cases ho : o = .none
    · simp only [if_pos ho] at h ⊢
      rw [List.mem_singleton.1 h]; exact Realizes.done (ψ := id)
    · simp only [if_neg ho] at h ⊢
      exact round_realizesG hev y rs _ x' h

/-- With some script, and however much the call may loop, the rest `g` of a call goes on as `y` says. -/
def ProceedsG (T : Dictates tape) (M : Machine) (mon : Monitor Q) (δ : Dep)
    (g : Nat → Conf Unit W → Res (Conf Unit W) Unit) (x : Eye Q) : Res (Eye Q) Stage → Prop
  | .ok .idle x' => ∃ v x'', x' = seeSign mon (.answer true) x'' ∧ ∀ pre q c rest fuel,
      InView M.eventsG M mon δ pre q c x → c.world = T.feed v rest →
      ∃ c', g fuel c = .ok () c' ∧ InView M.eventsG M mon δ pre q c' x'' ∧ c'.world = rest
  | .ok (.rounds first) x' => ∃ v, ∀ pre q c rest fuel,
      InView M.eventsG M mon δ pre q c x → c.world = T.feed v rest →
      ∃ c', (g fuel c = (M.settleG tape fuel c').bind fun _ c =>
        if first then M.replayG tape fuel c else .ok () c) ∧
        InView M.eventsG M mon δ pre q c' x' ∧ c'.world = rest
  | .throw _ x' => ∃ v, ∀ pre q c rest fuel, InView M.eventsG M mon δ pre q c x → c.world = T.feed v rest →
      ∃ e c', g fuel c = .throw e c' ∧ InView M.eventsG M mon δ pre q c' x' ∧ c'.world = rest
  | _ => True

theorem ProceedsG.answer {x : Eye Q} {y : Res (Eye Q) Stage} (h : y ∈ seeAnswer mon true x) :
    ProceedsG T M mon δ (fun _ c => .ok () c) x y := by
  rw [List.mem_singleton.1 h]
  exact ⟨[], x, rfl, fun _ _ c _ _ hc hw => ⟨c, rfl, hc, hw⟩⟩

theorem ProceedsG.congr {g g' : Nat → Conf Unit W → Res (Conf Unit W) Unit} {x : Eye Q}
    {y : Res (Eye Q) Stage} (h : ProceedsG T M mon δ g x y)
    (he : ∀ pre q c fuel, InView M.eventsG M mon δ pre q c x → g' fuel c = g fuel c) : ProceedsG T M mon δ g' x y := by
  rcases y with ⟨_ | first, x'⟩ | ⟨e, x'⟩ | u | _
  · obtain ⟨v, x'', e, hv⟩ := h
    exact ⟨v, x'', e, fun pre q c rest fuel hc hw => by
      rw [he pre q c fuel hc]; exact hv pre q c rest fuel hc hw⟩
  · obtain ⟨v, hv⟩ := h
    exact ⟨v, fun pre q c rest fuel hc hw => by rw [he pre q c fuel hc]; exact hv pre q c rest fuel hc hw⟩
  · obtain ⟨v, hv⟩ := h
    exact ⟨v, fun pre q c rest fuel hc hw => by rw [he pre q c fuel hc]; exact hv pre q c rest fuel hc hw⟩
  · trivial
  · trivial

theorem ProceedsG.bind {α β : Type} {ψ : β → α} {g : Conf Unit W → Res (Conf Unit W) α}
    {f : Nat → α → Conf Unit W → Res (Conf Unit W) Unit} {x : Eye Q}
    {rs : List (Res (Eye Q) β)} {f' : β → Eye Q → List (Res (Eye Q) Stage)} {y : Res (Eye Q) Stage}
    (hy : y ∈ branch rs f') (hg : ∀ z ∈ rs, Realizes M.eventsG T M mon δ ψ g x z)
    (hf : ∀ b x', .ok b x' ∈ rs → y ∈ f' b x' → ProceedsG T M mon δ (fun fuel => f fuel (ψ b)) x' y) :
    ProceedsG T M mon δ (fun fuel c => (g c).bind (f fuel)) x y := by
  rcases mem_branch.1 hy with ⟨b, x', h1, h2⟩ | ⟨e, x', h1, rfl⟩ | ⟨u, h1, rfl⟩ | ⟨h1, rfl⟩
  · obtain ⟨v1, hv1⟩ := hg _ h1
    have h3 := hf b x' h1 h2
    rcases y with ⟨_ | first, z⟩ | ⟨e, z⟩ | u | _
    · obtain ⟨v2, x'', e, hv2⟩ := h3
      refine ⟨v1 ++ v2, x'', e, fun pre q c rest fuel hc hw => ?_⟩
      obtain ⟨c1, e1, hc1, hw1⟩ := hv1 pre q c (T.feed v2 rest) hc (by rw [hw, T.feed_append])
      dsimp only
      rw [e1]
      exact hv2 pre q c1 rest fuel hc1 hw1
    · obtain ⟨v2, hv2⟩ := h3
      refine ⟨v1 ++ v2, fun pre q c rest fuel hc hw => ?_⟩
      obtain ⟨c1, e1, hc1, hw1⟩ := hv1 pre q c (T.feed v2 rest) hc (by rw [hw, T.feed_append])
      dsimp only
      rw [e1]
      exact hv2 pre q c1 rest fuel hc1 hw1
    · obtain ⟨v2, hv2⟩ := h3
      refine ⟨v1 ++ v2, fun pre q c rest fuel hc hw => ?_⟩
      obtain ⟨c1, e1, hc1, hw1⟩ := hv1 pre q c (T.feed v2 rest) hc (by rw [hw, T.feed_append])
      dsimp only
      rw [e1]
      exact hv2 pre q c1 rest fuel hc1 hw1
    · trivial
    · trivial
  · obtain ⟨v1, hv1⟩ := hg _ h1
    refine ⟨v1, fun pre q c rest fuel hc hw => ?_⟩
    obtain ⟨e, c1, e1, hc1, hw1⟩ := hv1 pre q c rest hc hw
    exact ⟨e, c1, by dsimp only; rw [e1]; rfl, hc1, hw1⟩
  · trivial
  · trivial

theorem replay_proceedsG (x : Eye Q) (y : Res (Eye Q) Stage) (h : y ∈ M.seeReplayG mon x) :
    ProceedsG T M mon δ (fun fuel c => M.replayG tape fuel c) x y := by
  unfold seeReplayG at h
  cases hx : x.waiting with
  | nil =>
    rw [hx] at h
    refine (ProceedsG.answer h).congr fun _ _ c _ hc => ?_
    have : c.waiting = [] := by
      have := hc.waiting
      rw [hx] at this
      exact List.map_eq_nil_iff.1 this.symm
    unfold replayG
    rw [this]
  | cons ev l =>
    rw [hx] at h
    dsimp only at h
    have hw : ∀ {pre q} {c : Conf Unit W}, InView M.eventsG M mon δ pre q c x → ∃ l', c.waiting = (ev, ()) :: l' ∧
        l = l'.map Prod.fst := fun {_ _ c} hc => by
      have := hc.waiting
      rw [hx] at this
      cases hq : c.waiting with
      | nil => rw [hq] at this; cases this
      | cons a l' => rw [hq] at this; cases this; exact ⟨l', rfl, rfl⟩
    by_cases hd : M.deferring = true
    · rw [if_pos hd] at h
      -- without a known event there is nothing to show
      by_cases hev : ev ∈ M.eventsG
      · have key : ProceedsG T M mon δ (fun fuel c => (M.sweepG tape ev (M.involved x.spot) [] () c).bind fun a c =>
            (if .deferred ∉ a.1 ∧ .fired ∈ a.1 ∧ M.anonymous then
              (M.settleG tape fuel c).bind fun _ c => .ok a c
            else .ok a c).bind fun _ c => .ok () c) { x with waiting := l } y := by
          refine ProceedsG.bind (ψ := fun o => (o, ())) h (fun z hz => sweep_realizesG hev z _ _ _ hz)
            fun os x' _ h => ?_
          dsimp only
          by_cases hc : .deferred ∉ os ∧ .fired ∈ os ∧ M.anonymous
          · rw [if_pos hc] at h
            rw [List.mem_singleton.1 h]
            refine ⟨[], fun pre q c rest fuel hin hw => ⟨c, ?_, hin, hw⟩⟩
            dsimp only
            rw [if_pos hc, Res.bind_assoc]
            rfl
          · rw [if_neg hc] at h
            simp only [if_neg hc]
            exact ProceedsG.answer h
        have goal : ∀ {pre q} {c : Conf Unit W} (hc : InView M.eventsG M mon δ pre q c x),
            ∃ c1, InView M.eventsG M mon δ pre q c1 { x with waiting := l } ∧ c1.world = c.world ∧ ∀ fuel,
            M.replayG tape fuel c =
              (M.sweepG tape ev (M.involved x.spot) [] () c1).bind fun a c =>
              (if .deferred ∉ a.1 ∧ .fired ∈ a.1 ∧ M.anonymous then
                (M.settleG tape fuel c).bind fun _ c => .ok a c
              else .ok a c).bind fun _ c => .ok () c := fun {pre q c} hc => by
          obtain ⟨l', h1, h2⟩ := hw hc
          refine ⟨{ c with waiting := l' }, ?_, rfl, fun fuel => ?_⟩
          · exact { hc with
              waiting := h2
              known := fun e he => hc.known e (by rw [h1]; exact List.mem_cons_of_mem _ he) }
          · unfold replayG
            rw [h1]
            dsimp only
            rw [if_pos hd]
            unfold handleG
            rw [show M.taking { c with waiting := l' } = M.involved x.spot from by rw [hc.spot]; rfl]
            rw [Res.bind_assoc]
        rcases y with ⟨_ | first, z⟩ | ⟨e, z⟩ | u | _
        · obtain ⟨v, x'', e, hv⟩ := key
          refine ⟨v, x'', e, fun pre q c rest fuel hc hw => ?_⟩
          obtain ⟨c1, h1, h2, h3⟩ := goal hc
          dsimp only
          rw [h3 fuel]
          exact hv pre q c1 rest fuel h1 (h2.trans hw)
        · obtain ⟨v, hv⟩ := key
          refine ⟨v, fun pre q c rest fuel hc hw => ?_⟩
          obtain ⟨c1, h1, h2, h3⟩ := goal hc
          dsimp only
          rw [h3 fuel]
          exact hv pre q c1 rest fuel h1 (h2.trans hw)
        · obtain ⟨v, hv⟩ := key
          refine ⟨v, fun pre q c rest fuel hc hw => ?_⟩
          obtain ⟨c1, h1, h2, h3⟩ := goal hc
          dsimp only
          rw [h3 fuel]
          exact hv pre q c1 rest fuel h1 (h2.trans hw)
        · trivial
        · trivial
      · have no : ∀ {pre q} {c : Conf Unit W}, ¬ InView M.eventsG M mon δ pre q c x := fun hc => by
          obtain ⟨l', h1, _⟩ := hw hc
          exact hev (hc.known (ev, ()) (by rw [h1]; exact List.mem_cons_self))
        rcases y with ⟨_ | first, z⟩ | ⟨e, z⟩ | u | _
        · obtain ⟨x'', rfl⟩ : ∃ x'', z = seeSign mon (.answer true) x'' := by
            rcases mem_branch.1 h with ⟨b, x', h1, h2⟩ | ⟨_, _, _, h1⟩ | ⟨_, _, h1⟩ | ⟨_, h1⟩
            · split at h2
              · cases List.mem_singleton.1 h2
              · cases List.mem_singleton.1 h2; exact ⟨_, rfl⟩
            · cases h1
            · cases h1
            · cases h1
          exact ⟨[], x'', rfl, fun _ _ _ _ _ hc _ => (no hc).elim⟩
        · exact ⟨[], fun _ _ _ _ _ hc _ => (no hc).elim⟩
        · exact ⟨[], fun _ _ _ _ _ hc _ => (no hc).elim⟩
        · trivial
        · trivial
    · rw [if_neg hd] at h
      refine (ProceedsG.answer h).congr fun _ _ c _ hc => ?_
      obtain ⟨l', h1, _⟩ := hw hc
      unfold replayG
      rw [h1]
      dsimp only
      rw [if_neg hd]

theorem receive_proceedsG {ev : EventTy} (hev : ev ∈ M.eventsG) (x : Eye Q) (y : Res (Eye Q) Stage)
    (h : y ∈ M.seeReceiveG mon ev x) :
    ProceedsG T M mon δ (fun fuel => M.receiveG tape fuel ev ()) x y := by
  have key : ProceedsG T M mon δ (fun fuel c => (M.sweepG tape ev (M.involved x.spot) [] () c).bind fun a c =>
      (if .deferred ∉ a.1 ∧ .fired ∈ a.1 ∧ M.anonymous then
        (M.settleG tape fuel c).bind fun _ c => .ok a c
      else .ok a c).bind fun a c =>
        if ∀ o ∈ a.1, o = RegionOut.none then M.complain tape ev a.2 c else M.replayG tape fuel c) x y := by
    refine ProceedsG.bind (ψ := fun o => (o, ())) h (fun z hz => sweep_realizesG hev z _ _ _ hz)
      fun os x' _ h => ?_
    dsimp only at h ⊢
    by_cases h1 : RegionOut.deferred ∉ os ∧ RegionOut.fired ∈ os ∧ M.anonymous = true
    · rw [if_pos h1] at h
      have hn : ¬ ∀ o ∈ os, o = RegionOut.none := fun h => by cases h _ h1.2.1
      rw [List.mem_singleton.1 h]
      refine ⟨[], fun pre q c rest fuel hin hw => ⟨c, ?_, hin, hw⟩⟩
      dsimp only
      rw [if_pos h1, Res.bind_assoc]
      simp only [Res.bind, if_neg hn, if_true]
    rw [if_neg h1] at h
    simp only [if_neg h1]
    by_cases hn : ∀ o ∈ os, o = RegionOut.none
    · rw [if_pos hn] at h
      have := ProceedsG.bind (f := fun _ _ c => .ok () c) (T := T) (δ := δ) h
        (fun z hz => complain_realizes ev x' z hz) fun _ x'' _ h => ProceedsG.answer h
      refine this.congr fun _ _ c _ _ => ?_
      show (if _ then _ else _) = _
      rw [if_pos hn]
      cases M.complain tape ev () c <;> rfl
    · rw [if_neg hn] at h
      refine (replay_proceedsG x' y h).congr fun _ _ c fuel _ => ?_
      show (if _ then _ else _) = _
      rw [if_neg hn]
  refine key.congr fun _ _ c fuel hc => ?_
  unfold receiveG handleG
  rw [taking_involved hc, Res.bind_assoc]

end Machine

/-- A client observed `ss`, and the machine and the monitor are as `x` says. -/
structure StandsG (M : Machine) (tape : Sem Unit W) (mon : Monitor Q) (δ : Dep) (ss : List Sign)
    (s : SM Unit W) (c : Conf Unit W) (x : Eye Q) : Prop where
  observed : ObservedG M tape δ ss s
  depicts : DepictsG M c s
  spot : x.spot = M.sight c
  waiting : x.waiting = c.waiting.map Prod.fst
  known : ∀ e ∈ c.waiting, e.1 ∈ M.eventsG
  deps : c.deps = [δ]
  heard : x.heard = mon.hearAll (some mon.init) ss

/-- Some client gets there. -/
def GetsToG (T : Dictates tape) (M : Machine) (mon : Monitor Q) (δ : Dep) : Stage → Eye Q → Prop
  | .idle, x => ∃ ss s c, StandsG M tape mon δ ss s c x
  | .rounds first, x => ∃ ss s c x0 ev v k j, StandsG M tape mon δ ss s c x0 ∧ ev ∈ M.eventsG ∧
      ∀ rest fuel, ∃ c', InView M.eventsG M mon δ c.calls (mon.hear x0.heard (.event ev)) c' x ∧ c'.world = rest ∧
        M.receiveG tape (fuel + k) ev () { c with world := T.feed v rest } =
          (M.settleG tape (fuel + j) c').bind fun _ c =>
            if first then M.replayG tape (fuel + k) c else .ok () c

theorem StandsG.finish (hM : M.RegularG) {ss : List Sign} {s : SM Unit W} {c c' : Conf Unit W} {x y : Eye Q}
    (h : StandsG M tape mon δ ss s c x) {ev : EventTy} (hev : ev ∈ M.eventsG) {w : W} {fuel : Nat}
    (hy : InView M.eventsG M mon δ c.calls (mon.hear x.heard (.event ev)) c' y) {last : Sign}
    (hr : M.receiveG tape fuel ev () { c with world := w } = .ok () c' ∧ last = .answer true ∨
      ∃ e, M.receiveG tape fuel ev () { c with world := w } = .throw e c' ∧ last = .exception) :
    ∃ ss s c, StandsG M tape mon δ ss s c (Machine.seeSign mon last y) := by
  have hop : OpOkG M (.process ev ()) := by
    show ev ∈ M.eventIdsG
    rw [← Machine.eventsG_eq hM.laid]; exact hev
  obtain ⟨ops, hrun⟩ := h.observed.runs
  have hs := C82_step (sem := tape) (reworldG h.depicts w) hM (C82_reach hM hrun).1 fuel hop
  have e : M.execG tape fuel (.process ev ()) { c with world := w } =
    M.receiveG tape fuel ev () { c with world := w } := rfl
  rw [e] at hs
  obtain ⟨l, hl, hh⟩ := hy.heard
  have fin : ∀ s', DepictsG M c' s' →
      ObservedG M tape δ (ss ++ .event ev :: callsSince { s with world := w } s' ++ [last]) s' →
      StandsG M tape mon δ (ss ++ .event ev :: callsSince { s with world := w } s' ++ [last]) s' c'
        (Machine.seeSign mon last y) := fun s' hd ho =>
    { observed := ho
      depicts := hd
      spot := hy.spot
      waiting := hy.waiting
      known := hy.known
      deps := hy.deps
      heard := by
        show mon.hear y.heard last = _
        rw [(reworldG h.depicts w).since hd (l := l) hl, Monitor.hearAll_append, Monitor.hearAll_append,
          ← h.heard, hh]
        rfl }
  revert hs
  rcases hr with ⟨hr, rfl⟩ | ⟨x, hr, rfl⟩ <;> rw [hr] <;>
    cases hst : stepG M tape fuel (.process ev ()) { s with world := w } <;> intro hs
  case inl.ok b' s' =>
    exact ⟨_, _, _, fin s' hs.2 ((h.observed.world w).ok hop hst)⟩
  case inr.throw e' s' =>
    exact ⟨_, _, _, fin s' hs.2 ((h.observed.world w).throw hop hst)⟩
  all_goals exact hs.elim

theorem Machine.seeReplay_anonymousG {x x' : Eye Q} {first : Bool}
    (h : .ok (.rounds first) x' ∈ M.seeReplayG mon x) : M.anonymous = true := by
  unfold Machine.seeReplayG at h
  split at h
  · cases List.mem_singleton.1 h
  · split at h
    · rcases mem_branch.1 h with ⟨b, z, h1, h2⟩ | ⟨_, _, _, h1⟩ | ⟨_, _, h1⟩ | ⟨_, h1⟩
      · split at h2
        · next hc => exact hc.2.2
        · cases List.mem_singleton.1 h2
      · cases h1
      · cases h1
      · cases h1
    · cases List.mem_singleton.1 h

theorem Machine.seeReceive_anonymousG {x x' : Eye Q} {first : Bool} {ev : EventTy}
    (h : .ok (.rounds first) x' ∈ M.seeReceiveG mon ev x) : M.anonymous = true := by
  rcases mem_branch.1 h with ⟨b, z, h1, h2⟩ | ⟨_, _, _, h1⟩ | ⟨_, _, h1⟩ | ⟨_, h1⟩
  · split at h2
    · next hc => exact hc.2.2
    split at h2
    · rcases mem_branch.1 h2 with ⟨b, z, h1, h2⟩ | ⟨_, _, _, h1⟩ | ⟨_, _, h1⟩ | ⟨_, h1⟩
      · cases List.mem_singleton.1 h2
      · cases h1
      · cases h1
      · cases h1
    · exact seeReplay_anonymousG h2
  · cases h1
  · cases h1
  · cases h1

theorem Machine.SeesG.anonymous {first : Bool} {x : Eye Q} (h : M.SeesG mon (.rounds first) x) :
    M.anonymous = true := by
  generalize hg : Stage.rounds first = g at h
  induction h generalizing first with
  | start => cases hg
  | @ok g g' x x' h hn ih =>
    subst hg
    cases g with
    | rounds f => exact ih rfl
    | idle =>
      obtain ⟨ev, _, hn⟩ := List.mem_flatMap.1 hn
      exact seeReceive_anonymousG hn
  | throw _ _ _ => cases hg

/-- Every possibility is some client's. -/
theorem Machine.SeesG.getsTo (hM : M.RegularG) (w0 : W)
    (hC : M.ScopesRealG ∧ (M.orthogonal = true → M.declaredInitials M.root ≠ [])) {g : Stage} {x : Eye Q}
    (h : M.SeesG mon g x) : GetsToG T M mon δ g x := by
  have step : ∀ {g : Stage} {x : Eye Q}, M.SeesG mon g x → GetsToG T M mon δ g x →
      (∀ g' x', .ok g' x' ∈ M.seeNextG mon g x → GetsToG T M mon δ g' x') ∧
      ∀ e x', .throw e x' ∈ M.seeNextG mon g x → GetsToG T M mon δ .idle (seeSign mon .exception x') := by
    intro g x hsees hx
    cases g with
    | idle =>
      obtain ⟨ss, s, c, hs⟩ := hx
      have hb : ∀ (ev : EventTy) (w : W), InView M.eventsG M mon δ c.calls (mon.hear x.heard (.event ev)) { c with world := w }
          (seeSign mon (.event ev) x) := fun ev w =>
        ⟨hs.spot, hs.waiting, hs.known, hs.deps, [], (List.append_nil _).symm, rfl⟩
      refine ⟨fun g' x' hn => ?_, fun e x' hn => ?_⟩
      · obtain ⟨ev, hev, hn⟩ := List.mem_flatMap.1 hn
        have hp := receive_proceedsG (T := T) (δ := δ) hev _ _ hn
        cases g' with
        | idle =>
          obtain ⟨v, x'', rfl, hv⟩ := hp
          obtain ⟨c', h1, h2, h3⟩ := hv _ _ { c with world := T.feed v w0 } w0 0 (hb ev _) rfl
          exact hs.finish hM hev h2 (Or.inl ⟨h1, rfl⟩)
        | rounds first =>
          obtain ⟨v, hv⟩ := hp
          refine ⟨ss, s, c, x, ev, v, 0, 0, hs, hev, fun rest fuel => ?_⟩
          obtain ⟨c', h1, h2, h3⟩ := hv _ _ { c with world := T.feed v rest } rest fuel (hb ev _) rfl
          exact ⟨c', h2, h3, h1⟩
      · obtain ⟨ev, hev, hn⟩ := List.mem_flatMap.1 hn
        obtain ⟨v, hv⟩ := receive_proceedsG (T := T) (δ := δ) hev _ _ hn
        obtain ⟨e, c', h1, h2, h3⟩ := hv _ _ { c with world := T.feed v w0 } w0 0 (hb ev _) rfl
        exact hs.finish hM hev h2 (Or.inr ⟨e, h1, rfl⟩)
    | rounds first =>
      obtain ⟨ss, s, c, x0, ev, v, k, j, hs, hev, hx⟩ := hx
      have hnone : EventTy.none ∈ M.eventsG := none_eventG hsees.anonymous
      -- one round
      have round : ∀ (v1 : List (Option Bool)) (rest : W) (fuel : Nat), ∃ c',
          InView M.eventsG M mon δ c.calls (mon.hear x0.heard (.event ev)) c' x ∧ c'.world = T.feed v1 rest ∧
          M.receiveG tape (fuel + (k + 1)) ev () { c with world := T.feed (v ++ v1) rest } =
            ((M.roundG tape (M.involved x.spot) [] c').bind fun a c =>
              if a then M.settleG tape (fuel + j) c else .ok () c).bind fun _ c =>
              if first then M.replayG tape (fuel + (k + 1)) c else .ok () c := by
        intro v1 rest fuel
        obtain ⟨c', h1, h2, h3⟩ := hx (T.feed v1 rest) (fuel + 1)
        refine ⟨c', h1, h2, ?_⟩
        rw [T.feed_append, show fuel + (k + 1) = fuel + 1 + k by omega, h3,
          show fuel + 1 + j = fuel + j + 1 by omega]
        congr 1
        rw [settleG, taking_involved h1]
      have main : ∀ y, y ∈ M.seeNextG mon (.rounds first) x →
          (∀ g' x', y = .ok g' x' → GetsToG T M mon δ g' x') ∧
          ∀ e x', y = .throw e x' → GetsToG T M mon δ .idle (seeSign mon .exception x') := by
        intro y hy
        rcases mem_branch.1 hy with ⟨b, z, h1, h2⟩ | ⟨e, z, h1, rfl⟩ | ⟨u, h1, rfl⟩ | ⟨h1, rfl⟩
        · obtain ⟨v1, hv1⟩ := round_realizesG (T := T) (δ := δ) hnone _ _ _ _ h1
          cases b with
          | true =>
            rw [if_pos rfl] at h2
            cases List.mem_singleton.1 h2
            refine ⟨fun g' x' e => ?_, fun _ _ e => nomatch e⟩
            cases e
            refine ⟨ss, s, c, x0, ev, v ++ v1, k + 1, j, hs, hev, fun rest fuel => ?_⟩
            obtain ⟨c', g1, g2, g3⟩ := round v1 rest fuel
            obtain ⟨c1, e1, k1, k2⟩ := hv1 _ _ c' rest g1 g2
            refine ⟨c1, k1, k2, ?_⟩
            rw [g3, e1]
            rfl
          | false =>
            rw [if_neg (by simp)] at h2
            have after : ∀ (v2 : List (Option Bool)) (rest : W) (fuel : Nat), ∃ c',
                InView M.eventsG M mon δ c.calls (mon.hear x0.heard (.event ev)) c' z ∧ c'.world = T.feed v2 rest ∧
                M.receiveG tape (fuel + (k + 1)) ev () { c with world := T.feed (v ++ v1 ++ v2) rest } =
                  if first then M.replayG tape (fuel + (k + 1)) c' else .ok () c' := by
              intro v2 rest fuel
              obtain ⟨c', g1, g2, g3⟩ := round v1 (T.feed v2 rest) fuel
              obtain ⟨c1, e1, k1, k2⟩ := hv1 _ _ c' (T.feed v2 rest) g1 g2
              refine ⟨c1, k1, k2, ?_⟩
              rw [T.feed_append, g3, e1]
              rfl
            cases first with
            | false =>
              rw [if_neg (by simp)] at h2
              cases List.mem_singleton.1 h2
              refine ⟨fun g' x' e => ?_, fun _ _ e => nomatch e⟩
              cases e
              obtain ⟨c', g1, g2, g3⟩ := after [] w0 0
              exact hs.finish hM hev g1 (Or.inl ⟨g3, rfl⟩)
            | true =>
              rw [if_pos rfl] at h2
              have hp := replay_proceedsG (T := T) (δ := δ) _ _ h2
              refine ⟨fun g' x' e => ?_, fun e' x' e => ?_⟩
              · subst e
                cases g' with
                | idle =>
                  obtain ⟨v2, x'', rfl, hv⟩ := hp
                  obtain ⟨c', g1, g2, g3⟩ := after v2 w0 0
                  obtain ⟨c1, e1, k1, k2⟩ := hv _ _ c' w0 (0 + (k + 1)) g1 g2
                  exact hs.finish hM hev k1 (Or.inl ⟨g3.trans e1, rfl⟩)
                | rounds first' =>
                  obtain ⟨v2, hv⟩ := hp
                  refine ⟨ss, s, c, x0, ev, v ++ v1 ++ v2, k + 1, k + 1, hs, hev, fun rest fuel => ?_⟩
                  obtain ⟨c', g1, g2, g3⟩ := after v2 rest fuel
                  obtain ⟨c1, e1, k1, k2⟩ := hv _ _ c' rest (fuel + (k + 1)) g1 g2
                  exact ⟨c1, k1, k2, g3.trans e1⟩
              · subst e
                obtain ⟨v2, hv⟩ := hp
                obtain ⟨c', g1, g2, g3⟩ := after v2 w0 0
                obtain ⟨e2, c1, e1, k1, k2⟩ := hv _ _ c' w0 (0 + (k + 1)) g1 g2
                exact hs.finish hM hev k1 (Or.inr ⟨e2, g3.trans e1, rfl⟩)
        · refine ⟨(fun _ _ e => nomatch e), fun e' x' he => ?_⟩
          cases he
          obtain ⟨v1, hv1⟩ := round_realizesG (T := T) (δ := δ) hnone _ _ _ _ h1
          obtain ⟨c', g1, g2, g3⟩ := round v1 w0 0
          obtain ⟨e2, c1, e1, k1, k2⟩ := hv1 _ _ c' w0 g1 g2
          exact hs.finish hM hev k1 (Or.inr ⟨e2, by rw [g3, e1]; rfl, rfl⟩)
        · exact ⟨(fun _ _ e => nomatch e), fun _ _ e => nomatch e⟩
        · exact ⟨(fun _ _ e => nomatch e), fun _ _ e => nomatch e⟩
      exact ⟨fun g' x' hn => (main _ hn).1 _ _ rfl, fun e x' hn => (main _ hn).2 _ _ rfl⟩
  induction h with
  | start =>
    obtain ⟨h1, _, h2⟩ := C82_construct (P := Unit) hM δ w0
    obtain ⟨s, hs⟩ := h1.2 hC
    exact ⟨[], s, _, .init hs, h2 s hs, rfl, rfl, fun _ h => (nomatch h), rfl, rfl⟩
  | ok h hn ih => exact (step h ih).1 _ _ hn
  | throw h hn ih => exact (step h ih).2 _ _ hn

end

/-! ## The claims -/

theorem Machine.seesAll_seesG [DecidableEq Q] {S : List (Stage × Eye Q)} (hS : M.seesAllG mon S = true)
    {g : Stage} {x : Eye Q} (h : M.SeesG mon g x) : (g, x) ∈ S := by
  unfold seesAllG at hS
  rw [Bool.and_eq_true, decide_eq_true_eq, List.all_eq_true] at hS
  induction h with
  | start => exact hS.1
  | ok h hn ih => exact of_decide_eq_true (List.all_eq_true.1 (hS.2 _ ih) _ hn)
  | throw h hn ih => exact of_decide_eq_true (List.all_eq_true.1 (hS.2 _ ih) _ hn)

theorem Machine.watch_seesG [DecidableEq Q] : ∀ (k : Nat) {g : Stage} {x : Eye Q}, (g, x) ∈ M.watchG mon k →
    M.SeesG mon g x
  | 0, g, x, h => by cases List.mem_singleton.1 h; exact .start
  | k + 1, g, x, h => by
    unfold watchG at h
    rw [List.mem_eraseDups] at h
    rcases List.mem_append.1 h with h | h
    · exact watch_seesG k h
    · obtain ⟨⟨g0, x0⟩, h0, h⟩ := List.mem_flatMap.1 h
      obtain ⟨y, hy, h⟩ := List.mem_filterMap.1 h
      have h0 := watch_seesG k h0
      cases y with
      | ok g' x' => cases h; exact h0.ok hy
      | throw e x' => cases h; exact h0.throw hy
      | ub u => cases h
      | timeout => cases h

/-! ## Watching comes to an end -/

/-- The spot is one of finitely many, and nothing waits. -/
def Machine.TrimG (M : Machine) (x : Eye Q) : Prop := M.NeatG x.spot ∧ x.waiting = []

namespace Machine
variable {x : Eye Q}

theorem TrimG.sign (h : M.TrimG x) (s : Sign) : M.TrimG (seeSign mon s x) := h

theorem seeTravel_trimG (r : Nat) (t : XRow) {l : Name × StTy} (hl : l ∈ M.stationsG) (h : M.TrimG x) :
    (M.seeTravel r t l x).Holds M.TrimG := by
  have := mayTravel_neatG r t hl h.1
  unfold seeTravel
  revert this
  cases M.mayTravel r t l x.spot <;> intro this
  · exact ⟨this, h.2⟩
  · exact ⟨this, h.2⟩
  · exact this
  · trivial

theorem seePerform_trimG (args : Args) : ∀ (cs : List (Phase × Cb)) {x : Eye Q}, M.TrimG x →
    ∀ y ∈ seePerform mon args cs x, y.Holds M.TrimG
  | [], _, h => Holds.one h
  | _ :: cs, _, h => fun y hy => by
    rcases List.mem_cons.1 hy with rfl | hy
    · exact h
    · exact seePerform_trimG args cs (h.sign _) y hy

theorem seeTake_trimG (r : Nat) (ev : EventTy) (cd : Cand) (t : XRow) {l : Name × StTy} (hl : l ∈ M.stationsG)
    (h : M.TrimG x) : ∀ y ∈ M.seeTake mon r ev cd t l x, y.Holds M.TrimG := by
  unfold seeTake
  refine Holds.branch (Holds.one (seeTravel_trimG r t hl h)) fun _ x h => ?_
  split
  · exact Holds.one h
  · exact seePerform_trimG _ _ h

theorem seeAttempt_trimG (anon : Bool) (r : Nat) (ev : EventTy) : ∀ (cs : List Cand) {x : Eye Q}, M.TrimG x →
    (∀ cd ∈ cs, cd.row? ≠ none ∧ ∀ t, cd.row? = some t → ∀ l, M.targetLoc t = some l → l ∈ M.stationsG) →
    ∀ y ∈ M.seeAttempt mon anon r ev cs x, y.Holds M.TrimG
  | [], _, h, _ => Holds.one h
  | cd :: cs, x, h, hcs => by
    rw [seeAttempt]
    have hcd := hcs cd List.mem_cons_self
    cases hr : cd.row? with
    | none => exact (hcd.1 hr).elim
    | some t =>
      dsimp only
      cases hl : M.targetLoc t with
      | none => exact Holds.one ⟨nofun, nofun⟩
      | some l =>
        refine Holds.branch (I := M.TrimG) ?_ fun b x h => ?_
        · unfold seeAsk
          split
          · exact Holds.one h
          · intro y hy
            rcases List.mem_cons.1 hy with rfl | hy
            · exact h
            rcases List.mem_cons.1 hy with rfl | hy
            · exact h
            · rw [List.mem_singleton.1 hy]; exact h
        · cases b with
          | true =>
            exact Holds.branch (seeTake_trimG r ev cd t (hcd.2 t hr l hl) h) fun _ x h => Holds.one h
          | false => exact seeAttempt_trimG anon r ev cs h fun cd h => hcs cd (List.mem_cons_of_mem _ h)

theorem seeVisit_trimG (hd : M.deferring = false) (anon : Bool) (r : Nat) (ev : EventTy) (h : M.TrimG x) :
    ∀ y ∈ M.seeVisitG mon anon r ev x, y.Holds M.TrimG := by
  unfold seeVisitG
  split
  · exact Holds.one ⟨nofun, nofun⟩
  · exact Holds.one ⟨nofun, nofun⟩
  · split
    · split
      · exact Holds.one h
      · exact seeAttempt_trimG anon r ev _ h fun cd hcd => ⟨no_deferG hd hcd, fun t ht l hl => cands_placesG hcd ht hl⟩
    · exact Holds.one ⟨nofun, nofun⟩

theorem seeSweep_trimG (hd : M.deferring = false) (ev : EventTy) : ∀ (rs : List Nat) (os : List RegionOut)
    {x : Eye Q}, M.TrimG x → ∀ y ∈ M.seeSweepG mon ev rs os x, y.Holds M.TrimG
  | [], _, _, h => Holds.one h
  | r :: rs, os, x, h => by
    refine Holds.branch (seeVisit_trimG hd false r ev h) fun o n h => ?_
    split
    · exact Holds.one h
    · exact seeSweep_trimG hd ev rs _ h

theorem seeRound_trimG (hd : M.deferring = false) : ∀ (rs : List Nat) (os : List RegionOut)
    {x : Eye Q}, M.TrimG x → ∀ y ∈ M.seeRoundG mon rs os x, y.Holds M.TrimG
  | [], _, _, h => Holds.one h
  | r :: rs, os, x, h => by
    refine Holds.branch (seeVisit_trimG hd true r .none h) fun o n h => ?_
    split
    · exact Holds.one h
    · exact seeRound_trimG hd rs _ h

theorem seeReplay_trimG (h : M.TrimG x) : ∀ y ∈ M.seeReplayG mon x, y.Holds M.TrimG := by
  unfold seeReplayG
  rw [h.2]
  exact Holds.one h

theorem seeNext_trimG (hd : M.deferring = false) (g : Stage) (h : M.TrimG x) :
    ∀ y ∈ M.seeNextG mon g x, y.Holds M.TrimG := by
  cases g with
  | rounds first =>
    refine Holds.branch (seeRound_trimG hd _ _ h) fun b x h => ?_
    split
    · exact Holds.one h
    split
    · exact seeReplay_trimG h
    · exact Holds.one h
  | idle =>
    intro y hy
    obtain ⟨ev, _, hy⟩ := List.mem_flatMap.1 hy
    refine Holds.branch (seeSweep_trimG hd ev _ _ (h.sign _)) (fun os x h => ?_) y hy
    split
    · exact Holds.one h
    split
    · refine Holds.branch (I := M.TrimG) ?_ fun _ x h => Holds.one h
      unfold seeComplain
      split
      · exact Holds.one h
      split
      · exact Holds.one ⟨nofun, nofun⟩
      · exact Holds.one ⟨nofun, nofun⟩
      split
      · intro y hy
        rcases List.mem_cons.1 hy with rfl | hy
        · exact h
        · rw [List.mem_singleton.1 hy]; exact h
      · exact Holds.one h
    · exact seeReplay_trimG h

theorem SeesG.trim (hd : M.deferring = false) {g : Stage} (h : M.SeesG mon g x) : M.TrimG x := by
  induction h with
  | start => exact ⟨start_neatG, rfl⟩
  | ok _ hn ih => exact seeNext_trimG hd _ ih _ hn
  | throw _ hn ih => exact seeNext_trimG hd _ ih _ hn

variable [DecidableEq Q]

theorem watch_growsG (k : Nat) {s : Stage × Eye Q} (h : s ∈ M.watchG mon k) : s ∈ M.watchG mon (k + 1) := by
  rw [watchG, List.mem_eraseDups]
  exact List.mem_append_left _ h

theorem watch_startG : ∀ k, (Stage.idle, M.seeStart mon) ∈ M.watchG mon k
  | 0 => List.mem_cons_self
  | k + 1 => watch_growsG k (watch_startG k)

theorem watch_closedG {k : Nat} (h : ∀ s ∈ M.watchG mon (k + 1), s ∈ M.watchG mon k) :
    M.seesAllG mon (M.watchG mon k) = true := by
  unfold seesAllG
  rw [Bool.and_eq_true, List.all_eq_true]
  refine ⟨decide_eq_true (watch_startG k), fun s hs => List.all_eq_true.2 fun y hy => ?_⟩
  have key : ∀ z, (match (generalizing := false) y with
      | .ok g x => some (g, x)
      | .throw _ x => some (Stage.idle, seeSign mon .exception x)
      | _ => none) = some z → z ∈ M.watchG mon k := by
    intro z hz
    refine h z ?_
    rw [watchG, List.mem_eraseDups]
    exact List.mem_append_right _ (List.mem_flatMap.2 ⟨s, hs, List.mem_filterMap.2 ⟨y, hy, hz⟩⟩)
  cases y with
  | ok g x => exact decide_eq_true (key _ rfl)
  | throw e x => exact decide_eq_true (key _ rfl)
  | ub u => rfl
  | timeout => rfl

theorem watch_ends_ofG {F : Set (Option Q)} (hQ : F.Finite) (hsees : ∀ g x, M.SeesG mon g x → x.heard ∈ F)
    (hd : M.deferring = false) : ∃ k, M.seesAllG mon (M.watchG mon k) = true := by
  by_contra hne
  have hF : {s : Stage × Eye Q | M.TrimG s.2 ∧ s.2.heard ∈ F}.Finite := by
    have hG : (Set.univ : Set Stage).Finite :=
      (Set.toFinite {Stage.idle, .rounds true, .rounds false}).subset fun g _ => by
        rcases g with _ | _ | _ <;> simp
    refine ((hG.prod ((neat_finiteG (M := M)).prod hQ)).image
      fun s => (s.1, (⟨s.2.1, [], s.2.2⟩ : Eye Q))).subset ?_
    rintro ⟨g, x⟩ ⟨h, hx⟩
    refine ⟨(g, x.spot, x.heard), ⟨trivial, h.1, hx⟩, ?_⟩
    obtain ⟨n, w, q⟩ := x
    have : w = [] := h.2
    subst this
    rfl
  have hsub : ∀ k, (M.watchG mon k).toFinset ⊆ hF.toFinset := by
    intro k s hs
    rw [Set.Finite.mem_toFinset]
    have := watch_seesG k (g := s.1) (x := s.2) (List.mem_toFinset.1 hs)
    exact ⟨this.trim hd, hsees _ _ this⟩
  have hcard : ∀ k, k < (M.watchG mon k).toFinset.card := by
    intro k
    induction k with
    | zero => exact Finset.card_pos.2 ⟨_, List.mem_toFinset.2 (watch_startG 0)⟩
    | succ k ih =>
      have : (M.watchG mon k).toFinset ⊂ (M.watchG mon (k + 1)).toFinset := by
        refine ⟨fun s hs => List.mem_toFinset.2 (watch_growsG k (List.mem_toFinset.1 hs)), fun hle => ?_⟩
        exact hne ⟨k, watch_closedG fun s hs => List.mem_toFinset.1 (hle (List.mem_toFinset.2 hs))⟩
      have := Finset.card_lt_card this
      omega
  have h1 := hcard hF.toFinset.card
  have h2 := Finset.card_le_card (hsub hF.toFinset.card)
  omega

theorem watch_endsG [Finite Q] (hd : M.deferring = false) : ∃ k, M.seesAllG mon (M.watchG mon k) = true :=
  watch_ends_ofG Set.finite_univ (fun _ _ _ => trivial) hd

end Machine

/-- C104: if nothing is deferred and the monitor has finitely many states, `watchG` gets there: some list it
computes leaves out nothing. -/
theorem C104_found [DecidableEq Q] [Finite Q] (hd : M.deferring = false) (mon : Monitor Q) :
    ∃ k, M.seesAllG mon (M.watchG mon k) = true := Machine.watch_endsG hd

/-- C104: if a list leaves out nothing and every entry keeps the rules, then no client observes a break
of the rules, whatever its callbacks do. -/
theorem C104_keeps [DecidableEq Q] (hM : M.RegularG) {S : List (Stage × Eye Q)}
    (hS : M.seesAllG mon S = true) (hk : keepsRules S = true) {d : Dep} {ss : List Sign} {s : SM P W}
    (h : ObservedG M sem d ss s) : mon.Keeps ss := by
  obtain ⟨c, x, _, _, _, hs, _, _, hh⟩ := h.sees (mon := mon) hM
  unfold Monitor.Keeps
  rw [← hh]
  have := List.all_eq_true.1 hk _ (Machine.seesAll_seesG hS hs)
  intro hn
  rw [hn] at this
  cases this

/-- C104: what is observed up to some point in the middle of a call keeps the rules as well. -/
theorem C104_prefix [DecidableEq Q] (hM : M.RegularG) {S : List (Stage × Eye Q)}
    (hS : M.seesAllG mon S = true) (hk : keepsRules S = true) {d : Dep} {ss ss' : List Sign} {s : SM P W}
    (h : ObservedG M sem d (ss ++ ss') s) : mon.Keeps ss := by
  intro hn
  refine C104_keeps hM hS hk h ?_
  rw [Monitor.hearAll_append, hn, Monitor.hearAll_none]

/-- C104: if a list that `watchG` computes has an entry that breaks the rules, then some client observes
that: one whose callbacks read their answers from a script. -/
theorem C104_broken [DecidableEq Q] (hM : M.RegularG)
    (hC : M.ScopesRealG ∧ (M.orthogonal = true → M.declaredInitials M.root ≠ []))
    {k : Nat} (hk : keepsRules (M.watchG mon k) = false) (d : Dep) :
    ∃ ss s, ObservedG M script d ss s ∧ ¬ mon.Keeps ss := by
  have : ∃ x, (Stage.idle, x) ∈ M.watchG mon k ∧ x.heard = none := by
    by_contra hno
    have : keepsRules (M.watchG mon k) = true := List.all_eq_true.2 fun y hy => by
      obtain ⟨g, x⟩ := y
      cases g with
      | rounds _ => rfl
      | idle =>
        show x.heard.isSome = true
        cases hx : x.heard with
        | some _ => rfl
        | none => exact (hno ⟨x, hy, hx⟩).elim
    rw [hk] at this
    cases this
  obtain ⟨x, hx, hn⟩ := this
  obtain ⟨ss, s, c, hs⟩ := (Machine.watch_seesG k hx).getsTo (T := listed) (δ := d) hM [] hC
  exact ⟨ss, s, hs.observed, fun h => h (by rw [← hs.heard]; exact hn)⟩

/-- C104: the possibilities are exactly those of clients.  The rules are kept at all of them just if all
clients observe that they are kept. -/
theorem C104_exact (hM : M.RegularG)
    (hC : M.ScopesRealG ∧ (M.orthogonal = true → M.declaredInitials M.root ≠ [])) (mon : Monitor Q) :
    (∀ x, M.SeesG mon .idle x → x.heard ≠ none) ↔
    ∀ (P W : Type) (sem : Sem P W) (d : Dep) (ss : List Sign) (s : SM P W), ObservedG M sem d ss s →
      mon.Keeps ss := by
  constructor
  · intro h P W sem d ss s ho
    obtain ⟨c, x, _, _, _, hs, _, _, hh⟩ := ho.sees (mon := mon) hM
    unfold Monitor.Keeps
    rw [← hh]
    exact h x hs
  · intro h x hx
    obtain ⟨ss, s, c, hs⟩ := hx.getsTo (T := listed) (δ := 0) hM [] hC
    rw [hs.heard]
    exact h _ _ _ _ ss s hs.observed

/-- C104: a list that `watchG` computes and that leaves out nothing decides the question. -/
theorem C104_decides [DecidableEq Q] (hM : M.RegularG)
    (hC : M.ScopesRealG ∧ (M.orthogonal = true → M.declaredInitials M.root ≠ []))
    {k : Nat} (hS : M.seesAllG mon (M.watchG mon k) = true) :
    keepsRules (M.watchG mon k) = true ↔
    ∀ (P W : Type) (sem : Sem P W) (d : Dep) (ss : List Sign) (s : SM P W), ObservedG M sem d ss s →
      mon.Keeps ss := by
  constructor
  · intro hk P W sem d ss s h
    exact C104_keeps hM hS hk h
  · intro h
    cases hk : keepsRules (M.watchG mon k) with
    | true => rfl
    | false =>
      obtain ⟨ss, s, ho, hn⟩ := C104_broken hM hC hk 0
      exact (hn (h _ _ _ _ ss s ho)).elim

/-! ## Examples -/

namespace Ex

theorem wicket_regularG : wicket.RegularG := Machine.regularG_ofList (by decide +kernel)

theorem wicket_alternatesG : wicket.seesAllG alternate (wicket.watchG alternate 2) = true ∧
    keepsRules (wicket.watchG alternate 2) = true := by decide +kernel

/-- Also with the amalgamated header no client observes that the wicket is unlocked twice without being
locked in between. -/
example {sem : Sem P W} {d : Dep} {ss : List Sign} {s : SM P W} (h : ObservedG wicket sem d ss s) :
    alternate.Keeps ss := C104_keeps wicket_regularG wicket_alternatesG.1 wicket_alternatesG.2 h

/-- Event 0 does not go unnoticed: some callback is called before `process_event` returns. -/
def attentive : Monitor Bool where
  init := false
  step pending
    | .event e => some (decide (e = ev 0))
    | .call _ => some false
    | .answer _ => if pending then none else some false
    | .exception => some false

theorem innerG_regularG : innerG.RegularG := Machine.regularG_ofList (by decide +kernel)

/-- With the modular headers every client of `innerG` observes this. -/
theorem innerG_attentive {sem : Sem P W} {d : Dep} {ss : List Sign} {s : SM P W}
    (h : Observed innerG sem d ss s) : attentive.Keeps ss :=
  C86_keeps innerG_regular (S := innerG.watch attentive 3) (by decide +kernel) (by decide +kernel) h

/-- With the amalgamated header some client does not: the internal row of state 2 is ignored there. -/
theorem innerG_inattentive : ∃ ss s, ObservedG innerG script 0 ss s ∧ ¬ attentive.Keeps ss :=
  C104_broken innerG_regularG (builtG innerG_regularG (by decide +kernel)) (k := 3) (by decide +kernel) 0

/-- The question is decided: the list leaves out nothing. -/
example : innerG.seesAllG attentive (innerG.watchG attentive 3) = true ∧
    keepsRules (innerG.watchG attentive 3) = false := by decide +kernel

/-- If guard 100 refuses, no action follows in the same call. -/
def meek : Monitor Bool where
  init := false
  step refused
    | .event _ => some false
    | .call (.guard 100 _ _ (some false) _) => some true
    | .call (.action _ _ _ _ _ _) => if refused then none else some refused
    | _ => some refused

/-- Some client of the amalgamated header observes an action after a refusal: that of a deferred event,
which is handled all the same. -/
theorem waiting_not_meek : ∃ ss s, ObservedG waiting script 0 ss s ∧ ¬ meek.Keeps ss :=
  C104_broken waiting_regularG (builtG waiting_regularG (by decide +kernel)) (k := 4) (by decide +kernel) 0

end Ex

end Hsm
