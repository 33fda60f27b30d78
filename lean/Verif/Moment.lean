import Verif.RunLemmas

/-!
# Inside `process_event`

`Moment` are the states a machine passes through while it processes events, `Handles` and
`HandlesThrow` what the code does there when it hands an event to a region.  The
properties that speak of one region are stated with them, so they are about the code and
not about the relations of `SpecStep`.
-/

namespace Hsm

section
variable {P W : Type} (M : Machine) (sem : Sem P W)

/-- States of a machine constructed with dependency `d` on which the calls `ops` were
made: the state after the last call, or one passed through by a call that is under way. -/
inductive Moment (d : Dep) (ops : List (Op P)) : SM P W → Prop
  | start {s : SM P W} (h : RunTo M sem d ops s) : Moment d ops s
  | event {s s' : SM P W} {r : Nat} {ev : EventTy} {pl : P} {op : RegionOut × P}
      (h : Moment d ops s) (hs : regionStep M sem r ev pl s = .ok op s') : Moment d ops s'
  | anon {s s0 s' : SM P W} {r : Nat} {es : List Entry} {pl : P} {bp : Bool × P}
      (h : Moment d ops s) (hl : lookup M .none r s = .ok es s0) (hne : es ≠ [])
      (hs : tryAnon M sem r es pl s = .ok bp s') : Moment d ops s'
  | pop {s : SM P W} {x : EventTy × P} {q : List (EventTy × P)} (h : Moment d ops s)
      (hq : s.queue = x :: q) : Moment d ops { s with queue := q }

/-- The code hands event `ev` to region `r`: in the loop of `process_event_internal`
(sm.h:183-229) or, the event being `none`, in that of `process_anonymous_transitions`
(sm.h:240-274). -/
inductive Handles (r : Nat) (ev : EventTy) (pl : P) (s : SM P W) :
    RegionOut → P → SM P W → Prop
  | event {o : RegionOut} {pl' : P} {s' : SM P W}
      (h : regionStep M sem r ev pl s = .ok (o, pl') s') : Handles r ev pl s o pl' s'
  | anon {es : List Entry} {b : Bool} {s0 : SM P W} {pl' : P} {s' : SM P W} (he : ev = .none)
      (hl : lookup M .none r s = .ok es s0) (hne : es ≠ [])
      (h : tryAnon M sem r es pl s = .ok (b, pl') s') :
      Handles r ev pl s (if b then .fired else .rejected) pl' s'

/-- Like `Handles`, left by an exception. -/
inductive HandlesThrow (r : Nat) (ev : EventTy) (pl : P) (s : SM P W) : Exn → SM P W → Prop
  | event {x : Exn} {s' : SM P W} (h : regionStep M sem r ev pl s = .throw x s') :
      HandlesThrow r ev pl s x s'
  | anon {x : Exn} {es : List Entry} {s0 : SM P W} {s' : SM P W} (he : ev = .none)
      (hl : lookup M .none r s = .ok es s0) (hne : es ≠ [])
      (h : tryAnon M sem r es pl s = .throw x s') : HandlesThrow r ev pl s x s'

variable {M sem} {d : Dep} {ops : List (Op P)} {s s' : SM P W} {r : Nat} {ev : EventTy} {pl : P}

theorem Moment.good (hM : M.Regular) (h : Moment M sem d ops s) : Good M (depsOf d ops) s := by
  induction h with
  | start h => exact h.good hM
  | event _ hs ih => exact ih.regionStep hs
  | anon _ hl hne hs ih =>
    obtain ⟨rfl, p, st, ha, rfl⟩ := ih.lookup hM hl
    exact (ih.tryAnon hM ha hne (b := _) (pl' := _) hs).1
  | pop _ _ ih => exact ih.queue _

theorem Handles.run (hM : M.Regular) (hm : Moment M sem d ops s) {o : RegionOut} {pl' : P}
    (h : Handles M sem r ev pl s o pl' s') : RegionRun M sem (depsOf d ops) r ev pl s o pl' s' := by
  have hg := hm.good hM
  cases h with
  | event h => exact regionStep_ok hM hg h
  | anon he hl hne h =>
    subst he
    obtain ⟨rfl, p, st, ha, rfl⟩ := hg.lookup hM hl
    obtain ⟨_, o, ho, hb, hr⟩ := hg.tryAnon hM ha hne h
    rcases ho with rfl | rfl
    · rw [hb]; simpa using hr
    · rw [hb]; simpa using hr

theorem HandlesThrow.run (hM : M.Regular) (hm : Moment M sem d ops s) {x : Exn}
    (h : HandlesThrow M sem r ev pl s x s') :
    ∃ k, x = .user k ∧ RegionThrow M sem (depsOf d ops) r ev pl s k s' := by
  have hg := hm.good hM
  cases h with
  | event h => exact regionStep_throw hM hg h
  | anon he hl hne h =>
    subst he
    obtain ⟨rfl, p, st, ha, rfl⟩ := hg.lookup hM hl
    have hd := anon_no_defer (M := M) (sem := sem) (r := r) (pl := pl) (deps := depsOf d ops)
      (p := p) (st := st) (by rw [h]; simp)
    rw [tryAnon_eq hd] at h
    rcases Res.bind_throw.1 h with h5 | ⟨_, _, _, h5⟩
    · obtain ⟨k, hk, ht⟩ := tryEntries_throw h5
      exact ⟨k, hk, ht.region hM hg ha⟩
    · cases h5

end
end Hsm
