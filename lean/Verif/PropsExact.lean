import Verif.Complete
import Verif.Machines

/-!
# C49: what an event does is determined by the declarations

`EventRun` and `EventThrow` (`SpecStep`) say in terms of declared rows what handling an
event does.  C07 shows that the code does nothing else.  Here: it does exactly that, and
the relations leave no choice.
-/

namespace Hsm
section
variable {P W : Type} {M : Machine} {sem : Sem P W} {d : Dep} {ops : List (Op P)} {s : SM P W}

/-- C49: `process_event` returns `b` and leaves `s'` exactly if the specification says so. -/
theorem C49_returns (hM : M.Regular) (hp : Populated M sem) (hrun : RunTo M sem d ops s)
    {ev : EventTy} (hev : ev ∈ M.events) (pl : P) (b : Bool) (s' : SM P W) :
    EventRun M sem (depsOf d ops) d ev pl s b s' ↔
      ∃ n, ∀ fuel, n ≤ fuel → processEvent M sem fuel ev pl s = .ok b s' := by
  constructor
  · exact fun h => h.step hM hp hev (hrun.ready hM)
  · rintro ⟨n, hn⟩
    exact processEvent_ok hM hev (hrun.ready hM) (hn n (Nat.le_refl _))

/-- C49: `process_event` is left by exception `k` of a callback and leaves `s'` exactly if
the specification says so. -/
theorem C49_throws (hM : M.Regular) (hp : Populated M sem) (hrun : RunTo M sem d ops s)
    {ev : EventTy} (hev : ev ∈ M.events) (pl : P) (k : Nat) (s' : SM P W) :
    EventThrow M sem (depsOf d ops) d ev pl s k s' ↔
      ∃ n, ∀ fuel, n ≤ fuel → processEvent M sem fuel ev pl s = .throw (.user k) s' := by
  constructor
  · exact fun h => h.step hM hp hev (hrun.ready hM)
  · rintro ⟨n, hn⟩
    rcases processEvent_throw hM hev (hrun.ready hM) (hn n (Nat.le_refl _)) with
      ⟨k', hk, ht⟩ | ⟨hk, _⟩
    · cases hk; exact ht
    · cases hk

/-- C49: the specification of an event leaves no choice: at most one way to return, at most
one way to throw, and not both. -/
theorem C49_unique (hM : M.Regular) (hp : Populated M sem) (hrun : RunTo M sem d ops s)
    {ev : EventTy} (hev : ev ∈ M.events) (pl : P) :
    (∀ b b' s1 s2, EventRun M sem (depsOf d ops) d ev pl s b s1 →
      EventRun M sem (depsOf d ops) d ev pl s b' s2 → b = b' ∧ s1 = s2) ∧
    (∀ k k' s1 s2, EventThrow M sem (depsOf d ops) d ev pl s k s1 →
      EventThrow M sem (depsOf d ops) d ev pl s k' s2 → k = k' ∧ s1 = s2) ∧
    (∀ b k s1 s2, EventRun M sem (depsOf d ops) d ev pl s b s1 →
      ¬ EventThrow M sem (depsOf d ops) d ev pl s k s2) := by
  have hg := hrun.ready hM
  refine ⟨?_, ?_, ?_⟩
  · intro b b' s1 s2 h1 h2
    obtain ⟨n, hn⟩ := h1.step hM hp hev hg
    obtain ⟨m, hm⟩ := h2.step hM hp hev hg
    have := (hn (max n m) (by omega)).symm.trans (hm (max n m) (by omega))
    cases this
    exact ⟨rfl, rfl⟩
  · intro k k' s1 s2 h1 h2
    obtain ⟨n, hn⟩ := h1.step hM hp hev hg
    obtain ⟨m, hm⟩ := h2.step hM hp hev hg
    have := (hn (max n m) (by omega)).symm.trans (hm (max n m) (by omega))
    cases this
    exact ⟨rfl, rfl⟩
  · intro b k s1 s2 h1 h2
    obtain ⟨n, hn⟩ := h1.step hM hp hev hg
    obtain ⟨m, hm⟩ := h2.step hM hp hev hg
    have := (hn (max n m) (by omega)).symm.trans (hm (max n m) (by omega))
    cases this

/-- The demo machine meets the hypotheses; an event that fires a row, one whose row's
action throws, and one that nothing expects. -/
example : Populated Ex.demo (Ex.sem (fun _ => true) [2]) ∧ Ex.ev 0 ∈ Ex.demo.eventIds ∧
    (Ex.run Ex.demo (Ex.sem (fun _ => true) [2]) 5 7 []
      [.process (Ex.ev 0) 1, .process (Ex.ev 1) 2, .process (Ex.ev 2) 3]).any
      (fun s => s.world == [100, 2, 21, 3, 50]) = true :=
  ⟨fun _ _ => Or.inr rfl, by decide +kernel, by decide +kernel⟩

end
end Hsm
