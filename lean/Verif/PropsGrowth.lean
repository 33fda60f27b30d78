import Verif.PropsExact
import Verif.Enabled
import Verif.PropsStatic

/-!
# What repeated calls of `set_dependency` cost

`set_dependency` (sm.h:170-174) fills the dispatch table once more and removes nothing, so the
table grows with every call, and with it the work for an event.
-/

namespace Hsm

section
variable {P W : Type} {M : Machine} {sem : Sem P W} {d : Dep} {ops : List (Op P)} {s s' : SM P W}
  {r : Nat} {ev : EventTy} {pl : P}

/-- How often `set_dependency` was called. -/
def setDeps : List (Op P) → Nat
  | [] => 0
  | .setDependency _ :: ops => setDeps ops + 1
  | _ :: ops => setDeps ops

/-- How many guards were called. -/
def guardCalls (tr : List (Call P)) : Nat := (tr.filter Call.isGuard).length

theorem depsOf_length (d : Dep) (ops : List (Op P)) : (depsOf d ops).length = setDeps ops + 1 := by
  unfold depsOf
  rw [List.length_append, List.length_reverse]
  congr 1
  induction ops with
  | nil => rfl
  | cons op ops ih => cases op <;> simp [setDeps, ih]

theorem guardCalls_append (a b : List (Call P)) : guardCalls (a ++ b) = guardCalls a + guardCalls b := by
  simp [guardCalls]

theorem guardCalls_all {tr : List (Call P)} (h : ∀ c ∈ tr, c.isGuard = true) :
    guardCalls tr = tr.length := by
  unfold guardCalls
  rw [List.filter_eq_self.2 h]

theorem guardCalls_actions {tr : List (Call P)} (h : ∀ c ∈ tr, c.isAction = true) :
    guardCalls tr = 0 := by
  unfold guardCalls
  rw [List.length_eq_zero_iff, List.filter_eq_nil_iff]
  intro c hc
  have := h c hc
  cases c <;> simp_all [Call.isGuard, Call.isAction]

theorem FalseRun.length {cur : List (Option Nat)} {es : List Entry} {p p' : P} {w w' : W}
    {tr : List (Call P)} (h : FalseRun sem cur ev es p w tr p' w') : tr.length = es.length := by
  induction h with
  | nil => rfl
  | cons _ _ _ _ _ ih => simp [ih]

theorem TrueGuard.length {cur : List (Option Nat)} {x : Exec} {p p' : P} {w w' : W}
    {tr : List (Call P)} (h : TrueGuard sem cur ev x p w tr p' w') : tr.length ≤ 1 := by
  cases h <;> simp

theorem Selected.pre_length {deps : List Dep} {p : Name} {st : StTy} {c : Cand} {t : XRow} {dd : Dep}
    {l : Name × StTy} {x : Exec} {pre : List Entry}
    (hs : Selected M deps ev p st c t dd l x pre) :
    pre.length + 1 ≤ (M.entries deps ev p st).length := by
  obtain ⟨e, post, h, _⟩ := hs.entries
  rw [h]
  simp only [List.length_append, List.length_cons]
  omega

theorem Effect.calls {t : XRow} (h : Effect M r t s s') : s'.trace = s.trace := by
  unfold Effect at h
  split at h
  · rw [h]
  · exact h.trace

/-- C68: in the dispatch table every location has, for every event, its candidates once for each
dependency the machine was given.  Only `set_dependency` adds to it and nothing is ever removed. -/
theorem C68_size (hM : M.Regular) (h : RunTo M sem d ops s) (e : EventTy) {p : Name} {st : StTy}
    (hp : p ∈ M.composites) (hst : st ∈ M.states) :
    (s.table e (M.comb p st)).length = (setDeps ops + 1) * (M.cands e p st).length := by
  rw [(h.tables hM).1 e p st hp hst, Machine.entries_length hM, depsOf_length]

/-- C68: handling one event in one region calls no more guards than candidates, times one more
than the number of calls of `set_dependency`. -/
theorem C68_bound (hM : M.Regular) (hm : Moment M sem d ops s) {p : Name} {st : StTy}
    (ha : At M s r p st)
    (h : (∃ o pl', Handles M sem r ev pl s o pl' s') ∨ ∃ x, HandlesThrow M sem r ev pl s x s') :
    ∃ tr, s'.trace = s.trace ++ tr ∧
      guardCalls tr ≤ (setDeps ops + 1) * (M.cands ev p st).length := by
  rw [← depsOf_length d, ← Machine.entries_length hM]
  rcases h with ⟨o, pl', h⟩ | ⟨x, h⟩
  · cases h.run hM hm with
    | none => exact ⟨[], by simp, by simp [guardCalls]⟩
    | deferred => exact ⟨[], by simp, by simp [guardCalls]⟩
    | rejected ha' _ hf =>
      obtain ⟨rfl, rfl⟩ := ha.unique hM ha'
      exact ⟨_, rfl, by rw [guardCalls_all hf.guards, hf.length]; exact Nat.le_refl _⟩
    | fired ha' hs hf hg he hr =>
      obtain ⟨rfl, rfl⟩ := ha.unique hM ha'
      refine ⟨_, by show _ ++ _ = _; rw [he.calls]; exact List.append_assoc _ _ _, ?_⟩
      rw [guardCalls_append, guardCalls_append, guardCalls_all hf.guards, guardCalls_all hg.guards,
        guardCalls_actions hr.actions, hf.length]
      have := hs.pre_length
      have := hg.length
      omega
  · obtain ⟨k, _, h⟩ := h.run hM hm
    cases h with
    | guard ha' hs hf hg hc =>
      obtain ⟨rfl, rfl⟩ := ha.unique hM ha'
      refine ⟨_, rfl, ?_⟩
      rw [guardCalls_append, guardCalls_all hf.guards, hf.length]
      have := hs.pre_length
      exact this
    | action ha' hs hf hg he hr =>
      obtain ⟨rfl, rfl⟩ := ha.unique hM ha'
      refine ⟨_, by show _ ++ _ = _; rw [he.calls]; exact List.append_assoc _ _ _, ?_⟩
      rw [guardCalls_append, guardCalls_append, guardCalls_all hf.guards, guardCalls_all hg.guards,
        guardCalls_actions hr.actions, hf.length]
      have := hs.pre_length
      have := hg.length
      omega

/-- C68: the bound is met whenever an event is rejected: then every guard at the location is called
once for each dependency the machine was given. -/
theorem C68_exact (hM : M.Regular) (hm : Moment M sem d ops s) {p : Name} {st : StTy}
    (ha : At M s r p st) {pl' : P} (h : Handles M sem r ev pl s .rejected pl' s') :
    ∃ tr, s'.trace = s.trace ++ tr ∧ (∀ c ∈ tr, c.isGuard = true) ∧
      tr.length = (setDeps ops + 1) * (M.cands ev p st).length := by
  rw [← depsOf_length d, ← Machine.entries_length hM]
  cases h.run hM hm with
  | rejected ha' _ hf =>
    obtain ⟨rfl, rfl⟩ := ha.unique hM ha'
    exact ⟨_, rfl, hf.guards, hf.length⟩

/-! ## The claim that fails -/

/-- The full claim C68: the work for an event does not depend on how often `set_dependency` was
called; there is a number of guard calls that one event never exceeds. -/
def C68_claim : Prop :=
  ∀ (M : Machine) (sem : Sem Nat (List Nat)), M.Regular → M.Scoped → ∃ bound : Nat,
    ∀ (d : Dep) (ops : List (Op Nat)) (s s' : SM Nat (List Nat)) (ev : EventTy) (pl fuel : Nat)
      (b : Bool) (tr : List (Call Nat)),
      RunTo M sem d ops s → ev ∈ M.events → processEvent M sem fuel ev pl s = .ok b s' →
      s'.trace = s.trace ++ tr → guardCalls tr ≤ bound

/-- Guards that always refuse are all called. -/
theorem FalseRun.of_refusing {cur : List (Option Nat)} :
    ∀ {es : List Entry}, (∀ e ∈ es, e.defer = false ∧ ∃ x g, e.tr = some x ∧ x.guard = some g) →
    (∀ g a p w, ∃ p' w', sem.guard g a p w = .ok false p' w') → ∀ (p : P) (w : W),
    ∃ tr p' w', FalseRun sem cur ev es p w tr p' w'
  | [], _, _, p, w => ⟨_, _, _, .nil p w⟩
  | e :: es, h, hs, p, w => by
    obtain ⟨hd, x, g, hx, hg⟩ := h e (by simp)
    obtain ⟨p1, w1, hc⟩ := hs g (guardArgs x ev) p w
    obtain ⟨tr, p2, w2, hr⟩ := FalseRun.of_refusing (cur := cur)
      (es := es) (fun e he => h e (by simp [he])) hs p1 w1
    exact ⟨_, _, _, .cons hd hx hg hc hr⟩

/-- Any number of calls of `set_dependency` can follow. -/
theorem RunTo.more_deps (hM : M.Regular) (hS : M.Scoped) (h : RunTo M sem d ops s) (n : Nat) :
    ∃ ops' s', RunTo M sem d (ops ++ ops') s' ∧ setDeps (ops ++ ops') = setDeps ops + n ∧
      s'.cur = s.cur ∧ s'.regions = s.regions := by
  induction n with
  | zero => exact ⟨[], s, by simpa using h, by simp, rfl, rfl⟩
  | succ n ih =>
    obtain ⟨ops', s', h', hn, hc, hr⟩ := ih
    obtain ⟨T, hT⟩ := (Machine.C06_fill hM d s'.table).1
      ((Machine.scopesReal_iff hM).2 ⟨hS.src, hS.comp⟩)
    refine ⟨ops' ++ [.setDependency d], { s' with table := T }, ?_, ?_, hc, hr⟩
    · rw [← List.append_assoc]
      refine RunTo.ok (fuel := 0) (b := true) h' trivial ?_
      show (setDependency M d s').bind _ = _
      unfold setDependency
      rw [hT]
      rfl
    · have : ∀ l : List (Op P), setDeps (l ++ [.setDependency d]) = setDeps l + 1 := by
        intro l
        have h1 := depsOf_length d (l ++ [.setDependency d])
        rw [depsOf_dep, List.length_cons, depsOf_length] at h1
        omega
      rw [← List.append_assoc, this, hn]
      omega

end

/-- C68 fails: with a guard that says no, `n` calls of `set_dependency` make one event call it
`n + 1` times as often. -/
theorem C68_refuted : ¬ C68_claim := by
  intro hall
  obtain ⟨N, hN⟩ := hall Ex.demo (Ex.sem fun _ => false) Ex.demo_regular Ex.demo_scoped
  have h0 : ∃ s, RunTo Ex.demo (Ex.sem fun _ => false) 7 [.process (Ex.ev 0) 1] s ∧
      (s.cur == [some (Ex.demo.comb Ex.Comp (.st Ex.CA))]) = true :=
    Ex.exists_run _ _ (fuel := 5) (w := []) (by decide +kernel)
  obtain ⟨s, h, hcur⟩ := h0
  have hcur := eq_of_beq hcur
  obtain ⟨ops', s', h', hn, hc, _⟩ := h.more_deps Ex.demo_regular Ex.demo_scoped N
  have ha : At Ex.demo s' 0 Ex.Comp (.st Ex.CA) :=
    ⟨by decide +kernel, by decide +kernel, by rw [hc, hcur]; rfl⟩
  have hcd : Ex.demo.cands (Ex.ev 2) Ex.Comp (.st Ex.CA) =
      List.replicate 3 (.row ⟨Ex.Comp, Ex.ini Ex.CA, Ex.ev 2, some 101, some 6, .st Ex.CB, false⟩) := by
    decide +kernel
  have hes : ∀ e ∈ Ex.demo.entries (depsOf 7 ([.process (Ex.ev 0) 1] ++ ops')) (Ex.ev 2) Ex.Comp
      (.st Ex.CA), e.defer = false ∧ ∃ x g, e.tr = some x ∧ x.guard = some g := by
    intro e he
    unfold Machine.entries at he
    rw [hcd] at he
    obtain ⟨dd, _, he⟩ := List.mem_flatMap.1 he
    obtain ⟨c, hc, hen⟩ := List.mem_filterMap.1 he
    obtain rfl := (List.mem_replicate.1 hc).2
    rcases Machine.entryOfCand_cases hen with ⟨h, _⟩ | ⟨t, l, x, h1, h2, h3, h4, h5, h6, h7, _, _, h8, _⟩
    · cases h
    · refine ⟨h5, x, 101, h7, ?_⟩
      rw [h8]
      rcases h1 with h1 | ⟨q, h1⟩
      · cases h1; rfl
      · cases h1
  obtain ⟨tr, p', w', hf⟩ := FalseRun.of_refusing (sem := Ex.sem fun _ => false) (cur := s'.cur) hes
    (fun g a p w => ⟨_, _, rfl⟩) 4 s'.world
  have hrun : EventRun Ex.demo (Ex.sem fun _ => false)
      (depsOf 7 ([.process (Ex.ev 0) 1] ++ ops')) 7 (Ex.ev 2) 4 s' false (s'.ran w' tr) := by
    refine .unhandled (os := [.rejected]) (pl' := p') (.quiet ?_ ?_) ?_ ⟨.rejected, by simp, by simp⟩
    · have : activeRegions Ex.demo s' = 1 := by
        unfold activeRegions
        rw [show Ex.demo.orthogonal = false by decide +kernel]
        rfl
      rw [this]
      exact .cons (.rejected ha (by rw [hcd]; simp) hf) (by simp) (.nil _ _)
    · simp [Reacted]
    · simp [Reacted]
  obtain ⟨k, hk⟩ := (C49_returns Ex.demo_regular (fun st w => Or.inr rfl) h'
    (by decide +kernel : Ex.ev 2 ∈ Ex.demo.events) 4 false (s'.ran w' tr)).1 hrun
  have := hN 7 _ s' _ (Ex.ev 2) 4 k false tr h' (by decide +kernel) (hk k (Nat.le_refl _)) rfl
  rw [guardCalls_all hf.guards, hf.length, Machine.entries_length Ex.demo_regular, depsOf_length, hn,
    hcd] at this
  simp [setDeps] at this
  omega

/-- A case of `C68_exact`: three candidates, two calls of `set_dependency`, nine guard calls. -/
example : (Ex.run Ex.demo (Ex.sem fun _ => false) 5 7 []
    [.process (Ex.ev 0) 1, .setDependency 8, .setDependency 9, .process (Ex.ev 2) 4]).any
      (fun s => decide (guardCalls s.trace = 1 + 9)) = true := by
  decide +kernel

end Hsm
