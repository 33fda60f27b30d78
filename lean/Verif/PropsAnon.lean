import Verif.PropsQueue
import Verif.PropsApi
import Verif.LiftLemmas

/-!
# Anonymous transitions

C22, C23, C24.
-/

namespace Hsm

section
variable {P W : Type} {M : Machine} {sem : Sem P W} {deps : List Dep}

/-! ## C22: run to completion, one region -/

/-- No anonymous row at `(p, st)` is enabled: there is none, or, after what is in `t0`, the
guards of all of them were called in order, each returned false, and after that only guards
were called. -/
def Quiescent (M : Machine) (sem : Sem P W) (deps : List Dep) (t0 : List (Call P)) (s : SM P W)
    (p : Name) (st : StTy) : Prop :=
  M.cands .none p st = [] ∨ ∃ t1 t2 t3 pl pl' w w', s.trace = t0 ++ t1 ++ t2 ++ t3 ∧
    FalseRun sem s.cur .none (M.entries deps .none p st) pl w t2 pl' w' ∧
    ∀ c ∈ t3, c.isGuard = true

theorem activeRegions_one (hp : M.orthogonal = false) (s : SM P W) : activeRegions M s = 1 := by
  unfold activeRegions; rw [hp]; rfl

theorem AnonRound.end {rs : List Nat} {pl pl' : P} {s s' : SM P W} {os : List RegionOut}
    {b : Option Bool} (h : AnonRound M sem deps rs pl s os b pl' s') :
    (b = some false →
      LoopRun M sem deps .none rs pl s os pl' s' ∧ ∀ o ∈ os, o = RegionOut.rejected) ∧
    (b = none → ∃ r ∈ rs, ∃ p st, At M s' r p st ∧ M.cands .none p st = []) := by
  induction h with
  | nil => exact ⟨fun _ => ⟨.nil _ _, by simp⟩, fun h => by cases h⟩
  | @stop r rs pl s h =>
    refine ⟨fun h => (by cases h), fun _ => ?_⟩
    cases h with
    | none ha hc => exact ⟨r, by simp, _, _, ha, hc⟩
  | @cons r rs pl p1 p2 s s1 s2 o os b h1 ho h2 ih =>
    cases b with
    | none =>
      refine ⟨fun h => (by simp at h), fun _ => ?_⟩
      obtain ⟨r', hr', p, st, ha, hc⟩ := ih.2 rfl
      exact ⟨r', by simp [hr'], p, st, ha, hc⟩
    | some x =>
      refine ⟨fun h => ?_, fun h => (by simp at h)⟩
      simp only [Option.map_some, Option.some.injEq, Bool.or_eq_false_iff, decide_eq_false_iff_not] at h
      obtain ⟨hl, hr⟩ := ih.1 (by rw [h.2])
      rcases ho with rfl | rfl
      · exact ⟨.cons h1 (by simp) hl, by simpa using hr⟩
      · exact absurd rfl h.1

theorem AnonRun.quiescent (hp : M.orthogonal = false) {pl : P} {s s' : SM P W}
    (h : AnonRun M sem deps pl s s') :
    ∃ p st, At M s' 0 p st ∧ Quiescent M sem deps s.trace s' p st := by
  induction h with
  | @done pl p' s s' os b h hb =>
    rw [activeRegions_one hp] at h
    cases b with
    | none =>
      obtain ⟨r, hr, p, st, ha, hc⟩ := h.end.2 rfl
      have hr : r = 0 := by simpa using hr
      subst hr
      exact ⟨p, st, ha, Or.inl hc⟩
    | some x =>
      cases x with
      | true => exact absurd rfl hb
      | false =>
        obtain ⟨hl, hrej⟩ := h.end.1 rfl
        have hl : LoopRun M sem deps .none [0] pl s os p' s' := hl
        cases hl with
        | stop h1 =>
          have := hrej .deferred (by simp)
          cases this
        | cons h1 ho h2 =>
          cases h2
          have := hrej _ (List.mem_cons_self ..)
          subst this
          cases h1 with
          | @rejected p st pl' tr w ha hne hf =>
            exact ⟨p, st, ha, Or.inr ⟨[], tr, [], _, _, _, _, by simp [SM.ran], hf, by simp⟩⟩
  | @again pl p' s s1 s' os h hr ih =>
    obtain ⟨p, st, ha, hq⟩ := ih
    refine ⟨p, st, ha, ?_⟩
    rcases hq with hq | ⟨t1, t2, t3, q, q', w, w', ht, hf, hg⟩
    · exact Or.inl hq
    · obtain ⟨tr, htr, _⟩ := (Lift.frame.anonRound h).trace
      exact Or.inr ⟨tr ++ t1, t2, t3, q, q', w, w', by rw [ht, htr]; simp, hf, hg⟩

/-- Machines without anonymous rows have no anonymous candidates. -/
theorem no_anon_cands (hM : M.Regular) (h1 : M.anonymous = false)
    (h2 : ∀ t ∈ M.intRows, t.event ≠ .none) (p : Name) (st : StTy) : M.cands .none p st = [] := by
  rw [Machine.intRows_eq] at h2
  have hflat : ∀ t ∈ M.flat, t.event ≠ .none := by
    intro t ht he
    have : M.anonymous = true := Machine.anonymous_iff.2 ⟨t, ht, he⟩
    rw [h1] at this; cases this
  have hev : EventTy.none ∉ M.events := by
    rw [Machine.events_eq]
    unfold Machine.eventIds
    rw [mem_uniq]
    intro h
    obtain ⟨t, ht, he⟩ := List.mem_map.1 h
    rcases List.mem_append.1 ht with h | h
    · exact hflat t h he
    · exact h2 t h he
  apply List.eq_nil_iff_forall_not_mem.2
  intro c hc
  rcases Machine.mem_cands.1 hc with ⟨rfl, t, ht, _, hd⟩ | ⟨t, ht, he, _⟩ | ⟨t, ht, he, _⟩ | ⟨t, ht, he, _⟩
  · have hacc := hM.accepts
    unfold Machine.accepts at hacc
    simp only [Bool.and_eq_true, List.all_eq_true, decide_eq_true_eq] at hacc
    rw [Machine.events_eq] at hev
    refine hev (hacc.2 t ?_ _ hd)
    unfold Machine.deferringRows
    rw [List.mem_filter]
    refine ⟨ht, ?_⟩
    cases h : M.deferOf (Machine.stripInitial t.source) with
    | none => rw [h] at hd; simp at hd
    | some l => rfl
  · exact hflat t ht he
  · exact hflat t ht he
  · exact h2 t ht he

theorem Turn.quiescent (hM : M.Regular) (hp : M.orthogonal = false)
    (hA : M.anonymous = true ∨ ∀ t ∈ M.intRows, t.event ≠ .none)
    {ev : EventTy} {pl pl' : P} {s s1 s' : SM P W} {os : List RegionOut}
    (h : Turn M sem deps ev pl s os pl' s1 s') (hr : Reacted os) {p : Name} {st : StTy}
    (ha : At M s' 0 p st) : Quiescent M sem deps s.trace s' p st := by
  cases h with
  | quiet _ hn => exact absurd hr hn
  | react h _ hs =>
    unfold Settles at hs
    split at hs
    · obtain ⟨q, tt, hq, hqs⟩ := hs.quiescent hp
      obtain ⟨rfl, rfl⟩ := ha.unique hM hq
      rcases hqs with hq | ⟨t1, t2, t3, q, q', w, w', ht, hf, hg⟩
      · exact Or.inl hq
      · obtain ⟨tr, htr, _⟩ := (Lift.frame.loop_defer (fun _ _ _ => Frame.queue _) h).trace
        exact Or.inr ⟨tr ++ t1, t2, t3, q, q', w, w', by rw [ht, htr]; simp, hf, hg⟩
    · rename_i hn
      rcases hA with h | h
      · exact absurd h hn
      · exact Or.inl (no_anon_cands hM (by simpa using hn) h p st)

/-- A turn of one region in which no row fires only calls guards. -/
theorem Turn.quiet_one (hp : M.orthogonal = false) {ev : EventTy} {pl pl' : P} {s s1 s' : SM P W}
    {os : List RegionOut} (h : Turn M sem deps ev pl s os pl' s1 s') (hr : ¬ Reacted os) :
    s'.cur = s.cur ∧ ∃ tr, s'.trace = s.trace ++ tr ∧ ∀ c ∈ tr, c.isGuard = true := by
  cases h with
  | react _ hy => exact absurd hy hr
  | quiet h _ =>
    rw [activeRegions_one hp] at h
    have h : LoopRun M sem deps ev [0] pl s os pl' s1 := h
    cases h with
    | stop h1 =>
      cases h1 with
      | deferred => exact ⟨rfl, [], by simp, by simp⟩
    | cons h1 ho h2 =>
      cases h2
      cases h1 with
      | none => exact ⟨rfl, [], by simp, by simp⟩
      | rejected ha hne hf => exact ⟨rfl, _, rfl, hf.guards⟩
      | deferred => exact absurd rfl ho
      | fired => exact absurd (by simp [Reacted]) hr

/-- C22, for machines in which some external row is anonymous or no internal one is (what is
missing: machines whose only anonymous rows are internal, see `C22_refuted`): whenever
`process_event` returns true, no anonymous row at the final location is enabled. -/
theorem C22_partial (hM : M.Regular) (hp : M.orthogonal = false)
    (hA : M.anonymous = true ∨ ∀ t ∈ M.intRows, t.event ≠ .none)
    {d : Dep} {ops : List (Op P)} {s s' : SM P W} (h : RunTo M sem d ops s) {fuel : Nat}
    {ev : EventTy} {pl : P} (hev : ev ∈ M.events)
    (hx : processEvent M sem fuel ev pl s = .ok true s') {p : Name} {st : StTy}
    (ha : At M s' 0 p st) : Quiescent M sem (depsOf d ops) s.trace s' p st := by
  have hrun := processEvent_ok hM hev (h.ready hM) hx
  generalize hb : true = b at hrun
  cases hrun with
  | ignored => cases hb
  | unexpected => cases hb
  | unhandled => cases hb
  | handled ht hr hq => exact ht.quiescent hM hp hA hr ha
  | @replayed os os' pl' rp rp' s1 s2 s3 _ re q ht hr hd hq ht' =>
    by_cases hr' : Reacted os'
    · rcases ht'.quiescent hM hp hA hr' ha with hq | ⟨t1, t2, t3, q, q', w, w', ht2, hf, hg⟩
      · exact Or.inl hq
      · obtain ⟨tr, htr, _⟩ := ht.frame.trace
        have ht2 : s'.trace = s2.trace ++ t1 ++ t2 ++ t3 := ht2
        exact Or.inr ⟨tr ++ t1, t2, t3, _, _, _, _, by rw [ht2, htr]; simp, hf, hg⟩
    · obtain ⟨hcur, tr, htr, hg⟩ := ht'.quiet_one hp hr'
      have ha2 : At M s2 0 p st := ⟨ha.1, ha.2.1, by
        have := ha.2.2
        rw [hcur] at this; exact this⟩
      rcases ht.quiescent hM hp hA hr ha2 with hq | ⟨t1, t2, t3, q, q', w, w', ht2, hf, hg2⟩
      · exact Or.inl hq
      · have hcur : s'.cur = s2.cur := hcur
        have htr : s'.trace = s2.trace ++ tr := htr
        refine Or.inr ⟨t1, t2, t3 ++ tr, _, _, _, _, by rw [htr, ht2]; simp, by rw [hcur]; exact hf, ?_⟩
        intro c hc
        rcases List.mem_append.1 hc with h | h
        · exact hg2 c h
        · exact hg c h

/-! ## C23: run to completion, several regions -/

theorem replicate_of_all {os : List RegionOut} {o : RegionOut} (h : ∀ x ∈ os, x = o) :
    os = List.replicate os.length o := List.eq_replicate_iff.2 ⟨rfl, h⟩

theorem AnonRun.end {pl : P} {s s' : SM P W} (h : AnonRun M sem deps pl s s') :
    (∃ s0 pl0 pl', s0.cur = s'.cur ∧ s.trace <+: s0.trace ∧
      LoopRun M sem deps .none (List.range (activeRegions M s')) pl0 s0
        (List.replicate (activeRegions M s') .rejected) pl' s') ∨
    ∃ r p st, At M s' r p st ∧ M.cands .none p st = [] := by
  induction h with
  | @done pl p' s s' os b h hb =>
    cases b with
    | none =>
      obtain ⟨r, _, p, st, ha, hc⟩ := h.end.2 rfl
      exact Or.inr ⟨r, p, st, ha, hc⟩
    | some x =>
      cases x with
      | true => exact absurd rfl hb
      | false =>
        obtain ⟨hl, hrej⟩ := h.end.1 rfl
        left
        obtain ⟨w, tr, hs, _⟩ := hl.quiet fun o ho => Or.inr (hrej o ho)
        have hreg : activeRegions M s' = activeRegions M s := by rw [hs]; rfl
        have hlen : os.length = activeRegions M s := by
          rcases hl.last with ⟨_, h, _⟩ | ⟨os', rfl, _⟩
          · simpa using h
          · have := hrej .deferred (by simp)
            cases this
        refine ⟨s, pl, p', by rw [hs]; rfl, List.prefix_refl _, ?_⟩
        rw [hreg]
        rw [replicate_of_all hrej, hlen] at hl
        exact hl
  | @again pl p' s s1 s' os h hr ih =>
    rcases ih with ⟨s0, pl0, pl', h1, h2, h3⟩ | h
    · obtain ⟨tr, htr, _⟩ := (Lift.frame.anonRound h).trace
      exact Or.inl ⟨s0, pl0, pl', h1, List.IsPrefix.trans ⟨tr, htr.symm⟩ h2, h3⟩
    · exact Or.inr h

/-- A pass over the regions in which nothing fires calls guards only and moves nothing. -/
theorem LoopRun.unfired {ev : EventTy} {rs : List Nat} {pl pl' : P} {s s' : SM P W}
    {os : List RegionOut} (h : LoopRun M sem deps ev rs pl s os pl' s')
    (ho : RegionOut.fired ∉ os) :
    s'.cur = s.cur ∧ s'.regions = s.regions ∧
      ∃ tr, s'.trace = s.trace ++ tr ∧ ∀ c ∈ tr, c.isGuard = true := by
  induction h with
  | nil => exact ⟨rfl, rfl, [], by simp, by simp⟩
  | @cons r rs pl p1 p2 s s1 s2 o os h1 hd h2 ih =>
    have h3 : o = .none ∨ o = .rejected := by
      cases o with
      | none => exact Or.inl rfl
      | rejected => exact Or.inr rfl
      | deferred => exact absurd rfl hd
      | fired => exact absurd (List.mem_cons_self ..) ho
    obtain ⟨w1, t1, rfl, hg1⟩ := h1.quiet h3
    obtain ⟨e1, e2, t2, e3, hg2⟩ := ih (fun h => ho (List.mem_cons_of_mem _ h))
    refine ⟨e1, e2, t1 ++ t2, by rw [e3]; exact List.append_assoc .., ?_⟩
    intro c hc
    rcases List.mem_append.1 hc with hc | hc
    · exact hg1 c hc
    · exact hg2 c hc
  | stop h1 =>
    cases h1 with
    | deferred => exact ⟨rfl, rfl, [], by simp, by simp⟩

/-- Run to completion, ending in `s'`: the last thing that happened, except for guards of a
replayed event that was not accepted, is one pass over all active regions in which all guards
of all anonymous rows returned false; no region has moved since. -/
def Completed (M : Machine) (sem : Sem P W) (deps : List Dep) (s s' : SM P W) : Prop :=
  ∃ s0 s1 pl0 pl' tr, s0.cur = s'.cur ∧ s1.cur = s'.cur ∧ s.trace <+: s0.trace ∧
    LoopRun M sem deps .none (List.range (activeRegions M s')) pl0 s0
      (List.replicate (activeRegions M s') .rejected) pl' s1 ∧
    s'.trace = s1.trace ++ tr ∧ (∀ c ∈ tr, c.isGuard = true) ∧
    (M.deferring = false → s' = s1)

theorem Turn.completed (hA : M.anonymous = true) {ev : EventTy} {pl pl' : P} {s s1 s' : SM P W}
    {os : List RegionOut} (h : Turn M sem deps ev pl s os pl' s1 s') (hr : Reacted os)
    (hall : ∀ r p st, At M s' r p st → M.cands .none p st ≠ []) :
    ∃ s0 pl0 pl', s0.cur = s'.cur ∧ s.trace <+: s0.trace ∧
      LoopRun M sem deps .none (List.range (activeRegions M s')) pl0 s0
        (List.replicate (activeRegions M s') .rejected) pl' s' := by
  cases h with
  | quiet _ hn => exact absurd hr hn
  | react hl _ hs =>
    unfold Settles at hs
    rw [if_pos hA] at hs
    rcases hs.end with ⟨s0, pl0, pl', h1, h2, h3⟩ | ⟨r, p, st, ha, hc⟩
    · obtain ⟨tr, htr, _⟩ := (Lift.frame.loop_defer (fun _ _ _ => Frame.queue _) hl).trace
      exact ⟨s0, pl0, pl', h1, List.IsPrefix.trans ⟨tr, htr.symm⟩ h2, h3⟩
    · exact absurd hc (hall r p st ha)

/-- C23, restricted to final configurations in which every region is at a location with
anonymous rows (otherwise the claim is false, see `C23_refuted`): when `process_event` returns
true, the machine has run to completion, or a deferred event was replayed, some region accepted
it and a later one deferred it again (in which case the code does not look at anonymous rows). -/
theorem C23_partial (hM : M.Regular) (hA : M.anonymous = true)
    {d : Dep} {ops : List (Op P)} {s s' : SM P W} (h : RunTo M sem d ops s) {fuel : Nat}
    {ev : EventTy} {pl : P} (hev : ev ∈ M.events)
    (hx : processEvent M sem fuel ev pl s = .ok true s')
    (hall : ∀ r p st, At M s' r p st → M.cands .none p st ≠ []) :
    Completed M sem (depsOf d ops) s s' ∨
    (M.deferring = true ∧ M.orthogonal = true ∧ ∃ os pl' s1 s2 re rp q os' rp' s3,
      Turn M sem (depsOf d ops) ev pl s os pl' s1 s2 ∧ Reacted os ∧ s2.queue = (re, rp) :: q ∧
      Turn M sem (depsOf d ops) re rp { s2 with queue := q } os' rp' s3 s' ∧
      RegionOut.fired ∈ os' ∧ RegionOut.deferred ∈ os') := by
  have hrun := processEvent_ok hM hev (h.ready hM) hx
  generalize hb : true = b at hrun
  cases hrun with
  | ignored => cases hb
  | unexpected => cases hb
  | unhandled => cases hb
  | handled ht hr hq =>
    obtain ⟨s0, pl0, pl', h1, h2, h3⟩ := ht.completed hA hr hall
    exact Or.inl ⟨s0, s', pl0, pl', [], h1, rfl, h2, h3, by simp, by simp, fun _ => rfl⟩
  | @replayed os os' pl' rp rp' s1 s2 s3 _ re q ht hr hd hq ht' =>
    obtain ⟨tr, htr, _⟩ := ht.frame.trace
    by_cases hr' : Reacted os'
    · obtain ⟨s0, pl0, pl', h1, h2, h3⟩ := ht'.completed hA hr' hall
      exact Or.inl ⟨s0, s', pl0, pl', [], h1, rfl,
        List.IsPrefix.trans (l₂ := s2.trace) ⟨tr, htr.symm⟩ h2, h3, by simp, by simp, fun _ => rfl⟩
    · by_cases hf : RegionOut.fired ∈ os'
      · have hdef : RegionOut.deferred ∈ os' := by
          by_cases hdef : RegionOut.deferred ∈ os'
          · exact hdef
          · exact absurd ⟨hdef, hf⟩ hr'
        refine Or.inr ⟨hd, ?_, os, pl', s1, s2, re, rp, q, os', rp', s3, ht, hr, hq, ht', hf, hdef⟩
        cases ho : M.orthogonal with
        | true => rfl
        | false =>
          exfalso
          have hone : os'.length ≤ 1 := by
            rcases ht'.loop.last with ⟨_, h2, _⟩ | ⟨_, _, _, h2, _⟩
            · rw [activeRegions_one ho] at h2; simp at h2; omega
            · rw [activeRegions_one ho] at h2; simpa using h2
          match os', hf, hdef, hone with
          | [o], hf, hdef, _ =>
            rw [List.mem_singleton] at hf hdef
            rw [← hf] at hdef; cases hdef
      · have hloop := ht'.loop
        have hsame : s3 = s' := by
          cases ht' with
          | quiet => rfl
          | react _ hy => exact absurd hy hr'
        subst hsame
        obtain ⟨e1, e2, tr', e3, hg⟩ := hloop.unfired hf
        have e1 : s3.cur = s2.cur := e1
        have e2 : s3.regions = s2.regions := e2
        have e3 : s3.trace = s2.trace ++ tr' := e3
        have hact : activeRegions M s3 = activeRegions M s2 := by unfold activeRegions; rw [e2]
        have hall2 : ∀ r p st, At M s2 r p st → M.cands .none p st ≠ [] := fun r p st ha =>
          hall r p st ⟨ha.1, ha.2.1, by rw [e1]; exact ha.2.2⟩
        obtain ⟨s0, pl0, pl', h1, h2, h3⟩ := ht.completed hA hr hall2
        exact Or.inl ⟨s0, s2, pl0, pl', tr', by rw [h1, e1], e1.symm, h2, by rw [hact]; exact h3,
          e3, hg, fun hx => by rw [hd] at hx; cases hx⟩

/-! ## C24: termination -/

/-- The outcome is not running out of fuel. -/
def Res.Halts {σ α : Type} (r : Res σ α) : Prop := r ≠ .timeout

theorem Res.Halts.bind {σ α β : Type} {r : Res σ α} {f : α → σ → Res σ β} (h : r.Halts)
    (hf : ∀ a s, r = .ok a s → (f a s).Halts) : (r.bind f).Halts := by
  cases r with
  | ok a s => exact hf a s rfl
  | throw x s => intro hu; cases hu
  | ub u => intro hu; cases hu
  | timeout => exact absurd rfl h

theorem readCur_halts (r : Nat) (s : SM P W) : (readCur r s).Halts := by
  unfold readCur; intro h; split at h <;> cases h

theorem currentParent_halts (s : SM P W) : (currentParent M s).Halts :=
  (readCur_halts 0 s).bind fun _ _ _ h => by cases h

theorem updateRegions_halts (s : SM P W) : (updateRegions M s).Halts := by
  unfold updateRegions
  split
  · refine (currentParent_halts s).bind fun _ _ _ h => ?_
    split at h <;> cases h
  · intro h; cases h

theorem writeCur_halts (r c : Nat) (s : SM P W) : (writeCur r c s).Halts := by
  unfold writeCur; intro h; split at h <;> cases h

theorem updateState_halts (r : Nat) (e : Entry) (s : SM P W) : (updateState M r e s).Halts := by
  unfold updateState
  split
  · intro h; cases h
  · refine Res.Halts.bind ?_ (fun _ _ _ h => by cases h)
    unfold moveState
    split
    · refine Res.Halts.bind ?_ (fun _ _ _ => Res.Halts.bind ?_ (fun _ s _ => updateRegions_halts s))
      · refine (currentParent_halts s).bind fun _ s _ => (readCur_halts r s).bind fun _ s _ h => ?_
        split at h
        · cases h
        · split at h <;> cases h
      · split
        · refine Res.Halts.bind ?_ (fun _ s _ => writeCur_halts _ _ s)
          unfold readHistory
          intro h
          split at h
          · cases h
          · split at h <;> cases h
        · exact writeCur_halts _ _ _
    · exact (writeCur_halts _ _ _).bind fun _ s _ => updateRegions_halts s

theorem execGuard_halts (x : Exec) (ev : EventTy) (p : P) (s : SM P W) :
    (execGuard M sem x ev p s).Halts := by
  intro h
  cases hg : x.guard with
  | none => rw [execGuard_none hg] at h; cases h
  | some g =>
    rw [execGuard_some hg] at h
    split at h
    · split at h <;> cases h
    · cases h

theorem runCbs_halts (args : Args) : ∀ (cs : List (Phase × Cb)) (p : P) (s : SM P W),
    (runCbs sem args cs p s).Halts := by
  intro cs
  induction cs with
  | nil => intro p s h; cases h
  | cons c cs ih =>
    intro p s
    obtain ⟨ph, a⟩ := c
    unfold runCbs
    split
    · exact ih _ _
    · intro h; cases h
    · intro h; cases h

theorem execAction_halts (x : Exec) (ev : EventTy) (p : P) (s : SM P W) :
    (execAction M sem x ev p s).Halts := by
  unfold execAction
  split
  · intro h; cases h
  · split
    · exact runCbs_halts _ _ _ _
    · intro h; cases h

theorem fire_halts (r : Nat) (ev : EventTy) (e : Entry) (x : Exec) (p : P) (s : SM P W) :
    (fire M sem r ev e x p s).Halts :=
  (updateState_halts r e s).bind fun _ _ _ => execAction_halts _ _ _ _

theorem tryEntries_halts (r : Nat) (ev : EventTy) : ∀ (es : List Entry) (p : P) (s : SM P W),
    (tryEntries M sem r ev es p s).Halts := by
  intro es
  induction es with
  | nil => intro p s h; cases h
  | cons e es ih =>
    intro p s
    unfold tryEntries
    split
    · intro h; cases h
    · split
      · intro h; cases h
      · refine (execGuard_halts _ _ _ _).bind fun _ _ _ => ?_
        split
        · exact (fire_halts _ _ _ _ _ _).bind fun _ _ _ h => by cases h
        · exact ih _ _

theorem tryAnon_halts (r : Nat) : ∀ (es : List Entry) (p : P) (s : SM P W),
    (tryAnon M sem r es p s).Halts := by
  intro es
  induction es with
  | nil => intro p s h; cases h
  | cons e es ih =>
    intro p s
    unfold tryAnon
    split
    · intro h; cases h
    · refine (execGuard_halts _ _ _ _).bind fun _ _ _ => ?_
      split
      · exact (fire_halts _ _ _ _ _ _).bind fun _ _ _ h => by cases h
      · exact ih _ _

theorem lookup_halts (ev : EventTy) (r : Nat) (s : SM P W) : (lookup M ev r s).Halts :=
  (readCur_halts r s).bind fun _ _ _ h => by split at h <;> cases h

theorem regionStep_halts (r : Nat) (ev : EventTy) (p : P) (s : SM P W) :
    (regionStep M sem r ev p s).Halts := by
  refine (lookup_halts ev r s).bind fun es _ _ => ?_
  split
  · intro h; cases h
  · exact tryEntries_halts _ _ _ _ _

theorem regionLoop_halts (ev : EventTy) : ∀ (rs : List Nat) (a b : Bool) (p : P) (s : SM P W),
    (regionLoop M sem ev rs a b p s).Halts := by
  intro rs
  induction rs with
  | nil => intro a b p s h; cases h
  | cons r rs ih =>
    intro a b p s
    refine (regionStep_halts r ev p s).bind fun op _ _ => ?_
    split
    · exact ih _ _ _ _
    · exact ih _ _ _ _
    · exact ih _ _ _ _
    · intro h; cases h

theorem anonRound_halts : ∀ (rs : List Nat) (a : Bool) (p : P) (s : SM P W),
    (anonRound M sem rs a p s).Halts := by
  intro rs
  induction rs with
  | nil => intro a p s h; cases h
  | cons r rs ih =>
    intro a p s
    refine (lookup_halts .none r s).bind fun es _ _ => ?_
    split
    · intro h; cases h
    · exact (tryAnon_halts _ _ _ _).bind fun _ _ _ => ih _ _ _

theorem callHandler_halts (ev : EventTy) (p : P) (s : SM P W) :
    (callHandler M sem ev p s).Halts := by
  unfold callHandler
  split
  · intro h; cases h
  · refine (readCur_halts 0 s).bind fun _ _ _ => ?_
    intro h
    split at h
    · split at h
      · cases h
      · split at h
        · split at h <;> cases h
        · cases h
    · cases h

/-- Where a row may lead: to its destination; history rows to any location of the composite
(in machines with several regions, see C26, to any location at all). -/
def Leads (M : Machine) (t : XRow) (l : Name × StTy) : Prop :=
  match t.target with
  | .ps _ (.history p) => l.1 = p ∨ M.orthogonal = true
  | _ => M.targetLoc t = some l

/-- Anonymous rows are acyclic: `ρ` decreases along every row applicable at a location, and
no internal row is anonymous. -/
def Acyclic (M : Machine) (ρ : Name × StTy → Nat) : Prop :=
  ∀ p ∈ M.composites, ∀ st ∈ M.states, ∀ c ∈ M.cands .none p st, ∀ t, c.row? = some t →
    t.internal = false ∧ ∀ l, Leads M t l → ρ l < ρ (p, st)

/-- The rank of a slot. -/
def slotRank (M : Machine) (ρ : Name × StTy → Nat) (c : Option Nat) : Nat :=
  match c with
  | none => 0
  | some c => match M.combinedIds[c]? with
    | none => 0
    | some l => ρ l

/-- The sum of the ranks of all slots. -/
def weight (M : Machine) (ρ : Name × StTy → Nat) (s : SM P W) : Nat :=
  (s.cur.map (slotRank M ρ)).sum

theorem slotRank_at (hM : M.Regular) (ρ : Name × StTy → Nat) {p : Name} {st : StTy}
    (hp : p ∈ M.composites) (hst : st ∈ M.states) : slotRank M ρ (some (M.comb p st)) = ρ (p, st) := by
  have : M.combinedIds[M.comb p st]? = some (p, st) :=
    indexOf_getElem (mem_product.2 ⟨Machine.composites_eq ▸ hp, Machine.states_eq ▸ hst⟩) hM.nodup_combinedIds hM.combined_small
  simp only [slotRank, this]

theorem slotRank_comb (hM : M.Regular) (ρ : Name × StTy → Nat) (p : Name) (st : StTy) :
    slotRank M ρ (some (M.comb p st)) ≤ ρ (p, st) := by
  by_cases h : M.comb p st < M.size
  · obtain ⟨hp, hst⟩ := hM.comb_lt.1 h
    rw [slotRank_at hM ρ hp hst]
    exact Nat.le_refl _
  · have : M.combinedIds[M.comb p st]? = none :=
      List.getElem?_eq_none (by rw [Machine.length_combinedIds]; omega)
    simp only [slotRank, this]
    exact Nat.zero_le _

theorem sum_set {l : List Nat} {r a b : Nat} (h : l[r]? = some b) (hab : a < b) :
    (l.set r a).sum < l.sum := by
  induction l generalizing r with
  | nil => simp at h
  | cons x l ih =>
    cases r with
    | zero =>
      simp only [List.getElem?_cons_zero, Option.some.injEq] at h
      subst h
      simp only [List.set_cons_zero, List.sum_cons]; omega
    | succ r =>
      have := ih (by simpa using h)
      simp only [List.set_cons_succ, List.sum_cons]; omega

theorem sum_le_mul {l : List Nat} {B : Nat} (h : ∀ x ∈ l, x ≤ B) : l.sum ≤ l.length * B := by
  induction l with
  | nil => simp
  | cons x l ih =>
    have h1 := h x (by simp)
    have h2 := ih (fun y hy => h y (by simp [hy]))
    simp only [List.sum_cons, List.length_cons, Nat.succ_mul]; omega

theorem RegionRun.weight (hM : M.Regular) {ρ : Name × StTy → Nat} (hρ : Acyclic M ρ) {r : Nat}
    (hr : M.orthogonal = false → r = 0) {pl pl' : P} {s s' : SM P W} (hh : HistIn M s)
    (h : RegionRun M sem deps r .none pl s .fired pl' s') : weight M ρ s' < weight M ρ s := by
  cases h with
  | @fired p st c t d l x pre p1 p2 p3 tr1 tr2 tr3 w1 w2 w3 s1 ha hs hf hg he hact =>
    obtain ⟨hi, hl⟩ := hρ p ha.1 st ha.2.1 c hs.mem t hs.row
    unfold Effect at he
    rw [hi] at he
    simp only [Bool.false_eq_true, if_false] at he
    obtain ⟨k, hk, hd1, hd2⟩ := he.dest
    have hlt : slotRank M ρ (some k) < ρ (p, st) := by
      by_cases hist : ∃ o q, t.target = .ps o (.history q)
      · obtain ⟨o, q, ho⟩ := hist
        have hrem := hd1 o q ho
        cases hp : M.orthogonal with
        | true =>
          have hany : ∀ l, ρ l < ρ (p, st) := fun l => hl l (by unfold Leads; rw [ho]; exact Or.inr hp)
          unfold slotRank
          simp only
          split
          · exact Nat.lt_of_le_of_lt (Nat.zero_le _) (hany (p, st))
          · exact hany _
        | false =>
          obtain rfl := hr hp
          have hq : q ∈ M.composites := by
            refine (Machine.history_target hM ?_ ho).1
            rcases Machine.cand_row hs.mem with rfl | ⟨t', ht', _, rfl | rfl⟩
            · cases hs.row
            all_goals
              have := hs.row
              simp only [Cand.row?, Option.some.injEq] at this
              subst this
              rcases List.mem_append.1 ht' with h | h
              · exact h
              · rw [Machine.iflat_internal h] at hi; cases hi
          obtain ⟨tt, htt, rfl⟩ := he.histIn (s := s.ran _ _) hh q hq k hrem
          rw [slotRank_at hM ρ hq htt]
          exact hl _ (by unfold Leads; rw [ho]; exact Or.inl rfl)
      · have hnh : ∀ o q, t.target ≠ .ps o (.history q) := fun o q h => hist ⟨o, q, h⟩
        obtain ⟨l', hl', rfl⟩ := hd2 hnh
        refine Nat.lt_of_le_of_lt (slotRank_comb hM ρ _ _) (hl _ ?_)
        unfold Leads
        split
        · rename_i o q hq; exact absurd hq (hnh o q)
        · exact hl'
    unfold Hsm.weight
    show ((s1.cur.map _).sum) < _
    rw [hk, List.map_set]
    have hcur : (s.cur.map (slotRank M ρ))[r]? = some (ρ (p, st)) := by
      rw [List.getElem?_map, ha.2.2, Option.map_some, slotRank_at hM ρ ha.1 ha.2.1]
    exact sum_set hcur hlt

theorem AnonRound.weight (hM : M.Regular) {ρ : Name × StTy → Nat} (hρ : Acyclic M ρ)
    {rs : List Nat} {pl pl' : P} {s s' : SM P W} {os : List RegionOut} {b : Option Bool}
    (h : AnonRound M sem deps rs pl s os b pl' s') (hr : M.orthogonal = false → ∀ r ∈ rs, r = 0)
    (hh : HistIn M s) :
    Hsm.weight M ρ s' ≤ Hsm.weight M ρ s ∧
      (b = some true → Hsm.weight M ρ s' < Hsm.weight M ρ s) := by
  induction h with
  | nil => exact ⟨Nat.le_refl _, fun h => by cases h⟩
  | stop => exact ⟨Nat.le_refl _, fun h => by cases h⟩
  | @cons r rs pl p1 p2 s s1 s2 o os b h1 ho h2 ih =>
    have hh1 := Lift.histIn.region _ _ _ _ _ _ _ h1 (by rcases ho with rfl | rfl <;> simp) hh
    have ih := ih (fun hp r hr' => hr hp r (by simp [hr'])) hh1
    rcases ho with rfl | rfl
    · have hw : Hsm.weight M ρ s1 = Hsm.weight M ρ s := by
        cases h1 with
        | rejected => rfl
      rw [hw] at ih
      refine ⟨ih.1, fun hb => ih.2 ?_⟩
      cases b with
      | none => cases hb
      | some x => simpa using hb
    · have := h1.weight hM hρ (fun hp => hr hp r (by simp)) hh
      exact ⟨by omega, fun _ => by omega⟩

theorem anonLoop_halts (hM : M.Regular) {ρ : Name × StTy → Nat} (hρ : Acyclic M ρ) :
    ∀ {fuel : Nat} {pl : P} {s : SM P W}, Good M deps s → HistIn M s → weight M ρ s < fuel →
    (anonLoop M sem fuel pl s).Halts := by
  intro fuel
  induction fuel with
  | zero => intro pl s _ _ h; omega
  | succ n ih =>
    intro pl s hg hh hw
    unfold anonLoop
    rw [currentRegions_eq]
    refine (anonRound_halts _ _ _ _).bind fun op s1 h1 => ?_
    obtain ⟨o, p1⟩ := op
    obtain ⟨hg1, os, b, hround, ho⟩ := anonRound_ok hM hg h1
    cases b with
    | none => rw [show o = none from ho]; intro h; cases h
    | some x =>
      cases x with
      | false => rw [show o = some true from ho]; intro h; cases h
      | true =>
        rw [show o = some false from ho]
        have := (hround.weight hM hρ (fun hp r hr => by
          rw [activeRegions_one hp] at hr; simpa using hr) hh).2 rfl
        exact ih hg1 (Lift.histIn.anonRound hround hh) (by omega)

theorem weight_le (hM : M.Regular) {ρ : Name × StTy → Nat} {B : Nat}
    (hB : ∀ p ∈ M.composites, ∀ st ∈ M.states, ρ (p, st) ≤ B) {s : SM P W} (hg : Good M deps s) :
    weight M ρ s ≤ M.maxInit * B := by
  rw [← hg.basic.curLen]
  have := sum_le_mul (l := s.cur.map (slotRank M ρ)) (B := B) (by
    intro x hx
    obtain ⟨c, _, rfl⟩ := List.mem_map.1 hx
    unfold slotRank
    split
    · exact Nat.zero_le _
    · split
      · exact Nat.zero_le _
      · rename_i l hl
        obtain ⟨h1, h2⟩ := mem_product.1 (List.mem_of_getElem? hl)
        rw [Machine.composites_eq, Machine.states_eq] at hB
        exact hB l.1 h1 l.2 h2)
  simpa [weight] using this

theorem processInternal_halts (hM : M.Regular) {ρ : Name × StTy → Nat} (hρ : Acyclic M ρ) {B : Nat}
    (hB : ∀ p ∈ M.composites, ∀ st ∈ M.states, ρ (p, st) ≤ B) {fuel : Nat}
    (hf : M.maxInit * B < fuel) {ev : EventTy} {pl : P} {s : SM P W} (hg : Good M deps s)
    (hh : HistIn M s) : (processInternal M sem fuel ev pl s).Halts := by
  unfold processInternal
  rw [currentRegions_eq]
  refine (regionLoop_halts _ _ _ _ _ _).bind fun op s1 h1 => ?_
  obtain ⟨o, p1⟩ := op
  cases o with
  | deferred => intro h; cases h
  | done a b =>
    dsimp only
    split
    · intro h; cases h
    · split
      · intro h; cases h
      · refine Res.Halts.bind ?_ (fun _ _ _ h => by cases h)
        unfold processAnon
        rw [Machine.hasAnon_eq]
        split
        · obtain ⟨os, hl, _⟩ := regionLoop_ok hM hg h1
          have hg1 := hg.regionLoop h1
          exact anonLoop_halts hM hρ hg1 (Lift.histIn.loop_defer (fun _ _ _ h => h) hl hh)
            (Nat.lt_of_le_of_lt (weight_le hM hB hg1) hf)
        · intro h; cases h

/-- C24, termination: if the anonymous rows are acyclic with ranks at most `B`, then
`process_event` terminates after every history, for every event and all callbacks, with at
most `slots * B + 1` anonymous rounds in a row (the fuel bounds these rounds, see
`anonLoop`). -/
theorem C24_terminates (hM : M.Regular) {ρ : Name × StTy → Nat} (hρ : Acyclic M ρ) {B : Nat}
    (hB : ∀ p ∈ M.composites, ∀ st ∈ M.states, ρ (p, st) ≤ B) {d : Dep} {ops : List (Op P)}
    {s : SM P W} (h : RunTo M sem d ops s) (ev : EventTy) (pl : P) {fuel : Nat}
    (hf : M.maxInit * B < fuel) : processEvent M sem fuel ev pl s ≠ .timeout := by
  have hg := h.good hM
  have hh := h.histIn hM
  show (processEvent M sem fuel ev pl s).Halts
  unfold processEvent
  refine (processInternal_halts hM hρ hB hf hg hh).bind fun op s1 h1 => ?_
  obtain ⟨o, p1⟩ := op
  obtain ⟨os, s0, ht, _⟩ := processInternal_ok hM hg h1
  have hg1 := hg.processInternal h1
  have hh1 := Lift.histIn.turn_defer (fun _ _ _ h => h) ht hh
  cases o with
  | allTransitionsInvalid => exact (callHandler_halts _ _ _).bind fun _ _ _ h => by cases h
  | deferred => intro h; cases h
  | allGuardsFailed => intro h; cases h
  | processed =>
    refine Res.Halts.bind ?_ (fun _ _ _ h => by cases h)
    unfold processDeferred
    rw [Machine.hasDefer_eq]
    split
    · split
      · intro h; cases h
      · refine (processInternal_halts hM hρ hB hf (hg1.queue _) ?_).bind fun _ _ _ h => by cases h
        exact hh1
    · intro h; cases h

/-- For `ev` the first candidate at `(p, st)` is an unguarded external row that leads
to `l`. -/
def Jumps (M : Machine) (ev : EventTy) (p : Name) (st : StTy) (l : Name × StTy) : Prop :=
  ∃ c cs t, M.cands ev p st = c :: cs ∧ c.row? = some t ∧ t.guard = none ∧
    t.internal = false ∧ M.targetLoc t = some l ∧ ∀ o q, t.target ≠ .ps o (.history q)

theorem Jumps.entry {ev : EventTy} {p : Name} {st : StTy} {l : Name × StTy}
    (h : Jumps M ev p st l) (hd : deps ≠ []) : ∃ e es x, M.entries deps ev p st = e :: es ∧
      e.tr = some x ∧ x.guard = none ∧ e.internal = false ∧ e.to = M.comb l.1 l.2 ∧
      e.history = false := by
  obtain ⟨c0, cs, t0, hc0, hr0, hg0, hi0, hl0, hh0⟩ := h
  cases deps with
  | nil => exact absurd rfl hd
  | cons d1 ds =>
    obtain ⟨e0, he0⟩ : ∃ e0, M.entryOfCand d1 c0 = some e0 := by
      cases c0 with
      | defer => cases hr0
      | row t => cases hr0; simp [Machine.entryOfCand, hl0]
      | exit t q => cases hr0; simp [Machine.entryOfCand, hl0]
    have hes : M.entries (d1 :: ds) ev p st =
        e0 :: (cs.filterMap (M.entryOfCand d1) ++ M.entries ds ev p st) := by
      unfold Machine.entries
      rw [List.flatMap_cons, hc0, List.filterMap_cons_some he0]
      rfl
    rcases Machine.entryOfCand_cases he0 with ⟨rfl, _⟩ |
      ⟨t', l', x', hc', hl', hto', hhist', hdf', hi', hx', _, _, hxg', _⟩
    · cases hr0
    have : t' = t0 := by
      rcases hc' with rfl | ⟨_, rfl⟩ <;> cases hr0 <;> rfl
    subst this
    rw [hl0] at hl'; cases hl'
    refine ⟨e0, _, x', hes, hx', by rw [hxg']; exact hg0, by rw [hi']; exact hi0, hto', ?_⟩
    rw [hhist']
    unfold Machine.isHistory
    split
    · rename_i o' q' hq'; exact absurd hq' (hh0 o' q')
    · rfl

theorem Jumps.selected {ev : EventTy} {p : Name} {st : StTy} {l' : Name × StTy}
    (hs : Jumps M ev p st l') {c : Cand} {t : XRow} {d : Dep}
    {l : Name × StTy} {x : Exec} {pre : List Entry} {cur : List (Option Nat)} {p0 p1 : P}
    {w0 w1 : W} {tr : List (Call P)}
    (h : Selected M deps ev p st c t d l x pre) (hf : FalseRun sem cur ev pre p0 w0 tr p1 w1) :
    t.guard = none ∧ t.internal = false ∧ M.comb l.1 l.2 = M.comb l'.1 l'.2 ∧
      ∀ o q, t.target ≠ .ps o (.history q) := by
  have hd : deps ≠ [] := by rintro rfl; exact absurd h.dep (by simp)
  obtain ⟨e0, es, x0, hes, hx0, hg0, hi0, hto0, hh0⟩ := hs.entry hd
  obtain ⟨e, post, he, hec, hex⟩ := h.entries
  have hpre : pre = [] := by
    cases pre with
    | nil => rfl
    | cons y ys =>
      rw [he] at hes
      simp only [List.cons_append, List.cons.injEq] at hes
      obtain ⟨rfl, _⟩ := hes
      obtain ⟨_, x1, g1, hx1, hg1⟩ := hf.all_guarded y (by simp)
      rw [hx0] at hx1; cases hx1
      rw [hg0] at hg1; cases hg1
  subst hpre
  rw [hes] at he
  simp only [List.nil_append, List.cons.injEq] at he
  obtain ⟨rfl, _⟩ := he
  rcases Machine.entryOfCand_cases hec with ⟨rfl, _, h3, _⟩ |
    ⟨t2, l2, x2, hc2, hl2, hto2, hhist2, hdf2, hi2, hx2, _, _, hxg2, _⟩
  · cases h.row
  have : t2 = t := by
    have hrow := h.row
    rcases hc2 with rfl | ⟨_, rfl⟩ <;> cases hrow <;> rfl
  subst this
  rw [h.loc] at hl2; cases hl2
  rw [hx0] at hx2; cases hx2
  refine ⟨by rw [← hxg2]; exact hg0, by rw [← hi2]; exact hi0, by rw [← hto2, hto0], ?_⟩
  intro o q hq
  rw [hh0] at hhist2
  unfold Machine.isHistory at hhist2
  rw [hq] at hhist2
  cases hhist2

theorem Jumps.region (hM : M.Regular) {ev : EventTy} {p : Name} {st : StTy} {l : Name × StTy}
    (hs : Jumps M ev p st l) (hp : l.1 ∈ M.composites) (hst : l.2 ∈ M.states) {pl pl' : P}
    {s s' : SM P W} {o : RegionOut} {r : Nat} (ha : At M s r p st)
    (h : RegionRun M sem deps r ev pl s o pl' s') (hd : deps ≠ []) :
    o = .fired ∧ At M s' r l.1 l.2 := by
  cases h with
  | none ha' hc =>
    obtain ⟨rfl, rfl⟩ := ha.unique hM ha'
    obtain ⟨c0, cs, t0, hc0, _⟩ := hs
    rw [hc0] at hc; cases hc
  | rejected ha' hne hf =>
    exfalso
    obtain ⟨rfl, rfl⟩ := ha.unique hM ha'
    obtain ⟨e0, es, x0, hes, hx0, hg0, _⟩ := hs.entry hd
    obtain ⟨_, x1, g1, hx1, hg1⟩ := hf.all_guarded e0 (by rw [hes]; simp)
    rw [hx0] at hx1; cases hx1
    rw [hg0] at hg1; cases hg1
  | deferred ha' hdf =>
    exfalso
    obtain ⟨rfl, rfl⟩ := ha.unique hM ha'
    obtain ⟨c0, cs, t0, hc0, hr0, _⟩ := hs
    obtain ⟨l, hl⟩ := Machine.cands_defer hdf
    rw [hc0] at hl
    cases hl
    cases hr0
  | fired ha' hsel hf hg he hr =>
    obtain ⟨rfl, rfl⟩ := ha.unique hM ha'
    obtain ⟨_, hi, hl, hh⟩ := hs.selected hsel hf
    refine ⟨rfl, hp, hst, ?_⟩
    unfold Effect at he
    rw [hi] at he
    simp only [Bool.false_eq_true, if_false] at he
    obtain ⟨k, hk, _, hd2⟩ := he.dest
    obtain ⟨l', hl', rfl⟩ := hd2 hh
    rw [hsel.loc] at hl'; cases hl'
    have hlen := (List.getElem?_eq_some_iff.1 ha.2.2).1
    rw [show (SM.ran _ _ _ : SM P W).cur = _ from hk, hl]
    simp [SM.ran, hlen]

theorem ActThrow.throws {cur : List (Option Nat)} {args : Args} {cs : List (Phase × Cb)} {p : P}
    {w w' : W} {tr : List (Call P)} {k : Nat} (h : ActThrow sem cur args cs p w tr k w') :
    ∃ a q w0 p1 w1, sem.action a args q w0 = .throw k p1 w1 := by
  induction h with
  | here hc => exact ⟨_, _, _, _, _, hc⟩
  | later _ _ ih => exact ih

theorem Jumps.region_throw (hM : M.Regular) {ev : EventTy} {p : Name} {st : StTy}
    {l : Name × StTy} (hs : Jumps M ev p st l)
    (hact : ∀ a args p w k p' w', sem.action a args p w ≠ .throw k p' w') {pl : P}
    {s s' : SM P W} {k r : Nat} (ha : At M s r p st)
    (h : RegionThrow M sem deps r ev pl s k s') : False := by
  cases h with
  | guard ha' hsel hf hg hc =>
    obtain ⟨rfl, rfl⟩ := ha.unique hM ha'
    rw [(hs.selected hsel hf).1] at hg; cases hg
  | action ha' hsel hf hg he hr =>
    obtain ⟨_, _, _, _, _, h⟩ := hr.throws
    exact hact _ _ _ _ _ _ _ h

section Spin

variable {p : Name} {st : StTy}

theorem Jumps.no_end (hM : M.Regular) (h1r : M.orthogonal = false) (hs : Jumps M .none p st (p, st))
    (hd : deps ≠ []) {pl : P} {s s' : SM P W} (h : AnonRun M sem deps pl s s') :
    ¬ At M s 0 p st := by
  induction h with
  | @done pl p' s s' os b h hb =>
    intro ha
    rw [activeRegions_one h1r] at h
    have h : AnonRound M sem deps [0] pl s os b p' s' := h
    generalize hrs : [0] = rs at h
    cases h with
    | nil => cases hrs
    | stop h1 =>
      cases hrs
      have := (hs.region hM ha.1 ha.2.1 ha h1 hd).1
      cases this
    | cons h1 ho h2 =>
      cases hrs
      have := (hs.region hM ha.1 ha.2.1 ha h1 hd).1
      subst this
      cases h2
      exact hb rfl
  | @again pl p' s s1 s' os h hr ih =>
    intro ha
    rw [activeRegions_one h1r] at h
    have h : AnonRound M sem deps [0] pl s os (some true) p' s1 := h
    generalize hrs : [0] = rs at h
    generalize hb : some true = b at h
    cases h with
    | nil => cases hrs
    | stop h1 => cases hb
    | cons h1 ho h2 =>
      cases hrs
      have := (hs.region hM ha.1 ha.2.1 ha h1 hd).2
      cases h2
      exact ih this

theorem Jumps.no_throw (hM : M.Regular) (h1r : M.orthogonal = false)
    (hs : Jumps M .none p st (p, st)) (hd : deps ≠ [])
    (hact : ∀ a args p w k p' w', sem.action a args p w ≠ .throw k p' w')
    {pl : P} {s s' : SM P W} {k : Nat} (h : AnonThrow M sem deps pl s k s') :
    ¬ At M s 0 p st := by
  induction h with
  | @here pl s s' k h =>
    intro ha
    rw [activeRegions_one h1r] at h
    have h : AnonRoundThrow M sem deps [0] pl s k s' := h
    generalize hrs : [0] = rs at h
    cases h with
    | here h1 => cases hrs; exact hs.region_throw hM hact ha h1
    | later h1 ho h2 => cases hrs; cases h2
  | @later pl p' s s1 s' os k h hr ih =>
    intro ha
    rw [activeRegions_one h1r] at h
    have h : AnonRound M sem deps [0] pl s os (some true) p' s1 := h
    generalize hrs : [0] = rs at h
    generalize hb : some true = b at h
    cases h with
    | nil => cases hrs
    | stop h1 => cases hb
    | cons h1 ho h2 =>
      cases hrs
      have := (hs.region hM ha.1 ha.2.1 ha h1 hd).2
      cases h2
      exact ih this

/-- An event that jumps into an anonymous self-loop has no end. -/
theorem Jumps.no_turn (hM : M.Regular) (h1r : M.orthogonal = false) (hA : M.anonymous = true)
    {ev : EventTy} {p0 : Name} {st0 : StTy} (hj : Jumps M ev p0 st0 (p, st))
    (hs : Jumps M .none p st (p, st)) (hp : p ∈ M.composites) (hst : st ∈ M.states)
    (hd : deps ≠ []) {pl pl' : P} {s s1 s' : SM P W} {os : List RegionOut}
    (h : Turn M sem deps ev pl s os pl' s1 s') : ¬ At M s 0 p0 st0 := by
  intro ha
  have key : ∀ {os s1}, LoopRun M sem deps ev (List.range (activeRegions M s)) pl s os pl' s1 →
      os = [.fired] ∧ At M s1 0 p st := by
    intro os s1 hl
    rw [activeRegions_one h1r] at hl
    have hl : LoopRun M sem deps ev [0] pl s os pl' s1 := hl
    generalize hrs : [0] = rs at hl
    cases hl with
    | nil => cases hrs
    | cons h1 ho h2 =>
      cases hrs
      have := hj.region hM hp hst ha h1 hd
      cases h2
      exact ⟨by rw [this.1], this.2⟩
    | stop h1 =>
      cases hrs
      have := (hj.region hM hp hst ha h1 hd).1
      cases this
  cases h with
  | quiet h hn =>
    rw [(key h).1] at hn
    exact hn ⟨by simp, by simp⟩
  | react h hy hse =>
    unfold Settles at hse
    rw [if_pos hA] at hse
    exact hs.no_end hM h1r hd hse (key h).2

theorem Jumps.no_turn_throw (hM : M.Regular) (h1r : M.orthogonal = false)
    {ev : EventTy} {p0 : Name} {st0 : StTy} (hj : Jumps M ev p0 st0 (p, st))
    (hs : Jumps M .none p st (p, st)) (hp : p ∈ M.composites) (hst : st ∈ M.states)
    (hact : ∀ a args p w k p' w', sem.action a args p w ≠ .throw k p' w')
    (hd : deps ≠ []) {pl : P} {s s' : SM P W} {k : Nat}
    (h : TurnThrow M sem deps ev pl s k s') : ¬ At M s 0 p0 st0 := by
  intro ha
  cases h with
  | region hl =>
    rw [activeRegions_one h1r] at hl
    rename_i os r
    have hl : LoopThrow M sem deps ev [0] pl s os r k s' := hl
    generalize hrs : [0] = rs at hl
    cases hl with
    | here h1 => cases hrs; exact hj.region_throw hM hact ha h1
    | later _ _ h2 => cases hrs; cases h2
  | anon hl hy hh han =>
    rename_i os pl' s1
    rw [activeRegions_one h1r] at hl
    have hl : LoopRun M sem deps ev [0] pl s os pl' s1 := hl
    generalize hrs : [0] = rs at hl
    cases hl with
    | nil => cases hrs
    | cons h1 ho h2 =>
      cases hrs
      have := hj.region hM hp hst ha h1 hd
      cases h2
      exact hs.no_throw hM h1r hd hact han this.2
    | stop h1 =>
      cases hrs
      have := (hj.region hM hp hst ha h1 hd).1
      cases this

/-- C24, divergence: in a safe one-region machine whose actions do not throw, an event
whose first candidate is an unguarded row to a location whose first anonymous row is an
unguarded self-loop is never finished: `process_event` runs out of fuel however much it is
given. -/
theorem C24_diverges (hM : M.Regular) (hS : Safe M sem) (h1r : M.orthogonal = false)
    (hact : ∀ a args p w k p' w', sem.action a args p w ≠ .throw k p' w')
    {ev : EventTy} {p0 : Name} {st0 : StTy} (hev : ev ∈ M.events)
    (hj : Jumps M ev p0 st0 (p, st)) (hs : Jumps M .none p st (p, st))
    (hA : M.anonymous = true) (hp : p ∈ M.composites) (hst : st ∈ M.states)
    {d : Dep} {ops : List (Op P)} {s : SM P W} (h : RunTo M sem d ops s) (ha : At M s 0 p0 st0)
    (pl : P) (fuel : Nat) : processEvent M sem fuel ev pl s = .timeout := by
  have hne : depsOf d ops ≠ [] := depsOf_ne_nil _ _
  have hdef : ∀ u, processEvent M sem fuel ev pl s ≠ .ub u := by
    intro u hu
    have := ((C05_partial hM hS).2 s h.reach).1 fuel (.process ev pl) (opOk_event hev)
    exact this u hu
  cases hres : processEvent M sem fuel ev pl s with
  | timeout => rfl
  | ub u => exact absurd hres (hdef u)
  | ok b s' =>
    exfalso
    have hrun := processEvent_ok hM hev (h.ready hM) hres
    cases hrun with
    | ignored ht => exact hj.no_turn hM h1r hA hs hp hst hne ht ha
    | unexpected ht => exact hj.no_turn hM h1r hA hs hp hst hne ht ha
    | unhandled ht => exact hj.no_turn hM h1r hA hs hp hst hne ht ha
    | handled ht => exact hj.no_turn hM h1r hA hs hp hst hne ht ha
    | replayed ht => exact hj.no_turn hM h1r hA hs hp hst hne ht ha
  | throw x s' =>
    exfalso
    rcases processEvent_throw hM hev (h.ready hM) hres with ⟨k, _, ht⟩ | ⟨_, _, os, pl', ht, _⟩
    · cases ht with
      | main ht => exact hj.no_turn_throw hM h1r hs hp hst hact hne ht ha
      | handler ht => exact hj.no_turn hM h1r hA hs hp hst hne ht ha
      | replay ht => exact hj.no_turn hM h1r hA hs hp hst hne ht ha
    · exact hj.no_turn hM h1r hA hs hp hst hne ht ha

end Spin
end

namespace Ex

/-- State 2 has an unguarded internal anonymous row; no external row is anonymous. -/
def innerAnon : Machine := Machine.ofList
  [ { table := some [ row (ini 1) (ev 0) none none (.st 2) ] },
    { }, { itable := some [⟨.none, none, some 5⟩] } ] [1]

theorem innerAnon_regular : innerAnon.Regular := Machine.regular_ofList (by decide +kernel)
theorem innerAnon_scoped : innerAnon.Scoped := Machine.scoped_of_check (by decide +kernel)

/-- Two regions; only state 4 of the second one has an anonymous row, unguarded. -/
def starving : Machine := Machine.ofList
  [ { table := some
        [ row (ini 1) (ev 0) none none (.st 2),
          row (ini 3) (ev 0) none none (.st 4),
          row (.st 4) .none none (some 5) (.st 3) ] } ] [1]

theorem starving_regular : starving.Regular := Machine.regular_ofList (by decide +kernel)
theorem starving_scoped : starving.Scoped := Machine.scoped_of_check (by decide +kernel)

/-- A chain of anonymous rows 2 → 3 → 4. -/
def chain : Machine := Machine.ofList
  [ { table := some
        [ row (ini 1) (ev 0) none none (.st 2),
          row (.st 2) .none none (some 5) (.st 3),
          row (.st 3) .none (some 6) (some 7) (.st 4),
          row (.st 4) (ev 1) none none (.st 1) ] } ] [1]

theorem chain_regular : chain.Regular := Machine.regular_ofList (by decide +kernel)
theorem chain_scoped : chain.Scoped := Machine.scoped_of_check (by decide +kernel)

/-- An anonymous self-loop at 2. -/
def spin : Machine := Machine.ofList
  [ { table := some
        [ row (ini 1) (ev 0) none none (.st 2), row (.st 2) .none none (some 5) (.st 2) ] } ] [1]

theorem spin_regular : spin.Regular := Machine.regular_ofList (by decide +kernel)
theorem spin_scoped : spin.Scoped := Machine.scoped_of_check (by decide +kernel)
theorem spin_safe (on : Nat → Bool) : Safe spin (sem on) :=
  safe_of_check spin_scoped (by decide +kernel)

/-- Two regions whose states 2 and 4 have guarded anonymous rows. -/
def guardedTwo : Machine := Machine.ofList
  [ { table := some
        [ row (ini 1) (ev 0) none none (.st 2),
          row (ini 3) (ev 0) none none (.st 4),
          row (.st 2) .none (some 8) none (.st 1),
          row (.st 4) .none (some 9) none (.st 3) ] } ] [1]

theorem guardedTwo_regular : guardedTwo.Regular := Machine.regular_ofList (by decide +kernel)

end Ex

/-- C22 does not hold in general: in `innerAnon` event 0 leads to state 2, whose internal
anonymous row has no guard, and `process_event` returns without running it. -/
theorem C22_refuted : ¬ ∀ (M : Machine), M.Regular → M.Scoped → M.orthogonal = false →
    ∀ (sem : Sem Nat (List Nat)) (d : Dep) (ops : List (Op Nat)) (s s' : SM Nat (List Nat))
      (fuel : Nat) (ev : EventTy) (pl : Nat) (p : Name) (st : StTy),
    RunTo M sem d ops s → ev ∈ M.events → processEvent M sem fuel ev pl s = .ok true s' →
    At M s' 0 p st → Quiescent M sem (depsOf d ops) s.trace s' p st := by
  intro hall
  have hrun : (Ex.run Ex.innerAnon (Ex.sem fun _ => true) 5 7 [] []).any (fun s =>
        match processEvent Ex.innerAnon (Ex.sem fun _ => true) 5 (Ex.ev 0) 3 s with
        | .ok true s' => s'.cur[0]? == some (some (Ex.innerAnon.comb 0 (.st 2)))
        | _ => false) = true := by
    decide +kernel
  obtain ⟨s, hr, hs⟩ := Ex.exists_run _ _ hrun
  split at hs
  · rename_i s' hp
    rcases hall Ex.innerAnon Ex.innerAnon_regular Ex.innerAnon_scoped (by decide +kernel)
      _ _ _ s s' _ _ _ 0 (.st 2) hr (by decide +kernel) hp
      ⟨by decide +kernel, by decide +kernel, by simpa using hs⟩ with h |
      ⟨t1, t2, t3, pl, pl', w, w', _, hf, _⟩
    · exact absurd h (by decide +kernel)
    · have hu : ((Ex.innerAnon.entries (depsOf 7 ([] : List (Op Nat))) .none 0 (.st 2)).all fun e =>
          e.tr.all fun x => x.guard == none) = true := by decide +kernel
      have hne : Ex.innerAnon.entries (depsOf 7 ([] : List (Op Nat))) .none 0 (.st 2) ≠ [] := by
        decide +kernel
      obtain ⟨e, he⟩ := List.exists_mem_of_ne_nil _ hne
      obtain ⟨_, x, g, hx, hg⟩ := hf.all_guarded e he
      have := List.all_eq_true.1 hu e he
      rw [hx] at this
      simp [hg] at this
  · cases hs

/-- C23 does not hold: in `starving` event 0 takes the second region to state 4 and
`process_event` returns although the unguarded anonymous row of state 4 is enabled,
because the first region, handled before, has no anonymous row. -/
theorem C23_refuted : ¬ ∀ (M : Machine), M.Regular → M.Scoped → M.anonymous = true →
    M.deferring = false → ∀ (sem : Sem Nat (List Nat)) (d : Dep) (ops : List (Op Nat))
      (s s' : SM Nat (List Nat)) (fuel : Nat) (ev : EventTy) (pl : Nat) (r : Nat) (p : Name)
      (st : StTy),
    RunTo M sem d ops s → ev ∈ M.events → processEvent M sem fuel ev pl s = .ok true s' →
    r < activeRegions M s' → At M s' r p st → M.cands .none p st = [] ∨
      ∃ q w tr q' w', FalseRun sem s'.cur .none (M.entries (depsOf d ops) .none p st) q w tr q' w' := by
  intro hall
  have hrun : (Ex.run Ex.starving (Ex.sem fun _ => true) 5 7 [] []).any (fun s =>
        match processEvent Ex.starving (Ex.sem fun _ => true) 5 (Ex.ev 0) 3 s with
        | .ok true s' => decide (1 < activeRegions Ex.starving s') &&
            s'.cur[1]? == some (some (Ex.starving.comb 0 (.st 4)))
        | _ => false) = true := by
    decide +kernel
  obtain ⟨s, hr, hs⟩ := Ex.exists_run _ _ hrun
  split at hs
  · rename_i s' hp
    simp only [Bool.and_eq_true, beq_iff_eq, decide_eq_true_eq] at hs
    rcases hall Ex.starving Ex.starving_regular Ex.starving_scoped (by decide +kernel)
      (by decide +kernel) _ _ _ s s' _ _ _ 1 0 (.st 4) hr (by decide +kernel) hp hs.1
      ⟨by decide +kernel, by decide +kernel, hs.2⟩ with h | ⟨pl, w, tr, pl', w', hf⟩
    · exact absurd h (by decide +kernel)
    · have hu : ((Ex.starving.entries (depsOf 7 ([] : List (Op Nat))) .none 0 (.st 4)).all fun e =>
          e.tr.all fun x => x.guard == none) = true := by decide +kernel
      have hne : Ex.starving.entries (depsOf 7 ([] : List (Op Nat))) .none 0 (.st 4) ≠ [] := by
        decide +kernel
      obtain ⟨e, he⟩ := List.exists_mem_of_ne_nil _ hne
      obtain ⟨_, x, g, hx, hg⟩ := hf.all_guarded e he
      have := List.all_eq_true.1 hu e he
      rw [hx] at this
      simp [hg] at this
  · cases hs

/-- The hypotheses of C22 are met by `chain`: event 0 runs 2 → 3 and stops there because
guard 6 returns false; the machine really is where an anonymous row exists. -/
example : ∃ s s', RunTo Ex.chain (Ex.sem fun _ => false) 7 [] s ∧
    processEvent Ex.chain (Ex.sem fun _ => false) 5 (Ex.ev 0) 1 s = .ok true s' ∧
    At Ex.chain s' 0 0 (.st 3) ∧ Ex.chain.cands .none 0 (.st 3) ≠ [] ∧
    Ex.chain.orthogonal = false ∧ Ex.chain.anonymous = true := by
  have hrun : (Ex.run Ex.chain (Ex.sem fun _ => false) 5 7 [] []).any (fun s =>
        match processEvent Ex.chain (Ex.sem fun _ => false) 5 (Ex.ev 0) 1 s with
        | .ok true s' => s'.cur[0]? == some (some (Ex.chain.comb 0 (.st 3)))
        | _ => false) = true := by
    decide +kernel
  obtain ⟨s, hr, hs⟩ := Ex.exists_run _ _ hrun
  split at hs
  · rename_i s' hp
    exact ⟨s, s', hr, hp, ⟨by decide +kernel, by decide +kernel, by simpa using hs⟩,
      by decide +kernel, by decide +kernel, by decide +kernel⟩
  · cases hs

/-- The hypotheses of C23_partial are met by `guardedTwo` after event 0. -/
example : ∃ s s', RunTo Ex.guardedTwo (Ex.sem fun _ => false) 7 [] s ∧
    processEvent Ex.guardedTwo (Ex.sem fun _ => false) 5 (Ex.ev 0) 1 s = .ok true s' ∧
    activeRegions Ex.guardedTwo s' = 2 ∧
    (∀ r p st, At Ex.guardedTwo s' r p st → Ex.guardedTwo.cands .none p st ≠ []) ∧
    Ex.guardedTwo.anonymous = true ∧ Ex.guardedTwo.deferring = false := by
  have hrun : (Ex.run Ex.guardedTwo (Ex.sem fun _ => false) 5 7 [] []).any (fun s =>
        match processEvent Ex.guardedTwo (Ex.sem fun _ => false) 5 (Ex.ev 0) 1 s with
        | .ok true s' => (s'.cur == [some (Ex.guardedTwo.comb 0 (.st 2)),
            some (Ex.guardedTwo.comb 0 (.st 4))]) && activeRegions Ex.guardedTwo s' == 2
        | _ => false) = true := by
    decide +kernel
  obtain ⟨s, hr, hs⟩ := Ex.exists_run _ _ hrun
  split at hs
  · rename_i s' hp
    simp only [Bool.and_eq_true, beq_iff_eq] at hs
    refine ⟨s, s', hr, hp, hs.2, ?_, by decide +kernel, by decide +kernel⟩
    intro r p st ha
    have h2 : At Ex.guardedTwo s' 0 0 (.st 2) :=
      ⟨by decide +kernel, by decide +kernel, by rw [hs.1]; rfl⟩
    have h4 : At Ex.guardedTwo s' 1 0 (.st 4) :=
      ⟨by decide +kernel, by decide +kernel, by rw [hs.1]; rfl⟩
    match r, ha with
    | 0, ha =>
      obtain ⟨rfl, rfl⟩ := h2.unique Ex.guardedTwo_regular ha
      decide +kernel
    | 1, ha =>
      obtain ⟨rfl, rfl⟩ := h4.unique Ex.guardedTwo_regular ha
      decide +kernel
    | r + 2, ha =>
      have := ha.2.2
      rw [hs.1] at this
      simp at this
  · cases hs

/-- The ranks of `chain`. -/
def Ex.chainRank (l : Name × StTy) : Nat :=
  if l.2 = .st 2 then 2 else if l.2 = .st 3 then 1 else 0

theorem Ex.chain_acyclic : Acyclic Ex.chain Ex.chainRank := by
  intro p hp st hst c hc t ht
  have hall : (Ex.chain.parents.all fun p => Ex.chain.stateIds.all fun st =>
      (Ex.chain.cands .none p st).all fun c => match c.row? with
        | none => true
        | some t => !t.internal && (match t.target with
            | .ps _ (.history _) => false
            | _ => match Ex.chain.targetLoc t with
              | none => true
              | some l => decide (Ex.chainRank l < Ex.chainRank (p, st)))) = true := by
    decide +kernel
  have h := List.all_eq_true.1 (List.all_eq_true.1 (List.all_eq_true.1 hall p hp) st hst) c hc
  simp only [ht, Bool.and_eq_true, Bool.not_eq_true'] at h
  refine ⟨h.1, ?_⟩
  intro l hl
  have h2 := h.2
  unfold Leads at hl
  split at hl
  · rename_i hq; rw [hq] at h2; cases h2
  · split at h2
    · cases h2
    · rw [hl] at h2
      simpa using h2

/-- C24 applies to `chain`: three anonymous rounds are enough for every event. -/
example (sem : Sem Nat (List Nat)) {d : Dep} {ops : List (Op Nat)} {s : SM Nat (List Nat)}
    (h : RunTo Ex.chain sem d ops s) (ev : EventTy) (pl : Nat) :
    processEvent Ex.chain sem 3 ev pl s ≠ .timeout :=
  C24_terminates Ex.chain_regular Ex.chain_acyclic (B := 2)
    (by intro p _ st _; unfold Ex.chainRank; split <;> (try split) <;> decide) h ev pl
    (by decide +kernel)

/-- The divergence of C24 on `spin`: event 0 never returns. -/
example (fuel : Nat) : ∃ s, RunTo Ex.spin (Ex.sem fun _ => true) 7 [] s ∧
    processEvent Ex.spin (Ex.sem fun _ => true) fuel (Ex.ev 0) 1 s = .timeout := by
  have hrun : (Ex.run Ex.spin (Ex.sem fun _ => true) 5 7 [] []).any (fun s =>
      s.cur[0]? == some (some (Ex.spin.comb 0 (.st 1)))) = true := by
    decide +kernel
  obtain ⟨s, hr, hs⟩ := Ex.exists_run _ _ hrun
  refine ⟨s, hr, C24_diverges (p := 0) (st := .st 2) (p0 := 0) (st0 := .st 1) Ex.spin_regular
    (Ex.spin_safe _) (by decide +kernel) ?_ (by decide +kernel) ?_ ?_ (by decide +kernel)
    (by decide +kernel) (by decide +kernel) hr
    ⟨by decide +kernel, by decide +kernel, by simpa using hs⟩ 1 fuel⟩
  · intro a args p w k p' w'
    simp [Ex.sem]
  · exact ⟨.row ⟨0, Ex.ini 1, Ex.ev 0, none, none, .st 2, false⟩, [], _, by decide +kernel, rfl, rfl,
      rfl, by decide +kernel, by intro o q h; cases h⟩
  · exact ⟨.row ⟨0, .st 2, .none, none, some 5, .st 2, false⟩, [], _, by decide +kernel, rfl, rfl,
      rfl, by decide +kernel, by intro o q h; cases h⟩

end Hsm
