import Verif.PropsPlain

/-!
# C73: a plain machine does what a short interpreter does

C71 describes plain machines whose callbacks never throw and whose guards always answer the same.
Here callbacks are arbitrary: guards may depend on and change payload and world, anything may throw
or be undefined.  The interpreter `Machine.play` goes through the candidates at the current location;
it knows nothing of dispatch tables, indices, regions, queues, memories and fuel.
-/

namespace Hsm

/-- How a call of `process_event` ends: it returns true or false, exception `k` of a callback leaves
it, or a callback does something undefined. -/
inductive Ending
  | yes
  | no
  | threw (k : Nat)
  | undefined
deriving DecidableEq, Repr

/-- What an event does: how the call ends, where the machine is then, the user's world, and the
callbacks called. -/
structure Played (P W : Type) where
  reply : Ending
  loc : Name × StTy
  world : W
  calls : List (Call P)

/-- A callback invocation without the ghost record of where the regions were. -/
def Call.bare {P : Type} : Call P → Call P
  | .guard g args p res _ => .guard g args p res []
  | .action ph a args p threw _ => .action ph a args p threw []
  | .handler h e s d p threw _ => .handler h e s d p threw []

section
variable {P W : Type} (sem : Sem P W)

/-- Callbacks of a row one after the other, on what the previous one left. -/
def playActs (args : Args) : List (Phase × Cb) → P → W → Ending × W × List (Call P)
  | [], _, w => (.yes, w, [])
  | (ph, a) :: cs, p, w =>
    match sem.action a args p w with
    | .ok _ p' w' =>
      ((playActs args cs p' w').1, (playActs args cs p' w').2.1,
        .action ph a args p false [] :: (playActs args cs p' w').2.2)
    | .throw k _ w' => (.threw k, w', [.action ph a args p true []])
    | .ub => (.undefined, w, [])

namespace Machine
variable (M : Machine) (ev : EventTy) (l : Name × StTy)

/-- Where a row leads. -/
def leads (t : XRow) : Name × StTy := (M.targetLoc t).getD l

/-- What the guard of a row is called with. -/
def askArgs (d : Dep) (c : Cand) (t : XRow) : Args :=
  { event := ev, src := c.src, dst := if t.internal then c.src else (M.leads l t).2,
    byPtr := false, dep := d }

/-- A row fires: the machine moves (unless the row is internal), then the callbacks run. -/
def playRow (d : Dep) (c : Cand) (t : XRow) (p : P) (w : W) : Played P W :=
  { reply := (playActs sem (cbArgs M c t (M.leads l t) ev d) (M.callbacks t) p w).1
    loc := if t.internal then l else M.leads l t
    world := (playActs sem (cbArgs M c t (M.leads l t) ev d) (M.callbacks t) p w).2.1
    calls := (playActs sem (cbArgs M c t (M.leads l t) ev d) (M.callbacks t) p w).2.2 }

/-- The candidates, each with the dependency it was built with, are tried in order. -/
def playCands : List (Dep × Cand) → P → W → Played P W
  | [], _, w => { reply := .no, loc := l, world := w, calls := [] }
  | (d, c) :: cs, p, w =>
    match c.row? with
    | none => playCands cs p w
    | some t =>
      match t.guard with
      | none => M.playRow sem ev l d c t p w
      | some g =>
        match sem.guard g (M.askArgs ev l d c t) p w with
        | .ok b p' w' =>
          let q := if b then M.playRow sem ev l d c t p' w' else playCands cs p' w'
          { q with calls := .guard g (M.askArgs ev l d c t) p (some b) [] :: q.calls }
        | .throw k _ w' =>
          { reply := .threw k, loc := l, world := w', calls := [.guard g (M.askArgs ev l d c t) p none []] }
        | .ub => { reply := .undefined, loc := l, world := w, calls := [] }

/-- Without any candidate the unexpected-event handler is called, if there is one. -/
def playHandler (d0 : Dep) (p : P) (w : W) : Played P W :=
  match (M.decl M.root).handler with
  | none => { reply := .no, loc := l, world := w, calls := [] }
  | some h =>
    match sem.handler h ev l.2 d0 p w with
    | .ok _ _ w' => { reply := .no, loc := l, world := w', calls := [.handler h ev l.2 d0 p false []] }
    | .throw k _ w' =>
      { reply := .threw k, loc := l, world := w', calls := [.handler h ev l.2 d0 p true []] }
    | .ub => { reply := .undefined, loc := l, world := w, calls := [] }

/-- Event `ev` with payload `p` at location `l` in world `w`. -/
def play (deps : List Dep) (d0 : Dep) (p : P) (w : W) : Played P W :=
  if M.cands ev l.1 l.2 = [] then M.playHandler sem ev l d0 p w
  else M.playCands sem ev l (deps.flatMap fun d => (M.cands ev l.1 l.2).map fun c => (d, c)) p w

end Machine

/-- `s'` is what the interpreter says becomes of `s`. -/
structure Becomes (M : Machine) (s : SM P W) (q : Played P W) (s' : SM P W) : Prop where
  loc : At M s' 0 q.loc.1 q.loc.2
  world : s'.world = q.world
  trace : s'.trace.map Call.bare = s.trace.map Call.bare ++ q.calls

/-- The outcome `r` of library code on machine `s` is what the interpreter says: a value that satisfies
`yes` or `no`, the exception, or the undefined behaviour of the callback. -/
def Shows {α : Type} (M : Machine) (s : SM P W) (yes no : α → Prop) (r : Res (SM P W) α)
    (q : Played P W) : Prop :=
  match q.reply with
  | .yes => ∃ a s', r = .ok a s' ∧ yes a ∧ Becomes M s q s'
  | .no => ∃ a s', r = .ok a s' ∧ no a ∧ Becomes M s q s'
  | .threw k => ∃ s', r = .throw (.user k) s' ∧ Becomes M s q s'
  | .undefined => r = .ub .callback

end

section
variable {M : Machine} {P W : Type} {sem : Sem P W}

theorem Shows.bind {α β : Type} {s : SM P W} {yes no : α → Prop} {yes' no' : β → Prop}
    {r : Res (SM P W) α} {q : Played P W} (h : Shows M s yes no r q) {f : α → SM P W → Res (SM P W) β}
    (hy : ∀ a s', yes a → ∃ b, f a s' = .ok b s' ∧ yes' b)
    (hn : ∀ a s', no a → ∃ b, f a s' = .ok b s' ∧ no' b) : Shows M s yes' no' (r.bind f) q := by
  unfold Shows at h ⊢
  cases hq : q.reply with
  | yes =>
    rw [hq] at h
    obtain ⟨a, s', rfl, ha, hb⟩ := h
    obtain ⟨b, hf, hyb⟩ := hy a s' ha
    exact ⟨b, s', hf, hyb, hb⟩
  | no =>
    rw [hq] at h
    obtain ⟨a, s', rfl, ha, hb⟩ := h
    obtain ⟨b, hf, hyb⟩ := hn a s' ha
    exact ⟨b, s', hf, hyb, hb⟩
  | threw k =>
    rw [hq] at h
    obtain ⟨s', rfl, hb⟩ := h
    exact ⟨s', rfl, hb⟩
  | undefined =>
    rw [hq] at h
    rw [show r = _ from h]
    rfl

theorem Shows.prepend {α : Type} {s : SM P W} {w : W} {x : Call P} {q q' : Played P W}
    {yes no : α → Prop} {r : Res (SM P W) α}
    (h : Shows M { s with world := w, trace := s.trace ++ [x] } yes no r q)
    (hr : q'.reply = q.reply) (hl : q'.loc = q.loc) (hw : q'.world = q.world)
    (hc : q'.calls = x.bare :: q.calls) : Shows M s yes no r q' := by
  have hb : ∀ s', Becomes M { s with world := w, trace := s.trace ++ [x] } q s' → Becomes M s q' s' := by
    intro s' hb
    refine ⟨hl ▸ hb.loc, hw ▸ hb.world, ?_⟩
    rw [hb.trace, hc]
    simp
  unfold Shows at h ⊢
  rw [hr]
  cases hq : q.reply with
  | yes => rw [hq] at h; obtain ⟨a, s', h, h', h''⟩ := h; exact ⟨a, s', h, h', hb _ h''⟩
  | no => rw [hq] at h; obtain ⟨a, s', h, h', h''⟩ := h; exact ⟨a, s', h, h', hb _ h''⟩
  | threw k => rw [hq] at h; obtain ⟨s', h, h''⟩ := h; exact ⟨s', h, hb _ h''⟩
  | undefined => rw [hq] at h; exact h

/-- Running callbacks. -/
theorem runCbs_play (args : Args) : ∀ (cs : List (Phase × Cb)) (p : P) (s : SM P W) (l : Name × StTy),
    At M s 0 l.1 l.2 → Shows M s (fun _ => True) (fun _ => False) (runCbs sem args cs p s)
      ⟨(playActs sem args cs p s.world).1, l, (playActs sem args cs p s.world).2.1,
        (playActs sem args cs p s.world).2.2⟩ := by
  intro cs
  induction cs with
  | nil => intro p s l ha; exact ⟨p, s, rfl, trivial, ha, rfl, by simp [playActs]⟩
  | cons c cs ih =>
    intro p s l ha
    obtain ⟨ph, a⟩ := c
    unfold runCbs playActs
    cases hc : sem.action a args p s.world with
    | ok u p' w' =>
      have h := ih p' { s with world := w', trace := s.trace ++ [.action ph a args p false s.cur] } l ha
      exact h.prepend rfl rfl rfl rfl
    | throw k p' w' =>
      exact ⟨_, rfl, ha, rfl, by simp [Call.bare]⟩
    | ub => rfl

theorem Shows.congr {α : Type} {s s1 : SM P W} {yes no : α → Prop} {r : Res (SM P W) α}
    {q : Played P W} (h : Shows M s1 yes no r q) (ht : s1.trace = s.trace) : Shows M s yes no r q := by
  have hb : ∀ s', Becomes M s1 q s' → Becomes M s q s' := fun s' hb =>
    ⟨hb.loc, hb.world, by rw [hb.trace, ht]⟩
  unfold Shows at h ⊢
  cases hq : q.reply with
  | yes => rw [hq] at h; obtain ⟨a, s', h, h', h''⟩ := h; exact ⟨a, s', h, h', hb _ h''⟩
  | no => rw [hq] at h; obtain ⟨a, s', h, h', h''⟩ := h; exact ⟨a, s', h, h', hb _ h''⟩
  | threw k => rw [hq] at h; obtain ⟨s', h, h''⟩ := h; exact ⟨s', h, hb _ h''⟩
  | undefined => rw [hq] at h; exact h

/-- A plain machine moves. -/
theorem updateState_plain (hP : M.Plain) {e : Entry} {l l' : Name × StTy} {s : SM P W}
    (ha : At M s 0 l.1 l.2) (hto : e.to = M.comb l'.1 l'.2) (h1 : l'.1 ∈ M.composites)
    (h2 : l'.2 ∈ M.states) :
    ∃ s', updateState M 0 e s = .ok () s' ∧ s'.world = s.world ∧ s'.trace = s.trace ∧
      At M s' 0 (if e.internal then l else l').1 (if e.internal then l else l').2 := by
  unfold updateState
  cases hi : e.internal with
  | true => exact ⟨s, rfl, rfl, rfl, ha⟩
  | false =>
    have hlen : 0 < s.cur.length := (List.getElem?_eq_some_iff.1 ha.2.2).1
    simp only [Bool.false_eq_true, if_false]
    unfold moveState
    rw [Machine.hasHistory_eq, hP.historic]
    simp only [Bool.false_eq_true, if_false]
    unfold writeCur
    rw [if_pos hlen]
    simp only [Res.bind]
    unfold updateRegions
    rw [Machine.parallel_eq, hP.region]
    refine ⟨_, rfl, rfl, rfl, h1, h2, ?_⟩
    show (s.cur.set 0 (some e.to))[0]? = _
    rw [hto]
    simp [List.getElem?_set, hlen]

/-- Where the callbacks of an entry come from. -/
theorem entryOfCand_all {d : Dep} {c : Cand} {t : XRow} {l : Name × StTy} (hr : c.row? = some t)
    (hl : M.targetLoc t = some l) : ∃ e x, M.entryOfCand d c = some e ∧ e.tr = some x ∧
      e.defer = false ∧ x.guard = t.guard ∧ x.src = c.src ∧ x.dst = l.2 ∧
      x.internal = t.internal ∧ x.dep = d ∧ e.to = M.comb l.1 l.2 ∧ e.internal = t.internal ∧
      x.cbs = M.callbacks t := by
  cases c with
  | defer => cases hr
  | row t' =>
    cases hr
    simp only [Machine.entryOfCand, hl, Option.map_some]
    exact ⟨_, _, rfl, rfl, rfl, rfl, rfl, rfl, rfl, rfl, rfl, rfl, Machine.toRun_cbs _⟩
  | exit t' p =>
    cases hr
    simp only [Machine.entryOfCand, hl, Option.map_some]
    exact ⟨_, _, rfl, rfl, rfl, rfl, rfl, rfl, rfl, rfl, rfl, rfl, Machine.toRun_cbs _⟩

/-- A row fires. -/
theorem fire_play (hP : M.Plain) (hp : Populated M sem) {ev : EventTy} {d : Dep} {c : Cand} {t : XRow}
    {l l' : Name × StTy} (hl : M.targetLoc t = some l') (h1 : l'.1 ∈ M.composites) (h2 : l'.2 ∈ M.states)
    {e : Entry} {x : Exec} (hxs : x.src = c.src) (hxd : x.dst = l'.2) (hxi : x.internal = t.internal)
    (hxp : x.dep = d) (hto : e.to = M.comb l'.1 l'.2) (hi : e.internal = t.internal)
    (hcb : x.cbs = M.callbacks t) (p : P) (s : SM P W) (ha : At M s 0 l.1 l.2) :
    Shows M s (fun _ => True) (fun _ => False) (fire M sem 0 ev e x p s)
      (M.playRow sem ev l d c t p s.world) := by
  obtain ⟨s', hs', hw, htr, hat⟩ := updateState_plain hP ha hto h1 h2
  unfold Hsm.fire
  rw [hs']
  show Shows M s _ _ (execAction M sem x ev p s') _
  rw [execAction_eq hp, actionArgs_eq hxs hxd hxi hxp, hcb]
  have := (runCbs_play (M := M) (sem := sem) (cbArgs M c t l' ev d) (M.callbacks t) p s' _ hat).congr htr
  rw [hw, hi] at this
  unfold Machine.playRow Machine.leads
  rw [hl]
  exact this

/-- Trying the candidates. -/
theorem tryEntries_play (hP : M.Plain) (hp : Populated M sem) (ev : EventTy) (l : Name × StTy) :
    ∀ cs : List (Dep × Cand), (∀ x ∈ cs, ∃ t l', x.2.row? = some t ∧ M.targetLoc t = some l' ∧
      l'.1 ∈ M.composites ∧ l'.2 ∈ M.states) → ∀ (p : P) (s : SM P W), At M s 0 l.1 l.2 →
    Shows M s (fun a => a.1 = .fired) (fun a => a.1 = .rejected)
      (tryEntries M sem 0 ev (cs.filterMap fun x => M.entryOfCand x.1 x.2) p s)
      (M.playCands sem ev l cs p s.world) := by
  intro cs
  induction cs with
  | nil => intro _ p s ha; exact ⟨_, s, rfl, rfl, ha, rfl, by simp [Machine.playCands]⟩
  | cons x cs ih =>
    intro hcs p s ha
    have ih := ih (fun y hy => hcs y (List.mem_cons_of_mem _ hy))
    obtain ⟨t, l', hr, hl, h1, h2⟩ := hcs x List.mem_cons_self
    obtain ⟨d, c⟩ := x
    obtain ⟨e, x, he, hx, hdf, hg, hxs, hxd, hxi, hxp, hto, hi, hcb⟩ :=
      entryOfCand_all (M := M) (d := d) hr hl
    rw [List.filterMap_cons_some (f := fun x : Dep × Cand => M.entryOfCand x.1 x.2) (b := e) he]
    have hfire : ∀ (p : P) (s : SM P W), At M s 0 l.1 l.2 →
        Shows M s (fun a => a.1 = RegionOut.fired) (fun a => a.1 = RegionOut.rejected)
          ((fire M sem 0 ev e x p s).bind fun p s => .ok (RegionOut.fired, p) s)
          (M.playRow sem ev l d c t p s.world) := fun p s ha =>
      (fire_play hP hp hl h1 h2 hxs hxd hxi hxp hto hi hcb p s ha).bind
        (fun a s' _ => ⟨_, rfl, rfl⟩) (fun a s' h => h.elim)
    unfold tryEntries Machine.playCands
    rw [hdf, hx]
    dsimp only
    rw [show c.row? = some t from hr]
    dsimp only
    simp only [Bool.false_eq_true, if_false]
    unfold execGuard
    rw [hg]
    cases hgt : t.guard with
    | none => exact hfire p s ha
    | some g =>
      have hargs : (⟨ev, x.src, if x.internal then x.src else x.dst, false, x.dep⟩ : Args) = M.askArgs ev l d c t := by
        unfold Machine.askArgs Machine.leads
        rw [hxs, hxd, hxi, hxp, hl]
        rfl
      simp only [hp.objOk, Bool.and_self, if_true, hargs]
      cases hc : sem.guard g (M.askArgs ev l d c t) p s.world with
      | ok b p' w' =>
        cases b with
        | true =>
          have h := hfire p' { s with world := w', trace := s.trace ++ [.guard g (M.askArgs ev l d c t) p (some true) s.cur] } ha
          exact h.prepend rfl rfl rfl rfl
        | false =>
          have h := ih p' { s with world := w', trace := s.trace ++ [.guard g (M.askArgs ev l d c t) p (some false) s.cur] } ha
          exact h.prepend rfl rfl rfl rfl
      | throw k p' w' => exact ⟨_, rfl, ha, rfl, by simp [Call.bare]⟩
      | ub => rfl

/-- The candidates with their dependencies make up the entries. -/
theorem Machine.entries_pairs (deps : List Dep) (ev : EventTy) (p : Name) (st : StTy) :
    M.entries deps ev p st = (deps.flatMap fun d => (M.cands ev p st).map fun c => (d, c)).filterMap
      fun x => M.entryOfCand x.1 x.2 := by
  unfold Machine.entries
  induction deps with
  | nil => rfl
  | cons d deps ih =>
    rw [List.flatMap_cons, List.flatMap_cons, List.filterMap_append, ih, List.filterMap_map]
    rfl

/-! ## C73 -/

/-- C73: in a plain machine at location `l`, whatever was done with it before, processing an event does
what the interpreter does, with any fuel. -/
theorem C73_event (hM : M.Regular) (hS : M.Scoped) (hP : M.Plain) (hp : Populated M sem) {d : Dep}
    {ops : List (Op P)} {s : SM P W} (h : RunTo M sem d ops s) {l : Name × StTy}
    (ha : At M s 0 l.1 l.2) {ev : EventTy} (hev : ev ∈ M.events) (pl : P) (fuel : Nat) :
    Shows M s (· = true) (· = false) (processEvent M sem fuel ev pl s)
      (M.play sem ev l (depsOf d ops) d pl s.world) := by
  have hg := h.ready hM
  have hlook := lookup_at (ev := ev) hM hg.toGood ha
  have hreg : List.range (currentRegions M s) = [0] := by
    unfold currentRegions
    rw [Machine.parallel_eq, hP.region]; rfl
  unfold processEvent processInternal
  rw [hreg]
  unfold regionLoop Machine.play
  by_cases hne : M.cands ev l.1 l.2 = []
  · unfold regionStep
    rw [hlook, if_pos hne, (Machine.entries_eq_nil hM (depsOf_ne_nil d ops)).2 hne]
    simp only [Res.bind]
    unfold regionLoop
    simp only [Res.bind, if_true]
    unfold callHandler Machine.playHandler
    cases hh : (M.decl M.root).handler with
    | none => exact ⟨_, s, rfl, rfl, ha, rfl, by simp⟩
    | some hd =>
      have hlt := hM.comb_lt.2 ⟨ha.1, ha.2.1⟩
      have hread : readCur 0 s = .ok (M.comb l.1 l.2) s := by
        unfold readCur; rw [ha.2.2]
      dsimp only
      rw [hread]
      simp only [Res.bind, hlt, if_true]
      rw [hg.handlers (by rw [hh]; rfl) ev hev l.1 ha.1 l.2 ha.2.1]
      simp only [hp.objOk, if_true]
      cases hc : sem.handler hd ev l.2 d pl s.world with
      | ok u p' w' => exact ⟨_, _, rfl, rfl, ha, rfl, by simp [Call.bare]⟩
      | throw k p' w' => exact ⟨_, rfl, ha, rfl, by simp [Call.bare]⟩
      | ub => rfl
  · rw [if_neg hne]
    have hen : M.entries (depsOf d ops) ev l.1 l.2 ≠ [] := fun h0 =>
      hne ((Machine.entries_eq_nil hM (depsOf_ne_nil d ops)).1 h0)
    have hnd := Machine.no_defer_cand hP.deferring ev l.1 l.2
    have hcs := tryEntries_play (sem := sem) hP hp ev l
      ((depsOf d ops).flatMap fun d => (M.cands ev l.1 l.2).map fun c => (d, c)) (by
        intro x hx
        obtain ⟨d', _, hx⟩ := List.mem_flatMap.1 hx
        obtain ⟨c, hc, rfl⟩ := List.mem_map.1 hx
        obtain ⟨t, ht⟩ : ∃ t, c.row? = some t := by
          cases c with
          | defer => exact absurd hc hnd
          | row t => exact ⟨t, rfl⟩
          | exit t p => exact ⟨t, rfl⟩
        obtain ⟨htm, l', hl, hls⟩ := hM.cand_loc hc ht
        exact ⟨t, l', ht, hl, hS.targets t htm l' hl, hls⟩) pl s ha
    rw [← Machine.entries_pairs] at hcs
    have hanon : M.hasAnon = false := by rw [Machine.hasAnon_eq, hP.anonymous]
    have hdef : M.hasDefer = false := by rw [Machine.hasDefer_eq, hP.deferring]
    rw [regionStep_eq hM hg.toGood ha pl hen, Res.bind_assoc, Res.bind_assoc]
    refine hcs.bind ?_ ?_
    · rintro ⟨o, p'⟩ s' ho
      cases ho
      refine ⟨true, ?_, rfl⟩
      simp only [regionLoop, Res.bind, processAnon, hanon, processDeferred, hdef, Bool.false_eq_true,
        if_false]
    · rintro ⟨o, p'⟩ s' ho
      cases ho
      refine ⟨false, ?_, rfl⟩
      simp only [regionLoop, Res.bind, Bool.false_eq_true, if_false, if_true]

/-! ## Whole histories -/

/-- One call on the machine: `set` moves it if the region number is 0 (modulo 256), and throws without
any effect otherwise; `set_dependency` adds a dependency.  `none`: a callback does something
undefined. -/
def Machine.playOp (M : Machine) (sem : Sem P W) (d0 : Dep) (deps : List Dep) (l : Name × StTy) (w : W) :
    Op P → Option (List Dep × (Name × StTy) × W × List (Call P))
  | .process ev p =>
    if (M.play sem ev l deps d0 p w).reply = .undefined then none
    else some (deps, (M.play sem ev l deps d0 p w).loc, (M.play sem ev l deps d0 p w).world,
      (M.play sem ev l deps d0 p w).calls)
  | .set r p st => some (deps, if r % 256 = 0 then (p, st) else l, w, [])
  | .setDependency d => some (d :: deps, l, w, [])

/-- Calls one after the other: where the machine ends, the world, and the callbacks called. -/
def Machine.playOps (M : Machine) (sem : Sem P W) (d0 : Dep) :
    List Dep → Name × StTy → W → List (Op P) → Option ((Name × StTy) × W × List (Call P))
  | _, l, w, [] => some (l, w, [])
  | deps, l, w, op :: ops =>
    (M.playOp sem d0 deps l w op).bind fun x =>
      (M.playOps sem d0 x.1 x.2.1 x.2.2.1 ops).map fun y => (y.1, y.2.1, x.2.2.2 ++ y.2.2)

theorem Machine.Plain.maxInit (hM : M.Regular) (hP : M.Plain) : M.maxInit = 1 := by
  have h1 := maxInit_pos hM
  have h2 : ¬ 1 < M.maxInit := by
    have := hP.region
    rw [← Machine.parallel_eq] at this
    simpa [Machine.parallel] using this
  omega

theorem step_play (hM : M.Regular) (hS : M.Scoped) (hP : M.Plain) (hp : Populated M sem) {d : Dep}
    {ops : List (Op P)} {s : SM P W} (h : RunTo M sem d ops s) {l : Name × StTy}
    (ha : At M s 0 l.1 l.2) {op : Op P} (hop : OpOk M op) (fuel : Nat) :
    (M.playOp sem d (depsOf d ops) l s.world op = none ∧ step M sem fuel op s = .ub .callback) ∨
    ∃ l' w' calls s', M.playOp sem d (depsOf d ops) l s.world op =
        some (depsOf d (ops ++ [op]), l', w', calls) ∧
      ((∃ b, step M sem fuel op s = .ok b s') ∨ ∃ x, step M sem fuel op s = .throw x s') ∧
      At M s' 0 l'.1 l'.2 ∧ s'.world = w' ∧ s'.trace.map Call.bare = s.trace.map Call.bare ++ calls := by
  cases op with
  | process ev p =>
    have hsh := C73_event hM hS hP hp h ha hop.event p fuel
    rw [depsOf_process]
    simp only [Machine.playOp]
    generalize M.play sem ev l (depsOf d ops) d p s.world = q at hsh ⊢
    show (_ ∧ processEvent M sem fuel ev p s = _) ∨ _
    unfold Shows at hsh
    cases hq : q.reply with
    | undefined =>
      rw [hq] at hsh
      exact Or.inl ⟨by simp, hsh⟩
    | yes =>
      rw [hq] at hsh
      obtain ⟨b, s', he, _, hb⟩ := hsh
      exact Or.inr ⟨_, _, _, s', by simp, Or.inl ⟨b, he⟩, hb.loc, hb.world, hb.trace⟩
    | no =>
      rw [hq] at hsh
      obtain ⟨b, s', he, _, hb⟩ := hsh
      exact Or.inr ⟨_, _, _, s', by simp, Or.inl ⟨b, he⟩, hb.loc, hb.world, hb.trace⟩
    | threw k =>
      rw [hq] at hsh
      obtain ⟨s', he, hb⟩ := hsh
      exact Or.inr ⟨_, _, _, s', by simp, Or.inr ⟨_, he⟩, hb.loc, hb.world, hb.trace⟩
  | set r p st =>
    have hlen : s.cur.length = 1 := by
      rw [(h.good hM).basic.curLen]; exact hP.maxInit hM
    obtain ⟨h1, h2⟩ := hop
    rw [← Machine.composites_eq] at h1
    rw [← Machine.states_eq] at h2
    refine Or.inr ⟨if r % 256 = 0 then (p, st) else l, s.world, [], ?_⟩
    rw [depsOf_set]
    show ∃ s', _ ∧ ((∃ b, (setOp M r p st s).bind (fun _ s => .ok true s) = .ok b s') ∨
      ∃ x, (setOp M r p st s).bind (fun _ s => .ok true s) = .throw x s') ∧ _
    unfold setOp
    by_cases hr : r % 256 = 0
    · rw [if_pos (by omega : r % 256 < s.cur.length)]
      refine ⟨_, by rfl, Or.inl ⟨true, rfl⟩, ?_, rfl, by simp⟩
      rw [if_pos hr]
      refine ⟨h1, h2, ?_⟩
      show (s.cur.set (r % 256) _)[0]? = _
      rw [hr]
      simp [hlen]
    · rw [if_neg (by omega : ¬ r % 256 < s.cur.length)]
      refine ⟨s, by rfl, Or.inr ⟨_, rfl⟩, ?_, rfl, by simp⟩
      rw [if_neg hr]
      exact ha
  | setDependency d' =>
    refine Or.inr ⟨l, s.world, [], ?_⟩
    rw [depsOf_dep]
    obtain ⟨T, hT⟩ := (Machine.C06_fill hM d' s.table).1
      ((Machine.scopesReal_iff hM).2 ⟨hS.src, hS.comp⟩)
    refine ⟨{ s with table := T }, rfl, Or.inl ⟨true, ?_⟩, ha, rfl, by simp⟩
    show (Hsm.setDependency M d' s).bind _ = _
    unfold Hsm.setDependency
    rw [hT]
    rfl

/-- C73 from any state a plain machine was brought to. -/
theorem C73_from (hM : M.Regular) (hS : M.Scoped) (hP : M.Plain) (hp : Populated M sem) {d : Dep}
    (fuel : Nat) : ∀ (ops pre : List (Op P)) (s : SM P W) (l : Name × StTy), (∀ op ∈ ops, OpOk M op) →
      RunTo M sem d pre s → At M s 0 l.1 l.2 →
      match M.playOps sem d (depsOf d pre) l s.world ops with
      | none => runAll (step M sem fuel) ops s = none
      | some (l, w', calls) => ∃ s', runAll (step M sem fuel) ops s = some s' ∧ At M s' 0 l.1 l.2 ∧
          s'.world = w' ∧ s'.trace.map Call.bare = s.trace.map Call.bare ++ calls := by
  intro ops
  induction ops with
  | nil => intro pre s l _ _ ha; exact ⟨s, rfl, ha, rfl, by simp⟩
  | cons op ops ih =>
    intro pre s l hops h ha
    have hop := hops op List.mem_cons_self
    unfold Machine.playOps
    rcases step_play hM hS hP hp h ha hop fuel with ⟨h1, h2⟩ |
      ⟨l', w', calls, s', h1, h2, hat, hw, htr⟩
    · rw [h1]
      show runAll _ (op :: ops) s = none
      rw [runAll, h2]
    · rw [h1]
      simp only [Option.bind_some]
      have hrun : RunTo M sem d (pre ++ [op]) s' ∧ runAll (step M sem fuel) (op :: ops) s =
          runAll (step M sem fuel) ops s' := by
        rcases h2 with ⟨b, hb⟩ | ⟨x, hx⟩
        · exact ⟨.ok h hop hb, by rw [runAll, hb]⟩
        · exact ⟨.throw h hop hx, by rw [runAll, hx]⟩
      have := ih (pre ++ [op]) s' l' (fun o ho => hops o (List.mem_cons_of_mem _ ho)) hrun.1 hat
      rw [hw] at this
      rw [hrun.2]
      cases hpl : M.playOps sem d (depsOf d (pre ++ [op])) l' w' ops with
      | none =>
        rw [hpl] at this
        exact this
      | some y =>
        rw [hpl] at this
        obtain ⟨s'', hs, h3, h4, h5⟩ := this
        exact ⟨s'', hs, h3, h4, by rw [h5, htr, List.append_assoc]⟩

/-- C73: for all sequences of calls on a newly constructed plain machine the interpreter tells where it
is, what the world looks like and which callbacks were called with what; and if a callback does
something undefined on the way. -/
theorem C73_history (hM : M.Regular) (hS : M.Scoped) (hP : M.Plain) (hp : Populated M sem) {d : Dep}
    {i : Name} (hi : (M.declaredInitials M.root).head? = some i) {w : W} {s0 : SM P W}
    (h0 : construct M d w = .ok s0) (ops : List (Op P)) (hops : ∀ op ∈ ops, OpOk M op) (fuel : Nat) :
    match M.playOps sem d [d] (M.root, .st i) w ops with
    | none => runAll (step M sem fuel) ops s0 = none
    | some (l, w', calls) => ∃ s, runAll (step M sem fuel) ops s0 = some s ∧ At M s 0 l.1 l.2 ∧
        s.world = w' ∧ s.trace.map Call.bare = calls := by
  obtain ⟨h1, _, _, h2, _, h3, _⟩ := C46_initial hM h0
  rw [List.head?_eq_getElem?] at hi
  have := C73_from hM hS hP hp fuel ops [] s0 (M.root, .st i) hops (.init h0) (h1 0 i hi)
  rw [h3, h2] at this
  exact this

end

/-! ## A machine whose guard depends on what actions did -/

namespace Ex

/-- A vending machine: `coin` (event 0) adds its payload to the credit, also while a product is waiting
(state 2); `buy` (event 1) needs a credit of 3; `take` (event 2) takes the product. -/
def vending : Machine := .ofList
  [ { table := some
        [ row (ini 1) (ev 0) none (some 1) (.st 1),
          row (.st 1) (ev 1) (some 100) (some 2) (.st 2),
          row (.st 2) (ev 2) none none (.st 1),
          row (.st 2) (ev 0) none (some 1) (.st 2) ]
      handler := some 50 } ] []

theorem vending_regular : vending.Regular := Machine.regular_ofList (by decide +kernel)
theorem vending_scoped : vending.Scoped := Machine.scoped_of_check (by decide +kernel)
theorem vending_plain : vending.Plain :=
  ⟨by decide +kernel, by decide +kernel, by decide +kernel, by decide +kernel⟩

/-- The world is the credit and the number of products sold.  A coin of value 0 is refused with an
exception. -/
def vend : Sem Nat (Nat × Nat) where
  guard _ _ p w := .ok (decide (3 ≤ w.1)) p w
  action a _ p w :=
    if a = 1 then (if p = 0 then .throw 7 p w else .ok () p (w.1 + p, w.2)) else .ok () p (w.1 - 3, w.2 + 1)
  handler _ _ _ _ p w := .ok () p w
  alive _ _ := true
  nonePayload := 0

/-- The value of the coins among the calls. -/
def paid : List (EventTy × Nat) → Nat
  | [] => 0
  | x :: xs => (if x.1 = ev 0 then x.2 else 0) + paid xs

theorem vend_event {e : EventTy} (he : e ∈ vending.events) {st : Name} (hst : st = 1 ∨ st = 2) (p : Nat)
    (w : Nat × Nat) (d : Dep) : ∃ st', (st' = 1 ∨ st' = 2) ∧
      (vending.play vend e (0, .st st) [d] d p w).reply ≠ .undefined ∧
      (vending.play vend e (0, .st st) [d] d p w).loc = (0, .st st') ∧
      (vending.play vend e (0, .st st) [d] d p w).world.1 +
        3 * (vending.play vend e (0, .st st) [d] d p w).world.2 =
      w.1 + 3 * w.2 + (if e = ev 0 then p else 0) := by
  have hall : ∀ e ∈ vending.events, e = ev 0 ∨ e = ev 1 ∨ e = ev 2 := by decide +kernel
  have c10 : vending.cands (ev 0) 0 (.st 1) = [.row ⟨0, ini 1, ev 0, none, some 1, .st 1, false⟩] := by
    decide +kernel
  have c11 : vending.cands (ev 1) 0 (.st 1) = [.row ⟨0, .st 1, ev 1, some 100, some 2, .st 2, false⟩] := by
    decide +kernel
  have c12 : vending.cands (ev 2) 0 (.st 1) = [] := by decide +kernel
  have c20 : vending.cands (ev 0) 0 (.st 2) = [.row ⟨0, .st 2, ev 0, none, some 1, .st 2, false⟩] := by
    decide +kernel
  have c21 : vending.cands (ev 1) 0 (.st 2) = [] := by decide +kernel
  have c22 : vending.cands (ev 2) 0 (.st 2) = [.row ⟨0, .st 2, ev 2, none, none, .st 1, false⟩] := by
    decide +kernel
  have hh : (vending.decl vending.root).handler = some 50 := rfl
  have k1 : vending.callbacks ⟨0, ini 1, ev 0, none, some 1, .st 1, false⟩ = [(.action, 1)] := by decide +kernel
  have k2 : vending.callbacks ⟨0, .st 1, ev 1, some 100, some 2, .st 2, false⟩ = [(.action, 2)] := by
    decide +kernel
  have k3 : vending.callbacks ⟨0, .st 2, ev 0, none, some 1, .st 2, false⟩ = [(.action, 1)] := by decide +kernel
  have k4 : vending.callbacks ⟨0, .st 2, ev 2, none, none, .st 1, false⟩ = [] := by decide +kernel
  have n1 : ¬ ev 1 = ev 0 := by decide
  have n2 : ¬ ev 2 = ev 0 := by decide
  rcases hst with rfl | rfl <;> rcases hall e he with rfl | rfl | rfl
  · refine ⟨1, Or.inl rfl, ?_⟩
    by_cases hp : p = 0
    · simp [Machine.play, c10, Machine.playCands, Machine.playRow, Cand.row?, k1, playActs, vend, hp,
        Machine.leads, Machine.targetLoc, show vending.isComposite 1 = false from rfl]
    · simp [Machine.play, c10, Machine.playCands, Machine.playRow, Cand.row?, k1, playActs, vend, hp,
        Machine.leads, Machine.targetLoc, show vending.isComposite 1 = false from rfl]
      omega
  · by_cases hp : 3 ≤ w.1
    · refine ⟨2, Or.inr rfl, ?_⟩
      simp [Machine.play, c11, Machine.playCands, Machine.playRow, Cand.row?, k2, playActs, vend, hp,
        Machine.leads, Machine.targetLoc, show vending.isComposite 2 = false from rfl, n1]
      omega
    · refine ⟨1, Or.inl rfl, ?_⟩
      simp [Machine.play, c11, Machine.playCands, Cand.row?, vend, hp, n1]
  · exact ⟨1, Or.inl rfl, by simp [Machine.play, c12, Machine.playHandler, hh, vend, n2]⟩
  · refine ⟨2, Or.inr rfl, ?_⟩
    by_cases hp : p = 0
    · simp [Machine.play, c20, Machine.playCands, Machine.playRow, Cand.row?, k3, playActs, vend, hp,
        Machine.leads, Machine.targetLoc, show vending.isComposite 2 = false from rfl]
    · simp [Machine.play, c20, Machine.playCands, Machine.playRow, Cand.row?, k3, playActs, vend, hp,
        Machine.leads, Machine.targetLoc, show vending.isComposite 2 = false from rfl]
      omega
  · exact ⟨2, Or.inr rfl, by simp [Machine.play, c21, Machine.playHandler, hh, vend, n1]⟩
  · refine ⟨1, Or.inl rfl, ?_⟩
    simp [Machine.play, c22, Machine.playCands, Machine.playRow, Cand.row?, k4, playActs, vend,
        Machine.leads, Machine.targetLoc, show vending.isComposite 1 = false from rfl, n2]

end Ex

/-- C73 at work: whatever events are sent, what was paid is the credit plus three times the number of
products sold, and nothing undefined happens. -/
theorem C73_vending {d : Dep} {s0 : SM Nat (Nat × Nat)} (h0 : construct Ex.vending d (0, 0) = .ok s0)
    (evs : List (EventTy × Nat)) (hev : ∀ x ∈ evs, x.1 ∈ Ex.vending.events) (fuel : Nat) :
    ∃ s, runAll (step Ex.vending Ex.vend fuel) (sends evs) s0 = some s ∧
      s.world.1 + 3 * s.world.2 = Ex.paid evs := by
  have key : ∀ (evs : List (EventTy × Nat)) (st : Name) (w : Nat × Nat),
      (∀ x ∈ evs, x.1 ∈ Ex.vending.events) → (st = 1 ∨ st = 2) →
      ∃ y, Ex.vending.playOps Ex.vend d [d] (0, .st st) w (sends evs) = some y ∧
        y.2.1.1 + 3 * y.2.1.2 = w.1 + 3 * w.2 + Ex.paid evs := by
    intro evs
    induction evs with
    | nil => intro st w _ _; exact ⟨_, rfl, rfl⟩
    | cons x evs ih =>
      intro st w hev hst
      obtain ⟨st', hst', hu, hl, hw⟩ := Ex.vend_event (hev x List.mem_cons_self) hst x.2 w d
      obtain ⟨y, hy, hs⟩ := ih st' (Ex.vending.play Ex.vend x.1 (0, .st st) [d] d x.2 w).world
        (fun z hz => hev z (List.mem_cons_of_mem _ hz)) hst'
      refine ⟨(y.1, y.2.1, (Ex.vending.play Ex.vend x.1 (0, .st st) [d] d x.2 w).calls ++ y.2.2), ?_, ?_⟩
      · unfold sends at hy ⊢
        rw [List.map_cons, Machine.playOps, Machine.playOp, if_neg hu]
        simp only [Option.bind_some, hl, hy, Option.map_some]
      · show y.2.1.1 + 3 * y.2.1.2 = _
        rw [hs, hw, Ex.paid]
        omega
  obtain ⟨y, hy, hs⟩ := key evs 1 (0, 0) hev (Or.inl rfl)
  have := C73_history Ex.vending_regular Ex.vending_scoped Ex.vending_plain (sem := Ex.vend)
    (fun _ _ => Or.inr rfl) (i := 1) (by decide +kernel) h0 (sends evs) (by
      intro op hop
      obtain ⟨x, hx, rfl⟩ := List.mem_map.1 hop
      exact opOk_event (hev x hx)) fuel
  rw [show (Ex.vending.root, StTy.st 1) = (0, StTy.st 1) from rfl, hy] at this
  obtain ⟨l, w', calls⟩ := y
  obtain ⟨s, hr, _, hw, _⟩ := this
  refine ⟨s, hr, ?_⟩
  rw [hw]
  simpa using hs

/-- The hypotheses are met, with an exception, a refused purchase and a sale on the way. -/
example : ∃ s0, construct (P := Nat) Ex.vending 5 (0, 0) = .ok s0 ∧
    (Ex.vending.playOps Ex.vend 5 [5] (0, .st 1) (0, 0) (sends
      [(Ex.ev 0, 2), (Ex.ev 1, 0), (Ex.ev 0, 0), (Ex.ev 0, 4), (Ex.ev 1, 0), (Ex.ev 1, 0)])).map
        (fun y => (y.1, y.2.1, y.2.2.length)) = some ((0, .st 2), (3, 1), 7) := by
  obtain ⟨s, hs⟩ := (C06_construct (P := Nat) Ex.vending_regular 5 ((0, 0) : Nat × Nat)).1.2
    ⟨(Machine.scopesReal_iff Ex.vending_regular).2 ⟨Ex.vending_scoped.src, Ex.vending_scoped.comp⟩,
      fun _ => Ex.vending_scoped.rootInit⟩
  exact ⟨s, hs, by decide +kernel⟩

end Hsm
