import Verif.PropsReach

/-!
# C71: a plain machine is the automaton its tables describe

For machines with one region and without anonymous rows, deferral and history the whole behaviour
can be written as an automaton of a few lines that is read off the declared rows: where it goes,
what it answers, and which callbacks it calls in which order.  The automaton does not mention
dispatch tables, indices, payloads or worlds.
-/

namespace Hsm

/-- One region, no anonymous rows, no deferred events, no history. -/
structure Machine.Plain (M : Machine) : Prop where
  region : M.orthogonal = false
  anonymous : M.anonymous = false
  deferring : M.deferring = false
  historic : M.historic = false

/-- Guard `g` always answers `yes g`; no callback throws.  Apart from that callbacks may do what they
like with payload and world. -/
structure Steady {P W : Type} (sem : Sem P W) (yes : Cb → Bool) : Prop where
  guard : ∀ g args p w, ∃ p' w', sem.guard g args p w = .ok (yes g) p' w'
  action : ∀ a args p w, ∃ p' w', sem.action a args p w = .ok () p' w'
  handler : ∀ h ev st d p w, ∃ p' w', sem.handler h ev st d p w = .ok () p' w'

/-- The callback that was called. -/
def Call.who {P : Type} : Call P → Cb
  | .guard g _ _ _ _ => g
  | .action _ a _ _ _ _ => a
  | .handler h _ _ _ _ _ _ => h

namespace Machine
variable (M : Machine) (yes : Cb → Bool)

/-- The rows for event `ev` at location `l`, in the order they are tried. -/
def rowsAt (ev : EventTy) (l : Name × StTy) : List XRow := (M.cands ev l.1 l.2).filterMap Cand.row?

/-- Trying rows at location `l`: the answer, the next location, and the callbacks called. -/
def tryRows (l : Name × StTy) : List XRow → Bool × (Name × StTy) × List Cb
  | [] => (false, l, [])
  | t :: ts =>
    let here := if t.internal then l else (M.targetLoc t).getD l
    match t.guard with
    | none => (true, here, (M.callbacks t).map (·.2))
    | some g =>
      if yes g then (true, here, g :: (M.callbacks t).map (·.2))
      else ((tryRows l ts).1, (tryRows l ts).2.1, g :: (tryRows l ts).2.2)

/-- One event at location `l`; without any row the unexpected-event handler is called. -/
def answer (ev : EventTy) (l : Name × StTy) : Bool × (Name × StTy) × List Cb :=
  if M.rowsAt ev l = [] then (false, l, (M.decl M.root).handler.toList)
  else M.tryRows yes l (M.rowsAt ev l)

/-- A sequence of events: the location reached and all callbacks called. -/
def behave (l : Name × StTy) : List EventTy → (Name × StTy) × List Cb
  | [] => (l, [])
  | e :: es => ((behave (M.answer yes e l).2.1 es).1,
      (M.answer yes e l).2.2 ++ (behave (M.answer yes e l).2.1 es).2)

theorem behave_snoc (e : EventTy) : ∀ (es : List EventTy) (l : Name × StTy),
    M.behave yes l (es ++ [e]) = ((M.answer yes e (M.behave yes l es).1).2.1,
      (M.behave yes l es).2 ++ (M.answer yes e (M.behave yes l es).1).2.2) := by
  intro es
  induction es with
  | nil => intro l; simp [behave]
  | cons e' es ih => intro l; simp [behave, ih]

end Machine

section
variable {M : Machine} {P W : Type} {sem : Sem P W} {yes : Cb → Bool}

theorem Machine.defers_nil (hd : M.deferring = false) {t : XRow} (ht : t ∈ M.extRows) :
    M.defers t.source = [] := by
  unfold Machine.deferring at hd
  rw [List.any_eq_false] at hd
  have := hd t ht
  unfold Machine.defers
  split
  · rename_i s hs
    rw [hs] at this
    cases h : (M.decl s).defer with
    | none => rfl
    | some _ => simp [h] at this
  · rename_i o s hs
    rw [hs] at this
    cases h : (M.decl s).defer with
    | none => rfl
    | some _ => simp [h] at this
  · rfl

theorem Machine.no_defer_cand (hd : M.deferring = false) (ev : EventTy) (p : Name) (st : StTy) :
    Cand.defer ∉ M.cands ev p st := by
  intro h
  unfold Machine.cands at h
  rw [List.mem_append, List.mem_append] at h
  rcases h with (h | h) | h
  · have hz : ∀ ts : List XRow, (∀ t ∈ ts, t ∈ M.extRows) →
        (ts.map (M.deferCount ev p st)).sum = 0 := by
      intro ts
      induction ts with
      | nil => intro _; rfl
      | cons t ts ih =>
        intro hts
        rw [List.map_cons, List.sum_cons, ih (fun t' ht' => hts t' (List.mem_cons_of_mem _ ht'))]
        unfold Machine.deferCount
        rw [Machine.defers_nil hd (hts t List.mem_cons_self)]
        simp
    rw [hz _ (fun _ h => h)] at h
    simp at h
  · obtain ⟨t, _, ht⟩ := List.mem_flatMap.1 h
    simp only [Machine.extCands, List.mem_append] at ht
    rcases ht with ht | ht <;> split at ht <;> simp at ht
  · obtain ⟨t, _, ht⟩ := List.mem_flatMap.1 h
    simp only [Machine.intCands] at ht
    split at ht <;> simp at ht

/-- What trying the candidates in order amounts to. -/
theorem tryRows_cases (hd : M.deferring = false) (ev : EventTy) (l : Name × StTy) :
    ∀ cs : List Cand, Cand.defer ∉ cs →
      (∀ c ∈ cs, ∀ t, c.row? = some t → ∃ g, t.guard = some g ∧ yes g = false) ∧
        M.tryRows yes l (cs.filterMap Cand.row?) =
          (false, l, (cs.filterMap Cand.row?).filterMap (·.guard)) ∨
      ∃ cs1 c cs2 t, cs = cs1 ++ c :: cs2 ∧ c.row? = some t ∧
        (∀ c' ∈ cs1, ∀ t', c'.row? = some t' → ∃ g, t'.guard = some g ∧ yes g = false) ∧
        (∀ g, t.guard = some g → yes g = true) ∧
        M.tryRows yes l (cs.filterMap Cand.row?) =
          (true, if t.internal then l else (M.targetLoc t).getD l,
            (cs1.filterMap Cand.row?).filterMap (·.guard) ++
              (t.guard.toList ++ (M.callbacks t).map (·.2))) := by
  intro cs
  induction cs with
  | nil => intro _; exact Or.inl ⟨by simp, rfl⟩
  | cons c cs ih =>
    intro hn
    have hn' : Cand.defer ∉ cs := fun h => hn (List.mem_cons_of_mem _ h)
    obtain ⟨t, ht⟩ : ∃ t, c.row? = some t := by
      cases c with
      | defer => exact absurd List.mem_cons_self hn
      | row t => exact ⟨t, rfl⟩
      | exit t p => exact ⟨t, rfl⟩
    rw [List.filterMap_cons_some ht]
    cases hg : t.guard with
    | none =>
      refine Or.inr ⟨[], c, cs, t, rfl, ht, by simp, by simp [hg], ?_⟩
      simp [Machine.tryRows, hg]
    | some g =>
      cases hy : yes g with
      | true =>
        refine Or.inr ⟨[], c, cs, t, rfl, ht, by simp, ?_, ?_⟩
        · intro g' hg'; rw [hg] at hg'; cases hg'; exact hy
        · simp [Machine.tryRows, hg, hy]
      | false =>
        rcases ih hn' with ⟨h1, h2⟩ | ⟨cs1, c1, cs2, t1, rfl, hr, hp, hy', h2⟩
        · refine Or.inl ⟨?_, ?_⟩
          · intro c' hc' t' ht'
            rcases List.mem_cons.1 hc' with rfl | hc'
            · rw [ht] at ht'; cases ht'; exact ⟨g, hg, hy⟩
            · exact h1 c' hc' t' ht'
          · simp [Machine.tryRows, hg, hy, h2]
        · refine Or.inr ⟨c :: cs1, c1, cs2, t1, rfl, hr, ?_, hy', ?_⟩
          · intro c' hc' t' ht'
            rcases List.mem_cons.1 hc' with rfl | hc'
            · rw [ht] at ht'; cases ht'; exact ⟨g, hg, hy⟩
            · exact hp c' hc' t' ht'
          · simp only [Machine.tryRows, hg, hy, h2]
            simp [ht, hg]

theorem Steady.falses (hy : Steady sem yes) {cur : List (Option Nat)} {ev : EventTy} {d : Dep} :
    ∀ {cs : List Cand}, Cand.defer ∉ cs →
    (∀ c ∈ cs, ∀ t, c.row? = some t → (∃ l, M.targetLoc t = some l) ∧
      ∃ g, t.guard = some g ∧ yes g = false) → ∀ (pl : P) (w : W),
    ∃ tr pl' w', FalseRun sem cur ev (cs.filterMap (M.entryOfCand d)) pl w tr pl' w' ∧
      tr.map Call.who = (cs.filterMap Cand.row?).filterMap (·.guard) := by
  intro cs
  induction cs with
  | nil => intro _ _ pl w; exact ⟨[], pl, w, .nil _ _, rfl⟩
  | cons c cs ih =>
    intro hn h pl w
    obtain ⟨t, ht⟩ : ∃ t, c.row? = some t := by
      cases c with
      | defer => exact absurd List.mem_cons_self hn
      | row t => exact ⟨t, rfl⟩
      | exit t p => exact ⟨t, rfl⟩
    obtain ⟨⟨l, hl⟩, g, hg, hyg⟩ := h c List.mem_cons_self t ht
    obtain ⟨e, x, he, hx, hd, hxg, _⟩ := entryOfCand_row (M := M) (d := d) ht hl
    obtain ⟨p1, w1, hc⟩ := hy.guard g (guardArgs x ev) pl w
    obtain ⟨tr, p2, w2, hr, hw⟩ := ih (fun h => hn (List.mem_cons_of_mem _ h))
      (fun c' hc' => h c' (List.mem_cons_of_mem _ hc')) p1 w1
    rw [List.filterMap_cons_some he, List.filterMap_cons_some ht, List.filterMap_cons_some hg]
    exact ⟨_, p2, w2, .cons hd hx (hxg.trans hg) (by rw [hc, hyg]) hr, by simp [Call.who, hw]⟩

theorem Steady.actions (hy : Steady sem yes) {cur : List (Option Nat)} {args : Args} :
    ∀ (cs : List (Phase × Cb)) (pl : P) (w : W), ∃ tr pl' w',
      ActRun sem cur args cs pl w tr pl' w' ∧ tr.map Call.who = cs.map (·.2) := by
  intro cs
  induction cs with
  | nil => intro pl w; exact ⟨[], pl, w, .nil _ _, rfl⟩
  | cons c cs ih =>
    intro pl w
    obtain ⟨ph, a⟩ := c
    obtain ⟨p1, w1, hc⟩ := hy.action a args pl w
    obtain ⟨tr, p2, w2, hr, hw⟩ := ih p1 w1
    exact ⟨_, p2, w2, .cons hc hr, by simp [Call.who, hw]⟩

/-- Every row that is a candidate leads somewhere. -/
theorem Machine.Regular.cand_loc (hM : M.Regular) {ev : EventTy} {p : Name} {st : StTy} {c : Cand}
    {t : XRow} (hc : c ∈ M.cands ev p st) (hr : c.row? = some t) :
    t ∈ M.extRows ++ M.intRows ∧ ∃ l, M.targetLoc t = some l ∧ l.2 ∈ M.states := by
  have : t ∈ M.extRows ++ M.intRows := by
    unfold Machine.cands at hc
    rw [List.mem_append, List.mem_append] at hc
    rcases hc with (hc | hc) | hc
    · rw [List.mem_replicate] at hc
      rw [hc.2] at hr; cases hr
    · obtain ⟨t', ht', h⟩ := List.mem_flatMap.1 hc
      have ht' : t' ∈ M.extRows := by simpa using (List.mem_filter.1 ht').1
      simp only [Machine.extCands, List.mem_append] at h
      rcases h with h | h <;> split at h <;> simp at h <;> subst h <;> cases hr <;>
        exact List.mem_append_left _ ht'
    · obtain ⟨t', ht', h⟩ := List.mem_flatMap.1 hc
      have ht' : t' ∈ M.intRows := by simpa using (List.mem_filter.1 ht').1
      simp only [Machine.intCands] at h
      split at h <;> simp at h
      subst h; cases hr
      exact List.mem_append_right _ ht'
  exact ⟨this, (hM.compiles.ends t this).2⟩

/-- What the specification of an event amounts to in a plain machine. -/
theorem plain_event (hM : M.Regular) (hS : M.Scoped) (hP : M.Plain) (hy : Steady sem yes) {d : Dep}
    {s : SM P W} {l : Name × StTy} (ha : At M s 0 l.1 l.2) (ev : EventTy) (pl : P) :
    ∃ s', EventRun M sem [d] d ev pl s (M.answer yes ev l).1 s' ∧
      At M s' 0 (M.answer yes ev l).2.1.1 (M.answer yes ev l).2.1.2 ∧
      s'.trace.map Call.who = s.trace.map Call.who ++ (M.answer yes ev l).2.2 := by
  have hnd := Machine.no_defer_cand hP.deferring ev l.1 l.2
  have hrange : List.range (activeRegions M s) = [0] := by
    unfold activeRegions; rw [hP.region]; rfl
  have hent : ∀ cs, M.cands ev l.1 l.2 = cs →
      M.entries [d] ev l.1 l.2 = cs.filterMap (M.entryOfCand d) := by
    intro cs h; simp [Machine.entries, h]
  have hrow : ∀ c ∈ M.cands ev l.1 l.2, ∃ t, c.row? = some t := by
    intro c hc
    cases c with
    | defer => exact absurd hc hnd
    | row t => exact ⟨t, rfl⟩
    | exit t p => exact ⟨t, rfl⟩
  by_cases hne : M.cands ev l.1 l.2 = []
  · have hans : M.answer yes ev l = (false, l, (M.decl M.root).handler.toList) := by
      unfold Machine.answer Machine.rowsAt
      rw [hne]; simp
    rw [hans]
    have hloop : LoopRun M sem [d] ev (List.range (activeRegions M s)) pl s [.none] pl s := by
      rw [hrange]
      exact .cons (.none ha hne) (by simp) (.nil _ _)
    have hturn : Turn M sem [d] ev pl s [.none] pl s s := .quiet hloop (by simp [Reacted])
    cases hh : (M.decl M.root).handler with
    | none => exact ⟨s, .ignored hturn (by simp) hh, ha, by simp⟩
    | some h =>
      obtain ⟨p', w', hc⟩ := hy.handler h ev l.2 d pl s.world
      exact ⟨_, .unexpected hturn (by simp) hh ha hc, ha, by simp [SM.ran, Call.who]⟩
  have hra : M.rowsAt ev l ≠ [] := by
    obtain ⟨c, cs, hcs⟩ := List.exists_cons_of_ne_nil hne
    obtain ⟨t, ht⟩ := hrow c (by rw [hcs]; simp)
    unfold Machine.rowsAt
    rw [hcs, List.filterMap_cons_some ht]
    simp
  have hans : M.answer yes ev l = M.tryRows yes l ((M.cands ev l.1 l.2).filterMap Cand.row?) := by
    unfold Machine.answer
    rw [if_neg hra]; rfl
  rw [hans]
  rcases tryRows_cases (yes := yes) hP.deferring ev l _ hnd with ⟨hall, htr⟩ |
    ⟨cs1, c, cs2, t, hcs, hr, hpre, hyes, htr⟩
  · rw [htr]
    obtain ⟨tr, pl', w', hf, hw⟩ := hy.falses (M := M) (cur := s.cur) (ev := ev) (d := d) hnd
      (fun c hc t ht => ⟨(hM.cand_loc hc ht).2.imp fun _ h => h.1, hall c hc t ht⟩) pl s.world
    have hloop : LoopRun M sem [d] ev (List.range (activeRegions M s)) pl s [.rejected] pl'
        (s.ran w' tr) := by
      rw [hrange]
      exact .cons (.rejected ha hne (by rw [hent _ rfl]; exact hf)) (by simp) (.nil _ _)
    have hnr : ¬ Reacted [RegionOut.rejected] := by simp [Reacted]
    exact ⟨_, .unhandled (.quiet hloop hnr) hnr ⟨_, List.mem_singleton_self _, by simp⟩, ha, by
      simp [SM.ran, hw]⟩
  · rw [htr]
    have hcm : c ∈ M.cands ev l.1 l.2 := by rw [hcs]; simp
    obtain ⟨htm, l', hl, hls⟩ := hM.cand_loc hcm hr
    obtain ⟨tr1, p1, w1, hf, hw1⟩ := hy.falses (M := M) (cur := s.cur) (ev := ev) (d := d) (cs := cs1)
      (fun h => hnd (by rw [hcs]; exact List.mem_append_left _ h))
      (fun c' hc' t' ht' => ⟨(hM.cand_loc (ev := ev) (p := l.1) (st := l.2)
        (by rw [hcs]; exact List.mem_append_left _ hc') ht').2.imp fun _ h => h.1, hpre c' hc' t' ht'⟩) pl s.world
    obtain ⟨e, x, he, hx, hed, hxg, hxs, hxd, hxi, hxp⟩ := entryOfCand_row (M := M) (d := d) hr hl
    have hsel : Selected M [d] ev l.1 l.2 c t d l' x (cs1.filterMap (M.entryOfCand d)) :=
      ⟨hcm, hr, by simp, hl, ⟨e, cs2.filterMap (M.entryOfCand d), by
        rw [hent _ hcs, List.filterMap_append, List.filterMap_cons_some he], he, hx⟩,
        ⟨[], [], cs1, cs2, rfl, hcs, by simp [Machine.entries]⟩, hxg, hxs, hxd, hxi, hxp⟩
    obtain ⟨tr2, p2, w2, hg, hw2⟩ : ∃ tr2 p2 w2, TrueGuard sem s.cur ev x p1 w1 tr2 p2 w2 ∧
        tr2.map Call.who = t.guard.toList := by
      cases htg : t.guard with
      | none => exact ⟨_, _, _, .absent (hxg.trans htg), rfl⟩
      | some g =>
        obtain ⟨p2, w2, hc⟩ := hy.guard g (guardArgs x ev) p1 w1
        exact ⟨_, _, _, .called (hxg.trans htg) (by rw [hc, hyes g htg]), rfl⟩
    have key : ∀ s1, Effect M 0 t (s.ran w2 (tr1 ++ tr2)) s1 →
        s1.trace = s.trace ++ (tr1 ++ tr2) →
        At M s1 0 (if t.internal then l else (M.targetLoc t).getD l).1
          (if t.internal then l else (M.targetLoc t).getD l).2 →
        ∃ s', EventRun M sem [d] d ev pl s true s' ∧
          At M s' 0 (if t.internal then l else (M.targetLoc t).getD l).1
            (if t.internal then l else (M.targetLoc t).getD l).2 ∧
          s'.trace.map Call.who = s.trace.map Call.who ++
            ((cs1.filterMap Cand.row?).filterMap (·.guard) ++
              (t.guard.toList ++ (M.callbacks t).map (·.2))) := by
      intro s1 heff htrace hat
      obtain ⟨tr3, p3, w3, hact, hw3⟩ := hy.actions (cur := s1.cur) (args := cbArgs M c t l' ev d)
        (M.callbacks t) p2 w2
      have hloop : LoopRun M sem [d] ev (List.range (activeRegions M s)) pl s [.fired] p3
          (s1.ran w3 tr3) := by
        rw [hrange]
        exact .cons (.fired ha hsel hf hg heff hact) (by simp) (.nil _ _)
      have hre : Reacted [RegionOut.fired] := by simp [Reacted]
      refine ⟨s1.ran w3 tr3, .handled (.react hloop hre (by unfold Settles; rw [hP.anonymous]; rfl)) hre
        (Or.inl hP.deferring), hat, ?_⟩
      show (s1.trace ++ tr3).map Call.who = _
      rw [htrace]
      simp [hw1, hw2, hw3, List.append_assoc]
    cases hi : t.internal with
    | true =>
      rw [hi] at key
      exact key (s.ran w2 (tr1 ++ tr2)) (by unfold Effect; rw [hi]; rfl) rfl ha
    | false =>
      rw [hi] at key
      have htf := Explained.row_mem (mem := fun _ _ _ => True) (f := ⟨0, [], [], 0⟩) hcm hr hi
      have hnh : ∀ o q, t.target ≠ .ps o (.history q) := by
        intro o q hq
        have := Machine.historic_of htf hq
        rw [hP.historic] at this; cases this
      have hlen : 0 < s.cur.length := by
        have := ha.2.2
        rw [List.getElem?_eq_some_iff] at this
        exact this.1
      let sa : SM P W := s.ran w2 (tr1 ++ tr2)
      let s1 : SM P W := { sa with
        cur := s.cur.set 0 (some (M.comb l'.1 l'.2)),
        log := s.log ++ [⟨0, s.cur, s.cur.set 0 (some (M.comb l'.1 l'.2)), sa.trace.length⟩] }
      have hmv : Moves M 0 t sa s1 :=
        ⟨hlen, ⟨_, rfl, fun o q hq => absurd hq (hnh o q), fun _ => ⟨l', hl, rfl⟩⟩,
          Or.inl ⟨hP.historic, rfl⟩, rfl, Or.inl ⟨hP.region, rfl⟩, rfl, rfl, rfl, rfl, rfl, rfl, rfl⟩
      refine key s1 (by unfold Effect; rw [if_neg (by rw [hi]; simp)]; exact hmv) rfl ?_
      simp only [Bool.false_eq_true, if_false, hl, Option.getD_some]
      refine ⟨hS.targets t htm l' hl, hls, ?_⟩
      show (s.cur.set 0 (some (M.comb l'.1 l'.2)))[0]? = _
      simp [List.getElem?_set, hlen]

/-! ## C71 -/

/-- The calls that send the given events with their payloads. -/
def sends (evs : List (EventTy × P)) : List (Op P) := evs.map fun x => .process x.1 x.2

theorem depsOf_sends (d : Dep) : ∀ evs : List (EventTy × P), depsOf d (sends evs) = [d] := by
  intro evs
  unfold depsOf
  rw [List.filterMap_eq_nil_iff.2]
  · rfl
  · intro op hop
    obtain ⟨x, _, rfl⟩ := List.mem_map.1 hop
    rfl

theorem sends_snoc {evs : List (EventTy × P)} {ops : List (Op P)} {op : Op P}
    (h : ops ++ [op] = sends evs) : ∃ evs' ev pl, evs = evs' ++ [(ev, pl)] ∧ ops = sends evs' ∧
      op = .process ev pl := by
  rcases List.eq_nil_or_concat evs with rfl | ⟨evs', x, rfl⟩
  · simp [sends] at h
  · simp only [sends, List.concat_eq_append, List.map_append, List.map_cons, List.map_nil] at h
    obtain ⟨h1, h2⟩ := List.append_inj' h rfl
    exact ⟨evs', x.1, x.2, by simp, h1, by simpa using h2⟩

/-- C71: whatever events a plain machine was sent, it is where the automaton is and has called the
callbacks the automaton calls, in the same order. -/
theorem C71_behaviour (hM : M.Regular) (hS : M.Scoped) (hP : M.Plain) (hp : Populated M sem)
    (hy : Steady sem yes) {d : Dep} {i : Name} (hi : (M.declaredInitials M.root).head? = some i)
    {evs : List (EventTy × P)} {s : SM P W} (h : RunTo M sem d (sends evs) s) :
    At M s 0 (M.behave yes (M.root, .st i) (evs.map (·.1))).1.1
      (M.behave yes (M.root, .st i) (evs.map (·.1))).1.2 ∧
    s.trace.map Call.who = (M.behave yes (M.root, .st i) (evs.map (·.1))).2 := by
  generalize ho : sends evs = ops at h
  induction h generalizing evs with
  | init h =>
    obtain ⟨h1, _, _, h2, _⟩ := C46_initial hM h
    have : evs = [] := by simpa [sends] using ho
    subst this
    rw [List.head?_eq_getElem?] at hi
    exact ⟨h1 0 i hi, by rw [h2]; rfl⟩
  | @ok s s' ops op fuel b hr hop h ih =>
    obtain ⟨evs', ev, pl, rfl, hops, rfl⟩ := sends_snoc ho.symm
    obtain ⟨ha, htr⟩ := ih hops.symm
    obtain ⟨s'', hrun, hat, htrace⟩ := plain_event hM hS hP hy (d := d) ha ev pl
    have hev := hop.event
    have hrun0 := processEvent_ok hM hev (hr.ready hM) h
    rw [← depsOf_sends d evs', ← hops] at hrun
    obtain ⟨_, rfl⟩ := (C49_unique hM hp hr hev pl).1 _ _ _ _ hrun0 hrun
    simp only [List.map_append, List.map_cons, List.map_nil, Machine.behave_snoc]
    exact ⟨hat, by rw [htrace, htr]⟩
  | @throw s s' ops op fuel x hr hop h ih =>
    obtain ⟨evs', ev, pl, rfl, hops, rfl⟩ := sends_snoc ho.symm
    obtain ⟨ha, htr⟩ := ih hops.symm
    obtain ⟨s'', hrun, _, _⟩ := plain_event hM hS hP hy (d := d) ha ev pl
    have hev := hop.event
    rw [← depsOf_sends d evs', ← hops] at hrun
    rcases processEvent_throw hM hev (hr.ready hM) h with ⟨k, _, hk⟩ | ⟨_, ⟨c, hc, hge⟩, os, pl', ht, hn⟩
    · exact absurd hk ((C49_unique hM hp hr hev pl).2.2 _ _ _ _ hrun)
    · rw [ht.same_of_none hn, ha.2.2] at hc
      cases hc
      exact absurd (hM.comb_lt.2 ⟨ha.1, ha.2.1⟩) (by omega)
  | world hr w ih => exact ih ho

/-- C71: and it answers the next event as the automaton does. -/
theorem C71_answer (hM : M.Regular) (hS : M.Scoped) (hP : M.Plain) (hp : Populated M sem)
    (hy : Steady sem yes) {d : Dep} {i : Name} (hi : (M.declaredInitials M.root).head? = some i)
    {evs : List (EventTy × P)} {s : SM P W} (h : RunTo M sem d (sends evs) s) {ev : EventTy}
    (hev : ev ∈ M.events) (pl : P) :
    ∃ s' n, RunTo M sem d (sends (evs ++ [(ev, pl)])) s' ∧ ∀ fuel, n ≤ fuel →
      processEvent M sem fuel ev pl s =
        .ok (M.answer yes ev (M.behave yes (M.root, .st i) (evs.map (·.1))).1).1 s' := by
  obtain ⟨ha, _⟩ := C71_behaviour hM hS hP hp hy hi h
  obtain ⟨s', hrun, _⟩ := plain_event hM hS hP hy (d := d) ha ev pl
  rw [← depsOf_sends d evs] at hrun
  obtain ⟨n, hn⟩ := (C49_returns hM hp h hev pl _ _).1 hrun
  refine ⟨s', n, ?_, hn⟩
  have := RunTo.ok (op := .process ev pl) (fuel := n) h (opOk_event hev) (hn n (Nat.le_refl n))
  simpa [sends] using this

/-- C71: every sequence of events of the machine has such a run. -/
theorem C71_total (hM : M.Regular) (hS : M.Scoped) (hP : M.Plain) (hp : Populated M sem)
    (hy : Steady sem yes) (d : Dep) (w : W) (evs : List (EventTy × P))
    (hev : ∀ x ∈ evs, x.1 ∈ M.events) : ∃ s, RunTo M sem d (sends evs) s := by
  obtain ⟨i, hi⟩ : ∃ i, (M.declaredInitials M.root).head? = some i := by
    have := hS.rootInit
    cases h : M.declaredInitials M.root with
    | nil => exact absurd h this
    | cons i _ => exact ⟨i, rfl⟩
  suffices ∀ rs : List (EventTy × P), (∀ x ∈ rs, x.1 ∈ M.events) →
      ∃ s, RunTo M sem d (sends rs.reverse) s by
    have := this evs.reverse (fun x hx => hev x (List.mem_reverse.1 hx))
    rwa [List.reverse_reverse] at this
  clear hev
  intro rs
  induction rs with
  | nil =>
    intro _
    obtain ⟨s, hs⟩ := (C06_construct (P := P) hM d w).1.2
      ⟨(Machine.scopesReal_iff hM).2 ⟨hS.src, hS.comp⟩, fun _ => hS.rootInit⟩
    exact ⟨s, .init hs⟩
  | cons x rs ih =>
    intro hev
    obtain ⟨s, hs⟩ := ih (fun y hy => hev y (List.mem_cons_of_mem _ hy))
    obtain ⟨s', n, h, _⟩ := C71_answer hM hS hP hp hy hi hs (hev x List.mem_cons_self) x.2
    exact ⟨s', by rw [List.reverse_cons]; exact h⟩

/-! ## Flat machines -/

/-- A row of composite `p` as it is read. -/
def Row.read (p : Name) (r : Row) : XRow :=
  { parent := p, source := r.source, event := r.event, guard := r.guard, action := r.action,
    target := r.target, internal := false }

/-- State `s` is neither composite nor has internal rows. -/
def Machine.Simple (M : Machine) (s : Name) : Prop :=
  M.isComposite s = false ∧ (M.decl s).itable = none

/-- The machine is one table whose rows lead from simple states to simple states. -/
structure Machine.Flat (M : Machine) : Prop where
  source : ∀ r ∈ M.rows M.root, ∃ s, Machine.plain r.source = .st s ∧ s ≠ M.root ∧ M.Simple s
  target : ∀ r ∈ M.rows M.root, ∃ s, r.target = .st s ∧ s ≠ M.root ∧ M.Simple s
  root : (M.decl M.root).itable = none

theorem Machine.Flat.extRows (h : M.Flat) : M.extRows = (M.rows M.root).map (Row.read M.root) := by
  unfold Machine.extRows
  simp only [Machine.reading]
  have : ∀ rs : List Row, (∀ r ∈ rs, r ∈ M.rows M.root) →
      (rs.map fun r =>
        ({ parent := M.root, source := r.source, event := r.event, guard := r.guard,
           action := r.action, target := r.target, internal := false } : XRow) ::
          (M.leadsInto r.target).elim [] (M.reading (M.rank M.root))).flatten =
        rs.map (Row.read M.root) := by
    intro rs
    induction rs with
    | nil => intro _; rfl
    | cons r rs ih =>
      intro hrs
      obtain ⟨s, hs, _, hc, _⟩ := h.target r (hrs r List.mem_cons_self)
      have hl : M.leadsInto r.target = none := by
        rw [hs]; simp [Machine.leadsInto, hc]
      rw [List.map_cons, List.flatten_cons, hl, ih (fun r' hr' => hrs r' (List.mem_cons_of_mem _ hr'))]
      rfl
  exact this _ (fun _ h => h)

theorem Machine.Flat.intRows (h : M.Flat) : M.intRows = [] := by
  have : M.places.flatMap M.innerRows = [] := by
    rw [List.flatMap_eq_nil_iff]
    intro x hx
    unfold Machine.places at hx
    rw [List.mem_eraseDups, h.extRows] at hx
    have hin : ∀ p s, M.Simple s → M.innerRows (p, .st s) = [] := by
      intro p s hs
      simp [Machine.innerRows, hs.2]
    rcases List.mem_cons.1 hx with rfl | hx
    · simp [Machine.innerRows, h.root]
    · obtain ⟨t, ht, hx⟩ := List.mem_flatMap.1 hx
      obtain ⟨r, hr, rfl⟩ := List.mem_map.1 ht
      obtain ⟨s1, h1, _, hs1⟩ := h.source r hr
      obtain ⟨s2, h2, _, hs2⟩ := h.target r hr
      simp only [Row.read, List.mem_cons, List.not_mem_nil, or_false] at hx
      rcases hx with rfl | rfl
      · rw [h1]; exact hin _ _ hs1
      · rw [h2]; exact hin _ _ hs2
  unfold Machine.intRows
  rw [this]; rfl

/-- C71: in a flat machine the rows tried are those of the table with this event that start in the
state, the last one first. -/
theorem C71_flat (h : M.Flat) (ev : EventTy) (s : Name) :
    M.rowsAt ev (M.root, .st s) =
      (((M.rows M.root).filter fun r => decide (r.event = ev ∧ Machine.plain r.source = .st s)).map
        (Row.read M.root)).reverse := by
  have hcand : ∀ rs : List Row, (∀ r ∈ rs, r ∈ M.rows M.root) →
      (((rs.map (Row.read M.root)).filter fun t => t.event = ev).flatMap
        (M.extCands M.root (.st s))).filterMap Cand.row? =
      (rs.filter fun r => decide (r.event = ev ∧ Machine.plain r.source = .st s)).map
        (Row.read M.root) := by
    intro rs
    induction rs with
    | nil => intro _; rfl
    | cons r rs ih =>
      intro hrs
      have ih := ih (fun r' hr' => hrs r' (List.mem_cons_of_mem _ hr'))
      obtain ⟨s1, h1, hne, _⟩ := h.source r (hrs r List.mem_cons_self)
      have hx : M.extCands M.root (.st s) (Row.read M.root r) =
          if Machine.plain r.source = .st s then [Cand.row (Row.read M.root r)] else [] := by
        unfold Machine.extCands Row.read
        have hns : r.source ≠ .st M.root := by
          intro hs; rw [hs] at h1; simp [Machine.plain] at h1; exact hne h1.symm
        have hsl : Machine.sourceLoc M.root r.source = (M.root, Machine.plain r.source) := by
          cases hsrc : r.source with
          | st _ => rfl
          | ps o k =>
            rw [hsrc] at h1
            cases k <;> simp [Machine.plain] at h1
            rfl
        simp [hns, hsl]
      rw [List.map_cons]
      by_cases he : r.event = ev
      · have : (Row.read M.root r).event = ev := he
        rw [List.filter_cons_of_pos (by simpa using this), List.flatMap_cons, List.filterMap_append, ih, hx]
        by_cases hp : Machine.plain r.source = .st s
        · rw [if_pos hp, List.filter_cons_of_pos (by simp [he, hp])]
          rfl
        · rw [if_neg hp, List.filter_cons_of_neg (by simp [hp])]
          rfl
      · have : (Row.read M.root r).event ≠ ev := he
        rw [List.filter_cons_of_neg (by simpa using this), List.filter_cons_of_neg (by simp [he]), ih]
  unfold Machine.rowsAt Machine.cands
  rw [h.intRows, h.extRows]
  have hrep : ∀ n, (List.replicate n Cand.defer).filterMap Cand.row? = [] := by
    intro n
    rw [List.filterMap_eq_nil_iff]
    intro c hc
    rw [(List.mem_replicate.1 hc).2]; rfl
  simp only [List.reverse_nil, List.filter_nil, List.flatMap_nil, List.append_nil,
    List.filterMap_append, hrep, List.nil_append]
  rw [← List.map_reverse, hcand _ (fun r hr => List.mem_reverse.1 hr), List.filter_reverse,
    List.map_reverse]

/-- Evaluates `Flat`. -/
def Machine.flatB (M : Machine) : Bool :=
  let ok : StTy → Bool := fun st => match st with
    | .st s => decide (s ≠ M.root) && !M.isComposite s && (M.decl s).itable.isNone
    | .ps _ _ => false
  (M.rows M.root).all (fun r => ok (Machine.plain r.source) && ok r.target) &&
    (M.decl M.root).itable.isNone

theorem Machine.flat_of_check (h : M.flatB = true) : M.Flat := by
  unfold Machine.flatB at h
  simp only [Bool.and_eq_true, List.all_eq_true, Option.isNone_iff_eq_none] at h
  have key : ∀ st : StTy, (match st with
      | .st s => decide (s ≠ M.root) && !M.isComposite s && (M.decl s).itable.isNone
      | .ps _ _ => false) = true → ∃ s, st = .st s ∧ s ≠ M.root ∧ M.Simple s := by
    intro st hst
    cases st with
    | ps _ _ => cases hst
    | st s =>
      simp only [Bool.and_eq_true, decide_eq_true_eq, Bool.not_eq_true', Option.isNone_iff_eq_none] at hst
      exact ⟨s, rfl, hst.1.1, hst.1.2, hst.2⟩
  exact ⟨fun r hr => key _ (h.1 r hr).1, fun r hr => key _ (h.1 r hr).2, h.2⟩

end
end Hsm
