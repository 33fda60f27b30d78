import Verif.RunLemmas

/-!
# The specification of event processing is complete

`EventLemmas` shows that whatever `process_event` does is allowed by the relations of
`SpecStep`.  Here is the converse: in a machine whose state objects all exist, what the
relations allow is what `process_event` does.  Hence the relations leave no choice.
-/

namespace Hsm
section
variable {P W : Type} {M : Machine} {sem : Sem P W}

/-- The object of every state exists whenever a callback may need it. -/
def Populated (M : Machine) (sem : Sem P W) : Prop :=
  ∀ st w, M.selfMade st = true ∨ sem.alive st w = true

theorem Populated.objOk (h : Populated M sem) (st : StTy) (s : SM P W) : objOk M sem st s = true := by
  unfold Hsm.objOk
  rw [Machine.defaultCtor_eq]
  rcases h st s.world with h | h <;> rw [h] <;> simp

/-! ## Moving -/

theorem getElem?_of_shape {l l' : List (List Nat)} (h : l'.map List.length = l.map List.length)
    {k : Nat} {x' : List Nat} (hx : l'[k]? = some x') : ∃ x, l[k]? = some x ∧ x.length = x'.length := by
  have := congrArg (·[k]?) h
  simp only [List.getElem?_map, hx] at this
  cases hl : l[k]? with
  | none => rw [hl] at this; cases this
  | some x =>
    rw [hl] at this
    simp only [Option.map_some, Option.some.injEq] at this
    exact ⟨x, rfl, this.symm⟩

/-- The memory after a move is determined. -/
theorem Moves.hist_eq (hM : M.Regular) {s s' : SM P W} (hb : Basic M s) {r : Nat} {t : XRow}
    (hm : Moves M r t s s') (hh : M.historic = true) :
    ∃ k c l, s.cur[0]? = some (some k) ∧ s.cur[r]? = some (some c) ∧
      s.hist[k / M.nStates]? = some l ∧ r < l.length ∧
      s'.hist = s.hist.set (k / M.nStates) (l.set r c) := by
  rcases hm.memory with ⟨h, _⟩ | ⟨_, p0, st0, c, ha, hc, ⟨l', hl', hlc⟩, hrest⟩
  · rw [hh] at h; cases h
  obtain ⟨l, hl, hlen⟩ := getElem?_of_shape hm.shape hl'
  have hr : r < l.length := by rw [hlen]; exact (List.getElem?_eq_some_iff.1 hlc).1
  have hp := hM.parentIdx_lt.2 ha.1
  have hn := hb.histLength
  have hn' : s'.hist.length = M.nParents := by
    have := congrArg List.length hm.shape
    rw [List.length_map, List.length_map, hn] at this
    exact this
  refine ⟨M.comb p0 st0, c, l, ha.2.2, hc, by rw [hM.comb_div ha.1 ha.2.1]; exact hl, hr, ?_⟩
  rw [hM.comb_div ha.1 ha.2.1]
  apply List.ext_getElem?
  intro k
  by_cases hk : k < M.nParents
  · have hkp : ∃ q ∈ M.composites, M.parentIdx q = k := by
      have hlt : k * M.nStates < M.size := by
        unfold Machine.size
        rw [Nat.mul_comm M.nStates]
        exact Nat.mul_lt_mul_of_pos_right hk Machine.nStates_pos
      obtain ⟨q, st, hq, hst, he⟩ := hM.comb_surj hlt
      refine ⟨q, hq, ?_⟩
      rw [← hM.comb_div hq hst, he, Nat.mul_div_cancel _ Machine.nStates_pos]
    obtain ⟨q, hq, rfl⟩ := hkp
    by_cases hqp : q = p0
    · subst hqp
      rw [List.getElem?_set_self (by rw [hn]; exact hk), hl']
      congr 1
      apply List.ext_getElem?
      intro i
      by_cases hir : i = r
      · subst hir
        rw [List.getElem?_set_self hr, hlc]
      · rw [List.getElem?_set_ne (Ne.symm hir)]
        apply Option.ext
        intro c'
        have := hrest q hq i (Or.inr hir) c'
        unfold Remembers at this
        rw [hl', hl] at this
        simpa using this
    · rw [List.getElem?_set_ne (fun he => hqp (hM.parentIdx_inj hq ha.1 he.symm))]
      have hx' : s'.hist[M.parentIdx q]? = some (s'.hist[M.parentIdx q]'(by omega)) :=
        List.getElem?_eq_getElem _
      generalize s'.hist[M.parentIdx q]'(by omega) = x' at hx'
      obtain ⟨x, hx, _⟩ := getElem?_of_shape hm.shape hx'
      rw [hx', hx]
      congr 1
      apply List.ext_getElem?
      intro i
      apply Option.ext
      intro c'
      have := hrest q hq i (Or.inl hqp) c'
      unfold Remembers at this
      rw [hx', hx] at this
      simpa using this
  · rw [List.getElem?_eq_none (by omega), List.getElem?_eq_none (by rw [List.length_set]; omega)]

/-- A move allowed by the specification is what `update_current_state` does. -/
theorem Moves.updateState (hM : M.Regular) {s s' : SM P W} (hb : Basic M s) {r : Nat} {e : Entry}
    {t : XRow} (ht : t ∈ M.flat) {l : Name × StTy}
    (hl : M.targetLoc t = some l) (hto : e.to = M.comb l.1 l.2)
    (hh : e.history = Machine.isHistory t.target) (hi : e.internal = false)
    (hm : Moves M r t s s') : updateState M r e s = .ok () s' := by
  obtain ⟨c, hcur, hc1, hc2⟩ := hm.dest
  -- the destination
  have hd1 : e.history = false → c = e.to := by
    intro h
    obtain ⟨l', hl', hc⟩ := hc2 (by
      intro o p hp
      rw [hh, hp] at h
      cases h)
    rw [hl] at hl'
    cases hl'
    rw [hc, hto]
  have hd2 : e.history = true → M.historic = true ∧
      ∃ l', s'.hist[e.to / M.nStates]? = some l' ∧ l'[r]? = some c := by
    intro h
    have : ∃ o p, t.target = .ps o (.history p) := by
      rw [hh] at h
      unfold Machine.isHistory at h
      split at h
      · exact ⟨_, _, by assumption⟩
      · cases h
    obtain ⟨o, p, hp⟩ := this
    obtain ⟨hpp, i, hli, hst, _⟩ := Machine.history_target hM ht hp
    rw [hl] at hli
    cases hli
    obtain ⟨l', h1, h2⟩ := hc1 o p hp
    refine ⟨Machine.historic_iff.2 ⟨t, ht, _, _, hp⟩, l', ?_, h2⟩
    rw [hto, hM.comb_div hpp hst]
    exact h1
  -- the number of regions
  have hreg : updateRegions M { s with hist := s'.hist, cur := s'.cur } =
      .ok () { s with hist := s'.hist, cur := s'.cur, regions := s'.regions } := by
    rw [updateRegions_ok]
    rcases hm.regions with ⟨ho, hr⟩ | ⟨ho, p, st, ha, hr⟩
    · exact Or.inl ⟨ho, by rw [hr]⟩
    · refine Or.inr ⟨ho, M.comb p st, (M.initials p).map fun s => M.comb p (.st s), ha.2.2, ?_, ?_⟩
      · show s.initial[_]? = _
        rw [hb.initial, hM.comb_div ha.1 ha.2.1, Machine.initialTable_get hM ha.1]
      · rw [hr, Machine.declaredInitials_eq]
        simp
  have hmove : moveState M r e s =
      .ok () { s with hist := s'.hist, cur := s'.cur, regions := s'.regions } := by
    unfold moveState
    rw [Machine.hasHistory_eq]
    cases hist : M.historic with
    | false =>
      have hs' : s'.hist = s.hist := by
        rcases hm.memory with ⟨_, h⟩ | ⟨h, _⟩
        · exact h
        · rw [hist] at h; cases h
      have he : e.history = false := by
        cases h : e.history with
        | false => rfl
        | true => have := (hd2 h).1; rw [hist] at this; cases this
      simp only [Bool.false_eq_true, if_false]
      rw [Res.bind_ok]
      refine ⟨(), { s with hist := s'.hist, cur := s'.cur }, ?_, hreg⟩
      rw [writeCur_ok]
      refine ⟨hm.slot, ?_⟩
      rw [hs', hcur, hd1 he]
    | true =>
      obtain ⟨k, c0, l0, h1, h2, h3, h4, h5⟩ := hm.hist_eq hM hb hist
      simp only [if_true]
      rw [Res.bind_ok]
      refine ⟨(), { s with hist := s'.hist }, ?_, ?_⟩
      · rw [saveHistory_ok]
        exact ⟨k, c0, l0, h1, h2, h3, h4, by rw [h5]⟩
      · rw [Res.bind_ok]
        refine ⟨(), { s with hist := s'.hist, cur := s'.cur }, ?_, hreg⟩
        cases he : e.history with
        | false =>
          simp only [Bool.false_eq_true, if_false]
          rw [writeCur_ok]
          refine ⟨hm.slot, ?_⟩
          rw [hcur, hd1 he]
        | true =>
          simp only [if_true]
          rw [Res.bind_ok]
          refine ⟨c, { s with hist := s'.hist }, ?_, ?_⟩
          · rw [readHistory_ok]
            exact ⟨rfl, (hd2 he).2⟩
          · rw [writeCur_ok]
            refine ⟨hm.slot, ?_⟩
            rw [hcur]
  unfold Hsm.updateState
  rw [hi, hmove]
  simp only [Bool.false_eq_true, if_false, Res.bind]
  obtain ⟨cur, initial, hist, queue, regions, table, handlers, world, trace, log⟩ := s'
  have h1 := hm.initial
  have h2 := hm.queue
  have h3 := hm.table
  have h4 := hm.handlers
  have h5 := hm.world
  have h6 := hm.trace
  have h7 := hm.log
  simp only at h1 h2 h3 h4 h5 h6 h7
  subst h1 h2 h3 h4 h5 h6 h7
  rfl

theorem Effect.updateState (hM : M.Regular) {s s' : SM P W} (hb : Basic M s) {r : Nat} {e : Entry}
    {t : XRow} (ht : t ∈ M.flat ++ M.iflat) {l : Name × StTy}
    (hl : M.targetLoc t = some l) (hto : e.to = M.comb l.1 l.2)
    (hh : e.history = Machine.isHistory t.target) (hi : e.internal = t.internal)
    (h : Effect M r t s s') : updateState M r e s = .ok () s' := by
  unfold Effect at h
  cases hti : t.internal with
  | true =>
    rw [hti] at h
    simp only [if_true] at h
    unfold Hsm.updateState
    rw [hi, hti, h]
    simp
  | false =>
    rw [hti] at h
    simp only [Bool.false_eq_true, if_false] at h
    have htf : t ∈ M.flat := by
      rcases List.mem_append.1 ht with ht | ht
      · exact ht
      · rw [Machine.iflat_internal ht] at hti; cases hti
    exact Moves.updateState hM hb htf hl hto hh (by rw [hi, hti]) h

/-! ## Callbacks -/

theorem TrueGuard.exec (hp : Populated M sem) {cur : List (Option Nat)} {x : Exec} {ev : EventTy}
    {p p' : P} {w w' : W} {tr : List (Call P)} (h : TrueGuard sem cur ev x p w tr p' w')
    {s : SM P W} (hc : s.cur = cur) (hw : s.world = w) :
    execGuard M sem x ev p s = .ok (true, p') (s.ran w' tr) := by
  subst hc hw
  cases h with
  | absent h => rw [execGuard_none h, ran_nil]
  | called h hc =>
    rw [execGuard_some h]
    simp only [hp.objOk, Bool.and_self, if_true, hc]

theorem ActRun.exec {cur : List (Option Nat)} {args : Args} {cs : List (Phase × Cb)} {p p' : P}
    {w w' : W} {tr : List (Call P)} (h : ActRun sem cur args cs p w tr p' w') :
    ∀ {s : SM P W}, s.cur = cur → s.world = w → runCbs sem args cs p s = .ok p' (s.ran w' tr) := by
  induction h with
  | nil p w =>
    intro s _ hw
    subst hw
    unfold runCbs
    rw [ran_nil]
  | cons hc _ ih =>
    intro s hcur hw
    subst hcur hw
    unfold runCbs
    rw [hc]
    simp only
    rw [ih (by rfl) (by rfl)]
    unfold SM.ran
    simp

theorem ActThrow.exec {cur : List (Option Nat)} {args : Args} {cs : List (Phase × Cb)} {p : P}
    {w w' : W} {tr : List (Call P)} {n : Nat} (h : ActThrow sem cur args cs p w tr n w') :
    ∀ {s : SM P W}, s.cur = cur → s.world = w →
      runCbs sem args cs p s = .throw (.user n) (s.ran w' tr) := by
  induction h with
  | here hc =>
    intro s hcur hw
    subst hcur hw
    unfold runCbs
    rw [hc]
    rfl
  | later hc _ ih =>
    intro s hcur hw
    subst hcur hw
    unfold runCbs
    rw [hc]
    simp only
    rw [ih (by rfl) (by rfl)]
    unfold SM.ran
    simp

/-- The callbacks of a row are run by `executeAction`. -/
theorem execAction_eq (hp : Populated M sem) {x : Exec} {ev : EventTy} {p : P} {s : SM P W} :
    execAction M sem x ev p s = runCbs sem (actionArgs M x ev) x.cbs p s := by
  unfold execAction Exec.cbs
  cases x.action with
  | none => rfl
  | some cs => simp only [hp.objOk, if_true, Option.getD_some]

theorem FalseRun.exec (hp : Populated M sem) {r : Nat} {cur : List (Option Nat)} {ev : EventTy}
    {es : List Entry} {p p' : P} {w w' : W} {tr : List (Call P)}
    (h : FalseRun sem cur ev es p w tr p' w') : ∀ {s : SM P W} (post : List Entry), s.cur = cur →
    s.world = w →
    tryEntries M sem r ev (es ++ post) p s = tryEntries M sem r ev post p' (s.ran w' tr) := by
  induction h with
  | nil p w =>
    intro s post _ hw
    subst hw
    rw [ran_nil]
    rfl
  | @cons e es x g p p1 p2 w w1 w2 tr hd ht hg hc _ ih =>
    intro s post hcur hw
    subst hcur hw
    rw [List.cons_append]
    conv => lhs; unfold tryEntries
    rw [hd, ht]
    simp only [Bool.false_eq_true, if_false]
    rw [execGuard_some hg]
    simp only [hp.objOk, Bool.and_self, if_true, hc, Res.bind, Bool.false_eq_true, if_false]
    rw [ih post (by rfl) (by rfl), ran_ran]
    rfl

/-! ## One region -/

/-- The table entry of the candidate that is selected. -/
theorem Selected.entry {deps : List Dep} {ev : EventTy} {p : Name} {st : StTy} {c : Cand} {t : XRow}
    {d : Dep} {l : Name × StTy} {x : Exec} {pre : List Entry}
    (h : Selected M deps ev p st c t d l x pre) :
    ∃ e post, M.entries deps ev p st = pre ++ e :: post ∧ e.tr = some x ∧ e.defer = false ∧
      t ∈ M.flat ++ M.iflat ∧ e.to = M.comb l.1 l.2 ∧ e.history = Machine.isHistory t.target ∧
      e.internal = t.internal ∧ x.cbs = M.callbacks t := by
  obtain ⟨e, post, hes, hen, hx⟩ := h.entries
  rcases Machine.entryOfCand_cases hen with ⟨_, _, h3, _⟩ |
      ⟨t', l', x', hct, hl, hto, hh, hdf, hi, hx', hxi, hxa, _⟩
  · rw [h3] at hx; cases hx
  · rw [hx] at hx'
    cases hx'
    have htt : t' = t := by
      have := h.row
      rcases hct with h1 | ⟨q, h1⟩ <;> (rw [h1] at this; cases this; rfl)
    subst htt
    have := h.loc
    rw [hl] at this
    cases this
    refine ⟨e, post, hes, hx, hdf, ?_, hto, hh, hi, ?_⟩
    · rcases Machine.cand_row h.mem with h4 | ⟨t'', ht', _, h5⟩
      · rcases hct with h1 | ⟨q, h1⟩ <;> (rw [h1] at h4; cases h4)
      · rcases hct with h1 | ⟨q, h1⟩ <;> rcases h5 with h5 | h5 <;> rw [h1] at h5 <;> cases h5 <;>
          exact ht'
    · unfold Exec.cbs
      rw [hxa, Machine.resolveAction_cbs]

theorem lookup_at (hM : M.Regular) {deps : List Dep} {s : SM P W} (hg : Good M deps s)
    {r : Nat} {ev : EventTy} {p : Name} {st : StTy} (ha : At M s r p st) :
    lookup M ev r s = .ok (M.entries deps ev p st) s := by
  rw [lookup_ok]
  exact ⟨rfl, _, ha.2.2, hM.comb_lt.2 ⟨ha.1, ha.2.1⟩, (hg.table ev p st ha.1 ha.2.1).symm⟩

theorem regionStep_eq (hM : M.Regular) {deps : List Dep} {s : SM P W} (hg : Good M deps s)
    {r : Nat} {ev : EventTy} {p : Name} {st : StTy} (ha : At M s r p st) (pl : P)
    (hne : M.entries deps ev p st ≠ []) :
    regionStep M sem r ev pl s = tryEntries M sem r ev (M.entries deps ev p st) pl s := by
  unfold regionStep
  rw [lookup_at hM hg ha]
  cases hes : M.entries deps ev p st with
  | nil => exact absurd hes hne
  | cons e es => rfl

/-- Firing the selected candidate. -/
theorem Selected.fire (hM : M.Regular) (hp : Populated M sem) {deps : List Dep} {r : Nat}
    {ev : EventTy} {p : Name} {st : StTy} {c : Cand} {t : XRow} {d : Dep} {l : Name × StTy} {x : Exec}
    {pre : List Entry} (hs : Selected M deps ev p st c t d l x pre) {s s1 : SM P W}
    (hg : Good M deps s) {pl p1 p2 : P} {w1 w2 : W} {tr1 tr2 : List (Call P)}
    (hf : FalseRun sem s.cur ev pre pl s.world tr1 p1 w1)
    (hgd : TrueGuard sem s.cur ev x p1 w1 tr2 p2 w2)
    (he : Effect M r t (s.ran w2 (tr1 ++ tr2)) s1) :
    M.entries deps ev p st ≠ [] ∧ tryEntries M sem r ev (M.entries deps ev p st) pl s =
      (runCbs sem (cbArgs M c t l ev d) (M.callbacks t) p2 s1).bind fun q s => .ok (.fired, q) s := by
  obtain ⟨e, post, hes, hx, hdf, ht, hto, hh, hi, hcb⟩ := hs.entry
  refine ⟨by rw [hes]; simp, ?_⟩
  rw [hes, hf.exec hp (e :: post) rfl rfl]
  unfold tryEntries
  rw [hdf, hx]
  simp only [Bool.false_eq_true, if_false]
  rw [hgd.exec hp (by rfl) (by rfl), ran_ran]
  simp only [Res.bind, if_true]
  unfold Hsm.fire
  rw [Effect.updateState hM (hg.ran _ _).basic ht hs.loc hto hh hi he]
  simp only [Res.bind]
  rw [execAction_eq hp, actionArgs_eq hs.src hs.dst hs.internal hs.xdep, hcb]

theorem Effect.world {r : Nat} {t : XRow} {s s' : SM P W} (h : Effect M r t s s') :
    s'.world = s.world := by
  unfold Effect at h
  split at h
  · rw [h]
  · exact h.world

theorem RegionRun.tried (hM : M.Regular) (hp : Populated M sem) {deps : List Dep} {s s' : SM P W}
    (hg : Good M deps s) {r : Nat} {ev : EventTy} {pl pl' : P} {o : RegionOut}
    (h : RegionRun M sem deps r ev pl s o pl' s') :
    ∃ p st, At M s r p st ∧ ((o = .none ∧ pl' = pl ∧ s' = s ∧ M.entries deps ev p st = []) ∨
      (o ≠ .none ∧ M.entries deps ev p st ≠ [] ∧
        tryEntries M sem r ev (M.entries deps ev p st) pl s = .ok (o, pl') s' ∧
        (o ≠ .deferred → ∀ e ∈ M.entries deps ev p st, e.defer = false))) := by
  cases h with
  | @none p st ha hc => exact ⟨p, st, ha, Or.inl ⟨rfl, rfl, rfl, (Machine.entries_eq_nil hM hg.ne).2 hc⟩⟩
  | @rejected p st pl' tr w ha hne hf =>
    have := hf.exec (M := M) (r := r) hp (s := s) [] rfl rfl
    rw [List.append_nil] at this
    refine ⟨p, st, ha, Or.inr ⟨by simp, fun h => hne ((Machine.entries_eq_nil hM hg.ne).1 h), ?_,
      fun _ => hf.no_defer⟩⟩
    rw [this]
    rfl
  | @deferred p st ha hd =>
    obtain ⟨d, hdm⟩ := List.exists_mem_of_ne_nil _ hg.ne
    obtain ⟨e, es, h1, h2, _⟩ := Machine.entries_head_defer
      (Machine.mem_entries.2 ⟨d, hdm, _, hd, rfl⟩) rfl
    refine ⟨p, st, ha, Or.inr ⟨by simp, by rw [h1]; simp, ?_, fun h => absurd rfl h⟩⟩
    rw [h1]
    unfold tryEntries
    rw [h2]
    simp
  | @fired p st c t d l x pre p1 p2 p3 tr1 tr2 tr3 w1 w2 w3 s1 ha hs hf hgd he hr =>
    obtain ⟨hne, heq⟩ := hs.fire hM hp hg hf hgd he
    have hw : s1.world = w2 := he.world
    refine ⟨p, st, ha, Or.inr ⟨by simp, hne, ?_, ?_⟩⟩
    · rw [heq, hr.exec rfl hw]
      rfl
    · intro _ e' he'
      cases hd : e'.defer with
      | false => rfl
      | true =>
        obtain ⟨en, es, h1, h2, _⟩ := Machine.entries_head_defer he' hd
        obtain ⟨e, post, hes, hx, hdf, _⟩ := hs.entry
        rw [h1] at hes
        cases pre with
        | nil => cases hes; rw [hdf] at h2; cases h2
        | cons e0 pre =>
          cases hes
          have := hf.no_defer en (by simp)
          rw [h2] at this; cases this

theorem RegionThrow.tried (hM : M.Regular) (hp : Populated M sem) {deps : List Dep} {s s' : SM P W}
    (hg : Good M deps s) {r : Nat} {ev : EventTy} {pl : P} {k : Nat}
    (h : RegionThrow M sem deps r ev pl s k s') :
    ∃ p st, At M s r p st ∧ M.entries deps ev p st ≠ [] ∧
      tryEntries M sem r ev (M.entries deps ev p st) pl s = .throw (.user k) s' ∧
      ∀ e ∈ M.entries deps ev p st, e.defer = false := by
  have nodef : ∀ {p st c t d l x pre tr p1 w1}, Selected M deps ev p st c t d l x pre →
      FalseRun sem s.cur ev pre pl s.world tr p1 w1 →
      ∀ e ∈ M.entries deps ev p st, e.defer = false := by
    intro p st c t d l x pre tr p1 w1 hs hf e' he'
    cases hd : e'.defer with
    | false => rfl
    | true =>
      obtain ⟨en, es, h1, h2, _⟩ := Machine.entries_head_defer he' hd
      obtain ⟨e, post, hes, hx, hdf, _⟩ := hs.entry
      rw [h1] at hes
      cases pre with
      | nil => cases hes; rw [hdf] at h2; cases h2
      | cons e0 pre =>
        cases hes
        have := hf.no_defer en (by simp)
        rw [h2] at this; cases this
  cases h with
  | @guard p st c t d l x pre g p1 p2 tr w1 w2 k ha hs hf hgd hc =>
    obtain ⟨e, post, hes, hx, hdf, _⟩ := hs.entry
    refine ⟨p, st, ha, by rw [hes]; simp, ?_, nodef hs hf⟩
    rw [hes, hf.exec hp (e :: post) rfl rfl]
    unfold tryEntries
    rw [hdf, hx]
    simp only [Bool.false_eq_true, if_false]
    rw [execGuard_some (by rw [hs.guard]; exact hgd)]
    have : (s.ran w1 tr).world = w1 := rfl
    simp only [hp.objOk, Bool.and_self, if_true, this, hc, Res.bind]
    rw [ran_ran]
    rfl
  | @action p st c t d l x pre p1 p2 tr1 tr2 tr3 w1 w2 w3 s1 k ha hs hf hgd he hr =>
    obtain ⟨hne, heq⟩ := hs.fire hM hp hg hf hgd he
    have hw : s1.world = w2 := he.world
    refine ⟨p, st, ha, hne, ?_, nodef hs hf⟩
    rw [heq, hr.exec rfl hw]
    rfl

theorem RegionRun.step (hM : M.Regular) (hp : Populated M sem) {deps : List Dep} {s s' : SM P W}
    (hg : Good M deps s) {r : Nat} {ev : EventTy} {pl pl' : P} {o : RegionOut}
    (h : RegionRun M sem deps r ev pl s o pl' s') :
    regionStep M sem r ev pl s = .ok (o, pl') s' := by
  obtain ⟨p, st, ha, ⟨rfl, rfl, rfl, hes⟩ | ⟨_, hne, ht, _⟩⟩ := h.tried hM hp hg
  · unfold regionStep
    rw [lookup_at hM hg ha, hes]
    rfl
  · rw [regionStep_eq hM hg ha pl hne, ht]

theorem RegionThrow.step (hM : M.Regular) (hp : Populated M sem) {deps : List Dep} {s s' : SM P W}
    (hg : Good M deps s) {r : Nat} {ev : EventTy} {pl : P} {k : Nat}
    (h : RegionThrow M sem deps r ev pl s k s') :
    regionStep M sem r ev pl s = .throw (.user k) s' := by
  obtain ⟨p, st, ha, hne, ht, _⟩ := h.tried hM hp hg
  rw [regionStep_eq hM hg ha pl hne, ht]

/-! ## All regions -/

/-- How the region loop ends, given what happened in each region. -/
def loopOut (agf ati : Bool) (os : List RegionOut) : LoopOut :=
  if RegionOut.deferred ∈ os then .deferred
  else .done (agf && decide (RegionOut.fired ∉ os)) (ati && decide (∀ o ∈ os, o = RegionOut.none))

theorem LoopRun.step (hM : M.Regular) (hp : Populated M sem) {deps : List Dep} {ev : EventTy}
    {rs : List Nat} {pl pl' : P} {s s' : SM P W} {os : List RegionOut}
    (h : LoopRun M sem deps ev rs pl s os pl' s') : Good M deps s → ∀ agf ati,
    regionLoop M sem ev rs agf ati pl s = .ok (loopOut agf ati os, pl') s' := by
  induction h with
  | nil pl s =>
    intro _ agf ati
    unfold regionLoop loopOut
    simp
  | @cons r rs pl p1 p2 s s1 s2 o os h1 ho _ ih =>
    intro hg agf ati
    have h1' := h1.step hM hp hg
    have hg1 := hg.regionStep h1'
    unfold regionLoop
    rw [h1']
    simp only [Res.bind]
    cases o with
    | none => rw [ih hg1]; simp [loopOut]
    | rejected =>
      show regionLoop M sem ev rs agf false p1 s1 = _
      rw [ih hg1]; simp [loopOut]
    | fired =>
      show regionLoop M sem ev rs false false p1 s1 = _
      rw [ih hg1]; simp [loopOut]
    | deferred => exact absurd rfl ho
  | @stop r rs pl p1 s s1 h1 =>
    intro hg agf ati
    unfold regionLoop
    rw [h1.step hM hp hg]
    simp [Res.bind, loopOut]

theorem LoopThrow.step (hM : M.Regular) (hp : Populated M sem) {deps : List Dep} {ev : EventTy}
    {rs : List Nat} {pl : P} {s s' : SM P W} {os : List RegionOut} {r k : Nat}
    (h : LoopThrow M sem deps ev rs pl s os r k s') : Good M deps s → ∀ agf ati,
    regionLoop M sem ev rs agf ati pl s = .throw (.user k) s' := by
  induction h with
  | here h =>
    intro hg agf ati
    unfold regionLoop
    rw [h.step hM hp hg]
    rfl
  | @later r r' rs pl p1 s s1 s2 o k os h1 ho _ ih =>
    intro hg agf ati
    have h1' := h1.step hM hp hg
    have hg1 := hg.regionStep h1'
    unfold regionLoop
    rw [h1']
    simp only [Res.bind]
    cases o with
    | deferred => exact absurd rfl ho
    | _ => exact ih hg1 _ _

/-! ## Anonymous rounds -/

theorem anonRound_cons (hM : M.Regular) {deps : List Dep} {s : SM P W} (hg : Good M deps s)
    {r : Nat} {rs : List Nat} {agf : Bool} {p : Name} {st : StTy} (ha : At M s r p st) (pl : P)
    (hne : M.entries deps .none p st ≠ []) :
    anonRound M sem (r :: rs) agf pl s =
      (tryAnon M sem r (M.entries deps .none p st) pl s).bind fun fp s =>
        anonRound M sem rs (agf && !fp.1) fp.2 s := by
  conv => lhs; unfold anonRound
  rw [lookup_at hM hg ha]
  cases hes : M.entries deps .none p st with
  | nil => exact absurd hes hne
  | cons e es => rfl

theorem AnonRound.step (hM : M.Regular) (hp : Populated M sem) {deps : List Dep}
    {rs : List Nat} {pl pl' : P} {s s' : SM P W} {os : List RegionOut} {b : Option Bool}
    (h : AnonRound M sem deps rs pl s os b pl' s') : Good M deps s → ∀ agf,
    anonRound M sem rs agf pl s = .ok (b.map fun f => agf && !f, pl') s' ∧ Good M deps s' := by
  induction h with
  | nil pl s =>
    intro hg agf
    unfold anonRound
    simp [hg]
  | @stop r rs pl s h =>
    intro hg agf
    obtain ⟨p, st, ha, ⟨_, _, _, hes⟩ | ⟨hn, _⟩⟩ := h.tried hM hp hg
    · refine ⟨?_, hg⟩
      unfold anonRound
      rw [lookup_at hM hg ha, hes]
      rfl
    · exact absurd rfl hn
  | @cons r rs pl p1 p2 s s1 s2 o os b h1 ho _ ih =>
    intro hg agf
    have hg1 := hg.regionStep (h1.step hM hp hg)
    obtain ⟨p, st, ha, ⟨rfl, _⟩ | ⟨_, hne, ht, hd⟩⟩ := h1.tried hM hp hg
    · rcases ho with ho | ho <;> cases ho
    · have hod : o ≠ .deferred := by rcases ho with rfl | rfl <;> simp
      obtain ⟨h2, hg2⟩ := ih hg1 (agf && !decide (o = .fired))
      refine ⟨?_, hg2⟩
      rw [anonRound_cons hM hg ha pl hne, tryAnon_eq (hd hod), ht]
      simp only [Res.bind]
      rw [h2, Option.map_map]
      congr 3
      funext f
      simp only [Function.comp]
      cases agf <;> cases f <;> simp

theorem AnonRoundThrow.step (hM : M.Regular) (hp : Populated M sem) {deps : List Dep}
    {rs : List Nat} {pl : P} {s s' : SM P W} {k : Nat}
    (h : AnonRoundThrow M sem deps rs pl s k s') : Good M deps s → ∀ agf,
    anonRound M sem rs agf pl s = .throw (.user k) s' := by
  induction h with
  | @here r rs pl s s1 k h =>
    intro hg agf
    obtain ⟨p, st, ha, hne, ht, hd⟩ := h.tried hM hp hg
    rw [anonRound_cons hM hg ha pl hne, tryAnon_eq hd, ht]
    rfl
  | @later r rs pl p1 s s1 s2 o k h1 ho _ ih =>
    intro hg agf
    have hg1 := hg.regionStep (h1.step hM hp hg)
    obtain ⟨p, st, ha, ⟨rfl, _⟩ | ⟨_, hne, ht, hd⟩⟩ := h1.tried hM hp hg
    · rcases ho with ho | ho <;> cases ho
    · have hod : o ≠ .deferred := by rcases ho with rfl | rfl <;> simp
      rw [anonRound_cons hM hg ha pl hne, tryAnon_eq (hd hod), ht]
      exact ih hg1 _

theorem AnonRun.step (hM : M.Regular) (hp : Populated M sem) {deps : List Dep} {pl : P}
    {s s' : SM P W} (h : AnonRun M sem deps pl s s') : Good M deps s →
    ∃ n, ∀ fuel, n ≤ fuel → anonLoop M sem fuel pl s = .ok () s' := by
  induction h with
  | @done pl p' s s' os b h hb =>
    intro hg
    refine ⟨1, fun fuel hf => ?_⟩
    obtain ⟨fuel, rfl⟩ : ∃ n, fuel = n + 1 := ⟨fuel - 1, by omega⟩
    unfold anonLoop
    rw [currentRegions_eq, (h.step hM hp hg true).1]
    simp only [Res.bind]
    rcases b with _ | _ | _
    · rfl
    · rfl
    · exact absurd rfl hb
  | @again pl p' s s1 s' os h _ ih =>
    intro hg
    obtain ⟨h1, hg1⟩ := h.step hM hp hg true
    obtain ⟨n, hn⟩ := ih hg1
    refine ⟨n + 1, fun fuel hf => ?_⟩
    obtain ⟨fuel, rfl⟩ : ∃ n, fuel = n + 1 := ⟨fuel - 1, by omega⟩
    unfold anonLoop
    rw [currentRegions_eq, h1]
    exact hn fuel (by omega)

theorem AnonThrow.step (hM : M.Regular) (hp : Populated M sem) {deps : List Dep} {pl : P}
    {s s' : SM P W} {k : Nat} (h : AnonThrow M sem deps pl s k s') : Good M deps s →
    ∃ n, ∀ fuel, n ≤ fuel → anonLoop M sem fuel pl s = .throw (.user k) s' := by
  induction h with
  | @here pl s s' k h =>
    intro hg
    refine ⟨1, fun fuel hf => ?_⟩
    obtain ⟨fuel, rfl⟩ : ∃ n, fuel = n + 1 := ⟨fuel - 1, by omega⟩
    unfold anonLoop
    rw [currentRegions_eq, h.step hM hp hg true]
    rfl
  | @later pl p' s s1 s' os k h _ ih =>
    intro hg
    obtain ⟨h1, hg1⟩ := h.step hM hp hg true
    obtain ⟨n, hn⟩ := ih hg1
    refine ⟨n + 1, fun fuel hf => ?_⟩
    obtain ⟨fuel, rfl⟩ : ∃ n, fuel = n + 1 := ⟨fuel - 1, by omega⟩
    unfold anonLoop
    rw [currentRegions_eq, h1]
    exact hn fuel (by omega)

/-! ## Turns and events -/

/-- How `process_event_internal` ends, given what happened in each region. -/
def procOut (os : List RegionOut) : ProcRes :=
  if RegionOut.deferred ∈ os then .deferred
  else if ∀ o ∈ os, o = RegionOut.none then .allTransitionsInvalid
  else if RegionOut.fired ∈ os then .processed else .allGuardsFailed

theorem Turn.step (hM : M.Regular) (hp : Populated M sem) {deps : List Dep} {ev : EventTy}
    {pl pl' : P} {s s1 s' : SM P W} {os : List RegionOut}
    (h : Turn M sem deps ev pl s os pl' s1 s') (hg : Good M deps s) :
    ∃ n, ∀ fuel, n ≤ fuel → processInternal M sem fuel ev pl s = .ok (procOut os, pl') s' := by
  cases h with
  | quiet h hn =>
    refine ⟨0, fun fuel _ => ?_⟩
    unfold processInternal procOut
    rw [currentRegions_eq, h.step hM hp hg]
    unfold loopOut
    simp only [Res.bind]
    by_cases hd : RegionOut.deferred ∈ os
    · simp [hd]
    · have hf : RegionOut.fired ∉ os := fun hf => hn ⟨hd, hf⟩
      by_cases ha : ∀ o ∈ os, o = RegionOut.none
      · rw [if_neg hd, if_neg hd, if_pos ha, decide_eq_true ha]
        rfl
      · rw [if_neg hd, if_neg hd, if_neg ha, if_neg hf, decide_eq_false ha, decide_eq_true hf]
        rfl
  | @react s2 h hy ha =>
    have hl := h.step hM hp hg
    have hg1 := hg.regionLoop (hl true true)
    have hna : ¬ ∀ o ∈ os, o = RegionOut.none := fun ha => by
      have := ha _ hy.2; cases this
    have hset : ∃ n, ∀ fuel, n ≤ fuel → processAnon M sem fuel s1 = .ok () s' := by
      unfold Settles at ha
      unfold processAnon
      rw [Machine.hasAnon_eq]
      split at ha
      · rename_i hh
        simp only [hh, if_true]
        exact ha.step hM hp hg1
      · rename_i hh
        simp only [hh, ha]
        exact ⟨0, fun _ _ => rfl⟩
    obtain ⟨n, hn⟩ := hset
    refine ⟨n, fun fuel hf => ?_⟩
    unfold processInternal procOut
    rw [currentRegions_eq, hl]
    unfold loopOut
    simp only [Res.bind, hy.1, hy.2, if_false, decide_eq_false hna, Bool.and_false,
      Bool.false_eq_true, not_true, decide_false, if_true, hna]
    rw [hn fuel hf]

theorem TurnThrow.step (hM : M.Regular) (hp : Populated M sem) {deps : List Dep} {ev : EventTy}
    {pl : P} {s s' : SM P W} {k : Nat}
    (h : TurnThrow M sem deps ev pl s k s') (hg : Good M deps s) :
    ∃ n, ∀ fuel, n ≤ fuel → processInternal M sem fuel ev pl s = .throw (.user k) s' := by
  cases h with
  | region h =>
    refine ⟨0, fun fuel _ => ?_⟩
    unfold processInternal
    rw [currentRegions_eq, h.step hM hp hg]
    rfl
  | @anon os k pl' s1 s' h hy hh ha =>
    have hl := h.step hM hp hg
    have hg1 := hg.regionLoop (hl true true)
    have hna : ¬ ∀ o ∈ os, o = RegionOut.none := fun ha => by
      have := ha _ hy.2; cases this
    obtain ⟨n, hn⟩ := ha.step hM hp hg1
    refine ⟨n, fun fuel hf => ?_⟩
    unfold processInternal
    rw [currentRegions_eq, hl]
    unfold loopOut
    simp only [Res.bind, hy.1, hy.2, if_false, decide_eq_false hna, Bool.and_false,
      Bool.false_eq_true, not_true, decide_false]
    unfold processAnon
    rw [Machine.hasAnon_eq, hh]
    simp only [if_true]
    rw [hn fuel hf]

theorem callHandler_at (hM : M.Regular) {d0 : Dep} {ev : EventTy} (hev : ev ∈ M.events)
    {s : SM P W} (hh : HandlersAre M d0 s) {hd : Cb} (hhd : (M.decl M.root).handler = some hd)
    {p : Name} {st : StTy} (ha : At M s 0 p st) (hp : Populated M sem) (pl : P) :
    callHandler M sem ev pl s =
      match sem.handler hd ev st d0 pl s.world with
      | .ok _ p' w' => .ok p' (s.ran w' [.handler hd ev st d0 pl false s.cur])
      | .throw n _ w' => .throw (.user n) (s.ran w' [.handler hd ev st d0 pl true s.cur])
      | .ub => .ub .callback := by
  unfold callHandler
  rw [hhd]
  simp only
  rw [readCur_ok.2 ⟨rfl, ha.2.2⟩]
  simp only [Res.bind, hM.comb_lt.2 ⟨ha.1, ha.2.1⟩, if_true]
  rw [hh (by rw [hhd]; rfl) ev hev p ha.1 st ha.2.1]
  simp only [hp.objOk, if_true]
  rfl

theorem EventRun.step (hM : M.Regular) (hp : Populated M sem) {deps : List Dep} {d0 : Dep}
    {ev : EventTy} (hev : ev ∈ M.events) {pl : P} {s s' : SM P W} {b : Bool}
    (hg : Ready M deps d0 s) (h : EventRun M sem deps d0 ev pl s b s') :
    ∃ n, ∀ fuel, n ≤ fuel → processEvent M sem fuel ev pl s = .ok b s' := by
  have hand : ∀ {fuel : Nat} {o : ProcRes × P} {s1 : SM P W},
      processInternal M sem fuel ev pl s = .ok o s1 → HandlersAre M d0 s1 := by
    intro fuel o s1 h1
    have := (Preserves.handlersAre (M := M) (sem := sem) d0).processInternal fuel ev pl s hg.handlers
    rw [h1] at this
    exact this
  cases h with
  | ignored ht hn hh =>
    obtain ⟨n, hs⟩ := ht.step hM hp hg.toGood
    refine ⟨n, fun fuel hf => ?_⟩
    unfold processEvent
    have hd : RegionOut.deferred ∉ _ := fun h => by have := hn _ h; cases this
    rw [hs fuel hf]
    unfold procOut callHandler
    simp only [Res.bind, hd, if_false, if_pos hn, hh]
  | @unexpected os pl' pl'' s1 h p st w ht hn hh ha hc =>
    obtain ⟨n, hs⟩ := ht.step hM hp hg.toGood
    refine ⟨n, fun fuel hf => ?_⟩
    have h1 := hs fuel hf
    unfold processEvent
    have hd : RegionOut.deferred ∉ os := fun h => by have := hn _ h; cases this
    have hpo : procOut os = .allTransitionsInvalid := by
      unfold procOut; rw [if_neg hd, if_pos hn]
    rw [h1, hpo]
    simp only [Res.bind]
    rw [callHandler_at hM hev (hand h1) hh ha hp, hc]
  | @unhandled os pl' _ ht hr hn =>
    obtain ⟨n, hs⟩ := ht.step hM hp hg.toGood
    refine ⟨n, fun fuel hf => ?_⟩
    unfold processEvent
    rw [hs fuel hf]
    have hpo : procOut os = .deferred ∨ procOut os = .allGuardsFailed := by
      unfold procOut
      by_cases hd : RegionOut.deferred ∈ os
      · rw [if_pos hd]; exact Or.inl rfl
      · rw [if_neg hd, if_neg, if_neg]
        · exact Or.inr rfl
        · exact fun hf => hr ⟨hd, hf⟩
        · intro ha
          obtain ⟨o, ho, hno⟩ := hn
          exact hno (ha o ho)
    rcases hpo with h | h <;> rw [h] <;> rfl
  | @handled os pl' s1 _ ht hr hq =>
    obtain ⟨n, hs⟩ := ht.step hM hp hg.toGood
    refine ⟨n, fun fuel hf => ?_⟩
    unfold processEvent
    rw [hs fuel hf]
    have hpo : procOut os = .processed := by
      unfold procOut
      rw [if_neg hr.1, if_neg, if_pos hr.2]
      intro ha; have := ha _ hr.2; cases this
    rw [hpo]
    simp only [Res.bind]
    unfold processDeferred
    rw [Machine.hasDefer_eq]
    rcases hq with hq | hq
    · rw [hq]; rfl
    · rw [hq]; cases M.deferring <;> rfl
  | @replayed os os' pl' rp rp' s1 s2 s3 _ re q ht hr hd hq ht' =>
    obtain ⟨n, hs⟩ := ht.step hM hp hg.toGood
    have hg2 := hg.toGood.processInternal (hs n (Nat.le_refl _))
    obtain ⟨n', hs'⟩ := ht'.step hM hp (hg2.queue q)
    refine ⟨max n n', fun fuel hf => ?_⟩
    unfold processEvent
    rw [hs fuel (by omega)]
    have hpo : procOut os = .processed := by
      unfold procOut
      rw [if_neg hr.1, if_neg, if_pos hr.2]
      intro ha; have := ha _ hr.2; cases this
    rw [hpo]
    simp only [Res.bind]
    unfold processDeferred
    rw [Machine.hasDefer_eq, hd, hq]
    simp only [if_true]
    rw [hs' fuel (by omega)]
    rfl

theorem EventThrow.step (hM : M.Regular) (hp : Populated M sem) {deps : List Dep} {d0 : Dep}
    {ev : EventTy} (hev : ev ∈ M.events) {pl : P} {s s' : SM P W} {k : Nat}
    (hg : Ready M deps d0 s) (h : EventThrow M sem deps d0 ev pl s k s') :
    ∃ n, ∀ fuel, n ≤ fuel → processEvent M sem fuel ev pl s = .throw (.user k) s' := by
  cases h with
  | main ht =>
    obtain ⟨n, hs⟩ := ht.step hM hp hg.toGood
    refine ⟨n, fun fuel hf => ?_⟩
    unfold processEvent
    rw [hs fuel hf]
    rfl
  | @handler os pl' pl'' s1 h p st w k ht hn hh ha hc =>
    obtain ⟨n, hs⟩ := ht.step hM hp hg.toGood
    refine ⟨n, fun fuel hf => ?_⟩
    have h1 := hs fuel hf
    have hand : HandlersAre M d0 s1 := by
      have := (Preserves.handlersAre (M := M) (sem := sem) d0).processInternal fuel ev pl s
        hg.handlers
      rw [h1] at this
      exact this
    unfold processEvent
    have hd : RegionOut.deferred ∉ os := fun h => by have := hn _ h; cases this
    have hpo : procOut os = .allTransitionsInvalid := by
      unfold procOut; rw [if_neg hd, if_pos hn]
    rw [h1, hpo]
    simp only [Res.bind]
    rw [callHandler_at hM hev hand hh ha hp, hc]
  | @replay os pl' rp s1 s2 s' re q k ht hr hd hq ht' =>
    obtain ⟨n, hs⟩ := ht.step hM hp hg.toGood
    have hg2 := hg.toGood.processInternal (hs n (Nat.le_refl _))
    obtain ⟨n', hs'⟩ := ht'.step hM hp (hg2.queue q)
    refine ⟨max n n', fun fuel hf => ?_⟩
    unfold processEvent
    rw [hs fuel (by omega)]
    have hpo : procOut os = .processed := by
      unfold procOut
      rw [if_neg hr.1, if_neg, if_pos hr.2]
      intro ha; have := ha _ hr.2; cases this
    rw [hpo]
    simp only [Res.bind]
    unfold processDeferred
    rw [Machine.hasDefer_eq, hd, hq]
    simp only [if_true]
    rw [hs' fuel (by omega)]
    rfl

end
end Hsm
