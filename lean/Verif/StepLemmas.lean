import Verif.SpecStep
import Verif.HistLemmas

/-! The model's event processing refines the specification of `SpecStep`. -/

namespace Hsm

namespace Machine
variable {M : Machine}

/-- Deferral is the first candidate if it is one at all. -/
theorem cands_defer {e : EventTy} {p : Name} {s : StTy} (h : Cand.defer ∈ M.cands e p s) :
    ∃ l, M.cands e p s = .defer :: l := by
  have h' := h
  rcases mem_cands.1 h with ⟨_, t, ht, hl, he⟩ | ⟨t, _, _, _, _, _, hc⟩ | ⟨t, _, _, _, hc⟩
    | ⟨t, _, _, _, hc⟩
  · rw [cands_def]
    have : 0 < (M.flat.map (M.deferCount e p s)).sum := by
      rw [sum_pos_iff]
      refine ⟨_, List.mem_map.2 ⟨t, ht, rfl⟩, ?_⟩
      rw [deferCount_def]
      rw [if_pos hl]
      exact List.count_pos_iff.2 he
    generalize (M.flat.map (M.deferCount e p s)).sum = n at this
    cases n with
    | zero => omega
    | succ n => exact ⟨_, rfl⟩
  · cases hc
  · cases hc
  · cases hc

/-- If the first entry is no deferral there is none. -/
theorem entries_head_defer {deps : List Dep} {e : EventTy} {p : Name} {s : StTy}
    {en : Entry} (hm : en ∈ M.entries deps e p s) (hd : en.defer = true) :
    ∃ en' es, M.entries deps e p s = en' :: es ∧ en'.defer = true ∧ en'.tr = none ∧
      Cand.defer ∈ M.cands e p s := by
  obtain ⟨d, hdm, c, hc, hen⟩ := mem_entries.1 hm
  rcases entryOfCand_cases hen with ⟨rfl, _⟩ | ⟨t, l, x, _, _, _, _, h5, _⟩
  · obtain ⟨l, hl⟩ := cands_defer hc
    cases deps with
    | nil => cases hdm
    | cons d' deps =>
      obtain ⟨e', he', hd', htr⟩ : ∃ e', M.entryOfCand d' .defer = some e' ∧ e'.defer = true ∧
          e'.tr = none := ⟨_, rfl, rfl, rfl⟩
      refine ⟨e', l.filterMap (M.entryOfCand d') ++ M.entries deps e p s, ?_, hd', htr, hc⟩
      unfold entries
      rw [List.flatMap_cons, hl, List.filterMap_cons, he']
      rfl
  · rw [h5] at hd; cases hd

theorem entries_eq_nil (hM : M.Regular) {deps : List Dep} (hne : deps ≠ []) {e : EventTy}
    {p : Name} {s : StTy} : M.entries deps e p s = [] ↔ M.cands e p s = [] := by
  constructor
  · intro h
    apply List.eq_nil_iff_forall_not_mem.2
    intro c hc
    cases deps with
    | nil => exact hne rfl
    | cons d deps =>
      have : ∃ en, M.entryOfCand d c = some en := by
        rcases cand_row hc with rfl | ⟨t, ht, _, rfl | rfl⟩
        · exact ⟨_, rfl⟩
        · obtain ⟨l, hl⟩ := hM.targetLoc_some ht
          simp [entryOfCand, hl]
        · obtain ⟨l, hl⟩ := hM.targetLoc_some ht
          simp [entryOfCand, hl]
      obtain ⟨en, hen⟩ := this
      have : en ∈ M.entries (d :: deps) e p s := mem_entries.2 ⟨d, by simp, c, hc, hen⟩
      rw [h] at this; cases this
  · intro h
    unfold entries
    rw [h]
    simp

/-- A history target names a composite of the machine. -/
theorem Laid.history_target (hM : M.Laid) (hf : ∀ t ∈ M.flat, M.rowCompiles t = true) {t : XRow}
    (ht : t ∈ M.flat) {o : Bool} {p : Name} (h : t.target = .ps o (.history p)) : p ∈ M.composites ∧
    ∃ i, M.targetLoc t = some (p, .st i) ∧ StTy.st i ∈ M.states ∧ i ∈ M.declaredInitials p := by
  obtain ⟨l, hl, hst⟩ : ∃ l, M.targetLoc t = some l ∧ l.2 ∈ M.states := by
    obtain ⟨dst, hd, _, h2⟩ := rowCompiles_iff.1 (hf t ht)
    exact ⟨_, by rw [targetLoc_eq, hd]; rfl, h2⟩
  have hl' := hl
  unfold targetLoc at hl
  rw [h] at hl
  simp only at hl
  cases hi : (M.declaredInitials p).head? with
  | none => rw [hi] at hl; cases hl
  | some i =>
    rw [hi] at hl
    cases hl
    have hmem : i ∈ M.declaredInitials p := List.mem_of_head? hi
    have hrows : M.rows p ≠ [] := by
      intro hr
      unfold declaredInitials at hmem
      rw [hr] at hmem
      simp at hmem
    have hc : M.isComposite p = true := by
      cases hc : M.isComposite p with
      | true => rfl
      | false => exact absurd (rows_of_not_composite hc) hrows
    obtain ⟨q, r, hq, hr, rfl⟩ := (mem_flat_iff hM.ranked).1 ht
    refine ⟨(mem_parents_iff hM.ranked).2 ⟨.sub hq hr ⟨hc, Or.inr ⟨o, Or.inr (Or.inr h)⟩⟩, hrows⟩,
      i, hl', hst, hmem⟩

theorem history_target (hM : M.Regular) {t : XRow} (ht : t ∈ M.flat) {o : Bool} {p : Name}
    (h : t.target = .ps o (.history p)) : p ∈ M.composites ∧
    ∃ i, M.targetLoc t = some (p, .st i) ∧ StTy.st i ∈ M.states ∧ i ∈ M.declaredInitials p :=
  hM.laid.history_target (fun _ ht => accepts_flat hM.accepts ht) ht h

end Machine

section
variable {P W : Type} {M : Machine} {sem : Sem P W}

/-- What all states reached while handling events of a regular machine have in common. -/
structure Good (M : Machine) (deps : List Dep) (s : SM P W) : Prop where
  ne : deps ≠ []
  basic : Basic M s
  table : TableIs M deps s

theorem RunTo.good (hM : M.Regular) {d : Dep} {ops : List (Op P)} {s : SM P W}
    (h : RunTo M sem d ops s) : Good M (depsOf d ops) s :=
  ⟨depsOf_ne_nil d ops, h.reach.basic hM, (h.tables hM).1⟩

theorem Good.ran {deps : List Dep} {s : SM P W} (h : Good M deps s) (w : W) (tr : List (Call P)) :
    Good M deps (s.ran w tr) :=
  ⟨h.ne, h.basic.of_eq rfl rfl rfl rfl rfl, h.table⟩

theorem Good.queue {deps : List Dep} {s : SM P W} (h : Good M deps s) (q : List (EventTy × P)) :
    Good M deps { s with queue := q } :=
  ⟨h.ne, h.basic.of_eq rfl rfl rfl rfl rfl, h.table⟩

theorem Good.moved {deps : List Dep} {s s' : SM P W} (h : Good M deps s) {r : Nat} {e : Entry}
    (hm : Moved M r e s s') : Good M deps s' :=
  ⟨h.ne, h.basic.of_eq hm.curLen hm.initial hm.histLen hm.table hm.handlers, by
    unfold TableIs; rw [hm.table]; exact h.table⟩

theorem Basic.histLength {s : SM P W} (h : Basic M s) : s.hist.length = M.nParents := by
  have := congrArg List.length h.histLen
  rw [List.length_map, List.length_map, Machine.length_initialTable] at this
  exact this

/-- An index whose parent part is in range is a location. -/
theorem at_of_div (hM : M.Laid) {s : SM P W} {r k : Nat} (hc : s.cur[r]? = some (some k))
    (hk : k / M.nStates < M.nParents) : ∃ p st, At M s r p st ∧ k = M.comb p st ∧
      M.parentIdx p = k / M.nStates := by
  have hlt : k < M.size := by
    unfold Machine.size
    rw [Nat.mul_comm]
    exact (Nat.div_lt_iff_lt_mul Machine.nStates_pos).1 hk
  obtain ⟨p, st, hp, hst, rfl⟩ := hM.comb_surj hlt
  exact ⟨p, st, ⟨hp, hst, hc⟩, rfl, (hM.comb_div hp hst).symm⟩

theorem Moved.movesL (hM : M.Laid) (hf : ∀ t ∈ M.flat, M.rowCompiles t = true) {s s' : SM P W}
    (hlen : s.hist.length = M.nParents) (hinit : s.initial = M.initialTable) {r : Nat} {e : Entry} (hm : Moved M r e s s') {t : XRow} (ht : t ∈ M.flat) {l : Name × StTy}
    (hl : M.targetLoc t = some l) (hto : e.to = M.comb l.1 l.2)
    (hh : e.history = Machine.isHistory t.target) : Moves M r t s s' := by
  refine ⟨hm.hr, ?_, ?_, hm.histLen, ?_, hm.initial, hm.queue, hm.table, hm.handlers, hm.world, hm.trace, hm.log⟩
  · obtain ⟨c, hc, h1, h2⟩ := hm.dest
    refine ⟨c, hc, ?_, ?_⟩
    · intro o p hp
      have hhist : M.historic = true :=
        Machine.historic_iff.2 ⟨t, ht, _, _, hp⟩
      obtain ⟨hpp, i, hli, hst, _⟩ := hM.history_target hf ht hp
      rw [hl] at hli
      cases hli
      obtain ⟨l', ha, hb'⟩ := h2 (by rw [hhist, hh, hp]; rfl)
      rw [hto, hM.comb_div hpp hst] at ha
      exact ⟨l', ha, hb'⟩
    · intro hn
      refine ⟨l, hl, ?_⟩
      rw [← hto]
      apply h1
      have : Machine.isHistory t.target = false := by
        unfold Machine.isHistory
        split
        · rename_i o p hp
          exact absurd hp (hn o p)
        · rfl
      rw [hh, this]; simp
  · rcases hm.hist with ⟨h1, h2⟩ | ⟨h1, k, c, l0, hk, hc, hl0, hr, hs'⟩
    · exact Or.inl ⟨h1, h2⟩
    · right
      have hkl : k / M.nStates < M.nParents := by
        rw [← hlen]; exact (List.getElem?_eq_some_iff.1 hl0).1
      obtain ⟨p0, st0, ha, rfl, hidx⟩ := at_of_div hM hk hkl
      refine ⟨h1, p0, st0, c, ha, hc, ?_, ?_⟩
      · refine ⟨l0.set r c, ?_, ?_⟩
        · rw [hs', hidx]
          rw [List.getElem?_set_self (by rw [hlen]; exact hkl)]
        · rw [List.getElem?_set_self hr]
      · intro q hq i hqi c'
        unfold Remembers
        rw [hs', ← hidx]
        by_cases hqp : q = p0
        · subst hqp
          have hi := hqi.resolve_left (by simp)
          rw [List.getElem?_set_self (by rw [hidx, hlen]; exact hkl)]
          rw [hidx, hl0]
          constructor
          · rintro ⟨l, hl, hc⟩
            cases hl
            rw [List.getElem?_set_ne (Ne.symm hi)] at hc
            exact ⟨l0, rfl, hc⟩
          · rintro ⟨l, hl, hc⟩
            cases hl
            exact ⟨_, rfl, by rw [List.getElem?_set_ne (Ne.symm hi)]; exact hc⟩
        · have : M.parentIdx p0 ≠ M.parentIdx q := fun he =>
            hqp (hM.parentIdx_inj hq ha.1 he.symm)
          rw [List.getElem?_set_ne this]
  · rcases hm.regions with h | ⟨hp, k, l0, hk, hl0, hr⟩
    · exact Or.inl h
    · right
      refine ⟨hp, ?_⟩
      rw [hinit] at hl0
      have hkl : k / M.nStates < M.nParents := by
        rw [← Machine.length_initialTable]
        exact (List.getElem?_eq_some_iff.1 hl0).1
      obtain ⟨p0, st0, ha, rfl, hidx⟩ := at_of_div hM hk hkl
      refine ⟨p0, st0, ha, ?_⟩
      rw [← hidx, hM.initialTable_get ha.1] at hl0
      cases hl0
      rw [hr, Machine.declaredInitials_eq]
      simp

theorem Moved.moves (hM : M.Regular) {s s' : SM P W} (hb : Basic M s) {r : Nat} {e : Entry}
    (hm : Moved M r e s s') {t : XRow} (ht : t ∈ M.flat) {l : Name × StTy}
    (hl : M.targetLoc t = some l) (hto : e.to = M.comb l.1 l.2)
    (hh : e.history = Machine.isHistory t.target) : Moves M r t s s' :=
  hm.movesL hM.laid (fun _ ht => Machine.accepts_flat hM.accepts ht) hb.histLength hb.initial ht hl hto hh

theorem filterMap_split {α β : Type} {f : α → Option β} :
    ∀ {l : List α} {x y : List β} {b : β}, l.filterMap f = x ++ b :: y →
      ∃ l1 a l2, l = l1 ++ a :: l2 ∧ f a = some b ∧ l1.filterMap f = x
  | [], x, y, b, h => by
    have := congrArg List.length h
    simp at this
  | a :: l, x, y, b, h => by
    cases hf : f a with
    | none =>
      rw [List.filterMap_cons_none hf] at h
      obtain ⟨l1, a', l2, rfl, h2, h3⟩ := filterMap_split h
      exact ⟨a :: l1, a', l2, rfl, h2, by rw [List.filterMap_cons_none hf]; exact h3⟩
    | some b' =>
      rw [List.filterMap_cons_some hf] at h
      cases x with
      | nil =>
        simp only [List.nil_append, List.cons.injEq] at h
        exact ⟨[], a, l, rfl, by rw [hf, h.1], rfl⟩
      | cons z x =>
        simp only [List.cons_append, List.cons.injEq] at h
        obtain ⟨l1, a', l2, rfl, h2, h3⟩ := filterMap_split h.2
        exact ⟨a :: l1, a', l2, rfl, h2, by rw [List.filterMap_cons_some hf, h3, h.1]⟩

theorem flatMap_split {α β : Type} {f : α → List β} :
    ∀ {l : List α} {x y : List β} {b : β}, l.flatMap f = x ++ b :: y →
      ∃ l1 a l2 x' y', l = l1 ++ a :: l2 ∧ f a = x' ++ b :: y' ∧ x = l1.flatMap f ++ x'
  | [], x, y, b, h => by
    have := congrArg List.length h
    simp at this
  | a :: l, x, y, b, h => by
    rw [List.flatMap_cons] at h
    have later : ∀ z, l.flatMap f = z ++ b :: y → x = f a ++ z →
        ∃ l1 a' l2 x' y', a :: l = l1 ++ a' :: l2 ∧ f a' = x' ++ b :: y' ∧
          x = l1.flatMap f ++ x' := by
      intro z hz hx
      obtain ⟨l1, a', l2, x', y', rfl, h2, h3⟩ := flatMap_split hz
      exact ⟨a :: l1, a', l2, x', y', rfl, h2, by rw [hx, h3]; simp⟩
    rcases List.append_eq_append_iff.1 h with ⟨z, h1, h2⟩ | ⟨z, h1, h2⟩
    · exact later z h2 h1
    · cases z with
      | nil =>
        exact later [] (by simpa using h2.symm) (by simpa using h1.symm)
      | cons u z =>
        simp only [List.cons_append, List.cons.injEq] at h2
        obtain ⟨rfl, rfl⟩ := h2
        exact ⟨[], a, l, x, z, rfl, h1, rfl⟩

/-- From a table entry back to the candidate it was made from. -/
theorem Good.selected {deps : List Dep} {ev : EventTy}
    {p : Name} {st : StTy} {pre post : List Entry} {e : Entry} {x : Exec}
    (hes : M.entries deps ev p st = pre ++ e :: post) (hx : e.tr = some x) :
    ∃ c t d l, Selected M deps ev p st c t d l x pre ∧ t ∈ M.flat ++ M.iflat ∧
      e.to = M.comb l.1 l.2 ∧ e.history = Machine.isHistory t.target ∧ e.internal = t.internal ∧
      x.action = M.resolveAction t := by
  obtain ⟨ds1, d, ds2, x', y', hds, hcs, hpre⟩ := flatMap_split hes
  obtain ⟨cs1, c, cs2, hcc, hen, hx1⟩ := filterMap_split hcs
  have hd : d ∈ deps := by rw [hds]; simp
  have hc : c ∈ M.cands ev p st := by rw [hcc]; simp
  have hord : ∃ ds1 ds2 cs1 cs2, deps = ds1 ++ d :: ds2 ∧ M.cands ev p st = cs1 ++ c :: cs2 ∧
      pre = M.entries ds1 ev p st ++ cs1.filterMap (M.entryOfCand d) :=
    ⟨ds1, ds2, cs1, cs2, hds, hcc, by rw [hx1]; exact hpre⟩
  clear hds hcs hpre hcc hx1
  rcases Machine.entryOfCand_cases hen with ⟨_, _, h3, _⟩ |
      ⟨t, l, x', hct, hl, hto, hh, hdf, hi, hx', hxi, hxa, hxg, hxd, hxdep, hs1, hs2⟩
  · rw [h3] at hx; cases hx
  · rw [hx] at hx'
    cases hx'
    have ht : t ∈ M.flat ++ M.iflat := by
      rcases Machine.cand_row hc with h4 | ⟨t', ht', _, h5⟩
      · rcases hct with h1 | ⟨q, h1⟩ <;> (rw [h1] at h4; cases h4)
      · rcases hct with h1 | ⟨q, h1⟩ <;> rcases h5 with h5 | h5 <;> rw [h1] at h5 <;> cases h5 <;>
          exact ht'
    refine ⟨c, t, d, l, ⟨hc, ?_, hd, hl, ⟨e, post, hes, hen, hx⟩, hord, hxg, ?_, hxd, hxi, hxdep⟩, ht,
      hto, hh, hi, hxa⟩
    · rcases hct with h1 | ⟨q, h1⟩ <;> (rw [h1]; rfl)
    · rcases hct with h1 | ⟨q, h1⟩
      · rw [hs1 h1, h1]; rfl
      · rw [hs2 q h1, h1]; rfl

theorem updateState_effect (hM : M.Regular) {s s' : SM P W} (hb : Basic M s) {r : Nat} {e : Entry}
    (h : updateState M r e s = .ok () s') {t : XRow} (ht : t ∈ M.flat ++ M.iflat)
    {l : Name × StTy} (hl : M.targetLoc t = some l) (hto : e.to = M.comb l.1 l.2)
    (hh : e.history = Machine.isHistory t.target) (hi : e.internal = t.internal) :
    Effect M r t s s' := by
  unfold Effect
  rcases updateState_ok h with ⟨h1, rfl⟩ | hm
  · rw [← hi, h1]; simp
  · have hti : t.internal = false := by rw [← hi]; exact hm.ext
    rw [hti]
    simp only [Bool.false_eq_true, if_false]
    have htf : t ∈ M.flat := by
      rcases List.mem_append.1 ht with ht | ht
      · exact ht
      · rw [Machine.iflat_internal ht] at hti; cases hti
    exact hm.moves hM hb htf hl hto hh

theorem actionArgs_eq {x : Exec} {c : Cand} {t : XRow} {l : Name × StTy} {d : Dep}
    (h1 : x.src = c.src) (h2 : x.dst = l.2) (h3 : x.internal = t.internal) (h4 : x.dep = d)
    (ev : EventTy) : actionArgs M x ev = cbArgs M c t l ev d := by
  unfold actionArgs cbArgs
  rw [h1, h2, h3, h4, Machine.defaultCtor_eq]
  cases M.selfMade l.2 <;> simp

/-! ## One region -/

theorem FalseRun.no_defer {cur : List (Option Nat)} {ev : EventTy} {es : List Entry} {p p' : P}
    {w w' : W} {tr : List (Call P)} (h : FalseRun sem cur ev es p w tr p' w') :
    ∀ e ∈ es, e.defer = false := by
  induction h with
  | nil => intro e he; cases he
  | cons hd _ _ _ _ ih =>
    intro e he
    rcases List.mem_cons.1 he with rfl | he
    · exact hd
    · exact ih e he

theorem Tried.region (hM : M.Regular) {deps : List Dep} {s s' : SM P W} (hg : Good M deps s)
    {r : Nat} {ev : EventTy} {p : Name} {st : StTy} (ha : At M s r p st) {pl pl' : P}
    {o : RegionOut} (hne : M.entries deps ev p st ≠ [])
    (h : Tried M sem r ev (M.entries deps ev p st) pl s o pl' s') :
    RegionRun M sem deps r ev pl s o pl' s' := by
  cases h with
  | rejected hf =>
    exact .rejected ha (fun h => hne ((Machine.entries_eq_nil hM hg.ne).2 h)) hf
  | @deferred pre post e _ tr w hes hf hd =>
    obtain ⟨e', es', h1, h2, h3, h4⟩ := Machine.entries_head_defer
      (by rw [hes]; simp : e ∈ M.entries deps ev p st) hd
    cases pre with
    | nil =>
      cases hf
      rw [ran_nil]
      exact RegionRun.deferred ha h4
    | cons e0 pre =>
      rw [h1] at hes
      cases hes
      have := hf.no_defer e' (by simp)
      rw [h2] at this; cases this
  | @fired pre post e x p1 p2 _ tr1 tr2 tr3 w1 w2 w3 s1 hes hf hd hx hgd hu hact =>
    obtain ⟨c, t, d, l, hsel, ht, hto, hh, hi, hxa⟩ := Good.selected hes hx
    refine .fired ha hsel hf hgd
      (updateState_effect hM (hg.ran _ _).basic hu ht hsel.loc hto hh hi) ?_
    rw [actionArgs_eq hsel.src hsel.dst hsel.internal hsel.xdep] at hact
    have hcbs : x.cbs = M.callbacks t := by
      unfold Exec.cbs
      rw [hxa, Machine.resolveAction_cbs]
    rw [hcbs] at hact
    exact hact

theorem TriedThrow.region (hM : M.Regular) {deps : List Dep} {s s' : SM P W} (hg : Good M deps s)
    {r : Nat} {ev : EventTy} {p : Name} {st : StTy} (ha : At M s r p st) {pl : P} {k : Nat}
    (h : TriedThrow M sem r ev (M.entries deps ev p st) pl s k s') :
    RegionThrow M sem deps r ev pl s k s' := by
  cases h with
  | guard hes hf hd hx hgd hc =>
    obtain ⟨c, t, d, l, hsel, _⟩ := Good.selected hes hx
    exact .guard ha hsel hf (by rw [← hsel.guard]; exact hgd) hc
  | @action pre post e x p1 p2 tr1 tr2 tr3 w1 w2 w3 s1 _ hes hf hd hx hgd hu hact =>
    obtain ⟨c, t, d, l, hsel, ht, hto, hh, hi, hxa⟩ := Good.selected hes hx
    refine .action ha hsel hf hgd
      (updateState_effect hM (hg.ran _ _).basic hu ht hsel.loc hto hh hi) ?_
    rw [actionArgs_eq hsel.src hsel.dst hsel.internal hsel.xdep] at hact
    have hcbs : x.cbs = M.callbacks t := by
      unfold Exec.cbs
      rw [hxa, Machine.resolveAction_cbs]
    rw [hcbs] at hact
    exact hact

/-- Looking up candidates succeeds only at a location. -/
theorem Good.lookup (hM : M.Regular) {deps : List Dep} {s s' : SM P W} (hg : Good M deps s)
    {r : Nat} {ev : EventTy} {es : List Entry} (h : lookup M ev r s = .ok es s') :
    s' = s ∧ ∃ p st, At M s r p st ∧ es = M.entries deps ev p st := by
  obtain ⟨rfl, c, hc, hlt, rfl⟩ := lookup_ok.1 h
  obtain ⟨p, st, hp, hst, rfl⟩ := hM.comb_surj hlt
  exact ⟨rfl, p, st, ⟨hp, hst, hc⟩, hg.table ev p st hp hst⟩

theorem regionStep_ok (hM : M.Regular) {deps : List Dep} {s s' : SM P W} (hg : Good M deps s)
    {r : Nat} {ev : EventTy} {pl pl' : P} {o : RegionOut}
    (h : regionStep M sem r ev pl s = .ok (o, pl') s') : RegionRun M sem deps r ev pl s o pl' s' := by
  unfold regionStep at h
  obtain ⟨es, s1, h1, h2⟩ := Res.bind_ok.1 h
  obtain ⟨rfl, p, st, ha, rfl⟩ := hg.lookup hM h1
  cases hes : M.entries deps ev p st with
  | nil =>
    rw [hes] at h2
    cases h2
    exact .none ha ((Machine.entries_eq_nil hM hg.ne).1 hes)
  | cons e es =>
    rw [hes] at h2
    simp only at h2
    rw [← hes] at h2
    exact (tryEntries_ok h2).region hM hg ha (by rw [hes]; simp)

theorem regionStep_throw (hM : M.Regular) {deps : List Dep} {s s' : SM P W} (hg : Good M deps s)
    {r : Nat} {ev : EventTy} {pl : P} {x : Exn}
    (h : regionStep M sem r ev pl s = .throw x s') :
    ∃ k, x = .user k ∧ RegionThrow M sem deps r ev pl s k s' := by
  unfold regionStep at h
  rcases Res.bind_throw.1 h with h | ⟨es, s1, h1, h2⟩
  · exact absurd h lookup_throw
  · obtain ⟨rfl, p, st, ha, rfl⟩ := hg.lookup hM h1
    cases hes : M.entries deps ev p st with
    | nil => rw [hes] at h2; cases h2
    | cons e es =>
      rw [hes] at h2
      simp only at h2
      rw [← hes] at h2
      obtain ⟨k, hk, ht⟩ := tryEntries_throw h2
      exact ⟨k, hk, ht.region hM hg ha⟩

/-! ## Goodness is kept -/

theorem Basic.table_irrel {s : SM P W} {s' : SM P W} (h : Basic M s)
    (h1 : s'.cur.length = s.cur.length)
    (h2 : s'.initial = s.initial) (h3 : s'.hist.map List.length = s.hist.map List.length)
    (h4 : s'.table = s.table) (h5 : s'.handlers = s.handlers) : Basic M s' :=
  h.of_eq h1 h2 h3 h4 h5

/-- `Good` survives whatever the model does when handling events. -/
theorem Preserves.good (deps : List Dep) :
    Preserves M sem True (fun _ => True) (Good (P := P) (W := W) M deps) :=
  Preserves.easy _ (fun _ w tr h => h.ran w tr)
    (fun _ _ _ _ _ _ h _ _ hm => h.moved hm)
    (fun _ _ _ _ _ _ h _ _ _ => h.queue _) (fun _ _ _ _ h _ => h.queue _)

theorem Good.regionStep {deps : List Dep} {s s' : SM P W} (hg : Good M deps s)
    {r : Nat} {ev : EventTy} {pl : P} {op : RegionOut × P}
    (h : regionStep M sem r ev pl s = .ok op s') : Good M deps s' := by
  have := (Preserves.good (M := M) (sem := sem) deps).regionStep (r := r) ev pl s trivial hg
  rw [h] at this
  exact this

/-! ## All regions -/

theorem regionLoop_ok (hM : M.Regular) {deps : List Dep} {ev : EventTy} :
    ∀ {rs : List Nat} {agf ati : Bool} {pl pl' : P} {s s' : SM P W} {o : LoopOut},
    Good M deps s → regionLoop M sem ev rs agf ati pl s = .ok (o, pl') s' →
    ∃ os, LoopRun M sem deps ev rs pl s os pl' s' ∧
      (o = .deferred ∧ RegionOut.deferred ∈ os ∨
       ∃ agf' ati', o = .done agf' ati' ∧ RegionOut.deferred ∉ os ∧
        (agf' = true ↔ agf = true ∧ RegionOut.fired ∉ os) ∧
        (ati' = true ↔ ati = true ∧ ∀ o ∈ os, o = RegionOut.none)) := by
  intro rs
  induction rs with
  | nil =>
    intro agf ati pl pl' s s' o hg h
    unfold regionLoop at h
    cases h
    exact ⟨[], .nil _ _, Or.inr ⟨agf, ati, rfl, by simp, by simp, by simp⟩⟩
  | cons r rs ih =>
    intro agf ati pl pl' s s' o hg h
    unfold regionLoop at h
    obtain ⟨⟨o1, p1⟩, s1, h1, h2⟩ := Res.bind_ok.1 h
    have hr := regionStep_ok hM hg h1
    have hg1 := hg.regionStep h1
    cases o1 with
    | none =>
      obtain ⟨os, hl, hres⟩ := ih hg1 h2
      refine ⟨_, .cons hr (by simp) hl, ?_⟩
      rcases hres with ⟨h3, h4⟩ | ⟨a, b, h3, h4, h5, h6⟩
      · exact Or.inl ⟨h3, by simp [h4]⟩
      · exact Or.inr ⟨a, b, h3, by simp [h4], by simp [h5], by simp [h6]⟩
    | rejected =>
      obtain ⟨os, hl, hres⟩ := ih hg1 h2
      refine ⟨_, .cons hr (by simp) hl, ?_⟩
      rcases hres with ⟨h3, h4⟩ | ⟨a, b, h3, h4, h5, h6⟩
      · exact Or.inl ⟨h3, by simp [h4]⟩
      · exact Or.inr ⟨a, b, h3, by simp [h4], by simp [h5], by simp [h6]⟩
    | fired =>
      obtain ⟨os, hl, hres⟩ := ih hg1 h2
      refine ⟨_, .cons hr (by simp) hl, ?_⟩
      rcases hres with ⟨h3, h4⟩ | ⟨a, b, h3, h4, h5, h6⟩
      · exact Or.inl ⟨h3, by simp [h4]⟩
      · exact Or.inr ⟨a, b, h3, by simp [h4], by simp [h5], by simp [h6]⟩
    | deferred =>
      cases h2
      exact ⟨_, .stop hr, Or.inl ⟨rfl, by simp⟩⟩

theorem regionLoop_throw (hM : M.Regular) {deps : List Dep} {ev : EventTy} :
    ∀ {rs : List Nat} {agf ati : Bool} {pl : P} {s s' : SM P W} {x : Exn},
    Good M deps s → regionLoop M sem ev rs agf ati pl s = .throw x s' →
    ∃ k os r, x = .user k ∧ LoopThrow M sem deps ev rs pl s os r k s' := by
  intro rs
  induction rs with
  | nil =>
    intro agf ati pl s s' x hg h
    unfold regionLoop at h
    cases h
  | cons r rs ih =>
    intro agf ati pl s s' x hg h
    unfold regionLoop at h
    rcases Res.bind_throw.1 h with h | ⟨⟨o1, p1⟩, s1, h1, h2⟩
    · obtain ⟨k, hk, ht⟩ := regionStep_throw hM hg h
      exact ⟨k, [], r, hk, .here ht⟩
    · have hr := regionStep_ok hM hg h1
      have hg1 := hg.regionStep h1
      cases o1 with
      | none =>
        obtain ⟨k, os, r', hk, ht⟩ := ih hg1 h2
        exact ⟨k, _, r', hk, .later hr (by simp) ht⟩
      | rejected =>
        obtain ⟨k, os, r', hk, ht⟩ := ih hg1 h2
        exact ⟨k, _, r', hk, .later hr (by simp) ht⟩
      | fired =>
        obtain ⟨k, os, r', hk, ht⟩ := ih hg1 h2
        exact ⟨k, _, r', hk, .later hr (by simp) ht⟩
      | deferred => cases h2

theorem Good.regionLoop {deps : List Dep} {s s' : SM P W} (hg : Good M deps s)
    {rs : List Nat} {agf ati : Bool} {ev : EventTy} {pl : P} {op : LoopOut × P}
    (h : regionLoop M sem ev rs agf ati pl s = .ok op s') : Good M deps s' := by
  have := (Preserves.good (M := M) (sem := sem) deps).regionLoop ev rs agf ati pl s
    (fun _ _ => trivial) hg
  rw [h] at this
  exact this

/-! ## Anonymous rounds -/

/-- Without deferral the anonymous loop tries candidates like the event loop. -/
theorem tryAnon_eq {r : Nat} : ∀ {es : List Entry} {p : P} {s : SM P W},
    (∀ e ∈ es, e.defer = false) →
    tryAnon M sem r es p s = (tryEntries M sem r .none es p s).bind fun op s =>
      .ok (decide (op.1 = .fired), op.2) s := by
  intro es
  induction es with
  | nil => intro p s _; rfl
  | cons e es ih =>
    intro p s hd
    unfold tryAnon tryEntries
    rw [hd e (by simp)]
    simp only [Bool.false_eq_true, if_false]
    cases e.tr with
    | none => rfl
    | some x =>
      simp only
      cases execGuard M sem x .none p s with
      | ok gp s1 =>
        simp only [Res.bind]
        cases gp.1 with
        | true =>
          simp only [if_true]
          cases fire M sem r .none e x gp.2 s1 <;> simp
        | false =>
          simp only [Bool.false_eq_true, if_false]
          have := ih (p := gp.2) (s := s1) (fun e he => hd e (by simp [he]))
          unfold Res.bind at this
          exact this
      | throw x s1 => rfl
      | ub u => rfl
      | timeout => rfl

/-- If trying the anonymous candidates is defined at all, none of them is a deferral. -/
theorem anon_no_defer {deps : List Dep} {r : Nat} {p : Name} {st : StTy}
    {pl : P} {s : SM P W}
    (h : ∀ u, tryAnon M sem r (M.entries deps .none p st) pl s ≠ .ub u) :
    ∀ e ∈ M.entries deps .none p st, e.defer = false := by
  intro e he
  cases hd : e.defer with
  | false => rfl
  | true =>
    obtain ⟨e', es, h1, _, h3, _⟩ := Machine.entries_head_defer he hd
    exfalso
    apply h .nullTransition
    rw [h1]
    unfold tryAnon
    rw [h3]

theorem RegionRun.not_deferred_of {deps : List Dep} {r : Nat} {ev : EventTy} {pl pl' : P}
    {s s' : SM P W} {o : RegionOut} (h : RegionRun M sem deps r ev pl s o pl' s')
    (hd : ∀ p st, At M s r p st → Cand.defer ∉ M.cands ev p st) : o ≠ .deferred := by
  cases h with
  | deferred ha hc => exact absurd hc (hd _ _ ha)
  | _ => simp

theorem Good.tryAnon {deps : List Dep} {s s' : SM P W} (hM : M.Regular) (hg : Good M deps s)
    {r : Nat} {p : Name} {st : StTy} (ha : At M s r p st) {pl pl' : P} {b : Bool}
    (hne : M.entries deps .none p st ≠ [])
    (h : tryAnon M sem r (M.entries deps .none p st) pl s = .ok (b, pl') s') :
    Good M deps s' ∧ ∃ o, (o = .rejected ∨ o = .fired) ∧ b = decide (o = .fired) ∧
      RegionRun M sem deps r .none pl s o pl' s' := by
  have hd := anon_no_defer (M := M) (sem := sem) (r := r) (pl := pl) (s := s) (deps := deps)
    (p := p) (st := st) (by rw [h]; simp)
  rw [tryAnon_eq hd] at h
  obtain ⟨⟨o, p1⟩, s1, h1, h2⟩ := Res.bind_ok.1 h
  cases h2
  have hp := (Preserves.good (M := M) (sem := sem) deps).tryEntries (r := r) (ev := .none)
    (c := M.comb p st) trivial (M.entries deps .none p st) pl s hg ha.2.2
    (fun e he => by rw [hg.table .none p st ha.1 ha.2.1]; exact he)
  rw [h1] at hp
  have hr := (tryEntries_ok h1).region hM hg ha hne
  refine ⟨hp, o, ?_, rfl, hr⟩
  cases tryEntries_ok h1 with
  | rejected hf => exact Or.inl rfl
  | @deferred pre post e _ _ _ hes hf hdd =>
    have := hd e (by rw [hes]; simp)
    rw [hdd] at this; cases this
  | fired => exact Or.inr rfl

theorem anonRound_ok (hM : M.Regular) {deps : List Dep} :
    ∀ {rs : List Nat} {agf : Bool} {pl pl' : P} {s s' : SM P W} {o : Option Bool},
    Good M deps s → anonRound M sem rs agf pl s = .ok (o, pl') s' →
    Good M deps s' ∧ ∃ os b, AnonRound M sem deps rs pl s os b pl' s' ∧
      o = b.map fun f => agf && !f := by
  intro rs
  induction rs with
  | nil =>
    intro agf pl pl' s s' o hg h
    unfold anonRound at h
    cases h
    exact ⟨hg, [], some false, .nil _ _, by simp⟩
  | cons r rs ih =>
    intro agf pl pl' s s' o hg h
    unfold anonRound at h
    obtain ⟨es, s1, h1, h2⟩ := Res.bind_ok.1 h
    obtain ⟨rfl, p, st, ha, rfl⟩ := hg.lookup hM h1
    cases hes : M.entries deps .none p st with
    | nil =>
      rw [hes] at h2
      cases h2
      exact ⟨hg, _, _, .stop (.none ha ((Machine.entries_eq_nil hM hg.ne).1 hes)), rfl⟩
    | cons e es =>
      rw [hes] at h2
      simp only at h2
      rw [← hes] at h2
      obtain ⟨⟨b, p1⟩, s2, h3, h4⟩ := Res.bind_ok.1 h2
      obtain ⟨hg2, o1, ho, hb, hr⟩ := hg.tryAnon hM ha (by rw [hes]; simp) h3
      obtain ⟨hg3, os, b', hl, hres⟩ := ih hg2 h4
      refine ⟨hg3, _, _, .cons hr ho hl, ?_⟩
      rw [hres, Option.map_map]
      congr 1
      funext f
      simp only [Function.comp, hb]
      cases agf <;> cases f <;> simp

theorem anonRound_throw (hM : M.Regular) {deps : List Dep} :
    ∀ {rs : List Nat} {agf : Bool} {pl : P} {s s' : SM P W} {x : Exn},
    Good M deps s → anonRound M sem rs agf pl s = .throw x s' →
    ∃ k, x = .user k ∧ AnonRoundThrow M sem deps rs pl s k s' := by
  intro rs
  induction rs with
  | nil =>
    intro agf pl s s' x hg h
    unfold anonRound at h
    cases h
  | cons r rs ih =>
    intro agf pl s s' x hg h
    unfold anonRound at h
    rcases Res.bind_throw.1 h with h | ⟨es, s1, h1, h2⟩
    · exact absurd h lookup_throw
    · obtain ⟨rfl, p, st, ha, rfl⟩ := hg.lookup hM h1
      cases hes : M.entries deps .none p st with
      | nil => rw [hes] at h2; cases h2
      | cons e es =>
        rw [hes] at h2
        simp only at h2
        rw [← hes] at h2
        rcases Res.bind_throw.1 h2 with h3 | ⟨⟨b, p1⟩, s2, h3, h4⟩
        · have hd := anon_no_defer (M := M) (sem := sem) (r := r) (pl := pl) (s := s1)
            (deps := deps) (p := p) (st := st) (by rw [h3]; simp)
          rw [tryAnon_eq hd] at h3
          rcases Res.bind_throw.1 h3 with h5 | ⟨_, _, _, h5⟩
          · obtain ⟨k, hk, ht⟩ := tryEntries_throw h5
            exact ⟨k, hk, .here (ht.region hM hg ha)⟩
          · cases h5
        · obtain ⟨hg2, o1, ho, hb, hr⟩ := hg.tryAnon hM ha (by rw [hes]; simp) h3
          obtain ⟨k, hk, ht⟩ := ih hg2 h4
          exact ⟨k, hk, .later hr ho ht⟩

theorem anonLoop_ok (hM : M.Regular) {deps : List Dep} :
    ∀ {fuel : Nat} {pl : P} {s s' : SM P W} {u : Unit}, Good M deps s →
    anonLoop M sem fuel pl s = .ok u s' → Good M deps s' ∧ AnonRun M sem deps pl s s' := by
  intro fuel
  induction fuel with
  | zero => intro pl s s' u _ h; cases h
  | succ n ih =>
    intro pl s s' u hg h
    unfold anonLoop at h
    rw [currentRegions_eq] at h
    obtain ⟨⟨o, p1⟩, s1, h1, h2⟩ := Res.bind_ok.1 h
    obtain ⟨hg1, os, b, hr, hres⟩ := anonRound_ok hM hg h1
    cases b with
    | none =>
      cases hres
      cases h2
      exact ⟨hg1, .done hr (by simp)⟩
    | some f =>
      cases f with
      | false =>
        cases hres
        cases h2
        exact ⟨hg1, .done hr (by simp)⟩
      | true =>
        cases hres
        obtain ⟨hg2, hl⟩ := ih hg1 h2
        exact ⟨hg2, .again hr hl⟩

theorem anonLoop_throw (hM : M.Regular) {deps : List Dep} :
    ∀ {fuel : Nat} {pl : P} {s s' : SM P W} {x : Exn}, Good M deps s →
    anonLoop M sem fuel pl s = .throw x s' →
    ∃ k, x = .user k ∧ AnonThrow M sem deps pl s k s' := by
  intro fuel
  induction fuel with
  | zero => intro pl s s' x _ h; cases h
  | succ n ih =>
    intro pl s s' x hg h
    unfold anonLoop at h
    rw [currentRegions_eq] at h
    rcases Res.bind_throw.1 h with h | ⟨⟨o, p1⟩, s1, h1, h2⟩
    · obtain ⟨k, hk, ht⟩ := anonRound_throw hM hg h
      exact ⟨k, hk, .here ht⟩
    · obtain ⟨hg1, os, b, hr, hres⟩ := anonRound_ok hM hg h1
      cases b with
      | none => cases hres; cases h2
      | some f =>
        cases f with
        | false => cases hres; cases h2
        | true =>
          cases hres
          obtain ⟨k, hk, ht⟩ := ih hg1 h2
          exact ⟨k, hk, .later hr ht⟩

end
end Hsm
