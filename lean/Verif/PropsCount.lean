import Verif.PropsInside
import Verif.PropsPriority
import Verif.PropsGuards

/-!
# C75: how often a row is tried

A row of composite `Q` is tried once for every way of getting from the root to `Q` along rows that
lead into composites, times the number of places it is declared in, times the number of
dependencies the tables were filled with.
-/

namespace Hsm
namespace Machine

/-! ## Specification -/

/-- The number of ways from composite `p` to composite `Q` along rows that lead into composites, of at
most `n` composites. -/
def ways (M : Machine) (Q : Name) : Nat → Name → Nat
  | 0, _ => 0
  | n + 1, p => (if p = Q then 1 else 0) +
      ((M.rows p).map fun r => (M.leadsInto r.target).elim 0 (M.ways Q n)).sum

/-- The number of ways from the root to composite `Q`. -/
def waysIn (M : Machine) (Q : Name) : Nat := M.ways Q (M.rank M.root + 1) M.root

/-- In how many roles row `r` of `Q` applies at location `(p, s)`: as a row on this state and as a row
on its composite. -/
def roles (M : Machine) (Q : Name) (r : Row) (p : Name) (s : StTy) : Nat :=
  (if sourceLoc Q r.source = (p, s) then 1 else 0) +
    (if r.source = .st p ∧ M.isComposite p = true ∧ M.IsChild p s then 1 else 0)

/-- How often row `r` of `Q` is tried for event `e` at location `(p, s)`, in a machine whose tables were
filled once. -/
def tries (M : Machine) (Q : Name) (r : Row) (e : EventTy) (p : Name) (s : StTy) : Nat :=
  if r.event = e then M.waysIn Q * (M.rows Q).count r * M.roles Q r p s else 0

/-! ## Rows as they are read -/

variable {M : Machine} {Q : Name}

theorem rowIn_inj {p q : Name} {r r' : Row} : rowIn p r = rowIn q r' ↔ p = q ∧ r = r' := by
  cases r; cases r'; simp [rowIn]

theorem count_flatMap' {α β : Type} [DecidableEq β] (b : β) (f : α → List β) (l : List α) :
    (l.flatMap f).count b = (l.map fun a => (f a).count b).sum := by
  induction l with
  | nil => rfl
  | cons a l ih => rw [List.flatMap_cons, List.count_append, ih]; rfl

/-- The rows as they are read from `p` on. -/
theorem count_reading (r : Row) (n : Nat) : ∀ p,
    (M.reading n p).count (rowIn Q r) = M.ways Q n p * (M.rows Q).count r := by
  induction n with
  | zero => intro p; simp [reading, ways]
  | succ n ih =>
    intro p
    rw [reading_succ, count_flatMap', ways, Nat.add_mul]
    have hb : ∀ r', (M.block n p r').count (rowIn Q r) =
        (if p = Q ∧ r' = r then 1 else 0) +
          (M.leadsInto r'.target).elim 0 (M.ways Q n) * (M.rows Q).count r := by
      intro r'
      unfold block
      show List.count _ (rowIn p r' :: _) = _
      rw [List.count_cons, Nat.add_comm]
      congr 1
      · simp only [beq_iff_eq, rowIn_inj]
      · cases M.leadsInto r'.target with
        | none => simp
        | some c => exact ih c
    simp only [hb]
    have hs : ∀ l : List Row, (l.map fun r' => (if p = Q ∧ r' = r then 1 else 0) +
        (M.leadsInto r'.target).elim 0 (M.ways Q n) * (M.rows Q).count r).sum =
        (if p = Q then 1 else 0) * l.count r +
          (l.map fun r' => (M.leadsInto r'.target).elim 0 (M.ways Q n)).sum *
            (M.rows Q).count r := by
      intro l
      induction l with
      | nil => simp
      | cons a l ih =>
        rw [List.map_cons, List.sum_cons, ih, List.map_cons, List.sum_cons, List.count_cons,
          Nat.add_mul]
        by_cases hp : p = Q <;> by_cases ha : a = r <;> simp [hp, ha] <;> omega
    rw [hs]
    congr 1
    by_cases hp : p = Q
    · rw [hp]
    · simp [hp]

theorem count_extRows (r : Row) :
    M.extRows.count (rowIn Q r) = M.waysIn Q * (M.rows Q).count r := count_reading r _ _

/-- C75, the table: a row of `Q` occurs among the rows the code collects as often as it is declared in `Q`,
times the number of ways to `Q`. -/
theorem C75_rows (r : Row) : M.flat.count (rowIn Q r) = M.waysIn Q * (M.rows Q).count r := by
  rw [← extRows_eq]; exact count_extRows r

theorem ways_entering (hr : M.Ranked) (n : Nat) : ∀ p, M.rank p < n →
    M.ways Q n p = (if p = Q then 1 else 0) +
      (M.reading n p).countP fun t => M.leadsInto t.target = some Q := by
  induction n with
  | zero => intro p h; omega
  | succ n ih =>
    intro p hp
    rw [ways, reading_succ]
    congr 1
    have hs : ∀ l : List Row, (∀ r ∈ l, r ∈ M.rows p) →
        (l.map fun r => (M.leadsInto r.target).elim 0 (M.ways Q n)).sum =
        (l.flatMap (M.block n p)).countP fun t => M.leadsInto t.target = some Q := by
      intro l
      induction l with
      | nil => intro _; rfl
      | cons a l ih' =>
        intro hl
        rw [List.map_cons, List.sum_cons, List.flatMap_cons, List.countP_append,
          ih' fun r h => hl r (by simp [h])]
        congr 1
        unfold block
        show _ = List.countP _ (rowIn p a :: _)
        rw [List.countP_cons]
        show _ = _ + if decide (M.leadsInto a.target = some Q) = true then 1 else 0
        cases h : M.leadsInto a.target with
        | none => simp
        | some c =>
          have hsub : M.subMachine a.target = some c := by rw [← leadsInto_eq]; exact h
          have := hr p a c (hl a (by simp)) hsub
          simp only [Option.elim, Option.some.injEq, decide_eq_true_eq]
          rw [ih c (by omega), Nat.add_comm]
    exact hs _ fun _ h => h

/-- The ways to a composite are counted by the rows that lead into it, as often as they are read. -/
theorem C75_entrances (hM : M.Regular) (Q : Name) :
    M.waysIn Q = (if M.root = Q then 1 else 0) +
      M.flat.countP fun t => M.leadsInto t.target = some Q := by
  rw [← extRows_eq]
  exact ways_entering hM.ranked _ _ (Nat.lt_succ_self _)

/-- There is a way to exactly those composites whose rows are in force. -/
theorem C75_waysIn_pos (hM : M.Regular) (Q : Name) : 0 < M.waysIn Q ↔ M.InForce Q := by
  have key : ∀ n p, M.rank p < n → (0 < M.ways Q n p ↔ M.Nested p Q) := by
    intro n
    induction n with
    | zero => intro p h; omega
    | succ n ih =>
      intro p hp
      rw [ways]
      have hsum : 0 < ((M.rows p).map fun r => (M.leadsInto r.target).elim 0 (M.ways Q n)).sum ↔
          ∃ r ∈ M.rows p, ∃ c, M.leadsInto r.target = some c ∧ M.Nested c Q := by
        have : ∀ l : List Row, (∀ r ∈ l, r ∈ M.rows p) →
            (0 < (l.map fun r => (M.leadsInto r.target).elim 0 (M.ways Q n)).sum ↔
              ∃ r ∈ l, ∃ c, M.leadsInto r.target = some c ∧ M.Nested c Q) := by
          intro l
          induction l with
          | nil => intro _; simp
          | cons a l ih' =>
            intro hl
            rw [List.map_cons, List.sum_cons]
            have h1 := ih' fun r h => hl r (by simp [h])
            have h2 : 0 < (M.leadsInto a.target).elim 0 (M.ways Q n) ↔
                ∃ c, M.leadsInto a.target = some c ∧ M.Nested c Q := by
              cases h : M.leadsInto a.target with
              | none => simp
              | some c =>
                have hsub : M.subMachine a.target = some c := by rw [← leadsInto_eq]; exact h
                have := hM.ranked p a c (hl a (by simp)) hsub
                simp only [Option.elim, Option.some.injEq, exists_eq_left']
                exact ih c (by omega)
            rw [Nat.add_pos_iff_pos_or_pos, h1, h2]
            simp
        exact this _ fun _ h => h
      rw [Nat.add_pos_iff_pos_or_pos, hsum]
      constructor
      · rintro (h | ⟨r, hr, c, hc, hn⟩)
        · split at h
          · subst_vars; exact .refl
          · omega
        · refine Nested.trans (.sub .refl hr (subMachine_iff.1 ?_)) hn
          rw [← leadsInto_eq]; exact hc
      · intro h
        by_cases hpq : p = Q
        · left; simp [hpq]
        · right
          clear hsum ih
          induction h with
          | refl => exact absurd rfl hpq
          | @sub q q' r hq hr he ih' =>
            have hl : M.leadsInto r.target = some q' := by rw [leadsInto_eq]; exact subMachine_iff.2 he
            by_cases hp' : p = q
            · subst hp'
              exact ⟨r, hr, q', hl, .refl⟩
            · obtain ⟨r1, h1, c, h2, h3⟩ := ih' hp'
              exact ⟨r1, h1, c, h2, .sub h3 hr he⟩
  exact key _ _ (Nat.lt_succ_self _)

/-! ## Candidates -/

theorem row?_extCands (p : Name) (s : StTy) (t : XRow) : ((M.extCands p s t).filterMap Cand.row?) =
    List.replicate ((if sourceLoc t.parent t.source = (p, s) then 1 else 0) +
      (if t.source = .st p ∧ M.isComposite p = true ∧ M.IsChild p s then 1 else 0)) t := by
  unfold extCands
  by_cases h1 : t.source = .st p ∧ M.isComposite p = true ∧ M.IsChild p s <;>
    by_cases h2 : sourceLoc t.parent t.source = (p, s)
  · rw [if_pos h1, if_pos h2, if_pos h2, if_pos h1]; rfl
  · rw [if_pos h1, if_neg h2, if_neg h2, if_pos h1]; rfl
  · rw [if_neg h1, if_pos h2, if_pos h2, if_neg h1]; rfl
  · rw [if_neg h1, if_neg h2, if_neg h2, if_neg h1]; rfl

theorem count_map_ite {α : Type} [DecidableEq α] (a : α) (k : Nat) (l : List α) :
    (l.map fun b => if b = a then k else 0).sum = l.count a * k := by
  induction l with
  | nil => simp
  | cons b l ih =>
    rw [List.map_cons, List.sum_cons, ih, List.count_cons]
    by_cases h : b = a <;> simp [h, Nat.add_mul] <;> omega

/-- C75, the candidates: how often an external row is tried for an event at a location. -/
theorem C75_tries (r : Row) (e : EventTy) (p : Name) (s : StTy) :
    ((M.cands e p s).filterMap Cand.row?).count (rowIn Q r) = M.tries Q r e p s := by
  rw [cands, List.filterMap_append, List.filterMap_append, List.count_append, List.count_append]
  have h0 : ((List.replicate ((M.extRows.map (M.deferCount e p s)).sum) Cand.defer).filterMap
      Cand.row?) = [] := by
    rw [List.filterMap_eq_nil_iff]
    intro c hc
    rw [(List.mem_replicate.1 hc).2]; rfl
  have h2 : (((M.intRows.reverse.filter fun t => t.event = e).flatMap (intCands p s)).filterMap
      Cand.row?).count (rowIn Q r) = 0 := by
    rw [List.count_eq_zero]
    intro h
    obtain ⟨c, hc, hrow⟩ := List.mem_filterMap.1 h
    obtain ⟨t, ht, hct⟩ := List.mem_flatMap.1 hc
    have hi := iflat_internal (M := M) (t := t) (by
      rw [← intRows_eq]; exact List.mem_reverse.1 (List.mem_filter.1 ht).1)
    have h1 : some t = _ := (mem_intCands hct).1.symm.trans hrow
    rw [Option.some.inj h1] at hi
    cases hi
  rw [h0, h2, List.count_nil, Nat.zero_add, Nat.add_zero, List.filterMap_flatMap, count_flatMap']
  have h1 : ∀ t : XRow, ((M.extCands p s t).filterMap Cand.row?).count (rowIn Q r) =
      if t = rowIn Q r then M.roles Q r p s else 0 := by
    intro t
    rw [row?_extCands, List.count_replicate]
    by_cases h : t = rowIn Q r
    · subst h; simp only [beq_self_eq_true, if_true]; rfl
    · simp [h]
  simp only [h1]
  rw [count_map_ite, tries]
  by_cases he : r.event = e
  · rw [List.count_filter (p := fun t : XRow => decide (t.event = e)) (decide_eq_true he), List.count_reverse, count_extRows, if_pos he]
  · rw [if_neg he, List.count_eq_zero_of_not_mem, Nat.zero_mul]
    intro h
    exact he (of_decide_eq_true (List.mem_filter.1 h).2)

/-- Where a row on composite `C`, declared in `q`, is a candidate. -/
theorem cands_composite_row (hM : M.Regular) {q : Name} {r : Row} (hq : M.InForce q) (hr : r ∈ M.rows q)
    {C : Name} (hs : r.source = .st C) (hc : M.isComposite C = true) (p : Name) (s : StTy) :
    (∃ c ∈ M.cands r.event p s, IsRow q r c) ↔ (p = C ∧ M.IsChild C s) ∨ (p = q ∧ s = .st C) := by
  have h1 : (∃ c ∈ M.cands r.event p s, IsRow q r c) ↔
      0 < ((M.cands r.event p s).filterMap Cand.row?).count (rowIn q r) := by
    rw [List.count_pos_iff, List.mem_filterMap]; rfl
  have h2 := (C75_waysIn_pos hM q).2 hq
  have h3 := List.count_pos_iff.2 hr
  have h4 := Nat.mul_pos h2 h3
  rw [h1, C75_tries, tries, if_pos rfl, Nat.mul_pos_iff_of_pos_left h4, roles, hs]
  simp only [sourceLoc, Prod.mk.injEq, StTy.st.injEq]
  by_cases hp : p = C
  · subst hp
    by_cases hch : M.IsChild p s
    · simp [hc, hch]
    · by_cases hqs : q = p ∧ StTy.st p = s
      · simp only [hqs.1, hqs.2.symm, and_self, if_true, or_true, iff_true]
        omega
      · have : ¬ (p = q ∧ s = .st p) := fun h => hqs ⟨h.1.symm, h.2.symm⟩
        simp [hch, hqs, this]
  · have h5 : ¬ (C = p ∧ M.isComposite p = true ∧ M.IsChild p s) := fun h => hp h.1.symm
    rw [if_neg h5]
    by_cases hqs : q = p ∧ StTy.st C = s
    · simp [hp, hqs.1, hqs.2.symm]
    · have : ¬ (p = q ∧ s = .st C) := fun h => hqs ⟨h.1.symm, h.2.symm⟩
      simp [hp, hqs, this]

/-- C17, exactly: wherever a region is, the entries consulted for an event are those of some candidates, and
a row on composite `C`, declared in `q`, is among these in the children of `C` and at the location `C` of `q`
itself, and nowhere else; in particular not inside composites nested in `C`. -/
theorem C17_exact {P W : Type} {sem : Sem P W} {d : Dep} {ops : List (Op P)} {s : SM P W} (hM : M.Regular)
    (hm : Moment M sem d ops s) {q : Name} {r : Row} (hq : M.InForce q) (hr : r ∈ M.rows q)
    {C : Name} (hs : r.source = .st C) (hc : M.isComposite C = true) {i : Nat} {p : Name} {st : StTy}
    (ha : At M s i p st) : ∃ cs : List Cand,
      lookup M r.event i s = .ok ((depsOf d ops).flatMap fun d => cs.filterMap (M.entryOfCand d)) s ∧
      ((∃ c ∈ cs, IsRow q r c) ↔ (p = C ∧ M.IsChild C st) ∨ (p = q ∧ st = .st C)) :=
  ⟨_, C01_consulted hM hm ha r.event, cands_composite_row hM hq hr hs hc p st⟩

/-- An internal row is tried at most once, and once exactly if it is in force, for this event and at
this location. -/
theorem C75_internal {t : XRow} (hi : t.internal = true) (e : EventTy) (p : Name) (s : StTy) :
    ((M.cands e p s).filterMap Cand.row?).count t =
      if t ∈ M.intRows ∧ t.event = e ∧ sourceLoc t.parent t.source = (p, s) then 1 else 0 := by
  rw [cands, List.filterMap_append, List.filterMap_append, List.count_append, List.count_append]
  have h0 : ((List.replicate ((M.extRows.map (M.deferCount e p s)).sum) Cand.defer).filterMap
      Cand.row?) = [] := by
    rw [List.filterMap_eq_nil_iff]
    intro c hc
    rw [(List.mem_replicate.1 hc).2]; rfl
  have h1 : (((M.extRows.reverse.filter fun t => t.event = e).flatMap (M.extCands p s)).filterMap
      Cand.row?).count t = 0 := by
    rw [List.count_eq_zero]
    intro h
    obtain ⟨c, hc, hrow⟩ := List.mem_filterMap.1 h
    obtain ⟨u, hu, hcu⟩ := List.mem_flatMap.1 hc
    obtain ⟨q, _, r, _, rfl⟩ := mem_reading (List.mem_reverse.1 (List.mem_filter.1 hu).1)
    have h1 : some (rowIn q r) = _ := (mem_extCands hcu).symm.trans hrow
    rw [← Option.some.inj h1] at hi
    cases hi
  rw [h0, h1, List.count_nil, Nat.add_zero, Nat.zero_add, List.filterMap_flatMap, count_flatMap']
  have h2 : ∀ u : XRow, ((intCands p s u).filterMap Cand.row?).count t =
      if u = t then (if sourceLoc t.parent t.source = (p, s) then 1 else 0) else 0 := by
    intro u
    unfold intCands
    by_cases h : u = t
    · subst h
      by_cases h2 : sourceLoc u.parent u.source = (p, s) <;> simp [h2, Cand.row?]
    · by_cases h2 : sourceLoc u.parent u.source = (p, s) <;> simp [h2, h, Cand.row?]
  simp only [h2]
  rw [count_map_ite]
  have hn : (M.intRows.reverse.filter fun t => t.event = e).Nodup := by
    rw [intRows_eq]
    exact (List.nodup_reverse.2 (nodup_uniq _)).filter _
  rw [List.Nodup.count hn]
  simp only [List.mem_filter, List.mem_reverse, decide_eq_true_eq]
  by_cases ha : t ∈ M.intRows <;> by_cases hb : t.event = e <;>
    by_cases hc : sourceLoc t.parent t.source = (p, s) <;> simp [ha, hb, hc]

/-- The guards of the entries consulted for an event at a location. -/
theorem countP_entries (hM : M.Regular) (deps : List Dep) (e : EventTy) (p : Name) (s : StTy)
    (g : Cb) : (M.entries deps e p s).countP (fun en => en.guard? = some g) =
      deps.length * ((M.cands e p s).filterMap Cand.row?).countP fun t => t.guard = some g := by
  have key : ∀ (d : Dep) (cs : List Cand), (∀ c ∈ cs, c ∈ M.cands e p s) →
      (cs.filterMap (M.entryOfCand d)).countP (fun en => en.guard? = some g) =
        (cs.filterMap Cand.row?).countP fun t => t.guard = some g := by
    intro d cs
    induction cs with
    | nil => intro _; rfl
    | cons c cs ih =>
      intro hcs
      have ih := ih fun c h => hcs c (by simp [h])
      rcases cand_row (hcs c (by simp)) with rfl | ⟨t, ht, _, rfl | rfl⟩
      · simpa [entryOfCand, Cand.row?, List.filterMap_cons, Entry.guard?] using ih
      · obtain ⟨l, hl⟩ := hM.targetLoc_some ht
        obtain ⟨en, he, hg⟩ : ∃ en, M.entryOfCand d (.row t) = some en ∧ en.guard? = t.guard := by
          simp [entryOfCand, hl, Entry.guard?]
        rw [List.filterMap_cons_some he, List.filterMap_cons_some (show Cand.row? (.row t) = some t from rfl), List.countP_cons,
          List.countP_cons, ih, hg]
      · obtain ⟨l, hl⟩ := hM.targetLoc_some ht
        obtain ⟨en, he, hg⟩ : ∃ en, M.entryOfCand d (.exit t p) = some en ∧ en.guard? = t.guard := by
          simp [entryOfCand, hl, Entry.guard?]
        rw [List.filterMap_cons_some he, List.filterMap_cons_some (show Cand.row? (.exit t p) = some t from rfl), List.countP_cons,
          List.countP_cons, ih, hg]
  induction deps with
  | nil => simp [entries]
  | cons d deps ih =>
    have : M.entries (d :: deps) e p s =
      (M.cands e p s).filterMap (M.entryOfCand d) ++ M.entries deps e p s := rfl
    rw [this, List.countP_append, ih, key d _ fun _ h => h, List.length_cons, Nat.add_mul]
    omega

end Machine

/-! ## Runs -/

section
variable {P W : Type} {M : Machine} {sem : Sem P W}

/-- The call asks guard `g`. -/
def Call.asks (g : Cb) (c : Call P) : Bool := c.answer.map (·.1) == some g

theorem countP_asks {tr : List (Call P)} {l : List (Option Cb)}
    (h : tr.map (fun c => c.answer.map (·.1)) = l) (g : Cb) :
    tr.countP (Call.asks g) = l.countP (· == some g) := by
  rw [← h, List.countP_map]; rfl

theorem countP_guard? (es : List Entry) (g : Cb) :
    (es.map Entry.guard?).countP (· == some g) = es.countP fun en => en.guard? = some g := by
  rw [List.countP_map]
  congr 1
  funext e
  simp [Bool.beq_eq_decide_eq]

theorem countP_actions {as : List (Call P)} (h : ∀ c ∈ as, c.isAction = true) (g : Cb) :
    as.countP (Call.asks g) = 0 := by
  rw [List.countP_eq_zero]
  intro c hc
  cases c with
  | guard => exact absurd (h _ hc) (by simp [Call.isAction])
  | action => simp [Call.asks, Call.answer]
  | handler => simp [Call.asks, Call.answer]

/-- How often guard `g` is asked while an event is handled in a region: never more often than there
are candidates with this guard, for every dependency once; exactly that often if none accepts. -/
theorem C75_guard (hM : M.Regular) {d : Dep} {ops : List (Op P)} {s s' : SM P W}
    (hm : Moment M sem d ops s) {i : Nat} {ev : EventTy} {pl pl' : P} {o : RegionOut}
    (h : Handles M sem i ev pl s o pl' s') {p : Name} {st : StTy} (ha : At M s i p st) (g : Cb) :
    ∃ calls, s'.trace = s.trace ++ calls ∧
      calls.countP (Call.asks g) ≤ (depsOf d ops).length *
        ((M.cands ev p st).filterMap Cand.row?).countP (fun t => t.guard = some g) ∧
      (o = .rejected → calls.countP (Call.asks g) = (depsOf d ops).length *
        ((M.cands ev p st).filterMap Cand.row?).countP (fun t => t.guard = some g)) := by
  obtain ⟨p', st', pre, post, gs, as, ha', hes, htr, _, has, hgs, _, hrest⟩ := C07_region hM hm h
  obtain ⟨rfl, rfl⟩ := ha'.unique hM ha
  refine ⟨gs ++ as, by rw [htr, List.append_assoc], ?_⟩
  rw [List.countP_append, countP_actions has, Nat.add_zero, countP_asks hgs g,
    ← Machine.countP_entries hM, hes, List.countP_append, ← countP_guard?]
  have hfil : ((pre.map Entry.guard?).filter Option.isSome).countP (· == some g) =
      (pre.map Entry.guard?).countP (· == some g) := by
    rw [List.countP_filter]
    congr 1
    funext x
    cases x <;> simp
  rw [hfil]
  refine ⟨by omega, fun ho => ?_⟩
  subst ho
  rw [(hrest (by simp)).2.1 (by simp)]
  simp

/-- The same if a callback throws. -/
theorem C75_guard_throw (hM : M.Regular) {d : Dep} {ops : List (Op P)} {s s' : SM P W}
    (hm : Moment M sem d ops s) {i : Nat} {ev : EventTy} {pl : P} {x : Exn}
    (h : HandlesThrow M sem i ev pl s x s') {p : Name} {st : StTy} (ha : At M s i p st) (g : Cb) :
    ∃ calls, s'.trace = s.trace ++ calls ∧
      calls.countP (Call.asks g) ≤ (depsOf d ops).length *
        ((M.cands ev p st).filterMap Cand.row?).countP (fun t => t.guard = some g) := by
  obtain ⟨k, _, h⟩ := h.run hM hm
  rw [← Machine.countP_entries hM]
  have key : ∀ {p' st'} (_ : At M s i p' st') {c t dd l x pre} (_ : Selected M (depsOf d ops) ev p' st' c t dd l x pre)
      {p1 w1 tr1} (_ : FalseRun sem s.cur ev pre pl s.world tr1 p1 w1) (gs : List (Call P))
      (_ : gs = [] ∨ ∃ c, gs = [c] ∧ IsGuardOf t c),
      (tr1 ++ gs).countP (Call.asks g) ≤
        (M.entries (depsOf d ops) ev p st).countP fun en => en.guard? = some g := by
    intro p' st' ha' c t dd l x pre hs p1 w1 tr1 hf gs hgs
    obtain ⟨rfl, rfl⟩ := ha'.unique hM ha
    obtain ⟨e, post, hes, hen, hx⟩ := hs.entries
    rw [hes, List.countP_append, List.countP_append, List.countP_cons,
      countP_asks hf.answers.1.symm g, countP_guard?]
    rcases hgs with rfl | ⟨c, rfl, g', args, q, b, cur, hg', rfl⟩
    · simp
    · have he : e.guard? = some g' := by rw [← hg', ← hs.guard]; simp [Entry.guard?, hx]
      have : List.countP (Call.asks g) [Call.guard g' args q b cur] = if g' = g then 1 else 0 := by
        by_cases h : g' = g <;> simp [Call.asks, Call.answer, h]
      rw [this, he]
      simp only [Option.some.injEq, decide_eq_true_eq]
      omega
  cases h with
  | @guard _ _ _ _ _ _ x _ g' p1 _ tr _ _ _ ha' hs hf hg hc =>
    exact ⟨_, rfl, key ha' hs hf _ (Or.inr ⟨_, rfl, _, _, _, _, _, hg, rfl⟩)⟩
  | @action _ _ _ t _ _ x _ _ _ tr1 tr2 tr3 _ _ _ s1 _ ha' hs hf hg he hr =>
    refine ⟨(tr1 ++ tr2) ++ tr3, ?_, ?_⟩
    · show s1.trace ++ tr3 = _
      rw [he.trace_eq]; simp [SM.ran]
    · rw [List.countP_append, countP_actions hr.actions, Nat.add_zero]
      refine key ha' hs hf _ ?_
      cases hg with
      | absent h => exact Or.inl rfl
      | called h hc => exact Or.inr ⟨_, rfl, _, _, _, _, _, by rw [← hs.guard]; exact h, rfl⟩

/-- If `g` is the guard of the row `r` of `Q` only, the candidates with this guard are this row. -/
theorem countP_only {g : Cb} {Q : Name} {r : Row} (hg : r.guard = some g)
    (honly : ∀ t ∈ M.extRows ++ M.intRows, t.guard = some g → t = Machine.rowIn Q r) (ev : EventTy)
    (p : Name) (st : StTy) : ((M.cands ev p st).filterMap Cand.row?).countP
      (fun t => t.guard = some g) = M.tries Q r ev p st := by
  rw [← Machine.C75_tries, List.count_eq_countP]
  apply List.countP_congr
  intro t ht
  obtain ⟨c, hc, hrow⟩ := List.mem_filterMap.1 ht
  have htm : t ∈ M.extRows ++ M.intRows := by
    rw [Machine.extRows_eq, Machine.intRows_eq]
    rcases Machine.cand_row hc with rfl | ⟨t', ht', _, rfl | rfl⟩
    · cases hrow
    · cases hrow; exact ht'
    · cases hrow; exact ht'
  simp only [decide_eq_true_eq, beq_iff_eq]
  constructor
  · exact honly t htm
  · rintro rfl; exact hg

/-- C75: if `g` is the guard of the row `r` of composite `Q` only, then handling an event in a region
asks it at most as often as there are ways to `Q`, times the places `r` is declared in, times the
roles it has at this location, times the dependencies the tables were filled with; and exactly that
often if no row fires. -/
theorem C75_asked (hM : M.Regular) {d : Dep} {ops : List (Op P)} {s s' : SM P W}
    (hm : Moment M sem d ops s) {i : Nat} {ev : EventTy} {pl pl' : P} {o : RegionOut}
    (h : Handles M sem i ev pl s o pl' s') {p : Name} {st : StTy} (ha : At M s i p st) {g : Cb}
    {Q : Name} {r : Row} (hg : r.guard = some g)
    (honly : ∀ t ∈ M.extRows ++ M.intRows, t.guard = some g → t = Machine.rowIn Q r) :
    ∃ calls, s'.trace = s.trace ++ calls ∧
      calls.countP (Call.asks g) ≤ (depsOf d ops).length * M.tries Q r ev p st ∧
      (o = .rejected → calls.countP (Call.asks g) = (depsOf d ops).length * M.tries Q r ev p st) := by
  rw [← countP_only hg honly]
  exact C75_guard hM hm h ha g

/-- Internal row `i` as it is read at the state written `x.2` in a row of composite `x.1`. -/
def Machine.irowAt (i : IRow) (x : Name × StTy) : XRow :=
  { parent := x.1, source := x.2, event := i.event, guard := i.guard, action := i.action,
    target := x.2, internal := true }

theorem Machine.irowAt_of_mem {M : Machine} {t : XRow} (ht : t ∈ M.intRows) :
    t = irowAt ⟨t.event, t.guard, t.action⟩ (t.parent, t.source) := by
  obtain ⟨x, _, hx⟩ := List.mem_flatMap.1 (List.mem_eraseDups.1 ht)
  unfold innerRows at hx
  split at hx
  · obtain ⟨i, _, hi⟩ := List.mem_flatMap.1 hx
    obtain ⟨y, _, rfl⟩ := List.mem_map.1 hi
    rfl
  · cases hx

/-- C75: if `g` is the guard of internal rows with the contents `i` only, it is asked as often as there
are different ways in which the location is written where the row applies - plainly, with the initial
marker, as an exit point of an inner composite - times the number of dependencies; at most that often,
and exactly that often if no row fires. -/
theorem C75_asked_written (hM : M.Regular) {d : Dep} {ops : List (Op P)} {s s' : SM P W}
    (hm : Moment M sem d ops s) {k : Nat} {pl pl' : P} {o : RegionOut} {i : IRow}
    (h : Handles M sem k i.event pl s o pl' s') {p : Name} {st : StTy} (ha : At M s k p st) {g : Cb}
    (hg : i.guard = some g)
    (honly : ∀ t ∈ M.extRows ++ M.intRows, t.guard = some g →
      t.internal = true ∧ t.event = i.event ∧ t.action = i.action)
    {L : List (Name × StTy)} (hL : L.Nodup)
    (hmem : ∀ x, x ∈ L ↔ Machine.irowAt i x ∈ M.intRows ∧ Machine.sourceLoc x.1 x.2 = (p, st)) :
    ∃ calls, s'.trace = s.trace ++ calls ∧
      calls.countP (Call.asks g) ≤ (depsOf d ops).length * L.length ∧
      (o = .rejected → calls.countP (Call.asks g) = (depsOf d ops).length * L.length) := by
  have hc : ((M.cands i.event p st).filterMap Cand.row?).countP (fun u => u.guard = some g) =
      L.length := by
    rw [List.countP_eq_length_filter]
    have hperm : (((M.cands i.event p st).filterMap Cand.row?).filter fun u => u.guard = some g).Perm
        (L.map (Machine.irowAt i)) := by
      have hrow : ∀ u ∈ (M.cands i.event p st).filterMap Cand.row?, u ∈ M.extRows ++ M.intRows := by
        intro u hu
        obtain ⟨c, hc, hr⟩ := List.mem_filterMap.1 hu
        rcases Machine.cand_row hc with rfl | ⟨t', ht', _, h | h⟩
        · cases hr
        · subst h; cases hr; rw [Machine.extRows_eq, Machine.intRows_eq]; exact ht'
        · subst h; cases hr; rw [Machine.extRows_eq, Machine.intRows_eq]; exact ht'
      rw [List.perm_iff_count]
      intro t
      have hinj : Function.Injective (Machine.irowAt i) := by
        intro x y hxy
        have h1 := congrArg XRow.parent hxy
        have h2 := congrArg XRow.source hxy
        exact Prod.ext h1 h2
      by_cases hi : t.internal = true
      · by_cases hgt : t.guard = some g
        · rw [List.count_filter (p := fun u : XRow => decide (u.guard = some g)) (decide_eq_true hgt),
            Machine.C75_internal hi,
            List.Nodup.count (hL.map hinj)]
          refine if_congr ⟨?_, ?_⟩ rfl rfl
          · rintro ⟨h1, h2, h3⟩
            obtain ⟨_, h4, h5⟩ := honly t (List.mem_append.2 (.inr h1)) hgt
            have h6 := Machine.irowAt_of_mem h1
            rw [h4, h5, hgt, ← hg] at h6
            exact List.mem_map.2 ⟨(t.parent, t.source), (hmem _).2 ⟨h6 ▸ h1, h3⟩, h6.symm⟩
          · intro hin
            obtain ⟨x, hx, rfl⟩ := List.mem_map.1 hin
            exact ⟨((hmem x).1 hx).1, rfl, ((hmem x).1 hx).2⟩
        · rw [List.count_eq_zero_of_not_mem, List.count_eq_zero_of_not_mem]
          · intro hin
            obtain ⟨x, _, rfl⟩ := List.mem_map.1 hin
            exact hgt hg
          · intro hin
            exact hgt (of_decide_eq_true (List.mem_filter.1 hin).2)
      · rw [List.count_eq_zero_of_not_mem, List.count_eq_zero_of_not_mem]
        · intro hin
          obtain ⟨x, _, rfl⟩ := List.mem_map.1 hin
          exact hi rfl
        · intro hin
          obtain ⟨h1, h2⟩ := List.mem_filter.1 hin
          exact hi (honly t (hrow t h1) (of_decide_eq_true h2)).1
    rw [hperm.length_eq, List.length_map]
  obtain ⟨calls, h1, h2, h3⟩ := C75_guard hM hm h ha g
  rw [hc] at h2 h3
  exact ⟨calls, h1, h2, h3⟩

/-- C75: if `g` is the guard of one internal row only, it is asked at most once per dependency, and
exactly that often if no row fires and the row is for this event and this location. -/
theorem C75_asked_internal (hM : M.Regular) {d : Dep} {ops : List (Op P)} {s s' : SM P W}
    (hm : Moment M sem d ops s) {i : Nat} {ev : EventTy} {pl pl' : P} {o : RegionOut}
    (h : Handles M sem i ev pl s o pl' s') {p : Name} {st : StTy} (ha : At M s i p st) {g : Cb}
    {t : XRow} (hi : t.internal = true) (ht : t ∈ M.intRows) (hg : t.guard = some g)
    (honly : ∀ u ∈ M.extRows ++ M.intRows, u.guard = some g → u = t) :
    ∃ calls, s'.trace = s.trace ++ calls ∧
      calls.countP (Call.asks g) ≤ (depsOf d ops).length ∧
      (o = .rejected → calls.countP (Call.asks g) =
        if t.event = ev ∧ Machine.sourceLoc t.parent t.source = (p, st) then (depsOf d ops).length
        else 0) := by
  have hc : ((M.cands ev p st).filterMap Cand.row?).countP (fun u => u.guard = some g) =
      if t.event = ev ∧ Machine.sourceLoc t.parent t.source = (p, st) then 1 else 0 := by
    rw [show (if t.event = ev ∧ Machine.sourceLoc t.parent t.source = (p, st) then 1 else 0) =
      if t ∈ M.intRows ∧ t.event = ev ∧ Machine.sourceLoc t.parent t.source = (p, st) then 1 else 0 by
        simp [ht], ← Machine.C75_internal hi ev p st, List.count]
    refine List.countP_congr fun u hu => ?_
    obtain ⟨c, hc, hr⟩ := List.mem_filterMap.1 hu
    simp only [decide_eq_true_eq, beq_iff_eq]
    refine ⟨fun hgu => honly u ?_ hgu, fun h => h ▸ hg⟩
    rcases Machine.cand_row hc with rfl | ⟨t', ht', _, h | h⟩
    · cases hr
    · subst h; cases hr; rw [Machine.extRows_eq, Machine.intRows_eq]; exact ht'
    · subst h; cases hr; rw [Machine.extRows_eq, Machine.intRows_eq]; exact ht'
  obtain ⟨calls, h1, h2, h3⟩ := C75_guard hM hm h ha g
  rw [hc] at h2 h3
  refine ⟨calls, h1, ?_, ?_⟩
  · split at h2 <;> omega
  · intro ho
    rw [h3 ho]
    split <;> simp

/-- C75, if a callback throws. -/
theorem C75_asked_throw (hM : M.Regular) {d : Dep} {ops : List (Op P)} {s s' : SM P W}
    (hm : Moment M sem d ops s) {i : Nat} {ev : EventTy} {pl : P} {x : Exn}
    (h : HandlesThrow M sem i ev pl s x s') {p : Name} {st : StTy} (ha : At M s i p st) {g : Cb}
    {Q : Name} {r : Row} (hg : r.guard = some g)
    (honly : ∀ t ∈ M.extRows ++ M.intRows, t.guard = some g → t = Machine.rowIn Q r) :
    ∃ calls, s'.trace = s.trace ++ calls ∧
      calls.countP (Call.asks g) ≤ (depsOf d ops).length * M.tries Q r ev p st := by
  rw [← countP_only hg honly]
  exact C75_guard_throw hM hm h ha g

end

/-! ## The size of the tables -/

/-- `n` composites in one another; each has two rows, which lead into the next. -/
def Ex.tower (n : Nat) : Machine where
  decl := fun x =>
    if x % 2 = 0 ∧ x < 2 * n then
      { table := some [Ex.row (Ex.ini (x + 1)) (Ex.ev 0) none none (.st (x + 2)),
          Ex.row (.st (x + 1)) (Ex.ev 1) none none (.st (x + 2))] }
    else if x = 2 * n then
      { table := some [Ex.row (Ex.ini (x + 1)) (Ex.ev 2) (some 100) none (.st (x + 1))] }
    else { }
  root := 0
  rank := fun x => n - x / 2

/-- C75: the tables may be exponentially larger than the machine.  With `n` composites in one another
and two rows in each of them leading to the next, the one row of the innermost is read, compiled into
the tables and tried `2 ^ n` times. -/
theorem C75_exponential (n : Nat) : (Ex.tower n).waysIn (2 * n) = 2 ^ n ∧
    (Ex.tower n).flat.count (Machine.rowIn (2 * n)
      (Ex.row (Ex.ini (2 * n + 1)) (Ex.ev 2) (some 100) none (.st (2 * n + 1)))) = 2 ^ n ∧
    ∀ x, ((Ex.tower n).rows x).length ≤ 2 := by
  have hlow : ∀ k, k < n → (Ex.tower n).rows (2 * k) =
      [ Ex.row (Ex.ini (2 * k + 1)) (Ex.ev 0) none none (.st (2 * k + 2)),
        Ex.row (.st (2 * k + 1)) (Ex.ev 1) none none (.st (2 * k + 2)) ] := by
    intro k hk
    have : 2 * k % 2 = 0 ∧ 2 * k < 2 * n := by omega
    simp [Machine.rows, Ex.tower, this]
  have htop : (Ex.tower n).rows (2 * n) =
      [ Ex.row (Ex.ini (2 * n + 1)) (Ex.ev 2) (some 100) none (.st (2 * n + 1)) ] := by
    simp [Machine.rows, Ex.tower]
  have hc : ∀ k, k ≤ n → (Ex.tower n).isComposite (2 * k) = true := by
    intro k hk
    by_cases h : k < n
    · have : 2 * k % 2 = 0 ∧ 2 * k < 2 * n := by omega
      simp [Machine.isComposite, Ex.tower, this]
    · have : k = n := by omega
      subst this
      simp [Machine.isComposite, Ex.tower]
  have hl : (Ex.tower n).isComposite (2 * n + 1) = false := by
    have h1 : ¬ ((2 * n + 1) % 2 = 0 ∧ 2 * n + 1 < 2 * n) := by omega
    have h2 : ¬ (2 * n + 1 = 2 * n) := by omega
    simp [Machine.isComposite, Ex.tower, h1, h2]
  have key : ∀ m k, k ≤ n → n - k < m → (Ex.tower n).ways (2 * n) m (2 * k) = 2 ^ (n - k) := by
    intro m
    induction m with
    | zero => intro k _ h; omega
    | succ m ih =>
      intro k hk hm
      rw [Machine.ways]
      by_cases h : k < n
      · have h1 : ¬ 2 * k = 2 * n := by omega
        have h2 := ih (k + 1) (by omega) (by omega)
        have h3 : (Ex.tower n).leadsInto (.st (2 * k + 2)) = some (2 * k + 2) := by
          simp [Machine.leadsInto, hc (k + 1) (by omega), show 2 * k + 2 = 2 * (k + 1) by omega]
        have h4 : n - k = (n - (k + 1)) + 1 := by omega
        rw [hlow k h, if_neg h1]
        simp only [List.map_cons, List.map_nil, List.sum_cons, List.sum_nil, Ex.row, h3, Option.elim]
        rw [show 2 * k + 2 = 2 * (k + 1) by omega, h2, h4, Nat.pow_succ]
        omega
      · have : k = n := by omega
        subst this
        have h3 : (Ex.tower k).leadsInto (.st (2 * k + 1)) = none := by
          simp [Machine.leadsInto, hl]
        rw [htop, if_pos rfl]
        simp [Ex.row, h3]
  have hw : (Ex.tower n).waysIn (2 * n) = 2 ^ n := by
    have := key (n + 1) 0 (by omega) (by omega)
    simpa [Machine.waysIn, Ex.tower] using this
  refine ⟨hw, ?_, ?_⟩
  · rw [Machine.C75_rows, hw, htop]
    simp
  · intro x
    simp only [Machine.rows, Ex.tower]
    split
    · simp
    · split <;> simp

/-! ## Examples -/

/-- The demo machine has one row with guard 101 and three ways to its composite; its tables are filled
twice.  Event 2, refused, asks the guard six times, as `C75_asked` says. -/
example : Ex.demo.waysIn Ex.Comp = 3 ∧
    (∀ t ∈ Ex.demo.extRows ++ Ex.demo.intRows, t.guard = some 101 →
      t = Machine.rowIn Ex.Comp (Ex.row (Ex.ini Ex.CA) (Ex.ev 2) (some 101) (some 6) (.st Ex.CB))) ∧
    Ex.demo.tries Ex.Comp (Ex.row (Ex.ini Ex.CA) (Ex.ev 2) (some 101) (some 6) (.st Ex.CB)) (Ex.ev 2)
      Ex.Comp (.st Ex.CA) = 3 ∧
    (Ex.run Ex.demo (Ex.sem fun _ => false) 5 7 [] [.process (Ex.ev 0) 1, .setDependency 8]).any
      (fun s => match regionStep Ex.demo (Ex.sem fun _ => false) 0 (Ex.ev 2) 4 s with
        | .ok (.rejected, _) s' => (s'.trace.drop s.trace.length).countP (Call.asks 101) == 6
        | _ => false) = true := by decide +kernel

/-- A composite with two entrances, the state of which has an internal row. -/
def Ex.nook : Machine := .ofList
  [ { table := some
        [ Ex.row (Ex.ini 1) (Ex.ev 0) none none (.st 2),
          Ex.row (.st 1) (Ex.ev 3) none none (.st 2) ] },
    {},
    { table := some [ Ex.row (Ex.ini 3) (Ex.ev 1) none none (.st 3) ] },
    { itable := some [⟨Ex.ev 6, some 103, some 11⟩] } ] [1]

/-- Its internal row is the only row with guard 103; its tables are filled twice.  Event 6, refused, asks
the guard twice, as `C75_asked_internal` says, although there are two ways to the composite. -/
example : Ex.nook.waysIn 2 = 2 ∧ (∀ t ∈ Ex.nook.extRows ++ Ex.nook.intRows, t.guard = some 103 →
      t.internal = true ∧ t.event = Ex.ev 6 ∧ Machine.sourceLoc t.parent t.source = (2, .st 3)) ∧
    (Ex.nook.extRows ++ Ex.nook.intRows).countP (fun t => t.guard = some 103) = 1 ∧
    (Ex.run Ex.nook (Ex.sem fun _ => false) 5 7 [] [.process (Ex.ev 0) 1, .setDependency 8]).any
      (fun s => match regionStep Ex.nook (Ex.sem fun _ => false) 0 (Ex.ev 6) 4 s with
        | .ok (.rejected, _) s' => (s'.trace.drop s.trace.length).countP (Call.asks 103) == 2
        | _ => false) = true := by decide +kernel

/-- A machine with an internal row of its own; its first state is written with the initial marker in one
row and without it in another. -/
def Ex.echoing : Machine := .ofList
  [ { table := some
        [ Ex.row (Ex.ini 1) (Ex.ev 0) none none (.st 2),
          Ex.row (.st 2) (Ex.ev 0) none none (.st 1) ]
      itable := some [⟨Ex.ev 6, some 103, some 11⟩] },
    {}, {} ] [1]

/-- The internal row is tried twice in the first state, as `C75_asked_written` says, although it is declared
once, and once in the other state. -/
example : Ex.echoing.Regular ∧
    (∀ t ∈ Ex.echoing.extRows ++ Ex.echoing.intRows, t.guard = some 103 →
      t.internal = true ∧ t.event = Ex.ev 6 ∧ t.action = some 11) ∧
    (∀ x ∈ [(0, Ex.ini 1), (0, StTy.st 1)], Machine.irowAt ⟨Ex.ev 6, some 103, some 11⟩ x ∈ Ex.echoing.intRows ∧
      Machine.sourceLoc x.1 x.2 = (0, .st 1)) ∧
    Ex.echoing.intRows.length = 3 ∧
    (Ex.run Ex.echoing (Ex.sem fun _ => false) 5 7 [] []).any
      (fun s => match regionStep Ex.echoing (Ex.sem fun _ => false) 0 (Ex.ev 6) 4 s with
        | .ok (.rejected, _) s' => (s'.trace.drop s.trace.length).countP (Call.asks 103) == 2
        | _ => false) = true ∧
    (Ex.run Ex.echoing (Ex.sem fun _ => false) 5 7 [] [.process (Ex.ev 0) 1]).any
      (fun s => match regionStep Ex.echoing (Ex.sem fun _ => false) 0 (Ex.ev 6) 4 s with
        | .ok (.rejected, _) s' => (s'.trace.drop s.trace.length).countP (Call.asks 103) == 1
        | _ => false) = true :=
  ⟨Machine.regular_ofList (by decide +kernel), by decide +kernel⟩

/-- Three composites in one another, 7 rows: a machine the compiler accepts, whose innermost row is
tried 8 times. -/
example : (Ex.tower 3).Regular ∧ (Ex.tower 3).Scoped ∧ (Ex.tower 3).waysIn 6 = 8 ∧
    (Ex.tower 3).extRows.length = 22 := by
  have hreg : (Ex.tower 3).regularB 8 = true := by decide +kernel
  unfold Machine.regularB at hreg
  simp only [Bool.and_eq_true, decide_eq_true_eq] at hreg
  obtain ⟨⟨⟨h1, _⟩, h3⟩, h4⟩ := hreg
  refine ⟨⟨Machine.accepts_iff.1 h1, ?_,
    fun t ht => of_decide_eq_true (List.all_eq_true.1 h3 t ht), h4⟩,
    Machine.scoped_of_check (by decide +kernel), (C75_exponential 3).1, by decide +kernel⟩
  intro p r q hr he
  have hq : r.target = .st q := by
    have hst : ∃ x, r.target = .st x := by
      simp only [Machine.rows, Ex.tower] at hr
      split at hr
      · rcases List.mem_cons.1 hr with rfl | hr
        · exact ⟨_, rfl⟩
        · rw [List.mem_singleton.1 hr]; exact ⟨_, rfl⟩
      · split at hr
        · rw [List.mem_singleton.1 hr]; exact ⟨_, rfl⟩
        · cases hr
    obtain ⟨x, hx⟩ := hst
    rcases he.2 with h | ⟨_, ⟨_, h⟩ | ⟨_, h⟩ | h⟩
    · exact h
    · rw [hx] at h; cases h
    · rw [hx] at h; cases h
    · rw [hx] at h; cases h
  have hc := he.1
  simp only [Machine.rows, Ex.tower] at hr
  simp only [Machine.isComposite, Ex.tower] at hc
  show 3 - q / 2 < 3 - p / 2
  split at hr
  · rename_i hp
    have : (q : Nat) = p + 2 := by
      rcases List.mem_cons.1 hr with rfl | hr
      · cases hq; rfl
      · rw [List.mem_singleton.1 hr] at hq; cases hq; rfl
    subst this
    have arith : ∀ p : Nat, p < 2 * 3 → 3 - (p + 2) / 2 < 3 - p / 2 := by intro p; omega
    exact arith p hp.2
  · split at hr
    · rw [List.mem_singleton.1 hr] at hq
      cases hq
      rename_i hp
      subst hp
      simp at hc
    · cases hr

end Hsm
