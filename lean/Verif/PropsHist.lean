import Verif.PropsApi
import Verif.LiftLemmas

/-!
# Where the machine is: moves, history and regions (C25, C26, C34, C42)

The moves of a machine are recorded in the ghost list `log`: one element per fired
external row, with the locations of all regions before and after.
-/

namespace Hsm
section
variable {P W : Type} {M : Machine} {sem : Sem P W} {deps : List Dep}

/-! ## Specification vocabulary -/

/-- `c` is the number of a location in composite `p`. -/
def InComp (M : Machine) (p : Name) (c : Nat) : Prop := ∃ st ∈ M.states, c = M.comb p st

/-- Firing `f` left location `c` of region `r` in composite `p`. -/
def Left (M : Machine) (p : Name) (r : Nat) (f : Firing) (c : Nat) : Prop :=
  f.region = r ∧ f.before[r]? = some (some c) ∧ InComp M p c

/-- `c` is the location of region `r` in composite `p` left last according to the moves
`log`, or the `r`-th initial state of `p` if none was left. -/
def LastLeft (M : Machine) (log : List Firing) (p : Name) (r c : Nat) : Prop :=
  (∃ l1 f l2, log = l1 ++ f :: l2 ∧ Left M p r f c ∧ ∀ g ∈ l2, ∀ c', ¬ Left M p r g c') ∨
  ((∀ g ∈ log, ∀ c', ¬ Left M p r g c') ∧
    ∃ i, (M.declaredInitials p)[r]? = some i ∧ c = M.comb p (.st i))

/-- At firing `f` region `f.region` and region 0 are in the same composite. -/
def Aligned (M : Machine) (f : Firing) : Prop :=
  ∃ p c0 c, f.before[0]? = some (some c0) ∧ f.before[f.region]? = some (some c) ∧
    InComp M p c0 ∧ InComp M p c

/-- Firing `f`, the last of the moves `log`, is that of a declared external row: the row is
a candidate for some event where region `f.region` was, only this region moved, and it moved
to the destination of the row, for history rows to the location described by `mem`. -/
def Explained (M : Machine) (mem : Name → Nat → Nat → Prop) (f : Firing) : Prop :=
  ∃ p st ev cd t c, p ∈ M.composites ∧ st ∈ M.states ∧
    f.before[f.region]? = some (some (M.comb p st)) ∧
    cd ∈ M.cands ev p st ∧ cd.row? = some t ∧ t.internal = false ∧
    f.after = f.before.set f.region (some c) ∧
    (∀ o q, t.target = .ps o (.history q) → mem q f.region c) ∧
    ((∀ o q, t.target ≠ .ps o (.history q)) →
      ∃ l, M.targetLoc t = some l ∧ c = M.comb l.1 l.2)

/-! ## Invariants of places -/

/-- Invariants of places hold along event processing. -/
theorem Lift.places {I : SM P W → Prop}
    (move : ∀ r t ev p st c s s', I s → At M s r p st → c ∈ M.cands ev p st → c.row? = some t →
      t.internal = false → Moves M r t s s' → I s')
    (same : ∀ s s', s'.cur = s.cur → s'.hist = s.hist → s'.log = s.log → s'.regions = s.regions →
      s'.initial = s.initial → I s → I s') :
    Lift M sem deps (fun s s' : SM P W => I s → I s') where
  refl := fun _ h => h
  trans := fun _ _ _ h1 h2 h => h2 (h1 h)
  region := by
    intro r ev pl s o pl' s' h ho hs
    cases h with
    | none => exact hs
    | rejected => exact same s _ rfl rfl rfl rfl rfl hs
    | deferred => exact absurd rfl ho
    | @fired p st c t d l x pre p1 p2 p3 tr1 tr2 tr3 w1 w2 w3 s1 ha hsel _ _ he _ =>
      refine same s1 _ rfl rfl rfl rfl rfl ?_
      have h0 : I (s.ran w2 (tr1 ++ tr2)) := same s _ rfl rfl rfl rfl rfl hs
      unfold Effect at he
      split at he
      · rw [he]; exact h0
      · rename_i hi
        exact move r t ev p st c _ _ h0 ha hsel.mem hsel.row (by simpa using hi) he
  throw := by
    intro r ev pl s k s' h hs
    cases h with
    | guard => exact same s _ rfl rfl rfl rfl rfl hs
    | @action p st c t d l x pre p1 p2 tr1 tr2 tr3 w1 w2 w3 s1 _ ha hsel _ _ he _ =>
      refine same s1 _ rfl rfl rfl rfl rfl ?_
      have h0 : I (s.ran w2 (tr1 ++ tr2)) := same s _ rfl rfl rfl rfl rfl hs
      unfold Effect at he
      split at he
      · rw [he]; exact h0
      · rename_i hi
        exact move r t ev p st c _ _ h0 ha hsel.mem hsel.row (by simpa using hi) he

/-- Invariants of places hold in all histories; if there is no call of `set` in the history
it need not preserve them. -/
theorem RunTo.places (hM : M.Regular) {d : Dep} {I : SM P W → Prop}
    (base : ∀ w s, construct M d w = .ok s → I s)
    (move : ∀ r t ev p st c s s', I s → At M s r p st → c ∈ M.cands ev p st → c.row? = some t →
      t.internal = false → Moves M r t s s' → I s')
    (same : ∀ s s', s'.cur = s.cur → s'.hist = s.hist → s'.log = s.log → s'.regions = s.regions →
      s'.initial = s.initial → I s → I s')
    {ops : List (Op P)}
    (set : (∃ r p st, Op.set r p st ∈ ops) → ∀ s r p st, I s → p ∈ M.composites → st ∈ M.states →
      r < M.maxInit → I { s with cur := s.cur.set r (some (M.comb p st)) })
    {s : SM P W} (h : RunTo M sem d ops s) : I s := by
  have L : ∀ deps, Lift M sem deps (fun s s' : SM P W => I s → I s') := fun _ =>
    Lift.places move same
  suffices ((∃ r p st, Op.set r p st ∈ ops) → ∀ s r p st, I s → p ∈ M.composites →
      st ∈ M.states → r < M.maxInit → I { s with cur := s.cur.set r (some (M.comb p st)) }) →
      I s from this set
  refine RunTo.rel hM (I := fun ops s => ((∃ r p st, Op.set r p st ∈ ops) → ∀ s r p st, I s →
      p ∈ M.composites → st ∈ M.states → r < M.maxInit →
      I { s with cur := s.cur.set r (some (M.comb p st)) }) → I s) ?_ ?_ ?_ ?_ ?_ ?_ ?_ h
  · intro w s h _; exact base w s h
  · intro ops s ev pl b s' _ hs _ h hset
    exact (L _).event (fun s _ _ => same s _ rfl rfl rfl rfl rfl)
      (fun s _ _ _ _ => same s _ rfl rfl rfl rfl rfl)
      (fun s _ _ _ _ _ _ _ => same s _ rfl rfl rfl rfl rfl) h
      (hs fun ⟨r, p, st, h⟩ => hset ⟨r, p, st, by simp [h]⟩)
  · intro ops s ev pl k s' _ hs _ h hset
    exact (L _).eventThrow (fun s _ _ => same s _ rfl rfl rfl rfl rfl)
      (fun s _ _ _ _ => same s _ rfl rfl rfl rfl rfl)
      (fun s _ _ _ _ _ _ _ => same s _ rfl rfl rfl rfl rfl) h
      (hs fun ⟨r, p, st, h⟩ => hset ⟨r, p, st, by simp [h]⟩)
  · intro ops s op _ hs _ _ hset
    exact hs fun ⟨r, p, st, h⟩ => hset ⟨r, p, st, by simp [h]⟩
  · intro ops s r p st _ hs hp hst hr hset
    exact hset ⟨r, p, st, by simp⟩ s (r % 256) p st
      (hs fun ⟨r, p, st, h⟩ => hset ⟨r, p, st, by simp [h]⟩) hp hst hr
  · intro ops s d' T _ hs _ hset
    exact same s _ rfl rfl rfl rfl rfl (hs fun ⟨r, p, st, h⟩ => hset ⟨r, p, st, by simp [h]⟩)
  · intro ops s w hs hset
    exact same s _ rfl rfl rfl rfl rfl (hs hset)

/-! ## The memory of composites -/

/-- What the code remembers: the location of region `r` left last while region 0 was in
composite `p`. -/
def MemoLeft (M : Machine) (p : Name) (r : Nat) (f : Firing) (c : Nat) : Prop :=
  f.region = r ∧ f.before[r]? = some (some c) ∧ ∃ c0, f.before[0]? = some (some c0) ∧ InComp M p c0

/-- `c` is what `MemoLeft` says of the moves `log` for region `r` and composite `p`, or the `r`-th initial state
of `p` if it says nothing. -/
def Memo (M : Machine) (log : List Firing) (p : Name) (r c : Nat) : Prop :=
  (∃ l1 f l2, log = l1 ++ f :: l2 ∧ MemoLeft M p r f c ∧ ∀ g ∈ l2, ∀ c', ¬ MemoLeft M p r g c') ∨
  ((∀ g ∈ log, ∀ c', ¬ MemoLeft M p r g c') ∧
    ∃ i, (M.declaredInitials p)[r]? = some i ∧ c = M.comb p (.st i))

theorem Memo.snoc_same {log : List Firing} {f : Firing} {p : Name} {r c : Nat}
    (h : MemoLeft M p r f c) : ∀ c', Memo M (log ++ [f]) p r c' ↔ c' = c := by
  intro c'
  constructor
  · rintro (⟨l1, g, l2, he, hg, hn⟩ | ⟨hn, _⟩)
    · rcases List.eq_nil_or_concat l2 with rfl | ⟨l, x, rfl⟩
      · have : f = g := by
          have := congrArg List.getLast? he
          simpa using this
        subst this
        have := hg.2.1
        rw [h.2.1] at this
        simpa using this.symm
      · rw [List.concat_eq_append] at he hn
        rw [show l1 ++ g :: (l ++ [x]) = (l1 ++ g :: l) ++ [x] by simp] at he
        obtain ⟨_, he⟩ := List.append_inj' he rfl
        cases he
        exact absurd h (hn f (by simp) c)
    · exact absurd h (hn f (by simp) c)
  · rintro rfl
    exact Or.inl ⟨log, f, [], rfl, h, by simp⟩

theorem Memo.snoc_other {log : List Firing} {f : Firing} {p : Name} {r : Nat}
    (h : ∀ c, ¬ MemoLeft M p r f c) : ∀ c, Memo M (log ++ [f]) p r c ↔ Memo M log p r c := by
  intro c
  constructor
  · rintro (⟨l1, g, l2, he, hg, hn⟩ | ⟨hn, hi⟩)
    · rcases List.eq_nil_or_concat l2 with rfl | ⟨l, x, rfl⟩
      · have : f = g := by
          have := congrArg List.getLast? he
          simpa using this
        subst this
        exact absurd hg (h c)
      · rw [List.concat_eq_append] at he hn
        rw [show l1 ++ g :: (l ++ [x]) = (l1 ++ g :: l) ++ [x] by simp] at he
        obtain ⟨rfl, he⟩ := List.append_inj' he rfl
        exact Or.inl ⟨l1, g, l, rfl, hg, fun g' hg' => hn g' (by simp [hg'])⟩
    · exact Or.inr ⟨fun g hg => hn g (by simp [hg]), hi⟩
  · rintro (⟨l1, g, l2, rfl, hg, hn⟩ | ⟨hn, hi⟩)
    · refine Or.inl ⟨l1, g, l2 ++ [f], by simp, hg, ?_⟩
      intro g' hg'
      rcases List.mem_append.1 hg' with hg' | hg'
      · exact hn g' hg'
      · rw [List.mem_singleton.1 hg']; exact h
    · refine Or.inr ⟨?_, hi⟩
      intro g' hg'
      rcases List.mem_append.1 hg' with hg' | hg'
      · exact hn g' hg'
      · rw [List.mem_singleton.1 hg']; exact h

/-- The memory is what the moves say, and every move is explained. -/
structure LogOk (M : Machine) (s : SM P W) : Prop where
  memory : M.historic = true → ∀ p ∈ M.composites, ∀ r c,
    Remembers M s p r c ↔ Memo M s.log p r c
  moves : ∀ l1 f l2, s.log = l1 ++ f :: l2 → Explained M (Memo M (l1 ++ [f])) f
  len : s.cur.length = M.maxInit
  lens : ∀ f ∈ s.log, f.before.length = M.maxInit

theorem Machine.historic_of {t : XRow} (ht : t ∈ M.flat) {o : Bool} {q : Name}
    (h : t.target = .ps o (.history q)) : M.historic = true :=
  Machine.historic_iff.2 ⟨t, ht, o, q, h⟩

/-- A move keeps the memory in step with the log. -/
theorem Moves.remembersL (hM : M.Laid) {r : Nat} {t : XRow} {s s' : SM P W}
    (hs : M.historic = true → ∀ p ∈ M.composites, ∀ r c, Remembers M s p r c ↔ Memo M s.log p r c)
    (h : Moves M r t s s') : M.historic = true → ∀ p ∈ M.composites, ∀ r c,
      Remembers M s' p r c ↔ Memo M s'.log p r c := by
  intro hh q hq i c
  rcases h.memory with ⟨h0, _⟩ | ⟨_, p0, st0, c0, ha0, hc0, hrem, hoth⟩
  · rw [hh] at h0; cases h0
  rw [h.log]
  by_cases hqi : q = p0 ∧ i = r
  · obtain ⟨rfl, rfl⟩ := hqi
    rw [Memo.snoc_same (c := c0) ⟨rfl, hc0, _, ha0.2.2, st0, ha0.2.1, rfl⟩]
    constructor
    · intro hr
      obtain ⟨l, hl, hlc⟩ := hr
      obtain ⟨l', hl', hlc'⟩ := hrem
      rw [hl] at hl'; cases hl'
      rw [hlc] at hlc'; cases hlc'
      rfl
    · rintro rfl; exact hrem
  · have hqi' : q ≠ p0 ∨ i ≠ r := by
      by_cases hqp : q = p0
      · exact Or.inr fun hi => hqi ⟨hqp, hi⟩
      · exact Or.inl hqp
    rw [hoth q hq i hqi' c, hs hh q hq i c, Memo.snoc_other]
    rintro c' ⟨hr, _, c1, hc1, st1, hst1, rfl⟩
    simp only at hr hc1
    rw [ha0.2.2] at hc1
    simp only [Option.some.injEq] at hc1
    have := hM.comb_inj ha0.1 ha0.2.1 hc1.symm
    cases this
    exact hqi ⟨rfl, hr.symm⟩

theorem Moves.remembers (hM : M.Regular) {r : Nat} {t : XRow} {s s' : SM P W}
    (hs : M.historic = true → ∀ p ∈ M.composites, ∀ r c, Remembers M s p r c ↔ Memo M s.log p r c)
    (h : Moves M r t s s') : M.historic = true → ∀ p ∈ M.composites, ∀ r c,
      Remembers M s' p r c ↔ Memo M s'.log p r c := h.remembersL hM.laid hs

theorem Moves.logOk (hM : M.Regular) {r : Nat} {t : XRow} {s s' : SM P W} {ev : EventTy} {p : Name}
    {st : StTy} {cd : Cand} (hs : LogOk M s) (ha : At M s r p st) (hc : cd ∈ M.cands ev p st)
    (hrow : cd.row? = some t) (hi : t.internal = false) (h : Moves M r t s s') : LogOk M s' := by
  have htf : t ∈ M.flat := by
    rcases Machine.cand_row hc with rfl | ⟨t', ht', _, rfl | rfl⟩
    · cases hrow
    all_goals
      simp only [Cand.row?, Option.some.injEq] at hrow
      subst hrow
      rcases List.mem_append.1 ht' with h | h
      · exact h
      · rw [Machine.iflat_internal h] at hi; cases hi
  have hmem := h.remembers hM hs.memory
  refine ⟨hmem, ?_, ?_, ?_⟩
  rotate_left
  · obtain ⟨c, hcur, _⟩ := h.dest
    rw [hcur, List.length_set, hs.len]
  · intro f hf
    rw [h.log] at hf
    rcases List.mem_append.1 hf with hf | hf
    · exact hs.lens f hf
    · rw [List.mem_singleton.1 hf]; exact hs.len
  intro l1 f l2 he
  rw [h.log] at he
  rcases List.eq_nil_or_concat l2 with rfl | ⟨l, x, rfl⟩
  · obtain ⟨rfl, he'⟩ := List.append_inj' he rfl
    cases he'
    obtain ⟨c, hcur, hh, hn⟩ := h.dest
    refine ⟨p, st, ev, cd, t, c, ha.1, ha.2.1, ha.2.2, hc, hrow, hi, hcur, ?_, hn⟩
    intro o q hq
    have := (hmem (Machine.historic_of htf hq) q (Machine.history_target hM htf hq).1 r c).1
      (hh o q hq)
    rw [h.log] at this
    exact this
  · rw [List.concat_eq_append, show l1 ++ f :: (l ++ [x]) = (l1 ++ f :: l) ++ [x] by simp] at he
    obtain ⟨he, _⟩ := List.append_inj' he rfl
    exact hs.moves l1 f l he

theorem logOk_construct (hM : M.Regular) {d : Dep} {w : W} {s : SM P W}
    (h : construct M d w = .ok s) : LogOk M s := by
  obtain ⟨_, _, _, _, _, hh, _, _, _, hl⟩ := construct_ok h
  refine ⟨?_, ?_, ?_, by rw [hl]; simp⟩
  rotate_right
  · exact (basic_construct hM h).curLen
  · intro _ p hp r c
    rw [hl]
    constructor
    · rintro ⟨l, h1, h2⟩
      rw [hh, Machine.initialTable_get hM hp] at h1
      cases h1
      rw [List.getElem?_map] at h2
      obtain ⟨i, hi, rfl⟩ := Option.map_eq_some_iff.1 h2
      exact Or.inr ⟨by simp, i, by rw [Machine.declaredInitials_eq]; exact hi, rfl⟩
    · rintro (⟨l1, f, l2, he, _⟩ | ⟨_, i, hi, rfl⟩)
      · simp at he
      · rw [Machine.declaredInitials_eq] at hi
        exact ⟨_, by rw [hh]; exact Machine.initialTable_get hM hp, by
          rw [List.getElem?_map, hi]; rfl⟩
  · intro l1 f l2 he
    rw [hl] at he
    simp at he

theorem RunTo.logOk (hM : M.Regular) {d : Dep} {ops : List (Op P)} {s : SM P W}
    (h : RunTo M sem d ops s) : LogOk M s := by
  refine RunTo.places hM (I := LogOk M) ?_ (fun r t ev p st c s s' hs ha hc hr hi hm =>
    hm.logOk hM hs ha hc hr hi) ?_ ?_ h
  · intro w s h; exact logOk_construct hM h
  · intro s s' h1 h2 h3 _ _ hs
    refine ⟨?_, by rw [h3]; exact hs.moves, by rw [h1]; exact hs.len, by rw [h3]; exact hs.lens⟩
    intro hh p hp r c
    unfold Remembers
    rw [h2, h3]
    exact hs.memory hh p hp r c
  · intro _ s r p st hs _ _ _
    exact ⟨hs.memory, hs.moves, by simp [hs.len], hs.lens⟩

/-! ## C25 and C26 -/

theorem memo_eq_lastLeft (hM : M.Regular) {log : List Firing} {p : Name} (hp : p ∈ M.composites)
    {r : Nat} (ha : ∀ f ∈ log, f.region = r → Aligned M f) (c : Nat) :
    Memo M log p r c ↔ LastLeft M log p r c := by
  have key : ∀ f ∈ log, ∀ c, MemoLeft M p r f c ↔ Left M p r f c := by
    intro f hf c
    constructor
    · rintro ⟨hr, hc, c0, hc0, st, hst, rfl⟩
      obtain ⟨q, d0, d, hd0, hd, ⟨st0, hst0, rfl⟩, hdq⟩ := ha f hf hr
      rw [hc0] at hd0
      simp only [Option.some.injEq] at hd0
      cases hM.comb_inj hp hst hd0.symm
      rw [hr, hc] at hd
      cases hd
      exact ⟨hr, hc, hdq⟩
    · rintro ⟨hr, hc, st, hst, rfl⟩
      obtain ⟨q, d0, d, hd0, hd, hq0, st1, hst1, rfl⟩ := ha f hf hr
      rw [hr, hc] at hd
      simp only [Option.some.injEq] at hd
      cases hM.comb_inj hp hst hd.symm
      exact ⟨hr, hc, d0, hd0, hq0⟩
  unfold Memo LastLeft
  constructor
  · rintro (⟨l1, f, l2, rfl, hf, hn⟩ | ⟨hn, hi⟩)
    · exact Or.inl ⟨l1, f, l2, rfl, (key f (by simp) c).1 hf,
        fun g hg c' h => hn g hg c' ((key g (by simp [hg]) c').2 h)⟩
    · exact Or.inr ⟨fun g hg c' h => hn g hg c' ((key g hg c').2 h), hi⟩
  · rintro (⟨l1, f, l2, rfl, hf, hn⟩ | ⟨hn, hi⟩)
    · exact Or.inl ⟨l1, f, l2, rfl, (key f (by simp) c).2 hf,
        fun g hg c' h => hn g hg c' ((key g (by simp [hg]) c').1 h)⟩
    · exact Or.inr ⟨fun g hg c' h => hn g hg c' ((key g hg c').1 h), hi⟩

theorem Explained.row_mem {mem : Name → Nat → Nat → Prop} {f : Firing}
    {p : Name} {st : StTy} {ev : EventTy} {cd : Cand} {t : XRow} (hc : cd ∈ M.cands ev p st)
    (hrow : cd.row? = some t) (hi : t.internal = false) : t ∈ M.flat := by
  rcases Machine.cand_row hc with rfl | ⟨t', ht', _, rfl | rfl⟩
  · cases hrow
  all_goals
    simp only [Cand.row?, Option.some.injEq] at hrow
    subst hrow
    rcases List.mem_append.1 ht' with h | h
    · exact h
    · rw [Machine.iflat_internal h] at hi; cases hi

/-- C26, where region 0 and the region concerned were in the same composite whenever the
latter moved (what is missing: the other cases, where the claim is false, see
`C26_refuted`): every move in every history is that of a declared row, and rows to
`history<P>` lead to the location of the region in `P` left last. -/
theorem C26_partial (hM : M.Regular) {d : Dep} {ops : List (Op P)} {s : SM P W}
    (h : RunTo M sem d ops s) {l1 l2 : List Firing} {f : Firing} (hl : s.log = l1 ++ f :: l2)
    (ha : ∀ g ∈ l1 ++ [f], g.region = f.region → Aligned M g) :
    Explained M (LastLeft M (l1 ++ [f])) f := by
  obtain ⟨p, st, ev, cd, t, c, hp, hst, hb, hc, hrow, hi, haf, hh, hn⟩ := (h.logOk hM).moves l1 f l2 hl
  refine ⟨p, st, ev, cd, t, c, hp, hst, hb, hc, hrow, hi, haf, ?_, hn⟩
  intro o q hq
  exact (memo_eq_lastLeft hM (Machine.history_target hM
    (Explained.row_mem (mem := Memo M (l1 ++ [f])) (f := f) hc hrow hi) hq).1 ha c).1 (hh o q hq)

/-- C26, what the code does without any condition on where region 0 is: every move in every history is that of a
declared row, and rows to `history<P>` fired in region `r` lead to where region `r` was when it last moved while
region 0 was in `P` (that need not be in `P`), or to the `r`-th initial state of `P`. -/
theorem C26_exact (hM : M.Regular) {d : Dep} {ops : List (Op P)} {s : SM P W}
    (h : RunTo M sem d ops s) {l1 l2 : List Firing} {f : Firing} (hl : s.log = l1 ++ f :: l2) :
    Explained M (Memo M (l1 ++ [f])) f := (h.logOk hM).moves l1 f l2 hl

/-- C25: in a machine with one region, in every history, every move is that of a declared
row, and rows to `history<P>` lead to the location in `P` left last by an external row (the
history row itself included, if it leaves a location in `P`), or to the first initial state
of `P`. -/
theorem C25_history (hM : M.Regular) (hp : M.orthogonal = false) {d : Dep} {ops : List (Op P)}
    {s : SM P W} (h : RunTo M sem d ops s) {l1 l2 : List Firing} {f : Firing}
    (hl : s.log = l1 ++ f :: l2) : f.region = 0 ∧ Explained M (LastLeft M (l1 ++ [f])) f := by
  have hlog := h.logOk hM
  have hone : M.maxInit ≤ 1 := by
    rw [← Machine.parallel_eq] at hp
    unfold Machine.parallel at hp
    simpa using hp
  have hzero : ∀ l1 l2 g, s.log = l1 ++ g :: l2 → g.region = 0 ∧ Aligned M g := by
    intro l1 l2 g hg
    obtain ⟨p, st, _, _, _, _, hp, hst, hb, _⟩ := hlog.moves l1 g l2 hg
    have hlt := (List.getElem?_eq_some_iff.1 hb).1
    rw [hlog.lens g (by rw [hg]; simp)] at hlt
    have h0 : g.region = 0 := by omega
    refine ⟨h0, p, _, _, by rw [← h0]; exact hb, hb, ⟨st, hst, rfl⟩, ⟨st, hst, rfl⟩⟩
  refine ⟨(hzero l1 l2 f hl).1, C26_partial hM h hl ?_⟩
  intro g hg _
  have : g ∈ s.log := by
    rw [hl]
    rcases List.mem_append.1 hg with hg | hg
    · simp [hg]
    · rw [List.mem_singleton.1 hg]; simp
  obtain ⟨m1, m2, hm⟩ := List.append_of_mem this
  exact (hzero m1 m2 g hm).2

theorem LastLeft.unique {log : List Firing} {p : Name} {r c c' : Nat}
    (h : LastLeft M log p r c) (h' : LastLeft M log p r c') : c = c' := by
  have key : ∀ {l1 f l2 c l1' f' l2' c'}, (l1 ++ f :: l2 : List Firing) = l1' ++ f' :: l2' →
      Left M p r f c → Left M p r f' c' → (∀ g ∈ l2, ∀ c', ¬ Left M p r g c') →
      (∀ g ∈ l2', ∀ c', ¬ Left M p r g c') → c = c' := by
    intro l1 f l2 c l1' f' l2' c' he hf hf' hn hn'
    have : l1 = l1' := by
      induction l1 generalizing l1' with
      | nil =>
        cases l1' with
        | nil => rfl
        | cons x xs =>
          simp only [List.nil_append, List.cons_append, List.cons.injEq] at he
          exact absurd hf' (hn f' (by rw [he.2]; simp) c')
      | cons y ys ih =>
        cases l1' with
        | nil =>
          simp only [List.nil_append, List.cons_append, List.cons.injEq] at he
          exact absurd hf (hn' f (by rw [← he.2]; simp) c)
        | cons x xs =>
          simp only [List.cons_append, List.cons.injEq] at he
          rw [he.1, ih he.2]
    subst this
    have he := List.append_cancel_left he
    cases he
    have := hf.2.1
    rw [hf'.2.1] at this
    simpa using this.symm
  rcases h with ⟨l1, f, l2, he, hf, hn⟩ | ⟨hn, i, hi, rfl⟩ <;>
    rcases h' with ⟨l1', f', l2', he', hf', hn'⟩ | ⟨hn', i', hi', rfl⟩
  · exact key (he.symm.trans he') hf hf' hn hn'
  · exact absurd hf (hn' f (by rw [he]; simp) c)
  · exact absurd hf' (hn f' (by rw [he']; simp) c')
  · rw [hi] at hi'; cases hi'; rfl

/-! ## C34 -/

/-- The number of active regions is that of the composite region 0 is in, one if no
composite has more than one. -/
def RegionsMatch (M : Machine) (s : SM P W) : Prop :=
  ((∀ p ∈ M.composites, (M.declaredInitials p).length ≤ 1) → activeRegions M s = 1) ∧
  ((∃ p ∈ M.composites, 1 < (M.declaredInitials p).length) →
    ∃ p st, At M s 0 p st ∧ activeRegions M s = (M.declaredInitials p).length)

theorem regionsMatch_iff {s : SM P W} : RegionsMatch M s ↔
    (M.orthogonal = true → ∃ p st, At M s 0 p st ∧ s.regions = (M.declaredInitials p).length) := by
  unfold RegionsMatch
  unfold activeRegions
  constructor
  · intro ⟨_, h⟩ hp
    rw [hp] at h
    exact h (Machine.orthogonal_iff.1 hp)
  · intro h
    refine ⟨?_, ?_⟩
    · intro hn
      have : M.orthogonal = false := by
        apply Bool.eq_false_iff.2
        intro hp
        obtain ⟨p, hp, hlt⟩ := Machine.orthogonal_iff.1 hp
        have := hn p hp
        omega
      rw [this]; rfl
    · intro hp
      have := Machine.orthogonal_iff.2 hp
      rw [this]
      exact h this

theorem Moves.regionsMatch {r : Nat} {t : XRow} {s s' : SM P W} (h : Moves M r t s s') :
    RegionsMatch M s' := by
  rw [regionsMatch_iff]
  intro hp
  rcases h.regions with ⟨hn, _⟩ | ⟨_, h⟩
  · rw [hp] at hn; cases hn
  · exact h

/-- Either nothing moved and the regions are as before, or they match. -/
def Kept (M : Machine) (s s' : SM P W) : Prop :=
  (s'.log = s.log ∧ s'.cur = s.cur ∧ s'.regions = s.regions) ∨
    (s.log.length < s'.log.length ∧ RegionsMatch M s')

theorem lift_kept (s : SM P W) :
    Lift M sem deps (fun s1 s2 : SM P W => Kept M s s1 → Kept M s s2) := by
  refine Lift.places (I := Kept M s) ?_ ?_
  · intro r t ev p st c s1 s2 hk _ _ _ _ hm
    refine Or.inr ⟨?_, hm.regionsMatch⟩
    rw [hm.log, List.length_append]
    rcases hk with ⟨h, _⟩ | ⟨h, _⟩
    · rw [h]; simp
    · simp; omega
  · intro s1 s2 h1 h2 h3 h4 _ hk
    rcases hk with ⟨k1, k2, k3⟩ | ⟨k1, k2⟩
    · exact Or.inl ⟨h3.trans k1, h1.trans k2, h4.trans k3⟩
    · refine Or.inr ⟨by rw [h3]; exact k1, ?_⟩
      rw [regionsMatch_iff] at k2 ⊢
      intro hp
      obtain ⟨p, st, ha, hr⟩ := k2 hp
      exact ⟨p, st, ⟨ha.1, ha.2.1, by rw [h1]; exact ha.2.2⟩, by rw [h4]; exact hr⟩

/-- C34 for one call of `process_event`, whether it returns or throws: if no row fired the
number of regions is as before, otherwise it is that of the composite region 0 is in. -/
theorem C34_event (hM : M.Regular) {d : Dep} {ops : List (Op P)} {s : SM P W}
    (h : RunTo M sem d ops s) {fuel : Nat} {ev : EventTy} (hev : ev ∈ M.events) {pl : P}
    {s' : SM P W} (hx : (∃ b, processEvent M sem fuel ev pl s = .ok b s') ∨
      ∃ x, processEvent M sem fuel ev pl s = .throw x s') :
    (s'.log = s.log ∧ activeRegions M s' = activeRegions M s) ∨
      (s.log.length < s'.log.length ∧ RegionsMatch M s') := by
  have hk : Kept M s s' := by
    have L := lift_kept (M := M) (sem := sem) (deps := depsOf d ops) s
    have hq : ∀ (s1 : SM P W) (q : List (EventTy × P)), Kept M s s1 →
        Kept M s { s1 with queue := q } := fun s1 q h => h
    have hr : ∀ (s1 : SM P W) (w : W) (tr : List (Call P)), Kept M s s1 →
        Kept M s (s1.ran w tr) := fun s1 w tr h => h
    have h0 : Kept M s s := Or.inl ⟨rfl, rfl, rfl⟩
    rcases hx with ⟨b, hx⟩ | ⟨x, hx⟩
    · exact L.event (fun _ _ _ => hq _ _) (fun _ _ _ _ _ => hq _ _)
        (fun _ _ _ _ _ _ _ _ => hr _ _ _) (processEvent_ok hM hev (h.ready hM) hx) h0
    · rcases processEvent_throw hM hev (h.ready hM) hx with ⟨k, _, hk⟩ | ⟨_, _, os, pl', ht, hn⟩
      · exact L.eventThrow (fun _ _ _ => hq _ _) (fun _ _ _ _ _ => hq _ _)
          (fun _ _ _ _ _ _ _ _ => hr _ _ _) hk h0
      · rw [ht.same_of_none hn]; exact h0
  rcases hk with ⟨h1, _, h3⟩ | hk
  · exact Or.inl ⟨h1, by unfold activeRegions; rw [h3]⟩
  · exact Or.inr hk

theorem construct_regionsMatch (hM : M.Regular) {d : Dep} {w : W} {s : SM P W}
    (h : construct M d w = .ok s) : RegionsMatch M s := by
  rw [regionsMatch_iff]
  intro hp
  obtain ⟨h1, _, _, _, _, _, h2⟩ := C46_initial hM h
  unfold activeRegions at h2
  rw [hp] at h2
  simp only [if_true] at h2
  obtain ⟨_, _, _, ⟨init, hi, hcur, hpar⟩, _⟩ := construct_ok h
  obtain ⟨k, l, hk, _⟩ := hpar hp
  cases hd : M.declaredInitials M.root with
  | nil =>
    obtain ⟨_, h3, _⟩ := C46_initial hM h
    exact absurd hk (h3 0 (by rw [hd]; simp) k)
  | cons q qs =>
    exact ⟨M.root, .st q, h1 0 q (by rw [hd]; rfl), by rw [h2]⟩

/-- C34: after construction the number of regions matches, in histories without `set` it
always does, and `set` and `set_dependency` do not change it. -/
theorem C34_regions (hM : M.Regular) :
    (∀ d w (s : SM P W), construct M d w = .ok s → RegionsMatch M s) ∧
    (∀ d ops (s : SM P W), RunTo M sem d ops s → (∀ r p st, Op.set r p st ∉ ops) →
      RegionsMatch M s) ∧
    (∀ (s s' : SM P W) r p st, setOp M r p st s = .ok () s' →
      activeRegions M s' = activeRegions M s) ∧
    (∀ (s s' : SM P W) d, setDependency M d s = .ok () s' →
      activeRegions M s' = activeRegions M s) := by
  refine ⟨fun d w s h => construct_regionsMatch hM h, ?_, ?_, ?_⟩
  · intro d ops s h hns
    refine RunTo.places hM (I := RegionsMatch M) (fun w s h => construct_regionsMatch hM h)
      (fun _ _ _ _ _ _ _ _ _ _ _ _ _ hm => hm.regionsMatch) ?_
      (fun ⟨r, p, st, h⟩ => absurd h (hns r p st)) h
    intro s1 s2 h1 h2 h3 h4 _ hk
    rw [regionsMatch_iff] at hk ⊢
    intro hp
    obtain ⟨p, st, ha, hr⟩ := hk hp
    exact ⟨p, st, ⟨ha.1, ha.2.1, by rw [h1]; exact ha.2.2⟩, by rw [h4]; exact hr⟩
  · intro s s' r p st h
    unfold setOp at h
    split at h
    · cases h; rfl
    · cases h
  · intro s s' d h
    unfold setDependency at h
    split at h
    · cases h; rfl
    · cases h

/-! ## C42 -/

/-- Where the location `c` of region `r` comes from: the initial configuration, the
destination of a declared external row, or the memory of a composite targeted by a history
row: a location this region left earlier, or an initial state of that composite. -/
inductive Origin (M : Machine) (log : List Firing) (r c : Nat) : Prop
  | initial {q : Name} (h : (M.declaredInitials M.root)[r]? = some q)
      (hc : c = M.comb M.root (.st q))
  | target {t : XRow} {l : Name × StTy} (ht : t ∈ M.extRows)
      (hn : ∀ o q, t.target ≠ .ps o (.history q)) (hl : M.targetLoc t = some l)
      (hc : c = M.comb l.1 l.2)
  | left {t : XRow} {o : Bool} {q : Name} {f : Firing} (ht : t ∈ M.extRows)
      (hq : t.target = .ps o (.history q)) (hf : f ∈ log) (hr : f.region = r)
      (hc : f.before[r]? = some (some c))
  | memory {t : XRow} {o : Bool} {q i : Name} (ht : t ∈ M.extRows)
      (hq : t.target = .ps o (.history q)) (hi : (M.declaredInitials q)[r]? = some i)
      (hc : c = M.comb q (.st i))

theorem Origin.mono {log log' : List Firing} {r c : Nat} (h : Origin M log r c)
    (hs : ∀ f ∈ log, f ∈ log') : Origin M log' r c := by
  cases h with
  | initial h hc => exact .initial h hc
  | target ht hn hl hc => exact .target ht hn hl hc
  | left ht hq hf hr hc => exact .left ht hq (hs _ hf) hr hc
  | memory ht hq hi hc => exact .memory ht hq hi hc

/-- `Chain a log b`: the moves `log` lead from the locations `a` to `b`. -/
def Chain : List (Option Nat) → List Firing → List (Option Nat) → Prop
  | a, [], b => b = a
  | a, f :: l, b => f.before = a ∧ Chain f.after l b

theorem Chain.snoc {a b : List (Option Nat)} {l : List Firing} (h : Chain a l b) (f : Firing)
    (hf : f.before = b) : Chain a (l ++ [f]) f.after := by
  induction l generalizing a with
  | nil => exact ⟨by rw [hf]; exact h, rfl⟩
  | cons x xs ih => exact ⟨h.1, ih h.2⟩

/-- The locations have an origin and are connected by the moves to the initial ones. -/
structure Placed (M : Machine) (d : Dep) (s : SM P W) : Prop where
  ok : LogOk M s
  origin : ∀ r c, s.cur[r]? = some (some c) → Origin M s.log r c
  chain : ∃ (w : W) (s0 : SM P W), construct M d w = .ok s0 ∧ Chain s0.cur s.log s.cur

theorem RunTo.placed (hM : M.Regular) {d : Dep} {ops : List (Op P)} {s : SM P W}
    (h : RunTo M sem d ops s) (hns : ∀ r p st, Op.set r p st ∉ ops) : Placed M d s := by
  refine RunTo.places hM (I := Placed M d) ?_ ?_ ?_
      (fun ⟨r, p, st, h⟩ => absurd h (hns r p st)) h
  · intro w s h
    obtain ⟨h1, h2, _, _, h5, _⟩ := C46_initial hM h
    refine ⟨(RunTo.init (sem := sem) h).logOk hM, ?_, w, s, h, by rw [h5]; rfl⟩
    intro r c hc
    rcases Nat.lt_or_ge r (M.declaredInitials M.root).length with hlt | hge
    · have := h1 r _ (List.getElem?_eq_getElem hlt)
      rw [this.2.2] at hc
      cases hc
      exact .initial (List.getElem?_eq_getElem hlt) rfl
    · exact absurd hc (h2 r hge c)
  · intro r t ev p st cd s s' hs ha hc hrow hi hm
    have hok := hm.logOk hM hs.ok ha hc hrow hi
    refine ⟨hok, ?_, ?_⟩
    · intro r' c hc'
      obtain ⟨c1, hcur, hh, hn⟩ := hm.dest
      have hsub : ∀ f ∈ s.log, f ∈ s'.log := by
        intro f hf; rw [hm.log]; simp [hf]
      rw [hcur, List.getElem?_set] at hc'
      split at hc'
      · rename_i hrr
        subst hrr
        split at hc'
        · simp only [Option.some.injEq] at hc'
          subst hc'
          have htf : t ∈ M.flat := Explained.row_mem (mem := fun _ _ _ => True)
            (f := ⟨0, [], [], 0⟩) hc hrow hi
          by_cases hq : ∃ o q, t.target = .ps o (.history q)
          · obtain ⟨o, q, hq⟩ := hq
            have := (hok.memory (Machine.historic_of htf hq) q
              (Machine.history_target hM htf hq).1 r c1).1 (hh o q hq)
            rcases this with ⟨l1, f, l2, he, hf, _⟩ | ⟨_, i, hi, rfl⟩
            · exact .left (Machine.extRows_eq ▸ htf) hq (by rw [he]; simp) hf.1 hf.2.1
            · exact .memory (Machine.extRows_eq ▸ htf) hq hi rfl
          · have hq : ∀ o q, t.target ≠ .ps o (.history q) := fun o q h => hq ⟨o, q, h⟩
            obtain ⟨l, hl, rfl⟩ := hn hq
            exact .target (Machine.extRows_eq ▸ htf) hq hl rfl
        · cases hc'
      · exact (hs.origin r' c hc').mono hsub
    · obtain ⟨w, s0, h0, hch⟩ := hs.chain
      refine ⟨w, s0, h0, ?_⟩
      rw [hm.log]
      exact hch.snoc ⟨r, s.cur, s'.cur, s.trace.length⟩ rfl
  · intro s s' h1 h2 h3 h4 h5 hs
    refine ⟨?_, by rw [h1, h3]; exact hs.origin, by rw [h1, h3]; exact hs.chain⟩
    refine ⟨?_, by rw [h3]; exact hs.ok.moves, by rw [h1]; exact hs.ok.len,
      by rw [h3]; exact hs.ok.lens⟩
    intro hh p hp r c
    unfold Remembers
    rw [h2, h3]
    exact hs.ok.memory hh p hp r c

/-- C42: in every history without `set` the location of every region is an initial one, the
destination of a declared row or a remembered one; and the moves, each of which is that of
a declared row, lead from the initial configuration to the present one. -/
theorem C42_origin (hM : M.Regular) {d : Dep} {ops : List (Op P)} {s : SM P W}
    (h : RunTo M sem d ops s) (hns : ∀ r p st, Op.set r p st ∉ ops) :
    (∀ r c, s.cur[r]? = some (some c) → Origin M s.log r c) ∧
    (∃ (w : W) (s0 : SM P W), construct M d w = .ok s0 ∧ Chain s0.cur s.log s.cur) ∧
    ∀ f ∈ s.log, Explained M (fun _ r c => Origin M s.log r c) f := by
  have hp := h.placed hM hns
  refine ⟨hp.origin, hp.chain, ?_⟩
  intro f hf
  obtain ⟨l1, l2, hl⟩ := List.append_of_mem hf
  obtain ⟨p, st, ev, cd, t, c, h1, h2, h3, h4, h5, h6, h7, h8, h9⟩ := hp.ok.moves l1 f l2 hl
  refine ⟨p, st, ev, cd, t, c, h1, h2, h3, h4, h5, h6, h7, ?_, h9⟩
  intro o q hq
  have htf : t ∈ M.flat := Explained.row_mem (mem := fun _ _ _ => True) (f := f) h4 h5 h6
  rcases h8 o q hq with ⟨m1, g, m2, he, hg, _⟩ | ⟨_, i, hi, rfl⟩
  · refine .left (Machine.extRows_eq ▸ htf) hq (f := g) ?_ hg.1 hg.2.1
    have : g ∈ l1 ++ [f] := by rw [he]; simp
    rw [hl]
    rcases List.mem_append.1 this with h | h
    · simp [h]
    · rw [List.mem_singleton.1 h]; simp
  · exact .memory (Machine.extRows_eq ▸ htf) hq hi rfl

/-- `st` occurs in a row of `p`, initial markers removed. -/
def Mentioned (M : Machine) (p : Name) (st : StTy) : Prop :=
  ∃ r ∈ M.rows p, st = Machine.plain r.source ∨ st = Machine.plain r.target

/-- The number of a location whose state is a child of its composite. -/
def ChildLoc (M : Machine) (c : Nat) : Prop :=
  ∃ p st, p ∈ M.composites ∧ st ∈ M.states ∧ Mentioned M p st ∧ c = M.comb p st

theorem initial_child (hM : M.Regular) {p i : Name} (hp : p ∈ M.composites)
    (hi : i ∈ M.declaredInitials p) : ChildLoc M (M.comb p (.st i)) := by
  refine ⟨p, .st i, hp, hM.initial_mem hp (by rw [← Machine.declaredInitials_eq]; exact hi), ?_, rfl⟩
  unfold Machine.declaredInitials at hi
  rw [List.mem_filterMap] at hi
  obtain ⟨x, hx, he⟩ := hi
  rw [List.mem_eraseDups, List.mem_flatMap] at hx
  obtain ⟨r, hr, hx⟩ := hx
  have hxi : Machine.plain x = .st i := by
    split at he
    · cases he; rfl
    · cases he
  rcases List.mem_cons.1 hx with rfl | hx
  · exact ⟨r, hr, Or.inl hxi.symm⟩
  · rw [List.mem_singleton.1 hx] at hxi
    exact ⟨r, hr, Or.inr hxi.symm⟩

theorem target_child (hM : M.Regular) (hS : M.Scoped)
    (hch : ∀ t ∈ M.extRows, ∀ o q s, t.target = .ps o (.entry q s) ∨ t.target = .ps o (.direct q s) →
      Mentioned M q (.st s)) {t : XRow} (ht : t ∈ M.flat) {l : Name × StTy}
    (hl : M.targetLoc t = some l) : ChildLoc M (M.comb l.1 l.2) := by
  have hst := hM.targetLoc_state (List.mem_append_left _ ht) hl
  have hp := hS.dst t (List.mem_append_left _ ht) l hl
  obtain ⟨p, r, hpf, hr, hte⟩ := (Machine.mem_flat_iff hM.ranked).1 ht
  unfold Machine.targetLoc at hl
  split at hl
  · rename_i s hs
    split at hl
    · obtain ⟨i, hi, rfl⟩ := Option.map_eq_some_iff.1 hl
      exact initial_child hM hp (List.mem_of_mem_head? hi)
    · cases hl
      refine ⟨_, _, hp, hst, ⟨r, ?_, Or.inr ?_⟩, rfl⟩
      · rw [hte]; exact hr
      · rw [hte] at hs
        have : r.target = .st s := hs
        rw [this]; rfl
  · rename_i o q s hs
    cases hl
    exact ⟨_, _, hp, hst, hch t (Machine.extRows_eq ▸ ht) o q s (Or.inl hs), rfl⟩
  · rename_i o q s hs
    cases hl
    exact ⟨_, _, hp, hst, hch t (Machine.extRows_eq ▸ ht) o q s (Or.inr hs), rfl⟩
  · obtain ⟨i, hi, rfl⟩ := Option.map_eq_some_iff.1 hl
    exact initial_child hM hp (List.mem_of_mem_head? hi)
  · rename_i o s hs
    cases hl
    refine ⟨_, _, hp, hst, ⟨r, ?_, Or.inr ?_⟩, rfl⟩
    · rw [hte]; exact hr
    · rw [hte] at hs
      have : r.target = .ps o (.initial s) := hs
      rw [this]; rfl
  · rename_i o q s hs
    cases hl
    refine ⟨_, _, hp, hst, ⟨r, ?_, Or.inr ?_⟩, rfl⟩
    · rw [hte]; exact hr
    · rw [hte] at hs
      have : r.target = .ps o (.exit q s) := hs
      rw [this]; rfl

/-- C42, last part: if every entry and direct target names a child of its composite, then in
every history without `set` every region is in a child of its composite. -/
theorem C42_children (hM : M.Regular) (hS : M.Scoped)
    (hch : ∀ t ∈ M.extRows, ∀ o q s, t.target = .ps o (.entry q s) ∨ t.target = .ps o (.direct q s) →
      Mentioned M q (.st s))
    {d : Dep} {ops : List (Op P)} {s : SM P W} (h : RunTo M sem d ops s)
    (hns : ∀ r p st, Op.set r p st ∉ ops) :
    (∀ (r : Nat) c, s.cur[r]? = some (some c) → ChildLoc M c) ∧
    ∀ r p st, At M s r p st → Mentioned M p st := by
  have key : (∀ (r : Nat) c, s.cur[r]? = some (some c) → ChildLoc M c) ∧
      ∀ p ∈ M.composites, ∀ r c, Remembers M s p r c → ChildLoc M c := by
    refine RunTo.places hM (I := fun s => (∀ (r : Nat) c, s.cur[r]? = some (some c) → ChildLoc M c) ∧
      ∀ p ∈ M.composites, ∀ r c, Remembers M s p r c → ChildLoc M c) ?_ ?_ ?_
      (fun ⟨r, p, st, h⟩ => absurd h (hns r p st)) h
    · intro w s h
      obtain ⟨h1, h2, _⟩ := C46_initial hM h
      obtain ⟨_, _, _, _, _, hh, _⟩ := construct_ok h
      refine ⟨?_, ?_⟩
      · intro r c hc
        rcases Nat.lt_or_ge r (M.declaredInitials M.root).length with hlt | hge
        · have := h1 r _ (List.getElem?_eq_getElem hlt)
          rw [this.2.2] at hc
          cases hc
          exact initial_child hM hM.root_mem (List.getElem_mem hlt)
        · exact absurd hc (h2 r hge c)
      · rintro p hp r c ⟨l, hl, hc⟩
        rw [hh, Machine.initialTable_get hM hp] at hl
        cases hl
        rw [List.getElem?_map] at hc
        obtain ⟨i, hi, rfl⟩ := Option.map_eq_some_iff.1 hc
        exact initial_child hM hp (by
          rw [Machine.declaredInitials_eq]; exact List.mem_of_getElem? hi)
    · intro r t ev p st cd s s' ⟨hs1, hs2⟩ ha hc hrow hi hm
      have htf : t ∈ M.flat := Explained.row_mem (mem := fun _ _ _ => True)
        (f := ⟨0, [], [], 0⟩) hc hrow hi
      have hmem : ∀ p ∈ M.composites, ∀ r c, Remembers M s' p r c → ChildLoc M c := by
        intro q hq i c hrc
        rcases hm.memory with ⟨_, he⟩ | ⟨_, p0, st0, c0, ha0, hc0, hrem, hoth⟩
        · exact hs2 q hq i c (by unfold Remembers at hrc ⊢; rw [← he]; exact hrc)
        · by_cases hqi : q ≠ p0 ∨ i ≠ r
          · exact hs2 q hq i c ((hoth q hq i hqi c).1 hrc)
          · have hqi : q = p0 ∧ i = r := by simpa [not_or] using hqi
            obtain ⟨rfl, rfl⟩ := hqi
            obtain ⟨l, hl, hlc⟩ := hrc
            obtain ⟨l', hl', hlc'⟩ := hrem
            rw [hl] at hl'; cases hl'
            rw [hlc] at hlc'; cases hlc'
            exact hs1 i c hc0
      refine ⟨?_, hmem⟩
      intro r' c hc'
      obtain ⟨c1, hcur, hh, hn⟩ := hm.dest
      rw [hcur, List.getElem?_set] at hc'
      split at hc'
      · rename_i hrr
        subst hrr
        split at hc'
        · simp only [Option.some.injEq] at hc'
          subst hc'
          by_cases hq : ∃ o q, t.target = .ps o (.history q)
          · obtain ⟨o, q, hq⟩ := hq
            exact hmem q (Machine.history_target hM htf hq).1 r c1 (hh o q hq)
          · obtain ⟨l, hl, rfl⟩ := hn fun o q h => hq ⟨o, q, h⟩
            exact target_child hM hS hch htf hl
        · cases hc'
      · exact hs1 r' c hc'
    · intro s s' h1 h2 _ _ _ hs
      refine ⟨by rw [h1]; exact hs.1, ?_⟩
      unfold Remembers
      rw [h2]
      exact hs.2
  refine ⟨key.1, ?_⟩
  intro r p st ha
  obtain ⟨q, st', hq, hst', hm, he⟩ := key.1 r _ ha.2.2
  cases hM.comb_inj hq hst' he
  exact hm

end

namespace Ex

/-- Two regions; composite 3, with two regions of its own, is entered by region 1 only. -/
def forgetful : Machine := Machine.ofList
  [ { table := some
        [ row (ini 1) (ev 0) none none (.st 1),
          row (ini 2) (ev 1) none none (.st 3),
          row (.st 3) (ev 3) none none (.st 2),
          row (.st 2) (ev 4) none none (.ps true (.history 3)) ] },
    { }, { },
    { table := some [ row (ini 4) (ev 2) none none (.st 6), row (ini 5) (ev 2) none none (.st 7) ] } ]
  [1]

theorem forgetful_regular : forgetful.Regular := Machine.regular_ofList (by decide +kernel)
theorem forgetful_scoped : forgetful.Scoped := Machine.scoped_of_check (by decide +kernel)
theorem forgetful_safe (on : Nat → Bool) : Safe forgetful (sem on) :=
  safe_of_check forgetful_scoped (by decide +kernel)

theorem not_left {M : Machine} (hM : M.Regular) {f : Firing} {p q : Name} {st : StTy} {r : Nat}
    (hq : q ∈ M.composites) (hne : p ≠ q) (hb : f.before[r]? = some (some (M.comb p st))) (c : Nat) :
    ¬ Left M q r f c := by
  rintro ⟨_, hbf, st', hst', rfl⟩
  rw [hb] at hbf
  simp only [Option.some.injEq] at hbf
  cases hM.comb_inj hq hst' hbf
  exact hne rfl

theorem not_explained {M : Machine} {log : List Firing} {f : Firing} {p q : Name}
    {st : StTy} {c c' : Nat}
    (hb : f.before[f.region]? = some (some (M.comb p st)))
    (ha : f.after[f.region]? = some (some c))
    (hq : ∀ t ∈ M.flat, ∀ o q', t.target = .ps o (.history q') → q' = q)
    (ht : ∀ t ∈ M.flat, ∀ l, M.targetLoc t = some l → M.comb l.1 l.2 ≠ c)
    (hl : LastLeft M log q f.region c') (hne : c' ≠ c) : ¬ Explained M (LastLeft M log) f := by
  rintro ⟨p1, st1, ev, cd, t, c1, hp1, hst1, hb1, hc, hrow, hi, haf, hh, hn⟩
  have htf : t ∈ M.flat := Explained.row_mem (mem := fun _ _ _ => True) (f := f) hc hrow hi
  have hlt := (List.getElem?_eq_some_iff.1 hb).1
  have hcc : c1 = c := by
    rw [haf, List.getElem?_set] at ha
    simpa [hlt] using ha
  subst hcc
  by_cases hqq : ∃ o q, t.target = .ps o (.history q)
  · obtain ⟨o, q', hq'⟩ := hqq
    have h1 := hh o q' hq'
    rw [hq t htf o q' hq'] at h1
    exact hne (hl.unique h1)
  · obtain ⟨l, hl, hlc⟩ := hn fun o q h => hqq ⟨o, q, h⟩
    exact ht t htf l hl hlc.symm

/-- A composite (2) that is left and entered again by its history. -/
def memory : Machine := Machine.ofList
  [ { table := some
        [ row (ini 1) (ev 0) none none (.ps true (.history 2)),
          row (.st 2) (ev 1) none none (.st 1) ] },
    { },
    { table := some [ row (ini 3) (ev 2) none none (.st 4) ] } ] [1]

theorem memory_regular : memory.Regular := Machine.regular_ofList (by decide +kernel)
theorem memory_scoped : memory.Scoped := Machine.scoped_of_check (by decide +kernel)

end Ex

/-- C26 does not hold: in `forgetful` region 1 enters composite 3, moves from 4 to 6, leaves
the composite and comes back by its history, and is then in 5, not in 6. -/
theorem C26_refuted : ¬ ∀ (M : Machine), M.Regular → M.Scoped →
    ∀ (sem : Sem Nat (List Nat)), Safe M sem →
    ∀ (d : Dep) (ops : List (Op Nat)) (s : SM Nat (List Nat)) (l1 l2 : List Firing) (f : Firing),
    RunTo M sem d ops s → s.log = l1 ++ f :: l2 → Explained M (LastLeft M (l1 ++ [f])) f := by
  intro hall
  have hrun : (Ex.run Ex.forgetful (Ex.sem fun _ => true) 5 7 [] [.process (Ex.ev 1) 1,
      .process (Ex.ev 2) 1, .process (Ex.ev 3) 1, .process (Ex.ev 4) 1]).any (fun s =>
        match s.log with
        | [_, _, g, f] => g.region == 1 && f.region == 1 &&
          g.before[1]? == some (some (Ex.forgetful.comb 3 (.st 6))) &&
          f.before[1]? == some (some (Ex.forgetful.comb 0 (.st 2))) &&
          f.after[1]? == some (some (Ex.forgetful.comb 3 (.st 5)))
        | _ => false) = true := by
    decide +kernel
  obtain ⟨s, hr, hs⟩ := Ex.exists_run _ _ hrun
  split at hs
  · rename_i f1 f2 g f hlog
    simp only [Bool.and_eq_true, beq_iff_eq] at hs
    obtain ⟨⟨⟨⟨h1, h2⟩, h3⟩, h4⟩, h5⟩ := hs
    have hl : s.log = [f1, f2, g] ++ f :: [] := hlog
    refine Ex.not_explained (q := 3) (p := 0) (st := .st 2) (c := Ex.forgetful.comb 3 (.st 5))
      (c' := Ex.forgetful.comb 3 (.st 6))
      (by rw [h2]; exact h4) (by rw [h2]; exact h5) ?_ ?_ ?_
      (by decide +kernel)
      (hall Ex.forgetful Ex.forgetful_regular Ex.forgetful_scoped _ (Ex.forgetful_safe _) _ _ s _ []
        f hr hl)
    · have h : (Ex.forgetful.flat.all fun t => match t.target with
        | .ps _ (.history q) => q == 3
        | _ => true) = true := by decide +kernel
      intro t ht o q hq
      have := List.all_eq_true.1 h t ht
      rw [hq] at this
      simpa using this
    · have h : (Ex.forgetful.flat.all fun t => match Ex.forgetful.targetLoc t with
        | some l => Ex.forgetful.comb l.1 l.2 != Ex.forgetful.comb 3 (.st 5)
        | none => true) = true := by decide +kernel
      intro t ht l hl
      have := List.all_eq_true.1 h t ht
      rw [hl] at this
      simpa using this
    · refine Or.inl ⟨[f1, f2], g, [f], rfl, ⟨by rw [h1, h2], by rw [h2]; exact h3, .st 6,
        by decide +kernel, rfl⟩, ?_⟩
      intro g' hg
      rw [List.mem_singleton.1 hg, h2]
      exact Ex.not_left Ex.forgetful_regular (by decide +kernel) (by decide) h4
  · cases hs

/-- C25 at work in `memory`: the composite is entered by its history (initial state 3), moves
to 4, is left and entered by its history again, now in 4. -/
example : ∃ s, RunTo Ex.memory (Ex.sem fun _ => true) 7 [.process (Ex.ev 0) 1,
    .process (Ex.ev 2) 1, .process (Ex.ev 1) 1, .process (Ex.ev 0) 1] s ∧
    s.log.length = 4 ∧ At Ex.memory s 0 2 (.st 4) ∧ Ex.memory.orthogonal = false := by
  have hrun : (Ex.run Ex.memory (Ex.sem fun _ => true) 5 7 [] [.process (Ex.ev 0) 1,
      .process (Ex.ev 2) 1, .process (Ex.ev 1) 1, .process (Ex.ev 0) 1]).any (fun s =>
      s.log.length == 4 && s.cur[0]? == some (some (Ex.memory.comb 2 (.st 4)))) = true := by
    decide +kernel
  obtain ⟨s, hr, hs⟩ := Ex.exists_run _ _ hrun
  simp only [Bool.and_eq_true, beq_iff_eq] at hs
  exact ⟨s, hr, hs.1, ⟨by decide +kernel, by decide +kernel, hs.2⟩, by decide +kernel⟩

/-- Evaluates `Aligned`. -/
def Ex.alignedB (M : Machine) (f : Firing) : Bool :=
  M.composites.any fun p =>
    (M.states.any fun st => f.before[0]? == some (some (M.comb p st))) &&
    (M.states.any fun st => f.before[f.region]? == some (some (M.comb p st)))

theorem Ex.aligned_of_check {M : Machine} {f : Firing} (h : Ex.alignedB M f = true) :
    Aligned M f := by
  obtain ⟨p, _, h⟩ := List.any_eq_true.1 h
  rw [Bool.and_eq_true] at h
  obtain ⟨st, hst, h1⟩ := List.any_eq_true.1 h.1
  obtain ⟨st', hst', h2⟩ := List.any_eq_true.1 h.2
  exact ⟨p, _, _, by simpa using h1, by simpa using h2, ⟨st, hst, rfl⟩, ⟨st', hst', rfl⟩⟩

/-- The hypotheses of C26_partial are met in `orth`: region 1 moves, and both regions are in
the same composite. -/
example : ∃ s f, RunTo Ex.orth (Ex.sem fun _ => true) 7 [.process (Ex.ev 0) 1] s ∧
    f ∈ s.log ∧ f.region = 1 ∧ ∀ g ∈ s.log, Aligned Ex.orth g := by
  have hrun : (Ex.run Ex.orth (Ex.sem fun _ => true) 5 7 [] [.process (Ex.ev 0) 1]).any (fun s =>
      (s.log.any fun f => f.region == 1) && s.log.all (Ex.alignedB Ex.orth)) = true := by
    decide +kernel
  obtain ⟨s, hr, hs⟩ := Ex.exists_run _ _ hrun
  rw [Bool.and_eq_true] at hs
  obtain ⟨f, hf, h1⟩ := List.any_eq_true.1 hs.1
  exact ⟨s, f, hr, hf, by simpa using h1,
    fun g hg => Ex.aligned_of_check (List.all_eq_true.1 hs.2 g hg)⟩

/-- C26_exact speaks about moves C26_partial leaves out: in `forgetful` region 1 leaves 6 in composite 3 while
region 0 is not there, and the history row leads to the second initial state of the composite. -/
example : ∃ s f l1, RunTo Ex.forgetful (Ex.sem fun _ => true) 7 [.process (Ex.ev 1) 1, .process (Ex.ev 2) 1,
    .process (Ex.ev 3) 1, .process (Ex.ev 4) 1] s ∧ s.log = l1 ++ [f] ∧ f.region = 1 ∧
    Ex.alignedB Ex.forgetful f = true ∧ (l1.any fun g => !Ex.alignedB Ex.forgetful g) = true ∧
    f.after[1]? = some (some (Ex.forgetful.comb 3 (.st 5))) := by
  have hrun : (Ex.run Ex.forgetful (Ex.sem fun _ => true) 5 7 [] [.process (Ex.ev 1) 1,
      .process (Ex.ev 2) 1, .process (Ex.ev 3) 1, .process (Ex.ev 4) 1]).any (fun s =>
        match s.log with
        | [a, b, c, f] => f.region == 1 && Ex.alignedB Ex.forgetful f &&
          ([a, b, c].any fun g => !Ex.alignedB Ex.forgetful g) &&
          f.after[1]? == some (some (Ex.forgetful.comb 3 (.st 5)))
        | _ => false) = true := by decide +kernel
  obtain ⟨s, hr, hs⟩ := Ex.exists_run _ _ hrun
  split at hs
  · next a b c f hlog =>
    simp only [Bool.and_eq_true, beq_iff_eq] at hs
    exact ⟨s, f, [a, b, c], hr, hlog, hs.1.1.1, hs.1.1.2, hs.1.2, hs.2⟩
  · cases hs

instance (M : Machine) (p : Name) (st : StTy) : Decidable (Mentioned M p st) := by
  unfold Mentioned; infer_instance

/-- The hypothesis of C42_children is met by `demo`, which has an entry target. -/
example : ∀ t ∈ Ex.demo.extRows, ∀ o q s, t.target = .ps o (.entry q s) ∨
    t.target = .ps o (.direct q s) → Mentioned Ex.demo q (.st s) := by
  have h : (Ex.demo.flat.all fun t => match t.target with
      | .ps _ (.entry q s) => decide (Mentioned Ex.demo q (.st s))
      | .ps _ (.direct q s) => decide (Mentioned Ex.demo q (.st s))
      | _ => true) = true := by decide +kernel
  intro t ht o q s hq
  have := List.all_eq_true.1 h t ht
  rcases hq with hq | hq <;> rw [hq] at this <;> simpa using this

/-- C34 is not trivial: in `orth` the number of regions is two at the start. -/
example : ∃ s, RunTo Ex.orth (Ex.sem fun _ => true) 7 [] s ∧ activeRegions Ex.orth s = 2 := by
  have hrun : (Ex.run Ex.orth (Ex.sem fun _ => true) 5 7 [] []).any (fun s =>
      activeRegions Ex.orth s == 2) = true := by decide +kernel
  obtain ⟨s, hr, hs⟩ := Ex.exists_run _ _ hrun
  exact ⟨s, hr, by simpa using hs⟩

end Hsm
