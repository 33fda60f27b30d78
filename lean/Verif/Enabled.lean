import Verif.Moment

/-!
# The first enabled candidate

At most one candidate is the first enabled one (`FirstEnabled.unique`), and it is the one
that fires.
-/

namespace Hsm

section
variable {P W : Type} {M : Machine} {sem : Sem P W} {d : Dep} {ops : List (Op P)} {s s' : SM P W}
  {r : Nat} {ev : EventTy} {pl : P}

/-- Every candidate has an entry. -/
theorem Machine.entry_some (hM : M.Regular) (d : Dep) {e : EventTy} {p : Name} {st : StTy}
    {c : Cand} (hc : c ∈ M.cands e p st) : ∃ en, M.entryOfCand d c = some en := by
  rcases Machine.cand_row hc with rfl | ⟨t, ht, _, h | h⟩
  · exact ⟨_, rfl⟩
  · obtain ⟨l, hl⟩ := hM.targetLoc_some ht
    exact ⟨_, by rw [h]; simp only [Machine.entryOfCand, hl]; rfl⟩
  · obtain ⟨l, hl⟩ := hM.targetLoc_some ht
    exact ⟨_, by rw [h]; simp only [Machine.entryOfCand, hl]; rfl⟩

theorem length_filterMap_some {α β : Type} {f : α → Option β} :
    ∀ {l : List α}, (∀ a ∈ l, ∃ b, f a = some b) → (l.filterMap f).length = l.length
  | [], _ => rfl
  | a :: l, h => by
    obtain ⟨b, hb⟩ := h a (by simp)
    rw [List.filterMap_cons_some hb, List.length_cons, List.length_cons,
      length_filterMap_some fun x hx => h x (by simp [hx])]

theorem Machine.entries_length (hM : M.Regular) (ds : List Dep) (e : EventTy) (p : Name)
    (st : StTy) : (M.entries ds e p st).length = ds.length * (M.cands e p st).length := by
  induction ds with
  | nil => simp [Machine.entries]
  | cons d ds ih =>
    have : M.entries (d :: ds) e p st =
        (M.cands e p st).filterMap (M.entryOfCand d) ++ M.entries ds e p st := by
      simp [Machine.entries]
    rw [this, List.length_append, ih,
      length_filterMap_some fun c hc => Machine.entry_some hM d hc, List.length_cons,
      Nat.succ_mul, Nat.add_comm]

theorem FalseRun.prefix_det {cur : List (Option Nat)} {es : List Entry} {p p1 : P} {w w1 : W}
    {tr : List (Call P)} (h : FalseRun sem cur ev es p w tr p1 w1) :
    ∀ {es' : List Entry} {p2 : P} {w2 : W} {tr' : List (Call P)},
      FalseRun sem cur ev (es ++ es') p w tr' p2 w2 →
      ∃ tr'', tr' = tr ++ tr'' ∧ FalseRun sem cur ev es' p1 w1 tr'' p2 w2 := by
  induction h with
  | nil => intro es' p2 w2 tr' h; exact ⟨tr', rfl, h⟩
  | @cons e es x g p pa pb w wa wb tr hd ht hg hc hr ih =>
    intro es' p2 w2 tr' h
    cases h with
    | @cons _ _ x' g' _ pa' _ _ wa' _ tr' hd' ht' hg' hc' hr' =>
      rw [ht] at ht'; cases ht'
      rw [hg] at hg'; cases hg'
      rw [hc] at hc'; cases hc'
      obtain ⟨tr'', rfl, h2⟩ := ih hr'
      exact ⟨tr'', rfl, h2⟩

theorem FalseRun.det {cur : List (Option Nat)} {es : List Entry} {p p1 p2 : P} {w w1 w2 : W}
    {tr tr' : List (Call P)} (h : FalseRun sem cur ev es p w tr p1 w1)
    (h' : FalseRun sem cur ev es p w tr' p2 w2) : tr' = tr ∧ p2 = p1 ∧ w2 = w1 := by
  obtain ⟨tr'', rfl, h2⟩ := h.prefix_det (es' := []) (by simpa using h')
  cases h2
  exact ⟨by simp, rfl, rfl⟩

theorem TrueGuard.det {cur : List (Option Nat)} {x : Exec} {p p1 p2 : P} {w w1 w2 : W}
    {tr tr' : List (Call P)} (h : TrueGuard sem cur ev x p w tr p1 w1)
    (h' : TrueGuard sem cur ev x p w tr' p2 w2) : tr' = tr ∧ p2 = p1 ∧ w2 = w1 := by
  cases h with
  | absent h =>
    cases h' with
    | absent h' => exact ⟨rfl, rfl, rfl⟩
    | called h' _ => rw [h] at h'; cases h'
  | called h hc =>
    cases h' with
    | absent h' => rw [h] at h'; cases h'
    | called h' hc' =>
      rw [h] at h'; cases h'
      rw [hc] at hc'; cases hc'
      exact ⟨rfl, rfl, rfl⟩

/-- An entry cannot both refuse and be enabled. -/
theorem FalseRun.not_true {cur : List (Option Nat)} {pre post : List Entry} {e : Entry} {x : Exec}
    {p p1 p2 pa : P} {w w1 w2 wa : W} {tr tr' tr2 : List (Call P)}
    (h : FalseRun sem cur ev pre p w tr p1 w1) (he : e.tr = some x)
    (h' : FalseRun sem cur ev (pre ++ e :: post) p w tr' p2 w2)
    (hg : TrueGuard sem cur ev x p1 w1 tr2 pa wa) : False := by
  obtain ⟨tr'', rfl, h2⟩ := h.prefix_det h'
  cases h2 with
  | cons hd ht hgd hc hr =>
    rw [he] at ht; cases ht
    cases hg with
    | absent hn => rw [hgd] at hn; cases hn
    | called hn hc' =>
      rw [hgd] at hn; cases hn
      rw [hc] at hc'; cases hc'

/-- At most one candidate is the first enabled one. -/
theorem FirstEnabled.unique (hM : M.Regular) {deps : List Dep} {c c' : Cand} {t t' : XRow}
    {d d' : Dep} {l l' : Name × StTy} {gs gs' : List (Call P)} {p1 p2 : P} {w1 w2 : W}
    (h : FirstEnabled M sem deps r ev pl s c t d l gs p1 w1)
    (h' : FirstEnabled M sem deps r ev pl s c' t' d' l' gs' p2 w2) :
    c' = c ∧ t' = t ∧ d' = d ∧ l' = l ∧ gs' = gs ∧ p2 = p1 ∧ w2 = w1 := by
  obtain ⟨p, st, x, pre, q1, tr1, tr2, v1, ha, hs, hf, hg, rfl⟩ := h
  obtain ⟨p', st', x', pre', q1', tr1', tr2', v1', ha', hs', hf', hg', rfl⟩ := h'
  obtain ⟨rfl, rfl⟩ := ha.unique hM ha'
  obtain ⟨e, post, he, hen, htr⟩ := hs.entries
  obtain ⟨e', post', he', hen', htr'⟩ := hs'.entries
  have hpre : pre = pre' ∧ e = e' := by
    rw [he] at he'
    rcases List.append_eq_append_iff.1 he' with ⟨m, h1, h2⟩ | ⟨m, h1, h2⟩
    · cases m with
      | nil =>
        simp only [List.append_nil, List.nil_append] at h1 h2
        exact ⟨h1.symm, (List.cons.inj h2).1⟩
      | cons y m =>
        simp only [List.cons_append] at h2
        cases (List.cons.inj h2).1
        exact (hf.not_true htr (h1 ▸ hf') hg).elim
    · cases m with
      | nil =>
        simp only [List.append_nil, List.nil_append] at h1 h2
        exact ⟨h1, (List.cons.inj h2).1.symm⟩
      | cons y m =>
        simp only [List.cons_append] at h2
        cases (List.cons.inj h2).1
        exact (hf'.not_true htr' (h1 ▸ hf) hg').elim
  obtain ⟨rfl, rfl⟩ := hpre
  rw [htr] at htr'
  cases htr'
  obtain ⟨rfl, rfl, rfl⟩ := hf.det hf'
  obtain ⟨rfl, rfl, rfl⟩ := hg.det hg'
  obtain ⟨ds1, ds2, cs1, cs2, hd, hc, hp⟩ := hs.order
  obtain ⟨ds1', ds2', cs1', cs2', hd', hc', hp'⟩ := hs'.order
  have len : ∀ {ds : List Dep} {cs cs2 : List Cand} {dd : Dep} {c : Cand},
      M.cands ev p st = cs ++ c :: cs2 →
      (M.entries ds ev p st ++ cs.filterMap (M.entryOfCand dd)).length =
        ds.length * (M.cands ev p st).length + cs.length ∧
      cs.length < (M.cands ev p st).length := by
    intro ds cs cs2 dd c hc
    rw [List.length_append, Machine.entries_length hM, length_filterMap_some]
    · exact ⟨rfl, by rw [hc]; simp⟩
    · intro y hy
      exact Machine.entry_some hM dd (e := ev) (p := p) (st := st) (by rw [hc]; simp [hy])
  obtain ⟨l1, k1⟩ := len (ds := ds1) (dd := d) hc
  obtain ⟨l2, k2⟩ := len (ds := ds1') (dd := d') hc'
  rw [← hp] at l1
  rw [← hp'] at l2
  have heq : ds1.length = ds1'.length ∧ cs1.length = cs1'.length := by
    have hn : 0 < (M.cands ev p st).length := by omega
    have e1 : pre.length / (M.cands ev p st).length = ds1.length := by
      rw [l1, Nat.mul_comm, Nat.mul_add_div hn, Nat.div_eq_of_lt k1, Nat.add_zero]
    have e2 : pre.length / (M.cands ev p st).length = ds1'.length := by
      rw [l2, Nat.mul_comm, Nat.mul_add_div hn, Nat.div_eq_of_lt k2, Nat.add_zero]
    have h1 : ds1.length = ds1'.length := e1.symm.trans e2
    refine ⟨h1, ?_⟩
    rw [l1, h1] at l2
    omega
  have hcc : c' = c := by
    have h1 : (M.cands ev p st)[cs1.length]? = some c := by rw [hc]; simp
    have h2 : (M.cands ev p st)[cs1.length]? = some c' := by rw [hc', heq.2]; simp
    rw [h1] at h2; exact (Option.some.inj h2).symm
  have hdd : d' = d := by
    have h1 : deps[ds1.length]? = some d := by rw [hd]; simp
    have h2 : deps[ds1.length]? = some d' := by rw [hd', heq.1]; simp
    rw [h1] at h2; exact (Option.some.inj h2).symm
  subst hcc hdd
  have htt : t' = t := Option.some.inj (hs'.row.symm.trans hs.row)
  subst htt
  exact ⟨rfl, rfl, rfl, Option.some.inj (hs'.loc.symm.trans hs.loc), rfl, rfl, rfl⟩

/-- Where a row is enabled the event is not deferred. -/
theorem Selected.no_defer {deps : List Dep} {p : Name} {st : StTy} {c : Cand} {t : XRow} {d : Dep}
    {l : Name × StTy} {x : Exec} {pre : List Entry} {cur : List (Option Nat)} {q q1 : P} {w w1 : W}
    {tr : List (Call P)} (hs : Selected M deps ev p st c t d l x pre)
    (hf : FalseRun sem cur ev pre q w tr q1 w1) : Cand.defer ∉ M.cands ev p st := by
  intro hd
  obtain ⟨rest, hr⟩ := Machine.cands_defer hd
  obtain ⟨ds1, ds2, cs1, cs2, _, hc, hp⟩ := hs.order
  rw [hr] at hc
  cases cs1 with
  | nil =>
    cases hc
    have := hs.row
    simp [Cand.row?] at this
  | cons y cs1 =>
    cases hc
    obtain ⟨en, hen⟩ : ∃ en, M.entryOfCand d .defer = some en ∧ en.defer = true := ⟨_, rfl, rfl⟩
    have := hf.no_defer en (by
      rw [hp, List.filterMap_cons_some hen.1]
      simp)
    rw [hen.2] at this
    cases this

/-- If a row is enabled, a region step that returns fired it. -/
theorem RegionRun.first (hM : M.Regular) {deps : List Dep} {c : Cand} {t : XRow} {d : Dep}
    {l : Name × StTy} {gs : List (Call P)} {p1 pl' : P} {w1 : W} {o : RegionOut}
    (h : RegionRun M sem deps r ev pl s o pl' s')
    (he : FirstEnabled M sem deps r ev pl s c t d l gs p1 w1) :
    o = .fired ∧ ∃ s1 tr w, Effect M r t (s.ran w1 gs) s1 ∧
      ActRun sem s1.cur (cbArgs M c t l ev d) (M.callbacks t) p1 w1 tr pl' w ∧
      s' = s1.ran w tr := by
  have he0 := he
  obtain ⟨p, st, x, pre, q1, tr1, tr2, v1, ha, hs, hf, hg, rfl⟩ := he
  cases h with
  | none ha' hc =>
    obtain ⟨rfl, rfl⟩ := ha.unique hM ha'
    have := hs.mem
    rw [hc] at this
    cases this
  | rejected ha' hne hf' =>
    obtain ⟨rfl, rfl⟩ := ha.unique hM ha'
    obtain ⟨e, post, hes, hen, htr⟩ := hs.entries
    rw [hes] at hf'
    exact (hf.not_true htr hf' hg).elim
  | deferred ha' hd =>
    obtain ⟨rfl, rfl⟩ := ha.unique hM ha'
    exact (hs.no_defer hf hd).elim
  | fired ha' hs' hf' hg' he' hr' =>
    obtain ⟨rfl, rfl, rfl, rfl, hgs, rfl, rfl⟩ :=
      he0.unique hM ⟨_, _, _, _, _, _, _, _, ha', hs', hf', hg', rfl⟩
    rw [← hgs]
    exact ⟨rfl, _, _, _, he', hr', rfl⟩

/-- A region step that fires has a first enabled candidate. -/
theorem RegionRun.enabled {deps : List Dep} {pl' : P}
    (h : RegionRun M sem deps r ev pl s .fired pl' s') :
    ∃ c t d l gs p1 w1, FirstEnabled M sem deps r ev pl s c t d l gs p1 w1 := by
  cases h with
  | fired ha hs hf hg he hr => exact ⟨_, _, _, _, _, _, _, _, _, _, _, _, _, _, _, ha, hs, hf, hg, rfl⟩

/-- If a row is enabled, a region step left by an exception was left by one of its actions. -/
theorem RegionThrow.first (hM : M.Regular) {deps : List Dep} {c : Cand} {t : XRow} {d : Dep}
    {l : Name × StTy} {gs : List (Call P)} {p1 : P} {w1 : W} {k : Nat}
    (h : RegionThrow M sem deps r ev pl s k s')
    (he : FirstEnabled M sem deps r ev pl s c t d l gs p1 w1) :
    ∃ s1 tr w, Effect M r t (s.ran w1 gs) s1 ∧
      ActThrow sem s1.cur (cbArgs M c t l ev d) (M.callbacks t) p1 w1 tr k w ∧
      s' = s1.ran w tr := by
  have he0 := he
  obtain ⟨p, st, x, pre, q1, tr1, tr2, v1, ha, hs, hf, hg, rfl⟩ := he
  cases h with
  | @guard p' st' c' t' d' l' x' pre' g' p1' p2' tr' w1' w2' _ ha' hs' hf' hg' hc' =>
    exfalso
    obtain ⟨rfl, rfl⟩ := ha.unique hM ha'
    obtain ⟨e, post, hes, hen, htr⟩ := hs.entries
    obtain ⟨e', post', hes', hen', htr'⟩ := hs'.entries
    rw [hes] at hes'
    rcases List.append_eq_append_iff.1 hes' with ⟨m, h1, h2⟩ | ⟨m, h1, h2⟩
    · cases m with
      | nil =>
        simp only [List.append_nil, List.nil_append] at h1 h2
        cases (List.cons.inj h2).1
        rw [htr] at htr'
        cases htr'
        subst h1
        obtain ⟨rfl, rfl, rfl⟩ := hf.det hf'
        have hx := hs'.guard.trans hg'
        cases hg with
        | absent hn => rw [hn] at hx; cases hx
        | called hn hc =>
          rw [hn] at hx; cases hx
          rw [hc] at hc'; cases hc'
      | cons y m =>
        simp only [List.cons_append] at h2
        cases (List.cons.inj h2).1
        exact hf.not_true htr (h1 ▸ hf') hg
    · cases m with
      | nil =>
        simp only [List.append_nil, List.nil_append] at h1 h2
        cases (List.cons.inj h2).1
        rw [htr] at htr'
        cases htr'
        subst h1
        obtain ⟨rfl, rfl, rfl⟩ := hf.det hf'
        have hx := hs'.guard.trans hg'
        cases hg with
        | absent hn => rw [hn] at hx; cases hx
        | called hn hc =>
          rw [hn] at hx; cases hx
          rw [hc] at hc'; cases hc'
      | cons y m =>
        simp only [List.cons_append] at h2
        cases (List.cons.inj h2).1
        subst h1
        obtain ⟨tr'', rfl, h3⟩ := hf'.prefix_det hf
        cases h3 with
        | cons hd3 ht3 hg3 hc3 hr3 =>
          rw [htr'] at ht3; cases ht3
          have hx := hs'.guard.trans hg'
          rw [hg3] at hx; cases hx
          rw [hc3] at hc'; cases hc'
  | action ha' hs' hf' hg' he' hr' =>
    obtain ⟨rfl, rfl, rfl, rfl, hgs, rfl, rfl⟩ :=
      he0.unique hM ⟨_, _, _, _, _, _, _, _, ha', hs', hf', hg', rfl⟩
    rw [← hgs]
    exact ⟨_, _, _, he', hr', rfl⟩

end
end Hsm
