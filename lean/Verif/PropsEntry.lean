import Verif.Chronicle
import Verif.Enabled

/-!
# Entry and exit actions, entering composites (C29, C30, C33)

The claims do not hold for all shapes of rows; they are refuted by machines, and proved for
states that are left, or entered, by rows naming them plainly.
-/

namespace Hsm

namespace Machine

/-- State `S` of composite `p` is left by rows of `p` with plain source `S` only: it is not
marked initial in a row of `p`, no exit or direct pseudo state for it is a source, and `p` is
not the source of a row. -/
structure PlainLeave (M : Machine) (p S : Name) : Prop where
  initial : ∀ r ∈ M.rows p, ∀ o, r.source ≠ .ps o (.initial S)
  pseudo : ∀ q r, M.InForce q → r ∈ M.rows q → ∀ o,
    r.source ≠ .ps o (.exit p S) ∧ r.source ≠ .ps o (.direct p S)
  composite : ∀ q r, M.InForce q → r ∈ M.rows q → r.source ≠ .st p

/-- State `S` of composite `p` is entered by rows of `p` with plain target `S`, or with plain
target `p` whose first initial state it is. -/
structure PlainEnter (M : Machine) (p S : Name) : Prop where
  initial : ∀ r ∈ M.rows p, ∀ o, r.target ≠ .ps o (.initial S)
  pseudo : ∀ q r, M.InForce q → r ∈ M.rows q → ∀ o,
    r.target ≠ .ps o (.entry p S) ∧ r.target ≠ .ps o (.direct p S)
  history : ∀ q r, M.InForce q → r ∈ M.rows q → ∀ o q', r.target ≠ .ps o (.history q')

end Machine

section
variable {P W : Type} {M : Machine} {sem : Sem P W} {deps : List Dep}

theorem CalledAll.split {args : Args} {cur : List (Option Nat)} {cs1 cs2 : List (Phase × Cb)}
    {as : List (Call P)} (h : CalledAll args cur (cs1 ++ cs2) as) :
    ∃ as1 as2, as = as1 ++ as2 ∧ CalledAll args cur cs1 as1 ∧ CalledAll args cur cs2 as2 := by
  obtain ⟨ps, hl, rfl⟩ := h
  rw [List.length_append] at hl
  refine ⟨_, _, ?_, ⟨ps.take cs1.length, by simp; omega, rfl⟩, ⟨ps.drop cs1.length, by simp; omega, rfl⟩⟩
  rw [← List.map_append, ← List.zip_append (by simp; omega), List.take_append_drop]

theorem CalledAll.mem {args : Args} {cur : List (Option Nat)} {cs : List (Phase × Cb)}
    {as : List (Call P)} (h : CalledAll args cur cs as) :
    ∀ c ∈ as, ∃ ph a q, (ph, a) ∈ cs ∧ c = .action ph a args q false cur := by
  obtain ⟨ps, hl, rfl⟩ := h
  intro c hc
  obtain ⟨⟨⟨ph, a⟩, q⟩, hm, rfl⟩ := List.mem_map.1 hc
  exact ⟨ph, a, q, (List.of_mem_zip hm).1, rfl⟩

theorem CalledAll.single {args : Args} {cur : List (Option Nat)} {ph : Phase} {a : Cb}
    {as : List (Call P)} (h : CalledAll args cur [(ph, a)] as) :
    ∃ q, as = [.action ph a args q false cur] := by
  obtain ⟨ps, hl, rfl⟩ := h
  match ps, hl with
  | [q], _ => exact ⟨q, rfl⟩

/-- The first callback is called. -/
theorem called_first {args : Args} {cur : List (Option Nat)} {ph : Phase} {a : Cb}
    {cs : List (Phase × Cb)} {as : List (Call P)}
    (h : CalledAll args cur ((ph, a) :: cs) as ∨ CalledSome args cur ((ph, a) :: cs) as) :
    ∃ q b rest, as = .action ph a args q b cur :: rest ∧
      ∀ c ∈ rest, ∃ ph' a' q' b', (ph', a') ∈ cs ∧ c = .action ph' a' args q' b' cur := by
  rcases h with h | ⟨pre, ph', a', post, tr, q, hcs, h, rfl⟩
  · obtain ⟨as1, as2, rfl, h1, h2⟩ := CalledAll.split (cs1 := [(ph, a)]) (cs2 := cs) h
    obtain ⟨q, rfl⟩ := h1.single
    refine ⟨q, false, as2, rfl, fun c hc => ?_⟩
    obtain ⟨ph', a', q', h1, h2⟩ := h2.mem c hc
    exact ⟨ph', a', q', false, h1, h2⟩
  · cases pre with
    | nil =>
      cases hcs
      obtain ⟨ps, hl, rfl⟩ := h
      exact ⟨q, true, [], rfl, by simp⟩
    | cons x pre =>
      simp only [List.cons_append, List.cons.injEq] at hcs
      obtain ⟨rfl, rfl⟩ := hcs
      obtain ⟨as1, as2, rfl, h1, h2⟩ := CalledAll.split (cs1 := [(ph, a)]) (cs2 := pre) h
      obtain ⟨q', rfl⟩ := h1.single
      refine ⟨q', false, as2 ++ [.action ph' a' args q true cur], rfl, fun c hc => ?_⟩
      rcases List.mem_append.1 hc with hc | hc
      · obtain ⟨ph'', a'', q'', h1, h2⟩ := h2.mem c hc
        exact ⟨ph'', a'', q'', false, by simp [h1], h2⟩
      · rw [List.mem_singleton.1 hc]
        exact ⟨ph', a', q, true, by simp, rfl⟩

variable {d : Dep} {ops : List (Op P)} {s s' : SM P W} {r : Nat} {ev : EventTy} {pl : P}

/-- What happens when row `t` is the first enabled one. -/
theorem FirstEnabled.called (hM : M.Regular) (hm : Moment M sem d ops s) {c : Cand} {t : XRow}
    {dd : Dep} {l : Name × StTy} {gs : List (Call P)} {p1 : P} {w1 : W}
    (he : FirstEnabled M sem (depsOf d ops) r ev pl s c t dd l gs p1 w1)
    (h : (∃ o pl', Handles M sem r ev pl s o pl' s') ∨ ∃ x, HandlesThrow M sem r ev pl s x s') :
    ∃ as, s'.trace = s.trace ++ gs ++ as ∧
      ((∃ o pl', Handles M sem r ev pl s o pl' s') →
        CalledAll (cbArgs M c t l ev dd) s'.cur (M.callbacks t) as) ∧
      (CalledAll (cbArgs M c t l ev dd) s'.cur (M.callbacks t) as ∨
       CalledSome (cbArgs M c t l ev dd) s'.cur (M.callbacks t) as) ∧
      ∃ s1 w, Effect M r t (s.ran w1 gs) s1 ∧ s' = s1.ran w as := by
  have key : ∀ {o pl'}, Handles M sem r ev pl s o pl' s' →
      ∃ as, s'.trace = s.trace ++ gs ++ as ∧
        CalledAll (cbArgs M c t l ev dd) s'.cur (M.callbacks t) as ∧
        ∃ s1 w, Effect M r t (s.ran w1 gs) s1 ∧ s' = s1.ran w as := by
    intro o pl' h
    obtain ⟨_, s1, tr, w, hef, hr, rfl⟩ := (h.run hM hm).first hM he
    obtain ⟨ps, h1, h2⟩ := hr.list
    refine ⟨tr, ?_, ⟨ps, h1, h2⟩, s1, w, hef, rfl⟩
    show s1.trace ++ tr = _
    rw [hef.trace]; rfl
  rcases h with ⟨o, pl', h⟩ | ⟨x, h⟩
  · obtain ⟨as, h1, h2, h3⟩ := key h
    exact ⟨as, h1, fun _ => h2, Or.inl h2, h3⟩
  · by_cases hh : ∃ o pl', Handles M sem r ev pl s o pl' s'
    · obtain ⟨o, pl', hh⟩ := hh
      obtain ⟨as, h1, h2, h3⟩ := key hh
      exact ⟨as, h1, fun _ => h2, Or.inl h2, h3⟩
    · obtain ⟨k, _, hr⟩ := h.run hM hm
      obtain ⟨s1, tr, w, hef, hact, rfl⟩ := hr.first hM he
      obtain ⟨pre, ph, a, post, h1, ps, q, h2, h3⟩ := hact.list
      refine ⟨tr, ?_, fun h => absurd h hh, Or.inr ⟨pre, ph, a, post, _, q, h1, ⟨ps, h2, rfl⟩, h3⟩,
        s1, w, hef, rfl⟩
      show s1.trace ++ tr = _
      rw [hef.trace]; rfl

/-! ## C29: exit actions -/

/-- Exit phase comes first and once. -/
theorem callbacks_exit {t : XRow} (hi : t.internal = false) {a : Cb} (h : M.exitCb t = some a) :
    ∃ cs, M.callbacks t = (Phase.exit, a) :: cs ∧ ∀ x ∈ cs, x.1 ≠ Phase.exit := by
  unfold Machine.callbacks
  rw [if_neg (by simp [hi]), h]
  refine ⟨t.action.toList.map (Phase.action, ·) ++
    (if t.internal then none else M.entryCb t).toList.map (Phase.entry, ·) ++
    (M.initEntryCb t).toList.map (Phase.initEntry, ·), by simp, ?_⟩
  intro x hx
  simp only [List.append_assoc, List.mem_append, List.mem_map] at hx
  rcases hx with ⟨_, _, rfl⟩ | ⟨_, _, rfl⟩ | ⟨_, _, rfl⟩ <;> simp

theorem Machine.PlainLeave.source (hM : M.Regular) {p S : Name} (h : M.PlainLeave p S)
    {ev : EventTy} {cd : Cand} (hc : cd ∈ M.cands ev p (.st S)) {t : XRow} (hr : cd.row? = some t)
    (hi : t.internal = false) : t.source = .st S := by
  have key : ∀ t ∈ M.flat, Machine.sourceLoc t.parent t.source = (p, .st S) → t.source = .st S := by
    intro t ht hl
    obtain ⟨q, r, hq, hrr, rfl⟩ := (Machine.mem_flat_iff hM.ranked).1 ht
    simp only [Machine.ext] at hl ⊢
    cases hs : r.source with
    | st x => rw [hs] at hl; simp only [Machine.sourceLoc, Prod.mk.injEq] at hl; exact hl.2
    | ps o k =>
      rw [hs] at hl
      cases k with
      | initial x =>
        simp only [Machine.sourceLoc, Prod.mk.injEq, StTy.st.injEq] at hl
        obtain ⟨rfl, rfl⟩ := hl
        exact absurd hs (h.initial r hrr o)
      | exit q' x =>
        simp only [Machine.sourceLoc, Prod.mk.injEq, StTy.st.injEq] at hl
        obtain ⟨rfl, rfl⟩ := hl
        exact absurd hs (h.pseudo q r hq hrr o).1
      | direct q' x =>
        simp only [Machine.sourceLoc, Prod.mk.injEq, StTy.st.injEq] at hl
        obtain ⟨rfl, rfl⟩ := hl
        exact absurd hs (h.pseudo q r hq hrr o).2
      | entry q' x => simp [Machine.sourceLoc] at hl
      | history q' => simp [Machine.sourceLoc] at hl
  rcases Machine.mem_cands.1 hc with ⟨rfl, _⟩ | ⟨t', ht', _, hs, _, _, rfl⟩ | ⟨t', ht', _, hl, rfl⟩ |
    ⟨t', ht', _, hl, rfl⟩
  · cases hr
  · cases hr
    obtain ⟨q, r, hq, hrr, rfl⟩ := (Machine.mem_flat_iff hM.ranked).1 ht'
    exact absurd hs (h.composite q r hq hrr)
  · cases hr; exact key _ ht' hl
  · cases hr; rw [Machine.iflat_internal ht'] at hi; cases hi

theorem exit_called {t : XRow} (hi : t.internal = false) {args : Args} {cur : List (Option Nat)}
    {as : List (Call P)} (hcall : CalledAll args cur (M.callbacks t) as ∨
      CalledSome args cur (M.callbacks t) as) {a : Cb} (ha : M.exitCb t = some a) :
    ∃ q b rest, as = .action .exit a args q b cur :: rest ∧ ∀ c ∈ rest, c.phase ≠ some .exit := by
  obtain ⟨cs, hcs, hne⟩ := callbacks_exit hi ha
  rw [hcs] at hcall
  obtain ⟨q, b, rest, h1, h2⟩ := called_first hcall
  refine ⟨q, b, rest, h1, ?_⟩
  intro c hcm
  obtain ⟨ph', a', q', b', hm, rfl⟩ := h2 c hcm
  have := hne _ hm
  simpa [Call.phase] using this

theorem exitCb_of {t : XRow} {x : Name} {a : Cb}
    (hx : t.source = .st x ∨ ∃ o y, t.source = .ps o (.exit x y))
    (ha : (M.decl x).onExit = some a) : M.exitCb t = some a := by
  unfold Machine.exitCb
  rcases hx with hx | ⟨o, y, hx⟩ <;> rw [hx] <;> exact ha

theorem Machine.PlainLeave.src (hM : M.Regular) {p S : Name} (hpl : M.PlainLeave p S)
    {ev : EventTy} {cd : Cand} (hcm : cd ∈ M.cands ev p (.st S)) {t : XRow}
    (hrow : cd.row? = some t) : cd.src = .st S := by
  rcases Machine.mem_cands.1 hcm with ⟨rfl, _⟩ | ⟨t', ht', _, hs, _, _, rfl⟩ | ⟨t', ht', _, hl, rfl⟩ |
    ⟨t', ht', _, hl, rfl⟩
  · cases hrow
  · cases hrow
    obtain ⟨q', r', hq, hrr, rfl⟩ := (Machine.mem_flat_iff hM.ranked).1 ht'
    exact absurd hs (hpl.composite q' r' hq hrr)
  · exact congrArg Prod.snd hl
  · exact congrArg Prod.snd hl

/-- C29, what holds: when an external row fires in a region (whether its callbacks return or
one throws),
* if the row's source is plainly `x`, or an exit pseudo state of `x`, and `x` declares
  `on_exit`, this is called first after the guards, and no other exit action is called;
* in particular this is so for every state left plainly.
Missing: rows whose source is marked initial or is a direct pseudo state, and children of a
composite that is left, where the claim is false (`C29_refuted`). -/
theorem C29_partial (hM : M.Regular) (hm : Moment M sem d ops s) {c : Cand} {t : XRow}
    {dd : Dep} {l : Name × StTy} {gs : List (Call P)} {p1 : P} {w1 : W}
    (he : FirstEnabled M sem (depsOf d ops) r ev pl s c t dd l gs p1 w1) (hi : t.internal = false)
    (h : (∃ o pl', Handles M sem r ev pl s o pl' s') ∨ ∃ x, HandlesThrow M sem r ev pl s x s') :
    (∀ x a, (t.source = .st x ∨ ∃ o y, t.source = .ps o (.exit x y)) →
      (M.decl x).onExit = some a → ∃ args q b rest,
        s'.trace = s.trace ++ gs ++ .action .exit a args q b s'.cur :: rest ∧
        ∀ c ∈ rest, c.phase ≠ some .exit) ∧
    (∀ p S a, At M s r p (.st S) → M.PlainLeave p S → (M.decl S).onExit = some a →
      ∃ args q b rest, s'.trace = s.trace ++ gs ++ .action .exit a args q b s'.cur :: rest ∧
        args.src = .st S ∧ ∀ c ∈ rest, c.phase ≠ some .exit) := by
  obtain ⟨as, htr, _, hcall, _⟩ := he.called hM hm h
  constructor
  · intro x a hx ha
    obtain ⟨q, b, rest, rfl, h2⟩ := exit_called hi hcall (exitCb_of hx ha)
    exact ⟨_, q, b, rest, htr, h2⟩
  · intro p S a hat hpl ha
    obtain ⟨p', st', x, pre, q1, tr1, tr2, v1, ha', hs, _⟩ := he
    obtain ⟨rfl, rfl⟩ := hat.unique hM ha'
    obtain ⟨q, b, rest, rfl, h2⟩ := exit_called hi hcall
      (exitCb_of (Or.inl (hpl.source hM hs.mem hs.row hi)) ha)
    exact ⟨_, q, b, rest, htr, hpl.src hM hs.mem hs.row, h2⟩

/-- C29, the same for whole histories: every history has a chronicle in which it is so
whenever an external row fires.  Missing: as in `C29_partial`. -/
theorem C29_history_partial (hM : M.Regular) {d : Dep} {ops : List (Op P)} {s : SM P W}
    (h : RunTo M sem d ops s) : ∃ is, Chronicle M (depsOf d ops) d s is ∧
      ∀ r ev cd t d' l before after gs as,
        Item.fired r ev cd t d' l before after gs as ∈ is → t.internal = false →
        (∀ x a, (t.source = .st x ∨ ∃ o y, t.source = .ps o (.exit x y)) →
          (M.decl x).onExit = some a → ∃ args q b rest,
            as = .action .exit a args q b after :: rest ∧ ∀ c ∈ rest, c.phase ≠ some .exit) ∧
        (∀ p S a, p ∈ M.composites → StTy.st S ∈ M.states → M.PlainLeave p S →
          before[r]? = some (some (M.comb p (.st S))) → (M.decl S).onExit = some a →
          ∃ args q b rest, as = .action .exit a args q b after :: rest ∧ args.src = .st S ∧
            ∀ c ∈ rest, c.phase ≠ some .exit) := by
  obtain ⟨is, hc⟩ := C41_chronicle hM h
  refine ⟨is, hc, ?_⟩
  intro r ev cd t d' l before after gs as hmem hi
  obtain ⟨i1, i2, his⟩ := List.append_of_mem hmem
  obtain ⟨hra, _, _, hcall⟩ := hc.ok i1 _ i2 his
  constructor
  · intro x a hx ha
    obtain ⟨q, b, rest, h1, h2⟩ := exit_called hi hcall (exitCb_of hx ha)
    exact ⟨_, q, b, rest, h1, h2⟩
  · intro p S a hp hS hpl hb ha
    obtain ⟨p', st', hp', hst', hb', hcm⟩ := hra.place
    rw [hb] at hb'
    simp only [Option.some.injEq] at hb'
    have hinj := hM.comb_inj hp' hst' hb'
    cases hinj
    obtain ⟨q, b, rest, h1, h2⟩ := exit_called hi hcall
      (exitCb_of (Or.inl (hpl.source hM hcm hra.row hi)) ha)
    exact ⟨_, q, b, rest, h1, hpl.src hM hcm hra.row, h2⟩

/-- The claim C29, weakened: if a state with `on_exit` is left, this runs at some time. -/
def C29_claim : Prop :=
  ∀ (M : Machine) (sem : Sem Nat (List Nat)) (d : Dep) (ops : List (Op Nat))
    (s : SM Nat (List Nat)) (p S : Name) (a : Cb) (f : Firing), M.Regular → M.Scoped →
    RunTo M sem d ops s → f ∈ s.log → f.before[f.region]? = some (some (M.comb p (.st S))) →
    (M.decl S).onExit = some a →
    ∃ args q b cur, Call.action .exit a args q b cur ∈ s.trace

namespace Ex

/-- State 1 is marked initial in the row that leaves it. -/
def starredDecls : List Decl :=
  [ { table := some [ row (ini 1) (Ex.ev 0) none (some 10) (.st 2),
                      row (.st 2) (Ex.ev 1) none none (.st 1) ] },
    { onExit := some 30 },
    { onEntry := some 31, onExit := some 32 } ]

def starred : Machine := Machine.ofList starredDecls [1]

theorem starred_regular : starred.Regular := Machine.regular_ofList (by decide +kernel)
theorem starred_scoped : starred.Scoped := Machine.scoped_of_check (by decide +kernel)

end Ex

/-- C29 fails for rows whose source is marked initial (`*state<S>`): `has_exit_action` of the
pseudo state is false. -/
theorem C29_refuted : ¬ C29_claim := by
  intro hall
  have hrun : (Ex.run Ex.starred (Ex.sem fun _ => true) 5 7 [] [.process (Ex.ev 0) 1]).any (fun s =>
      s.log.map (fun f => f.before[f.region]?) == [some (some (Ex.starred.comb 0 (.st 1)))] &&
      s.trace.all (fun c => c.phase != some .exit)) = true := by decide +kernel
  obtain ⟨s, hr, hs⟩ := Ex.exists_run _ _ hrun
  simp only [Bool.and_eq_true, beq_iff_eq, List.all_eq_true] at hs
  obtain ⟨h1, h2⟩ := hs
  match hl : s.log with
  | [] => rw [hl] at h1; cases h1
  | f :: l =>
    rw [hl] at h1
    simp only [List.map_cons, List.cons.injEq] at h1
    obtain ⟨args, q, b, cur, hm⟩ := hall _ _ _ _ s 0 1 30 f Ex.starred_regular Ex.starred_scoped hr
      (by rw [hl]; simp) h1.1 rfl
    have := h2 _ hm
    simp [Call.phase] at this

/-- State 2 of this machine is left plainly: exit action 32 runs, then the row's action. -/
example : Ex.starred.PlainLeave 0 2 ∧
    (Ex.run Ex.starred (Ex.sem fun _ => true) 5 7 [] [.process (Ex.ev 0) 1, .process (Ex.ev 1) 1]).any
      (fun s => s.world == [10, 31, 32]) = true := by
  have hflat : ∀ t ∈ Ex.starred.flat, t.source = Ex.ini 1 ∨ t.source = .st 2 := by decide +kernel
  have hall : ∀ q r, Ex.starred.InForce q → r ∈ Ex.starred.rows q →
      r.source = Ex.ini 1 ∨ r.source = .st 2 := fun q r hq hr =>
    hflat _ ((Machine.mem_flat_iff Ex.starred_regular.ranked).2 ⟨q, r, hq, hr, rfl⟩)
  refine ⟨⟨?_, ?_, ?_⟩, by decide +kernel⟩
  · intro r hr o
    rcases hall 0 r .refl hr with h | h <;> rw [h] <;> simp [Ex.ini]
  · intro q r hq hr o
    rcases hall q r hq hr with h | h <;> rw [h] <;> simp [Ex.ini]
  · intro q r hq hr
    rcases hall q r hq hr with h | h <;> rw [h] <;> simp [Ex.ini]

/-! ## C30: entry actions -/

theorem callbacks_entry {t : XRow} (hi : t.internal = false) :
    ∃ cs, M.callbacks t = cs ++ (M.entryCb t).toList.map (Phase.entry, ·)
        ++ (M.initEntryCb t).toList.map (Phase.initEntry, ·) ∧
      ∀ x ∈ cs, x.1 = Phase.exit ∨ x.1 = Phase.action := by
  unfold Machine.callbacks
  rw [if_neg (by simp [hi]), if_neg (by simp [hi])]
  refine ⟨_, rfl, ?_⟩
  intro x hx
  simp only [List.mem_append, List.mem_map] at hx
  rcases hx with ⟨_, _, rfl⟩ | ⟨_, _, rfl⟩ <;> simp

/-- In `as`, called with the regions at `after`, the entry actions of row `t`, fired in region
`r`, are where they belong:
* if its target is plainly `x` and `x` declares `on_entry`, this is called once, after exit
  and row actions;
* if `x` is a composite, then the `on_entry` of its first initial state is called last;
* if the region is now in a state entered plainly, this state's `on_entry` is called once. -/
structure EntriesCalled (M : Machine) (r : Nat) (t : XRow) (after : List (Option Nat))
    (as : List (Call P)) : Prop where
  target : ∀ x a, t.target = .st x → (M.decl x).onEntry = some a → ∃ as1 as2 args q,
    as = as1 ++ .action .entry a args q false after :: as2 ∧
    (∀ c ∈ as1, c.phase = some .exit ∨ c.phase = some .action) ∧
    (∀ c ∈ as2, c.phase = some .initEntry)
  composite : ∀ x i a, t.target = .st x → M.isComposite x = true →
    (M.declaredInitials x).head? = some i → (M.decl i).onEntry = some a →
    ∃ as1 args q, as = as1 ++ [.action .initEntry a args q false after] ∧
      ∀ c ∈ as1, c.phase ≠ some .initEntry
  entered : ∀ p S a, p ∈ M.composites → StTy.st S ∈ M.states → M.PlainEnter p S →
    after[r]? = some (some (M.comb p (.st S))) → (M.decl S).onEntry = some a →
    ∃ ph as1 as2 args q, (ph = .entry ∨ ph = .initEntry) ∧
      as = as1 ++ .action ph a args q false after :: as2 ∧
      (∀ c ∈ as1, c.phase ≠ some ph) ∧
      (∀ c ∈ as2, c.phase = some .initEntry ∧ ph = .entry)

theorem entry_called (hM : M.Regular) {t : XRow} (hi : t.internal = false) (htf : t ∈ M.flat)
    {args : Args} {before after : List (Option Nat)} {as : List (Call P)}
    (hcall : CalledAll args after (M.callbacks t) as) {r : Nat} (hlt : r < before.length)
    {mem : Name → Nat → Nat → Prop} (hlv : Leaves M mem t r before after) :
    EntriesCalled M r t after as := by
  obtain ⟨cs, hcs, hph⟩ := callbacks_entry (M := M) hi
  rw [hcs] at hcall
  obtain ⟨as12, as3, rfl, h12, h3⟩ := hcall.split
  obtain ⟨as1, as2, rfl, h1, h2⟩ := h12.split
  have ph1 : ∀ c ∈ as1, c.phase = some .exit ∨ c.phase = some .action := by
    intro c hc
    obtain ⟨ph, a, q, hm, rfl⟩ := h1.mem c hc
    simpa [Call.phase] using hph _ hm
  have ph2 : ∀ c ∈ as2, c.phase = some .entry := by
    intro c hc
    obtain ⟨ph, a, q, hm, rfl⟩ := h2.mem c hc
    obtain ⟨_, _, hx⟩ := List.mem_map.1 hm
    cases hx; rfl
  have ph3 : ∀ c ∈ as3, c.phase = some .initEntry := by
    intro c hc
    obtain ⟨ph, a, q, hm, rfl⟩ := h3.mem c hc
    obtain ⟨_, _, hx⟩ := List.mem_map.1 hm
    cases hx; rfl
  have A : ∀ a, M.entryCb t = some a → ∃ q,
      as2 = [.action .entry a args q false after] := by
    intro a ha
    rw [ha] at h2
    exact h2.single
  have B : ∀ a, M.initEntryCb t = some a → ∃ q,
      as3 = [.action .initEntry a args q false after] := by
    intro a ha
    rw [ha] at h3
    exact h3.single
  have A' : ∀ x a, t.target = .st x → (M.decl x).onEntry = some a → ∃ as1' as2' args q,
      as1 ++ as2 ++ as3 = as1' ++ .action .entry a args q false after :: as2' ∧
      (∀ c ∈ as1', c.phase = some .exit ∨ c.phase = some .action) ∧
      (∀ c ∈ as2', c.phase = some .initEntry) := by
    intro x a hx ha
    obtain ⟨q, rfl⟩ := A a (by unfold Machine.entryCb; rw [hx]; exact ha)
    exact ⟨as1, as3, _, q, by rw [List.append_assoc]; rfl, ph1, ph3⟩
  have B' : ∀ x i a, t.target = .st x → M.isComposite x = true →
      (M.declaredInitials x).head? = some i → (M.decl i).onEntry = some a →
      ∃ as1' args q, as1 ++ as2 ++ as3 = as1' ++ [.action .initEntry a args q false after] ∧
        ∀ c ∈ as1', c.phase ≠ some .initEntry := by
    intro x i a hx hcomp hhd ha
    obtain ⟨q, rfl⟩ := B a (by
      unfold Machine.initEntryCb
      rw [hx]
      simp only [hcomp, if_true, hhd]
      exact ha)
    refine ⟨as1 ++ as2, _, q, rfl, ?_⟩
    intro c hc
    rcases List.mem_append.1 hc with hc | hc
    · rcases ph1 c hc with h | h <;> simp [h]
    · simp [ph2 c hc]
  refine ⟨A', B', ?_⟩
  intro p S a hp hSm hpl haft ha
  -- the row leads to `(p, S)`
  obtain ⟨q0, r0, hq0, hr0, rfl⟩ := (Machine.mem_flat_iff hM.ranked).1 htf
  unfold Leaves at hlv
  rw [if_neg (by simp [hi])] at hlv
  obtain ⟨c, hcur, _, hn⟩ := hlv
  obtain ⟨l', hl', rfl⟩ := hn fun o q' => hpl.history q0 r0 hq0 hr0 o q'
  rw [hcur, List.getElem?_set_self hlt] at haft
  simp only [Option.some.injEq] at haft
  have hinj := hM.comb_inj hp hSm haft
  have hloc : M.targetLoc (Machine.ext q0 r0) = some (p, .st S) := hl'.trans (congrArg some hinj)
  unfold Machine.targetLoc at hloc
  cases htgt : r0.target with
  | st x =>
    have htgt' : (Machine.ext q0 r0).target = .st x := htgt
    rw [htgt'] at hloc
    simp only at hloc
    split at hloc
    · rename_i hcomp
      simp only [Option.map_eq_some_iff, Prod.mk.injEq, StTy.st.injEq] at hloc
      obtain ⟨i, hhd, rfl, rfl⟩ := hloc
      obtain ⟨as1', args, q, h1, h2⟩ := B' x i a htgt hcomp hhd ha
      exact ⟨.initEntry, as1', [], args, q, Or.inr rfl, by rw [h1], h2, by simp⟩
    · simp only [Option.some.injEq, Prod.mk.injEq, StTy.st.injEq] at hloc
      obtain ⟨_, rfl⟩ := hloc
      obtain ⟨as1', as2', args, q, h1, h2, h3⟩ := A' x a htgt ha
      refine ⟨.entry, as1', as2', args, q, Or.inl rfl, h1, ?_, fun c hc => ⟨h3 c hc, rfl⟩⟩
      intro c hc
      rcases h2 c hc with h | h <;> simp [h]
  | ps o k =>
    have htgt' : (Machine.ext q0 r0).target = .ps o k := htgt
    rw [htgt'] at hloc
    cases k with
    | initial x =>
      simp only [Option.some.injEq, Prod.mk.injEq, StTy.st.injEq] at hloc
      obtain ⟨hpq, rfl⟩ := hloc
      have hpq : q0 = p := hpq
      subst hpq
      exact absurd htgt (hpl.initial r0 hr0 o)
    | exit q' x => simp at hloc
    | entry q' x =>
      simp only [Option.some.injEq, Prod.mk.injEq, StTy.st.injEq] at hloc
      obtain ⟨rfl, rfl⟩ := hloc
      exact absurd htgt (hpl.pseudo q0 r0 hq0 hr0 o).1
    | direct q' x =>
      simp only [Option.some.injEq, Prod.mk.injEq, StTy.st.injEq] at hloc
      obtain ⟨rfl, rfl⟩ := hloc
      exact absurd htgt (hpl.pseudo q0 r0 hq0 hr0 o).2
    | history q' => exact absurd htgt (hpl.history q0 r0 hq0 hr0 o q')

/-- C30, what holds: when an external row fires in a region and none of its callbacks throws,
the entry actions are called where they belong.  Missing: entry, direct, history and initial
pseudo state targets, for which the claim is false (`C30_refuted`). -/
theorem C30_partial (hM : M.Regular) (hm : Moment M sem d ops s) {c : Cand} {t : XRow}
    {dd : Dep} {l : Name × StTy} {gs : List (Call P)} {p1 : P} {w1 : W}
    (he : FirstEnabled M sem (depsOf d ops) r ev pl s c t dd l gs p1 w1) (hi : t.internal = false)
    {o : RegionOut} {pl' : P} (h : Handles M sem r ev pl s o pl' s') :
    ∃ as, s'.trace = s.trace ++ gs ++ as ∧ EntriesCalled M r t s'.cur as := by
  obtain ⟨as, htr, hall, _, s1, w, hef, hs'⟩ := he.called hM hm (Or.inl ⟨_, _, h⟩)
  refine ⟨as, htr, ?_⟩
  obtain ⟨p', st', x, pre, q1, tr1, tr2, v1, ha', hs, _⟩ := he
  unfold Effect at hef
  rw [if_neg (by simp [hi])] at hef
  refine entry_called hM hi (Explained.row_mem (mem := fun _ _ _ => True) (f := ⟨0, [], [], 0⟩)
    hs.mem hs.row hi) (hall ⟨_, _, h⟩) hef.slot (mem := fun p r c => Remembers M s1 p r c) ?_
  unfold Leaves
  rw [if_neg (by simp [hi]), hs']
  exact hef.dest

/-- C30, the same for whole histories: every history has a chronicle in which it is so
whenever an external row fires and none of its callbacks throws.  Missing: as in
`C30_partial`. -/
theorem C30_history_partial (hM : M.Regular) {d : Dep} {ops : List (Op P)} {s : SM P W}
    (h : RunTo M sem d ops s) : ∃ is, Chronicle M (depsOf d ops) d s is ∧
      ∀ r ev cd t d' l before after gs as,
        Item.fired r ev cd t d' l before after gs as ∈ is → t.internal = false →
        CalledSome (cbArgs M cd t l ev d') after (M.callbacks t) as ∨
        EntriesCalled M r t after as := by
  obtain ⟨is, hc⟩ := C41_chronicle hM h
  refine ⟨is, hc, ?_⟩
  intro r ev cd t d' l before after gs as hmem hi
  obtain ⟨i1, i2, his⟩ := List.append_of_mem hmem
  obtain ⟨hra, _, hlv, hcall⟩ := hc.ok i1 _ i2 his
  rcases hcall with hcall | hcall
  swap
  · exact Or.inl hcall
  right
  obtain ⟨_, _, _, _, hb, hcm⟩ := hra.place
  exact entry_called hM hi (Explained.row_mem (mem := fun _ _ _ => True) (f := ⟨0, [], [], 0⟩)
    hcm hra.row hi) hcall (List.getElem?_eq_some_iff.1 hb).1 hlv

/-- The claim C30, weakened: if a state with `on_entry` is entered, this runs at some time. -/
def C30_claim : Prop :=
  ∀ (M : Machine) (sem : Sem Nat (List Nat)) (d : Dep) (ops : List (Op Nat))
    (s : SM Nat (List Nat)) (p S : Name) (a : Cb) (f : Firing), M.Regular → M.Scoped →
    (∀ a args q w, ∃ q' w', sem.action a args q w = .ok () q' w') →
    RunTo M sem d ops s → f ∈ s.log → f.after[f.region]? = some (some (M.comb p (.st S))) →
    (M.decl S).onEntry = some a →
    ∃ ph args q b cur, Call.action ph a args q b cur ∈ s.trace

/-- C30 fails for history targets (and in the same way for entry and direct targets):
`has_entry_action` of the pseudo state is false, and no entry action of the state it denotes
is looked for.  The demo machine enters `CA`, which has entry action 24, calling nothing. -/
theorem C30_refuted : ¬ C30_claim := by
  intro hall
  have hrun : (Ex.run Ex.demo (Ex.sem fun _ => true) 5 7 [] [.process (Ex.ev 4) 1]).any (fun s =>
      s.log.map (fun f => f.after[f.region]?) == [some (some (Ex.demo.comb Ex.Comp (.st Ex.CA)))] &&
      s.trace == []) = true := by decide +kernel
  obtain ⟨s, hr, hs⟩ := Ex.exists_run _ _ hrun
  simp only [Bool.and_eq_true, beq_iff_eq] at hs
  obtain ⟨h1, h2⟩ := hs
  match hl : s.log with
  | [] => rw [hl] at h1; cases h1
  | f :: l =>
    rw [hl] at h1
    simp only [List.map_cons, List.cons.injEq] at h1
    obtain ⟨ph, args, q, b, cur, hm⟩ := hall _ _ _ _ s Ex.Comp Ex.CA 24 f Ex.demo_regular
      Ex.demo_scoped (fun a args q w => ⟨q, w ++ [a], rfl⟩) hr (by rw [hl]; simp) h1.1 rfl
    rw [h2] at hm
    cases hm

/-- State 2 of this machine is entered plainly. -/
example : Ex.starred.PlainEnter 0 2 := by
  have hflat : ∀ t ∈ Ex.starred.flat, t.target = .st 1 ∨ t.target = .st 2 := by decide +kernel
  have hall : ∀ q r, Ex.starred.InForce q → r ∈ Ex.starred.rows q →
      r.target = .st 1 ∨ r.target = .st 2 := fun q r hq hr =>
    hflat _ ((Machine.mem_flat_iff Ex.starred_regular.ranked).2 ⟨q, r, hq, hr, rfl⟩)
  refine ⟨?_, ?_, ?_⟩
  · intro r hr o
    rcases hall 0 r .refl hr with h | h <;> rw [h] <;> simp
  · intro q r hq hr o
    rcases hall q r hq hr with h | h <;> rw [h] <;> simp
  · intro q r hq hr o q'
    rcases hall q r hq hr with h | h <;> rw [h] <;> simp

/-! ## C33: entering composites -/

/-- C33, what holds: when a row with plain composite target `x` fires in region `r` (whether
its callbacks return or one throws), region `r` is at the first initial state of `x` and no
other region has moved; and if the machine has composites with several regions, as many
regions are active as the composite region 0 is in now has (for `r = 0` that is `x`).
Missing: the other regions of `x`, which are not set (`C33_refuted`). -/
theorem C33_partial (hM : M.Regular) (hm : Moment M sem d ops s) {c : Cand} {t : XRow}
    {dd : Dep} {l : Name × StTy} {gs : List (Call P)} {p1 : P} {w1 : W}
    (he : FirstEnabled M sem (depsOf d ops) r ev pl s c t dd l gs p1 w1) (hi : t.internal = false)
    (h : (∃ o pl', Handles M sem r ev pl s o pl' s') ∨ ∃ x, HandlesThrow M sem r ev pl s x s')
    {x : Name} (hx : t.target = .st x) (hcomp : M.isComposite x = true) :
    ∃ i, (M.declaredInitials x).head? = some i ∧ At M s' r x (.st i) ∧
      (∀ k, k ≠ r → s'.cur[k]? = s.cur[k]?) ∧
      (M.orthogonal = true → ∃ p st, At M s' 0 p st ∧
        activeRegions M s' = (M.declaredInitials p).length) := by
  obtain ⟨as, _, _, _, s1, w, hef, rfl⟩ := he.called hM hm h
  obtain ⟨p', st', x', pre, q1, tr1, tr2, v1, ha', hs, _⟩ := he
  unfold Effect at hef
  rw [if_neg (by simp [hi])] at hef
  have htf : t ∈ M.flat := Explained.row_mem (mem := fun _ _ _ => True) (f := ⟨0, [], [], 0⟩)
    hs.mem hs.row hi
  obtain ⟨c1, hcur, _, hn⟩ := hef.dest
  obtain ⟨l', hl', rfl⟩ := hn fun o q' => by rw [hx]; simp
  have hst := hM.targetLoc_state (List.mem_append_left _ htf) hl'
  unfold Machine.targetLoc at hl'
  rw [hx] at hl'
  simp only [hcomp, if_true, Option.map_eq_some_iff] at hl'
  obtain ⟨i, hhd, rfl⟩ := hl'
  refine ⟨i, hhd, ⟨?_, hst, ?_⟩, ?_, ?_⟩
  · obtain ⟨q0, r0, hq0, hr0, rfl⟩ := (Machine.mem_flat_iff hM.ranked).1 htf
    refine (Machine.mem_parents_iff hM.ranked).2 ⟨.sub hq0 hr0 ⟨hcomp, Or.inl hx⟩, ?_⟩
    intro hnil
    simp [Machine.declaredInitials, hnil] at hhd
  · show s1.cur[r]? = _
    rw [hcur, List.getElem?_set_self hef.slot]
  · intro k hk
    show s1.cur[k]? = _
    rw [hcur, List.getElem?_set_ne (Ne.symm hk)]
    rfl
  · intro ho
    rcases hef.regions with ⟨h1, _⟩ | ⟨_, p, st, h1, h2⟩
    · rw [ho] at h1; cases h1
    · exact ⟨p, st, h1, by unfold activeRegions; rw [if_pos ho]; exact h2⟩

/-- C33, the same for whole histories: when a row with plain composite target `x` fires in region `r`, region
`r` is at the first initial state of `x` before any callback runs, and no other region moves.
So if `x` has one initial state and the row fires in region 0, `x`'s only region is at its
initial state.  The number of active regions follows region 0.  Missing: as in `C33_partial`. -/
theorem C33_history_partial (hM : M.Regular) {d : Dep} {ops : List (Op P)} {s : SM P W}
    (h : RunTo M sem d ops s) :
    (∃ is, Chronicle M (depsOf d ops) d s is ∧
      ∀ r ev cd t d' l before after gs as,
        Item.fired r ev cd t d' l before after gs as ∈ is → t.internal = false →
        ∀ x, t.target = .st x → M.isComposite x = true →
          ∃ i, (M.declaredInitials x).head? = some i ∧
            after[r]? = some (some (M.comb x (.st i))) ∧
            (∀ k, k ≠ r → after[k]? = before[k]?)) ∧
    ((∀ r p st, Op.set r p st ∉ ops) → RegionsMatch M s) := by
  refine ⟨?_, (C34_regions hM).2.1 d ops s h⟩
  obtain ⟨is, hc⟩ := C41_chronicle hM h
  refine ⟨is, hc, ?_⟩
  intro r ev cd t d' l before after gs as hmem hi x hx hcomp
  obtain ⟨i1, i2, his⟩ := List.append_of_mem hmem
  obtain ⟨hra, _, hlv, _⟩ := hc.ok i1 _ i2 his
  unfold Leaves at hlv
  rw [if_neg (by simp [hi])] at hlv
  obtain ⟨c, hcur, _, hn⟩ := hlv
  obtain ⟨l', hl', rfl⟩ := hn fun o q' => by rw [hx]; simp
  unfold Machine.targetLoc at hl'
  rw [hx] at hl'
  simp only [hcomp, if_true, Option.map_eq_some_iff] at hl'
  obtain ⟨i, hhd, rfl⟩ := hl'
  have hlt : r < before.length := by
    obtain ⟨_, _, _, _, hb, _⟩ := hra.place
    exact (List.getElem?_eq_some_iff.1 hb).1
  refine ⟨i, hhd, by rw [hcur, List.getElem?_set_self hlt], ?_⟩
  intro k hk
  rw [hcur, List.getElem?_set_ne (Ne.symm hk)]

/-- The claim C33, weakened: if the last move brought region 0 from outside of composite `p`
to the first initial state of `p`, region `i` is at `p`'s `i`-th initial state. -/
def C33_claim : Prop :=
  ∀ (M : Machine) (sem : Sem Nat (List Nat)) (d : Dep) (ops : List (Op Nat))
    (s : SM Nat (List Nat)) (p q S i0 : Name) (l : List Firing) (f : Firing), M.Regular →
    M.Scoped → RunTo M sem d ops s → s.log = l ++ [f] → f.region = 0 → q ≠ p →
    f.before[0]? = some (some (M.comb q (.st S))) →
    f.after[0]? = some (some (M.comb p (.st i0))) → (M.declaredInitials p).head? = some i0 →
    ∀ (k : Nat) (i : Name), (M.declaredInitials p)[k]? = some i → s.cur[k]? = some (some (M.comb p (.st i)))

/-- C33 fails: `update_current_state` sets one region only.  Composite 5 has regions starting
in 6 and 8; after entering it, region 1 is where it was, in state 3 of the root. -/
theorem C33_refuted : ¬ C33_claim := by
  intro hall
  have hrun : (Ex.run Ex.orth (Ex.sem fun _ => true) 5 7 [] [.process (Ex.ev 2) 1]).any (fun s =>
      s.log.map (fun f => (f.region, f.before[0]?, f.after[0]?)) ==
        [(0, some (some (Ex.orth.comb 0 (.st 1))), some (some (Ex.orth.comb 5 (.st 6))))] &&
      s.cur[1]? == some (some (Ex.orth.comb 0 (.st 3))) && activeRegions Ex.orth s == 2 &&
      Ex.orth.comb 0 (.st 3) != Ex.orth.comb 5 (.st 8)) = true := by decide +kernel
  obtain ⟨s, hr, hs⟩ := Ex.exists_run _ _ hrun
  simp only [Bool.and_eq_true, beq_iff_eq, bne_iff_ne] at hs
  obtain ⟨⟨⟨h1, h2⟩, _⟩, h4⟩ := hs
  match hl : s.log with
  | [] => rw [hl] at h1; cases h1
  | f :: g :: l => rw [hl] at h1; simp at h1
  | [f] =>
    rw [hl] at h1
    simp only [List.map_cons, List.map_nil, List.cons.injEq, Prod.mk.injEq, and_true] at h1
    obtain ⟨ha, hb, hc⟩ := h1
    have := hall _ _ _ _ s 5 0 1 6 [] f Ex.orth_regular Ex.orth_scoped hr hl ha (by decide) hb hc
      (by decide +kernel) 1 8 (by decide +kernel)
    rw [h2] at this
    simp only [Option.some.injEq] at this
    exact h4 this

end
end Hsm
