import Verif.PropsReentrant

/-!
# Which callbacks are called when callbacks call the machine (C66)

C41 accounts for every callback invocation of machines whose callbacks leave the machine alone.
Here callbacks may call `process_event`, `set` and `set_dependency` of the machine they run in, to
any depth.
-/

namespace Hsm
section
variable {P W : Type} {M : Machine} {sem : SemR P W} {d : Dep}

/-- Call `c` is one the declarations of `M` provide for:
* a guard is that of a row that applies, for the event passed, at some location of the machine,
  called with the event, the states of this row and a dependency that the machine was given (`D`);
  if `exact`, then some region is at this location when the guard is called;
* an action is one of the callbacks of such a row, with the arguments of such a row;
* the handler is the one of the root, for a declared event, with the state region 0 is in and the
  dependency `d` of the constructor. -/
inductive Declared (M : Machine) (D : Dep → Prop) (d : Dep) (exact : Prop) : Call P → Prop
  | guard {p : Name} {st : StTy} {ev : EventTy} {cd : Cand} {t : XRow} {l : Name × StTy} {d' : Dep}
      {g : Cb} {q : P} {b : Option Bool} {cur : List (Option Nat)} (hp : p ∈ M.composites)
      (hst : st ∈ M.states) (hcd : cd ∈ M.cands ev p st) (hrow : cd.row? = some t)
      (hl : M.targetLoc t = some l) (hd : D d') (hg : t.guard = some g)
      (hat : exact → ∃ r : Nat, cur[r]? = some (some (M.comb p st))) :
      Declared M D d exact (.guard g (rowGuardArgs cd t l ev d') q b cur)
  | action {p : Name} {st : StTy} {ev : EventTy} {cd : Cand} {t : XRow} {l : Name × StTy} {d' : Dep}
      {ph : Phase} {a : Cb} {q : P} {b : Bool} {cur : List (Option Nat)} (hp : p ∈ M.composites)
      (hst : st ∈ M.states) (hcd : cd ∈ M.cands ev p st) (hrow : cd.row? = some t)
      (hl : M.targetLoc t = some l) (hd : D d') (ha : (ph, a) ∈ M.callbacks t) :
      Declared M D d exact (.action ph a (cbArgs M cd t l ev d') q b cur)
  | handler {ev : EventTy} {h : Cb} {p : Name} {st : StTy} {q : P} {b : Bool}
      {cur : List (Option Nat)} (hev : ev ∈ M.events) (hh : (M.decl M.root).handler = some h)
      (hp : p ∈ M.composites) (hst : st ∈ M.states) (hc : cur[0]? = some (some (M.comb p st))) :
      Declared M D d exact (.handler h ev st d q b cur)

/-- Calls of callbacks that give the machine only dependencies of which `D` holds. -/
def GivesD (M : Machine) (D : Dep → Prop) (op : Op P) : Prop :=
  OpOk M op ∧ ∀ d', op = .setDependency d' → D d'

/-- The invariant behind C66. -/
structure Supplied (M : Machine) (D : Dep → Prop) (d : Dep) (exact : Prop) (s : SM P W) : Prop where
  land : Landing M s
  table : ∃ deps, (∀ d' ∈ deps, D d') ∧ TableIs M deps s
  handlers : HandlersAre M d s
  calls : ∀ c ∈ s.trace, Declared M D d exact c

/-- An entry of a candidate for `ev`; with a dependency of which `D` holds; where region `r` is, if
`exact`. -/
def From (M : Machine) (D : Dep → Prop) (exact : Prop) (ev : EventTy) (r : Nat) (e : Entry)
    (s : SM P W) : Prop :=
  ∃ p st d cd, p ∈ M.composites ∧ st ∈ M.states ∧
    (exact → s.cur[r]? = some (some (M.comb p st))) ∧ cd ∈ M.cands ev p st ∧ D d ∧
    M.entryOfCand d cd = some e

variable {D : Dep → Prop} {exact : Prop}

theorem From.somewhere {ev : EventTy} {r : Nat} {e : Entry} {s : SM P W}
    (h : From M D exact ev r e s) : Somewhere M ev e := by
  obtain ⟨p, st, d, cd, hp, hst, _, hcd, _, hen⟩ := h
  exact ⟨p, st, d, cd, hp, hst, hcd, hen⟩

theorem Supplied.of_eq {s s' : SM P W} (h : Supplied M D d exact s) (h1 : s'.cur = s.cur)
    (h2 : s'.initial = s.initial) (h3 : s'.hist = s.hist) (h4 : s'.table = s.table)
    (h5 : s'.handlers = s.handlers) (h6 : s'.log = s.log) (h7 : s'.trace = s.trace) :
    Supplied M D d exact s' where
  land := h.land.of_eq h1 h2 h3 h4 h5 h6 h7
  table := by unfold TableIs; rw [h4]; exact h.table
  handlers := by unfold HandlersAre; rw [h5]; exact h.handlers
  calls := by rw [h7]; exact h.calls

theorem entryOfCand_exec {e : Entry} {x : Exec}
    {cd : Cand} {d' : Dep} (hen : M.entryOfCand d' cd = some e) (hx : e.tr = some x) :
    ∃ t l, cd.row? = some t ∧ M.targetLoc t = some l ∧ x.internal = t.internal ∧
      x.action = M.toRun t ∧ x.guard = t.guard ∧ x.src = cd.src ∧ x.dst = l.2 ∧ x.dep = d' := by
  cases cd with
  | defer => cases hen; cases hx
  | row t =>
    simp only [Machine.entryOfCand, Option.map_eq_some_iff] at hen
    obtain ⟨l, hl, rfl⟩ := hen
    cases hx
    exact ⟨t, l, rfl, hl, rfl, rfl, rfl, rfl, rfl, rfl⟩
  | exit t q =>
    simp only [Machine.entryOfCand, Option.map_eq_some_iff] at hen
    obtain ⟨l, hl, rfl⟩ := hen
    cases hx
    exact ⟨t, l, rfl, hl, rfl, rfl, rfl, rfl, rfl, rfl⟩

theorem By.declared (hM : M.Regular) {V : EventTy → Prop} {c : Call P} {s' : SM P W}
    (h : By M sem (Supplied M D d exact (W := W)) (From M D exact) V c s') : Declared M D d exact c := by
  cases h with
  | guard hs he hx hg q b _ =>
    obtain ⟨p, st, d', cd, hp, hst, hat, hcd, hd, hen⟩ := he
    obtain ⟨t, l, hrow, hl, hi, _, hgd, hsrc, hdst, hdep⟩ := entryOfCand_exec hen hx
    rw [hi, hsrc, hdst, hdep]
    rw [hgd] at hg
    exact .guard hp hst hcd hrow hl hd hg (fun hq => ⟨_, hat hq⟩)
  | @action _ _ _ _ ev _ _ x _ _ _ _ _ _ hs he _ _ hx _ hcs _ _ _ _ q b cur =>
    obtain ⟨p, st, d', cd, hp, hst, hat, hcd, hd, hen⟩ := he
    obtain ⟨t, l, hrow, hl, hi, hac, _, hsrc, hdst, hdep⟩ := entryOfCand_exec hen hx
    have hargs : actionArgs M x ev = cbArgs M cd t l ev d' := by
      unfold actionArgs cbArgs
      rw [hi, hsrc, hdst, hdep, Machine.defaultCtor_eq]
      cases M.selfMade l.2 <;> cases t.internal <;> rfl
    rw [hargs]
    refine .action hp hst hcd hrow hl hd ?_
    rw [← Machine.toRun_cbs, ← hac, hcs]
    simp
  | handler hs hev _ hh hc hlt hd q b _ =>
    obtain ⟨p, st, hp, hst, rfl⟩ := hM.comb_surj hlt
    rw [hs.handlers (by rw [hh]; rfl) _ hev p hp st hst] at hd
    cases hd
    exact .handler hev hh hp hst hc

theorem Keeps.supplied (hM : M.Regular) (hS : M.Scoped) (hg : sem.Good True (GivesD M D))
    (hq : exact → sem.QuietGuards) :
    Keeps M sem (fun _ => True) (GivesD M D) (fun _ => True) (Supplied M D d exact)
      (From M D exact) where
  toRuns := .of hg (fun _ _ h => h.of_eq rfl rfl rfl rfl rfl rfl rfl)
  traced := by
    intro s0 s c h0 h hc hb
    refine ⟨h0.land.traced h.land hc, h.table, h.handlers, ?_⟩
    intro c' hc'
    rcases List.mem_append.1 hc' with hc' | hc'
    · exact h.calls c' hc'
    · rw [List.mem_singleton.1 hc']
      exact hb.declared hM
  obj := fun _ _ _ _ => trivial
  opOk := fun _ h => h.1
  regions := fun _ _ _ _ => trivial
  look := fun _ _ _ _ => Or.inl fun _ => trivial
  entry := by
    intro s ev r c e h _ hc hlt he _
    obtain ⟨p, st, hp, hst, rfl⟩ := hM.comb_surj hlt
    obtain ⟨deps, hD, ht⟩ := h.table
    rw [ht ev p st hp hst] at he
    obtain ⟨d', hd', cd, hcd, hen⟩ := Machine.mem_entries.1 he
    exact ⟨p, st, d', cd, hp, hst, fun _ => hc, hcd, hD d' hd', hen⟩
  null := fun _ _ _ _ _ _ _ _ => trivial
  stay := by
    intro call _ s s' x ev p bp r e _ h he
    obtain ⟨p', st, d', cd, hp, hst, hat, h5⟩ := he
    refine ⟨p', st, d', cd, hp, hst, fun hex => ?_, h5⟩
    obtain ⟨w, tr, rfl⟩ := execGuard_quiet (hq hex) h
    exact hat hex
  iter := fun _ _ _ _ _ _ _ _ _ _ _ _ => trivial
  move := by
    intro s ev r e x h _ he _ hx _
    replace hx : e.tr ≠ none := by rw [hx]; simp
    have hL := h.land.update (r := r) hM hS he.somewhere hx
    cases hu : updateState M r e s with
    | ok a s' =>
      rw [hu] at hL
      rcases updateState_ok hu with ⟨_, rfl⟩ | hm
      · exact h
      · refine ⟨hL, ?_, ?_, by rw [hm.trace]; exact h.calls⟩
        · unfold TableIs; rw [hm.table]; exact h.table
        · unfold HandlersAre; rw [hm.handlers]; exact h.handlers
    | throw x s' => exact absurd hu updateState_throw
    | ub u => trivial
    | timeout => trivial
  push := fun _ _ _ _ _ h _ _ => h.of_eq rfl rfl rfl rfl rfl rfl rfl
  pop := fun _ _ _ _ h _ => h.of_eq rfl rfl rfl rfl rfl rfl rfl
  handler := fun _ _ _ _ _ => fun _ => Or.inl fun _ => trivial
  set := fun _ _ _ _ hq h _ => ⟨h.land.set hM hq.1.place.1 hq.1.place.2, h.table, h.handlers, h.calls⟩
  dep := by
    intro s d' hq h
    have hL := h.land.dep hM d'
    have hD := hq.2 d' rfl
    unfold setDependency at hL ⊢
    cases hT : M.fill d' s.table with
    | error u => trivial
    | ok T =>
      rw [hT] at hL
      refine ⟨hL, ?_, h.handlers, h.calls⟩
      obtain ⟨deps, hd, ht⟩ := h.table
      refine ⟨d' :: deps, ?_, ?_⟩
      · intro x hx
        rcases List.mem_cons.1 hx with rfl | hx
        · exact hD
        · exact hd x hx
      · intro ev p st hp hst
        show T ev (M.comb p st) = _
        rw [Machine.fill_spec hM hT ev hp hst, ht ev p st hp hst]
        rfl

theorem RunToR.supplied (hM : M.Regular) (hS : M.Scoped) (hg : sem.Good True (GivesD M D))
    (hq : exact → sem.QuietGuards) {ops : List (Op P)} {s : SM P W} (h : RunToR M sem d ops s)
    (hD : ∀ d' ∈ depsOf d ops, D d') : Supplied M D d exact s := by
  have hk := Keeps.supplied (d := d) hM hS hg hq
  induction h with
  | init h =>
    obtain ⟨_, ⟨H, hH, hHs⟩, hT, _, _, _, _, _, htr, _⟩ := construct_ok h
    have ht := (RunTo.init (sem := sem.still) h).tables hM
    exact ⟨landing_construct hM h, ⟨_, hD, ht.1⟩, ht.2, by rw [htr]; simp⟩
  | @ok s s' ops op fuel n b hr hop h ih =>
    have := hk.step fuel n op s ⟨hop, fun d' he => hD d' (by subst he; simp [depsOf])⟩
      (ih fun d' hd' => hD d' (by
        simp only [depsOf, List.filterMap_append, List.reverse_append, List.append_assoc,
          List.mem_append] at hd' ⊢
        exact Or.inr hd'))
    rw [h] at this
    exact this
  | @throw s s' ops op fuel n x hr hop h ih =>
    have := hk.step fuel n op s ⟨hop, fun d' he => hD d' (by subst he; simp [depsOf])⟩
      (ih fun d' hd' => hD d' (by
        simp only [depsOf, List.filterMap_append, List.reverse_append, List.append_assoc,
          List.mem_append] at hd' ⊢
        exact Or.inr hd'))
    rw [h] at this
    exact this
  | world hr w ih => exact (ih hD).of_eq rfl rfl rfl rfl rfl rfl rfl

/-- C66: whatever the callbacks call, every callback invocation is one that the declarations
provide for, with the arguments of its row, and with a dependency that the machine was given by its
user or by a callback.  If guards do not call the machine, then guards are called only where their
row applies. -/
theorem C66_declared (hM : M.Regular) (hS : M.Scoped) (hg : sem.Good True (GivesD M D))
    {ops : List (Op P)} {s : SM P W} (h : RunToR M sem d ops s) (hD : ∀ d' ∈ depsOf d ops, D d') :
    ∀ c ∈ s.trace, Declared M D d sem.QuietGuards c :=
  (h.supplied hM hS hg id hD).calls

end

namespace Ex

/-- C66 applies to `onward`, whose action sends another event: four callbacks are called. -/
example : ∃ s, RunToR hop onward 7 [.process (ev 0) 1] s ∧ s.trace.length = 4 ∧
    ∀ c ∈ s.trace, Declared hop (· = 7) 7 True c := by
  obtain ⟨s, h, hs⟩ := exists_runR hop onward
    (fuel := 5) (n := 5) (d := 7) (w := []) (ops := [.process (ev 0) 1])
    (f := fun s => s.trace.length == 4) (by decide +kernel)
  refine ⟨s, h, eq_of_beq hs, fun c hc => ?_⟩
  have := C66_declared (sem := onward) (D := (· = 7)) hop_regular hop_scoped
    (semR_good never_all (only_all fun op h => by
      rw [List.mem_singleton.1 h]; exact ⟨hop_ok 2 (by decide) 8, fun _ h => by cases h⟩)) h
    (by intro d' hd; simpa [depsOf] using hd) c hc
  rwa [show onward.QuietGuards = True from eq_true semR_quiet] at this

/-- As `hop`, with two rows for event 0: the one with guard 100 is tried first. -/
def forkDecls : List Decl :=
  [ { table := some
        [ row (ini 1) (ev 0) (some 101) none (.st 2),
          row (.st 1) (ev 0) (some 100) none (.st 2),
          row (.st 1) (ev 1) none none (.st 3) ] },
    { }, { }, { } ]

def fork : Machine := Machine.ofList forkDecls []

theorem fork_regular : fork.Regular := Machine.regular_ofList (by decide +kernel)
theorem fork_scoped : fork.Scoped := Machine.scoped_of_check (by decide +kernel)

/-- Guard 100 sends event 1 and then says no. -/
def astray : SemR Nat (List Nat) := semR (fun _ => false) (only 100 [.process (ev 1) 8]) never

/-- Guard 101, for event 0, with the machine in state 3. -/
def asked3 : Call Nat → Bool
  | .guard g a _ _ cur => g == 101 && a.event == ev 0 && cur == [some (fork.comb 0 (.st 3))]
  | _ => false

end Ex

open Ex in
/-- Guards that call the machine: the guards of the remaining rows are called although the machine
has moved to a state in which their rows do not apply. -/
theorem C66_elsewhere : ∃ (M : Machine) (sem : SemR Nat (List Nat)) (d : Dep) (ops : List (Op Nat))
    (s : SM Nat (List Nat)) (c : Call Nat), M.Regular ∧ M.Scoped ∧
    sem.Good False (GivesD M (· = d)) ∧ RunToR M sem d ops s ∧ c ∈ s.trace ∧
    Declared M (· = d) d False c ∧ ∀ D, ¬ Declared M D d True c := by
  obtain ⟨s, h, hs⟩ := exists_runR fork astray
    (fuel := 5) (n := 5) (d := 7) (w := []) (ops := [.process (ev 0) 1])
    (f := fun s => s.trace.any asked3) (by decide +kernel)
  obtain ⟨c, hc, hc3⟩ := List.any_eq_true.1 hs
  have hg : ∀ {U}, astray.Good U (GivesD fork (· = 7)) :=
    semR_good (only_all fun op h => by
      rw [List.mem_singleton.1 h]
      exact ⟨opOkB_iff fork (by decide +kernel), fun _ h => by cases h⟩) never_all
  refine ⟨fork, astray, 7, _, s, c, fork_regular, fork_scoped, hg, h, hc, ?_, ?_⟩
  · exact (h.supplied (exact := False) fork_regular fork_scoped hg False.elim
      (by intro d' hd; simpa [depsOf] using hd)).calls c hc
  · intro D hd
    cases hd with
    | @guard p st _ _ _ _ _ _ _ _ _ hp hst hcd hrow hl hd hg hat =>
      simp only [asked3, rowGuardArgs, Bool.and_eq_true, beq_iff_eq] at hc3
      obtain ⟨⟨_, rfl⟩, rfl⟩ := hc3
      obtain ⟨r, hr⟩ := hat trivial
      have heq : fork.comb p st = fork.comb 0 (.st 3) := by
        match r, hr with
        | 0, hr => simpa using hr.symm
      have h0 : (0 : Name) ∈ fork.composites := by decide +kernel
      have h3 : StTy.st 3 ∈ fork.states := by decide +kernel
      have hnone : fork.cands (ev 0) 0 (.st 3) = [] := by decide +kernel
      cases fork_regular.comb_inj h0 h3 heq
      rw [hnone] at hcd
      cases hcd
    | action => cases hc3
    | handler => cases hc3

end Hsm
