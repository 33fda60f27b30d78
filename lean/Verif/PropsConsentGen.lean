import Verif.PropsConsent
import Verif.PropsReachGenR
import Verif.PropsHeadersR

/-!
# The amalgamated header: nothing without consent, nothing undeclared, at any depth (C109, C110)

As PropsConsent.lean and PropsCalls.lean, for machines built with `gen/hsm.h`.
-/

namespace Hsm

/-! ## Specification -/

section
variable {P W : Type}

/-- Call `c` is one the declarations of `M` provide for:
* a guard is that of a row that applies, for the event passed, at some location of the machine,
  called with the event, the states of this row and a dependency that the machine was given (`D`);
  if `exact`, then some region is at this location when the guard is called;
* an action is one of the callbacks of such a row, with the arguments of such a row;
* the handler is the one of the root, for a declared event, with the state region 0 is in and the
  dependency `d` of the constructor. -/
inductive DeclaredG (M : Machine) (D : Dep → Prop) (d : Dep) (exact : Prop) : Call P → Prop
  | guard {p : Name} {st : StTy} {ev : EventTy} {cd : Cand} {t : XRow} {l : Name × StTy} {d' : Dep}
      {g : Cb} {q : P} {b : Option Bool} {cur : List (Option Nat)} (hp : p ∈ M.composites)
      (hst : st ∈ M.states) (hcd : cd ∈ M.candsG ev p st) (hrow : cd.row? = some t)
      (hl : M.targetLoc t = some l) (hd : D d') (hg : t.guard = some g)
      (hat : exact → ∃ r : Nat, cur[r]? = some (some (M.comb p st))) :
      DeclaredG M D d exact (.guard g (rowGuardArgs cd t l ev d') q b cur)
  | action {p : Name} {st : StTy} {ev : EventTy} {cd : Cand} {t : XRow} {l : Name × StTy} {d' : Dep}
      {ph : Phase} {a : Cb} {q : P} {b : Bool} {cur : List (Option Nat)} (hp : p ∈ M.composites)
      (hst : st ∈ M.states) (hcd : cd ∈ M.candsG ev p st) (hrow : cd.row? = some t)
      (hl : M.targetLoc t = some l) (hd : D d') (ha : (ph, a) ∈ M.callbacks t) :
      DeclaredG M D d exact (.action ph a (cbArgs M cd t l ev d') q b cur)
  | handler {ev : EventTy} {h : Cb} {p : Name} {st : StTy} {q : P} {b : Bool}
      {cur : List (Option Nat)} (hev : ev ∈ M.eventsG) (hh : (M.decl M.root).handler = some h)
      (hp : p ∈ M.composites) (hst : st ∈ M.states) (hc : cur[0]? = some (some (M.comb p st))) :
      DeclaredG M D d exact (.handler h ev st d q b cur)

/-- Move `f` is that of a declared external row: the row is a candidate for some event where region `f.region`
was, and the move is one of this row; for history rows to the location described by `mem`. -/
def ExplainedG (M : Machine) (mem : Name → Nat → Nat → Prop) (f : Firing) : Prop :=
  ∃ p ∈ M.composites, ∃ st ∈ M.states, ∃ ev cd t, f.before[f.region]? = some (some (M.comb p st)) ∧
    cd ∈ M.candsG ev p st ∧ cd.row? = some t ∧ t.internal = false ∧ RowMove M mem t f

/-- Calls of callbacks that give the machine only dependencies of which `D` holds. -/
def GivesDG (M : Machine) (D : Dep → Prop) (op : Op P) : Prop :=
  OpOkGR M op ∧ ∀ d', op = .setDependency d' → D d'

end

/-! ## Invariants -/

section
variable {P W : Type}

variable {M : Machine} {sem : SemR P W} {U : UB → Prop} {Q : Op P → Prop} {R : Nat → Prop}
  {I : SM P W → Prop} {E : EventTy → Nat → Entry → SM P W → Prop} {V : EventTy → Prop}
  {call : Op P → SM P W → Res (SM P W) Bool}

/-- Every event this header knows is one the other header knows. -/
theorem Machine.eventsG_events {ev : EventTy} (h : ev ∈ M.eventsG) : ev ∈ M.events := by
  unfold eventsG at h
  unfold events
  rw [List.mem_eraseDups, List.mem_map] at h ⊢
  obtain ⟨t, ht, rfl⟩ := h
  rcases List.mem_append.1 ht with ht | ht
  · exact ⟨t, List.mem_append_left _ ht, rfl⟩
  · refine ⟨t, List.mem_append_right _ ?_, rfl⟩
    unfold intRowsG at ht
    obtain ⟨x, hx, ht⟩ := List.mem_flatMap.1 ht
    unfold intRows
    rw [List.mem_eraseDups, List.mem_flatMap]
    cases x with
    | ps o k => cases ht
    | st s =>
      dsimp only at ht
      split at ht
      · rename_i hs
        obtain ⟨q, hq⟩ : ∃ q, (q, StTy.st s) ∈ M.places := by
          unfold places
          simp only [List.mem_eraseDups]
          unfold states at hx
          rcases List.mem_append.1 hx with hx | hx
          · rw [List.mem_eraseDups, List.mem_flatMap] at hx
            obtain ⟨t, ht, hx⟩ := hx
            refine ⟨t.parent, List.mem_cons_of_mem _ (List.mem_flatMap.2 ⟨t, ht, ?_⟩)⟩
            simp only [List.mem_cons, List.not_mem_nil, or_false] at hx ⊢
            rcases hx with hx | hx
            · exact Or.inl (by rw [hx])
            · exact Or.inr (by rw [hx])
          · rw [List.mem_singleton] at hx
            exact ⟨M.root, by rw [hx]; exact List.mem_cons_self⟩
        refine ⟨_, hq, ?_⟩
        unfold innerRows
        dsimp only
        obtain ⟨i, hi, ht⟩ := List.mem_flatMap.1 ht
        obtain ⟨c, hc, rfl⟩ := List.mem_map.1 ht
        rw [List.mem_flatMap]
        refine ⟨i, hi, ?_⟩
        rw [if_pos hs]
        exact List.mem_map.2 ⟨(s, c), List.mem_map.2 ⟨c, hc, rfl⟩, rfl⟩
      · cases ht

/-- As `Keeps`. -/
structure KeepsG (M : Machine) (sem : SemR P W) (U : UB → Prop) (Q : Op P → Prop) (R : Nat → Prop)
    (I : SM P W → Prop) (E : EventTy → Nat → Entry → SM P W → Prop) (V : EventTy → Prop := fun _ => True) :
    Prop extends KeepsLoop M sem U Q R I E V where
  known : ∀ ev p, Q (.process ev p) → ev ∈ M.events
  dep : ∀ s d, Q (.setDependency d) → I s →
    (setDependencyG M d s).SatU U (fun _ => I) (fun _ => I)

theorem KeepsLoop.anonRoundG (h : KeepsLoop M sem U Q R I E V) (ha : M.anonymous = true)
    (hc : Held U Q I call) : ∀ (rs : List Nat) (agf : Bool) (s : SM P W), (∀ r ∈ rs, R r) →
    I s → (anonRoundGR M sem call rs agf s).Lasts U I s := by
  intro rs
  induction rs with
  | nil => intro _ s _ hs; exact .ok hs
  | cons r rs ih =>
    intro agf s hrs hs
    have hr := hrs r (by simp)
    unfold anonRoundGR
    refine Res.Lasts.bind' (h.read hs hr) ?_
    · intro c s1 heq _ _
      obtain ⟨rfl, h1⟩ := readCur_ok.1 heq
      split
      · rename_i hlt
        cases hes : s1.table .none c with
        | nil => exact .ok hs
        | cons e es =>
          refine Res.Lasts.bind (h.tryAnon ha hc hr _ sem.nonePayload s1 hs (by rw [hes])
            (fun e' he' => h.entry s1 .none r c e' hs hr h1 hlt (by rw [hes]; exact he') h.anon)) ?_
          intro fp s2 hs2 _
          exact ih _ _ (fun r' hr' => hrs r' (by simp [hr'])) hs2
      · rename_i hlt
        rcases h.look s1 r hs hr with hu | ⟨c', h2, h3⟩
        · exact hu _
        · rw [h1] at h2; cases h2; exact absurd h3 hlt

theorem KeepsLoop.anonLoopG (h : KeepsLoop M sem U Q R I E V) (ha : M.anonymous = true)
    (hc : Held U Q I call) : ∀ (fuel : Nat) (s : SM P W), I s →
    (anonLoopGR M sem call fuel s).Lasts U I s := by
  intro fuel
  induction fuel with
  | zero => intro _ _; trivial
  | succ n ih =>
    intro s hs
    unfold anonLoopGR
    apply Res.Lasts.bind (h.anonRoundG ha hc _ _ s (h.range hs) hs)
    intro b s1 hs1 _
    match b with
    | none => exact .ok hs1
    | some true => exact .ok hs1
    | some false => exact ih _ hs1

theorem KeepsLoop.processInternalG (h : KeepsLoop M sem U Q R I E V) (hc : Held U Q I call) (fuel : Nat)
    (ev : EventTy) (hv : V ev) (p : P) (s : SM P W) (hs : I s) :
    (processInternalGR M sem call fuel ev p s).Lasts U I s := by
  unfold processInternalGR
  apply Res.Lasts.bind (h.regionLoop hc ev hv _ _ _ p s (h.range hs) hs)
  rintro ⟨o, p1⟩ s1 hs1 _
  cases o with
  | deferred => exact .ok hs1
  | done agf ati =>
    cases ati with
    | true => exact .ok hs1
    | false =>
      cases agf with
      | true => exact .ok hs1
      | false =>
        simp only [Bool.false_eq_true, if_false]
        refine Res.Lasts.bind ?_ (fun _ _ hs _ => .ok hs)
        unfold processAnonGR
        rw [Machine.hasAnon_eq]
        split
        · rename_i ha
          exact h.anonLoopG ha hc fuel s1 hs1
        · exact .ok hs1

theorem KeepsLoop.processEventG (h : KeepsLoop M sem U Q R I E V) (hc : Held U Q I call) (fuel : Nat)
    {ev : EventTy} (hev : ev ∈ M.events) {p : P} (hq : Q (.process ev p)) (s : SM P W) (hs : I s) :
    (processEventGR M sem call fuel ev p s).Lasts U I s := by
  unfold processEventGR
  apply Res.Lasts.bind (h.processInternalG hc fuel ev (h.sent _ _ hq) p s hs)
  rintro ⟨b, p1⟩ s1 hs1 _
  cases b with
  | false => exact Res.Lasts.bind (h.handle hc hev hq p1 s1 hs1) (fun _ _ hs _ => .ok hs)
  | true =>
    show (processDeferredGR M sem call fuel s1).Lasts _ _ _
    unfold processDeferredGR
    split
    · split
      · exact .ok hs1
      · rename_i e p q hqu
        exact Res.Lasts.since (s1 := { s1 with queue := q }) (Res.Lasts.bind
          (h.processInternalG hc fuel e (h.queued _ _ _ _ hs1 hqu) p _ (h.pop s1 e p q hs1 hqu))
          (fun _ _ hs _ => .ok hs)) (.of_eq rfl rfl)
    · exact .ok hs1

/-- Invariants of calls, however deep callbacks nest further calls. -/
theorem KeepsG.held (h : KeepsG M sem U Q R I E V) (fuel : Nat) : ∀ n, Held U Q I (stepGR M sem fuel n) := by
  intro n
  induction n with
  | zero => intro op s _ _; trivial
  | succ n ih =>
    intro op s hq hs
    cases op with
    | process ev p =>
      exact Res.Lasts.bind (h.processEventG ih fuel (h.known _ _ hq) hq s hs)
        (fun _ _ hs _ => .ok hs)
    | set r p st => exact .ok hs
    | setDependency d =>
      refine Res.Lasts.bind (r := setDependencyG M d s) ?_ (fun _ _ hs _ => .ok hs)
      have := h.dep s d hq hs
      unfold setDependencyG at this ⊢
      split at this
      · exact ⟨this, .of_eq rfl rfl⟩
      · exact this

theorem KeepsG.step (h : KeepsG M sem U Q R I E V) (fuel n : Nat) (op : Op P) (s : SM P W) (hq : Q op)
    (hs : I s) : (stepGR M sem fuel n op s).SatU U (fun _ => I) (fun _ => I) :=
  (h.held fuel n op s hq hs).holds

/-- Invariants of histories in which the machine is only given dependencies of which `D` holds. -/
theorem RunToGR.keeps {D : Dep → Prop} {d : Dep}
    (h : KeepsG M sem (fun _ => True) (GivesDG M D) R I E V)
    (base : D d → ∀ w s, constructG M d w = .ok s → I s) (world : ∀ s w, I s → I { s with world := w })
    {ops : List (Op P)} {s : SM P W} (hr : RunToGR M sem d ops s) (hD : ∀ d' ∈ depsOf d ops, D d') : I s := by
  induction hr with
  | init hc => exact base (hD d (by simp [depsOf])) _ _ hc
  | @ok s s' ops op fuel n b hr hop hs ih =>
    have := h.step fuel n op s ⟨hop, (depsOf_more hD).2⟩ (ih (depsOf_more hD).1)
    rw [hs] at this
    exact this
  | @throw s s' ops op fuel n x hr hop hs ih =>
    have := h.step fuel n op s ⟨hop, (depsOf_more hD).2⟩ (ih (depsOf_more hD).1)
    rw [hs] at this
    exact this
  | world hr w ih => exact world _ _ (ih hD)

/-- What the constructor leaves behind. -/
theorem constructG_ok {d : Dep} {w : W} {s : SM P W} (h : constructG M d w = .ok s) :
    ∃ H T, (if (M.decl M.root).handler.isSome then M.fillHandlersFor M.eventIdsG d (fun _ _ => none)
      else .ok (fun _ _ => none)) = .ok H ∧ M.fillG d (fun _ _ => []) = .ok T ∧ initState M w H T = .ok s := by
  unfold constructG at h
  split at h
  · revert h
    generalize (if (M.decl M.root).handler.isSome = true then
      M.fillHandlersFor M.eventIdsG d (fun _ _ => none) else .ok (fun _ _ => none)) = H
    cases H with
    | error e => intro h; cases h
    | ok H =>
      cases hT : M.fillG d (fun _ _ => []) with
      | error e => intro h; cases h
      | ok T => intro h; exact ⟨H, T, rfl, rfl, h⟩
  · cases h

variable {D : Dep → Prop} {d : Dep}

theorem GivesDG.known (hM : M.RegularG) {ev : EventTy} {p : P} (h : GivesDG M D (.process ev p)) :
    ev ∈ M.events := by
  have : ev ∈ M.eventIdsG := h.1
  rw [← Machine.eventsG_eq hM.laid] at this
  exact Machine.eventsG_events this

/-! ## C109 -/

theorem Machine.RegularG.offers (hM : M.RegularG) : Offers M M.candsG where
  laid := hM.laid
  compiles := fun t ht => Machine.acceptsG_rows hM.accepts (List.mem_append_left _ ht)
  rows := by
    intro ev p st cd t hcd hrow hi
    rcases (Machine.row_of_candsG hcd hrow).2 with h | h
    · rwa [Machine.extRows_eq] at h
    · rw [Machine.intRowsG_internal h] at hi; cases hi

/-- Filling the table brings in entries of candidates. -/
theorem filledFrom_fillG (hM : M.RegularG) {d' : Dep} {T T' : Table} (hD : D d')
    (hT : M.fillG d' T = .ok T') (h : FilledFrom M M.candsG D T) : FilledFrom M M.candsG D T' := by
  intro ev p hp st hst e he
  rw [Machine.fillG_spec hM hT ev hp hst] at he
  rcases List.mem_append.1 he with he | he
  · obtain ⟨cd, hcd, hen⟩ := List.mem_filterMap.1 he
    exact ⟨d', cd, hcd, hD, hen⟩
  · exact h ev p hp st hst e he

theorem KeepsG.agreed (hM : M.RegularG) (hg : sem.Good True (GivesDG M D)) :
    KeepsG M sem (fun _ => True) (GivesDG M D) (fun _ => True) (Agreed M M.candsG D Unset)
      (Drawn M M.candsG D Unset) :=
  { KeepsLoop.agreed hM.offers hg with
    known := fun _ _ h => h.known hM
    dep := by
      intro s d' hq h
      unfold setDependencyG
      cases hT : M.fillG d' s.table with
      | error u => trivial
      | ok T => exact ⟨h.mind.of_eq rfl rfl rfl, h.places, filledFrom_fillG hM (hq.2 d' rfl) hT h.table,
          h.consent.of_eq rfl rfl⟩ }

theorem agreed_constructG (hM : M.RegularG) (hd : D d) {w : W} {s : SM P W} (hs : constructG M d w = .ok s) :
    Agreed M M.candsG D Unset s := by
  obtain ⟨H, T, _, hT, hI⟩ := constructG_ok hs
  obtain ⟨_, hTs, ⟨init, h0, hcur, _⟩, hin, hhi, _, _, htr, hlog⟩ := initState_ok hI
  exact ⟨.fresh hM.laid hin hhi hlog, places_fresh hM.laid h0 hcur,
    by rw [hTs]; exact filledFrom_fillG hM hd hT (fun _ _ _ _ _ _ h => by cases h), .fresh htr hlog⟩

theorem RunToGR.agreed (hM : M.RegularG) (hg : sem.Good True (GivesDG M D))
    {ops : List (Op P)} {s : SM P W} (h : RunToGR M sem d ops s) (hD : ∀ d' ∈ depsOf d ops, D d') :
    Agreed M M.candsG D Unset s := by
  exact h.keeps (KeepsG.agreed hM hg) (fun hd w s hs => agreed_constructG hM hd hs)
    (fun _ _ h => h.of_eq rfl rfl rfl rfl rfl rfl) hD

/-- C109: with the amalgamated header, too, whatever callbacks call, every move has consent. -/
theorem C109_moves (hM : M.RegularG) (hg : sem.Good True (GivesDG M D))
    {ops : List (Op P)} {s : SM P W} (h : RunToGR M sem d ops s) (hD : ∀ d' ∈ depsOf d ops, D d')
    {l1 l2 : List Firing} {f : Firing} (hl : s.log = l1 ++ f :: l2) :
    MoveHasConsent M M.candsG D Unset s.trace l1 f :=
  (h.agreed hM hg hD).consent.moves l1 f l2 hl

/-- C109: with the amalgamated header, too, whatever callbacks call, every callback of a row has consent, and
comes after the move and after the callbacks of the row before it. -/
theorem C109_actions (hM : M.RegularG) (hg : sem.Good True (GivesDG M D))
    {ops : List (Op P)} {s : SM P W} (h : RunToGR M sem d ops s) (hD : ∀ d' ∈ depsOf d ops, D d')
    {t0 t1 : List (Call P)} {ph : Phase} {a : Cb} {args : Args} {q : P} {b : Bool}
    {cur : List (Option Nat)} (ht : s.trace = t0 ++ .action ph a args q b cur :: t1) :
    ActionHasConsent M M.candsG D Unset s.log t0 ph a args :=
  (h.agreed hM hg hD).consent.acts t0 ph a args q b cur t1 ht

/-! ## C110 -/

/-- The invariant behind C110. -/
structure SuppliedG (M : Machine) (D : Dep → Prop) (d : Dep) (exact : Prop) (s : SM P W) : Prop where
  table : ∀ ev, ∀ p ∈ M.composites, ∀ st ∈ M.states, ∀ e ∈ s.table ev (M.comb p st),
    ∃ d' cd, cd ∈ M.candsG ev p st ∧ D d' ∧ M.entryOfCand d' cd = some e
  handlers : ∀ ev, ∀ p ∈ M.composites, ∀ st ∈ M.states, ∀ x, s.handlers ev (M.comb p st) = some x →
    ev ∈ M.eventsG ∧ x = (st, d)
  calls : ∀ c ∈ s.trace, DeclaredG M D d exact c

/-- An entry of a candidate for `ev`; with a dependency of which `D` holds; where region `r` is, if
`exact`. -/
def FromG (M : Machine) (D : Dep → Prop) (exact : Prop) (ev : EventTy) (r : Nat) (e : Entry)
    (s : SM P W) : Prop :=
  ∃ p st d cd, p ∈ M.composites ∧ st ∈ M.states ∧
    (exact → s.cur[r]? = some (some (M.comb p st))) ∧ cd ∈ M.candsG ev p st ∧ D d ∧
    M.entryOfCand d cd = some e

variable {exact : Prop}

theorem SuppliedG.of_eq {s s' : SM P W} (h : SuppliedG M D d exact s) (h1 : s'.table = s.table)
    (h2 : s'.handlers = s.handlers) (h3 : s'.trace = s.trace) : SuppliedG M D d exact s' where
  table := by rw [h1]; exact h.table
  handlers := by rw [h2]; exact h.handlers
  calls := by rw [h3]; exact h.calls

theorem By.declaredG (hM : M.RegularG) {c : Call P} {s' : SM P W}
    (h : By M sem (SuppliedG M D d exact (W := W)) (FromG M D exact) V c s') : DeclaredG M D d exact c := by
  cases h with
  | guard hs he hx hg q b _ =>
    obtain ⟨p, st, d', cd, hp, hst, hat, hcd, hd, hen⟩ := he
    obtain ⟨t, l, hrow, hl, hi, _, hgd, hsrc, hdst, hdep⟩ := entryOfCand_exec hen hx
    rw [hi, hsrc, hdst, hdep]
    rw [hgd] at hg
    exact .guard hp hst hcd hrow hl hd hg (fun hq => ⟨_, hat hq⟩)
  | @action _ _ _ _ ev _ _ x _ _ _ _ _ _ hs he _ _ hx _ hcs _ _ _ _ q b cur =>
    obtain ⟨p, st, d', cd, hp, hst, hat, hcd, hd, hen⟩ := he
    obtain ⟨t, l, hrow, hl, hi, hac, _, hsrc, hdst, hdep⟩ := entryOfCand_exec hen hx
    have hargs : actionArgs M x ev = cbArgs M cd t l ev d' := by
      unfold actionArgs cbArgs
      rw [hi, hsrc, hdst, hdep, Machine.defaultCtor_eq]
      cases M.selfMade l.2 <;> cases t.internal <;> rfl
    rw [hargs]
    refine .action hp hst hcd hrow hl hd ?_
    rw [← Machine.toRun_cbs, ← hac, hcs]
    simp
  | handler hs hev _ hh hc hlt hd q b _ =>
    obtain ⟨p, st, hp, hst, rfl⟩ := hM.laid.comb_surj hlt
    obtain ⟨h1, h2⟩ := hs.handlers _ p hp st hst _ hd
    cases h2
    exact .handler h1 hh hp hst hc

theorem KeepsG.supplied (hM : M.RegularG) (hg : sem.Good True (GivesDG M D))
    (hq : exact → sem.QuietGuards) :
    KeepsG M sem (fun _ => True) (GivesDG M D) (fun _ => True) (SuppliedG M D d exact)
      (FromG M D exact) where
  toRuns := .of hg (fun _ _ h => h.of_eq rfl rfl rfl)
  traced := by
    intro s0 s c h0 h hc hb
    refine ⟨h.table, h.handlers, ?_⟩
    intro c' hc'
    rcases List.mem_append.1 hc' with hc' | hc'
    · exact h.calls c' hc'
    · rw [List.mem_singleton.1 hc']
      exact hb.declaredG hM
  obj := fun _ _ _ _ => trivial
  regions := fun _ _ _ _ => trivial
  look := fun _ _ _ _ => Or.inl fun _ => trivial
  entry := by
    intro s ev r c e h _ hc hlt he _
    obtain ⟨p, st, hp, hst, rfl⟩ := hM.laid.comb_surj hlt
    obtain ⟨d', cd, hcd, hd, hen⟩ := h.table ev p hp st hst e he
    exact ⟨p, st, d', cd, hp, hst, fun _ => hc, hcd, hd, hen⟩
  null := fun _ _ _ _ _ _ _ _ => trivial
  stay := by
    intro call _ s s' x ev p bp r e _ h he
    obtain ⟨p', st, d', cd, hp, hst, hat, h5⟩ := he
    refine ⟨p', st, d', cd, hp, hst, fun hex => ?_, h5⟩
    obtain ⟨w, tr, rfl⟩ := execGuard_quiet (hq hex) h
    exact hat hex
  iter := fun _ _ _ _ _ _ _ _ _ _ _ _ => trivial
  move := by
    intro s ev r e x h _ he _ hx _
    cases hu : updateState M r e s with
    | ok a s' =>
      rcases updateState_ok hu with ⟨_, rfl⟩ | hm
      · exact h
      · exact h.of_eq hm.table hm.handlers hm.trace
    | throw x s' => exact absurd hu updateState_throw
    | ub u => trivial
    | timeout => trivial
  push := fun _ _ _ _ _ h _ _ => h.of_eq rfl rfl rfl
  pop := fun _ _ _ _ h _ => h.of_eq rfl rfl rfl
  handler := fun _ _ _ _ _ => fun _ => Or.inl fun _ => trivial
  known := fun _ _ h => h.known hM
  dep := by
    intro s d' hq h
    unfold setDependencyG
    cases hT : M.fillG d' s.table with
    | error u => trivial
    | ok T =>
      refine ⟨fun ev p hp st hst e he => ?_, h.handlers, h.calls⟩
      rw [show ({ s with table := T } : SM P W).table ev (M.comb p st) = T ev (M.comb p st) from rfl,
        Machine.fillG_spec hM hT ev hp hst] at he
      rcases List.mem_append.1 he with he | he
      · obtain ⟨cd, hcd, hen⟩ := List.mem_filterMap.1 he
        exact ⟨d', cd, hcd, hq.2 d' rfl, hen⟩
      · exact h.table ev p hp st hst e he

theorem supplied_constructG (hM : M.RegularG) (hd : D d) {w : W} {s : SM P W} (hs : constructG M d w = .ok s) :
    SuppliedG M D d exact s := by
  obtain ⟨H, T, hH, hT, hI⟩ := constructG_ok hs
  obtain ⟨hHs, hTs, _, _, _, _, _, htr, _⟩ := initState_ok hI
  refine ⟨fun ev p hp st hst e he => ?_, fun ev p hp st hst x hx => ?_, by rw [htr]; simp⟩
  · rw [hTs, Machine.fillG_spec hM hT ev hp hst, List.append_nil] at he
    obtain ⟨cd, hcd, hen⟩ := List.mem_filterMap.1 he
    exact ⟨d, cd, hcd, hd, hen⟩
  · rw [hHs] at hx
    split at hH
    · rw [Machine.fillHandlersFor_eq hM.laid d (evs := M.eventIdsG) (nodup_uniq _)] at hH
      cases hH
      dsimp only at hx
      split at hx
      · rename_i he
        rw [Machine.handlerCell_get hM.laid d hp hst _ _ (Or.inl (mem_product.2
          ⟨Machine.composites_eq ▸ hp, Machine.states_eq ▸ hst⟩))] at hx
        cases hx
        exact ⟨by rw [Machine.eventsG_eq hM.laid]; exact he, rfl⟩
      · cases hx
    · cases hH; cases hx

theorem RunToGR.supplied (hM : M.RegularG) (hg : sem.Good True (GivesDG M D))
    (hq : exact → sem.QuietGuards) {ops : List (Op P)} {s : SM P W} (h : RunToGR M sem d ops s)
    (hD : ∀ d' ∈ depsOf d ops, D d') : SuppliedG M D d exact s := by
  exact h.keeps (KeepsG.supplied hM hg hq) (fun hd w s hs => supplied_constructG hM hd hs)
    (fun _ _ h => h.of_eq rfl rfl rfl) hD

/-- C110: with the amalgamated header, too, whatever the callbacks call, every callback invocation is one that the
declarations provide for, with the arguments of its row, and with a dependency that the machine was given by its
user or by a callback.  If guards do not call the machine, then guards are called only where their row applies. -/
theorem C110_declared (hM : M.RegularG) (hg : sem.Good True (GivesDG M D))
    {ops : List (Op P)} {s : SM P W} (h : RunToGR M sem d ops s) (hD : ∀ d' ∈ depsOf d ops, D d') :
    ∀ c ∈ s.trace, DeclaredG M D d sem.QuietGuards c :=
  (h.supplied hM hg id hD).calls

/-! ## C111 -/

/-- The invariant behind C111. -/
structure ExplainedAllG (M : Machine) (s : SM P W) : Prop where
  mind : Mindful M s
  table : ∀ ev, ∀ p ∈ M.composites, ∀ st ∈ M.states, ∀ e ∈ s.table ev (M.comb p st),
    ∃ d' cd, cd ∈ M.candsG ev p st ∧ M.entryOfCand d' cd = some e
  moves : ∀ l1 f l2, s.log = l1 ++ f :: l2 → ExplainedG M (Memo M (l1 ++ [f])) f

theorem ExplainedAllG.of_eq {s s' : SM P W} (h : ExplainedAllG M s) (h1 : s'.initial = s.initial)
    (h2 : s'.hist = s.hist) (h3 : s'.table = s.table) (h4 : s'.log = s.log) : ExplainedAllG M s' where
  mind := h.mind.of_eq h1 h2 h4
  table := by rw [h3]; exact h.table
  moves := by rw [h4]; exact h.moves

theorem KeepsG.explained (hM : M.RegularG) (hg : sem.Good True (GivesDG M fun _ => True))
    (hq : sem.QuietGuards) :
    KeepsG M sem (fun _ => True) (GivesDG M fun _ => True) (fun _ => True) (ExplainedAllG M)
      (FromG M (fun _ => True) True) where
  toRuns := .of hg (fun _ _ h => h.of_eq rfl rfl rfl rfl)
  traced := fun _ _ _ _ h _ _ => h.of_eq rfl rfl rfl rfl
  obj := fun _ _ _ _ => trivial
  regions := fun _ _ _ _ => trivial
  look := fun _ _ _ _ => Or.inl fun _ => trivial
  entry := by
    intro s ev r c e h _ hc hlt he _
    obtain ⟨p, st, hp, hst, rfl⟩ := hM.laid.comb_surj hlt
    obtain ⟨d', cd, hcd, hen⟩ := h.table ev p hp st hst e he
    exact ⟨p, st, d', cd, hp, hst, fun _ => hc, hcd, trivial, hen⟩
  null := fun _ _ _ _ _ _ _ _ => trivial
  stay := by
    intro call _ s s' x ev p bp r e _ h he
    obtain ⟨w, tr, rfl⟩ := execGuard_quiet hq h
    exact he
  iter := fun _ _ _ _ _ _ _ _ _ _ _ _ => trivial
  move := by
    intro s ev r e x h _ he _ hx _
    cases hu : updateState M r e s with
    | ok a s' =>
      rcases updateState_ok hu with ⟨_, rfl⟩ | hm
      · exact h
      · obtain ⟨p, st, d', cd, hp, hst, hat, hcd, hd, hen⟩ := he
        obtain ⟨t, l, hrow, hl, hi, _⟩ := entryOfCand_exec hen hx
        have hent : e.to = M.comb l.1 l.2 ∧ e.history = Machine.isHistory t.target ∧
            e.internal = t.internal := by
          rcases Machine.entryOfCand_cases hen with ⟨_, _, h2, _⟩ | ⟨t', l', _, h1, h2, h3, h4, _, h5, _⟩
          · rw [hx] at h2; cases h2
          · have : t' = t := by
              rcases h1 with rfl | ⟨q, rfl⟩ <;> cases hrow <;> rfl
            subst this
            rw [hl] at h2; cases h2
            exact ⟨h3, h4, h5⟩
        have hint : t.internal = false := by rw [← hent.2.2]; exact hm.ext
        obtain ⟨hmind, hrm⟩ := h.mind.moved hM.offers (hM.offers.rows _ _ _ _ _ hcd hrow hint) hl hent.1
          hent.2.1 hm
        refine ⟨hmind, by rw [hm.table]; exact h.table, ?_⟩
        intro l1 f l2 he
        rw [hm.log] at he
        rcases log_snoc he with ⟨rfl, rfl⟩ | ⟨l, he⟩
        · exact ⟨p, hp, st, hst, ev, cd, t, hat trivial, hcd, hrow, hint, hrm⟩
        · exact h.moves l1 f l he
    | throw x s' => exact absurd hu updateState_throw
    | ub u => trivial
    | timeout => trivial
  push := fun _ _ _ _ _ h _ _ => h.of_eq rfl rfl rfl rfl
  pop := fun _ _ _ _ h _ => h.of_eq rfl rfl rfl rfl
  handler := fun _ _ _ _ _ => fun _ => Or.inl fun _ => trivial
  known := fun _ _ h => h.known hM
  dep := by
    intro s d' hq h
    unfold setDependencyG
    cases hT : M.fillG d' s.table with
    | error u => trivial
    | ok T =>
      refine ⟨h.mind.of_eq rfl rfl rfl, fun ev p hp st hst e he => ?_, h.moves⟩
      rw [show ({ s with table := T } : SM P W).table ev (M.comb p st) = T ev (M.comb p st) from rfl,
        Machine.fillG_spec hM hT ev hp hst] at he
      rcases List.mem_append.1 he with he | he
      · obtain ⟨cd, hcd, hen⟩ := List.mem_filterMap.1 he
        exact ⟨d', cd, hcd, hen⟩
      · exact h.table ev p hp st hst e he

theorem explained_constructG (hM : M.RegularG) {w : W} {s : SM P W} (hs : constructG M d w = .ok s) :
    ExplainedAllG M s := by
  obtain ⟨H, T, _, hT, hI⟩ := constructG_ok hs
  obtain ⟨_, hTs, _, hin, hhi, _, _, htr, hlog⟩ := initState_ok hI
  refine ⟨.fresh hM.laid hin hhi hlog, fun ev p hp st hst e he => ?_, by rw [hlog]; simp⟩
  rw [hTs, Machine.fillG_spec hM hT ev hp hst, List.append_nil] at he
  obtain ⟨cd, hcd, hen⟩ := List.mem_filterMap.1 he
  exact ⟨d, cd, hcd, hen⟩

/-- C111 if guards make no calls (this is what is missing from the full claim; actions, entry and exit actions
and the handler may make any): every move is that of a row applicable where the region was at that moment, and
history rows lead to where the region was when it last moved out of the composite region 0 was in. -/
theorem C111_partial (hM : M.RegularG) (hg : sem.Good True (OpOkGR M)) (hq : sem.QuietGuards)
    {ops : List (Op P)} {s : SM P W} (h : RunToGR M sem d ops s) {l1 l2 : List Firing} {f : Firing}
    (hl : s.log = l1 ++ f :: l2) : ExplainedG M (Memo M (l1 ++ [f])) f := by
  have hg' : sem.Good True (GivesDG M fun _ => True) := hg.weaken fun _ h => ⟨h, fun _ _ => trivial⟩
  exact (h.keeps (KeepsG.explained hM hg' hq) (fun _ w s hs => explained_constructG hM hs)
    (fun _ _ h => h.of_eq rfl rfl rfl rfl) (fun _ _ => trivial)).moves l1 f l2 hl

end

/-! ## Examples -/

namespace Ex
section
variable {P W : Type} (M : Machine) (sm : SemR P W)

def opOkGRB : Op P → Bool
  | .process ev _ => decide (ev ∈ M.eventIdsG)
  | .set _ _ _ => false
  | .setDependency _ => true

theorem opOkGRB_iff {op : Op P} (h : opOkGRB M op = true) : OpOkGR M op := by
  cases op with
  | process ev p =>
    have h' : ev ∈ M.eventIdsG := of_decide_eq_true (p := ev ∈ M.eventIdsG) h
    exact h'
  | set r p st => cases h
  | setDependency d => trivial

def runOpsGR (fuel n : Nat) : List (Op P) → SM P W → Option (SM P W)
  | [], s => some s
  | op :: ops, s =>
    if opOkGRB M op then
      match stepGR M sm fuel n op s with
      | .ok _ s' => runOpsGR fuel n ops s'
      | .throw _ s' => runOpsGR fuel n ops s'
      | _ => none
    else none

def runGR (fuel n : Nat) (d : Dep) (w : W) (ops : List (Op P)) : Option (SM P W) :=
  match constructG M d w with
  | .ok s => runOpsGR M sm fuel n ops s
  | .error _ => none

theorem runOpsGR_runTo {fuel n : Nat} {d : Dep} {ops : List (Op P)} : ∀ {pre : List (Op P)}
    {s s' : SM P W}, RunToGR M sm d pre s → runOpsGR M sm fuel n ops s = some s' →
    RunToGR M sm d (pre ++ ops) s' := by
  induction ops with
  | nil => intro pre s s' h1 h2; cases h2; simpa using h1
  | cons op ops ih =>
    intro pre s s' h1 h2
    unfold runOpsGR at h2
    split at h2
    · rename_i hop
      split at h2
      · rename_i h3
        have := ih (.ok h1 (opOkGRB_iff M hop) h3) h2
        simpa using this
      · rename_i h3
        have := ih (.throw h1 (opOkGRB_iff M hop) h3) h2
        simpa using this
      · cases h2
    · cases h2

theorem exists_runGR {fuel n : Nat} {d : Dep} {w : W} {ops : List (Op P)} {f : SM P W → Bool}
    (h : (runGR M sm fuel n d w ops).any f = true) : ∃ s, RunToGR M sm d ops s ∧ f s = true := by
  cases hr : runGR M sm fuel n d w ops with
  | none => rw [hr] at h; cases h
  | some s =>
    rw [hr] at h
    refine ⟨s, ?_, h⟩
    unfold runGR at hr
    split at hr
    · rename_i s0 h0
      simpa using runOpsGR_runTo M sm (.init h0) hr
    · cases hr

end

theorem hasty_gives : hasty.Good True (GivesDG waiting (· = 7)) :=
  semR_good never_all (only_all (by
    intro op hop
    simp only [List.mem_cons, List.not_mem_nil, or_false] at hop
    rcases hop with rfl | rfl
    · exact ⟨waiting_okG 3 (by decide) _, fun _ h => by cases h⟩
    · exact ⟨waiting_okG 2 (by decide) _, fun _ h => by cases h⟩))

end Ex

section
open Ex

/-- `waiting`: event 1 waits; its turn comes inside the action of the row that event 0 takes.  So there are two
moves, the second made before the action of the first has ended, and both have consent; the action of the
first move is the last callback that ends. -/
example : ∃ s, RunToGR waiting hasty 7 [.process (ev 1) 4, .process (ev 0) 1] s ∧
    s.trace.map (fun c => match c with | .action _ a _ _ _ _ => a | _ => 100) = [100, 3, 1] ∧
    (∃ f1 f2, s.log = [f1, f2] ∧ f1.calls = 0 ∧ f2.calls = 1 ∧
      MoveHasConsent waiting waiting.candsG (· = 7) Unset s.trace [] f1 ∧
      MoveHasConsent waiting waiting.candsG (· = 7) Unset s.trace [f1] f2 ∧
      ExplainedG waiting (Memo waiting [f1]) f1 ∧ ExplainedG waiting (Memo waiting [f1, f2]) f2) ∧
    (∀ t0 ph a args q b cur t1, s.trace = t0 ++ .action ph a args q b cur :: t1 →
      ActionHasConsent waiting waiting.candsG (· = 7) Unset s.log t0 ph a args) ∧
    ∀ c ∈ s.trace, DeclaredG waiting (· = 7) 7 True c := by
  obtain ⟨s, h, hs⟩ := exists_runGR waiting hasty
    (fuel := 5) (n := 5) (d := 7) (w := []) (ops := [.process (ev 1) 4, .process (ev 0) 1])
    (f := fun s => s.log.map (·.calls) == [0, 1] &&
      s.trace.map (fun c => match c with | .action _ a _ _ _ _ => a | _ => 100) == [100, 3, 1])
    (by decide +kernel)
  simp only [Bool.and_eq_true, beq_iff_eq] at hs
  have hD : ∀ d' ∈ depsOf 7 [Op.process (ev 1) 4, Op.process (ev 0) 1], d' = 7 := by
    intro d' hd; simpa [depsOf] using hd
  refine ⟨s, h, hs.2, ?_, fun t0 ph a args q b cur t1 ht =>
    C109_actions waiting_regularG hasty_gives h hD ht, fun c hc => ?_⟩
  · match hl : s.log, hs.1 with
    | [], h0 => simp at h0
    | [_], h0 => simp at h0
    | _ :: _ :: _ :: _, h0 => simp at h0
    | [f1, f2], h0 =>
      simp only [List.map_cons, List.map_nil, List.cons.injEq, and_true] at h0
      exact ⟨f1, f2, rfl, h0.1, h0.2, C109_moves (l1 := []) waiting_regularG hasty_gives h hD hl,
        C109_moves (l1 := [f1]) waiting_regularG hasty_gives h hD hl,
        C111_partial (l1 := []) waiting_regularG hasty_ok semR_quiet h hl,
        C111_partial (l1 := [f1]) waiting_regularG hasty_ok semR_quiet h hl⟩
  · have := C110_declared waiting_regularG hasty_gives h hD c hc
    rwa [show hasty.QuietGuards = True from eq_true semR_quiet] at this

/-- C111 is false in general: from state 1 the machine is sent event 0; the guard of the row from 1 to 2 sends
event 1, which takes the machine to 3, and says yes; then the machine goes from 3 to 2. -/
theorem C111_refuted : ∃ (M : Machine) (sem : SemR Nat (List Nat)) (d : Dep) (ops : List (Op Nat))
    (s : SM Nat (List Nat)) (l1 : List Firing) (f : Firing),
    M.RegularG ∧ sem.Good False (OpOkGR M) ∧ RunToGR M sem d ops s ∧ s.log = l1 ++ [f] ∧
    ∀ mem, ¬ ExplainedG M mem f := by
  obtain ⟨s, h, hs⟩ := exists_runGR hop diverted
    (fuel := 5) (n := 5) (d := 7) (w := []) (ops := [.process (ev 0) 1])
    (f := fun s => s.log.map (fun f => (f.region, f.before, f.after)) ==
      [(0, [some (hop.comb 0 (.st 1))], [some (hop.comb 0 (.st 3))]),
       (0, [some (hop.comb 0 (.st 3))], [some (hop.comb 0 (.st 2))])]) (by decide +kernel)
  have hs := eq_of_beq hs
  match hl : s.log, hs with
  | [], hs => simp at hs
  | [_], hs => simp at hs
  | _ :: _ :: _ :: _, hs => simp at hs
  | [f1, f2], hs =>
  refine ⟨hop, diverted, 7, _, s, [f1], f2, hop_regularG,
    semR_good (only_all fun op h => by rw [List.mem_singleton.1 h]; exact hop_okG 1 (by decide) 8) never_all,
    h, hl, ?_⟩
  simp only [List.map_cons, List.map_nil, List.cons.injEq, Prod.mk.injEq] at hs
  obtain ⟨_, ⟨hr, hb, ha⟩, _⟩ := hs
  rintro mem ⟨p, hp, st, hst, e, cd, t, hat, hcd, hrow, hint, c, haft, hhist, hloc⟩
  rw [hr, hb] at hat
  have h0 : (0 : Name) ∈ hop.composites := by decide +kernel
  have h3 : StTy.st 3 ∈ hop.states := by decide +kernel
  have heq := hop_regular.comb_inj h0 h3 (show hop.comb p st = _ by simpa using hat.symm)
  cases heq
  have hB : ∀ e ∈ hop.eventsG, (hop.candsG e 0 (.st 3)).all (fun cd => cd.row?.all fun t =>
      hop.targetLoc t == some (0, .st 1) && t.target == .st 1) = true := by decide +kernel
  have ht := List.all_eq_true.1 (hB e (Machine.events_of_candsG hcd hrow)) cd hcd
  rw [hrow] at ht
  simp only [Option.all_some, Bool.and_eq_true, beq_iff_eq] at ht
  obtain ⟨l, hl', hc⟩ := hloc (by rw [ht.2]; simp)
  rw [ht.1] at hl'
  cases hl'
  rw [ha, hb, hr, hc] at haft
  exact absurd haft (by decide +kernel)

/-- The same run: the second move has consent, its row applied where the machine was before. -/
example : ∃ s, RunToGR hop diverted 7 [.process (ev 0) 1] s ∧ ∃ f1 f2, s.log = [f1, f2] ∧
    f2.before = [some (hop.comb 0 (.st 3))] ∧ MoveHasConsent hop hop.candsG (· = 7) Unset s.trace [f1] f2 := by
  obtain ⟨s, h, hs⟩ := exists_runGR hop diverted
    (fuel := 5) (n := 5) (d := 7) (w := []) (ops := [.process (ev 0) 1])
    (f := fun s => s.log.map (·.before) == [[some (hop.comb 0 (.st 1))], [some (hop.comb 0 (.st 3))]])
    (by decide +kernel)
  have hs := eq_of_beq hs
  have hg : diverted.Good True (GivesDG hop (· = 7)) :=
    semR_good (only_all fun op h => by
      rw [List.mem_singleton.1 h]; exact ⟨hop_okG 1 (by decide) 8, fun _ h => by cases h⟩) never_all
  match hl : s.log, hs with
  | [], hs => simp at hs
  | [_], hs => simp at hs
  | _ :: _ :: _ :: _, hs => simp at hs
  | [f1, f2], hs =>
    simp only [List.map_cons, List.map_nil, List.cons.injEq] at hs
    exact ⟨s, h, f1, f2, hl, hs.2.1, C109_moves (l1 := [f1]) hop_regularG hg h
      (by intro d' hd; simpa [depsOf] using hd) hl⟩

theorem Ex.fork_regularG : fork.RegularG := Machine.regularG_ofList (by decide +kernel)

/-- Guards that call the machine: the guards of the remaining rows are called although the machine
has moved to a state in which their rows do not apply. -/
theorem C110_elsewhere : ∃ (M : Machine) (sem : SemR Nat (List Nat)) (d : Dep) (ops : List (Op Nat))
    (s : SM Nat (List Nat)) (c : Call Nat), M.RegularG ∧
    sem.Good False (GivesDG M (· = d)) ∧ RunToGR M sem d ops s ∧ c ∈ s.trace ∧
    DeclaredG M (· = d) d False c ∧ ∀ D, ¬ DeclaredG M D d True c := by
  obtain ⟨s, h, hs⟩ := exists_runGR fork astray
    (fuel := 5) (n := 5) (d := 7) (w := []) (ops := [.process (ev 0) 1])
    (f := fun s => s.trace.any asked3) (by decide +kernel)
  obtain ⟨c, hc, hc3⟩ := List.any_eq_true.1 hs
  have hg : ∀ {U}, astray.Good U (GivesDG fork (· = 7)) :=
    semR_good (only_all fun op h => by
      rw [List.mem_singleton.1 h]
      exact ⟨opOkGRB_iff fork (by decide +kernel), fun _ h => by cases h⟩) never_all
  refine ⟨fork, astray, 7, _, s, c, fork_regularG, hg, h, hc, ?_, ?_⟩
  · exact (h.supplied (exact := False) fork_regularG hg False.elim
      (by intro d' hd; simpa [depsOf] using hd)).calls c hc
  · intro D hd
    cases hd with
    | @guard p st _ _ _ _ _ _ _ _ _ hp hst hcd hrow hl hd hg hat =>
      simp only [asked3, rowGuardArgs, Bool.and_eq_true, beq_iff_eq] at hc3
      obtain ⟨⟨_, rfl⟩, rfl⟩ := hc3
      obtain ⟨r, hr⟩ := hat trivial
      have heq : fork.comb p st = fork.comb 0 (.st 3) := by
        match r, hr with
        | 0, hr => simpa using hr.symm
      have h0 : (0 : Name) ∈ fork.composites := by decide +kernel
      have h3 : StTy.st 3 ∈ fork.states := by decide +kernel
      have hnone : fork.candsG (ev 0) 0 (.st 3) = [] := by decide +kernel
      cases fork_regular.comb_inj h0 h3 heq
      rw [hnone] at hcd
      cases hcd
    | action => cases hc3
    | handler => cases hc3

end

end Hsm
