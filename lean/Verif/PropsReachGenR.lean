import Verif.PropsSafeGenR
import Verif.PropsLedger

/-!
# What a machine of the amalgamated header can reach, read off its tables (C100)

As C64 and C94 for the modular headers: whatever callbacks send to the machine, nothing leaves what the
tables lead to.
-/

namespace Hsm

section
variable {P W : Type} (M : Machine) (sem : SemR P W)

/-! ## Specification -/

/-- The locations region `r` can get to with events in `E`: initial states of the root, and destinations of
external rows applicable at such locations.  A history row leads to initial states; what else is remembered
has been reached before. -/
inductive ReachesG (E : EventTy → Prop) (r : Nat) : Name → StTy → Prop
  | initial {i : Name} (h : (M.declaredInitials M.root)[r]? = some i) : ReachesG E r M.root (.st i)
  | target {p : Name} {st : StTy} {ev : EventTy} {c : Cand} {t : XRow} {l : Name × StTy}
      (h : ReachesG E r p st) (he : E ev) (hc : c ∈ M.candsG ev p st) (hr : c.row? = some t)
      (hi : t.internal = false) (hg : MayPassR sem ev t)
      (hn : ∀ o q, t.target ≠ .ps o (.history q)) (hl : M.targetLoc t = some l) :
      ReachesG E r l.1 l.2
  | history {p : Name} {st : StTy} {ev : EventTy} {c : Cand} {t : XRow} {o : Bool} {q i : Name}
      (h : ReachesG E r p st) (he : E ev) (hc : c ∈ M.candsG ev p st) (hr : c.row? = some t)
      (hi : t.internal = false) (hg : MayPassR sem ev t)
      (hq : t.target = .ps o (.history q)) (hq' : (M.declaredInitials q)[r]? = some i) :
      ReachesG E r q (.st i)

/-- A call sends an event in `E`, or hands over a dependency. -/
def PermitsG (E : EventTy → Prop) : Op P → Prop
  | .process ev _ => E ev
  | .set _ _ _ => False
  | .setDependency _ => True

/-- Callback `a` has a place in the tables where it can be called: it is the guard of a row
applicable at a location that can be reached, or one of the callbacks of such a row whose guard can
say yes. -/
def AliveG (E : EventTy → Prop) (guard : Bool) (a : Cb) : Prop :=
  ∃ r p st ev c t, ReachesG M sem E r p st ∧ E ev ∧ c ∈ M.candsG ev p st ∧ c.row? = some t ∧
    if guard then t.guard = some a else MayPassR sem ev t ∧ ∃ ph, (ph, a) ∈ M.callbacks t

/-- Locations closed under the rows `may` keeps. -/
structure ClosedG (may : EventTy → XRow → Bool) (L : List (Name × StTy)) : Prop where
  initial : ∀ i ∈ M.declaredInitials M.root, (M.root, StTy.st i) ∈ L
  target : ∀ x ∈ L, ∀ ev ∈ M.eventsG, ∀ c ∈ M.candsG ev x.1 x.2, ∀ t, c.row? = some t →
    t.internal = false → may ev t = true → ∀ l, M.targetLoc t = some l → l ∈ L
  history : ∀ x ∈ L, ∀ ev ∈ M.eventsG, ∀ c ∈ M.candsG ev x.1 x.2, ∀ t, c.row? = some t →
    t.internal = false → may ev t = true → ∀ o q, t.target = .ps o (.history q) →
    ∀ i ∈ M.declaredInitials q, (q, StTy.st i) ∈ L

/-! ## Proofs -/

/-- What is known of a callback that was called. -/
def FineG (E : EventTy → Prop) : Call P → Prop
  | .guard g _ _ _ _ => AliveG M sem E true g
  | .action _ a _ _ _ _ => AliveG M sem E false a
  | .handler h ev st _ _ _ _ => (M.decl M.root).handler = some h ∧ E ev ∧ ∃ p, ReachesG M sem E 0 p st

/-- The invariant. -/
structure WithinG (E : EventTy → Prop) (c : Conf P W) : Prop where
  slots : ∀ (r : Nat) l, c.slots[r]? = some (some l) → ReachesG M sem E r l.1 l.2
  memory : ∀ q ∈ M.composites, ∀ (r : Nat) l, (c.memory q)[r]? = some l →
    (∃ i, (M.declaredInitials q)[r]? = some i ∧ l = (q, .st i)) ∨ ReachesG M sem E r l.1 l.2
  waiting : ∀ x ∈ c.waiting, E x.1
  calls : ∀ k ∈ c.calls, FineG M sem E k

/-- The candidate is one for `ev` at a location region `r` can reach. -/
def WithinG.Row (E : EventTy → Prop) (ev : EventTy) (r : Nat) (cd : Cand) : Prop :=
  ∃ p st, ReachesG M sem E r p st ∧ E ev ∧ cd ∈ M.candsG ev p st

variable {M sem} {E : EventTy → Prop}

theorem Machine.row_of_candsG {ev : EventTy} {p : Name} {st : StTy} {c : Cand} {t : XRow}
    (hc : c ∈ M.candsG ev p st) (hr : c.row? = some t) :
    t.event = ev ∧ ((t ∈ M.extRows) ∨ (t ∈ M.intRowsG)) := by
  unfold candsG at hc
  rw [List.mem_append, List.mem_append] at hc
  rcases hc with (hc | hc) | hc
  · rw [(List.mem_replicate.1 hc).2] at hr; cases hr
  · obtain ⟨t', ht, h⟩ := List.mem_flatMap.1 hc
    have h1 := List.mem_filter.1 ht
    have : c.row? = some t' := by
      simp only [extCands, List.mem_append] at h
      rcases h with h | h <;> split at h <;> simp at h <;> subst h <;> rfl
    rw [hr] at this
    cases this
    exact ⟨by simpa using h1.2, Or.inl (by simpa using h1.1)⟩
  · obtain ⟨t', ht, h⟩ := List.mem_flatMap.1 hc
    have h1 := List.mem_filter.1 ht
    have : c.row? = some t' := by
      simp only [intCands] at h
      split at h <;> simp at h
      subst h; rfl
    rw [hr] at this
    cases this
    exact ⟨by simpa using h1.2, Or.inr (by simpa using h1.1)⟩

theorem Machine.intRowsG_internal {t : XRow} (h : t ∈ M.intRowsG) : t.internal = true := by
  unfold intRowsG at h
  obtain ⟨p, _, h⟩ := List.mem_flatMap.1 h
  cases p with
  | st s =>
    dsimp only at h
    split at h
    · obtain ⟨i, _, h⟩ := List.mem_flatMap.1 h
      obtain ⟨r, _, rfl⟩ := List.mem_map.1 h
      rfl
    · cases h
  | ps o k => cases h

theorem Machine.events_of_candsG {ev : EventTy} {p : Name} {st : StTy} {c : Cand} {t : XRow}
    (hc : c ∈ M.candsG ev p st) (hr : c.row? = some t) : ev ∈ M.eventsG := by
  obtain ⟨rfl, h⟩ := Machine.row_of_candsG hc hr
  unfold eventsG
  rw [List.mem_eraseDups]
  exact List.mem_map_of_mem (List.mem_append.2 h)

theorem WithinG.travel {c c' : Conf P W} {r : Nat} {ev : EventTy} {cd : Cand} {t : XRow} {l : Name × StTy}
    (h : WithinG M sem E c) (hC : WithinG.Row M sem E ev r cd) (ht : cd.row? = some t)
    (hl : M.targetLoc t = some l) (hg : MayPassR sem ev t) (hc : M.travel r t l c = .ok () c') :
    WithinG M sem E c' := by
  obtain ⟨p, st, hre, hev, hcd⟩ := hC
  have hput : ∀ {l' : Name × StTy} {c1 c2 : Conf P W}, WithinG M sem E c1 → ReachesG M sem E r l'.1 l'.2 →
      Machine.put r l' c1 = .ok () c2 → WithinG M sem E c2 := by
    intro l' c1 c2 h1 hl' h2
    unfold Machine.put at h2
    split at h2
    · cases h2
      refine ⟨fun i k hk => ?_, h1.memory, h1.waiting, h1.calls⟩
      dsimp only at hk
      rw [List.getElem?_set] at hk
      split at hk
      · rename_i hri
        subst hri
        cases hk; exact hl'
      · exact h1.slots i k hk
    · cases h2
  have hrec : ∀ {c1 c2 : Conf P W}, WithinG M sem E c1 → M.recount c1 = .ok () c2 → WithinG M sem E c2 := by
    intro c1 c2 h1 h2
    obtain ⟨e1, e2, e3, _, _, e6, _⟩ := recount_eq h2
    exact ⟨by rw [e1]; exact h1.slots, by rw [e2]; exact h1.memory, by rw [e6]; exact h1.waiting,
      by rw [e3]; exact h1.calls⟩
  unfold Machine.travel at hc
  split at hc
  · cases hc; exact h
  · rename_i hi
    rw [Bool.not_eq_true] at hi
    have hext : t ∈ M.extRows := by
      rcases (Machine.row_of_candsG hcd ht).2 with h1 | h1
      · exact h1
      · rw [Machine.intRowsG_internal h1] at hi; cases hi
    split at hc
    · obtain ⟨_, c1, h1, h2⟩ := Res.bind_ok.1 hc
      obtain ⟨_, c2, h3, h4⟩ := Res.bind_ok.1 h2
      have hw1 : WithinG M sem E c1 := by
        unfold Machine.remember at h1
        obtain ⟨l0, c3, h5, h6⟩ := Res.bind_ok.1 h1
        obtain ⟨rfl, hl0⟩ := seek_eq h5
        obtain ⟨lr, c4, h7, h8⟩ := Res.bind_ok.1 h6
        obtain ⟨rfl, hlr⟩ := seek_eq h7
        split at h8
        · cases h8
          refine ⟨h.slots, fun q hq i k hk => ?_, h.waiting, h.calls⟩
          dsimp only at hk
          split at hk
          · rw [List.getElem?_set] at hk
            split at hk
            · rename_i hri
              subst hri
              split at hk
              · cases hk; exact Or.inr (h.slots _ _ hlr)
              · cases hk
            · exact h.memory q hq i k hk
          · exact h.memory q hq i k hk
        · cases h8
      refine hrec ?_ h4
      split at h3
      · rename_i hto
        obtain ⟨lq, c3, h5, h6⟩ := Res.bind_ok.1 h3
        obtain ⟨o, q, hq⟩ : ∃ o q, t.target = .ps o (.history q) := by
          unfold Machine.toHistory at hto
          split at hto
          · exact ⟨_, _, by assumption⟩
          · cases hto
        have hlq : l.1 = q := by
          unfold Machine.targetLoc at hl
          rw [hq] at hl
          obtain ⟨i, _, rfl⟩ := Option.map_eq_some_iff.1 hl
          rfl
        unfold Machine.recall at h5
        split at h5
        · rename_i hcomp
          split at h5
          · cases h5
          · rename_i l' hl'
            cases h5
            refine hput hw1 ?_ h6
            rcases hw1.memory _ hcomp _ _ hl' with ⟨i, hi', rfl⟩ | h7
            · rw [hlq] at hi' ⊢
              exact .history hre hev hcd ht hi hg hq hi'
            · exact h7
        · cases h5
      · rename_i hto
        refine hput hw1 (.target hre hev hcd ht hi hg ?_ hl) h3
        intro o q hq
        rw [hq] at hto
        exact hto rfl
    · rename_i hH
      obtain ⟨_, c1, h1, h2⟩ := Res.bind_ok.1 hc
      refine hrec (hput h (.target hre hev hcd ht hi hg ?_ hl) h1) h2
      intro o q hq
      exact hH (Machine.historic_of_mem hext (by rw [hq]; rfl))

theorem Upholds.within (hE : E .none)
    (hg : sem.Good True (fun op => OpOkGR M op ∧ PermitsG E op)) :
    Upholds M sem (fun _ => True) (fun op => OpOkGR M op ∧ PermitsG E op) (fun _ => True) E
      (WithinG M sem E) (WithinG.Row M sem E) (FineG M sem E) where
  good := hg
  world := fun _ _ h => ⟨h.slots, h.memory, h.waiting, h.calls⟩
  noted := by
    intro c k h hk
    refine ⟨h.slots, h.memory, h.waiting, fun k' hk' => ?_⟩
    rcases List.mem_append.1 hk' with hk' | hk'
    · exact h.calls k' hk'
    · rw [List.mem_singleton.1 hk']; exact hk
  obj := fun _ _ _ _ => trivial
  anon := hE
  sent := fun _ _ h => h.2
  noSet := fun _ _ _ h => h.1
  queued := fun c ev p q h hq => h.waiting (ev, p) (by rw [hq]; exact List.mem_cons_self)
  regions := fun _ _ _ _ => trivial
  zero := trivial
  look := fun _ _ _ _ => Or.inl fun _ => trivial
  cand := by
    intro c r l ev cd h _ hs hv hcd
    exact ⟨_, _, h.slots r l (seek_eq hs).2, hv, hcd⟩
  null := fun _ _ _ _ _ _ _ => trivial
  nullAnon := fun _ _ _ _ _ => trivial
  iter := fun _ _ _ _ _ _ _ _ _ _ _ _ _ => Or.inl trivial
  move := by
    intro c ev r cd t l h _ hC ht hl hp
    cases hc : M.travel r t l c with
    | ok u c' => exact h.travel hC ht hl hp hc
    | throw x c' => exact absurd hc travel_quiet
    | ub u => trivial
    | timeout => trivial
  push := by
    intro c ev r cd p h hC _
    refine ⟨h.slots, h.memory, fun x hx => ?_, h.calls⟩
    rcases List.mem_append.1 hx with hx | hx
    · exact h.waiting x hx
    · rw [List.mem_singleton.1 hx]
      obtain ⟨_, _, _, he, _⟩ := hC
      exact he
  pop := fun c x q h hq => ⟨h.slots, h.memory,
    fun y hy => h.waiting y (by rw [hq]; exact List.mem_cons_of_mem _ hy), h.calls⟩
  dep := fun _ _ _ h => ⟨h.slots, h.memory, h.waiting, h.calls⟩
  guard := by
    intro ev r cd t g args p b hC ht hgd
    obtain ⟨q, st, h1, h2, h3⟩ := hC
    exact ⟨r, q, st, ev, cd, t, h1, h2, h3, ht, by rw [if_pos rfl]; exact hgd⟩
  action := by
    intro ev r cd t cs ph a args p b hC ht hp hcs hm
    obtain ⟨q, st, h1, h2, h3⟩ := hC
    refine ⟨r, q, st, ev, cd, t, h1, h2, h3, ht, ?_⟩
    rw [if_neg (by simp)]
    refine ⟨hp, ph, ?_⟩
    rw [← Machine.toRun_cbs, hcs]
    exact hm
  handler := fun c ev k l d p b h hv hk hl => ⟨hk, hv, _, h.slots 0 l (seek_eq hl).2⟩

theorem WithinG.fresh (d : Dep) (w : W) : WithinG M sem E (M.fresh d w) := by
  refine ⟨?_, ?_, (by intro x hx; cases hx), (by intro x hx; cases hx)⟩
  · intro r l hl
    unfold Machine.fresh at hl
    dsimp only at hl
    rw [List.getElem?_append] at hl
    split at hl
    · rw [List.getElem?_map] at hl
      obtain ⟨i, hi, h⟩ := Option.map_eq_some_iff.1 hl
      cases h
      exact .initial hi
    · have := List.mem_of_getElem? hl
      cases (List.mem_replicate.1 this).2
  · intro q hq r l hl
    unfold Machine.fresh at hl
    dsimp only at hl
    rw [List.getElem?_map] at hl
    obtain ⟨i, hi, rfl⟩ := Option.map_eq_some_iff.1 hl
    exact Or.inl ⟨i, hi, rfl⟩

theorem Prog.Good.weaken {α : Type} {U : Prop} {Q Q' : Op P → Prop} (hQ : ∀ op, Q op → Q' op) :
    ∀ {pr : Prog P W α}, pr.Good U Q → pr.Good U Q' := by
  intro pr
  induction pr with
  | ret => intro _; trivial
  | throw => intro _; trivial
  | ub => intro h; exact h
  | call op w k ih => intro h; exact ⟨hQ _ h.1, fun r w => ih r w (h.2 r w)⟩

theorem SemR.Good.weaken {U : Prop} {Q Q' : Op P → Prop} (hQ : ∀ op, Q op → Q' op) (h : sem.Good U Q) :
    sem.Good U Q' :=
  ⟨fun g a p w => (h.guard g a p w).weaken hQ, fun g a p w => (h.action g a p w).weaken hQ,
    fun g e st d p w => (h.handler g e st d p w).weaken hQ⟩

theorem RunToGR.within (hM : M.RegularG) (hE : E .none)
    (hg : sem.Good True (fun op => OpOkGR M op ∧ PermitsG E op)) {d : Dep} {ops : List (Op P)} {s : SM P W}
    (h : RunToGR M sem d ops s) (hops : ∀ op ∈ ops, PermitsG E op) :
    ∃ c, DepictsG M c s ∧ WithinG M sem E c :=
  (Upholds.within hE hg).runs hM (hg.weaken fun _ h => h.1) (fun w => WithinG.fresh d w) h
    fun op ho => ⟨h.ops_ok op ho, hops op ho⟩

/-! ## C100 -/

/-- C100: callbacks may send events in `E`, and so may the user.  Every region is at a location that the
tables lead to with them. -/
theorem C100_locations (hM : M.RegularG) (hE : E .none)
    (hg : sem.Good True (fun op => OpOkGR M op ∧ PermitsG E op)) {d : Dep} {ops : List (Op P)} {s : SM P W}
    (h : RunToGR M sem d ops s) (hops : ∀ op ∈ ops, PermitsG E op) {r : Nat} {p : Name} {st : StTy}
    (ha : At M s r p st) : ReachesG M sem E r p st := by
  obtain ⟨c, hc, hw⟩ := h.within hM hE hg hops
  obtain ⟨hp, hst, ha⟩ := ha
  rw [hc.cur, List.getElem?_map] at ha
  obtain ⟨x, hx, h1⟩ := Option.map_eq_some_iff.1 ha
  cases x with
  | none => cases h1
  | some l =>
    have h1 : M.comb l.1 l.2 = M.comb p st := Option.some.inj h1
    have := hM.laid.comb_inj hp hst h1
    have h2 := hw.slots r l hx
    cases this
    exact h2

/-- C100: guards and actions that are alive nowhere in the tables are never called; the handler is called
only for events that are sent, with a state region 0 can be in. -/
theorem C100_callbacks (hM : M.RegularG) (hE : E .none)
    (hg : sem.Good True (fun op => OpOkGR M op ∧ PermitsG E op)) {d : Dep} {ops : List (Op P)} {s : SM P W}
    (h : RunToGR M sem d ops s) (hops : ∀ op ∈ ops, PermitsG E op) :
    (∀ g args q res cur, Call.guard g args q res cur ∈ s.trace → AliveG M sem E true g) ∧
    (∀ ph a args q b cur, Call.action ph a args q b cur ∈ s.trace → AliveG M sem E false a) ∧
    ∀ hd ev st d' q b cur, Call.handler hd ev st d' q b cur ∈ s.trace →
      (M.decl M.root).handler = some hd ∧ E ev ∧ ∃ p, ReachesG M sem E 0 p st := by
  obtain ⟨c, hc, hw⟩ := h.within hM hE hg hops
  have key : ∀ k ∈ s.trace, FineG M sem E k.bare := fun k hk =>
    hw.calls _ (by rw [← hc.trace]; exact List.mem_map_of_mem hk)
  exact ⟨fun _ _ _ _ _ hk => key _ hk, fun _ _ _ _ _ _ hk => key _ hk, fun _ _ _ _ _ _ _ hk => key _ hk⟩

/-- A closed set of locations contains all that can be reached. -/
theorem ReachesG.closed {may : EventTy → XRow → Bool} {K : List (Name × StTy)} (hK : ClosedG M may K)
    (hmay : ∀ ev t, E ev → MayPassR sem ev t → may ev t = true) {r : Nat} {p : Name} {st : StTy}
    (h : ReachesG M sem E r p st) : (p, st) ∈ K := by
  induction h with
  | initial h => exact hK.initial _ (List.mem_of_getElem? h)
  | target _ he hc hr hi hg _ hl ih =>
    exact hK.target _ ih _ (Machine.events_of_candsG hc hr) _ hc _ hr hi (hmay _ _ he hg) _ hl
  | history _ he hc hr hi hg hq hq' ih =>
    exact hK.history _ ih _ (Machine.events_of_candsG hc hr) _ hc _ hr hi (hmay _ _ he hg) _ _ hq _
      (List.mem_of_getElem? hq')

/-- C100: the version one checks on the tables.  A set of locations that contains the initial ones and is
closed under the rows is never left. -/
theorem C100_closed (hM : M.RegularG) {may : EventTy → XRow → Bool} {K : List (Name × StTy)}
    (hK : ClosedG M may K) (hE : E .none)
    (hg : sem.Good True (fun op => OpOkGR M op ∧ PermitsG E op)) {d : Dep} {ops : List (Op P)} {s : SM P W}
    (h : RunToGR M sem d ops s) (hops : ∀ op ∈ ops, PermitsG E op)
    (hmay : ∀ ev t, E ev → MayPassR sem ev t → may ev t = true) {r : Nat} {p : Name}
    {st : StTy} (ha : At M s r p st) : (p, st) ∈ K :=
  (C100_locations hM hE hg h hops ha).closed hK hmay

end

/-! ## Examples -/

section
open Ex

/-- Evaluates `ClosedG`. -/
def Ex.closedGB (M : Machine) (may : EventTy → XRow → Bool) (L : List (Name × StTy)) : Bool :=
  (M.declaredInitials M.root).all (fun i => decide ((M.root, StTy.st i) ∈ L)) &&
  L.all fun x => M.eventsG.all fun ev => (M.candsG ev x.1 x.2).all fun c =>
    match c.row? with
    | none => true
    | some t => t.internal || !may ev t ||
      ((match M.targetLoc t with | some l => decide (l ∈ L) | none => true) &&
       (match t.target with
        | .ps _ (.history q) => (M.declaredInitials q).all fun i => decide ((q, StTy.st i) ∈ L)
        | _ => true))

theorem Ex.closedG_of_check {M : Machine} {may : EventTy → XRow → Bool} {L : List (Name × StTy)}
    (h : closedGB M may L = true) : ClosedG M may L := by
  unfold closedGB at h
  simp only [Bool.and_eq_true, List.all_eq_true, decide_eq_true_eq] at h
  have key : ∀ x ∈ L, ∀ ev ∈ M.eventsG, ∀ c ∈ M.candsG ev x.1 x.2, ∀ t, c.row? = some t →
      t.internal = false → may ev t = true → (∀ l, M.targetLoc t = some l → l ∈ L) ∧
        ∀ o q, t.target = .ps o (.history q) → ∀ i ∈ M.declaredInitials q, (q, StTy.st i) ∈ L := by
    intro x hx ev hev c hc t ht hi hm
    have := h.2 x hx ev hev c hc
    rw [ht] at this
    simp only [hi, hm, Bool.not_true, Bool.false_or, Bool.and_eq_true] at this
    constructor
    · intro l hl
      have := this.1
      rw [hl] at this
      simpa using this
    · intro o q hq i hi
      have := this.2
      rw [hq] at this
      simp only [List.all_eq_true, decide_eq_true_eq] at this
      exact this i hi
  exact ⟨h.1, fun x hx ev hev c hc t ht hi hm => (key x hx ev hev c hc t ht hi hm).1,
    fun x hx ev hev c hc t ht hi hm => (key x hx ev hev c hc t ht hi hm).2⟩

theorem Ex.onward_permitsG : onward.Good True (fun op => OpOkGR hop op ∧ PermitsG notOne op) :=
  semR_good never_all (only_all fun op h => by
    rw [List.mem_singleton.1 h]
    exact ⟨hop_okG 2 (by decide) 8, by show ev 2 ≠ ev 1; decide⟩)

/-- An action of `hop` sends event 2 to it; the user does not send event 1: state 3 is never visited. -/
example {ops : List (Op Nat)} {s : SM Nat (List Nat)} (h : RunToGR hop onward 7 ops s)
    (hops : ∀ op ∈ ops, PermitsG notOne op) : ¬ At hop s 0 0 (.st 3) := by
  intro ha
  refine absurd (C100_closed hop_regularG (K := [(0, .st 1), (0, .st 2)])
    (may := fun e _ => e != ev 1) (closedG_of_check (by decide +kernel))
    (by show EventTy.none ≠ ev 1; decide) onward_permitsG h hops ?_ ha) (by decide)
  intro e t he _
  simpa [notOne] using he

/-- There is such a history, with two moves, the second inside the first. -/
example : ∃ s, RunToGR hop onward 7 [.process (ev 0) 1] s ∧ s.log.length = 2 ∧
    (∀ op ∈ [Op.process (ev 0) 1], PermitsG notOne op) ∧ ReachesG hop onward notOne 0 0 (.st 2) := by
  obtain ⟨s, h1, h2⟩ := exists_runR hop onward (fuel := 5) (n := 5) (d := 7) (w := [])
    (ops := [.process (ev 0) 1]) (f := fun s => decide (s.log.length = 2)) (by decide +kernel)
  refine ⟨s, (C98_runs_partial hop_regular hop_plain (by decide +kernel) (onward_permitsG.weaken fun _ h => h.1)
    semR_incurious semR_keepsNone 7 _ ?_ s).2 h1, of_decide_eq_true h2, ?_, ?_⟩
  · intro op h; cases List.mem_singleton.1 h; exact hop_okG 0 (by decide) _
  · intro op h; rw [List.mem_singleton.1 h]; show ev 0 ≠ ev 1; decide
  · refine .target (l := (0, .st 2)) (.initial (i := 1) (by decide +kernel)) (ev := ev 0)
      (c := (hop.candsG (ev 0) 0 (.st 1)).headD .defer) (by show ev 0 ≠ ev 1; decide) (by decide +kernel)
      (t := ((hop.candsG (ev 0) 0 (.st 1)).headD .defer).row?.getD ⟨0, .st 0, ev 0, none, none, .st 0, true⟩)
      (by decide +kernel) (by decide +kernel) ?_ ?_ (by decide +kernel)
    · intro g hg
      refine ⟨⟨ev 0, .st 1, .st 2, false, 7⟩, 0, [], rfl, .ret _ _⟩
    · intro o q
      have : ((hop.candsG (ev 0) 0 (.st 1)).headD .defer).row?.map (·.target) = some (.st 2) := by
        decide +kernel
      obtain ⟨t, ht, h⟩ := Option.map_eq_some_iff.1 this
      rw [ht]
      show t.target ≠ _
      rw [h]
      simp

theorem Ex.maze_regularG : maze.RegularG := Machine.regularG_ofList (by decide +kernel)

/-- Nothing leads to states 3 and 4 of `maze`: whatever callbacks send to it, action 9 is never called. -/
example {d : Dep} {ops : List (Op Nat)} {s : SM Nat (List Nat)} {sem : SemR Nat (List Nat)}
    (hg : sem.Good True (fun op => OpOkGR maze op ∧ PermitsG (fun _ => True) op))
    (h : RunToGR maze sem d ops s) (hns : ∀ op ∈ ops, PermitsG (fun _ => True) op)
    (ph args q b cur) : Call.action ph 9 args q b cur ∉ s.trace := by
  intro hc
  obtain ⟨r, p, st, e, c, t, hr, _, hcd, ht, -, ph', hm⟩ :=
    (C100_callbacks maze_regularG trivial hg h hns).2.1 _ _ _ _ _ _ hc
  have hin := hr.closed (K := [(0, .st 1), (0, .st 2), (5, .st 6), (5, .st 7)]) (may := fun _ _ => true)
    (closedG_of_check (by decide +kernel)) (fun _ _ _ _ => rfl)
  have hev := Machine.events_of_candsG hcd ht
  have key : ([((0 : Name), StTy.st 1), (0, .st 2), (5, .st 6), (5, .st 7)].all fun x =>
      maze.eventsG.all fun e => (maze.candsG e x.1 x.2).all fun c =>
        match c.row? with
        | some t => (maze.callbacks t).all fun x => x.2 != 9
        | none => true) = true := by decide +kernel
  have := List.all_eq_true.1 (List.all_eq_true.1 (List.all_eq_true.1 key _ hin) _ hev) _ hcd
  rw [ht] at this
  exact absurd (List.all_eq_true.1 this _ hm) (by simp)

end
end Hsm
