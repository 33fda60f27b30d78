import Verif.PropsCalls

/-!
# Nothing without consent, at any depth (C95)

Callbacks may call the machine they run in, to any depth.  The trace has callbacks in the order they end,
the log has moves in the order they are made, each with the number of callbacks that had ended before.

Specification and proofs are for either header: `C` says which candidates a location has for an event, and that
is where the headers differ.  PropsConsentGen.lean has the amalgamated header (C109).
-/

namespace Hsm

/-! ## Specification -/

/-- A use of a row: candidate `cd` of location `(p, st)` is row `t` for event `ev`; it leads to `l` and its
callbacks get dependency `dep`. -/
structure Use where
  p : Name
  st : StTy
  cd : Cand
  t : XRow
  l : Name × StTy
  ev : EventTy
  dep : Dep

/-- No calls of `set`. -/
def Unset (_ : Nat) (_ : Name) (_ : StTy) : Prop := False

section
variable {P W : Type} (M : Machine) (C : EventTy → Name → StTy → List Cand) (D : Dep → Prop)
  (S : Nat → Name → StTy → Prop)

/-- The row is declared, applies to the event at the location, and `D` holds of the dependency. -/
def Use.Declared (u : Use) : Prop :=
  u.p ∈ M.composites ∧ u.st ∈ M.states ∧ u.cd ∈ C u.ev u.p u.st ∧ u.cd.row? = some u.t ∧
    M.targetLoc u.t = some u.l ∧ D u.dep

/-- Region `r` has been at location `(p, st)`: it was there first, or one of the moves in `log` took it there, or
it was put there by `set` (`S` says which calls of `set` there are). -/
def Visited (log : List Firing) (r : Nat) (p : Name) (st : StTy) : Prop :=
  (∃ q, p = M.root ∧ st = .st q ∧ (M.declaredInitials M.root)[r]? = some q) ∨
    (∃ f ∈ log, f.region = r ∧ f.after[r]? = some (some (M.comb p st))) ∨ S r p st

/-- The last of the calls `pre` is that of the guard of the row, for this event, and it said yes; if the row
has a guard. -/
def Use.Allowed (u : Use) (pre : List (Call P)) : Prop :=
  ∀ g, u.t.guard = some g → ∃ tr q cur,
    pre = tr ++ [.guard g (rowGuardArgs u.cd u.t u.l u.ev u.dep) q (some true) cur]

/-- Move `f` is one of row `t`: it moves one region to the destination of the row, for history rows to the
location described by `mem`. -/
def RowMove (mem : Name → Nat → Nat → Prop) (t : XRow) (f : Firing) : Prop :=
  ∃ c, f.after = f.before.set f.region (some c) ∧
    (∀ o q, t.target = .ps o (.history q) → mem q f.region c) ∧
    ((∀ o q, t.target ≠ .ps o (.history q)) → ∃ l, M.targetLoc t = some l ∧ c = M.comb l.1 l.2)

/-- Move `f`, made after the moves `l1`, has consent: it is one of a declared external row that applied where
the region has been, made at the moment the guard of this row had said yes to the event, and no other move was
made on this yes. -/
def MoveHasConsent (trace : List (Call P)) (l1 : List Firing) (f : Firing) : Prop :=
  ∃ u : Use, u.Declared M C D ∧ u.t.internal = false ∧ RowMove M (Memo M (l1 ++ [f])) u.t f ∧
    Visited M S l1 f.region u.p u.st ∧ f.calls ≤ trace.length ∧ u.Allowed (trace.take f.calls) ∧
    (u.t.guard ≠ none → ∀ f' ∈ l1, f'.calls < f.calls)

/-- A callback `(ph, a)` called with `args`, after the calls `t0` have ended, has consent: it is
one of a declared row that applied where some region has been; after the first `n` calls the guard of
this row had said yes to the event; if the row is external the machine was moved as it says at that
moment; and since then the callbacks of the row that come before this one have been called, with the same arguments, and have returned. -/
def ActionHasConsent (log : List Firing) (t0 : List (Call P)) (ph : Phase) (a : Cb) (args : Args) : Prop :=
  ∃ (u : Use) (n : Nat) (cs1 cs2 : List (Phase × Cb)) (ds : List (Call P)), u.Declared M C D ∧
    args = cbArgs M u.cd u.t u.l u.ev u.dep ∧ M.callbacks u.t = cs1 ++ (ph, a) :: cs2 ∧ n ≤ t0.length ∧
    u.Allowed (t0.take n) ∧
    (u.t.internal = false → ∃ l1 f l2, log = l1 ++ f :: l2 ∧ f.calls = n ∧
      RowMove M (Memo M (l1 ++ [f])) u.t f ∧ Visited M S l1 f.region u.p u.st) ∧
    (∃ r, Visited M S log r u.p u.st) ∧
    List.Forall₂ (fun c d => ∃ q cur, d = Call.action c.1 c.2 args q false cur) cs1 ds ∧
    ds.Sublist (t0.drop n)

/-- Calls that give the machine only dependencies of which `D` holds and put regions only where `S` says. -/
def GivesDS (op : Op P) : Prop :=
  GivesD M D op ∧ ∀ r p st, op = .set r p st → S (r % 256) p st

/-! ## Proofs -/

/-- The invariant. -/
structure Consent (s : SM P W) : Prop where
  calls : ∀ f ∈ s.log, f.calls ≤ s.trace.length
  moves : ∀ l1 f l2, s.log = l1 ++ f :: l2 → MoveHasConsent M C D S s.trace l1 f
  acts : ∀ t0 ph a args q b cur t1, s.trace = t0 ++ .action ph a args q b cur :: t1 →
    ActionHasConsent M C D S s.log t0 ph a args

variable {M C D S} {sem : SemR P W} {d : Dep}

theorem Consent.of_eq {s s' : SM P W} (h : Consent M C D S s) (h1 : s'.log = s.log)
    (h2 : s'.trace = s.trace) : Consent M C D S s' where
  calls := by rw [h1, h2]; exact h.calls
  moves := by rw [h1, h2]; exact h.moves
  acts := by rw [h1, h2]; exact h.acts

theorem Visited.grow {log log' : List Firing} {r : Nat} {p : Name} {st : StTy}
    (h : Visited M S log r p st) (hl : log <+: log') : Visited M S log' r p st := by
  rcases h with h | ⟨f, hf, h⟩ | h
  · exact Or.inl h
  · exact Or.inr (Or.inl ⟨f, hl.subset hf, h⟩)
  · exact Or.inr (Or.inr h)

theorem ActionHasConsent.grow {log log' : List Firing} {t0 : List (Call P)} {ph : Phase} {a : Cb}
    {args : Args} (h : ActionHasConsent M C D S log t0 ph a args) (hl : log <+: log') :
    ActionHasConsent M C D S log' t0 ph a args := by
  obtain ⟨u, n, cs1, cs2, ds, h1, h2, h3, h4, h5, h6, ⟨r, hr⟩, h7, h8⟩ := h
  refine ⟨u, n, cs1, cs2, ds, h1, h2, h3, h4, h5, fun hi => ?_, ⟨r, hr.grow hl⟩, h7, h8⟩
  obtain ⟨l1, f, l2, h9, h10⟩ := h6 hi
  obtain ⟨l3, rfl⟩ := hl
  exact ⟨l1, f, l2 ++ l3, by rw [h9]; simp, h10⟩

/-- What the proofs need to know about a header: its indices work, and the external rows of candidates are rows
of the machine, which all compile. -/
structure Offers (M : Machine) (C : EventTy → Name → StTy → List Cand) : Prop where
  laid : M.Laid
  compiles : ∀ t ∈ M.flat, M.rowCompiles t = true
  rows : ∀ ev p st cd t, cd ∈ C ev p st → cd.row? = some t → t.internal = false → t ∈ M.flat

/-- Entry `e` is that of a candidate for `ev` where region `r` has been, with a dependency of which `D`
holds. -/
def Drawn (M : Machine) (C : EventTy → Name → StTy → List Cand) (D : Dep → Prop)
    (S : Nat → Name → StTy → Prop) (ev : EventTy) (r : Nat) (e : Entry) (s : SM P W) : Prop :=
  ∃ p ∈ M.composites, ∃ st ∈ M.states, ∃ d cd, cd ∈ C ev p st ∧ D d ∧ M.entryOfCand d cd = some e ∧
    Visited M S s.log r p st

/-- The entries of a table are those of candidates. -/
def FilledFrom (M : Machine) (C : EventTy → Name → StTy → List Cand) (D : Dep → Prop) (T : Table) : Prop :=
  ∀ ev, ∀ p ∈ M.composites, ∀ st ∈ M.states, ∀ e ∈ T ev (M.comb p st),
    ∃ d cd, cd ∈ C ev p st ∧ D d ∧ M.entryOfCand d cd = some e

/-- The use of a row behind an entry. -/
theorem Drawn.use (hC : Offers M C) {ev : EventTy} {r : Nat} {e : Entry} {s : SM P W} {x : Exec}
    (h : Drawn M C D S ev r e s) (hx : e.tr = some x) :
    ∃ u : Use, u.Declared M C D ∧ Visited M S s.log r u.p u.st ∧ u.ev = ev ∧
      x.guard = u.t.guard ∧ x.action = M.toRun u.t ∧
      x.internal = u.t.internal ∧ e.internal = u.t.internal ∧
      actionArgs M x ev = cbArgs M u.cd u.t u.l u.ev u.dep ∧
      (⟨ev, x.src, if x.internal then x.src else x.dst, false, x.dep⟩ : Args) =
        rowGuardArgs u.cd u.t u.l u.ev u.dep ∧
      e.to = M.comb u.l.1 u.l.2 ∧ e.history = Machine.isHistory u.t.target ∧
      (u.t.internal = false → u.t ∈ M.flat) := by
  obtain ⟨p, hp, st, hst, d', cd, hcd, hd, hen, hv⟩ := h
  obtain ⟨t, l, hrow, hl, hi, hac, hgd, hsrc, hdst, hdep⟩ := entryOfCand_exec hen hx
  have hent : e.to = M.comb l.1 l.2 ∧ e.history = Machine.isHistory t.target ∧ e.internal = t.internal := by
    rcases Machine.entryOfCand_cases hen with ⟨_, _, h2, _⟩ | ⟨t', l', _, h1, h2, h3, h4, _, h5, _⟩
    · rw [hx] at h2; cases h2
    · have : t' = t := by
        rcases h1 with rfl | ⟨q, rfl⟩ <;> cases hrow <;> rfl
      subst this
      rw [hl] at h2; cases h2
      exact ⟨h3, h4, h5⟩
  refine ⟨⟨p, st, cd, t, l, ev, d'⟩, ⟨hp, hst, hcd, hrow, hl, hd⟩, hv, rfl, hgd, hac, hi, hent.2.2, ?_, ?_,
    hent.1, hent.2.1, hC.rows _ _ _ _ _ hcd hrow⟩
  · unfold actionArgs cbArgs
    rw [hi, hsrc, hdst, hdep, Machine.defaultCtor_eq]
    cases M.selfMade l.2 <;> cases t.internal <;> rfl
  · rw [hi, hsrc, hdst, hdep]; rfl

theorem Asked.allowed {I : SM P W → Prop} {ev : EventTy} {x : Exec} {s : SM P W} {u : Use}
    (h : Asked I ev x s) (hg : x.guard = u.t.guard)
    (ha : (⟨ev, x.src, if x.internal then x.src else x.dst, false, x.dep⟩ : Args) =
      rowGuardArgs u.cd u.t u.l u.ev u.dep) : u.Allowed s.trace := by
  intro g hu
  obtain ⟨s0, q, cur, _, rfl⟩ := h g (hg.trans hu)
  exact ⟨s0.trace, q, cur, by rw [ha]⟩

/-- What the moves need: the memory is that of the moves made. -/
structure Mindful (M : Machine) (s : SM P W) : Prop where
  initial : s.initial = M.initialTable
  shape : s.hist.length = M.nParents
  memory : M.historic = true → ∀ p ∈ M.composites, ∀ r c, Remembers M s p r c ↔ Memo M s.log p r c

theorem Mindful.of_eq {s s' : SM P W} (h : Mindful M s) (h1 : s'.initial = s.initial) (h2 : s'.hist = s.hist)
    (h3 : s'.log = s.log) : Mindful M s' where
  initial := h1.trans h.initial
  shape := by rw [h2]; exact h.shape
  memory := by unfold Remembers; rw [h2, h3]; exact h.memory

theorem Mindful.moved (hC : Offers M C) {s s' : SM P W} {r : Nat} {e : Entry} (h : Mindful M s) {t : XRow}
    (ht : t ∈ M.flat) {l : Name × StTy} (hl : M.targetLoc t = some l) (hto : e.to = M.comb l.1 l.2)
    (hh : e.history = Machine.isHistory t.target) (hm : Moved M r e s s') :
    Mindful M s' ∧ RowMove M (Memo M (s.log ++ [⟨r, s.cur, s'.cur, s.trace.length⟩])) t
      ⟨r, s.cur, s'.cur, s.trace.length⟩ := by
  have hmv := hm.movesL hC.laid hC.compiles h.shape h.initial ht hl hto hh
  have hmem := hmv.remembersL hC.laid h.memory
  refine ⟨⟨hm.initial.trans h.initial, ?_, hmem⟩, ?_⟩
  · have := congrArg List.length hm.histLen
    rw [List.length_map, List.length_map] at this
    exact this.trans h.shape
  · obtain ⟨c, hcur, h1, h2⟩ := hmv.dest
    refine ⟨c, hcur, ?_, h2⟩
    intro o q hq
    have := (hmem (Machine.historic_of ht hq) q (hC.laid.history_target hC.compiles ht hq).1 r c).1 (h1 o q hq)
    rwa [hm.log] at this

/-- The whole invariant. -/
structure Agreed (M : Machine) (C : EventTy → Name → StTy → List Cand) (D : Dep → Prop)
    (S : Nat → Name → StTy → Prop) (s : SM P W) : Prop where
  mind : Mindful M s
  places : ∀ r : Nat, ∀ p ∈ M.composites, ∀ st ∈ M.states, s.cur[r]? = some (some (M.comb p st)) →
    Visited M S s.log r p st
  table : FilledFrom M C D s.table
  consent : Consent M C D S s

theorem Agreed.of_eq {s s' : SM P W} (h : Agreed M C D S s) (h1 : s'.initial = s.initial)
    (h2 : s'.hist = s.hist) (h3 : s'.table = s.table) (h4 : s'.log = s.log) (h5 : s'.trace = s.trace)
    (h6 : s'.cur = s.cur) : Agreed M C D S s' where
  mind := h.mind.of_eq h1 h2 h4
  places := by rw [h4, h6]; exact h.places
  table := by rw [h3]; exact h.table
  consent := h.consent.of_eq h4 h5

theorem By.consent (hC : Offers M C) {V : EventTy → Prop} {s' : SM P W} {ph : Phase} {a : Cb} {args : Args}
    {q : P} {b : Bool} {cur : List (Option Nat)}
    (h : By M sem (Agreed M C D S) (Drawn M C D S) V (.action ph a args q b cur) s') :
    ActionHasConsent M C D S s'.log s'.trace ph a args := by
  cases h with
  | @action s s1 _ _ ev r e x cs1 cs2 _ _ ds tr hs he hpa hask hx hmv hcs hds htr hsub hlog q b cur =>
    obtain ⟨u, hu, hv, _, hgd, hac, _, hei, hargs, hgargs, hto, hh, hf⟩ := he.use hC hx
    have htr1 : s1.trace = s.trace := by
      rcases updateState_ok hmv with ⟨_, rfl⟩ | hm
      · rfl
      · exact hm.trace
    refine ⟨u, s.trace.length, cs1, cs2, ds, hu, hargs, ?_, ?_, ?_, ?_, ⟨r, hv.grow ?_⟩, hds, ?_⟩
    · rw [← Machine.toRun_cbs, ← hac, hcs]; rfl
    · rw [htr, htr1, List.length_append]; exact Nat.le_add_right _ _
    · rw [htr, htr1, List.take_left]; exact hask.allowed hgd hgargs
    · intro hi
      rcases updateState_ok hmv with ⟨h1, _⟩ | hm
      · rw [hei, hi] at h1; cases h1
      · obtain ⟨l2, hl2⟩ := hlog
        refine ⟨s.log, _, l2, ?_, ?_, (hs.mind.moved hC (hf hi) hu.2.2.2.2.1 hto hh hm).2, hv⟩
        · rw [← hl2, hm.log]; simp
        · rfl
    · refine List.IsPrefix.trans ?_ hlog
      rcases updateState_ok hmv with ⟨_, rfl⟩ | hm
      · exact List.prefix_refl _
      · rw [hm.log]; exact List.prefix_append _ _
    · rw [htr, htr1, List.drop_left]; exact hsub

theorem Consent.traced {s : SM P W} {c : Call P} (h : Consent M C D S s)
    (hc : ∀ ph a args q b cur, c = .action ph a args q b cur →
      ActionHasConsent M C D S s.log s.trace ph a args) :
    Consent M C D S { s with trace := s.trace ++ [c] } := by
  refine ⟨fun f hf => Nat.le_trans (h.calls f hf) (by simp), ?_, ?_⟩
  · intro l1 f l2 hl
    obtain ⟨u, h1, h2, h3, hv, h4, h5, h6⟩ := h.moves l1 f l2 hl
    refine ⟨u, h1, h2, h3, hv, Nat.le_trans h4 (by simp), ?_, h6⟩
    show u.Allowed ((s.trace ++ [c]).take f.calls)
    rw [List.take_append_of_le_length h4]
    exact h5
  · intro t0 ph a args q b cur t1 ht
    rcases List.eq_nil_or_concat t1 with rfl | ⟨l, x, rfl⟩
    · obtain ⟨rfl, he⟩ := List.append_inj' ht rfl
      cases he
      exact hc _ _ _ _ _ _ rfl
    · rw [List.concat_eq_append, ← List.cons_append, ← List.append_assoc] at ht
      exact h.acts t0 ph a args q b cur l (List.append_inj' ht rfl).1

theorem Agreed.moved (hC : Offers M C) {s s' : SM P W} {ev : EventTy} {r : Nat} {e : Entry} {x : Exec}
    (h : Agreed M C D S s) (he : Drawn M C D S ev r e s) (hx : e.tr = some x)
    (ha : Asked (Agreed M C D S) ev x s) (hm : Moved M r e s s') : Agreed M C D S s' := by
  obtain ⟨u, hu, hv, _, hgd, _, _, hei, _, hgargs, hto, hh, hf⟩ := he.use hC hx
  have hi : u.t.internal = false := by rw [← hei]; exact hm.ext
  obtain ⟨hmind, hrm⟩ := h.mind.moved hC (hf hi) hu.2.2.2.2.1 hto hh hm
  refine ⟨hmind, ?_, by rw [hm.table]; exact h.table, ?_, ?_, ?_⟩
  · intro r' p hp st hst hc
    by_cases hr : r' = r
    · subst hr
      rw [hm.log]
      exact Or.inr (Or.inl ⟨_, List.mem_append_right _ (List.mem_singleton_self _), rfl, hc⟩)
    · obtain ⟨c, hcur, _⟩ := hm.dest
      rw [hcur, List.getElem?_set_ne (Ne.symm hr)] at hc
      exact (h.places r' p hp st hst hc).grow (by rw [hm.log]; exact List.prefix_append _ _)
  · intro f hf
    rw [hm.log] at hf
    rw [hm.trace]
    rcases List.mem_append.1 hf with hf | hf
    · exact h.consent.calls f hf
    · rw [List.mem_singleton.1 hf]; exact Nat.le_refl _
  · intro l1 f l2 hl
    rw [hm.log] at hl
    rw [hm.trace]
    rcases log_snoc hl with ⟨rfl, rfl⟩ | ⟨l, hl⟩
    · refine ⟨u, hu, hi, hrm, hv, Nat.le_refl _, ?_, ?_⟩
      · rw [List.take_length]; exact ha.allowed hgd hgargs
      · intro hg f' hf'
        obtain ⟨g, hg⟩ := Option.ne_none_iff_exists'.1 hg
        obtain ⟨s0, q, cur, hs0, rfl⟩ := ha g (hgd.trans hg)
        have := hs0.consent.calls f' hf'
        simp only [List.length_append, List.length_singleton]
        omega
    · exact h.consent.moves l1 f l hl
  · intro t0 ph a args q b cur t1 ht
    rw [hm.trace] at ht
    exact (h.consent.acts t0 ph a args q b cur t1 ht).grow (by rw [hm.log]; exact List.prefix_append _ _)

theorem KeepsCb.agreed (hC : Offers M C) {Q : Op P → Prop} (hg : sem.Good True Q) :
    KeepsCb M sem (fun _ => True) Q (Agreed M C D S)
      (By M sem (Agreed M C D S) (Drawn M C D S) fun _ => True) where
  toRuns := .of hg (fun _ _ h => h.of_eq rfl rfl rfl rfl rfl rfl)
  traced := fun s0 s c h0 h hc hb => ⟨h.mind.of_eq rfl rfl rfl, h.places, h.table,
    h.consent.traced fun ph a args q b cur he => by subst he; exact hb.consent hC⟩
  obj := fun _ _ _ _ => trivial

/-- Guards leave the log of moves as it is or make it longer. -/
theorem execGuard_grows {I : SM P W → Prop} {Q : Op P → Prop} {call : Op P → SM P W → Res (SM P W) Bool}
    (hg : sem.Good True Q) (hw : ∀ s w, I s → I { s with world := w }) (hc : Held (fun _ => True) Q I call)
    {x : Exec} {ev : EventTy} {p : P} {bp : Bool × P} {s s' : SM P W} (hs : I s)
    (h : execGuardR M sem call x ev p s = .ok bp s') : s.log <+: s'.log := by
  unfold execGuardR at h
  split at h
  · cases h; exact List.prefix_refl _
  · rename_i g _
    dsimp only at h
    generalize (if x.internal = true then x.src else x.dst) = dst at h
    split at h
    · unfold runCb at h
      split at h <;> rename_i heq <;> cases h
      have := runProg_lasts hw hc _ s (hg.guard g ⟨ev, x.src, dst, false, x.dep⟩ p s.world) hs
      rw [heq] at this
      exact this.2.2
    · cases h

theorem KeepsLoop.agreed (hC : Offers M C) {Q : Op P → Prop} (hg : sem.Good True Q) :
    KeepsLoop M sem (fun _ => True) Q (fun _ => True) (Agreed M C D S) (Drawn M C D S) where
  toKeepsCb := KeepsCb.agreed hC hg
  regions := fun _ _ _ _ => trivial
  look := fun _ _ _ _ => Or.inl fun _ => trivial
  entry := by
    intro s ev r c e h _ hc hlt he _
    obtain ⟨p, st, hp, hst, rfl⟩ := hC.laid.comb_surj hlt
    obtain ⟨d', cd, hcd, hd, hen⟩ := h.table ev p hp st hst e he
    exact ⟨p, hp, st, hst, d', cd, hcd, hd, hen, h.places r p hp st hst hc⟩
  null := fun _ _ _ _ _ _ _ _ => trivial
  stay := by
    intro call hc s s' x ev q bp r e h hx he
    obtain ⟨p, hp, st, hst, d', cd, hcd, hd, hen, hv⟩ := he
    exact ⟨p, hp, st, hst, d', cd, hcd, hd, hen,
      hv.grow (execGuard_grows hg (fun _ _ h => h.of_eq rfl rfl rfl rfl rfl rfl) hc h hx)⟩
  iter := fun _ _ _ _ _ _ _ _ _ _ _ _ => trivial
  move := by
    intro s ev r e x h _ he _ hx ha
    cases hu : updateState M r e s with
    | ok a s' =>
      rcases updateState_ok hu with ⟨_, rfl⟩ | hm
      · exact h
      · exact h.moved hC he hx ha hm
    | throw x s' => exact absurd hu updateState_throw
    | ub u => trivial
    | timeout => trivial
  push := fun _ _ _ _ _ h _ _ => h.of_eq rfl rfl rfl rfl rfl rfl
  pop := fun _ _ _ _ h _ => h.of_eq rfl rfl rfl rfl rfl rfl
  handler := fun _ _ _ _ _ => fun _ => Or.inl fun _ => trivial

/-- A new machine object: the memory is that of no moves. -/
theorem Mindful.fresh (hL : M.Laid) {s : SM P W} (h1 : s.initial = M.initialTable)
    (h2 : s.hist = M.initialTable) (h3 : s.log = []) : Mindful M s where
  initial := h1
  shape := by rw [h2, Machine.length_initialTable]
  memory := by
    intro _ p hp r c
    rw [h3]
    constructor
    · rintro ⟨l, h4, h5⟩
      rw [h2, hL.initialTable_get hp] at h4
      cases h4
      rw [List.getElem?_map] at h5
      obtain ⟨i, hi, rfl⟩ := Option.map_eq_some_iff.1 h5
      exact Or.inr ⟨by simp, i, by rw [Machine.declaredInitials_eq]; exact hi, rfl⟩
    · rintro (⟨l1, f, l2, he, _⟩ | ⟨_, i, hi, rfl⟩)
      · simp at he
      · rw [Machine.declaredInitials_eq] at hi
        exact ⟨_, by rw [h2]; exact hL.initialTable_get hp, by rw [List.getElem?_map, hi]; rfl⟩

theorem Consent.fresh {s : SM P W} (h1 : s.trace = []) (h2 : s.log = []) : Consent M C D S s :=
  ⟨by rw [h2]; simp, by rw [h2]; simp, by rw [h1]; simp⟩

theorem Machine.Regular.offers (hM : M.Regular) : Offers M M.cands where
  laid := hM.laid
  compiles := fun _ ht => Machine.accepts_flat hM.accepts ht
  rows := by
    intro ev p st cd t hcd hrow hi
    rcases Machine.cand_row hcd with rfl | ⟨t', ht', _, rfl | rfl⟩
    · cases hrow
    all_goals
      cases hrow
      rcases List.mem_append.1 ht' with h | h
      · exact h
      · rw [Machine.iflat_internal h] at hi; cases hi

/-- Where a new machine is. -/
theorem places_fresh (hL : M.Laid) {init : List Nat} {s : SM P W}
    (hin : M.initialTable[M.parentIdx M.root]? = some init) (hcur : s.cur = initCur init M.maxInit) (r : Nat) :
    ∀ p ∈ M.composites, ∀ st ∈ M.states,
    s.cur[r]? = some (some (M.comb p st)) → Visited M S s.log r p st := by
  intro p hp st hst hc
  rw [hL.initialTable_get hL.root_mem] at hin
  cases hin
  rw [hcur, getElem?_initCur, List.getElem?_map] at hc
  obtain ⟨q, hq, he⟩ := Option.map_eq_some_iff.1 hc
  cases hL.comb_inj hp hst (show M.comb M.root (.st q) = M.comb p st from he)
  exact Or.inl ⟨q, rfl, rfl, by rw [Machine.declaredInitials_eq]; exact hq⟩

/-- Filling the table brings in entries of candidates. -/
theorem filledFrom_fill (hM : M.Regular) {d' : Dep} {T T' : Table} (hD : D d')
    (hT : M.fill d' T = .ok T') (h : FilledFrom M M.cands D T) : FilledFrom M M.cands D T' := by
  intro ev p hp st hst e he
  rw [Machine.fill_spec hM hT ev hp hst] at he
  rcases List.mem_append.1 he with he | he
  · obtain ⟨cd, hcd, hen⟩ := List.mem_filterMap.1 he
    exact ⟨d', cd, hcd, hD, hen⟩
  · exact h ev p hp st hst e he

theorem Keeps.agreed (hM : M.Regular) (hg : sem.Good True (GivesDS M D S)) :
    Keeps M sem (fun _ => True) (GivesDS M D S) (fun _ => True) (Agreed M M.cands D S)
      (Drawn M M.cands D S) :=
  { KeepsLoop.agreed hM.offers hg with
    opOk := fun _ h => h.1.1
    set := by
      intro s r p st hq h hlt
      refine ⟨h.mind.of_eq rfl rfl rfl, ?_, h.table, h.consent.of_eq rfl rfl⟩
      intro r' p' hp' st' hst' hc
      by_cases hr : r % 256 = r'
      · subst hr
        rw [show ({ s with cur := s.cur.set (r % 256) (some (M.comb p st)) } : SM P W).cur =
          s.cur.set (r % 256) (some (M.comb p st)) from rfl, List.getElem?_set_self hlt] at hc
        simp only [Option.some.injEq] at hc
        obtain ⟨hp, hst⟩ := hq.1.1.place
        cases hM.comb_inj hp hst hc.symm
        exact Or.inr (Or.inr (hq.2 r _ _ rfl))
      · rw [show ({ s with cur := s.cur.set (r % 256) (some (M.comb p st)) } : SM P W).cur =
          s.cur.set (r % 256) (some (M.comb p st)) from rfl, List.getElem?_set_ne hr] at hc
        exact h.places r' p' hp' st' hst' hc
    dep := by
      intro s d' hq h
      unfold setDependency
      cases hT : M.fill d' s.table with
      | error u => trivial
      | ok T => exact ⟨h.mind.of_eq rfl rfl rfl, h.places, filledFrom_fill hM (hq.1.2 d' rfl) hT h.table,
          h.consent.of_eq rfl rfl⟩ }

theorem depsOf_more {ops : List (Op P)} {op : Op P} (hD : ∀ d' ∈ depsOf d (ops ++ [op]), D d') :
    (∀ d' ∈ depsOf d ops, D d') ∧ ∀ d', op = .setDependency d' → D d' := by
  refine ⟨fun d' hd' => hD d' ?_, fun d' he => hD d' (by subst he; simp [depsOf])⟩
  simp only [depsOf, List.filterMap_append, List.reverse_append, List.append_assoc, List.mem_append] at hd' ⊢
  exact Or.inr hd'

theorem RunToR.agreed (hM : M.Regular) (hg : sem.Good True (GivesDS M D S))
    {ops : List (Op P)} {s : SM P W} (h : RunToR M sem d ops s) (hD : ∀ d' ∈ depsOf d ops, D d')
    (hS : ∀ r p st, .set r p st ∈ ops → S (r % 256) p st) : Agreed M M.cands D S s := by
  have hk := Keeps.agreed (sem := sem) hM hg
  induction h with
  | init h =>
    obtain ⟨_, _, hT, ⟨init, h0, hcur, _⟩, hin, hhi, _, _, htr, hlog⟩ := construct_ok h
    exact ⟨.fresh hM.laid hin hhi hlog, places_fresh hM.laid h0 hcur,
      filledFrom_fill hM (hD d (by simp [depsOf])) hT (fun _ _ _ _ _ _ h => by cases h), .fresh htr hlog⟩
  | @ok s s' ops op fuel n b hr hop h ih =>
    have := hk.step fuel n op s ⟨⟨hop, (depsOf_more hD).2⟩, fun r p st he => hS r p st (by simp [he])⟩
      (ih (depsOf_more hD).1 fun r p st he => hS r p st (by simp [he]))
    rw [h] at this
    exact this
  | @throw s s' ops op fuel n x hr hop h ih =>
    have := hk.step fuel n op s ⟨⟨hop, (depsOf_more hD).2⟩, fun r p st he => hS r p st (by simp [he])⟩
      (ih (depsOf_more hD).1 fun r p st he => hS r p st (by simp [he]))
    rw [h] at this
    exact this
  | world hr w ih => exact (ih hD hS).of_eq rfl rfl rfl rfl rfl rfl

/-! ## C95 -/

/-- C95: whatever callbacks call, every move has consent. -/
theorem C95_moves (hM : M.Regular) (hg : sem.Good True (GivesDS M D S))
    {ops : List (Op P)} {s : SM P W} (h : RunToR M sem d ops s) (hD : ∀ d' ∈ depsOf d ops, D d')
    (hS : ∀ r p st, .set r p st ∈ ops → S (r % 256) p st)
    {l1 l2 : List Firing} {f : Firing} (hl : s.log = l1 ++ f :: l2) :
    MoveHasConsent M M.cands D S s.trace l1 f :=
  (h.agreed hM hg hD hS).consent.moves l1 f l2 hl

/-- C95: whatever callbacks call, every callback of a row has consent, and comes after the move and after the
callbacks of the row before it. -/
theorem C95_actions (hM : M.Regular) (hg : sem.Good True (GivesDS M D S))
    {ops : List (Op P)} {s : SM P W} (h : RunToR M sem d ops s) (hD : ∀ d' ∈ depsOf d ops, D d')
    (hS : ∀ r p st, .set r p st ∈ ops → S (r % 256) p st)
    {t0 t1 : List (Call P)} {ph : Phase} {a : Cb} {args : Args} {q : P} {b : Bool}
    {cur : List (Option Nat)} (ht : s.trace = t0 ++ .action ph a args q b cur :: t1) :
    ActionHasConsent M M.cands D S s.log t0 ph a args :=
  (h.agreed hM hg hD hS).consent.acts t0 ph a args q b cur t1 ht

end

/-! ## Examples -/

section
open Ex

/-- The entry action of state 2. -/
def Ex.isEntry : Call Nat → Bool
  | .action ph a _ _ b _ => ph == .entry && a == 20 && !b
  | _ => false

/-- `onward`: inside the first move another one is made, by a row without guard; the entry action of state 2
comes last, after three other callbacks. -/
example : ∃ s, RunToR hop onward 7 [.process (ev 0) 1] s ∧ ∃ f1 f2, s.log = [f1, f2] ∧
    MoveHasConsent hop hop.cands (· = 7) Unset s.trace [] f1 ∧
    MoveHasConsent hop hop.cands (· = 7) Unset s.trace [f1] f2 ∧
    ∃ t0 ph a args q b cur, s.trace = t0 ++ [.action ph a args q b cur] ∧
      isEntry (.action ph a args q b cur) = true ∧ t0.length = 3 ∧
      ActionHasConsent hop hop.cands (· = 7) Unset s.log t0 ph a args := by
  obtain ⟨s, h, hs⟩ := exists_runR hop onward
    (fuel := 5) (n := 5) (d := 7) (w := []) (ops := [.process (ev 0) 1])
    (f := fun s => s.log.length == 2 && s.trace.length == 4 && s.trace.getLast?.any isEntry)
    (by decide +kernel)
  simp only [Bool.and_eq_true, beq_iff_eq] at hs
  obtain ⟨⟨h2, h4⟩, h20⟩ := hs
  have hg : onward.Good True (GivesDS hop (· = 7) Unset) :=
    semR_good never_all (only_all fun op h => by
      rw [List.mem_singleton.1 h]; exact ⟨⟨hop_ok 2 (by decide) 8, fun _ h => by cases h⟩, fun _ _ _ h => by cases h⟩)
  have hD : ∀ d' ∈ depsOf 7 [Op.process (ev 0) 1], d' = 7 := by intro d' hd; simpa [depsOf] using hd
  have hS : ∀ r p st, .set r p st ∈ [Op.process (ev 0) 1] → Unset (r % 256) p st := by
    intro r p st h; simp at h
  obtain ⟨f1, f2, hl⟩ := List.length_eq_two.1 h2
  refine ⟨s, h, f1, f2, hl, C95_moves (l1 := []) hop_regular hg h hD hS hl,
    C95_moves (l1 := [f1]) hop_regular hg h hD hS hl, ?_⟩
  rcases List.eq_nil_or_concat s.trace with h0 | ⟨t0, c, h0⟩
  · rw [h0] at h4; cases h4
  · rw [List.concat_eq_append] at h0
    rw [h0, List.getLast?_concat] at h20
    cases c with
    | guard => cases h20
    | handler => cases h20
    | action ph a args q b cur =>
      refine ⟨t0, ph, a, args, q, b, cur, h0, h20, ?_, C95_actions hop_regular hg h hD hS h0⟩
      rw [h0] at h4
      simpa using h4

end

end Hsm
