import Verif.PropsApi
import Mathlib.Data.List.Forall2

/-!
# Machines that offer the same at every location

Two machines with the same candidates at each location behave in the same way: the numbers the
library gives to states and parents are not observable.  Used for C67.
-/

namespace Hsm
section
variable {P W : Type} {M M' : Machine} {sem : Sem P W} {L : Name → StTy → Prop}

/-! ## Specification vocabulary -/

/-- `M` and `M'` offer the same at the locations `L`, which include the initial ones and are not
left by the rows of `M`. -/
structure Alike (M M' : Machine) (L : Name → StTy → Prop) : Prop where
  left : ∀ p st, L p st → p ∈ M.composites ∧ st ∈ M.states
  right : ∀ p st, L p st → p ∈ M'.composites ∧ st ∈ M'.states
  root : M'.root = M.root
  rootIn : ∃ st, L M.root st
  initials : ∀ p st, L p st → M'.declaredInitials p = M.declaredInitials p ∧
    ∀ i ∈ M.declaredInitials p, L p (.st i)
  cands : ∀ ev p st, L p st → M'.cands ev p st = M.cands ev p st
  rows : ∀ ev p st cd t, L p st → cd ∈ M.cands ev p st → cd.row? = some t →
    M'.targetLoc t = M.targetLoc t ∧ M'.toRun t = M.toRun t ∧
    (t.internal = false → ∀ l, M.targetLoc t = some l → L l.1 l.2)
  handler : (M'.decl M.root).handler = (M.decl M.root).handler
  ctor : ∀ st, M'.defaultCtor st = M.defaultCtor st
  slots : M'.maxInit = M.maxInit
  anonymous : M'.anonymous = M.anonymous
  historic : M'.historic = M.historic
  deferring : M'.deferring = M.deferring

/-- Numbers of the same location in two machines. -/
def SameLoc (M M' : Machine) (L : Name → StTy → Prop) (c c' : Nat) : Prop :=
  ∃ p st, L p st ∧ c = M.comb p st ∧ c' = M'.comb p st

/-- The regions of two machines are at the same locations. -/
abbrev SameCur (M M' : Machine) (L : Name → StTy → Prop) : List (Option Nat) → List (Option Nat) → Prop :=
  List.Forall₂ (Option.Rel (SameLoc M M' L))

/-- The same callback called with the same arguments, with the same outcome, the regions being at
the same locations. -/
inductive SameCall (M M' : Machine) (L : Name → StTy → Prop) : Call P → Call P → Prop
  | guard {g : Cb} {args : Args} {p : P} {res : Option Bool} {cur cur' : List (Option Nat)}
      (h : SameCur M M' L cur cur') : SameCall M M' L (.guard g args p res cur) (.guard g args p res cur')
  | action {ph : Phase} {a : Cb} {args : Args} {p : P} {threw : Bool} {cur cur' : List (Option Nat)}
      (h : SameCur M M' L cur cur') :
      SameCall M M' L (.action ph a args p threw cur) (.action ph a args p threw cur')
  | handler {h : Cb} {e : EventTy} {s : StTy} {d : Dep} {p : P} {threw : Bool}
      {cur cur' : List (Option Nat)} (hc : SameCur M M' L cur cur') :
      SameCall M M' L (.handler h e s d p threw cur) (.handler h e s d p threw cur')

/-- The same move. -/
structure SameFiring (M M' : Machine) (L : Name → StTy → Prop) (f f' : Firing) : Prop where
  region : f.region = f'.region
  before : SameCur M M' L f.before f'.before
  after : SameCur M M' L f.after f'.after
  calls : f.calls = f'.calls

/-- What a client sees of two machines is the same. -/
structure SameView (M M' : Machine) (L : Name → StTy → Prop) (s s' : SM P W) : Prop where
  cur : SameCur M M' L s.cur s'.cur
  regions : activeRegions M s = activeRegions M' s'
  queue : s.queue = s'.queue
  world : s.world = s'.world
  calls : List.Forall₂ (SameCall M M' L) s.trace s'.trace
  moves : List.Forall₂ (SameFiring M M' L) s.log s'.log

/-! ## The simulation -/

/-- Entries for the same row. -/
structure SameEntry (M M' : Machine) (L : Name → StTy → Prop) (e e' : Entry) : Prop where
  history : e.history = e'.history
  defer : e.defer = e'.defer
  internal : e.internal = e'.internal
  tr : e.tr = e'.tr
  target : e.tr ≠ none → e.internal = false → SameLoc M M' L e.to e'.to

/-- The simulation relation. -/
structure Sim (M M' : Machine) (L : Name → StTy → Prop) (s s' : SM P W) : Prop where
  cur : SameCur M M' L s.cur s'.cur
  init : s.initial = M.initialTable
  init' : s'.initial = M'.initialTable
  hist : ∀ p st, L p st → ∃ l l', s.hist[M.parentIdx p]? = some l ∧
    s'.hist[M'.parentIdx p]? = some l' ∧ List.Forall₂ (SameLoc M M' L) l l'
  queue : s.queue = s'.queue
  regions : M.parallel = true → s.regions = s'.regions
  table : ∃ deps, TableIs M deps s ∧ TableIs M' deps s'
  handlers : ∃ d, HandlersAre M d s ∧ HandlersAre M' d s'
  world : s.world = s'.world
  trace : List.Forall₂ (SameCall M M' L) s.trace s'.trace
  log : List.Forall₂ (SameFiring M M' L) s.log s'.log

/-- Outcomes that correspond. -/
def Res.Rel {σ τ α β : Type} (V : α → β → Prop) (R : σ → τ → Prop) : Res σ α → Res τ β → Prop
  | .ok a s, .ok b t => V a b ∧ R s t
  | .throw x s, .throw y t => x = y ∧ R s t
  | .ub u, .ub v => u = v
  | .timeout, .timeout => True
  | _, _ => False

theorem Res.Rel.bind {σ τ α β α' β' : Type} {V : α → β → Prop} {V' : α' → β' → Prop}
    {R : σ → τ → Prop} {r : Res σ α} {r' : Res τ β} {f : α → σ → Res σ α'} {f' : β → τ → Res τ β'}
    (h : r.Rel V R r') (hf : ∀ a b s t, V a b → R s t → (f a s).Rel V' R (f' b t)) :
    (r.bind f).Rel V' R (r'.bind f') := by
  cases r <;> cases r' <;> first | exact h.elim | skip
  · exact hf _ _ _ _ h.1 h.2
  · exact h
  · exact h
  · trivial

theorem forall₂_getElem? {α β : Type} {R : α → β → Prop} {l : List α} {l' : List β}
    (h : List.Forall₂ R l l') (n : Nat) : Option.Rel R l[n]? l'[n]? := by
  induction h generalizing n with
  | nil => simp only [List.getElem?_nil]; exact .none
  | cons h _ ih =>
    cases n with
    | zero => exact .some h
    | succ n => simpa using ih n

theorem forall₂_set {α β : Type} {R : α → β → Prop} {l : List α} {l' : List β}
    (h : List.Forall₂ R l l') {a : α} {b : β} (hab : R a b) (n : Nat) :
    List.Forall₂ R (l.set n a) (l'.set n b) := by
  induction h generalizing n with
  | nil => exact .nil
  | cons h hr ih =>
    cases n with
    | zero => exact .cons hab hr
    | succ n => exact .cons h (ih n)

theorem forall₂_snoc {α β : Type} {R : α → β → Prop} {l : List α} {l' : List β}
    (h : List.Forall₂ R l l') {a : α} {b : β} (hab : R a b) :
    List.Forall₂ R (l ++ [a]) (l' ++ [b]) :=
  List.rel_append h (.cons hab .nil)

variable (hA : Alike M M' L) (hM : M.Regular) (hM' : M'.Regular)
include hA

theorem Alike.parallel : M'.parallel = M.parallel := by
  unfold Machine.parallel; rw [hA.slots]

theorem Alike.hasAnon : M'.hasAnon = M.hasAnon := by
  rw [Machine.hasAnon_eq, Machine.hasAnon_eq, hA.anonymous]

theorem Alike.hasHistory : M'.hasHistory = M.hasHistory := by
  rw [Machine.hasHistory_eq, Machine.hasHistory_eq, hA.historic]

theorem Alike.hasDefer : M'.hasDefer = M.hasDefer := by
  rw [Machine.hasDefer_eq, Machine.hasDefer_eq, hA.deferring]

theorem Alike.entryOfCand {ev : EventTy} {p : Name} {st : StTy} (hL : L p st) (d : Dep) {cd : Cand}
    (hcd : cd ∈ M.cands ev p st) :
    Option.Rel (SameEntry M M' L) (M.entryOfCand d cd) (M'.entryOfCand d cd) := by
  have key : ∀ t src, cd.row? = some t → Option.Rel (SameEntry M M' L)
      ((M.targetLoc t).map fun l => (⟨M.comb l.1 l.2, Machine.toHistory t.target, false, t.internal,
        some ⟨t.internal, M.toRun t, t.guard, src, l.2, d⟩⟩ : Entry))
      ((M'.targetLoc t).map fun l => (⟨M'.comb l.1 l.2, Machine.toHistory t.target, false, t.internal,
        some ⟨t.internal, M'.toRun t, t.guard, src, l.2, d⟩⟩ : Entry)) := by
    intro t src ht
    obtain ⟨h1, h2, h3⟩ := hA.rows ev p st cd t hL hcd ht
    rw [h1, h2]
    cases hl : M.targetLoc t with
    | none => exact .none
    | some l =>
      exact .some ⟨rfl, rfl, rfl, rfl, fun _ hi => ⟨l.1, l.2, h3 hi l hl, rfl, rfl⟩⟩
  cases cd with
  | defer => exact .some ⟨rfl, rfl, rfl, rfl, fun h => absurd rfl h⟩
  | row t => exact key t _ rfl
  | exit t q => exact key t _ rfl

theorem Alike.entries {ev : EventTy} {p : Name} {st : StTy} (hL : L p st) (deps : List Dep) :
    List.Forall₂ (SameEntry M M' L) (M.entries deps ev p st) (M'.entries deps ev p st) := by
  unfold Machine.entries
  rw [hA.cands ev p st hL]
  have one : ∀ d, ∀ l : List Cand, (∀ c ∈ l, c ∈ M.cands ev p st) →
      List.Forall₂ (SameEntry M M' L) (l.filterMap (M.entryOfCand d)) (l.filterMap (M'.entryOfCand d)) := by
    intro d l
    induction l with
    | nil => intro _; exact .nil
    | cons c l ih =>
      intro hl
      have h1 := hA.entryOfCand hL d (hl c (by simp))
      have h2 := ih fun c' hc => hl c' (by simp [hc])
      rw [List.filterMap_cons, List.filterMap_cons]
      generalize M.entryOfCand d c = o at h1
      generalize M'.entryOfCand d c = o' at h1
      cases h1 with
      | some h => exact .cons h h2
      | none => exact h2
  induction deps with
  | nil => exact .nil
  | cons d deps ih =>
    rw [List.flatMap_cons, List.flatMap_cons]
    exact List.rel_append (one d _ fun _ h => h) ih

variable {s : SM P W} {s' : SM P W}

theorem Sim.activeRegions (h : Sim M M' L s s') : currentRegions M s = currentRegions M' s' := by
  unfold currentRegions
  rw [hA.parallel]
  split
  · rename_i hp; exact h.regions hp
  · rfl

omit hA in
theorem Sim.readCur (h : Sim M M' L s s') (r : Nat) :
    (readCur r s).Rel (SameLoc M M' L) (Sim M M' L) (Hsm.readCur r s') := by
  unfold Hsm.readCur
  have := forall₂_getElem? h.cur r
  generalize s.cur[r]? = o at this
  generalize s'.cur[r]? = o' at this
  cases this with
  | none => rfl
  | some h1 =>
    cases h1 with
    | none => rfl
    | some h1 => exact ⟨h1, h⟩

include hM hM' in
theorem Sim.currentParent (h : Sim M M' L s s') :
    (currentParent M s).Rel (fun a b => ∃ p st, L p st ∧ a = M.parentIdx p ∧ b = M'.parentIdx p)
      (Sim M M' L) (Hsm.currentParent M' s') := by
  unfold Hsm.currentParent
  refine (h.readCur 0).bind ?_
  rintro a b s s' ⟨p, st, hL, rfl, rfl⟩ h
  exact ⟨⟨p, st, hL, hM.comb_div (hA.left p st hL).1 (hA.left p st hL).2,
    hM'.comb_div (hA.right p st hL).1 (hA.right p st hL).2⟩, h⟩

include hM hM' in
theorem Sim.updateRegions (h : Sim M M' L s s') :
    (updateRegions M s).Rel (fun _ _ => True) (Sim M M' L) (Hsm.updateRegions M' s') := by
  unfold Hsm.updateRegions
  rw [hA.parallel]
  split
  · refine (h.currentParent hA hM hM').bind ?_
    rintro a b s s' ⟨p, st, hL, rfl, rfl⟩ h
    rw [h.init, h.init', Machine.initialTable_get hM (hA.left p st hL).1,
      Machine.initialTable_get hM' (hA.right p st hL).1]
    dsimp only
    rw [List.length_map, List.length_map, ← Machine.declaredInitials_eq,
      ← Machine.declaredInitials_eq, (hA.initials p st hL).1]
    exact ⟨trivial, ⟨h.cur, rfl, rfl, h.hist, h.queue, fun _ => rfl, h.table, h.handlers, h.world,
      h.trace, h.log⟩⟩
  · exact ⟨trivial, h⟩

omit hA in
theorem Sim.writeCur (h : Sim M M' L s s') (r : Nat) {c c' : Nat} (hc : SameLoc M M' L c c') :
    (writeCur r c s).Rel (fun _ _ => True) (Sim M M' L) (Hsm.writeCur r c' s') := by
  unfold Hsm.writeCur
  rw [h.cur.length_eq]
  split
  · exact ⟨trivial, ⟨forall₂_set h.cur (.some hc) r, h.init, h.init', h.hist, h.queue, h.regions,
      h.table, h.handlers, h.world, h.trace, h.log⟩⟩
  · rfl

include hM hM' in
theorem Sim.saveHistory (h : Sim M M' L s s') (r : Nat) :
    (saveHistory M r s).Rel (fun _ _ => True) (Sim M M' L) (Hsm.saveHistory M' r s') := by
  unfold Hsm.saveHistory
  refine (h.currentParent hA hM hM').bind ?_
  rintro a b s s' ⟨p, st, hL, rfl, rfl⟩ h
  refine (h.readCur r).bind ?_
  intro c c' s s' hc h
  obtain ⟨l, l', h1, h2, h3⟩ := h.hist p st hL
  rw [h1, h2]
  dsimp only
  rw [h3.length_eq]
  split
  · refine ⟨trivial, ⟨h.cur, h.init, h.init', ?_, h.queue, h.regions, h.table, h.handlers, h.world,
      h.trace, h.log⟩⟩
    intro q st' hq
    by_cases hpq : q = p
    · subst hpq
      exact ⟨_, _, List.getElem?_set_self (List.getElem?_eq_some_iff.1 h1).1,
        List.getElem?_set_self (List.getElem?_eq_some_iff.1 h2).1, forall₂_set h3 hc r⟩
    · obtain ⟨m, m', h4, h5, h6⟩ := h.hist q st' hq
      refine ⟨m, m', ?_, ?_, h6⟩
      · rw [List.getElem?_set_ne (fun he => hpq (hM.parentIdx_inj (hA.left q st' hq).1
          (hA.left p st hL).1 he.symm))]
        exact h4
      · rw [List.getElem?_set_ne (fun he => hpq (hM'.parentIdx_inj (hA.right q st' hq).1
          (hA.right p st hL).1 he.symm))]
        exact h5
  · rfl

omit hA in
theorem Sim.readHistory (h : Sim M M' L s s') {p : Name} {st : StTy} (hL : L p st) (r : Nat) :
    (readHistory (M.parentIdx p) r s).Rel (SameLoc M M' L) (Sim M M' L)
      (Hsm.readHistory (M'.parentIdx p) r s') := by
  unfold Hsm.readHistory
  obtain ⟨l, l', h1, h2, h3⟩ := h.hist p st hL
  rw [h1, h2]
  dsimp only
  have := forall₂_getElem? h3 r
  generalize l[r]? = o at this
  generalize l'[r]? = o' at this
  cases this with
  | none => rfl
  | some h4 => exact ⟨h4, h⟩

include hM hM' in
theorem Sim.moveState (h : Sim M M' L s s') (r : Nat) {e e' : Entry} (he : SameEntry M M' L e e')
    (hx : e.tr ≠ none) (hi : e.internal = false) :
    (moveState M r e s).Rel (fun _ _ => True) (Sim M M' L) (Hsm.moveState M' r e' s') := by
  have hto := he.target hx hi
  unfold Hsm.moveState
  rw [hA.hasHistory]
  split
  · refine (h.saveHistory hA hM hM' r).bind ?_
    intro _ _ s s' _ h
    refine Res.Rel.bind (V := fun _ _ => True) ?_ (fun _ _ _ _ _ h => h.updateRegions hA hM hM')
    rw [← he.history]
    split
    · obtain ⟨p, st, hL, h1, h2⟩ := hto
      rw [h1, h2, hM.comb_div (hA.left p st hL).1 (hA.left p st hL).2,
        hM'.comb_div (hA.right p st hL).1 (hA.right p st hL).2]
      exact (h.readHistory hL r).bind fun c c' s s' hc h => h.writeCur r hc
    · exact h.writeCur r hto
  · exact (h.writeCur r hto).bind fun _ _ _ _ _ h => h.updateRegions hA hM hM'

include hM hM' in
theorem Sim.updateState (h : Sim M M' L s s') (r : Nat) {e e' : Entry} (he : SameEntry M M' L e e')
    (hx : e.tr ≠ none) :
    (updateState M r e s).Rel (fun _ _ => True) (Sim M M' L) (Hsm.updateState M' r e' s') := by
  unfold Hsm.updateState
  rw [← he.internal]
  split
  · exact ⟨trivial, h⟩
  · rename_i hi
    refine (h.moveState hA hM hM' r he hx (by simpa using hi)).bind ?_
    intro _ _ t t' _ h'
    refine ⟨trivial, ⟨h'.cur, h'.init, h'.init', h'.hist, h'.queue, h'.regions, h'.table,
      h'.handlers, h'.world, h'.trace, ?_⟩⟩
    exact forall₂_snoc h'.log ⟨rfl, h.cur, h'.cur, h.trace.length_eq⟩

omit hA in
theorem Sim.ran (h : Sim M M' L s s') (w : W) {c c' : Call P} (hc : SameCall M M' L c c') :
    Sim M M' L { s with world := w, trace := s.trace ++ [c] }
      { s' with world := w, trace := s'.trace ++ [c'] } :=
  ⟨h.cur, h.init, h.init', h.hist, h.queue, h.regions, h.table, h.handlers, rfl,
    forall₂_snoc h.trace hc, h.log⟩

theorem Sim.objOk (h : Sim M M' L s s') (st : StTy) : objOk M' sem st s' = objOk M sem st s := by
  unfold Hsm.objOk
  rw [hA.ctor, h.world]

theorem Sim.execGuard (h : Sim M M' L s s') (x : Exec) (ev : EventTy) (p : P) :
    (execGuard M sem x ev p s).Rel Eq (Sim M M' L) (Hsm.execGuard M' sem x ev p s') := by
  unfold Hsm.execGuard
  cases x.guard with
  | none => exact ⟨rfl, h⟩
  | some g =>
    dsimp only
    rw [h.objOk hA, h.objOk hA, h.world]
    generalize (Hsm.objOk M sem _ s && Hsm.objOk M sem _ s) = c
    cases c with
    | false => rfl
    | true =>
      simp only [if_true]
      generalize sem.guard g _ p s'.world = o
      cases o with
      | ok b p' w' => exact ⟨rfl, h.ran w' (.guard h.cur)⟩
      | throw n p' w' => exact ⟨rfl, h.ran w' (.guard h.cur)⟩
      | ub => rfl

omit hA in
theorem Sim.runCbs (args : Args) (cs : List (Phase × Cb)) : ∀ (p : P) {s s' : SM P W},
    Sim M M' L s s' → (runCbs sem args cs p s).Rel Eq (Sim M M' L) (Hsm.runCbs sem args cs p s') := by
  induction cs with
  | nil => intro p s s' h; exact ⟨rfl, h⟩
  | cons c cs ih =>
    intro p s s' h
    unfold Hsm.runCbs
    rw [h.world]
    generalize sem.action c.2 args p s'.world = o
    cases o with
    | ok b p' w' => exact ih p' (h.ran w' (.action h.cur))
    | throw n p' w' => exact ⟨rfl, h.ran w' (.action h.cur)⟩
    | ub => rfl

theorem Sim.execAction (h : Sim M M' L s s') (x : Exec) (ev : EventTy) (p : P) :
    (execAction M sem x ev p s).Rel Eq (Sim M M' L) (Hsm.execAction M' sem x ev p s') := by
  unfold Hsm.execAction
  cases x.action with
  | none => exact ⟨rfl, h⟩
  | some cs =>
    dsimp only
    rw [h.objOk hA, show actionArgs M' x ev = actionArgs M x ev by
      unfold actionArgs; rw [hA.ctor]]
    split
    · exact Sim.runCbs _ _ _ h
    · rfl

include hM hM' in
theorem Sim.fire (h : Sim M M' L s s') (r : Nat) (ev : EventTy) {e e' : Entry}
    (he : SameEntry M M' L e e') (hx : e.tr ≠ none) (x : Exec) (p : P) :
    (fire M sem r ev e x p s).Rel Eq (Sim M M' L) (Hsm.fire M' sem r ev e' x p s') := by
  unfold Hsm.fire
  exact (h.updateState hA hM hM' r he hx).bind fun _ _ _ _ _ h => h.execAction hA x ev p

include hM hM' in
theorem Sim.tryEntries (r : Nat) (ev : EventTy) {es es' : List Entry}
    (hes : List.Forall₂ (SameEntry M M' L) es es') : ∀ (p : P) {s s' : SM P W}, Sim M M' L s s' →
    (tryEntries M sem r ev es p s).Rel Eq (Sim M M' L) (Hsm.tryEntries M' sem r ev es' p s') := by
  induction hes with
  | nil => intro p s s' h; exact ⟨rfl, h⟩
  | @cons e e' es es' he hes ih =>
    intro p s s' h
    unfold Hsm.tryEntries
    rw [← he.defer, ← he.tr]
    split
    · refine ⟨rfl, ⟨h.cur, h.init, h.init', h.hist, ?_, h.regions, h.table, h.handlers, h.world,
        h.trace, h.log⟩⟩
      dsimp only
      rw [h.queue]
    · cases hx : e.tr with
      | none => rfl
      | some x =>
        dsimp only
        refine (h.execGuard hA x ev p).bind ?_
        rintro a _ s s' rfl h
        split
        · refine (h.fire hA hM hM' r ev he (by rw [hx]; simp) x a.2).bind ?_
          rintro q _ s s' rfl h
          exact ⟨rfl, h⟩
        · exact ih a.2 h

include hM hM' in
theorem Sim.lookup (h : Sim M M' L s s') (ev : EventTy) (r : Nat) :
    (lookup M ev r s).Rel (List.Forall₂ (SameEntry M M' L)) (Sim M M' L)
      (Hsm.lookup M' ev r s') := by
  unfold Hsm.lookup
  refine (h.readCur r).bind ?_
  rintro c c' s s' ⟨p, st, hL, rfl, rfl⟩ h
  rw [if_pos (hM.comb_lt.2 (hA.left p st hL)), if_pos (hM'.comb_lt.2 (hA.right p st hL))]
  obtain ⟨deps, h1, h2⟩ := h.table
  rw [h1 ev p st (hA.left p st hL).1 (hA.left p st hL).2,
    h2 ev p st (hA.right p st hL).1 (hA.right p st hL).2]
  exact ⟨hA.entries hL deps, h⟩

include hM hM' in
theorem Sim.regionStep (h : Sim M M' L s s') (r : Nat) (ev : EventTy) (p : P) :
    (regionStep M sem r ev p s).Rel Eq (Sim M M' L) (Hsm.regionStep M' sem r ev p s') := by
  unfold Hsm.regionStep
  refine (h.lookup hA hM hM' ev r).bind ?_
  intro es es' s s' hes h
  cases hes with
  | nil => exact ⟨rfl, h⟩
  | cons he hes => exact Sim.tryEntries hA hM hM' r ev (.cons he hes) p h

include hM hM' in
theorem Sim.regionLoop (ev : EventTy) (rs : List Nat) : ∀ (agf ati : Bool) (p : P) {s s' : SM P W},
    Sim M M' L s s' → (regionLoop M sem ev rs agf ati p s).Rel Eq (Sim M M' L)
      (Hsm.regionLoop M' sem ev rs agf ati p s') := by
  induction rs with
  | nil => intro _ _ _ _ _ h; exact ⟨rfl, h⟩
  | cons r rs ih =>
    intro agf ati p s s' h
    unfold Hsm.regionLoop
    refine (h.regionStep hA hM hM' r ev p).bind ?_
    rintro a _ s s' rfl h
    split
    · exact ih _ _ _ h
    · exact ih _ _ _ h
    · exact ih _ _ _ h
    · exact ⟨rfl, h⟩

include hM hM' in
theorem Sim.tryAnon (r : Nat) {es es' : List Entry}
    (hes : List.Forall₂ (SameEntry M M' L) es es') : ∀ (p : P) {s s' : SM P W}, Sim M M' L s s' →
    (tryAnon M sem r es p s).Rel Eq (Sim M M' L) (Hsm.tryAnon M' sem r es' p s') := by
  induction hes with
  | nil => intro p s s' h; exact ⟨rfl, h⟩
  | @cons e e' es es' he hes ih =>
    intro p s s' h
    unfold Hsm.tryAnon
    rw [← he.tr]
    cases hx : e.tr with
    | none => rfl
    | some x =>
      dsimp only
      refine (h.execGuard hA x .none p).bind ?_
      rintro a _ s s' rfl h
      split
      · refine (h.fire hA hM hM' r .none he (by rw [hx]; simp) x a.2).bind ?_
        rintro q _ s s' rfl h
        exact ⟨rfl, h⟩
      · exact ih a.2 h

include hM hM' in
theorem Sim.anonRound (rs : List Nat) : ∀ (agf : Bool) (p : P) {s s' : SM P W},
    Sim M M' L s s' → (anonRound M sem rs agf p s).Rel Eq (Sim M M' L)
      (Hsm.anonRound M' sem rs agf p s') := by
  induction rs with
  | nil => intro _ _ _ _ h; exact ⟨rfl, h⟩
  | cons r rs ih =>
    intro agf p s s' h
    unfold Hsm.anonRound
    refine (h.lookup hA hM hM' .none r).bind ?_
    intro es es' s s' hes h
    cases hes with
    | nil => exact ⟨rfl, h⟩
    | cons he hes =>
      refine (Sim.tryAnon hA hM hM' r (.cons he hes) p h).bind ?_
      rintro a _ s s' rfl h
      exact ih _ _ h

include hM hM' in
theorem Sim.anonLoop (fuel : Nat) : ∀ (p : P) {s s' : SM P W},
    Sim M M' L s s' → (anonLoop M sem fuel p s).Rel (fun _ _ => True) (Sim M M' L)
      (Hsm.anonLoop M' sem fuel p s') := by
  induction fuel with
  | zero => intro _ _ _ _; trivial
  | succ fuel ih =>
    intro p s s' h
    unfold Hsm.anonLoop
    rw [h.activeRegions hA]
    refine (Sim.anonRound hA hM hM' _ _ _ h).bind ?_
    rintro a _ s s' rfl h
    split
    · exact ⟨trivial, h⟩
    · exact ⟨trivial, h⟩
    · exact ih _ h

include hM hM' in
theorem Sim.processAnon (h : Sim M M' L s s') (fuel : Nat) :
    (processAnon M sem fuel s).Rel (fun _ _ => True) (Sim M M' L)
      (Hsm.processAnon M' sem fuel s') := by
  unfold Hsm.processAnon
  rw [hA.hasAnon]
  split
  · exact Sim.anonLoop hA hM hM' _ _ h
  · exact ⟨trivial, h⟩

include hM hM' in
theorem Sim.processInternal (h : Sim M M' L s s') (fuel : Nat) (ev : EventTy) (p : P) :
    (processInternal M sem fuel ev p s).Rel Eq (Sim M M' L)
      (Hsm.processInternal M' sem fuel ev p s') := by
  unfold Hsm.processInternal
  rw [h.activeRegions hA]
  refine (Sim.regionLoop hA hM hM' _ _ _ _ _ h).bind ?_
  rintro a _ s s' rfl h
  split
  · exact ⟨rfl, h⟩
  · split
    · exact ⟨rfl, h⟩
    · split
      · exact ⟨rfl, h⟩
      · exact (h.processAnon hA hM hM' fuel).bind fun _ _ _ _ _ h => ⟨rfl, h⟩

include hM hM' in
theorem Sim.processDeferred (h : Sim M M' L s s') (fuel : Nat) :
    (processDeferred M sem fuel s).Rel (fun _ _ => True) (Sim M M' L)
      (Hsm.processDeferred M' sem fuel s') := by
  unfold Hsm.processDeferred
  rw [hA.hasDefer, ← h.queue]
  split
  · split
    · exact ⟨trivial, h⟩
    · refine Res.Rel.bind (V := Eq) ?_ (fun _ _ _ _ _ h => ⟨trivial, h⟩)
      refine Sim.processInternal hA hM hM' ?_ _ _ _
      exact ⟨h.cur, h.init, h.init', h.hist, rfl, h.regions, h.table, h.handlers, h.world,
        h.trace, h.log⟩
  · exact ⟨trivial, h⟩

include hM hM' in
theorem Sim.callHandler (h : Sim M M' L s s') {ev : EventTy} (hev : ev ∈ M.events)
    (hev' : ev ∈ M'.events) (p : P) :
    (callHandler M sem ev p s).Rel Eq (Sim M M' L) (Hsm.callHandler M' sem ev p s') := by
  unfold Hsm.callHandler
  rw [hA.root, hA.handler]
  cases hh : (M.decl M.root).handler with
  | none => exact ⟨rfl, h⟩
  | some hd =>
    dsimp only
    refine (h.readCur 0).bind ?_
    rintro c c' s s' ⟨q, st, hL, rfl, rfl⟩ h
    rw [if_pos (hM.comb_lt.2 (hA.left q st hL)), if_pos (hM'.comb_lt.2 (hA.right q st hL))]
    obtain ⟨d, h1, h2⟩ := h.handlers
    rw [h1 (by rw [hh]; rfl) ev hev q (hA.left q st hL).1 st (hA.left q st hL).2,
      h2 (by rw [hA.root, hA.handler, hh]; rfl) ev hev' q (hA.right q st hL).1 st
        (hA.right q st hL).2]
    dsimp only
    rw [h.objOk hA, h.world]
    split
    · generalize sem.handler hd ev st d p s'.world = o
      cases o with
      | ok b p' w' => exact ⟨rfl, h.ran w' (.handler h.cur)⟩
      | throw n p' w' => exact ⟨rfl, h.ran w' (.handler h.cur)⟩
      | ub => rfl
    · rfl

include hM hM' in
theorem Sim.processEvent (h : Sim M M' L s s') (fuel : Nat) {ev : EventTy} (hev : ev ∈ M.events)
    (hev' : ev ∈ M'.events) (p : P) :
    (processEvent M sem fuel ev p s).Rel Eq (Sim M M' L) (Hsm.processEvent M' sem fuel ev p s') := by
  unfold Hsm.processEvent
  refine (h.processInternal hA hM hM' fuel ev p).bind ?_
  rintro a _ s s' rfl h
  split
  · exact (h.callHandler hA hM hM' hev hev' _).bind fun _ _ _ _ _ h => ⟨rfl, h⟩
  · exact ⟨rfl, h⟩
  · exact ⟨rfl, h⟩
  · exact (h.processDeferred hA hM hM' fuel).bind fun _ _ _ _ _ h => ⟨rfl, h⟩

/-- Calls that make sense for both machines. -/
def BothOk (M M' : Machine) (L : Name → StTy → Prop) : Op P → Prop
  | .process ev _ => ev ∈ M.events ∧ ev ∈ M'.events
  | .set _ p st => L p st
  | .setDependency _ => True

include hM hM' in
theorem Sim.step (hS : M.ScopesReal) (hS' : M'.ScopesReal) (h : Sim M M' L s s') (fuel : Nat)
    {op : Op P} (hop : BothOk M M' L op) :
    (step M sem fuel op s).Rel Eq (Sim M M' L) (Hsm.step M' sem fuel op s') := by
  cases op with
  | process ev p => exact h.processEvent hA hM hM' fuel hop.1 hop.2 p
  | set r p st =>
    refine Res.Rel.bind (V := fun _ _ => True) ?_ (fun _ _ _ _ _ h => ⟨rfl, h⟩)
    unfold setOp
    rw [h.cur.length_eq]
    split
    · exact ⟨trivial, ⟨forall₂_set h.cur (.some ⟨p, st, hop, rfl, rfl⟩) _, h.init, h.init', h.hist,
        h.queue, h.regions, h.table, h.handlers, h.world, h.trace, h.log⟩⟩
    · exact ⟨rfl, h⟩
  | setDependency d =>
    refine Res.Rel.bind (V := fun _ _ => True) ?_ (fun _ _ _ _ _ h => ⟨rfl, h⟩)
    unfold Hsm.setDependency
    obtain ⟨T, hT⟩ := (Machine.C06_fill hM d s.table).1 hS
    obtain ⟨T', hT'⟩ := (Machine.C06_fill hM' d s'.table).1 hS'
    rw [hT, hT']
    refine ⟨trivial, ⟨h.cur, h.init, h.init', h.hist, h.queue, h.regions, ?_, h.handlers, h.world,
      h.trace, h.log⟩⟩
    obtain ⟨deps, h1, h2⟩ := h.table
    refine ⟨d :: deps, ?_, ?_⟩
    · intro ev p st hp hst
      show T ev (M.comb p st) = _
      rw [Machine.fill_spec hM hT ev hp hst, h1 ev p st hp hst]
      rfl
    · intro ev p st hp hst
      show T' ev (M'.comb p st) = _
      rw [Machine.fill_spec hM' hT' ev hp hst, h2 ev p st hp hst]
      rfl

include hM hM' in
theorem Sim.construct (sem : Sem P W) {d : Dep} {w : W} (h : construct M d w = .ok s)
    (h' : construct M' d w = .ok s') : Sim M M' L s s' := by
  obtain ⟨st0, hL0⟩ := hA.rootIn
  have t := (RunTo.init (sem := sem) h).tables hM
  have t' := (RunTo.init (sem := sem) h').tables hM'
  obtain ⟨_, _, _, ⟨init, hi, hcur, hreg⟩, hini, hhist, hq, hw, htr, hlog⟩ := construct_ok h
  obtain ⟨_, _, _, ⟨init', hi', hcur', hreg'⟩, hini', hhist', hq', hw', htr', hlog'⟩ := construct_ok h'
  have inits : ∀ p st, L p st → ∃ l l', M.initialTable[M.parentIdx p]? = some l ∧
      M'.initialTable[M'.parentIdx p]? = some l' ∧ List.Forall₂ (SameLoc M M' L) l l' := by
    intro p st hL
    refine ⟨_, _, Machine.initialTable_get hM (hA.left p st hL).1,
      Machine.initialTable_get hM' (hA.right p st hL).1, ?_⟩
    rw [← Machine.declaredInitials_eq, ← Machine.declaredInitials_eq, (hA.initials p st hL).1,
      List.forall₂_map_left_iff, List.forall₂_map_right_iff, List.forall₂_same]
    intro i hi
    exact ⟨p, .st i, (hA.initials p st hL).2 i hi, rfl, rfl⟩
  obtain ⟨l, l', hl, hl', hll⟩ := inits _ _ hL0
  rw [hi] at hl
  rw [hA.root, hl'] at hi'
  cases hl; cases hi'
  have hc : SameCur M M' L s.cur s'.cur := by
    rw [hcur, hcur']
    unfold initCur
    rw [hA.slots, hll.length_eq]
    refine List.rel_append ?_ ?_
    · rw [List.forall₂_map_left_iff, List.forall₂_map_right_iff]
      exact hll.imp fun _ _ h => .some h
    · rw [List.forall₂_same]
      intro x hx
      rw [(List.mem_replicate.1 hx).2]
      exact .none
  refine ⟨hc, hini, hini', by rw [hhist, hhist']; exact inits, by rw [hq, hq'], ?_, ⟨_, t.1, t'.1⟩,
    ⟨_, t.2, t'.2⟩, by rw [hw, hw'], by rw [htr, htr']; exact .nil, by rw [hlog, hlog']; exact .nil⟩
  intro hp
  rw [Machine.parallel_eq] at hp
  have hp' : M'.orthogonal = true := by rw [← Machine.parallel_eq, hA.parallel, Machine.parallel_eq, hp]
  obtain ⟨k, m, h1, h2, h3⟩ := hreg hp
  obtain ⟨k', m', h1', h2', h3'⟩ := hreg' hp'
  have := forall₂_getElem? hc 0
  rw [h1, h1'] at this
  obtain ⟨⟨⟨p, st, hL, rfl, rfl⟩⟩⟩ := this
  rw [hM.comb_div (hA.left p st hL).1 (hA.left p st hL).2,
    Machine.initialTable_get hM (hA.left p st hL).1] at h2
  rw [hM'.comb_div (hA.right p st hL).1 (hA.right p st hL).2,
    Machine.initialTable_get hM' (hA.right p st hL).1] at h2'
  cases h2; cases h2'
  rw [h3, h3', List.length_map, List.length_map, ← Machine.declaredInitials_eq,
    ← Machine.declaredInitials_eq, (hA.initials p st hL).1]

include hM hM' in
theorem Sim.run {d : Dep} {ops : List (Op P)} {s : SM P W} (hS : M.ScopesReal)
    (hS' : M'.ScopesReal) (hinit : M'.orthogonal = true → M'.declaredInitials M'.root ≠ [])
    (h : RunTo M sem d ops s) (hops : ∀ op ∈ ops, BothOk M M' L op) :
    ∃ s', RunTo M' sem d ops s' ∧ Sim M M' L s s' := by
  have opOk : ∀ op : Op P, BothOk M M' L op → OpOk M' op := by
    intro op hb
    cases op with
    | process ev p => show ev ∈ M'.eventIds; rw [← Machine.events_eq]; exact hb.2
    | set r p st =>
      have := hA.right p st hb
      rw [Machine.composites_eq, Machine.states_eq] at this
      exact this
    | setDependency d => trivial
  induction h with
  | @init w s h =>
    obtain ⟨s', h'⟩ := (C06_construct (P := P) hM' d w).1.2 ⟨hS', hinit⟩
    exact ⟨s', .init h', Sim.construct hA hM hM' sem h h'⟩
  | @ok s t ops op fuel b hr hop h ih =>
    obtain ⟨s', h1, h2⟩ := ih fun op ho => hops op (by simp [ho])
    have hb := hops op (by simp)
    have := h2.step hA hM hM' (sem := sem) hS hS' fuel hb
    rw [h] at this
    cases h' : Hsm.step M' sem fuel op s' <;> rw [h'] at this <;> first | exact this.elim | skip
    exact ⟨_, .ok h1 (opOk op hb) h', this.2⟩
  | @throw s t ops op fuel x hr hop h ih =>
    obtain ⟨s', h1, h2⟩ := ih fun op ho => hops op (by simp [ho])
    have hb := hops op (by simp)
    have := h2.step hA hM hM' (sem := sem) hS hS' fuel hb
    rw [h] at this
    cases h' : Hsm.step M' sem fuel op s' <;> rw [h'] at this <;> first | exact this.elim | skip
    exact ⟨_, .throw h1 (opOk op hb) h', this.2⟩
  | @world s ops hr w ih =>
    obtain ⟨s', h1, h2⟩ := ih hops
    exact ⟨_, .world h1 w, ⟨h2.cur, h2.init, h2.init', h2.hist, h2.queue, h2.regions, h2.table, h2.handlers, rfl,
      h2.trace, h2.log⟩⟩

theorem Sim.view (h : Sim M M' L s s') : SameView M M' L s s' := by
  refine ⟨h.cur, ?_, h.queue, h.world, h.trace, h.log⟩
  have := h.activeRegions hA
  unfold currentRegions at this
  unfold Hsm.activeRegions
  rwa [Machine.parallel_eq, Machine.parallel_eq] at this

omit hA in
theorem Res.Rel.imp {σ τ α β : Type} {V : α → β → Prop} {R R' : σ → τ → Prop} {r : Res σ α}
    {r' : Res τ β} (h : r.Rel V R r') (hR : ∀ s t, R s t → R' s t) : r.Rel V R' r' := by
  cases r <;> cases r' <;> first | exact h.elim | exact ⟨h.1, hR _ _ h.2⟩ | exact h

/-- Machines that offer the same at every location of a set their rows do not leave cannot be told
apart: each history of the one is a history of the other, with the same callbacks, arguments,
results, moves, deferred events and world, and the next call has the same outcome. -/
theorem Alike.run (hM : M.Regular) (hM' : M'.Regular) {d : Dep} {ops : List (Op P)} {s : SM P W}
    (hS : M.ScopesReal) (hS' : M'.ScopesReal)
    (hinit : M'.orthogonal = true → M'.declaredInitials M'.root ≠ [])
    (h : RunTo M sem d ops s) (hops : ∀ op ∈ ops, BothOk M M' L op) :
    ∃ s', RunTo M' sem d ops s' ∧ SameView M M' L s s' ∧
      ∀ fuel op, BothOk M M' L op →
        (step M sem fuel op s).Rel Eq (SameView M M' L) (step M' sem fuel op s') := by
  obtain ⟨s', h1, h2⟩ := Sim.run hA hM hM' hS hS' hinit h hops
  exact ⟨s', h1, h2.view hA, fun fuel op hb =>
    (h2.step hA hM hM' hS hS' fuel hb).imp fun _ _ h => h.view hA⟩

theorem Alike.symm : Alike M' M L where
  left := hA.right
  right := hA.left
  root := hA.root.symm
  rootIn := by rw [hA.root]; exact hA.rootIn
  initials p st h := ⟨(hA.initials p st h).1.symm, by rw [(hA.initials p st h).1]; exact (hA.initials p st h).2⟩
  cands ev p st h := (hA.cands ev p st h).symm
  rows ev p st cd t h hc ht := by
    obtain ⟨h1, h2, h3⟩ := hA.rows ev p st cd t h (by rw [← hA.cands ev p st h]; exact hc) ht
    exact ⟨h1.symm, h2.symm, by rw [h1]; exact h3⟩
  handler := by rw [hA.root, hA.handler]
  ctor st := (hA.ctor st).symm
  slots := hA.slots.symm
  anonymous := hA.anonymous.symm
  historic := hA.historic.symm
  deferring := hA.deferring.symm

end
end Hsm
