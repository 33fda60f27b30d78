import Verif.Log
import Verif.Chronicle
import Verif.Invariant
import Verif.Programs

/-!
# C92: what the log says
-/

namespace Hsm

section
variable {P W : Type} {M : Machine} {sem : Sem P W} {L : Cb}

/-! ## Specification -/

/-- The histories of a machine whose callback `L` is `log`; the client does not take back what was printed. -/
inductive LogRun (M : Machine) (sem : Sem P W) (L : Cb) (d : Dep) : List (Op P) → SM P (W × List Line) → Prop
  | init {w : W} {s : SM P (W × List Line)} (h : construct M d (w, []) = .ok s) : LogRun M sem L d [] s
  | ok {s s' : SM P (W × List Line)} {ops : List (Op P)} {op : Op P} {fuel : Nat} {b : Bool}
      (hr : LogRun M sem L d ops s) (hop : OpOk M op) (h : step M (sem.withLog L) fuel op s = .ok b s') :
      LogRun M sem L d (ops ++ [op]) s'
  | throw {s s' : SM P (W × List Line)} {ops : List (Op P)} {op : Op P} {fuel : Nat} {x : Exn}
      (hr : LogRun M sem L d ops s) (hop : OpOk M op) (h : step M (sem.withLog L) fuel op s = .throw x s') :
      LogRun M sem L d (ops ++ [op]) s'
  | world {s : SM P (W × List Line)} {ops : List (Op P)} (hr : LogRun M sem L d ops s) (w : W) :
      LogRun M sem L d ops { s with world := (w, s.world.2) }

/-- The line a call prints. -/
def lineOf (L : Cb) : Call P → Option Line
  | .action _ a args _ _ _ => if a = L then some (logLine args) else none
  | _ => none

/-- Every external row has `log` as its action, it is used for nothing else, and exit actions do not throw. -/
structure LogsMoves (M : Machine) (sem : Sem P W) (L : Cb) : Prop where
  external : ∀ t ∈ M.extRows, t.action = some L
  internal : ∀ t ∈ M.intRows, t.action ≠ some L
  exits : ∀ t ∈ M.extRows, M.exitCb t ≠ some L
  entries : ∀ t ∈ M.extRows, M.entryCb t ≠ some L
  inits : ∀ t ∈ M.extRows ++ M.intRows, M.initEntryCb t ≠ some L
  leaving : ∀ t ∈ M.extRows, ∀ a, M.exitCb t = some a →
    ∀ args p w n p' w', sem.action a args p w ≠ .throw n p' w'

/-- The line `n` gives the row of the move `f`: the source it has been found under, the event, and the target it
leads to (a history row: where it leads if nothing is remembered). -/
def Tells (M : Machine) (f : Firing) (n : Line) : Prop :=
  ∃ p st cd t l c, p ∈ M.composites ∧ st ∈ M.states ∧ f.before[f.region]? = some (some (M.comb p st)) ∧
    cd ∈ M.cands n.event p st ∧ cd.row? = some t ∧ t.internal = false ∧ M.targetLoc t = some l ∧
    n.source = cd.src ∧ n.target = l.2 ∧ n.byPtr = !M.selfMade l.2 ∧
    f.after = f.before.set f.region (some c) ∧
    ((∀ o q, t.target ≠ .ps o (.history q)) → c = M.comb l.1 l.2)

/-- The line `n` names the state left by the move `f` and the state entered. -/
def Says (M : Machine) (f : Firing) (n : Line) : Prop :=
  n.byPtr = false ∧
  (∃ p ∈ M.composites, n.source ∈ M.states ∧ f.before[f.region]? = some (some (M.comb p n.source)) ∧
    M.cands n.event p n.source ≠ []) ∧
  ∃ q ∈ M.composites, f.after[f.region]? = some (some (M.comb q n.target))

instance (M : Machine) (f : Firing) (n : Line) : Decidable (Says M f n) := by unfold Says; infer_instance

/-! ## What is printed -/

theorem LogRun.run {d : Dep} {ops : List (Op P)} {s : SM P (W × List Line)} (h : LogRun M sem L d ops s) :
    RunTo M (sem.withLog L) d ops s := by
  induction h with
  | init h => exact .init h
  | ok _ hop h ih => exact .ok ih hop h
  | throw _ hop h ih => exact .throw ih hop h
  | world _ w ih => exact .world ih _

/-- The output is that of the calls, and what is said to have thrown can throw. -/
structure Output (sem : Sem P W) (L : Cb) (s : SM P (W × List Line)) : Prop where
  lines : s.world.2 = s.trace.filterMap (lineOf L)
  threw : ∀ ph a args p cur, Call.action ph a args p true cur ∈ s.trace →
    a ≠ L ∧ ∃ args p w n p' w', sem.action a args p w = .throw n p' w'

theorem Output.snoc {s : SM P (W × List Line)} (h : Output sem L s) {k : Call P} {w : W × List Line}
    (hw : w.2 = s.world.2 ++ (lineOf L k).toList)
    (hk : ∀ ph a args p cur, k = .action ph a args p true cur →
      a ≠ L ∧ ∃ args p w n p' w', sem.action a args p w = .throw n p' w') :
    Output sem L { s with world := w, trace := s.trace ++ [k] } := by
  refine ⟨?_, fun ph a args p cur hm => ?_⟩
  · show w.2 = (s.trace ++ [k]).filterMap (lineOf L)
    rw [hw, h.lines, List.filterMap_append]
    cases hl : lineOf L k <;> simp [hl]
  · rcases List.mem_append.1 hm with hm | hm
    · exact h.threw _ _ _ _ _ hm
    · exact hk _ _ _ _ _ (List.mem_singleton.1 hm).symm

theorem Output.guard {x : Exec} {ev : EventTy} {p : P} {s : SM P (W × List Line)} (h : Output sem L s) :
    (execGuard M (sem.withLog L) x ev p s).Sat True (fun _ => Output sem L) (fun _ => Output sem L) := by
  unfold execGuard
  split
  · exact h
  · rename_i g _
    dsimp only
    generalize (if x.internal = true then x.src else x.dst) = dst
    split
    · have e : ∀ args, (sem.withLog L).guard g args p s.world = (match sem.guard g args p s.world.1 with
          | .ok b p' w' => .ok b p' (w', s.world.2)
          | .throw n p' w' => .throw n p' (w', s.world.2)
          | .ub => .ub) := fun _ => rfl
      rw [e]
      cases sem.guard g _ p s.world.1 with
      | ok b p' w => exact h.snoc (by simp [lineOf]) (fun _ _ _ _ _ hk => by cases hk)
      | throw n p' w => exact h.snoc (by simp [lineOf]) (fun _ _ _ _ _ hk => by cases hk)
      | ub => trivial
    · trivial

theorem Output.cbs {args : Args} : ∀ (cs : List (Phase × Cb)) (p : P) (s : SM P (W × List Line)), Output sem L s →
    (runCbs (sem.withLog L) args cs p s).Sat True (fun _ => Output sem L) (fun _ => Output sem L) := by
  intro cs
  induction cs with
  | nil => intro p s h; exact h
  | cons x cs ih =>
    intro p s h
    obtain ⟨ph, a⟩ := x
    unfold runCbs
    by_cases ha : a = L
    · have e : (sem.withLog L).action a args p s.world = .ok () p (s.world.1, s.world.2 ++ [logLine args]) := if_pos ha
      rw [e]
      exact ih _ _ (h.snoc (by simp [lineOf, ha]) (fun _ _ _ _ _ hk => by cases hk))
    · have e : (sem.withLog L).action a args p s.world = (match sem.action a args p s.world.1 with
          | .ok u p' w' => .ok u p' (w', s.world.2)
          | .throw n p' w' => .throw n p' (w', s.world.2)
          | .ub => .ub) := if_neg ha
      rw [e]
      cases hx : sem.action a args p s.world.1 with
      | ok u p' w => exact ih _ _ (h.snoc (by simp [lineOf, ha]) (fun _ _ _ _ _ hk => by cases hk))
      | throw n p' w =>
        refine h.snoc (by simp [lineOf, ha]) (fun _ _ _ _ _ hk => ?_)
        cases hk
        exact ⟨ha, _, _, _, _, _, _, hx⟩
      | ub => trivial

theorem Output.handler {ev : EventTy} {p : P} {s : SM P (W × List Line)} (h : Output sem L s) :
    (callHandler M (sem.withLog L) ev p s).Sat True (fun _ => Output sem L) (fun _ => Output sem L) := by
  unfold callHandler
  split
  · exact h
  · unfold readCur
    split
    · trivial
    · trivial
    · dsimp only [Res.bind]
      split
      · split
        · trivial
        · split
          · have e : ∀ h st d, (sem.withLog L).handler h ev st d p s.world =
                (match sem.handler h ev st d p s.world.1 with
                | .ok u p' w' => .ok u p' (w', s.world.2)
                | .throw n p' w' => .throw n p' (w', s.world.2)
                | .ub => .ub) := fun _ _ _ => rfl
            rw [e]
            cases sem.handler _ ev _ _ p s.world.1 with
            | ok b p' w => exact h.snoc (by simp [lineOf]) (fun _ _ _ _ _ hk => by cases hk)
            | throw n p' w => exact h.snoc (by simp [lineOf]) (fun _ _ _ _ _ hk => by cases hk)
            | ub => trivial
          · trivial
      · exact h

theorem Output.preserves : Preserves M (sem.withLog L) True (fun _ => True) (Output sem L) where
  regions _ _ _ _ := trivial
  look _ _ _ _ _ _ _ := trivial
  null _ _ _ _ _ _ _ _ _ _ _ := trivial
  guard s ev r c e x p h _ _ _ _ := h.guard
  fire s0 s ev r c e x p0 p _ h _ _ _ _ _ := by
    unfold fire
    cases hu : updateState M r e s with
    | ok u s1 =>
      have h1 : Output sem L s1 := by
        rcases updateState_ok hu with ⟨_, rfl⟩ | hm
        · exact h
        · exact ⟨by rw [hm.world, hm.trace]; exact h.lines, by rw [hm.trace]; exact h.threw⟩
      show Res.Sat _ _ _ (execAction M (sem.withLog L) x ev p s1)
      unfold execAction
      split
      · exact h1
      · split
        · exact Output.cbs _ _ _ h1
        · trivial
    | throw x s1 => exact absurd hu updateState_throw
    | ub u => trivial
    | timeout => trivial
  push s ev r c e p h _ _ _ _ := ⟨h.lines, h.threw⟩
  pop s ev p q h _ := ⟨h.lines, h.threw⟩

theorem Output.step {fuel : Nat} {op : Op P} {s : SM P (W × List Line)} (h : Output sem L s) :
    (step M (sem.withLog L) fuel op s).Sat True (fun _ => Output sem L) (fun _ => Output sem L) := by
  cases op with
  | process ev p => exact Output.preserves.processEvent fuel ev p s (fun s p h => h.handler) h
  | set r p st =>
    show Res.Sat _ _ _ ((setOp M r p st s).bind _)
    unfold setOp
    split
    · exact ⟨h.lines, h.threw⟩
    · exact h
  | setDependency d =>
    show Res.Sat _ _ _ ((setDependency M d s).bind _)
    unfold setDependency
    split
    · exact ⟨h.lines, h.threw⟩
    · trivial

theorem LogRun.output {d : Dep} {ops : List (Op P)} {s : SM P (W × List Line)} (h : LogRun M sem L d ops s) :
    Output sem L s := by
  induction h with
  | init h =>
    obtain ⟨_, _, _, _, _, _, _, hw, ht, _⟩ := construct_ok h
    exact ⟨by rw [hw, ht]; rfl, fun _ _ _ _ _ hm => by rw [ht] at hm; cases hm⟩
  | @ok _ _ _ op fuel _ _ _ h ih => have := ih.step (M := M) (fuel := fuel) (op := op); rw [h] at this; exact this
  | @throw _ _ _ op fuel _ _ _ h ih => have := ih.step (M := M) (fuel := fuel) (op := op); rw [h] at this; exact this
  | world _ w ih => exact ⟨ih.lines, ih.threw⟩

/-! ## The lines of an item -/

theorem Machine.internal_reading (n : Nat) : ∀ p, ∀ t ∈ M.reading n p, t.internal = false := by
  induction n with
  | zero => intro p t ht; cases ht
  | succ n ih =>
    intro p t ht
    simp only [Machine.reading, List.mem_flatten, List.mem_map] at ht
    obtain ⟨_, ⟨r, _, rfl⟩, ht⟩ := ht
    rcases List.mem_cons.1 ht with rfl | ht
    · rfl
    · cases hq : M.leadsInto r.target with
      | none => rw [hq] at ht; cases ht
      | some q => rw [hq] at ht; exact ih q t ht

theorem Machine.external_int {t : XRow} (ht : t ∈ M.intRows) : t.internal = true := by
  obtain ⟨x, _, ht⟩ := List.mem_flatMap.1 (List.mem_eraseDups.1 ht)
  unfold Machine.innerRows at ht
  split at ht
  · obtain ⟨i, _, ht⟩ := List.mem_flatMap.1 ht
    obtain ⟨y, _, rfl⟩ := List.mem_map.1 ht
    rfl
  · cases ht

theorem lines_all {args : Args} {cur : List (Option Nat)} {cs : List (Phase × Cb)} {tr : List (Call P)}
    (h : CalledAll args cur cs tr) :
    tr.filterMap (lineOf L) = (cs.filter (fun x => x.2 = L)).map fun _ => logLine args := by
  obtain ⟨ps, hl, rfl⟩ := h
  induction cs generalizing ps with
  | nil => simp
  | cons x cs ih =>
    cases ps with
    | nil => simp at hl
    | cons q ps =>
      have := ih ps (by simpa using hl)
      by_cases hx : x.2 = L
      · simp [lineOf, hx, this]
      · simp [lineOf, hx, this]

theorem filter_once {ex rest : List (Phase × Cb)} {ph : Phase} (he : ∀ x ∈ ex, x.2 ≠ L)
    (hr : ∀ x ∈ rest, x.2 ≠ L) : (ex ++ (ph, L) :: rest).filter (fun x => x.2 = L) = [(ph, L)] := by
  rw [List.filter_append, List.filter_cons, List.filter_eq_nil_iff.2 (by simpa using he),
    List.filter_eq_nil_iff.2 (by simpa using hr)]
  simp

/-- What an item's calls print. -/
def Item.lines (L : Cb) (i : Item P) : List Line := i.calls.filterMap (lineOf L)

/-- The calls of an item that are said to have thrown can throw. -/
def Item.Honest (sem : Sem P W) (L : Cb) (i : Item P) : Prop :=
  ∀ ph a args p cur, Call.action ph a args p true cur ∈ i.calls →
    a ≠ L ∧ ∃ args p w n p' w', sem.action a args p w = .throw n p' w'

theorem Item.tells (hL : LogsMoves M sem L) {deps : List Dep} {d0 : Dep} {mem : Name → Nat → Nat → Prop}
    {i : Item P} (n : Nat) (h : i.Ok M deps d0 mem) (hh : i.Honest sem L) :
    List.Forall₂ (Tells M) (i.move n) (i.lines L) := by
  cases i with
  | asked => exact .nil
  | handled => exact .nil
  | fired r ev cd t d l before after gs as =>
    obtain ⟨hrow, hy, hlv, hc⟩ := h
    obtain ⟨p, st, hp, hst, hcur, hcd⟩ := hrow.place
    have hgs : gs.filterMap (lineOf L) = [] := by
      rcases hy with ⟨_, rfl⟩ | ⟨g, q, _, rfl⟩ <;> rfl
    have hlines : Item.lines L (.fired r ev cd t d l before after gs as) = as.filterMap (lineOf L) := by
      show (gs ++ as).filterMap _ = _
      rw [List.filterMap_append, hgs, List.nil_append]
    have hmem : (t ∈ M.extRows ∧ t.internal = false) ∨ (t ∈ M.intRows ∧ t.internal = true) := by
      have hr := hrow.row
      have hcd' := Machine.mem_cands.1 hcd
      rw [← Machine.extRows_eq, ← Machine.intRows_eq] at hcd'
      rcases hcd' with ⟨rfl, _⟩ | ⟨t', ht', _, _, _, _, rfl⟩ | ⟨t', ht', _, _, rfl⟩ |
        ⟨t', ht', _, _, rfl⟩
      · cases hr
      all_goals cases hr
      · exact Or.inl ⟨ht', Machine.internal_reading _ _ _ ht'⟩
      · exact Or.inl ⟨ht', Machine.internal_reading _ _ _ ht'⟩
      · exact Or.inr ⟨ht', Machine.external_int ht'⟩
    rw [hlines]
    rcases hmem with ⟨ht, hi⟩ | ⟨ht, hi⟩
    · have hcbs : M.callbacks t = (M.exitCb t).toList.map (Phase.exit, ·) ++ (Phase.action, L) ::
          ((M.entryCb t).toList.map (Phase.entry, ·) ++ (M.initEntryCb t).toList.map (Phase.initEntry, ·)) := by
        simp [Machine.callbacks, hi, hL.external t ht]
      have h1 : ∀ x ∈ (M.exitCb t).toList.map (Phase.exit, ·), x.2 ≠ L := by
        intro x hx hxl
        obtain ⟨a, ha, rfl⟩ := List.mem_map.1 hx
        exact hL.exits t ht (by rw [← hxl]; simpa using ha)
      have h2 : ∀ x ∈ (M.entryCb t).toList.map (Phase.entry, ·) ++
          (M.initEntryCb t).toList.map (Phase.initEntry, ·), x.2 ≠ L := by
        intro x hx hxl
        rcases List.mem_append.1 hx with hx | hx <;> obtain ⟨a, ha, rfl⟩ := List.mem_map.1 hx
        · exact hL.entries t ht (by rw [← hxl]; simpa using ha)
        · exact hL.inits t (List.mem_append_left _ ht) (by rw [← hxl]; simpa using ha)
      have hone : as.filterMap (lineOf L) = [logLine (cbArgs M cd t l ev d)] := by
        rcases hc with hc | ⟨pre, ph, a, post, tr, q, hpp, hc, rfl⟩
        · rw [lines_all hc, hcbs, filter_once h1 h2]; rfl
        · obtain ⟨hal, ath⟩ := hh ph a (cbArgs M cd t l ev d) q after
            (by show _ ∈ gs ++ (tr ++ [_]); simp)
          have hx : ∀ x ∈ (M.exitCb t).toList.map (Phase.exit, ·), x ≠ (ph, a) := by
            rintro x hx rfl
            obtain ⟨a', ha, he⟩ := List.mem_map.1 hx
            cases he
            obtain ⟨_, _, _, _, _, _, ath⟩ := ath
            exact hL.leaving t ht a (by simpa using ha) _ _ _ _ _ _ ath
          rw [List.filterMap_append, lines_all hc]
          have : [Call.action ph a (cbArgs M cd t l ev d) q true after].filterMap (lineOf L) = [] := by
            simp [lineOf, hal]
          rw [this, List.append_nil]
          rw [hcbs] at hpp
          rcases List.append_eq_append_iff.1 hpp with ⟨m, rfl, hm⟩ | ⟨m, he, hm⟩
          · cases m with
            | nil => simp at hm; exact absurd hm.1.2.symm hal
            | cons y m =>
              simp only [List.cons_append, List.cons.injEq] at hm
              obtain ⟨rfl, hm⟩ := hm
              rw [filter_once h1 fun x hx => h2 x (by rw [hm]; exact List.mem_append_left _ hx)]; rfl
          · cases m with
            | nil => simp at hm; exact absurd hm.1.2 hal
            | cons y m =>
              simp only [List.cons_append, List.cons.injEq] at hm
              obtain ⟨rfl, hm⟩ := hm
              exact absurd rfl (hx (ph, a) (by rw [he]; simp))
      rw [hone]
      have hmv : Item.move n (.fired r ev cd t d l before after gs as) =
          [⟨r, before, after, n + gs.length⟩] := by simp [Item.move, hi]
      rw [hmv]
      refine .cons ?_ .nil
      unfold Leaves at hlv
      rw [if_neg (by simp [hi])] at hlv
      obtain ⟨c, hset, _, hloc⟩ := hlv
      refine ⟨p, st, cd, t, l, c, hp, hst, hcur, hcd, hrow.row, hi, hrow.loc, rfl, by simp [logLine, cbArgs, hi],
        rfl, hset, fun hh => ?_⟩
      obtain ⟨l', hl', hc⟩ := hloc hh
      rw [hrow.loc] at hl'
      cases hl'
      exact hc
    · have hcbs : M.callbacks t = t.action.toList.map (Phase.action, ·) ++
          (M.initEntryCb t).toList.map (Phase.initEntry, ·) := by
        simp [Machine.callbacks, hi]
      have h0 : ∀ x ∈ M.callbacks t, x.2 ≠ L := by
        intro x hx hxl
        rw [hcbs] at hx
        rcases List.mem_append.1 hx with hx | hx <;> obtain ⟨a, ha, rfl⟩ := List.mem_map.1 hx
        · exact hL.internal t ht (by rw [← hxl]; simpa using ha)
        · exact hL.inits t (List.mem_append_right _ ht) (by rw [← hxl]; simpa using ha)
      have hnone : as.filterMap (lineOf L) = [] := by
        rcases hc with hc | ⟨pre, ph, a, post, tr, q, hpp, hc, rfl⟩
        · rw [lines_all hc, List.filter_eq_nil_iff.2 (by simpa using h0)]; rfl
        · rw [List.filterMap_append, lines_all hc, List.filter_eq_nil_iff.2]
          · simp [lineOf, h0 (ph, a) (by rw [hpp]; simp)]
          · intro x hx; simpa using h0 x (by rw [hpp]; exact List.mem_append_left _ hx)
      rw [hnone]
      have hmv : Item.move n (.fired r ev cd t d l before after gs as) = [] := by simp [Item.move, hi]
      rw [hmv]
      exact .nil

/-! ## C92 -/

/-- What has been printed is a line for each call of `log`, in order, with the arguments of the call. -/
theorem C92_output {d : Dep} {ops : List (Op P)} {s : SM P (W × List Line)} (h : LogRun M sem L d ops s) :
    s.world.2 = s.trace.filterMap (lineOf L) := h.output.lines

/-- If all external rows log, there is one line for each move, in order, and it gives the row of the move. -/
theorem C92_rows (hM : M.Regular) (hL : LogsMoves M sem L) {d : Dep} {ops : List (Op P)}
    {s : SM P (W × List Line)} (h : LogRun M sem L d ops s) : List.Forall₂ (Tells M) s.log s.world.2 := by
  obtain ⟨is, hc⟩ := C41_chronicle hM h.run
  have ho := h.output
  rw [ho.lines, hc.trace, hc.log]
  have hok : ∀ i ∈ is, ∃ mem, i.Ok M (depsOf d ops) d mem := by
    intro i hi
    obtain ⟨i1, i2, rfl⟩ := List.append_of_mem hi
    exact ⟨_, hc.ok i1 i i2 rfl⟩
  have hh : ∀ i ∈ is, i.Honest sem L := by
    intro i hi ph a args p cur hm
    refine ho.threw ph a args p cur ?_
    rw [hc.trace]
    exact List.mem_flatMap.2 ⟨i, hi, hm⟩
  clear hc ho
  generalize 0 = n
  induction is generalizing n with
  | nil => exact .nil
  | cons i is ih =>
    obtain ⟨mem, hi⟩ := hok i (by simp)
    have : (Item.trace (i :: is)).filterMap (lineOf L) = i.lines L ++ (Item.trace is).filterMap (lineOf L) := by
      simp [Item.trace, Item.lines]
    rw [this, Item.log]
    exact List.rel_append (i.tells hL n hi (hh i (by simp)))
      (ih (fun j hj => hok j (by simp [hj])) (fun j hj => hh j (by simp [hj])) _)

/-- If, besides, no row is declared on a composite, none leads to a history, and the states rows lead to have a
default constructor, each line names the states that were left and entered. -/
theorem C92_partial (hM : M.Regular) (hS : M.Scoped) (hL : LogsMoves M sem L)
    (hcomp : ∀ t ∈ M.extRows, ∀ q, t.source = .st q → M.isComposite q = false)
    (hhist : ∀ t ∈ M.extRows, ∀ o q, t.target ≠ .ps o (.history q))
    (hmade : ∀ t ∈ M.extRows, ∀ l, M.targetLoc t = some l → M.selfMade l.2 = true)
    {d : Dep} {ops : List (Op P)} {s : SM P (W × List Line)} (h : LogRun M sem L d ops s) :
    List.Forall₂ (Says M) s.log s.world.2 := by
  refine (C92_rows hM hL h).imp ?_
  rintro f n ⟨p, st, cd, t, l, c, hp, hst, hcur, hcd, hrow, hi, hloc, h1, h2, h3, hset, hc⟩
  have key : t ∈ M.extRows ∧ cd.src = st := by
    have hcd' := Machine.mem_cands.1 hcd
    rw [← Machine.extRows_eq, ← Machine.intRows_eq] at hcd'
    rcases hcd' with ⟨rfl, _⟩ | ⟨t', ht', _, hs, hq, _, rfl⟩ | ⟨t', ht', _, hs, rfl⟩ |
      ⟨t', ht', _, _, rfl⟩
    · cases hrow
    all_goals cases hrow
    · rw [hcomp t ht' p hs] at hq; cases hq
    · exact ⟨ht', by show (Machine.sourceLoc t.parent t.source).2 = st; rw [hs]⟩
    · rw [Machine.external_int ht'] at hi; cases hi
  obtain ⟨ht, hsrc⟩ := key
  have hst' : n.source = st := h1.trans hsrc
  refine ⟨by rw [h3, hmade t ht l hloc]; rfl, ⟨p, hp, by rw [hst']; exact hst, by rw [hst']; exact hcur, ?_⟩, l.1,
    hS.targets t (List.mem_append_left _ ht) l hloc, ?_⟩
  · rw [hst']; exact List.ne_nil_of_mem hcd
  · have hlt : f.region < f.before.length := by
      by_contra hh
      rw [List.getElem?_eq_none (by omega)] at hcur
      cases hcur
    rw [hset, List.getElem?_set_self hlt, hc (hhist t ht), h2]

theorem runOps_logRun {fuel : Nat} {d : Dep} {ops : List (Op P)} : ∀ {pre : List (Op P)}
    {s s' : SM P (W × List Line)}, LogRun M sem L d pre s → Ex.runOps M (sem.withLog L) fuel ops s = some s' →
    LogRun M sem L d (pre ++ ops) s' := by
  induction ops with
  | nil => intro pre s s' h1 h2; cases h2; simpa using h1
  | cons op ops ih =>
    intro pre s s' h1 h2
    unfold Ex.runOps at h2
    split at h2
    · rename_i hop
      have hop := Ex.opOkB_iff M hop
      split at h2
      · rename_i he
        have := ih (.ok h1 hop he) h2
        simpa using this
      · rename_i he
        have := ih (.throw h1 hop he) h2
        simpa using this
      · cases h2
    · cases h2

theorem exists_logRun {fuel : Nat} {d : Dep} {w : W} {ops : List (Op P)} {f : SM P (W × List Line) → Bool}
    (h : (Ex.run M (sem.withLog L) fuel d (w, []) ops).any f = true) :
    ∃ s, LogRun M sem L d ops s ∧ f s = true := by
  cases hr : Ex.run M (sem.withLog L) fuel d (w, []) ops with
  | none => rw [hr] at h; cases h
  | some s =>
    rw [hr] at h
    unfold Ex.run at hr
    split at hr
    · rename_i s0 hc
      exact ⟨s, by simpa using runOps_logRun (.init hc) hr, h⟩
    · cases hr

end

/-! ## Cases -/

namespace Ex

/-- `LogsMoves` for the callbacks of the examples. -/
theorem logsMoves {M : Machine} {on : Nat → Bool} {bad : List Nat} {L : Cb}
    (h1 : ∀ t ∈ M.extRows, t.action = some L ∧ M.exitCb t ≠ some L ∧ M.entryCb t ≠ some L)
    (h2 : ∀ t ∈ M.intRows, t.action ≠ some L)
    (h3 : ∀ t ∈ M.extRows ++ M.intRows, M.initEntryCb t ≠ some L)
    (h4 : ∀ t ∈ M.extRows, ∀ a ∈ M.exitCb t, a ∉ bad) : LogsMoves M (sem on bad) L where
  external t ht := (h1 t ht).1
  internal := h2
  exits t ht := (h1 t ht).2.1
  entries t ht := (h1 t ht).2.2
  inits := h3
  leaving t ht a ha args p w n p' w' := by
    have := h4 t ht a ha
    simp [sem, this]

/-- A composite (2) is entered and left by an exit point; all rows log (100).  State 3 has an internal row. -/
def diary : Machine := Machine.ofList
  [ { table := some
        [ row (ini 1) (ev 0) none (some 100) (.st 2),
          row (.ps true (.exit 2 4)) (ev 2) none (some 100) (.st 1) ] },
    { },
    { table := some [ row (ini 3) (ev 1) none (some 100) (.st 4) ], onExit := some 5 },
    { onEntry := some 7, itable := some [⟨ev 3, none, some 6⟩] } ] [1]

/-- `diary`, entered by its history. -/
def diaryH : Machine := Machine.ofList
  [ { table := some
        [ row (ini 1) (ev 0) none (some 100) (.ps true (.history 2)),
          row (.ps true (.exit 2 4)) (ev 2) none (some 100) (.st 1) ] },
    { },
    { table := some [ row (ini 3) (ev 1) none (some 100) (.st 4) ] } ] [1]

/-- `diary`, left by a row on the composite. -/
def diaryC : Machine := Machine.ofList
  [ { table := some
        [ row (ini 1) (ev 0) none (some 100) (.st 2), row (.st 2) (ev 2) none (some 100) (.st 1) ] },
    { },
    { table := some [ row (ini 3) (ev 1) none (some 100) (.st 4) ] } ] [1]

/-- A state that is not default constructible. -/
def diaryP : Machine := Machine.ofList
  [ { table := some [ row (ini 1) (ev 0) none (some 100) (.st 2) ] },
    { }, { defaultCtor := false } ] []

/-- An exit action that throws. -/
def diaryX : Machine := Machine.ofList
  [ { table := some [ row (ini 1) (ev 0) none (some 100) (.st 2), row (.st 2) (ev 1) none (some 100) (.st 1) ] },
    { }, { onExit := some 5 } ] []

/-- No row is declared on a composite. -/
theorem noneOnComposite {M : Machine} (h : ∀ t ∈ M.extRows, (match t.source with
    | .st q => !M.isComposite q | .ps _ _ => true) = true) (t : XRow) (ht : t ∈ M.extRows) (q : Name)
    (he : t.source = .st q) : M.isComposite q = false := by
  have := h t ht
  rw [he] at this
  simpa using this

/-- No row leads to a history. -/
theorem noneToHistory {M : Machine} (h : ∀ t ∈ M.extRows, Machine.toHistory t.target = false) (t : XRow)
    (ht : t ∈ M.extRows) (o : Bool) (q : Name) : t.target ≠ .ps o (.history q) := by
  intro he
  have := h t ht
  rw [he] at this
  cases this

/-- Rows lead to default constructible states. -/
theorem allMade {M : Machine} (h : ∀ t ∈ M.extRows, ((M.targetLoc t).map fun l => M.selfMade l.2).getD true = true)
    (t : XRow) (ht : t ∈ M.extRows) (l : Name × StTy) (he : M.targetLoc t = some l) : M.selfMade l.2 = true := by
  have := h t ht
  rw [he] at this
  exact this

theorem sem_guards (on : Nat → Bool) (bad : List Nat) : ∀ g a p w, (sem on bad).guard g a p w ≠ .ub := by
  intro g a p w; simp [sem]

theorem sem_actions (on : Nat → Bool) (bad : List Nat) : ∀ g a p w, (sem on bad).action g a p w ≠ .ub := by
  intro g a p w; simp only [sem]; split <;> simp

theorem sem_handlers (on : Nat → Bool) (bad : List Nat) : ∀ h e st d p w, (sem on bad).handler h e st d p w ≠ .ub := by
  intro h e st d p w; simp [sem]

theorem diary_regular : diary.Regular := Machine.regular_ofList (by decide +kernel)
theorem diary_scoped : diary.Scoped := Machine.scoped_of_check (by decide +kernel)

theorem diary_logs : LogsMoves diary (sem (fun _ => true) [7]) 100 :=
  logsMoves (by decide +kernel) (by decide +kernel) (by decide +kernel) (by decide +kernel)

/-- In `diary` the composite is entered (its entry action throws), and left again: three moves, three lines, and none
for the internal reaction. -/
example : (Ex.run diary ((sem (fun _ => true) [7]).withLog 100) 5 7 ([], [])
    [.process (ev 0) 0, .process (ev 3) 0, .process (ev 1) 0, .process (ev 2) 0]).any (fun s => s.world ==
      ([7, 6, 5], [⟨.st 1, ev 0, .st 3, false⟩, ⟨.st 3, ev 1, .st 4, false⟩, ⟨.st 4, ev 2, .st 1, false⟩]) &&
      s.log.length == 3) = true := by decide +kernel

/-- `diary` meets the assumptions of `C92_partial`. -/
example {d : Dep} {ops : List (Op Nat)} {s : SM Nat (List Nat × List Line)}
    (h : LogRun diary (sem (fun _ => true) [7]) 100 d ops s) : List.Forall₂ (Says diary) s.log s.world.2 :=
  C92_partial diary_regular diary_scoped diary_logs (noneOnComposite (by decide +kernel))
    (noneToHistory (by decide +kernel)) (allMade (by decide +kernel)) h

end Ex

/-- Lines that do not say what happened. -/
theorem not_says {M : Machine} {l : List Firing} {ns : List Line}
    (h : l.length ≠ ns.length ∨ ∃ x ∈ l.zip ns, ¬ Says M x.1 x.2) : ¬ List.Forall₂ (Says M) l ns := by
  intro hf
  obtain ⟨h1, h2⟩ := List.forall₂_iff_zip.1 hf
  rcases h with h | ⟨x, hx, h⟩
  · exact h h1
  · exact h (h2 hx)

/-- C92 does not hold: a history row prints the initial state of the composite although the one remembered is
entered. -/
theorem C92_refuted_history : ¬ ∀ (M : Machine) (L : Cb), M.Regular → M.Scoped →
    (∀ t ∈ M.extRows, ∀ q, t.source = .st q → M.isComposite q = false) →
    (∀ t ∈ M.extRows, ∀ l, M.targetLoc t = some l → M.selfMade l.2 = true) →
    ∀ (sem : Sem Nat (List Nat)), Safe M sem → LogsMoves M sem L →
    ∀ (d : Dep) (ops : List (Op Nat)) (s : SM Nat (List Nat × List Line)), LogRun M sem L d ops s →
      List.Forall₂ (Says M) s.log s.world.2 := by
  intro hall
  obtain ⟨s, hr, hs⟩ := exists_logRun (M := Ex.diaryH) (sem := Ex.sem (fun _ => true) []) (L := 100) (fuel := 5)
    (d := 7) (w := []) (ops := [.process (Ex.ev 0) 0, .process (Ex.ev 1) 0, .process (Ex.ev 2) 0, .process (Ex.ev 0) 0])
    (f := fun s => decide (∃ x ∈ s.log.zip s.world.2, ¬ Says Ex.diaryH x.1 x.2)) (by decide +kernel)
  exact not_says (Or.inr (of_decide_eq_true hs)) (hall _ _ (Machine.regular_ofList (by decide +kernel))
    (Machine.scoped_of_check (by decide +kernel)) (Ex.noneOnComposite (by decide +kernel)) (Ex.allMade (by decide +kernel)) _
    (Programs.safe_of_check (by decide +kernel) (Ex.sem_guards _ _) (Ex.sem_actions _ _) (Ex.sem_handlers _ _))
    (Ex.logsMoves (by decide +kernel) (by decide +kernel) (by decide +kernel) (by decide +kernel)) _ _ s hr)

/-- C92 does not hold: a row on a composite prints the composite as source, not the state that is left. -/
theorem C92_refuted_composite : ¬ ∀ (M : Machine) (L : Cb), M.Regular → M.Scoped →
    (∀ t ∈ M.extRows, ∀ o q, t.target ≠ .ps o (.history q)) →
    (∀ t ∈ M.extRows, ∀ l, M.targetLoc t = some l → M.selfMade l.2 = true) →
    ∀ (sem : Sem Nat (List Nat)), Safe M sem → LogsMoves M sem L →
    ∀ (d : Dep) (ops : List (Op Nat)) (s : SM Nat (List Nat × List Line)), LogRun M sem L d ops s →
      List.Forall₂ (Says M) s.log s.world.2 := by
  intro hall
  obtain ⟨s, hr, hs⟩ := exists_logRun (M := Ex.diaryC) (sem := Ex.sem (fun _ => true) []) (L := 100) (fuel := 5)
    (d := 7) (w := []) (ops := [.process (Ex.ev 0) 0, .process (Ex.ev 2) 0])
    (f := fun s => decide (∃ x ∈ s.log.zip s.world.2, ¬ Says Ex.diaryC x.1 x.2)) (by decide +kernel)
  exact not_says (Or.inr (of_decide_eq_true hs)) (hall _ _ (Machine.regular_ofList (by decide +kernel))
    (Machine.scoped_of_check (by decide +kernel)) (Ex.noneToHistory (by decide +kernel)) (Ex.allMade (by decide +kernel)) _
    (Programs.safe_of_check (by decide +kernel) (Ex.sem_guards _ _) (Ex.sem_actions _ _) (Ex.sem_handlers _ _))
    (Ex.logsMoves (by decide +kernel) (by decide +kernel) (by decide +kernel) (by decide +kernel)) _ _ s hr)

/-- C92 does not hold: if the state entered is not default constructible the type of a pointer is printed. -/
theorem C92_refuted_pointer : ¬ ∀ (M : Machine) (L : Cb), M.Regular → M.Scoped →
    (∀ t ∈ M.extRows, ∀ q, t.source = .st q → M.isComposite q = false) →
    (∀ t ∈ M.extRows, ∀ o q, t.target ≠ .ps o (.history q)) →
    ∀ (sem : Sem Nat (List Nat)), Safe M sem → LogsMoves M sem L →
    ∀ (d : Dep) (ops : List (Op Nat)) (s : SM Nat (List Nat × List Line)), LogRun M sem L d ops s →
      List.Forall₂ (Says M) s.log s.world.2 := by
  intro hall
  obtain ⟨s, hr, hs⟩ := exists_logRun (M := Ex.diaryP) (sem := Ex.sem (fun _ => true) []) (L := 100) (fuel := 5)
    (d := 7) (w := []) (ops := [.process (Ex.ev 0) 0])
    (f := fun s => decide (∃ x ∈ s.log.zip s.world.2, ¬ Says Ex.diaryP x.1 x.2)) (by decide +kernel)
  exact not_says (Or.inr (of_decide_eq_true hs)) (hall _ _ (Machine.regular_ofList (by decide +kernel))
    (Machine.scoped_of_check (by decide +kernel)) (Ex.noneOnComposite (by decide +kernel)) (Ex.noneToHistory (by decide +kernel)) _
    ⟨Machine.scoped_of_check (by decide +kernel), by decide +kernel,
      fun h => absurd h (by decide +kernel), fun h => absurd h (by decide +kernel), fun _ => Or.inr fun _ => rfl,
      Ex.sem_guards _ _, Ex.sem_actions _ _, Ex.sem_handlers _ _⟩
    (Ex.logsMoves (by decide +kernel) (by decide +kernel) (by decide +kernel) (by decide +kernel)) _ _ s hr)

/-- C92 does not hold: if an exit action throws the move is made but not printed. -/
theorem C92_refuted_exit : ¬ ∀ (M : Machine) (L : Cb), M.Regular → M.Scoped →
    (∀ t ∈ M.extRows, ∀ q, t.source = .st q → M.isComposite q = false) →
    (∀ t ∈ M.extRows, ∀ o q, t.target ≠ .ps o (.history q)) →
    (∀ t ∈ M.extRows, ∀ l, M.targetLoc t = some l → M.selfMade l.2 = true) →
    ∀ (sem : Sem Nat (List Nat)), Safe M sem → (∀ t ∈ M.extRows, t.action = some L) →
    (∀ t ∈ M.extRows, M.exitCb t ≠ some L ∧ M.entryCb t ≠ some L) → M.intRows = [] →
    ∀ (d : Dep) (ops : List (Op Nat)) (s : SM Nat (List Nat × List Line)), LogRun M sem L d ops s →
      List.Forall₂ (Says M) s.log s.world.2 := by
  intro hall
  obtain ⟨s, hr, hs⟩ := exists_logRun (M := Ex.diaryX) (sem := Ex.sem (fun _ => true) [5]) (L := 100) (fuel := 5)
    (d := 7) (w := []) (ops := [.process (Ex.ev 0) 0, .process (Ex.ev 1) 0])
    (f := fun s => decide (s.log.length ≠ s.world.2.length)) (by decide +kernel)
  exact not_says (Or.inl (of_decide_eq_true hs)) (hall _ _ (Machine.regular_ofList (by decide +kernel))
    (Machine.scoped_of_check (by decide +kernel)) (Ex.noneOnComposite (by decide +kernel)) (Ex.noneToHistory (by decide +kernel)) (Ex.allMade (by decide +kernel)) _
    (Programs.safe_of_check (by decide +kernel) (Ex.sem_guards _ _) (Ex.sem_actions _ _) (Ex.sem_handlers _ _))
    (by decide +kernel) (by decide +kernel) (by decide +kernel) _ _ s hr)

end Hsm
