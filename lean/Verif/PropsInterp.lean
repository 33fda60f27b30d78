import Verif.Interp
import Verif.PropsPlay
import Verif.Alike

/-!
# C77: the library is a refinement of the reference interpreter

For every machine the compiler accepts, with regions, history, deferral, anonymous rows, several
dependencies, missing state objects and arbitrary callbacks, each call has the outcome the interpreter
of Interp.lean computes, including undefined behaviour and its kind.
-/

namespace Hsm

section
variable {P W : Type}

/-- The machine object `s` is a picture of the configuration `c`: the entries of its dispatch table are
those `E` tells for the dependencies, there are handlers for the events `evs`, and the rest of the program is
the same in the sense of `U`. -/
structure Portrait {W' : Type} (M : Machine) (E : List Dep → EventTy → Name → StTy → List Entry)
    (evs : List EventTy) (U : W → W' → Prop) (c : Conf P W') (s : SM P W) : Prop where
  cur : s.cur = c.slots.map (Option.map fun l => M.comb l.1 l.2)
  slots : ∀ l, some l ∈ c.slots → l.2 ∈ M.states
  initial : s.initial = M.initialTable
  histLen : s.hist.length = M.nParents
  hist : ∀ p ∈ M.composites, s.hist[M.parentIdx p]? = some ((c.memory p).map fun l => M.comb l.1 l.2)
  memory : ∀ p ∈ M.composites, ∀ l ∈ c.memory p, l.2 ∈ M.states
  queue : s.queue = c.waiting
  regions : M.orthogonal = true → s.regions = c.active
  bound : c.deps ≠ []
  table : ∀ e p st, p ∈ M.composites → st ∈ M.states → s.table e (M.comb p st) = E c.deps e p st
  handlers : (M.decl M.root).handler.isSome = true → ∀ e ∈ evs, ∀ p ∈ M.composites, ∀ st ∈ M.states,
    s.handlers e (M.comb p st) = some (st, c.first)
  world : U s.world c.world
  trace : s.trace.map Call.bare = c.calls

/-- The machine object `s` of the modular header is a picture of the configuration `c`. -/
abbrev Depicts (M : Machine) (c : Conf P W) (s : SM P W) : Prop := Portrait M M.entries M.events Eq c s

/-- The same outcome: the model on the left, the interpreter on the right. -/
abbrev AgreesOn {W' α β : Type} (M : Machine) (E : List Dep → EventTy → Name → StTy → List Entry)
    (evs : List EventTy) (U : W → W' → Prop) (V : α → β → Prop) (r : Res (SM P W) α)
    (q : Res (Conf P W') β) : Prop :=
  r.Rel V (fun s c => Portrait M E evs U c s) q

/-- The same outcome, for the modular header. -/
abbrev Agrees {α β : Type} (M : Machine) (V : α → β → Prop) (r : Res (SM P W) α)
    (q : Res (Conf P W) β) : Prop :=
  AgreesOn M M.entries M.events Eq V r q

variable {M : Machine} {sem : Sem P W} {s : SM P W} {c : Conf P W}

section
variable {E : List Dep → EventTy → Name → StTy → List Entry} {evs : List EventTy}

section
variable {W' : Type} {U : W → W' → Prop} {c : Conf P W'}

/-! ## Places -/

theorem Portrait.seek (h : Portrait M E evs U c s) (r : Nat) :
    AgreesOn M E evs U (fun n l => n = M.comb l.1 l.2 ∧ l.2 ∈ M.states) (readCur r s) (Machine.seek r c) := by
  unfold readCur Machine.seek
  rw [h.cur, List.getElem?_map]
  cases hc : c.slots[r]? with
  | none => rfl
  | some o =>
    cases o with
    | none => rfl
    | some l => exact ⟨⟨rfl, h.slots l (List.mem_of_getElem? hc)⟩, h⟩

theorem Portrait.taking (h : Portrait M E evs U c s) : List.range (currentRegions M s) = M.taking c := by
  unfold currentRegions Machine.taking
  rw [Machine.parallel_eq]
  cases ho : M.orthogonal with
  | false => rfl
  | true => simp only [if_true, h.regions ho]

/-- Where the index of an unknown composite leads. -/
theorem unknown_div (hM : M.Laid) {l : Name × StTy} (hp : l.1 ∉ M.composites) :
    M.nParents ≤ M.comb l.1 l.2 / M.nStates := by
  have h : ¬ M.comb l.1 l.2 < M.size := fun h => hp (hM.comb_lt.1 h).1
  have h' : M.nParents * M.nStates ≤ M.comb l.1 l.2 := by
    unfold Machine.size at h
    rw [Nat.mul_comm]
    exact Nat.le_of_not_lt h
  exact (Nat.le_div_iff_mul_le Machine.nStates_pos).2 h'

theorem length_initialTable : M.initialTable.length = M.nParents := by
  unfold Machine.initialTable Machine.nParents
  rw [List.length_map]

theorem Portrait.recount (h : Portrait M E evs U c s) (hM : M.Laid) :
    AgreesOn M E evs U (fun _ _ => True) (updateRegions M s) (M.recount c) := by
  unfold updateRegions Machine.recount
  rw [Machine.parallel_eq]
  cases ho : M.orthogonal with
  | false => exact ⟨trivial, h⟩
  | true =>
    simp only [if_true]
    unfold currentParent
    rw [Res.bind_assoc]
    refine (h.seek 0).bind ?_
    rintro n l s c ⟨rfl, hl⟩ h
    show AgreesOn M E evs U _ (match s.initial[M.comb l.1 l.2 / M.nStates]? with
      | none => _
      | some l => _) _
    by_cases hp : l.1 ∈ M.composites
    · rw [if_pos hp, h.initial, hM.comb_div hp hl, hM.initialTable_get hp]
      refine ⟨trivial, { h with initial := rfl, regions := fun _ => ?_ }⟩
      show ((M.initials l.1).map _).length = _
      rw [List.length_map, Machine.declaredInitials_eq]
    · rw [if_neg hp, h.initial, List.getElem?_eq_none]
      · rfl
      · rw [length_initialTable]; exact unknown_div hM hp

theorem Portrait.put (h : Portrait M E evs U c s) (r : Nat) {l : Name × StTy} (hl : l.2 ∈ M.states) :
    AgreesOn M E evs U (fun _ _ => True) (writeCur r (M.comb l.1 l.2) s) (Machine.put r l c) := by
  unfold writeCur Machine.put
  rw [h.cur, List.length_map]
  split
  · refine ⟨trivial, { h with cur := ?_, slots := ?_ }⟩
    · show List.set _ _ _ = _
      rw [List.map_set]; rfl
    · intro l' hl'
      rcases List.mem_or_eq_of_mem_set hl' with h' | h'
      · exact h.slots l' h'
      · cases h'; exact hl
  · rfl

theorem Portrait.remember (h : Portrait M E evs U c s) (hM : M.Laid) (r : Nat) :
    AgreesOn M E evs U (fun _ _ => True) (saveHistory M r s) (M.remember r c) := by
  unfold saveHistory Machine.remember currentParent
  rw [Res.bind_assoc]
  refine (h.seek 0).bind ?_
  rintro n l0 s c ⟨rfl, hl0⟩ h
  show AgreesOn M E evs U _ ((readCur r s).bind _) _
  refine (h.seek r).bind ?_
  rintro n l s c ⟨rfl, hl⟩ h
  by_cases hp : l0.1 ∈ M.composites
  · rw [hM.comb_div hp hl0, h.hist l0.1 hp]
    dsimp only
    rw [List.length_map]
    by_cases hr : r < (c.memory l0.1).length
    · rw [if_pos hr, if_pos ⟨hp, hr⟩]
      refine ⟨trivial, { h with histLen := ?_, hist := ?_, memory := ?_ }⟩
      · show (List.set _ _ _).length = _
        rw [List.length_set]; exact h.histLen
      · intro q hq
        show (List.set _ _ _)[_]? = some (List.map _ (if q = l0.1 then _ else _))
        by_cases hqp : q = l0.1
        · subst hqp
          rw [if_pos rfl, List.map_set, List.getElem?_set_self]
          exact (List.getElem?_eq_some_iff.1 (h.hist _ hq)).1
        · rw [if_neg hqp, List.getElem?_set_ne, h.hist q hq]
          intro he
          exact hqp ((hM.parentIdx_inj hp hq he).symm)
      · intro q hq l' hl'
        have hl' : l' ∈ if q = l0.1 then (c.memory q).set r l else c.memory q := hl'
        by_cases hqp : q = l0.1
        · rw [if_pos hqp] at hl'
          rcases List.mem_or_eq_of_mem_set hl' with h' | h'
          · exact h.memory q hq l' h'
          · rw [h']; exact hl
        · rw [if_neg hqp] at hl'
          exact h.memory q hq l' hl'
    · rw [if_neg hr, if_neg fun h' => hr h'.2]; rfl
  · rw [if_neg fun h' => hp h'.1, List.getElem?_eq_none]
    · rfl
    · rw [h.histLen]; exact unknown_div hM hp

theorem Portrait.recall (h : Portrait M E evs U c s) (hM : M.Laid) (r : Nat) {l : Name × StTy}
    (hl : l.2 ∈ M.states) :
    AgreesOn M E evs U (fun n l => n = M.comb l.1 l.2 ∧ l.2 ∈ M.states)
      (readHistory (M.comb l.1 l.2 / M.nStates) r s) (M.recall r l.1 c) := by
  unfold readHistory Machine.recall
  by_cases hp : l.1 ∈ M.composites
  · rw [hM.comb_div hp hl, h.hist l.1 hp, if_pos hp]
    dsimp only
    rw [List.getElem?_map]
    cases hc : (c.memory l.1)[r]? with
    | none => rfl
    | some l' => exact ⟨⟨rfl, h.memory _ hp l' (List.mem_of_getElem? hc)⟩, h⟩
  · rw [if_neg hp, List.getElem?_eq_none]
    · rfl
    · rw [h.histLen]; exact unknown_div hM hp

theorem Portrait.logged (h : Portrait M E evs U c s) (x : List Firing) : Portrait M E evs U c { s with log := x } :=
  { h with }

theorem Portrait.travel (h : Portrait M E evs U c s) (hM : M.Laid) (r : Nat) {t : XRow} {l : Name × StTy}
    (hl : l.2 ∈ M.states) {e : Entry} (hto : e.to = M.comb l.1 l.2)
    (hh : e.history = Machine.toHistory t.target) (hi : e.internal = t.internal) :
    AgreesOn M E evs U (fun _ _ => True) (updateState M r e s) (M.travel r t l c) := by
  unfold updateState Machine.travel
  rw [hi]
  split
  · exact ⟨trivial, h⟩
  · have hmove : AgreesOn M E evs U (fun _ _ => True) (moveState M r e s)
        (if M.historic then
          (M.remember r c).bind fun _ c =>
            (if Machine.toHistory t.target then (M.recall r l.1 c).bind fun l c => Machine.put r l c
             else Machine.put r l c).bind fun _ c => M.recount c
        else (Machine.put r l c).bind fun _ c => M.recount c) := by
      unfold moveState
      rw [Machine.hasHistory_eq]
      split
      · refine (h.remember hM r).bind fun _ _ s c _ h => ?_
        refine Res.Rel.bind (V := fun _ _ => True) ?_ fun _ _ s c _ h => h.recount hM
        rw [hh, hto]
        split
        · refine (h.recall hM r hl).bind ?_
          rintro n l' s c ⟨rfl, hl'⟩ h
          exact h.put r hl'
        · exact h.put r hl
      · rw [hto]
        exact (h.put r hl).bind fun _ _ s c _ h => h.recount hM
    revert hmove
    generalize (if M.historic then _ else _ : Res (Conf P W') Unit) = q
    generalize moveState M r e s = m
    intro hmove
    cases m <;> cases q <;> first | exact hmove.elim | skip
    · exact ⟨trivial, hmove.2.logged _⟩
    · exact hmove
    · exact hmove
    · trivial

end

/-! ## Callbacks -/

theorem Portrait.present (h : Portrait M E evs Eq c s) (st : StTy) : objOk M sem st s = M.present sem st c := by
  unfold objOk Machine.present
  rw [Machine.defaultCtor_eq]
  rw [h.world]

theorem Portrait.ran (h : Portrait M E evs Eq c s) (w : W) {x y : Call P} (hx : x.bare = y) :
    Portrait M E evs Eq { c with world := w, calls := c.calls ++ [y] }
      { s with world := w, trace := s.trace ++ [x] } :=
  { h with
    world := rfl
    trace := by
      show List.map _ (s.trace ++ [x]) = c.calls ++ [y]
      rw [List.map_append, h.trace, ← hx]; rfl }

theorem Portrait.ask (h : Portrait M E evs Eq c s) {x : Exec} {d : Dep} {cd : Cand} {t : XRow} {l : Name × StTy}
    (hg : x.guard = t.guard) (hs : x.src = cd.src) (hd : x.dst = l.2) (hi : x.internal = t.internal)
    (hp : x.dep = d) (ev : EventTy) (p : P) :
    AgreesOn M E evs Eq Eq (execGuard M sem x ev p s) (M.ask sem ev d cd t l p c) := by
  unfold execGuard Machine.ask
  rw [hg, hs, hd, hi, hp]
  cases t.guard with
  | none => exact ⟨rfl, h⟩
  | some g =>
    dsimp only
    rw [h.present, h.present, h.world]
    by_cases hk : (M.present sem cd.src c && M.present sem (if t.internal then cd.src else l.2) c) = true
    · rw [if_pos hk, if_pos hk]
      cases sem.guard g ⟨ev, cd.src, if t.internal then cd.src else l.2, false, d⟩ p c.world with
      | ok b p' w => exact ⟨rfl, h.ran w rfl⟩
      | throw k p' w => exact ⟨rfl, h.ran w rfl⟩
      | ub => rfl
    · rw [if_neg hk, if_neg hk]; rfl

theorem Portrait.perform (args : Args) (cs : List (Phase × Cb)) : ∀ {c : Conf P W} {s : SM P W},
    Portrait M E evs Eq c s → ∀ p : P, AgreesOn M E evs Eq Eq (runCbs sem args cs p s) (Machine.perform sem args cs p c) := by
  induction cs with
  | nil => intro c s h p; exact ⟨rfl, h⟩
  | cons x cs ih =>
    intro c s h p
    obtain ⟨ph, a⟩ := x
    unfold runCbs Machine.perform
    rw [h.world]
    cases sem.action a args p c.world with
    | ok u p' w => exact ih (h.ran w rfl) p'
    | throw k p' w => exact ⟨rfl, h.ran w rfl⟩
    | ub => rfl

theorem Portrait.take (h : Portrait M E evs Eq c s) (hM : M.Laid) (r : Nat) {x : Exec} {d : Dep} {cd : Cand}
    {t : XRow} {l : Name × StTy} (hl : l.2 ∈ M.states) {e : Entry} (hto : e.to = M.comb l.1 l.2)
    (hh : e.history = Machine.toHistory t.target) (hei : e.internal = t.internal)
    (ha : x.action = M.toRun t) (hs : x.src = cd.src) (hd : x.dst = l.2) (hi : x.internal = t.internal)
    (hp : x.dep = d) (ev : EventTy) (p : P) :
    AgreesOn M E evs Eq Eq (fire M sem r ev e x p s) (M.take sem r ev d cd t l p c) := by
  unfold Hsm.fire Machine.take
  refine (h.travel hM r hl hto hh hei).bind fun _ _ s c _ h => ?_
  unfold execAction
  rw [ha, actionArgs_eq hs hd hi hp, hs]
  cases M.toRun t with
  | none => exact ⟨rfl, h⟩
  | some cs =>
    dsimp only
    rw [h.present]
    split
    · exact Portrait.perform _ cs h p
    · rfl

/-! ## Events -/

/-- What the entry of a candidate looks like. -/
theorem entryOfCand_full {d : Dep} {cd : Cand} {t : XRow} {l : Name × StTy} (hr : cd.row? = some t)
    (hl : M.targetLoc t = some l) : ∃ e x, M.entryOfCand d cd = some e ∧ e.tr = some x ∧
      e.defer = false ∧ e.to = M.comb l.1 l.2 ∧ e.history = Machine.toHistory t.target ∧
      e.internal = t.internal ∧ x.guard = t.guard ∧ x.action = M.toRun t ∧ x.src = cd.src ∧
      x.dst = l.2 ∧ x.internal = t.internal ∧ x.dep = d := by
  cases cd with
  | defer => cases hr
  | row t' =>
    cases hr
    simp only [Machine.entryOfCand, hl, Option.map_some]
    exact ⟨_, _, rfl, rfl, rfl, rfl, rfl, rfl, rfl, rfl, rfl, rfl, rfl, rfl⟩
  | exit t' p =>
    cases hr
    simp only [Machine.entryOfCand, hl, Option.map_some]
    exact ⟨_, _, rfl, rfl, rfl, rfl, rfl, rfl, rfl, rfl, rfl, rfl, rfl, rfl⟩

/-- Every candidate has a row with a destination, or is a deferral. -/
def Sound (M : Machine) (cs : List (Dep × Cand)) : Prop :=
  ∀ x ∈ cs, x.2 = .defer ∨ ∃ t l, x.2.row? = some t ∧ M.targetLoc t = some l ∧ l.2 ∈ M.states

theorem Portrait.attempt (hM : M.Laid) (r : Nat) (ev : EventTy) : ∀ (cs : List (Dep × Cand)),
    Sound M cs → ∀ {c : Conf P W} {s : SM P W}, Portrait M E evs Eq c s → ∀ p : P,
    AgreesOn M E evs Eq Eq (tryEntries M sem r ev (cs.filterMap fun x => M.entryOfCand x.1 x.2) p s)
      (M.attempt sem false r ev cs p c) := by
  intro cs
  induction cs with
  | nil => intro _ c s h p; exact ⟨rfl, h⟩
  | cons x cs ih =>
    intro hcs c s h p
    have ih := @ih fun y hy => hcs y (List.mem_cons_of_mem _ hy)
    rcases hcs x List.mem_cons_self with hx | ⟨t, l, hr, hl, hls⟩
    · obtain ⟨d, cd⟩ := x
      cases hx
      rw [List.filterMap_cons_some (f := fun x : Dep × Cand => M.entryOfCand x.1 x.2)
        (show M.entryOfCand d .defer = some _ from rfl)]
      unfold tryEntries Machine.attempt
      refine ⟨rfl, { h with queue := ?_ }⟩
      show s.queue ++ _ = c.waiting ++ _
      rw [h.queue]
    · obtain ⟨d, cd⟩ := x
      obtain ⟨e, x, he, htr, hdf, hto, hh, hei, hg, ha, hs, hd, hi, hp⟩ :=
        entryOfCand_full (M := M) (d := d) hr hl
      rw [List.filterMap_cons_some (f := fun x : Dep × Cand => M.entryOfCand x.1 x.2) (b := e) he]
      unfold tryEntries Machine.attempt
      rw [hdf, htr, show cd.row? = some t from hr]
      dsimp only
      rw [hl]
      simp only [Bool.false_eq_true, if_false]
      refine (h.ask hg hs hd hi hp ev p).bind fun a b s c hab h => ?_
      subst hab
      split
      · exact (h.take hM r hls hto hh hei ha hs hd hi hp ev a.2).bind fun a b s c hab h =>
          ⟨by rw [hab], h⟩
      · exact ih h a.2

theorem Portrait.attemptAnon (hM : M.Laid) (r : Nat) : ∀ (cs : List (Dep × Cand)),
    Sound M cs → ∀ {c : Conf P W} {s : SM P W}, Portrait M E evs Eq c s → ∀ p : P,
    AgreesOn M E evs Eq (fun a b => b.1 = (if a.1 then .fired else .rejected) ∧ b.2 = a.2)
      (tryAnon M sem r (cs.filterMap fun x => M.entryOfCand x.1 x.2) p s)
      (M.attempt sem true r .none cs p c) := by
  intro cs
  induction cs with
  | nil => intro _ c s h p; exact ⟨⟨rfl, rfl⟩, h⟩
  | cons x cs ih =>
    intro hcs c s h p
    have ih := @ih fun y hy => hcs y (List.mem_cons_of_mem _ hy)
    rcases hcs x List.mem_cons_self with hx | ⟨t, l, hr, hl, hls⟩
    · obtain ⟨d, cd⟩ := x
      cases hx
      rw [List.filterMap_cons_some (f := fun x : Dep × Cand => M.entryOfCand x.1 x.2)
        (show M.entryOfCand d .defer = some _ from rfl)]
      rfl
    · obtain ⟨d, cd⟩ := x
      obtain ⟨e, x, he, htr, hdf, hto, hh, hei, hg, ha, hs, hd, hi, hp⟩ :=
        entryOfCand_full (M := M) (d := d) hr hl
      rw [List.filterMap_cons_some (f := fun x : Dep × Cand => M.entryOfCand x.1 x.2) (b := e) he]
      unfold tryAnon Machine.attempt
      rw [htr, show cd.row? = some t from hr]
      dsimp only
      rw [hl]
      dsimp only
      refine (h.ask hg hs hd hi hp .none p).bind fun a b s c hab h => ?_
      subst hab
      split
      · exact (h.take hM r hls hto hh hei ha hs hd hi hp .none a.2).bind fun a b s c hab h =>
          ⟨⟨rfl, hab.symm⟩, h⟩
      · exact ih h a.2

end

theorem sound_cands (hM : M.Regular) (deps : List Dep) (ev : EventTy) (l : Name × StTy) :
    Sound M (deps.flatMap fun d => (M.cands ev l.1 l.2).map fun cd => (d, cd)) := by
  intro x hx
  obtain ⟨d, _, hx⟩ := List.mem_flatMap.1 hx
  obtain ⟨cd, hc, rfl⟩ := List.mem_map.1 hx
  cases hr : cd.row? with
  | none => cases cd <;> first | exact Or.inl rfl | cases hr
  | some t =>
    obtain ⟨_, l', hl, hls⟩ := hM.cand_loc hc hr
    exact Or.inr ⟨t, l', rfl, hl, hls⟩

theorem Depicts.lookup (h : Depicts M c s) (hM : M.Regular) (ev : EventTy) {r : Nat} {α β : Type}
    {V : α → β → Prop} {f : List Entry → SM P W → Res (SM P W) α}
    {g : Name × StTy → Conf P W → Res (Conf P W) β}
    (hf : ∀ l : Name × StTy, l.1 ∈ M.composites → l.2 ∈ M.states →
      Agrees M V (f (M.entries c.deps ev l.1 l.2) s) (g l c)) :
    Agrees M V ((lookup M ev r s).bind f)
      ((Machine.seek r c).bind fun l c => if l.1 ∈ M.composites then g l c else .ub .bounds) := by
  unfold Hsm.lookup Machine.seek readCur
  rw [h.cur, List.getElem?_map]
  cases hc : c.slots[r]? with
  | none => rfl
  | some o =>
    cases o with
    | none => rfl
    | some l =>
      have hls := h.slots l (List.mem_of_getElem? hc)
      show Agrees M V (Res.bind (if M.comb l.1 l.2 < M.size then _ else _) f) (if _ then _ else _)
      by_cases hp : l.1 ∈ M.composites
      · rw [if_pos hp, if_pos (hM.comb_lt.2 ⟨hp, hls⟩), h.table ev l.1 l.2 hp hls]
        exact hf l hp hls
      · rw [if_neg hp, if_neg fun h' => hp (hM.comb_lt.1 h').1]
        rfl

theorem Depicts.visit (h : Depicts M c s) (hM : M.Regular) (r : Nat) (ev : EventTy) (p : P) :
    Agrees M Eq (regionStep M sem r ev p s) (M.visit sem false r ev p c) := by
  unfold regionStep Machine.visit
  refine h.lookup hM ev (g := fun l c => if M.cands ev l.1 l.2 = [] then .ok (.none, p) c
      else M.attempt sem false r ev
        (c.deps.flatMap fun d => (M.cands ev l.1 l.2).map fun cd => (d, cd)) p c) ?_
  intro l hp hls
  by_cases hn : M.cands ev l.1 l.2 = []
  · rw [if_pos hn, (Machine.entries_eq_nil hM h.bound).2 hn]
    exact ⟨rfl, h⟩
  · have hne : M.entries c.deps ev l.1 l.2 ≠ [] := fun h' =>
      hn ((Machine.entries_eq_nil hM h.bound).1 h')
    have := Portrait.attempt (sem := sem) hM.laid r ev _ (sound_cands hM c.deps ev l) h p
    rw [← Machine.entries_pairs] at this
    rw [if_neg hn]
    revert this hne
    cases M.entries c.deps ev l.1 l.2 with
    | nil => intro h' _; exact absurd rfl h'
    | cons e es => intro _ h; exact h

/-- What the flags of the region loop say about the regions. -/
def Flags (os : List RegionOut) (agf ati : Bool) : Prop :=
  agf = decide (RegionOut.fired ∉ os) ∧ ati = decide (∀ o ∈ os, o = RegionOut.none) ∧
    RegionOut.deferred ∉ os

theorem Flags.snoc {os : List RegionOut} {agf ati : Bool} (h : Flags os agf ati) {o : RegionOut}
    (ho : o ≠ .deferred) :
    Flags (os ++ [o]) (agf && decide (o ≠ .fired)) (ati && decide (o = .none)) := by
  obtain ⟨h1, h2, h3⟩ := h
  subst h1 h2
  refine ⟨?_, ?_, ?_⟩
  · cases o <;> simp
  · cases o <;> simp [or_imp, forall_and]
  · simp only [List.mem_append, List.mem_singleton, not_or]
    exact ⟨h3, fun h => ho h.symm⟩

theorem Depicts.sweep (hM : M.Regular) (ev : EventTy) : ∀ (rs : List Nat) (os : List RegionOut)
    (agf ati : Bool), Flags os agf ati → ∀ {c : Conf P W} {s : SM P W}, Depicts M c s → ∀ p : P,
    Agrees M (fun a b => b.2 = a.2 ∧
        ((a.1 = .deferred ∧ RegionOut.deferred ∈ b.1) ∨
          ∃ agf ati, a.1 = .done agf ati ∧ Flags b.1 agf ati))
      (regionLoop M sem ev rs agf ati p s) (M.sweep sem ev rs os p c) := by
  intro rs
  induction rs with
  | nil => intro os agf ati hF c s h p; exact ⟨⟨rfl, Or.inr ⟨_, _, rfl, hF⟩⟩, h⟩
  | cons r rs ih =>
    intro os agf ati hF c s h p
    unfold regionLoop Machine.sweep
    refine (h.visit hM r ev p).bind fun a b s c hab h => ?_
    subst hab
    obtain ⟨o, p⟩ := a
    have hF' := fun ho => hF.snoc (o := o) ho
    cases o with
    | none =>
      rw [if_neg (by simp)]
      have := hF' (by simp)
      simp only [ne_eq, reduceCtorEq, not_false_eq_true, decide_true, Bool.and_true] at this
      exact ih _ _ _ this h p
    | rejected =>
      rw [if_neg (by simp)]
      have := hF' (by simp)
      simp only [ne_eq, reduceCtorEq, not_false_eq_true, decide_true, Bool.and_true, decide_false,
        Bool.and_false] at this
      exact ih _ _ _ this h p
    | fired =>
      rw [if_neg (by simp)]
      have := hF' (by simp)
      simp only [ne_eq, reduceCtorEq, not_true_eq_false, decide_false, Bool.and_false] at this
      exact ih _ _ _ this h p
    | deferred =>
      rw [if_pos rfl]
      exact ⟨⟨rfl, Or.inl ⟨rfl, by simp⟩⟩, h⟩

theorem Depicts.round (hM : M.Regular) : ∀ (rs : List Nat) (os : List RegionOut) (agf : Bool),
    agf = decide (RegionOut.fired ∉ os) → ∀ {c : Conf P W} {s : SM P W}, Depicts M c s → ∀ p : P,
    Agrees M (fun a b => b.2 = a.2 ∧ (b.1 = true ↔ a.1 = some false))
      (anonRound M sem rs agf p s) (M.round sem rs os p c) := by
  intro rs
  induction rs with
  | nil =>
    intro os agf hF c s h p
    refine ⟨⟨rfl, ?_⟩, h⟩
    subst hF
    simp
  | cons r rs ih =>
    intro os agf hF c s h p
    unfold anonRound Machine.round Machine.visit
    rw [Res.bind_assoc]
    have := h.lookup hM .none (r := r)
      (f := fun es s => match es with
        | [] => .ok (none, p) s
        | es => (tryAnon M sem r es p s).bind fun fp s => anonRound M sem rs (agf && !fp.1) fp.2 s)
      (g := fun l c => (if M.cands .none l.1 l.2 = [] then .ok (.none, p) c
        else M.attempt sem true r .none
          (c.deps.flatMap fun d => (M.cands .none l.1 l.2).map fun cd => (d, cd)) p c).bind
            fun o c => if o.1 = .none then .ok (false, o.2) c else M.round sem rs (os ++ [o.1]) o.2 c)
      (V := fun a b => b.2 = a.2 ∧ (b.1 = true ↔ a.1 = some false)) ?_
    · revert this
      generalize (Hsm.lookup M .none r s).bind _ = x
      intro h
      have e : ∀ l : Name × StTy, ∀ c : Conf P W, ((if l.1 ∈ M.composites then
          if M.cands .none l.1 l.2 = [] then .ok (.none, p) c
          else M.attempt sem true r .none
            (c.deps.flatMap fun d => (M.cands .none l.1 l.2).map fun cd => (d, cd)) p c
          else .ub .bounds : Res (Conf P W) (RegionOut × P)).bind
            fun o c => if o.1 = .none then .ok (false, o.2) c
              else M.round sem rs (os ++ [o.1]) o.2 c) =
          if l.1 ∈ M.composites then (if M.cands .none l.1 l.2 = [] then .ok (.none, p) c
            else M.attempt sem true r .none
              (c.deps.flatMap fun d => (M.cands .none l.1 l.2).map fun cd => (d, cd)) p c).bind
              fun o c => if o.1 = .none then .ok (false, o.2) c
                else M.round sem rs (os ++ [o.1]) o.2 c
          else .ub .bounds := by
        intro l c
        split <;> rfl
      simp only [e]
      exact h
    · intro l hp hls
      by_cases hn : M.cands .none l.1 l.2 = []
      · rw [if_pos hn, (Machine.entries_eq_nil hM h.bound).2 hn]
        exact ⟨⟨rfl, by simp⟩, h⟩
      · have hne : M.entries c.deps .none l.1 l.2 ≠ [] := fun h' =>
          hn ((Machine.entries_eq_nil hM h.bound).1 h')
        have := Portrait.attemptAnon (sem := sem) hM.laid r _ (sound_cands hM c.deps .none l) h p
        rw [← Machine.entries_pairs] at this
        rw [if_neg hn]
        revert this hne
        cases M.entries c.deps .none l.1 l.2 with
        | nil => intro h' _; exact absurd rfl h'
        | cons e es =>
          intro _ h
          refine h.bind fun a b s c hab h => ?_
          obtain ⟨b1, b2⟩ := b
          obtain ⟨h1, h2⟩ := hab
          dsimp only at h1 h2
          subst h1 h2
          rw [if_neg (by dsimp only; split <;> simp)]
          refine ih _ _ ?_ h a.2
          subst hF
          cases a.1 <;> simp

theorem Depicts.settle (hM : M.Regular) (fuel : Nat) : ∀ {c : Conf P W} {s : SM P W}, Depicts M c s →
    ∀ p : P, Agrees M (fun _ _ => True) (anonLoop M sem fuel p s) (M.settle sem fuel p c) := by
  induction fuel with
  | zero => intro c s h p; trivial
  | succ n ih =>
    intro c s h p
    unfold anonLoop Machine.settle
    rw [h.taking]
    refine (Depicts.round hM _ [] true (by simp) h p).bind ?_
    rintro ⟨a1, a2⟩ ⟨b1, b2⟩ s c ⟨h1, h2⟩ h
    dsimp only at h1 h2 ⊢
    subst h1
    cases a1 with
    | none =>
      rw [if_neg (by simp [h2])]
      exact ⟨trivial, h⟩
    | some b =>
      cases b with
      | true => rw [if_neg (by simp [h2])]; exact ⟨trivial, h⟩
      | false => rw [if_pos (by simp [h2])]; exact ih h _

/-- What `process_event_internal` reports about the regions. -/
def Reports (pr : ProcRes) (os : List RegionOut) : Prop :=
  match pr with
  | .deferred => RegionOut.deferred ∈ os
  | .processed => RegionOut.deferred ∉ os ∧ RegionOut.fired ∈ os
  | .allGuardsFailed => RegionOut.deferred ∉ os ∧ RegionOut.fired ∉ os ∧ RegionOut.rejected ∈ os
  | .allTransitionsInvalid => ∀ o ∈ os, o = RegionOut.none

theorem Depicts.handle (h : Depicts M c s) (hM : M.Regular) (fuel : Nat) (ev : EventTy) (p : P) :
    Agrees M (fun a b => b.2 = a.2 ∧ Reports a.1 b.1) (processInternal M sem fuel ev p s)
      (M.handle sem fuel ev p c) := by
  unfold processInternal Machine.handle
  rw [h.taking]
  refine (Depicts.sweep hM ev _ [] true true ⟨by simp, by simp, by simp⟩ h p).bind ?_
  rintro ⟨a1, a2⟩ ⟨b1, b2⟩ s c ⟨h1, h2⟩ h
  dsimp only at h1 h2 ⊢
  subst h1
  rcases h2 with ⟨rfl, hd⟩ | ⟨agf, ati, rfl, hF⟩
  · rw [if_neg fun h' => h'.1 hd]
    exact ⟨⟨rfl, hd⟩, h⟩
  · obtain ⟨h1, h2, h3⟩ := hF
    dsimp only
    by_cases hall : ∀ o ∈ b1, o = RegionOut.none
    · have hnf : RegionOut.fired ∉ b1 := fun h' => by cases hall _ h'
      rw [h2, decide_eq_true hall, if_pos rfl, if_neg fun h' => hnf h'.2.1]
      exact ⟨⟨rfl, hall⟩, h⟩
    · rw [h2, decide_eq_false hall]
      simp only [Bool.false_eq_true, if_false]
      by_cases hf : RegionOut.fired ∈ b1
      · rw [h1, decide_eq_false (not_not.2 hf)]
        simp only [Bool.false_eq_true, if_false]
        unfold processAnon
        rw [Machine.hasAnon_eq]
        by_cases ha : M.anonymous = true
        · rw [if_pos ha, if_pos ⟨h3, hf, ha⟩]
          exact (Depicts.settle hM fuel h _).bind fun _ _ s c _ h => ⟨⟨rfl, h3, hf⟩, h⟩
        · rw [if_neg ha, if_neg fun h' => ha h'.2.2]
          exact ⟨⟨rfl, h3, hf⟩, h⟩
      · rw [h1, decide_eq_true hf, if_pos rfl, if_neg fun h' => hf h'.2.1]
        refine ⟨⟨rfl, h3, hf, ?_⟩, h⟩
        have ⟨o, ho, hne⟩ : ∃ o ∈ b1, o ≠ RegionOut.none := by
          by_contra hcon
          exact hall fun o ho => by
            by_contra hne
            exact hcon ⟨o, ho, hne⟩
        cases o with
        | none => exact absurd rfl hne
        | rejected => exact ho
        | fired => exact absurd ho hf
        | deferred => exact absurd ho h3

theorem Depicts.complain (h : Depicts M c s) (hM : M.Regular) {ev : EventTy} (hev : ev ∈ M.events)
    (p : P) : Agrees M (fun _ _ => True) (callHandler M sem ev p s) (M.complain sem ev p c) := by
  unfold callHandler Machine.complain
  cases hh : (M.decl M.root).handler with
  | none => exact ⟨trivial, h⟩
  | some hd =>
    dsimp only
    refine (h.seek 0).bind ?_
    rintro n l s c ⟨rfl, hls⟩ h
    by_cases hp : l.1 ∈ M.composites
    · rw [if_pos hp, if_pos (hM.comb_lt.2 ⟨hp, hls⟩),
        h.handlers (by rw [hh]; rfl) ev hev l.1 hp l.2 hls]
      dsimp only
      rw [h.present, h.world]
      split
      · cases sem.handler hd ev l.2 c.first p c.world with
        | ok u p' w => exact ⟨trivial, h.ran w rfl⟩
        | throw k p' w => exact ⟨rfl, h.ran w rfl⟩
        | ub => rfl
      · rfl
    · rw [if_neg hp, if_neg fun h' => hp (hM.comb_lt.1 h').1]
      exact ⟨rfl, h⟩

theorem Depicts.replay (h : Depicts M c s) (hM : M.Regular) (fuel : Nat) :
    Agrees M (fun _ _ => True) (processDeferred M sem fuel s) (M.replay sem fuel c) := by
  unfold processDeferred Machine.replay
  rw [Machine.hasDefer_eq, h.queue]
  cases hq : c.waiting with
  | nil => split <;> exact ⟨trivial, h⟩
  | cons x q =>
    obtain ⟨ev, p⟩ := x
    dsimp only
    split
    · have h' : Depicts M { c with waiting := q } { s with queue := q } := { h with queue := rfl }
      exact (h'.handle hM fuel ev p).bind fun _ _ s c _ h => ⟨trivial, h⟩
    · exact ⟨trivial, h⟩

/-- C77, events. -/
theorem C77_event (h : Depicts M c s) (hM : M.Regular) (fuel : Nat) {ev : EventTy}
    (hev : ev ∈ M.events) (p : P) :
    Agrees M Eq (processEvent M sem fuel ev p s) (M.receive sem fuel ev p c) := by
  unfold processEvent Machine.receive
  refine (h.handle hM fuel ev p).bind ?_
  rintro ⟨pr, a2⟩ ⟨os, b2⟩ s c ⟨h1, h2⟩ h
  dsimp only at h1 h2 ⊢
  subst h1
  cases pr with
  | deferred => rw [if_pos (show RegionOut.deferred ∈ os from h2)]; exact ⟨rfl, h⟩
  | processed =>
    rw [if_neg h2.1, if_pos h2.2]
    exact (Depicts.replay h hM fuel).bind fun _ _ s c _ h => ⟨rfl, h⟩
  | allGuardsFailed =>
    rw [if_neg h2.1, if_neg h2.2.1, if_pos h2.2.2]
    exact ⟨rfl, h⟩
  | allTransitionsInvalid =>
    have h2 : ∀ o ∈ os, o = RegionOut.none := h2
    have hno : ∀ o : RegionOut, o ≠ .none → o ∉ os := fun o ho h' => ho (h2 o h')
    rw [if_neg (hno _ (by simp)), if_neg (hno _ (by simp)), if_neg (hno _ (by simp))]
    exact (Depicts.complain h hM hev b2).bind fun _ _ s c _ h => ⟨rfl, h⟩

/-! ## Calls and histories -/

section
variable {W' : Type} {U : W → W' → Prop} {c : Conf P W'} {E : List Dep → EventTy → Name → StTy → List Entry}
  {evs : List EventTy}

theorem Portrait.jump (h : Portrait M E evs U c s) (r : Nat) (p : Name) {st : StTy} (hst : st ∈ M.states) :
    AgreesOn M E evs U Eq ((setOp M r p st s).bind fun _ s => .ok true s)
      (if r % 256 < c.slots.length then
        .ok true { c with slots := c.slots.set (r % 256) (some (p, st)) }
      else .throw .outOfRange c) := by
  unfold setOp
  rw [h.cur, List.length_map]
  split
  · refine ⟨rfl, { h with cur := ?_, slots := ?_ }⟩
    · show List.set _ _ _ = _
      rw [List.map_set]; rfl
    · intro l hl
      rcases List.mem_or_eq_of_mem_set hl with h' | h'
      · exact h.slots l h'
      · cases h'; exact hst
  · exact ⟨rfl, h⟩

theorem Portrait.extend (h : Portrait M M.entries M.events U c s) (hM : M.Regular) (hS : M.ScopesReal)
    (d : Dep) : AgreesOn M M.entries M.events U Eq
      ((Hsm.setDependency M d s).bind fun _ s => .ok true s) (.ok true { c with deps := d :: c.deps }) := by
  obtain ⟨T, hT⟩ := (Machine.C06_fill hM d s.table).1 hS
  unfold Hsm.setDependency
  rw [hT]
  refine ⟨rfl, { h with bound := ?_, table := ?_ }⟩
  · show d :: c.deps ≠ []
    simp
  · intro e p st hp hst
    show T e (M.comb p st) = _
    rw [Machine.fill_spec hM hT e hp hst, h.table e p st hp hst]
    simp [Machine.entries]

end

/-- C77, calls: one call on a machine object and on the configuration it depicts. -/
theorem C77_step (h : Depicts M c s) (hM : M.Regular) (hS : M.ScopesReal) (fuel : Nat) {op : Op P}
    (hop : OpOk M op) : Agrees M Eq (step M sem fuel op s) (M.exec sem fuel op c) := by
  cases op with
  | process ev p => exact C77_event h hM fuel (Machine.events_eq ▸ hop) p
  | set r p st => exact Portrait.jump h r p (Machine.states_eq ▸ hop.2)
  | setDependency d => exact Portrait.extend h hM hS d

/-- A machine object with new slots is a picture of the new configuration. -/
theorem Portrait.fresh {E : List Dep → EventTy → Name → StTy → List Entry} {evs : List EventTy}
    (hM : M.Laid) (hc : ∀ t ∈ M.flat, M.rowCompiles t = true) {d : Dep} {w : W} {H : HTable}
    {T : Table} (h : initState M w H T = .ok s)
    (hT : ∀ e p st, p ∈ M.composites → st ∈ M.states → T e (M.comb p st) = E [d] e p st)
    (hH : (M.decl M.root).handler.isSome = true → ∀ e ∈ evs, ∀ p ∈ M.composites, ∀ st ∈ M.states,
      H e (M.comb p st) = some (st, d)) :
    Portrait M E evs Eq (M.fresh d w) s := by
  obtain ⟨hHs, hTs, ⟨init, hi, hcur, hreg⟩, hini, hhist, hq, hw, htr, _⟩ := initState_ok h
  have hroot := hM.root_mem
  rw [hM.initialTable_get hroot] at hi
  cases hi
  have hmax : M.slotCount = M.maxInit := by
    unfold Machine.slotCount Machine.maxInit
    simp only [Machine.composites_eq, Machine.declaredInitials_eq]
  have hin : ∀ p ∈ M.composites, ∀ i ∈ M.declaredInitials p, StTy.st i ∈ M.states := fun p hp i hi =>
    hM.initial_mem hc hp (by rw [← Machine.declaredInitials_eq]; exact hi)
  refine
    { cur := ?_, slots := ?_, initial := hini, histLen := ?_, hist := ?_, memory := ?_, queue := hq,
      regions := ?_, bound := List.cons_ne_nil _ _, table := ?_, handlers := ?_, world := hw,
      trace := ?_ }
  · rw [hcur]
    unfold initCur Machine.fresh
    rw [hmax, Machine.declaredInitials_eq]
    simp
  · intro l hl
    rcases List.mem_append.1 hl with hl | hl
    · obtain ⟨i, hi, hl⟩ := List.mem_map.1 hl
      cases hl
      exact hin _ hroot i hi
    · cases (List.mem_replicate.1 hl).2
  · rw [hhist, length_initialTable]
  · intro p hp
    rw [hhist, hM.initialTable_get hp, ← Machine.declaredInitials_eq]
    unfold Machine.fresh
    simp
  · intro p hp l hl
    obtain ⟨i, hi, rfl⟩ := List.mem_map.1 hl
    exact hin _ hp i hi
  · intro ho
    obtain ⟨k, l, hk, hl, hr⟩ := hreg ho
    rw [hr]
    show l.length = (M.declaredInitials M.root).length
    rw [hcur, getElem?_initCur, List.getElem?_map] at hk
    obtain ⟨i, hi, rfl⟩ := Option.map_eq_some_iff.1 hk
    rw [hM.comb_div hroot (hin _ hroot i (by
      rw [Machine.declaredInitials_eq]; exact List.mem_of_getElem? hi)),
      hM.initialTable_get hroot] at hl
    cases hl
    rw [List.length_map, Machine.declaredInitials_eq]
  · intro e p st hp hst
    rw [hTs]; exact hT e p st hp hst
  · intro hs e he p hp st hst
    rw [hHs]; exact hH hs e he p hp st hst
  · rw [htr]; rfl

/-- C77, construction: a new machine object depicts the new configuration. -/
theorem C77_construct (hM : M.Regular) {d : Dep} {w : W} (h : construct M d w = .ok s) :
    Depicts M (M.fresh d w) s := by
  obtain ⟨_, ⟨H, hH, hHs⟩, hT, _⟩ := construct_ok h
  have hcons : ∃ H' T', initState M w H' T' = .ok s := by
    unfold construct at h
    rw [if_pos hM.accepts] at h
    cases h1 : initHandlers M d with
    | error e => rw [h1] at h; cases h
    | ok H' =>
      rw [h1] at h
      cases h2 : M.fill d (fun _ _ => []) with
      | error e => rw [h2] at h; cases h
      | ok T' => rw [h2] at h; exact ⟨H', T', h⟩
  obtain ⟨H', T', hI⟩ := hcons
  obtain ⟨e1, e2, _⟩ := initState_ok hI
  refine Portrait.fresh hM.laid (fun _ ht => Machine.accepts_flat hM.accepts ht) hI ?_ ?_
  · intro e p st hp hst
    rw [← e2, Machine.fill_spec hM hT e hp hst]
    simp [Machine.entries]
  · intro hs e he p hp st hst
    rw [← e1, hHs]
    rcases hH with ⟨_, hH⟩ | ⟨hn, _⟩
    · exact fillHandlers_spec hM hH he hp hst
    · rw [hn] at hs; cases hs

/-- C77: whatever is called on a newly constructed machine, one call after the other, also after
exceptions, the interpreter tells what it looks like, and if undefined behaviour was met or a loop
did not end on the way. -/
theorem C77_history (hM : M.Regular) {d : Dep} {w : W} (h : construct M d w = .ok s) (fuel : Nat)
    (ops : List (Op P)) (hops : ∀ op ∈ ops, OpOk M op) :
    match runAll (step M sem fuel) ops s, M.execAll sem fuel ops (M.fresh d w) with
    | some s', some c => Depicts M c s'
    | none, none => True
    | _, _ => False := by
  have hS : M.ScopesReal := ((C06_construct hM d w).1.1 ⟨s, h⟩).1
  have h0 := C77_construct hM h
  revert h0
  generalize M.fresh d w = c
  clear h
  induction ops generalizing s c with
  | nil => intro h0; exact h0
  | cons op ops ih =>
    intro h0
    have hc := C77_step (sem := sem) h0 hM hS fuel (hops op (by simp))
    rw [runAll, Machine.execAll]
    have ih := fun {s} => @ih s fun op h => hops op (by simp [h])
    revert hc
    cases step M sem fuel op s <;> cases M.exec sem fuel op c <;> intro hc <;>
      first | exact hc.elim | exact ih _ hc.2 | trivial

/-- Nothing but `set_dependency` changes the dependencies. -/
def SameDeps {α : Type} (c : Conf P W) : Res (Conf P W) α → Prop
  | .ok _ c' => c'.deps = c.deps ∧ c'.first = c.first
  | .throw _ c' => c'.deps = c.deps ∧ c'.first = c.first
  | _ => True

theorem SameDeps.bind {α β : Type} {r : Res (Conf P W) α} {f : α → Conf P W → Res (Conf P W) β}
    (h : SameDeps c r) (hf : ∀ a c', SameDeps c' (f a c')) : SameDeps c (r.bind f) := by
  cases r with
  | ok a c' =>
    have := hf a c'
    show SameDeps c (f a c')
    revert this
    cases f a c' with
    | ok b c2 => intro h'; exact ⟨h'.1.trans h.1, h'.2.trans h.2⟩
    | throw b c2 => intro h'; exact ⟨h'.1.trans h.1, h'.2.trans h.2⟩
    | ub u => intro; trivial
    | timeout => intro; trivial
  | throw x c' => exact h
  | ub u => trivial
  | timeout => trivial

namespace Machine

theorem seek_deps (r : Nat) (c : Conf P W) : SameDeps c (seek r c) := by
  unfold seek
  split <;> first | trivial | exact ⟨rfl, rfl⟩

theorem put_deps (r : Nat) (l : Name × StTy) (c : Conf P W) : SameDeps c (put r l c) := by
  unfold put
  split <;> first | trivial | exact ⟨rfl, rfl⟩

theorem recount_deps (c : Conf P W) : SameDeps c (M.recount c) := by
  unfold recount
  split
  · refine (seek_deps 0 c).bind fun l c => ?_
    split <;> first | trivial | exact ⟨rfl, rfl⟩
  · exact ⟨rfl, rfl⟩

theorem travel_deps (r : Nat) (t : XRow) (l : Name × StTy) (c : Conf P W) :
    SameDeps c (M.travel r t l c) := by
  unfold travel
  split
  · exact ⟨rfl, rfl⟩
  · split
    · refine SameDeps.bind ?_ fun _ c => SameDeps.bind ?_ fun _ c => recount_deps c
      · unfold remember
        refine (seek_deps 0 c).bind fun l0 c => (seek_deps r c).bind fun l c => ?_
        split <;> first | trivial | exact ⟨rfl, rfl⟩
      · split
        · refine SameDeps.bind ?_ fun l c => put_deps r l c
          unfold recall
          split
          · split <;> first | trivial | exact ⟨rfl, rfl⟩
          · trivial
        · exact put_deps r l c
    · exact (put_deps r l c).bind fun _ c => recount_deps c

theorem perform_deps (args : Args) : ∀ (cs : List (Phase × Cb)) (p : P) (c : Conf P W),
    SameDeps c (perform sem args cs p c) := by
  intro cs
  induction cs with
  | nil => intro p c; exact ⟨rfl, rfl⟩
  | cons x cs ih =>
    intro p c
    obtain ⟨ph, a⟩ := x
    unfold perform
    cases sem.action a args p c.world with
    | ok u p' w =>
      exact ih p' { c with world := w, calls := c.calls ++ [.action ph a args p false []] }
    | throw k p' w => exact ⟨rfl, rfl⟩
    | ub => trivial

theorem attempt_deps (anon : Bool) (r : Nat) (ev : EventTy) : ∀ (cs : List (Dep × Cand)) (p : P)
    (c : Conf P W), SameDeps c (M.attempt sem anon r ev cs p c) := by
  intro cs
  induction cs with
  | nil => intro p c; exact ⟨rfl, rfl⟩
  | cons x cs ih =>
    intro p c
    obtain ⟨d, cd⟩ := x
    unfold attempt
    split
    · split <;> first | trivial | exact ⟨rfl, rfl⟩
    · split
      · trivial
      · refine SameDeps.bind ?_ fun a c => ?_
        · unfold ask
          split
          · exact ⟨rfl, rfl⟩
          · dsimp only
            split_ifs <;> first
              | trivial
              | (split <;> first | trivial | exact ⟨rfl, rfl⟩)
        · split
          · refine SameDeps.bind ?_ fun p c => ⟨rfl, rfl⟩
            unfold take
            refine (travel_deps _ _ _ c).bind fun _ c => ?_
            split
            · exact ⟨rfl, rfl⟩
            · split
              · exact perform_deps _ _ _ c
              · trivial
          · exact ih a.2 c

theorem visit_deps (anon : Bool) (r : Nat) (ev : EventTy) (p : P) (c : Conf P W) :
    SameDeps c (M.visit sem anon r ev p c) := by
  unfold visit
  refine (seek_deps r c).bind fun l c => ?_
  split
  · split
    · exact ⟨rfl, rfl⟩
    · exact attempt_deps _ _ _ _ p c
  · trivial

theorem handle_deps (fuel : Nat) (ev : EventTy) (p : P) (c : Conf P W) :
    SameDeps c (M.handle sem fuel ev p c) := by
  have hsweep : ∀ (rs : List Nat) (os : List RegionOut) (p : P) (c : Conf P W),
      SameDeps c (M.sweep sem ev rs os p c) := by
    intro rs
    induction rs with
    | nil => intro os p c; exact ⟨rfl, rfl⟩
    | cons r rs ih =>
      intro os p c
      unfold sweep
      refine (visit_deps _ _ _ _ c).bind fun o c => ?_
      split
      · exact ⟨rfl, rfl⟩
      · exact ih _ _ c
  have hround : ∀ (rs : List Nat) (os : List RegionOut) (p : P) (c : Conf P W),
      SameDeps c (M.round sem rs os p c) := by
    intro rs
    induction rs with
    | nil => intro os p c; exact ⟨rfl, rfl⟩
    | cons r rs ih =>
      intro os p c
      unfold round
      refine (visit_deps _ _ _ _ c).bind fun o c => ?_
      split
      · exact ⟨rfl, rfl⟩
      · exact ih _ _ c
  have hsettle : ∀ (fuel : Nat) (p : P) (c : Conf P W), SameDeps c (M.settle sem fuel p c) := by
    intro fuel
    induction fuel with
    | zero => intro p c; trivial
    | succ n ih =>
      intro p c
      unfold settle
      refine (hround _ _ _ c).bind fun a c => ?_
      split
      · exact ih _ c
      · exact ⟨rfl, rfl⟩
  unfold handle
  refine (hsweep _ _ _ c).bind fun a c => ?_
  split
  · exact (hsettle _ _ c).bind fun _ c => ⟨rfl, rfl⟩
  · exact ⟨rfl, rfl⟩

theorem receive_deps (fuel : Nat) (ev : EventTy) (p : P) (c : Conf P W) :
    SameDeps c (M.receive sem fuel ev p c) := by
  unfold receive
  refine (handle_deps _ _ _ c).bind fun a c => ?_
  split
  · exact ⟨rfl, rfl⟩
  · split
    · refine SameDeps.bind ?_ fun _ c => ⟨rfl, rfl⟩
      unfold replay
      split
      · exact ⟨rfl, rfl⟩
      · split
        · rename_i q _ _
          exact SameDeps.bind (c := c) (show SameDeps c (M.handle sem fuel _ _ { c with waiting := q })
            from handle_deps fuel _ _ { c with waiting := q }) fun _ c => ⟨rfl, rfl⟩
        · exact ⟨rfl, rfl⟩
    · split
      · exact ⟨rfl, rfl⟩
      · refine SameDeps.bind ?_ fun _ c => ⟨rfl, rfl⟩
        unfold complain
        split
        · exact ⟨rfl, rfl⟩
        · refine (seek_deps 0 c).bind fun l c => ?_
          split
          · split
            · split <;> first | trivial | exact ⟨rfl, rfl⟩
            · trivial
          · exact ⟨rfl, rfl⟩

theorem exec_deps {d : Dep} {ops : List (Op P)} {fuel : Nat} {op : Op P} {c c' : Conf P W}
    (hd : c.deps = depsOf d ops)
    (h : (∃ b, M.exec sem fuel op c = .ok b c') ∨ ∃ x, M.exec sem fuel op c = .throw x c') :
    c'.deps = depsOf d (ops ++ [op]) ∧ c'.first = c.first := by
  cases op with
  | process ev p =>
    rw [depsOf_process, ← hd]
    have := receive_deps (M := M) (sem := sem) fuel ev p c
    rcases h with ⟨b, h⟩ | ⟨x, h⟩
    · rw [show M.receive sem fuel ev p c = _ from h] at this; exact this
    · rw [show M.receive sem fuel ev p c = _ from h] at this; exact this
  | set r p st =>
    rw [depsOf_set, ← hd]
    simp only [exec] at h
    split at h
    · rcases h with ⟨b, h⟩ | ⟨x, h⟩ <;> cases h <;> exact ⟨rfl, rfl⟩
    · rcases h with ⟨b, h⟩ | ⟨x, h⟩ <;> cases h <;> exact ⟨rfl, rfl⟩
  | setDependency d' =>
    rw [depsOf_dep, ← hd]
    simp only [exec] at h
    rcases h with ⟨b, h⟩ | ⟨x, h⟩ <;> cases h <;> exact ⟨rfl, rfl⟩

end Machine

/-- A machine that exists was constructed. -/
theorem RunTo.scopes (hM : M.Regular) {d : Dep} {ops : List (Op P)} (h : RunTo M sem d ops s) :
    M.ScopesReal := by
  induction h with
  | @init w s h => exact ((C06_construct hM d w).1.1 ⟨s, h⟩).1
  | ok _ _ _ ih => exact ih
  | throw _ _ _ ih => exact ih
  | world _ _ ih => exact ih

/-- C77: every machine object a client can hold depicts a configuration, with the dependencies it was
given. -/
theorem C77_reach (hM : M.Regular) {d : Dep} {ops : List (Op P)} (h : RunTo M sem d ops s) :
    ∃ c, Depicts M c s ∧ c.deps = depsOf d ops ∧ c.first = d := by
  induction h with
  | @init w s h => exact ⟨_, C77_construct hM h, rfl, rfl⟩
  | @ok s t ops op fuel b hr hop h ih =>
    obtain ⟨c, hc, hd, hf⟩ := ih
    have hs := C77_step (sem := sem) hc hM (hr.scopes hM) fuel hop
    rw [h] at hs
    cases he : M.exec sem fuel op c with
    | ok b' c' =>
      rw [he] at hs
      obtain ⟨h1, h2⟩ := Machine.exec_deps (d := d) (ops := ops) hd (Or.inl ⟨_, he⟩)
      exact ⟨c', hs.2, h1, h2.trans hf⟩
    | throw x c' => rw [he] at hs; exact hs.elim
    | ub u => rw [he] at hs; exact hs.elim
    | timeout => rw [he] at hs; exact hs.elim
  | @throw s t ops op fuel b hr hop h ih =>
    obtain ⟨c, hc, hd, hf⟩ := ih
    have hs := C77_step (sem := sem) hc hM (hr.scopes hM) fuel hop
    rw [h] at hs
    cases he : M.exec sem fuel op c with
    | throw b' c' =>
      rw [he] at hs
      obtain ⟨h1, h2⟩ := Machine.exec_deps (d := d) (ops := ops) hd (Or.inr ⟨_, he⟩)
      exact ⟨c', hs.2, h1, h2.trans hf⟩
    | ok x c' => rw [he] at hs; exact hs.elim
    | ub u => rw [he] at hs; exact hs.elim
    | timeout => rw [he] at hs; exact hs.elim
  | @world s ops _ w ih =>
    obtain ⟨c, hc, hd, hf⟩ := ih
    exact ⟨{ c with world := w }, { hc with world := rfl }, hd, hf⟩

/-- C77, undefined behaviour: a call is undefined exactly if the interpreter says so, and of the same
kind; it does not return exactly if the interpreter's does not. -/
theorem C77_undefined (h : Depicts M c s) (hM : M.Regular) (hS : M.ScopesReal) (fuel : Nat) {op : Op P}
    (hop : OpOk M op) :
    (∀ u, step M sem fuel op s = .ub u ↔ M.exec sem fuel op c = .ub u) ∧
      (step M sem fuel op s = .timeout ↔ M.exec sem fuel op c = .timeout) := by
  have hc := C77_step (sem := sem) h hM hS fuel hop
  revert hc
  cases step M sem fuel op s <;> cases M.exec sem fuel op c <;> intro hc <;>
    first | exact hc.elim | simp
  exact hc

/-! ## Fuel -/

/-- `r'` is `r`, unless `r` ran out of fuel. -/
def Extends {S α : Type} (r r' : Res S α) : Prop := r = .timeout ∨ r' = r

theorem Extends.refl {S α : Type} (r : Res S α) : Extends r r := Or.inr rfl

theorem Extends.bind {S α β : Type} {r r' : Res S α} {f f' : α → S → Res S β} (h : Extends r r')
    (hf : ∀ a s, Extends (f a s) (f' a s)) : Extends (r.bind f) (r'.bind f') := by
  rcases h with rfl | rfl
  · exact Or.inl rfl
  · cases r' with
    | ok a s => exact hf a s
    | throw x s => exact Or.inr rfl
    | ub u => exact Or.inr rfl
    | timeout => exact Or.inl rfl

theorem anonLoop_extends : ∀ {f f' : Nat}, f ≤ f' → ∀ (p : P) (s : SM P W),
    Extends (anonLoop M sem f p s) (anonLoop M sem f' p s) := by
  intro f
  induction f with
  | zero => intro f' _ p s; exact Or.inl rfl
  | succ f ih =>
    intro f' hf p s
    obtain ⟨f', rfl⟩ : ∃ g, f' = g + 1 := ⟨f' - 1, by omega⟩
    unfold anonLoop
    refine (Extends.refl _).bind fun a s => ?_
    split
    · exact .refl _
    · exact .refl _
    · exact ih (by omega) _ _

theorem processInternal_extends {f f' : Nat} (hf : f ≤ f') (ev : EventTy) (p : P) (s : SM P W) :
    Extends (processInternal M sem f ev p s) (processInternal M sem f' ev p s) := by
  unfold processInternal
  refine (Extends.refl _).bind fun a s => ?_
  split
  · exact .refl _
  · split
    · exact .refl _
    · split
      · exact .refl _
      · refine Extends.bind ?_ fun _ _ => .refl _
        unfold processAnon
        split
        · exact anonLoop_extends hf _ _
        · exact .refl _

/-- The fuel of the model only bounds how long a run may be: a call that ends with some fuel, in
whatever way, ends the same with more. -/
theorem C77_fuel {f f' : Nat} (hf : f ≤ f') (op : Op P) (s : SM P W)
    (h : step M sem f op s ≠ .timeout) : step M sem f' op s = step M sem f op s := by
  refine Or.resolve_left ?_ h
  cases op with
  | process ev p =>
    show Extends (processEvent M sem f ev p s) (processEvent M sem f' ev p s)
    unfold processEvent
    refine (processInternal_extends hf ev p s).bind fun a s => ?_
    split
    · exact .refl _
    · exact .refl _
    · exact .refl _
    · refine Extends.bind ?_ fun _ _ => .refl _
      unfold processDeferred
      split
      · split
        · exact .refl _
        · exact (processInternal_extends hf _ _ _).bind fun _ _ => .refl _
      · exact .refl _
  | set r p st => exact Or.inr rfl
  | setDependency d => exact Or.inr rfl

end

/-! ## Examples -/

namespace Ex

/-- Where the regions are, in the end. -/
def ends {P W : Type} (o : Option (Conf P W)) : Option (List (Option (Name × StTy))) :=
  o.map (·.slots)

/-- The interpreter at work on the demo machine: into the composite, inside, out by the exit point, and
back by history. -/
example : ends (demo.execAll (sem fun _ => true) 5
      [.process (ev 0) 1, .process (ev 1) 2, .process (ev 5) 3] (demo.fresh 7 [])) =
    some [some (Comp, .st CA)] := by
  decide +kernel

example : ends (demo.execAll (sem fun g => g != 100 && g != 102) 5
      [.process (ev 0) 1, .process (ev 2) 2, .process (ev 3) 3, .process (ev 4) 3] (demo.fresh 7 [])) =
    some [some (Comp, .st CB)] := by
  decide +kernel

/-- Two regions. -/
example : ends (orth.execAll (sem fun g => g == 100) 5 [.process (ev 0) 1] (orth.fresh 7 [])) =
    some [some (0, .st 2), some (0, .st 4)] := by
  decide +kernel

/-- The same by the model of the library. -/
example : ∃ s0, construct orth 7 [] = .ok s0 ∧ ∃ s, runAll (step orth (sem fun g => g == 100) 5)
    [.process (ev 0) 1] s0 = some s ∧ s.cur = [some (orth.comb 0 (.st 2)), some (orth.comb 0 (.st 4))] := by
  have hS : orth.ScopesReal ∧ (orth.orthogonal = true → orth.declaredInitials orth.root ≠ []) := by
    exact ⟨(Machine.scopesReal_iff orth_regular).2 ⟨orth_scoped.src, orth_scoped.comp⟩,
      fun _ => by decide⟩
  obtain ⟨s0, h0⟩ := (C06_construct orth_regular (P := Nat) (W := List Nat) 7 []).1.2 hS
  have hops : ∀ op ∈ ([.process (ev 0) 1] : List (Op Nat)), OpOk orth op := by
    intro op hop
    cases List.mem_singleton.1 hop
    exact opOkB_iff orth (by decide +kernel)
  have h := C77_history (sem := sem fun g => g == 100) orth_regular h0 5 _ hops
  refine ⟨s0, h0, ?_⟩
  revert h
  have hi : ends (orth.execAll (sem fun g => g == 100) 5 [.process (ev 0) 1] (orth.fresh 7 [])) =
    some [some (0, .st 2), some (0, .st 4)] := by decide +kernel
  revert hi
  cases orth.execAll (sem fun g => g == 100) 5 [.process (ev 0) 1] (orth.fresh 7 []) with
  | none => intro hi; cases hi
  | some c =>
    cases runAll (step orth (sem fun g => g == 100) 5) [.process (ev 0) 1] s0 with
    | none => intro _ h; exact h.elim
    | some s =>
      intro hi h
      refine ⟨s, rfl, ?_⟩
      rw [h.cur, show c.slots = _ from Option.some.inj hi]
      rfl

end Ex
end Hsm
