import Verif.SystemsGen
import Verif.PropsSystems
import Verif.PropsConsentGen
import Verif.PropsSafeGenR

/-!
# C118: several machines of the amalgamated header

As C117, for machines built with `gen/hsm.h`.
-/

namespace Hsm

/-! ## The same in related worlds -/

section
variable {P W W' : Type} {ρ : W → W' → Prop} {θ : Op P → W → Op P → W' → Prop} {M : Machine}
  {sem : SemR P W} {sem' : SemR P W'} {call : Op P → SM P W → Res (SM P W) Bool}
  {call' : Op P → SM P W' → Res (SM P W') Bool}

theorem setDependencyG_sim {s : SM P W} {w' : W'} (h : ρ s.world w') (d : Dep) :
    (setDependencyG M d s).Sim ρ (setDependencyG M d (s.rebase w')) := by
  unfold setDependencyG
  show Res.Sim ρ _ (match M.fillG d s.table with | .ok t => _ | .error _ => _)
  generalize M.fillG d s.table = o
  cases o
  · rfl
  · exact ⟨rfl, w', rfl, h⟩

variable (hs : SemR.Sim ρ θ sem sem') (hc : CallSim ρ θ call call')
include hs hc

theorem anonRoundGR_sim : ∀ (rs : List Nat) (agf : Bool) (s : SM P W) (w' : W'), ρ s.world w' →
    (anonRoundGR M sem call rs agf s).Sim ρ (anonRoundGR M sem' call' rs agf (s.rebase w')) := by
  intro rs
  induction rs with
  | nil => intro agf s w' h; exact ⟨rfl, w', rfl, h⟩
  | cons r rs ih =>
    intro agf s w' h
    refine (readCur_sim h r).bind fun c s w' h => ?_
    split
    · show Res.Sim ρ _ (match s.table .none c with | [] => _ | es => _)
      generalize s.table .none c = o
      cases o
      · exact ⟨rfl, w', rfl, h⟩
      · rw [hs.nonePayload]
        exact (tryAnonR_sim hs hc _ _ _ _ _ _ _ h).bind fun fp s w' h => ih _ _ _ h
    · rfl

theorem anonLoopGR_sim : ∀ (fuel : Nat) (s : SM P W) (w' : W'), ρ s.world w' →
    (anonLoopGR M sem call fuel s).Sim ρ (anonLoopGR M sem' call' fuel (s.rebase w')) := by
  intro fuel
  induction fuel with
  | zero => intro s w' h; trivial
  | succ fuel ih =>
    intro s w' h
    refine (anonRoundGR_sim hs hc _ _ _ _ h).bind fun op s w' h => ?_
    split
    · exact ⟨rfl, w', rfl, h⟩
    · exact ⟨rfl, w', rfl, h⟩
    · exact ih _ _ h

theorem processInternalGR_sim (fuel : Nat) (ev : EventTy) (p : P) {s : SM P W} {w' : W'} (h : ρ s.world w') :
    (processInternalGR M sem call fuel ev p s).Sim ρ (processInternalGR M sem' call' fuel ev p (s.rebase w')) := by
  refine (regionLoopR_sim hs hc ev _ _ _ _ _ _ h).bind fun op s w' h => ?_
  split
  · exact ⟨rfl, w', rfl, h⟩
  · split
    · exact ⟨rfl, w', rfl, h⟩
    · split
      · exact ⟨rfl, w', rfl, h⟩
      · refine Res.Sim.bind ?_ fun _ s w' h => ⟨rfl, w', rfl, h⟩
        unfold processAnonGR
        split
        · exact anonLoopGR_sim hs hc _ _ _ h
        · exact ⟨rfl, w', rfl, h⟩

/-- `process_event` does the same in related worlds. -/
theorem processEventGR_sim (fuel : Nat) (ev : EventTy) (p : P) {s : SM P W} {w' : W'} (h : ρ s.world w') :
    (processEventGR M sem call fuel ev p s).Sim ρ (processEventGR M sem' call' fuel ev p (s.rebase w')) := by
  refine (processInternalGR_sim hs hc fuel ev p h).bind fun bp s w' h => ?_
  split
  · unfold processDeferredGR
    split
    · show Res.Sim ρ _ (match s.queue with | [] => _ | (e, p) :: q => _)
      rcases hq : s.queue with _ | ⟨⟨e, p⟩, q⟩
      · exact ⟨rfl, w', rfl, h⟩
      · exact (processInternalGR_sim hs hc fuel e p (s := { s with queue := q }) h).bind
          fun _ s w' h => ⟨rfl, w', rfl, h⟩
    · exact ⟨rfl, w', rfl, h⟩
  · exact (callHandlerR_sim hs hc ev _ h).bind fun _ s w' h => ⟨rfl, w', rfl, h⟩

end

/-! ## Invariants of all machines -/

section
variable {ι P W : Type} [DecidableEq ι] {Ms : ι → Machine} {sem : SemS ι P W}
  {U : UB → Prop} {Q : ι → Op P → Prop} {I : ι → SM P (Hub ι P W) → Prop}
  {R : ι → Nat → Prop} {E : ι → EventTy → Nat → Entry → SM P (Hub ι P W) → Prop}
  {V : ι → EventTy → Prop}

/-- Invariants of calls on any of the machines, whatever calls callbacks make. -/
theorem stepGS_keeps
    (K : ∀ i o, Q i o → KeepsG (Ms i) (sem.at i o) U (Q i) (R i) (I i) (E i) (V i))
    (hw : ∀ i s w, I i s → I i { s with world := w }) (hg : sem.Good (U .callback) Q) (fuel : Nat) :
    ∀ n i op h, Q i op → AllKeep I h →
      (stepGS Ms sem fuel n i op h).SatU U (fun _ => Upkeep I h) (fun _ => Upkeep I h) := by
  intro n
  induction n with
  | zero => intro i op h _ _; trivial
  | succ n ih =>
    intro i op h hq hh
    have hk := K i op hq
    have hamongst : Amongst Q I i h (h.fetch i).world :=
      ⟨fun j _ => ⟨hh j, .refl _⟩, fun _ _ hr => by cases hr⟩
    cases op with
    | process ev p =>
      exact Amongst.home (hw i) (Res.Lasts.bind ((KeepsLoop.among (hw i) hk.toKeepsLoop hq hg h).processEventG
        (held_nested hw ih) fuel (hk.known _ _ hq) hq (h.fetch i) ⟨hh i _, hamongst⟩) fun _ _ hs _ => .ok hs)
    | set r p st =>
      exact Amongst.home (Q := Q) (r := .ok true (h.fetch i)) (hw i) ⟨⟨hh i _, hamongst⟩, .refl _⟩
    | setDependency d =>
      refine Amongst.home (Q := Q) (hw i) ?_
      show (Res.bind (setDependencyG (Ms i) d (h.fetch i)) _).Lasts _ _ _
      have := hk.dep (h.fetch i) d hq (hh i _)
      unfold setDependencyG at this ⊢
      split at this
      · exact ⟨⟨this, hamongst⟩, .of_eq rfl rfl⟩
      · exact this

theorem constructG_rebase {M : Machine} {d : Dep} {W' : Type} {s : SM P W} {w : W} {w' : W'}
    (h : constructG M d w = .ok s) : constructG M d w' = .ok (s.rebase w') := by
  unfold constructG at h ⊢
  split at h
  · rename_i ha
    rw [if_pos ha]
    revert h
    generalize (if (M.decl M.root).handler.isSome = true then
      M.fillHandlersFor M.eventIdsG d (fun _ _ => none) else .ok (fun _ _ => none)) = H
    cases H with
    | error e => intro h; cases h
    | ok H =>
      cases hT : M.fillG d (fun _ _ => []) with
      | error e => intro h; cases h
      | ok T => intro h; exact initState_rebase h
  · cases h

/-- Invariants of histories. -/
theorem RunToGS.inv {d : ι → Dep}
    (K : ∀ i o, Q i o → KeepsG (Ms i) (sem.at i o) (fun _ => True) (Q i) (R i) (I i) (E i) (V i))
    (hw : ∀ i s w, I i s → I i { s with world := w }) (hg : sem.Good True Q)
    (base : ∀ i w s, constructG (Ms i) (d i) w = .ok s → I i s)
    {ops : List (ι × Op P)} {h : Hub ι P W} (hr : RunToGS Ms sem d ops h) (hops : ∀ x ∈ ops, Q x.1 x.2) :
    AllKeep I h := by
  induction hr with
  | init hi => exact fun j w => base j w _ (constructG_rebase (hi j))
  | @ok h h' ops i op fuel n b hr hop hs ih =>
    have := stepGS_keeps K hw hg fuel n i op h (hops (i, op) (by simp)) (ih fun x hx => hops x (by simp [hx]))
    rw [hs] at this
    exact this.whole
  | @throw h h' ops i op fuel n x hr hop hs ih =>
    have := stepGS_keeps K hw hg fuel n i op h (hops (i, op) (by simp)) (ih fun x hx => hops x (by simp [hx]))
    rw [hs] at this
    exact this.whole
  | world hr w ih => exact ih hops

end

/-! ## Specification -/

section
variable {ι P W : Type}

/-- Machine `i` is safe, as `SafeGR`. -/
structure SafeGS (Ms : ι → Machine) (sem : SemS ι P W) (i : ι) : Prop where
  scopes : (Ms i).ScopesRealG
  targets : ∀ t ∈ (Ms i).extRows ++ (Ms i).intRowsG, ∀ l, (Ms i).targetLoc t = some l → l.1 ∈ (Ms i).composites
  rootInit : (Ms i).declaredInitials (Ms i).root ≠ []
  regions : ∀ p ∈ (Ms i).composites,
    ((Ms i).declaredInitials p).length ≤ ((Ms i).declaredInitials (Ms i).root).length
  history : (Ms i).historic = true → ∀ p ∈ (Ms i).composites,
    ((Ms i).declaredInitials p).length = ((Ms i).declaredInitials (Ms i).root).length
  noneNotDeferred : (Ms i).anonymous = true → ∀ p st, Cand.defer ∉ (Ms i).candsG .none p st
  objects : ∀ st, (Ms i).selfMade st = true ∨ ∀ w, sem.alive i st w = true

end

/-! ## Machines in good order -/

section
variable {P W : Type} {M : Machine} {sem : SemR P W} {U : UB → Prop} {s : SM P W}

/-- The machine is in good order. -/
def Hale (M : Machine) (s : SM P W) : Prop := ∃ c, DepictsG M c s ∧ Firm M c

/-- An entry of a candidate that leads somewhere. -/
def Stems (M : Machine) (ev : EventTy) (e : Entry) : Prop :=
  ∃ d cd p st, cd ∈ M.candsG ev p st ∧ M.entryOfCand d cd = some e

theorem Hale.change (h : Hale M s) (w : W) (q : List (EventTy × P)) (tr : List (Call P)) :
    Hale M { s with world := w, queue := q, trace := tr } := by
  obtain ⟨c, h1, h2⟩ := h
  exact ⟨{ c with world := w, waiting := q, calls := tr.map Call.bare },
    { h1 with queue := rfl, world := rfl, trace := rfl }, h2.other rfl rfl rfl⟩

theorem Hale.cur (h : Hale M s) (hM : M.RegularG) {r : Nat}
    (hr : r < (M.declaredInitials M.root).length) : ∃ c, s.cur[r]? = some (some c) ∧ c < M.size := by
  obtain ⟨c, h1, h2⟩ := h
  have hr' : r < c.slots.length := by rw [h2.length]; exact hr
  obtain ⟨l, h3, h4⟩ := h2.slots _ (List.getElem_mem hr')
  refine ⟨M.comb l.1 l.2, by rw [h1.cur, List.getElem?_map, List.getElem?_eq_getElem hr', h3]; rfl, ?_⟩
  exact hM.laid.comb_lt.2 ⟨h4, h1.slots l (h3 ▸ List.getElem_mem hr')⟩

theorem Hale.stems (h : Hale M s) (hM : M.RegularG) {ev : EventTy} {k : Nat} (hk : k < M.size) {e : Entry}
    (he : e ∈ s.table ev k) : Stems M ev e := by
  obtain ⟨c, h1, _⟩ := h
  obtain ⟨p, st, hp, hst, rfl⟩ := hM.laid.comb_surj hk
  rw [h1.table ev p st hp hst] at he
  obtain ⟨d, _, he⟩ := List.mem_flatMap.1 he
  obtain ⟨cd, hcd, he⟩ := List.mem_filterMap.1 he
  exact ⟨d, cd, p, st, hcd, he⟩

theorem Stems.tr (hM : M.RegularG) {ev : EventTy} {e : Entry} (h : Stems M ev e) (hn : e.tr = none) :
    e.defer = true ∧ ∃ p st, Cand.defer ∈ M.candsG ev p st := by
  obtain ⟨d, cd, p, st, hcd, he⟩ := h
  rcases hM.cand_loc hcd with rfl | ⟨t, ht, _, l, hl, _⟩
  · cases he
    exact ⟨rfl, p, st, hcd⟩
  · obtain ⟨e', x, h1, h2, _⟩ := entryOfCand_full (M := M) (d := d) ht hl
    rw [he] at h1
    cases h1
    rw [hn] at h2
    cases h2

theorem Hale.move (h : Hale M s) (hM : M.RegularG) (hS : SafeGR M sem) {ev : EventTy} {e : Entry}
    (he : Stems M ev e) (hn : e.tr ≠ none) {r : Nat} (hr : r < (M.declaredInitials M.root).length) :
    (updateState M r e s).Sat False (fun _ => Hale M) (fun _ => Hale M) := by
  obtain ⟨c, h1, h2⟩ := h
  obtain ⟨d, cd, p, st, hcd, he⟩ := he
  rcases hM.cand_loc hcd with rfl | ⟨t, ht, hmem, l, hl, hls⟩
  · cases he; exact absurd rfl hn
  · obtain ⟨e', x, h3, h4, _, h5, h6, h7, _⟩ := entryOfCand_full (M := M) (d := d) ht hl
    rw [he] at h3
    cases h3
    have k1 := Portrait.travel h1 hM.laid r (t := t) hls h5 h6 h7
    have k2 := h2.travel hS.safe hr t (hS.targets t hmem l hl)
    cases hu : updateState M r e s <;> cases hq : M.travel r t l c <;> rw [hu, hq] at k1 <;>
      rw [hq] at k2 <;> first | exact k1.elim | skip
    · exact ⟨_, k1.2, k2⟩
    · exact ⟨_, k1.2, k2⟩
    · exact k2
    · trivial

theorem Hale.dep (h : Hale M s) (hM : M.RegularG) (hS : M.ScopesRealG) (d : Dep) :
    (setDependencyG M d s).Sat False (fun _ => Hale M) (fun _ => Hale M) := by
  obtain ⟨c, h1, h2⟩ := h
  obtain ⟨T, hT⟩ := (Machine.fillG_ok hM d s.table).1 hS
  unfold Hsm.setDependencyG
  rw [hT]
  refine ⟨{ c with deps := d :: c.deps }, { h1 with bound := ?_, table := ?_ }, h2.other rfl rfl rfl⟩
  · show d :: c.deps ≠ []
    simp
  · intro e p st hp hst
    show T e (M.comb p st) = _
    rw [Machine.fillG_spec hM hT e hp hst, h1.table e p st hp hst]
    simp [Machine.entriesG]

theorem Hale.regions (h : Hale M s) (hS : SafeGR M sem) {r : Nat} (hr : r < activeRegions M s) :
    r < (M.declaredInitials M.root).length := by
  obtain ⟨c, h1, h2⟩ := h
  refine h2.taking hS.safe r ?_
  rw [← h1.taking, currentRegions_eq]
  exact List.mem_range.2 hr

theorem SafeGR.obj (hS : SafeGR M sem) (st : StTy) (s : SM P W) (h : objOkR M sem st s = false) : False := by
  unfold objOkR at h
  rw [Machine.defaultCtor_eq] at h
  rcases hS.objects st with h1 | h1 <;> simp [h1] at h

/-- Machines in good order stay in good order, with what else `J` says about their tables. -/
theorem KeepsG.hale (hM : M.RegularG) (hS : SafeGR M sem) {Q : Op P → Prop} {J : Table → Prop}
    (hQ : ∀ op, Q op → OpOkGR M op) (hg : sem.Good False Q)
    (hiter : ∀ call : Op P → SM P W → Res (SM P W) Bool, Held U Q (fun s => Hale M s ∧ J s.table) call →
      ∀ s s' x ev p p' c, Hale M s ∧ J s.table → execGuardR M sem call x ev p s = .ok (false, p') s' →
      (s'.table ev c).length ≠ (s.table ev c).length → U .iterator)
    (hJ : ∀ d T, Q (.setDependency d) → J T → ∀ T', M.fillG d T = .ok T' → J T') :
    KeepsG M sem U Q (fun r => r < (M.declaredInitials M.root).length) (fun s => Hale M s ∧ J s.table)
      (fun ev _ e _ => Stems M ev e) where
  toRuns := .of hg.no (fun s w h => ⟨h.1.change w s.queue s.trace, h.2⟩)
  traced := fun _ s c _ h _ _ => ⟨h.1.change s.world s.queue _, h.2⟩
  obj := fun st s _ h => (hS.obj st s h).elim
  regions := fun _ h _ hr => h.1.regions hS hr
  look := fun _ _ h hr => Or.inr (h.1.cur hM hr)
  entry := fun _ _ _ _ _ h _ _ hlt he _ => h.1.stems hM hlt he
  null := by
    intro s ev r e _ he hcase hn
    obtain ⟨h1, p, st, h2⟩ := he.tr hM hn
    rcases hcase with hd | ⟨rfl, ha⟩
    · rw [h1] at hd; cases hd
    · exact absurd h2 (hS.noneNotDeferred ha p st)
  stay := fun _ _ _ _ _ _ _ _ _ _ _ _ he => he
  iter := hiter
  move := by
    intro s ev r e x h hr he _ hx _
    have := h.1.move hM hS he (by rw [hx]; simp) hr
    cases hu : updateState M r e s with
    | ok a s' =>
      rw [hu] at this
      refine ⟨this, ?_⟩
      rcases updateState_ok hu with ⟨_, rfl⟩ | hm
      · exact h.2
      · rw [hm.table]; exact h.2
    | throw x s' => exact absurd hu updateState_throw
    | ub u => rw [hu] at this; exact this.elim
    | timeout => trivial
  push := fun s ev _ _ p h _ _ => ⟨h.1.change s.world _ s.trace, h.2⟩
  pop := fun s _ _ q h _ => ⟨h.1.change s.world q s.trace, h.2⟩
  handler := by
    intro s ev h _ hh hq
    obtain ⟨p, hq⟩ := hq
    obtain ⟨k, h1, h2⟩ := h.1.cur hM (List.length_pos_iff.2 hS.rootInit)
    obtain ⟨c, hc, _⟩ := h.1
    obtain ⟨q, st, hq', hst, rfl⟩ := hM.laid.comb_surj h2
    refine Or.inr ⟨_, st, c.first, h1, h2, hc.handlers hh ev ?_ q hq' st hst⟩
    rw [Machine.eventsG_eq hM.laid]
    exact hQ _ hq
  known := by
    intro ev p h
    have : ev ∈ M.eventIdsG := hQ _ h
    rw [← Machine.eventsG_eq hM.laid] at this
    exact Machine.eventsG_events this
  dep := by
    intro s d hq h
    have := h.1.dep hM hS.scopes d
    unfold Hsm.setDependencyG at this ⊢
    cases hT : M.fillG d s.table with
    | error u => rw [hT] at this; exact this.elim
    | ok T => rw [hT] at this; exact ⟨this, hJ d _ hq h.2 T hT⟩

end

/-! ## C118 -/

section
variable {ι P W : Type} [DecidableEq ι] {Ms : ι → Machine} {sem : SemS ι P W} {d : ι → Dep}
  {ops : List (ι × Op P)} {h : Hub ι P W}

theorem RunToGS.opOk (hr : RunToGS Ms sem d ops h) : ∀ x ∈ ops, OpOkGR (Ms x.1) x.2 := by
  induction hr with
  | init => simp
  | ok _ hop _ ih =>
    intro x hx
    rcases List.mem_append.1 hx with hx | hx
    · exact ih x hx
    · rw [List.mem_singleton.1 hx]; exact hop
  | throw _ hop _ ih =>
    intro x hx
    rcases List.mem_append.1 hx with hx | hx
    · exact ih x hx
    · rw [List.mem_singleton.1 hx]; exact hop
  | world _ _ ih => exact ih

theorem RunToGS.agreed {D : ι → Dep → Prop} (hM : ∀ i, (Ms i).RegularG)
    (hg : sem.Good True (fun i => GivesDG (Ms i) (D i))) (hr : RunToGS Ms sem d ops h)
    (hd : ∀ i, D i (d i)) (hops : ∀ x ∈ ops, GivesDG (Ms x.1) (D x.1) x.2) (i : ι) :
    Agreed (Ms i) (Ms i).candsG (D i) Unset (h.fetch i) :=
  hr.inv (I := fun i => Agreed (Ms i) (Ms i).candsG (D i) Unset)
    (fun i o ho => KeepsG.agreed (hM i) (hg.at i ho)) (fun _ _ _ h => h.of_eq rfl rfl rfl rfl rfl rfl) hg
    (fun i _ _ hc => agreed_constructG (hM i) (hd i) hc) hops i _

/-- C118: callbacks of any machine may use any machine.  Every move of every machine has consent, as in C109,
of a guard called for the same machine. -/
theorem C118_moves {D : ι → Dep → Prop} (hM : ∀ i, (Ms i).RegularG)
    (hg : sem.Good True (fun i => GivesDG (Ms i) (D i))) (hr : RunToGS Ms sem d ops h)
    (hd : ∀ i, D i (d i)) (hops : ∀ x ∈ ops, GivesDG (Ms x.1) (D x.1) x.2) (i : ι)
    {l1 l2 : List Firing} {f : Firing} (hl : (h.parts i).log = l1 ++ f :: l2) :
    MoveHasConsent (Ms i) (Ms i).candsG (D i) Unset (h.parts i).trace l1 f :=
  (hr.agreed hM hg hd hops i).consent.moves l1 f l2 hl

/-- C118: every callback of a row has consent, as in C109. -/
theorem C118_actions {D : ι → Dep → Prop} (hM : ∀ i, (Ms i).RegularG)
    (hg : sem.Good True (fun i => GivesDG (Ms i) (D i))) (hr : RunToGS Ms sem d ops h)
    (hd : ∀ i, D i (d i)) (hops : ∀ x ∈ ops, GivesDG (Ms x.1) (D x.1) x.2) (i : ι)
    {t0 t1 : List (Call P)} {ph : Phase} {a : Cb} {args : Args} {q : P} {b : Bool}
    {cur : List (Option Nat)} (ht : (h.parts i).trace = t0 ++ .action ph a args q b cur :: t1) :
    ActionHasConsent (Ms i) (Ms i).candsG (D i) Unset (h.parts i).log t0 ph a args :=
  (hr.agreed hM hg hd hops i).consent.acts t0 ph a args q b cur t1 ht

/-- C118: callbacks of every machine are those its tables provide for, as in C110; guards of a machine whose
guards make no calls are called only where their rows apply. -/
theorem C118_declared {D : ι → Dep → Prop} (hM : ∀ i, (Ms i).RegularG)
    (hg : sem.Good True (fun i => GivesDG (Ms i) (D i))) (hr : RunToGS Ms sem d ops h)
    (hd : ∀ i, D i (d i)) (hops : ∀ x ∈ ops, GivesDG (Ms x.1) (D x.1) x.2) (i : ι) :
    ∀ c ∈ (h.parts i).trace, DeclaredG (Ms i) (D i) (d i) (sem.QuietGuards i) c :=
  (hr.inv (I := fun i => SuppliedG (Ms i) (D i) (d i) (sem.QuietGuards i))
    (fun i o ho => KeepsG.supplied (hM i) (hg.at i ho) (fun h => h.at o))
    (fun _ _ _ h => h.of_eq rfl rfl rfl) hg (fun i _ _ hc => supplied_constructG (hM i) (hd i) hc)
    hops i h).calls

theorem KeepsG.nothing {M : Machine} {sem : SemR P W} {Q : Op P → Prop} (hM : M.RegularG) (hg : sem.Good True Q)
    (hQ : ∀ op, Q op → OpOkGR M op) :
    KeepsG M sem (fun _ => True) Q (fun _ => True) (fun _ => True) (fun _ _ _ _ => True) where
  toRuns := .of hg fun _ _ _ => trivial
  traced := fun _ _ _ _ _ _ _ => trivial
  obj := fun _ _ _ _ => trivial
  regions := fun _ _ _ _ => trivial
  look := fun _ _ _ _ => Or.inl fun _ => trivial
  entry := fun _ _ _ _ _ _ _ _ _ _ _ => trivial
  null := fun _ _ _ _ _ _ _ _ => trivial
  stay := fun _ _ _ _ _ _ _ _ _ _ _ _ _ => trivial
  iter := fun _ _ _ _ _ _ _ _ _ _ _ _ => trivial
  move := by
    intro s ev r e x _ _ _ _ _ _
    cases updateState M r e s <;> trivial
  push := fun _ _ _ _ _ _ _ _ => trivial
  pop := fun _ _ _ _ _ _ => trivial
  handler := fun _ _ _ _ _ => fun _ => Or.inl fun _ => trivial
  known := fun _ _ h => GivesDG.known (D := fun _ => True) hM ⟨hQ _ h, fun _ _ => trivial⟩
  dep := by
    intro s d _ _
    cases setDependencyG M d s <;> trivial

open Classical in
/-- C118: every move of a machine whose guards make no calls is one of a row applicable where it was, even if
guards of other machines make calls. -/
theorem C118_sources (hM : ∀ i, (Ms i).RegularG) (hg : sem.Good True (fun i => OpOkGR (Ms i)))
    (hr : RunToGS Ms sem d ops h) {i : ι} (hq : sem.QuietGuards i) {l1 l2 : List Firing} {f : Firing}
    (hl : (h.parts i).log = l1 ++ f :: l2) : ExplainedG (Ms i) (Memo (Ms i) (l1 ++ [f])) f := by
  let Q : ι → Op P → Prop := fun i => GivesDG (Ms i) fun _ => True
  have hQ : ∀ i op, OpOkGR (Ms i) op → Q i op := fun i op h => ⟨h, fun _ _ => trivial⟩
  have hg' : sem.Good True Q := hg.mono id hQ
  let I : ι → SM P (Hub ι P W) → Prop := fun j => if sem.QuietGuards j then ExplainedAllG (Ms j) else fun _ => True
  let E : ι → EventTy → Nat → Entry → SM P (Hub ι P W) → Prop := fun j =>
    if sem.QuietGuards j then FromG (Ms j) (fun _ => True) True else fun _ _ _ _ => True
  have := hr.inv (Q := Q) (I := I) (E := E) (R := fun _ _ => True) (V := fun _ _ => True) (fun j o ho => by
      by_cases hj : sem.QuietGuards j
      · simp only [I, E, if_pos hj]; exact KeepsG.explained (hM j) (hg'.at j ho) (hj.at o)
      · simp only [I, E, if_neg hj]; exact KeepsG.nothing (hM j) (hg'.at j ho) fun _ h => h.1)
    (fun j s w hs => by
      by_cases hj : sem.QuietGuards j
      · simp only [I, if_pos hj] at hs ⊢; exact hs.of_eq rfl rfl rfl rfl
      · simp only [I, if_neg hj]) hg'
    (fun j w s hc => by
      by_cases hj : sem.QuietGuards j
      · simp only [I, if_pos hj]; exact explained_constructG (hM j) hc
      · simp only [I, if_neg hj]) (fun x hx => hQ _ _ (hr.opOk x hx)) i h
  simp only [I, if_pos hq] at this
  exact this.moves l1 f l2 hl

theorem SafeGS.at {i : ι} (hS : SafeGS Ms sem i) {Q : ι → Op P → Prop} (hg : sem.Good False Q)
    {o : Op P} (ho : OpOkGR (Ms i) o) : SafeGR (Ms i) (sem.at i o) where
  scopes := hS.scopes
  targets := hS.targets
  rootInit := hS.rootInit
  regions := hS.regions
  history := hS.history
  noneNotDeferred := hS.noneNotDeferred
  objects := fun st => (hS.objects st).imp id fun h w => h w.user
  callbacks := hg.at i ho

theorem SafeGS.fresh (hM : ∀ i, (Ms i).RegularG) (hS : ∀ i, SafeGS Ms sem i)
    (hg : sem.Good False (fun i => OpOkGR (Ms i))) (i : ι) (w : Hub ι P W) (s : SM P (Hub ι P W))
    (hc : constructG (Ms i) (d i) w = .ok s) : Hale (Ms i) s :=
  (RunToGR.init (sem := sem.at i (.setDependency 0)) hc).firm (hM i) ((hS i).at hg (o := .setDependency 0) trivial)

theorem RunToGS.hale (hM : ∀ i, (Ms i).RegularG) (hS : ∀ i, SafeGS Ms sem i)
    (hg : sem.Good False (fun i => OpOkGR (Ms i))) (hr : RunToGS Ms sem d ops h) :
    AllKeep (fun i => Hale (Ms i)) h := by
  have := hr.inv (I := fun i s => Hale (Ms i) s ∧ True)
    (fun i _ ho => KeepsG.hale (J := fun _ => True) (hM i) ((hS i).at hg ho) (fun _ h => h) (hg.at i ho)
      (fun _ _ _ _ _ _ _ _ _ _ _ _ => trivial) (fun _ _ _ _ _ _ => trivial))
    (fun _ s w h => ⟨h.1.change w s.queue s.trace, trivial⟩) (hg.mono False.elim fun _ _ h => h)
    (fun i w s hc => ⟨SafeGS.fresh hM hS hg i w s hc, trivial⟩) hr.opOk
  exact fun i w => (this i w).1

/-- C118: only loops over table cells that are pushed to meanwhile can go wrong in a program of safe
machines. -/
theorem C118_only_iterators (hM : ∀ i, (Ms i).RegularG) (hS : ∀ i, SafeGS Ms sem i)
    (hg : sem.Good False (fun i => OpOkGR (Ms i))) (hr : RunToGS Ms sem d ops h) :
    (∀ fuel n i op u, OpOkGR (Ms i) op → stepGS Ms sem fuel n i op h = .ub u → u = .iterator) ∧
    ∀ i, (∀ st, (isState (Ms i) st (h.fetch i)).Defined) ∧ (∀ p, (parentIs (Ms i) p (h.fetch i)).Defined) ∧
      (∀ r p st, (isRegion (Ms i) r p st (h.fetch i)).Defined) ∧ (status (Ms i) (h.fetch i)).Defined := by
  have hs := hr.hale hM hS hg
  refine ⟨?_, fun i => ?_⟩
  · intro fuel n i op u hop hu
    have := stepGS_keeps (U := (· = .iterator)) (I := fun i s => Hale (Ms i) s ∧ True)
      (fun i o ho => KeepsG.hale (J := fun _ => True) (hM i) ((hS i).at hg ho) (fun _ h => h) (hg.at i ho)
        (fun _ _ _ _ _ _ _ _ _ _ _ _ => rfl) (fun _ _ _ _ _ _ => trivial))
      (fun _ s w h => ⟨h.1.change w s.queue s.trace, trivial⟩) (hg.mono False.elim fun _ _ h => h) fuel n i op h
      hop (fun i w => ⟨hs i w, trivial⟩)
    rw [hu] at this
    exact this
  · obtain ⟨c, h1, h2⟩ := hs i { h with request := none }
    exact Firm.observers ((hS i).at hg (o := .setDependency 0) trivial) h1 h2

/-- C118: a program of safe machines has no undefined behaviour if, for each machine, its guards make no calls
or no callback calls its `set_dependency`. -/
theorem C118_safe (hM : ∀ i, (Ms i).RegularG) (hS : ∀ i, SafeGS Ms sem i)
    (hg : sem.Good False (fun i => OpOkGR (Ms i))) (hq : ∀ i, sem.QuietGuards i ∨ sem.KeepsDeps i)
    (hr : RunToGS Ms sem d ops h) (fuel n : Nat) (i : ι) (op : Op P) (hop : OpOkGR (Ms i) op) :
    (stepGS Ms sem fuel n i op h).Defined := by
  have hh := hr.hale hM hS hg
  let Q : ι → Op P → Prop := fun j op => OpOkGR (Ms j) op ∧ (¬ sem.QuietGuards j → ∀ d, op ≠ .setDependency d)
  by_cases hne : Q i op
  · have hg' : sem.Good False Q := by
      have hk : ∀ b : { j // ¬ sem.QuietGuards j }, sem.KeepsDeps b.1 := fun b => (hq b.1).resolve_left b.2
      have hw : ∀ {i op}, (OpOkGR (Ms i) op ∧ ∀ b : { j // ¬ sem.QuietGuards j }, i = b.1 →
          ∀ d : Dep, op ≠ .setDependency d) → Q i op := fun h => ⟨h.1, fun hj => h.2 ⟨_, hj⟩ rfl⟩
      exact ⟨fun i g a p w => ((hg.guard i g a p w).and (.all fun b => (hk b).guard i g a p w)).mono id fun _ _ => hw,
        fun i c a p w => ((hg.action i c a p w).and (.all fun b => (hk b).action i c a p w)).mono id fun _ _ => hw,
        fun i c e st d p w => ((hg.handler i c e st d p w).and
          (.all fun b => (hk b).handler i c e st d p w)).mono id fun _ _ => hw⟩
    let J : ι → Table → Prop := fun j T => ¬ sem.QuietGuards j → T = (h.parts j).table
    have := stepGS_keeps (U := fun _ => False) (Q := Q) (I := fun j s => Hale (Ms j) s ∧ J j s.table)
      (fun j o ho => KeepsG.hale (J := J j) (hM j) ((hS j).at hg ho.1) (fun _ h => h.1) (hg'.at j ho)
        (by
          intro call hc s s' x ev p p' c hs hx hl
          by_cases hj : sem.QuietGuards j
          · obtain ⟨w, tr, rfl⟩ := execGuard_quiet (hj.at o) hx
            exact hl rfl
          · have kcb : KeepsCb (Ms j) (sem.at j o) (fun _ => False) (Q j)
                (fun s => Hale (Ms j) s ∧ J j s.table) (fun _ _ => True) :=
              { toRuns := .of (hg'.at j ho) (fun s w h => ⟨h.1.change w s.queue s.trace, h.2⟩)
                traced := fun _ s c _ h _ _ => ⟨h.1.change s.world s.queue _, h.2⟩
                obj := fun st s _ h => ((hS j).at hg ho.1).obj st s h }
            have := kcb.execGuard hc x ev p s hs (fun _ _ _ _ => trivial)
            rw [hx] at this
            exact hl (by rw [this.1.2 hj, hs.2 hj]))
        (fun d T hq hT T' hf hj => absurd rfl (hq.2 hj d)))
      (fun _ s w h => ⟨h.1.change w s.queue s.trace, h.2⟩) hg' fuel n i op h hne
      (fun j w => ⟨hh j w, fun _ => rfl⟩)
    cases hr : stepGS Ms sem fuel n i op h <;> rw [hr] at this
    · exact fun _ h => by cases h
    · exact fun _ h => by cases h
    · exact this.elim
    · exact fun _ h => by cases h
  · cases op with
    | process ev p => exact absurd ⟨hop, fun _ _ => by simp⟩ hne
    | set r p st => exact absurd ⟨hop, fun _ _ => by simp⟩ hne
    | setDependency d =>
      cases n with
      | zero => exact fun _ h => by cases h
      | succ n =>
        have := (hh i { h with request := none }).dep (hM i) (hS i).scopes d
        show (Res.home i (Res.bind (setDependencyG (Ms i) d (h.fetch i)) _)).Defined
        change (setDependencyG (Ms i) d (h.fetch i)).Sat _ _ _ at this
        cases hr : setDependencyG (Ms i) d (h.fetch i) <;> rw [hr] at this
        · exact fun _ h => by cases h
        · exact fun _ h => by cases h
        · exact this.elim
        · exact fun _ h => by cases h

/-- C118: a call changes no machine that is not called. -/
theorem C118_untouched {j : ι} (hM : ∀ i, (Ms i).RegularG)
    (hg : sem.Good True (fun i op => OpOkGR (Ms i) op ∧ i ≠ j)) {fuel n : Nat} {i : ι}
    {op : Op P} {h' : Hub ι P W} (hop : OpOkGR (Ms i) op) (hi : i ≠ j)
    (hs : (∃ b, stepGS Ms sem fuel n i op h = .ok b h') ∨ ∃ x, stepGS Ms sem fuel n i op h = .throw x h') :
    h'.parts j = h.parts j := by
  have := stepGS_keeps (U := fun _ => True) (Q := fun i op => OpOkGR (Ms i) op ∧ i ≠ j)
    (I := fun l s => l = j → s.rebase () = h.parts j) (R := fun _ _ => True)
    (E := fun _ _ _ _ _ => True) (V := fun _ _ => True)
    (fun l o ho => by
      have he : (fun s : SM P (Hub ι P W) => l = j → s.rebase () = h.parts j) = fun _ => True :=
        funext fun s => eq_true fun hl => (ho.2 hl).elim
      rw [he]
      exact KeepsG.nothing (hM l) (hg.at l (Q' := fun op => OpOkGR (Ms l) op ∧ l ≠ j) ho) fun _ h => h.1)
    (fun _ _ _ h => h) hg fuel n i op h ⟨hop, hi⟩ (fun l w hl => by subst hl; rfl)
  rcases hs with ⟨b, hs⟩ | ⟨x, hs⟩ <;> rw [hs] at this
  · exact this.whole j h' rfl
  · exact this.whole j h' rfl

/-- C118: a machine whose callbacks use only this machine does what it does without the others. -/
theorem C118_alone {i : ι} {sem' : SemR P W} (ha : sem.Alone i sem') (fuel : Nat) : ∀ (n : Nat) (op : Op P)
    (h : Hub ι P W), stepGS Ms sem fuel n i op h =
      (stepGR (Ms i) sem' fuel n op ((h.parts i).rebase h.user)).within i h := by
  intro n
  induction n with
  | zero => intro op h; rfl
  | succ n ih =>
    intro op h
    have hw : Around i h ((h.parts i).rebase h.user : SM P W).world { h with request := none } :=
      ⟨rfl, fun _ _ => rfl⟩
    have he : ((h.parts i).rebase h.user : SM P W).rebase { h with request := none } = h.fetch i := rfl
    cases op with
    | process ev p =>
      exact Res.Sim.home (he ▸ (processEventGR_sim (ha.sim _) (callSim_nested ih) fuel ev p hw).bind
        fun _ s w' h => ⟨rfl, w', rfl, h⟩)
    | set r p st =>
      exact Res.Sim.home (r := .ok true ((h.parts i).rebase h.user))
        ⟨rfl, { h with request := none }, he.symm, hw⟩
    | setDependency dd =>
      exact Res.Sim.home (he ▸ (setDependencyG_sim hw dd).bind fun _ s w' h => ⟨rfl, w', rfl, h⟩)

end

/-! ## Examples -/

namespace Ex

section
variable (Ms : Bool → Machine) (sm : SemS Bool Nat (List Nat))

def runOpsGS (fuel n : Nat) : List (Bool × Op Nat) → Hub Bool Nat (List Nat) → Option (Hub Bool Nat (List Nat))
  | [], h => some h
  | x :: xs, h =>
    if opOkGRB (Ms x.1) x.2 then
      match stepGS Ms sm fuel n x.1 x.2 h with
      | .ok _ h' => runOpsGS fuel n xs h'
      | .throw _ h' => runOpsGS fuel n xs h'
      | _ => none
    else none

def runGS (fuel n : Nat) (d : Bool → Dep) (w : List Nat) (ops : List (Bool × Op Nat)) :
    Option (Hub Bool Nat (List Nat)) :=
  match constructG (Ms false) (d false) (), constructG (Ms true) (d true) () with
  | .ok a, .ok b => runOpsGS Ms sm fuel n ops ⟨w, fun i => if i then b else a, none⟩
  | _, _ => none

theorem runOpsGS_runTo {fuel n : Nat} {d : Bool → Dep} {ops : List (Bool × Op Nat)} :
    ∀ {pre : List (Bool × Op Nat)} {h h' : Hub Bool Nat (List Nat)}, RunToGS Ms sm d pre h →
    runOpsGS Ms sm fuel n ops h = some h' → RunToGS Ms sm d (pre ++ ops) h' := by
  induction ops with
  | nil => intro pre h h' h1 h2; cases h2; simpa using h1
  | cons x xs ih =>
    intro pre h h' h1 h2
    unfold runOpsGS at h2
    split at h2
    · rename_i hop
      split at h2
      · rename_i heq
        have := ih (.ok h1 (opOkGRB_iff _ hop) heq) h2
        simpa using this
      · rename_i heq
        have := ih (.throw h1 (opOkGRB_iff _ hop) heq) h2
        simpa using this
      · cases h2
    · cases h2

theorem exists_runGS {fuel n : Nat} {d : Bool → Dep} {w : List Nat} {ops : List (Bool × Op Nat)}
    {f : Hub Bool Nat (List Nat) → Bool} (h : (runGS Ms sm fuel n d w ops).any f = true) :
    ∃ h, RunToGS Ms sm d ops h ∧ f h = true := by
  cases hr : runGS Ms sm fuel n d w ops with
  | none => rw [hr] at h; cases h
  | some h' =>
    rw [hr] at h
    refine ⟨h', ?_, h⟩
    unfold runGS at hr
    split at hr
    · rename_i a b ha hb
      have : RunToGS Ms sm d [] ⟨w, fun i => if i then b else a, none⟩ :=
        .init fun i => by cases i <;> assumption
      simpa using runOpsGS_runTo Ms sm this hr
    · cases hr

end

theorem pingPong_goodG {U : Prop} : (semS true quietS pingPong).Good U (fun i => OpOkGR (twins i)) :=
  semS_good (quietS_all (Q := fun i => OpOkGR (twins i)))
    (pingPong_all (Q := fun i => OpOkGR (twins i)) (hop_okG 1 (by decide) 5) (hop_okG 2 (by decide) 6))

theorem twins_safeG {on : Bool} {asks calls : Bool → Nat → List (Bool × Op Nat)} (i : Bool) :
    SafeGS twins (semS on asks calls) i := by
  have h := hop_safeGR (on := fun _ => true) (asks := never) (calls := never) never_all never_all
  exact ⟨h.scopes, h.targets, h.rootInit, h.regions, h.history, h.noneNotDeferred, fun _ => Or.inr fun _ => rfl⟩

/-- C118 applies: event 0 makes the first machine move, its action makes the second one move, and that one's
action makes the first one move again, before the entry action of the first move. -/
example : ∃ h, RunToGS twins (semS true quietS pingPong) (fun _ => 7) [(false, .process (ev 0) 1)] h ∧
    (h.parts false).log.length = 2 ∧ (h.parts true).log.length = 1 ∧ h.user = [100, 1, 2, 3, 20] ∧
    ∀ i l1 f l2, (h.parts i).log = l1 ++ f :: l2 → ExplainedG hop (Memo hop (l1 ++ [f])) f := by
  obtain ⟨h, hr, hs⟩ := exists_runGS twins (semS true quietS pingPong) (fuel := 5) (n := 5) (d := fun _ => 7) (w := [])
    (ops := [(false, .process (ev 0) 1)])
    (f := fun h => (h.parts false).log.length == 2 && ((h.parts true).log.length == 1 &&
      h.user == [100, 1, 2, 3, 20])) (by decide +kernel)
  simp only [Bool.and_eq_true, beq_iff_eq] at hs
  exact ⟨h, hr, hs.1, hs.2.1, hs.2.2, fun i l1 f l2 hl =>
    C118_sources (fun _ => hop_regularG) pingPong_goodG hr (quietS_quiet i) hl⟩

/-- Nor is there undefined behaviour after it. -/
example {h : Hub Bool Nat (List Nat)} {ops : List (Bool × Op Nat)}
    (hr : RunToGS twins (semS true quietS pingPong) (fun _ => 7) ops h) (fuel n : Nat) (i : Bool) :
    (stepGS twins (semS true quietS pingPong) fuel n i (.process (ev 0) 1) h).Defined :=
  C118_safe (fun _ => hop_regularG) twins_safeG pingPong_goodG (fun i => Or.inl (quietS_quiet i)) hr fuel n i _
    (hop_okG 0 (by decide) 1)

/-- Moves of the second machine have consent, and its callbacks are declared. -/
example {h : Hub Bool Nat (List Nat)} (hr : RunToGS twins (semS true quietS pingPong) (fun _ => 7)
    [(false, .process (ev 0) 1)] h) :
    (∀ l1 f l2, (h.parts true).log = l1 ++ f :: l2 →
      MoveHasConsent hop hop.candsG (· = 7) Unset (h.parts true).trace l1 f) ∧
    ∀ c ∈ (h.parts true).trace, DeclaredG hop (· = 7) 7 True c := by
  let Q : Bool → Op Nat → Prop := fun _ => GivesDG hop (· = 7)
  have key : ∀ n < 3, ∀ p, GivesDG hop (· = 7) (.process (ev n) p) := fun n hn p =>
    ⟨hop_okG n hn p, fun _ h => by cases h⟩
  have hg : (semS true quietS pingPong).Good True Q :=
    semS_good (quietS_all (Q := Q)) (pingPong_all (Q := Q) (key 1 (by decide) 5) (key 2 (by decide) 6))
  have hops : ∀ x ∈ [(false, Op.process (ev 0) 1)], Q x.1 x.2 := fun x hx => by
    rw [List.mem_singleton.1 hx]; exact key 0 (by decide) 1
  refine ⟨fun l1 f l2 hl => C118_moves (D := fun _ => (· = 7)) (fun _ => hop_regularG) hg hr (fun _ => rfl) hops true hl,
    fun c hc => ?_⟩
  have := C118_declared (D := fun _ => (· = 7)) (fun _ => hop_regularG) hg hr (fun _ => rfl) hops true c hc
  rwa [show (semS true quietS pingPong).QuietGuards true = True from eq_true (quietS_quiet true)] at this

/-- If no callback uses the second machine, then the first does what it does alone, and the second stays as it
is. -/
example (fuel n : Nat) (h h' : Hub Bool Nat (List Nat)) (b : Bool)
    (hs : stepGS twins (semS true quietS aloneCalls) fuel n false (.process (ev 0) 1) h = .ok b h') :
    h'.parts true = h.parts true ∧
    (stepGR hop (semR (fun _ => true) never (only 1 [.process (ev 2) 8])) fuel n (.process (ev 0) 1)
      ((h.parts false).rebase h.user)).within false h = .ok b h' := by
  constructor
  · let Q : Bool → Op Nat → Prop := fun i op => OpOkGR (twins i) op ∧ i ≠ true
    refine C118_untouched (fun _ => hop_regularG) (semS_good (Q := Q) (quietS_all (Q := Q)) ?_)
      (hop_okG 0 (by decide) 1) (by decide) (Or.inl ⟨b, hs⟩)
    intro i c x hx
    unfold aloneCalls at hx
    split at hx
    · rw [List.mem_singleton.1 hx]; exact ⟨hop_okG 2 (by decide) 8, by decide⟩
    · cases hx
  · rw [← hs]
    exact (C118_alone (Ms := twins) aloneCalls_alone fuel n _ h).symm

end Ex

open Ex in
/-- The condition of `C118_safe` is about calls of all callbacks, as that of `C117_safe`. -/
theorem C118_round_trip : ∃ (Ms : Bool → Machine) (sem : SemS Bool Nat (List Nat)) (d : Bool → Dep)
    (h : Hub Bool Nat (List Nat)) (fuel n : Nat) (op : Op Nat),
    (∀ i, (Ms i).RegularG) ∧ (∀ i, SafeGS Ms sem i) ∧ sem.Good False (fun i => OpOkGR (Ms i)) ∧
    (∀ g a p w, (sem.guard false g a p w).Good False (fun i op => i = true ∧ ∀ d, op ≠ .setDependency d)) ∧
    (∀ c a p w, (sem.action false c a p w).Good False (fun _ _ => False)) ∧
    sem.QuietGuards true ∧ RunToGS Ms sem d [] h ∧ OpOkGR (Ms false) op ∧
    stepGS Ms sem fuel n false op h = .ub .iterator := by
  have he : ∀ i c, ∀ x ∈ askOther i c, x = (true, .process (ev 1) 5) := by
    intro i c x hx
    unfold askOther at hx
    split at hx
    · exact List.mem_singleton.1 hx
    · cases hx
  have hw : ∀ i c, ∀ x ∈ rewireOther i c, x = (false, .setDependency 9) := by
    intro i c x hx
    unfold rewireOther at hx
    split at hx
    · exact List.mem_singleton.1 hx
    · cases hx
  obtain ⟨h, hr, hs⟩ := exists_runGS twins (semS false askOther rewireOther) (fuel := 5) (n := 5) (d := fun _ => 7)
    (w := []) (ops := [])
    (f := fun h => hitsS .iterator (stepGS twins (semS false askOther rewireOther) 5 5 false (.process (ev 0) 1) h))
    (by decide +kernel)
  refine ⟨twins, semS false askOther rewireOther, _, h, 5, 5, .process (ev 0) 1, fun _ => hop_regularG, twins_safeG,
    semS_good (fun i c x hx => by rw [he i c x hx]; exact hop_okG 1 (by decide) 5)
      (fun i c x hx => by rw [hw i c x hx]; trivial), ?_, ?_, ?_, hr, hop_okG 0 (by decide) 1, ?_⟩
  · exact fun g a p w => makesS_good fun x hx => by rw [he _ _ x hx]; exact ⟨rfl, fun _ => by simp⟩
  · exact fun c a p w => makesS_good fun x hx => by
      unfold rewireOther at hx
      rw [if_neg (by simp)] at hx
      cases hx
  · exact fun g a p w => makesS_good fun x hx => by
      unfold askOther at hx
      rw [if_neg (by simp)] at hx
      cases hx
  · unfold hitsS at hs
    split at hs
    · rename_i heq
      rw [heq, eq_of_beq hs]
    · cases hs

end Hsm
