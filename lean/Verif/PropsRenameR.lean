import Verif.PropsRename
import Verif.PropsSystems
import Verif.PropsMoving

/-!
# C134: names do not matter in programs of several machines

C76 (PropsRename.lean) for callbacks that use machines.  Each machine of a program gets new names, and callbacks
use them when they call.
-/

namespace Hsm

/-! ## Specification -/

section
variable {ι P W : Type}

/-- A callback under new names: the calls it makes are those the new names say. -/
def SProg.ren {α : Type} (φ : ι → Ren) : SProg ι P W α → SProg ι P W α
  | .ret a p w => .ret a p w
  | .throw x w => .throw x w
  | .ub => .ub
  | .call i op w k => .call i (op.ren (φ i)) w fun r w => (k r w).ren φ

/-- The callbacks of `sem'` do under the new names what those of `sem` do. -/
structure SemSRenamed (φ : ι → Ren) (sem sem' : SemS ι P W) : Prop where
  guard : ∀ i g a p w, sem'.guard i ((φ i).cb g) (a.ren (φ i)) p w = (sem.guard i g a p w).ren φ
  action : ∀ i c a p w, sem'.action i ((φ i).cb c) (a.ren (φ i)) p w = (sem.action i c a p w).ren φ
  handler : ∀ i h e st d p w, sem'.handler i ((φ i).cb h) ((φ i).ev e) (st.ren (φ i)) d p w =
    (sem.handler i h e st d p w).ren φ
  alive : ∀ i st w, sem'.alive i (st.ren (φ i)) w = sem.alive i st w
  nonePayload : ∀ i, sem'.nonePayload i = sem.nonePayload i

/-- The same program under new names: every machine is at the same slots, with the same deferred events,
history and regions, and has called the same callbacks. -/
structure HubRen (φ : ι → Ren) (h h' : Hub ι P W) : Prop where
  user : h'.user = h.user
  parts : ∀ i, SMRen (φ i) (h.parts i) (h'.parts i)

end

/-! ## Machines in related worlds -/

/-- The same machine object under new names, in worlds related by `ρ`. -/
structure Alias {P W W' : Type} (φ : Ren) (ρ : W → W' → Prop) (s : SM P W) (s' : SM P W') : Prop where
  cur : s'.cur = s.cur
  initial : s'.initial = s.initial
  hist : s'.hist = s.hist
  queue : s'.queue = s.queue.map fun x => (φ.ev x.1, x.2)
  regions : s'.regions = s.regions
  table : TableRen φ s.table s'.table
  handlers : HTableRen φ s.handlers s'.handlers
  world : ρ s.world s'.world
  trace : s'.trace = s.trace.map (Call.ren φ)
  log : s'.log = s.log

/-- The same outcome under new names. -/
abbrev AliasRes {P W W' α : Type} (φ : Ren) (ρ : W → W' → Prop) : Res (SM P W) α → Res (SM P W') α → Prop :=
  Res.Rel Eq (Alias φ ρ)

/-- Callbacks that do the same under new names in worlds related by `ρ`, making calls related by `θ`. -/
structure SemAlias {P W W' : Type} (φ : Ren) (ρ : W → W' → Prop) (θ : Op P → W → Op P → W' → Prop)
    (sem : SemR P W) (sem' : SemR P W') : Prop where
  guard : ∀ g a p w w', ρ w w' → (sem.guard g a p w).Sim ρ θ (sem'.guard (φ.cb g) (a.ren φ) p w')
  action : ∀ c a p w w', ρ w w' → (sem.action c a p w).Sim ρ θ (sem'.action (φ.cb c) (a.ren φ) p w')
  handler : ∀ h e st d p w w', ρ w w' →
    (sem.handler h e st d p w).Sim ρ θ (sem'.handler (φ.cb h) (φ.ev e) (st.ren φ) d p w')
  alive : ∀ st w w', ρ w w' → sem'.alive (st.ren φ) w' = sem.alive st w
  nonePayload : sem'.nonePayload = sem.nonePayload

/-- Calls that do the same under new names. -/
def CallAlias {P W W' : Type} (φ : Ren) (ρ : W → W' → Prop) (θ : Op P → W → Op P → W' → Prop)
    (call : Op P → SM P W → Res (SM P W) Bool) (call' : Op P → SM P W' → Res (SM P W') Bool) : Prop :=
  ∀ op op' (s : SM P W) (s' : SM P W') (w : W) (w' : W'), Alias φ ρ s s' → θ op w op' w' →
    AliasRes φ ρ (call op { s with world := w }) (call' op' { s' with world := w' })

namespace Renamed
section
variable {φ : Ren} (hφ : φ.Faithful) {M M' : Machine} (hM : Renamed φ M M')
variable {P W W' : Type} {ρ : W → W' → Prop} {θ : Op P → W → Op P → W' → Prop} {sem : SemR P W}
  {sem' : SemR P W'} {s : SM P W} {s' : SM P W'} (hsem : SemAlias φ ρ θ sem sem')
  {call : Op P → SM P W → Res (SM P W) Bool} {call' : Op P → SM P W' → Res (SM P W') Bool}
  (hcall : CallAlias φ ρ θ call call')

theorem abind {α β : Type} {r : Res (SM P W) α} {r' : Res (SM P W') α} {f : α → SM P W → Res (SM P W) β}
    {f' : α → SM P W' → Res (SM P W') β} (h : AliasRes φ ρ r r')
    (hf : ∀ a s s', Alias φ ρ s s' → AliasRes φ ρ (f a s) (f' a s')) :
    AliasRes φ ρ (r.bind f) (r'.bind f') :=
  Res.Rel.bind h fun a b s s' hab hs => by cases hab; exact hf a s s' hs

theorem readCurA (hs : Alias φ ρ s s') (r : Nat) : AliasRes φ ρ (Hsm.readCur r s) (Hsm.readCur r s') := by
  unfold Hsm.readCur
  rw [hs.cur]
  split
  · rfl
  · rfl
  · exact ⟨rfl, hs⟩

theorem writeCurA (hs : Alias φ ρ s s') (r c : Nat) :
    AliasRes φ ρ (Hsm.writeCur r c s) (Hsm.writeCur r c s') := by
  unfold Hsm.writeCur
  rw [hs.cur]
  split
  · exact ⟨rfl, { hs with cur := rfl }⟩
  · rfl

theorem readHistoryA (hs : Alias φ ρ s s') (p r : Nat) :
    AliasRes φ ρ (Hsm.readHistory p r s) (Hsm.readHistory p r s') := by
  unfold Hsm.readHistory
  rw [hs.hist]
  split
  · rfl
  · split
    · rfl
    · exact ⟨rfl, hs⟩

include hφ hM

theorem currentParentA (hs : Alias φ ρ s s') :
    AliasRes φ ρ (Hsm.currentParent M s) (Hsm.currentParent M' s') := by
  unfold Hsm.currentParent
  rw [hM.nStates hφ]
  exact abind (readCurA hs 0) fun c s s' hs => ⟨rfl, hs⟩

theorem currentRegionsA (hs : Alias φ ρ s s') : Hsm.currentRegions M' s' = Hsm.currentRegions M s := by
  unfold Hsm.currentRegions
  rw [hM.parallel hφ, hs.regions]

theorem updateRegionsA (hs : Alias φ ρ s s') :
    AliasRes φ ρ (Hsm.updateRegions M s) (Hsm.updateRegions M' s') := by
  unfold Hsm.updateRegions
  rw [hM.parallel hφ]
  split
  · refine abind (hM.currentParentA hφ hs) fun c s s' hs => ?_
    rw [hs.initial]
    split
    · rfl
    · exact ⟨rfl, { hs with initial := rfl, regions := rfl }⟩
  · exact ⟨rfl, hs⟩

theorem saveHistoryA (hs : Alias φ ρ s s') (r : Nat) :
    AliasRes φ ρ (Hsm.saveHistory M r s) (Hsm.saveHistory M' r s') := by
  unfold Hsm.saveHistory
  refine abind (hM.currentParentA hφ hs) fun p s s' hs => ?_
  refine abind (readCurA hs r) fun c s s' hs => ?_
  rw [hs.hist]
  split
  · rfl
  · split
    · exact ⟨rfl, { hs with hist := rfl }⟩
    · rfl

theorem moveStateA (hs : Alias φ ρ s s') (r : Nat) (e : Entry) :
    AliasRes φ ρ (Hsm.moveState M r e s) (Hsm.moveState M' r (e.ren φ) s') := by
  unfold Hsm.moveState
  rw [hM.hasHistory, hM.nStates hφ]
  split
  · refine abind (hM.saveHistoryA hφ hs r) fun _ s s' hs => ?_
    refine abind ?_ fun _ s s' hs => hM.updateRegionsA hφ hs
    show AliasRes φ ρ _ (if e.history then _ else _)
    split
    · exact abind (readHistoryA hs _ r) fun c s s' hs => writeCurA hs r c
    · exact writeCurA hs r e.to
  · exact abind (writeCurA hs r e.to) fun _ s s' hs => hM.updateRegionsA hφ hs

theorem updateStateA (hs : Alias φ ρ s s') (r : Nat) (e : Entry) :
    AliasRes φ ρ (Hsm.updateState M r e s) (Hsm.updateState M' r (e.ren φ) s') := by
  unfold Hsm.updateState
  show AliasRes φ ρ _ (if e.internal then _ else _)
  split
  · exact ⟨rfl, hs⟩
  · refine abind (hM.moveStateA hφ hs r e) fun _ t t' ht => ⟨rfl, { ht with log := ?_ }⟩
    show t'.log ++ _ = t.log ++ _
    rw [ht.log, ht.cur, hs.cur, hs.trace, List.length_map]

omit hφ hM
include hcall

theorem runProgA {α : Type} {pr : Prog P W α} {pr' : Prog P W' α} (h : pr.Sim ρ θ pr') :
    ∀ {s : SM P W} {s' : SM P W'}, Alias φ ρ s s' →
      AliasRes φ ρ (runProg call pr s) (runProg call' pr' s') := by
  induction h with
  | ret a p h => intro s s' hs; exact ⟨rfl, { hs with world := h }⟩
  | throw x h => intro s s' hs; exact ⟨rfl, { hs with world := h }⟩
  | ub => intro s s' hs; rfl
  | @call op op' w w' k k' h hk ih =>
    intro s s' hs
    have hc := hcall op op' s s' w w' hs h
    unfold runProg
    revert hc
    cases call op { s with world := w } <;> cases call' op' { s' with world := w' } <;> intro hc <;>
      first | exact hc.elim | exact hc | skip
    · obtain ⟨rfl, ht⟩ := hc; exact ih _ _ _ ht.world ht
    · obtain ⟨rfl, ht⟩ := hc; exact ih _ _ _ ht.world ht

theorem runCbA {α : Type} {pr : Prog P W α} {pr' : Prog P W' α} (h : pr.Sim ρ θ pr')
    {rec rec' : Option α → Call P} (hrec : ∀ o, rec' o = (rec o).ren φ) (hs : Alias φ ρ s s') :
    AliasRes φ ρ (runCb call pr rec s) (runCb call' pr' rec' s') := by
  have hc := runProgA hcall h hs
  unfold runCb
  revert hc
  cases runProg call pr s <;> cases runProg call' pr' s' <;> intro hc <;>
    first | exact hc.elim | exact hc | skip
  · obtain ⟨rfl, ht⟩ := hc
    refine ⟨rfl, { ht with trace := ?_ }⟩
    show _ ++ _ = _
    rw [ht.trace, List.map_append, hrec]; rfl
  · obtain ⟨rfl, ht⟩ := hc
    refine ⟨rfl, { ht with trace := ?_ }⟩
    show _ ++ _ = _
    rw [ht.trace, List.map_append, hrec]; rfl

omit hcall
include hM hsem

theorem objOkA (hs : Alias φ ρ s s') (st : StTy) : objOkR M' sem' (st.ren φ) s' = objOkR M sem st s := by
  unfold objOkR
  rw [hM.defaultCtor, hsem.alive _ _ _ hs.world]

include hcall

theorem execGuardA (hs : Alias φ ρ s s') (x : Exec) (ev : EventTy) (p : P) :
    AliasRes φ ρ (execGuardR M sem call x ev p s) (execGuardR M' sem' call' (x.ren φ) (φ.ev ev) p s') := by
  unfold execGuardR
  show AliasRes φ ρ _ (match x.guard.map φ.cb with
    | none => .ok (true, p) s'
    | some g => _)
  cases x.guard with
  | none => exact ⟨rfl, hs⟩
  | some g =>
    have hi : (if (x.ren φ).internal then (x.ren φ).src else (x.ren φ).dst) =
        (if x.internal then x.src else x.dst).ren φ := by
      show (if x.internal then x.src.ren φ else x.dst.ren φ) = _
      cases x.internal <;> rfl
    simp only [Option.map_some, hi]
    rw [show (x.ren φ).src = x.src.ren φ from rfl, hM.objOkA hsem hs, hM.objOkA hsem hs]
    generalize hd : (if x.internal then x.src else x.dst) = d
    split
    · refine runCbA hcall ?_ ?_ hs
      · exact hsem.guard g ⟨ev, x.src, d, false, x.dep⟩ p _ _ hs.world
      · intro o; rw [hs.cur]; rfl
    · rfl

omit hM in
theorem runCbsA (args : Args) (cs : List (Phase × Cb)) : ∀ {s : SM P W} {s' : SM P W'} (_ : Alias φ ρ s s')
    (p : P), AliasRes φ ρ (runCbsR sem call args cs p s)
      (runCbsR sem' call' (args.ren φ) (cs.map fun x => (x.1, φ.cb x.2)) p s') := by
  induction cs with
  | nil => intro s s' hs p; exact ⟨rfl, hs⟩
  | cons c cs ih =>
    intro s s' hs p
    obtain ⟨ph, a⟩ := c
    rw [List.map_cons, runCbsR, runCbsR]
    refine abind (runCbA hcall (hsem.action a args p _ _ hs.world) (fun o => ?_) hs) fun up s s' hs => ih hs _
    rw [hs.cur]; rfl

theorem execActionA (hs : Alias φ ρ s s') (x : Exec) (ev : EventTy) (p : P) :
    AliasRes φ ρ (execActionR M sem call x ev p s) (execActionR M' sem' call' (x.ren φ) (φ.ev ev) p s') := by
  unfold execActionR
  rw [hM.actionArgs, show (x.ren φ).src = x.src.ren φ from rfl, hM.objOkA hsem hs,
    show (x.ren φ).action = x.action.map fun l => l.map fun y => (y.1, φ.cb y.2) from rfl]
  cases x.action with
  | none => exact ⟨rfl, hs⟩
  | some cs =>
    simp only [Option.map_some]
    split
    · exact runCbsA hsem hcall _ cs hs p
    · rfl

include hφ

theorem fireA (hs : Alias φ ρ s s') (r : Nat) (ev : EventTy) (e : Entry) (x : Exec) (p : P) :
    AliasRes φ ρ (fireR M sem call r ev e x p s)
      (fireR M' sem' call' r (φ.ev ev) (e.ren φ) (x.ren φ) p s') := by
  unfold fireR
  exact abind (hM.updateStateA hφ hs r e) fun _ s s' hs => hM.execActionA hsem hcall hs x ev p

theorem tryEntriesA (r : Nat) (ev : EventTy) (c n : Nat) (es : List Entry) :
    ∀ {s : SM P W} {s' : SM P W'} (_ : Alias φ ρ s s') (p : P),
      AliasRes φ ρ (tryEntriesR M sem call r ev c n es p s)
        (tryEntriesR M' sem' call' r (φ.ev ev) c n (es.map (Entry.ren φ)) p s') := by
  induction es with
  | nil => intro s s' hs p; exact ⟨rfl, hs⟩
  | cons e es ih =>
    intro s s' hs p
    rw [List.map_cons, tryEntriesR, tryEntriesR, show (e.ren φ).defer = e.defer from rfl,
      show (e.ren φ).tr = e.tr.map (Exec.ren φ) from rfl]
    split
    · refine ⟨rfl, { hs with queue := ?_ }⟩
      show s'.queue ++ _ = _
      rw [hs.queue, List.map_append]; rfl
    · cases e.tr with
      | none => rfl
      | some x =>
        refine abind (hM.execGuardA hsem hcall hs x ev p) fun gp s s' hs => ?_
        rw [hs.table, List.length_map]
        split
        · exact abind (hM.fireA hφ hsem hcall hs r ev e x gp.2) fun p s s' hs => ⟨rfl, hs⟩
        · split
          · exact ih hs gp.2
          · rfl

theorem regionStepA (hs : Alias φ ρ s s') (r : Nat) (ev : EventTy) (p : P) :
    AliasRes φ ρ (regionStepR M sem call r ev p s) (regionStepR M' sem' call' r (φ.ev ev) p s') := by
  unfold regionStepR
  refine abind (readCurA hs r) fun c s s' hs => ?_
  rw [hM.size hφ, hs.table]
  split
  · cases s.table ev c with
    | nil => exact ⟨rfl, hs⟩
    | cons e es =>
      have := hM.tryEntriesA hφ hsem hcall r ev c (e :: es).length (e :: es) hs p
      rw [← List.length_map (f := Entry.ren φ)] at this
      rw [List.length_map] at this
      simpa using this
  · rfl

theorem regionLoopA (ev : EventTy) (rs : List Nat) : ∀ {s : SM P W} {s' : SM P W'} (_ : Alias φ ρ s s')
    (a b : Bool) (p : P), AliasRes φ ρ (regionLoopR M sem call ev rs a b p s)
      (regionLoopR M' sem' call' (φ.ev ev) rs a b p s') := by
  induction rs with
  | nil => intro s s' hs a b p; exact ⟨rfl, hs⟩
  | cons r rs ih =>
    intro s s' hs a b p
    rw [regionLoopR, regionLoopR]
    refine abind (hM.regionStepA hφ hsem hcall hs r ev p) fun op s s' hs => ?_
    obtain ⟨o, p⟩ := op
    cases o with
    | none => exact ih hs _ _ _
    | rejected => exact ih hs _ _ _
    | fired => exact ih hs _ _ _
    | deferred => exact ⟨rfl, hs⟩

theorem tryAnonA (r c n : Nat) (es : List Entry) :
    ∀ {s : SM P W} {s' : SM P W'} (_ : Alias φ ρ s s') (p : P),
      AliasRes φ ρ (tryAnonR M sem call r c n es p s)
        (tryAnonR M' sem' call' r c n (es.map (Entry.ren φ)) p s') := by
  induction es with
  | nil => intro s s' hs p; exact ⟨rfl, hs⟩
  | cons e es ih =>
    intro s s' hs p
    rw [List.map_cons, tryAnonR, tryAnonR, show (e.ren φ).tr = e.tr.map (Exec.ren φ) from rfl]
    cases e.tr with
    | none => rfl
    | some x =>
      have hg := hM.execGuardA hsem hcall hs x .none p
      rw [hφ.none] at hg
      refine abind hg fun gp s s' hs => ?_
      have ht := hs.table .none c
      rw [hφ.none] at ht
      rw [ht, List.length_map]
      split
      · have hf := hM.fireA hφ hsem hcall hs r .none e x gp.2
        rw [hφ.none] at hf
        exact abind hf fun p s s' hs => ⟨rfl, hs⟩
      · split
        · exact ih hs gp.2
        · rfl

theorem anonRoundA (rs : List Nat) : ∀ {s : SM P W} {s' : SM P W'} (_ : Alias φ ρ s s') (a : Bool) (p : P),
    AliasRes φ ρ (anonRoundR M sem call rs a p s) (anonRoundR M' sem' call' rs a p s') := by
  induction rs with
  | nil => intro s s' hs a p; exact ⟨rfl, hs⟩
  | cons r rs ih =>
    intro s s' hs a p
    rw [anonRoundR, anonRoundR]
    refine abind (readCurA hs r) fun c s s' hs => ?_
    have ht := hs.table .none c
    rw [hφ.none] at ht
    rw [hM.size hφ, ht]
    split
    · cases s.table .none c with
      | nil => exact ⟨rfl, hs⟩
      | cons e es =>
        have := hM.tryAnonA hφ hsem hcall r c (e :: es).length (e :: es) hs p
        rw [List.map_cons] at this ⊢
        refine abind ?_ fun fp s s' hs => ih hs _ _
        simpa using this
    · rfl

theorem anonLoopA (fuel : Nat) : ∀ {s : SM P W} {s' : SM P W'} (_ : Alias φ ρ s s') (p : P),
    AliasRes φ ρ (anonLoopR M sem call fuel p s) (anonLoopR M' sem' call' fuel p s') := by
  induction fuel with
  | zero => intro s s' hs p; trivial
  | succ n ih =>
    intro s s' hs p
    rw [anonLoopR, anonLoopR, hM.currentRegionsA hφ hs]
    refine abind (hM.anonRoundA hφ hsem hcall _ hs true p) fun op s s' hs => ?_
    obtain ⟨o, p⟩ := op
    cases o with
    | none => exact ⟨rfl, hs⟩
    | some b =>
      cases b with
      | true => exact ⟨rfl, hs⟩
      | false => exact ih hs p

theorem processAnonA (hs : Alias φ ρ s s') (fuel : Nat) :
    AliasRes φ ρ (processAnonR M sem call fuel s) (processAnonR M' sem' call' fuel s') := by
  unfold processAnonR
  rw [hM.hasAnon hφ, hsem.nonePayload]
  split
  · exact hM.anonLoopA hφ hsem hcall fuel hs _
  · exact ⟨rfl, hs⟩

theorem processInternalA (hs : Alias φ ρ s s') (fuel : Nat) (ev : EventTy) (p : P) :
    AliasRes φ ρ (processInternalR M sem call fuel ev p s)
      (processInternalR M' sem' call' fuel (φ.ev ev) p s') := by
  unfold processInternalR
  rw [hM.currentRegionsA hφ hs]
  refine abind (hM.regionLoopA hφ hsem hcall ev _ hs true true p) fun op s s' hs => ?_
  obtain ⟨o, p⟩ := op
  cases o with
  | deferred => exact ⟨rfl, hs⟩
  | done a b =>
    dsimp only
    split
    · exact ⟨rfl, hs⟩
    · split
      · exact ⟨rfl, hs⟩
      · exact abind (hM.processAnonA hφ hsem hcall hs fuel) fun _ s s' hs => ⟨rfl, hs⟩

theorem processDeferredA (hs : Alias φ ρ s s') (fuel : Nat) :
    AliasRes φ ρ (processDeferredR M sem call fuel s) (processDeferredR M' sem' call' fuel s') := by
  unfold processDeferredR
  rw [hM.hasDefer, hs.queue]
  split
  · cases hq : s.queue with
    | nil => exact ⟨rfl, hs⟩
    | cons x q =>
      obtain ⟨e, p⟩ := x
      rw [List.map_cons]
      have ht : Alias φ ρ { s with queue := q }
          { s' with queue := q.map fun x => (φ.ev x.1, x.2) } := { hs with queue := rfl }
      exact abind (hM.processInternalA hφ hsem hcall ht fuel e p) fun _ s s' hs => ⟨rfl, hs⟩
  · exact ⟨rfl, hs⟩

theorem callHandlerA (hs : Alias φ ρ s s') (ev : EventTy) (p : P) :
    AliasRes φ ρ (callHandlerR M sem call ev p s) (callHandlerR M' sem' call' (φ.ev ev) p s') := by
  unfold callHandlerR
  rw [hM.root, hM.decl, hM.size hφ,
    show ((M.decl M.root).ren φ).handler = (M.decl M.root).handler.map φ.cb from rfl]
  cases (M.decl M.root).handler with
  | none => exact ⟨rfl, hs⟩
  | some h =>
    refine abind (readCurA hs 0) fun c s s' hs => ?_
    split
    · rw [hs.handlers]
      cases s.handlers ev c with
      | none => rfl
      | some x =>
        obtain ⟨st, d⟩ := x
        simp only [Option.map_some]
        rw [hM.objOkA hsem hs]
        split
        · refine abind (runCbA hcall (hsem.handler h ev st d p _ _ hs.world) (fun o => ?_) hs)
            fun up s s' hs => ⟨rfl, hs⟩
          rw [hs.cur]; rfl
        · rfl
    · exact ⟨rfl, hs⟩

theorem processEventA (hs : Alias φ ρ s s') (fuel : Nat) (ev : EventTy) (p : P) :
    AliasRes φ ρ (processEventR M sem call fuel ev p s)
      (processEventR M' sem' call' fuel (φ.ev ev) p s') := by
  unfold processEventR
  refine abind (hM.processInternalA hφ hsem hcall hs fuel ev p) fun rp s s' hs => ?_
  obtain ⟨r, p⟩ := rp
  cases r with
  | allTransitionsInvalid =>
    exact abind (hM.callHandlerA hφ hsem hcall hs ev p) fun _ s s' hs => ⟨rfl, hs⟩
  | deferred => exact ⟨rfl, hs⟩
  | allGuardsFailed => exact ⟨rfl, hs⟩
  | processed => exact abind (hM.processDeferredA hφ hsem hcall hs fuel) fun _ s s' hs => ⟨rfl, hs⟩

omit hsem hcall in
theorem setOpA (hs : Alias φ ρ s s') (r : Nat) (p : Name) (st : StTy) :
    AliasRes φ ρ (Hsm.setOp M r p st s) (Hsm.setOp M' r (φ.st p) (st.ren φ) s') := by
  unfold Hsm.setOp
  rw [hs.cur, hM.comb hφ]
  split
  · exact ⟨rfl, { hs with cur := rfl }⟩
  · exact ⟨rfl, hs⟩

omit hsem hcall in
theorem setDependencyA (hs : Alias φ ρ s s') (d : Dep) :
    AliasRes φ ρ (Hsm.setDependency M d s) (Hsm.setDependency M' d s') := by
  unfold Hsm.setDependency
  have h := hM.fill hφ d hs.table
  revert h
  cases M.fill d s.table with
  | error e =>
    cases M'.fill d s'.table with
    | error e' => intro _; rfl
    | ok T' => intro h; exact h.elim
  | ok T =>
    cases M'.fill d s'.table with
    | error e' => intro h; exact h.elim
    | ok T' => intro h; exact ⟨rfl, { hs with table := h }⟩

end
end Renamed

/-! ## Programs of several machines -/

section
variable {ι P W : Type} {φ : ι → Ren}

/-- Calls a callback makes, by its request. -/
def Asks (φ : ι → Ren) (_ : Op P) (h : Hub ι P W) (_ : Op P) (h' : Hub ι P W) : Prop :=
  HubRen φ h h' ∧ ∃ i op, h.request = some (i, op) ∧ h'.request = some (i, op.ren (φ i))

theorem SProg.ren_sim {α : Type} (o o' : Op P) (pr : SProg ι P W α) : ∀ {m m' : ι → SM P Unit},
    (∀ i, SMRen (φ i) (m i) (m' i)) → (pr.prog o m).Sim (HubRen φ) (Asks φ) ((pr.ren φ).prog o' m') := by
  induction pr with
  | ret a p w => intro m m' h; exact .ret a p ⟨rfl, h⟩
  | throw x w => intro m m' h; exact .throw x ⟨rfl, h⟩
  | ub => intro m m' h; exact .ub
  | call i op w k ih =>
    intro m m' h
    refine .call ⟨⟨rfl, h⟩, i, op, rfl, rfl⟩ fun r v v' hv => ?_
    rw [hv.user]
    exact ih r v.user hv.parts

theorem SemSRenamed.at {sem sem' : SemS ι P W} (h : SemSRenamed φ sem sem') (i : ι) (o o' : Op P) :
    SemAlias (φ i) (HubRen φ) (Asks φ) (sem.at i o) (sem'.at i o') where
  guard g a p w w' hw := by
    show Prog.Sim _ _ _ ((sem'.guard i _ _ p w'.user).prog o' w'.parts)
    rw [h.guard, hw.user]; exact SProg.ren_sim o o' _ hw.parts
  action c a p w w' hw := by
    show Prog.Sim _ _ _ ((sem'.action i _ _ p w'.user).prog o' w'.parts)
    rw [h.action, hw.user]; exact SProg.ren_sim o o' _ hw.parts
  handler c e st d p w w' hw := by
    show Prog.Sim _ _ _ ((sem'.handler i _ _ _ d p w'.user).prog o' w'.parts)
    rw [h.handler, hw.user]; exact SProg.ren_sim o o' _ hw.parts
  alive st w w' hw := by
    show sem'.alive i _ w'.user = _
    rw [h.alive, hw.user]; rfl
  nonePayload := h.nonePayload i

theorem HubRen.fetch {h h' : Hub ι P W} (hh : HubRen φ h h') (i : ι) :
    Alias (φ i) (HubRen φ) (h.fetch i) (h'.fetch i) :=
  let hp := hh.parts i
  ⟨hp.cur, hp.initial, hp.hist, hp.queue, hp.regions, hp.table, hp.handlers, ⟨hh.user, hh.parts⟩, hp.trace,
    hp.log⟩

variable [DecidableEq ι]

theorem HubRen.store {h h' : Hub ι P W} (hh : HubRen φ h h') {i : ι} {ρ : Hub ι P W → Hub ι P W → Prop}
    {s s' : SM P (Hub ι P W)} (hs : Alias (φ i) ρ s s') : HubRen φ (h.store i s) (h'.store i s') := by
  refine ⟨hh.user, fun j => ?_⟩
  show SMRen (φ j) (if j = i then _ else _) (if j = i then _ else _)
  by_cases hj : j = i
  · subst hj
    rw [if_pos rfl, if_pos rfl]
    exact ⟨hs.cur, hs.initial, hs.hist, hs.queue, hs.regions, hs.table, hs.handlers, rfl, hs.trace, hs.log⟩
  · rw [if_neg hj, if_neg hj]; exact hh.parts j

theorem AliasRes.home {α : Type} {i : ι} {r r' : Res (SM P (Hub ι P W)) α}
    (h : AliasRes (φ i) (HubRen φ) r r') : (r.home i).Rel Eq (HubRen φ) (r'.home i) := by
  cases r <;> cases r' <;> first | exact h.elim | exact h | exact ⟨h.1, h.2.world.store h.2⟩

variable {Ms Ms' : ι → Machine} {sem sem' : SemS ι P W}

/-- C134: under new names every call of every machine does the same, whatever its callbacks call. -/
theorem C134_step (hφ : ∀ i, (φ i).Faithful) (hM : ∀ i, Renamed (φ i) (Ms i) (Ms' i))
    (hsem : SemSRenamed φ sem sem') (fuel : Nat) : ∀ (n : Nat) (i : ι) (op : Op P) {h h' : Hub ι P W},
    HubRen φ h h' →
      (stepS Ms sem fuel n i op h).Rel Eq (HubRen φ) (stepS Ms' sem' fuel n i (op.ren (φ i)) h') := by
  intro n
  induction n with
  | zero => intro i op h h' hh; trivial
  | succ n ih =>
    intro i op h h' hh
    have hcall : CallAlias (φ i) (HubRen φ) (Asks φ) (nested (stepS Ms sem fuel n) i)
        (nested (stepS Ms' sem' fuel n) i) := by
      intro o o' s s' w w' hs ⟨hw, j, op, h1, h2⟩
      unfold nested
      show AliasRes _ _ (match w.request with | none => _ | some (j, op) => _)
        (match w'.request with | none => _ | some (j, op) => _)
      rw [h1, h2]
      have hst : HubRen φ (w.store i { s with world := w }) (w'.store i { s' with world := w' }) :=
        hw.store (ρ := HubRen φ) { hs with world := hw }
      have hc := ih j op hst
      revert hc
      dsimp only
      cases stepS Ms sem fuel n j op (w.store i { s with world := w }) <;>
        cases stepS Ms' sem' fuel n j (op.ren (φ j)) (w'.store i { s' with world := w' }) <;> intro hc <;>
        first | exact hc.elim | exact hc | exact ⟨hc.1, hc.2.fetch i⟩
    unfold stepS
    refine AliasRes.home ?_
    cases op with
    | process ev p => exact (hM i).processEventA (hφ i) (hsem.at i _ _) hcall (hh.fetch i) fuel ev p
    | set r p st => exact Renamed.abind ((hM i).setOpA (hφ i) (hh.fetch i) r p st) fun _ s s' hs => ⟨rfl, hs⟩
    | setDependency d =>
      exact Renamed.abind ((hM i).setDependencyA (hφ i) (hh.fetch i) d) fun _ s s' hs => ⟨rfl, hs⟩

/-- C134: whatever a program can do, it can do under new names. -/
theorem C134_runs (hφ : ∀ i, (φ i).Faithful) (hM : ∀ i, Renamed (φ i) (Ms i) (Ms' i))
    (hsem : SemSRenamed φ sem sem') {d : ι → Dep} {ops : List (ι × Op P)} {h : Hub ι P W}
    (hr : RunToS Ms sem d ops h) :
    ∃ h', RunToS Ms' sem' d (ops.map fun x => (x.1, x.2.ren (φ x.1))) h' ∧ HubRen φ h h' := by
  induction hr with
  | @init h hi =>
    have hc : ∀ i, ∃ s', construct (Ms' i) (d i) () = .ok s' ∧ SMRen (φ i) (h.parts i) s' := by
      intro i
      have hc := (hM i).C76_construct (P := P) (hφ i) (d i) ()
      rw [hi i] at hc
      cases h' : construct (P := P) (Ms' i) (d i) () with
      | error e => rw [h'] at hc; exact hc.elim
      | ok s' => rw [h'] at hc; exact ⟨s', rfl, hc⟩
    choose m hm using hc
    exact ⟨⟨h.user, m, none⟩, .init fun i => (hm i).1, rfl, fun i => (hm i).2⟩
  | @ok h t ops i op fuel n b _ hop hs ih =>
    obtain ⟨h', hr', hh⟩ := ih
    have hc := C134_step hφ hM hsem fuel n i op hh
    rw [hs] at hc
    cases hs' : stepS Ms' sem' fuel n i (op.ren (φ i)) h' with
    | ok b' t' =>
      rw [hs'] at hc
      rw [List.map_append]
      exact ⟨t', .ok hr' (((hM i).opOk (hφ i) op).2 hop) hs', hc.2⟩
    | throw x t' => rw [hs'] at hc; exact hc.elim
    | ub u => rw [hs'] at hc; exact hc.elim
    | timeout => rw [hs'] at hc; exact hc.elim
  | @throw h t ops i op fuel n x _ hop hs ih =>
    obtain ⟨h', hr', hh⟩ := ih
    have hc := C134_step hφ hM hsem fuel n i op hh
    rw [hs] at hc
    cases hs' : stepS Ms' sem' fuel n i (op.ren (φ i)) h' with
    | throw b' t' =>
      rw [hs'] at hc
      rw [List.map_append]
      exact ⟨t', .throw hr' (((hM i).opOk (hφ i) op).2 hop) hs', hc.2⟩
    | ok x t' => rw [hs'] at hc; exact hc.elim
    | ub u => rw [hs'] at hc; exact hc.elim
    | timeout => rw [hs'] at hc; exact hc.elim
  | @world h ops _ w ih =>
    obtain ⟨h', hr', hh⟩ := ih
    exact ⟨_, .world hr' w, rfl, hh.parts⟩

/-- C134: afterwards `status()` and `is` of every machine see the same. -/
theorem C134_observe (hφ : ∀ i, (φ i).Faithful) (hM : ∀ i, Renamed (φ i) (Ms i) (Ms' i))
    {h h' : Hub ι P W} (hh : HubRen φ h h') (i : ι) :
    (status (Ms' i) (h'.parts i)).answer = (status (Ms i) (h.parts i)).answer ∧
    (∀ p, (parentIs (Ms' i) ((φ i).st p) (h'.parts i)).answer = (parentIs (Ms i) p (h.parts i)).answer) ∧
    (∀ st, (isState (Ms' i) (st.ren (φ i)) (h'.parts i)).answer = (isState (Ms i) st (h.parts i)).answer) ∧
    ∀ r p st, (isRegion (Ms' i) r ((φ i).st p) (st.ren (φ i)) (h'.parts i)).answer =
      (isRegion (Ms i) r p st (h.parts i)).answer := by
  have key : ∀ {α : Type} {r r' : Res (SM P Unit) α}, SameRes (φ i) r r' → r'.answer = r.answer := by
    intro α r r' h
    cases r <;> cases r' <;> first | exact h.elim | skip
    · obtain ⟨rfl, _⟩ := h; rfl
    · obtain ⟨rfl, _⟩ := h; rfl
    · cases h; rfl
    · rfl
  obtain ⟨h1, h2, h3, h4⟩ := (hM i).C76_observe (hφ i) (hh.parts i)
  exact ⟨key h1, fun p => key (h2 p), fun st => key (h3 st), fun r p st => key (h4 r p st)⟩

end

/-! ## Every client can use the new names -/

/-- `ψ` gives back the old names. -/
structure Ren.Undoes (ψ φ : Ren) : Prop where
  st : ∀ x, ψ.st (φ.st x) = x
  cb : ∀ c, ψ.cb (φ.cb c) = c
  ev : ∀ e, ψ.ev (φ.ev e) = e

section
variable {ι P W : Type} {φ ψ : ι → Ren}

theorem Ren.Undoes.ty {ψ φ : Ren} (h : ψ.Undoes φ) (t : StTy) : (t.ren φ).ren ψ = t := by
  cases t with
  | st x => exact congrArg _ (h.st x)
  | ps w q => cases q <;> simp [StTy.ren, Pseudo.ren, h.st]

theorem Ren.Undoes.args {ψ φ : Ren} (h : ψ.Undoes φ) (a : Args) : (a.ren φ).ren ψ = a := by
  obtain ⟨e, src, dst, q, d⟩ := a
  simp [Args.ren, h.ev, h.ty]

/-- The client `sem` with new names. -/
def SemS.rename (φ ψ : ι → Ren) (sem : SemS ι P W) : SemS ι P W where
  guard i g a p w := (sem.guard i ((ψ i).cb g) (a.ren (ψ i)) p w).ren φ
  action i c a p w := (sem.action i ((ψ i).cb c) (a.ren (ψ i)) p w).ren φ
  handler i h e st d p w := (sem.handler i ((ψ i).cb h) ((ψ i).ev e) (st.ren (ψ i)) d p w).ren φ
  alive i st w := sem.alive i (st.ren (ψ i)) w
  nonePayload := sem.nonePayload

theorem SemS.rename_renamed (h : ∀ i, (ψ i).Undoes (φ i)) (sem : SemS ι P W) :
    SemSRenamed φ sem (sem.rename φ ψ) where
  guard i g a p w := by simp only [SemS.rename, (h i).cb, (h i).args]
  action i c a p w := by simp only [SemS.rename, (h i).cb, (h i).args]
  handler i c e st d p w := by simp only [SemS.rename, (h i).cb, (h i).ev, (h i).ty]
  alive i st w := by simp only [SemS.rename, (h i).ty]
  nonePayload i := rfl

end

namespace Ex

/-- The names as they were. -/
def unchanged : Ren := ⟨id, id, id⟩

/-- From the new names of PropsRename.lean to the old ones. -/
def unrenamed : Ren where
  st x := x - 10
  cb c := (c - 1) / 2
  ev
    | .none => .none
    | .user n => .user (n - 5)

theorem unrenamed_undoes : unrenamed.Undoes renamed where
  st x := by
    have : ∀ a : Nat, a + 10 - 10 = a := by omega
    exact this x
  cb c := by
    have : ∀ a : Nat, (2 * a + 1 - 1) / 2 = a := by omega
    exact this c
  ev e := by cases e <;> simp [unrenamed, renamed]

/-- The second machine gets new names. -/
def halfNew (i : Bool) : Ren := if i then renamed else unchanged

def halfOld (i : Bool) : Ren := if i then unrenamed else unchanged

theorem halfNew_faithful (i : Bool) : (halfNew i).Faithful := by
  cases i with
  | true => exact renamed_faithful
  | false => exact ⟨fun _ _ h => h, fun _ _ h => h, fun _ _ h => h, rfl⟩

theorem halfOld_undoes (i : Bool) : (halfOld i).Undoes (halfNew i) := by
  cases i with
  | true => exact unrenamed_undoes
  | false => exact ⟨fun _ => rfl, fun _ => rfl, fun _ => rfl⟩

def twinsNew (i : Bool) : Machine := (twins i).rename (halfNew i) (halfOld i).st

theorem twinsNew_renamed (i : Bool) : Renamed (halfNew i) (twins i) (twinsNew i) :=
  (twins i).rename_renamed _ (halfOld_undoes i).st

/-- The callback of the first machine now sends event 6 to the second. -/
example : ∃ h, RunToS twinsNew ((semS true quietS pingPong).rename halfNew halfOld) (fun _ => 7)
    [(false, .process (ev 0) 1)] h ∧ (h.parts false).log.length = 2 ∧ (h.parts true).log.length = 1 ∧
    h.user = [100, 1, 2, 3, 20] := by
  obtain ⟨h, hr, hs⟩ := exists_runS twins (semS true quietS pingPong) (fuel := 5) (n := 5) (d := fun _ => 7) (w := [])
    (ops := [(false, .process (ev 0) 1)])
    (f := fun h => (h.parts false).log.length == 2 && ((h.parts true).log.length == 1 &&
      h.user == [100, 1, 2, 3, 20])) (by decide +kernel)
  simp only [Bool.and_eq_true, beq_iff_eq] at hs
  obtain ⟨h', hr', hh⟩ := C134_runs halfNew_faithful twinsNew_renamed (SemS.rename_renamed halfOld_undoes _) hr
  exact ⟨h', hr', by rw [(hh.parts _).log]; exact hs.1, by rw [(hh.parts _).log]; exact hs.2.1,
    by rw [hh.user]; exact hs.2.2⟩

/-- Events 1 and 2 change their names. -/
def swapped : Ren where
  st := id
  cb := id
  ev e := if e = ev 1 then ev 2 else if e = ev 2 then ev 1 else e

theorem swapped_undoes : swapped.Undoes swapped where
  st _ := rfl
  cb _ := rfl
  ev e := by
    show (if (if e = ev 1 then ev 2 else if e = ev 2 then ev 1 else e) = ev 1 then ev 2 else _) = e
    by_cases h1 : e = ev 1
    · subst h1; rfl
    · by_cases h2 : e = ev 2
      · subst h2; rfl
      · simp [swapped, h1, h2]

theorem swapped_faithful : swapped.Faithful where
  st _ _ h := h
  cb _ _ h := h
  ev a b h := by rw [← swapped_undoes.ev a, h, swapped_undoes.ev]
  none := rfl

/-- In the second machine events 1 and 2 change their names. -/
def halfSwapped (i : Bool) : Ren := if i then swapped else unchanged

theorem halfSwapped_undoes (i : Bool) : (halfSwapped i).Undoes (halfSwapped i) := by
  cases i with
  | true => exact swapped_undoes
  | false => exact ⟨fun _ => rfl, fun _ => rfl, fun _ => rfl⟩

theorem halfSwapped_faithful (i : Bool) : (halfSwapped i).Faithful := by
  cases i with
  | true => exact swapped_faithful
  | false => exact ⟨fun _ _ h => h, fun _ _ h => h, fun _ _ h => h, rfl⟩

def twinsSwapped (i : Bool) : Machine := (twins i).rename (halfSwapped i) id

theorem twinsSwapped_renamed (i : Bool) : Renamed (halfSwapped i) (twins i) (twinsSwapped i) :=
  (twins i).rename_renamed _ fun x => by cases i <;> rfl

/-- The calls callbacks make are accepted by the compiler under the new names, too. -/
theorem pingPong_swapped : (semS true quietS pingPong).Good False (fun i => OpOk (twinsSwapped i)) := by
  have h : ∀ (i : Bool) (n : Nat) (p : Nat), n < 3 → OpOk (twinsSwapped i) (.process (ev n) p) := by
    intro i n p hn
    apply opOkB_iff
    have : ∀ (i : Bool), ∀ n < 3, decide (ev n ∈ (twinsSwapped i).events) = true := by decide +kernel
    exact this i n hn
  exact semS_good (quietS_all (Q := fun i => OpOk (twinsSwapped i)))
    (pingPong_all (Q := fun i => OpOk (twinsSwapped i)) (h true 1 5 (by decide)) (h false 2 6 (by decide)))

end Ex

/-- C134 is about callbacks that use the new names as well: if they still send the old event, which is one of the
second machine's, that machine does not move. -/
theorem C134_refuted_old_names : ∃ (φ : Bool → Ren) (Ms Ms' : Bool → Machine) (sem : SemS Bool Nat (List Nat))
    (h h' : Hub Bool Nat (List Nat)), (∀ i, (φ i).Faithful) ∧ (∀ i, Renamed (φ i) (Ms i) (Ms' i)) ∧
    sem.Good False (fun i => OpOk (Ms i)) ∧ sem.Good False (fun i => OpOk (Ms' i)) ∧
    (Op.process (Ex.ev 0) 1 : Op Nat).ren (φ false) = .process (Ex.ev 0) 1 ∧
    RunToS Ms sem (fun _ => 7) [(false, .process (Ex.ev 0) 1)] h ∧ (h.parts true).log.length = 1 ∧
    RunToS Ms' sem (fun _ => 7) [(false, .process (Ex.ev 0) 1)] h' ∧ (h'.parts true).log.length = 0 := by
  obtain ⟨h, hr, hs⟩ := Ex.exists_runS Ex.twins (Ex.semS true Ex.quietS Ex.pingPong) (fuel := 5) (n := 5)
    (d := fun _ => 7) (w := []) (ops := [(false, .process (Ex.ev 0) 1)])
    (f := fun h => (h.parts true).log.length == 1) (by decide +kernel)
  obtain ⟨h', hr', hs'⟩ := Ex.exists_runS Ex.twinsSwapped (Ex.semS true Ex.quietS Ex.pingPong) (fuel := 5) (n := 5)
    (d := fun _ => 7) (w := []) (ops := [(false, .process (Ex.ev 0) 1)])
    (f := fun h => (h.parts true).log.length == 0) (by decide +kernel)
  exact ⟨_, _, _, _, h, h', Ex.halfSwapped_faithful, Ex.twinsSwapped_renamed, Ex.pingPong_good, Ex.pingPong_swapped,
    rfl, hr, eq_of_beq hs, hr', eq_of_beq hs'⟩

end Hsm
