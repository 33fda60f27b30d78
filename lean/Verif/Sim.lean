import Verif.Reentrant

/-!
# Callbacks that do the same in different worlds

If callbacks and nested calls do the same in related worlds, so does the library.
-/

namespace Hsm

variable {P W W' : Type}

/-- The machine in another world. -/
def SM.rebase (s : SM P W) (w : W') : SM P W' :=
  ⟨s.cur, s.initial, s.hist, s.queue, s.regions, s.table, s.handlers, w, s.trace, s.log⟩

/-- Programs that do the same in worlds related by `ρ`, if calls related by `θ` do. -/
inductive Prog.Sim {α : Type} (ρ : W → W' → Prop) (θ : Op P → W → Op P → W' → Prop) :
    Prog P W α → Prog P W' α → Prop
  | ret (a : α) (p : P) {w : W} {w' : W'} (h : ρ w w') : Sim ρ θ (.ret a p w) (.ret a p w')
  | throw (x : Exn) {w : W} {w' : W'} (h : ρ w w') : Sim ρ θ (.throw x w) (.throw x w')
  | ub : Sim ρ θ .ub .ub
  | call {op op' : Op P} {w : W} {w' : W'} {k : Reply → W → Prog P W α} {k' : Reply → W' → Prog P W' α}
      (h : θ op w op' w') (hk : ∀ r v v', ρ v v' → Sim ρ θ (k r v) (k' r v')) :
      Sim ρ θ (.call op w k) (.call op' w' k')

/-- Callbacks that do the same in related worlds. -/
structure SemR.Sim (ρ : W → W' → Prop) (θ : Op P → W → Op P → W' → Prop) (sem : SemR P W)
    (sem' : SemR P W') : Prop where
  guard : ∀ g a p w w', ρ w w' → (sem.guard g a p w).Sim ρ θ (sem'.guard g a p w')
  action : ∀ c a p w w', ρ w w' → (sem.action c a p w).Sim ρ θ (sem'.action c a p w')
  handler : ∀ h e st d p w w', ρ w w' → (sem.handler h e st d p w).Sim ρ θ (sem'.handler h e st d p w')
  alive : ∀ st w w', ρ w w' → sem.alive st w = sem'.alive st w'
  nonePayload : sem.nonePayload = sem'.nonePayload

/-- The same machine in related worlds. -/
def SM.Sim (ρ : W → W' → Prop) (s : SM P W) (s' : SM P W') : Prop :=
  ∃ w', s' = s.rebase w' ∧ ρ s.world w'

/-- The same outcome in related worlds. -/
def Res.Sim {α : Type} (ρ : W → W' → Prop) : Res (SM P W) α → Res (SM P W') α → Prop
  | .ok a s, .ok a' s' => a = a' ∧ s.Sim ρ s'
  | .throw x s, .throw x' s' => x = x' ∧ s.Sim ρ s'
  | .ub u, .ub u' => u = u'
  | .timeout, .timeout => True
  | _, _ => False

/-- Calls that do the same. -/
def CallSim (ρ : W → W' → Prop) (θ : Op P → W → Op P → W' → Prop)
    (call : Op P → SM P W → Res (SM P W) Bool) (call' : Op P → SM P W' → Res (SM P W') Bool) : Prop :=
  ∀ op op' (s : SM P W) w', θ op s.world op' w' → (call op s).Sim ρ (call' op' (s.rebase w'))

variable {ρ : W → W' → Prop} {θ : Op P → W → Op P → W' → Prop}

theorem Res.Sim.ok {α : Type} {a : α} {s : SM P W} {s' : SM P W'} (h : s.Sim ρ s') :
    (Res.ok a s).Sim ρ (Res.ok a s') := ⟨rfl, h⟩

theorem Res.Sim.bind {α β : Type} {r : Res (SM P W) α} {r' : Res (SM P W') α}
    {f : α → SM P W → Res (SM P W) β} {f' : α → SM P W' → Res (SM P W') β} (h : r.Sim ρ r')
    (hf : ∀ a s w', ρ s.world w' → (f a s).Sim ρ (f' a (s.rebase w'))) : (r.bind f).Sim ρ (r'.bind f') := by
  cases r <;> cases r' <;> first | exact h.elim | exact h | skip
  obtain ⟨rfl, w', rfl, hw⟩ := h
  exact hf _ _ _ hw

theorem readCur_sim {s : SM P W} {w' : W'} (h : ρ s.world w') (r : Nat) :
    (readCur r s).Sim ρ (readCur r (s.rebase w')) := by
  unfold readCur
  show Res.Sim ρ _ (match s.cur[r]? with | none => _ | some none => _ | some (some c) => _)
  generalize s.cur[r]? = o
  rcases o with _ | _ | c
  · rfl
  · rfl
  · exact ⟨rfl, w', rfl, h⟩

theorem currentParent_sim {M : Machine} {s : SM P W} {w' : W'} (h : ρ s.world w') :
    (currentParent M s).Sim ρ (currentParent M (s.rebase w')) :=
  (readCur_sim h 0).bind fun _ _ w' h => .ok ⟨w', rfl, h⟩

theorem updateRegions_sim {M : Machine} {s : SM P W} {w' : W'} (h : ρ s.world w') :
    (updateRegions M s).Sim ρ (updateRegions M (s.rebase w')) := by
  unfold updateRegions
  split
  · refine (currentParent_sim h).bind fun p s w' h => ?_
    show Res.Sim ρ _ (match s.initial[p]? with | none => _ | some l => _)
    generalize s.initial[p]? = o
    cases o
    · rfl
    · exact ⟨rfl, w', rfl, h⟩
  · exact ⟨rfl, w', rfl, h⟩

theorem writeCur_sim {s : SM P W} {w' : W'} (h : ρ s.world w') (r c : Nat) :
    (writeCur r c s).Sim ρ (writeCur r c (s.rebase w')) := by
  unfold writeCur
  show Res.Sim ρ _ (if r < s.cur.length then _ else _)
  split
  · exact ⟨rfl, w', rfl, h⟩
  · rfl

theorem saveHistory_sim {M : Machine} {s : SM P W} {w' : W'} (h : ρ s.world w') (r : Nat) :
    (saveHistory M r s).Sim ρ (saveHistory M r (s.rebase w')) := by
  unfold saveHistory
  refine (currentParent_sim h).bind fun p s w' h => (readCur_sim h r).bind fun c s w' h => ?_
  show Res.Sim ρ _ (match s.hist[p]? with | none => _ | some l => _)
  generalize s.hist[p]? = o
  cases o with
  | none => rfl
  | some l =>
    dsimp only
    split
    · exact ⟨rfl, w', rfl, h⟩
    · rfl

theorem readHistory_sim {s : SM P W} {w' : W'} (h : ρ s.world w') (p r : Nat) :
    (readHistory p r s).Sim ρ (readHistory p r (s.rebase w')) := by
  unfold readHistory
  show Res.Sim ρ _ (match s.hist[p]? with | none => _ | some l => _)
  generalize s.hist[p]? = o
  cases o with
  | none => rfl
  | some l =>
    dsimp only
    generalize l[r]? = o
    cases o with
    | none => rfl
    | some c => exact ⟨rfl, w', rfl, h⟩

theorem moveState_sim {M : Machine} {s : SM P W} {w' : W'} (h : ρ s.world w') (r : Nat) (e : Entry) :
    (moveState M r e s).Sim ρ (moveState M r e (s.rebase w')) := by
  unfold moveState
  split
  · refine (saveHistory_sim h r).bind fun _ s w' h => ?_
    refine Res.Sim.bind ?_ fun _ s w' h => updateRegions_sim h
    split
    · exact (readHistory_sim h _ _).bind fun c s w' h => writeCur_sim h r c
    · exact writeCur_sim h r _
  · exact (writeCur_sim h r _).bind fun _ s w' h => updateRegions_sim h

theorem updateState_sim {M : Machine} {s : SM P W} {w' : W'} (h : ρ s.world w') (r : Nat) (e : Entry) :
    (updateState M r e s).Sim ρ (updateState M r e (s.rebase w')) := by
  unfold updateState
  split
  · exact ⟨rfl, w', rfl, h⟩
  · exact (moveState_sim h r e).bind fun _ s w' h => ⟨rfl, w', rfl, h⟩

theorem setOp_sim {M : Machine} {s : SM P W} {w' : W'} (h : ρ s.world w') (r : Nat) (p : Name) (st : StTy) :
    (setOp M r p st s).Sim ρ (setOp M r p st (s.rebase w')) := by
  unfold setOp
  show Res.Sim ρ _ (if r % 256 < s.cur.length then _ else _)
  split
  · exact ⟨rfl, w', rfl, h⟩
  · exact ⟨rfl, w', rfl, h⟩

theorem setDependency_sim {M : Machine} {s : SM P W} {w' : W'} (h : ρ s.world w') (d : Dep) :
    (setDependency M d s).Sim ρ (setDependency M d (s.rebase w')) := by
  unfold setDependency
  show Res.Sim ρ _ (match M.fill d s.table with | .ok T => _ | .error _ => _)
  generalize M.fill d s.table = o
  cases o with
  | ok T => exact ⟨rfl, w', rfl, h⟩
  | error e => rfl

section
variable {M : Machine} {sem : SemR P W} {sem' : SemR P W'} {call : Op P → SM P W → Res (SM P W) Bool}
  {call' : Op P → SM P W' → Res (SM P W') Bool} (hs : sem.Sim ρ θ sem') (hc : CallSim ρ θ call call')
include hs hc

omit hs in
theorem runProg_sim {α : Type} {pr : Prog P W α} {pr' : Prog P W' α} (h : pr.Sim ρ θ pr') :
    ∀ (s : SM P W) (w' : W'), (runProg call pr s).Sim ρ (runProg call' pr' (s.rebase w')) := by
  induction h with
  | ret a p h => intro s w'; exact ⟨rfl, _, rfl, h⟩
  | throw x h => intro s w'; exact ⟨rfl, _, rfl, h⟩
  | ub => intro s w'; rfl
  | @call op op' w w1 k k' h hk ih =>
    intro s w'
    have := hc op op' { s with world := w } w1 h
    unfold runProg
    show Res.Sim ρ _ (match call' op' (SM.rebase { s with world := w } w1) with
      | .ok b s' => _ | .throw x s' => _ | .ub u => _ | .timeout => _)
    cases h1 : call op { s with world := w } <;>
      cases h2 : call' op' (SM.rebase { s with world := w } w1) <;> rw [h1, h2] at this <;>
      first | exact this.elim | exact this | skip
    · obtain ⟨rfl, v, rfl, hv⟩ := this
      exact ih _ _ _ hv _ _
    · obtain ⟨rfl, v, rfl, hv⟩ := this
      exact ih _ _ _ hv _ _

omit hs in
theorem runCb_sim {α : Type} {pr : Prog P W α} {pr' : Prog P W' α} (h : pr.Sim ρ θ pr')
    (rec : Option α → Call P) (s : SM P W) (w' : W') :
    (runCb call pr rec s).Sim ρ (runCb call' pr' rec (s.rebase w')) := by
  have := runProg_sim hc h s w'
  unfold runCb
  cases h1 : runProg call pr s <;> cases h2 : runProg call' pr' (s.rebase w') <;> rw [h1, h2] at this <;>
    first | exact this.elim | exact this | skip
  · obtain ⟨rfl, v, rfl, hv⟩ := this
    exact ⟨rfl, v, rfl, hv⟩
  · obtain ⟨rfl, v, rfl, hv⟩ := this
    exact ⟨rfl, v, rfl, hv⟩

omit hc in
theorem objOkR_sim {s : SM P W} {w' : W'} (h : ρ s.world w') (st : StTy) :
    objOkR M sem st s = objOkR M sem' st (s.rebase w') := by
  unfold objOkR
  rw [hs.alive st _ _ h]
  rfl

theorem execGuardR_sim {s : SM P W} {w' : W'} (h : ρ s.world w') (x : Exec) (ev : EventTy) (p : P) :
    (execGuardR M sem call x ev p s).Sim ρ (execGuardR M sem' call' x ev p (s.rebase w')) := by
  unfold execGuardR
  split
  · exact ⟨rfl, w', rfl, h⟩
  · dsimp only
    rw [objOkR_sim hs h, objOkR_sim hs h]
    generalize (if x.internal = true then x.src else x.dst) = dst
    split
    · exact runCb_sim hc (hs.guard _ _ _ _ _ h) _ _ _
    · rfl

theorem runCbsR_sim (args : Args) : ∀ (cs : List (Phase × Cb)) (p : P) (s : SM P W) (w' : W'),
    ρ s.world w' → (runCbsR sem call args cs p s).Sim ρ (runCbsR sem' call' args cs p (s.rebase w')) := by
  intro cs
  induction cs with
  | nil => intro p s w' h; exact ⟨rfl, w', rfl, h⟩
  | cons c cs ih =>
    intro p s w' h
    exact (runCb_sim hc (hs.action _ _ _ _ _ h) _ _ _).bind fun up s w' h => ih _ _ _ h

theorem execActionR_sim {s : SM P W} {w' : W'} (h : ρ s.world w') (x : Exec) (ev : EventTy) (p : P) :
    (execActionR M sem call x ev p s).Sim ρ (execActionR M sem' call' x ev p (s.rebase w')) := by
  unfold execActionR
  split
  · exact ⟨rfl, w', rfl, h⟩
  · rw [objOkR_sim hs h]
    split
    · exact runCbsR_sim hs hc _ _ _ _ _ h
    · rfl

theorem fireR_sim {s : SM P W} {w' : W'} (h : ρ s.world w') (r : Nat) (ev : EventTy) (e : Entry) (x : Exec)
    (p : P) : (fireR M sem call r ev e x p s).Sim ρ (fireR M sem' call' r ev e x p (s.rebase w')) :=
  (updateState_sim h r e).bind fun _ _ _ h => execActionR_sim hs hc h x ev p

theorem tryEntriesR_sim (r : Nat) (ev : EventTy) (c n : Nat) : ∀ (es : List Entry) (p : P) (s : SM P W)
    (w' : W'), ρ s.world w' →
    (tryEntriesR M sem call r ev c n es p s).Sim ρ (tryEntriesR M sem' call' r ev c n es p (s.rebase w')) := by
  intro es
  induction es with
  | nil => intro p s w' h; exact ⟨rfl, w', rfl, h⟩
  | cons e es ih =>
    intro p s w' h
    unfold tryEntriesR
    split
    · exact ⟨rfl, w', rfl, h⟩
    · split
      · rfl
      · refine (execGuardR_sim hs hc h _ _ _).bind fun gp s w' h => ?_
        split
        · exact (fireR_sim hs hc h _ _ _ _ _).bind fun _ _ w' h => ⟨rfl, w', rfl, h⟩
        · show Res.Sim ρ _ (if (s.table ev c).length = n then _ else _)
          split
          · exact ih _ _ _ h
          · rfl

theorem regionStepR_sim {s : SM P W} {w' : W'} (h : ρ s.world w') (r : Nat) (ev : EventTy) (p : P) :
    (regionStepR M sem call r ev p s).Sim ρ (regionStepR M sem' call' r ev p (s.rebase w')) := by
  unfold regionStepR
  refine (readCur_sim h r).bind fun c s w' h => ?_
  split
  · show Res.Sim ρ _ (match s.table ev c with | [] => _ | es => _)
    generalize s.table ev c = o
    cases o
    · exact ⟨rfl, w', rfl, h⟩
    · exact tryEntriesR_sim hs hc _ _ _ _ _ _ _ _ h
  · rfl

theorem regionLoopR_sim (ev : EventTy) : ∀ (rs : List Nat) (agf ati : Bool) (p : P) (s : SM P W) (w' : W'),
    ρ s.world w' →
    (regionLoopR M sem call ev rs agf ati p s).Sim ρ (regionLoopR M sem' call' ev rs agf ati p (s.rebase w')) := by
  intro rs
  induction rs with
  | nil => intro agf ati p s w' h; exact ⟨rfl, w', rfl, h⟩
  | cons r rs ih =>
    intro agf ati p s w' h
    refine (regionStepR_sim hs hc h r ev p).bind fun op s w' h => ?_
    split
    · exact ih _ _ _ _ _ h
    · exact ih _ _ _ _ _ h
    · exact ih _ _ _ _ _ h
    · exact ⟨rfl, w', rfl, h⟩

theorem tryAnonR_sim (r c n : Nat) : ∀ (es : List Entry) (p : P) (s : SM P W) (w' : W'), ρ s.world w' →
    (tryAnonR M sem call r c n es p s).Sim ρ (tryAnonR M sem' call' r c n es p (s.rebase w')) := by
  intro es
  induction es with
  | nil => intro p s w' h; exact ⟨rfl, w', rfl, h⟩
  | cons e es ih =>
    intro p s w' h
    unfold tryAnonR
    split
    · rfl
    · refine (execGuardR_sim hs hc h _ _ _).bind fun gp s w' h => ?_
      split
      · exact (fireR_sim hs hc h _ _ _ _ _).bind fun _ _ w' h => ⟨rfl, w', rfl, h⟩
      · show Res.Sim ρ _ (if (s.table .none c).length = n then _ else _)
        split
        · exact ih _ _ _ h
        · rfl

theorem anonRoundR_sim : ∀ (rs : List Nat) (agf : Bool) (p : P) (s : SM P W) (w' : W'), ρ s.world w' →
    (anonRoundR M sem call rs agf p s).Sim ρ (anonRoundR M sem' call' rs agf p (s.rebase w')) := by
  intro rs
  induction rs with
  | nil => intro agf p s w' h; exact ⟨rfl, w', rfl, h⟩
  | cons r rs ih =>
    intro agf p s w' h
    refine (readCur_sim h r).bind fun c s w' h => ?_
    split
    · show Res.Sim ρ _ (match s.table .none c with | [] => _ | es => _)
      generalize s.table .none c = o
      cases o
      · exact ⟨rfl, w', rfl, h⟩
      · exact (tryAnonR_sim hs hc _ _ _ _ _ _ _ h).bind fun fp s w' h => ih _ _ _ _ h
    · rfl

theorem anonLoopR_sim : ∀ (fuel : Nat) (p : P) (s : SM P W) (w' : W'), ρ s.world w' →
    (anonLoopR M sem call fuel p s).Sim ρ (anonLoopR M sem' call' fuel p (s.rebase w')) := by
  intro fuel
  induction fuel with
  | zero => intro p s w' h; trivial
  | succ fuel ih =>
    intro p s w' h
    refine (anonRoundR_sim hs hc _ _ _ _ _ h).bind fun op s w' h => ?_
    split
    · exact ⟨rfl, w', rfl, h⟩
    · exact ⟨rfl, w', rfl, h⟩
    · exact ih _ _ _ h

theorem processAnonR_sim (fuel : Nat) {s : SM P W} {w' : W'} (h : ρ s.world w') :
    (processAnonR M sem call fuel s).Sim ρ (processAnonR M sem' call' fuel (s.rebase w')) := by
  unfold processAnonR
  split
  · rw [hs.nonePayload]; exact anonLoopR_sim hs hc _ _ _ _ h
  · exact ⟨rfl, w', rfl, h⟩

theorem processInternalR_sim (fuel : Nat) (ev : EventTy) (p : P) {s : SM P W} {w' : W'} (h : ρ s.world w') :
    (processInternalR M sem call fuel ev p s).Sim ρ (processInternalR M sem' call' fuel ev p (s.rebase w')) := by
  refine (regionLoopR_sim hs hc ev _ _ _ _ _ _ h).bind fun op s w' h => ?_
  split
  · exact ⟨rfl, w', rfl, h⟩
  · split
    · exact ⟨rfl, w', rfl, h⟩
    · split
      · exact ⟨rfl, w', rfl, h⟩
      · exact (processAnonR_sim hs hc fuel h).bind fun _ s w' h => ⟨rfl, w', rfl, h⟩

theorem processDeferredR_sim (fuel : Nat) {s : SM P W} {w' : W'} (h : ρ s.world w') :
    (processDeferredR M sem call fuel s).Sim ρ (processDeferredR M sem' call' fuel (s.rebase w')) := by
  unfold processDeferredR
  split
  · show Res.Sim ρ _ (match s.queue with | [] => _ | (e, p) :: q => _)
    rcases hq : s.queue with _ | ⟨⟨e, p⟩, q⟩
    · exact ⟨rfl, w', rfl, h⟩
    · exact (processInternalR_sim hs hc fuel e p (s := { s with queue := q }) h).bind
        fun _ s w' h => ⟨rfl, w', rfl, h⟩
  · exact ⟨rfl, w', rfl, h⟩

theorem callHandlerR_sim (ev : EventTy) (p : P) {s : SM P W} {w' : W'} (h : ρ s.world w') :
    (callHandlerR M sem call ev p s).Sim ρ (callHandlerR M sem' call' ev p (s.rebase w')) := by
  unfold callHandlerR
  split
  · exact ⟨rfl, w', rfl, h⟩
  · refine (readCur_sim h 0).bind fun c s w' h => ?_
    split
    · show Res.Sim ρ _ (match s.handlers ev c with | none => _ | some (st, d) => _)
      rcases s.handlers ev c with _ | ⟨st, d⟩
      · rfl
      · dsimp only
        rw [objOkR_sim hs h]
        split
        · exact (runCb_sim hc (hs.handler _ _ _ _ _ _ _ h) _ _ _).bind fun up s w' h => ⟨rfl, w', rfl, h⟩
        · rfl
    · exact ⟨rfl, w', rfl, h⟩

/-- `process_event` does the same in related worlds. -/
theorem processEventR_sim (fuel : Nat) (ev : EventTy) (p : P) {s : SM P W} {w' : W'} (h : ρ s.world w') :
    (processEventR M sem call fuel ev p s).Sim ρ (processEventR M sem' call' fuel ev p (s.rebase w')) := by
  refine (processInternalR_sim hs hc fuel ev p h).bind fun rp s w' h => ?_
  split
  · exact (callHandlerR_sim hs hc ev _ h).bind fun _ s w' h => ⟨rfl, w', rfl, h⟩
  · exact ⟨rfl, w', rfl, h⟩
  · exact ⟨rfl, w', rfl, h⟩
  · exact (processDeferredR_sim hs hc fuel h).bind fun _ s w' h => ⟨rfl, w', rfl, h⟩

end
end Hsm
