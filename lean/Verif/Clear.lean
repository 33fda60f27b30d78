import Verif.Gen

/-!
# Plain callbacks invalidate no iterators
-/

namespace Hsm

variable {P W : Type} {M : Machine} {sem : Sem P W}

/-- No loop went on over a table cell that was pushed to. -/
def Res.Clear {σ α : Type} (q : Res σ α) : Prop := q ≠ .ub .iterator

theorem Res.Clear.bind {σ α β : Type} {q : Res σ α} {f : α → σ → Res σ β} (h : q.Clear) (hf : ∀ a s, (f a s).Clear) :
    (q.bind f).Clear := by
  cases q with
  | ok a s => exact hf a s
  | throw x s => exact fun h => nomatch h
  | ub u => exact fun hu => h (by cases hu; rfl)
  | timeout => exact fun h => nomatch h

/-- Cases in which nothing is called. -/
macro "clear_cases" : tactic => `(tactic| ((repeat' split) <;> (intro h; cases h)))

theorem readCur_clear (r : Nat) (s : SM P W) : (readCur r s).Clear := by unfold readCur; clear_cases

theorem currentParent_clear (s : SM P W) : (currentParent M s).Clear :=
  (readCur_clear 0 s).bind fun _ _ => fun h => nomatch h

theorem updateRegions_clear (s : SM P W) : (updateRegions M s).Clear := by
  unfold updateRegions
  split
  · exact (currentParent_clear s).bind fun _ _ => by clear_cases
  · exact fun h => nomatch h

theorem writeCur_clear (r c : Nat) (s : SM P W) : (writeCur r c s).Clear := by unfold writeCur; clear_cases

theorem saveHistory_clear (r : Nat) (s : SM P W) : (saveHistory M r s).Clear :=
  (currentParent_clear s).bind fun _ _ => (readCur_clear _ _).bind fun _ _ => by clear_cases

theorem readHistory_clear (p r : Nat) (s : SM P W) : (readHistory p r s).Clear := by unfold readHistory; clear_cases

theorem moveState_clear (r : Nat) (e : Entry) (s : SM P W) : (moveState M r e s).Clear := by
  unfold moveState
  split
  · refine (saveHistory_clear r s).bind fun _ s => Res.Clear.bind ?_ fun _ _ => updateRegions_clear _
    split
    · exact (readHistory_clear _ _ _).bind fun _ _ => writeCur_clear _ _ _
    · exact writeCur_clear _ _ _
  · exact (writeCur_clear _ _ _).bind fun _ _ => updateRegions_clear _

theorem updateState_clear (r : Nat) (e : Entry) (s : SM P W) : (updateState M r e s).Clear := by
  unfold updateState
  split
  · exact fun h => nomatch h
  · exact (moveState_clear r e s).bind fun _ _ => fun h => nomatch h

theorem execGuard_clear (x : Exec) (ev : EventTy) (p : P) (s : SM P W) : (execGuard M sem x ev p s).Clear := by
  unfold execGuard
  cases x.guard with
  | none => exact fun h => nomatch h
  | some g =>
    show (if _ then _ else _ : Res (SM P W) (Bool × P)).Clear
    by_cases h : (objOk M sem x.src s && objOk M sem (if x.internal then x.src else x.dst) s) = true
    · rw [if_pos h]
      split <;> (intro h; cases h)
    · rw [if_neg h]
      intro h; cases h

theorem runCbs_clear (args : Args) : ∀ (cs : List (Phase × Cb)) (p : P) (s : SM P W), (runCbs sem args cs p s).Clear := by
  intro cs
  induction cs with
  | nil => intro p s; exact fun h => nomatch h
  | cons c cs ih =>
    intro p s
    unfold runCbs
    split
    · exact ih _ _
    · exact fun h => nomatch h
    · exact fun h => nomatch h

theorem fire_clear (r : Nat) (ev : EventTy) (e : Entry) (x : Exec) (p : P) (s : SM P W) :
    (fire M sem r ev e x p s).Clear := by
  refine (updateState_clear r e s).bind fun _ s => ?_
  unfold execAction
  split
  · exact fun h => nomatch h
  · split
    · exact runCbs_clear _ _ _ _
    · exact fun h => nomatch h

theorem tryEntries_clear (r : Nat) (ev : EventTy) : ∀ (es : List Entry) (p : P) (s : SM P W),
    (tryEntries M sem r ev es p s).Clear := by
  intro es
  induction es with
  | nil => intro p s; exact fun h => nomatch h
  | cons e es ih =>
    intro p s
    unfold tryEntries
    split
    · exact fun h => nomatch h
    · split
      · exact fun h => nomatch h
      · refine (execGuard_clear _ _ _ _).bind fun gp s => ?_
        split
        · exact (fire_clear _ _ _ _ _ _).bind fun _ _ => fun h => nomatch h
        · exact ih _ _

theorem lookup_clear (ev : EventTy) (r : Nat) (s : SM P W) : (lookup M ev r s).Clear :=
  (readCur_clear r s).bind fun _ _ => by clear_cases

theorem regionLoop_clear (ev : EventTy) : ∀ (rs : List Nat) (agf ati : Bool) (p : P) (s : SM P W),
    (regionLoop M sem ev rs agf ati p s).Clear := by
  intro rs
  induction rs with
  | nil => intro _ _ p s; exact fun h => nomatch h
  | cons r rs ih =>
    intro agf ati p s
    unfold regionLoop
    refine Res.Clear.bind ?_ fun op s => ?_
    · refine (lookup_clear ev r s).bind fun es s => ?_
      split
      · exact fun h => nomatch h
      · exact tryEntries_clear _ _ _ _ _
    · split
      · exact ih _ _ _ _
      · exact ih _ _ _ _
      · exact ih _ _ _ _
      · exact fun h => nomatch h

theorem tryAnon_clear (r : Nat) : ∀ (es : List Entry) (p : P) (s : SM P W), (tryAnon M sem r es p s).Clear := by
  intro es
  induction es with
  | nil => intro p s; exact fun h => nomatch h
  | cons e es ih =>
    intro p s
    unfold tryAnon
    split
    · exact fun h => nomatch h
    · refine (execGuard_clear _ _ _ _).bind fun gp s => ?_
      split
      · exact (fire_clear _ _ _ _ _ _).bind fun _ _ => fun h => nomatch h
      · exact ih _ _

theorem anonRound_clear : ∀ (rs : List Nat) (agf : Bool) (p : P) (s : SM P W), (anonRound M sem rs agf p s).Clear := by
  intro rs
  induction rs with
  | nil => intro _ p s; exact fun h => nomatch h
  | cons r rs ih =>
    intro agf p s
    refine (lookup_clear .none r s).bind fun es s => ?_
    split
    · exact fun h => nomatch h
    · exact (tryAnon_clear _ _ _ _).bind fun fp s => ih _ _ _

theorem anonLoop_clear : ∀ (fuel : Nat) (p : P) (s : SM P W), (anonLoop M sem fuel p s).Clear := by
  intro fuel
  induction fuel with
  | zero => intro p s; exact fun h => nomatch h
  | succ fuel ih =>
    intro p s
    refine (anonRound_clear _ _ _ _).bind fun op s => ?_
    split
    · exact fun h => nomatch h
    · exact fun h => nomatch h
    · exact ih _ _

theorem processInternal_clear (fuel : Nat) (ev : EventTy) (p : P) (s : SM P W) :
    (processInternal M sem fuel ev p s).Clear := by
  refine (regionLoop_clear _ _ _ _ _ _).bind fun op s => ?_
  split
  · exact fun h => nomatch h
  · split
    · exact fun h => nomatch h
    · split
      · exact fun h => nomatch h
      · refine Res.Clear.bind ?_ fun _ _ => fun h => nomatch h
        unfold processAnon
        split
        · exact anonLoop_clear _ _ _
        · exact fun h => nomatch h

theorem callHandler_clear (ev : EventTy) (p : P) (s : SM P W) : (callHandler M sem ev p s).Clear := by
  unfold callHandler
  split
  · exact fun h => nomatch h
  · exact (readCur_clear 0 s).bind fun _ _ => by clear_cases

/-- Plain callbacks invalidate no iterators. -/
theorem step_clear (fuel : Nat) (op : Op P) (s : SM P W) : (step M sem fuel op s).Clear := by
  cases op with
  | process ev p =>
    refine (processInternal_clear fuel ev p s).bind fun rp s => ?_
    split
    · exact (callHandler_clear _ _ _).bind fun _ _ => fun h => nomatch h
    · exact fun h => nomatch h
    · exact fun h => nomatch h
    · refine Res.Clear.bind ?_ fun _ _ => fun h => nomatch h
      unfold processDeferred
      split
      · split
        · exact fun h => nomatch h
        · exact (processInternal_clear _ _ _ _).bind fun _ _ => fun h => nomatch h
      · exact fun h => nomatch h
  | set r p st =>
    refine Res.Clear.bind ?_ fun _ _ => fun h => nomatch h
    unfold setOp; clear_cases
  | setDependency d =>
    refine Res.Clear.bind ?_ fun _ _ => fun h => nomatch h
    unfold setDependency; clear_cases

/-! ## The amalgamated header -/

theorem anonRoundG_clear : ∀ (rs : List Nat) (agf : Bool) (s : SM P W), (anonRoundG M sem rs agf s).Clear := by
  intro rs
  induction rs with
  | nil => intro _ s; exact fun h => nomatch h
  | cons r rs ih =>
    intro agf s
    refine (lookup_clear .none r s).bind fun es s => ?_
    split
    · exact fun h => nomatch h
    · exact (tryAnon_clear _ _ _ _).bind fun fp s => ih _ _

theorem anonLoopG_clear : ∀ (fuel : Nat) (s : SM P W), (anonLoopG M sem fuel s).Clear := by
  intro fuel
  induction fuel with
  | zero => intro s; exact fun h => nomatch h
  | succ fuel ih =>
    intro s
    refine (anonRoundG_clear _ _ _).bind fun op s => ?_
    split
    · exact fun h => nomatch h
    · exact fun h => nomatch h
    · exact ih _

theorem processInternalG_clear (fuel : Nat) (ev : EventTy) (p : P) (s : SM P W) :
    (processInternalG M sem fuel ev p s).Clear := by
  refine (regionLoop_clear _ _ _ _ _ _).bind fun op s => ?_
  split
  · exact fun h => nomatch h
  · split
    · exact fun h => nomatch h
    · split
      · exact fun h => nomatch h
      · refine Res.Clear.bind ?_ fun _ _ => fun h => nomatch h
        unfold processAnonG
        split
        · exact anonLoopG_clear _ _
        · exact fun h => nomatch h

/-- Plain callbacks invalidate no iterators. -/
theorem stepG_clear (fuel : Nat) (op : OpG P) (s : SM P W) : (stepG M sem fuel op s).Clear := by
  cases op with
  | process ev p =>
    refine (processInternalG_clear fuel ev p s).bind fun rp s => ?_
    split
    · unfold processDeferredG
      split
      · split
        · exact fun h => nomatch h
        · exact (processInternalG_clear _ _ _ _).bind fun _ _ => fun h => nomatch h
      · exact fun h => nomatch h
    · exact (callHandler_clear _ _ _).bind fun _ _ => fun h => nomatch h
  | setDependency d =>
    show (setDependencyG M d s).Clear
    unfold setDependencyG; clear_cases

end Hsm
