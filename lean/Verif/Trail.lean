import Verif.Sim

/-!
# Callbacks that amount to the same

As Sim.lean, but what callbacks do is compared by its outcome, not call by call: a callback may use other parts
of a program on the one side, and have the same effects at once on the other.
-/

namespace Hsm

variable {P W W' : Type}

/-- The same outcome in related worlds, up to which exception is thrown; nothing is said if the first is undefined
in a way allowed by `V`, but that it is undefined on both sides unless `X`, or if the first does not end, unless `T` fails. -/
def Res.Tracks {α : Type} (T X : Prop) (V : UB → Prop) (ρ : W → W' → Prop) : Res (SM P W) α → Res (SM P W') α → Prop
  | .ok a s, .ok a' s' => a = a' ∧ s.Sim ρ s'
  | .throw _ s, .throw _ s' => s.Sim ρ s'
  | .ub u, .ub u' => u = u' ∨ V u
  | .ub u, _ => X ∧ V u
  | .timeout, .timeout => True
  | .timeout, _ => T
  | _, _ => False

/-- Callbacks that amount to the same in related worlds. -/
structure SemR.Tracks (T X : Prop) (V : UB → Prop) (ρ : W → W' → Prop) (sem : SemR P W) (call : Op P → SM P W → Res (SM P W) Bool)
    (sem' : SemR P W') (call' : Op P → SM P W' → Res (SM P W') Bool) : Prop where
  guard : ∀ g a p (s : SM P W) w', ρ s.world w' → (runProg call (sem.guard g a p s.world) s).Tracks T X V ρ
    (runProg call' (sem'.guard g a p w') (s.rebase w'))
  action : ∀ c a p (s : SM P W) w', ρ s.world w' → (runProg call (sem.action c a p s.world) s).Tracks T X V ρ
    (runProg call' (sem'.action c a p w') (s.rebase w'))
  handler : ∀ h e st d p (s : SM P W) w', ρ s.world w' →
    (runProg call (sem.handler h e st d p s.world) s).Tracks T X V ρ
    (runProg call' (sem'.handler h e st d p w') (s.rebase w'))
  alive : ∀ st w w', ρ w w' → sem.alive st w = sem'.alive st w'
  nonePayload : sem.nonePayload = sem'.nonePayload

/-- Callbacks that do as the second ones, if `X` only wherever those are defined. -/
structure Sem.Fills (X : Prop) (sem sem' : Sem P W) : Prop where
  guard : ∀ g a p w, X ∧ sem'.guard g a p w = .ub ∨ sem.guard g a p w = sem'.guard g a p w
  action : ∀ c a p w, X ∧ sem'.action c a p w = .ub ∨ sem.action c a p w = sem'.action c a p w
  handler : ∀ c e st d p w, X ∧ sem'.handler c e st d p w = .ub ∨
    sem.handler c e st d p w = sem'.handler c e st d p w
  alive : ∀ st w, sem.alive st w = sem'.alive st w
  nonePayload : sem.nonePayload = sem'.nonePayload

theorem Sem.Fills.refl {X : Prop} (sem : Sem P W) : sem.Fills X sem :=
  ⟨fun _ _ _ _ => Or.inr rfl, fun _ _ _ _ => Or.inr rfl, fun _ _ _ _ _ _ => Or.inr rfl, fun _ _ => rfl, rfl⟩

variable {T X : Prop} {V : UB → Prop} {ρ : W → W' → Prop}

theorem Res.Tracks.bind {α β : Type} {r : Res (SM P W) α} {r' : Res (SM P W') α}
    {f : α → SM P W → Res (SM P W) β} {f' : α → SM P W' → Res (SM P W') β} (h : r.Tracks T X V ρ r')
    (hf : ∀ a s w', ρ s.world w' → (f a s).Tracks T X V ρ (f' a (s.rebase w'))) :
    (r.bind f).Tracks T X V ρ (r'.bind f') := by
  cases r with
  | ok a s =>
    cases r' <;> first | exact h.elim | skip
    obtain ⟨rfl, w', rfl, hw⟩ := h
    exact hf _ _ _ hw
  | throw x s => cases r' <;> first | exact h.elim | exact h
  | ub u =>
    cases r' with
    | ok a s => show Res.Tracks T X V ρ (.ub u) (f' a s); cases f' a s <;> first | exact h | exact Or.inr h.2
    | throw x s => exact h
    | ub u => exact h
    | timeout => exact h
  | timeout =>
    cases r' with
    | ok a s => show Res.Tracks T X V ρ .timeout (f' a s); cases f' a s <;> first | exact h | trivial
    | throw x s => exact h
    | ub u => exact h
    | timeout => trivial

/-- What does the same amounts to the same. -/
theorem Res.Sim.tracks {α : Type} {r : Res (SM P W) α} {r' : Res (SM P W') α} (h : r.Sim ρ r') : r.Tracks T X V ρ r' := by
  cases r <;> cases r' <;> first | exact h.elim | exact h.2 | exact h | trivial | exact Or.inl h

section
variable {M : Machine} {sem : SemR P W} {sem' : SemR P W'} {call : Op P → SM P W → Res (SM P W) Bool}
  {call' : Op P → SM P W' → Res (SM P W') Bool} (hs : sem.Tracks T X V ρ call sem' call')
include hs

omit hs in
theorem runCb_tracks {α : Type} {pr : Prog P W α} {pr' : Prog P W' α} {s : SM P W} {w' : W'}
    (h : (runProg call pr s).Tracks T X V ρ (runProg call' pr' (s.rebase w'))) (rec : Option α → Call P) :
    (runCb call pr rec s).Tracks T X V ρ (runCb call' pr' rec (s.rebase w')) := by
  unfold runCb
  revert h
  generalize runProg call pr s = r
  generalize runProg call' pr' (s.rebase w') = r'
  intro h
  cases r <;> cases r' <;> first | exact h.elim | exact h | trivial | skip
  · obtain ⟨rfl, v, rfl, hv⟩ := h
    exact ⟨rfl, v, rfl, hv⟩
  · obtain ⟨v, rfl, hv⟩ := h
    exact ⟨v, rfl, hv⟩

theorem objOkR_tracks {s : SM P W} {w' : W'} (h : ρ s.world w') (st : StTy) :
    objOkR M sem st s = objOkR M sem' st (s.rebase w') := by
  unfold objOkR
  rw [hs.alive st _ _ h]
  rfl

theorem execGuardR_tracks {s : SM P W} {w' : W'} (h : ρ s.world w') (x : Exec) (ev : EventTy) (p : P) :
    (execGuardR M sem call x ev p s).Tracks T X V ρ (execGuardR M sem' call' x ev p (s.rebase w')) := by
  unfold execGuardR
  split
  · exact ⟨rfl, w', rfl, h⟩
  · dsimp only
    rw [objOkR_tracks hs h, objOkR_tracks hs h]
    generalize (if x.internal = true then x.src else x.dst) = dst
    split
    · exact runCb_tracks (hs.guard _ _ _ _ _ h) _
    · exact Or.inl rfl

theorem runCbsR_tracks (args : Args) : ∀ (cs : List (Phase × Cb)) (p : P) (s : SM P W) (w' : W'),
    ρ s.world w' → (runCbsR sem call args cs p s).Tracks T X V ρ (runCbsR sem' call' args cs p (s.rebase w')) := by
  intro cs
  induction cs with
  | nil => intro p s w' h; exact ⟨rfl, w', rfl, h⟩
  | cons c cs ih =>
    intro p s w' h
    exact (runCb_tracks (hs.action _ _ _ _ _ h) _).bind fun up s w' h => ih _ _ _ h

theorem execActionR_tracks {s : SM P W} {w' : W'} (h : ρ s.world w') (x : Exec) (ev : EventTy) (p : P) :
    (execActionR M sem call x ev p s).Tracks T X V ρ (execActionR M sem' call' x ev p (s.rebase w')) := by
  unfold execActionR
  split
  · exact ⟨rfl, w', rfl, h⟩
  · rw [objOkR_tracks hs h]
    split
    · exact runCbsR_tracks hs _ _ _ _ _ h
    · exact Or.inl rfl

theorem fireR_tracks {s : SM P W} {w' : W'} (h : ρ s.world w') (r : Nat) (ev : EventTy) (e : Entry) (x : Exec)
    (p : P) : (fireR M sem call r ev e x p s).Tracks T X V ρ (fireR M sem' call' r ev e x p (s.rebase w')) :=
  (updateState_sim h r e).tracks.bind fun _ _ _ h => execActionR_tracks hs h x ev p

theorem tryEntriesR_tracks (r : Nat) (ev : EventTy) (c n : Nat) : ∀ (es : List Entry) (p : P) (s : SM P W)
    (w' : W'), ρ s.world w' →
    (tryEntriesR M sem call r ev c n es p s).Tracks T X V ρ (tryEntriesR M sem' call' r ev c n es p (s.rebase w')) := by
  intro es
  induction es with
  | nil => intro p s w' h; exact ⟨rfl, w', rfl, h⟩
  | cons e es ih =>
    intro p s w' h
    unfold tryEntriesR
    split
    · exact ⟨rfl, w', rfl, h⟩
    · split
      · exact Or.inl rfl
      · refine (execGuardR_tracks hs h _ _ _).bind fun gp s w' h => ?_
        split
        · exact (fireR_tracks hs h _ _ _ _ _).bind fun _ _ w' h => ⟨rfl, w', rfl, h⟩
        · show Res.Tracks T X V ρ _ (if (s.table ev c).length = n then _ else _)
          split
          · exact ih _ _ _ h
          · exact Or.inl rfl

theorem regionStepR_tracks {s : SM P W} {w' : W'} (h : ρ s.world w') (r : Nat) (ev : EventTy) (p : P) :
    (regionStepR M sem call r ev p s).Tracks T X V ρ (regionStepR M sem' call' r ev p (s.rebase w')) := by
  unfold regionStepR
  refine (readCur_sim h r).tracks.bind fun c s w' h => ?_
  split
  · show Res.Tracks T X V ρ _ (match s.table ev c with | [] => _ | es => _)
    generalize s.table ev c = o
    cases o
    · exact ⟨rfl, w', rfl, h⟩
    · exact tryEntriesR_tracks hs _ _ _ _ _ _ _ _ h
  · exact Or.inl rfl

theorem regionLoopR_tracks (ev : EventTy) : ∀ (rs : List Nat) (agf ati : Bool) (p : P) (s : SM P W) (w' : W'),
    ρ s.world w' →
    (regionLoopR M sem call ev rs agf ati p s).Tracks T X V ρ (regionLoopR M sem' call' ev rs agf ati p (s.rebase w')) := by
  intro rs
  induction rs with
  | nil => intro agf ati p s w' h; exact ⟨rfl, w', rfl, h⟩
  | cons r rs ih =>
    intro agf ati p s w' h
    refine (regionStepR_tracks hs h r ev p).bind fun op s w' h => ?_
    split
    · exact ih _ _ _ _ _ h
    · exact ih _ _ _ _ _ h
    · exact ih _ _ _ _ _ h
    · exact ⟨rfl, w', rfl, h⟩

theorem tryAnonR_tracks (r c n : Nat) : ∀ (es : List Entry) (p : P) (s : SM P W) (w' : W'), ρ s.world w' →
    (tryAnonR M sem call r c n es p s).Tracks T X V ρ (tryAnonR M sem' call' r c n es p (s.rebase w')) := by
  intro es
  induction es with
  | nil => intro p s w' h; exact ⟨rfl, w', rfl, h⟩
  | cons e es ih =>
    intro p s w' h
    unfold tryAnonR
    split
    · exact Or.inl rfl
    · refine (execGuardR_tracks hs h _ _ _).bind fun gp s w' h => ?_
      split
      · exact (fireR_tracks hs h _ _ _ _ _).bind fun _ _ w' h => ⟨rfl, w', rfl, h⟩
      · show Res.Tracks T X V ρ _ (if (s.table .none c).length = n then _ else _)
        split
        · exact ih _ _ _ h
        · exact Or.inl rfl

theorem anonRoundR_tracks : ∀ (rs : List Nat) (agf : Bool) (p : P) (s : SM P W) (w' : W'), ρ s.world w' →
    (anonRoundR M sem call rs agf p s).Tracks T X V ρ (anonRoundR M sem' call' rs agf p (s.rebase w')) := by
  intro rs
  induction rs with
  | nil => intro agf p s w' h; exact ⟨rfl, w', rfl, h⟩
  | cons r rs ih =>
    intro agf p s w' h
    refine (readCur_sim h r).tracks.bind fun c s w' h => ?_
    split
    · show Res.Tracks T X V ρ _ (match s.table .none c with | [] => _ | es => _)
      generalize s.table .none c = o
      cases o
      · exact ⟨rfl, w', rfl, h⟩
      · exact (tryAnonR_tracks hs _ _ _ _ _ _ _ h).bind fun fp s w' h => ih _ _ _ _ h
    · exact Or.inl rfl

theorem anonLoopR_tracks : ∀ (fuel : Nat) (p : P) (s : SM P W) (w' : W'), ρ s.world w' →
    (anonLoopR M sem call fuel p s).Tracks T X V ρ (anonLoopR M sem' call' fuel p (s.rebase w')) := by
  intro fuel
  induction fuel with
  | zero => intro p s w' h; trivial
  | succ fuel ih =>
    intro p s w' h
    refine (anonRoundR_tracks hs _ _ _ _ _ h).bind fun op s w' h => ?_
    split
    · exact ⟨rfl, w', rfl, h⟩
    · exact ⟨rfl, w', rfl, h⟩
    · exact ih _ _ _ h

theorem processAnonR_tracks (fuel : Nat) {s : SM P W} {w' : W'} (h : ρ s.world w') :
    (processAnonR M sem call fuel s).Tracks T X V ρ (processAnonR M sem' call' fuel (s.rebase w')) := by
  unfold processAnonR
  split
  · rw [hs.nonePayload]; exact anonLoopR_tracks hs _ _ _ _ h
  · exact ⟨rfl, w', rfl, h⟩

theorem processInternalR_tracks (fuel : Nat) (ev : EventTy) (p : P) {s : SM P W} {w' : W'} (h : ρ s.world w') :
    (processInternalR M sem call fuel ev p s).Tracks T X V ρ (processInternalR M sem' call' fuel ev p (s.rebase w')) := by
  refine (regionLoopR_tracks hs ev _ _ _ _ _ _ h).bind fun op s w' h => ?_
  split
  · exact ⟨rfl, w', rfl, h⟩
  · split
    · exact ⟨rfl, w', rfl, h⟩
    · split
      · exact ⟨rfl, w', rfl, h⟩
      · exact (processAnonR_tracks hs fuel h).bind fun _ s w' h => ⟨rfl, w', rfl, h⟩

theorem processDeferredR_tracks (fuel : Nat) {s : SM P W} {w' : W'} (h : ρ s.world w') :
    (processDeferredR M sem call fuel s).Tracks T X V ρ (processDeferredR M sem' call' fuel (s.rebase w')) := by
  unfold processDeferredR
  split
  · show Res.Tracks T X V ρ _ (match s.queue with | [] => _ | (e, p) :: q => _)
    rcases hq : s.queue with _ | ⟨⟨e, p⟩, q⟩
    · exact ⟨rfl, w', rfl, h⟩
    · exact (processInternalR_tracks hs fuel e p (s := { s with queue := q }) h).bind
        fun _ s w' h => ⟨rfl, w', rfl, h⟩
  · exact ⟨rfl, w', rfl, h⟩

theorem callHandlerR_tracks (ev : EventTy) (p : P) {s : SM P W} {w' : W'} (h : ρ s.world w') :
    (callHandlerR M sem call ev p s).Tracks T X V ρ (callHandlerR M sem' call' ev p (s.rebase w')) := by
  unfold callHandlerR
  split
  · exact ⟨rfl, w', rfl, h⟩
  · refine (readCur_sim h 0).tracks.bind fun c s w' h => ?_
    split
    · show Res.Tracks T X V ρ _ (match s.handlers ev c with | none => _ | some (st, d) => _)
      rcases s.handlers ev c with _ | ⟨st, d⟩
      · exact Or.inl rfl
      · dsimp only
        rw [objOkR_tracks hs h]
        split
        · exact (runCb_tracks (hs.handler _ _ _ _ _ _ _ h) _).bind fun up s w' h => ⟨rfl, w', rfl, h⟩
        · exact Or.inl rfl
    · exact ⟨w', rfl, h⟩

/-- `process_event` does the same in related worlds. -/
theorem processEventR_tracks (fuel : Nat) (ev : EventTy) (p : P) {s : SM P W} {w' : W'} (h : ρ s.world w') :
    (processEventR M sem call fuel ev p s).Tracks T X V ρ (processEventR M sem' call' fuel ev p (s.rebase w')) := by
  refine (processInternalR_tracks hs fuel ev p h).bind fun rp s w' h => ?_
  split
  · exact (callHandlerR_tracks hs ev _ h).bind fun _ s w' h => ⟨rfl, w', rfl, h⟩
  · exact ⟨rfl, w', rfl, h⟩
  · exact ⟨rfl, w', rfl, h⟩
  · exact (processDeferredR_tracks hs fuel h).bind fun _ s w' h => ⟨rfl, w', rfl, h⟩

end
end Hsm
