import Verif.Systems

/-!
# Callbacks that ask machines where they are

In `Systems.lean` callbacks make calls that change machines.  Here they may also call `is`, `parent_is` and
`status` of any machine, also of one that is just running, and decide by the answer what to do next.
-/

namespace Hsm

/-! ## Model -/

/-- Questions to a machine: `is(state)`, `is(parent, state)`, `is(region, parent, state)`, `parent_is(parent)`,
and whether `status()` says `l`.  Simplification: `status()` is compared with every list instead of returned.
(sm.h:109-130, 156-167) -/
inductive Question
  | state (st : StTy)
  | parent (p : Name) (st : StTy)
  | region (r : Nat) (p : Name) (st : StTy)
  | within (p : Name)
  | text (l : List StatusRec)
deriving DecidableEq

section
variable {ι P W : Type}

/-- The answer of a machine. (sm.h:109-130, 156-167) -/
def Question.put (M : Machine) : Question → SM P W → Res (SM P W) Bool
  | .state st, s => isState M st s
  | .parent p st, s => isParent M p st s
  | .region r p st, s => isRegion M r p st s
  | .within p, s => parentIs M p s
  | .text l, s => (status M s).bind fun l' s => .ok (decide (l' = l)) s

/-- What a callback does, as `SProg`: it may also ask. (callbacks that refer to `sm` objects: sm.h:47) -/
inductive AProg (ι P W α : Type)
  | ret (a : α) (p : P) (w : W)
  | throw (x : Exn) (w : W)
  | ub
  | call (i : ι) (op : Op P) (w : W) (k : Reply → W → AProg ι P W α)
  | ask (i : ι) (q : Question) (w : W) (k : Reply → W → AProg ι P W α)

/-- The user's code, as `SemS`. (dispatch_table.h:54-162) -/
structure SemA (ι P W : Type) where
  guard : ι → Cb → Args → P → W → AProg ι P W Bool
  action : ι → Cb → Args → P → W → AProg ι P W Unit
  handler : ι → Cb → EventTy → StTy → Dep → P → W → AProg ι P W Unit
  alive : ι → StTy → W → Bool
  nonePayload : ι → P

/-- Whom a callback addresses: a machine to change it, or a machine to ask it.  Only the first have members
that matter. (sm.h:88-173) -/
abbrev Wire (ι : Type) := ι ⊕ (ι × Question)

/-- The machine at the other end. (sm.h:88-173) -/
def Wire.owner : Wire ι → ι
  | .inl i => i
  | .inr x => x.1

/-- A callback, with questions as calls of lines; the call then says nothing. (as `AProg`) -/
def AProg.lines {α : Type} : AProg ι P W α → SProg (Wire ι) P W α
  | .ret a p w => .ret a p w
  | .throw x w => .throw x w
  | .ub => .ub
  | .call i op w k => .call (.inl i) op w fun r w => (k r w).lines
  | .ask i q w k => .call (.inr (i, q)) (.setDependency 0) w fun r w => (k r w).lines

/-- The same for all callbacks. (dispatch_table.h:54-162) -/
def SemA.lines (sem : SemA ι P W) : SemS (Wire ι) P W where
  guard l g a p w := (sem.guard l.owner g a p w).lines
  action l c a p w := (sem.action l.owner c a p w).lines
  handler l c e st d p w := (sem.handler l.owner c e st d p w).lines
  alive l := sem.alive l.owner
  nonePayload l := sem.nonePayload l.owner

/-- The outcome of a question: the program is as it was. (sm.h:109-130, 156-167) -/
def Res.told {σ : Type} (h : Hub ι P W) : Res σ Bool → Res (Hub ι P W) Bool
  | .ok b _ => .ok b h
  | .throw x _ => .throw x h
  | .ub u => .ub u
  | .timeout => .timeout

variable [DecidableEq ι]

variable (Ms : ι → Machine) (sem : SemA ι P W)

/-- A call or a question; calls from callbacks are nested at most `n` deep. (sm.h:88-173) -/
def stepL (fuel : Nat) : Nat → Wire ι → Op P → Hub (Wire ι) P W → Res (Hub (Wire ι) P W) Bool
  | 0, .inl _, _, _ => .timeout
  | n + 1, .inl i, op, h =>
    (match op with
     | .process ev p =>
       processEventR (Ms i) (sem.lines.at (.inl i) (.process ev p)) (nested (stepL fuel n) (.inl i)) fuel ev p
         (h.fetch (.inl i))
     | .set r p st => (setOp (Ms i) r p st (h.fetch (.inl i))).bind fun _ s => .ok true s
     | .setDependency d =>
       (setDependency (Ms i) d (h.fetch (.inl i))).bind fun _ s => .ok true s).home (.inl i)
  | _, .inr (i, q), _, h => (q.put (Ms i) (h.fetch (.inl i))).told { h with request := none }

end

/-! ## Specification -/

section
variable {ι P W : Type}

/-- Every call satisfies `Q`, and nothing undefined is done unless `U`; questions are free. -/
def AProg.Good {α : Type} (U : Prop) (Q : ι → Op P → Prop) : AProg ι P W α → Prop
  | .ret _ _ _ => True
  | .throw _ _ => True
  | .ub => U
  | .call i op _ k => Q i op ∧ ∀ r w, (k r w).Good U Q
  | .ask _ _ _ k => ∀ r w, (k r w).Good U Q

/-- The same for all callbacks. -/
structure SemA.Good (sem : SemA ι P W) (U : Prop) (Q : ι → Op P → Prop) : Prop where
  guard : ∀ i g a p w, (sem.guard i g a p w).Good U Q
  action : ∀ i c a p w, (sem.action i c a p w).Good U Q
  handler : ∀ i h e st d p w, (sem.handler i h e st d p w).Good U Q

/-- No calls and no questions. -/
def AProg.Quiet {α : Type} : AProg ι P W α → Prop
  | .call _ _ _ _ => False
  | .ask _ _ _ _ => False
  | _ => True

/-- Guards of machine `i` neither call nor ask. -/
def SemA.QuietGuards (sem : SemA ι P W) (i : ι) : Prop := ∀ g a p w, (sem.guard i g a p w).Quiet

/-- No callback calls `set_dependency` of machine `i`. -/
def SemA.KeepsDeps (sem : SemA ι P W) (i : ι) : Prop :=
  sem.Good True (fun j op => j = i → ∀ d, op ≠ .setDependency d)

/-- Machine `i` is safe, as `SafeR`. -/
structure SafeA (Ms : ι → Machine) (sem : SemA ι P W) (i : ι) : Prop where
  scopes : (Ms i).Scoped
  regions : ∀ p ∈ (Ms i).composites,
    ((Ms i).declaredInitials p).length ≤ ((Ms i).declaredInitials (Ms i).root).length
  history : (Ms i).historic = true → ∀ p ∈ (Ms i).composites,
    ((Ms i).declaredInitials p).length = ((Ms i).declaredInitials (Ms i).root).length
  noneNotDeferred : (Ms i).anonymous = true → ∀ p st, Cand.defer ∉ (Ms i).cands .none p st
  objects : ∀ st, (Ms i).selfMade st = true ∨ ∀ w, sem.alive i st w = true

variable [DecidableEq ι]

/-- Histories of calls from outside, as `RunToS`. -/
inductive RunToA (Ms : ι → Machine) (sem : SemA ι P W) (d : ι → Dep) :
    List (ι × Op P) → Hub (Wire ι) P W → Prop
  | init {h : Hub (Wire ι) P W} (hi : ∀ i, construct (Ms i) (d i) () = .ok (h.parts (.inl i))) :
      RunToA Ms sem d [] h
  | ok {h h' : Hub (Wire ι) P W} {ops : List (ι × Op P)} {i : ι} {op : Op P} {fuel n : Nat} {b : Bool}
      (hr : RunToA Ms sem d ops h) (hop : OpOk (Ms i) op) (hs : stepL Ms sem fuel n (.inl i) op h = .ok b h') :
      RunToA Ms sem d (ops ++ [(i, op)]) h'
  | throw {h h' : Hub (Wire ι) P W} {ops : List (ι × Op P)} {i : ι} {op : Op P} {fuel n : Nat} {x : Exn}
      (hr : RunToA Ms sem d ops h) (hop : OpOk (Ms i) op) (hs : stepL Ms sem fuel n (.inl i) op h = .throw x h') :
      RunToA Ms sem d (ops ++ [(i, op)]) h'
  | world {h : Hub (Wire ι) P W} {ops : List (ι × Op P)} (hr : RunToA Ms sem d ops h) (w : W) :
      RunToA Ms sem d ops { h with user := w }

end
end Hsm
