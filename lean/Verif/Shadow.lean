import Verif.Match
import Verif.Monitor

/-!
# Whether a client can tell two machines apart: a decision

The check of Match.lean compares candidate rows one by one; it may reject two machines although no client
can tell them apart.  Here a monitor (Monitor.lean) listens to the first machine and keeps track of what
the second one may be doing if it is to be observed in the same way.  It breaks off when there is nothing
the second machine could be doing.

This file is specification.  PropsShadow.lean proves that the model of the code agrees (C87).
-/

namespace Hsm

/-- A sign as the client sees it. -/
def Sign.seen (v : StTy → StTy) : Sign → Sign
  | .call k => .call (k.seen v)
  | s => s

/-- Whatever some client of `M` observes, some client of `M'` observes, too, as seen through `v` and `v'`. -/
def Refines (M M' : Machine) (v v' : StTy → StTy) : Prop :=
  ∀ (P W : Type) (sem : Sem P W) (d : Dep) (ss : List Sign) (s : SM P W), Observed M sem d ss s →
    ∃ (P' W' : Type) (sem' : Sem P' W') (ss' : List Sign) (s' : SM P' W'), Observed M' sem' d ss' s' ∧
      ss'.map (Sign.seen v') = ss.map (Sign.seen v)

/-- The monitor that writes down what it hears. -/
def recorder : Monitor (List Sign) where
  init := []
  step l s := some (l ++ [s])

/-- What a machine may be doing: it has committed itself to `signs`, afterwards it is at `spot`. -/
structure Prospect where
  signs : List Sign
  stage : Stage
  spot : Spot
  waiting : List EventTy
deriving DecidableEq

/-- The prospect if the next sign looks like `s`. -/
def Prospect.after (v : StTy → StTy) (s : Sign) (p : Prospect) : Option Prospect :=
  match p.signs with
  | [] => none
  | t :: ts => if t.seen v = s then some { p with signs := ts } else none

namespace Machine
variable (M : Machine)

/-- One step of the machine, with what is observed meanwhile. -/
def foresee (p : Prospect) : List Prospect :=
  (M.seeNext recorder p.stage ⟨p.spot, p.waiting, some []⟩).filterMap fun
    | .ok g ⟨n, w, some l⟩ => some ⟨l, g, n, w⟩
    | .throw _ ⟨n, w, some l⟩ => some ⟨l ++ [.exception], .idle, n, w⟩
    | _ => none

/-- Steps until something is observed, at most `k`. -/
def lookAhead : Nat → Prospect → List Prospect
  | 0, p => [p]
  | k + 1, p => if p.signs = [] then (M.foresee p).flatMap (lookAhead k) else [p]

/-- What `M` may be doing after a sign that looks like `s`; `none` if that takes more than `k` steps to
find out. -/
def pursue (v : StTy → StTy) (k : Nat) (ps : List Prospect) (s : Sign) : Option (List Prospect) :=
  let qs := ps.flatMap (M.lookAhead k)
  if qs.all fun p => decide (p.signs ≠ []) then some (qs.filterMap (Prospect.after v s)).eraseDups else none

/-- The monitor that follows `M`, seen through `v'`, while it hears another machine, seen through `v`.
Its state `none` means that it could not follow: too many steps without a sign. -/
def shadow (v' v : StTy → StTy) (k : Nat) : Monitor (Option (List Prospect)) where
  init := some [⟨[], .idle, M.start, []⟩]
  step
    | none, _ => some none
    | some ps, s =>
      match M.pursue v' k ps (s.seen v) with
      | none => some none
      | some [] => none
      | some (p :: ps) => some (some (p :: ps))

end Machine

/-- Between two calls the shadow is somewhere. -/
def shadowed (S : List (Stage × Eye (Option (List Prospect)))) : Bool :=
  S.all fun s => match s.1, s.2.heard with
    | .idle, some (some _) => true
    | .idle, _ => false
    | .rounds _, _ => true

/-- Between two calls the shadow is somewhere or nowhere, it has not lost track. -/
def followed (S : List (Stage × Eye (Option (List Prospect)))) : Bool :=
  S.all fun s => match s.1, s.2.heard with
    | .idle, some none => false
    | _, _ => true

end Hsm
