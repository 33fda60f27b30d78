import Verif.Shadow
import Verif.MonitorGen

/-!
# Whether a client can tell which header it includes: a decision

As Shadow.lean, for two machines each of which is built with the modular headers or with the amalgamated
one.  `process_event` of the latter returns nothing, so here the client does not look at what
`process_event` returns.

This file is specification.  PropsShadowGen.lean proves that the model of the code agrees (C105).
-/

namespace Hsm

/-- What a program includes: `include/hsm/hsm.h` or `include/hsm/gen/hsm.h`. -/
inductive Header
  | modular
  | amalgamated
deriving DecidableEq

/-- A sign as the client sees it that does not look at what `process_event` returns. -/
def Sign.look (v : StTy → StTy) : Sign → Sign
  | .call k => .call (k.seen v)
  | .answer _ => .answer true
  | s => s

/-- What a client observes that only sends events. -/
def ObservedIn {P W : Type} (h : Header) (M : Machine) (sem : Sem P W) (d : Dep) (ss : List Sign)
    (s : SM P W) : Prop :=
  match h with
  | .modular => Observed M sem d ss s
  | .amalgamated => ObservedG M sem d ss s

/-- Whatever some client of `M` with header `h` observes, some client of `M'` with header `h'` observes, too,
as seen through `v` and `v'`. -/
def RefinesIn (h h' : Header) (M M' : Machine) (v v' : StTy → StTy) : Prop :=
  ∀ (P W : Type) (sem : Sem P W) (d : Dep) (ss : List Sign) (s : SM P W), ObservedIn h M sem d ss s →
    ∃ (P' W' : Type) (sem' : Sem P' W') (ss' : List Sign) (s' : SM P' W'), ObservedIn h' M' sem' d ss' s' ∧
      ss'.map (Sign.look v') = ss.map (Sign.look v)

/-- The prospect if the next sign looks like `s`. -/
def Prospect.past (v : StTy → StTy) (s : Sign) (p : Prospect) : Option Prospect :=
  match p.signs with
  | [] => none
  | t :: ts => if t.look v = s then some { p with signs := ts } else none

section
variable (F : Prospect → List Prospect)

/-- Steps until something is observed, at most `k`. -/
def foretell : Nat → Prospect → List Prospect
  | 0, p => [p]
  | k + 1, p => if p.signs = [] then (F p).flatMap (foretell k) else [p]

/-- What may be going on after a sign that looks like `s`; `none` if that takes more than `k` steps to
find out. -/
def chase (v : StTy → StTy) (k : Nat) (ps : List Prospect) (s : Sign) : Option (List Prospect) :=
  let qs := ps.flatMap (foretell F k)
  if qs.all fun p => decide (p.signs ≠ []) then some (qs.filterMap (Prospect.past v s)).eraseDups else none

/-- The monitor that follows one machine, seen through `v'`, while it hears another, seen through `v`. -/
def tailing (n : Spot) (v' v : StTy → StTy) (k : Nat) : Monitor (Option (List Prospect)) where
  init := some [⟨[], .idle, n, []⟩]
  step
    | none, _ => some none
    | some ps, s =>
      match chase F v' k ps (s.look v) with
      | none => some none
      | some [] => none
      | some (p :: ps) => some (some (p :: ps))

end

namespace Machine
variable {Q : Type} (h : Header) (M : Machine)

/-- One step, with what the monitor makes of it. -/
def seeNextIn (mon : Monitor Q) (g : Stage) (x : Eye Q) : List (Res (Eye Q) Stage) :=
  match h with
  | .modular => M.seeNext mon g x
  | .amalgamated => M.seeNextG mon g x

/-- One step of the machine, with what is observed meanwhile. -/
def foreseeIn (p : Prospect) : List Prospect :=
  (M.seeNextIn h recorder p.stage ⟨p.spot, p.waiting, some []⟩).filterMap fun
    | .ok g ⟨n, w, some l⟩ => some ⟨l, g, n, w⟩
    | .throw _ ⟨n, w, some l⟩ => some ⟨l ++ [.exception], .idle, n, w⟩
    | _ => none

/-- The monitor that follows `M` with header `h`, seen through `v'`, while it hears another machine, seen
through `v`.  Its state `none` means that it could not follow: too many steps without a sign. -/
def shadowIn (v' v : StTy → StTy) (k : Nat) : Monitor (Option (List Prospect)) :=
  tailing (M.foreseeIn h) M.start v' v k

variable [DecidableEq Q]

/-- The list `S` leaves out nothing. -/
def seesAllIn (mon : Monitor Q) (S : List (Stage × Eye Q)) : Bool :=
  match h with
  | .modular => M.seesAll mon S
  | .amalgamated => M.seesAllG mon S

/-- What may be the case within `k` steps. -/
def watchIn (mon : Monitor Q) (k : Nat) : List (Stage × Eye Q) :=
  match h with
  | .modular => M.watch mon k
  | .amalgamated => M.watchG mon k

end Machine
end Hsm
