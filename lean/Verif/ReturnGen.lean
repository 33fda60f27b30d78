import Verif.Return
import Verif.ShadowGen

/-!
# Whether a machine can always get somewhere, for either header

As Return.lean, for a machine built with the modular headers or with the amalgamated one.

This file is specification.  PropsReturnGen.lean proves that the model of the code agrees (C108).
-/

namespace Hsm

/-- Whatever some client of `M` with header `h` observed so far, some client of `M` with header `h` observes
first the same and then something after which the machine is at one of the locations `gs` (region, composite,
state). -/
def RecoversIn (h : Header) (M : Machine) (gs : List (Nat × Name × StTy)) : Prop :=
  ∀ (P W : Type) (sem : Sem P W) (d : Dep) (ss : List Sign) (s : SM P W), ObservedIn h M sem d ss s →
    ∃ (P' W' : Type) (sem' : Sem P' W') (ss' : List Sign) (s' : SM P' W'),
      ObservedIn h M sem' d (ss ++ ss') s' ∧ ∃ g ∈ gs, At M s' g.1 g.2.1 g.2.2

namespace Machine
variable (h : Header) (M : Machine)

/-- What may be the case one step later. -/
def onwardIn {Q : Type} (mon : Monitor Q) (s : Stage × Eye Q) : List (Stage × Eye Q) :=
  (M.seeNextIn h mon s.1 s.2).filterMap fun
    | .ok g x => some (g, x)
    | .throw _ x => some (.idle, seeSign mon .exception x)
    | _ => none

/-- Those of `S` that are in `H` or may be one step later. -/
def nearerIn (S H : List (Stage × Eye Unit)) : List (Stage × Eye Unit) :=
  S.filter fun s => decide (s ∈ H) || (M.onwardIn h deaf s).any fun t => decide (t ∈ H)

/-- Those of `S` from where it takes at most `k` steps to get to `gs`. -/
def homingIn (gs : List (Nat × Name × StTy)) (S : List (Stage × Eye Unit)) : Nat → List (Stage × Eye Unit)
  | 0 => S.filter (M.meets gs)
  | k + 1 => M.nearerIn h S (homingIn gs S k)

/-- More than `k` steps are of no use. -/
def settledIn (gs : List (Nat × Name × StTy)) (S : List (Stage × Eye Unit)) (k : Nat) : Bool :=
  let H := M.homingIn h gs S k
  (M.nearerIn h S H).all fun s => decide (s ∈ H)

/-- Between two calls it takes at most `k` steps to get to `gs`. -/
def returnsIn (gs : List (Nat × Name × StTy)) (S : List (Stage × Eye Unit)) (k : Nat) : Bool :=
  let H := M.homingIn h gs S k
  S.all fun s => !decide (s.1 = .idle) || decide (s ∈ H)

end Machine
end Hsm
