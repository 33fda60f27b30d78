import Verif.Monitor
import Verif.SpecRun

/-!
# Whether a machine can always get somewhere

The specification of C88: whatever has happened so far, may the machine get to one of some locations?
-/

namespace Hsm

/-- Whatever some client observed so far, some client observes first the same and then something after
which the machine is at one of the locations `gs` (region, composite, state). -/
def Recovers (M : Machine) (gs : List (Nat × Name × StTy)) : Prop :=
  ∀ (P W : Type) (sem : Sem P W) (d : Dep) (ss : List Sign) (s : SM P W), Observed M sem d ss s →
    ∃ (P' W' : Type) (sem' : Sem P' W') (ss' : List Sign) (s' : SM P' W'),
      Observed M sem' d (ss ++ ss') s' ∧ ∃ g ∈ gs, At M s' g.1 g.2.1 g.2.2

/-- The monitor that listens to nothing. -/
def deaf : Monitor Unit where
  init := ()
  step _ _ := some ()

namespace Machine
variable (M : Machine)

/-- What may be the case one step later. -/
def onward {Q : Type} (mon : Monitor Q) (s : Stage × Eye Q) : List (Stage × Eye Q) :=
  (M.seeNext mon s.1 s.2).filterMap fun
    | .ok g x => some (g, x)
    | .throw _ x => some (.idle, seeSign mon .exception x)
    | _ => none

/-- Between two calls, and at one of the locations `gs`. -/
def meets (gs : List (Nat × Name × StTy)) (s : Stage × Eye Unit) : Bool :=
  decide (s.1 = .idle) && gs.any fun g =>
    decide (g.2.1 ∈ M.composites ∧ g.2.2 ∈ M.states ∧ s.2.spot.slots[g.1]? = some (some g.2))

/-- Those of `S` that are in `H` or may be one step later. -/
def nearer (S H : List (Stage × Eye Unit)) : List (Stage × Eye Unit) :=
  S.filter fun s => decide (s ∈ H) || (M.onward deaf s).any fun t => decide (t ∈ H)

/-- Those of `S` from where it takes at most `k` steps to get to `gs`. -/
def homing (gs : List (Nat × Name × StTy)) (S : List (Stage × Eye Unit)) : Nat → List (Stage × Eye Unit)
  | 0 => S.filter (M.meets gs)
  | k + 1 => M.nearer S (homing gs S k)

/-- More than `k` steps are of no use. -/
def settled (gs : List (Nat × Name × StTy)) (S : List (Stage × Eye Unit)) (k : Nat) : Bool :=
  let H := M.homing gs S k
  (M.nearer S H).all fun s => decide (s ∈ H)

/-- Between two calls it takes at most `k` steps to get to `gs`. -/
def returns (gs : List (Nat × Name × StTy)) (S : List (Stage × Eye Unit)) (k : Nat) : Bool :=
  let H := M.homing gs S k
  S.all fun s => !decide (s.1 = .idle) || decide (s ∈ H)

end Machine
end Hsm
