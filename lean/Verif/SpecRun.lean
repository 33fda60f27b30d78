import Verif.Spec

/-!
# Specification vocabulary for running machines
-/

namespace Hsm

/-- Every outcome of `r` that leaves a machine behind satisfies the given condition;
undefined behaviour is allowed only if `U` holds. -/
def Res.Sat {σ α : Type} (U : Prop) (Q : α → σ → Prop) (X : Exn → σ → Prop) : Res σ α → Prop
  | .ok a s => Q a s
  | .throw x s => X x s
  | .ub _ => U
  | .timeout => True

section
variable {P W : Type} (M : Machine) (sem : Sem P W)

/-- Region `r` is at location `(p, st)` of the machine. -/
def At (s : SM P W) (r : Nat) (p : Name) (st : StTy) : Prop :=
  p ∈ M.composites ∧ st ∈ M.states ∧ s.cur[r]? = some (some (M.comb p st))

/-- How many regions are active: one, unless some composite has several. -/
def activeRegions (s : SM P W) : Nat := if M.orthogonal then s.regions else 1

/-- What a guard is called with: event, source object, target object (source object
again for internal rows), dependency. -/
def guardArgs (x : Exec) (ev : EventTy) : Args :=
  { event := ev, src := x.src, dst := if x.internal then x.src else x.dst,
    byPtr := false, dep := x.dep }

/-- `FalseRun sem cur ev es p w tr p' w'`: with regions at `cur`, every entry of `es` has a guard, the guards are
called one after the other starting with payload `p` in world `w`, each exactly once,
each returns false, and `tr` is the list of these calls. -/
inductive FalseRun (cur : List (Option Nat)) (ev : EventTy) : List Entry → P → W → List (Call P) → P → W → Prop
  | nil (p : P) (w : W) : FalseRun cur ev [] p w [] p w
  | cons {e : Entry} {es : List Entry} {x : Exec} {g : Cb} {p p1 p2 : P} {w w1 w2 : W}
      {tr : List (Call P)} (hd : e.defer = false) (ht : e.tr = some x) (hg : x.guard = some g)
      (hc : sem.guard g (guardArgs x ev) p w = .ok false p1 w1)
      (hr : FalseRun cur ev es p1 w1 tr p2 w2) :
      FalseRun cur ev (e :: es) p w (.guard g (guardArgs x ev) p (some false) cur :: tr) p2 w2

/-- The entry's guard is absent, or is called once and returns true. -/
inductive TrueGuard (cur : List (Option Nat)) (ev : EventTy) (x : Exec) (p : P) (w : W) :
    List (Call P) → P → W → Prop
  | absent (h : x.guard = none) : TrueGuard cur ev x p w [] p w
  | called {g : Cb} {p' : P} {w' : W} (h : x.guard = some g)
      (hc : sem.guard g (guardArgs x ev) p w = .ok true p' w') :
      TrueGuard cur ev x p w [.guard g (guardArgs x ev) p (some true) cur] p' w'

/-- `ActRun sem cur args cs p w tr p' w'`: with regions at `cur`, the callbacks `cs` are called one after the
other with the same arguments, each exactly once and on what the previous one left,
none throws, and `tr` is the list of these calls. -/
inductive ActRun (cur : List (Option Nat)) (args : Args) :
    List (Phase × Cb) → P → W → List (Call P) → P → W → Prop
  | nil (p : P) (w : W) : ActRun cur args [] p w [] p w
  | cons {ph : Phase} {a : Cb} {cs : List (Phase × Cb)} {p p1 p2 : P} {w w1 w2 : W}
      {tr : List (Call P)} (hc : sem.action a args p w = .ok () p1 w1)
      (hr : ActRun cur args cs p1 w1 tr p2 w2) :
      ActRun cur args ((ph, a) :: cs) p w (.action ph a args p false cur :: tr) p2 w2

/-- Like `ActRun`, but the last call of `tr` throws exception `n`; callbacks after it
are not called. -/
inductive ActThrow (cur : List (Option Nat)) (args : Args) :
    List (Phase × Cb) → P → W → List (Call P) → Nat → W → Prop
  | here {ph : Phase} {a : Cb} {cs : List (Phase × Cb)} {p p1 : P} {w w1 : W} {n : Nat}
      (hc : sem.action a args p w = .throw n p1 w1) :
      ActThrow cur args ((ph, a) :: cs) p w [.action ph a args p true cur] n w1
  | later {ph : Phase} {a : Cb} {cs : List (Phase × Cb)} {p p1 : P} {w w1 w2 : W} {n : Nat}
      {tr : List (Call P)} (hc : sem.action a args p w = .ok () p1 w1)
      (hr : ActThrow cur args cs p1 w1 tr n w2) :
      ActThrow cur args ((ph, a) :: cs) p w (.action ph a args p false cur :: tr) n w2

/-- The callbacks of an entry. -/
def Exec.cbs (x : Exec) : List (Phase × Cb) := x.action.getD []

/-- `s'` is `s` except that callbacks ran: the world is `w` and `tr` was appended to
the trace. -/
def SM.ran (s : SM P W) (w : W) (tr : List (Call P)) : SM P W :=
  { s with world := w, trace := s.trace ++ tr }

/-- Histories: `RunTo M sem d ops s` says that a machine constructed with dependency
`d` can be in state `s` after the calls `ops`, each of which returned or threw.
Between calls the user's program may change its own world. -/
inductive RunTo (d : Dep) : List (Op P) → SM P W → Prop
  | init {w : W} {s : SM P W} (h : construct M d w = .ok s) : RunTo d [] s
  | ok {s s' : SM P W} {ops : List (Op P)} {op : Op P} {fuel : Nat} {b : Bool}
      (hr : RunTo d ops s) (hop : OpOk M op) (h : step M sem fuel op s = .ok b s') :
      RunTo d (ops ++ [op]) s'
  | throw {s s' : SM P W} {ops : List (Op P)} {op : Op P} {fuel : Nat} {x : Exn}
      (hr : RunTo d ops s) (hop : OpOk M op) (h : step M sem fuel op s = .throw x s') :
      RunTo d (ops ++ [op]) s'
  | world {s : SM P W} {ops : List (Op P)} (hr : RunTo d ops s) (w : W) :
      RunTo d ops { s with world := w }

/-- States a client can hold after some history. -/
def Reach (s : SM P W) : Prop := ∃ d ops, RunTo M sem d ops s

/-- The dependencies a machine has been given so far, latest first. -/
def depsOf (d : Dep) (ops : List (Op P)) : List Dep :=
  (ops.filterMap fun
    | .setDependency d' => some d'
    | _ => none).reverse ++ [d]

/-- The calls `ops` one after the other, also after exceptions; `none` if one is undefined or does
not end. -/
def runAll (f : Op P → SM P W → Res (SM P W) Bool) : List (Op P) → SM P W → Option (SM P W)
  | [], s => some s
  | op :: ops, s =>
    match f op s with
    | .ok _ s => runAll f ops s
    | .throw _ s => runAll f ops s
    | .ub _ => none
    | .timeout => none

end
end Hsm
