import Verif.Replace
import Verif.ShadowGen

/-!
# One machine in place of another, with either header

As Replace.lean, for two machines each of which is built with the modular headers or with the amalgamated
one.

This file is specification.  PropsReplaceGen.lean proves that the model of the code agrees (C107).
-/

namespace Hsm

/-- As `Served`, for a machine of `gen/hsm.h`.  `process_event` returns nothing there; `ret true` stands for
its return. -/
inductive ServedG {P W : Type} (M : Machine) (sem : Sem P W) (d : Dep) (w : W) :
    List (Request P W) → List Reply → SM P W → Prop
  | init {s : SM P W} (h : constructG M d w = .ok s) : ServedG M sem d w [] [] s
  | ok {ts : List (Request P W)} {rs : List Reply} {s s' : SM P W} {t : Request P W} {fuel : Nat}
      (hr : ServedG M sem d w ts rs s) (hop : OpOkG M (.process t.event t.payload))
      (h : stepG M sem fuel (.process t.event t.payload) { s with world := t.work s.world } = .ok () s') :
      ServedG M sem d w (ts ++ [t]) (rs ++ [.ret true]) s'
  | throw {ts : List (Request P W)} {rs : List Reply} {s s' : SM P W} {t : Request P W} {fuel : Nat} {x : Exn}
      (hr : ServedG M sem d w ts rs s) (hop : OpOkG M (.process t.event t.payload))
      (h : stepG M sem fuel (.process t.event t.payload) { s with world := t.work s.world } = .throw x s') :
      ServedG M sem d w (ts ++ [t]) (rs ++ [.threw x]) s'

/-- A client makes the requests `ts` of a machine that is built with header `h`. -/
def ServedIn {P W : Type} (h : Header) (M : Machine) (sem : Sem P W) (d : Dep) (w : W)
    (ts : List (Request P W)) (rs : List Reply) (s : SM P W) : Prop :=
  match h with
  | .modular => Served M sem d w ts rs s
  | .amalgamated => ServedG M sem d w ts rs s

/-- A reply as the client sees it that does not look at what `process_event` returns. -/
def Reply.look : Reply → Reply
  | .ret _ => .ret true
  | .threw x => .threw x

end Hsm
