import Verif.Machines

/-!
# Notations for rows (C37)

Models `transition_dsl.h`, the operators of `state.h` and `event.h`, and the functions
`transition` and `internal_transition` of `transition.h`, down to how C++ reads the
expressions: operator precedence and which overloads exist.
-/

namespace Hsm.Dsl

/-! ## Values -/

/-- The values that occur in rows.  The components of the `Transition...` classes that are
types in C++ are values here.  A first component `s : StTy` is `state_t<Source>`.
(transition_dsl.h:13-187; state.h; event.h) -/
inductive Val
  /-- `state_t`, `initial_t`, `direct_t`, `entry_t`, `exit_t`, `history_t` (state.h:98-135) -/
  | state (t : StTy)
  /-- `event_t` (event.h:16-33) -/
  | event (e : EventTy)
  /-- a guard or an action of the user -/
  | cb (c : Cb)
  /-- `TransitionEG` (transition_dsl.h:31-50) -/
  | eg (e : EventTy) (g : Cb)
  /-- `TransitionEA` (transition_dsl.h:52-66) -/
  | ea (e : EventTy) (a : Cb)
  /-- `TransitionEGA` (transition_dsl.h:13-29) -/
  | ega (e : EventTy) (g a : Cb)
  /-- `TransitionSE` (transition_dsl.h:118-126) -/
  | se (s : StTy) (e : EventTy)
  /-- `TransitionSEG` (transition_dsl.h:86-100) -/
  | seg (s : StTy) (e : EventTy) (g : Cb)
  /-- `TransitionSEA` (transition_dsl.h:102-116) -/
  | sea (s : StTy) (e : EventTy) (a : Cb)
  /-- `TransitionSEGA` (transition_dsl.h:68-84) -/
  | sega (s : StTy) (e : EventTy) (g a : Cb)
  /-- `TransitionSA` (transition_dsl.h:128-144) -/
  | sa (s : StTy) (a : Cb)
  /-- `TransitionSG` (transition_dsl.h:166-187) -/
  | sg (s : StTy) (g : Cb)
  /-- `TransitionSGA` (transition_dsl.h:146-164) -/
  | sga (s : StTy) (g a : Cb)
  /-- `details::Transition` (transition.h:13-48) -/
  | row (r : Row)
  /-- `details::InternalTransition` (transition.h:50-75) -/
  | irow (r : IRow)
deriving DecidableEq, Repr

/-- `state_t<Type>` for an object derived from `StateBase<Type>` (state.h:9-10, :98-135):
`initial_t<S>` derives from `StateBase<Initial<state_t<S>>>`, and so on. -/
def wrap : StTy → StTy
  | .st s => .st s
  | .ps _ k => .ps false k

/-! ## Operators

`none`: there is no matching overload, the expression does not compile.  The templates take
any operand as guard or action; here only callbacks. -/

/-- unary `*` (state.h:101-104); only `state_t` has it.  Not modelled: `*` for the `state_t` of a pseudo state. -/
def star : Val → Option Val
  | .state (.st s) => some (.state (.ps true (.initial s)))
  | _ => none

/-- unary `+` (event.h:19-22, transition_dsl.h:21-24, :43-46, :59-62). -/
def uplus : Val → Option Val
  | .event e => some (.irow ⟨e, none, none⟩)
  | .eg e g => some (.irow ⟨e, some g, none⟩)
  | .ea e a => some (.irow ⟨e, none, some a⟩)
  | .ega e g a => some (.irow ⟨e, some g, some a⟩)
  | _ => none

/-- `[ ]` (event.h:24-27, state.h:40-43). -/
def index : Val → Val → Option Val
  | .event e, .cb g => some (.eg e g)
  | .state t, .cb g => some (.sg (wrap t) g)
  | _, _ => none

/-- `/` (event.h:29-32, state.h:35-38, transition_dsl.h:38-41, :180-183). -/
def slash : Val → Val → Option Val
  | .event e, .cb a => some (.ea e a)
  | .state t, .cb a => some (.sa (wrap t) a)
  | .eg e g, .cb a => some (.ega e g a)
  | .sg s g, .cb a => some (.sga s g a)
  | _, _ => none

/-- `+` (state.h:12-33). -/
def plus : Val → Val → Option Val
  | .state t, .event e => some (.se (wrap t) e)
  | .state t, .eg e g => some (.seg (wrap t) e g)
  | .state t, .ea e a => some (.sea (wrap t) e a)
  | .state t, .ega e g a => some (.sega (wrap t) e g a)
  | _, _ => none

/-- `<=` (state.h:52-89).  The last overload takes a `state_t`, which `initial_t` and the other
classes for pseudo states are not. -/
def le : Val → Val → Option Val
  | .state t, .se s e => some (.row ⟨s, e, none, none, wrap t⟩)
  | .state t, .seg s e g => some (.row ⟨s, e, some g, none, wrap t⟩)
  | .state t, .sea s e a => some (.row ⟨s, e, none, some a, wrap t⟩)
  | .state t, .sega s e g a => some (.row ⟨s, e, some g, some a, wrap t⟩)
  | .state t, .state (.st s) => some (.row ⟨.st s, .none, none, none, wrap t⟩)
  | .state t, .state (.ps false k) => some (.row ⟨.ps false k, .none, none, none, wrap t⟩)
  | _, _ => none

/-- `=` (state.h:45-50, transition_dsl.h:77-80, :94-97, :110-113, :122-125, :136-140, :155-159,
:174-178).  The operands being constants or of different types, the assignment operators the
compiler generates do not apply. -/
def assign : Val → Val → Option Val
  | .state t, .state t' => some (.row ⟨wrap t, .none, none, none, t'⟩)
  | .se s e, .state t' => some (.row ⟨s, e, none, none, t'⟩)
  | .seg s e g, .state t' => some (.row ⟨s, e, some g, none, t'⟩)
  | .sea s e a, .state t' => some (.row ⟨s, e, none, some a, t'⟩)
  | .sega s e g a, .state t' => some (.row ⟨s, e, some g, some a, t'⟩)
  | .sa s a, .state t' => some (.row ⟨s, .none, none, some a, t'⟩)
  | .sg s g, .state t' => some (.row ⟨s, .none, some g, none, t'⟩)
  | .sga s g a, .state t' => some (.row ⟨s, .none, some g, some a, t'⟩)
  | _, _ => none

/-- `hsm::transition(source, event, guard, action, target)` (transition.h:132-134,
transition_tuple.h:6); `none` is `noGuard{}` or `noAction{}`.  All five have to be given. -/
def transition : Val → Val → Option Cb → Option Cb → Val → Option Val
  | .state t, .event e, g, a, .state t' => some (.row ⟨t, e, g, a, t'⟩)
  | _, _, _, _, _ => none

/-! ## Reading expressions

The operators used have these precedences in C++, from high to low: postfix `[ ]`; unary `*`
and `+`; `/`; `+`; `<=`; `=`.  All but the unary ones and `=` group to the left. -/

/-- The tokens rows are written with (transition_dsl.h; state.h; event.h). -/
inductive Tok
  | val (v : Val)
  | star
  | plus
  | slash
  | le
  | assign
  | lbr
  | rbr
  | lpar
  | rpar
deriving DecidableEq, Repr

/-- Level of a binary operator. (the operators of transition_dsl.h, state.h, event.h) -/
def binop : Tok → Option (Nat × (Val → Val → Option Val))
  | .slash => some (3, Dsl.slash)
  | .plus => some (2, Dsl.plus)
  | .le => some (1, Dsl.le)
  | .assign => some (0, Dsl.assign)
  | _ => none

mutual

/-- Reads an operand: unary operators applied to a primary expression with subscripts.
(state.h:101; transition_dsl.h:21, 43, 59) -/
def operand : Nat → List Tok → Option (Val × List Tok)
  | 0, _ => none
  | n + 1, ts =>
    match ts with
    | .star :: ts => (operand n ts).bind fun x => (star x.1).map (·, x.2)
    | .plus :: ts => (operand n ts).bind fun x => (uplus x.1).map (·, x.2)
    | .val v :: ts => subscripts n v ts
    | .lpar :: ts => (expr n 0 ts).bind fun x =>
      match x.2 with
      | .rpar :: ts => subscripts n x.1 ts
      | _ => none
    | _ => none

/-- Reads the subscripts after `v`. (`operator[]` of state.h, event.h) -/
def subscripts : Nat → Val → List Tok → Option (Val × List Tok)
  | 0, _, _ => none
  | n + 1, v, ts =>
    match ts with
    | .lbr :: ts => (expr n 0 ts).bind fun x =>
      match x.2 with
      | .rbr :: ts => (index v x.1).bind fun w => subscripts n w ts
      | _ => none
    | _ => some (v, ts)

/-- Reads an expression of binary operators of at least level `l`. (transition_dsl.h; state.h; event.h) -/
def expr : Nat → Nat → List Tok → Option (Val × List Tok)
  | 0, _, _ => none
  | n + 1, l, ts => (operand n ts).bind fun x => rest n l x.1 x.2

/-- Reads what follows the operand `v`. (transition_dsl.h; state.h; event.h) -/
def rest : Nat → Nat → Val → List Tok → Option (Val × List Tok)
  | 0, _, _, _ => none
  | n + 1, l, v, ts =>
    match ts with
    | [] => some (v, [])
    | t :: ts' =>
      match binop t with
      | none => some (v, ts)
      | some (k, f) =>
        if l ≤ k then
          -- `=` groups to the right, the others to the left
          (expr n (if k = 0 then 0 else k + 1) ts').bind fun x =>
            (f v x.1).bind fun w => rest n l w x.2
        else some (v, ts)

end

/-- The value of an expression; `none` if it is not accepted by the compiler.
(transition_dsl.h; state.h; event.h) -/
def value (ts : List Tok) : Option Val :=
  (expr (4 * ts.length + 4) 0 ts).bind fun x => if x.2.isEmpty then some x.1 else none

/-! ## Specification: notations -/

/-- What is written for the source of a row. -/
inductive Src
  /-- `state<S>` -/
  | plain (s : Name)
  /-- `*state<S>` -/
  | start (s : Name)
  /-- `exit<P, S>`, `direct<P, S>`, ... -/
  | pseudo (k : Pseudo)
  /-- `state<Exit<P, S>>`, ...: the type spelled out -/
  | spelled (k : Pseudo)
deriving DecidableEq, Repr

namespace Src

/-- How it is written. -/
def toks : Src → List Tok
  | plain s => [.val (.state (.st s))]
  | start s => [.star, .val (.state (.st s))]
  | pseudo k => [.val (.state (.ps true k))]
  | spelled k => [.val (.state (.ps false k))]

/-- The object. -/
def obj : Src → StTy
  | plain s => .st s
  | start s => .ps true (.initial s)
  | pseudo k => .ps true k
  | spelled k => .ps false k

/-- The source type of the row in the DSL. -/
def ty : Src → StTy
  | plain s => .st s
  | start s => .ps false (.initial s)
  | pseudo k => .ps false k
  | spelled k => .ps false k

/-- Is it a `state_t`? -/
def isState : Src → Prop
  | plain _ | spelled _ => True
  | start _ | pseudo _ => False

end Src

/-- `[guard]` -/
def guardToks : Option Cb → List Tok
  | none => []
  | some g => [.lbr, .val (.cb g), .rbr]

/-- `/ action` -/
def actionToks : Option Cb → List Tok
  | none => []
  | some a => [.slash, .val (.cb a)]

/-- `source + event [guard] / action = target` -/
def postfixRow (s : Src) (e : EventTy) (g a : Option Cb) (t : StTy) : List Tok :=
  s.toks ++ [.plus, .val (.event e)] ++ guardToks g ++ actionToks a ++ [.assign, .val (.state t)]

/-- `target <= source + event [guard] / action` -/
def prefixRow (s : Src) (e : EventTy) (g a : Option Cb) (t : StTy) : List Tok :=
  [.val (.state t), .le] ++ s.toks ++ [.plus, .val (.event e)] ++ guardToks g ++ actionToks a

/-- `source [guard] / action = target` -/
def postfixAnon (s : Src) (g a : Option Cb) (t : StTy) : List Tok :=
  s.toks ++ guardToks g ++ actionToks a ++ [.assign, .val (.state t)]

/-- `target <= source [guard] / action` -/
def prefixAnon (s : Src) (g a : Option Cb) (t : StTy) : List Tok :=
  [.val (.state t), .le] ++ s.toks ++ guardToks g ++ actionToks a

/-- `+ (event [guard] / action)` -/
def internalRow (e : EventTy) (g a : Option Cb) : List Tok :=
  [.plus, .lpar, .val (.event e)] ++ guardToks g ++ actionToks a ++ [.rpar]

/-- The claim C37: all notations give the same row for plain targets, also without event. -/
def C37_claim : Prop :=
  (∀ (s : Src) (e : EventTy) (g a : Option Cb) (t : Name), ∃ r : Row,
    r.event = e ∧ r.guard = g ∧ r.action = a ∧ r.target = .st t ∧
    value (postfixRow s e g a (.st t)) = some (.row r) ∧
    value (prefixRow s e g a (.st t)) = some (.row r) ∧
    transition (.state s.obj) (.event e) g a (.state (.st t)) = some (.row r)) ∧
  (∀ (s : Src) (g a : Option Cb) (t : Name), ∃ r : Row,
    r.event = .none ∧ r.guard = g ∧ r.action = a ∧ r.target = .st t ∧
    value (postfixAnon s g a (.st t)) = some (.row r) ∧
    value (prefixAnon s g a (.st t)) = some (.row r))

/-! ## Proofs -/

/-- C37, what holds.
* Postfix and prefix notation with an event give the row with exactly what is written, for all
  sources and all plain targets; `hsm::transition` gives the same row for sources that are a `state_t`,
  and one whose source is the object written for others.
* Without event, the postfix notation gives the row for the none event; exactly if not both the
  source is marked initial and there is a guard.
* Without event, the prefix notation compiles exactly for a `state_t` without guard and
  action, and then gives the same row. -/
theorem C37_partial :
    (∀ (s : Src) (e : EventTy) (g a : Option Cb) (t : Name),
      value (postfixRow s e g a (.st t)) = some (.row ⟨s.ty, e, g, a, .st t⟩) ∧
      value (prefixRow s e g a (.st t)) = some (.row ⟨s.ty, e, g, a, .st t⟩) ∧
      transition (.state s.obj) (.event e) g a (.state (.st t)) = some (.row ⟨s.obj, e, g, a, .st t⟩) ∧
      (s.obj = s.ty ↔ s.isState)) ∧
    (∀ (s : Src) (g a : Option Cb) (t : Name),
      (((∃ x, s = .start x) → g = none) →
        value (postfixAnon s g a (.st t)) = some (.row ⟨s.ty, .none, g, a, .st t⟩)) ∧
      ((∃ x, s = .start x) → g ≠ none → value (postfixAnon s g a (.st t)) = none)) ∧
    (∀ (s : Src) (g a : Option Cb) (t : Name),
      ((s.isState ∧ g = none ∧ a = none) →
        value (prefixAnon s g a (.st t)) = some (.row ⟨s.ty, .none, none, none, .st t⟩)) ∧
      (¬ (s.isState ∧ g = none ∧ a = none) → value (prefixAnon s g a (.st t)) = none)) := by
  refine ⟨?_, ?_, ?_⟩
  · intro s e g a t
    refine ⟨?_, ?_, rfl, ?_⟩
    · cases s <;> cases g <;> cases a <;> rfl
    · cases s <;> cases g <;> cases a <;> rfl
    · cases s <;> simp [Src.obj, Src.ty, Src.isState]
  · intro s g a t
    constructor
    · intro h
      cases s with
      | start x => rw [h ⟨x, rfl⟩]; cases a <;> rfl
      | plain x => cases g <;> cases a <;> rfl
      | pseudo k => cases g <;> cases a <;> rfl
      | spelled k => cases g <;> cases a <;> rfl
    · rintro ⟨x, rfl⟩ hg
      cases g with
      | none => exact absurd rfl hg
      | some g => cases a <;> rfl
  · intro s g a t
    constructor
    · rintro ⟨hs, rfl, rfl⟩
      cases s with
      | plain x => rfl
      | spelled k => rfl
      | start x => exact hs.elim
      | pseudo k => exact hs.elim
    · intro h
      cases s with
      | plain x =>
        cases g with
        | none => cases a with
          | none => exact absurd ⟨trivial, rfl, rfl⟩ h
          | some a => rfl
        | some g => cases a <;> rfl
      | spelled k =>
        cases g with
        | none => cases a with
          | none => exact absurd ⟨trivial, rfl, rfl⟩ h
          | some a => rfl
        | some g => cases a <;> rfl
      | start x => cases g <;> cases a <;> rfl
      | pseudo k => cases g <;> cases a <;> rfl

/-- C37 for plain sources and targets: all three notations with an event, and both without
guard, action and event, give the same row. -/
theorem C37_plain (s t : Name) (e : EventTy) (g a : Option Cb) :
    value (postfixRow (.plain s) e g a (.st t)) = some (.row ⟨.st s, e, g, a, .st t⟩) ∧
    value (prefixRow (.plain s) e g a (.st t)) = value (postfixRow (.plain s) e g a (.st t)) ∧
    transition (.state (.st s)) (.event e) g a (.state (.st t)) =
      value (postfixRow (.plain s) e g a (.st t)) ∧
    value (postfixAnon (.plain s) g a (.st t)) = value (postfixRow (.plain s) .none g a (.st t)) ∧
    value (prefixAnon (.plain s) none none (.st t)) = value (postfixAnon (.plain s) none none (.st t)) := by
  obtain ⟨h1, h2, h3⟩ := C37_partial
  obtain ⟨p1, p2, p3, _⟩ := h1 (.plain s) e g a t
  refine ⟨p1, by rw [p1, p2], by rw [p1]; exact p3, ?_, ?_⟩
  · rw [(h2 (.plain s) g a t).1 (by rintro ⟨x, h⟩; cases h), (h1 (.plain s) .none g a t).1]
  · rw [(h2 (.plain s) none none t).1 (by rintro ⟨x, h⟩; cases h),
      (h3 (.plain s) none none t).1 ⟨trivial, rfl, rfl⟩]

/-- Pseudo state targets: postfix keeps the type of the object written, prefix makes it a
`state_t`, so the two rows differ. -/
theorem C37_pseudo_target (s : Src) (e : EventTy) (g a : Option Cb) (k : Pseudo) :
    value (postfixRow s e g a (.ps true k)) = some (.row ⟨s.ty, e, g, a, .ps true k⟩) ∧
    value (prefixRow s e g a (.ps true k)) = some (.row ⟨s.ty, e, g, a, .ps false k⟩) := by
  constructor
  · cases s <;> cases g <;> cases a <;> rfl
  · cases s <;> cases g <;> cases a <;> rfl

/-- Internal rows: what is written, if in parentheses. -/
theorem C37_internal (e : EventTy) (g a : Option Cb) :
    value (internalRow e g a) = some (.irow ⟨e, g, a⟩) := by
  cases g <;> cases a <;> rfl

/-- Without parentheses `+ event / action` does not compile: unary `+` binds tighter. -/
theorem C37_internal_parens (e : EventTy) (g : Option Cb) (a : Cb) :
    value ([.plus, .val (.event e)] ++ guardToks g) = some (.irow ⟨e, g, none⟩) ∧
    value ([.plus, .val (.event e)] ++ guardToks g ++ actionToks (some a)) = none := by
  constructor
  · cases g <;> rfl
  · cases g <;> rfl

/-- C37 fails in general: with a guard and no event, the prefix notation does not compile.
(Also: `hsm::transition(*state<S>, ...)` is not the row `*state<S> + ...`, see below.) -/
theorem C37_refuted : ¬ C37_claim := by
  intro ⟨_, h⟩
  obtain ⟨r, _, _, _, _, _, h⟩ := h (.plain 1) (some 2) none 3
  have : value (prefixAnon (.plain 1) (some 2) none (.st 3)) = none := rfl
  rw [this] at h
  cases h

/-- C37 fails also for rows with events, for initial sources given to `hsm::transition`. -/
theorem C37_transition_refuted : ¬ ∀ (s : Src) (e : EventTy) (g a : Option Cb) (t : Name),
    transition (.state s.obj) (.event e) g a (.state (.st t)) =
      value (postfixRow s e g a (.st t)) := by
  intro h
  have := h (.start 1) (.user 0) none none 2
  rw [(C37_partial.1 (.start 1) (.user 0) none none 2).1] at this
  cases this

/-! ## Examples -/

/-- `* state<1> + event<0> [5] / 6 = state<2>` -/
example : value [.star, .val (.state (.st 1)), .plus, .val (.event (.user 0)), .lbr, .val (.cb 5),
    .rbr, .slash, .val (.cb 6), .assign, .val (.state (.st 2))] =
    some (.row ⟨.ps false (.initial 1), .user 0, some 5, some 6, .st 2⟩) := rfl

/-- `(*state<1>)[5] = state<2>` compiles, `*state<1>[5] = state<2>` does not. -/
example : value [.lpar, .star, .val (.state (.st 1)), .rpar, .lbr, .val (.cb 5), .rbr, .assign,
      .val (.state (.st 2))] = some (.row ⟨.ps false (.initial 1), .none, some 5, none, .st 2⟩) ∧
    value [.star, .val (.state (.st 1)), .lbr, .val (.cb 5), .rbr, .assign, .val (.state (.st 2))] =
      none := ⟨rfl, rfl⟩

/-- A root with one state marked initial in two rows. -/
def twice (own : Bool) : Machine :=
  Machine.ofList [{ table := some [⟨.ps false (.initial 1), .user 0, none, none, .st 2⟩,
    ⟨.ps own (.initial 1), .user 1, none, none, .st 2⟩] }, {}, {}] [1]

/-- The difference matters: one state marked initial in both ways makes two regions. -/
example : (twice false).maxInit = 1 ∧ (twice true).maxInit = 2 := by decide +kernel

end Hsm.Dsl
