import Verif.Machines
import Verif.Invariant
import Verif.StateInv

/-! Composed actions: `chain_actions` (chain_actions.h), `create_state`
(create_state.h) and `reuse_state` (reuse_state.h).  Properties C38 and C39. -/

namespace Hsm

/-! ## `chain_actions` -/

section
variable {P W : Type}

/-- An action, its arguments other than the event payload already given. (chain_actions.h:12-16) -/
abbrev Action (P W : Type) := P → W → CbRes P W Unit

/-- The call operator of the closure returned by `chain_actions`
(chain_actions.h:12-16): the comma fold `(f(args...), ...)` calls the actions from
left to right.  `args...` are named here, so every action gets the very same objects
(lvalues) and sees what earlier ones did to the event.  An exception leaves the fold. -/
def chainActions : List (Action P W) → Action P W
  | [], p, w => .ok () p w
  | a :: as, p, w =>
    match a p w with
    | .ok _ p' w' => chainActions as p' w'
    | .throw n p' w' => .throw n p' w'
    | .ub => .ub

/-- An action with data members of its own (`σ`), e.g. a `mutable` lambda: a call also
changes the object. (chain_actions.h:13-14: the lambda holds copies) -/
structure Functor (σ P W : Type) where
  own : σ
  call : σ → P → W → CbRes P W Unit × σ

/-- The fold of chain_actions.h:14 over such objects: the inner lambda takes its
parameters by value (`auto... f`), so it calls copies.  Returns the captured objects as
they are afterwards. -/
def chainFunctors {σ : Type} : List (Functor σ P W) → P → W →
    CbRes P W Unit × List (Functor σ P W)
  | [], p, w => (.ok () p w, [])
  | f :: fs, p, w =>
    let copy := f
    match (copy.call copy.own p w).1 with
    | .ok _ p' w' =>
      let r := chainFunctors fs p' w'
      (r.1, f :: r.2)
    | .throw n p' w' => (.throw n p' w', f :: fs)
    | .ub => (.ub, f :: fs)

/-- Actions `as[0] .. as[k-1]` were called one after the other, `st i` being event and
world before call `i`; all of them returned. -/
def Called (as : List (Action P W)) (k : Nat) (st : Nat → P × W) : Prop :=
  ∀ i a, i < k → as[i]? = some a → a (st i).1 (st i).2 = .ok () (st (i + 1)).1 (st (i + 1)).2

/-- **C38**, normal completion: the chain returns exactly if all its actions do, called
in order, each on what the previous one left. -/
theorem C38_ok (as : List (Action P W)) (p p' : P) (w w' : W) :
    chainActions as p w = .ok () p' w' ↔
    ∃ st : Nat → P × W, st 0 = (p, w) ∧ Called as as.length st ∧ st as.length = (p', w') := by
  induction as generalizing p w with
  | nil =>
    simp only [chainActions, CbRes.ok.injEq, true_and, List.length_nil]
    constructor
    · rintro ⟨rfl, rfl⟩
      exact ⟨fun _ => (p, w), rfl, by intro i a hi; omega, rfl⟩
    · rintro ⟨st, h1, _, h2⟩
      rw [h1] at h2
      cases h2
      exact ⟨rfl, rfl⟩
  | cons a as ih =>
    unfold chainActions
    constructor
    · intro h
      split at h
      · rename_i u p1 w1 ha
        obtain ⟨st, h1, h2, h3⟩ := (ih p1 w1).1 h
        refine ⟨fun i => if i = 0 then (p, w) else st (i - 1), rfl, ?_, by simpa using h3⟩
        intro i b hi hb
        cases i with
        | zero =>
          simp only [List.getElem?_cons_zero, Option.some.injEq] at hb
          subst hb
          simpa [h1] using ha
        | succ i =>
          simp only [List.getElem?_cons_succ] at hb
          simpa using h2 i b (by simpa using hi) hb
      · cases h
      · cases h
    · rintro ⟨st, h1, h2, h3⟩
      have ha := h2 0 a (by simp) rfl
      rw [h1] at ha
      rw [ha]
      refine (ih _ _).2 ⟨fun i => st (i + 1), rfl, ?_, by simpa using h3⟩
      intro i b hi hb
      exact h2 (i + 1) b (by simpa using hi) (by simpa using hb)

/-- **C38**, exceptions: the chain throws `n` exactly if some action throws `n` after
all before it returned; what it leaves is what that action left, so nothing after it
ran. -/
theorem C38_throw (as : List (Action P W)) (n : Nat) (p p' : P) (w w' : W) :
    chainActions as p w = .throw n p' w' ↔
    ∃ (k : Nat) (a : Action P W) (st : Nat → P × W), as[k]? = some a ∧ st 0 = (p, w) ∧
      Called as k st ∧ a (st k).1 (st k).2 = .throw n p' w' := by
  induction as generalizing p w with
  | nil => simp [chainActions]
  | cons a as ih =>
    unfold chainActions
    constructor
    · intro h
      split at h
      · rename_i u p1 w1 ha
        obtain ⟨k, b, st, h0, h1, h2, h3⟩ := (ih p1 w1).1 h
        refine ⟨k + 1, b, fun i => if i = 0 then (p, w) else st (i - 1), by simpa using h0, rfl,
          ?_, by simpa using h3⟩
        intro i c hi hc
        cases i with
        | zero =>
          simp only [List.getElem?_cons_zero, Option.some.injEq] at hc
          subst hc
          simpa [h1] using ha
        | succ i =>
          simp only [List.getElem?_cons_succ] at hc
          simpa using h2 i c (by omega) hc
      · rename_i n1 p1 w1 ha
        cases h
        exact ⟨0, a, fun _ => (p, w), rfl, rfl, by intro i _ hi; omega, ha⟩
      · cases h
    · rintro ⟨k, b, st, h0, h1, h2, h3⟩
      cases k with
      | zero =>
        simp only [List.getElem?_cons_zero, Option.some.injEq] at h0
        subst h0
        rw [h1] at h3
        rw [h3]
      | succ k =>
        have ha := h2 0 a (by omega) rfl
        rw [h1] at ha
        rw [ha]
        refine (ih _ _).2 ⟨k, b, fun i => st (i + 1), by simpa using h0, rfl, ?_, h3⟩
        intro i c hi hc
        exact h2 (i + 1) c (by omega) (by simpa using hc)

/-- **C38**: the chain is undefined exactly if an action is, when it is its turn. -/
theorem C38_ub (as : List (Action P W)) (p : P) (w : W) :
    chainActions as p w = .ub ↔
    ∃ (k : Nat) (a : Action P W) (st : Nat → P × W), as[k]? = some a ∧ st 0 = (p, w) ∧
      Called as k st ∧ a (st k).1 (st k).2 = .ub := by
  induction as generalizing p w with
  | nil => simp [chainActions]
  | cons a as ih =>
    unfold chainActions
    constructor
    · intro h
      split at h
      · rename_i u p1 w1 ha
        obtain ⟨k, b, st, h0, h1, h2, h3⟩ := (ih p1 w1).1 h
        refine ⟨k + 1, b, fun i => if i = 0 then (p, w) else st (i - 1), by simpa using h0, rfl,
          ?_, by simpa using h3⟩
        intro i c hi hc
        cases i with
        | zero =>
          simp only [List.getElem?_cons_zero, Option.some.injEq] at hc
          subst hc
          simpa [h1] using ha
        | succ i =>
          simp only [List.getElem?_cons_succ] at hc
          simpa using h2 i c (by omega) hc
      · cases h
      · rename_i ha
        exact ⟨0, a, fun _ => (p, w), rfl, rfl, by intro i _ hi; omega, ha⟩
    · rintro ⟨k, b, st, h0, h1, h2, h3⟩
      cases k with
      | zero =>
        simp only [List.getElem?_cons_zero, Option.some.injEq] at h0
        subst h0
        rw [h1] at h3
        rw [h3]
      | succ k =>
        have ha := h2 0 a (by omega) rfl
        rw [h1] at ha
        rw [ha]
        refine (ih _ _).2 ⟨k, b, fun i => st (i + 1), by simpa using h0, rfl, ?_, h3⟩
        intro i c hi hc
        exact h2 (i + 1) c (by omega) (by simpa using hc)

theorem chainActions_append (as bs : List (Action P W)) (p : P) (w : W) :
    chainActions (as ++ bs) p w = chainActions [chainActions as, chainActions bs] p w := by
  induction as generalizing p w with
  | nil =>
    simp only [List.nil_append, chainActions]
    cases chainActions bs p w <;> rfl
  | cons a as ih =>
    simp only [List.cons_append, chainActions]
    cases ha : a p w with
    | ok u p1 w1 => exact ih p1 w1
    | throw n p1 w1 => rfl
    | ub => rfl

/-- **C38**: chaining is associative, whatever the grouping. -/
theorem C38_assoc (ass : List (List (Action P W))) :
    chainActions (ass.map chainActions) = chainActions ass.flatten := by
  induction ass with
  | nil => rfl
  | cons as ass ih =>
    funext p w
    rw [List.flatten_cons, chainActions_append]
    simp only [List.map_cons, chainActions, ih]
    cases chainActions as p w with
    | ok u p1 w1 =>
      simp only
      cases chainActions ass.flatten p1 w1 <;> rfl
    | throw n p1 w1 => rfl
    | ub => rfl

/-- **C38**: chaining nothing does nothing, chaining one action is that action. -/
theorem C38_trivial (a : Action P W) (p : P) (w : W) :
    chainActions [] p w = .ok () p w ∧ chainActions [a] p w = a p w := by
  refine ⟨rfl, ?_⟩
  simp only [chainActions]
  cases a p w <;> rfl

/-- **C38**, actions with state of their own: the chain behaves like the chain of the
actions as they were captured, and leaves them so, however often it is called. -/
theorem C38_copies {σ : Type} (fs : List (Functor σ P W)) (p : P) (w : W) :
    chainFunctors fs p w =
      (chainActions (fs.map fun f p w => (f.call f.own p w).1) p w, fs) := by
  induction fs generalizing p w with
  | nil => rfl
  | cons f fs ih =>
    simp only [chainFunctors, List.map_cons, chainActions]
    cases (f.call f.own p w).1 with
    | ok u p1 w1 => simp only [ih]
    | throw n p1 w1 => rfl
    | ub => rfl

end

/-- An action that counts its own calls and one that throws. -/
example : chainFunctors (P := Nat) (W := List Nat)
    [⟨0, fun n p w => (.ok () (p + 1) (w ++ [n]), n + 1)⟩,
     ⟨5, fun n p w => (.throw 7 p (w ++ [p, n]), n)⟩,
     ⟨9, fun n p w => (.ok () p (w ++ [n]), n)⟩] 1 [] =
    (.throw 7 2 [0, 2, 5],
      [⟨0, fun n p w => (.ok () (p + 1) (w ++ [n]), n + 1)⟩,
       ⟨5, fun n p w => (.throw 7 p (w ++ [p, n]), n)⟩,
       ⟨9, fun n p w => (.ok () p (w ++ [n]), n)⟩]) := rfl

/-! ## `create_state` and `reuse_state` -/

/-- The state objects (`m_statesMap`, sm.h:42) and the rest of the world.  `obj st` is
the object `**ptr` of the map's entry for `st`, `none` if `*ptr` is null.  `made`
(ghost) lists what state factories returned: an object (`true`) or null (`false`). -/
structure ObjW (U V : Type) where
  obj : StTy → Option V
  user : U
  made : List (StTy × Bool)

section
variable {P U V : Type}

/-- The user's guards and actions: they get references to state objects and may change
them in place, but neither create nor destroy any.  (An action of a row into a state
without default constructor gets the `shared_ptr<unique_ptr<T>>` and could also reset
it by hand; only `create_state` is modelled as doing so.) (create_state.h:13-16, reuse_state.h:12-15) -/
abbrev UserCb (P U V α : Type) :=
  Args → P → (StTy → Option V) → U → CbRes P (U × (StTy → V → V)) α

/-- Run such a callback. (create_state.h:15, reuse_state.h:15) -/
def UserCb.run {α : Type} (f : UserCb P U V α) (args : Args) (p : P) (w : ObjW U V) :
    CbRes P (ObjW U V) α :=
  match f args p w.obj w.user with
  | .ok a p' u => .ok a p' { w with obj := fun st => (w.obj st).map (u.2 st), user := u.1 }
  | .throw n p' u =>
    .throw n p' { w with obj := fun st => (w.obj st).map (u.2 st), user := u.1 }
  | .ub => .ub

/-- The actions of the library applied to the user's.
(create_state.h:5-24, reuse_state.h:5-24, chain_actions.h:12-16) -/
inductive Act (P U V : Type)
  | user (f : UserCb P U V Unit)
  /-- `create_state(f)` -/
  | create (f : Args → P → (StTy → Option V) → U → CbRes Unit U (Option V))
  /-- `reuse_state(f)`; `f` gets the target object as well -/
  | reuse (f : V → UserCb P U V Unit)
  /-- `chain_actions(as...)` -/
  | chain (as : List (Act P U V))

mutual
/-- `CreateState::operator()` (create_state.h:12-16): event and source are copies, so
the event is left alone; `*target = …` happens only if the factory returns.
`ReuseState::operator()` (reuse_state.h:12-16): `**target` is undefined for a null
pointer; event and source are copies as well.  Both take the target as a pointer; on a
default constructible target, or with a dependency as fourth argument, they do not
compile (the former is `.ub` here, the latter is not excluded). -/
def Act.run : Act P U V → Args → P → ObjW U V → CbRes P (ObjW U V) Unit
  | .user f, args, p, w => f.run args p w
  | .create f, args, p, w =>
    if args.byPtr then
      match f args p w.obj w.user with
      | .ok o _ u =>
        .ok () p { obj := fun st => if st = args.dst then o else w.obj st
                   user := u
                   made := w.made ++ [(args.dst, o.isSome)] }
      | .throw n _ u => .throw n p { w with user := u }
      | .ub => .ub
    else .ub
  | .reuse f, args, p, w =>
    if args.byPtr then
      match w.obj args.dst with
      | some v =>
        match (f v).run args p w with
        | .ok _ _ w' => .ok () p w'
        | .throw n _ w' => .throw n p w'
        | .ub => .ub
      | none => .ub
    else .ub
  | .chain as, args, p, w => Act.runs as args p w
/-- The fold of `chain_actions` (chain_actions.h:12-16). -/
def Act.runs : List (Act P U V) → Args → P → ObjW U V → CbRes P (ObjW U V) Unit
  | [], _, p, w => .ok () p w
  | a :: as, args, p, w =>
    match Act.run a args p w with
    | .ok _ p' w' => Act.runs as args p' w'
    | .throw n p' w' => .throw n p' w'
    | .ub => .ub
end

/-- The fold here is the one of C38. -/
theorem Act.runs_eq (as : List (Act P U V)) (args : Args) :
    Act.runs as args = chainActions (as.map fun a => Act.run a args) := by
  induction as with
  | nil => funext p w; rw [Act.runs]; rfl
  | cons a as ih =>
    funext p w
    rw [Act.runs, List.map_cons, chainActions, ih]
    cases Act.run a args p w <;> rfl

/-- **C38** for actions that use the state objects: `chain_actions` of any of these actions, also of
`create_state`, `reuse_state` and other chains, runs them in order as `C38_ok`, `C38_throw` and `C38_ub` say. -/
theorem C38_objects (as : List (Act P U V)) (args : Args) :
    (Act.chain as).run args = chainActions (as.map fun a => a.run args) := by
  funext p w
  rw [Act.run, Act.runs_eq]

/-- A user's code with state objects. (create_state.h:7-9, reuse_state.h:7-9) -/
structure ObjCode (P U V : Type) where
  guard : Cb → UserCb P U V Bool
  action : Cb → Act P U V
  handler : Cb → EventTy → StTy → Dep → UserCb P U V Unit
  nonePayload : P

/-- That code as callbacks of the machine model.  A handler gets no `Args`; the ones
passed on only carry what it gets. (dispatch_table.h:54-162; create_state.h:13-16) -/
def ObjCode.sem (C : ObjCode P U V) : Sem P (ObjW U V) where
  guard g := (C.guard g).run
  action a := (C.action a).run
  handler h ev st d :=
    (C.handler h ev st d).run { event := ev, src := st, dst := st, byPtr := false, dep := d }
  alive st w := (w.obj st).isSome
  nonePayload := C.nonePayload

/-- A history of a machine with such code.  At first no object of a state without
default constructor exists (traits.h:51-58); between calls the user may change their
own world and existing objects. -/
inductive ObjStep (M : Machine) (C : ObjCode P U V) : SM P (ObjW U V) → SM P (ObjW U V) → Prop
  | ok {s s' : SM P (ObjW U V)} {op : Op P} {fuel : Nat} {b : Bool} (hop : OpOk M op)
      (h : step M C.sem fuel op s = .ok b s') : ObjStep M C s s'
  | throw {s s' : SM P (ObjW U V)} {op : Op P} {fuel : Nat} {x : Exn} (hop : OpOk M op)
      (h : step M C.sem fuel op s = .throw x s') : ObjStep M C s s'
  | user {s : SM P (ObjW U V)} (u : U) (f : StTy → V → V) :
      ObjStep M C s
        { s with world := { s.world with obj := fun st => (s.world.obj st).map (f st), user := u } }

/-- Any number of steps. -/
inductive ObjSteps (M : Machine) (C : ObjCode P U V) : SM P (ObjW U V) → SM P (ObjW U V) → Prop
  | refl (s : SM P (ObjW U V)) : ObjSteps M C s s
  | tail {s s' s'' : SM P (ObjW U V)} (h : ObjSteps M C s s') (h' : ObjStep M C s' s'') :
      ObjSteps M C s s''

/-- A freshly constructed machine. -/
def ObjInit (M : Machine) (s : SM P (ObjW U V)) : Prop :=
  ∃ d w, construct M d w = .ok s ∧ w.made = [] ∧
    ∀ st, M.defaultCtor st = false → w.obj st = none

/-- Specification: the last thing a factory returned for `st` is an object. -/
def Created (made : List (StTy × Bool)) (st : StTy) : Prop :=
  ∃ before after, made = before ++ (st, true) :: after ∧ (st, false) ∉ after

/-- The objects that exist are the ones created. -/
def ObjInv (M : Machine) (w : ObjW U V) : Prop :=
  ∀ st, M.defaultCtor st = false → ((w.obj st).isSome = true ↔ Created w.made st)

/-- What callbacks do to the objects: factories are called, nothing else. -/
def Grow (M : Machine) (w w' : ObjW U V) : Prop :=
  (∃ new, w'.made = w.made ++ new) ∧ (ObjInv M w → ObjInv M w')

theorem Grow.refl (M : Machine) (w : ObjW U V) : Grow M w w := ⟨⟨[], by simp⟩, id⟩

theorem Grow.trans {M : Machine} {w w' w'' : ObjW U V} (h : Grow M w w') (h' : Grow M w' w'') :
    Grow M w w'' := by
  obtain ⟨⟨n, hn⟩, h⟩ := h
  obtain ⟨⟨n', hn'⟩, h'⟩ := h'
  exact ⟨⟨n ++ n', by rw [hn', hn, List.append_assoc]⟩, fun hw => h' (h hw)⟩

theorem Grow.map (M : Machine) (w : ObjW U V) (u : U) (f : StTy → V → V) :
    Grow M w { w with obj := fun st => (w.obj st).map (f st), user := u } := by
  refine ⟨⟨[], by simp⟩, fun h st hst => ?_⟩
  rw [← h st hst]
  simp

theorem created_snoc_same (made : List (StTy × Bool)) (st : StTy) (b : Bool) :
    Created (made ++ [(st, b)]) st ↔ b = true := by
  constructor
  · rintro ⟨pre, post, h, hn⟩
    rcases List.eq_nil_or_concat post with rfl | ⟨post', x, rfl⟩
    · have := List.append_inj_right' h rfl
      simp only [List.cons.injEq, Prod.mk.injEq, true_and, and_true] at this
      exact this
    · rw [List.concat_eq_append, ← List.cons_append, ← List.append_assoc] at h
      have := List.append_inj_right' h rfl
      simp only [List.cons.injEq, and_true] at this
      subst this
      cases b with
      | true => rfl
      | false => simp at hn
  · rintro rfl
    exact ⟨made, [], rfl, by simp⟩

theorem created_snoc_other (made : List (StTy × Bool)) {st st' : StTy} (b : Bool) (hne : st ≠ st') :
    Created (made ++ [(st', b)]) st ↔ Created made st := by
  constructor
  · rintro ⟨pre, post, h, hn⟩
    rcases List.eq_nil_or_concat post with rfl | ⟨post', x, rfl⟩
    · have := List.append_inj_right' h rfl
      simp only [List.cons.injEq, Prod.mk.injEq, and_true] at this
      exact absurd this.1.symm hne
    · rw [List.concat_eq_append, ← List.cons_append, ← List.append_assoc] at h
      have h2 := List.append_inj_left' h rfl
      refine ⟨pre, post', h2, fun hm => hn (by simp [hm])⟩
  · rintro ⟨pre, post, rfl, hn⟩
    refine ⟨pre, post ++ [(st', b)], by simp, ?_⟩
    simp only [List.mem_append, List.mem_singleton, Prod.mk.injEq, not_or, not_and]
    exact ⟨hn, fun h => absurd h hne⟩

/-- A result whose world, if there is one, satisfies `Q`. -/
def CbRes.World {P W α : Type} (Q : W → Prop) : CbRes P W α → Prop
  | .ok _ _ w => Q w
  | .throw _ _ w => Q w
  | .ub => True

theorem UserCb.grow {α : Type} (M : Machine) (f : UserCb P U V α) (args : Args) (p : P)
    (w : ObjW U V) : (f.run args p w).World (Grow M w) := by
  unfold UserCb.run
  split
  · exact Grow.map M w _ _
  · exact Grow.map M w _ _
  · trivial

theorem chainActions_world {P W : Type} {R : W → W → Prop} (hrefl : ∀ w, R w w)
    (htrans : ∀ w w' w'', R w w' → R w' w'' → R w w'') (as : List (Action P W))
    (h : ∀ a ∈ as, ∀ p w, (a p w).World (R w)) (p : P) (w : W) :
    (chainActions as p w).World (R w) := by
  induction as generalizing p w with
  | nil => exact hrefl w
  | cons a as ih =>
    have ha := h a (by simp) p w
    unfold chainActions
    split
    · rename_i u p1 w1 heq
      rw [heq] at ha
      have := ih (fun b hb => h b (by simp [hb])) p1 w1
      revert this
      cases chainActions as p1 w1 with
      | ok _ p2 w2 => exact htrans _ _ _ ha
      | throw _ p2 w2 => exact htrans _ _ _ ha
      | ub => exact id
    · rename_i heq; rw [heq] at ha; exact ha
    · trivial

theorem Grow.create (M : Machine) (w : ObjW U V) (dst : StTy) (o : Option V) (u : U) :
    Grow M w { obj := fun st => if st = dst then o else w.obj st
               user := u
               made := w.made ++ [(dst, o.isSome)] } := by
  refine ⟨⟨_, rfl⟩, fun h st hst => ?_⟩
  show (if st = dst then o else w.obj st).isSome = true ↔ Created (w.made ++ [(dst, o.isSome)]) st
  by_cases hd : st = dst
  · subst hd
    rw [created_snoc_same, if_pos rfl]
  · rw [created_snoc_other _ _ hd, if_neg hd]
    exact h st hst

mutual
theorem Act.grow (M : Machine) : ∀ (a : Act P U V) (args : Args) (p : P) (w : ObjW U V),
    (a.run args p w).World (Grow M w)
  | .user f, args, p, w => by
    rw [Act.run]; exact UserCb.grow M f args p w
  | .create f, args, p, w => by
    rw [Act.run]
    split
    · split
      · exact Grow.create M w _ _ _
      · exact ⟨⟨[], by simp⟩, fun h => h⟩
      · trivial
    · trivial
  | .reuse f, args, p, w => by
    rw [Act.run]
    split
    · split
      · rename_i v _
        have := UserCb.grow M (f v) args p w
        split
        · rename_i heq; rw [heq] at this; exact this
        · rename_i heq; rw [heq] at this; exact this
        · trivial
      · trivial
    · trivial
  | .chain as, args, p, w => by
    rw [Act.run]; exact Act.grows M as args p w
theorem Act.grows (M : Machine) : ∀ (as : List (Act P U V)) (args : Args) (p : P) (w : ObjW U V),
    (Act.runs as args p w).World (Grow M w)
  | [], args, p, w => by rw [Act.runs]; exact Grow.refl M w
  | a :: as, args, p, w => by
    rw [Act.runs]
    have ha := Act.grow M a args p w
    split
    · rename_i u p1 w1 heq
      rw [heq] at ha
      have := Act.grows M as args p1 w1
      revert this
      cases Act.runs as args p1 w1 with
      | ok _ p2 w2 => exact Grow.trans ha
      | throw _ p2 w2 => exact Grow.trans ha
      | ub => exact id
    · rename_i heq; rw [heq] at ha; exact ha
    · trivial
end

/-- A property of the world that all callbacks keep is kept by event processing. -/
theorem Preserves.world {P W : Type} {M : Machine} {sem : Sem P W} {Q : W → Prop}
    (hg : ∀ g args p w, Q w → (sem.guard g args p w).World Q)
    (ha : ∀ a args p w, Q w → (sem.action a args p w).World Q) :
    Preserves M sem True (fun _ => True) (fun s => Q s.world) := by
  have worldOf : ∀ {r r' : CbRes P W Unit}, r = r' → r.World Q → r'.World Q := by
    intro r r' h; rw [h]; exact id
  have run : ∀ {cur : List (Option Nat)} {args : Args} {cs : List (Phase × Cb)} {p p' : P}
      {w w' : W} {tr : List (Call P)}, ActRun sem cur args cs p w tr p' w' → Q w → Q w' := by
    intro cur args cs p p' w w' tr h
    induction h with
    | nil => exact id
    | cons hc _ ih =>
      intro hq
      have := worldOf hc (ha _ _ _ _ hq)
      exact ih this
  have runT : ∀ {cur : List (Option Nat)} {args : Args} {cs : List (Phase × Cb)} {p : P}
      {n : Nat} {w w' : W} {tr : List (Call P)}, ActThrow sem cur args cs p w tr n w' →
      Q w → Q w' := by
    intro cur args cs p n w w' tr h
    induction h with
    | here hc =>
      intro hq
      have := worldOf hc (ha _ _ _ _ hq)
      exact this
    | later hc _ ih =>
      intro hq
      have := worldOf hc (ha _ _ _ _ hq)
      exact ih this
  exact {
    regions := fun _ _ _ _ => trivial
    look := fun _ _ _ _ _ _ _ => trivial
    null := fun _ _ _ _ _ _ _ _ _ _ _ => trivial
    guard := by
      intro s ev r c e x p hs _ _ _ _
      cases hx : x.guard with
      | none => rw [execGuard_none hx]; exact hs
      | some g =>
        rw [execGuard_some hx]
        split
        · have := hg g (guardArgs x ev) p s.world hs
          split
          · rename_i heq; rw [heq] at this; exact this
          · rename_i heq; rw [heq] at this; exact this
          · trivial
        · trivial
    fire := by
      intro s0 s ev r c e x p0 p _ hs _ hc he _ _
      apply Res.sat_of_true
      · intro p1 s1 h
        obtain ⟨s2, tr, w, h1, h2, rfl⟩ := fire_ok h
        exact run h2 hs
      · intro n s1 h
        obtain ⟨s2, tr, k, w, _, h1, h2, rfl⟩ := fire_throw h
        exact runT h2 hs
    push := fun _ _ _ _ _ _ hs _ _ _ _ => hs
    pop := fun _ _ _ _ hs _ => hs }

theorem step_world {P W : Type} {M : Machine} {sem : Sem P W} {Q : W → Prop}
    (hg : ∀ g args p w, Q w → (sem.guard g args p w).World Q)
    (ha : ∀ a args p w, Q w → (sem.action a args p w).World Q)
    (hh : ∀ h ev st d p w, Q w → (sem.handler h ev st d p w).World Q)
    (fuel : Nat) (op : Op P) (s : SM P W) (hs : Q s.world) :
    (step M sem fuel op s).Sat True (fun _ s' => Q s'.world) (fun _ s' => Q s'.world) := by
  cases op with
  | process ev p =>
    refine (Preserves.world (M := M) hg ha).processEvent fuel ev p s ?_ hs
    intro s p hs
    apply Res.sat_of_true
    · intro p1 s1 h
      rcases callHandler_ok h with ⟨_, _, rfl⟩ | ⟨hd, c, st, d, w, _, _, _, _, h', rfl⟩
      · exact hs
      · have := hh hd ev st d p s.world hs
        rw [h'] at this; exact this
    · intro n s1 h
      rcases callHandler_throw h with ⟨_, rfl, _⟩ | ⟨hd, c, st, d, w, k, p', _, _, _, _, _, h', rfl⟩
      · exact hs
      · have := hh hd ev st d p s.world hs
        rw [h'] at this; exact this
  | set r p st =>
    show (Res.bind _ _).Sat _ _ _
    unfold setOp
    split
    · exact hs
    · exact hs
  | setDependency d =>
    show (Res.bind _ _).Sat _ _ _
    unfold Hsm.setDependency
    split
    · exact hs
    · trivial

theorem CbRes.World.imp {P W α : Type} {Q Q' : W → Prop} {r : CbRes P W α} (h : r.World Q)
    (hQ : ∀ w, Q w → Q' w) : r.World Q' := by
  cases r with
  | ok a p w => exact hQ _ h
  | throw n p w => exact hQ _ h
  | ub => trivial

theorem ObjStep.grow {M : Machine} {C : ObjCode P U V} {s s' : SM P (ObjW U V)}
    (h : ObjStep M C s s') : Grow M s.world s'.world := by
  have key := fun (fuel : Nat) (op : Op P) =>
    step_world (M := M) (sem := C.sem) (Q := Grow M s.world)
      (fun g args p w hw => (UserCb.grow M (C.guard g) args p w).imp fun _ => hw.trans)
      (fun a args p w hw => (Act.grow M (C.action a) args p w).imp fun _ => hw.trans)
      (fun h ev st d p w hw => (UserCb.grow M (C.handler h ev st d) _ p w).imp fun _ => hw.trans)
      fuel op s (Grow.refl M _)
  cases h with
  | @ok _ op fuel b hop h =>
    have := key fuel op
    rw [h] at this; exact this
  | @throw _ op fuel x hop h =>
    have := key fuel op
    rw [h] at this; exact this
  | user u f => exact Grow.map M s.world u f

theorem ObjSteps.grow {M : Machine} {C : ObjCode P U V} {s s' : SM P (ObjW U V)}
    (h : ObjSteps M C s s') : Grow M s.world s'.world := by
  induction h with
  | refl => exact Grow.refl M _
  | tail _ h' ih => exact ih.trans h'.grow

theorem ObjInit.inv {M : Machine} {s : SM P (ObjW U V)} (h : ObjInit M s) :
    ObjInv M s.world := by
  obtain ⟨d, w, h, hm, ho⟩ := h
  have hw : s.world = w := (construct_ok h).2.2.2.2.2.2.2.1
  intro st hst
  rw [hw, ho st hst, hm]
  simp [Created]

variable {M : Machine} {C : ObjCode P U V}

/-- **C39**: in every history, the object of a state without default constructor exists
exactly if a factory created it before. -/
theorem C39_exists {s0 s : SM P (ObjW U V)} (hi : ObjInit M s0) (h : ObjSteps M C s0 s) {st : StTy}
    (hst : M.defaultCtor st = false) :
    (s.world.obj st).isSome = true ↔ Created s.world.made st :=
  h.grow.2 hi.inv st hst

/-- **C39**: an action built with `create_state` whose factory returns makes the object
the factory returned exist, leaves the event and all other objects alone; if the
factory throws, nothing happens to any object. -/
theorem C39_create (f : Args → P → (StTy → Option V) → U → CbRes Unit U (Option V)) (args : Args)
    (hptr : args.byPtr = true) (p : P) (w : ObjW U V) :
    (∀ o q u, f args p w.obj w.user = .ok o q u →
      ∃ w', (Act.create f).run args p w = .ok () p w' ∧ w'.obj args.dst = o ∧ w'.user = u ∧
        (o.isSome = true → Created w'.made args.dst) ∧
        ∀ st, st ≠ args.dst → w'.obj st = w.obj st) ∧
    (∀ n q u, f args p w.obj w.user = .throw n q u →
      ∃ w', (Act.create f).run args p w = .throw n p w' ∧ w'.obj = w.obj ∧ w'.made = w.made) := by
  constructor
  · intro o q u h
    refine ⟨{ obj := fun st => if st = args.dst then o else w.obj st
              user := u
              made := w.made ++ [(args.dst, o.isSome)] }, ?_, ?_, rfl, ?_, ?_⟩
    · rw [Act.run, if_pos hptr, h]
    · exact if_pos rfl
    · intro ho
      exact (created_snoc_same _ _ _).2 ho
    · intro st hne
      exact if_neg hne
  · intro n q u h
    refine ⟨{ w with user := u }, ?_, rfl, rfl⟩
    rw [Act.run, if_pos hptr, h]

/-- **C39**, "from then on": once created, an object exists in all later states unless a
factory for it returns null. -/
theorem C39_stays {s0 s1 s2 : SM P (ObjW U V)} (hi : ObjInit M s0) (h1 : ObjSteps M C s0 s1)
    (h2 : ObjSteps M C s1 s2) {st : StTy} (hst : M.defaultCtor st = false)
    (hc : Created s1.world.made st)
    (hnull : (st, false) ∉ s2.world.made.drop s1.world.made.length) :
    (s2.world.obj st).isSome = true := by
  obtain ⟨⟨new, hnew⟩, hinv⟩ := h2.grow
  refine (hinv (h1.grow.2 hi.inv) st hst).2 ?_
  rw [hnew, List.drop_left] at hnull
  obtain ⟨pre, post, he, hn⟩ := hc
  refine ⟨pre, post ++ new, by rw [hnew, he]; simp, ?_⟩
  simp only [List.mem_append, not_or]
  exact ⟨hn, hnull⟩

theorem objOk_created {s0 s : SM P (ObjW U V)} (hi : ObjInit M s0) (h : ObjSteps M C s0 s)
    (st : StTy) : objOk M C.sem st s = false ↔ M.defaultCtor st = false ∧ ¬ Created s.world.made st := by
  unfold objOk
  rw [Bool.or_eq_false_iff]
  constructor
  · rintro ⟨h1, h2⟩
    refine ⟨h1, fun hc => ?_⟩
    have : C.sem.alive st s.world = true := (C39_exists hi h h1).2 hc
    rw [this] at h2; cases h2
  · rintro ⟨h1, h2⟩
    refine ⟨h1, ?_⟩
    cases h3 : C.sem.alive st s.world with
    | false => rfl
    | true => exact absurd ((C39_exists hi h h1).1 h3) h2

/-- **C39**, guards: evaluating the guard of a row dereferences a null pointer exactly
if its source or its target (the source again for an internal row) has no default
constructor and has not been created. -/
theorem C39_guard {s0 s : SM P (ObjW U V)} (hi : ObjInit M s0) (h : ObjSteps M C s0 s) (x : Exec)
    {g : Cb} (hg : x.guard = some g) (ev : EventTy) (p : P) :
    execGuard M C.sem x ev p s = .ub .nullObject ↔
      ∃ st, (st = x.src ∨ (x.internal = false ∧ st = x.dst)) ∧ M.defaultCtor st = false ∧
        ¬ Created s.world.made st := by
  rw [execGuard_some hg]
  have hsrc : (guardArgs x ev).src = x.src := rfl
  have hdst : (guardArgs x ev).dst = if x.internal then x.src else x.dst := rfl
  constructor
  · intro h0
    split at h0
    · split at h0 <;> cases h0
    · rename_i hb
      rw [Bool.not_eq_true, Bool.and_eq_false_iff, hsrc, hdst] at hb
      rcases hb with hb | hb
      · exact ⟨x.src, Or.inl rfl, (objOk_created hi h _).1 hb⟩
      · cases hx : x.internal with
        | true =>
          rw [hx, if_pos rfl] at hb
          exact ⟨x.src, Or.inl rfl, (objOk_created hi h _).1 hb⟩
        | false =>
          rw [hx, if_neg (by simp)] at hb
          exact ⟨x.dst, Or.inr ⟨rfl, rfl⟩, (objOk_created hi h _).1 hb⟩
  · rintro ⟨st, hst, hd⟩
    have hb := (objOk_created hi h st).2 hd
    rw [if_neg]
    rw [Bool.not_eq_true, Bool.and_eq_false_iff, hsrc, hdst]
    rcases hst with rfl | ⟨hx, rfl⟩
    · exact Or.inl hb
    · rw [hx, if_neg (by simp)]
      exact Or.inr hb

theorem runCbs_nullObject {P W : Type} {sem : Sem P W} {args : Args} {cs : List (Phase × Cb)}
    {p : P} {s : SM P W} : runCbs sem args cs p s ≠ .ub .nullObject := by
  induction cs generalizing p s with
  | nil => intro h; cases h
  | cons c cs ih =>
    unfold runCbs
    split
    · exact ih
    · intro h; cases h
    · intro h; cases h

/-- **C39**, rows out of such a state: running the actions of a row dereferences the null
pointer of its source exactly if the source has no default constructor and has not been
created. -/
theorem C39_source {s0 s : SM P (ObjW U V)} (hi : ObjInit M s0) (h : ObjSteps M C s0 s) (x : Exec)
    {cs : List (Phase × Cb)} (ha : x.action = some cs) (ev : EventTy) (p : P) :
    execAction M C.sem x ev p s = .ub .nullObject ↔
      M.defaultCtor x.src = false ∧ ¬ Created s.world.made x.src := by
  rw [← objOk_created hi h]
  unfold execAction
  rw [ha]
  constructor
  · intro h0
    simp only at h0
    split at h0
    · exact absurd h0 runCbs_nullObject
    · rename_i hb; simpa using hb
  · intro hb
    simp [hb]

/-- **C39**, `reuse_state`: on a row into a state without default constructor it is
undefined exactly if that state has not been created, or if the user's own action is
when called on the object. -/
theorem C39_reuse {s0 s : SM P (ObjW U V)} (hi : ObjInit M s0) (h : ObjSteps M C s0 s) (x : Exec)
    (hx : M.defaultCtor x.dst = false) {a : Cb} {f : V → UserCb P U V Unit}
    (ha : C.action a = .reuse f) (ev : EventTy) (p : P) :
    C.sem.action a (actionArgs M x ev) p s.world = .ub ↔
      ¬ Created s.world.made x.dst ∨ ∃ v, s.world.obj x.dst = some v ∧
        f v (actionArgs M x ev) p s.world.obj s.world.user = .ub := by
  have hargs : actionArgs M x ev =
      { event := ev, src := x.src, dst := x.dst, byPtr := true, dep := x.dep } := by
    unfold actionArgs
    rw [if_neg (by rw [hx]; simp)]
  rw [← C39_exists hi h hx]
  show Act.run (C.action a) _ _ _ = .ub ↔ _
  rw [ha, Act.run, hargs]
  simp only [if_true]
  cases ho : s.world.obj x.dst with
  | none => simp
  | some v =>
    simp only [Option.isSome_some, not_true_eq_false, Option.some.injEq, exists_eq_left', false_or]
    unfold UserCb.run
    cases f v { event := ev, src := x.src, dst := x.dst, byPtr := true, dep := x.dep } p
      s.world.obj s.world.user with
    | ok => simp
    | throw => simp
    | ub => simp

/-- **C39**: in one chain, `reuse_state` after `create_state` finds the new object. -/
theorem C39_chain (f : Args → P → (StTy → Option V) → U → CbRes Unit U (Option V))
    (g : V → UserCb P U V Unit) (args : Args) (hptr : args.byPtr = true) (p : P) (w : ObjW U V)
    (v : V) (q : Unit) (u : U) (hf : f args p w.obj w.user = .ok (some v) q u) :
    (Act.chain [.create f, .reuse g]).run args p w = .ub ↔
      g v args p (fun st => if st = args.dst then some v else w.obj st) u = .ub := by
  simp only [Act.run, Act.runs, hptr, if_true, hf]
  unfold UserCb.run
  simp only
  cases g v args p (fun st => if st = args.dst then some v else w.obj st) u with
  | ok => simp
  | throw => simp
  | ub => simp

end

/-! ## The machine of the repository's test

`custom_targets.cpp`: `S1 + e1 / create_state = S2`, `S1 + e2 / reuse_state = S2`,
`S2 + e1 = S1`. -/

namespace Ex

def targets : Machine := Machine.ofList
  [ { table := some
        [ row (ini 1) (ev 1) none (some 1) (.st 2), row (.st 1) (ev 2) none (some 2) (.st 2),
          row (.st 1) (ev 4) (some 100) (some 1) (.st 2),
          row (.st 2) (ev 1) none (some 3) (.st 1) ] },
    { }, { defaultCtor := false } ] [1]

/-- Factory 1 makes an object of the event, action 2 reads it, action 3 adds 1 to all
objects. -/
def targetsCode : ObjCode Nat (List Nat) Nat where
  guard _ _ p _ u := .ok true p (u, fun _ v => v)
  action a :=
    if a = 1 then .create fun _ p _ u => .ok (some p) () u
    else if a = 2 then .reuse fun v _ p _ u => .ok () p (u ++ [v], fun _ v => v)
    else .user fun _ p _ u => .ok () p (u, fun _ v => v + 1)
  handler _ _ _ _ _ p _ u := .ok () p (u, fun _ v => v)
  nonePayload := 0

def targetsW : ObjW (List Nat) Nat := ⟨fun _ => none, [], []⟩

/-- Created with 7, changed on leaving, then reused: the action reads 8. -/
example : (run targets targetsCode.sem 5 0 targetsW
      [.process (ev 1) 7, .process (ev 1) 0, .process (ev 2) 0]).any
    (fun s => s.world.user == [8] && s.world.made == [(.st 2, true)]) = true := by decide +kernel

/-- Reusing before creating is undefined. -/
example : (match construct (P := Nat) targets 0 targetsW with
    | .ok s => match step targets targetsCode.sem 5 (.process (ev 2) 0) s with
      | .ub u => u == .callback
      | _ => false
    | .error _ => false) = true := by decide +kernel

/-- So is a guard on the row that would create the object. -/
example : (match construct (P := Nat) targets 0 targetsW with
    | .ok s => match step targets targetsCode.sem 5 (.process (ev 4) 0) s with
      | .ub u => u == .nullObject
      | _ => false
    | .error _ => false) = true := by decide +kernel

end Ex
end Hsm
