import Verif.Programs
import Verif.PropsPlay

/-!
# The machines of the complex benchmark written by hand

benchmark/complex compares the library with machines written by hand: switch.cpp and variant.cpp.
C115: do they do the same?
-/

namespace Hsm
namespace Programs
open Ex

/-! ## Model -/

/-- The members `guard` and `action` of the classes, with whatever they may do instead of returning
`true` and doing nothing (benchmark/complex/switch.cpp:166-172, variant.cpp:228-234,
ComplexStateMachine.h:108-109).  Simplification: they do not throw. -/
structure Own (W : Type) where
  guard : W → Bool × W
  action : W → W

section
variable {W : Type} (u : Own W)

/-- `c::handle` of benchmark/complex/switch.cpp:174-872.  The states S1 to S50 are 0 to 49, the events e1
to e50 likewise; `none` for the member `state` means that it has not been given a value, and for the
result that it is read nevertheless, which is undefined.  The 50 overloads are alike: in state S`k` event
e`k` asks the guard; if it says yes, the action is run and S`k+1` follows, S1 after S50. -/
def switchHandle (e : Fin 50) (c : Option (Fin 50) × W) : Option (Option (Fin 50) × W) :=
  match c.1 with
  | none => none
  | some k =>
    if k = e then
      if (u.guard c.2).1 then some (some (e + 1), u.action (u.guard c.2).2)
      else some (some k, (u.guard c.2).2)
    else some c

/-- Events one after the other (the loop of benchmark/complex/switch.cpp:879-982, whatever `rand` says). -/
def switchRun : List (Fin 50) → Option (Fin 50) × W → Option (Option (Fin 50) × W)
  | [], c => some c
  | e :: es, c => (switchHandle u e c).bind (switchRun es)

/-- `c::handle` of benchmark/complex/variant.cpp:290-888.  A default-constructed variant holds its first
alternative, so there always is a state.  The assignment is not governed by the `if`. -/
def variantHandle (e : Fin 50) (c : Fin 50 × W) : Fin 50 × W :=
  if c.1 = e then (e + 1, if (u.guard c.2).1 then u.action (u.guard c.2).2 else (u.guard c.2).2) else c

/-- Events one after the other (the loop of benchmark/complex/variant.cpp:895-998). -/
def variantRun (es : List (Fin 50)) (c : Fin 50 × W) : Fin 50 × W :=
  es.foldl (fun c e => variantHandle u e c) c

/-- The callbacks of the machine built with the library (ComplexStateMachine.h:108-109). -/
def Own.sem : Sem Unit W where
  guard _ _ p w := .ok (u.guard w).1 p (u.guard w).2
  action _ _ p w := .ok () p (u.action w)
  handler _ _ _ _ p w := .ok () p w
  alive _ _ := true
  nonePayload := ()

/-- The events sent to the machine built with the library (the loop of benchmark/complex/hsm.cpp:14-115). -/
def laps (es : List (Fin 50)) : List (EventTy × Unit) := es.map fun e : Fin 50 => (ev (e.val + 1), ())

/-! ## What the ring does with one event -/

theorem ring_cands (k : Fin 51) (e : EventTy) :
    if e = ev (k + 1) then ∃ c, ring.cands e 0 (.st (k + 1)) = [c] ∧ c.row? = some ((link k).read 0)
    else ring.cands e 0 (.st (k + 1)) = [] := by
  have h := ring_rows k e
  unfold Machine.rowsAt at h
  dsimp only at h
  have hnd := Machine.no_defer_cand ring_plain.deferring e 0 (.st (k + 1))
  have hrow : ∀ c ∈ ring.cands e 0 (.st (k + 1)), ∃ t, c.row? = some t := by
    intro c hc
    cases c with
    | defer => exact absurd hc hnd
    | row t => exact ⟨t, rfl⟩
    | exit t p => exact ⟨t, rfl⟩
  revert h hrow
  cases ring.cands e 0 (.st (k + 1)) with
  | nil =>
    intro h _
    split
    · rename_i he; rw [if_pos he] at h; cases h
    · rfl
  | cons c cs =>
    intro h hrow
    obtain ⟨t, ht⟩ := hrow c List.mem_cons_self
    rw [List.filterMap_cons, ht] at h
    dsimp only at h
    split
    · rename_i he
      rw [if_pos he] at h
      injection h with h1 h2
      cases cs with
      | nil => exact ⟨c, rfl, ht.trans (congrArg some h1)⟩
      | cons c' cs =>
        obtain ⟨t', ht'⟩ := hrow c' (List.mem_cons_of_mem _ List.mem_cons_self)
        rw [List.filterMap_cons, ht'] at h2
        cases h2
    · rename_i he
      rw [if_neg he] at h
      cases h

/-- What the ring does, written by hand. -/
def ringHandle (e : Fin 50) (c : Fin 51 × W) : Fin 51 × W :=
  if c.1.val = e.val then
    if (u.guard c.2).1 then (c.1 + 1, u.action (u.guard c.2).2) else (c.1, (u.guard c.2).2)
  else c

theorem ring_play (e : Fin 50) (k : Fin 51) (w : W) (d : Dep) :
    let q := ring.play u.sem (ev (e + 1)) (0, .st (k + 1)) [d] d () w
    q.reply ≠ .undefined ∧ q.loc = (0, .st ((ringHandle u e (k, w)).1 + 1)) ∧
      q.world = (ringHandle u e (k, w)).2 := by
  have h := ring_cands k (ev (e + 1))
  have hh : (ring.decl ring.root).handler = none := by decide +kernel
  unfold Machine.play ringHandle
  dsimp only
  by_cases he : k.val = e.val
  · rw [if_pos (by rw [he])] at h
    obtain ⟨c, hc, hr⟩ := h
    rw [if_neg (by rw [hc]; simp), hc, if_pos he]
    simp only [List.flatMap_cons, List.flatMap_nil, List.map_cons, List.map_nil, List.append_nil,
      Machine.playCands, hr]
    have hg : ((link k).read 0).guard = some 100 := rfl
    have ha : ring.callbacks ((link k).read 0) = [(.action, 1)] := by
      clear hr hg hc he
      revert k
      decide +kernel
    have hi : ((link k).read 0).internal = false := rfl
    have hl : ring.targetLoc ((link k).read 0) = some (0, .st ((k + 1 : Fin 51) + 1)) := by
      clear hr hg hc he ha hi
      revert k
      decide +kernel
    simp only [hg, Own.sem]
    cases hb : (u.guard w).1 with
    | true =>
      simp [Machine.playRow, hi, hl, ha, playActs, Machine.leads]
    | false =>
      simp
  · rw [if_neg (by
      intro h
      injection h with h
      exact he (Nat.succ.inj h).symm)] at h
    rw [if_pos h, if_neg he]
    unfold Machine.playHandler
    rw [hh]
    exact ⟨by simp, rfl, rfl⟩

/-- The ring, for all sequences of the events the benchmark sends. -/
theorem ring_runs {d : Dep} {w : W} {s0 : SM Unit W} (h0 : construct ring d w = .ok s0) (es : List (Fin 50))
    (fuel : Nat) :
    ∃ s, runAll (step ring u.sem fuel) (sends (laps es)) s0 = some s ∧
      At ring s 0 0 (.st ((es.foldl (fun c e => ringHandle u e c) ((0 : Fin 51), w)).1 + 1)) ∧
      s.world = (es.foldl (fun c e => ringHandle u e c) ((0 : Fin 51), w)).2 := by
  have key : ∀ (es : List (Fin 50)) (k : Fin 51) (w : W),
      ∃ y, ring.playOps u.sem d [d] (0, .st (k + 1)) w (sends (laps es)) = some y ∧
        y.1 = (0, .st ((es.foldl (fun c e => ringHandle u e c) (k, w)).1 + 1)) ∧
        y.2.1 = (es.foldl (fun c e => ringHandle u e c) (k, w)).2 := by
    intro es
    induction es with
    | nil => intro k w; exact ⟨_, rfl, rfl, rfl⟩
    | cons e es ih =>
      intro k w
      obtain ⟨hu, hl, hw⟩ := ring_play u e k w d
      obtain ⟨y, hy, h1, h2⟩ := ih (ringHandle u e (k, w)).1 (ringHandle u e (k, w)).2
      refine ⟨(y.1, y.2.1, (ring.play u.sem (ev (e + 1)) (0, .st (k + 1)) [d] d () w).calls ++ y.2.2), ?_, h1, h2⟩
      unfold laps sends at hy ⊢
      rw [List.map_cons, List.map_cons, Machine.playOps, Machine.playOp, if_neg hu]
      simp only [Option.bind_some, hl, hw, hy, Option.map_some]
  obtain ⟨y, hy, h1, h2⟩ := key es 0 w
  have hev : ∀ e : Fin 50, ev (e + 1) ∈ ring.events := by decide +kernel
  have := C73_history ring_regular ring_scoped ring_plain (sem := u.sem)
    (populated_ofList (by decide +kernel) u.sem) (i := 1) (by decide +kernel) h0 (sends (laps es)) (by
      intro op hop
      obtain ⟨x, hx, rfl⟩ := List.mem_map.1 hop
      obtain ⟨e, -, rfl⟩ := List.mem_map.1 hx
      exact opOk_event (hev e)) fuel
  rw [show (ring.root, StTy.st 1) = (0, StTy.st ((0 : Fin 51) + 1)) from rfl, hy] at this
  obtain ⟨l, w', calls⟩ := y
  obtain ⟨s, hr, ha, hw, _⟩ := this
  cases h1
  cases h2
  exact ⟨s, hr, ha, hw⟩

/-! ## C115 -/

/-- C115, the switch: the member `state` is read before it has been given a value, whatever the first event
is (benchmark/complex/switch.cpp:877: `c sm;`). -/
theorem C115_refuted_switch (e : Fin 50) (es : List (Fin 50)) (w : W) :
    switchRun u (e :: es) (none, w) = none := rfl

theorem switchHandle_some (e k : Fin 50) (w : W) : switchHandle u e (some k, w) =
    if k = e then
      if (u.guard w).1 then some (some (e + 1), u.action (u.guard w).2) else some (some k, (u.guard w).2)
    else some (some k, w) := rfl

theorem ring_stuck (es : List (Fin 50)) (w : W) :
    es.foldl (fun c e => ringHandle u e c) ((50 : Fin 51), w) = (50, w) := by
  induction es with
  | nil => rfl
  | cons e es ih =>
    rw [List.foldl_cons]
    have : ringHandle u e ((50 : Fin 51), w) = (50, w) := by
      unfold ringHandle
      rw [if_neg]
      intro h
      have := e.isLt
      have h : 50 = e.val := h
      omega
    rw [this, ih]

/-- C115: the machine built with the library and the switch, if that were to start in S1, do the same, for
all guards and actions, until they have gone round once; then the switch starts anew, and the machine
built with the library does nothing any more, because the loop of the benchmark does not send `e51`. -/
theorem C115_lap_partial {d : Dep} {w : W} {s0 : SM Unit W} (h0 : construct ring d w = .ok s0)
    (es : List (Fin 50)) (fuel : Nat) :
    ∃ s, runAll (step ring u.sem fuel) (sends (laps es)) s0 = some s ∧
      ((∃ k : Fin 50, At ring s 0 0 (.st (k + 1)) ∧ switchRun u es (some 0, w) = some (some k, s.world)) ∨
        ∃ es1 es2, es = es1 ++ es2 ∧ At ring s 0 0 (.st 51) ∧
          switchRun u es1 (some 0, w) = some (some 0, s.world)) := by
  have key : ∀ (es : List (Fin 50)) (k : Fin 50) (w : W),
      let c := es.foldl (fun c e => ringHandle u e c) (k.castSucc, w)
      (∃ j : Fin 50, c.1 = j.castSucc ∧ switchRun u es (some k, w) = some (some j, c.2)) ∨
        ∃ es1 es2, es = es1 ++ es2 ∧ c.1 = 50 ∧ switchRun u es1 (some k, w) = some (some 0, c.2) := by
    intro es
    induction es with
    | nil => intro k w; exact .inl ⟨k, rfl, rfl⟩
    | cons e es ih =>
      intro k w
      dsimp only
      rw [List.foldl_cons]
      have hk : (k.castSucc.val = e.val) = (k = e) := by
        rw [Fin.val_castSucc]; exact propext Fin.ext_iff.symm
      have next : ∀ {w' : W}, switchHandle u e (some k, w) = some (some k, w') →
          ringHandle u e (k.castSucc, w) = (k.castSucc, w') →
          (∃ j : Fin 50, (es.foldl (fun c e => ringHandle u e c) (ringHandle u e (k.castSucc, w))).1 = j.castSucc ∧
            switchRun u (e :: es) (some k, w) =
              some (some j, (es.foldl (fun c e => ringHandle u e c) (ringHandle u e (k.castSucc, w))).2)) ∨
          ∃ es1 es2, e :: es = es1 ++ es2 ∧
            (es.foldl (fun c e => ringHandle u e c) (ringHandle u e (k.castSucc, w))).1 = 50 ∧
            switchRun u es1 (some k, w) =
              some (some 0, (es.foldl (fun c e => ringHandle u e c) (ringHandle u e (k.castSucc, w))).2) := by
        intro w' h1 h2
        rw [h2]
        rcases ih k w' with ⟨j, h3, h4⟩ | ⟨es1, es2, h3, h4, h5⟩
        · exact .inl ⟨j, h3, by unfold switchRun; rw [h1]; exact h4⟩
        · exact .inr ⟨e :: es1, es2, by rw [h3]; rfl, h4, by unfold switchRun; rw [h1]; exact h5⟩
      by_cases he : k = e
      · subst he
        cases hb : (u.guard w).1 with
        | false =>
          refine next (w' := (u.guard w).2) ?_ ?_
          · rw [switchHandle_some, if_pos rfl, hb]; rfl
          · unfold ringHandle; rw [if_pos (by rw [hk])]; simp only [hb]; rfl
        | true =>
          have h1 : switchHandle u k (some k, w) = some (some (k + 1), u.action (u.guard w).2) := by
            rw [switchHandle_some, if_pos rfl, hb]; rfl
          have h2 : ringHandle u k (k.castSucc, w) = (k.castSucc + 1, u.action (u.guard w).2) := by
            unfold ringHandle; rw [if_pos (by rw [hk])]; simp only [hb]; rfl
          rw [h2]
          by_cases hl : k.val = 49
          · have e1 : k.castSucc + 1 = (50 : Fin 51) := by
              have : k = 49 := Fin.ext hl
              subst this; decide
            have e2 : k + 1 = (0 : Fin 50) := by
              have : k = 49 := Fin.ext hl
              subst this; decide
            rw [e1, ring_stuck]
            exact .inr ⟨[k], es, rfl, rfl, by unfold switchRun; rw [h1, e2]; rfl⟩
          · have e1 : k.castSucc + 1 = (k + 1).castSucc :=
              (by decide +kernel : ∀ k : Fin 50, ¬ k.val = 49 → k.castSucc + 1 = (k + 1).castSucc) k hl
            rw [e1]
            rcases ih (k + 1) (u.action (u.guard w).2) with ⟨j, h3, h4⟩ | ⟨es1, es2, h3, h4, h5⟩
            · exact .inl ⟨j, h3, by unfold switchRun; rw [h1]; exact h4⟩
            · exact .inr ⟨k :: es1, es2, by rw [h3]; rfl, h4, by unfold switchRun; rw [h1]; exact h5⟩
      · refine next (w' := w) ?_ ?_
        · rw [switchHandle_some, if_neg he]
        · unfold ringHandle; rw [if_neg (by rw [hk]; exact he)]
  obtain ⟨s, h1, h2, h3⟩ := ring_runs u h0 es fuel
  refine ⟨s, h1, ?_⟩
  rw [h3]
  have h0 : ((0 : Fin 51), w) = ((0 : Fin 50).castSucc, w) := rfl
  rw [h0] at h2 ⊢
  rcases key es 0 w with ⟨j, h4, h5⟩ | ⟨es1, es2, h4, h5, h6⟩
  · rw [h4] at h2
    exact .inl ⟨j, h2, h5⟩
  · rw [h5] at h2
    exact .inr ⟨es1, es2, h4, h2, h6⟩

/-- C115: if the guard always says yes, as it does in the benchmark, the variant does what the switch would
do if it started in S1. -/
theorem C115_variant_partial (hy : ∀ w, (u.guard w).1 = true) (es : List (Fin 50)) (k : Fin 50) (w : W) :
    switchRun u es (some k, w) = some (some (variantRun u es (k, w)).1, (variantRun u es (k, w)).2) := by
  induction es generalizing k w with
  | nil => rfl
  | cons e es ih =>
    unfold switchRun variantRun
    rw [List.foldl_cons, switchHandle_some]
    by_cases he : k = e
    · rw [if_pos he, if_pos (hy w)]
      have : variantHandle u e (k, w) = (e + 1, u.action (u.guard w).2) := by
        unfold variantHandle; rw [if_pos he, if_pos (hy w)]
      rw [this]
      exact ih _ _
    · rw [if_neg he]
      have : variantHandle u e (k, w) = (k, w) := by
        unfold variantHandle; rw [if_neg he]
      rw [this]
      exact ih _ _

end

/-- Members that count how often the action runs; the guard always says `b`. -/
def counting (b : Bool) : Own Nat := ⟨fun w => (b, w), (· + 1)⟩

/-- C115 is false in general: with a guard that says no the variant moves on nevertheless, unlike the
switch and the machine built with the library. -/
theorem C115_refuted_guard {d : Dep} {s0 : SM Unit Nat} (h0 : construct ring d 0 = .ok s0) (fuel : Nat) :
    variantRun (counting false) [0] (0, 0) = (1, 0) ∧
    switchRun (counting false) [0] (some 0, 0) = some (some 0, 0) ∧
    ∃ s, runAll (step ring (counting false).sem fuel) (sends (laps [0])) s0 = some s ∧ At ring s 0 0 (.st 1) := by
  obtain ⟨s, h1, h2, -⟩ := ring_runs (counting false) h0 [0] fuel
  exact ⟨by decide, by decide, s, h1, h2⟩

/-- C115 is false in general: after two rounds of all events the machines written by hand have done a
hundred actions, the one built with the library has done fifty and will never do another. -/
theorem C115_refuted_lap {d : Dep} {s0 : SM Unit Nat} (h0 : construct ring d 0 = .ok s0) (fuel : Nat) :
    (variantRun (counting true) (List.finRange 50 ++ List.finRange 50) (0, 0)).2 = 100 ∧
    (switchRun (counting true) (List.finRange 50 ++ List.finRange 50) (some 0, 0)).map (·.2) = some 100 ∧
    ∀ es, ∃ s, runAll (step ring (counting true).sem fuel) (sends (laps (List.finRange 50 ++ es))) s0 = some s ∧
      s.world = 50 := by
  refine ⟨by decide +kernel, by decide +kernel, fun es => ?_⟩
  obtain ⟨s, h1, -, h3⟩ := ring_runs (counting true) h0 (List.finRange 50 ++ es) fuel
  refine ⟨s, h1, ?_⟩
  rw [h3, List.foldl_append]
  have : (List.finRange 50).foldl (fun c e => ringHandle (counting true) e c) ((0 : Fin 51), 0) = (50, 50) := by
    decide +kernel
  rw [this, ring_stuck]

/-- The hypothesis is met: the ring can be constructed. -/
example : ∃ s0 : SM Unit Nat, construct ring 7 0 = .ok s0 :=
  (C06_construct (P := Unit) ring_regular 7 (0 : Nat)).1.2
    ⟨(Machine.scopesReal_iff ring_regular).2 ⟨ring_scoped.src, ring_scoped.comp⟩, fun _ => ring_scoped.rootInit⟩

end Programs
end Hsm
