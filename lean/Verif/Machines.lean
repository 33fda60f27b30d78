import Verif.SpecRun
import Verif.StaticLemmas

/-!
# Concrete machines

Machines used beside the theorems to show that their hypotheses are met, and as
witnesses where a claim fails.  Regularity is checked by evaluation.
-/

namespace Hsm

/-- A machine given by the list of its declarations (state `i` is the `i`-th, the
root is state 0) and their ranks. -/
def Machine.ofList (ds : List Decl) (ranks : List Nat) : Machine :=
  { decl := fun s => ds.getD s {}, root := 0, rank := fun s => ranks.getD s 0 }

namespace Machine

/-- Evaluates the nesting condition for a listed machine. -/
def rankedB (M : Machine) (n : Nat) : Bool :=
  (List.range n).all fun s => (M.rows s).all fun r =>
    match M.leadsInto r.target with
    | some p => decide (M.rank p < M.rank s)
    | none => true

/-- Evaluates `Regular` for a listed machine. -/
def regularB (M : Machine) (n : Nat) : Bool :=
  M.accepts && M.rankedB n && M.extRows.all (fun t => decide (plain t.source ≠ .st M.root ∧ t.target ≠ .st M.root))
    && decide (M.states.length * M.composites.length < 2 ^ 64)

/-- Evaluates `Scoped`. -/
def scopedB (M : Machine) : Bool :=
  (M.extRows ++ M.intRows).all (fun t => decide ((sourceLoc t.parent t.source).1 ∈ M.composites))
    && M.extRows.all (fun t => match t.source with
        | .st p => !M.isComposite p || (M.rows p).isEmpty || decide (p ∈ M.composites)
        | .ps _ _ => true)
    && (M.extRows ++ M.intRows).all (fun t => match M.targetLoc t with
        | some d => decide (d.1 ∈ M.composites)
        | none => true)
    && decide (M.declaredInitials M.root ≠ [])

theorem nesting_ofList {ds : List Decl} {ranks : List Nat}
    (h2 : (ofList ds ranks).rankedB ds.length = true) (s : Name) (r : Row) (p : Name)
    (hr : r ∈ (ofList ds ranks).rows s) (hp : (ofList ds ranks).Enters r.target p) :
    (ofList ds ranks).rank p < (ofList ds ranks).rank s := by
  rw [← subMachine_iff, ← leadsInto_eq] at hp
  have hs : s < ds.length := by
    apply Classical.byContradiction
    intro hn
    have : ds.getD s {} = {} := by
      rw [List.getD_eq_getElem?_getD, List.getElem?_eq_none (Nat.le_of_not_lt hn)]; rfl
    unfold rows ofList at hr
    simp only [this] at hr
    simp at hr
  unfold rankedB at h2
  have := List.all_eq_true.1 (List.all_eq_true.1 h2 s (List.mem_range.2 hs)) r hr
  rw [hp] at this
  simpa using this

theorem regular_ofList {ds : List Decl} {ranks : List Nat}
    (h : (ofList ds ranks).regularB ds.length = true) : (ofList ds ranks).Regular := by
  unfold regularB at h
  simp only [Bool.and_eq_true, decide_eq_true_eq] at h
  obtain ⟨⟨⟨h1, h2⟩, h3⟩, h4⟩ := h
  exact ⟨accepts_iff.1 h1, nesting_ofList h2,
    fun t ht => of_decide_eq_true (List.all_eq_true.1 h3 t ht), h4⟩

theorem scoped_of_check {M : Machine} (h : M.scopedB = true) : M.Scoped := by
  unfold scopedB at h
  simp only [Bool.and_eq_true, decide_eq_true_eq] at h
  obtain ⟨⟨⟨h1, h2⟩, h3⟩, h4⟩ := h
  refine ⟨?_, ?_, ?_, h4⟩
  · intro t ht
    simpa using List.all_eq_true.1 h1 t ht
  · intro t ht p hp hc hr
    have := List.all_eq_true.1 h2 t ht
    rw [hp] at this
    simp only [hc, Bool.not_true, Bool.false_or, Bool.or_eq_true, List.isEmpty_iff,
      decide_eq_true_eq] at this
    exact this.resolve_left hr
  · intro t ht d hd
    have := List.all_eq_true.1 h3 t ht
    rw [hd] at this
    simpa using this

end Machine

/-! ## Shorthands for rows -/

namespace Ex

/-- `*state<s>` -/
def ini (s : Name) : StTy := .ps false (.initial s)
/-- event number `n` -/
def ev (n : Nat) : EventTy := .user n
/-- a row -/
def row (src : StTy) (e : EventTy) (g a : Option Cb) (tgt : StTy) : Row := ⟨src, e, g, a, tgt⟩

/-! ## A machine with one region

`Idle`, `Busy` and a composite `Comp` with children `CA` and `CB`; guards, actions,
entry and exit actions, deferral, history, pseudo entry and exit, internal rows, an
unexpected-event handler. -/

def Root : Name := 0
def Idle : Name := 1
def Busy : Name := 2
def Comp : Name := 3
def CA : Name := 4
def CB : Name := 5

def demoDecls : List Decl :=
  [ { table := some
        [ row (ini Idle) (ev 0) none (some 1) (.st Comp),
          row (.st Idle) (ev 0) (some 100) (some 2) (.st Busy),
          row (.st Busy) (ev 1) none (some 3) (.st Idle),
          row (.st Idle) (ev 3) none (some 4) (.st Busy),
          row (.st Comp) (ev 1) none (some 5) (.st Idle),
          row (.st Idle) (ev 4) none none (.ps true (.history Comp)),
          row (.ps false (.exit Comp CB)) (ev 3) none none (.st Idle),
          row (.st Idle) (ev 5) none none (.ps true (.entry Comp CB)) ]
      itable := some [⟨ev 7, none, some 12⟩]
      handler := some 50 },
    { },
    { onEntry := some 20, onExit := some 21, defer := some [ev 3] },
    { table := some
        [ row (ini CA) (ev 2) (some 101) (some 6) (.st CB),
          row (.st CB) (ev 2) none (some 7) (.st CA),
          row (.st CB) .none (some 102) (some 9) (.st CA) ]
      itable := some [⟨ev 6, none, some 8⟩]
      onEntry := some 22, onExit := some 23 },
    { onEntry := some 24 },
    { itable := some [⟨ev 6, some 103, some 11⟩] } ]

def demo : Machine := Machine.ofList demoDecls [1]

theorem demo_regular : demo.Regular := Machine.regular_ofList (by decide +kernel)
theorem demo_scoped : demo.Scoped := Machine.scoped_of_check (by decide +kernel)

/-! ## A machine with two regions everywhere -/

/-- `A`/`B` in one region, `C`/`D` in the other; composite `P` with two regions as
well, entered and left by region 0. -/
def orthDecls : List Decl :=
  [ { table := some
        [ row (ini 1) (ev 0) none (some 1) (.st 2),
          row (.st 2) (ev 1) none (some 2) (.st 1),
          row (ini 3) (ev 0) (some 100) (some 3) (.st 4),
          row (.st 4) (ev 1) none none (.st 3),
          row (.st 1) (ev 2) none none (.st 5),
          row (.st 5) (ev 3) none none (.st 1),
          row (.st 1) (ev 4) none none (.ps true (.history 5)),
          row (.st 2) .none (some 101) (some 4) (.st 1) ] },
    { }, { }, { }, { },
    { table := some
        [ row (ini 6) (ev 0) none none (.st 7),
          row (ini 8) (ev 0) none none (.st 9) ] },
    { }, { }, { }, { } ]

def orth : Machine := Machine.ofList orthDecls [1]

theorem orth_regular : orth.Regular := Machine.regular_ofList (by decide +kernel)
theorem orth_scoped : orth.Scoped := Machine.scoped_of_check (by decide +kernel)

/-! ## User code for the examples -/

/-- The world is the list of callbacks that ran; a guard with number `g` answers
`on g`; actions listed in `bad` throw. -/
def sem (on : Nat → Bool) (bad : List Nat := []) (badGuards : List Nat := []) :
    Sem Nat (List Nat) where
  guard g _ p w := if g ∈ badGuards then .throw g p (w ++ [g]) else .ok (on g) p (w ++ [g])
  action a _ p w := if a ∈ bad then .throw a p (w ++ [a]) else .ok () p (w ++ [a])
  handler h _ _ _ p w := .ok () p (w ++ [h])
  alive _ _ := true
  nonePayload := 0

section
variable {P W : Type} (M : Machine) (sm : Sem P W)

/-- Is this call allowed by the static assertions? -/
def opOkB : Op P → Bool
  | .process e _ => decide (e ∈ M.events)
  | .set _ p st => decide (p ∈ M.composites ∧ st ∈ M.states)
  | .setDependency _ => true

/-- Run calls one after the other, ignoring exceptions. -/
def runOps (fuel : Nat) : List (Op P) → SM P W → Option (SM P W)
  | [], s => some s
  | op :: ops, s =>
    if opOkB M op then
      match step M sm fuel op s with
      | .ok _ s' => runOps fuel ops s'
      | .throw _ s' => runOps fuel ops s'
      | _ => none
    else none

/-- Construct with dependency `d`, then run calls. -/
def run (fuel : Nat) (d : Dep) (w : W) (ops : List (Op P)) : Option (SM P W) :=
  match construct M d w with
  | .ok s => runOps M sm fuel ops s
  | .error _ => none

theorem opOkB_iff {op : Op P} : opOkB M op = true → OpOk M op := by
  cases op <;> simp [opOkB, OpOk, Machine.events_eq, Machine.composites_eq, Machine.states_eq]

theorem runOps_runTo {fuel : Nat} {d : Dep} {ops : List (Op P)} : ∀ {pre : List (Op P)}
    {s s' : SM P W}, RunTo M sm d pre s → runOps M sm fuel ops s = some s' →
    RunTo M sm d (pre ++ ops) s' := by
  induction ops with
  | nil => intro pre s s' h1 h2; cases h2; simpa using h1
  | cons op ops ih =>
    intro pre s s' h1 h2
    unfold runOps at h2
    split at h2
    · rename_i hop
      split at h2
      · rename_i b s1 h3
        have := ih (.ok h1 (opOkB_iff M hop) h3) h2
        simpa using this
      · rename_i x s1 h3
        have := ih (.throw h1 (opOkB_iff M hop) h3) h2
        simpa using this
      · cases h2
    · cases h2

theorem run_runTo {fuel : Nat} {d : Dep} {w : W} {ops : List (Op P)} {s : SM P W}
    (h : run M sm fuel d w ops = some s) : RunTo M sm d ops s := by
  unfold run at h
  split at h
  · rename_i s0 h0
    simpa using runOps_runTo M sm (.init h0) h
  · cases h

/-- From an evaluation to an existence statement about histories. -/
theorem exists_run {fuel : Nat} {d : Dep} {w : W} {ops : List (Op P)} {f : SM P W → Bool}
    (h : (run M sm fuel d w ops).any f = true) : ∃ s, RunTo M sm d ops s ∧ f s = true := by
  cases hr : run M sm fuel d w ops with
  | none => rw [hr] at h; cases h
  | some s => rw [hr] at h; exact ⟨s, run_runTo M sm hr, h⟩

end

/-- The demo machine, driven into `CB` and back out. -/
example : (run demo (sem fun _ => true) 5 7 []
    [.process (ev 0) 1, .process (ev 1) 2, .process (ev 0) 3]).any
      (fun s => s.cur == [some (demo.comb Root (.st Busy))]
        && s.world == [100, 2, 20, 21, 3, 100, 2, 20]) = true := by
  decide +kernel

end Ex
end Hsm
