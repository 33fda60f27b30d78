import Verif.Reentrant
import Verif.PropsTrace

/-!
# Callbacks that use the machine: properties (C57, C58, C59)
-/

namespace Hsm

/-! ## Invariants -/

section
variable {P W : Type}

variable {M : Machine} {sem : SemR P W} {U : UB → Prop} {Q : Op P → Prop} {R : Nat → Prop}
  {I : SM P W → Prop} {E : EventTy → Nat → Entry → SM P W → Prop}

/-- As `Res.Sat`, with the kinds of undefined behaviour that are allowed. -/
def Res.SatU {σ α : Type} (U : UB → Prop) (Q : α → σ → Prop) (X : Exn → σ → Prop) : Res σ α → Prop
  | .ok a s => Q a s
  | .throw x s => X x s
  | .ub u => U u
  | .timeout => True

theorem Res.SatU.bind {σ α β : Type} {U : UB → Prop} {Q : α → σ → Prop} {Q' : β → σ → Prop}
    {X : Exn → σ → Prop} {r : Res σ α} {f : α → σ → Res σ β} (h : r.SatU U Q X)
    (hf : ∀ a s, Q a s → (f a s).SatU U Q' X) : (r.bind f).SatU U Q' X := by
  cases r with
  | ok a s => exact hf a s h
  | throw x s => exact h
  | ub u => exact h
  | timeout => trivial

theorem Res.SatU.bind' {σ α β : Type} {U : UB → Prop} {Q' : β → σ → Prop} {X : Exn → σ → Prop}
    {r : Res σ α} {f : α → σ → Res σ β} (h1 : ∀ a s, r = .ok a s → (f a s).SatU U Q' X)
    (h2 : ∀ x s, r = .throw x s → X x s) (h3 : ∀ u, r = .ub u → U u) :
    (r.bind f).SatU U Q' X := by
  cases r with
  | ok a s => exact h1 a s rfl
  | throw x s => exact h2 x s rfl
  | ub u => exact h3 u rfl
  | timeout => trivial

theorem Res.Sat.any {σ α : Type} {Q : α → σ → Prop} {X : Exn → σ → Prop} {r : Res σ α}
    (h : r.Sat True Q X) : r.SatU (fun _ => True) Q X := by
  cases r with
  | ok a s => exact h
  | throw x s => exact h
  | ub u => trivial
  | timeout => trivial

theorem Res.Sat.no {σ α : Type} {U : UB → Prop} {Q : α → σ → Prop} {X : Exn → σ → Prop} {r : Res σ α}
    (h : r.Sat False Q X) : r.SatU U Q X := by
  cases r with
  | ok a s => exact h
  | throw x s => exact h
  | ub u => exact h.elim
  | timeout => trivial

theorem Res.SatU.defined {σ α : Type} {Q : α → σ → Prop} {X : Exn → σ → Prop} {r : Res σ α}
    (h : r.SatU (fun _ => False) Q X) : r.Defined := by
  intro u hu
  rw [hu] at h; exact h

/-- What was on record in `s` still is in `s'`. -/
def Grows (s s' : SM P W) : Prop := s.trace <+: s'.trace ∧ s.log <+: s'.log

theorem Grows.refl (s : SM P W) : Grows s s := ⟨List.prefix_refl _, List.prefix_refl _⟩

theorem Grows.trans {s1 s2 s3 : SM P W} (h1 : Grows s1 s2) (h2 : Grows s2 s3) : Grows s1 s3 :=
  ⟨h1.1.trans h2.1, h1.2.trans h2.2⟩

theorem Grows.of_eq {s s' : SM P W} (h1 : s'.trace = s.trace) (h2 : s'.log = s.log) : Grows s s' := by
  unfold Grows; rw [h1, h2]; exact Grows.refl s

/-- `I` holds of a state after `s`. -/
def Since (I : SM P W → Prop) (s s' : SM P W) : Prop := I s' ∧ Grows s s'

/-- A part of the code that starts in `s` keeps `I`. -/
def Res.Lasts {α : Type} (U : UB → Prop) (I : SM P W → Prop) (s : SM P W) (r : Res (SM P W) α) : Prop :=
  r.SatU U (fun _ => Since I s) (fun _ => Since I s)

theorem Res.Lasts.ok {α : Type} {s : SM P W} {a : α} (hs : I s) :
    (Res.ok a s : Res (SM P W) α).Lasts U I s := ⟨hs, .refl s⟩

theorem Res.Lasts.since {α : Type} {s s1 : SM P W} {r : Res (SM P W) α} (h : r.Lasts U I s1)
    (hg : Grows s s1) : r.Lasts U I s := by
  cases r with
  | ok a s' => exact ⟨h.1, hg.trans h.2⟩
  | throw x s' => exact ⟨h.1, hg.trans h.2⟩
  | ub u => exact h
  | timeout => trivial

theorem Res.Lasts.bind {α β : Type} {s : SM P W} {r : Res (SM P W) α} {f : α → SM P W → Res (SM P W) β}
    (h : r.Lasts U I s) (hf : ∀ a s1, I s1 → Grows s s1 → (f a s1).Lasts U I s1) :
    (r.bind f).Lasts U I s := by
  cases r with
  | ok a s1 => exact (hf a s1 h.1 h.2).since h.2
  | throw x s1 => exact h
  | ub u => exact h
  | timeout => trivial

theorem Res.Lasts.bind' {α β : Type} {s : SM P W} {r : Res (SM P W) α} {f : α → SM P W → Res (SM P W) β}
    (h : r.Lasts U I s)
    (hf : ∀ a s1, r = .ok a s1 → I s1 → Grows s s1 → (f a s1).Lasts U I s1) :
    (r.bind f).Lasts U I s := by
  cases r with
  | ok a s1 => exact (hf a s1 rfl h.1 h.2).since h.2
  | throw x s1 => exact h
  | ub u => exact h
  | timeout => trivial

theorem Res.Lasts.holds {α : Type} {s : SM P W} {r : Res (SM P W) α} (h : r.Lasts U I s) :
    r.SatU U (fun _ => I) (fun _ => I) := by
  cases r with
  | ok a s1 => exact h.1
  | throw x s1 => exact h.1
  | ub u => exact h
  | timeout => trivial

/-- Calls from callbacks keep `I`. -/
def Held (U : UB → Prop) (Q : Op P → Prop) (I : SM P W → Prop)
    (call : Op P → SM P W → Res (SM P W) Bool) : Prop :=
  ∀ op s, Q op → I s → (call op s).Lasts U I s

/-- The programs of callbacks keep `I` if the calls they make do. -/
structure Runs (sem : SemR P W) (U : UB → Prop) (Q : Op P → Prop) (I : SM P W → Prop) : Prop where
  guards : ∀ call, Held U Q I call → ∀ g a p s, I s →
    (runProg call (sem.guard g a p s.world) s).Lasts U I s
  actions : ∀ call, Held U Q I call → ∀ c a p s, I s →
    (runProg call (sem.action c a p s.world) s).Lasts U I s
  handlers : ∀ call, Held U Q I call → ∀ h e st d p s, I s →
    (runProg call (sem.handler h e st d p s.world) s).Lasts U I s

/-- Obligations for `I` to survive callbacks that are called as `B` says. -/
structure KeepsCb (M : Machine) (sem : SemR P W) (U : UB → Prop) (Q : Op P → Prop)
    (I : SM P W → Prop) (B : Call P → SM P W → Prop) : Prop extends Runs sem U Q I where
  traced : ∀ s0 s c, I s0 → I s → c.cur = s0.cur → B c s → I { s with trace := s.trace ++ [c] }
  obj : ∀ st s, I s → objOkR M sem st s = false → U .nullObject

/-- A program has a run that returns `a`, whatever the replies. -/
inductive Prog.MaySay {α : Type} (a : α) : Prog P W α → Prop
  | ret (p : P) (w : W) : MaySay a (.ret a p w)
  | call {op : Op P} {w w' : W} {k : Reply → W → Prog P W α} {r : Reply} (h : MaySay a (k r w')) :
      MaySay a (.call op w k)

/-- The guard of an entry can say yes to event `ev`. -/
def Passes (sem : SemR P W) (ev : EventTy) (e : Entry) : Prop :=
  ∀ x g, e.tr = some x → x.guard = some g →
    ∃ args p w, args.event = ev ∧ (sem.guard g args p w).MaySay true

/-- The guard of `x`, if it has one, has just ended and said yes. -/
def Asked (I : SM P W → Prop) (ev : EventTy) (x : Exec) (s : SM P W) : Prop :=
  ∀ g, x.guard = some g → ∃ s0 q cur, I s0 ∧ s = { s0 with trace := s0.trace ++
    [.guard g ⟨ev, x.src, if x.internal then x.src else x.dst, false, x.dep⟩ q (some true) cur] }

/-- Calls `ds` are those of callbacks `cs` with arguments `args`, and none threw. -/
def DoneAll (args : Args) (cs : List (Phase × Cb)) (ds : List (Call P)) : Prop :=
  List.Forall₂ (fun c d => ∃ q cur, d = Call.action c.1 c.2 args q false cur) cs ds

/-- Where the calls of callbacks come from: a guard or a callback of an entry, or the handler.  A callback
of an entry comes after the guard (state `s`), the move (state `s1`) and the callbacks listed before it. -/
inductive By (M : Machine) (sem : SemR P W) (I : SM P W → Prop)
    (E : EventTy → Nat → Entry → SM P W → Prop) (V : EventTy → Prop) : Call P → SM P W → Prop
  | guard {s : SM P W} {ev : EventTy} {r : Nat} {e : Entry} {x : Exec} {g : Cb} (hs : I s)
      (he : E ev r e s) (hx : e.tr = some x) (hg : x.guard = some g) (q : P) (b : Option Bool)
      (s' : SM P W) :
      By M sem I E V (.guard g ⟨ev, x.src, if x.internal then x.src else x.dst, false, x.dep⟩ q b s.cur) s'
  | action {s s1 s' : SM P W} {u : Unit} {ev : EventTy} {r : Nat} {e : Entry} {x : Exec}
      {cs1 cs2 : List (Phase × Cb)} {ph : Phase} {a : Cb} {ds tr : List (Call P)} (hs : I s)
      (he : E ev r e s) (hpa : Passes sem ev e) (hask : Asked I ev x s) (hx : e.tr = some x)
      (hmv : updateState M r e s = .ok u s1) (hcs : x.action = some (cs1 ++ (ph, a) :: cs2))
      (hds : DoneAll (actionArgs M x ev) cs1 ds) (htr : s'.trace = s1.trace ++ tr) (hsub : ds.Sublist tr)
      (hlog : s1.log <+: s'.log) (q : P) (b : Bool) (cur : List (Option Nat)) :
      By M sem I E V (.action ph a (actionArgs M x ev) q b cur) s'
  | handler {s : SM P W} {ev : EventTy} {h : Cb} {c : Nat} {st : StTy} {d : Dep} (hs : I s)
      (hev : ev ∈ M.events) (hv : V ev) (hh : (M.decl M.root).handler = some h)
      (hc : s.cur[0]? = some (some c)) (hlt : c < M.size) (hd : s.handlers ev c = some (st, d))
      (q : P) (b : Bool) (s' : SM P W) : By M sem I E V (.handler h ev st d q b s.cur) s'

/-- Obligations for `I` to survive what the loops of the code do.  `U` says which undefined behaviour is
tolerated, `R` holds of all regions that are looked at, `V` of all events that are handled, `E` of the
entries a loop is going to try. -/
structure KeepsLoop (M : Machine) (sem : SemR P W) (U : UB → Prop) (Q : Op P → Prop) (R : Nat → Prop)
    (I : SM P W → Prop) (E : EventTy → Nat → Entry → SM P W → Prop) (V : EventTy → Prop := fun _ => True) :
    Prop extends KeepsCb M sem U Q I (By M sem I E V) where
  anon : V .none := by trivial
  sent : ∀ ev p, Q (.process ev p) → V ev := by intros; trivial
  queued : ∀ s ev p q, I s → s.queue = (ev, p) :: q → V ev := by intros; trivial
  regions : ∀ s, I s → ∀ r, r < activeRegions M s → R r
  look : ∀ s r, I s → R r → (∀ u, U u) ∨ ∃ c, s.cur[r]? = some (some c) ∧ c < M.size
  entry : ∀ s ev r c e, I s → R r → s.cur[r]? = some (some c) → c < M.size → e ∈ s.table ev c →
    V ev → E ev r e s
  null : ∀ s ev r e, I s → E ev r e s → (e.defer = false ∨ (ev = .none ∧ M.anonymous = true)) →
    e.tr = none → U .nullTransition
  stay : ∀ call, Held U Q I call → ∀ s s' x ev p bp r e, I s →
    execGuardR M sem call x ev p s = .ok bp s' → E ev r e s → E ev r e s'
  iter : ∀ call, Held U Q I call → ∀ s s' x ev p p' c, I s →
    execGuardR M sem call x ev p s = .ok (false, p') s' →
    (s'.table ev c).length ≠ (s.table ev c).length → U .iterator
  move : ∀ s ev r e x, I s → R r → E ev r e s → Passes sem ev e → e.tr = some x → Asked I ev x s →
    (updateState M r e s).SatU U (fun _ => I) (fun _ => I)
  push : ∀ s ev r e p, I s → E ev r e s → e.defer = true →
    I { s with queue := s.queue ++ [(ev, p)] }
  pop : ∀ s ev p q, I s → s.queue = (ev, p) :: q → I { s with queue := q }
  handler : ∀ s ev, I s → ev ∈ M.events → (M.decl M.root).handler.isSome = true →
    (∃ p, Q (.process ev p)) → (∀ u, U u) ∨ ∃ c st d, s.cur[0]? = some (some c) ∧ c < M.size ∧ s.handlers ev c = some (st, d)

/-- Obligations for `I` to survive calls of kinds `Q`. -/
structure Keeps (M : Machine) (sem : SemR P W) (U : UB → Prop) (Q : Op P → Prop) (R : Nat → Prop)
    (I : SM P W → Prop) (E : EventTy → Nat → Entry → SM P W → Prop) (V : EventTy → Prop := fun _ => True) :
    Prop extends KeepsLoop M sem U Q R I E V where
  opOk : ∀ op, Q op → OpOk M op
  set : ∀ s r p st, Q (.set r p st) → I s → r % 256 < s.cur.length →
    I { s with cur := s.cur.set (r % 256) (some (M.comb p st)) }
  dep : ∀ s d, Q (.setDependency d) → I s →
    (setDependency M d s).SatU U (fun _ => I) (fun _ => I)

variable {call : Op P → SM P W → Res (SM P W) Bool} {B : Call P → SM P W → Prop} {V : EventTy → Prop}

theorem runProg_lasts (hw : ∀ s w, I s → I { s with world := w }) (hc : Held U Q I call) {α : Type} :
    ∀ (pr : Prog P W α) (s : SM P W), pr.Good (U .callback) Q → I s →
    (runProg call pr s).Lasts U I s := by
  intro pr
  induction pr with
  | ret a p w => intro s _ hs; exact ⟨hw _ _ hs, .of_eq rfl rfl⟩
  | throw x w => intro s _ hs; exact ⟨hw _ _ hs, .of_eq rfl rfl⟩
  | ub => intro s hg _; exact hg
  | call op w k ih =>
    intro s hg hs
    unfold Hsm.runProg
    have := (hc op _ hg.1 (hw s w hs)).since (Grows.of_eq (s := s) rfl rfl)
    split <;> rename_i heq <;> rw [heq] at this
    · exact (ih _ _ _ (hg.2 _ _) this.1).since this.2
    · exact (ih _ _ _ (hg.2 _ _) this.1).since this.2
    · exact this
    · trivial

/-- If `I` does not depend on the world it is enough that all calls are of the right kind. -/
theorem Runs.of (hg : sem.Good (U .callback) Q) (hw : ∀ s w, I s → I { s with world := w }) :
    Runs sem U Q I :=
  ⟨fun _ hc _ _ _ s hs => runProg_lasts hw hc _ s (hg.guard _ _ _ _) hs,
   fun _ hc _ _ _ s hs => runProg_lasts hw hc _ s (hg.action _ _ _ _) hs,
   fun _ hc _ _ _ _ _ s hs => runProg_lasts hw hc _ s (hg.handler _ _ _ _ _ _) hs⟩

theorem KeepsCb.runCb (h : KeepsCb M sem U Q I B) {α : Type}
    {pr : Prog P W α} {rec : Option α → Call P} {s : SM P W} (hp : (runProg call pr s).Lasts U I s) (hs : I s)
    (hrec : ∀ a s', Grows s s' → (rec a).cur = s.cur ∧ B (rec a) s') :
    (runCb call pr rec s).Lasts U I s := by
  unfold Hsm.runCb
  have := hp
  split <;> rename_i heq <;> rw [heq] at this
  · exact ⟨h.traced s _ _ hs this.1 (hrec _ _ this.2).1 (hrec _ _ this.2).2,
      this.2.trans ⟨List.prefix_append _ _, List.prefix_refl _⟩⟩
  · exact ⟨h.traced s _ _ hs this.1 (hrec _ _ this.2).1 (hrec _ _ this.2).2,
      this.2.trans ⟨List.prefix_append _ _, List.prefix_refl _⟩⟩
  · exact this
  · trivial

theorem runCb_record {α : Type} {pr : Prog P W α} {rec : Option α → Call P} {s s' : SM P W} {a : α × P}
    (h : runCb call pr rec s = .ok a s') : ∃ tr, s'.trace = tr ++ [rec (some a.1)] := by
  unfold Hsm.runCb at h
  split at h <;> cases h
  exact ⟨_, rfl⟩

theorem KeepsCb.execGuard (h : KeepsCb M sem U Q I B) (hc : Held U Q I call) (x : Exec) (ev : EventTy)
    (p : P) (s : SM P W) (hs : I s)
    (hb : ∀ g b, x.guard = some g →
      ∀ s', B (.guard g ⟨ev, x.src, if x.internal then x.src else x.dst, false, x.dep⟩ p b s.cur) s') :
    (execGuardR M sem call x ev p s).Lasts U I s := by
  unfold execGuardR
  cases hxg : x.guard with
  | none => exact .ok hs
  | some g =>
    dsimp only
    have hb := fun b => hb g b hxg
    generalize (if x.internal = true then x.src else x.dst) = dst at hb ⊢
    by_cases ho : (objOkR M sem x.src s && objOkR M sem dst s) = true
    · rw [if_pos ho]
      exact h.runCb (h.guards _ hc _ _ _ _ hs) hs (fun b s' _ => ⟨rfl, hb b s'⟩)
    · rw [if_neg ho]
      rw [Bool.and_eq_true, Classical.not_and_iff_not_or_not] at ho
      rcases ho with ho | ho
      · exact h.obj _ s hs (by simpa using ho)
      · exact h.obj _ s hs (by simpa using ho)

theorem runProg_maySay {α : Type} {a : α} : ∀ (pr : Prog P W α) {p : P} {s s' : SM P W},
    runProg call pr s = .ok (a, p) s' → pr.MaySay a := by
  intro pr
  induction pr with
  | ret b p w => intro p' s s' h; cases h; exact .ret _ _
  | throw x w => intro _ _ _ h; cases h
  | ub => intro _ _ _ h; cases h
  | call op w k ih =>
    intro p s s' h
    unfold runProg at h
    split at h
    · exact .call (ih _ _ h)
    · exact .call (ih _ _ h)
    · cases h
    · cases h

theorem execGuard_passes {x : Exec} {ev : EventTy} {p p' : P} {s s' : SM P W} {e : Entry}
    (hx : e.tr = some x) (h : execGuardR M sem call x ev p s = .ok (true, p') s') : Passes sem ev e := by
  intro x' g hx' hg
  rw [hx] at hx'
  cases hx'
  unfold execGuardR at h
  rw [hg] at h
  dsimp only at h
  generalize (if x.internal = true then x.src else x.dst) = dst at h
  split at h
  · unfold runCb at h
    split at h <;> cases h
    rename_i heq
    exact ⟨_, _, _, rfl, runProg_maySay _ heq⟩
  · cases h

theorem KeepsCb.asked (h : KeepsCb M sem U Q I B) (hc : Held U Q I call) {x : Exec} {ev : EventTy}
    {p p' : P} {s s' : SM P W} (hs : I s) (he : execGuardR M sem call x ev p s = .ok (true, p') s') :
    Asked I ev x s' := by
  intro g hg
  unfold execGuardR at he
  rw [hg] at he
  dsimp only at he
  generalize (if x.internal = true then x.src else x.dst) = dst at he ⊢
  split at he
  · unfold Hsm.runCb at he
    split at he <;> cases he
    rename_i s0 heq
    have := h.guards _ hc g ⟨ev, x.src, dst, false, x.dep⟩ p s hs
    rw [heq] at this
    exact ⟨s0, _, _, this.1, rfl⟩
  · cases he

theorem updateState_grows {r : Nat} {e : Entry} {s s' : SM P W} {u : Unit}
    (h : updateState M r e s = .ok u s') : Grows s s' := by
  rcases updateState_ok h with ⟨_, rfl⟩ | hm
  · exact .refl _
  · exact ⟨by rw [hm.trace]; exact List.prefix_refl _, by rw [hm.log]; exact List.prefix_append _ _⟩

theorem KeepsLoop.runCbs (h : KeepsLoop M sem U Q R I E V) (hc : Held U Q I call) (args : Args) (s1 : SM P W)
    {cs : List (Phase × Cb)}
    (hb : ∀ cs1 ph a cs2 ds tr q b cur s', cs = cs1 ++ (ph, a) :: cs2 → DoneAll args cs1 ds →
      s'.trace = s1.trace ++ tr → ds.Sublist tr → s1.log <+: s'.log →
      By M sem I E V (.action ph a args q b cur) s') :
    ∀ (cs2 cs1 : List (Phase × Cb)) (ds tr : List (Call P)) (p : P) (s : SM P W), cs = cs1 ++ cs2 → I s →
    DoneAll args cs1 ds → s.trace = s1.trace ++ tr → ds.Sublist tr → s1.log <+: s.log →
    (runCbsR sem call args cs2 p s).Lasts U I s := by
  intro cs2
  induction cs2 with
  | nil => intro _ _ _ p s _ hs _ _ _ _; exact .ok hs
  | cons c cs2 ih =>
    intro cs1 ds tr p s hcs hs hds htr hsub hlog
    obtain ⟨ph, a⟩ := c
    refine Res.Lasts.bind' (h.toKeepsCb.runCb (h.actions _ hc _ _ _ _ hs) hs (fun u s' hg => ⟨rfl, ?_⟩)) ?_
    · obtain ⟨⟨l, hl⟩, hg2⟩ := hg
      exact hb cs1 ph a cs2 ds (tr ++ l) _ _ _ s' hcs hds
        (by rw [← hl, htr, List.append_assoc]) (hsub.trans (List.sublist_append_left _ _)) (hlog.trans hg2)
    · rintro ⟨u, p'⟩ s' heq hs' hg
      obtain ⟨tr0, htr0⟩ := runCb_record heq
      obtain ⟨⟨l, hl⟩, hg2⟩ := hg
      have hne : l ≠ [] := by
        rintro rfl
        unfold Hsm.runCb at heq
        split at heq <;> cases heq
        rename_i s2 heq
        have h2 := h.actions _ hc a args p s hs
        rw [heq] at h2
        have h3 := h2.2.1.length_le
        rw [List.append_nil] at hl
        have h4 := congrArg List.length hl
        simp at h4
        omega
      obtain ⟨l', y, rfl⟩ := List.eq_nil_or_concat l |>.resolve_left hne
      rw [List.concat_eq_append, ← List.append_assoc, htr0] at hl
      obtain ⟨hl1, hl2⟩ := List.append_inj' hl rfl
      cases hl2
      refine ih (cs1 ++ [(ph, a)]) (ds ++ [.action ph a args p false s.cur])
        (tr ++ (l' ++ [.action ph a args p false s.cur])) p' s' (by rw [hcs]; simp) hs' ?_ ?_ ?_
        (hlog.trans hg2)
      · exact List.rel_append hds (.cons ⟨_, _, rfl⟩ .nil)
      · rw [htr0, ← hl1, htr]; simp
      · exact hsub.append (List.sublist_append_right _ _)

theorem KeepsLoop.fire (h : KeepsLoop M sem U Q R I E V) (hc : Held U Q I call) {r : Nat} {ev : EventTy}
    {e : Entry} {x : Exec} {p : P} {s : SM P W} (hs : I s) (hr : R r) (he : E ev r e s)
    (hp : Passes sem ev e) (ha : Asked I ev x s) (hx : e.tr = some x) :
    (fireR M sem call r ev e x p s).Lasts U I s := by
  unfold fireR
  have hm := h.move s ev r e x hs hr he hp hx ha
  cases hu : updateState M r e s with
  | throw y s1 => exact absurd hu updateState_throw
  | ub u => rw [hu] at hm; exact hm
  | timeout => trivial
  | ok u s1 =>
    rw [hu] at hm
    refine Res.Lasts.since (s1 := s1) ?_ (updateState_grows hu)
    show (execActionR M sem call x ev p s1).Lasts U I s1
    unfold execActionR
    split
    · exact .ok hm
    · rename_i cs hcs
      split
      · exact h.runCbs hc _ s1 (cs := cs)
          (fun cs1 ph a cs2 ds tr q b cur s' hcs' hds htr hsub hlog =>
            .action hs he hp ha hx hu (by rw [hcs, hcs']) hds htr hsub hlog q b cur)
          cs [] [] [] p s1 rfl hm .nil (by simp) (List.Sublist.refl _) (List.prefix_refl _)
      · rename_i ho
        exact h.obj _ s1 hm (by simpa using ho)

theorem KeepsLoop.tryEntries (h : KeepsLoop M sem U Q R I E V) (hc : Held U Q I call) {r : Nat} {ev : EventTy}
    {c n : Nat} (hr : R r) : ∀ (es : List Entry) (p : P) (s : SM P W), I s →
    (s.table ev c).length = n → (∀ e ∈ es, E ev r e s) →
    (tryEntriesR M sem call r ev c n es p s).Lasts U I s := by
  intro es
  induction es with
  | nil => intro p s hs _ _; exact .ok hs
  | cons e es ih =>
    intro p s hs hn he
    have hmem := he e (by simp)
    unfold tryEntriesR
    split
    · rename_i hd
      exact ⟨h.push s ev r e p hs hmem hd, .of_eq rfl rfl⟩
    · rename_i hd
      split
      · rename_i hx
        exact h.null s ev r e hs hmem (Or.inl (by simpa using hd)) hx
      · rename_i x hx
        have hg := h.toKeepsCb.execGuard hc x ev p s hs (fun g b hg s' => .guard hs hmem hx hg p b s')
        refine hg.bind' ?_
        · rintro ⟨b, p1⟩ s1 heq hs1 _
          have hst := fun e' (he' : e' ∈ e :: es) => h.stay call hc s s1 x ev p _ r e' hs heq (he e' he')
          cases b with
          | true =>
            exact Res.Lasts.bind (h.fire hc hs1 hr (hst e (by simp)) (execGuard_passes hx heq)
              (h.toKeepsCb.asked hc hs heq) hx) (fun _ s hs _ => .ok hs)
          | false =>
            simp only [Bool.false_eq_true, if_false]
            split
            · rename_i hl
              exact ih _ _ hs1 hl (fun e' he' => hst e' (by simp [he']))
            · rename_i hl
              exact h.iter call hc s s1 x ev p _ c hs heq (by rw [hn]; exact hl)

theorem KeepsLoop.read (h : KeepsLoop M sem U Q R I E V) {r : Nat} {s : SM P W} (hs : I s) (hr : R r) :
    (readCur r s).Lasts U I s := by
  cases hc : readCur r s with
  | ok c s1 => obtain ⟨rfl, _⟩ := readCur_ok.1 hc; exact .ok hs
  | throw x s1 => exact absurd hc readCur_throw
  | ub u =>
    rcases h.look s r hs hr with hu | ⟨c', h2, h3⟩
    · exact hu _
    · rw [readCur_ok.2 ⟨rfl, h2⟩] at hc; cases hc
  | timeout => trivial

theorem KeepsLoop.regionStep (h : KeepsLoop M sem U Q R I E V) (hc : Held U Q I call) {r : Nat} (ev : EventTy)
    (hv : V ev) (p : P) (s : SM P W) (hr : R r) (hs : I s) :
    (regionStepR M sem call r ev p s).Lasts U I s := by
  unfold regionStepR
  refine Res.Lasts.bind' (h.read hs hr) ?_
  · intro c s1 heq _ _
    obtain ⟨rfl, h1⟩ := readCur_ok.1 heq
    split
    · rename_i hlt
      cases hes : s1.table ev c with
      | nil => exact .ok hs
      | cons e es =>
        exact h.tryEntries hc hr _ p s1 hs (by rw [hes])
          (fun e' he' => h.entry s1 ev r c e' hs hr h1 hlt (by rw [hes]; exact he') hv)
    · rename_i hlt
      rcases h.look s1 r hs hr with hu | ⟨c', h2, h3⟩
      · exact hu _
      · rw [h1] at h2; cases h2; exact absurd h3 hlt

theorem KeepsLoop.regionLoop (h : KeepsLoop M sem U Q R I E V) (hc : Held U Q I call) (ev : EventTy) (hv : V ev) :
    ∀ (rs : List Nat) (agf ati : Bool) (p : P) (s : SM P W), (∀ r ∈ rs, R r) → I s →
    (regionLoopR M sem call ev rs agf ati p s).Lasts U I s := by
  intro rs
  induction rs with
  | nil => intro _ _ _ s _ hs; exact .ok hs
  | cons r rs ih =>
    intro agf ati p s hrs hs
    unfold regionLoopR
    apply Res.Lasts.bind (h.regionStep hc ev hv p s (hrs r (by simp)) hs)
    rintro ⟨o, p1⟩ s1 hs1 _
    have hrs' : ∀ r ∈ rs, R r := fun r' hr' => hrs r' (by simp [hr'])
    cases o with
    | none => exact ih _ _ _ _ hrs' hs1
    | rejected => exact ih _ _ _ _ hrs' hs1
    | fired => exact ih _ _ _ _ hrs' hs1
    | deferred => exact .ok hs1

theorem KeepsLoop.tryAnon (h : KeepsLoop M sem U Q R I E V) (ha : M.anonymous = true) (hc : Held U Q I call)
    {r : Nat} {c n : Nat} (hr : R r) : ∀ (es : List Entry) (p : P) (s : SM P W), I s →
    (s.table .none c).length = n → (∀ e ∈ es, E .none r e s) →
    (tryAnonR M sem call r c n es p s).Lasts U I s := by
  intro es
  induction es with
  | nil => intro p s hs _ _; exact .ok hs
  | cons e es ih =>
    intro p s hs hn he
    have hmem := he e (by simp)
    unfold tryAnonR
    split
    · rename_i hx
      exact h.null s .none r e hs hmem (Or.inr ⟨rfl, ha⟩) hx
    · rename_i x hx
      have hg := h.toKeepsCb.execGuard hc x .none p s hs (fun g b hg s' => .guard hs hmem hx hg p b s')
      refine hg.bind' ?_
      · rintro ⟨b, p1⟩ s1 heq hs1 _
        have hst := fun e' (he' : e' ∈ e :: es) =>
          h.stay call hc s s1 x .none p _ r e' hs heq (he e' he')
        cases b with
        | true =>
          exact Res.Lasts.bind (h.fire hc hs1 hr (hst e (by simp)) (execGuard_passes hx heq)
            (h.toKeepsCb.asked hc hs heq) hx) (fun _ s hs _ => .ok hs)
        | false =>
          simp only [Bool.false_eq_true, if_false]
          split
          · rename_i hl
            exact ih _ _ hs1 hl (fun e' he' => hst e' (by simp [he']))
          · rename_i hl
            exact h.iter call hc s s1 x .none p _ c hs heq (by rw [hn]; exact hl)

theorem KeepsLoop.anonRound (h : KeepsLoop M sem U Q R I E V) (ha : M.anonymous = true)
    (hc : Held U Q I call) : ∀ (rs : List Nat) (agf : Bool) (p : P) (s : SM P W), (∀ r ∈ rs, R r) →
    I s → (anonRoundR M sem call rs agf p s).Lasts U I s := by
  intro rs
  induction rs with
  | nil => intro _ _ s _ hs; exact .ok hs
  | cons r rs ih =>
    intro agf p s hrs hs
    have hr := hrs r (by simp)
    unfold anonRoundR
    refine Res.Lasts.bind' (h.read hs hr) ?_
    · intro c s1 heq _ _
      obtain ⟨rfl, h1⟩ := readCur_ok.1 heq
      split
      · rename_i hlt
        cases hes : s1.table .none c with
        | nil => exact .ok hs
        | cons e es =>
          refine Res.Lasts.bind (h.tryAnon ha hc hr _ p s1 hs (by rw [hes])
            (fun e' he' => h.entry s1 .none r c e' hs hr h1 hlt (by rw [hes]; exact he') h.anon)) ?_
          intro fp s2 hs2 _
          exact ih _ _ _ (fun r' hr' => hrs r' (by simp [hr'])) hs2
      · rename_i hlt
        rcases h.look s1 r hs hr with hu | ⟨c', h2, h3⟩
        · exact hu _
        · rw [h1] at h2; cases h2; exact absurd h3 hlt

theorem KeepsLoop.range (h : KeepsLoop M sem U Q R I E V) {s : SM P W} (hs : I s) :
    ∀ r ∈ List.range (currentRegions M s), R r := by
  intro r hr
  rw [currentRegions_eq] at hr
  exact h.regions s hs r (List.mem_range.1 hr)

theorem KeepsLoop.anonLoop (h : KeepsLoop M sem U Q R I E V) (ha : M.anonymous = true) (hc : Held U Q I call) :
    ∀ (fuel : Nat) (p : P) (s : SM P W), I s →
    (anonLoopR M sem call fuel p s).Lasts U I s := by
  intro fuel
  induction fuel with
  | zero => intro _ _ _; trivial
  | succ n ih =>
    intro p s hs
    unfold anonLoopR
    apply Res.Lasts.bind (h.anonRound ha hc _ _ p s (h.range hs) hs)
    rintro ⟨b, p1⟩ s1 hs1 _
    match b with
    | none => exact .ok hs1
    | some true => exact .ok hs1
    | some false => exact ih _ _ hs1

theorem KeepsLoop.processInternal (h : KeepsLoop M sem U Q R I E V) (hc : Held U Q I call) (fuel : Nat)
    (ev : EventTy) (hv : V ev) (p : P) (s : SM P W) (hs : I s) :
    (processInternalR M sem call fuel ev p s).Lasts U I s := by
  unfold processInternalR
  apply Res.Lasts.bind (h.regionLoop hc ev hv _ _ _ p s (h.range hs) hs)
  rintro ⟨o, p1⟩ s1 hs1 _
  cases o with
  | deferred => exact .ok hs1
  | done agf ati =>
    cases ati with
    | true => exact .ok hs1
    | false =>
      cases agf with
      | true => exact .ok hs1
      | false =>
        simp only [Bool.false_eq_true, if_false]
        refine Res.Lasts.bind ?_ (fun _ _ hs _ => .ok hs)
        unfold processAnonR
        rw [Machine.hasAnon_eq]
        split
        · rename_i ha
          exact h.anonLoop ha hc fuel _ s1 hs1
        · exact .ok hs1

theorem KeepsLoop.handle (h : KeepsLoop M sem U Q R I E V) (hc : Held U Q I call) {ev : EventTy}
    (hev : ev ∈ M.events) {p0 : P} (hq : Q (.process ev p0)) (p : P) (s : SM P W) (hs : I s) :
    (callHandlerR M sem call ev p s).Lasts U I s := by
  have hv := h.sent _ _ hq
  unfold callHandlerR
  cases hh : (M.decl M.root).handler with
  | none => exact .ok hs
  | some hd =>
    simp only
    rcases h.handler s ev hs hev (by rw [hh]; rfl) ⟨_, hq⟩ with hu | ⟨c, st, d, h1, h2, h3⟩
    · refine Res.Lasts.bind' (s := s) ?_ ?_
      · cases hc : readCur 0 s with
        | ok c s1 => obtain ⟨rfl, _⟩ := readCur_ok.1 hc; exact .ok hs
        | throw x s1 => exact absurd hc readCur_throw
        | ub u => exact hu _
        | timeout => trivial
      · intro c s1 heq _ _
        obtain ⟨rfl, h1⟩ := readCur_ok.1 heq
        split
        · rename_i hlt
          split
          · exact hu _
          · rename_i st d hd
            split
            · exact Res.Lasts.bind (h.toKeepsCb.runCb (h.handlers _ hc _ _ _ _ _ _ hs) hs
                (fun _ _ _ => ⟨rfl, .handler hs hev hv hh h1 hlt hd p _ _⟩)) (fun _ _ hs _ => .ok hs)
            · exact hu _
        · exact ⟨hs, .refl _⟩
    · rw [readCur_ok.2 ⟨rfl, h1⟩]
      show (if c < M.size then _ else _ : Res (SM P W) P).Lasts _ _ _
      rw [if_pos h2, h3]
      simp only
      split
      · exact Res.Lasts.bind (h.toKeepsCb.runCb (h.handlers _ hc _ _ _ _ _ _ hs) hs
          (fun _ _ _ => ⟨rfl, .handler hs hev hv hh h1 h2 h3 p _ _⟩)) (fun _ _ hs _ => .ok hs)
      · rename_i ho
        exact h.obj _ s hs (by simpa using ho)

/-- `process_event` keeps `I` if the calls of callbacks do. -/
theorem KeepsLoop.processEvent (h : KeepsLoop M sem U Q R I E V) (hc : Held U Q I call) (fuel : Nat)
    {ev : EventTy} (hev : ev ∈ M.events) {p : P} (hq : Q (.process ev p)) (s : SM P W) (hs : I s) :
    (processEventR M sem call fuel ev p s).Lasts U I s := by
  unfold processEventR
  apply Res.Lasts.bind (h.processInternal hc fuel ev (h.sent _ _ hq) p s hs)
  rintro ⟨o, p1⟩ s1 hs1 _
  cases o with
  | allTransitionsInvalid =>
    exact Res.Lasts.bind (h.handle hc hev hq p1 s1 hs1) (fun _ _ hs _ => .ok hs)
  | allGuardsFailed => exact .ok hs1
  | deferred => exact .ok hs1
  | processed =>
    refine Res.Lasts.bind ?_ (fun _ _ hs _ => .ok hs)
    unfold processDeferredR
    split
    · split
      · exact .ok hs1
      · rename_i e p q hqu
        exact Res.Lasts.since (s1 := { s1 with queue := q }) (Res.Lasts.bind
          (h.processInternal hc fuel e (h.queued _ _ _ _ hs1 hqu) p _ (h.pop s1 e p q hs1 hqu))
          (fun _ _ hs _ => .ok hs)) (.of_eq rfl rfl)
    · exact .ok hs1

/-- Invariants of calls, however deep callbacks nest further calls. -/
theorem Keeps.held (h : Keeps M sem U Q R I E V) (fuel : Nat) : ∀ n, Held U Q I (stepR M sem fuel n) := by
  intro n
  induction n with
  | zero => intro op s _ _; trivial
  | succ n ih =>
    intro op s hq hs
    cases op with
    | process ev p => exact h.processEvent ih fuel (h.opOk _ hq).event hq s hs
    | set r p st =>
      show (Res.bind _ _).Lasts _ _ _
      unfold setOp
      split
      · rename_i hr
        exact ⟨h.set s r p st hq hs hr, .of_eq rfl rfl⟩
      · exact ⟨hs, .refl _⟩
    | setDependency d =>
      refine Res.Lasts.bind (r := setDependency M d s) ?_ (fun _ _ hs _ => .ok hs)
      have := h.dep s d hq hs
      unfold setDependency at this ⊢
      split at this
      · exact ⟨this, .of_eq rfl rfl⟩
      · exact this

theorem Keeps.step (h : Keeps M sem U Q R I E V) (fuel n : Nat) (op : Op P) (s : SM P W) (hq : Q op)
    (hs : I s) : (stepR M sem fuel n op s).SatU U (fun _ => I) (fun _ => I) :=
  (h.held fuel n op s hq hs).holds

/-! ## Specification -/

/-- All written slots hold declared locations. -/
def Inside (M : Machine) (cur : List (Option Nat)) : Prop :=
  ∀ r k : Nat, cur[r]? = some (some k) → ∃ p ∈ M.composites, ∃ st ∈ M.states, k = M.comb p st

/-- Firing `f` moved one region, to the destination of a declared external row, for history rows
to the location described by `mem`.  As `Explained`, but nothing is said about the source. -/
def Landed (M : Machine) (mem : Name → Nat → Nat → Prop) (f : Firing) : Prop :=
  ∃ t ∈ M.extRows, ∃ c, f.after = f.before.set f.region (some c) ∧
    (∀ o q, t.target = .ps o (.history q) → mem q f.region c) ∧
    ((∀ o q, t.target ≠ .ps o (.history q)) →
      ∃ l, M.targetLoc t = some l ∧ c = M.comb l.1 l.2)

/-- Guards do not use the machine. -/
def SemR.QuietGuards (sem : SemR P W) : Prop :=
  ∀ g a p w, (sem.guard g a p w).Good True (fun _ => False)

/-- No callback calls `set_dependency`. -/
def SemR.KeepsDeps (sem : SemR P W) : Prop :=
  sem.Good True (fun op => ∀ d, op ≠ .setDependency d)

/-- As `Safe`, for callbacks that use the machine. -/
structure SafeR (M : Machine) (sem : SemR P W) : Prop where
  scopes : M.Scoped
  regions : ∀ p ∈ M.composites, (M.declaredInitials p).length ≤ (M.declaredInitials M.root).length
  history : M.historic = true → ∀ p ∈ M.composites,
    (M.declaredInitials p).length = (M.declaredInitials M.root).length
  noneNotDeferred : M.anonymous = true → ∀ p st, Cand.defer ∉ M.cands .none p st
  objects : ∀ st, M.selfMade st = true ∨ ∀ w, sem.alive st w = true
  callbacks : sem.Good False (OpOk M)

/-! ## Entries -/

/-- Entry `e` is that of a candidate for `ev` somewhere. -/
def Somewhere (M : Machine) (ev : EventTy) (e : Entry) : Prop :=
  ∃ p st d cd, p ∈ M.composites ∧ st ∈ M.states ∧ cd ∈ M.cands ev p st ∧
    M.entryOfCand d cd = some e

/-- Entry `e` is that of a candidate for `ev` where region `r` is. -/
def Here (M : Machine) (ev : EventTy) (r : Nat) (e : Entry) (s : SM P W) : Prop :=
  ∃ p st d cd, At M s r p st ∧ cd ∈ M.cands ev p st ∧ M.entryOfCand d cd = some e

theorem Slots.here (h : Slots M s) (hM : M.Regular) {ev : EventTy} {r c : Nat} {e : Entry}
    (hc : s.cur[r]? = some (some c)) (he : e ∈ s.table ev c) : Here M ev r e s := by
  obtain ⟨p, st, d, cd, hp, hst, rfl, hcd, hen⟩ := h.basic.entry hM (h.cur r c hc) he
  exact ⟨p, st, d, cd, ⟨hp, hst, hc⟩, hcd, hen⟩

theorem Here.somewhere {ev : EventTy} {r : Nat} {e : Entry} {s : SM P W} (h : Here M ev r e s) :
    Somewhere M ev e := by
  obtain ⟨p, st, d, cd, ha, hcd, hen⟩ := h
  exact ⟨p, st, d, cd, ha.1, ha.2.1, hcd, hen⟩

/-- The row of an entry that can fire. -/
theorem entry_row {ev : EventTy} {p : Name} {st : StTy} {d : Dep} {cd : Cand} {e : Entry}
    (hcd : cd ∈ M.cands ev p st) (hen : M.entryOfCand d cd = some e) (hx : e.tr ≠ none) :
    ∃ t l, t ∈ M.flat ++ M.iflat ∧ cd.row? = some t ∧ M.targetLoc t = some l ∧
      e.to = M.comb l.1 l.2 ∧ e.history = Machine.isHistory t.target ∧ e.internal = t.internal ∧
      (t.internal = false → t ∈ M.flat) := by
  rcases Machine.entryOfCand_cases hen with ⟨_, _, h2, _⟩ | ⟨t, l, x, h1, h2, h3, h4, _, h5, _⟩
  · exact absurd h2 hx
  · have ht : t ∈ M.flat ++ M.iflat := by
      rcases Machine.cand_row hcd with h6 | ⟨t', ht', _, h6⟩
      · rcases h1 with h1 | ⟨q, h1⟩ <;> (rw [h1] at h6; cases h6)
      · rcases h1 with h1 | ⟨q, h1⟩ <;> rcases h6 with h6 | h6 <;> rw [h1] at h6 <;> cases h6 <;>
          exact ht'
    refine ⟨t, l, ht, ?_, h2, h3, h4, h5, ?_⟩
    · rcases h1 with h1 | ⟨q, h1⟩ <;> rw [h1] <;> rfl
    · intro hi
      rcases List.mem_append.1 ht with h | h
      · exact h
      · rw [Machine.iflat_internal h] at hi; cases hi

/-! ## Guards that make no calls -/

theorem runProg_quiet {α : Type} {U : Prop} : ∀ {pr : Prog P W α} {s s' : SM P W} {a : α × P},
    pr.Good U (fun _ => False) → runProg call pr s = .ok a s' → ∃ w, s' = { s with world := w } := by
  intro pr s s' a hg h
  cases pr with
  | ret b p w => cases h; exact ⟨w, rfl⟩
  | throw x w => cases h
  | ub => cases h
  | call op w k => exact hg.1.elim

theorem execGuard_quiet (hq : sem.QuietGuards) {x : Exec} {ev : EventTy} {p : P} {s s' : SM P W}
    {bp : Bool × P} (h : execGuardR M sem call x ev p s = .ok bp s') :
    ∃ w tr, s' = s.ran w tr := by
  unfold execGuardR at h
  cases hg : x.guard with
  | none =>
    rw [hg] at h
    cases h
    exact ⟨s.world, [], by simp [SM.ran]⟩
  | some g =>
    rw [hg] at h
    dsimp only at h
    generalize (if x.internal = true then x.src else x.dst) = dst at h
    by_cases ho : (objOkR M sem x.src s && objOkR M sem dst s) = true
    · rw [if_pos ho] at h
      unfold Hsm.runCb at h
      split at h <;> cases h
      rename_i heq
      obtain ⟨w, rfl⟩ := runProg_quiet (hq _ _ _ _) heq
      exact ⟨w, _, rfl⟩
    · rw [if_neg ho] at h
      cases h

/-! ## C57: where a machine can be -/

/-- The invariant behind C57. -/
structure Landing (M : Machine) (s : SM P W) : Prop where
  slots : Slots M s
  memory : M.historic = true → ∀ p ∈ M.composites, ∀ r c,
    Remembers M s p r c ↔ Memo M s.log p r c
  moves : ∀ l1 f l2, s.log = l1 ++ f :: l2 →
    (∀ r c : Nat, f.before[r]? = some (some c) → c < M.size) ∧
    (∀ r c : Nat, f.after[r]? = some (some c) → c < M.size) ∧ Landed M (Memo M (l1 ++ [f])) f
  trace : ∀ c ∈ s.trace, ∀ r k : Nat, c.cur[r]? = some (some k) → k < M.size

theorem Landing.of_eq {s s' : SM P W} (h : Landing M s) (h1 : s'.cur = s.cur)
    (h2 : s'.initial = s.initial) (h3 : s'.hist = s.hist) (h4 : s'.table = s.table)
    (h5 : s'.handlers = s.handlers) (h6 : s'.log = s.log) (h7 : s'.trace = s.trace) :
    Landing M s' where
  slots := h.slots.of_eq h1 h2 h3 h4 h5
  memory := by unfold Remembers; rw [h3, h6]; exact h.memory
  moves := by rw [h6]; exact h.moves
  trace := by rw [h7]; exact h.trace

/-- The last firing of a longer log, or an earlier one. -/
theorem log_snoc {log l1 l2 : List Firing} {f g : Firing} (h : log ++ [g] = l1 ++ f :: l2) :
    (l1 = log ∧ f = g) ∨ ∃ l, log = l1 ++ f :: l := by
  rcases List.eq_nil_or_concat l2 with rfl | ⟨l, x, rfl⟩
  · obtain ⟨rfl, he⟩ := List.append_inj' h rfl
    cases he
    exact Or.inl ⟨rfl, rfl⟩
  · rw [List.concat_eq_append, show l1 ++ f :: (l ++ [x]) = (l1 ++ f :: l) ++ [x] by simp] at h
    exact Or.inr ⟨l, (List.append_inj' h rfl).1⟩

theorem Landing.moved (hM : M.Regular) (hS : M.Scoped) {s s' : SM P W} {r : Nat} {e : Entry}
    (h : Landing M s) {t : XRow} (ht : t ∈ M.flat) {l : Name × StTy}
    (hl : M.targetLoc t = some l) (hto : e.to = M.comb l.1 l.2)
    (hh : e.history = Machine.isHistory t.target) (hm : Moved M r e s s') : Landing M s' := by
  have hmv := hm.moves hM h.slots.basic ht hl hto hh
  have hsl : Slots M s' := h.slots.moved hm
    (fun _ => by rw [hto]; exact hS.to_lt hM (by simp [ht]) hl)
  have hmem := hmv.remembers hM h.memory
  refine ⟨hsl, hmem, ?_, by rw [hm.trace]; exact h.trace⟩
  intro l1 f l2 he
  rw [hm.log] at he
  rcases log_snoc he with ⟨rfl, rfl⟩ | ⟨l, he⟩
  · refine ⟨h.slots.cur, hsl.cur, t, Machine.extRows_eq ▸ ht, ?_⟩
    obtain ⟨c, hcur, h1, h2⟩ := hmv.dest
    refine ⟨c, hcur, ?_, h2⟩
    intro o q hq
    have := (hmem (Machine.historic_of ht hq) q (Machine.history_target hM ht hq).1 r c).1
      (h1 o q hq)
    rw [hm.log] at this
    exact this
  · exact h.moves l1 f l he

theorem landing_construct (hM : M.Regular) {d : Dep} {w : W} {s : SM P W}
    (h : construct M d w = .ok s) : Landing M s := by
  have hl := logOk_construct hM h
  obtain ⟨_, _, _, _, _, _, _, _, htr, hlog⟩ := construct_ok h
  refine ⟨slots_construct hM h, hl.memory, ?_, ?_⟩
  · intro l1 f l2 he; rw [hlog] at he; simp at he
  · intro c hc; rw [htr] at hc; cases hc

theorem Landing.update (hM : M.Regular) (hS : M.Scoped) {ev : EventTy} {r : Nat} {e : Entry}
    {s : SM P W} (h : Landing M s) (he : Somewhere M ev e) (hx : e.tr ≠ none) :
    (updateState M r e s).Sat True (fun _ => Landing M) (fun _ => Landing M) := by
  obtain ⟨p, st, d, cd, _, _, hcd, hen⟩ := he
  obtain ⟨t, l, _, _, hl, hto, hh, hi, hf⟩ := entry_row hcd hen hx
  cases hu : updateState M r e s with
  | ok a s' =>
    rcases updateState_ok hu with ⟨_, rfl⟩ | hm
    · exact h
    · exact h.moved hM hS (hf (by rw [← hi]; exact hm.ext)) hl hto hh hm
  | throw x s' => exact absurd hu updateState_throw
  | ub u => trivial
  | timeout => trivial

theorem Landing.set (hM : M.Regular) {s : SM P W} (h : Landing M s) {r : Nat} {p : Name} {st : StTy}
    (hp : p ∈ M.composites) (hst : st ∈ M.states) :
    Landing M { s with cur := s.cur.set r (some (M.comb p st)) } :=
  ⟨slots_set hM h.slots hp hst, h.memory, h.moves, h.trace⟩

theorem Landing.dep (hM : M.Regular) {s : SM P W} (h : Landing M s) (d : Dep) :
    (setDependency M d s).Sat True (fun _ => Landing M) (fun _ => Landing M) := by
  unfold setDependency
  split
  · rename_i T hT
    exact ⟨⟨basic_fill hM h.slots.basic hT, h.slots.cur, h.slots.hist⟩, h.memory, h.moves, h.trace⟩
  · trivial

theorem Landing.traced {s0 s : SM P W} {c : Call P} (h0 : Landing M s0) (h : Landing M s)
    (hc : c.cur = s0.cur) : Landing M { s with trace := s.trace ++ [c] } := by
  refine ⟨h.slots.of_eq rfl rfl rfl rfl rfl, h.memory, h.moves, ?_⟩
  intro c' hc' r k hk
  rcases List.mem_append.1 hc' with hc' | hc'
  · exact h.trace c' hc' r k hk
  · rw [List.mem_singleton.1 hc', hc] at hk
    exact h0.slots.cur r k hk

theorem Keeps.landing (hM : M.Regular) (hS : M.Scoped) (hg : sem.Good True (OpOk M)) :
    Keeps M sem (fun _ => True) (OpOk M) (fun _ => True) (Landing M) (fun ev _ e _ => Somewhere M ev e) where
  toRuns := .of hg (fun _ _ h => h.of_eq rfl rfl rfl rfl rfl rfl rfl)
  traced := fun _ _ _ h0 h hc _ => h0.traced h hc
  obj := fun _ _ _ _ => trivial
  opOk := fun _ h => h
  regions := fun _ _ _ _ => trivial
  look := fun _ _ _ _ => Or.inl fun _ => trivial
  entry := fun _ _ _ _ _ h _ hc _ he _ => (h.slots.here hM hc he).somewhere
  null := fun _ _ _ _ _ _ _ _ => trivial
  stay := fun _ _ _ _ _ _ _ _ _ _ _ _ he => he
  iter := fun _ _ _ _ _ _ _ _ _ _ _ _ => trivial
  move := fun _ _ _ _ _ h _ he _ hx _ => (h.update hM hS he (by rw [hx]; simp)).any
  push := fun _ _ _ _ _ h _ _ => h.of_eq rfl rfl rfl rfl rfl rfl rfl
  pop := fun _ _ _ _ h _ => h.of_eq rfl rfl rfl rfl rfl rfl rfl
  handler := fun _ _ _ _ _ => fun _ => Or.inl fun _ => trivial
  set := fun _ _ _ _ hq h _ => h.set hM hq.place.1 hq.place.2
  dep := fun _ d _ h => (h.dep hM d).any

/-- Invariants of histories. -/
theorem RunToR.inv {d : Dep} {ops : List (Op P)} {s : SM P W}
    (base : ∀ w s, construct M d w = .ok s → I s) (world : ∀ s w, I s → I { s with world := w })
    (step : ∀ fuel n op s, OpOk M op → I s →
      (stepR M sem fuel n op s).SatU (fun _ => True) (fun _ => I) (fun _ => I))
    (h : RunToR M sem d ops s) : I s := by
  induction h with
  | init h => exact base _ _ h
  | @ok _ _ _ _ fuel n _ hr hop h ih => have := step fuel n _ _ hop ih; rw [h] at this; exact this
  | @throw _ _ _ _ fuel n _ hr hop h ih =>
    have := step fuel n _ _ hop ih; rw [h] at this; exact this
  | world hr w ih => exact world _ _ ih

theorem RunToR.landing (hM : M.Regular) (hS : M.Scoped) (hg : sem.Good True (OpOk M)) {d : Dep}
    {ops : List (Op P)} {s : SM P W} (h : RunToR M sem d ops s) : Landing M s :=
  h.inv (fun _ _ h => landing_construct hM h) (fun _ _ h => h.of_eq rfl rfl rfl rfl rfl rfl rfl)
    (fun fuel n op s hop hs => (Keeps.landing hM hS hg).step fuel n op s hop hs)

theorem inside_of_lt (hM : M.Regular) {cur : List (Option Nat)}
    (h : ∀ r c : Nat, cur[r]? = some (some c) → c < M.size) : Inside M cur := by
  intro r k hk
  obtain ⟨p, st, hp, hst, rfl⟩ := hM.comb_surj (h r k hk)
  exact ⟨p, hp, st, hst, rfl⟩

/-- C57: callbacks may send events to the machine that is calling them, and move it, as they like.
Still it is always, and was at each callback and before and after each move, at declared
locations, and every move is to the destination of a declared external row. -/
theorem C57_places (hM : M.Regular) (hS : M.Scoped) (hg : sem.Good True (OpOk M)) {d : Dep}
    {ops : List (Op P)} {s : SM P W} (h : RunToR M sem d ops s) :
    Inside M s.cur ∧ (∀ c ∈ s.trace, Inside M c.cur) ∧
    ∀ l1 f l2, s.log = l1 ++ f :: l2 →
      Inside M f.before ∧ Inside M f.after ∧ Landed M (Memo M (l1 ++ [f])) f := by
  have hl := h.landing hM hS hg
  refine ⟨inside_of_lt hM hl.slots.cur, fun c hc => inside_of_lt hM (hl.trace c hc), ?_⟩
  intro l1 f l2 he
  obtain ⟨h1, h2, h3⟩ := hl.moves l1 f l2 he
  exact ⟨inside_of_lt hM h1, inside_of_lt hM h2, h3⟩

/-- C57: without such calls nothing is different from what the other properties are about. -/
theorem C57_conservative (sem : Sem P W) (fuel n : Nat) (op : Op P) (s : SM P W) :
    stepR M sem.lift fuel (n + 1) op s = step M sem fuel op s := stepR_lift fuel n op s

/-! ## C58: the source of a row that fires -/

theorem Keeps.explained (hM : M.Regular) (hS : M.Scoped) (hg : sem.Good True (OpOk M))
    (hq : sem.QuietGuards) :
    Keeps M sem (fun _ => True) (OpOk M) (fun _ => True)
      (fun s => Landing M s ∧ ∀ l1 f l2, s.log = l1 ++ f :: l2 → Explained M (Memo M (l1 ++ [f])) f)
      (Here M) where
  toRuns := .of hg (fun _ _ h => ⟨h.1.of_eq rfl rfl rfl rfl rfl rfl rfl, h.2⟩)
  traced := fun _ _ _ h0 h hc _ => ⟨h0.1.traced h.1 hc, h.2⟩
  obj := fun _ _ _ _ => trivial
  opOk := fun _ h => h
  regions := fun _ _ _ _ => trivial
  look := fun _ _ _ _ => Or.inl fun _ => trivial
  entry := fun _ _ _ _ _ h _ hc _ he _ => h.1.slots.here hM hc he
  null := fun _ _ _ _ _ _ _ _ => trivial
  stay := by
    intro call _ s s' x ev p bp r e _ h he
    obtain ⟨w, tr, rfl⟩ := execGuard_quiet hq h
    exact he
  iter := fun _ _ _ _ _ _ _ _ _ _ _ _ => trivial
  move := by
    intro s ev r e x h _ he _ hx _
    replace hx : e.tr ≠ none := by rw [hx]; simp
    have hL := h.1.update (r := r) hM hS he.somewhere hx
    obtain ⟨p, st, d, cd, ha, hcd, hen⟩ := he
    obtain ⟨t, l, _, hrow, hl, hto, hh, hi, hf⟩ := entry_row hcd hen hx
    cases hu : updateState M r e s with
    | ok a s' =>
      rw [hu] at hL
      rcases updateState_ok hu with ⟨_, rfl⟩ | hm
      · exact h
      · refine ⟨hL, ?_⟩
        have hint : t.internal = false := by rw [← hi]; exact hm.ext
        have ht := hf hint
        have hmv := hm.moves hM h.1.slots.basic ht hl hto hh
        intro l1 f l2 he
        rw [hm.log] at he
        rcases log_snoc he with ⟨rfl, rfl⟩ | ⟨l, he⟩
        · obtain ⟨c, hcur, h1, h2⟩ := hmv.dest
          refine ⟨p, st, ev, cd, t, c, ha.1, ha.2.1, ha.2.2, hcd, hrow, hint, hcur, ?_, h2⟩
          intro o q hq
          have := (hL.memory (Machine.historic_of ht hq) q
            (Machine.history_target hM ht hq).1 r c).1 (h1 o q hq)
          rw [hm.log] at this
          exact this
        · exact h.2 l1 f l he
    | throw x s' => exact absurd hu updateState_throw
    | ub u => trivial
    | timeout => trivial
  push := fun _ _ _ _ _ h _ _ => ⟨h.1.of_eq rfl rfl rfl rfl rfl rfl rfl, h.2⟩
  pop := fun _ _ _ _ h _ => ⟨h.1.of_eq rfl rfl rfl rfl rfl rfl rfl, h.2⟩
  handler := fun _ _ _ _ _ => fun _ => Or.inl fun _ => trivial
  set := fun _ _ _ _ hq h _ => ⟨h.1.set hM hq.place.1 hq.place.2, h.2⟩
  dep := by
    intro s d _ h
    have := h.1.dep hM d
    unfold setDependency at this ⊢
    split at this
    · exact ⟨this, h.2⟩
    · trivial

/-- C58 if guards make no calls (this is what is missing from the full claim; actions, entry and
exit actions and the handler may make any): every move is that of a row applicable where the
region was at that moment. -/
theorem C58_partial (hM : M.Regular) (hS : M.Scoped) (hg : sem.Good True (OpOk M))
    (hq : sem.QuietGuards) {d : Dep} {ops : List (Op P)} {s : SM P W}
    (h : RunToR M sem d ops s) {l1 l2 : List Firing} {f : Firing} (hl : s.log = l1 ++ f :: l2) :
    Explained M (Memo M (l1 ++ [f])) f := by
  have K := Keeps.explained hM hS hg hq
  refine (h.inv (I := fun s => Landing M s ∧ ∀ l1 f l2, s.log = l1 ++ f :: l2 →
    Explained M (Memo M (l1 ++ [f])) f) (fun _ _ h => ⟨landing_construct hM h, ?_⟩)
    (fun _ _ h => ⟨h.1.of_eq rfl rfl rfl rfl rfl rfl rfl, h.2⟩)
    (fun fuel n op s hop hs => K.step fuel n op s hop hs)).2 l1 f l2 hl
  exact (logOk_construct hM h).moves

/-! ## C59: undefined behaviour -/

theorem Prog.Good.and {α : Type} {V : Prop} {Q' : Op P → Prop} : ∀ {pr : Prog P W α}, pr.Good V Q →
    pr.Good True Q' → pr.Good V (fun op => Q op ∧ Q' op) := by
  intro pr
  induction pr with
  | ret => intro _ _; trivial
  | throw => intro _ _; trivial
  | ub => intro h _; exact h
  | call op w k ih => intro h h'; exact ⟨⟨h.1, h'.1⟩, fun r w => ih r w (h.2 r w) (h'.2 r w)⟩

/-- Some user code without calls on the machine, for which `Safe` is about the same objects. -/
def SemR.still (sem : SemR P W) : Sem P W where
  guard _ _ p w := .ok true p w
  action _ _ p w := .ok () p w
  handler _ _ _ _ p w := .ok () p w
  alive := sem.alive
  nonePayload := sem.nonePayload

theorem SafeR.safe (h : SafeR M sem) : Safe M sem.still :=
  ⟨h.scopes, h.regions, h.history, h.noneNotDeferred, h.objects, by simp [SemR.still],
    by simp [SemR.still], by simp [SemR.still]⟩

theorem Solid.of_eq {s s' : SM P W} (h : Solid M s) (h1 : s'.cur = s.cur)
    (h2 : s'.initial = s.initial) (h3 : s'.hist = s.hist) (h4 : s'.table = s.table)
    (h5 : s'.handlers = s.handlers) (h6 : s'.regions = s.regions) : Solid M s' := by
  refine ⟨h.slots.of_eq h1 h2 h3 h4 h5, ?_, ?_⟩
  · intro r hr; rw [h1]; exact h.written r hr
  · unfold activeRegions; rw [h6]; exact h.regions

theorem Solid.update (hM : M.Regular) (hS : SafeR M sem) {ev : EventTy} {r : Nat} {e : Entry}
    {s : SM P W} (h : Solid M s) (hr : r < M.maxInit) (he : Somewhere M ev e) (hx : e.tr ≠ none) :
    (updateState M r e s).Sat False (fun _ s' => Solid M s' ∧ s'.table = s.table) (fun _ _ => False) := by
  obtain ⟨p, st, d, cd, _, _, hcd, hen⟩ := he
  obtain ⟨t, l, ht, _, hl, hto, hh, hi, hf⟩ := entry_row hcd hen hx
  have hlt : e.to < M.size := by rw [hto]; exact hS.scopes.to_lt hM ht hl
  have hd := updateState_defined hM hS.safe h hr hlt
  cases hu : updateState M r e s with
  | ok a s' =>
    rcases updateState_ok hu with ⟨_, rfl⟩ | hm
    · exact ⟨h, rfl⟩
    · exact ⟨h.moved hM (h.slots.moved hm (fun _ => hlt)) hm, hm.table⟩
  | throw x s' => exact absurd hu updateState_throw
  | ub u => exact hd u hu
  | timeout => trivial

theorem Solid.dep (hM : M.Regular) (hS : M.Scoped) {s : SM P W} (h : Solid M s) (d : Dep) :
    (setDependency M d s).Sat False (fun _ => Solid M) (fun _ => Solid M) := by
  unfold setDependency
  obtain ⟨T, hT⟩ := (Machine.C06_fill hM d s.table).1
    ((Machine.scopesReal_iff hM).2 ⟨hS.src, hS.comp⟩)
  rw [hT]
  exact ⟨⟨basic_fill hM h.slots.basic hT, h.slots.cur, h.slots.hist⟩, h.written, h.regions⟩

theorem Solid.handler (hM : M.Regular) {s : SM P W} (h : Solid M s) {ev : EventTy}
    (hev : ev ∈ M.events) (hh : (M.decl M.root).handler.isSome = true) :
    ∃ c st d, s.cur[0]? = some (some c) ∧ c < M.size ∧ s.handlers ev c = some (st, d) := by
  obtain ⟨c, hc⟩ := h.written 0 (maxInit_pos hM)
  have hlt := h.slots.cur 0 c hc
  obtain ⟨q, st, hq, hst, rfl⟩ := hM.comb_surj hlt
  obtain ⟨d, hd⟩ := h.slots.basic.handlers hh
  exact ⟨_, st, d, hc, hlt, hd ev hev q hq st hst⟩

theorem Somewhere.null (hS : SafeR M sem) {ev : EventTy} {e : Entry} (h : Somewhere M ev e)
    (hcase : e.defer = false ∨ (ev = .none ∧ M.anonymous = true)) (hnull : e.tr = none) : False := by
  obtain ⟨p, st, d, cd, _, _, hcd, hen⟩ := h
  rcases Machine.entryOfCand_cases hen with ⟨rfl, h1, _⟩ | ⟨t, l, x, _, _, _, _, _, _, h5, _⟩
  · rcases hcase with h | ⟨rfl, ha⟩
    · rw [h1] at h; cases h
    · exact hS.noneNotDeferred ha p st hcd
  · rw [hnull] at h5; cases h5

theorem SafeR.obj (hS : SafeR M sem) (st : StTy) (s : SM P W) (h : objOkR M sem st s = false) :
    False := by
  unfold objOkR at h
  rw [Machine.defaultCtor_eq] at h
  rcases hS.objects st with h1 | h1
  · rw [h1] at h; cases h
  · rw [h1] at h; simp at h

theorem Prog.Good.no {α : Type} {V : Prop} : ∀ {pr : Prog P W α}, pr.Good False Q → pr.Good V Q := by
  intro pr
  induction pr with
  | ret => intro _; trivial
  | throw => intro _; trivial
  | ub => intro h; exact h.elim
  | call op w k ih => intro h; exact ⟨h.1, fun r w => ih r w (h.2 r w)⟩

theorem SemR.Good.no {V : Prop} (h : sem.Good False Q) : sem.Good V Q :=
  ⟨fun g a p w => (h.guard g a p w).no, fun c a p w => (h.action c a p w).no,
    fun c e st d p w => (h.handler c e st d p w).no⟩

/-- Only the iterators of the loops can go wrong. -/
theorem Keeps.solid (hM : M.Regular) (hS : SafeR M sem)
    (hiter : ∀ call : Op P → SM P W → Res (SM P W) Bool, ∀ s s' x ev p p' c,
      execGuardR M sem call x ev p s = .ok (false, p') s' →
      (s'.table ev c).length ≠ (s.table ev c).length → U .iterator) :
    Keeps M sem U (OpOk M) (fun r => r < M.maxInit) (Solid M)
      (fun ev _ e _ => Somewhere M ev e) where
  toRuns := .of hS.callbacks.no (fun _ _ h => h.of_eq rfl rfl rfl rfl rfl rfl)
  traced := fun _ _ _ _ h _ _ => h.of_eq rfl rfl rfl rfl rfl rfl
  obj := fun st s _ h => (hS.obj st s h).elim
  opOk := fun _ h => h
  regions := fun _ h _ hr => Nat.lt_of_lt_of_le hr h.regions
  look := fun _ r h hr => Or.inr (by
    obtain ⟨c, hc⟩ := h.written r hr
    exact ⟨c, hc, h.slots.cur r c hc⟩)
  entry := fun _ _ _ _ _ h _ hc _ he _ => (h.slots.here hM hc he).somewhere
  null := fun _ _ _ _ _ he hcase hn => (he.null hS hcase hn).elim
  stay := fun _ _ _ _ _ _ _ _ _ _ _ _ he => he
  iter := fun call _ s s' x ev p p' c _ h hne => hiter call s s' x ev p p' c h hne
  move := by
    intro s ev r e x h hr he _ hx _
    replace hx : e.tr ≠ none := by rw [hx]; simp
    have := h.update hM hS hr he hx
    cases hu : updateState M r e s with
    | ok a s' => rw [hu] at this; exact this.1
    | throw x s' => rw [hu] at this; exact this.elim
    | ub u => rw [hu] at this; exact this.elim
    | timeout => trivial
  push := fun _ _ _ _ _ h _ _ => h.of_eq rfl rfl rfl rfl rfl rfl
  pop := fun _ _ _ _ h _ => h.of_eq rfl rfl rfl rfl rfl rfl
  handler := fun _ _ h hev hh _ => Or.inr (h.handler hM hev hh)
  set := fun _ _ _ _ hq h _ => ⟨slots_set hM h.slots hq.place.1 hq.place.2, h.written.set _ _,
    h.regions⟩
  dep := fun _ d _ h => (h.dep hM hS.scopes d).no

/-- Guards make no calls. -/
theorem Keeps.quiet (hM : M.Regular) (hS : SafeR M sem) (hq : sem.QuietGuards) :
    Keeps M sem (fun _ => False) (OpOk M) (fun r => r < M.maxInit) (Solid M)
      (fun ev _ e _ => Somewhere M ev e) :=
  Keeps.solid hM hS fun call s s' x ev p p' c h hne => by
    obtain ⟨w, tr, rfl⟩ := execGuard_quiet hq h
    exact hne rfl

/-- Callbacks do not call `set_dependency`: the table stays the same. -/
theorem Keeps.sameTable (hM : M.Regular) (hS : SafeR M sem) (hk : sem.KeepsDeps) (T : Table) :
    Keeps M sem (fun _ => False) (fun op => OpOk M op ∧ ∀ d, op ≠ .setDependency d) (fun r => r < M.maxInit)
      (fun s => Solid M s ∧ s.table = T) (fun ev _ e _ => Somewhere M ev e) := by
  have kcb : KeepsCb M sem (fun _ => False) (fun op => OpOk M op ∧ ∀ d, op ≠ .setDependency d)
      (fun s => Solid M s ∧ s.table = T) (fun _ _ => True) :=
    { toRuns := .of ⟨fun g a p w => (hS.callbacks.guard g a p w).and (hk.guard g a p w),
        fun c a p w => (hS.callbacks.action c a p w).and (hk.action c a p w),
        fun h e st d p w => (hS.callbacks.handler h e st d p w).and (hk.handler h e st d p w)⟩
        (fun _ _ h => ⟨h.1.of_eq rfl rfl rfl rfl rfl rfl, h.2⟩)
      traced := fun _ _ _ _ h _ _ => ⟨h.1.of_eq rfl rfl rfl rfl rfl rfl, h.2⟩
      obj := fun st s _ h => hS.obj st s h }
  exact
  { toKeepsCb := { kcb with traced := fun s0 s c h0 h hc _ => kcb.traced s0 s c h0 h hc trivial }
    opOk := fun _ h => h.1
    regions := fun _ h _ hr => Nat.lt_of_lt_of_le hr h.1.regions
    look := fun _ r h hr => Or.inr (by
      obtain ⟨c, hc⟩ := h.1.written r hr
      exact ⟨c, hc, h.1.slots.cur r c hc⟩)
    entry := fun _ _ _ _ _ h _ hc _ he _ => (h.1.slots.here hM hc he).somewhere
    null := fun _ _ _ _ _ he hcase hn => he.null hS hcase hn
    stay := fun _ _ _ _ _ _ _ _ _ _ _ _ he => he
    iter := by
      intro call hc s s' x ev p p' c hs h hne
      have := kcb.execGuard hc x ev p s hs (fun _ _ _ _ => trivial)
      rw [h] at this
      exact hne (by rw [this.1.2, hs.2])
    move := by
      intro s ev r e x h hr he _ hx _
      replace hx : e.tr ≠ none := by rw [hx]; simp
      have := h.1.update hM hS hr he hx
      cases hu : updateState M r e s with
      | ok a s' => rw [hu] at this; exact ⟨this.1, this.2.trans h.2⟩
      | throw x s' => rw [hu] at this; exact this.elim
      | ub u => rw [hu] at this; exact this
      | timeout => trivial
    push := fun _ _ _ _ _ h _ _ => ⟨h.1.of_eq rfl rfl rfl rfl rfl rfl, h.2⟩
    pop := fun _ _ _ _ h _ => ⟨h.1.of_eq rfl rfl rfl rfl rfl rfl, h.2⟩
    handler := fun _ _ h hev hh _ => Or.inr (h.1.handler hM hev hh)
    set := fun _ _ _ _ hq h _ => ⟨⟨slots_set hM h.1.slots hq.1.place.1 hq.1.place.2,
      h.1.written.set _ _, h.1.regions⟩, h.2⟩
    dep := fun _ d hq _ => absurd rfl (hq.2 d) }

theorem SafeR.step (hM : M.Regular) (hS : SafeR M sem) (hq : sem.QuietGuards ∨ sem.KeepsDeps)
    (fuel n : Nat) (op : Op P) (s : SM P W) (hop : OpOk M op) (hs : Solid M s) :
    (stepR M sem fuel n op s).SatU (fun _ => False) (fun _ => Solid M) (fun _ => Solid M) := by
  rcases hq with hq | hk
  · exact (Keeps.quiet hM hS hq).step fuel n op s hop hs
  · have key : (∀ d, op ≠ .setDependency d) →
        (stepR M sem fuel n op s).SatU (fun _ => False) (fun _ => Solid M) (fun _ => Solid M) := by
      intro hne
      have := (Keeps.sameTable hM hS hk s.table).step fuel n op s ⟨hop, hne⟩ ⟨hs, rfl⟩
      cases hr : stepR M sem fuel n op s <;> rw [hr] at this
      · exact this.1
      · exact this.1
      · exact this
      · trivial
    cases op with
    | process ev p => exact key (fun _ => by simp)
    | set r p st => exact key (fun _ => by simp)
    | setDependency d =>
      cases n with
      | zero => trivial
      | succ n => exact Res.SatU.bind (hs.dep hM hS.scopes d).no (fun _ _ h => h)

/-- C59 if guards make no calls or no callback calls `set_dependency` (this is what is missing from
the full claim): callbacks that use the machine add no undefined behaviour to a safe one, in any
history, however deep the calls nest. -/
theorem C59_partial (hM : M.Regular) (hS : SafeR M sem) (hq : sem.QuietGuards ∨ sem.KeepsDeps)
    {d : Dep} {ops : List (Op P)} {s : SM P W} (h : RunToR M sem d ops s) :
    (∀ fuel n op, OpOk M op → (stepR M sem fuel n op s).Defined) ∧
    (∀ st, (isState M st s).Defined) ∧ (∀ p, (parentIs M p s).Defined) ∧
    (∀ r p st, (isRegion M r p st s).Defined) ∧ (status M s).Defined := by
  have hs : Solid M s := h.inv
    (fun w s h => Reach.solid hM hS.safe ⟨d, [], .init h⟩)
    (fun _ _ h => h.of_eq rfl rfl rfl rfl rfl rfl)
    (fun fuel n op s hop hs => by
      have := hS.step hM hq fuel n op s hop hs
      cases hr : stepR M sem fuel n op s <;> rw [hr] at this <;>
        first | exact this | trivial)
  refine ⟨?_, hs.observers hM⟩
  intro fuel n op hop
  exact (hS.step hM hq fuel n op s hop hs).defined

/-- C59 without restrictions on the callbacks: the only thing that can go wrong in a safe machine is
a loop that goes on after its table cell was pushed to. -/
theorem C59_only_iterators (hM : M.Regular) (hS : SafeR M sem) {d : Dep} {ops : List (Op P)}
    {s : SM P W} (h : RunToR M sem d ops s) :
    (∀ fuel n op u, OpOk M op → stepR M sem fuel n op s = .ub u → u = .iterator) ∧
    (∀ st, (isState M st s).Defined) ∧ (∀ p, (parentIs M p s).Defined) ∧
    (∀ r p st, (isRegion M r p st s).Defined) ∧ (status M s).Defined := by
  have K := Keeps.solid (U := (· = .iterator)) hM hS (fun _ _ _ _ _ _ _ _ _ _ => rfl)
  have hs : Solid M s := h.inv
    (fun w s h => Reach.solid hM hS.safe ⟨d, [], .init h⟩)
    (fun _ _ h => h.of_eq rfl rfl rfl rfl rfl rfl)
    (fun fuel n op s hop hs => by
      have := K.step fuel n op s hop hs
      cases hr : stepR M sem fuel n op s <;> rw [hr] at this <;>
        first | exact this | trivial)
  refine ⟨?_, hs.observers hM⟩
  intro fuel n op u hop hu
  have := K.step fuel n op s hop hs
  rw [hu] at this
  exact this

/-! ## C60: run to completion -/

theorem RunToR.lower {sem : Sem P W} {d : Dep} {ops : List (Op P)} {s : SM P W}
    (h : RunToR M sem.lift d ops s) : RunTo M sem d ops s := by
  induction h with
  | init h => exact .init h
  | @ok _ _ _ _ fuel n _ hr hop h ih =>
    cases n with
    | zero => cases h
    | succ n => rw [stepR_lift] at h; exact .ok ih hop h
  | @throw _ _ _ _ fuel n _ hr hop h ih =>
    cases n with
    | zero => cases h
    | succ n => rw [stepR_lift] at h; exact .throw ih hop h
  | world hr w ih => exact .world ih w

/-- C60 for callbacks that make no calls (this is what is missing from the full claim): in every
history, after each move the callbacks of its row are called, one directly after the other, and
all have returned or one has thrown before the next move. -/
theorem C60_partial (hM : M.Regular) {sem : Sem P W} {d : Dep} {ops : List (Op P)} {s : SM P W}
    (h : RunToR M sem.lift d ops s) {l1 l2 : List Firing} {f : Firing}
    (hl : s.log = l1 ++ f :: l2) :
    Accounted M (depsOf d ops) (Memo M (l1 ++ [f])) s.trace l2 f :=
  C41_moves hM h.lower hl

theorem CalledAll.cur_eq {args : Args} {cur : List (Option Nat)} {cs : List (Phase × Cb)}
    {tr : List (Call P)} (h : CalledAll args cur cs tr) : ∀ c ∈ tr, c.cur = cur := by
  obtain ⟨ps, _, rfl⟩ := h
  intro c hc
  obtain ⟨x, _, rfl⟩ := List.mem_map.1 hc
  rfl

/-- The first callback called after a move finds the machine where the move put it. -/
theorem Accounted.next {deps : List Dep} {mem : Name → Nat → Nat → Prop} {tr : List (Call P)}
    {later : List Firing} {f : Firing} (h : Accounted M deps mem tr later f)
    (hne : ∀ t ∈ M.flat ++ M.iflat, M.callbacks t ≠ []) :
    ∃ c, tr[f.calls]? = some c ∧ c.cur = f.after := by
  obtain ⟨ev, cd, t, d, l, pre, gs, as, post, hrow, hi, htr, hcalls, _, _, has, _⟩ := h
  have ht : t ∈ M.flat ++ M.iflat := by
    obtain ⟨p, st, _, _, _, hcd⟩ := hrow.place
    have hr := hrow.row
    rcases Machine.cand_row hcd with rfl | ⟨t', ht', _, rfl | rfl⟩
    · cases hr
    · cases hr; exact ht'
    · cases hr; exact ht'
  have hall : as ≠ [] ∧ ∀ c ∈ as, c.cur = f.after := by
    rcases has with ha | ⟨pre', ph, a, post', tr', q, _, ha, rfl⟩
    · refine ⟨?_, ha.cur_eq⟩
      obtain ⟨ps, hlen, rfl⟩ := ha
      intro hn
      have := congrArg List.length hn
      simp only [List.length_map, List.length_zip, List.length_nil] at this
      have : (M.callbacks t).length = 0 := by omega
      exact hne t ht (List.length_eq_zero_iff.1 this)
    · refine ⟨by simp, ?_⟩
      intro c hc
      rcases List.mem_append.1 hc with hc | hc
      · exact ha.cur_eq c hc
      · rw [List.mem_singleton.1 hc]; rfl
  obtain ⟨c, as', rfl⟩ := List.exists_cons_of_ne_nil hall.1
  refine ⟨c, ?_, hall.2 c (by simp)⟩
  rw [htr, hcalls]
  simp

end

/-! ## Examples -/

namespace Ex

/-- States 1, 2 and 3; event 0 leads from 1 to 2 if guard 100 holds, event 1 from 1 to 3, event 2
from 2 and from 3 to 1.  State 2 has an entry action, 20. -/
def hopDecls : List Decl :=
  [ { table := some
        [ row (ini 1) (ev 0) (some 100) (some 1) (.st 2),
          row (.st 1) (ev 1) none (some 2) (.st 3),
          row (.st 2) (ev 2) none (some 3) (.st 1),
          row (.st 3) (ev 2) none (some 4) (.st 1) ] },
    { }, { onEntry := some 20 }, { } ]

def hop : Machine := Machine.ofList hopDecls []

theorem hop_regular : hop.Regular := Machine.regular_ofList (by decide +kernel)
theorem hop_scoped : hop.Scoped := Machine.scoped_of_check (by decide +kernel)

/-- Makes the calls `ops`, whatever they return or throw, then returns. -/
def makes {α : Type} (a : α) (p : Nat) : List (Op Nat) → List Nat → Prog Nat (List Nat) α
  | [], w => .ret a p w
  | op :: ops, w => .call op w fun _ w => makes a p ops w

/-- As `sem`; guard `g` first makes the calls `asks g`, action or handler `c` the calls `calls c`. -/
def semR (on : Nat → Bool) (asks calls : Nat → List (Op Nat)) : SemR Nat (List Nat) where
  guard g _ p w := makes (on g) p (asks g) (w ++ [g])
  action a _ p w := makes () p (calls a) (w ++ [a])
  handler h _ _ _ p w := makes () p (calls h) (w ++ [h])
  alive _ _ := true
  nonePayload := 0

theorem makes_good {α : Type} {U : Prop} {Q : Op Nat → Prop} {a : α} {p : Nat} :
    ∀ {ops : List (Op Nat)} {w : List Nat}, (∀ op ∈ ops, Q op) → (makes a p ops w).Good U Q
  | [], _, _ => trivial
  | op :: ops, _, h => ⟨h op (by simp), fun _ _ => makes_good fun op' h' => h op' (by simp [h'])⟩

theorem semR_good {U : Prop} {Q : Op Nat → Prop} {on : Nat → Bool}
    {asks calls : Nat → List (Op Nat)} (h1 : ∀ c, ∀ op ∈ asks c, Q op)
    (h2 : ∀ c, ∀ op ∈ calls c, Q op) : (semR on asks calls).Good U Q :=
  ⟨fun g _ _ _ => makes_good (h1 g), fun c _ _ _ => makes_good (h2 c),
    fun c _ _ _ _ _ => makes_good (h2 c)⟩

/-- No calls. -/
def never (_ : Nat) : List (Op Nat) := []

theorem never_all {Q : Op Nat → Prop} : ∀ n, ∀ op ∈ never n, Q op := by
  intro n op h; cases h

theorem semR_quiet {on : Nat → Bool} {calls : Nat → List (Op Nat)} :
    (semR on never calls).QuietGuards := fun _ _ _ _ => trivial

/-- Callback `c` makes the calls `ops`, the others none. -/
def only (c : Nat) (ops : List (Op Nat)) (n : Nat) : List (Op Nat) := if n = c then ops else []

theorem only_all {Q : Op Nat → Prop} {c : Nat} {ops : List (Op Nat)} (h : ∀ op ∈ ops, Q op) :
    ∀ n, ∀ op ∈ only c ops n, Q op := by
  intro n op hop
  unfold only at hop
  split at hop
  · exact h op hop
  · cases hop

section
variable {P W : Type} (M : Machine) (sm : SemR P W)

def runOpsR (fuel n : Nat) : List (Op P) → SM P W → Option (SM P W)
  | [], s => some s
  | op :: ops, s =>
    if opOkB M op then
      match stepR M sm fuel n op s with
      | .ok _ s' => runOpsR fuel n ops s'
      | .throw _ s' => runOpsR fuel n ops s'
      | _ => none
    else none

def runR (fuel n : Nat) (d : Dep) (w : W) (ops : List (Op P)) : Option (SM P W) :=
  match construct M d w with
  | .ok s => runOpsR M sm fuel n ops s
  | .error _ => none

theorem runOpsR_runTo {fuel n : Nat} {d : Dep} {ops : List (Op P)} : ∀ {pre : List (Op P)}
    {s s' : SM P W}, RunToR M sm d pre s → runOpsR M sm fuel n ops s = some s' →
    RunToR M sm d (pre ++ ops) s' := by
  induction ops with
  | nil => intro pre s s' h1 h2; cases h2; simpa using h1
  | cons op ops ih =>
    intro pre s s' h1 h2
    unfold runOpsR at h2
    split at h2
    · rename_i hop
      split at h2
      · rename_i h3
        have := ih (.ok h1 (opOkB_iff M hop) h3) h2
        simpa using this
      · rename_i h3
        have := ih (.throw h1 (opOkB_iff M hop) h3) h2
        simpa using this
      · cases h2
    · cases h2

theorem exists_runR {fuel n : Nat} {d : Dep} {w : W} {ops : List (Op P)} {f : SM P W → Bool}
    (h : (runR M sm fuel n d w ops).any f = true) : ∃ s, RunToR M sm d ops s ∧ f s = true := by
  cases hr : runR M sm fuel n d w ops with
  | none => rw [hr] at h; cases h
  | some s =>
    rw [hr] at h
    refine ⟨s, ?_, h⟩
    unfold runR at hr
    split at hr
    · rename_i s0 h0
      simpa using runOpsR_runTo M sm (.init h0) hr
    · cases hr

end

theorem hop_ok (n : Nat) (h : n < 3) (p : Nat) : OpOk hop (.process (ev n) p) := by
  apply opOkB_iff
  have : ∀ n < 3, decide (ev n ∈ hop.events) = true := by decide +kernel
  exact this n h

theorem hop_objects (st : StTy) : hop.selfMade st = true := by
  cases st with
  | ps o k => cases k <;> rfl
  | st s =>
    show (hopDecls.getD s {}).defaultCtor = true
    by_cases hs : s < hopDecls.length
    · have : ∀ s < hopDecls.length, (hopDecls.getD s {}).defaultCtor = true := by decide
      exact this s hs
    · rw [List.getD_eq_getElem?_getD, List.getElem?_eq_none (Nat.le_of_not_lt hs)]; rfl

theorem hop_safe {on : Nat → Bool} {asks calls : Nat → List (Op Nat)}
    (h1 : ∀ c, ∀ op ∈ asks c, OpOk hop op) (h2 : ∀ c, ∀ op ∈ calls c, OpOk hop op) :
    SafeR hop (semR on asks calls) :=
  have s0 : Safe hop (sem fun _ => true) := safe_of_check hop_scoped (by decide +kernel)
  ⟨hop_scoped, s0.regions, s0.history, s0.noneNotDeferred, fun st => Or.inl (hop_objects st),
    semR_good h1 h2⟩

/-- The action of the row from 1 to 2 sends event 2. -/
def onward : SemR Nat (List Nat) := semR (fun _ => true) never (only 1 [.process (ev 2) 8])

theorem onward_ok : ∀ n, ∀ op ∈ only 1 [.process (ev 2) 8] n, OpOk hop op :=
  only_all fun op h => by rw [List.mem_singleton.1 h]; exact hop_ok 2 (by decide) 8

/-- The machine goes on from 2 to 1 inside the action, and then the entry action of 2 runs, with
the machine in 1.  (The trace has callbacks in the order they end.) -/
example : (runR hop onward 5 5 7 [] [.process (ev 0) 1]).any (fun s =>
    s.cur == [some (hop.comb 0 (.st 1))] && s.world == [100, 1, 3, 20] &&
    s.log.map (fun f => (f.before, f.after)) ==
      [([some (hop.comb 0 (.st 1))], [some (hop.comb 0 (.st 2))]),
       ([some (hop.comb 0 (.st 2))], [some (hop.comb 0 (.st 1))])] &&
    s.trace.map Call.cur == [[some (hop.comb 0 (.st 1))], [some (hop.comb 0 (.st 1))],
      [some (hop.comb 0 (.st 2))], [some (hop.comb 0 (.st 1))]]) = true := by
  decide +kernel

/-- C57, C58 and C59 apply to it. -/
example : ∃ s, RunToR hop onward 7 [.process (ev 0) 1] s ∧ s.log.length = 2 ∧ s.trace.length = 4 ∧
    (∀ c ∈ s.trace, Inside hop c.cur) ∧
    (∀ l1 f l2, s.log = l1 ++ f :: l2 → Explained hop (Memo hop (l1 ++ [f])) f) ∧
    ∀ fuel n, (stepR hop onward fuel n (.process (ev 0) 2) s).Defined := by
  obtain ⟨s, h, hs⟩ := exists_runR hop onward
    (fuel := 5) (n := 5) (d := 7) (w := []) (ops := [.process (ev 0) 1])
    (f := fun s => s.log.length == 2 && s.trace.length == 4) (by decide +kernel)
  simp only [Bool.and_eq_true, beq_iff_eq] at hs
  have hg : ∀ {U}, onward.Good U (OpOk hop) := semR_good never_all onward_ok
  refine ⟨s, h, hs.1, hs.2, (C57_places hop_regular hop_scoped hg h).2.1,
    fun l1 f l2 hl => C58_partial hop_regular hop_scoped hg semR_quiet h hl,
    fun fuel n => (C59_partial hop_regular (hop_safe never_all onward_ok) (Or.inl semR_quiet)
      h).1 fuel n _ (hop_ok 0 (by decide) 2)⟩

/-- Guard 100 sends event 1 and then says yes. -/
def diverted : SemR Nat (List Nat) := semR (fun _ => true) (only 100 [.process (ev 1) 8]) never

theorem diverted_ok : ∀ n, ∀ op ∈ only 100 [.process (ev 1) 8] n, OpOk hop op :=
  only_all fun op h => by rw [List.mem_singleton.1 h]; exact hop_ok 1 (by decide) 8

/-- No callback of `diverted` calls `set_dependency`: C59 applies, by its second case. -/
example (fuel n : Nat) {ops : List (Op Nat)} {s : SM Nat (List Nat)}
    (h : RunToR hop diverted 7 ops s) :
    (stepR hop diverted fuel n (.process (ev 0) 1) s).Defined :=
  (C59_partial hop_regular (hop_safe diverted_ok never_all)
    (Or.inr (semR_good (only_all fun op h => by rw [List.mem_singleton.1 h]; simp) never_all))
    h).1 fuel n _ (hop_ok 0 (by decide) 1)

/-- C60 applies to a history with two moves. -/
example : ∃ s, RunToR hop (sem fun _ => true).lift 7 [.process (ev 0) 1, .process (ev 2) 2] s ∧
    ∃ f g, s.log = [f, g] ∧ Accounted hop [7] (Memo hop [f]) s.trace [g] f := by
  obtain ⟨s, h, hs⟩ := exists_runR hop (sem fun _ => true).lift
    (fuel := 5) (n := 5) (d := 7) (w := []) (ops := [.process (ev 0) 1, .process (ev 2) 2])
    (f := fun s => s.log.length == 2) (by decide +kernel)
  match hl : s.log, hs with
  | [], hs => simp at hs
  | [_], hs => simp at hs
  | _ :: _ :: _ :: _, hs => simp at hs
  | [f, g], _ => exact ⟨s, h, f, g, hl, C60_partial (l1 := []) hop_regular h hl⟩

/-- Guard 100 calls `set_dependency` and then answers `b`. -/
def rewire (b : Bool) : SemR Nat (List Nat) :=
  semR (fun _ => b) (only 100 [.setDependency 9]) never

/-- When the guard says yes nothing is wrong. -/
example : (runR hop (rewire true) 5 5 7 [] [.process (ev 0) 1]).any (fun s =>
    s.cur == [some (hop.comb 0 (.st 2))]) = true := by decide +kernel

end Ex

section
open Ex

/-- C58 is false in general: from state 1 the machine is sent event 0; the guard of the row from 1
to 2 sends event 1 and says yes; so the machine is in 3 when the row fires. -/
theorem C58_refuted : ∃ (M : Machine) (sem : SemR Nat (List Nat)) (d : Dep) (ops : List (Op Nat))
    (s : SM Nat (List Nat)) (l1 : List Firing) (f : Firing),
    M.Regular ∧ M.Scoped ∧ sem.Good False (OpOk M) ∧ RunToR M sem d ops s ∧ s.log = l1 ++ [f] ∧
    ∀ mem, ¬ Explained M mem f := by
  obtain ⟨s, h, hs⟩ := exists_runR hop diverted
    (fuel := 5) (n := 5) (d := 7) (w := []) (ops := [.process (ev 0) 1])
    (f := fun s => s.log.map (fun f => (f.region, f.before, f.after)) ==
      [(0, [some (hop.comb 0 (.st 1))], [some (hop.comb 0 (.st 3))]),
       (0, [some (hop.comb 0 (.st 3))], [some (hop.comb 0 (.st 2))])]) (by decide +kernel)
  have hs := eq_of_beq hs
  match hl : s.log, hs with
  | [], hs => simp at hs
  | [_], hs => simp at hs
  | _ :: _ :: _ :: _, hs => simp at hs
  | [f1, f2], hs =>
  refine ⟨hop, diverted, 7, _, s, [f1], f2, hop_regular, hop_scoped,
    semR_good diverted_ok never_all, h, hl, ?_⟩
  simp only [List.map_cons, List.map_nil, List.cons.injEq, Prod.mk.injEq] at hs
  obtain ⟨_, ⟨hr, hb, ha⟩, _⟩ := hs
  rintro mem ⟨p, st, e, cd, t, c, hp, hst, hat, hcd, hrow, hint, haft, hhist, hloc⟩
  rw [hr, hb] at hat
  have h0 : (0 : Name) ∈ hop.composites := by decide +kernel
  have h3 : StTy.st 3 ∈ hop.states := by decide +kernel
  have heq := hop_regular.comb_inj h0 h3 (show hop.comb p st = _ by simpa using hat.symm)
  cases heq
  have key : ∀ t ∈ hop.flat ++ hop.iflat,
      Machine.sourceLoc t.parent t.source = (0, .st 3) ∨ t.source = .st 0 →
        hop.targetLoc t = some (0, .st 1) ∧ ∀ o q, t.target ≠ .ps o (.history q) := by
    have hB : (hop.flat ++ hop.iflat).all (fun t =>
        !(Machine.sourceLoc t.parent t.source == (0, .st 3) || t.source == .st 0) ||
          (hop.targetLoc t == some (0, .st 1) && t.target == .st 1)) = true := by decide +kernel
    intro t ht hsrc
    have := List.all_eq_true.1 hB t ht
    simp only [Bool.or_eq_true, Bool.not_eq_true', Bool.and_eq_true, beq_iff_eq,
      Bool.or_eq_false_iff, beq_eq_false_iff_ne] at this
    rcases this with h | h
    · rcases hsrc with h' | h'
      · exact absurd h' h.1
      · exact absurd h' h.2
    · exact ⟨h.1, by rw [h.2]; simp⟩
  have ht : hop.targetLoc t = some (0, .st 1) ∧ ∀ o q, t.target ≠ .ps o (.history q) := by
    rcases Machine.mem_cands.1 hcd with ⟨rfl, _⟩ | ⟨t', ht', _, hsrc, _, _, rfl⟩ |
        ⟨t', ht', _, hsrc, rfl⟩ | ⟨t', ht', _, hsrc, rfl⟩
    · cases hrow
    · cases hrow; exact key _ (by simp [ht']) (Or.inr hsrc)
    · cases hrow; exact key _ (by simp [ht']) (Or.inl hsrc)
    · cases hrow; exact key _ (by simp [ht']) (Or.inl hsrc)
  obtain ⟨l, hl', hc⟩ := hloc ht.2
  rw [ht.1] at hl'
  cases hl'
  rw [ha, hb, hr, hc] at haft
  exact absurd haft (by decide +kernel)

/-- C60 is false in general: the action of the row from 1 to 2 sends event 2, the machine moves on
to 1, and only then the entry action of 2 is called. -/
theorem C60_refuted : ∃ (M : Machine) (sem : SemR Nat (List Nat)) (d : Dep) (ops : List (Op Nat))
    (s : SM Nat (List Nat)) (f : Firing) (l2 : List Firing),
    M.Regular ∧ M.Scoped ∧ sem.Good False (OpOk M) ∧ sem.QuietGuards ∧ RunToR M sem d ops s ∧
    s.log = f :: l2 ∧ ∀ deps mem, ¬ Accounted M deps mem s.trace l2 f := by
  obtain ⟨s, h, hs⟩ := exists_runR hop onward
    (fuel := 5) (n := 5) (d := 7) (w := []) (ops := [.process (ev 0) 1])
    (f := fun s => (s.log.head?.map fun f => (f.calls, f.after)) ==
        some (1, [some (hop.comb 0 (.st 2))]) &&
      (s.trace[1]?.map Call.cur) == some [some (hop.comb 0 (.st 1))]) (by decide +kernel)
  simp only [Bool.and_eq_true, beq_iff_eq] at hs
  match hl : s.log, hs with
  | [], hs => simp at hs
  | f :: l2, hs =>
  refine ⟨hop, onward, 7, _, s, f, l2, hop_regular, hop_scoped,
    semR_good never_all onward_ok, semR_quiet, h, hl, ?_⟩
  intro deps mem ha
  have hne : (hop.flat ++ hop.iflat).all (fun t => !(hop.callbacks t).isEmpty) = true := by
    decide +kernel
  obtain ⟨c, hc, hcur⟩ := ha.next (fun t ht => by
    have := List.all_eq_true.1 hne t ht
    simpa using this)
  obtain ⟨h1, h2⟩ := hs
  simp only [List.head?_cons, Option.map_some, Option.some.injEq, Prod.mk.injEq] at h1
  rw [h1.1] at hc
  rw [hc] at h2
  simp only [Option.map_some, Option.some.injEq] at h2
  rw [hcur, h1.2] at h2
  exact absurd h2 (by decide +kernel)

/-- C59 is false in general: a guard that calls `set_dependency` and says no. -/
theorem C59_refuted : ∃ (M : Machine) (sem : SemR Nat (List Nat)) (d : Dep) (ops : List (Op Nat))
    (s : SM Nat (List Nat)) (fuel n : Nat) (op : Op Nat), M.Regular ∧ SafeR M sem ∧
    RunToR M sem d ops s ∧ OpOk M op ∧ stepR M sem fuel n op s = .ub .iterator := by
  obtain ⟨s, h, hs⟩ := exists_runR hop (rewire false) (fuel := 5) (n := 5) (d := 7) (w := [])
    (ops := []) (f := fun s => hits .iterator (stepR hop (rewire false) 5 5 (.process (ev 0) 1) s))
    (by decide +kernel)
  refine ⟨hop, rewire false, 7, [], s, 5, 5, .process (ev 0) 1, hop_regular,
    hop_safe (only_all fun op h => by rw [List.mem_singleton.1 h]; trivial) never_all, h,
    hop_ok 0 (by decide) 1, ?_⟩
  unfold hits at hs
  split at hs
  · rename_i heq
    rw [heq, eq_of_beq hs]
  · cases hs

end
end Hsm
