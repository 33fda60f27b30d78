import Verif.Systems
import Verif.PropsConsent
import Verif.PropsCalls
import Verif.PropsReachR

/-!
# C117: several machines in one program

Whatever calls callbacks of machines make on each other, every machine stays what it was proved to be on
its own.
-/

namespace Hsm

/-! ## Invariants of all machines -/

section
variable {ι P W : Type} [DecidableEq ι] {Ms : ι → Machine} {sem : SemS ι P W}
  {U : UB → Prop} {Q : ι → Op P → Prop} {I : ι → SM P (Hub ι P W) → Prop}

/-- What machine `i` can rely on while it runs: the others keep their invariants, nothing on their records
since `h0` is lost, and calls are of the right kind. -/
structure Amongst (Q : ι → Op P → Prop) (I : ι → SM P (Hub ι P W) → Prop) (i : ι) (h0 h : Hub ι P W) : Prop where
  others : ∀ j, j ≠ i → (∀ w, I j ((h.parts j).rebase w)) ∧ Grows (h0.parts j) (h.parts j)
  request : ∀ j op, h.request = some (j, op) → Q j op

section
variable {i : ι} {h0 : Hub ι P W} {o : Op P} (hw : ∀ s w, I i s → I i { s with world := w })
include hw

theorem SProg.lasts {call : Op P → SM P (Hub ι P W) → Res (SM P (Hub ι P W)) Bool}
    (hc : Held U (Q i) (fun s => I i s ∧ Amongst Q I i h0 s.world) call) (ho : Q i o) {α : Type} :
    ∀ (pr : SProg ι P W α) (m : ι → SM P Unit) (s : SM P (Hub ι P W)), pr.Good (U .callback) Q → I i s →
    (∀ j, j ≠ i → (∀ w, I j ((m j).rebase w)) ∧ Grows (h0.parts j) (m j)) →
    (runProg call (pr.prog o m) s).Lasts U (fun s => I i s ∧ Amongst Q I i h0 s.world) s := by
  intro pr
  induction pr with
  | ret a p w => intro m s _ hs hm; exact ⟨⟨hw _ _ hs, hm, fun _ _ h => by cases h⟩, .of_eq rfl rfl⟩
  | throw x w => intro m s _ hs hm; exact ⟨⟨hw _ _ hs, hm, fun _ _ h => by cases h⟩, .of_eq rfl rfl⟩
  | ub => intro m s hg _ _; exact hg
  | call j op w k ih =>
    intro m s hg hs hm
    unfold SProg.prog runProg
    have := (hc o { s with world := ⟨w, m, some (j, op)⟩ } ho ⟨hw _ _ hs, hm, fun j' op' h => by
      cases h; exact hg.1⟩).since (Grows.of_eq (s := s) rfl rfl)
    split <;> rename_i heq <;> rw [heq] at this
    · exact (ih _ _ _ _ (hg.2 _ _) this.1.1 this.1.2.others).since this.2
    · exact (ih _ _ _ _ (hg.2 _ _) this.1.1 this.1.2.others).since this.2
    · exact this
    · trivial

open Classical in
/-- Calls are only made if the others are fine. -/
noncomputable def gated (Q : ι → Op P → Prop) (I : ι → SM P (Hub ι P W) → Prop) (i : ι) (h0 : Hub ι P W)
    (call : Op P → SM P (Hub ι P W) → Res (SM P (Hub ι P W)) Bool) (op : Op P) (s : SM P (Hub ι P W)) :
    Res (SM P (Hub ι P W)) Bool :=
  if Amongst Q I i h0 s.world then call op s else .timeout

theorem SProg.gated {call : Op P → SM P (Hub ι P W) → Res (SM P (Hub ι P W)) Bool}
    (hc : Held U (Q i) (fun s => I i s ∧ Amongst Q I i h0 s.world) call) (ho : Q i o) {α : Type} :
    ∀ (pr : SProg ι P W α) (m : ι → SM P Unit) (s : SM P (Hub ι P W)), pr.Good (U .callback) Q → I i s →
    (∀ j, j ≠ i → (∀ w, I j ((m j).rebase w)) ∧ Grows (h0.parts j) (m j)) →
    runProg (Hsm.gated Q I i h0 call) (pr.prog o m) s = runProg call (pr.prog o m) s := by
  intro pr
  induction pr with
  | ret a p w => intro m s _ hs hm; rfl
  | throw x w => intro m s _ hs hm; rfl
  | ub => intro m s hg _ _; rfl
  | call j op w k ih =>
    intro m s hg hs hm
    unfold SProg.prog runProg
    have hf : Amongst Q I i h0 ⟨w, m, some (j, op)⟩ := ⟨hm, fun j' op' h => by cases h; exact hg.1⟩
    have := hc o { s with world := ⟨w, m, some (j, op)⟩ } ho ⟨hw _ _ hs, hf⟩
    have he : Hsm.gated Q I i h0 call o { s with world := ⟨w, m, some (j, op)⟩ } =
        call o { s with world := ⟨w, m, some (j, op)⟩ } := if_pos hf
    rw [he]
    clear he
    cases hr : call o { s with world := ⟨w, m, some (j, op)⟩ } <;> rw [hr] at this
    · exact ih _ _ _ _ (hg.2 _ _) this.1.1 this.1.2.others
    · exact ih _ _ _ _ (hg.2 _ _) this.1.1 this.1.2.others
    all_goals rfl

omit hw in
theorem held_gated {call : Op P → SM P (Hub ι P W) → Res (SM P (Hub ι P W)) Bool}
    (hc : Held U (Q i) (fun s => I i s ∧ Amongst Q I i h0 s.world) call) :
    Held U (Q i) (I i) (gated Q I i h0 call) := by
  intro op s hq hs
  unfold gated
  split
  · rename_i hf
    have := hc op s hq ⟨hs, hf⟩
    cases hr : call op s <;> rw [hr] at this
    · exact ⟨this.1.1, this.2⟩
    · exact ⟨this.1.1, this.2⟩
    · exact this
    · trivial
  · trivial

theorem execGuardR_gated {M : Machine} {call : Op P → SM P (Hub ι P W) → Res (SM P (Hub ι P W)) Bool}
    (hc : Held U (Q i) (fun s => I i s ∧ Amongst Q I i h0 s.world) call) (ho : Q i o)
    (hg : sem.Good (U .callback) Q) (x : Exec) (ev : EventTy) (p : P) {s : SM P (Hub ι P W)}
    (hs : I i s ∧ Amongst Q I i h0 s.world) :
    execGuardR M (sem.at i o) (gated Q I i h0 call) x ev p s = execGuardR M (sem.at i o) call x ev p s := by
  unfold execGuardR
  split
  · rfl
  · rename_i g _
    dsimp only
    generalize (if x.internal = true then x.src else x.dst) = dst
    refine ite_parts ?_ rfl
    unfold runCb
    have : runProg (gated Q I i h0 call)
        ((sem.at i o).guard g ⟨ev, x.src, dst, false, x.dep⟩ p s.world) s = _ :=
      SProg.gated hw hc ho _ _ s (hg.guard i g ⟨ev, x.src, dst, false, x.dep⟩ p s.world.user) hs.1 hs.2.others
    rw [this]
    rfl

omit hw in
theorem Asked.mono {I I' : SM P (Hub ι P W) → Prop} (h : ∀ s, I s → I' s) {ev : EventTy} {x : Exec}
    {s : SM P (Hub ι P W)} (ha : Asked I ev x s) : Asked I' ev x s := fun g hg => by
  obtain ⟨s0, q, cur, h1, h2⟩ := ha g hg
  exact ⟨s0, q, cur, h _ h1, h2⟩

omit hw in
theorem By.mono {M : Machine} {sem : SemR P (Hub ι P W)} {I I' : SM P (Hub ι P W) → Prop}
    (h : ∀ s, I s → I' s) {E : EventTy → Nat → Entry → SM P (Hub ι P W) → Prop} {V : EventTy → Prop}
    {c : Call P} {s : SM P (Hub ι P W)} (hb : By M sem I E V c s) : By M sem I' E V c s := by
  cases hb with
  | guard hs he hx hg => exact .guard (h _ hs) he hx hg _ _ _
  | action hs he hpa hask hx hmv hcs hds htr hsub hlog =>
    exact .action (h _ hs) he hpa (hask.mono h) hx hmv hcs hds htr hsub hlog _ _ _
  | handler hs hev hv hh hc hlt hd => exact .handler (h _ hs) hev hv hh hc hlt hd _ _ _

/-- An invariant of a machine on its own is one of the machine among others. -/
theorem KeepsLoop.among {R : Nat → Prop} {E : EventTy → Nat → Entry → SM P (Hub ι P W) → Prop}
    {V : EventTy → Prop} (K : KeepsLoop (Ms i) (sem.at i o) U (Q i) R (I i) E V) (ho : Q i o)
    (hg : sem.Good (U .callback) Q) (h0 : Hub ι P W) :
    KeepsLoop (Ms i) (sem.at i o) U (Q i) R (fun s => I i s ∧ Amongst Q I i h0 s.world) E V where
  guards := fun call hc g a p s hs => SProg.lasts hw hc ho _ _ s (hg.guard _ _ _ _ _) hs.1 hs.2.others
  actions := fun call hc c a p s hs => SProg.lasts hw hc ho _ _ s (hg.action _ _ _ _ _) hs.1 hs.2.others
  handlers := fun call hc h e st d p s hs =>
    SProg.lasts hw hc ho _ _ s (hg.handler _ _ _ _ _ _ _) hs.1 hs.2.others
  traced := fun s0 s c h0 h hc hb => ⟨K.traced s0 s c h0.1 h.1 hc (hb.mono fun _ h => h.1), h.2⟩
  obj := fun st s hs => K.obj st s hs.1
  anon := K.anon
  sent := K.sent
  queued := fun s ev p q hs => K.queued s ev p q hs.1
  regions := fun s hs => K.regions s hs.1
  look := fun s r hs => K.look s r hs.1
  entry := fun s ev r c e hs => K.entry s ev r c e hs.1
  null := fun s ev r e hs => K.null s ev r e hs.1
  stay := fun call hc s s' x ev p bp r e hs h =>
    K.stay _ (held_gated hc) s s' x ev p bp r e hs.1 ((execGuardR_gated hw hc ho hg x ev p hs).trans h)
  iter := fun call hc s s' x ev p p' c hs h =>
    K.iter _ (held_gated hc) s s' x ev p p' c hs.1 ((execGuardR_gated hw hc ho hg x ev p hs).trans h)
  move := by
    intro s ev r e x hs hr he hp hx ha
    have := K.move s ev r e x hs.1 hr he hp hx (ha.mono fun _ h => h.1)
    cases hu : updateState (Ms i) r e s with
    | ok a s' =>
      rw [hu] at this
      refine ⟨this, ?_⟩
      rcases updateState_ok hu with ⟨_, rfl⟩ | hm
      · exact hs.2
      · rw [hm.world]; exact hs.2
    | throw x s' => exact absurd hu updateState_throw
    | ub u => rw [hu] at this; exact this
    | timeout => trivial
  push := fun s ev r e p hs he hd => ⟨K.push s ev r e p hs.1 he hd, hs.2⟩
  pop := fun s ev p q hs hq => ⟨K.pop s ev p q hs.1 hq, hs.2⟩
  handler := fun s ev hs => K.handler s ev hs.1

end

/-- All machines keep their invariants. -/
def AllKeep (I : ι → SM P (Hub ι P W) → Prop) (h : Hub ι P W) : Prop := ∀ j w, I j ((h.parts j).rebase w)

/-- What holds after a call that began in `h`. -/
structure Upkeep (I : ι → SM P (Hub ι P W) → Prop) (h h' : Hub ι P W) : Prop where
  whole : AllKeep I h'
  grows : ∀ j, Grows (h.parts j) (h'.parts j)

variable {R : ι → Nat → Prop} {E : ι → EventTy → Nat → Entry → SM P (Hub ι P W) → Prop}
  {V : ι → EventTy → Prop}

theorem Amongst.home {i : ι} {h : Hub ι P W} {r : Res (SM P (Hub ι P W)) Bool} (hw : ∀ s w, I i s → I i { s with world := w })
    (hr : r.Lasts U (fun s => I i s ∧ Amongst Q I i h s.world) (h.fetch i)) :
    (r.home i).SatU U (fun _ => Upkeep I h) (fun _ => Upkeep I h) := by
  have key : ∀ s : SM P (Hub ι P W), Since (fun s => I i s ∧ Amongst Q I i h s.world) (h.fetch i) s →
      Upkeep I h (s.world.store i s) := by
    rintro s ⟨⟨h1, h2⟩, h3⟩
    refine ⟨fun j w => ?_, fun j => ?_⟩
    · show I j (SM.rebase (if j = i then s.rebase () else s.world.parts j) w)
      split
      · rename_i hj; subst hj; exact hw s w h1
      · rename_i hj; exact (h2.others j hj).1 w
    · show Grows _ (if j = i then s.rebase () else s.world.parts j)
      split
      · rename_i hj; subst hj; exact h3
      · rename_i hj; exact (h2.others j hj).2
  cases r with
  | ok b s => exact key s hr
  | throw x s => exact key s hr
  | ub u => exact hr
  | timeout => trivial

/-- A nested call keeps what all calls keep. -/
theorem held_nested {step : ι → Op P → Hub ι P W → Res (Hub ι P W) Bool} {i : ι} {h : Hub ι P W}
    (hw : ∀ i s w, I i s → I i { s with world := w })
    (ih : ∀ i op h, Q i op → AllKeep I h → (step i op h).SatU U (fun _ => Upkeep I h) (fun _ => Upkeep I h)) :
    Held U (Q i) (fun s => I i s ∧ Amongst Q I i h s.world) (nested step i) := by
  rintro op' s _ ⟨h1, h2⟩
  unfold nested
  split
  · trivial
  · rename_i j op2 hreq
    have := ih j op2 (s.world.store i s) (h2.request _ _ hreq) (fun l w => by
      show I l (SM.rebase (if l = i then s.rebase () else s.world.parts l) w)
      split
      · rename_i hl; subst hl; exact hw _ s w h1
      · rename_i hl; exact (h2.others l hl).1 w)
    have key : ∀ h', Upkeep I (s.world.store i s) h' →
        Since (fun s => I i s ∧ Amongst Q I i h s.world) s (h'.fetch i) := by
      intro h' ha
      refine ⟨⟨ha.whole i _, fun l hl => ⟨ha.whole l, (h2.others l hl).2.trans ?_⟩, fun _ _ hr => by cases hr⟩, ?_⟩
      · have := ha.grows l
        have he : (s.world.store i s).parts l = s.world.parts l := if_neg hl
        rwa [he] at this
      · have := ha.grows i
        have he : (s.world.store i s).parts i = s.rebase () := if_pos rfl
        rw [he] at this
        exact this
    cases hr : step j op2 (s.world.store i s) <;> rw [hr] at this
    · exact key _ this
    · exact key _ this
    · exact this
    · trivial

/-- Invariants of calls on any of the machines, whatever calls callbacks make. -/
theorem stepS_keeps
    (K : ∀ i o, Q i o → Keeps (Ms i) (sem.at i o) U (Q i) (R i) (I i) (E i) (V i))
    (hw : ∀ i s w, I i s → I i { s with world := w }) (hg : sem.Good (U .callback) Q) (fuel : Nat) :
    ∀ n i op h, Q i op → AllKeep I h →
      (stepS Ms sem fuel n i op h).SatU U (fun _ => Upkeep I h) (fun _ => Upkeep I h) := by
  intro n
  induction n with
  | zero => intro i op h _ _; trivial
  | succ n ih =>
    intro i op h hq hh
    have hk := K i op hq
    have hamongst : Amongst Q I i h (h.fetch i).world :=
      ⟨fun j _ => ⟨hh j, .refl _⟩, fun _ _ hr => by cases hr⟩
    cases op with
    | process ev p =>
      exact Amongst.home (hw i) ((KeepsLoop.among (hw i) hk.toKeepsLoop hq hg h).processEvent
        (held_nested hw ih) fuel
        (hk.opOk _ hq).event hq (h.fetch i) ⟨hh i _, hamongst⟩)
    | set r p st =>
      refine Amongst.home (Q := Q) (hw i) ?_
      show (Res.bind (setOp (Ms i) r p st (h.fetch i)) _).Lasts _ _ _
      unfold setOp
      split
      · rename_i hr
        exact ⟨⟨hk.set _ r p st hq (hh i _) hr, hamongst⟩, .of_eq rfl rfl⟩
      · exact ⟨⟨hh i _, hamongst⟩, .refl _⟩
    | setDependency d =>
      refine Amongst.home (Q := Q) (hw i) ?_
      show (Res.bind (setDependency (Ms i) d (h.fetch i)) _).Lasts _ _ _
      have := hk.dep (h.fetch i) d hq (hh i _)
      unfold setDependency at this ⊢
      split at this
      · exact ⟨⟨this, hamongst⟩, .of_eq rfl rfl⟩
      · exact this

theorem initState_rebase {M : Machine} {H : HTable} {T : Table} {W' : Type} {s : SM P W} {w : W} {w' : W'}
    (h : initState M w H T = .ok s) : initState M w' H T = .ok (s.rebase w') := by
  unfold initState at h ⊢
  split at h
  · cases h
  · rename_i init _
    have := updateRegions_sim (M := M) (P := P) (ρ := fun _ v => v = w')
      (s := ⟨initCur init M.maxInit, M.initialTable, M.initialTable, [], 0, T, H, w, [], []⟩)
      (w' := w') rfl
    change Res.Sim _ _ (updateRegions M (⟨initCur init M.maxInit, M.initialTable, M.initialTable, [], 0,
      T, H, w', [], []⟩ : SM P W')) at this
    split at h
    · rename_i heq
      cases h
      rw [heq] at this
      cases hr : updateRegions M (⟨initCur init M.maxInit, M.initialTable, M.initialTable, [], 0,
        T, H, w', [], []⟩ : SM P W') with
      | ok a s' =>
        rw [hr] at this
        obtain ⟨_, v, rfl, rfl⟩ := this
        rfl
      | throw => rw [hr] at this; exact this.elim
      | ub => rw [hr] at this; exact this.elim
      | timeout => rw [hr] at this; exact this.elim
    · cases h

theorem construct_rebase {M : Machine} {d : Dep} {W' : Type} {s : SM P W} {w : W} {w' : W'}
    (h : construct M d w = .ok s) : construct M d w' = .ok (s.rebase w') := by
  unfold construct at h ⊢
  split at h
  · rename_i ha
    rw [if_pos ha]
    cases hH : initHandlers M d with
    | error e => rw [hH] at h; cases h
    | ok H =>
      rw [hH] at h
      cases hT : M.fill d (fun _ _ => []) with
      | error e => rw [hT] at h; cases h
      | ok T =>
        rw [hT] at h
        exact initState_rebase h
  · cases h

/-- Invariants of histories. -/
theorem RunToS.inv {d : ι → Dep}
    (K : ∀ i o, Q i o → Keeps (Ms i) (sem.at i o) (fun _ => True) (Q i) (R i) (I i) (E i) (V i))
    (hw : ∀ i s w, I i s → I i { s with world := w }) (hg : sem.Good True Q)
    (base : ∀ i w s, construct (Ms i) (d i) w = .ok s → I i s)
    {ops : List (ι × Op P)} {h : Hub ι P W} (hr : RunToS Ms sem d ops h) (hops : ∀ x ∈ ops, Q x.1 x.2) :
    AllKeep I h := by
  induction hr with
  | init hi => exact fun j w => base j w _ (construct_rebase (hi j))
  | @ok h h' ops i op fuel n b hr hop hs ih =>
    have := stepS_keeps K hw hg fuel n i op h (hops (i, op) (by simp)) (ih fun x hx => hops x (by simp [hx]))
    rw [hs] at this
    exact this.whole
  | @throw h h' ops i op fuel n x hr hop hs ih =>
    have := stepS_keeps K hw hg fuel n i op h (hops (i, op) (by simp)) (ih fun x hx => hops x (by simp [hx]))
    rw [hs] at this
    exact this.whole
  | world hr w ih => exact ih hops

theorem SProg.Good.at {α : Type} {V : Prop} {o : Op P} : ∀ {pr : SProg ι P W α} {m : ι → SM P Unit},
    pr.Good V Q → (pr.prog o m).Good V (· = o) := by
  intro pr
  induction pr with
  | ret => intro m _; trivial
  | throw => intro m _; trivial
  | ub => intro m h; exact h
  | call j op w k ih => intro m h; exact ⟨rfl, fun r v => ih _ _ (h.2 _ _)⟩

/-- Seen from machine `i` all calls look the same. -/
theorem SemS.Good.at {V : Prop} (h : sem.Good V Q) (i : ι) {o : Op P} {Q' : Op P → Prop} (ho : Q' o) :
    (sem.at i o).Good V Q' := by
  have : (sem.at i o).Good V (· = o) :=
    ⟨fun g a p w => (h.guard i g a p w.user).at, fun c a p w => (h.action i c a p w.user).at,
      fun c e st d p w => (h.handler i c e st d p w.user).at⟩
  have key : ∀ {α : Type} {pr : Prog P (Hub ι P W) α}, pr.Good V (· = o) → pr.Good V Q' := by
    intro α pr
    induction pr with
    | ret => intro _; trivial
    | throw => intro _; trivial
    | ub => intro h; exact h
    | call op w k ih => intro h; exact ⟨h.1 ▸ ho, fun r w => ih r w (h.2 r w)⟩
  exact ⟨fun g a p w => key (this.guard g a p w), fun c a p w => key (this.action c a p w),
    fun c e st d p w => key (this.handler c e st d p w)⟩

end

/-! ## Specification -/

section
variable {ι P W : Type}

/-- Guards of machine `i` call no machine. -/
def SemS.QuietGuards (sem : SemS ι P W) (i : ι) : Prop :=
  ∀ g a p w, (sem.guard i g a p w).Good True (fun _ _ => False)

/-- No callback calls `set_dependency` of machine `i`. -/
def SemS.KeepsDeps (sem : SemS ι P W) (i : ι) : Prop :=
  sem.Good True (fun j op => j = i → ∀ d, op ≠ .setDependency d)

/-- Machine `i` is safe, as `SafeR`. -/
structure SafeS (Ms : ι → Machine) (sem : SemS ι P W) (i : ι) : Prop where
  scopes : (Ms i).Scoped
  regions : ∀ p ∈ (Ms i).composites,
    ((Ms i).declaredInitials p).length ≤ ((Ms i).declaredInitials (Ms i).root).length
  history : (Ms i).historic = true → ∀ p ∈ (Ms i).composites,
    ((Ms i).declaredInitials p).length = ((Ms i).declaredInitials (Ms i).root).length
  noneNotDeferred : (Ms i).anonymous = true → ∀ p st, Cand.defer ∉ (Ms i).cands .none p st
  objects : ∀ st, (Ms i).selfMade st = true ∨ ∀ w, sem.alive i st w = true

/-- A callback of a single machine, as one of machine `i`. -/
def Prog.of {α : Type} (i : ι) : Prog P W α → SProg ι P W α
  | .ret a p w => .ret a p w
  | .throw x w => .throw x w
  | .ub => .ub
  | .call op w k => .call i op w fun r w => (k r w).of i

/-- The callbacks of machine `i` are those of `sem'`, and use no other machine. -/
structure SemS.Alone (sem : SemS ι P W) (i : ι) (sem' : SemR P W) : Prop where
  guard : ∀ g a p w, sem.guard i g a p w = (sem'.guard g a p w).of i
  action : ∀ c a p w, sem.action i c a p w = (sem'.action c a p w).of i
  handler : ∀ h e st d p w, sem.handler i h e st d p w = (sem'.handler h e st d p w).of i
  alive : ∀ st w, sem.alive i st w = sem'.alive st w
  nonePayload : sem.nonePayload i = sem'.nonePayload

variable [DecidableEq ι]

/-- The outcome of a call on a single machine, as one on machine `i` in `h`. -/
def Res.within {α : Type} (i : ι) (h : Hub ι P W) : Res (SM P W) α → Res (Hub ι P W) α
  | .ok a s => .ok a ⟨s.world, fun j => if j = i then s.rebase () else h.parts j, none⟩
  | .throw x s => .throw x ⟨s.world, fun j => if j = i then s.rebase () else h.parts j, none⟩
  | .ub u => .ub u
  | .timeout => .timeout

end

/-! ## C117 -/

section
variable {ι P W : Type} [DecidableEq ι] {Ms : ι → Machine} {sem : SemS ι P W} {d : ι → Dep}
  {ops : List (ι × Op P)} {h : Hub ι P W}

theorem RunToS.opOk (hr : RunToS Ms sem d ops h) : ∀ x ∈ ops, OpOk (Ms x.1) x.2 := by
  induction hr with
  | init => simp
  | ok _ hop _ ih =>
    intro x hx
    rcases List.mem_append.1 hx with hx | hx
    · exact ih x hx
    · rw [List.mem_singleton.1 hx]; exact hop
  | throw _ hop _ ih =>
    intro x hx
    rcases List.mem_append.1 hx with hx | hx
    · exact ih x hx
    · rw [List.mem_singleton.1 hx]; exact hop
  | world _ _ ih => exact ih

/-- C117: callbacks of any machine may use any machine.  Every one is always, and was at each of its callbacks
and before and after each of its moves, at declared locations, and every move is to the destination of a
declared external row. -/
theorem C117_places (hM : ∀ i, (Ms i).Regular) (hS : ∀ i, (Ms i).Scoped)
    (hg : sem.Good True (fun i => OpOk (Ms i))) (hr : RunToS Ms sem d ops h) (i : ι) :
    Inside (Ms i) (h.parts i).cur ∧ (∀ c ∈ (h.parts i).trace, Inside (Ms i) c.cur) ∧
    ∀ l1 f l2, (h.parts i).log = l1 ++ f :: l2 →
      Inside (Ms i) f.before ∧ Inside (Ms i) f.after ∧ Landed (Ms i) (Memo (Ms i) (l1 ++ [f])) f := by
  have hl := hr.inv (I := fun i => Landing (Ms i)) (fun i o ho => Keeps.landing (hM i) (hS i) (hg.at i ho))
    (fun _ _ _ h => h.of_eq rfl rfl rfl rfl rfl rfl rfl) hg (fun i _ _ h => landing_construct (hM i) h)
    hr.opOk i h
  refine ⟨inside_of_lt (hM i) hl.slots.cur, fun c hc => inside_of_lt (hM i) (hl.trace c hc), ?_⟩
  intro l1 f l2 he
  obtain ⟨h1, h2, h3⟩ := hl.moves l1 f l2 he
  exact ⟨inside_of_lt (hM i) h1, inside_of_lt (hM i) h2, h3⟩

theorem agreed_construct {M : Machine} (hM : M.Regular) {D : Dep → Prop} {S : Nat → Name → StTy → Prop}
    {d : Dep} (hd : D d) {w : W} {s : SM P W} (h : construct M d w = .ok s) : Agreed M M.cands D S s := by
  obtain ⟨_, _, hT, ⟨init, h0, hcur, _⟩, hin, hhi, _, _, htr, hlog⟩ := construct_ok h
  exact ⟨.fresh hM.laid hin hhi hlog, places_fresh hM.laid h0 hcur,
    filledFrom_fill hM hd hT (fun _ _ _ _ _ _ h => by cases h), .fresh htr hlog⟩

theorem RunToS.agreed {D : ι → Dep → Prop} {S : ι → Nat → Name → StTy → Prop} (hM : ∀ i, (Ms i).Regular)
    (hg : sem.Good True (fun i => GivesDS (Ms i) (D i) (S i))) (hr : RunToS Ms sem d ops h)
    (hd : ∀ i, D i (d i)) (hops : ∀ x ∈ ops, GivesDS (Ms x.1) (D x.1) (S x.1) x.2) (i : ι) :
    Agreed (Ms i) (Ms i).cands (D i) (S i) (h.fetch i) :=
  hr.inv (I := fun i => Agreed (Ms i) (Ms i).cands (D i) (S i))
    (fun i o ho => Keeps.agreed (hM i) (hg.at i ho)) (fun _ _ _ h => h.of_eq rfl rfl rfl rfl rfl rfl) hg
    (fun i _ _ hc => agreed_construct (hM i) (hd i) hc) hops i _

/-- C117: every move has consent, as in C95, of a guard called for the same machine. -/
theorem C117_moves {D : ι → Dep → Prop} {S : ι → Nat → Name → StTy → Prop} (hM : ∀ i, (Ms i).Regular)
    (hg : sem.Good True (fun i => GivesDS (Ms i) (D i) (S i))) (hr : RunToS Ms sem d ops h)
    (hd : ∀ i, D i (d i)) (hops : ∀ x ∈ ops, GivesDS (Ms x.1) (D x.1) (S x.1) x.2) (i : ι)
    {l1 l2 : List Firing} {f : Firing} (hl : (h.parts i).log = l1 ++ f :: l2) :
    MoveHasConsent (Ms i) (Ms i).cands (D i) (S i) (h.parts i).trace l1 f :=
  (hr.agreed hM hg hd hops i).consent.moves l1 f l2 hl

/-- C117: every callback of a row has consent, as in C95. -/
theorem C117_actions {D : ι → Dep → Prop} {S : ι → Nat → Name → StTy → Prop} (hM : ∀ i, (Ms i).Regular)
    (hg : sem.Good True (fun i => GivesDS (Ms i) (D i) (S i))) (hr : RunToS Ms sem d ops h)
    (hd : ∀ i, D i (d i)) (hops : ∀ x ∈ ops, GivesDS (Ms x.1) (D x.1) (S x.1) x.2) (i : ι)
    {t0 t1 : List (Call P)} {ph : Phase} {a : Cb} {args : Args} {q : P} {b : Bool}
    {cur : List (Option Nat)} (ht : (h.parts i).trace = t0 ++ .action ph a args q b cur :: t1) :
    ActionHasConsent (Ms i) (Ms i).cands (D i) (S i) (h.parts i).log t0 ph a args :=
  (hr.agreed hM hg hd hops i).consent.acts t0 ph a args q b cur t1 ht

theorem SemS.QuietGuards.at {i : ι} (h : sem.QuietGuards i) (o : Op P) : (sem.at i o).QuietGuards := by
  intro g a p w
  have : ∀ {α : Type} {pr : SProg ι P W α} {m : ι → SM P Unit},
      pr.Good True (fun _ _ => False) → (pr.prog o m).Good True (fun _ => False) := by
    intro α pr m hp
    cases pr with
    | ret => trivial
    | throw => trivial
    | ub => trivial
    | call => exact hp.1.elim
  exact this (h g a p w.user)

/-- C117: callbacks of every machine are those its tables provide for, as in C66; guards of a machine whose
guards make no calls are called only where their rows apply. -/
theorem C117_declared {D : ι → Dep → Prop} (hM : ∀ i, (Ms i).Regular) (hS : ∀ i, (Ms i).Scoped)
    (hg : sem.Good True (fun i => GivesD (Ms i) (D i))) (hr : RunToS Ms sem d ops h)
    (hd : ∀ i, D i (d i)) (hops : ∀ x ∈ ops, GivesD (Ms x.1) (D x.1) x.2) (i : ι) :
    ∀ c ∈ (h.parts i).trace, Declared (Ms i) (D i) (d i) (sem.QuietGuards i) c :=
  (hr.inv (I := fun i => Supplied (Ms i) (D i) (d i) (sem.QuietGuards i))
    (fun i o ho => Keeps.supplied (hM i) (hS i) (hg.at i ho) (fun h => h.at o))
    (fun _ _ _ h => h.of_eq rfl rfl rfl rfl rfl rfl rfl) hg
    (fun i w s hc => by
      obtain ⟨_, ⟨H, hH, hHs⟩, hT, _, _, _, _, _, htr, _⟩ := construct_ok hc
      have ht := (RunTo.init (sem := (sem.at i (.setDependency 0)).still) hc).tables (hM i)
      exact ⟨landing_construct (hM i) hc, ⟨_, by simpa [depsOf] using hd i, ht.1⟩, ht.2, by rw [htr]; simp⟩)
    hops i h).calls

open Classical in
/-- C117: every move of a machine whose guards make no calls is one of a row applicable where it was, even if
guards of other machines make calls. -/
theorem C117_sources (hM : ∀ i, (Ms i).Regular) (hS : ∀ i, (Ms i).Scoped)
    (hg : sem.Good True (fun i => OpOk (Ms i))) (hr : RunToS Ms sem d ops h) {i : ι}
    (hq : sem.QuietGuards i) {l1 l2 : List Firing} {f : Firing}
    (hl : (h.parts i).log = l1 ++ f :: l2) : Explained (Ms i) (Memo (Ms i) (l1 ++ [f])) f := by
  let I : ι → SM P (Hub ι P W) → Prop := fun j => if sem.QuietGuards j then (fun s => Landing (Ms j) s ∧
      ∀ l1 f l2, s.log = l1 ++ f :: l2 → Explained (Ms j) (Memo (Ms j) (l1 ++ [f])) f) else Landing (Ms j)
  let E : ι → EventTy → Nat → Entry → SM P (Hub ι P W) → Prop := fun j =>
    if sem.QuietGuards j then Here (Ms j) else fun ev _ e _ => Somewhere (Ms j) ev e
  have := hr.inv (I := I) (E := E) (R := fun _ _ => True) (V := fun _ _ => True) (fun j o ho => by
      by_cases hj : sem.QuietGuards j
      · simp only [I, E, if_pos hj]; exact Keeps.explained (hM j) (hS j) (hg.at j ho) (hj.at o)
      · simp only [I, E, if_neg hj]; exact Keeps.landing (hM j) (hS j) (hg.at j ho))
    (fun j s w hs => by
      by_cases hj : sem.QuietGuards j
      · simp only [I, if_pos hj] at hs ⊢; exact ⟨hs.1.of_eq rfl rfl rfl rfl rfl rfl rfl, hs.2⟩
      · simp only [I, if_neg hj] at hs ⊢; exact hs.of_eq rfl rfl rfl rfl rfl rfl rfl) hg
    (fun j w s hc => by
      by_cases hj : sem.QuietGuards j
      · simp only [I, if_pos hj]; exact ⟨landing_construct (hM j) hc, (logOk_construct (hM j) hc).moves⟩
      · simp only [I, if_neg hj]; exact landing_construct (hM j) hc) hr.opOk i h
  simp only [I, if_pos hq] at this
  exact this.2 l1 f l2 hl

theorem SafeS.at {i : ι} (hS : SafeS Ms sem i) {Q : ι → Op P → Prop} (hg : sem.Good False Q)
    {o : Op P} (ho : OpOk (Ms i) o) : SafeR (Ms i) (sem.at i o) where
  scopes := hS.scopes
  regions := hS.regions
  history := hS.history
  noneNotDeferred := hS.noneNotDeferred
  objects := fun st => (hS.objects st).imp id fun h w => h w.user
  callbacks := hg.at i ho

theorem SProg.Good.mono {α : Type} {V V' : Prop} {Q Q' : ι → Op P → Prop} (hV : V → V')
    (hQ : ∀ i op, Q i op → Q' i op) : ∀ {pr : SProg ι P W α}, pr.Good V Q → pr.Good V' Q' := by
  intro pr
  induction pr with
  | ret => intro _; trivial
  | throw => intro _; trivial
  | ub => intro h; exact hV h
  | call j op w k ih => intro h; exact ⟨hQ _ _ h.1, fun r w => ih r w (h.2 r w)⟩

theorem SemS.Good.mono {V V' : Prop} {Q Q' : ι → Op P → Prop} (hV : V → V')
    (hQ : ∀ i op, Q i op → Q' i op) (h : sem.Good V Q) : sem.Good V' Q' :=
  ⟨fun i g a p w => (h.guard i g a p w).mono hV hQ, fun i c a p w => (h.action i c a p w).mono hV hQ,
    fun i c e st d p w => (h.handler i c e st d p w).mono hV hQ⟩

theorem SafeS.fresh (hM : ∀ i, (Ms i).Regular) (hS : ∀ i, SafeS Ms sem i)
    (hg : sem.Good False (fun i => OpOk (Ms i))) (i : ι) (w : Hub ι P W) (s : SM P (Hub ι P W))
    (hc : construct (Ms i) (d i) w = .ok s) : Solid (Ms i) s :=
  Reach.solid (hM i) ((hS i).at hg (o := .setDependency 0) trivial).safe ⟨d i, [], .init hc⟩

theorem RunToS.solid (hM : ∀ i, (Ms i).Regular) (hS : ∀ i, SafeS Ms sem i)
    (hg : sem.Good False (fun i => OpOk (Ms i))) (hr : RunToS Ms sem d ops h) :
    AllKeep (fun i => Solid (Ms i)) h :=
  hr.inv (fun i _ ho => Keeps.solid (hM i) ((hS i).at hg ho) (fun _ _ _ _ _ _ _ _ _ _ => trivial))
    (fun _ _ _ h => h.of_eq rfl rfl rfl rfl rfl rfl) (hg.mono False.elim fun _ _ h => h)
    (SafeS.fresh hM hS hg) hr.opOk

/-- C117: only loops over table cells that are pushed to meanwhile can go wrong in a program of safe
machines. -/
theorem C117_only_iterators (hM : ∀ i, (Ms i).Regular) (hS : ∀ i, SafeS Ms sem i)
    (hg : sem.Good False (fun i => OpOk (Ms i))) (hr : RunToS Ms sem d ops h) :
    (∀ fuel n i op u, OpOk (Ms i) op → stepS Ms sem fuel n i op h = .ub u → u = .iterator) ∧
    ∀ i, (∀ st, (isState (Ms i) st (h.fetch i)).Defined) ∧ (∀ p, (parentIs (Ms i) p (h.fetch i)).Defined) ∧
      (∀ r p st, (isRegion (Ms i) r p st (h.fetch i)).Defined) ∧ (status (Ms i) (h.fetch i)).Defined := by
  have hs := hr.solid hM hS hg
  refine ⟨?_, fun i => (hs i _).observers (hM i)⟩
  intro fuel n i op u hop hu
  have := stepS_keeps (U := (· = .iterator)) (I := fun i => Solid (Ms i))
    (fun i o ho => Keeps.solid (hM i) ((hS i).at hg ho) (fun _ _ _ _ _ _ _ _ _ _ => rfl))
    (fun _ _ _ h => h.of_eq rfl rfl rfl rfl rfl rfl) (hg.mono False.elim fun _ _ h => h) fuel n i op h hop hs
  rw [hu] at this
  exact this

theorem SProg.Good.and {α : Type} {V : Prop} {Q Q' : ι → Op P → Prop} : ∀ {pr : SProg ι P W α},
    pr.Good V Q → pr.Good True Q' → pr.Good V (fun i op => Q i op ∧ Q' i op) := by
  intro pr
  induction pr with
  | ret => intro _ _; trivial
  | throw => intro _ _; trivial
  | ub => intro h _; exact h
  | call j op w k ih => intro h h'; exact ⟨⟨h.1, h'.1⟩, fun r w => ih r w (h.2 r w) (h'.2 r w)⟩

theorem SProg.Good.all {α β : Type} {Q : β → ι → Op P → Prop} : ∀ {pr : SProg ι P W α},
    (∀ b, pr.Good True (Q b)) → pr.Good True (fun i op => ∀ b, Q b i op) := by
  intro pr
  induction pr with
  | ret => intro _; trivial
  | throw => intro _; trivial
  | ub => intro h; trivial
  | call j op w k ih => intro h; exact ⟨fun b => (h b).1, fun r w => ih r w fun b => (h b).2 r w⟩

open Classical in
theorem SafeS.step (hM : ∀ i, (Ms i).Regular) (hS : ∀ i, SafeS Ms sem i)
    (hg : sem.Good False (fun i => OpOk (Ms i))) (hq : ∀ i, sem.QuietGuards i ∨ sem.KeepsDeps i)
    (hh : AllKeep (fun i => Solid (Ms i)) h) (fuel n : Nat) (i : ι) (op : Op P) (hop : OpOk (Ms i) op) :
    (stepS Ms sem fuel n i op h).Defined := by
  let Q : ι → Op P → Prop := fun j op => OpOk (Ms j) op ∧ (¬ sem.QuietGuards j → ∀ d, op ≠ .setDependency d)
  by_cases hne : Q i op
  · have hg' : sem.Good False Q := by
      have hk : ∀ b : { j // ¬ sem.QuietGuards j }, sem.KeepsDeps b.1 := fun b => (hq b.1).resolve_left b.2
      have hw : ∀ {i op}, (OpOk (Ms i) op ∧ ∀ b : { j // ¬ sem.QuietGuards j }, i = b.1 →
          ∀ d : Dep, op ≠ .setDependency d) → Q i op := fun h => ⟨h.1, fun hj => h.2 ⟨_, hj⟩ rfl⟩
      exact ⟨fun i g a p w => ((hg.guard i g a p w).and (.all fun b => (hk b).guard i g a p w)).mono id fun _ _ => hw,
        fun i c a p w => ((hg.action i c a p w).and (.all fun b => (hk b).action i c a p w)).mono id fun _ _ => hw,
        fun i c e st d p w => ((hg.handler i c e st d p w).and
          (.all fun b => (hk b).handler i c e st d p w)).mono id fun _ _ => hw⟩
    let I : ι → SM P (Hub ι P W) → Prop := fun j =>
      if sem.QuietGuards j then Solid (Ms j) else fun s => Solid (Ms j) s ∧ s.table = (h.parts j).table
    have := stepS_keeps (U := fun _ => False) (Q := Q) (I := I)
      (R := fun j r => r < (Ms j).maxInit) (E := fun j ev _ e _ => Somewhere (Ms j) ev e) (V := fun _ _ => True)
      (fun j o ho => by
        by_cases hj : sem.QuietGuards j
        · have he : Q j = OpOk (Ms j) := funext fun op => propext ⟨fun h => h.1, fun h => ⟨h, fun hn => (hn hj).elim⟩⟩
          simp only [I, if_pos hj, he]
          exact Keeps.quiet (hM j) ((hS j).at hg ho.1) (hj.at o)
        · have he : Q j = fun op => OpOk (Ms j) op ∧ ∀ d, op ≠ .setDependency d :=
            funext fun op => propext ⟨fun h => ⟨h.1, h.2 hj⟩, fun h => ⟨h.1, fun _ => h.2⟩⟩
          simp only [I, if_neg hj, he]
          exact Keeps.sameTable (hM j) ((hS j).at hg ho.1)
            ((hg.at j (Q' := fun op => ∀ d, op ≠ .setDependency d) (ho.2 hj)).no) _)
      (fun j s w hs => by
        by_cases hj : sem.QuietGuards j
        · simp only [I, if_pos hj] at hs ⊢; exact hs.of_eq rfl rfl rfl rfl rfl rfl
        · simp only [I, if_neg hj] at hs ⊢; exact ⟨hs.1.of_eq rfl rfl rfl rfl rfl rfl, hs.2⟩)
      hg' fuel n i op h hne (fun j w => by
        by_cases hj : sem.QuietGuards j
        · simp only [I, if_pos hj]; exact hh j w
        · simp only [I, if_neg hj]; exact ⟨hh j w, rfl⟩)
    cases hr : stepS Ms sem fuel n i op h <;> rw [hr] at this
    · exact fun _ h => by cases h
    · exact fun _ h => by cases h
    · exact this.elim
    · exact fun _ h => by cases h
  · cases op with
    | process ev p => exact absurd ⟨hop, fun _ _ => by simp⟩ hne
    | set r p st => exact absurd ⟨hop, fun _ _ => by simp⟩ hne
    | setDependency d =>
      cases n with
      | zero => exact fun _ h => by cases h
      | succ n =>
        have := (hh i { h with request := none }).dep (hM i) (hS i).scopes d
        show (Res.home i (Res.bind (setDependency (Ms i) d (h.fetch i)) _)).Defined
        change (setDependency (Ms i) d (h.fetch i)).Sat _ _ _ at this
        cases hr : setDependency (Ms i) d (h.fetch i) <;> rw [hr] at this
        · exact fun _ h => by cases h
        · exact fun _ h => by cases h
        · exact this.elim
        · exact fun _ h => by cases h

/-- C117: a program of safe machines has no undefined behaviour if, for each machine, its guards make no calls
or no callback calls its `set_dependency`. -/
theorem C117_safe (hM : ∀ i, (Ms i).Regular) (hS : ∀ i, SafeS Ms sem i)
    (hg : sem.Good False (fun i => OpOk (Ms i))) (hq : ∀ i, sem.QuietGuards i ∨ sem.KeepsDeps i)
    (hr : RunToS Ms sem d ops h) (fuel n : Nat) (i : ι) (op : Op P) (hop : OpOk (Ms i) op) :
    (stepS Ms sem fuel n i op h).Defined :=
  SafeS.step hM hS hg hq (hr.solid hM hS hg) fuel n i op hop

/-! ### Machines that are left alone -/

theorem Keeps.nothing {M : Machine} {sem : SemR P W} {Q : Op P → Prop} (hg : sem.Good True Q)
    (hQ : ∀ op, Q op → OpOk M op) :
    Keeps M sem (fun _ => True) Q (fun _ => True) (fun _ => True) (fun _ _ _ _ => True) where
  toRuns := .of hg fun _ _ _ => trivial
  traced := fun _ _ _ _ _ _ _ => trivial
  obj := fun _ _ _ _ => trivial
  opOk := hQ
  regions := fun _ _ _ _ => trivial
  look := fun _ _ _ _ => Or.inl fun _ => trivial
  entry := fun _ _ _ _ _ _ _ _ _ _ _ => trivial
  null := fun _ _ _ _ _ _ _ _ => trivial
  stay := fun _ _ _ _ _ _ _ _ _ _ _ _ _ => trivial
  iter := fun _ _ _ _ _ _ _ _ _ _ _ _ => trivial
  move := by
    intro s ev r e x _ _ _ _ _ _
    cases updateState M r e s <;> trivial
  push := fun _ _ _ _ _ _ _ _ => trivial
  pop := fun _ _ _ _ _ _ => trivial
  handler := fun _ _ _ _ _ => fun _ => Or.inl fun _ => trivial
  set := fun _ _ _ _ _ _ _ => trivial
  dep := by
    intro s d _ _
    cases setDependency M d s <;> trivial

/-- C117: a call changes no machine that is not called. -/
theorem C117_untouched {j : ι} (hg : sem.Good True (fun i op => OpOk (Ms i) op ∧ i ≠ j)) {fuel n : Nat} {i : ι}
    {op : Op P} {h' : Hub ι P W} (hop : OpOk (Ms i) op) (hi : i ≠ j)
    (hs : (∃ b, stepS Ms sem fuel n i op h = .ok b h') ∨ ∃ x, stepS Ms sem fuel n i op h = .throw x h') :
    h'.parts j = h.parts j := by
  have := stepS_keeps (U := fun _ => True) (Q := fun i op => OpOk (Ms i) op ∧ i ≠ j)
    (I := fun l s => l = j → s.rebase () = h.parts j) (R := fun _ _ => True)
    (E := fun _ _ _ _ _ => True) (V := fun _ _ => True)
    (fun l o ho => by
      have he : (fun s : SM P (Hub ι P W) => l = j → s.rebase () = h.parts j) = fun _ => True :=
        funext fun s => eq_true fun hl => (ho.2 hl).elim
      rw [he]
      exact Keeps.nothing (hg.at l (Q' := fun op => OpOk (Ms l) op ∧ l ≠ j) ho) fun _ h => h.1)
    (fun _ _ _ h => h) hg fuel n i op h ⟨hop, hi⟩ (fun l w hl => by subst hl; rfl)
  rcases hs with ⟨b, hs⟩ | ⟨x, hs⟩ <;> rw [hs] at this
  · exact this.whole j h' rfl
  · exact this.whole j h' rfl

/-! ### Machines that use only themselves -/

/-- Worlds seen by a machine that uses only itself. -/
def Around (i : ι) (h : Hub ι P W) (w : W) (h' : Hub ι P W) : Prop :=
  h'.user = w ∧ ∀ j, j ≠ i → h'.parts j = h.parts j

theorem Prog.of_sim {α : Type} {i : ι} {o : Op P} : ∀ (pr : Prog P W α) (m : ι → SM P Unit),
    (∀ j, j ≠ i → m j = h.parts j) →
    pr.Sim (Around i h) (fun op w _ h' => Around i h w h' ∧ h'.request = some (i, op)) ((pr.of i).prog o m) := by
  intro pr
  induction pr with
  | ret a p w => intro m hm; exact .ret a p ⟨rfl, hm⟩
  | throw x w => intro m hm; exact .throw x ⟨rfl, hm⟩
  | ub => intro m hm; exact .ub
  | call op w k ih =>
    intro m hm
    refine .call ⟨⟨rfl, hm⟩, rfl⟩ fun r v v' hv => ?_
    dsimp only
    rw [hv.1]
    exact ih r v v'.parts hv.2

theorem SemS.Alone.sim {i : ι} {sem' : SemR P W} (ha : sem.Alone i sem') (o : Op P) :
    SemR.Sim (Around i h) (fun op w _ h' => Around i h w h' ∧ h'.request = some (i, op)) sem' (sem.at i o) where
  guard := fun g a p w w' hw => by
    show Prog.Sim _ _ _ ((sem.guard i g a p w'.user).prog o w'.parts)
    rw [ha.guard, hw.1]; exact Prog.of_sim _ _ hw.2
  action := fun g a p w w' hw => by
    show Prog.Sim _ _ _ ((sem.action i g a p w'.user).prog o w'.parts)
    rw [ha.action, hw.1]; exact Prog.of_sim _ _ hw.2
  handler := fun g e st d p w w' hw => by
    show Prog.Sim _ _ _ ((sem.handler i g e st d p w'.user).prog o w'.parts)
    rw [ha.handler, hw.1]; exact Prog.of_sim _ _ hw.2
  alive := fun st w w' hw => by
    show _ = sem.alive i st w'.user
    rw [ha.alive, hw.1]
  nonePayload := ha.nonePayload.symm

theorem Res.Sim.home {i : ι} {r : Res (SM P W) Bool} {r' : Res (SM P (Hub ι P W)) Bool}
    (hr : r.Sim (Around i h) r') : r'.home i = r.within i h := by
  have key : ∀ (s : SM P W) (s' : SM P (Hub ι P W)), s.Sim (Around i h) s' →
      s'.world.store i s' = ⟨s.world, fun j => if j = i then s.rebase () else h.parts j, none⟩ := by
    rintro s _ ⟨w', rfl, h1, h2⟩
    show (⟨w'.user, _, _⟩ : Hub ι P W) = _
    rw [h1]
    congr 1
    funext j
    by_cases hj : j = i
    · rw [if_pos hj, if_pos hj]; rfl
    · rw [if_neg hj, if_neg hj]; exact h2 j hj
  cases r <;> cases r' <;> first | exact hr.elim | skip
  · obtain ⟨rfl, hs⟩ := hr
    exact congrArg _ (key _ _ hs)
  · obtain ⟨rfl, hs⟩ := hr
    exact congrArg _ (key _ _ hs)
  · cases hr; rfl
  · rfl

/-- Nested calls of the machine itself do what they do without the others. -/
theorem callSim_nested {i : ι} {step : ι → Op P → Hub ι P W → Res (Hub ι P W) Bool}
    {one : Op P → SM P W → Res (SM P W) Bool}
    (ih : ∀ op h, step i op h = (one op ((h.parts i).rebase h.user)).within i h) :
    CallSim (Around i h) (fun op w _ h' => Around i h w h' ∧ h'.request = some (i, op)) one (nested step i) := by
  rintro op o' s w' ⟨hw', hreq⟩
  unfold nested
  rw [show (s.rebase w').world.request = some (i, op) from hreq]
  dsimp only
  rw [ih]
  have h1 : ((s.rebase w').world.store i (s.rebase w')).parts i = s.rebase () := if_pos rfl
  rw [h1, show ((s.rebase w').world.store i (s.rebase w')).user = s.world from hw'.1]
  show Res.Sim _ _ (Res.back i (Res.within i _ (one op s)))
  have key : ∀ s' : SM P W, s'.Sim (Around i h) (Hub.fetch (⟨s'.world, fun j => if j = i then s'.rebase ()
      else ((s.rebase w').world.store i (s.rebase w')).parts j, none⟩ : Hub ι P W) i) := by
    intro s'
    refine ⟨⟨s'.world, fun j => if j = i then s'.rebase ()
      else ((s.rebase w').world.store i (s.rebase w')).parts j, none⟩, ?_, rfl, fun j hj => ?_⟩
    · show SM.rebase (if i = i then s'.rebase () else _) _ = _
      rw [if_pos rfl]
      rfl
    · show (if j = i then s'.rebase () else if j = i then _ else w'.parts j) = _
      rw [if_neg hj, if_neg hj]
      exact hw'.2 j hj
  cases one op s with
  | ok b s' => exact ⟨rfl, key s'⟩
  | throw x s' => exact ⟨rfl, key s'⟩
  | ub u => rfl
  | timeout => trivial

/-- C117: a machine whose callbacks use only this machine does what it does without the others. -/
theorem C117_alone {i : ι} {sem' : SemR P W} (ha : sem.Alone i sem') (fuel : Nat) : ∀ (n : Nat) (op : Op P)
    (h : Hub ι P W), stepS Ms sem fuel n i op h =
      (stepR (Ms i) sem' fuel n op ((h.parts i).rebase h.user)).within i h := by
  intro n
  induction n with
  | zero => intro op h; rfl
  | succ n ih =>
    intro op h
    have hw : Around i h ((h.parts i).rebase h.user : SM P W).world { h with request := none } :=
      ⟨rfl, fun _ _ => rfl⟩
    have he : ((h.parts i).rebase h.user : SM P W).rebase { h with request := none } = h.fetch i := rfl
    cases op with
    | process ev p =>
      exact Res.Sim.home (he ▸ processEventR_sim (ha.sim _) (callSim_nested ih) fuel ev p hw)
    | set r p st =>
      exact Res.Sim.home (he ▸ (setOp_sim hw r p st).bind fun _ s w' h => ⟨rfl, w', rfl, h⟩)
    | setDependency dd =>
      exact Res.Sim.home (he ▸ (setDependency_sim hw dd).bind fun _ s w' h => ⟨rfl, w', rfl, h⟩)

end

/-! ## Examples -/

namespace Ex

/-- Makes the calls `ops`, whatever they return or throw, then returns. -/
def makesS {α : Type} (a : α) (p : Nat) : List (Bool × Op Nat) → List Nat → SProg Bool Nat (List Nat) α
  | [], w => .ret a p w
  | x :: xs, w => .call x.1 x.2 w fun _ w => makesS a p xs w

/-- Two machines; guards return `on`, guard `g` of machine `i` first makes the calls `asks i g`, action or handler
`c` the calls `calls i c`. -/
def semS (on : Bool) (asks calls : Bool → Nat → List (Bool × Op Nat)) : SemS Bool Nat (List Nat) where
  guard i g _ p w := makesS on p (asks i g) (w ++ [g])
  action i a _ p w := makesS () p (calls i a) (w ++ [a])
  handler i h _ _ _ p w := makesS () p (calls i h) (w ++ [h])
  alive _ _ _ := true
  nonePayload _ := 0

theorem makesS_good {α : Type} {U : Prop} {Q : Bool → Op Nat → Prop} {a : α} {p : Nat} :
    ∀ {ops : List (Bool × Op Nat)} {w : List Nat}, (∀ x ∈ ops, Q x.1 x.2) → (makesS a p ops w).Good U Q
  | [], _, _ => trivial
  | x :: xs, _, h => ⟨h x (by simp), fun _ _ => makesS_good fun y hy => h y (by simp [hy])⟩

theorem semS_good {on : Bool} {U : Prop} {Q : Bool → Op Nat → Prop} {asks calls : Bool → Nat → List (Bool × Op Nat)}
    (h1 : ∀ i c, ∀ x ∈ asks i c, Q x.1 x.2) (h2 : ∀ i c, ∀ x ∈ calls i c, Q x.1 x.2) :
    (semS on asks calls).Good U Q :=
  ⟨fun i g _ _ _ => makesS_good (h1 i g), fun i c _ _ _ => makesS_good (h2 i c),
    fun i c _ _ _ _ _ => makesS_good (h2 i c)⟩

section
variable (Ms : Bool → Machine) (sm : SemS Bool Nat (List Nat))

def runOpsS (fuel n : Nat) : List (Bool × Op Nat) → Hub Bool Nat (List Nat) → Option (Hub Bool Nat (List Nat))
  | [], h => some h
  | x :: xs, h =>
    if opOkB (Ms x.1) x.2 then
      match stepS Ms sm fuel n x.1 x.2 h with
      | .ok _ h' => runOpsS fuel n xs h'
      | .throw _ h' => runOpsS fuel n xs h'
      | _ => none
    else none

def runS (fuel n : Nat) (d : Bool → Dep) (w : List Nat) (ops : List (Bool × Op Nat)) :
    Option (Hub Bool Nat (List Nat)) :=
  match construct (Ms false) (d false) (), construct (Ms true) (d true) () with
  | .ok a, .ok b => runOpsS Ms sm fuel n ops ⟨w, fun i => if i then b else a, none⟩
  | _, _ => none

theorem runOpsS_runTo {fuel n : Nat} {d : Bool → Dep} {ops : List (Bool × Op Nat)} :
    ∀ {pre : List (Bool × Op Nat)} {h h' : Hub Bool Nat (List Nat)}, RunToS Ms sm d pre h →
    runOpsS Ms sm fuel n ops h = some h' → RunToS Ms sm d (pre ++ ops) h' := by
  induction ops with
  | nil => intro pre h h' h1 h2; cases h2; simpa using h1
  | cons x xs ih =>
    intro pre h h' h1 h2
    unfold runOpsS at h2
    split at h2
    · rename_i hop
      split at h2
      · rename_i heq
        have := ih (.ok h1 (opOkB_iff _ hop) heq) h2
        simpa using this
      · rename_i heq
        have := ih (.throw h1 (opOkB_iff _ hop) heq) h2
        simpa using this
      · cases h2
    · cases h2

theorem exists_runS {fuel n : Nat} {d : Bool → Dep} {w : List Nat} {ops : List (Bool × Op Nat)}
    {f : Hub Bool Nat (List Nat) → Bool} (h : (runS Ms sm fuel n d w ops).any f = true) :
    ∃ h, RunToS Ms sm d ops h ∧ f h = true := by
  cases hr : runS Ms sm fuel n d w ops with
  | none => rw [hr] at h; cases h
  | some h' =>
    rw [hr] at h
    refine ⟨h', ?_, h⟩
    unfold runS at hr
    split at hr
    · rename_i a b ha hb
      have : RunToS Ms sm d [] ⟨w, fun i => if i then b else a, none⟩ :=
        .init fun i => by cases i <;> assumption
      simpa using runOpsS_runTo Ms sm this hr
    · cases hr

end

/-- Two machines of type `hop`. -/
def twins (_ : Bool) : Machine := hop

/-- Action 1 of the first machine sends event 1 to the second, action 2 of the second sends event 2 back. -/
def pingPong (i : Bool) (c : Nat) : List (Bool × Op Nat) :=
  if i = false ∧ c = 1 then [(true, .process (ev 1) 5)]
  else if i = true ∧ c = 2 then [(false, .process (ev 2) 6)] else []

def quietS (_ : Bool) (_ : Nat) : List (Bool × Op Nat) := []

theorem pingPong_all {Q : Bool → Op Nat → Prop} (h1 : Q true (.process (ev 1) 5))
    (h2 : Q false (.process (ev 2) 6)) : ∀ i c, ∀ x ∈ pingPong i c, Q x.1 x.2 := by
  intro i c x hx
  unfold pingPong at hx
  split at hx
  · rw [List.mem_singleton.1 hx]; exact h1
  · split at hx
    · rw [List.mem_singleton.1 hx]; exact h2
    · cases hx

theorem quietS_all {Q : Bool → Op Nat → Prop} : ∀ i c, ∀ x ∈ quietS i c, Q x.1 x.2 := by
  intro i c x hx; cases hx

theorem pingPong_good {U : Prop} : (semS true quietS pingPong).Good U (fun i => OpOk (twins i)) :=
  semS_good (quietS_all (Q := fun i => OpOk (twins i))) (pingPong_all (Q := fun i => OpOk (twins i)) (hop_ok 1 (by decide) 5) (hop_ok 2 (by decide) 6))

theorem quietS_quiet {calls : Bool → Nat → List (Bool × Op Nat)} (i : Bool) :
    (semS true quietS calls).QuietGuards i := fun _ _ _ _ => trivial

theorem twins_safe {on : Bool} {asks calls : Bool → Nat → List (Bool × Op Nat)} (i : Bool) :
    SafeS twins (semS on asks calls) i := by
  have h := hop_safe (on := fun _ => true) (asks := never) (calls := never) never_all never_all
  exact ⟨h.scopes, h.regions, h.history, h.noneNotDeferred, fun _ => Or.inr fun _ => rfl⟩

/-- C117 applies: event 0 makes the first machine move, its action makes the second one move, and that one's
action makes the first one move again, before the entry action of the first move. -/
example : ∃ h, RunToS twins (semS true quietS pingPong) (fun _ => 7) [(false, .process (ev 0) 1)] h ∧
    (h.parts false).log.length = 2 ∧ (h.parts true).log.length = 1 ∧ h.user = [100, 1, 2, 3, 20] ∧
    ∀ i l1 f l2, (h.parts i).log = l1 ++ f :: l2 → Explained hop (Memo hop (l1 ++ [f])) f := by
  obtain ⟨h, hr, hs⟩ := exists_runS twins (semS true quietS pingPong) (fuel := 5) (n := 5) (d := fun _ => 7) (w := [])
    (ops := [(false, .process (ev 0) 1)])
    (f := fun h => (h.parts false).log.length == 2 && ((h.parts true).log.length == 1 &&
      h.user == [100, 1, 2, 3, 20])) (by decide +kernel)
  simp only [Bool.and_eq_true, beq_iff_eq] at hs
  exact ⟨h, hr, hs.1, hs.2.1, hs.2.2, fun i l1 f l2 hl =>
    C117_sources (fun _ => hop_regular) (fun _ => hop_scoped) pingPong_good hr (quietS_quiet i) hl⟩

/-- Nor is there undefined behaviour after it. -/
example {h : Hub Bool Nat (List Nat)} {ops : List (Bool × Op Nat)}
    (hr : RunToS twins (semS true quietS pingPong) (fun _ => 7) ops h) (fuel n : Nat) (i : Bool) :
    (stepS twins (semS true quietS pingPong) fuel n i (.process (ev 0) 1) h).Defined :=
  C117_safe (fun _ => hop_regular) twins_safe pingPong_good (fun i => Or.inl (quietS_quiet i)) hr fuel n i _
    (hop_ok 0 (by decide) 1)

/-- Moves and callbacks of the two machines have consent. -/
example {h : Hub Bool Nat (List Nat)} (hr : RunToS twins (semS true quietS pingPong) (fun _ => 7)
    [(false, .process (ev 0) 1)] h) {l1 l2 : List Firing} {f : Firing} (hl : (h.parts true).log = l1 ++ f :: l2) :
    MoveHasConsent hop hop.cands (· = 7) (fun _ _ _ => False) (h.parts true).trace l1 f := by
  let Q : Bool → Op Nat → Prop := fun _ => GivesDS hop (· = 7) (fun _ _ _ => False)
  have key : ∀ n < 3, ∀ p, GivesDS hop (· = 7) (fun _ _ _ => False) (.process (ev n) p) := fun n hn p =>
    ⟨⟨hop_ok n hn p, fun _ h => by cases h⟩, fun _ _ _ h => by cases h⟩
  exact C117_moves (D := fun _ => (· = 7)) (S := fun _ _ _ _ => False) (fun _ => hop_regular)
    (semS_good (Q := Q) (quietS_all (Q := Q)) (pingPong_all (Q := Q) (key 1 (by decide) 5) (key 2 (by decide) 6))) hr (fun _ => rfl)
    (fun x hx => by rw [List.mem_singleton.1 hx]; exact key 0 (by decide) 1) true hl

/-- Action 1 of the first machine sends it event 2; no callback uses the second. -/
def aloneCalls (i : Bool) (c : Nat) : List (Bool × Op Nat) :=
  if i = false ∧ c = 1 then [(false, .process (ev 2) 8)] else []

theorem makes_of {α : Type} {a : α} {p : Nat} : ∀ {ops : List (Op Nat)} {w : List Nat},
    (makes a p ops w).of false = makesS a p (ops.map (false, ·)) w
  | [], _ => rfl
  | op :: ops, w => by
    show SProg.call false op w _ = SProg.call false op w _
    congr 1
    funext _ w
    exact makes_of

theorem aloneCalls_alone : (semS true quietS aloneCalls).Alone false
    (semR (fun _ => true) never (only 1 [.process (ev 2) 8])) := by
  have he : ∀ c, aloneCalls false c = (only 1 [.process (ev 2) 8] c).map (false, ·) := by
    intro c
    unfold aloneCalls only
    by_cases hc : c = 1
    · rw [if_pos ⟨rfl, hc⟩, if_pos hc]; rfl
    · rw [if_neg (fun h => hc h.2), if_neg hc]; rfl
  refine ⟨fun g a p w => rfl, fun c a p w => ?_, fun c e st d p w => ?_, fun _ _ => rfl, rfl⟩
  · show makesS () p (aloneCalls false c) _ = _
    rw [he]; exact makes_of.symm
  · show makesS () p (aloneCalls false c) _ = _
    rw [he]; exact makes_of.symm

/-- With such callbacks the first machine does what `onward` does, and the second stays as it is. -/
example (fuel n : Nat) (h h' : Hub Bool Nat (List Nat)) (b : Bool)
    (hs : stepS twins (semS true quietS aloneCalls) fuel n false (.process (ev 0) 1) h = .ok b h') :
    h'.parts true = h.parts true ∧
    (stepR hop (semR (fun _ => true) never (only 1 [.process (ev 2) 8])) fuel n (.process (ev 0) 1)
      ((h.parts false).rebase h.user)).within false h = .ok b h' := by
  constructor
  · let Q : Bool → Op Nat → Prop := fun i op => OpOk (twins i) op ∧ i ≠ true
    refine C117_untouched (semS_good (Q := Q) (quietS_all (Q := Q)) ?_) (hop_ok 0 (by decide) 1) (by decide) (Or.inl ⟨b, hs⟩)
    intro i c x hx
    unfold aloneCalls at hx
    split at hx
    · rw [List.mem_singleton.1 hx]; exact ⟨hop_ok 2 (by decide) 8, by decide⟩
    · cases hx
  · rw [← hs]
    exact (C117_alone (Ms := twins) aloneCalls_alone fuel n _ h).symm

/-- Guard 100 of the first machine sends event 1 to the second; action 2 of the second gives the first one
another dependency. -/
def askOther (i : Bool) (c : Nat) : List (Bool × Op Nat) :=
  if i = false ∧ c = 100 then [(true, .process (ev 1) 5)] else []

def rewireOther (i : Bool) (c : Nat) : List (Bool × Op Nat) :=
  if i = true ∧ c = 2 then [(false, .setDependency 9)] else []

def hitsS (u : UB) : Res (Hub Bool Nat (List Nat)) Bool → Bool
  | .ub v => v == u
  | _ => false

end Ex

open Ex in
/-- The condition of `C117_safe` is about calls of all callbacks: no callback of the first machine uses that
machine, nor `set_dependency` of any, and yet a call of it is undefined, as another machine calls back. -/
theorem C117_round_trip : ∃ (Ms : Bool → Machine) (sem : SemS Bool Nat (List Nat)) (d : Bool → Dep)
    (h : Hub Bool Nat (List Nat)) (fuel n : Nat) (op : Op Nat),
    (∀ i, (Ms i).Regular) ∧ (∀ i, SafeS Ms sem i) ∧ sem.Good False (fun i => OpOk (Ms i)) ∧
    (∀ g a p w, (sem.guard false g a p w).Good False (fun i op => i = true ∧ ∀ d, op ≠ .setDependency d)) ∧
    (∀ c a p w, (sem.action false c a p w).Good False (fun _ _ => False)) ∧
    sem.QuietGuards true ∧ RunToS Ms sem d [] h ∧ OpOk (Ms false) op ∧
    stepS Ms sem fuel n false op h = .ub .iterator := by
  have he : ∀ i c, ∀ x ∈ askOther i c, x = (true, .process (ev 1) 5) := by
    intro i c x hx
    unfold askOther at hx
    split at hx
    · exact List.mem_singleton.1 hx
    · cases hx
  have hw : ∀ i c, ∀ x ∈ rewireOther i c, x = (false, .setDependency 9) := by
    intro i c x hx
    unfold rewireOther at hx
    split at hx
    · exact List.mem_singleton.1 hx
    · cases hx
  obtain ⟨h, hr, hs⟩ := exists_runS twins (semS false askOther rewireOther) (fuel := 5) (n := 5) (d := fun _ => 7)
    (w := []) (ops := [])
    (f := fun h => hitsS .iterator (stepS twins (semS false askOther rewireOther) 5 5 false (.process (ev 0) 1) h))
    (by decide +kernel)
  refine ⟨twins, semS false askOther rewireOther, _, h, 5, 5, .process (ev 0) 1, fun _ => hop_regular, twins_safe,
    semS_good (fun i c x hx => by rw [he i c x hx]; exact hop_ok 1 (by decide) 5)
      (fun i c x hx => by rw [hw i c x hx]; trivial), ?_, ?_, ?_, hr, hop_ok 0 (by decide) 1, ?_⟩
  · exact fun g a p w => makesS_good fun x hx => by rw [he _ _ x hx]; exact ⟨rfl, fun _ => by simp⟩
  · exact fun c a p w => makesS_good fun x hx => by
      unfold rewireOther at hx
      rw [if_neg (by simp)] at hx
      cases hx
  · exact fun g a p w => makesS_good fun x hx => by
      unfold askOther at hx
      rw [if_neg (by simp)] at hx
      cases hx
  · unfold hitsS at hs
    split at hs
    · rename_i heq
      rw [heq, eq_of_beq hs]
    · cases hs

end Hsm
