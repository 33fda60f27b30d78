import Verif.PropsInterpGenR
import Verif.PropsReachR

/-!
# Invariants of the interpreter for callbacks that use machines of the amalgamated header

`Upholds` lists what one has to show of the pieces for a property of configurations to be kept by every
call, however deep calls nest.  Used by PropsSafeGenR.lean (C99) and PropsReachGenR.lean (C100).
-/

namespace Hsm

section
variable {P W : Type} (M : Machine) (sem : SemR P W)

/-- `I` is kept by all pieces of the interpreter.  `U`: the undefined behaviour that is tolerated; `Q`: the
calls that are made; `R`: the regions that are dealt with; `V`: the events that are handled; `C`: what is
known of candidates that are tried; `K`: what is known of callbacks that are called. -/
structure Upholds (U : UB → Prop) (Q : Op P → Prop) (R : Nat → Prop) (V : EventTy → Prop)
    (I : Conf P W → Prop) (C : EventTy → Nat → Cand → Prop) (K : Call P → Prop) : Prop where
  good : sem.Good (U .callback) Q
  world : ∀ c w, I c → I { c with world := w }
  noted : ∀ c k, I c → K k → I { c with calls := c.calls ++ [k] }
  obj : ∀ c st, I c → M.presentR sem st c = false → U .nullObject
  anon : V .none
  sent : ∀ ev p, Q (.process ev p) → V ev
  noSet : ∀ r p st, ¬ Q (.set r p st)
  queued : ∀ c ev p q, I c → c.waiting = (ev, p) :: q → V ev
  regions : ∀ c, I c → ∀ r ∈ M.taking c, R r
  zero : R 0
  look : ∀ c r, I c → R r → (∀ u, U u) ∨ ∃ l, Machine.seek r c = .ok l c ∧ l.1 ∈ M.composites
  cand : ∀ c r l ev cd, I c → R r → Machine.seek r c = .ok l c → V ev → cd ∈ M.candsG ev l.1 l.2 → C ev r cd
  null : ∀ ev r cd t, C ev r cd → cd.row? = some t → M.targetLoc t = none → U .nullTransition
  nullAnon : ∀ r cd, C .none r cd → M.anonymous = true → cd.row? = none → U .nullTransition
  iter : ∀ call c c' ev d cd t l p p', I c → M.askR sem call ev d cd t l p c = .ok (false, p') c' → I c' →
    U .iterator ∨ c'.deps.length = c.deps.length
  move : ∀ c ev r cd t l, I c → R r → C ev r cd → cd.row? = some t → M.targetLoc t = some l →
    MayPassR sem ev t → (M.travel r t l c).SatU U (fun _ => I) (fun _ => I)
  push : ∀ c ev r cd p, I c → C ev r cd → cd.row? = none → I { c with waiting := c.waiting ++ [(ev, p)] }
  pop : ∀ c x q, I c → c.waiting = x :: q → I { c with waiting := q }
  dep : ∀ c d, Q (.setDependency d) → I c → I { c with deps := d :: c.deps }
  guard : ∀ ev r cd t g args p b, C ev r cd → cd.row? = some t → t.guard = some g → K (.guard g args p b [])
  action : ∀ ev r cd t cs ph a args p b, C ev r cd → cd.row? = some t → MayPassR sem ev t →
    M.toRun t = some cs → (ph, a) ∈ cs → K (.action ph a args p b [])
  handler : ∀ c ev h l d p b, I c → V ev → (M.decl M.root).handler = some h → Machine.seek 0 c = .ok l c →
    K (.handler h ev l.2 d p b [])

variable {M sem} {U : UB → Prop} {Q : Op P → Prop} {R : Nat → Prop} {V : EventTy → Prop}
  {I : Conf P W → Prop} {C : EventTy → Nat → Cand → Prop} {K : Call P → Prop}
  {call : Op P → Conf P W → Res (Conf P W) Bool}

/-- What callbacks call keeps `I`. -/
abbrev UpholdsCall (U : UB → Prop) (Q : Op P → Prop) (I : Conf P W → Prop)
    (call : Op P → Conf P W → Res (Conf P W) Bool) : Prop :=
  ∀ op c, Q op → I c → (call op c).SatU U (fun _ => I) (fun _ => I)

theorem enact_maySay {α : Type} (pr : Prog P W α) : ∀ {c c' : Conf P W} {a : α} {p : P},
    Machine.enact call pr c = .ok (a, p) c' → pr.MaySay a := by
  induction pr with
  | ret a p w => intro c c' a' p' h; cases h; exact .ret _ _
  | throw x w => intro c c' a' p' h; cases h
  | ub => intro c c' a' p' h; cases h
  | call op w k ih =>
    intro c c' a' p' h
    unfold Machine.enact at h
    cases hc : call op { c with world := w } with
    | ok b c1 => rw [hc] at h; exact .call (ih _ _ h)
    | throw x c1 => rw [hc] at h; exact .call (ih _ _ h)
    | ub u => rw [hc] at h; cases h
    | timeout => rw [hc] at h; cases h

theorem RunToGR.ops_ok {d : Dep} {ops : List (Op P)} {s : SM P W} (h : RunToGR M sem d ops s) :
    ∀ op ∈ ops, OpOkGR M op := by
  induction h with
  | init _ => intro op h; cases h
  | ok _ hop _ ih =>
    intro o ho
    rcases List.mem_append.1 ho with ho | ho
    · exact ih o ho
    · rw [List.mem_singleton.1 ho]; exact hop
  | throw _ hop _ ih =>
    intro o ho
    rcases List.mem_append.1 ho with ho | ho
    · exact ih o ho
    · rw [List.mem_singleton.1 ho]; exact hop
  | world _ _ ih => exact ih

namespace Upholds

theorem enact (hw : ∀ c w, I c → I { c with world := w }) (hc : UpholdsCall U Q I call) {α : Type}
    (pr : Prog P W α) : pr.Good (U .callback) Q → ∀ {c : Conf P W}, I c →
    (Machine.enact call pr c).SatU U (fun _ => I) (fun _ => I) := by
  induction pr with
  | ret a p w => intro _ c h; exact hw c w h
  | throw x w => intro _ c h; exact hw c w h
  | ub => intro hg c h; exact hg
  | call op w k ih =>
    intro hg c h
    unfold Machine.enact
    have := hc op { c with world := w } hg.1 (hw c w h)
    revert this
    cases call op { c with world := w } with
    | ok b c1 => intro h; exact ih _ _ (hg.2 _ _) h
    | throw x c1 => intro h; exact ih _ _ (hg.2 _ _) h
    | ub u => intro h; exact h
    | timeout => intro h; trivial

theorem enactNoted (hU : Upholds M sem U Q R V I C K) (hc : UpholdsCall U Q I call) {α : Type}
    {pr : Prog P W α} (hg : pr.Good (U .callback) Q) {note : Option α → Call P} (hn : ∀ o, K (note o))
    {c : Conf P W} (h : I c) :
    (Machine.enactNoted call pr note c).SatU U (fun _ => I) (fun _ => I) := by
  unfold Machine.enactNoted
  have := enact hU.world hc pr hg h
  revert this
  cases Machine.enact call pr c with
  | ok a c1 => intro h; exact hU.noted _ _ h (hn _)
  | throw x c1 => intro h; exact hU.noted _ _ h (hn _)
  | ub u => intro h; exact h
  | timeout => intro h; trivial

theorem ask (hU : Upholds M sem U Q R V I C K) (hc : UpholdsCall U Q I call) {ev : EventTy} {r : Nat}
    {d : Dep} {cd : Cand} {t : XRow} {l : Name × StTy} {p : P} {c : Conf P W} (h : I c) (hC : C ev r cd)
    (ht : cd.row? = some t) : (M.askR sem call ev d cd t l p c).SatU U (fun _ => I) (fun _ => I) := by
  unfold Machine.askR
  split
  · exact h
  · rename_i g hg
    dsimp only
    generalize (if t.internal = true then cd.src else l.2) = dst
    split
    · exact hU.enactNoted hc (hU.good.guard _ _ _ _) (fun o => hU.guard ev r cd t g _ _ _ hC ht hg) h
    · rename_i hn
      show U .nullObject
      cases h1 : M.presentR sem cd.src c with
      | false => exact hU.obj c _ h h1
      | true =>
        cases h2 : M.presentR sem dst c with
        | false => exact hU.obj c _ h h2
        | true => exact absurd (by rw [h1, h2]; rfl) hn

theorem _root_.Hsm.ask_mayPass {ev : EventTy} {d : Dep} {cd : Cand} {t : XRow} {l : Name × StTy} {p p' : P}
    {c c' : Conf P W} (h : M.askR sem call ev d cd t l p c = .ok (true, p') c') : MayPassR sem ev t := by
  intro g hg
  unfold Machine.askR at h
  rw [hg] at h
  dsimp only at h
  generalize (if t.internal = true then cd.src else l.2) = dst at h
  split at h
  · refine ⟨⟨ev, cd.src, dst, false, d⟩, p, c.world, rfl, ?_⟩
    unfold Machine.enactNoted at h
    cases he : Machine.enact call (sem.guard g ⟨ev, cd.src, dst, false, d⟩ p c.world) c with
    | ok a c1 =>
      rw [he] at h
      cases h
      exact enact_maySay _ he
    | throw x c1 => rw [he] at h; cases h
    | ub u => rw [he] at h; cases h
    | timeout => rw [he] at h; cases h
  · cases h

theorem perform (hU : Upholds M sem U Q R V I C K) (hc : UpholdsCall U Q I call) (args : Args) :
    ∀ (cs : List (Phase × Cb)), (∀ x ∈ cs, ∀ p b, K (.action x.1 x.2 args p b [])) → ∀ (p : P)
    {c : Conf P W}, I c → (Machine.performR sem call args cs p c).SatU U (fun _ => I) (fun _ => I) := by
  intro cs
  induction cs with
  | nil => intro _ p c h; exact h
  | cons x cs ih =>
    intro hk p c h
    obtain ⟨ph, a⟩ := x
    unfold Machine.performR
    refine (hU.enactNoted hc (hU.good.action _ _ _ _) (fun o => hk (ph, a) (by simp) _ _) h).bind ?_
    intro u c h
    exact ih (fun x hx => hk x (by simp [hx])) _ h

theorem take (hU : Upholds M sem U Q R V I C K) (hc : UpholdsCall U Q I call) {ev : EventTy} {r : Nat}
    {d : Dep} {cd : Cand} {t : XRow} {l : Name × StTy} {p : P} {c : Conf P W} (h : I c) (hr : R r)
    (hC : C ev r cd) (ht : cd.row? = some t) (hl : M.targetLoc t = some l) (hp : MayPassR sem ev t) :
    (M.takeR sem call r ev d cd t l p c).SatU U (fun _ => I) (fun _ => I) := by
  unfold Machine.takeR
  refine (hU.move c ev r cd t l h hr hC ht hl hp).bind fun _ c h => ?_
  split
  · exact h
  · rename_i cs hcs
    split
    · exact hU.perform hc _ cs (fun x hx p b => hU.action ev r cd t cs _ _ _ _ _ hC ht hp hcs hx) p h
    · rename_i hn
      exact hU.obj c _ h (by simpa using hn)

theorem attempt (hU : Upholds M sem U Q R V I C K) (hc : UpholdsCall U Q I call) {anon : Bool} {r : Nat}
    {ev : EventTy} {k : Nat} (ha : anon = true → ev = .none ∧ M.anonymous = true) (hr : R r) :
    ∀ (cs : List (Dep × Cand)), (∀ x ∈ cs, C ev r x.2) → ∀ (p : P) {c : Conf P W}, I c →
    c.deps.length = k →
    (M.attemptR sem call anon r ev k cs p c).SatU U (fun _ => I) (fun _ => I) := by
  intro cs
  induction cs with
  | nil => intro _ p c h _; exact h
  | cons x cs ih =>
    intro hcs p c h hk
    obtain ⟨d, cd⟩ := x
    have hC := hcs (d, cd) (by simp)
    unfold Machine.attemptR
    cases ht : cd.row? with
    | none =>
      dsimp only
      split
      · rename_i hn
        obtain ⟨rfl, hA⟩ := ha hn
        exact hU.nullAnon r cd hC hA ht
      · exact hU.push c ev r cd p h hC ht
    | some t =>
      dsimp only
      cases hl : M.targetLoc t with
      | none => exact hU.null ev r cd t hC ht hl
      | some l =>
        dsimp only
        have hask := hU.ask hc (d := d) (l := l) (p := p) h hC ht
        revert hask
        cases he : M.askR sem call ev d cd t l p c with
        | ok a c1 =>
          intro h1
          obtain ⟨b, p'⟩ := a
          show Res.SatU U _ _ (if b = true then _ else _)
          cases b with
          | true =>
            rw [if_pos rfl]
            exact (hU.take hc h1 hr hC ht hl (ask_mayPass he)).bind fun _ c h => h
          | false =>
            rw [if_neg (by simp)]
            split
            · rename_i hk'
              exact ih (fun x hx => hcs x (by simp [hx])) _ h1 hk'
            · rename_i hk'
              rcases hU.iter call c c1 ev d cd t l p p' h he h1 with h2 | h2
              · exact h2
              · exact absurd (h2.trans hk) hk'
        | throw x c1 => intro h; exact h
        | ub u => intro h; exact h
        | timeout => intro h; trivial

theorem visit (hU : Upholds M sem U Q R V I C K) (hc : UpholdsCall U Q I call) {anon : Bool} {r : Nat}
    {ev : EventTy} (ha : anon = true → ev = .none ∧ M.anonymous = true) (hr : R r) (hv : V ev) (p : P)
    {c : Conf P W} (h : I c) :
    (M.visitGR sem call anon r ev p c).SatU U (fun _ => I) (fun _ => I) := by
  unfold Machine.visitGR
  have hlk := hU.look c r h hr
  have main : ∀ l, Machine.seek r c = .ok l c → (l.1 ∈ M.composites ∨ U .bounds) →
      Res.SatU U (fun _ => I) (fun _ => I) (if l.1 ∈ M.composites then
      if M.candsG ev l.1 l.2 = [] then Res.ok (RegionOut.none, p) c
      else M.attemptR sem call anon r ev c.deps.length
        (c.deps.flatMap fun d => (M.candsG ev l.1 l.2).map fun cd => (d, cd)) p c
    else .ub .bounds) := by
    intro l hl hb
    split
    · split
      · exact h
      · refine hU.attempt hc ha hr _ ?_ p h rfl
        rintro ⟨d, cd⟩ hx
        obtain ⟨d', _, hx⟩ := List.mem_flatMap.1 hx
        obtain ⟨cd', hcd, hx⟩ := List.mem_map.1 hx
        cases hx
        exact hU.cand c r l ev cd h hr hl hv hcd
    · rename_i hn
      exact hb.resolve_left hn
  rcases hlk with hu | ⟨l, hl, hm⟩
  · cases hs : Machine.seek r c with
    | ok l c' =>
      have : c' = c := by
        unfold Machine.seek at hs
        split at hs <;> cases hs
        rfl
      subst this
      exact main l hs (Or.inr (hu _))
    | throw x c' => unfold Machine.seek at hs; split at hs <;> cases hs
    | ub u => exact hu u
    | timeout => trivial
  · rw [hl]
    exact main l hl (Or.inl hm)

theorem sweep (hU : Upholds M sem U Q R V I C K) (hc : UpholdsCall U Q I call) {ev : EventTy} (hv : V ev) :
    ∀ (rs : List Nat), (∀ r ∈ rs, R r) → ∀ (os : List RegionOut) (p : P) {c : Conf P W}, I c →
    (M.sweepGR sem call ev rs os p c).SatU U (fun _ => I) (fun _ => I) := by
  intro rs
  induction rs with
  | nil => intro _ os p c h; exact h
  | cons r rs ih =>
    intro hrs os p c h
    unfold Machine.sweepGR
    refine (hU.visit hc (by simp) (hrs r (by simp)) hv p h).bind fun o c h => ?_
    split
    · exact h
    · exact ih (fun r hr => hrs r (by simp [hr])) _ _ h

theorem round (hU : Upholds M sem U Q R V I C K) (hc : UpholdsCall U Q I call) (hA : M.anonymous = true) :
    ∀ (rs : List Nat), (∀ r ∈ rs, R r) → ∀ (os : List RegionOut) {c : Conf P W}, I c →
    (M.roundGR sem call rs os c).SatU U (fun _ => I) (fun _ => I) := by
  intro rs
  induction rs with
  | nil => intro _ os c h; exact h
  | cons r rs ih =>
    intro hrs os c h
    unfold Machine.roundGR
    refine (hU.visit hc (fun _ => ⟨rfl, hA⟩) (hrs r (by simp)) hU.anon _ h).bind fun o c h => ?_
    split
    · exact h
    · exact ih (fun r hr => hrs r (by simp [hr])) _ h

theorem settle (hU : Upholds M sem U Q R V I C K) (hc : UpholdsCall U Q I call) (hA : M.anonymous = true)
    (fuel : Nat) : ∀ {c : Conf P W}, I c →
    (M.settleGR sem call fuel c).SatU U (fun _ => I) (fun _ => I) := by
  induction fuel with
  | zero => intro c _; trivial
  | succ n ih =>
    intro c h
    unfold Machine.settleGR
    refine (hU.round hc hA _ (hU.regions c h) [] h).bind fun a c h => ?_
    split
    · exact ih h
    · exact h

theorem handle (hU : Upholds M sem U Q R V I C K) (hc : UpholdsCall U Q I call) (fuel : Nat) {ev : EventTy}
    (hv : V ev) (p : P) {c : Conf P W} (h : I c) :
    (M.handleGR sem call fuel ev p c).SatU U (fun _ => I) (fun _ => I) := by
  unfold Machine.handleGR
  refine (hU.sweep hc hv _ (hU.regions c h) [] p h).bind fun a c h => ?_
  split
  · rename_i ha
    exact (hU.settle hc ha.2.2 fuel h).bind fun _ c h => h
  · exact h

theorem complain (hU : Upholds M sem U Q R V I C K) (hc : UpholdsCall U Q I call) {ev : EventTy} (hv : V ev)
    (p : P) {c : Conf P W} (h : I c) :
    (M.complainR sem call ev p c).SatU U (fun _ => I) (fun _ => I) := by
  unfold Machine.complainR
  split
  · exact h
  · rename_i k hk
    have main : ∀ l, Machine.seek 0 c = .ok l c → Res.SatU U (fun _ => I) (fun _ => I)
        (if l.1 ∈ M.composites then
          if M.presentR sem l.2 c then
            (Machine.enactNoted call (sem.handler k ev l.2 c.first p c.world)
              (fun u => .handler k ev l.2 c.first p u.isNone []) c).bind fun _ c => Res.ok () c
          else .ub .nullObject
        else .throw .outOfRange c) := by
      intro l hl
      split
      · split
        · exact (hU.enactNoted hc (hU.good.handler _ _ _ _ _ _)
            (fun o => hU.handler c ev k l _ _ _ h hv hk hl) h).bind fun _ c h => h
        · rename_i hn
          exact hU.obj c _ h (by simpa using hn)
      · exact h
    rcases hU.look c 0 h hU.zero with hu | ⟨l, hl, hm⟩
    · cases hs : Machine.seek 0 c with
      | ok l c' =>
        have : c' = c := by
          unfold Machine.seek at hs
          split at hs <;> cases hs
          rfl
        subst this
        exact main l hs
      | throw x c' => unfold Machine.seek at hs; split at hs <;> cases hs
      | ub u => exact hu u
      | timeout => trivial
    · rw [hl]
      exact main l hl

theorem receive (hU : Upholds M sem U Q R V I C K) (hc : UpholdsCall U Q I call) (fuel : Nat) {ev : EventTy}
    (hv : V ev) (p : P) {c : Conf P W} (h : I c) :
    (M.receiveGR sem call fuel ev p c).SatU U (fun _ => I) (fun _ => I) := by
  unfold Machine.receiveGR
  refine (hU.handle hc fuel hv p h).bind fun a c h => ?_
  split
  · exact hU.complain hc hv a.2 h
  · unfold Machine.replayGR
    split
    · exact h
    · rename_i e q l hl
      split
      · exact (hU.handle (c := { c with waiting := l }) hc fuel (hU.queued c e q l h hl) q
          (hU.pop c _ _ h hl)).bind fun _ c h => h
      · exact h

/-- Every call keeps `I`. -/
theorem exec (hU : Upholds M sem U Q R V I C K) (fuel n : Nat) :
    UpholdsCall U Q I (M.execGR sem fuel n) := by
  induction n with
  | zero => intro op c _ _; trivial
  | succ n ih =>
    intro op c hq h
    cases op with
    | process ev p => exact (hU.receive ih fuel (hU.sent ev p hq) p h).bind fun _ c h => h
    | set r p st => exact absurd hq (hU.noSet r p st)
    | setDependency d => exact hU.dep c d hq h

/-- After every history of such calls the machine depicts a configuration with `I`. -/
theorem runs (hU : Upholds M sem U Q R V I C K) (hM : M.RegularG) (hg : sem.Good True (OpOkGR M)) {d : Dep}
    (h0 : ∀ w, I (M.fresh d w)) {ops : List (Op P)} {s : SM P W} (h : RunToGR M sem d ops s)
    (hops : ∀ op ∈ ops, Q op) : ∃ c, DepictsG M c s ∧ I c := by
  have hS := (C97_reach hM hg h).1
  induction h with
  | @init w s h => exact ⟨_, (C82_construct (P := P) hM d w).2.2 s h, h0 w⟩
  | @ok s t ops op fuel n b hr hop h ih =>
    obtain ⟨c, hc, hi⟩ := ih fun o ho => hops o (by simp [ho])
    have hs := C97_step (sem := sem) hc hM hS hg fuel n hop
    have he := hU.exec fuel n op c (hops op (by simp)) hi
    rw [h] at hs
    revert he
    revert hs
    cases M.execGR sem fuel n op c <;> intro hs he <;> first | exact hs.elim | exact ⟨_, hs.2, he⟩
  | @throw s t ops op fuel n x hr hop h ih =>
    obtain ⟨c, hc, hi⟩ := ih fun o ho => hops o (by simp [ho])
    have hs := C97_step (sem := sem) hc hM hS hg fuel n hop
    have he := hU.exec fuel n op c (hops op (by simp)) hi
    rw [h] at hs
    revert he
    revert hs
    cases M.execGR sem fuel n op c <;> intro hs he <;> first | exact hs.elim | exact ⟨_, hs.2, he⟩
  | @world s ops hr w ih =>
    obtain ⟨c, hc, hi⟩ := ih hops
    exact ⟨{ c with world := w }, { hc with world := rfl }, hU.world _ _ hi⟩

end Upholds
end
end Hsm
