import Verif.MatchS
import Verif.PropsMatchR
import Verif.PropsInterpS

/-!
# C121, C122: programs of several machines no client can tell apart
-/

namespace Hsm

section
variable {ι P W : Type} {evs evs' : ι → List EventTy} {ok : ι → Op P → Prop} {Ms Ms' : ι → Machine}
  {v v' : ι → StTy → StTy} {R : ι → Pairing} {sem : SemS ι P W}

/-- Programs the client cannot tell apart by what happened so far: the client is in the same state, and of
every machine the same events wait, the same callbacks were called with arguments that look the same, and the
regions are at paired locations. -/
structure Matched (Ms Ms' : ι → Machine) (v v' : ι → StTy → StTy) (R : ι → Pairing) (h h' : Hub ι P W) :
    Prop where
  user : h.user = h'.user
  queue : ∀ i, (h.parts i).queue = (h'.parts i).queue
  trace : ∀ i, (h.parts i).trace.map (fun k => k.bare.seen (v i)) =
    (h'.parts i).trace.map (fun k => k.bare.seen (v' i))
  places : ∀ i, Abreast (Ms i) (Ms' i) (R i) (h.parts i) (h'.parts i)

/-- Scenes the client cannot tell apart. -/
structure Troupe (Ms Ms' : ι → Machine) (v v' : ι → StTy → StTy) (R : ι → Pairing) (evs : ι → List EventTy)
    (ok : ι → Op P → Prop) (t t' : Scene ι P W) : Prop where
  user : t.user = t'.user
  request : t.request = t'.request
  fair : ∀ i op, t.request = some (i, op) → ok i op
  parts : ∀ i, Peers (Ms i) (Ms' i) (v i) (v' i) (R i) (evs i) Eq (t.parts i) (t'.parts i)

theorem Peers.rebase {M M' : Machine} {v v' : StTy → StTy} {R : Pairing} {evs : List EventTy}
    {W W' V V' : Type} {U : W → W' → Prop} {U' : V → V' → Prop} {c : Conf P W} {c' : Conf P W'}
    (h : Peers M M' v v' R evs U c c') {w : V} {w' : V'} (hw : U' w w') :
    Peers M M' v v' R evs U' (c.rebase w) (c'.rebase w') :=
  ⟨h.slots, h.memory, h.active, h.waiting, h.known, h.deps, h.first, hw, h.calls⟩

theorem Troupe.idle {t t' : Scene ι P W} (H : Troupe Ms Ms' v v' R evs ok t t') :
    Troupe Ms Ms' v v' R evs ok { t with request := none } { t' with request := none } :=
  ⟨H.user, rfl, fun _ _ e => (by cases e), H.parts⟩

theorem Troupe.fetch {t t' : Scene ι P W} (H : Troupe Ms Ms' v v' R evs ok t t') (i : ι) :
    Peers (Ms i) (Ms' i) (v i) (v' i) (R i) (evs i) (Troupe Ms Ms' v v' R evs ok) (t.fetch i) (t'.fetch i) :=
  (H.parts i).rebase H.idle

theorem kin_scripts {i : ι} {o : Op P} (ho : ok i o) {α : Type} : ∀ {pr : SProg ι P W α} {m m' : ι → Conf P Unit},
    pr.Good True ok → (∀ j, Peers (Ms j) (Ms' j) (v j) (v' j) (R j) (evs j) Eq (m j) (m' j)) →
    (pr.script o m).Kin (Troupe Ms Ms' v v' R evs ok) (ok i) (pr.script o m')
  | .ret _ _ _, _, _, _, hm => ⟨rfl, rfl, rfl, rfl, fun _ _ e => (by cases e), hm⟩
  | .throw _ _, _, _, _, hm => ⟨rfl, rfl, rfl, fun _ _ e => (by cases e), hm⟩
  | .ub, _, _, _, _ => trivial
  | .call j op w k, _, _, hg, hm => by
    refine ⟨rfl, ho, ⟨rfl, rfl, ?_, hm⟩, fun r w w' hv => ?_⟩
    · intro i op e; cases e; exact hg.1
    · show (SProg.script o (k r w.user) w.parts).Kin _ _ (SProg.script o (k r w'.user) w'.parts)
      rw [hv.user]
      exact kin_scripts ho (hg.2 r _) hv.parts

theorem SemS.Good.akin (hg : sem.Good True ok) {i : ι} {o : Op P} (ho : ok i o) :
    SemR.Akin (v i) (v' i) (Troupe Ms Ms' v v' R evs ok) (ok i) ((sem.seen v).on i o) ((sem.seen v').on i o) where
  guard g a a' p t t' e H := by
    show (SProg.script o (sem.guard i g (a.seen (v i)) p t.user) t.parts).Kin _ _
      (SProg.script o (sem.guard i g (a'.seen (v' i)) p t'.user) t'.parts)
    rw [H.user, e]; exact kin_scripts ho (hg.guard _ _ _ _ _) H.parts
  action f a a' p t t' e H := by
    show (SProg.script o (sem.action i f (a.seen (v i)) p t.user) t.parts).Kin _ _
      (SProg.script o (sem.action i f (a'.seen (v' i)) p t'.user) t'.parts)
    rw [H.user, e]; exact kin_scripts ho (hg.action _ _ _ _ _) H.parts
  handler k x st st' d p t t' e H := by
    show (SProg.script o (sem.handler i k x (v i st) d p t.user) t.parts).Kin _ _
      (SProg.script o (sem.handler i k x (v' i st') d p t'.user) t'.parts)
    rw [H.user, e]; exact kin_scripts ho (hg.handler _ _ _ _ _ _ _) H.parts
  alive st st' t t' e H := by
    show sem.alive i (v i st) t.user = sem.alive i (v' i st') t'.user
    rw [H.user, e]
  nonePayload := rfl

theorem SProg.Good.weaken {α : Type} {ok ok' : ι → Op P → Prop} (h : ∀ i op, ok i op → ok' i op) :
    ∀ {pr : SProg ι P W α}, pr.Good True ok → pr.Good True ok'
  | .ret _ _ _, _ => trivial
  | .throw _ _, _ => trivial
  | .ub, _ => trivial
  | .call _ _ _ _, hg => ⟨h _ _ hg.1, fun r w => (hg.2 r w).weaken h⟩

theorem SemS.Good.weaken {ok ok' : ι → Op P → Prop} (hg : sem.Good True ok) (h : ∀ i op, ok i op → ok' i op) :
    sem.Good True ok' :=
  ⟨fun _ _ _ _ _ => (hg.guard _ _ _ _ _).weaken h, fun _ _ _ _ _ => (hg.action _ _ _ _ _).weaken h,
    fun _ _ _ _ _ _ _ => (hg.handler _ _ _ _ _ _ _).weaken h⟩

theorem SemS.Good.seen (hg : sem.Good True ok) (v : ι → StTy → StTy) : (sem.seen v).Good True ok :=
  ⟨fun _ _ _ _ _ => hg.guard _ _ _ _ _, fun _ _ _ _ _ => hg.action _ _ _ _ _,
    fun _ _ _ _ _ _ _ => hg.handler _ _ _ _ _ _ _⟩

/-- Pictures of scenes the client cannot tell apart. -/
theorem Troupe.matched {E E' : ι → List Dep → EventTy → Name → StTy → List Entry} {es es' : ι → List EventTy}
    {q q' : ι → Op P → Prop} {h h' : Hub ι P W} {t t' : Scene ι P W} (H : Troupe Ms Ms' v v' R evs ok t t')
    (h1 : Ensemble Ms E es q h t) (h2 : Ensemble Ms' E' es' q' h' t') : Matched Ms Ms' v v' R h h' where
  user := h1.user.trans (H.user.trans h2.user.symm)
  queue i := ((H.parts i).like (h1.parts i) (h2.parts i)).1.queue
  trace i := ((H.parts i).like (h1.parts i) (h2.parts i)).1.trace
  places i := ((H.parts i).like (h1.parts i) (h2.parts i)).2

/-- Calls on two programs that agree with two interpretations that meet. -/
theorem Troupe.carry {σ σ' τ τ' : Type} {A : σ → τ → Prop} {B : σ' → τ' → Prop} {T : τ → τ' → Prop}
    {q : Res σ Bool} {q' : Res σ' Bool} {o : Res τ Bool} {o' : Res τ' Bool}
    (h1 : q.Rel Eq A o) (h2 : q'.Rel Eq B o') (h3 : o.Rel Eq T o') :
    q.Rel Eq (fun s s' => ∃ t t', A s t ∧ B s' t' ∧ T t t') q' := by
  revert h1 h2 h3
  cases q <;> cases o <;> intro h1 <;> first | exact h1.elim | skip
  all_goals
    cases q' <;> cases o' <;> intro h2 h3 <;> first | exact h2.elim | exact h3.elim | skip
  · exact ⟨h1.1.trans (h3.1.trans h2.1.symm), _, _, h1.2, h2.2, h3.2⟩
  · exact ⟨h1.1.trans (h3.1.trans h2.1.symm), _, _, h1.2, h2.2, h3.2⟩
  · exact (h1.trans (h3.trans h2.symm) : _ = _)
  · trivial

variable [DecidableEq ι]

theorem Troupe.store {i : ι} {c c' : Conf P (Scene ι P W)}
    (h : Peers (Ms i) (Ms' i) (v i) (v' i) (R i) (evs i) (Troupe Ms Ms' v v' R evs ok) c c') :
    Troupe Ms Ms' v v' R evs ok (c.world.store i c) (c'.world.store i c') := by
  refine ⟨h.world.user, rfl, fun _ _ e => (by cases e), fun j => ?_⟩
  show Peers _ _ _ _ _ _ Eq (if j = i then c.rebase () else c.world.parts j)
    (if j = i then c'.rebase () else c'.world.parts j)
  by_cases hj : j = i
  · subst hj
    rw [if_pos rfl, if_pos rfl]
    exact h.rebase rfl
  · rw [if_neg hj, if_neg hj]
    exact h.world.parts j

theorem Troupe.curtain {i : ι} {α : Type} {q q' : Res (Conf P (Scene ι P W)) α}
    (h : Meet (Ms i) (Ms' i) (v i) (v' i) (R i) (evs i) (Troupe Ms Ms' v v' R evs ok) q q') :
    (q.curtain i).Rel Eq (Troupe Ms Ms' v v' R evs ok) (q'.curtain i) := by
  cases q <;> cases q' <;> first | exact h.elim | skip
  · exact ⟨h.1, Troupe.store h.2⟩
  · exact ⟨h.1, Troupe.store h.2⟩
  · exact h
  · trivial

/-- Calls made by callbacks do the same in both scenes if calls do. -/
theorem Troupe.chime {exec exec' : ι → Op P → Scene ι P W → Res (Scene ι P W) Bool}
    (ih : ∀ i op t t', ok i op → Troupe Ms Ms' v v' R evs ok t t' →
      (exec i op t).Rel Eq (Troupe Ms Ms' v v' R evs ok) (exec' i op t')) (i : ι) :
    Chime (Ms i) (Ms' i) (v i) (v' i) (R i) (evs i) (Troupe Ms Ms' v v' R evs ok) (ok i) (aside exec i)
      (aside exec' i) := by
  intro o _ c c' h
  unfold aside
  rw [← h.world.request]
  cases hq : c.world.request with
  | none => trivial
  | some x =>
    obtain ⟨j, op⟩ := x
    have := ih j op _ _ (h.world.fair j op hq) (Troupe.store h)
    revert this
    dsimp only
    cases exec j op (c.world.store i c) <;> cases exec' j op (c'.world.store i c') <;> intro H <;>
      first | exact H.elim | skip
    · exact ⟨H.1, H.2.fetch i⟩
    · exact ⟨H.1, H.2.fetch i⟩
    · exact H
    · trivial

/-! ## The modular header -/

section
variable (hm : ∀ i, Likes (Ms i) (Ms' i) (v i) (v' i) (R i) (Ms i).cands (Ms' i).cands (evs i) (evs' i))
  (hanon : ∀ i, (Ms i).anonymous = true → EventTy.none ∈ evs i)
  (hok : ∀ i, Suits (Ms i) (Ms' i) (R i) (evs i) (ok i)) (hg : sem.Good True ok)
include hm hanon hok hg

theorem Troupe.exec (fuel n : Nat) {i : ι} {op : Op P} (hop : ok i op) {t t' : Scene ι P W}
    (H : Troupe Ms Ms' v v' R evs ok t t') :
    (execS Ms (sem.seen v) fuel n i op t).Rel Eq (Troupe Ms Ms' v v' R evs ok)
      (execS Ms' (sem.seen v') fuel n i op t') := by
  induction n generalizing i op t t' with
  | zero => trivial
  | succ n ih =>
    have ih : ∀ i op t t', ok i op → Troupe Ms Ms' v v' R evs ok t t' →
        (execS Ms (sem.seen v) fuel n i op t).Rel Eq (Troupe Ms Ms' v v' R evs ok)
          (execS Ms' (sem.seen v') fuel n i op t') := fun i op t t' ho H => ih ho H
    unfold execS
    refine Troupe.curtain ?_
    have hs := (hok i op hop).2.2
    have h := H.fetch i
    cases op with
    | process ev p => exact h.receive (hm i) (Troupe.chime ih i) (hg.akin hop) (hanon i) fuel hs p
    | set r p st =>
      dsimp only
      by_cases hr : r % 256 < (t.parts i).slots.length
      · rw [if_pos hr, if_pos (((H.parts i).slots.lt _).1 hr)]
        exact ⟨rfl, { h with slots := h.slots.set _ (show Opt (R i).Has (some _) (some _) from hs) }⟩
      · rw [if_neg hr, if_neg fun h' => hr (((H.parts i).slots.lt _).2 h')]
        exact ⟨rfl, h⟩
    | setDependency d =>
      exact ⟨rfl, { h with deps := by show d :: (t.parts i).deps = d :: (t'.parts i).deps; rw [(H.parts i).deps] }⟩

variable (hM : ∀ i, (Ms i).Regular) (hM' : ∀ i, (Ms' i).Regular)
  (hC : ∀ i, (Ms' i).ScopesReal ∧ ((Ms' i).orthogonal = true → (Ms' i).declaredInitials (Ms' i).root ≠ []))
include hM hM' hC

theorem RunToS.troupe {d : ι → Dep} {ops : List (ι × Op P)} {h : Hub ι P W}
    (hr : RunToS Ms (sem.seen v) d ops h) (hops : ∀ x ∈ ops, ok x.1 x.2) :
    ∃ h' t t', RunToS Ms' (sem.seen v') d ops h' ∧ DepictsS Ms { h with request := none } t ∧
      DepictsS Ms' { h' with request := none } t' ∧ Troupe Ms Ms' v v' R evs ok t t' := by
  have g1 : (sem.seen v).Good True (fun i => OpOk (Ms i)) := (hg.seen v).weaken fun i _ h => (hok i _ h).1
  have g2 : (sem.seen v').Good True (fun i => OpOk (Ms' i)) := (hg.seen v').weaken fun i _ h => (hok i _ h).2.1
  have hS := (C119_reach hM g1 hr).1
  induction hr with
  | @init h hi =>
    have hi' : ∀ i, ∃ s', construct (Ms' i) (d i) () = .ok (s' : SM P Unit) := fun i =>
      (C06_construct (P := P) (hM' i) (d i) ()).1.2 (hC i)
    refine ⟨⟨h.user, fun i => (hi' i).choose, none⟩, _, _, .init fun i => (hi' i).choose_spec,
      C119_construct hM (h := { h with request := none }) hi rfl,
      C119_construct hM' (h := ⟨h.user, fun i => (hi' i).choose, none⟩) (fun i => (hi' i).choose_spec) rfl,
      rfl, rfl, fun _ _ e => (by cases e), fun i => peers_fresh (hm i) (d i) ()⟩
  | @ok h g ops i op fuel n b hr hop hs ih =>
    obtain ⟨h', t, t', hr', hc, hc', hp⟩ := ih fun x hx => hops x (List.mem_append_left _ hx)
    have ho := hops (i, op) (List.mem_append_right _ List.mem_cons_self)
    have hk := Troupe.carry (C119_step hM hS g1 fuel n hop hc)
      (C119_step hM' (fun i => (hC i).1) g2 fuel n (hok i _ ho).2.1 hc')
      (Troupe.exec hm hanon hok hg fuel n ho hp)
    rw [stepS_idle, stepS_idle, hs] at hk
    cases hs' : stepS Ms' (sem.seen v') fuel n i op h' with
    | ok b' g' =>
      rw [hs'] at hk
      obtain ⟨rfl, t, t', h1, h2, h3⟩ := hk
      exact ⟨g', _, _, .ok hr' (hok i _ ho).2.1 hs', h1.idle, h2.idle, h3.idle⟩
    | _ => rw [hs'] at hk; exact hk.elim
  | @throw h g ops i op fuel n x hr hop hs ih =>
    obtain ⟨h', t, t', hr', hc, hc', hp⟩ := ih fun x hx => hops x (List.mem_append_left _ hx)
    have ho := hops (i, op) (List.mem_append_right _ List.mem_cons_self)
    have hk := Troupe.carry (C119_step hM hS g1 fuel n hop hc)
      (C119_step hM' (fun i => (hC i).1) g2 fuel n (hok i _ ho).2.1 hc')
      (Troupe.exec hm hanon hok hg fuel n ho hp)
    rw [stepS_idle, stepS_idle, hs] at hk
    cases hs' : stepS Ms' (sem.seen v') fuel n i op h' with
    | throw x' g' =>
      rw [hs'] at hk
      obtain ⟨rfl, t, t', h1, h2, h3⟩ := hk
      exact ⟨g', _, _, .throw hr' (hok i _ ho).2.1 hs', h1.idle, h2.idle, h3.idle⟩
    | _ => rw [hs'] at hk; exact hk.elim
  | @world h ops _ w ih =>
    obtain ⟨h', t, t', hr', hc, hc', hp⟩ := ih hops
    exact ⟨_, { t with user := w }, { t' with user := w }, .world hr' w, ⟨rfl, hc.request, hc.fair, hc.parts⟩,
      ⟨rfl, hc'.request, hc'.fair, hc'.parts⟩, rfl, hp.request, hp.fair, hp.parts⟩

theorem RunToS.beside {d : ι → Dep} {ops : List (ι × Op P)} {h : Hub ι P W}
    (hr : RunToS Ms (sem.seen v) d ops h) (hops : ∀ x ∈ ops, ok x.1 x.2) :
    ∃ h', RunToS Ms' (sem.seen v') d ops h' ∧ Matched Ms Ms' v v' R h h' ∧
      ∀ (fuel n : Nat) (i : ι) (op : Op P), ok i op → OpOk (Ms' i) op ∧
        (stepS Ms (sem.seen v) fuel n i op h).Rel Eq (Matched Ms Ms' v v' R)
          (stepS Ms' (sem.seen v') fuel n i op h') := by
  have g1 : (sem.seen v).Good True (fun i => OpOk (Ms i)) := (hg.seen v).weaken fun i _ h => (hok i _ h).1
  have g2 : (sem.seen v').Good True (fun i => OpOk (Ms' i)) := (hg.seen v').weaken fun i _ h => (hok i _ h).2.1
  have hS := (C119_reach hM g1 hr).1
  obtain ⟨h', t, t', hr', hc, hc', hp⟩ := hr.troupe hm hanon hok hg hM hM' hC hops
  have hh := hp.matched hc hc'
  refine ⟨h', hr', ⟨hh.user, hh.queue, hh.trace, hh.places⟩, fun fuel n i op ho => ⟨(hok i _ ho).2.1, ?_⟩⟩
  have hk := Troupe.carry (C119_step hM hS g1 fuel n (hok i _ ho).1 hc)
    (C119_step hM' (fun i => (hC i).1) g2 fuel n (hok i _ ho).2.1 hc')
    (Troupe.exec hm hanon hok hg fuel n ho hp)
  rw [stepS_idle, stepS_idle] at hk
  refine hk.weaken ?_
  rintro s s' ⟨c, c', h1, h2, h3⟩
  exact h3.matched h1 h2

end

/-- C121: if the check accepts every machine of a program with its replacement, then whatever a client has
done with the machines, from outside and from inside the callbacks of any of them, it can have done with their
replacements, with the same effects, and of every machine the same callbacks called in the same order with
arguments it sees as the same, the same events waiting and the regions at paired locations; and the next call,
on whichever machine, has the same outcome, to any depth of calls from inside. -/
theorem C121_same {d : ι → Dep} {ops : List (ι × Op P)} {h : Hub ι P W}
    (hl : ∀ i, (Ms i).likeM (Ms' i) (v i) (v' i) (R i) = true) (hM : ∀ i, (Ms i).Regular)
    (hM' : ∀ i, (Ms' i).Regular)
    (hC : ∀ i, (Ms' i).ScopesReal ∧ ((Ms' i).orthogonal = true → (Ms' i).declaredInitials (Ms' i).root ≠ []))
    (hg : sem.Good True fun i => CallOk (Ms i) (Ms' i) (R i)) (hr : RunToS Ms (sem.seen v) d ops h)
    (hops : ∀ x ∈ ops, CallOk (Ms x.1) (Ms' x.1) (R x.1) x.2) :
    ∃ h', RunToS Ms' (sem.seen v') d ops h' ∧ Matched Ms Ms' v v' R h h' ∧
      ∀ (fuel n : Nat) (i : ι) (op : Op P), CallOk (Ms i) (Ms' i) (R i) op → OpOk (Ms' i) op ∧
        (stepS Ms (sem.seen v) fuel n i op h).Rel Eq (Matched Ms Ms' v v' R)
          (stepS Ms' (sem.seen v') fuel n i op h') :=
  have hm := fun i => Machine.like_iff (hl i)
  hr.beside hm (fun _ => Machine.none_event) (fun i => callOk_suits (hm i)) hg hM hM' hC hops

/-! ## The amalgamated header -/

section
variable (hm : ∀ i, Likes (Ms i) (Ms' i) (v i) (v' i) (R i) (Ms i).candsG (Ms' i).candsG (evs i) (evs' i))
  (hanon : ∀ i, (Ms i).anonymous = true → EventTy.none ∈ evs i)
  (hok : ∀ i, SuitsG (Ms i) (Ms' i) (evs i) (ok i)) (hg : sem.Good True ok)
include hm hanon hok hg

theorem Troupe.execG (fuel n : Nat) {i : ι} {op : Op P} (hop : ok i op) {t t' : Scene ι P W}
    (H : Troupe Ms Ms' v v' R evs ok t t') :
    (execGS Ms (sem.seen v) fuel n i op t).Rel Eq (Troupe Ms Ms' v v' R evs ok)
      (execGS Ms' (sem.seen v') fuel n i op t') := by
  induction n generalizing i op t t' with
  | zero => trivial
  | succ n ih =>
    have ih : ∀ i op t t', ok i op → Troupe Ms Ms' v v' R evs ok t t' →
        (execGS Ms (sem.seen v) fuel n i op t).Rel Eq (Troupe Ms Ms' v v' R evs ok)
          (execGS Ms' (sem.seen v') fuel n i op t') := fun i op t t' ho H => ih ho H
    unfold execGS
    refine Troupe.curtain ?_
    have hs := (hok i op hop).2.2
    have h := H.fetch i
    cases op with
    | process ev p =>
      exact Res.Rel.bind (V := Eq)
        (h.receiveG (hm i) (Troupe.chime ih i) (hg.akin hop) (hanon i) fuel (hs ev p rfl) p)
        fun _ _ c c' _ h => ⟨rfl, h⟩
    | set r p st => exact ((hok i _ hop).1 : False).elim
    | setDependency d =>
      exact ⟨rfl, { h with deps := by show d :: (t.parts i).deps = d :: (t'.parts i).deps; rw [(H.parts i).deps] }⟩

variable (hM : ∀ i, (Ms i).RegularG) (hM' : ∀ i, (Ms' i).RegularG)
  (hC : ∀ i, (Ms' i).ScopesRealG ∧ ((Ms' i).orthogonal = true → (Ms' i).declaredInitials (Ms' i).root ≠ []))
include hM hM' hC

theorem RunToGS.troupe {d : ι → Dep} {ops : List (ι × Op P)} {h : Hub ι P W}
    (hr : RunToGS Ms (sem.seen v) d ops h) (hops : ∀ x ∈ ops, ok x.1 x.2) :
    ∃ h' t t', RunToGS Ms' (sem.seen v') d ops h' ∧ DepictsGS Ms { h with request := none } t ∧
      DepictsGS Ms' { h' with request := none } t' ∧ Troupe Ms Ms' v v' R evs ok t t' := by
  have g1 : (sem.seen v).Good True (fun i => OpOkGR (Ms i)) := (hg.seen v).weaken fun i _ h => (hok i _ h).1
  have g2 : (sem.seen v').Good True (fun i => OpOkGR (Ms' i)) := (hg.seen v').weaken fun i _ h => (hok i _ h).2.1
  have hS := (C120_reach hM g1 hr).1
  induction hr with
  | @init h hi =>
    have hi' : ∀ i, ∃ s', constructG (Ms' i) (d i) () = .ok (s' : SM P Unit) := fun i =>
      (C82_construct (P := P) (hM' i) (d i) ()).1.2 (hC i)
    refine ⟨⟨h.user, fun i => (hi' i).choose, none⟩, _, _, .init fun i => (hi' i).choose_spec,
      C120_construct hM (h := { h with request := none }) hi rfl,
      C120_construct hM' (h := ⟨h.user, fun i => (hi' i).choose, none⟩) (fun i => (hi' i).choose_spec) rfl,
      rfl, rfl, fun _ _ e => (by cases e), fun i => peers_fresh (hm i) (d i) ()⟩
  | @ok h g ops i op fuel n b hr hop hs ih =>
    obtain ⟨h', t, t', hr', hc, hc', hp⟩ := ih fun x hx => hops x (List.mem_append_left _ hx)
    have ho := hops (i, op) (List.mem_append_right _ List.mem_cons_self)
    have hk := Troupe.carry (C120_step hM hS g1 fuel n hop hc)
      (C120_step hM' (fun i => (hC i).1) g2 fuel n (hok i _ ho).2.1 hc')
      (Troupe.execG hm hanon hok hg fuel n ho hp)
    rw [stepGS_idle, stepGS_idle, hs] at hk
    cases hs' : stepGS Ms' (sem.seen v') fuel n i op h' with
    | ok b' g' =>
      rw [hs'] at hk
      obtain ⟨rfl, t, t', h1, h2, h3⟩ := hk
      exact ⟨g', _, _, .ok hr' (hok i _ ho).2.1 hs', h1.idle, h2.idle, h3.idle⟩
    | _ => rw [hs'] at hk; exact hk.elim
  | @throw h g ops i op fuel n x hr hop hs ih =>
    obtain ⟨h', t, t', hr', hc, hc', hp⟩ := ih fun x hx => hops x (List.mem_append_left _ hx)
    have ho := hops (i, op) (List.mem_append_right _ List.mem_cons_self)
    have hk := Troupe.carry (C120_step hM hS g1 fuel n hop hc)
      (C120_step hM' (fun i => (hC i).1) g2 fuel n (hok i _ ho).2.1 hc')
      (Troupe.execG hm hanon hok hg fuel n ho hp)
    rw [stepGS_idle, stepGS_idle, hs] at hk
    cases hs' : stepGS Ms' (sem.seen v') fuel n i op h' with
    | throw x' g' =>
      rw [hs'] at hk
      obtain ⟨rfl, t, t', h1, h2, h3⟩ := hk
      exact ⟨g', _, _, .throw hr' (hok i _ ho).2.1 hs', h1.idle, h2.idle, h3.idle⟩
    | _ => rw [hs'] at hk; exact hk.elim
  | @world h ops _ w ih =>
    obtain ⟨h', t, t', hr', hc, hc', hp⟩ := ih hops
    exact ⟨_, { t with user := w }, { t' with user := w }, .world hr' w, ⟨rfl, hc.request, hc.fair, hc.parts⟩,
      ⟨rfl, hc'.request, hc'.fair, hc'.parts⟩, rfl, hp.request, hp.fair, hp.parts⟩

theorem RunToGS.beside {d : ι → Dep} {ops : List (ι × Op P)} {h : Hub ι P W}
    (hr : RunToGS Ms (sem.seen v) d ops h) (hops : ∀ x ∈ ops, ok x.1 x.2) :
    ∃ h', RunToGS Ms' (sem.seen v') d ops h' ∧ Matched Ms Ms' v v' R h h' ∧
      ∀ (fuel n : Nat) (i : ι) (op : Op P), ok i op → OpOkGR (Ms' i) op ∧
        (stepGS Ms (sem.seen v) fuel n i op h).Rel Eq (Matched Ms Ms' v v' R)
          (stepGS Ms' (sem.seen v') fuel n i op h') := by
  have g1 : (sem.seen v).Good True (fun i => OpOkGR (Ms i)) := (hg.seen v).weaken fun i _ h => (hok i _ h).1
  have g2 : (sem.seen v').Good True (fun i => OpOkGR (Ms' i)) := (hg.seen v').weaken fun i _ h => (hok i _ h).2.1
  have hS := (C120_reach hM g1 hr).1
  obtain ⟨h', t, t', hr', hc, hc', hp⟩ := hr.troupe hm hanon hok hg hM hM' hC hops
  have hh := hp.matched hc hc'
  refine ⟨h', hr', ⟨hh.user, hh.queue, hh.trace, hh.places⟩, fun fuel n i op ho => ⟨(hok i _ ho).2.1, ?_⟩⟩
  have hk := Troupe.carry (C120_step hM hS g1 fuel n (hok i _ ho).1 hc)
    (C120_step hM' (fun i => (hC i).1) g2 fuel n (hok i _ ho).2.1 hc')
    (Troupe.execG hm hanon hok hg fuel n ho hp)
  rw [stepGS_idle, stepGS_idle] at hk
  refine hk.weaken ?_
  rintro s s' ⟨c, c', h1, h2, h3⟩
  exact h3.matched h1 h2

end

omit [DecidableEq ι] in
theorem RunToGS.opsOk [DecidableEq ι] {d : ι → Dep} {ops : List (ι × Op P)} {h : Hub ι P W}
    (hr : RunToGS Ms sem d ops h) : ∀ x ∈ ops, OpOkGR (Ms x.1) x.2 := by
  induction hr with
  | init => intro x h; cases h
  | ok _ hop _ ih | throw _ hop _ ih =>
    intro x h
    rcases List.mem_append.1 h with h | h
    · exact ih x h
    · cases List.mem_singleton.1 h; exact hop
  | world _ _ ih => exact ih

/-- C122: the same for the amalgamated header. -/
theorem C122_same {d : ι → Dep} {ops : List (ι × Op P)} {h : Hub ι P W}
    (hl : ∀ i, (Ms i).likeG (Ms' i) (v i) (v' i) (R i) = true) (hM : ∀ i, (Ms i).RegularG)
    (hM' : ∀ i, (Ms' i).RegularG)
    (hC : ∀ i, (Ms' i).ScopesRealG ∧ ((Ms' i).orthogonal = true → (Ms' i).declaredInitials (Ms' i).root ≠ []))
    (hg : sem.Good True fun i => OpOkGR (Ms i)) (hr : RunToGS Ms (sem.seen v) d ops h) :
    ∃ h', RunToGS Ms' (sem.seen v') d ops h' ∧ Matched Ms Ms' v v' R h h' ∧
      ∀ (fuel n : Nat) (i : ι) (op : Op P), OpOkGR (Ms i) op → OpOkGR (Ms' i) op ∧
        (stepGS Ms (sem.seen v) fuel n i op h).Rel Eq (Matched Ms Ms' v v' R)
          (stepGS Ms' (sem.seen v') fuel n i op h') :=
  have hm := fun i => Machine.like_iff (hl i)
  hr.beside hm (fun _ => Machine.none_eventG) (fun i => opOkGR_suits (hM i) (hM' i) (hm i)) hg hM hM' hC
    hr.opsOk

end

/-! ## Examples -/

namespace Ex

/-- Two nested lamps, and a nested and a flat one. -/
def lamps (_ : Bool) : Machine := lamp
def mixed (i : Bool) : Machine := if i then lampFlat else lamp

def lampLocs (i : Bool) : Pairing := locsM lamp (mixed i) 4
def lampLocsG (i : Bool) : Pairing := locsG lamp (mixed i) 4

/-- When the first lamp is switched on, the second one is made to shine brightly; when it does, so does the
first. -/
def chainOn (i : Bool) (c : Nat) : List (Bool × Op Nat) :=
  if c = 1 ∧ i = false then [(true, .process (ev 0) 5), (true, .process (ev 1) 6)]
  else if c = 3 ∧ i = true then [(false, .process (ev 1) 7)] else []

theorem lamps_like (i : Bool) : (lamps i).likeM (mixed i) blind blind (lampLocs i) = true := by
  cases i <;> decide +kernel
theorem lamps_likeG (i : Bool) : (lamps i).likeG (mixed i) blind blind (lampLocsG i) = true := by
  cases i <;> decide +kernel

theorem mixed_regular (i : Bool) : (mixed i).Regular := by
  cases i
  · exact lamp_regular
  · exact lampFlat_regular
theorem mixed_regularG (i : Bool) : (mixed i).RegularG := by
  cases i
  · exact lamp_regularG
  · exact lampFlat_regularG

theorem chainOn_all {Q : Bool → Op Nat → Prop} (h0 : Q true (.process (ev 0) 5)) (h1 : Q true (.process (ev 1) 6))
    (h2 : Q false (.process (ev 1) 7)) : ∀ i c, ∀ x ∈ chainOn i c, Q x.1 x.2 := by
  intro i c x hx
  unfold chainOn at hx
  split at hx
  · simp only [List.mem_cons, List.not_mem_nil, or_false] at hx
    rcases hx with rfl | rfl
    · exact h0
    · exact h1
  · split at hx
    · rw [List.mem_singleton.1 hx]; exact h2
    · cases hx

theorem chainOn_good : (semS true quietS chainOn).Good True (fun i => CallOk (lamps i) (mixed i) (lampLocs i)) :=
  semS_good (quietS_all (Q := fun i => CallOk (lamps i) (mixed i) (lampLocs i)))
    (chainOn_all (Q := fun i => CallOk (lamps i) (mixed i) (lampLocs i)) (by decide +kernel : ev 0 ∈ lamp.eventIds)
      (by decide +kernel : ev 1 ∈ lamp.eventIds) (by decide +kernel : ev 1 ∈ lamp.eventIds))

theorem chainOn_goodG : (semS true quietS chainOn).Good True (fun i => OpOkGR (lamps i)) :=
  semS_good (quietS_all (Q := fun i => OpOkGR (lamps i)))
    (chainOn_all (Q := fun i => OpOkGR (lamps i)) (by decide +kernel : ev 0 ∈ lamp.eventIdsG)
      (by decide +kernel : ev 1 ∈ lamp.eventIdsG) (by decide +kernel : ev 1 ∈ lamp.eventIdsG))

theorem lamp_scoped : lamp.Scoped := Machine.scoped_of_check (by decide +kernel)

theorem mixed_sound (i : Bool) : (mixed i).ScopesReal ∧
    ((mixed i).orthogonal = true → (mixed i).declaredInitials (mixed i).root ≠ []) := by
  cases i
  · exact ⟨(Machine.scopesReal_iff lamp_regular).2 ⟨lamp_scoped.src, lamp_scoped.comp⟩,
      fun h => absurd h (by decide +kernel)⟩
  · exact ⟨(Machine.scopesReal_iff lampFlat_regular).2 ⟨lampFlat_scoped.src, lampFlat_scoped.comp⟩,
      fun h => absurd h (by decide +kernel)⟩

theorem mixed_soundG (i : Bool) : (mixed i).ScopesRealG ∧
    ((mixed i).orthogonal = true → (mixed i).declaredInitials (mixed i).root ≠ []) := by
  cases i
  · exact builtG lamp_regularG (by decide +kernel)
  · exact builtG lampFlat_regularG (by decide +kernel)

/-- C121 applies: the client sees no difference if the second lamp is flat. -/
example : ∃ h h', RunToS lamps (semS true quietS chainOn) (fun _ => 7) [(false, .process (ev 0) 1), (true, .process (ev 0) 2)] h ∧
    h.user = [10, 1, 10, 1, 3, 3, 2] ∧
    RunToS mixed (semS true quietS chainOn) (fun _ => 7) [(false, .process (ev 0) 1), (true, .process (ev 0) 2)] h' ∧
    Matched lamps mixed (fun _ => blind) (fun _ => blind) lampLocs h h' := by
  obtain ⟨h, hr, hs⟩ := exists_runS lamps (semS true quietS chainOn) (fuel := 5) (n := 5) (d := fun _ => 7) (w := [])
    (ops := [(false, .process (ev 0) 1), (true, .process (ev 0) 2)])
    (f := fun h => decide (h.user = [10, 1, 10, 1, 3, 3, 2])) (by decide +kernel)
  obtain ⟨h', h1, h2, -⟩ := C121_same (sem := semS true quietS chainOn) lamps_like (fun _ => lamp_regular)
    mixed_regular mixed_sound chainOn_good hr (by
      intro x hx
      simp only [List.mem_cons, List.not_mem_nil, or_false] at hx
      rcases hx with rfl | rfl <;> exact (by decide +kernel : ev 0 ∈ lamp.eventIds))
  exact ⟨h, h', hr, of_decide_eq_true hs, h1, h2⟩

/-- C122 applies in the same way. -/
example : ∃ h h', RunToGS lamps (semS true quietS chainOn) (fun _ => 7) [(false, .process (ev 0) 1), (true, .process (ev 0) 2)] h ∧
    h.user = [10, 1, 10, 1, 3, 3, 2] ∧
    RunToGS mixed (semS true quietS chainOn) (fun _ => 7) [(false, .process (ev 0) 1), (true, .process (ev 0) 2)] h' ∧
    Matched lamps mixed (fun _ => blind) (fun _ => blind) lampLocsG h h' := by
  obtain ⟨h, hr, hs⟩ := exists_runGS lamps (semS true quietS chainOn) (fuel := 5) (n := 5) (d := fun _ => 7) (w := [])
    (ops := [(false, .process (ev 0) 1), (true, .process (ev 0) 2)])
    (f := fun h => decide (h.user = [10, 1, 10, 1, 3, 3, 2])) (by decide +kernel)
  obtain ⟨h', h1, h2, -⟩ := C122_same (sem := semS true quietS chainOn) lamps_likeG (fun _ => lamp_regularG)
    mixed_regularG mixed_soundG chainOn_goodG hr
  exact ⟨h, h', hr, of_decide_eq_true hs, h1, h2⟩

end Ex
end Hsm
