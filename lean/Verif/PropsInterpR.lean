import Verif.InterpR
import Verif.PropsInterp
import Verif.PropsReentrant

/-!
# The model and the interpreter for callbacks that use the machine (C83)
-/

namespace Hsm

section
variable {P W W' : Type}

/-- Two programs that do the same, the rest of the program being the same in the sense of `U`, and make only
calls that are `ok`. -/
def Prog.Kin {α : Type} (U : W → W' → Prop) (ok : Op P → Prop) : Prog P W α → Prog P W' α → Prop
  | .ret a p w, .ret a' p' w' => a = a' ∧ p = p' ∧ U w w'
  | .throw x w, .throw x' w' => x = x' ∧ U w w'
  | .ub, .ub => True
  | .call op w k, .call op' w' k' =>
    op = op' ∧ ok op ∧ U w w' ∧ ∀ r v v', U v v' → (k r v).Kin U ok (k' r v')
  | _, _ => False

/-- The same for all callbacks. -/
structure SemR.Kin (U : W → W' → Prop) (ok : Op P → Prop) (sem : SemR P W) (sem' : SemR P W') : Prop where
  guard : ∀ g a p w w', U w w' → (sem.guard g a p w).Kin U ok (sem'.guard g a p w')
  action : ∀ c a p w w', U w w' → (sem.action c a p w).Kin U ok (sem'.action c a p w')
  handler : ∀ h e st d p w w', U w w' → (sem.handler h e st d p w).Kin U ok (sem'.handler h e st d p w')
  alive : ∀ st w w', U w w' → sem.alive st w = sem'.alive st w'
  nonePayload : sem.nonePayload = sem'.nonePayload

theorem Prog.Good.kin {α : Type} {ok : Op P → Prop} : ∀ {pr : Prog P W α}, pr.Good True ok → pr.Kin Eq ok pr
  | .ret _ _ _, _ => ⟨rfl, rfl, rfl⟩
  | .throw _ _, _ => ⟨rfl, rfl⟩
  | .ub, _ => trivial
  | .call _ _ _, h => ⟨rfl, h.1, rfl, fun r v _ e => e ▸ (h.2 r v).kin⟩

theorem SemR.Good.kin {ok : Op P → Prop} {sem : SemR P W} (h : sem.Good True ok) : SemR.Kin Eq ok sem sem where
  guard _ _ _ _ _ e := e ▸ (h.guard _ _ _ _).kin
  action _ _ _ _ _ e := e ▸ (h.action _ _ _ _).kin
  handler _ _ _ _ _ _ _ e := e ▸ (h.handler _ _ _ _ _ _).kin
  alive _ _ _ e := e ▸ rfl
  nonePayload := rfl

/-- The machine object `s` of the modular header is a picture of the configuration `c`, the rest of the
program being the same in the sense of `U`. -/
abbrev DepictsIn (M : Machine) (U : W → W' → Prop) (c : Conf P W') (s : SM P W) : Prop :=
  Portrait M M.entries M.events U c s

/-- The same outcome. -/
abbrev AgreesIn {α β : Type} (M : Machine) (U : W → W' → Prop) (V : α → β → Prop) (r : Res (SM P W) α)
    (q : Res (Conf P W') β) : Prop :=
  AgreesOn M M.entries M.events U V r q

variable {M : Machine} {sem : SemR P W} {semC : SemR P W'} {U : W → W' → Prop} {s : SM P W} {c : Conf P W'}
  {call : Op P → SM P W → Res (SM P W) Bool} {callC : Op P → Conf P W' → Res (Conf P W') Bool}

/-- What calls from inside do, those that are `ok`, is the same on both sides. -/
def EchoOn (M : Machine) (E : List Dep → EventTy → Name → StTy → List Entry) (evs : List EventTy)
    (U : W → W' → Prop) (ok : Op P → Prop) (call : Op P → SM P W → Res (SM P W) Bool)
    (callC : Op P → Conf P W' → Res (Conf P W') Bool) : Prop :=
  ∀ op, ok op → ∀ (c : Conf P W') (s : SM P W), Portrait M E evs U c s →
    AgreesOn M E evs U Eq (call op s) (callC op c)

/-- The same for the modular header. -/
abbrev Echo (M : Machine) (U : W → W' → Prop) (call : Op P → SM P W → Res (SM P W) Bool)
    (callC : Op P → Conf P W' → Res (Conf P W') Bool) : Prop :=
  EchoOn M M.entries M.events U (OpOk M) call callC

section
variable {E : List Dep → EventTy → Name → StTy → List Entry} {evs : List EventTy} {ok : Op P → Prop}

/-! ## Callbacks -/

theorem EchoOn.play (he : EchoOn M E evs U ok call callC) {α : Type} : ∀ (pr : Prog P W α) (pr' : Prog P W' α),
    pr.Kin U ok pr' → ∀ {c : Conf P W'} {s : SM P W}, Portrait M E evs U c s →
    AgreesOn M E evs U Eq (runProg call pr s) (Machine.enact callC pr' c) := by
  intro pr
  induction pr with
  | ret a p w =>
    intro pr' hg c s h
    cases pr' <;> first | exact hg.elim | skip
    obtain ⟨rfl, rfl, hw⟩ := hg
    exact ⟨rfl, { h with world := hw }⟩
  | throw x w =>
    intro pr' hg c s h
    cases pr' <;> first | exact hg.elim | skip
    obtain ⟨rfl, hw⟩ := hg
    exact ⟨rfl, { h with world := hw }⟩
  | ub =>
    intro pr' hg c s h
    cases pr' <;> first | exact hg.elim | skip
    rfl
  | call op w k ih =>
    intro pr' hg c s h
    cases pr' with
    | call op' w' k' =>
      obtain ⟨rfl, ho, hw, hk⟩ := hg
      have h' : Portrait M E evs U { c with world := w' } { s with world := w } := { h with world := hw }
      have hc := he op ho _ _ h'
      unfold runProg Machine.enact
      revert hc
      cases call op { s with world := w } <;> cases callC op { c with world := w' } <;> intro hc <;>
        first | exact hc.elim | skip
      · obtain ⟨rfl, hc⟩ := hc
        exact ih _ _ _ (hk _ _ _ hc.world) hc
      · obtain ⟨rfl, hc⟩ := hc
        exact ih _ _ _ (hk _ _ _ hc.world) hc
      · exact hc
      · trivial
    | _ => exact hg.elim

theorem EchoOn.noted (he : EchoOn M E evs U ok call callC) {α : Type} {pr : Prog P W α} {pr' : Prog P W' α}
    (hg : pr.Kin U ok pr') {rec note : Option α → Call P} (hn : ∀ a, (rec a).bare = note a)
    (h : Portrait M E evs U c s) :
    AgreesOn M E evs U Eq (runCb call pr rec s) (Machine.enactNoted callC pr' note c) := by
  have := he.play pr pr' hg h
  unfold runCb Machine.enactNoted
  have add : ∀ {c : Conf P W'} {s : SM P W} (a : Option α), Portrait M E evs U c s →
      Portrait M E evs U { c with calls := c.calls ++ [note a] } { s with trace := s.trace ++ [rec a] } := by
    intro c s a h
    refine { h with trace := ?_ }
    show List.map _ (s.trace ++ [rec a]) = c.calls ++ [note a]
    rw [List.map_append, h.trace, ← hn]; rfl
  revert this
  cases runProg call pr s <;> cases Machine.enact callC pr' c <;> intro h <;>
    first | exact h.elim | skip
  · obtain ⟨rfl, h⟩ := h
    exact ⟨rfl, add _ h⟩
  · exact ⟨h.1, add _ h.2⟩
  · exact h
  · trivial

theorem Portrait.presentR (h : Portrait M E evs U c s) (hg : SemR.Kin U ok sem semC) (st : StTy) :
    objOkR M sem st s = M.presentR semC st c := by
  unfold objOkR Machine.presentR
  rw [Machine.defaultCtor_eq, hg.alive st _ _ h.world]

theorem Portrait.askR (h : Portrait M E evs U c s) (he : EchoOn M E evs U ok call callC) (hg : SemR.Kin U ok sem semC)
    {x : Exec} {d : Dep} {cd : Cand} {t : XRow} {l : Name × StTy}
    (hgu : x.guard = t.guard) (hs : x.src = cd.src) (hd : x.dst = l.2) (hi : x.internal = t.internal)
    (hp : x.dep = d) (ev : EventTy) (p : P) :
    AgreesOn M E evs U Eq (execGuardR M sem call x ev p s) (M.askR semC callC ev d cd t l p c) := by
  unfold execGuardR Machine.askR
  rw [hgu, hs, hd, hi, hp]
  cases t.guard with
  | none => exact ⟨rfl, h⟩
  | some g =>
    dsimp only
    rw [h.presentR hg, h.presentR hg]
    by_cases hk : (M.presentR semC cd.src c && M.presentR semC (if t.internal then cd.src else l.2) c) = true
    · rw [if_pos hk, if_pos hk]
      exact he.noted (hg.guard _ _ _ _ _ h.world) (fun _ => rfl) h
    · rw [if_neg hk, if_neg hk]; rfl

theorem Portrait.performR (he : EchoOn M E evs U ok call callC) (hg : SemR.Kin U ok sem semC) (args : Args)
    (cs : List (Phase × Cb)) : ∀ {c : Conf P W'} {s : SM P W}, Portrait M E evs U c s → ∀ p : P,
    AgreesOn M E evs U Eq (runCbsR sem call args cs p s) (Machine.performR semC callC args cs p c) := by
  induction cs with
  | nil => intro c s h p; exact ⟨rfl, h⟩
  | cons x cs ih =>
    intro c s h p
    obtain ⟨ph, a⟩ := x
    unfold runCbsR Machine.performR
    refine (he.noted (hg.action _ _ _ _ _ h.world) (fun _ => rfl) h).bind fun a b s c hab h => ?_
    subst hab
    exact ih h _

theorem Portrait.takeR (h : Portrait M E evs U c s) (hM : M.Laid) (he : EchoOn M E evs U ok call callC)
    (hg : SemR.Kin U ok sem semC) (r : Nat) {x : Exec} {d : Dep} {cd : Cand}
    {t : XRow} {l : Name × StTy} (hl : l.2 ∈ M.states) {e : Entry} (hto : e.to = M.comb l.1 l.2)
    (hh : e.history = Machine.toHistory t.target) (hei : e.internal = t.internal)
    (ha : x.action = M.toRun t) (hs : x.src = cd.src) (hd : x.dst = l.2) (hi : x.internal = t.internal)
    (hp : x.dep = d) (ev : EventTy) (p : P) :
    AgreesOn M E evs U Eq (fireR M sem call r ev e x p s) (M.takeR semC callC r ev d cd t l p c) := by
  unfold Hsm.fireR Machine.takeR
  refine (Portrait.travel h hM r hl hto hh hei).bind fun _ _ s c _ h => ?_
  unfold execActionR
  rw [ha, actionArgs_eq hs hd hi hp, hs]
  cases M.toRun t with
  | none => exact ⟨rfl, h⟩
  | some cs =>
    dsimp only
    rw [Portrait.presentR h hg]
    split
    · exact Portrait.performR he hg _ cs h p
    · rfl

end

/-! ## Events -/

theorem entries_length (hM : M.Regular) (deps : List Dep) (ev : EventTy) (l : Name × StTy) :
    (M.entries deps ev l.1 l.2).length = deps.length * (M.cands ev l.1 l.2).length := by
  rw [Machine.entries_pairs]
  have key : ∀ cs : List (Dep × Cand), Sound M cs →
      (cs.filterMap fun x => M.entryOfCand x.1 x.2).length = cs.length := by
    intro cs
    induction cs with
    | nil => intro _; rfl
    | cons x cs ih =>
      intro h
      have ih := ih fun y hy => h y (List.mem_cons_of_mem _ hy)
      have : ∃ e, M.entryOfCand x.1 x.2 = some e := by
        rcases h x List.mem_cons_self with hx | ⟨t, l, hr, hl, _⟩
        · rw [hx]; exact ⟨_, rfl⟩
        · obtain ⟨e, _, he, _⟩ := entryOfCand_full (M := M) (d := x.1) hr hl
          exact ⟨e, he⟩
      obtain ⟨e, he⟩ := this
      rw [List.filterMap_cons_some (f := fun x : Dep × Cand => M.entryOfCand x.1 x.2) he,
        List.length_cons, ih, List.length_cons]
  rw [key _ (sound_cands hM deps ev l)]
  induction deps with
  | nil => simp
  | cons d ds ih =>
    rw [List.flatMap_cons, List.length_append, ih, List.length_map, List.length_cons, Nat.succ_mul,
      Nat.add_comm]

/-- The cell a loop runs over is as long as it was just if no dependency was added. -/
theorem cell_same (hM : M.Regular) (h : DepictsIn M U c s) (ev : EventTy) {l : Name × StTy}
    (hp : l.1 ∈ M.composites) (hl : l.2 ∈ M.states) (hn : M.cands ev l.1 l.2 ≠ []) (deps : List Dep) :
    (s.table ev (M.comb l.1 l.2)).length = (M.entries deps ev l.1 l.2).length ↔
      c.deps.length = deps.length := by
  rw [h.table ev l.1 l.2 hp hl, entries_length hM, entries_length hM]
  have := List.length_pos_iff.2 hn
  constructor
  · exact Nat.eq_of_mul_eq_mul_right this
  · intro h; rw [h]

section
variable {E : List Dep → EventTy → Name → StTy → List Entry} {evs : List EventTy} {ok : Op P → Prop}

theorem Portrait.attemptR (hM : M.Laid) (he : EchoOn M E evs U ok call callC) (hg : SemR.Kin U ok sem semC) (r : Nat)
    (ev : EventTy) {k n m : Nat}
    (hk : ∀ {c : Conf P W'} {s : SM P W}, Portrait M E evs U c s →
      ((s.table ev k).length = n ↔ c.deps.length = m)) : ∀ (cs : List (Dep × Cand)),
    Sound M cs → ∀ {c : Conf P W'} {s : SM P W}, Portrait M E evs U c s → ∀ p : P,
    AgreesOn M E evs U Eq (tryEntriesR M sem call r ev k n
        (cs.filterMap fun x => M.entryOfCand x.1 x.2) p s)
      (M.attemptR semC callC false r ev m cs p c) := by
  intro cs
  induction cs with
  | nil => intro _ c s h p; exact ⟨rfl, h⟩
  | cons x cs ih =>
    intro hcs c s h p
    have ih := @ih fun y hy => hcs y (List.mem_cons_of_mem _ hy)
    rcases hcs x List.mem_cons_self with hx | ⟨t, l, hr, hl, hls⟩
    · obtain ⟨d, cd⟩ := x
      cases hx
      rw [List.filterMap_cons_some (f := fun x : Dep × Cand => M.entryOfCand x.1 x.2)
        (show M.entryOfCand d .defer = some _ from rfl)]
      unfold tryEntriesR Machine.attemptR
      refine ⟨rfl, { h with queue := ?_ }⟩
      show s.queue ++ _ = c.waiting ++ _
      rw [h.queue]
    · obtain ⟨d, cd⟩ := x
      obtain ⟨e, x, hen, htr, hdf, hto, hh, hei, hgu, ha, hs, hd, hi, hpd⟩ :=
        entryOfCand_full (M := M) (d := d) hr hl
      rw [List.filterMap_cons_some (f := fun x : Dep × Cand => M.entryOfCand x.1 x.2) (b := e) hen]
      unfold tryEntriesR Machine.attemptR
      rw [hdf, htr, show cd.row? = some t from hr]
      dsimp only
      rw [hl]
      simp only [Bool.false_eq_true, if_false]
      refine (Portrait.askR h he hg hgu hs hd hi hpd ev p).bind fun a b s c hab h => ?_
      subst hab
      split
      · exact (Portrait.takeR h hM he hg r hls hto hh hei ha hs hd hi hpd ev a.2).bind
          fun a b s c hab h => ⟨by rw [hab], h⟩
      · have := hk h
        by_cases hc : c.deps.length = m
        · rw [if_pos (this.2 hc), if_pos hc]
          exact ih h a.2
        · rw [if_neg fun h' => hc (this.1 h'), if_neg hc]
          rfl

theorem Portrait.attemptAnonR (hM : M.Laid) (he : EchoOn M E evs U ok call callC) (hg : SemR.Kin U ok sem semC)
    (r : Nat) {k n m : Nat}
    (hk : ∀ {c : Conf P W'} {s : SM P W}, Portrait M E evs U c s →
      ((s.table .none k).length = n ↔ c.deps.length = m)) : ∀ (cs : List (Dep × Cand)),
    Sound M cs → ∀ {c : Conf P W'} {s : SM P W}, Portrait M E evs U c s → ∀ p : P,
    AgreesOn M E evs U (fun a b => b.1 = (if a.1 then .fired else .rejected) ∧ b.2 = a.2)
      (tryAnonR M sem call r k n
        (cs.filterMap fun x => M.entryOfCand x.1 x.2) p s)
      (M.attemptR semC callC true r .none m cs p c) := by
  intro cs
  induction cs with
  | nil => intro _ c s h p; exact ⟨⟨rfl, rfl⟩, h⟩
  | cons x cs ih =>
    intro hcs c s h p
    have ih := @ih fun y hy => hcs y (List.mem_cons_of_mem _ hy)
    rcases hcs x List.mem_cons_self with hx | ⟨t, l, hr, hl, hls⟩
    · obtain ⟨d, cd⟩ := x
      cases hx
      rw [List.filterMap_cons_some (f := fun x : Dep × Cand => M.entryOfCand x.1 x.2)
        (show M.entryOfCand d .defer = some _ from rfl)]
      rfl
    · obtain ⟨d, cd⟩ := x
      obtain ⟨e, x, hen, htr, hdf, hto, hh, hei, hgu, ha, hs, hd, hi, hpd⟩ :=
        entryOfCand_full (M := M) (d := d) hr hl
      rw [List.filterMap_cons_some (f := fun x : Dep × Cand => M.entryOfCand x.1 x.2) (b := e) hen]
      unfold tryAnonR Machine.attemptR
      rw [htr, show cd.row? = some t from hr]
      dsimp only
      rw [hl]
      dsimp only
      refine (Portrait.askR h he hg hgu hs hd hi hpd .none p).bind fun a b s c hab h => ?_
      subst hab
      split
      · exact (Portrait.takeR h hM he hg r hls hto hh hei ha hs hd hi hpd .none a.2).bind
          fun a b s c hab h => ⟨⟨rfl, hab.symm⟩, h⟩
      · have := hk h
        by_cases hc : c.deps.length = m
        · rw [if_pos (this.2 hc), if_pos hc]
          exact ih h a.2
        · rw [if_neg fun h' => hc (this.1 h'), if_neg hc]
          rfl

theorem Portrait.lookupR (h : Portrait M E evs U c s) (hM : M.Laid) (ev : EventTy) {r : Nat} {α β : Type}
    {V : α → β → Prop} {f : Nat → List Entry → SM P W → Res (SM P W) α}
    {g : Name × StTy → Conf P W' → Res (Conf P W') β}
    (hf : ∀ l : Name × StTy, l.1 ∈ M.composites → l.2 ∈ M.states →
      AgreesOn M E evs U V (f (M.comb l.1 l.2) (E c.deps ev l.1 l.2) s) (g l c)) :
    AgreesOn M E evs U V ((readCur r s).bind fun k s => if k < M.size then f k (s.table ev k) s else .ub .bounds)
      ((Machine.seek r c).bind fun l c => if l.1 ∈ M.composites then g l c else .ub .bounds) := by
  unfold Machine.seek readCur
  rw [h.cur, List.getElem?_map]
  cases hc : c.slots[r]? with
  | none => rfl
  | some o =>
    cases o with
    | none => rfl
    | some l =>
      have hls := h.slots l (List.mem_of_getElem? hc)
      show AgreesOn M E evs U V (if M.comb l.1 l.2 < M.size then _ else _) (if _ then _ else _)
      by_cases hp : l.1 ∈ M.composites
      · rw [if_pos hp, if_pos (hM.comb_lt.2 ⟨hp, hls⟩), h.table ev l.1 l.2 hp hls]
        exact hf l hp hls
      · rw [if_neg hp, if_neg fun h' => hp (hM.comb_lt.1 h').1]
        rfl

end

theorem Depicts.visitR (h : DepictsIn M U c s) (hM : M.Regular) (he : Echo M U call callC)
    (hg : SemR.Kin U (OpOk M) sem semC) (r : Nat) (ev : EventTy) (p : P) :
    AgreesIn M U Eq (regionStepR M sem call r ev p s) (M.visitR semC callC false r ev p c) := by
  unfold regionStepR Machine.visitR
  refine Portrait.lookupR h hM.laid ev (f := fun k es s => match es with
      | [] => .ok (.none, p) s
      | es => tryEntriesR M sem call r ev k es.length es p s)
    (g := fun l c => if M.cands ev l.1 l.2 = [] then .ok (.none, p) c
      else M.attemptR semC callC false r ev c.deps.length
        (c.deps.flatMap fun d => (M.cands ev l.1 l.2).map fun cd => (d, cd)) p c) ?_
  intro l hp hls
  by_cases hn : M.cands ev l.1 l.2 = []
  · rw [if_pos hn, (Machine.entries_eq_nil hM h.bound).2 hn]
    exact ⟨rfl, h⟩
  · have hne : M.entries c.deps ev l.1 l.2 ≠ [] := fun h' =>
      hn ((Machine.entries_eq_nil hM h.bound).1 h')
    have := Portrait.attemptR hM.laid he hg r ev (fun h => cell_same hM h ev hp hls hn c.deps) _ (sound_cands hM c.deps ev l) h p
    rw [← Machine.entries_pairs] at this
    rw [if_neg hn]
    revert this hne
    cases M.entries c.deps ev l.1 l.2 with
    | nil => intro h' _; exact absurd rfl h'
    | cons e es => intro _ h; exact h

theorem Depicts.sweepR (hM : M.Regular) (he : Echo M U call callC) (hg : SemR.Kin U (OpOk M) sem semC)
    (ev : EventTy) : ∀ (rs : List Nat) (os : List RegionOut)
    (agf ati : Bool), Flags os agf ati → ∀ {c : Conf P W'} {s : SM P W}, DepictsIn M U c s → ∀ p : P,
    AgreesIn M U (fun a b => b.2 = a.2 ∧
        ((a.1 = .deferred ∧ RegionOut.deferred ∈ b.1) ∨
          ∃ agf ati, a.1 = .done agf ati ∧ Flags b.1 agf ati))
      (regionLoopR M sem call ev rs agf ati p s) (M.sweepR semC callC ev rs os p c) := by
  intro rs
  induction rs with
  | nil => intro os agf ati hF c s h p; exact ⟨⟨rfl, Or.inr ⟨_, _, rfl, hF⟩⟩, h⟩
  | cons r rs ih =>
    intro os agf ati hF c s h p
    unfold regionLoopR Machine.sweepR
    refine (Depicts.visitR h hM he hg r ev p).bind fun a b s c hab h => ?_
    subst hab
    obtain ⟨o, p⟩ := a
    have hF' := fun ho => hF.snoc (o := o) ho
    cases o with
    | none =>
      rw [if_neg (by simp)]
      have := hF' (by simp)
      simp only [ne_eq, reduceCtorEq, not_false_eq_true, decide_true, Bool.and_true] at this
      exact ih _ _ _ this h p
    | rejected =>
      rw [if_neg (by simp)]
      have := hF' (by simp)
      simp only [ne_eq, reduceCtorEq, not_false_eq_true, decide_true, Bool.and_true, decide_false,
        Bool.and_false] at this
      exact ih _ _ _ this h p
    | fired =>
      rw [if_neg (by simp)]
      have := hF' (by simp)
      simp only [ne_eq, reduceCtorEq, not_true_eq_false, decide_false, Bool.and_false] at this
      exact ih _ _ _ this h p
    | deferred =>
      rw [if_pos rfl]
      exact ⟨⟨rfl, Or.inl ⟨rfl, by simp⟩⟩, h⟩

theorem Depicts.roundR (hM : M.Regular) (he : Echo M U call callC) (hg : SemR.Kin U (OpOk M) sem semC) :
    ∀ (rs : List Nat) (os : List RegionOut) (agf : Bool),
    agf = decide (RegionOut.fired ∉ os) → ∀ {c : Conf P W'} {s : SM P W}, DepictsIn M U c s → ∀ p : P,
    AgreesIn M U (fun a b => b.2 = a.2 ∧ (b.1 = true ↔ a.1 = some false))
      (anonRoundR M sem call rs agf p s) (M.roundR semC callC rs os p c) := by
  intro rs
  induction rs with
  | nil =>
    intro os agf hF c s h p
    refine ⟨⟨rfl, ?_⟩, h⟩
    subst hF
    simp
  | cons r rs ih =>
    intro os agf hF c s h p
    unfold anonRoundR Machine.roundR Machine.visitR
    rw [Res.bind_assoc]
    have := Portrait.lookupR h hM.laid .none (r := r)
      (f := fun k es s => match es with
        | [] => .ok (none, p) s
        | es => (tryAnonR M sem call r k es.length es p s).bind fun fp s =>
            anonRoundR M sem call rs (agf && !fp.1) fp.2 s)
      (g := fun l c => (if M.cands .none l.1 l.2 = [] then .ok (.none, p) c
        else M.attemptR semC callC true r .none c.deps.length
          (c.deps.flatMap fun d => (M.cands .none l.1 l.2).map fun cd => (d, cd)) p c).bind
            fun o c => if o.1 = .none then .ok (false, o.2) c
              else M.roundR semC callC rs (os ++ [o.1]) o.2 c)
      (V := fun a b => b.2 = a.2 ∧ (b.1 = true ↔ a.1 = some false)) ?_
    · revert this
      generalize (readCur r s).bind _ = x
      intro h
      have e : ∀ l : Name × StTy, ∀ c : Conf P W', ((if l.1 ∈ M.composites then
          if M.cands .none l.1 l.2 = [] then .ok (.none, p) c
          else M.attemptR semC callC true r .none c.deps.length
            (c.deps.flatMap fun d => (M.cands .none l.1 l.2).map fun cd => (d, cd)) p c
          else .ub .bounds : Res (Conf P W') (RegionOut × P)).bind
            fun o c => if o.1 = .none then .ok (false, o.2) c
              else M.roundR semC callC rs (os ++ [o.1]) o.2 c) =
          if l.1 ∈ M.composites then (if M.cands .none l.1 l.2 = [] then .ok (.none, p) c
            else M.attemptR semC callC true r .none c.deps.length
              (c.deps.flatMap fun d => (M.cands .none l.1 l.2).map fun cd => (d, cd)) p c).bind
              fun o c => if o.1 = .none then .ok (false, o.2) c
                else M.roundR semC callC rs (os ++ [o.1]) o.2 c
          else .ub .bounds := by
        intro l c
        split <;> rfl
      simp only [e]
      exact h
    · intro l hp hls
      by_cases hn : M.cands .none l.1 l.2 = []
      · rw [if_pos hn, (Machine.entries_eq_nil hM h.bound).2 hn]
        exact ⟨⟨rfl, by simp⟩, h⟩
      · have hne : M.entries c.deps .none l.1 l.2 ≠ [] := fun h' =>
          hn ((Machine.entries_eq_nil hM h.bound).1 h')
        have := Portrait.attemptAnonR hM.laid he hg r (fun h => cell_same hM h .none hp hls hn c.deps) _ (sound_cands hM c.deps .none l) h p
        rw [← Machine.entries_pairs] at this
        rw [if_neg hn]
        revert this hne
        cases M.entries c.deps .none l.1 l.2 with
        | nil => intro h' _; exact absurd rfl h'
        | cons e es =>
          intro _ h
          refine h.bind fun a b s c hab h => ?_
          obtain ⟨b1, b2⟩ := b
          obtain ⟨h1, h2⟩ := hab
          dsimp only at h1 h2
          subst h1 h2
          rw [if_neg (by dsimp only; split <;> simp)]
          refine ih _ _ ?_ h a.2
          subst hF
          cases a.1 <;> simp

theorem Depicts.settleR (hM : M.Regular) (he : Echo M U call callC) (hg : SemR.Kin U (OpOk M) sem semC)
    (fuel : Nat) : ∀ {c : Conf P W'} {s : SM P W}, DepictsIn M U c s →
    ∀ p : P, AgreesIn M U (fun _ _ => True) (anonLoopR M sem call fuel p s) (M.settleR semC callC fuel p c) := by
  induction fuel with
  | zero => intro c s h p; trivial
  | succ n ih =>
    intro c s h p
    unfold anonLoopR Machine.settleR
    rw [h.taking]
    refine (Depicts.roundR hM he hg _ [] true (by simp) h p).bind ?_
    rintro ⟨a1, a2⟩ ⟨b1, b2⟩ s c ⟨h1, h2⟩ h
    dsimp only at h1 h2 ⊢
    subst h1
    cases a1 with
    | none =>
      rw [if_neg (by simp [h2])]
      exact ⟨trivial, h⟩
    | some b =>
      cases b with
      | true => rw [if_neg (by simp [h2])]; exact ⟨trivial, h⟩
      | false => rw [if_pos (by simp [h2])]; exact ih h _

theorem Depicts.handleR (h : DepictsIn M U c s) (hM : M.Regular) (he : Echo M U call callC)
    (hg : SemR.Kin U (OpOk M) sem semC) (fuel : Nat) (ev : EventTy) (p : P) :
    AgreesIn M U (fun a b => b.2 = a.2 ∧ Reports a.1 b.1) (processInternalR M sem call fuel ev p s)
      (M.handleR semC callC fuel ev p c) := by
  unfold processInternalR Machine.handleR
  rw [h.taking]
  refine (Depicts.sweepR hM he hg ev _ [] true true ⟨by simp, by simp, by simp⟩ h p).bind ?_
  rintro ⟨a1, a2⟩ ⟨b1, b2⟩ s c ⟨h1, h2⟩ h
  dsimp only at h1 h2 ⊢
  subst h1
  rcases h2 with ⟨rfl, hd⟩ | ⟨agf, ati, rfl, hF⟩
  · rw [if_neg fun h' => h'.1 hd]
    exact ⟨⟨rfl, hd⟩, h⟩
  · obtain ⟨h1, h2, h3⟩ := hF
    dsimp only
    by_cases hall : ∀ o ∈ b1, o = RegionOut.none
    · have hnf : RegionOut.fired ∉ b1 := fun h' => by cases hall _ h'
      rw [h2, decide_eq_true hall, if_pos rfl, if_neg fun h' => hnf h'.2.1]
      exact ⟨⟨rfl, hall⟩, h⟩
    · rw [h2, decide_eq_false hall]
      simp only [Bool.false_eq_true, if_false]
      by_cases hf : RegionOut.fired ∈ b1
      · rw [h1, decide_eq_false (not_not.2 hf)]
        simp only [Bool.false_eq_true, if_false]
        unfold processAnonR
        rw [Machine.hasAnon_eq]
        by_cases ha : M.anonymous = true
        · rw [if_pos ha, if_pos ⟨h3, hf, ha⟩]
          exact (hg.nonePayload ▸ Depicts.settleR hM he hg fuel h _ : AgreesIn M U (fun _ _ => True) _ _).bind
            fun _ _ s c _ h => ⟨⟨rfl, h3, hf⟩, h⟩
        · rw [if_neg ha, if_neg fun h' => ha h'.2.2]
          exact ⟨⟨rfl, h3, hf⟩, h⟩
      · rw [h1, decide_eq_true hf, if_pos rfl, if_neg fun h' => hf h'.2.1]
        refine ⟨⟨rfl, h3, hf, ?_⟩, h⟩
        have ⟨o, ho, hne⟩ : ∃ o ∈ b1, o ≠ RegionOut.none := by
          by_contra hcon
          exact hall fun o ho => by
            by_contra hne
            exact hcon ⟨o, ho, hne⟩
        cases o with
        | none => exact absurd rfl hne
        | rejected => exact ho
        | fired => exact absurd ho hf
        | deferred => exact absurd ho h3

section
variable {E : List Dep → EventTy → Name → StTy → List Entry} {evs : List EventTy} {ok : Op P → Prop}

theorem Portrait.complainR (h : Portrait M E evs U c s) (hM : M.Laid) (he : EchoOn M E evs U ok call callC)
    (hg : SemR.Kin U ok sem semC) {ev : EventTy} (hev : ev ∈ evs) (p : P) :
    AgreesOn M E evs U (fun _ _ => True) (callHandlerR M sem call ev p s) (M.complainR semC callC ev p c) := by
  unfold callHandlerR Machine.complainR
  cases hh : (M.decl M.root).handler with
  | none => exact ⟨trivial, h⟩
  | some hd =>
    dsimp only
    refine (h.seek 0).bind ?_
    rintro n l s c ⟨rfl, hls⟩ h
    by_cases hp : l.1 ∈ M.composites
    · rw [if_pos hp, if_pos (hM.comb_lt.2 ⟨hp, hls⟩),
        h.handlers (by rw [hh]; rfl) ev hev l.1 hp l.2 hls]
      dsimp only
      rw [Portrait.presentR h hg]
      split
      · exact (he.noted (hg.handler _ _ _ _ _ _ _ h.world) (fun _ => rfl) h).bind fun _ _ s c _ h => ⟨trivial, h⟩
      · rfl
    · rw [if_neg hp, if_neg fun h' => hp (hM.comb_lt.1 h').1]
      exact ⟨rfl, h⟩

end

theorem Depicts.replayR (h : DepictsIn M U c s) (hM : M.Regular) (he : Echo M U call callC)
    (hg : SemR.Kin U (OpOk M) sem semC) (fuel : Nat) :
    AgreesIn M U (fun _ _ => True) (processDeferredR M sem call fuel s) (M.replayR semC callC fuel c) := by
  unfold processDeferredR Machine.replayR
  rw [Machine.hasDefer_eq, h.queue]
  cases hq : c.waiting with
  | nil => split <;> exact ⟨trivial, h⟩
  | cons x q =>
    obtain ⟨ev, p⟩ := x
    dsimp only
    split
    · have h' : DepictsIn M U { c with waiting := q } { s with queue := q } := { h with queue := rfl }
      exact (Depicts.handleR h' hM he hg fuel ev p).bind fun _ _ s c _ h => ⟨trivial, h⟩
    · exact ⟨trivial, h⟩

theorem Depicts.receiveR (h : DepictsIn M U c s) (hM : M.Regular) (he : Echo M U call callC)
    (hg : SemR.Kin U (OpOk M) sem semC) (fuel : Nat) {ev : EventTy} (hev : ev ∈ M.events) (p : P) :
    AgreesIn M U Eq (processEventR M sem call fuel ev p s) (M.receiveR semC callC fuel ev p c) := by
  unfold processEventR Machine.receiveR
  refine (Depicts.handleR h hM he hg fuel ev p).bind ?_
  rintro ⟨pr, a2⟩ ⟨os, b2⟩ s c ⟨h1, h2⟩ h
  dsimp only at h1 h2 ⊢
  subst h1
  cases pr with
  | deferred => rw [if_pos (show RegionOut.deferred ∈ os from h2)]; exact ⟨rfl, h⟩
  | processed =>
    rw [if_neg h2.1, if_pos h2.2]
    exact (Depicts.replayR h hM he hg fuel).bind fun _ _ s c _ h => ⟨rfl, h⟩
  | allGuardsFailed =>
    rw [if_neg h2.1, if_neg h2.2.1, if_pos h2.2.2]
    exact ⟨rfl, h⟩
  | allTransitionsInvalid =>
    have h2 : ∀ o ∈ os, o = RegionOut.none := h2
    have hno : ∀ o : RegionOut, o ≠ .none → o ∉ os := fun o ho h' => ho (h2 o h')
    rw [if_neg (hno _ (by simp)), if_neg (hno _ (by simp)), if_neg (hno _ (by simp))]
    exact (Portrait.complainR h hM.laid he hg hev b2).bind fun _ _ s c _ h => ⟨rfl, h⟩

end

/-! ## Calls and histories -/

section
variable {P W : Type} {M : Machine} {sem : SemR P W} {s : SM P W} {c : Conf P W}
  {call : Op P → SM P W → Res (SM P W) Bool} {callC : Op P → Conf P W → Res (Conf P W) Bool}

/-- C83, events: if calls from inside agree, so does the call outside. -/
theorem C83_event (h : Depicts M c s) (hM : M.Regular) (he : Echo M Eq call callC)
    (hg : sem.Good True (OpOk M)) (fuel : Nat) {ev : EventTy} (hev : ev ∈ M.events) (p : P) :
    Agrees M Eq (processEventR M sem call fuel ev p s) (M.receiveR sem callC fuel ev p c) :=
  Depicts.receiveR h hM he hg.kin fuel hev p

/-- C83, calls: one call on a machine object and on the configuration it depicts, with all calls that
callbacks make meanwhile. -/
theorem C83_step (h : Depicts M c s) (hM : M.Regular) (hS : M.ScopesReal) (hg : sem.Good True (OpOk M))
    (fuel n : Nat) {op : Op P} (hop : OpOk M op) :
    Agrees M Eq (stepR M sem fuel n op s) (M.execR sem fuel n op c) := by
  induction n generalizing op c s with
  | zero => trivial
  | succ n ih =>
    cases op with
    | process ev p =>
      exact C83_event (call := stepR M sem fuel n) (callC := M.execR sem fuel n) h hM
        (fun op hop c s h => ih h hop) hg fuel
        (by rw [Machine.events_eq]; exact hop) p
    | set r p st => exact Portrait.jump h r p (Machine.states_eq ▸ hop.2)
    | setDependency d => exact Portrait.extend h hM hS d

/-- C83: whatever is called on a newly constructed machine, one call after the other, also after
exceptions, the interpreter tells what it looks like, and if undefined behaviour was met or a loop
did not end on the way. -/
theorem C83_history (hM : M.Regular) (hg : sem.Good True (OpOk M)) {d : Dep} {w : W}
    (h : construct M d w = .ok s) (fuel n : Nat) (ops : List (Op P)) (hops : ∀ op ∈ ops, OpOk M op) :
    match runAll (stepR M sem fuel n) ops s, M.execAllR sem fuel n ops (M.fresh d w) with
    | some s', some c => Depicts M c s'
    | none, none => True
    | _, _ => False := by
  have hS : M.ScopesReal := ((C06_construct hM d w).1.1 ⟨s, h⟩).1
  have h0 := C77_construct hM h
  revert h0
  generalize M.fresh d w = c
  clear h
  induction ops generalizing s c with
  | nil => intro h0; exact h0
  | cons op ops ih =>
    intro h0
    have hc := C83_step (sem := sem) h0 hM hS hg fuel n (hops op List.mem_cons_self)
    have ih := fun {s} => @ih s fun op hop => hops op (List.mem_cons_of_mem _ hop)
    unfold runAll Machine.execAllR
    revert hc
    cases stepR M sem fuel n op s <;> cases M.execR sem fuel n op c <;> intro hc <;>
      first | exact hc.elim | exact ih _ hc.2 | trivial

/-- C83, undefined behaviour: a call is undefined exactly if the interpreter says so, and of the same
kind; it does not return exactly if the interpreter's does not. -/
theorem C83_undefined (h : Depicts M c s) (hM : M.Regular) (hS : M.ScopesReal)
    (hg : sem.Good True (OpOk M)) (fuel n : Nat) {op : Op P} (hop : OpOk M op) :
    (∀ u, stepR M sem fuel n op s = .ub u ↔ M.execR sem fuel n op c = .ub u) ∧
      (stepR M sem fuel n op s = .timeout ↔ M.execR sem fuel n op c = .timeout) := by
  have hc := C83_step (sem := sem) h hM hS hg fuel n hop
  revert hc
  cases stepR M sem fuel n op s <;> cases M.execR sem fuel n op c <;> intro hc <;>
    first | exact hc.elim | simp
  exact hc

/-- C83: every machine object a client can hold depicts a configuration. -/
theorem C83_reach (hM : M.Regular) (hg : sem.Good True (OpOk M)) {d : Dep} {ops : List (Op P)}
    (h : RunToR M sem d ops s) : M.ScopesReal ∧ ∃ c, Depicts M c s := by
  induction h with
  | @init w s h => exact ⟨((C06_construct hM d w).1.1 ⟨s, h⟩).1, _, C77_construct hM h⟩
  | @ok s t ops op fuel n b hr hop h ih =>
    obtain ⟨hS, c, hc⟩ := ih
    have hs := C83_step (sem := sem) hc hM hS hg fuel n hop
    rw [h] at hs
    refine ⟨hS, ?_⟩
    revert hs
    cases M.execR sem fuel n op c <;> intro hs <;> first | exact hs.elim | exact ⟨_, hs.2⟩
  | @throw s t ops op fuel n x hr hop h ih =>
    obtain ⟨hS, c, hc⟩ := ih
    have hs := C83_step (sem := sem) hc hM hS hg fuel n hop
    rw [h] at hs
    refine ⟨hS, ?_⟩
    revert hs
    cases M.execR sem fuel n op c <;> intro hs <;> first | exact hs.elim | exact ⟨_, hs.2⟩
  | @world s ops hr w ih =>
    obtain ⟨hS, c, hc⟩ := ih
    exact ⟨hS, { c with world := w }, { hc with world := rfl }⟩

end

/-! ## Callbacks without calls -/

section
variable {P W : Type} {M : Machine} {sem : Sem P W}
  {callC : Op P → Conf P W → Res (Conf P W) Bool}

namespace Machine

theorem askR_lift (ev : EventTy) (d : Dep) (cd : Cand) (t : XRow) (l : Name × StTy) (p : P)
    (c : Conf P W) : M.askR sem.lift callC ev d cd t l p c = M.ask sem ev d cd t l p c := by
  unfold askR ask
  cases t.guard with
  | none => rfl
  | some g =>
    dsimp only
    show (if (M.present sem _ c && M.present sem _ c) = true then _ else _) = _
    refine ite_parts ?_ rfl
    show enactNoted callC (sem.guard g _ p c.world).prog _ c = _
    cases sem.guard g _ p c.world <;> rfl

theorem performR_lift (args : Args) : ∀ (cs : List (Phase × Cb)) (p : P) (c : Conf P W),
    performR sem.lift callC args cs p c = perform sem args cs p c := by
  intro cs
  induction cs with
  | nil => intro p c; rfl
  | cons x cs ih =>
    intro p c
    obtain ⟨ph, a⟩ := x
    unfold performR perform
    show (enactNoted callC (sem.action a args p c.world).prog _ c).bind _ = _
    cases sem.action a args p c.world with
    | ok u p' w => exact ih _ _
    | throw k p' w => rfl
    | ub => rfl

theorem takeR_lift (r : Nat) (ev : EventTy) (d : Dep) (cd : Cand) (t : XRow) (l : Name × StTy) (p : P)
    (c : Conf P W) : M.takeR sem.lift callC r ev d cd t l p c = M.take sem r ev d cd t l p c := by
  unfold takeR take
  congr 1
  funext _ c
  cases M.toRun t with
  | none => rfl
  | some cs =>
    dsimp only
    rw [performR_lift]
    rfl

theorem ask_same (ev : EventTy) (d : Dep) (cd : Cand) (t : XRow) (l : Name × StTy) (p : P)
    (c : Conf P W) : SameDeps c (M.ask sem ev d cd t l p c) := by
  unfold ask
  split
  · exact ⟨rfl, rfl⟩
  · dsimp only
    split_ifs
    all_goals first
      | trivial
      | (split <;> first | trivial | exact ⟨rfl, rfl⟩)

theorem attemptR_lift (anon : Bool) (r : Nat) (ev : EventTy) (k : Nat) : ∀ (cs : List (Dep × Cand))
    (p : P) (c : Conf P W), c.deps.length = k →
    M.attemptR sem.lift callC anon r ev k cs p c = M.attempt sem anon r ev cs p c := by
  intro cs
  induction cs with
  | nil => intro p c _; rfl
  | cons x cs ih =>
    intro p c hk
    obtain ⟨d, cd⟩ := x
    unfold attemptR attempt
    cases cd.row? with
    | none => rfl
    | some t =>
      dsimp only
      cases M.targetLoc t with
      | none => rfl
      | some l =>
        dsimp only
        rw [askR_lift]
        have hs := ask_same (M := M) (sem := sem) ev d cd t l p c
        revert hs
        cases M.ask sem ev d cd t l p c with
        | ok a c' =>
          intro hs
          show (if a.1 then _ else if _ then _ else _) = if a.1 then _ else _
          have hk' : c'.deps.length = k := by rw [hs.1]; exact hk
          rw [takeR_lift, if_pos (c := c'.deps.length = k) hk', ih a.2 c' hk']
        | throw x c' => intro _; rfl
        | ub u => intro _; rfl
        | timeout => intro _; rfl

theorem visitR_lift (anon : Bool) (r : Nat) (ev : EventTy) (p : P) (c : Conf P W) :
    M.visitR sem.lift callC anon r ev p c = M.visit sem anon r ev p c := by
  unfold visitR visit
  congr 1
  funext l c
  rw [attemptR_lift anon r ev _ _ p c rfl]

theorem sweepR_lift (ev : EventTy) : ∀ (rs : List Nat) (os : List RegionOut) (p : P) (c : Conf P W),
    M.sweepR sem.lift callC ev rs os p c = M.sweep sem ev rs os p c := by
  intro rs
  induction rs with
  | nil => intro os p c; rfl
  | cons r rs ih =>
    intro os p c
    unfold sweepR sweep
    rw [visitR_lift]
    congr 1
    funext o c
    rw [ih]

theorem roundR_lift : ∀ (rs : List Nat) (os : List RegionOut) (p : P) (c : Conf P W),
    M.roundR sem.lift callC rs os p c = M.round sem rs os p c := by
  intro rs
  induction rs with
  | nil => intro os p c; rfl
  | cons r rs ih =>
    intro os p c
    unfold roundR round
    rw [visitR_lift]
    congr 1
    funext o c
    rw [ih]

theorem settleR_lift (fuel : Nat) : ∀ (p : P) (c : Conf P W),
    M.settleR sem.lift callC fuel p c = M.settle sem fuel p c := by
  induction fuel with
  | zero => intro p c; rfl
  | succ n ih =>
    intro p c
    unfold settleR settle
    rw [roundR_lift]
    congr 1
    funext a c
    rw [ih]

theorem handleR_lift (fuel : Nat) (ev : EventTy) (p : P) (c : Conf P W) :
    M.handleR sem.lift callC fuel ev p c = M.handle sem fuel ev p c := by
  unfold handleR handle
  rw [sweepR_lift]
  congr 1
  funext a c
  rw [settleR_lift]
  rfl

theorem complainR_lift (ev : EventTy) (p : P) (c : Conf P W) :
    M.complainR sem.lift callC ev p c = M.complain sem ev p c := by
  unfold complainR complain
  cases (M.decl M.root).handler with
  | none => rfl
  | some h =>
    dsimp only
    congr 1
    funext l c
    refine ite_parts ?_ rfl
    show (if M.present sem _ c = true then _ else _) = _
    refine ite_parts ?_ rfl
    show (enactNoted callC (sem.handler h ev l.2 c.first p c.world).prog _ c).bind _ = _
    cases sem.handler h ev l.2 c.first p c.world <;> rfl

theorem replayR_lift (fuel : Nat) (c : Conf P W) :
    M.replayR sem.lift callC fuel c = M.replay sem fuel c := by
  unfold replayR replay
  cases c.waiting with
  | nil => rfl
  | cons x q => dsimp only; rw [handleR_lift]

/-- C83: for callbacks that do not use the machine this is the interpreter of C77. -/
theorem C83_conservative (fuel n : Nat) (op : Op P) (c : Conf P W) :
    M.execR sem.lift fuel (n + 1) op c = M.exec sem fuel op c := by
  cases op with
  | process ev p =>
    show M.receiveR sem.lift _ fuel ev p c = M.receive sem fuel ev p c
    unfold receiveR receive
    rw [handleR_lift]
    congr 1
    funext a c
    rw [replayR_lift, complainR_lift]
  | set r p st => rfl
  | setDependency d => rfl

end Machine

end

/-! ## Examples -/

namespace Ex

/-- The interpreter at work: the action of the row from 1 to 2 sends event 2, so the machine is back in 1
when the entry action of 2 runs. -/
example : ((hop.execAllR onward 5 5 [.process (ev 0) 1] (hop.fresh 7 [])).map fun c =>
    (c.slots, c.world)) = some ([some (0, .st 1)], [100, 1, 3, 20]) := by
  decide +kernel

/-- A guard moves the machine from 1 to 3 and says yes: the row from 1 fires in 3. -/
example : ((hop.execAllR diverted 5 5 [.process (ev 0) 1] (hop.fresh 7 [])).map fun c =>
    (c.slots, c.world)) = some ([some (0, .st 2)], [100, 2, 1, 20]) := by
  decide +kernel

/-- A guard hands over a dependency.  If it says yes, that is fine, and from then on there are two of
everything; if it says no, the library uses an iterator that is no longer valid. -/
example : ((hop.execAllR (rewire true) 5 5 [.process (ev 0) 1] (hop.fresh 7 [])).map fun c =>
      (c.slots, c.deps)) = some ([some (0, .st 2)], [9, 7]) ∧
    (match hop.execR (rewire false) 5 5 (.process (ev 0) 1) (hop.fresh 7 []) with
      | .ub .iterator => true
      | _ => false) = true := by
  decide +kernel

/-- C83 applies to them, and to all histories. -/
example {s : SM Nat (List Nat)} {ops : List (Op Nat)} (h : RunToR hop onward 7 ops s) (fuel n : Nat) :
    ∃ c, Depicts hop c s ∧ Agrees hop Eq (stepR hop onward fuel n (.process (ev 0) 1) s)
      (hop.execR onward fuel n (.process (ev 0) 1) c) := by
  have hg : onward.Good True (OpOk hop) := semR_good never_all onward_ok
  obtain ⟨hS, c, hc⟩ := C83_reach hop_regular hg h
  exact ⟨c, hc, C83_step hc hop_regular hS hg fuel n (hop_ok 0 (by decide) 1)⟩

end Ex

end Hsm
