import Verif.AskingGen
import Verif.PropsAsking
import Verif.PropsSystemsGen
import Verif.PropsPlacesGenR

/-!
# C139: callbacks may ask machines of the amalgamated header

As C138, for machines built with `gen/hsm.h`.
-/

namespace Hsm

/-! ## Invariants -/

section
variable {ι P W : Type} [DecidableEq ι] {Ms : ι → Machine} {sem : SemA ι P W} {U : UB → Prop} {Q : ι → Op P → Prop}
  {I : ι → SM P (Hub (Wire ι) P W) → Prop} {R : ι → Nat → Prop}
  {E : ι → EventTy → Nat → Entry → SM P (Hub (Wire ι) P W) → Prop} {V : ι → EventTy → Prop}

/-- Invariants of calls and questions. -/
theorem stepGL_keeps
    (K : ∀ i o, Q i o → KeepsG (Ms i) (sem.lines.at (.inl i) o) U (Q i) (R i) (I i) (E i) (V i))
    (hw : ∀ i s w, I i s → I i { s with world := w }) (hg : sem.Good (U .callback) Q)
    (hq : ∀ i (q : Question) s u, I i s → q.put (Ms i) s = .ub u → U u) (fuel : Nat) :
    ∀ n l op h, onWire Q l op → AllKeep (onWire I) h →
      (stepGL Ms sem fuel n l op h).SatU U (fun _ => Upkeep (onWire I) h) (fun _ => Upkeep (onWire I) h) := by
  have hw' : ∀ (l : Wire ι) s w, onWire I l s → onWire I l { s with world := w } := by
    rintro (i | x) s w h
    · exact hw i s w h
    · trivial
  have ask : ∀ i (q : Question) h, AllKeep (onWire I) h →
      ((q.put (Ms i) (h.fetch (.inl i))).told { h with request := none }).SatU U
        (fun _ => Upkeep (onWire I) h) (fun _ => Upkeep (onWire I) h) := by
    intro i q h hh
    cases hr : q.put (Ms i) (h.fetch (.inl i)) with
    | ok b s => exact Upkeep.refl hh rfl
    | throw x s => exact Upkeep.refl hh rfl
    | ub u => exact hq i q _ u (hh (.inl i) _) hr
    | timeout => trivial
  intro n
  induction n with
  | zero =>
    rintro (i | ⟨i, q⟩) op h _ hh
    · trivial
    · exact ask i q h hh
  | succ n ih =>
    rintro (i | ⟨i, q⟩) op h ho hh
    case inr => exact ask i q h hh
    have hk := K i op ho
    have hkl : KeepsLoop (Ms i) (sem.lines.at (.inl i) op) U (onWire Q (.inl i)) (R i) (onWire I (.inl i)) (E i) (V i) :=
      hk.toKeepsLoop
    have hamongst : Amongst (onWire Q) (onWire I) (.inl i) h (h.fetch (.inl i)).world :=
      ⟨fun j _ => ⟨hh j, .refl _⟩, fun _ _ hr => by cases hr⟩
    cases op with
    | process ev p =>
      exact Amongst.home (Q := onWire Q) (hw' (.inl i))
        (Res.Lasts.bind ((KeepsLoop.among (Ms := fun l : Wire ι => Ms l.owner) (i := .inl i) (hw' (.inl i)) hkl ho
          hg.lines h).processEventG (held_nested hw' ih) fuel (hk.known _ _ ho) ho (h.fetch (.inl i))
          ⟨hh (.inl i) _, hamongst⟩) fun _ _ hs _ => .ok hs)
    | set r p st =>
      exact Amongst.home (Q := onWire Q) (r := .ok true (h.fetch (.inl i))) (hw' (.inl i))
        ⟨⟨hh (.inl i) _, hamongst⟩, .refl _⟩
    | setDependency d =>
      refine Amongst.home (Q := onWire Q) (hw' (.inl i)) ?_
      show (Res.bind (setDependencyG (Ms i) d (h.fetch (.inl i))) _).Lasts _ _ _
      have := hk.dep (h.fetch (.inl i)) d ho (hh (.inl i) _)
      unfold setDependencyG at this ⊢
      split at this
      · exact ⟨⟨this, hamongst⟩, .of_eq rfl rfl⟩
      · exact this

/-- Invariants of histories. -/
theorem RunToGA.inv {d : ι → Dep}
    (K : ∀ i o, Q i o → KeepsG (Ms i) (sem.lines.at (.inl i) o) (fun _ => True) (Q i) (R i) (I i) (E i) (V i))
    (hw : ∀ i s w, I i s → I i { s with world := w }) (hg : sem.Good True Q)
    (base : ∀ i w s, constructG (Ms i) (d i) w = .ok s → I i s)
    {ops : List (ι × Op P)} {h : Hub (Wire ι) P W} (hr : RunToGA Ms sem d ops h) (hops : ∀ x ∈ ops, Q x.1 x.2) :
    AllKeep (onWire I) h := by
  induction hr with
  | init hi =>
    rintro (j | x) w
    · exact base j w _ (constructG_rebase (hi j))
    · trivial
  | @ok h h' ops i op fuel n b hr hop hs ih =>
    have := stepGL_keeps K hw hg (fun _ _ _ _ _ _ => trivial) fuel n (.inl i) op h (hops (i, op) (by simp))
      (ih fun x hx => hops x (by simp [hx]))
    rw [hs] at this
    exact this.whole
  | @throw h h' ops i op fuel n x hr hop hs ih =>
    have := stepGL_keeps K hw hg (fun _ _ _ _ _ _ => trivial) fuel n (.inl i) op h (hops (i, op) (by simp))
      (ih fun x hx => hops x (by simp [hx]))
    rw [hs] at this
    exact this.whole
  | world hr w ih => exact ih hops

end

/-! ## C139 -/

section
variable {ι P W : Type} [DecidableEq ι] {Ms : ι → Machine} {sem : SemA ι P W} {d : ι → Dep}
  {ops : List (ι × Op P)} {h : Hub (Wire ι) P W}

theorem RunToGA.opOk (hr : RunToGA Ms sem d ops h) : ∀ x ∈ ops, OpOkGR (Ms x.1) x.2 := by
  induction hr with
  | init => simp
  | ok _ hop _ ih =>
    intro x hx
    rcases List.mem_append.1 hx with hx | hx
    · exact ih x hx
    · rw [List.mem_singleton.1 hx]; exact hop
  | throw _ hop _ ih =>
    intro x hx
    rcases List.mem_append.1 hx with hx | hx
    · exact ih x hx
    · rw [List.mem_singleton.1 hx]; exact hop
  | world _ _ ih => exact ih

/-- C139: callbacks may also ask.  Every machine is always, and was at each of its callbacks and before and
after each of its moves, at declared locations, and every move is to the destination of a declared external
row. -/
theorem C139_places (hM : ∀ i, (Ms i).RegularG) (hS : ∀ i, (Ms i).ScopedG)
    (hg : sem.Good True (fun i => OpOkGR (Ms i))) (hr : RunToGA Ms sem d ops h) (i : ι) :
    Inside (Ms i) (h.parts (.inl i)).cur ∧ (∀ c ∈ (h.parts (.inl i)).trace, Inside (Ms i) c.cur) ∧
    ∀ l1 f l2, (h.parts (.inl i)).log = l1 ++ f :: l2 →
      Inside (Ms i) f.before ∧ Inside (Ms i) f.after ∧ Landed (Ms i) (Memo (Ms i) (l1 ++ [f])) f := by
  have hg' : sem.Good True (fun i => GivesDG (Ms i) fun _ => True) := hg.mono id fun _ _ h => ⟨h, fun _ _ => trivial⟩
  have hl : LandingG (Ms i) ((h.parts (.inl i)).rebase h) :=
    hr.inv (I := fun i => LandingG (Ms i)) (fun i _ ho => KeepsG.landing (hM i) (hS i) (hg'.at i ho))
    (fun _ _ _ h => h.of_eq rfl rfl rfl rfl rfl rfl) hg' (fun i _ _ h => landing_constructG (hM i) h)
    (fun x hx => ⟨hr.opOk x hx, fun _ _ => trivial⟩) (.inl i) h
  exact hl.places (hM i)

theorem RunToGA.agreed {D : ι → Dep → Prop} (hM : ∀ i, (Ms i).RegularG)
    (hg : sem.Good True (fun i => GivesDG (Ms i) (D i))) (hr : RunToGA Ms sem d ops h)
    (hd : ∀ i, D i (d i)) (hops : ∀ x ∈ ops, GivesDG (Ms x.1) (D x.1) x.2) (i : ι) :
    Agreed (Ms i) (Ms i).candsG (D i) Unset (h.fetch (.inl i)) :=
  hr.inv (I := fun i => Agreed (Ms i) (Ms i).candsG (D i) Unset)
    (fun i _ ho => KeepsG.agreed (hM i) (hg.at i ho)) (fun _ _ _ h => h.of_eq rfl rfl rfl rfl rfl rfl) hg
    (fun i _ _ hc => agreed_constructG (hM i) (hd i) hc) hops (.inl i) _

/-- C139: every move has consent, as in C109, of a guard called for the same machine. -/
theorem C139_moves {D : ι → Dep → Prop} (hM : ∀ i, (Ms i).RegularG)
    (hg : sem.Good True (fun i => GivesDG (Ms i) (D i))) (hr : RunToGA Ms sem d ops h)
    (hd : ∀ i, D i (d i)) (hops : ∀ x ∈ ops, GivesDG (Ms x.1) (D x.1) x.2) (i : ι)
    {l1 l2 : List Firing} {f : Firing} (hl : (h.parts (.inl i)).log = l1 ++ f :: l2) :
    MoveHasConsent (Ms i) (Ms i).candsG (D i) Unset (h.parts (.inl i)).trace l1 f :=
  (hr.agreed hM hg hd hops i).consent.moves l1 f l2 hl

/-- C139: every callback of a row has consent, as in C109. -/
theorem C139_actions {D : ι → Dep → Prop} (hM : ∀ i, (Ms i).RegularG)
    (hg : sem.Good True (fun i => GivesDG (Ms i) (D i))) (hr : RunToGA Ms sem d ops h)
    (hd : ∀ i, D i (d i)) (hops : ∀ x ∈ ops, GivesDG (Ms x.1) (D x.1) x.2) (i : ι)
    {t0 t1 : List (Call P)} {ph : Phase} {a : Cb} {args : Args} {q : P} {b : Bool}
    {cur : List (Option Nat)} (ht : (h.parts (.inl i)).trace = t0 ++ .action ph a args q b cur :: t1) :
    ActionHasConsent (Ms i) (Ms i).candsG (D i) Unset (h.parts (.inl i)).log t0 ph a args :=
  (hr.agreed hM hg hd hops i).consent.acts t0 ph a args q b cur t1 ht

/-- C139: callbacks of every machine are those its tables provide for, as in C110; guards of a machine whose guards
neither call nor ask are called only where their rows apply. -/
theorem C139_declared {D : ι → Dep → Prop} (hM : ∀ i, (Ms i).RegularG)
    (hg : sem.Good True (fun i => GivesDG (Ms i) (D i))) (hr : RunToGA Ms sem d ops h)
    (hd : ∀ i, D i (d i)) (hops : ∀ x ∈ ops, GivesDG (Ms x.1) (D x.1) x.2) (i : ι) :
    ∀ c ∈ (h.parts (.inl i)).trace, DeclaredG (Ms i) (D i) (d i) (sem.QuietGuards i) c := by
  have : SuppliedG (Ms i) (D i) (d i) (sem.QuietGuards i) ((h.parts (.inl i)).rebase h) :=
    hr.inv (I := fun i => SuppliedG (Ms i) (D i) (d i) (sem.QuietGuards i))
    (fun i o ho => KeepsG.supplied (hM i) (hg.at i ho) (fun h => h.lines.at o))
    (fun _ _ _ h => h.of_eq rfl rfl rfl) hg (fun i _ _ hc => supplied_constructG (hM i) (hd i) hc)
    hops (.inl i) h
  exact this.calls

open Classical in
/-- C139: every move of a machine whose guards neither call nor ask is one of a row applicable where it was. -/
theorem C139_sources (hM : ∀ i, (Ms i).RegularG) (hg : sem.Good True (fun i => OpOkGR (Ms i)))
    (hr : RunToGA Ms sem d ops h) {i : ι} (hq : sem.QuietGuards i) {l1 l2 : List Firing} {f : Firing}
    (hl : (h.parts (.inl i)).log = l1 ++ f :: l2) : ExplainedG (Ms i) (Memo (Ms i) (l1 ++ [f])) f := by
  let Q : ι → Op P → Prop := fun i => GivesDG (Ms i) fun _ => True
  have hQ : ∀ i op, OpOkGR (Ms i) op → Q i op := fun i op h => ⟨h, fun _ _ => trivial⟩
  have hg' : sem.Good True Q := hg.mono id hQ
  let I : ι → SM P (Hub (Wire ι) P W) → Prop := fun j =>
    if sem.QuietGuards j then ExplainedAllG (Ms j) else fun _ => True
  let E : ι → EventTy → Nat → Entry → SM P (Hub (Wire ι) P W) → Prop := fun j =>
    if sem.QuietGuards j then FromG (Ms j) (fun _ => True) True else fun _ _ _ _ => True
  have : I i ((h.parts (.inl i)).rebase h) :=
    hr.inv (Q := Q) (I := I) (E := E) (R := fun _ _ => True) (V := fun _ _ => True) (fun j o ho => by
      by_cases hj : sem.QuietGuards j
      · simp only [I, E, if_pos hj]; exact KeepsG.explained (hM j) (hg'.at j ho) (hj.lines.at o)
      · simp only [I, E, if_neg hj]; exact KeepsG.nothing (hM j) (hg'.at j ho) fun _ h => h.1)
    (fun j s w hs => by
      by_cases hj : sem.QuietGuards j
      · simp only [I, if_pos hj] at hs ⊢; exact hs.of_eq rfl rfl rfl rfl
      · simp only [I, if_neg hj]) hg'
    (fun j w s hc => by
      by_cases hj : sem.QuietGuards j
      · simp only [I, if_pos hj]; exact explained_constructG (hM j) hc
      · simp only [I, if_neg hj]) (fun x hx => hQ _ _ (hr.opOk x hx)) (.inl i) h
  simp only [I, if_pos hq] at this
  exact this.moves l1 f l2 hl

theorem SafeGA.at {i : ι} (hS : SafeGA Ms sem i) {Q : ι → Op P → Prop} (hg : sem.Good False Q)
    {o : Op P} (ho : OpOkGR (Ms i) o) : SafeGR (Ms i) (sem.lines.at (.inl i) o) where
  scopes := hS.scopes
  targets := hS.targets
  rootInit := hS.rootInit
  regions := hS.regions
  history := hS.history
  noneNotDeferred := hS.noneNotDeferred
  objects := fun st => (hS.objects st).imp id fun h w => h w.user
  callbacks := hg.at i ho

/-- Questions to safe machines are defined. -/
theorem SafeGA.question {i : ι} (hS : SafeGA Ms sem i) {Q : ι → Op P → Prop} (hg : sem.Good False Q)
    {s : SM P (Hub (Wire ι) P W)} (hs : Hale (Ms i) s) (q : Question) : (q.put (Ms i) s).Defined := by
  obtain ⟨c, hc, hf⟩ := hs
  obtain ⟨h1, h2, h3, h4⟩ := Firm.observers (hS.at hg (o := .setDependency 0) trivial) hc hf
  cases q with
  | state st => exact h1 st
  | parent p st => exact h3 0 p st
  | region r p st => exact h3 r p st
  | within p => exact h2 p
  | text l => exact h4.bind fun _ _ _ => Res.defined_ok

theorem RunToGA.hale (hM : ∀ i, (Ms i).RegularG) (hS : ∀ i, SafeGA Ms sem i)
    (hg : sem.Good False (fun i => OpOkGR (Ms i))) (hr : RunToGA Ms sem d ops h) :
    AllKeep (onWire fun i => Hale (Ms i)) h := by
  have := hr.inv (I := fun i s => Hale (Ms i) s ∧ True)
    (fun i _ ho => KeepsG.hale (J := fun _ => True) (hM i) ((hS i).at hg ho) (fun _ h => h) (hg.at i ho)
      (fun _ _ _ _ _ _ _ _ _ _ _ _ => trivial) (fun _ _ _ _ _ _ => trivial))
    (fun _ s w h => ⟨h.1.change w s.queue s.trace, trivial⟩) (hg.mono False.elim fun _ _ h => h)
    (fun i w s hc => ⟨(RunToGR.init (sem := sem.lines.at (.inl i) (.setDependency 0)) hc).firm (hM i)
      ((hS i).at hg (o := .setDependency 0) trivial), trivial⟩) hr.opOk
  rintro (i | x) w
  · exact (this (.inl i) w).1
  · trivial

/-- C139: only loops over table cells that are pushed to meanwhile can go wrong in a program of safe
machines: questions never do, whoever asks and while whatever is running. -/
theorem C139_only_iterators (hM : ∀ i, (Ms i).RegularG) (hS : ∀ i, SafeGA Ms sem i)
    (hg : sem.Good False (fun i => OpOkGR (Ms i))) (hr : RunToGA Ms sem d ops h) (fuel n : Nat) (i : ι) (op : Op P)
    (u : UB) (hop : OpOkGR (Ms i) op) (hu : stepGL Ms sem fuel n (.inl i) op h = .ub u) : u = .iterator := by
  have hs := hr.hale hM hS hg
  have := stepGL_keeps (U := (· = .iterator)) (I := fun i s => Hale (Ms i) s ∧ True)
    (fun i o ho => KeepsG.hale (J := fun _ => True) (hM i) ((hS i).at hg ho) (fun _ h => h) (hg.at i ho)
      (fun _ _ _ _ _ _ _ _ _ _ _ _ => rfl) (fun _ _ _ _ _ _ => trivial))
    (fun _ s w h => ⟨h.1.change w s.queue s.trace, trivial⟩) (hg.mono False.elim fun _ _ h => h)
    (fun i q s u hs hu => absurd hu ((hS i).question hg hs.1 q u)) fuel n (.inl i) op h
    hop (by
      rintro (i | x) w
      · exact ⟨hs (.inl i) w, trivial⟩
      · trivial)
  rw [hu] at this
  exact this

/-! ### Questions -/

/-- C139: a question of a callback of machine `i` changes nothing, and is answered by the present members of the
machine asked, also if that is `i`. -/
theorem C139_question {s : SM P (Hub (Wire ι) P W)} {i j : ι} {q : Question} {op : Op P}
    (hq : s.world.request = some (.inr (j, q), op)) (fuel n : Nat) (o : Op P) :
    ∃ h', h'.user = s.world.user ∧ (∀ l, l ≠ .inl i → h'.parts l = s.world.parts l) ∧
      nested (stepGL Ms sem fuel n) (.inl i) o s =
        match q.put (Ms j) (if j = i then s.rebase h' else (s.world.parts (.inl j)).rebase h') with
        | .ok b _ => .ok b (s.rebase h')
        | .throw x _ => .throw x (s.rebase h')
        | .ub u => .ub u
        | .timeout => .timeout := by
  refine ⟨{ s.world.store (.inl i) s with request := none }, rfl, fun l hl => if_neg hl, ?_⟩
  have h1 : (s.world.store (.inl i) s).fetch (.inl j) = if j = i
      then s.rebase { s.world.store (.inl i) s with request := none }
      else (s.world.parts (.inl j)).rebase { s.world.store (.inl i) s with request := none } := by
    show SM.rebase (if (.inl j : Wire ι) = .inl i then s.rebase () else s.world.parts (.inl j)) _ = _
    by_cases hj : j = i
    · rw [if_pos (congrArg _ hj), if_pos hj]; rfl
    · rw [if_neg (fun h => hj (Sum.inl.inj h)), if_neg hj]
  have h2 : Hub.fetch { s.world.store (.inl i) s with request := none } (.inl i) =
      s.rebase { s.world.store (.inl i) s with request := none } := by
    show SM.rebase (if (.inl i : Wire ι) = .inl i then s.rebase () else s.world.parts (.inl i)) _ = _
    rw [if_pos rfl]; rfl
  unfold nested
  rw [hq]
  have h3 : stepGL Ms sem fuel n (.inr (j, q)) op (s.world.store (.inl i) s) =
      (q.put (Ms j) ((s.world.store (.inl i) s).fetch (.inl j))).told
        { s.world.store (.inl i) s with request := none } := by
    cases n <;> rfl
  dsimp only
  rw [h3, h1]
  cases q.put (Ms j) (if j = i then s.rebase { s.world.store (.inl i) s with request := none }
      else (s.world.parts (.inl j)).rebase { s.world.store (.inl i) s with request := none }) with
  | ok b t => exact congrArg (Res.ok b) h2
  | throw x t => exact congrArg (Res.throw x) h2
  | ub u => rfl
  | timeout => rfl

omit [DecidableEq ι] in
theorem answersG {M : Machine} {W : Type} {s : SM P W} (hM : M.Laid) {p : Name} {st : StTy} (ha : At M s 0 p st)
    (q : Name) (tt : StTy) :
    parentIs M q s = .ok (decide (q = p)) s ∧ isState M tt s = .ok (decide (tt = st)) s ∧
    isParent M q tt s = .ok (decide (q = p ∧ tt = st)) s := by
  have hpar : (M.parentIdx p == M.parentIdx q) = decide (q = p) := by
    by_cases h : q = p
    · subst h; simp
    · simp only [h, decide_false, beq_eq_false_iff_ne]
      intro he
      by_cases hq : q ∈ M.composites
      · exact h (hM.parentIdx_inj hq ha.1 he.symm)
      · have h1 := hM.parentIdx_not_mem hq
        have h2 := hM.parentIdx_lt.2 ha.1
        omega
  have hst : (M.stateIdx st == M.stateIdx tt) = decide (tt = st) := by
    by_cases h : tt = st
    · subst h; simp
    · simp only [h, decide_false, beq_eq_false_iff_ne]
      intro he
      by_cases hq : tt ∈ M.states
      · exact h (hM.stateIdx_inj hq ha.2.1 he.symm)
      · have h1 := hM.stateIdx_not_mem hq
        have h2 := hM.stateIdx_lt.2 ha.2.1
        omega
  have h1 : parentIs M q s = .ok (decide (q = p)) s := by
    simp only [parentIs, currentParent, readCur, ha.2.2, Res.bind, hM.comb_div ha.1 ha.2.1, hpar]
  have h2 : isState M tt s = .ok (decide (tt = st)) s := by
    simp only [isState, currentState, atCur, ha.2.2, Res.bind, hM.comb_mod ha.1 ha.2.1, hst]
  refine ⟨h1, h2, ?_⟩
  unfold isParent isRegion
  rw [h1]
  by_cases hq : q = p
  · simp only [Res.bind, hq, decide_true, if_true, Nat.zero_mod, true_and]
    exact h2
  · simp [Res.bind, hq]

/-- C139: if region 0 of the machine asked is at `(p, st)` when the question is put, `is(tt)` tells whether `tt` is
`st`, `parent_is(p')` whether `p'` is `p`, and `is(p', tt)` whether both hold. -/
theorem C139_answer (hM : ∀ i, (Ms i).RegularG) {s : SM P (Hub (Wire ι) P W)} {i j : ι} {q : Question} {op : Op P}
    (hq : s.world.request = some (.inr (j, q), op)) {p : Name} {st : StTy}
    (ha : if j = i then At (Ms j) s 0 p st else At (Ms j) (s.world.parts (.inl j)) 0 p st) (fuel n : Nat) (o : Op P) :
    ∃ h', h'.user = s.world.user ∧ (∀ l, l ≠ .inl i → h'.parts l = s.world.parts l) ∧
      (∀ tt, q = .state tt → nested (stepGL Ms sem fuel n) (.inl i) o s = .ok (decide (tt = st)) (s.rebase h')) ∧
      (∀ p', q = .within p' → nested (stepGL Ms sem fuel n) (.inl i) o s = .ok (decide (p' = p)) (s.rebase h')) ∧
      ∀ p' tt, q = .parent p' tt →
        nested (stepGL Ms sem fuel n) (.inl i) o s = .ok (decide (p' = p ∧ tt = st)) (s.rebase h') := by
  obtain ⟨h', h1, h2, h3⟩ := C139_question (Ms := Ms) (sem := sem) hq fuel n o
  have ha' : At (Ms j) (if j = i then s.rebase h' else (s.world.parts (.inl j)).rebase h') 0 p st := by
    by_cases hj : j = i
    · rw [if_pos hj] at ha ⊢; exact ha
    · rw [if_neg hj] at ha ⊢; exact ha
  refine ⟨h', h1, h2, ?_, ?_, ?_⟩
  · rintro tt rfl; rw [h3]; simp only [Question.put, (answersG (hM j).laid ha' p tt).2.1]
  · rintro p' rfl; rw [h3]; simp only [Question.put, (answersG (hM j).laid ha' p' st).1]
  · rintro p' tt rfl; rw [h3]; simp only [Question.put, (answersG (hM j).laid ha' p' tt).2.2]

omit [DecidableEq ι] in
theorem answersG_region {M : Machine} {W : Type} {s : SM P W} (hM : M.Laid) {r : Nat} {p0 p : Name} {st0 st : StTy}
    (h0 : At M s 0 p0 st0) (ha : At M s (r % 256) p st) (q : Name) (tt : StTy) :
    isRegion M r q tt s = .ok (decide (q = p0 ∧ tt = st)) s := by
  have hst : (M.stateIdx st == M.stateIdx tt) = decide (tt = st) := by
    by_cases h : tt = st
    · subst h; simp
    · simp only [h, decide_false, beq_eq_false_iff_ne]
      intro he
      by_cases hq : tt ∈ M.states
      · exact h (hM.stateIdx_inj hq ha.2.1 he.symm)
      · have h1 := hM.stateIdx_not_mem hq
        have h2 := hM.stateIdx_lt.2 ha.2.1
        omega
  unfold isRegion
  rw [(answersG hM h0 q tt).1]
  by_cases hq : q = p0
  · simp only [Res.bind, hq, decide_true, if_true, true_and, currentState, atCur, ha.2.2,
      hM.comb_mod ha.1 ha.2.1, hst]
  · simp [Res.bind, hq]

/-- C139: if region 0 of the machine asked is in composite `p0` and region `r` at `(p, st)` when the question is put,
`is(r, q, tt)` tells whether `q` is `p0` and `tt` is `st`. -/
theorem C139_region (hM : ∀ i, (Ms i).RegularG) {s : SM P (Hub (Wire ι) P W)} {i j : ι} {op : Op P} {r : Nat}
    {q : Name} {tt : StTy} (hq : s.world.request = some (.inr (j, .region r q tt), op)) {p0 p : Name} {st0 st : StTy}
    (h0 : if j = i then At (Ms j) s 0 p0 st0 else At (Ms j) (s.world.parts (.inl j)) 0 p0 st0)
    (ha : if j = i then At (Ms j) s (r % 256) p st else At (Ms j) (s.world.parts (.inl j)) (r % 256) p st)
    (fuel n : Nat) (o : Op P) :
    ∃ h', h'.user = s.world.user ∧ (∀ l, l ≠ .inl i → h'.parts l = s.world.parts l) ∧
      nested (stepGL Ms sem fuel n) (.inl i) o s = .ok (decide (q = p0 ∧ tt = st)) (s.rebase h') := by
  obtain ⟨h', h1, h2, h3⟩ := C139_question (Ms := Ms) (sem := sem) hq fuel n o
  have up : ∀ {k : Nat} {p : Name} {st : StTy},
      (if j = i then At (Ms j) s k p st else At (Ms j) (s.world.parts (.inl j)) k p st) →
      At (Ms j) (if j = i then s.rebase h' else (s.world.parts (.inl j)).rebase h') k p st := by
    intro k p st ha
    by_cases hj : j = i
    · rw [if_pos hj] at ha ⊢; exact ha
    · rw [if_neg hj] at ha ⊢; exact ha
  refine ⟨h', h1, h2, ?_⟩
  rw [h3]; simp only [Question.put, answersG_region (hM j).laid (up h0) (up ha) q tt]

/-- C139: a callback that asks goes on, in the same program, with the answer of the present members of the machine
asked. -/
theorem C139_ask {α : Type} (s : SM P (Hub (Wire ι) P W)) (i j : ι) (q : Question) (w : W)
    (k : Reply → W → AProg ι P W α) (fuel n : Nat) (o : Op P) :
    ∃ h', h'.user = w ∧ (∀ l, l ≠ .inl i → h'.parts l = s.world.parts l) ∧
      runProg (nested (stepGL Ms sem fuel n) (.inl i)) ((AProg.ask j q w k).lines.prog o s.world.parts) s =
        match q.put (Ms j) (if j = i then s.rebase h' else (s.world.parts (.inl j)).rebase h') with
        | .ok b _ => runProg (nested (stepGL Ms sem fuel n) (.inl i)) ((k (.ret b) w).lines.prog o h'.parts) (s.rebase h')
        | .throw x _ =>
          runProg (nested (stepGL Ms sem fuel n) (.inl i)) ((k (.threw x) w).lines.prog o h'.parts) (s.rebase h')
        | .ub u => .ub u
        | .timeout => .timeout := by
  obtain ⟨h', h1, h2, h3⟩ := C139_question (Ms := Ms) (sem := sem) (i := i) (j := j) (q := q) (op := .setDependency 0)
    (s := { s with world := ⟨w, s.world.parts, some (.inr (j, q), .setDependency 0)⟩ }) rfl fuel n o
  refine ⟨h', h1, h2, ?_⟩
  have h1 : h'.user = w := h1
  simp only [AProg.lines, SProg.prog, runProg]
  rw [h3]
  have e : SM.rebase ({ s with world := ⟨w, s.world.parts, some (.inr (j, q), .setDependency 0)⟩ } :
      SM P (Hub (Wire ι) P W)) h' = s.rebase h' := rfl
  simp only [e]
  cases q.put (Ms j) (if j = i then s.rebase h' else (s.world.parts (.inl j)).rebase h') <;> subst h1 <;> rfl

/-- C139: status is told to be `l` if it is. -/
theorem C139_status {s : SM P (Hub (Wire ι) P W)} {i j : ι} {l l' : List StatusRec} {op : Op P}
    (hq : s.world.request = some (.inr (j, .text l), op))
    (hs : if j = i then ∃ t, status (Ms j) s = .ok l' t else ∃ t, status (Ms j) (s.world.parts (.inl j)) = .ok l' t)
    (fuel n : Nat) (o : Op P) :
    ∃ h', h'.user = s.world.user ∧ (∀ l, l ≠ .inl i → h'.parts l = s.world.parts l) ∧
      nested (stepGL Ms sem fuel n) (.inl i) o s = .ok (decide (l' = l)) (s.rebase h') := by
  obtain ⟨h', h1, h2, h3⟩ := C139_question (Ms := Ms) (sem := sem) hq fuel n o
  have ht : status (Ms j) (if j = i then s.rebase h' else (s.world.parts (.inl j)).rebase h') =
      .ok l' (if j = i then s.rebase h' else (s.world.parts (.inl j)).rebase h') := by
    by_cases hj : j = i
    · rw [if_pos hj] at hs ⊢; exact hs.elim fun _ ht => statusLoop_rebase ht h'
    · rw [if_neg hj] at hs ⊢; exact hs.elim fun _ ht => statusLoop_rebase ht h'
  refine ⟨h', h1, h2, ?_⟩
  rw [h3]; simp only [Question.put, ht, Res.bind]

/-- C139: a call changes no machine that is not called, even if it is asked. -/
theorem C139_untouched {j : ι} (hM : ∀ i, (Ms i).RegularG)
    (hg : sem.Good True (fun i op => OpOkGR (Ms i) op ∧ i ≠ j)) {fuel n : Nat} {i : ι}
    {op : Op P} {h' : Hub (Wire ι) P W} (hop : OpOkGR (Ms i) op) (hi : i ≠ j)
    (hs : (∃ b, stepGL Ms sem fuel n (.inl i) op h = .ok b h') ∨ ∃ x, stepGL Ms sem fuel n (.inl i) op h = .throw x h') :
    h'.parts (.inl j) = h.parts (.inl j) := by
  have := stepGL_keeps (U := fun _ => True) (Q := fun i op => OpOkGR (Ms i) op ∧ i ≠ j)
    (I := fun l s => l = j → s.rebase () = h.parts (.inl j)) (R := fun _ _ => True)
    (E := fun _ _ _ _ _ => True) (V := fun _ _ => True)
    (fun l o ho => by
      have he : (fun s : SM P (Hub (Wire ι) P W) => l = j → s.rebase () = h.parts (.inl j)) = fun _ => True :=
        funext fun s => eq_true fun hl => (ho.2 hl).elim
      rw [he]
      exact KeepsG.nothing (hM l) (hg.at l (Q' := fun op => OpOkGR (Ms l) op ∧ l ≠ j) ho) fun _ h => h.1)
    (fun _ _ _ h => h) hg (fun _ _ _ _ _ _ => trivial) fuel n (.inl i) op h ⟨hop, hi⟩ (by
      rintro (l | x) w
      · intro hl; subst hl; rfl
      · trivial)
  rcases hs with ⟨b, hs⟩ | ⟨x, hs⟩ <;> rw [hs] at this
  · exact this.whole (.inl j) h' rfl
  · exact this.whole (.inl j) h' rfl

/-! ### Undefined behaviour -/

open Classical in
/-- C139: a program of safe machines whose callbacks call and ask has no undefined behaviour if, for each machine,
its guards neither call nor ask or no callback calls its `set_dependency`. -/
theorem C139_safe (hM : ∀ i, (Ms i).RegularG) (hS : ∀ i, SafeGA Ms sem i)
    (hg : sem.Good False (fun i => OpOkGR (Ms i))) (hq : ∀ i, sem.QuietGuards i ∨ sem.KeepsDeps i)
    (hr : RunToGA Ms sem d ops h) (fuel n : Nat) (i : ι) (op : Op P) (hop : OpOkGR (Ms i) op) :
    (stepGL Ms sem fuel n (.inl i) op h).Defined := by
  have hh := hr.hale hM hS hg
  let Q : ι → Op P → Prop := fun j op => OpOkGR (Ms j) op ∧ (¬ sem.QuietGuards j → ∀ d, op ≠ .setDependency d)
  by_cases hne : Q i op
  · have hg' : sem.Good False Q := by
      have hk : ∀ b : { j // ¬ sem.QuietGuards j }, sem.KeepsDeps b.1 := fun b => (hq b.1).resolve_left b.2
      have hw : ∀ {i op}, (OpOkGR (Ms i) op ∧ ∀ b : { j // ¬ sem.QuietGuards j }, i = b.1 →
          ∀ d : Dep, op ≠ .setDependency d) → Q i op := fun h => ⟨h.1, fun hj => h.2 ⟨_, hj⟩ rfl⟩
      exact ⟨fun i g a p w => ((hg.guard i g a p w).and (.all fun b => (hk b).guard i g a p w)).mono id fun _ _ => hw,
        fun i c a p w => ((hg.action i c a p w).and (.all fun b => (hk b).action i c a p w)).mono id fun _ _ => hw,
        fun i c e st d p w => ((hg.handler i c e st d p w).and
          (.all fun b => (hk b).handler i c e st d p w)).mono id fun _ _ => hw⟩
    let J : ι → Table → Prop := fun j T => ¬ sem.QuietGuards j → T = (h.parts (.inl j)).table
    have := stepGL_keeps (U := fun _ => False) (Q := Q) (I := fun j s => Hale (Ms j) s ∧ J j s.table)
      (fun j o ho => KeepsG.hale (J := J j) (hM j) ((hS j).at hg ho.1) (fun _ h => h.1) (hg'.at j ho)
        (by
          intro call hc s s' x ev p p' c hs hx hl
          by_cases hj : sem.QuietGuards j
          · obtain ⟨w, tr, rfl⟩ := execGuard_quiet (hj.lines.at o) hx
            exact hl rfl
          · have kcb : KeepsCb (Ms j) (sem.lines.at (.inl j) o) (fun _ => False) (Q j)
                (fun s => Hale (Ms j) s ∧ J j s.table) (fun _ _ => True) :=
              { toRuns := .of (hg'.at j ho) (fun s w h => ⟨h.1.change w s.queue s.trace, h.2⟩)
                traced := fun _ s c _ h _ _ => ⟨h.1.change s.world s.queue _, h.2⟩
                obj := fun st s _ h => ((hS j).at hg ho.1).obj st s h }
            have := kcb.execGuard hc x ev p s hs (fun _ _ _ _ => trivial)
            rw [hx] at this
            exact hl (by rw [this.1.2 hj, hs.2 hj]))
        (fun d T hq hT T' hf hj => absurd rfl (hq.2 hj d)))
      (fun _ s w h => ⟨h.1.change w s.queue s.trace, h.2⟩) hg'
      (fun j q s u hs hu => (hS j).question hg hs.1 q u hu) fuel n (.inl i) op h hne (by
        rintro (j | x) w
        · exact ⟨hh (.inl j) w, fun _ => rfl⟩
        · trivial)
    cases hr : stepGL Ms sem fuel n (.inl i) op h <;> rw [hr] at this
    · exact fun _ h => by cases h
    · exact fun _ h => by cases h
    · exact this.elim
    · exact fun _ h => by cases h
  · cases op with
    | process ev p => exact absurd ⟨hop, fun _ _ => by simp⟩ hne
    | set r p st => exact absurd ⟨hop, fun _ _ => by simp⟩ hne
    | setDependency d =>
      cases n with
      | zero => exact fun _ h => by cases h
      | succ n =>
        have hs : Hale (Ms i) (h.fetch (.inl i)) := hh (.inl i) { h with request := none }
        have := hs.dep (hM i) (hS i).scopes d
        show (Res.home (.inl i) (Res.bind (setDependencyG (Ms i) d (h.fetch (.inl i))) _)).Defined
        change (setDependencyG (Ms i) d (h.fetch (.inl i))).Sat _ _ _ at this
        cases hr : setDependencyG (Ms i) d (h.fetch (.inl i)) <;> rw [hr] at this
        · exact fun _ h => by cases h
        · exact fun _ h => by cases h
        · exact this.elim
        · exact fun _ h => by cases h

end

/-! ### Callbacks that ask nothing -/

section
variable {ι P W : Type} [DecidableEq ι] {Ms : ι → Machine} {sem : SemS ι P W}

theorem stepGL_asking (fuel : Nat) {h₀ : Hub (Wire ι) P W} : ∀ (n : Nat) (i : ι) (op : Op P) {h : Hub ι P W}
    {h' : Hub (Wire ι) P W}, Hub.Part Sum.inl (Share.whole W) h₀ h h' →
      (stepGS Ms sem fuel n i op h).Rel Eq (Hub.Part Sum.inl (Share.whole W) h₀)
        (stepGL Ms sem.asking fuel n (.inl i) op h') := by
  have hp := SemS.asking_part Ms sem
  intro n
  induction n with
  | zero => intro i op h h' hh; trivial
  | succ n ih =>
    intro i op h h' hh
    unfold stepGS stepGL
    refine Hub.Part.home hp ?_
    rw [(hh.fetch i).1]
    cases op with
    | process ev p =>
      exact (processEventGR_sim (hp.at h₀ i _ _) (Hub.Part.nested hp ih i) fuel ev p (hh.fetch i).2).bind
        fun _ s w' h => ⟨rfl, w', rfl, h⟩
    | set r p st => exact ⟨rfl, _, rfl, (hh.fetch i).2⟩
    | setDependency d => exact (setDependencyG_sim (hh.fetch i).2 _).bind fun _ s w' h => ⟨rfl, w', rfl, h⟩

/-- C139: if callbacks ask nothing, calls do what they do in `SystemsGen.lean`. -/
theorem C139_conservative (fuel n : Nat) (i : ι) (op : Op P) (h : Hub (Wire ι) P W) :
    (stepGS Ms sem fuel n i op (h.own Sum.inl (Share.whole W))).Rel Eq
      (fun g g' => g'.user = g.user ∧ ∀ j, g'.parts (.inl j) = g.parts j)
      (stepGL Ms sem.asking fuel n (.inl i) op h) := by
  have := stepGL_asking (Ms := Ms) (sem := sem) fuel (h₀ := h) n i op (Hub.own_part h)
  revert this
  cases stepGS Ms sem fuel n i op (h.own Sum.inl (Share.whole W)) <;>
    cases stepGL Ms sem.asking fuel n (.inl i) op h <;> intro hr <;>
    first | exact hr.elim | exact hr | exact ⟨hr.1, hr.2.user, hr.2.parts⟩

end

/-! ## Examples -/

namespace Ex

theorem wary_okG {U : Prop} : wary.Good U (fun i => OpOkGR (twins i)) := wary_good (hop_okG 0 (by decide) 5)

theorem wary_safeG (i : Bool) : SafeGA twins wary i := by
  have h := hop_safeGR (on := fun _ => true) (asks := never) (calls := never) never_all never_all
  exact ⟨h.scopes, h.targets, h.rootInit, h.regions, h.history, h.noneNotDeferred, fun _ => Or.inr fun _ => rfl⟩

section
variable (Ms : Bool → Machine) (sm : SemA Bool Nat (List Nat))

def runOpsGA (fuel n : Nat) : List (Bool × Op Nat) → Hub (Wire Bool) Nat (List Nat) →
    Option (Hub (Wire Bool) Nat (List Nat))
  | [], h => some h
  | x :: xs, h =>
    if opOkGRB (Ms x.1) x.2 then
      match stepGL Ms sm fuel n (.inl x.1) x.2 h with
      | .ok _ h' => runOpsGA fuel n xs h'
      | .throw _ h' => runOpsGA fuel n xs h'
      | _ => none
    else none

def runGA (fuel n : Nat) (d : Bool → Dep) (w : List Nat) (ops : List (Bool × Op Nat)) :
    Option (Hub (Wire Bool) Nat (List Nat)) :=
  match constructG (Ms false) (d false) (), constructG (Ms true) (d true) () with
  | .ok a, .ok b => runOpsGA Ms sm fuel n ops ⟨w, fun l => if l.owner then b else a, none⟩
  | _, _ => none

theorem runOpsGA_runTo {fuel n : Nat} {d : Bool → Dep} {ops : List (Bool × Op Nat)} :
    ∀ {pre : List (Bool × Op Nat)} {h h' : Hub (Wire Bool) Nat (List Nat)}, RunToGA Ms sm d pre h →
    runOpsGA Ms sm fuel n ops h = some h' → RunToGA Ms sm d (pre ++ ops) h' := by
  induction ops with
  | nil => intro pre h h' h1 h2; cases h2; simpa using h1
  | cons x xs ih =>
    intro pre h h' h1 h2
    unfold runOpsGA at h2
    split at h2
    · rename_i hop
      split at h2
      · rename_i heq
        have := ih (.ok h1 (opOkGRB_iff _ hop) heq) h2
        simpa using this
      · rename_i heq
        have := ih (.throw h1 (opOkGRB_iff _ hop) heq) h2
        simpa using this
      · cases h2
    · cases h2

theorem exists_runGA {fuel n : Nat} {d : Bool → Dep} {w : List Nat} {ops : List (Bool × Op Nat)}
    {f : Hub (Wire Bool) Nat (List Nat) → Bool} (h : (runGA Ms sm fuel n d w ops).any f = true) :
    ∃ h, RunToGA Ms sm d ops h ∧ f h = true := by
  cases hr : runGA Ms sm fuel n d w ops with
  | none => rw [hr] at h; cases h
  | some h' =>
    rw [hr] at h
    refine ⟨h', ?_, h⟩
    unfold runGA at hr
    split at hr
    · rename_i a b ha hb
      have : RunToGA Ms sm d [] ⟨w, fun l => if l.owner then b else a, none⟩ :=
        .init fun i => by cases i <;> assumption
      simpa using runOpsGA_runTo Ms sm this hr
    · cases hr

end

/-- C139 applies: event 0 does not move the second machine while the first is in state 1.  When the first moves, its
action finds it in state 2 and sends event 0 to the second, whose guard now consents. -/
example : ∃ h, RunToGA twins wary (fun _ => 7) [(true, .process (ev 0) 1), (false, .process (ev 0) 1)] h ∧
    (h.parts (.inl false)).log.length = 1 ∧ (h.parts (.inl true)).log.length = 1 ∧
    h.user = [100, 100, 1, 100, 1, 20, 20] ∧
    ∀ i, Inside hop (h.parts (.inl i)).cur := by
  obtain ⟨h, hr, hs⟩ := exists_runGA twins wary (fuel := 5) (n := 5) (d := fun _ => 7) (w := [])
    (ops := [(true, .process (ev 0) 1), (false, .process (ev 0) 1)])
    (f := fun h => (h.parts (.inl false)).log.length == 1 && ((h.parts (.inl true)).log.length == 1 &&
      h.user == [100, 100, 1, 100, 1, 20, 20])) (by decide +kernel)
  simp only [Bool.and_eq_true, beq_iff_eq] at hs
  exact ⟨h, hr, hs.1, hs.2.1, hs.2.2, fun i =>
    (C139_places (fun _ => hop_regularG) (fun _ => hop_scopedG) wary_okG hr i).1⟩

/-- It has no undefined behaviour. -/
example {h : Hub (Wire Bool) Nat (List Nat)} {ops : List (Bool × Op Nat)}
    (hr : RunToGA twins wary (fun _ => 7) ops h) (fuel n : Nat) (i : Bool) :
    (stepGL twins wary fuel n (.inl i) (.process (ev 0) 1) h).Defined :=
  C139_safe (fun _ => hop_regularG) wary_safeG wary_okG
    (fun _ => Or.inr (wary_good fun _ _ h => by cases h)) hr fuel n i _ (hop_okG 0 (by decide) 1)

/-- Moves of the second machine have consent of its guards, which ask. -/
example {h : Hub (Wire Bool) Nat (List Nat)} (hr : RunToGA twins wary (fun _ => 7)
    [(false, .process (ev 0) 1)] h) {l1 l2 : List Firing} {f : Firing}
    (hl : (h.parts (.inl true)).log = l1 ++ f :: l2) :
    MoveHasConsent hop hop.candsG (· = 7) Unset (h.parts (.inl true)).trace l1 f := by
  have key : ∀ p, GivesDG hop (· = 7) (.process (ev 0) p) := fun p =>
    ⟨hop_okG 0 (by decide) p, fun _ h => by cases h⟩
  exact C139_moves (D := fun _ => (· = 7)) (fun _ => hop_regularG)
    (wary_good (key 5)) hr (fun _ => rfl)
    (fun x hx => by rw [List.mem_singleton.1 hx]; exact key 1) true hl

/-- Guards of the first machine do not ask, so its moves are those of rows applicable where it was. -/
example {h : Hub (Wire Bool) Nat (List Nat)} {ops : List (Bool × Op Nat)}
    (hr : RunToGA twins wary (fun _ => 7) ops h) {l1 l2 : List Firing} {f : Firing}
    (hl : (h.parts (.inl false)).log = l1 ++ f :: l2) : ExplainedG hop (Memo hop (l1 ++ [f])) f :=
  C139_sources (i := false) (fun _ => hop_regularG) wary_okG hr (fun _ _ _ _ => trivial) hl

/-- The first machine, running, asks the second, in state 1 of the root, whether it is in state 1: yes. -/
example : ∃ (s : SM Nat (Hub (Wire Bool) Nat (List Nat))) (h' : Hub (Wire Bool) Nat (List Nat)),
    s.world.request = some (.inr (true, .state (.st 1)), .setDependency 0) ∧
    At hop (s.world.parts (.inl true)) 0 0 (.st 1) ∧
    Hsm.nested (stepGL twins wary 5 5) (.inl false) (.setDependency 0) s = .ok true (s.rebase h') := by
  have hc : (match constructG hop 7 () with
    | .ok s => (s : SM Nat Unit).cur == [some (hop.comb 0 (.st 1))] | .error _ => false) = true := by
    decide +kernel
  split at hc
  · rename_i s _
    rw [beq_iff_eq] at hc
    have ha : At hop s 0 0 (.st 1) := ⟨by decide +kernel, by decide +kernel, by rw [hc]; rfl⟩
    obtain ⟨h', _, _, h3, _⟩ := C139_answer (Ms := twins) (sem := wary) (i := false) (j := true) (p := 0) (st := .st 1)
      (q := .state (.st 1)) (op := .setDependency 0)
      (s := s.rebase ⟨[], fun _ => s, some (.inr (true, .state (.st 1)), .setDependency 0)⟩)
      (fun _ => hop_regularG) rfl ha 5 5 (.setDependency 0)
    exact ⟨_, h', rfl, ha, h3 _ rfl⟩
  · cases hc

/-- The first machine asks the second for its status, which is not empty. -/
example : ∃ (s : SM Nat (Hub (Wire Bool) Nat (List Nat))) (h' : Hub (Wire Bool) Nat (List Nat)),
    s.world.request = some (.inr (true, .text []), .setDependency 0) ∧
    Hsm.nested (stepGL twins wary 5 5) (.inl false) (.setDependency 0) s = .ok false (s.rebase h') := by
  have hc : (match constructG hop 7 () with
    | .ok s => (match status hop (s : SM Nat Unit) with | .ok l _ => !l.isEmpty | _ => false)
    | .error _ => false) = true := by decide +kernel
  split at hc
  · rename_i s _
    split at hc
    · rename_i l t hl
      obtain ⟨h', _, _, h3⟩ := C139_status (Ms := twins) (sem := wary) (i := false) (j := true) (l := []) (l' := l)
        (op := .setDependency 0)
        (s := s.rebase ⟨[], fun _ => s, some (.inr (true, .text []), .setDependency 0)⟩)
        rfl (by rw [if_neg (by decide)]; exact ⟨t, hl⟩) 5 5 (.setDependency 0)
      refine ⟨_, h', rfl, h3.trans ?_⟩
      cases l with
      | nil => cases hc
      | cons => rfl
    · cases hc
  · cases hc

/-- A callback of the first machine asks whether the second, in state 1, is there, and answers what it is told. -/
example : ∃ (s : SM Nat (Hub (Wire Bool) Nat (List Nat))) (h' : Hub (Wire Bool) Nat (List Nat)),
    runProg (Hsm.nested (stepGL twins wary 5 5) (.inl false))
      ((AProg.ask true (.state (.st 1)) [3] fun r w => .ret (r == .ret true) 0 w).lines.prog (.setDependency 0)
        s.world.parts) s = .ok (true, 0) (s.rebase h') ∧ h'.user = [3] := by
  have hc : (match constructG hop 7 () with
    | .ok s => (s : SM Nat Unit).cur == [some (hop.comb 0 (.st 1))] | .error _ => false) = true := by
    decide +kernel
  split at hc
  · rename_i s _
    rw [beq_iff_eq] at hc
    obtain ⟨h', _, _, h3⟩ := C139_ask (Ms := twins) (sem := wary) (α := Bool) (s.rebase ⟨[], fun _ => s, none⟩)
      false true (.state (.st 1)) [3] (fun r w => .ret (r == .ret true) 0 w) 5 5 (.setDependency 0)
    have ha : At (twins true) (s.rebase h') 0 0 (.st 1) :=
      ⟨by decide +kernel, by decide +kernel, by show s.cur[0]? = _; rw [hc]; rfl⟩
    refine ⟨_, ⟨[3], h'.parts, none⟩, h3.trans ?_, rfl⟩
    have e : Question.put (twins true) (.state (.st 1)) (SM.rebase ((s.rebase ⟨[], fun _ => s, none⟩ :
        SM Nat (Hub (Wire Bool) Nat (List Nat))).world.parts (.inl true)) h') = .ok true (s.rebase h') :=
      (answersG hop_regularG.laid ha 0 (.st 1)).2.1
    rw [if_neg (by decide), e]
    rfl
  · cases hc

/-- The first machine, running, asks the second, in state 1 of the root, whether region 256, that is
region 0, is in state 2: no. -/
example : ∃ (s : SM Nat (Hub (Wire Bool) Nat (List Nat))) (h' : Hub (Wire Bool) Nat (List Nat)),
    s.world.request = some (.inr (true, .region 256 0 (.st 2)), .setDependency 0) ∧
    At hop (s.world.parts (.inl true)) 0 0 (.st 1) ∧
    Hsm.nested (stepGL twins wary 5 5) (.inl false) (.setDependency 0) s = .ok false (s.rebase h') := by
  have hc : (match constructG hop 7 () with
    | .ok s => (s : SM Nat Unit).cur == [some (hop.comb 0 (.st 1))] | .error _ => false) = true := by
    decide +kernel
  split at hc
  · rename_i s _
    rw [beq_iff_eq] at hc
    have ha : At hop s 0 0 (.st 1) := ⟨by decide +kernel, by decide +kernel, by rw [hc]; rfl⟩
    obtain ⟨h', _, _, h3⟩ := C139_region (Ms := twins) (sem := wary) (i := false) (j := true)
      (p0 := 0) (p := 0) (st0 := .st 1) (st := .st 1) (op := .setDependency 0)
      (s := s.rebase ⟨[], fun _ => s, some (.inr (true, .region 256 0 (.st 2)), .setDependency 0)⟩)
      (fun _ => hop_regularG) rfl ha ha 5 5 (.setDependency 0)
    exact ⟨_, h', rfl, ha, h3⟩
  · cases hc

/-- A call of the second machine asks the first, and changes nothing of it. -/
example (fuel n : Nat) (h h' : Hub (Wire Bool) Nat (List Nat)) (b : Bool)
    (hs : stepGL twins { wary with action := fun _ c _ p w => .ret () p (w ++ [c]) } fuel n (.inl true)
      (.process (ev 0) 1) h = .ok b h') : h'.parts (.inl false) = h.parts (.inl false) :=
  C139_untouched (fun _ => hop_regularG) (sem := { wary with action := fun _ c _ p w => .ret () p (w ++ [c]) })
    ⟨fun i g a p w => by
      show (ite _ _ _ : AProg Bool Nat (List Nat) Bool).Good _ _
      split
      · exact fun _ _ => trivial
      · trivial, fun _ _ _ _ _ => trivial, fun _ _ _ _ _ _ _ => trivial⟩
    (hop_okG 0 (by decide) 1) (by decide) (Or.inl ⟨b, hs⟩)

end Ex
end Hsm
