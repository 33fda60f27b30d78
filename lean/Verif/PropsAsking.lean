import Verif.Asking
import Verif.PropsSystems
import Verif.PropsParts

/-!
# C138: callbacks may ask machines where they are
-/

namespace Hsm

/-! ## Invariants -/

section
variable {ι P W : Type}

/-- What holds of machines, and of lines to ask them nothing. -/
def onWire {α : Type} (I : ι → α → Prop) : Wire ι → α → Prop
  | .inl i => I i
  | .inr _ => fun _ => True

theorem AProg.Good.lines {α : Type} {V : Prop} {Q : ι → Op P → Prop} : ∀ {pr : AProg ι P W α}, pr.Good V Q →
    pr.lines.Good V (onWire Q) := by
  intro pr
  induction pr with
  | ret => intro _; trivial
  | throw => intro _; trivial
  | ub => intro h; exact h
  | call i op w k ih => intro h; exact ⟨h.1, fun r w => ih r w (h.2 r w)⟩
  | ask i q w k ih => intro h; exact ⟨trivial, fun r w => ih r w (h r w)⟩

theorem SemA.Good.lines {V : Prop} {Q : ι → Op P → Prop} {sem : SemA ι P W} (h : sem.Good V Q) :
    sem.lines.Good V (onWire Q) :=
  ⟨fun l g a p w => (h.guard l.owner g a p w).lines, fun l c a p w => (h.action l.owner c a p w).lines,
    fun l c e st d p w => (h.handler l.owner c e st d p w).lines⟩

variable [DecidableEq ι] {Ms : ι → Machine} {sem : SemA ι P W} {U : UB → Prop} {Q : ι → Op P → Prop}
  {I : ι → SM P (Hub (Wire ι) P W) → Prop} {R : ι → Nat → Prop}
  {E : ι → EventTy → Nat → Entry → SM P (Hub (Wire ι) P W) → Prop} {V : ι → EventTy → Prop}

omit [DecidableEq ι] in
theorem Upkeep.refl {κ : Type} {I : κ → SM P (Hub κ P W) → Prop} {h h' : Hub κ P W} (hh : AllKeep I h)
    (he : h'.parts = h.parts) : Upkeep I h h' :=
  ⟨fun j w => by rw [he]; exact hh j w, fun j => by rw [he]; exact .refl _⟩

/-- Invariants of calls and questions. -/
theorem stepL_keeps
    (K : ∀ i o, Q i o → Keeps (Ms i) (sem.lines.at (.inl i) o) U (Q i) (R i) (I i) (E i) (V i))
    (hw : ∀ i s w, I i s → I i { s with world := w }) (hg : sem.Good (U .callback) Q)
    (hq : ∀ i (q : Question) s u, I i s → q.put (Ms i) s = .ub u → U u) (fuel : Nat) :
    ∀ n l op h, onWire Q l op → AllKeep (onWire I) h →
      (stepL Ms sem fuel n l op h).SatU U (fun _ => Upkeep (onWire I) h) (fun _ => Upkeep (onWire I) h) := by
  have hw' : ∀ (l : Wire ι) s w, onWire I l s → onWire I l { s with world := w } := by
    rintro (i | x) s w h
    · exact hw i s w h
    · trivial
  have ask : ∀ i (q : Question) h, AllKeep (onWire I) h →
      ((q.put (Ms i) (h.fetch (.inl i))).told { h with request := none }).SatU U
        (fun _ => Upkeep (onWire I) h) (fun _ => Upkeep (onWire I) h) := by
    intro i q h hh
    cases hr : q.put (Ms i) (h.fetch (.inl i)) with
    | ok b s => exact Upkeep.refl hh rfl
    | throw x s => exact Upkeep.refl hh rfl
    | ub u => exact hq i q _ u (hh (.inl i) _) hr
    | timeout => trivial
  intro n
  induction n with
  | zero =>
    rintro (i | ⟨i, q⟩) op h _ hh
    · trivial
    · exact ask i q h hh
  | succ n ih =>
    rintro (i | ⟨i, q⟩) op h ho hh
    case inr => exact ask i q h hh
    have hk := K i op ho
    have hkl : KeepsLoop (Ms i) (sem.lines.at (.inl i) op) U (onWire Q (.inl i)) (R i) (onWire I (.inl i)) (E i) (V i) :=
      hk.toKeepsLoop
    have hamongst : Amongst (onWire Q) (onWire I) (.inl i) h (h.fetch (.inl i)).world :=
      ⟨fun j _ => ⟨hh j, .refl _⟩, fun _ _ hr => by cases hr⟩
    cases op with
    | process ev p =>
      exact Amongst.home (Q := onWire Q) (hw' (.inl i))
        ((KeepsLoop.among (Ms := fun l : Wire ι => Ms l.owner) (i := .inl i) (hw' (.inl i)) hkl ho hg.lines h).processEvent
        (held_nested hw' ih) fuel
        (hk.opOk _ ho).event ho (h.fetch (.inl i)) ⟨hh (.inl i) _, hamongst⟩)
    | set r p st =>
      refine Amongst.home (Q := onWire Q) (hw' (.inl i)) ?_
      show (Res.bind (setOp (Ms i) r p st (h.fetch (.inl i))) _).Lasts _ _ _
      unfold setOp
      split
      · rename_i hr
        exact ⟨⟨hk.set _ r p st ho (hh (.inl i) _) hr, hamongst⟩, .of_eq rfl rfl⟩
      · exact ⟨⟨hh (.inl i) _, hamongst⟩, .refl _⟩
    | setDependency d =>
      refine Amongst.home (Q := onWire Q) (hw' (.inl i)) ?_
      show (Res.bind (setDependency (Ms i) d (h.fetch (.inl i))) _).Lasts _ _ _
      have := hk.dep (h.fetch (.inl i)) d ho (hh (.inl i) _)
      unfold setDependency at this ⊢
      split at this
      · exact ⟨⟨this, hamongst⟩, .of_eq rfl rfl⟩
      · exact this

/-- Invariants of histories. -/
theorem RunToA.inv {d : ι → Dep}
    (K : ∀ i o, Q i o → Keeps (Ms i) (sem.lines.at (.inl i) o) (fun _ => True) (Q i) (R i) (I i) (E i) (V i))
    (hw : ∀ i s w, I i s → I i { s with world := w }) (hg : sem.Good True Q)
    (base : ∀ i w s, construct (Ms i) (d i) w = .ok s → I i s)
    {ops : List (ι × Op P)} {h : Hub (Wire ι) P W} (hr : RunToA Ms sem d ops h) (hops : ∀ x ∈ ops, Q x.1 x.2) :
    AllKeep (onWire I) h := by
  induction hr with
  | init hi =>
    rintro (j | x) w
    · exact base j w _ (construct_rebase (hi j))
    · trivial
  | @ok h h' ops i op fuel n b hr hop hs ih =>
    have := stepL_keeps K hw hg (fun _ _ _ _ _ _ => trivial) fuel n (.inl i) op h (hops (i, op) (by simp))
      (ih fun x hx => hops x (by simp [hx]))
    rw [hs] at this
    exact this.whole
  | @throw h h' ops i op fuel n x hr hop hs ih =>
    have := stepL_keeps K hw hg (fun _ _ _ _ _ _ => trivial) fuel n (.inl i) op h (hops (i, op) (by simp))
      (ih fun x hx => hops x (by simp [hx]))
    rw [hs] at this
    exact this.whole
  | world hr w ih => exact ih hops

theorem SemA.Good.at {Q : ι → Op P → Prop} {V : Prop} (h : sem.Good V Q) (i : ι) {o : Op P} {Q' : Op P → Prop}
    (ho : Q' o) : (sem.lines.at (.inl i) o).Good V Q' := h.lines.at (.inl i) ho

end

/-! ## C138 -/

section
variable {ι P W : Type} [DecidableEq ι] {Ms : ι → Machine} {sem : SemA ι P W} {d : ι → Dep}
  {ops : List (ι × Op P)} {h : Hub (Wire ι) P W}

theorem RunToA.opOk (hr : RunToA Ms sem d ops h) : ∀ x ∈ ops, OpOk (Ms x.1) x.2 := by
  induction hr with
  | init => simp
  | ok _ hop _ ih =>
    intro x hx
    rcases List.mem_append.1 hx with hx | hx
    · exact ih x hx
    · rw [List.mem_singleton.1 hx]; exact hop
  | throw _ hop _ ih =>
    intro x hx
    rcases List.mem_append.1 hx with hx | hx
    · exact ih x hx
    · rw [List.mem_singleton.1 hx]; exact hop
  | world _ _ ih => exact ih

/-- C138: callbacks may also ask.  Every machine is always, and was at each of its callbacks and before and
after each of its moves, at declared locations, and every move is to the destination of a declared external
row. -/
theorem C138_places (hM : ∀ i, (Ms i).Regular) (hS : ∀ i, (Ms i).Scoped)
    (hg : sem.Good True (fun i => OpOk (Ms i))) (hr : RunToA Ms sem d ops h) (i : ι) :
    Inside (Ms i) (h.parts (.inl i)).cur ∧ (∀ c ∈ (h.parts (.inl i)).trace, Inside (Ms i) c.cur) ∧
    ∀ l1 f l2, (h.parts (.inl i)).log = l1 ++ f :: l2 →
      Inside (Ms i) f.before ∧ Inside (Ms i) f.after ∧ Landed (Ms i) (Memo (Ms i) (l1 ++ [f])) f := by
  have hl : Landing (Ms i) ((h.parts (.inl i)).rebase h) :=
    hr.inv (I := fun i => Landing (Ms i)) (fun i _ ho => Keeps.landing (hM i) (hS i) (hg.at i ho))
    (fun _ _ _ h => h.of_eq rfl rfl rfl rfl rfl rfl rfl) hg (fun i _ _ h => landing_construct (hM i) h)
    hr.opOk (.inl i) h
  refine ⟨inside_of_lt (hM i) hl.slots.cur, fun c hc => inside_of_lt (hM i) (hl.trace c hc), ?_⟩
  intro l1 f l2 he
  obtain ⟨h1, h2, h3⟩ := hl.moves l1 f l2 he
  exact ⟨inside_of_lt (hM i) h1, inside_of_lt (hM i) h2, h3⟩

theorem RunToA.agreed {D : ι → Dep → Prop} {S : ι → Nat → Name → StTy → Prop} (hM : ∀ i, (Ms i).Regular)
    (hg : sem.Good True (fun i => GivesDS (Ms i) (D i) (S i))) (hr : RunToA Ms sem d ops h)
    (hd : ∀ i, D i (d i)) (hops : ∀ x ∈ ops, GivesDS (Ms x.1) (D x.1) (S x.1) x.2) (i : ι) :
    Agreed (Ms i) (Ms i).cands (D i) (S i) (h.fetch (.inl i)) :=
  hr.inv (I := fun i => Agreed (Ms i) (Ms i).cands (D i) (S i))
    (fun i _ ho => Keeps.agreed (hM i) (hg.at i ho)) (fun _ _ _ h => h.of_eq rfl rfl rfl rfl rfl rfl) hg
    (fun i _ _ hc => agreed_construct (hM i) (hd i) hc) hops (.inl i) _

/-- C138: every move has consent, as in C95, of a guard called for the same machine. -/
theorem C138_moves {D : ι → Dep → Prop} {S : ι → Nat → Name → StTy → Prop} (hM : ∀ i, (Ms i).Regular)
    (hg : sem.Good True (fun i => GivesDS (Ms i) (D i) (S i))) (hr : RunToA Ms sem d ops h)
    (hd : ∀ i, D i (d i)) (hops : ∀ x ∈ ops, GivesDS (Ms x.1) (D x.1) (S x.1) x.2) (i : ι)
    {l1 l2 : List Firing} {f : Firing} (hl : (h.parts (.inl i)).log = l1 ++ f :: l2) :
    MoveHasConsent (Ms i) (Ms i).cands (D i) (S i) (h.parts (.inl i)).trace l1 f :=
  (hr.agreed hM hg hd hops i).consent.moves l1 f l2 hl

/-- C138: every callback of a row has consent, as in C95. -/
theorem C138_actions {D : ι → Dep → Prop} {S : ι → Nat → Name → StTy → Prop} (hM : ∀ i, (Ms i).Regular)
    (hg : sem.Good True (fun i => GivesDS (Ms i) (D i) (S i))) (hr : RunToA Ms sem d ops h)
    (hd : ∀ i, D i (d i)) (hops : ∀ x ∈ ops, GivesDS (Ms x.1) (D x.1) (S x.1) x.2) (i : ι)
    {t0 t1 : List (Call P)} {ph : Phase} {a : Cb} {args : Args} {q : P} {b : Bool}
    {cur : List (Option Nat)} (ht : (h.parts (.inl i)).trace = t0 ++ .action ph a args q b cur :: t1) :
    ActionHasConsent (Ms i) (Ms i).cands (D i) (S i) (h.parts (.inl i)).log t0 ph a args :=
  (hr.agreed hM hg hd hops i).consent.acts t0 ph a args q b cur t1 ht

omit [DecidableEq ι] in
theorem SemA.QuietGuards.lines {i : ι} (h : sem.QuietGuards i) : sem.lines.QuietGuards (.inl i) := by
  intro g a p w
  show (AProg.lines (sem.guard i g a p w)).Good _ _
  have := h g a p w
  revert this
  cases sem.guard i g a p w <;> intro hq <;> trivial

/-- C138: callbacks of every machine are those its tables provide for, as in C66; guards of a machine whose guards
neither call nor ask are called only where their rows apply. -/
theorem C138_declared {D : ι → Dep → Prop} (hM : ∀ i, (Ms i).Regular) (hS : ∀ i, (Ms i).Scoped)
    (hg : sem.Good True (fun i => GivesD (Ms i) (D i))) (hr : RunToA Ms sem d ops h)
    (hd : ∀ i, D i (d i)) (hops : ∀ x ∈ ops, GivesD (Ms x.1) (D x.1) x.2) (i : ι) :
    ∀ c ∈ (h.parts (.inl i)).trace, Declared (Ms i) (D i) (d i) (sem.QuietGuards i) c := by
  have : Supplied (Ms i) (D i) (d i) (sem.QuietGuards i) ((h.parts (.inl i)).rebase h) :=
    hr.inv (I := fun i => Supplied (Ms i) (D i) (d i) (sem.QuietGuards i))
    (fun i o ho => Keeps.supplied (hM i) (hS i) (hg.at i ho) (fun h => h.lines.at o))
    (fun _ _ _ h => h.of_eq rfl rfl rfl rfl rfl rfl rfl) hg
    (fun i w s hc => by
      obtain ⟨_, ⟨H, hH, hHs⟩, hT, _, _, _, _, _, htr, _⟩ := construct_ok hc
      have ht := (RunTo.init (sem := (sem.lines.at (.inl i) (.setDependency 0)).still) hc).tables (hM i)
      exact ⟨landing_construct (hM i) hc, ⟨_, by simpa [depsOf] using hd i, ht.1⟩, ht.2, by rw [htr]; simp⟩)
    hops (.inl i) h
  exact this.calls

open Classical in
/-- C138: every move of a machine whose guards neither call nor ask is one of a row applicable where it was. -/
theorem C138_sources (hM : ∀ i, (Ms i).Regular) (hS : ∀ i, (Ms i).Scoped)
    (hg : sem.Good True (fun i => OpOk (Ms i))) (hr : RunToA Ms sem d ops h) {i : ι}
    (hq : sem.QuietGuards i) {l1 l2 : List Firing} {f : Firing}
    (hl : (h.parts (.inl i)).log = l1 ++ f :: l2) : Explained (Ms i) (Memo (Ms i) (l1 ++ [f])) f := by
  let I : ι → SM P (Hub (Wire ι) P W) → Prop := fun j => if sem.QuietGuards j then (fun s => Landing (Ms j) s ∧
      ∀ l1 f l2, s.log = l1 ++ f :: l2 → Explained (Ms j) (Memo (Ms j) (l1 ++ [f])) f) else Landing (Ms j)
  let E : ι → EventTy → Nat → Entry → SM P (Hub (Wire ι) P W) → Prop := fun j =>
    if sem.QuietGuards j then Here (Ms j) else fun ev _ e _ => Somewhere (Ms j) ev e
  have : I i ((h.parts (.inl i)).rebase h) :=
    hr.inv (I := I) (E := E) (R := fun _ _ => True) (V := fun _ _ => True) (fun j o ho => by
      by_cases hj : sem.QuietGuards j
      · simp only [I, E, if_pos hj]; exact Keeps.explained (hM j) (hS j) (hg.at j ho) (hj.lines.at o)
      · simp only [I, E, if_neg hj]; exact Keeps.landing (hM j) (hS j) (hg.at j ho))
    (fun j s w hs => by
      by_cases hj : sem.QuietGuards j
      · simp only [I, if_pos hj] at hs ⊢; exact ⟨hs.1.of_eq rfl rfl rfl rfl rfl rfl rfl, hs.2⟩
      · simp only [I, if_neg hj] at hs ⊢; exact hs.of_eq rfl rfl rfl rfl rfl rfl rfl) hg
    (fun j w s hc => by
      by_cases hj : sem.QuietGuards j
      · simp only [I, if_pos hj]; exact ⟨landing_construct (hM j) hc, (logOk_construct (hM j) hc).moves⟩
      · simp only [I, if_neg hj]; exact landing_construct (hM j) hc) hr.opOk (.inl i) h
  simp only [I, if_pos hq] at this
  exact this.2 l1 f l2 hl

theorem SafeA.at {i : ι} (hS : SafeA Ms sem i) {Q : ι → Op P → Prop} (hg : sem.Good False Q)
    {o : Op P} (ho : OpOk (Ms i) o) : SafeR (Ms i) (sem.lines.at (.inl i) o) where
  scopes := hS.scopes
  regions := hS.regions
  history := hS.history
  noneNotDeferred := hS.noneNotDeferred
  objects := fun st => (hS.objects st).imp id fun h w => h w.user
  callbacks := hg.at i ho

omit [DecidableEq ι] in
theorem AProg.Good.mono {α : Type} {V V' : Prop} {Q Q' : ι → Op P → Prop} (hV : V → V')
    (hQ : ∀ i op, Q i op → Q' i op) : ∀ {pr : AProg ι P W α}, pr.Good V Q → pr.Good V' Q' := by
  intro pr
  induction pr with
  | ret => intro _; trivial
  | throw => intro _; trivial
  | ub => intro h; exact hV h
  | call j op w k ih => intro h; exact ⟨hQ _ _ h.1, fun r w => ih r w (h.2 r w)⟩
  | ask j q w k ih => intro h; exact fun r w => ih r w (h r w)

omit [DecidableEq ι] in
theorem SemA.Good.mono {V V' : Prop} {Q Q' : ι → Op P → Prop} (hV : V → V')
    (hQ : ∀ i op, Q i op → Q' i op) (h : sem.Good V Q) : sem.Good V' Q' :=
  ⟨fun i g a p w => (h.guard i g a p w).mono hV hQ, fun i c a p w => (h.action i c a p w).mono hV hQ,
    fun i c e st d p w => (h.handler i c e st d p w).mono hV hQ⟩

omit [DecidableEq ι] in
/-- Questions to safe machines are defined. -/
theorem Solid.question {M : Machine} {W : Type} {s : SM P W} (hM : M.Regular) (hs : Solid M s) (q : Question) :
    (q.put M s).Defined := by
  obtain ⟨h1, h2, h3, h4⟩ := hs.observers hM
  cases q with
  | state st => exact h1 st
  | parent p st => exact h3 0 p st
  | region r p st => exact h3 r p st
  | within p => exact h2 p
  | text l => exact h4.bind fun _ _ _ => Res.defined_ok

theorem RunToA.solid (hM : ∀ i, (Ms i).Regular) (hS : ∀ i, SafeA Ms sem i)
    (hg : sem.Good False (fun i => OpOk (Ms i))) (hr : RunToA Ms sem d ops h) :
    AllKeep (onWire fun i => Solid (Ms i)) h :=
  hr.inv (fun i _ ho => Keeps.solid (hM i) ((hS i).at hg ho) (fun _ _ _ _ _ _ _ _ _ _ => trivial))
    (fun _ _ _ h => h.of_eq rfl rfl rfl rfl rfl rfl) (hg.mono False.elim fun _ _ h => h)
    (fun i _ _ hc => Reach.solid (hM i) ((hS i).at hg (o := .setDependency 0) trivial).safe ⟨d i, [], .init hc⟩)
    hr.opOk

/-- C138: only loops over table cells that are pushed to meanwhile can go wrong in a program of safe
machines: questions never do, whoever asks and while whatever is running. -/
theorem C138_only_iterators (hM : ∀ i, (Ms i).Regular) (hS : ∀ i, SafeA Ms sem i)
    (hg : sem.Good False (fun i => OpOk (Ms i))) (hr : RunToA Ms sem d ops h) (fuel n : Nat) (i : ι) (op : Op P)
    (u : UB) (hop : OpOk (Ms i) op) (hu : stepL Ms sem fuel n (.inl i) op h = .ub u) : u = .iterator := by
  have := stepL_keeps (U := (· = .iterator)) (I := fun i => Solid (Ms i))
    (fun i o ho => Keeps.solid (hM i) ((hS i).at hg ho) (fun _ _ _ _ _ _ _ _ _ _ => rfl))
    (fun _ _ _ h => h.of_eq rfl rfl rfl rfl rfl rfl) (hg.mono False.elim fun _ _ h => h)
    (fun i q s u hs hu => absurd hu (hs.question (hM i) q u)) fuel n (.inl i) op h hop
    (hr.solid hM hS hg)
  rw [hu] at this
  exact this

/-! ### Questions -/

/-- C138: a question of a callback of machine `i` changes nothing, and is answered by the present members of the
machine asked, also if that is `i`. -/
theorem C138_question {s : SM P (Hub (Wire ι) P W)} {i j : ι} {q : Question} {op : Op P}
    (hq : s.world.request = some (.inr (j, q), op)) (fuel n : Nat) (o : Op P) :
    ∃ h', h'.user = s.world.user ∧ (∀ l, l ≠ .inl i → h'.parts l = s.world.parts l) ∧
      nested (stepL Ms sem fuel n) (.inl i) o s =
        match q.put (Ms j) (if j = i then s.rebase h' else (s.world.parts (.inl j)).rebase h') with
        | .ok b _ => .ok b (s.rebase h')
        | .throw x _ => .throw x (s.rebase h')
        | .ub u => .ub u
        | .timeout => .timeout := by
  refine ⟨{ s.world.store (.inl i) s with request := none }, rfl, fun l hl => if_neg hl, ?_⟩
  have h1 : (s.world.store (.inl i) s).fetch (.inl j) = if j = i
      then s.rebase { s.world.store (.inl i) s with request := none }
      else (s.world.parts (.inl j)).rebase { s.world.store (.inl i) s with request := none } := by
    show SM.rebase (if (.inl j : Wire ι) = .inl i then s.rebase () else s.world.parts (.inl j)) _ = _
    by_cases hj : j = i
    · rw [if_pos (congrArg _ hj), if_pos hj]; rfl
    · rw [if_neg (fun h => hj (Sum.inl.inj h)), if_neg hj]
  have h2 : Hub.fetch { s.world.store (.inl i) s with request := none } (.inl i) =
      s.rebase { s.world.store (.inl i) s with request := none } := by
    show SM.rebase (if (.inl i : Wire ι) = .inl i then s.rebase () else s.world.parts (.inl i)) _ = _
    rw [if_pos rfl]; rfl
  unfold nested
  rw [hq]
  have h3 : stepL Ms sem fuel n (.inr (j, q)) op (s.world.store (.inl i) s) =
      (q.put (Ms j) ((s.world.store (.inl i) s).fetch (.inl j))).told
        { s.world.store (.inl i) s with request := none } := by
    cases n <;> rfl
  dsimp only
  rw [h3, h1]
  cases q.put (Ms j) (if j = i then s.rebase { s.world.store (.inl i) s with request := none }
      else (s.world.parts (.inl j)).rebase { s.world.store (.inl i) s with request := none }) with
  | ok b t => exact congrArg (Res.ok b) h2
  | throw x t => exact congrArg (Res.throw x) h2
  | ub u => rfl
  | timeout => rfl

/-- C138: if region 0 of the machine asked is at `(p, st)` when the question is put, `is(tt)` tells whether `tt` is
`st`, `parent_is(p')` whether `p'` is `p`, and `is(p', tt)` whether both hold. -/
theorem C138_answer (hM : ∀ i, (Ms i).Regular) {s : SM P (Hub (Wire ι) P W)} {i j : ι} {q : Question} {op : Op P}
    (hq : s.world.request = some (.inr (j, q), op)) {p : Name} {st : StTy}
    (ha : if j = i then At (Ms j) s 0 p st else At (Ms j) (s.world.parts (.inl j)) 0 p st) (fuel n : Nat) (o : Op P) :
    ∃ h', h'.user = s.world.user ∧ (∀ l, l ≠ .inl i → h'.parts l = s.world.parts l) ∧
      (∀ tt, q = .state tt → nested (stepL Ms sem fuel n) (.inl i) o s = .ok (decide (tt = st)) (s.rebase h')) ∧
      (∀ p', q = .within p' → nested (stepL Ms sem fuel n) (.inl i) o s = .ok (decide (p' = p)) (s.rebase h')) ∧
      ∀ p' tt, q = .parent p' tt →
        nested (stepL Ms sem fuel n) (.inl i) o s = .ok (decide (p' = p ∧ tt = st)) (s.rebase h') := by
  obtain ⟨h', h1, h2, h3⟩ := C138_question (Ms := Ms) (sem := sem) hq fuel n o
  have ha' : At (Ms j) (if j = i then s.rebase h' else (s.world.parts (.inl j)).rebase h') 0 p st := by
    by_cases hj : j = i
    · rw [if_pos hj] at ha ⊢; exact ha
    · rw [if_neg hj] at ha ⊢; exact ha
  refine ⟨h', h1, h2, ?_, ?_, ?_⟩
  · rintro tt rfl; rw [h3]; simp only [Question.put, (answers (hM j) ha' p tt).2.1]
  · rintro p' rfl; rw [h3]; simp only [Question.put, (answers (hM j) ha' p' st).1]
  · rintro p' tt rfl; rw [h3]; simp only [Question.put, (answers (hM j) ha' p' tt).2.2]

/-- C138: if region 0 of the machine asked is in composite `p0` and region `r` at `(p, st)` when the question is put,
`is(r, q, tt)` tells whether `q` is `p0` and `tt` is `st`. -/
theorem C138_region (hM : ∀ i, (Ms i).Regular) {s : SM P (Hub (Wire ι) P W)} {i j : ι} {op : Op P} {r : Nat}
    {q : Name} {tt : StTy} (hq : s.world.request = some (.inr (j, .region r q tt), op)) {p0 p : Name} {st0 st : StTy}
    (h0 : if j = i then At (Ms j) s 0 p0 st0 else At (Ms j) (s.world.parts (.inl j)) 0 p0 st0)
    (ha : if j = i then At (Ms j) s (r % 256) p st else At (Ms j) (s.world.parts (.inl j)) (r % 256) p st)
    (fuel n : Nat) (o : Op P) :
    ∃ h', h'.user = s.world.user ∧ (∀ l, l ≠ .inl i → h'.parts l = s.world.parts l) ∧
      nested (stepL Ms sem fuel n) (.inl i) o s = .ok (decide (q = p0 ∧ tt = st)) (s.rebase h') := by
  obtain ⟨h', h1, h2, h3⟩ := C138_question (Ms := Ms) (sem := sem) hq fuel n o
  have up : ∀ {k : Nat} {p : Name} {st : StTy},
      (if j = i then At (Ms j) s k p st else At (Ms j) (s.world.parts (.inl j)) k p st) →
      At (Ms j) (if j = i then s.rebase h' else (s.world.parts (.inl j)).rebase h') k p st := by
    intro k p st ha
    by_cases hj : j = i
    · rw [if_pos hj] at ha ⊢; exact ha
    · rw [if_neg hj] at ha ⊢; exact ha
  refine ⟨h', h1, h2, ?_⟩
  rw [h3]; simp only [Question.put, C53_answer (hM j) (up h0) (up ha) q tt]

/-- C138: a callback that asks goes on, in the same program, with the answer of the present members of the machine
asked. -/
theorem C138_ask {α : Type} (s : SM P (Hub (Wire ι) P W)) (i j : ι) (q : Question) (w : W)
    (k : Reply → W → AProg ι P W α) (fuel n : Nat) (o : Op P) :
    ∃ h', h'.user = w ∧ (∀ l, l ≠ .inl i → h'.parts l = s.world.parts l) ∧
      runProg (nested (stepL Ms sem fuel n) (.inl i)) ((AProg.ask j q w k).lines.prog o s.world.parts) s =
        match q.put (Ms j) (if j = i then s.rebase h' else (s.world.parts (.inl j)).rebase h') with
        | .ok b _ => runProg (nested (stepL Ms sem fuel n) (.inl i)) ((k (.ret b) w).lines.prog o h'.parts) (s.rebase h')
        | .throw x _ =>
          runProg (nested (stepL Ms sem fuel n) (.inl i)) ((k (.threw x) w).lines.prog o h'.parts) (s.rebase h')
        | .ub u => .ub u
        | .timeout => .timeout := by
  obtain ⟨h', h1, h2, h3⟩ := C138_question (Ms := Ms) (sem := sem) (i := i) (j := j) (q := q) (op := .setDependency 0)
    (s := { s with world := ⟨w, s.world.parts, some (.inr (j, q), .setDependency 0)⟩ }) rfl fuel n o
  refine ⟨h', h1, h2, ?_⟩
  have h1 : h'.user = w := h1
  simp only [AProg.lines, SProg.prog, runProg]
  rw [h3]
  have e : SM.rebase ({ s with world := ⟨w, s.world.parts, some (.inr (j, q), .setDependency 0)⟩ } :
      SM P (Hub (Wire ι) P W)) h' = s.rebase h' := rfl
  simp only [e]
  cases q.put (Ms j) (if j = i then s.rebase h' else (s.world.parts (.inl j)).rebase h') <;> subst h1 <;> rfl

omit [DecidableEq ι] in
theorem statusLoop_rebase {M : Machine} {W W' : Type} {rs : List Nat} {s t : SM P W} {l : List StatusRec}
    (h : statusLoop M rs s = .ok l t) (w : W') : statusLoop M rs (s.rebase w) = .ok l (s.rebase w) := by
  induction rs generalizing l t with
  | nil => cases h; rfl
  | cons r rs ih =>
    unfold statusLoop at h ⊢
    simp only [readCur, currentParent, currentState, atCur, SM.rebase] at h ih ⊢
    cases hr : s.cur[r]? with
    | none => rw [hr] at h; cases h
    | some c =>
      cases c with
      | none => rw [hr] at h; cases h
      | some c =>
        cases h0 : s.cur[0]? with
        | none => simp [hr, h0, Res.bind] at h
        | some c0 =>
          cases c0 with
          | none => simp [hr, h0, Res.bind] at h
          | some c0 =>
            simp only [hr, h0, Res.bind] at h ⊢
            cases hl : statusLoop M rs s with
            | ok l1 t1 => rw [hl] at h; cases h; rw [ih hl]
            | throw x t1 => rw [hl] at h; cases h
            | ub u => rw [hl] at h; cases h
            | timeout => rw [hl] at h; cases h

/-- C138: status is told to be `l` if it is. -/
theorem C138_status {s : SM P (Hub (Wire ι) P W)} {i j : ι} {l l' : List StatusRec} {op : Op P}
    (hq : s.world.request = some (.inr (j, .text l), op))
    (hs : if j = i then ∃ t, status (Ms j) s = .ok l' t else ∃ t, status (Ms j) (s.world.parts (.inl j)) = .ok l' t)
    (fuel n : Nat) (o : Op P) :
    ∃ h', h'.user = s.world.user ∧ (∀ l, l ≠ .inl i → h'.parts l = s.world.parts l) ∧
      nested (stepL Ms sem fuel n) (.inl i) o s = .ok (decide (l' = l)) (s.rebase h') := by
  obtain ⟨h', h1, h2, h3⟩ := C138_question (Ms := Ms) (sem := sem) hq fuel n o
  have ht : status (Ms j) (if j = i then s.rebase h' else (s.world.parts (.inl j)).rebase h') =
      .ok l' (if j = i then s.rebase h' else (s.world.parts (.inl j)).rebase h') := by
    by_cases hj : j = i
    · rw [if_pos hj] at hs ⊢; exact hs.elim fun _ ht => statusLoop_rebase ht h'
    · rw [if_neg hj] at hs ⊢; exact hs.elim fun _ ht => statusLoop_rebase ht h'
  refine ⟨h', h1, h2, ?_⟩
  rw [h3]; simp only [Question.put, ht, Res.bind]

/-- C138: a call changes no machine that is not called, even if it is asked. -/
theorem C138_untouched {j : ι} (hg : sem.Good True (fun i op => OpOk (Ms i) op ∧ i ≠ j)) {fuel n : Nat} {i : ι}
    {op : Op P} {h' : Hub (Wire ι) P W} (hop : OpOk (Ms i) op) (hi : i ≠ j)
    (hs : (∃ b, stepL Ms sem fuel n (.inl i) op h = .ok b h') ∨ ∃ x, stepL Ms sem fuel n (.inl i) op h = .throw x h') :
    h'.parts (.inl j) = h.parts (.inl j) := by
  have := stepL_keeps (U := fun _ => True) (Q := fun i op => OpOk (Ms i) op ∧ i ≠ j)
    (I := fun l s => l = j → s.rebase () = h.parts (.inl j)) (R := fun _ _ => True)
    (E := fun _ _ _ _ _ => True) (V := fun _ _ => True)
    (fun l o ho => by
      have he : (fun s : SM P (Hub (Wire ι) P W) => l = j → s.rebase () = h.parts (.inl j)) = fun _ => True :=
        funext fun s => eq_true fun hl => (ho.2 hl).elim
      rw [he]
      exact Keeps.nothing (hg.at l (Q' := fun op => OpOk (Ms l) op ∧ l ≠ j) ho) fun _ h => h.1)
    (fun _ _ _ h => h) hg (fun _ _ _ _ _ _ => trivial) fuel n (.inl i) op h ⟨hop, hi⟩ (by
      rintro (l | x) w
      · intro hl; subst hl; rfl
      · trivial)
  rcases hs with ⟨b, hs⟩ | ⟨x, hs⟩ <;> rw [hs] at this
  · exact this.whole (.inl j) h' rfl
  · exact this.whole (.inl j) h' rfl

/-! ### Undefined behaviour -/

omit [DecidableEq ι] in
theorem AProg.Good.and {α : Type} {V : Prop} {Q Q' : ι → Op P → Prop} : ∀ {pr : AProg ι P W α},
    pr.Good V Q → pr.Good True Q' → pr.Good V (fun i op => Q i op ∧ Q' i op) := by
  intro pr
  induction pr with
  | ret => intro _ _; trivial
  | throw => intro _ _; trivial
  | ub => intro h _; exact h
  | call j op w k ih => intro h h'; exact ⟨⟨h.1, h'.1⟩, fun r w => ih r w (h.2 r w) (h'.2 r w)⟩
  | ask j q w k ih => intro h h'; exact fun r w => ih r w (h r w) (h' r w)

omit [DecidableEq ι] in
theorem AProg.Good.all {α β : Type} {Q : β → ι → Op P → Prop} : ∀ {pr : AProg ι P W α},
    (∀ b, pr.Good True (Q b)) → pr.Good True (fun i op => ∀ b, Q b i op) := by
  intro pr
  induction pr with
  | ret => intro _; trivial
  | throw => intro _; trivial
  | ub => intro h; trivial
  | call j op w k ih => intro h; exact ⟨fun b => (h b).1, fun r w => ih r w fun b => (h b).2 r w⟩
  | ask j q w k ih => intro h; exact fun r w => ih r w fun b => h b r w

open Classical in
/-- C138: a program of safe machines whose callbacks call and ask has no undefined behaviour if, for each machine,
its guards neither call nor ask or no callback calls its `set_dependency`. -/
theorem C138_safe (hM : ∀ i, (Ms i).Regular) (hS : ∀ i, SafeA Ms sem i)
    (hg : sem.Good False (fun i => OpOk (Ms i))) (hq : ∀ i, sem.QuietGuards i ∨ sem.KeepsDeps i)
    (hr : RunToA Ms sem d ops h) (fuel n : Nat) (i : ι) (op : Op P) (hop : OpOk (Ms i) op) :
    (stepL Ms sem fuel n (.inl i) op h).Defined := by
  have hh := hr.solid hM hS hg
  let Q : ι → Op P → Prop := fun j op => OpOk (Ms j) op ∧ (¬ sem.QuietGuards j → ∀ d, op ≠ .setDependency d)
  by_cases hne : Q i op
  · have hg' : sem.Good False Q := by
      have hk : ∀ b : { j // ¬ sem.QuietGuards j }, sem.KeepsDeps b.1 := fun b => (hq b.1).resolve_left b.2
      have hw : ∀ {i op}, (OpOk (Ms i) op ∧ ∀ b : { j // ¬ sem.QuietGuards j }, i = b.1 →
          ∀ d : Dep, op ≠ .setDependency d) → Q i op := fun h => ⟨h.1, fun hj => h.2 ⟨_, hj⟩ rfl⟩
      exact ⟨fun i g a p w => ((hg.guard i g a p w).and (.all fun b => (hk b).guard i g a p w)).mono id fun _ _ => hw,
        fun i c a p w => ((hg.action i c a p w).and (.all fun b => (hk b).action i c a p w)).mono id fun _ _ => hw,
        fun i c e st d p w => ((hg.handler i c e st d p w).and
          (.all fun b => (hk b).handler i c e st d p w)).mono id fun _ _ => hw⟩
    let I : ι → SM P (Hub (Wire ι) P W) → Prop := fun j =>
      if sem.QuietGuards j then Solid (Ms j) else fun s => Solid (Ms j) s ∧ s.table = (h.parts (.inl j)).table
    have hI : ∀ j s, I j s → Solid (Ms j) s := fun j s hs => by
      by_cases hj : sem.QuietGuards j
      · simp only [I, if_pos hj] at hs; exact hs
      · simp only [I, if_neg hj] at hs; exact hs.1
    have := stepL_keeps (sem := sem) (U := fun _ => False) (Q := Q) (I := I)
      (R := fun j r => r < (Ms j).maxInit) (E := fun j ev _ e _ => Somewhere (Ms j) ev e) (V := fun _ _ => True)
      (fun j o ho => by
        by_cases hj : sem.QuietGuards j
        · have he : Q j = OpOk (Ms j) := funext fun op => propext ⟨fun h => h.1, fun h => ⟨h, fun hn => (hn hj).elim⟩⟩
          simp only [I, if_pos hj, he]
          exact Keeps.quiet (hM j) ((hS j).at hg ho.1) (hj.lines.at o)
        · have he : Q j = fun op => OpOk (Ms j) op ∧ ∀ d, op ≠ .setDependency d :=
            funext fun op => propext ⟨fun h => ⟨h.1, h.2 hj⟩, fun h => ⟨h.1, fun _ => h.2⟩⟩
          simp only [I, if_neg hj, he]
          exact Keeps.sameTable (hM j) ((hS j).at hg ho.1)
            ((hg.at j (Q' := fun op => ∀ d, op ≠ .setDependency d) (ho.2 hj)).no) _)
      (fun j s w hs => by
        by_cases hj : sem.QuietGuards j
        · simp only [I, if_pos hj] at hs ⊢; exact hs.of_eq rfl rfl rfl rfl rfl rfl
        · simp only [I, if_neg hj] at hs ⊢; exact ⟨hs.1.of_eq rfl rfl rfl rfl rfl rfl, hs.2⟩)
      hg' (fun j q s u hs hu => (hI j s hs).question (hM j) q u hu) fuel n (.inl i) op h hne (by
        rintro (j | x) w
        · show I j _
          by_cases hj : sem.QuietGuards j
          · simp only [I, if_pos hj]; exact hh (.inl j) w
          · simp only [I, if_neg hj]; exact ⟨hh (.inl j) w, rfl⟩
        · trivial)
    cases hr : stepL Ms sem fuel n (.inl i) op h <;> rw [hr] at this
    · exact fun _ h => by cases h
    · exact fun _ h => by cases h
    · exact this.elim
    · exact fun _ h => by cases h
  · cases op with
    | process ev p => exact absurd ⟨hop, fun _ _ => by simp⟩ hne
    | set r p st => exact absurd ⟨hop, fun _ _ => by simp⟩ hne
    | setDependency d =>
      cases n with
      | zero => exact fun _ h => by cases h
      | succ n =>
        have hs : Solid (Ms i) (h.fetch (.inl i)) := hh (.inl i) { h with request := none }
        have := hs.dep (hM i) (hS i).scopes d
        show (Res.home (.inl i) (Res.bind (setDependency (Ms i) d (h.fetch (.inl i))) _)).Defined
        change (setDependency (Ms i) d (h.fetch (.inl i))).Sat _ _ _ at this
        cases hr : setDependency (Ms i) d (h.fetch (.inl i)) <;> rw [hr] at this
        · exact fun _ h => by cases h
        · exact fun _ h => by cases h
        · exact this.elim
        · exact fun _ h => by cases h

end

/-! ### Callbacks that ask nothing -/

section
variable {ι P W : Type}

/-- A callback that asks nothing. -/
def SProg.asking {α : Type} : SProg ι P W α → AProg ι P W α
  | .ret a p w => .ret a p w
  | .throw x w => .throw x w
  | .ub => .ub
  | .call i op w k => .call i op w fun r w => (k r w).asking

/-- Callbacks that ask nothing. -/
def SemS.asking (sem : SemS ι P W) : SemA ι P W where
  guard i g a p w := (sem.guard i g a p w).asking
  action i c a p w := (sem.action i c a p w).asking
  handler i c e st d p w := (sem.handler i c e st d p w).asking
  alive := sem.alive
  nonePayload := sem.nonePayload

/-- All variables. -/
def Share.whole (W : Type) : Share W W := ⟨id, fun _ w => w, fun _ _ => rfl, fun _ _ _ => rfl, fun _ => rfl⟩

theorem SProg.asking_lines {α : Type} (pr : SProg ι P W α) : ∀ v,
    pr.asking.lines = pr.embed Sum.inl (Share.whole W) v := by
  induction pr with
  | ret => intro v; rfl
  | throw => intro v; rfl
  | ub => intro v; rfl
  | call i op w k ih =>
    intro v
    show SProg.call _ _ _ _ = SProg.call _ _ _ _
    congr 1
    funext r v
    exact ih r v v

theorem SemS.asking_part (Ms : ι → Machine) (sem : SemS ι P W) :
    IsPart Sum.inl (Share.whole W) Ms sem (fun l : Wire ι => Ms l.owner) sem.asking.lines where
  inj := fun _ _ h => Sum.inl.inj h
  machine := fun _ => rfl
  guard := fun i g a p v => (sem.guard i g a p v).asking_lines v
  action := fun i c a p v => (sem.action i c a p v).asking_lines v
  handler := fun i c e st d p v => (sem.handler i c e st d p v).asking_lines v
  alive := fun _ _ _ => rfl
  nonePayload := fun _ => rfl

variable [DecidableEq ι] {Ms : ι → Machine} {sem : SemS ι P W}

theorem stepL_asking (fuel : Nat) {h₀ : Hub (Wire ι) P W} : ∀ (n : Nat) (i : ι) (op : Op P) {h : Hub ι P W}
    {h' : Hub (Wire ι) P W}, Hub.Part Sum.inl (Share.whole W) h₀ h h' →
      (stepS Ms sem fuel n i op h).Rel Eq (Hub.Part Sum.inl (Share.whole W) h₀)
        (stepL Ms sem.asking fuel n (.inl i) op h') := by
  have hp := SemS.asking_part Ms sem
  intro n
  induction n with
  | zero => intro i op h h' hh; trivial
  | succ n ih =>
    intro i op h h' hh
    unfold stepS stepL
    refine Hub.Part.home hp ?_
    rw [(hh.fetch i).1]
    cases op with
    | process ev p => exact processEventR_sim (hp.at h₀ i _ _) (Hub.Part.nested hp ih i) fuel ev p (hh.fetch i).2
    | set r p st => exact (setOp_sim (hh.fetch i).2 _ _ _).bind fun _ s w' h => ⟨rfl, w', rfl, h⟩
    | setDependency d => exact (setDependency_sim (hh.fetch i).2 _).bind fun _ s w' h => ⟨rfl, w', rfl, h⟩

/-- C138: if callbacks ask nothing, calls do what they do in `Systems.lean`. -/
theorem C138_conservative (fuel n : Nat) (i : ι) (op : Op P) (h : Hub (Wire ι) P W) :
    (stepS Ms sem fuel n i op (h.own Sum.inl (Share.whole W))).Rel Eq
      (fun g g' => g'.user = g.user ∧ ∀ j, g'.parts (.inl j) = g.parts j)
      (stepL Ms sem.asking fuel n (.inl i) op h) := by
  have := stepL_asking (Ms := Ms) (sem := sem) fuel (h₀ := h) n i op (Hub.own_part h)
  revert this
  cases stepS Ms sem fuel n i op (h.own Sum.inl (Share.whole W)) <;>
    cases stepL Ms sem.asking fuel n (.inl i) op h <;> intro hr <;>
    first | exact hr.elim | exact hr | exact ⟨hr.1, hr.2.user, hr.2.parts⟩

end

/-! ## Examples -/

namespace Ex

/-- Guards of the second machine ask the first whether it is in state 2.  Action 1 of the first machine asks the
first machine itself, and if it is there, sends event 0 to the second. -/
def wary : SemA Bool Nat (List Nat) where
  guard i g _ p w :=
    if i = true then .ask false (.state (.st 2)) (w ++ [g]) fun r w => .ret (r == .ret true) p w
    else .ret true p (w ++ [g])
  action i c _ p w :=
    if i = false ∧ c = 1 then .ask false (.state (.st 2)) (w ++ [c]) fun r w =>
      if r = .ret true then .call true (.process (ev 0) 5) w fun _ w => .ret () p w else .ret () p (w ++ [77])
    else .ret () p (w ++ [c])
  handler _ _ _ _ _ p w := .ret () p w
  alive _ _ _ := true
  nonePayload _ := 0

theorem wary_good {U : Prop} {Q : Bool → Op Nat → Prop} (h : Q true (.process (ev 0) 5)) : wary.Good U Q where
  guard i g a p w := by
    show (ite _ _ _ : AProg Bool Nat (List Nat) Bool).Good _ _
    split
    · exact fun _ _ => trivial
    · trivial
  action i c a p w := by
    show (ite _ _ _ : AProg Bool Nat (List Nat) Unit).Good _ _
    split
    · intro r w
      show (ite _ _ _ : AProg Bool Nat (List Nat) Unit).Good _ _
      split
      · exact ⟨h, fun _ _ => trivial⟩
      · trivial
    · trivial
  handler _ _ _ _ _ _ _ := trivial

theorem wary_ok {U : Prop} : wary.Good U (fun i => OpOk (twins i)) := wary_good (hop_ok 0 (by decide) 5)

theorem wary_safe (i : Bool) : SafeA twins wary i := by
  have h := hop_safe (on := fun _ => true) (asks := never) (calls := never) never_all never_all
  exact ⟨h.scopes, h.regions, h.history, h.noneNotDeferred, fun _ => Or.inr fun _ => rfl⟩

section
variable (Ms : Bool → Machine) (sm : SemA Bool Nat (List Nat))

def runOpsA (fuel n : Nat) : List (Bool × Op Nat) → Hub (Wire Bool) Nat (List Nat) →
    Option (Hub (Wire Bool) Nat (List Nat))
  | [], h => some h
  | x :: xs, h =>
    if opOkB (Ms x.1) x.2 then
      match stepL Ms sm fuel n (.inl x.1) x.2 h with
      | .ok _ h' => runOpsA fuel n xs h'
      | .throw _ h' => runOpsA fuel n xs h'
      | _ => none
    else none

def runA (fuel n : Nat) (d : Bool → Dep) (w : List Nat) (ops : List (Bool × Op Nat)) :
    Option (Hub (Wire Bool) Nat (List Nat)) :=
  match construct (Ms false) (d false) (), construct (Ms true) (d true) () with
  | .ok a, .ok b => runOpsA Ms sm fuel n ops ⟨w, fun l => if l.owner then b else a, none⟩
  | _, _ => none

theorem runOpsA_runTo {fuel n : Nat} {d : Bool → Dep} {ops : List (Bool × Op Nat)} :
    ∀ {pre : List (Bool × Op Nat)} {h h' : Hub (Wire Bool) Nat (List Nat)}, RunToA Ms sm d pre h →
    runOpsA Ms sm fuel n ops h = some h' → RunToA Ms sm d (pre ++ ops) h' := by
  induction ops with
  | nil => intro pre h h' h1 h2; cases h2; simpa using h1
  | cons x xs ih =>
    intro pre h h' h1 h2
    unfold runOpsA at h2
    split at h2
    · rename_i hop
      split at h2
      · rename_i heq
        have := ih (.ok h1 (opOkB_iff _ hop) heq) h2
        simpa using this
      · rename_i heq
        have := ih (.throw h1 (opOkB_iff _ hop) heq) h2
        simpa using this
      · cases h2
    · cases h2

theorem exists_runA {fuel n : Nat} {d : Bool → Dep} {w : List Nat} {ops : List (Bool × Op Nat)}
    {f : Hub (Wire Bool) Nat (List Nat) → Bool} (h : (runA Ms sm fuel n d w ops).any f = true) :
    ∃ h, RunToA Ms sm d ops h ∧ f h = true := by
  cases hr : runA Ms sm fuel n d w ops with
  | none => rw [hr] at h; cases h
  | some h' =>
    rw [hr] at h
    refine ⟨h', ?_, h⟩
    unfold runA at hr
    split at hr
    · rename_i a b ha hb
      have : RunToA Ms sm d [] ⟨w, fun l => if l.owner then b else a, none⟩ :=
        .init fun i => by cases i <;> assumption
      simpa using runOpsA_runTo Ms sm this hr
    · cases hr

end

/-- C138 applies: event 0 does not move the second machine while the first is in state 1.  When the first moves, its
action finds it in state 2 and sends event 0 to the second, whose guard now consents. -/
example : ∃ h, RunToA twins wary (fun _ => 7) [(true, .process (ev 0) 1), (false, .process (ev 0) 1)] h ∧
    (h.parts (.inl false)).log.length = 1 ∧ (h.parts (.inl true)).log.length = 1 ∧
    h.user = [100, 100, 1, 100, 1, 20, 20] ∧
    ∀ i, Inside hop (h.parts (.inl i)).cur := by
  obtain ⟨h, hr, hs⟩ := exists_runA twins wary (fuel := 5) (n := 5) (d := fun _ => 7) (w := [])
    (ops := [(true, .process (ev 0) 1), (false, .process (ev 0) 1)])
    (f := fun h => (h.parts (.inl false)).log.length == 1 && ((h.parts (.inl true)).log.length == 1 &&
      h.user == [100, 100, 1, 100, 1, 20, 20])) (by decide +kernel)
  simp only [Bool.and_eq_true, beq_iff_eq] at hs
  exact ⟨h, hr, hs.1, hs.2.1, hs.2.2, fun i =>
    (C138_places (fun _ => hop_regular) (fun _ => hop_scoped) wary_ok hr i).1⟩

/-- It has no undefined behaviour. -/
example {h : Hub (Wire Bool) Nat (List Nat)} {ops : List (Bool × Op Nat)}
    (hr : RunToA twins wary (fun _ => 7) ops h) (fuel n : Nat) (i : Bool) :
    (stepL twins wary fuel n (.inl i) (.process (ev 0) 1) h).Defined :=
  C138_safe (fun _ => hop_regular) wary_safe wary_ok
    (fun _ => Or.inr (wary_good fun _ _ h => by cases h)) hr fuel n i _ (hop_ok 0 (by decide) 1)

/-- Moves of the second machine have consent of its guards, which ask. -/
example {h : Hub (Wire Bool) Nat (List Nat)} (hr : RunToA twins wary (fun _ => 7)
    [(false, .process (ev 0) 1)] h) {l1 l2 : List Firing} {f : Firing}
    (hl : (h.parts (.inl true)).log = l1 ++ f :: l2) :
    MoveHasConsent hop hop.cands (· = 7) (fun _ _ _ => False) (h.parts (.inl true)).trace l1 f := by
  have key : ∀ p, GivesDS hop (· = 7) (fun _ _ _ => False) (.process (ev 0) p) := fun p =>
    ⟨⟨hop_ok 0 (by decide) p, fun _ h => by cases h⟩, fun _ _ _ h => by cases h⟩
  exact C138_moves (D := fun _ => (· = 7)) (S := fun _ _ _ _ => False) (fun _ => hop_regular)
    (wary_good (key 5)) hr (fun _ => rfl)
    (fun x hx => by rw [List.mem_singleton.1 hx]; exact key 1) true hl

/-- Guards of the first machine do not ask, so its moves are those of rows applicable where it was. -/
example {h : Hub (Wire Bool) Nat (List Nat)} {ops : List (Bool × Op Nat)}
    (hr : RunToA twins wary (fun _ => 7) ops h) {l1 l2 : List Firing} {f : Firing}
    (hl : (h.parts (.inl false)).log = l1 ++ f :: l2) : Explained hop (Memo hop (l1 ++ [f])) f :=
  C138_sources (i := false) (fun _ => hop_regular) (fun _ => hop_scoped) wary_ok hr (fun _ _ _ _ => trivial) hl

/-- The first machine, running, asks the second, in state 1 of the root, whether it is in state 1: yes. -/
example : ∃ (s : SM Nat (Hub (Wire Bool) Nat (List Nat))) (h' : Hub (Wire Bool) Nat (List Nat)),
    s.world.request = some (.inr (true, .state (.st 1)), .setDependency 0) ∧
    At hop (s.world.parts (.inl true)) 0 0 (.st 1) ∧
    Hsm.nested (stepL twins wary 5 5) (.inl false) (.setDependency 0) s = .ok true (s.rebase h') := by
  have hc : (match construct hop 7 () with
    | .ok s => (s : SM Nat Unit).cur == [some (hop.comb 0 (.st 1))] | .error _ => false) = true := by
    decide +kernel
  split at hc
  · rename_i s _
    rw [beq_iff_eq] at hc
    have ha : At hop s 0 0 (.st 1) := ⟨by decide +kernel, by decide +kernel, by rw [hc]; rfl⟩
    obtain ⟨h', _, _, h3, _⟩ := C138_answer (Ms := twins) (sem := wary) (i := false) (j := true) (p := 0) (st := .st 1)
      (q := .state (.st 1)) (op := .setDependency 0)
      (s := s.rebase ⟨[], fun _ => s, some (.inr (true, .state (.st 1)), .setDependency 0)⟩)
      (fun _ => hop_regular) rfl ha 5 5 (.setDependency 0)
    exact ⟨_, h', rfl, ha, h3 _ rfl⟩
  · cases hc

/-- The first machine asks the second for its status, which is not empty. -/
example : ∃ (s : SM Nat (Hub (Wire Bool) Nat (List Nat))) (h' : Hub (Wire Bool) Nat (List Nat)),
    s.world.request = some (.inr (true, .text []), .setDependency 0) ∧
    Hsm.nested (stepL twins wary 5 5) (.inl false) (.setDependency 0) s = .ok false (s.rebase h') := by
  have hc : (match construct hop 7 () with
    | .ok s => (match status hop (s : SM Nat Unit) with | .ok l _ => !l.isEmpty | _ => false)
    | .error _ => false) = true := by decide +kernel
  split at hc
  · rename_i s _
    split at hc
    · rename_i l t hl
      obtain ⟨h', _, _, h3⟩ := C138_status (Ms := twins) (sem := wary) (i := false) (j := true) (l := []) (l' := l)
        (op := .setDependency 0)
        (s := s.rebase ⟨[], fun _ => s, some (.inr (true, .text []), .setDependency 0)⟩)
        rfl (by rw [if_neg (by decide)]; exact ⟨t, hl⟩) 5 5 (.setDependency 0)
      refine ⟨_, h', rfl, h3.trans ?_⟩
      cases l with
      | nil => cases hc
      | cons => rfl
    · cases hc
  · cases hc

/-- A callback of the first machine asks whether the second, in state 1, is there, and answers what it is told. -/
example : ∃ (s : SM Nat (Hub (Wire Bool) Nat (List Nat))) (h' : Hub (Wire Bool) Nat (List Nat)),
    runProg (Hsm.nested (stepL twins wary 5 5) (.inl false))
      ((AProg.ask true (.state (.st 1)) [3] fun r w => .ret (r == .ret true) 0 w).lines.prog (.setDependency 0)
        s.world.parts) s = .ok (true, 0) (s.rebase h') ∧ h'.user = [3] := by
  have hc : (match construct hop 7 () with
    | .ok s => (s : SM Nat Unit).cur == [some (hop.comb 0 (.st 1))] | .error _ => false) = true := by
    decide +kernel
  split at hc
  · rename_i s _
    rw [beq_iff_eq] at hc
    obtain ⟨h', _, _, h3⟩ := C138_ask (Ms := twins) (sem := wary) (α := Bool) (s.rebase ⟨[], fun _ => s, none⟩)
      false true (.state (.st 1)) [3] (fun r w => .ret (r == .ret true) 0 w) 5 5 (.setDependency 0)
    have ha : At (twins true) (s.rebase h') 0 0 (.st 1) :=
      ⟨by decide +kernel, by decide +kernel, by show s.cur[0]? = _; rw [hc]; rfl⟩
    refine ⟨_, ⟨[3], h'.parts, none⟩, h3.trans ?_, rfl⟩
    have e : Question.put (twins true) (.state (.st 1)) (SM.rebase ((s.rebase ⟨[], fun _ => s, none⟩ :
        SM Nat (Hub (Wire Bool) Nat (List Nat))).world.parts (.inl true)) h') = .ok true (s.rebase h') :=
      (answers hop_regular ha 0 (.st 1)).2.1
    rw [if_neg (by decide), e]
    rfl
  · cases hc

/-- The first machine, running, asks the second, in state 1 of the root, whether region 256, that is
region 0, is in state 2: no. -/
example : ∃ (s : SM Nat (Hub (Wire Bool) Nat (List Nat))) (h' : Hub (Wire Bool) Nat (List Nat)),
    s.world.request = some (.inr (true, .region 256 0 (.st 2)), .setDependency 0) ∧
    At hop (s.world.parts (.inl true)) 0 0 (.st 1) ∧
    Hsm.nested (stepL twins wary 5 5) (.inl false) (.setDependency 0) s = .ok false (s.rebase h') := by
  have hc : (match construct hop 7 () with
    | .ok s => (s : SM Nat Unit).cur == [some (hop.comb 0 (.st 1))] | .error _ => false) = true := by
    decide +kernel
  split at hc
  · rename_i s _
    rw [beq_iff_eq] at hc
    have ha : At hop s 0 0 (.st 1) := ⟨by decide +kernel, by decide +kernel, by rw [hc]; rfl⟩
    obtain ⟨h', _, _, h3⟩ := C138_region (Ms := twins) (sem := wary) (i := false) (j := true)
      (p0 := 0) (p := 0) (st0 := .st 1) (st := .st 1) (op := .setDependency 0)
      (s := s.rebase ⟨[], fun _ => s, some (.inr (true, .region 256 0 (.st 2)), .setDependency 0)⟩)
      (fun _ => hop_regular) rfl ha ha 5 5 (.setDependency 0)
    exact ⟨_, h', rfl, ha, h3⟩
  · cases hc

/-- A call of the second machine asks the first, and changes nothing of it. -/
example (fuel n : Nat) (h h' : Hub (Wire Bool) Nat (List Nat)) (b : Bool)
    (hs : stepL twins { wary with action := fun _ c _ p w => .ret () p (w ++ [c]) } fuel n (.inl true)
      (.process (ev 0) 1) h = .ok b h') : h'.parts (.inl false) = h.parts (.inl false) :=
  C138_untouched (sem := { wary with action := fun _ c _ p w => .ret () p (w ++ [c]) })
    ⟨fun i g a p w => by
      show (ite _ _ _ : AProg Bool Nat (List Nat) Bool).Good _ _
      split
      · exact fun _ _ => trivial
      · trivial, fun _ _ _ _ _ => trivial, fun _ _ _ _ _ _ _ => trivial⟩
    (hop_ok 0 (by decide) 1) (by decide) (Or.inl ⟨b, hs⟩)

end Ex
end Hsm
