import Verif.PropsRenameGen
import Verif.PropsLayers

/-!
# C136: programs as parts of larger programs

A program whose machines are some of the machines of a larger one, and whose world is some of its world, does
there what it does by itself, and leaves the rest alone.
-/

namespace Hsm

/-! ## Specification -/

/-- The user's variables `W` are some of the variables `W'`. -/
structure Share (W W' : Type) where
  get : W' → W
  put : W' → W → W'
  get_put : ∀ v w, get (put v w) = w
  put_put : ∀ v w x, put (put v w) x = put v x
  put_get : ∀ v, put v (get v) = v

section
variable {ι ι' P W W' : Type}

/-- A callback in a larger program: it calls the same machines, and changes its own variables. -/
def SProg.embed {α : Type} (e : ι → ι') (k : Share W W') : SProg ι P W α → W' → SProg ι' P W' α
  | .ret a p w, v => .ret a p (k.put v w)
  | .throw x w, v => .throw x (k.put v w)
  | .ub, _ => .ub
  | .call i op w f, v => .call (e i) op (k.put v w) fun r v => (f r (k.get v)).embed e k v

/-- The program `Ms`, `sem` is part of the program `Ms'`, `sem'`: machine `i` is machine `e i` there. -/
structure IsPart (e : ι → ι') (k : Share W W') (Ms : ι → Machine) (sem : SemS ι P W) (Ms' : ι' → Machine)
    (sem' : SemS ι' P W') : Prop where
  inj : ∀ i j, e i = e j → i = j
  machine : ∀ i, Ms' (e i) = Ms i
  guard : ∀ i g a p v, sem'.guard (e i) g a p v = (sem.guard i g a p (k.get v)).embed e k v
  action : ∀ i c a p v, sem'.action (e i) c a p v = (sem.action i c a p (k.get v)).embed e k v
  handler : ∀ i c ev st d p v, sem'.handler (e i) c ev st d p v = (sem.handler i c ev st d p (k.get v)).embed e k v
  alive : ∀ i st v, sem'.alive (e i) st v = sem.alive i st (k.get v)
  nonePayload : ∀ i, sem'.nonePayload (e i) = sem.nonePayload i

/-- `h'` is `h` inside a larger program whose other machines and variables are those of `h₀`. -/
structure Hub.Part (e : ι → ι') (k : Share W W') (h₀ : Hub ι' P W') (h : Hub ι P W) (h' : Hub ι' P W') : Prop where
  user : h'.user = k.put h₀.user h.user
  parts : ∀ i, h'.parts (e i) = h.parts i
  others : ∀ j, (∀ i, j ≠ e i) → h'.parts j = h₀.parts j

/-- What a larger program knows about its part. -/
def Hub.own (e : ι → ι') (k : Share W W') (h : Hub ι' P W') : Hub ι P W :=
  ⟨k.get h.user, fun i => h.parts (e i), none⟩

end

/-! ## Proofs -/

section
variable {ι ι' P W W' : Type} {e : ι → ι'} {k : Share W W'} {h₀ : Hub ι' P W'}

theorem Hub.own_part (h : Hub ι' P W') : Hub.Part e k h (h.own e k) h :=
  ⟨(k.put_get _).symm, fun _ => rfl, fun _ _ => rfl⟩

theorem Hub.Part.get {h : Hub ι P W} {h' : Hub ι' P W'} (hp : Hub.Part e k h₀ h h') : k.get h'.user = h.user := by
  rw [hp.user, k.get_put]

/-- Calls a callback makes, by its request. -/
def Hub.Sends (e : ι → ι') (k : Share W W') (h₀ : Hub ι' P W') (_ : Op P) (h : Hub ι P W) (_ : Op P)
    (h' : Hub ι' P W') : Prop :=
  Hub.Part e k h₀ h h' ∧ ∃ i op, h.request = some (i, op) ∧ h'.request = some (e i, op)

theorem SProg.embed_sim {α : Type} (o o' : Op P) (pr : SProg ι P W α) : ∀ {m : ι → SM P Unit} {m' : ι' → SM P Unit}
    (v : W'), (∀ i, m' (e i) = m i) → (∀ j, (∀ i, j ≠ e i) → m' j = h₀.parts j) →
      (∀ w, k.put v w = k.put h₀.user w) →
      (pr.prog o m).Sim (Hub.Part e k h₀) (Hub.Sends e k h₀) ((pr.embed e k v).prog o' m') := by
  induction pr with
  | ret a p w => intro m m' v h1 h2 hv; exact .ret a p ⟨hv w, h1, h2⟩
  | throw x w => intro m m' v h1 h2 hv; exact .throw x ⟨hv w, h1, h2⟩
  | ub => intro m m' v h1 h2 hv; exact .ub
  | call i op w f ih =>
    intro m m' v h1 h2 hv
    refine .call ⟨⟨hv w, h1, h2⟩, i, op, rfl, rfl⟩ fun r g g' hg => ?_
    dsimp only
    rw [hg.get]
    exact ih r g.user g'.user hg.parts hg.others fun x => by rw [hg.user, k.put_put]

variable {Ms : ι → Machine} {sem : SemS ι P W} {Ms' : ι' → Machine} {sem' : SemS ι' P W'}

theorem IsPart.at (hp : IsPart e k Ms sem Ms' sem') (h₀ : Hub ι' P W') (i : ι) (o o' : Op P) :
    (sem.at i o).Sim (Hub.Part e k h₀) (Hub.Sends e k h₀) (sem'.at (e i) o') where
  guard g a p w w' hw := by
    show Prog.Sim _ _ _ ((sem'.guard (e i) g a p w'.user).prog o' w'.parts)
    rw [hp.guard, hw.get]
    exact SProg.embed_sim o o' _ _ hw.parts hw.others fun x => by rw [hw.user, k.put_put]
  action g a p w w' hw := by
    show Prog.Sim _ _ _ ((sem'.action (e i) g a p w'.user).prog o' w'.parts)
    rw [hp.action, hw.get]
    exact SProg.embed_sim o o' _ _ hw.parts hw.others fun x => by rw [hw.user, k.put_put]
  handler g ev st d p w w' hw := by
    show Prog.Sim _ _ _ ((sem'.handler (e i) g ev st d p w'.user).prog o' w'.parts)
    rw [hp.handler, hw.get]
    exact SProg.embed_sim o o' _ _ hw.parts hw.others fun x => by rw [hw.user, k.put_put]
  alive st w w' hw := by
    show sem.alive i st w.user = sem'.alive (e i) st w'.user
    rw [hp.alive, hw.get]
  nonePayload := (hp.nonePayload i).symm

theorem Hub.Part.fetch {h : Hub ι P W} {h' : Hub ι' P W'} (hh : Hub.Part e k h₀ h h') (i : ι) :
    h'.fetch (e i) = (h.fetch i).rebase { h' with request := none } ∧
      Hub.Part e k h₀ (h.fetch i).world { h' with request := none } := by
  refine ⟨?_, hh.user, hh.parts, hh.others⟩
  unfold Hub.fetch
  rw [hh.parts]; rfl

variable [DecidableEq ι] [DecidableEq ι']

theorem Hub.Part.store (hp : IsPart e k Ms sem Ms' sem') {w : Hub ι P W} {w' : Hub ι' P W'}
    (hw : Hub.Part e k h₀ w w') (i : ι) (s : SM P (Hub ι P W)) :
    Hub.Part e k h₀ (w.store i s) (w'.store (e i) (s.rebase w')) := by
  refine ⟨hw.user, fun j => ?_, fun j hj => ?_⟩
  · show (if e j = e i then _ else _) = (if j = i then _ else _)
    by_cases h : j = i
    · rw [if_pos h, if_pos (congrArg e h)]; rfl
    · rw [if_neg h, if_neg fun h' => h (hp.inj _ _ h')]; exact hw.parts j
  · exact (if_neg (hj i)).trans (hw.others j hj)

theorem Hub.Part.home (hp : IsPart e k Ms sem Ms' sem') {α : Type} {i : ι} {q : Res (SM P (Hub ι P W)) α}
    {q' : Res (SM P (Hub ι' P W')) α} (hq : q.Sim (Hub.Part e k h₀) q') :
    (q.home i).Rel Eq (Hub.Part e k h₀) (q'.home (e i)) := by
  have key : ∀ {s : SM P (Hub ι P W)} {s' : SM P (Hub ι' P W')}, s.Sim (Hub.Part e k h₀) s' →
      Hub.Part e k h₀ (s.world.store i s) (s'.world.store (e i) s') := by
    rintro s _ ⟨w', rfl, hw⟩
    exact hw.store hp i s
  cases q <;> cases q' <;> first | exact hq.elim | exact hq | exact ⟨hq.1, key hq.2⟩

/-- Nested calls do the same in the larger program if calls do. -/
theorem Hub.Part.nested (hp : IsPart e k Ms sem Ms' sem') {stp : ι → Op P → Hub ι P W → Res (Hub ι P W) Bool}
    {stp' : ι' → Op P → Hub ι' P W' → Res (Hub ι' P W') Bool}
    (ih : ∀ i op {h : Hub ι P W} {h' : Hub ι' P W'}, Hub.Part e k h₀ h h' →
      (stp i op h).Rel Eq (Hub.Part e k h₀) (stp' (e i) op h')) (i : ι) :
    CallSim (Hub.Part e k h₀) (Hub.Sends e k h₀) (Hsm.nested stp i) (Hsm.nested stp' (e i)) := by
  rintro _ _ s w' ⟨hw, j, op, h1, h2⟩
  unfold Hsm.nested
  show Res.Sim _ (match s.world.request with | none => _ | some (j, op) => _)
    (match w'.request with | none => _ | some (j, op) => _)
  rw [h1, h2]
  have hc := ih j op (hw.store hp i s)
  have key : ∀ {g : Hub ι P W} {g' : Hub ι' P W'}, Hub.Part e k h₀ g g' →
      (g.fetch i).Sim (Hub.Part e k h₀) (g'.fetch (e i)) :=
    fun hg => ⟨_, (hg.fetch i).1, (hg.fetch i).2⟩
  dsimp only
  revert hc
  show _ → Res.Sim _ (Res.back i (stp j op (s.world.store i s)))
    (Res.back (e i) (stp' (e j) op (w'.store (e i) (s.rebase w'))))
  generalize stp j op (s.world.store i s) = q
  generalize stp' (e j) op (w'.store (e i) (s.rebase w')) = q'
  intro hc
  cases q <;> cases q' <;> first | exact hc.elim | exact hc | exact ⟨hc.1, key hc.2⟩

/-- C136: in a larger program a call of a machine does what it does in the program by itself; the other machines
and the other variables stay as they are. -/
theorem C136_step (hp : IsPart e k Ms sem Ms' sem') (fuel : Nat) : ∀ (n : Nat) (i : ι) (op : Op P) {h : Hub ι P W}
    {h' : Hub ι' P W'}, Hub.Part e k h₀ h h' →
      (stepS Ms sem fuel n i op h).Rel Eq (Hub.Part e k h₀) (stepS Ms' sem' fuel n (e i) op h') := by
  intro n
  induction n with
  | zero => intro i op h h' hh; trivial
  | succ n ih =>
    intro i op h h' hh
    unfold stepS
    refine Hub.Part.home hp ?_
    rw [(hh.fetch i).1, hp.machine]
    cases op with
    | process ev p => exact processEventR_sim (hp.at h₀ i _ _) (Hub.Part.nested hp ih i) fuel ev p (hh.fetch i).2
    | set r p st => exact (setOp_sim (hh.fetch i).2 _ _ _).bind fun _ s w' h => ⟨rfl, w', rfl, h⟩
    | setDependency d => exact (setDependency_sim (hh.fetch i).2 _).bind fun _ s w' h => ⟨rfl, w', rfl, h⟩

/-- C136 for gen/hsm.h. -/
theorem C136_stepG (hp : IsPart e k Ms sem Ms' sem') (fuel : Nat) : ∀ (n : Nat) (i : ι) (op : Op P) {h : Hub ι P W}
    {h' : Hub ι' P W'}, Hub.Part e k h₀ h h' →
      (stepGS Ms sem fuel n i op h).Rel Eq (Hub.Part e k h₀) (stepGS Ms' sem' fuel n (e i) op h') := by
  intro n
  induction n with
  | zero => intro i op h h' hh; trivial
  | succ n ih =>
    intro i op h h' hh
    unfold stepGS
    refine Hub.Part.home hp ?_
    rw [(hh.fetch i).1, hp.machine]
    cases op with
    | process ev p =>
      exact (processEventGR_sim (hp.at h₀ i _ _) (Hub.Part.nested hp ih i) fuel ev p (hh.fetch i).2).bind
        fun _ s w' h => ⟨rfl, w', rfl, h⟩
    | set r p st => exact ⟨rfl, _, rfl, (hh.fetch i).2⟩
    | setDependency d => exact (setDependencyG_sim (hh.fetch i).2 _).bind fun _ s w' h => ⟨rfl, w', rfl, h⟩

omit [DecidableEq ι] [DecidableEq ι'] in
theorem Hub.Part.again {h : Hub ι P W} {h' : Hub ι' P W'} (hh : Hub.Part e k h₀ h h') : Hub.Part e k h' h h' :=
  ⟨by rw [hh.user, k.put_put], hh.parts, fun _ _ => rfl⟩

/-- C136: whatever the program does by itself, it does as part of a larger one that can be constructed. -/
theorem C136_runs (hp : IsPart e k Ms sem Ms' sem') {d : ι' → Dep} {m : ι' → SM P Unit}
    (hm : ∀ j, construct (Ms' j) (d j) () = .ok (m j)) (v : W') {ops : List (ι × Op P)} {h : Hub ι P W}
    (hr : RunToS Ms sem (fun i => d (e i)) ops h) :
    ∃ h', RunToS Ms' sem' d (ops.map fun x => (e x.1, x.2)) h' ∧ Hub.Part e k ⟨v, m, none⟩ h h' := by
  induction hr with
  | @init h hi =>
    refine ⟨⟨k.put v h.user, m, none⟩, .init hm, rfl, fun i => ?_, fun _ _ => rfl⟩
    have h1 := hm (e i)
    rw [hp.machine, hi i] at h1
    exact (Except.ok.inj h1).symm
  | @ok h t ops i op fuel n b _ hop hs ih =>
    obtain ⟨h', hr', hh⟩ := ih
    have hc := C136_step hp fuel n i op hh
    rw [hs] at hc
    cases hs' : stepS Ms' sem' fuel n (e i) op h' with
    | ok b' t' =>
      rw [hs'] at hc
      rw [List.map_append]
      exact ⟨t', .ok hr' (by rw [hp.machine]; exact hop) hs', hc.2⟩
    | throw x t' => rw [hs'] at hc; exact hc.elim
    | ub u => rw [hs'] at hc; exact hc.elim
    | timeout => rw [hs'] at hc; exact hc.elim
  | @throw h t ops i op fuel n x _ hop hs ih =>
    obtain ⟨h', hr', hh⟩ := ih
    have hc := C136_step hp fuel n i op hh
    rw [hs] at hc
    cases hs' : stepS Ms' sem' fuel n (e i) op h' with
    | throw b' t' =>
      rw [hs'] at hc
      rw [List.map_append]
      exact ⟨t', .throw hr' (by rw [hp.machine]; exact hop) hs', hc.2⟩
    | ok x t' => rw [hs'] at hc; exact hc.elim
    | ub u => rw [hs'] at hc; exact hc.elim
    | timeout => rw [hs'] at hc; exact hc.elim
  | @world h ops _ w ih =>
    obtain ⟨h', hr', hh⟩ := ih
    exact ⟨_, .world hr' (k.put v w), rfl, hh.parts, hh.others⟩

/-- C136 for gen/hsm.h: whatever the program does by itself, it does as part of a larger one that can be constructed. -/
theorem C136_runsG (hp : IsPart e k Ms sem Ms' sem') {d : ι' → Dep} {m : ι' → SM P Unit}
    (hm : ∀ j, constructG (Ms' j) (d j) () = .ok (m j)) (v : W') {ops : List (ι × Op P)} {h : Hub ι P W}
    (hr : RunToGS Ms sem (fun i => d (e i)) ops h) :
    ∃ h', RunToGS Ms' sem' d (ops.map fun x => (e x.1, x.2)) h' ∧ Hub.Part e k ⟨v, m, none⟩ h h' := by
  induction hr with
  | @init h hi =>
    refine ⟨⟨k.put v h.user, m, none⟩, .init hm, rfl, fun i => ?_, fun _ _ => rfl⟩
    have h1 := hm (e i)
    rw [hp.machine, hi i] at h1
    exact (Except.ok.inj h1).symm
  | @ok h t ops i op fuel n b _ hop hs ih =>
    obtain ⟨h', hr', hh⟩ := ih
    have hc := C136_stepG hp fuel n i op hh
    rw [hs] at hc
    cases hs' : stepGS Ms' sem' fuel n (e i) op h' with
    | ok b' t' =>
      rw [hs'] at hc
      rw [List.map_append]
      exact ⟨t', .ok hr' (by rw [hp.machine]; exact hop) hs', hc.2⟩
    | throw x t' => rw [hs'] at hc; exact hc.elim
    | ub u => rw [hs'] at hc; exact hc.elim
    | timeout => rw [hs'] at hc; exact hc.elim
  | @throw h t ops i op fuel n x _ hop hs ih =>
    obtain ⟨h', hr', hh⟩ := ih
    have hc := C136_stepG hp fuel n i op hh
    rw [hs] at hc
    cases hs' : stepGS Ms' sem' fuel n (e i) op h' with
    | throw b' t' =>
      rw [hs'] at hc
      rw [List.map_append]
      exact ⟨t', .throw hr' (by rw [hp.machine]; exact hop) hs', hc.2⟩
    | ok x t' => rw [hs'] at hc; exact hc.elim
    | ub u => rw [hs'] at hc; exact hc.elim
    | timeout => rw [hs'] at hc; exact hc.elim
  | @world h ops _ w ih =>
    obtain ⟨h', hr', hh⟩ := ih
    exact ⟨_, .world hr' (k.put v w), rfl, hh.parts, hh.others⟩

/-- A call of one part, seen from that part. -/
theorem IsPart.own (hp : IsPart e k Ms sem Ms' sem') {fuel n : Nat} {i : ι} {op : Op P} {g : Hub ι P W}
    {h : Hub ι' P W'} (hg : Hub.Part e k h g h) :
    (stepS Ms sem fuel n i op g).Rel Eq (fun g' h' => Hub.Part e k h' g' h') (stepS Ms' sem' fuel n (e i) op h) := by
  have hc := C136_step hp fuel n i op hg
  revert hc
  cases stepS Ms sem fuel n i op g <;> cases stepS Ms' sem' fuel n (e i) op h <;> intro hc <;>
    first | exact hc.elim | exact hc | exact ⟨hc.1, hc.2.again⟩

omit [DecidableEq ι] in
/-- A call of one part, seen from another. -/
theorem IsPart.apart {ι₂ W₂ : Type} [DecidableEq ι₂] {e₂ : ι₂ → ι'} {k₂ : Share W₂ W'} {Ms₂ : ι₂ → Machine}
    {sem₂ : SemS ι₂ P W₂} (hp : IsPart e₂ k₂ Ms₂ sem₂ Ms' sem') (hd : ∀ i j, e i ≠ e₂ j)
    (hk : ∀ v w, k.get (k₂.put v w) = k.get v) {fuel n : Nat} {j : ι₂} {op : Op P} {g : Hub ι P W}
    {h : Hub ι' P W'} (hg : Hub.Part e k h g h) :
    (stepS Ms' sem' fuel n (e₂ j) op h).Out fun h' => Hub.Part e k h' g h' := by
  have hc := C136_step hp fuel n j op (Hub.own_part (e := e₂) (k := k₂) h)
  have key : ∀ {g₂ : Hub ι₂ P W₂} {h' : Hub ι' P W'}, Hub.Part e₂ k₂ h g₂ h' → Hub.Part e k h' g h' := by
    intro g₂ h' hh
    refine ⟨?_, fun i => (hh.others (e i) fun j => hd i j).trans (hg.parts i), fun _ _ => rfl⟩
    have : k.get h'.user = g.user := by rw [hh.user, hk, hg.get]
    rw [← this, k.put_get]
  revert hc
  cases stepS Ms₂ sem₂ fuel n j op (h.own e₂ k₂) <;> cases stepS Ms' sem' fuel n (e₂ j) op h <;> intro hc <;>
    first | exact hc.elim | trivial | exact key hc.2

/-- A call of one part, seen from that part. -/
theorem IsPart.ownG (hp : IsPart e k Ms sem Ms' sem') {fuel n : Nat} {i : ι} {op : Op P} {g : Hub ι P W}
    {h : Hub ι' P W'} (hg : Hub.Part e k h g h) :
    (stepGS Ms sem fuel n i op g).Rel Eq (fun g' h' => Hub.Part e k h' g' h') (stepGS Ms' sem' fuel n (e i) op h) := by
  have hc := C136_stepG hp fuel n i op hg
  revert hc
  cases stepGS Ms sem fuel n i op g <;> cases stepGS Ms' sem' fuel n (e i) op h <;> intro hc <;>
    first | exact hc.elim | exact hc | exact ⟨hc.1, hc.2.again⟩

omit [DecidableEq ι] in
/-- A call of one part, seen from another. -/
theorem IsPart.apartG {ι₂ W₂ : Type} [DecidableEq ι₂] {e₂ : ι₂ → ι'} {k₂ : Share W₂ W'} {Ms₂ : ι₂ → Machine}
    {sem₂ : SemS ι₂ P W₂} (hp : IsPart e₂ k₂ Ms₂ sem₂ Ms' sem') (hd : ∀ i j, e i ≠ e₂ j)
    (hk : ∀ v w, k.get (k₂.put v w) = k.get v) {fuel n : Nat} {j : ι₂} {op : Op P} {g : Hub ι P W}
    {h : Hub ι' P W'} (hg : Hub.Part e k h g h) :
    (stepGS Ms' sem' fuel n (e₂ j) op h).Out fun h' => Hub.Part e k h' g h' := by
  have hc := C136_stepG hp fuel n j op (Hub.own_part (e := e₂) (k := k₂) h)
  have key : ∀ {g₂ : Hub ι₂ P W₂} {h' : Hub ι' P W'}, Hub.Part e₂ k₂ h g₂ h' → Hub.Part e k h' g h' := by
    intro g₂ h' hh
    refine ⟨?_, fun i => (hh.others (e i) fun j => hd i j).trans (hg.parts i), fun _ _ => rfl⟩
    have : k.get h'.user = g.user := by rw [hh.user, hk, hg.get]
    rw [← this, k.put_get]
  revert hc
  cases stepGS Ms₂ sem₂ fuel n j op (h.own e₂ k₂) <;> cases stepGS Ms' sem' fuel n (e₂ j) op h <;> intro hc <;>
    first | exact hc.elim | trivial | exact key hc.2

end

/-! ## Two programs side by side -/

def Share.fst (V W : Type) : Share V (V × W) :=
  ⟨Prod.fst, fun v w => (w, v.2), fun _ _ => rfl, fun _ _ _ => rfl, fun _ => rfl⟩

def Share.snd (V W : Type) : Share W (V × W) :=
  ⟨Prod.snd, fun v w => (v.1, w), fun _ _ => rfl, fun _ _ _ => rfl, fun _ => rfl⟩

section
variable {ι₁ ι₂ P W₁ W₂ : Type}

/-- The callbacks of two programs in one. -/
def SemS.beside (a : SemS ι₁ P W₁) (b : SemS ι₂ P W₂) : SemS (ι₁ ⊕ ι₂) P (W₁ × W₂) where
  guard
    | .inl i, g, x, p, v => (a.guard i g x p v.1).embed Sum.inl (Share.fst W₁ W₂) v
    | .inr j, g, x, p, v => (b.guard j g x p v.2).embed Sum.inr (Share.snd W₁ W₂) v
  action
    | .inl i, c, x, p, v => (a.action i c x p v.1).embed Sum.inl (Share.fst W₁ W₂) v
    | .inr j, c, x, p, v => (b.action j c x p v.2).embed Sum.inr (Share.snd W₁ W₂) v
  handler
    | .inl i, c, e, st, d, p, v => (a.handler i c e st d p v.1).embed Sum.inl (Share.fst W₁ W₂) v
    | .inr j, c, e, st, d, p, v => (b.handler j c e st d p v.2).embed Sum.inr (Share.snd W₁ W₂) v
  alive
    | .inl i, st, v => a.alive i st v.1
    | .inr j, st, v => b.alive j st v.2
  nonePayload
    | .inl i => a.nonePayload i
    | .inr j => b.nonePayload j

variable {Ms₁ : ι₁ → Machine} {Ms₂ : ι₂ → Machine} {a : SemS ι₁ P W₁} {b : SemS ι₂ P W₂}

theorem SemS.beside_left : IsPart Sum.inl (Share.fst W₁ W₂) Ms₁ a (Sum.elim Ms₁ Ms₂) (a.beside b) :=
  ⟨fun _ _ h => Sum.inl.inj h, fun _ => rfl, fun _ _ _ _ _ => rfl, fun _ _ _ _ _ => rfl, fun _ _ _ _ _ _ _ => rfl,
    fun _ _ _ => rfl, fun _ => rfl⟩

theorem SemS.beside_right : IsPart Sum.inr (Share.snd W₁ W₂) Ms₂ b (Sum.elim Ms₁ Ms₂) (a.beside b) :=
  ⟨fun _ _ h => Sum.inr.inj h, fun _ => rfl, fun _ _ _ _ _ => rfl, fun _ _ _ _ _ => rfl, fun _ _ _ _ _ _ _ => rfl,
    fun _ _ _ => rfl, fun _ => rfl⟩

/-- The calls of machines of the one program. -/
def lefts (ops : List ((ι₁ ⊕ ι₂) × Op P)) : List (ι₁ × Op P) :=
  ops.filterMap fun x => match x.1 with | .inl i => some (i, x.2) | .inr _ => none

/-- The calls of machines of the other. -/
def rights (ops : List ((ι₁ ⊕ ι₂) × Op P)) : List (ι₂ × Op P) :=
  ops.filterMap fun x => match x.1 with | .inl _ => none | .inr j => some (j, x.2)

theorem lefts_append (ops l : List ((ι₁ ⊕ ι₂) × Op P)) : lefts (ops ++ l) = lefts ops ++ lefts l :=
  List.filterMap_append

theorem rights_append (ops l : List ((ι₁ ⊕ ι₂) × Op P)) : rights (ops ++ l) = rights ops ++ rights l :=
  List.filterMap_append

variable [DecidableEq ι₁] [DecidableEq ι₂]

theorem beside_left {d : ι₁ ⊕ ι₂ → Dep} {ops : List ((ι₁ ⊕ ι₂) × Op P)} {h : Hub (ι₁ ⊕ ι₂) P (W₁ × W₂)}
    (hr : RunToS (Sum.elim Ms₁ Ms₂) (a.beside b) d ops h) :
    ∃ g, RunToS Ms₁ a (fun i => d (.inl i)) (lefts ops) g ∧
      Hub.Part Sum.inl (Share.fst W₁ W₂) h g h := by
  induction hr with
  | @init h hi => exact ⟨h.own _ _, .init fun i => hi (.inl i), Hub.own_part h⟩
  | @ok h t ops i op fuel n x _ hop hs ih =>
    obtain ⟨g, hr', hg⟩ := ih
    rw [lefts_append]
    cases i with
    | inl i =>
      have hc := (SemS.beside_left (Ms₁ := Ms₁) (Ms₂ := Ms₂) (a := a) (b := b)).own (fuel := fuel) (n := n) (i := i)
        (op := op) hg
      rw [hs] at hc
      cases hs' : stepS Ms₁ a fuel n i op g with
      | ok x' g' => rw [hs'] at hc; exact ⟨g', .ok hr' hop hs', hc.2⟩
      | throw x t' => rw [hs'] at hc; exact hc.elim
      | ub u => rw [hs'] at hc; exact hc.elim
      | timeout => rw [hs'] at hc; exact hc.elim
    | inr j =>
      have hc := (SemS.beside_right (Ms₁ := Ms₁) (Ms₂ := Ms₂) (a := a) (b := b)).apart (e := Sum.inl)
        (k := Share.fst W₁ W₂) (fun _ _ h => nomatch h) (fun _ _ => rfl) (fuel := fuel) (n := n) (j := j) (op := op) hg
      rw [hs] at hc
      refine ⟨g, ?_, hc⟩
      show RunToS _ _ _ (_ ++ []) _
      rw [List.append_nil]; exact hr'
  | @throw h t ops i op fuel n x _ hop hs ih =>
    obtain ⟨g, hr', hg⟩ := ih
    rw [lefts_append]
    cases i with
    | inl i =>
      have hc := (SemS.beside_left (Ms₁ := Ms₁) (Ms₂ := Ms₂) (a := a) (b := b)).own (fuel := fuel) (n := n) (i := i)
        (op := op) hg
      rw [hs] at hc
      cases hs' : stepS Ms₁ a fuel n i op g with
      | throw x' g' => rw [hs'] at hc; exact ⟨g', .throw hr' hop hs', hc.2⟩
      | ok x t' => rw [hs'] at hc; exact hc.elim
      | ub u => rw [hs'] at hc; exact hc.elim
      | timeout => rw [hs'] at hc; exact hc.elim
    | inr j =>
      have hc := (SemS.beside_right (Ms₁ := Ms₁) (Ms₂ := Ms₂) (a := a) (b := b)).apart (e := Sum.inl)
        (k := Share.fst W₁ W₂) (fun _ _ h => nomatch h) (fun _ _ => rfl) (fuel := fuel) (n := n) (j := j) (op := op) hg
      rw [hs] at hc
      refine ⟨g, ?_, hc⟩
      show RunToS _ _ _ (_ ++ []) _
      rw [List.append_nil]; exact hr'
  | @world h ops _ w ih =>
    obtain ⟨g, hr', hg⟩ := ih
    exact ⟨_, .world hr' w.1, rfl, hg.parts, fun _ _ => rfl⟩

theorem beside_right {d : ι₁ ⊕ ι₂ → Dep} {ops : List ((ι₁ ⊕ ι₂) × Op P)} {h : Hub (ι₁ ⊕ ι₂) P (W₁ × W₂)}
    (hr : RunToS (Sum.elim Ms₁ Ms₂) (a.beside b) d ops h) :
    ∃ g, RunToS Ms₂ b (fun i => d (.inr i)) (rights ops) g ∧
      Hub.Part Sum.inr (Share.snd W₁ W₂) h g h := by
  induction hr with
  | @init h hi => exact ⟨h.own _ _, .init fun i => hi (.inr i), Hub.own_part h⟩
  | @ok h t ops i op fuel n x _ hop hs ih =>
    obtain ⟨g, hr', hg⟩ := ih
    rw [rights_append]
    cases i with
    | inr i =>
      have hc := (SemS.beside_right (Ms₁ := Ms₁) (Ms₂ := Ms₂) (a := a) (b := b)).own (fuel := fuel) (n := n) (i := i)
        (op := op) hg
      rw [hs] at hc
      cases hs' : stepS Ms₂ b fuel n i op g with
      | ok x' g' => rw [hs'] at hc; exact ⟨g', .ok hr' hop hs', hc.2⟩
      | throw x t' => rw [hs'] at hc; exact hc.elim
      | ub u => rw [hs'] at hc; exact hc.elim
      | timeout => rw [hs'] at hc; exact hc.elim
    | inl j =>
      have hc := (SemS.beside_left (Ms₁ := Ms₁) (Ms₂ := Ms₂) (a := a) (b := b)).apart (e := Sum.inr)
        (k := Share.snd W₁ W₂) (fun _ _ h => nomatch h) (fun _ _ => rfl) (fuel := fuel) (n := n) (j := j) (op := op) hg
      rw [hs] at hc
      refine ⟨g, ?_, hc⟩
      show RunToS _ _ _ (_ ++ []) _
      rw [List.append_nil]; exact hr'
  | @throw h t ops i op fuel n x _ hop hs ih =>
    obtain ⟨g, hr', hg⟩ := ih
    rw [rights_append]
    cases i with
    | inr i =>
      have hc := (SemS.beside_right (Ms₁ := Ms₁) (Ms₂ := Ms₂) (a := a) (b := b)).own (fuel := fuel) (n := n) (i := i)
        (op := op) hg
      rw [hs] at hc
      cases hs' : stepS Ms₂ b fuel n i op g with
      | throw x' g' => rw [hs'] at hc; exact ⟨g', .throw hr' hop hs', hc.2⟩
      | ok x t' => rw [hs'] at hc; exact hc.elim
      | ub u => rw [hs'] at hc; exact hc.elim
      | timeout => rw [hs'] at hc; exact hc.elim
    | inl j =>
      have hc := (SemS.beside_left (Ms₁ := Ms₁) (Ms₂ := Ms₂) (a := a) (b := b)).apart (e := Sum.inr)
        (k := Share.snd W₁ W₂) (fun _ _ h => nomatch h) (fun _ _ => rfl) (fuel := fuel) (n := n) (j := j) (op := op) hg
      rw [hs] at hc
      refine ⟨g, ?_, hc⟩
      show RunToS _ _ _ (_ ++ []) _
      rw [List.append_nil]; exact hr'
  | @world h ops _ w ih =>
    obtain ⟨g, hr', hg⟩ := ih
    exact ⟨_, .world hr' w.2, rfl, hg.parts, fun _ _ => rfl⟩

/-- C136: of two programs side by side, each is after every history as after a history of its own, which consists
of the calls of its machines. -/
theorem C136_beside {d : ι₁ ⊕ ι₂ → Dep} {ops : List ((ι₁ ⊕ ι₂) × Op P)} {h : Hub (ι₁ ⊕ ι₂) P (W₁ × W₂)}
    (hr : RunToS (Sum.elim Ms₁ Ms₂) (a.beside b) d ops h) :
    (∃ g, RunToS Ms₁ a (fun i => d (.inl i)) (lefts ops) g ∧ g.user = h.user.1 ∧
      ∀ i, g.parts i = h.parts (.inl i)) ∧
    ∃ g, RunToS Ms₂ b (fun j => d (.inr j)) (rights ops) g ∧ g.user = h.user.2 ∧
      ∀ j, g.parts j = h.parts (.inr j) := by
  obtain ⟨g, h1, h2⟩ := beside_left hr
  obtain ⟨g', h3, h4⟩ := beside_right hr
  exact ⟨⟨g, h1, h2.get.symm, fun i => (h2.parts i).symm⟩, ⟨g', h3, h4.get.symm, fun j => (h4.parts j).symm⟩⟩

theorem beside_leftG {d : ι₁ ⊕ ι₂ → Dep} {ops : List ((ι₁ ⊕ ι₂) × Op P)} {h : Hub (ι₁ ⊕ ι₂) P (W₁ × W₂)}
    (hr : RunToGS (Sum.elim Ms₁ Ms₂) (a.beside b) d ops h) :
    ∃ g, RunToGS Ms₁ a (fun i => d (.inl i)) (lefts ops) g ∧
      Hub.Part Sum.inl (Share.fst W₁ W₂) h g h := by
  induction hr with
  | @init h hi => exact ⟨h.own _ _, .init fun i => hi (.inl i), Hub.own_part h⟩
  | @ok h t ops i op fuel n x _ hop hs ih =>
    obtain ⟨g, hr', hg⟩ := ih
    rw [lefts_append]
    cases i with
    | inl i =>
      have hc := (SemS.beside_left (Ms₁ := Ms₁) (Ms₂ := Ms₂) (a := a) (b := b)).ownG (fuel := fuel) (n := n) (i := i)
        (op := op) hg
      rw [hs] at hc
      cases hs' : stepGS Ms₁ a fuel n i op g with
      | ok x' g' => rw [hs'] at hc; exact ⟨g', .ok hr' hop hs', hc.2⟩
      | throw x t' => rw [hs'] at hc; exact hc.elim
      | ub u => rw [hs'] at hc; exact hc.elim
      | timeout => rw [hs'] at hc; exact hc.elim
    | inr j =>
      have hc := (SemS.beside_right (Ms₁ := Ms₁) (Ms₂ := Ms₂) (a := a) (b := b)).apartG (e := Sum.inl)
        (k := Share.fst W₁ W₂) (fun _ _ h => nomatch h) (fun _ _ => rfl) (fuel := fuel) (n := n) (j := j) (op := op) hg
      rw [hs] at hc
      refine ⟨g, ?_, hc⟩
      show RunToGS _ _ _ (_ ++ []) _
      rw [List.append_nil]; exact hr'
  | @throw h t ops i op fuel n x _ hop hs ih =>
    obtain ⟨g, hr', hg⟩ := ih
    rw [lefts_append]
    cases i with
    | inl i =>
      have hc := (SemS.beside_left (Ms₁ := Ms₁) (Ms₂ := Ms₂) (a := a) (b := b)).ownG (fuel := fuel) (n := n) (i := i)
        (op := op) hg
      rw [hs] at hc
      cases hs' : stepGS Ms₁ a fuel n i op g with
      | throw x' g' => rw [hs'] at hc; exact ⟨g', .throw hr' hop hs', hc.2⟩
      | ok x t' => rw [hs'] at hc; exact hc.elim
      | ub u => rw [hs'] at hc; exact hc.elim
      | timeout => rw [hs'] at hc; exact hc.elim
    | inr j =>
      have hc := (SemS.beside_right (Ms₁ := Ms₁) (Ms₂ := Ms₂) (a := a) (b := b)).apartG (e := Sum.inl)
        (k := Share.fst W₁ W₂) (fun _ _ h => nomatch h) (fun _ _ => rfl) (fuel := fuel) (n := n) (j := j) (op := op) hg
      rw [hs] at hc
      refine ⟨g, ?_, hc⟩
      show RunToGS _ _ _ (_ ++ []) _
      rw [List.append_nil]; exact hr'
  | @world h ops _ w ih =>
    obtain ⟨g, hr', hg⟩ := ih
    exact ⟨_, .world hr' w.1, rfl, hg.parts, fun _ _ => rfl⟩

theorem beside_rightG {d : ι₁ ⊕ ι₂ → Dep} {ops : List ((ι₁ ⊕ ι₂) × Op P)} {h : Hub (ι₁ ⊕ ι₂) P (W₁ × W₂)}
    (hr : RunToGS (Sum.elim Ms₁ Ms₂) (a.beside b) d ops h) :
    ∃ g, RunToGS Ms₂ b (fun i => d (.inr i)) (rights ops) g ∧
      Hub.Part Sum.inr (Share.snd W₁ W₂) h g h := by
  induction hr with
  | @init h hi => exact ⟨h.own _ _, .init fun i => hi (.inr i), Hub.own_part h⟩
  | @ok h t ops i op fuel n x _ hop hs ih =>
    obtain ⟨g, hr', hg⟩ := ih
    rw [rights_append]
    cases i with
    | inr i =>
      have hc := (SemS.beside_right (Ms₁ := Ms₁) (Ms₂ := Ms₂) (a := a) (b := b)).ownG (fuel := fuel) (n := n) (i := i)
        (op := op) hg
      rw [hs] at hc
      cases hs' : stepGS Ms₂ b fuel n i op g with
      | ok x' g' => rw [hs'] at hc; exact ⟨g', .ok hr' hop hs', hc.2⟩
      | throw x t' => rw [hs'] at hc; exact hc.elim
      | ub u => rw [hs'] at hc; exact hc.elim
      | timeout => rw [hs'] at hc; exact hc.elim
    | inl j =>
      have hc := (SemS.beside_left (Ms₁ := Ms₁) (Ms₂ := Ms₂) (a := a) (b := b)).apartG (e := Sum.inr)
        (k := Share.snd W₁ W₂) (fun _ _ h => nomatch h) (fun _ _ => rfl) (fuel := fuel) (n := n) (j := j) (op := op) hg
      rw [hs] at hc
      refine ⟨g, ?_, hc⟩
      show RunToGS _ _ _ (_ ++ []) _
      rw [List.append_nil]; exact hr'
  | @throw h t ops i op fuel n x _ hop hs ih =>
    obtain ⟨g, hr', hg⟩ := ih
    rw [rights_append]
    cases i with
    | inr i =>
      have hc := (SemS.beside_right (Ms₁ := Ms₁) (Ms₂ := Ms₂) (a := a) (b := b)).ownG (fuel := fuel) (n := n) (i := i)
        (op := op) hg
      rw [hs] at hc
      cases hs' : stepGS Ms₂ b fuel n i op g with
      | throw x' g' => rw [hs'] at hc; exact ⟨g', .throw hr' hop hs', hc.2⟩
      | ok x t' => rw [hs'] at hc; exact hc.elim
      | ub u => rw [hs'] at hc; exact hc.elim
      | timeout => rw [hs'] at hc; exact hc.elim
    | inl j =>
      have hc := (SemS.beside_left (Ms₁ := Ms₁) (Ms₂ := Ms₂) (a := a) (b := b)).apartG (e := Sum.inr)
        (k := Share.snd W₁ W₂) (fun _ _ h => nomatch h) (fun _ _ => rfl) (fuel := fuel) (n := n) (j := j) (op := op) hg
      rw [hs] at hc
      refine ⟨g, ?_, hc⟩
      show RunToGS _ _ _ (_ ++ []) _
      rw [List.append_nil]; exact hr'
  | @world h ops _ w ih =>
    obtain ⟨g, hr', hg⟩ := ih
    exact ⟨_, .world hr' w.2, rfl, hg.parts, fun _ _ => rfl⟩

/-- C136 for gen/hsm.h: of two programs side by side, each is after every history as after a history of its own, which consists
of the calls of its machines. -/
theorem C136_besideG {d : ι₁ ⊕ ι₂ → Dep} {ops : List ((ι₁ ⊕ ι₂) × Op P)} {h : Hub (ι₁ ⊕ ι₂) P (W₁ × W₂)}
    (hr : RunToGS (Sum.elim Ms₁ Ms₂) (a.beside b) d ops h) :
    (∃ g, RunToGS Ms₁ a (fun i => d (.inl i)) (lefts ops) g ∧ g.user = h.user.1 ∧
      ∀ i, g.parts i = h.parts (.inl i)) ∧
    ∃ g, RunToGS Ms₂ b (fun j => d (.inr j)) (rights ops) g ∧ g.user = h.user.2 ∧
      ∀ j, g.parts j = h.parts (.inr j) := by
  obtain ⟨g, h1, h2⟩ := beside_leftG hr
  obtain ⟨g', h3, h4⟩ := beside_rightG hr
  exact ⟨⟨g, h1, h2.get.symm, fun i => (h2.parts i).symm⟩, ⟨g', h3, h4.get.symm, fun j => (h4.parts j).symm⟩⟩

end

/-! ## Programs in which others do not call the part -/

def Share.all (W : Type) : Share W W :=
  ⟨id, fun _ w => w, fun _ _ => rfl, fun _ _ _ => rfl, fun _ => rfl⟩

section
variable {ι ι' P W W' : Type} {e : ι → ι'} {k : Share W W'} {Ms : ι → Machine} {sem : SemS ι P W}
  {Ms' : ι' → Machine} {sem' : SemS ι' P W'}

/-- Callbacks of machines that are not in the part do not call machines that are. -/
structure SemS.Outside (e : ι → ι') (sem' : SemS ι' P W') : Prop where
  guard : ∀ j, (∀ i, j ≠ e i) → ∀ g a p w, (sem'.guard j g a p w).Good True fun l _ => ∀ i, l ≠ e i
  action : ∀ j, (∀ i, j ≠ e i) → ∀ c a p w, (sem'.action j c a p w).Good True fun l _ => ∀ i, l ≠ e i
  handler : ∀ j, (∀ i, j ≠ e i) → ∀ c ev st d p w, (sem'.handler j c ev st d p w).Good True fun l _ => ∀ i, l ≠ e i

open Classical in
/-- A callback that calls machines in `S` only. -/
noncomputable def SProg.only {α : Type} (S : ι' → Prop) : SProg ι' P W' α → SProg {j // S j} P W' α
  | .ret a p w => .ret a p w
  | .throw x w => .throw x w
  | .ub => .ub
  | .call i op w f => if h : S i then .call ⟨i, h⟩ op w fun r w => (f r w).only S else .ub

theorem SProg.only_embed {α : Type} {S : ι' → Prop} : ∀ {pr : SProg ι' P W' α}, pr.Good True (fun l _ => S l) →
    ∀ v, (pr.only S).embed Subtype.val (Share.all W') v = pr := by
  intro pr
  induction pr with
  | ret => intro _ _; rfl
  | throw => intro _ _; rfl
  | ub => intro _ _; rfl
  | call i op w f ih =>
    intro h v
    unfold SProg.only
    rw [dif_pos h.1]
    unfold SProg.embed
    congr 1
    funext r x
    exact ih r x (h.2 r x) x

/-- The machines that are not in the part, as a program. -/
noncomputable def SemS.rest (e : ι → ι') (sem' : SemS ι' P W') : SemS {j // ∀ i, j ≠ e i} P W' where
  guard j g a p w := (sem'.guard j.1 g a p w).only _
  action j c a p w := (sem'.action j.1 c a p w).only _
  handler j c ev st d p w := (sem'.handler j.1 c ev st d p w).only _
  alive j st w := sem'.alive j.1 st w
  nonePayload j := sem'.nonePayload j.1

theorem SemS.Outside.part (ho : sem'.Outside e) :
    IsPart Subtype.val (Share.all W') (fun j : {j // ∀ i, j ≠ e i} => Ms' j.1) (sem'.rest e) Ms' sem' where
  inj _ _ h := Subtype.ext h
  machine _ := rfl
  guard j g a p v := (SProg.only_embed (ho.guard j.1 j.2 g a p v) v).symm
  action j c a p v := (SProg.only_embed (ho.action j.1 j.2 c a p v) v).symm
  handler j c ev st d p v := (SProg.only_embed (ho.handler j.1 j.2 c ev st d p v) v).symm
  alive _ _ _ := rfl
  nonePayload _ := rfl

variable [DecidableEq ι] [DecidableEq ι']

omit [DecidableEq ι] in
/-- A call of a machine that is not in the part changes no machine of the part. -/
theorem SemS.Outside.keeps (ho : sem'.Outside e) {fuel n : Nat} {j : ι'} (hj : ∀ i, j ≠ e i) {op : Op P}
    (h : Hub ι' P W') : (stepS Ms' sem' fuel n j op h).Out fun h' => ∀ i, h'.parts (e i) = h.parts (e i) := by
  have hc := C136_step (ho.part (Ms' := Ms')) fuel n ⟨j, hj⟩ op (Hub.own_part (k := Share.all W') h)
  revert hc
  show Res.Rel _ _ _ (stepS Ms' sem' fuel n j op h) → _
  cases stepS (fun j : {j // ∀ i, j ≠ e i} => Ms' j.1) (sem'.rest e) fuel n ⟨j, hj⟩ op (h.own _ _) <;>
    cases stepS Ms' sem' fuel n j op h <;> intro hc <;>
    first | exact hc.elim | trivial | exact fun i => hc.2.others (e i) fun l hl => l.2 i hl.symm

open Classical in
/-- C136: if the callbacks of the other machines do not call the machines of the part, then after every history
of the larger program the part is as after a history of its own, which consists of the calls of its machines made
from outside.  The others may change its variables. -/
theorem C136_within (hp : IsPart e k Ms sem Ms' sem') (ho : sem'.Outside e) {d : ι' → Dep}
    {ops : List (ι' × Op P)} {h : Hub ι' P W'} (hr : RunToS Ms' sem' d ops h) :
    ∃ (own : List (ι × Op P)) (g : Hub ι P W),
      own.map (fun x => (e x.1, x.2)) = ops.filter (fun x => decide (∃ i, x.1 = e i)) ∧
      RunToS Ms sem (fun i => d (e i)) own g ∧ g.user = k.get h.user ∧ ∀ i, g.parts i = h.parts (e i) := by
  suffices hs : ∃ (own : List (ι × Op P)) (g : Hub ι P W),
      own.map (fun x => (e x.1, x.2)) = ops.filter (fun x => decide (∃ i, x.1 = e i)) ∧
      RunToS Ms sem (fun i => d (e i)) own g ∧ Hub.Part e k h g h by
    obtain ⟨own, g, h1, h2, h3⟩ := hs
    exact ⟨own, g, h1, h2, h3.get.symm, fun i => (h3.parts i).symm⟩
  induction hr with
  | @init h hi =>
    exact ⟨[], h.own _ _, rfl, .init fun i => by have := hi (e i); rw [hp.machine] at this; exact this, Hub.own_part h⟩
  | @ok h t ops j op fuel n x _ hop hs ih =>
    obtain ⟨own, g, h1, hr', hg⟩ := ih
    rw [List.filter_append, ← h1]
    by_cases hj : ∃ i, j = e i
    · obtain ⟨i, rfl⟩ := hj
      have hc := hp.own (fuel := fuel) (n := n) (i := i) (op := op) hg
      rw [hs] at hc
      cases hs' : stepS Ms sem fuel n i op g with
      | ok x' g' =>
        rw [hs'] at hc
        refine ⟨own ++ [(i, op)], g', ?_, .ok hr' (by rw [← hp.machine]; exact hop) hs', hc.2⟩
        rw [List.map_append, List.filter_cons_of_pos (by simp)]; rfl
      | throw x t' => rw [hs'] at hc; exact hc.elim
      | ub u => rw [hs'] at hc; exact hc.elim
      | timeout => rw [hs'] at hc; exact hc.elim
    · have hc := ho.keeps (Ms' := Ms') (fuel := fuel) (n := n) (fun i hi => hj ⟨i, hi⟩) (op := op) h
      rw [hs] at hc
      refine ⟨own, { g with user := k.get t.user }, ?_, .world hr' _, (k.put_get _).symm,
        fun i => (hc i).trans (hg.parts i), fun _ _ => rfl⟩
      rw [List.filter_cons_of_neg (by simpa using hj), List.filter_nil, List.append_nil]
  | @throw h t ops j op fuel n x _ hop hs ih =>
    obtain ⟨own, g, h1, hr', hg⟩ := ih
    rw [List.filter_append, ← h1]
    by_cases hj : ∃ i, j = e i
    · obtain ⟨i, rfl⟩ := hj
      have hc := hp.own (fuel := fuel) (n := n) (i := i) (op := op) hg
      rw [hs] at hc
      cases hs' : stepS Ms sem fuel n i op g with
      | throw x' g' =>
        rw [hs'] at hc
        refine ⟨own ++ [(i, op)], g', ?_, .throw hr' (by rw [← hp.machine]; exact hop) hs', hc.2⟩
        rw [List.map_append, List.filter_cons_of_pos (by simp)]; rfl
      | ok x t' => rw [hs'] at hc; exact hc.elim
      | ub u => rw [hs'] at hc; exact hc.elim
      | timeout => rw [hs'] at hc; exact hc.elim
    · have hc := ho.keeps (Ms' := Ms') (fuel := fuel) (n := n) (fun i hi => hj ⟨i, hi⟩) (op := op) h
      rw [hs] at hc
      refine ⟨own, { g with user := k.get t.user }, ?_, .world hr' _, (k.put_get _).symm,
        fun i => (hc i).trans (hg.parts i), fun _ _ => rfl⟩
      rw [List.filter_cons_of_neg (by simpa using hj), List.filter_nil, List.append_nil]
  | @world h ops _ w ih =>
    obtain ⟨own, g, h1, hr', hg⟩ := ih
    exact ⟨own, _, h1, .world hr' (k.get w), (k.put_get _).symm, hg.parts, fun _ _ => rfl⟩

omit [DecidableEq ι] in
/-- A call of a machine that is not in the part changes no machine of the part. -/
theorem SemS.Outside.keepsG (ho : sem'.Outside e) {fuel n : Nat} {j : ι'} (hj : ∀ i, j ≠ e i) {op : Op P}
    (h : Hub ι' P W') : (stepGS Ms' sem' fuel n j op h).Out fun h' => ∀ i, h'.parts (e i) = h.parts (e i) := by
  have hc := C136_stepG (ho.part (Ms' := Ms')) fuel n ⟨j, hj⟩ op (Hub.own_part (k := Share.all W') h)
  revert hc
  show Res.Rel _ _ _ (stepGS Ms' sem' fuel n j op h) → _
  cases stepGS (fun j : {j // ∀ i, j ≠ e i} => Ms' j.1) (sem'.rest e) fuel n ⟨j, hj⟩ op (h.own _ _) <;>
    cases stepGS Ms' sem' fuel n j op h <;> intro hc <;>
    first | exact hc.elim | trivial | exact fun i => hc.2.others (e i) fun l hl => l.2 i hl.symm

open Classical in
/-- C136 for gen/hsm.h: if the callbacks of the other machines do not call the machines of the part, then after every history
of the larger program the part is as after a history of its own, which consists of the calls of its machines made
from outside.  The others may change its variables. -/
theorem C136_withinG (hp : IsPart e k Ms sem Ms' sem') (ho : sem'.Outside e) {d : ι' → Dep}
    {ops : List (ι' × Op P)} {h : Hub ι' P W'} (hr : RunToGS Ms' sem' d ops h) :
    ∃ (own : List (ι × Op P)) (g : Hub ι P W),
      own.map (fun x => (e x.1, x.2)) = ops.filter (fun x => decide (∃ i, x.1 = e i)) ∧
      RunToGS Ms sem (fun i => d (e i)) own g ∧ g.user = k.get h.user ∧ ∀ i, g.parts i = h.parts (e i) := by
  suffices hs : ∃ (own : List (ι × Op P)) (g : Hub ι P W),
      own.map (fun x => (e x.1, x.2)) = ops.filter (fun x => decide (∃ i, x.1 = e i)) ∧
      RunToGS Ms sem (fun i => d (e i)) own g ∧ Hub.Part e k h g h by
    obtain ⟨own, g, h1, h2, h3⟩ := hs
    exact ⟨own, g, h1, h2, h3.get.symm, fun i => (h3.parts i).symm⟩
  induction hr with
  | @init h hi =>
    exact ⟨[], h.own _ _, rfl, .init fun i => by have := hi (e i); rw [hp.machine] at this; exact this, Hub.own_part h⟩
  | @ok h t ops j op fuel n x _ hop hs ih =>
    obtain ⟨own, g, h1, hr', hg⟩ := ih
    rw [List.filter_append, ← h1]
    by_cases hj : ∃ i, j = e i
    · obtain ⟨i, rfl⟩ := hj
      have hc := hp.ownG (fuel := fuel) (n := n) (i := i) (op := op) hg
      rw [hs] at hc
      cases hs' : stepGS Ms sem fuel n i op g with
      | ok x' g' =>
        rw [hs'] at hc
        refine ⟨own ++ [(i, op)], g', ?_, .ok hr' (by rw [← hp.machine]; exact hop) hs', hc.2⟩
        rw [List.map_append, List.filter_cons_of_pos (by simp)]; rfl
      | throw x t' => rw [hs'] at hc; exact hc.elim
      | ub u => rw [hs'] at hc; exact hc.elim
      | timeout => rw [hs'] at hc; exact hc.elim
    · have hc := ho.keepsG (Ms' := Ms') (fuel := fuel) (n := n) (fun i hi => hj ⟨i, hi⟩) (op := op) h
      rw [hs] at hc
      refine ⟨own, { g with user := k.get t.user }, ?_, .world hr' _, (k.put_get _).symm,
        fun i => (hc i).trans (hg.parts i), fun _ _ => rfl⟩
      rw [List.filter_cons_of_neg (by simpa using hj), List.filter_nil, List.append_nil]
  | @throw h t ops j op fuel n x _ hop hs ih =>
    obtain ⟨own, g, h1, hr', hg⟩ := ih
    rw [List.filter_append, ← h1]
    by_cases hj : ∃ i, j = e i
    · obtain ⟨i, rfl⟩ := hj
      have hc := hp.ownG (fuel := fuel) (n := n) (i := i) (op := op) hg
      rw [hs] at hc
      cases hs' : stepGS Ms sem fuel n i op g with
      | throw x' g' =>
        rw [hs'] at hc
        refine ⟨own ++ [(i, op)], g', ?_, .throw hr' (by rw [← hp.machine]; exact hop) hs', hc.2⟩
        rw [List.map_append, List.filter_cons_of_pos (by simp)]; rfl
      | ok x t' => rw [hs'] at hc; exact hc.elim
      | ub u => rw [hs'] at hc; exact hc.elim
      | timeout => rw [hs'] at hc; exact hc.elim
    · have hc := ho.keepsG (Ms' := Ms') (fuel := fuel) (n := n) (fun i hi => hj ⟨i, hi⟩) (op := op) h
      rw [hs] at hc
      refine ⟨own, { g with user := k.get t.user }, ?_, .world hr' _, (k.put_get _).symm,
        fun i => (hc i).trans (hg.parts i), fun _ _ => rfl⟩
      rw [List.filter_cons_of_neg (by simpa using hj), List.filter_nil, List.append_nil]
  | @world h ops _ w ih =>
    obtain ⟨own, g, h1, hr', hg⟩ := ih
    exact ⟨own, _, h1, .world hr' (k.get w), (k.put_get _).symm, hg.parts, fun _ _ => rfl⟩

open Classical in
/-- C136: if the callbacks of the other machines do not call the machines of the part, then after every history of
the larger program every call of a machine of the part has the outcome it has after a history of the part. -/
theorem C136_answers (hp : IsPart e k Ms sem Ms' sem') (ho : sem'.Outside e) {d : ι' → Dep}
    {ops : List (ι' × Op P)} {h : Hub ι' P W'} (hr : RunToS Ms' sem' d ops h) :
    ∃ (own : List (ι × Op P)) (g : Hub ι P W),
      own.map (fun x => (e x.1, x.2)) = ops.filter (fun x => decide (∃ i, x.1 = e i)) ∧
      RunToS Ms sem (fun i => d (e i)) own g ∧ ∀ fuel n i op,
        (stepS Ms sem fuel n i op g).Rel Eq (Hub.Part e k h) (stepS Ms' sem' fuel n (e i) op h) := by
  obtain ⟨own, g, h1, h2, h3, h4⟩ := C136_within hp ho hr
  exact ⟨own, g, h1, h2, fun fuel n i op =>
    C136_step hp fuel n i op ⟨by rw [h3, k.put_get], fun i => (h4 i).symm, fun _ _ => rfl⟩⟩

/-- C136: what has no undefined behaviour by itself has none in a larger program. -/
theorem C136_safe (hp : IsPart e k Ms sem Ms' sem') (ho : sem'.Outside e) {d : ι' → Dep} {fuel n : Nat} {i : ι}
    {op : Op P} (hs : ∀ own g, RunToS Ms sem (fun i => d (e i)) own g → (stepS Ms sem fuel n i op g).Defined)
    {ops : List (ι' × Op P)} {h : Hub ι' P W'} (hr : RunToS Ms' sem' d ops h) :
    (stepS Ms' sem' fuel n (e i) op h).Defined := by
  obtain ⟨own, g, -, h2, h3⟩ := C136_answers hp ho hr
  have h4 := h3 fuel n i op
  have h5 := hs own g h2
  revert h4 h5
  cases stepS Ms sem fuel n i op g <;> cases stepS Ms' sem' fuel n (e i) op h <;> intro h4 h5 <;>
    first | exact h4.elim | exact absurd rfl (h5 _) | exact fun _ h => nomatch h

open Classical in
/-- C136 for gen/hsm.h: if the callbacks of the other machines do not call the machines of the part, then after every history of
the larger program every call of a machine of the part has the outcome it has after a history of the part. -/
theorem C136_answersG (hp : IsPart e k Ms sem Ms' sem') (ho : sem'.Outside e) {d : ι' → Dep}
    {ops : List (ι' × Op P)} {h : Hub ι' P W'} (hr : RunToGS Ms' sem' d ops h) :
    ∃ (own : List (ι × Op P)) (g : Hub ι P W),
      own.map (fun x => (e x.1, x.2)) = ops.filter (fun x => decide (∃ i, x.1 = e i)) ∧
      RunToGS Ms sem (fun i => d (e i)) own g ∧ ∀ fuel n i op,
        (stepGS Ms sem fuel n i op g).Rel Eq (Hub.Part e k h) (stepGS Ms' sem' fuel n (e i) op h) := by
  obtain ⟨own, g, h1, h2, h3, h4⟩ := C136_withinG hp ho hr
  exact ⟨own, g, h1, h2, fun fuel n i op =>
    C136_stepG hp fuel n i op ⟨by rw [h3, k.put_get], fun i => (h4 i).symm, fun _ _ => rfl⟩⟩

/-- C136 for gen/hsm.h: what has no undefined behaviour by itself has none in a larger program. -/
theorem C136_safeG (hp : IsPart e k Ms sem Ms' sem') (ho : sem'.Outside e) {d : ι' → Dep} {fuel n : Nat} {i : ι}
    {op : Op P} (hs : ∀ own g, RunToGS Ms sem (fun i => d (e i)) own g → (stepGS Ms sem fuel n i op g).Defined)
    {ops : List (ι' × Op P)} {h : Hub ι' P W'} (hr : RunToGS Ms' sem' d ops h) :
    (stepGS Ms' sem' fuel n (e i) op h).Defined := by
  obtain ⟨own, g, -, h2, h3⟩ := C136_answersG hp ho hr
  have h4 := h3 fuel n i op
  have h5 := hs own g h2
  revert h4 h5
  cases stepGS Ms sem fuel n i op g <;> cases stepGS Ms' sem' fuel n (e i) op h <;> intro h4 h5 <;>
    first | exact h4.elim | exact absurd rfl (h5 _) | exact fun _ h => nomatch h

end

/-! ## Examples -/

namespace Ex

theorem hop_constructs : ∃ s : SM Nat Unit, construct hop 7 () = .ok s ∧ s.log = [] := by
  have h : (construct (P := Nat) hop 7 ()).toOption.any (·.log.isEmpty) = true := by decide +kernel
  cases hc : construct (P := Nat) hop 7 () with
  | ok s => rw [hc] at h; exact ⟨s, rfl, List.isEmpty_iff.1 h⟩
  | error x => rw [hc] at h; cases h

theorem hop_constructsG : ∃ s : SM Nat Unit, constructG hop 7 () = .ok s ∧ s.log = [] := by
  have h : (constructG (P := Nat) hop 7 ()).toOption.any (·.log.isEmpty) = true := by decide +kernel
  cases hc : constructG (P := Nat) hop 7 () with
  | ok s => rw [hc] at h; exact ⟨s, rfl, List.isEmpty_iff.1 h⟩
  | error x => rw [hc] at h; cases h

/-- Two pairs of machines that send each other events, in one program. -/
abbrev quartet : SemS (Bool ⊕ Bool) Nat (List Nat × List Nat) :=
  (semS true quietS pingPong).beside (semS true quietS pingPong)

/-- C136 applies: event 0 makes the first two machines move as they do in a program of their own; the other two
stay where they are, and so do their variables. -/
example : ∃ h, RunToS (Sum.elim twins twins) quartet (fun _ => 7) [(.inl false, .process (ev 0) 1)] h ∧
    (h.parts (.inl false)).log.length = 2 ∧ (h.parts (.inl true)).log.length = 1 ∧
    (∀ j, (h.parts (.inr j)).log = []) ∧ h.user = ([100, 1, 2, 3, 20], [5]) ∧
    ∃ g, RunToS twins (semS true quietS pingPong) (fun _ => 7) [] g ∧ g.user = [5] := by
  obtain ⟨s, hc, hl⟩ := hop_constructs
  obtain ⟨h, hr, hs⟩ := exists_runS twins (semS true quietS pingPong) (fuel := 5) (n := 5) (d := fun _ => 7) (w := [])
    (ops := [(false, .process (ev 0) 1)])
    (f := fun h => (h.parts false).log.length == 2 && ((h.parts true).log.length == 1 &&
      h.user == [100, 1, 2, 3, 20])) (by decide +kernel)
  simp only [Bool.and_eq_true, beq_iff_eq] at hs
  obtain ⟨h', hr', hh⟩ := C136_runs (SemS.beside_left (Ms₂ := twins) (b := semS true quietS pingPong))
    (d := fun _ => 7) (m := fun _ => s) (fun j => by cases j <;> exact hc) ([], [5]) hr
  have hu : h'.user = ([100, 1, 2, 3, 20], [5]) := by rw [hh.user, hs.2.2]; rfl
  obtain ⟨-, g, hg, hw, -⟩ := C136_beside hr'
  refine ⟨h', hr', by rw [hh.parts]; exact hs.1, by rw [hh.parts]; exact hs.2.1, fun j => ?_, hu, g, hg, by rw [hw, hu]⟩
  rw [hh.others _ fun i h => by cases h]
  exact hl

/-- C136 applies under gen/hsm.h: event 0 makes the first two machines move as they do in a program of their own; the other two
stay where they are, and so do their variables. -/
example : ∃ h, RunToGS (Sum.elim twins twins) quartet (fun _ => 7) [(.inl false, .process (ev 0) 1)] h ∧
    (h.parts (.inl false)).log.length = 2 ∧ (h.parts (.inl true)).log.length = 1 ∧
    (∀ j, (h.parts (.inr j)).log = []) ∧ h.user = ([100, 1, 2, 3, 20], [5]) ∧
    ∃ g, RunToGS twins (semS true quietS pingPong) (fun _ => 7) [] g ∧ g.user = [5] := by
  obtain ⟨s, hc, hl⟩ := hop_constructsG
  obtain ⟨h, hr, hs⟩ := exists_runGS twins (semS true quietS pingPong) (fuel := 5) (n := 5) (d := fun _ => 7) (w := [])
    (ops := [(false, .process (ev 0) 1)])
    (f := fun h => (h.parts false).log.length == 2 && ((h.parts true).log.length == 1 &&
      h.user == [100, 1, 2, 3, 20])) (by decide +kernel)
  simp only [Bool.and_eq_true, beq_iff_eq] at hs
  obtain ⟨h', hr', hh⟩ := C136_runsG (SemS.beside_left (Ms₂ := twins) (b := semS true quietS pingPong))
    (d := fun _ => 7) (m := fun _ => s) (fun j => by cases j <;> exact hc) ([], [5]) hr
  have hu : h'.user = ([100, 1, 2, 3, 20], [5]) := by rw [hh.user, hs.2.2]; rfl
  obtain ⟨-, g, hg, hw, -⟩ := C136_besideG hr'
  refine ⟨h', hr', by rw [hh.parts]; exact hs.1, by rw [hh.parts]; exact hs.2.1, fun j => ?_, hu, g, hg, by rw [hw, hu]⟩
  rw [hh.others _ fun i h => by cases h]
  exact hl

/-- Action 1 of the first machine sends event 1 to the second. -/
def pings (i : Bool) (c : Nat) : List (Bool × Op Nat) :=
  if i then [] else if c = 1 then [(true, .process (ev 1) 5)] else []

/-- The second machine by itself. -/
def lonely : SemS Unit Nat (List Nat) where
  guard _ g _ p w := .ret true p (w ++ [g])
  action _ a _ p w := .ret () p (w ++ [a])
  handler _ h _ _ _ p w := .ret () p (w ++ [h])
  alive _ _ _ := true
  nonePayload _ := 0

theorem lonely_part : IsPart (fun _ => true) (Share.all (List Nat)) (fun _ => hop) lonely twins
    (semS true quietS pings) :=
  ⟨fun _ _ _ => rfl, fun _ => rfl, fun _ _ _ _ _ => rfl, fun _ _ _ _ _ => rfl, fun _ _ _ _ _ _ _ => rfl,
    fun _ _ _ => rfl, fun _ => rfl⟩

/-- The first machine, sending events to itself only. -/
def selfish (i : Bool) (c : Nat) : List (Bool × Op Nat) :=
  if i then [] else if c = 1 then [(false, .process (ev 2) 5)] else []

theorem selfish_part : IsPart (fun _ => true) (Share.all (List Nat)) (fun _ => hop) lonely twins
    (semS true quietS selfish) :=
  ⟨fun _ _ _ => rfl, fun _ => rfl, fun _ _ _ _ _ => rfl, fun _ _ _ _ _ => rfl, fun _ _ _ _ _ _ _ => rfl,
    fun _ _ _ => rfl, fun _ => rfl⟩

theorem selfish_outside : (semS true quietS selfish).Outside (fun _ : Unit => true) := by
  have h : ∀ j c, ∀ x ∈ selfish j c, (fun l (_ : Op Nat) => ∀ _ : Unit, l ≠ true) x.1 x.2 := by
    intro j c x hx
    unfold selfish at hx
    split at hx
    · cases hx
    · split at hx
      · rw [List.mem_singleton.1 hx]; intro _ h; cases h
      · cases hx
  have hg := semS_good (on := true) (U := True) (Q := fun l _ => ∀ _ : Unit, l ≠ true) (asks := quietS)
    (calls := selfish) (quietS_all (Q := fun l _ => ∀ _ : Unit, l ≠ true)) h
  exact ⟨fun j _ => hg.guard j, fun j _ => hg.action j, fun j _ => hg.handler j⟩

/-- C136 applies: the second machine moves because of its own event only, whatever the first one does. -/
example : ∃ h, RunToS twins (semS true quietS selfish) (fun _ => 7)
    [(false, .process (ev 0) 1), (true, .process (ev 1) 2)] h ∧ (h.parts false).log.length = 2 ∧
    ∃ g : Hub Unit Nat (List Nat), RunToS (fun _ => hop) lonely (fun _ => 7) [((), .process (ev 1) 2)] g ∧
      g.parts () = h.parts true := by
  obtain ⟨h, hr, hs⟩ := exists_runS twins (semS true quietS selfish) (fuel := 5) (n := 5) (d := fun _ => 7) (w := [])
    (ops := [(false, .process (ev 0) 1), (true, .process (ev 1) 2)])
    (f := fun h => (h.parts false).log.length == 2) (by decide +kernel)
  obtain ⟨own, g, h1, h2, -, h3⟩ := C136_within selfish_part selfish_outside hr
  have h1 : own.map (fun x => (true, x.2)) = [(true, Op.process (ev 1) 2)] := by rw [h1]; simp
  obtain ⟨x, rfl, hx⟩ := List.map_eq_singleton_iff.1 h1
  rw [show x = ((), Op.process (ev 1) 2) from Prod.ext rfl (Prod.mk.inj hx).2] at h2
  exact ⟨h, hr, eq_of_beq hs, g, h2, h3 ()⟩

/-- C136_safe applies: whatever the first machine does, the second has no undefined behaviour. -/
example {h : Hub Bool Nat (List Nat)} {ops : List (Bool × Op Nat)}
    (hr : RunToS twins (semS true quietS selfish) (fun _ => 7) ops h) (fuel n : Nat) :
    (stepS twins (semS true quietS selfish) fuel n true (.process (ev 1) 2) h).Defined := by
  refine C136_safe (i := ()) selfish_part selfish_outside (fun own g hg => ?_) hr
  have hq : lonely.Good False fun _ => OpOk hop :=
    ⟨fun _ _ _ _ _ => trivial, fun _ _ _ _ _ => trivial, fun _ _ _ _ _ _ _ => trivial⟩
  have hs : SafeS (fun _ : Unit => hop) lonely () := by
    have h := twins_safe (on := true) (asks := quietS) (calls := quietS) true
    exact ⟨h.scopes, h.regions, h.history, h.noneNotDeferred, fun _ => Or.inr fun _ => rfl⟩
  exact C117_safe (fun _ => hop_regular) (fun _ => hs) hq (fun _ => Or.inl fun _ _ _ _ => trivial) hg fuel n () _
    (hop_ok 1 (by decide) 2)

end Ex

/-- C136_within is about parts the others do not call: otherwise a machine moves although nobody calls it from
outside. -/
theorem C136_refuted_called : ∃ (Ms : Bool → Machine) (sem : SemS Unit Nat (List Nat))
    (sem' : SemS Bool Nat (List Nat)) (h : Hub Bool Nat (List Nat)),
    IsPart (fun _ => true) (Share.all (List Nat)) (fun _ => Ms true) sem Ms sem' ∧
    sem'.Good False (fun i => OpOk (Ms i)) ∧
    RunToS Ms sem' (fun _ => 7) [(false, .process (Ex.ev 0) 1)] h ∧
    ∀ g : Hub Unit Nat (List Nat), RunToS (fun _ => Ms true) sem (fun _ => 7) [] g → g.parts () ≠ h.parts true := by
  obtain ⟨h, hr, hs⟩ := Ex.exists_runS Ex.twins (Ex.semS true Ex.quietS Ex.pings) (fuel := 5) (n := 5)
    (d := fun _ => 7) (w := []) (ops := [(false, .process (Ex.ev 0) 1)])
    (f := fun h => (h.parts true).log.length == 1) (by decide +kernel)
  refine ⟨_, _, _, h, Ex.lonely_part, ?_, hr, ?_⟩
  · refine Ex.semS_good (Ex.quietS_all (Q := fun i => OpOk (Ex.twins i))) fun i c x hx => ?_
    unfold Ex.pings at hx
    split at hx
    · cases hx
    · split at hx
      · rw [List.mem_singleton.1 hx]; exact Ex.hop_ok 1 (by decide) 5
      · cases hx
  · intro g hg he
    obtain ⟨s, hc, hl⟩ := Ex.hop_constructs
    have key : ∀ {ops : List (Unit × Op Nat)} {g : Hub Unit Nat (List Nat)},
        RunToS (fun _ => Ex.twins true) Ex.lonely (fun _ => 7) ops g → ops = [] → g.parts () = s := by
      intro ops g hg
      induction hg with
      | init hi => intro _; exact Except.ok.inj ((hi ()).symm.trans hc)
      | ok => intro h; simp at h
      | throw => intro h; simp at h
      | world _ _ ih => intro h; exact ih h
    rw [← he, key hg rfl, hl] at hs
    cases hs

end Hsm
