import Verif.PropsTrace
import Verif.PropsQueue
import Verif.PropsExact

/-!
# What a machine can reach, read off its tables (C64)

`Reaches` is a relation over the declared rows only: it knows nothing of queues, histories,
dependencies or the order of rows.  The theorems say that a running machine never leaves it.
-/

namespace Hsm

section
variable {P W : Type} (M : Machine) (sem : Sem P W)

/-! ## Specification -/

/-- The guard of a row can say yes to event `ev`: it has none, or there are arguments for which it
does. -/
def MayPass (ev : EventTy) (t : XRow) : Prop :=
  ∀ g, t.guard = some g → ∃ args p w p' w', args.event = ev ∧ sem.guard g args p w = .ok true p' w'

/-- The locations region `r` can get to with events in `E`: initial states of the root, and
destinations of external rows applicable at such locations.  A history row leads to initial states;
what else is remembered has been reached before. -/
inductive Reaches (E : EventTy → Prop) (r : Nat) : Name → StTy → Prop
  | initial {i : Name} (h : (M.declaredInitials M.root)[r]? = some i) : Reaches E r M.root (.st i)
  | target {p : Name} {st : StTy} {ev : EventTy} {c : Cand} {t : XRow} {l : Name × StTy}
      (h : Reaches E r p st) (he : E ev) (hc : c ∈ M.cands ev p st) (hr : c.row? = some t)
      (hi : t.internal = false) (hg : MayPass sem ev t)
      (hn : ∀ o q, t.target ≠ .ps o (.history q)) (hl : M.targetLoc t = some l) :
      Reaches E r l.1 l.2
  | history {p : Name} {st : StTy} {ev : EventTy} {c : Cand} {t : XRow} {o : Bool} {q i : Name}
      (h : Reaches E r p st) (he : E ev) (hc : c ∈ M.cands ev p st) (hr : c.row? = some t)
      (hi : t.internal = false) (hg : MayPass sem ev t)
      (hq : t.target = .ps o (.history q)) (hq' : (M.declaredInitials q)[r]? = some i) :
      Reaches E r q (.st i)

/-- The events of the calls. -/
def Sent (ops : List (Op P)) (ev : EventTy) : Prop := ev = .none ∨ ∃ pl, Op.process ev pl ∈ ops

/-- Callback `a` has a place in the tables where it can be called: it is the guard of a row
applicable at a location that can be reached, or one of the callbacks of such a row whose guard can
say yes. -/
def Alive (E : EventTy → Prop) (guard : Bool) (a : Cb) : Prop :=
  ∃ r p st ev c t, Reaches M sem E r p st ∧ E ev ∧ c ∈ M.cands ev p st ∧ c.row? = some t ∧
    if guard then t.guard = some a else MayPass sem ev t ∧ ∃ ph, (ph, a) ∈ M.callbacks t

/-! ## Proofs -/

/-- All known locations can be reached. -/
def Locs (E : EventTy → Prop) (cur : List (Option Nat)) : Prop :=
  ∀ (r : Nat) k, cur[r]? = some (some k) → ∃ p st, Reaches M sem E r p st ∧ k = M.comb p st

/-- What is known of a callback that was called: its event may come, the regions were at locations
that can be reached, and if it is a guard that said yes then it can. -/
def Fine (E : EventTy → Prop) (c : Call P) : Prop :=
  E c.event ∧ Locs M sem E c.cur ∧ ∀ g args q cur, c = .guard g args q (some true) cur →
    ∃ w p' w', sem.guard g args q w = .ok true p' w'

/-- The invariant. -/
structure Within (E : EventTy → Prop) (s : SM P W) : Prop where
  cur : Locs M sem E s.cur
  hist : ∀ q ∈ M.composites, ∀ r k, Remembers M s q r k →
    (∃ i, (M.declaredInitials q)[r]? = some i ∧ k = M.comb q (.st i)) ∨
      ∃ p st, Reaches M sem E r p st ∧ k = M.comb p st
  queue : ∀ x ∈ s.queue, E x.1
  calls : ∀ c ∈ s.trace, Fine M sem E c
  moves : ∀ f ∈ s.log, Locs M sem E f.before

variable {M sem} {E : EventTy → Prop} {deps : List Dep}

/-- Call `c` is for `ev`, with the regions at `cur`; if it is a guard that said yes then it can. -/
def About (sem : Sem P W) (ev : EventTy) (cur : List (Option Nat)) (c : Call P) : Prop :=
  c.event = ev ∧ c.cur = cur ∧ ∀ g args q cur, c = .guard g args q (some true) cur →
    ∃ w p' w', sem.guard g args q w = .ok true p' w'

theorem FalseRun.about {cur : List (Option Nat)} {ev : EventTy} {es : List Entry} {p p' : P}
    {w w' : W} {tr : List (Call P)} (h : FalseRun sem cur ev es p w tr p' w') :
    ∀ c ∈ tr, About sem ev cur c := by
  induction h with
  | nil => intro c hc; cases hc
  | cons _ _ _ _ _ ih =>
    intro c hc
    rcases List.mem_cons.1 hc with rfl | hc
    · exact ⟨rfl, rfl, by rintro _ _ _ _ ⟨⟩⟩
    · exact ih c hc

theorem TrueGuard.about {cur : List (Option Nat)} {ev : EventTy} {x : Exec} {p p' : P}
    {w w' : W} {tr : List (Call P)} (h : TrueGuard sem cur ev x p w tr p' w') :
    ∀ c ∈ tr, About sem ev cur c := by
  cases h with
  | absent => intro c hc; cases hc
  | called _ hc =>
    intro c hc'
    rw [List.mem_singleton.1 hc']
    exact ⟨rfl, rfl, by rintro _ _ _ _ ⟨⟩; exact ⟨_, _, _, hc⟩⟩

theorem ActRun.about {cur : List (Option Nat)} {args : Args} {cs : List (Phase × Cb)} {p p' : P}
    {w w' : W} {tr : List (Call P)} (h : ActRun sem cur args cs p w tr p' w') :
    ∀ c ∈ tr, About sem args.event cur c := by
  induction h with
  | nil => intro c hc; cases hc
  | cons _ _ ih =>
    intro c hc
    rcases List.mem_cons.1 hc with rfl | hc
    · exact ⟨rfl, rfl, by rintro _ _ _ _ ⟨⟩⟩
    · exact ih c hc

theorem ActThrow.about {cur : List (Option Nat)} {args : Args} {cs : List (Phase × Cb)} {p : P}
    {w w' : W} {tr : List (Call P)} {k : Nat} (h : ActThrow sem cur args cs p w tr k w') :
    ∀ c ∈ tr, About sem args.event cur c := by
  induction h with
  | here => intro c hc; rw [List.mem_singleton.1 hc]; exact ⟨rfl, rfl, by rintro _ _ _ _ ⟨⟩⟩
  | later _ _ ih =>
    intro c hc
    rcases List.mem_cons.1 hc with rfl | hc
    · exact ⟨rfl, rfl, by rintro _ _ _ _ ⟨⟩⟩
    · exact ih c hc

theorem Within.ran {s : SM P W} (h : Within M sem E s) {w : W} {tr : List (Call P)} {ev : EventTy}
    (he : E ev) (ht : ∀ c ∈ tr, About sem ev s.cur c) : Within M sem E (s.ran w tr) := by
  refine ⟨h.cur, h.hist, h.queue, ?_, h.moves⟩
  intro c hc
  rcases List.mem_append.1 hc with hc | hc
  · exact h.calls c hc
  · obtain ⟨h1, h2, h3⟩ := ht c hc
    exact ⟨by rw [h1]; exact he, by rw [h2]; exact h.cur, h3⟩

theorem TrueGuard.mayPass {cur : List (Option Nat)} {ev : EventTy} {x : Exec} {p p' : P}
    {w w' : W} {tr : List (Call P)} (h : TrueGuard sem cur ev x p w tr p' w') {t : XRow}
    (hx : x.guard = t.guard) : MayPass sem ev t := by
  intro g hg
  cases h with
  | absent h => rw [hx, hg] at h; cases h
  | called h hc =>
    rw [hx, hg] at h
    cases h
    exact ⟨_, _, _, _, _, rfl, hc⟩

theorem Within.reaches (hM : M.Regular) {s : SM P W} (h : Within M sem E s) {r : Nat} {p : Name}
    {st : StTy} (ha : At M s r p st) : Reaches M sem E r p st := by
  obtain ⟨q, st', hr, he⟩ := h.cur r _ ha.2.2
  cases hM.comb_inj ha.1 ha.2.1 he.symm
  exact hr

theorem Within.effect (hM : M.Regular) {s s' : SM P W} (h : Within M sem E s) {r : Nat} {p : Name}
    {st : StTy} {ev : EventTy} {c : Cand} {t : XRow} (he : E ev) (ha : At M s r p st)
    (hc : c ∈ M.cands ev p st) (hr : c.row? = some t) (hg : MayPass sem ev t)
    (hm : Effect M r t s s') : Within M sem E s' := by
  unfold Effect at hm
  split at hm
  · rw [hm]; exact h
  rename_i hi
  have hi : t.internal = false := by simpa using hi
  have htf : t ∈ M.flat := Explained.row_mem (mem := fun _ _ _ => True)
    (f := ⟨0, [], [], 0⟩) hc hr hi
  have hre := h.reaches hM ha
  have hmem : ∀ q ∈ M.composites, ∀ i k, Remembers M s' q i k →
      (∃ n, (M.declaredInitials q)[i]? = some n ∧ k = M.comb q (.st n)) ∨
        ∃ p st, Reaches M sem E i p st ∧ k = M.comb p st := by
    intro q hq i k hrc
    rcases hm.memory with ⟨_, he⟩ | ⟨_, p0, st0, c0, ha0, hc0, hrem, hoth⟩
    · exact h.hist q hq i k (by unfold Remembers at hrc ⊢; rw [← he]; exact hrc)
    · by_cases hqi : q ≠ p0 ∨ i ≠ r
      · exact h.hist q hq i k ((hoth q hq i hqi k).1 hrc)
      · have hqi : q = p0 ∧ i = r := by simpa [not_or] using hqi
        obtain ⟨rfl, rfl⟩ := hqi
        obtain ⟨l, hl, hlc⟩ := hrc
        obtain ⟨l', hl', hlc'⟩ := hrem
        rw [hl] at hl'; cases hl'
        rw [hlc] at hlc'; cases hlc'
        exact Or.inr (h.cur i k hc0)
  refine ⟨?_, hmem, by rw [hm.queue]; exact h.queue, by rw [hm.trace]; exact h.calls, ?_⟩
  · intro i k hk
    obtain ⟨c1, hcur, hh, hn⟩ := hm.dest
    rw [hcur, List.getElem?_set] at hk
    split at hk
    · rename_i hri
      subst hri
      split at hk
      · simp only [Option.some.injEq] at hk
        subst hk
        by_cases hq : ∃ o q, t.target = .ps o (.history q)
        · obtain ⟨o, q, hq⟩ := hq
          rcases hmem q (Machine.history_target hM htf hq).1 r c1 (hh o q hq) with ⟨n, h1, rfl⟩ | h1
          · exact ⟨_, _, .history hre he hc hr hi hg hq h1, rfl⟩
          · exact h1
        · have hq : ∀ o q, t.target ≠ .ps o (.history q) := fun o q h => hq ⟨o, q, h⟩
          obtain ⟨l, hl, rfl⟩ := hn hq
          exact ⟨_, _, .target hre he hc hr hi hg hq hl, rfl⟩
      · cases hk
    · exact h.cur i k hk
  · intro f hf
    rw [hm.log] at hf
    rcases List.mem_append.1 hf with hf | hf
    · exact h.moves f hf
    · rw [List.mem_singleton.1 hf]; exact h.cur

theorem Within.region (hM : M.Regular) {r : Nat} {ev : EventTy} {pl pl' : P} {s s' : SM P W}
    {o : RegionOut} (he : E ev) (h : RegionRun M sem deps r ev pl s o pl' s')
    (hs : Within M sem E s) : Within M sem E s' := by
  cases h with
  | none => exact hs
  | rejected ha hne hf => exact hs.ran he hf.about
  | deferred ha hd =>
    refine ⟨hs.cur, hs.hist, ?_, hs.calls, hs.moves⟩
    intro x hx
    rcases List.mem_append.1 hx with hx | hx
    · exact hs.queue x hx
    · rw [List.mem_singleton.1 hx]; exact he
  | @fired p st c t d l x pre p1 p2 p3 tr1 tr2 tr3 w1 w2 w3 s1 ha hsel hf hg hm hr =>
    have h1 : Within M sem E (s.ran w2 (tr1 ++ tr2)) := hs.ran he (fun c hc => by
      rcases List.mem_append.1 hc with hc | hc
      · exact hf.about c hc
      · exact hg.about c hc)
    exact (h1.effect hM he (p := p) (st := st) ha hsel.mem hsel.row (hg.mayPass hsel.guard) hm).ran he
      hr.about

theorem Within.regionThrow (hM : M.Regular) {r : Nat} {ev : EventTy} {pl : P} {s s' : SM P W}
    {k : Nat} (he : E ev) (h : RegionThrow M sem deps r ev pl s k s')
    (hs : Within M sem E s) : Within M sem E s' := by
  cases h with
  | guard ha hsel hf hg hc =>
    refine hs.ran he (fun c hc => ?_)
    rcases List.mem_append.1 hc with hc | hc
    · exact hf.about c hc
    · rw [List.mem_singleton.1 hc]; exact ⟨rfl, rfl, by rintro _ _ _ _ ⟨⟩⟩
  | @action p st c t d l x pre p1 p2 tr1 tr2 tr3 w1 w2 w3 s1 _ ha hsel hf hg hm hr =>
    have h1 : Within M sem E (s.ran w2 (tr1 ++ tr2)) := hs.ran he (fun c hc => by
      rcases List.mem_append.1 hc with hc | hc
      · exact hf.about c hc
      · exact hg.about c hc)
    exact (h1.effect hM he (p := p) (st := st) ha hsel.mem hsel.row (hg.mayPass hsel.guard) hm).ran he
      hr.about

theorem Within.loop (hM : M.Regular) {ev : EventTy} {rs : List Nat} {pl pl' : P} {s s' : SM P W}
    {os : List RegionOut} (he : E ev) (h : LoopRun M sem deps ev rs pl s os pl' s')
    (hs : Within M sem E s) : Within M sem E s' := by
  induction h with
  | nil => exact hs
  | cons h1 ho h2 ih => exact ih (hs.region hM he h1)
  | stop h1 => exact hs.region hM he h1

theorem Within.loopThrow (hM : M.Regular) {ev : EventTy} {rs : List Nat} {pl : P} {s s' : SM P W}
    {os : List RegionOut} {r k : Nat} (he : E ev) (h : LoopThrow M sem deps ev rs pl s os r k s')
    (hs : Within M sem E s) : Within M sem E s' := by
  induction h with
  | here h => exact hs.regionThrow hM he h
  | later h1 ho h2 ih => exact ih (hs.region hM he h1)

theorem Within.anonRound (hM : M.Regular) {rs : List Nat} {pl pl' : P} {s s' : SM P W}
    {os : List RegionOut} {b : Option Bool} (he : E .none)
    (h : AnonRound M sem deps rs pl s os b pl' s') (hs : Within M sem E s) : Within M sem E s' := by
  induction h with
  | nil => exact hs
  | stop h => exact hs
  | cons h1 ho h2 ih => exact ih (hs.region hM he h1)

theorem Within.anonRoundThrow (hM : M.Regular) {rs : List Nat} {pl : P} {s s' : SM P W} {k : Nat}
    (he : E .none) (h : AnonRoundThrow M sem deps rs pl s k s') (hs : Within M sem E s) :
    Within M sem E s' := by
  induction h with
  | here h => exact hs.regionThrow hM he h
  | later h1 ho h2 ih => exact ih (hs.region hM he h1)

theorem Within.anonRun (hM : M.Regular) {pl : P} {s s' : SM P W} (he : E .none)
    (h : AnonRun M sem deps pl s s') (hs : Within M sem E s) : Within M sem E s' := by
  induction h with
  | done h _ => exact hs.anonRound hM he h
  | again h _ ih => exact ih (hs.anonRound hM he h)

theorem Within.anonThrow (hM : M.Regular) {pl : P} {s s' : SM P W} {k : Nat} (he : E .none)
    (h : AnonThrow M sem deps pl s k s') (hs : Within M sem E s) : Within M sem E s' := by
  induction h with
  | here h => exact hs.anonRoundThrow hM he h
  | later h _ ih => exact ih (hs.anonRound hM he h)

theorem Within.turn (hM : M.Regular) {ev : EventTy} {pl pl' : P} {s s1 s' : SM P W}
    {os : List RegionOut} (hn : E .none) (he : E ev) (h : Turn M sem deps ev pl s os pl' s1 s')
    (hs : Within M sem E s) : Within M sem E s' := by
  cases h with
  | quiet h _ => exact hs.loop hM he h
  | react h _ ha =>
    have h1 := hs.loop hM he h
    unfold Settles at ha
    split at ha
    · exact h1.anonRun hM hn ha
    · rw [ha]; exact h1

theorem Within.turnThrow (hM : M.Regular) {ev : EventTy} {pl : P} {s s' : SM P W} {k : Nat}
    (hn : E .none) (he : E ev) (h : TurnThrow M sem deps ev pl s k s')
    (hs : Within M sem E s) : Within M sem E s' := by
  cases h with
  | region h => exact hs.loopThrow hM he h
  | anon h _ _ ha => exact (hs.loop hM he h).anonThrow hM hn ha

theorem Within.pop {s : SM P W} {e : EventTy} {p : P} {q : List (EventTy × P)}
    (hs : Within M sem E s) (hq : s.queue = (e, p) :: q) :
    E e ∧ Within M sem E { s with queue := q } := by
  refine ⟨hs.queue (e, p) (by rw [hq]; simp), hs.cur, hs.hist, ?_, hs.calls, hs.moves⟩
  intro x hx
  exact hs.queue x (by rw [hq]; exact List.mem_cons_of_mem _ hx)

theorem Within.mono {E' : EventTy → Prop} {s : SM P W} (hE : ∀ e, E e → E' e)
    (hs : Within M sem E s) : Within M sem E' s := by
  have hr : ∀ r p st, Reaches M sem E r p st → Reaches M sem E' r p st := by
    intro r p st h
    induction h with
    | initial h => exact .initial h
    | target _ he hc hr hi hg hn hl ih => exact .target ih (hE _ he) hc hr hi hg hn hl
    | history _ he hc hr hi hg hq hq' ih => exact .history ih (hE _ he) hc hr hi hg hq hq'
  have hl : ∀ cur, Locs M sem E cur → Locs M sem E' cur := by
    intro cur h r k hk
    obtain ⟨p, st, h1, h2⟩ := h r k hk
    exact ⟨p, st, hr _ _ _ h1, h2⟩
  refine ⟨hl _ hs.cur, ?_, fun x hx => hE _ (hs.queue x hx), fun c hc =>
    ⟨hE _ (hs.calls c hc).1, hl _ (hs.calls c hc).2.1, (hs.calls c hc).2.2⟩, fun f hf => hl _ (hs.moves f hf)⟩
  intro q hq r k hk
  rcases hs.hist q hq r k hk with h | ⟨p, st, h1, h2⟩
  · exact Or.inl h
  · exact Or.inr ⟨p, st, hr _ _ _ h1, h2⟩

theorem Sent.snoc {ops : List (Op P)} {op : Op P} {e : EventTy} (h : Sent ops e) :
    Sent (ops ++ [op]) e := by
  rcases h with h | ⟨pl, h⟩
  · exact Or.inl h
  · exact Or.inr ⟨pl, by simp [h]⟩

theorem RunTo.within (hM : M.Regular) {d : Dep} {ops : List (Op P)} {s : SM P W}
    (h : RunTo M sem d ops s) (hns : ∀ r p st, Op.set r p st ∉ ops) :
    Within M sem (Sent ops) s := by
  have nos : ∀ (ops : List (Op P)) (op : Op P), (∀ r p st, Op.set r p st ∉ ops ++ [op]) →
      ∀ r p st, Op.set r p st ∉ ops := fun ops op h r p st hm => h r p st (by simp [hm])
  refine RunTo.rel hM (I := fun ops s => (∀ r p st, Op.set r p st ∉ ops) →
    Within M sem (Sent ops) s) ?_ ?_ ?_ ?_ ?_ ?_ ?_ h hns
  · intro w s h _
    obtain ⟨h1, h2, hq, htr, hl, _⟩ := C46_initial hM h
    obtain ⟨_, _, _, _, _, hh, _⟩ := construct_ok h
    refine ⟨?_, ?_, by rw [hq]; simp, by rw [htr]; simp, by rw [hl]; simp⟩
    · intro r k hk
      rcases Nat.lt_or_ge r (M.declaredInitials M.root).length with hlt | hge
      · have := h1 r _ (List.getElem?_eq_getElem hlt)
        rw [this.2.2] at hk
        cases hk
        exact ⟨_, _, .initial (List.getElem?_eq_getElem hlt), rfl⟩
      · exact absurd hk (h2 r hge k)
    · rintro p hp r k ⟨l, hl, hk⟩
      rw [hh, Machine.initialTable_get hM hp] at hl
      cases hl
      rw [List.getElem?_map] at hk
      obtain ⟨i, hi, rfl⟩ := Option.map_eq_some_iff.1 hk
      exact Or.inl ⟨i, by rw [Machine.declaredInitials_eq]; exact hi, rfl⟩
  · intro ops s ev pl b s' _ ih _ h hno
    have hs := (ih (nos _ _ hno)).mono (fun e he => Sent.snoc (op := .process ev pl) he)
    have hn : Sent (ops ++ [.process ev pl]) .none := Or.inl rfl
    have he : Sent (ops ++ [.process ev pl]) ev := Or.inr ⟨pl, by simp⟩
    cases h with
    | ignored ht _ _ => exact hs.turn hM hn he ht
    | unexpected ht _ _ _ _ =>
      exact (hs.turn hM hn he ht).ran he (fun c hc => by
        rw [List.mem_singleton.1 hc]; exact ⟨rfl, rfl, by rintro _ _ _ _ ⟨⟩⟩)
    | unhandled ht _ _ => exact hs.turn hM hn he ht
    | handled ht _ _ => exact hs.turn hM hn he ht
    | replayed ht _ _ hq ht' =>
      obtain ⟨h1, h2⟩ := (hs.turn hM hn he ht).pop hq
      exact h2.turn hM hn h1 ht'
  · intro ops s ev pl k s' _ ih _ h hno
    have hs := (ih (nos _ _ hno)).mono (fun e he => Sent.snoc (op := .process ev pl) he)
    have hn : Sent (ops ++ [.process ev pl]) .none := Or.inl rfl
    have he : Sent (ops ++ [.process ev pl]) ev := Or.inr ⟨pl, by simp⟩
    cases h with
    | main ht => exact hs.turnThrow hM hn he ht
    | handler ht _ _ _ _ =>
      exact (hs.turn hM hn he ht).ran he (fun c hc => by
        rw [List.mem_singleton.1 hc]; exact ⟨rfl, rfl, by rintro _ _ _ _ ⟨⟩⟩)
    | replay ht _ _ hq ht' =>
      obtain ⟨h1, h2⟩ := (hs.turn hM hn he ht).pop hq
      exact h2.turnThrow hM hn h1 ht'
  · intro ops s op _ ih _ _ hno
    exact (ih (nos _ _ hno)).mono (fun e he => Sent.snoc he)
  · intro ops s r p st _ _ _ _ _ hno
    exact absurd (by simp) (hno r p st)
  · intro ops s d' T _ ih _ hno
    have hs := (ih (nos _ _ hno)).mono (fun e he => Sent.snoc (op := .setDependency d') he)
    exact ⟨hs.cur, hs.hist, hs.queue, hs.calls, hs.moves⟩
  · intro ops s w ih hno
    have hs := ih hno
    exact ⟨hs.cur, hs.hist, hs.queue, hs.calls, hs.moves⟩

/-! ## C64 -/

/-- C64: in every history without `set`, every region is at a location that can be reached in the
tables with the events sent. -/
theorem C64_locations (hM : M.Regular) {d : Dep} {ops : List (Op P)} {s : SM P W}
    (h : RunTo M sem d ops s) (hns : ∀ r p st, Op.set r p st ∉ ops) {r : Nat} {p : Name} {st : StTy}
    (ha : At M s r p st) : Reaches M sem (Sent ops) r p st :=
  (h.within hM hns).reaches hM ha

/-- C64: callbacks that are alive nowhere in the tables are never called. -/
theorem C64_callbacks (hM : M.Regular) {d : Dep} {ops : List (Op P)} {s : SM P W}
    (h : RunTo M sem d ops s) (hns : ∀ r p st, Op.set r p st ∉ ops) :
    (∀ g args q res cur, Call.guard g args q res cur ∈ s.trace → Alive M sem (Sent ops) true g) ∧
    ∀ ph a args q b cur, Call.action ph a args q b cur ∈ s.trace → Alive M sem (Sent ops) false a := by
  have hw := h.within hM hns
  have place : ∀ {cur : List (Option Nat)} {r : Nat} {ev : EventTy} {cd : Cand} {t : XRow} {d' : Dep}
      {l : Name × StTy}, RowAt M (depsOf d ops) cur r ev cd t d' l → Locs M sem (Sent ops) cur →
      ∃ p st, Reaches M sem (Sent ops) r p st ∧ cd ∈ M.cands ev p st := by
    intro cur r ev cd t d' l hr hl
    obtain ⟨p, st, hp, hst, hc, hcd⟩ := hr.place
    obtain ⟨q, st', h1, h2⟩ := hl r _ hc
    cases hM.comb_inj hp hst h2.symm
    exact ⟨_, _, h1, hcd⟩
  constructor
  · intro g args q res cur hc
    obtain ⟨pre, post, hsp⟩ := List.append_of_mem hc
    obtain ⟨he, hl, _⟩ := hw.calls _ hc
    have hj := C41_calls hM h hsp
    cases hj with
    | @guard _ r ev cd t d' l _ _ _ hr hg =>
      obtain ⟨p, st, h1, h2⟩ := place hr hl
      exact ⟨r, p, st, ev, cd, t, h1, he, h2, hr.row, hg⟩
  · intro ph a args q b cur hc
    obtain ⟨pre, post, hsp⟩ := List.append_of_mem hc
    obtain ⟨he, hl, _⟩ := hw.calls _ hc
    have hj := C41_calls hM h hsp
    cases hj with
    | @action before _ r ev cd t d' l _ _ cs1 cs2 pre0 gs as _ _ hr hlv hm hcs hp hy _ =>
      have hb : Locs M sem (Sent ops) before := by
        cases hi : t.internal with
        | true =>
          unfold Leaves at hlv
          rw [if_pos hi] at hlv
          have : before = cur := hlv.symm
          rw [this]; exact hl
        | false => exact hw.moves _ (hm hi)
      obtain ⟨p, st, h1, h2⟩ := place hr hb
      refine ⟨r, p, st, ev, cd, t, h1, he, h2, hr.row, ?_⟩
      rw [if_neg (by simp)]
      refine ⟨?_, ph, by rw [hcs]; simp⟩
      intro g hg
      rcases hy with ⟨hn, _⟩ | ⟨g', q', hg', hgs⟩
      · rw [hg] at hn; cases hn
      · rw [hg] at hg'; cases hg'
        have hin : Call.guard g (rowGuardArgs cd t l ev d') q' (some true) before ∈ s.trace := by
          rw [hsp, hp, hgs]; simp
        obtain ⟨w, p', w', h3⟩ := (hw.calls _ hin).2.2 _ _ _ _ rfl
        exact ⟨_, _, _, _, _, rfl, h3⟩

/-- Locations closed under the rows `may` keeps. -/
structure Closed (M : Machine) (may : EventTy → XRow → Bool) (L : List (Name × StTy)) : Prop where
  initial : ∀ i ∈ M.declaredInitials M.root, (M.root, StTy.st i) ∈ L
  target : ∀ x ∈ L, ∀ ev ∈ M.events, ∀ c ∈ M.cands ev x.1 x.2, ∀ t, c.row? = some t →
    t.internal = false → may ev t = true → ∀ l, M.targetLoc t = some l → l ∈ L
  history : ∀ x ∈ L, ∀ ev ∈ M.events, ∀ c ∈ M.cands ev x.1 x.2, ∀ t, c.row? = some t →
    t.internal = false → may ev t = true → ∀ o q, t.target = .ps o (.history q) →
    ∀ i ∈ M.declaredInitials q, (q, StTy.st i) ∈ L

theorem Machine.events_of_cands {ev : EventTy} {p : Name} {st : StTy} {c : Cand} {t : XRow}
    (hc : c ∈ M.cands ev p st) (hr : c.row? = some t) : ev ∈ M.events := by
  rw [Machine.events_eq]
  rcases Machine.cand_row hc with rfl | ⟨t', ht', rfl, _⟩
  · cases hr
  · unfold Machine.eventIds
    rw [mem_uniq]
    exact List.mem_map_of_mem ht'

/-- C64: a set of locations that contains the initial ones and is closed under the rows is never
left.  This can be checked by looking at the tables; rows whose event is not sent or whose guard never
says yes may be left out. -/
theorem C64_closed (hM : M.Regular) {may : EventTy → XRow → Bool} {L : List (Name × StTy)}
    (hL : Closed M may L) {d : Dep} {ops : List (Op P)} {s : SM P W} (h : RunTo M sem d ops s)
    (hns : ∀ r p st, Op.set r p st ∉ ops)
    (hmay : ∀ ev t, Sent ops ev → MayPass sem ev t → may ev t = true) {r : Nat} {p : Name}
    {st : StTy} (ha : At M s r p st) : (p, st) ∈ L := by
  have := C64_locations hM h hns ha
  clear ha
  induction this with
  | initial h => exact hL.initial _ (List.mem_of_getElem? h)
  | target _ he hc hr hi hg _ hl ih =>
    exact hL.target _ ih _ (Machine.events_of_cands hc hr) _ hc _ hr hi (hmay _ _ he hg) _ hl
  | history _ he hc hr hi hg hq hq' ih =>
    exact hL.history _ ih _ (Machine.events_of_cands hc hr) _ hc _ hr hi (hmay _ _ he hg) _ _ hq _
      (List.mem_of_getElem? hq')

end

/-! ## C65: what can be reached in the tables is reached -/

/-- Locations a machine with one region can be driven to: by rows that are not preceded by one
without guard, by a deferral, or by one with the same guard. -/
inductive Takes (M : Machine) : Name → StTy → Prop
  | initial {i : Name} (h : (M.declaredInitials M.root)[0]? = some i) : Takes M M.root (.st i)
  | step {p : Name} {st : StTy} {ev : EventTy} {c : Cand} {cs1 cs2 : List Cand} {t : XRow}
      {l : Name × StTy} (h : Takes M p st) (hc : M.cands ev p st = cs1 ++ c :: cs2)
      (hr : c.row? = some t) (hi : t.internal = false)
      (hp : ∀ c' ∈ cs1, ∃ t' g, c'.row? = some t' ∧ t'.guard = some g ∧ t.guard ≠ some g)
      (hl : M.targetLoc t = some l) : Takes M l.1 l.2

/-- Guards answer what the environment has decided; actions do nothing. -/
def oracle : Sem Unit (Cb → Bool) where
  guard g _ p w := .ok (w g) p w
  action _ _ p w := .ok () p w
  handler _ _ _ _ p w := .ok () p w
  alive _ _ := true
  nonePayload := ()

section
variable {M : Machine}

theorem entryOfCand_row {d : Dep} {c : Cand} {t : XRow} {l : Name × StTy} (hr : c.row? = some t)
    (hl : M.targetLoc t = some l) : ∃ e x, M.entryOfCand d c = some e ∧ e.tr = some x ∧
      e.defer = false ∧ x.guard = t.guard ∧ x.src = c.src ∧ x.dst = l.2 ∧
      x.internal = t.internal ∧ x.dep = d := by
  cases c with
  | defer => cases hr
  | row t' =>
    cases hr
    simp only [Machine.entryOfCand, hl, Option.map_some]
    exact ⟨_, _, rfl, rfl, rfl, rfl, rfl, rfl, rfl, rfl⟩
  | exit t' p =>
    cases hr
    simp only [Machine.entryOfCand, hl, Option.map_some]
    exact ⟨_, _, rfl, rfl, rfl, rfl, rfl, rfl, rfl, rfl⟩

theorem oracle_false {cur : List (Option Nat)} {ev : EventTy} {w : Cb → Bool} {d : Dep} :
    ∀ {cs : List Cand}, (∀ c' ∈ cs, ∃ t' g, c'.row? = some t' ∧ t'.guard = some g ∧ w g = false) →
    ∃ tr, FalseRun oracle cur ev (cs.filterMap (M.entryOfCand d)) () w tr () w := by
  intro cs
  induction cs with
  | nil => intro _; exact ⟨[], .nil _ _⟩
  | cons c cs ih =>
    intro h
    obtain ⟨tr, htr⟩ := ih (fun c' hc' => h c' (List.mem_cons_of_mem _ hc'))
    obtain ⟨t, g, hr, hg, hw⟩ := h c List.mem_cons_self
    cases hl : M.targetLoc t with
    | none =>
      have : M.entryOfCand d c = none := by
        cases c with
        | defer => cases hr
        | row t' => cases hr; simp [Machine.entryOfCand, hl]
        | exit t' p => cases hr; simp [Machine.entryOfCand, hl]
      rw [List.filterMap_cons_none this]
      exact ⟨tr, htr⟩
    | some l =>
      obtain ⟨e, x, he, hx, hd, hxg, _⟩ := entryOfCand_row (d := d) hr hl
      rw [List.filterMap_cons_some he]
      exact ⟨_, .cons hd hx (hxg.trans hg) (by show CbRes.ok (w g) _ _ = _; rw [hw]) htr⟩

theorem oracle_actions {cur : List (Option Nat)} {args : Args} {w : Cb → Bool} :
    ∀ (cs : List (Phase × Cb)), ∃ tr, ActRun oracle cur args cs () w tr () w := by
  intro cs
  induction cs with
  | nil => exact ⟨[], .nil _ _⟩
  | cons c cs ih =>
    obtain ⟨tr, htr⟩ := ih
    exact ⟨_, .cons rfl htr⟩

/-- C65 for machines with one region, without history and anonymous rows (which is what is missing
from the full claim): there are callbacks with which every such location is visited. -/
theorem C65_partial (hM : M.Regular) (hS : M.Scoped) (ho : M.orthogonal = false)
    (hh : M.historic = false) (ha : M.anonymous = false) (d : Dep)
    {p : Name} {st : StTy} (h : Takes M p st) :
    ∃ (ops : List (Op Unit)) (s : SM Unit (Cb → Bool)), RunTo M oracle d ops s ∧
      (∀ r p st, Op.set r p st ∉ ops) ∧ At M s 0 p st := by
  suffices ∃ (ops : List (Op Unit)) (s : SM Unit (Cb → Bool)), RunTo M oracle d ops s ∧
      (∀ r p st, Op.set r p st ∉ ops) ∧
      depsOf d ops = [d] ∧ s.queue = [] ∧ At M s 0 p st by
    obtain ⟨ops, s, h1, h2, _, _, h3⟩ := this
    exact ⟨ops, s, h1, h2, h3⟩
  have hp : Populated M oracle := fun _ _ => Or.inr rfl
  induction h with
  | @initial i hi =>
    obtain ⟨s, hs⟩ := (C06_construct (P := Unit) hM d (fun _ : Cb => true)).1.2
      ⟨(Machine.scopesReal_iff hM).2 ⟨hS.src, hS.comp⟩, fun _ => hS.rootInit⟩
    exact ⟨[], s, .init hs, by simp, rfl, (C46_initial hM hs).2.2.1,
      (C46_initial hM hs).1 0 i hi⟩
  | @step p st ev c cs1 cs2 t l _ hc hr hi hpre hl ih =>
    obtain ⟨ops, s, hrun, hns, hdeps, hq, hat⟩ := ih
    have hcm : c ∈ M.cands ev p st := by rw [hc]; simp
    have htf : t ∈ M.flat := Explained.row_mem (mem := fun _ _ _ => True)
      (f := ⟨0, [], [], 0⟩) hcm hr hi
    have hnh : ∀ o q, t.target ≠ .ps o (.history q) := by
      intro o q hq
      have := Machine.historic_of htf hq
      rw [hh] at this; cases this
    let w : Cb → Bool := fun g => decide (t.guard = some g)
    have hrun' := RunTo.world hrun w
    obtain ⟨tr1, hf⟩ := oracle_false (M := M) (cur := s.cur) (ev := ev) (w := w) (d := d) (cs := cs1)
      (fun c' hc' => by
        obtain ⟨t', g, h1, h2, h3⟩ := hpre c' hc'
        exact ⟨t', g, h1, h2, by simp [w, h3]⟩)
    obtain ⟨e, x, he, hx, hed, hxg, hxs, hxd, hxi, hxp⟩ := entryOfCand_row (M := M) (d := d) hr hl
    have hent : M.entries [d] ev p st = cs1.filterMap (M.entryOfCand d) ++
        e :: cs2.filterMap (M.entryOfCand d) := by
      simp [Machine.entries, hc, List.filterMap_append, List.filterMap_cons_some he]
    have hsel : Selected M [d] ev p st c t d l x (cs1.filterMap (M.entryOfCand d)) :=
      ⟨hcm, hr, by simp, hl, ⟨e, _, hent, he, hx⟩, ⟨[], [], cs1, cs2, rfl, hc, by
        simp [Machine.entries]⟩, hxg, hxs, hxd, hxi, hxp⟩
    obtain ⟨tr2, hg⟩ : ∃ tr2, TrueGuard oracle s.cur ev x () w tr2 () w := by
      cases htg : t.guard with
      | none => exact ⟨_, .absent (hxg.trans htg)⟩
      | some g => exact ⟨_, .called (hxg.trans htg) (by show CbRes.ok (w g) _ _ = _; simp [w, htg])⟩
    let s0 : SM Unit (Cb → Bool) := { s with world := w }
    let sa : SM Unit (Cb → Bool) := s0.ran w (tr1 ++ tr2)
    let s1 : SM Unit (Cb → Bool) := { sa with
      cur := s.cur.set 0 (some (M.comb l.1 l.2)),
      log := s.log ++ [⟨0, s.cur, s.cur.set 0 (some (M.comb l.1 l.2)), sa.trace.length⟩] }
    have hlen : 0 < s.cur.length := by
      have := hat.2.2
      rw [List.getElem?_eq_some_iff] at this
      exact this.1
    have hmv : Moves M 0 t sa s1 :=
      ⟨hlen, ⟨_, rfl, fun o q hq => absurd hq (hnh o q), fun _ => ⟨l, hl, rfl⟩⟩, Or.inl ⟨hh, rfl⟩,
        rfl, Or.inl ⟨ho, rfl⟩, rfl, rfl, rfl, rfl, rfl, rfl, rfl⟩
    have heff : Effect M 0 t sa s1 := by
      unfold Effect
      rw [if_neg (by rw [hi]; simp)]
      exact hmv
    obtain ⟨tr3, hact⟩ := oracle_actions (cur := s1.cur) (args := cbArgs M c t l ev d) (w := w)
      (M.callbacks t)
    have hreg : RegionRun M oracle [d] 0 ev () s0 .fired () (s1.ran w tr3) :=
      .fired (p := p) (st := st) hat hsel hf hg heff hact
    have hloop : LoopRun M oracle [d] ev (List.range (activeRegions M s0)) () s0 [.fired] ()
        (s1.ran w tr3) := by
      have : activeRegions M s0 = 1 := by unfold activeRegions; rw [ho]; rfl
      rw [this]
      exact .cons hreg (by simp) (.nil _ _)
    have hre : Reacted [RegionOut.fired] := ⟨by simp, by simp⟩
    have hrunE : EventRun M oracle (depsOf d ops) d ev () s0 true (s1.ran w tr3) := by
      rw [hdeps]
      exact .handled (.react hloop hre (by unfold Settles; rw [ha]; rfl)) hre (Or.inr hq)
    have hev := Machine.events_of_cands hcm hr
    obtain ⟨n, hn⟩ := (C49_returns hM hp hrun' hev () true _).1 hrunE
    refine ⟨ops ++ [.process ev ()], s1.ran w tr3,
      .ok (op := .process ev ()) (fuel := n) hrun' (opOk_event hev) (hn n (Nat.le_refl n)), ?_, ?_, hq,
      ?_⟩
    · intro r p st hm
      rcases List.mem_append.1 hm with hm | hm
      · exact hns r p st hm
      · simp at hm
    · rw [depsOf_process]; exact hdeps
    · refine ⟨hS.targets t (by rw [Machine.extRows_eq]; exact List.mem_append_left _ htf) l hl,
        hM.targetLoc_state (List.mem_append_left _ htf) hl, ?_⟩
      show (s.cur.set 0 (some (M.comb l.1 l.2)))[0]? = _
      simp [List.getElem?_set, hlen]

/-- No row is hidden: those tried before it have guards, different from its own. -/
def Unhidden (M : Machine) : Prop :=
  ∀ p ∈ M.composites, ∀ st ∈ M.states, ∀ ev ∈ M.events, ∀ c t cs1 cs2, M.cands ev p st = cs1 ++ c :: cs2 → c.row? = some t →
    ∀ c' ∈ cs1, ∃ t' g, c'.row? = some t' ∧ t'.guard = some g ∧ t.guard ≠ some g

theorem C65_upper {P W : Type} {sem : Sem P W} (hM : M.Regular) (hS : M.Scoped)
    (hh : M.historic = false) (hu : Unhidden M) {d : Dep} {ops : List (Op P)} {s : SM P W}
    (h : RunTo M sem d ops s) (hns : ∀ r p st, Op.set r p st ∉ ops) {p : Name} {st : StTy}
    (ha : At M s 0 p st) : Takes M p st := by
  have := C64_locations hM h hns ha
  clear ha
  suffices Takes M p st ∧ p ∈ M.composites ∧ st ∈ M.states from this.1
  induction this with
  | initial h =>
    have hm := List.mem_of_getElem? h
    rw [Machine.declaredInitials_eq] at hm
    exact ⟨.initial h, hM.root_mem, hM.initial_mem hM.root_mem hm⟩
  | target _ _ hc hr hi _ _ hl ih =>
    obtain ⟨cs1, cs2, hs⟩ := List.append_of_mem hc
    have htf := Explained.row_mem (mem := fun _ _ _ => True) (f := ⟨0, [], [], 0⟩) hc hr hi
    exact ⟨.step ih.1 hs hr hi (hu _ ih.2.1 _ ih.2.2 _ (Machine.events_of_cands hc hr) _ _ _ _ hs hr) hl,
      hS.targets _ (by rw [Machine.extRows_eq]; exact List.mem_append_left _ htf) _ hl,
      hM.targetLoc_state (List.mem_append_left _ htf) hl⟩
  | history _ _ hc hr hi _ hq =>
    have htf := Explained.row_mem (mem := fun _ _ _ => True) (f := ⟨0, [], [], 0⟩) hc hr hi
    have := Machine.historic_of htf hq
    rw [hh] at this; cases this

/-- C65: for such machines whose rows are not hidden, the locations visited with some callbacks are
exactly those the rows lead to. -/
theorem C65_exact_partial (hM : M.Regular) (hS : M.Scoped) (ho : M.orthogonal = false)
    (hh : M.historic = false) (ha : M.anonymous = false)
    (hu : Unhidden M) (d : Dep) (p : Name) (st : StTy) :
    Takes M p st ↔ ∃ (P W : Type) (sem : Sem P W) (ops : List (Op P)) (s : SM P W),
      RunTo M sem d ops s ∧ (∀ r p st, Op.set r p st ∉ ops) ∧ At M s 0 p st :=
  ⟨fun h => ⟨_, _, _, C65_partial hM hS ho hh ha d h⟩,
    fun ⟨_, _, _, _, _, h, hns, hat⟩ => C65_upper hM hS hh hu h hns hat⟩

end

/-! ## Examples -/

/-- Evaluates `Closed`. -/
def closedB (M : Machine) (may : EventTy → XRow → Bool) (L : List (Name × StTy)) : Bool :=
  (M.declaredInitials M.root).all (fun i => decide ((M.root, StTy.st i) ∈ L)) &&
  L.all fun x => M.events.all fun ev => (M.cands ev x.1 x.2).all fun c =>
    match c.row? with
    | none => true
    | some t => t.internal || !may ev t ||
      ((match M.targetLoc t with | some l => decide (l ∈ L) | none => true) &&
       (match t.target with
        | .ps _ (.history q) => (M.declaredInitials q).all fun i => decide ((q, StTy.st i) ∈ L)
        | _ => true))

theorem closed_of_check {M : Machine} {may : EventTy → XRow → Bool} {L : List (Name × StTy)}
    (h : closedB M may L = true) : Closed M may L := by
  unfold closedB at h
  simp only [Bool.and_eq_true, List.all_eq_true, decide_eq_true_eq] at h
  have key : ∀ x ∈ L, ∀ ev ∈ M.events, ∀ c ∈ M.cands ev x.1 x.2, ∀ t, c.row? = some t →
      t.internal = false → may ev t = true → (∀ l, M.targetLoc t = some l → l ∈ L) ∧
        ∀ o q, t.target = .ps o (.history q) → ∀ i ∈ M.declaredInitials q, (q, StTy.st i) ∈ L := by
    intro x hx ev hev c hc t ht hi hm
    have := h.2 x hx ev hev c hc
    rw [ht] at this
    simp only [hi, hm, Bool.not_true, Bool.false_or, Bool.and_eq_true] at this
    constructor
    · intro l hl
      have := this.1
      rw [hl] at this
      exact of_decide_eq_true this
    · intro o q hq i hm
      have := this.2
      rw [hq] at this
      exact of_decide_eq_true (List.all_eq_true.1 this i hm)
  exact ⟨h.1, fun x hx ev hev c hc t ht hi hm => (key x hx ev hev c hc t ht hi hm).1,
    fun x hx ev hev c hc t ht hi hm => (key x hx ev hev c hc t ht hi hm).2⟩

namespace Ex

/-- States 1 and 2 and a composite 5 with children 6 and 7; nothing leads to state 3. -/
def maze : Machine := Machine.ofList
  [ { table := some
        [ row (ini 1) (ev 0) (some 100) (some 1) (.st 2), row (.st 2) (ev 1) none none (.st 1),
          row (.st 3) (ev 0) none (some 9) (.st 4), row (.st 1) (ev 2) (some 101) none (.st 5),
          row (.st 5) (ev 3) none none (.st 2) ] },
    { }, { }, { }, { },
    { table := some
        [ row (ini 6) (ev 0) none none (.st 7), row (.st 7) (ev 1) (some 102) none (.st 6) ] } ] [1]

theorem maze_regular : maze.Regular := Machine.regular_ofList (by decide +kernel)
theorem maze_scoped : maze.Scoped := Machine.scoped_of_check (by decide +kernel)

end Ex

/-- States 3 and 4 are never visited, whatever the guards and actions are. -/
example {P W : Type} {sem : Sem P W} {d : Dep} {ops : List (Op P)} {s : SM P W}
    (h : RunTo Ex.maze sem d ops s) (hns : ∀ r p st, Op.set r p st ∉ ops) {r : Nat} {p : Name}
    {st : StTy} (ha : At Ex.maze s r p st) : st ≠ .st 3 ∧ st ≠ .st 4 := by
  have := C64_closed Ex.maze_regular (L := [(0, .st 1), (0, .st 2), (5, .st 6), (5, .st 7)])
    (may := fun _ _ => true) (closed_of_check (by decide +kernel)) h hns (fun _ _ _ _ => rfl) ha
  simp only [List.mem_cons, List.not_mem_nil, or_false, Prod.mk.injEq] at this
  rcases this with ⟨-, rfl⟩ | ⟨-, rfl⟩ | ⟨-, rfl⟩ | ⟨-, rfl⟩ <;> decide

/-- The other side: child 7 of the composite is visited. -/
example : ∃ ops s, RunTo Ex.maze oracle 7 ops s ∧ (∀ r p st, Op.set r p st ∉ ops) ∧
    At Ex.maze s 0 5 (.st 7) := by
  refine C65_partial Ex.maze_regular Ex.maze_scoped (by decide +kernel) (by decide +kernel)
    (by decide +kernel) 7 ?_
  have h1 : Takes Ex.maze 0 (.st 1) := .initial (M := Ex.maze) (i := 1) (by decide +kernel)
  have h2 : Takes Ex.maze 5 (.st 6) := .step (M := Ex.maze) (l := (5, .st 6)) (ev := Ex.ev 2) (cs1 := [])
    (cs2 := []) h1 (c := .row ⟨0, .st 1, Ex.ev 2, some 101, none, .st 5, false⟩) (by decide +kernel)
    rfl rfl (by simp) (by decide +kernel)
  exact .step (M := Ex.maze) (l := (5, .st 7)) (ev := Ex.ev 0) (cs1 := []) (cs2 := []) h2
    (c := .row ⟨5, .ps false (.initial 6), Ex.ev 0, none, none, .st 7, false⟩) (by decide +kernel)
    rfl rfl (by simp) (by decide +kernel)

/-- In this machine no two rows compete, so C65 is exact: 2, 6, 7 and the initial state. -/
example : Unhidden Ex.maze := by
  have key : (Ex.maze.composites.all fun p => Ex.maze.states.all fun st => Ex.maze.events.all fun e =>
      decide ((Ex.maze.cands e p st).length ≤ 1)) = true := by decide +kernel
  intro p hp st hs e he c t cs1 cs2 h _ c' hc'
  have := of_decide_eq_true (List.all_eq_true.1 (List.all_eq_true.1 (List.all_eq_true.1 key p hp) st hs) e he)
  rw [h] at this
  cases cs1 with
  | nil => cases hc'
  | cons => simp at this

/-- Guard 100 never says yes and event 3 is not sent: state 2 stays out of reach. -/
example {d : Dep} {ops : List (Op Nat)} {s : SM Nat (List Nat)}
    (h : RunTo Ex.maze (Ex.sem fun g => g == 101) d ops s) (hns : ∀ r p st, Op.set r p st ∉ ops)
    (h3 : ∀ pl, Op.process (Ex.ev 3) pl ∉ ops) : ¬ At Ex.maze s 0 0 (.st 2) := by
  intro ha
  refine absurd (C64_closed Ex.maze_regular (L := [(0, .st 1), (5, .st 6), (5, .st 7)])
    (may := fun e t => e != Ex.ev 3 && t.guard != some 100)
    (closed_of_check (by decide +kernel)) h hns ?_ ha) (by decide)
  intro e t he hg
  simp only [Bool.and_eq_true, bne_iff_ne, ne_eq]
  constructor
  · rintro rfl
    rcases he with he | ⟨pl, he⟩
    · cases he
    · exact h3 pl he
  · intro hg'
    obtain ⟨args, q, w, q', w', -, hc⟩ := hg _ hg'
    simp [Ex.sem] at hc

/-- The callbacks: action 9 belongs to a row of state 3. -/
example {d : Dep} {ops : List (Op Nat)} {s : SM Nat (List Nat)} {sem : Sem Nat (List Nat)}
    (h : RunTo Ex.maze sem d ops s) (hns : ∀ r p st, Op.set r p st ∉ ops) (ph args q b cur) :
    Call.action ph 9 args q b cur ∉ s.trace := by
  intro hc
  obtain ⟨r, p, st, e, c, t, hr, _, hcd, ht, -, ph', hm⟩ :=
    (C64_callbacks Ex.maze_regular h hns).2 _ _ _ _ _ _ hc
  have hL : Closed Ex.maze (fun _ _ => true) [(0, .st 1), (0, .st 2), (5, .st 6), (5, .st 7)] :=
    closed_of_check (by decide +kernel)
  have hin : (p, st) ∈ [((0 : Name), StTy.st 1), (0, .st 2), (5, .st 6), (5, .st 7)] := by
    clear hcd
    induction hr with
    | initial h => exact hL.initial _ (List.mem_of_getElem? h)
    | target _ _ hc hr hi _ _ hl ih =>
      exact hL.target _ ih _ (Machine.events_of_cands hc hr) _ hc _ hr hi rfl _ hl
    | history _ _ hc hr hi _ hq hq' ih =>
      exact hL.history _ ih _ (Machine.events_of_cands hc hr) _ hc _ hr hi rfl _ _ hq _
        (List.mem_of_getElem? hq')
  have hev := Machine.events_of_cands hcd ht
  have key : ([((0 : Name), StTy.st 1), (0, .st 2), (5, .st 6), (5, .st 7)].all fun x =>
      Ex.maze.events.all fun e => (Ex.maze.cands e x.1 x.2).all fun c =>
        match c.row? with
        | some t => (Ex.maze.callbacks t).all fun x => x.2 != 9
        | none => true) = true := by decide +kernel
  have := List.all_eq_true.1 (List.all_eq_true.1 (List.all_eq_true.1 key _ hin) _ hev) _ hcd
  rw [ht] at this
  exact absurd (List.all_eq_true.1 this _ hm) (by simp)

end Hsm
