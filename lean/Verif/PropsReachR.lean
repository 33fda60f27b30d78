import Verif.PropsReach
import Verif.PropsCalls

/-!
# What a machine can reach if callbacks use it, read off its tables (C94)

As PropsReach.lean, for callbacks that send events to the machine that runs them, set a state or hand over
a dependency.  An outer call goes on with rows it looked up before an inner one moved the region, so rows
need not fire where they apply (C58).  Still nothing leaves what the tables lead to.
-/

namespace Hsm

section
variable {P W : Type} (M : Machine) (sem : SemR P W)

/-! ## Specification -/

/-- The guard of a row can say yes to event `ev`: it has none, or it has a run that does. -/
def MayPassR (ev : EventTy) (t : XRow) : Prop :=
  ∀ g, t.guard = some g → ∃ args p w, args.event = ev ∧ (sem.guard g args p w).MaySay true

/-- The locations region `r` can get to with events in `E`: initial states of the root, locations `L` that
it is set to, and destinations of external rows applicable at such locations.  A history row leads to initial
states; what else is remembered has been reached before. -/
inductive ReachesR (E : EventTy → Prop) (L : Nat → Name → StTy → Prop) (r : Nat) : Name → StTy → Prop
  | initial {i : Name} (h : (M.declaredInitials M.root)[r]? = some i) : ReachesR E L r M.root (.st i)
  | set {p : Name} {st : StTy} (h : L r p st) : ReachesR E L r p st
  | target {p : Name} {st : StTy} {ev : EventTy} {c : Cand} {t : XRow} {l : Name × StTy}
      (h : ReachesR E L r p st) (he : E ev) (hc : c ∈ M.cands ev p st) (hr : c.row? = some t)
      (hi : t.internal = false) (hg : MayPassR sem ev t)
      (hn : ∀ o q, t.target ≠ .ps o (.history q)) (hl : M.targetLoc t = some l) :
      ReachesR E L r l.1 l.2
  | history {p : Name} {st : StTy} {ev : EventTy} {c : Cand} {t : XRow} {o : Bool} {q i : Name}
      (h : ReachesR E L r p st) (he : E ev) (hc : c ∈ M.cands ev p st) (hr : c.row? = some t)
      (hi : t.internal = false) (hg : MayPassR sem ev t)
      (hq : t.target = .ps o (.history q)) (hq' : (M.declaredInitials q)[r]? = some i) :
      ReachesR E L r q (.st i)

/-- A call sends an event in `E` or sets a region to a location in `L`.  Numbers of regions have one byte. -/
def Permits (E : EventTy → Prop) (L : Nat → Name → StTy → Prop) : Op P → Prop
  | .process ev _ => E ev
  | .set r p st => L (r % 256) p st
  | .setDependency _ => True

/-- Callback `a` has a place in the tables where it can be called: it is the guard of a row
applicable at a location that can be reached, or one of the callbacks of such a row whose guard can
say yes. -/
def AliveR (E : EventTy → Prop) (L : Nat → Name → StTy → Prop) (guard : Bool) (a : Cb) : Prop :=
  ∃ r p st ev c t, ReachesR M sem E L r p st ∧ E ev ∧ c ∈ M.cands ev p st ∧ c.row? = some t ∧
    if guard then t.guard = some a else MayPassR sem ev t ∧ ∃ ph, (ph, a) ∈ M.callbacks t

/-- All locations in `cur` can be reached. -/
def LocsR (E : EventTy → Prop) (L : Nat → Name → StTy → Prop) (cur : List (Option Nat)) : Prop :=
  ∀ (r : Nat) k, cur[r]? = some (some k) → ∃ p st, ReachesR M sem E L r p st ∧ k = M.comb p st

/-- What is known of a callback that was called. -/
def FineR (E : EventTy → Prop) (L : Nat → Name → StTy → Prop) : Call P → Prop
  | .guard g _ _ _ _ => AliveR M sem E L true g
  | .action _ a _ _ _ _ => AliveR M sem E L false a
  | .handler h ev st _ _ _ _ => (M.decl M.root).handler = some h ∧ E ev ∧ ∃ p, ReachesR M sem E L 0 p st

/-! ## Proofs -/

/-- The invariant. -/
structure WithinR (E : EventTy → Prop) (L : Nat → Name → StTy → Prop) (s : SM P W) : Prop where
  basic : Basic M s
  cur : LocsR M sem E L s.cur
  hist : ∀ q ∈ M.composites, ∀ r k, Remembers M s q r k →
    (∃ i, (M.declaredInitials q)[r]? = some i ∧ k = M.comb q (.st i)) ∨
      ∃ p st, ReachesR M sem E L r p st ∧ k = M.comb p st
  queue : ∀ x ∈ s.queue, E x.1
  calls : ∀ c ∈ s.trace, LocsR M sem E L c.cur ∧ FineR M sem E L c
  moves : ∀ f ∈ s.log, LocsR M sem E L f.before ∧ LocsR M sem E L f.after

/-- Entry `e` is that of a candidate for `ev` at a location region `r` can reach. -/
def Within.Entry (E : EventTy → Prop) (L : Nat → Name → StTy → Prop) (ev : EventTy) (r : Nat) (e : Entry)
    (_ : SM P W) : Prop :=
  ∃ p st d cd, ReachesR M sem E L r p st ∧ E ev ∧ cd ∈ M.cands ev p st ∧ M.entryOfCand d cd = some e

variable {M sem} {E : EventTy → Prop} {L : Nat → Name → StTy → Prop}

theorem WithinR.of_eq {s s' : SM P W} (h : WithinR M sem E L s) (h1 : s'.cur = s.cur)
    (h2 : s'.initial = s.initial) (h3 : s'.hist = s.hist) (h4 : s'.table = s.table)
    (h5 : s'.handlers = s.handlers) (h6 : s'.log = s.log) (h7 : s'.trace = s.trace)
    (h8 : ∀ x ∈ s'.queue, E x.1) : WithinR M sem E L s' where
  basic := h.basic.of_eq (by rw [h1]) h2 (by rw [h3]) h4 h5
  cur := by rw [h1]; exact h.cur
  hist := by unfold Remembers; rw [h3]; exact h.hist
  queue := h8
  calls := by rw [h7]; exact h.calls
  moves := by rw [h6]; exact h.moves

theorem LocsR.reaches (hM : M.Regular) {cur : List (Option Nat)} (h : LocsR M sem E L cur) {r : Nat}
    {p : Name} {st : StTy} (hp : p ∈ M.composites) (hst : st ∈ M.states)
    (hc : cur[r]? = some (some (M.comb p st))) : ReachesR M sem E L r p st := by
  obtain ⟨q, st', hr, he⟩ := h r _ hc
  cases hM.comb_inj hp hst he.symm
  exact hr

theorem Passes.row {ev : EventTy} {e : Entry} {x : Exec} {t : XRow} (h : Passes sem ev e)
    (hx : e.tr = some x) (hg : x.guard = t.guard) : MayPassR sem ev t :=
  fun g ht => h x g hx (hg.trans ht)

theorem By.fine (hM : M.Regular) {V : EventTy → Prop} (hV : ∀ e, V e → E e) {c : Call P} {s' : SM P W}
    (h : By M sem (WithinR M sem E L) (Within.Entry M sem E L) V c s') : FineR M sem E L c := by
  cases h with
  | guard hs he hx hg q b _ =>
    obtain ⟨p, st, d', cd, hr, hev, hcd, hen⟩ := he
    obtain ⟨t, l, hrow, _, _, _, hgd, _⟩ := entryOfCand_exec hen hx
    exact ⟨_, p, st, _, cd, t, hr, hev, hcd, hrow, by rw [if_pos rfl, ← hgd]; exact hg⟩
  | @action _ _ _ _ _ _ _ _ _ _ ph _ _ _ hs he hpa _ hx _ hcs _ _ _ _ q b cur =>
    obtain ⟨p, st, d', cd, hr, hev, hcd, hen⟩ := he
    obtain ⟨t, l, hrow, _, _, hac, hgd, _⟩ := entryOfCand_exec hen hx
    refine ⟨_, p, st, _, cd, t, hr, hev, hcd, hrow, ?_⟩
    rw [if_neg (by simp)]
    refine ⟨hpa.row hx hgd, ph, ?_⟩
    rw [← Machine.toRun_cbs, ← hac, hcs]
    simp
  | handler hs hev hv hh hc hlt hd q b _ =>
    obtain ⟨p, st, hp, hst, rfl⟩ := hM.comb_surj hlt
    obtain ⟨d', hd'⟩ := hs.basic.handlers (by rw [hh]; rfl)
    rw [hd' _ hev p hp st hst] at hd
    cases hd
    exact ⟨hh, hV _ hv, p, hs.cur.reaches hM hp hst hc⟩

theorem WithinR.moved (hM : M.Regular) {s s' : SM P W} (h : WithinR M sem E L s) {r : Nat} {p : Name}
    {st : StTy} {ev : EventTy} {c : Cand} {t : XRow} (he : E ev) (hre : ReachesR M sem E L r p st)
    (hc : c ∈ M.cands ev p st) (hr : c.row? = some t) (hg : MayPassR sem ev t)
    (hi : t.internal = false) (htf : t ∈ M.flat) (hm : Moves M r t s s') : WithinR M sem E L s' := by
  have hmem : ∀ q ∈ M.composites, ∀ i k, Remembers M s' q i k →
      (∃ n, (M.declaredInitials q)[i]? = some n ∧ k = M.comb q (.st n)) ∨
        ∃ p st, ReachesR M sem E L i p st ∧ k = M.comb p st := by
    intro q hq i k hrc
    rcases hm.memory with ⟨_, he⟩ | ⟨_, p0, st0, c0, ha0, hc0, hrem, hoth⟩
    · exact h.hist q hq i k (by unfold Remembers at hrc ⊢; rw [← he]; exact hrc)
    · by_cases hqi : q ≠ p0 ∨ i ≠ r
      · exact h.hist q hq i k ((hoth q hq i hqi k).1 hrc)
      · have hqi : q = p0 ∧ i = r := by simpa [not_or] using hqi
        obtain ⟨rfl, rfl⟩ := hqi
        obtain ⟨l, hl, hlc⟩ := hrc
        obtain ⟨l', hl', hlc'⟩ := hrem
        rw [hl] at hl'; cases hl'
        rw [hlc] at hlc'; cases hlc'
        exact Or.inr (h.cur i k hc0)
  have hcur : LocsR M sem E L s'.cur := by
    intro i k hk
    obtain ⟨c1, hcur, hh, hn⟩ := hm.dest
    rw [hcur, List.getElem?_set] at hk
    split at hk
    · rename_i hri
      subst hri
      split at hk
      · simp only [Option.some.injEq] at hk
        subst hk
        by_cases hq : ∃ o q, t.target = .ps o (.history q)
        · obtain ⟨o, q, hq⟩ := hq
          rcases hmem q (Machine.history_target hM htf hq).1 r c1 (hh o q hq) with ⟨n, h1, rfl⟩ | h1
          · exact ⟨_, _, .history hre he hc hr hi hg hq h1, rfl⟩
          · exact h1
        · have hq : ∀ o q, t.target ≠ .ps o (.history q) := fun o q h => hq ⟨o, q, h⟩
          obtain ⟨l, hl, rfl⟩ := hn hq
          exact ⟨_, _, .target hre he hc hr hi hg hq hl, rfl⟩
      · cases hk
    · exact h.cur i k hk
  have hlen : s'.cur.length = s.cur.length := by
    obtain ⟨c1, h1, _⟩ := hm.dest
    rw [h1, List.length_set]
  refine ⟨h.basic.of_eq hlen hm.initial hm.shape hm.table hm.handlers, hcur, hmem,
    by rw [hm.queue]; exact h.queue, by rw [hm.trace]; exact h.calls, ?_⟩
  intro f hf
  rw [hm.log] at hf
  rcases List.mem_append.1 hf with hf | hf
  · exact h.moves f hf
  · rw [List.mem_singleton.1 hf]; exact ⟨h.cur, hcur⟩

theorem Keeps.withinR (hM : M.Regular) (hE : E .none)
    (hg : sem.Good True (fun op => OpOk M op ∧ Permits E L op)) :
    Keeps M sem (fun _ => True) (fun op => OpOk M op ∧ Permits E L op) (fun _ => True)
      (WithinR M sem E L) (Within.Entry M sem E L) E where
  toRuns := .of hg (fun _ _ h => h.of_eq rfl rfl rfl rfl rfl rfl rfl h.queue)
  traced := by
    intro s0 s c h0 h hc hb
    refine ⟨h.basic.of_eq rfl rfl rfl rfl rfl, h.cur, h.hist, h.queue, ?_, h.moves⟩
    intro c' hc'
    rcases List.mem_append.1 hc' with hc' | hc'
    · exact h.calls c' hc'
    · rw [List.mem_singleton.1 hc']
      exact ⟨by rw [hc]; exact h0.cur, hb.fine hM fun _ h => h⟩
  obj := fun _ _ _ _ => trivial
  anon := hE
  sent := fun _ _ h => h.2
  queued := fun s ev p q h hq => h.queue (ev, p) (by rw [hq]; exact List.mem_cons_self)
  opOk := fun _ h => h.1
  regions := fun _ _ _ _ => trivial
  look := fun _ _ _ _ => Or.inl fun _ => trivial
  entry := by
    intro s ev r c e h _ hc hlt he hv
    obtain ⟨p, st, d, cd, hp, hst, rfl, hcd, hen⟩ := h.basic.entry hM hlt he
    exact ⟨p, st, d, cd, h.cur.reaches hM hp hst hc, hv, hcd, hen⟩
  null := fun _ _ _ _ _ _ _ _ => trivial
  stay := fun _ _ _ _ _ _ _ _ _ _ _ _ he => he
  iter := fun _ _ _ _ _ _ _ _ _ _ _ _ => trivial
  move := by
    intro s ev r e x h _ he hpa hx _
    obtain ⟨p, st, d, cd, hre, hev, hcd, hen⟩ := he
    obtain ⟨t, l, _, hrow, hl, hto, hh, hi, hf⟩ := entry_row hcd hen (by rw [hx]; simp)
    cases hu : updateState M r e s with
    | ok a s' =>
      rcases updateState_ok hu with ⟨_, rfl⟩ | hm
      · exact h
      · have hint : t.internal = false := by rw [← hi]; exact hm.ext
        obtain ⟨t', _, hrow', _, _, _, hgd, _⟩ := entryOfCand_exec hen hx
        rw [hrow] at hrow'
        cases hrow'
        exact h.moved hM hev hre hcd hrow (hpa.row hx hgd) hint (hf hint)
          (hm.moves hM h.basic (hf hint) hl hto hh)
    | throw x s' => exact absurd hu updateState_throw
    | ub u => trivial
    | timeout => trivial
  push := by
    intro s ev r e p h he _
    refine h.of_eq rfl rfl rfl rfl rfl rfl rfl ?_
    intro x hx
    rcases List.mem_append.1 hx with hx | hx
    · exact h.queue x hx
    · rw [List.mem_singleton.1 hx]
      obtain ⟨_, _, _, _, _, hev, _⟩ := he
      exact hev
  pop := fun s ev p q h hq => h.of_eq rfl rfl rfl rfl rfl rfl rfl fun x hx =>
    h.queue x (by rw [hq]; exact List.mem_cons_of_mem _ hx)
  handler := fun _ _ _ _ _ => fun _ => Or.inl fun _ => trivial
  set := by
    intro s r p st hq h _
    refine ⟨h.basic.of_eq (by simp) rfl rfl rfl rfl, ?_, h.hist, h.queue, h.calls, h.moves⟩
    intro i k hk
    dsimp only at hk
    rw [List.getElem?_set] at hk
    split at hk
    · rename_i hri
      subst hri
      have hk : some (some (M.comb p st)) = some (some k) := by
        first | exact hk | (split at hk <;> [exact hk; cases hk])
      cases hk
      exact ⟨p, st, .set hq.2, rfl⟩
    · exact h.cur i k hk
  dep := by
    intro s d' _ h
    unfold setDependency
    cases hT : M.fill d' s.table with
    | error u => trivial
    | ok T => exact ⟨basic_fill hM h.basic hT, h.cur, h.hist, h.queue, h.calls, h.moves⟩

theorem RunToR.withinR (hM : M.Regular) (hE : E .none)
    (hg : sem.Good True (fun op => OpOk M op ∧ Permits E L op)) {d : Dep} {ops : List (Op P)} {s : SM P W}
    (h : RunToR M sem d ops s) (hops : ∀ op ∈ ops, Permits E L op) : WithinR M sem E L s := by
  have hk := Keeps.withinR (M := M) (L := L) hM hE hg
  induction h with
  | init h =>
    obtain ⟨h1, h2, hq, htr, hl, _⟩ := C46_initial hM h
    obtain ⟨_, _, _, _, _, hh, _⟩ := construct_ok h
    refine ⟨basic_construct hM h, ?_, ?_, by rw [hq]; simp, by rw [htr]; simp, by rw [hl]; simp⟩
    · intro r k hk
      rcases Nat.lt_or_ge r (M.declaredInitials M.root).length with hlt | hge
      · have := h1 r _ (List.getElem?_eq_getElem hlt)
        rw [this.2.2] at hk
        cases hk
        exact ⟨_, _, .initial (List.getElem?_eq_getElem hlt), rfl⟩
      · exact absurd hk (h2 r hge k)
    · rintro p hp r k ⟨l, hl, hk⟩
      rw [hh, Machine.initialTable_get hM hp] at hl
      cases hl
      rw [List.getElem?_map] at hk
      obtain ⟨i, hi, rfl⟩ := Option.map_eq_some_iff.1 hk
      exact Or.inl ⟨i, by rw [Machine.declaredInitials_eq]; exact hi, rfl⟩
  | @ok s s' ops op fuel n b hr hop h ih =>
    have := hk.step fuel n op s ⟨hop, hops op (by simp)⟩ (ih fun o ho => hops o (by simp [ho]))
    rw [h] at this
    exact this
  | @throw s s' ops op fuel n x hr hop h ih =>
    have := hk.step fuel n op s ⟨hop, hops op (by simp)⟩ (ih fun o ho => hops o (by simp [ho]))
    rw [h] at this
    exact this
  | world hr w ih => have h := ih hops; exact h.of_eq rfl rfl rfl rfl rfl rfl rfl h.queue

/-! ## C94 -/

/-- C94: callbacks may send events in `E` and set regions to locations in `L`, and so may the user.  Every
region is at a location that the tables lead to with them; so it was whenever a callback was called, and
before and after each move. -/
theorem C94_locations (hM : M.Regular) (hE : E .none)
    (hg : sem.Good True (fun op => OpOk M op ∧ Permits E L op)) {d : Dep} {ops : List (Op P)} {s : SM P W}
    (h : RunToR M sem d ops s) (hops : ∀ op ∈ ops, Permits E L op) {r : Nat} {p : Name} {st : StTy}
    (hp : p ∈ M.composites) (hst : st ∈ M.states) {cur : List (Option Nat)}
    (hcur : cur = s.cur ∨ (∃ c ∈ s.trace, cur = c.cur) ∨ ∃ f ∈ s.log, cur = f.before ∨ cur = f.after)
    (ha : cur[r]? = some (some (M.comb p st))) : ReachesR M sem E L r p st := by
  have hw := h.withinR hM hE hg hops
  rcases hcur with rfl | ⟨c, hc, rfl⟩ | ⟨f, hf, rfl | rfl⟩
  · exact hw.cur.reaches hM hp hst ha
  · exact (hw.calls c hc).1.reaches hM hp hst ha
  · exact (hw.moves f hf).1.reaches hM hp hst ha
  · exact (hw.moves f hf).2.reaches hM hp hst ha

/-- C94: guards and actions that are alive nowhere in the tables are never called; the handler is called
only for events that are sent, with a state region 0 can be in. -/
theorem C94_callbacks (hM : M.Regular) (hE : E .none)
    (hg : sem.Good True (fun op => OpOk M op ∧ Permits E L op)) {d : Dep} {ops : List (Op P)} {s : SM P W}
    (h : RunToR M sem d ops s) (hops : ∀ op ∈ ops, Permits E L op) :
    (∀ g args q res cur, Call.guard g args q res cur ∈ s.trace → AliveR M sem E L true g) ∧
    (∀ ph a args q b cur, Call.action ph a args q b cur ∈ s.trace → AliveR M sem E L false a) ∧
    ∀ hd ev st d' q b cur, Call.handler hd ev st d' q b cur ∈ s.trace →
      (M.decl M.root).handler = some hd ∧ E ev ∧ ∃ p, ReachesR M sem E L 0 p st := by
  have hw := h.withinR hM hE hg hops
  exact ⟨fun _ _ _ _ _ hc => (hw.calls _ hc).2, fun _ _ _ _ _ _ hc => (hw.calls _ hc).2,
    fun _ _ _ _ _ _ _ hc => (hw.calls _ hc).2⟩

/-- A closed set of locations contains all that can be reached. -/
theorem ReachesR.closed {may : EventTy → XRow → Bool} {K : List (Name × StTy)} (hK : Closed M may K)
    (hL : ∀ r p st, L r p st → (p, st) ∈ K)
    (hmay : ∀ ev t, E ev → MayPassR sem ev t → may ev t = true) {r : Nat} {p : Name} {st : StTy}
    (h : ReachesR M sem E L r p st) : (p, st) ∈ K := by
  induction h with
  | initial h => exact hK.initial _ (List.mem_of_getElem? h)
  | set h => exact hL _ _ _ h
  | target _ he hc hr hi hg _ hl ih =>
    exact hK.target _ ih _ (Machine.events_of_cands hc hr) _ hc _ hr hi (hmay _ _ he hg) _ hl
  | history _ he hc hr hi hg hq hq' ih =>
    exact hK.history _ ih _ (Machine.events_of_cands hc hr) _ hc _ hr hi (hmay _ _ he hg) _ _ hq _
      (List.mem_of_getElem? hq')

/-- C94: the version one checks on the tables.  A set of locations that contains the initial ones and those
that are set, and is closed under the rows, is never left. -/
theorem C94_closed (hM : M.Regular) {may : EventTy → XRow → Bool} {K : List (Name × StTy)}
    (hK : Closed M may K) (hE : E .none)
    (hg : sem.Good True (fun op => OpOk M op ∧ Permits E L op)) {d : Dep} {ops : List (Op P)} {s : SM P W}
    (h : RunToR M sem d ops s) (hops : ∀ op ∈ ops, Permits E L op)
    (hL : ∀ r p st, L r p st → (p, st) ∈ K)
    (hmay : ∀ ev t, E ev → MayPassR sem ev t → may ev t = true) {r : Nat} {p : Name}
    {st : StTy} (ha : At M s r p st) : (p, st) ∈ K :=
  (C94_locations hM hE hg h hops ha.1 ha.2.1 (Or.inl rfl) ha.2.2).closed hK hL hmay

end

/-! ## Examples -/

section
open Ex

/-- The events of `hop` without event 1. -/
def Ex.notOne (e : EventTy) : Prop := e ≠ ev 1

theorem Ex.onward_permits : onward.Good True (fun op => OpOk hop op ∧ Permits notOne (fun _ _ _ => False) op) :=
  semR_good never_all (only_all fun op h => by
    rw [List.mem_singleton.1 h]
    exact ⟨hop_ok 2 (by decide) 8, by show ev 2 ≠ ev 1; decide⟩)

/-- An action of `hop` sends event 2 to it; the user does not send event 1: state 3 is never visited. -/
example {ops : List (Op Nat)} {s : SM Nat (List Nat)} (h : RunToR hop onward 7 ops s)
    (hops : ∀ op ∈ ops, Permits notOne (fun _ _ _ => False) op) : ¬ At hop s 0 0 (.st 3) := by
  intro ha
  refine absurd (C94_closed hop_regular (K := [(0, .st 1), (0, .st 2)])
    (may := fun e _ => e != ev 1) (closed_of_check (by decide +kernel))
    (by show EventTy.none ≠ ev 1; decide) onward_permits h hops (fun _ _ _ h => h.elim) ?_ ha) (by decide)
  intro e t he _
  simpa [notOne] using he

/-- There is such a history, with two moves, the second inside the first. -/
example : ∃ s, RunToR hop onward 7 [.process (ev 0) 1] s ∧ s.log.length = 2 ∧
    ReachesR hop onward notOne (fun _ _ _ => False) 0 0 (.st 2) ∧
    ∀ c ∈ s.trace, ∀ (r k : Nat), c.cur[r]? = some (some k) →
      ∀ p ∈ hop.composites, ∀ st ∈ hop.states, k = hop.comb p st → st ≠ .st 3 := by
  obtain ⟨s, h, hs⟩ := exists_runR hop onward
    (fuel := 5) (n := 5) (d := 7) (w := []) (ops := [.process (ev 0) 1])
    (f := fun s => s.log.length == 2 && s.log.any fun f => f.after == [some (hop.comb 0 (.st 2))])
    (by decide +kernel)
  simp only [Bool.and_eq_true, beq_iff_eq, List.any_eq_true] at hs
  obtain ⟨hs, f, hf, hfa⟩ := hs
  have hn : notOne .none := by show EventTy.none ≠ ev 1; decide
  have hops : ∀ op ∈ [Op.process (ev 0) 1], Permits notOne (fun _ _ _ => False) op := fun op h => by
    rw [List.mem_singleton.1 h]; show ev 0 ≠ ev 1; decide
  refine ⟨s, h, hs, C94_locations hop_regular hn onward_permits h hops (by decide +kernel)
    (by decide +kernel) (Or.inr (Or.inr ⟨f, hf, Or.inr rfl⟩)) (by rw [hfa]; rfl), ?_⟩
  rintro c hc r k hk p hp st hst rfl rfl
  have := (C94_locations hop_regular hn onward_permits h hops hp hst (Or.inr (Or.inl ⟨c, hc, rfl⟩)) hk).closed
    (K := [(0, .st 1), (0, .st 2)]) (may := fun e _ => e != ev 1) (closed_of_check (by decide +kernel))
    (fun _ _ _ h => h.elim) (fun e t he _ => by simpa [notOne] using he)
  simp at this

/-- Nothing leads to states 3 and 4 of `maze`: whatever callbacks send to it, action 9 is never called. -/
example {d : Dep} {ops : List (Op Nat)} {s : SM Nat (List Nat)} {sem : SemR Nat (List Nat)}
    (hg : sem.Good True (fun op => OpOk maze op ∧ Permits (fun _ => True) (fun _ _ _ => False) op))
    (h : RunToR maze sem d ops s) (hns : ∀ op ∈ ops, Permits (fun _ => True) (fun _ _ _ => False) op)
    (ph args q b cur) : Call.action ph 9 args q b cur ∉ s.trace := by
  intro hc
  obtain ⟨r, p, st, e, c, t, hr, _, hcd, ht, -, ph', hm⟩ :=
    (C94_callbacks maze_regular trivial hg h hns).2.1 _ _ _ _ _ _ hc
  have hin := hr.closed (K := [(0, .st 1), (0, .st 2), (5, .st 6), (5, .st 7)]) (may := fun _ _ => true)
    (closed_of_check (by decide +kernel)) (fun _ _ _ h => h.elim) (fun _ _ _ _ => rfl)
  have hev := Machine.events_of_cands hcd ht
  have key : ([((0 : Name), StTy.st 1), (0, .st 2), (5, .st 6), (5, .st 7)].all fun x =>
      maze.events.all fun e => (maze.cands e x.1 x.2).all fun c =>
        match c.row? with
        | some t => (maze.callbacks t).all fun x => x.2 != 9
        | none => true) = true := by decide +kernel
  have := List.all_eq_true.1 (List.all_eq_true.1 (List.all_eq_true.1 key _ hin) _ hev) _ hcd
  rw [ht] at this
  exact absurd (List.all_eq_true.1 this _ hm) (by simp)

/-- Action 1 of `maze` sets state 3. -/
def Ex.trapdoor : SemR Nat (List Nat) := semR (fun _ => true) never (only 1 [.set 0 0 (.st 3)])

theorem Ex.trapdoor_permits : trapdoor.Good True
    (fun op => OpOk maze op ∧ Permits (fun _ => True) (fun _ p st => (p, st) = (0, .st 3)) op) :=
  semR_good never_all (only_all fun op h => by
    rw [List.mem_singleton.1 h]
    exact ⟨opOkB_iff _ (by decide +kernel), rfl⟩)

/-- With it the machine gets there, and from there to 4, where no row leads on: the locations of C94
count those set by callbacks. -/
example : ∃ s, RunToR maze trapdoor 7 [.process (ev 0) 1, .process (ev 0) 2] s ∧ At maze s 0 0 (.st 4) ∧
    ReachesR maze trapdoor (fun _ => True) (fun _ p st => (p, st) = (0, .st 3)) 0 0 (.st 4) := by
  obtain ⟨s, h, hs⟩ := exists_runR maze trapdoor
    (fuel := 5) (n := 5) (d := 7) (w := []) (ops := [.process (ev 0) 1, .process (ev 0) 2])
    (f := fun s => s.cur == [some (maze.comb 0 (.st 4))]) (by decide +kernel)
  have hs := eq_of_beq hs
  have ha : At maze s 0 0 (.st 4) := ⟨by decide +kernel, by decide +kernel, by rw [hs]; rfl⟩
  exact ⟨s, h, ha, C94_locations maze_regular trivial trapdoor_permits h
    (by intro op hop; rcases List.mem_cons.1 hop with rfl | hop; · trivial
        · rw [List.mem_singleton.1 hop]; trivial) ha.1 ha.2.1 (Or.inl rfl) ha.2.2⟩

end

end Hsm
