import Verif.SpecRun

/-!
# Specification of event processing

Relations that say, in terms of declared rows and locations, what happens when an
event is handled: in one region (`RegionRun`), in all regions (`LoopRun`), in the
anonymous rounds (`AnonRun`).  They are not used by the model.
-/

namespace Hsm

/-- The row of a candidate. -/
def Cand.row? : Cand → Option XRow
  | .defer => none
  | .row t => some t
  | .exit t _ => some t

/-- The object a candidate's callbacks get as source: the state denoted by the source of
the row, or the composite the row is declared on. -/
def Cand.src : Cand → StTy
  | .defer => .st 0
  | .row t => (Machine.sourceLoc t.parent t.source).2
  | .exit _ p => .st p

section
variable {P W : Type} (M : Machine) (sem : Sem P W)

/-- The history memory of composite `p` has index `c` for region `r`. -/
def Remembers (s : SM P W) (p : Name) (r c : Nat) : Prop :=
  ∃ l, s.hist[M.parentIdx p]? = some l ∧ l[r]? = some c

/-- What firing external row `t` in region `r` does to the machine before any callback
runs. -/
structure Moves (r : Nat) (t : XRow) (s s' : SM P W) : Prop where
  slot : r < s.cur.length
  /-- Only region `r` moves; to the row's destination, or to what is remembered. -/
  dest : ∃ c, s'.cur = s.cur.set r (some c) ∧
    (∀ o p, t.target = .ps o (.history p) → Remembers M s' p r c) ∧
    ((∀ o p, t.target ≠ .ps o (.history p)) →
      ∃ l, M.targetLoc t = some l ∧ c = M.comb l.1 l.2)
  /-- The location left is remembered for the composite region 0 was in. -/
  memory : (M.historic = false ∧ s'.hist = s.hist) ∨
    (M.historic = true ∧ ∃ p0 st0 c, At M s 0 p0 st0 ∧ s.cur[r]? = some (some c) ∧
      Remembers M s' p0 r c ∧
      ∀ q ∈ M.composites, ∀ i, (q ≠ p0 ∨ i ≠ r) → ∀ c, Remembers M s' q i c ↔ Remembers M s q i c)
  /-- Nothing is added to or removed from the memory. -/
  shape : s'.hist.map List.length = s.hist.map List.length
  /-- The number of regions is that of the composite region 0 is in now. -/
  regions : (M.orthogonal = false ∧ s'.regions = s.regions) ∨
    (M.orthogonal = true ∧ ∃ p st, At M s' 0 p st ∧ s'.regions = (M.declaredInitials p).length)
  initial : s'.initial = s.initial
  queue : s'.queue = s.queue
  table : s'.table = s.table
  handlers : s'.handlers = s.handlers
  world : s'.world = s.world
  trace : s'.trace = s.trace
  log : s'.log = s.log ++ [⟨r, s.cur, s'.cur, s.trace.length⟩]

/-- Internal rows change nothing, external ones move the region. -/
def Effect (r : Nat) (t : XRow) (s s' : SM P W) : Prop :=
  if t.internal then s' = s else Moves M r t s s'

/-- The arguments of the callbacks of a row: event, source object, target object (source
object again for internal rows; the pointer to it if it has no default constructor),
dependency. -/
def cbArgs (c : Cand) (t : XRow) (l : Name × StTy) (ev : EventTy) (d : Dep) : Args :=
  { event := ev, src := c.src,
    dst := if t.internal ∧ M.selfMade l.2 then c.src else l.2,
    byPtr := !M.selfMade l.2, dep := d }

/-- `Selected … c t d l x pre`: trying the candidates at `(p, st)` in order, those
before candidate `c` (of row `t`, with dependency `d` and destination `l`, whose guard
and arguments are in `x`) make up the entries `pre`: all of the later dependencies, and
those that come before `c` with the same dependency. -/
structure Selected (deps : List Dep) (ev : EventTy) (p : Name) (st : StTy) (c : Cand) (t : XRow)
    (d : Dep) (l : Name × StTy) (x : Exec) (pre : List Entry) : Prop where
  mem : c ∈ M.cands ev p st
  row : c.row? = some t
  dep : d ∈ deps
  loc : M.targetLoc t = some l
  entries : ∃ e post, M.entries deps ev p st = pre ++ e :: post ∧ M.entryOfCand d c = some e ∧
    e.tr = some x
  order : ∃ ds1 ds2 cs1 cs2, deps = ds1 ++ d :: ds2 ∧ M.cands ev p st = cs1 ++ c :: cs2 ∧
    pre = M.entries ds1 ev p st ++ cs1.filterMap (M.entryOfCand d)
  guard : x.guard = t.guard
  src : x.src = c.src
  dst : x.dst = l.2
  internal : x.internal = t.internal
  xdep : x.dep = d

/-- `FirstEnabled … c t d l gs pl' w`: in region `r` candidate `c` (of row `t`, with
dependency `d` and destination `l`) is the first one that is enabled: the guards of all
before it are called and return false, its own is absent or is called and returns true.
`gs` are these guard calls, `pl'` and `w` what they leave of payload and world. -/
def FirstEnabled (deps : List Dep) (r : Nat) (ev : EventTy) (pl : P) (s : SM P W) (c : Cand)
    (t : XRow) (d : Dep) (l : Name × StTy) (gs : List (Call P)) (pl' : P) (w : W) : Prop :=
  ∃ p st x pre p1 tr1 tr2 w1, At M s r p st ∧ Selected M deps ev p st c t d l x pre ∧
    FalseRun sem s.cur ev pre pl s.world tr1 p1 w1 ∧
    TrueGuard sem s.cur ev x p1 w1 tr2 pl' w ∧ gs = tr1 ++ tr2

/-- Handling event `ev` in region `r`, the call not being left by an exception. -/
inductive RegionRun (deps : List Dep) (r : Nat) (ev : EventTy) (pl : P) (s : SM P W) :
    RegionOut → P → SM P W → Prop
  | none {p : Name} {st : StTy} (ha : At M s r p st) (hc : M.cands ev p st = []) :
      RegionRun deps r ev pl s .none pl s
  | rejected {p : Name} {st : StTy} {pl' : P} {tr : List (Call P)} {w : W}
      (ha : At M s r p st) (hne : M.cands ev p st ≠ [])
      (hf : FalseRun sem s.cur ev (M.entries deps ev p st) pl s.world tr pl' w) :
      RegionRun deps r ev pl s .rejected pl' (s.ran w tr)
  | deferred {p : Name} {st : StTy} (ha : At M s r p st) (hd : Cand.defer ∈ M.cands ev p st) :
      RegionRun deps r ev pl s .deferred pl { s with queue := s.queue ++ [(ev, pl)] }
  | fired {p : Name} {st : StTy} {c : Cand} {t : XRow} {d : Dep} {l : Name × StTy} {x : Exec}
      {pre : List Entry} {p1 p2 p3 : P} {tr1 tr2 tr3 : List (Call P)} {w1 w2 w3 : W}
      {s1 : SM P W} (ha : At M s r p st) (hs : Selected M deps ev p st c t d l x pre)
      (hf : FalseRun sem s.cur ev pre pl s.world tr1 p1 w1)
      (hg : TrueGuard sem s.cur ev x p1 w1 tr2 p2 w2)
      (he : Effect M r t (s.ran w2 (tr1 ++ tr2)) s1)
      (hr : ActRun sem s1.cur (cbArgs M c t l ev d) (M.callbacks t) p2 w2 tr3 p3 w3) :
      RegionRun deps r ev pl s .fired p3 (s1.ran w3 tr3)

/-- Handling event `ev` in region `r`, left by exception `k` of a callback. -/
inductive RegionThrow (deps : List Dep) (r : Nat) (ev : EventTy) (pl : P) (s : SM P W) :
    Nat → SM P W → Prop
  | guard {p : Name} {st : StTy} {c : Cand} {t : XRow} {d : Dep} {l : Name × StTy} {x : Exec}
      {pre : List Entry} {g : Cb} {p1 p2 : P} {tr : List (Call P)} {w1 w2 : W} {k : Nat}
      (ha : At M s r p st) (hs : Selected M deps ev p st c t d l x pre)
      (hf : FalseRun sem s.cur ev pre pl s.world tr p1 w1) (hg : t.guard = some g)
      (hc : sem.guard g (guardArgs x ev) p1 w1 = .throw k p2 w2) :
      RegionThrow deps r ev pl s k (s.ran w2 (tr ++ [.guard g (guardArgs x ev) p1 none s.cur]))
  | action {p : Name} {st : StTy} {c : Cand} {t : XRow} {d : Dep} {l : Name × StTy} {x : Exec}
      {pre : List Entry} {p1 p2 : P} {tr1 tr2 tr3 : List (Call P)} {w1 w2 w3 : W}
      {s1 : SM P W} {k : Nat} (ha : At M s r p st) (hs : Selected M deps ev p st c t d l x pre)
      (hf : FalseRun sem s.cur ev pre pl s.world tr1 p1 w1)
      (hg : TrueGuard sem s.cur ev x p1 w1 tr2 p2 w2)
      (he : Effect M r t (s.ran w2 (tr1 ++ tr2)) s1)
      (hr : ActThrow sem s1.cur (cbArgs M c t l ev d) (M.callbacks t) p2 w2 tr3 k w3) :
      RegionThrow deps r ev pl s k (s1.ran w3 tr3)

/-- Handling event `ev` in the given regions one after the other, stopping after a region
that defers it.  The list says what happened in each region handled. -/
inductive LoopRun (deps : List Dep) (ev : EventTy) :
    List Nat → P → SM P W → List RegionOut → P → SM P W → Prop
  | nil (pl : P) (s : SM P W) : LoopRun deps ev [] pl s [] pl s
  | cons {r : Nat} {rs : List Nat} {pl p1 p2 : P} {s s1 s2 : SM P W} {o : RegionOut}
      {os : List RegionOut} (h1 : RegionRun M sem deps r ev pl s o p1 s1) (ho : o ≠ .deferred)
      (h2 : LoopRun deps ev rs p1 s1 os p2 s2) : LoopRun deps ev (r :: rs) pl s (o :: os) p2 s2
  | stop {r : Nat} {rs : List Nat} {pl p1 : P} {s s1 : SM P W}
      (h1 : RegionRun M sem deps r ev pl s .deferred p1 s1) :
      LoopRun deps ev (r :: rs) pl s [.deferred] p1 s1

/-- Like `LoopRun`, but left by exception `k` in the last region handled. -/
inductive LoopThrow (deps : List Dep) (ev : EventTy) :
    List Nat → P → SM P W → List RegionOut → Nat → Nat → SM P W → Prop
  | here {r : Nat} {rs : List Nat} {pl : P} {s s1 : SM P W} {k : Nat}
      (h : RegionThrow M sem deps r ev pl s k s1) : LoopThrow deps ev (r :: rs) pl s [] r k s1
  | later {r r' : Nat} {rs : List Nat} {pl p1 : P} {s s1 s2 : SM P W} {o : RegionOut} {k : Nat}
      {os : List RegionOut} (h1 : RegionRun M sem deps r ev pl s o p1 s1) (ho : o ≠ .deferred)
      (h2 : LoopThrow deps ev rs p1 s1 os r' k s2) :
      LoopThrow deps ev (r :: rs) pl s (o :: os) r' k s2

/-- One anonymous round over the given regions.  `some b`: all regions were handled, `b`
says whether a row fired; `none`: a region without candidates ended the processing of
anonymous rows. -/
inductive AnonRound (deps : List Dep) :
    List Nat → P → SM P W → List RegionOut → Option Bool → P → SM P W → Prop
  | nil (pl : P) (s : SM P W) : AnonRound deps [] pl s [] (some false) pl s
  | stop {r : Nat} {rs : List Nat} {pl : P} {s : SM P W}
      (h : RegionRun M sem deps r .none pl s .none pl s) :
      AnonRound deps (r :: rs) pl s [.none] none pl s
  | cons {r : Nat} {rs : List Nat} {pl p1 p2 : P} {s s1 s2 : SM P W} {o : RegionOut}
      {os : List RegionOut} {b : Option Bool} (h1 : RegionRun M sem deps r .none pl s o p1 s1)
      (ho : o = .rejected ∨ o = .fired) (h2 : AnonRound deps rs p1 s1 os b p2 s2) :
      AnonRound deps (r :: rs) pl s (o :: os) (b.map (decide (o = .fired) || ·)) p2 s2

/-- Like `AnonRound`, left by an exception. -/
inductive AnonRoundThrow (deps : List Dep) : List Nat → P → SM P W → Nat → SM P W → Prop
  | here {r : Nat} {rs : List Nat} {pl : P} {s s1 : SM P W} {k : Nat}
      (h : RegionThrow M sem deps r .none pl s k s1) : AnonRoundThrow deps (r :: rs) pl s k s1
  | later {r : Nat} {rs : List Nat} {pl p1 : P} {s s1 s2 : SM P W} {o : RegionOut} {k : Nat}
      (h1 : RegionRun M sem deps r .none pl s o p1 s1) (ho : o = .rejected ∨ o = .fired)
      (h2 : AnonRoundThrow deps rs p1 s1 k s2) : AnonRoundThrow deps (r :: rs) pl s k s2

/-- Anonymous processing: rounds over the regions active at the start of each round until
one ends early or fires nothing. -/
inductive AnonRun (deps : List Dep) : P → SM P W → SM P W → Prop
  | done {pl p' : P} {s s' : SM P W} {os : List RegionOut} {b : Option Bool}
      (h : AnonRound M sem deps (List.range (activeRegions M s)) pl s os b p' s')
      (hb : b ≠ some true) : AnonRun deps pl s s'
  | again {pl p' : P} {s s1 s' : SM P W} {os : List RegionOut}
      (h : AnonRound M sem deps (List.range (activeRegions M s)) pl s os (some true) p' s1)
      (hr : AnonRun deps p' s1 s') : AnonRun deps pl s s'

/-- Like `AnonRun`, left by an exception. -/
inductive AnonThrow (deps : List Dep) : P → SM P W → Nat → SM P W → Prop
  | here {pl : P} {s s' : SM P W} {k : Nat}
      (h : AnonRoundThrow M sem deps (List.range (activeRegions M s)) pl s k s') :
      AnonThrow deps pl s k s'
  | later {pl p' : P} {s s1 s' : SM P W} {os : List RegionOut} {k : Nat}
      (h : AnonRound M sem deps (List.range (activeRegions M s)) pl s os (some true) p' s1)
      (hr : AnonThrow deps p' s1 k s') : AnonThrow deps pl s k s'

/-- Anonymous processing after an event made rows fire: only in machines with anonymous
rows. -/
def Settles (deps : List Dep) (s s' : SM P W) : Prop :=
  if M.anonymous then AnonRun M sem deps sem.nonePayload s s' else s' = s

/-- Something happened: no region deferred the event and in one a row fired. -/
def Reacted (os : List RegionOut) : Prop := RegionOut.deferred ∉ os ∧ RegionOut.fired ∈ os

/-- One event is taken through the active regions, and if rows fired through the
anonymous rounds.  `s1` is the machine in between. -/
inductive Turn (deps : List Dep) (ev : EventTy) (pl : P) (s : SM P W) (os : List RegionOut)
    (pl' : P) (s1 : SM P W) : SM P W → Prop
  | quiet (h : LoopRun M sem deps ev (List.range (activeRegions M s)) pl s os pl' s1)
      (hn : ¬ Reacted os) : Turn deps ev pl s os pl' s1 s1
  | react {s2 : SM P W}
      (h : LoopRun M sem deps ev (List.range (activeRegions M s)) pl s os pl' s1)
      (hy : Reacted os) (ha : Settles M sem deps s1 s2) : Turn deps ev pl s os pl' s1 s2

/-- Like `Turn`, left by an exception in a region or in the anonymous rounds. -/
inductive TurnThrow (deps : List Dep) (ev : EventTy) (pl : P) (s : SM P W) :
    Nat → SM P W → Prop
  | region {os : List RegionOut} {r k : Nat} {s' : SM P W}
      (h : LoopThrow M sem deps ev (List.range (activeRegions M s)) pl s os r k s') :
      TurnThrow deps ev pl s k s'
  | anon {os : List RegionOut} {k : Nat} {pl' : P} {s1 s' : SM P W}
      (h : LoopRun M sem deps ev (List.range (activeRegions M s)) pl s os pl' s1)
      (hy : Reacted os) (hh : M.anonymous = true)
      (ha : AnonThrow M sem deps sem.nonePayload s1 k s') : TurnThrow deps ev pl s k s'

/-- `process_event`, the call not being left by an exception.  `d0` is the dependency of
the unexpected-event handler. -/
inductive EventRun (deps : List Dep) (d0 : Dep) (ev : EventTy) (pl : P) (s : SM P W) :
    Bool → SM P W → Prop
  /-- nothing could react, and there is no handler -/
  | ignored {os : List RegionOut} {pl' : P} {s1 : SM P W}
      (ht : Turn M sem deps ev pl s os pl' s1 s1)
      (hn : ∀ o ∈ os, o = RegionOut.none) (hh : (M.decl M.root).handler = none) :
      EventRun deps d0 ev pl s false s1
  /-- nothing could react, the handler is called with the object of the current state -/
  | unexpected {os : List RegionOut} {pl' pl'' : P} {s1 : SM P W} {h : Cb} {p : Name} {st : StTy}
      {w : W} (ht : Turn M sem deps ev pl s os pl' s1 s1)
      (hn : ∀ o ∈ os, o = RegionOut.none) (hh : (M.decl M.root).handler = some h)
      (ha : At M s1 0 p st) (hc : sem.handler h ev st d0 pl' s1.world = .ok () pl'' w) :
      EventRun deps d0 ev pl s false (s1.ran w [.handler h ev st d0 pl' false s1.cur])
  /-- guards rejected the event or it was deferred -/
  | unhandled {os : List RegionOut} {pl' : P} {s1 : SM P W}
      (ht : Turn M sem deps ev pl s os pl' s1 s1) (hr : ¬ Reacted os)
      (hn : ∃ o ∈ os, o ≠ RegionOut.none) : EventRun deps d0 ev pl s false s1
  /-- rows fired, no event is waiting -/
  | handled {os : List RegionOut} {pl' : P} {s1 s2 : SM P W}
      (ht : Turn M sem deps ev pl s os pl' s1 s2) (hr : Reacted os)
      (hq : M.deferring = false ∨ s2.queue = []) : EventRun deps d0 ev pl s true s2
  /-- rows fired, the oldest waiting event is taken from the queue and gets its turn -/
  | replayed {os os' : List RegionOut} {pl' rp rp' : P} {s1 s2 s3 s4 : SM P W} {re : EventTy}
      {q : List (EventTy × P)}
      (ht : Turn M sem deps ev pl s os pl' s1 s2) (hr : Reacted os) (hd : M.deferring = true)
      (hq : s2.queue = (re, rp) :: q)
      (ht' : Turn M sem deps re rp { s2 with queue := q } os' rp' s3 s4) :
      EventRun deps d0 ev pl s true s4

/-- `process_event` left by exception `k` of a callback. -/
inductive EventThrow (deps : List Dep) (d0 : Dep) (ev : EventTy) (pl : P) (s : SM P W) :
    Nat → SM P W → Prop
  | main {k : Nat} {s' : SM P W} (ht : TurnThrow M sem deps ev pl s k s') :
      EventThrow deps d0 ev pl s k s'
  | handler {os : List RegionOut} {pl' pl'' : P} {s1 : SM P W} {h : Cb} {p : Name} {st : StTy}
      {w : W} {k : Nat} (ht : Turn M sem deps ev pl s os pl' s1 s1)
      (hn : ∀ o ∈ os, o = RegionOut.none) (hh : (M.decl M.root).handler = some h)
      (ha : At M s1 0 p st) (hc : sem.handler h ev st d0 pl' s1.world = .throw k pl'' w) :
      EventThrow deps d0 ev pl s k (s1.ran w [.handler h ev st d0 pl' true s1.cur])
  | replay {os : List RegionOut} {pl' rp : P} {s1 s2 s' : SM P W} {re : EventTy}
      {q : List (EventTy × P)} {k : Nat}
      (ht : Turn M sem deps ev pl s os pl' s1 s2) (hr : Reacted os) (hd : M.deferring = true)
      (hq : s2.queue = (re, rp) :: q)
      (ht' : TurnThrow M sem deps re rp { s2 with queue := q } k s') :
      EventThrow deps d0 ev pl s k s'

end
end Hsm
