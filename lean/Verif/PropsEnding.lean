import Verif.PropsInterpR
import Verif.PropsAnon
import Verif.PropsLedger
import Verif.PropsChecker
import Mathlib.Data.Multiset.DershowitzManna

/-!
# Calls from callbacks come to an end (C96)

A callback may send events to the machine that runs it, and these are handled at once.  If whatever
is sent while an event is handled ranks below that event, and anonymous rows are acyclic and leave
the machine alone, every call ends, however the callbacks decide what to send.  With deferred events
in machines with regions this fails: an event one region has acted on may be put back by the next, and is
handled again within later calls, whatever its rank.
-/

namespace Hsm

/-! ## Specification -/

section
variable {P W : Type}

/-- What a callback may call while it handles event `ev` with payload `p`: events of lower rank, and on
behalf of anonymous rows nothing that moves the machine. -/
def Lower (rank : EventTy → P → Nat) (ev : EventTy) (p : P) : Op P → Prop
  | .process ev' p' => ev ≠ .none ∧ rank ev' p' < rank ev p
  | .set _ _ _ => ev ≠ .none
  | .setDependency _ => True

/-- All calls of a callback are such, and it leaves a payload of no higher rank. -/
def Prog.Below {α : Type} (rank : EventTy → P → Nat) (ev : EventTy) (p : P) : Prog P W α → Prop
  | .ret _ p' _ => rank ev p' ≤ rank ev p
  | .throw _ _ => True
  | .ub => True
  | .call op _ k => Lower rank ev p op ∧ ∀ r w, (k r w).Below rank ev p

/-- The callbacks of machine `M` send events only downwards. -/
structure SemR.Downward (sem : SemR P W) (M : Machine) (rank : EventTy → P → Nat) : Prop where
  guard : ∀ t ∈ M.extRows ++ M.intRows, ∀ g, t.guard = some g → ∀ a p w, a.event = t.event →
    (sem.guard g a p w).Below rank t.event p
  action : ∀ t ∈ M.extRows ++ M.intRows, ∀ cs, M.toRun t = some cs → ∀ x ∈ cs, ∀ a p w, a.event = t.event →
    (sem.action x.2 a p w).Below rank t.event p
  handler : ∀ h, (M.decl M.root).handler = some h → ∀ e ∈ M.events, ∀ st d p w,
    (sem.handler h e st d p w).Below rank e p

/-! ## Outcomes that do not change any more -/

/-- The outcome is as said; `T` if it may be to run out of fuel. -/
def Res.Ended {σ α : Type} (T : Prop) (Q : α → σ → Prop) (X : σ → Prop) : Res σ α → Prop
  | .ok a s => Q a s
  | .throw _ s => X s
  | .ub _ => True
  | .timeout => T

/-- From some depth of nesting on the outcome is always the same. -/
def Returns {σ α : Type} (T : Prop) (Q : α → σ → Prop) (X : σ → Prop) (F : Nat → Res σ α) : Prop :=
  ∃ N r, (∀ n, N ≤ n → F n = r) ∧ r.Ended T Q X

variable {σ α β : Type} {T : Prop} {Q Q' : α → σ → Prop} {R : β → σ → Prop} {X X' : σ → Prop}
  {F : Nat → Res σ α}

theorem Returns.const {r : Res σ α} (h : r.Ended T Q X) : Returns T Q X fun _ => r := ⟨0, r, fun _ _ => rfl, h⟩

theorem Returns.mono (h : Returns T Q X F) (hq : ∀ a s, Q a s → Q' a s) (hx : ∀ s, X s → X' s) :
    Returns T Q' X' F := by
  obtain ⟨N, r, h1, h2⟩ := h
  refine ⟨N, r, h1, ?_⟩
  cases r with
  | ok a s => exact hq a s h2
  | throw x s => exact hx s h2
  | ub u => trivial
  | timeout => exact h2

theorem Returns.bind {G : Nat → α → σ → Res σ β} (h : Returns T Q X F)
    (hg : ∀ a s, Q a s → Returns T R X fun n => G n a s) : Returns T R X fun n => (F n).bind (G n) := by
  obtain ⟨N, r, h1, h2⟩ := h
  cases r with
  | ok a s =>
    obtain ⟨N', r', h3, h4⟩ := hg a s h2
    refine ⟨max N N', r', fun n hn => ?_, h4⟩
    show (F n).bind (G n) = _
    rw [h1 n (by omega)]
    exact h3 n (by omega)
  | throw x s => exact ⟨N, .throw x s, fun n hn => by show (F n).bind (G n) = _; rw [h1 n hn]; rfl, h2⟩
  | ub u => exact ⟨N, .ub u, fun n hn => by show (F n).bind (G n) = _; rw [h1 n hn]; rfl, trivial⟩
  | timeout => exact ⟨N, .timeout, fun n hn => by show (F n).bind (G n) = _; rw [h1 n hn]; rfl, h2⟩

theorem Returns.congr {G : Nat → Res σ α} (h : Returns T Q X F) (hg : ∀ n, G n = F n) : Returns T Q X G := by
  rw [show G = F from funext hg]; exact h

/-! ## What is waiting -/

/-- The ranks of the events in the queue. -/
def burden (rank : EventTy → P → Nat) (q : List (EventTy × P)) : Multiset Nat :=
  (q.map fun x => 2 * rank x.1 x.2 : List Nat)

/-- Less, in the order of Dershowitz and Manna: some are replaced by any number of smaller ones. -/
abbrev Less (A B : Multiset Nat) : Prop := Multiset.IsDershowitzMannaLT A B

/-- Less or the same. -/
def AtMost (A B : Multiset Nat) : Prop := A = B ∨ Less A B

theorem Less.add {A B : Multiset Nat} (h : Less A B) (C : Multiset Nat) : Less (C + A) (C + B) := by
  obtain ⟨X, Y, Z, h1, rfl, rfl, h4⟩ := h
  exact ⟨C + X, Y, Z, h1, by rw [add_assoc], by rw [add_assoc], h4⟩

theorem AtMost.refl (A : Multiset Nat) : AtMost A A := Or.inl rfl

theorem AtMost.add {A B : Multiset Nat} (h : AtMost A B) (C : Multiset Nat) : AtMost (C + A) (C + B) := by
  rcases h with rfl | h
  · exact .refl _
  · exact Or.inr (h.add C)

theorem AtMost.trans {A B C : Multiset Nat} (h : AtMost A B) (h' : AtMost B C) : AtMost A C := by
  rcases h with rfl | h
  · exact h'
  · rcases h' with rfl | h'
    · exact Or.inr h
    · exact Or.inr (h.trans h')

theorem AtMost.less {A B C : Multiset Nat} (h : AtMost A B) (h' : Less B C) : Less A C := by
  rcases h with rfl | h
  · exact h'
  · exact h.trans h'

theorem Less.atMost {A B C : Multiset Nat} (h : Less A B) (h' : AtMost B C) : Less A C := by
  rcases h' with rfl | h'
  · exact h
  · exact h.trans h'

/-- Any number of smaller ones. -/
theorem less_single {L : Multiset Nat} {b : Nat} (h : ∀ x ∈ L, x < b) (A : Multiset Nat) :
    Less (L + A) ({b} + A) :=
  ⟨A, L, {b}, by simp, by rw [add_comm], by rw [add_comm], fun y hy => ⟨b, by simp, h y hy⟩⟩

/-- `A'` is what is left of `A` and any number of things below `b`. -/
def Under (b : Nat) (A A' : Multiset Nat) : Prop := ∃ L : Multiset Nat, (∀ x ∈ L, x < b) ∧ AtMost A' (L + A)

theorem Under.refl (b : Nat) (A : Multiset Nat) : Under b A A := ⟨0, by simp, by rw [zero_add]; exact .refl _⟩

theorem Under.trans {b : Nat} {A A' A'' : Multiset Nat} (h : Under b A A') (h' : Under b A' A'') :
    Under b A A'' := by
  obtain ⟨L, hL, h1⟩ := h
  obtain ⟨L', hL', h2⟩ := h'
  refine ⟨L' + L, fun x hx => ?_, h2.trans ?_⟩
  · rcases Multiset.mem_add.1 hx with h | h
    · exact hL' x h
    · exact hL x h
  · rw [add_assoc]; exact h1.add L'

theorem Under.mono {b b' : Nat} {A A' : Multiset Nat} (h : Under b A A') (hb : b ≤ b') : Under b' A A' := by
  obtain ⟨L, hL, h⟩ := h
  exact ⟨L, fun x hx => Nat.lt_of_lt_of_le (hL x hx) hb, h⟩

theorem Under.single {b : Nat} {A A' : Multiset Nat} (h : Under b A A') : Less A' ({b} + A) := by
  obtain ⟨L, hL, h⟩ := h
  exact h.less (less_single hL A)

theorem Under.more {b k : Nat} {A A' : Multiset Nat} (h : Under b A A') (hk : k < b) : Less ({k} + A') ({b} + A) := by
  obtain ⟨L, hL, h⟩ := h
  refine (h.add {k}).less ?_
  rw [← add_assoc]
  exact less_single (fun x hx => by
    rcases Multiset.mem_add.1 hx with h | h
    · rw [Multiset.mem_singleton.1 h]; exact hk
    · exact hL x h) A

theorem Under.push {b k : Nat} {A A' : Multiset Nat} (h : Under b A A') (hk : k ≤ b) : Under (b + 1) A ({k} + A') := by
  obtain ⟨L, hL, h⟩ := h
  refine ⟨{k} + L, fun x hx => ?_, ?_⟩
  · rcases Multiset.mem_add.1 hx with h | h
    · rw [Multiset.mem_singleton.1 h]; omega
    · exact Nat.lt_succ_of_lt (hL x h)
  · rw [add_assoc]; exact h.add {k}

theorem atMost_single {k b : Nat} (h : k ≤ b) (A : Multiset Nat) : AtMost ({k} + A) ({b} + A) := by
  rcases Nat.lt_or_eq_of_le h with h | rfl
  · exact Or.inr (less_single (fun x hx => by rw [Multiset.mem_singleton.1 hx]; exact h) A)
  · exact .refl _

variable {rank : EventTy → P → Nat}

theorem burden_cons (e : EventTy) (p : P) (q : List (EventTy × P)) :
    burden rank ((e, p) :: q) = {2 * rank e p} + burden rank q := rfl

theorem burden_snoc (e : EventTy) (p : P) (q : List (EventTy × P)) :
    burden rank (q ++ [(e, p)]) = {2 * rank e p} + burden rank q := by
  unfold burden
  rw [List.map_append, ← Multiset.coe_add, add_comm]
  rfl

end

/-! ## Callbacks -/

section
variable {P W : Type} {M : Machine} {sem : SemR P W} {rank : EventTy → P → Nat} {T : Prop}
  {call : Nat → Op P → Conf P W → Res (Conf P W) Bool} {I : Conf P W → Prop} {K : Op P → Prop}
  {ev : EventTy} {r : Nat}

/-- As `Lower`, with a bound for the rank. -/
def Low (rank : EventTy → P → Nat) (ev : EventTy) (r : Nat) : Op P → Prop
  | .process ev' p' => ev ≠ .none ∧ rank ev' p' < r
  | .set _ _ _ => ev ≠ .none
  | .setDependency _ => True

theorem Prog.Below.low {α : Type} {p : P} (hr : rank ev p ≤ r) : ∀ {pr : Prog P W α}, pr.Below rank ev p →
    pr.Good True (Low rank ev r) := by
  intro pr
  induction pr with
  | ret a p w => intro _; trivial
  | throw x w => intro _; trivial
  | ub => intro _; trivial
  | call op w k ih =>
    intro h
    refine ⟨?_, fun x w => ih x w (h.2 x w)⟩
    cases op with
    | process ev' p' => exact ⟨h.1.1, Nat.lt_of_lt_of_le h.1.2 hr⟩
    | set r p st => exact h.1
    | setDependency d => trivial

/-- `I` says nothing of the user's world and of the record of callbacks. -/
structure Airy (I : Conf P W → Prop) : Prop where
  world : ∀ c w, I c → I { c with world := w }
  calls : ∀ c l, I c → I { c with calls := l }

/-- Calls of kind `K` keep `I`. -/
abbrev Heeds (T : Prop) (K : Op P → Prop) (I : Conf P W → Prop)
    (call : Nat → Op P → Conf P W → Res (Conf P W) Bool) : Prop :=
  ∀ op c, K op → I c → Returns T (fun _ => I) I fun n => call n op c

theorem Heeds.enact (hc : Heeds T K I call) (hI : Airy I) {α : Type} {p : P} (hr : rank ev p ≤ r) :
    ∀ (pr : Prog P W α) (c : Conf P W), pr.Good True K → pr.Below rank ev p → I c →
    Returns T (fun a c => I c ∧ rank ev a.2 ≤ r) I fun n => Machine.enact (call n) pr c := by
  intro pr
  induction pr with
  | ret a p' w => intro c _ hb h; exact .const ⟨hI.world c w h, Nat.le_trans hb hr⟩
  | throw x w => intro c _ _ h; exact .const (hI.world c w h)
  | ub => intro c _ _ h; exact .const trivial
  | call op w k ih =>
    intro c hg hb h
    obtain ⟨N, q, h1, h2⟩ := hc op _ hg.1 (hI.world c w h)
    have h1 : ∀ n, N ≤ n → call n op { c with world := w } = q := h1
    cases q with
    | ok b c' =>
      obtain ⟨N', q', h3, h4⟩ := ih (.ret b) c'.world c' (hg.2 _ _) (hb.2 _ _) h2
      refine ⟨max N N', q', fun n hn => ?_, h4⟩
      show Machine.enact (call n) (.call op w k) c = _
      unfold Machine.enact
      rw [h1 n (by omega)]
      exact h3 n (by omega)
    | throw x c' =>
      obtain ⟨N', q', h3, h4⟩ := ih (.threw x) c'.world c' (hg.2 _ _) (hb.2 _ _) h2
      refine ⟨max N N', q', fun n hn => ?_, h4⟩
      show Machine.enact (call n) (.call op w k) c = _
      unfold Machine.enact
      rw [h1 n (by omega)]
      exact h3 n (by omega)
    | ub u =>
      refine ⟨N, .ub u, fun n hn => ?_, trivial⟩
      show Machine.enact (call n) (.call op w k) c = _
      unfold Machine.enact
      rw [h1 n hn]
    | timeout =>
      refine ⟨N, .timeout, fun n hn => ?_, h2⟩
      show Machine.enact (call n) (.call op w k) c = _
      unfold Machine.enact
      rw [h1 n hn]

theorem Heeds.noted (hc : Heeds T K I call) (hI : Airy I) {α : Type} {p : P} (hr : rank ev p ≤ r)
    {pr : Prog P W α} {note : Option α → Call P} {c : Conf P W} (hg : pr.Good True K)
    (hb : pr.Below rank ev p) (h : I c) :
    Returns T (fun a c => I c ∧ rank ev a.2 ≤ r) I fun n => Machine.enactNoted (call n) pr note c := by
  obtain ⟨N, q, h1, h2⟩ := hc.enact hI hr pr c hg hb h
  have h1 : ∀ n, N ≤ n → Machine.enact (call n) pr c = q := h1
  cases q with
  | ok a c' =>
    refine ⟨N, .ok a { c' with calls := c'.calls ++ [note (some a.1)] }, fun n hn => ?_,
      hI.calls _ _ h2.1, h2.2⟩
    show Machine.enactNoted (call n) pr note c = _
    unfold Machine.enactNoted
    rw [h1 n hn]
  | throw x c' =>
    refine ⟨N, .throw x { c' with calls := c'.calls ++ [note none] }, fun n hn => ?_, hI.calls _ _ h2⟩
    show Machine.enactNoted (call n) pr note c = _
    unfold Machine.enactNoted
    rw [h1 n hn]
  | ub u =>
    refine ⟨N, .ub u, fun n hn => ?_, trivial⟩
    show Machine.enactNoted (call n) pr note c = _
    unfold Machine.enactNoted
    rw [h1 n hn]
  | timeout =>
    refine ⟨N, .timeout, fun n hn => ?_, h2⟩
    show Machine.enactNoted (call n) pr note c = _
    unfold Machine.enactNoted
    rw [h1 n hn]

theorem Heeds.askR (hc : Heeds T K I call) (hI : Airy I) {p : P} (hr : rank ev p ≤ r) (d : Dep) (cd : Cand)
    (t : XRow) (hg : ∀ g, t.guard = some g → ∀ a w, a.event = ev →
      (sem.guard g a p w).Good True K ∧ (sem.guard g a p w).Below rank ev p)
    (l : Name × StTy) {c : Conf P W} (h : I c) :
    Returns T (fun a c => I c ∧ rank ev a.2 ≤ r) I fun n => M.askR sem (call n) ev d cd t l p c := by
  unfold Machine.askR
  cases htg : t.guard with
  | none => exact .const ⟨h, hr⟩
  | some g =>
    dsimp only
    have hg := hg g htg
    generalize (if t.internal = true then cd.src else l.2) = dst
    have hn : ∀ dst note, Returns T (fun a c => I c ∧ rank ev a.2 ≤ r) I fun n =>
        Machine.enactNoted (call n) (sem.guard g ⟨ev, cd.src, dst, false, d⟩ p c.world) note c :=
      fun dst note => hc.noted hI hr (hg ⟨ev, cd.src, dst, false, d⟩ _ rfl).1 (hg ⟨ev, cd.src, dst, false, d⟩ _ rfl).2 h
    split
    · exact hn _ _
    · exact .const (r := .ub .nullObject) trivial

theorem Heeds.performR (hc : Heeds T K I call) (hI : Airy I) {args : Args} : ∀ (cs : List (Phase × Cb)),
    (∀ x ∈ cs, ∀ p w, rank ev p ≤ r →
      (sem.action x.2 args p w).Good True K ∧ (sem.action x.2 args p w).Below rank ev p) → ∀ (p : P)
    (c : Conf P W), rank ev p ≤ r → I c →
    Returns T (fun p c => I c ∧ rank ev p ≤ r) I fun n => Machine.performR sem (call n) args cs p c := by
  intro cs
  induction cs with
  | nil => intro _ p c hr h; exact .const ⟨h, hr⟩
  | cons x cs ih =>
    intro hg p c hr h
    obtain ⟨h1, h2⟩ := hg x List.mem_cons_self p c.world hr
    exact (hc.noted hI hr h1 h2 h).bind fun u c hu =>
      ih (fun y hy => hg y (List.mem_cons_of_mem _ hy)) u.2 c hu.2 hu.1

/-! ## Places -/

/-- The slots and memories hold states of the machine, in machines without regions each composite
remembers one of its own. -/
structure Snug (M : Machine) (c : Conf P W) : Prop where
  len : c.slots.length = M.maxInit
  slots : ∀ l, some l ∈ c.slots → l.2 ∈ M.states
  memory : ∀ q ∈ M.composites, ∀ l ∈ c.memory q, l.2 ∈ M.states ∧ (M.orthogonal = false → l.1 = q)

theorem maxInit_one (h : M.orthogonal = false) : M.maxInit ≤ 1 := by
  rw [← Machine.parallel_eq] at h
  unfold Machine.parallel at h
  have := of_decide_eq_false h
  omega

theorem Snug.set {c : Conf P W} (h : Snug M c) (r : Nat) {l : Name × StTy} (hl : l.2 ∈ M.states) :
    Snug M { c with slots := c.slots.set r (some l) } where
  len := by rw [← h.len]; exact List.length_set
  slots k hk := by
    rcases List.mem_or_eq_of_mem_set hk with h' | h'
    · exact h.slots k h'
    · cases h'; exact hl
  memory := h.memory

theorem Snug.put {c c' : Conf P W} (h : Snug M c) {r : Nat} {l : Name × StTy} {u : Unit}
    (hl : l.2 ∈ M.states) (hp : Machine.put r l c = .ok u c') :
    Snug M c' ∧ c' = { c with slots := c.slots.set r (some l) } := by
  unfold Machine.put at hp
  split at hp
  · cases hp; exact ⟨h.set r hl, rfl⟩
  · cases hp

theorem seek_ok {c c' : Conf P W} {r : Nat} {l : Name × StTy} (h : Machine.seek r c = .ok l c') :
    c' = c ∧ c.slots[r]? = some (some l) := by
  unfold Machine.seek at h
  split at h <;> cases h
  exact ⟨rfl, ‹_›⟩

theorem recount_ok {c c' : Conf P W} {u : Unit} (h : M.recount c = .ok u c') : ∃ k, c' = { c with active := k } := by
  unfold Machine.recount at h
  split at h
  · cases hs : Machine.seek 0 c with
    | ok l c1 =>
      rw [hs] at h
      obtain ⟨rfl, _⟩ := seek_ok hs
      change (if _ then _ else _ : Res (Conf P W) Unit) = _ at h
      split at h <;> cases h
      exact ⟨_, rfl⟩
    | throw x c1 => rw [hs] at h; cases h
    | ub u => rw [hs] at h; cases h
    | timeout => rw [hs] at h; cases h
  · cases h; exact ⟨c.active, rfl⟩

theorem remember_ok {c c' : Conf P W} {r : Nat} {u : Unit} (h : M.remember r c = .ok u c') :
    ∃ l0 l, c.slots[0]? = some (some l0) ∧ c.slots[r]? = some (some l) ∧
      c' = { c with memory := fun q => if q = l0.1 then (c.memory q).set r l else c.memory q } := by
  unfold Machine.remember at h
  cases hs : Machine.seek 0 c with
  | ok l0 c1 =>
    rw [hs] at h
    obtain ⟨rfl, h0⟩ := seek_ok hs
    change ((Machine.seek r c1).bind _) = _ at h
    cases hs' : Machine.seek r c1 with
    | ok l c2 =>
      rw [hs'] at h
      obtain ⟨rfl, h1⟩ := seek_ok hs'
      change (if _ then _ else _ : Res (Conf P W) Unit) = _ at h
      split at h <;> cases h
      exact ⟨l0, l, h0, h1, rfl⟩
    | throw x c1 => rw [hs'] at h; cases h
    | ub u => rw [hs'] at h; cases h
    | timeout => rw [hs'] at h; cases h
  | throw x c1 => rw [hs] at h; cases h
  | ub u => rw [hs] at h; cases h
  | timeout => rw [hs] at h; cases h

theorem Snug.remember {c c' : Conf P W} (h : Snug M c) {r : Nat} {u : Unit} (hr : M.remember r c = .ok u c') :
    Snug M c' ∧ c'.slots = c.slots ∧ c'.waiting = c.waiting := by
  obtain ⟨l0, l, h0, h1, rfl⟩ := remember_ok hr
  refine ⟨⟨h.len, h.slots, fun q hq k hk => ?_⟩, rfl, rfl⟩
  change k ∈ (if q = l0.1 then (c.memory q).set r l else c.memory q) at hk
  split at hk
  · rename_i hql
    rcases List.mem_or_eq_of_mem_set hk with hk | rfl
    · exact h.memory q hq k hk
    · refine ⟨h.slots k (List.mem_of_getElem? h1), fun ho => ?_⟩
      have := (List.getElem?_eq_some_iff.1 h1).1
      have hm := maxInit_one ho
      rw [h.len] at this
      obtain rfl : r = 0 := by omega
      rw [h0] at h1
      cases h1
      exact hql.symm
  · exact h.memory q hq k hk

/-- Where a row takes a region. -/
theorem Snug.travel {c c' : Conf P W} (h : Snug M c) {r : Nat} {t : XRow} {l : Name × StTy} {u : Unit}
    (hm : t ∈ M.flat ++ M.iflat) (hl : M.targetLoc t = some l) (hls : l.2 ∈ M.states) (ht : M.travel r t l c = .ok u c') :
    Snug M c' ∧ c'.waiting = c.waiting ∧
      (t.internal = false → ∃ k, Leads M t k ∧ c'.slots = c.slots.set r (some k)) := by
  unfold Machine.travel at ht
  split at ht
  · rename_i hi
    cases ht
    exact ⟨h, rfl, fun h' => by rw [hi] at h'; cases h'⟩
  · rename_i hni
    have last : ∀ {c1 c2 : Conf P W} {k : Name × StTy}, Snug M c1 → c1.slots = c.slots →
        c1.waiting = c.waiting → k.2 ∈ M.states → Leads M t k →
        ((Machine.put r k c1).bind fun _ c => M.recount c) = .ok u c2 →
        Snug M c2 ∧ c2.waiting = c.waiting ∧
          (t.internal = false → ∃ k, Leads M t k ∧ c2.slots = c.slots.set r (some k)) := by
      intro c1 c2 k h1 hs1 hw1 hk hL he
      cases hp : Machine.put r k c1 with
      | ok u c3 =>
        rw [hp] at he
        obtain ⟨h3, rfl⟩ := h1.put hk hp
        obtain ⟨m, rfl⟩ := recount_ok he
        exact ⟨⟨h3.len, h3.slots, h3.memory⟩, hw1, fun _ => ⟨k, hL, by rw [← hs1]⟩⟩
      | throw x c1 => rw [hp] at he; cases he
      | ub u => rw [hp] at he; cases he
      | timeout => rw [hp] at he; cases he
    have plain : (Machine.toHistory t.target = false) → Leads M t l := by
      intro hn
      unfold Leads
      split
      · rename_i hq; rw [hq] at hn; cases hn
      · exact hl
    split at ht
    · cases hre : M.remember r c with
      | ok v c1 =>
        rw [hre] at ht
        obtain ⟨h1, hs1, hw1⟩ := h.remember hre
        change ((if _ then _ else _ : Res (Conf P W) Unit).bind _) = _ at ht
        split at ht
        · rename_i hh
          cases hrc : M.recall r l.1 c1 with
          | ok k c2 =>
            rw [hrc] at ht
            unfold Machine.recall at hrc
            split at hrc
            · rename_i hq
              split at hrc <;> cases hrc
              rename_i hk
              have hk' := h1.memory _ hq _ (List.mem_of_getElem? hk)
              refine last h1 hs1 hw1 hk'.1 ?_ ht
              unfold Leads
              split
              · rename_i o q hq
                rw [Machine.targetLoc_history hl hq] at hk'
                cases ho : M.orthogonal with
                | true => exact Or.inr rfl
                | false => exact Or.inl (hk'.2 ho)
              · rename_i hne
                unfold Machine.toHistory at hh
                split at hh
                · rename_i hq; exact absurd hq (hne _ _)
                · cases hh
            · cases hrc
          | throw x c1 => rw [hrc] at ht; cases ht
          | ub u => rw [hrc] at ht; cases ht
          | timeout => rw [hrc] at ht; cases ht
        · rename_i hh
          exact last h1 hs1 hw1 hls (plain (by simpa using hh)) ht
      | throw x c1 => rw [hre] at ht; cases ht
      | ub u => rw [hre] at ht; cases ht
      | timeout => rw [hre] at ht; cases ht
    · rename_i hnh
      refine last h rfl rfl hls (plain ?_) ht
      rcases List.mem_append.1 hm with hm | hm
      · cases hh : Machine.toHistory t.target with
        | false => rfl
        | true => exact absurd (Machine.historic_of_mem (by rwa [Machine.extRows_eq]) hh) hnh
      · exact absurd (Machine.iflat_internal hm) hni

/-! ## What calls do -/

/-- What a call leaves in the queue. -/
def Leftover (rank : EventTy → P → Nat) (c c' : Conf P W) : Op P → Prop
  | .process ev p => Under (2 * rank ev p + 1) (burden rank c.waiting) (burden rank c'.waiting)
  | .set _ _ _ => c'.waiting = c.waiting
  | .setDependency _ => c'.waiting = c.waiting ∧ c'.slots = c.slots

/-- Calls below `X` end. -/
def Obeys (T : Prop) (M : Machine) (rank : EventTy → P → Nat) (X : Multiset Nat)
    (call : Nat → Op P → Conf P W → Res (Conf P W) Bool) : Prop :=
  ∀ op c, OpOk M op → Snug M c →
    (∀ ev p, op = .process ev p → Less ({2 * rank ev p + 1} + burden rank c.waiting) X) →
    Returns T (fun _ c' => Snug M c' ∧ Leftover rank c c' op) (fun c' => Snug M c' ∧ Leftover rank c c' op)
      fun n => call n op c

variable {A X : Multiset Nat}

/-- While an event of rank `r` is handled. -/
def Amid (M : Machine) (rank : EventTy → P → Nat) (r : Nat) (A : Multiset Nat) (c : Conf P W) : Prop :=
  Snug M c ∧ Under (2 * r) A (burden rank c.waiting)

theorem Amid.airy : Airy (Amid (W := W) M rank r A) :=
  ⟨fun _ _ h => ⟨⟨h.1.len, h.1.slots, h.1.memory⟩, h.2⟩, fun _ _ h => ⟨⟨h.1.len, h.1.slots, h.1.memory⟩, h.2⟩⟩

theorem Obeys.amid (h : Obeys T M rank X call) (hX : AtMost ({2 * r} + A) X) :
    Heeds T (fun op => OpOk M op ∧ Low rank ev r op) (Amid M rank r A) call := by
  intro op c hop hc
  have key : ∀ c' : Conf P W, Snug M c' ∧ Leftover rank c c' op → Amid M rank r A c' := by
    rintro c' ⟨h1, h2⟩
    refine ⟨h1, ?_⟩
    cases op with
    | process ev' p => exact hc.2.trans (h2.mono (by have := hop.2.2; omega))
    | set r p st => rw [show c'.waiting = c.waiting from h2]; exact hc.2
    | setDependency d => rw [show c'.waiting = c.waiting from h2.1]; exact hc.2
  refine (h op c hop.1 hc.1 ?_).mono (fun _ => key) key
  rintro ev' p rfl
  exact (hc.2.more (by have := hop.2.2; omega)).atMost hX

/-- While anonymous rows are looked for. -/
def Aside (M : Machine) (q : List (EventTy × P)) (σ : List (Option (Name × StTy))) (c : Conf P W) : Prop :=
  Snug M c ∧ c.waiting = q ∧ c.slots = σ

theorem Aside.airy {q : List (EventTy × P)} {σ : List (Option (Name × StTy))} : Airy (Aside (W := W) M q σ) :=
  ⟨fun _ _ h => ⟨⟨h.1.len, h.1.slots, h.1.memory⟩, h.2⟩, fun _ _ h => ⟨⟨h.1.len, h.1.slots, h.1.memory⟩, h.2⟩⟩

theorem Obeys.aside (h : Obeys T M rank X call) (q : List (EventTy × P)) (σ : List (Option (Name × StTy))) :
    Heeds T (Low rank .none r) (Aside M q σ) call := by
  intro op c hop hc
  cases op with
  | process ev p => exact absurd rfl hop.1
  | set r p st => exact absurd rfl hop
  | setDependency d =>
    refine (h (.setDependency d) c trivial hc.1 (fun _ _ h => by cases h)).mono ?_ ?_
    · exact fun _ c' h => ⟨h.1, h.2.1.trans hc.2.1, h.2.2.trans hc.2.2⟩
    · exact fun c' h => ⟨h.1, h.2.1.trans hc.2.1, h.2.2.trans hc.2.2⟩

/-! ## Anonymous rows -/

/-- The ranks of all places. -/
def heft (M : Machine) (ρ : Name × StTy → Nat) (σ : List (Option (Name × StTy))) : Nat :=
  (σ.map fun o => match o with
    | none => 0
    | some l => if l.1 ∈ M.composites ∧ l.2 ∈ M.states then ρ l else 0).sum

theorem heft_le {ρ : Name × StTy → Nat} {B : Nat}
    (hB : ∀ p ∈ M.composites, ∀ st ∈ M.states, ρ (p, st) ≤ B) (σ : List (Option (Name × StTy))) :
    heft M ρ σ ≤ σ.length * B := by
  have := sum_le_mul (B := B) (l := σ.map fun o => match o with
    | none => 0
    | some l => if l.1 ∈ M.composites ∧ l.2 ∈ M.states then ρ l else 0) (by
      intro x hx
      obtain ⟨o, _, rfl⟩ := List.mem_map.1 hx
      cases o with
      | none => exact Nat.zero_le _
      | some l =>
        dsimp only
        split
        · rename_i h; exact hB l.1 h.1 l.2 h.2
        · exact Nat.zero_le _)
  rwa [List.length_map] at this

theorem heft_set {ρ : Name × StTy → Nat} {σ : List (Option (Name × StTy))} {i : Nat} {l k : Name × StTy}
    (h : σ[i]? = some (some l)) (h1 : l.1 ∈ M.composites) (h2 : l.2 ∈ M.states) (hk : ρ k < ρ l) :
    heft M ρ (σ.set i (some k)) < heft M ρ σ := by
  unfold heft
  rw [List.map_set]
  refine sum_set (b := ρ l) ?_ ?_
  · rw [List.getElem?_map, h, Option.map_some]
    dsimp only
    rw [if_pos ⟨h1, h2⟩]
  · dsimp only
    split
    · exact hk
    · omega

theorem row_mem {cd : Cand} {e : EventTy} {p : Name} {st : StTy} {t : XRow} (h : cd ∈ M.cands e p st)
    (ht : cd.row? = some t) : t ∈ M.flat ++ M.iflat := by
  rcases Machine.cand_row h with rfl | ⟨t', ht', _, rfl | rfl⟩
  · cases ht
  · cases ht; exact ht'
  · cases ht; exact ht'

theorem row_event {cd : Cand} {e : EventTy} {p : Name} {st : StTy} {t : XRow} (h : cd ∈ M.cands e p st)
    (ht : cd.row? = some t) : t.event = e := by
  rcases Machine.cand_row h with rfl | ⟨t', _, he, rfl | rfl⟩
  · cases ht
  · cases ht; exact he
  · cases ht; exact he

theorem row_rows {t : XRow} (h : t ∈ M.flat ++ M.iflat) : t ∈ M.extRows ++ M.intRows := by
  rw [Machine.extRows_eq, Machine.intRows_eq]; exact h

/-- It goes well or is undefined. -/
def Res.Blunt {σ α : Type} : Res σ α → Prop
  | .ok _ _ => True
  | .ub _ => True
  | _ => False

theorem Res.Blunt.bind {σ α β : Type} {q : Res σ α} {f : α → σ → Res σ β} (h : q.Blunt)
    (hf : ∀ a s, (f a s).Blunt) : (q.bind f).Blunt := by
  cases q with
  | ok a s => exact hf a s
  | ub u => trivial
  | throw x s => exact h.elim
  | timeout => exact h.elim

theorem seek_blunt (i : Nat) (c : Conf P W) : (Machine.seek i c).Blunt := by
  unfold Machine.seek; split <;> trivial

theorem travel_blunt (i : Nat) (t : XRow) (l : Name × StTy) (c : Conf P W) : (M.travel i t l c).Blunt := by
  have hp : ∀ l (c : Conf P W), (Machine.put i l c).Blunt := by
    intro l c; unfold Machine.put; split <;> trivial
  have hr : ∀ c : Conf P W, (M.recount c).Blunt := by
    intro c
    unfold Machine.recount
    split
    · exact (seek_blunt 0 c).bind fun _ _ => by split <;> trivial
    · trivial
  unfold Machine.travel
  split
  · trivial
  · split
    · refine Res.Blunt.bind ?_ fun _ c => Res.Blunt.bind ?_ fun _ c => hr c
      · unfold Machine.remember
        exact (seek_blunt 0 c).bind fun _ c => (seek_blunt i c).bind fun _ _ => by split <;> trivial
      · split
        · refine Res.Blunt.bind ?_ fun l c => hp l c
          unfold Machine.recall
          split
          · split <;> trivial
          · trivial
        · exact hp _ _
    · exact (hp _ _).bind fun _ c => hr c

theorem travel_returns {c : Conf P W} {i : Nat} {t : XRow} {l : Name × StTy} {Q : Unit → Conf P W → Prop}
    {Y : Conf P W → Prop} (h : ∀ u c', M.travel i t l c = .ok u c' → Q u c') :
    Returns T Q Y fun _ => M.travel i t l c := by
  refine .const ?_
  have hb := travel_blunt (M := M) i t l c
  cases ht : M.travel i t l c with
  | ok u c' => exact h u c' ht
  | ub u => trivial
  | throw x c' => rw [ht] at hb; exact hb.elim
  | timeout => rw [ht] at hb; exact hb.elim

theorem seek_returns {c : Conf P W} {i : Nat} {Q : Name × StTy → Conf P W → Prop}
    {Y : Conf P W → Prop} (h : ∀ l, c.slots[i]? = some (some l) → Q l c) :
    Returns T Q Y fun _ => Machine.seek i c := by
  refine .const ?_
  have hb := seek_blunt i c
  cases hs : Machine.seek i c with
  | ok l c' => obtain ⟨rfl, h'⟩ := seek_ok hs; exact h l h'
  | ub u => trivial
  | throw x c' => rw [hs] at hb; exact hb.elim
  | timeout => rw [hs] at hb; exact hb.elim

variable {ρ : Name × StTy → Nat} {q : List (EventTy × P)}

theorem takeAnon_returns (h : Obeys T M rank X call) (hd : sem.Downward M rank) (hM : M.Regular)
    (hρ : Acyclic M ρ) {i : Nat} {l : Name × StTy}
    (h1 : l.1 ∈ M.composites) (h2 : l.2 ∈ M.states) {d : Dep} {cd : Cand} {t : XRow} {k : Name × StTy}
    (hcd : cd ∈ M.cands .none l.1 l.2) (ht : cd.row? = some t) (hk : M.targetLoc t = some k) {p : P}
    (hr : rank .none p ≤ r) {c : Conf P W} (hc : Snug M c) (hq : c.waiting = q)
    (hl : c.slots[i]? = some (some l)) :
    Returns T (fun p c' => (Snug M c' ∧ c'.waiting = q ∧ heft M ρ c'.slots < heft M ρ c.slots) ∧
        rank .none p ≤ r)
      (fun c' => Snug M c' ∧ c'.waiting = q) fun n => M.takeR sem (call n) i .none d cd t k p c := by
  have hm := row_mem hcd ht
  have hte := row_event hcd ht
  obtain ⟨hi, hlt⟩ := hρ l.1 h1 l.2 h2 cd hcd t ht
  unfold Machine.takeR
  refine Returns.bind (Q := fun _ c' => Snug M c' ∧ c'.waiting = q ∧
    heft M ρ c'.slots < heft M ρ c.slots) (travel_returns fun u c' htr => ?_) ?_
  · obtain ⟨h3, h4, h5⟩ := hc.travel hm hk (hM.targetLoc_state hm hk) htr
    obtain ⟨k', hL, hs⟩ := h5 hi
    refine ⟨h3, h4.trans hq, ?_⟩
    rw [hs]
    exact heft_set hl h1 h2 (hlt k' hL)
  · rintro u c' ⟨h3, h4, h5⟩
    cases hto : M.toRun t with
    | none => exact .const ⟨⟨h3, h4, h5⟩, hr⟩
    | some cs =>
      dsimp only
      split
      · refine ((h.aside (r := r) q c'.slots).performR Aside.airy (ev := .none) cs (fun x hx p w hr => ?_) p c' hr
          ⟨h3, h4, rfl⟩).mono ?_ ?_
        · have hb := hd.action t (row_rows hm) cs hto x hx (cbArgs M cd t k .none d) p w (hte ▸ rfl)
          rw [hte] at hb
          exact ⟨hb.low hr, hb⟩
        · rintro p c2 ⟨⟨h6, h7, h8⟩, h9⟩
          exact ⟨⟨h6, h7, by rw [h8]; exact h5⟩, h9⟩
        · rintro c2 ⟨h6, h7, h8⟩; exact ⟨h6, h7⟩
      · exact .const (r := .ub .nullObject) trivial

theorem attemptAnon_returns (h : Obeys T M rank X call) (hd : sem.Downward M rank) (hM : M.Regular)
    (hρ : Acyclic M ρ) {i : Nat} {l : Name × StTy} (h1 : l.1 ∈ M.composites) (h2 : l.2 ∈ M.states)
    {σ : List (Option (Name × StTy))} (hl : σ[i]? = some (some l)) (k : Nat) :
    ∀ (cs : List (Dep × Cand)) (p : P) (c : Conf P W), (∀ x ∈ cs, x.2 ∈ M.cands .none l.1 l.2) →
    rank .none p ≤ r → Aside M q σ c →
    Returns T (fun a c' => (Snug M c' ∧ c'.waiting = q ∧ heft M ρ c'.slots ≤ heft M ρ σ ∧
        (a.1 = .fired → heft M ρ c'.slots < heft M ρ σ)) ∧ rank .none a.2 ≤ r)
      (fun c' => Snug M c' ∧ c'.waiting = q) fun n => M.attemptR sem (call n) true i .none k cs p c := by
  intro cs
  induction cs with
  | nil =>
    rintro p c _ hr ⟨h3, h4, h5⟩
    exact .const ⟨⟨h3, h4, by rw [h5], fun h => by cases h⟩, hr⟩
  | cons x cs ih =>
    obtain ⟨d, cd⟩ := x
    intro p c hcs hr hc
    unfold Machine.attemptR
    cases hrow : cd.row? with
    | none => exact .const (r := .ub .nullTransition) trivial
    | some t =>
      dsimp only
      cases hk : M.targetLoc t with
      | none => exact .const (r := .ub .nullTransition) trivial
      | some k' =>
        dsimp only
        have hcd : cd ∈ M.cands .none l.1 l.2 := hcs (d, cd) List.mem_cons_self
        refine Returns.bind (((h.aside (r := r) q σ).askR Aside.airy hr d cd t (fun g hgt a w ha => by
          have hte := row_event hcd hrow
          have hb := hd.guard t (row_rows (row_mem hcd hrow)) g hgt a p w (ha.trans hte.symm)
          rw [hte] at hb
          exact ⟨hb.low hr, hb⟩) k' hc).mono
          (fun _ _ h => h) (fun c' h => ⟨h.1, h.2.1⟩)) ?_
        rintro ⟨b, p'⟩ c' ⟨hc', hr'⟩
        cases b with
        | true =>
          refine Returns.bind (takeAnon_returns h hd hM hρ h1 h2 hcd hrow hk hr' hc'.1 hc'.2.1
            (by rw [hc'.2.2]; exact hl)) ?_
          rintro p2 c2 ⟨⟨h6, h7, h8⟩, h9⟩
          rw [hc'.2.2] at h8
          exact .const ⟨⟨h6, h7, Nat.le_of_lt h8, fun _ => h8⟩, h9⟩
        | false =>
          dsimp only
          by_cases hkk : c'.deps.length = k
          · refine (ih p' c' (fun x hx => hcs x (List.mem_cons_of_mem _ hx)) hr' hc').congr fun n => ?_
            rw [if_neg (by simp), if_pos hkk]
          · refine (Returns.const (r := .ub .iterator) trivial).congr fun n => ?_
            rw [if_neg (by simp), if_neg hkk]

theorem round_returns (h : Obeys T M rank X call) (hd : sem.Downward M rank) (hM : M.Regular)
    (hρ : Acyclic M ρ) {m : Nat} : ∀ (rs : List Nat) (os : List RegionOut) (p : P) (c : Conf P W), 
    rank .none p ≤ r → Snug M c → c.waiting = q → heft M ρ c.slots ≤ m →
    (.fired ∈ os → heft M ρ c.slots < m) →
    Returns T (fun a c' => (Snug M c' ∧ c'.waiting = q ∧ (a.1 = true → heft M ρ c'.slots < m)) ∧
        rank .none a.2 ≤ r)
      (fun c' => Snug M c' ∧ c'.waiting = q) fun n => M.roundR sem (call n) rs os p c := by
  intro rs
  induction rs with
  | nil =>
    intro os p c hr hc hq h1 h2
    exact .const ⟨⟨hc, hq, fun h => h2 (of_decide_eq_true h)⟩, hr⟩
  | cons i rs ih =>
    intro os p c hr hc hq h1 h2
    unfold Machine.roundR
    have hv : Returns T (fun a c' => (Snug M c' ∧ c'.waiting = q ∧ heft M ρ c'.slots ≤ heft M ρ c.slots ∧
        (a.1 = .fired → heft M ρ c'.slots < heft M ρ c.slots)) ∧ rank .none a.2 ≤ r)
        (fun c' => Snug M c' ∧ c'.waiting = q) fun n => M.visitR sem (call n) true i .none p c := by
      unfold Machine.visitR
      refine Returns.bind (seek_returns (Q := fun l c' => c' = c ∧ c.slots[i]? = some (some l))
        fun l hl => ⟨rfl, hl⟩) ?_
      rintro l c' ⟨rfl, hl⟩
      by_cases h3 : l.1 ∈ M.composites
      · simp only [if_pos h3]
        by_cases h4 : M.cands .none l.1 l.2 = []
        · simp only [if_pos h4]
          exact .const ⟨⟨hc, hq, Nat.le_refl _, fun h => by cases h⟩, hr⟩
        · simp only [if_neg h4]
          refine attemptAnon_returns h hd hM hρ h3 (hc.slots l (List.mem_of_getElem? hl)) hl _ _ p c' ?_ hr
            ⟨hc, hq, rfl⟩
          intro x hx
          obtain ⟨d, _, hx⟩ := List.mem_flatMap.1 hx
          obtain ⟨cd, hcd, rfl⟩ := List.mem_map.1 hx
          exact hcd
      · simp only [if_neg h3]
        exact .const trivial
    refine hv.bind ?_
    rintro ⟨o, p'⟩ c' ⟨⟨h3, h4, h5, h6⟩, h7⟩
    dsimp only
    by_cases ho : o = .none
    · simp only [if_pos ho]
      exact .const ⟨⟨h3, h4, fun h => by cases h⟩, h7⟩
    · simp only [if_neg ho]
      refine ih _ p' c' h7 h3 h4 (Nat.le_trans h5 h1) fun hf => ?_
      rcases List.mem_append.1 hf with hf | hf
      · exact Nat.lt_of_le_of_lt h5 (h2 hf)
      · exact Nat.lt_of_lt_of_le (h6 (List.mem_singleton.1 hf).symm) h1

theorem settle_returns (h : Obeys T M rank X call) (hd : sem.Downward M rank) (hM : M.Regular)
    (hρ : Acyclic M ρ) : ∀ (fuel : Nat) (p : P) (c : Conf P W), rank .none p ≤ r → Snug M c → c.waiting = q →
    (T ∨ heft M ρ c.slots < fuel) →
    Returns T (fun _ c' => Snug M c' ∧ c'.waiting = q) (fun c' => Snug M c' ∧ c'.waiting = q)
      fun n => M.settleR sem (call n) fuel p c := by
  intro fuel
  induction fuel with
  | zero =>
    intro p c hr hc hq hf
    rcases hf with hT | hf
    · exact .const hT
    · omega
  | succ fuel ih =>
    intro p c hr hc hq hf
    unfold Machine.settleR
    refine (round_returns h hd hM hρ (M.taking c) [] p c hr hc hq (Nat.le_refl _) (by simp)).bind ?_
    rintro ⟨b, p'⟩ c' ⟨⟨h3, h4, h5⟩, h6⟩
    dsimp only
    cases b with
    | true =>
      refine (ih p' c' h6 h3 h4 ?_).congr fun n => if_pos rfl
      exact hf.imp id fun hf => by have := h5 rfl; omega
    | false =>
      refine (Returns.const (r := .ok () c') ?_).congr fun n => if_neg (by simp)
      exact ⟨h3, h4⟩

/-! ## Events -/

variable {S : Prop}

/-- What a region, or all of them, leave of the queue: `b` if the event was put back. -/
structure Rests (M : Machine) (rank : EventTy → P → Nat) (r : Nat) (A : Multiset Nat) (S : Prop)
    (q : List (EventTy × P)) (b : Prop) (c : Conf P W) : Prop where
  snug : Snug M c
  put : b → Under (2 * r + 1) A (burden rank c.waiting)
  back : b → S → AtMost (burden rank c.waiting) ({2 * r} + burden rank q)
  gone : ¬ b → Under (2 * r) A (burden rank c.waiting)

/-- What is known of the callbacks. -/
structure Tame (M : Machine) (sem : SemR P W) (rank : EventTy → P → Nat) : Prop where
  down : sem.Downward M rank
  good : sem.Good True (OpOk M)

theorem take_returns (h : Obeys T M rank X call) (ht : Tame M sem rank) (hM : M.Regular)
    (hX : AtMost ({2 * r} + A) X) {i : Nat} {d : Dep} {cd : Cand} {t : XRow} {k : Name × StTy}
    (hm : t ∈ M.flat ++ M.iflat) (hte : t.event = ev) (hk : M.targetLoc t = some k) {p : P}
    (hr : rank ev p ≤ r) {c : Conf P W} (hc : Amid M rank r A c) :
    Returns T (fun p c' => Amid M rank r A c' ∧ rank ev p ≤ r) (Amid M rank r A)
      fun n => M.takeR sem (call n) i ev d cd t k p c := by
  unfold Machine.takeR
  refine Returns.bind (Q := fun _ => Amid M rank r A) (travel_returns fun u c' htr => ?_) ?_
  · obtain ⟨h3, h4, _⟩ := hc.1.travel hm hk (hM.targetLoc_state hm hk) htr
    exact ⟨h3, by rw [h4]; exact hc.2⟩
  · intro u c' hc'
    cases hto : M.toRun t with
    | none => exact .const ⟨hc', hr⟩
    | some cs =>
      dsimp only
      split
      · refine (h.amid (ev := ev) hX).performR Amid.airy cs (fun x hx p w hr => ?_) p c' hr hc'
        have hb := ht.down.action t (row_rows hm) cs hto x hx (cbArgs M cd t k ev d) p w (hte ▸ rfl)
        rw [hte] at hb
        exact ⟨(ht.good.action x.2 (cbArgs M cd t k ev d) p w).and (hb.low hr), hb⟩
      · exact .const (r := .ub .nullObject) trivial

theorem attempt_returns (h : Obeys T M rank X call) (ht : Tame M sem rank) (hM : M.Regular)
    (hX : AtMost ({2 * r} + A) X) {i : Nat} {l : Name × StTy} (k : Nat) :
    ∀ (cs : List (Dep × Cand)) (p : P) (c : Conf P W),
    (∀ x ∈ cs, x.2 ∈ M.cands ev l.1 l.2 ∧ x.2.row? ≠ none) →
    rank ev p ≤ r → Amid M rank r A c →
    Returns T (fun a c' => (a.1 ≠ .deferred ∧ Amid M rank r A c') ∧ rank ev a.2 ≤ r)
      (Amid M rank r A) fun n => M.attemptR sem (call n) false i ev k cs p c := by
  intro cs
  induction cs with
  | nil =>
    intro p c _ hr hc
    exact .const ⟨⟨fun h => (by cases h), hc⟩, hr⟩
  | cons x cs ih =>
    obtain ⟨d, cd⟩ := x
    intro p c hcs hr hc
    obtain ⟨hcd, hne⟩ := hcs (d, cd) List.mem_cons_self
    unfold Machine.attemptR
    cases hrow : cd.row? with
    | none => exact absurd hrow hne
    | some t =>
      dsimp only
      cases hk : M.targetLoc t with
      | none => exact .const (r := .ub .nullTransition) trivial
      | some k' =>
        dsimp only
        have hte := row_event hcd hrow
        refine Returns.bind ((h.amid (ev := ev) hX).askR Amid.airy hr d cd t (fun g hgt a w ha => by
          have hb := ht.down.guard t (row_rows (row_mem hcd hrow)) g hgt a p w (ha.trans hte.symm)
          rw [hte] at hb
          exact ⟨(ht.good.guard g a p w).and (hb.low hr), hb⟩) k' hc) ?_
        rintro ⟨b, p'⟩ c' ⟨hc', hr'⟩
        cases b with
        | true =>
          refine Returns.bind (take_returns h ht hM hX (row_mem hcd hrow) hte hk hr' hc') ?_
          rintro p2 c2 ⟨hc2, h9⟩
          exact .const ⟨⟨fun h => (by cases h), hc2⟩, h9⟩
        | false =>
          dsimp only
          by_cases hkk : c'.deps.length = k
          · refine (ih p' c' (fun x hx => hcs x (List.mem_cons_of_mem _ hx)) hr' hc').congr fun n => ?_
            rw [if_neg (by simp), if_pos hkk]
          · refine (Returns.const (r := .ub .iterator) trivial).congr fun n => ?_
            rw [if_neg (by simp), if_neg hkk]

/-- Deferral comes first or not at all. -/
theorem cands_rows {cd : Cand} {cs : List Cand} {p : Name} {st : StTy} (h : M.cands ev p st = cd :: cs)
    (hne : cd.row? ≠ none) : ∀ x ∈ M.cands ev p st, x.row? ≠ none := by
  intro x hx
  unfold Machine.cands at h hx
  cases hn : (M.extRows.map (M.deferCount ev p st)).sum with
  | succ n =>
    rw [hn, List.replicate_succ, List.cons_append, List.cons_append] at h
    cases h
    exact absurd rfl hne
  | zero =>
    rw [hn, List.replicate_zero, List.nil_append] at hx
    rcases List.mem_append.1 hx with hx | hx
    · obtain ⟨t, _, hx⟩ := List.mem_flatMap.1 hx
      rcases List.mem_append.1 hx with hx | hx <;> split at hx <;> simp at hx <;> subst hx <;>
        exact fun h => by cases h
    · obtain ⟨t, _, hx⟩ := List.mem_flatMap.1 hx
      unfold Machine.intCands at hx
      split at hx <;> simp at hx
      subst hx
      exact fun h => by cases h

theorem visit_returns (h : Obeys T M rank X call) (ht : Tame M sem rank) (hM : M.Regular)
    (hX : AtMost ({2 * r} + A) X) {i : Nat} {p : P} {c : Conf P W} (hr : rank ev p ≤ r)
    (hc : Amid M rank r A c) :
    Returns T (fun a c' => Rests M rank r A True c.waiting (a.1 = .deferred) c' ∧ rank ev a.2 ≤ r)
      (Amid M rank r A) fun n => M.visitR sem (call n) false i ev p c := by
  unfold Machine.visitR
  refine Returns.bind (seek_returns (Q := fun l c' => c' = c) fun l hl => rfl) ?_
  rintro l c' rfl
  by_cases h3 : l.1 ∈ M.composites
  · simp only [if_pos h3]
    have hno : ∀ (c2 : Conf P W) {a : RegionOut}, Amid M rank r A c2 → a ≠ .deferred →
        Rests M rank r A True c'.waiting (a = .deferred) c2 := fun c2 a h hn =>
      ⟨h.1, fun h => absurd h hn, fun h => absurd h hn, fun _ => h.2⟩
    cases h4 : M.cands ev l.1 l.2 with
    | nil =>
      simp only [if_pos]
      exact .const ⟨hno (a := .none) _ hc (fun h => by cases h), hr⟩
    | cons cd cds =>
      simp only [if_neg (List.cons_ne_nil cd cds)]
      by_cases hrow : cd.row? = none
      · cases hdeps : c'.deps with
        | nil => exact .const ⟨hno (a := .rejected) _ hc (fun h => by cases h), hr⟩
        | cons d ds =>
          rw [List.flatMap_cons, List.map_cons, List.cons_append]
          unfold Machine.attemptR
          rw [hrow]
          refine .const ⟨⟨⟨hc.1.len, hc.1.slots, hc.1.memory⟩, fun _ => ?_, fun _ hs => ?_,
            fun h => absurd rfl h⟩, hr⟩
          · show Under _ _ (burden rank (c'.waiting ++ [(ev, p)]))
            rw [burden_snoc]; exact hc.2.push (by omega)
          · show AtMost (burden rank (c'.waiting ++ [(ev, p)])) _
            rw [burden_snoc]; exact atMost_single (by omega) _
      · refine (attempt_returns h ht hM hX (l := l) _ _ p c' ?_ hr hc).mono
          (fun a c2 h => ⟨hno c2 h.1.2 h.1.1, h.2⟩) (fun _ h => h)
        intro x hx
        obtain ⟨d, _, hx⟩ := List.mem_flatMap.1 hx
        obtain ⟨cd', hcd, rfl⟩ := List.mem_map.1 hx
        rw [← h4] at hcd
        exact ⟨hcd, cands_rows h4 hrow cd' hcd⟩
  · simp only [if_neg h3]
    exact .const trivial

theorem sweep_returns (h : Obeys T M rank X call) (ht : Tame M sem rank) (hM : M.Regular)
    (hX : AtMost ({2 * r} + A) X) : ∀ (rs : List Nat) (os : List RegionOut) (p : P) (c : Conf P W),
    rank ev p ≤ r → Amid M rank r A c → (S → rs = [] ∨ rs.length = 1 ∧ c.waiting = q) → .deferred ∉ os →
    Returns T (fun a c' => Rests M rank r A S q (.deferred ∈ a.1) c' ∧ rank ev a.2 ≤ r)
      (Amid M rank r A) fun n => M.sweepR sem (call n) ev rs os p c := by
  intro rs
  induction rs with
  | nil =>
    intro os p c hr hc _ ho
    exact .const ⟨⟨hc.1, fun h => absurd h ho, fun h => absurd h ho, fun _ => hc.2⟩, hr⟩
  | cons i rs ih =>
    intro os p c hr hc hS ho
    unfold Machine.sweepR
    refine (visit_returns h ht hM hX hr hc).bind ?_
    rintro ⟨o, p'⟩ c' ⟨h3, h7⟩
    dsimp only
    by_cases hd : o = .deferred
    · simp only [if_pos hd]
      refine .const ⟨⟨h3.snug, fun _ => h3.put hd, fun _ hs => ?_, fun h => absurd ?_ h⟩, h7⟩
      · have := h3.back hd trivial
        rwa [((hS hs).resolve_left (by simp)).2] at this
      · exact List.mem_append_right _ (List.mem_singleton.2 rfl)
    · simp only [if_neg hd]
      refine ih _ p' c' h7 ⟨h3.snug, h3.gone hd⟩ (fun hs => Or.inl ?_) fun hf => ?_
      · have := ((hS hs).resolve_left (by simp)).1
        exact List.length_eq_zero_iff.1 (by simpa using this)
      · rcases List.mem_append.1 hf with hf | hf
        · exact ho hf
        · exact hd (List.mem_singleton.1 hf).symm

variable {B fuel : Nat}

theorem handle_returns (h : Obeys T M rank X call) (ht : Tame M sem rank) (hM : M.Regular)
    (hρ : Acyclic M ρ) (hB : ∀ p ∈ M.composites, ∀ st ∈ M.states, ρ (p, st) ≤ B)
    (hf : T ∨ M.maxInit * B < fuel) (hS : S → M.orthogonal = false) {p : P} {c : Conf P W}
    (hr : rank ev p ≤ r) (hX : AtMost ({2 * r} + burden rank c.waiting) X) (hc : Snug M c) :
    Returns T (fun a c' => Rests M rank r (burden rank c.waiting) S c.waiting (.deferred ∈ a.1) c' ∧
        rank ev a.2 ≤ r)
      (Amid M rank r (burden rank c.waiting)) fun n => M.handleR sem (call n) fuel ev p c := by
  unfold Machine.handleR
  refine (sweep_returns (S := S) (q := c.waiting) h ht hM hX (M.taking c) [] p c hr ⟨hc, .refl _ _⟩ (fun hs => Or.inr ?_)
    (by simp)).bind ?_
  · unfold Machine.taking
    rw [hS hs]
    exact ⟨rfl, rfl⟩
  · rintro a c' ⟨h3, h7⟩
    by_cases hcond : .deferred ∉ a.1 ∧ .fired ∈ a.1 ∧ M.anonymous
    · simp only [if_pos hcond]
      have hfu : T ∨ heft M ρ c'.slots < fuel := by
        refine hf.imp id fun hf => Nat.lt_of_le_of_lt (heft_le hB c'.slots) ?_
        rw [h3.snug.len]; exact hf
      have hw := h3.gone hcond.1
      refine Returns.bind ((settle_returns (q := c'.waiting) (r := rank .none sem.nonePayload) h ht.down hM hρ fuel
        sem.nonePayload c' (Nat.le_refl _) h3.snug rfl hfu).mono (fun _ _ h => h) (fun c2 h => ?_)) ?_
      · exact ⟨h.1, by rw [h.2]; exact hw⟩
      · rintro u c2 ⟨h4, h5⟩
        refine .const ⟨⟨h4, fun h => absurd h hcond.1, fun h => absurd h hcond.1, fun _ => ?_⟩, h7⟩
        rw [h5]; exact hw
    · simp only [if_neg hcond]
      exact .const ⟨h3, h7⟩

theorem complain_returns (h : Obeys T M rank X call) (ht : Tame M sem rank) (hev : ev ∈ M.events)
    (hX : AtMost ({2 * r} + A) X) {p : P} {c : Conf P W} (hr : rank ev p ≤ r) (hc : Amid M rank r A c) :
    Returns T (fun _ => Amid M rank r A) (Amid M rank r A) fun n => M.complainR sem (call n) ev p c := by
  unfold Machine.complainR
  cases hhd : (M.decl M.root).handler with
  | none => exact .const hc
  | some hd =>
    have hb := ht.down.handler hd hhd ev hev
    refine Returns.bind (seek_returns (Q := fun l c' => c' = c) fun l hl => rfl) ?_
    rintro l c' rfl
    by_cases h3 : l.1 ∈ M.composites
    · simp only [if_pos h3]
      by_cases h4 : M.presentR sem l.2 c' = true
      · simp only [if_pos h4]
        refine Returns.bind ((h.amid (ev := ev) hX).noted Amid.airy hr
          ((ht.good.handler hd ev l.2 c'.first p c'.world).and
            ((hb l.2 c'.first p c'.world).low hr))
          (hb l.2 c'.first p c'.world) hc) ?_
        intro u c2 hu
        exact .const hu.1
      · simp only [if_neg h4]
        exact .const (r := .ub .nullObject) trivial
    · simp only [if_neg h3]
      exact .const hc

theorem replay_returns (h : Obeys T M rank X call) (ht : Tame M sem rank) (hM : M.Regular)
    (hρ : Acyclic M ρ) (hB : ∀ p ∈ M.composites, ∀ st ∈ M.states, ρ (p, st) ≤ B)
    (hf : T ∨ M.maxInit * B < fuel) (hS : S → M.orthogonal = false) (hD : M.deferring = true → S)
    {c : Conf P W} (hX : AtMost (burden rank c.waiting) X) (hc : Snug M c) :
    Returns T (fun _ c' => Snug M c' ∧ AtMost (burden rank c'.waiting) (burden rank c.waiting))
      (fun c' => Snug M c' ∧ AtMost (burden rank c'.waiting) (burden rank c.waiting))
      fun n => M.replayR sem (call n) fuel c := by
  unfold Machine.replayR
  cases hw : c.waiting with
  | nil => exact .const ⟨hc, by rw [hw]; exact .refl _⟩
  | cons x qs =>
    obtain ⟨ev, p⟩ := x
    dsimp only
    by_cases hde : M.deferring = true
    · simp only [if_pos hde]
      rw [hw] at hX
      refine Returns.bind ((handle_returns (S := S) (r := rank ev p) (ev := ev) (p := p) (c := { c with waiting := qs })
        h ht hM hρ hB hf hS (Nat.le_refl _) hX ⟨hc.len, hc.slots, hc.memory⟩).mono (fun _ _ h => h)
        (fun c' h => ⟨h.1, Or.inr h.2.single⟩)) ?_
      rintro a c' ⟨h1, _⟩
      refine .const ⟨h1.snug, ?_⟩
      by_cases hb : .deferred ∈ a.1
      · exact h1.back hb (hD hde)
      · exact Or.inr (h1.gone hb).single
    · simp only [if_neg hde]
      exact .const ⟨hc, by rw [hw]; exact .refl _⟩

theorem Under.below {b : Nat} {A A' A'' : Multiset Nat} (h : Under b A A') (h' : AtMost A'' A') : Under b A A'' := by
  obtain ⟨L, hL, h⟩ := h
  exact ⟨L, hL, h'.trans h⟩

theorem receive_returns {p : P} {c : Conf P W} (hev : ev ∈ M.events)
    (h : Obeys T M rank ({2 * rank ev p + 1} + burden rank c.waiting) call) (ht : Tame M sem rank) (hM : M.Regular)
    (hρ : Acyclic M ρ) (hB : ∀ p ∈ M.composites, ∀ st ∈ M.states, ρ (p, st) ≤ B)
    (hf : T ∨ M.maxInit * B < fuel) (hS : S → M.orthogonal = false) (hD : M.deferring = true → S)
    (hc : Snug M c) :
    Returns T (fun _ c' => Snug M c' ∧ Leftover rank c c' (.process ev p))
      (fun c' => Snug M c' ∧ Leftover rank c c' (.process ev p))
      fun n => M.receiveR sem (call n) fuel ev p c := by
  have hX : AtMost ({2 * rank ev p} + burden rank c.waiting) ({2 * rank ev p + 1} + burden rank c.waiting) :=
    atMost_single (by omega) _
  have am : ∀ c', Amid M rank (rank ev p) (burden rank c.waiting) c' →
      Snug M c' ∧ Leftover rank c c' (.process ev p) :=
    fun c' h => ⟨h.1, h.2.mono (by omega)⟩
  unfold Machine.receiveR
  refine ((handle_returns (S := S) (r := rank ev p) h ht hM hρ hB hf hS (Nat.le_refl _) hX hc).mono (fun _ _ h => h) am).bind ?_
  rintro a c1 ⟨h1, h2⟩
  by_cases hde : .deferred ∈ a.1
  · simp only [if_pos hde]
    exact .const ⟨h1.snug, h1.put hde⟩
  · simp only [if_neg hde]
    have hg := h1.gone hde
    have hg' := hg.mono (b' := 2 * rank ev p + 1) (by omega)
    by_cases hfi : .fired ∈ a.1
    · simp only [if_pos hfi]
      refine Returns.bind ((replay_returns (S := S) h ht hM hρ hB hf hS hD (Or.inr (hg.single.atMost hX)) h1.snug).mono
        (fun _ _ h => h) fun c' h => ⟨h.1, hg'.below h.2⟩) ?_
      intro u c2 h
      exact .const ⟨h.1, hg'.below h.2⟩
    · simp only [if_neg hfi]
      by_cases hre : .rejected ∈ a.1
      · simp only [if_pos hre]
        exact .const ⟨h1.snug, hg'⟩
      · simp only [if_neg hre]
        refine Returns.bind ((complain_returns h ht hev hX h2 ⟨h1.snug, hg⟩).mono (fun _ _ h => h) am) ?_
        intro u c2 h
        exact .const (am c2 h)

/-! ## Calls -/

theorem Returns.later {σ α : Type} {Q : α → σ → Prop} {Y : σ → Prop} {F G : Nat → Res σ α}
    (h : Returns T Q Y F) (hg : ∀ n, G (n + 1) = F n) : Returns T Q Y G := by
  obtain ⟨N, q, h1, h2⟩ := h
  refine ⟨N + 1, q, fun n hn => ?_, h2⟩
  obtain ⟨m, rfl⟩ : ∃ m, n = m + 1 := ⟨n - 1, by omega⟩
  rw [hg]; exact h1 m (by omega)

theorem exec_easy {c : Conf P W} {op : Op P} (hM : M.Regular) (hop : OpOk M op) (hc : Snug M c)
    (hne : ∀ ev p, op ≠ .process ev p) (n : Nat) :
    ∃ r, (∀ m, M.execR sem fuel (m + 1) op c = r) ∧
      (M.execR sem fuel (n + 1) op c).Ended T (fun _ c' => Snug M c' ∧ Leftover rank c c' op)
      (fun c' => Snug M c' ∧ Leftover rank c c' op) := by
  refine ⟨M.execR sem fuel (n + 1) op c, fun m => ?_, ?_⟩
  · cases op with
    | process ev p => exact absurd rfl (hne ev p)
    | set r p st => rfl
    | setDependency d => rfl
  · cases op with
    | process ev p => exact absurd rfl (hne ev p)
    | set r p st =>
      unfold Machine.execR
      dsimp only
      split
      · exact ⟨hc.set _ (by rw [Machine.states_eq]; exact hop.2), rfl⟩
      · exact ⟨hc, rfl⟩
    | setDependency d => exact ⟨⟨hc.len, hc.slots, hc.memory⟩, rfl, rfl⟩

theorem exec_ends (ht : Tame M sem rank) (hM : M.Regular)
    (hρ : Acyclic M ρ) (hB : ∀ p ∈ M.composites, ∀ st ∈ M.states, ρ (p, st) ≤ B)
    (hf : M.maxInit * B < fuel) (hS : S → M.orthogonal = false) (hD : M.deferring = true → S) :
    ∀ X, Obeys False M rank X fun n => M.execR sem fuel n := by
  intro X
  induction X using (Multiset.wellFounded_isDershowitzMannaLT (α := Nat)).induction with
  | _ X ih =>
    intro op c hop hc hlt
    by_cases hpr : ∃ ev p, op = .process ev p
    · obtain ⟨ev, p, rfl⟩ := hpr
      exact (receive_returns (S := S) (by rw [Machine.events_eq]; exact hop) (ih _ (hlt ev p rfl)) ht hM hρ hB (Or.inr hf) hS hD hc).later fun n => rfl
    · obtain ⟨r, h1, h2⟩ := exec_easy (sem := sem) (rank := rank) (fuel := fuel) (T := False) hM hop hc
        (fun ev p h => hpr ⟨ev, p, h⟩) 0
      rw [h1] at h2
      exact (Returns.const h2).later h1

theorem exec_snug (ht : Tame M sem rank) (hM : M.Regular)
    (hρ : Acyclic M ρ) (hB : ∀ p ∈ M.composites, ∀ st ∈ M.states, ρ (p, st) ≤ B)
    (hS : S → M.orthogonal = false) (hD : M.deferring = true → S) (n : Nat) :
    ∀ X, Obeys True M rank X fun _ => M.execR sem fuel n := by
  induction n with
  | zero => intro X op c _ _ _; exact .const trivial
  | succ n ih =>
    intro X op c hop hc hlt
    by_cases hpr : ∃ ev p, op = .process ev p
    · obtain ⟨ev, p, rfl⟩ := hpr
      exact receive_returns (S := S) (by rw [Machine.events_eq]; exact hop) (ih _) ht hM hρ hB (Or.inl trivial) hS hD hc
    · obtain ⟨r, _, h2⟩ := exec_easy (sem := sem) (rank := rank) (fuel := fuel) (T := True) hM hop hc
        (fun ev p h => hpr ⟨ev, p, h⟩) n
      exact .const h2

/-! ## The bounds are no part of the program -/

/-- The same outcome, or the first ran out of fuel. -/
def Res.UpTo {σ α : Type} (q q' : Res σ α) : Prop := q = .timeout ∨ q = q'

theorem Res.UpTo.refl {σ α : Type} (q : Res σ α) : q.UpTo q := Or.inr rfl

theorem Res.UpTo.bind {σ α β : Type} {q q' : Res σ α} {f f' : α → σ → Res σ β} (h : q.UpTo q')
    (hf : ∀ a s, (f a s).UpTo (f' a s)) : (q.bind f).UpTo (q'.bind f') := by
  rcases h with rfl | rfl
  · exact Or.inl rfl
  · cases q with
    | ok a s => exact hf a s
    | throw x s => exact .refl _
    | ub u => exact .refl _
    | timeout => exact .refl _

section
variable {on on' : Op P → SM P W → Res (SM P W) Bool} (hon : ∀ op s, (on op s).UpTo (on' op s))
include hon

theorem runProg_upTo {α : Type} (pr : Prog P W α) : ∀ s, (runProg on pr s).UpTo (runProg on' pr s) := by
  induction pr with
  | ret a p w => intro s; exact .refl _
  | throw x w => intro s; exact .refl _
  | ub => intro s; exact .refl _
  | call op w k ih =>
    intro s
    unfold runProg
    rcases hon op { s with world := w } with h | h
    · rw [h]; exact Or.inl rfl
    · rw [← h]
      cases on op { s with world := w } with
      | ok b s' => exact ih _ _ _
      | throw x s' => exact ih _ _ _
      | ub u => exact .refl _
      | timeout => exact .refl _

theorem runCb_upTo {α : Type} (pr : Prog P W α) (note : Option α → Call P) (s : SM P W) :
    (runCb on pr note s).UpTo (runCb on' pr note s) := by
  unfold runCb
  rcases runProg_upTo hon pr s with h | h
  · rw [h]; exact Or.inl rfl
  · rw [← h]; exact .refl _

theorem execGuardR_upTo (x : Exec) (ev : EventTy) (p : P) (s : SM P W) :
    (execGuardR M sem on x ev p s).UpTo (execGuardR M sem on' x ev p s) := by
  unfold execGuardR
  split
  · exact .refl _
  · dsimp only
    generalize (if x.internal = true then x.src else x.dst) = dst
    split
    · exact runCb_upTo hon _ _ _
    · exact .refl _

theorem runCbsR_upTo (args : Args) : ∀ (cs : List (Phase × Cb)) (p : P) (s : SM P W),
    (runCbsR sem on args cs p s).UpTo (runCbsR sem on' args cs p s) := by
  intro cs
  induction cs with
  | nil => intro p s; exact .refl _
  | cons x cs ih => intro p s; exact (runCb_upTo hon _ _ _).bind fun _ _ => ih _ _

theorem fireR_upTo (i : Nat) (ev : EventTy) (e : Entry) (x : Exec) (p : P) (s : SM P W) :
    (fireR M sem on i ev e x p s).UpTo (fireR M sem on' i ev e x p s) := by
  unfold fireR
  refine (Res.UpTo.refl _).bind fun _ s => ?_
  unfold execActionR
  split
  · exact .refl _
  · split
    · exact runCbsR_upTo hon _ _ _ _
    · exact .refl _

theorem tryEntriesR_upTo (i : Nat) (ev : EventTy) (k n : Nat) : ∀ (es : List Entry) (p : P) (s : SM P W),
    (tryEntriesR M sem on i ev k n es p s).UpTo (tryEntriesR M sem on' i ev k n es p s) := by
  intro es
  induction es with
  | nil => intro p s; exact .refl _
  | cons e es ih =>
    intro p s
    unfold tryEntriesR
    split
    · exact .refl _
    · split
      · exact .refl _
      · refine (execGuardR_upTo hon _ _ _ _).bind fun gp s => ?_
        split
        · exact (fireR_upTo hon _ _ _ _ _ _).bind fun _ _ => .refl _
        · split
          · exact ih _ _
          · exact .refl _

theorem tryAnonR_upTo (i : Nat) (k n : Nat) : ∀ (es : List Entry) (p : P) (s : SM P W),
    (tryAnonR M sem on i k n es p s).UpTo (tryAnonR M sem on' i k n es p s) := by
  intro es
  induction es with
  | nil => intro p s; exact .refl _
  | cons e es ih =>
    intro p s
    unfold tryAnonR
    split
    · exact .refl _
    · refine (execGuardR_upTo hon _ _ _ _).bind fun gp s => ?_
      split
      · exact (fireR_upTo hon _ _ _ _ _ _).bind fun _ _ => .refl _
      · split
        · exact ih _ _
        · exact .refl _

theorem regionLoopR_upTo (ev : EventTy) : ∀ (rs : List Nat) (a b : Bool) (p : P) (s : SM P W),
    (regionLoopR M sem on ev rs a b p s).UpTo (regionLoopR M sem on' ev rs a b p s) := by
  intro rs
  induction rs with
  | nil => intro a b p s; exact .refl _
  | cons i rs ih =>
    intro a b p s
    unfold regionLoopR
    refine Res.UpTo.bind ?_ fun op s => ?_
    · unfold regionStepR
      refine (Res.UpTo.refl _).bind fun k s => ?_
      split
      · split
        · exact .refl _
        · exact tryEntriesR_upTo hon _ _ _ _ _ _ _
      · exact .refl _
    · split
      · exact ih _ _ _ _
      · exact ih _ _ _ _
      · exact ih _ _ _ _
      · exact .refl _

theorem anonRoundR_upTo : ∀ (rs : List Nat) (a : Bool) (p : P) (s : SM P W),
    (anonRoundR M sem on rs a p s).UpTo (anonRoundR M sem on' rs a p s) := by
  intro rs
  induction rs with
  | nil => intro a p s; exact .refl _
  | cons i rs ih =>
    intro a p s
    unfold anonRoundR
    refine (Res.UpTo.refl _).bind fun k s => ?_
    split
    · split
      · exact .refl _
      · exact (tryAnonR_upTo hon _ _ _ _ _ _).bind fun _ _ => ih _ _ _
    · exact .refl _

theorem anonLoopR_upTo : ∀ (f f' : Nat), f ≤ f' → ∀ (p : P) (s : SM P W),
    (anonLoopR M sem on f p s).UpTo (anonLoopR M sem on' f' p s) := by
  intro f
  induction f with
  | zero => intro f' _ p s; exact Or.inl rfl
  | succ f ih =>
    intro f' hf p s
    obtain ⟨m, rfl⟩ : ∃ m, f' = m + 1 := ⟨f' - 1, by omega⟩
    unfold anonLoopR
    refine (anonRoundR_upTo hon _ _ _ _).bind fun op s => ?_
    split
    · exact .refl _
    · exact .refl _
    · exact ih m (by omega) _ _

theorem processInternalR_upTo {f f' : Nat} (hf : f ≤ f') (ev : EventTy) (p : P) (s : SM P W) :
    (processInternalR M sem on f ev p s).UpTo (processInternalR M sem on' f' ev p s) := by
  unfold processInternalR
  refine (regionLoopR_upTo hon _ _ _ _ _ _).bind fun op s => ?_
  split
  · exact .refl _
  · split
    · exact .refl _
    · split
      · exact .refl _
      · refine Res.UpTo.bind ?_ fun _ _ => .refl _
        unfold processAnonR
        split
        · exact anonLoopR_upTo hon _ _ hf _ _
        · exact .refl _

theorem processEventR_upTo {f f' : Nat} (hf : f ≤ f') (ev : EventTy) (p : P) (s : SM P W) :
    (processEventR M sem on f ev p s).UpTo (processEventR M sem on' f' ev p s) := by
  unfold processEventR
  refine (processInternalR_upTo hon hf _ _ _).bind fun rp s => ?_
  split
  · refine Res.UpTo.bind ?_ fun _ _ => .refl _
    unfold callHandlerR
    split
    · exact .refl _
    · refine (Res.UpTo.refl _).bind fun k s => ?_
      split
      · split
        · exact .refl _
        · split
          · exact (runCb_upTo hon _ _ _).bind fun _ _ => .refl _
          · exact .refl _
      · exact .refl _
  · exact .refl _
  · exact .refl _
  · refine Res.UpTo.bind ?_ fun _ _ => .refl _
    unfold processDeferredR
    split
    · split
      · exact .refl _
      · exact (processInternalR_upTo hon hf _ _ _).bind fun _ _ => .refl _
    · exact .refl _

end

/-- C96, the bounds: a call that ends within some number of anonymous rounds and some depth of nesting ends
the same with more of both. -/
theorem C96_bounds {fuel fuel' : Nat} (hf : fuel ≤ fuel') : ∀ {n n' : Nat}, n ≤ n' → ∀ (op : Op P) (s : SM P W),
    stepR M sem fuel n op s ≠ .timeout → stepR M sem fuel' n' op s = stepR M sem fuel n op s := by
  have key : ∀ n n', n ≤ n' → ∀ (op : Op P) (s : SM P W),
      (stepR M sem fuel n op s).UpTo (stepR M sem fuel' n' op s) := by
    intro n
    induction n with
    | zero => intro n' _ op s; exact Or.inl rfl
    | succ n ih =>
      intro n' hn op s
      obtain ⟨m, rfl⟩ : ∃ m, n' = m + 1 := ⟨n' - 1, by omega⟩
      cases op with
      | process ev p => exact processEventR_upTo (ih m (by omega)) hf ev p s
      | set r p st => exact .refl _
      | setDependency d => exact .refl _
  intro n n' hn op s h
  exact ((key n n' hn op s).resolve_left h).symm

/-! ## Theorems -/

theorem Snug.fresh (hM : M.Regular) {d : Dep} {w : W} {s : SM P W} (h : construct M d w = .ok s) :
    Snug M (M.fresh (P := P) d w) := by
  have hp := C77_construct hM h
  refine ⟨?_, hp.slots, fun q hq l hl => ⟨hp.memory q hq l hl, fun _ => ?_⟩⟩
  · have := (basic_construct hM h).curLen
    rw [hp.cur, List.length_map] at this
    exact this
  · obtain ⟨i, _, rfl⟩ := List.mem_map.1 hl
    rfl

/-- All objects a client can hold. -/
theorem reach_snug (ht : Tame M sem rank) (hM : M.Regular)
    (hρ : Acyclic M ρ) (hB : ∀ p ∈ M.composites, ∀ st ∈ M.states, ρ (p, st) ≤ B)
    (hS : S → M.orthogonal = false) (hD : M.deferring = true → S) {d : Dep} {ops : List (Op P)} {s : SM P W}
    (h : RunToR M sem d ops s) : M.ScopesReal ∧ ∃ c, Depicts M c s ∧ Snug M c := by
  have key : ∀ {fuel n : Nat} {op : Op P} {c : Conf P W} {s : SM P W}, M.ScopesReal → OpOk M op → Depicts M c s →
      Snug M c → (stepR M sem fuel n op s).Ended True (fun _ s' => ∃ c, Depicts M c s' ∧ Snug M c)
        (fun s' => ∃ c, Depicts M c s' ∧ Snug M c) := by
    intro fuel n op c s hR hop hc hs
    obtain ⟨N, q, h1, h2⟩ := exec_snug (sem := sem) (fuel := fuel) ht hM hρ hB hS hD n
      (match op with | .process ev p => {2 * rank ev p + 2} + burden rank c.waiting | _ => 0) op c hop hs
      (by
        rintro ev p rfl
        exact less_single (L := {2 * rank ev p + 1}) (b := 2 * rank ev p + 2) (fun x hx => by
          rw [Multiset.mem_singleton.1 hx]; omega) _)
    have h1 : M.execR sem fuel n op c = q := h1 N (Nat.le_refl N)
    have hag := C83_step (sem := sem) hc hM hR ht.good fuel n hop
    rw [h1] at hag
    cases hq : stepR M sem fuel n op s <;> rw [hq] at hag <;> cases q <;>
      first | exact hag.elim | trivial | exact ⟨_, hag.2, h2.1⟩
  induction h with
  | @init w s h => exact ⟨((C06_construct hM d w).1.1 ⟨s, h⟩).1, _, C77_construct hM h, Snug.fresh hM h⟩
  | @ok s t ops op fuel n b hr hop h ih =>
    obtain ⟨hR, c, hc, hs⟩ := ih
    have := key (fuel := fuel) (n := n) hR hop hc hs
    rw [h] at this
    exact ⟨hR, this⟩
  | @throw s t ops op fuel n x hr hop h ih =>
    obtain ⟨hR, c, hc, hs⟩ := ih
    have := key (fuel := fuel) (n := n) hR hop hc hs
    rw [h] at this
    exact ⟨hR, this⟩
  | @world s ops hr w ih =>
    obtain ⟨hR, c, hc, hs⟩ := ih
    exact ⟨hR, _, hc.reworld w, ⟨hs.len, hs.slots, hs.memory⟩⟩

/-- C96: if callbacks send events of lower rank only, anonymous rows are acyclic, and the machine
does not both defer events and have regions, then every call ends: beyond some depth of nesting
its outcome is always the same, and it is not that something was cut off. -/
theorem C96_ends (hM : M.Regular) (hρ : Acyclic M ρ)
    (hB : ∀ p ∈ M.composites, ∀ st ∈ M.states, ρ (p, st) ≤ B) (hg : sem.Good True (OpOk M))
    (hd : sem.Downward M rank)
    (hq : M.deferring = false ∨ M.orthogonal = false) {d : Dep} {ops : List (Op P)} {s : SM P W}
    (h : RunToR M sem d ops s) (hf : M.maxInit * B < fuel) {op : Op P} (hop : OpOk M op) :
    ∃ N q, q ≠ .timeout ∧ ∀ n, N ≤ n → stepR M sem fuel n op s = q := by
  have ht : Tame M sem rank := ⟨hd, hg⟩
  have hS : M.deferring = true → M.orthogonal = false := fun h => by
    rcases hq with h' | h'
    · rw [h] at h'; cases h'
    · exact h'
  obtain ⟨hR, c, hc, hs⟩ := reach_snug ht hM hρ hB hS id h
  obtain ⟨N, q, h1, h2⟩ := exec_ends ht hM hρ hB hf hS id
    (match op with | .process ev p => {2 * rank ev p + 2} + burden rank c.waiting | _ => 0) op c hop hs
    (by
      rintro ev p rfl
      exact less_single (L := {2 * rank ev p + 1}) (b := 2 * rank ev p + 2) (fun x hx => by
        rw [Multiset.mem_singleton.1 hx]; omega) _)
  have hne : stepR M sem fuel N op s ≠ .timeout := by
    rw [Ne, (C83_undefined hc hM hR hg fuel N hop).2, show M.execR sem fuel N op c = q from h1 N (Nat.le_refl _)]
    rintro rfl
    exact h2
  exact ⟨N, _, hne, fun n hn => C96_bounds (Nat.le_refl _) hn op s hne⟩

end

/-! ## Examples -/

namespace Ex

/-- Ranks by number. -/
def byNumber (e : EventTy) (_ : Nat) : Nat :=
  match e with
  | .user n => n
  | _ => 0

def lowerB (e : EventTy) : Op Nat → Bool
  | .process e' _ => decide (e ≠ .none) && decide (byNumber e' 0 < byNumber e 0)
  | .set _ _ _ => decide (e ≠ .none)
  | .setDependency _ => true

theorem lowerB_iff {e : EventTy} {op : Op Nat} (p : Nat) (h : lowerB e op = true) : Lower byNumber e p op := by
  cases op with
  | process e' p' =>
    have h := (Bool.and_eq_true_iff).1 h
    exact ⟨of_decide_eq_true h.1, of_decide_eq_true h.2⟩
  | set r q st => exact (of_decide_eq_true h : e ≠ .none)
  | setDependency d => trivial

theorem makes_below {α : Type} {a : α} {e : EventTy} {p : Nat} : ∀ {ops : List (Op Nat)} {w : List Nat},
    ops.all (lowerB e) = true → (makes a p ops w).Below byNumber e p
  | [], _, _ => Nat.le_refl _
  | op :: ops, _, h =>
    have h := (Bool.and_eq_true_iff).1 (List.all_cons ▸ h)
    ⟨lowerB_iff p h.1, fun _ _ => makes_below h.2⟩

/-- A check for `Downward`. -/
def downB (M : Machine) (asks calls : Nat → List (Op Nat)) : Bool :=
  (M.extRows ++ M.intRows).all (fun t => t.guard.all (fun g => (asks g).all (lowerB t.event)) &&
    (M.toRun t).all fun cs => cs.all fun x => (calls x.2).all (lowerB t.event)) &&
  (M.decl M.root).handler.all fun h => M.events.all fun e => (calls h).all (lowerB e)

theorem downB_iff {M : Machine} {on : Nat → Bool} {asks calls : Nat → List (Op Nat)}
    (h : downB M asks calls = true) : (semR on asks calls).Downward M byNumber := by
  obtain ⟨h1, h2⟩ := (Bool.and_eq_true_iff).1 h
  refine ⟨fun t ht g hg a p w _ => ?_, fun t ht cs hcs x hx a p w _ => ?_, fun hd hhd e he st d p w => ?_⟩
  · have := ((Bool.and_eq_true_iff).1 (List.all_eq_true.1 h1 t ht)).1
    rw [hg] at this
    exact makes_below this
  · have := ((Bool.and_eq_true_iff).1 (List.all_eq_true.1 h1 t ht)).2
    rw [hcs] at this
    exact makes_below (List.all_eq_true.1 this x hx)
  · rw [hhd] at h2
    exact makes_below (List.all_eq_true.1 h2 e he)

/-- Without anonymous rows there is no cycle of them. -/
theorem acyclic_of_none {M : Machine} {ρ : Name × StTy → Nat}
    (h : (M.extRows ++ M.intRows).all (fun t => decide (t.event ≠ .none)) = true) : Acyclic M ρ := by
  intro p _ st _ cd hcd t ht
  exact absurd (row_event hcd ht) (of_decide_eq_true (List.all_eq_true.1 h t (row_rows (row_mem hcd ht))))

/-- States 1 and 2, which event 0 takes to each other.  State 2 defers event 1; in state 1 its action, 10,
sends event 0 twice. -/
def ratchet : Machine := Machine.ofList
  [ { table := some
        [ row (ini 2) (ev 0) none none (.st 1),
          row (.st 1) (ev 0) none none (.st 2),
          row (.st 1) (ev 1) none (some 10) (.st 1) ] },
    { }, { defer := some [ev 1] } ] []

def twice : Nat → List (Op Nat) := only 10 [.process (ev 0) 0, .process (ev 0) 0]

/-- After event 1 was deferred three times, event 0 makes a cascade of ten calls: each time event 1 is taken
from the queue, event 0 is sent twice, which takes out the next one. -/
example : (runR ratchet (semR (fun _ => true) never twice) 1 5 7 []
    [.process (ev 1) 1, .process (ev 1) 2, .process (ev 1) 3, .process (ev 0) 0]).any (fun s =>
      s.queue == [] && s.log.length == 10) = true := by decide +kernel

/-- Whatever is waiting, it always ends. -/
example {ops : List (Op Nat)} {s : SM Nat (List Nat)}
    (h : RunToR ratchet (semR (fun _ => true) never twice) 7 ops s) (e : Nat) (he : e < 2) (p : Nat) :
    ∃ N q, q ≠ .timeout ∧ ∀ n, N ≤ n →
      stepR ratchet (semR (fun _ => true) never twice) 1 n (.process (ev e) p) s = q := by
  have hev : ∀ e < 2, ∀ p : Nat, OpOk ratchet (.process (ev e) p) := fun e he p => by
    have : ∀ e < 2, decide (ev e ∈ ratchet.events) = true := by decide +kernel
    exact opOkB_iff _ (this e he)
  refine C96_ends (rank := byNumber) (ρ := fun _ => 0) (B := 0) (Machine.regular_ofList (by decide +kernel))
    (acyclic_of_none (by decide +kernel)) (fun _ _ _ _ => Nat.le_refl _) (semR_good never_all (only_all ?_))
    (downB_iff (by decide +kernel)) (Or.inr (by decide +kernel)) h (by decide +kernel) (hev e he p)
  intro op hop
  simp only [List.mem_cons, List.not_mem_nil, or_false, or_self] at hop
  subst hop
  exact hev 0 (by decide) 0

/-- One state; event 0 with payload `p + 1` makes its action send event 0 with payload `p`. -/
def descend : Machine := Machine.ofList [ { table := some [ row (ini 1) (ev 0) none (some 1) (.st 1) ] }, { } ] []

def countdown : SemR Nat Nat where
  guard _ _ p w := .ret true p w
  action _ _ p w := match p with
    | 0 => .ret () 0 w
    | p + 1 => .call (.process (ev 0) p) (w + 1) fun _ w => .ret () (p + 1) w
  handler _ _ _ _ p w := .ret () p w
  alive _ _ := true
  nonePayload := 0

/-- It counts down to 0. -/
example : (runR descend countdown 1 9 7 0 [.process (ev 0) 6]).any (fun s => s.world == 6) = true := by
  decide +kernel

/-- Ranks by payload: every countdown ends. -/
example {ops : List (Op Nat)} {s : SM Nat Nat} (h : RunToR descend countdown 7 ops s) (p : Nat) :
    ∃ N q, q ≠ .timeout ∧ ∀ n, N ≤ n → stepR descend countdown 1 n (.process (ev 0) p) s = q := by
  have hev : ∀ p : Nat, OpOk descend (.process (ev 0) p) := fun p =>
    opOkB_iff _ (show decide (ev 0 ∈ descend.events) = true by decide +kernel)
  have hne : ∀ t ∈ descend.extRows ++ descend.intRows, t.event ≠ .none := fun t ht =>
    of_decide_eq_true (List.all_eq_true.1 (by decide +kernel :
      (descend.extRows ++ descend.intRows).all (fun t => decide (t.event ≠ .none)) = true) t ht)
  refine C96_ends (M := descend) (sem := countdown) (rank := fun _ p => p) (ρ := fun _ => 0) (B := 0) (Machine.regular_ofList (by decide +kernel))
    (acyclic_of_none (by decide +kernel)) (fun _ _ _ _ => Nat.le_refl _) ⟨fun _ _ _ _ => trivial, ?_,
      fun _ _ _ _ _ _ => trivial⟩ ⟨fun _ _ _ _ _ p _ _ => Nat.le_refl p, ?_, fun _ _ _ _ _ _ p _ => Nat.le_refl p⟩
    (Or.inl (by decide +kernel)) h (by decide +kernel) (hev p)
  · intro c a p w
    cases p with
    | zero => trivial
    | succ p => exact ⟨hev p, fun _ _ => trivial⟩
  · intro t ht cs _ x _ a p w _
    cases p with
    | zero => exact Nat.le_refl _
    | succ p => exact ⟨⟨hne t ht, Nat.lt_succ_self p⟩, fun _ _ => Nat.le_refl _⟩

/-! ## Deferral and regions -/

/-- Two regions.  The first has state 3 only, where the action of event 2, 30, sends event 1.  The
second is `ratchet`, where state 2 defers event 2 as well. -/
def tangle : Machine := Machine.ofList
  [ { table := some
        [ row (ini 3) (ev 2) none (some 30) (.st 3),
          row (ini 2) (ev 0) none none (.st 1),
          row (.st 1) (ev 0) none none (.st 2),
          row (.st 1) (ev 1) none (some 10) (.st 1) ] },
    { }, { defer := some [ev 1, ev 2] }, { } ] []

def tangling (n : Nat) : List (Op Nat) :=
  if n = 10 then [.process (ev 0) 0, .process (ev 0) 0] else if n = 30 then [.process (ev 1) 0] else []

def tangled : SemR Nat (List Nat) := semR (fun _ => true) never tangling

theorem tangle_regular : tangle.Regular := Machine.regular_ofList (by decide +kernel)

theorem tangle_ok (e : Nat) (he : e < 3) (p : Nat) : OpOk tangle (.process (ev e) p) := by
  have : ∀ e < 3, decide (ev e ∈ tangle.events) = true := by decide +kernel
  exact opOkB_iff _ (this e he)

theorem tangled_good : tangled.Good True (OpOk tangle) := by
  refine semR_good never_all fun n op hop => ?_
  unfold tangling at hop
  split at hop
  · simp only [List.mem_cons, List.not_mem_nil, or_false, or_self] at hop
    subst hop
    exact tangle_ok 0 (by decide) 0
  · split at hop
    · rw [List.mem_singleton.1 hop]; exact tangle_ok 1 (by decide) 0
    · cases hop

/-- The second region is in state `x`, and `q` is waiting. -/
abbrev mid (c : Conf Nat (List Nat)) (x : Name) (q : List (EventTy × Nat)) : Conf Nat (List Nat) :=
  { c with slots := [some (0, .st 3), some (0, .st x)], waiting := q, active := 2, deps := [7] }

section
variable (call : Op Nat → Conf Nat (List Nat) → Res (Conf Nat (List Nat)) Bool) (fuel : Nat)
  (c : Conf Nat (List Nat)) (p : Nat) (q : List (EventTy × Nat))

/-- What becomes of the outcome of action 10. -/
theorem tangle_G1 : tangle.handleR tangled call fuel (ev 1) p (mid c 1 q) =
    ((((Machine.enactNoted call (tangled.action 10 ⟨ev 1, .st 1, .st 1, false, 7⟩ p c.world)
      (fun u => .action .action 10 ⟨ev 1, .st 1, .st 1, false, 7⟩ p u.isNone []) (mid c 1 q)).bind
      fun u c => .ok u.2 c).bind fun p c => .ok (.fired, p) c).bind fun o c =>
        if o.1 = .deferred then .ok ([.none] ++ [.deferred], o.2) c
        else tangle.sweepR tangled call (ev 1) [] ([.none] ++ [o.1]) o.2 c).bind fun a c =>
      if .deferred ∉ a.1 ∧ .fired ∈ a.1 ∧ tangle.anonymous then
        (tangle.settleR tangled call fuel tangled.nonePayload c).bind fun _ c => .ok a c
      else .ok a c := rfl

end

variable (fuel : Nat)

/-- Event 0 in the other state, with event 2 waiting: event 1 is put before it. -/
theorem tangle_other (n p h : Nat) (c : Conf Nat (List Nat)) :
    tangle.execR tangled fuel n (.process (ev 0) p) (mid c 1 [(ev 2, h)]) = .timeout ∨ ∃ c',
      tangle.execR tangled fuel n (.process (ev 0) p) (mid c 1 [(ev 2, h)]) =
        .ok true (mid c' 2 [(ev 1, 0), (ev 2, h)]) := by
  rcases n with _ | _ | n
  · exact Or.inl rfl
  · exact Or.inl rfl
  · exact Or.inr ⟨_, rfl⟩

/-- Event 0 with events 1 and 2 waiting is never done with. -/
theorem tangle_spins (n : Nat) : ∀ (p g h : Nat) (c : Conf Nat (List Nat)),
    tangle.execR tangled fuel n (.process (ev 0) p) (mid c 2 [(ev 1, g), (ev 2, h)]) = .timeout := by
  induction n with
  | zero => intro p g h c; rfl
  | succ n ih =>
    intro p g h c
    have e : tangle.handleR tangled (tangle.execR tangled fuel n) fuel (ev 1) g (mid c 1 [(ev 2, h)]) = .timeout := by
      rw [tangle_G1]
      have : Machine.enactNoted (tangle.execR tangled fuel n)
          (tangled.action 10 ⟨ev 1, .st 1, .st 1, false, 7⟩ g c.world)
          (fun u => .action .action 10 ⟨ev 1, .st 1, .st 1, false, 7⟩ g u.isNone []) (mid c 1 [(ev 2, h)]) =
            .timeout := by
        have he : Machine.enact (tangle.execR tangled fuel n)
            (tangled.action 10 ⟨ev 1, .st 1, .st 1, false, 7⟩ g c.world) (mid c 1 [(ev 2, h)]) = .timeout := by
          change Machine.enact _ (.call (.process (ev 0) 0) (c.world ++ [10]) fun _ w =>
            .call (.process (ev 0) 0) w fun _ w => .ret () g w) _ = _
          unfold Machine.enact
          rcases tangle_other fuel n 0 h { c with world := c.world ++ [10] } with h1 | ⟨c', h1⟩
          · rw [h1]
          · rw [h1]
            dsimp only
            unfold Machine.enact
            rw [ih 0 0 h c']
        unfold Machine.enactNoted
        rw [he]
      rw [this]
      rfl
    change ((tangle.handleR tangled (tangle.execR tangled fuel n) fuel (ev 1) g (mid c 1 [(ev 2, h)])).bind _).bind _ = _
    rw [e]
    rfl

/-- C96, why regions are excluded: the callbacks of this machine send events of lower rank only, and it has
no anonymous rows.  Event 2 is handled by the first region and put back by the second one.  After it, event 0
is never done with: the calls nest without end. -/
theorem C96_tangle : tangled.Downward tangle byNumber ∧ ∃ s, RunToR tangle tangled 7 [.process (ev 2) 0] s ∧
    ∀ fuel n p, stepR tangle tangled fuel n (.process (ev 0) p) s = .timeout := by
  refine ⟨downB_iff (by decide +kernel), ?_⟩
  cases h0 : construct (P := Nat) tangle 7 ([] : List Nat) with
  | error e =>
    have : (match construct (P := Nat) tangle 7 ([] : List Nat) with | .ok _ => true | .error _ => false) = true := by
      decide +kernel
    rw [h0] at this
    cases this
  | ok s0 =>
    have hd := C77_construct tangle_regular h0
    have hR : tangle.ScopesReal := ((C06_construct tangle_regular 7 []).1.1 ⟨s0, h0⟩).1
    have hs := C83_step (sem := tangled) hd tangle_regular hR tangled_good 1 2 (tangle_ok 2 (by decide) 0)
    obtain ⟨c, hc⟩ : ∃ c : Conf Nat (List Nat), tangle.execR tangled 1 2 (.process (ev 2) 0) (tangle.fresh 7 []) =
        .ok false (mid c 2 [(ev 1, 0), (ev 2, 0)]) := ⟨_, rfl⟩
    rw [hc] at hs
    cases h1 : stepR tangle tangled 1 2 (.process (ev 2) 0) s0 <;> rw [h1] at hs
    · refine ⟨_, .ok (.init h0) (tangle_ok 2 (by decide) 0) h1, fun fuel n p => ?_⟩
      exact ((C83_undefined hs.2 tangle_regular hR tangled_good fuel n (tangle_ok 0 (by decide) p)).2).2
        (tangle_spins fuel n p 0 0 c)
    · exact hs.elim
    · exact hs.elim
    · exact hs.elim

/-- C96, the claim without that condition is false. -/
theorem C96_refuted : ¬ ∀ (M : Machine) (sem : SemR Nat (List Nat)) (rank : EventTy → Nat → Nat)
    (ρ : Name × StTy → Nat) (B : Nat), M.Regular → Acyclic M ρ →
    (∀ p ∈ M.composites, ∀ st ∈ M.states, ρ (p, st) ≤ B) → sem.Good True (OpOk M) → sem.Downward M rank →
    ∀ d ops s, RunToR M sem d ops s → ∀ fuel op, M.maxInit * B < fuel → OpOk M op →
      ∃ N q, q ≠ .timeout ∧ ∀ n, N ≤ n → stepR M sem fuel n op s = q := by
  intro h
  obtain ⟨hd, s, hs, ht⟩ := C96_tangle
  obtain ⟨N, q, h1, h2⟩ := h tangle tangled byNumber (fun _ => 0) 0 tangle_regular
    (acyclic_of_none (by decide +kernel)) (fun _ _ _ _ => Nat.le_refl _) tangled_good hd 7 _ s hs 1
    (.process (ev 0) 0) (by decide +kernel) (tangle_ok 0 (by decide) 0)
  exact h1 ((h2 N (Nat.le_refl _)).symm.trans (ht 1 N 0))

end Ex
end Hsm
