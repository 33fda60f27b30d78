import Verif.PropsSystemsGen
import Verif.PropsAlikeGenR

/-!
# C132: with the amalgamated header, too, callbacks that use machines keep them inside their declarations

As C57 and the part of C117 about places, for machines built with `gen/hsm.h`.  Specification: `Inside`,
`Landed` (PropsReentrant.lean), `Memo` (PropsHist.lean).
-/

namespace Hsm

/-! ## The invariant -/

section
variable {P W : Type} {M : Machine} {sem : SemR P W}

/-- All written slots hold the number of a location. -/
def Bounded (M : Machine) (cur : List (Option Nat)) : Prop := ∀ r c : Nat, cur[r]? = some (some c) → c < M.size

theorem Bounded.inside (hL : M.Laid) {cur : List (Option Nat)} (h : Bounded M cur) : Inside M cur := by
  intro r k hk
  obtain ⟨p, st, hp, hst, rfl⟩ := hL.comb_surj (h r k hk)
  exact ⟨p, hp, st, hst, rfl⟩

theorem Bounded.set {cur : List (Option Nat)} (h : Bounded M cur) {c : Nat} (hc : c < M.size) (r : Nat) :
    Bounded M (cur.set r (some c)) := by
  intro r' c' h'
  rw [List.getElem?_set] at h'
  split at h'
  · split at h'
    · cases h'; exact hc
    · cases h'
  · exact h r' c' h'

/-- Entries of candidates, whatever the dependency and wherever the region has been. -/
abbrev Offered (M : Machine) (ev : EventTy) (r : Nat) (e : Entry) (s : SM P W) : Prop :=
  Drawn M M.candsG (fun _ => True) (fun _ _ _ => True) ev r e s

/-- The invariant behind C132. -/
structure LandingG (M : Machine) (s : SM P W) : Prop where
  mind : Mindful M s
  table : FilledFrom M M.candsG (fun _ => True) s.table
  cur : Bounded M s.cur
  moves : ∀ l1 f l2, s.log = l1 ++ f :: l2 →
    Bounded M f.before ∧ Bounded M f.after ∧ Landed M (Memo M (l1 ++ [f])) f
  trace : ∀ c ∈ s.trace, Bounded M c.cur

theorem LandingG.of_eq {s s' : SM P W} (h : LandingG M s) (h1 : s'.initial = s.initial)
    (h2 : s'.hist = s.hist) (h3 : s'.table = s.table) (h4 : s'.log = s.log) (h5 : s'.trace = s.trace)
    (h6 : s'.cur = s.cur) : LandingG M s' where
  mind := h.mind.of_eq h1 h2 h4
  table := by rw [h3]; exact h.table
  cur := by rw [h6]; exact h.cur
  moves := by rw [h4]; exact h.moves
  trace := by rw [h5]; exact h.trace

theorem LandingG.traced {s0 s : SM P W} {c : Call P} (h0 : LandingG M s0) (h : LandingG M s)
    (hc : c.cur = s0.cur) : LandingG M { s with trace := s.trace ++ [c] } := by
  refine ⟨h.mind.of_eq rfl rfl rfl, h.table, h.cur, h.moves, ?_⟩
  intro c' hc'
  rcases List.mem_append.1 hc' with hc' | hc'
  · exact h.trace c' hc'
  · rw [List.mem_singleton.1 hc', hc]; exact h0.cur

/-- Initial states are locations. -/
theorem initial_bounded (hM : M.RegularG) {q i : Name} (hq : q ∈ M.composites) {r : Nat}
    (hi : (M.declaredInitials q)[r]? = some i) : M.comb q (.st i) < M.size := by
  refine hM.laid.comb_lt.2 ⟨hq, hM.laid.initial_mem hM.offers.compiles hq ?_⟩
  rw [← Machine.declaredInitials_eq]
  exact List.mem_of_getElem? hi

/-- What is remembered is a location. -/
theorem Memo.bounded (hM : M.RegularG) {log : List Firing} {q : Name} (hq : q ∈ M.composites) {r c : Nat}
    (hb : ∀ f ∈ log, Bounded M f.before) (h : Memo M log q r c) : c < M.size := by
  rcases h with ⟨l1, f, l2, rfl, hf, _⟩ | ⟨_, i, hi, rfl⟩
  · exact hb f (by simp) r c hf.2.1
  · exact initial_bounded hM hq hi

theorem LandingG.moved (hM : M.RegularG) (hS : M.ScopedG) {s s' : SM P W} {ev : EventTy} {r : Nat} {e : Entry}
    {x : Exec} (h : LandingG M s) (he : Offered M ev r e s) (hx : e.tr = some x) (hm : Moved M r e s s') :
    LandingG M s' := by
  obtain ⟨u, hu, _, _, _, _, _, hint, _, _, hto, hh, hf⟩ := he.use hM.offers hx
  have ht : u.t ∈ M.flat := hf (by rw [← hint]; exact hm.ext)
  have hl : M.targetLoc u.t = some u.l := hu.2.2.2.2.1
  obtain ⟨hmind, hmove⟩ := h.mind.moved hM.offers ht hl hto hh hm
  have hbef : ∀ f ∈ s.log ++ [⟨r, s.cur, s'.cur, s.trace.length⟩], Bounded M f.before := by
    intro f hf
    rcases List.mem_append.1 hf with hf | hf
    · obtain ⟨l1, l2, hl⟩ := List.append_of_mem hf
      exact (h.moves l1 f l2 hl).1
    · rw [List.mem_singleton.1 hf]; exact h.cur
  have hcur : Bounded M s'.cur := by
    obtain ⟨c, hc, h1, h2⟩ := hmove
    change s'.cur = s.cur.set r (some c) at hc
    rw [hc]
    refine h.cur.set ?_ r
    by_cases hq : ∃ o q, u.t.target = .ps o (.history q)
    · obtain ⟨o, q, hq⟩ := hq
      exact (h1 o q hq).bounded hM (hM.laid.history_target hM.offers.compiles ht hq).1 hbef
    · obtain ⟨l, hl', rfl⟩ := h2 fun o q he => hq ⟨o, q, he⟩
      rcases hM.cand_loc hu.2.2.1 with hd | ⟨t, hrow, hmem, l', hloc, hst⟩
      · have := hu.2.2.2.1; rw [hd] at this; cases this
      · cases hrow.symm.trans hu.2.2.2.1
        cases hloc.symm.trans hl'
        exact hM.laid.comb_lt.2 ⟨hS.targets _ hmem _ hloc, hst⟩
  refine ⟨hmind, by rw [hm.table]; exact h.table, hcur, ?_, by rw [hm.trace]; exact h.trace⟩
  intro l1 f l2 he
  rw [hm.log] at he
  rcases log_snoc he with ⟨rfl, rfl⟩ | ⟨l, he⟩
  · exact ⟨h.cur, hcur, u.t, Machine.extRows_eq ▸ ht, hmove⟩
  · exact h.moves l1 f l he

theorem KeepsG.landing (hM : M.RegularG) (hS : M.ScopedG) {D : Dep → Prop} (hg : sem.Good True (GivesDG M D)) :
    KeepsG M sem (fun _ => True) (GivesDG M D) (fun _ => True) (LandingG M) (Offered M) where
  toRuns := .of hg (fun _ _ h => h.of_eq rfl rfl rfl rfl rfl rfl)
  traced := fun _ _ _ h0 h hc _ => h0.traced h hc
  obj := fun _ _ _ _ => trivial
  regions := fun _ _ _ _ => trivial
  look := fun _ _ _ _ => Or.inl fun _ => trivial
  entry := by
    intro s ev r c e h _ hc hlt he _
    obtain ⟨p, st, hp, hst, rfl⟩ := hM.laid.comb_surj hlt
    obtain ⟨d', cd, hcd, hd, hen⟩ := h.table ev p hp st hst e he
    exact ⟨p, hp, st, hst, d', cd, hcd, hd, hen, Or.inr (Or.inr trivial)⟩
  null := fun _ _ _ _ _ _ _ _ => trivial
  stay := by
    intro call hc s s' x ev q bp r e h hx he
    obtain ⟨p, hp, st, hst, d', cd, hcd, hd, hen, hv⟩ := he
    exact ⟨p, hp, st, hst, d', cd, hcd, hd, hen, Or.inr (Or.inr trivial)⟩
  iter := fun _ _ _ _ _ _ _ _ _ _ _ _ => trivial
  move := by
    intro s ev r e x h _ he _ hx _
    cases hu : updateState M r e s with
    | ok a s' =>
      rcases updateState_ok hu with ⟨_, rfl⟩ | hm
      · exact h
      · exact h.moved hM hS he hx hm
    | throw x s' => exact absurd hu updateState_throw
    | ub u => trivial
    | timeout => trivial
  push := fun _ _ _ _ _ h _ _ => h.of_eq rfl rfl rfl rfl rfl rfl
  pop := fun _ _ _ _ h _ => h.of_eq rfl rfl rfl rfl rfl rfl
  handler := fun _ _ _ _ _ => fun _ => Or.inl fun _ => trivial
  known := fun _ _ h => h.known hM
  dep := by
    intro s d' hq h
    unfold setDependencyG
    cases hT : M.fillG d' s.table with
    | error u => trivial
    | ok T => exact ⟨h.mind.of_eq rfl rfl rfl, filledFrom_fillG hM trivial hT h.table, h.cur, h.moves, h.trace⟩

theorem landing_constructG (hM : M.RegularG) {d : Dep} {w : W} {s : SM P W} (hs : constructG M d w = .ok s) :
    LandingG M s := by
  obtain ⟨H, T, _, hT, hI⟩ := constructG_ok hs
  obtain ⟨_, hTs, ⟨init, h0, hcur, _⟩, hin, hhi, _, _, htr, hlog⟩ := initState_ok hI
  refine ⟨.fresh hM.laid hin hhi hlog,
    by rw [hTs]; exact filledFrom_fillG hM trivial hT (fun _ _ _ _ _ _ h => by cases h), ?_, ?_, ?_⟩
  · intro r c hc
    rw [hM.laid.initialTable_get hM.laid.root_mem] at h0
    cases h0
    rw [hcur, getElem?_initCur, List.getElem?_map] at hc
    obtain ⟨q, hq, rfl⟩ := Option.map_eq_some_iff.1 hc
    exact initial_bounded hM hM.laid.root_mem (by rw [Machine.declaredInitials_eq]; exact hq)
  · intro l1 f l2 he; rw [hlog] at he; simp at he
  · intro c hc; rw [htr] at hc; cases hc

/-- What the invariant says. -/
theorem LandingG.places (hM : M.RegularG) {s : SM P W} (h : LandingG M s) :
    Inside M s.cur ∧ (∀ c ∈ s.trace, Inside M c.cur) ∧
    ∀ l1 f l2, s.log = l1 ++ f :: l2 →
      Inside M f.before ∧ Inside M f.after ∧ Landed M (Memo M (l1 ++ [f])) f :=
  ⟨h.cur.inside hM.laid, fun c hc => (h.trace c hc).inside hM.laid, fun l1 f l2 he =>
    have ⟨h1, h2, h3⟩ := h.moves l1 f l2 he
    ⟨h1.inside hM.laid, h2.inside hM.laid, h3⟩⟩

/-! ## C132 -/

/-- C132: callbacks may send events to the machine that is calling them as they like.  Still it is always, and was
at each callback and before and after each move, at declared locations, and every move is to the destination of
a declared external row. -/
theorem C132_places (hM : M.RegularG) (hS : M.ScopedG) (hg : sem.Good True (OpOkGR M)) {d : Dep}
    {ops : List (Op P)} {s : SM P W} (h : RunToGR M sem d ops s) :
    Inside M s.cur ∧ (∀ c ∈ s.trace, Inside M c.cur) ∧
    ∀ l1 f l2, s.log = l1 ++ f :: l2 →
      Inside M f.before ∧ Inside M f.after ∧ Landed M (Memo M (l1 ++ [f])) f :=
  (h.keeps (D := fun _ => True) (KeepsG.landing hM hS (hg.weaken fun _ h => ⟨h, fun _ _ => trivial⟩))
    (fun _ _ _ hc => landing_constructG hM hc) (fun _ _ h => h.of_eq rfl rfl rfl rfl rfl rfl)
    (fun _ _ => trivial)).places hM

end

section
variable {ι P W : Type} [DecidableEq ι] {Ms : ι → Machine} {sem : SemS ι P W} {d : ι → Dep}
  {ops : List (ι × Op P)} {h : Hub ι P W}

/-- C132: the same of each of several machines, if callbacks of any of them may use any of them. -/
theorem C132_several (hM : ∀ i, (Ms i).RegularG) (hS : ∀ i, (Ms i).ScopedG)
    (hg : sem.Good True (fun i => OpOkGR (Ms i))) (hr : RunToGS Ms sem d ops h) (i : ι) :
    Inside (Ms i) (h.parts i).cur ∧ (∀ c ∈ (h.parts i).trace, Inside (Ms i) c.cur) ∧
    ∀ l1 f l2, (h.parts i).log = l1 ++ f :: l2 →
      Inside (Ms i) f.before ∧ Inside (Ms i) f.after ∧ Landed (Ms i) (Memo (Ms i) (l1 ++ [f])) f := by
  have hg' : sem.Good True (fun i => GivesDG (Ms i) fun _ => True) := hg.mono id fun _ _ h => ⟨h, fun _ _ => trivial⟩
  have hl := hr.inv (I := fun i => LandingG (Ms i)) (fun i o ho => KeepsG.landing (hM i) (hS i) (hg'.at i ho))
    (fun _ _ _ h => h.of_eq rfl rfl rfl rfl rfl rfl) hg' (fun i _ _ h => landing_constructG (hM i) h)
    (fun x hx => ⟨hr.opOk x hx, fun _ _ => trivial⟩) i h
  exact hl.places (hM i)

end

/-! ## Examples -/

namespace Ex

theorem hop_scopedG : hop.ScopedG := Machine.Scoped.toG hop_scoped

/-- C132 applies to a guard that sends the machine elsewhere and then says yes: the machine goes to 3 and from
there to 2, the destination of the row the guard belongs to. -/
example : ∃ s, RunToGR hop diverted 7 [.process (ev 0) 1] s ∧ ∃ f1 f2, s.log = [f1, f2] ∧
    f2.before = [some (hop.comb 0 (.st 3))] ∧ Landed hop (Memo hop [f1, f2]) f2 ∧
    ∀ c ∈ s.trace, Inside hop c.cur := by
  obtain ⟨s, h, hs⟩ := exists_runGR hop diverted
    (fuel := 5) (n := 5) (d := 7) (w := []) (ops := [.process (ev 0) 1])
    (f := fun s => s.log.map (·.before) == [[some (hop.comb 0 (.st 1))], [some (hop.comb 0 (.st 3))]])
    (by decide +kernel)
  have hs := eq_of_beq hs
  have hg : diverted.Good True (OpOkGR hop) :=
    semR_good (only_all fun op h => by rw [List.mem_singleton.1 h]; exact hop_okG 1 (by decide) 8) never_all
  have hp := C132_places hop_regularG hop_scopedG hg h
  match hl : s.log, hs with
  | [], hs => simp at hs
  | [_], hs => simp at hs
  | _ :: _ :: _ :: _, hs => simp at hs
  | [f1, f2], hs =>
    simp only [List.map_cons, List.map_nil, List.cons.injEq] at hs
    exact ⟨s, h, f1, f2, hl, hs.2.1, (hp.2.2 [f1] f2 [] hl).2.2, hp.2.1⟩

/-- The machines that call each other stay where they are declared to be, however often they do. -/
example : ∃ h, RunToGS twins (semS true quietS pingPong) (fun _ => 7) [(false, .process (ev 0) 1)] h ∧
    (h.parts false).log.length = 2 ∧ (h.parts true).log.length = 1 ∧
    ∀ i, Inside hop (h.parts i).cur ∧ ∀ c ∈ (h.parts i).trace, Inside hop c.cur := by
  obtain ⟨h, hr, hs⟩ := exists_runGS twins (semS true quietS pingPong) (fuel := 5) (n := 5) (d := fun _ => 7) (w := [])
    (ops := [(false, .process (ev 0) 1)])
    (f := fun h => (h.parts false).log.length == 2 && (h.parts true).log.length == 1) (by decide +kernel)
  simp only [Bool.and_eq_true, beq_iff_eq] at hs
  exact ⟨h, hr, hs.1, hs.2, fun i =>
    have hp := C132_several (fun _ => hop_regularG) (fun _ => hop_scopedG) pingPong_goodG hr i
    ⟨hp.1, hp.2.1⟩⟩

end Ex

end Hsm
