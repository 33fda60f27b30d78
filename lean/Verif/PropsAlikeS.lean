import Verif.PropsAlikeGenR
import Verif.PropsMatchS

/-!
# The order of rows and rows that are never used, in programs of several machines

C123, C124: what C67, C70, C114 and C116 say of one machine holds of all machines of a program at once, and
for clients whose callbacks use any of them.
-/

namespace Hsm

/-! ## Specification vocabulary -/

/-- The tables of the two machines differ only in the order of rows that do not compete, or in a row that is
not needed, which one of them has; `K` are the locations they can be at. -/
inductive Tidied (M M' : Machine) : List (Name × StTy) → Prop
  | order (h : Machine.Reordered M M') : Tidied M M' (allLocs M)
  | back (h : Machine.Reordered M' M) : Tidied M M' (allLocs M')
  | remove {K : List (Name × StTy)} (hL : M.Live K) (h : Machine.Pruned M.Removable M M' K) : Tidied M M' K
  | add {K : List (Name × StTy)} (hL : M'.Live K) (h : Machine.Pruned M'.Removable M' M K) : Tidied M M' K

/-- The same for the amalgamated header. -/
inductive TidiedG (M M' : Machine) : List (Name × StTy) → Prop
  | order (h : Machine.Reordered M M') : TidiedG M M' (allLocs M)
  | back (h : Machine.Reordered M' M) : TidiedG M M' (allLocs M')
  | remove {K : List (Name × StTy)} (hL : M.LiveG K) (h : Machine.Pruned M.Removable M M' K) : TidiedG M M' K
  | add {K : List (Name × StTy)} (hL : M'.LiveG K) (h : Machine.Pruned M'.Removable M' M K) : TidiedG M M' K

section
variable {ι P W : Type} {Ms Ms' : ι → Machine} {K : ι → List (Name × StTy)} {sem : SemS ι P W}
  {ok : ι → Op P → Prop} {evs evs' : ι → List EventTy}

/-- What a client sees of two programs is the same. -/
structure IndistinctS (Ms Ms' : ι → Machine) (K : ι → List (Name × StTy)) (h h' : Hub ι P W) : Prop where
  user : h.user = h'.user
  parts : ∀ i, Indistinct (Ms i) (Ms' i) (fun q st => (q, st) ∈ K i) (h.parts i) (h'.parts i)

theorem Tidied.symm {M M' : Machine} {K : List (Name × StTy)} (h : Tidied M M' K) : Tidied M' M K := by
  cases h with
  | order h => exact .back h
  | back h => exact .order h
  | remove hL h => exact .add hL h
  | add hL h => exact .remove hL h

theorem TidiedG.symm {M M' : Machine} {K : List (Name × StTy)} (h : TidiedG M M' K) : TidiedG M' M K := by
  cases h with
  | order h => exact .back h
  | back h => exact .order h
  | remove hL h => exact .add hL h
  | add hL h => exact .remove hL h

theorem Tidied.alike {M M' : Machine} {K : List (Name × StTy)} (h : Tidied M M' K) (hM : M.Regular) (hS : M.Scoped)
    (hM' : M'.Regular) (hS' : M'.Scoped) : Alike M M' fun q st => (q, st) ∈ K := by
  cases h with
  | order h => rw [mem_allLocs]; exact (h.alike hM hS).2.2.1
  | back h => rw [mem_allLocs]; exact (h.alike hM' hS').2.2.1.symm
  | remove hL h => exact h.alike hS hL
  | add hL h => exact (h.alike hS' hL).symm

theorem TidiedG.alike {M M' : Machine} {K : List (Name × StTy)} (h : TidiedG M M' K) (hM : M.RegularG)
    (hS : M.ScopedG) (hM' : M'.RegularG) (hS' : M'.ScopedG) : Machine.AlikeG M M' fun q st => (q, st) ∈ K := by
  cases h with
  | order h => rw [mem_allLocs]; exact (h.alikeG hM hS).2.2.1
  | back h => rw [mem_allLocs]; exact Machine.AlikeG.symm (h.alikeG hM' hS').2.2.1
  | remove hL h => exact h.alikeG hS hL
  | add hL h => exact Machine.AlikeG.symm (h.alikeG hS' hL)

/-- Pictures of scenes the client cannot tell apart. -/
theorem Troupe.indistinct {C C' : ι → EventTy → Name → StTy → List Cand}
    {E E' : ι → List Dep → EventTy → Name → StTy → List Entry} {es es' : ι → List EventTy} {q q' : ι → Op P → Prop}
    {h h' : Hub ι P W} {t t' : Scene ι P W}
    (hA : ∀ i, AlikeOn (Ms i) (Ms' i) (C i) (C' i) fun q st => (q, st) ∈ K i) (hM : ∀ i, (Ms i).Laid)
    (hM' : ∀ i, (Ms' i).Laid) (H : Troupe Ms Ms' (fun _ => id) (fun _ => id) (fun i => diag (K i)) evs ok t t')
    (h1 : Ensemble Ms E es q h t) (h2 : Ensemble Ms' E' es' q' h' t') : IndistinctS Ms Ms' K h h' where
  user := h1.user.trans (H.user.trans h2.user.symm)
  parts i := (H.parts i).indistinct (hA i) (hM i) (hM' i) (h1.parts i) (h2.parts i)

variable [DecidableEq ι]

/-- C123: if the tables of machines of a program are tidied up, in some by exchanging rows that do not compete,
in others by removing or adding a row that is not needed, then whatever a client has done with the machines,
from outside and from inside the callbacks of any of them, it can have done with the tidied ones, and sees the
same; and the next call, on whichever machine, has the same outcome, to any depth of calls from inside.
`BothOk` says that both machines know the event, and that only locations among `K` are set. -/
theorem C123_tidy {d : ι → Dep} {ops : List (ι × Op P)} {h : Hub ι P W} (hM : ∀ i, (Ms i).Regular)
    (hS : ∀ i, (Ms i).Scoped) (hM' : ∀ i, (Ms' i).Regular) (hS' : ∀ i, (Ms' i).Scoped)
    (hT : ∀ i, Tidied (Ms i) (Ms' i) (K i))
    (hg : sem.Good True fun i => BothOk (Ms i) (Ms' i) fun q st => (q, st) ∈ K i)
    (hr : RunToS Ms sem d ops h)
    (hops : ∀ x ∈ ops, BothOk (Ms x.1) (Ms' x.1) (fun q st => (q, st) ∈ K x.1) x.2) :
    ∃ h', RunToS Ms' sem d ops h' ∧ IndistinctS Ms Ms' K h h' ∧
      ∀ (fuel n : Nat) (i : ι) (op : Op P), BothOk (Ms i) (Ms' i) (fun q st => (q, st) ∈ K i) op →
        (stepS Ms sem fuel n i op h).Rel Eq (IndistinctS Ms Ms' K) (stepS Ms' sem fuel n i op h') := by
  have hA := fun i => (hT i).alike (hM i) (hS i) (hM' i) (hS' i)
  have hok := fun i => (hA i).suits (P := P)
  have hm := fun i => (hA i).likes
  have hanon := fun i => (hA i).none_common
  have hC : ∀ i, (Ms' i).ScopesReal ∧
      ((Ms' i).orthogonal = true → (Ms' i).declaredInitials (Ms' i).root ≠ []) := fun i =>
    ⟨(Machine.scopesReal_iff (hM' i)).2 ⟨(hS' i).src, (hS' i).comp⟩, fun _ => (hS' i).rootInit⟩
  have g1 : sem.Good True (fun i => OpOk (Ms i)) := hg.weaken fun i _ h => (hok i _ h).1
  have g2 : sem.Good True (fun i => OpOk (Ms' i)) := hg.weaken fun i _ h => (hok i _ h).2.1
  have hSR := (C119_reach hM g1 hr).1
  obtain ⟨h', t, t', hr', hc, hc', hp⟩ := RunToS.troupe (sem := sem) hm hanon hok hg hM hM' hC hr hops
  have hh := hp.indistinct (fun i => (hA i).on) (fun i => (hM i).laid) (fun i => (hM' i).laid) hc hc'
  refine ⟨h', hr', ⟨hh.user, hh.parts⟩, fun fuel n i op ho => ?_⟩
  have hk := Troupe.carry (C119_step hM hSR g1 fuel n (hok i _ ho).1 hc)
    (C119_step hM' (fun i => (hC i).1) g2 fuel n (hok i _ ho).2.1 hc')
    (Troupe.exec hm hanon hok hg fuel n ho hp)
  rw [stepS_idle, stepS_idle] at hk
  refine hk.weaken ?_
  rintro s s' ⟨c, c', h1, h2, h3⟩
  exact h3.indistinct (fun i => (hA i).on) (fun i => (hM i).laid) (fun i => (hM' i).laid) h1 h2

/-- C123 for the order of rows alone: no condition on what the client calls remains. -/
theorem C123_order {d : ι → Dep} {ops : List (ι × Op P)} {h : Hub ι P W} (hM : ∀ i, (Ms i).Regular)
    (hS : ∀ i, (Ms i).Scoped) (hR : ∀ i, Machine.Reordered (Ms i) (Ms' i))
    (hg : sem.Good True fun i => OpOk (Ms i)) (hr : RunToS Ms sem d ops h) :
    ∃ h', RunToS Ms' sem d ops h' ∧ IndistinctS Ms Ms' (fun i => allLocs (Ms i)) h h' ∧
      ∀ (fuel n : Nat) (i : ι) (op : Op P), OpOk (Ms i) op →
        (stepS Ms sem fuel n i op h).Rel Eq (IndistinctS Ms Ms' fun i => allLocs (Ms i))
          (stepS Ms' sem fuel n i op h') := by
  have hb : ∀ i (op : Op P), OpOk (Ms i) op → BothOk (Ms i) (Ms' i) (fun q st => (q, st) ∈ allLocs (Ms i)) op :=
    fun i op ho => by
      rw [mem_allLocs]
      exact bothOk_of_opOk ((hR i).alike (hM i) (hS i)).2.2.2.1 (fun _ _ a b => ⟨a, b⟩) ho
  have hops : ∀ x ∈ ops, OpOk (Ms x.1) x.2 := by
    clear hb
    induction hr with
    | init => intro x h; cases h
    | ok _ hop _ ih | throw _ hop _ ih =>
      intro x h
      rcases List.mem_append.1 h with h | h
      · exact ih x h
      · cases List.mem_singleton.1 h; exact hop
    | world _ _ ih => exact ih
  obtain ⟨h', k1, k2, k3⟩ := C123_tidy hM hS (fun i => ((hR i).alike (hM i) (hS i)).1)
    (fun i => ((hR i).alike (hM i) (hS i)).2.1) (fun i => .order (hR i)) (hg.weaken hb) hr
    (fun x hx => hb _ _ (hops x hx))
  exact ⟨h', k1, k2, fun fuel n i op ho => k3 fuel n i op (hb i op ho)⟩

/-- C124: the same for the amalgamated header. -/
theorem C124_tidy {d : ι → Dep} {ops : List (ι × Op P)} {h : Hub ι P W} (hM : ∀ i, (Ms i).RegularG)
    (hS : ∀ i, (Ms i).ScopedG) (hM' : ∀ i, (Ms' i).RegularG) (hS' : ∀ i, (Ms' i).ScopedG)
    (hT : ∀ i, TidiedG (Ms i) (Ms' i) (K i)) (hg : sem.Good True fun i => AskG (Ms i) (Ms' i))
    (hr : RunToGS Ms sem d ops h) (hops : ∀ x ∈ ops, AskG (Ms x.1) (Ms' x.1) x.2) :
    ∃ h', RunToGS Ms' sem d ops h' ∧ IndistinctS Ms Ms' K h h' ∧
      ∀ (fuel n : Nat) (i : ι) (op : Op P), AskG (Ms i) (Ms' i) op →
        (stepGS Ms sem fuel n i op h).Rel Eq (IndistinctS Ms Ms' K) (stepGS Ms' sem fuel n i op h') := by
  have hA := fun i => (hT i).alike (hM i) (hS i) (hM' i) (hS' i)
  have hok := fun i => askG_suits (P := P) (hM i) (hM' i)
  have hm : ∀ i, Likes (Ms i) (Ms' i) id id (diag (K i)) (Ms i).candsG (Ms' i).candsG (commonG (Ms i) (Ms' i))
      (Ms' i).eventsG := fun i => (hA i).likes fun _ h => (mem_commonG.1 h).2
  have hanon : ∀ i, (Ms i).anonymous = true → EventTy.none ∈ commonG (Ms i) (Ms' i) := fun i h =>
    mem_commonG.2 ⟨Machine.none_eventG h, Machine.none_eventG ((hA i).anonymous.trans h)⟩
  have hC : ∀ i, (Ms' i).ScopesRealG ∧
      ((Ms' i).orthogonal = true → (Ms' i).declaredInitials (Ms' i).root ≠ []) := fun i =>
    ⟨(hS' i).scopes, fun _ => (hS' i).rootInit⟩
  have g1 : sem.Good True (fun i => OpOkGR (Ms i)) := hg.weaken fun i _ h => (hok i _ h).1
  have g2 : sem.Good True (fun i => OpOkGR (Ms' i)) := hg.weaken fun i _ h => (hok i _ h).2.1
  have hSR := (C120_reach hM g1 hr).1
  obtain ⟨h', t, t', hr', hc, hc', hp⟩ := RunToGS.troupe (sem := sem) hm hanon hok hg hM hM' hC hr hops
  have hh := hp.indistinct hA (fun i => (hM i).laid) (fun i => (hM' i).laid) hc hc'
  refine ⟨h', hr', ⟨hh.user, hh.parts⟩, fun fuel n i op ho => ?_⟩
  have hk := Troupe.carry (C120_step hM hSR g1 fuel n (hok i _ ho).1 hc)
    (C120_step hM' (fun i => (hC i).1) g2 fuel n (hok i _ ho).2.1 hc')
    (Troupe.execG hm hanon hok hg fuel n ho hp)
  rw [stepGS_idle, stepGS_idle] at hk
  refine hk.weaken ?_
  rintro s s' ⟨c, c', h1, h2, h3⟩
  exact h3.indistinct hA (fun i => (hM i).laid) (fun i => (hM' i).laid) h1 h2

/-- C124 for the order of rows alone. -/
theorem C124_order {d : ι → Dep} {ops : List (ι × Op P)} {h : Hub ι P W} (hM : ∀ i, (Ms i).RegularG)
    (hS : ∀ i, (Ms i).ScopedG) (hR : ∀ i, Machine.Reordered (Ms i) (Ms' i))
    (hg : sem.Good True fun i => OpOkGR (Ms i)) (hr : RunToGS Ms sem d ops h) :
    ∃ h', RunToGS Ms' sem d ops h' ∧ IndistinctS Ms Ms' (fun i => allLocs (Ms i)) h h' ∧
      ∀ (fuel n : Nat) (i : ι) (op : Op P), OpOkGR (Ms i) op →
        (stepGS Ms sem fuel n i op h).Rel Eq (IndistinctS Ms Ms' fun i => allLocs (Ms i))
          (stepGS Ms' sem fuel n i op h') := by
  have hb : ∀ i (op : Op P), OpOkGR (Ms i) op → AskG (Ms i) (Ms' i) op := fun i op ho =>
    askG_of_opOkGR (hM i) ((hR i).alikeG (hM i) (hS i)).2.2.2.1 ho
  obtain ⟨h', k1, k2, k3⟩ := C124_tidy hM hS (fun i => ((hR i).alikeG (hM i) (hS i)).1)
    (fun i => ((hR i).alikeG (hM i) (hS i)).2.1) (fun i => .order (hR i)) (hg.weaken hb) hr
    (fun x hx => hb _ _ (hr.opsOk x hx))
  exact ⟨h', k1, k2, fun fuel n i op ho => k3 fuel n i op (hb i op ho)⟩

end

/-! ## Examples -/

namespace Ex

/-- A machine whose rows are exchanged, and one that has a row that is not needed. -/
def messy (i : Bool) : Machine := if i then leafy else sorted
def neat (i : Bool) : Machine := if i then leafless else resorted
def messyLocs (i : Bool) : List (Name × StTy) := if i then [(0, .st 1), (0, .st 2)] else allLocs sorted

/-- The first machine wakes the second one while it moves, and is sent an event and put elsewhere in turn. -/
def teasing (i : Bool) (c : Nat) : List (Bool × Op Nat) :=
  if c = 3 ∧ i = false then [(true, .process (ev 0) 8)]
  else if c = 1 ∧ i = true then [(false, .process (ev 0) 9), (false, .set 0 0 (.st 2)), (true, .set 0 0 (.st 2))]
  else []

theorem teasing_all {Q : Bool → Op Nat → Prop} (h0 : Q true (.process (ev 0) 8)) (h1 : Q false (.process (ev 0) 9))
    (h2 : Q false (.set 0 0 (.st 2))) (h3 : Q true (.set 0 0 (.st 2))) : ∀ i c, ∀ x ∈ teasing i c, Q x.1 x.2 := by
  intro i c x hx
  unfold teasing at hx
  split at hx
  · rw [List.mem_singleton.1 hx]; exact h0
  · split at hx
    · simp only [List.mem_cons, List.not_mem_nil, or_false] at hx
      rcases hx with rfl | rfl | rfl
      · exact h1
      · exact h2
      · exact h3
    · cases hx

theorem messy_regular (i : Bool) : (messy i).Regular := by
  cases i
  · exact sorted_regular
  · exact leafy_regular
theorem messy_scoped (i : Bool) : (messy i).Scoped := by
  cases i
  · exact sorted_scoped
  · exact leafy_scoped
theorem neat_regular (i : Bool) : (neat i).Regular := by
  cases i
  · exact (sorted_resorted.1.alike sorted_regular sorted_scoped).1
  · exact leafless_regular
theorem neat_scoped (i : Bool) : (neat i).Scoped := by
  cases i
  · exact (sorted_resorted.1.alike sorted_regular sorted_scoped).2.1
  · exact leafless_scoped
theorem messy_neat (i : Bool) : Tidied (messy i) (neat i) (messyLocs i) := by
  cases i
  · exact .order sorted_resorted.1
  · exact .remove leafy_live leafy_pruned

/-- C123 applies: the client sees no difference. -/
example : ∃ h h', RunToS messy (semS true quietS teasing) (fun _ => 7)
      [(false, .process (ev 1) 1), (true, .process (ev 1) 2), (false, .process (ev 2) 3)] h ∧
    h.user = [3, 100, 1, 100, 2, 20, 3] ∧
    RunToS neat (semS true quietS teasing) (fun _ => 7)
      [(false, .process (ev 1) 1), (true, .process (ev 1) 2), (false, .process (ev 2) 3)] h' ∧
    IndistinctS messy neat messyLocs h h' := by
  obtain ⟨h, hr, hs⟩ := exists_runS messy (semS true quietS teasing) (fuel := 5) (n := 5) (d := fun _ => 7) (w := [])
    (ops := [(false, .process (ev 1) 1), (true, .process (ev 1) 2), (false, .process (ev 2) 3)])
    (f := fun h => decide (h.user = [3, 100, 1, 100, 2, 20, 3])) (by decide +kernel)
  let Q : Bool → Op Nat → Prop := fun i => BothOk (messy i) (neat i) fun q st => (q, st) ∈ messyLocs i
  obtain ⟨h', h1, h2, -⟩ := C123_tidy (sem := semS true quietS teasing) messy_regular messy_scoped neat_regular
    neat_scoped messy_neat
    (semS_good (quietS_all (Q := Q)) (teasing_all (Q := Q)
      (by decide +kernel : ev 0 ∈ leafy.events ∧ ev 0 ∈ leafless.events)
      (by decide +kernel : ev 0 ∈ sorted.events ∧ ev 0 ∈ resorted.events)
      (by decide +kernel : ((0, .st 2) : Name × StTy) ∈ allLocs sorted)
      (by decide +kernel : ((0, .st 2) : Name × StTy) ∈ [((0, .st 1) : Name × StTy), (0, .st 2)]))) hr (by
      intro x hx
      simp only [List.mem_cons, List.not_mem_nil, or_false] at hx
      rcases hx with rfl | rfl | rfl
      · exact (by decide +kernel : ev 1 ∈ sorted.events ∧ ev 1 ∈ resorted.events)
      · exact (by decide +kernel : ev 1 ∈ leafy.events ∧ ev 1 ∈ leafless.events)
      · exact (by decide +kernel : ev 2 ∈ sorted.events ∧ ev 2 ∈ resorted.events))
  exact ⟨h, h', hr, of_decide_eq_true hs, h1, h2⟩

/-- C124 applies to the machines of C116. -/
def messyG (i : Bool) : Machine := if i then leafy else shelf
def neatG (i : Bool) : Machine := if i then leafless else reshelf
def messyLocsG (i : Bool) : List (Name × StTy) := if i then [(0, .st 1), (0, .st 2)] else allLocs shelf

/-- The second machine is called by the first one while that moves, and calls it back. -/
def teasingG (i : Bool) (c : Nat) : List (Bool × Op Nat) :=
  if c = 3 ∧ i = false then [(true, .process (ev 0) 8)]
  else if c = 1 ∧ i = true then [(false, .process (ev 0) 9)] else []

theorem teasingG_all {Q : Bool → Op Nat → Prop} (h0 : Q true (.process (ev 0) 8)) (h1 : Q false (.process (ev 0) 9)) :
    ∀ i c, ∀ x ∈ teasingG i c, Q x.1 x.2 := by
  intro i c x hx
  unfold teasingG at hx
  split at hx
  · rw [List.mem_singleton.1 hx]; exact h0
  · split at hx
    · rw [List.mem_singleton.1 hx]; exact h1
    · cases hx

theorem messyG_regular (i : Bool) : (messyG i).RegularG := by
  cases i
  · exact shelf_regularG
  · exact leafy_regularG
theorem messyG_scoped (i : Bool) : (messyG i).ScopedG := by
  cases i
  · exact shelf_scopedG
  · exact leafy_scoped.toG
theorem neatG_regular (i : Bool) : (neatG i).RegularG := by
  cases i
  · exact (shelf_reshelf.1.alikeG shelf_regularG shelf_scopedG).1
  · exact leafless_regularG
theorem neatG_scoped (i : Bool) : (neatG i).ScopedG := by
  cases i
  · exact (shelf_reshelf.1.alikeG shelf_regularG shelf_scopedG).2.1
  · exact leafless_scoped.toG
theorem messyG_neatG (i : Bool) : TidiedG (messyG i) (neatG i) (messyLocsG i) := by
  cases i
  · exact .order shelf_reshelf.1
  · exact .remove leafy_liveG leafy_pruned

example : ∃ h h', RunToGS messyG (semS true quietS teasingG) (fun _ => 7)
      [(false, .process (ev 1) 1), (false, .process (ev 1) 4), (true, .process (ev 1) 2)] h ∧
    h.user = [3, 100, 1, 100, 2, 20, 6, 3] ∧
    RunToGS neatG (semS true quietS teasingG) (fun _ => 7)
      [(false, .process (ev 1) 1), (false, .process (ev 1) 4), (true, .process (ev 1) 2)] h' ∧
    IndistinctS messyG neatG messyLocsG h h' := by
  obtain ⟨h, hr, hs⟩ := exists_runGS messyG (semS true quietS teasingG) (fuel := 5) (n := 5) (d := fun _ => 7) (w := [])
    (ops := [(false, .process (ev 1) 1), (false, .process (ev 1) 4), (true, .process (ev 1) 2)])
    (f := fun h => decide (h.user = [3, 100, 1, 100, 2, 20, 6, 3])) (by decide +kernel)
  let Q : Bool → Op Nat → Prop := fun i => AskG (messyG i) (neatG i)
  obtain ⟨h', h1, h2, -⟩ := C124_tidy (sem := semS true quietS teasingG) messyG_regular messyG_scoped neatG_regular
    neatG_scoped messyG_neatG
    (semS_good (quietS_all (Q := Q)) (teasingG_all (Q := Q)
      (by decide +kernel : ev 0 ∈ leafy.eventsG ∧ ev 0 ∈ leafless.eventsG)
      (by decide +kernel : ev 0 ∈ shelf.eventsG ∧ ev 0 ∈ reshelf.eventsG))) hr (by
      intro x hx
      simp only [List.mem_cons, List.not_mem_nil, or_false] at hx
      rcases hx with rfl | rfl | rfl
      · exact (by decide +kernel : ev 1 ∈ shelf.eventsG ∧ ev 1 ∈ reshelf.eventsG)
      · exact (by decide +kernel : ev 1 ∈ shelf.eventsG ∧ ev 1 ∈ reshelf.eventsG)
      · exact (by decide +kernel : ev 1 ∈ leafy.eventsG ∧ ev 1 ∈ leafless.eventsG))
  exact ⟨h, h', hr, of_decide_eq_true hs, h1, h2⟩

end Ex
end Hsm
