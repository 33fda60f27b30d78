import Verif.PropsMatchR
import Verif.PropsOrder
import Verif.PropsDead

/-!
# The order of rows and rows that are never used, for clients whose callbacks use the machine

C67 and C70 are about clients whose callbacks leave the machine alone.  C114: what they say also holds
for clients whose guards, actions and handlers call the machine back, to any depth.

The two machines are alike at the locations that matter (Alike.lean), so that each location may be paired
with itself in the sense of C112.
-/

namespace Hsm
section
variable {P W : Type} {M M' : Machine} {sem : SemR P W} {K : List (Name × StTy)} {L : Name → StTy → Prop}
variable {d : Dep} {ops : List (Op P)} {s s' : SM P W}

/-! ## Specification vocabulary -/

/-- What a client sees of two machines is the same: the same callbacks called with the same arguments and
the same outcome in the same order, the same effects, the same events waiting, as many regions, and the
regions at the same locations, which are among `L`. -/
structure Indistinct (M M' : Machine) (L : Name → StTy → Prop) (s s' : SM P W) : Prop where
  calls : s.trace.map Call.bare = s'.trace.map Call.bare
  world : s.world = s'.world
  queue : s.queue = s'.queue
  regions : activeRegions M s = activeRegions M' s'
  slots : s.cur.length = s'.cur.length
  places : ∀ (r : Nat) (p : Name) (st : StTy), L p st → (s.cur[r]? = some (some (M.comb p st)) ↔ s'.cur[r]? = some (some (M'.comb p st)))
  inside : ∀ (r k : Nat), s.cur[r]? = some (some k) → ∃ p st, L p st ∧ k = M.comb p st

/-! ## Each location paired with itself -/

/-- Each location paired with itself. -/
def diag (K : List (Name × StTy)) : Pairing := K.map fun x => (x, x)

theorem mem_diag {l l' : Name × StTy} : (l, l') ∈ diag K ↔ l ∈ K ∧ l' = l := by
  unfold diag
  rw [List.mem_map]
  constructor
  · rintro ⟨x, hx, e⟩
    cases e
    exact ⟨hx, rfl⟩
  · rintro ⟨h, rfl⟩
    exact ⟨_, h, rfl⟩

theorem owners_diag {p p' : Name} (h : (diag K).owners p p' = true) : p' = p ∧ ∃ st, (p, st) ∈ K := by
  obtain ⟨⟨l, l'⟩, hx, he⟩ := List.any_eq_true.1 h
  obtain ⟨h1, rfl⟩ := mem_diag.1 hx
  rw [Bool.and_eq_true] at he
  have e1 := of_decide_eq_true he.1
  have e2 := of_decide_eq_true he.2
  exact ⟨e2.symm.trans e1, l'.2, by rw [← e1]; exact h1⟩

/-- The events both machines know. -/
def common (M M' : Machine) : List EventTy := M.events.filter fun ev => decide (ev ∈ M'.events)

theorem mem_common {ev : EventTy} : ev ∈ common M M' ↔ ev ∈ M.events ∧ ev ∈ M'.events := by
  unfold common
  rw [List.mem_filter, decide_eq_true_eq]

theorem rowByRow_diag {xs : List (Name × StTy)} (h : ∀ x ∈ xs, x ∈ K) : RowByRow (diag K).Has xs xs := by
  intro i
  cases hx : xs[i]? with
  | none => trivial
  | some x => exact (mem_diag.2 ⟨h x (List.mem_of_getElem? hx), rfl⟩ : (x, x) ∈ diag K)

/-- As `Alike`, for candidates found in any way. -/
structure AlikeOn (M M' : Machine) (C C' : EventTy → Name → StTy → List Cand) (L : Name → StTy → Prop) : Prop where
  left : ∀ p st, L p st → p ∈ M.composites ∧ st ∈ M.states
  right : ∀ p st, L p st → p ∈ M'.composites ∧ st ∈ M'.states
  root : M'.root = M.root
  rootIn : ∃ st, L M.root st
  initials : ∀ p st, L p st → M'.declaredInitials p = M.declaredInitials p ∧
    ∀ i ∈ M.declaredInitials p, L p (.st i)
  cands : ∀ ev p st, L p st → C' ev p st = C ev p st
  rows : ∀ ev p st cd t, L p st → cd ∈ C ev p st → cd.row? = some t →
    M'.targetLoc t = M.targetLoc t ∧ M'.toRun t = M.toRun t ∧
    (t.internal = false → ∀ l, M.targetLoc t = some l → L l.1 l.2)
  handler : (M'.decl M.root).handler = (M.decl M.root).handler
  ctor : ∀ st, M'.defaultCtor st = M.defaultCtor st
  slots : M'.maxInit = M.maxInit
  anonymous : M'.anonymous = M.anonymous
  historic : M'.historic = M.historic
  deferring : M'.deferring = M.deferring

theorem Alike.on (hA : Alike M M' L) : AlikeOn M M' M.cands M'.cands L :=
  ⟨hA.left, hA.right, hA.root, hA.rootIn, hA.initials, hA.cands, hA.rows, hA.handler, hA.ctor, hA.slots,
    hA.anonymous, hA.historic, hA.deferring⟩

variable {C C' : EventTy → Name → StTy → List Cand}

theorem AlikeOn.selfMade (hA : AlikeOn M M' C C' L) (st : StTy) : M'.selfMade st = M.selfMade st := by
  rw [← Machine.defaultCtor_eq, ← Machine.defaultCtor_eq]; exact hA.ctor st

theorem AlikeOn.likeCands (hA : AlikeOn M M' C C' fun q st => (q, st) ∈ K) (ev : EventTy) (cs : List Cand)
    (h : ∀ cd ∈ cs, ∀ t, cd.row? = some t → M'.targetLoc t = M.targetLoc t ∧ M'.toRun t = M.toRun t ∧
      (t.internal = false → ∀ l, M.targetLoc t = some l → (l.1, l.2) ∈ K)) :
    M.likeCands M' id id (diag K) ev cs cs = true := by
  induction cs with
  | nil => rfl
  | cons cd cs ih =>
    unfold Machine.likeCands
    rw [Bool.and_eq_true, Bool.or_eq_true]
    refine ⟨?_, .inr (ih fun cd hc => h cd (List.mem_cons_of_mem _ hc))⟩
    unfold Machine.likeCand
    cases hr : cd.row? with
    | none => rfl
    | some t =>
      obtain ⟨h1, h2, h3⟩ := h cd List.mem_cons_self t hr
      dsimp only
      rw [h1]
      cases hl : M.targetLoc t with
      | none => rfl
      | some l =>
        have hs : M'.selfMade = M.selfMade := funext hA.selfMade
        have e1 : M'.asks id ev cd t l = M.asks id ev cd t l := by
          unfold Machine.asks; rw [hs]
        have e2 : M'.calls id ev cd t l = M.calls id ev cd t l := by
          unfold Machine.calls cbArgs; rw [hs, h2]
        simp only [e1, e2, decide_true, Bool.true_and]
        cases hi : t.internal with
        | true => rfl
        | false =>
          have hk := mem_diag.2 ⟨h3 hi l hl, rfl⟩
          rw [Bool.false_or]
          split
          · exact Pairing.owners_of hk
          · exact decide_eq_true hk

theorem AlikeOn.likes (hA : AlikeOn M M' C C' fun q st => (q, st) ∈ K) {evs evs' : List EventTy}
    (hE : ∀ ev ∈ evs, ev ∈ evs') : Likes M M' id id (diag K) C C' evs evs' where
  orthogonal := by
    rw [← Machine.parallel_eq, ← Machine.parallel_eq]
    unfold Machine.parallel
    rw [hA.slots]
  anonymous := hA.anonymous.symm
  deferring := hA.deferring.symm
  historic := hA.historic.symm
  handler := by rw [hA.root, hA.handler]
  room := by rw [slotCount_eq, slotCount_eq]; exact hA.slots.symm
  events := hE
  start := by
    obtain ⟨st, hst⟩ := hA.rootIn
    obtain ⟨h1, h2⟩ := hA.initials _ _ hst
    unfold Machine.firsts
    rw [hA.root, h1]
    refine rowByRow_diag fun x hx => ?_
    obtain ⟨i, hi, rfl⟩ := List.mem_map.1 hx
    exact h2 i hi
  faithful _ p p' q q' hp hq := by
    rw [(owners_diag hp).1, (owners_diag hq).1]
  inside l l' h := by
    obtain ⟨h, rfl⟩ := mem_diag.1 h
    exact ⟨fun _ => (hA.right _ _ h).1, fun _ => (hA.left _ _ h).1⟩
  cands l l' h _ ev _ := by
    obtain ⟨h, rfl⟩ := mem_diag.1 h
    rw [hA.cands ev _ _ h]
    exact hA.likeCands ev _ fun cd hc t ht => hA.rows ev _ _ cd t h hc ht
  regions _ l l' h _ := by
    obtain ⟨h, rfl⟩ := mem_diag.1 h
    rw [(hA.initials _ _ h).1]
  memory _ p p' h _ := by
    obtain ⟨rfl, st, hst⟩ := owners_diag h
    obtain ⟨h1, h2⟩ := hA.initials _ _ hst
    unfold Machine.firsts
    rw [h1]
    refine rowByRow_diag fun x hx => ?_
    obtain ⟨i, hi, rfl⟩ := List.mem_map.1 hx
    exact h2 i hi
  view _ l l' h _ := by
    obtain ⟨h, rfl⟩ := mem_diag.1 h
    exact ⟨rfl, (hA.selfMade _).symm⟩

theorem Alike.likes (hA : Alike M M' fun q st => (q, st) ∈ K) :
    Likes M M' id id (diag K) M.cands M'.cands (common M M') M'.events :=
  hA.on.likes fun _ h => (mem_common.1 h).2

theorem Alike.none_common (hA : Alike M M' L) (h : M.anonymous = true) : EventTy.none ∈ common M M' :=
  mem_common.2 ⟨Machine.none_event h, Machine.none_event (hA.anonymous.trans h)⟩

theorem Alike.suits (hA : Alike M M' fun q st => (q, st) ∈ K) :
    Suits M M' (diag K) (common M M') (BothOk (P := P) M M' fun q st => (q, st) ∈ K) := by
  intro op h
  cases op with
  | process ev p =>
    refine ⟨?_, ?_, mem_common.2 h⟩
    · show ev ∈ M.eventIds; rw [← M.events_eq]; exact h.1
    · show ev ∈ M'.eventIds; rw [← M'.events_eq]; exact h.2
  | set r p st =>
    have h1 := hA.left _ _ h
    have h2 := hA.right _ _ h
    rw [Machine.composites_eq, Machine.states_eq] at h1 h2
    exact ⟨h1, h2, mem_diag.2 ⟨h, rfl⟩⟩
  | setDependency d => exact ⟨trivial, trivial, trivial⟩

theorem Peers.indistinct {c c' : Conf P W} (hA : AlikeOn M M' C C' fun q st => (q, st) ∈ K) (hM : M.Laid)
    (hM' : M'.Laid) {evs es es' : List EventTy} {E E' : List Dep → EventTy → Name → StTy → List Entry}
    (h : Peers M M' id id (diag K) evs Eq c c') (hc : Portrait M E es Eq c s) (hc' : Portrait M' E' es' Eq c' s') :
    Indistinct M M' (fun q st => (q, st) ∈ K) s s' := by
  have hid : ∀ k : Call P, k.seen id = k := by intro k; cases k <;> rfl
  have hm := hA.likes (evs := []) (evs' := []) (fun _ h => h)
  have slot : ∀ (r : Nat), (s.cur[r]? = none ∧ s'.cur[r]? = none) ∨
      (s.cur[r]? = some none ∧ s'.cur[r]? = some none) ∨
      ∃ l ∈ K, s.cur[r]? = some (some (M.comb l.1 l.2)) ∧ s'.cur[r]? = some (some (M'.comb l.1 l.2)) := by
    intro r
    rw [hc.cur, hc'.cur, List.getElem?_map, List.getElem?_map]
    have hs := h.slots r
    revert hs
    cases c.slots[r]? with
    | none =>
      cases c'.slots[r]? with
      | none => exact fun _ => .inl ⟨rfl, rfl⟩
      | some o' => exact fun hs => hs.elim
    | some o =>
      cases c'.slots[r]? with
      | none => exact fun hs => hs.elim
      | some o' =>
        cases o with
        | none =>
          cases o' with
          | none => exact fun _ => .inr (.inl ⟨rfl, rfl⟩)
          | some l' => exact fun hs => hs.elim
        | some l =>
          cases o' with
          | none => exact fun hs => hs.elim
          | some l' =>
            intro hs
            obtain ⟨h1, rfl⟩ := mem_diag.1 (show (l, l') ∈ diag K from hs)
            exact .inr (.inr ⟨_, h1, rfl, rfl⟩)
  refine ⟨?_, by rw [hc.world, hc'.world, h.world], by rw [hc.queue, hc'.queue, h.waiting], ?_, ?_, ?_, ?_⟩
  · have := h.calls
    simp only [funext hid, List.map_id'] at this
    rw [hc.trace, hc'.trace]
    exact this
  · unfold activeRegions
    cases ho : M.orthogonal with
    | false => rw [← hm.orthogonal, ho]; rfl
    | true =>
      rw [← hm.orthogonal, ho, if_pos rfl, if_pos rfl, hc.regions ho, hc'.regions (hm.orthogonal ▸ ho), h.active]
  · rw [hc.cur, hc'.cur, List.length_map, List.length_map, h.slots.length]
  · intro r p st hL
    rcases slot r with ⟨h1, h2⟩ | ⟨h1, h2⟩ | ⟨l, hl, h1, h2⟩
    · rw [h1, h2]; simp
    · rw [h1, h2]; simp
    · rw [h1, h2]
      constructor
      · intro e
        cases hM.comb_inj (hA.left _ _ hl).1 (hA.left _ _ hl).2 (Option.some.inj (Option.some.inj e)).symm
        rfl
      · intro e
        cases hM'.comb_inj (hA.right _ _ hl).1 (hA.right _ _ hl).2 (Option.some.inj (Option.some.inj e)).symm
        rfl
  · intro r k hk
    rcases slot r with ⟨h1, -⟩ | ⟨h1, -⟩ | ⟨l, hl, h1, -⟩
    · rw [h1] at hk; cases hk
    · rw [h1] at hk; cases hk
    · rw [h1] at hk
      exact ⟨l.1, l.2, hl, (Option.some.inj (Option.some.inj hk)).symm⟩

/-- Alike machines cannot be told apart from inside callbacks either. -/
theorem Alike.runR (hA : Alike M M' fun q st => (q, st) ∈ K) (hM : M.Regular) (hM' : M'.Regular)
    (hC : M'.ScopesReal ∧ (M'.orthogonal = true → M'.declaredInitials M'.root ≠ []))
    (hg : sem.Good True (BothOk M M' fun q st => (q, st) ∈ K)) (hr : RunToR M sem d ops s)
    (hops : ∀ op ∈ ops, BothOk M M' (fun q st => (q, st) ∈ K) op) :
    ∃ s', RunToR M' sem d ops s' ∧ Indistinct M M' (fun q st => (q, st) ∈ K) s s' ∧
      ∀ (fuel n : Nat) (op : Op P), BothOk M M' (fun q st => (q, st) ∈ K) op →
        (stepR M sem fuel n op s).Rel Eq (Indistinct M M' fun q st => (q, st) ∈ K)
          (stepR M' sem fuel n op s') := by
  have hok := hA.suits (P := P)
  have g1 : sem.Good True (OpOk M) := hg.weaken fun _ h => (hok _ h).1
  have g2 : sem.Good True (OpOk M') := hg.weaken fun _ h => (hok _ h).2.1
  have hS := (C83_reach hM g1 hr).1
  obtain ⟨s', c, c', hr', hc, hc', hp⟩ :=
    RunToR.peers (sem := sem) hA.likes hA.none_common hok hM hM' hC hg hr hops
  refine ⟨s', hr', hp.indistinct hA.on hM.laid hM'.laid hc hc', fun fuel n op ho => ?_⟩
  refine (Meet.carry (C83_step hc hM hS g1 fuel n (hok _ ho).1)
    (C83_step hc' hM' hC.1 g2 fuel n (hok _ ho).2.1)
    (Peers.exec hA.likes hA.none_common hok hg fuel n op ho c c' hp)).weaken ?_
  rintro s s' ⟨c, c', h1, h2, h3⟩
  exact h3.indistinct hA.on hM.laid hM'.laid h1 h2

/-! ## The order of rows -/

theorem RunToR.opsOk (h : RunToR M sem d ops s) : ∀ op ∈ ops, OpOk M op := by
  induction h with
  | init => intro op h; cases h
  | ok _ hop _ ih =>
    intro op h
    rcases List.mem_append.1 h with h | h
    · exact ih op h
    · cases List.mem_singleton.1 h; exact hop
  | throw _ hop _ ih =>
    intro op h
    rcases List.mem_append.1 h with h | h
    · exact ih op h
    · cases List.mem_singleton.1 h; exact hop
  | world _ _ ih => exact ih

/-- The locations of a machine, in a list. -/
def allLocs (M : Machine) : List (Name × StTy) := M.composites.flatMap fun p => M.states.map fun st => (p, st)

theorem mem_allLocs : (fun q st => (q, st) ∈ allLocs M) = M.Loc := by
  funext q st
  refine propext ⟨fun h => ?_, fun h => ?_⟩
  · obtain ⟨p, hp, hx⟩ := List.mem_flatMap.1 h
    obtain ⟨t, ht, e⟩ := List.mem_map.1 hx
    cases e
    exact ⟨hp, ht⟩
  · exact List.mem_flatMap.2 ⟨q, h.1, List.mem_map.2 ⟨st, h.2, rfl⟩⟩

/-- C114: if rows that do not compete are exchanged, then whatever a client has done with the machine, also
from inside its callbacks, it can have done with the other, and sees the same; and the next call has the
same outcome on both, to any depth of calls from inside. -/
theorem C114_order (hM : M.Regular) (hS : M.Scoped) (hR : Machine.Reordered M M')
    (hg : sem.Good True (OpOk M)) (hr : RunToR M sem d ops s) :
    ∃ s', RunToR M' sem d ops s' ∧ Indistinct M M' M.Loc s s' ∧
      ∀ (fuel n : Nat) (op : Op P), OpOk M op →
        (stepR M sem fuel n op s).Rel Eq (Indistinct M M' M.Loc) (stepR M' sem fuel n op s') := by
  obtain ⟨h1, h2, h3, h4, h5⟩ := hR.alike hM hS
  have hb : ∀ op : Op P, OpOk M op → BothOk M M' M.Loc op := fun op ho =>
    bothOk_of_opOk h4 (fun _ _ a b => ⟨a, b⟩) ho
  rw [← mem_allLocs] at h3 hb ⊢
  obtain ⟨s', k1, k2, k3⟩ := h3.runR hM h1 ⟨(Machine.scopesReal_iff h1).2 ⟨h2.src, h2.comp⟩, fun _ => h2.rootInit⟩
    (hg.weaken hb) hr (fun op ho => hb op (hr.opsOk op ho))
  exact ⟨s', k1, k2, fun fuel n op ho => k3 fuel n op (hb op ho)⟩

/-- C114, the other way round: nothing new becomes possible. -/
theorem C114_order_back (hM : M.Regular) (hS : M.Scoped) (hR : Machine.Reordered M M')
    (hg : sem.Good True (OpOk M')) (hr : RunToR M' sem d ops s') :
    ∃ s, RunToR M sem d ops s ∧ Indistinct M' M M.Loc s' s ∧
      ∀ (fuel n : Nat) (op : Op P), OpOk M' op →
        (stepR M' sem fuel n op s').Rel Eq (Indistinct M' M M.Loc) (stepR M sem fuel n op s) := by
  obtain ⟨h1, h2, h3, h4, h5⟩ := hR.alike hM hS
  have hb : ∀ op : Op P, OpOk M' op → BothOk M' M M.Loc op := fun op ho =>
    bothOk_of_opOk (fun e => (h4 e).symm) (fun q st a b => (h5 q st).1 ⟨a, b⟩) ho
  rw [← mem_allLocs] at h3 hb ⊢
  obtain ⟨s', k1, k2, k3⟩ := h3.symm.runR h1 hM ⟨(Machine.scopesReal_iff hM).2 ⟨hS.src, hS.comp⟩, fun _ => hS.rootInit⟩
    (hg.weaken hb) hr (fun op ho => hb op (hr.opsOk op ho))
  exact ⟨s', k1, k2, fun fuel n op ho => k3 fuel n op (hb op ho)⟩

/-! ## Rows that are not needed -/

/-- C114: a row that is not needed can be removed, and a client whose calls, from outside and from inside
its callbacks, both machines accept and set only locations among `K` sees the same. -/
theorem C114_remove (hM : M.Regular) (hS : M.Scoped) (hM' : M'.Regular) (hS' : M'.Scoped)
    (hL : M.Live K) (hp : Machine.Pruned M.Removable M M' K) (hg : sem.Good True (Ask M M' K))
    (hr : RunToR M sem d ops s) (hops : ∀ op ∈ ops, Ask M M' K op) :
    ∃ s', RunToR M' sem d ops s' ∧ Indistinct M M' (fun q st => (q, st) ∈ K) s s' ∧
      ∀ (fuel n : Nat) (op : Op P), Ask M M' K op →
        (stepR M sem fuel n op s).Rel Eq (Indistinct M M' fun q st => (q, st) ∈ K)
          (stepR M' sem fuel n op s') := by
  obtain ⟨s', k1, k2, k3⟩ := (hp.alike hS hL).runR hM hM'
    ⟨(Machine.scopesReal_iff hM').2 ⟨hS'.src, hS'.comp⟩, fun _ => hS'.rootInit⟩
    (hg.weaken fun _ h => h.both) hr (fun op ho => (hops op ho).both)
  exact ⟨s', k1, k2, fun fuel n op ho => k3 fuel n op ho.both⟩

/-- C114, the other way round: a row that is not needed can be added. -/
theorem C114_add (hM : M.Regular) (hS : M.Scoped) (hM' : M'.Regular)
    (hL : M.Live K) (hp : Machine.Pruned M.Removable M M' K) (hg : sem.Good True (Ask M M' K))
    (hr : RunToR M' sem d ops s') (hops : ∀ op ∈ ops, Ask M M' K op) :
    ∃ s, RunToR M sem d ops s ∧ Indistinct M' M (fun q st => (q, st) ∈ K) s' s ∧
      ∀ (fuel n : Nat) (op : Op P), Ask M M' K op →
        (stepR M' sem fuel n op s').Rel Eq (Indistinct M' M fun q st => (q, st) ∈ K)
          (stepR M sem fuel n op s) := by
  have hb : ∀ op : Op P, Ask M M' K op → BothOk M' M (fun q st => (q, st) ∈ K) op := by
    intro op ho
    cases op with
    | process ev p => exact ⟨ho.2, ho.1⟩
    | set => exact ho
    | setDependency => trivial
  obtain ⟨s', k1, k2, k3⟩ := (hp.alike hS hL).symm.runR hM' hM
    ⟨(Machine.scopesReal_iff hM).2 ⟨hS.src, hS.comp⟩, fun _ => hS.rootInit⟩
    (hg.weaken hb) hr (fun op ho => hb op (hops op ho))
  exact ⟨s', k1, k2, fun fuel n op ho => k3 fuel n op (hb op ho)⟩

end

/-! ## Examples -/

namespace Ex

/-- A client that hands the machine an event, and then puts it elsewhere, while it is on its way from
state 1 to state 2. -/
def fickle : SemR Nat (List Nat) :=
  semR (fun _ => true) never (only 3 [.process (ev 0) 9, .set 0 0 (.st 2)])

theorem fickle_good : fickle.Good True (OpOk sorted) :=
  semR_good never_all (only_all fun op h => by
    rcases List.mem_cons.1 h with rfl | h
    · show ev 0 ∈ sorted.eventIds
      decide +kernel
    · rw [List.mem_singleton.1 h]
      show 0 ∈ sorted.parents ∧ StTy.st 2 ∈ sorted.stateIds
      decide +kernel)

/-- It sees no difference when the rows are exchanged. -/
example : ∃ s s', RunToR sorted fickle 7 [.process (ev 1) 1, .process (ev 0) 2, .process (ev 2) 3] s ∧
    s.world = [3, 100, 2, 100, 2, 4] ∧
    RunToR resorted fickle 7 [.process (ev 1) 1, .process (ev 0) 2, .process (ev 2) 3] s' ∧
    Indistinct sorted resorted sorted.Loc s s' := by
  obtain ⟨s, h, hs⟩ := exists_runR sorted fickle (fuel := 6) (n := 4) (d := 7) (w := [])
    (ops := [.process (ev 1) 1, .process (ev 0) 2, .process (ev 2) 3])
    (f := fun s => decide (s.world = [3, 100, 2, 100, 2, 4])) (by decide +kernel)
  obtain ⟨s', h1, h2, -⟩ := C114_order sorted_regular sorted_scoped sorted_resorted.1 fickle_good h
  exact ⟨s, s', h, of_decide_eq_true hs, h1, h2⟩

/-- A client of the same kind for the machine with a row that is not needed. -/
def dizzy : SemR Nat (List Nat) := semR (fun _ => true) never (only 1 [.process (ev 1) 9, .set 0 0 (.st 2)])

theorem dizzy_asks : ∀ op ∈ ([.process (ev 1) 9, .set 0 0 (.st 2)] : List (Op Nat)),
    Ask leafy leafless [(0, .st 1), (0, .st 2)] op := by
  intro op h
  rcases List.mem_cons.1 h with rfl | h
  · show ev 1 ∈ leafy.events ∧ ev 1 ∈ leafless.events
    decide +kernel
  · rw [List.mem_singleton.1 h]
    show ((0, .st 2) : Name × StTy) ∈ [(0, .st 1), (0, .st 2)]
    decide +kernel

/-- It sees no difference when the row is removed. -/
example : ∃ s s', RunToR leafy dizzy 7 [.process (ev 0) 1, .process (ev 1) 2] s ∧
    s.world = [100, 1, 3, 20, 3] ∧ RunToR leafless dizzy 7 [.process (ev 0) 1, .process (ev 1) 2] s' ∧
    s'.world = [100, 1, 3, 20, 3] := by
  obtain ⟨s, h, hs⟩ := exists_runR leafy dizzy (fuel := 6) (n := 4) (d := 7) (w := [])
    (ops := [.process (ev 0) 1, .process (ev 1) 2])
    (f := fun s => decide (s.world = [100, 1, 3, 20, 3])) (by decide +kernel)
  obtain ⟨s', h1, h2, -⟩ := C114_remove leafy_regular leafy_scoped leafless_regular leafless_scoped
    leafy_live leafy_pruned (sem := dizzy) (semR_good never_all (only_all dizzy_asks)) h (by
      intro op ho
      rcases List.mem_cons.1 ho with rfl | ho
      · show ev 0 ∈ leafy.events ∧ ev 0 ∈ leafless.events
        decide +kernel
      · rw [List.mem_singleton.1 ho]
        show ev 1 ∈ leafy.events ∧ ev 1 ∈ leafless.events
        decide +kernel)
  exact ⟨s, s', h, of_decide_eq_true hs, h1, by rw [← h2.world]; exact of_decide_eq_true hs⟩

/-- Nor when it is added back. -/
example {d : Dep} {ops : List (Op Nat)} {s' : SM Nat (List Nat)} (h : RunToR leafless dizzy d ops s')
    (hops : ∀ op ∈ ops, Ask leafy leafless [(0, .st 1), (0, .st 2)] op) :
    ∃ s, RunToR leafy dizzy d ops s ∧ s'.world = s.world := by
  obtain ⟨s, h1, h2, -⟩ := C114_add leafy_regular leafy_scoped leafless_regular
    leafy_live leafy_pruned (sem := dizzy) (semR_good never_all (only_all dizzy_asks)) h hops
  exact ⟨s, h1, h2.world⟩

end Ex
end Hsm
