import Verif.PropsPlacesGenR

/-!
# C133: guards that wait for each other

If the first guard a call comes to makes another such call, of the same machine or another one, and so on, the
call does not end.  C127 and C128 say that calls end in layered programs; this is what happens without layers.
-/

namespace Hsm

/-! ## Specification -/

section
variable {ι P W : Type}

/-- Region 0 is at a location at which the first row that applies to `ev` has guard `g`. -/
def AsksFirst (M : Machine) (C : EventTy → Name → StTy → List Cand) (ev : EventTy) (g : Cb)
    (cur : List (Option Nat)) : Prop :=
  ∃ p ∈ M.composites, ∃ st ∈ M.states, cur[0]? = some (some (M.comb p st)) ∧
    ∃ cd rest t, C ev p st = cd :: rest ∧ cd.row? = some t ∧ t.guard = some g

/-- Calls `K` wait for each other in worlds `V`: region 0 of the machine is active, the first row that applies to
the event has a guard, and this guard begins with another call of this kind. -/
structure Circular (Ms : ι → Machine) (C : ι → EventTy → Name → StTy → List Cand) (sem : SemS ι P W)
    (K : ι → EventTy → P → Prop) (V : W → Prop) (h : Hub ι P W) : Prop where
  user : V h.user
  active : ∀ i ev pl, K i ev pl → 0 < activeRegions (Ms i) (h.parts i)
  objects : ∀ i ev pl, K i ev pl → ∀ st w, V w → (Ms i).selfMade st = true ∨ sem.alive i st w = true
  waits : ∀ i ev pl, K i ev pl → ∃ g, AsksFirst (Ms i) (C i) ev g (h.parts i).cur ∧
    ∀ args w, args.event = ev → V w → ∃ j ev' pl' w' k,
      sem.guard i g args pl w = .call j (.process ev' pl') w' k ∧ K j ev' pl' ∧ V w'

end

/-! ## What is in the table -/

section
variable {P W : Type} {M : Machine} {sem : SemR P W} {C : EventTy → Name → StTy → List Cand}

/-- The table has the entries of the candidates for each dependency the machine was given. -/
def Furnished (M : Machine) (C : EventTy → Name → StTy → List Cand) (s : SM P W) : Prop :=
  ∃ d ds, ∀ ev, ∀ p ∈ M.composites, ∀ st ∈ M.states,
    s.table ev (M.comb p st) = (d :: ds).flatMap fun d => (C ev p st).filterMap (M.entryOfCand d)

theorem Furnished.of_eq {s s' : SM P W} (h : Furnished M C s) (h1 : s'.table = s.table) : Furnished M C s' := by
  unfold Furnished
  rw [h1]
  exact h

theorem KeepsLoop.furnished {Q : Op P → Prop} (hg : sem.Good True Q) :
    KeepsLoop M sem (fun _ => True) Q (fun _ => True) (Furnished M C) (fun _ _ _ _ => True) where
  toRuns := .of hg (fun _ _ h => h.of_eq rfl)
  traced := fun _ _ _ _ h _ _ => h.of_eq rfl
  obj := fun _ _ _ _ => trivial
  regions := fun _ _ _ _ => trivial
  look := fun _ _ _ _ => Or.inl fun _ => trivial
  entry := fun _ _ _ _ _ _ _ _ _ _ _ => trivial
  null := fun _ _ _ _ _ _ _ _ => trivial
  stay := fun _ _ _ _ _ _ _ _ _ _ _ _ _ => trivial
  iter := fun _ _ _ _ _ _ _ _ _ _ _ _ => trivial
  move := by
    intro s ev r e x h _ _ _ _ _
    cases hu : updateState M r e s with
    | ok a s' =>
      rcases updateState_ok hu with ⟨_, rfl⟩ | hm
      · exact h
      · exact h.of_eq hm.table
    | throw x s' => exact absurd hu updateState_throw
    | ub u => trivial
    | timeout => trivial
  push := fun _ _ _ _ _ h _ _ => h.of_eq rfl
  pop := fun _ _ _ _ h _ => h.of_eq rfl
  handler := fun _ _ _ _ _ => fun _ => Or.inl fun _ => trivial

theorem Keeps.furnished (hM : M.Regular) (hg : sem.Good True (OpOk M)) :
    Keeps M sem (fun _ => True) (OpOk M) (fun _ => True) (Furnished M M.cands) (fun _ _ _ _ => True) :=
  { KeepsLoop.furnished hg with
    opOk := fun _ h => h
    set := fun _ _ _ _ _ h _ => h.of_eq rfl
    dep := by
      intro s d' _ h
      unfold setDependency
      split
      · rename_i T hT
        obtain ⟨d, ds, h⟩ := h
        refine ⟨d', d :: ds, fun ev p hp st hst => ?_⟩
        rw [List.flatMap_cons, ← h ev p hp st hst]
        exact Machine.fill_spec hM hT ev hp hst
      · trivial }

theorem KeepsG.furnished (hM : M.RegularG) {D : Dep → Prop} (hg : sem.Good True (GivesDG M D)) :
    KeepsG M sem (fun _ => True) (GivesDG M D) (fun _ => True) (Furnished M M.candsG) (fun _ _ _ _ => True) :=
  { KeepsLoop.furnished hg with
    known := fun _ _ h => h.known hM
    dep := by
      intro s d' _ h
      unfold setDependencyG
      cases hT : M.fillG d' s.table with
      | error u => trivial
      | ok T =>
        obtain ⟨d, ds, h⟩ := h
        refine ⟨d', d :: ds, fun ev p hp st hst => ?_⟩
        rw [List.flatMap_cons, ← h ev p hp st hst]
        exact Machine.fillG_spec hM hT ev hp hst }

theorem furnished_construct (hM : M.Regular) {d : Dep} {w : W} {s : SM P W} (hs : construct M d w = .ok s) :
    Furnished M M.cands s := by
  obtain ⟨_, _, hT, _⟩ := construct_ok hs
  refine ⟨d, [], fun ev p hp st hst => ?_⟩
  rw [Machine.fill_spec hM hT ev hp hst]
  simp

theorem furnished_constructG (hM : M.RegularG) {d : Dep} {w : W} {s : SM P W} (hs : constructG M d w = .ok s) :
    Furnished M M.candsG s := by
  obtain ⟨H, T, _, hT, hI⟩ := constructG_ok hs
  obtain ⟨_, hTs, _⟩ := initState_ok hI
  refine ⟨d, [], fun ev p hp st hst => ?_⟩
  rw [hTs, Machine.fillG_spec hM hT ev hp hst]
  simp

/-- The first entry of a cell belongs to the first candidate. -/
theorem Furnished.first {s : SM P W} (h : Furnished M C s) (hloc : ∀ ev p st, ∀ cd ∈ C ev p st, ∀ t, cd.row? = some t →
    ∃ l, M.targetLoc t = some l) {ev : EventTy} {p : Name} {st : StTy} (hp : p ∈ M.composites) (hst : st ∈ M.states)
    {cd : Cand} {rest : List Cand} {t : XRow} (hc : C ev p st = cd :: rest) (hrow : cd.row? = some t) :
    ∃ e es x, s.table ev (M.comb p st) = e :: es ∧ e.tr = some x ∧ e.defer = false ∧ x.guard = t.guard := by
  obtain ⟨d, ds, h⟩ := h
  obtain ⟨l, hl⟩ := hloc ev p st cd (by simp [hc]) t hrow
  obtain ⟨e, x, he, hx, hd, _, _, _, hgd, _⟩ := entryOfCand_full (M := M) (d := d) hrow hl
  refine ⟨e, rest.filterMap (M.entryOfCand d) ++ ds.flatMap fun d => (C ev p st).filterMap (M.entryOfCand d), x, ?_,
    hx, hd, hgd⟩
  rw [h ev p hp st hst, List.flatMap_cons]
  conv => lhs; arg 1; rw [hc, List.filterMap_cons_some he]
  rfl

/-- If the first guard does not answer, neither does the machine. -/
theorem loop_waits {call : Op P → SM P W → Res (SM P W) Bool} {s : SM P W} {ev : EventTy} {pl : P} {c : Nat} {e : Entry}
    {es : List Entry} {x : Exec} {g : Cb} (hact : 0 < activeRegions M s) (hcur : s.cur[0]? = some (some c))
    (hlt : c < M.size) (ht : s.table ev c = e :: es) (hd : e.defer = false) (hx : e.tr = some x)
    (hgd : x.guard = some g) (hobj : ∀ st, objOkR M sem st s = true)
    (hcall : ∀ args : Args, args.event = ev → runProg call (sem.guard g args pl s.world) s = .timeout) (agf ati : Bool) :
    regionLoopR M sem call ev (List.range (currentRegions M s)) agf ati pl s = .timeout := by
  have hex : execGuardR M sem call x ev pl s = .timeout := by
    unfold execGuardR
    rw [hgd]
    dsimp only
    rw [hobj, hobj]
    unfold runCb
    rw [if_pos (by rfl), hcall _ rfl]
  have htry : tryEntriesR M sem call 0 ev c (e :: es).length (e :: es) pl s = .timeout := by
    unfold tryEntriesR
    rw [if_neg (by simp [hd]), hx]
    dsimp only
    rw [hex]
    rfl
  have hreg : regionStepR M sem call 0 ev pl s = .timeout := by
    unfold regionStepR readCur
    rw [hcur]
    dsimp only [Res.bind]
    rw [if_pos hlt, ht]
    exact htry
  obtain ⟨k, hk⟩ : ∃ k, currentRegions M s = k + 1 := by
    rw [currentRegions_eq]; exact ⟨activeRegions M s - 1, by omega⟩
  rw [hk, List.range_succ_eq_map]
  unfold regionLoopR
  rw [hreg]
  rfl

end

/-! ## C133 -/

section
variable {ι P W : Type} [DecidableEq ι] {Ms : ι → Machine} {sem : SemS ι P W} {d : ι → Dep}
  {ops : List (ι × Op P)} {h : Hub ι P W} {C : ι → EventTy → Name → StTy → List Cand}
  {K : ι → EventTy → P → Prop} {V : W → Prop}

/-- The loop of a machine whose guard waits; calls on machines that have not changed do not end. -/
theorem Circular.loop (hC : Circular Ms C sem K V h) (hL : ∀ i, (Ms i).Laid)
    (hloc : ∀ i ev p st, ∀ cd ∈ C i ev p st, ∀ t, cd.row? = some t → ∃ l, (Ms i).targetLoc t = some l)
    (hT : ∀ i, Furnished (Ms i) (C i) (h.parts i)) {step : ι → Op P → Hub ι P W → Res (Hub ι P W) Bool}
    (hstep : ∀ w j ev pl, V w → K j ev pl → step j (.process ev pl) ⟨w, h.parts, none⟩ = .timeout) {o : Op P} {i : ι}
    {ev : EventTy} {pl : P} (hK : K i ev pl) {h' : Hub ι P W} (hp : h'.parts = h.parts) (hV : V h'.user) (agf ati : Bool) :
    regionLoopR (Ms i) (sem.at i o) (nested step i) ev (List.range (currentRegions (Ms i) (h'.fetch i))) agf ati pl
      (h'.fetch i) = .timeout := by
  obtain ⟨g, ⟨p, hpc, st, hst, hcur, cd, rest, t, hc, hrow, hg⟩, hask⟩ := hC.waits i ev pl hK
  obtain ⟨e, es, x, ht, hx, hd, hgd⟩ := (hT i).first (hloc i) hpc hst hc hrow
  have hfetch : h'.fetch i = (h.parts i).rebase { h' with request := none } := by unfold Hub.fetch; rw [hp]
  refine loop_waits (c := (Ms i).comb p st) (e := e) (es := es) (x := x) (g := g) ?_ ?_ ((hL i).comb_lt.2 ⟨hpc, hst⟩) ?_
    hd hx (hgd.trans hg) ?_ ?_ agf ati
  · rw [hfetch]; exact hC.active i ev pl hK
  · rw [hfetch]; exact hcur
  · rw [hfetch]; exact ht
  · intro st'
    unfold objOkR
    rw [Machine.defaultCtor_eq, Bool.or_eq_true]
    exact hC.objects i ev pl hK st' _ hV
  · intro args ha
    obtain ⟨j, ev', pl', w', k, hq, hK', hV'⟩ := hask args h'.user ha hV
    show runProg _ (SProg.prog o (sem.guard i g args pl h'.user) h'.parts) _ = _
    rw [hq]
    have hstore : (⟨w', h'.parts, some (j, .process ev' pl')⟩ : Hub ι P W).store i
        { h'.fetch i with world := ⟨w', h'.parts, some (j, .process ev' pl')⟩ } = ⟨w', h.parts, none⟩ := by
      unfold Hub.store
      congr 1
      funext j'
      by_cases hj : j' = i
      · subst hj; rw [if_pos rfl, hfetch]; rfl
      · rw [if_neg hj, hp]
    have hn : nested step i o { h'.fetch i with world := ⟨w', h'.parts, some (j, .process ev' pl')⟩ } = .timeout := by
      show ((step j (.process ev' pl') (Hub.store ⟨w', h'.parts, some (j, .process ev' pl')⟩ i
        { h'.fetch i with world := ⟨w', h'.parts, some (j, .process ev' pl')⟩ })).back i) = .timeout
      rw [hstore, hstep w' j ev' pl' hV' hK']
      rfl
    unfold SProg.prog runProg
    rw [hn]

/-- C133: calls that wait for each other do not end, whatever the bounds. -/
theorem C133_waits (hM : ∀ i, (Ms i).Regular) (hg : sem.Good True (fun i => OpOk (Ms i)))
    (hr : RunToS Ms sem d ops h) (hC : Circular Ms (fun i => (Ms i).cands) sem K V h) (fuel n : Nat) {i : ι}
    {ev : EventTy} {pl : P} (hK : K i ev pl) : stepS Ms sem fuel n i (.process ev pl) h = .timeout := by
  have hT : ∀ i, Furnished (Ms i) (Ms i).cands (h.parts i) := fun i =>
    (hr.inv (I := fun i => Furnished (Ms i) (Ms i).cands) (fun i o ho => Keeps.furnished (hM i) (hg.at i ho))
      (fun _ _ _ h => h.of_eq rfl) hg (fun i _ _ h => furnished_construct (hM i) h) hr.opOk i h).of_eq rfl
  have key : ∀ n, ∀ (h' : Hub ι P W) i ev pl, h'.parts = h.parts → V h'.user → K i ev pl →
      stepS Ms sem fuel n i (.process ev pl) h' = .timeout := by
    intro n
    induction n with
    | zero => intros; rfl
    | succ n ih =>
      intro h' i ev pl hp hV hK
      show (processEventR _ _ _ _ _ _ _).home i = _
      unfold processEventR processInternalR
      rw [hC.loop (fun i => (hM i).laid) (fun i ev p st cd hcd t ht =>
        have ⟨_, l, hl, _⟩ := (hM i).cand_loc hcd ht; ⟨l, hl⟩) hT
        (fun w j ev pl hV hK => ih ⟨w, h.parts, none⟩ j ev pl rfl hV hK) hK hp hV]
      rfl
  exact key n h i ev pl rfl hC.user hK

/-- C133 for the amalgamated header. -/
theorem C133_waitsG (hM : ∀ i, (Ms i).RegularG) (hg : sem.Good True (fun i => OpOkGR (Ms i)))
    (hr : RunToGS Ms sem d ops h) (hC : Circular Ms (fun i => (Ms i).candsG) sem K V h) (fuel n : Nat) {i : ι}
    {ev : EventTy} {pl : P} (hK : K i ev pl) : stepGS Ms sem fuel n i (.process ev pl) h = .timeout := by
  have hg' : sem.Good True (fun i => GivesDG (Ms i) fun _ => True) := hg.mono id fun _ _ h => ⟨h, fun _ _ => trivial⟩
  have hT : ∀ i, Furnished (Ms i) (Ms i).candsG (h.parts i) := fun i =>
    (hr.inv (I := fun i => Furnished (Ms i) (Ms i).candsG) (fun i o ho => KeepsG.furnished (hM i) (hg'.at i ho))
      (fun _ _ _ h => h.of_eq rfl) hg' (fun i _ _ h => furnished_constructG (hM i) h)
      (fun x hx => ⟨hr.opOk x hx, fun _ _ => trivial⟩) i h).of_eq rfl
  have key : ∀ n, ∀ (h' : Hub ι P W) i ev pl, h'.parts = h.parts → V h'.user → K i ev pl →
      stepGS Ms sem fuel n i (.process ev pl) h' = .timeout := by
    intro n
    induction n with
    | zero => intros; rfl
    | succ n ih =>
      intro h' i ev pl hp hV hK
      show ((processEventGR _ _ _ _ _ _ _).bind _).home i = _
      unfold processEventGR processInternalGR
      rw [hC.loop (fun i => (hM i).laid) (fun i ev p st cd hcd t ht => by
          rcases (hM i).cand_loc hcd with rfl | ⟨t', ht', _, l, hl, _⟩
          · cases ht
          · cases ht.symm.trans ht'; exact ⟨l, hl⟩) hT
        (fun w j ev pl hV hK => ih ⟨w, h.parts, none⟩ j ev pl rfl hV hK) hK hp hV]
      rfl
  exact key n h i ev pl rfl hC.user hK

end

/-! ## Two machines that wait for each other -/

namespace Ex

/-- Guard 100 of each machine first sends event 0 to the other one. -/
def afterYou (i : Bool) (g : Nat) : List (Bool × Op Nat) := if g = 100 then [(!i, .process (ev 0) 0)] else []

theorem afterYou_all {Q : Bool → Op Nat → Prop} (h : ∀ i, Q i (.process (ev 0) 0)) :
    ∀ i c, ∀ x ∈ afterYou i c, Q x.1 x.2 := by
  intro i c x hx
  unfold afterYou at hx
  split at hx
  · rw [List.mem_singleton.1 hx]; exact h _
  · cases hx

/-- Both machines are in state 1, where guard 100 is the first to be asked about event 0. -/
theorem afterYou_circular {C : EventTy → Name → StTy → List Cand} {h : Hub Bool Nat (List Nat)}
    (hcur : ∀ i, (h.parts i).cur[0]? = some (some (hop.comb 0 (.st 1))))
    (hC : ∃ cd rest t, C (ev 0) 0 (.st 1) = cd :: rest ∧ cd.row? = some t ∧ t.guard = some 100) :
    Circular twins (fun _ => C) (semS true afterYou quietS) (fun _ e _ => e = ev 0) (fun _ => True) h where
  user := trivial
  active := by
    intro i _ _ _
    show 0 < (if hop.orthogonal then (h.parts i).regions else 1)
    rw [show hop.orthogonal = false by decide +kernel]
    exact Nat.one_pos
  objects := fun _ _ _ _ _ _ _ => Or.inr rfl
  waits := by
    rintro i _ pl rfl
    exact ⟨100, ⟨0, (by decide +kernel : (0 : Name) ∈ hop.composites), .st 1, (by decide +kernel : StTy.st 1 ∈ hop.states), hcur i, hC⟩, fun args w _ _ =>
      ⟨!i, ev 0, 0, w ++ [100], _, rfl, rfl, trivial⟩⟩

end Ex

open Ex in
/-- C133: the layers of C127 are needed.  Two machines without anonymous rows; the guard of each first
sends an event to the other.  No call of either ends. -/
theorem C133_rivals : ∃ (Ms : Bool → Machine) (sem : SemS Bool Nat (List Nat)) (d : Bool → Dep)
    (h : Hub Bool Nat (List Nat)) (e : EventTy), (∀ i, (Ms i).Regular ∧ (Ms i).anonymous = false) ∧
    sem.Good False (fun i => OpOk (Ms i)) ∧ RunToS Ms sem d [] h ∧
    ∀ fuel n i pl, OpOk (Ms i) (.process e pl) ∧ stepS Ms sem fuel n i (.process e pl) h = .timeout := by
  obtain ⟨h, hr, hs⟩ := exists_runS twins (semS true afterYou quietS) (fuel := 1) (n := 1) (d := fun _ => 7) (w := [])
    (ops := []) (f := fun h => (h.parts false).cur == [some (hop.comb 0 (.st 1))] &&
      (h.parts true).cur == [some (hop.comb 0 (.st 1))]) (by decide +kernel)
  simp only [Bool.and_eq_true, beq_iff_eq] at hs
  have hg : ∀ {U}, (semS true afterYou quietS).Good U (fun i => OpOk (twins i)) :=
    semS_good (afterYou_all (Q := fun i => OpOk (twins i)) fun _ => hop_ok 0 (by decide) 0)
      (quietS_all (Q := fun i => OpOk (twins i)))
  refine ⟨twins, _, _, h, ev 0, fun _ => ⟨hop_regular, (by decide +kernel : hop.anonymous = false)⟩, hg, hr, fun fuel n i pl =>
    ⟨hop_ok 0 (by decide) pl, C133_waits (fun _ => hop_regular) hg hr (afterYou_circular (fun i => ?_) ?_) fuel n rfl⟩⟩
  · cases i
    · rw [hs.1]; rfl
    · rw [hs.2]; rfl
  · have : (match hop.cands (ev 0) 0 (.st 1) with
        | cd :: _ => (cd.row?.map (·.guard)) == some (some 100)
        | [] => false) = true := by decide +kernel
    show ∃ cd rest t, hop.cands (ev 0) 0 (.st 1) = _ ∧ _
    revert this
    cases hop.cands (ev 0) 0 (.st 1) with
    | nil => intro h; cases h
    | cons cd rest =>
      intro h
      obtain ⟨t, ht, hgd⟩ := Option.map_eq_some_iff.1 (eq_of_beq h)
      exact ⟨cd, rest, t, rfl, ht, hgd⟩

open Ex in
/-- C133: so are those of C128. -/
theorem C133_rivalsG : ∃ (Ms : Bool → Machine) (sem : SemS Bool Nat (List Nat)) (d : Bool → Dep)
    (h : Hub Bool Nat (List Nat)) (e : EventTy), (∀ i, (Ms i).RegularG ∧ (Ms i).anonymous = false) ∧
    sem.Good False (fun i => OpOkGR (Ms i)) ∧ RunToGS Ms sem d [] h ∧
    ∀ fuel n i pl, OpOkGR (Ms i) (.process e pl) ∧ stepGS Ms sem fuel n i (.process e pl) h = .timeout := by
  obtain ⟨h, hr, hs⟩ := exists_runGS twins (semS true afterYou quietS) (fuel := 1) (n := 1) (d := fun _ => 7) (w := [])
    (ops := []) (f := fun h => (h.parts false).cur == [some (hop.comb 0 (.st 1))] &&
      (h.parts true).cur == [some (hop.comb 0 (.st 1))]) (by decide +kernel)
  simp only [Bool.and_eq_true, beq_iff_eq] at hs
  have hg : ∀ {U}, (semS true afterYou quietS).Good U (fun i => OpOkGR (twins i)) :=
    semS_good (afterYou_all (Q := fun i => OpOkGR (twins i)) fun _ => hop_okG 0 (by decide) 0)
      (quietS_all (Q := fun i => OpOkGR (twins i)))
  refine ⟨twins, _, _, h, ev 0, fun _ => ⟨hop_regularG, (by decide +kernel : hop.anonymous = false)⟩, hg, hr, fun fuel n i pl =>
    ⟨hop_okG 0 (by decide) pl, C133_waitsG (fun _ => hop_regularG) hg hr (afterYou_circular (fun i => ?_) ?_) fuel n rfl⟩⟩
  · cases i
    · rw [hs.1]; rfl
    · rw [hs.2]; rfl
  · have : (match hop.candsG (ev 0) 0 (.st 1) with
        | cd :: _ => (cd.row?.map (·.guard)) == some (some 100)
        | [] => false) = true := by decide +kernel
    show ∃ cd rest t, hop.candsG (ev 0) 0 (.st 1) = _ ∧ _
    revert this
    cases hop.candsG (ev 0) 0 (.st 1) with
    | nil => intro h; cases h
    | cons cd rest =>
      intro h
      obtain ⟨t, ht, hgd⟩ := Option.map_eq_some_iff.1 (eq_of_beq h)
      exact ⟨cd, rest, t, rfl, ht, hgd⟩

end Hsm
