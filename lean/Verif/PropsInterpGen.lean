import Verif.InterpGen
import Verif.PropsInterp

/-!
# C82: the amalgamated header is a refinement of its reference interpreter

For every machine the amalgamated header accepts, with whatever internal rows, anonymous rows, deferral
and callbacks, each call has the outcome the interpreter of InterpGen.lean computes, including undefined
behaviour and its kind.
-/

namespace Hsm

/-! ## Rows and tables -/

namespace Machine
variable {M : Machine}

theorem RegularG.laid (h : M.RegularG) : M.Laid :=
  ⟨h.compiles.root, h.compiles.rows, h.nesting, h.freshRoot, h.fits⟩

theorem intRowsG_eq (h : M.Laid) : M.intRowsG = M.iflatG := by
  have hst : M.allStates = M.states := by
    have hr := h.rootFresh
    rw [states_eq]
    unfold allStates stateIds
    unfold subStateIds at hr ⊢
    rw [mem_uniq] at hr
    unfold allSubStates
    rw [uniq_append]
    congr 1
    rw [show uniq [StTy.st M.root] = [.st M.root] from rfl, List.filter_cons_of_pos (by simpa using hr)]
    rfl
  unfold intRowsG iflatG
  rw [hst]
  congr 1
  funext st
  rcases st with s | ⟨o, k⟩
  · unfold internalRowsOfG
    dsimp only
    cases hi : (M.decl s).itable with
    | none => simp
    | some is =>
      dsimp only
      split
      · rw [Option.getD_some]
        congr 1
        funext i
        rw [childStates, uniq_eq_eraseDups]
        rfl
      · rfl
  · rfl

theorem eventsG_eq (h : M.Laid) : M.eventsG = M.eventIdsG := by
  unfold eventsG eventIdsG
  rw [← uniq_eq_eraseDups, extRows_eq, intRowsG_eq h]

theorem iflatG_internal {t : XRow} (ht : t ∈ M.iflatG) : t.internal = true := by
  obtain ⟨st, _, ht⟩ := List.mem_flatMap.1 ht
  exact (internalRowsOfG_parent ht).2.1

theorem acceptsG_iff (hL : M.Laid) : M.acceptsG = true ↔ M.CompilesG := by
  have hrow : ∀ t, M.rowCompiles t = true ↔ (sourceLoc t.parent t.source).2 ∈ M.states ∧
      ∃ l, M.targetLoc t = some l ∧ l.2 ∈ M.states := by
    intro t
    rw [rowCompiles_iff, targetLoc_eq, sourceLoc_eq]
    constructor
    · rintro ⟨dst, h1, h2, h3⟩
      exact ⟨h2, _, by rw [h1]; rfl, h3⟩
    · rintro ⟨h2, l, h1, h3⟩
      obtain ⟨dst, h4, rfl⟩ := Option.map_eq_some_iff.1 h1
      exact ⟨dst, h4, h2, h3⟩
  unfold acceptsG
  simp only [Bool.and_eq_true, Bool.not_eq_true', List.isEmpty_eq_false_iff, decide_eq_true_eq,
    List.all_eq_true, hrow, maxInit_pos_iff]
  rw [← eventsG_eq hL, ← extRows_eq, ← intRowsG_eq hL]
  have hdef : (∀ t ∈ M.deferringRows, ∀ e ∈ (M.deferOf (stripInitial t.source)).getD [],
      e ∈ M.eventsG) ↔ ∀ t ∈ M.extRows, ∀ e ∈ M.defers t.source, e ∈ M.eventsG := by
    unfold deferringRows
    rw [extRows_eq]
    constructor
    · intro h t ht e he
      rw [defers_eq] at he
      refine h t (List.mem_filter.2 ⟨ht, ?_⟩) e he
      cases hd : M.deferOf (stripInitial t.source) with
      | none => rw [hd] at he; cases he
      | some l => rfl
    · intro h t ht e he
      rw [← defers_eq] at he
      exact h t (List.mem_filter.1 ht).1 e he
  rw [hdef]
  constructor
  · rintro ⟨⟨⟨⟨⟨h1, h2⟩, h3⟩, h6⟩, h7⟩, h8⟩
    refine ⟨h1, h2, h3, ?_, h8⟩
    intro t ht
    rcases List.mem_append.1 ht with ht | ht
    · exact h6 t ht
    · exact h7 t ht
  · rintro ⟨h1, h2, h3, h5, h6⟩
    exact ⟨⟨⟨⟨⟨h1, h2⟩, h3⟩, fun t ht => h5 t (List.mem_append_left _ ht)⟩,
      fun t ht => h5 t (List.mem_append_right _ ht)⟩, h6⟩

theorem RegularG.accepts (h : M.RegularG) : M.acceptsG = true := (acceptsG_iff h.laid).2 h.compiles

theorem acceptsG_rows (h : M.acceptsG = true) {t : XRow} (ht : t ∈ M.flat ++ M.iflatG) :
    M.rowCompiles t = true := by
  simp only [acceptsG, Bool.and_eq_true, List.all_eq_true] at h
  rcases List.mem_append.1 ht with ht | ht
  · exact h.1.1.2 t ht
  · exact h.1.2 t ht

theorem candsG_def (hL : M.Laid) (e : EventTy) (p : Name) (s : StTy) : M.candsG e p s =
    List.replicate ((M.flat.map (M.deferCount e p s)).sum) Cand.defer
      ++ (M.flat.reverse.filter (fun t => t.event = e)).flatMap (M.extCands p s)
      ++ (M.iflatG.reverse.filter (fun t => t.event = e)).flatMap (intCands p s) := by
  unfold candsG; rw [extRows_eq, intRowsG_eq hL]

theorem fillG_pushes (h : M.acceptsG = true) (dep : Dep) (T : Table) :
    M.fillG dep T = pushAll M (pushesWith M M.iflatG dep) T := by
  unfold fillG pushesWith
  rw [pushAll_append, fillWith_eq (fun t ht => acceptsG_rows h (List.mem_append_right _ ht))]
  show Except.bind _ _ = _
  congr 1
  funext T'
  rw [pushAll_append, fillWith_eq (fun t ht => acceptsG_rows h (List.mem_append_left _ ht))]
  show Except.bind _ _ = _
  congr 1
  funext T''
  exact fillDeferred_eq T''

/-- Filling puts the candidates in front of every cell. -/
theorem fillG_spec (h : M.RegularG) {dep : Dep} {T T' : Table} (hf : M.fillG dep T = .ok T')
    (e : EventTy) {p : Name} {s : StTy} (hp : p ∈ M.composites) (hs : s ∈ M.states) :
    T' e (M.comb p s)
      = (M.candsG e p s).filterMap (M.entryOfCand dep) ++ T e (M.comb p s) := by
  rw [fillG_pushes h.accepts] at hf
  by_cases hb : ∀ x ∈ pushesWith M M.iflatG dep, x.2.1 < M.size
  · rw [pushAll_ok hb] at hf
    cases hf
    simp only []
    rw [cell_pushesWith h.laid (fun _ ht => iflatG_internal ht) dep e hp hs, candsG_def h.laid]
  · rw [pushAll_ub (by simpa using hb)] at hf
    cases hf

/-- Filling succeeds if scopes are real, and otherwise writes outside the tables. -/
theorem fillG_ok (h : M.RegularG) (d : Dep) (T : Table) :
    (M.ScopesRealG → ∃ T', M.fillG d T = .ok T') ∧
      (¬ M.ScopesRealG → M.fillG d T = .error .ub) := by
  have hS : M.ScopesRealG ↔ ∀ x ∈ pushesWith M M.iflatG d, x.2.1 < M.size := by
    rw [pushesWith_in_bounds h.laid (fun _ ht => acceptsG_rows h.accepts ht)
      (fun _ ht => iflatG_internal ht) d]
    unfold ScopesRealG
    rw [extRows_eq, intRowsG_eq h.laid]
  rw [hS, fillG_pushes h.accepts]
  constructor
  · intro h; exact ⟨_, pushAll_ok h T⟩
  · intro h
    apply pushAll_ub
    simpa using h

theorem handlerCell_get (h : M.Laid) (dep : Dep) {p : Name} {st : StTy} (hp : p ∈ M.composites)
    (hs : st ∈ M.states) (l : List (Name × StTy)) (old : Option (StTy × Dep))
    (hm : (p, st) ∈ l ∨ old = some (st, dep)) :
    handlerCell M dep l (M.comb p st) old = some (st, dep) := by
  unfold handlerCell
  induction l generalizing old with
  | nil =>
    rcases hm with hm | hm
    · cases hm
    · exact hm
  | cons x l ih =>
    rw [List.foldl_cons]
    apply ih
    by_cases hx : M.comb p st = M.comb x.1 x.2
    · right
      rw [if_pos hx]
      have := h.comb_inj hp hs hx.symm
      cases this
      rfl
    · rw [if_neg hx]
      rcases hm with hm | hm
      · rcases List.mem_cons.1 hm with hm | hm
        · subst hm; exact absurd rfl hx
        · exact Or.inl hm
      · exact Or.inr hm

/-- A candidate is a deferral or has a row in force with a destination. -/
theorem RegularG.cand_loc (hM : M.RegularG) {ev : EventTy} {p : Name} {st : StTy} {c : Cand}
    (hc : c ∈ M.candsG ev p st) : c = .defer ∨
      ∃ t, c.row? = some t ∧ t ∈ M.extRows ++ M.intRowsG ∧
        ∃ l, M.targetLoc t = some l ∧ l.2 ∈ M.states := by
  unfold candsG at hc
  rw [List.mem_append, List.mem_append] at hc
  rcases hc with (hc | hc) | hc
  · exact Or.inl (List.mem_replicate.1 hc).2
  · right
    obtain ⟨t, ht, h⟩ := List.mem_flatMap.1 hc
    have ht : t ∈ M.extRows ++ M.intRowsG :=
      List.mem_append_left _ (by simpa using (List.mem_filter.1 ht).1)
    refine ⟨t, ?_, ht, (hM.compiles.ends t ht).2⟩
    simp only [extCands, List.mem_append] at h
    rcases h with h | h <;> split at h <;> simp at h <;> subst h <;> rfl
  · right
    obtain ⟨t, ht, h⟩ := List.mem_flatMap.1 hc
    have ht : t ∈ M.extRows ++ M.intRowsG :=
      List.mem_append_right _ (by simpa using (List.mem_filter.1 ht).1)
    refine ⟨t, ?_, ht, (hM.compiles.ends t ht).2⟩
    simp only [intCands] at h
    split at h <;> simp at h
    subst h; rfl

/-- The entries the candidates stand for. -/
def entriesG (M : Machine) (deps : List Dep) (e : EventTy) (p : Name) (s : StTy) : List Entry :=
  deps.flatMap fun d => (M.candsG e p s).filterMap (M.entryOfCand d)

theorem entriesG_pairs (deps : List Dep) (ev : EventTy) (p : Name) (st : StTy) :
    M.entriesG deps ev p st =
      (deps.flatMap fun d => (M.candsG ev p st).map fun cd => (d, cd)).filterMap fun x =>
        M.entryOfCand x.1 x.2 := by
  unfold entriesG
  induction deps with
  | nil => rfl
  | cons d deps ih =>
    rw [List.flatMap_cons, List.flatMap_cons, List.filterMap_append, ih, List.filterMap_map]
    rfl

theorem entriesG_eq_nil (hM : M.RegularG) {deps : List Dep} (hne : deps ≠ []) {e : EventTy}
    {p : Name} {s : StTy} : M.entriesG deps e p s = [] ↔ M.candsG e p s = [] := by
  constructor
  · intro h
    apply List.eq_nil_iff_forall_not_mem.2
    intro c hc
    cases deps with
    | nil => exact hne rfl
    | cons d deps =>
      have : ∃ en, M.entryOfCand d c = some en := by
        rcases hM.cand_loc hc with rfl | ⟨t, hr, _, l, hl, _⟩
        · exact ⟨_, rfl⟩
        · obtain ⟨e, _, he, _⟩ := entryOfCand_full (d := d) hr hl
          exact ⟨e, he⟩
      obtain ⟨en, hen⟩ := this
      have : en ∈ M.entriesG (d :: deps) e p s :=
        List.mem_flatMap.2 ⟨d, by simp, List.mem_filterMap.2 ⟨c, hc, hen⟩⟩
      rw [h] at this; cases this
  · intro h
    unfold entriesG
    rw [h]
    simp

end Machine

section
variable {P W : Type}

/-- The machine object `s` of the amalgamated header is a picture of the configuration `c`. -/
abbrev DepictsG (M : Machine) (c : Conf P W) (s : SM P W) : Prop :=
  Portrait M M.entriesG M.eventsG Eq c s

/-- The same outcome: the model on the left, the interpreter on the right. -/
abbrev AgreesG {α β : Type} (M : Machine) (V : α → β → Prop) (r : Res (SM P W) α)
    (q : Res (Conf P W) β) : Prop :=
  AgreesOn M M.entriesG M.eventsG Eq V r q

variable {M : Machine} {sem : Sem P W} {s : SM P W} {c : Conf P W}

/-! ## Events -/

theorem sound_candsG (hM : M.RegularG) (deps : List Dep) (ev : EventTy) (l : Name × StTy) :
    Sound M (deps.flatMap fun d => (M.candsG ev l.1 l.2).map fun cd => (d, cd)) := by
  intro x hx
  obtain ⟨d, _, hx⟩ := List.mem_flatMap.1 hx
  obtain ⟨cd, hc, rfl⟩ := List.mem_map.1 hx
  rcases hM.cand_loc hc with h | ⟨t, hr, _, l', hl, hls⟩
  · exact Or.inl h
  · exact Or.inr ⟨t, l', hr, hl, hls⟩

theorem DepictsG.lookup (h : DepictsG M c s) (hM : M.RegularG) (ev : EventTy) {r : Nat} {α β : Type}
    {V : α → β → Prop} {f : List Entry → SM P W → Res (SM P W) α}
    {g : Name × StTy → Conf P W → Res (Conf P W) β}
    (hf : ∀ l : Name × StTy, l.1 ∈ M.composites → l.2 ∈ M.states →
      AgreesG M V (f (M.entriesG c.deps ev l.1 l.2) s) (g l c)) :
    AgreesG M V ((lookup M ev r s).bind f)
      ((Machine.seek r c).bind fun l c => if l.1 ∈ M.composites then g l c else .ub .bounds) := by
  unfold Hsm.lookup Machine.seek readCur
  rw [h.cur, List.getElem?_map]
  cases hc : c.slots[r]? with
  | none => rfl
  | some o =>
    cases o with
    | none => rfl
    | some l =>
      have hls := h.slots l (List.mem_of_getElem? hc)
      show AgreesG M V (Res.bind (if M.comb l.1 l.2 < M.size then _ else _) f) (if _ then _ else _)
      by_cases hp : l.1 ∈ M.composites
      · rw [if_pos hp, if_pos (hM.laid.comb_lt.2 ⟨hp, hls⟩), h.table ev l.1 l.2 hp hls]
        exact hf l hp hls
      · rw [if_neg hp, if_neg fun h' => hp (hM.laid.comb_lt.1 h').1]
        rfl

theorem DepictsG.visit (h : DepictsG M c s) (hM : M.RegularG) (r : Nat) (ev : EventTy) (p : P) :
    AgreesG M Eq (regionStep M sem r ev p s) (M.visitG sem false r ev p c) := by
  unfold regionStep Machine.visitG
  refine DepictsG.lookup h hM ev (g := fun l c => if M.candsG ev l.1 l.2 = [] then .ok (.none, p) c
      else M.attempt sem false r ev
        (c.deps.flatMap fun d => (M.candsG ev l.1 l.2).map fun cd => (d, cd)) p c) ?_
  intro l hp hls
  by_cases hn : M.candsG ev l.1 l.2 = []
  · rw [if_pos hn, (Machine.entriesG_eq_nil hM h.bound).2 hn]
    exact ⟨rfl, h⟩
  · have hne : M.entriesG c.deps ev l.1 l.2 ≠ [] := fun h' =>
      hn ((Machine.entriesG_eq_nil hM h.bound).1 h')
    have := Portrait.attempt (sem := sem) hM.laid r ev _ (sound_candsG hM c.deps ev l) h p
    rw [← Machine.entriesG_pairs] at this
    rw [if_neg hn]
    revert this hne
    cases M.entriesG c.deps ev l.1 l.2 with
    | nil => intro h' _; exact absurd rfl h'
    | cons e es => intro _ h; exact h

theorem DepictsG.sweep (hM : M.RegularG) (ev : EventTy) : ∀ (rs : List Nat) (os : List RegionOut)
    (agf ati : Bool), Flags os agf ati → ∀ {c : Conf P W} {s : SM P W}, DepictsG M c s → ∀ p : P,
    AgreesG M (fun a b => b.2 = a.2 ∧
        ((a.1 = .deferred ∧ RegionOut.deferred ∈ b.1) ∨
          ∃ agf ati, a.1 = .done agf ati ∧ Flags b.1 agf ati))
      (regionLoop M sem ev rs agf ati p s) (M.sweepG sem ev rs os p c) := by
  intro rs
  induction rs with
  | nil => intro os agf ati hF c s h p; exact ⟨⟨rfl, Or.inr ⟨_, _, rfl, hF⟩⟩, h⟩
  | cons r rs ih =>
    intro os agf ati hF c s h p
    unfold regionLoop Machine.sweepG
    refine (DepictsG.visit h hM r ev p).bind fun a b s c hab h => ?_
    subst hab
    obtain ⟨o, p⟩ := a
    have hF' := fun ho => hF.snoc (o := o) ho
    cases o with
    | none =>
      rw [if_neg (by simp)]
      have := hF' (by simp)
      simp only [ne_eq, reduceCtorEq, not_false_eq_true, decide_true, Bool.and_true] at this
      exact ih _ _ _ this h p
    | rejected =>
      rw [if_neg (by simp)]
      have := hF' (by simp)
      simp only [ne_eq, reduceCtorEq, not_false_eq_true, decide_true, Bool.and_true, decide_false,
        Bool.and_false] at this
      exact ih _ _ _ this h p
    | fired =>
      rw [if_neg (by simp)]
      have := hF' (by simp)
      simp only [ne_eq, reduceCtorEq, not_true_eq_false, decide_false, Bool.and_false] at this
      exact ih _ _ _ this h p
    | deferred =>
      rw [if_pos rfl]
      exact ⟨⟨rfl, Or.inl ⟨rfl, by simp⟩⟩, h⟩

theorem DepictsG.round (hM : M.RegularG) : ∀ (rs : List Nat) (os : List RegionOut) (agf : Bool),
    agf = decide (RegionOut.fired ∉ os) → ∀ {c : Conf P W} {s : SM P W}, DepictsG M c s →
    AgreesG M (fun a b => b = true ↔ a = some false)
      (anonRoundG M sem rs agf s) (M.roundG sem rs os c) := by
  intro rs
  induction rs with
  | nil =>
    intro os agf hF c s h
    refine ⟨?_, h⟩
    subst hF
    simp
  | cons r rs ih =>
    intro os agf hF c s h
    unfold anonRoundG Machine.roundG Machine.visitG
    rw [Res.bind_assoc]
    generalize hp : sem.nonePayload = p
    have := DepictsG.lookup h hM .none (r := r)
      (f := fun es s => match es with
        | [] => .ok none s
        | es => (tryAnon M sem r es p s).bind fun fp s => anonRoundG M sem rs (agf && !fp.1) s)
      (g := fun l c => (if M.candsG .none l.1 l.2 = [] then .ok (.none, p) c
        else M.attempt sem true r .none
          (c.deps.flatMap fun d => (M.candsG .none l.1 l.2).map fun cd => (d, cd)) p c).bind
            fun o c => if o.1 = .none then .ok false c else M.roundG sem rs (os ++ [o.1]) c)
      (V := fun a b => b = true ↔ a = some false) ?_
    · revert this
      generalize (Hsm.lookup M .none r s).bind _ = x
      intro h
      have e : ∀ l : Name × StTy, ∀ c : Conf P W, ((if l.1 ∈ M.composites then
          if M.candsG .none l.1 l.2 = [] then .ok (.none, p) c
          else M.attempt sem true r .none
            (c.deps.flatMap fun d => (M.candsG .none l.1 l.2).map fun cd => (d, cd)) p c
          else .ub .bounds : Res (Conf P W) (RegionOut × P)).bind
            fun o c => if o.1 = .none then .ok false c
              else M.roundG sem rs (os ++ [o.1]) c) =
          if l.1 ∈ M.composites then (if M.candsG .none l.1 l.2 = [] then .ok (.none, p) c
            else M.attempt sem true r .none
              (c.deps.flatMap fun d => (M.candsG .none l.1 l.2).map fun cd => (d, cd)) p c).bind
              fun o c => if o.1 = .none then .ok false c
                else M.roundG sem rs (os ++ [o.1]) c
          else .ub .bounds := by
        intro l c
        split <;> rfl
      simp only [e]
      exact h
    · intro l hp hls
      by_cases hn : M.candsG .none l.1 l.2 = []
      · rw [if_pos hn, (Machine.entriesG_eq_nil hM h.bound).2 hn]
        exact ⟨by simp, h⟩
      · have hne : M.entriesG c.deps .none l.1 l.2 ≠ [] := fun h' =>
          hn ((Machine.entriesG_eq_nil hM h.bound).1 h')
        have := Portrait.attemptAnon (sem := sem) hM.laid r _ (sound_candsG hM c.deps .none l) h p
        rw [← Machine.entriesG_pairs] at this
        rw [if_neg hn]
        revert this hne
        cases M.entriesG c.deps .none l.1 l.2 with
        | nil => intro h' _; exact absurd rfl h'
        | cons e es =>
          intro _ h
          refine h.bind fun a b s c hab h => ?_
          obtain ⟨b1, b2⟩ := b
          obtain ⟨h1, h2⟩ := hab
          dsimp only at h1 h2
          subst h1 h2
          rw [if_neg (by dsimp only; split <;> simp)]
          refine ih _ _ ?_ h
          subst hF
          cases a.1 <;> simp

theorem DepictsG.settle (hM : M.RegularG) (fuel : Nat) : ∀ {c : Conf P W} {s : SM P W},
    DepictsG M c s → AgreesG M (fun _ _ => True) (anonLoopG M sem fuel s) (M.settleG sem fuel c) := by
  induction fuel with
  | zero => intro c s h; trivial
  | succ n ih =>
    intro c s h
    unfold anonLoopG Machine.settleG
    rw [h.taking]
    refine (DepictsG.round hM _ [] true (by simp) h).bind ?_
    rintro a b s c h2 h
    cases a with
    | none =>
      rw [if_neg (by simp [h2])]
      exact ⟨trivial, h⟩
    | some x =>
      cases x with
      | true => rw [if_neg (by simp [h2])]; exact ⟨trivial, h⟩
      | false => rw [if_pos (by simp [h2])]; exact ih h

theorem DepictsG.handle (h : DepictsG M c s) (hM : M.RegularG) (fuel : Nat) (ev : EventTy) (p : P) :
    AgreesG M (fun a b => b.2 = a.2 ∧ (a.1 = false ↔ ∀ o ∈ b.1, o = RegionOut.none))
      (processInternalG M sem fuel ev p s) (M.handleG sem fuel ev p c) := by
  unfold processInternalG Machine.handleG
  rw [h.taking]
  refine (DepictsG.sweep hM ev _ [] true true ⟨by simp, by simp, by simp⟩ h p).bind ?_
  rintro ⟨a1, a2⟩ ⟨b1, b2⟩ s c ⟨h1, h2⟩ h
  dsimp only at h1 h2 ⊢
  subst h1
  have hyes : ∀ o ∈ b1, o ≠ RegionOut.none → (true = false ↔ ∀ o ∈ b1, o = RegionOut.none) := by
    intro o ho hn
    constructor
    · intro h; cases h
    · intro h; exact absurd (h o ho) hn
  rcases h2 with ⟨rfl, hd⟩ | ⟨agf, ati, rfl, hF⟩
  · rw [if_neg fun h' => h'.1 hd]
    exact ⟨⟨rfl, hyes _ hd (by simp)⟩, h⟩
  · obtain ⟨h1, h2, h3⟩ := hF
    dsimp only
    by_cases hall : ∀ o ∈ b1, o = RegionOut.none
    · have hnf : RegionOut.fired ∉ b1 := fun h' => by cases hall _ h'
      rw [h2, decide_eq_true hall, if_pos rfl, if_neg fun h' => hnf h'.2.1]
      exact ⟨⟨rfl, by simpa using hall⟩, h⟩
    · rw [h2, decide_eq_false hall]
      simp only [Bool.false_eq_true, if_false]
      have hno : (true = false ↔ ∀ o ∈ b1, o = RegionOut.none) :=
        ⟨fun h => (by cases h), fun h => absurd h hall⟩
      by_cases hf : RegionOut.fired ∈ b1
      · rw [h1, decide_eq_false (not_not.2 hf)]
        simp only [Bool.false_eq_true, if_false]
        unfold processAnonG
        rw [Machine.hasAnon_eq]
        by_cases ha : M.anonymous = true
        · rw [if_pos ha, if_pos ⟨h3, hf, ha⟩]
          exact (DepictsG.settle hM fuel h).bind fun _ _ s c _ h => ⟨⟨rfl, hno⟩, h⟩
        · rw [if_neg ha, if_neg fun h' => ha h'.2.2]
          exact ⟨⟨rfl, hno⟩, h⟩
      · rw [h1, decide_eq_true hf, if_pos rfl, if_neg fun h' => hf h'.2.1]
        exact ⟨⟨rfl, hno⟩, h⟩

theorem DepictsG.complain (h : DepictsG M c s) (hM : M.RegularG) {ev : EventTy} (hev : ev ∈ M.eventsG)
    (p : P) : AgreesG M (fun _ _ => True) (callHandler M sem ev p s) (M.complain sem ev p c) := by
  unfold callHandler Machine.complain
  cases hh : (M.decl M.root).handler with
  | none => exact ⟨trivial, h⟩
  | some hd =>
    dsimp only
    refine (h.seek 0).bind ?_
    rintro n l s c ⟨rfl, hls⟩ h
    by_cases hp : l.1 ∈ M.composites
    · rw [if_pos hp, if_pos (hM.laid.comb_lt.2 ⟨hp, hls⟩),
        h.handlers (by rw [hh]; rfl) ev hev l.1 hp l.2 hls]
      dsimp only
      rw [h.present, h.world]
      split
      · cases sem.handler hd ev l.2 c.first p c.world with
        | ok u p' w => exact ⟨trivial, h.ran w rfl⟩
        | throw k p' w => exact ⟨rfl, h.ran w rfl⟩
        | ub => rfl
      · rfl
    · rw [if_neg hp, if_neg fun h' => hp (hM.laid.comb_lt.1 h').1]
      exact ⟨rfl, h⟩

theorem DepictsG.replay (h : DepictsG M c s) (hM : M.RegularG) (fuel : Nat) :
    AgreesG M (fun _ _ => True) (processDeferredG M sem fuel s) (M.replayG sem fuel c) := by
  unfold processDeferredG Machine.replayG
  rw [Machine.hasDefer_eq, h.queue]
  cases hq : c.waiting with
  | nil => split <;> exact ⟨trivial, h⟩
  | cons x q =>
    obtain ⟨ev, p⟩ := x
    dsimp only
    split
    · have h' : DepictsG M { c with waiting := q } { s with queue := q } := { h with queue := rfl }
      exact (DepictsG.handle h' hM fuel ev p).bind fun _ _ s c _ h => ⟨trivial, h⟩
    · exact ⟨trivial, h⟩

/-- C82, events. -/
theorem C82_event (h : DepictsG M c s) (hM : M.RegularG) (fuel : Nat) {ev : EventTy}
    (hev : ev ∈ M.eventsG) (p : P) :
    AgreesG M (fun _ _ => True) (processEventG M sem fuel ev p s) (M.receiveG sem fuel ev p c) := by
  unfold processEventG Machine.receiveG
  refine (DepictsG.handle h hM fuel ev p).bind ?_
  rintro ⟨b, a2⟩ ⟨os, b2⟩ s c ⟨h1, h2⟩ h
  dsimp only at h1 h2 ⊢
  subst h1
  cases b with
  | false =>
    rw [if_pos (h2.1 rfl)]
    simp only [Bool.false_eq_true, if_false]
    have := DepictsG.complain (sem := sem) h hM hev b2
    revert this
    cases callHandler M sem ev b2 s <;> cases M.complain sem ev b2 c <;> exact id
  | true =>
    rw [if_neg fun h' => absurd (h2.2 h') (by simp), if_pos rfl]
    exact DepictsG.replay h hM fuel

/-! ## Calls and histories -/

theorem DepictsG.extend {W' : Type} {U : W → W' → Prop} {c : Conf P W'}
    (h : Portrait M M.entriesG M.eventsG U c s) (hM : M.RegularG) (hS : M.ScopesRealG) (d : Dep) :
    AgreesOn M M.entriesG M.eventsG U (fun _ _ => True) (Hsm.setDependencyG M d s)
      (.ok () { c with deps := d :: c.deps }) := by
  obtain ⟨T, hT⟩ := (Machine.fillG_ok hM d s.table).1 hS
  unfold Hsm.setDependencyG
  rw [hT]
  refine ⟨trivial, { h with bound := ?_, table := ?_ }⟩
  · show d :: c.deps ≠ []
    simp
  · intro e p st hp hst
    show T e (M.comb p st) = _
    rw [Machine.fillG_spec hM hT e hp hst, h.table e p st hp hst]
    simp [Machine.entriesG]

/-- C82, calls: one call on a machine object and on the configuration it depicts. -/
theorem C82_step (h : DepictsG M c s) (hM : M.RegularG) (hS : M.ScopesRealG) (fuel : Nat) {op : OpG P}
    (hop : OpOkG M op) :
    AgreesG M (fun _ _ => True) (stepG M sem fuel op s) (M.execG sem fuel op c) := by
  cases op with
  | process ev p => exact C82_event h hM fuel (by rw [Machine.eventsG_eq hM.laid]; exact hop) p
  | setDependency d => exact DepictsG.extend h hM hS d

/-- C82, construction: it succeeds exactly if scopes are real and the root of a machine with regions has
an initial state; then the new machine object depicts the new configuration.  Otherwise it writes or
reads outside the tables. -/
theorem C82_construct (hM : M.RegularG) (d : Dep) (w : W) :
    ((∃ s : SM P W, constructG M d w = .ok s) ↔
      M.ScopesRealG ∧ (M.orthogonal = true → M.declaredInitials M.root ≠ [])) ∧
    ((¬ ∃ s : SM P W, constructG M d w = .ok s) →
      (constructG M d w : Except BuildErr (SM P W)) = .error .ub) ∧
    ∀ s : SM P W, constructG M d w = .ok s → DepictsG M (M.fresh d w) s := by
  have hflat : ∀ t ∈ M.flat, M.rowCompiles t = true := fun t ht =>
    Machine.acceptsG_rows hM.accepts (List.mem_append_left _ ht)
  have hH : ∃ H, (if (M.decl M.root).handler.isSome then
        M.fillHandlersFor M.eventIdsG d (fun _ _ => none)
      else .ok (fun _ _ => none)) = .ok H ∧ ((M.decl M.root).handler.isSome = true →
        ∀ e ∈ M.eventsG, ∀ p ∈ M.composites, ∀ st ∈ M.states, H e (M.comb p st) = some (st, d)) := by
    split
    · refine ⟨_, Machine.fillHandlersFor_eq hM.laid d (evs := M.eventIdsG) (nodup_uniq _) _, fun _ e he p hp st hst => ?_⟩
      rw [Machine.eventsG_eq hM.laid] at he
      rw [if_pos he]
      exact Machine.handlerCell_get hM.laid d hp hst _ _ (Or.inl (mem_product.2
        ⟨Machine.composites_eq ▸ hp, Machine.states_eq ▸ hst⟩))
    · rename_i hn
      exact ⟨_, rfl, fun h => absurd h hn⟩
  obtain ⟨H, hH, hHs⟩ := hH
  have hfill := Machine.fillG_ok hM d (fun _ _ => [])
  have hget := hM.laid.initialTable_get hM.laid.root_mem
  by_cases hS : M.ScopesRealG
  · obtain ⟨T, hT⟩ := hfill.1 hS
    have hcons : (constructG M d w : Except BuildErr (SM P W)) = initState M w H T := by
      unfold constructG
      rw [if_pos hM.accepts, hH, hT]
      rfl
    rw [hcons]
    refine and_assoc.1 ⟨?_, fun s hs => Portrait.fresh hM.laid hflat hs (fun e p st hp hst => ?_) hHs⟩
    · unfold initState
      rw [hget, Machine.declaredInitials_eq]
      simp only
      cases hp : M.orthogonal with
      | false =>
        simp [updateRegions, Machine.parallel_eq, hp, hS]
      | true =>
        cases hi : M.initials M.root with
        | nil =>
          have hcur : (initCur [] M.maxInit)[0]? = some none := by
            have : 1 < M.maxInit := by
              rw [← Machine.parallel_eq] at hp
              simpa [Machine.parallel] using hp
            simp [initCur, List.getElem?_replicate]
            omega
          simp [updateRegions, Machine.parallel_eq, hp, currentParent, readCur, Res.bind, hcur]
        | cons i is =>
          have hcur : (initCur (M.comb M.root (.st i) :: is.map fun s => M.comb M.root (.st s))
              M.maxInit)[0]? = some (some (M.comb M.root (.st i))) := by
            simp [initCur]
          have hmem : StTy.st i ∈ M.states :=
            hM.laid.initial_mem hflat hM.laid.root_mem (by rw [hi]; simp)
          have hdiv := hM.laid.comb_div hM.laid.root_mem hmem
          have hdiv' : M.initialTable[M.comb M.root (.st i) / M.nStates]? =
              some ((M.initials M.root).map fun s => M.comb M.root (.st s)) := by
            rw [hdiv]; exact hget
          simp [updateRegions, Machine.parallel_eq, hp, currentParent, readCur, Res.bind, hcur, hdiv', hS]
    · rw [Machine.fillG_spec hM hT e hp hst]
      simp [Machine.entriesG]
  · have hcons : (constructG M d w : Except BuildErr (SM P W)) = .error .ub := by
      unfold constructG
      rw [if_pos hM.accepts, hH, hfill.2 hS]
      rfl
    rw [hcons]
    refine ⟨⟨?_, ?_⟩, fun _ => rfl, ?_⟩
    · rintro ⟨s, h⟩; cases h
    · rintro ⟨h, _⟩; exact absurd h hS
    · intro s h; cases h

/-- C82: whatever is called on a newly constructed machine, one call after the other, also after
exceptions, the interpreter tells what it looks like, and if undefined behaviour was met or a loop
did not end on the way. -/
theorem C82_history (hM : M.RegularG) {d : Dep} {w : W} (h : constructG M d w = .ok s) (fuel : Nat)
    (ops : List (OpG P)) (hops : ∀ op ∈ ops, OpOkG M op) :
    match runAllG (stepG M sem fuel) ops s, M.execAllG sem fuel ops (M.fresh d w) with
    | some s', some c => DepictsG M c s'
    | none, none => True
    | _, _ => False := by
  obtain ⟨h1, _, h2⟩ := C82_construct (P := P) hM d w
  have hS : M.ScopesRealG := (h1.1 ⟨s, h⟩).1
  have h0 := h2 s h
  revert h0
  generalize M.fresh d w = c
  clear h h1 h2
  induction ops generalizing s c with
  | nil => intro h0; exact h0
  | cons op ops ih =>
    intro h0
    have hc := C82_step (sem := sem) h0 hM hS fuel (hops op (by simp))
    rw [runAllG, Machine.execAllG]
    have ih := fun {s} => @ih s fun op h => hops op (by simp [h])
    revert hc
    cases stepG M sem fuel op s <;> cases M.execG sem fuel op c <;> intro hc <;>
      first | exact hc.elim | exact ih _ hc.2 | trivial

/-- C82, undefined behaviour: a call is undefined exactly if the interpreter says so, and of the same
kind; it does not return exactly if the interpreter's does not. -/
theorem C82_undefined (h : DepictsG M c s) (hM : M.RegularG) (hS : M.ScopesRealG) (fuel : Nat)
    {op : OpG P} (hop : OpOkG M op) :
    (∀ u, stepG M sem fuel op s = .ub u ↔ M.execG sem fuel op c = .ub u) ∧
      (stepG M sem fuel op s = .timeout ↔ M.execG sem fuel op c = .timeout) := by
  have hc := C82_step (sem := sem) h hM hS fuel hop
  revert hc
  cases stepG M sem fuel op s <;> cases M.execG sem fuel op c <;> intro hc <;>
    first | exact hc.elim | simp
  exact hc

/-- C82: every machine object a client can hold depicts a configuration. -/
theorem C82_reach (hM : M.RegularG) {d : Dep} {ops : List (OpG P)} (h : RunToG M sem d ops s) :
    M.ScopesRealG ∧ ∃ c, DepictsG M c s := by
  induction h with
  | @init w s h =>
    obtain ⟨h1, _, h2⟩ := C82_construct (P := P) hM d w
    exact ⟨(h1.1 ⟨s, h⟩).1, _, h2 s h⟩
  | @ok s t ops op fuel hr hop h ih =>
    obtain ⟨hS, c, hc⟩ := ih
    have hs := C82_step (sem := sem) hc hM hS fuel hop
    rw [h] at hs
    refine ⟨hS, ?_⟩
    revert hs
    cases M.execG sem fuel op c <;> intro hs <;> first | exact hs.elim | exact ⟨_, hs.2⟩
  | @throw s t ops op fuel x hr hop h ih =>
    obtain ⟨hS, c, hc⟩ := ih
    have hs := C82_step (sem := sem) hc hM hS fuel hop
    rw [h] at hs
    refine ⟨hS, ?_⟩
    revert hs
    cases M.execG sem fuel op c <;> intro hs <;> first | exact hs.elim | exact ⟨_, hs.2⟩
  | @world s ops hr w ih =>
    obtain ⟨hS, c, hc⟩ := ih
    exact ⟨hS, { c with world := w }, { hc with world := rfl }⟩

end

end Hsm
