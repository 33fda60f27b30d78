import Verif.PropsAlikeR

/-!
# The order of rows and rows that are never used, in the amalgamated header

C116: what C67, C70 and C114 say also holds for machines built with `gen/hsm.h`, whose internal rows in
force are others, and for clients whose callbacks use such a machine.
-/

namespace Hsm
namespace Machine
variable {M M' : Machine}

/-! ## Specification vocabulary -/

/-- As `Scoped`, for the rows in force in the amalgamated header. -/
structure ScopedG (M : Machine) : Prop where
  scopes : M.ScopesRealG
  targets : ∀ t ∈ M.extRows ++ M.intRowsG, ∀ d, M.targetLoc t = some d → d.1 ∈ M.composites
  rootInit : M.declaredInitials M.root ≠ []

/-- As `Live`, for the candidates of the amalgamated header. -/
structure LiveG (M : Machine) (L : List (Name × StTy)) : Prop where
  inside : ∀ x ∈ L, x.1 ∈ M.composites ∧ x.2 ∈ M.states
  root : ∀ i ∈ M.declaredInitials M.root, (M.root, StTy.st i) ∈ L
  initials : ∀ x ∈ L, ∀ i ∈ M.declaredInitials x.1, (x.1, StTy.st i) ∈ L
  targets : ∀ x ∈ L, ∀ ev, ∀ c ∈ M.candsG ev x.1 x.2, ∀ t, c.row? = some t → t.internal = false →
    ∀ l, M.targetLoc t = some l → l ∈ L

/-! ## The internal rows of a state -/

/-- The internal rows in force because of a state. -/
def innerG (M : Machine) : StTy → List XRow
  | .st s => if M.isComposite s then M.innerRows (M.root, .st s) else []
  | .ps _ _ => []

theorem intRowsG_inner (M : Machine) : M.intRowsG = M.states.flatMap M.innerG := by
  unfold intRowsG
  congr 1
  funext st
  cases st with
  | ps => rfl
  | st s =>
    unfold innerG innerRows
    dsimp only
    split
    · congr 1
      funext i
      rw [List.map_map]
      rfl
    · rfl

theorem innerG_sub {st : StTy} (p : Name) : ∀ t ∈ M.innerG st, t ∈ M.innerRows (p, st) := by
  intro t ht
  cases st with
  | ps => cases ht
  | st s =>
    change t ∈ (if M.isComposite s then M.innerRows (M.root, .st s) else []) at ht
    split at ht
    · rename_i hc
      unfold innerRows at ht ⊢
      dsimp only at ht ⊢
      rw [if_pos hc] at ht ⊢
      exact ht
    · cases ht

theorem intRowsG_sub {t : XRow} (h : t ∈ M.intRowsG) : t ∈ M.intRows := by
  rw [intRowsG_inner] at h
  obtain ⟨st, hst, ht⟩ := List.mem_flatMap.1 h
  unfold intRows
  rw [List.mem_eraseDups, List.mem_flatMap]
  unfold states at hst
  rcases List.mem_append.1 hst with hst | hst
  · rw [List.mem_eraseDups, List.mem_flatMap] at hst
    obtain ⟨u, hu, hx⟩ := hst
    refine ⟨(u.parent, st), ?_, innerG_sub _ t ht⟩
    unfold places
    rw [List.mem_eraseDups]
    refine List.mem_cons_of_mem _ (List.mem_flatMap.2 ⟨u, hu, ?_⟩)
    rcases List.mem_cons.1 hx with rfl | hx
    · exact List.mem_cons_self
    · rw [List.mem_singleton.1 hx]; simp
  · rw [List.mem_singleton.1 hst] at ht
    refine ⟨(M.root, .st M.root), ?_, innerG_sub _ t ht⟩
    unfold places
    rw [List.mem_eraseDups]
    exact List.mem_cons_self

/-- What the modular header asks of parents is enough. -/
theorem Scoped.toG (h : M.Scoped) : M.ScopedG := by
  have sub : ∀ t ∈ M.extRows ++ M.intRowsG, t ∈ M.extRows ++ M.intRows := by
    intro t ht
    rcases List.mem_append.1 ht with ht | ht
    · exact List.mem_append_left _ ht
    · exact List.mem_append_right _ (intRowsG_sub ht)
  exact ⟨⟨fun t ht => h.sources t (sub t ht), h.leaves⟩, fun t ht => h.targets t (sub t ht), h.rootInit⟩

theorem filter_intCands (e : EventTy) (q : Name) (s : StTy) (l : List XRow) :
    (l.filter (fun t => t.event = e)).flatMap (intCands q s) =
      (l.filter (fun t => decide (t.event = e ∧ sourceLoc t.parent t.source = (q, s)))).map Cand.row := by
  induction l with
  | nil => rfl
  | cons a l ih =>
    rw [List.filter_cons, List.filter_cons]
    by_cases h1 : a.event = e
    · by_cases h2 : sourceLoc a.parent a.source = (q, s)
      · simp only [h1, h2, decide_true, and_self, if_true, List.flatMap_cons, List.map_cons]
        rw [← ih]
        simp [intCands, h2, h1]
      · simp only [h1, h2, decide_true, and_false, decide_false, if_true, List.flatMap_cons,
          Bool.false_eq_true, if_false]
        rw [← ih]
        simp [intCands, h2]
    · simpa [h1] using ih

theorem intCandsG_at (N : Machine) (e : EventTy) (q : Name) (s : StTy) :
    (N.intRowsG.reverse.filter (fun t => t.event = e)).flatMap (intCands q s) =
      ((N.states.flatMap fun x => (N.innerG x).filter
        (fun t => decide (t.event = e ∧ sourceLoc t.parent t.source = (q, s)))).reverse.map Cand.row) := by
  rw [filter_intCands, List.filter_reverse, intRowsG_inner, List.filter_flatMap]

/-! ## Rows exchanged -/

section
variable {p : Name} {pre post : List Row} {r1 r2 : Row}
variable (ht : (M.decl p).table = some (pre ++ r1 :: r2 :: post))
  (hM' : M' = M.withRows p (pre ++ r2 :: r1 :: post))
include ht hM'

theorem innerG_exch (hI : M.Independent p r1 r2) (e : EventTy) (l : Name × StTy) (x : StTy) :
    (M'.innerG x).filter (fun t => decide (t.event = e ∧ sourceLoc t.parent t.source = l)) =
      (M.innerG x).filter (fun t => decide (t.event = e ∧ sourceLoc t.parent t.source = l)) := by
  cases x with
  | ps => rfl
  | st s =>
    unfold innerG
    dsimp only
    rw [isComposite_exch ht hM', root_exch ht hM']
    split
    · exact innerRows_exch ht hM' hI e l _
    · rfl

theorem intPartG_exch (hI : M.Independent p r1 r2) (e : EventTy) (q : Name) (s : StTy) :
    (M'.intRowsG.reverse.filter (fun t => t.event = e)).flatMap (intCands q s) =
      (M.intRowsG.reverse.filter (fun t => t.event = e)).flatMap (intCands q s) := by
  rw [intCandsG_at, intCandsG_at]
  congr 2
  rw [funext (innerG_exch ht hM' hI e (q, s))]
  unfold states
  rw [List.flatMap_append, List.flatMap_append, root_exch ht hM']
  congr 1
  rw [eraseDups_flatMap (M'.extRows.flatMap _), eraseDups_flatMap (M.extRows.flatMap _)]
  congr 2
  rw [List.filter_flatMap, List.filter_flatMap]
  unfold extRows
  rw [root_exch ht hM', rank_exch ht hM']
  refine flatMap_reading ht hM' _ (hI.comm _ ?_) _ _
  intro t u hn a ha b hb
  obtain ⟨ha, hPa⟩ := List.mem_filter.1 ha
  obtain ⟨hb, hPb⟩ := List.mem_filter.1 hb
  apply Classical.byContradiction
  intro hne
  simp only [Bool.not_eq_true', List.isEmpty_eq_false_iff] at hPa hPb
  obtain ⟨i, hi⟩ := List.exists_mem_of_ne_nil _ hPa
  obtain ⟨j, hj⟩ := List.exists_mem_of_ne_nil _ hPb
  obtain ⟨hi, hi'⟩ := List.mem_filter.1 hi
  obtain ⟨hj, hj'⟩ := List.mem_filter.1 hj
  simp only [decide_eq_true_eq] at hi' hj'
  have mem : ∀ {t : XRow} {a : StTy}, a ∈ [plain t.source, t.target] → (t.parent, a) ∈ mentions t := by
    intro t a ha
    unfold mentions
    rcases List.mem_cons.1 ha with rfl | ha
    · exact List.mem_cons_self
    · rw [List.mem_singleton.1 ha]; simp
  refine hn (.inr ⟨_, mem ha, _, mem hb, fun e => hne (Prod.mk.inj e).2, i, innerG_sub _ i hi, j,
    innerG_sub _ j hj, hi'.1.trans hj'.1.symm, hi'.2.trans hj'.2.symm⟩)

theorem candsG_exch (hI : M.Independent p r1 r2) (e : EventTy) (q : Name) (s : StTy) :
    M'.candsG e q s = M.candsG e q s := by
  unfold candsG
  rw [extPart_exch ht hM' hI, intPartG_exch ht hM' hI]
  congr 3
  have : M'.deferCount e q s = M.deferCount e q s := by
    funext t; unfold deferCount; rw [defers_exch ht hM']
  rw [this]
  exact ((perm_extRows ht hM').map _).sum_nat

theorem mem_intRowsG_exch {t : XRow} : t ∈ M'.intRowsG ↔ t ∈ M.intRowsG := by
  rw [intRowsG_inner, intRowsG_inner]
  simp only [List.mem_flatMap, mem_states_exch ht hM']
  refine exists_congr fun st => and_congr_right fun _ => ?_
  cases st with
  | ps => exact Iff.rfl
  | st s =>
    unfold innerG
    dsimp only
    rw [isComposite_exch ht hM', root_exch ht hM']
    split
    · exact mem_innerRows_exch ht hM'
    · exact Iff.rfl

theorem mem_rows_allG_exch {t : XRow} : t ∈ M'.extRows ++ M'.intRowsG ↔ t ∈ M.extRows ++ M.intRowsG := by
  rw [List.mem_append, List.mem_append, mem_extRows_exch ht hM', mem_intRowsG_exch ht hM']

theorem mem_eventsG_exch {e : EventTy} : e ∈ M'.eventsG ↔ e ∈ M.eventsG := by
  unfold eventsG
  simp only [List.mem_eraseDups, List.mem_map, mem_rows_allG_exch ht hM']

theorem states_len_exch : M'.states.length = M.states.length := by
  unfold states
  rw [List.length_append, List.length_append]
  congr 1
  refine (List.Perm.length_eq ?_)
  rw [← uniq_eq_eraseDups, ← uniq_eq_eraseDups]
  rw [List.perm_ext_iff_of_nodup (nodup_uniq _) (nodup_uniq _)]
  intro a
  simp only [mem_uniq, List.mem_flatMap, mem_extRows_exch ht hM']

variable (hD : M'.declaredInitials p = M.declaredInitials p)
include hD

theorem regularG_exch (hM : M.RegularG) : M'.RegularG := by
  refine ⟨⟨?_, ?_, ?_, ?_, ?_⟩, ?_, ?_, ?_⟩
  · rw [root_exch ht hM', isComposite_exch ht hM']; exact hM.compiles.root
  · intro h
    have := perm_extRows ht hM'
    rw [h] at this
    exact hM.compiles.rows (List.Perm.nil_eq this).symm
  · obtain ⟨q, h1, h2⟩ := hM.compiles.initial
    exact ⟨q, (mem_composites_exch ht hM').2 h1, by rw [initials_exch ht hM' hD]; exact h2⟩
  · intro t h
    rw [targetLoc_exch ht hM' hD]
    simp only [mem_states_exch ht hM']
    exact hM.compiles.ends t ((mem_rows_allG_exch ht hM').1 h)
  · intro t h e he
    rw [defers_exch ht hM'] at he
    exact (mem_eventsG_exch ht hM').2 (hM.compiles.deferred t ((mem_extRows_exch ht hM').1 h) e he)
  · intro q r c hr he
    rw [rank_exch ht hM']
    exact hM.nesting q r c ((mem_rows_exch ht hM').1 hr) ((enters_exch ht hM').1 he)
  · intro t h
    rw [root_exch ht hM']
    exact hM.freshRoot t ((mem_extRows_exch ht hM').1 h)
  · rw [states_len_exch ht hM', length_composites_exch ht hM']
    exact hM.fits

theorem scopedG_exch (hS : M.ScopedG) : M'.ScopedG := by
  refine ⟨⟨?_, ?_⟩, ?_, ?_⟩
  · intro t h
    exact (mem_composites_exch ht hM').2 (hS.scopes.1 t ((mem_rows_allG_exch ht hM').1 h))
  · intro t h q h1 h2 h3
    rw [isComposite_exch ht hM'] at h2
    refine (mem_composites_exch ht hM').2 (hS.scopes.2 t ((mem_extRows_exch ht hM').1 h) q h1 h2 ?_)
    intro h4
    apply h3
    apply List.eq_nil_iff_forall_not_mem.2
    intro r hr
    rw [mem_rows_exch ht hM', h4] at hr
    cases hr
  · intro t h l hl
    rw [targetLoc_exch ht hM' hD] at hl
    exact (mem_composites_exch ht hM').2 (hS.targets t ((mem_rows_allG_exch ht hM').1 h) l hl)
  · rw [root_exch ht hM', initials_exch ht hM' hD]; exact hS.rootInit

end

/-- The same offered everywhere, in the amalgamated header. -/
abbrev AlikeG (M M' : Machine) (L : Name → StTy → Prop) : Prop := AlikeOn M M' M.candsG M'.candsG L

theorem AlikeG.refl (hM : M.RegularG) (hS : M.ScopedG) : AlikeG M M M.Loc where
  left _ _ h := h
  right _ _ h := h
  root := rfl
  rootIn := ⟨.st M.root, hM.laid.root_mem, by unfold states; simp⟩
  initials _ _ h := ⟨rfl, fun i hi => ⟨h.1, hM.laid.initial_mem (fun t ht => acceptsG_rows hM.accepts (List.mem_append_left _ ht)) h.1 (by rw [← declaredInitials_eq]; exact hi)⟩⟩
  cands _ _ _ _ := rfl
  rows e q st cd t h hcd htr := by
    refine ⟨rfl, rfl, fun _ l hl => ?_⟩
    have hmem := (mem_candsG_row hcd htr).1
    obtain ⟨_, l', h1, h2⟩ := hM.compiles.ends t hmem
    rw [hl] at h1
    cases h1
    exact ⟨hS.targets t hmem l hl, h2⟩
  handler := rfl
  ctor _ := rfl
  slots := rfl
  anonymous := rfl
  historic := rfl
  deferring := rfl

theorem Exchange.alikeG (hM : M.RegularG) (hS : M.ScopedG) (h : Exchange M M') :
    M'.RegularG ∧ M'.ScopedG ∧ AlikeG M M' M.Loc ∧ (∀ e, e ∈ M'.eventsG ↔ e ∈ M.eventsG) ∧
      (∀ q st, M'.Loc q st ↔ M.Loc q st) := by
  obtain ⟨p, pre, r1, r2, post, ht, hM', hI, hD⟩ := h
  have hr := AlikeG.refl hM hS
  refine ⟨regularG_exch ht hM' hD hM, scopedG_exch ht hM' hD hS, ?_, fun e => mem_eventsG_exch ht hM',
    fun q st => and_congr (mem_composites_exch ht hM') (mem_states_exch ht hM')⟩
  refine ⟨fun _ _ h => h, ?_, root_exch ht hM', hr.rootIn, ?_, fun e q st _ => candsG_exch ht hM' hI e q st, ?_,
    (decl_exch ht hM' _).2.2.2.2.1, ?_, ?_, ?_, any_exch ht hM' _, ?_⟩
  · intro q st h
    exact ⟨(mem_composites_exch ht hM').2 h.1, (mem_states_exch ht hM').2 h.2⟩
  · intro q st h
    exact ⟨initials_exch ht hM' hD q, (hr.initials q st h).2⟩
  · intro e q st cd t h hcd htr
    exact ⟨targetLoc_exch ht hM' hD t, toRun_exch ht hM' hD t, (hr.rows e q st cd t h hcd htr).2.2⟩
  · intro st
    cases st with
    | ps => rfl
    | st s => exact (decl_exch ht hM' s).2.2.2.2.2
  · have key : ∀ n, M'.maxInit ≤ n ↔ M.maxInit ≤ n := by
      intro n
      rw [maxInit_le_iff, maxInit_le_iff]
      simp only [mem_composites_exch ht hM', initials_exch ht hM' hD]
    exact Nat.le_antisymm ((key _).2 (Nat.le_refl _)) ((key _).1 (Nat.le_refl _))
  · unfold anonymous
    simp only [mem_extRows_exch ht hM']
  · unfold deferring
    rw [any_exch ht hM']
    congr 1
    funext t
    split <;> simp only [(decl_exch ht hM' _).2.2.2.1]

theorem AlikeG.trans {L L' : Name → StTy → Prop} {M'' : Machine} (h : AlikeG M M' L)
    (h' : AlikeG M' M'' L') (hL : ∀ q st, L q st → L' q st) : AlikeG M M'' L where
  left := h.left
  right q st hq := h'.right q st (hL q st hq)
  root := h'.root.trans h.root
  rootIn := h.rootIn
  initials q st hq := ⟨(h'.initials q st (hL q st hq)).1.trans (h.initials q st hq).1,
    (h.initials q st hq).2⟩
  cands e q st hq := (h'.cands e q st (hL q st hq)).trans (h.cands e q st hq)
  rows e q st cd t hq hc htr := by
    obtain ⟨h1, h2, h3⟩ := h.rows e q st cd t hq hc htr
    obtain ⟨h1', h2', _⟩ := h'.rows e q st cd t (hL q st hq) (by rw [h.cands e q st hq]; exact hc) htr
    exact ⟨h1'.trans h1, h2'.trans h2, h3⟩
  handler := by have := h'.handler; rw [h.root] at this; exact this.trans h.handler
  ctor st := (h'.ctor st).trans (h.ctor st)
  slots := h'.slots.trans h.slots
  anonymous := h'.anonymous.trans h.anonymous
  historic := h'.historic.trans h.historic
  deferring := h'.deferring.trans h.deferring

theorem AlikeG.symm {L : Name → StTy → Prop} (h : AlikeG M M' L) : AlikeG M' M L where
  left := h.right
  right := h.left
  root := h.root.symm
  rootIn := by rw [h.root]; exact h.rootIn
  initials q st hq := ⟨(h.initials q st hq).1.symm, by rw [(h.initials q st hq).1]; exact (h.initials q st hq).2⟩
  cands e q st hq := (h.cands e q st hq).symm
  rows e q st cd t hq hc htr := by
    rw [h.cands e q st hq] at hc
    obtain ⟨h1, h2, h3⟩ := h.rows e q st cd t hq hc htr
    exact ⟨h1.symm, h2.symm, by rw [h1]; exact h3⟩
  handler := by rw [h.root]; exact h.handler.symm
  ctor st := (h.ctor st).symm
  slots := h.slots.symm
  anonymous := h.anonymous.symm
  historic := h.historic.symm
  deferring := h.deferring.symm

theorem Reordered.alikeG (hM : M.RegularG) (hS : M.ScopedG) (h : Reordered M M') :
    M'.RegularG ∧ M'.ScopedG ∧ AlikeG M M' M.Loc ∧ (∀ e, e ∈ M'.eventsG ↔ e ∈ M.eventsG) ∧
      (∀ q st, M'.Loc q st ↔ M.Loc q st) := by
  induction h with
  | refl => exact ⟨hM, hS, AlikeG.refl hM hS, fun _ => Iff.rfl, fun _ _ => Iff.rfl⟩
  | @exchange M' M'' h hx ih =>
    obtain ⟨h1, h2, h3, h4, h5⟩ := ih
    obtain ⟨k1, k2, k3, k4, k5⟩ := hx.alikeG h1 h2
    exact ⟨k1, k2, AlikeG.trans h3 k3 fun q st hq => (h5 q st).2 hq, fun e => (k4 e).trans (h4 e),
      fun q st => (k5 q st).trans (h5 q st)⟩

/-! ## A row removed -/

section
variable {p : Name} {pre post : List Row} {r : Row} {L : List (Name × StTy)}
variable (ht : (M.decl p).table = some (pre ++ r :: post)) (hM' : M' = M.withRows p (pre ++ post))
  (hR : M.Removable L p pre r)
include ht hM' hR

theorem innerG_pru (e : EventTy) {l : Name × StTy} (hL : l ∈ L) (x : StTy) :
    (M'.innerG x).filter (fun t => decide (t.event = e ∧ sourceLoc t.parent t.source = l)) =
      (M.innerG x).filter (fun t => decide (t.event = e ∧ sourceLoc t.parent t.source = l)) := by
  cases x with
  | ps => rfl
  | st s =>
    unfold innerG
    dsimp only
    rw [isComposite_pru ht hM', root_pru ht hM']
    split
    · exact innerRows_pru ht hM' hR e hL _
    · rfl

theorem intPartG_pru (e : EventTy) {q : Name} {s : StTy} (hL : (q, s) ∈ L) :
    (M'.intRowsG.reverse.filter (fun t => t.event = e)).flatMap (intCands q s) =
      (M.intRowsG.reverse.filter (fun t => t.event = e)).flatMap (intCands q s) := by
  rw [intCandsG_at, intCandsG_at]
  congr 2
  rw [funext (innerG_pru ht hM' hR e hL)]
  unfold states
  rw [List.flatMap_append, List.flatMap_append, root_pru ht hM']
  congr 1
  rw [eraseDups_flatMap (M'.extRows.flatMap _), eraseDups_flatMap (M.extRows.flatMap _)]
  congr 1
  refine (SameOnce.eraseDups ?_).symm
  rw [List.filter_flatMap, List.filter_flatMap]
  unfold extRows
  rw [root_pru ht hM', rank_pru ht hM']
  refine sameOnce_reading ht hM' _ ?_ _ _
  intro t hf a ha
  obtain ⟨ha, hPa⟩ := List.mem_filter.1 ha
  have mem : (t.parent, a) ∈ mentions t := by
    unfold mentions
    rcases List.mem_cons.1 ha with rfl | ha
    · exact List.mem_cons_self
    · rw [List.mem_singleton.1 ha]; simp
  rcases hR.inner t hf _ mem with h | ⟨r', hr', h⟩
  · exfalso
    simp only [Bool.not_eq_true', List.isEmpty_eq_false_iff] at hPa
    obtain ⟨i, hi⟩ := List.exists_mem_of_ne_nil _ hPa
    have := innerG_sub t.parent i (List.mem_filter.1 hi).1
    rw [h] at this
    cases this
  · refine ⟨r', hr', List.mem_filter.2 ⟨?_, hPa⟩⟩
    unfold mentions at h
    rcases List.mem_cons.1 h with h | h
    · rw [(Prod.mk.inj h).2]; exact List.mem_cons_self
    · rw [(Prod.mk.inj (List.mem_singleton.1 h)).2]; simp

theorem candsG_pru (e : EventTy) {q : Name} {s : StTy} (hL : (q, s) ∈ L) :
    M'.candsG e q s = M.candsG e q s := by
  unfold candsG
  rw [extPart_pru ht hM' hR e hL, intPartG_pru ht hM' hR e hL, deferPart_pru ht hM' hR e hL]

end

theorem Pruned.alikeG {L : List (Name × StTy)} (hS : M.ScopedG) (hL : M.LiveG L)
    (h : Pruned M.Removable M M' L) : AlikeG M M' (fun q st => (q, st) ∈ L) := by
  obtain ⟨p, pre, r, post, ht, hM', hR⟩ := h.row
  refine ⟨fun q st hx => hL.inside _ hx, fun q st hx => h.kept _ hx, root_pru ht hM', ?_, ?_,
    fun e q st hx => candsG_pru ht hM' hR e hx, ?_, (decl_pru ht hM' _).2.2.2.2.1, ?_, h.slots,
    h.anonymous, h.historic, h.deferring⟩
  · obtain ⟨i, hi⟩ := List.exists_mem_of_ne_nil _ hS.rootInit
    exact ⟨_, hL.root i hi⟩
  · intro q st hx
    exact ⟨initials_pru ht hM' hR q, fun i hi => hL.initials _ hx i hi⟩
  · intro e q st cd t hx hcd htr
    exact ⟨targetLoc_pru ht hM' hR t, toRun_pru ht hM' hR t,
      fun hi l hl => hL.targets _ hx e cd hcd t htr hi l hl⟩
  · intro st
    cases st with
    | ps => rfl
    | st s => exact (decl_pru ht hM' s).2.2.2.2.2

end Machine

/-! ## Runs -/

section
variable {P W : Type} {M M' : Machine} {sem : SemR P W} {K : List (Name × StTy)}
variable {d : Dep} {ops : List (Op P)} {s s' : SM P W}

/-- A call both machines accept. -/
def AskG (M M' : Machine) : Op P → Prop
  | .process ev _ => ev ∈ M.eventsG ∧ ev ∈ M'.eventsG
  | .set _ _ _ => False
  | .setDependency _ => True

/-- The events both machines know. -/
def commonG (M M' : Machine) : List EventTy := M.eventsG.filter fun ev => decide (ev ∈ M'.eventsG)

theorem mem_commonG {ev : EventTy} : ev ∈ commonG M M' ↔ ev ∈ M.eventsG ∧ ev ∈ M'.eventsG := by
  unfold commonG
  rw [List.mem_filter, decide_eq_true_eq]

theorem askG_suits (hM : M.RegularG) (hM' : M'.RegularG) : SuitsG M M' (commonG M M') (AskG (P := P) M M') := by
  intro op h
  cases op with
  | process ev p =>
    refine ⟨?_, ?_, ?_⟩
    · show ev ∈ M.eventIdsG; rw [← Machine.eventsG_eq hM.laid]; exact h.1
    · show ev ∈ M'.eventIdsG; rw [← Machine.eventsG_eq hM'.laid]; exact h.2
    · rintro _ _ ⟨⟩; exact mem_commonG.2 h
  | set r p st => exact h.elim
  | setDependency d => exact ⟨trivial, trivial, fun _ _ h => nomatch h⟩

theorem askG_of_opOkGR (hM : M.RegularG) (hE : ∀ e, e ∈ M'.eventsG ↔ e ∈ M.eventsG) {op : Op P}
    (h : OpOkGR M op) : AskG M M' op := by
  cases op with
  | process ev p =>
    have : ev ∈ M.eventsG := by rw [Machine.eventsG_eq hM.laid]; exact h
    exact ⟨this, (hE ev).2 this⟩
  | set r p st => exact h.elim
  | setDependency d => trivial

theorem AskG.symm {op : Op P} (h : AskG M M' op) : AskG M' M op := by
  cases op with
  | process ev p => exact ⟨h.2, h.1⟩
  | set r p st => exact h
  | setDependency d => trivial

/-- Machines that offer the same cannot be told apart, from outside or from inside callbacks. -/
theorem AlikeOn.runGR (hA : Machine.AlikeG M M' fun q st => (q, st) ∈ K) (hM : M.RegularG) (hM' : M'.RegularG)
    (hS' : M'.ScopedG) (hg : sem.Good True (AskG M M')) (hr : RunToGR M sem d ops s)
    (hops : ∀ op ∈ ops, AskG M M' op) :
    ∃ s', RunToGR M' sem d ops s' ∧ Indistinct M M' (fun q st => (q, st) ∈ K) s s' ∧
      ∀ (fuel n : Nat) (op : Op P), AskG M M' op →
        (stepGR M sem fuel n op s).Rel Eq (Indistinct M M' fun q st => (q, st) ∈ K)
          (stepGR M' sem fuel n op s') := by
  have hok := askG_suits (P := P) hM hM'
  have hm : Likes M M' id id (diag K) M.candsG M'.candsG (commonG M M') M'.eventsG :=
    hA.likes fun _ h => (mem_commonG.1 h).2
  have hanon : M.anonymous = true → EventTy.none ∈ commonG M M' := fun h =>
    mem_commonG.2 ⟨Machine.none_eventG h, Machine.none_eventG (hA.anonymous.trans h)⟩
  have g1 : sem.Good True (OpOkGR M) := hg.weaken fun _ h => (hok _ h).1
  have g2 : sem.Good True (OpOkGR M') := hg.weaken fun _ h => (hok _ h).2.1
  have hS := (C97_reach hM g1 hr).1
  obtain ⟨s', c, c', hr', hc, hc', hp⟩ :=
    RunToGR.peers (sem := sem) hm hanon hok hM hM' ⟨hS'.scopes, fun _ => hS'.rootInit⟩ hg hr hops
  refine ⟨s', hr', hp.indistinct hA hM.laid hM'.laid hc hc', fun fuel n op ho => ?_⟩
  refine (Meet.carry (C97_step hc hM hS g1 fuel n (hok _ ho).1)
    (C97_step hc' hM' hS'.scopes g2 fuel n (hok _ ho).2.1)
    (Peers.execG hm hanon hok hg fuel n op ho c c' hp)).weaken ?_
  rintro s s' ⟨c, c', h1, h2, h3⟩
  exact h3.indistinct hA hM.laid hM'.laid h1 h2

/-- C116: if rows that do not compete are exchanged in a machine built with the amalgamated header, then
whatever a client has done with it, also from inside its callbacks, it can have done with the other, and
sees the same; and the next call has the same outcome on both, to any depth of calls from inside. -/
theorem C116_order (hM : M.RegularG) (hS : M.ScopedG) (hR : Machine.Reordered M M')
    (hg : sem.Good True (OpOkGR M)) (hr : RunToGR M sem d ops s) :
    ∃ s', RunToGR M' sem d ops s' ∧ Indistinct M M' M.Loc s s' ∧
      ∀ (fuel n : Nat) (op : Op P), OpOkGR M op →
        (stepGR M sem fuel n op s).Rel Eq (Indistinct M M' M.Loc) (stepGR M' sem fuel n op s') := by
  obtain ⟨h1, h2, h3, h4, h5⟩ := hR.alikeG hM hS
  have hb : ∀ op : Op P, OpOkGR M op → AskG M M' op := fun op ho => askG_of_opOkGR hM h4 ho
  rw [← mem_allLocs] at h3 ⊢
  obtain ⟨s', k1, k2, k3⟩ := AlikeOn.runGR h3 hM h1 h2 (hg.weaken hb) hr (fun op ho => hb op (hr.opsOk op ho))
  exact ⟨s', k1, k2, fun fuel n op ho => k3 fuel n op (hb op ho)⟩

/-- C116, the other way round: nothing new becomes possible. -/
theorem C116_order_back (hM : M.RegularG) (hS : M.ScopedG) (hR : Machine.Reordered M M')
    (hg : sem.Good True (OpOkGR M')) (hr : RunToGR M' sem d ops s') :
    ∃ s, RunToGR M sem d ops s ∧ Indistinct M' M M.Loc s' s ∧
      ∀ (fuel n : Nat) (op : Op P), OpOkGR M' op →
        (stepGR M' sem fuel n op s').Rel Eq (Indistinct M' M M.Loc) (stepGR M sem fuel n op s) := by
  obtain ⟨h1, h2, h3, h4, h5⟩ := hR.alikeG hM hS
  have hb : ∀ op : Op P, OpOkGR M' op → AskG M' M op := fun op ho => askG_of_opOkGR h1 (fun e => (h4 e).symm) ho
  rw [← mem_allLocs] at h3 ⊢
  obtain ⟨s', k1, k2, k3⟩ := AlikeOn.runGR h3.symm h1 hM hS (hg.weaken hb) hr
    (fun op ho => hb op (hr.opsOk op ho))
  exact ⟨s', k1, k2, fun fuel n op ho => k3 fuel n op (hb op ho)⟩

/-- C116: a row that is not needed can be removed, and a client whose calls, from outside and from inside
its callbacks, both machines accept sees the same. -/
theorem C116_remove (hM : M.RegularG) (hS : M.ScopedG) (hM' : M'.RegularG) (hS' : M'.ScopedG)
    (hL : M.LiveG K) (hp : Machine.Pruned M.Removable M M' K) (hg : sem.Good True (AskG M M'))
    (hr : RunToGR M sem d ops s) (hops : ∀ op ∈ ops, AskG M M' op) :
    ∃ s', RunToGR M' sem d ops s' ∧ Indistinct M M' (fun q st => (q, st) ∈ K) s s' ∧
      ∀ (fuel n : Nat) (op : Op P), AskG M M' op →
        (stepGR M sem fuel n op s).Rel Eq (Indistinct M M' fun q st => (q, st) ∈ K)
          (stepGR M' sem fuel n op s') :=
  AlikeOn.runGR (hp.alikeG hS hL) hM hM' hS' hg hr hops

/-- C116, the other way round: a row that is not needed can be added. -/
theorem C116_add (hM : M.RegularG) (hS : M.ScopedG) (hM' : M'.RegularG)
    (hL : M.LiveG K) (hp : Machine.Pruned M.Removable M M' K) (hg : sem.Good True (AskG M M'))
    (hr : RunToGR M' sem d ops s') (hops : ∀ op ∈ ops, AskG M M' op) :
    ∃ s, RunToGR M sem d ops s ∧ Indistinct M' M (fun q st => (q, st) ∈ K) s' s ∧
      ∀ (fuel n : Nat) (op : Op P), AskG M M' op →
        (stepGR M' sem fuel n op s').Rel Eq (Indistinct M' M fun q st => (q, st) ∈ K)
          (stepGR M sem fuel n op s) := by
  obtain ⟨s, k1, k2, k3⟩ := AlikeOn.runGR (Machine.AlikeG.symm (hp.alikeG hS hL)) hM' hM hS
    (hg.weaken fun _ h => h.symm) hr (fun op ho => (hops op ho).symm)
  exact ⟨s, k1, k2, fun fuel n op ho => k3 fuel n op ho.symm⟩

end

/-! ## Examples -/

namespace Machine

/-- Evaluates `LiveG`. -/
def liveGB (M : Machine) (L : List (Name × StTy)) : Bool :=
  (L.all fun x => decide (x.1 ∈ M.composites ∧ x.2 ∈ M.states)) &&
  ((M.declaredInitials M.root).all fun i => decide ((M.root, StTy.st i) ∈ L)) &&
  (L.all fun x => (M.declaredInitials x.1).all fun i => decide ((x.1, StTy.st i) ∈ L)) &&
  L.all fun x => M.eventsG.all fun ev => (M.candsG ev x.1 x.2).all fun c =>
    match c.row? with
    | none => true
    | some t => t.internal || match M.targetLoc t with
      | none => true
      | some l => decide (l ∈ L)

theorem liveG_of_check {M : Machine} {L : List (Name × StTy)} (h : M.liveGB L = true) : M.LiveG L := by
  unfold liveGB at h
  simp only [Bool.and_eq_true, List.all_eq_true, decide_eq_true_eq] at h
  obtain ⟨⟨⟨h1, h2⟩, h3⟩, h4⟩ := h
  refine ⟨h1, h2, h3, ?_⟩
  intro x hx ev c hc t ht hi l hl
  have := h4 x hx ev (events_of_candsG hc ht) c hc
  rw [ht] at this
  simp only [hi, hl, Bool.false_or, decide_eq_true_eq] at this
  exact this

end Machine

namespace Ex

/-- Two ways into composite 3, which has an internal row, one row out of it, one row between two simple
states; the first two rows of the root are a parameter. -/
def shelfDecls (r1 r2 : Row) : List Decl :=
  [ { table := some [r1, r2, row (.st 1) (ev 1) none (some 3) (.st 2), row (.st 3) (ev 2) none (some 4) (.st 1)] },
    {}, {},
    { table := some [row (ini 4) (ev 1) none (some 6) (.st 5), row (.st 5) (ev 1) none none (.st 4)],
      itable := some [⟨ev 3, none, some 5⟩] },
    {}, {} ]

def shelf1 : Row := row (ini 1) (ev 0) none (some 1) (.st 3)
def shelf2 : Row := row (.st 2) (ev 0) (some 100) (some 2) (.st 3)

def shelf : Machine := .ofList (shelfDecls shelf1 shelf2) [2, 0, 0, 1]
def reshelf : Machine := .ofList (shelfDecls shelf2 shelf1) [2, 0, 0, 1]

theorem shelf_regularG : shelf.RegularG := Machine.regularG_ofList (by decide +kernel)

theorem shelf_scopedG : shelf.ScopedG := Machine.Scoped.toG (Machine.scoped_of_check (by decide +kernel))

/-- The two rows may be exchanged, and the states get different numbers. -/
theorem shelf_reshelf : Machine.Reordered shelf reshelf ∧ shelf.comb 0 (.st 2) ≠ reshelf.comb 0 (.st 2) :=
  ⟨.exchange .refl ⟨0, [], shelf1, shelf2,
    [row (.st 1) (ev 1) none (some 3) (.st 2), row (.st 3) (ev 2) none (some 4) (.st 1)], rfl,
    ofList_withRows.symm, Machine.independent_of_check shelf_regularG.laid.ranked (by decide +kernel),
    by decide +kernel⟩, by decide +kernel⟩

/-- A client that hands the machine two more events while it is on its way from state 1 to state 2. -/
def prying : SemR Nat (List Nat) := semR (fun _ => true) never (only 3 [.process (ev 0) 9, .process (ev 3) 8])

theorem prying_goodG : prying.Good True (OpOkGR shelf) :=
  semR_good never_all (only_all fun op h => by
    rcases List.mem_cons.1 h with rfl | h
    · show ev 0 ∈ shelf.eventIdsG
      decide +kernel
    · rw [List.mem_singleton.1 h]
      show ev 3 ∈ shelf.eventIdsG
      decide +kernel)

/-- It sees no difference: in both machines it is in the composite in the end, having run its internal
row. -/
example : ∃ s s', RunToGR shelf prying 7 [.process (ev 1) 1, .process (ev 1) 3] s ∧
    s.world = [3, 100, 2, 5, 6] ∧
    RunToGR reshelf prying 7 [.process (ev 1) 1, .process (ev 1) 3] s' ∧
    Indistinct shelf reshelf shelf.Loc s s' := by
  obtain ⟨s, h, hs⟩ := exists_runGR shelf prying (fuel := 6) (n := 4) (d := 7) (w := [])
    (ops := [.process (ev 1) 1, .process (ev 1) 3])
    (f := fun s => decide (s.world = [3, 100, 2, 5, 6])) (by decide +kernel)
  obtain ⟨s', h1, h2, -⟩ := C116_order shelf_regularG shelf_scopedG shelf_reshelf.1 prying_goodG h
  exact ⟨s, s', h, of_decide_eq_true hs, h1, h2⟩

theorem leafy_regularG : leafy.RegularG := Machine.regularG_ofList (by decide +kernel)
theorem leafless_regularG : leafless.RegularG := Machine.regularG_ofList (by decide +kernel)

theorem leafy_liveG : leafy.LiveG [(0, .st 1), (0, .st 2)] := Machine.liveG_of_check (by decide +kernel)

/-- A client that goes back at once. -/
def bouncy : SemR Nat (List Nat) := semR (fun _ => true) never (only 1 [.process (ev 1) 9])

theorem bouncy_asks : bouncy.Good True (AskG leafy leafless) :=
  semR_good never_all (only_all fun op h => by
    rw [List.mem_singleton.1 h]
    show ev 1 ∈ leafy.eventsG ∧ ev 1 ∈ leafless.eventsG
    decide +kernel)

/-- It sees no difference when the row is removed, and none when it is added back. -/
example : (∃ s s', RunToGR leafy bouncy 7 [.process (ev 0) 1, .process (ev 0) 2] s ∧
      s.world = [100, 1, 3, 20, 100, 1, 3, 20] ∧ RunToGR leafless bouncy 7 [.process (ev 0) 1, .process (ev 0) 2] s' ∧
      s'.world = s.world) ∧
    ∀ {d : Dep} {ops : List (Op Nat)} {s' : SM Nat (List Nat)}, RunToGR leafless bouncy d ops s' →
      (∀ op ∈ ops, AskG leafy leafless op) → ∃ s, RunToGR leafy bouncy d ops s ∧ s'.world = s.world := by
  refine ⟨?_, ?_⟩
  · obtain ⟨s, h, hs⟩ := exists_runGR leafy bouncy (fuel := 6) (n := 4) (d := 7) (w := [])
      (ops := [.process (ev 0) 1, .process (ev 0) 2])
      (f := fun s => decide (s.world = [100, 1, 3, 20, 100, 1, 3, 20])) (by decide +kernel)
    obtain ⟨s', h1, h2, -⟩ := C116_remove leafy_regularG leafy_scoped.toG leafless_regularG leafless_scoped.toG
      leafy_liveG leafy_pruned bouncy_asks h (by
        intro op ho
        rcases List.mem_cons.1 ho with rfl | ho
        · show ev 0 ∈ leafy.eventsG ∧ ev 0 ∈ leafless.eventsG
          decide +kernel
        · rw [List.mem_singleton.1 ho]
          show ev 0 ∈ leafy.eventsG ∧ ev 0 ∈ leafless.eventsG
          decide +kernel)
    exact ⟨s, s', h, of_decide_eq_true hs, h1, h2.world.symm⟩
  · intro d ops s' h hops
    obtain ⟨s, h1, h2, -⟩ := C116_add leafy_regularG leafy_scoped.toG leafless_regularG leafy_liveG leafy_pruned
      bouncy_asks h hops
    exact ⟨s, h1, h2.world⟩

def rivalDecls (r1 r2 : Row) : List Decl := [{ table := some [r1, r2] }, {}, {}]
def rival1 : Row := row (ini 1) (ev 0) none (some 1) (.st 2)
def rival2 : Row := row (.st 1) (ev 0) none (some 2) (.st 2)

end Ex

/-- C116: the order of rows that compete does matter. -/
theorem C116_compete : ∃ (M M' : Machine) (p : Name) (r1 r2 : Row),
    M.RegularG ∧ M.ScopedG ∧ M'.RegularG ∧ M'.ScopedG ∧
    (M.decl p).table = some [r1, r2] ∧ M' = M.withRows p [r2, r1] ∧
    M'.declaredInitials p = M.declaredInitials p ∧
    ∃ (sem : SemR Nat (List Nat)) (d : Dep) (ops : List (Op Nat)) (s s' : SM Nat (List Nat)),
      sem.Good True (OpOkGR M) ∧ RunToGR M sem d ops s ∧ RunToGR M' sem d ops s' ∧ s.world = [2] ∧ s'.world = [1] := by
  have hS : ∀ r1 r2 : Row, (r1, r2) ∈ [(Ex.rival1, Ex.rival2), (Ex.rival2, Ex.rival1)] →
      (Machine.ofList (Ex.rivalDecls r1 r2) [1]).RegularG ∧ (Machine.ofList (Ex.rivalDecls r1 r2) [1]).ScopedG := by
    intro r1 r2 h
    rcases List.mem_cons.1 h with h | h
    · cases h
      exact ⟨Machine.regularG_ofList (by decide +kernel),
        Machine.Scoped.toG (Machine.scoped_of_check (by decide +kernel))⟩
    · cases List.mem_singleton.1 h
      exact ⟨Machine.regularG_ofList (by decide +kernel),
        Machine.Scoped.toG (Machine.scoped_of_check (by decide +kernel))⟩
  obtain ⟨s, h, hs⟩ := Ex.exists_runGR (.ofList (Ex.rivalDecls Ex.rival1 Ex.rival2) [1])
    (Ex.semR (fun _ => true) Ex.never Ex.never) (fuel := 2) (n := 2) (d := 7) (w := [])
    (ops := [.process (Ex.ev 0) 1]) (f := fun s => decide (s.world = [2])) (by decide +kernel)
  obtain ⟨s', h', hs'⟩ := Ex.exists_runGR (.ofList (Ex.rivalDecls Ex.rival2 Ex.rival1) [1])
    (Ex.semR (fun _ => true) Ex.never Ex.never) (fuel := 2) (n := 2) (d := 7) (w := [])
    (ops := [.process (Ex.ev 0) 1]) (f := fun s => decide (s.world = [1])) (by decide +kernel)
  exact ⟨_, _, 0, Ex.rival1, Ex.rival2, (hS _ _ (by simp)).1, (hS _ _ (by simp)).2,
    (hS Ex.rival2 Ex.rival1 (by simp)).1, (hS Ex.rival2 Ex.rival1 (by simp)).2, rfl, Ex.ofList_withRows.symm,
    by decide +kernel, _, 7, _, s, s', Ex.semR_good Ex.never_all Ex.never_all, h, h', of_decide_eq_true hs,
    of_decide_eq_true hs'⟩

end Hsm
