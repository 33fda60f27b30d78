import Verif.Invariant

/-! Invariants of all reachable machines. -/

namespace Hsm
namespace Machine
variable {M : Machine}

theorem sum_pos_iff {l : List Nat} : 0 < l.sum ↔ ∃ n ∈ l, 0 < n := by
  induction l with
  | nil => simp
  | cons a l ih =>
    rw [List.sum_cons]
    constructor
    · intro h
      by_cases ha : 0 < a
      · exact ⟨a, by simp, ha⟩
      · obtain ⟨n, hn, h0⟩ := ih.1 (by omega)
        exact ⟨n, by simp [hn], h0⟩
    · rintro ⟨n, hn, h0⟩
      rcases List.mem_cons.1 hn with rfl | hn
      · omega
      · have := ih.2 ⟨n, hn, h0⟩; omega

/-- Which candidates there are. -/
theorem mem_cands {c : Cand} {e : EventTy} {p : Name} {s : StTy} :
    c ∈ M.cands e p s ↔
      (c = .defer ∧ ∃ t ∈ M.flat, sourceLoc t.parent t.source = (p, s) ∧
        e ∈ (M.deferOf (stripInitial t.source)).getD []) ∨
      (∃ t ∈ M.flat, t.event = e ∧ t.source = .st p ∧ M.isComposite p = true ∧ M.IsChild p s ∧
        c = .exit t p) ∨
      (∃ t ∈ M.flat, t.event = e ∧ sourceLoc t.parent t.source = (p, s) ∧ c = .row t) ∨
      (∃ t ∈ M.iflat, t.event = e ∧ sourceLoc t.parent t.source = (p, s) ∧ c = .row t) := by
  rw [cands_def]
  rw [List.mem_append, List.mem_append]
  have h1 : c ∈ List.replicate ((M.flat.map (M.deferCount e p s)).sum) Cand.defer ↔
      (c = .defer ∧ ∃ t ∈ M.flat, sourceLoc t.parent t.source = (p, s) ∧
        e ∈ (M.deferOf (stripInitial t.source)).getD []) := by
    rw [List.mem_replicate, and_comm]
    apply and_congr_right
    intro _
    rw [← Nat.pos_iff_ne_zero, sum_pos_iff]
    constructor
    · rintro ⟨n, hn, h0⟩
      obtain ⟨t, ht, rfl⟩ := List.mem_map.1 hn
      rw [deferCount_def] at h0
      split at h0
      · rename_i hl
        exact ⟨t, ht, hl, List.count_pos_iff.1 h0⟩
      · omega
    · rintro ⟨t, ht, hl, he⟩
      refine ⟨_, List.mem_map.2 ⟨t, ht, rfl⟩, ?_⟩
      rw [deferCount_def]
      rw [if_pos hl]
      exact List.count_pos_iff.2 he
  have h2 : c ∈ (M.flat.reverse.filter (fun t => t.event = e)).flatMap (M.extCands p s) ↔
      (∃ t ∈ M.flat, t.event = e ∧ t.source = .st p ∧ M.isComposite p = true ∧ M.IsChild p s ∧
        c = .exit t p) ∨
      (∃ t ∈ M.flat, t.event = e ∧ sourceLoc t.parent t.source = (p, s) ∧ c = .row t) := by
    simp only [List.mem_flatMap, List.mem_filter, List.mem_reverse, decide_eq_true_eq, extCands,
      List.mem_append]
    constructor
    · rintro ⟨t, ⟨ht, he⟩, hc | hc⟩
      · split at hc
        · rename_i hh
          exact Or.inl ⟨t, ht, he, hh.1, hh.2.1, hh.2.2, by simpa using hc⟩
        · cases hc
      · split at hc
        · rename_i hh
          exact Or.inr ⟨t, ht, he, hh, by simpa using hc⟩
        · cases hc
    · rintro (⟨t, ht, he, k1, k2, k3, rfl⟩ | ⟨t, ht, he, k1, rfl⟩)
      · exact ⟨t, ⟨ht, he⟩, Or.inl (by rw [if_pos ⟨k1, k2, k3⟩]; simp)⟩
      · exact ⟨t, ⟨ht, he⟩, Or.inr (by rw [if_pos k1]; simp)⟩
  have h3 : c ∈ (M.iflat.reverse.filter (fun t => t.event = e)).flatMap (intCands p s) ↔
      (∃ t ∈ M.iflat, t.event = e ∧ sourceLoc t.parent t.source = (p, s) ∧ c = .row t) := by
    simp only [List.mem_flatMap, List.mem_filter, List.mem_reverse, decide_eq_true_eq, intCands]
    constructor
    · rintro ⟨t, ⟨ht, he⟩, hc⟩
      split at hc
      · rename_i hh
        exact ⟨t, ht, he, hh, by simpa using hc⟩
      · cases hc
    · rintro ⟨t, ht, he, k1, rfl⟩
      exact ⟨t, ⟨ht, he⟩, by rw [if_pos k1]; simp⟩
  rw [h1, h2, h3, or_assoc, or_assoc]

theorem mem_entries {deps : List Dep} {e : EventTy} {p : Name} {s : StTy} {en : Entry} :
    en ∈ M.entries deps e p s ↔
      ∃ d ∈ deps, ∃ c ∈ M.cands e p s, M.entryOfCand d c = some en := by
  unfold entries
  simp only [List.mem_flatMap, List.mem_filterMap]

/-- The row behind a non-deferring candidate. -/
theorem cand_row {c : Cand} {e : EventTy} {p : Name} {s : StTy} (h : c ∈ M.cands e p s) :
    c = .defer ∨ ∃ t ∈ M.flat ++ M.iflat, t.event = e ∧ (c = .row t ∨ c = .exit t p) := by
  rcases mem_cands.1 h with ⟨h, _⟩ | ⟨t, ht, he, _, _, _, hc⟩ | ⟨t, ht, he, _, hc⟩
      | ⟨t, ht, he, _, hc⟩
  · exact Or.inl h
  · exact Or.inr ⟨t, by simp [ht], he, Or.inr hc⟩
  · exact Or.inr ⟨t, by simp [ht], he, Or.inl hc⟩
  · exact Or.inr ⟨t, by simp [ht], he, Or.inl hc⟩

/-- Shape of the entry of a candidate. -/
theorem entryOfCand_cases {d : Dep} {c : Cand} {en : Entry} (h : M.entryOfCand d c = some en) :
    (c = .defer ∧ en.defer = true ∧ en.tr = none ∧ en.internal = false ∧ en.history = false) ∨
    ∃ t l x, (c = .row t ∨ ∃ p, c = .exit t p) ∧ M.targetLoc t = some l ∧
      en.to = M.comb l.1 l.2 ∧ en.history = isHistory t.target ∧ en.defer = false ∧
      en.internal = t.internal ∧ en.tr = some x ∧ x.internal = t.internal ∧
      x.action = M.resolveAction t ∧ x.guard = t.guard ∧ x.dst = l.2 ∧ x.dep = d ∧
      (c = .row t → x.src = (sourceLoc t.parent t.source).2) ∧
      (∀ p, c = .exit t p → x.src = .st p) := by
  cases c with
  | defer =>
    simp only [entryOfCand, Option.some.injEq] at h
    subst h
    exact Or.inl ⟨rfl, rfl, rfl, rfl, rfl⟩
  | row t =>
    simp only [entryOfCand, Option.map_eq_some_iff] at h
    obtain ⟨l, hl, rfl⟩ := h
    exact Or.inr ⟨t, l, _, Or.inl rfl, hl, rfl, toHistory_eq _, rfl, rfl, rfl, rfl,
      toRun_eq _, rfl, rfl, rfl,
      fun _ => rfl, fun p h => by cases h⟩
  | exit t p =>
    simp only [entryOfCand, Option.map_eq_some_iff] at h
    obtain ⟨l, hl, rfl⟩ := h
    exact Or.inr ⟨t, l, _, Or.inr ⟨p, rfl⟩, hl, rfl, toHistory_eq _, rfl, rfl, rfl, rfl,
      toRun_eq _, rfl, rfl, rfl,
      fun h => (by cases h), fun q h => by cases h; rfl⟩

/-- Initial states of composites in force are states of the machine. -/
theorem Laid.initial_mem (h : M.Laid) (hc : ∀ t ∈ M.flat, M.rowCompiles t = true) {p i : Name}
    (hp : p ∈ M.composites) (hi : i ∈ M.initials p) : StTy.st i ∈ M.states := by
  have hp' := ((mem_parents_iff h.ranked).1 hp).1
  unfold initials at hi
  rw [List.mem_filterMap] at hi
  obtain ⟨x, hx, he⟩ := hi
  obtain ⟨o, rfl⟩ := initialOf?_eq he
  unfold childStates at hx
  rw [mem_uniq, List.mem_flatMap] at hx
  obtain ⟨r, hr, hx⟩ := hx
  have ht := (mem_flat_iff h.ranked).2 ⟨p, r, hp', hr, rfl⟩
  simp only [List.mem_cons, List.not_mem_nil, or_false] at hx
  rcases hx with hx | hx
  · have := (mem_stateIds_of_flat ht).1
    have h2 : (ext p r).source = r.source := rfl
    rw [h2, ← hx] at this
    exact this
  · obtain ⟨dst, hd, _, h2⟩ := rowCompiles_iff.1 (hc _ ht)
    unfold resolveDst at hd
    have h3 : (ext p r).target = r.target := rfl
    rw [h3, ← hx] at hd
    cases hd
    exact h2

theorem Regular.initial_mem (h : M.Regular) {p i : Name} (hp : p ∈ M.composites)
    (hi : i ∈ M.initials p) : StTy.st i ∈ M.states :=
  h.laid.initial_mem (fun _ ht => accepts_flat h.accepts ht) hp hi

theorem Regular.targetLoc_state (h : M.Regular) {t : XRow} (ht : t ∈ M.flat ++ M.iflat)
    {l : Name × StTy} (hl : M.targetLoc t = some l) : l.2 ∈ M.states := by
  have hc : M.rowCompiles t = true := by
    rcases List.mem_append.1 ht with ht | ht
    · exact accepts_flat h.accepts ht
    · exact accepts_iflat h.accepts ht
  obtain ⟨dst, hd, _, h2⟩ := rowCompiles_iff.1 hc
  rw [targetLoc_eq, hd] at hl
  cases hl
  exact h2

theorem Regular.targetLoc_some (h : M.Regular) {t : XRow} (ht : t ∈ M.flat ++ M.iflat) :
    ∃ l, M.targetLoc t = some l := by
  have hc : M.rowCompiles t = true := by
    rcases List.mem_append.1 ht with ht | ht
    · exact accepts_flat h.accepts ht
    · exact accepts_iflat h.accepts ht
  obtain ⟨dst, hd, _, h2⟩ := rowCompiles_iff.1 hc
  exact ⟨_, by rw [targetLoc_eq, hd]; rfl⟩

theorem length_initialTable : M.initialTable.length = M.nParents := by
  simp [initialTable, nParents]

theorem Regular.initialTable_lt (h : M.Regular) {l : List Nat} (hl : l ∈ M.initialTable) {c : Nat}
    (hc : c ∈ l) : c < M.size := by
  unfold initialTable at hl
  obtain ⟨p, hp, rfl⟩ := List.mem_map.1 hl
  obtain ⟨i, hi, rfl⟩ := List.mem_map.1 hc
  rw [← composites_eq] at hp
  exact h.comb_lt.2 ⟨hp, h.initial_mem hp hi⟩

theorem Laid.initialTable_get (h : M.Laid) {p : Name} (hp : p ∈ M.composites) :
    M.initialTable[M.parentIdx p]? = some ((M.initials p).map fun s => M.comb p (.st s)) := by
  unfold initialTable
  rw [List.getElem?_map, show M.parents[M.parentIdx p]? = some p from
    indexOf_getElem (composites_eq ▸ hp) (composites_eq ▸ nodup_parents) h.nParents_small]
  rfl

theorem initialTable_get (h : M.Regular) {p : Name} (hp : p ∈ M.composites) :
    M.initialTable[M.parentIdx p]? = some ((M.initials p).map fun s => M.comb p (.st s)) :=
  h.laid.initialTable_get hp

end Machine

section
variable {P W : Type} {M : Machine} {sem : Sem P W}

/-! ## Construction -/

/-- The handler table contains a handler at every index. -/
theorem foldlM_ok_inv {α β : Type} (I : β → Prop) {f : β → α → Except BuildErr β} {l : List α}
    (hf : ∀ b a b', a ∈ l → I b → f b a = .ok b' → I b') {b b' : β} (hb : I b)
    (h : l.foldlM f b = .ok b') : I b' := by
  induction l generalizing b with
  | nil => cases h; exact hb
  | cons a l ih =>
    rw [List.foldlM_cons] at h
    cases hfa : f b a with
    | error e => rw [hfa] at h; cases h
    | ok b1 =>
      rw [hfa] at h
      exact ih (fun b a b' ha => hf b a b' (by simp [ha])) (hf b a b1 (by simp) hb hfa) h

theorem foldlM_ok_all {α β : Type} (Q : α → β → Prop) {f : β → α → Except BuildErr β}
    {l : List α} (hset : ∀ b a b', a ∈ l → f b a = .ok b' → Q a b')
    (hkeep : ∀ b a b' a', a ∈ l → a' ∈ l → Q a' b → f b a = .ok b' → Q a' b') {b b' : β}
    (h : l.foldlM f b = .ok b') : ∀ a ∈ l, Q a b' := by
  induction l generalizing b with
  | nil => simp
  | cons a l ih =>
    rw [List.foldlM_cons] at h
    cases hfa : f b a with
    | error e => rw [hfa] at h; cases h
    | ok b1 =>
      rw [hfa] at h
      intro a' ha'
      rcases List.mem_cons.1 ha' with rfl | ha'
      · exact foldlM_ok_inv (Q a') (fun b x b' hx hb hh =>
          hkeep b x b' a' (by simp [hx]) (by simp) hb hh) (hset b a' b1 (by simp) hfa) h
      · exact ih (fun b a b' ha => hset b a b' (by simp [ha]))
          (fun b a b' a' h1 h2 => hkeep b a b' a' (by simp [h1]) (by simp [h2])) h a' ha'

theorem fillHandlers_spec (hM : M.Regular) {d : Dep} {H H' : HTable}
    (h : M.fillHandlers d H = .ok H') {e : EventTy} (he : e ∈ M.events) {p : Name} {st : StTy}
    (hp : p ∈ M.composites) (hs : st ∈ M.states) : H' e (M.comb p st) = some (st, d) := by
  unfold Machine.fillHandlers at h
  rw [← Machine.events_eq, ← Machine.composites_eq, ← Machine.states_eq] at h
  -- inner-most step
  have hstep : ∀ (H : HTable) e p s H', (if M.comb p s < M.size then
      Except.ok fun e' c' => if e' = e ∧ c' = M.comb p s then some (s, d) else H e' c'
      else Except.error BuildErr.ub) = Except.ok H' →
      H' = fun e' c' => if e' = e ∧ c' = M.comb p s then some (s, d) else H e' c' := by
    intro H e p s H' h
    split at h
    · cases h; rfl
    · cases h
  have key : ∀ (H : HTable) (e0 : EventTy) (p0 : Name) (s0 : StTy) (H' : HTable),
      (∀ e p s, p ∈ M.composites → s ∈ M.states → H e (M.comb p s) = some (s, d) →
        (if M.comb p0 s0 < M.size then
        Except.ok fun e' c' => if e' = e0 ∧ c' = M.comb p0 s0 then some (s0, d) else H e' c'
        else Except.error BuildErr.ub) = Except.ok H' → H' e (M.comb p s) = some (s, d)) := by
    intro H e0 p0 s0 H' e p s hp hs hH hh
    rw [hstep _ _ _ _ _ hh]
    simp only
    split
    · rename_i hc
      have := hM.comb_inj hp hs hc.2.symm
      cases this
      rfl
    · exact hH
  have inner : ∀ (e0 : EventTy) (p0 : Name) (H H' : HTable),
      (M.states.foldlM (fun (H : HTable) s =>
        if M.comb p0 s < M.size then
          Except.ok fun e' c' => if e' = e0 ∧ c' = M.comb p0 s then some (s, d) else H e' c'
        else Except.error BuildErr.ub) H) = .ok H' → p0 ∈ M.composites →
      (∀ s ∈ M.states, H' e0 (M.comb p0 s) = some (s, d)) ∧
      (∀ e p s, p ∈ M.composites → s ∈ M.states → H e (M.comb p s) = some (s, d) →
        H' e (M.comb p s) = some (s, d)) := by
    intro e0 p0 H H' h hp0
    constructor
    · apply foldlM_ok_all (fun s (H : HTable) => H e0 (M.comb p0 s) = some (s, d)) _ _ h
      · intro H s H' hs hh
        rw [hstep _ _ _ _ _ hh]
        simp
      · intro H s H' s' hs hs' hQ hh
        exact key H e0 p0 s H' e0 p0 s' hp0 hs' hQ hh
    · intro e p s hp hs hH
      exact foldlM_ok_inv (fun H : HTable => H e (M.comb p s) = some (s, d))
        (fun H s' H' _ hb hh => key H e0 p0 s' H' e p s hp hs hb hh) hH h
  have middle : ∀ (e0 : EventTy) (H H' : HTable),
      (M.composites.foldlM (fun H p => M.states.foldlM (fun (H : HTable) s =>
        if M.comb p s < M.size then
          Except.ok fun e' c' => if e' = e0 ∧ c' = M.comb p s then some (s, d) else H e' c'
        else Except.error BuildErr.ub) H) H) = .ok H' →
      (∀ p ∈ M.composites, ∀ s ∈ M.states, H' e0 (M.comb p s) = some (s, d)) ∧
      (∀ e p s, p ∈ M.composites → s ∈ M.states → H e (M.comb p s) = some (s, d) →
        H' e (M.comb p s) = some (s, d)) := by
    intro e0 H H' h
    constructor
    · apply foldlM_ok_all (fun p (H : HTable) => ∀ s ∈ M.states, H e0 (M.comb p s) = some (s, d))
        _ _ h
      · intro H p H' hp hh
        exact (inner e0 p H H' hh hp).1
      · intro H p H' p' hp hp' hQ hh s hs
        exact (inner e0 p H H' hh hp).2 e0 p' s hp' hs (hQ s hs)
    · intro e p s hp hs hH
      exact foldlM_ok_inv (fun H : HTable => H e (M.comb p s) = some (s, d))
        (fun H p' H' hp' hb hh => (inner e0 p' H H' hh hp').2 e p s hp hs hb) hH h
  have outer := foldlM_ok_all (l := M.events)
    (fun e (H : HTable) => ∀ p ∈ M.composites, ∀ s ∈ M.states, H e (M.comb p s) = some (s, d))
    (fun H e H' _ hh => (middle e H H' hh).1)
    (fun H e H' e' _ _ hQ hh p hp s hs => (middle e H H' hh).2 e' p s hp hs (hQ p hp s hs)) h
  exact outer e he p hp st hs

/-- What the constructor leaves behind. -/
theorem initState_ok {w : W} {H : HTable} {T : Table} {s : SM P W} (h : initState M w H T = .ok s) :
    s.handlers = H ∧ s.table = T ∧
    (∃ init, M.initialTable[M.parentIdx M.root]? = some init ∧ s.cur = initCur init M.maxInit ∧
      (M.orthogonal = true → ∃ k l, s.cur[0]? = some (some k) ∧
        M.initialTable[k / M.nStates]? = some l ∧ s.regions = l.length)) ∧
    s.initial = M.initialTable ∧ s.hist = M.initialTable ∧ s.queue = [] ∧ s.world = w ∧
    s.trace = [] ∧ s.log = [] := by
  unfold initState at h
  cases hi : M.initialTable[M.parentIdx M.root]? with
  | none => simp only [hi] at h; cases h
  | some init =>
    simp only [hi] at h
    split at h
    · rename_i u s1 hu
      cases h
      rcases updateRegions_ok.1 hu with ⟨hp, rfl⟩ | ⟨hp, k, l, h1, h2, rfl⟩
      · exact ⟨rfl, rfl, ⟨init, rfl, rfl, fun h => by rw [hp] at h; cases h⟩,
          rfl, rfl, rfl, rfl, rfl, rfl⟩
      · exact ⟨rfl, rfl, ⟨init, rfl, rfl, fun _ => ⟨k, l, h1, h2, rfl⟩⟩,
          rfl, rfl, rfl, rfl, rfl, rfl⟩
    · cases h

theorem construct_ok {d : Dep} {w : W} {s : SM P W} (h : construct M d w = .ok s) :
    M.accepts = true ∧
    (∃ H, (((M.decl M.root).handler.isSome = true ∧
        M.fillHandlers d (fun _ _ => none) = .ok H) ∨
        ((M.decl M.root).handler = none ∧ H = fun _ _ => none)) ∧ s.handlers = H) ∧
    M.fill d (fun _ _ => []) = .ok s.table ∧
    (∃ init, M.initialTable[M.parentIdx M.root]? = some init ∧ s.cur = initCur init M.maxInit ∧
      (M.orthogonal = true → ∃ k l, s.cur[0]? = some (some k) ∧
        M.initialTable[k / M.nStates]? = some l ∧ s.regions = l.length)) ∧
    s.initial = M.initialTable ∧ s.hist = M.initialTable ∧ s.queue = [] ∧ s.world = w ∧
    s.trace = [] ∧ s.log = [] := by
  unfold construct at h
  split at h
  · rename_i hacc
    refine ⟨hacc, ?_⟩
    cases hH : initHandlers M d with
    | error e => rw [hH] at h; cases h
    | ok H =>
      rw [hH] at h
      cases hT : M.fill d (fun _ _ => []) with
      | error e => rw [hT] at h; cases h
      | ok T =>
        rw [hT] at h
        have h' : initState M w H T = .ok s := h
        obtain ⟨h1, h2, h3⟩ := initState_ok h'
        refine ⟨⟨H, ?_, h1⟩, by rw [h2], h3⟩
        unfold initHandlers at hH
        split at hH
        · rename_i hh; exact Or.inl ⟨hh, hH⟩
        · rename_i hh
          cases hH
          exact Or.inr ⟨by simpa using hh, rfl⟩
  · cases h

/-! ## The basic invariant -/

/-- What holds of every reachable machine. -/
structure Basic (M : Machine) (s : SM P W) : Prop where
  curLen : s.cur.length = M.maxInit
  initial : s.initial = M.initialTable
  histLen : s.hist.map List.length = M.initialTable.map List.length
  table : ∃ deps : List Dep, deps ≠ [] ∧ ∀ e p st, p ∈ M.composites → st ∈ M.states →
    s.table e (M.comb p st) = M.entries deps e p st
  handlers : (M.decl M.root).handler.isSome = true → ∃ d, ∀ e ∈ M.events, ∀ p ∈ M.composites,
    ∀ st ∈ M.states, s.handlers e (M.comb p st) = some (st, d)

theorem length_initCur (init : List Nat) (n : Nat) (h : init.length ≤ n) :
    (initCur init n).length = n := by
  unfold initCur; simp; omega

theorem getElem?_initCur (init : List Nat) (n r c : Nat) :
    (initCur init n)[r]? = some (some c) ↔ init[r]? = some c := by
  unfold initCur
  rw [List.getElem?_append]
  split
  · rw [List.getElem?_map]
    cases init[r]? <;> simp
  · rename_i hr
    rw [List.getElem?_replicate]
    rw [List.length_map] at hr
    rw [List.getElem?_eq_none (by omega)]
    split <;> simp

theorem map_length_set {l : List (List Nat)} {i : Nat} {a b : List Nat} (h : l[i]? = some a)
    (hb : b.length = a.length) : (l.set i b).map List.length = l.map List.length := by
  rw [List.map_set, hb]
  apply List.ext_getElem?
  intro j
  rw [List.getElem?_set]
  split
  · rename_i hij
    subst hij
    split
    · rename_i hi
      rw [List.getElem?_map, h]; rfl
    · rename_i hi
      rw [List.getElem?_eq_none (by omega)]
  · rfl

theorem Basic.of_eq {s s' : SM P W} (h : Basic M s) (h1 : s'.cur.length = s.cur.length)
    (h2 : s'.initial = s.initial) (h3 : s'.hist.map List.length = s.hist.map List.length)
    (h4 : s'.table = s.table) (h5 : s'.handlers = s.handlers) : Basic M s' where
  curLen := h1.trans h.curLen
  initial := h2.trans h.initial
  histLen := h3.trans h.histLen
  table := by rw [h4]; exact h.table
  handlers := by rw [h5]; exact h.handlers

theorem Moved.histLen {r : Nat} {e : Entry} {s s' : SM P W} (hm : Moved M r e s s') :
    s'.hist.map List.length = s.hist.map List.length := by
  rcases hm.hist with ⟨_, h⟩ | ⟨_, k, c, l, _, _, hl, _, h⟩
  · rw [h]
  · rw [h]; exact map_length_set hl (by simp)

theorem Moved.curLen {r : Nat} {e : Entry} {s s' : SM P W} (hm : Moved M r e s s') :
    s'.cur.length = s.cur.length := by
  obtain ⟨c, hc, _⟩ := hm.dest
  rw [hc]; simp

theorem basic_construct (hM : M.Regular) {d : Dep} {w : W} {s : SM P W}
    (h : construct M d w = .ok s) : Basic M s := by
  obtain ⟨_, ⟨H, hH, hHs⟩, hT, ⟨init, hi, hcur, _⟩, hinit, hhist, _, _, _⟩ := construct_ok h
  refine ⟨?_, hinit, by rw [hhist], ⟨[d], by simp, ?_⟩, ?_⟩
  · rw [hcur]
    apply length_initCur
    rw [Machine.initialTable_get hM hM.root_mem] at hi
    cases hi
    simp only [List.length_map]
    exact Machine.initials_le_maxInit hM.root_mem
  · intro e p st hp hst
    rw [Machine.fill_spec hM hT e hp hst]
    simp [Machine.entries]
  · intro hs
    refine ⟨d, ?_⟩
    intro e he p hp st hst
    rw [hHs]
    rcases hH with ⟨_, hH⟩ | ⟨hn, _⟩
    · exact fillHandlers_spec hM hH he hp hst
    · rw [hn] at hs; cases hs

theorem Preserves.basic : Preserves M sem True (fun _ => True) (Basic (P := P) (W := W) M) :=
  Preserves.easy _
    (fun _ _ _ h => h.of_eq rfl rfl rfl rfl rfl)
    (fun _ _ _ _ _ _ h _ _ hm => h.of_eq hm.curLen hm.initial hm.histLen hm.table hm.handlers)
    (fun _ _ _ _ _ _ h _ _ _ => h.of_eq rfl rfl rfl rfl rfl)
    (fun _ _ _ _ h _ => h.of_eq rfl rfl rfl rfl rfl)

theorem basic_fill (hM : M.Regular) {s : SM P W} (h : Basic M s) {d : Dep} {T : Table}
    (hT : M.fill d s.table = .ok T) : Basic M { s with table := T } := by
  refine ⟨h.curLen, h.initial, h.histLen, ?_, h.handlers⟩
  obtain ⟨deps, hne, hd⟩ := h.table
  refine ⟨d :: deps, by simp, ?_⟩
  intro e p st hp hst
  show T e (M.comb p st) = _
  rw [Machine.fill_spec hM hT e hp hst, hd e p st hp hst]
  simp [Machine.entries]

theorem Reach.basic (hM : M.Regular) {s : SM P W} (h : Reach M sem s) : Basic M s :=
  Reach.inv (I := Basic M)
    (fun _ _ _ h => basic_construct hM h)
    Preserves.basic
    (fun ev s p _ hs => callHandler_easy _ (fun _ _ _ h => h.of_eq rfl rfl rfl rfl rfl) ev s p hs)
    (fun s r p st hs _ _ _ => hs.of_eq (by simp) rfl rfl rfl rfl)
    (fun s d T hs hT => basic_fill hM hs hT)
    (fun s w hs => hs.of_eq rfl rfl rfl rfl rfl)
    h

/-! ## Slots stay inside the tables -/

/-- All locations and all remembered locations are indices of the tables. -/
structure Slots (M : Machine) (s : SM P W) : Prop where
  basic : Basic M s
  cur : ∀ r c : Nat, s.cur[r]? = some (some c) → c < M.size
  hist : ∀ l ∈ s.hist, ∀ c ∈ l, c < M.size

/-- An entry of the table and where it comes from. -/
theorem Basic.entry {s : SM P W} (h : Basic M s) (hM : M.Regular) {ev : EventTy} {c : Nat}
    (hc : c < M.size) {e : Entry} (he : e ∈ s.table ev c) :
    ∃ p st d cand, p ∈ M.composites ∧ st ∈ M.states ∧ c = M.comb p st ∧
      cand ∈ M.cands ev p st ∧ M.entryOfCand d cand = some e := by
  obtain ⟨p, st, hp, hst, rfl⟩ := hM.comb_surj hc
  obtain ⟨deps, _, hd⟩ := h.table
  rw [hd ev p st hp hst] at he
  obtain ⟨d, _, cand, hcand, hen⟩ := Machine.mem_entries.1 he
  exact ⟨p, st, d, cand, hp, hst, rfl, hcand, hen⟩

theorem Machine.Scoped.to_lt (hS : M.Scoped) (hM : M.Regular) {t : XRow}
    (ht : t ∈ M.flat ++ M.iflat) {l : Name × StTy} (hl : M.targetLoc t = some l) :
    M.comb l.1 l.2 < M.size :=
  hM.comb_lt.2 ⟨hS.dst t ht l hl, hM.targetLoc_state ht hl⟩

theorem Slots.to_lt {s : SM P W} (h : Slots M s) (hM : M.Regular) (hS : M.Scoped) {ev : EventTy}
    {c : Nat} (hc : c < M.size) {e : Entry} (he : e ∈ s.table ev c) (hd : e.defer = false) :
    e.to < M.size := by
  obtain ⟨p, st, d, cand, hp, hst, _, hcand, hen⟩ := h.basic.entry hM hc he
  rcases Machine.entryOfCand_cases hen with ⟨_, h1, _⟩ | ⟨t, l, x, h1, h2, h3, _⟩
  · rw [h1] at hd; cases hd
  · rw [h3]
    have ht : t ∈ M.flat ++ M.iflat := by
      rcases Machine.cand_row hcand with h4 | ⟨t', ht', _, h5⟩
      · rcases h1 with h1 | ⟨q, h1⟩ <;> (rw [h1] at h4; cases h4)
      · rcases h1 with h1 | ⟨q, h1⟩ <;> rcases h5 with h5 | h5 <;> rw [h1] at h5 <;> cases h5 <;>
          exact ht'
    exact hS.to_lt hM ht h2

theorem mem_of_getElem?_set {l : List (List Nat)} {i : Nat} {a b : List Nat} :
    b ∈ l.set i a → b = a ∨ b ∈ l := by
  intro h
  rcases List.mem_or_eq_of_mem_set h with h | h
  · exact Or.inr h
  · exact Or.inl h

theorem mem_set_nat {l : List Nat} {i a b : Nat} : b ∈ l.set i a → b = a ∨ b ∈ l := by
  intro h
  rcases List.mem_or_eq_of_mem_set h with h | h
  · exact Or.inr h
  · exact Or.inl h

theorem Slots.of_eq {s s' : SM P W} (h : Slots M s) (h1 : s'.cur = s.cur)
    (h2 : s'.initial = s.initial) (h3 : s'.hist = s.hist)
    (h4 : s'.table = s.table) (h5 : s'.handlers = s.handlers) : Slots M s' where
  basic := h.basic.of_eq (by rw [h1]) h2 (by rw [h3]) h4 h5
  cur := by rw [h1]; exact h.cur
  hist := by rw [h3]; exact h.hist

theorem getElem?_set_cases {l : List (Option Nat)} {r i : Nat} {v w : Option Nat} :
    (l.set r v)[i]? = some w → (r = i ∧ w = v) ∨ (r ≠ i ∧ l[i]? = some w) := by
  intro h
  rw [List.getElem?_set] at h
  split at h
  · rename_i hri
    split at h
    · cases h; exact Or.inl ⟨hri, rfl⟩
    · cases h
  · rename_i hri
    exact Or.inr ⟨hri, h⟩

theorem Slots.moved {s s' : SM P W} (h : Slots M s) {r : Nat} {e : Entry}
    (hm : Moved M r e s s') (hto : (M.historic && e.history) = false → e.to < M.size) :
    Slots M s' := by
  have hhist : ∀ l ∈ s'.hist, ∀ c ∈ l, c < M.size := by
    rcases hm.hist with ⟨_, hh⟩ | ⟨_, k, c0, l0, _, hc0, hl0, _, hh⟩
    · rw [hh]; exact h.hist
    · rw [hh]
      intro l hl c hc
      rcases mem_of_getElem?_set hl with rfl | hl
      · rcases mem_set_nat hc with rfl | hc
        · exact h.cur r _ hc0
        · exact h.hist l0 (List.mem_of_getElem? hl0) c hc
      · exact h.hist l hl c hc
  refine ⟨h.basic.of_eq hm.curLen hm.initial hm.histLen hm.table hm.handlers, ?_, hhist⟩
  intro i c hc
  obtain ⟨c1, hcur, hd1, hd2⟩ := hm.dest
  rw [hcur] at hc
  rcases getElem?_set_cases hc with ⟨_, hcc⟩ | ⟨_, hc⟩
  · cases hcc
    cases hb : (M.historic && e.history) with
    | false => rw [hd1 hb]; exact hto hb
    | true =>
      obtain ⟨l, hl, hlc⟩ := hd2 hb
      exact hhist l (List.mem_of_getElem? hl) c (List.mem_of_getElem? hlc)
  · exact h.cur i c hc

theorem slots_construct (hM : M.Regular) {d : Dep} {w : W} {s : SM P W}
    (h : construct M d w = .ok s) : Slots M s := by
  have hb := basic_construct hM h
  obtain ⟨_, _, _, ⟨init, hi, hcur, _⟩, _, hhist, _, _, _⟩ := construct_ok h
  refine ⟨hb, ?_, ?_⟩
  · intro r c hc
    rw [hcur, getElem?_initCur] at hc
    exact hM.initialTable_lt (List.mem_of_getElem? hi) (List.mem_of_getElem? hc)
  · rw [hhist]
    intro l hl c hc
    exact hM.initialTable_lt hl hc

theorem Preserves.slots (hM : M.Regular) (hS : M.Scoped) :
    Preserves M sem True (fun _ => True) (Slots (P := P) (W := W) M) :=
  Preserves.easy _
    (fun _ _ _ h => h.of_eq rfl rfl rfl rfl rfl)
    (fun s s' ev r c e h hc he hm => h.moved hm (fun _ => by
      cases hd : e.defer with
      | false => exact h.to_lt hM hS (h.cur r c hc) he hd
      | true =>
        obtain ⟨p, st, d, cand, hp, hst, _, hcand, hen⟩ := h.basic.entry hM (h.cur r c hc) he
        have hpos : 0 < M.size := by
          have := h.cur r c hc; omega
        rcases Machine.entryOfCand_cases hen with ⟨rfl, _⟩ | ⟨t, l, x, _, _, _, _, h5, _⟩
        · simp only [Machine.entryOfCand, Option.some.injEq] at hen
          subst hen; exact hpos
        · rw [h5] at hd; cases hd))
    (fun _ _ _ _ _ _ h _ _ _ => h.of_eq rfl rfl rfl rfl rfl)
    (fun _ _ _ _ h _ => h.of_eq rfl rfl rfl rfl rfl)

theorem slots_set (hM : M.Regular) {s : SM P W} (h : Slots M s) {r : Nat} {p : Name} {st : StTy}
    (hp : p ∈ M.composites) (hst : st ∈ M.states) :
    Slots M { s with cur := s.cur.set r (some (M.comb p st)) } := by
  refine ⟨h.basic.of_eq (by simp) rfl rfl rfl rfl, ?_, h.hist⟩
  intro i c hc
  rcases getElem?_set_cases hc with ⟨_, hcc⟩ | ⟨_, hc⟩
  · cases hcc; exact hM.comb_lt.2 ⟨hp, hst⟩
  · exact h.cur i c hc

/-- Every location of a reachable machine is inside the tables. -/
theorem Reach.slots (hM : M.Regular) (hS : M.Scoped) {s : SM P W} (h : Reach M sem s) :
    Slots M s :=
  Reach.inv (I := Slots M)
    (fun _ _ _ h => slots_construct hM h)
    (Preserves.slots hM hS)
    (fun ev s p _ hs => callHandler_easy _ (fun _ _ _ h => h.of_eq rfl rfl rfl rfl rfl) ev s p hs)
    (fun s r p st hs hp hst _ => slots_set hM hs hp hst)
    (fun s d T hs hT => ⟨basic_fill hM hs.basic hT, hs.cur, hs.hist⟩)
    (fun s w hs => hs.of_eq rfl rfl rfl rfl rfl)
    h

/-- Every written slot is a location. -/
theorem Slots.at {s : SM P W} (h : Slots M s) (hM : M.Regular) {r c : Nat}
    (hc : s.cur[r]? = some (some c)) : ∃ p st, At M s r p st ∧ c = M.comb p st := by
  obtain ⟨p, st, hp, hst, rfl⟩ := hM.comb_surj (h.cur r c hc)
  exact ⟨p, st, ⟨hp, hst, hc⟩, rfl⟩

end
end Hsm
