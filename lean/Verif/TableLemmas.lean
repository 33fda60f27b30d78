import Verif.StaticLemmas

/-! Helper lemmas about the table builder. -/

namespace Hsm
namespace Machine
variable {M : Machine}

/-! ## Sequences of pushes -/

/-- A list of pushes: event, index, entry. -/
abbrev Pushes := List (EventTy × Nat × Entry)

/-- Perform a list of pushes. -/
def pushAll (M : Machine) (xs : Pushes) (T : Table) : Except BuildErr Table :=
  xs.foldlM (fun T x => M.pushFront T x.1 x.2.1 x.2.2) T

/-- What a list of pushes puts at `e`, `c`, in push order. -/
def cell (xs : Pushes) (e : EventTy) (c : Nat) : List Entry :=
  xs.filterMap fun x => if x.1 = e ∧ x.2.1 = c then some x.2.2 else none

theorem cell_append (xs ys : Pushes) (e : EventTy) (c : Nat) :
    cell (xs ++ ys) e c = cell xs e c ++ cell ys e c := List.filterMap_append

theorem cell_flatMap {α : Type} (l : List α) (f : α → Pushes) (e : EventTy) (c : Nat) :
    cell (l.flatMap f) e c = l.flatMap fun a => cell (f a) e c := by
  induction l with
  | nil => rfl
  | cons a l ih => simp only [List.flatMap_cons, cell_append, ih]

theorem pushAll_append (xs ys : Pushes) (T : Table) :
    pushAll M (xs ++ ys) T = (pushAll M xs T).bind (pushAll M ys) := by
  unfold pushAll; rw [List.foldlM_append]; rfl

theorem pushAll_ok {xs : Pushes} (h : ∀ x ∈ xs, x.2.1 < M.size) (T : Table) :
    pushAll M xs T = .ok fun e c => (cell xs e c).reverse ++ T e c := by
  induction xs generalizing T with
  | nil => rfl
  | cons x xs ih =>
    have h1 := h x (by simp)
    unfold pushAll
    rw [List.foldlM_cons]
    have : M.pushFront T x.1 x.2.1 x.2.2
        = .ok fun e' c' => if e' = x.1 ∧ c' = x.2.1 then x.2.2 :: T e' c' else T e' c' := by
      unfold pushFront; rw [if_pos h1]
    rw [this]
    show pushAll M xs _ = _
    rw [ih (fun y hy => h y (by simp [hy]))]
    congr 1
    funext e c
    unfold cell
    rw [List.filterMap_cons]
    by_cases hc : x.1 = e ∧ x.2.1 = c
    · rw [if_pos hc, if_pos ⟨hc.1.symm, hc.2.symm⟩]; simp
    · rw [if_neg hc, if_neg (fun hh => hc ⟨hh.1.symm, hh.2.symm⟩)]

theorem pushAll_ub {xs : Pushes} (h : ∃ x ∈ xs, ¬ x.2.1 < M.size) (T : Table) :
    pushAll M xs T = .error .ub := by
  induction xs generalizing T with
  | nil => simp at h
  | cons x xs ih =>
    unfold pushAll
    rw [List.foldlM_cons]
    by_cases h1 : x.2.1 < M.size
    · have : M.pushFront T x.1 x.2.1 x.2.2
        = .ok fun e' c' => if e' = x.1 ∧ c' = x.2.1 then x.2.2 :: T e' c' else T e' c' := by
        unfold pushFront; rw [if_pos h1]
      rw [this]
      apply ih
      obtain ⟨y, hy, hn⟩ := h
      rcases List.mem_cons.1 hy with rfl | hy
      · exact absurd h1 hn
      · exact ⟨y, hy, hn⟩
    · have : M.pushFront T x.1 x.2.1 x.2.2 = .error .ub := by
        unfold pushFront; rw [if_neg h1]
      rw [this]; rfl

theorem foldlM_congr' {α β : Type} {f g : β → α → Except BuildErr β} {l : List α}
    (h : ∀ a ∈ l, ∀ b, f b a = g b a) (b : β) : l.foldlM f b = l.foldlM g b := by
  induction l generalizing b with
  | nil => rfl
  | cons a l ih =>
    rw [List.foldlM_cons, List.foldlM_cons, h a (by simp)]
    congr 1
    funext b'
    exact ih (fun a ha => h a (by simp [ha])) b'

theorem foldlM_pushAll {α : Type} (f : α → Pushes) (l : List α) (T : Table) :
    l.foldlM (fun T a => pushAll M (f a) T) T = pushAll M (l.flatMap f) T := by
  induction l generalizing T with
  | nil => rfl
  | cons a l ih =>
    rw [List.foldlM_cons, List.flatMap_cons, pushAll_append]
    show Except.bind _ _ = _
    congr 1
    funext T'
    exact ih T'

/-! ## The pushes made by the builder -/

/-- Pushes made by `addDispatchTableEntryOfSubMachineExits`. -/
def exitPushes (M : Machine) (dep : Dep) (t : XRow) (dst : StTy) : Pushes :=
  if t.internal then []
  else match t.source with
    | .st P =>
      if M.isComposite P then
        (M.childIds P).map fun c => (t.event, M.comb P c, M.mkEntry dep t (.st P) dst)
      else []
    | .ps _ _ => []

/-- Pushes made for one row. -/
def rowPushes (M : Machine) (dep : Dep) (t : XRow) : Pushes :=
  match M.resolveDst t with
  | none => []
  | some dst =>
    (t.event, M.comb (resolveSrcParent t) (resolveSrc t), M.mkEntry dep t (resolveSrc t) dst)
      :: exitPushes M dep t dst

theorem addRow_eq {t : XRow} (h : M.rowCompiles t = true) (dep : Dep) (T : Table) :
    M.addRow dep T t = pushAll M (rowPushes M dep t) T := by
  obtain ⟨dst, hd, h1, h2⟩ := rowCompiles_iff.1 h
  rw [states_eq] at h1 h2
  have hE : M.addEntry dep T t = M.pushFront T t.event
      (M.comb (resolveSrcParent t) (resolveSrc t)) (M.mkEntry dep t (resolveSrc t) dst) := by
    unfold addEntry
    rw [hd]; simp only []
    rw [if_pos ⟨h1, h2⟩]
  have hX : ∀ T, M.addExits dep T t = pushAll M (exitPushes M dep t dst) T := by
    intro T
    unfold addExits exitPushes
    cases hi : t.internal with
    | true => rfl
    | false =>
      cases hs : t.source with
      | ps o k => rfl
      | st P =>
        simp only [Bool.false_eq_true, if_false]
        cases hc : M.isComposite P with
        | false => rfl
        | true =>
          simp only [if_true]
          unfold pushAll
          rw [List.foldlM_map]
          apply foldlM_congr'
          intro c _ T'
          unfold addExit
          rw [hd]; simp only []
          have : resolveSrc t = .st P := by unfold resolveSrc; rw [hs]
          rw [if_pos ⟨this ▸ h1, h2⟩]
  unfold addRow rowPushes
  rw [hd, hE]
  simp only []
  unfold pushAll
  rw [List.foldlM_cons]
  show Except.bind _ _ = Except.bind _ _
  congr 1
  funext T'
  exact hX T'

/-- Pushes made by `fill_dispatch_table_with_transitions`. -/
def withPushes (M : Machine) (dep : Dep) (rows : List XRow) : Pushes :=
  (uniq (rows.map (·.event))).flatMap fun e =>
    (rows.filter fun t => t.event = e).flatMap (rowPushes M dep)

theorem fillWith_eq {rows : List XRow} (h : ∀ t ∈ rows, M.rowCompiles t = true) (dep : Dep)
    (T : Table) : M.fillWith dep rows T = pushAll M (withPushes M dep rows) T := by
  unfold fillWith withPushes
  rw [← foldlM_pushAll]
  apply foldlM_congr'
  intro e _ T'
  rw [← foldlM_pushAll]
  apply foldlM_congr'
  intro t ht T''
  exact addRow_eq (h t (List.mem_filter.1 ht).1) dep T''

/-- Pushes made by `fill_dispatch_table_with_deferred_events`. -/
def deferPushes (M : Machine) : Pushes :=
  M.deferringRows.flatMap fun t =>
    ((M.deferOf (stripInitial t.source)).getD []).map fun e =>
      (e, M.comb (resolveSrcParent t) (resolveSrc t), deferEntry)

theorem fillDeferred_eq (T : Table) : M.fillDeferred T = pushAll M (deferPushes M) T := by
  unfold fillDeferred deferPushes
  rw [← foldlM_pushAll]
  apply foldlM_congr'
  intro t _ T'
  unfold addDeferred pushAll
  rw [List.foldlM_map]

/-- All pushes made while the tables are filled, the internal rows being `is`. -/
def pushesWith (M : Machine) (is : List XRow) (dep : Dep) : Pushes :=
  withPushes M dep is ++ (withPushes M dep M.flat ++ deferPushes M)

/-- All pushes of `sm::fill_dispatch_table`. -/
def fillPushes (M : Machine) (dep : Dep) : Pushes := pushesWith M M.iflat dep

theorem accepts_flat (h : M.accepts = true) {t : XRow} (ht : t ∈ M.flat) :
    M.rowCompiles t = true := by
  simp only [accepts, Bool.and_eq_true, List.all_eq_true] at h
  exact h.1.1.2 t ht

theorem accepts_iflat (h : M.accepts = true) {t : XRow} (ht : t ∈ M.iflat) :
    M.rowCompiles t = true := by
  simp only [accepts, Bool.and_eq_true, List.all_eq_true] at h
  exact h.1.2 t ht

theorem accepts_defer (h : M.accepts = true) {t : XRow} (ht : t ∈ M.deferringRows) {e : EventTy}
    (he : e ∈ (M.deferOf (stripInitial t.source)).getD []) : e ∈ M.events := by
  simp only [accepts, Bool.and_eq_true, List.all_eq_true, decide_eq_true_eq] at h
  rw [events_eq]
  exact h.2 t ht e he

theorem fill_eq (h : M.accepts = true) (dep : Dep) (T : Table) :
    M.fill dep T = pushAll M (fillPushes M dep) T := by
  unfold fill fillPushes pushesWith
  rw [pushAll_append, fillWith_eq (fun t ht => accepts_iflat h ht)]
  show Except.bind _ _ = _
  congr 1
  funext T'
  rw [pushAll_append, fillWith_eq (fun t ht => accepts_flat h ht)]
  show Except.bind _ _ = _
  congr 1
  funext T''
  exact fillDeferred_eq T''

/-! ## When filling succeeds -/

theorem mem_withPushes {dep : Dep} {rows : List XRow} {x : EventTy × Nat × Entry} :
    x ∈ withPushes M dep rows ↔ ∃ t ∈ rows, x ∈ rowPushes M dep t := by
  unfold withPushes
  simp only [List.mem_flatMap, mem_uniq, List.mem_map, List.mem_filter, decide_eq_true_eq]
  constructor
  · rintro ⟨_, ⟨_, _, _⟩, t, ⟨ht, _⟩, hx⟩; exact ⟨t, ht, hx⟩
  · rintro ⟨t, ht, hx⟩; exact ⟨_, ⟨t, ht, rfl⟩, t, ⟨ht, rfl⟩, hx⟩

theorem iflat_internal {t : XRow} (ht : t ∈ M.iflat) : t.internal = true := by
  unfold iflat at ht
  rw [mem_uniq, List.mem_flatMap] at ht
  obtain ⟨⟨p, s⟩, _, ht⟩ := ht
  unfold internalRowsOf at ht
  cases s with
  | ps o k => simp at ht
  | st s =>
    simp only at ht
    split at ht
    · cases ht
    · split at ht
      · rw [List.mem_flatMap] at ht
        obtain ⟨i, _, ht⟩ := ht
        obtain ⟨c, _, rfl⟩ := List.mem_map.1 ht
        rfl
      · obtain ⟨c, _, rfl⟩ := List.mem_map.1 ht
        rfl

/-- The condition under which no push goes outside the tables. -/
theorem pushesWith_in_bounds (h : M.Laid) {is : List XRow}
    (hcomp : ∀ t ∈ M.flat ++ is, M.rowCompiles t = true) (hint : ∀ t ∈ is, t.internal = true)
    (dep : Dep) :
    (∀ x ∈ pushesWith M is dep, x.2.1 < M.size) ↔
      (∀ t ∈ M.flat ++ is, (sourceLoc t.parent t.source).1 ∈ M.composites) ∧
      (∀ t ∈ M.flat, ∀ p, t.source = .st p → M.isComposite p = true → M.rows p ≠ [] →
        p ∈ M.composites) := by
  have hmem : ∀ t ∈ M.flat ++ is, ∀ x ∈ rowPushes M dep t, x ∈ pushesWith M is dep := by
    intro t ht x hx
    unfold pushesWith
    rcases List.mem_append.1 ht with ht | ht
    · exact List.mem_append_right _ (List.mem_append_left _ (mem_withPushes.2 ⟨t, ht, hx⟩))
    · exact List.mem_append_left _ (mem_withPushes.2 ⟨t, ht, hx⟩)
  constructor
  · intro hx
    refine ⟨?_, ?_⟩
    · intro t ht
      obtain ⟨dst, hd, h1, h2⟩ := rowCompiles_iff.1 (hcomp t ht)
      have := hx (t.event, M.comb (resolveSrcParent t) (resolveSrc t),
        M.mkEntry dep t (resolveSrc t) dst) (hmem t ht _ (by unfold rowPushes; rw [hd]; simp))
      rw [sourceLoc_eq]
      exact (h.comb_lt.1 this).1
    · intro t ht p hs hc hne
      obtain ⟨dst, hd, h1, h2⟩ := rowCompiles_iff.1 (hcomp t (List.mem_append_left _ ht))
      obtain ⟨r, hr⟩ := List.exists_mem_of_ne_nil _ hne
      have hch : r.target ∈ M.childIds p := mem_childIds.2 ⟨r, hr, Or.inr rfl⟩
      have := hx (t.event, M.comb p r.target, M.mkEntry dep t (.st p) dst)
        (hmem t (List.mem_append_left _ ht) _ (by
          unfold rowPushes; rw [hd]
          apply List.mem_cons_of_mem
          unfold exitPushes
          rw [flat_internal h.ranked ht, hs]
          simp only [Bool.false_eq_true, if_false, hc, if_true]
          exact List.mem_map.2 ⟨r.target, hch, rfl⟩))
      exact (h.comb_lt.1 this).1
  · rintro ⟨hA, hB⟩ x hx
    have hloc : ∀ t ∈ M.flat ++ is, M.comb (resolveSrcParent t) (resolveSrc t) < M.size := by
      intro t ht
      obtain ⟨dst, hd, h1, h2⟩ := rowCompiles_iff.1 (hcomp t ht)
      have := hA t ht
      rw [sourceLoc_eq] at this
      exact h.comb_lt.2 ⟨this, h1⟩
    have hrow : ∀ t ∈ M.flat ++ is, ∀ x ∈ rowPushes M dep t, x.2.1 < M.size := by
      intro t ht x hx
      unfold rowPushes at hx
      obtain ⟨dst, hd, h1, h2⟩ := rowCompiles_iff.1 (hcomp t ht)
      rw [hd] at hx
      rcases List.mem_cons.1 hx with rfl | hx
      · exact hloc t ht
      · unfold exitPushes at hx
        cases hi : t.internal with
        | true => simp [hi] at hx
        | false =>
          cases hs : t.source with
          | ps o k => simp [hi, hs] at hx
          | st P =>
            cases hc : M.isComposite P with
            | false => simp [hi, hs, hc] at hx
            | true =>
              simp only [hi, hs, hc, Bool.false_eq_true, if_false, if_true, List.mem_map] at hx
              obtain ⟨c, hch, rfl⟩ := hx
              have ht' : t ∈ M.flat := by
                rcases List.mem_append.1 ht with ht | ht
                · exact ht
                · exfalso
                  have := hint t ht
                  rw [hi] at this; cases this
              have hch' := mem_childIds.1 hch
              have hne : M.rows P ≠ [] := by
                obtain ⟨r, hr, _⟩ := hch'
                intro e; rw [e] at hr; cases hr
              have hP := hB t ht' P hs hc hne
              exact h.comb_lt.2 ⟨hP, child_mem_stateIds h.ranked
                ((mem_parents_iff h.ranked).1 hP).1 hch'⟩
    unfold pushesWith at hx
    rcases List.mem_append.1 hx with hx | hx
    · obtain ⟨t, ht, hx⟩ := mem_withPushes.1 hx
      exact hrow t (List.mem_append_right _ ht) x hx
    · rcases List.mem_append.1 hx with hx | hx
      · obtain ⟨t, ht, hx⟩ := mem_withPushes.1 hx
        exact hrow t (List.mem_append_left _ ht) x hx
      · unfold deferPushes at hx
        rw [List.mem_flatMap] at hx
        obtain ⟨t, ht, hx⟩ := hx
        obtain ⟨e, _, rfl⟩ := List.mem_map.1 hx
        exact hloc t (List.mem_append_left _ (List.mem_filter.1 ht).1)

/-- The condition under which no push goes outside the tables. -/
theorem pushes_in_bounds (h : M.Regular) (dep : Dep) :
    (∀ x ∈ fillPushes M dep, x.2.1 < M.size) ↔
      (∀ t ∈ M.flat ++ M.iflat, (sourceLoc t.parent t.source).1 ∈ M.composites) ∧
      (∀ t ∈ M.flat, ∀ p, t.source = .st p → M.isComposite p = true → M.rows p ≠ [] →
        p ∈ M.composites) := by
  refine pushesWith_in_bounds h.laid (fun t ht => ?_) (fun t ht => iflat_internal ht) dep
  rcases List.mem_append.1 ht with ht | ht
  · exact accepts_flat h.accepts ht
  · exact accepts_iflat h.accepts ht

/-! ## Contents of a cell -/

theorem flatMap_single {α β : Type} [DecidableEq α] {l : List α} (hn : l.Nodup) (a : α)
    (g : α → List β) (hg : ∀ b, b ≠ a → g b = []) (ha : a ∉ l → g a = []) :
    l.flatMap g = g a := by
  induction l with
  | nil => simp [ha]
  | cons b l ih =>
    rw [List.nodup_cons] at hn
    rw [List.flatMap_cons]
    by_cases hb : b = a
    · subst hb
      have : l.flatMap g = [] := by
        rw [List.flatMap_eq_nil_iff]
        intro c hc
        exact hg c (fun e => hn.1 (e ▸ hc))
      rw [this, List.append_nil]
    · rw [hg b hb, List.nil_append]
      exact ih hn.2 (fun h => ha (by simp [h, Ne.symm hb]))

theorem rowPushes_event {dep : Dep} {t : XRow} {x : EventTy × Nat × Entry}
    (hx : x ∈ rowPushes M dep t) : x.1 = t.event := by
  unfold rowPushes at hx
  cases hd : M.resolveDst t with
  | none => simp [hd] at hx
  | some dst =>
    rw [hd] at hx
    rcases List.mem_cons.1 hx with rfl | hx
    · rfl
    · unfold exitPushes at hx
      split at hx
      · cases hx
      · split at hx
        · split at hx
          · obtain ⟨c, _, rfl⟩ := List.mem_map.1 hx; rfl
          · cases hx
        · cases hx

theorem cell_event_ne {xs : Pushes} {e e' : EventTy} {c : Nat} (h : ∀ x ∈ xs, x.1 = e')
    (hne : e' ≠ e) : cell xs e c = [] := by
  unfold cell
  rw [List.filterMap_eq_nil_iff]
  intro x hx
  rw [if_neg]
  rintro ⟨h1, _⟩
  exact hne ((h x hx).symm.trans h1)

theorem cell_withPushes (dep : Dep) (rows : List XRow) (e : EventTy) (c : Nat) :
    cell (withPushes M dep rows) e c =
      (rows.filter fun t => t.event = e).flatMap fun t => cell (rowPushes M dep t) e c := by
  unfold withPushes
  rw [cell_flatMap]
  have := flatMap_single (nodup_uniq (rows.map (·.event))) e
    (fun e' => cell ((rows.filter fun t => t.event = e').flatMap (rowPushes M dep)) e c) ?_ ?_
  · rw [this, cell_flatMap]
  · intro e' hne
    apply cell_event_ne _ hne
    intro x hx
    obtain ⟨t, ht, hx⟩ := List.mem_flatMap.1 hx
    rw [rowPushes_event hx]
    simpa using (List.mem_filter.1 ht).2
  · intro hne
    rw [mem_uniq] at hne
    have : (rows.filter fun t => t.event = e) = [] := by
      rw [List.filter_eq_nil_iff]
      intro t ht he
      exact hne (List.mem_map.2 ⟨t, ht, by simpa using he⟩)
    rw [this]; rfl

theorem comb_eq_iff (h : M.Laid) {p q : Name} {s t : StTy} (hp : p ∈ M.composites)
    (hs : s ∈ M.states) : M.comb q t = M.comb p s ↔ (q, t) = (p, s) :=
  ⟨h.comb_inj hp hs, fun e => by cases e; rfl⟩

theorem filterMap_single {α β : Type} [DecidableEq α] {l : List α} (hn : l.Nodup) (a : α) (b : β)
    (P : α → Prop) [DecidablePred P] (hP : ∀ x ∈ l, P x ↔ x = a) :
    (l.filterMap fun x => if P x then some b else none) = if a ∈ l then [b] else [] := by
  induction l with
  | nil => rfl
  | cons x l ih =>
    rw [List.nodup_cons] at hn
    rw [List.filterMap_cons]
    have ih' := ih hn.2 (fun y hy => hP y (by simp [hy]))
    by_cases hx : P x
    · have hxa := (hP x (by simp)).1 hx
      subst hxa
      rw [if_pos hx]
      simp only [ih', hn.1, if_false, List.mem_cons, true_or, if_true]
    · have hxa : x ≠ a := fun e => hx ((hP x (by simp)).2 e)
      rw [if_neg hx]
      simp only [ih', List.mem_cons, Ne.symm hxa, false_or]

theorem cell_exitPushes (h : M.Laid) {dep : Dep} {t : XRow} {dst : StTy} {p : Name} {s : StTy}
    (hp : p ∈ M.composites) (hs : s ∈ M.states) (hi : t.internal = false) :
    cell (exitPushes M dep t dst) t.event (M.comb p s) =
      if t.source = .st p ∧ M.isComposite p = true ∧ M.IsChild p s
      then [M.mkEntry dep t (.st p) dst] else [] := by
  unfold exitPushes
  rw [hi]
  simp only [Bool.false_eq_true, if_false]
  cases hsrc : t.source with
  | ps o k => simp [cell]
  | st P =>
    cases hc : M.isComposite P with
    | false =>
      simp only [hc, Bool.false_eq_true, if_false]
      rw [if_neg]
      · rfl
      · rintro ⟨h1, h2, _⟩
        cases h1
        rw [hc] at h2; exact absurd h2 (by decide)
    | true =>
      simp only [hc, if_true]
      unfold cell
      rw [List.filterMap_map]
      have hf : ((fun x : EventTy × Nat × Entry =>
            if x.1 = t.event ∧ x.2.1 = M.comb p s then some x.2.2 else none) ∘
            fun c => (t.event, M.comb P c, M.mkEntry dep t (.st P) dst))
          = fun c => if M.comb P c = M.comb p s then some (M.mkEntry dep t (.st P) dst)
              else none := by
        funext c; simp
      rw [hf]
      by_cases hP : P = p
      · subst hP
        rw [filterMap_single (l := M.childIds P) (nodup_uniq _) s (M.mkEntry dep t (.st P) dst)
          (fun c => M.comb P c = M.comb P s)]
        · simp only [hc, true_and]
          simp only [mem_childIds]
        · intro c _
          rw [comb_eq_iff h hp hs]
          simp
      · rw [if_neg (by rintro ⟨h1, _⟩; cases h1; exact hP rfl)]
        rw [List.filterMap_eq_nil_iff]
        intro c _
        rw [if_neg]
        rw [comb_eq_iff h hp hs]
        intro e; cases e; exact hP rfl

theorem cell_row (h : M.Laid) {dep : Dep} {t : XRow} {p : Name} {s : StTy}
    (hp : p ∈ M.composites) (hs : s ∈ M.states) (src : StTy) (dst : StTy) :
    cell [(t.event, M.comb (resolveSrcParent t) (resolveSrc t), M.mkEntry dep t src dst)]
        t.event (M.comb p s)
      = if sourceLoc t.parent t.source = (p, s) then [M.mkEntry dep t src dst] else [] := by
  unfold cell
  rw [sourceLoc_eq, List.filterMap_cons]
  simp only [true_and, List.filterMap_nil]
  by_cases hc : M.comb (resolveSrcParent t) (resolveSrc t) = M.comb p s
  · rw [if_pos hc, if_pos ((comb_eq_iff h hp hs).1 hc)]
  · rw [if_neg hc, if_neg (fun e => hc ((comb_eq_iff h hp hs).2 e))]

theorem mkEntry_row {dep : Dep} {t : XRow} {dst : StTy} (hd : M.resolveDst t = some dst) :
    M.entryOfCand dep (.row t) = some (M.mkEntry dep t (resolveSrc t) dst) := by
  simp only [entryOfCand]
  rw [targetLoc_eq, hd, sourceLoc_eq, toRun_eq, toHistory_eq]
  rfl

theorem mkEntry_exit {dep : Dep} {t : XRow} {dst : StTy} {p : Name}
    (hd : M.resolveDst t = some dst) :
    M.entryOfCand dep (.exit t p) = some (M.mkEntry dep t (.st p) dst) := by
  simp only [entryOfCand]
  rw [targetLoc_eq, hd, toRun_eq, toHistory_eq]
  rfl

theorem cell_ext (h : M.Laid) {dep : Dep} {t : XRow} {p : Name} {s : StTy}
    (hp : p ∈ M.composites) (hs : s ∈ M.states) (hi : t.internal = false) :
    (cell (rowPushes M dep t) t.event (M.comb p s)).reverse
      = (M.extCands p s t).filterMap (M.entryOfCand dep) := by
  unfold rowPushes extCands
  cases hd : M.resolveDst t with
  | none =>
    have h1 : M.entryOfCand dep (.row t) = none := by
      simp only [entryOfCand]; rw [targetLoc_eq, hd]; rfl
    have h2 : M.entryOfCand dep (.exit t p) = none := by
      simp only [entryOfCand]; rw [targetLoc_eq, hd]; rfl
    simp only [cell, List.filterMap_nil, List.reverse_nil, List.filterMap_append]
    split <;> split <;> simp [h1, h2]
  | some dst =>
    simp only []
    rw [← List.singleton_append, cell_append, cell_row h hp hs, cell_exitPushes h hp hs hi]
    rw [List.filterMap_append, List.reverse_append]
    congr 1
    · split
      · simp [mkEntry_exit hd]
      · rfl
    · split
      · simp [mkEntry_row hd]
      · rfl

theorem cell_int (h : M.Laid) {dep : Dep} {t : XRow} {p : Name} {s : StTy}
    (hp : p ∈ M.composites) (hs : s ∈ M.states) (hi : t.internal = true) :
    (cell (rowPushes M dep t) t.event (M.comb p s)).reverse
      = (intCands p s t).filterMap (M.entryOfCand dep) := by
  unfold rowPushes intCands
  cases hd : M.resolveDst t with
  | none =>
    have h1 : M.entryOfCand dep (.row t) = none := by
      simp only [entryOfCand]; rw [targetLoc_eq, hd]; rfl
    simp only [cell, List.filterMap_nil, List.reverse_nil]
    split <;> simp [h1]
  | some dst =>
    simp only []
    have : exitPushes M dep t dst = [] := by unfold exitPushes; rw [hi]; rfl
    rw [this, cell_row h hp hs]
    split
    · simp [mkEntry_row hd]
    · rfl

theorem reverse_flatMap' {α β : Type} (l : List α) (f : α → List β) :
    (l.flatMap f).reverse = l.reverse.flatMap fun a => (f a).reverse := by
  induction l with
  | nil => rfl
  | cons a l ih => simp [List.flatMap_cons, ih]

theorem filterMap_flatMap' {α β γ : Type} (l : List α) (f : α → List β) (g : β → Option γ) :
    (l.flatMap f).filterMap g = l.flatMap fun a => (f a).filterMap g := by
  induction l with
  | nil => rfl
  | cons a l ih => simp only [List.flatMap_cons, List.filterMap_append, ih]

theorem flatMap_congr' {α β : Type} {l : List α} {f g : α → List β} (h : ∀ a ∈ l, f a = g a) :
    l.flatMap f = l.flatMap g := by
  unfold List.flatMap
  congr 1
  exact List.map_congr_left h

theorem cell_with_ext (h : M.Laid) (dep : Dep) (e : EventTy) {p : Name} {s : StTy}
    (hp : p ∈ M.composites) (hs : s ∈ M.states) :
    (cell (withPushes M dep M.flat) e (M.comb p s)).reverse
      = ((M.flat.reverse.filter (fun t => t.event = e)).flatMap (M.extCands p s)).filterMap
          (M.entryOfCand dep) := by
  rw [cell_withPushes, reverse_flatMap', filterMap_flatMap', ← List.filter_reverse]
  apply flatMap_congr'
  intro t ht
  obtain ⟨h1, h2⟩ := List.mem_filter.1 ht
  have h2 : t.event = e := by simpa using h2
  subst h2
  exact cell_ext h hp hs (flat_internal h.ranked (List.mem_reverse.1 h1))

theorem cell_with_int (h : M.Laid) {is : List XRow} (hint : ∀ t ∈ is, t.internal = true)
    (dep : Dep) (e : EventTy) {p : Name} {s : StTy}
    (hp : p ∈ M.composites) (hs : s ∈ M.states) :
    (cell (withPushes M dep is) e (M.comb p s)).reverse
      = ((is.reverse.filter (fun t => t.event = e)).flatMap (intCands p s)).filterMap
          (M.entryOfCand dep) := by
  rw [cell_withPushes, reverse_flatMap', filterMap_flatMap', ← List.filter_reverse]
  apply flatMap_congr'
  intro t ht
  obtain ⟨h1, h2⟩ := List.mem_filter.1 ht
  have h2 : t.event = e := by simpa using h2
  subst h2
  exact cell_int h hp hs (hint t (List.mem_reverse.1 h1))

theorem cell_defer_row (h : M.Laid) (e : EventTy) {p : Name} {s : StTy}
    (hp : p ∈ M.composites) (hs : s ∈ M.states) (t : XRow) (es : List EventTy) :
    cell (es.map fun e' => (e', M.comb (resolveSrcParent t) (resolveSrc t), deferEntry)) e
        (M.comb p s)
      = List.replicate (if sourceLoc t.parent t.source = (p, s) then es.count e else 0)
          deferEntry := by
  rw [sourceLoc_eq]
  by_cases hc : M.comb (resolveSrcParent t) (resolveSrc t) = M.comb p s
  · rw [if_pos ((comb_eq_iff h hp hs).1 hc)]
    induction es with
    | nil => rfl
    | cons x es ih =>
      unfold cell at ih ⊢
      rw [List.map_cons, List.filterMap_cons]
      by_cases hx : x = e
      · subst hx
        simp only [hc, and_self, if_true]
        simp only [hc] at ih
        rw [ih, List.count_cons_self, List.replicate_succ]
      · simp only [hx, false_and, if_false]
        rw [ih, List.count_cons_of_ne hx]
  · rw [if_neg (fun e => hc ((comb_eq_iff h hp hs).2 e))]
    unfold cell
    rw [List.filterMap_map, List.replicate_zero, List.filterMap_eq_nil_iff]
    intro x _
    simp [hc]

theorem cell_defer (h : M.Laid) (e : EventTy) {p : Name} {s : StTy}
    (hp : p ∈ M.composites) (hs : s ∈ M.states) :
    cell (deferPushes M) e (M.comb p s)
      = List.replicate ((M.flat.map (M.deferCount e p s)).sum) deferEntry := by
  unfold deferPushes
  rw [cell_flatMap]
  unfold deferringRows
  generalize M.flat = l
  induction l with
  | nil => rfl
  | cons t l ih =>
    rw [List.filter_cons, List.map_cons, List.sum_cons, ← List.replicate_append_replicate]
    rw [← ih]
    have hrow := cell_defer_row h e hp hs t ((M.deferOf (stripInitial t.source)).getD [])
    cases hd : M.deferOf (stripInitial t.source) with
    | none =>
      have : M.deferCount e p s t = 0 := by
        rw [deferCount_def, hd]; simp
      rw [this]; simp
    | some es =>
      simp only [Option.isSome_some, if_true, List.flatMap_cons]
      rw [deferCount_def]
      congr 1

theorem cell_pushesWith (h : M.Laid) {is : List XRow} (hint : ∀ t ∈ is, t.internal = true)
    (dep : Dep) (e : EventTy) {p : Name} {s : StTy}
    (hp : p ∈ M.composites) (hs : s ∈ M.states) :
    (cell (pushesWith M is dep) e (M.comb p s)).reverse
      = (List.replicate ((M.flat.map (M.deferCount e p s)).sum) Cand.defer
          ++ (M.flat.reverse.filter (fun t => t.event = e)).flatMap (M.extCands p s)
          ++ (is.reverse.filter (fun t => t.event = e)).flatMap (intCands p s)).filterMap
            (M.entryOfCand dep) := by
  unfold pushesWith
  rw [cell_append, cell_append, List.reverse_append, List.reverse_append, cell_defer h e hp hs,
    cell_with_ext h dep e hp hs, cell_with_int h hint dep e hp hs, List.filterMap_append,
    List.filterMap_append, List.reverse_replicate]
  congr 2
  induction ((M.flat.map (M.deferCount e p s)).sum) with
  | zero => rfl
  | succ n ih => rw [List.replicate_succ, List.replicate_succ, List.filterMap_cons, ← ih]; rfl

theorem cell_fill (h : M.Regular) (dep : Dep) (e : EventTy) {p : Name} {s : StTy}
    (hp : p ∈ M.composites) (hs : s ∈ M.states) :
    (cell (fillPushes M dep) e (M.comb p s)).reverse
      = (M.cands e p s).filterMap (M.entryOfCand dep) := by
  rw [cands_def]
  exact cell_pushesWith h.laid (fun t ht => iflat_internal ht) dep e hp hs

/-- Filling either fails for good or puts the candidates in front of every cell. -/
theorem fill_spec (h : M.Regular) {dep : Dep} {T T' : Table} (hf : M.fill dep T = .ok T')
    (e : EventTy) {p : Name} {s : StTy} (hp : p ∈ M.composites) (hs : s ∈ M.states) :
    T' e (M.comb p s)
      = (M.cands e p s).filterMap (M.entryOfCand dep) ++ T e (M.comb p s) := by
  rw [fill_eq h.accepts] at hf
  by_cases hb : ∀ x ∈ fillPushes M dep, x.2.1 < M.size
  · rw [pushAll_ok hb] at hf
    cases hf
    simp only []
    rw [cell_fill h dep e hp hs]
  · rw [pushAll_ub (by simpa using hb)] at hf
    cases hf

end Machine
end Hsm
