import Verif.PropsEvent
import Verif.PropsStatic

/-!
# Which of several rows is preferred (C50, C51, C52)

The order in which the candidates of a location are tried, in terms of the tables they were
declared in.
-/

namespace Hsm

/-! ## Specification vocabulary -/

/-- In list `l`, whatever satisfies `B` comes after something that satisfies `A`. -/
def Before {α : Type} (A B : α → Prop) (l : List α) : Prop :=
  ∀ x c y, l = x ++ c :: y → B c → ∃ c' ∈ x, A c'

/-- In list `l`, whatever satisfies `B` is followed by something that satisfies `A`. -/
def After {α : Type} (A B : α → Prop) (l : List α) : Prop :=
  ∀ x c y, l = x ++ c :: y → B c → ∃ c' ∈ y, A c'

section lists
variable {α β : Type} {A B : α → Prop} {l l' : List α}

theorem After.reverse (h : After A B l) : Before A B l.reverse := by
  intro x c y hl hB
  have hl' : l = y.reverse ++ c :: x.reverse := by
    have := congrArg List.reverse hl
    simpa using this
  obtain ⟨c', hc', hA⟩ := h _ _ _ hl' hB
  exact ⟨c', by simpa using hc', hA⟩

theorem After.nil : After A B ([] : List α) := by
  intro x c y h _
  have := congrArg List.length h
  simp at this

theorem After.append (h : After A B l) (h' : After A B l') : After A B (l ++ l') := by
  intro x c y hl hB
  rcases List.append_eq_append_iff.1 hl with ⟨a, h1, h2⟩ | ⟨a, h1, h2⟩
  · exact h' _ _ _ h2 hB
  · cases a with
    | nil =>
      simp only [List.nil_append] at h2
      exact h' [] c y h2.symm hB
    | cons z a =>
      simp only [List.cons_append, List.cons.injEq] at h2
      obtain ⟨rfl, rfl⟩ := h2
      obtain ⟨c', hc', hA⟩ := h _ _ _ h1 hB
      exact ⟨c', List.mem_append_left _ hc', hA⟩

theorem After.append_mem (h : ∃ c ∈ l', A c) (h' : After A B l') : After A B (l ++ l') := by
  intro x c y hl hB
  rcases List.append_eq_append_iff.1 hl with ⟨a, h1, h2⟩ | ⟨a, h1, h2⟩
  · exact h' _ _ _ h2 hB
  · obtain ⟨c', hc', hA⟩ := h
    cases a with
    | nil =>
      simp only [List.nil_append] at h2
      exact h' [] c y h2.symm hB
    | cons z a =>
      simp only [List.cons_append, List.cons.injEq] at h2
      obtain ⟨rfl, rfl⟩ := h2
      exact ⟨c', List.mem_append_right _ hc', hA⟩

theorem After.cons {a : α} (hn : ¬ B a) (h : After A B l) : After A B (a :: l) := by
  intro x c y hl hB
  cases x with
  | nil =>
    simp only [List.nil_append, List.cons.injEq] at hl
    exact absurd (hl.1 ▸ hB) hn
  | cons z x =>
    simp only [List.cons_append, List.cons.injEq] at hl
    exact h x c y hl.2 hB

theorem After.flatMap {f : β → List α} {l : List β} (h : ∀ b ∈ l, After A B (f b)) :
    After A B (l.flatMap f) := by
  induction l with
  | nil => exact After.nil
  | cons b l ih =>
    rw [List.flatMap_cons]
    exact (h b (by simp)).append (ih fun b' hb' => h b' (by simp [hb']))

theorem Before.nil : Before A B ([] : List α) := by
  intro x c y h _
  have := congrArg List.length h
  simp at this

theorem Before.none (h : ∀ c ∈ l, ¬ B c) : Before A B l := by
  intro x c y hl hB
  exact absurd hB (h c (by rw [hl]; simp))

theorem Before.append (h : Before A B l) (h' : Before A B l') : Before A B (l ++ l') := by
  intro x c y hl hB
  rcases List.append_eq_append_iff.1 hl with ⟨a, h1, h2⟩ | ⟨a, h1, h2⟩
  · obtain ⟨c', hc', hA⟩ := h' _ _ _ h2 hB
    exact ⟨c', by rw [h1]; simp [hc'], hA⟩
  · cases a with
    | nil =>
      simp only [List.nil_append] at h2
      obtain ⟨c', hc', _⟩ := h' [] c y h2.symm hB
      cases hc'
    | cons z a =>
      simp only [List.cons_append, List.cons.injEq] at h2
      obtain ⟨rfl, rfl⟩ := h2
      exact h _ _ _ h1 hB

theorem Before.cons {a : α} (hn : ¬ B a) (h : A a ∨ Before A B l) : Before A B (a :: l) := by
  intro x c y hl hB
  cases x with
  | nil =>
    simp only [List.nil_append, List.cons.injEq] at hl
    exact absurd (hl.1 ▸ hB) hn
  | cons z x =>
    simp only [List.cons_append, List.cons.injEq] at hl
    obtain ⟨rfl, hl⟩ := hl
    rcases h with h | h
    · exact ⟨a, by simp, h⟩
    · obtain ⟨c', hc', hA⟩ := h x c y hl hB
      exact ⟨c', by simp [hc'], hA⟩

theorem Before.flatMap_all {f : β → List α} {l : List β} (h : ∀ b ∈ l, Before A B (f b)) :
    Before A B (l.flatMap f) := by
  induction l with
  | nil => exact Before.nil
  | cons b l ih =>
    rw [List.flatMap_cons]
    exact (h b (by simp)).append (ih fun b' hb' => h b' (by simp [hb']))

/-- From the order of rows to the order of what they contribute. -/
theorem Before.flatMap {f : β → List α} {A' B' : β → Prop} {l : List β}
    (h : Before A' B' l) (hB : ∀ b ∈ l, ∀ c ∈ f b, B c → B' b)
    (hA : ∀ b ∈ l, A' b → ∃ c ∈ f b, A c) : Before A B (l.flatMap f) := by
  have key : ∀ rest done, l = done ++ rest → ∀ x c y, rest.flatMap f = x ++ c :: y → B c →
      ∃ c' ∈ done.flatMap f ++ x, A c' := by
    intro rest
    induction rest with
    | nil =>
      intro done _ x c y hx _
      have := congrArg List.length hx
      simp at this
    | cons b rest ih =>
      intro done hl x c y hx hBc
      have hfirst : c ∈ f b → ∃ c' ∈ done.flatMap f ++ x, A c' := by
        intro hc
        obtain ⟨b', hb', hA'⟩ := h done b rest hl (hB b (by rw [hl]; simp) c hc hBc)
        obtain ⟨c', hc', hAc⟩ := hA b' (by rw [hl]; simp [hb']) hA'
        exact ⟨c', List.mem_append_left _ (List.mem_flatMap.2 ⟨b', hb', hc'⟩), hAc⟩
      rw [List.flatMap_cons] at hx
      rcases List.append_eq_append_iff.1 hx with ⟨a, h1, h2⟩ | ⟨a, h1, h2⟩
      · obtain ⟨c', hc', hAc⟩ := ih (done ++ [b]) (by simp [hl]) a c y h2 hBc
        refine ⟨c', ?_, hAc⟩
        rw [h1]
        simpa [List.flatMap_append] using hc'
      · cases a with
        | nil =>
          simp only [List.nil_append] at h2
          obtain ⟨c', hc', hAc⟩ := ih (done ++ [b]) (by simp [hl]) [] c y h2.symm hBc
          refine ⟨c', ?_, hAc⟩
          have hx' : f b = x := by simpa using h1
          rw [← hx']
          simpa [List.flatMap_append] using hc'
        | cons z a =>
          simp only [List.cons_append, List.cons.injEq] at h2
          obtain ⟨rfl, rfl⟩ := h2
          exact hfirst (by rw [h1]; simp)
  intro x c y hx hBc
  simpa using key l [] rfl x c y hx hBc

theorem Before.filter {q : α → Bool} (h : Before A B l) (hA : ∀ a ∈ l, A a → q a = true) :
    Before A B (l.filter q) := by
  intro x c y hl hB
  rw [← List.filterMap_eq_filter] at hl
  obtain ⟨l1, a, l2, rfl, h1, h2⟩ := filterMap_split hl
  have hac : a = c := by
    simp only [Option.guard] at h1
    split at h1 <;> simp_all
  subst hac
  obtain ⟨c', hc', hAc⟩ := h _ _ _ rfl hB
  refine ⟨c', ?_, hAc⟩
  rw [List.filterMap_eq_filter] at h2
  rw [← h2, List.mem_filter]
  exact ⟨hc', hA c' (by simp [hc']) hAc⟩

end lists

section uniq
variable {α : Type} [DecidableEq α] {A B : α → Prop} {l : List α}

theorem split_unique {c : α} : ∀ {x y u v : List α}, x ++ c :: y = u ++ c :: v → c ∉ x → c ∉ u →
    x = u ∧ y = v
  | [], y, [], v, h, _, _ => by simpa using h
  | [], y, b :: u, v, h, _, hu => by
    simp only [List.nil_append, List.cons_append, List.cons.injEq] at h
    exact absurd (by simp [h.1]) hu
  | a :: x, y, [], v, h, hx, _ => by
    simp only [List.nil_append, List.cons_append, List.cons.injEq] at h
    exact absurd (by simp [h.1]) hx
  | a :: x, y, b :: u, v, h, hx, hu => by
    simp only [List.cons_append, List.cons.injEq] at h
    obtain ⟨h1, h2⟩ := split_unique h.2 (fun hc => hx (by simp [hc])) (fun hc => hu (by simp [hc]))
    exact ⟨by rw [h.1, h1], h2⟩

theorem uniq_append (x y : List α) :
    uniq (x ++ y) = uniq x ++ (uniq y).filter (fun a => decide (a ∉ x)) := by
  induction x with
  | nil =>
    rw [uniq_nil, List.nil_append, List.nil_append, List.filter_eq_self.2]
    simp
  | cons a x ih =>
    rw [List.cons_append, uniq_cons, ih, uniq_cons, List.filter_append, List.cons_append,
      List.filter_filter]
    congr 2
    apply List.filter_congr
    intro b _
    simp [Bool.decide_and, and_comm]

theorem uniq_split {x y : List α} {c : α} (h : uniq l = x ++ c :: y) :
    ∃ x' y', l = x' ++ c :: y' ∧ c ∉ x' ∧ x = uniq x' := by
  have hc : c ∈ l := mem_uniq.1 (by rw [h]; simp)
  obtain ⟨x', y', rfl, hx'⟩ := List.eq_append_cons_of_mem hc
  refine ⟨x', y', rfl, hx', ?_⟩
  have hn := nodup_uniq (x' ++ c :: y')
  rw [h] at hn
  have hcx : c ∉ x := by
    intro hcx
    exact (List.nodup_append.1 hn).2.2 c hcx c (by simp) rfl
  rw [uniq_append, uniq_cons, List.filter_cons_of_pos (by simpa using hx')] at h
  exact (split_unique h (by rw [mem_uniq]; exact hx') hcx).1.symm

theorem Before.uniq (h : Before A B l) : Before A B (uniq l) := by
  intro x c y hl hB
  obtain ⟨x', y', rfl, _, rfl⟩ := uniq_split hl
  obtain ⟨c', hc', hA⟩ := h _ _ _ rfl hB
  exact ⟨c', mem_uniq.2 hc', hA⟩

/-- After the first occurrence of what satisfies `B` comes the first occurrence of something
that satisfies `A`. -/
theorem After.uniq
    (h : ∀ x b y, l = x ++ b :: y → b ∉ x → B b → ∃ a ∈ l, A a ∧ a ∉ x ∧ a ≠ b) :
    After A B (uniq l) := by
  intro x b y hl hB
  obtain ⟨x', y', hl', hb, rfl⟩ := uniq_split hl
  obtain ⟨a, ha, hA, hax, hab⟩ := h x' b y' hl' hb hB
  have : a ∈ Hsm.uniq l := mem_uniq.2 ha
  rw [hl] at this
  rcases List.mem_append.1 this with h1 | h1
  · exact absurd (mem_uniq.1 h1) hax
  · rcases List.mem_cons.1 h1 with h1 | h1
    · exact absurd h1 hab
    · exact ⟨a, h1, hA⟩

end uniq

/-! ## External rows -/

namespace Machine
variable {M : Machine}

/-- Row `r` of composite `p` is a candidate at `(q, s)`: its source denotes this location,
or is the composite `q` whose direct child `s` is. -/
def Applies (M : Machine) (p : Name) (r : Row) (q : Name) (s : StTy) : Prop :=
  sourceLoc p r.source = (q, s) ∨ (r.source = .st q ∧ M.isComposite q = true ∧ M.IsChild q s)

/-- The candidate is external row `r` of composite `p`. -/
def IsRow (p : Name) (r : Row) (c : Cand) : Prop :=
  c.row? = some ⟨p, r.source, r.event, r.guard, r.action, r.target, false⟩

/-- The candidate is internal row `i`, declared by or placed at a state of composite `p`. -/
def IsInner (p : Name) (i : IRow) (c : Cand) : Prop :=
  ∃ src, c.row? = some ⟨p, src, i.event, i.guard, i.action, src, true⟩

/-- What row `r` of composite `s` contributes to the flattened table. -/
def blockOf (M : Machine) (s : Name) (r : Row) : List XRow :=
  ext s r :: (match M.subMachine r.target with
    | some p => M.flatten p
    | none => [])

theorem flatten_blocks (hr : M.Ranked) (s : Name) :
    M.flatten s = (M.rows s).flatMap (M.blockOf s) := flatten_eq hr s

/-- Induction over composites. -/
theorem rank_induction (hr : M.Ranked) {Q : Name → Prop}
    (h : ∀ s, (∀ r ∈ M.rows s, ∀ p, M.Enters r.target p → Q p) → Q s) (s : Name) : Q s := by
  suffices H : ∀ n s, M.rank s < n → Q s from H (M.rank s + 1) s (by omega)
  intro n
  induction n with
  | zero => intro s h; omega
  | succ n ih =>
    intro s hs
    refine h s fun r hrr p hp => ih p ?_
    have := hr s r p hrr (subMachine_iff.2 hp)
    omega

/-- If the rows of `q` from some point on, with what they lead into, contain what satisfies
`A` and not `r1`, then it comes after every occurrence of `r1`. -/
theorem after_flatten (hr : M.Ranked) {q : Name} {r1 : Row} {l1 l2 : List Row}
    (hrows : M.rows q = l1 ++ l2) (hn : r1 ∉ l2) {A : XRow → Prop}
    (hA : ∃ t ∈ l2.flatMap (M.blockOf q), A t) (s : Name) :
    After A (· = ext q r1) (M.flatten s) := by
  refine rank_induction (Q := fun s => After A (· = ext q r1) (M.flatten s)) hr (fun s ih => ?_) s
  have sub : ∀ r ∈ M.rows s, ext s r ≠ ext q r1 → After A (· = ext q r1) (M.blockOf s r) := by
    intro r hrr hne
    unfold blockOf
    refine After.cons hne ?_
    cases hs : M.subMachine r.target with
    | none => exact After.nil
    | some p => exact ih r hrr p (subMachine_iff.1 hs)
  rw [flatten_blocks hr]
  by_cases hsq : s = q
  · subst hsq
    rw [hrows, List.flatMap_append]
    refine After.append_mem hA (After.flatMap fun r hrr => sub r (by rw [hrows]; simp [hrr]) ?_)
    intro he
    have : r = r1 := by
      unfold ext at he
      cases r; cases r1
      simp_all
    exact hn (this ▸ hrr)
  · refine After.flatMap fun r hrr => sub r hrr ?_
    intro he
    exact hsq (congrArg XRow.parent he)

theorem mem_blockOf {q : Name} {r : Row} : ext q r ∈ M.blockOf q r := by simp [blockOf]

theorem mem_extCands {p : Name} {s : StTy} {t : XRow} {c : Cand} (h : c ∈ M.extCands p s t) :
    c.row? = some t := by
  unfold extCands at h
  rcases List.mem_append.1 h with h | h
  · split at h
    · rw [List.mem_singleton.1 h]; rfl
    · cases h
  · split at h
    · rw [List.mem_singleton.1 h]; rfl
    · cases h

theorem mem_intCands {p : Name} {s : StTy} {t : XRow} {c : Cand} (h : c ∈ intCands p s t) :
    c.row? = some t ∧ sourceLoc t.parent t.source = (p, s) := by
  unfold intCands at h
  split at h
  · rw [List.mem_singleton.1 h]; exact ⟨rfl, by assumption⟩
  · cases h

theorem Applies.cand {p : Name} {r : Row} {q : Name} {s : StTy} (h : M.Applies p r q s) :
    ∃ c ∈ M.extCands q s (ext p r), c.row? = some (ext p r) := by
  unfold extCands
  rcases h with h | ⟨h1, h2, h3⟩
  · exact ⟨.row (ext p r), by simp [ext, h], rfl⟩
  · exact ⟨.exit (ext p r) q, by simp [ext, h1, h2, h3], rfl⟩

theorem iflat_internal' {t : XRow} (h : t ∈ M.iflat) : t.internal = true := iflat_internal h

/-- From the order of the flattened table to that of the candidates. -/
theorem before_cands {p1 p2 : Name} {r1 r2 : Row} {e : EventTy} {q : Name} {s : StTy}
    (h : After (· = ext p2 r2) (· = ext p1 r1) M.flat) (he : r2.event = e)
    (ha : M.Applies p2 r2 q s) : Before (IsRow p2 r2) (IsRow p1 r1) (M.cands e q s) := by
  rw [cands_def]
  rw [List.append_assoc]
  refine Before.append (Before.none ?_) (Before.append (Before.flatMap
    (A' := (· = ext p2 r2)) (B' := (· = ext p1 r1)) ?_ ?_ ?_) (Before.none ?_))
  · intro c hc hB
    rw [(List.mem_replicate.1 hc).2] at hB
    cases hB
  · refine h.reverse.filter ?_
    rintro t _ rfl
    exact decide_eq_true he
  · intro t _ c hc hB
    have h1 : some t = some (ext p1 r1) := (mem_extCands hc).symm.trans hB
    exact Option.some.inj h1
  · rintro t _ rfl
    exact ha.cand
  · intro c hc hB
    obtain ⟨t, ht, hct⟩ := List.mem_flatMap.1 hc
    have hi := iflat_internal (List.mem_reverse.1 (List.mem_filter.1 ht).1)
    have h1 : some t = _ := (mem_intCands hct).1.symm.trans hB
    rw [Option.some.inj h1] at hi
    cases hi

/-- Of two rows of one table that apply, the one declared later is tried first. -/
theorem C50_before_rows (hM : M.Regular) {p : Name} {r1 r2 : Row} {l1 l2 : List Row}
    (hrows : M.rows p = l1 ++ r2 :: l2) (hn : r1 ∉ r2 :: l2) {q : Name} {s : StTy}
    (ha : M.Applies p r2 q s) : Before (IsRow p r2) (IsRow p r1) (M.cands r2.event q s) :=
  before_cands (after_flatten (A := (· = ext p r2)) hM.ranked hrows hn ⟨_, by
    rw [List.flatMap_cons]; exact List.mem_append_left _ mem_blockOf, rfl⟩ M.root) rfl ha

/-- External rows are tried before internal ones. -/
theorem C50_before_internal (hM : M.Regular) {p : Name} {r : Row} (hp : M.InForce p)
    (hr : r ∈ M.rows p) {q : Name} {s : StTy} (ha : M.Applies p r q s) :
    Before (IsRow p r) (fun c => ∃ t, c.row? = some t ∧ t.internal = true)
      (M.cands r.event q s) := by
  rw [cands_def]
  intro x c y hl hB
  obtain ⟨c', hc', hrow⟩ := ha.cand
  rcases List.append_eq_append_iff.1 hl with ⟨a, h1, h2⟩ | ⟨a, h1, h2⟩
  · refine ⟨c', ?_, hrow⟩
    rw [h1]
    refine List.mem_append_left _ (List.mem_append_right _ (List.mem_flatMap.2 ⟨_, ?_, hc'⟩))
    rw [List.mem_filter, List.mem_reverse]
    exact ⟨(mem_flat_iff hM.ranked).2 ⟨p, r, hp, hr, rfl⟩, by simp [ext]⟩
  · cases a with
    | nil =>
      refine ⟨c', ?_, hrow⟩
      rw [List.append_nil] at h1
      rw [← h1]
      refine (List.mem_append_right _ (List.mem_flatMap.2 ⟨_, ?_, hc'⟩))
      rw [List.mem_filter, List.mem_reverse]
      exact ⟨(mem_flat_iff hM.ranked).2 ⟨p, r, hp, hr, rfl⟩, by simp [ext]⟩
    | cons z a =>
      simp only [List.cons_append, List.cons.injEq] at h2
      obtain ⟨rfl, _⟩ := h2
      obtain ⟨t, ht, hi⟩ := hB
      have hm : c ∈ x ++ c :: a := by simp
      rw [← h1] at hm
      rcases List.mem_append.1 hm with hm | hm
      · rw [(List.mem_replicate.1 hm).2] at ht; cases ht
      · obtain ⟨t', ht', hct⟩ := List.mem_flatMap.1 hm
        have := flat_internal hM.ranked (List.mem_reverse.1 (List.mem_filter.1 ht').1)
        rw [mem_extCands hct] at ht
        rw [Option.some.inj ht, hi] at this
        cases this

/-- Deferral comes before every row. -/
theorem C50_before_defer {e : EventTy} {q : Name} {s : StTy} (h : Cand.defer ∈ M.cands e q s) :
    Before (· = Cand.defer) (fun c => c.row?.isSome = true) (M.cands e q s) := by
  have hc : ∃ n l, M.cands e q s = List.replicate n Cand.defer ++ l ∧ Cand.defer ∉ l := by
    refine ⟨_, _, by rw [cands_def, List.append_assoc], ?_⟩
    intro hm
    rcases List.mem_append.1 hm with hm | hm
    · obtain ⟨t', ht', hct⟩ := List.mem_flatMap.1 hm
      have := mem_extCands hct
      cases this
    · obtain ⟨t', ht', hct⟩ := List.mem_flatMap.1 hm
      have := (mem_intCands hct).1
      cases this
  obtain ⟨n, l, hc, hl⟩ := hc
  cases n with
  | zero =>
    rw [hc] at h
    exact absurd (by simpa using h) hl
  | succ n =>
    rw [hc, List.replicate_succ, List.cons_append]
    exact Before.cons (by simp [Cand.row?]) (Or.inl rfl)

/-! ## Internal rows -/

theorem mem_internalRowsOf {p q : Name} {X src : StTy} {i : IRow} :
    internalRow q src i ∈ M.internalRowsOf (p, X) ↔
      ∃ x is, X = .st x ∧ (M.decl x).itable = some is ∧ i ∈ is ∧
        ((M.isComposite x = true ∧ x = q ∧ src ∈ M.childStates q) ∨
         (M.isComposite x = false ∧ p = q ∧ src = .st x)) := by
  have hinj : ∀ q' src' i', internalRow q' src' i' = internalRow q src i ↔
      q' = q ∧ src' = src ∧ i' = i := by
    intro q' src' i'
    unfold internalRow
    cases i; cases i'
    simp only [XRow.mk.injEq, IRow.mk.injEq, and_true]
    constructor
    · rintro ⟨h1, h2, h3, h4, h5, _⟩; exact ⟨h1, h2, h3, h4, h5⟩
    · rintro ⟨h1, h2, h3, h4, h5⟩; exact ⟨h1, h2, h3, h4, h5, h2⟩
  cases X with
  | ps o k => simp [internalRowsOf]
  | st x =>
    unfold internalRowsOf
    cases hi : (M.decl x).itable with
    | none => simp [hi]
    | some is =>
      cases hc : M.isComposite x with
      | true =>
        simp only [hi, hc, if_true, List.mem_flatMap, List.mem_map, hinj]
        constructor
        · rintro ⟨i', hi', c, hcs, rfl, rfl, rfl⟩
          exact ⟨x, is, rfl, hi, hi', Or.inl ⟨hc, rfl, hcs⟩⟩
        · rintro ⟨x', is', hx, his, hii, h⟩
          cases hx
          rw [hi] at his; cases his
          rcases h with ⟨_, rfl, h⟩ | ⟨h, _⟩
          · exact ⟨i, hii, src, h, rfl, rfl, rfl⟩
          · rw [hc] at h; cases h
      | false =>
        simp only [hi, hc, Bool.false_eq_true, if_false, List.mem_map, hinj]
        constructor
        · rintro ⟨i', hi', rfl, rfl, rfl⟩
          exact ⟨x, is, rfl, hi, hi', Or.inr ⟨hc, rfl, rfl⟩⟩
        · rintro ⟨x', is', hx, his, hii, h⟩
          cases hx
          rw [hi] at his; cases his
          rcases h with ⟨h, _⟩ | ⟨_, rfl, rfl⟩
          · rw [hc] at h; cases h
          · exact ⟨i, hii, rfl, rfl, rfl⟩

/-- The internal row is at location `(p, s)`. -/
def InnerAt (q : Name) (i : IRow) (p : Name) (s : StTy) (t : XRow) : Prop :=
  ∃ src, t = internalRow q src i ∧ sourceLoc q src = (p, s)

theorem before_cands_inner (hM : M.Regular) {q : Name} {i1 i2 : IRow} {e : EventTy} {p : Name}
    {s : StTy} (h : After (InnerAt q i2 p s) (InnerAt q i1 p s) M.iflat) (he : i2.event = e) :
    Before (IsInner q i2) (IsInner q i1) (M.cands e p s) := by
  rw [cands_def]
  refine Before.append (Before.none ?_) (Before.flatMap (A' := InnerAt q i2 p s)
    (B' := InnerAt q i1 p s) (h.reverse.filter ?_) ?_ ?_)
  · rintro c hc ⟨src, hB⟩
    rcases List.mem_append.1 hc with hc | hc
    · rw [(List.mem_replicate.1 hc).2] at hB
      cases hB
    · obtain ⟨t, ht, hct⟩ := List.mem_flatMap.1 hc
      have hi := flat_internal hM.ranked (List.mem_reverse.1 (List.mem_filter.1 ht).1)
      rw [mem_extCands hct] at hB
      rw [Option.some.inj hB] at hi
      cases hi
  · rintro t _ ⟨src, rfl, _⟩
    exact decide_eq_true he
  · rintro t _ c hc ⟨src, hB⟩
    obtain ⟨h1, h2⟩ := mem_intCands hc
    have h1 : some t = some (internalRow q src i1) := h1.symm.trans hB
    have h1 := Option.some.inj h1
    subst h1
    exact ⟨src, rfl, h2⟩
  · rintro t _ ⟨src, rfl, h⟩
    refine ⟨.row (internalRow q src i2), ?_, src, rfl⟩
    show _ ∈ if sourceLoc q src = (p, s) then [Cand.row (internalRow q src i2)] else []
    rw [if_pos h]
    simp

/-- The rows placed by one occurrence of a state, one internal row after the other. -/
theorem internalRowsOf_blocks {p X : Name} {is : List IRow} (h : (M.decl X).itable = some is) :
    ∃ g : IRow → List XRow, M.internalRowsOf (p, .st X) = is.flatMap g ∧
      ∀ i t, t ∈ g i → ∃ q src, t = internalRow q src i ∧
        ∀ i', internalRow q src i' ∈ g i' := by
  unfold internalRowsOf
  simp only [h]
  cases hc : M.isComposite X with
  | true =>
    refine ⟨fun i => (M.childStates X).map fun c => internalRow X c i, by simp, ?_⟩
    intro i t ht
    obtain ⟨c, hcs, rfl⟩ := List.mem_map.1 ht
    exact ⟨X, c, rfl, fun i' => List.mem_map.2 ⟨c, hcs, rfl⟩⟩
  | false =>
    refine ⟨fun i => [internalRow p (.st X) i], ?_, ?_⟩
    · simp only [Bool.false_eq_true, if_false]
      clear h
      induction is with
      | nil => rfl
      | cons i is ih => simp [ih]
    · intro i t ht
      exact ⟨p, .st X, List.mem_singleton.1 ht, fun i' => by simp⟩

theorem internalRow_inj {q q' : Name} {src src' : StTy} {i i' : IRow}
    (h : internalRow q src i = internalRow q' src' i') : q = q' ∧ src = src' ∧ i = i' := by
  unfold internalRow at h
  cases i; cases i'
  simp only [XRow.mk.injEq, and_true] at h
  obtain ⟨h1, h2, h3, h4, h5, _⟩ := h
  exact ⟨h1, h2, by rw [h3, h4, h5]⟩

/-- Internal rows of one table, of which no other table at this location has a copy. -/
theorem after_internal {X q : Name} {is m1 m2 : List IRow} {i1 i2 : IRow}
    (his : (M.decl X).itable = some is) (hsplit : is = m1 ++ i1 :: m2) (h2 : i2 ∈ m2)
    (hn : i2 ∉ m1) (hne : i2 ≠ i1) {p : Name} {s : StTy}
    (hcopy : ∀ x is', x ≠ X → x = q ∨ s = .st x → (M.decl x).itable = some is' →
      i1 ∉ is' ∧ i2 ∉ is') :
    After (InnerAt q i2 p s) (InnerAt q i1 p s) M.iflat := by
  unfold iflat
  refine After.uniq ?_
  rintro x b y hl hbx ⟨src, rfl, hloc⟩
  have honly : ∀ i, i = i1 ∨ i = i2 → ∀ p' st, internalRow q src i ∈ M.internalRowsOf (p', st) →
      st = .st X := by
    intro i hi p' st hm
    obtain ⟨x', is', rfl, hx', hii, h⟩ := mem_internalRowsOf.1 hm
    apply Classical.byContradiction
    intro hxX
    have hxX : x' ≠ X := fun h => hxX (by rw [h])
    have hor : x' = q ∨ s = .st x' := by
      rcases h with ⟨_, h, _⟩ | ⟨_, _, h⟩
      · exact Or.inl h
      · rw [h] at hloc
        unfold sourceLoc at hloc
        exact Or.inr (Prod.mk.inj hloc).2.symm
    have := hcopy x' is' hxX hor hx'
    rcases hi with rfl | rfl
    · exact this.1 hii
    · exact this.2 hii
  have hboth : ∀ p', internalRow q src i1 ∈ M.internalRowsOf (p', .st X) ↔
      internalRow q src i2 ∈ M.internalRowsOf (p', .st X) := by
    intro p'
    rw [mem_internalRowsOf, mem_internalRowsOf]
    constructor
    · rintro ⟨x', is', hx, his', _, h⟩
      cases hx
      rw [his] at his'; cases his'
      exact ⟨X, is, rfl, his, by rw [hsplit]; simp [h2], h⟩
    · rintro ⟨x', is', hx, his', _, h⟩
      cases hx
      rw [his] at his'; cases his'
      exact ⟨X, is, rfl, his, by rw [hsplit]; simp, h⟩
  obtain ⟨P1, π, P2, u, v, hP, hu, rfl⟩ := flatMap_split hl
  obtain ⟨p0, st0⟩ := π
  have hst : st0 = .st X := honly i1 (Or.inl rfl) p0 st0 (by rw [hu]; simp)
  subst hst
  refine ⟨internalRow q src i2, ?_, ⟨src, rfl, hloc⟩, ?_, ?_⟩
  · refine List.mem_flatMap.2 ⟨(p0, .st X), by rw [hP]; simp, (hboth p0).1 (by rw [hu]; simp)⟩
  · intro ha
    rcases List.mem_append.1 ha with ha | ha
    · obtain ⟨⟨p', st'⟩, hπ, ha⟩ := List.mem_flatMap.1 ha
      have := honly i2 (Or.inr rfl) p' st' ha
      subst this
      exact hbx (List.mem_append_left _ (List.mem_flatMap.2 ⟨_, hπ, (hboth p').2 ha⟩))
    · have hbu : internalRow q src i1 ∉ u := fun h => hbx (List.mem_append_right _ h)
      obtain ⟨g, hg, hgs⟩ := internalRowsOf_blocks (p := p0) his
      rw [hg] at hu
      obtain ⟨n1, i, n2, x', y', hn1, hgi, rfl⟩ := flatMap_split hu
      have hgi1 : internalRow q src i1 ∈ g i := by rw [hgi]; simp
      have hii : i = i1 := by
        obtain ⟨q', src', h1, _⟩ := hgs _ _ hgi1
        exact (internalRow_inj h1).2.2.symm
      subst hii
      have hin : i ∉ n1 := fun h =>
        hbu (List.mem_append_left _ (List.mem_flatMap.2 ⟨i, h, hgi1⟩))
      have hi2 : i2 ∉ n1 := by
        rw [hsplit] at hn1
        rcases List.append_eq_append_iff.1 hn1 with ⟨a, h3, h4⟩ | ⟨a, h3, h4⟩
        · cases a with
          | nil => rw [h3, List.append_nil]; exact hn
          | cons z a =>
            simp only [List.cons_append, List.cons.injEq] at h4
            exact absurd (by rw [h3, ← h4.1]; simp) hin
        · intro h
          exact hn (by rw [h3]; simp [h])
      rcases List.mem_append.1 ha with ha | ha
      · obtain ⟨i', hi', ha⟩ := List.mem_flatMap.1 ha
        obtain ⟨_, _, h1, _⟩ := hgs _ _ ha
        exact hi2 ((internalRow_inj h1).2.2 ▸ hi')
      · have ha : internalRow q src i2 ∈ g i := by rw [hgi]; simp [ha]
        obtain ⟨_, _, h1, _⟩ := hgs _ _ ha
        exact hne (internalRow_inj h1).2.2
  · intro h
    exact hne (internalRow_inj h).2.2

/-- Of two internal rows of one table, the one declared later is tried first. -/
theorem C50_before_inner (hM : M.Regular) {X q : Name} {m1 m2 : List IRow} {i1 i2 : IRow}
    (his : (M.decl X).itable = some (m1 ++ i1 :: m2)) (h2 : i2 ∈ m2)
    (hn : i2 ∉ m1) (hne : i2 ≠ i1) {p : Name} {s : StTy}
    (hcopy : ∀ x is', x ≠ X → x = q ∨ s = .st x → (M.decl x).itable = some is' →
      i1 ∉ is' ∧ i2 ∉ is') :
    Before (IsInner q i2) (IsInner q i1) (M.cands i2.event p s) :=
  before_cands_inner hM (after_internal his rfl h2 hn hne hcopy) rfl

/-! ## Inner and outer internal rows -/

/-- A row of a composite other than the root comes after a row that leads into it. -/
theorem entered_first (hr : M.Ranked) {q s : Name} (hs : s ≠ q) :
    Before (fun t => M.Enters t.target q) (fun t => t.parent = q) (M.flatten s) := by
  refine rank_induction (Q := fun s => s ≠ q →
    Before (fun t => M.Enters t.target q) (fun t => t.parent = q) (M.flatten s)) hr
    (fun s ih hs => ?_) s hs
  rw [flatten_blocks hr]
  refine Before.flatMap_all fun r hrr => ?_
  unfold blockOf
  refine Before.cons hs ?_
  cases hsub : M.subMachine r.target with
  | none => exact Or.inr Before.nil
  | some p =>
    have he := subMachine_iff.1 hsub
    by_cases hp : p = q
    · subst hp
      exact Or.inl he
    · exact Or.inr (ih r hrr p he hp)

/-- Composite `q` is the root, or rows that lead into it name it as plain target. -/
def PlainlyEntered (M : Machine) (q : Name) : Prop :=
  q = M.root ∨ ∀ p r, M.InForce p → r ∈ M.rows p → M.Enters r.target q → r.target = .st q

theorem before_statePairs (hM : M.Regular) {q S : Name} (hq : M.PlainlyEntered q) (hS : S ≠ q) :
    Before (fun π => π.2 = .st q) (fun π => π = (q, StTy.st S)) M.statePairs := by
  unfold statePairs
  refine Before.uniq (Before.cons ?_ ?_)
  · intro h
    have h := Prod.mk.inj h
    exact hS ((StTy.st.inj h.2).symm.trans h.1)
  · rcases hq with rfl | hq
    · exact Or.inl rfl
    · by_cases hqr : M.root = q
      · exact Or.inl (by rw [hqr])
      · refine Or.inr (Before.flatMap (entered_first hM.ranked hqr) ?_ ?_)
        · intro t _ c hc hB
          rw [hB] at hc
          simp only [List.mem_cons, Prod.mk.injEq, List.not_mem_nil, or_false] at hc
          rcases hc with hc | hc <;> exact hc.1.symm
        · intro t ht he
          obtain ⟨p, r, hp, hr, rfl⟩ := (mem_flat_iff hM.ranked).1 ht
          exact ⟨(p, .st q), by simp [ext, hq p r hp hr he], rfl⟩

theorem after_inner_outer (hM : M.Regular) {q S : Name} (hq : M.PlainlyEntered q)
    (hS : M.isComposite S = false) {is js : List IRow} (his : (M.decl S).itable = some is)
    (hjs : (M.decl q).itable = some js) {i j : IRow} (hi : i ∈ is) (hij : i ∉ js) (hji : j ∉ is)
    (hocc : M.Occurs q S) :
    After (InnerAt q i q (.st S)) (InnerAt q j q (.st S)) M.iflat := by
  unfold iflat
  refine After.uniq ?_
  rintro x b y hl hbx ⟨src, rfl, hloc⟩
  -- where the outer row comes from
  have hb : internalRow q src j ∈ M.statePairs.flatMap M.internalRowsOf := by rw [hl]; simp
  obtain ⟨⟨p0, st0⟩, hp0, hb⟩ := List.mem_flatMap.1 hb
  obtain ⟨x0, is0, rfl, hx0, hj0, h0⟩ := mem_internalRowsOf.1 hb
  have hcq : M.isComposite q = true ∧ src ∈ M.childStates q ∧ j ∈ js := by
    rcases h0 with ⟨h1, rfl, h3⟩ | ⟨h1, h2, h3⟩
    · rw [hjs] at hx0; cases hx0
      exact ⟨h1, h3, hj0⟩
    · subst h3
      have : x0 = S := by
        unfold sourceLoc at hloc
        exact StTy.st.inj (Prod.mk.inj hloc).2
      subst this
      rw [his] at hx0; cases hx0
      exact absurd hj0 hji
  obtain ⟨hcq, hsrc, hj⟩ := hcq
  have hSq : S ≠ q := by
    rintro rfl
    rw [hS] at hcq; cases hcq
  have hfrom : ∀ p' st, internalRow q (.st S) i ∈ M.internalRowsOf (p', st) →
      (p', st) = (q, .st S) := by
    intro p' st hm
    obtain ⟨x', is', rfl, hx', hii, h⟩ := mem_internalRowsOf.1 hm
    rcases h with ⟨_, rfl, _⟩ | ⟨_, rfl, h⟩
    · rw [hjs] at hx'; cases hx'
      exact absurd hii hij
    · rw [h]
  have hown : internalRow q (.st S) i ∈ M.internalRowsOf (q, .st S) :=
    mem_internalRowsOf.2 ⟨S, is, rfl, his, hi, Or.inr ⟨hS, rfl, rfl⟩⟩
  refine ⟨internalRow q (.st S) i, List.mem_flatMap.2 ⟨_, (occurs_iff hM).1 hocc, hown⟩,
    ⟨.st S, rfl, rfl⟩, ?_, ?_⟩
  · intro ha
    have hbefore : Before (fun t => t = internalRow q src j)
        (fun t => t = internalRow q (.st S) i) (M.statePairs.flatMap M.internalRowsOf) := by
      refine Before.flatMap (before_statePairs hM hq hSq) ?_ ?_
      · rintro ⟨p', st⟩ _ c hc rfl
        exact hfrom p' st hc
      · rintro ⟨p', st⟩ _ hst
        cases hst
        exact ⟨_, mem_internalRowsOf.2 ⟨q, js, rfl, hjs, hj, Or.inl ⟨hcq, rfl, hsrc⟩⟩, rfl⟩
    obtain ⟨x1, x2, rfl⟩ := List.append_of_mem ha
    obtain ⟨c', hc', rfl⟩ := hbefore x1 _ (x2 ++ internalRow q src j :: y)
      (by rw [hl]; simp) rfl
    exact hbx (by simp [hc'])
  · intro h
    exact hij ((internalRow_inj h).2.2 ▸ hj)

/-! ## Inner and outer external rows -/

theorem mem_flatten_own (hr : M.Ranked) {p : Name} {r : Row} (h : r ∈ M.rows p) :
    ext p r ∈ M.flatten p := (mem_flatten_iff hr _ _).2 ⟨p, r, .refl, h, rfl⟩

theorem before_inner_row (hM : M.Regular) {q P : Name} {l1 l2 : List Row} {r' rout rin : Row}
    (hrows : M.rows q = l1 ++ r' :: l2) (hn : rout ∉ r' :: l2) (he : M.Enters r'.target P)
    (hin : rin ∈ M.rows P) {p : Name} {s : StTy} (ha : M.Applies P rin p s) :
    Before (IsRow P rin) (IsRow q rout) (M.cands rin.event p s) := by
  refine before_cands (after_flatten (A := (· = ext P rin)) hM.ranked hrows hn ⟨_, ?_, rfl⟩
    M.root) rfl ha
  rw [List.flatMap_cons]
  refine List.mem_append_left _ ?_
  unfold blockOf
  rw [subMachine_iff.2 he]
  exact List.mem_cons_of_mem _ (mem_flatten_own hM.ranked hin)

theorem outer_after (hM : M.Regular) {q P : Name} {l1 l2 : List Row} {rout : Row}
    (hrows : M.rows q = l1 ++ rout :: l2) (hl : ∀ r ∈ rout :: l2, ¬ M.Enters r.target P)
    (hq : ∀ p r, r ∈ M.rows p → M.Enters r.target P → p = q) (hPq : P ≠ q) (rin : Row)
    (s : Name) (hs : s ≠ P) : After (· = ext q rout) (· = ext P rin) (M.flatten s) := by
  refine rank_induction (Q := fun s => s ≠ P →
    After (· = ext q rout) (· = ext P rin) (M.flatten s)) hM.ranked (fun s ih hs => ?_) s hs
  have sub : ∀ r ∈ M.rows s, ¬ M.Enters r.target P →
      After (· = ext q rout) (· = ext P rin) (M.blockOf s r) := by
    intro r hrr hne
    unfold blockOf
    refine After.cons (fun h => hs (congrArg XRow.parent h)) ?_
    cases hsub : M.subMachine r.target with
    | none => exact After.nil
    | some p =>
      have he := subMachine_iff.1 hsub
      refine ih r hrr p he ?_
      rintro rfl
      exact hne he
  rw [flatten_blocks hM.ranked]
  by_cases hsq : s = q
  · subst hsq
    rw [hrows, List.flatMap_append]
    refine After.append_mem ⟨ext s rout, ?_, rfl⟩
      (After.flatMap fun r hrr => sub r (by rw [hrows]; exact List.mem_append_right _ hrr) (hl r hrr))
    rw [List.flatMap_cons]
    exact List.mem_append_left _ mem_blockOf
  · exact After.flatMap fun r hrr => sub r hrr fun he => hsq (hq s r hrr he)

end Machine

/-! ## What this means for the row that fires -/

section
variable {P W : Type} {M : Machine} {sem : Sem P W} {d : Dep} {ops : List (Op P)} {s s' : SM P W}
  {r : Nat} {ev : EventTy} {pl pl' : P}

/-- In region `r`, which is at `(p, st)`, candidate `c` fires after the guards called in `gs`
all said no. -/
def Fires (M : Machine) (sem : Sem P W) (deps : List Dep) (r : Nat) (ev : EventTy) (pl : P)
    (s : SM P W) (p : Name) (st : StTy) (c : Cand) (gs : List (Call P)) (pl' : P)
    (s' : SM P W) : Prop :=
  ∃ t dd l x pre p1 p2 tr2 tr3 w1 w2 w3 s1, At M s r p st ∧
    Selected M deps ev p st c t dd l x pre ∧ FalseRun sem s.cur ev pre pl s.world gs p1 w1 ∧
    TrueGuard sem s.cur ev x p1 w1 tr2 p2 w2 ∧ Effect M r t (s.ran w2 (gs ++ tr2)) s1 ∧
    ActRun sem s1.cur (cbArgs M c t l ev dd) (M.callbacks t) p2 w2 tr3 pl' w3 ∧
    s' = s1.ran w3 tr3

theorem fires_of_handles (hM : M.Regular) (hm : Moment M sem d ops s)
    (h : Handles M sem r ev pl s .fired pl' s') :
    ∃ p st c gs, Fires M sem (depsOf d ops) r ev pl s p st c gs pl' s' := by
  cases h.run hM hm with
  | fired ha hs hf hg he hr =>
    exact ⟨_, _, _, _, _, _, _, _, _, _, _, _, _, _, _, _, _, ha, hs, hf, hg, he, hr, rfl⟩

/-- If row `c` fired, some candidate among those to be tried before it was asked and
refused. -/
theorem Fires.asked (hM : M.Regular) {deps : List Dep} {p : Name} {st : StTy} {c : Cand}
    {gs : List (Call P)} (h : Fires M sem deps r ev pl s p st c gs pl' s') {A B : Cand → Prop}
    (hb : Before A B (M.cands ev p st)) (hB : B c) :
    ∃ c' t g, A c' ∧ c'.row? = some t ∧ t.guard = some g ∧
      ∃ call ∈ gs, call.answer = some (g, some false) := by
  obtain ⟨t, dd, l, x, pre, p1, p2, tr2, tr3, w1, w2, w3, s1, _, hs, hf, _⟩ := h
  obtain ⟨ds1, ds2, cs1, cs2, _, hcs, hpre⟩ := hs.order
  obtain ⟨c', hc', hA⟩ := hb _ _ _ hcs hB
  have hmem : c' ∈ M.cands ev p st := by rw [hcs]; simp [hc']
  obtain ⟨h1, h2⟩ := hf.answers
  have key : ∀ en, M.entryOfCand dd c' = some en →
      ∃ g, en.guard? = some g ∧ ∃ call ∈ gs, call.answer = some (g, some false) := by
    intro en hen
    have hm : en ∈ pre := by
      rw [hpre]
      exact List.mem_append_right _ (List.mem_filterMap.2 ⟨c', hc', hen⟩)
    have hm : en.guard? ∈ pre.map Entry.guard? := List.mem_map.2 ⟨en, hm, rfl⟩
    rw [h1] at hm
    obtain ⟨call, hcall, hg⟩ := List.mem_map.1 hm
    obtain ⟨g, hg'⟩ := h2 call hcall
    exact ⟨g, by rw [← hg, hg']; rfl, call, hcall, hg'⟩
  rcases Machine.cand_row hmem with rfl | ⟨t', ht', _, h⟩
  · obtain ⟨g, hg, _⟩ := key _ rfl
    cases hg
  · obtain ⟨l', hl'⟩ := hM.targetLoc_some ht'
    rcases h with rfl | rfl
    · obtain ⟨g, hg, hcall⟩ := key _ (by simp only [Machine.entryOfCand, hl']; rfl)
      exact ⟨_, t', g, hA, rfl, hg, hcall⟩
    · obtain ⟨g, hg, hcall⟩ := key _ (by simp only [Machine.entryOfCand, hl']; rfl)
      exact ⟨_, t', g, hA, rfl, hg, hcall⟩

/-- An unguarded candidate that is tried first is the one that fires. -/
theorem Fires.first (hM : M.Regular) {deps : List Dep} {p : Name} {st : StTy} {c c0 : Cand}
    {gs : List (Call P)} (h : Fires M sem deps r ev pl s p st c gs pl' s') {rest : List Cand}
    (hc : M.cands ev p st = c0 :: rest) {t : XRow} (ht : c0.row? = some t) (hg : t.guard = none) :
    c = c0 := by
  apply Classical.byContradiction
  intro hne
  obtain ⟨c', t', g, rfl, h2, h3, _⟩ := h.asked hM (A := (· = c0)) (B := (· ≠ c0))
    (by rw [hc]; exact Before.cons (fun h => h rfl) (Or.inl rfl)) hne
  rw [ht] at h2
  cases h2
  rw [hg] at h3
  cases h3

/-- The guard was called in `gs` and said no. -/
def Refused (g : Option Cb) (gs : List (Call P)) : Prop :=
  ∃ f, g = some f ∧ ∃ call ∈ gs, call.answer = some (f, some false)

theorem Fires.refused (hM : M.Regular) {deps : List Dep} {p : Name} {st : StTy} {c : Cand}
    {gs : List (Call P)} (h : Fires M sem deps r ev pl s p st c gs pl' s') {A B : Cand → Prop}
    (hb : Before A B (M.cands ev p st)) (hB : B c) {g : Option Cb}
    (hA : ∀ c' t, A c' → c'.row? = some t → t.guard = g) : Refused g gs := by
  obtain ⟨c', t, f, h1, h2, h3, h4⟩ := h.asked hM hb hB
  exact ⟨f, by rw [← hA c' t h1 h2, h3], h4⟩

theorem Machine.IsRow.guard {q : Name} {r : Row} : ∀ c t, Machine.IsRow q r c →
    c.row? = some t → t.guard = r.guard := by
  intro c t h1 h2
  rw [Machine.IsRow, h2] at h1
  rw [Option.some.inj h1]

theorem Machine.IsInner.guard {q : Name} {i : IRow} : ∀ c t, Machine.IsInner q i c →
    c.row? = some t → t.guard = i.guard := by
  rintro c t ⟨src, h1⟩ h2
  rw [h2] at h1
  rw [Option.some.inj h1]

/-! ## C50: priority within the tables -/

/-- C50: whenever a row fires in a region,
* the state does not defer the event;
* every row declared in the same table after it that applies too was asked and refused;
* if it is an internal row, every external row that applies was asked and refused;
* if it is an internal row, every internal row declared in the same table after it for the
  same event was asked and refused (provided the internal tables that apply at this location
  do not contain copies of each other's rows). -/
theorem C50_priority (hM : M.Regular) (hm : Moment M sem d ops s)
    (h : Handles M sem r ev pl s .fired pl' s') :
    ∃ p st c gs, Fires M sem (depsOf d ops) r ev pl s p st c gs pl' s' ∧
      Cand.defer ∉ M.cands ev p st ∧
      (∀ q l1 r2 l2 r1, M.rows q = l1 ++ r2 :: l2 → r1 ∉ r2 :: l2 → r2.event = ev →
        M.Applies q r2 p st → Machine.IsRow q r1 c → Refused r2.guard gs) ∧
      (∀ t, c.row? = some t → t.internal = true →
        ∀ q r2, M.InForce q → r2 ∈ M.rows q → r2.event = ev → M.Applies q r2 p st →
          Refused r2.guard gs) ∧
      (∀ q X m1 i1 m2 i2, (M.decl X).itable = some (m1 ++ i1 :: m2) → i2 ∈ m2 → i2 ∉ m1 →
        i2 ≠ i1 → i2.event = ev →
        (∀ x is, x ≠ X → x = q ∨ st = .st x → (M.decl x).itable = some is → i1 ∉ is ∧ i2 ∉ is) →
        Machine.IsInner q i1 c → Refused i2.guard gs) := by
  obtain ⟨p, st, c, gs, hf⟩ := fires_of_handles hM hm h
  refine ⟨p, st, c, gs, hf, ?_, ?_, ?_, ?_⟩
  · intro hd
    have hrow : c.row?.isSome = true := by
      obtain ⟨t, dd, l, x, pre, p1, p2, tr2, tr3, w1, w2, w3, s1, _, hs, _⟩ := hf
      rw [hs.row]; rfl
    obtain ⟨c', t, g, rfl, h2, _⟩ := hf.asked hM (Machine.C50_before_defer hd) hrow
    cases h2
  · rintro q l1 r2 l2 r1 hrows hn rfl ha hc
    exact hf.refused hM (Machine.C50_before_rows hM hrows hn ha) hc Machine.IsRow.guard
  · rintro t ht hi q r2 hq hr2 rfl ha
    exact hf.refused hM (Machine.C50_before_internal hM hq hr2 ha) ⟨t, ht, hi⟩
      Machine.IsRow.guard
  · rintro q X m1 i1 m2 i2 his h2 hn hne rfl hcopy hc
    exact hf.refused hM (Machine.C50_before_inner hM his h2 hn hne hcopy) hc
      Machine.IsInner.guard

/-! ## C51: internal rows of a state and of its composite -/

/-- The full claim C51: at a simple state `S` of composite `q` an internal row of `q` fires
only after the internal rows of `S` for the event were asked and refused. -/
def C51_claim : Prop :=
  ∀ (M : Machine), M.Regular → M.Scoped → ∀ (sem : Sem Nat (List Nat)) (d : Dep)
    (ops : List (Op Nat)) (s : SM Nat (List Nat)), Moment M sem d ops s →
    ∀ r ev pl q S c gs pl' s', Fires M sem (depsOf d ops) r ev pl s q (.st S) c gs pl' s' →
    M.isComposite S = false → M.Occurs q S →
    ∀ is js i j, (M.decl S).itable = some is → (M.decl q).itable = some js → i ∈ is → i ∉ js →
      j ∉ is → i.event = ev → Machine.IsInner q j c → Refused i.guard gs

/-- C51, for composites that are the root or are entered through plain targets only.
Missing: composites that are entered through entry, direct or history pseudo states; for
them the claim is false (`C51_refuted`). -/
theorem C51_partial (hM : M.Regular) (hm : Moment M sem d ops s) {q S : Name}
    (h : Handles M sem r ev pl s .fired pl' s') (ha : At M s r q (.st S))
    (hq : M.PlainlyEntered q) (hS : M.isComposite S = false) (hocc : M.Occurs q S) :
    ∃ c gs, Fires M sem (depsOf d ops) r ev pl s q (.st S) c gs pl' s' ∧
      ∀ is js i j, (M.decl S).itable = some is → (M.decl q).itable = some js → i ∈ is → i ∉ js →
        j ∉ is → i.event = ev → Machine.IsInner q j c → Refused i.guard gs := by
  obtain ⟨p, st, c, gs, hf⟩ := fires_of_handles hM hm h
  have hloc : p = q ∧ st = .st S := by
    obtain ⟨t, dd, l, x, pre, p1, p2, tr2, tr3, w1, w2, w3, s1, ha', _⟩ := hf
    exact ha'.unique hM ha
  obtain ⟨rfl, rfl⟩ := hloc
  refine ⟨c, gs, hf, ?_⟩
  rintro is js i j his hjs hi hij hji rfl hc
  exact hf.refused hM (Machine.before_cands_inner hM
    (Machine.after_inner_outer hM hq hS his hjs hi hij hji hocc) rfl) hc Machine.IsInner.guard

/-! ## C52: rows of a composite and of what is in it -/

/-- The full claim C52: a row on composite `C` fires in a state of `C` only after the rows of
`C` on this state for the event were asked and refused. -/
def C52_claim : Prop :=
  ∀ (M : Machine), M.Regular → M.Scoped → ∀ (sem : Sem Nat (List Nat)) (d : Dep)
    (ops : List (Op Nat)) (s : SM Nat (List Nat)), Moment M sem d ops s →
    ∀ r ev pl C st c gs pl' s', Fires M sem (depsOf d ops) r ev pl s C st c gs pl' s' →
    ∀ q rout rin, rout ∈ M.rows q → rout.source = .st C → Machine.IsRow q rout c →
      rin ∈ M.rows C → rin.event = ev → Machine.sourceLoc C rin.source = (C, st) →
      Refused rin.guard gs

/-- C52, for rows on `C` that are followed, in their table, by a row that leads into `C`.
Missing: all other rows on `C`; if none of the rows that lead into `C` follows, it is the
other way round (`C52_outer_first`). -/
theorem C52_partial (hM : M.Regular) (hm : Moment M sem d ops s)
    (h : Handles M sem r ev pl s .fired pl' s') :
    ∃ C st c gs, At M s r C st ∧ Fires M sem (depsOf d ops) r ev pl s C st c gs pl' s' ∧
      ∀ q l1 r' l2 rout rin, M.rows q = l1 ++ r' :: l2 → rout ∉ r' :: l2 →
        M.Enters r'.target C → Machine.IsRow q rout c → rin ∈ M.rows C → rin.event = ev →
        Machine.sourceLoc C rin.source = (C, st) → Refused rin.guard gs := by
  obtain ⟨C, st, c, gs, hf⟩ := fires_of_handles hM hm h
  refine ⟨C, st, c, gs, ?_, hf, ?_⟩
  · obtain ⟨t, dd, l, x, pre, p1, p2, tr2, tr3, w1, w2, w3, s1, ha, _⟩ := hf
    exact ha
  · rintro q l1 r' l2 rout rin hrows hn he hc hin rfl hl
    exact hf.refused hM (Machine.before_inner_row hM hrows hn he hin (Or.inl hl)) hc
      Machine.IsRow.guard

/-- If composite `C` is led into only by rows of one table, all before the row on `C`, then
the row on `C` is tried before the rows of `C`: these fire only after it refused. -/
theorem C52_outer_first (hM : M.Regular) (hm : Moment M sem d ops s)
    (h : Handles M sem r ev pl s .fired pl' s') :
    ∃ C st c gs, At M s r C st ∧ Fires M sem (depsOf d ops) r ev pl s C st c gs pl' s' ∧
      ∀ q l1 l2 rout rin, M.rows q = l1 ++ rout :: l2 → rout.source = .st C → rout.event = ev →
        (∀ r ∈ rout :: l2, ¬ M.Enters r.target C) →
        (∀ p r, r ∈ M.rows p → M.Enters r.target C → p = q) → C ≠ M.root → C ≠ q →
        M.isComposite C = true → M.IsChild C st → Machine.IsRow C rin c →
        Refused rout.guard gs := by
  obtain ⟨C, st, c, gs, hf⟩ := fires_of_handles hM hm h
  refine ⟨C, st, c, gs, ?_, hf, ?_⟩
  · obtain ⟨t, dd, l, x, pre, p1, p2, tr2, tr3, w1, w2, w3, s1, ha, _⟩ := hf
    exact ha
  · rintro q l1 l2 rout rin hrows hsrc rfl hl hq hroot hCq hcomp hch hc
    exact hf.refused hM (Machine.before_cands
      (Machine.outer_after hM hrows hl hq hCq rin M.root (Ne.symm hroot)) rfl
      (Or.inr ⟨hsrc, hcomp, hch⟩)) hc Machine.IsRow.guard

end

/-! ## Machines -/

namespace Ex

/-- `A` (1) and composite `P` (2) with `S` (3) and `T` (4), entered through entry point `S`
only.  `S` and `P` have internal rows for event 5. -/
def viaEntry : Machine := Machine.ofList
  [ { table := some
        [ row (ini 1) (ev 0) none none (.ps true (.entry 2 3)),
          row (.st 2) (ev 1) none none (.st 1) ] },
    { },
    { table := some [ row (ini 3) (ev 2) none none (.st 4) ]
      itable := some [⟨ev 5, none, some 2⟩] },
    { itable := some [⟨ev 5, none, some 1⟩] },
    { } ] [1]

theorem viaEntry_regular : viaEntry.Regular := Machine.regular_ofList (by decide +kernel)

/-- `A` (1) and composite `P` (2) with `S` (3) and `T` (4); `P` is left, and `S` goes to `T`,
on event 1.  The row on `P` is declared after the row that leads into `P`. -/
def outer : Machine := Machine.ofList
  [ { table := some
        [ row (ini 1) (ev 0) none none (.st 2),
          row (.st 2) (ev 1) none (some 1) (.st 1) ] },
    { },
    { table := some [ row (ini 3) (ev 1) none (some 2) (.st 4) ] },
    { }, { } ] [1]

theorem outer_regular : outer.Regular := Machine.regular_ofList (by decide +kernel)

/-- The same, but a second row into `P` follows the row on `P`, and the inner row is
guarded. -/
def inner : Machine := Machine.ofList
  [ { table := some
        [ row (ini 1) (ev 0) none none (.st 2),
          row (.st 2) (ev 1) none (some 1) (.st 1),
          row (.st 1) (ev 3) none none (.st 2) ] },
    { },
    { table := some [ row (ini 3) (ev 1) (some 100) (some 2) (.st 4) ] },
    { }, { } ] [1]

theorem inner_regular : inner.Regular := Machine.regular_ofList (by decide +kernel)

/-- `outer` with a guard on the row on `P`. -/
def outerGuarded : Machine := Machine.ofList
  [ { table := some
        [ row (ini 1) (ev 0) none none (.st 2),
          row (.st 2) (ev 1) (some 100) (some 1) (.st 1) ] },
    { },
    { table := some [ row (ini 3) (ev 1) none (some 2) (.st 4) ] },
    { }, { } ] [1]

/-- A region step that fires, by evaluation. -/
theorem exists_fired {M : Machine} {sm : Sem Nat (List Nat)} {fuel : Nat} {d : Dep}
    {w : List Nat} {ops : List (Op Nat)} {r : Nat} {e : EventTy} {pl : Nat}
    {f : SM Nat (List Nat) → SM Nat (List Nat) → Bool}
    (h : (Ex.run M sm fuel d w ops).any (fun s =>
      match regionStep M sm r e pl s with
      | .ok (.fired, _) s' => f s s'
      | _ => false) = true) :
    ∃ s pl' s', RunTo M sm d ops s ∧ Handles M sm r e pl s .fired pl' s' ∧ f s s' = true := by
  obtain ⟨s, h1, h2⟩ := Ex.exists_run _ _ h
  split at h2
  · rename_i pl' s' hs
    exact ⟨s, pl', s', h1, .event hs, h2⟩
  · cases h2

end Ex

/-- C51 is false: with a composite entered through an entry point only, its internal row
takes precedence over that of the state inside. -/
theorem C51_refuted : ¬ C51_claim ∧
    ∃ s pl' s', RunTo Ex.viaEntry (Ex.sem fun _ => true) 7 [.process (Ex.ev 0) 1] s ∧
      At Ex.viaEntry s 0 2 (.st 3) ∧
      Handles Ex.viaEntry (Ex.sem fun _ => true) 0 (Ex.ev 5) 1 s .fired pl' s' ∧
      s.world = [] ∧ s'.world = [2] := by
  obtain ⟨s, pl', s', hr, hh, hf⟩ := Ex.exists_fired (M := Ex.viaEntry)
    (sm := Ex.sem fun _ => true) (fuel := 5) (d := 7) (w := []) (ops := [.process (Ex.ev 0) 1])
    (r := 0) (e := Ex.ev 5) (pl := 1)
    (f := fun s s' => s.cur == [some (Ex.viaEntry.comb 2 (.st 3))] && s.world == [] &&
      s'.world == [2]) (by decide +kernel)
  simp only [Bool.and_eq_true, beq_iff_eq] at hf
  obtain ⟨⟨hcur, hw⟩, hw'⟩ := hf
  have ha : At Ex.viaEntry s 0 2 (.st 3) :=
    ⟨by decide +kernel, by decide +kernel, by rw [hcur]; rfl⟩
  refine ⟨fun hC => ?_, s, pl', s', hr, ha, hh, hw, hw'⟩
  obtain ⟨p, st, c, gs, hfire⟩ := fires_of_handles Ex.viaEntry_regular (.start hr) hh
  have hloc : p = 2 ∧ st = .st 3 := by
    obtain ⟨t, dd, l, x, pre, p1, p2, tr2, tr3, w1, w2, w3, s1, ha', _⟩ := hfire
    exact ha'.unique Ex.viaEntry_regular ha
  obtain ⟨rfl, rfl⟩ := hloc
  have hc := hfire.first Ex.viaEntry_regular
    (c0 := .row ⟨2, .ps false (.initial 3), .user 5, none, some 2, .ps false (.initial 3), true⟩)
    (rest := [.row ⟨2, .st 3, .user 5, none, some 1, .st 3, true⟩])
    (by decide +kernel) rfl rfl
  obtain ⟨f, hf, _⟩ := hC Ex.viaEntry Ex.viaEntry_regular
    (Machine.scoped_of_check (by decide +kernel)) _ _ _ _ (.start hr) _ _ _ _ _ _ _ _ _ hfire
    (by decide +kernel) (Or.inr ⟨Ex.row (Ex.ini 3) (Ex.ev 2) none none (.st 4), by decide +kernel,
      .sub .refl (r := Ex.row (Ex.ini 1) (Ex.ev 0) none none (.ps true (.entry 2 3)))
        (by decide +kernel) ⟨by decide +kernel, Or.inr ⟨true, Or.inl ⟨3, rfl⟩⟩⟩,
      Or.inr (Or.inl ⟨false, rfl⟩)⟩)
    [⟨Ex.ev 5, none, some 1⟩] [⟨Ex.ev 5, none, some 2⟩] ⟨Ex.ev 5, none, some 1⟩
    ⟨Ex.ev 5, none, some 2⟩ rfl rfl (by simp) (by decide) (by decide) rfl
    (by rw [hc]; exact ⟨_, rfl⟩)
  cases hf

/-- The hypotheses of `C51_partial` are met in the demo machine at `CB`, where the row of
`CB` is asked first and refuses: then the internal row of `Comp` fires. -/
example : Ex.demo.isComposite Ex.CB = false ∧ Ex.demo.Occurs Ex.Comp Ex.CB ∧
    (Ex.run Ex.demo (Ex.sem fun g => g != 103 && g != 100 && g != 102) 5 7 []
        [.process (Ex.ev 0) 1, .process (Ex.ev 2) 1]).any
      (fun s => match regionStep Ex.demo (Ex.sem fun g => g != 103 && g != 100 && g != 102) 0
          (Ex.ev 6) 1 s with
        | .ok (.fired, _) s' => s'.world == s.world ++ [103, 8]
        | _ => false) = true := by
  refine ⟨by decide +kernel, Or.inr ⟨Ex.row (.st Ex.CB) (Ex.ev 2) none (some 7) (.st Ex.CA),
    by decide +kernel, .sub .refl
    (r := Ex.row (Ex.ini Ex.Idle) (Ex.ev 0) none (some 1) (.st Ex.Comp)) (by decide +kernel)
    ⟨by decide +kernel, Or.inl rfl⟩, Or.inl rfl⟩, by decide +kernel⟩

/-- C52 is false: a row on a composite that is declared after the rows that lead into the
composite takes precedence over the rows inside. -/
theorem C52_refuted : ¬ C52_claim ∧
    ∃ s pl' s', RunTo Ex.outer (Ex.sem fun _ => true) 7 [.process (Ex.ev 0) 1] s ∧
      At Ex.outer s 0 2 (.st 3) ∧
      Handles Ex.outer (Ex.sem fun _ => true) 0 (Ex.ev 1) 1 s .fired pl' s' ∧
      s.world = [] ∧ s'.world = [1] := by
  obtain ⟨s, pl', s', hr, hh, hf⟩ := Ex.exists_fired (M := Ex.outer)
    (sm := Ex.sem fun _ => true) (fuel := 5) (d := 7) (w := []) (ops := [.process (Ex.ev 0) 1])
    (r := 0) (e := Ex.ev 1) (pl := 1)
    (f := fun s s' => s.cur == [some (Ex.outer.comb 2 (.st 3))] && s.world == [] &&
      s'.world == [1]) (by decide +kernel)
  simp only [Bool.and_eq_true, beq_iff_eq] at hf
  obtain ⟨⟨hcur, hw⟩, hw'⟩ := hf
  have ha : At Ex.outer s 0 2 (.st 3) :=
    ⟨by decide +kernel, by decide +kernel, by rw [hcur]; rfl⟩
  refine ⟨fun hC => ?_, s, pl', s', hr, ha, hh, hw, hw'⟩
  obtain ⟨p, st, c, gs, hfire⟩ := fires_of_handles Ex.outer_regular (.start hr) hh
  have hloc : p = 2 ∧ st = .st 3 := by
    obtain ⟨t, dd, l, x, pre, p1, p2, tr2, tr3, w1, w2, w3, s1, ha', _⟩ := hfire
    exact ha'.unique Ex.outer_regular ha
  obtain ⟨rfl, rfl⟩ := hloc
  have hc := hfire.first Ex.outer_regular
    (c0 := .exit ⟨0, .st 2, .user 1, none, some 1, .st 1, false⟩ 2)
    (rest := [.row ⟨2, .ps false (.initial 3), .user 1, none, some 2, .st 4, false⟩])
    (by decide +kernel) rfl rfl
  obtain ⟨f, hf, _⟩ := hC Ex.outer Ex.outer_regular
    (Machine.scoped_of_check (by decide +kernel)) _ _ _ _ (.start hr) _ _ _ _ _ _ _ _ _ hfire
    0 (Ex.row (.st 2) (Ex.ev 1) none (some 1) (.st 1))
    (Ex.row (Ex.ini 3) (Ex.ev 1) none (some 2) (.st 4))
    (by decide +kernel) rfl (by rw [hc]; exact rfl) (by decide +kernel) rfl (by decide +kernel)
  cases hf

/-- The hypotheses of `C52_partial` are met in `Ex.inner`: the inner row is asked first and
refuses, then the row on the composite fires. -/
example : Ex.inner.rows 0 = [ Ex.row (Ex.ini 1) (Ex.ev 0) none none (.st 2),
      Ex.row (.st 2) (Ex.ev 1) none (some 1) (.st 1) ] ++
      Ex.row (.st 1) (Ex.ev 3) none none (.st 2) :: [] ∧
    Ex.row (.st 2) (Ex.ev 1) none (some 1) (.st 1) ∉
      [Ex.row (.st 1) (Ex.ev 3) none none (.st 2)] ∧
    Ex.inner.Enters (.st 2) 2 ∧
    (Ex.run Ex.inner (Ex.sem fun _ => false) 5 7 [] [.process (Ex.ev 0) 1]).any
      (fun s => match regionStep Ex.inner (Ex.sem fun _ => false) 0 (Ex.ev 1) 1 s with
        | .ok (.fired, _) s' => s.cur == [some (Ex.inner.comb 2 (.st 3))] && s'.world == [100, 1]
        | _ => false) = true := by
  refine ⟨rfl, by decide, ⟨by decide, Or.inl rfl⟩, by decide +kernel⟩

/-- The hypotheses of `C50_priority` are met in the demo machine: in `Idle` the row declared
last is asked first and refuses, then the first one fires. -/
example : (Ex.run Ex.demo (Ex.sem fun g => g != 100) 5 7 [] []).any
      (fun s => match regionStep Ex.demo (Ex.sem fun g => g != 100) 0 (Ex.ev 0) 1 s with
        | .ok (.fired, _) s' => s'.world == [100, 1, 22, 24]
        | _ => false) = true ∧
    Ex.demo.Applies 0 (Ex.row (.st Ex.Idle) (Ex.ev 0) (some 100) (some 2) (.st Ex.Busy))
      0 (.st Ex.Idle) :=
  ⟨by decide +kernel, Or.inl rfl⟩

/-- The hypotheses of `C52_outer_first` are met in `Ex.outerGuarded`: the row on the composite
is asked first and refuses, then the inner row fires. -/
example : Ex.outerGuarded.Regular ∧
    Ex.outerGuarded.rows 0 = [Ex.row (Ex.ini 1) (Ex.ev 0) none none (.st 2)] ++
      Ex.row (.st 2) (Ex.ev 1) (some 100) (some 1) (.st 1) :: [] ∧
    ¬ Ex.outerGuarded.Enters (.st 1) 2 ∧
    (∀ p r, r ∈ Ex.outerGuarded.rows p → Ex.outerGuarded.Enters r.target 2 → p = 0) ∧
    Ex.outerGuarded.isComposite 2 = true ∧ Ex.outerGuarded.IsChild 2 (.st 3) ∧
    (Ex.run Ex.outerGuarded (Ex.sem fun _ => false) 5 7 [] [.process (Ex.ev 0) 1]).any
      (fun s => match regionStep Ex.outerGuarded (Ex.sem fun _ => false) 0 (Ex.ev 1) 1 s with
        | .ok (.fired, _) s' =>
          s.cur == [some (Ex.outerGuarded.comb 2 (.st 3))] && s'.world == [100, 2]
        | _ => false) = true := by
  refine ⟨Machine.regular_ofList (by decide +kernel), rfl, ?_, ?_, rfl, by decide +kernel,
    by decide +kernel⟩
  · rintro ⟨_, h | ⟨_, ⟨_, h⟩ | ⟨_, h⟩ | h⟩⟩ <;> cases h
  · rintro p r hr he
    rcases p with _ | _ | _ | _ | _ | p
    · rfl
    · cases hr
    · have : r = Ex.row (Ex.ini 3) (Ex.ev 1) none (some 2) (.st 4) := List.mem_singleton.1 hr
      rw [this] at he
      obtain ⟨_, h | ⟨_, ⟨_, h⟩ | ⟨_, h⟩ | h⟩⟩ := he <;> cases h
    · cases hr
    · cases hr
    · cases hr

end Hsm
