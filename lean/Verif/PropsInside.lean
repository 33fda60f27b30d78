import Verif.PropsPlay
import Verif.PropsDead

/-!
# C74: a composite works on the inside like a machine of its own

`M.alone Q` is the machine `sm<Q>`: the same declarations with composite `Q` as root.  While `M` is
inside `Q` and is sent events that only rows declared inside `Q` can take, it does what `sm<Q>` does.
-/

namespace Hsm
namespace Machine

/-! ## Specification -/

/-- The composite `Q` as a machine of its own. -/
def alone (M : Machine) (Q : Name) : Machine := { M with root := Q }

/-- The row is declared outside `Q` (and outside the composites in `Q`). -/
def Outer (M : Machine) (Q : Name) (t : XRow) : Prop := t.parent ∉ (M.alone Q).composites

instance (M : Machine) (Q : Name) (t : XRow) : Decidable (M.Outer Q t) := by
  unfold Outer; infer_instance

/-- How many outer rows lead into `Q`, as often as they are read. -/
def entrances (M : Machine) (Q : Name) : Nat :=
  (M.extRows.filter fun t => decide (M.Outer Q t ∧ M.leadsInto t.target = some Q)).length

/-- From outside, of the composites inside only `Q` itself is named. -/
structure Embeds (M : Machine) (Q : Name) : Prop where
  composite : M.isComposite Q = true
  root : M.root ∉ (M.alone Q).composites
  names : ∀ t ∈ M.extRows, M.Outer Q t → ∀ c ∈ (M.alone Q).composites,
    (M.leadsInto t.target = some c ∨ t.target = .st c ∨ plain t.source = .st c) → c = Q

/-- At location `l` event `e` is left to the inside of `Q`: no outer row takes it. -/
structure Own (M : Machine) (Q : Name) (e : EventTy) (l : Name × StTy) : Prop where
  rows : ∀ t ∈ M.extRows, M.Outer Q t → t.event = e → ¬ M.AppliesAt t l.1 l.2
  inner : ∀ t ∈ M.intRows, M.Outer Q t → t.event = e → sourceLoc t.parent t.source ≠ l

/-- All entrances name `Q` plainly, or `Q` has no internal rows for event `e`. -/
def EnteredPlainly (M : Machine) (Q : Name) (e : EventTy) : Prop :=
  (∀ t ∈ M.extRows, M.Outer Q t → M.leadsInto t.target = some Q → t.target = .st Q) ∨
    ∀ i ∈ (M.decl Q).itable.getD [], i.event ≠ e

/-! ## Reading order -/

section
variable {M : Machine} {Q : Name}

theorem reading_alone (n : Nat) : ∀ p, (M.alone Q).reading n p = M.reading n p := by
  induction n with
  | zero => intro p; rfl
  | succ n ih =>
    intro p
    rw [reading_succ, reading_succ]
    congr 1
    funext r
    unfold block
    show _ :: (M.leadsInto r.target).elim [] ((M.alone Q).reading n) = _
    rw [funext ih]

theorem extRows_alone : (M.alone Q).extRows = M.reading (M.rank Q + 1) Q := reading_alone _ _

theorem reading_enough (hr : M.Ranked) {n : Nat} {p : Name} (h : M.rank p < n) :
    M.reading n p = M.reading (M.rank p + 1) p := by
  rw [reading_eq, reading_eq]
  exact flattenF_mono hr _ _ p (by omega) (by omega)

/-- How many of the given rows are entrances. -/
def entering (M : Machine) (Q : Name) (l : List XRow) : Nat :=
  (l.filter fun t => decide (M.Outer Q t ∧ M.leadsInto t.target = some Q)).length

theorem entering_append (l l' : List XRow) :
    M.entering Q (l ++ l') = M.entering Q l + M.entering Q l' := by
  unfold entering; rw [List.filter_append, List.length_append]

theorem entering_alone : M.entering Q (M.alone Q).extRows = 0 := by
  unfold entering
  rw [List.length_eq_zero_iff, List.filter_eq_nil_iff]
  intro t ht h
  have h := (of_decide_eq_true h).1
  apply h
  unfold composites
  rw [List.mem_eraseDups]
  exact List.mem_map.2 ⟨t, ht, rfl⟩

/-- The rows in force, as they are read: outer rows, those that lead into `Q` being followed by the
rows of `Q` as a machine of its own. -/
theorem Embeds.induct (hM : M.Regular) (hE : M.Embeds Q) (X : Nat → List XRow → Prop) (h0 : X 0 [])
    (happ : ∀ k k' l l', X k l → X k' l' → X (k + k') (l ++ l'))
    (hrow : ∀ t ∈ M.extRows, M.Outer Q t → X 0 [t])
    (hent : ∀ t ∈ M.extRows, M.Outer Q t → M.leadsInto t.target = some Q →
      X 1 (t :: (M.alone Q).extRows)) : X (M.entrances Q) M.extRows := by
  have key : ∀ n p, M.InForce p → p ∉ (M.alone Q).composites → M.rank p < n →
      X (M.entering Q (M.reading n p)) (M.reading n p) := by
    intro n
    induction n with
    | zero => intro p _ _ h; omega
    | succ n ih =>
      intro p hp hout hn
      rw [reading_succ]
      have : ∀ rs : List Row, (∀ r ∈ rs, r ∈ M.rows p) →
          X (M.entering Q (rs.flatMap (M.block n p))) (rs.flatMap (M.block n p)) := by
        intro rs
        induction rs with
        | nil => intro _; exact h0
        | cons r rs ih' =>
          intro hrs
          rw [List.flatMap_cons, entering_append]
          refine happ _ _ _ _ ?_ (ih' fun r' hr' => hrs r' (List.mem_cons_of_mem _ hr'))
          have hr := hrs r List.mem_cons_self
          have htm : rowIn p r ∈ M.extRows := by
            rw [extRows_eq]
            exact (mem_flat_iff hM.ranked).2 ⟨p, r, hp, hr, rfl⟩
          have hto : M.Outer Q (rowIn p r) := hout
          have hcons : ∀ l : List XRow, rowIn p r :: l = [rowIn p r] ++ l := fun _ => rfl
          unfold block
          cases hl : M.leadsInto r.target with
          | none =>
            have : M.entering Q [rowIn p r] = 0 := by
              unfold entering
              rw [List.filter_cons_of_neg]
              · rfl
              · simp [rowIn, hl]
            show X (M.entering Q [rowIn p r]) [rowIn p r]
            rw [this]
            exact hrow _ htm hto
          | some c =>
            have hen : M.Enters r.target c := by
              rw [← subMachine_iff, ← leadsInto_eq]; exact hl
            have hrank := hM.nesting p r c hr hen
            by_cases hc : c = Q
            · subst hc
              have h1 : M.reading n c = (M.alone c).extRows := by
                rw [extRows_alone]
                exact reading_enough hM.ranked (by omega)
              have : M.entering c (rowIn p r :: M.reading n c) = 1 := by
                rw [hcons, entering_append, h1, entering_alone]
                unfold entering
                rw [List.filter_cons_of_pos]
                · rfl
                · simpa [rowIn, hl] using hto
              show X (M.entering c (rowIn p r :: M.reading n c)) (rowIn p r :: M.reading n c)
              rw [this, h1]
              exact hent _ htm hto hl
            · have hco : c ∉ (M.alone Q).composites := fun h => hc (hE.names _ htm hto c h (.inl hl))
              show X (M.entering Q (rowIn p r :: M.reading n c)) (rowIn p r :: M.reading n c)
              rw [hcons, entering_append]
              refine happ _ _ _ _ ?_ (ih c (.sub hp hr hen) hco (by omega))
              have : M.entering Q [rowIn p r] = 0 := by
                unfold entering
                rw [List.filter_cons_of_neg]
                · rfl
                · simp [rowIn, hl, hc]
              rw [this]
              exact hrow _ htm hto
      exact this _ fun _ h => h
  exact key _ _ .refl hE.root (by omega)

/-! ## Candidates -/

theorem reverse_copies {α : Type} (k : Nat) (l : List α) :
    (List.replicate k l).flatten.reverse = (List.replicate k l.reverse).flatten := by
  rw [List.reverse_flatten, List.map_replicate, List.reverse_replicate]

/-- The external candidates. -/
theorem extPart_alone (hM : M.Regular) (hE : M.Embeds Q) {e : EventTy} {p : Name} {st : StTy}
    (hO : M.Own Q e (p, st)) :
    (M.extRows.reverse.filter (fun t => t.event = e)).flatMap (M.extCands p st) =
      (List.replicate (M.entrances Q)
        (((M.alone Q).extRows.reverse.filter (fun t => t.event = e)).flatMap
          ((M.alone Q).extCands p st))).flatten := by
  rw [reverse_collect, reverse_collect, ← reverse_copies]
  congr 1
  have hnil : ∀ t ∈ M.extRows, M.Outer Q t →
      (if decide (t.event = e) = true then (M.extCands p st t).reverse else []) = [] := by
    intro t ht ho
    by_cases he : t.event = e
    · have := hO.rows t ht ho he
      unfold AppliesAt at this
      rw [not_or] at this
      simp only [he, decide_true, if_true]
      unfold extCands
      rw [if_neg this.1, if_neg this.2]
      rfl
    · simp [he]
  refine hE.induct hM (fun k l => (l.flatMap fun t =>
    if decide (t.event = e) = true then (M.extCands p st t).reverse else []) =
      (List.replicate k (((M.alone Q).extRows.flatMap fun t =>
        if decide (t.event = e) = true then (M.extCands p st t).reverse else []))).flatten)
    rfl ?_ ?_ ?_
  · intro k k' l l' h h'
    rw [List.flatMap_append, h, h', List.replicate_add, List.flatten_append]
  · intro t ht ho
    rw [List.flatMap_cons, hnil t ht ho]
    rfl
  · intro t ht ho _
    rw [List.flatMap_cons, hnil t ht ho]
    simp

/-- Deferral. -/
theorem deferPart_alone (hM : M.Regular) (hE : M.Embeds Q) {e : EventTy} {p : Name} {st : StTy}
    (hp : p ∈ (M.alone Q).composites) :
    (M.extRows.map (M.deferCount e p st)).sum =
      M.entrances Q * ((M.alone Q).extRows.map ((M.alone Q).deferCount e p st)).sum := by
  have hnil : ∀ t, M.Outer Q t → M.deferCount e p st t = 0 := by
    intro t ho
    unfold deferCount
    split
    · rename_i h
      unfold defers
      unfold sourceLoc at h
      split at h
      · cases h; exact absurd hp ho
      · cases h; exact absurd hp ho
      all_goals (rename_i hs; rw [hs]; rfl)
    · rfl
  refine hE.induct hM (fun k l => (l.map (M.deferCount e p st)).sum =
    k * ((M.alone Q).extRows.map (M.deferCount e p st)).sum) (by simp) ?_ ?_ ?_
  · intro k k' l l' h h'
    rw [List.map_append, List.sum_append, h, h', Nat.add_mul]
  · intro t _ ho
    simp [hnil t ho]
  · intro t _ ho _
    rw [List.map_cons, List.sum_cons, hnil t ho]
    simp

/-- Collecting without repetition does not depend on repeated places. -/
theorem SameOnce.uniq_flatMap {α β : Type} [DecidableEq α] [DecidableEq β] (G : β → List α) :
    ∀ l : List β, SameOnce ((uniq l).flatMap G) (l.flatMap G) := by
  suffices ∀ l : List β, SameOnce ((uniq l.reverse).flatMap G) (l.reverse.flatMap G) by
    intro l; simpa using this l.reverse
  intro l
  induction l with
  | nil => exact .refl _
  | cons a l ih =>
    rw [List.reverse_cons, uniq_append, List.flatMap_append, List.flatMap_append]
    by_cases ha : a ∈ l.reverse
    · have h1 : (uniq [a]).filter (fun y => decide (y ∉ l.reverse)) = [] := by
        rw [List.filter_eq_nil_iff]
        intro y hy
        have : y = a := by simpa using mem_uniq.1 hy
        subst this
        simpa using ha
      rw [h1]
      refine SameOnce.trans (by simpa using ih) ?_
      have := SameOnce.skip (a := l.reverse.flatMap G) (b := [a].flatMap G) (by
        intro x hx
        have : x ∈ G a := by simpa using hx
        exact List.mem_flatMap.2 ⟨a, ha, this⟩)
      exact fun x c => (this x c).symm
    · have h1 : (uniq [a]).filter (fun y => decide (y ∉ l.reverse)) = [a] := by
        rw [uniq_of_nodup (by simp)]
        rw [List.filter_cons_of_pos (by simpa using ha)]
        rfl
      rw [h1]
      exact ih.append (.refl _)

/-- The parents of a state's internal rows. -/
theorem innerRows_parent {x : Name × StTy} {i : XRow} (h : i ∈ M.innerRows x) :
    ∃ s, x.2 = .st s ∧ i.parent = if M.isComposite s then s else x.1 := by
  obtain ⟨x1, x2⟩ := x
  cases x2 with
  | ps => cases h
  | st s =>
    refine ⟨s, rfl, ?_⟩
    unfold innerRows at h
    dsimp only at h
    obtain ⟨j, _, h⟩ := List.mem_flatMap.1 h
    obtain ⟨y, hy, rfl⟩ := List.mem_map.1 h
    split at hy
    · rename_i hc
      obtain ⟨c, _, rfl⟩ := List.mem_map.1 hy
      rw [if_pos hc]
    · rename_i hc
      have : y = (x1, .st s) := by simpa using hy
      subst this
      rw [if_neg hc]

theorem innerRows_event {x : Name × StTy} {s : Name} (hx : x.2 = .st s) {i : XRow}
    (h : i ∈ M.innerRows x) : ∃ j ∈ (M.decl s).itable.getD [], i.event = j.event := by
  obtain ⟨x1, x2⟩ := x
  cases hx
  unfold innerRows at h
  obtain ⟨j, hj, h⟩ := List.mem_flatMap.1 h
  obtain ⟨y, _, rfl⟩ := List.mem_map.1 h
  exact ⟨j, hj, rfl⟩

theorem innerRows_composite {p p' s : Name} (h : M.isComposite s = true) :
    M.innerRows (p, .st s) = M.innerRows (p', .st s) := by
  unfold innerRows
  simp [h]

/-- The internal candidates. -/
theorem intPart_alone (hM : M.Regular) (hE : M.Embeds Q) {e : EventTy} {p : Name} {st : StTy}
    (hk : 0 < M.entrances Q) (hO : M.Own Q e (p, st)) (hQ : M.EnteredPlainly Q e) :
    (M.intRows.reverse.filter (fun t => t.event = e)).flatMap (intCands p st) =
      ((M.alone Q).intRows.reverse.filter (fun t => t.event = e)).flatMap (intCands p st) := by
  rw [intCands_at, intCands_at]
  congr 2
  show List.eraseDups (M.places.flatMap fun x => (M.innerRows x).filter _) =
    List.eraseDups ((M.alone Q).places.flatMap fun x => (M.innerRows x).filter _)
  generalize hG : (fun x => (M.innerRows x).filter
    (fun t => decide (t.event = e ∧ sourceLoc t.parent t.source = (p, st)))) = G
  have hplaces : ∀ l : List (Name × StTy), (l.eraseDups.flatMap G).eraseDups =
      (l.flatMap G).eraseDups := by
    intro l
    rw [← uniq_eq_eraseDups l]
    exact (SameOnce.uniq_flatMap G l).eraseDups
  unfold places
  rw [hplaces, hplaces]
  -- what a place outside contributes
  have hout : ∀ x ∈ M.places, x.1 ∉ (M.alone Q).composites →
      (∀ c ∈ (M.alone Q).composites, x.2 = .st c → c = Q) → G x = [] ∨ x.2 = .st Q ∧ G x = G (Q, .st Q) := by
    intro x hx ho hn
    by_cases hxQ : x.2 = .st Q
    · right
      refine ⟨hxQ, ?_⟩
      obtain ⟨x1, x2⟩ := x
      cases hxQ
      rw [← hG]
      dsimp only
      rw [innerRows_composite hE.composite]
    · left
      rw [← hG]
      dsimp only
      rw [List.filter_eq_nil_iff]
      intro i hi h
      obtain ⟨he, hl⟩ := of_decide_eq_true h
      obtain ⟨s, hs, hpar⟩ := innerRows_parent hi
      refine hO.inner i ?_ ?_ he hl
      · unfold intRows
        rw [List.mem_eraseDups]
        exact List.mem_flatMap.2 ⟨x, hx, hi⟩
      · unfold Outer
        rw [hpar]
        split
        · intro h
          have := hn s h hs
          subst this
          exact hxQ hs
        · exact ho
  have hrootG : G (M.root, .st M.root) = [] := by
    rcases hout (M.root, .st M.root) (by unfold places; rw [List.mem_eraseDups]; simp) hE.root
      (by intro c hc h; cases h; exact absurd hc hE.root) with h | ⟨h, _⟩
    · exact h
    · -- the root is not `Q`: `Q` has an entrance
      have hQr : M.root = Q := by cases h; rfl
      obtain ⟨t, ht⟩ := List.exists_mem_of_ne_nil _ (by
        intro h0
        unfold entrances at hk
        rw [h0] at hk
        simp at hk : M.extRows.filter (fun t => decide (M.Outer Q t ∧ M.leadsInto t.target = some Q)) ≠ [])
      obtain ⟨htm, ht⟩ := List.mem_filter.1 ht
      obtain ⟨_, hl⟩ := of_decide_eq_true ht
      rw [extRows_eq, mem_flat_iff hM.ranked] at htm
      obtain ⟨q, r, hq, hr, rfl⟩ := htm
      have hen : M.Enters r.target Q := by
        rw [← subMachine_iff, ← leadsInto_eq]; exact hl
      have h1 := hM.nesting q r Q hr hen
      have h2 : ∀ q, M.InForce q → M.rank q ≤ M.rank M.root := by
        intro q hq
        induction hq with
        | refl => exact Nat.le_refl _
        | sub _ hr he ih =>
          have := hM.nesting _ _ _ hr he
          omega
      have := h2 q hq
      rw [hQr] at this
      omega
  have hmem : ∀ t ∈ M.extRows, ∀ x ∈ mentions t, x ∈ M.places := by
    intro t ht x hx
    unfold places
    rw [List.mem_eraseDups]
    exact List.mem_cons_of_mem _ (List.mem_flatMap.2 ⟨t, ht, hx⟩)
  have hsrc : ∀ t ∈ M.extRows, M.Outer Q t → ∀ x ∈ mentions t,
      G x = [] ∨ x.2 = .st Q ∧ G x = G (Q, .st Q) := by
    intro t ht ho x hx
    have hx' : x = (t.parent, plain t.source) ∨ x = (t.parent, t.target) := by
      simpa [mentions] using hx
    refine hout x (hmem t ht x hx) ?_ ?_
    · rcases hx' with rfl | rfl <;> exact ho
    · intro c hc h
      rcases hx' with rfl | rfl
      · exact hE.names t ht ho c hc (.inr (.inr h))
      · exact hE.names t ht ho c hc (.inr (.inl h))
  rw [List.flatMap_cons, List.flatMap_cons, hrootG, List.nil_append]
  show List.eraseDups _ = List.eraseDups (G (Q, .st Q) ++ _)
  refine SameOnce.eraseDups ?_
  generalize hg : G (Q, .st Q) = g
  rw [hg] at hsrc
  have hB : ∀ l : List XRow, (l.flatMap fun t => [(t.parent, plain t.source), (t.parent, t.target)]).flatMap G =
      l.flatMap fun t => (mentions t).flatMap G := by
    intro l; rw [List.flatMap_assoc]; rfl
  rw [hB, hB]
  generalize hBB : ((M.alone Q).extRows.flatMap fun t => (mentions t).flatMap G) = B
  have hsym : ∀ {l l' : List XRow}, SameOnce l l' → SameOnce l' l := fun h a c => (h a c).symm
  have hgg : SameOnce (g ++ g) g := SameOnce.skip fun _ h => h
  have hggB : SameOnce (g ++ (g ++ B)) (g ++ B) := by
    rw [← List.append_assoc]; exact hgg.append (.refl _)
  have key := hE.induct hM (fun k l =>
    (0 < k → SameOnce (l.flatMap fun t => (mentions t).flatMap G) (g ++ B)) ∧
    (k = 0 → (l.flatMap fun t => (mentions t).flatMap G) = [] ∨
      SameOnce (l.flatMap fun t => (mentions t).flatMap G) g)) ⟨fun h => absurd h (by omega), fun _ => .inl rfl⟩
    (by
      intro k k' l l' h h'
      rw [List.flatMap_append]
      generalize (l.flatMap fun t => (mentions t).flatMap G) = L at h ⊢
      generalize (l'.flatMap fun t => (mentions t).flatMap G) = L' at h' ⊢
      constructor
      · intro hpos
        rcases Nat.eq_zero_or_pos k with hk0 | hk0
        · have h' := h'.1 (by omega)
          rcases h.2 hk0 with h | h
          · rw [h]; exact h'
          · exact (h.append h').trans hggB
        · refine ((h.1 hk0).append (.refl L')).trans ?_
          rcases Nat.eq_zero_or_pos k' with hk' | hk'
          · rcases h'.2 hk' with h' | h'
            · rw [h', List.append_nil]; exact .refl _
            · exact ((SameOnce.refl _).append h').trans (SameOnce.skip fun x hx => List.mem_append_left _ hx)
          · exact ((SameOnce.refl _).append (h'.1 hk')).trans (SameOnce.skip fun x hx => hx)
      · intro hz
        rcases h.2 (by omega) with h | h
        · rw [h]; exact h'.2 (by omega)
        · right
          rcases h'.2 (by omega) with h' | h'
          · rw [h', List.append_nil]; exact h
          · exact (h.append h').trans hgg)
    (by
      intro t ht ho
      refine ⟨fun h => absurd h (by omega), fun _ => ?_⟩
      rw [List.flatMap_cons, List.flatMap_nil, List.append_nil]
      have h1 := hsrc t ht ho (t.parent, plain t.source) (by simp [mentions])
      have h2 := hsrc t ht ho (t.parent, t.target) (by simp [mentions])
      unfold mentions
      rw [List.flatMap_cons, List.flatMap_cons, List.flatMap_nil, List.append_nil]
      rcases h1 with h1 | ⟨_, h1⟩ <;> rcases h2 with h2 | ⟨_, h2⟩ <;> rw [h1, h2]
      · exact .inl rfl
      · exact .inr (.refl _)
      · rw [List.append_nil]; exact .inr (.refl _)
      · exact .inr hgg)
    (by
      intro t ht ho hl
      refine ⟨fun _ => ?_, fun h => absurd h (by omega)⟩
      rw [List.flatMap_cons, hBB]
      have h1 := hsrc t ht ho (t.parent, plain t.source) (by simp [mentions])
      have h2 := hsrc t ht ho (t.parent, t.target) (by simp [mentions])
      have h3 : G (t.parent, t.target) = g := by
        rcases hQ with hQ | hQ
        · rw [hQ t ht ho hl, ← hg, ← hG]
          dsimp only
          rw [innerRows_composite hE.composite]
        · have hg0 : g = [] := by
            rw [← hg, ← hG]
            dsimp only
            rw [List.filter_eq_nil_iff]
            intro i hi h
            obtain ⟨j, hj, he⟩ := innerRows_event (x := (Q, .st Q)) rfl hi
            exact hQ j hj (he ▸ (of_decide_eq_true h).1)
          rcases h2 with h2 | ⟨_, h2⟩
          · rw [h2, hg0]
          · exact h2
      unfold mentions
      rw [List.flatMap_cons, List.flatMap_cons, List.flatMap_nil, List.append_nil, h3]
      rcases h1 with h1 | ⟨_, h1⟩ <;> rw [h1]
      · exact .refl _
      · exact hgg.append (.refl _))
  exact key.1 hk

end
end Machine

section
variable {M : Machine} {Q : Name}

/-- C74: inside `Q` the candidates for an event that no outer row takes are those of `Q` as a machine of
its own, the external ones as many times as `Q` has entrances. -/
theorem C74_candidates (hM : M.Regular) (hE : M.Embeds Q) (hk : 0 < M.entrances Q) {e : EventTy}
    {l : Name × StTy} (hl : l.1 ∈ (M.alone Q).composites) (hO : M.Own Q e l)
    (hQ : M.EnteredPlainly Q e) :
    ∃ n A I, (M.alone Q).cands e l.1 l.2 = List.replicate n Cand.defer ++ A ++ I ∧
      M.cands e l.1 l.2 = List.replicate (M.entrances Q * n) Cand.defer ++
        (List.replicate (M.entrances Q) A).flatten ++ I := by
  refine ⟨_, _, _, rfl, ?_⟩
  unfold Machine.cands
  rw [Machine.deferPart_alone hM hE hl, Machine.extPart_alone hM hE hO, Machine.intPart_alone hM hE hk hO hQ]

/-- C74: with one entrance they are the same. -/
theorem C74_once (hM : M.Regular) (hE : M.Embeds Q) (hk : M.entrances Q = 1) {e : EventTy}
    {l : Name × StTy} (hl : l.1 ∈ (M.alone Q).composites) (hO : M.Own Q e l)
    (hQ : M.EnteredPlainly Q e) : M.cands e l.1 l.2 = (M.alone Q).cands e l.1 l.2 := by
  obtain ⟨n, A, I, h1, h2⟩ := C74_candidates hM hE (by omega) hl hO hQ
  rw [h1, h2, hk]
  simp

/-! ## Arbitrary callbacks: the same runs -/

/-- Without candidates the unexpected-event handlers are called: `Q`'s when it is alone, the root's when
it is inside.  So there has to be a candidate, or the handlers have to agree. -/
def Machine.Covered (M : Machine) (Q : Name) (e : EventTy) (l : Name × StTy) : Prop :=
  (M.alone Q).cands e l.1 l.2 ≠ [] ∨ (M.decl M.root).handler = (M.decl Q).handler

/-- Event `e` is left to the inside of `Q` wherever the machine is in there. -/
structure Machine.Inward (M : Machine) (Q : Name) (e : EventTy) : Prop where
  plainly : M.EnteredPlainly Q e
  own : ∀ p ∈ (M.alone Q).composites, ∀ st ∈ (M.alone Q).states, M.Own Q e (p, st)
  covered : ∀ p ∈ (M.alone Q).composites, ∀ st ∈ (M.alone Q).states, M.Covered Q e (p, st)

variable {P W : Type} {sem : Sem P W}

theorem playCands_alone (e : EventTy) (l : Name × StTy) : ∀ (cs : List (Dep × Cand)) (p : P) (w : W),
    (M.alone Q).playCands sem e l cs p w = M.playCands sem e l cs p w := by
  intro cs
  induction cs with
  | nil => intro p w; rfl
  | cons x cs ih =>
    intro p w
    obtain ⟨d, c⟩ := x
    unfold Machine.playCands
    simp only [ih]
    rfl

/-- The interpreters agree. -/
theorem play_alone (hM : M.Regular) (hE : M.Embeds Q) (hk : M.entrances Q = 1) {e : EventTy}
    (hI : M.Inward Q e) {l : Name × StTy} (h1 : l.1 ∈ (M.alone Q).composites)
    (h2 : l.2 ∈ (M.alone Q).states) (deps : List Dep) (d : Dep) (p : P) (w : W) :
    M.play sem e l deps d p w = (M.alone Q).play sem e l deps d p w := by
  unfold Machine.play
  rw [C74_once hM hE hk h1 (hI.own l.1 h1 l.2 h2) hI.plainly, playCands_alone]
  by_cases hc : (M.alone Q).cands e l.1 l.2 = []
  · rw [if_pos hc, if_pos hc]
    rcases hI.covered l.1 h1 l.2 h2 with h | h
    · exact absurd hc h
    · unfold Machine.playHandler
      rw [h]
      rfl
  · rw [if_neg hc, if_neg hc]

/-- C74: one event.  The machine inside `Q` and `Q` as a machine of its own, at the same location and
in the same world, give the same answer (or the same exception, or the same undefined callback), go to
the same location, leave the same world and call the same callbacks with the same arguments. -/
theorem C74_event (hM : M.Regular) (hS : M.Scoped) (hP : M.Plain) (hM' : (M.alone Q).Regular)
    (hS' : (M.alone Q).Scoped) (hP' : (M.alone Q).Plain) (hp : Populated M sem) (hE : M.Embeds Q)
    (hk : M.entrances Q = 1) {e : EventTy} (hI : M.Inward Q e) (he : e ∈ M.events)
    (he' : e ∈ (M.alone Q).events) {d : Dep} {ops ops' : List (Op P)} {s s' : SM P W}
    (h : RunTo M sem d ops s) (h' : RunTo (M.alone Q) sem d ops' s')
    (hd : depsOf d ops = depsOf d ops') (hw : s.world = s'.world) {l : Name × StTy}
    (ha : At M s 0 l.1 l.2) (ha' : At (M.alone Q) s' 0 l.1 l.2) (pl : P) (fuel fuel' : Nat) :
    ∃ q, Shows M s (· = true) (· = false) (processEvent M sem fuel e pl s) q ∧
      Shows (M.alone Q) s' (· = true) (· = false) (processEvent (M.alone Q) sem fuel' e pl s') q := by
  refine ⟨_, C73_event hM hS hP hp h ha he pl fuel, ?_⟩
  rw [play_alone hM hE hk hI ha'.1 ha'.2.1, hd, hw]
  exact C73_event hM' hS' hP' hp h' ha' he' pl fuel'

/-- The claim for events and machines that meet a further condition. -/
def C74_claim (Cond : Machine → Name → EventTy → Prop) : Prop :=
  ∀ (M : Machine) (Q : Name) (sem : Sem Nat Nat), M.Regular → M.Scoped → M.Plain → (M.alone Q).Regular →
    (M.alone Q).Scoped → (M.alone Q).Plain → Populated M sem → M.Embeds Q → 0 < M.entrances Q →
    ∀ e, Cond M Q e → e ∈ M.events → e ∈ (M.alone Q).events → ∀ (d : Dep) (ops ops' : List (Op Nat))
      (s s' : SM Nat Nat), RunTo M sem d ops s → RunTo (M.alone Q) sem d ops' s' →
      depsOf d ops = depsOf d ops' → s.world = s'.world → ∀ l : Name × StTy, At M s 0 l.1 l.2 →
      At (M.alone Q) s' 0 l.1 l.2 → ∀ (pl fuel : Nat),
      ∃ q, Shows M s (· = true) (· = false) (processEvent M sem fuel e pl s) q ∧
        Shows (M.alone Q) s' (· = true) (· = false) (processEvent (M.alone Q) sem fuel e pl s') q

theorem C74_partial : C74_claim fun M Q e => M.entrances Q = 1 ∧ M.Inward Q e :=
  fun _ _ _ hM hS hP hM' hS' hP' hp hE _ _ hc he he' _ _ _ _ _ h h' hd hw _ ha ha' pl fuel =>
    C74_event hM hS hP hM' hS' hP' hp hE hc.1 hc.2 he he' h h' hd hw ha ha' pl fuel fuel

/-- The interpreter's account of an event that does nothing undefined determines location and world. -/
theorem Shows.unique (hM : M.Regular) {α : Type} {s : SM P W} {y n : α → Prop} {r : Res (SM P W) α}
    {q q' : Played P W} (h : Shows M s y n r q) (h' : Shows M s y n r q') (hq : q'.reply ≠ .undefined) :
    q.loc = q'.loc ∧ q.world = q'.world ∧ q.calls = q'.calls := by
  have hb : ∀ t, Becomes M s q t → Becomes M s q' t →
      q.loc = q'.loc ∧ q.world = q'.world ∧ q.calls = q'.calls := by
    intro t h1 h2
    obtain ⟨e1, e2⟩ := At.unique hM h1.loc h2.loc
    refine ⟨Prod.ext e1 e2, h1.world.symm.trans h2.world, ?_⟩
    exact List.append_cancel_left (h1.trace.symm.trans h2.trace)
  have ex : ∀ q : Played P W, Shows M s y n r q → r = .ub .callback ∧ q.reply = .undefined ∨
      ∃ t, ((∃ a, r = .ok a t) ∨ ∃ x, r = .throw x t) ∧ Becomes M s q t := by
    intro q h
    unfold Shows at h
    cases hr : q.reply <;> rw [hr] at h
    · obtain ⟨a, t, h1, _, h2⟩ := h; exact .inr ⟨t, .inl ⟨a, h1⟩, h2⟩
    · obtain ⟨a, t, h1, _, h2⟩ := h; exact .inr ⟨t, .inl ⟨a, h1⟩, h2⟩
    · obtain ⟨t, h1, h2⟩ := h; exact .inr ⟨t, .inr ⟨_, h1⟩, h2⟩
    · exact .inl ⟨h, rfl⟩
  rcases ex q' h' with ⟨_, h'⟩ | ⟨t, h1, hb1⟩
  · exact absurd h' hq
  · rcases ex q h with ⟨h, _⟩ | ⟨t', h2, hb2⟩
    · rcases h1 with ⟨a, h1⟩ | ⟨a, h1⟩ <;> rw [h] at h1 <;> cases h1
    · have : t = t' := by
        rcases h1 with ⟨a, h1⟩ | ⟨a, h1⟩ <;> rcases h2 with ⟨a', h2⟩ | ⟨a', h2⟩ <;> rw [h1] at h2 <;>
          cases h2 <;> rfl
      subst this
      exact hb t hb2 hb1

/-- C74: any number of events. -/
theorem C74_runs (hM : M.Regular) (hS : M.Scoped) (hP : M.Plain) (hM' : (M.alone Q).Regular)
    (hS' : (M.alone Q).Scoped) (hP' : (M.alone Q).Plain) (hp : Populated M sem) (hE : M.Embeds Q)
    (hk : M.entrances Q = 1) (fuel fuel' : Nat) {d : Dep} : ∀ (evs : List (EventTy × P)),
    (∀ x ∈ evs, M.Inward Q x.1 ∧ x.1 ∈ M.events ∧ x.1 ∈ (M.alone Q).events) →
    ∀ (ops ops' : List (Op P)) (s s' : SM P W), RunTo M sem d ops s → RunTo (M.alone Q) sem d ops' s' →
    depsOf d ops = depsOf d ops' → s.world = s'.world → ∀ l : Name × StTy, At M s 0 l.1 l.2 →
    At (M.alone Q) s' 0 l.1 l.2 →
    match runAll (step M sem fuel) (sends evs) s, runAll (step (M.alone Q) sem fuel') (sends evs) s' with
    | some t, some t' => ∃ (l' : Name × StTy) (calls : List (Call P)),
        At M t 0 l'.1 l'.2 ∧ At (M.alone Q) t' 0 l'.1 l'.2 ∧ t.world = t'.world ∧
        t.trace.map Call.bare = s.trace.map Call.bare ++ calls ∧
        t'.trace.map Call.bare = s'.trace.map Call.bare ++ calls
    | none, none => True
    | _, _ => False := by
  intro evs
  induction evs with
  | nil =>
    intro _ ops ops' s s' _ _ _ hw l ha ha'
    exact ⟨l, [], ha, ha', hw, by simp, by simp⟩
  | cons x evs ih =>
    intro hev ops ops' s s' h h' hd hw l ha ha'
    obtain ⟨hI, he, he'⟩ := hev x List.mem_cons_self
    have hop : OpOk M (.process x.1 x.2) := opOk_event he
    have hop' : OpOk (M.alone Q) (.process x.1 x.2) := opOk_event he'
    have heq : M.playOp sem d (depsOf d ops) l s.world (.process x.1 x.2) =
        (M.alone Q).playOp sem d (depsOf d ops') l s'.world (.process x.1 x.2) := by
      simp only [Machine.playOp, play_alone hM hE hk hI ha'.1 ha'.2.1, hd, hw]
    show match runAll (step M sem fuel) (.process x.1 x.2 :: sends evs) s,
      runAll (step (M.alone Q) sem fuel') (.process x.1 x.2 :: sends evs) s' with
      | some t, some t' => _ | none, none => True | _, _ => False
    rcases step_play hM hS hP hp h ha hop fuel with ⟨h1, h2⟩ | ⟨l1, w1, c1, t1, h1, h2, hat, hwt, htr⟩
    · rcases step_play hM' hS' hP' hp h' ha' hop' fuel' with ⟨h1', h2'⟩ |
        ⟨l1', w1', c1', t1', h1', h2', hat', hwt', htr'⟩
      · rw [runAll, h2, runAll, h2']
        trivial
      · rw [heq, h1'] at h1; cases h1
    · rcases step_play hM' hS' hP' hp h' ha' hop' fuel' with ⟨h1', h2'⟩ |
        ⟨l1', w1', c1', t1', h1', h2', hat', hwt', htr'⟩
      · rw [heq, h1'] at h1; cases h1
      · rw [heq, h1'] at h1
        simp only [Option.some.injEq, Prod.mk.injEq] at h1
        obtain ⟨hd1, rfl, rfl, rfl⟩ := h1
        have hrun : RunTo M sem d (ops ++ [.process x.1 x.2]) t1 ∧
            runAll (step M sem fuel) (.process x.1 x.2 :: sends evs) s =
              runAll (step M sem fuel) (sends evs) t1 := by
          rcases h2 with ⟨b, hb⟩ | ⟨k, hx⟩
          · exact ⟨.ok h hop hb, by rw [runAll, hb]⟩
          · exact ⟨.throw h hop hx, by rw [runAll, hx]⟩
        have hrun' : RunTo (M.alone Q) sem d (ops' ++ [.process x.1 x.2]) t1' ∧
            runAll (step (M.alone Q) sem fuel') (.process x.1 x.2 :: sends evs) s' =
              runAll (step (M.alone Q) sem fuel') (sends evs) t1' := by
          rcases h2' with ⟨b, hb⟩ | ⟨k, hx⟩
          · exact ⟨.ok h' hop' hb, by rw [runAll, hb]⟩
          · exact ⟨.throw h' hop' hx, by rw [runAll, hx]⟩
        rw [hrun.2, hrun'.2]
        have := ih (fun y hy => hev y (List.mem_cons_of_mem _ hy)) _ _ t1 t1' hrun.1 hrun'.1 hd1.symm
          (hwt.trans hwt'.symm) _ hat hat'
        generalize runAll (step M sem fuel) (sends evs) t1 = r at this ⊢
        generalize runAll (step (M.alone Q) sem fuel') (sends evs) t1' = r' at this ⊢
        cases r with
        | none => cases r' with
          | none => trivial
          | some => exact this
        | some t => cases r' with
          | none => exact this
          | some t' =>
            obtain ⟨l', calls, g1, g2, g3, g4, g5⟩ := this
            refine ⟨l', c1' ++ calls, g1, g2, g3, ?_, ?_⟩
            · rw [g4, htr, List.append_assoc]
            · rw [g5, htr', List.append_assoc]

/-- C74: a machine that has just come to the initial state of `Q` goes on like a newly constructed
`sm<Q>`: same callbacks with the same arguments, same world, same location after any number of events. -/
theorem C74_entered (hM : M.Regular) (hS : M.Scoped) (hP : M.Plain) (hM' : (M.alone Q).Regular)
    (hS' : (M.alone Q).Scoped) (hP' : (M.alone Q).Plain) (hp : Populated M sem) (hE : M.Embeds Q)
    (hk : M.entrances Q = 1) (fuel fuel' : Nat) {d : Dep} {before : List (EventTy × P)} {s s' : SM P W}
    (h : RunTo M sem d (sends before) s) {i : Name} (hi : (M.declaredInitials Q).head? = some i)
    (ha : At M s 0 Q (.st i)) (h' : construct (M.alone Q) d s.world = .ok s')
    (evs : List (EventTy × P))
    (hev : ∀ x ∈ evs, M.Inward Q x.1 ∧ x.1 ∈ M.events ∧ x.1 ∈ (M.alone Q).events) :
    match runAll (step M sem fuel) (sends evs) s, runAll (step (M.alone Q) sem fuel') (sends evs) s' with
    | some t, some t' => ∃ (l : Name × StTy) (calls : List (Call P)),
        At M t 0 l.1 l.2 ∧ At (M.alone Q) t' 0 l.1 l.2 ∧ t.world = t'.world ∧
        t.trace.map Call.bare = s.trace.map Call.bare ++ calls ∧ t'.trace.map Call.bare = calls
    | none, none => True
    | _, _ => False := by
  obtain ⟨h1, _, _, h2, _, h3, _⟩ := C46_initial hM' h'
  rw [List.head?_eq_getElem?] at hi
  have key := C74_runs hM hS hP hM' hS' hP' hp hE hk fuel fuel' evs hev (sends before) [] s s' h
    (.init h') (depsOf_sends d before) h3.symm (Q, .st i) ha (h1 0 i hi)
  rw [h2] at key
  exact key

/-! ## Steady callbacks: any number of entrances -/

variable {yes : Cb → Bool}

/-- Trying two lists of rows one after the other. -/
theorem tryRows_append (l : Name × StTy) (ts : List XRow) :
    (∀ us, M.tryRows yes l (ts ++ us) = M.tryRows yes l ts) ∨
    (∀ us, M.tryRows yes l (ts ++ us) = ((M.tryRows yes l us).1, (M.tryRows yes l us).2.1,
      ts.filterMap (·.guard) ++ (M.tryRows yes l us).2.2)) := by
  induction ts with
  | nil => exact .inr fun us => rfl
  | cons t ts ih =>
    cases hg : t.guard with
    | none => left; intro us; simp [Machine.tryRows, hg]
    | some g =>
      cases hy : yes g with
      | true => left; intro us; simp [Machine.tryRows, hg, hy]
      | false =>
        rcases ih with ih | ih
        · left; intro us; simp [Machine.tryRows, hg, hy, ih us]
        · right; intro us; simp [Machine.tryRows, hg, hy, ih us]

theorem tryRows_copies (l : Name × StTy) (A I : List XRow) : ∀ k,
    (M.tryRows yes l ((List.replicate (k + 1) A).flatten ++ I)).1 = (M.tryRows yes l (A ++ I)).1 ∧
    (M.tryRows yes l ((List.replicate (k + 1) A).flatten ++ I)).2.1 = (M.tryRows yes l (A ++ I)).2.1 ∧
    (M.tryRows yes l (A ++ I)).2.2.Sublist
      (M.tryRows yes l ((List.replicate (k + 1) A).flatten ++ I)).2.2 := by
  intro k
  induction k with
  | zero => simp
  | succ k ih =>
    rw [List.replicate_succ, List.flatten_cons, List.append_assoc]
    rcases tryRows_append (M := M) (yes := yes) l A with h | h
    · rw [h, h]; exact ⟨rfl, rfl, .refl _⟩
    · rw [h ((List.replicate (k + 1) A).flatten ++ I)]
      exact ⟨ih.1, ih.2.1, ih.2.2.trans (List.sublist_append_right _ _)⟩

theorem tryRows_alone (l : Name × StTy) : ∀ ts : List XRow,
    (M.alone Q).tryRows yes l ts = M.tryRows yes l ts := by
  intro ts
  induction ts with
  | nil => rfl
  | cons t ts ih =>
    unfold Machine.tryRows
    simp only [ih]
    rfl

theorem filterMap_copies {α β : Type} (f : α → Option β) (A : List α) : ∀ k,
    (List.replicate k A).flatten.filterMap f = (List.replicate k (A.filterMap f)).flatten := by
  intro k
  rw [List.filterMap_flatten, List.map_replicate]

/-- C74: with callbacks that never throw and guards that always answer the same, `Q` may have any number
of entrances: same answer, same location; guards may be asked more often. -/
theorem C74_steady (hM : M.Regular) (hd : (M.alone Q).deferring = false) (hE : M.Embeds Q) (hk : 0 < M.entrances Q) {e : EventTy}
    (hI : M.Inward Q e) {l : Name × StTy} (h1 : l.1 ∈ (M.alone Q).composites)
    (h2 : l.2 ∈ (M.alone Q).states) :
    (M.answer yes e l).1 = ((M.alone Q).answer yes e l).1 ∧
    (M.answer yes e l).2.1 = ((M.alone Q).answer yes e l).2.1 ∧
    ((M.alone Q).answer yes e l).2.2.Sublist (M.answer yes e l).2.2 := by
  obtain ⟨n, A, I, hs, hm⟩ := C74_candidates hM hE hk h1 (hI.own l.1 h1 l.2 h2) hI.plainly
  obtain ⟨k, hk⟩ : ∃ k, M.entrances Q = k + 1 := ⟨M.entrances Q - 1, by omega⟩
  have hdef : ∀ n, (List.replicate n Cand.defer).filterMap Cand.row? = [] := by
    intro n
    rw [List.filterMap_replicate_of_none rfl]
  have hrs : (M.alone Q).rowsAt e l = A.filterMap Cand.row? ++ I.filterMap Cand.row? := by
    unfold Machine.rowsAt
    rw [hs]
    simp [List.filterMap_append, hdef]
  have hrm : M.rowsAt e l =
      (List.replicate (k + 1) (A.filterMap Cand.row?)).flatten ++ I.filterMap Cand.row? := by
    unfold Machine.rowsAt
    rw [hm, hk, List.filterMap_append, List.filterMap_append, hdef, filterMap_copies, List.nil_append]
  have hc := tryRows_copies (M := M) (yes := yes) l (A.filterMap Cand.row?) (I.filterMap Cand.row?) k
  have hnil : M.rowsAt e l = [] ↔ (M.alone Q).rowsAt e l = [] := by
    rw [hrs, hrm]
    simp
  unfold Machine.answer
  by_cases h0 : M.rowsAt e l = []
  · rw [if_pos h0, if_pos (hnil.1 h0)]
    refine ⟨rfl, rfl, ?_⟩
    rcases hI.covered l.1 h1 l.2 h2 with h | h
    · obtain ⟨c, hc⟩ := List.exists_mem_of_ne_nil _ h
      have hr : ∃ t, c.row? = some t := by
        cases c with
        | defer => exact absurd hc (Machine.no_defer_cand hd e l.1 l.2)
        | row t => exact ⟨t, rfl⟩
        | exit t p => exact ⟨t, rfl⟩
      obtain ⟨t, ht⟩ := hr
      have : t ∈ (M.alone Q).rowsAt e l := List.mem_filterMap.2 ⟨c, hc, ht⟩
      rw [hnil.1 h0] at this
      cases this
    · rw [h]; exact .refl _
  · rw [if_neg h0, if_neg fun h => h0 (hnil.2 h), tryRows_alone, hrm, hrs]
    exact hc

theorem tryRows_loc (l : Name × StTy) : ∀ ts : List XRow, (M.tryRows yes l ts).2.1 = l ∨
    ∃ t ∈ ts, (M.tryRows yes l ts).2.1 = (M.targetLoc t).getD l := by
  intro ts
  induction ts with
  | nil => exact .inl rfl
  | cons t ts ih =>
    have hhere : (if t.internal then l else (M.targetLoc t).getD l) = l ∨
        (if t.internal then l else (M.targetLoc t).getD l) = (M.targetLoc t).getD l := by
      split
      · exact .inl rfl
      · exact .inr rfl
    unfold Machine.tryRows
    cases hg : t.guard with
    | none =>
      rcases hhere with h | h
      · exact .inl h
      · exact .inr ⟨t, List.mem_cons_self, h⟩
    | some g =>
      dsimp only
      cases hy : yes g with
      | true =>
        rcases hhere with h | h
        · exact .inl h
        · exact .inr ⟨t, List.mem_cons_self, h⟩
      | false =>
        rcases ih with h | ⟨t', ht', h⟩
        · exact .inl h
        · exact .inr ⟨t', List.mem_cons_of_mem _ ht', h⟩

/-- An event leads to a location of the machine. -/
theorem answer_loc (hM : M.Regular) (hS : M.Scoped) {e : EventTy} {l : Name × StTy}
    (h1 : l.1 ∈ M.composites) (h2 : l.2 ∈ M.states) :
    (M.answer yes e l).2.1.1 ∈ M.composites ∧ (M.answer yes e l).2.1.2 ∈ M.states := by
  unfold Machine.answer
  split
  · exact ⟨h1, h2⟩
  · rcases tryRows_loc (M := M) (yes := yes) l (M.rowsAt e l) with h | ⟨t, ht, h⟩
    · rw [h]; exact ⟨h1, h2⟩
    · rw [h]
      obtain ⟨c, hc, hr⟩ := List.mem_filterMap.1 ht
      obtain ⟨htm, l', hl, hls⟩ := hM.cand_loc hc hr
      rw [hl]
      exact ⟨hS.targets t htm l' hl, hls⟩

/-- C74: any number of events (`behave` is what the code does, C71). -/
theorem C74_behave (hM : M.Regular) (hM' : (M.alone Q).Regular) (hS' : (M.alone Q).Scoped)
    (hd : (M.alone Q).deferring = false) (hE : M.Embeds Q) (hk : 0 < M.entrances Q) :
    ∀ (es : List EventTy), (∀ e ∈ es, M.Inward Q e) → ∀ l : Name × StTy,
    l.1 ∈ (M.alone Q).composites → l.2 ∈ (M.alone Q).states →
    (M.behave yes l es).1 = ((M.alone Q).behave yes l es).1 ∧
    ((M.alone Q).behave yes l es).2.Sublist (M.behave yes l es).2 := by
  intro es
  induction es with
  | nil => intro _ l _ _; exact ⟨rfl, .refl _⟩
  | cons e es ih =>
    intro hes l h1 h2
    obtain ⟨_, g2, g3⟩ := C74_steady (yes := yes) hM hd hE hk (hes e List.mem_cons_self) h1 h2
    obtain ⟨m1, m2⟩ := answer_loc (yes := yes) (e := e) hM' hS' h1 h2
    have := ih (fun e' he' => hes e' (List.mem_cons_of_mem _ he')) _ m1 m2
    simp only [Machine.behave]
    rw [g2]
    exact ⟨this.1, g3.append this.2⟩

theorem behave_on : ∀ (es es' : List EventTy) (l : Name × StTy),
    M.behave yes l (es ++ es') = ((M.behave yes (M.behave yes l es).1 es').1,
      (M.behave yes l es).2 ++ (M.behave yes (M.behave yes l es).1 es').2) := by
  intro es es'
  induction es with
  | nil => intro l; simp [Machine.behave]
  | cons e es ih => intro l; simp [Machine.behave, ih]

/-- C74, several entrances: if a machine inside `Q` and an `sm<Q>` stand at the same location, they
stand at the same location after any further events that only rows of `Q` take, and the machine has
called what the `sm<Q>` has called, possibly with guards asked again in between. -/
theorem C74_several {P W : Type} {sem : Sem P W} (hM : M.Regular) (hS : M.Scoped) (hP : M.Plain)
    (hM' : (M.alone Q).Regular) (hS' : (M.alone Q).Scoped) (hP' : (M.alone Q).Plain)
    (hp : Populated M sem) (hp' : Populated (M.alone Q) sem) (hy : Steady sem yes)
    (hE : M.Embeds Q) (hk : 0 < M.entrances Q) {i i' : Name}
    (hi : (M.declaredInitials M.root).head? = some i)
    (hi' : ((M.alone Q).declaredInitials (M.alone Q).root).head? = some i') {d d' : Dep}
    {before before' evs : List (EventTy × P)} {s s' t t' : SM P W} {l : Name × StTy}
    (hev : ∀ x ∈ evs, M.Inward Q x.1)
    (hs : RunTo M sem d (sends before) s) (ha : At M s 0 l.1 l.2)
    (hs' : RunTo (M.alone Q) sem d' (sends before') s') (ha' : At (M.alone Q) s' 0 l.1 l.2)
    (ht : RunTo M sem d (sends (before ++ evs)) t)
    (ht' : RunTo (M.alone Q) sem d' (sends (before' ++ evs)) t') :
    ∃ (l' : Name × StTy) (calls calls' : List Cb),
      At M t 0 l'.1 l'.2 ∧ At (M.alone Q) t' 0 l'.1 l'.2 ∧
      t.trace.map Call.who = s.trace.map Call.who ++ calls ∧
      t'.trace.map Call.who = s'.trace.map Call.who ++ calls' ∧ calls'.Sublist calls := by
  obtain ⟨a1, a2⟩ := C71_behaviour hM hS hP hp hy hi hs
  obtain ⟨b1, b2⟩ := C71_behaviour hM' hS' hP' hp' hy hi' hs'
  obtain ⟨c1, c2⟩ := C71_behaviour hM hS hP hp hy hi ht
  obtain ⟨d1, d2⟩ := C71_behaviour hM' hS' hP' hp' hy hi' ht'
  obtain ⟨e1, e2⟩ := At.unique hM a1 ha
  obtain ⟨f1, f2⟩ := At.unique hM' b1 ha'
  rw [List.map_append, behave_on, show (M.behave yes (M.root, StTy.st i) (before.map (·.1))).1 = l from
    Prod.ext e1 e2] at c1 c2
  rw [List.map_append, behave_on, show ((M.alone Q).behave yes ((M.alone Q).root, StTy.st i')
    (before'.map (·.1))).1 = l from Prod.ext f1 f2] at d1 d2
  obtain ⟨g1, g2⟩ := C74_behave (yes := yes) hM hM' hS' hP'.deferring hE hk (evs.map (·.1))
    (by simpa using fun a b hab => hev (a, b) hab) l ha'.1 ha'.2.1
  rw [← g1] at d1
  exact ⟨_, _, _, c1, d1, by rw [c2, a2], by rw [d2, b2], g2⟩

/-- C74, several entrances: both give the same answer to the next such event. -/
theorem C74_several_answer {P W : Type} {sem : Sem P W} (hM : M.Regular) (hS : M.Scoped) (hP : M.Plain)
    (hM' : (M.alone Q).Regular) (hS' : (M.alone Q).Scoped) (hP' : (M.alone Q).Plain)
    (hp : Populated M sem) (hp' : Populated (M.alone Q) sem) (hy : Steady sem yes)
    (hE : M.Embeds Q) (hk : 0 < M.entrances Q) {i i' : Name}
    (hi : (M.declaredInitials M.root).head? = some i)
    (hi' : ((M.alone Q).declaredInitials (M.alone Q).root).head? = some i') {d d' : Dep}
    {before before' : List (EventTy × P)} {s s' : SM P W} {l : Name × StTy}
    (hs : RunTo M sem d (sends before) s) (ha : At M s 0 l.1 l.2)
    (hs' : RunTo (M.alone Q) sem d' (sends before') s') (ha' : At (M.alone Q) s' 0 l.1 l.2)
    {e : EventTy} (hI : M.Inward Q e) (he : e ∈ M.events) (he' : e ∈ (M.alone Q).events) (pl : P) :
    ∃ (b : Bool) (t t' : SM P W) (n : Nat), ∀ fuel, n ≤ fuel →
      processEvent M sem fuel e pl s = .ok b t ∧
      processEvent (M.alone Q) sem fuel e pl s' = .ok b t' := by
  obtain ⟨a1, _⟩ := C71_behaviour hM hS hP hp hy hi hs
  obtain ⟨b1, _⟩ := C71_behaviour hM' hS' hP' hp' hy hi' hs'
  obtain ⟨e1, e2⟩ := At.unique hM a1 ha
  obtain ⟨f1, f2⟩ := At.unique hM' b1 ha'
  obtain ⟨t, n, _, hn⟩ := C71_answer hM hS hP hp hy hi hs he pl
  obtain ⟨t', n', _, hn'⟩ := C71_answer hM' hS' hP' hp' hy hi' hs' he' pl
  rw [show (M.behave yes (M.root, StTy.st i) (before.map (·.1))).1 = l from Prod.ext e1 e2] at hn
  rw [show ((M.alone Q).behave yes ((M.alone Q).root, StTy.st i') (before'.map (·.1))).1 = l from
    Prod.ext f1 f2, ← (C74_steady (yes := yes) hM hP'.deferring hE hk hI ha'.1 ha'.2.1).1] at hn'
  exact ⟨_, t, t', max n n', fun fuel hf => ⟨hn fuel (by omega), hn' fuel (by omega)⟩⟩

end

/-! ## Examples -/

section
variable (M : Machine) (Q : Name)

instance (t : XRow) (p : Name) (st : StTy) : Decidable (M.AppliesAt t p st) := by
  unfold Machine.AppliesAt; infer_instance

/-- A decision procedure for the conditions. -/
def Machine.embedsB : Bool :=
  M.isComposite Q && decide (M.root ∉ (M.alone Q).composites) &&
    decide (∀ t ∈ M.extRows, M.Outer Q t → ∀ c ∈ (M.alone Q).composites,
      (M.leadsInto t.target = some c ∨ t.target = .st c ∨ plain t.source = .st c) → c = Q)

def Machine.inwardB (e : EventTy) : Bool :=
  (decide (∀ t ∈ M.extRows, M.Outer Q t → M.leadsInto t.target = some Q → t.target = .st Q) ||
    decide (∀ i ∈ (M.decl Q).itable.getD [], i.event ≠ e)) &&
  decide (∀ p ∈ (M.alone Q).composites, ∀ st ∈ (M.alone Q).states,
    (∀ t ∈ M.extRows, M.Outer Q t → t.event = e → ¬ M.AppliesAt t p st) ∧
    (∀ t ∈ M.intRows, M.Outer Q t → t.event = e → sourceLoc t.parent t.source ≠ (p, st)) ∧
    ((M.alone Q).cands e p st ≠ [] ∨ (M.decl M.root).handler = (M.decl Q).handler))

variable {M Q}

theorem Machine.embeds_of_check (h : M.embedsB Q = true) : M.Embeds Q := by
  unfold Machine.embedsB at h
  simp only [Bool.and_eq_true, decide_eq_true_eq] at h
  exact ⟨h.1.1, h.1.2, h.2⟩

theorem Machine.inward_of_check {e : EventTy} (h : M.inwardB Q e = true) : M.Inward Q e := by
  unfold Machine.inwardB at h
  simp only [Bool.and_eq_true, Bool.or_eq_true, decide_eq_true_eq] at h
  exact ⟨h.1, fun p hp st hst => ⟨(h.2 p hp st hst).1, (h.2 p hp st hst).2.1⟩,
    fun p hp st hst => (h.2 p hp st hst).2.2⟩

end

theorem Machine.Regular.alone {M : Machine} {Q : Name} (hM : M.Regular)
    (h : (M.alone Q).regularB 0 = true) : (M.alone Q).Regular := by
  unfold Machine.regularB at h
  simp only [Bool.and_eq_true, decide_eq_true_eq] at h
  obtain ⟨⟨⟨h1, _⟩, h3⟩, h4⟩ := h
  exact ⟨Machine.accepts_iff.1 h1, hM.nesting, fun t ht => of_decide_eq_true (List.all_eq_true.1 h3 t ht), h4⟩

namespace Ex

/-- Composite 2 (states 3, 4, and composite 5 with states 6, 7; an internal row for event 4) inside a
machine that enters it by event 0 and leaves it by event 5. -/
def cabin : Machine := .ofList
  [ { table := some
        [ row (ini 1) (ev 0) none (some 1) (.st 2),
          row (.st 2) (ev 5) none none (.st 1) ]
      handler := some 50 },
    {},
    { table := some
        [ row (ini 3) (ev 1) (some 100) (some 2) (.st 4),
          row (.st 4) (ev 2) none none (.st 5),
          row (.st 5) (ev 3) none none (.st 3) ]
      itable := some [⟨ev 4, none, some 3⟩]
      onEntry := some 10, handler := some 50 },
    { onExit := some 11 }, { onEntry := some 12 },
    { table := some [row (ini 6) (ev 1) none (some 4) (.st 7)] },
    {}, {} ] [2, 0, 1, 0, 0, 0, 0, 0]

theorem cabin_regular : cabin.Regular := Machine.regular_ofList (by decide +kernel)
theorem cabin_scoped : cabin.Scoped := Machine.scoped_of_check (by decide +kernel)
theorem cabin_plain : cabin.Plain :=
  ⟨by decide +kernel, by decide +kernel, by decide +kernel, by decide +kernel⟩
theorem cabin_embeds : cabin.Embeds 2 := Machine.embeds_of_check (by decide +kernel)
theorem cabin_once : cabin.entrances 2 = 1 := by decide +kernel
theorem cabin_inward : ∀ e ∈ [ev 1, ev 2, ev 3, ev 4],
    cabin.Inward 2 e ∧ e ∈ cabin.events ∧ e ∈ (cabin.alone 2).events := by
  intro e he
  have h : ∀ e ∈ [ev 1, ev 2, ev 3, ev 4],
      cabin.inwardB 2 e = true ∧ e ∈ cabin.events ∧ e ∈ (cabin.alone 2).events := by decide +kernel
  exact ⟨Machine.inward_of_check (h e he).1, (h e he).2⟩

theorem cabin_alone_regular : (cabin.alone 2).Regular := cabin_regular.alone (by decide +kernel)
theorem cabin_alone_scoped : (cabin.alone 2).Scoped := Machine.scoped_of_check (by decide +kernel)
theorem cabin_alone_plain : (cabin.alone 2).Plain :=
  ⟨by decide +kernel, by decide +kernel, by decide +kernel, by decide +kernel⟩

/-- Callbacks that count themselves; the guard says yes every second time. -/
def flip : Sem Nat Nat where
  guard _ _ p w := .ok (decide (w % 2 = 1)) p (w + 1)
  action _ _ p w := .ok () p (w + 1)
  handler _ _ _ _ p w := .ok () p (w + 1)
  alive _ _ := true
  nonePayload := 0

/-- The hypotheses are met: event 0 brings the machine to the initial state of composite 2.  From there
guards say no and yes, the composite in the composite is entered and left, internal rows and the handler
run. -/
example : ∃ s s' : SM Nat Nat, RunTo cabin flip 5 (sends [(ev 0, 0)]) s ∧ At cabin s 0 2 (.st 3) ∧
    (cabin.declaredInitials 2).head? = some 3 ∧ construct (cabin.alone 2) 5 s.world = .ok s' := by
  obtain ⟨s0, h0⟩ := (C06_construct (P := Nat) cabin_regular 5 (0 : Nat)).1.2
    ⟨(Machine.scopesReal_iff cabin_regular).2 ⟨cabin_scoped.src, cabin_scoped.comp⟩,
      fun _ => cabin_scoped.rootInit⟩
  have hi : At cabin s0 0 0 (.st 1) := (C46_initial cabin_regular h0).1 0 1 (by decide +kernel)
  have hw : s0.world = 0 := (C46_initial cabin_regular h0).2.2.2.2.2.1
  have := C73_event cabin_regular cabin_scoped cabin_plain (sem := flip) (fun _ _ => Or.inr rfl)
    (.init h0) (l := (0, .st 1)) hi (ev := ev 0) (by decide +kernel) 0 0
  rw [hw] at this
  have hq : (cabin.play flip (ev 0) (0, .st 1) (depsOf 5 ([] : List (Op Nat))) 5 0 0).reply = .yes ∧
      (cabin.play flip (ev 0) (0, .st 1) (depsOf 5 ([] : List (Op Nat))) 5 0 0).loc = (2, .st 3) := by
    decide +kernel
  unfold Shows at this
  rw [hq.1] at this
  obtain ⟨b, s, hb, _, hbe⟩ := this
  obtain ⟨s', h'⟩ := (C06_construct (P := Nat) cabin_alone_regular 5 s.world).1.2
    ⟨(Machine.scopesReal_iff cabin_alone_regular).2 ⟨cabin_alone_scoped.src, cabin_alone_scoped.comp⟩,
      fun _ => cabin_alone_scoped.rootInit⟩
  have hloc := hbe.loc
  rw [hq.2] at hloc
  exact ⟨s, s', .ok (op := .process (ev 0) 0) (fuel := 0) (.init h0) (opOk_event (by decide +kernel)) hb, hloc,
    by decide +kernel, h'⟩

example : ((cabin.alone 2).playOps flip 5 [5] (2, .st 3) 0 (sends
    [(ev 1, 0), (ev 4, 0), (ev 3, 0), (ev 1, 0), (ev 2, 0), (ev 1, 0), (ev 4, 0), (ev 3, 0)])).map
      (fun y => (y.1, y.2.1, y.2.2.map Call.who)) =
    some ((2, .st 3), 8, [100, 3, 50, 100, 2, 12, 4, 50]) := by decide +kernel

/-- Two entrances. -/
def lobby : Machine := .ofList
  [ { table := some
        [ row (ini 1) (ev 0) none none (.st 2),
          row (.st 1) (ev 3) none none (.st 2) ] },
    {},
    { table := some
        [ row (ini 3) (ev 1) (some 100) none (.st 4),
          row (.st 4) (ev 2) none none (.st 3) ] } ] [1]

theorem lobby_regular : lobby.Regular := Machine.regular_ofList (by decide +kernel)
theorem lobby_scoped : lobby.Scoped := Machine.scoped_of_check (by decide +kernel)
theorem lobby_plain : lobby.Plain :=
  ⟨by decide +kernel, by decide +kernel, by decide +kernel, by decide +kernel⟩
theorem lobby_alone_regular : (lobby.alone 2).Regular := lobby_regular.alone (by decide +kernel)
theorem lobby_alone_scoped : (lobby.alone 2).Scoped := Machine.scoped_of_check (by decide +kernel)
theorem lobby_alone_plain : (lobby.alone 2).Plain :=
  ⟨by decide +kernel, by decide +kernel, by decide +kernel, by decide +kernel⟩
theorem lobby_embeds : lobby.Embeds 2 := Machine.embeds_of_check (by decide +kernel)
theorem lobby_twice : lobby.entrances 2 = 2 := by decide +kernel
theorem lobby_inward : ∀ e ∈ [ev 1, ev 2], lobby.Inward 2 e := by
  intro e he
  have h : ∀ e ∈ [ev 1, ev 2], lobby.inwardB 2 e = true := by decide +kernel
  exact Machine.inward_of_check (h e he)

/-- `C74_behave` applies to it: same location, but the guard is asked twice per event. -/
example : lobby.behave (fun _ => false) (2, .st 3) [ev 1, ev 1] = ((2, .st 3), [100, 100, 100, 100]) ∧
    (lobby.alone 2).behave (fun _ => false) (2, .st 3) [ev 1, ev 1] = ((2, .st 3), [100, 100]) := by
  decide +kernel

/-- The hypotheses of `C74_several` meet in a run: the machine inside `Q` and an `sm<Q>` are at the same
location, and the machine asks the refused guard twice where the `sm<Q>` asks once. -/
example : ((Ex.run lobby (Ex.sem fun _ => false) 5 7 [] [.process (ev 0) 1]).any fun s =>
      decide (s.cur = [some (lobby.comb 2 (.st 3))]) &&
      (Ex.run lobby (Ex.sem fun _ => false) 5 7 [] [.process (ev 0) 1, .process (ev 1) 1]).any fun t =>
        decide (t.cur = s.cur ∧ t.trace.map Call.who = s.trace.map Call.who ++ [100, 100])) = true ∧
    ((Ex.run (lobby.alone 2) (Ex.sem fun _ => false) 5 7 [] []).any fun s =>
      decide (s.cur = [some ((lobby.alone 2).comb 2 (.st 3))]) &&
      (Ex.run (lobby.alone 2) (Ex.sem fun _ => false) 5 7 [] [.process (ev 1) 1]).any fun t =>
        decide (t.cur = s.cur ∧ t.trace.map Call.who = s.trace.map Call.who ++ [100])) = true := by
  decide +kernel

/-- An outer row takes the event. -/
def eager : Machine := .ofList
  [ { table := some
        [ row (ini 1) (ev 0) none none (.st 2),
          row (.st 2) (ev 1) none none (.st 1) ] },
    {},
    { table := some
        [ row (ini 3) (ev 1) none none (.st 4),
          row (.st 4) (ev 2) none none (.st 3) ] } ] [1]

theorem eager_regular : eager.Regular := Machine.regular_ofList (by decide +kernel)
theorem eager_scoped : eager.Scoped := Machine.scoped_of_check (by decide +kernel)
theorem eager_plain : eager.Plain :=
  ⟨by decide +kernel, by decide +kernel, by decide +kernel, by decide +kernel⟩
theorem eager_alone_regular : (eager.alone 2).Regular := eager_regular.alone (by decide +kernel)
theorem eager_alone_scoped : (eager.alone 2).Scoped := Machine.scoped_of_check (by decide +kernel)
theorem eager_alone_plain : (eager.alone 2).Plain :=
  ⟨by decide +kernel, by decide +kernel, by decide +kernel, by decide +kernel⟩
theorem eager_embeds : eager.Embeds 2 := Machine.embeds_of_check (by decide +kernel)
theorem eager_once : eager.entrances 2 = 1 := by decide +kernel

/-- The composite has a handler, the machine has none. -/
def deaf : Machine := .ofList
  [ { table := some
        [ row (ini 1) (ev 0) none none (.st 2),
          row (.st 2) (ev 3) none none (.st 1) ] },
    {},
    { table := some
        [ row (ini 3) (ev 1) none none (.st 4),
          row (.st 4) (ev 2) none none (.st 3) ]
      handler := some 50 } ] [1]

theorem deaf_regular : deaf.Regular := Machine.regular_ofList (by decide +kernel)
theorem deaf_scoped : deaf.Scoped := Machine.scoped_of_check (by decide +kernel)
theorem deaf_plain : deaf.Plain :=
  ⟨by decide +kernel, by decide +kernel, by decide +kernel, by decide +kernel⟩
theorem deaf_alone_regular : (deaf.alone 2).Regular := deaf_regular.alone (by decide +kernel)
theorem deaf_alone_scoped : (deaf.alone 2).Scoped := Machine.scoped_of_check (by decide +kernel)
theorem deaf_alone_plain : (deaf.alone 2).Plain :=
  ⟨by decide +kernel, by decide +kernel, by decide +kernel, by decide +kernel⟩
theorem deaf_embeds : deaf.Embeds 2 := Machine.embeds_of_check (by decide +kernel)
theorem deaf_once : deaf.entrances 2 = 1 := by decide +kernel

/-- A machine that is brought to the initial state of its composite by event 0, next to the composite
alone: if the interpreters disagree about the next event, the claim fails. -/
theorem apart {M : Machine} (hM : M.Regular) (hS : M.Scoped) (hP : M.Plain) (hM' : (M.alone 2).Regular)
    (hS' : (M.alone 2).Scoped) (hP' : (M.alone 2).Plain) (hE : M.Embeds 2) (hk : 0 < M.entrances 2)
    {Cond : Machine → Name → EventTy → Prop} {e : EventTy} (hc : Cond M 2 e)
    (he : ev 0 ∈ M.events ∧ e ∈ M.events ∧ e ∈ (M.alone 2).events)
    (hi : (M.declaredInitials M.root)[0]? = some 1) (hi' : (M.declaredInitials 2)[0]? = some 3)
    (hq : (M.play flip (ev 0) (M.root, .st 1) [5] 5 0 0).reply = .yes ∧
      (M.play flip (ev 0) (M.root, .st 1) [5] 5 0 0).loc = (2, .st 3) ∧
      (M.play flip (ev 0) (M.root, .st 1) [5] 5 0 0).world = 0)
    (hu : (M.play flip e (2, .st 3) [5] 5 0 0).reply ≠ .undefined ∧
      ((M.alone 2).play flip e (2, .st 3) [5] 5 0 0).reply ≠ .undefined)
    (hne : (M.play flip e (2, .st 3) [5] 5 0 0).loc ≠ ((M.alone 2).play flip e (2, .st 3) [5] 5 0 0).loc ∨
      (M.play flip e (2, .st 3) [5] 5 0 0).calls ≠ ((M.alone 2).play flip e (2, .st 3) [5] 5 0 0).calls) :
    ¬ C74_claim Cond := by
  intro hcl
  have hp : Populated M flip := fun _ _ => Or.inr rfl
  have hp' : Populated (M.alone 2) flip := fun _ _ => Or.inr rfl
  obtain ⟨s0, h0⟩ := (C06_construct (P := Nat) hM 5 (0 : Nat)).1.2
    ⟨(Machine.scopesReal_iff hM).2 ⟨hS.src, hS.comp⟩, fun _ => hS.rootInit⟩
  obtain ⟨s', h'⟩ := (C06_construct (P := Nat) hM' 5 (0 : Nat)).1.2
    ⟨(Machine.scopesReal_iff hM').2 ⟨hS'.src, hS'.comp⟩, fun _ => hS'.rootInit⟩
  have hw : s0.world = 0 := (C46_initial hM h0).2.2.2.2.2.1
  have hw' : s'.world = 0 := (C46_initial hM' h').2.2.2.2.2.1
  have ha' : At (M.alone 2) s' 0 2 (.st 3) := (C46_initial hM' h').1 0 3 hi'
  have := C73_event hM hS hP hp (.init h0) (l := (M.root, .st 1)) ((C46_initial hM h0).1 0 1 hi) he.1 0 0
  rw [hw] at this
  unfold Shows at this
  rw [show depsOf 5 ([] : List (Op Nat)) = [5] from rfl, hq.1] at this
  obtain ⟨b, s, hb, _, hbe⟩ := this
  have hloc := hbe.loc
  rw [hq.2.1] at hloc
  have hws : s.world = 0 := hbe.world.trans hq.2.2
  have hr : RunTo M flip 5 (sends [(ev 0, 0)]) s :=
    .ok (op := .process (ev 0) 0) (fuel := 0) (.init h0) (opOk_event he.1) hb
  obtain ⟨q, g1, g2⟩ := hcl M 2 flip hM hS hP hM' hS' hP' hp hE hk e hc he.2.1 he.2.2 5 _ [] s s' hr
    (.init h') (depsOf_sends 5 _) (hws.trans hw'.symm) (2, .st 3) hloc ha' 0 0
  have k1 := C73_event hM hS hP hp hr (l := (2, .st 3)) hloc he.2.1 0 0
  have k2 := C73_event hM' hS' hP' hp' (.init h') (l := (2, .st 3)) ha' he.2.2 0 0
  rw [hws, depsOf_sends] at k1
  rw [hw', show depsOf 5 ([] : List (Op Nat)) = [5] from rfl] at k2
  have u1 := g1.unique hM k1 hu.1
  have u2 := g2.unique hM' k2 hu.2
  rcases hne with hne | hne
  · exact hne (u1.1.symm.trans u2.1)
  · exact hne (u1.2.2.symm.trans u2.2.2)

end Ex

/-- With two entrances the rows of `Q` are tried twice: a guard that says no and then yes lets the machine
move although `Q` alone would stay. -/
theorem C74_refuted_twice : ¬ C74_claim fun M Q e => M.Inward Q e :=
  Ex.apart Ex.lobby_regular Ex.lobby_scoped Ex.lobby_plain Ex.lobby_alone_regular Ex.lobby_alone_scoped
    Ex.lobby_alone_plain Ex.lobby_embeds (by rw [Ex.lobby_twice]; decide) (e := Ex.ev 1)
    (Ex.lobby_inward _ (by decide)) (by decide +kernel) (by decide +kernel) (by decide +kernel)
    (by decide +kernel) (by decide +kernel) (by decide +kernel)

/-- An outer row can take the event away from the inside. -/
theorem C74_refuted_outer : ¬ C74_claim fun M Q e => M.entrances Q = 1 ∧ M.EnteredPlainly Q e ∧
    ∀ p ∈ (M.alone Q).composites, ∀ st ∈ (M.alone Q).states,
      M.Covered Q e (p, st) :=
  Ex.apart Ex.eager_regular Ex.eager_scoped Ex.eager_plain Ex.eager_alone_regular Ex.eager_alone_scoped
    Ex.eager_alone_plain Ex.eager_embeds (by rw [Ex.eager_once]; decide) (e := Ex.ev 1)
    ⟨Ex.eager_once, .inl (by decide +kernel), fun _ _ _ _ => .inr (by decide +kernel)⟩
    (by decide +kernel) (by decide +kernel) (by decide +kernel)
    (by decide +kernel) (by decide +kernel) (by decide +kernel)

/-- The handler of `Q` is not called while `Q` is inside another machine. -/
theorem C74_refuted_handler : ¬ C74_claim fun M Q e => M.entrances Q = 1 ∧ M.EnteredPlainly Q e ∧
    ∀ p ∈ (M.alone Q).composites, ∀ st ∈ (M.alone Q).states, M.Own Q e (p, st) :=
  Ex.apart Ex.deaf_regular Ex.deaf_scoped Ex.deaf_plain Ex.deaf_alone_regular Ex.deaf_alone_scoped
    Ex.deaf_alone_plain Ex.deaf_embeds (by rw [Ex.deaf_once]; decide) (e := Ex.ev 2)
    ⟨Ex.deaf_once, .inl (by decide +kernel), by
      have : ∀ p ∈ (Ex.deaf.alone 2).composites, ∀ st ∈ (Ex.deaf.alone 2).states,
        (∀ t ∈ Ex.deaf.extRows, Ex.deaf.Outer 2 t → t.event = Ex.ev 2 → ¬ Ex.deaf.AppliesAt t p st) ∧
        (∀ t ∈ Ex.deaf.intRows, Ex.deaf.Outer 2 t → t.event = Ex.ev 2 →
          Machine.sourceLoc t.parent t.source ≠ (p, st)) := by decide +kernel
      exact fun p hp st hst => ⟨(this p hp st hst).1, (this p hp st hst).2⟩⟩
    (by decide +kernel) (by decide +kernel) (by decide +kernel)
    (by decide +kernel) (by decide +kernel) (by decide +kernel)

end Hsm
