import Verif.SpecBridge

/-! Helper lemmas about the compile-time model. -/

namespace Hsm
namespace Machine
variable {M : Machine}

theorem nodup_parents : M.composites.Nodup := by rw [composites_eq]; exact nodup_uniq _

theorem nodup_stateIds (h : StTy.st M.root ∉ M.subStateIds) : M.states.Nodup := by
  rw [states_eq]
  unfold stateIds
  rw [List.nodup_append]
  refine ⟨nodup_uniq _, by simp, ?_⟩
  intro a ha b hb he
  simp only [List.mem_singleton] at hb
  subst hb; subst he
  exact h ha

theorem nStates_pos : 0 < M.nStates := by simp [nStates, stateIds]

theorem length_combinedIds : M.combinedIds.length = M.size := by
  simp [combinedIds, length_product, size, nParents, nStates, Nat.mul_comm]

theorem size_eq : M.size = M.nParents * M.nStates := Nat.mul_comm _ _

namespace Laid
variable (h : M.Laid)
include h

theorem nodup_combinedIds : M.combinedIds.Nodup :=
  nodup_product (composites_eq ▸ nodup_parents) (states_eq ▸ nodup_stateIds h.rootFresh)

theorem nParents_small : M.nParents < 2 ^ 64 := by
  have := h.small
  rw [size_eq] at this
  exact Nat.lt_of_le_of_lt (Nat.le_mul_of_pos_right _ nStates_pos) this

theorem flat_ne_nil : M.flat ≠ [] := by
  rw [← extRows_eq]; exact h.rows

theorem nParents_pos : 0 < M.nParents := by
  have h1 : M.parents ≠ [] := by
    apply uniq_ne_nil
    simpa using h.flat_ne_nil
  exact List.length_pos_iff.2 h1

theorem nStates_small : M.nStates < 2 ^ 64 := by
  have := h.small
  rw [size_eq] at this
  exact Nat.lt_of_le_of_lt (Nat.le_mul_of_pos_left _ h.nParents_pos) this

theorem combined_small : M.combinedIds.length < 2 ^ 64 := by
  rw [length_combinedIds]; exact h.small

theorem parentIdx_lt {p : Name} : M.parentIdx p < M.nParents ↔ p ∈ M.composites := by
  rw [composites_eq]
  exact indexOf_lt_iff (composites_eq ▸ nodup_parents) h.nParents_small

theorem stateIdx_lt {s : StTy} : M.stateIdx s < M.nStates ↔ s ∈ M.states := by
  rw [states_eq]
  exact indexOf_lt_iff (states_eq ▸ nodup_stateIds h.rootFresh) h.nStates_small

theorem parentIdx_not_mem {p : Name} (hp : p ∉ M.composites) : M.parentIdx p = M.nParents :=
  indexOf_of_not_mem (composites_eq ▸ hp) h.nParents_small

theorem stateIdx_not_mem {s : StTy} (hs : s ∉ M.states) : M.stateIdx s = M.nStates :=
  indexOf_of_not_mem (states_eq ▸ hs) h.nStates_small

theorem parentIdx_inj {p q : Name} (hp : p ∈ M.composites) (hq : q ∈ M.composites)
    (he : M.parentIdx p = M.parentIdx q) : p = q :=
  indexOf_inj (composites_eq ▸ hp) (composites_eq ▸ hq) (composites_eq ▸ nodup_parents) h.nParents_small he

theorem stateIdx_inj {s t : StTy} (hs : s ∈ M.states) (ht : t ∈ M.states)
    (he : M.stateIdx s = M.stateIdx t) : s = t :=
  indexOf_inj (states_eq ▸ hs) (states_eq ▸ ht) (states_eq ▸ nodup_stateIds h.rootFresh)
    h.nStates_small he

theorem comb_eq {p : Name} {s : StTy} (hp : p ∈ M.composites) (hs : s ∈ M.states) :
    M.comb p s = M.parentIdx p * M.nStates + M.stateIdx s := by
  apply indexOf_of_getElem _ h.nodup_combinedIds h.combined_small
  exact getElem?_product
    (indexOf_getElem (composites_eq ▸ hp) (composites_eq ▸ nodup_parents) h.nParents_small)
    (indexOf_getElem (states_eq ▸ hs) (states_eq ▸ nodup_stateIds h.rootFresh) h.nStates_small)

theorem comb_lt {p : Name} {s : StTy} : M.comb p s < M.size ↔ p ∈ M.composites ∧ s ∈ M.states := by
  unfold comb
  rw [← length_combinedIds, indexOf_lt_iff h.nodup_combinedIds h.combined_small, composites_eq,
    states_eq]
  exact mem_product

theorem comb_not_mem {p : Name} {s : StTy} (hn : ¬ (p ∈ M.composites ∧ s ∈ M.states)) :
    M.comb p s = M.size := by
  unfold comb
  rw [← length_combinedIds]
  apply indexOf_of_not_mem _ h.combined_small
  rw [combinedIds, mem_product, ← composites_eq, ← states_eq]; exact hn

theorem comb_div {p : Name} {s : StTy} (hp : p ∈ M.composites) (hs : s ∈ M.states) :
    M.comb p s / M.nStates = M.parentIdx p := by
  rw [h.comb_eq hp hs]
  have := h.stateIdx_lt.2 hs
  rw [Nat.mul_comm, Nat.mul_add_div nStates_pos, Nat.div_eq_of_lt this, Nat.add_zero]

theorem comb_mod {p : Name} {s : StTy} (hp : p ∈ M.composites) (hs : s ∈ M.states) :
    M.comb p s % M.nStates = M.stateIdx s := by
  rw [h.comb_eq hp hs]
  have := h.stateIdx_lt.2 hs
  rw [Nat.mul_comm, Nat.mul_add_mod, Nat.mod_eq_of_lt this]

theorem comb_inj {p q : Name} {s t : StTy} (hp : p ∈ M.composites) (hs : s ∈ M.states)
    (he : M.comb q t = M.comb p s) : (q, t) = (p, s) := by
  have h1 : (p, s) ∈ M.combinedIds := mem_product.2 ⟨composites_eq ▸ hp, states_eq ▸ hs⟩
  by_cases h2 : (q, t) ∈ M.combinedIds
  · exact indexOf_inj h2 h1 h.nodup_combinedIds h.combined_small he
  · have h3 : M.comb q t = M.size := by
      apply h.comb_not_mem; rw [composites_eq, states_eq]; intro hh; exact h2 (mem_product.2 hh)
    have h4 := h.comb_lt.2 ⟨hp, hs⟩
    omega

/-- Every index inside the tables is the index of a location. -/
theorem comb_surj {c : Nat} (hc : c < M.size) :
    ∃ p s, p ∈ M.composites ∧ s ∈ M.states ∧ M.comb p s = c := by
  rw [← length_combinedIds] at hc
  have hx : M.combinedIds[c]? = some M.combinedIds[c] := List.getElem?_eq_getElem hc
  have hm : M.combinedIds[c] ∈ M.combinedIds := List.getElem_mem hc
  generalize M.combinedIds[c] = ps at hx hm
  obtain ⟨p, s⟩ := ps
  have hm' := mem_product.1 hm
  exact ⟨p, s, composites_eq ▸ hm'.1, states_eq ▸ hm'.2, indexOf_of_getElem hx h.nodup_combinedIds h.combined_small⟩

end Laid

namespace Regular
variable (h : M.Regular)
include h

theorem nodup_combinedIds : M.combinedIds.Nodup :=
  h.laid.nodup_combinedIds

theorem nParents_small : M.nParents < 2 ^ 64 :=
  h.laid.nParents_small

theorem flat_ne_nil : M.flat ≠ [] :=
  h.laid.flat_ne_nil

theorem nParents_pos : 0 < M.nParents :=
  h.laid.nParents_pos

theorem nStates_small : M.nStates < 2 ^ 64 :=
  h.laid.nStates_small

theorem combined_small : M.combinedIds.length < 2 ^ 64 :=
  h.laid.combined_small

theorem parentIdx_lt {p : Name} : M.parentIdx p < M.nParents ↔ p ∈ M.composites :=
  h.laid.parentIdx_lt

theorem stateIdx_lt {s : StTy} : M.stateIdx s < M.nStates ↔ s ∈ M.states :=
  h.laid.stateIdx_lt

theorem parentIdx_not_mem {p : Name} (hp : p ∉ M.composites) : M.parentIdx p = M.nParents :=
  h.laid.parentIdx_not_mem hp

theorem stateIdx_not_mem {s : StTy} (hs : s ∉ M.states) : M.stateIdx s = M.nStates :=
  h.laid.stateIdx_not_mem hs

theorem parentIdx_inj {p q : Name} (hp : p ∈ M.composites) (hq : q ∈ M.composites)
    (he : M.parentIdx p = M.parentIdx q) : p = q :=
  h.laid.parentIdx_inj hp hq he

theorem stateIdx_inj {s t : StTy} (hs : s ∈ M.states) (ht : t ∈ M.states)
    (he : M.stateIdx s = M.stateIdx t) : s = t :=
  h.laid.stateIdx_inj hs ht he

theorem comb_eq {p : Name} {s : StTy} (hp : p ∈ M.composites) (hs : s ∈ M.states) :
    M.comb p s = M.parentIdx p * M.nStates + M.stateIdx s :=
  h.laid.comb_eq hp hs

theorem comb_lt {p : Name} {s : StTy} : M.comb p s < M.size ↔ p ∈ M.composites ∧ s ∈ M.states :=
  h.laid.comb_lt

theorem comb_not_mem {p : Name} {s : StTy} (hn : ¬ (p ∈ M.composites ∧ s ∈ M.states)) :
    M.comb p s = M.size :=
  h.laid.comb_not_mem hn

theorem comb_div {p : Name} {s : StTy} (hp : p ∈ M.composites) (hs : s ∈ M.states) :
    M.comb p s / M.nStates = M.parentIdx p :=
  h.laid.comb_div hp hs

theorem comb_mod {p : Name} {s : StTy} (hp : p ∈ M.composites) (hs : s ∈ M.states) :
    M.comb p s % M.nStates = M.stateIdx s :=
  h.laid.comb_mod hp hs

theorem comb_inj {p q : Name} {s t : StTy} (hp : p ∈ M.composites) (hs : s ∈ M.states)
    (he : M.comb q t = M.comb p s) : (q, t) = (p, s) :=
  h.laid.comb_inj hp hs he

theorem comb_surj {c : Nat} (hc : c < M.size) :
    ∃ p s, p ∈ M.composites ∧ s ∈ M.states ∧ M.comb p s = c :=
  h.laid.comb_surj hc

theorem root_composite : M.isComposite M.root = true := h.compiles.root

theorem maxInit_ne_zero : M.maxInit ≠ 0 := by
  have := h.accepts
  simp only [Machine.accepts, Bool.and_eq_true, decide_eq_true_eq] at this
  exact this.1.1.1.1.1.2

end Regular

/-! ## Flattening -/

theorem rows_of_not_composite {s : Name} (h : M.isComposite s = false) : M.rows s = [] := by
  unfold isComposite at h; unfold rows
  cases ht : (M.decl s).table <;> simp_all

/-- More fuel than the rank does not change the flattening. -/
theorem flattenF_mono (hr : M.Ranked) : ∀ (n m : Nat) (s : Name), M.rank s < n → n ≤ m →
    M.flattenF m s = M.flattenF n s := by
  intro n
  induction n with
  | zero => intro m s h; omega
  | succ n ih =>
    intro m s hs hm
    cases m with
    | zero => omega
    | succ m =>
      simp only [flattenF]
      unfold List.flatMap
      congr 1
      apply List.map_congr_left
      intro r hrr
      congr 1
      cases hsub : M.subMachine r.target with
      | none => rfl
      | some p =>
        have := hr s r p hrr hsub
        exact ih m p (by omega) (by omega)

/-- The C++ recursion of `flatten_transition_table`. -/
theorem flatten_eq (hr : M.Ranked) (s : Name) :
    M.flatten s = (M.rows s).flatMap fun r =>
      ext s r :: (match M.subMachine r.target with
        | some p => M.flatten p
        | none => []) := by
  conv => lhs; unfold flatten flattenF
  unfold List.flatMap
  congr 1
  apply List.map_congr_left
  intro r hrr
  congr 1
  cases hsub : M.subMachine r.target with
  | none => rfl
  | some p =>
    have := hr s r p hrr hsub
    exact flattenF_mono hr _ _ p (by omega) (by omega)

theorem Nested.trans {a b c : Name} (h1 : M.Nested a b) (h2 : M.Nested b c) : M.Nested a c := by
  induction h2 with
  | refl => exact h1
  | sub _ hr hq ih => exact .sub ih hr hq

theorem mem_flatten_iff (hr : M.Ranked) (s : Name) (t : XRow) :
    t ∈ M.flatten s ↔ ∃ p r, M.Nested s p ∧ r ∈ M.rows p ∧ t = ext p r := by
  constructor
  · suffices H : ∀ n s, M.rank s < n → t ∈ M.flatten s →
        ∃ p r, M.Nested s p ∧ r ∈ M.rows p ∧ t = ext p r by
      exact H (M.rank s + 1) s (by omega)
    intro n
    induction n with
    | zero => intro s h; omega
    | succ n ih =>
      intro s hs ht
      rw [flatten_eq hr, List.mem_flatMap] at ht
      obtain ⟨r, hrr, ht⟩ := ht
      rcases List.mem_cons.1 ht with rfl | ht
      · exact ⟨s, r, .refl, hrr, rfl⟩
      · cases hsub : M.subMachine r.target with
        | none => simp [hsub] at ht
        | some p =>
          simp only [hsub] at ht
          have := hr s r p hrr hsub
          obtain ⟨p', r', h1, h2, h3⟩ := ih p (by omega) ht
          exact ⟨p', r', Nested.trans (.sub .refl hrr (subMachine_iff.1 hsub)) h1, h2, h3⟩
  · rintro ⟨p, r, hp, hrr, rfl⟩
    have key : ∀ q, M.Nested s q → ∀ t, t ∈ M.flatten q → t ∈ M.flatten s := by
      intro q hq
      induction hq with
      | refl => exact fun _ h => h
      | @sub p q r _ hr' hsub ih =>
        intro t ht
        have hsub := subMachine_iff.2 hsub
        apply ih
        rw [flatten_eq hr, List.mem_flatMap]
        exact ⟨r, hr', by simp [hsub, ht]⟩
    apply key p hp
    rw [flatten_eq hr, List.mem_flatMap]
    exact ⟨r, hrr, by simp⟩

theorem mem_flat_iff (hr : M.Ranked) {t : XRow} :
    t ∈ M.flat ↔ ∃ p r, M.InForce p ∧ r ∈ M.rows p ∧ t = ext p r := by
  unfold flat
  exact mem_flatten_iff hr _ _

theorem mem_parents_iff (hr : M.Ranked) {p : Name} :
    p ∈ M.composites ↔ M.InForce p ∧ M.rows p ≠ [] := by
  rw [composites_eq]
  unfold parents
  rw [mem_uniq, List.mem_map]
  constructor
  · rintro ⟨t, ht, rfl⟩
    obtain ⟨p, r, h1, h2, rfl⟩ := (mem_flat_iff hr).1 ht
    refine ⟨h1, fun e => ?_⟩
    have e' : M.rows p = [] := e
    rw [e'] at h2; cases h2
  · rintro ⟨h1, h2⟩
    obtain ⟨r, hr'⟩ := List.exists_mem_of_ne_nil _ h2
    exact ⟨ext p r, (mem_flat_iff hr).2 ⟨p, r, h1, hr', rfl⟩, rfl⟩

theorem flat_internal {t : XRow} (hr : M.Ranked) (h : t ∈ M.flat) : t.internal = false := by
  obtain ⟨p, r, _, _, rfl⟩ := (mem_flat_iff hr).1 h
  rfl

theorem flat_parent {t : XRow} (h : t ∈ M.flat) : t.parent ∈ M.composites := by
  rw [composites_eq]
  unfold parents
  rw [mem_uniq]
  exact List.mem_map_of_mem h

theorem Laid.root_mem (h : M.Laid) : M.root ∈ M.composites := by
  rw [mem_parents_iff h.ranked]
  refine ⟨.refl, ?_⟩
  intro he
  apply h.flat_ne_nil
  unfold flat
  rw [flatten_eq h.ranked, he]; rfl

theorem Regular.root_mem (h : M.Regular) : M.root ∈ M.composites := h.laid.root_mem

/-- A row in force mentions only states of the machine. -/
theorem mem_stateIds_of_flat {t : XRow} (h : t ∈ M.flat) :
    stripInitial t.source ∈ M.states ∧ t.target ∈ M.states := by
  rw [states_eq]
  unfold stateIds subStateIds
  refine ⟨List.mem_append_left _ ?_, List.mem_append_left _ ?_⟩
  · rw [mem_uniq, List.mem_flatMap]; exact ⟨t, h, by simp⟩
  · rw [mem_uniq, List.mem_flatMap]; exact ⟨t, h, by simp⟩

theorem mem_childIds {p : Name} {s : StTy} : s ∈ M.childIds p ↔ M.IsChild p s := by
  rw [isChild_def]; unfold childIds
  rw [mem_uniq, List.mem_flatMap]
  constructor
  · rintro ⟨r, hr, h⟩; exact ⟨r, hr, by simpa using h⟩
  · rintro ⟨r, hr, h⟩; exact ⟨r, hr, by simpa using h⟩

theorem child_mem_stateIds (hr : M.Ranked) {p : Name} {s : StTy} (hp : M.InForce p)
    (h : M.IsChild p s) : s ∈ M.states := by
  obtain ⟨r, hrr, h⟩ := h
  have := mem_stateIds_of_flat ((mem_flat_iff hr).2 ⟨p, r, hp, hrr, rfl⟩)
  rcases h with rfl | rfl
  · rw [plain_eq]; exact this.1
  · exact this.2

theorem initialOf?_eq {x : StTy} {s : Name} (h : initialOf? x = some s) :
    ∃ o, x = .ps o (.initial s) := by
  unfold initialOf? at h
  split at h <;> simp_all

theorem initial_isChild {p i : Name} (h : i ∈ M.initials p)
    (hs : ∀ r ∈ M.rows p, initialOf? r.target = none) : M.IsChild p (.st i) := by
  unfold initials at h
  rw [List.mem_filterMap] at h
  obtain ⟨x, hx, he⟩ := h
  unfold childStates at hx
  rw [mem_uniq, List.mem_flatMap] at hx
  obtain ⟨r, hr, hx⟩ := hx
  simp only [List.mem_cons, List.not_mem_nil, or_false] at hx
  rcases hx with rfl | rfl
  · obtain ⟨o, ho⟩ := initialOf?_eq he
    exact ⟨r, hr, Or.inl (by rw [ho]; rfl)⟩
  · rw [hs r hr] at he; cases he

end Machine
end Hsm
