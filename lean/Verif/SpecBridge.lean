import Verif.BasicLemmas
import Verif.Spec

/-!
# The compile-time model computes what the specification names

The lists of rows, places, events, composites and states of the specification are those
the model collects.
-/

namespace Hsm
namespace Machine
variable {M : Machine}

theorem declaredInitials_eq (M : Machine) (p : Name) :
    M.declaredInitials p = M.initials p := by
  unfold declaredInitials initials childStates
  rw [uniq_eq_eraseDups]
  rfl

theorem subMachine_iff {t : StTy} {q : Name} : M.subMachine t = some q ↔ M.Enters t q := by
  unfold subMachine Enters
  rcases t with s | ⟨o, _ | _ | _ | _ | _⟩ <;> simp
  all_goals
    rintro rfl
    rfl

theorem leadsInto_eq (t : StTy) : M.leadsInto t = M.subMachine t := by
  unfold leadsInto subMachine
  rcases t with s | ⟨o, _ | _ | _ | _ | _⟩ <;> simp [Option.filter]

theorem reading_eq (n : Nat) : ∀ p, M.reading n p = M.flattenF n p := by
  induction n with
  | zero => intro p; rfl
  | succ n ih =>
    intro p
    unfold reading flattenF
    rw [List.flatMap_def]
    congr 1
    apply List.map_congr_left
    intro r _
    rw [leadsInto_eq]
    cases M.subMachine r.target with
    | none => rfl
    | some q => simp only [Option.elim, ih]; rfl

theorem extRows_eq : M.extRows = M.flat := reading_eq _ _

theorem plain_eq (t : StTy) : plain t = stripInitial t := by
  rcases t with s | ⟨o, _ | _ | _ | _ | _⟩ <;> rfl

theorem places_eq : M.places = M.statePairs := by
  unfold places statePairs
  rw [← uniq_eq_eraseDups, extRows_eq]
  simp only [plain_eq]

theorem innerRows_eq (x : Name × StTy) : M.innerRows x = M.internalRowsOf x := by
  obtain ⟨p, s | ⟨o, k⟩⟩ := x
  · unfold innerRows internalRowsOf
    simp only
    cases hi : (M.decl s).itable with
    | none => rfl
    | some is =>
      simp only [Option.getD_some]
      split
      · congr 1
        funext i
        rw [List.map_map, childStates, uniq_eq_eraseDups]
        rfl
      · rw [List.map_eq_flatMap]
        rfl
  · rfl

theorem intRows_eq : M.intRows = M.iflat := by
  unfold intRows iflat
  rw [← uniq_eq_eraseDups, places_eq]
  congr 1
  congr 1
  funext x
  exact innerRows_eq x

theorem events_eq : M.events = M.eventIds := by
  unfold events eventIds
  rw [← uniq_eq_eraseDups, extRows_eq, intRows_eq]

theorem composites_eq : M.composites = M.parents := by
  unfold composites parents
  rw [← uniq_eq_eraseDups, extRows_eq]

theorem states_eq : M.states = M.stateIds := by
  unfold states stateIds subStateIds
  rw [← uniq_eq_eraseDups, extRows_eq]
  simp only [plain_eq]

theorem defers_eq (t : StTy) : M.defers t = (M.deferOf (stripInitial t)).getD [] := by
  rcases t with s | ⟨o, _ | _ | _ | _ | _⟩ <;> rfl

theorem toHistory_eq (t : StTy) : toHistory t = isHistory t := by
  rcases t with s | ⟨o, _ | _ | _ | _ | _⟩ <;> rfl

theorem anonymous_def : M.anonymous = decide (∃ t ∈ M.flat, t.event = .none) := by
  unfold anonymous; rw [extRows_eq]

theorem orthogonal_def :
    M.orthogonal = decide (∃ p ∈ M.parents, 1 < (M.declaredInitials p).length) := by
  unfold orthogonal; simp only [composites_eq]

theorem isChild_def {p : Name} {s : StTy} :
    M.IsChild p s ↔ ∃ r ∈ M.rows p, s = stripInitial r.source ∨ s = r.target := by
  unfold IsChild; simp only [plain_eq]

theorem deferCount_def (e : EventTy) (p : Name) (s : StTy) (t : XRow) : M.deferCount e p s t =
    if sourceLoc t.parent t.source = (p, s) then
      ((M.deferOf (stripInitial t.source)).getD []).count e
    else 0 := by
  unfold deferCount; rw [defers_eq]

theorem cands_def (e : EventTy) (p : Name) (s : StTy) : M.cands e p s =
    List.replicate ((M.flat.map (M.deferCount e p s)).sum) Cand.defer
      ++ (M.flat.reverse.filter (fun t => t.event = e)).flatMap (M.extCands p s)
      ++ (M.iflat.reverse.filter (fun t => t.event = e)).flatMap (intCands p s) := by
  unfold cands; rw [extRows_eq, intRows_eq]

theorem entryCb_eq (t : XRow) : M.entryOf t.target = M.entryCb t := by
  unfold entryOf entryCb
  split <;> simp_all

theorem exitCb_eq (t : XRow) : (match M.exitOf t.source with
    | some a => some a
    | none => M.pseudoExitOf t) = M.exitCb t := by
  unfold exitOf pseudoExitOf exitCb
  rcases t with ⟨p, src, e, g, a, tgt, i⟩
  rcases src with s | ⟨o, _ | _ | _ | _ | _⟩ <;> simp
  cases (M.decl s).onExit <;> rfl

theorem initEntryCb_eq (t : XRow) : M.initEntryOf t.target = M.initEntryCb t := by
  unfold initEntryOf initEntryCb
  simp only [declaredInitials_eq]
  rcases t with ⟨p, src, e, g, a, tgt, i⟩
  rcases tgt with s | ⟨o, k⟩ <;> simp
  split
  · cases (M.initials s).head? <;> rfl
  · rfl

/-- The callbacks the code runs for a row are the declared ones, in order. -/
theorem resolveAction_cbs (t : XRow) : (M.resolveAction t).getD [] = M.callbacks t := by
  have h : M.resolveEntryExitAction t = M.callbacks t := by
    unfold resolveEntryExitAction callbacks resolveExitAction resolveEntryAction
      resolveInitEntryAction
    rw [initEntryCb_eq, entryCb_eq, ← exitCb_eq]
    cases M.exitOf t.source <;> rfl
  unfold resolveAction
  split
  · exact h
  · rename_i hn
    rw [← h]
    simp only [Option.getD_none]
    unfold hasAction at hn
    simp only [Bool.or_eq_true, Option.isSome_iff_ne_none, not_or, Decidable.not_not] at hn
    obtain ⟨⟨⟨⟨h1, h2⟩, h3⟩, h4⟩, h5⟩ := hn
    unfold resolveEntryExitAction resolveExitAction resolveEntryAction resolveInitEntryAction
    rw [h1, h2, h3, h4, h5]
    simp

theorem toRun_eq (t : XRow) : M.toRun t = M.resolveAction t := by
  have h : M.hasAction t = false ↔
      t.action = none ∧ M.exitCb t = none ∧ M.entryCb t = none ∧ M.initEntryCb t = none := by
    unfold hasAction
    rw [← exitCb_eq, entryCb_eq, initEntryCb_eq]
    cases t.action <;> cases M.exitOf t.source <;> cases M.pseudoExitOf t <;>
      cases M.entryCb t <;> cases M.initEntryCb t <;> simp
  have hc := resolveAction_cbs (M := M) t
  unfold toRun
  split
  · rename_i hn
    unfold resolveAction
    rw [h.2 hn]; rfl
  · rename_i hn
    rw [← hc]
    unfold resolveAction
    have : M.hasAction t = true := by
      cases hh : M.hasAction t with
      | true => rfl
      | false => exact absurd (h.1 hh) hn
    rw [this]; rfl

theorem toRun_cbs (t : XRow) : (M.toRun t).getD [] = M.callbacks t := by
  rw [toRun_eq]; exact resolveAction_cbs t

theorem sourceLoc_eq (t : XRow) : sourceLoc t.parent t.source = (resolveSrcParent t, resolveSrc t) := by
  unfold sourceLoc resolveSrcParent resolveSrc
  rcases t with ⟨p, src, e, g, a, tgt, i⟩
  rcases src with s | ⟨o, _ | _ | _ | _ | _⟩ <;> rfl

theorem targetLoc_eq (t : XRow) :
    M.targetLoc t = (M.resolveDst t).map fun d => (M.resolveDstParent t, d) := by
  unfold targetLoc resolveDstParent resolveDst
  simp only [declaredInitials_eq]
  rcases t with ⟨p, src, e, g, a, tgt, i⟩
  rcases tgt with s | ⟨o, _ | _ | _ | _ | _⟩ <;> simp [Function.comp_def]
  cases hs : M.isComposite s <;> simp [Function.comp_def]

theorem rowCompiles_iff {t : XRow} : M.rowCompiles t = true ↔
    ∃ dst, M.resolveDst t = some dst ∧ resolveSrc t ∈ M.states ∧ dst ∈ M.states := by
  rw [states_eq]
  unfold rowCompiles
  cases h : M.resolveDst t <;> simp

theorem maxInit_pos_iff : M.maxInit ≠ 0 ↔ ∃ p ∈ M.composites, M.declaredInitials p ≠ [] := by
  rw [composites_eq]
  unfold maxInit
  have key : ∀ (l : List Name) (a : Nat), (l.map fun p => (M.initials p).length).foldl max a ≠ 0 ↔
      a ≠ 0 ∨ ∃ p ∈ l, M.declaredInitials p ≠ [] := by
    intro l
    induction l with
    | nil => intro a; simp
    | cons x l ih =>
      intro a
      rw [List.map_cons, List.foldl_cons, ih]
      have : max a (M.initials x).length ≠ 0 ↔ a ≠ 0 ∨ M.declaredInitials x ≠ [] := by
        rw [declaredInitials_eq, ← List.length_pos_iff]
        omega
      rw [this]
      simp only [List.mem_cons, exists_eq_or_imp, or_assoc]
  rw [key]
  simp

theorem accepts_iff : M.accepts = true ↔ M.Compiles := by
  have hrow : ∀ t, M.rowCompiles t = true ↔ (sourceLoc t.parent t.source).2 ∈ M.states ∧
      ∃ l, M.targetLoc t = some l ∧ l.2 ∈ M.states := by
    intro t
    rw [rowCompiles_iff, targetLoc_eq, sourceLoc_eq]
    constructor
    · rintro ⟨dst, h1, h2, h3⟩
      exact ⟨h2, _, by rw [h1]; rfl, h3⟩
    · rintro ⟨h2, l, h1, h3⟩
      obtain ⟨dst, h4, rfl⟩ := Option.map_eq_some_iff.1 h1
      exact ⟨dst, h4, h2, h3⟩
  unfold accepts
  simp only [Bool.and_eq_true, Bool.not_eq_true', List.isEmpty_eq_false_iff, decide_eq_true_eq,
    List.all_eq_true, Option.isNone_iff_eq_none, hrow, maxInit_pos_iff]
  rw [← declaredInitials_eq, ← events_eq, ← extRows_eq, ← intRows_eq]
  have hdef : (∀ t ∈ M.deferringRows, ∀ e ∈ (M.deferOf (stripInitial t.source)).getD [],
      e ∈ M.events) ↔ ∀ t ∈ M.extRows, ∀ e ∈ M.defers t.source, e ∈ M.events := by
    unfold deferringRows
    rw [extRows_eq]
    constructor
    · intro h t ht e he
      rw [defers_eq] at he
      refine h t (List.mem_filter.2 ⟨ht, ?_⟩) e he
      cases hd : M.deferOf (stripInitial t.source) with
      | none => rw [hd] at he; cases he
      | some l => rfl
    · intro h t ht e he
      rw [← defers_eq] at he
      exact h t (List.mem_filter.1 ht).1 e he
  rw [hdef]
  constructor
  · rintro ⟨⟨⟨⟨⟨⟨⟨h1, h2⟩, h3⟩, h4⟩, h5⟩, h6⟩, h7⟩, h8⟩
    refine ⟨h1, h2, h3, fun i hi => ⟨h4 i hi, h5 i hi⟩, ?_, h8⟩
    intro t ht
    rcases List.mem_append.1 ht with ht | ht
    · exact h6 t ht
    · exact h7 t ht
  · rintro ⟨h1, h2, h3, h4, h5, h6⟩
    exact ⟨⟨⟨⟨⟨⟨⟨h1, h2⟩, h3⟩, fun i hi => (h4 i hi).1⟩, fun i hi => (h4 i hi).2⟩,
      fun t ht => h5 t (List.mem_append_left _ ht)⟩, fun t ht => h5 t (List.mem_append_right _ ht)⟩,
      h6⟩

theorem Regular.accepts (h : M.Regular) : M.accepts = true := accepts_iff.2 h.compiles

/-- What is needed for the combined indices to work: the side conditions of `Regular` without what the
compiler of one of the headers checks. -/
structure Laid (M : Machine) : Prop where
  root : M.isComposite M.root = true
  rows : M.extRows ≠ []
  nesting : ∀ p r q, r ∈ M.rows p → M.Enters r.target q → M.rank q < M.rank p
  freshRoot : ∀ t ∈ M.extRows, plain t.source ≠ .st M.root ∧ t.target ≠ .st M.root
  fits : M.states.length * M.composites.length < 2 ^ 64

theorem Regular.laid (h : M.Regular) : M.Laid :=
  ⟨h.compiles.root, h.compiles.rows, h.nesting, h.freshRoot, h.fits⟩

theorem Laid.ranked (h : M.Laid) : M.Ranked := fun s r p hr hp =>
  h.nesting s r p hr (subMachine_iff.1 hp)

theorem Laid.rootFresh (h : M.Laid) : StTy.st M.root ∉ M.subStateIds := by
  unfold subStateIds
  rw [mem_uniq, List.mem_flatMap]
  rintro ⟨t, ht, hm⟩
  rw [← extRows_eq] at ht
  obtain ⟨h1, h2⟩ := h.freshRoot t ht
  rw [plain_eq] at h1
  simp only [List.mem_cons, List.not_mem_nil, or_false] at hm
  rcases hm with hm | hm
  · exact h1 hm.symm
  · exact h2 hm.symm

theorem Laid.small (h : M.Laid) : M.size < 2 ^ 64 := by
  have := h.fits
  rwa [states_eq, composites_eq] at this

theorem Regular.ranked (h : M.Regular) : M.Ranked := h.laid.ranked

theorem Regular.rootFresh (h : M.Regular) : StTy.st M.root ∉ M.subStateIds := h.laid.rootFresh

theorem Regular.small (h : M.Regular) : M.size < 2 ^ 64 := h.laid.small

theorem defaultCtor_eq (st : StTy) : M.defaultCtor st = M.selfMade st := by
  rcases st with s | ⟨o, _ | _ | _ | _ | _⟩ <;> rfl

namespace Scoped
variable (h : M.Scoped)
include h

theorem src : ∀ t ∈ M.flat ++ M.iflat, (sourceLoc t.parent t.source).1 ∈ M.composites := by
  have := h.sources
  rwa [extRows_eq, intRows_eq] at this

theorem comp : ∀ t ∈ M.flat, ∀ p, t.source = .st p → M.isComposite p = true → M.rows p ≠ [] →
    p ∈ M.composites := by
  have := h.leaves
  rwa [extRows_eq] at this

theorem dst : ∀ t ∈ M.flat ++ M.iflat, ∀ d, M.targetLoc t = some d → d.1 ∈ M.composites := by
  have := h.targets
  rwa [extRows_eq, intRows_eq] at this

end Scoped

end Machine
end Hsm
