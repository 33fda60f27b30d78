import Verif.Alike
import Verif.Machines

/-!
# C76: names do not matter

Two machines that differ only in the names of states, callbacks and events behave in the same way:
the same indices, the same results, the same calls up to the names.
-/

namespace Hsm

/-! ## Specification -/

/-- New names for states, callbacks and events. -/
structure Ren where
  st : Name → Name
  cb : Cb → Cb
  ev : EventTy → EventTy

/-- Different things keep different names, and the event of anonymous rows stays what it is. -/
structure Ren.Faithful (φ : Ren) : Prop where
  st : ∀ a b, φ.st a = φ.st b → a = b
  cb : ∀ a b, φ.cb a = φ.cb b → a = b
  ev : ∀ a b, φ.ev a = φ.ev b → a = b
  none : φ.ev .none = .none

section
variable (φ : Ren)

def Pseudo.ren : Pseudo → Pseudo
  | .initial s => .initial (φ.st s)
  | .exit p s => .exit (φ.st p) (φ.st s)
  | .entry p s => .entry (φ.st p) (φ.st s)
  | .direct p s => .direct (φ.st p) (φ.st s)
  | .history p => .history (φ.st p)

def StTy.ren : StTy → StTy
  | .st s => .st (φ.st s)
  | .ps o k => .ps o (k.ren φ)

def Row.ren (r : Row) : Row :=
  ⟨r.source.ren φ, φ.ev r.event, r.guard.map φ.cb, r.action.map φ.cb, r.target.ren φ⟩

def IRow.ren (r : IRow) : IRow := ⟨φ.ev r.event, r.guard.map φ.cb, r.action.map φ.cb⟩

def XRow.ren (t : XRow) : XRow :=
  ⟨φ.st t.parent, t.source.ren φ, φ.ev t.event, t.guard.map φ.cb, t.action.map φ.cb,
    t.target.ren φ, t.internal⟩

def Decl.ren (d : Decl) : Decl :=
  ⟨d.table.map fun l => l.map (Row.ren φ), d.itable.map fun l => l.map (IRow.ren φ),
    d.onEntry.map φ.cb, d.onExit.map φ.cb, d.defer.map fun l => l.map φ.ev, d.handler.map φ.cb,
    d.defaultCtor⟩

/-- `M'` is `M` with new names. -/
structure Renamed (M M' : Machine) : Prop where
  decl : ∀ x, M'.decl (φ.st x) = (M.decl x).ren φ
  root : M'.root = φ.st M.root
  rank : ∀ x, M'.rank (φ.st x) = M.rank x

/-- The machine `M` with new names, `old` saying which state a new name stands for. -/
def Machine.rename (M : Machine) (old : Name → Name) : Machine :=
  ⟨fun y => (M.decl (old y)).ren φ, φ.st M.root, fun y => M.rank (old y)⟩

def Args.ren (a : Args) : Args := ⟨φ.ev a.event, a.src.ren φ, a.dst.ren φ, a.byPtr, a.dep⟩

def Call.ren {P : Type} : Call P → Call P
  | .guard g a p res cur => .guard (φ.cb g) (a.ren φ) p res cur
  | .action ph g a p threw cur => .action ph (φ.cb g) (a.ren φ) p threw cur
  | .handler h e s d p threw cur => .handler (φ.cb h) (φ.ev e) (s.ren φ) d p threw cur

def Op.ren {P : Type} : Op P → Op P
  | .process e p => .process (φ.ev e) p
  | .set r p st => .set r (φ.st p) (st.ren φ)
  | .setDependency d => .setDependency d

/-- The callbacks of `sem'` do under the new names what those of `sem` do. -/
structure SemRenamed {P W : Type} (sem sem' : Sem P W) : Prop where
  guard : ∀ g a p w, sem'.guard (φ.cb g) (a.ren φ) p w = sem.guard g a p w
  action : ∀ g a p w, sem'.action (φ.cb g) (a.ren φ) p w = sem.action g a p w
  handler : ∀ h e s d p w, sem'.handler (φ.cb h) (φ.ev e) (s.ren φ) d p w = sem.handler h e s d p w
  alive : ∀ s w, sem'.alive (s.ren φ) w = sem.alive s w
  nonePayload : sem'.nonePayload = sem.nonePayload

end

theorem Machine.rename_renamed (φ : Ren) (M : Machine) {old : Name → Name}
    (h : ∀ x, old (φ.st x) = x) : Renamed φ M (M.rename φ old) :=
  ⟨fun x => by simp [Machine.rename, h], rfl, fun x => by simp [Machine.rename, h]⟩

/-! ## Lists -/

section
variable {α β : Type} [DecidableEq α] [DecidableEq β] {f : α → β} (hf : ∀ a b, f a = f b → a = b)
include hf

theorem mem_map_inj {x : α} {l : List α} : f x ∈ l.map f ↔ x ∈ l := by
  rw [List.mem_map]
  constructor
  · rintro ⟨y, hy, h⟩; rw [← hf _ _ h]; exact hy
  · intro h; exact ⟨x, h, rfl⟩

theorem uniq_map_inj (l : List α) : uniq (l.map f) = (uniq l).map f := by
  have key : ∀ (l acc : List α), (l.map f).foldl (fun acc x => if x ∈ acc then acc else acc ++ [x])
      (acc.map f) = (l.foldl (fun acc x => if x ∈ acc then acc else acc ++ [x]) acc).map f := by
    intro l
    induction l with
    | nil => intro acc; rfl
    | cons a l ih =>
      intro acc
      rw [List.map_cons, List.foldl_cons, List.foldl_cons]
      by_cases h : a ∈ acc
      · rw [if_pos h, if_pos ((mem_map_inj hf).2 h)]; exact ih acc
      · rw [if_neg h, if_neg (fun h' => h ((mem_map_inj hf).1 h'))]
        rw [← ih, List.map_append]; rfl
  exact key l []

theorem matchSum_map_inj (x : α) (n : BitVec 64) (l : List α) : ∀ i,
    matchSum (f x) n i (l.map f) = matchSum x n i l := by
  induction l with
  | nil => intro i; rfl
  | cons a l ih =>
    intro i
    rw [List.map_cons, matchSum, matchSum, ih]
    by_cases h : a = x
    · subst h; simp
    · have : f a ≠ f x := fun h' => h (hf _ _ h')
      simp [h, this]

theorem indexOf_map_inj (x : α) (l : List α) : indexOf (l.map f) (f x) = indexOf l x := by
  unfold indexOf
  rw [matchSum_map_inj hf, List.length_map]

end

theorem product_map {α β γ δ : Type} (f : α → γ) (g : β → δ) (l : List α) (m : List β) :
    product (l.map f) (m.map g) = (product l m).map fun x => (f x.1, g x.2) := by
  unfold product
  rw [List.flatMap_map, List.map_flatMap]
  congr 1
  funext a
  rw [List.map_map, List.map_map]; rfl

/-! ## What the compiler computes -/

section
variable {φ : Ren} (hφ : φ.Faithful) {M M' : Machine} (hM : Renamed φ M M')

section
include hφ

theorem Ren.Faithful.pseudo : ∀ a b : Pseudo, a.ren φ = b.ren φ → a = b := by
  intro a b h
  cases a <;> cases b <;> simp only [Pseudo.ren, Pseudo.initial.injEq, Pseudo.exit.injEq,
    Pseudo.entry.injEq, Pseudo.direct.injEq, Pseudo.history.injEq, reduceCtorEq] at h ⊢
  · exact hφ.st _ _ h
  · exact ⟨hφ.st _ _ h.1, hφ.st _ _ h.2⟩
  · exact ⟨hφ.st _ _ h.1, hφ.st _ _ h.2⟩
  · exact ⟨hφ.st _ _ h.1, hφ.st _ _ h.2⟩
  · exact hφ.st _ _ h

theorem Ren.Faithful.ty : ∀ a b : StTy, a.ren φ = b.ren φ → a = b := by
  intro a b h
  cases a <;> cases b <;> simp only [StTy.ren, StTy.st.injEq, StTy.ps.injEq, reduceCtorEq] at h ⊢
  · exact hφ.st _ _ h
  · exact ⟨h.1, hφ.pseudo _ _ h.2⟩

theorem Ren.Faithful.opt : ∀ a b : Option Cb, a.map φ.cb = b.map φ.cb → a = b := by
  intro a b h
  cases a <;> cases b <;> simp at h ⊢
  exact hφ.cb _ _ h

theorem Ren.Faithful.xrow : ∀ a b : XRow, a.ren φ = b.ren φ → a = b := by
  intro a b h
  cases a; cases b
  simp only [XRow.ren, XRow.mk.injEq] at h ⊢
  exact ⟨hφ.st _ _ h.1, hφ.ty _ _ h.2.1, hφ.ev _ _ h.2.2.1, hφ.opt _ _ h.2.2.2.1,
    hφ.opt _ _ h.2.2.2.2.1, hφ.ty _ _ h.2.2.2.2.2.1, h.2.2.2.2.2.2⟩

theorem Ren.Faithful.loc : ∀ a b : Name × StTy, (φ.st a.1, a.2.ren φ) = (φ.st b.1, b.2.ren φ) →
    a = b := by
  intro a b h
  simp only [Prod.mk.injEq] at h
  exact Prod.ext (hφ.st _ _ h.1) (hφ.ty _ _ h.2)

end

namespace Renamed
section
include hM

theorem isComposite (s : Name) : M'.isComposite (φ.st s) = M.isComposite s := by
  unfold Machine.isComposite
  rw [hM.decl]; simp [Decl.ren]

theorem rows (s : Name) : M'.rows (φ.st s) = (M.rows s).map (Row.ren φ) := by
  unfold Machine.rows
  rw [hM.decl]
  cases h : (M.decl s).table <;> simp [Decl.ren, h]

theorem subMachine (t : StTy) : M'.subMachine (t.ren φ) = (M.subMachine t).map φ.st := by
  rcases t with s | ⟨o, _ | _ | _ | _ | _⟩ <;>
    simp only [StTy.ren, Pseudo.ren, Machine.subMachine, hM.isComposite] <;>
    first
      | rfl
      | (split <;> rfl)

theorem flattenF (n : Nat) : ∀ p, M'.flattenF n (φ.st p) = (M.flattenF n p).map (XRow.ren φ) := by
  induction n with
  | zero => intro p; rfl
  | succ n ih =>
    intro p
    rw [Machine.flattenF, Machine.flattenF, hM.rows, List.flatMap_map, List.map_flatMap]
    congr 1
    funext r
    rw [List.map_cons]
    congr 1
    rw [show (r.ren φ).target = r.target.ren φ from rfl, hM.subMachine]
    cases M.subMachine r.target with
    | none => rfl
    | some q => exact ih q

theorem flat : M'.flat = M.flat.map (XRow.ren φ) := by
  unfold Machine.flat Machine.flatten
  rw [hM.root, hM.rank, hM.flattenF]

omit hM in
theorem stripInitial (t : StTy) : Machine.stripInitial (t.ren φ) = (Machine.stripInitial t).ren φ := by
  rcases t with s | ⟨o, _ | _ | _ | _ | _⟩ <;> rfl

omit hM in
theorem initialOf? (t : StTy) : Machine.initialOf? (t.ren φ) = (Machine.initialOf? t).map φ.st := by
  rcases t with s | ⟨o, _ | _ | _ | _ | _⟩ <;> rfl

omit hM in
theorem isHistory (t : StTy) : Machine.isHistory (t.ren φ) = Machine.isHistory t := by
  rcases t with s | ⟨o, _ | _ | _ | _ | _⟩ <;> rfl

theorem hasHistory : M'.hasHistory = M.hasHistory := by
  unfold Machine.hasHistory
  rw [hM.flat, List.any_map]
  congr 1
  funext t
  exact isHistory _

theorem deferOf (t : StTy) : M'.deferOf (t.ren φ) = (M.deferOf t).map fun l => l.map φ.ev := by
  cases t with
  | st s => simp only [StTy.ren, Machine.deferOf, hM.decl]; rfl
  | ps => rfl

theorem deferringRows : M'.deferringRows = M.deferringRows.map (XRow.ren φ) := by
  unfold Machine.deferringRows
  rw [hM.flat, List.filter_map]
  congr 1
  congr 1
  funext t
  show (M'.deferOf (Machine.stripInitial (t.source.ren φ))).isSome = _
  rw [stripInitial, hM.deferOf, Option.isSome_map]

theorem hasDefer : M'.hasDefer = M.hasDefer := by
  unfold Machine.hasDefer
  rw [hM.deferringRows, List.isEmpty_map]

theorem entryOf (t : StTy) : M'.entryOf (t.ren φ) = (M.entryOf t).map φ.cb := by
  cases t with
  | st s => simp only [StTy.ren, Machine.entryOf, hM.decl]; rfl
  | ps => rfl

theorem exitOf (t : StTy) : M'.exitOf (t.ren φ) = (M.exitOf t).map φ.cb := by
  cases t with
  | st s => simp only [StTy.ren, Machine.exitOf, hM.decl]; rfl
  | ps => rfl

theorem pseudoExitOf (t : XRow) : M'.pseudoExitOf (t.ren φ) = (M.pseudoExitOf t).map φ.cb := by
  rcases t with ⟨p, (s | ⟨o, _ | _ | _ | _ | _⟩), e, g, a, d, i⟩ <;>
    simp only [XRow.ren, StTy.ren, Pseudo.ren, Machine.pseudoExitOf, hM.decl] <;> rfl

theorem defaultCtor (t : StTy) : M'.defaultCtor (t.ren φ) = M.defaultCtor t := by
  cases t with
  | st s => simp only [StTy.ren, Machine.defaultCtor, hM.decl]; rfl
  | ps => rfl

omit hM in
theorem resolveSrc (t : XRow) : Machine.resolveSrc (t.ren φ) = (Machine.resolveSrc t).ren φ := by
  rcases t with ⟨p, (s | ⟨o, _ | _ | _ | _ | _⟩), e, g, a, d, i⟩ <;> rfl

omit hM in
theorem resolveSrcParent (t : XRow) :
    Machine.resolveSrcParent (t.ren φ) = φ.st (Machine.resolveSrcParent t) := by
  rcases t with ⟨p, (s | ⟨o, _ | _ | _ | _ | _⟩), e, g, a, d, i⟩ <;> rfl

theorem resolveDstParent (t : XRow) :
    M'.resolveDstParent (t.ren φ) = φ.st (M.resolveDstParent t) := by
  rcases t with ⟨p, so, e, g, a, (s | ⟨o, _ | _ | _ | _ | _⟩), i⟩ <;>
    simp only [XRow.ren, StTy.ren, Pseudo.ren, Machine.resolveDstParent, hM.isComposite]
  split <;> rfl

include hφ

theorem parents : M'.parents = M.parents.map φ.st := by
  unfold Machine.parents
  rw [hM.flat, List.map_map, ← uniq_map_inj hφ.st, List.map_map]; rfl

theorem subStateIds : M'.subStateIds = M.subStateIds.map (StTy.ren φ) := by
  unfold Machine.subStateIds
  rw [hM.flat, ← uniq_map_inj hφ.ty, List.flatMap_map, List.map_flatMap]
  congr 2
  funext t
  show [Machine.stripInitial (t.source.ren φ), t.target.ren φ] = _
  rw [stripInitial]; rfl

theorem stateIds : M'.stateIds = M.stateIds.map (StTy.ren φ) := by
  unfold Machine.stateIds
  rw [hM.subStateIds hφ, hM.root, List.map_append]; rfl

theorem childIds (s : Name) : M'.childIds (φ.st s) = (M.childIds s).map (StTy.ren φ) := by
  unfold Machine.childIds
  rw [hM.rows, ← uniq_map_inj hφ.ty, List.flatMap_map, List.map_flatMap]
  congr 2
  funext r
  show [Machine.stripInitial (r.source.ren φ), r.target.ren φ] = _
  rw [stripInitial]; rfl

theorem childStates (s : Name) : M'.childStates (φ.st s) = (M.childStates s).map (StTy.ren φ) := by
  unfold Machine.childStates
  rw [hM.rows, ← uniq_map_inj hφ.ty, List.flatMap_map, List.map_flatMap]
  rfl

theorem initials (s : Name) : M'.initials (φ.st s) = (M.initials s).map φ.st := by
  unfold Machine.initials
  rw [hM.childStates hφ, List.filterMap_map, List.map_filterMap]
  congr 1
  funext t
  exact initialOf? t

theorem statePairs : M'.statePairs = M.statePairs.map fun x => (φ.st x.1, x.2.ren φ) := by
  unfold Machine.statePairs
  rw [hM.flat, hM.root, ← uniq_map_inj hφ.loc, List.map_cons, List.flatMap_map, List.map_flatMap]
  congr 2
  congr 1
  funext t
  show [(φ.st t.parent, Machine.stripInitial (t.source.ren φ)), (φ.st t.parent, t.target.ren φ)] = _
  rw [stripInitial]; rfl

theorem internalRowsOf (x : Name × StTy) :
    M'.internalRowsOf (φ.st x.1, x.2.ren φ) = (M.internalRowsOf x).map (XRow.ren φ) := by
  obtain ⟨p, s | ⟨o, k⟩⟩ := x
  · simp only [StTy.ren, Machine.internalRowsOf, hM.decl, hM.isComposite]
    cases h : (M.decl s).itable with
    | none => simp [Decl.ren, h]
    | some is =>
      simp only [Decl.ren, h, Option.map_some]
      split
      · rw [List.flatMap_map, List.map_flatMap]
        congr 1
        funext i
        rw [hM.childStates hφ, List.map_map, List.map_map]; rfl
      · rw [List.map_map, List.map_map]; rfl
  · rfl

theorem iflat : M'.iflat = M.iflat.map (XRow.ren φ) := by
  unfold Machine.iflat
  rw [hM.statePairs hφ, ← uniq_map_inj hφ.xrow, List.flatMap_map, List.map_flatMap]
  congr 2
  funext x
  exact hM.internalRowsOf hφ x

theorem eventIds : M'.eventIds = M.eventIds.map φ.ev := by
  unfold Machine.eventIds
  rw [hM.flat, hM.iflat hφ, ← List.map_append, List.map_map, ← uniq_map_inj hφ.ev, List.map_map]; rfl

theorem hasAnon : M'.hasAnon = M.hasAnon := by
  unfold Machine.hasAnon
  rw [hM.flat, List.any_map]
  congr 1
  funext t
  show (φ.ev t.event == .none) = _
  by_cases h : t.event = .none
  · rw [h, hφ.none]
  · have : φ.ev t.event ≠ .none := fun h' => h (hφ.ev _ _ (h'.trans hφ.none.symm))
    rw [beq_eq_false_iff_ne.2 h, beq_eq_false_iff_ne.2 this]

theorem nParents : M'.nParents = M.nParents := by
  unfold Machine.nParents; rw [hM.parents hφ, List.length_map]

theorem nStates : M'.nStates = M.nStates := by
  unfold Machine.nStates; rw [hM.stateIds hφ, List.length_map]

theorem size : M'.size = M.size := by
  unfold Machine.size; rw [hM.nStates hφ, hM.nParents hφ]

theorem comb (p : Name) (s : StTy) : M'.comb (φ.st p) (s.ren φ) = M.comb p s := by
  unfold Machine.comb Machine.combinedIds
  rw [hM.parents hφ, hM.stateIds hφ, product_map]
  exact indexOf_map_inj hφ.loc (p, s) _

theorem parentIdx (p : Name) : M'.parentIdx (φ.st p) = M.parentIdx p := by
  unfold Machine.parentIdx
  rw [hM.parents hφ, indexOf_map_inj hφ.st]

theorem stateIdx (s : StTy) : M'.stateIdx (s.ren φ) = M.stateIdx s := by
  unfold Machine.stateIdx
  rw [hM.stateIds hφ, indexOf_map_inj hφ.ty]

theorem maxInit : M'.maxInit = M.maxInit := by
  unfold Machine.maxInit
  rw [hM.parents hφ, List.map_map]
  congr 2
  funext p
  show (M'.initials (φ.st p)).length = _
  rw [hM.initials hφ, List.length_map]

theorem parallel : M'.parallel = M.parallel := by
  unfold Machine.parallel; rw [hM.maxInit hφ]

theorem initialTable : M'.initialTable = M.initialTable := by
  unfold Machine.initialTable
  rw [hM.parents hφ, List.map_map]
  congr 1
  funext p
  show (M'.initials (φ.st p)).map _ = _
  rw [hM.initials hφ, List.map_map]
  congr 1
  funext i
  exact hM.comb hφ p (.st i)

theorem resolveDst (t : XRow) : M'.resolveDst (t.ren φ) = (M.resolveDst t).map (StTy.ren φ) := by
  rcases t with ⟨p, so, e, g, a, (s | ⟨o, _ | _ | _ | _ | _⟩), i⟩ <;>
    simp only [XRow.ren, StTy.ren, Pseudo.ren, Machine.resolveDst, hM.isComposite, hM.initials hφ,
      List.head?_map, Option.map_map, Option.map_some] <;> first | rfl | skip
  split
  · cases (M.initials s).head? <;> rfl
  · rfl

theorem initEntryOf (t : StTy) : M'.initEntryOf (t.ren φ) = (M.initEntryOf t).map φ.cb := by
  cases t with
  | st s =>
    simp only [StTy.ren, Machine.initEntryOf, hM.isComposite, hM.initials hφ, List.head?_map]
    split
    · cases (M.initials s).head? with
      | none => rfl
      | some i => simp only [Option.map_some, hM.decl]; rfl
    · rfl
  | ps => rfl

theorem hasAction (t : XRow) : M'.hasAction (t.ren φ) = M.hasAction t := by
  unfold Machine.hasAction
  simp only [hM.pseudoExitOf, show (t.ren φ).target = t.target.ren φ from rfl,
    show (t.ren φ).source = t.source.ren φ from rfl,
    show (t.ren φ).action = t.action.map φ.cb from rfl, hM.entryOf, hM.exitOf, hM.initEntryOf hφ,
    Option.isSome_map]

theorem resolveEntryExitAction (t : XRow) : M'.resolveEntryExitAction (t.ren φ) =
    (M.resolveEntryExitAction t).map fun x => (x.1, φ.cb x.2) := by
  have h1 : M'.resolveExitAction (t.ren φ) = (M.resolveExitAction t).map φ.cb := by
    unfold Machine.resolveExitAction
    simp only [hM.pseudoExitOf, show (t.ren φ).source = t.source.ren φ from rfl,
      show (t.ren φ).internal = t.internal from rfl, hM.exitOf]
    split
    · rfl
    · cases M.exitOf t.source <;> rfl
  have h2 : M'.resolveEntryAction (t.ren φ) = (M.resolveEntryAction t).map φ.cb := by
    unfold Machine.resolveEntryAction
    simp only [show (t.ren φ).target = t.target.ren φ from rfl,
      show (t.ren φ).internal = t.internal from rfl, hM.entryOf]
    split <;> rfl
  have h3 : M'.resolveInitEntryAction (t.ren φ) = (M.resolveInitEntryAction t).map φ.cb :=
    hM.initEntryOf hφ t.target
  have ho : ∀ (ph : Phase) (o : Option Cb), (o.map φ.cb).toList.map (ph, ·) =
      (o.toList.map (ph, ·)).map fun x => (x.1, φ.cb x.2) := by
    intro ph o; cases o <;> rfl
  unfold Machine.resolveEntryExitAction
  rw [h1, h2, h3, show (t.ren φ).action = t.action.map φ.cb from rfl]
  simp only [ho, List.map_append]

theorem resolveAction (t : XRow) : M'.resolveAction (t.ren φ) =
    (M.resolveAction t).map fun l => l.map fun x => (x.1, φ.cb x.2) := by
  unfold Machine.resolveAction
  rw [hM.hasAction hφ, hM.resolveEntryExitAction hφ]
  split <;> rfl

theorem rowCompiles (t : XRow) : M'.rowCompiles (t.ren φ) = M.rowCompiles t := by
  unfold Machine.rowCompiles
  rw [hM.resolveDst hφ]
  cases M.resolveDst t with
  | none => rfl
  | some d =>
    simp only [Option.map_some, resolveSrc, hM.stateIds hφ, mem_map_inj hφ.ty]

theorem accepts : M'.accepts = M.accepts := by
  unfold Machine.accepts
  have h1 : M'.flat.all M'.rowCompiles = M.flat.all M.rowCompiles := by
    rw [hM.flat, List.all_map]
    congr 1
    funext t
    exact hM.rowCompiles hφ t
  have h2 : M'.iflat.all M'.rowCompiles = M.iflat.all M.rowCompiles := by
    rw [hM.iflat hφ, List.all_map]
    congr 1
    funext t
    exact hM.rowCompiles hφ t
  have h3 : (M'.initials M'.root).all (fun s => !M'.isComposite s) =
      (M.initials M.root).all (fun s => !M.isComposite s) := by
    rw [hM.root, hM.initials hφ, List.all_map]
    congr 1
    funext s
    show (!M'.isComposite (φ.st s)) = _
    rw [hM.isComposite]
  have h4 : (M'.initials M'.root).all (fun s => (M'.decl s).itable.isNone) =
      (M.initials M.root).all (fun s => (M.decl s).itable.isNone) := by
    rw [hM.root, hM.initials hφ, List.all_map]
    congr 1
    funext s
    show (M'.decl (φ.st s)).itable.isNone = _
    rw [hM.decl]
    simp [Decl.ren]
  have h5 : M'.deferringRows.all (fun t => ((M'.deferOf (Machine.stripInitial t.source)).getD []).all
      fun e => decide (e ∈ M'.eventIds)) = M.deferringRows.all (fun t =>
        ((M.deferOf (Machine.stripInitial t.source)).getD []).all fun e => decide (e ∈ M.eventIds)) := by
    rw [hM.deferringRows, List.all_map]
    congr 1
    funext t
    show ((M'.deferOf (Machine.stripInitial (t.source.ren φ))).getD []).all _ = _
    rw [stripInitial, hM.deferOf, hM.eventIds hφ]
    cases M.deferOf (Machine.stripInitial t.source) with
    | none => rfl
    | some l =>
      simp only [Option.map_some, Option.getD_some, List.all_map]
      congr 1
      funext e
      simp only [Function.comp, mem_map_inj hφ.ev]
  rw [h1, h2, h3, h4, h5, hM.maxInit hφ, hM.root, hM.isComposite, hM.flat, List.isEmpty_map]

end
end Renamed

/-! ## Tables -/

def Exec.ren (φ : Ren) (x : Exec) : Exec :=
  ⟨x.internal, x.action.map fun l => l.map fun y => (y.1, φ.cb y.2), x.guard.map φ.cb, x.src.ren φ,
    x.dst.ren φ, x.dep⟩

def Entry.ren (φ : Ren) (e : Entry) : Entry :=
  ⟨e.to, e.history, e.defer, e.internal, e.tr.map (Exec.ren φ)⟩

/-- The same entries under new names. -/
def TableRen (φ : Ren) (T T' : Table) : Prop := ∀ e c, T' (φ.ev e) c = (T e c).map (Entry.ren φ)

/-- The same handlers under new names. -/
def HTableRen (φ : Ren) (H H' : HTable) : Prop :=
  ∀ e c, H' (φ.ev e) c = (H e c).map fun x => (x.1.ren φ, x.2)

/-- Both fail in the same way, or the results correspond. -/
def ExRel {α β : Type} (R : α → β → Prop) : Except BuildErr α → Except BuildErr β → Prop
  | .ok a, .ok b => R a b
  | .error x, .error y => x = y
  | _, _ => False

theorem ExRel.bind {α β α' β' : Type} {R : α → β → Prop} {R' : α' → β' → Prop}
    {x : Except BuildErr α} {y : Except BuildErr β} {f : α → Except BuildErr α'}
    {g : β → Except BuildErr β'} (h : ExRel R x y) (hf : ∀ a b, R a b → ExRel R' (f a) (g b)) :
    ExRel R' (x >>= f) (y >>= g) := by
  cases x <;> cases y <;> first | exact h.elim | skip
  · exact h
  · exact hf _ _ h

theorem ExRel.foldlM {α β γ δ : Type} {R : α → β → Prop} {f : α → γ → Except BuildErr α}
    {g : β → δ → Except BuildErr β} (k : γ → δ) (l : List γ)
    (hf : ∀ a b, ∀ c ∈ l, R a b → ExRel R (f a c) (g b (k c))) :
    ∀ a b, R a b → ExRel R (l.foldlM f a) ((l.map k).foldlM g b) := by
  induction l with
  | nil => intro a b h; exact h
  | cons c l ih =>
    intro a b h
    rw [List.map_cons, List.foldlM_cons, List.foldlM_cons]
    exact (hf a b c (by simp) h).bind fun a b h => ih (fun a b c hc => hf a b c (by simp [hc])) a b h

namespace Renamed
section
include hφ hM

theorem pushFront {T T' : Table} (h : TableRen φ T T') (e : EventTy) (c : Nat) (en : Entry) :
    ExRel (TableRen φ) (M.pushFront T e c en) (M'.pushFront T' (φ.ev e) c (en.ren φ)) := by
  unfold Machine.pushFront
  rw [hM.size hφ]
  split
  · intro e' c'
    dsimp only
    by_cases hc : e' = e ∧ c' = c
    · rw [if_pos hc, if_pos ⟨by rw [hc.1], hc.2⟩, h, List.map_cons]
    · rw [if_neg hc, if_neg (fun h' => hc ⟨hφ.ev _ _ h'.1, h'.2⟩), h]
  · rfl

theorem mkEntry (dep : Dep) (t : XRow) (src dst : StTy) :
    M'.mkEntry dep (t.ren φ) (src.ren φ) (dst.ren φ) = (M.mkEntry dep t src dst).ren φ := by
  unfold Machine.mkEntry Machine.mkExec Machine.resolveHistory
  rw [hM.resolveDstParent, hM.comb hφ, hM.resolveAction hφ,
    show (t.ren φ).target = t.target.ren φ from rfl, isHistory]
  rfl

theorem addEntry (dep : Dep) {T T' : Table} (h : TableRen φ T T') (t : XRow) :
    ExRel (TableRen φ) (M.addEntry dep T t) (M'.addEntry dep T' (t.ren φ)) := by
  unfold Machine.addEntry
  rw [hM.resolveDst hφ]
  cases M.resolveDst t with
  | none => rfl
  | some d =>
    simp only [Option.map_some, resolveSrc, hM.stateIds hφ, mem_map_inj hφ.ty]
    split
    · rw [resolveSrcParent, hM.comb hφ, hM.mkEntry hφ]
      exact hM.pushFront hφ h _ _ _
    · rfl

theorem addExit (dep : Dep) {T T' : Table} (h : TableRen φ T T') (t : XRow) (p : Name) (c : StTy) :
    ExRel (TableRen φ) (M.addExit dep t p T c) (M'.addExit dep (t.ren φ) (φ.st p) T' (c.ren φ)) := by
  unfold Machine.addExit
  rw [hM.resolveDst hφ]
  cases M.resolveDst t with
  | none => rfl
  | some d =>
    simp only [Option.map_some, hM.stateIds hφ, show StTy.st (φ.st p) = (StTy.st p).ren φ from rfl,
      mem_map_inj hφ.ty]
    split
    · rw [hM.comb hφ, hM.mkEntry hφ]
      exact hM.pushFront hφ h _ _ _
    · rfl

theorem addExits (dep : Dep) {T T' : Table} (h : TableRen φ T T') (t : XRow) :
    ExRel (TableRen φ) (M.addExits dep T t) (M'.addExits dep T' (t.ren φ)) := by
  unfold Machine.addExits
  rw [show (t.ren φ).internal = t.internal from rfl,
    show (t.ren φ).source = t.source.ren φ from rfl]
  split
  · exact h
  · cases t.source with
    | ps => exact h
    | st p =>
      simp only [StTy.ren, hM.isComposite]
      split
      · rw [hM.childIds hφ]
        exact ExRel.foldlM _ _ (fun T T' c _ h => hM.addExit hφ dep h t p c) _ _ h
      · exact h

theorem addRow (dep : Dep) {T T' : Table} (h : TableRen φ T T') (t : XRow) :
    ExRel (TableRen φ) (M.addRow dep T t) (M'.addRow dep T' (t.ren φ)) :=
  (hM.addEntry hφ dep h t).bind fun _ _ h => hM.addExits hφ dep h t

theorem fillWith (dep : Dep) (rs : List XRow) {T T' : Table} (h : TableRen φ T T') :
    ExRel (TableRen φ) (M.fillWith dep rs T) (M'.fillWith dep (rs.map (XRow.ren φ)) T') := by
  unfold Machine.fillWith
  have he : uniq ((rs.map (XRow.ren φ)).map (·.event)) = (uniq (rs.map (·.event))).map φ.ev := by
    rw [← uniq_map_inj hφ.ev, List.map_map, List.map_map]; rfl
  rw [he]
  refine ExRel.foldlM _ _ (fun T T' e _ h => ?_) _ _ h
  have hfil : (rs.map (XRow.ren φ)).filter (fun t => t.event = φ.ev e) =
      (rs.filter fun t => t.event = e).map (XRow.ren φ) := by
    rw [List.filter_map]
    congr 2
    funext t
    show decide (φ.ev t.event = φ.ev e) = decide (t.event = e)
    by_cases h : t.event = e
    · simp [h]
    · have : φ.ev t.event ≠ φ.ev e := fun h' => h (hφ.ev _ _ h')
      simp [h, this]
  rw [hfil]
  exact ExRel.foldlM _ _ (fun T T' t _ h => hM.addRow hφ dep h t) _ _ h

theorem fillDeferred {T T' : Table} (h : TableRen φ T T') :
    ExRel (TableRen φ) (M.fillDeferred T) (M'.fillDeferred T') := by
  unfold Machine.fillDeferred
  rw [hM.deferringRows]
  refine ExRel.foldlM _ _ (fun T T' t _ h => ?_) _ _ h
  unfold Machine.addDeferred
  rw [show (t.ren φ).source = t.source.ren φ from rfl, stripInitial, hM.deferOf]
  have hg : ((M.deferOf (Machine.stripInitial t.source)).map fun l => l.map φ.ev).getD [] =
      ((M.deferOf (Machine.stripInitial t.source)).getD []).map φ.ev := by
    cases M.deferOf (Machine.stripInitial t.source) <;> rfl
  rw [hg]
  refine ExRel.foldlM _ _ (fun T T' e _ h => ?_) _ _ h
  rw [resolveSrcParent, resolveSrc, hM.comb hφ]
  exact hM.pushFront hφ h e _ Machine.deferEntry

theorem fill (dep : Dep) {T T' : Table} (h : TableRen φ T T') :
    ExRel (TableRen φ) (M.fill dep T) (M'.fill dep T') := by
  unfold Machine.fill
  rw [hM.iflat hφ, hM.flat]
  exact (hM.fillWith hφ dep _ h).bind fun _ _ h => (hM.fillWith hφ dep _ h).bind fun _ _ h =>
    hM.fillDeferred hφ h

theorem fillHandlers (dep : Dep) {H H' : HTable} (h : HTableRen φ H H') :
    ExRel (HTableRen φ) (M.fillHandlers dep H) (M'.fillHandlers dep H') := by
  unfold Machine.fillHandlers
  rw [hM.eventIds hφ, hM.parents hφ, hM.stateIds hφ, hM.size hφ]
  refine ExRel.foldlM _ _ (fun H H' e _ h => ?_) _ _ h
  refine ExRel.foldlM _ _ (fun H H' p _ h => ?_) _ _ h
  refine ExRel.foldlM _ _ (fun H H' s _ h => ?_) _ _ h
  rw [hM.comb hφ]
  split
  · intro e' c'
    dsimp only
    by_cases hc : e' = e ∧ c' = M.comb p s
    · rw [if_pos hc, if_pos ⟨by rw [hc.1], hc.2⟩]; rfl
    · rw [if_neg hc, if_neg (fun h' => hc ⟨hφ.ev _ _ h'.1, h'.2⟩), h]
  · rfl

end
end Renamed

/-! ## The running machine -/

/-- The same machine object under new names: the same numbers everywhere. -/
structure SMRen {P W : Type} (φ : Ren) (s s' : SM P W) : Prop where
  cur : s'.cur = s.cur
  initial : s'.initial = s.initial
  hist : s'.hist = s.hist
  queue : s'.queue = s.queue.map fun x => (φ.ev x.1, x.2)
  regions : s'.regions = s.regions
  table : TableRen φ s.table s'.table
  handlers : HTableRen φ s.handlers s'.handlers
  world : s'.world = s.world
  trace : s'.trace = s.trace.map (Call.ren φ)
  log : s'.log = s.log

/-- The same outcome under new names. -/
abbrev SameRes {P W α : Type} (φ : Ren) : Res (SM P W) α → Res (SM P W) α → Prop :=
  Res.Rel Eq (SMRen φ)

namespace Renamed
section
variable {P W : Type} {sem sem' : Sem P W} {s s' : SM P W} (hs : SMRen φ s s')
  (hsem : SemRenamed φ sem sem')

theorem sbind {α β : Type} {r r' : Res (SM P W) α} {f f' : α → SM P W → Res (SM P W) β}
    (h : SameRes φ r r') (hf : ∀ a s s', SMRen φ s s' → SameRes φ (f a s) (f' a s')) :
    SameRes φ (r.bind f) (r'.bind f') :=
  Res.Rel.bind h fun a b s s' hab hs => by cases hab; exact hf a s s' hs

theorem readCur (hs : SMRen φ s s') (r : Nat) : SameRes φ (readCur r s) (Hsm.readCur r s') := by
  unfold Hsm.readCur
  rw [hs.cur]
  split
  · rfl
  · rfl
  · exact ⟨rfl, hs⟩

theorem writeCur (hs : SMRen φ s s') (r c : Nat) :
    SameRes φ (writeCur r c s) (Hsm.writeCur r c s') := by
  unfold Hsm.writeCur
  rw [hs.cur]
  split
  · exact ⟨rfl, { hs with cur := rfl }⟩
  · rfl

theorem readHistory (hs : SMRen φ s s') (p r : Nat) :
    SameRes φ (readHistory p r s) (Hsm.readHistory p r s') := by
  unfold Hsm.readHistory
  rw [hs.hist]
  split
  · rfl
  · split
    · rfl
    · exact ⟨rfl, hs⟩

include hφ hM

theorem currentParent (hs : SMRen φ s s') :
    SameRes φ (currentParent M s) (Hsm.currentParent M' s') := by
  unfold Hsm.currentParent
  rw [hM.nStates hφ]
  exact sbind (readCur hs 0) fun c s s' hs => ⟨rfl, hs⟩

theorem currentRegions (hs : SMRen φ s s') : currentRegions M' s' = Hsm.currentRegions M s := by
  unfold Hsm.currentRegions
  rw [hM.parallel hφ, hs.regions]

theorem updateRegions (hs : SMRen φ s s') :
    SameRes φ (updateRegions M s) (Hsm.updateRegions M' s') := by
  unfold Hsm.updateRegions
  rw [hM.parallel hφ]
  split
  · refine sbind (hM.currentParent hφ hs) fun c s s' hs => ?_
    rw [hs.initial]
    split
    · rfl
    · exact ⟨rfl, { hs with initial := rfl, regions := rfl }⟩
  · exact ⟨rfl, hs⟩

theorem saveHistory (hs : SMRen φ s s') (r : Nat) :
    SameRes φ (saveHistory M r s) (Hsm.saveHistory M' r s') := by
  unfold Hsm.saveHistory
  refine sbind (hM.currentParent hφ hs) fun p s s' hs => ?_
  refine sbind (readCur hs r) fun c s s' hs => ?_
  rw [hs.hist]
  split
  · rfl
  · split
    · exact ⟨rfl, { hs with hist := rfl }⟩
    · rfl

theorem moveState (hs : SMRen φ s s') (r : Nat) (e : Entry) :
    SameRes φ (moveState M r e s) (Hsm.moveState M' r (e.ren φ) s') := by
  unfold Hsm.moveState
  rw [hM.hasHistory, hM.nStates hφ]
  split
  · refine sbind (hM.saveHistory hφ hs r) fun _ s s' hs => ?_
    refine sbind ?_ fun _ s s' hs => hM.updateRegions hφ hs
    show SameRes φ _ (if e.history then _ else _)
    split
    · exact sbind (readHistory hs _ r) fun c s s' hs => writeCur hs r c
    · exact writeCur hs r e.to
  · exact sbind (writeCur hs r e.to) fun _ s s' hs => hM.updateRegions hφ hs

theorem updateState (hs : SMRen φ s s') (r : Nat) (e : Entry) :
    SameRes φ (updateState M r e s) (Hsm.updateState M' r (e.ren φ) s') := by
  unfold Hsm.updateState
  show SameRes φ _ (if e.internal then _ else _)
  split
  · exact ⟨rfl, hs⟩
  · refine sbind (hM.moveState hφ hs r e) fun _ t t' ht => ⟨rfl, { ht with log := ?_ }⟩
    show t'.log ++ _ = t.log ++ _
    rw [ht.log, ht.cur, hs.cur, hs.trace, List.length_map]

include hsem

omit hφ in
theorem objOk (hs : SMRen φ s s') (st : StTy) : objOk M' sem' (st.ren φ) s' = Hsm.objOk M sem st s := by
  unfold Hsm.objOk
  rw [hM.defaultCtor, hsem.alive, hs.world]

omit hφ in
theorem execGuard (hs : SMRen φ s s') (x : Exec) (ev : EventTy) (p : P) :
    SameRes φ (execGuard M sem x ev p s) (Hsm.execGuard M' sem' (x.ren φ) (φ.ev ev) p s') := by
  unfold Hsm.execGuard
  show SameRes φ _ (match x.guard.map φ.cb with
    | none => .ok (true, p) s'
    | some g => _)
  cases x.guard with
  | none => exact ⟨rfl, hs⟩
  | some g =>
    have harg : (⟨φ.ev ev, x.src.ren φ, if x.internal then x.src.ren φ else x.dst.ren φ, false,
        x.dep⟩ : Args) = Args.ren φ ⟨ev, x.src, if x.internal then x.src else x.dst, false, x.dep⟩ := by
      unfold Args.ren
      cases x.internal <;> rfl
    simp only [Option.map_some]
    show SameRes φ _ (if Hsm.objOk M' sem' (Args.src ⟨φ.ev ev, x.src.ren φ,
      if x.internal then x.src.ren φ else x.dst.ren φ, false, x.dep⟩) s' && Hsm.objOk M' sem' (Args.dst ⟨φ.ev ev, x.src.ren φ,
      if x.internal then x.src.ren φ else x.dst.ren φ, false, x.dep⟩) s' then
        match sem'.guard (φ.cb g) ⟨φ.ev ev, x.src.ren φ,
          if x.internal then x.src.ren φ else x.dst.ren φ, false, x.dep⟩ p s'.world with
        | .ok b p' w' => .ok (b, p') { s' with world := w', trace := s'.trace ++ [.guard (φ.cb g) ⟨φ.ev ev, x.src.ren φ,
          if x.internal then x.src.ren φ else x.dst.ren φ, false, x.dep⟩ p (some b) s'.cur] }
        | .throw n _ w' => .throw (.user n) { s' with world := w', trace := s'.trace ++ [.guard (φ.cb g) ⟨φ.ev ev, x.src.ren φ,
          if x.internal then x.src.ren φ else x.dst.ren φ, false, x.dep⟩ p none s'.cur] }
        | .ub => .ub .callback
      else .ub .nullObject)
    rw [harg]
    rw [show Hsm.objOk M' sem' (Args.ren φ ⟨ev, x.src, if x.internal then x.src else x.dst, false,
        x.dep⟩).src s' = Hsm.objOk M sem x.src s from hM.objOk hsem hs _,
      show Hsm.objOk M' sem' (Args.ren φ ⟨ev, x.src, if x.internal then x.src else x.dst, false,
        x.dep⟩).dst s' = Hsm.objOk M sem (if x.internal then x.src else x.dst) s from
        hM.objOk hsem hs _, hsem.guard, hs.world]
    by_cases hk : (Hsm.objOk M sem x.src s &&
        Hsm.objOk M sem (if x.internal then x.src else x.dst) s) = true
    · rw [if_pos hk, if_pos hk]
      cases sem.guard g ⟨ev, x.src, if x.internal then x.src else x.dst, false, x.dep⟩ p s.world with
      | ok b p' w' =>
        refine ⟨rfl, { hs with world := rfl, trace := ?_ }⟩
        show s'.trace ++ _ = _
        rw [hs.trace, hs.cur, List.map_append]; rfl
      | throw n p' w' =>
        refine ⟨rfl, { hs with world := rfl, trace := ?_ }⟩
        show s'.trace ++ _ = _
        rw [hs.trace, hs.cur, List.map_append]; rfl
      | ub => rfl
    · rw [if_neg hk, if_neg hk]
      rfl

omit hφ hM in
theorem runCbs (args : Args) (cs : List (Phase × Cb)) : ∀ {s s' : SM P W} (_ : SMRen φ s s') (p : P),
    SameRes φ (runCbs sem args cs p s)
      (Hsm.runCbs sem' (args.ren φ) (cs.map fun x => (x.1, φ.cb x.2)) p s') := by
  induction cs with
  | nil => intro s s' hs p; exact ⟨rfl, hs⟩
  | cons c cs ih =>
    intro s s' hs p
    obtain ⟨ph, a⟩ := c
    rw [List.map_cons, Hsm.runCbs, Hsm.runCbs, hsem.action, hs.world]
    cases sem.action a args p s.world with
    | ok _ p' w' =>
      have ht : SMRen φ
          { s with world := w', trace := s.trace ++ [.action ph a args p false s.cur] }
          { s' with
            world := w'
            trace := s'.trace ++ [.action ph (φ.cb a) (args.ren φ) p false s'.cur] } :=
        { hs with
          world := rfl
          trace := by
            show s'.trace ++ _ = _
            rw [hs.trace, hs.cur, List.map_append]; rfl }
      exact ih ht p'
    | throw n p' w' =>
      refine ⟨rfl, { hs with world := rfl, trace := ?_ }⟩
      show s'.trace ++ _ = _
      rw [hs.trace, hs.cur, List.map_append]; rfl
    | ub => rfl

omit hφ hsem in
theorem actionArgs (x : Exec) (ev : EventTy) :
    actionArgs M' (x.ren φ) (φ.ev ev) = (Hsm.actionArgs M x ev).ren φ := by
  unfold Hsm.actionArgs
  rw [show (x.ren φ).dst = x.dst.ren φ from rfl, hM.defaultCtor]
  split
  · unfold Args.ren
    show Args.mk _ _ (if x.internal then _ else _) _ _ = _
    cases x.internal <;> rfl
  · rfl

omit hφ in
theorem execAction (hs : SMRen φ s s') (x : Exec) (ev : EventTy) (p : P) :
    SameRes φ (execAction M sem x ev p s) (Hsm.execAction M' sem' (x.ren φ) (φ.ev ev) p s') := by
  unfold Hsm.execAction
  rw [hM.actionArgs, show (x.ren φ).src = x.src.ren φ from rfl, hM.objOk hsem hs,
    show (x.ren φ).action = x.action.map fun l => l.map fun y => (y.1, φ.cb y.2) from rfl]
  cases x.action with
  | none => exact ⟨rfl, hs⟩
  | some cs =>
    simp only [Option.map_some]
    split
    · exact runCbs hsem _ cs hs p
    · rfl

theorem fire (hs : SMRen φ s s') (r : Nat) (ev : EventTy) (e : Entry) (x : Exec) (p : P) :
    SameRes φ (fire M sem r ev e x p s) (Hsm.fire M' sem' r (φ.ev ev) (e.ren φ) (x.ren φ) p s') := by
  unfold Hsm.fire
  exact sbind (hM.updateState hφ hs r e) fun _ s s' hs => hM.execAction hsem hs x ev p

theorem tryEntries (r : Nat) (ev : EventTy) (es : List Entry) :
    ∀ {s s' : SM P W} (_ : SMRen φ s s') (p : P), SameRes φ (tryEntries M sem r ev es p s)
      (Hsm.tryEntries M' sem' r (φ.ev ev) (es.map (Entry.ren φ)) p s') := by
  induction es with
  | nil => intro s s' hs p; exact ⟨rfl, hs⟩
  | cons e es ih =>
    intro s s' hs p
    rw [List.map_cons, Hsm.tryEntries, Hsm.tryEntries, show (e.ren φ).defer = e.defer from rfl,
      show (e.ren φ).tr = e.tr.map (Exec.ren φ) from rfl]
    split
    · refine ⟨rfl, { hs with queue := ?_ }⟩
      show s'.queue ++ _ = _
      rw [hs.queue, List.map_append]; rfl
    · cases e.tr with
      | none => rfl
      | some x =>
        refine sbind (hM.execGuard hsem hs x ev p) fun gp s s' hs => ?_
        split
        · exact sbind (hM.fire hφ hsem hs r ev e x gp.2) fun p s s' hs => ⟨rfl, hs⟩
        · exact ih hs gp.2

omit hsem in
theorem lookup (hs : SMRen φ s s') (ev : EventTy) (r : Nat) :
    (lookup M ev r s).Rel (fun es es' => es' = es.map (Entry.ren φ)) (SMRen φ)
      (Hsm.lookup M' (φ.ev ev) r s') := by
  unfold Hsm.lookup
  rw [hM.size hφ]
  refine Res.Rel.bind (readCur hs r) fun c c' s s' hc hs => ?_
  cases hc
  split
  · exact ⟨hs.table ev c, hs⟩
  · rfl

theorem regionStep (hs : SMRen φ s s') (r : Nat) (ev : EventTy) (p : P) :
    SameRes φ (regionStep M sem r ev p s) (Hsm.regionStep M' sem' r (φ.ev ev) p s') := by
  unfold Hsm.regionStep
  refine Res.Rel.bind (hM.lookup hφ hs ev r) fun es es' s s' he hs => ?_
  subst he
  cases es with
  | nil => exact ⟨rfl, hs⟩
  | cons e es => exact hM.tryEntries hφ hsem r ev (e :: es) hs p

theorem regionLoop (ev : EventTy) (rs : List Nat) : ∀ {s s' : SM P W} (_ : SMRen φ s s') (a b : Bool)
    (p : P), SameRes φ (regionLoop M sem ev rs a b p s)
      (Hsm.regionLoop M' sem' (φ.ev ev) rs a b p s') := by
  induction rs with
  | nil => intro s s' hs a b p; exact ⟨rfl, hs⟩
  | cons r rs ih =>
    intro s s' hs a b p
    rw [Hsm.regionLoop, Hsm.regionLoop]
    refine sbind (hM.regionStep hφ hsem hs r ev p) fun op s s' hs => ?_
    obtain ⟨o, p⟩ := op
    cases o with
    | none => exact ih hs _ _ _
    | rejected => exact ih hs _ _ _
    | fired => exact ih hs _ _ _
    | deferred => exact ⟨rfl, hs⟩

theorem tryAnon (r : Nat) (es : List Entry) :
    ∀ {s s' : SM P W} (_ : SMRen φ s s') (p : P), SameRes φ (tryAnon M sem r es p s)
      (Hsm.tryAnon M' sem' r (es.map (Entry.ren φ)) p s') := by
  induction es with
  | nil => intro s s' hs p; exact ⟨rfl, hs⟩
  | cons e es ih =>
    intro s s' hs p
    rw [List.map_cons, Hsm.tryAnon, Hsm.tryAnon,
      show (e.ren φ).tr = e.tr.map (Exec.ren φ) from rfl]
    cases e.tr with
    | none => rfl
    | some x =>
      have hg := hM.execGuard hsem hs x .none p
      rw [hφ.none] at hg
      refine sbind hg fun gp s s' hs => ?_
      split
      · have hf := hM.fire hφ hsem hs r .none e x gp.2
        rw [hφ.none] at hf
        exact sbind hf fun p s s' hs => ⟨rfl, hs⟩
      · exact ih hs gp.2

theorem anonRound (rs : List Nat) : ∀ {s s' : SM P W} (_ : SMRen φ s s') (a : Bool) (p : P),
    SameRes φ (anonRound M sem rs a p s) (Hsm.anonRound M' sem' rs a p s') := by
  induction rs with
  | nil => intro s s' hs a p; exact ⟨rfl, hs⟩
  | cons r rs ih =>
    intro s s' hs a p
    rw [Hsm.anonRound, Hsm.anonRound]
    have hl := hM.lookup hφ hs .none r
    rw [hφ.none] at hl
    refine Res.Rel.bind hl fun es es' s s' he hs => ?_
    subst he
    cases es with
    | nil => exact ⟨rfl, hs⟩
    | cons e es =>
      exact sbind (hM.tryAnon hφ hsem r (e :: es) hs p) fun fp s s' hs => ih hs _ _

theorem anonLoop (fuel : Nat) : ∀ {s s' : SM P W} (_ : SMRen φ s s') (p : P),
    SameRes φ (anonLoop M sem fuel p s) (Hsm.anonLoop M' sem' fuel p s') := by
  induction fuel with
  | zero => intro s s' hs p; trivial
  | succ n ih =>
    intro s s' hs p
    rw [Hsm.anonLoop, Hsm.anonLoop, hM.currentRegions hφ hs]
    refine sbind (hM.anonRound hφ hsem _ hs true p) fun op s s' hs => ?_
    obtain ⟨o, p⟩ := op
    cases o with
    | none => exact ⟨rfl, hs⟩
    | some b =>
      cases b with
      | true => exact ⟨rfl, hs⟩
      | false => exact ih hs p

theorem processAnon (hs : SMRen φ s s') (fuel : Nat) :
    SameRes φ (processAnon M sem fuel s) (Hsm.processAnon M' sem' fuel s') := by
  unfold Hsm.processAnon
  rw [hM.hasAnon hφ, hsem.nonePayload]
  split
  · exact hM.anonLoop hφ hsem fuel hs _
  · exact ⟨rfl, hs⟩

theorem processInternal (hs : SMRen φ s s') (fuel : Nat) (ev : EventTy) (p : P) :
    SameRes φ (processInternal M sem fuel ev p s) (Hsm.processInternal M' sem' fuel (φ.ev ev) p s') := by
  unfold Hsm.processInternal
  rw [hM.currentRegions hφ hs]
  refine sbind (hM.regionLoop hφ hsem ev _ hs true true p) fun op s s' hs => ?_
  obtain ⟨o, p⟩ := op
  cases o with
  | deferred => exact ⟨rfl, hs⟩
  | done a b =>
    dsimp only
    split
    · exact ⟨rfl, hs⟩
    · split
      · exact ⟨rfl, hs⟩
      · exact sbind (hM.processAnon hφ hsem hs fuel) fun _ s s' hs => ⟨rfl, hs⟩

theorem processDeferred (hs : SMRen φ s s') (fuel : Nat) :
    SameRes φ (processDeferred M sem fuel s) (Hsm.processDeferred M' sem' fuel s') := by
  unfold Hsm.processDeferred
  rw [hM.hasDefer, hs.queue]
  split
  · cases hq : s.queue with
    | nil => exact ⟨rfl, hs⟩
    | cons x q =>
      obtain ⟨e, p⟩ := x
      rw [List.map_cons]
      have ht : SMRen φ { s with queue := q }
          { s' with queue := q.map fun x => (φ.ev x.1, x.2) } := { hs with queue := rfl }
      exact sbind (hM.processInternal hφ hsem ht fuel e p) fun _ s s' hs => ⟨rfl, hs⟩
  · exact ⟨rfl, hs⟩

theorem callHandler (hs : SMRen φ s s') (ev : EventTy) (p : P) :
    SameRes φ (callHandler M sem ev p s) (Hsm.callHandler M' sem' (φ.ev ev) p s') := by
  unfold Hsm.callHandler
  rw [hM.root, hM.decl, hM.size hφ,
    show ((M.decl M.root).ren φ).handler = (M.decl M.root).handler.map φ.cb from rfl]
  cases (M.decl M.root).handler with
  | none => exact ⟨rfl, hs⟩
  | some h =>
    refine sbind (readCur hs 0) fun c s s' hs => ?_
    split
    · rw [hs.handlers]
      cases s.handlers ev c with
      | none => rfl
      | some x =>
        obtain ⟨st, d⟩ := x
        simp only [Option.map_some]
        rw [hM.objOk hsem hs, hsem.handler, hs.world]
        split
        · cases sem.handler h ev st d p s.world with
          | ok _ p' w' =>
            refine ⟨rfl, { hs with world := rfl, trace := ?_ }⟩
            show s'.trace ++ _ = _
            rw [hs.trace, hs.cur, List.map_append]; rfl
          | throw n p' w' =>
            refine ⟨rfl, { hs with world := rfl, trace := ?_ }⟩
            show s'.trace ++ _ = _
            rw [hs.trace, hs.cur, List.map_append]; rfl
          | ub => rfl
        · rfl
    · exact ⟨rfl, hs⟩

/-- C76, events: under new names `process_event` does the same. -/
theorem C76_event (hs : SMRen φ s s') (fuel : Nat) (ev : EventTy) (p : P) :
    SameRes φ (processEvent M sem fuel ev p s) (processEvent M' sem' fuel (φ.ev ev) p s') := by
  unfold Hsm.processEvent
  refine sbind (hM.processInternal hφ hsem hs fuel ev p) fun rp s s' hs => ?_
  obtain ⟨r, p⟩ := rp
  cases r with
  | allTransitionsInvalid =>
    exact sbind (hM.callHandler hφ hsem hs ev p) fun _ s s' hs => ⟨rfl, hs⟩
  | deferred => exact ⟨rfl, hs⟩
  | allGuardsFailed => exact ⟨rfl, hs⟩
  | processed => exact sbind (hM.processDeferred hφ hsem hs fuel) fun _ s s' hs => ⟨rfl, hs⟩

omit hsem in
theorem setOp (hs : SMRen φ s s') (r : Nat) (p : Name) (st : StTy) :
    SameRes φ (setOp M r p st s) (Hsm.setOp M' r (φ.st p) (st.ren φ) s') := by
  unfold Hsm.setOp
  rw [hs.cur, hM.comb hφ]
  split
  · exact ⟨rfl, { hs with cur := rfl }⟩
  · exact ⟨rfl, hs⟩

omit hsem in
theorem setDependency (hs : SMRen φ s s') (d : Dep) :
    SameRes φ (setDependency M d s) (Hsm.setDependency M' d s') := by
  unfold Hsm.setDependency
  have h := hM.fill hφ d hs.table
  revert h
  cases M.fill d s.table with
  | error e =>
    cases M'.fill d s'.table with
    | error e' => intro _; rfl
    | ok T' => intro h; exact h.elim
  | ok T =>
    cases M'.fill d s'.table with
    | error e' => intro h; exact h.elim
    | ok T' => intro h; exact ⟨rfl, { hs with table := h }⟩

/-- C76, calls: under new names every call does the same. -/
theorem C76_step (hs : SMRen φ s s') (fuel : Nat) (op : Op P) :
    SameRes φ (step M sem fuel op s) (step M' sem' fuel (op.ren φ) s') := by
  cases op with
  | process ev p => exact hM.C76_event hφ hsem hs fuel ev p
  | set r p st => exact sbind (hM.setOp hφ hs r p st) fun _ s s' hs => ⟨rfl, hs⟩
  | setDependency d => exact sbind (hM.setDependency hφ hs d) fun _ s s' hs => ⟨rfl, hs⟩

omit hsem in
theorem opOk (op : Op P) : OpOk M' (op.ren φ) ↔ OpOk M op := by
  cases op with
  | process ev p =>
    show φ.ev ev ∈ M'.eventIds ↔ _
    rw [hM.eventIds hφ]
    exact mem_map_inj hφ.ev
  | set r p st =>
    show φ.st p ∈ M'.parents ∧ st.ren φ ∈ M'.stateIds ↔ _
    rw [hM.parents hφ, hM.stateIds hφ]
    exact and_congr (mem_map_inj hφ.st) (mem_map_inj hφ.ty)
  | setDependency d => exact Iff.rfl

omit hsem in
/-- C76, construction: the machine under new names is accepted when the original is, and starts in
the same place. -/
theorem C76_construct (d : Dep) (w : W) :
    ExRel (SMRen (P := P) φ) (construct M d w) (construct M' d w) := by
  unfold construct
  rw [hM.accepts hφ]
  split
  · refine ExRel.bind (R := HTableRen φ) ?_ fun H H' hH => ?_
    · unfold initHandlers
      rw [hM.root, hM.decl,
        show ((M.decl M.root).ren φ).handler = (M.decl M.root).handler.map φ.cb from rfl,
        Option.isSome_map]
      split
      · exact hM.fillHandlers hφ d fun _ _ => rfl
      · exact fun _ _ => rfl
    · refine ExRel.bind (hM.fill hφ d fun _ _ => rfl) fun T T' hT => ?_
      unfold initState
      rw [hM.root, hM.parentIdx hφ, hM.initialTable hφ, hM.maxInit hφ]
      cases M.initialTable[M.parentIdx M.root]? with
      | none => rfl
      | some init =>
        dsimp only
        have h := hM.updateRegions (P := P) (W := W) hφ
          (s := ⟨initCur init M.maxInit, M.initialTable, M.initialTable, [], 0, T, H, w, [], []⟩)
          (s' := ⟨initCur init M.maxInit, M.initialTable, M.initialTable, [], 0, T', H', w, [], []⟩)
          ⟨rfl, rfl, rfl, rfl, rfl, hT, hH, rfl, rfl, rfl⟩
        revert h
        generalize Hsm.updateRegions M _ = r
        generalize Hsm.updateRegions M' _ = r'
        intro h
        cases r <;> cases r' <;> first | exact h.elim | exact h.2 | rfl
  · rfl

/-- C76, histories: whatever the original machine can do, the machine under new names can do. -/
theorem C76_runs {d : Dep} {ops : List (Op P)} (hr : RunTo M sem d ops s) :
    ∃ s', RunTo M' sem' d (ops.map (Op.ren φ)) s' ∧ SMRen φ s s' := by
  induction hr with
  | @init w s h =>
    have hc := hM.C76_construct (P := P) hφ d w
    rw [h] at hc
    cases h' : construct (P := P) M' d w with
    | error e => rw [h'] at hc; exact hc.elim
    | ok s' => rw [h'] at hc; exact ⟨s', .init h', hc⟩
  | @ok s t ops op fuel b _ hop h ih =>
    obtain ⟨s', hr', hs⟩ := ih
    have hc := hM.C76_step hφ hsem hs fuel op
    rw [h] at hc
    cases h' : step M' sem' fuel (op.ren φ) s' with
    | ok b' t' =>
      rw [h'] at hc
      rw [List.map_append]
      exact ⟨t', .ok hr' ((hM.opOk hφ op).2 hop) h', hc.2⟩
    | throw x t' => rw [h'] at hc; exact hc.elim
    | ub u => rw [h'] at hc; exact hc.elim
    | timeout => rw [h'] at hc; exact hc.elim
  | @throw s t ops op fuel b _ hop h ih =>
    obtain ⟨s', hr', hs⟩ := ih
    have hc := hM.C76_step hφ hsem hs fuel op
    rw [h] at hc
    cases h' : step M' sem' fuel (op.ren φ) s' with
    | throw x t' =>
      rw [h'] at hc
      rw [List.map_append]
      exact ⟨t', .throw hr' ((hM.opOk hφ op).2 hop) h', hc.2⟩
    | ok x t' => rw [h'] at hc; exact hc.elim
    | ub u => rw [h'] at hc; exact hc.elim
    | timeout => rw [h'] at hc; exact hc.elim
  | @world s ops _ w ih =>
    obtain ⟨s', hr', hs⟩ := ih
    exact ⟨_, .world hr' w, { hs with world := rfl }⟩

/-- C76, the whole history at once: both come to an end, and in the same state, or neither does. -/
theorem C76_runAll (fuel : Nat) (ops : List (Op P)) : ∀ {s s' : SM P W}, SMRen φ s s' →
    match runAll (step M sem fuel) ops s, runAll (step M' sem' fuel) (ops.map (Op.ren φ)) s' with
    | some t, some t' => SMRen φ t t'
    | none, none => True
    | _, _ => False := by
  induction ops with
  | nil => intro s s' hs; exact hs
  | cons op ops ih =>
    intro s s' hs
    have hc := hM.C76_step hφ hsem hs fuel op
    rw [List.map_cons, runAll, runAll]
    revert hc
    cases step M sem fuel op s <;> cases step M' sem' fuel (op.ren φ) s' <;> intro hc <;>
      first | exact hc.elim | exact ih hc.2 | trivial

omit hsem in
theorem statusLoop (rs : List Nat) : ∀ {s s' : SM P W}, SMRen φ s s' →
    SameRes φ (statusLoop M rs s) (Hsm.statusLoop M' rs s') := by
  induction rs with
  | nil => intro s s' hs; exact ⟨rfl, hs⟩
  | cons r rs ih =>
    intro s s' hs
    rw [Hsm.statusLoop, Hsm.statusLoop]
    refine sbind (readCur hs r) fun c s s' hs => ?_
    refine sbind (hM.currentParent hφ hs) fun p s s' hs => ?_
    refine sbind ?_ fun t s s' hs => sbind (ih hs) fun l s s' hs => ⟨rfl, hs⟩
    unfold currentState atCur
    rw [hs.cur, hM.nStates hφ]
    refine sbind ?_ fun t s s' hs => ⟨rfl, hs⟩
    split
    · exact ⟨rfl, hs⟩
    · rfl
    · exact ⟨rfl, hs⟩

omit hsem in
/-- C76, observers: `status()` and `is` see the same. -/
theorem C76_observe (hs : SMRen φ s s') :
    SameRes φ (status M s) (status M' s') ∧
    (∀ p, SameRes φ (parentIs M p s) (parentIs M' (φ.st p) s')) ∧
    (∀ st, SameRes φ (isState M st s) (isState M' (st.ren φ) s')) ∧
    ∀ r p st, SameRes φ (isRegion M r p st s) (isRegion M' r (φ.st p) (st.ren φ) s') := by
  have hcur : ∀ {s s' : SM P W} (_ : SMRen φ s s') r,
      SameRes φ (currentState M r s) (currentState M' r s') := by
    intro s s' hs r
    unfold currentState atCur
    rw [hs.cur, hM.nStates hφ]
    refine sbind ?_ fun t s s' hs => ⟨rfl, hs⟩
    split
    · exact ⟨rfl, hs⟩
    · rfl
    · exact ⟨rfl, hs⟩
  have hpar : ∀ p, SameRes φ (parentIs M p s) (parentIs M' (φ.st p) s') := by
    intro p
    unfold parentIs
    rw [hM.parentIdx hφ]
    exact sbind (hM.currentParent hφ hs) fun c s s' hs => ⟨rfl, hs⟩
  refine ⟨?_, hpar, fun st => ?_, fun r p st => ?_⟩
  · unfold status
    rw [hM.currentRegions hφ hs]
    exact hM.statusLoop hφ _ hs
  · unfold isState
    rw [hM.stateIdx hφ]
    exact sbind (hcur hs 0) fun c s s' hs => ⟨rfl, hs⟩
  · unfold isRegion
    rw [hM.stateIdx hφ]
    refine sbind (hpar p) fun b s s' hs => ?_
    cases b with
    | true => exact sbind (hcur hs _) fun c s s' hs => ⟨rfl, hs⟩
    | false => exact ⟨rfl, hs⟩

end
end Renamed
end

/-! ## Examples -/

namespace Ex

/-- New names for everything in the demo machine. -/
def renamed : Ren where
  st x := x + 10
  cb c := 2 * c + 1
  ev
    | .none => .none
    | .user n => .user (n + 5)

theorem renamed_faithful : renamed.Faithful where
  st a b h := by
    have : ∀ a b : Nat, a + 10 = b + 10 → a = b := by omega
    exact this a b h
  cb a b h := by
    have : ∀ a b : Nat, 2 * a + 1 = 2 * b + 1 → a = b := by omega
    exact this a b h
  ev a b h := by
    cases a <;> cases b <;> simp_all [renamed]
  none := rfl

/-- The demo machine under new names. -/
def demoRenamed : Machine := demo.rename renamed fun y => y - 10

theorem demoRenamed_renamed : Renamed renamed demo demoRenamed :=
  demo.rename_renamed renamed fun x => by
    have : ∀ a : Nat, a + 10 - 10 = a := by omega
    exact this x

/-- The callbacks of `sm` under new names. -/
def semRenamed (on : Nat → Bool) : Sem Nat (List Nat) where
  guard g _ p w := .ok (on ((g - 1) / 2)) p (w ++ [(g - 1) / 2])
  action a _ p w := .ok () p (w ++ [(a - 1) / 2])
  handler h _ _ _ p w := .ok () p (w ++ [(h - 1) / 2])
  alive _ _ := true
  nonePayload := 0

theorem semRenamed_renamed (on : Nat → Bool) : SemRenamed renamed (sem on) (semRenamed on) := by
  have h : ∀ c : Nat, (2 * c + 1 - 1) / 2 = c := by omega
  refine ⟨fun g a p w => ?_, fun g a p w => ?_, fun g e s d p w => ?_, fun _ _ => rfl, rfl⟩
  · show CbRes.ok (on ((2 * g + 1 - 1) / 2)) p (w ++ [(2 * g + 1 - 1) / 2]) = _
    rw [h]; rfl
  · show CbRes.ok () p (w ++ [(2 * g + 1 - 1) / 2]) = _
    rw [h]; rfl
  · show CbRes.ok () p (w ++ [(2 * g + 1 - 1) / 2]) = _
    rw [h]; rfl

/-- The history of Machines.lean under new names: the same callbacks run, the same slot is current. -/
example : (run demoRenamed (semRenamed fun _ => true) 5 7 []
    [.process (ev 5) 1, .process (ev 6) 2, .process (ev 5) 3]).any
      (fun s => s.cur == [some (demo.comb Root (.st Busy))]
        && s.world == [100, 2, 20, 21, 3, 100, 2, 20]) = true := by
  decide +kernel

/-- The theorem says so without running it. -/
example : ∃ s, RunTo demoRenamed (semRenamed fun _ => true) 7
    [.process (ev 5) 1, .process (ev 6) 2, .process (ev 5) 3] s ∧
      s.world = [100, 2, 20, 21, 3, 100, 2, 20] := by
  obtain ⟨s, hr, hw⟩ := exists_run demo (sem fun _ => true) (fuel := 5) (d := 7) (w := [])
    (ops := [.process (ev 0) 1, .process (ev 1) 2, .process (ev 0) 3])
    (f := fun s => s.world == [100, 2, 20, 21, 3, 100, 2, 20]) (by decide +kernel)
  obtain ⟨s', hr', hs⟩ := demoRenamed_renamed.C76_runs renamed_faithful
    (semRenamed_renamed fun _ => true) hr
  exact ⟨s', hr', by rw [hs.world]; exact eq_of_beq hw⟩

/-- One state with two internal rows for the same event, guarded by two guards. -/
def pairOf : Machine := Machine.ofList
  [ { table := some
        [ row (ini 1) (ev 0) none none (.st 2) ] },
    { },
    { itable := some [⟨ev 1, some 1, none⟩, ⟨ev 1, some 2, none⟩] } ] [1]

/-- The same name for every callback. -/
def merged : Ren := ⟨fun x => x, fun _ => 1, fun e => e⟩

/-- All guards answer no. -/
def refuse : Sem Nat (List Nat) :=
  ⟨fun _ _ p w => .ok false p w, fun _ _ p w => .ok () p w, fun _ _ _ _ p w => .ok () p w,
    fun _ _ => true, 0⟩

end Ex

/-- C76 is false when one callback gets the names of two: rows with the same name are one row.  Two
rows whose guards are different objects of different types are two rows, and both guards are asked;
two rows with the same guard are one. -/
theorem C76_refuted_merged : ∃ (φ : Ren) (M M' : Machine) (sem sem' : Sem Nat (List Nat)),
    Renamed φ M M' ∧ SemRenamed φ sem sem' ∧ (∀ a b, φ.st a = φ.st b → a = b) ∧
      (∀ a b, φ.ev a = φ.ev b → a = b) ∧ φ.ev .none = .none ∧
      ∃ s s', RunTo M sem 0 [.process (.user 0) 0, .process (.user 1) 0] s ∧ s.trace.length = 2 ∧
        RunTo M' sem' 0 [.process (.user 0) 0, .process (.user 1) 0] s' ∧ s'.trace.length = 1 := by
  refine ⟨Ex.merged, Ex.pairOf, Ex.pairOf.rename Ex.merged id, Ex.refuse, Ex.refuse,
    Ex.pairOf.rename_renamed Ex.merged fun _ => rfl,
    ⟨fun _ _ _ _ => rfl, fun _ _ _ _ => rfl, fun _ _ _ _ _ _ => rfl, fun _ _ => rfl, rfl⟩,
    fun _ _ h => h, fun _ _ h => h, rfl, ?_⟩
  obtain ⟨s, hr, hs⟩ := Ex.exists_run Ex.pairOf Ex.refuse (fuel := 1) (d := 0) (w := [])
    (ops := [.process (.user 0) 0, .process (.user 1) 0]) (f := fun s => s.trace.length == 2) (by decide +kernel)
  obtain ⟨s', hr', hs'⟩ := Ex.exists_run (Ex.pairOf.rename Ex.merged id) Ex.refuse (fuel := 1)
    (d := 0) (w := []) (ops := [.process (.user 0) 0, .process (.user 1) 0]) (f := fun s => s.trace.length == 1)
    (by decide +kernel)
  exact ⟨s, s', hr, eq_of_beq hs, hr', eq_of_beq hs'⟩

end Hsm
