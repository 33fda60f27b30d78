import Verif.Checker
import Verif.PropsVisit
import Verif.PropsVerdict
import Mathlib.Data.Set.Finite.Lattice
import Mathlib.Data.Set.Finite.List

/-!
# C80: what a machine may do can be computed
-/

namespace Hsm

variable {P W : Type} {M : Machine} {sem : Sem P W} {U V : Prop}

/-! ## Spots -/

theorem lookup_zip_map {α β : Type} [BEq α] [LawfulBEq α] {f : α → β} {q : α} : ∀ {l : List α}, q ∈ l →
    (l.zip (l.map f)).lookup q = some (f q)
  | a :: l, h => by
    rw [List.map_cons, List.zip_cons_cons, List.lookup_cons]
    by_cases he : q = a
    · subst he; simp
    · have : (q == a) = false := by simpa using he
      rw [this]
      exact lookup_zip_map ((List.mem_cons.1 h).resolve_left he)

namespace Machine

theorem sight_eq {P' W' : Type} {c : Conf P W} {c' : Conf P' W'} (h : M.sight c = M.sight c') :
    c.slots = c'.slots ∧ c.active = c'.active ∧ ∀ q ∈ M.composites, c.memory q = c'.memory q := by
  unfold sight at h
  injection h with h1 h2 h3
  exact ⟨h1, h3, List.map_inj_left.1 h2⟩

theorem sight_of {P' W' : Type} {c : Conf P W} {c' : Conf P' W'} (h1 : c.slots = c'.slots)
    (h2 : c.active = c'.active) (h3 : ∀ q ∈ M.composites, c.memory q = c'.memory q) :
    M.sight c = M.sight c' := by
  unfold sight
  rw [h1, h2, List.map_congr_left h3]

theorem sight_place (c : Conf P W) : M.sight (M.place (M.sight c)) = M.sight c := by
  refine sight_of rfl rfl fun q hq => ?_
  show ((M.composites.zip (M.composites.map c.memory)).lookup q).getD [] = _
  rw [lookup_zip_map hq]
  rfl

variable {P' W' : Type}

theorem seek_alike (r : Nat) {c : Conf P W} {c' : Conf P' W'} (h : M.sight c = M.sight c') :
    (seek r c).Rel Eq (fun a b => M.sight a = M.sight b) (seek r c') := by
  unfold seek
  rw [(sight_eq h).1]
  split
  · rfl
  · rfl
  · exact ⟨rfl, h⟩

theorem put_alike (r : Nat) (l : Name × StTy) {c : Conf P W} {c' : Conf P' W'}
    (h : M.sight c = M.sight c') :
    (put r l c).Rel Eq (fun a b => M.sight a = M.sight b) (put r l c') := by
  unfold put
  rw [(sight_eq h).1]
  split
  · exact ⟨rfl, sight_of rfl (sight_eq h).2.1 (sight_eq h).2.2⟩
  · rfl

theorem recount_alike {c : Conf P W} {c' : Conf P' W'} (h : M.sight c = M.sight c') :
    (M.recount c).Rel Eq (fun a b => M.sight a = M.sight b) (M.recount c') := by
  unfold recount
  split
  · refine (seek_alike 0 h).bind ?_
    rintro l _ c c' rfl h
    split
    · exact ⟨rfl, sight_of (sight_eq h).1 rfl (sight_eq h).2.2⟩
    · rfl
  · exact ⟨rfl, h⟩

theorem travel_alike (r : Nat) (t : XRow) (l : Name × StTy) {c : Conf P W} {c' : Conf P' W'}
    (h : M.sight c = M.sight c') :
    (M.travel r t l c).Rel Eq (fun a b => M.sight a = M.sight b) (M.travel r t l c') := by
  unfold travel
  split
  · exact ⟨rfl, h⟩
  split
  · refine Res.Rel.bind (V := Eq) ?_ fun _ _ c c' _ h =>
      Res.Rel.bind (V := Eq) ?_ fun _ _ c c' _ h => recount_alike h
    · unfold remember
      refine (seek_alike 0 h).bind ?_
      rintro l0 _ c c' rfl h
      refine (seek_alike r h).bind ?_
      rintro l _ c c' rfl h
      by_cases hm : l0.1 ∈ M.composites
      · rw [(sight_eq h).2.2 l0.1 hm]
        split
        · refine ⟨rfl, sight_of (sight_eq h).1 (sight_eq h).2.1 fun q hq => ?_⟩
          show (if q = l0.1 then (c.memory q).set r l else c.memory q) =
            if q = l0.1 then (c'.memory q).set r l else c'.memory q
          rw [(sight_eq h).2.2 q hq]
        · rfl
      · rw [if_neg fun h => hm h.1, if_neg fun h => hm h.1]; rfl
    · split
      · refine Res.Rel.bind (V := Eq) ?_ ?_
        · unfold recall
          split
          · next hm =>
            rw [(sight_eq h).2.2 l.1 hm]
            split
            · rfl
            · exact ⟨rfl, h⟩
          · rfl
        · rintro l _ c c' rfl h; exact put_alike r l h
      · exact put_alike r l h
  · exact (put_alike r l h).bind fun _ _ c c' _ h => recount_alike h

end Machine

/-- Nothing but the spot changes, and nothing is thrown. -/
def Level {α : Type} (c : Conf P W) : Res (Conf P W) α → Prop
  | .ok _ c' => c'.waiting = c.waiting ∧ c'.deps = c.deps ∧ c'.world = c.world ∧ c'.calls = c.calls
  | .ub _ => True
  | _ => False

theorem Level.bind {α β : Type} {c : Conf P W} {r : Res (Conf P W) α}
    {f : α → Conf P W → Res (Conf P W) β} (h : Level c r) (hf : ∀ a c, Level c (f a c)) :
    Level c (r.bind f) := by
  cases r with
  | ok a c1 =>
    have h2 := hf a c1
    show Level c (f a c1)
    cases hr : f a c1 with
    | ok b c2 =>
      rw [hr] at h2
      exact ⟨h2.1.trans h.1, h2.2.1.trans h.2.1, h2.2.2.1.trans h.2.2.1, h2.2.2.2.trans h.2.2.2⟩
    | throw x c2 => rw [hr] at h2; exact h2.elim
    | ub u => trivial
    | timeout => rw [hr] at h2; exact h2.elim
  | throw x c1 => exact h.elim
  | ub u => trivial
  | timeout => exact h.elim

namespace Machine

theorem seek_level (r : Nat) (c : Conf P W) : Level c (seek r c) := by
  unfold seek
  split
  · trivial
  · trivial
  · exact ⟨rfl, rfl, rfl, rfl⟩

theorem put_level (r : Nat) (l : Name × StTy) (c : Conf P W) : Level c (put r l c) := by
  unfold put
  split
  · exact ⟨rfl, rfl, rfl, rfl⟩
  · trivial

theorem recount_level (c : Conf P W) : Level c (M.recount c) := by
  unfold recount
  split
  · refine (seek_level 0 c).bind fun l c => ?_
    split
    · exact ⟨rfl, rfl, rfl, rfl⟩
    · trivial
  · exact ⟨rfl, rfl, rfl, rfl⟩

theorem travel_level (r : Nat) (t : XRow) (l : Name × StTy) (c : Conf P W) :
    Level c (M.travel r t l c) := by
  unfold travel
  split
  · exact ⟨rfl, rfl, rfl, rfl⟩
  split
  · refine Level.bind ?_ fun _ c => Level.bind ?_ fun _ c => recount_level c
    · unfold remember
      refine (seek_level 0 c).bind fun l0 c => (seek_level r c).bind fun l c => ?_
      split
      · exact ⟨rfl, rfl, rfl, rfl⟩
      · trivial
    · split
      · refine Level.bind ?_ fun l c => put_level r l c
        unfold recall
        split
        · split
          · trivial
          · exact ⟨rfl, rfl, rfl, rfl⟩
        · trivial
      · exact put_level r l c
  · exact (put_level r l c).bind fun _ c => recount_level c

/-- Moving, seen as a step between spots. -/
theorem travel_sight (r : Nat) (t : XRow) (l : Name × StTy) (c : Conf P W) :
    match M.travel r t l c with
    | .ok _ c' => M.mayTravel r t l (M.sight c) = .ok () (M.sight c') ∧ c'.waiting = c.waiting ∧
        c'.deps = c.deps ∧ c'.world = c.world ∧ c'.calls = c.calls
    | .ub u => M.mayTravel r t l (M.sight c) = .ub u
    | _ => False := by
  have h1 := travel_alike (M := M) r t l (sight_place (M := M) c).symm
  have h2 := travel_level (M := M) r t l c
  unfold mayTravel
  revert h1 h2
  cases M.travel r t l c <;> cases M.travel r t l (M.place (M.sight c)) <;> intro h1 h2 <;>
    first | exact h1.elim | exact h2.elim | skip
  · exact ⟨by show Res.ok _ _ = _; rw [h1.2], h2⟩
  · show Res.ub _ = _; rw [show _ = _ from h1]

end Machine

/-! ## All clients -/

/-- `U` holds if callbacks do something undefined or an object is missing. -/
structure Blames (M : Machine) (sem : Sem P W) (U : Prop) : Prop where
  objects : ∀ st w, M.selfMade st = true ∨ sem.alive st w = true ∨ U
  guards : ∀ g a p w, sem.guard g a p w = .ub → U
  actions : ∀ a args p w, sem.action a args p w = .ub → U
  handlers : ∀ h e st d p w, sem.handler h e st d p w = .ub → U

theorem Blames.all (M : Machine) (sem : Sem P W) : Blames M sem True :=
  ⟨fun _ _ => Or.inr (Or.inr trivial), fun _ _ _ _ _ => trivial, fun _ _ _ _ _ => trivial,
    fun _ _ _ _ _ _ _ => trivial⟩

theorem Blames.absent {U : Prop} (h : Blames M sem U) {st : StTy} {c : Conf P W}
    (ha : ¬ M.present sem st c = true) : U := by
  rcases h.objects st c.world with h | h | h
  · exact absurd (by unfold Machine.present; rw [h]; rfl) ha
  · exact absurd (by unfold Machine.present; rw [h]; simp) ha
  · exact h

/-- What `r` did is among the possibilities `rs`.  What callbacks themselves do wrong and missing
objects are not considered, these are to blame if `U`. -/
def Among {α β : Type} (U : Prop) (M : Machine) (φ : α → β) (r : Res (Conf P W) α) (rs : List (Res Spot β)) : Prop :=
  match r with
  | .ok a c => .ok (φ a) (M.sight c) ∈ rs ∧ c.deps ≠ [] ∧ ∀ e ∈ c.waiting, e.1 ∈ M.events
  | .throw _ c => (∃ y, .throw y (M.sight c) ∈ rs) ∧ c.deps ≠ [] ∧ ∀ e ∈ c.waiting, e.1 ∈ M.events
  | .ub u => .ub u ∈ rs ∨ (u = .callback ∨ u = .nullObject) ∧ U
  | .timeout => False

/-- The configuration is not broken. -/
def Sane (M : Machine) (c : Conf P W) : Prop := c.deps ≠ [] ∧ ∀ e ∈ c.waiting, e.1 ∈ M.events

theorem mem_branch {σ α β : Type} {rs : List (Res σ α)} {f : α → σ → List (Res σ β)} {x : Res σ β} :
    x ∈ branch rs f ↔ (∃ a s, .ok a s ∈ rs ∧ x ∈ f a s) ∨ (∃ y s, .throw y s ∈ rs ∧ x = .throw y s) ∨
      (∃ u, .ub u ∈ rs ∧ x = .ub u) ∨ (.timeout ∈ rs ∧ x = .timeout) := by
  unfold branch
  rw [List.mem_flatMap]
  constructor
  · rintro ⟨y, hy, hx⟩
    cases y with
    | ok a s => exact Or.inl ⟨a, s, hy, hx⟩
    | throw x s => exact Or.inr (Or.inl ⟨x, s, hy, List.mem_singleton.1 hx⟩)
    | ub u => exact Or.inr (Or.inr (Or.inl ⟨u, hy, List.mem_singleton.1 hx⟩))
    | timeout => exact Or.inr (Or.inr (Or.inr ⟨hy, List.mem_singleton.1 hx⟩))
  · rintro (⟨a, s, h1, h2⟩ | ⟨y, s, h1, rfl⟩ | ⟨u, h1, rfl⟩ | ⟨h1, rfl⟩)
    · exact ⟨_, h1, h2⟩
    · exact ⟨_, h1, List.mem_singleton.2 rfl⟩
    · exact ⟨_, h1, List.mem_singleton.2 rfl⟩
    · exact ⟨_, h1, List.mem_singleton.2 rfl⟩

theorem Among.bind {α β α' β' : Type} {φ : α → β} {φ' : α' → β'} {r : Res (Conf P W) α}
    {rs : List (Res Spot β)} {f : α → Conf P W → Res (Conf P W) α'} {f' : β → Spot → List (Res Spot β')}
    (h : Among U M φ r rs) (hf : ∀ a c, Sane M c → Among U M φ' (f a c) (f' (φ a) (M.sight c))) :
    Among U M φ' (r.bind f) (branch rs f') := by
  cases r with
  | ok a c =>
    have h2 := hf a c h.2
    have key : ∀ x, x ∈ f' (φ a) (M.sight c) → x ∈ branch rs f' := fun x hx =>
      mem_branch.2 (Or.inl ⟨_, _, h.1, hx⟩)
    show Among U M φ' (f a c) _
    cases hr : f a c with
    | ok b c2 => rw [hr] at h2; exact ⟨key _ h2.1, h2.2⟩
    | throw x c2 => rw [hr] at h2; exact ⟨h2.1.imp fun y hy => key _ hy, h2.2⟩
    | ub u => rw [hr] at h2; exact h2.imp_left (key _)
    | timeout => rw [hr] at h2; exact h2.elim
  | throw x c =>
    obtain ⟨⟨y, hy⟩, h2⟩ := h
    exact ⟨⟨y, mem_branch.2 (Or.inr (Or.inl ⟨_, _, hy, rfl⟩))⟩, h2⟩
  | ub u => exact h.imp_left fun h => mem_branch.2 (Or.inr (Or.inr (Or.inl ⟨_, h, rfl⟩)))
  | timeout => exact h.elim

theorem Among.mono {α β : Type} {φ : α → β} {r : Res (Conf P W) α} {rs rs' : List (Res Spot β)}
    (h : Among U M φ r rs) (hs : ∀ x ∈ rs, x ∈ rs') : Among U M φ r rs' := by
  cases r with
  | ok a c => exact ⟨hs _ h.1, h.2⟩
  | throw x c => exact ⟨h.1.imp fun y hy => hs _ hy, h.2⟩
  | ub u => exact h.imp_left (hs _)
  | timeout => exact h.elim

namespace Machine

theorem perform_among (hU : Blames M sem U) (args : Args) : ∀ (cs : List (Phase × Cb)) (p : P) (c : Conf P W), Sane M c →
    Among U M (fun _ => ()) (perform sem args cs p c)
      (match cs with
        | [] => [.ok () (M.sight c)]
        | _ :: _ => [.ok () (M.sight c), .throw (.user 0) (M.sight c)]) := by
  intro cs
  induction cs with
  | nil => intro p c h; exact ⟨List.mem_cons_self, h⟩
  | cons x cs ih =>
    intro p c h
    obtain ⟨ph, a⟩ := x
    rw [perform]
    cases ha : sem.action a args p c.world with
    | ok b p' w =>
      refine (ih p' { c with world := w, calls := _ } h).mono fun x hx => ?_
      cases cs with
      | nil => rw [List.mem_singleton.1 hx]; exact List.mem_cons_self
      | cons y ys => exact hx
    | throw k p' w => exact ⟨⟨_, List.mem_cons_of_mem _ List.mem_cons_self⟩, h⟩
    | ub => exact Or.inr ⟨Or.inl rfl, hU.actions _ _ _ _ ha⟩

theorem take_among (hU : Blames M sem U) (r : Nat) (ev : EventTy) (d : Dep) (cd : Cand) (t : XRow) (l : Name × StTy) (p : P)
    (c : Conf P W) (h : Sane M c) :
    Among U M (fun _ => ()) (M.take sem r ev d cd t l p c) (M.mayTake r t l (M.sight c)) := by
  unfold take mayTake
  refine Among.bind (φ := fun _ => ()) ?_ fun _ c h => ?_
  · have ht := travel_sight (M := M) r t l c
    revert ht
    cases M.travel r t l c <;> intro ht
    · refine ⟨by rw [ht.1]; exact List.mem_cons_self, ?_, ?_⟩
      · rw [ht.2.2.1]; exact h.1
      · rw [ht.2.1]; exact h.2
    · exact ht.elim
    · exact Or.inl (by rw [ht]; exact List.mem_cons_self)
    · exact ht.elim
  · cases M.toRun t with
    | none => exact ⟨List.mem_cons_self, h⟩
    | some cs =>
      dsimp only
      split
      · refine (perform_among hU _ cs p c h).mono fun x hx => ?_
        cases cs <;> exact hx
      · next ha => exact Or.inr ⟨Or.inr rfl, hU.absent ha⟩

theorem attempt_among (hU : Blames M sem U) (anon : Bool) (r : Nat) {ev : EventTy} (hev : ev ∈ M.events) :
    ∀ (cs : List (Dep × Cand)) (p : P) (c : Conf P W), Sane M c →
    Among U M (·.1) (M.attempt sem anon r ev cs p c) (M.mayAttempt anon r (cs.map (·.2)) (M.sight c)) := by
  intro cs
  induction cs with
  | nil => intro p c h; exact ⟨List.mem_cons_self, h⟩
  | cons x cs ih =>
    intro p c h
    obtain ⟨d, cd⟩ := x
    rw [List.map_cons, attempt, mayAttempt]
    cases cd.row? with
    | none =>
      cases anon with
      | true => exact Or.inl List.mem_cons_self
      | false =>
        refine ⟨List.mem_cons_self, h.1, fun e he => ?_⟩
        rcases List.mem_append.1 he with he | he
        · exact h.2 e he
        · rw [List.mem_singleton.1 he]; exact hev
    | some t =>
      dsimp only
      cases M.targetLoc t with
      | none => exact Or.inl List.mem_cons_self
      | some l =>
        dsimp only
        have fire : ∀ p c, Sane M c →
            Among U M (fun a : RegionOut × P => a.1)
              ((M.take sem r ev d cd t l p c).bind fun p c => .ok (RegionOut.fired, p) c)
              (branch (M.mayTake r t l (M.sight c)) fun _ n => [.ok RegionOut.fired n]) := fun p c h =>
          (take_among hU r ev d cd t l p c h).bind fun _ c h => ⟨List.mem_cons_self, h⟩
        unfold ask
        cases t.guard with
        | none => exact fire p c h
        | some g =>
          rw [if_neg (show ¬ some g = none from nofun)]
          dsimp only
          generalize (if t.internal then cd.src else l.2) = dst
          split
          · cases hg : sem.guard g ⟨ev, cd.src, dst, false, d⟩ p c.world with
            | ok b p' w =>
              cases b with
              | true =>
                refine (fire p' { c with world := w, calls := _ } h).mono fun x hx => ?_
                exact List.mem_cons_of_mem _ (List.mem_append_left _ hx)
              | false =>
                refine (ih p' { c with world := w, calls := _ } h).mono fun x hx => ?_
                exact List.mem_cons_of_mem _ (List.mem_append_right _ hx)
            | throw k p' w => exact ⟨⟨_, List.mem_cons_self⟩, h⟩
            | ub => exact Or.inr ⟨Or.inl rfl, hU.guards _ _ _ _ hg⟩
          · next ha =>
            refine Or.inr ⟨Or.inr rfl, ?_⟩
            by_cases h1 : M.present sem cd.src c = true
            · by_cases h2 : M.present sem dst c = true
              · exact absurd (by rw [h1, h2]; rfl) ha
              · exact hU.absent h2
            · exact hU.absent h1

theorem mayAttempt_append (anon : Bool) (r : Nat) (cs' : List Cand) (n : Spot) (x : Res Spot RegionOut) :
    ∀ cs : List Cand, x ∈ M.mayAttempt anon r (cs ++ cs') n → x ∈ M.mayAttempt anon r cs n ∨
      .ok .rejected n ∈ M.mayAttempt anon r cs n ∧ x ∈ M.mayAttempt anon r cs' n := by
  intro cs
  induction cs with
  | nil => intro h; exact Or.inr ⟨List.mem_cons_self, h⟩
  | cons cd cs ih =>
    rw [List.cons_append, mayAttempt, mayAttempt]
    cases cd.row? with
    | none => exact Or.inl
    | some t =>
      dsimp only
      cases M.targetLoc t with
      | none => exact Or.inl
      | some l =>
        dsimp only
        split
        · exact Or.inl
        · intro h
          rcases List.mem_cons.1 h with h | h
          · exact Or.inl (h ▸ List.mem_cons_self)
          rcases List.mem_append.1 h with h | h
          · exact Or.inl (List.mem_cons_of_mem _ (List.mem_append_left _ h))
          · rcases ih h with h | h
            · exact Or.inl (List.mem_cons_of_mem _ (List.mem_append_right _ h))
            · exact Or.inr ⟨List.mem_cons_of_mem _ (List.mem_append_right _ h.1), h.2⟩

theorem mayAttempt_repeat (anon : Bool) (r : Nat) (cs : List Cand) (n : Spot) (x : Res Spot RegionOut) :
    ∀ {ds : List Dep}, ds ≠ [] →
      x ∈ M.mayAttempt anon r ((ds.flatMap fun d => cs.map fun cd => (d, cd)).map (·.2)) n →
      x ∈ M.mayAttempt anon r cs n
  | [], h, _ => absurd rfl h
  | d :: ds, _, hx => by
    rw [List.flatMap_cons, List.map_append, List.map_map] at hx
    have e : cs.map ((·.2) ∘ fun cd => (d, cd)) = cs := List.map_id _
    rw [e] at hx
    rcases mayAttempt_append anon r _ n x cs hx with h | ⟨h1, h2⟩
    · exact h
    · cases ds with
      | nil =>
        rw [List.flatMap_nil, List.map_nil, mayAttempt] at h2
        rw [List.mem_singleton.1 h2]; exact h1
      | cons d' ds => exact mayAttempt_repeat anon r cs n x (List.cons_ne_nil _ _) h2

theorem visit_among (hU : Blames M sem U) (anon : Bool) (r : Nat) {ev : EventTy} (hev : ev ∈ M.events) (p : P) (c : Conf P W)
    (h : Sane M c) :
    Among U M (·.1) (M.visit sem anon r ev p c) (M.mayVisit anon r ev (M.sight c)) := by
  unfold visit mayVisit seek
  show Among U M _ _ (match c.slots[r]? with | none => _ | some none => _ | some (some l) => _)
  cases c.slots[r]? with
  | none => exact Or.inl List.mem_cons_self
  | some o =>
    cases o with
    | none => exact Or.inl List.mem_cons_self
    | some l =>
      show Among U M _ (if _ then _ else _) (if _ then _ else _)
      split
      · split
        · exact ⟨List.mem_cons_self, h⟩
        · exact (attempt_among hU anon r hev _ p c h).mono fun x hx => mayAttempt_repeat anon r _ _ x h.1 hx
      · exact Or.inl List.mem_cons_self

theorem sweep_among (hU : Blames M sem U) {ev : EventTy} (hev : ev ∈ M.events) : ∀ (rs : List Nat) (os : List RegionOut) (p : P)
    (c : Conf P W), Sane M c →
    Among U M (·.1) (M.sweep sem ev rs os p c) (M.maySweep ev rs os (M.sight c)) := by
  intro rs
  induction rs with
  | nil => intro os p c h; exact ⟨List.mem_cons_self, h⟩
  | cons r rs ih =>
    intro os p c h
    unfold sweep maySweep
    refine (visit_among hU false r hev p c h).bind fun o c h => ?_
    split
    · exact ⟨List.mem_cons_self, h⟩
    · exact ih _ o.2 c h

theorem round_among (hU : Blames M sem U) (hev : EventTy.none ∈ M.events) : ∀ (rs : List Nat) (os : List RegionOut) (p : P)
    (c : Conf P W), Sane M c →
    Among U M (·.1) (M.round sem rs os p c) (M.mayRound rs os (M.sight c)) := by
  intro rs
  induction rs with
  | nil => intro os p c h; exact ⟨List.mem_cons_self, h⟩
  | cons r rs ih =>
    intro os p c h
    unfold round mayRound
    refine (visit_among hU true r hev p c h).bind fun o c h => ?_
    split
    · exact ⟨List.mem_cons_self, h⟩
    · exact ih _ o.2 c h

theorem complain_among (hU : Blames M sem U) (ev : EventTy) (p : P) (c : Conf P W) (h : Sane M c) :
    Among U M id (M.complain sem ev p c) (M.mayComplain (M.sight c)) := by
  unfold complain mayComplain
  cases (M.decl M.root).handler with
  | none => exact ⟨List.mem_cons_self, h⟩
  | some hd =>
    unfold seek
    show Among U M _ _ (match c.slots[0]? with | none => _ | some none => _ | some (some l) => _)
    cases c.slots[0]? with
    | none => exact Or.inl List.mem_cons_self
    | some o =>
      cases o with
      | none => exact Or.inl List.mem_cons_self
      | some l =>
        show Among U M _ (if _ then _ else _) (if _ then _ else _)
        split
        · split
          · cases hh : sem.handler hd ev l.2 c.first p c.world with
            | ok b p' w => exact ⟨List.mem_cons_self, h⟩
            | throw k p' w => exact ⟨⟨_, List.mem_cons_of_mem _ List.mem_cons_self⟩, h⟩
            | ub => exact Or.inr ⟨Or.inl rfl, hU.handlers _ _ _ _ _ _ hh⟩
          · next ha => exact Or.inr ⟨Or.inr rfl, hU.absent ha⟩
        · exact ⟨⟨_, List.mem_cons_self⟩, h⟩

/-! ## Nothing moves unless a row fires -/

theorem mayAttempt_stay (anon : Bool) (r : Nat) (n : Spot) {o : RegionOut} {n' : Spot} (ho : o ≠ .fired) :
    ∀ cs : List Cand, .ok o n' ∈ M.mayAttempt anon r cs n → n' = n := by
  intro cs
  induction cs with
  | nil => intro h; injection List.mem_singleton.1 h
  | cons cd cs ih =>
    rw [mayAttempt]
    cases cd.row? with
    | none =>
      cases anon with
      | true => intro h; cases List.mem_singleton.1 h
      | false => intro h; injection List.mem_singleton.1 h
    | some t =>
      dsimp only
      cases M.targetLoc t with
      | none => intro h; cases List.mem_singleton.1 h
      | some l =>
        dsimp only
        have fire : .ok o n' ∉ branch (M.mayTake r t l n) fun _ n => [.ok .fired n] := by
          intro h
          rcases mem_branch.1 h with ⟨_, _, _, h⟩ | ⟨_, _, _, h⟩ | ⟨_, _, h⟩ | ⟨_, h⟩
          · injection List.mem_singleton.1 h with h1
            exact ho h1
          · cases h
          · cases h
          · cases h
        split
        · intro h; exact absurd h fire
        · intro h
          rcases List.mem_cons.1 h with h | h
          · cases h
          rcases List.mem_append.1 h with h | h
          · exact absurd h fire
          · exact ih h

theorem mayVisit_stay (anon : Bool) (r : Nat) (ev : EventTy) (n : Spot) {o : RegionOut} {n' : Spot}
    (ho : o ≠ .fired) (h : .ok o n' ∈ M.mayVisit anon r ev n) : n' = n := by
  unfold mayVisit at h
  split at h
  · cases List.mem_singleton.1 h
  · cases List.mem_singleton.1 h
  · split at h
    · split at h
      · injection List.mem_singleton.1 h
      · exact mayAttempt_stay anon r n ho _ h
    · cases List.mem_singleton.1 h

theorem maySweep_mono (ev : EventTy) {os' : List RegionOut} {n' : Spot} : ∀ (rs : List Nat)
    (os : List RegionOut) (n : Spot), .ok os' n' ∈ M.maySweep ev rs os n → ∀ o ∈ os, o ∈ os' := by
  intro rs
  induction rs with
  | nil => intro os n h o ho; injection List.mem_singleton.1 h with h1; rw [h1]; exact ho
  | cons r rs ih =>
    intro os n h o ho
    rw [maySweep] at h
    rcases mem_branch.1 h with ⟨o', n1, _, h⟩ | ⟨_, _, _, h⟩ | ⟨_, _, h⟩ | ⟨_, h⟩
    · split at h
      · injection List.mem_singleton.1 h with h1; rw [h1]; exact List.mem_append_left _ ho
      · exact ih _ n1 h o (List.mem_append_left _ ho)
    · cases h
    · cases h
    · cases h

theorem maySweep_stay (ev : EventTy) {os' : List RegionOut} {n' : Spot} (ho : .fired ∉ os') :
    ∀ (rs : List Nat) (os : List RegionOut) (n : Spot), .ok os' n' ∈ M.maySweep ev rs os n → n' = n := by
  intro rs
  induction rs with
  | nil => intro os n h; injection List.mem_singleton.1 h
  | cons r rs ih =>
    intro os n h
    rw [maySweep] at h
    rcases mem_branch.1 h with ⟨o', n1, h1, h2⟩ | ⟨_, _, _, h⟩ | ⟨_, _, h⟩ | ⟨_, h⟩
    · have hne : o' ≠ .fired := by
        rintro rfl
        rw [if_neg (by decide)] at h2
        exact ho (maySweep_mono ev rs _ n1 h2 _ (List.mem_append_right _ List.mem_cons_self))
      have := mayVisit_stay false r ev n hne h1
      subst this
      split at h2
      · injection List.mem_singleton.1 h2
      · exact ih _ n1 h2
    · cases h
    · cases h
    · cases h

end Machine

variable {A : List SetArgs}

theorem Machine.mem_moves {b : Bool} {n : Spot} {x : Res Spot Bool} :
    x ∈ M.moves A b n ↔ x ∈ M.next b n ∨ b = false ∧ ∃ a ∈ A, Machine.maySet a n = x := by
  unfold Machine.moves
  rw [List.mem_append]
  cases b <;> simp

theorem Machine.Walk.run {b b' : Bool} {n n' : Spot} (h : M.Walk A b n) (hn : .ok b' n' ∈ M.next b n) :
    M.Walk A b' n' := h.ok (Machine.mem_moves.2 (Or.inl hn))

theorem Machine.Walk.fail {b : Bool} {n n' : Spot} {x : Exn} (h : M.Walk A b n)
    (hn : .throw x n' ∈ M.next b n) : M.Walk A false n' := h.throw (Machine.mem_moves.2 (Or.inl hn))

/-- The machine comes to a spot of its walks; what is undefined happens there. -/
def OnWalk {α : Type} (A : List SetArgs) (U V : Prop) (M : Machine) (Q : α → Conf P W → Prop) : Res (Conf P W) α → Prop
  | .ok a c => M.Walk A false (M.sight c) ∧ Sane M c ∧ Q a c
  | .throw _ c => M.Walk A false (M.sight c) ∧ Sane M c
  | .ub u => (∃ b n, M.Walk A b n ∧ .ub u ∈ M.next b n) ∨ (u = .callback ∨ u = .nullObject) ∧ U
  | .timeout => V

theorem OnWalk.bind {α β : Type} {Q : α → Conf P W → Prop} {Q' : β → Conf P W → Prop}
    {r : Res (Conf P W) α} {f : α → Conf P W → Res (Conf P W) β} (h : OnWalk A U V M Q r)
    (hf : ∀ a c, M.Walk A false (M.sight c) → Sane M c → Q a c → OnWalk A U V M Q' (f a c)) :
    OnWalk A U V M Q' (r.bind f) := by
  cases r with
  | ok a c => exact hf a c h.1 h.2.1 h.2.2
  | throw x c => exact h
  | ub u => exact h
  | timeout => exact h

namespace Machine

theorem settle_onWalk (hU : Blames M sem U) (hev : EventTy.none ∈ M.events) : ∀ (fuel : Nat) (p : P) (c : Conf P W),
    (V ∨ M.within fuel (M.sight c) = true) → M.Walk A true (M.sight c) → Sane M c → OnWalk A U V M (fun _ _ => True) (M.settle sem fuel p c) := by
  intro fuel
  induction fuel with
  | zero => intro p c hV _ _; exact hV.resolve_right nofun
  | succ fuel ih =>
    intro p c hV hw hs
    unfold settle
    have h := round_among hU hev (M.taking c) [] p c hs
    have e : M.mayRound (M.taking c) [] (M.sight c) = M.next true (M.sight c) := rfl
    rw [e] at h
    cases hr : M.round sem (M.taking c) [] p c with
    | ok a c' =>
      rw [hr] at h
      show OnWalk A U V M _ (if a.1 then _ else _)
      obtain ⟨h1, h2⟩ := h
      dsimp only at h1
      cases ha : a.1 with
      | true =>
        rw [ha] at h1
        refine ih a.2 c' (hV.imp_right fun h => ?_) (hw.run h1) h2
        rw [within] at h
        exact List.all_eq_true.1 h _ h1
      | false => rw [ha] at h1; exact ⟨hw.run h1, h2, trivial⟩
    | throw x c' =>
      rw [hr] at h
      obtain ⟨⟨y, hy⟩, h2⟩ := h
      exact ⟨hw.fail hy, h2⟩
    | ub u =>
      rw [hr] at h
      exact h.imp_left fun h => ⟨true, _, hw, h⟩
    | timeout => rw [hr] at h; exact h.elim

theorem none_event (h : M.anonymous = true) : EventTy.none ∈ M.events := by
  unfold anonymous at h
  obtain ⟨t, ht, he⟩ := of_decide_eq_true h
  unfold events
  rw [List.mem_eraseDups, List.mem_map]
  exact ⟨t, List.mem_append_left _ ht, he⟩

theorem next_event {ev : EventTy} (hev : ev ∈ M.events) {n : Spot} {x : Res Spot Bool}
    (h : x ∈ M.mayReceive ev n) : x ∈ M.next false n := List.mem_flatMap.2 ⟨ev, hev, h⟩

theorem handle_onWalk (hU : Blames M sem U) (fuel : Nat)
    (hV : V ∨ ∀ n, M.Walk A true n → M.within fuel n = true) {ev : EventTy} (hev : ev ∈ M.events) (p : P) (c : Conf P W)
    (hw : M.Walk A false (M.sight c)) (hs : Sane M c) :
    OnWalk A U V M (fun a c' => .deferred ∉ a.1 → .fired ∉ a.1 → .rejected ∉ a.1 →
        ∀ x ∈ branch (M.mayComplain (M.sight c')) fun _ n => [.ok false n],
          ∃ n, M.Walk A false n ∧ x ∈ M.next false n)
      (M.handle sem fuel ev p c) := by
  unfold handle
  have h := sweep_among hU hev (M.taking c) [] p c hs
  have e : M.taking c = M.involved (M.sight c) := rfl
  rw [e] at h ⊢
  cases hr : M.sweep sem ev (M.involved (M.sight c)) [] p c with
  | ok a c' =>
    rw [hr] at h
    obtain ⟨h1, h2⟩ := h
    dsimp only at h1
    have key : ∀ {x : Res Spot Bool}, x ∈ (if .deferred ∈ a.1 then [.ok false (M.sight c')]
          else if .fired ∈ a.1 then [.ok M.anonymous (M.sight c')]
          else if .rejected ∈ a.1 then [.ok false (M.sight c')]
          else branch (M.mayComplain (M.sight c')) fun _ n => [.ok false n]) →
        x ∈ M.next false (M.sight c) := fun hx =>
      next_event hev (mem_branch.2 (Or.inl ⟨_, _, h1, hx⟩))
    show OnWalk A U V M _ (if _ then _ else _)
    by_cases hd : .deferred ∈ a.1
    · rw [if_neg fun h => h.1 hd]
      refine ⟨hw.run (key (by rw [if_pos hd]; exact List.mem_cons_self)), h2, fun h => absurd hd h⟩
    by_cases hf : .fired ∈ a.1
    · have hk := hw.run (key (x := .ok M.anonymous (M.sight c'))
        (by rw [if_neg hd, if_pos hf]; exact List.mem_cons_self))
      cases ha : M.anonymous with
      | true =>
        rw [ha] at hk
        rw [if_pos ⟨hd, hf, rfl⟩]
        refine (settle_onWalk hU (none_event ha) fuel sem.nonePayload c' (hV.imp_right fun h => h _ hk) hk h2).bind fun _ c hw hs _ => ?_
        exact ⟨hw, hs, fun _ h => absurd hf h⟩
      | false =>
        rw [ha] at hk
        rw [if_neg (by simp)]
        exact ⟨hk, h2, fun _ h => absurd hf h⟩
    rw [if_neg fun h => hf h.2.1]
    have hst := maySweep_stay ev hf _ _ _ h1
    refine ⟨by rw [hst]; exact hw, h2, fun _ _ hj x hx => ⟨_, hw, key ?_⟩⟩
    rw [if_neg hd, if_neg hf, if_neg hj]
    exact hx
  | throw x c' =>
    rw [hr] at h
    obtain ⟨⟨y, hy⟩, h2⟩ := h
    exact ⟨hw.fail (next_event hev (mem_branch.2 (Or.inr (Or.inl ⟨_, _, hy, rfl⟩)))), h2⟩
  | ub u =>
    rw [hr] at h
    exact h.imp_left fun h => ⟨false, _, hw, next_event hev (mem_branch.2 (Or.inr (Or.inr (Or.inl ⟨_, h, rfl⟩))))⟩
  | timeout => rw [hr] at h; exact h.elim

theorem receive_onWalk (hU : Blames M sem U) (fuel : Nat)
    (hV : V ∨ ∀ n, M.Walk A true n → M.within fuel n = true) {ev : EventTy} (hev : ev ∈ M.events) (p : P) (c : Conf P W)
    (hw : M.Walk A false (M.sight c)) (hs : Sane M c) :
    OnWalk A U V M (fun _ _ => True) (M.receive sem fuel ev p c) := by
  unfold receive
  refine (handle_onWalk hU fuel hV hev p c hw hs).bind fun a c hw hs hq => ?_
  split
  · exact ⟨hw, hs, trivial⟩
  split
  · refine OnWalk.bind (Q := fun _ _ => True) ?_ fun _ c hw hs _ => ⟨hw, hs, trivial⟩
    unfold replay
    split
    · exact ⟨hw, hs, trivial⟩
    · next ev' p' q hq =>
      split
      · refine (handle_onWalk hU fuel hV (hs.2 (ev', p') (by rw [hq]; exact List.mem_cons_self)) p'
          { c with waiting := q } hw
          ⟨hs.1, fun e he => hs.2 e (by rw [hq]; exact List.mem_cons_of_mem _ he)⟩).bind
          fun _ c hw hs _ => ?_
        exact ⟨hw, hs, trivial⟩
      · exact ⟨hw, hs, trivial⟩
  split
  · exact ⟨hw, hs, trivial⟩
  · next h1 h2 h3 =>
    have h := (complain_among hU ev a.2 c hs).bind (f := fun _ c => .ok false c)
      (φ' := fun _ => false) (f' := fun _ n => [.ok false n]) fun _ c h => ⟨List.mem_cons_self, h⟩
    have hq := hq h1 h2 h3
    revert h
    cases (M.complain sem ev a.2 c).bind fun _ c => Res.ok false c with
    | ok b c' =>
      intro h
      obtain ⟨n, hn, hx⟩ := hq _ h.1
      exact ⟨hn.run hx, h.2, trivial⟩
    | throw x c' =>
      intro h
      obtain ⟨⟨y, hy⟩, h⟩ := h
      obtain ⟨n, hn, hx⟩ := hq _ hy
      exact ⟨hn.fail hx, h⟩
    | ub u =>
      intro h
      refine h.imp_left fun h => ?_
      obtain ⟨n, hn, hx⟩ := hq _ h
      exact ⟨_, n, hn, hx⟩
    | timeout => intro _; trivial

/-- Every client's machine is at a spot of the walks. -/
theorem reach_walk (hM : M.Regular) {d : Dep} {ops : List (Op P)} {s : SM P W} (h : RunTo M sem d ops s)
    (hA : SetsIn A ops) :
    ∃ c, Depicts M c s ∧ M.Walk A false (M.sight c) ∧ ∀ e ∈ c.waiting, e.1 ∈ M.events := by
  have key : ∀ {s s' : SM P W} {ops : List (Op P)} {op : Op P} {fuel : Nat},
      RunTo M sem d ops s → OpOk M op → SetsIn A (ops ++ [op]) →
      (∃ c, Depicts M c s ∧ M.Walk A false (M.sight c) ∧ ∀ e ∈ c.waiting, e.1 ∈ M.events) →
      ((∃ b, step M sem fuel op s = .ok b s') ∨ ∃ x, step M sem fuel op s = .throw x s') →
      ∃ c, Depicts M c s' ∧ M.Walk A false (M.sight c) ∧ ∀ e ∈ c.waiting, e.1 ∈ M.events := by
    intro s s' ops op fuel hr hop hA ⟨c, hc, hw, hq⟩ h
    have hs := C77_step (sem := sem) hc hM (hr.scopes hM) fuel hop
    have hk : OnWalk A True True M (fun _ _ => True) (M.exec sem fuel op c) := by
      cases op with
      | process ev p =>
        exact receive_onWalk (Blames.all M sem) fuel (Or.inl trivial) (M.events_eq ▸ hop) p c hw ⟨hc.bound, hq⟩
      | set r p st =>
        have hm : maySet (r, p, st) (M.sight c) ∈ M.moves A false (M.sight c) :=
          mem_moves.2 (Or.inr ⟨rfl, _, hA r p st (List.mem_append_right _ List.mem_cons_self), rfl⟩)
        unfold maySet at hm
        show OnWalk A True True M _ (if _ then _ else _)
        by_cases hlt : r % 256 < c.slots.length
        · rw [if_pos (show r % 256 < (M.sight c).slots.length from hlt)] at hm
          rw [if_pos hlt]
          exact ⟨hw.ok hm, ⟨hc.bound, hq⟩, trivial⟩
        · rw [if_neg hlt]
          exact ⟨hw, hc.bound, hq⟩
      | setDependency d' => exact ⟨hw, ⟨nofun, hq⟩, trivial⟩
    revert hs hk
    rcases h with ⟨b, h⟩ | ⟨x, h⟩ <;> rw [h] <;> cases M.exec sem fuel op c <;> intro hs hk <;>
      first
      | exact hs.elim
      | exact ⟨_, hs.2, hk.1, hk.2.1.2⟩
      | exact ⟨_, hs.2, hk.1, hk.2.2⟩
  induction h with
  | @init w s h => exact ⟨_, C77_construct hM h, .start, fun e he => nomatch he⟩
  | ok hr hop h ih =>
    exact key hr hop hA (ih fun r p st hm => hA r p st (List.mem_append_left _ hm)) (Or.inl ⟨_, h⟩)
  | throw hr hop h ih =>
    exact key hr hop hA (ih fun r p st hm => hA r p st (List.mem_append_left _ hm)) (Or.inr ⟨_, h⟩)
  | world _ w ih =>
    obtain ⟨c, hc, hi⟩ := ih hA
    exact ⟨{ c with world := w }, { hc with world := rfl }, hi⟩

end Machine

/-! ## Scripted clients -/

/-- The callbacks do what a script says, line by line; `push` puts a line in front. -/
structure Dictates (tape : Sem Unit W) where
  push : Option Bool → W → W
  guard : ∀ g a b w, tape.guard g a () (push b w) =
    match b with | none => .throw 0 () w | some b => .ok b () w
  action : ∀ x a b w, tape.action x a () (push b w) =
    match b with | none => .throw 0 () w | some _ => .ok () () w
  handler : ∀ h e st d b w, tape.handler h e st d () (push b w) =
    match b with | none => .throw 0 () w | some _ => .ok () () w
  alive : ∀ st w, tape.alive st w = true

namespace Dictates
variable {tape : Sem Unit W} (T : Dictates tape)

/-- Several lines in front. -/
def feed (v : List (Option Bool)) (w : W) : W := v.foldr T.push w

theorem feed_nil (w : W) : T.feed [] w = w := rfl

theorem feed_cons (b : Option Bool) (v : List (Option Bool)) (w : W) :
    T.feed (b :: v) w = T.push b (T.feed v w) := rfl

theorem feed_append (v v' : List (Option Bool)) (w : W) :
    T.feed (v ++ v') w = T.feed v (T.feed v' w) := List.foldr_append

include T in
theorem present (st : StTy) (c : Conf Unit W) : M.present tape st c = true := by
  unfold Machine.present; rw [T.alive]; simp

end Dictates

/-- The scripts of C79 are lists. -/
def listed : Dictates script where
  push := List.cons
  guard _ _ b _ := by cases b <;> rfl
  action _ _ b _ := by cases b <;> rfl
  handler _ _ _ _ b _ := by cases b <;> rfl
  alive _ _ := rfl

variable {tape : Sem Unit W} {T : Dictates tape}

/-- A scripted machine at spot `n`, with one dependency and no waiting events. -/
def Lone (M : Machine) (n : Spot) (c : Conf Unit W) : Prop :=
  M.sight c = n ∧ c.deps = [0] ∧ c.waiting = []

/-- With some script, `g` started at spot `n` ends as `x` says. -/
def Realises {α β : Type} (T : Dictates tape) (M : Machine) (ψ : β → α)
    (g : Conf Unit W → Res (Conf Unit W) α) (n : Spot)
    (x : Res Spot β) : Prop :=
  ∃ v, ∀ c rest, Lone M n c → c.world = T.feed v rest →
    match x with
    | .ok b n' => ∃ c', g c = .ok (ψ b) c' ∧ Lone M n' c' ∧ c'.world = rest
    | .throw _ n' => ∃ y c', g c = .throw y c' ∧ Lone M n' c' ∧ c'.world = rest
    | .ub u => g c = .ub u
    | .timeout => False

theorem Realises.bind {α β α' β' : Type} {ψ : β → α} {ψ' : β' → α'}
    {g : Conf Unit W → Res (Conf Unit W) α}
    {f : α → Conf Unit W → Res (Conf Unit W) α'} {n : Spot}
    {rs : List (Res Spot β)} {f' : β → Spot → List (Res Spot β')} {x : Res Spot β'}
    (hx : x ∈ branch rs f')
    (hg : ∀ y ∈ rs, (∀ b n', y = .ok b n' → x ∈ f' b n') → Realises T M ψ g n y)
    (hf : ∀ b n', .ok b n' ∈ rs → x ∈ f' b n' → Realises T M ψ' (f (ψ b)) n' x) :
    Realises T M ψ' (fun c => (g c).bind f) n x := by
  rcases mem_branch.1 hx with ⟨b, n', h1, h2⟩ | ⟨y, n', h1, rfl⟩ | ⟨u, h1, rfl⟩ | ⟨h1, rfl⟩
  · obtain ⟨v1, hv1⟩ := hg _ h1 fun b n' e => by cases e; exact h2
    obtain ⟨v2, hv2⟩ := hf b n' h1 h2
    refine ⟨v1 ++ v2, fun c rest hc hw => ?_⟩
    obtain ⟨c1, e1, hc1, hw1⟩ := hv1 c (T.feed v2 rest) hc (by rw [hw, T.feed_append])
    have := hv2 c1 rest hc1 hw1
    dsimp only
    rw [e1]
    exact this
  · obtain ⟨v1, hv1⟩ := hg _ h1 fun b n' e => nomatch e
    refine ⟨v1, fun c rest hc hw => ?_⟩
    obtain ⟨y, c1, e1, hc1, hw1⟩ := hv1 c rest hc hw
    exact ⟨y, c1, by dsimp only; rw [e1]; rfl, hc1, hw1⟩
  · obtain ⟨v1, hv1⟩ := hg _ h1 fun b n' e => nomatch e
    refine ⟨v1, fun c rest hc hw => ?_⟩
    have := hv1 c rest hc hw
    dsimp only at this ⊢
    rw [this]; rfl
  · obtain ⟨v1, hv1⟩ := hg _ h1 fun b n' e => nomatch e
    refine ⟨v1, fun c rest hc hw => ?_⟩
    exact (hv1 c rest hc hw).elim

theorem Realises.done {α β : Type} {ψ : β → α} {b : β} {n : Spot} :
    Realises T M ψ (fun c => .ok (ψ b) c) n (.ok b n) :=
  ⟨[], fun c _ hc hw => ⟨c, rfl, hc, hw⟩⟩

namespace Machine

theorem perform_realises (args : Args) (n : Spot) : ∀ (cs : List (Phase × Cb)) (x : Res Spot Unit),
    (x = .ok () n ∨ cs ≠ [] ∧ x = .throw (.user 0) n) →
    Realises T M (fun _ => ()) (perform tape args cs ()) n x := by
  intro cs
  induction cs with
  | nil =>
    rintro x (rfl | ⟨h, _⟩)
    · exact .done
    · exact absurd rfl h
  | cons y cs ih =>
    obtain ⟨ph, a⟩ := y
    rintro x (rfl | ⟨_, rfl⟩)
    · obtain ⟨v, hv⟩ := ih _ (Or.inl rfl)
      refine ⟨some true :: v, fun c rest hc hw => ?_⟩
      rw [perform]
      rw [hw, T.feed_cons, T.action]
      exact hv _ rest hc rfl
    · refine ⟨[none], fun c rest hc hw => ?_⟩
      rw [perform]
      rw [hw, T.feed_cons, T.action]
      exact ⟨_, _, rfl, hc, rfl⟩

theorem take_realises (r : Nat) (ev : EventTy) (d : Dep) (cd : Cand) (t : XRow) (l : Name × StTy)
    (n : Spot) (x : Res Spot Unit) (hx : x ∈ M.mayTake r t l n) :
    Realises T M (fun _ => ()) (M.take tape r ev d cd t l ()) n x := by
  unfold take
  refine Realises.bind (ψ := fun _ => ()) hx (fun y hy _ => ?_) fun _ n' _ hx => ?_
  · rw [List.mem_singleton.1 hy]
    refine ⟨[], fun c rest hc hw => ?_⟩
    have ht := travel_sight (M := M) r t l c
    obtain ⟨h1, h2, h3⟩ := hc
    rw [h1] at ht
    revert ht
    cases M.travel r t l c with
    | ok a c' =>
      intro ht
      rw [ht.1]
      exact ⟨c', rfl, ⟨rfl, by rw [ht.2.2.1]; exact h2, by rw [ht.2.1]; exact h3⟩,
        by rw [ht.2.2.2.1]; exact hw⟩
    | throw x c' => intro ht; exact ht.elim
    | ub u => intro ht; rw [ht]
    | timeout => intro ht; exact ht.elim
  · revert hx
    cases M.toRun t with
    | none => intro hx; rw [List.mem_singleton.1 hx]; exact .done
    | some cs =>
      intro hx
      dsimp only
      simp only [T.present, if_true]
      refine perform_realises _ n' cs x ?_
      cases cs with
      | nil => exact Or.inl (List.mem_singleton.1 hx)
      | cons y ys =>
        rcases List.mem_cons.1 hx with h | h
        · exact Or.inl h
        · exact Or.inr ⟨List.cons_ne_nil _ _, List.mem_singleton.1 h⟩

theorem attempt_realises (anon : Bool) (r : Nat) (ev : EventTy) (n : Spot) (x : Res Spot RegionOut)
    (d : Dep) : ∀ (cs : List Cand), (∀ n', x ≠ .ok .deferred n') → x ∈ M.mayAttempt anon r cs n →
    Realises T M (fun o => (o, ())) (M.attempt tape anon r ev (cs.map fun cd => (d, cd)) ()) n x := by
  intro cs
  induction cs with
  | nil => intro _ hx; rw [List.mem_singleton.1 hx]; exact .done
  | cons cd cs ih =>
    intro hcs hx
    have ih := ih hcs
    rw [mayAttempt] at hx
    have e : M.attempt tape anon r ev ((cd :: cs).map fun cd => (d, cd)) () = fun c =>
        match cd.row? with
        | none =>
          if anon then .ub .nullTransition
          else .ok (.deferred, ()) { c with waiting := c.waiting ++ [(ev, ())] }
        | some t =>
          match M.targetLoc t with
          | none => .ub .nullTransition
          | some l =>
            (M.ask tape ev d cd t l () c).bind fun a c =>
              if a.1 then (M.take tape r ev d cd t l a.2 c).bind fun p c => .ok (.fired, p) c
              else M.attempt tape anon r ev (cs.map fun cd => (d, cd)) a.2 c :=
      funext fun c => by rw [List.map_cons, attempt]; rfl
    rw [e]
    clear e
    cases hr : cd.row? with
    | none =>
      rw [hr] at hx
      cases anon with
      | true => rw [List.mem_singleton.1 hx]; exact ⟨[], fun c rest hc hw => rfl⟩
      | false => exact absurd (List.mem_singleton.1 hx) (hcs n)
    | some t =>
      rw [hr] at hx
      dsimp only at hx ⊢
      cases hl : M.targetLoc t with
      | none =>
        rw [hl] at hx
        rw [List.mem_singleton.1 hx]
        exact ⟨[], fun c rest hc hw => rfl⟩
      | some l =>
        rw [hl] at hx
        dsimp only at hx ⊢
        have fire : x ∈ (branch (M.mayTake r t l n) fun _ n => [.ok RegionOut.fired n]) →
            Realises T M (fun o => (o, ())) (fun c => (M.take tape r ev d cd t l () c).bind
              fun p c => .ok (RegionOut.fired, p) c) n x := fun h =>
          Realises.bind (ψ := fun _ => ()) h (fun y hy _ => take_realises r ev d cd t l n y hy)
            fun _ n' _ hx => by rw [List.mem_singleton.1 hx]; exact .done
        cases hg : t.guard with
        | none =>
          rw [if_pos hg] at hx
          have e : (fun c => (M.ask tape ev d cd t l () c).bind fun a c =>
              if a.1 then (M.take tape r ev d cd t l a.2 c).bind fun p c => .ok (RegionOut.fired, p) c
              else M.attempt tape anon r ev (cs.map fun cd => (d, cd)) a.2 c) = fun c =>
              (M.take tape r ev d cd t l () c).bind fun p c => .ok (RegionOut.fired, p) c := by
            funext c
            unfold ask
            rw [hg]
            rfl
          rw [e]
          exact fire hx
        | some g =>
          rw [if_neg (by rw [hg]; nofun)] at hx
          have ask : ∀ (b : Option Bool) c rest, c.world = T.push b rest →
              M.ask tape ev d cd t l () c = match b with
                | none => .throw (.user 0) { c with
                    world := rest
                    calls := c.calls ++ [.guard g ⟨ev, cd.src, if t.internal then cd.src else l.2, false, d⟩
                      () none []] }
                | some b => .ok (b, ()) { c with
                    world := rest
                    calls := c.calls ++ [.guard g ⟨ev, cd.src, if t.internal then cd.src else l.2, false, d⟩
                      () (some b) []] } := by
            intro b c rest hw
            unfold Machine.ask
            rw [hg]
            simp only [T.present, Bool.and_self, if_true]
            rw [hw, T.guard]
            cases b <;> rfl
          rcases List.mem_cons.1 hx with rfl | hx
          · refine ⟨[none], fun c rest hc hw => ?_⟩
            simp only [ask none c rest hw]
            exact ⟨_, _, rfl, hc, rfl⟩
          rcases List.mem_append.1 hx with hx | hx
          · obtain ⟨v, hv⟩ := fire hx
            refine ⟨some true :: v, fun c rest hc hw => ?_⟩
            simp only [ask (some true) c (T.feed v rest) hw]
            exact hv _ rest hc rfl
          · obtain ⟨v, hv⟩ := ih hx
            refine ⟨some false :: v, fun c rest hc hw => ?_⟩
            simp only [ask (some false) c (T.feed v rest) hw]
            exact hv _ rest hc rfl

/-- Nothing is deferred. -/
theorem no_defer (hd : M.deferring = false) {ev : EventTy} {p : Name} {st : StTy} {cd : Cand}
    (h : cd ∈ M.cands ev p st) : cd.row? ≠ none := by
  intro h0
  have : cd = .defer := by cases cd <;> first | rfl | cases h0
  rw [this] at h
  rw [deferring_of_cands h] at hd
  cases hd

theorem visit_realises (anon : Bool) (r : Nat) (ev : EventTy) (n : Spot)
    (x : Res Spot RegionOut) (hd : ∀ n', x ≠ .ok .deferred n') (hx : x ∈ M.mayVisit anon r ev n) :
    Realises T M (fun o => (o, ())) (M.visit tape anon r ev ()) n x := by
  have key : ∀ c, Lone M n c → M.visit tape anon r ev () c =
      match n.slots[r]? with
      | none => .ub .bounds
      | some none => .ub .uninit
      | some (some l) =>
        if l.1 ∈ M.composites then
          if M.cands ev l.1 l.2 = [] then .ok (.none, ()) c
          else M.attempt tape anon r ev ((M.cands ev l.1 l.2).map fun cd => (0, cd)) () c
        else .ub .bounds := by
    intro c hc
    unfold visit seek
    rw [show n.slots = c.slots from by rw [← hc.1]; rfl]
    cases c.slots[r]? with
    | none => rfl
    | some o =>
      cases o with
      | none => rfl
      | some l =>
        show (if _ then _ else _) = _
        rw [hc.2.1]
        simp only [List.flatMap_cons, List.flatMap_nil, List.append_nil]
  unfold mayVisit at hx
  suffices h : Realises T M (fun o => (o, ())) (fun c => match n.slots[r]? with
      | none => .ub .bounds
      | some none => .ub .uninit
      | some (some l) =>
        if l.1 ∈ M.composites then
          if M.cands ev l.1 l.2 = [] then .ok (.none, ()) c
          else M.attempt tape anon r ev ((M.cands ev l.1 l.2).map fun cd => (0, cd)) () c
        else .ub .bounds) n x by
    obtain ⟨v, hv⟩ := h
    refine ⟨v, fun c rest hc hw => ?_⟩
    rw [key c hc]
    exact hv c rest hc hw
  cases hs : n.slots[r]? with
  | none =>
    rw [hs] at hx
    rw [List.mem_singleton.1 hx]
    exact ⟨[], fun c rest hc hw => rfl⟩
  | some o =>
    rw [hs] at hx
    cases o with
    | none =>
      rw [List.mem_singleton.1 hx]
      exact ⟨[], fun c rest hc hw => rfl⟩
    | some l =>
      dsimp only at hx ⊢
      by_cases hl : l.1 ∈ M.composites
      · simp only [if_pos hl] at hx ⊢
        by_cases hc : M.cands ev l.1 l.2 = []
        · simp only [if_pos hc] at hx ⊢
          rw [List.mem_singleton.1 hx]
          exact .done
        · simp only [if_neg hc] at hx ⊢
          exact attempt_realises anon r ev n x 0 _ hd hx
      · simp only [if_neg hl] at hx ⊢
        rw [List.mem_singleton.1 hx]
        exact ⟨[], fun c rest hc hw => rfl⟩

theorem sweep_realises (ev : EventTy) (x : Res Spot (List RegionOut))
    (hd : ∀ os n', x = .ok os n' → .deferred ∉ os) :
    ∀ (rs : List Nat) (os : List RegionOut) (n : Spot), x ∈ M.maySweep ev rs os n →
    Realises T M (fun o => (o, ())) (M.sweep tape ev rs os ()) n x := by
  intro rs
  induction rs with
  | nil => intro os n hx; rw [List.mem_singleton.1 hx]; exact .done
  | cons r rs ih =>
    intro os n hx
    rw [maySweep] at hx
    have e : M.sweep tape ev (r :: rs) os () = fun c =>
        (M.visit tape false r ev () c).bind fun o c =>
          if o.1 = .deferred then .ok (os ++ [.deferred], o.2) c
          else M.sweep tape ev rs (os ++ [o.1]) o.2 c := funext fun c => by rw [sweep]
    rw [e]
    refine Realises.bind (ψ := fun o => (o, ())) hx (fun y hy h => visit_realises false r ev n y ?_ hy)
      fun o n' _ hx => ?_
    · rintro n' rfl
      have := h _ _ rfl
      rw [if_pos rfl] at this
      exact hd _ _ (List.mem_singleton.1 this) (List.mem_append_right _ List.mem_cons_self)
    dsimp only
    by_cases ho : o = .deferred
    · simp only [if_pos ho] at hx ⊢
      rw [List.mem_singleton.1 hx]; exact .done
    · simp only [if_neg ho] at hx ⊢
      exact ih _ n' hx

theorem mayAttempt_anon (r : Nat) (n n' : Spot) : ∀ cs : List Cand,
    .ok .deferred n' ∉ M.mayAttempt true r cs n := by
  intro cs
  induction cs with
  | nil => intro h; cases List.mem_singleton.1 h
  | cons cd cs ih =>
    rw [mayAttempt]
    cases cd.row? with
    | none => intro h; cases List.mem_singleton.1 h
    | some t =>
      dsimp only
      cases M.targetLoc t with
      | none => intro h; cases List.mem_singleton.1 h
      | some l =>
        have fire : .ok .deferred n' ∉ branch (M.mayTake r t l n) fun _ n => [.ok RegionOut.fired n] := by
          intro h
          rcases mem_branch.1 h with ⟨_, _, _, h⟩ | ⟨_, _, _, h⟩ | ⟨_, _, h⟩ | ⟨_, h⟩
          · cases List.mem_singleton.1 h
          · cases h
          · cases h
          · cases h
        dsimp only
        split
        · exact fire
        · intro h
          rcases List.mem_cons.1 h with h | h
          · cases h
          rcases List.mem_append.1 h with h | h
          · exact fire h
          · exact ih h

theorem mayVisit_anon (r : Nat) (n n' : Spot) : .ok .deferred n' ∉ M.mayVisit true r .none n := by
  unfold mayVisit
  split
  · intro h; cases List.mem_singleton.1 h
  · intro h; cases List.mem_singleton.1 h
  · split
    · split
      · intro h; cases List.mem_singleton.1 h
      · exact mayAttempt_anon r n n' _
    · intro h; cases List.mem_singleton.1 h

theorem round_realises (x : Res Spot Bool) :
    ∀ (rs : List Nat) (os : List RegionOut) (n : Spot), x ∈ M.mayRound rs os n →
    Realises T M (fun o => (o, ())) (M.round tape rs os ()) n x := by
  intro rs
  induction rs with
  | nil => intro os n hx; rw [List.mem_singleton.1 hx]; exact .done
  | cons r rs ih =>
    intro os n hx
    rw [mayRound] at hx
    have e : M.round tape (r :: rs) os () = fun c =>
        (M.visit tape true r .none () c).bind fun o c =>
          if o.1 = .none then .ok (false, o.2) c
          else M.round tape rs (os ++ [o.1]) o.2 c := funext fun c => by rw [round]
    rw [e]
    refine Realises.bind (ψ := fun o => (o, ())) hx (fun y hy _ => visit_realises true r .none n y
      (by rintro n' rfl; exact mayVisit_anon r n n' hy) hy)
      fun o n' _ hx => ?_
    dsimp only
    by_cases ho : o = .none
    · simp only [if_pos ho] at hx ⊢
      rw [List.mem_singleton.1 hx]; exact .done
    · simp only [if_neg ho] at hx ⊢
      exact ih _ n' hx

theorem complain_realises (ev : EventTy) (n : Spot) (x : Res Spot Unit) (hx : x ∈ M.mayComplain n) :
    Realises T M id (M.complain tape ev ()) n x := by
  unfold mayComplain at hx
  cases hh : (M.decl M.root).handler with
  | none =>
    rw [hh] at hx
    rw [List.mem_singleton.1 hx]
    refine ⟨[], fun c rest hc hw => ⟨c, ?_, hc, hw⟩⟩
    unfold complain
    rw [hh]
  | some h =>
    rw [hh] at hx
    have key : ∀ c, Lone M n c → M.complain tape ev () c =
        match n.slots[0]? with
        | none => .ub .bounds
        | some none => .ub .uninit
        | some (some l) =>
          if l.1 ∈ M.composites then
            match tape.handler h ev l.2 c.first () c.world with
            | .ok _ _ w =>
              .ok () { c with world := w, calls := c.calls ++ [.handler h ev l.2 c.first () false []] }
            | .throw k _ w =>
              .throw (.user k)
                { c with world := w, calls := c.calls ++ [.handler h ev l.2 c.first () true []] }
            | .ub => .ub .callback
          else .throw .outOfRange c := by
      intro c hc
      unfold complain seek
      rw [hh, show n.slots = c.slots from by rw [← hc.1]; rfl]
      dsimp only
      cases c.slots[0]? with
      | none => rfl
      | some o =>
        cases o with
        | none => rfl
        | some l =>
          simp only [Res.bind, T.present, if_true]
          cases tape.handler h ev l.2 c.first () c.world <;> rfl
    dsimp only at hx
    cases hs : n.slots[0]? with
    | none =>
      rw [hs] at hx
      rw [List.mem_singleton.1 hx]
      exact ⟨[], fun c rest hc hw => by simp only [key c hc, hs]⟩
    | some o =>
      rw [hs] at hx
      cases o with
      | none =>
        rw [List.mem_singleton.1 hx]
        exact ⟨[], fun c rest hc hw => by simp only [key c hc, hs]⟩
      | some l =>
        dsimp only at hx
        by_cases hl : l.1 ∈ M.composites
        · rw [if_pos hl] at hx
          rcases List.mem_cons.1 hx with rfl | hx
          · refine ⟨[some true], fun c rest hc hw => ?_⟩
            rw [key c hc]
            simp only [hs, if_pos hl, hw, T.feed_cons, T.feed_nil, T.handler]
            exact ⟨{ c with world := rest, calls := _ }, rfl, hc, rfl⟩
          · rw [List.mem_singleton.1 hx]
            refine ⟨[none], fun c rest hc hw => ?_⟩
            rw [key c hc]
            simp only [hs, if_pos hl, hw, T.feed_cons, T.feed_nil, T.handler]
            exact ⟨_, { c with world := rest, calls := _ }, rfl, hc, rfl⟩
        · rw [if_neg hl] at hx
          rw [List.mem_singleton.1 hx]
          refine ⟨[], fun c rest hc hw => ?_⟩
          simp only [key c hc, hs, if_neg hl]
          exact ⟨_, _, rfl, hc, hw⟩

theorem replay_idle (fuel : Nat) {c : Conf P W} (hc : c.waiting = []) :
    M.replay sem fuel c = .ok () c := by
  unfold replay
  rw [hc]

theorem mayVisit_nodefer (hd : M.deferring = false) (anon : Bool) (r : Nat) (ev : EventTy) (n n' : Spot) :
    .ok .deferred n' ∉ M.mayVisit anon r ev n := by
  have key : ∀ cs : List Cand, (∀ cd ∈ cs, cd.row? ≠ none) → .ok .deferred n' ∉ M.mayAttempt anon r cs n := by
    intro cs
    induction cs with
    | nil => intro _ h; cases List.mem_singleton.1 h
    | cons cd cs ih =>
      intro hcs
      have ih := ih fun cd h => hcs cd (List.mem_cons_of_mem _ h)
      rw [mayAttempt]
      cases hr : cd.row? with
      | none => exact absurd hr (hcs cd List.mem_cons_self)
      | some t =>
        dsimp only
        cases M.targetLoc t with
        | none => intro h; cases List.mem_singleton.1 h
        | some l =>
          have fire : .ok .deferred n' ∉
              branch (M.mayTake r t l n) fun _ n => [.ok RegionOut.fired n] := by
            intro h
            rcases mem_branch.1 h with ⟨_, _, _, h⟩ | ⟨_, _, _, h⟩ | ⟨_, _, h⟩ | ⟨_, h⟩
            · cases List.mem_singleton.1 h
            · cases h
            · cases h
            · cases h
          dsimp only
          split
          · exact fire
          · intro h
            rcases List.mem_cons.1 h with h | h
            · cases h
            rcases List.mem_append.1 h with h | h
            · exact fire h
            · exact ih h
  unfold mayVisit
  split
  · intro h; cases List.mem_singleton.1 h
  · intro h; cases List.mem_singleton.1 h
  · split
    · split
      · intro h; cases List.mem_singleton.1 h
      · exact key _ fun cd h => no_defer hd h
    · intro h; cases List.mem_singleton.1 h

/-- Before an event is deferred, nothing moved. -/
theorem maySweep_deferred (hd : M.deferring = false ∨ M.orthogonal = false) (ev : EventTy) {n n' : Spot}
    {os : List RegionOut} (h : .ok os n' ∈ M.maySweep ev (M.involved n) [] n) (ho : .deferred ∈ os) :
    n' = n := by
  rcases hd with hd | hd
  · exfalso
    have key : ∀ (rs : List Nat) (os' : List RegionOut) (n : Spot), .deferred ∉ os' →
        .ok os n' ∉ M.maySweep ev rs os' n := by
      intro rs
      induction rs with
      | nil => intro os' n h0 h; cases List.mem_singleton.1 h; exact h0 ho
      | cons r rs ih =>
        intro os' n h0 h
        rw [maySweep] at h
        rcases mem_branch.1 h with ⟨o', n1, h1, h2⟩ | ⟨_, _, _, h⟩ | ⟨_, _, h⟩ | ⟨_, h⟩
        · have hne : o' ≠ .deferred := by
            rintro rfl
            exact mayVisit_nodefer hd _ _ _ _ _ h1
          rw [if_neg hne] at h2
          refine ih _ _ (fun hm => ?_) h2
          rcases List.mem_append.1 hm with hm | hm
          · exact h0 hm
          · exact hne (List.mem_singleton.1 hm).symm
        · cases h
        · cases h
        · cases h
    exact key _ _ _ List.not_mem_nil h
  · have e : M.involved n = [0] := by unfold involved; rw [hd]; rfl
    rw [e, maySweep] at h
    rcases mem_branch.1 h with ⟨o', n1, h1, h2⟩ | ⟨_, _, _, h⟩ | ⟨_, _, h⟩ | ⟨_, h⟩
    · by_cases hne : o' = .deferred
      · rw [if_pos hne] at h2
        cases List.mem_singleton.1 h2
        exact mayVisit_stay _ _ _ _ (by rw [hne]; nofun) h1
      · rw [if_neg hne] at h2
        cases List.mem_singleton.1 h2
        exact absurd (List.mem_singleton.1 ho).symm hne
    · cases h
    · cases h
    · cases h

/-- What one event may do is done for some script. -/
theorem receive_realises (hd : M.deferring = false ∨ M.orthogonal = false) (ev : EventTy) (n : Spot)
    (x : Res Spot Bool) (hx : x ∈ M.mayReceive ev n) : x = .ok false n ∨
    ∃ v, ∀ c rest, Lone M n c → c.world = T.feed v rest → ∀ fuel,
      match x with
      | .ok false n' => ∃ a c', M.receive tape fuel ev () c = .ok a c' ∧ Lone M n' c'
      | .ok true n' => ∃ c', Lone M n' c' ∧ c'.world = rest ∧
          M.receive tape fuel ev () c = (M.settle tape fuel () c').bind fun _ c =>
            (M.replay tape fuel c).bind fun _ c => .ok true c
      | .throw _ n' => ∃ y c', M.receive tape fuel ev () c = .throw y c' ∧ Lone M n' c'
      | .ub u => M.receive tape fuel ev () c = .ub u
      | .timeout => False := by
  unfold mayReceive at hx
  rcases mem_branch.1 hx with ⟨os, n1, h1, h2⟩ | ⟨y, n1, h1, rfl⟩ | ⟨u, h1, rfl⟩ | ⟨h1, rfl⟩
  · by_cases hdf : .deferred ∈ os
    · rw [if_pos hdf] at h2
      rw [List.mem_singleton.1 h2, maySweep_deferred hd ev h1 hdf]
      exact Or.inl rfl
    rw [if_neg hdf] at h2
    refine Or.inr ?_
    obtain ⟨v1, hv1⟩ := sweep_realises (T := T) ev _ (by rintro _ _ e; cases e; exact hdf) _ _ n h1
    -- up to the unexpected-event handler
    have key : ∀ c rest, Lone M n c → c.world = T.feed v1 rest → ∃ c1, Lone M n1 c1 ∧ c1.world = rest ∧
        ∀ fuel, M.receive tape fuel ev () c =
          if .fired ∈ os then
            if M.anonymous then (M.settle tape fuel () c1).bind fun _ c =>
              (M.replay tape fuel c).bind fun _ c => .ok true c
            else .ok true c1
          else if .rejected ∈ os then .ok false c1
          else (M.complain tape ev () c1).bind fun _ c => .ok false c := by
      intro c rest hc hw
      obtain ⟨c1, e1, hc1, hw1⟩ := hv1 c rest hc hw
      refine ⟨c1, hc1, hw1, fun fuel => ?_⟩
      have e : M.taking c = M.involved n := by rw [← hc.1]; rfl
      unfold receive handle
      rw [e, e1]
      by_cases hf : .fired ∈ os
      · rw [if_pos hf]
        show Res.bind (if _ then _ else _) _ = _
        cases ha : M.anonymous with
        | false =>
          rw [if_neg (by simp)]
          show (if _ then _ else _) = _
          rw [if_neg hdf, if_pos hf, replay_idle _ hc1.2.2]
          rfl
        | true =>
          rw [if_pos ⟨hdf, hf, rfl⟩, if_pos rfl]
          show Res.bind (Res.bind _ _) _ = Res.bind (M.settle tape fuel () c1) _
          cases M.settle tape fuel () c1 with
          | ok a c2 =>
            show (if _ then _ else _) = _
            rw [if_neg hdf, if_pos hf]
            rfl
          | throw x c2 => rfl
          | ub u => rfl
          | timeout => rfl
      · rw [if_neg hf]
        show Res.bind (if _ then _ else _) _ = _
        rw [if_neg fun h => hf h.2.1]
        show (if _ then _ else _) = _
        rw [if_neg hdf, if_neg hf]
    by_cases hf : .fired ∈ os
    · rw [if_pos hf] at h2
      rw [List.mem_singleton.1 h2]
      refine ⟨v1, fun c rest hc hw fuel => ?_⟩
      obtain ⟨c1, hc1, hw1, hk⟩ := key c rest hc hw
      have hk := hk fuel
      rw [if_pos hf] at hk
      cases ha : M.anonymous with
      | true => rw [ha, if_pos rfl] at hk; exact ⟨c1, hc1, hw1, hk⟩
      | false => rw [ha, if_neg (by simp)] at hk; exact ⟨true, c1, hk, hc1⟩
    rw [if_neg hf] at h2
    by_cases hj : .rejected ∈ os
    · rw [if_pos hj] at h2
      rw [List.mem_singleton.1 h2]
      refine ⟨v1, fun c rest hc hw fuel => ?_⟩
      obtain ⟨c1, hc1, hw1, hk⟩ := key c rest hc hw
      exact ⟨false, c1, by rw [hk, if_neg hf, if_pos hj], hc1⟩
    rw [if_neg hj] at h2
    obtain ⟨v2, hv2⟩ := Realises.bind (T := T) (M := M) (g := M.complain tape ev ()) (ψ := id) (ψ' := fun _ => false)
      (f := fun _ c => .ok false c) h2 (fun y hy _ => complain_realises ev n1 y hy)
      fun _ n' _ hx => by
        rw [List.mem_singleton.1 hx]
        exact .done (ψ := fun _ : Bool => false) (b := false)
    refine ⟨v1 ++ v2, fun c rest hc hw fuel => ?_⟩
    obtain ⟨c1, hc1, hw1, hk⟩ := key c (T.feed v2 rest) hc (by rw [hw, T.feed_append])
    have hk := hk fuel
    rw [if_neg hf, if_neg hj] at hk
    have h3 := hv2 c1 rest hc1 hw1
    rw [hk]
    rcases mem_branch.1 h2 with ⟨_, n2, _, h2⟩ | ⟨y, n2, _, rfl⟩ | ⟨u, _, rfl⟩ | ⟨_, rfl⟩
    · rw [List.mem_singleton.1 h2] at h3 ⊢
      obtain ⟨c', e, hc', _⟩ := h3
      exact ⟨_, c', e, hc'⟩
    · obtain ⟨y, c', e, hc', _⟩ := h3
      exact ⟨y, c', e, hc'⟩
    · exact h3
    · exact h3.elim
  · obtain ⟨v1, hv1⟩ := sweep_realises (T := T) ev _ (by rintro _ _ ⟨⟩) _ _ n h1
    refine Or.inr ⟨v1, fun c rest hc hw fuel => ?_⟩
    obtain ⟨y, c1, e1, hc1, _⟩ := hv1 c rest hc hw
    have e : M.taking c = M.involved n := by rw [← hc.1]; rfl
    refine ⟨y, c1, ?_, hc1⟩
    unfold receive handle
    rw [e, e1]
    rfl
  · obtain ⟨v1, hv1⟩ := sweep_realises (T := T) ev _ (by rintro _ _ ⟨⟩) _ _ n h1
    refine Or.inr ⟨v1, fun c rest hc hw fuel => ?_⟩
    have e1 : M.sweep tape ev (M.involved n) [] () c = .ub u := hv1 c rest hc hw
    have e : M.taking c = M.involved n := by rw [← hc.1]; rfl
    show M.receive tape fuel ev () c = .ub u
    unfold receive handle
    rw [e, e1]
    rfl
  · obtain ⟨v1, hv1⟩ := sweep_realises (T := T) ev _ (by rintro _ _ ⟨⟩) _ _ n h1
    exact Or.inr ⟨v1, fun c rest hc hw fuel => (hv1 c rest hc hw).elim⟩

end Machine

/-- A scripted machine a client can hold is at spot `n`, in the middle of a call if `b`. -/
def Arrives (A : List SetArgs) (T : Dictates tape) (M : Machine) (n : Spot) : Bool → Prop
  | false => ∃ ops s c, RunTo M tape 0 ops s ∧ SetsIn A ops ∧ Depicts M c s ∧
      Lone M n c
  | true => ∃ ops s c ev v k, RunTo M tape 0 ops s ∧ SetsIn A ops ∧
      Depicts M c s ∧ ev ∈ M.events ∧ ∀ rest fuel, ∃ c', Lone M n c' ∧ c'.world = rest ∧
        M.receive tape (fuel + k) ev () { c with world := T.feed v rest } =
          (M.settle tape fuel () c').bind fun _ c =>
            (M.replay tape (fuel + k) c).bind fun _ c => .ok true c

theorem Depicts.reworld {c : Conf P W} {s : SM P W} (h : Depicts M c s) (w : W) :
    Depicts M { c with world := w } { s with world := w } := { h with world := rfl }

/-- After a history, one more event. -/
theorem RunTo.event (hM : M.Regular) {ops : List (Op Unit)} {s : SM Unit W}
    {c c' : Conf Unit W} {ev : EventTy} {fuel : Nat} {w : W}
    (hr : RunTo M tape 0 ops s) (hns : SetsIn A ops) (hc : Depicts M c s)
    (hev : ev ∈ M.events) {n : Spot}
    (h : (∃ b, M.receive tape fuel ev () { c with world := w } = .ok b c') ∨
      ∃ x, M.receive tape fuel ev () { c with world := w } = .throw x c') (hl : Lone M n c') :
    Arrives A T M n false := by
  have hop : OpOk M (.process ev ()) := by
    show ev ∈ M.eventIds
    rw [← M.events_eq]; exact hev
  have hs := C77_step (sem := tape) (hc.reworld w) hM (hr.scopes hM) fuel hop
  have hns' : SetsIn A (ops ++ [Op.process ev ()]) := by
    intro r p st hm
    rcases List.mem_append.1 hm with hm | hm
    · exact hns r p st hm
    · cases List.mem_singleton.1 hm
  have e : M.exec tape fuel (.process ev ()) { c with world := w } =
    M.receive tape fuel ev () { c with world := w } := rfl
  rw [e] at hs
  revert hs
  rcases h with ⟨b, h⟩ | ⟨x, h⟩ <;> rw [h] <;>
    cases hst : step M tape fuel (.process ev ()) { s with world := w } <;> intro hs <;>
    first
    | exact hs.elim
    | exact ⟨_, _, c', (hr.world w).ok hop hst, hns', hs.2, hl⟩
    | exact ⟨_, _, c', (hr.world w).throw hop hst, hns', hs.2, hl⟩

/-- After a history, `set`. -/
theorem RunTo.place (hM : M.Regular) {ops : List (Op Unit)} {s : SM Unit W} {c : Conf Unit W}
    (hr : RunTo M tape 0 ops s) (hns : SetsIn A ops) (hc : Depicts M c s) {a : SetArgs} (ha : a ∈ A)
    (hop : OpOk M (.set a.1 a.2.1 a.2.2 : Op Unit)) {n : Spot} (hl : Lone M n c) :
    (∀ b n', Machine.maySet a n = .ok b n' → Arrives A T M n' b) ∧
    ∀ x n', Machine.maySet a n = .throw x n' → Arrives A T M n' false := by
  obtain ⟨r, p, st⟩ := a
  obtain ⟨rfl, hd, hq⟩ := hl
  have hns' : SetsIn A (ops ++ [Op.set r p st]) := by
    intro r' p' st' hm
    rcases List.mem_append.1 hm with hm | hm
    · exact hns r' p' st' hm
    · cases List.mem_singleton.1 hm; exact ha
  have hs := C77_step (sem := tape) hc hM (hr.scopes hM) 0 hop
  have e : M.exec tape 0 (.set r p st) c = if r % 256 < c.slots.length then
    .ok true { c with slots := c.slots.set (r % 256) (some (p, st)) } else .throw .outOfRange c := rfl
  rw [e] at hs
  unfold Machine.maySet
  by_cases hlt : r % 256 < c.slots.length
  · rw [if_pos (show r % 256 < (M.sight c).slots.length from hlt)]
    rw [if_pos hlt] at hs
    refine ⟨fun b n' e => ?_, nofun⟩
    cases e
    revert hs
    cases hst : step M tape 0 (.set r p st) s <;> intro hs <;> first | exact hs.elim | skip
    exact ⟨_, _, _, hr.ok hop hst, hns', hs.2, rfl, hd, hq⟩
  · rw [if_neg (show ¬ r % 256 < (M.sight c).slots.length from hlt)]
    refine ⟨nofun, fun x n' e => ?_⟩
    cases e
    exact ⟨ops, s, c, hr, hns, hc, rfl, hd, hq⟩

theorem Machine.Walk.arrives (hM : M.Regular) (hd : M.deferring = false ∨ M.orthogonal = false)
    (hA : ∀ a ∈ A, OpOk M (.set a.1 a.2.1 a.2.2 : Op Unit)) (w0 : W) (hC : M.ScopesReal ∧ (M.orthogonal = true → M.declaredInitials M.root ≠ [])) {b : Bool} {n : Spot} (h : M.Walk A b n) : Arrives A T M n b := by
  have step : ∀ {b : Bool} {n n' : Spot}, Arrives A T M n b →
      (∀ b', .ok b' n' ∈ M.moves A b n → Arrives A T M n' b') ∧
      (∀ x, .throw x n' ∈ M.moves A b n → Arrives A T M n' false) := by
    intro b n n' ih
    suffices h : (∀ b', .ok b' n' ∈ M.next b n → Arrives A T M n' b') ∧
        (∀ x, .throw x n' ∈ M.next b n → Arrives A T M n' false) by
      refine ⟨fun b' hx => ?_, fun x hx => ?_⟩ <;>
        rcases Machine.mem_moves.1 hx with hx | ⟨rfl, a, ha, he⟩
      · exact h.1 b' hx
      · obtain ⟨ops, s, c, hr, hns, hc, hl⟩ := ih
        exact (hr.place hM hns hc ha (hA a ha) hl).1 _ _ he
      · exact h.2 x hx
      · obtain ⟨ops, s, c, hr, hns, hc, hl⟩ := ih
        exact (hr.place hM hns hc ha (hA a ha) hl).2 _ _ he
    cases b with
    | false =>
      obtain ⟨ops, s, c, hr, hns, hc, hl⟩ := ih
      have key : ∀ x ∈ M.next false n, ∃ ev ∈ M.events, x ∈ M.mayReceive ev n := fun x hx =>
        List.mem_flatMap.1 hx
      constructor
      · intro b' hx
        obtain ⟨ev, hev, hx⟩ := key _ hx
        rcases Machine.receive_realises (T := T) hd ev n _ hx with e | ⟨v, hv⟩
        · cases e; exact ⟨ops, s, c, hr, hns, hc, hl⟩
        cases b' with
        | false =>
          obtain ⟨a, c', e, hc'⟩ := hv { c with world := T.feed v w0 } w0 hl rfl 0
          exact hr.event hM hns hc hev (Or.inl ⟨a, e⟩) hc'
        | true =>
          refine ⟨ops, s, c, ev, v, 0, hr, hns, hc, hev, fun rest fuel => ?_⟩
          obtain ⟨c', h1, h2, h3⟩ := hv { c with world := T.feed v rest } rest hl rfl fuel
          exact ⟨c', h1, h2, h3⟩
      · intro x hx
        obtain ⟨ev, hev, hx⟩ := key _ hx
        obtain ⟨v, hv⟩ := (Machine.receive_realises (T := T) hd ev n _ hx).resolve_left nofun
        obtain ⟨y, c', e, hc'⟩ := hv { c with world := T.feed v w0 } w0 hl rfl 0
        exact hr.event hM hns hc hev (Or.inr ⟨y, e⟩) hc'
    | true =>
      obtain ⟨ops, s, c, ev, v, k, hr, hns, hc, hev, hk⟩ := ih
      have tk : ∀ c' : Conf Unit W, Lone M n c' → M.taking c' = M.involved n := fun c' h => by rw [← h.1]; rfl
      constructor
      · intro b' hx
        obtain ⟨v2, hv2⟩ := Machine.round_realises (T := T) _ _ _ n hx
        cases b' with
        | true =>
          refine ⟨ops, s, c, ev, v ++ v2, k + 1, hr, hns, hc, hev, fun rest fuel => ?_⟩
          obtain ⟨c1, hl1, hw1, e1⟩ := hk (T.feed v2 rest) (fuel + 1)
          obtain ⟨c2, e2, hl2, hw2⟩ := hv2 c1 rest hl1 hw1
          refine ⟨c2, hl2, hw2, ?_⟩
          rw [show fuel + (k + 1) = fuel + 1 + k from by omega, T.feed_append, e1, Machine.settle,
            tk c1 hl1, e2]
          rfl
        | false =>
          obtain ⟨c1, hl1, hw1, e1⟩ := hk (T.feed v2 w0) (0 + 1)
          obtain ⟨c2, e2, hl2, hw2⟩ := hv2 c1 w0 hl1 hw1
          refine hr.event hM hns hc hev (Or.inl ⟨true, ?_⟩) hl2 (w := T.feed v (T.feed v2 w0)) (fuel := 0 + 1 + k)
          rw [e1, Machine.settle, tk c1 hl1, e2]
          show (M.replay tape _ c2).bind _ = _
          rw [Machine.replay_idle _ hl2.2.2]
          rfl
      · intro x hx
        obtain ⟨v2, hv2⟩ := Machine.round_realises (T := T) _ _ _ n hx
        obtain ⟨c1, hl1, hw1, e1⟩ := hk (T.feed v2 w0) (0 + 1)
        obtain ⟨y, c2, e2, hl2, hw2⟩ := hv2 c1 w0 hl1 hw1
        refine hr.event hM hns hc hev (Or.inr ⟨y, ?_⟩) hl2 (w := T.feed v (T.feed v2 w0)) (fuel := 0 + 1 + k)
        rw [e1, Machine.settle, tk c1 hl1, e2]
        rfl
  induction h with
  | start =>
    obtain ⟨s, hs⟩ := (C06_construct (P := Unit) hM 0 w0).1.2 hC
    exact ⟨[], s, _, .init hs, (fun _ _ _ h => nomatch h), C77_construct hM hs, rfl, rfl, rfl⟩
  | ok _ hn ih => exact (step ih).1 _ hn
  | throw _ hn ih => exact (step ih).2 _ hn

include T in
/-- What may be undefined is undefined for some scripted machine. -/
theorem Machine.Walk.undefined (hM : M.Regular) (hd : M.deferring = false ∨ M.orthogonal = false)
    (hA : ∀ a ∈ A, OpOk M (.set a.1 a.2.1 a.2.2 : Op Unit)) (w0 : W) (hC : M.ScopesReal ∧ (M.orthogonal = true → M.declaredInitials M.root ≠ [])) {b : Bool} {n : Spot} (h : M.Walk A b n) {u : UB} (hu : .ub u ∈ M.next b n) :
    ∃ ops s ev fuel, RunTo M tape 0 ops s ∧ SetsIn A ops ∧ ev ∈ M.events ∧
      step M tape fuel (.process ev ()) s = .ub u := by
  have fin : ∀ {ops s} {c : Conf Unit W} {ev : EventTy} {fuel : Nat}
      {w : W}, RunTo M tape 0 ops s → SetsIn A ops →
      Depicts M c s → ev ∈ M.events → M.receive tape fuel ev () { c with world := w } = .ub u →
      ∃ ops s ev fuel, RunTo M tape 0 ops s ∧ SetsIn A ops ∧ ev ∈ M.events ∧
        step M tape fuel (.process ev ()) s = .ub u := by
    intro ops s c ev fuel w hr hns hc hev h
    have hop : OpOk M (.process ev ()) := by
      show ev ∈ M.eventIds
      rw [← M.events_eq]; exact hev
    exact ⟨ops, _, ev, fuel, hr.world w, hns, hev,
      ((C77_undefined (hc.reworld w) hM (hr.scopes hM) fuel hop).1 u).2 h⟩
  have ih := h.arrives (T := T) hM hd hA w0 hC
  cases b with
  | false =>
    obtain ⟨ops, s, c, hr, hns, hc, hl⟩ := ih
    obtain ⟨ev, hev, hx⟩ := List.mem_flatMap.1 hu
    obtain ⟨v, hv⟩ := (Machine.receive_realises (T := T) hd ev n _ hx).resolve_left nofun
    exact fin hr hns hc hev (hv { c with world := T.feed v w0 } w0 hl rfl 0)
  | true =>
    obtain ⟨ops, s, c, ev, v, k, hr, hns, hc, hev, hk⟩ := ih
    obtain ⟨v2, hv2⟩ := Machine.round_realises (T := T) _ _ _ n hu
    obtain ⟨c1, hl1, hw1, e1⟩ := hk (T.feed v2 w0) (0 + 1)
    have e2 : M.round tape (M.involved n) [] () c1 = .ub u := hv2 c1 w0 hl1 hw1
    refine fin hr hns hc hev (w := T.feed v (T.feed v2 w0)) (fuel := 0 + 1 + k) ?_
    have tk : M.taking c1 = M.involved n := by rw [← hl1.1]; rfl
    rw [e1, Machine.settle, tk, e2]
    rfl

/-! ## There are finitely many spots -/

/-- `I` holds where the outcome is; it is not undefined because of callbacks or missing objects. -/
def Res.Holds {σ α : Type} (I : σ → Prop) : Res σ α → Prop
  | .ok _ s => I s
  | .throw _ s => I s
  | .ub u => u ≠ .callback ∧ u ≠ .nullObject
  | .timeout => True

theorem Holds.branch {σ α β : Type} {I : σ → Prop} {rs : List (Res σ α)} {f : α → σ → List (Res σ β)}
    (h : ∀ x ∈ rs, x.Holds I) (hf : ∀ a s, I s → ∀ x ∈ f a s, x.Holds I) :
    ∀ x ∈ branch rs f, x.Holds I := by
  intro x hx
  rcases mem_branch.1 hx with ⟨a, s, h1, h2⟩ | ⟨y, s, h1, rfl⟩ | ⟨u, h1, rfl⟩ | ⟨h1, rfl⟩
  · exact hf a s (h _ h1) x h2
  · exact h _ h1
  · exact h _ h1
  · trivial

theorem Holds.one {σ α : Type} {I : σ → Prop} {y : Res σ α} (h : y.Holds I) : ∀ x ∈ [y], x.Holds I :=
  fun x hx => by rw [List.mem_singleton.1 hx]; exact h

theorem Holds.bind {σ α β : Type} {I : σ → Prop} {r : Res σ α} {f : α → σ → Res σ β} (h : r.Holds I)
    (hf : ∀ a s, I s → (f a s).Holds I) : (r.bind f).Holds I := by
  cases r with
  | ok a s => exact hf a s h
  | throw x s => exact h
  | ub u => exact h
  | timeout => trivial

namespace Machine

/-- All the places rows lead to, machines start from or are set to. -/
def stations (M : Machine) (A : List SetArgs) : List (Name × StTy) :=
  ((M.extRows ++ M.intRows).filterMap M.targetLoc ++
    (M.root :: M.composites).flatMap fun p => (M.declaredInitials p).map fun i => (p, .st i)) ++ A.map (·.2)

/-- The configuration uses only places there are. -/
structure Tidy (A : List SetArgs) (M : Machine) (c : Conf Unit Unit) : Prop where
  length : c.slots.length = M.start.slots.length
  slots : ∀ l, some l ∈ c.slots → l ∈ M.stations A
  room : ∀ q ∈ M.composites, (c.memory q).length = (M.declaredInitials q).length
  memory : ∀ q ∈ M.composites, ∀ l ∈ c.memory q, l ∈ M.stations A
  active : c.active ∈ (M.root :: M.composites).map fun p => (M.declaredInitials p).length

/-- Some tidy configuration is at `n`. -/
def Neat (M : Machine) (A : List SetArgs) (n : Spot) : Prop := ∃ c : Conf Unit Unit, M.sight c = n ∧ Tidy A M c

theorem seek_tidy (r : Nat) {c : Conf Unit Unit} (h : Tidy A M c) : (seek r c).Holds (Tidy A M) := by
  unfold seek
  split
  · exact ⟨nofun, nofun⟩
  · exact ⟨nofun, nofun⟩
  · exact h

theorem put_tidy (r : Nat) {l : Name × StTy} (hl : l ∈ M.stations A) {c : Conf Unit Unit} (h : Tidy A M c) :
    (put r l c).Holds (Tidy A M) := by
  unfold put
  split
  · exact { h with
      length := by rw [List.length_set]; exact h.length
      slots := fun l' hl' => by
        rcases List.mem_or_eq_of_mem_set hl' with h' | h'
        · exact h.slots l' h'
        · cases h'; exact hl }
  · exact ⟨nofun, nofun⟩

theorem recount_tidy {c : Conf Unit Unit} (h : Tidy A M c) : (M.recount c).Holds (Tidy A M) := by
  unfold recount
  split
  · refine Holds.bind (seek_tidy 0 h) fun l c h => ?_
    split
    · next hl =>
      exact { h with active := List.mem_map.2 ⟨l.1, List.mem_cons_of_mem _ hl, rfl⟩ }
    · exact ⟨nofun, nofun⟩
  · exact h

theorem travel_tidy (r : Nat) (t : XRow) {l : Name × StTy} (hl : l ∈ M.stations A) {c : Conf Unit Unit}
    (h : Tidy A M c) : (M.travel r t l c).Holds (Tidy A M) := by
  unfold travel
  split
  · exact h
  split
  · refine Holds.bind ?_ fun _ c h => Holds.bind ?_ fun _ c h => recount_tidy h
    · unfold remember
      refine Holds.bind (seek_tidy 0 h) fun l0 c h => ?_
      unfold seek
      split
      · exact ⟨nofun, nofun⟩
      · exact ⟨nofun, nofun⟩
      · next l1 hl1 =>
        show (if _ then _ else _ : Res _ _).Holds _
        split
        · refine { h with room := fun q hq => ?_, memory := fun q hq l' hl' => ?_ }
          · show (if q = l0.1 then (c.memory q).set r l1 else c.memory q).length = _
            split
            · rw [List.length_set]; exact h.room q hq
            · exact h.room q hq
          · have hl' : l' ∈ if q = l0.1 then (c.memory q).set r l1 else c.memory q := hl'
            split at hl'
            · rcases List.mem_or_eq_of_mem_set hl' with h' | h'
              · exact h.memory q hq l' h'
              · rw [h']; exact h.slots l1 (List.mem_of_getElem? hl1)
            · exact h.memory q hq l' hl'
        · exact ⟨nofun, nofun⟩
    · split
      · unfold recall
        split
        · next hq =>
          split
          · exact ⟨nofun, nofun⟩
          · next l1 hl1 => exact put_tidy r (h.memory _ hq l1 (List.mem_of_getElem? hl1)) h
        · exact ⟨nofun, nofun⟩
      · exact put_tidy r hl h
  · exact Holds.bind (put_tidy r hl h) fun _ c h => recount_tidy h

theorem mayTravel_neat (r : Nat) (t : XRow) {l : Name × StTy} (hl : l ∈ M.stations A) {n : Spot}
    (h : M.Neat A n) : (M.mayTravel r t l n).Holds (M.Neat A) := by
  obtain ⟨c, rfl, h⟩ := h
  have h1 := travel_alike (M := M) r t l (sight_place (M := M) c).symm
  have h2 := travel_tidy r t hl h
  unfold mayTravel
  revert h1 h2
  cases M.travel r t l c <;> cases M.travel r t l (M.place (M.sight c)) <;> intro h1 h2 <;>
    first | exact h1.elim | skip
  · exact ⟨_, h1.2, h2⟩
  · exact ⟨_, h1.2, h2⟩
  · rw [show _ = _ from h1] at h2; exact h2
  · trivial

theorem mayTake_neat (r : Nat) (t : XRow) {l : Name × StTy} (hl : l ∈ M.stations A) {n : Spot}
    (h : M.Neat A n) : ∀ x ∈ M.mayTake r t l n, x.Holds (M.Neat A) := by
  unfold mayTake
  refine Holds.branch (Holds.one (mayTravel_neat r t hl h)) fun _ n h => ?_
  split
  · exact Holds.one h
  · exact Holds.one h
  · intro x hx
    rcases List.mem_cons.1 hx with rfl | hx
    · exact h
    · rw [List.mem_singleton.1 hx]; exact h

theorem mayAttempt_neat (anon : Bool) (r : Nat) {n : Spot} (h : M.Neat A n) : ∀ cs : List Cand,
    (∀ cd ∈ cs, ∀ t, cd.row? = some t → ∀ l, M.targetLoc t = some l → l ∈ M.stations A) →
    ∀ x ∈ M.mayAttempt anon r cs n, x.Holds (M.Neat A) := by
  intro cs
  induction cs with
  | nil => intro _; exact Holds.one h
  | cons cd cs ih =>
    intro hcs
    have ih := ih fun cd h => hcs cd (List.mem_cons_of_mem _ h)
    rw [mayAttempt]
    cases hr : cd.row? with
    | none =>
      dsimp only
      split
      · exact Holds.one ⟨nofun, nofun⟩
      · exact Holds.one h
    | some t =>
      dsimp only
      cases hl : M.targetLoc t with
      | none => exact Holds.one ⟨nofun, nofun⟩
      | some l =>
        have hp := hcs cd List.mem_cons_self t hr l hl
        have fire := Holds.branch (f := fun _ n => [.ok RegionOut.fired n]) (mayTake_neat r t hp h)
          fun _ n h => Holds.one h
        dsimp only
        split
        · exact fire
        · intro x hx
          rcases List.mem_cons.1 hx with rfl | hx
          · exact h
          rcases List.mem_append.1 hx with hx | hx
          · exact fire x hx
          · exact ih x hx

theorem cands_places {ev : EventTy} {p : Name} {st : StTy} {cd : Cand} (h : cd ∈ M.cands ev p st)
    {t : XRow} (ht : cd.row? = some t) {l : Name × StTy} (hl : M.targetLoc t = some l) :
    l ∈ M.stations A := by
  refine List.mem_append_left _ (List.mem_append_left _ (List.mem_filterMap.2 ⟨t, List.mem_append.2 ?_, hl⟩))
  rw [extRows_eq, intRows_eq]
  rcases mem_cands.1 h with ⟨rfl, _⟩ | ⟨t', ht', _, _, _, _, rfl⟩ | ⟨t', ht', _, _, rfl⟩ |
    ⟨t', ht', _, _, rfl⟩ <;> cases ht
  · exact Or.inl ht'
  · exact Or.inl ht'
  · exact Or.inr ht'

theorem mayVisit_neat (anon : Bool) (r : Nat) (ev : EventTy) {n : Spot} (h : M.Neat A n) :
    ∀ x ∈ M.mayVisit anon r ev n, x.Holds (M.Neat A) := by
  unfold mayVisit
  split
  · exact Holds.one ⟨nofun, nofun⟩
  · exact Holds.one ⟨nofun, nofun⟩
  · split
    · split
      · exact Holds.one h
      · exact mayAttempt_neat anon r h _ fun cd hcd t ht l hl => cands_places hcd ht hl
    · exact Holds.one ⟨nofun, nofun⟩

theorem maySweep_neat (ev : EventTy) : ∀ (rs : List Nat) (os : List RegionOut) (n : Spot), M.Neat A n →
    ∀ x ∈ M.maySweep ev rs os n, x.Holds (M.Neat A) := by
  intro rs
  induction rs with
  | nil => intro os n h; exact Holds.one h
  | cons r rs ih =>
    intro os n h
    refine Holds.branch (mayVisit_neat false r ev h) fun o n h => ?_
    split
    · exact Holds.one h
    · exact ih _ n h

theorem mayRound_neat : ∀ (rs : List Nat) (os : List RegionOut) (n : Spot), M.Neat A n →
    ∀ x ∈ M.mayRound rs os n, x.Holds (M.Neat A) := by
  intro rs
  induction rs with
  | nil => intro os n h; exact Holds.one h
  | cons r rs ih =>
    intro os n h
    refine Holds.branch (mayVisit_neat true r .none h) fun o n h => ?_
    split
    · exact Holds.one h
    · exact ih _ n h

theorem next_neat (b : Bool) {n : Spot} (h : M.Neat A n) : ∀ x ∈ M.next b n, x.Holds (M.Neat A) := by
  cases b with
  | true => exact mayRound_neat _ _ n h
  | false =>
    intro x hx
    obtain ⟨ev, _, hx⟩ := List.mem_flatMap.1 hx
    refine Holds.branch (maySweep_neat ev _ _ n h) (fun os n h => ?_) x hx
    split
    · exact Holds.one h
    split
    · exact Holds.one h
    split
    · exact Holds.one h
    refine Holds.branch ?_ fun _ n h => Holds.one h
    unfold mayComplain
    split
    · exact Holds.one h
    split
    · exact Holds.one ⟨nofun, nofun⟩
    · exact Holds.one ⟨nofun, nofun⟩
    split
    · intro x hx
      rcases List.mem_cons.1 hx with rfl | hx
      · exact h
      · rw [List.mem_singleton.1 hx]; exact h
    · exact Holds.one h

theorem start_neat : M.Neat A M.start := by
  refine ⟨_, rfl, rfl, fun l hl => ?_, fun q _ => List.length_map _, fun q hq l hl => ?_, ?_⟩
  · rcases List.mem_append.1 (show some l ∈ ((M.declaredInitials M.root).map fun i =>
      some (M.root, StTy.st i)) ++ List.replicate _ none from hl) with h | h
    · obtain ⟨i, hi, e⟩ := List.mem_map.1 h
      cases e
      exact List.mem_append_left _ (List.mem_append_right _
        (List.mem_flatMap.2 ⟨_, List.mem_cons_self, List.mem_map.2 ⟨i, hi, rfl⟩⟩))
    · cases (List.mem_replicate.1 h).2
  · obtain ⟨i, hi, rfl⟩ := List.mem_map.1 (show l ∈ (M.declaredInitials q).map fun i => (q, StTy.st i) from hl)
    exact List.mem_append_left _ (List.mem_append_right _
      (List.mem_flatMap.2 ⟨q, List.mem_cons_of_mem _ hq, List.mem_map.2 ⟨i, hi, rfl⟩⟩))
  · exact List.mem_map.2 ⟨_, List.mem_cons_self, rfl⟩

theorem moves_neat (b : Bool) {n : Spot} (h : M.Neat A n) : ∀ x ∈ M.moves A b n, x.Holds (M.Neat A) := by
  intro x hx
  rcases mem_moves.1 hx with hx | ⟨_, a, ha, rfl⟩
  · exact next_neat b h x hx
  obtain ⟨c, rfl, h⟩ := h
  unfold maySet
  split
  · have h2 := put_tidy (a.1 % 256) (List.mem_append_right _ (List.mem_map.2 ⟨a, ha, rfl⟩) : a.2 ∈ M.stations A) h
    rename_i hlt
    unfold put at h2
    rw [if_pos (show a.1 % 256 < c.slots.length from hlt)] at h2
    exact ⟨_, rfl, h2⟩
  · exact ⟨c, rfl, h⟩

theorem Walk.neat {b : Bool} {n : Spot} (h : M.Walk A b n) : M.Neat A n := by
  induction h with
  | start => exact start_neat
  | ok _ hn ih => exact moves_neat _ ih _ hn
  | throw _ hn ih => exact moves_neat _ ih _ hn

end Machine

theorem finite_lists {α : Type} {T : Set α} (hT : T.Finite) : ∀ k : Nat,
    {l : List α | l.length = k ∧ ∀ x ∈ l, x ∈ T}.Finite
  | 0 => (Set.finite_singleton []).subset fun l hl => List.length_eq_zero_iff.1 hl.1
  | k + 1 => (Set.Finite.image2 (fun x l => x :: l) hT (finite_lists hT k)).subset fun l hl => by
    cases l with
    | nil => cases hl.1
    | cons x l =>
      exact ⟨x, hl.2 x List.mem_cons_self, l, ⟨Nat.succ.inj hl.1, fun y hy =>
        hl.2 y (List.mem_cons_of_mem _ hy)⟩, rfl⟩

namespace Machine

theorem neat_finite : {n | M.Neat A n}.Finite := by
  have hp : {l | l ∈ M.stations A}.Finite := (M.stations A).finite_toSet
  have hA := finite_lists (T := {o | o = none ∨ ∃ l ∈ M.stations A, o = some l})
    (((Set.finite_singleton none).union (hp.image some)).subset fun o ho => by
      rcases ho with rfl | ⟨l, hl, rfl⟩
      · exact Or.inl rfl
      · exact Or.inr ⟨l, hl, rfl⟩) M.start.slots.length
  have hB := finite_lists (T := ⋃ q ∈ {q | q ∈ M.composites},
      {m : List (Name × StTy) | m.length = (M.declaredInitials q).length ∧ ∀ l ∈ m, l ∈ {l | l ∈ M.stations A}})
    (M.composites.finite_toSet.biUnion fun q _ => finite_lists hp _) M.composites.length
  have hC : {a | a ∈ (M.root :: M.composites).map fun p => (M.declaredInitials p).length}.Finite :=
    List.finite_toSet _
  refine ((hA.prod (hB.prod hC)).image fun x => Spot.mk x.1 x.2.1 x.2.2).subset ?_
  rintro n ⟨c, rfl, h⟩
  refine ⟨(c.slots, M.composites.map c.memory, c.active), ⟨⟨h.length, fun o ho => ?_⟩,
    ⟨List.length_map _, fun m hm => ?_⟩, h.active⟩, rfl⟩
  · cases o with
    | none => exact Or.inl rfl
    | some l => exact Or.inr ⟨l, h.slots l ho, rfl⟩
  · obtain ⟨q, hq, rfl⟩ := List.mem_map.1 hm
    exact Set.mem_biUnion (show q ∈ {q | q ∈ M.composites} from hq) ⟨h.room q hq, h.memory q hq⟩

/-! ## Exploring -/

theorem walk_of_closed {S : List (Bool × Spot)} (hS : M.closed A S = true) {b : Bool} {n : Spot}
    (h : M.Walk A b n) : (b, n) ∈ S := by
  unfold closed at hS
  rw [Bool.and_eq_true, List.all_eq_true] at hS
  obtain ⟨h0, hS⟩ := hS
  induction h with
  | start => exact of_decide_eq_true h0
  | ok _ hn ih => exact of_decide_eq_true (List.all_eq_true.1 (hS _ ih) _ hn)
  | throw _ hn ih => exact of_decide_eq_true (List.all_eq_true.1 (hS _ ih) _ hn)

theorem explore_walk : ∀ (k : Nat) {x : Bool × Spot}, x ∈ M.explore A k → M.Walk A x.1 x.2
  | 0, x, h => by rw [List.mem_singleton.1 h]; exact .start
  | k + 1, x, h => by
    have h : x ∈ M.grow A (M.explore A k) := h
    unfold grow at h
    rw [List.mem_eraseDups, List.mem_append, List.mem_flatMap] at h
    rcases h with h | ⟨s, hs, h⟩
    · exact explore_walk k h
    · have ih := explore_walk k hs
      obtain ⟨y, hy, he⟩ := List.mem_filterMap.1 h
      cases y with
      | ok b n => cases he; exact ih.ok hy
      | throw x n => cases he; exact ih.throw hy
      | ub u => cases he
      | timeout => cases he

theorem explore_grows (k : Nat) {x : Bool × Spot} (h : x ∈ M.explore A k) : x ∈ M.explore A (k + 1) := by
  show x ∈ M.grow A (M.explore A k)
  unfold grow
  rw [List.mem_eraseDups]
  exact List.mem_append_left _ h

theorem explore_start : ∀ k, (false, M.start) ∈ M.explore A k
  | 0 => List.mem_cons_self
  | k + 1 => explore_grows k (explore_start k)

theorem explore_closed {k : Nat} (h : ∀ x ∈ M.explore A (k + 1), x ∈ M.explore A k) :
    M.closed A (M.explore A k) = true := by
  unfold closed
  rw [Bool.and_eq_true, List.all_eq_true]
  refine ⟨decide_eq_true (explore_start k), fun s hs => List.all_eq_true.2 fun y hy => ?_⟩
  have key : ∀ x, (match y with
      | .ok b n => some (b, n)
      | .throw _ n => some (false, n)
      | .ub _ => none
      | .timeout => none) = some x → x ∈ M.explore A k := by
    intro x hx
    refine h x ?_
    show x ∈ M.grow A (M.explore A k)
    unfold grow
    rw [List.mem_eraseDups]
    exact List.mem_append_right _ (List.mem_flatMap.2 ⟨s, hs, List.mem_filterMap.2 ⟨y, hy, hx⟩⟩)
  cases y with
  | ok b n => exact decide_eq_true (key _ rfl)
  | throw x n => exact decide_eq_true (key _ rfl)
  | ub u => rfl
  | timeout => rfl

/-- Exploring comes to an end. -/
theorem explore_ends (M : Machine) (A : List SetArgs) : ∃ k, M.closed A (M.explore A k) = true := by
  by_contra hne
  have hF : ({b | b = true ∨ b = false} ×ˢ {n | M.Neat A n} : Set (Bool × Spot)).Finite :=
    (Set.toFinite _).prod neat_finite
  have hsub : ∀ k, (M.explore A k).toFinset ⊆ hF.toFinset := by
    intro k x hx
    rw [Set.Finite.mem_toFinset]
    refine ⟨by cases x.1 <;> simp, (explore_walk k (List.mem_toFinset.1 hx)).neat⟩
  have hcard : ∀ k, k < (M.explore A k).toFinset.card := by
    intro k
    induction k with
    | zero => exact Finset.card_pos.2 ⟨_, List.mem_toFinset.2 (explore_start 0)⟩
    | succ k ih =>
      have : (M.explore A k).toFinset ⊂ (M.explore A (k + 1)).toFinset := by
        refine ⟨fun x hx => List.mem_toFinset.2 (explore_grows k (List.mem_toFinset.1 hx)), fun hle => ?_⟩
        exact hne ⟨k, explore_closed fun x hx => List.mem_toFinset.1 (hle (List.mem_toFinset.2 hx))⟩
      have := Finset.card_lt_card this
      omega
  have h1 := hcard hF.toFinset.card
  have h2 := Finset.card_le_card (hsub hF.toFinset.card)
  omega

end Machine

/-! ## The property -/

/-- The machine object is at spot `n`. -/
structure IsAt {P W : Type} (M : Machine) (s : SM P W) (n : Spot) : Prop where
  slots : s.cur = n.slots.map (Option.map fun l => M.comb l.1 l.2)
  active : M.orthogonal = true → s.regions = n.active
  memory : ∀ (i : Nat) (p : Name), M.composites[i]? = some p → ∃ m : List (Name × StTy), n.memory[i]? = some m ∧
    s.hist[M.parentIdx p]? = some (m.map fun l => M.comb l.1 l.2)

/-- No call uses `set_state`. -/
def NoSet {P : Type} (ops : List (Op P)) : Prop := ∀ r p st, Op.set r p st ∉ ops

theorem Depicts.isAt {c : Conf P W} {s : SM P W} (h : Depicts M c s) : IsAt M s (M.sight c) where
  slots := h.cur
  active := h.regions
  memory i p hp := ⟨c.memory p, by
    show (M.composites.map c.memory)[i]? = _
    rw [List.getElem?_map, hp]; rfl, h.hist p (List.mem_of_getElem? hp)⟩

/-- C80: whatever the client does, the machine is at a spot of its walks. -/
theorem C80_places (hM : M.Regular) {d : Dep} {ops : List (Op P)} {s : SM P W}
    (h : RunTo M sem d ops s) (hns : SetsIn A ops) : ∃ n, M.Walk A false n ∧ IsAt M s n := by
  obtain ⟨c, hc, hw, _⟩ := Machine.reach_walk hM h hns
  exact ⟨_, hw, hc.isAt⟩

theorem RunTo.blames (hU : Blames M sem U) (hM : M.Regular) {d : Dep} {ops : List (Op P)} {s : SM P W}
    (h : RunTo M sem d ops s) (hns : SetsIn A ops) {op : Op P} (hop : OpOk M op)
    {fuel : Nat} {u : UB} (hu : step M sem fuel op s = .ub u) :
    (∃ b n, M.Walk A b n ∧ .ub u ∈ M.next b n) ∨ (u = .callback ∨ u = .nullObject) ∧ U := by
  obtain ⟨c, hc, hw, hq⟩ := Machine.reach_walk hM h hns
  have he := ((C77_undefined (sem := sem) hc hM (h.scopes hM) fuel hop).1 u).1 hu
  cases op with
  | process ev p =>
    have := Machine.receive_onWalk (V := True) hU fuel (Or.inl trivial) (ev := ev) (by rw [M.events_eq]; exact hop) p c hw ⟨hc.bound, hq⟩
    have he : M.receive sem fuel ev p c = .ub u := he
    rw [he] at this
    exact this
  | set r p st =>
    have he : (if r % 256 < c.slots.length then
      Res.ok true { c with slots := c.slots.set (r % 256) (some (p, st)) } else .throw .outOfRange c) = .ub u := he
    split at he <;> cases he
  | setDependency d' => cases he

/-- C80: what is undefined happens at a spot of the walks, unless the client's callbacks or objects
are to blame. -/
theorem C80_undefined (hM : M.Regular) {d : Dep} {ops : List (Op P)} {s : SM P W}
    (h : RunTo M sem d ops s) (hns : SetsIn A ops) {op : Op P} (hop : OpOk M op)
    {fuel : Nat} {u : UB} (hu : step M sem fuel op s = .ub u) :
    (∃ b n, M.Walk A b n ∧ .ub u ∈ M.next b n) ∨ u = .callback ∨ u = .nullObject :=
  (h.blames (Blames.all M sem) hM hns hop hu).imp_right And.left

/-- C80: a list of spots that is closed holds all the places any client's machine can be at. -/
theorem C80_closed (hM : M.Regular) {S : List (Bool × Spot)} (hS : M.closed A S = true) {d : Dep}
    {ops : List (Op P)} {s : SM P W} (h : RunTo M sem d ops s) (hns : SetsIn A ops) :
    ∃ n, (false, n) ∈ S ∧ IsAt M s n := by
  obtain ⟨n, hn, ha⟩ := C80_places hM h hns
  exact ⟨n, Machine.walk_of_closed hS hn, ha⟩

theorem Machine.not_undefined {S : List (Bool × Spot)} (hS : M.closed A S = true) (hs : M.safe S = true)
    {b : Bool} {n : Spot} (h : M.Walk A b n) {u : UB} : .ub u ∉ M.next b n := by
  intro hu
  unfold safe at hs
  have := List.all_eq_true.1 (List.all_eq_true.1 hs _ (walk_of_closed hS h)) _ hu
  cases this

/-- C80: if it is also safe, nothing undefined happens, whatever the client does, unless the client's
callbacks or objects are to blame. -/
theorem C80_safe (hM : M.Regular) {S : List (Bool × Spot)} (hS : M.closed A S = true)
    (hs : M.safe S = true) {d : Dep} {ops : List (Op P)} {s : SM P W} (h : RunTo M sem d ops s)
    (hns : SetsIn A ops) {op : Op P} (hop : OpOk M op) {fuel : Nat} {u : UB}
    (hu : step M sem fuel op s = .ub u) : u = .callback ∨ u = .nullObject := by
  rcases C80_undefined hM h hns hop hu with ⟨b, n, hn, hx⟩ | h
  · exact absurd hx (Machine.not_undefined hS hs hn)
  · exact h

/-- C80: with objects for all states and callbacks that are defined, nothing undefined happens. -/
theorem C80_defined (hM : M.Regular) {S : List (Bool × Spot)} (hS : M.closed A S = true)
    (hs : M.safe S = true) (objects : ∀ st w, M.selfMade st = true ∨ sem.alive st w = true)
    (guards : ∀ g a p w, sem.guard g a p w ≠ .ub) (actions : ∀ a args p w, sem.action a args p w ≠ .ub)
    (handlers : ∀ h e st d p w, sem.handler h e st d p w ≠ .ub) {d : Dep} {ops : List (Op P)}
    {s : SM P W} (h : RunTo M sem d ops s) (hns : SetsIn A ops) {op : Op P} (hop : OpOk M op)
    (fuel : Nat) : (step M sem fuel op s).Defined := by
  intro u hu
  have hU : Blames M sem False := ⟨fun st w => (objects st w).imp_right Or.inl,
    fun g a p w h => guards g a p w h, fun a x p w h => actions a x p w h,
    fun h e st d p w hh => handlers h e st d p w hh⟩
  rcases h.blames hU hM hns hop hu with ⟨b, n, hn, hx⟩ | h
  · exact absurd hx (Machine.not_undefined hS hs hn)
  · exact h.2

/-- C80: if nothing is deferred or there is one region only, every spot of the walks is really visited. -/
theorem C80_visited (hM : M.Regular) (hd : M.deferring = false ∨ M.orthogonal = false)
    (hA : ∀ a ∈ A, OpOk M (.set a.1 a.2.1 a.2.2 : Op Unit))
    (hC : M.ScopesReal ∧ (M.orthogonal = true → M.declaredInitials M.root ≠ [])) {n : Spot}
    (h : M.Walk A false n) : ∃ ops s, RunTo M script 0 ops s ∧ SetsIn A ops ∧ IsAt M s n := by
  obtain ⟨ops, s, c, hr, hns, hc, hl⟩ := h.arrives (T := listed) hM hd hA [] hC
  exact ⟨ops, s, hr, hns, hl.1 ▸ hc.isAt⟩

/-- C80: the spots are found after finitely many steps. -/
theorem C80_found (M : Machine) (A : List SetArgs) : ∃ k, M.closed A (M.explore A k) = true ∧
    ∀ x ∈ M.explore A k, M.Walk A x.1 x.2 := by
  obtain ⟨k, hk⟩ := M.explore_ends A
  exact ⟨k, hk, fun x hx => Machine.explore_walk k hx⟩

/-- C80: if nothing is deferred or there is one region only, the exploration lists the places clients'
machines can be at, and no others. -/
theorem C80_listed (hM : M.Regular) (hd : M.deferring = false ∨ M.orthogonal = false)
    (hA : ∀ a ∈ A, OpOk M (.set a.1 a.2.1 a.2.2 : Op Unit))
    (hC : M.ScopesReal ∧ (M.orthogonal = true → M.declaredInitials M.root ≠ [])) {k : Nat}
    (hk : M.closed A (M.explore A k) = true) :
    (∀ n, (false, n) ∈ M.explore A k → ∃ ops s, RunTo M script 0 ops s ∧ SetsIn A ops ∧ IsAt M s n) ∧
    ∀ (P W : Type) (sem : Sem P W) (d : Dep) (ops : List (Op P)) (s : SM P W), RunTo M sem d ops s →
      SetsIn A ops → ∃ n, (false, n) ∈ M.explore A k ∧ IsAt M s n :=
  ⟨fun _ hn => C80_visited hM hd hA hC (Machine.explore_walk k hn),
    fun _ _ _ _ _ _ h hns => C80_closed hM hk h hns⟩

/-- C80: if nothing is deferred or there is one region only, the checker is exact.  It accepts a machine just if no client can
make the library do something undefined. -/
theorem C80_exact (hM : M.Regular) (hd : M.deferring = false ∨ M.orthogonal = false)
    (hA : ∀ a ∈ A, OpOk M (.set a.1 a.2.1 a.2.2 : Op Unit))
    (hC : M.ScopesReal ∧ (M.orthogonal = true → M.declaredInitials M.root ≠ [])) :
    (∃ k, M.closed A (M.explore A k) = true ∧ M.safe (M.explore A k) = true) ↔
    ∀ (P W : Type) (sem : Sem P W) (d : Dep) (ops : List (Op P)) (s : SM P W), RunTo M sem d ops s →
      SetsIn A ops → ∀ (op : Op P) (fuel : Nat) (u : UB), OpOk M op →
      step M sem fuel op s = .ub u → u = .callback ∨ u = .nullObject := by
  constructor
  · rintro ⟨k, hk, hs⟩ P W sem d ops s h hns op fuel u hop hu
    exact C80_safe hM hk hs h hns hop hu
  · intro h
    obtain ⟨k, hk⟩ := M.explore_ends A
    refine ⟨k, hk, ?_⟩
    unfold Machine.safe
    refine List.all_eq_true.2 fun x hx => List.all_eq_true.2 fun y hy => ?_
    have hw := Machine.explore_walk k hx
    cases y with
    | ok b n => rfl
    | throw e n => rfl
    | timeout => rfl
    | ub u =>
      obtain ⟨ops, s, ev, fuel, hr, hns, hev, hst⟩ := hw.undefined (T := listed) hM hd hA [] hC hy
      have := h Unit _ script 0 ops s hr hns (.process ev ()) fuel u
        (show ev ∈ M.eventIds from by rw [← M.events_eq]; exact hev) hst
      have hu := Machine.next_neat x.1 hw.neat _ hy
      exact absurd this (by rintro (rfl | rfl); exacts [hu.1 rfl, hu.2 rfl])

/-! ## The demonstration machines -/

namespace Ex

/-- The demonstration machine with every feature is certified by evaluation. -/
theorem demo_certified : demo.closed [] (demo.explore [] 7) = true ∧ demo.safe (demo.explore [] 7) = true :=
  ⟨by decide +kernel, by decide +kernel⟩

/-- The checker finds the machine that reads an uninitialised slot (C05_refuted). -/
theorem wide_uncertified : wide.closed [] (wide.explore [] 2) = true ∧ wide.safe (wide.explore [] 2) = false :=
  ⟨by decide +kernel, by decide +kernel⟩

example : wide.deferring = false ∨ wide.orthogonal = false := by decide +kernel

/-- A composite (3) with two regions in a machine with one, entered from a state (2) that no row leads
to. -/
def dormant : Machine := .ofList
  [ { table := some [ row (ini 1) (ev 0) none none (.st 1), row (.st 2) (ev 0) none none (.st 3) ] },
    { }, { },
    { table := some [ row (ini 4) (ev 1) none none (.st 4), row (ini 5) (ev 1) none none (.st 5) ] } ] [1]

theorem dormant_regular : dormant.Regular := Machine.regular_ofList (by decide +kernel)
theorem dormant_scoped : dormant.Scoped := Machine.scoped_of_check (by decide +kernel)

theorem dormant_certified :
    dormant.closed [] (dormant.explore [] 1) = true ∧ dormant.safe (dormant.explore [] 1) = true :=
  ⟨by decide +kernel, by decide +kernel⟩

/-- If `set` may be called with state 2, it is rejected. -/
theorem dormant_uncertified :
    dormant.closed [(0, 0, .st 2)] (dormant.explore [(0, 0, .st 2)] 3) = true ∧
    dormant.safe (dormant.explore [(0, 0, .st 2)] 3) = false :=
  ⟨by decide +kernel, by decide +kernel⟩

/-- The demonstration machine may be set to its first two states. -/
theorem demo_certified_sets :
    demo.closed [(0, 0, .st 1), (1, 0, .st 2)] (demo.explore [(0, 0, .st 1), (1, 0, .st 2)] 5) = true ∧
    demo.safe (demo.explore [(0, 0, .st 1), (1, 0, .st 2)] 5) = true :=
  ⟨by decide +kernel, by decide +kernel⟩

example : ∀ a ∈ [(0, 0, .st 1), (1, 0, .st 2)], OpOk demo (.set a.1 a.2.1 a.2.2 : Op Unit) := by
  intro a ha
  rcases List.mem_cons.1 ha with rfl | ha
  · exact ⟨by decide +kernel, by decide +kernel⟩
  · rw [List.mem_singleton.1 ha]; exact ⟨by decide +kernel, by decide +kernel⟩

/-- The sufficient condition of C05 rejects it. -/
theorem dormant_not_safe {P W : Type} (sem : Sem P W) : ¬ Safe dormant sem := by
  intro h
  exact absurd (h.regions 3 (by decide +kernel)) (by decide +kernel)

/-- Two regions; region 0 goes from `A` (1) to `B` (3) on event 0, from there to `C` (4) on event 1, from
there to `E` (5) on event 0 and to a composite (6) with three regions on event 1.  Region 1 stays at `X`
(2), which defers event 0 and has a row for event 1. -/
def overtaken : Machine := .ofList
  [ { table := some
        [ row (ini 1) (ev 0) none none (.st 3), row (.st 3) (ev 1) none none (.st 4),
          row (.st 4) (ev 0) none none (.st 5), row (.st 4) (ev 1) none none (.st 6),
          row (ini 2) (ev 1) none none (.st 2) ] },
    { }, { defer := some [ev 0] }, { }, { }, { },
    { table := some
        [ row (ini 7) (ev 1) none none (.st 7), row (ini 8) (ev 1) none none (.st 8),
          row (ini 9) (ev 1) none none (.st 9) ] } ] [1]

theorem overtaken_regular : overtaken.Regular := Machine.regular_ofList (by decide +kernel)
theorem overtaken_scoped : overtaken.Scoped := Machine.scoped_of_check (by decide +kernel)

/-- Region 0 is at state `i`, region 1 at `X`. -/
def atX (i : Name) : List (Option (Name × StTy)) := [some (0, .st i), some (0, .st 2), none]

theorem overtaken_cands : overtaken.cands (ev 0) 0 (.st 2) = [.defer] := by decide +kernel

/-- Where the clients of this machine are. -/
def Passes {P W : Type} (c : Conf P W) : Prop :=
  c.active = 2 ∧ (∀ x ∈ c.waiting, x.1 = ev 0) ∧
    (c.slots = atX 1 ∧ c.waiting = [] ∨ c.slots = atX 3 ∧ c.waiting ≠ [] ∨ c.slots = atX 5)

section
variable {P W : Type} (sem : Sem P W) {c : Conf P W}

theorem overtaken_defers (p : P) {i : Name} (hs : c.slots = atX i) (hd : c.deps ≠ []) :
    overtaken.visit sem false 1 (ev 0) p c =
      .ok (.deferred, p) { c with waiting := c.waiting ++ [(ev 0, p)] } := by
  obtain ⟨d, ds, hds⟩ : ∃ d ds, c.deps = d :: ds := by
    cases h : c.deps with
    | nil => exact absurd h hd
    | cons d ds => exact ⟨d, ds, rfl⟩
  have h0 : (0 : Name) ∈ overtaken.composites := by decide +kernel
  unfold Machine.visit Machine.seek
  rw [hs]
  simp [atX, Res.bind, h0, overtaken_cands, hds, Machine.attempt, Cand.row?, hs]

/-- Event 0 with region 0 moving from `i` to `j`, or not at all. -/
theorem overtaken_zero (p : P) (fuel : Nat) {i j : Name} (hs : c.slots = atX i) (hd : c.deps ≠ [])
    (ha : c.active = 2)
    (h : overtaken.hopB (ev 0) (0, .st i) (0, .st j) false = true ∨
      overtaken.cands (ev 0) 0 (.st i) = [] ∧ j = i) :
    ∃ os, .deferred ∈ os ∧ overtaken.handle sem fuel (ev 0) p c =
      .ok (os, p) { c with slots := atX j, waiting := c.waiting ++ [(ev 0, p)] } := by
  have ho : overtaken.orthogonal = true := by decide +kernel
  have hh : overtaken.historic = false := by decide +kernel
  have hc0 : (0 : Name) ∈ overtaken.composites := by decide +kernel
  have hi0 : (overtaken.declaredInitials 0).length = 2 := by decide +kernel
  obtain ⟨o, ho', hv0⟩ : ∃ o, o ≠ .deferred ∧ overtaken.visit sem false 0 (ev 0) p c =
      .ok (o, p) { c with slots := atX j } := by
    obtain ⟨slots, memory, waiting, active, deps, first, world, calls⟩ := c
    dsimp only at hs ha hd
    subst hs ha
    rcases h with h | ⟨h, rfl⟩
    · refine ⟨.fired, nofun, ?_⟩
      rw [Machine.visit_hop h rfl hd]
      simp [hh, Machine.put, Machine.recount, Machine.seek, ho, Res.bind, hc0, hi0, atX]
    · exact ⟨.none, nofun, Machine.visit_none (l := (0, .st j)) rfl hc0 h⟩
  have hv1 := overtaken_defers sem p (c := { c with slots := atX j }) rfl hd
  refine ⟨[o, .deferred], by simp, ?_⟩
  unfold Machine.handle
  have ht : overtaken.taking c = [0, 1] := by unfold Machine.taking; rw [ho, ha]; rfl
  simp [ht, Machine.sweep, hv0, hv1, Res.bind, ho']

/-- Event 1 with region 0 moving from `i` to `j`, or not at all. -/
theorem overtaken_one (p : P) (fuel : Nat) {i j : Name} (hs : c.slots = atX i) (hd : c.deps ≠ [])
    (ha : c.active = 2)
    (h : overtaken.hopB (ev 1) (0, .st i) (0, .st j) false = true ∨
      overtaken.cands (ev 1) 0 (.st i) = [] ∧ j = i) :
    overtaken.receive sem fuel (ev 1) p c =
      (overtaken.replay sem fuel { c with slots := atX j }).bind fun _ c => .ok true c := by
  have ho : overtaken.orthogonal = true := by decide +kernel
  have hh : overtaken.historic = false := by decide +kernel
  have hn : overtaken.anonymous = false := by decide +kernel
  have hc0 : (0 : Name) ∈ overtaken.composites := by decide +kernel
  have hi0 : (overtaken.declaredInitials 0).length = 2 := by decide +kernel
  obtain ⟨o, ho', hv0⟩ : ∃ o, o ≠ .deferred ∧ overtaken.visit sem false 0 (ev 1) p c =
      .ok (o, p) { c with slots := atX j } := by
    obtain ⟨slots, memory, waiting, active, deps, first, world, calls⟩ := c
    dsimp only at hs ha hd
    subst hs ha
    rcases h with h | ⟨h, rfl⟩
    · refine ⟨.fired, nofun, ?_⟩
      rw [Machine.visit_hop h rfl hd]
      simp [hh, Machine.put, Machine.recount, Machine.seek, ho, Res.bind, hc0, hi0, atX]
    · exact ⟨.none, nofun, Machine.visit_none (l := (0, .st j)) rfl hc0 h⟩
  have hv1 : overtaken.visit sem false 1 (ev 1) p { c with slots := atX j } =
      .ok (.fired, p) { c with slots := atX j } := by
    obtain ⟨slots, memory, waiting, active, deps, first, world, calls⟩ := c
    dsimp only at hs ha hd
    subst hs ha
    rw [Machine.visit_hop (l := (0, .st 2)) (l' := (0, .st 2)) (h := false) (by decide +kernel) rfl hd]
    simp [hh, Machine.put, Machine.recount, Machine.seek, ho, Res.bind, hc0, hi0, atX]
  have ht : overtaken.taking c = [0, 1] := by unfold Machine.taking; rw [ho, ha]; rfl
  unfold Machine.receive Machine.handle
  simp [ht, Machine.sweep, hv0, hv1, Res.bind, ho', Ne.symm ho', hn]

theorem overtaken_passes (hc : Passes c) (hd : c.deps ≠ []) {e : EventTy} (he : e ∈ overtaken.events)
    (p : P) (fuel : Nat) : ∃ b c', overtaken.receive sem fuel e p c = .ok b c' ∧ Passes c' := by
  have hev : e ∈ [ev 0, ev 1] := by
    have : ∀ e ∈ overtaken.events, e ∈ [ev 0, ev 1] := by decide +kernel
    exact this e he
  have hdf : overtaken.deferring = true := by decide +kernel
  obtain ⟨ha, hw, hs⟩ := hc
  have zero : ∀ {c : Conf P W} {i j : Name}, c.slots = atX i → c.deps ≠ [] → c.active = 2 →
      (overtaken.hopB (ev 0) (0, .st i) (0, .st j) false = true ∨
        overtaken.cands (ev 0) 0 (.st i) = [] ∧ j = i) →
      overtaken.receive sem fuel (ev 0) p c =
        .ok false { c with slots := atX j, waiting := c.waiting ++ [(ev 0, p)] } := by
    intro c i j hs hd ha h
    obtain ⟨os, ho, e⟩ := overtaken_zero sem p fuel hs hd ha h
    unfold Machine.receive
    rw [e]
    show (if _ then _ else _) = _
    rw [if_pos ho]
  have hw' : ∀ x ∈ c.waiting ++ [(ev 0, p)], x.1 = ev 0 := by
    intro x hx
    rcases List.mem_append.1 hx with hx | hx
    · exact hw x hx
    · cases List.mem_singleton.1 hx; rfl
  simp only [List.mem_cons, List.not_mem_nil, or_false] at hev
  rcases hev with rfl | rfl
  · rcases hs with ⟨hs, hq⟩ | ⟨hs, hq⟩ | hs
    · exact ⟨_, _, zero (j := 3) hs hd ha (Or.inl (by decide +kernel)), ha, hw',
        Or.inr (Or.inl ⟨rfl, by simp⟩)⟩
    · exact ⟨_, _, zero (j := 3) hs hd ha (Or.inr ⟨by decide +kernel, rfl⟩), ha, hw',
        Or.inr (Or.inl ⟨rfl, by simp⟩)⟩
    · exact ⟨_, _, zero (j := 5) hs hd ha (Or.inr ⟨by decide +kernel, rfl⟩), ha, hw',
        Or.inr (Or.inr rfl)⟩
  · -- the replay ends at `E`
    have last : ∀ {i : Name}, (overtaken.hopB (ev 0) (0, .st i) (0, .st 5) false = true ∨
          overtaken.cands (ev 0) 0 (.st i) = [] ∧ (5 : Name) = i) → c.waiting ≠ [] →
        ∃ b c', ((overtaken.replay sem fuel { c with slots := atX i }).bind fun _ c => .ok true c) =
          Res.ok b c' ∧ Passes c' := by
      intro i h hq
      cases hcw : c.waiting with
      | nil => exact absurd hcw hq
      | cons x q =>
        obtain ⟨e', p'⟩ := x
        have : e' = ev 0 := hw (e', p') (by rw [hcw]; exact List.mem_cons_self)
        subst this
        obtain ⟨os, _, e⟩ := overtaken_zero sem p' fuel (c := { c with slots := atX i, waiting := q })
          rfl hd ha h
        refine ⟨true, { c with slots := atX 5, waiting := q ++ [(ev 0, p')] }, ?_, ha, ?_,
          Or.inr (Or.inr rfl)⟩
        · unfold Machine.replay
          simp only [hcw, hdf, if_true]
          rw [e]
          rfl
        · intro x hx
          rcases List.mem_append.1 hx with hx | hx
          · exact hw x (by rw [hcw]; exact List.mem_cons_of_mem _ hx)
          · cases List.mem_singleton.1 hx; rfl
    rcases hs with ⟨hs, hq⟩ | ⟨hs, hq⟩ | hs
    · rw [overtaken_one sem p fuel (j := 1) hs hd ha (Or.inr ⟨by decide +kernel, rfl⟩),
        Machine.replay_idle (c := { c with slots := atX 1 }) _ hq]
      exact ⟨true, _, rfl, ha, hw, Or.inl ⟨rfl, hq⟩⟩
    · rw [overtaken_one sem p fuel (j := 4) hs hd ha (Or.inl (by decide +kernel))]
      exact last (Or.inl (by decide +kernel)) hq
    · rw [overtaken_one sem p fuel (j := 5) hs hd ha (Or.inr ⟨by decide +kernel, rfl⟩)]
      by_cases hq : c.waiting = []
      · rw [Machine.replay_idle (c := { c with slots := atX 5 }) _ hq]
        exact ⟨true, _, rfl, ha, hw, Or.inr (Or.inr rfl)⟩
      · exact last (Or.inr ⟨by decide +kernel, rfl⟩) hq

theorem overtaken_stays : overtaken.Stays sem Passes where
  fresh d w := by
    refine ⟨?_, ?_, Or.inl ⟨?_, rfl⟩⟩
    · show (overtaken.declaredInitials overtaken.root).length = 2
      decide +kernel
    · exact fun _ h => nomatch h
    · show ((overtaken.declaredInitials overtaken.root).map fun i => some (overtaken.root, StTy.st i)) ++
        List.replicate (overtaken.slotCount - (overtaken.declaredInitials overtaken.root).length) none =
          atX 1
      decide +kernel
  world c w h := h
  deps c d h := h
  event c ev p fuel hc hd hev := by
    obtain ⟨b, c', e, h⟩ := overtaken_passes sem hc hd hev p fuel
    rw [e]; exact h

end

end Ex

/-- A machine certified for clients that do not call `set` may fail with others: `set` leads to the composite that no row leads to. -/
theorem C80_set_needed : Ex.dormant.closed [] (Ex.dormant.explore [] 1) = true ∧
    Ex.dormant.safe (Ex.dormant.explore [] 1) = true ∧ Hits Ex.dormant (Ex.sem fun _ => true) .uninit :=
  ⟨Ex.dormant_certified.1, Ex.dormant_certified.2,
    Ex.hits_of_run (ops := [.set 0 0 (.st 2), .process (Ex.ev 0) 1]) (op := .process (Ex.ev 1) 1)
      Ex.dormant_regular Ex.dormant_scoped (Ex.harmless _) (by decide +kernel) (by decide +kernel)⟩

/-- With deferral and several regions the checker is not exact: it rejects a machine that no client can
make do anything undefined, because a deferred event always comes first. -/
theorem C80_defer_needed : Ex.overtaken.Regular ∧ Ex.overtaken.Scoped ∧
    (∀ k, Ex.overtaken.closed [] (Ex.overtaken.explore [] k) = true →
      Ex.overtaken.safe (Ex.overtaken.explore [] k) = false) ∧
    ∀ (P W : Type) (sem : Sem P W) (d : Dep) (ops : List (Op P)) (s : SM P W),
      RunTo Ex.overtaken sem d ops s → NoSet ops → ∀ (op : Op P) (fuel : Nat) (u : UB),
      OpOk Ex.overtaken op → NoSet [op] → step Ex.overtaken sem fuel op s ≠ .ub u := by
  refine ⟨Ex.overtaken_regular, Ex.overtaken_scoped, fun k hk => ?_, ?_⟩
  · by_contra hs
    have hs : Ex.overtaken.safe (Ex.overtaken.explore [] k) = true := by
      cases h : Ex.overtaken.safe (Ex.overtaken.explore [] k) with
      | true => rfl
      | false => exact absurd h hs
    obtain ⟨x, hx, hu⟩ : ∃ x ∈ Ex.overtaken.explore [] 5, ∃ u, .ub u ∈ Ex.overtaken.next x.1 x.2 := by
      have : ¬ Ex.overtaken.safe (Ex.overtaken.explore [] 5) = true := by decide +kernel
      unfold Machine.safe at this
      simp only [List.all_eq_true, not_forall] at this
      obtain ⟨x, hx, y, hy, h⟩ := this
      refine ⟨x, hx, ?_⟩
      cases y with
      | ok b n => exact absurd rfl h
      | throw e n => exact absurd rfl h
      | timeout => exact absurd rfl h
      | ub u => exact ⟨u, hy⟩
    exact Machine.not_undefined hk hs (Machine.explore_walk 5 hx) hu.choose_spec
  · intro P W sem d ops s h hns op fuel u hop ho hu
    obtain ⟨c, hc, hp⟩ := (Ex.overtaken_stays sem).reach Ex.overtaken_regular h hns
    have he := ((C77_undefined (sem := sem) hc Ex.overtaken_regular (h.scopes Ex.overtaken_regular) fuel
      hop).1 u).1 hu
    cases op with
    | process ev p =>
      obtain ⟨b, c', e, _⟩ := Ex.overtaken_passes sem hp hc.bound (e := ev)
        (by rw [Machine.events_eq]; exact hop) p fuel
      have he : Ex.overtaken.receive sem fuel ev p c = .ub u := he
      rw [e] at he
      cases he
    | set r p st => exact ho r p st List.mem_cons_self
    | setDependency d' => cases he

end Hsm
