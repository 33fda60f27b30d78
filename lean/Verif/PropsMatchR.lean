import Verif.MatchR
import Verif.PropsMatch
import Verif.PropsInterpGenR
import Verif.PropsConsentGen
import Verif.PropsCheckerGen

/-!
# C112, C113: two machines no client can tell apart, also if its callbacks use the machine
-/

namespace Hsm

variable {P W W' : Type} {M M' : Machine} {v v' : StTy → StTy} {R : Pairing} {sem : SemR P W}
  {sem' : SemR P W'} {U : W → W' → Prop}
  {C C' : EventTy → Name → StTy → List Cand} {evs evs' : List EventTy}

/-! ## Lists -/

/-- Both are missing, or both are there and related. -/
def Opt {α β : Type} (S : α → β → Prop) : Option α → Option β → Prop
  | none, none => True
  | some a, some b => S a b
  | _, _ => False

/-- The lists are related one by one. -/
def RowByRow {α β : Type} (S : α → β → Prop) (xs : List α) (ys : List β) : Prop :=
  ∀ r : Nat, Opt S xs[r]? ys[r]?

section
variable {α β : Type} {S : α → β → Prop} {xs : List α} {ys : List β}

theorem RowByRow.lt (h : RowByRow S xs ys) (r : Nat) : r < xs.length ↔ r < ys.length := by
  have h := h r
  constructor
  · intro hr
    rw [List.getElem?_eq_getElem hr] at h
    rcases Nat.lt_or_ge r ys.length with h1 | h1
    · exact h1
    · rw [List.getElem?_eq_none h1] at h; exact h.elim
  · intro hr
    rw [List.getElem?_eq_getElem hr] at h
    rcases Nat.lt_or_ge r xs.length with h1 | h1
    · exact h1
    · rw [List.getElem?_eq_none h1] at h; exact h.elim

theorem RowByRow.length (h : RowByRow S xs ys) : xs.length = ys.length := by
  have h1 := h.lt xs.length
  have h2 := h.lt ys.length
  omega

theorem RowByRow.set (h : RowByRow S xs ys) (r : Nat) {a : α} {b : β} (hab : S a b) :
    RowByRow S (xs.set r a) (ys.set r b) := by
  intro i
  rw [List.getElem?_set, List.getElem?_set]
  split
  · rename_i e
    subst e
    by_cases hl : r < xs.length
    · rw [if_pos hl, if_pos ((h.lt r).1 hl)]; exact hab
    · rw [if_neg hl, if_neg fun h' => hl ((h.lt r).2 h')]; trivial
  · exact h i

theorem RowByRow.append {xs' : List α} {ys' : List β} (h : RowByRow S xs ys) (h' : RowByRow S xs' ys') :
    RowByRow S (xs ++ xs') (ys ++ ys') := by
  intro i
  rw [List.getElem?_append, List.getElem?_append, h.length]
  split
  · exact h i
  · exact h' _

theorem RowByRow.replicate {a : α} {b : β} (hab : S a b) (n : Nat) :
    RowByRow S (List.replicate n a) (List.replicate n b) := by
  intro i
  rw [List.getElem?_replicate, List.getElem?_replicate]
  split
  · exact hab
  · trivial

theorem RowByRow.map {γ δ : Type} {T : γ → δ → Prop} {f : α → γ} {g : β → δ}
    (hfg : ∀ a b, S a b → T (f a) (g b)) (h : RowByRow S xs ys) : RowByRow T (xs.map f) (ys.map g) := by
  intro i
  rw [List.getElem?_map, List.getElem?_map]
  have h := h i
  revert h
  cases xs[i]? <;> cases ys[i]? <;> intro h <;> first | exact h.elim | trivial | exact hfg _ _ h

theorem RowByRow.nil : RowByRow S [] [] := fun _ => trivial

theorem RowByRow.cons {a : α} {b : β} (hab : S a b) (h : RowByRow S xs ys) : RowByRow S (a :: xs) (b :: ys) := by
  intro i
  cases i with
  | zero => exact hab
  | succ i => exact h i

end

/-- The pairs of `R`, as a relation. -/
def Pairing.Has (R : Pairing) (l l' : Name × StTy) : Prop := (l, l') ∈ R

theorem Pairing.match?_rows : ∀ {xs ys : List (Name × StTy)}, R.match? xs ys = true → RowByRow R.Has xs ys
  | [], [], _ => .nil
  | [], _ :: _, h => nomatch h
  | _ :: _, [], h => nomatch h
  | _ :: _, _ :: _, h => by
    unfold Pairing.match? at h
    rw [Bool.and_eq_true] at h
    exact .cons (of_decide_eq_true (p := (_, _) ∈ R) h.1) (Pairing.match?_rows h.2)

theorem Pairing.owners_of {l l' : Name × StTy} (h : (l, l') ∈ R) : R.owners l.1 l'.1 = true :=
  List.any_eq_true.2 ⟨_, h, by simp⟩

/-! ## What the check says -/

/-- What `Machine.like` checks. -/
structure Likes (M M' : Machine) (v v' : StTy → StTy) (R : Pairing)
    (C C' : EventTy → Name → StTy → List Cand) (evs evs' : List EventTy) : Prop where
  orthogonal : M.orthogonal = M'.orthogonal
  anonymous : M.anonymous = M'.anonymous
  deferring : M.deferring = M'.deferring
  historic : M.historic = M'.historic
  handler : (M.decl M.root).handler = (M'.decl M'.root).handler
  room : M.slotCount = M'.slotCount
  events : ∀ ev ∈ evs, ev ∈ evs'
  start : RowByRow R.Has (M.firsts M.root) (M'.firsts M'.root)
  faithful : M.historic = true → ∀ p p' q q', R.owners p p' = true → R.owners q q' = true → (p = q ↔ p' = q')
  inside : ∀ l l', (l, l') ∈ R → (l.1 ∈ M.composites ↔ l'.1 ∈ M'.composites)
  cands : ∀ l l', (l, l') ∈ R → l.1 ∈ M.composites → ∀ ev ∈ evs,
    M.likeCands M' v v' R ev (C ev l.1 l.2) (C' ev l'.1 l'.2) = true
  regions : M.orthogonal = true → ∀ l l', (l, l') ∈ R → l.1 ∈ M.composites →
    (M.declaredInitials l.1).length = (M'.declaredInitials l'.1).length
  memory : M.historic = true → ∀ p p', R.owners p p' = true → p ∈ M.composites →
    RowByRow R.Has (M.firsts p) (M'.firsts p')
  view : (M.decl M.root).handler ≠ none → ∀ l l', (l, l') ∈ R → l.1 ∈ M.composites →
    v l.2 = v' l'.2 ∧ M.selfMade l.2 = M'.selfMade l'.2

theorem Machine.like_iff (h : M.like M' v v' R C C' evs evs' = true) : Likes M M' v v' R C C' evs evs' := by
  unfold like at h
  simp only [Bool.and_eq_true, decide_eq_true_eq, List.all_eq_true] at h
  obtain ⟨⟨⟨⟨⟨⟨⟨⟨⟨h1, h2⟩, h3⟩, h4⟩, h5⟩, h6⟩, h7⟩, h8⟩, h9⟩, h10⟩ := h
  have own : ∀ {p p'}, R.owners p p' = true → ∃ x ∈ R, x.1.1 = p ∧ x.2.1 = p' := by
    intro p p' h
    obtain ⟨x, hx, he⟩ := List.any_eq_true.1 h
    rw [Bool.and_eq_true] at he
    exact ⟨x, hx, of_decide_eq_true he.1, of_decide_eq_true he.2⟩
  have key : ∀ l l', (l, l') ∈ R → (l.1 ∈ M.composites ↔ l'.1 ∈ M'.composites) ∧ (l.1 ∈ M.composites →
      (∀ ev ∈ evs, M.likeCands M' v v' R ev (C ev l.1 l.2) (C' ev l'.1 l'.2) = true) ∧
      (M.orthogonal = true → (M.declaredInitials l.1).length = (M'.declaredInitials l'.1).length) ∧
      (M.historic = true → RowByRow R.Has (M.firsts l.1) (M'.firsts l'.1)) ∧
      ((M.decl M.root).handler ≠ none → v l.2 = v' l'.2 ∧ M.selfMade l.2 = M'.selfMade l'.2)) := by
    intro l l' hl
    have := h10 (l, l') hl
    unfold likeLoc at this
    dsimp only at this
    by_cases hp : l.1 ∈ M.composites
    · rw [if_pos hp] at this
      simp only [Bool.and_eq_true, Bool.or_eq_true, Bool.not_eq_true', decide_eq_true_eq, List.all_eq_true] at this
      obtain ⟨⟨⟨⟨k1, k2⟩, k3⟩, k4⟩, k5⟩ := this
      refine ⟨⟨fun _ => k1, fun _ => hp⟩, fun _ => ⟨k2, fun ho => ?_, fun hh => ?_, fun hn => ?_⟩⟩
      · exact k3.resolve_left (by rw [ho]; decide)
      · exact Pairing.match?_rows (k4.resolve_left (by rw [hh]; decide))
      · exact k5.resolve_left fun e => hn (Option.isNone_iff_eq_none.1 e)
    · rw [if_neg hp] at this
      exact ⟨⟨fun h => absurd h hp, fun h => absurd h (of_decide_eq_true this)⟩, fun h => absurd h hp⟩
  refine ⟨h1, h2, h3, h4, h5, h6, h7, Pairing.match?_rows h8, ?_, fun l l' h => (key l l' h).1,
    fun l l' h hp => ((key l l' h).2 hp).1, fun ho l l' h hp => ((key l l' h).2 hp).2.1 ho, ?_,
    fun hn l l' h hp => ((key l l' h).2 hp).2.2.2 hn⟩
  · intro hh p p' q q' hp hq
    rw [hh] at h9
    replace h9 : R.faithful = true := h9
    obtain ⟨x, hx, rfl, rfl⟩ := own hp
    obtain ⟨y, hy, rfl, rfl⟩ := own hq
    have := List.all_eq_true.1 (List.all_eq_true.1 h9 x hx) y hy
    exact of_decide_eq_true this
  · intro hh p p' hp hc
    obtain ⟨x, hx, rfl, rfl⟩ := own hp
    exact ((key x.1 x.2 hx).2 hc).2.2.1 hh

/-! ## Configurations -/

/-- Configurations the client cannot tell apart; `U` relates the rest of the program. -/
structure Peers (M M' : Machine) (v v' : StTy → StTy) (R : Pairing) (evs : List EventTy) (U : W → W' → Prop)
    (c : Conf P W) (c' : Conf P W') : Prop where
  slots : RowByRow (Opt R.Has) c.slots c'.slots
  memory : M.historic = true → ∀ p p', R.owners p p' = true → p ∈ M.composites →
    RowByRow R.Has (c.memory p) (c'.memory p')
  active : c.active = c'.active
  waiting : c.waiting = c'.waiting
  known : ∀ x ∈ c.waiting, x.1 ∈ evs
  deps : c.deps = c'.deps
  first : c.first = c'.first
  world : U c.world c'.world
  calls : c.calls.map (Call.seen v) = c'.calls.map (Call.seen v')

/-- The same outcome. -/
abbrev Meet {α : Type} (M M' : Machine) (v v' : StTy → StTy) (R : Pairing) (evs : List EventTy)
    (U : W → W' → Prop) (q : Res (Conf P W) α) (q' : Res (Conf P W') α) : Prop :=
  q.Rel Eq (Peers M M' v v' R evs U) q'

/-- Calls from inside have the same outcome. -/
def Chime (M M' : Machine) (v v' : StTy → StTy) (R : Pairing) (evs : List EventTy)
    (U : W → W' → Prop) (ok : Op P → Prop) (call : Op P → Conf P W → Res (Conf P W) Bool)
    (call' : Op P → Conf P W' → Res (Conf P W') Bool) : Prop :=
  ∀ op, ok op → ∀ c c', Peers M M' v v' R evs U c c' → Meet M M' v v' R evs U (call op c) (call' op c')

/-- Callbacks that do the same when called with arguments that look the same. -/
structure SemR.Akin (v v' : StTy → StTy) (U : W → W' → Prop) (ok : Op P → Prop) (sem : SemR P W)
    (sem' : SemR P W') : Prop where
  guard : ∀ g a a' p w w', a.seen v = a'.seen v' → U w w' → (sem.guard g a p w).Kin U ok (sem'.guard g a' p w')
  action : ∀ f a a' p w w', a.seen v = a'.seen v' → U w w' → (sem.action f a p w).Kin U ok (sem'.action f a' p w')
  handler : ∀ k e st st' d p w w', v st = v' st' → U w w' →
    (sem.handler k e st d p w).Kin U ok (sem'.handler k e st' d p w')
  alive : ∀ st st' w w', v st = v' st' → U w w' → sem.alive st w = sem'.alive st' w'
  nonePayload : sem.nonePayload = sem'.nonePayload

section
variable {c : Conf P W} {c' : Conf P W'}

/-! ## Places -/

theorem Peers.seek (h : Peers M M' v v' R evs U c c') (r : Nat) :
    (Machine.seek r c).Rel R.Has (fun d d' => d = c ∧ d' = c' ∧ Peers M M' v v' R evs U d d') (Machine.seek r c') := by
  unfold Machine.seek
  have hs := h.slots r
  revert hs
  cases c.slots[r]? with
  | none => cases c'.slots[r]? <;> intro hs <;> first | exact hs.elim | rfl
  | some o =>
    cases c'.slots[r]? with
    | none => intro hs; exact hs.elim
    | some o' =>
      intro hs
      change Opt R.Has o o' at hs
      cases o <;> cases o' <;> first | exact hs.elim | rfl | exact ⟨hs, rfl, rfl, h⟩

theorem Peers.seekBind {α : Type} (h : Peers M M' v v' R evs U c c') (r : Nat)
    {f : Name × StTy → Conf P W → Res (Conf P W) α} {f' : Name × StTy → Conf P W' → Res (Conf P W') α}
    (hf : ∀ l l', (l, l') ∈ R → Meet M M' v v' R evs U (f l c) (f' l' c')) :
    Meet M M' v v' R evs U ((Machine.seek r c).bind f) ((Machine.seek r c').bind f') := by
  have := h.seek r
  revert this
  cases Machine.seek r c <;> cases Machine.seek r c' <;> intro h1 <;> first | exact h1.elim | skip
  · obtain ⟨hl, rfl, rfl, -⟩ := h1
    exact hf _ _ hl
  · obtain ⟨rfl, rfl, rfl, h⟩ := h1
    exact ⟨rfl, h⟩
  · exact h1
  · trivial

theorem Peers.put (h : Peers M M' v v' R evs U c c') (r : Nat) {l l' : Name × StTy} (hl : (l, l') ∈ R) :
    Meet M M' v v' R evs U (Machine.put r l c) (Machine.put r l' c') := by
  unfold Machine.put
  by_cases hr : r < c.slots.length
  · rw [if_pos hr, if_pos ((h.slots.lt r).1 hr)]
    exact ⟨rfl, { h with slots := h.slots.set r (show Opt R.Has (some l) (some l') from hl) }⟩
  · rw [if_neg hr, if_neg fun h' => hr ((h.slots.lt r).2 h')]
    rfl

variable (hm : Likes M M' v v' R C C' evs evs')
include hm

theorem Peers.recount (h : Peers M M' v v' R evs U c c') :
    Meet M M' v v' R evs U (M.recount c) (M'.recount c') := by
  unfold Machine.recount
  rw [← hm.orthogonal]
  split
  · rename_i ho
    refine h.seekBind 0 fun l l' hl => ?_
    by_cases hp : l.1 ∈ M.composites
    · rw [if_pos hp, if_pos ((hm.inside _ _ hl).1 hp)]
      exact ⟨rfl, { h with active := hm.regions ho _ _ hl hp }⟩
    · rw [if_neg hp, if_neg fun h' => hp ((hm.inside _ _ hl).2 h')]
      rfl
  · exact ⟨rfl, h⟩

theorem Peers.remember (h : Peers M M' v v' R evs U c c') (hh : M.historic = true) (r : Nat) :
    Meet M M' v v' R evs U (M.remember r c) (M'.remember r c') := by
  unfold Machine.remember
  refine h.seekBind 0 fun l0 l0' hl0 => h.seekBind r fun l l' hl => ?_
  have ho := Pairing.owners_of hl0
  by_cases hp : l0.1 ∈ M.composites
  · have hlen := (h.memory hh _ _ ho hp).lt r
    by_cases hr : r < (c.memory l0.1).length
    · rw [if_pos ⟨hp, hr⟩, if_pos ⟨(hm.inside _ _ hl0).1 hp, hlen.1 hr⟩]
      refine ⟨rfl, { h with memory := fun _ q q' hq hc => ?_ }⟩
      dsimp only
      have hf := hm.faithful hh _ _ _ _ hq ho
      by_cases e : q = l0.1
      · rw [if_pos e, if_pos (hf.1 e)]
        exact (h.memory hh _ _ hq hc).set r hl
      · rw [if_neg e, if_neg fun e' => e (hf.2 e')]
        exact h.memory hh _ _ hq hc
    · rw [if_neg fun h => hr h.2, if_neg fun h => hr (hlen.2 h.2)]
      rfl
  · rw [if_neg fun h => hp h.1, if_neg fun h' => hp ((hm.inside _ _ hl0).2 h'.1)]
    rfl

theorem Likes.composites {p p' : Name} (ho : R.owners p p' = true) : p ∈ M.composites ↔ p' ∈ M'.composites := by
  obtain ⟨x, hx, he⟩ := List.any_eq_true.1 ho
  rw [Bool.and_eq_true] at he
  have h1 := of_decide_eq_true he.1
  have h2 := of_decide_eq_true he.2
  rw [← h1, ← h2]
  exact hm.inside x.1 x.2 hx

theorem Peers.recall (h : Peers M M' v v' R evs U c c') (hh : M.historic = true) (r : Nat) {p p' : Name}
    (ho : R.owners p p' = true) :
    Meet M M' v v' R evs U ((M.recall r p c).bind fun l c => Machine.put r l c)
      ((M'.recall r p' c').bind fun l c => Machine.put r l c) := by
  unfold Machine.recall
  by_cases hp : p ∈ M.composites
  · rw [if_pos hp, if_pos ((hm.composites ho).1 hp)]
    have hs := h.memory hh _ _ ho hp r
    revert hs
    cases (c.memory p)[r]? <;> cases (c'.memory p')[r]? <;> intro hs <;> first | exact hs.elim | rfl | skip
    exact h.put r hs
  · rw [if_neg hp, if_neg fun h' => hp ((hm.composites ho).2 h')]
    rfl

theorem Peers.travel (h : Peers M M' v v' R evs U c c') (r : Nat) {t t' : XRow} {l l' : Name × StTy}
    (hi : t.internal = t'.internal)
    (ht : t.internal = true ∨ Machine.toHistory t.target = Machine.toHistory t'.target ∧
      (if (M.historic && Machine.toHistory t.target) = true then R.owners l.1 l'.1 else decide ((l, l') ∈ R)) = true) :
    Meet M M' v v' R evs U (M.travel r t l c) (M'.travel r t' l' c') := by
  unfold Machine.travel
  rw [← hi, ← hm.historic]
  cases hin : t.internal with
  | true => exact ⟨rfl, h⟩
  | false =>
    obtain ⟨he, hl⟩ := ht.resolve_left (by rw [hin]; decide)
    rw [if_neg Bool.false_ne_true, if_neg Bool.false_ne_true]
    cases hh : M.historic with
    | false =>
      rw [hh, if_neg (by simp)] at hl
      rw [if_neg Bool.false_ne_true, if_neg Bool.false_ne_true]
      exact (h.put r (of_decide_eq_true hl)).bind fun _ _ c c' _ h => h.recount hm
    | true =>
      rw [if_pos rfl, if_pos rfl]
      refine (h.remember hm hh r).bind fun _ _ c c' _ h => Res.Rel.bind (V := Eq) ?_ fun _ _ c c' _ h => h.recount hm
      rw [← he]
      cases htar : Machine.toHistory t.target with
      | true =>
        rw [hh, htar, if_pos (by rfl)] at hl
        exact h.recall hm hh r hl
      | false =>
        rw [hh, htar, if_neg (by decide)] at hl
        exact h.put r (of_decide_eq_true hl)

omit hm

/-! ## Callbacks -/

theorem Peers.present {ok : Op P → Prop} (hg : SemR.Akin v v' U ok sem sem') (h : Peers M M' v v' R evs U c c')
    {st st' : StTy} (hv : v st = v' st') (hs : M.selfMade st = M'.selfMade st') :
    M.presentR sem st c = M'.presentR sem' st' c' := by
  unfold Machine.presentR
  rw [hs, hg.alive _ _ _ _ hv h.world]

variable {ok : Op P → Prop} {call : Op P → Conf P W → Res (Conf P W) Bool}
  {call' : Op P → Conf P W' → Res (Conf P W') Bool}
  (hcall : Chime M M' v v' R evs U ok call call')
include hcall

theorem Chime.enact {α : Type} : ∀ (pr : Prog P W α) (pr' : Prog P W' α), pr.Kin U ok pr' →
    ∀ {c : Conf P W} {c' : Conf P W'}, Peers M M' v v' R evs U c c' →
    Meet M M' v v' R evs U (Machine.enact call pr c) (Machine.enact call' pr' c')
  | .ret a p w, pr', hk, _, _, h => by
    cases pr' <;> first | exact hk.elim | skip
    obtain ⟨rfl, rfl, hw⟩ := hk
    exact ⟨rfl, { h with world := hw }⟩
  | .throw x w, pr', hk, _, _, h => by
    cases pr' <;> first | exact hk.elim | skip
    obtain ⟨rfl, hw⟩ := hk
    exact ⟨rfl, { h with world := hw }⟩
  | .ub, pr', hk, _, _, _ => by
    cases pr' <;> first | exact hk.elim | rfl
  | .call op w k, pr', hk, c, c', h => by
    cases pr' <;> first | exact hk.elim | skip
    rename_i op' w' k'
    obtain ⟨rfl, ho, hw, hk⟩ := hk
    unfold Machine.enact
    have := hcall op ho { c with world := w } { c' with world := w' } { h with world := hw }
    revert this
    cases call op { c with world := w } <;> cases call' op { c' with world := w' } <;> intro h1 <;>
      first | exact h1.elim | skip
    · obtain ⟨rfl, h1⟩ := h1
      exact Chime.enact _ _ (hk _ _ _ h1.world) h1
    · obtain ⟨rfl, h1⟩ := h1
      exact Chime.enact _ _ (hk _ _ _ h1.world) h1
    · exact h1
    · trivial

theorem Chime.noted {α : Type} {pr : Prog P W α} {pr' : Prog P W' α} (hg : pr.Kin U ok pr')
    {note note' : Option α → Call P}
    (hn : ∀ a, (note a).seen v = (note' a).seen v') (h : Peers M M' v v' R evs U c c') :
    Meet M M' v v' R evs U (Machine.enactNoted call pr note c) (Machine.enactNoted call' pr' note' c') := by
  have := hcall.enact pr pr' hg h
  unfold Machine.enactNoted
  have add : ∀ {c : Conf P W} {c' : Conf P W'} (a : Option α), Peers M M' v v' R evs U c c' →
      Peers M M' v v' R evs U { c with calls := c.calls ++ [note a] } { c' with calls := c'.calls ++ [note' a] } :=
    fun a h =>
      { h with calls := by simp only [List.map_append, h.calls, List.map_cons, hn, List.map_nil] }
  revert this
  cases Machine.enact call pr c <;> cases Machine.enact call' pr' c' <;> intro h1 <;>
    first | exact h1.elim | skip
  · obtain ⟨rfl, h1⟩ := h1; exact ⟨rfl, add _ h1⟩
  · obtain ⟨rfl, h1⟩ := h1; exact ⟨rfl, add _ h1⟩
  · exact h1
  · trivial

variable (hg : SemR.Akin v v' U ok sem sem')
include hg

theorem Peers.ask (h : Peers M M' v v' R evs U c c') {ev : EventTy} (d : Dep) {cd cd' : Cand} {t t' : XRow}
    {l l' : Name × StTy} (ha : M.asks v ev cd t l = M'.asks v' ev cd' t' l') (p : P) :
    Meet M M' v v' R evs U (M.askR sem call ev d cd t l p c)
      (M'.askR sem' call' ev d cd' t' l' p c') := by
  unfold Machine.asks at ha
  unfold Machine.askR
  cases hgu : t.guard with
  | none =>
    cases hgu' : t'.guard with
    | none => exact ⟨rfl, h⟩
    | some g' => rw [hgu, hgu'] at ha; cases ha
  | some g =>
    cases hgu' : t'.guard with
    | none => rw [hgu, hgu'] at ha; cases ha
    | some g' =>
      rw [hgu, hgu'] at ha
      simp only [Option.map_some, Option.some.injEq, Prod.mk.injEq] at ha
      obtain ⟨rfl, hs, h1, h2⟩ := ha
      dsimp only
      generalize hx : (if t.internal = true then cd.src else l.2) = x at hs h2 ⊢
      generalize hx' : (if t'.internal = true then cd'.src else l'.2) = x' at hs h2 ⊢
      have e1 : v cd.src = v' cd'.src := congrArg Args.src hs
      have e2 : v x = v' x' := congrArg Args.dst hs
      rw [h.present hg e1 h1, h.present hg e2 h2]
      have hs' : Args.seen v ⟨ev, cd.src, x, false, d⟩ = Args.seen v' ⟨ev, cd'.src, x', false, d⟩ := by
        unfold Args.seen; dsimp only; rw [e1, e2]
      split
      · exact hcall.noted (hg.guard _ _ _ _ _ _ hs' h.world)
          (fun a => by unfold Call.seen; dsimp only; rw [hs']) h
      · rfl

theorem Peers.perform {args args' : Args} (ha : args.seen v = args'.seen v') :
    ∀ (cs : List (Phase × Cb)) (p : P) {c : Conf P W} {c' : Conf P W'}, Peers M M' v v' R evs U c c' →
      Meet M M' v v' R evs U (Machine.performR sem call args cs p c)
        (Machine.performR sem' call' args' cs p c')
  | [], _, _, _, h => ⟨rfl, h⟩
  | (ph, a) :: cs, p, c, c', h => by
    unfold Machine.performR
    refine (hcall.noted (hg.action _ _ _ _ _ _ ha h.world)
      (fun a => by unfold Call.seen; dsimp only; rw [ha]) h).bind ?_
    rintro u _ c c' rfl h
    exact Peers.perform ha cs u.2 h

include hm in
theorem Peers.take (h : Peers M M' v v' R evs U c c') (r : Nat) {ev : EventTy} (d : Dep) {cd cd' : Cand}
    {t t' : XRow} {l l' : Name × StTy} (hc : M.calls v ev cd t l = M'.calls v' ev cd' t' l')
    (hi : t.internal = t'.internal)
    (ht : t.internal = true ∨ Machine.toHistory t.target = Machine.toHistory t'.target ∧
      (if (M.historic && Machine.toHistory t.target) = true then R.owners l.1 l'.1 else decide ((l, l') ∈ R)) = true)
    (p : P) :
    Meet M M' v v' R evs U (M.takeR sem call r ev d cd t l p c)
      (M'.takeR sem' call' r ev d cd' t' l' p c') := by
  unfold Machine.takeR
  refine (h.travel hm r hi ht).bind ?_
  intro _ _ c c' _ h
  unfold Machine.calls at hc
  cases hr : M.toRun t with
  | none =>
    cases hr' : M'.toRun t' with
    | none => exact ⟨rfl, h⟩
    | some cs' => rw [hr, hr'] at hc; cases hc
  | some cs =>
    cases hr' : M'.toRun t' with
    | none => rw [hr, hr'] at hc; cases hc
    | some cs' =>
      rw [hr, hr'] at hc
      simp only [Option.map_some, Option.some.injEq, Prod.mk.injEq] at hc
      obtain ⟨rfl, hs, hma⟩ := hc
      dsimp only
      rw [h.present hg (show v cd.src = v' cd'.src from congrArg Args.src hs) hma]
      split
      · refine Peers.perform hcall hg ?_ cs p h
        have : ∀ (M : Machine) (v : StTy → StTy) (cd : Cand) (t : XRow) (l : Name × StTy),
            (cbArgs M cd t l ev d).seen v = { (cbArgs M cd t l ev 0).seen v with dep := d } :=
          fun _ _ _ _ _ => rfl
        rw [this, this, hs]
      · rfl

omit hcall hg

/-! ## Candidates -/

/-- The check, for candidates with their dependencies. -/
def LikeTries (M M' : Machine) (v v' : StTy → StTy) (R : Pairing) (ev : EventTy) :
    List (Dep × Cand) → List (Dep × Cand) → Prop
  | [], [] => True
  | x :: xs, x' :: xs' => x.1 = x'.1 ∧ M.likeCand M' v v' R ev x.2 x'.2 = true ∧
      (Machine.final x.2 = true ∨ LikeTries M M' v v' R ev xs xs')
  | _, _ => False

theorem likeTries_map {ev : EventTy} (d : Dep) {ys ys' : List (Dep × Cand)}
    (hy : LikeTries M M' v v' R ev ys ys') : ∀ {cs cs' : List Cand},
    M.likeCands M' v v' R ev cs cs' = true →
    LikeTries M M' v v' R ev (cs.map (fun cd => (d, cd)) ++ ys) (cs'.map (fun cd => (d, cd)) ++ ys')
  | [], [], _ => hy
  | [], _ :: _, h => nomatch h
  | _ :: _, [], h => nomatch h
  | cd :: cs, cd' :: cs', h => by
    unfold Machine.likeCands at h
    simp only [Bool.and_eq_true, Bool.or_eq_true] at h
    exact ⟨rfl, h.1, h.2.imp_right fun h => likeTries_map d hy h⟩

theorem likeTries_flatMap {ev : EventTy} {cs cs' : List Cand}
    (h : M.likeCands M' v v' R ev cs cs' = true) : ∀ ds : List Dep,
    LikeTries M M' v v' R ev (ds.flatMap fun d => cs.map fun cd => (d, cd))
      (ds.flatMap fun d => cs'.map fun cd => (d, cd))
  | [] => trivial
  | d :: ds => by
    rw [List.flatMap_cons, List.flatMap_cons]
    exact likeTries_map d (likeTries_flatMap h ds) h

theorem Peers.defer (h : Peers M M' v v' R evs U c c') {ev : EventTy} (hev : ev ∈ evs) (p : P) :
    Peers M M' v v' R evs U { c with waiting := c.waiting ++ [(ev, p)] }
      { c' with waiting := c'.waiting ++ [(ev, p)] } :=
  { h with
    waiting := by rw [h.waiting]
    known := by
      intro x hx
      rcases List.mem_append.1 hx with hx | hx
      · exact h.known x hx
      · rw [List.mem_singleton.1 hx]; exact hev }

theorem askR_unguarded {ev : EventTy} {d : Dep} {cd : Cand} {t : XRow} {l : Name × StTy} {p : P}
    {c c₁ : Conf P W} {a : Bool × P} (h : M.askR sem call ev d cd t l p c = .ok a c₁)
    (hn : t.guard = none) : a.1 = true := by
  unfold Machine.askR at h
  rw [hn] at h
  cases h
  rfl

include hm hcall hg

theorem Peers.attempt (anon : Bool) (r : Nat) {ev : EventTy} (hev : ev ∈ evs) (k : Nat) :
    ∀ (xs xs' : List (Dep × Cand)), LikeTries M M' v v' R ev xs xs' → ∀ (p : P)
      {c : Conf P W} {c' : Conf P W'}, Peers M M' v v' R evs U c c' →
      Meet M M' v v' R evs U (M.attemptR sem call anon r ev k xs p c)
        (M'.attemptR sem' call' anon r ev k xs' p c')
  | [], [], _, _, _, _, h => ⟨rfl, h⟩
  | [], _ :: _, h, _, _, _, _ => h.elim
  | _ :: _, [], h, _, _, _, _ => h.elim
  | (d, cd) :: xs, (d', cd') :: xs', hx, p, c, c', h => by
    obtain ⟨hd, hc, hr⟩ := hx
    dsimp only at hd hc hr
    subst hd
    unfold Machine.likeCand at hc
    unfold Machine.attemptR
    cases ht : cd.row? with
    | none =>
      cases ht' : cd'.row? with
      | none =>
        cases anon with
        | true => rfl
        | false => exact ⟨rfl, h.defer hev p⟩
      | some t' => rw [ht, ht'] at hc; cases hc
    | some t =>
      cases ht' : cd'.row? with
      | none => rw [ht, ht'] at hc; cases hc
      | some t' =>
        rw [ht, ht'] at hc
        dsimp only at hc ⊢
        cases hl : M.targetLoc t with
        | none =>
          cases hl' : M'.targetLoc t' with
          | none => rfl
          | some l' => rw [hl, hl'] at hc; cases hc
        | some l =>
          cases hl' : M'.targetLoc t' with
          | none => rw [hl, hl'] at hc; cases hc
          | some l' =>
            rw [hl, hl'] at hc
            dsimp only at hc ⊢
            rw [Bool.and_eq_true, Bool.and_eq_true, Bool.and_eq_true, Bool.or_eq_true, Bool.and_eq_true] at hc
            obtain ⟨⟨⟨h1, h2⟩, h3⟩, h4⟩ := hc
            have h1 := of_decide_eq_true h1
            have h2 := of_decide_eq_true h2
            have h3 := of_decide_eq_true h3
            have h4 := h4.imp_right fun h => And.intro (of_decide_eq_true h.1) h.2
            have hk := h.ask hcall hg d h1 p
            revert hk
            cases hq : M.askR sem call ev d cd t l p c <;>
              cases hq' : M'.askR sem' call' ev d cd' t' l' p c' <;> intro hk <;>
              first | exact hk.elim | skip
            · rename_i a c₁ a' c₁'
              obtain ⟨rfl, h⟩ := hk
              have e1 := askR_unguarded hq
              show Meet M M' v v' R evs U (if a.1 = true then _ else _) (if a.1 = true then _ else _)
              split
              · refine Res.Rel.bind (V := Eq) (h.take hm hcall hg r d h2 h3 h4 a.2) ?_
                rintro p _ c c' rfl h
                exact ⟨rfl, h⟩
              · rename_i hf
                rw [← h.deps]
                split
                · refine Peers.attempt anon r hev k xs xs' (hr.resolve_left ?_) a.2 h
                  intro hfin
                  unfold Machine.final at hfin
                  rw [ht] at hfin
                  exact hf (e1 (Option.isNone_iff_eq_none.1 hfin))
                · rfl
            · exact hk
            · exact hk
            · trivial

theorem Peers.visit (h : Peers M M' v v' R evs U c c') (anon : Bool) (r : Nat) {ev : EventTy} (hev : ev ∈ evs)
    (p : P) :
    Meet M M' v v' R evs U
      ((Machine.seek r c).bind fun l c =>
        if l.1 ∈ M.composites then
          if C ev l.1 l.2 = [] then .ok (.none, p) c
          else M.attemptR sem call anon r ev c.deps.length
            (c.deps.flatMap fun d => (C ev l.1 l.2).map fun cd => (d, cd)) p c
        else .ub .bounds)
      ((Machine.seek r c').bind fun l c =>
        if l.1 ∈ M'.composites then
          if C' ev l.1 l.2 = [] then .ok (.none, p) c
          else M'.attemptR sem' call' anon r ev c.deps.length
            (c.deps.flatMap fun d => (C' ev l.1 l.2).map fun cd => (d, cd)) p c
        else .ub .bounds) := by
  refine h.seekBind r fun l l' hl => ?_
  by_cases hp : l.1 ∈ M.composites
  · rw [if_pos hp, if_pos ((hm.inside _ _ hl).1 hp)]
    have hc := hm.cands _ _ hl hp ev hev
    by_cases he : C ev l.1 l.2 = []
    · have he' : C' ev l'.1 l'.2 = [] := by
        cases hx : C' ev l'.1 l'.2 with
        | nil => rfl
        | cons a b => rw [he, hx] at hc; cases hc
      rw [if_pos he, if_pos he']
      exact ⟨rfl, h⟩
    · have he' : C' ev l'.1 l'.2 ≠ [] := by
        intro hx
        cases hy : C ev l.1 l.2 with
        | nil => exact he hy
        | cons a b => rw [hy, hx] at hc; cases hc
      rw [if_neg he, if_neg he', ← h.deps]
      exact Peers.attempt hm hcall hg anon r hev _ _ _ (likeTries_flatMap hc c.deps) p h
  · rw [if_neg hp, if_neg fun h' => hp ((hm.inside _ _ hl).2 h')]
    rfl

theorem Peers.complain (h : Peers M M' v v' R evs U c c') (ev : EventTy) (p : P) :
    Meet M M' v v' R evs U (M.complainR sem call ev p c) (M'.complainR sem' call' ev p c') := by
  unfold Machine.complainR
  rw [← hm.handler]
  cases hh : (M.decl M.root).handler with
  | none => exact ⟨rfl, h⟩
  | some k =>
    refine h.seekBind 0 fun l l' hl => ?_
    by_cases hp : l.1 ∈ M.composites
    · rw [if_pos hp, if_pos ((hm.inside _ _ hl).1 hp), ← h.first]
      obtain ⟨h2, h3⟩ := hm.view (by rw [hh]; simp) _ _ hl hp
      rw [h.present hg h2 h3]
      split
      · exact (hcall.noted (hg.handler _ _ _ _ _ _ _ _ h2 h.world)
          (fun a => by unfold Call.seen; dsimp only; rw [h2]) h).bind fun _ _ c c' _ h => ⟨rfl, h⟩
      · rfl
    · rw [if_neg hp, if_neg fun h' => hp ((hm.inside _ _ hl).2 h')]
      exact ⟨rfl, h⟩

omit hcall hg

theorem Peers.taking (h : Peers M M' v v' R evs U c c') : M.taking c = M'.taking c' := by
  unfold Machine.taking
  rw [← hm.orthogonal, h.active]

end

/-! ## The modular header -/

section
variable {c : Conf P W} {c' : Conf P W'} {ok : Op P → Prop} {call : Op P → Conf P W → Res (Conf P W) Bool}
  {call' : Op P → Conf P W' → Res (Conf P W') Bool}
  (hm : Likes M M' v v' R M.cands M'.cands evs evs') (hcall : Chime M M' v v' R evs U ok call call')
  (hg : SemR.Akin v v' U ok sem sem')
include hm hcall hg

theorem Peers.sweep {ev : EventTy} (hev : ev ∈ evs) : ∀ (rs : List Nat) (os : List RegionOut) (p : P)
    {c : Conf P W} {c' : Conf P W'}, Peers M M' v v' R evs U c c' →
    Meet M M' v v' R evs U (M.sweepR sem call ev rs os p c) (M'.sweepR sem' call' ev rs os p c')
  | [], _, _, _, _, h => ⟨rfl, h⟩
  | r :: rs, os, p, c, c', h => by
    unfold Machine.sweepR
    refine Res.Rel.bind (V := Eq) (h.visit hm hcall hg false r hev p) ?_
    rintro o _ c c' rfl h
    split
    · exact ⟨rfl, h⟩
    · exact Peers.sweep hev rs _ _ h

theorem Peers.round (hev : EventTy.none ∈ evs) : ∀ (rs : List Nat) (os : List RegionOut) (p : P)
    {c : Conf P W} {c' : Conf P W'}, Peers M M' v v' R evs U c c' →
    Meet M M' v v' R evs U (M.roundR sem call rs os p c) (M'.roundR sem' call' rs os p c')
  | [], _, _, _, _, h => ⟨rfl, h⟩
  | r :: rs, os, p, c, c', h => by
    unfold Machine.roundR
    refine Res.Rel.bind (V := Eq) (h.visit hm hcall hg true r hev p) ?_
    rintro o _ c c' rfl h
    split
    · exact ⟨rfl, h⟩
    · exact Peers.round hev rs _ _ h

theorem Peers.settle (hev : EventTy.none ∈ evs) : ∀ (fuel : Nat) (p : P) {c : Conf P W} {c' : Conf P W'},
    Peers M M' v v' R evs U c c' →
    Meet M M' v v' R evs U (M.settleR sem call fuel p c) (M'.settleR sem' call' fuel p c')
  | 0, _, _, _, _ => trivial
  | fuel + 1, p, c, c', h => by
    unfold Machine.settleR
    rw [← h.taking hm]
    refine (Peers.round hm hcall hg hev _ [] p h).bind ?_
    rintro a _ c c' rfl h
    split
    · exact Peers.settle hev fuel _ h
    · exact ⟨rfl, h⟩

variable (hanon : M.anonymous = true → EventTy.none ∈ evs)
include hanon

theorem Peers.handle (h : Peers M M' v v' R evs U c c') (fuel : Nat) {ev : EventTy} (hev : ev ∈ evs) (p : P) :
    Meet M M' v v' R evs U (M.handleR sem call fuel ev p c) (M'.handleR sem' call' fuel ev p c') := by
  unfold Machine.handleR
  rw [← h.taking hm, ← hm.anonymous]
  refine (Peers.sweep hm hcall hg hev _ [] p h).bind ?_
  rintro a _ c c' rfl h
  split
  · rename_i hc
    rw [← hg.nonePayload]
    refine (Peers.settle hm hcall hg (hanon hc.2.2) fuel _ h).bind ?_
    rintro _ _ c c' _ h
    exact ⟨rfl, h⟩
  · exact ⟨rfl, h⟩

theorem Peers.replay (h : Peers M M' v v' R evs U c c') (fuel : Nat) :
    Meet M M' v v' R evs U (M.replayR sem call fuel c) (M'.replayR sem' call' fuel c') := by
  unfold Machine.replayR
  rw [← h.waiting, ← hm.deferring]
  cases hq : c.waiting with
  | nil => exact ⟨rfl, h⟩
  | cons x q =>
    obtain ⟨ev, p⟩ := x
    dsimp only
    split
    · refine Res.Rel.bind (V := Eq) ?_ fun _ _ c c' _ h => ⟨rfl, h⟩
      have h' : Peers M M' v v' R evs U { c with waiting := q } { c' with waiting := q } :=
        { h with
          waiting := rfl
          known := fun x hx => h.known x (by rw [hq]; exact List.mem_cons_of_mem _ hx) }
      exact h'.handle hm hcall hg hanon fuel (h.known (ev, p) (by rw [hq]; exact List.mem_cons_self)) p
    · exact ⟨rfl, h⟩

theorem Peers.receive (h : Peers M M' v v' R evs U c c') (fuel : Nat) {ev : EventTy} (hev : ev ∈ evs) (p : P) :
    Meet M M' v v' R evs U (M.receiveR sem call fuel ev p c)
      (M'.receiveR sem' call' fuel ev p c') := by
  unfold Machine.receiveR
  refine (h.handle hm hcall hg hanon fuel hev p).bind ?_
  rintro a _ c c' rfl h
  split
  · exact ⟨rfl, h⟩
  split
  · exact Res.Rel.bind (V := Eq) (h.replay hm hcall hg hanon fuel) fun _ _ c c' _ h => ⟨rfl, h⟩
  split
  · exact ⟨rfl, h⟩
  · exact Res.Rel.bind (V := Eq) (h.complain hm hcall hg ev a.2) fun _ _ c c' _ h => ⟨rfl, h⟩

end

/-! ## The amalgamated header -/

section
variable {c : Conf P W} {c' : Conf P W'} {ok : Op P → Prop} {call : Op P → Conf P W → Res (Conf P W) Bool}
  {call' : Op P → Conf P W' → Res (Conf P W') Bool}
  (hm : Likes M M' v v' R M.candsG M'.candsG evs evs') (hcall : Chime M M' v v' R evs U ok call call')
  (hg : SemR.Akin v v' U ok sem sem')
include hm hcall hg

theorem Peers.sweepG {ev : EventTy} (hev : ev ∈ evs) : ∀ (rs : List Nat) (os : List RegionOut) (p : P)
    {c : Conf P W} {c' : Conf P W'}, Peers M M' v v' R evs U c c' →
    Meet M M' v v' R evs U (M.sweepGR sem call ev rs os p c) (M'.sweepGR sem' call' ev rs os p c')
  | [], _, _, _, _, h => ⟨rfl, h⟩
  | r :: rs, os, p, c, c', h => by
    unfold Machine.sweepGR
    refine Res.Rel.bind (V := Eq) (h.visit hm hcall hg false r hev p) ?_
    rintro o _ c c' rfl h
    split
    · exact ⟨rfl, h⟩
    · exact Peers.sweepG hev rs _ _ h

theorem Peers.roundG (hev : EventTy.none ∈ evs) : ∀ (rs : List Nat) (os : List RegionOut)
    {c : Conf P W} {c' : Conf P W'}, Peers M M' v v' R evs U c c' →
    Meet M M' v v' R evs U (M.roundGR sem call rs os c) (M'.roundGR sem' call' rs os c')
  | [], _, _, _, h => ⟨rfl, h⟩
  | r :: rs, os, c, c', h => by
    unfold Machine.roundGR
    rw [← hg.nonePayload]
    refine Res.Rel.bind (V := Eq) (h.visit hm hcall hg true r hev sem.nonePayload) ?_
    rintro o _ c c' rfl h
    split
    · exact ⟨rfl, h⟩
    · exact Peers.roundG hev rs _ h

theorem Peers.settleG (hev : EventTy.none ∈ evs) : ∀ (fuel : Nat) {c : Conf P W} {c' : Conf P W'},
    Peers M M' v v' R evs U c c' →
    Meet M M' v v' R evs U (M.settleGR sem call fuel c) (M'.settleGR sem' call' fuel c')
  | 0, _, _, _ => trivial
  | fuel + 1, c, c', h => by
    unfold Machine.settleGR
    rw [← h.taking hm]
    refine (Peers.roundG hm hcall hg hev _ [] h).bind ?_
    rintro a _ c c' rfl h
    split
    · exact Peers.settleG hev fuel h
    · exact ⟨rfl, h⟩

variable (hanon : M.anonymous = true → EventTy.none ∈ evs)
include hanon

theorem Peers.handleG (h : Peers M M' v v' R evs U c c') (fuel : Nat) {ev : EventTy} (hev : ev ∈ evs) (p : P) :
    Meet M M' v v' R evs U (M.handleGR sem call fuel ev p c)
      (M'.handleGR sem' call' fuel ev p c') := by
  unfold Machine.handleGR
  rw [← h.taking hm, ← hm.anonymous]
  refine (Peers.sweepG hm hcall hg hev _ [] p h).bind ?_
  rintro a _ c c' rfl h
  split
  · rename_i hc
    refine (Peers.settleG hm hcall hg (hanon hc.2.2) fuel h).bind ?_
    rintro _ _ c c' _ h
    exact ⟨rfl, h⟩
  · exact ⟨rfl, h⟩

theorem Peers.replayG (h : Peers M M' v v' R evs U c c') (fuel : Nat) :
    Meet M M' v v' R evs U (M.replayGR sem call fuel c) (M'.replayGR sem' call' fuel c') := by
  unfold Machine.replayGR
  rw [← h.waiting, ← hm.deferring]
  cases hq : c.waiting with
  | nil => exact ⟨rfl, h⟩
  | cons x q =>
    obtain ⟨ev, p⟩ := x
    dsimp only
    split
    · refine Res.Rel.bind (V := Eq) ?_ fun _ _ c c' _ h => ⟨rfl, h⟩
      have h' : Peers M M' v v' R evs U { c with waiting := q } { c' with waiting := q } :=
        { h with
          waiting := rfl
          known := fun x hx => h.known x (by rw [hq]; exact List.mem_cons_of_mem _ hx) }
      exact h'.handleG hm hcall hg hanon fuel (h.known (ev, p) (by rw [hq]; exact List.mem_cons_self)) p
    · exact ⟨rfl, h⟩

theorem Peers.receiveG (h : Peers M M' v v' R evs U c c') (fuel : Nat) {ev : EventTy} (hev : ev ∈ evs) (p : P) :
    Meet M M' v v' R evs U (M.receiveGR sem call fuel ev p c)
      (M'.receiveGR sem' call' fuel ev p c') := by
  unfold Machine.receiveGR
  refine (h.handleG hm hcall hg hanon fuel hev p).bind ?_
  rintro a _ c c' rfl h
  split
  · exact h.complain hm hcall hg ev a.2
  · exact h.replayG hm hcall hg hanon fuel

end

/-! ## Calls -/

theorem SemR.Good.seen {ok : Op P → Prop} (hg : sem.Good True ok) (v : StTy → StTy) : (sem.seen v).Good True ok :=
  ⟨fun _ _ _ _ => hg.guard _ _ _ _, fun _ _ _ _ => hg.action _ _ _ _, fun _ _ _ _ _ _ => hg.handler _ _ _ _ _ _⟩

theorem SemR.Good.akin {ok : Op P → Prop} (hg : sem.Good True ok) (v v' : StTy → StTy) :
    SemR.Akin v v' Eq ok (sem.seen v) (sem.seen v') where
  guard g a a' p w w' h e := by
    show (sem.guard g (a.seen v) p w).Kin _ _ (sem.guard g (a'.seen v') p w')
    rw [h, e]; exact (hg.guard _ _ _ _).kin
  action f a a' p w w' h e := by
    show (sem.action f (a.seen v) p w).Kin _ _ (sem.action f (a'.seen v') p w')
    rw [h, e]; exact (hg.action _ _ _ _).kin
  handler k e st st' d p w w' h hw := by
    show (sem.handler k e (v st) d p w).Kin _ _ (sem.handler k e (v' st') d p w')
    rw [h, hw]; exact (hg.handler _ _ _ _ _ _).kin
  alive st st' w w' h e := by
    show sem.alive (v st) w = sem.alive (v' st') w'
    rw [h, e]
  nonePayload := rfl

theorem CallOk.left {op : Op P} (h : CallOk M M' R op) : OpOk M op := by
  cases op with
  | process ev p => exact h
  | set r p st => exact h.1
  | setDependency d => trivial

theorem CallOk.right (hm : Likes M M' v v' R C C' M.events M'.events) {op : Op P} (h : CallOk M M' R op) :
    OpOk M' op := by
  cases op with
  | process ev p =>
    have := hm.events ev (by rw [M.events_eq]; exact h)
    rw [M'.events_eq] at this
    exact this
  | set r p st => exact h.2.1
  | setDependency d => trivial

theorem peers_fresh (hm : Likes M M' v v' R C C' evs evs') (d : Dep) (w : W) :
    Peers M M' v v' R evs Eq (M.fresh d w : Conf P W) (M'.fresh d w) where
  slots := by
    show RowByRow (Opt R.Has) (List.map _ _ ++ _) (List.map _ _ ++ _)
    have hs := hm.start
    have hl : (M.declaredInitials M.root).length = (M'.declaredInitials M'.root).length := by
      have := hs.length
      simpa [Machine.firsts] using this
    rw [hl, hm.room]
    refine RowByRow.append ?_ (RowByRow.replicate (show Opt R.Has none none from trivial) _)
    have := hs.map (T := Opt R.Has) (f := some) (g := some) fun a b h => h
    unfold Machine.firsts at this
    rw [List.map_map, List.map_map] at this
    exact this
  memory := fun hh p p' ho hp => hm.memory hh p p' ho hp
  active := by
    have := hm.start.length
    simpa [Machine.firsts, Machine.fresh] using this
  waiting := rfl
  known := fun _ hx => nomatch hx
  deps := rfl
  first := rfl
  world := rfl
  calls := rfl

/-- The calls `ok` allows are fine for both machines, concern the events `evs`, and set only locations
that are paired with themselves. -/
def Suits (M M' : Machine) (R : Pairing) (evs : List EventTy) (ok : Op P → Prop) : Prop :=
  ∀ op, ok op → OpOk M op ∧ OpOk M' op ∧
    match op with
    | .process ev _ => ev ∈ evs
    | .set _ p st => ((p, st), (p, st)) ∈ R
    | .setDependency _ => True

theorem callOk_suits (hm : Likes M M' v v' R C C' M.events M'.events) :
    Suits M M' R M.events (CallOk (P := P) M M' R) := by
  intro op h
  refine ⟨h.left, h.right hm, ?_⟩
  cases op with
  | process ev p => show ev ∈ M.events; rw [M.events_eq]; exact h
  | set r p st => exact h.2.2
  | setDependency d => trivial

theorem Peers.exec {ok : Op P → Prop} (hm : Likes M M' v v' R M.cands M'.cands evs evs')
    (hanon : M.anonymous = true → EventTy.none ∈ evs) (hok : Suits M M' R evs ok) (hg : sem.Good True ok)
    (fuel : Nat) : ∀ n : Nat,
    Chime M M' v v' R evs Eq ok (M.execR (sem.seen v) fuel n : _ → Conf P W → _) (M'.execR (sem.seen v') fuel n)
  | 0, _, _, _, _, _ => trivial
  | n + 1, op, hop, c, c', h => by
    unfold Machine.execR
    have hs := (hok op hop).2.2
    cases op with
    | process ev p => exact h.receive hm (Peers.exec hm hanon hok hg fuel n) (hg.akin v v') hanon fuel hs p
    | set r p st =>
      dsimp only
      by_cases hr : r % 256 < c.slots.length
      · rw [if_pos hr, if_pos ((h.slots.lt _).1 hr)]
        exact ⟨rfl, { h with slots := h.slots.set _ (show Opt R.Has (some _) (some _) from hs) }⟩
      · rw [if_neg hr, if_neg fun h' => hr ((h.slots.lt _).2 h')]
        exact ⟨rfl, h⟩
    | setDependency d => exact ⟨rfl, { h with deps := by show d :: c.deps = d :: c'.deps; rw [h.deps] }⟩

/-- The same for the amalgamated header, which has no `set`. -/
def SuitsG (M M' : Machine) (evs : List EventTy) (ok : Op P → Prop) : Prop :=
  ∀ op, ok op → OpOkGR M op ∧ OpOkGR M' op ∧ ∀ ev p, op = .process ev p → ev ∈ evs

theorem opOkGR_suits (hM : M.RegularG) (hM' : M'.RegularG)
    (hm : Likes M M' v v' R C C' M.eventsG M'.eventsG) : SuitsG M M' M.eventsG (OpOkGR (P := P) M) := by
  intro op ho
  refine ⟨ho, ?_, ?_⟩
  · cases op with
    | process ev p =>
      have := hm.events ev (by rw [Machine.eventsG_eq hM.laid]; exact ho)
      rw [Machine.eventsG_eq hM'.laid] at this
      exact this
    | set r p st => exact ho.elim
    | setDependency d => trivial
  · rintro ev p rfl
    rw [Machine.eventsG_eq hM.laid]
    exact ho

theorem Peers.execG {ok : Op P → Prop} (hm : Likes M M' v v' R M.candsG M'.candsG evs evs')
    (hanon : M.anonymous = true → EventTy.none ∈ evs) (hok : SuitsG M M' evs ok) (hg : sem.Good True ok)
    (fuel : Nat) : ∀ n : Nat,
    Chime M M' v v' R evs Eq ok (M.execGR (sem.seen v) fuel n : _ → Conf P W → _) (M'.execGR (sem.seen v') fuel n)
  | 0, _, _, _, _, _ => trivial
  | n + 1, op, hop, c, c', h => by
    unfold Machine.execGR
    have hs := (hok op hop).2.2
    cases op with
    | process ev p =>
      exact Res.Rel.bind (V := Eq)
        (h.receiveG hm (Peers.execG hm hanon hok hg fuel n) (hg.akin v v') hanon fuel (hs ev p rfl) p)
        fun _ _ c c' _ h => ⟨rfl, h⟩
    | set r p st => exact ((hok _ hop).1 : False).elim
    | setDependency d => exact ⟨rfl, { h with deps := by show d :: c.deps = d :: c'.deps; rw [h.deps] }⟩

/-! ## The property -/

theorem Peers.like {E E' : List Dep → EventTy → Name → StTy → List Entry} {es es' : List EventTy}
    {c c' : Conf P W} {s s' : SM P W} (h : Peers M M' v v' R evs Eq c c') (hc : Portrait M E es Eq c s)
    (hc' : Portrait M' E' es' Eq c' s') : Like v v' s s' ∧ Abreast M M' R s s' := by
  refine ⟨⟨by rw [hc.queue, hc'.queue, h.waiting], by rw [hc.world, hc'.world, h.world], ?_⟩, ?_, ?_⟩
  · have := h.calls
    rw [← hc.trace, ← hc'.trace, List.map_map, List.map_map] at this
    exact this
  · rw [hc.cur, hc'.cur, List.length_map, List.length_map, h.slots.length]
  · intro r k hk
    rw [hc.cur, List.getElem?_map] at hk
    rw [hc'.cur, List.getElem?_map]
    have hs := h.slots r
    cases ho : c.slots[r]? with
    | none => rw [ho] at hk; cases hk
    | some o =>
      cases o with
      | none => rw [ho] at hk; cases hk
      | some l =>
        rw [ho] at hk hs
        cases ho' : c'.slots[r]? with
        | none => rw [ho'] at hs; exact hs.elim
        | some o' =>
          rw [ho'] at hs
          cases o' with
          | none => exact hs.elim
          | some l' =>
            refine ⟨l, l', hs, ?_, rfl⟩
            simp only [Option.map_some, Option.some.injEq] at hk
            exact hk.symm

/-- Two models that agree with two interpreters that meet. -/
theorem Meet.carry {E E' : List Dep → EventTy → Name → StTy → List Entry} {es es' : List EventTy}
    {q : Res (SM P W) Bool} {q' : Res (SM P W) Bool} {o o' : Res (Conf P W) Bool}
    (h1 : AgreesOn M E es Eq Eq q o) (h2 : AgreesOn M' E' es' Eq Eq q' o') (h3 : Meet M M' v v' R evs Eq o o') :
    q.Rel Eq (fun s s' => ∃ c c', Portrait M E es Eq c s ∧ Portrait M' E' es' Eq c' s' ∧ Peers M M' v v' R evs Eq c c')
      q' := by
  revert h1 h2 h3
  cases q <;> cases o <;> intro h1 <;> first | exact h1.elim | skip
  all_goals
    cases q' <;> cases o' <;> intro h2 h3 <;> first | exact h2.elim | exact h3.elim | skip
  · exact ⟨h1.1.trans (h3.1.trans h2.1.symm), _, _, h1.2, h2.2, h3.2⟩
  · exact ⟨h1.1.trans (h3.1.trans h2.1.symm), _, _, h1.2, h2.2, h3.2⟩
  · exact (h1.trans (h3.trans h2.symm) : _ = _)
  · trivial

theorem Res.Rel.weaken {σ τ α β : Type} {V : α → β → Prop} {S S' : σ → τ → Prop} {q : Res σ α} {q' : Res τ β}
    (h : q.Rel V S q') (hS : ∀ s t, S s t → S' s t) : q.Rel V S' q' := by
  revert h
  cases q <;> cases q' <;> intro h <;> first | exact h.elim | exact ⟨h.1, hS _ _ h.2⟩ | exact h

section
variable {d : Dep} {ops : List (Op P)} {s : SM P W}

theorem RunToR.peers {ok : Op P → Prop} (hm : Likes M M' v v' R M.cands M'.cands evs evs')
    (hanon : M.anonymous = true → EventTy.none ∈ evs) (hok : Suits M M' R evs ok) (hM : M.Regular)
    (hM' : M'.Regular) (hC : M'.ScopesReal ∧ (M'.orthogonal = true → M'.declaredInitials M'.root ≠ []))
    (hg : sem.Good True ok) (hr : RunToR M (sem.seen v) d ops s) (hops : ∀ op ∈ ops, ok op) :
    ∃ s' c c', RunToR M' (sem.seen v') d ops s' ∧ Depicts M c s ∧ Depicts M' c' s' ∧
      Peers M M' v v' R evs Eq c c' := by
  have g1 : (sem.seen v).Good True (OpOk M) := (hg.seen v).weaken fun _ h => (hok _ h).1
  have g2 : (sem.seen v').Good True (OpOk M') := (hg.seen v').weaken fun _ h => (hok _ h).2.1
  have hS := (C83_reach hM g1 hr).1
  induction hr with
  | @init w s hs =>
    obtain ⟨s', hs'⟩ := (C06_construct (P := P) hM' d w).1.2 hC
    exact ⟨s', _, _, .init hs', C77_construct hM hs, C77_construct hM' hs', peers_fresh hm d w⟩
  | @ok s t ops op fuel n b hr hop hs ih =>
    obtain ⟨s', c, c', hr', hc, hc', hp⟩ := ih fun op h => hops op (List.mem_append_left _ h)
    have ho := hops op (List.mem_append_right _ List.mem_cons_self)
    have hk := Meet.carry (C83_step hc hM hS g1 fuel n hop) (C83_step hc' hM' hC.1 g2 fuel n (hok _ ho).2.1)
      (Peers.exec hm hanon hok hg fuel n op ho c c' hp)
    rw [hs] at hk
    cases hs' : stepR M' (sem.seen v') fuel n op s' with
    | ok b' t' =>
      rw [hs'] at hk
      obtain ⟨rfl, c, c', h1, h2, h3⟩ := hk
      exact ⟨t', c, c', .ok hr' (hok _ ho).2.1 hs', h1, h2, h3⟩
    | _ => rw [hs'] at hk; exact hk.elim
  | @throw s t ops op fuel n x hr hop hs ih =>
    obtain ⟨s', c, c', hr', hc, hc', hp⟩ := ih fun op h => hops op (List.mem_append_left _ h)
    have ho := hops op (List.mem_append_right _ List.mem_cons_self)
    have hk := Meet.carry (C83_step hc hM hS g1 fuel n hop) (C83_step hc' hM' hC.1 g2 fuel n (hok _ ho).2.1)
      (Peers.exec hm hanon hok hg fuel n op ho c c' hp)
    rw [hs] at hk
    cases hs' : stepR M' (sem.seen v') fuel n op s' with
    | throw x' t' =>
      rw [hs'] at hk
      obtain ⟨rfl, c, c', h1, h2, h3⟩ := hk
      exact ⟨t', c, c', .throw hr' (hok _ ho).2.1 hs', h1, h2, h3⟩
    | _ => rw [hs'] at hk; exact hk.elim
  | @world s ops _ w ih =>
    obtain ⟨s', c, c', hr', hc, hc', hp⟩ := ih hops
    exact ⟨_, { c with world := w }, { c' with world := w }, .world hr' w, { hc with world := rfl },
      { hc' with world := rfl }, { hp with world := rfl }⟩

theorem RunToR.beside {ok : Op P → Prop} (hm : Likes M M' v v' R M.cands M'.cands evs evs')
    (hanon : M.anonymous = true → EventTy.none ∈ evs) (hok : Suits M M' R evs ok) (hM : M.Regular)
    (hM' : M'.Regular) (hC : M'.ScopesReal ∧ (M'.orthogonal = true → M'.declaredInitials M'.root ≠ []))
    (hg : sem.Good True ok) (hr : RunToR M (sem.seen v) d ops s) (hops : ∀ op ∈ ops, ok op) :
    ∃ s', RunToR M' (sem.seen v') d ops s' ∧ Like v v' s s' ∧ Abreast M M' R s s' ∧
      ∀ (fuel n : Nat) (op : Op P), ok op → OpOk M' op ∧
        (stepR M (sem.seen v) fuel n op s).Rel Eq (fun t t' => Like v v' t t' ∧ Abreast M M' R t t')
          (stepR M' (sem.seen v') fuel n op s') := by
  have g1 : (sem.seen v).Good True (OpOk M) := (hg.seen v).weaken fun _ h => (hok _ h).1
  have g2 : (sem.seen v').Good True (OpOk M') := (hg.seen v').weaken fun _ h => (hok _ h).2.1
  have hS := (C83_reach hM g1 hr).1
  obtain ⟨s', c, c', hr', hc, hc', hp⟩ := hr.peers hm hanon hok hM hM' hC hg hops
  obtain ⟨k1, k2⟩ := hp.like hc hc'
  refine ⟨s', hr', k1, k2, fun fuel n op ho => ⟨(hok _ ho).2.1, ?_⟩⟩
  refine (Meet.carry (C83_step hc hM hS g1 fuel n (hok _ ho).1)
    (C83_step hc' hM' hC.1 g2 fuel n (hok _ ho).2.1) (Peers.exec hm hanon hok hg fuel n op ho c c' hp)).weaken ?_
  rintro s s' ⟨c, c', h1, h2, h3⟩
  exact h3.like h1 h2

/-- C112: if the check accepts two machines, then whatever a client has done with the one, also from
inside its callbacks, it can have done with the other, with the same callbacks called in the same order
with arguments it sees as the same, the same effects, the same events waiting, and the regions at
paired locations; and the next call has the same outcome on both, to any depth of calls from inside. -/
theorem C112_same (h : M.likeM M' v v' R = true) (hM : M.Regular) (hM' : M'.Regular)
    (hC : M'.ScopesReal ∧ (M'.orthogonal = true → M'.declaredInitials M'.root ≠ []))
    (hg : sem.Good True (CallOk M M' R)) (hr : RunToR M (sem.seen v) d ops s)
    (hops : ∀ op ∈ ops, CallOk M M' R op) :
    ∃ s', RunToR M' (sem.seen v') d ops s' ∧ Like v v' s s' ∧ Abreast M M' R s s' ∧
      ∀ (fuel n : Nat) (op : Op P), CallOk M M' R op → OpOk M' op ∧
        (stepR M (sem.seen v) fuel n op s).Rel Eq (fun t t' => Like v v' t t' ∧ Abreast M M' R t t')
          (stepR M' (sem.seen v') fuel n op s') :=
  have hm := Machine.like_iff h
  hr.beside hm Machine.none_event (callOk_suits hm) hM hM' hC hg hops

theorem RunToGR.opsOk (h : RunToGR M sem d ops s) : ∀ op ∈ ops, OpOkGR M op := by
  induction h with
  | init => intro op h; cases h
  | ok _ hop _ ih | throw _ hop _ ih =>
    intro op h
    rcases List.mem_append.1 h with h | h
    · exact ih op h
    · cases List.mem_singleton.1 h; exact hop
  | world _ _ ih => exact ih

theorem RunToGR.peers {ok : Op P → Prop} (hm : Likes M M' v v' R M.candsG M'.candsG evs evs')
    (hanon : M.anonymous = true → EventTy.none ∈ evs) (hok : SuitsG M M' evs ok) (hM : M.RegularG)
    (hM' : M'.RegularG) (hC : M'.ScopesRealG ∧ (M'.orthogonal = true → M'.declaredInitials M'.root ≠ []))
    (hg : sem.Good True ok) (hr : RunToGR M (sem.seen v) d ops s) (hops : ∀ op ∈ ops, ok op) :
    ∃ s' c c', RunToGR M' (sem.seen v') d ops s' ∧ DepictsG M c s ∧ DepictsG M' c' s' ∧
      Peers M M' v v' R evs Eq c c' := by
  have g1 : (sem.seen v).Good True (OpOkGR M) := (hg.seen v).weaken fun _ h => (hok _ h).1
  have g2 : (sem.seen v').Good True (OpOkGR M') := (hg.seen v').weaken fun _ h => (hok _ h).2.1
  have hS := (C97_reach hM g1 hr).1
  induction hr with
  | @init w s hs =>
    obtain ⟨s', hs'⟩ := (C82_construct (P := P) hM' d w).1.2 hC
    exact ⟨s', _, _, .init hs', (C82_construct hM d w).2.2 s hs, (C82_construct hM' d w).2.2 s' hs',
      peers_fresh hm d w⟩
  | @ok s t ops op fuel n b hr hop hs ih =>
    obtain ⟨s', c, c', hr', hc, hc', hp⟩ := ih fun op h => hops op (List.mem_append_left _ h)
    have ho := hops op (List.mem_append_right _ List.mem_cons_self)
    have hk := Meet.carry (C97_step hc hM hS g1 fuel n hop) (C97_step hc' hM' hC.1 g2 fuel n (hok _ ho).2.1)
      (Peers.execG hm hanon hok hg fuel n op ho c c' hp)
    rw [hs] at hk
    cases hs' : stepGR M' (sem.seen v') fuel n op s' with
    | ok b' t' =>
      rw [hs'] at hk
      obtain ⟨rfl, c, c', h1, h2, h3⟩ := hk
      exact ⟨t', c, c', .ok hr' (hok _ ho).2.1 hs', h1, h2, h3⟩
    | _ => rw [hs'] at hk; exact hk.elim
  | @throw s t ops op fuel n x hr hop hs ih =>
    obtain ⟨s', c, c', hr', hc, hc', hp⟩ := ih fun op h => hops op (List.mem_append_left _ h)
    have ho := hops op (List.mem_append_right _ List.mem_cons_self)
    have hk := Meet.carry (C97_step hc hM hS g1 fuel n hop) (C97_step hc' hM' hC.1 g2 fuel n (hok _ ho).2.1)
      (Peers.execG hm hanon hok hg fuel n op ho c c' hp)
    rw [hs] at hk
    cases hs' : stepGR M' (sem.seen v') fuel n op s' with
    | throw x' t' =>
      rw [hs'] at hk
      obtain ⟨rfl, c, c', h1, h2, h3⟩ := hk
      exact ⟨t', c, c', .throw hr' (hok _ ho).2.1 hs', h1, h2, h3⟩
    | _ => rw [hs'] at hk; exact hk.elim
  | @world s ops _ w ih =>
    obtain ⟨s', c, c', hr', hc, hc', hp⟩ := ih hops
    exact ⟨_, { c with world := w }, { c' with world := w }, .world hr' w, { hc with world := rfl },
      { hc' with world := rfl }, { hp with world := rfl }⟩

theorem RunToGR.beside {ok : Op P → Prop} (hm : Likes M M' v v' R M.candsG M'.candsG evs evs')
    (hanon : M.anonymous = true → EventTy.none ∈ evs) (hok : SuitsG M M' evs ok) (hM : M.RegularG)
    (hM' : M'.RegularG) (hC : M'.ScopesRealG ∧ (M'.orthogonal = true → M'.declaredInitials M'.root ≠ []))
    (hg : sem.Good True ok) (hr : RunToGR M (sem.seen v) d ops s) (hops : ∀ op ∈ ops, ok op) :
    ∃ s', RunToGR M' (sem.seen v') d ops s' ∧ Like v v' s s' ∧ Abreast M M' R s s' ∧
      ∀ (fuel n : Nat) (op : Op P), ok op → OpOkGR M' op ∧
        (stepGR M (sem.seen v) fuel n op s).Rel Eq (fun t t' => Like v v' t t' ∧ Abreast M M' R t t')
          (stepGR M' (sem.seen v') fuel n op s') := by
  have g1 : (sem.seen v).Good True (OpOkGR M) := (hg.seen v).weaken fun _ h => (hok _ h).1
  have g2 : (sem.seen v').Good True (OpOkGR M') := (hg.seen v').weaken fun _ h => (hok _ h).2.1
  have hS := (C97_reach hM g1 hr).1
  obtain ⟨s', c, c', hr', hc, hc', hp⟩ := hr.peers hm hanon hok hM hM' hC hg hops
  obtain ⟨k1, k2⟩ := hp.like hc hc'
  refine ⟨s', hr', k1, k2, fun fuel n op ho => ⟨(hok _ ho).2.1, ?_⟩⟩
  refine (Meet.carry (C97_step hc hM hS g1 fuel n (hok _ ho).1)
    (C97_step hc' hM' hC.1 g2 fuel n (hok _ ho).2.1) (Peers.execG hm hanon hok hg fuel n op ho c c' hp)).weaken ?_
  rintro s s' ⟨c, c', h1, h2, h3⟩
  exact h3.like h1 h2

/-- C113: the same for the amalgamated header. -/
theorem C113_same (h : M.likeG M' v v' R = true) (hM : M.RegularG) (hM' : M'.RegularG)
    (hC : M'.ScopesRealG ∧ (M'.orthogonal = true → M'.declaredInitials M'.root ≠ []))
    (hg : sem.Good True (OpOkGR M)) (hr : RunToGR M (sem.seen v) d ops s) :
    ∃ s', RunToGR M' (sem.seen v') d ops s' ∧ Like v v' s s' ∧ Abreast M M' R s s' ∧
      ∀ (fuel n : Nat) (op : Op P), OpOkGR M op → OpOkGR M' op ∧
        (stepGR M (sem.seen v) fuel n op s).Rel Eq (fun t t' => Like v v' t t' ∧ Abreast M M' R t t')
          (stepGR M' (sem.seen v') fuel n op s') :=
  have hm := Machine.like_iff h
  hr.beside hm Machine.none_eventG (opOkGR_suits hM hM' hm) hM hM' hC hg hr.opsOk

/-- C112, for machines with the same states: no client at all sees a difference. -/
theorem C112_same_states (h : M.likeM M' id id R = true) (hM : M.Regular) (hM' : M'.Regular)
    (hC : M'.ScopesReal ∧ (M'.orthogonal = true → M'.declaredInitials M'.root ≠ []))
    (hg : sem.Good True (CallOk M M' R)) (hr : RunToR M sem d ops s)
    (hops : ∀ op ∈ ops, CallOk M M' R op) :
    ∃ s', RunToR M' sem d ops s' ∧ s.queue = s'.queue ∧ s.world = s'.world ∧
      s.trace.map Call.bare = s'.trace.map Call.bare ∧
      ∀ (fuel n : Nat) (op : Op P), CallOk M M' R op →
        match stepR M sem fuel n op s, stepR M' sem fuel n op s' with
        | .ok b t, .ok b' t' => b = b' ∧ t.queue = t'.queue ∧ t.world = t'.world ∧
            t.trace.map Call.bare = t'.trace.map Call.bare
        | .throw x t, .throw x' t' => x = x' ∧ t.queue = t'.queue ∧ t.world = t'.world ∧
            t.trace.map Call.bare = t'.trace.map Call.bare
        | .ub u, .ub u' => u = u'
        | .timeout, .timeout => True
        | _, _ => False := by
  have hid : ∀ k : Call P, k.seen id = k := by intro k; cases k <;> rfl
  have like : ∀ {s s' : SM P W}, Like id id s s' →
      s.queue = s'.queue ∧ s.world = s'.world ∧ s.trace.map Call.bare = s'.trace.map Call.bare := by
    intro s s' h
    have := h.trace
    simp only [hid] at this
    exact ⟨h.queue, h.world, this⟩
  obtain ⟨s', h1, h2, -, h4⟩ := C112_same (sem := sem) h hM hM' hC hg hr hops
  refine ⟨s', h1, (like h2).1, (like h2).2.1, (like h2).2.2, fun fuel n op ho => ?_⟩
  have h5 := (h4 fuel n op ho).2
  change (stepR M sem fuel n op s).Rel Eq _ (stepR M' sem fuel n op s') at h5
  revert h5
  cases stepR M sem fuel n op s <;> cases stepR M' sem fuel n op s' <;> intro h5 <;>
    first
    | exact h5.elim
    | exact ⟨h5.1, like h5.2.1⟩
    | exact h5

end

/-! ## Examples -/

namespace Ex

/-- The pairs of locations of two machines, for the modular and for the amalgamated header. -/
def locsM (M M' : Machine) (n : Nat) : Pairing := M.pairLocs M' M.cands M'.cands M.events n
def locsG (M M' : Machine) (n : Nat) : Pairing := M.pairLocs M' M.candsG M'.candsG M.eventsG n

theorem lamp_likeM : lamp.likeM lampFlat blind blind (locsM lamp lampFlat 4) = true := by decide +kernel
theorem lamp_likeG : lamp.likeG lampFlat blind blind (locsG lamp lampFlat 4) = true := by decide +kernel

theorem lamp_regularG : lamp.RegularG := Machine.regularG_ofList (by decide +kernel)
theorem lampFlat_regularG : lampFlat.RegularG := Machine.regularG_ofList (by decide +kernel)

/-- A client that makes the lamp shine brightly as soon as it is switched on. -/
def keen : SemR Nat (List Nat) := semR (fun _ => true) never (only 1 [.process (ev 1) 5])

theorem keen_good : keen.Good True (CallOk lamp lampFlat (locsM lamp lampFlat 4)) :=
  semR_good never_all (only_all fun op h => by
    rw [List.mem_singleton.1 h]
    show ev 1 ∈ lamp.eventIds
    decide +kernel)

theorem keen_goodG : keen.Good True (OpOkGR lamp) :=
  semR_good never_all (only_all fun op h => by
    rw [List.mem_singleton.1 h]
    show ev 1 ∈ lamp.eventIdsG
    decide +kernel)

/-- It sees no difference between the nested lamp and the flat one. -/
example : ∃ s s', RunToR lamp keen 7 [.process (ev 0) 1, .process (ev 1) 2, .process (ev 0) 3] s ∧
    s.world = [10, 1, 3, 4, 2] ∧
    RunToR lampFlat keen 7 [.process (ev 0) 1, .process (ev 1) 2, .process (ev 0) 3] s' ∧
    Like blind blind s s' ∧ Abreast lamp lampFlat (locsM lamp lampFlat 4) s s' := by
  obtain ⟨s, h, hs⟩ := exists_runR lamp keen (fuel := 5) (n := 3) (d := 7) (w := [])
    (ops := [.process (ev 0) 1, .process (ev 1) 2, .process (ev 0) 3])
    (f := fun s => decide (s.world = [10, 1, 3, 4, 2])) (by decide +kernel)
  obtain ⟨s', h1, h2, h3, -⟩ := C112_same (sem := keen) lamp_likeM lamp_regular lampFlat_regular
    ⟨(Machine.scopesReal_iff lampFlat_regular).2 ⟨lampFlat_scoped.src, lampFlat_scoped.comp⟩,
      fun h => absurd h (by decide +kernel)⟩ keen_good h (by
      intro op hop
      simp only [List.mem_cons, List.not_mem_nil, or_false] at hop
      rcases hop with rfl | rfl | rfl
      · exact (by decide +kernel : ev 0 ∈ lamp.eventIds)
      · exact (by decide +kernel : ev 1 ∈ lamp.eventIds)
      · exact (by decide +kernel : ev 0 ∈ lamp.eventIds))
  exact ⟨s, s', h, of_decide_eq_true hs, h1, h2, h3⟩

/-- Nor does it for the amalgamated header. -/
example : ∃ s s', RunToGR lamp keen 7 [.process (ev 0) 1, .process (ev 1) 2, .process (ev 0) 3] s ∧
    s.world = [10, 1, 3, 4, 2] ∧
    RunToGR lampFlat keen 7 [.process (ev 0) 1, .process (ev 1) 2, .process (ev 0) 3] s' ∧
    Like blind blind s s' ∧ Abreast lamp lampFlat (locsG lamp lampFlat 4) s s' := by
  obtain ⟨s, h, hs⟩ := exists_runGR lamp keen (fuel := 5) (n := 3) (d := 7) (w := [])
    (ops := [.process (ev 0) 1, .process (ev 1) 2, .process (ev 0) 3])
    (f := fun s => decide (s.world = [10, 1, 3, 4, 2])) (by decide +kernel)
  obtain ⟨s', h1, h2, h3, -⟩ := C113_same (sem := keen) lamp_likeG lamp_regularG lampFlat_regularG
    (builtG lampFlat_regularG (by decide +kernel)) keen_goodG h
  exact ⟨s, s', h, of_decide_eq_true hs, h1, h2, h3⟩

/-- The machine with history and its padded version (C85), for all clients. -/
theorem demo_likeM : demo.likeM demoPadded id id (locsM demo demoPadded 6) = true := by decide +kernel

/-- No client sees that the rows were rearranged, also if its callbacks use the machine; it may even set
the state, say to `CB`. -/
example {sem : SemR P W} {d : Dep} {ops : List (Op P)} {s : SM P W}
    (hg : sem.Good True (CallOk demo demoPadded (locsM demo demoPadded 6))) (hr : RunToR demo sem d ops s)
    (hops : ∀ op ∈ ops, CallOk demo demoPadded (locsM demo demoPadded 6) op) :
    CallOk (P := P) demo demoPadded (locsM demo demoPadded 6) (.set 0 Comp (.st CB)) ∧
    ∃ s', RunToR demoPadded sem d ops s' ∧ s.queue = s'.queue ∧ s.world = s'.world ∧
      s.trace.map Call.bare = s'.trace.map Call.bare := by
  obtain ⟨s', h1, h2, h3, h4, -⟩ := C112_same_states demo_likeM demo_regular demoPadded_regular
    ⟨(Machine.scopesReal_iff demoPadded_regular).2 ⟨demoPadded_scoped.src, demoPadded_scoped.comp⟩,
      fun h => absurd h (by decide +kernel)⟩ hg hr hops
  exact ⟨by show (_ ∧ _) ∧ (_ ∧ _) ∧ _; decide +kernel, s', h1, h2, h3, h4⟩

/-- In `pocket`, state 1 is a composite with the states 3 and 4 that is left only from 3; event 3 goes
back to where it was. -/
def pocketDecls (back : Row) : List Decl :=
  [ { table := some
        [ row (ini 2) (ev 2) none none (.st 1),
          row (.ps false (.exit 1 3)) (ev 0) (some 100) (some 1) (.st 2), back ] },
    { table := some [ row (ini 3) (ev 1) none none (.st 4), row (.st 4) (ev 4) none (some 7) (.st 3) ] },
    {}, {}, {} ]

def pocket : Machine := .ofList (pocketDecls (row (.st 2) (ev 3) none none (.ps true (.history 1)))) [1]

/-- Since that is always 3, event 3 may as well enter the composite. -/
def pocketFlat : Machine := .ofList (pocketDecls (row (.st 2) (ev 3) none none (.st 1))) [1]

/-- A client whose guard sends event 1. -/
def sly : SemR Nat (List Nat) := semR (fun _ => true) (only 100 [.process (ev 1) 5]) never

theorem pocket_regular : pocket.Regular := Machine.regular_ofList (by decide +kernel)
theorem pocketFlat_regular : pocketFlat.Regular := Machine.regular_ofList (by decide +kernel)

end Ex

section
open Ex

/-- The check of C85 is not enough for clients whose callbacks use the machine.  It accepts `pocket` and
`pocketFlat`; but if the guard of the row out of the composite sends an event that takes the composite to
its other state, then that is the state it remembers. -/
theorem C112_needed : ∃ (M M' : Machine) (R : List (Spot × Spot)) (sem : SemR Nat (List Nat)) (d : Dep)
    (ops : List (Op Nat)) (s s' : SM Nat (List Nat)), M.Regular ∧ M'.Regular ∧ M.same M' id id R = true ∧
      sem.Good True (CallOk M M' []) ∧ RunToR M sem d ops s ∧ RunToR M' sem d ops s' ∧
      s.trace.length ≠ s'.trace.length := by
  obtain ⟨s, h, hs⟩ := exists_runR pocket sly (fuel := 5) (n := 3) (d := 7) (w := [])
    (ops := [.process (ev 2) 0, .process (ev 0) 0, .process (ev 3) 0, .process (ev 4) 0])
    (f := fun s => decide (s.trace.length = 3)) (by decide +kernel)
  obtain ⟨s', h', hs'⟩ := exists_runR pocketFlat sly (fuel := 5) (n := 3) (d := 7) (w := [])
    (ops := [.process (ev 2) 0, .process (ev 0) 0, .process (ev 3) 0, .process (ev 4) 0])
    (f := fun s => decide (s.trace.length = 2)) (by decide +kernel)
  refine ⟨pocket, pocketFlat, pocket.pairUp pocketFlat 6, sly, 7, _, s, s', pocket_regular, pocketFlat_regular,
    by decide +kernel, semR_good (only_all fun op h => ?_) never_all, h, h', ?_⟩
  · rw [List.mem_singleton.1 h]
    show ev 1 ∈ pocket.eventIds
    decide +kernel
  · rw [of_decide_eq_true hs, of_decide_eq_true hs']
    decide

end

end Hsm
