import Verif.Match
import Verif.PropsChecker

/-!
# C85: two machines no client can tell apart
-/

namespace Hsm

variable {P W : Type} {M M' : Machine} {v v' : StTy → StTy} {R : List (Spot × Spot)} {sem : Sem P W}

/-! ## Small facts -/

namespace Machine

/-- The dependency the handler is bound to stays. -/
def Binds {α : Type} (c : Conf P W) (q : Res (Conf P W) α) : Prop :=
  ∀ a c', q = .ok a c' → c'.first = c.first

theorem Binds.bind {α β : Type} {c : Conf P W} {q : Res (Conf P W) α}
    {f : α → Conf P W → Res (Conf P W) β} (hq : Binds c q) (hf : ∀ a c', Binds c' (f a c')) :
    Binds c (q.bind f) := by
  intro b d h
  cases q with
  | ok a c' => exact (hf a c' b d h).trans (hq a c' rfl)
  | _ => cases h

theorem binds_seek (r : Nat) (c : Conf P W) : Binds c (seek r c) := by
  intro a d h
  unfold seek at h
  split at h <;> cases h
  rfl

theorem binds_put (r : Nat) (l : Name × StTy) (c : Conf P W) : Binds c (put r l c) := by
  intro a d h
  unfold put at h
  split at h <;> cases h
  rfl

theorem binds_recount (c : Conf P W) : Binds c (M.recount c) := by
  unfold recount
  split
  · refine (binds_seek 0 c).bind fun l c a d h => ?_
    split at h <;> cases h
    rfl
  · intro a d h; cases h; rfl

theorem travel_first (r : Nat) (t : XRow) (l : Name × StTy) (c : Conf P W) :
    Binds c (M.travel r t l c) := by
  unfold travel
  split
  · intro a d h; cases h; rfl
  split
  · refine Binds.bind ?_ fun _ c => Binds.bind ?_ fun _ c => binds_recount c
    · unfold remember
      refine (binds_seek 0 c).bind fun l0 c => (binds_seek r c).bind fun l c a d h => ?_
      split at h <;> cases h
      rfl
    · split
      · refine Binds.bind ?_ fun l c => binds_put r l c
        intro a d h
        unfold recall at h
        split at h
        · split at h <;> cases h
          rfl
        · cases h
      · exact binds_put r l c
  · exact (binds_put r l c).bind fun _ c => binds_recount c

end Machine

/-! ## Configurations -/

/-- Configurations the client cannot tell apart. -/
structure Twins (M M' : Machine) (v v' : StTy → StTy) (R : List (Spot × Spot)) (c c' : Conf P W) :
    Prop where
  spots : (M.sight c, M'.sight c') ∈ R
  waiting : c.waiting = c'.waiting
  known : ∀ x ∈ c.waiting, x.1 ∈ M.events
  deps : c.deps = c'.deps
  first : c.first = c'.first
  world : c.world = c'.world
  calls : c.calls.map (Call.seen v) = c'.calls.map (Call.seen v')

/-- The same outcome. -/
abbrev Both {α : Type} (M M' : Machine) (v v' : StTy → StTy) (R : List (Spot × Spot))
    (q q' : Res (Conf P W) α) : Prop :=
  q.Rel Eq (Twins M M' v v' R) q'

/-- What `Machine.same` checks. -/
structure Matches (M M' : Machine) (v v' : StTy → StTy) (R : List (Spot × Spot)) : Prop where
  orthogonal : M.orthogonal = M'.orthogonal
  anonymous : M.anonymous = M'.anonymous
  deferring : M.deferring = M'.deferring
  handler : (M.decl M.root).handler = (M'.decl M'.root).handler
  events : ∀ ev ∈ M.events, ev ∈ M'.events
  start : (M.start, M'.start) ∈ R
  active : ∀ x ∈ R, M.orthogonal = true → x.1.active = x.2.active
  visit : ∀ x ∈ R, ∀ r, (M.orthogonal = true ∨ r = 0) → ∀ ev ∈ M.events,
    M.sameVisit M' v v' R r ev x.1 x.2 = true
  complaint : (M.decl M.root).handler ≠ none → ∀ x ∈ R, M.sameComplaint M' v v' x.1 x.2 = true

theorem Machine.same_iff (h : M.same M' v v' R = true) : Matches M M' v v' R := by
  unfold same at h
  simp only [Bool.and_eq_true, decide_eq_true_eq, List.all_eq_true] at h
  obtain ⟨⟨⟨⟨⟨⟨h1, h2⟩, h3⟩, h4⟩, h5⟩, h6⟩, h7⟩ := h
  have key : ∀ x ∈ R, (M.orthogonal = true → x.1.active = x.2.active) ∧
      (∀ r, r < (if M.orthogonal then max x.1.slots.length x.2.slots.length else 1) → ∀ ev ∈ M.events,
        M.sameVisit M' v v' R r ev x.1 x.2 = true) ∧
      ((M.decl M.root).handler ≠ none → M.sameComplaint M' v v' x.1 x.2 = true) := by
    intro x hx
    have := h7 x hx
    unfold sameSpot at this
    simp only [Bool.and_eq_true, Bool.or_eq_true, Bool.not_eq_true', decide_eq_true_eq, List.all_eq_true,
      List.mem_range] at this
    refine ⟨fun ho => this.1.1.resolve_left (by rw [ho]; decide), this.1.2, fun hh => this.2.resolve_left ?_⟩
    intro hn
    exact hh (Option.isNone_iff_eq_none.1 hn)
  refine ⟨h1, h2, h3, h4, h5, h6, fun x hx => (key x hx).1, ?_, fun hh x hx => (key x hx).2.2 hh⟩
  intro x hx r hr ev hev
  rcases hr with ho | rfl
  · by_cases hl : r < max x.1.slots.length x.2.slots.length
    · exact (key x hx).2.1 r (by rw [if_pos ho]; exact hl) ev hev
    · unfold sameVisit
      rw [List.getElem?_eq_none (by omega), List.getElem?_eq_none (by omega)]
  · by_cases hl : 0 < (if M.orthogonal then max x.1.slots.length x.2.slots.length else 1)
    · exact (key x hx).2.1 0 hl ev hev
    · split at hl
      · unfold sameVisit
        rw [List.getElem?_eq_none (by omega), List.getElem?_eq_none (by omega)]
      · omega

/-! ## The steps -/

section
variable {c c' : Conf P W}

theorem Twins.note (h : Twins M M' v v' R c c') {k k' : Call P} (hk : k.seen v = k'.seen v') (w : W) :
    Twins M M' v v' R { c with world := w, calls := c.calls ++ [k] }
      { c' with world := w, calls := c'.calls ++ [k'] } :=
  { h with world := rfl, calls := by simp only [List.map_append, h.calls, List.map_cons, hk, List.map_nil] }

theorem Twins.travel (h : Twins M M' v v' R c c') (r : Nat) {t t' : XRow} {l l' : Name × StTy}
    (ht : (match M.mayTravel r t l (M.sight c), M'.mayTravel r t' l' (M'.sight c') with
      | .ok _ m, .ok _ m' => decide ((m, m') ∈ R)
      | .ub u, .ub u' => decide (u = u')
      | _, _ => false) = true) :
    Both M M' v v' R (M.travel r t l c) (M'.travel r t' l' c') := by
  have h1 := Machine.travel_sight (M := M) r t l c
  have h2 := Machine.travel_sight (M := M') r t' l' c'
  have f1 := Machine.travel_first (M := M) r t l c
  have f2 := Machine.travel_first (M := M') r t' l' c'
  revert h1 h2 f1 f2
  cases M.travel r t l c with
  | ok a d =>
    cases M'.travel r t' l' c' with
    | ok a' d' =>
      rintro ⟨e1, w1, p1, q1, k1⟩ ⟨e2, w2, p2, q2, k2⟩ f1 f2
      rw [e1, e2] at ht
      refine ⟨rfl, of_decide_eq_true ht, by rw [w1, w2, h.waiting], by rw [w1]; exact h.known,
        by rw [p1, p2, h.deps], (f1 _ _ rfl).trans (h.first.trans (f2 _ _ rfl).symm), by rw [q1, q2, h.world],
        by rw [k1, k2, h.calls]⟩
    | ub u => rintro ⟨e1, _⟩ e2 _ _; rw [e1, e2] at ht; cases ht
    | throw x s => intro _ e2; exact e2.elim
    | timeout => intro _ e2; exact e2.elim
  | ub u =>
    cases M'.travel r t' l' c' with
    | ok a' d' => rintro e1 ⟨e2, _⟩ _ _; rw [e1, e2] at ht; cases ht
    | ub u => intro e1 e2 _ _; rw [e1, e2] at ht; exact (of_decide_eq_true ht : _ = _)
    | throw x s => intro _ e2; exact e2.elim
    | timeout => intro _ e2; exact e2.elim
  | throw x s => intro e; exact e.elim
  | timeout => intro e; exact e.elim

theorem Twins.present (h : Twins M M' v v' R c c') {st st' : StTy} (hv : v st = v' st')
    (hm : M.selfMade st = M'.selfMade st') :
    M.present (sem.seen v) st c = M'.present (sem.seen v') st' c' := by
  unfold Machine.present
  rw [hm]
  show (_ || sem.alive (v st) c.world) = (_ || sem.alive (v' st') c'.world)
  rw [hv, h.world]

theorem Twins.ask (h : Twins M M' v v' R c c') {ev : EventTy} (d : Dep) {cd cd' : Cand} {t t' : XRow}
    {l l' : Name × StTy} (ha : M.asks v ev cd t l = M'.asks v' ev cd' t' l') (p : P) :
    Both M M' v v' R (M.ask (sem.seen v) ev d cd t l p c) (M'.ask (sem.seen v') ev d cd' t' l' p c') := by
  unfold Machine.asks at ha
  unfold Machine.ask
  cases hg : t.guard with
  | none =>
    cases hg' : t'.guard with
    | none => exact ⟨rfl, h⟩
    | some g' => rw [hg, hg'] at ha; cases ha
  | some g =>
    cases hg' : t'.guard with
    | none => rw [hg, hg'] at ha; cases ha
    | some g' =>
      rw [hg, hg'] at ha
      simp only [Option.map_some, Option.some.injEq, Prod.mk.injEq] at ha
      obtain ⟨rfl, hs, h1, h2⟩ := ha
      dsimp only
      generalize hx : (if t.internal = true then cd.src else l.2) = x at hs h2 ⊢
      generalize hx' : (if t'.internal = true then cd'.src else l'.2) = x' at hs h2 ⊢
      have e1 : v cd.src = v' cd'.src := congrArg Args.src hs
      have e2 : v x = v' x' := congrArg Args.dst hs
      rw [h.present e1 h1, h.present e2 h2]
      have hs' : Args.seen v ⟨ev, cd.src, x, false, d⟩ = Args.seen v' ⟨ev, cd'.src, x', false, d⟩ := by
        unfold Args.seen; dsimp only; rw [e1, e2]
      split
      · have hq : (sem.seen v).guard g ⟨ev, cd.src, x, false, d⟩ p c.world =
            (sem.seen v').guard g ⟨ev, cd'.src, x', false, d⟩ p c'.world := by
          show sem.guard g (Args.seen v _) p _ = sem.guard g (Args.seen v' _) p _
          rw [hs', h.world]
        rw [hq]
        cases (sem.seen v').guard g ⟨ev, cd'.src, x', false, d⟩ p c'.world with
        | ok b p' w => exact ⟨rfl, h.note (by unfold Call.seen; dsimp only; rw [hs']) w⟩
        | throw k q w => exact ⟨rfl, h.note (by unfold Call.seen; dsimp only; rw [hs']) w⟩
        | ub => rfl
      · rfl

theorem Twins.perform {args args' : Args} (ha : args.seen v = args'.seen v') :
    ∀ (cs : List (Phase × Cb)) (p : P) {c c' : Conf P W}, Twins M M' v v' R c c' →
      Both M M' v v' R (Machine.perform (sem.seen v) args cs p c)
        (Machine.perform (sem.seen v') args' cs p c')
  | [], _, _, _, h => ⟨rfl, h⟩
  | (ph, a) :: cs, p, c, c', h => by
    unfold Machine.perform
    have hq : (sem.seen v).action a args p c.world = (sem.seen v').action a args' p c'.world := by
      show sem.action a (args.seen v) p _ = sem.action a (args'.seen v') p _
      rw [ha, h.world]
    rw [hq]
    cases (sem.seen v').action a args' p c'.world with
    | ok b p' w => exact Twins.perform ha cs p' (h.note (by unfold Call.seen; dsimp only; rw [ha]) w)
    | throw k q w => exact ⟨rfl, h.note (by unfold Call.seen; dsimp only; rw [ha]) w⟩
    | ub => rfl

theorem Twins.take (h : Twins M M' v v' R c c') (r : Nat) {ev : EventTy} (d : Dep) {cd cd' : Cand}
    {t t' : XRow} {l l' : Name × StTy} (hc : M.calls v ev cd t l = M'.calls v' ev cd' t' l')
    (ht : (match M.mayTravel r t l (M.sight c), M'.mayTravel r t' l' (M'.sight c') with
      | .ok _ m, .ok _ m' => decide ((m, m') ∈ R)
      | .ub u, .ub u' => decide (u = u')
      | _, _ => false) = true) (p : P) :
    Both M M' v v' R (M.take (sem.seen v) r ev d cd t l p c) (M'.take (sem.seen v') r ev d cd' t' l' p c') := by
  unfold Machine.take
  refine (h.travel r ht).bind ?_
  intro _ _ c c' _ h
  unfold Machine.calls at hc
  cases hr : M.toRun t with
  | none =>
    cases hr' : M'.toRun t' with
    | none => exact ⟨rfl, h⟩
    | some cs' => rw [hr, hr'] at hc; cases hc
  | some cs =>
    cases hr' : M'.toRun t' with
    | none => rw [hr, hr'] at hc; cases hc
    | some cs' =>
      rw [hr, hr'] at hc
      simp only [Option.map_some, Option.some.injEq, Prod.mk.injEq] at hc
      obtain ⟨rfl, hs, hm⟩ := hc
      dsimp only
      rw [h.present (show v cd.src = v' cd'.src from congrArg Args.src hs) hm]
      split
      · refine Twins.perform ?_ cs p h
        have : ∀ (M : Machine) (v : StTy → StTy) (cd : Cand) (t : XRow) (l : Name × StTy),
            (cbArgs M cd t l ev d).seen v = { (cbArgs M cd t l ev 0).seen v with dep := d } :=
          fun _ _ _ _ _ => rfl
        rw [this, this, hs]
      · rfl

/-! ## Candidates -/

/-- The check, for candidates with their dependencies. -/
def SameTries (M M' : Machine) (v v' : StTy → StTy) (R : List (Spot × Spot)) (r : Nat) (ev : EventTy)
    (n n' : Spot) : List (Dep × Cand) → List (Dep × Cand) → Prop
  | [], [] => True
  | x :: xs, x' :: xs' => x.1 = x'.1 ∧ M.sameCand M' v v' R r ev n n' x.2 x'.2 = true ∧
      (Machine.final x.2 = true ∨ SameTries M M' v v' R r ev n n' xs xs')
  | _, _ => False

theorem sameTries_map {r : Nat} {ev : EventTy} {n n' : Spot} (d : Dep) {ys ys' : List (Dep × Cand)}
    (hy : SameTries M M' v v' R r ev n n' ys ys') : ∀ {cs cs' : List Cand},
    M.sameCands M' v v' R r ev n n' cs cs' = true →
    SameTries M M' v v' R r ev n n' (cs.map (fun cd => (d, cd)) ++ ys) (cs'.map (fun cd => (d, cd)) ++ ys')
  | [], [], _ => hy
  | [], _ :: _, h => nomatch h
  | _ :: _, [], h => nomatch h
  | cd :: cs, cd' :: cs', h => by
    unfold Machine.sameCands at h
    simp only [Bool.and_eq_true, Bool.or_eq_true] at h
    exact ⟨rfl, h.1, h.2.imp_right fun h => sameTries_map d hy h⟩

theorem sameTries_flatMap {r : Nat} {ev : EventTy} {n n' : Spot} {cs cs' : List Cand}
    (h : M.sameCands M' v v' R r ev n n' cs cs' = true) : ∀ ds : List Dep,
    SameTries M M' v v' R r ev n n' (ds.flatMap fun d => cs.map fun cd => (d, cd))
      (ds.flatMap fun d => cs'.map fun cd => (d, cd))
  | [] => trivial
  | d :: ds => by
    rw [List.flatMap_cons, List.flatMap_cons]
    exact sameTries_map d (sameTries_flatMap h ds) h

theorem Twins.defer (h : Twins M M' v v' R c c') {ev : EventTy} (hev : ev ∈ M.events) (p : P) :
    Twins M M' v v' R { c with waiting := c.waiting ++ [(ev, p)] }
      { c' with waiting := c'.waiting ++ [(ev, p)] } :=
  { h with
    waiting := by rw [h.waiting]
    known := by
      intro x hx
      rcases List.mem_append.1 hx with hx | hx
      · exact h.known x hx
      · rw [List.mem_singleton.1 hx]; exact hev }

theorem ask_sight {ev : EventTy} {d : Dep} {cd : Cand} {t : XRow} {l : Name × StTy} {p : P}
    {c c₁ : Conf P W} {a : Bool × P} (h : M.ask sem ev d cd t l p c = .ok a c₁) :
    M.sight c₁ = M.sight c ∧ (t.guard = none → a.1 = true) := by
  unfold Machine.ask at h
  split at h
  · cases h; exact ⟨rfl, fun _ => rfl⟩
  · rename_i g hg
    dsimp only at h
    generalize (if t.internal = true then cd.src else l.2) = x at h
    split at h
    · split at h
      · cases h; exact ⟨rfl, fun e => nomatch hg.symm.trans e⟩
      · cases h
      · cases h
    · cases h

theorem Twins.attempt (anon : Bool) (r : Nat) {ev : EventTy} (hev : ev ∈ M.events) {n n' : Spot} :
    ∀ (xs xs' : List (Dep × Cand)), SameTries M M' v v' R r ev n n' xs xs' → ∀ (p : P)
      {c c' : Conf P W}, Twins M M' v v' R c c' → M.sight c = n → M'.sight c' = n' →
      Both M M' v v' R (M.attempt (sem.seen v) anon r ev xs p c) (M'.attempt (sem.seen v') anon r ev xs' p c')
  | [], [], _, _, _, _, h, _, _ => ⟨rfl, h⟩
  | [], _ :: _, h, _, _, _, _, _, _ => h.elim
  | _ :: _, [], h, _, _, _, _, _, _ => h.elim
  | (d, cd) :: xs, (d', cd') :: xs', hx, p, c, c', h, hn, hn' => by
    obtain ⟨hd, hc, hr⟩ := hx
    dsimp only at hd hc hr
    subst hd
    unfold Machine.sameCand at hc
    unfold Machine.attempt
    cases ht : cd.row? with
    | none =>
      cases ht' : cd'.row? with
      | none =>
        cases anon with
        | true => rfl
        | false => exact ⟨rfl, h.defer hev p⟩
      | some t' => rw [ht, ht'] at hc; cases hc
    | some t =>
      cases ht' : cd'.row? with
      | none => rw [ht, ht'] at hc; cases hc
      | some t' =>
        rw [ht, ht'] at hc
        dsimp only at hc ⊢
        cases hl : M.targetLoc t with
        | none =>
          cases hl' : M'.targetLoc t' with
          | none => rfl
          | some l' => rw [hl, hl'] at hc; cases hc
        | some l =>
          cases hl' : M'.targetLoc t' with
          | none => rw [hl, hl'] at hc; cases hc
          | some l' =>
            rw [hl, hl'] at hc
            dsimp only at hc ⊢
            rw [Bool.and_eq_true, Bool.and_eq_true] at hc
            obtain ⟨⟨h1, h2⟩, h3⟩ := hc
            have h1 := of_decide_eq_true h1
            have h2 := of_decide_eq_true h2
            have hk := h.ask (sem := sem) d h1 p
            revert hk
            cases hq : M.ask (sem.seen v) ev d cd t l p c <;>
              cases hq' : M'.ask (sem.seen v') ev d cd' t' l' p c' <;> intro hk <;>
              first | exact hk.elim | skip
            · rename_i a c₁ a' c₁'
              obtain ⟨rfl, h⟩ := hk
              have e1 := ask_sight hq
              have e1' := ask_sight hq'
              show Both M M' v v' R (if a.1 = true then _ else _) (if a.1 = true then _ else _)
              split
              · refine Res.Rel.bind (V := Eq) (h.take r d h2 ?_ a.2) ?_
                · rw [e1.1, e1'.1, hn, hn']; exact h3
                · rintro p _ c c' rfl h; exact ⟨rfl, h⟩
              · rename_i hf
                refine Twins.attempt anon r hev xs xs' (hr.resolve_left ?_) a.2 h (e1.1.trans hn) (e1'.1.trans hn')
                intro hfin
                unfold Machine.final at hfin
                rw [ht] at hfin
                exact hf (e1.2 (Option.isNone_iff_eq_none.1 hfin))
            · exact hk
            · exact hk
            · trivial

variable (hm : Matches M M' v v' R)
include hm

theorem Twins.visit (h : Twins M M' v v' R c c') (anon : Bool) {r : Nat}
    (hr : M.orthogonal = true ∨ r = 0) {ev : EventTy} (hev : ev ∈ M.events) (p : P) :
    Both M M' v v' R (M.visit (sem.seen v) anon r ev p c) (M'.visit (sem.seen v') anon r ev p c') := by
  have hv := hm.visit _ h.spots r hr ev hev
  unfold Machine.sameVisit at hv
  unfold Machine.visit Machine.seek
  dsimp only at hv
  rw [show (M.sight c).slots = c.slots from rfl, show (M'.sight c').slots = c'.slots from rfl] at hv
  cases hs : c.slots[r]? with
  | none =>
    cases hs' : c'.slots[r]? with
    | none => rfl
    | some o => rw [hs, hs'] at hv; cases o <;> cases hv
  | some o =>
    cases hs' : c'.slots[r]? with
    | none => rw [hs, hs'] at hv; cases o <;> cases hv
    | some o' =>
      rw [hs, hs'] at hv
      cases o with
      | none =>
        cases o' with
        | none => rfl
        | some l' => cases hv
      | some l =>
        cases o' with
        | none => cases hv
        | some l' =>
          dsimp only at hv
          show Both M M' v v' R (if l.1 ∈ M.composites then _ else _) (if l'.1 ∈ M'.composites then _ else _)
          by_cases hp : l.1 ∈ M.composites
          · rw [if_pos hp, Bool.and_eq_true] at hv
            rw [if_pos hp, if_pos (of_decide_eq_true hv.1)]
            have hc := hv.2
            by_cases he : M.cands ev l.1 l.2 = []
            · have he' : M'.cands ev l'.1 l'.2 = [] := by
                cases hx : M'.cands ev l'.1 l'.2 with
                | nil => rfl
                | cons a b => rw [he, hx] at hc; cases hc
              rw [if_pos he, if_pos he']
              exact ⟨rfl, h⟩
            · have he' : M'.cands ev l'.1 l'.2 ≠ [] := by
                intro hx
                cases hy : M.cands ev l.1 l.2 with
                | nil => exact he hy
                | cons a b => rw [hy, hx] at hc; cases hc
              rw [if_neg he, if_neg he', ← h.deps]
              exact Twins.attempt anon r hev _ _ (sameTries_flatMap hc c.deps) p h rfl rfl
          · rw [if_neg hp] at hv
            rw [if_neg hp, if_neg (of_decide_eq_true hv)]
            rfl

theorem Twins.sweep {ev : EventTy} (hev : ev ∈ M.events) : ∀ (rs : List Nat),
    (∀ r ∈ rs, M.orthogonal = true ∨ r = 0) → ∀ (os : List RegionOut) (p : P) {c c' : Conf P W},
    Twins M M' v v' R c c' →
    Both M M' v v' R (M.sweep (sem.seen v) ev rs os p c) (M'.sweep (sem.seen v') ev rs os p c')
  | [], _, _, _, _, _, h => ⟨rfl, h⟩
  | r :: rs, hr, os, p, c, c', h => by
    unfold Machine.sweep
    refine (h.visit hm false (hr r List.mem_cons_self) hev p).bind ?_
    rintro o _ c c' rfl h
    split
    · exact ⟨rfl, h⟩
    · exact Twins.sweep hev rs (fun r' h' => hr r' (List.mem_cons_of_mem _ h')) _ _ h

theorem Twins.round (hev : EventTy.none ∈ M.events) : ∀ (rs : List Nat),
    (∀ r ∈ rs, M.orthogonal = true ∨ r = 0) → ∀ (os : List RegionOut) (p : P) {c c' : Conf P W},
    Twins M M' v v' R c c' →
    Both M M' v v' R (M.round (sem.seen v) rs os p c) (M'.round (sem.seen v') rs os p c')
  | [], _, _, _, _, _, h => ⟨rfl, h⟩
  | r :: rs, hr, os, p, c, c', h => by
    unfold Machine.round
    refine (h.visit hm true (hr r List.mem_cons_self) hev p).bind ?_
    rintro o _ c c' rfl h
    split
    · exact ⟨rfl, h⟩
    · exact Twins.round hev rs (fun r' h' => hr r' (List.mem_cons_of_mem _ h')) _ _ h

theorem Twins.taking (h : Twins M M' v v' R c c') : M.taking c = M'.taking c' := by
  unfold Machine.taking
  rw [← hm.orthogonal]
  cases ho : M.orthogonal with
  | false => rfl
  | true => rw [show c.active = c'.active from hm.active _ h.spots ho]

omit hm in
theorem Machine.taking_orthogonal (c : Conf P W) : ∀ r ∈ M.taking c, M.orthogonal = true ∨ r = 0 := by
  intro r hr
  unfold taking at hr
  cases ho : M.orthogonal with
  | true => exact Or.inl rfl
  | false =>
    rw [ho] at hr
    have := List.mem_range.1 hr
    exact Or.inr (by simpa using this)

theorem Twins.settle (hev : EventTy.none ∈ M.events) : ∀ (fuel : Nat) (p : P) {c c' : Conf P W},
    Twins M M' v v' R c c' →
    Both M M' v v' R (M.settle (sem.seen v) fuel p c) (M'.settle (sem.seen v') fuel p c')
  | 0, _, _, _, _ => trivial
  | fuel + 1, p, c, c', h => by
    unfold Machine.settle
    rw [← h.taking hm]
    refine (Twins.round hm hev _ (Machine.taking_orthogonal c) [] p h).bind ?_
    rintro a _ c c' rfl h
    split
    · exact Twins.settle hev fuel _ h
    · exact ⟨rfl, h⟩

variable (hanon : M.anonymous = true → EventTy.none ∈ M.events)
include hanon

theorem Twins.handle (h : Twins M M' v v' R c c') (fuel : Nat) {ev : EventTy} (hev : ev ∈ M.events)
    (p : P) :
    Both M M' v v' R (M.handle (sem.seen v) fuel ev p c) (M'.handle (sem.seen v') fuel ev p c') := by
  unfold Machine.handle
  rw [← h.taking hm, ← hm.anonymous]
  refine (Twins.sweep hm hev _ (Machine.taking_orthogonal c) [] p h).bind ?_
  rintro a _ c c' rfl h
  split
  · rename_i hc
    refine (Twins.settle hm (hanon hc.2.2) fuel _ h).bind ?_
    rintro _ _ c c' _ h
    exact ⟨rfl, h⟩
  · exact ⟨rfl, h⟩

omit hanon in
theorem Twins.complain (h : Twins M M' v v' R c c') (ev : EventTy) (p : P) :
    Both M M' v v' R (M.complain (sem.seen v) ev p c) (M'.complain (sem.seen v') ev p c') := by
  unfold Machine.complain
  rw [← hm.handler]
  cases hh : (M.decl M.root).handler with
  | none => exact ⟨rfl, h⟩
  | some k =>
    have hv := hm.complaint (by rw [hh]; simp) _ h.spots
    unfold Machine.sameComplaint at hv
    unfold Machine.seek
    dsimp only at hv
    rw [show (M.sight c).slots = c.slots from rfl, show (M'.sight c').slots = c'.slots from rfl] at hv
    dsimp only
    cases hs : c.slots[0]? with
    | none =>
      cases hs' : c'.slots[0]? with
      | none => rfl
      | some o => rw [hs, hs'] at hv; cases o <;> cases hv
    | some o =>
      cases hs' : c'.slots[0]? with
      | none => rw [hs, hs'] at hv; cases o <;> cases hv
      | some o' =>
        rw [hs, hs'] at hv
        cases o with
        | none =>
          cases o' with
          | none => rfl
          | some l' => cases hv
        | some l =>
          cases o' with
          | none => cases hv
          | some l' =>
            dsimp only at hv
            show Both M M' v v' R (if l.1 ∈ M.composites then _ else _) (if l'.1 ∈ M'.composites then _ else _)
            by_cases hp : l.1 ∈ M.composites
            · rw [if_pos hp, Bool.and_eq_true, Bool.and_eq_true] at hv
              obtain ⟨⟨h1, h2⟩, h3⟩ := hv
              have h2 := of_decide_eq_true h2
              rw [if_pos hp, if_pos (of_decide_eq_true h1), h.present h2 (of_decide_eq_true h3)]
              split
              · have hq : (sem.seen v).handler k ev l.2 c.first p c.world =
                    (sem.seen v').handler k ev l'.2 c'.first p c'.world := by
                  show sem.handler k ev (v l.2) _ p _ = sem.handler k ev (v' l'.2) _ p _
                  rw [h2, h.first, h.world]
                rw [hq]
                cases (sem.seen v').handler k ev l'.2 c'.first p c'.world with
                | ok b p' w => exact ⟨rfl, h.note (by unfold Call.seen; dsimp only; rw [h2, h.first]) w⟩
                | throw k q w => exact ⟨rfl, h.note (by unfold Call.seen; dsimp only; rw [h2, h.first]) w⟩
                | ub => rfl
              · rfl
            · rw [if_neg hp] at hv
              rw [if_neg hp, if_neg (of_decide_eq_true hv)]
              exact ⟨rfl, h⟩

theorem Twins.replay (h : Twins M M' v v' R c c') (fuel : Nat) :
    Both M M' v v' R (M.replay (sem.seen v) fuel c) (M'.replay (sem.seen v') fuel c') := by
  unfold Machine.replay
  rw [← h.waiting, ← hm.deferring]
  cases hq : c.waiting with
  | nil => exact ⟨rfl, h⟩
  | cons x q =>
    obtain ⟨ev, p⟩ := x
    dsimp only
    split
    · refine Res.Rel.bind (V := Eq) ?_ fun _ _ c c' _ h => ⟨rfl, h⟩
      have h' : Twins M M' v v' R { c with waiting := q } { c' with waiting := q } :=
        { h with
          waiting := rfl
          known := fun x hx => h.known x (by rw [hq]; exact List.mem_cons_of_mem _ hx) }
      refine h'.handle hm hanon fuel ?_ p
      exact h.known (ev, p) (by rw [hq]; exact List.mem_cons_self)
    · exact ⟨rfl, h⟩

theorem Twins.receive (h : Twins M M' v v' R c c') (fuel : Nat) {ev : EventTy} (hev : ev ∈ M.events)
    (p : P) :
    Both M M' v v' R (M.receive (sem.seen v) fuel ev p c) (M'.receive (sem.seen v') fuel ev p c') := by
  unfold Machine.receive
  refine (h.handle hm hanon fuel hev p).bind ?_
  rintro a _ c c' rfl h
  split
  · exact ⟨rfl, h⟩
  split
  · exact Res.Rel.bind (V := Eq) (h.replay hm hanon fuel) fun _ _ c c' _ h => ⟨rfl, h⟩
  split
  · exact ⟨rfl, h⟩
  · exact Res.Rel.bind (V := Eq) (h.complain hm ev a.2) fun _ _ c c' _ h => ⟨rfl, h⟩

end

/-! ## The property -/

/-- Machine objects the client cannot tell apart by what happened so far. -/
structure Like (v v' : StTy → StTy) (s s' : SM P W) : Prop where
  queue : s.queue = s'.queue
  world : s.world = s'.world
  trace : s.trace.map (fun k => k.bare.seen v) = s'.trace.map (fun k => k.bare.seen v')

theorem Twins.like {c c' : Conf P W} {s s' : SM P W} (h : Twins M M' v v' R c c') (hc : Depicts M c s)
    (hc' : Depicts M' c' s') : Like v v' s s' where
  queue := by rw [hc.queue, hc'.queue, h.waiting]
  world := by rw [hc.world, hc'.world, h.world]
  trace := by
    have := h.calls
    rw [← hc.trace, ← hc'.trace, List.map_map, List.map_map] at this
    exact this

theorem start_eq (M : Machine) (d : Dep) (w : W) : M.sight (M.fresh d w : Conf P W) = M.start := rfl

/-- One call, for configurations that are alike. -/
theorem Twins.step (h : M.same M' v v' R = true) (hM : M.Regular) (hM' : M'.Regular)
    (hS : M.ScopesReal) (hS' : M'.ScopesReal) {c c' : Conf P W} {s s' : SM P W}
    (ht : Twins M M' v v' R c c') (hc : Depicts M c s) (hc' : Depicts M' c' s') (fuel : Nat) {op : Op P}
    (hop : OpOk M op) (hns : NoSet [op]) : OpOk M' op ∧
    (Hsm.step M (sem.seen v) fuel op s).Rel Eq
      (fun s s' => ∃ c c', Depicts M c s ∧ Depicts M' c' s' ∧ Twins M M' v v' R c c')
      (Hsm.step M' (sem.seen v') fuel op s') := by
  have hm := Machine.same_iff h
  have hop' : OpOk M' op ∧ Both M M' v v' R (M.exec (sem.seen v) fuel op c) (M'.exec (sem.seen v') fuel op c') := by
    cases op with
    | process ev p =>
      have hev : ev ∈ M.events := by rw [M.events_eq]; exact hop
      refine ⟨?_, ht.receive hm Machine.none_event fuel hev p⟩
      have := hm.events ev hev
      rw [M'.events_eq] at this
      exact this
    | set r p st => exact absurd List.mem_cons_self (hns r p st)
    | setDependency d => exact ⟨trivial, rfl, { ht with deps := by show d :: c.deps = d :: c'.deps; rw [ht.deps] }⟩
  refine ⟨hop'.1, ?_⟩
  have h1 := C77_step (sem := sem.seen v) hc hM hS fuel hop
  have h2 := C77_step (sem := sem.seen v') hc' hM' hS' fuel hop'.1
  have h3 := hop'.2
  revert h1 h2 h3
  cases Hsm.step M (sem.seen v) fuel op s <;> cases M.exec (sem.seen v) fuel op c <;> intro h1 <;>
    first | exact h1.elim | skip
  all_goals
    cases Hsm.step M' (sem.seen v') fuel op s' <;> cases M'.exec (sem.seen v') fuel op c' <;> intro h2 h3 <;>
      first | exact h2.elim | exact h3.elim | skip
  · exact ⟨h1.1.trans (h3.1.trans h2.1.symm), _, _, h1.2, h2.2, h3.2⟩
  · exact ⟨h1.1.trans (h3.1.trans h2.1.symm), _, _, h1.2, h2.2, h3.2⟩
  · exact (h1.trans (h3.trans h2.symm) : _ = _)
  · trivial

theorem RunTo.twin (h : M.same M' v v' R = true) (hM : M.Regular) (hM' : M'.Regular)
    (hC : M'.ScopesReal ∧ (M'.orthogonal = true → M'.declaredInitials M'.root ≠ [])) {d : Dep}
    {ops : List (Op P)} {s : SM P W} (hr : RunTo M (sem.seen v) d ops s) (hns : NoSet ops) :
    ∃ s' c c', RunTo M' (sem.seen v') d ops s' ∧ Depicts M c s ∧ Depicts M' c' s' ∧
      Twins M M' v v' R c c' := by
  induction hr with
  | @init w s hs =>
    obtain ⟨s', hs'⟩ := (C06_construct (P := P) hM' d w).1.2 hC
    exact ⟨s', _, _, .init hs', C77_construct hM hs, C77_construct hM' hs',
      ⟨(Machine.same_iff h).start, rfl, (fun x hx => nomatch hx), rfl, rfl, rfl, rfl⟩⟩
  | @ok s t ops op fuel b hr hop hs ih =>
    obtain ⟨s', c, c', hr', hc, hc', ht⟩ := ih fun r p st hm => hns r p st (List.mem_append_left _ hm)
    obtain ⟨hop', hk⟩ := ht.step (sem := sem) h hM hM' (hr.scopes hM) hC.1 hc hc' fuel hop
      fun r p st hm => hns r p st (List.mem_append_right _ hm)
    rw [hs] at hk
    cases hs' : Hsm.step M' (sem.seen v') fuel op s' with
    | ok b' t' =>
      rw [hs'] at hk
      obtain ⟨rfl, c, c', h1, h2, h3⟩ := hk
      exact ⟨t', c, c', .ok hr' hop' hs', h1, h2, h3⟩
    | _ => rw [hs'] at hk; exact hk.elim
  | @throw s t ops op fuel x hr hop hs ih =>
    obtain ⟨s', c, c', hr', hc, hc', ht⟩ := ih fun r p st hm => hns r p st (List.mem_append_left _ hm)
    obtain ⟨hop', hk⟩ := ht.step (sem := sem) h hM hM' (hr.scopes hM) hC.1 hc hc' fuel hop
      fun r p st hm => hns r p st (List.mem_append_right _ hm)
    rw [hs] at hk
    cases hs' : Hsm.step M' (sem.seen v') fuel op s' with
    | throw y t' =>
      rw [hs'] at hk
      obtain ⟨rfl, c, c', h1, h2, h3⟩ := hk
      exact ⟨t', c, c', .throw hr' hop' hs', h1, h2, h3⟩
    | _ => rw [hs'] at hk; exact hk.elim
  | @world s ops _ w ih =>
    obtain ⟨s', c, c', hr', hc, hc', ht⟩ := ih hns
    exact ⟨_, { c with world := w }, { c' with world := w }, .world hr' w, { hc with world := rfl },
      { hc' with world := rfl }, { ht with world := rfl }⟩

/-- C85: if the check accepts two machines, then whatever a client has done with the one (without
`set_state`), it can have done with the other, with the same callbacks called in the same order with
arguments it sees as the same, the same effects and the same events waiting; the machines are at a pair
of spots of the list, and the next call has the same outcome on both. -/
theorem C85_same (h : M.same M' v v' R = true) (hM : M.Regular) (hM' : M'.Regular)
    (hC : M'.ScopesReal ∧ (M'.orthogonal = true → M'.declaredInitials M'.root ≠ [])) {d : Dep}
    {ops : List (Op P)} {s : SM P W} (hr : RunTo M (sem.seen v) d ops s) (hns : NoSet ops) :
    ∃ s', RunTo M' (sem.seen v') d ops s' ∧ Like v v' s s' ∧
      (∃ x ∈ R, IsAt M s x.1 ∧ IsAt M' s' x.2) ∧
      ∀ (fuel : Nat) (op : Op P), OpOk M op → NoSet [op] → OpOk M' op ∧
        (step M (sem.seen v) fuel op s).Rel Eq (Like v v') (step M' (sem.seen v') fuel op s') := by
  obtain ⟨s', c, c', hr', hc, hc', ht⟩ := hr.twin h hM hM' hC hns
  refine ⟨s', hr', ht.like hc hc', ⟨_, ht.spots, hc.isAt, hc'.isAt⟩, fun fuel op hop ho => ?_⟩
  obtain ⟨h1, h2⟩ := ht.step (sem := sem) h hM hM' (hr.scopes hM) hC.1 hc hc' fuel hop ho
  refine ⟨h1, ?_⟩
  revert h2
  cases step M (sem.seen v) fuel op s <;> cases step M' (sem.seen v') fuel op s' <;> intro h2 <;>
    first
    | exact h2.elim
    | (obtain ⟨e, c, c', h1, h2, h3⟩ := h2; exact ⟨e, h3.like h1 h2⟩)
    | exact h2

/-- C85, for machines with the same states: no client at all sees a difference. -/
theorem C85_same_states (h : M.same M' id id R = true) (hM : M.Regular) (hM' : M'.Regular)
    (hC : M'.ScopesReal ∧ (M'.orthogonal = true → M'.declaredInitials M'.root ≠ [])) {d : Dep}
    {ops : List (Op P)} {s : SM P W} (hr : RunTo M sem d ops s) (hns : NoSet ops) :
    ∃ s', RunTo M' sem d ops s' ∧ s.queue = s'.queue ∧ s.world = s'.world ∧
      s.trace.map Call.bare = s'.trace.map Call.bare ∧
      ∀ (fuel : Nat) (op : Op P), OpOk M op → NoSet [op] →
        match step M sem fuel op s, step M' sem fuel op s' with
        | .ok b t, .ok b' t' => b = b' ∧ t.queue = t'.queue ∧ t.world = t'.world ∧
            t.trace.map Call.bare = t'.trace.map Call.bare
        | .throw x t, .throw x' t' => x = x' ∧ t.queue = t'.queue ∧ t.world = t'.world ∧
            t.trace.map Call.bare = t'.trace.map Call.bare
        | .ub u, .ub u' => u = u'
        | .timeout, .timeout => True
        | _, _ => False := by
  have hid : ∀ k : Call P, k.seen id = k := by intro k; cases k <;> rfl
  have like : ∀ {s s' : SM P W}, Like id id s s' →
      s.queue = s'.queue ∧ s.world = s'.world ∧ s.trace.map Call.bare = s'.trace.map Call.bare := by
    intro s s' h
    have := h.trace
    simp only [hid] at this
    exact ⟨h.queue, h.world, this⟩
  obtain ⟨s', h1, h2, -, h4⟩ := C85_same (sem := sem) h hM hM' hC hr hns
  refine ⟨s', h1, (like h2).1, (like h2).2.1, (like h2).2.2, fun fuel op hop ho => ?_⟩
  have h5 := (h4 fuel op hop ho).2
  change (step M sem fuel op s).Rel Eq _ (step M' sem fuel op s') at h5
  revert h5
  cases step M sem fuel op s <;> cases step M' sem fuel op s' <;> intro h5 <;>
    first
    | exact h5.elim
    | exact ⟨h5.1, like h5.2⟩
    | exact h5

/-! ## Examples -/

namespace Ex

/-- A lamp: off (1), and on (2) with two ways of shining, dim (3) and bright (4). -/
def lamp : Machine := .ofList
  [ { table := some [ row (ini 1) (ev 0) (some 10) (some 1) (.st 2), row (.st 2) (ev 0) none (some 2) (.st 1) ]
      handler := some 9 },
    {}, { table := some [ row (ini 3) (ev 1) none (some 3) (.st 4), row (.st 4) (ev 1) none (some 4) (.st 3) ] },
    {}, {} ] [1]

/-- The same without nesting: the states are off (1), dim (2) and bright (3). -/
def lampFlat : Machine := .ofList
  [ { table := some [ row (ini 1) (ev 0) (some 10) (some 1) (.st 2), row (.st 2) (ev 0) none (some 2) (.st 1),
        row (.st 3) (ev 0) none (some 2) (.st 1), row (.st 2) (ev 1) none (some 3) (.st 3),
        row (.st 3) (ev 1) none (some 4) (.st 2) ]
      handler := some 9 }, {}, {}, {} ] [1]

theorem lamp_regular : lamp.Regular := Machine.regular_ofList (by decide +kernel)
theorem lampFlat_regular : lampFlat.Regular := Machine.regular_ofList (by decide +kernel)
theorem lampFlat_scoped : lampFlat.Scoped := Machine.scoped_of_check (by decide +kernel)

/-- Callbacks that do not look at the states. -/
def blind : StTy → StTy := fun _ => .st 0

theorem lamp_flat : lamp.same lampFlat blind blind (lamp.pairUp lampFlat 4) = true := by decide +kernel

/-- Whatever a client does with the nested lamp, it can do with the flat one. -/
example {sem : Sem P W} {d : Dep} {ops : List (Op P)} {s : SM P W}
    (hr : RunTo lamp (sem.seen blind) d ops s) (hns : NoSet ops) :
    ∃ s', RunTo lampFlat (sem.seen blind) d ops s' ∧ Like blind blind s s' := by
  obtain ⟨s', h1, h2, -⟩ := C85_same lamp_flat lamp_regular lampFlat_regular
    ⟨(Machine.scopesReal_iff lampFlat_regular).2 ⟨lampFlat_scoped.src, lampFlat_scoped.comp⟩,
      fun h => absurd h (by decide +kernel)⟩ hr hns
  exact ⟨s', h1, h2⟩

/-- Clients that look at the states see a difference: leaving the composite, the exit action gets the
composite. -/
example : lamp.same lampFlat id id (lamp.pairUp lampFlat 4) = false := by decide +kernel

/-- The demo machine with a row that is never tried, since a later one without guard comes first, and
with the other rows in another order. -/
def demoPadded : Machine := .ofList
  ({ table := some
        [ row (.st Idle) (ev 5) (some 100) (some 99) (.st Busy),
          row (ini Idle) (ev 0) none (some 1) (.st Comp),
          row (.st Idle) (ev 5) none none (.ps true (.entry Comp CB)),
          row (.st Idle) (ev 3) none (some 4) (.st Busy),
          row (.st Busy) (ev 1) none (some 3) (.st Idle),
          row (.st Idle) (ev 0) (some 100) (some 2) (.st Busy),
          row (.st Idle) (ev 4) none none (.ps true (.history Comp)),
          row (.ps false (.exit Comp CB)) (ev 3) none none (.st Idle),
          row (.st Comp) (ev 1) none (some 5) (.st Idle) ]
     itable := some [⟨ev 7, none, some 12⟩]
     handler := some 50 } :: demoDecls.drop 1) [1]

theorem demoPadded_regular : demoPadded.Regular := Machine.regular_ofList (by decide +kernel)
theorem demoPadded_scoped : demoPadded.Scoped := Machine.scoped_of_check (by decide +kernel)

theorem demo_padded : demo.same demoPadded id id (demo.pairUp demoPadded 6) = true := by decide +kernel

/-- If the row to the entry point comes before the row to the composite, the check fails: the internal
rows of `CB` are then collected before those of `Comp`, so that they are tried in another order. -/
def demoEntryFirst : Machine := .ofList
  ({ table := some
        [ row (.st Idle) (ev 5) none none (.ps true (.entry Comp CB)),
          row (ini Idle) (ev 0) none (some 1) (.st Comp),
          row (.st Idle) (ev 0) (some 100) (some 2) (.st Busy),
          row (.st Busy) (ev 1) none (some 3) (.st Idle),
          row (.st Idle) (ev 3) none (some 4) (.st Busy),
          row (.st Comp) (ev 1) none (some 5) (.st Idle),
          row (.st Idle) (ev 4) none none (.ps true (.history Comp)),
          row (.ps false (.exit Comp CB)) (ev 3) none none (.st Idle) ]
     itable := some [⟨ev 7, none, some 12⟩]
     handler := some 50 } :: demoDecls.drop 1) [1]

example : demo.same demoEntryFirst id id (demo.pairUp demoEntryFirst 6) = false ∧
    (run demo (Ex.sem (· == 103)) 5 7 [] [.process (ev 5) 0, .process (ev 6) 0]).map (·.world) ≠
      (run demoEntryFirst (Ex.sem (· == 103)) 5 7 [] [.process (ev 5) 0, .process (ev 6) 0]).map
        (·.world) :=
  ⟨by decide +kernel, by decide +kernel⟩

/-- No client sees that the rows were rearranged. -/
example {sem : Sem P W} {d : Dep} {ops : List (Op P)} {s : SM P W} (hr : RunTo demo sem d ops s)
    (hns : NoSet ops) : ∃ s', RunTo demoPadded sem d ops s' ∧ s.queue = s'.queue ∧ s.world = s'.world ∧
      s.trace.map Call.bare = s'.trace.map Call.bare := by
  obtain ⟨s', h1, h2, h3, h4, -⟩ := C85_same_states demo_padded demo_regular demoPadded_regular
    ⟨(Machine.scopesReal_iff demoPadded_regular).2 ⟨demoPadded_scoped.src, demoPadded_scoped.comp⟩,
      fun h => absurd h (by decide +kernel)⟩ hr hns
  exact ⟨s', h1, h2, h3, h4⟩

/-- Without the entry action of `Busy` the check fails, and a client that counts its callbacks sees it. -/
def demoQuiet : Machine := .ofList
  (demoDecls.take 2 ++ [ { onExit := some 21, defer := some [ev 3] } ] ++ demoDecls.drop 3) [1]

example : demo.same demoQuiet id id (demo.pairUp demoQuiet 6) = false ∧
    (run demo (Ex.sem fun _ => true) 5 7 [] [.process (ev 3) 0]).map (·.world) ≠
      (run demoQuiet (Ex.sem fun _ => true) 5 7 [] [.process (ev 3) 0]).map (·.world) :=
  ⟨by decide +kernel, by decide +kernel⟩

end Ex

end Hsm
