import Verif.Return
import Verif.PropsShadow

/-!
# C88: whether a machine can always get somewhere can be decided
-/

namespace Hsm

variable {P W P' W' Q Q' α β : Type} {M : Machine} {sem : Sem P W} {sem' : Sem P' W'}

/-! ## What was heard tells outcomes apart -/

/-- What the recorder heard in the end. -/
def Res.says : Res (Eye (List Sign)) α → Option (List Sign)
  | .ok _ x => x.heard
  | .throw _ x => x.heard
  | .ub _ => none
  | .timeout => none

/-- No sign is missing. -/
def Res.heardFrom (b : List Sign) : Res (Eye (List Sign)) α → Prop
  | .ok _ x => ∃ l, x.heard = some l ∧ b <+: l
  | .throw _ x => ∃ l, x.heard = some l ∧ b <+: l
  | .ub _ => True
  | .timeout => True

/-- After `b` the outcomes are told apart by what is heard. -/
structure Coded (b : List Sign) (rs : List (Res (Eye (List Sign)) α)) : Prop where
  from' : ∀ y ∈ rs, y.heardFrom b
  apart : ∀ y ∈ rs, ∀ y' ∈ rs, ∀ l l', y.says = some l → y'.says = some l' → l <+: l' → y = y'

theorem Res.heardFrom.says {b l : List Sign} {y : Res (Eye (List Sign)) α} (h : y.heardFrom b)
    (hl : y.says = some l) : b <+: l := by
  cases y with
  | ok a x => obtain ⟨l', h1, h2⟩ := h; cases h1.symm.trans hl; exact h2
  | throw a x => obtain ⟨l', h1, h2⟩ := h; cases h1.symm.trans hl; exact h2
  | ub _ => cases hl
  | timeout => cases hl

theorem Res.heardFrom.mono {b b' : List Sign} {y : Res (Eye (List Sign)) α} (h : y.heardFrom b')
    (hb : b <+: b') : y.heardFrom b := by
  cases y with
  | ok a x => obtain ⟨l', h1, h2⟩ := h; exact ⟨l', h1, hb.trans h2⟩
  | throw a x => obtain ⟨l', h1, h2⟩ := h; exact ⟨l', h1, hb.trans h2⟩
  | ub _ => trivial
  | timeout => trivial

theorem Coded.one {b : List Sign} {y : Res (Eye (List Sign)) α} (h : y.heardFrom b) : Coded b [y] where
  from' z hz := by rw [List.mem_singleton.1 hz]; exact h
  apart z hz z' hz' _ _ _ _ _ := by rw [List.mem_singleton.1 hz, List.mem_singleton.1 hz']

theorem snoc_prefix {b l : List Sign} {s t : Sign} (h1 : b ++ [s] <+: l) (h2 : b ++ [t] <+: l) : s = t := by
  have := List.prefix_of_prefix_length_le h1 h2 (by simp)
  have := List.append_cancel_left (this.eq_of_length (by simp))
  exact (List.cons.inj this).1

theorem Coded.cons {b : List Sign} {s t : Sign} (hst : s ≠ t) {y : Res (Eye (List Sign)) α}
    (hy : y.heardFrom (b ++ [s])) {rs : List (Res (Eye (List Sign)) α)} (h : Coded (b ++ [t]) rs) :
    Coded b (y :: rs) where
  from' z hz := by
    rcases List.mem_cons.1 hz with rfl | hz
    · exact hy.mono (List.prefix_append _ _)
    · exact (h.from' z hz).mono (List.prefix_append _ _)
  apart z hz z' hz' l l' hl hl' hp := by
    rcases List.mem_cons.1 hz with h1 | h1 <;> rcases List.mem_cons.1 hz' with h2 | h2
    · rw [h1, h2]
    · subst h1; exact (hst (snoc_prefix ((hy.says hl).trans hp) ((h.from' _ h2).says hl'))).elim
    · subst h2; exact (hst (snoc_prefix (hy.says hl') (((h.from' _ h1).says hl).trans hp))).elim
    · exact h.apart z h1 z' h2 l l' hl hl' hp

theorem Coded.branch {b : List Sign} {rs : List (Res (Eye (List Sign)) α)}
    {k : α → Eye (List Sign) → List (Res (Eye (List Sign)) β)} (h : Coded b rs)
    (hk : ∀ a x l, x.heard = some l → Coded l (k a x)) : Coded b (Hsm.branch rs k) := by
  have origin : ∀ y ∈ Hsm.branch rs k, ∀ l, y.says = some l →
      ∃ o ∈ rs, ∃ l0, o.says = some l0 ∧ l0 <+: l ∧
        ((∃ a x, o = .ok a x ∧ y ∈ k a x) ∨ ∃ e x, o = .throw e x ∧ y = .throw e x) := by
    intro y hy l hl
    rcases mem_branch.1 hy with ⟨a, x, h1, h2⟩ | ⟨e, x, h1, rfl⟩ | ⟨u, h1, rfl⟩ | ⟨h1, rfl⟩
    · obtain ⟨l0, h3, h4⟩ := h.from' _ h1
      exact ⟨_, h1, l0, h3, ((hk a x l0 h3).from' y h2).says hl, Or.inl ⟨a, x, rfl, h2⟩⟩
    · exact ⟨_, h1, l, hl, List.prefix_refl _, Or.inr ⟨e, x, rfl, rfl⟩⟩
    · cases hl
    · cases hl
  refine ⟨fun y hy => ?_, fun y hy y' hy' l l' hl hl' hp => ?_⟩
  · rcases mem_branch.1 hy with ⟨a, x, h1, h2⟩ | ⟨e, x, h1, rfl⟩ | ⟨u, h1, rfl⟩ | ⟨h1, rfl⟩
    · obtain ⟨l0, h3, h4⟩ := h.from' _ h1
      exact ((hk a x l0 h3).from' y h2).mono h4
    · exact h.from' _ h1
    · trivial
    · trivial
  · obtain ⟨o, ho, l0, h1, h2, h3⟩ := origin y hy l hl
    obtain ⟨o', ho', l0', h1', h2', h3'⟩ := origin y' hy' l' hl'
    have he : o = o' := by
      rcases List.prefix_or_prefix_of_prefix (h2.trans hp) h2' with h4 | h4
      · exact h.apart o ho o' ho' _ _ h1 h1' h4
      · exact (h.apart o' ho' o ho _ _ h1' h1 h4).symm
    subst he
    rcases h3 with ⟨a, x, rfl, h3⟩ | ⟨e, x, rfl, rfl⟩ <;> rcases h3' with ⟨a', x', he, h3'⟩ | ⟨e', x', he, rfl⟩
    · cases he
      exact (hk a x l0 h1).apart y h3 y' h3' l l' hl hl' hp
    · cases he
    · cases he
    · cases he; rfl

namespace Machine

variable {b : List Sign}

theorem heard_sign {x : Eye (List Sign)} (h : x.heard = some b) (s : Sign) :
    (seeSign recorder s x).heard = some (b ++ [s]) := by
  show recorder.hear x.heard s = _
  rw [h]; rfl

theorem seePerform_coded (args : Args) : ∀ (cs : List (Phase × Cb)) {b : List Sign} {x : Eye (List Sign)},
    x.heard = some b → Coded b (seePerform recorder args cs x)
  | [], _, _, h => .one ⟨_, h, List.prefix_refl _⟩
  | (ph, a) :: cs, _, _, h => by
    refine .cons (s := .call (.action ph a args () true [])) (t := .call (.action ph a args () false [])) (by simp)
      ?_ (seePerform_coded args cs (heard_sign h _))
    exact ⟨_, heard_sign h _, List.prefix_refl _⟩

theorem seeTake_coded (r : Nat) (ev : EventTy) (cd : Cand) (t : XRow) (l : Name × StTy) {x : Eye (List Sign)}
    (h : x.heard = some b) : Coded b (M.seeTake recorder r ev cd t l x) := by
  refine Coded.branch (.one ?_) fun _ x b h => ?_
  · unfold seeTravel
    cases M.mayTravel r t l x.spot with
    | ok _ _ => exact ⟨_, h, List.prefix_refl _⟩
    | throw _ _ => exact ⟨_, h, List.prefix_refl _⟩
    | _ => trivial
  · cases M.toRun t with
    | none => exact .one ⟨_, h, List.prefix_refl _⟩
    | some cs => exact seePerform_coded _ _ h

theorem seeAsk_coded (ev : EventTy) (cd : Cand) (t : XRow) (l : Name × StTy) {x : Eye (List Sign)}
    (h : x.heard = some b) : Coded b (seeAsk recorder ev cd t l x) := by
  unfold seeAsk
  cases t.guard with
  | none => exact .one ⟨_, h, List.prefix_refl _⟩
  | some g =>
    dsimp only
    generalize hc : (⟨ev, cd.src, if t.internal then cd.src else l.2, false, 0⟩ : Args) = args
    have key : ∀ (r r' : Option Bool) {l : List Sign},
        b ++ [.call (.guard g args () r [])] <+: l → b ++ [.call (.guard g args () r' [])] <+: l → r = r' := by
      intro r r' l h1 h2
      have := snoc_prefix h1 h2
      injection this with this
      injection this
    refine ⟨fun y hy => ?_, fun y hy y' hy' l l' hl hl' hp => ?_⟩
    · simp only [List.mem_cons, List.not_mem_nil, or_false] at hy
      rcases hy with rfl | rfl | rfl <;> exact ⟨_, heard_sign h _, List.prefix_append _ _⟩
    · simp only [List.mem_cons, List.not_mem_nil, or_false] at hy hy'
      rcases hy with rfl | rfl | rfl <;> rcases hy' with rfl | rfl | rfl <;>
        (try rfl) <;> exfalso <;>
        (have e1 := Option.some.inj ((heard_sign h _).symm.trans hl)
         have e2 := Option.some.inj ((heard_sign h _).symm.trans hl')
         subst e1 e2
         have := key _ _ hp (List.prefix_refl _)
         cases this)

theorem seeAttempt_coded (anon : Bool) (r : Nat) (ev : EventTy) : ∀ (cs : List Cand) {b : List Sign}
    {x : Eye (List Sign)}, x.heard = some b → Coded b (M.seeAttempt recorder anon r ev cs x)
  | [], _, _, h => .one ⟨_, h, List.prefix_refl _⟩
  | cd :: cs, _, _, h => by
    unfold seeAttempt
    cases cd.row? with
    | none =>
      dsimp only
      split
      · exact .one trivial
      · exact .one ⟨_, h, List.prefix_refl _⟩
    | some t =>
      dsimp only
      cases M.targetLoc t with
      | none => exact .one trivial
      | some l =>
        dsimp only
        refine (seeAsk_coded ev cd t l h).branch fun a x b h => ?_
        split
        · exact (seeTake_coded r ev cd t l h).branch fun _ x b h => .one ⟨_, h, List.prefix_refl _⟩
        · exact seeAttempt_coded anon r ev cs h

theorem seeVisit_coded (anon : Bool) (r : Nat) (ev : EventTy) {x : Eye (List Sign)} (h : x.heard = some b) :
    Coded b (M.seeVisit recorder anon r ev x) := by
  unfold seeVisit
  split
  · exact .one trivial
  · exact .one trivial
  · split
    · split
      · exact .one ⟨_, h, List.prefix_refl _⟩
      · exact seeAttempt_coded anon r ev _ h
    · exact .one trivial

theorem seeSweep_coded (ev : EventTy) : ∀ (rs : List Nat) (os : List RegionOut) {b : List Sign}
    {x : Eye (List Sign)}, x.heard = some b → Coded b (M.seeSweep recorder ev rs os x)
  | [], os, _, _, h => .one ⟨_, h, List.prefix_refl _⟩
  | r :: rs, os, _, _, h => by
    refine (seeVisit_coded false r ev h).branch fun o x b h => ?_
    split
    · exact .one ⟨_, h, List.prefix_refl _⟩
    · exact seeSweep_coded ev rs _ h

theorem seeRound_coded : ∀ (rs : List Nat) (os : List RegionOut) {b : List Sign}
    {x : Eye (List Sign)}, x.heard = some b → Coded b (M.seeRound recorder rs os x)
  | [], os, _, _, h => .one ⟨_, h, List.prefix_refl _⟩
  | r :: rs, os, _, _, h => by
    refine (seeVisit_coded true r .none h).branch fun o x b h => ?_
    split
    · exact .one ⟨_, h, List.prefix_refl _⟩
    · exact seeRound_coded rs _ h

theorem seeComplain_coded (ev : EventTy) {x : Eye (List Sign)} (h : x.heard = some b) :
    Coded b (M.seeComplain recorder ev x) := by
  unfold seeComplain
  split
  · exact .one ⟨_, h, List.prefix_refl _⟩
  · next hd _ =>
    split
    · exact .one trivial
    · exact .one trivial
    · next st _ =>
      split
      · refine .cons (s := .call (.handler hd ev st.2 0 () false [])) (t := .call (.handler hd ev st.2 0 () true []))
          (by simp) ?_ (.one ?_)
        · exact ⟨_, heard_sign h _, List.prefix_refl _⟩
        · exact ⟨_, heard_sign h _, List.prefix_refl _⟩
      · exact .one ⟨_, h, List.prefix_refl _⟩

theorem seeAnswer_coded (a : Bool) {x : Eye (List Sign)} (h : x.heard = some b) :
    Coded b (seeAnswer recorder a x) := .one ⟨_, heard_sign h _, List.prefix_append _ _⟩

theorem seeReplay_coded {x : Eye (List Sign)} (h : x.heard = some b) : Coded b (M.seeReplay recorder x) := by
  unfold seeReplay
  split
  · exact seeAnswer_coded true h
  · split
    · refine (seeSweep_coded _ _ _ ?_).branch fun os x b h => ?_
      · exact h
      · split
        · exact .one ⟨_, h, List.prefix_refl _⟩
        · exact seeAnswer_coded true h
    · exact seeAnswer_coded true h

theorem seeReceive_coded (ev : EventTy) {x : Eye (List Sign)} (h : x.heard = some b) :
    Coded b (M.seeReceive recorder ev x) := by
  refine (seeSweep_coded ev _ _ h).branch fun os x b h => ?_
  split
  · exact seeAnswer_coded _ h
  split
  · split
    · exact .one ⟨_, h, List.prefix_refl _⟩
    · exact seeReplay_coded h
  split
  · exact seeAnswer_coded _ h
  · exact (seeComplain_coded ev h).branch fun _ x b h => seeAnswer_coded _ h

theorem seeNext_coded (g : Stage) {x : Eye (List Sign)} (h : x.heard = some b) :
    Coded b (M.seeNext recorder g x) := by
  cases g with
  | rounds first =>
    refine (seeRound_coded _ _ h).branch fun more x b h => ?_
    split
    · exact .one ⟨_, h, List.prefix_refl _⟩
    split
    · exact seeReplay_coded h
    · exact seeAnswer_coded _ h
  | idle =>
    have hc := fun ev => seeReceive_coded (M := M) ev (heard_sign h (.event ev))
    refine ⟨fun y hy => ?_, fun y hy y' hy' l l' hl hl' hp => ?_⟩
    · obtain ⟨ev, _, hy⟩ := List.mem_flatMap.1 hy
      exact ((hc ev).from' y hy).mono (List.prefix_append _ _)
    · obtain ⟨ev, _, hy⟩ := List.mem_flatMap.1 hy
      obtain ⟨ev', _, hy'⟩ := List.mem_flatMap.1 hy'
      have := snoc_prefix ((((hc ev).from' y hy).says hl).trans hp) (((hc ev').from' y' hy').says hl')
      injection this with this
      subst this
      exact (hc ev).apart y hy y' hy' l l' hl hl' hp

/-! ## Paths -/

/-- One step. -/
def Steps (M : Machine) (mon : Monitor Q) (s t : Stage × Eye Q) : Prop := t ∈ M.onward mon s

theorem mem_onward {mon : Monitor Q} {s t : Stage × Eye Q} : t ∈ M.onward mon s ↔
    (∃ g x, .ok g x ∈ M.seeNext mon s.1 s.2 ∧ t = (g, x)) ∨
    ∃ e x, .throw e x ∈ M.seeNext mon s.1 s.2 ∧ t = (.idle, seeSign mon .exception x) := by
  unfold onward
  rw [List.mem_filterMap]
  constructor
  · rintro ⟨y, hy, h⟩
    split at h
    · cases h; exact Or.inl ⟨_, _, hy, rfl⟩
    · cases h; exact Or.inr ⟨_, _, hy, rfl⟩
    · cases h
  · rintro (⟨g, x, h, rfl⟩ | ⟨e, x, h, rfl⟩)
    · exact ⟨_, h, rfl⟩
    · exact ⟨_, h, rfl⟩

theorem Sees.steps {mon : Monitor Q} {s t : Stage × Eye Q} (h : M.Sees mon s.1 s.2)
    (ht : M.Steps mon s t) : M.Sees mon t.1 t.2 := by
  rcases mem_onward.1 ht with ⟨g, x, h1, rfl⟩ | ⟨e, x, h1, rfl⟩
  · exact h.ok h1
  · exact h.throw h1

theorem Sees.path {mon : Monitor Q} {s t : Stage × Eye Q} (h : M.Sees mon s.1 s.2)
    (ht : Relation.ReflTransGen (M.Steps mon) s t) : M.Sees mon t.1 t.2 := by
  induction ht with
  | refl => exact h
  | tail _ hs ih => exact ih.steps hs

theorem Sees.from_start {mon : Monitor Q} {g : Stage} {x : Eye Q} (h : M.Sees mon g x) :
    Relation.ReflTransGen (M.Steps mon) (.idle, M.seeStart mon) (g, x) := by
  induction h with
  | start => exact .refl
  | ok _ hn ih => exact ih.tail (mem_onward.2 (Or.inl ⟨_, _, hn, rfl⟩))
  | throw _ hn ih => exact ih.tail (mem_onward.2 (Or.inr ⟨_, _, hn, rfl⟩))

/-- The steps after `b` are told apart by what is heard. -/
theorem steps_coded {s : Stage × Eye (List Sign)} (h : s.2.heard = some b) :
    (∀ t, M.Steps recorder s t → ∃ l, t.2.heard = some l ∧ b <+: l) ∧
    ∀ t t', M.Steps recorder s t → M.Steps recorder s t' → ∀ l l', t.2.heard = some l → t'.2.heard = some l' →
      l <+: l' → t = t' := by
  have hc := seeNext_coded (M := M) s.1 h
  refine ⟨fun t ht => ?_, fun t t' ht ht' l l' hl hl' hp => ?_⟩
  · rcases mem_onward.1 ht with ⟨g, x, h1, rfl⟩ | ⟨e, x, h1, rfl⟩
    · exact hc.from' _ h1
    · obtain ⟨l, h2, h3⟩ := hc.from' _ h1
      exact ⟨_, heard_sign h2 _, h3.trans (List.prefix_append _ _)⟩
  · have cut : ∀ {a c : List Sign} {s : Sign}, a <+: c ++ [s] → a <+: c ∨ c <+: a := by
      intro a c s h
      rcases List.prefix_or_prefix_of_prefix h (List.prefix_append c [s]) with h | h
      · exact Or.inl h
      · exact Or.inr h
    have same : ∀ {y y' : Res (Eye (List Sign)) Stage} {m m' : List Sign}, y ∈ M.seeNext recorder s.1 s.2 →
        y' ∈ M.seeNext recorder s.1 s.2 → y.says = some m → y'.says = some m' → m <+: m' ∨ m' <+: m → y = y' := by
      intro y y' m m' hy hy' hm hm' h
      rcases h with h | h
      · exact hc.apart y hy y' hy' _ _ hm hm' h
      · exact (hc.apart y' hy' y hy _ _ hm' hm h).symm
    rcases mem_onward.1 ht with ⟨g, x, h1, rfl⟩ | ⟨e, x, h1, rfl⟩ <;>
      rcases mem_onward.1 ht' with ⟨g', x', h1', rfl⟩ | ⟨e', x', h1', rfl⟩
    · cases same h1 h1' hl hl' (Or.inl hp); rfl
    · obtain ⟨m, h2, _⟩ := hc.from' _ h1'
      have e2 := Option.some.inj ((heard_sign h2 _).symm.trans hl')
      subst e2
      cases same h1 h1' hl h2 (cut hp)
    · obtain ⟨m, h2, _⟩ := hc.from' _ h1
      have e2 := Option.some.inj ((heard_sign h2 _).symm.trans hl)
      subst e2
      cases same h1 h1' h2 hl' (Or.inl ((List.prefix_append _ _).trans hp))
    · obtain ⟨m, h2, _⟩ := hc.from' _ h1
      obtain ⟨m', h2', _⟩ := hc.from' _ h1'
      have e2 := Option.some.inj ((heard_sign h2 _).symm.trans hl)
      have e2' := Option.some.inj ((heard_sign h2' _).symm.trans hl')
      subst e2 e2'
      cases same h1 h1' h2 h2' (cut ((List.prefix_append _ _).trans hp))
      rfl

theorem path_heard {s t : Stage × Eye (List Sign)} (h : s.2.heard = some b)
    (ht : Relation.ReflTransGen (M.Steps recorder) s t) : ∃ l, t.2.heard = some l ∧ b <+: l := by
  induction ht with
  | refl => exact ⟨b, h, List.prefix_refl _⟩
  | tail _ hs ih =>
    obtain ⟨l, h1, h2⟩ := ih
    obtain ⟨l', h3, h4⟩ := (steps_coded h1).1 _ hs
    exact ⟨l', h3, h2.trans h4⟩

/-- Paths do not part without a sign. -/
theorem path_tree {s t u : Stage × Eye (List Sign)} (hb : s.2.heard = some b)
    (ht : Relation.ReflTransGen (M.Steps recorder) s t) (hu : Relation.ReflTransGen (M.Steps recorder) s u)
    {l l' : List Sign} (hl : t.2.heard = some l) (hl' : u.2.heard = some l') (hp : l <+: l') :
    Relation.ReflTransGen (M.Steps recorder) t u ∨ Relation.ReflTransGen (M.Steps recorder) u t := by
  induction ht using Relation.ReflTransGen.head_induction_on generalizing b with
  | refl => exact Or.inl hu
  | @head s s1 h1 h2 ih =>
    rcases Relation.ReflTransGen.cases_head hu with rfl | ⟨u1, h3, h4⟩
    · exact Or.inr (.head h1 h2)
    · obtain ⟨m, e1, _⟩ := (steps_coded hb).1 _ h1
      obtain ⟨m', e2, _⟩ := (steps_coded hb).1 _ h3
      obtain ⟨l1, e3, p1⟩ := path_heard e1 h2
      obtain ⟨l2, e4, p2⟩ := path_heard e2 h4
      cases e3.symm.trans hl
      cases e4.symm.trans hl'
      have : s1 = u1 := by
        rcases List.prefix_or_prefix_of_prefix (p1.trans hp) p2 with h | h
        · exact (steps_coded hb).2 _ _ h1 h3 _ _ e1 e2 h
        · exact ((steps_coded hb).2 _ _ h3 h1 _ _ e2 e1 h).symm
      subst this
      exact ih e1 h4

/-- Between two calls the next step is heard. -/
theorem idle_step {x : Eye (List Sign)} {t : Stage × Eye (List Sign)} (h : x.heard = some b)
    (ht : M.Steps recorder (.idle, x) t) : ∃ s l, t.2.heard = some l ∧ b ++ [s] <+: l := by
  have key : ∀ y ∈ M.seeNext recorder .idle x, ∃ ev, y.heardFrom (b ++ [.event ev]) := by
    intro y hy
    obtain ⟨ev, _, hy⟩ := List.mem_flatMap.1 hy
    exact ⟨ev, (seeReceive_coded ev (heard_sign h _)).from' y hy⟩
  rcases mem_onward.1 ht with ⟨g, x, h1, rfl⟩ | ⟨e, x, h1, rfl⟩
  · obtain ⟨ev, l, h2, h3⟩ := key _ h1
    exact ⟨_, l, h2, h3⟩
  · obtain ⟨ev, l, h2, h3⟩ := key _ h1
    exact ⟨_, _, heard_sign h2 _, h3.trans (List.prefix_append _ _)⟩

/-- What follows in what was heard follows on the way. -/
theorem Sees.path_of_heard {x y : Eye (List Sign)} (hx : M.Sees recorder .idle x) (hy : M.Sees recorder .idle y)
    {a c : List Sign} (ha : x.heard = some a) (hc : y.heard = some (a ++ c)) :
    Relation.ReflTransGen (M.Steps recorder) (.idle, x) (.idle, y) := by
  rcases path_tree (b := []) rfl hx.from_start hy.from_start ha hc (List.prefix_append _ _) with h | h
  · exact h
  · rcases Relation.ReflTransGen.cases_head h with h | ⟨t, h1, h2⟩
    · rw [h]
    · obtain ⟨s, l, e1, p1⟩ := idle_step hc h1
      obtain ⟨l', e2, p2⟩ := path_heard e1 h2
      cases e2.symm.trans ha
      have := (p1.trans p2).length_le
      simp at this
      omega

/-- What was heard says where the machine is. -/
theorem Sees.heard_determines {x y : Eye (List Sign)} (hx : M.Sees recorder .idle x) (hy : M.Sees recorder .idle y)
    {a : List Sign} (ha : x.heard = some a) (hc : y.heard = some a) : x = y := by
  have h := hx.path_of_heard hy ha (c := []) (by rw [List.append_nil]; exact hc)
  rcases Relation.ReflTransGen.cases_head h with h | ⟨t, h1, h2⟩
  · injection h
  · obtain ⟨s, l, e1, p1⟩ := idle_step ha h1
    obtain ⟨l', e2, p2⟩ := path_heard e1 h2
    cases e2.symm.trans hc
    have := (p1.trans p2).length_le
    simp at this
    omega

/-! ## Listening or not -/

/-- The same place, nobody listening. -/
def mute (s : Stage × Eye (List Sign)) : Stage × Eye Unit := (s.1, s.2.tell fun _ => some ())

theorem onward_mute (s : Stage × Eye (List Sign)) : M.onward deaf (mute s) = (M.onward recorder s).map mute := by
  unfold onward mute
  dsimp only
  rw [seeNext_tell (mon := recorder) (mon' := deaf) (f := fun _ => some ()) (fun _ _ => rfl), List.filterMap_map,
    List.map_filterMap]
  refine List.filterMap_congr fun y _ => ?_
  cases y <;> rfl

theorem Steps.mute {s t : Stage × Eye (List Sign)} (h : M.Steps recorder s t) :
    M.Steps deaf (Machine.mute s) (Machine.mute t) := by
  unfold Steps
  rw [onward_mute]
  exact List.mem_map_of_mem h

theorem path_mute {s t : Stage × Eye (List Sign)} (h : Relation.ReflTransGen (M.Steps recorder) s t) :
    Relation.ReflTransGen (M.Steps deaf) (mute s) (mute t) := by
  induction h with
  | refl => exact .refl
  | tail _ hs ih => exact ih.tail hs.mute

theorem path_unmute {s : Stage × Eye (List Sign)} {t : Stage × Eye Unit}
    (h : Relation.ReflTransGen (M.Steps deaf) (mute s) t) :
    ∃ u, Relation.ReflTransGen (M.Steps recorder) s u ∧ mute u = t := by
  induction h with
  | refl => exact ⟨s, .refl, rfl⟩
  | tail _ hs ih =>
    obtain ⟨u, h1, rfl⟩ := ih
    unfold Steps at hs
    rw [onward_mute] at hs
    obtain ⟨w, hw, rfl⟩ := List.mem_map.1 hs
    exact ⟨w, h1.tail hw, rfl⟩

theorem Sees.mute {s : Stage × Eye (List Sign)} (h : M.Sees recorder s.1 s.2) :
    M.Sees deaf (mute s).1 (mute s).2 :=
  Sees.path (s := (.idle, M.seeStart deaf)) .start (path_mute h.from_start)

/-! ## Steps towards the goal -/

variable {gs : List (Nat × Name × StTy)} {S : List (Stage × Eye Unit)}

theorem homing_path : ∀ {k : Nat} {s : Stage × Eye Unit}, s ∈ M.homing gs S k →
    ∃ t, Relation.ReflTransGen (M.Steps deaf) s t ∧ M.meets gs t = true
  | 0, s, h => ⟨s, .refl, (List.mem_filter.1 h).2⟩
  | k + 1, s, h => by
    have := (List.mem_filter.1 h).2
    rw [Bool.or_eq_true, decide_eq_true_eq, List.any_eq_true] at this
    rcases this with h | ⟨u, h1, h2⟩
    · exact homing_path h
    · obtain ⟨t, h3, h4⟩ := homing_path (of_decide_eq_true h2)
      exact ⟨t, .head h1 h3, h4⟩

theorem homing_succ {k : Nat} {s : Stage × Eye Unit} (h : s ∈ M.homing gs S k) : s ∈ M.homing gs S (k + 1) := by
  refine List.mem_filter.2 ⟨?_, by rw [Bool.or_eq_true]; exact Or.inl (decide_eq_true h)⟩
  cases k with
  | zero => exact (List.mem_filter.1 h).1
  | succ k => exact (List.mem_filter.1 h).1

theorem homing_start : ∀ (k : Nat) {s : Stage × Eye Unit}, s ∈ S → M.meets gs s = true → s ∈ M.homing gs S k
  | 0, _, h, hm => List.mem_filter.2 ⟨h, hm⟩
  | k + 1, _, h, hm => homing_succ (homing_start k h hm)

theorem seesAll_onward (hS : M.seesAll deaf S = true) {s t : Stage × Eye Unit} (hs : s ∈ S)
    (ht : M.Steps deaf s t) : t ∈ S := by
  unfold seesAll at hS
  rw [Bool.and_eq_true, List.all_eq_true] at hS
  have h := List.all_eq_true.1 (hS.2 s hs)
  rcases mem_onward.1 ht with ⟨g, x, h1, rfl⟩ | ⟨e, x, h1, rfl⟩
  · exact of_decide_eq_true (h _ h1)
  · exact of_decide_eq_true (h _ h1)

theorem homing_of_path (hS : M.seesAll deaf S = true) {k : Nat} (hk : M.settled gs S k = true)
    {s t : Stage × Eye Unit} (h : Relation.ReflTransGen (M.Steps deaf) s t) (hs : s ∈ S)
    (ht : M.meets gs t = true) : s ∈ M.homing gs S k := by
  induction h using Relation.ReflTransGen.head_induction_on with
  | refl => exact homing_start k hs ht
  | head h1 _ ih =>
    refine of_decide_eq_true (List.all_eq_true.1 hk _ (List.mem_filter.2 ⟨hs, ?_⟩))
    rw [Bool.or_eq_true, List.any_eq_true]
    exact Or.inr ⟨_, h1, decide_eq_true (ih (seesAll_onward hS hs h1))⟩

/-- Some number of steps is enough. -/
theorem settled_ends (gs : List (Nat × Name × StTy)) (S : List (Stage × Eye Unit)) :
    ∃ k, M.settled gs S k = true := by
  by_contra hne
  have hsub : ∀ k, (M.homing gs S k).toFinset ⊆ S.toFinset := by
    intro k s hs
    rw [List.mem_toFinset] at hs ⊢
    cases k with
    | zero => exact (List.mem_filter.1 hs).1
    | succ k => exact (List.mem_filter.1 hs).1
  have hgrow : ∀ k, k ≤ (M.homing gs S k).toFinset.card := by
    intro k
    induction k with
    | zero => exact Nat.zero_le _
    | succ k ih =>
      refine Nat.lt_of_le_of_lt ih (Finset.card_lt_card ⟨fun s hs => ?_, fun h => hne ⟨k, ?_⟩⟩)
      · rw [List.mem_toFinset] at hs ⊢
        exact homing_succ hs
      · exact List.all_eq_true.2 fun s hs => decide_eq_true (List.mem_toFinset.1 (h (List.mem_toFinset.2 hs)))
  have h1 := hgrow (S.toFinset.card + 1)
  have h2 := Finset.card_le_card (hsub (S.toFinset.card + 1))
  omega

end Machine

/-! ## The claims -/

/-- What the machine shows in the goal. -/
theorem Machine.meets_at (hM : M.Regular) {gs : List (Nat × Name × StTy)} {c : Conf P W} {s : SM P W}
    (hd : Depicts M c s) {x : Eye Unit} (hx : x.spot = M.sight c) :
    M.meets gs (.idle, x) = true ↔ ∃ g ∈ gs, At M s g.1 g.2.1 g.2.2 := by
  unfold Machine.meets
  rw [Bool.and_eq_true, List.any_eq_true]
  simp only [decide_eq_true_eq, true_and]
  refine exists_congr fun g => and_congr_right fun _ => ?_
  unfold At
  refine and_congr_right fun h1 => and_congr_right fun h2 => ?_
  rw [hx, hd.cur, List.getElem?_map]
  show c.slots[g.1]? = _ ↔ _
  constructor
  · intro h; rw [h]; rfl
  · intro h
    cases hc : c.slots[g.1]? with
    | none => rw [hc] at h; cases h
    | some o =>
      rw [hc] at h
      cases o with
      | none => cases h
      | some l =>
        have := hM.comb_inj h1 h2 (Option.some.inj (Option.some.inj h))
        exact congrArg (fun l => some (some l)) this

/-- C88: what a client observes says where the machine is, what it remembers and which kinds of events
wait. -/
theorem C88_determines (hM : M.Regular) {d d' : Dep} {ss : List Sign} {s : SM P W} {s' : SM P' W'}
    (h : Observed M sem d ss s) (h' : Observed M sem' d' ss s') :
    s.cur = s'.cur ∧ s.hist = s'.hist ∧ (M.orthogonal = true → s.regions = s'.regions) ∧
      s.queue.map Prod.fst = s'.queue.map Prod.fst := by
  obtain ⟨c, x, hc, _, _, hx, h1, h2, h3⟩ := h.sees (mon := recorder) hM
  obtain ⟨c', x', hc', _, _, hx', h1', h2', h3'⟩ := h'.sees (mon := recorder) hM
  have he : recorder.hearAll (some recorder.init) ss = some ss := recorder_hearAll [] ss
  rw [he] at h3 h3'
  have := hx.heard_determines hx' h3 h3'
  subst this
  have hs : M.sight c = M.sight c' := h1.symm.trans h1'
  refine ⟨?_, ?_, fun ho => ?_, ?_⟩
  · rw [hc.cur, hc'.cur, show c.slots = c'.slots from congrArg Spot.slots hs]
  · refine List.ext_getElem? fun i => ?_
    by_cases hi : i < M.nParents
    · obtain ⟨p, hp, rfl⟩ : ∃ p ∈ M.composites, M.parentIdx p = i := by
        refine ⟨M.parents[i], ?_, indexOf_of_getElem (List.getElem?_eq_getElem hi) (nodup_uniq _)
          hM.nParents_small⟩
        rw [Machine.composites_eq]; exact List.getElem_mem hi
      rw [hc.hist p hp, hc'.hist p hp]
      have hm : M.composites.map c.memory = M.composites.map c'.memory := congrArg Spot.memory hs
      rw [List.map_inj_left.1 hm p hp]
    · rw [List.getElem?_eq_none (by rw [hc.histLen]; omega),
        List.getElem?_eq_none (by rw [hc'.histLen]; omega)]
  · rw [hc.regions ho, hc'.regions ho]
    exact congrArg Spot.active hs
  · rw [hc.queue, hc'.queue, ← h2, ← h2']

variable {gs : List (Nat × Name × StTy)} {S : List (Stage × Eye Unit)} {k : Nat}

/-- C88: if a list leaves out nothing and each entry between two calls leads to the goal, the machine can
always get there. -/
theorem C88_recovers (hM : M.Regular)
    (hC : M.ScopesReal ∧ (M.orthogonal = true → M.declaredInitials M.root ≠ []))
    (hS : M.seesAll deaf S = true) (hk : M.returns gs S k = true) : Recovers M gs := by
  intro P W sem d ss s h
  obtain ⟨c, x, hc, _, _, hx, h1, h2, h3⟩ := h.sees (mon := recorder) hM
  have he : recorder.hearAll (some recorder.init) ss = some ss := recorder_hearAll [] ss
  rw [he] at h3
  have hm := Machine.Sees.mute (s := (.idle, x)) hx
  have hin := List.all_eq_true.1 hk _ (Machine.seesAll_sees hS hm)
  have hin : Machine.mute (.idle, x) ∈ M.homing gs S k := of_decide_eq_true (by simpa [Machine.mute] using hin)
  obtain ⟨t, ht, hg⟩ := Machine.homing_path hin
  obtain ⟨⟨g, y⟩, hu, rfl⟩ := Machine.path_unmute ht
  have hi : g = .idle := by
    unfold Machine.meets at hg
    rw [Bool.and_eq_true] at hg
    exact of_decide_eq_true hg.1
  subst hi
  obtain ⟨l, hl, ss', rfl⟩ := Machine.path_heard (s := (.idle, x)) h3 hu
  have hy : M.Sees recorder .idle y := Machine.Sees.path (s := (.idle, x)) hx hu
  obtain ⟨l, s', c', hst⟩ := hy.getsTo (T := listed) (δ := d) hM [] hC
  have : l = ss ++ ss' := by
    have e := hst.heard
    have e2 : recorder.hearAll (some recorder.init) l = some l := recorder_hearAll [] l
    rw [e2, hl] at e
    exact (Option.some.inj e).symm
  subst this
  exact ⟨_, _, _, ss', s', hst.observed, (Machine.meets_at hM hst.depicts (x := (Machine.mute (.idle, y)).2) hst.spot).1 hg⟩

/-- C88: if an entry that `watch` computes does not lead to the goal, some client observes something after
which no client ever gets there. -/
theorem C88_stuck (hM : M.Regular)
    (hC : M.ScopesReal ∧ (M.orthogonal = true → M.declaredInitials M.root ≠ [])) {n : Nat}
    (hS : M.seesAll deaf (M.watch deaf n) = true) (hk : M.settled gs (M.watch deaf n) k = true)
    (hr : M.returns gs (M.watch deaf n) k = false) (d : Dep) :
    ∃ ss s, Observed M script d ss s ∧ ∀ (P' W' : Type) (sem' : Sem P' W') (d' : Dep) (ss' : List Sign)
      (s' : SM P' W'), Observed M sem' d' (ss ++ ss') s' → ¬ ∃ g ∈ gs, At M s' g.1 g.2.1 g.2.2 := by
  unfold Machine.returns at hr
  obtain ⟨⟨g, z⟩, hz, hb⟩ := List.all_eq_false.1 hr
  rw [Bool.not_eq_true, Bool.or_eq_false_iff] at hb
  have hi : g = .idle := by simpa using hb.1
  subst hi
  have hn : (Stage.idle, z) ∉ M.homing gs (M.watch deaf n) k := by simpa using hb.2
  obtain ⟨x, hx, rfl⟩ := (Machine.watch_sees n hz).told (mon := recorder) (f := fun _ => some ()) (fun _ _ => rfl) rfl
  obtain ⟨ss, s, c, hst⟩ := hx.getsTo (T := listed) (δ := d) hM [] hC
  have h3 : x.heard = some ss := by rw [hst.heard]; exact recorder_hearAll [] ss
  refine ⟨ss, s, hst.observed, fun P' W' sem' d' ss' s' h' hg => hn ?_⟩
  obtain ⟨c', y, hc', _, _, hy, h1', _, h3'⟩ := h'.sees (mon := recorder) hM
  have he : recorder.hearAll (some recorder.init) (ss ++ ss') = some (ss ++ ss') := recorder_hearAll [] _
  rw [he] at h3'
  have hp := Machine.path_mute (hx.path_of_heard hy h3 h3')
  exact Machine.homing_of_path hS hk hp hz
    ((Machine.meets_at hM hc' (x := (Machine.mute (.idle, y)).2) h1').2 hg)

/-- C88: such a list decides whether the machine can always get to the goal. -/
theorem C88_decides (hM : M.Regular)
    (hC : M.ScopesReal ∧ (M.orthogonal = true → M.declaredInitials M.root ≠ [])) {n : Nat}
    (hS : M.seesAll deaf (M.watch deaf n) = true) (hk : M.settled gs (M.watch deaf n) k = true) :
    M.returns gs (M.watch deaf n) k = true ↔ Recovers M gs := by
  refine ⟨C88_recovers hM hC hS, fun h => ?_⟩
  cases hr : M.returns gs (M.watch deaf n) k with
  | true => rfl
  | false =>
    obtain ⟨ss, s, h1, h2⟩ := C88_stuck hM hC hS hk hr 0
    obtain ⟨P', W', sem', ss', s', h3, h4⟩ := h _ _ _ _ _ _ h1
    exact (h2 _ _ _ _ _ _ h3 h4).elim

/-- C88: without deferred events the computation comes to an end. -/
theorem C88_found (hd : M.deferring = false) (gs : List (Nat × Name × StTy)) :
    ∃ n k, M.seesAll deaf (M.watch deaf n) = true ∧ M.settled gs (M.watch deaf n) k = true := by
  obtain ⟨n, hn⟩ := Machine.watch_ends (M := M) (mon := deaf) hd
  obtain ⟨k, hk⟩ := Machine.settled_ends (M := M) gs (M.watch deaf n)
  exact ⟨n, k, hn, hk⟩

/-! ## Examples -/

namespace Ex

/-- The wicket can always be locked again, whatever its guard answers and its actions throw. -/
example : Recovers wicket [(0, 0, .st 1)] :=
  C88_recovers wicket_regular wicket_builds (S := wicket.watch deaf 2) (k := 2) (by decide +kernel) (by decide +kernel)

/-- A switch between 1 and 2 that blows (3) if guard 10 accepts. -/
def fuse : Machine := .ofList
  [ { table := some [ row (ini 1) (ev 0) none none (.st 2), row (.st 2) (ev 0) none none (.st 1),
        row (.st 2) (ev 1) (some 10) (some 1) (.st 3) ]
      handler := some 9 }, {}, {}, {} ] [1]

theorem fuse_regular : fuse.Regular := Machine.regular_ofList (by decide +kernel)
theorem fuse_scoped : fuse.Scoped := Machine.scoped_of_check (by decide +kernel)

theorem fuse_builds : fuse.ScopesReal ∧ (fuse.orthogonal = true → fuse.declaredInitials fuse.root ≠ []) :=
  ⟨(Machine.scopesReal_iff fuse_regular).2 ⟨fuse_scoped.src, fuse_scoped.comp⟩,
    fun h => absurd h (by decide +kernel)⟩

/-- When it has blown, nothing brings it back. -/
theorem fuse_blows : ∃ ss s, Observed fuse script 0 ss s ∧ ∀ (P' W' : Type) (sem' : Sem P' W') (d' : Dep)
    (ss' : List Sign) (s' : SM P' W'), Observed fuse sem' d' (ss ++ ss') s' →
    ¬ ∃ g ∈ [(0, 0, .st 1)], At fuse s' g.1 g.2.1 g.2.2 :=
  C88_stuck fuse_regular fuse_builds (n := 4) (k := 4) (by decide +kernel) (by decide +kernel) (by decide +kernel) 0

example : ¬ Recovers fuse [(0, 0, .st 1)] := fun h => by
  obtain ⟨ss, s, h1, h2⟩ := fuse_blows
  obtain ⟨P', W', sem', ss', s', h3, h4⟩ := h _ _ _ _ _ _ h1
  exact h2 _ _ _ _ _ _ h3 h4

/-- It can always get to 1 or 3, and it always can blow. -/
example : Recovers fuse [(0, 0, .st 1), (0, 0, .st 3)] ∧ Recovers fuse [(0, 0, .st 3)] :=
  ⟨C88_recovers fuse_regular fuse_builds (S := fuse.watch deaf 4) (k := 4) (by decide +kernel) (by decide +kernel),
    C88_recovers fuse_regular fuse_builds (S := fuse.watch deaf 4) (k := 4) (by decide +kernel) (by decide +kernel)⟩

end Ex

namespace Programs

theorem turnstile_builds :
    turnstile.ScopesReal ∧ (turnstile.orthogonal = true → turnstile.declaredInitials turnstile.root ≠ []) :=
  ⟨(Machine.scopesReal_iff turnstile_regular).2 ⟨turnstile_scoped.src, turnstile_scoped.comp⟩,
    fun h => absurd h (by decide +kernel)⟩

theorem cdplayer_builds :
    cdplayer.ScopesReal ∧ (cdplayer.orthogonal = true → cdplayer.declaredInitials cdplayer.root ≠ []) :=
  ⟨(Machine.scopesReal_iff cdplayer_regular).2 ⟨cdplayer_scoped.src, cdplayer_scoped.comp⟩,
    fun h => absurd h (by decide +kernel)⟩

/-- C88, turnstile: it can always be locked and always be unlocked. -/
theorem C88_turnstile : Recovers turnstile [(0, 0, .st 1)] ∧ Recovers turnstile [(0, 0, .st 2)] :=
  ⟨C88_recovers turnstile_regular turnstile_builds (S := turnstile.watch deaf 2) (k := 2) (by decide +kernel)
      (by decide +kernel),
    C88_recovers turnstile_regular turnstile_builds (S := turnstile.watch deaf 2) (k := 2) (by decide +kernel)
      (by decide +kernel)⟩

/-- C88, cdplayer: whatever happened, it can always get back to Empty and always play the third song. -/
theorem C88_cdplayer : Recovers cdplayer [(0, 0, .st 1)] ∧ Recovers cdplayer [(0, 8, .st 7)] :=
  ⟨C88_recovers cdplayer_regular cdplayer_builds (S := cdplayer.watch deaf 4) (k := 2) (by decide +kernel)
      (by decide +kernel),
    C88_recovers cdplayer_regular cdplayer_builds (S := cdplayer.watch deaf 4) (k := 5) (by decide +kernel)
      (by decide +kernel)⟩

end Programs

end Hsm
