import Verif.ReturnGen
import Verif.PropsReplaceGen

/-!
# C108: whether a machine of either header can always get somewhere can be decided
-/

namespace Hsm

variable {P W P' W' Q Q' α β : Type} {M : Machine} {sem : Sem P W} {sem' : Sem P' W'}

namespace Machine
variable {i : Header} {b : List Sign}

theorem seeNextIn_coded (g : Stage) {x : Eye (List Sign)} (h : x.heard = some b) :
    Coded b (M.seeNextIn i recorder g x) := by
  cases i
  · exact seeNext_coded g h
  · exact seeNextG_coded g h

/-! ## Paths -/

/-- One step. -/
def StepsIn (i : Header) (M : Machine) (mon : Monitor Q) (s t : Stage × Eye Q) : Prop := t ∈ M.onwardIn i mon s

theorem mem_onwardIn {mon : Monitor Q} {s t : Stage × Eye Q} : t ∈ M.onwardIn i mon s ↔
    (∃ g x, .ok g x ∈ M.seeNextIn i mon s.1 s.2 ∧ t = (g, x)) ∨
    ∃ e x, .throw e x ∈ M.seeNextIn i mon s.1 s.2 ∧ t = (.idle, seeSign mon .exception x) := by
  unfold onwardIn
  rw [List.mem_filterMap]
  constructor
  · rintro ⟨y, hy, h⟩
    split at h
    · cases h; exact Or.inl ⟨_, _, hy, rfl⟩
    · cases h; exact Or.inr ⟨_, _, hy, rfl⟩
    · cases h
  · rintro (⟨g, x, h, rfl⟩ | ⟨e, x, h, rfl⟩)
    · exact ⟨_, h, rfl⟩
    · exact ⟨_, h, rfl⟩

theorem SeesIn.steps {mon : Monitor Q} {s t : Stage × Eye Q} (h : M.SeesIn i mon s.1 s.2)
    (ht : M.StepsIn i mon s t) : M.SeesIn i mon t.1 t.2 := by
  rcases mem_onwardIn.1 ht with ⟨g, x, h1, rfl⟩ | ⟨e, x, h1, rfl⟩
  · exact h.ok h1
  · exact h.throw h1

theorem SeesIn.path {mon : Monitor Q} {s t : Stage × Eye Q} (h : M.SeesIn i mon s.1 s.2)
    (ht : Relation.ReflTransGen (M.StepsIn i mon) s t) : M.SeesIn i mon t.1 t.2 := by
  induction ht with
  | refl => exact h
  | tail _ hs ih => exact ih.steps hs

theorem SeesIn.from_start {mon : Monitor Q} {g : Stage} {x : Eye Q} (h : M.SeesIn i mon g x) :
    Relation.ReflTransGen (M.StepsIn i mon) (.idle, M.seeStart mon) (g, x) :=
  SeesIn.induct (C := fun g x => Relation.ReflTransGen (M.StepsIn i mon) (.idle, M.seeStart mon) (g, x)) .refl
    (fun _ ih hn _ => ih.tail (mem_onwardIn.2 (Or.inl ⟨_, _, hn, rfl⟩)))
    (fun _ ih hn _ => ih.tail (mem_onwardIn.2 (Or.inr ⟨_, _, hn, rfl⟩))) h

/-- The steps after `b` are told apart by what is heard. -/
theorem stepsIn_coded {s : Stage × Eye (List Sign)} (h : s.2.heard = some b) :
    (∀ t, M.StepsIn i recorder s t → ∃ l, t.2.heard = some l ∧ b <+: l) ∧
    ∀ t t', M.StepsIn i recorder s t → M.StepsIn i recorder s t' → ∀ l l', t.2.heard = some l → t'.2.heard = some l' →
      l <+: l' → t = t' := by
  have hc := seeNextIn_coded (M := M) (i := i) s.1 h
  refine ⟨fun t ht => ?_, fun t t' ht ht' l l' hl hl' hp => ?_⟩
  · rcases mem_onwardIn.1 ht with ⟨g, x, h1, rfl⟩ | ⟨e, x, h1, rfl⟩
    · exact hc.from' _ h1
    · obtain ⟨l, h2, h3⟩ := hc.from' _ h1
      exact ⟨_, heard_sign h2 _, h3.trans (List.prefix_append _ _)⟩
  · have cut : ∀ {a c : List Sign} {s : Sign}, a <+: c ++ [s] → a <+: c ∨ c <+: a := by
      intro a c s h
      rcases List.prefix_or_prefix_of_prefix h (List.prefix_append c [s]) with h | h
      · exact Or.inl h
      · exact Or.inr h
    have same : ∀ {y y' : Res (Eye (List Sign)) Stage} {m m' : List Sign}, y ∈ M.seeNextIn i recorder s.1 s.2 →
        y' ∈ M.seeNextIn i recorder s.1 s.2 → y.says = some m → y'.says = some m' → m <+: m' ∨ m' <+: m → y = y' := by
      intro y y' m m' hy hy' hm hm' h
      rcases h with h | h
      · exact hc.apart y hy y' hy' _ _ hm hm' h
      · exact (hc.apart y' hy' y hy _ _ hm' hm h).symm
    rcases mem_onwardIn.1 ht with ⟨g, x, h1, rfl⟩ | ⟨e, x, h1, rfl⟩ <;>
      rcases mem_onwardIn.1 ht' with ⟨g', x', h1', rfl⟩ | ⟨e', x', h1', rfl⟩
    · cases same h1 h1' hl hl' (Or.inl hp); rfl
    · obtain ⟨m, h2, _⟩ := hc.from' _ h1'
      have e2 := Option.some.inj ((heard_sign h2 _).symm.trans hl')
      subst e2
      cases same h1 h1' hl h2 (cut hp)
    · obtain ⟨m, h2, _⟩ := hc.from' _ h1
      have e2 := Option.some.inj ((heard_sign h2 _).symm.trans hl)
      subst e2
      cases same h1 h1' h2 hl' (Or.inl ((List.prefix_append _ _).trans hp))
    · obtain ⟨m, h2, _⟩ := hc.from' _ h1
      obtain ⟨m', h2', _⟩ := hc.from' _ h1'
      have e2 := Option.some.inj ((heard_sign h2 _).symm.trans hl)
      have e2' := Option.some.inj ((heard_sign h2' _).symm.trans hl')
      subst e2 e2'
      cases same h1 h1' h2 h2' (cut ((List.prefix_append _ _).trans hp))
      rfl

theorem pathIn_heard {s t : Stage × Eye (List Sign)} (h : s.2.heard = some b)
    (ht : Relation.ReflTransGen (M.StepsIn i recorder) s t) : ∃ l, t.2.heard = some l ∧ b <+: l := by
  induction ht with
  | refl => exact ⟨b, h, List.prefix_refl _⟩
  | tail _ hs ih =>
    obtain ⟨l, h1, h2⟩ := ih
    obtain ⟨l', h3, h4⟩ := (stepsIn_coded h1).1 _ hs
    exact ⟨l', h3, h2.trans h4⟩

/-- Paths do not part without a sign. -/
theorem pathIn_tree {s t u : Stage × Eye (List Sign)} (hb : s.2.heard = some b)
    (ht : Relation.ReflTransGen (M.StepsIn i recorder) s t) (hu : Relation.ReflTransGen (M.StepsIn i recorder) s u)
    {l l' : List Sign} (hl : t.2.heard = some l) (hl' : u.2.heard = some l') (hp : l <+: l') :
    Relation.ReflTransGen (M.StepsIn i recorder) t u ∨ Relation.ReflTransGen (M.StepsIn i recorder) u t := by
  induction ht using Relation.ReflTransGen.head_induction_on generalizing b with
  | refl => exact Or.inl hu
  | @head s s1 h1 h2 ih =>
    rcases Relation.ReflTransGen.cases_head hu with rfl | ⟨u1, h3, h4⟩
    · exact Or.inr (.head h1 h2)
    · obtain ⟨m, e1, _⟩ := (stepsIn_coded hb).1 _ h1
      obtain ⟨m', e2, _⟩ := (stepsIn_coded hb).1 _ h3
      obtain ⟨l1, e3, p1⟩ := pathIn_heard e1 h2
      obtain ⟨l2, e4, p2⟩ := pathIn_heard e2 h4
      cases e3.symm.trans hl
      cases e4.symm.trans hl'
      have : s1 = u1 := by
        rcases List.prefix_or_prefix_of_prefix (p1.trans hp) p2 with h | h
        · exact (stepsIn_coded hb).2 _ _ h1 h3 _ _ e1 e2 h
        · exact ((stepsIn_coded hb).2 _ _ h3 h1 _ _ e2 e1 h).symm
      subst this
      exact ih e1 h4

/-- Between two calls the next step is heard. -/
theorem idleIn_step {x : Eye (List Sign)} {t : Stage × Eye (List Sign)} (h : x.heard = some b)
    (ht : M.StepsIn i recorder (.idle, x) t) : ∃ s l, t.2.heard = some l ∧ b ++ [s] <+: l := by
  have key : ∀ y ∈ M.seeNextIn i recorder .idle x, ∃ ev, y.heardFrom (b ++ [.event ev]) := by
    intro y hy
    cases i with
    | modular =>
      obtain ⟨ev, _, hy⟩ := List.mem_flatMap.1 hy
      exact ⟨ev, (seeReceive_coded ev (heard_sign h _)).from' y hy⟩
    | amalgamated =>
      obtain ⟨ev, _, hy⟩ := List.mem_flatMap.1 hy
      exact ⟨ev, (seeReceiveG_coded ev (heard_sign h _)).from' y hy⟩
  rcases mem_onwardIn.1 ht with ⟨g, x, h1, rfl⟩ | ⟨e, x, h1, rfl⟩
  · obtain ⟨ev, l, h2, h3⟩ := key _ h1
    exact ⟨_, l, h2, h3⟩
  · obtain ⟨ev, l, h2, h3⟩ := key _ h1
    exact ⟨_, _, heard_sign h2 _, h3.trans (List.prefix_append _ _)⟩

/-- What follows in what was heard follows on the way. -/
theorem SeesIn.path_of_heard {x y : Eye (List Sign)} (hx : M.SeesIn i recorder .idle x) (hy : M.SeesIn i recorder .idle y)
    {a c : List Sign} (ha : x.heard = some a) (hc : y.heard = some (a ++ c)) :
    Relation.ReflTransGen (M.StepsIn i recorder) (.idle, x) (.idle, y) := by
  rcases pathIn_tree (b := []) rfl hx.from_start hy.from_start ha hc (List.prefix_append _ _) with h | h
  · exact h
  · rcases Relation.ReflTransGen.cases_head h with h | ⟨t, h1, h2⟩
    · rw [h]
    · obtain ⟨s, l, e1, p1⟩ := idleIn_step hc h1
      obtain ⟨l', e2, p2⟩ := pathIn_heard e1 h2
      cases e2.symm.trans ha
      have := (p1.trans p2).length_le
      simp at this
      omega

/-- What was heard says where the machine is. -/
theorem SeesIn.heard_determines {x y : Eye (List Sign)} (hx : M.SeesIn i recorder .idle x) (hy : M.SeesIn i recorder .idle y)
    {a : List Sign} (ha : x.heard = some a) (hc : y.heard = some a) : x = y := by
  have h := hx.path_of_heard hy ha (c := []) (by rw [List.append_nil]; exact hc)
  rcases Relation.ReflTransGen.cases_head h with h | ⟨t, h1, h2⟩
  · injection h
  · obtain ⟨s, l, e1, p1⟩ := idleIn_step ha h1
    obtain ⟨l', e2, p2⟩ := pathIn_heard e1 h2
    cases e2.symm.trans hc
    have := (p1.trans p2).length_le
    simp at this
    omega

/-! ## Listening or not -/

theorem onwardIn_mute (s : Stage × Eye (List Sign)) : M.onwardIn i deaf (mute s) = (M.onwardIn i recorder s).map mute := by
  unfold onwardIn mute
  dsimp only
  rw [seeNextIn_tell (mon := recorder) (mon' := deaf) (f := fun _ => some ()) (fun _ _ => rfl), List.filterMap_map,
    List.map_filterMap]
  refine List.filterMap_congr fun y _ => ?_
  cases y <;> rfl

theorem StepsIn.mute {s t : Stage × Eye (List Sign)} (h : M.StepsIn i recorder s t) :
    M.StepsIn i deaf (Machine.mute s) (Machine.mute t) := by
  unfold StepsIn
  rw [onwardIn_mute]
  exact List.mem_map_of_mem h

theorem pathIn_mute {s t : Stage × Eye (List Sign)} (h : Relation.ReflTransGen (M.StepsIn i recorder) s t) :
    Relation.ReflTransGen (M.StepsIn i deaf) (mute s) (mute t) := by
  induction h with
  | refl => exact .refl
  | tail _ hs ih => exact ih.tail hs.mute

theorem pathIn_unmute {s : Stage × Eye (List Sign)} {t : Stage × Eye Unit}
    (h : Relation.ReflTransGen (M.StepsIn i deaf) (mute s) t) :
    ∃ u, Relation.ReflTransGen (M.StepsIn i recorder) s u ∧ mute u = t := by
  induction h with
  | refl => exact ⟨s, .refl, rfl⟩
  | tail _ hs ih =>
    obtain ⟨u, h1, rfl⟩ := ih
    unfold StepsIn at hs
    rw [onwardIn_mute] at hs
    obtain ⟨w, hw, rfl⟩ := List.mem_map.1 hs
    exact ⟨w, h1.tail hw, rfl⟩

theorem SeesIn.mute {s : Stage × Eye (List Sign)} (h : M.SeesIn i recorder s.1 s.2) :
    M.SeesIn i deaf (mute s).1 (mute s).2 :=
  SeesIn.path (s := (.idle, M.seeStart deaf)) .start (pathIn_mute h.from_start)

/-! ## StepsIn towards the goal -/

variable {gs : List (Nat × Name × StTy)} {S : List (Stage × Eye Unit)}

theorem homingIn_path : ∀ {k : Nat} {s : Stage × Eye Unit}, s ∈ M.homingIn i gs S k →
    ∃ t, Relation.ReflTransGen (M.StepsIn i deaf) s t ∧ M.meets gs t = true
  | 0, s, h => ⟨s, .refl, (List.mem_filter.1 h).2⟩
  | k + 1, s, h => by
    have := (List.mem_filter.1 h).2
    rw [Bool.or_eq_true, decide_eq_true_eq, List.any_eq_true] at this
    rcases this with h | ⟨u, h1, h2⟩
    · exact homingIn_path h
    · obtain ⟨t, h3, h4⟩ := homingIn_path (of_decide_eq_true h2)
      exact ⟨t, .head h1 h3, h4⟩

theorem homingIn_succ {k : Nat} {s : Stage × Eye Unit} (h : s ∈ M.homingIn i gs S k) : s ∈ M.homingIn i gs S (k + 1) := by
  refine List.mem_filter.2 ⟨?_, by rw [Bool.or_eq_true]; exact Or.inl (decide_eq_true h)⟩
  cases k with
  | zero => exact (List.mem_filter.1 h).1
  | succ k => exact (List.mem_filter.1 h).1

theorem homingIn_start : ∀ (k : Nat) {s : Stage × Eye Unit}, s ∈ S → M.meets gs s = true → s ∈ M.homingIn i gs S k
  | 0, _, h, hm => List.mem_filter.2 ⟨h, hm⟩
  | k + 1, _, h, hm => homingIn_succ (homingIn_start k h hm)

theorem seesAllIn_onward (hS : M.seesAllIn i deaf S = true) {s t : Stage × Eye Unit} (hs : s ∈ S)
    (ht : M.StepsIn i deaf s t) : t ∈ S := by
  cases i with
  | modular =>
    unfold seesAllIn seesAll at hS
    rw [Bool.and_eq_true, List.all_eq_true] at hS
    have h := List.all_eq_true.1 (hS.2 s hs)
    rcases mem_onwardIn.1 ht with ⟨g, x, h1, rfl⟩ | ⟨e, x, h1, rfl⟩
    · exact of_decide_eq_true (h _ h1)
    · exact of_decide_eq_true (h _ h1)
  | amalgamated =>
    unfold seesAllIn seesAllG at hS
    rw [Bool.and_eq_true, List.all_eq_true] at hS
    have h := List.all_eq_true.1 (hS.2 s hs)
    rcases mem_onwardIn.1 ht with ⟨g, x, h1, rfl⟩ | ⟨e, x, h1, rfl⟩
    · exact of_decide_eq_true (h _ h1)
    · exact of_decide_eq_true (h _ h1)

theorem homingIn_of_path (hS : M.seesAllIn i deaf S = true) {k : Nat} (hk : M.settledIn i gs S k = true)
    {s t : Stage × Eye Unit} (h : Relation.ReflTransGen (M.StepsIn i deaf) s t) (hs : s ∈ S)
    (ht : M.meets gs t = true) : s ∈ M.homingIn i gs S k := by
  induction h using Relation.ReflTransGen.head_induction_on with
  | refl => exact homingIn_start k hs ht
  | head h1 _ ih =>
    refine of_decide_eq_true (List.all_eq_true.1 hk _ (List.mem_filter.2 ⟨hs, ?_⟩))
    rw [Bool.or_eq_true, List.any_eq_true]
    exact Or.inr ⟨_, h1, decide_eq_true (ih (seesAllIn_onward hS hs h1))⟩

/-- Some number of steps is enough. -/
theorem settledIn_ends (gs : List (Nat × Name × StTy)) (S : List (Stage × Eye Unit)) :
    ∃ k, M.settledIn i gs S k = true := by
  by_contra hne
  have hsub : ∀ k, (M.homingIn i gs S k).toFinset ⊆ S.toFinset := by
    intro k s hs
    rw [List.mem_toFinset] at hs ⊢
    cases k with
    | zero => exact (List.mem_filter.1 hs).1
    | succ k => exact (List.mem_filter.1 hs).1
  have hgrow : ∀ k, k ≤ (M.homingIn i gs S k).toFinset.card := by
    intro k
    induction k with
    | zero => exact Nat.zero_le _
    | succ k ih =>
      refine Nat.lt_of_le_of_lt ih (Finset.card_lt_card ⟨fun s hs => ?_, fun h => hne ⟨k, ?_⟩⟩)
      · rw [List.mem_toFinset] at hs ⊢
        exact homingIn_succ hs
      · exact List.all_eq_true.2 fun s hs => decide_eq_true (List.mem_toFinset.1 (h (List.mem_toFinset.2 hs)))
  have h1 := hgrow (S.toFinset.card + 1)
  have h2 := Finset.card_le_card (hsub (S.toFinset.card + 1))
  omega

end Machine

/-! ## The claims -/

variable {i : Header} {gs : List (Nat × Name × StTy)} {S : List (Stage × Eye Unit)} {k : Nat}

/-- What the machine shows in the goal. -/
theorem Portrait.meets (hM : M.Laid) {F : List Dep → EventTy → Name → StTy → List Entry} {E : List EventTy}
    {c : Conf P W} {s : SM P W} (hd : Portrait M F E Eq c s) {x : Eye Unit} (hx : x.spot = M.sight c) :
    M.meets gs (.idle, x) = true ↔ ∃ g ∈ gs, At M s g.1 g.2.1 g.2.2 := by
  unfold Machine.meets
  rw [Bool.and_eq_true, List.any_eq_true]
  simp only [decide_eq_true_eq, true_and]
  refine exists_congr fun g => and_congr_right fun _ => ?_
  unfold At
  refine and_congr_right fun h1 => and_congr_right fun h2 => ?_
  rw [hx, hd.cur, List.getElem?_map]
  show c.slots[g.1]? = _ ↔ _
  constructor
  · intro h; rw [h]; rfl
  · intro h
    cases hc : c.slots[g.1]? with
    | none => rw [hc] at h; cases h
    | some o =>
      rw [hc] at h
      cases o with
      | none => cases h
      | some l =>
        have := hM.comb_inj h1 h2 (Option.some.inj (Option.some.inj h))
        exact congrArg (fun l => some (some l)) this

/-- Where the machine is after what a client observed. -/
theorem ObservedIn.place (hM : M.RegularIn i) {d : Dep} {ss : List Sign} {s : SM P W}
    (ho : ObservedIn i M sem d ss s) : ∃ x, M.SeesIn i recorder .idle x ∧ x.heard = some ss ∧
      (M.meets gs (Machine.mute (.idle, x)) = true ↔ ∃ g ∈ gs, At M s g.1 g.2.1 g.2.2) := by
  have he : recorder.hearAll (some recorder.init) ss = some ss := recorder_hearAll [] ss
  cases i with
  | modular =>
    obtain ⟨c, x, hc, _, _, hx, h1, h2, h3⟩ := Observed.sees (mon := recorder) hM ho
    exact ⟨x, hx, h3.trans he, Machine.meets_at hM hc (x := (Machine.mute (.idle, x)).2) h1⟩
  | amalgamated =>
    obtain ⟨c, x, hc, _, _, hx, h1, h2, h3⟩ := ObservedG.sees (mon := recorder) hM ho
    exact ⟨x, hx, h3.trans he, hc.meets (Machine.RegularG.laid hM) (x := (Machine.mute (.idle, x)).2) h1⟩

/-- Some client gets where the machine may be. -/
theorem Machine.SeesIn.reached (hM : M.RegularIn i) (hC : M.BuildsIn i) {x : Eye (List Sign)}
    (hx : M.SeesIn i recorder .idle x) (d : Dep) : ∃ ss s, x.heard = some ss ∧ ObservedIn i M script d ss s ∧
      (M.meets gs (Machine.mute (.idle, x)) = true ↔ ∃ g ∈ gs, At M s g.1 g.2.1 g.2.2) := by
  cases i with
  | modular =>
    obtain ⟨l, s, c, hst⟩ := Machine.Sees.getsTo (T := listed) (δ := d) hM [] hC hx
    exact ⟨l, s, hst.heard.trans (recorder_hearAll [] l), hst.observed,
      Machine.meets_at hM hst.depicts (x := (Machine.mute (.idle, x)).2) hst.spot⟩
  | amalgamated =>
    obtain ⟨l, s, c, hst⟩ := Machine.SeesG.getsTo (T := listed) (δ := d) hM [] hC hx
    exact ⟨l, s, hst.heard.trans (recorder_hearAll [] l), hst.observed,
      hst.depicts.meets (Machine.RegularG.laid hM) (x := (Machine.mute (.idle, x)).2) hst.spot⟩

/-- C108: what a client of the amalgamated header observes says where the machine is, what it remembers and
which kinds of events wait. -/
theorem C108_determines (hM : M.RegularG) {d d' : Dep} {ss : List Sign} {s : SM P W} {s' : SM P' W'}
    (h : ObservedG M sem d ss s) (h' : ObservedG M sem' d' ss s') :
    s.cur = s'.cur ∧ s.hist = s'.hist ∧ (M.orthogonal = true → s.regions = s'.regions) ∧
      s.queue.map Prod.fst = s'.queue.map Prod.fst := by
  obtain ⟨c, x, hc, _, _, hx, h1, h2, h3⟩ := h.sees (mon := recorder) hM
  obtain ⟨c', x', hc', _, _, hx', h1', h2', h3'⟩ := h'.sees (mon := recorder) hM
  have he : recorder.hearAll (some recorder.init) ss = some ss := recorder_hearAll [] ss
  rw [he] at h3 h3'
  have := Machine.SeesIn.heard_determines (i := .amalgamated) hx hx' h3 h3'
  subst this
  have hs : M.sight c = M.sight c' := h1.symm.trans h1'
  refine ⟨?_, ?_, fun ho => ?_, ?_⟩
  · rw [hc.cur, hc'.cur, show c.slots = c'.slots from congrArg Spot.slots hs]
  · refine List.ext_getElem? fun i => ?_
    by_cases hi : i < M.nParents
    · obtain ⟨p, hp, rfl⟩ : ∃ p ∈ M.composites, M.parentIdx p = i := by
        refine ⟨M.parents[i], ?_, indexOf_of_getElem (List.getElem?_eq_getElem hi) (nodup_uniq _)
          hM.laid.nParents_small⟩
        rw [Machine.composites_eq]; exact List.getElem_mem hi
      rw [hc.hist p hp, hc'.hist p hp]
      have hm : M.composites.map c.memory = M.composites.map c'.memory := congrArg Spot.memory hs
      rw [List.map_inj_left.1 hm p hp]
    · rw [List.getElem?_eq_none (by rw [hc.histLen]; omega),
        List.getElem?_eq_none (by rw [hc'.histLen]; omega)]
  · rw [hc.regions ho, hc'.regions ho]
    exact congrArg Spot.active hs
  · rw [hc.queue, hc'.queue, ← h2, ← h2']

/-- C108: if a list leaves out nothing and each entry between two calls leads to the goal, the machine can
always get there. -/
theorem C108_recovers (hM : M.RegularIn i) (hC : M.BuildsIn i)
    (hS : M.seesAllIn i deaf S = true) (hk : M.returnsIn i gs S k = true) : RecoversIn i M gs := by
  intro P W sem d ss s h
  obtain ⟨x, hx, h3, _⟩ := h.place (gs := gs) hM
  have hm := Machine.SeesIn.mute (s := (.idle, x)) hx
  have hin := List.all_eq_true.1 hk _ (Machine.seesAllIn_sees hS hm)
  have hin : Machine.mute (.idle, x) ∈ M.homingIn i gs S k := of_decide_eq_true (by simpa [Machine.mute] using hin)
  obtain ⟨t, ht, hg⟩ := Machine.homingIn_path hin
  obtain ⟨⟨g, y⟩, hu, rfl⟩ := Machine.pathIn_unmute ht
  have hi : g = .idle := by
    unfold Machine.meets at hg
    rw [Bool.and_eq_true] at hg
    exact of_decide_eq_true hg.1
  subst hi
  obtain ⟨l, hl, ss', rfl⟩ := Machine.pathIn_heard (s := (.idle, x)) h3 hu
  have hy : M.SeesIn i recorder .idle y := Machine.SeesIn.path (s := (.idle, x)) hx hu
  obtain ⟨l, s', h4, ho, ha⟩ := hy.reached (gs := gs) hM hC d
  cases h4.symm.trans hl
  exact ⟨_, _, _, ss', s', ho, ha.1 hg⟩

/-- C108: if an entry that `watchIn` computes does not lead to the goal, some client observes something after
which no client ever gets there. -/
theorem C108_stuck (hM : M.RegularIn i) (hC : M.BuildsIn i) {n : Nat}
    (hS : M.seesAllIn i deaf (M.watchIn i deaf n) = true) (hk : M.settledIn i gs (M.watchIn i deaf n) k = true)
    (hr : M.returnsIn i gs (M.watchIn i deaf n) k = false) (d : Dep) :
    ∃ ss s, ObservedIn i M script d ss s ∧ ∀ (P' W' : Type) (sem' : Sem P' W') (d' : Dep) (ss' : List Sign)
      (s' : SM P' W'), ObservedIn i M sem' d' (ss ++ ss') s' → ¬ ∃ g ∈ gs, At M s' g.1 g.2.1 g.2.2 := by
  unfold Machine.returnsIn at hr
  obtain ⟨⟨g, z⟩, hz, hb⟩ := List.all_eq_false.1 hr
  rw [Bool.not_eq_true, Bool.or_eq_false_iff] at hb
  have hi : g = .idle := by simpa using hb.1
  subst hi
  have hn : (Stage.idle, z) ∉ M.homingIn i gs (M.watchIn i deaf n) k := by simpa using hb.2
  obtain ⟨x, hx, rfl⟩ :=
    (Machine.watchIn_sees n hz).told (mon := recorder) (f := fun _ => some ()) (fun _ _ => rfl) rfl
  obtain ⟨ss, s, h3, ho, _⟩ := hx.reached (gs := gs) hM hC d
  refine ⟨ss, s, ho, fun P' W' sem' d' ss' s' h' hg => hn ?_⟩
  obtain ⟨y, hy, h3', ha⟩ := h'.place (gs := gs) hM
  exact Machine.homingIn_of_path hS hk (Machine.pathIn_mute (hx.path_of_heard hy h3 h3')) hz (ha.2 hg)

/-- C108: such a list decides whether the machine can always get to the goal. -/
theorem C108_decides (hM : M.RegularIn i) (hC : M.BuildsIn i) {n : Nat}
    (hS : M.seesAllIn i deaf (M.watchIn i deaf n) = true) (hk : M.settledIn i gs (M.watchIn i deaf n) k = true) :
    M.returnsIn i gs (M.watchIn i deaf n) k = true ↔ RecoversIn i M gs := by
  refine ⟨C108_recovers hM hC hS, fun h => ?_⟩
  cases hr : M.returnsIn i gs (M.watchIn i deaf n) k with
  | true => rfl
  | false =>
    obtain ⟨ss, s, h1, h2⟩ := C108_stuck hM hC hS hk hr 0
    obtain ⟨P', W', sem', ss', s', h3, h4⟩ := h _ _ _ _ _ _ h1
    exact (h2 _ _ _ _ _ _ h3 h4).elim

/-- C108: without deferred events the computation comes to an end. -/
theorem C108_found (hd : M.deferring = false) (i : Header) (gs : List (Nat × Name × StTy)) :
    ∃ n k, M.seesAllIn i deaf (M.watchIn i deaf n) = true ∧ M.settledIn i gs (M.watchIn i deaf n) k = true := by
  obtain ⟨n, hn⟩ := Machine.watchIn_ends (h := i) (mon := deaf) (Set.finite_univ) (fun _ _ _ => trivial) hd
  obtain ⟨k, hk⟩ := Machine.settledIn_ends (M := M) (i := i) gs (M.watchIn i deaf n)
  exact ⟨n, k, hn, hk⟩

/-! ## Examples -/

namespace Ex

/-- The wicket can always be locked again, with either header. -/
example (i : Header) : RecoversIn i wicket [(0, 0, .st 1)] := by
  cases i with
  | modular =>
    exact C108_recovers (i := .modular) wicket_regular wicket_builds (S := wicket.watch deaf 2) (k := 2)
      (by decide +kernel) (by decide +kernel)
  | amalgamated =>
    exact C108_recovers (i := .amalgamated) wicket_regularG (builtG wicket_regularG (by decide +kernel))
      (S := wicket.watchG deaf 2) (k := 2) (by decide +kernel) (by decide +kernel)

theorem fuse_regularG : fuse.RegularG := Machine.regularG_ofList (by decide +kernel)

/-- With the amalgamated header, too, nothing brings it back when it has blown. -/
theorem fuse_blowsG : ∃ ss s, ObservedG fuse script 0 ss s ∧ ∀ (P' W' : Type) (sem' : Sem P' W') (d' : Dep)
    (ss' : List Sign) (s' : SM P' W'), ObservedG fuse sem' d' (ss ++ ss') s' →
    ¬ ∃ g ∈ [(0, 0, .st 1)], At fuse s' g.1 g.2.1 g.2.2 :=
  C108_stuck (i := .amalgamated) fuse_regularG (builtG fuse_regularG (by decide +kernel)) (n := 4) (k := 4)
    (by decide +kernel) (by decide +kernel) (by decide +kernel) 0

example : ¬ RecoversIn .amalgamated fuse [(0, 0, .st 1)] := fun h => by
  obtain ⟨ss, s, h1, h2⟩ := fuse_blowsG
  obtain ⟨P', W', sem', ss', s', h3, h4⟩ := h _ _ _ _ _ _ h1
  exact h2 _ _ _ _ _ _ h3 h4

/-- Whether guard 10 accepts or not, it always can blow. -/
example : RecoversIn .amalgamated fuse [(0, 0, .st 3)] :=
  C108_recovers (i := .amalgamated) fuse_regularG (builtG fuse_regularG (by decide +kernel))
    (S := fuse.watchG deaf 4) (k := 4) (by decide +kernel) (by decide +kernel)

end Ex

namespace Programs

theorem turnstile_regularG : turnstile.RegularG := Machine.regularG_ofList (by decide +kernel)
theorem cdplayer_regularG : cdplayer.RegularG := Machine.regularG_ofList (by decide +kernel)

/-- C108, turnstile with the amalgamated header: it can always be locked and always be unlocked. -/
theorem C108_turnstile :
    RecoversIn .amalgamated turnstile [(0, 0, .st 1)] ∧ RecoversIn .amalgamated turnstile [(0, 0, .st 2)] :=
  ⟨C108_recovers (i := .amalgamated) turnstile_regularG (Ex.builtG turnstile_regularG (by decide +kernel))
      (S := turnstile.watchG deaf 2) (k := 2) (by decide +kernel) (by decide +kernel),
    C108_recovers (i := .amalgamated) turnstile_regularG (Ex.builtG turnstile_regularG (by decide +kernel))
      (S := turnstile.watchG deaf 2) (k := 2) (by decide +kernel) (by decide +kernel)⟩

/-- C108, cdplayer with the amalgamated header: whatever happened, it can always get back to Empty and always
play the third song. -/
theorem C108_cdplayer :
    RecoversIn .amalgamated cdplayer [(0, 0, .st 1)] ∧ RecoversIn .amalgamated cdplayer [(0, 8, .st 7)] :=
  ⟨C108_recovers (i := .amalgamated) cdplayer_regularG (Ex.builtG cdplayer_regularG (by decide +kernel))
      (S := cdplayer.watchG deaf 4) (k := 2) (by decide +kernel) (by decide +kernel),
    C108_recovers (i := .amalgamated) cdplayer_regularG (Ex.builtG cdplayer_regularG (by decide +kernel))
      (S := cdplayer.watchG deaf 4) (k := 5) (by decide +kernel) (by decide +kernel)⟩

end Programs

end Hsm
