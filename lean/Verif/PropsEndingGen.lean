import Verif.PropsEnding
import Verif.PropsReachGenR
import Verif.PropsWork

/-!
# Calls come to an end under the amalgamated header (C102)
-/

namespace Hsm

/-! ## Specification -/

section
variable {P W : Type}

/-- The callbacks of machine `M` send events only downwards. -/
structure SemR.DownwardG (sem : SemR P W) (M : Machine) (rank : EventTy → P → Nat) : Prop where
  guard : ∀ t ∈ M.extRows ++ M.intRowsG, ∀ g, t.guard = some g → ∀ a p w, a.event = t.event →
    (sem.guard g a p w).Below rank t.event p
  action : ∀ t ∈ M.extRows ++ M.intRowsG, ∀ cs, M.toRun t = some cs → ∀ x ∈ cs, ∀ a p w, a.event = t.event →
    (sem.action x.2 a p w).Below rank t.event p
  handler : ∀ h, (M.decl M.root).handler = some h → ∀ e ∈ M.eventsG, ∀ st d p w,
    (sem.handler h e st d p w).Below rank e p

end

/-- Anonymous rows are acyclic: `ρ` decreases along every row applicable at a location, and
no internal row is anonymous. -/
def AcyclicG (M : Machine) (ρ : Name × StTy → Nat) : Prop :=
  ∀ p ∈ M.composites, ∀ st ∈ M.states, ∀ c ∈ M.candsG .none p st, ∀ t, c.row? = some t →
    t.internal = false ∧ ∀ l, Leads M t l → ρ l < ρ (p, st)

section
variable {P W : Type} {M : Machine} {sem : SemR P W} {rank : EventTy → P → Nat} {T : Prop}
  {call : Nat → Op P → Conf P W → Res (Conf P W) Bool} {I : Conf P W → Prop} {K : Op P → Prop}
  {ev : EventTy} {r : Nat} {A X : Multiset Nat}

/-! ## Rows -/

theorem row_memG {cd : Cand} {e : EventTy} {p : Name} {st : StTy} {t : XRow} (h : cd ∈ M.candsG e p st)
    (ht : cd.row? = some t) : t ∈ M.extRows ++ M.intRowsG :=
  List.mem_append.2 (Machine.row_of_candsG h ht).2

theorem row_eventG {cd : Cand} {e : EventTy} {p : Name} {st : StTy} {t : XRow} (h : cd ∈ M.candsG e p st)
    (ht : cd.row? = some t) : t.event = e := (Machine.row_of_candsG h ht).1

theorem Machine.RegularG.target (hM : M.RegularG) {t : XRow} {l : Name × StTy}
    (h : t ∈ M.extRows ++ M.intRowsG) (hl : M.targetLoc t = some l) : l.2 ∈ M.states := by
  obtain ⟨k, hk, hs⟩ := (hM.compiles.ends t h).2
  rw [hl] at hk
  cases hk
  exact hs

theorem Snug.travelG {c c' : Conf P W} (h : Snug M c) {r : Nat} {t : XRow} {l : Name × StTy} {u : Unit}
    (hm : t ∈ M.extRows ++ M.intRowsG) (hl : M.targetLoc t = some l) (hls : l.2 ∈ M.states)
    (ht : M.travel r t l c = .ok u c') :
    Snug M c' ∧ c'.waiting = c.waiting ∧
      (t.internal = false → ∃ k, Leads M t k ∧ c'.slots = c.slots.set r (some k)) := by
  rcases List.mem_append.1 hm with hm | hm
  · exact h.travel (List.mem_append_left _ (by rwa [← Machine.extRows_eq])) hl hls ht
  · have hi := Machine.intRowsG_internal hm
    unfold Machine.travel at ht
    rw [if_pos hi] at ht
    cases ht
    exact ⟨h, rfl, fun h' => by rw [hi] at h'; cases h'⟩

/-! ## What calls do -/

/-- Calls below `X` end. -/
def ObeysG (T : Prop) (M : Machine) (rank : EventTy → P → Nat) (X : Multiset Nat)
    (call : Nat → Op P → Conf P W → Res (Conf P W) Bool) : Prop :=
  ∀ op c, OpOkGR M op → Snug M c →
    (∀ ev p, op = .process ev p → Less ({2 * rank ev p + 1} + burden rank c.waiting) X) →
    Returns T (fun _ c' => Snug M c' ∧ Leftover rank c c' op) (fun c' => Snug M c' ∧ Leftover rank c c' op)
      fun n => call n op c

theorem ObeysG.amid (h : ObeysG T M rank X call) (hX : AtMost ({2 * r} + A) X) :
    Heeds T (fun op => OpOkGR M op ∧ Low rank ev r op) (Amid M rank r A) call := by
  intro op c hop hc
  have key : ∀ c' : Conf P W, Snug M c' ∧ Leftover rank c c' op → Amid M rank r A c' := by
    rintro c' ⟨h1, h2⟩
    refine ⟨h1, ?_⟩
    cases op with
    | process ev' p => exact hc.2.trans (h2.mono (by have := hop.2.2; omega))
    | set r p st => rw [show c'.waiting = c.waiting from h2]; exact hc.2
    | setDependency d => rw [show c'.waiting = c.waiting from h2.1]; exact hc.2
  refine (h op c hop.1 hc.1 ?_).mono (fun _ => key) key
  rintro ev' p rfl
  exact (hc.2.more (by have := hop.2.2; omega)).atMost hX

theorem ObeysG.aside (h : ObeysG T M rank X call) (q : List (EventTy × P)) (σ : List (Option (Name × StTy))) :
    Heeds T (Low rank .none r) (Aside M q σ) call := by
  intro op c hop hc
  cases op with
  | process ev p => exact absurd rfl hop.1
  | set r p st => exact absurd rfl hop
  | setDependency d =>
    refine (h (.setDependency d) c trivial hc.1 (fun _ _ h => by cases h)).mono ?_ ?_
    · exact fun _ c' h => ⟨h.1, h.2.1.trans hc.2.1, h.2.2.trans hc.2.2⟩
    · exact fun c' h => ⟨h.1, h.2.1.trans hc.2.1, h.2.2.trans hc.2.2⟩


variable {ρ : Name × StTy → Nat} {q : List (EventTy × P)}

theorem takeAnonG_returns (h : ObeysG T M rank X call) (hd : sem.DownwardG M rank) (hM : M.RegularG)
    (hρ : AcyclicG M ρ) {i : Nat} {l : Name × StTy}
    (h1 : l.1 ∈ M.composites) (h2 : l.2 ∈ M.states) {d : Dep} {cd : Cand} {t : XRow} {k : Name × StTy}
    (hcd : cd ∈ M.candsG .none l.1 l.2) (ht : cd.row? = some t) (hk : M.targetLoc t = some k) {p : P}
    (hr : rank .none p ≤ r) {c : Conf P W} (hc : Snug M c) (hq : c.waiting = q)
    (hl : c.slots[i]? = some (some l)) :
    Returns T (fun p c' => (Snug M c' ∧ c'.waiting = q ∧ heft M ρ c'.slots < heft M ρ c.slots) ∧
        rank .none p ≤ r)
      (fun c' => Snug M c' ∧ c'.waiting = q) fun n => M.takeR sem (call n) i .none d cd t k p c := by
  have hm := row_memG hcd ht
  have hte := row_eventG hcd ht
  obtain ⟨hi, hlt⟩ := hρ l.1 h1 l.2 h2 cd hcd t ht
  unfold Machine.takeR
  refine Returns.bind (Q := fun _ c' => Snug M c' ∧ c'.waiting = q ∧
    heft M ρ c'.slots < heft M ρ c.slots) (travel_returns fun u c' htr => ?_) ?_
  · obtain ⟨h3, h4, h5⟩ := hc.travelG hm hk (hM.target hm hk) htr
    obtain ⟨k', hL, hs⟩ := h5 hi
    refine ⟨h3, h4.trans hq, ?_⟩
    rw [hs]
    exact heft_set hl h1 h2 (hlt k' hL)
  · rintro u c' ⟨h3, h4, h5⟩
    cases hto : M.toRun t with
    | none => exact .const ⟨⟨h3, h4, h5⟩, hr⟩
    | some cs =>
      dsimp only
      split
      · refine ((h.aside (r := r) q c'.slots).performR Aside.airy (ev := .none) cs (fun x hx p w hr => ?_) p c' hr
          ⟨h3, h4, rfl⟩).mono ?_ ?_
        · have hb := hd.action t hm cs hto x hx (cbArgs M cd t k .none d) p w (hte ▸ rfl)
          rw [hte] at hb
          exact ⟨hb.low hr, hb⟩
        · rintro p c2 ⟨⟨h6, h7, h8⟩, h9⟩
          exact ⟨⟨h6, h7, by rw [h8]; exact h5⟩, h9⟩
        · rintro c2 ⟨h6, h7, h8⟩; exact ⟨h6, h7⟩
      · exact .const (r := .ub .nullObject) trivial

theorem attemptAnonG_returns (h : ObeysG T M rank X call) (hd : sem.DownwardG M rank) (hM : M.RegularG)
    (hρ : AcyclicG M ρ) {i : Nat} {l : Name × StTy} (h1 : l.1 ∈ M.composites) (h2 : l.2 ∈ M.states)
    {σ : List (Option (Name × StTy))} (hl : σ[i]? = some (some l)) (k : Nat) :
    ∀ (cs : List (Dep × Cand)) (p : P) (c : Conf P W), (∀ x ∈ cs, x.2 ∈ M.candsG .none l.1 l.2) →
    rank .none p ≤ r → Aside M q σ c →
    Returns T (fun a c' => (Snug M c' ∧ c'.waiting = q ∧ heft M ρ c'.slots ≤ heft M ρ σ ∧
        (a.1 = .fired → heft M ρ c'.slots < heft M ρ σ)) ∧ rank .none a.2 ≤ r)
      (fun c' => Snug M c' ∧ c'.waiting = q) fun n => M.attemptR sem (call n) true i .none k cs p c := by
  intro cs
  induction cs with
  | nil =>
    rintro p c _ hr ⟨h3, h4, h5⟩
    exact .const ⟨⟨h3, h4, by rw [h5], fun h => by cases h⟩, hr⟩
  | cons x cs ih =>
    obtain ⟨d, cd⟩ := x
    intro p c hcs hr hc
    unfold Machine.attemptR
    cases hrow : cd.row? with
    | none => exact .const (r := .ub .nullTransition) trivial
    | some t =>
      dsimp only
      cases hk : M.targetLoc t with
      | none => exact .const (r := .ub .nullTransition) trivial
      | some k' =>
        dsimp only
        have hcd : cd ∈ M.candsG .none l.1 l.2 := hcs (d, cd) List.mem_cons_self
        refine Returns.bind (((h.aside (r := r) q σ).askR Aside.airy hr d cd t (fun g hgt a w ha => by
          have hte := row_eventG hcd hrow
          have hb := hd.guard t (row_memG hcd hrow) g hgt a p w (ha.trans hte.symm)
          rw [hte] at hb
          exact ⟨hb.low hr, hb⟩) k' hc).mono
          (fun _ _ h => h) (fun c' h => ⟨h.1, h.2.1⟩)) ?_
        rintro ⟨b, p'⟩ c' ⟨hc', hr'⟩
        cases b with
        | true =>
          refine Returns.bind (takeAnonG_returns h hd hM hρ h1 h2 hcd hrow hk hr' hc'.1 hc'.2.1
            (by rw [hc'.2.2]; exact hl)) ?_
          rintro p2 c2 ⟨⟨h6, h7, h8⟩, h9⟩
          rw [hc'.2.2] at h8
          exact .const ⟨⟨h6, h7, Nat.le_of_lt h8, fun _ => h8⟩, h9⟩
        | false =>
          dsimp only
          by_cases hkk : c'.deps.length = k
          · refine (ih p' c' (fun x hx => hcs x (List.mem_cons_of_mem _ hx)) hr' hc').congr fun n => ?_
            rw [if_neg (by simp), if_pos hkk]
          · refine (Returns.const (r := .ub .iterator) trivial).congr fun n => ?_
            rw [if_neg (by simp), if_neg hkk]

theorem roundG_returns (h : ObeysG T M rank X call) (hd : sem.DownwardG M rank) (hM : M.RegularG)
    (hρ : AcyclicG M ρ) {m : Nat} : ∀ (rs : List Nat) (os : List RegionOut) (c : Conf P W),
    Snug M c → c.waiting = q → heft M ρ c.slots ≤ m → (.fired ∈ os → heft M ρ c.slots < m) →
    Returns T (fun a c' => Snug M c' ∧ c'.waiting = q ∧ (a = true → heft M ρ c'.slots < m))
      (fun c' => Snug M c' ∧ c'.waiting = q) fun n => M.roundGR sem (call n) rs os c := by
  intro rs
  induction rs with
  | nil =>
    intro os c hc hq h1 h2
    exact .const ⟨hc, hq, fun h => h2 (of_decide_eq_true h)⟩
  | cons i rs ih =>
    intro os c hc hq h1 h2
    unfold Machine.roundGR
    have hv : Returns T (fun a c' => (Snug M c' ∧ c'.waiting = q ∧ heft M ρ c'.slots ≤ heft M ρ c.slots ∧
        (a.1 = .fired → heft M ρ c'.slots < heft M ρ c.slots)) ∧
          rank .none a.2 ≤ rank .none sem.nonePayload)
        (fun c' => Snug M c' ∧ c'.waiting = q)
        fun n => M.visitGR sem (call n) true i .none sem.nonePayload c := by
      unfold Machine.visitGR
      refine Returns.bind (seek_returns (Q := fun l c' => c' = c ∧ c.slots[i]? = some (some l))
        fun l hl => ⟨rfl, hl⟩) ?_
      rintro l c' ⟨rfl, hl⟩
      by_cases h3 : l.1 ∈ M.composites
      · simp only [if_pos h3]
        by_cases h4 : M.candsG .none l.1 l.2 = []
        · simp only [if_pos h4]
          exact .const ⟨⟨hc, hq, Nat.le_refl _, fun h => by cases h⟩, Nat.le_refl _⟩
        · simp only [if_neg h4]
          refine attemptAnonG_returns h hd hM hρ h3 (hc.slots l (List.mem_of_getElem? hl)) hl _ _ _ c' ?_
            (Nat.le_refl _) ⟨hc, hq, rfl⟩
          intro x hx
          obtain ⟨d, _, hx⟩ := List.mem_flatMap.1 hx
          obtain ⟨cd, hcd, rfl⟩ := List.mem_map.1 hx
          exact hcd
      · simp only [if_neg h3]
        exact .const trivial
    refine hv.bind ?_
    rintro ⟨o, p'⟩ c' ⟨⟨h3, h4, h5, h6⟩, _⟩
    dsimp only
    by_cases ho : o = .none
    · simp only [if_pos ho]
      exact .const ⟨h3, h4, fun h => by cases h⟩
    · simp only [if_neg ho]
      refine ih _ c' h3 h4 (Nat.le_trans h5 h1) fun hf => ?_
      rcases List.mem_append.1 hf with hf | hf
      · exact Nat.lt_of_le_of_lt h5 (h2 hf)
      · exact Nat.lt_of_lt_of_le (h6 (List.mem_singleton.1 hf).symm) h1

theorem settleG_returns (h : ObeysG T M rank X call) (hd : sem.DownwardG M rank) (hM : M.RegularG)
    (hρ : AcyclicG M ρ) : ∀ (fuel : Nat) (c : Conf P W), Snug M c → c.waiting = q →
    (T ∨ heft M ρ c.slots < fuel) →
    Returns T (fun _ c' => Snug M c' ∧ c'.waiting = q) (fun c' => Snug M c' ∧ c'.waiting = q)
      fun n => M.settleGR sem (call n) fuel c := by
  intro fuel
  induction fuel with
  | zero =>
    intro c hc hq hf
    rcases hf with hT | hf
    · exact .const hT
    · omega
  | succ fuel ih =>
    intro c hc hq hf
    unfold Machine.settleGR
    refine (roundG_returns h hd hM hρ (M.taking c) [] c hc hq (Nat.le_refl _) (by simp)).bind ?_
    rintro b c' ⟨h3, h4, h5⟩
    cases b with
    | true =>
      refine (ih c' h3 h4 ?_).congr fun n => if_pos rfl
      exact hf.imp id fun hf => by have := h5 rfl; omega
    | false =>
      refine (Returns.const (r := .ok () c') ?_).congr fun n => if_neg (by simp)
      exact ⟨h3, h4⟩

/-! ## Events -/

variable {S : Prop}

/-- What is known of the callbacks. -/
structure TameG (M : Machine) (sem : SemR P W) (rank : EventTy → P → Nat) : Prop where
  down : sem.DownwardG M rank
  good : sem.Good True (OpOkGR M)

theorem takeG_returns (h : ObeysG T M rank X call) (ht : TameG M sem rank) (hM : M.RegularG)
    (hX : AtMost ({2 * r} + A) X) {i : Nat} {d : Dep} {cd : Cand} {t : XRow} {k : Name × StTy}
    (hm : t ∈ M.extRows ++ M.intRowsG) (hte : t.event = ev) (hk : M.targetLoc t = some k) {p : P}
    (hr : rank ev p ≤ r) {c : Conf P W} (hc : Amid M rank r A c) :
    Returns T (fun p c' => Amid M rank r A c' ∧ rank ev p ≤ r) (Amid M rank r A)
      fun n => M.takeR sem (call n) i ev d cd t k p c := by
  unfold Machine.takeR
  refine Returns.bind (Q := fun _ => Amid M rank r A) (travel_returns fun u c' htr => ?_) ?_
  · obtain ⟨h3, h4, _⟩ := hc.1.travelG hm hk (hM.target hm hk) htr
    exact ⟨h3, by rw [h4]; exact hc.2⟩
  · intro u c' hc'
    cases hto : M.toRun t with
    | none => exact .const ⟨hc', hr⟩
    | some cs =>
      dsimp only
      split
      · refine (h.amid (ev := ev) hX).performR Amid.airy cs (fun x hx p w hr => ?_) p c' hr hc'
        have hb := ht.down.action t hm cs hto x hx (cbArgs M cd t k ev d) p w (hte ▸ rfl)
        rw [hte] at hb
        exact ⟨(ht.good.action x.2 (cbArgs M cd t k ev d) p w).and (hb.low hr), hb⟩
      · exact .const (r := .ub .nullObject) trivial

theorem attemptG_returns (h : ObeysG T M rank X call) (ht : TameG M sem rank) (hM : M.RegularG)
    (hX : AtMost ({2 * r} + A) X) {i : Nat} {l : Name × StTy} (k : Nat) :
    ∀ (cs : List (Dep × Cand)) (p : P) (c : Conf P W),
    (∀ x ∈ cs, x.2 ∈ M.candsG ev l.1 l.2 ∧ x.2.row? ≠ none) →
    rank ev p ≤ r → Amid M rank r A c →
    Returns T (fun a c' => (a.1 ≠ .deferred ∧ Amid M rank r A c') ∧ rank ev a.2 ≤ r)
      (Amid M rank r A) fun n => M.attemptR sem (call n) false i ev k cs p c := by
  intro cs
  induction cs with
  | nil =>
    intro p c _ hr hc
    exact .const ⟨⟨fun h => (by cases h), hc⟩, hr⟩
  | cons x cs ih =>
    obtain ⟨d, cd⟩ := x
    intro p c hcs hr hc
    obtain ⟨hcd, hne⟩ := hcs (d, cd) List.mem_cons_self
    unfold Machine.attemptR
    cases hrow : cd.row? with
    | none => exact absurd hrow hne
    | some t =>
      dsimp only
      cases hk : M.targetLoc t with
      | none => exact .const (r := .ub .nullTransition) trivial
      | some k' =>
        dsimp only
        have hte := row_eventG hcd hrow
        refine Returns.bind ((h.amid (ev := ev) hX).askR Amid.airy hr d cd t (fun g hgt a w ha => by
          have hb := ht.down.guard t (row_memG hcd hrow) g hgt a p w (ha.trans hte.symm)
          rw [hte] at hb
          exact ⟨(ht.good.guard g a p w).and (hb.low hr), hb⟩) k' hc) ?_
        rintro ⟨b, p'⟩ c' ⟨hc', hr'⟩
        cases b with
        | true =>
          refine Returns.bind (takeG_returns h ht hM hX (row_memG hcd hrow) hte hk hr' hc') ?_
          rintro p2 c2 ⟨hc2, h9⟩
          exact .const ⟨⟨fun h => (by cases h), hc2⟩, h9⟩
        | false =>
          dsimp only
          by_cases hkk : c'.deps.length = k
          · refine (ih p' c' (fun x hx => hcs x (List.mem_cons_of_mem _ hx)) hr' hc').congr fun n => ?_
            rw [if_neg (by simp), if_pos hkk]
          · refine (Returns.const (r := .ub .iterator) trivial).congr fun n => ?_
            rw [if_neg (by simp), if_neg hkk]

/-- Deferral comes first or not at all. -/
theorem candsG_rows {cd : Cand} {cs : List Cand} {p : Name} {st : StTy} (h : M.candsG ev p st = cd :: cs)
    (hne : cd.row? ≠ none) : ∀ x ∈ M.candsG ev p st, x.row? ≠ none := by
  intro x hx
  unfold Machine.candsG at h hx
  cases hn : (M.extRows.map (M.deferCount ev p st)).sum with
  | succ n =>
    rw [hn, List.replicate_succ, List.cons_append, List.cons_append] at h
    cases h
    exact absurd rfl hne
  | zero =>
    rw [hn, List.replicate_zero, List.nil_append] at hx
    rcases List.mem_append.1 hx with hx | hx
    · obtain ⟨t, _, hx⟩ := List.mem_flatMap.1 hx
      rcases List.mem_append.1 hx with hx | hx <;> split at hx <;> simp at hx <;> subst hx <;>
        exact fun h => by cases h
    · obtain ⟨t, _, hx⟩ := List.mem_flatMap.1 hx
      unfold Machine.intCands at hx
      split at hx <;> simp at hx
      subst hx
      exact fun h => by cases h

theorem visitG_returns (h : ObeysG T M rank X call) (ht : TameG M sem rank) (hM : M.RegularG)
    (hX : AtMost ({2 * r} + A) X) {i : Nat} {p : P} {c : Conf P W} (hr : rank ev p ≤ r)
    (hc : Amid M rank r A c) :
    Returns T (fun a c' => Rests M rank r A True c.waiting (a.1 = .deferred) c' ∧ rank ev a.2 ≤ r)
      (Amid M rank r A) fun n => M.visitGR sem (call n) false i ev p c := by
  unfold Machine.visitGR
  refine Returns.bind (seek_returns (Q := fun l c' => c' = c) fun l hl => rfl) ?_
  rintro l c' rfl
  by_cases h3 : l.1 ∈ M.composites
  · simp only [if_pos h3]
    have hno : ∀ (c2 : Conf P W) {a : RegionOut}, Amid M rank r A c2 → a ≠ .deferred →
        Rests M rank r A True c'.waiting (a = .deferred) c2 := fun c2 a h hn =>
      ⟨h.1, fun h => absurd h hn, fun h => absurd h hn, fun _ => h.2⟩
    cases h4 : M.candsG ev l.1 l.2 with
    | nil =>
      simp only [if_pos]
      exact .const ⟨hno (a := .none) _ hc (fun h => by cases h), hr⟩
    | cons cd cds =>
      simp only [if_neg (List.cons_ne_nil cd cds)]
      by_cases hrow : cd.row? = none
      · cases hdeps : c'.deps with
        | nil => exact .const ⟨hno (a := .rejected) _ hc (fun h => by cases h), hr⟩
        | cons d ds =>
          rw [List.flatMap_cons, List.map_cons, List.cons_append]
          unfold Machine.attemptR
          rw [hrow]
          refine .const ⟨⟨⟨hc.1.len, hc.1.slots, hc.1.memory⟩, fun _ => ?_, fun _ hs => ?_,
            fun h => absurd rfl h⟩, hr⟩
          · show Under _ _ (burden rank (c'.waiting ++ [(ev, p)]))
            rw [burden_snoc]; exact hc.2.push (by omega)
          · show AtMost (burden rank (c'.waiting ++ [(ev, p)])) _
            rw [burden_snoc]; exact atMost_single (by omega) _
      · refine (attemptG_returns h ht hM hX (l := l) _ _ p c' ?_ hr hc).mono
          (fun a c2 h => ⟨hno c2 h.1.2 h.1.1, h.2⟩) (fun _ h => h)
        intro x hx
        obtain ⟨d, _, hx⟩ := List.mem_flatMap.1 hx
        obtain ⟨cd', hcd, rfl⟩ := List.mem_map.1 hx
        rw [← h4] at hcd
        exact ⟨hcd, candsG_rows h4 hrow cd' hcd⟩
  · simp only [if_neg h3]
    exact .const trivial

theorem sweepG_returns (h : ObeysG T M rank X call) (ht : TameG M sem rank) (hM : M.RegularG)
    (hX : AtMost ({2 * r} + A) X) : ∀ (rs : List Nat) (os : List RegionOut) (p : P) (c : Conf P W),
    rank ev p ≤ r → Amid M rank r A c → (S → rs = [] ∨ rs.length = 1 ∧ c.waiting = q) → .deferred ∉ os →
    Returns T (fun a c' => Rests M rank r A S q (.deferred ∈ a.1) c' ∧ rank ev a.2 ≤ r)
      (Amid M rank r A) fun n => M.sweepGR sem (call n) ev rs os p c := by
  intro rs
  induction rs with
  | nil =>
    intro os p c hr hc _ ho
    exact .const ⟨⟨hc.1, fun h => absurd h ho, fun h => absurd h ho, fun _ => hc.2⟩, hr⟩
  | cons i rs ih =>
    intro os p c hr hc hS ho
    unfold Machine.sweepGR
    refine (visitG_returns h ht hM hX hr hc).bind ?_
    rintro ⟨o, p'⟩ c' ⟨h3, h7⟩
    dsimp only
    by_cases hd : o = .deferred
    · simp only [if_pos hd]
      refine .const ⟨⟨h3.snug, fun _ => h3.put hd, fun _ hs => ?_, fun h => absurd ?_ h⟩, h7⟩
      · have := h3.back hd trivial
        rwa [((hS hs).resolve_left (by simp)).2] at this
      · exact List.mem_append_right _ (List.mem_singleton.2 rfl)
    · simp only [if_neg hd]
      refine ih _ p' c' h7 ⟨h3.snug, h3.gone hd⟩ (fun hs => Or.inl ?_) fun hf => ?_
      · have := ((hS hs).resolve_left (by simp)).1
        exact List.length_eq_zero_iff.1 (by simpa using this)
      · rcases List.mem_append.1 hf with hf | hf
        · exact ho hf
        · exact hd (List.mem_singleton.1 hf).symm

variable {B fuel : Nat}

theorem handleG_returns (h : ObeysG T M rank X call) (ht : TameG M sem rank) (hM : M.RegularG)
    (hρ : AcyclicG M ρ) (hB : ∀ p ∈ M.composites, ∀ st ∈ M.states, ρ (p, st) ≤ B)
    (hf : T ∨ M.maxInit * B < fuel) (hS : S → M.orthogonal = false) {p : P} {c : Conf P W}
    (hr : rank ev p ≤ r) (hX : AtMost ({2 * r} + burden rank c.waiting) X) (hc : Snug M c) :
    Returns T (fun a c' => Rests M rank r (burden rank c.waiting) S c.waiting (.deferred ∈ a.1) c' ∧
        rank ev a.2 ≤ r)
      (Amid M rank r (burden rank c.waiting)) fun n => M.handleGR sem (call n) fuel ev p c := by
  unfold Machine.handleGR
  refine (sweepG_returns (S := S) (q := c.waiting) h ht hM hX (M.taking c) [] p c hr ⟨hc, .refl _ _⟩ (fun hs => Or.inr ?_)
    (by simp)).bind ?_
  · unfold Machine.taking
    rw [hS hs]
    exact ⟨rfl, rfl⟩
  · rintro a c' ⟨h3, h7⟩
    by_cases hcond : .deferred ∉ a.1 ∧ .fired ∈ a.1 ∧ M.anonymous
    · simp only [if_pos hcond]
      have hfu : T ∨ heft M ρ c'.slots < fuel := by
        refine hf.imp id fun hf => Nat.lt_of_le_of_lt (heft_le hB c'.slots) ?_
        rw [h3.snug.len]; exact hf
      have hw := h3.gone hcond.1
      refine Returns.bind ((settleG_returns (q := c'.waiting) h ht.down hM hρ fuel c' h3.snug rfl hfu).mono (fun _ _ h => h) (fun c2 h => ?_)) ?_
      · exact ⟨h.1, by rw [h.2]; exact hw⟩
      · rintro u c2 ⟨h4, h5⟩
        refine .const ⟨⟨h4, fun h => absurd h hcond.1, fun h => absurd h hcond.1, fun _ => ?_⟩, h7⟩
        rw [h5]; exact hw
    · simp only [if_neg hcond]
      exact .const ⟨h3, h7⟩

theorem complainG_returns (h : ObeysG T M rank X call) (ht : TameG M sem rank) (hev : ev ∈ M.eventsG)
    (hX : AtMost ({2 * r} + A) X) {p : P} {c : Conf P W} (hr : rank ev p ≤ r) (hc : Amid M rank r A c) :
    Returns T (fun _ => Amid M rank r A) (Amid M rank r A) fun n => M.complainR sem (call n) ev p c := by
  unfold Machine.complainR
  cases hhd : (M.decl M.root).handler with
  | none => exact .const hc
  | some hd =>
    have hb := ht.down.handler hd hhd ev hev
    refine Returns.bind (seek_returns (Q := fun l c' => c' = c) fun l hl => rfl) ?_
    rintro l c' rfl
    by_cases h3 : l.1 ∈ M.composites
    · simp only [if_pos h3]
      by_cases h4 : M.presentR sem l.2 c' = true
      · simp only [if_pos h4]
        refine Returns.bind ((h.amid (ev := ev) hX).noted Amid.airy hr
          ((ht.good.handler hd ev l.2 c'.first p c'.world).and
            ((hb l.2 c'.first p c'.world).low hr))
          (hb l.2 c'.first p c'.world) hc) ?_
        intro u c2 hu
        exact .const hu.1
      · simp only [if_neg h4]
        exact .const (r := .ub .nullObject) trivial
    · simp only [if_neg h3]
      exact .const hc

theorem replayG_returns (h : ObeysG T M rank X call) (ht : TameG M sem rank) (hM : M.RegularG)
    (hρ : AcyclicG M ρ) (hB : ∀ p ∈ M.composites, ∀ st ∈ M.states, ρ (p, st) ≤ B)
    (hf : T ∨ M.maxInit * B < fuel) (hS : S → M.orthogonal = false) (hD : M.deferring = true → S)
    {c : Conf P W} (hX : AtMost (burden rank c.waiting) X) (hc : Snug M c) :
    Returns T (fun _ c' => Snug M c' ∧ AtMost (burden rank c'.waiting) (burden rank c.waiting))
      (fun c' => Snug M c' ∧ AtMost (burden rank c'.waiting) (burden rank c.waiting))
      fun n => M.replayGR sem (call n) fuel c := by
  unfold Machine.replayGR
  cases hw : c.waiting with
  | nil => exact .const ⟨hc, by rw [hw]; exact .refl _⟩
  | cons x qs =>
    obtain ⟨ev, p⟩ := x
    dsimp only
    by_cases hde : M.deferring = true
    · simp only [if_pos hde]
      rw [hw] at hX
      refine Returns.bind ((handleG_returns (S := S) (r := rank ev p) (ev := ev) (p := p) (c := { c with waiting := qs })
        h ht hM hρ hB hf hS (Nat.le_refl _) hX ⟨hc.len, hc.slots, hc.memory⟩).mono (fun _ _ h => h)
        (fun c' h => ⟨h.1, Or.inr h.2.single⟩)) ?_
      rintro a c' ⟨h1, _⟩
      refine .const ⟨h1.snug, ?_⟩
      by_cases hb : .deferred ∈ a.1
      · exact h1.back hb (hD hde)
      · exact Or.inr (h1.gone hb).single
    · simp only [if_neg hde]
      exact .const ⟨hc, by rw [hw]; exact .refl _⟩

theorem receiveG_returns {p : P} {c : Conf P W} (hev : ev ∈ M.eventsG)
    (h : ObeysG T M rank ({2 * rank ev p + 1} + burden rank c.waiting) call) (ht : TameG M sem rank) (hM : M.RegularG)
    (hρ : AcyclicG M ρ) (hB : ∀ p ∈ M.composites, ∀ st ∈ M.states, ρ (p, st) ≤ B)
    (hf : T ∨ M.maxInit * B < fuel) (hS : S → M.orthogonal = false) (hD : M.deferring = true → S)
    (hc : Snug M c) :
    Returns T (fun _ c' => Snug M c' ∧ Leftover rank c c' (.process ev p))
      (fun c' => Snug M c' ∧ Leftover rank c c' (.process ev p))
      fun n => M.receiveGR sem (call n) fuel ev p c := by
  have hX : AtMost ({2 * rank ev p} + burden rank c.waiting) ({2 * rank ev p + 1} + burden rank c.waiting) :=
    atMost_single (by omega) _
  have am : ∀ c', Amid M rank (rank ev p) (burden rank c.waiting) c' →
      Snug M c' ∧ Leftover rank c c' (.process ev p) :=
    fun c' h => ⟨h.1, h.2.mono (by omega)⟩
  unfold Machine.receiveGR
  refine ((handleG_returns (S := S) (r := rank ev p) h ht hM hρ hB hf hS (Nat.le_refl _) hX hc).mono (fun _ _ h => h) am).bind ?_
  rintro a c1 ⟨h1, h2⟩
  have hg' : Under (2 * rank ev p + 1) (burden rank c.waiting) (burden rank c1.waiting) := by
    by_cases hde : .deferred ∈ a.1
    · exact h1.put hde
    · exact (h1.gone hde).mono (by omega)
  by_cases hno : ∀ o ∈ a.1, o = RegionOut.none
  · simp only [if_pos hno]
    have hg := h1.gone fun hd => by cases hno _ hd
    exact (complainG_returns h ht hev hX h2 ⟨h1.snug, hg⟩).mono (fun _ => am) am
  · simp only [if_neg hno]
    exact (replayG_returns (S := S) h ht hM hρ hB hf hS hD (Or.inr hg'.single) h1.snug).mono
      (fun _ _ h => ⟨h.1, hg'.below h.2⟩) fun c' h => ⟨h.1, hg'.below h.2⟩

theorem execG_easy {c : Conf P W} {op : Op P} (hop : OpOkGR M op) (hc : Snug M c)
    (hne : ∀ ev p, op ≠ .process ev p) (n : Nat) :
    ∃ r, (∀ m, M.execGR sem fuel (m + 1) op c = r) ∧
      (M.execGR sem fuel (n + 1) op c).Ended T (fun _ c' => Snug M c' ∧ Leftover rank c c' op)
      (fun c' => Snug M c' ∧ Leftover rank c c' op) := by
  refine ⟨M.execGR sem fuel (n + 1) op c, fun m => ?_, ?_⟩
  · cases op with
    | process ev p => exact absurd rfl (hne ev p)
    | set r p st => rfl
    | setDependency d => rfl
  · cases op with
    | process ev p => exact absurd rfl (hne ev p)
    | set r p st => exact hop.elim
    | setDependency d => exact ⟨⟨hc.len, hc.slots, hc.memory⟩, rfl, rfl⟩

theorem execG_ends (ht : TameG M sem rank) (hM : M.RegularG)
    (hρ : AcyclicG M ρ) (hB : ∀ p ∈ M.composites, ∀ st ∈ M.states, ρ (p, st) ≤ B)
    (hf : M.maxInit * B < fuel) (hS : S → M.orthogonal = false) (hD : M.deferring = true → S) :
    ∀ X, ObeysG False M rank X fun n => M.execGR sem fuel n := by
  intro X
  induction X using (Multiset.wellFounded_isDershowitzMannaLT (α := Nat)).induction with
  | _ X ih =>
    intro op c hop hc hlt
    by_cases hpr : ∃ ev p, op = .process ev p
    · obtain ⟨ev, p, rfl⟩ := hpr
      refine ((receiveG_returns (S := S) (by rw [Machine.eventsG_eq hM.laid]; exact hop) (ih _ (hlt ev p rfl)) ht hM hρ hB
        (Or.inr hf) hS hD hc).bind (R := fun _ c' => Snug M c' ∧ Leftover rank c c' (.process ev p))
          (G := fun _ _ c => .ok true c) fun _ _ h => .const h).later fun n => rfl
    · obtain ⟨r, h1, h2⟩ := execG_easy (sem := sem) (rank := rank) (fuel := fuel) (T := False) hop hc
        (fun ev p h => hpr ⟨ev, p, h⟩) 0
      rw [h1] at h2
      exact (Returns.const h2).later h1

theorem execG_snug (ht : TameG M sem rank) (hM : M.RegularG)
    (hρ : AcyclicG M ρ) (hB : ∀ p ∈ M.composites, ∀ st ∈ M.states, ρ (p, st) ≤ B)
    (hS : S → M.orthogonal = false) (hD : M.deferring = true → S) (n : Nat) :
    ∀ X, ObeysG True M rank X fun _ => M.execGR sem fuel n := by
  induction n with
  | zero => intro X op c _ _ _; exact .const trivial
  | succ n ih =>
    intro X op c hop hc hlt
    by_cases hpr : ∃ ev p, op = .process ev p
    · obtain ⟨ev, p, rfl⟩ := hpr
      exact (receiveG_returns (S := S) (by rw [Machine.eventsG_eq hM.laid]; exact hop) (ih _) ht hM hρ hB
        (Or.inl trivial) hS hD hc).bind (R := fun _ c' => Snug M c' ∧ Leftover rank c c' (.process ev p))
          (G := fun _ _ c => .ok true c) fun _ _ h => .const h
    · obtain ⟨r, _, h2⟩ := execG_easy (sem := sem) (rank := rank) (fuel := fuel) (T := True) hop hc
        (fun ev p h => hpr ⟨ev, p, h⟩) n
      exact .const h2

/-! ## The bounds are no part of the program -/

section
variable {on on' : Op P → SM P W → Res (SM P W) Bool} (hon : ∀ op s, (on op s).UpTo (on' op s))
include hon

theorem anonRoundGR_upTo : ∀ (rs : List Nat) (a : Bool) (s : SM P W),
    (anonRoundGR M sem on rs a s).UpTo (anonRoundGR M sem on' rs a s) := by
  intro rs
  induction rs with
  | nil => intro a s; exact .refl _
  | cons i rs ih =>
    intro a s
    unfold anonRoundGR
    refine (Res.UpTo.refl _).bind fun k s => ?_
    split
    · split
      · exact .refl _
      · exact (tryAnonR_upTo hon _ _ _ _ _ _).bind fun _ _ => ih _ _
    · exact .refl _

theorem anonLoopGR_upTo : ∀ (f f' : Nat), f ≤ f' → ∀ (s : SM P W),
    (anonLoopGR M sem on f s).UpTo (anonLoopGR M sem on' f' s) := by
  intro f
  induction f with
  | zero => intro f' _ s; exact Or.inl rfl
  | succ f ih =>
    intro f' hf s
    obtain ⟨m, rfl⟩ : ∃ m, f' = m + 1 := ⟨f' - 1, by omega⟩
    unfold anonLoopGR
    refine (anonRoundGR_upTo hon _ _ _).bind fun op s => ?_
    split
    · exact .refl _
    · exact .refl _
    · exact ih m (by omega) _

theorem processInternalGR_upTo {f f' : Nat} (hf : f ≤ f') (ev : EventTy) (p : P) (s : SM P W) :
    (processInternalGR M sem on f ev p s).UpTo (processInternalGR M sem on' f' ev p s) := by
  unfold processInternalGR
  refine (regionLoopR_upTo hon _ _ _ _ _ _).bind fun op s => ?_
  split
  · exact .refl _
  · split
    · exact .refl _
    · split
      · exact .refl _
      · refine Res.UpTo.bind ?_ fun _ _ => .refl _
        unfold processAnonGR
        split
        · exact anonLoopGR_upTo hon _ _ hf _
        · exact .refl _

theorem processEventGR_upTo {f f' : Nat} (hf : f ≤ f') (ev : EventTy) (p : P) (s : SM P W) :
    (processEventGR M sem on f ev p s).UpTo (processEventGR M sem on' f' ev p s) := by
  unfold processEventGR
  refine (processInternalGR_upTo hon hf _ _ _).bind fun bp s => ?_
  split
  · unfold processDeferredGR
    split
    · split
      · exact .refl _
      · exact (processInternalGR_upTo hon hf _ _ _).bind fun _ _ => .refl _
    · exact .refl _
  · refine Res.UpTo.bind ?_ fun _ _ => .refl _
    unfold callHandlerR
    split
    · exact .refl _
    · refine (Res.UpTo.refl _).bind fun k s => ?_
      split
      · split
        · exact .refl _
        · split
          · exact (runCb_upTo hon _ _ _).bind fun _ _ => .refl _
          · exact .refl _
      · exact .refl _

end

/-- C102, the bounds: a call that ends within some number of anonymous rounds and some depth of nesting ends
the same with more of both. -/
theorem C102_bounds {fuel fuel' : Nat} (hf : fuel ≤ fuel') : ∀ {n n' : Nat}, n ≤ n' → ∀ (op : Op P) (s : SM P W),
    stepGR M sem fuel n op s ≠ .timeout → stepGR M sem fuel' n' op s = stepGR M sem fuel n op s := by
  have key : ∀ n n', n ≤ n' → ∀ (op : Op P) (s : SM P W),
      (stepGR M sem fuel n op s).UpTo (stepGR M sem fuel' n' op s) := by
    intro n
    induction n with
    | zero => intro n' _ op s; exact Or.inl rfl
    | succ n ih =>
      intro n' hn op s
      obtain ⟨m, rfl⟩ : ∃ m, n' = m + 1 := ⟨n' - 1, by omega⟩
      cases op with
      | process ev p => exact (processEventGR_upTo (ih m (by omega)) hf ev p s).bind fun _ _ => .refl _
      | set r p st => exact .refl _
      | setDependency d => exact .refl _
  intro n n' hn op s h
  exact ((key n n' hn op s).resolve_left h).symm

/-! ## Theorems -/

theorem Snug.freshG (hM : M.RegularG) {d : Dep} {w : W} {s : SM P W} (h : constructG M d w = .ok s) :
    Snug M (M.fresh (P := P) d w) := by
  have hp := (C82_construct (P := P) hM d w).2.2 s h
  refine ⟨?_, hp.slots, fun q hq l hl => ⟨hp.memory q hq l hl, fun _ => ?_⟩⟩
  · have hle := Machine.initials_le_maxInit (M := M) hM.laid.root_mem
    unfold Machine.fresh
    rw [List.length_append, List.length_map, List.length_replicate, slotCount_eq, Machine.declaredInitials_eq]
    omega
  · obtain ⟨i, _, rfl⟩ := List.mem_map.1 hl
    rfl

/-- All objects a client can hold. -/
theorem reachG_snug (ht : TameG M sem rank) (hM : M.RegularG)
    (hρ : AcyclicG M ρ) (hB : ∀ p ∈ M.composites, ∀ st ∈ M.states, ρ (p, st) ≤ B)
    (hS : S → M.orthogonal = false) (hD : M.deferring = true → S) {d : Dep} {ops : List (Op P)} {s : SM P W}
    (h : RunToGR M sem d ops s) : M.ScopesRealG ∧ ∃ c, DepictsG M c s ∧ Snug M c := by
  have key : ∀ {fuel n : Nat} {op : Op P} {c : Conf P W} {s : SM P W}, M.ScopesRealG → OpOkGR M op → DepictsG M c s →
      Snug M c → (stepGR M sem fuel n op s).Ended True (fun _ s' => ∃ c, DepictsG M c s' ∧ Snug M c)
        (fun s' => ∃ c, DepictsG M c s' ∧ Snug M c) := by
    intro fuel n op c s hR hop hc hs
    obtain ⟨N, q, h1, h2⟩ := execG_snug (sem := sem) (fuel := fuel) ht hM hρ hB hS hD n
      (match op with | .process ev p => {2 * rank ev p + 2} + burden rank c.waiting | _ => 0) op c hop hs
      (by
        rintro ev p rfl
        exact less_single (L := {2 * rank ev p + 1}) (b := 2 * rank ev p + 2) (fun x hx => by
          rw [Multiset.mem_singleton.1 hx]; omega) _)
    have h1 : M.execGR sem fuel n op c = q := h1 N (Nat.le_refl N)
    have hag := C97_step (sem := sem) hc hM hR ht.good fuel n hop
    rw [h1] at hag
    cases hq : stepGR M sem fuel n op s <;> rw [hq] at hag <;> cases q <;>
      first | exact hag.elim | trivial | exact ⟨_, hag.2, h2.1⟩
  induction h with
  | @init w s h =>
    obtain ⟨h1, _, h2⟩ := C82_construct (P := P) hM d w
    exact ⟨(h1.1 ⟨s, h⟩).1, _, h2 s h, Snug.freshG hM h⟩
  | @ok s t ops op fuel n b hr hop h ih =>
    obtain ⟨hR, c, hc, hs⟩ := ih
    have := key (fuel := fuel) (n := n) hR hop hc hs
    rw [h] at this
    exact ⟨hR, this⟩
  | @throw s t ops op fuel n x hr hop h ih =>
    obtain ⟨hR, c, hc, hs⟩ := ih
    have := key (fuel := fuel) (n := n) hR hop hc hs
    rw [h] at this
    exact ⟨hR, this⟩
  | @world s ops hr w ih =>
    obtain ⟨hR, c, hc, hs⟩ := ih
    exact ⟨hR, { c with world := w }, { hc with world := rfl }, ⟨hs.len, hs.slots, hs.memory⟩⟩

/-- C102: if callbacks send events of lower rank only, anonymous rows are acyclic, and the machine
does not both defer events and have regions, then every call ends: beyond some depth of nesting
its outcome is always the same, and it is not that something was cut off. -/
theorem C102_ends (hM : M.RegularG) (hρ : AcyclicG M ρ)
    (hB : ∀ p ∈ M.composites, ∀ st ∈ M.states, ρ (p, st) ≤ B) (hg : sem.Good True (OpOkGR M))
    (hd : sem.DownwardG M rank)
    (hq : M.deferring = false ∨ M.orthogonal = false) {d : Dep} {ops : List (Op P)} {s : SM P W}
    (h : RunToGR M sem d ops s) (hf : M.maxInit * B < fuel) {op : Op P} (hop : OpOkGR M op) :
    ∃ N q, q ≠ .timeout ∧ ∀ n, N ≤ n → stepGR M sem fuel n op s = q := by
  have ht : TameG M sem rank := ⟨hd, hg⟩
  have hS : M.deferring = true → M.orthogonal = false := fun h => by
    rcases hq with h' | h'
    · rw [h] at h'; cases h'
    · exact h'
  obtain ⟨hR, c, hc, hs⟩ := reachG_snug ht hM hρ hB hS id h
  obtain ⟨N, q, h1, h2⟩ := execG_ends ht hM hρ hB hf hS id
    (match op with | .process ev p => {2 * rank ev p + 2} + burden rank c.waiting | _ => 0) op c hop hs
    (by
      rintro ev p rfl
      exact less_single (L := {2 * rank ev p + 1}) (b := 2 * rank ev p + 2) (fun x hx => by
        rw [Multiset.mem_singleton.1 hx]; omega) _)
  have hne : stepGR M sem fuel N op s ≠ .timeout := by
    rw [Ne, (C97_undefined hc hM hR hg fuel N hop).2, show M.execGR sem fuel N op c = q from h1 N (Nat.le_refl _)]
    rintro rfl
    exact h2
  exact ⟨N, _, hne, fun n hn => C102_bounds (Nat.le_refl _) hn op s hne⟩


end

/-! ## Callbacks without calls -/

section
variable {P W : Type} {M : Machine} {sem : Sem P W} {ρ : Name × StTy → Nat} {B fuel : Nat} {T : Prop}

theorem CbRes.prog_still {α : Type} (o : CbRes P W α) (ev : EventTy) (p : P) :
    o.prog.Good True (OpOkGR M) ∧ o.prog.Below (fun _ _ => 0) ev p := by
  cases o <;> exact ⟨trivial, by first | trivial | exact Nat.le_refl _⟩

theorem Sem.lift_tame : TameG M sem.lift fun _ _ => 0 :=
  ⟨⟨fun t _ g _ a p w _ => ((sem.guard g a p w).prog_still (M := M) t.event p).2,
    fun t _ _ _ x _ a p w _ => ((sem.action x.2 a p w).prog_still (M := M) t.event p).2,
    fun h _ e _ st d p w => ((sem.handler h e st d p w).prog_still (M := M) e p).2⟩,
   ⟨fun g a p w => ((sem.guard g a p w).prog_still a.event p).1,
    fun c a p w => ((sem.action c a p w).prog_still a.event p).1,
    fun h e st d p w => ((sem.handler h e st d p w).prog_still e p).1⟩⟩

theorem inert_obeys (X : Multiset Nat) :
    ObeysG (P := P) (W := W) T M (fun _ _ => 0) X fun _ _ c => .ok true c := by
  intro op c hop hc _
  refine .const ⟨hc, ?_⟩
  cases op with
  | process ev p => exact .refl _ _
  | set r p st => exact hop.elim
  | setDependency d => exact ⟨rfl, rfl⟩

theorem receiveG_plain (hM : M.RegularG) (hρ : AcyclicG M ρ)
    (hB : ∀ p ∈ M.composites, ∀ st ∈ M.states, ρ (p, st) ≤ B) (hf : T ∨ M.maxInit * B < fuel)
    {ev : EventTy} (hev : ev ∈ M.eventsG) (p : P) {c : Conf P W} (hc : Snug M c) :
    (M.receiveGR sem.lift (fun _ c => .ok true c) fuel ev p c).Ended T (fun _ => Snug M) (Snug M) := by
  have key : ∀ (ev : EventTy) (p : P) (c : Conf P W), Snug M c →
      Returns T (fun _ => Snug M) (Snug M) fun _ =>
        M.handleGR sem.lift (fun _ c => .ok true c) fuel ev p c := by
    intro ev p c hc
    refine (handleG_returns (S := False) (r := 0) (inert_obeys _) Sem.lift_tame hM hρ hB hf (fun h => h.elim)
      (Nat.le_refl _) (AtMost.refl _) hc).mono (fun _ _ h => h.1.snug) fun _ h => h.1
  have all : Returns T (fun _ => Snug M) (Snug M) fun _ =>
      M.receiveGR sem.lift (fun _ c => .ok true c) fuel ev p c := by
    unfold Machine.receiveGR
    refine (key ev p c hc).bind fun a c1 h1 => ?_
    by_cases hno : ∀ o ∈ a.1, o = RegionOut.none
    · simp only [if_pos hno]
      exact (complainG_returns (r := 0) (A := burden (fun _ _ => 0) c1.waiting) (inert_obeys _) Sem.lift_tame hev
        (AtMost.refl _) (Nat.le_refl _) ⟨h1, .refl _ _⟩).mono (fun _ _ h => h.1) fun _ h => h.1
    · simp only [if_neg hno]
      unfold Machine.replayGR
      cases hw : c1.waiting with
      | nil => exact .const h1
      | cons x qs =>
        obtain ⟨ev', p'⟩ := x
        dsimp only
        by_cases hde : M.deferring = true
        · simp only [if_pos hde]
          exact (key ev' p' { c1 with waiting := qs } ⟨h1.len, h1.slots, h1.memory⟩).bind fun _ _ h => .const h
        · simp only [if_neg hde]
          exact .const h1
  obtain ⟨N, q, h1, h2⟩ := all
  rw [show M.receiveGR sem.lift (fun _ c => .ok true c) fuel ev p c = q from h1 N (Nat.le_refl _)]
  exact h2

theorem processEventGR_lift (call : Op P → SM P W → Res (SM P W) Bool) (fuel : Nat) (ev : EventTy) (p : P)
    (s : SM P W) : processEventGR M sem.lift call fuel ev p s = processEventG M sem fuel ev p s := by
  unfold processEventGR processEventG
  rw [processInternalGR_lift]
  congr 1
  funext bp s
  have h1 : processDeferredGR M sem.lift call fuel s = processDeferredG M sem fuel s := by
    unfold processDeferredGR processDeferredG
    refine ite_parts ?_ rfl
    cases s.queue with
    | nil => rfl
    | cons x q =>
      show (processInternalGR M sem.lift _ fuel x.1 x.2 _).bind _ = _
      rw [processInternalGR_lift]
  rw [h1, callHandlerR_lift]

theorem processEventG_plain (hM : M.RegularG) (hρ : AcyclicG M ρ)
    (hB : ∀ p ∈ M.composites, ∀ st ∈ M.states, ρ (p, st) ≤ B) (hf : T ∨ M.maxInit * B < fuel)
    {ev : EventTy} (hev : ev ∈ M.eventsG) (p : P) {c : Conf P W} {s : SM P W} (hd : DepictsG M c s)
    (hc : Snug M c) :
    (processEventG M sem fuel ev p s).Ended T (fun _ s => ∃ c, DepictsG M c s ∧ Snug M c)
      (fun s => ∃ c, DepictsG M c s ∧ Snug M c) := by
  have h1 := receiveG_plain (sem := sem) hM hρ hB hf hev p hc
  have h2 := C97_event (sem := sem.lift) (call := fun _ s => .ok true s) (callC := fun _ c => .ok true c) hd hM
    (fun op _ c s h => ⟨rfl, h⟩) Sem.lift_tame.good fuel hev p
  rw [processEventGR_lift] at h2
  revert h1 h2
  cases processEventG M sem fuel ev p s <;>
    cases M.receiveGR sem.lift (fun _ c => .ok true c) fuel ev p c <;> intro h1 h2 <;>
    first | exact h2.elim | exact ⟨_, h2.2, h1⟩ | exact h1

theorem RunToG.snug (hM : M.RegularG) (hρ : AcyclicG M ρ)
    (hB : ∀ p ∈ M.composites, ∀ st ∈ M.states, ρ (p, st) ≤ B) {d : Dep} {ops : List (OpG P)} {s : SM P W}
    (h : RunToG M sem d ops s) : ∃ c, DepictsG M c s ∧ Snug M c := by
  have key : ∀ {fuel : Nat} {op : OpG P} {c : Conf P W} {s : SM P W}, M.ScopesRealG → OpOkG M op → DepictsG M c s →
      Snug M c → (stepG M sem fuel op s).Ended True (fun _ s' => ∃ c, DepictsG M c s' ∧ Snug M c)
        (fun s' => ∃ c, DepictsG M c s' ∧ Snug M c) := by
    intro fuel op c s hR hop hc hs
    cases op with
    | process ev p =>
      exact processEventG_plain hM hρ hB (Or.inl trivial) (by rw [Machine.eventsG_eq hM.laid]; exact hop) p hc hs
    | setDependency d =>
      have h2 := C82_step (sem := sem) hc hM hR fuel (op := .setDependency d) hop
      revert h2
      show AgreesG M _ _ (.ok () { c with deps := d :: c.deps }) → _
      cases stepG M sem fuel (.setDependency d) s <;> intro h2 <;>
        first | exact h2.elim | exact ⟨_, h2.2, hs.len, hs.slots, hs.memory⟩
  have all : M.ScopesRealG ∧ ∃ c, DepictsG M c s ∧ Snug M c := by
    induction h with
    | @init w s h =>
      obtain ⟨h1, _, h2⟩ := C82_construct (P := P) hM d w
      exact ⟨(h1.1 ⟨s, h⟩).1, _, h2 s h, Snug.freshG hM h⟩
    | @ok s t ops op fuel hr hop h ih =>
      obtain ⟨hR, c, hc, hs⟩ := ih
      have := key (fuel := fuel) hR hop hc hs
      rw [h] at this
      exact ⟨hR, this⟩
    | @throw s t ops op fuel x hr hop h ih =>
      obtain ⟨hR, c, hc, hs⟩ := ih
      have := key (fuel := fuel) hR hop hc hs
      rw [h] at this
      exact ⟨hR, this⟩
    | world hr w ih =>
      obtain ⟨hR, c, hc, hs⟩ := ih
      exact ⟨hR, { c with world := w }, { hc with world := rfl }, ⟨hs.len, hs.slots, hs.memory⟩⟩
  exact all.2

/-- C102, plain callbacks: if anonymous rows are acyclic with ranks at most `B`, every call ends after every
history, with at most `slots * B + 1` anonymous rounds in a row; regions and deferral are no obstacle. -/
theorem C102_acyclic (hM : M.RegularG) (hρ : AcyclicG M ρ)
    (hB : ∀ p ∈ M.composites, ∀ st ∈ M.states, ρ (p, st) ≤ B) {d : Dep} {ops : List (OpG P)} {s : SM P W}
    (h : RunToG M sem d ops s) (hf : M.maxInit * B < fuel) {op : OpG P} (hop : OpOkG M op) :
    stepG M sem fuel op s ≠ .timeout := by
  obtain ⟨c, hc, hs⟩ := h.snug hM hρ hB
  cases op with
  | process ev p =>
    have := processEventG_plain (sem := sem) (T := False) hM hρ hB (Or.inr hf)
      (by rw [Machine.eventsG_eq hM.laid]; exact hop) p hc hs
    intro ht
    rw [show processEventG M sem fuel ev p s = .timeout from ht] at this
    exact this
  | setDependency d =>
    show setDependencyG M d s ≠ .timeout
    unfold setDependencyG
    split <;> exact fun h => nomatch h

/-- C102, the bounds, for plain callbacks. -/
theorem C102_fuel {f f' : Nat} (hf : f ≤ f') (op : OpG P) (s : SM P W)
    (h : stepG M sem f op s ≠ .timeout) : stepG M sem f' op s = stepG M sem f op s := by
  have hb := C102_bounds (M := M) (sem := sem.lift) hf (Nat.le_refl 1) op.op s
  rw [C97_conservative, C97_conservative] at hb
  revert h hb
  cases stepG M sem f op s <;> cases stepG M sem f' op s <;> intro h hb <;>
    first | exact absurd rfl h | (have := hb (fun h => nomatch h); cases this <;> rfl)

/-- C102, with the bound on the work (C101): a machine whose anonymous rows are acyclic makes at most so many
calls of callbacks within one call. -/
theorem C102_work (hM : M.RegularG) (hρ : AcyclicG M ρ)
    (hB : ∀ p ∈ M.composites, ∀ st ∈ M.states, ρ (p, st) ≤ B) {N : Nat} (hN : ChoicesG M N) {d : Dep}
    {ops : List (OpG P)} {s : SM P W} (h : RunToG M sem d ops s) (hf : M.slotCount * B < fuel)
    {op : OpG P} (hop : OpOkG M op) :
    let bound := Invokes
      (M.turns * ((M.slotCount * B + 2) * (M.slotCount * ((setDeps (ops.map OpG.op) + 1) * N))))
      (M.turns * ((M.slotCount * B + 2) * (M.slotCount * 4))) s
    (stepG M sem fuel op s).Sat True (fun _ => bound) (fun _ => bound) := by
  have hc := C101_amalgamated (sem := sem) hM hN h (M.slotCount * B + 1) op
  have he := C102_fuel (M := M) (sem := sem) (Nat.succ_le_of_lt hf) op s
    (C102_acyclic hM hρ hB h (by rw [slotCount_eq]; exact Nat.lt_succ_self _) hop)
  rw [he]
  have hp : M.passes (M.slotCount * B + 1) ≤ M.slotCount * B + 2 := by
    unfold Machine.passes
    split <;> omega
  have hle : ∀ k, M.turns * (M.passes (M.slotCount * B + 1) * k) ≤ M.turns * ((M.slotCount * B + 2) * k) :=
    fun k => Nat.mul_le_mul_left _ (Nat.mul_le_mul_right _ hp)
  have hi : ∀ {s' : SM P W},
      Invokes (M.turns * (M.passes (M.slotCount * B + 1) * (M.slotCount * ((setDeps (ops.map OpG.op) + 1) * N))))
        (M.turns * (M.passes (M.slotCount * B + 1) * (M.slotCount * 4))) s s' →
      Invokes (M.turns * ((M.slotCount * B + 2) * (M.slotCount * ((setDeps (ops.map OpG.op) + 1) * N))))
        (M.turns * ((M.slotCount * B + 2) * (M.slotCount * 4))) s s' := by
    rintro s' ⟨tr, h1, h2, h3⟩
    exact ⟨tr, h1, Nat.le_trans h2 (hle _), Nat.le_trans h3 (hle _)⟩
  exact Res.Sat.mono hc (fun _ _ k => hi k.1) fun _ _ k => hi k.1

end

/-! ## Examples -/

namespace Ex

/-- A check for `DownwardG`. -/
def downGB (M : Machine) (asks calls : Nat → List (Op Nat)) : Bool :=
  (M.extRows ++ M.intRowsG).all (fun t => t.guard.all (fun g => (asks g).all (lowerB t.event)) &&
    (M.toRun t).all fun cs => cs.all fun x => (calls x.2).all (lowerB t.event)) &&
  (M.decl M.root).handler.all fun h => M.eventsG.all fun e => (calls h).all (lowerB e)

theorem downGB_iff {M : Machine} {on : Nat → Bool} {asks calls : Nat → List (Op Nat)}
    (h : downGB M asks calls = true) : (semR on asks calls).DownwardG M byNumber := by
  obtain ⟨h1, h2⟩ := (Bool.and_eq_true_iff).1 h
  refine ⟨fun t ht g hg a p w _ => ?_, fun t ht cs hcs x hx a p w _ => ?_, fun hd hhd e he st d p w => ?_⟩
  · have := ((Bool.and_eq_true_iff).1 (List.all_eq_true.1 h1 t ht)).1
    rw [hg] at this
    exact makes_below this
  · have := ((Bool.and_eq_true_iff).1 (List.all_eq_true.1 h1 t ht)).2
    rw [hcs] at this
    exact makes_below (List.all_eq_true.1 this x hx)
  · rw [hhd] at h2
    exact makes_below (List.all_eq_true.1 h2 e he)

/-- Without anonymous rows there is no cycle of them. -/
theorem acyclicG_of_none {M : Machine} {ρ : Name × StTy → Nat}
    (h : (M.extRows ++ M.intRowsG).all (fun t => decide (t.event ≠ .none)) = true) : AcyclicG M ρ := by
  intro p _ st _ cd hcd t ht
  exact absurd (row_eventG hcd ht) (of_decide_eq_true (List.all_eq_true.1 h t (row_memG hcd ht)))

/-- After event 1 was deferred three times, event 0 makes a cascade of calls under the amalgamated header,
too. -/
example : ((ratchet.execAllGR (semR (fun _ => true) never twice) 1 5
    [.process (ev 1) 1, .process (ev 1) 2, .process (ev 1) 3, .process (ev 0) 0] (ratchet.fresh 7 [])).map
      fun c => (c.waiting, c.calls.length)) = some ([], 3) := by decide +kernel

/-- Whatever is waiting, it always ends. -/
example {ops : List (Op Nat)} {s : SM Nat (List Nat)}
    (h : RunToGR ratchet (semR (fun _ => true) never twice) 7 ops s) (e : Nat) (he : e < 2) (p : Nat) :
    ∃ N q, q ≠ .timeout ∧ ∀ n, N ≤ n →
      stepGR ratchet (semR (fun _ => true) never twice) 1 n (.process (ev e) p) s = q := by
  have hev : ∀ e < 2, ∀ p : Nat, OpOkGR ratchet (.process (ev e) p) := fun e he p => by
    have : ∀ e < 2, decide (ev e ∈ ratchet.eventIdsG) = true := by decide +kernel
    exact (of_decide_eq_true (this e he) : ev e ∈ ratchet.eventIdsG)
  refine C102_ends (rank := byNumber) (ρ := fun _ => 0) (B := 0) (Machine.regularG_ofList (by decide +kernel))
    (acyclicG_of_none (by decide +kernel)) (fun _ _ _ _ => Nat.le_refl _) (semR_good never_all (only_all ?_))
    (downGB_iff (by decide +kernel)) (Or.inr (by decide +kernel)) h (by decide +kernel) (hev e he p)
  intro op hop
  simp only [List.mem_cons, List.not_mem_nil, or_false, or_self] at hop
  subst hop
  exact hev 0 (by decide) 0

/-! ## Deferral and regions -/

/-- As `tangle`, but the first region begins in state 4, which event 0 takes to 3. -/
def mesh : Machine := Machine.ofList
  [ { table := some
        [ row (ini 4) (ev 0) none none (.st 3),
          row (.st 3) (ev 2) none (some 30) (.st 3),
          row (ini 2) (ev 0) none none (.st 1),
          row (.st 1) (ev 0) none none (.st 2),
          row (.st 1) (ev 1) none (some 10) (.st 1) ] },
    { }, { defer := some [ev 1, ev 2] }, { }, { } ] []

theorem mesh_regularG : mesh.RegularG := Machine.regularG_ofList (by decide +kernel)

theorem mesh_ok (e : Nat) (he : e < 3) (p : Nat) : OpOkGR mesh (.process (ev e) p) := by
  have : ∀ e < 3, decide (ev e ∈ mesh.eventIdsG) = true := by decide +kernel
  exact (of_decide_eq_true (this e he) : ev e ∈ mesh.eventIdsG)

theorem mesh_good : tangled.Good True (OpOkGR mesh) := by
  refine semR_good never_all fun n op hop => ?_
  unfold tangling at hop
  split at hop
  · simp only [List.mem_cons, List.not_mem_nil, or_false, or_self] at hop
    subst hop
    exact mesh_ok 0 (by decide) 0
  · split at hop
    · rw [List.mem_singleton.1 hop]; exact mesh_ok 1 (by decide) 0
    · cases hop

/-- The regions are in states `x` and `y`, and `q` is waiting. -/
abbrev meshed (c : Conf Nat (List Nat)) (x y : Name) (q : List (EventTy × Nat)) : Conf Nat (List Nat) :=
  { c with slots := [some (0, .st x), some (0, .st y)], waiting := q, active := 2, deps := [7] }

section
variable (call : Op Nat → Conf Nat (List Nat) → Res (Conf Nat (List Nat)) Bool) (fuel : Nat)
  (c : Conf Nat (List Nat)) (p : Nat) (q : List (EventTy × Nat))

/-- What becomes of the outcome of action 10. -/
theorem mesh_one : mesh.handleGR tangled call fuel (ev 1) p (meshed c 3 1 q) =
    ((((Machine.enactNoted call (tangled.action 10 ⟨ev 1, .st 1, .st 1, false, 7⟩ p c.world)
      (fun u => .action .action 10 ⟨ev 1, .st 1, .st 1, false, 7⟩ p u.isNone []) (meshed c 3 1 q)).bind
      fun u c => .ok u.2 c).bind fun p c => .ok (.fired, p) c).bind fun o c =>
        if o.1 = .deferred then .ok ([.none] ++ [.deferred], o.2) c
        else mesh.sweepGR tangled call (ev 1) [] ([.none] ++ [o.1]) o.2 c).bind fun a c =>
      if .deferred ∉ a.1 ∧ .fired ∈ a.1 ∧ mesh.anonymous then
        (mesh.settleGR tangled call fuel c).bind fun _ c => .ok a c
      else .ok a c := rfl

end

variable (fuel : Nat)

/-- Event 0 in the other state, with event 2 waiting: event 1 is put before it. -/
theorem mesh_other (n p h : Nat) (c : Conf Nat (List Nat)) :
    mesh.execGR tangled fuel n (.process (ev 0) p) (meshed c 3 1 [(ev 2, h)]) = .timeout ∨ ∃ c',
      mesh.execGR tangled fuel n (.process (ev 0) p) (meshed c 3 1 [(ev 2, h)]) =
        .ok true (meshed c' 3 2 [(ev 1, 0), (ev 2, h)]) := by
  rcases n with _ | _ | n
  · exact Or.inl rfl
  · exact Or.inl rfl
  · exact Or.inr ⟨_, rfl⟩

/-- Event 0 with events 1 and 2 waiting is never done with. -/
theorem mesh_spins (n : Nat) : ∀ (x p g h : Nat) (c : Conf Nat (List Nat)), x = 3 ∨ x = 4 →
    mesh.execGR tangled fuel n (.process (ev 0) p) (meshed c x 2 [(ev 1, g), (ev 2, h)]) = .timeout := by
  induction n with
  | zero => intro x p g h c _; rfl
  | succ n ih =>
    intro x p g h c hx
    have e : ∀ c, mesh.handleGR tangled (mesh.execGR tangled fuel n) fuel (ev 1) g (meshed c 3 1 [(ev 2, h)]) = .timeout := by
      intro c
      rw [mesh_one]
      have : Machine.enactNoted (mesh.execGR tangled fuel n)
          (tangled.action 10 ⟨ev 1, .st 1, .st 1, false, 7⟩ g c.world)
          (fun u => .action .action 10 ⟨ev 1, .st 1, .st 1, false, 7⟩ g u.isNone []) (meshed c 3 1 [(ev 2, h)]) =
            .timeout := by
        have he : Machine.enact (mesh.execGR tangled fuel n)
            (tangled.action 10 ⟨ev 1, .st 1, .st 1, false, 7⟩ g c.world) (meshed c 3 1 [(ev 2, h)]) = .timeout := by
          change Machine.enact _ (.call (.process (ev 0) 0) (c.world ++ [10]) fun _ w =>
            .call (.process (ev 0) 0) w fun _ w => .ret () g w) _ = _
          unfold Machine.enact
          rcases mesh_other fuel n 0 h { c with world := c.world ++ [10] } with h1 | ⟨c', h1⟩
          · rw [h1]
          · rw [h1]
            dsimp only
            unfold Machine.enact
            rw [ih 3 0 0 h c' (Or.inl rfl)]
        unfold Machine.enactNoted
        rw [he]
      rw [this]
      rfl
    have e' := fun c => congrArg (fun r => (Res.bind r fun _ c => Res.ok () c).bind fun _ c => Res.ok true c) (e c)
    rcases hx with rfl | rfl
    · exact e' c
    · exact e' c

/-- C102, why machines that defer events and have regions are excluded: the callbacks of this machine send events
of lower rank only, and it has no anonymous rows.  With events 1 and 2 waiting, event 0 is never done with: the
calls nest without end. -/
theorem C102_mesh : tangled.DownwardG mesh byNumber ∧
    ∃ s, RunToGR mesh tangled 7 [.process (ev 2) 0, .process (ev 1) 0] s ∧
    ∀ fuel n p, stepGR mesh tangled fuel n (.process (ev 0) p) s = .timeout := by
  refine ⟨downGB_iff (by decide +kernel), ?_⟩
  cases h0 : constructG (P := Nat) mesh 7 ([] : List Nat) with
  | error e =>
    have : (match constructG (P := Nat) mesh 7 ([] : List Nat) with | .ok _ => true | .error _ => false) = true := by
      decide +kernel
    rw [h0] at this
    cases this
  | ok s0 =>
    obtain ⟨h1, _, h2⟩ := C82_construct (P := Nat) mesh_regularG 7 ([] : List Nat)
    have hR : mesh.ScopesRealG := (h1.1 ⟨s0, h0⟩).1
    have hd := h2 s0 h0
    have hs := C97_step (sem := tangled) hd mesh_regularG hR mesh_good 1 2 (mesh_ok 2 (by decide) 0)
    obtain ⟨c, hc⟩ : ∃ c : Conf Nat (List Nat), mesh.execGR tangled 1 2 (.process (ev 2) 0) (mesh.fresh 7 []) =
        .ok true (meshed c 4 2 [(ev 2, 0)]) := ⟨_, rfl⟩
    rw [hc] at hs
    cases h1 : stepGR mesh tangled 1 2 (.process (ev 2) 0) s0 <;> rw [h1] at hs
    · have hs2 := C97_step (sem := tangled) hs.2 mesh_regularG hR mesh_good 1 2 (mesh_ok 1 (by decide) 0)
      obtain ⟨c', hc'⟩ : ∃ c', mesh.execGR tangled 1 2 (.process (ev 1) 0) (meshed c 4 2 [(ev 2, 0)]) =
          .ok true (meshed c' 4 2 [(ev 1, 0), (ev 2, 0)]) := ⟨_, rfl⟩
      rw [hc'] at hs2
      rename_i _ s1
      cases h3 : stepGR mesh tangled 1 2 (.process (ev 1) 0) s1 <;> rw [h3] at hs2
      · refine ⟨_, .ok (.ok (.init h0) (mesh_ok 2 (by decide) 0) h1) (mesh_ok 1 (by decide) 0) h3,
          fun fuel n p => ?_⟩
        exact ((C97_undefined hs2.2 mesh_regularG hR mesh_good fuel n (mesh_ok 0 (by decide) p)).2).2
          (mesh_spins fuel n 4 p 0 0 c' (Or.inr rfl))
      · exact hs2.elim
      · exact hs2.elim
      · exact hs2.elim
    · exact hs.elim
    · exact hs.elim
    · exact hs.elim

/-- C102, the claim without that condition is false. -/
theorem C102_refuted : ¬ ∀ (M : Machine) (sem : SemR Nat (List Nat)) (rank : EventTy → Nat → Nat)
    (ρ : Name × StTy → Nat) (B : Nat), M.RegularG → AcyclicG M ρ →
    (∀ p ∈ M.composites, ∀ st ∈ M.states, ρ (p, st) ≤ B) → sem.Good True (OpOkGR M) → sem.DownwardG M rank →
    ∀ d ops s, RunToGR M sem d ops s → ∀ fuel op, M.maxInit * B < fuel → OpOkGR M op →
      ∃ N q, q ≠ .timeout ∧ ∀ n, N ≤ n → stepGR M sem fuel n op s = q := by
  intro h
  obtain ⟨hd, s, hs, ht⟩ := C102_mesh
  obtain ⟨N, q, h1, h2⟩ := h mesh tangled byNumber (fun _ => 0) 0 mesh_regularG
    (acyclicG_of_none (by decide +kernel)) (fun _ _ _ _ => Nat.le_refl _) mesh_good hd 7 _ s hs 1
    (.process (ev 0) 0) (by decide +kernel) (mesh_ok 0 (by decide) 0)
  exact h1 ((h2 N (Nat.le_refl _)).symm.trans (ht 1 N 0))

/-! ## Anonymous rows -/

theorem chain_regularG : chain.RegularG := Machine.regularG_ofList (by decide +kernel)

theorem chain_acyclicG : AcyclicG chain chainRank := by
  intro p hp st hst c hc t ht
  have hall : (chain.composites.all fun p => chain.states.all fun st =>
      decide (chain.candsG .none p st = chain.cands .none p st)) = true := by decide +kernel
  have h := of_decide_eq_true (List.all_eq_true.1 (List.all_eq_true.1 hall p hp) st hst)
  rw [h] at hc
  exact chain_acyclic p hp st hst c hc t ht

/-- Three states in a row: whatever the callbacks do, every call ends, and invokes at most four guards and
sixteen other callbacks. -/
example (sem : Sem Nat (List Nat)) {d : Dep} {ops : List (OpG Nat)} {s : SM Nat (List Nat)}
    (h : RunToG chain sem d ops s) (hops : setDeps (ops.map OpG.op) = 0) {op : OpG Nat} (hop : OpOkG chain op) :
    stepG chain sem 3 op s ≠ .timeout ∧
    (stepG chain sem 3 op s).Sat True (fun _ => Invokes 4 16 s) (fun _ => Invokes 4 16 s) := by
  have hB : ∀ p ∈ chain.composites, ∀ st ∈ chain.states, chainRank (p, st) ≤ 2 := by decide +kernel
  refine ⟨C102_acyclic chain_regularG chain_acyclicG hB h (by decide +kernel) hop, ?_⟩
  have hc := C102_work (sem := sem) chain_regularG chain_acyclicG hB
    (ChoicesG.of_events (N := 1) chain_regularG (by decide +kernel)) h (fuel := 3) (by decide +kernel) hop
  rw [hops, show chain.turns = 1 from by decide +kernel, show chain.slotCount = 1 from by decide +kernel] at hc
  exact hc

/-- The configuration in the state with the loop. -/
abbrev spun (c : Conf Nat (List Nat)) : Conf Nat (List Nat) :=
  { c with slots := [some (0, .st 2)], deps := [7] }

theorem spin_settles (fuel : Nat) : ∀ c, spin.settleG (sem fun _ => true) fuel (spun c) = .timeout := by
  induction fuel with
  | zero => intro c; rfl
  | succ fuel ih =>
    intro c
    obtain ⟨c', h, h'⟩ : ∃ c', spin.roundG (sem fun _ => true) (spin.taking (spun c)) [] (spun c) = .ok true c' ∧
        c' = spun c' := ⟨_, rfl, rfl⟩
    unfold Machine.settleG
    rw [h, h']
    exact ih c'

theorem spin_regularG : spin.RegularG := Machine.regularG_ofList (by decide +kernel)

/-- C102, why anonymous rows must be acyclic: event 0 of this machine never ends. -/
theorem C102_spin : ∃ s, RunToG spin (sem fun _ => true) 7 [] s ∧
    ∀ fuel p, stepG spin (sem fun _ => true) fuel (.process (ev 0) p) s = .timeout := by
  cases h0 : constructG (P := Nat) spin 7 ([] : List Nat) with
  | error e =>
    have : (match constructG (P := Nat) spin 7 ([] : List Nat) with | .ok _ => true | .error _ => false) = true := by
      decide +kernel
    rw [h0] at this
    cases this
  | ok s0 =>
    obtain ⟨h1, _, h2⟩ := C82_construct (P := Nat) spin_regularG 7 ([] : List Nat)
    refine ⟨s0, .init h0, fun fuel p => ?_⟩
    have hs := C82_step (sem := sem fun _ => true) (h2 s0 h0) spin_regularG (h1.1 ⟨s0, h0⟩).1 fuel
      (op := .process (ev 0) p) (show ev 0 ∈ spin.eventIdsG by decide +kernel)
    have ht : spin.execG (sem fun _ => true) fuel (.process (ev 0) p) (spin.fresh 7 []) = .timeout :=
      congrArg (fun r => ((Res.bind r fun _ c => Res.ok ([RegionOut.fired], p) c).bind fun a c =>
        if ∀ o ∈ a.1, o = RegionOut.none then spin.complain (sem fun _ => true) (ev 0) a.2 c
        else spin.replayG (sem fun _ => true) fuel c : Res (Conf Nat (List Nat)) Unit)) (spin_settles fuel _)
    rw [ht] at hs
    revert hs
    cases stepG spin (sem fun _ => true) fuel (.process (ev 0) p) s0 <;> intro hs <;>
      first | exact hs.elim | rfl

end Ex

end Hsm
