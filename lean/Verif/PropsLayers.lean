import Verif.Layers
import Verif.Trail
import Verif.Clear
import Verif.PropsEnding
import Verif.PropsWork
import Verif.PropsSystems

/-!
# Programs in layers (C126, C127)
-/

namespace Hsm

section
variable {ι P W : Type} [DecidableEq ι] {Ms : ι → Machine} {sem : SemS ι P W}

/-! ## The bounds -/

theorem nested_upTo {step step' : ι → Op P → Hub ι P W → Res (Hub ι P W) Bool}
    (h : ∀ i op g, (step i op g).UpTo (step' i op g)) (i : ι) (op : Op P) (s : SM P (Hub ι P W)) :
    (nested step i op s).UpTo (nested step' i op s) := by
  unfold nested
  rcases s.world.request with _ | ⟨j, op⟩
  · exact .refl _
  · rcases h j op (s.world.store i s) with h | h <;> simp only [h]
    · exact Or.inl rfl
    · exact .refl _

theorem stepS_upTo {fuel fuel' : Nat} (hf : fuel ≤ fuel') : ∀ {n n' : Nat}, n ≤ n' → ∀ (i : ι) (op : Op P)
    (h : Hub ι P W), (stepS Ms sem fuel n i op h).UpTo (stepS Ms sem fuel' n' i op h) := by
  intro n
  induction n with
  | zero => intro n' _ i op h; exact Or.inl rfl
  | succ n ih =>
    intro n' hn i op h
    obtain ⟨m, rfl⟩ : ∃ m, n' = m + 1 := ⟨n' - 1, by omega⟩
    cases op with
    | process ev p =>
      unfold stepS
      rcases processEventR_upTo (M := Ms i) (sem := sem.at i (.process ev p))
        (nested_upTo (ih (n' := m) (by omega)) i) hf ev p (h.fetch i) with h | h <;> simp only [h]
      · exact Or.inl rfl
      · exact .refl _
    | set r p st => exact .refl _
    | setDependency d => exact .refl _

omit [DecidableEq ι] in
theorem play_upTo {step step' : ι → Op P → Hub ι P W → Res (Hub ι P W) Bool}
    (h : ∀ i op g, (step i op g).UpTo (step' i op g)) {α : Type} (pr : SProg ι P W α) :
    ∀ g, (pr.play step g).UpTo (pr.play step' g) := by
  induction pr with
  | ret a p w => intro g; exact .refl _
  | throw x w => intro g; exact .refl _
  | ub => intro g; exact .refl _
  | call i op w k ih =>
    intro g
    unfold SProg.play
    rcases h i op ⟨w, g.parts, none⟩ with h | h
    · rw [h]; exact Or.inl rfl
    · rw [← h]
      cases step i op ⟨w, g.parts, none⟩ with
      | ok b g' => exact ih _ _ _
      | throw x g' => exact ih _ _ _
      | ub u => exact .refl _
      | timeout => exact .refl _

/-- What a callback amounts to is what it does, whatever bounds suffice. -/
theorem SProg.effect_eq {α : Type} (pr : SProg ι P W α) (p : P) (h : Hub ι P W) {fuel n : Nat}
    (hx : pr.play (stepS Ms sem fuel n) h ≠ .timeout) :
    pr.effect Ms sem p h = (pr.play (stepS Ms sem fuel n) h).toCb p := by
  have hex : ∃ fn : Nat × Nat, pr.play (stepS Ms sem fn.1 fn.2) h ≠ .timeout := ⟨(fuel, n), hx⟩
  unfold SProg.effect
  rw [dif_pos hex]
  have h1 := (play_upTo (stepS_upTo (Ms := Ms) (sem := sem) (Nat.le_max_left fuel hex.choose.1)
    (Nat.le_max_left n hex.choose.2)) pr h).resolve_left hx
  have h2 := (play_upTo (stepS_upTo (Ms := Ms) (sem := sem) (Nat.le_max_right fuel hex.choose.1)
    (Nat.le_max_right n hex.choose.2)) pr h).resolve_left hex.choose_spec
  rw [h2, ← h1]

/-! ## Machines of higher layers do not matter -/

variable {layer : ι → Nat}

/-- The worlds of machine `j` in two programs. -/
def Hub.Kept (layer : ι → Nat) (L : Nat) (j : ι) (h h' : Hub ι P W) (w w' : Hub ι P W) : Prop :=
  w.user = w'.user ∧ (∀ k, k ≠ j → layer k < L → w.parts k = w'.parts k) ∧ h.Within layer j w ∧
    h'.Within layer j w'

/-- The calls machine `j` makes in two programs. -/
def Hub.Asked (layer : ι → Nat) (L : Nat) (j : ι) (h h' : Hub ι P W) (_ : Op P) (w : Hub ι P W) (_ : Op P)
    (w' : Hub ι P W) : Prop :=
  Hub.Kept layer L j h h' w w' ∧ w.request = w'.request ∧ ∀ k op, w.request = some (k, op) → layer k < layer j

theorem SProg.Good.sim {α : Type} {Q : ι → Op P → Prop} {U : Prop} {L : Nat} {j : ι} {h h' : Hub ι P W} {o o' : Op P}
    {pr : SProg ι P W α} (hp : pr.Good U Q) (hQ : ∀ k op, Q k op → layer k < layer j) :
    ∀ (m m' : ι → SM P Unit), (∀ k, k ≠ j → layer k < L → m k = m' k) →
      (∀ k, k ≠ j → layer j ≤ layer k → m k = h.parts k) → (∀ k, k ≠ j → layer j ≤ layer k → m' k = h'.parts k) →
      (pr.prog o m).Sim (Hub.Kept layer L j h h') (Hub.Asked layer L j h h') (pr.prog o' m') := by
  induction pr with
  | ret a p w => intro m m' h1 h2 h3; exact .ret _ _ ⟨rfl, h1, h2, h3⟩
  | throw x w => intro m m' h1 h2 h3; exact .throw _ ⟨rfl, h1, h2, h3⟩
  | ub => intro m m' h1 h2 h3; exact .ub
  | call i op w k ih =>
    intro m m' h1 h2 h3
    refine .call ⟨⟨rfl, h1, h2, h3⟩, rfl, ?_⟩ ?_
    · intro k op hk
      cases hk
      exact hQ _ _ hp.1
    · rintro r v v' ⟨g1, g2, g3, g4⟩
      rw [g1]
      exact ih _ _ (hp.2 _ _) _ _ g2 g3 g4

theorem SemS.Layered.sim (hs : sem.Layered Ms layer) (L : Nat) (j : ι) (h h' : Hub ι P W) (o o' : Op P) :
    (sem.at j o).Sim (Hub.Kept layer L j h h') (Hub.Asked layer L j h h') (sem.at j o') where
  guard g a p w w' hw := by
    obtain ⟨g1, g2, g3, g4⟩ := hw
    show (SProg.prog o (sem.guard j g a p w.user) w.parts).Sim _ _ (SProg.prog o' (sem.guard j g a p w'.user) w'.parts)
    rw [g1]
    exact (hs.guard j g a p _).sim (fun _ _ h => h.1) _ _ g2 g3 g4
  action c a p w w' hw := by
    obtain ⟨g1, g2, g3, g4⟩ := hw
    show (SProg.prog o (sem.action j c a p w.user) w.parts).Sim _ _ (SProg.prog o' (sem.action j c a p w'.user) w'.parts)
    rw [g1]
    exact (hs.action j c a p _).sim (fun _ _ h => h.1) _ _ g2 g3 g4
  handler c e st d p w w' hw := by
    obtain ⟨g1, g2, g3, g4⟩ := hw
    show (SProg.prog o (sem.handler j c e st d p w.user) w.parts).Sim _ _
      (SProg.prog o' (sem.handler j c e st d p w'.user) w'.parts)
    rw [g1]
    exact (hs.handler j c e st d p _).sim (fun _ _ h => h.1) _ _ g2 g3 g4
  alive st w w' hw := by
    show sem.alive j st w.user = sem.alive j st w'.user
    rw [hw.1]
  nonePayload := rfl

theorem Hub.Kept.home {α : Type} {L : Nat} {j : ι} {h h' : Hub ι P W} {q q' : Res (SM P (Hub ι P W)) α}
    (hq : q.Sim (Hub.Kept layer L j h h') q') : (q.home j).Near layer L j h h' (q'.home j) := by
  have key : ∀ {s s' : SM P (Hub ι P W)}, s.Sim (Hub.Kept layer L j h h') s' →
      (s.world.store j s).Near layer L (s'.world.store j s') ∧ h.Within layer j (s.world.store j s) ∧
        h'.Within layer j (s'.world.store j s') := by
    rintro s _ ⟨w', rfl, g1, g2, g3, g4⟩
    refine ⟨⟨g1, fun k hk => ?_⟩, fun k hk hl => ?_, fun k hk hl => ?_⟩
    · show (if k = j then _ else _) = (if k = j then _ else _)
      split
      · rfl
      · next hne => exact g2 k hne hk
    · exact (if_neg hk).trans (g3 k hk hl)
    · exact (if_neg hk).trans (g4 k hk hl)
  cases q <;> cases q' <;> first | exact hq.elim | exact hq | exact ⟨hq.1, key hq.2⟩

theorem stepS_near (hs : sem.Layered Ms layer) (fuel : Nat) {L : Nat} : ∀ n {j : ι} (op : Op P) {h h' : Hub ι P W},
    layer j < L → h.Near layer L h' →
      (stepS Ms sem fuel n j op h).Near layer L j h h' (stepS Ms sem fuel n j op h') := by
  intro n
  induction n with
  | zero => intro j op h h' _ _; trivial
  | succ n ih =>
    intro j op h h' hj hh
    have hw : Hub.Kept layer L j h h' { h with request := none } { h' with request := none } :=
      ⟨hh.1, fun k _ hk => hh.2 k hk, fun _ _ _ => rfl, fun _ _ _ => rfl⟩
    have hf : h'.fetch j = (h.fetch j).rebase { h' with request := none } := by
      unfold Hub.fetch
      rw [← hh.2 j hj]
      rfl
    have hw' : Hub.Kept layer L j h h' (h.fetch j).world { h' with request := none } := hw
    unfold stepS
    refine Hub.Kept.home ?_
    rw [hf]
    cases op with
    | set r p st =>
      exact (setOp_sim hw' _ _ _).bind fun _ s w' h => ⟨rfl, w', rfl, h⟩
    | setDependency d =>
      exact (setDependency_sim hw' _).bind fun _ s w' h => ⟨rfl, w', rfl, h⟩
    | process ev p =>
      refine processEventR_sim (hs.sim L j h h' _ _) ?_ fuel ev p hw'
      rintro _ _ s w' ⟨⟨g1, g2, g3, g4⟩, g5, g6⟩
      unfold nested
      show Res.Sim _ (match s.world.request with | none => _ | some (j, op) => _)
        (match w'.request with | none => _ | some (j, op) => _)
      rw [← g5]
      rcases hr : s.world.request with _ | ⟨k, op⟩
      · trivial
      · dsimp only
        have hk := g6 k op hr
        have hnear : (s.world.store j s).Near layer L (w'.store j (s.rebase w')) := by
          refine ⟨g1, fun i hi => ?_⟩
          show (if i = j then _ else _) = (if i = j then _ else _)
          split
          · rfl
          · next hne => exact g2 i hne hi
        have := ih op (Nat.lt_trans hk hj) hnear
        have hjk : j ≠ k := fun he => by rw [he] at hk; exact Nat.lt_irrefl _ hk
        have key : ∀ {g g' : Hub ι P W}, g.Near layer L g' → (s.world.store j s).Within layer k g →
            (w'.store j (s.rebase w')).Within layer k g' → (g.fetch j).Sim (Hub.Kept layer L j h h') (g'.fetch j) := by
          intro g g' e1 e2 e3
          refine ⟨{ g' with request := none }, ?_, e1.1, fun i _ hi => e1.2 i hi, fun i hi hl => ?_, fun i hi hl => ?_⟩
          · unfold Hub.fetch
            rw [← e1.2 j hj]
            rfl
          · have hik : i ≠ k := fun he => by rw [he] at hl; exact Nat.lt_irrefl _ (Nat.lt_of_lt_of_le hk hl)
            exact (e2 i hik (Nat.le_of_lt (Nat.lt_of_lt_of_le hk hl))).trans ((if_neg hi).trans (g3 i hi hl))
          · have hik : i ≠ k := fun he => by rw [he] at hl; exact Nat.lt_irrefl _ (Nat.lt_of_lt_of_le hk hl)
            exact (e3 i hik (Nat.le_of_lt (Nat.lt_of_lt_of_le hk hl))).trans ((if_neg hi).trans (g4 i hi hl))
        show Res.Sim _ (Res.back j (stepS Ms sem fuel n k op (s.world.store j s)))
          (Res.back j (stepS Ms sem fuel n k op (w'.store j (s.rebase w'))))
        revert this
        generalize stepS Ms sem fuel n k op (s.world.store j s) = q
        generalize stepS Ms sem fuel n k op (w'.store j (s.rebase w')) = q'
        intro this
        cases q <;> cases q' <;> first | exact this.elim | exact this | exact ⟨this.1, key this.2.1 this.2.2.1 this.2.2.2⟩

theorem stepS_within (hs : sem.Layered Ms layer) (fuel n : Nat) (j : ι) (op : Op P) (h : Hub ι P W) :
    (stepS Ms sem fuel n j op h).Out (h.Within layer j) := by
  have := stepS_near (Ms := Ms) (L := layer j + 1) hs fuel n op (h := h) (h' := h) (Nat.lt_succ_self _) ⟨rfl, fun _ _ => rfl⟩
  revert this
  generalize stepS Ms sem fuel n j op h = q
  intro this
  cases q <;> first | exact this.2.2.1 | trivial

/-! ## Machines on their own -/

variable {O : ι → Op P → Prop}

/-- The members of a machine after a history of it on its own, in which the calls `base` occur in order. -/
def Led (Ms : ι → Machine) (sem : SemS ι P W) (O : ι → Op P → Prop) (d : ι → Dep) (base : List (Op P)) (k : ι) (x : SM P Unit) : Prop :=
  ∃ ops w, base.Sublist ops ∧ (∀ op ∈ ops, O k op) ∧ RunTo (Ms k) (sem.solo Ms k) (d k) ops (x.rebase w)

theorem Led.mono {d : ι → Dep} {base base' : List (Op P)} {k : ι} {x : SM P Unit} (h : Led Ms sem O d base k x)
    (hb : base'.Sublist base) : Led Ms sem O d base' k x := by
  obtain ⟨ops, w, h1, h2, h3⟩ := h
  exact ⟨ops, w, hb.trans h1, h2, h3⟩

theorem Led.fetch {d : ι → Dep} {base : List (Op P)} {k : ι} {h : Hub ι P W} (hl : Led Ms sem O d base k (h.parts k)) :
    ∃ ops, base.Sublist ops ∧ (∀ op ∈ ops, O k op) ∧ RunTo (Ms k) (sem.solo Ms k) (d k) ops (h.fetch k) := by
  obtain ⟨ops, w, h1, h2, h3⟩ := hl
  exact ⟨ops, h1, h2, h3.world { h with request := none }⟩

/-- The worlds of machine `j`, in the program and on its own. -/
def Hub.Trail (Φ : Hub ι P W → Prop) (layer : ι → Nat) (j : ι) (h w w' : Hub ι P W) : Prop :=
  w.user = w'.user ∧ (∀ k, layer k < layer j → w.parts k = w'.parts k) ∧ Φ w ∧ h.Within layer j w

/-- A callback of a machine in the program, and the callback on its own. -/
def Shadows {α : Type} (T : Prop) (V : UB → Prop) (Φ : Hub ι P W → Prop) (layer : ι → Nat) (j : ι) (h : Hub ι P W)
    (s : SM P (Hub ι P W)) : Res (SM P (Hub ι P W)) α → Res (Hub ι P W) α → Prop
  | .ok a s', .ok a' g => a = a' ∧ ∃ w, s' = { s with world := w } ∧ Hub.Trail Φ layer j h w g
  | .throw _ s', .throw _ g => ∃ w, s' = { s with world := w } ∧ Hub.Trail Φ layer j h w g
  | .ub u, .ub _ => V u
  | .timeout, .timeout => T
  | _, _ => False

theorem play_shadows {T Y : Prop} {V : UB → Prop} {O : ι → Op P → Prop} {Φ : Hub ι P W → Prop} {α : Type}
    (hs : sem.Layered Ms layer) {fuel n : Nat} {j : ι}
    {h : Hub ι P W} (hΦ : ∀ g g' : Hub ι P W, (∀ k, layer k < layer j → g.parts k = g'.parts k) → Φ g → Φ g')
    (hc : ∀ k op g, layer k < layer j → OpOk (Ms k) op → O k op → Φ g → (stepS Ms sem fuel n k op g).Out Φ)
    (hT : T ∨ ∀ k op g, layer k < layer j → OpOk (Ms k) op → O k op → Φ g → stepS Ms sem fuel n k op g ≠ .timeout)
    (hV : ∀ k op g, layer k < layer j → OpOk (Ms k) op → O k op → Φ g → ∀ u, stepS Ms sem fuel n k op g = .ub u → V u)
    (hY : Y → V .callback)
    {pr : SProg ι P W α} (hp : pr.Good True fun k op => layer k < layer j ∧ OpOk (Ms k) op)
    (ho : pr.Good Y O) (o : Op P) :
    ∀ (s : SM P (Hub ι P W)) (m : ι → SM P Unit) (w' : Hub ι P W), (∀ k, layer k < layer j → m k = w'.parts k) →
      Φ w' → (∀ k, k ≠ j → layer j ≤ layer k → m k = h.parts k) →
      Shadows T V Φ layer j h s (runProg (nested (stepS Ms sem fuel n) j) (pr.prog o m) s)
        (pr.play (stepS Ms sem fuel n) w') := by
  induction pr with
  | ret a p w =>
    intro s m w' h1 h2 h3
    exact ⟨rfl, _, rfl, rfl, h1, hΦ _ _ (fun k hk => (h1 k hk).symm) h2, h3⟩
  | throw x w =>
    intro s m w' h1 h2 h3
    exact ⟨_, rfl, rfl, h1, hΦ _ _ (fun k hk => (h1 k hk).symm) h2, h3⟩
  | ub => intro s m w' h1 h2 h3; exact hY ho
  | call k op w kk ih =>
    intro s m w' h1 h2 h3
    obtain ⟨⟨hk, hop⟩, hp'⟩ := hp
    obtain ⟨hO, ho'⟩ := ho
    have hjk : j ≠ k := fun he => by rw [he] at hk; exact Nat.lt_irrefl _ hk
    unfold SProg.play
    have hn : nested (stepS Ms sem fuel n) j o { s with world := ⟨w, m, some (k, op)⟩ } = Res.back j (stepS Ms sem fuel n
      k op (Hub.store ⟨w, m, some (k, op)⟩ j { s with world := ⟨w, m, some (k, op)⟩ })) := rfl
    unfold SProg.prog runProg
    rw [hn]
    have hlow : ∀ i, layer i < layer j → (Hub.store (⟨w, m, some (k, op)⟩ : Hub ι P W) j
        { s with world := ⟨w, m, some (k, op)⟩ }).parts i = w'.parts i := by
      intro i hi
      have hij : i ≠ j := fun he => by rw [he] at hi; exact Nat.lt_irrefl _ hi
      exact (if_neg hij).trans (h1 i hi)
    have hnear := stepS_near (L := layer j) hs fuel n op (h := Hub.store ⟨w, m, some (k, op)⟩ j
      { s with world := ⟨w, m, some (k, op)⟩ }) (h' := ⟨w, w'.parts, none⟩) hk ⟨rfl, hlow⟩
    have hΦ0 : Φ (Hub.store ⟨w, m, some (k, op)⟩ j { s with world := ⟨w, m, some (k, op)⟩ }) :=
      hΦ _ _ (fun i hi => (hlow i hi).symm) h2
    have hout := hc k op _ hk hop hO hΦ0
    have hcl := hV k op (Hub.store ⟨w, m, some (k, op)⟩ j { s with world := ⟨w, m, some (k, op)⟩ }) hk hop hO hΦ0
    have hto : T ∨ stepS Ms sem fuel n k op (Hub.store ⟨w, m, some (k, op)⟩ j
        { s with world := ⟨w, m, some (k, op)⟩ }) ≠ .timeout := hT.imp id fun h => h k op _ hk hop hO hΦ0
    have key : ∀ {g g' : Hub ι P W}, g.Near layer (layer j) g' → (Hub.store (⟨w, m, some (k, op)⟩ : Hub ι P W) j
        { s with world := ⟨w, m, some (k, op)⟩ }).Within layer k g → Φ g → ∀ r,
        Shadows T V Φ layer j h s (runProg (nested (stepS Ms sem fuel n) j)
          ((kk r (g.fetch j).world.user).prog o (g.fetch j).world.parts) (g.fetch j))
          ((kk r g'.user).play (stepS Ms sem fuel n) g') := by
      intro g g' e1 e2 e3 r
      have hfetch : g.fetch j = { s with world := { g with request := none } } := by
        have : g.parts j = s.rebase () := (e2 j hjk (Nat.le_of_lt hk)).trans (if_pos rfl)
        unfold Hub.fetch
        rw [this]
        rfl
      have := ih r g'.user (hp' _ _) (ho' _ _) (g.fetch j) g.parts g' e1.2 (hΦ _ _ e1.2 e3) (fun i hi hl => by
        have hik : i ≠ k := fun he => by rw [he] at hl; exact Nat.lt_irrefl _ (Nat.lt_of_lt_of_le hk hl)
        exact (e2 i hik (Nat.le_of_lt (Nat.lt_of_lt_of_le hk hl))).trans ((if_neg hi).trans (h3 i hi hl)))
      have hu : (g.fetch j).world.user = g'.user := e1.1
      have hm : (g.fetch j).world.parts = g.parts := rfl
      rw [hu, hm]
      revert this
      rw [hfetch]
      generalize runProg (nested (stepS Ms sem fuel n) j) ((kk r g'.user).prog o g.parts) _ = q
      generalize (kk r g'.user).play (stepS Ms sem fuel n) g' = q'
      intro this
      cases q <;> cases q' <;> exact this
    revert hnear hout hto hcl
    generalize stepS Ms sem fuel n k op (Hub.store ⟨w, m, some (k, op)⟩ j
      { s with world := ⟨w, m, some (k, op)⟩ }) = q
    generalize stepS Ms sem fuel n k op ⟨w, w'.parts, none⟩ = q'
    intro hnear hout hcl hto
    cases q <;> cases q' <;> first | exact hnear.elim | skip
    · obtain ⟨rfl, e1, e2, _⟩ := hnear
      exact key e1 e2 hout _
    · obtain ⟨rfl, e1, e2, _⟩ := hnear
      exact key e1 e2 hout _
    · exact hcl _ rfl
    · exact hto.resolve_right fun h => h rfl

theorem Shadows.tracks {T X : Prop} {V : UB → Prop} {Φ : Hub ι P W → Prop} {α : Type} {fuel n : Nat} {j : ι} {h : Hub ι P W}
    {s : SM P (Hub ι P W)} {w' : Hub ι P W} {pr : SProg ι P W α} {q : Res (SM P (Hub ι P W)) (α × P)} (p : P)
    {call : Op P → SM P (Hub ι P W) → Res (SM P (Hub ι P W)) Bool}
    (hf : Shadows T V Φ layer j h s q (pr.play (stepS Ms sem fuel n) w')) :
    ∀ {cb : CbRes P (Hub ι P W) α}, X ∧ pr.effect Ms sem p w' = .ub ∨ cb = pr.effect Ms sem p w' →
    q.Tracks T X V (Hub.Trail Φ layer j h) (runProg call cb.prog (s.rebase w')) := by
  intro cb hcb
  have he := pr.effect_eq (Ms := Ms) (sem := sem) p w' (fuel := fuel) (n := n)
  revert hf he
  generalize pr.play (stepS Ms sem fuel n) w' = q'
  intro hf he
  cases q <;> cases q' <;> first | exact hf.elim | skip
  · rw [he (fun h => by cases h)] at hcb
    obtain rfl := hcb.resolve_left fun h => by cases h.2
    obtain ⟨rfl, w, rfl, hw⟩ := hf
    exact ⟨rfl, _, rfl, hw⟩
  · rw [he (fun h => by cases h)] at hcb
    obtain rfl := hcb.resolve_left fun h => by cases h.2
    obtain ⟨w, rfl, hw⟩ := hf
    exact ⟨_, rfl, hw⟩
  · rw [he (fun h => by cases h)] at hcb
    rcases hcb with h | rfl
    · cases runProg call cb.prog (s.rebase w') <;> first | exact ⟨h.1, hf⟩ | exact Or.inr hf
    · exact Or.inr hf
  · cases runProg call cb.prog (s.rebase w') <;> first | exact hf | trivial

theorem SemS.Layered.tracks {T X Y : Prop} {V : UB → Prop} {O : ι → Op P → Prop} {Φ : Hub ι P W → Prop}
    (hs : sem.Layered Ms layer) {fuel n : Nat} {j : ι}
    {h : Hub ι P W} (hΦ : ∀ g g' : Hub ι P W, (∀ k, layer k < layer j → g.parts k = g'.parts k) → Φ g → Φ g')
    (hc : ∀ k op g, layer k < layer j → OpOk (Ms k) op → O k op → Φ g → (stepS Ms sem fuel n k op g).Out Φ)
    (hT : T ∨ ∀ k op g, layer k < layer j → OpOk (Ms k) op → O k op → Φ g → stepS Ms sem fuel n k op g ≠ .timeout)
    (hV : ∀ k op g, layer k < layer j → OpOk (Ms k) op → O k op → Φ g → ∀ u, stepS Ms sem fuel n k op g = .ub u → V u)
    (hY : Y → V .callback) (hO : sem.Good Y O) {σ : Sem P (Hub ι P W)} (hσ : σ.Fills X (sem.solo Ms j)) (o : Op P)
    (call : Op P → SM P (Hub ι P W) → Res (SM P (Hub ι P W)) Bool) :
    (sem.at j o).Tracks T X V (Hub.Trail Φ layer j h) (nested (stepS Ms sem fuel n) j) σ.lift call where
  guard g a p s w' hw := by
    obtain ⟨g1, g2, g3, g4⟩ := hw
    have := play_shadows hs hΦ hc hT hV hY (hs.guard j g a p w'.user) (hO.guard j g a p w'.user) o s s.world.parts w' g2 (hΦ _ _ g2 g3) g4
    show (runProg _ (SProg.prog o (sem.guard j g a p s.world.user) s.world.parts) s).Tracks T X V _ _
    rw [g1]
    exact this.tracks p (hσ.guard g a p w')
  action c a p s w' hw := by
    obtain ⟨g1, g2, g3, g4⟩ := hw
    have := play_shadows hs hΦ hc hT hV hY (hs.action j c a p w'.user) (hO.action j c a p w'.user) o s s.world.parts w' g2 (hΦ _ _ g2 g3) g4
    show (runProg _ (SProg.prog o (sem.action j c a p s.world.user) s.world.parts) s).Tracks T X V _ _
    rw [g1]
    exact this.tracks p (hσ.action c a p w')
  handler c e st d p s w' hw := by
    obtain ⟨g1, g2, g3, g4⟩ := hw
    have := play_shadows hs hΦ hc hT hV hY (hs.handler j c e st d p w'.user) (hO.handler j c e st d p w'.user) o s s.world.parts w' g2 (hΦ _ _ g2 g3) g4
    show (runProg _ (SProg.prog o (sem.handler j c e st d p s.world.user) s.world.parts) s).Tracks T X V _ _
    rw [g1]
    exact this.tracks p (hσ.handler c e st d p w')
  alive st w w' hw := by
    show sem.alive j st w.user = σ.alive st w'
    rw [hw.1, hσ.alive]
    rfl
  nonePayload := hσ.nonePayload.symm

/-- A call in the program, before it is put back, and the call on the machine on its own. -/
theorem stepS_tracks {T X Y : Prop} {V : UB → Prop} {O : ι → Op P → Prop} {Φ : Hub ι P W → Prop}
    (hs : sem.Layered Ms layer) {fuel n : Nat} {j : ι}
    (hΦ : ∀ g g' : Hub ι P W, (∀ k, layer k < layer j → g.parts k = g'.parts k) → Φ g → Φ g')
    (hc : ∀ k op g, layer k < layer j → OpOk (Ms k) op → O k op → Φ g → (stepS Ms sem fuel n k op g).Out Φ)
    (hT : T ∨ ∀ k op g, layer k < layer j → OpOk (Ms k) op → O k op → Φ g → stepS Ms sem fuel n k op g ≠ .timeout)
    (hV : ∀ k op g, layer k < layer j → OpOk (Ms k) op → O k op → Φ g → ∀ u, stepS Ms sem fuel n k op g = .ub u → V u)
    (hY : Y → V .callback) (hO : sem.Good Y O) {σ : Sem P (Hub ι P W)} (hσ : σ.Fills X (sem.solo Ms j)) (op : Op P)
    {h : Hub ι P W} (hh : Φ h) : ∃ q : Res (SM P (Hub ι P W)) Bool, stepS Ms sem fuel (n + 1) j op h = q.home j ∧
      q.Tracks T X V (Hub.Trail Φ layer j h) (step (Ms j) σ fuel op (h.fetch j)) := by
  have hw : Hub.Trail Φ layer j h (h.fetch j).world { h with request := none } :=
    ⟨rfl, fun _ _ => rfl, hΦ h _ (fun _ _ => rfl) hh, fun _ _ _ => rfl⟩
  rw [← stepR_lift fuel 0]
  cases op with
  | process ev p => exact ⟨_, rfl, processEventR_tracks (hs.tracks hΦ hc hT hV hY hO hσ (.process ev p) _) fuel ev p hw⟩
  | set r p st =>
    exact ⟨_, rfl, (setOp_sim (M := Ms j) hw r p st).tracks.bind fun _ s w' h => ⟨rfl, w', rfl, h⟩⟩
  | setDependency d =>
    exact ⟨_, rfl, (setDependency_sim (M := Ms j) hw d).tracks.bind fun _ s w' h => ⟨rfl, w', rfl, h⟩⟩

theorem SemS.Layered.free (hs : sem.Layered Ms layer) : sem.Good True fun _ _ => True :=
  ⟨fun i g a p w => (hs.guard i g a p w).mono id fun _ _ _ => trivial,
    fun i c a p w => (hs.action i c a p w).mono id fun _ _ _ => trivial,
    fun i c e st d p w => (hs.handler i c e st d p w).mono id fun _ _ _ => trivial⟩

/-- In layered programs no iterator is invalidated: the machine whose table is looped over is not called. -/
theorem stepS_clear (hs : sem.Layered Ms layer) (fuel : Nat) : ∀ (n : Nat) (j : ι) (op : Op P) (h : Hub ι P W),
    (stepS Ms sem fuel n j op h).Clear := by
  intro n
  induction n with
  | zero => intro j op h; exact fun h => nomatch h
  | succ n ih =>
    intro j op h
    obtain ⟨q, h1, h2⟩ := stepS_tracks (T := True) (X := False) (V := (· ≠ .iterator)) (Φ := fun _ => True) (fuel := fuel) (n := n)
      (j := j) hs
      (fun _ _ _ h => h) (fun k op g _ _ _ _ => by cases stepS Ms sem fuel n k op g <;> trivial) (Or.inl trivial)
      (fun k op g _ _ _ _ u hu e => ih k op g (by rw [hu, e])) (fun _ e => nomatch e) hs.free (.refl _) op (h := h) trivial
    rw [h1]
    intro hu
    cases q with
    | ok b s => cases hu
    | throw x s => cases hu
    | timeout => cases hu
    | ub u =>
      cases hu
      revert h2
      have hcl := step_clear (M := Ms j) (sem := sem.solo Ms j) fuel op (h.fetch j)
      revert hcl
      generalize step (Ms j) (sem.solo Ms j) fuel op (h.fetch j) = q'
      intro hcl h2
      cases q' <;> first | exact h2.1 | exact h2.elim (fun e => hcl (by rw [e])) fun e => e rfl

/-- All machines of the layers below `L` have been led there. -/
def LedBelow (Ms : ι → Machine) (sem : SemS ι P W) (O : ι → Op P → Prop) (layer : ι → Nat) (d : ι → Dep) (base : ι → List (Op P)) (L : Nat)
    (g : Hub ι P W) : Prop := ∀ k, layer k < L → Led Ms sem O d (base k) k (g.parts k)

theorem LedBelow.congr {d : ι → Dep} {base : ι → List (Op P)} {L : Nat} (g g' : Hub ι P W)
    (he : ∀ k, layer k < L → g.parts k = g'.parts k) (h : LedBelow Ms sem O layer d base L g) :
    LedBelow Ms sem O layer d base L g' := fun k hk => he k hk ▸ h k hk

theorem Led.step {d : ι → Dep} {base : List (Op P)} {j : ι} {op : Op P} {fuel : Nat} {h : Hub ι P W} {T X : Prop}
    {V : UB → Prop}
    {Φ : Hub ι P W → Prop} {q : Res (SM P (Hub ι P W)) Bool} (hl : Led Ms sem O d base j (h.parts j))
    (hop : OpOk (Ms j) op) (hO : O j op)
    (hq : q.Tracks T X V (Hub.Trail Φ layer j h) (Hsm.step (Ms j) (sem.solo Ms j) fuel op (h.fetch j))) :
    (q.home j).Out fun g => Led Ms sem O d (base ++ [op]) j (g.parts j) := by
  obtain ⟨ops, h1, h3, h2⟩ := hl.fetch
  have h4 : ∀ o ∈ ops ++ [op], O j o := fun o ho => by
    rcases List.mem_append.1 ho with ho | ho
    · exact h3 o ho
    · rw [List.mem_singleton.1 ho]
      exact hO
  cases q with
  | ub u => trivial
  | timeout => trivial
  | ok b s =>
    cases hr : Hsm.step (Ms j) (sem.solo Ms j) fuel op (h.fetch j) <;> rw [hr] at hq <;> first | exact hq.elim | skip
    obtain ⟨rfl, w', rfl, _⟩ := hq
    refine ⟨ops ++ [op], w', h1.append (List.Sublist.refl _), h4, ?_⟩
    have : (s.world.store j s).parts j = s.rebase () := if_pos rfl
    rw [this]
    exact h2.ok hop hr
  | throw x s =>
    cases hr : Hsm.step (Ms j) (sem.solo Ms j) fuel op (h.fetch j) <;> rw [hr] at hq <;> first | exact hq.elim | skip
    obtain ⟨w', rfl, _⟩ := hq
    refine ⟨ops ++ [op], w', h1.append (List.Sublist.refl _), h4, ?_⟩
    have : (s.world.store j s).parts j = s.rebase () := if_pos rfl
    rw [this]
    exact h2.throw hop hr

theorem Res.Out.imp {σ α : Type} {Φ Ψ : σ → Prop} {q : Res σ α} (h : q.Out Φ) (hi : ∀ g, Φ g → Ψ g) : q.Out Ψ := by
  cases q <;> first | exact hi _ h | trivial

theorem Res.Out.and {σ α : Type} {Φ Ψ : σ → Prop} {q : Res σ α} (h : q.Out Φ) (h' : q.Out Ψ) :
    q.Out fun g => Φ g ∧ Ψ g := by
  cases q <;> first | exact ⟨h, h'⟩ | trivial

theorem Hub.Trail.home {T X : Prop} {V : UB → Prop} {Φ : Hub ι P W → Prop} {j : ι} {h : Hub ι P W} {q q' : Res (SM P (Hub ι P W)) Bool}
    (hΦ : ∀ g g' : Hub ι P W, (∀ k, layer k < layer j → g.parts k = g'.parts k) → Φ g → Φ g')
    (hq : q.Tracks T X V (Hub.Trail Φ layer j h) q') : (q.home j).Out Φ := by
  have key : ∀ s : SM P (Hub ι P W), Φ s.world → Φ (s.world.store j s) := fun s hs => hΦ _ _ (fun k hk => by
    have hkj : k ≠ j := fun he => by rw [he] at hk; exact Nat.lt_irrefl _ hk
    exact (if_neg hkj).symm) hs
  cases q with
  | ub u => trivial
  | timeout => trivial
  | ok b s => cases q' <;> first | exact hq.elim | (obtain ⟨_, w', _, hw⟩ := hq; exact key s hw.2.2.1)
  | throw b s => cases q' <;> first | exact hq.elim | (obtain ⟨w', _, hw⟩ := hq; exact key s hw.2.2.1)

/-- Calls lead machines on. -/
theorem stepS_led (hs : sem.Layered Ms layer) (hO : sem.Good True O) (d : ι → Dep) (base : ι → List (Op P)) (fuel : Nat) : ∀ n {L : Nat} {j : ι}
    {op : Op P} {h : Hub ι P W}, layer j < L → OpOk (Ms j) op → O j op →
    LedBelow Ms sem O layer d base L h →
    (stepS Ms sem fuel n j op h).Out fun g => LedBelow Ms sem O layer d base L g ∧
      Led Ms sem O d (base j ++ [op]) j (g.parts j) := by
  intro n
  induction n with
  | zero => intro L j op h _ _ _ _; trivial
  | succ n ih =>
    intro L j op h hj hop hop' hl
    obtain ⟨q, h1, h2⟩ := stepS_tracks (T := True) (X := False) (V := fun _ => True) (Φ := LedBelow Ms sem O layer d base (layer j)) (fuel := fuel) (n := n)
      (j := j) hs LedBelow.congr
      (fun k op g hk hop hop' hg => (ih hk hop hop' hg).imp fun _ h => h.1) (Or.inl trivial)
      (fun _ _ _ _ _ _ _ _ _ => trivial) (fun _ => trivial) hO (.refl _) op (h := h)
      (fun k hk => hl k (Nat.lt_trans hk hj))
    have e1 := stepS_within hs fuel (n + 1) j op h
    rw [h1] at e1 ⊢
    have e2 := Hub.Trail.home LedBelow.congr h2
    have e3 := (hl j hj).step hop hop' h2
    refine ((e1.and e2).and e3).imp ?_
    rintro g ⟨⟨f1, f2⟩, f3⟩
    refine ⟨fun k hk => ?_, f3⟩
    by_cases hkj : k = j
    · rw [hkj]
      exact f3.mono (List.sublist_append_left _ _)
    · by_cases hlt : layer k < layer j
      · exact f2 k hlt
      · rw [f1 k hkj (Nat.le_of_not_lt hlt)]
        exact hl k hk

/-! ## The properties -/

theorem RunToS.led (hs : sem.Layered Ms layer) (hO : sem.Good True O) {d : ι → Dep} {ops : List (ι × Op P)} {h : Hub ι P W}
    (hr : RunToS Ms sem d ops h) (ho : ∀ x ∈ ops, O x.1 x.2) : ∀ i, Led Ms sem O d (callsOf i ops) i (h.parts i) := by
  have key : ∀ {ops : List (ι × Op P)} {g g' : Hub ι P W} {i : ι} {op : Op P},
      (∀ k, Led Ms sem O d (callsOf k ops) k (g.parts k)) → g.Within layer i g' →
      LedBelow Ms sem O layer d (fun k => callsOf k ops) (layer i + 1) g' →
      Led Ms sem O d (callsOf i ops ++ [op]) i (g'.parts i) →
      ∀ k, Led Ms sem O d (callsOf k (ops ++ [(i, op)])) k (g'.parts k) := by
    intro ops g g' i op h1 h2 h3 h4 k
    have he : callsOf k (ops ++ [(i, op)]) = callsOf k ops ++ if i = k then [op] else [] := by
      unfold callsOf
      rw [List.filterMap_append]
      congr 1
      by_cases hik : i = k
      · simp [hik]
      · simp [hik]
    rw [he]
    by_cases hik : i = k
    · subst hik
      rw [if_pos rfl]
      exact h4
    · rw [if_neg hik, List.append_nil]
      by_cases hlt : layer k < layer i + 1
      · exact h3 k hlt
      · rw [h2 k (Ne.symm hik) (by omega)]
        exact h1 k
  induction hr with
  | @init h hi => exact fun i => ⟨[], h, List.nil_sublist _, fun _ h => absurd h List.not_mem_nil, .init (construct_rebase (hi i))⟩
  | @ok h h' ops i op fuel n b hr hop hst ih =>
    have ih := ih fun x hx => ho x (List.mem_append_left _ hx)
    have h1 := stepS_within hs fuel n i op h
    have h2 := stepS_led hs hO d (fun k => callsOf k ops) fuel n (Nat.lt_succ_self (layer i)) hop
      (ho (i, op) (List.mem_append_right _ (List.mem_singleton.2 rfl))) (h := h) fun k _ => ih k
    rw [hst] at h1 h2
    exact key ih h1 h2.1 h2.2
  | @throw h h' ops i op fuel n x hr hop hst ih =>
    have ih := ih fun x hx => ho x (List.mem_append_left _ hx)
    have h1 := stepS_within hs fuel n i op h
    have h2 := stepS_led hs hO d (fun k => callsOf k ops) fuel n (Nat.lt_succ_self (layer i)) hop
      (ho (i, op) (List.mem_append_right _ (List.mem_singleton.2 rfl))) (h := h) fun k _ => ih k
    rw [hst] at h1 h2
    exact key ih h1 h2.1 h2.2
  | world hr w ih => exact ih ho

/-- C126: in a program whose callbacks only use machines of lower layers, every machine is after every history of
the program as after a history of its own, with callbacks that call nothing; the calls made from outside the
program are among the calls of that history, in the same order. -/
theorem C126_alone (hs : sem.Layered Ms layer) {d : ι → Dep} {ops : List (ι × Op P)} {h : Hub ι P W}
    (hr : RunToS Ms sem d ops h) (i : ι) :
    ∃ ops', (callsOf i ops).Sublist ops' ∧ RunTo (Ms i) (sem.solo Ms i) (d i) ops' (h.fetch i) :=
  let ⟨ops', h1, _, h2⟩ := (hr.led hs hs.free (fun _ _ => trivial) i).fetch
  ⟨ops', h1, h2⟩

/-- C126, calls: a call does to the machine, to the machines of lower layers and to the user's world what the same
call does to the machine on its own. -/
theorem C126_step (hs : sem.Layered Ms layer) (fuel n : Nat) (i : ι) (op : Op P) (h : Hub ι P W) :
    (stepS Ms sem fuel n i op h).SeenAs layer i (step (Ms i) (sem.solo Ms i) fuel op (h.fetch i)) := by
  cases n with
  | zero => trivial
  | succ n =>
    obtain ⟨q, h1, h2⟩ := stepS_tracks (T := True) (X := False) (V := fun _ => True) (Φ := fun _ => True) (fuel := fuel) (n := n) (j := i) hs
      (fun _ _ _ h => h) (fun k op g _ _ _ _ => by cases stepS Ms sem fuel n k op g <;> trivial) (Or.inl trivial)
      (fun _ _ _ _ _ _ _ _ _ => trivial) (fun _ => trivial) hs.free (.refl _) op
      (h := h) trivial
    rw [h1]
    have key : ∀ {s : SM P (Hub ι P W)} {w' : Hub ι P W}, Hub.Trail (fun _ => True) layer i h s.world w' →
        (s.world.store i s).parts i = (s.rebase w').rebase () ∧ (s.world.store i s).user = w'.user ∧
        ∀ k, layer k < layer i → (s.world.store i s).parts k = w'.parts k := by
      rintro s w' ⟨g1, g2, _, _⟩
      refine ⟨if_pos rfl, g1, fun k hk => ?_⟩
      have hki : k ≠ i := fun he => by rw [he] at hk; exact Nat.lt_irrefl _ hk
      exact (if_neg hki).trans (g2 k hk)
    revert h2
    generalize step (Ms i) (sem.solo Ms i) fuel op (h.fetch i) = q'
    intro h2
    cases q <;> cases q' <;> first | exact h2.elim | exact h2.1.elim | trivial | skip
    · obtain ⟨rfl, w', rfl, hw⟩ := h2
      exact ⟨rfl, key hw⟩
    · obtain ⟨w', rfl, hw⟩ := h2
      exact key hw

/-- C126, the others: a call changes no other machine of the same layer, and none of a higher one. -/
theorem C126_others (hs : sem.Layered Ms layer) (fuel n : Nat) (i : ι) (op : Op P) (h : Hub ι P W) {k : ι}
    (hk : k ≠ i) (hl : layer i ≤ layer k) :
    (stepS Ms sem fuel n i op h).Out fun g => g.parts k = h.parts k :=
  (stepS_within hs fuel n i op h).imp fun _ hg => hg k hk hl

/-- C126, lower layers: what a call does to a machine, to the machines of lower layers and to the user's world does
not depend on the other machines. -/
theorem C126_lower (hs : sem.Layered Ms layer) (fuel n : Nat) (i : ι) (op : Op P) {h h' : Hub ι P W}
    (hu : h.user = h'.user) (hp : ∀ k, layer k ≤ layer i → h.parts k = h'.parts k) :
    (stepS Ms sem fuel n i op h).Near layer (layer i + 1) i h h' (stepS Ms sem fuel n i op h') :=
  stepS_near hs fuel n op (Nat.lt_succ_self _) ⟨hu, fun k hk => hp k (Nat.le_of_lt_succ hk)⟩

/-- C127, the bounds: a call that ends within some number of anonymous rounds and some depth of nesting ends the
same with more of both. -/
theorem C127_bounds {fuel fuel' n n' : Nat} (hf : fuel ≤ fuel') (hn : n ≤ n') (i : ι) (op : Op P) (h : Hub ι P W)
    (hx : stepS Ms sem fuel n i op h ≠ .timeout) : stepS Ms sem fuel' n' i op h = stepS Ms sem fuel n i op h :=
  ((stepS_upTo hf hn i op h).resolve_left hx).symm

theorem stepS_ends (hs : sem.Layered Ms layer) (hO : sem.Good True O) {d : ι → Dep} {fuel : Nat}
    (hend : ∀ i ops s op, (∀ o ∈ ops, O i o) → RunTo (Ms i) (sem.solo Ms i) (d i) ops s → OpOk (Ms i) op →
      step (Ms i) (sem.solo Ms i) fuel op s ≠ .timeout)
    {ops : List (ι × Op P)} {h : Hub ι P W} (hr : RunToS Ms sem d ops h) (ho : ∀ x ∈ ops, O x.1 x.2) {i : ι} {op : Op P}
    (hop : OpOk (Ms i) op)
    {n : Nat} (hn : layer i < n) : stepS Ms sem fuel n i op h ≠ .timeout := by
  have key : ∀ n (j : ι) (op : Op P) (h : Hub ι P W), layer j < n → OpOk (Ms j) op →
      LedBelow Ms sem O layer d (fun _ => []) (layer j) h → Led Ms sem O d [] j (h.parts j) →
      stepS Ms sem fuel n j op h ≠ .timeout := by
    intro n
    induction n with
    | zero => intro j op h hj; exact absurd hj (Nat.not_lt_zero _)
    | succ n ih =>
      intro j op h hj hop hl hlj
      obtain ⟨q, h1, h2⟩ := stepS_tracks (T := False) (X := False) (V := fun _ => True) (Φ := LedBelow Ms sem O layer d (fun _ => []) (layer j))
        (fuel := fuel) (n := n) (j := j) hs LedBelow.congr
        (fun k op g hk hop hop' hg => (stepS_led hs hO d _ fuel n hk hop hop' hg).imp fun _ h => h.1)
        (Or.inr fun k op g hk hop _ hg => ih k op g (by omega) hop (fun i hi => hg i (Nat.lt_trans hi hk)) (hg k hk))
        (fun _ _ _ _ _ _ _ _ _ => trivial) (fun _ => trivial) hO (.refl _) op (h := h) hl
      obtain ⟨ops', _, ho', hr'⟩ := hlj.fetch
      have hne := hend j _ _ op ho' hr' hop
      rw [h1]
      intro ht
      cases q with
      | ok b s => cases ht
      | throw x s => cases ht
      | ub u => cases ht
      | timeout =>
        revert hne h2
        generalize step (Ms j) (sem.solo Ms j) fuel op (h.fetch j) = q'
        intro hne h2
        cases q' <;> first | exact h2.elim | exact hne rfl
  have hl := hr.led hs hO ho
  exact key n i op h hn hop (fun k _ => (hl k).mono (List.nil_sublist _)) ((hl i).mono (List.nil_sublist _))

/-- C127: in a program whose callbacks only use machines of lower layers, every call ends if the calls of every
machine on its own do; calls are nested no deeper than there are layers. -/
theorem C127_ends (hs : sem.Layered Ms layer) {d : ι → Dep} {fuel : Nat}
    (hend : ∀ i ops s op, RunTo (Ms i) (sem.solo Ms i) (d i) ops s → OpOk (Ms i) op →
      step (Ms i) (sem.solo Ms i) fuel op s ≠ .timeout)
    {ops : List (ι × Op P)} {h : Hub ι P W} (hr : RunToS Ms sem d ops h) {i : ι} {op : Op P} (hop : OpOk (Ms i) op)
    {n : Nat} (hn : layer i < n) : stepS Ms sem fuel n i op h ≠ .timeout :=
  stepS_ends hs hs.free (fun i ops s op _ => hend i ops s op) hr (fun _ _ => trivial) hop hn

/-- C127, acyclic rows: if in every machine the anonymous rows are acyclic, every call ends, whatever the callbacks
do and whatever is deferred. -/
theorem C127_acyclic (hs : sem.Layered Ms layer) (hM : ∀ i, (Ms i).Regular) {ρ : ι → Name × StTy → Nat}
    (hρ : ∀ i, Acyclic (Ms i) (ρ i)) {B : ι → Nat}
    (hB : ∀ i, ∀ p ∈ (Ms i).composites, ∀ st ∈ (Ms i).states, ρ i (p, st) ≤ B i) {fuel : Nat}
    (hf : ∀ i, (Ms i).slotCount * B i < fuel) {d : ι → Dep} {ops : List (ι × Op P)} {h : Hub ι P W}
    (hr : RunToS Ms sem d ops h) {i : ι} {op : Op P} (hop : OpOk (Ms i) op) {n : Nat} (hn : layer i < n) :
    stepS Ms sem fuel n i op h ≠ .timeout := by
  refine C127_ends hs (fun i ops s op h hop => ?_) hr hop hn
  have hf := hf i
  cases op with
  | process ev p =>
    rw [slotCount_eq] at hf
    exact C24_terminates (hM i) (hρ i) (hB i) h ev p hf
  | set r p st =>
    show (setOp (Ms i) r p st s).bind (fun _ s => .ok true s) ≠ .timeout
    unfold setOp
    split <;> exact fun h => nomatch h
  | setDependency d' =>
    show (setDependency (Ms i) d' s).bind (fun _ s => .ok true s) ≠ .timeout
    unfold setDependency
    split <;> exact fun h => nomatch h

end

/-! ## Examples -/

namespace Ex

/-- A machine that uses another one. -/
def crew (i : Bool) : Machine := if i then chain else hop

def rankOf (i : Bool) : Nat := if i then 0 else 1

/-- The guard of the first machine sends event 0 to the second, its action 1 event 1. -/
def orders (i : Bool) (c : Nat) : List (Bool × Op Nat) :=
  if i = false ∧ c = 100 then [(true, .process (ev 0) 5)]
  else if i = false ∧ c = 1 then [(true, .process (ev 1) 6)] else []

theorem chain_ok (n : Nat) (h : n < 2) (p : Nat) : OpOk chain (.process (ev n) p) := by
  apply opOkB_iff
  have : ∀ n < 2, decide (ev n ∈ chain.events) = true := by decide +kernel
  exact this n h

theorem orders_all (i : Bool) (c : Nat) : ∀ x ∈ orders i c, rankOf x.1 < rankOf i ∧ OpOk (crew x.1) x.2 := by
  intro x hx
  unfold orders at hx
  split at hx
  · rename_i h
    rw [List.mem_singleton.1 hx, h.1]
    exact ⟨by decide, chain_ok 0 (by decide) 5⟩
  · split at hx
    · rename_i h
      rw [List.mem_singleton.1 hx, h.1]
      exact ⟨by decide, chain_ok 1 (by decide) 6⟩
    · cases hx

theorem orders_layered : (semS true orders orders).Layered crew rankOf :=
  ⟨fun i g _ _ _ => makesS_good (orders_all i g), fun i c _ _ _ => makesS_good (orders_all i c),
    fun i c _ _ _ _ _ => makesS_good (orders_all i c)⟩

/-- C126 applies: event 0 of the first machine has the second go through its anonymous rows and back, and the
members of both are such as plain callbacks could have left. -/
example : ∃ h, RunToS crew (semS true orders orders) (fun _ => 7) [(false, .process (ev 0) 1)] h ∧
    (h.parts true).log.length = 4 ∧ h.user = [100, 5, 6, 7, 1, 20] ∧
    ∀ i, ∃ ops', (callsOf i [(false, .process (ev 0) 1)]).Sublist ops' ∧
      RunTo (crew i) ((semS true orders orders).solo crew i) 7 ops' (h.fetch i) := by
  obtain ⟨h, hr, hs⟩ := exists_runS crew (semS true orders orders) (fuel := 5) (n := 5) (d := fun _ => 7) (w := [])
    (ops := [(false, .process (ev 0) 1)])
    (f := fun h => (h.parts true).log.length == 4 && h.user == [100, 5, 6, 7, 1, 20]) (by decide +kernel)
  simp only [Bool.and_eq_true, beq_iff_eq] at hs
  exact ⟨h, hr, hs.1, hs.2, fun i => C126_alone orders_layered hr i⟩

/-- C127 applies: every call ends within three rounds, nested at most twice. -/
example {d : Bool → Dep} {ops : List (Bool × Op Nat)} {h : Hub Bool Nat (List Nat)}
    (hr : RunToS crew (semS true orders orders) d ops h) {i : Bool} {op : Op Nat} (hop : OpOk (crew i) op) :
    stepS crew (semS true orders orders) 3 2 i op h ≠ .timeout := by
  refine C127_acyclic orders_layered (ρ := fun i => if i then chainRank else fun _ => 0)
    (B := fun i => if i then 2 else 0) ?_ ?_ ?_ ?_ hr hop (by cases i <;> decide)
  · intro i; cases i
    · exact hop_regular
    · exact chain_regular
  · intro i; cases i
    · exact acyclic_of_none (by decide +kernel)
    · exact chain_acyclic
  · intro i; cases i
    · exact fun _ _ _ _ => Nat.le_refl _
    · intro p _ st _
      show chainRank (p, st) ≤ 2
      unfold chainRank; split <;> (try split) <;> decide
  · decide +kernel

end Ex
end Hsm
