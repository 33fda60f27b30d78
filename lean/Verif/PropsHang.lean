import Verif.PropsChecker
import Mathlib.Data.Fintype.Pigeonhole

/-!
# C84: which machines can hang

The calls of the library come to an end except, possibly, for the loop that runs anonymous rows.  The
checker (Checker.lean) follows that loop for all clients at once.  If it finds a bound on the number of
rounds, every call of every client ends within that bound; if there is none, a client is constructed
whose call never ends.
-/

namespace Hsm

variable {P W : Type} {M : Machine} {sem : Sem P W} {A : List SetArgs}

namespace Machine

theorem within_mono : ∀ {k k' : Nat} {n : Spot}, k ≤ k' → M.within k n = true → M.within k' n = true
  | 0, _, _, _, h => nomatch h
  | k + 1, 0, _, hk, _ => nomatch hk
  | k + 1, k' + 1, n, hk, h => by
    rw [within] at h ⊢
    refine List.all_eq_true.2 fun x hx => ?_
    have := List.all_eq_true.1 h x hx
    revert this
    cases x with
    | ok b n' =>
      cases b with
      | true => exact within_mono (Nat.le_of_succ_le_succ hk)
      | false => intro _; rfl
    | _ => intro _; rfl

theorem within_of_calm {S : List (Bool × Spot)} (hS : M.closed A S = true) {k k' : Nat} (hc : M.calm k S = true)
    (hk : k ≤ k') (n : Spot) (h : M.Walk A true n) : M.within k' n = true := by
  unfold calm at hc
  have := List.all_eq_true.1 hc _ (walk_of_closed hS h)
  exact within_mono hk this

/-! ## Rounds without end -/

/-- Where no number of rounds is enough, some step leads to another such spot. -/
theorem endless_step {n : Spot} (h : ∀ k, M.within k n = false) :
    ∃ n', .ok true n' ∈ M.next true n ∧ ∀ k, M.within k n' = false := by
  by_contra hne
  have key : ∀ l : List (Res Spot Bool), (∀ x ∈ l, x ∈ M.next true n) → ∃ k, ∀ n', .ok true n' ∈ l →
      M.within k n' = true := by
    intro l
    induction l with
    | nil => intro _; exact ⟨0, fun _ h => nomatch h⟩
    | cons x l ih =>
      intro hl
      obtain ⟨k, hk⟩ := ih fun y hy => hl y (List.mem_cons_of_mem _ hy)
      by_cases hx : ∃ n', x = .ok true n'
      · obtain ⟨n', rfl⟩ := hx
        have : ∃ k', M.within k' n' = true := by
          by_contra hn
          exact hne ⟨n', hl _ List.mem_cons_self, fun k' => by
            cases h : M.within k' n' with
            | true => exact absurd ⟨k', h⟩ hn
            | false => rfl⟩
        obtain ⟨k', hk'⟩ := this
        refine ⟨max k k', fun m hm => ?_⟩
        rcases List.mem_cons.1 hm with e | hm
        · injection e with _ e; subst e; exact within_mono (Nat.le_max_right _ _) hk'
        · exact within_mono (Nat.le_max_left _ _) (hk m hm)
      · refine ⟨k, fun m hm => ?_⟩
        rcases List.mem_cons.1 hm with e | hm
        · exact absurd ⟨m, e.symm⟩ hx
        · exact hk m hm
  obtain ⟨k, hk⟩ := key (M.next true n) fun _ h => h
  have := h (k + 1)
  rw [within] at this
  refine absurd this ?_
  rw [Bool.not_eq_false]
  refine List.all_eq_true.2 fun x hx => ?_
  cases x with
  | ok b n' =>
    cases b with
    | true => exact hk n' hx
    | false => rfl
  | _ => rfl

theorem spins_of_endless {n : Spot} (h : ∀ k, M.within k n = false) : M.Spins n := by
  let f : Nat → { n : Spot // ∀ k, M.within k n = false } := fun i =>
    Nat.rec ⟨n, h⟩ (fun _ x => ⟨(endless_step x.2).choose, (endless_step x.2).choose_spec.2⟩) i
  exact ⟨fun i => (f i).1, rfl, fun i => (endless_step (f i).2).choose_spec.1⟩

theorem endless_of_spins {n : Spot} (h : M.Spins n) (k : Nat) : M.within k n = false := by
  obtain ⟨f, h0, hf⟩ := h
  subst h0
  have : ∀ k i, M.within k (f i) = false := by
    intro k
    induction k with
    | zero => intro i; rfl
    | succ k ih =>
      intro i
      rw [within]
      cases hh : (M.next true (f i)).all _ with
      | false => rfl
      | true =>
        have := List.all_eq_true.1 hh _ (hf i)
        rw [← this]
        exact ih (i + 1)
  exact this k 0

theorem Walk.along {f : Nat → Spot} (h : M.Walk A true (f 0))
    (hf : ∀ i, .ok true (f (i + 1)) ∈ M.next true (f i)) : ∀ i, M.Walk A true (f i)
  | 0 => h
  | i + 1 => (along h hf i).run (hf i)

/-- A spot comes back. -/
theorem Spins.repeats {n : Spot} (hw : M.Walk A true n) (h : M.Spins n) :
    ∃ (f : Nat → Spot) (k : Nat), (∀ i, .ok true (f (i + 1)) ∈ M.next true (f i)) ∧ M.Walk A true (f 0) ∧
      0 < k ∧ f k = f 0 := by
  obtain ⟨f, h0, hf⟩ := h
  subst h0
  have hall := hw.along hf
  have hfin : Finite { n // M.Neat A n } := neat_finite.to_subtype
  obtain ⟨i, j, hij, he⟩ := Finite.exists_ne_map_eq_of_infinite
    (fun i : Nat => (⟨f i, (hall i).neat⟩ : { n // M.Neat A n }))
  have he : f i = f j := congrArg Subtype.val he
  have key : ∀ {i j : Nat}, i < j → f i = f j → _ := fun {i j} hlt he =>
    (⟨fun m => f (i + m), j - i, fun m => hf (i + m), hall i, by omega, by
      show f (i + (j - i)) = f (i + 0)
      rw [show i + (j - i) = j from by omega, ← he]; rfl⟩ :
      ∃ (f : Nat → Spot) (k : Nat), (∀ i, .ok true (f (i + 1)) ∈ M.next true (f i)) ∧ M.Walk A true (f 0) ∧
        0 < k ∧ f k = f 0)
  rcases Nat.lt_or_gt_of_ne hij with h | h
  · exact key h he
  · exact key h he.symm

end Machine

/-! ## Clients that never run out of answers -/

/-- Callbacks that do what an endless script says. -/
def endless : Sem Unit (Nat → Option Bool) where
  guard _ _ _ w := match w 0 with | none => .throw 0 () (fun n => w (n + 1)) | some b => .ok b () fun n => w (n + 1)
  action _ _ _ w := match w 0 with | none => .throw 0 () (fun n => w (n + 1)) | some _ => .ok () () fun n => w (n + 1)
  handler _ _ _ _ _ w :=
    match w 0 with | none => .throw 0 () (fun n => w (n + 1)) | some _ => .ok () () fun n => w (n + 1)
  alive _ _ := true
  nonePayload := ()

/-- A line in front of an endless script. -/
def ahead (b : Option Bool) (w : Nat → Option Bool) : Nat → Option Bool
  | 0 => b
  | n + 1 => w n

/-- Endless scripts. -/
def streamed : Dictates endless where
  push := ahead
  guard _ _ b _ := by cases b <;> rfl
  action _ _ b _ := by cases b <;> rfl
  handler _ _ _ _ b _ := by cases b <;> rfl
  alive _ _ := rfl

theorem feed_stream : ∀ (v : List (Option Bool)) (w : Nat → Option Bool) (n : Nat),
    streamed.feed v w n = if h : n < v.length then v[n] else w (n - v.length)
  | [], w, n => by simp [Dictates.feed]
  | b :: v, w, 0 => by simp [Dictates.feed, streamed, ahead]
  | b :: v, w, n + 1 => by
    have := feed_stream v w n
    rw [Dictates.feed_cons]
    show streamed.feed v w n = _
    rw [this]
    simp [Nat.add_sub_add_right]

/-- A script can be repeated for ever. -/
theorem exists_repeat (v : List (Option Bool)) : ∃ w, streamed.feed v w = w := by
  by_cases hv : v = []
  · exact ⟨fun _ => none, by rw [hv]; rfl⟩
  · have hl : 0 < v.length := List.length_pos_of_ne_nil hv
    refine ⟨fun n => v[n % v.length]'(Nat.mod_lt _ hl), funext fun n => ?_⟩
    rw [feed_stream]
    split
    · next h => simp [Nat.mod_eq_of_lt h]
    · next h =>
      have : (n - v.length) % v.length = n % v.length := (Nat.mod_eq_sub_mod (Nat.le_of_not_lt h)).symm
      simp [this]

section
variable {tape : Sem Unit W} {T : Dictates tape}

/-- Along `k` rounds. -/
theorem Machine.rounds_realise {f : Nat → Spot} (hf : ∀ i, .ok true (f (i + 1)) ∈ M.next true (f i)) :
    ∀ k, ∃ v, ∀ (c : Conf Unit W) rest, Lone M (f 0) c → c.world = T.feed v rest →
      ∃ c', Lone M (f k) c' ∧ c'.world = rest ∧
        ∀ fuel, M.settle tape (fuel + k) () c = M.settle tape fuel () c' := by
  intro k
  induction k with
  | zero => exact ⟨[], fun c rest hc hw => ⟨c, hc, hw, fun _ => rfl⟩⟩
  | succ k ih =>
    obtain ⟨v, hv⟩ := ih
    obtain ⟨v2, hv2⟩ := Machine.round_realises (T := T) _ _ _ (f k) (hf k)
    refine ⟨v ++ v2, fun c rest hc hw => ?_⟩
    rw [T.feed_append] at hw
    obtain ⟨c1, hl1, hw1, e1⟩ := hv c _ hc hw
    obtain ⟨c2, e2, hl2, hw2⟩ := hv2 c1 rest hl1 hw1
    refine ⟨c2, hl2, hw2, fun fuel => ?_⟩
    have tk : M.taking c1 = M.involved (f k) := by rw [← hl1.1]; rfl
    rw [show fuel + (k + 1) = fuel + 1 + k from by omega, e1, Machine.settle, tk, e2]
    rfl

end

/-- A call that ends with some fuel ends with more. -/
theorem settle_timeout {tape : Sem Unit W} : ∀ {fuel fuel' : Nat} {c : Conf Unit W}, fuel ≤ fuel' →
    M.settle tape fuel' () c = .timeout → M.settle tape fuel () c = .timeout
  | 0, _, _, _, _ => rfl
  | fuel + 1, 0, _, h, _ => nomatch h
  | fuel + 1, fuel' + 1, c, h, ht => by
    rw [Machine.settle] at ht ⊢
    revert ht
    cases M.round tape (M.taking c) [] () c with
    | ok a c' =>
      show (if _ then _ else _) = _ → (if _ then _ else _) = _
      split
      · exact settle_timeout (Nat.le_of_succ_le_succ h)
      · exact id
    | _ => exact id

/-! ## The property -/

/-- C84: if the checker finds a bound for the rounds of anonymous rows, every call of every client that
calls `set` only with arguments in `A` ends, with no more rounds in a row than that. -/
theorem C84_returns (hM : M.Regular) {S : List (Bool × Spot)} (hS : M.closed A S = true) {k : Nat}
    (hk : M.calm k S = true) {d : Dep} {ops : List (Op P)} {s : SM P W} (h : RunTo M sem d ops s)
    (hns : SetsIn A ops) {op : Op P} (hop : OpOk M op) {fuel : Nat} (hf : k ≤ fuel) :
    step M sem fuel op s ≠ .timeout := by
  intro ht
  obtain ⟨c, hc, hw, hq⟩ := Machine.reach_walk hM h hns
  have he := (C77_undefined (sem := sem) hc hM (h.scopes hM) fuel hop).2.1 ht
  cases op with
  | process ev p =>
    have := Machine.receive_onWalk (V := False) (Blames.all M sem) fuel
      (Or.inr fun n hn => Machine.within_of_calm hS hk hf n hn) (ev := ev)
      (by rw [M.events_eq]; exact hop) p c hw ⟨hc.bound, hq⟩
    have he : M.receive sem fuel ev p c = .timeout := he
    rw [he] at this
    exact this
  | set r p st =>
    have he : (if r % 256 < c.slots.length then
      Res.ok true { c with slots := c.slots.set (r % 256) (some (p, st)) } else .throw .outOfRange c) =
        .timeout := he
    split at he <;> cases he
  | setDependency d' => cases he

/-- C84: either there is a bound, or rounds can go on for ever at some spot of the walks. -/
theorem C84_either (M : Machine) {S : List (Bool × Spot)} (hS : M.closed A S = true)
    (hw : ∀ x ∈ S, M.Walk A x.1 x.2) :
    (∃ k, M.calm k S = true) ↔ ∀ n, M.Walk A true n → ¬ M.Spins n := by
  constructor
  · rintro ⟨k, hk⟩ n hn hs
    have := Machine.within_of_calm hS hk (Nat.le_refl k) n hn
    rw [Machine.endless_of_spins hs] at this
    cases this
  · intro h
    have key : ∀ l : List (Bool × Spot), (∀ x ∈ l, x ∈ S) → ∃ k, M.calm k l = true := by
      intro l
      induction l with
      | nil => intro _; exact ⟨0, rfl⟩
      | cons x l ih =>
        intro hl
        obtain ⟨k, hk⟩ := ih fun y hy => hl y (List.mem_cons_of_mem _ hy)
        obtain ⟨k', hk'⟩ : ∃ k', (!x.1 || M.within k' x.2) = true := by
          obtain ⟨b, n⟩ := x
          cases b with
          | false => exact ⟨0, rfl⟩
          | true =>
            by_contra hne
            refine h n (hw _ (hl _ List.mem_cons_self)) (Machine.spins_of_endless fun k => ?_)
            cases hh : M.within k n with
            | false => rfl
            | true => exact absurd ⟨k, hh⟩ hne
        have up : ∀ {y : Bool × Spot} {i j : Nat}, i ≤ j → (!y.1 || M.within i y.2) = true →
            (!y.1 || M.within j y.2) = true := by
          intro y i j hij hy
          rw [Bool.or_eq_true] at hy ⊢
          exact hy.imp_right (Machine.within_mono hij)
        refine ⟨max k k', ?_⟩
        unfold Machine.calm at hk ⊢
        rw [List.all_cons, Bool.and_eq_true]
        refine ⟨up (Nat.le_max_right _ _) hk', List.all_eq_true.2 fun y hy => ?_⟩
        exact up (Nat.le_max_left _ _) (List.all_eq_true.1 hk y hy)
    exact key S fun _ h => h

/-- C84: where rounds can go on for ever, they do for some client: its call never ends. -/
theorem C84_hangs (hM : M.Regular) (hd : M.deferring = false ∨ M.orthogonal = false)
    (hA : ∀ a ∈ A, OpOk M (.set a.1 a.2.1 a.2.2 : Op Unit))
    (hC : M.ScopesReal ∧ (M.orthogonal = true → M.declaredInitials M.root ≠ [])) {n : Spot}
    (h : M.Walk A true n) (hs : M.Spins n) :
    ∃ ops s ev, RunTo M endless 0 ops s ∧ SetsIn A ops ∧ OpOk M (.process ev ()) ∧
      ∀ fuel, step M endless fuel (.process ev ()) s = .timeout := by
  obtain ⟨f, k, hf, hw, hk, he⟩ := hs.repeats h
  obtain ⟨v, hv⟩ := Machine.rounds_realise (T := streamed) hf k
  obtain ⟨w, hrep⟩ := exists_repeat v
  have turn : ∀ m (c : Conf Unit (Nat → Option Bool)), Lone M (f 0) c → c.world = w →
      M.settle endless (m * k) () c = .timeout := by
    intro m
    induction m with
    | zero => intro c _ _; rw [Nat.zero_mul]; rfl
    | succ m ih =>
      intro c hc hcw
      obtain ⟨c', hl, hw', e⟩ := hv c w hc (by rw [hrep]; exact hcw)
      rw [Nat.succ_mul, e]
      exact ih c' (he ▸ hl) hw'
  obtain ⟨ops, s, c, ev, v0, k0, hr, hns, hc, hev, hgo⟩ :=
    hw.arrives (T := streamed) hM hd hA (fun _ => none) hC
  have hop : OpOk M (.process ev ()) := by
    show ev ∈ M.eventIds
    rw [← M.events_eq]; exact hev
  refine ⟨ops, _, ev, hr.world (streamed.feed v0 w), hns, hop, fun fuel => ?_⟩
  have big : step M endless (fuel + k0) (.process ev ()) { s with world := streamed.feed v0 w } = .timeout := by
    refine (C77_undefined (hc.reworld _) hM (hr.scopes hM) _ hop).2.2 ?_
    show M.receive endless (fuel + k0) ev () _ = _
    obtain ⟨c', hl, hw', e⟩ := hgo w fuel
    rw [e, settle_timeout (Nat.le_mul_of_pos_right fuel hk) (turn fuel c' hl hw')]
    rfl
  by_contra hne
  rw [C77_fuel (Nat.le_add_right fuel k0) _ _ hne] at big
  exact hne big

/-- C84: the checker is exact.  There is a bound just if every call of every client ends. -/
theorem C84_exact (hM : M.Regular) (hd : M.deferring = false ∨ M.orthogonal = false)
    (hA : ∀ a ∈ A, OpOk M (.set a.1 a.2.1 a.2.2 : Op Unit))
    (hC : M.ScopesReal ∧ (M.orthogonal = true → M.declaredInitials M.root ≠ [])) {m : Nat}
    (hm : M.closed A (M.explore A m) = true) :
    (∃ k, M.calm k (M.explore A m) = true) ↔
    ∀ (P W : Type) (sem : Sem P W) (d : Dep) (ops : List (Op P)) (s : SM P W), RunTo M sem d ops s →
      SetsIn A ops → ∀ op, OpOk M op → ∃ fuel, step M sem fuel op s ≠ .timeout := by
  constructor
  · rintro ⟨k, hk⟩ P W sem d ops s h hns op hop
    exact ⟨k, C84_returns hM hm hk h hns hop (Nat.le_refl k)⟩
  · intro h
    refine (C84_either M hm fun x hx => Machine.explore_walk m hx).2 fun n hn hs => ?_
    obtain ⟨ops, s, ev, hr, hns, hop, ht⟩ := C84_hangs hM hd hA hC hn hs
    obtain ⟨fuel, hf⟩ := h Unit _ endless 0 ops s hr hns (.process ev ()) hop
    exact hf (ht fuel)

/-- C84: if every call of every client ends, one bound on the rounds is good for all of them. -/
theorem C84_uniform (hM : M.Regular) (hd : M.deferring = false ∨ M.orthogonal = false)
    (hA : ∀ a ∈ A, OpOk M (.set a.1 a.2.1 a.2.2 : Op Unit))
    (hC : M.ScopesReal ∧ (M.orthogonal = true → M.declaredInitials M.root ≠ []))
    (h : ∀ (P W : Type) (sem : Sem P W) (d : Dep) (ops : List (Op P)) (s : SM P W), RunTo M sem d ops s →
      SetsIn A ops → ∀ op, OpOk M op → ∃ fuel, step M sem fuel op s ≠ .timeout) :
    ∃ k, ∀ (P W : Type) (sem : Sem P W) (d : Dep) (ops : List (Op P)) (s : SM P W), RunTo M sem d ops s →
      SetsIn A ops → ∀ op, OpOk M op → step M sem k op s ≠ .timeout := by
  obtain ⟨m, hm⟩ := M.explore_ends A
  obtain ⟨k, hk⟩ := (C84_exact hM hd hA hC hm).2 h
  exact ⟨k, fun P W sem d ops s hr hns op hop => C84_returns hM hm hk hr hns hop (Nat.le_refl k)⟩

/-! ## Examples -/

deriving instance DecidableEq for Res

namespace Ex

/-- The demonstration machine never hangs: a call takes at most two rounds of anonymous rows in a row. -/
theorem demo_calm : demo.closed [] (demo.explore [] 7) = true ∧ demo.calm 2 (demo.explore [] 7) = true :=
  ⟨by decide +kernel, by decide +kernel⟩

/-- States 2 and 3 with anonymous rows to each other, both guarded; event 0 leads from state 1 to 2. -/
def seesaw : Machine := .ofList
  [ { table := some [ row (ini 1) (ev 0) none none (.st 2), row (.st 2) .none (some 0) none (.st 3),
        row (.st 3) .none (some 0) (some 1) (.st 2) ] } ] [1]

theorem seesaw_regular : seesaw.Regular := Machine.regular_ofList (by decide +kernel)
theorem seesaw_scoped : seesaw.Scoped := Machine.scoped_of_check (by decide +kernel)

/-- No number of rounds up to ten is enough. -/
example : seesaw.closed [] (seesaw.explore [] 3) = true ∧ seesaw.calm 10 (seesaw.explore [] 3) = false :=
  ⟨by decide +kernel, by decide +kernel⟩

/-- The machine is at state `i`. -/
def seat (i : Name) : Spot := ⟨[some (0, .st i)], [[(0, .st 1)]], 1⟩

theorem seesaw_spins : seesaw.Walk [] true (seat 2) ∧ seesaw.Spins (seat 2) := by
  refine ⟨.ok .start (b := false) (by decide +kernel), fun i => if i % 2 = 0 then seat 2 else seat 3, rfl,
    fun i => ?_⟩
  have h1 : Res.ok true (seat 3) ∈ seesaw.next true (seat 2) := by decide +kernel
  have h2 : Res.ok true (seat 2) ∈ seesaw.next true (seat 3) := by decide +kernel
  dsimp only
  rcases Nat.mod_two_eq_zero_or_one i with h | h
  · rw [if_pos h, if_neg (by omega)]; exact h1
  · rw [if_neg (by omega), if_pos (by omega)]; exact h2

/-- Some client's call never ends. -/
example : ∃ ops s ev, RunTo seesaw endless 0 ops s ∧ SetsIn [] ops ∧ OpOk seesaw (.process ev ()) ∧
    ∀ fuel, step seesaw endless fuel (.process ev ()) s = .timeout :=
  C84_hangs seesaw_regular (Or.inl (by decide +kernel)) (fun _ h => nomatch h)
    ⟨(Machine.scopesReal_iff seesaw_regular).2 ⟨seesaw_scoped.src, seesaw_scoped.comp⟩, fun h => absurd h (by decide +kernel)⟩ seesaw_spins.1 seesaw_spins.2

/-- The same rows, but event 0 leads to a state 4, and no row from there to the others. -/
def pendulum : Machine := .ofList
  [ { table := some [ row (ini 1) (ev 0) none none (.st 4), row (.st 2) .none (some 0) none (.st 3),
        row (.st 3) .none (some 0) (some 1) (.st 2), row (.st 4) .none (some 0) none (.st 1) ] } ] [1]

theorem pendulum_regular : pendulum.Regular := Machine.regular_ofList (by decide +kernel)
theorem pendulum_scoped : pendulum.Scoped := Machine.scoped_of_check (by decide +kernel)

/-- Although its anonymous rows are cyclic, this machine never hangs. -/
theorem pendulum_calm : pendulum.closed [] (pendulum.explore [] 3) = true ∧
    pendulum.calm 2 (pendulum.explore [] 3) = true := ⟨by decide +kernel, by decide +kernel⟩

/-- If the client may set it to state 2, it hangs for some clients. -/
example : ∃ ops s ev, RunTo pendulum endless 0 ops s ∧ SetsIn [(0, 0, .st 2)] ops ∧
    OpOk pendulum (.process ev ()) ∧ ∀ fuel, step pendulum endless fuel (.process ev ()) s = .timeout := by
  have hw : pendulum.Walk [(0, 0, .st 2)] true (seat 3) :=
    .ok (b := false) (n := seat 2) (.ok (b := false) .start (by decide +kernel)) (by decide +kernel)
  have hs : pendulum.Spins (seat 3) := by
    refine ⟨fun i => if i % 2 = 0 then seat 3 else seat 2, rfl, fun i => ?_⟩
    have h1 : Res.ok true (seat 3) ∈ pendulum.next true (seat 2) := by decide +kernel
    have h2 : Res.ok true (seat 2) ∈ pendulum.next true (seat 3) := by decide +kernel
    dsimp only
    rcases Nat.mod_two_eq_zero_or_one i with h | h
    · rw [if_pos h, if_neg (by omega)]; exact h2
    · rw [if_neg (by omega), if_pos (by omega)]; exact h1
  refine C84_hangs pendulum_regular (Or.inl (by decide +kernel)) (fun a ha => ?_)
    ⟨(Machine.scopesReal_iff pendulum_regular).2 ⟨pendulum_scoped.src, pendulum_scoped.comp⟩,
      fun h => absurd h (by decide +kernel)⟩ hw hs
  rw [List.mem_singleton.1 ha]
  exact ⟨by decide +kernel, by decide +kernel⟩

end Ex

end Hsm
