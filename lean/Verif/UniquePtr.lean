/-!
# Owning pointers

Models `utils/dunique_ptr.h`, through which the dispatch tables own their entries
(dispatch_table.h:144, :161; make_unexpected_event_handler_tables.h:60).
-/

namespace Hsm.Uptr

/-- Undefined behaviour of programs using `dunique_ptr`. (for dunique_ptr.h:35-62) -/
inductive Ub
  /-- `delete` of an object that does not exist or was deleted before -/
  | badDelete
  /-- a `dunique_ptr` is used before its construction or after its destruction, or
  constructed where one lives -/
  | lifetime
deriving DecidableEq, Repr

/-- Memory.  Objects of type `T` are numbered in the order of their allocation, numbers below
`next` are in use.  `freed` lists the deleted ones in the order of deletion.  `handle h` is
`none` if there is no `dunique_ptr` at place `h`, otherwise its `ptr` member (`some none` is
the null pointer). Destructors of `T` are taken not to touch any `dunique_ptr`. (dunique_ptr.h:94-95) -/
structure Mem where
  next : Nat
  freed : List Nat
  handle : Nat → Option (Option Nat)

/-- dunique_ptr.h: a program before its first operation -/
def Mem.start : Mem := ⟨0, [], fun _ => none⟩

/-- dunique_ptr.h: operations on memory that may be undefined -/
abbrev M (α : Type) := Mem → Except Ub (α × Mem)

/-- `new T`. (what dunique_ptr.h:15, 35 are given) -/
def new : M Nat := fun m => .ok (m.next, { m with next := m.next + 1 })

/-- `delete p`. (dunique_ptr.h:40) -/
def delete (p : Option Nat) : M Unit := fun m =>
  match p with
  | none => .ok ((), m)
  | some a =>
    if a < m.next ∧ a ∉ m.freed then .ok ((), { m with freed := m.freed ++ [a] })
    else .error .badDelete

/-- Read of the member `ptr`. (dunique_ptr.h:22-66) -/
def read (h : Nat) : M (Option Nat) := fun m =>
  match m.handle h with
  | none => .error .lifetime
  | some p => .ok (p, m)

/-- Set place `h`. (dunique_ptr.h:95) -/
def Mem.put (m : Mem) (h : Nat) (p : Option (Option Nat)) : Mem :=
  { m with handle := fun k => if k = h then p else m.handle k }

/-- Write of the member `ptr`. (dunique_ptr.h:24, 38, 45, 66) -/
def write (h : Nat) (p : Option Nat) : M Unit := fun m =>
  match m.handle h with
  | none => .error .lifetime
  | some _ => .ok ((), m.put h (some p))

/-- Begin of the lifetime of a `dunique_ptr` at `h`, with `ptr` initialised by `p`. (dunique_ptr.h:11-25) -/
def begin_ (h : Nat) (p : Option Nat) : M Unit := fun m =>
  match m.handle h with
  | none => .ok ((), m.put h (some p))
  | some _ => .error .lifetime

/-- End of the lifetime. (dunique_ptr.h:31-34) -/
def end_ (h : Nat) : M Unit := fun m =>
  match m.handle h with
  | none => .error .lifetime
  | some _ => .ok ((), m.put h none)

/-- Sequencing. (the `;` of dunique_ptr.h) -/
def M.bind {α β : Type} (x : M α) (f : α → M β) : M β := fun m =>
  match x m with
  | .error e => .error e
  | .ok (a, m') => f a m'

/-- `dunique_ptr()` (dunique_ptr.h:11-14). -/
def ctorNull (h : Nat) : M Unit := begin_ h none

/-- `dunique_ptr(T*)` (dunique_ptr.h:15-18). -/
def ctorPtr (h : Nat) (p : Option Nat) : M Unit := begin_ h p

/-- `dunique_ptr(dunique_ptr&&)` (dunique_ptr.h:21-25). -/
def ctorMove (h other : Nat) : M Unit :=
  M.bind (read other) fun p => M.bind (begin_ h p) fun _ => write other none

/-- `swap` (dunique_ptr.h:64-67). -/
def swap (h other : Nat) : M Unit :=
  M.bind (read h) fun p => M.bind (read other) fun q =>
    M.bind (write h q) fun _ => write other p

/-- `operator=(dunique_ptr&&)` (dunique_ptr.h:26-30). -/
def assign (h other : Nat) : M Unit := swap h other

/-- `reset` (dunique_ptr.h:35-41). -/
def reset (h : Nat) (value : Option Nat) : M Unit :=
  M.bind (read h) fun toDelete => M.bind (write h value) fun _ => delete toDelete

/-- `~dunique_ptr` (dunique_ptr.h:31-34). -/
def dtor (h : Nat) : M Unit := M.bind (reset h none) fun _ => end_ h

/-- `release` (dunique_ptr.h:42-47). -/
def release (h : Nat) : M (Option Nat) :=
  M.bind (read h) fun p => M.bind (write h none) fun _ => fun m => .ok (p, m)

/-! ## Programs -/

/-- What a program can do. (dunique_ptr.h:11-67) -/
inductive Op
  /-- `dunique_ptr<T> h;` -/
  | make (h : Nat)
  /-- `dunique_ptr<T> h{new T};` -/
  | makeNew (h : Nat)
  /-- `dunique_ptr<T> h{p};` for a pointer `p` got from `release` -/
  | makeRaw (h a : Nat)
  /-- `dunique_ptr<T> h{std::move(g)};` -/
  | move (h g : Nat)
  /-- `h = std::move(g);` -/
  | assign (h g : Nat)
  /-- `h.swap(g);` -/
  | swap (h g : Nat)
  /-- `h.reset();` -/
  | reset (h : Nat)
  /-- `h.reset(new T);` -/
  | resetNew (h : Nat)
  /-- `h.reset(p);` for a pointer `p` got from `release` -/
  | resetRaw (h a : Nat)
  /-- `p = h.release();` -/
  | release (h : Nat)
  /-- `delete p;` for a pointer `p` got from `release` -/
  | delete (a : Nat)
  /-- end of the scope of `h` -/
  | destroy (h : Nat)
deriving DecidableEq, Repr

/-- Running an operation. (dunique_ptr.h:11-67) -/
def exec : Op → M Unit
  | .make h => ctorNull h
  | .makeNew h => M.bind new fun a => ctorPtr h (some a)
  | .makeRaw h a => ctorPtr h (some a)
  | .move h g => ctorMove h g
  | .assign h g => assign h g
  | .swap h g => swap h g
  | .reset h => reset h none
  | .resetNew h => M.bind new fun a => reset h (some a)
  | .resetRaw h a => reset h (some a)
  | .release h => M.bind (release h) fun _ m => .ok ((), m)
  | .delete a => delete (some a)
  | .destroy h => dtor h

/-! ## Specification

The program itself owns the pointers it got from `release` until it gives them to a handle or
deletes them. -/

/-- The pointers the program owns after an operation in memory `m`, if before it owned `l`. -/
def owned (l : List Nat) (m : Mem) : Op → List Nat
  | .release h => match m.handle h with
    | some (some a) => a :: l
    | _ => l
  | .makeRaw _ a => l.filter (· ≠ a)
  | .resetRaw _ a => l.filter (· ≠ a)
  | .delete a => l.filter (· ≠ a)
  | _ => l

/-- Operations a C++ program can reach: handles are constructed where none lives, and used
and destroyed while they live; raw pointers are used only by their owner. -/
def Fair (l : List Nat) (m : Mem) : Op → Prop
  | .make h => m.handle h = none
  | .makeNew h => m.handle h = none
  | .makeRaw h a => m.handle h = none ∧ a ∈ l
  | .move h g => m.handle h = none ∧ m.handle g ≠ none
  | .assign h g => m.handle h ≠ none ∧ m.handle g ≠ none
  | .swap h g => m.handle h ≠ none ∧ m.handle g ≠ none
  | .reset h => m.handle h ≠ none
  | .resetNew h => m.handle h ≠ none
  | .resetRaw h a => m.handle h ≠ none ∧ a ∈ l
  | .release h => m.handle h ≠ none
  | .delete a => a ∈ l
  | .destroy h => m.handle h ≠ none

/-- Running fair operations from the beginning leads to memory `m`, the program owning `l`. -/
inductive Runs : List Op → List Nat → Mem → Prop
  | nil : Runs [] [] Mem.start
  | snoc {ops : List Op} {l : List Nat} {m m' : Mem} {op : Op} (h : Runs ops l m)
      (hf : Fair l m op) (hs : exec op m = .ok ((), m')) : Runs (ops ++ [op]) (owned l m op) m'

/-- Every object ever allocated has exactly one of: an owning handle, the program as owner, a
past deletion; nothing else is pointed to. -/
structure Sound (l : List Nat) (m : Mem) : Prop where
  /-- nothing is deleted twice -/
  once : m.freed.Nodup
  freed : ∀ a ∈ m.freed, a < m.next
  /-- handles point to objects that exist -/
  live : ∀ h a, m.handle h = some (some a) → a < m.next ∧ a ∉ m.freed
  /-- no two handles own the same -/
  unique : ∀ h g a, m.handle h = some (some a) → m.handle g = some (some a) → h = g
  raw : ∀ a ∈ l, a < m.next ∧ a ∉ m.freed ∧ ∀ h, m.handle h ≠ some (some a)
  /-- nothing is lost -/
  kept : ∀ a, a < m.next → a ∈ m.freed ∨ a ∈ l ∨ ∃ h, m.handle h = some (some a)

/-! ## Proofs -/

theorem Mem.put_self (m : Mem) (h : Nat) (p : Option (Option Nat)) : (m.put h p).handle h = p := by
  simp [Mem.put]

theorem Mem.put_ne (m : Mem) {h k : Nat} (hk : k ≠ h) (p : Option (Option Nat)) :
    (m.put h p).handle k = m.handle k := by
  simp [Mem.put, hk]

theorem read_some {m : Mem} {h : Nat} {p : Option Nat} (hh : m.handle h = some p) :
    read h m = .ok (p, m) := by
  simp [read, hh]

theorem write_some {m : Mem} {h : Nat} {q : Option Nat} (p : Option Nat) (hh : m.handle h = some q) :
    write h p m = .ok ((), m.put h (some p)) := by
  simp [write, hh]

theorem begin_none {m : Mem} {h : Nat} (p : Option Nat) (hh : m.handle h = none) :
    begin_ h p m = .ok ((), m.put h (some p)) := by
  simp [begin_, hh]

/-- A handle comes to own a pointer nobody owned; the program gives it up. -/
theorem Sound.adopt {l l' : List Nat} {m : Mem} (hs : Sound l m) {h a : Nat}
    (hh : m.handle h = none ∨ m.handle h = some none) (ha : a ∈ l)
    (hl : ∀ b, b ∈ l' ↔ b ∈ l ∧ b ≠ a) : Sound l' (m.put h (some (some a))) := by
  have hold : ∀ k b, (m.put h (some (some a))).handle k = some (some b) →
      (k = h ∧ b = a) ∨ (k ≠ h ∧ m.handle k = some (some b)) := by
    intro k b hk
    by_cases hkh : k = h
    · subst hkh
      rw [Mem.put_self] at hk
      simp only [Option.some.injEq] at hk
      exact Or.inl ⟨rfl, hk.symm⟩
    · rw [Mem.put_ne _ hkh] at hk
      exact Or.inr ⟨hkh, hk⟩
  obtain ⟨h1, h2, h3⟩ := hs.raw a ha
  constructor
  · exact hs.once
  · exact hs.freed
  · intro k b hk
    rcases hold k b hk with ⟨rfl, rfl⟩ | ⟨_, hk⟩
    · exact ⟨h1, h2⟩
    · exact hs.live k b hk
  · intro k g b hk hg
    rcases hold k b hk with ⟨rfl, rfl⟩ | ⟨hkh, hk'⟩ <;> rcases hold g _ hg with ⟨rfl, hb⟩ | ⟨hgh, hg'⟩
    · rfl
    · exact absurd hg' (h3 g)
    · subst hb; exact absurd hk' (h3 k)
    · exact hs.unique k g b hk' hg'
  · intro b hb
    obtain ⟨hb, hne⟩ := (hl b).1 hb
    obtain ⟨r1, r2, r3⟩ := hs.raw b hb
    refine ⟨r1, r2, fun k hk => ?_⟩
    rcases hold k b hk with ⟨_, rfl⟩ | ⟨_, hk⟩
    · exact hne rfl
    · exact r3 k hk
  · intro b hb
    rcases hs.kept b hb with h' | h' | ⟨k, hk⟩
    · exact Or.inl h'
    · by_cases hba : b = a
      · subst hba; exact Or.inr (Or.inr ⟨h, Mem.put_self ..⟩)
      · exact Or.inr (Or.inl ((hl b).2 ⟨h', hba⟩))
    · refine Or.inr (Or.inr ⟨k, ?_⟩)
      rw [Mem.put_ne]
      · exact hk
      · rintro rfl
        rcases hh with hh | hh <;> rw [hh] at hk <;> cases hk

/-- Only null handles come and go. -/
theorem Sound.null {l : List Nat} {m : Mem} (hs : Sound l m) {h : Nat} {p : Option (Option Nat)}
    (hh : m.handle h = none ∨ m.handle h = some none) (hp : p = none ∨ p = some none) :
    Sound l (m.put h p) := by
  have hold : ∀ k b, (m.put h p).handle k = some (some b) ↔ m.handle k = some (some b) := by
    intro k b
    by_cases hkh : k = h
    · subst hkh
      rw [Mem.put_self]
      constructor
      · intro hk; rcases hp with rfl | rfl <;> cases hk
      · intro hk; rcases hh with hh | hh <;> rw [hh] at hk <;> cases hk
    · rw [Mem.put_ne _ hkh]
  refine ⟨hs.once, hs.freed, fun k b hk => hs.live k b ((hold k b).1 hk),
    fun k g b hk hg => hs.unique k g b ((hold k b).1 hk) ((hold g b).1 hg), ?_, ?_⟩
  · intro b hb
    obtain ⟨r1, r2, r3⟩ := hs.raw b hb
    exact ⟨r1, r2, fun k hk => r3 k ((hold k b).1 hk)⟩
  · intro b hb
    rcases hs.kept b hb with h | h | ⟨k, hk⟩
    · exact Or.inl h
    · exact Or.inr (Or.inl h)
    · exact Or.inr (Or.inr ⟨k, (hold k b).2 hk⟩)

/-- A handle gives its pointer to the program. -/
theorem Sound.give {l : List Nat} {m : Mem} (hs : Sound l m) {h a : Nat}
    (hh : m.handle h = some (some a)) : Sound (a :: l) (m.put h (some none)) := by
  have hold : ∀ k b, (m.put h (some none)).handle k = some (some b) → k ≠ h ∧ m.handle k = some (some b) := by
    intro k b hk
    by_cases hkh : k = h
    · subst hkh; rw [Mem.put_self] at hk; cases hk
    · rw [Mem.put_ne _ hkh] at hk; exact ⟨hkh, hk⟩
  refine ⟨hs.once, hs.freed, fun k b hk => hs.live k b (hold k b hk).2,
    fun k g b hk hg => hs.unique k g b (hold k b hk).2 (hold g b hg).2, ?_, ?_⟩
  · intro b hb
    rcases List.mem_cons.1 hb with rfl | hb
    · obtain ⟨r1, r2⟩ := hs.live h b hh
      exact ⟨r1, r2, fun k hk => (hold k b hk).1 (hs.unique k h b (hold k b hk).2 hh)⟩
    · obtain ⟨r1, r2, r3⟩ := hs.raw b hb
      exact ⟨r1, r2, fun k hk => r3 k (hold k b hk).2⟩
  · intro b hb
    rcases hs.kept b hb with h' | h' | ⟨k, hk⟩
    · exact Or.inl h'
    · exact Or.inr (Or.inl (List.mem_cons_of_mem _ h'))
    · by_cases hkh : k = h
      · subst hkh
        rw [hh] at hk
        cases hk
        exact Or.inr (Or.inl List.mem_cons_self)
      · exact Or.inr (Or.inr ⟨k, by rw [Mem.put_ne _ hkh]; exact hk⟩)

/-- The program allocates. -/
theorem Sound.new {l : List Nat} {m : Mem} (hs : Sound l m) :
    Sound (m.next :: l) { m with next := m.next + 1 } := by
  refine ⟨hs.once, fun a ha => Nat.lt_succ_of_lt (hs.freed a ha), ?_, hs.unique, ?_, ?_⟩
  · intro h a hh
    exact ⟨Nat.lt_succ_of_lt (hs.live h a hh).1, (hs.live h a hh).2⟩
  · intro a ha
    rcases List.mem_cons.1 ha with rfl | ha
    · exact ⟨Nat.lt_succ_self _, fun h => Nat.lt_irrefl _ (hs.freed _ h),
        fun h hh => Nat.lt_irrefl _ (hs.live h _ hh).1⟩
    · obtain ⟨r1, r2, r3⟩ := hs.raw a ha
      exact ⟨Nat.lt_succ_of_lt r1, r2, r3⟩
  · intro a ha
    rcases Nat.lt_succ_iff_lt_or_eq.1 ha with ha | rfl
    · rcases hs.kept a ha with h | h | h
      · exact Or.inl h
      · exact Or.inr (Or.inl (List.mem_cons_of_mem _ h))
      · exact Or.inr (Or.inr h)
    · exact Or.inr (Or.inl List.mem_cons_self)

/-- The program deletes what it owns. -/
theorem Sound.delete {l l' : List Nat} {m : Mem} (hs : Sound l m) {a : Nat} (ha : a ∈ l)
    (hl : ∀ b, b ∈ l' ↔ b ∈ l ∧ b ≠ a) :
    Sound l' { m with freed := m.freed ++ [a] } ∧
      Uptr.delete (some a) m = .ok ((), { m with freed := m.freed ++ [a] }) := by
  obtain ⟨r1, r2, r3⟩ := hs.raw a ha
  refine ⟨⟨?_, ?_, ?_, hs.unique, ?_, ?_⟩, by simp [Uptr.delete, r1, r2]⟩
  · simp only [List.nodup_append, List.nodup_cons, List.not_mem_nil, not_false_eq_true,
      List.nodup_nil, and_self, List.mem_cons, or_false, ne_eq, forall_eq, true_and]
    exact ⟨hs.once, fun b hb hba => r2 (hba ▸ hb)⟩
  · intro b hb
    rcases List.mem_append.1 hb with hb | hb
    · exact hs.freed b hb
    · rw [List.mem_singleton.1 hb]; exact r1
  · intro h b hh
    refine ⟨(hs.live h b hh).1, fun hb => ?_⟩
    rcases List.mem_append.1 hb with hb | hb
    · exact (hs.live h b hh).2 hb
    · rw [List.mem_singleton.1 hb] at hh; exact r3 h hh
  · intro b hb
    obtain ⟨hb, hne⟩ := (hl b).1 hb
    obtain ⟨q1, q2, q3⟩ := hs.raw b hb
    refine ⟨q1, fun hb => ?_, q3⟩
    rcases List.mem_append.1 hb with hb | hb
    · exact q2 hb
    · exact hne (List.mem_singleton.1 hb)
  · intro b hb
    rcases hs.kept b hb with h | h | h
    · exact Or.inl (List.mem_append_left _ h)
    · by_cases hba : b = a
      · exact Or.inl (List.mem_append_right _ (by simp [hba]))
      · exact Or.inr (Or.inl ((hl b).2 ⟨h, hba⟩))
    · exact Or.inr (Or.inr h)

theorem Sound.congr {l l' : List Nat} {m : Mem} (hs : Sound l m) (hl : ∀ b, b ∈ l' ↔ b ∈ l) :
    Sound l' m :=
  ⟨hs.once, hs.freed, hs.live, hs.unique, fun a ha => hs.raw a ((hl a).1 ha), fun a ha => by
    rcases hs.kept a ha with h | h | h
    · exact Or.inl h
    · exact Or.inr (Or.inl ((hl a).2 h))
    · exact Or.inr (Or.inr h)⟩

theorem Mem.put_put (m : Mem) (h : Nat) (p q : Option (Option Nat)) :
    (m.put h p).put h q = m.put h q := by
  unfold Mem.put
  congr 1
  funext k
  by_cases hk : k = h <;> simp [hk]

/-- Places change names. -/
theorem Sound.rename {l : List Nat} {m : Mem} (hs : Sound l m) {m' : Mem} (σ : Nat → Nat)
    (hσ : ∀ k, σ (σ k) = k) (hn : m'.next = m.next) (hf : m'.freed = m.freed)
    (hh : ∀ k, m'.handle k = m.handle (σ k)) : Sound l m' := by
  refine ⟨hf ▸ hs.once, ?_, ?_, ?_, ?_, ?_⟩
  · rw [hf, hn]; exact hs.freed
  · intro k a hk
    rw [hf, hn]
    exact hs.live _ a (hh k ▸ hk)
  · intro k g a hk hg
    have := hs.unique _ _ a (hh k ▸ hk) (hh g ▸ hg)
    rw [← hσ k, this, hσ]
  · intro a ha
    rw [hf, hn]
    obtain ⟨r1, r2, r3⟩ := hs.raw a ha
    exact ⟨r1, r2, fun k hk => r3 _ (hh k ▸ hk)⟩
  · intro a ha
    rw [hf]
    rw [hn] at ha
    rcases hs.kept a ha with h | h | ⟨k, hk⟩
    · exact Or.inl h
    · exact Or.inr (Or.inl h)
    · exact Or.inr (Or.inr ⟨σ k, by rw [hh, hσ]; exact hk⟩)

def transpose (h g k : Nat) : Nat := if k = h then g else if k = g then h else k

theorem transpose_invol (h g k : Nat) : transpose h g (transpose h g k) = k := by
  unfold transpose
  by_cases h1 : k = h <;> by_cases h2 : k = g <;> simp [h1, h2]

theorem Sound.swap {l : List Nat} {m : Mem} (hs : Sound l m) {h g : Nat} {p q : Option Nat}
    (hh : m.handle h = some p) (hg : m.handle g = some q) :
    Sound l ((m.put h (some q)).put g (some p)) := by
  refine hs.rename (transpose h g) (transpose_invol h g) rfl rfl ?_
  intro k
  unfold transpose
  by_cases h1 : k = g
  · subst h1
    rw [Mem.put_self]
    by_cases h2 : k = h
    · subst h2; simp [hh]
    · simp [h2, hh]
  · rw [Mem.put_ne _ h1]
    by_cases h2 : k = h
    · subst h2; rw [Mem.put_self]; simp [hg]
    · rw [Mem.put_ne _ h2]; simp [h1, h2]

/-- Resetting a handle to null. -/
theorem Sound.reset {l : List Nat} {m : Mem} (hs : Sound l m) {h : Nat} {p : Option Nat}
    (hh : m.handle h = some p) : ∃ m', reset h none m = .ok ((), m') ∧ Sound l m' ∧
      m'.handle h = some none ∧ m'.next = m.next := by
  unfold Uptr.reset M.bind
  rw [read_some hh]
  simp only [write_some none hh]
  cases p with
  | none => exact ⟨_, rfl, hs.null (Or.inr hh) (Or.inr rfl), Mem.put_self .., rfl⟩
  | some a =>
    have := hs.give hh
    obtain ⟨h1, h2⟩ := this.delete (l' := l) List.mem_cons_self (fun b => by
      simp only [List.mem_cons]
      constructor
      · intro hb
        exact ⟨Or.inr hb, fun hba => (hs.raw b hb).2.2 h (hba ▸ hh)⟩
      · rintro ⟨hb | hb, hne⟩
        · exact absurd hb hne
        · exact hb)
    exact ⟨_, h2, h1, Mem.put_self .., rfl⟩

/-- Resetting a handle to a pointer the program owns. -/
theorem Sound.resetRaw {l l' : List Nat} {m : Mem} (hs : Sound l m) {h a : Nat} {p : Option Nat}
    (hh : m.handle h = some p) (ha : a ∈ l) (hl : ∀ b, b ∈ l' ↔ b ∈ l ∧ b ≠ a) :
    ∃ m', Uptr.reset h (some a) m = .ok ((), m') ∧ Sound l' m' := by
  unfold Uptr.reset M.bind
  rw [read_some hh]
  simp only [write_some (some a) hh]
  cases p with
  | none => exact ⟨_, rfl, hs.adopt (Or.inr hh) ha hl⟩
  | some b =>
    have hab : b ≠ a := fun e => (hs.raw a ha).2.2 h (e ▸ hh)
    have hbl : b ∉ l := fun hb => (hs.raw b hb).2.2 h hh
    have h1 := (hs.give hh).adopt (l' := b :: l') (h := h) (a := a) (Or.inr (Mem.put_self ..))
      (List.mem_cons_of_mem _ ha) (fun c => by
        simp only [List.mem_cons, hl]
        constructor
        · rintro (rfl | ⟨h, h'⟩)
          · exact ⟨Or.inl rfl, hab⟩
          · exact ⟨Or.inr h, h'⟩
        · rintro ⟨rfl | h, h'⟩
          · exact Or.inl rfl
          · exact Or.inr ⟨h, h'⟩)
    rw [Mem.put_put] at h1
    obtain ⟨h2, h3⟩ := h1.delete (l' := l') List.mem_cons_self (fun c => by
      simp only [List.mem_cons]
      constructor
      · intro hc
        exact ⟨Or.inr hc, fun e => hbl (e ▸ ((hl c).1 hc).1)⟩
      · rintro ⟨rfl | hc, hne⟩
        · exact absurd rfl hne
        · exact hc)
    exact ⟨_, h3, h2⟩

theorem mem_filter_ne {l : List Nat} {a b : Nat} : b ∈ l.filter (· ≠ a) ↔ b ∈ l ∧ b ≠ a := by
  simp

/-- Fair operations are defined and keep everything owned once. -/
theorem Sound.step {l : List Nat} {m : Mem} (hs : Sound l m) {op : Op} (hf : Fair l m op) :
    ∃ m', exec op m = .ok ((), m') ∧ Sound (owned l m op) m' := by
  have some_of : ∀ {h}, m.handle h ≠ none → ∃ p, m.handle h = some p := fun h =>
    Option.ne_none_iff_exists'.1 h
  cases op with
  | make h => exact ⟨_, begin_none none hf, hs.null (Or.inl hf) (Or.inr rfl)⟩
  | makeNew h =>
    refine ⟨_, begin_none (m := { m with next := m.next + 1 }) (some m.next) hf, ?_⟩
    refine hs.new.adopt (Or.inl hf) List.mem_cons_self fun b => ?_
    simp only [owned, List.mem_cons]
    constructor
    · intro hb; exact ⟨Or.inr hb, fun e => Nat.lt_irrefl _ (e ▸ (hs.raw b hb).1)⟩
    · rintro ⟨rfl | hb, hne⟩
      · exact absurd rfl hne
      · exact hb
  | makeRaw h a => exact ⟨_, begin_none _ hf.1, hs.adopt (Or.inl hf.1) hf.2 fun b => mem_filter_ne⟩
  | move h g =>
    obtain ⟨hh, hg⟩ := hf
    obtain ⟨p, hg⟩ := some_of hg
    have hgh : g ≠ h := by rintro rfl; rw [hg] at hh; cases hh
    refine ⟨(m.put h (some p)).put g (some none), ?_, ?_⟩
    · show ctorMove h g m = _
      unfold ctorMove M.bind
      rw [read_some hg]
      simp only [begin_none p hh]
      exact write_some none (by rw [Mem.put_ne _ hgh]; exact hg)
    · have h1 := hs.null (Or.inl hh) (p := some none) (Or.inr rfl)
      have h2 := h1.swap (Mem.put_self ..) (g := g) (q := p) (by rw [Mem.put_ne _ hgh]; exact hg)
      rw [Mem.put_put] at h2
      exact h2
  | assign h g =>
    obtain ⟨p, hh⟩ := some_of hf.1
    obtain ⟨q, hg⟩ := some_of hf.2
    refine ⟨(m.put h (some q)).put g (some p), ?_, hs.swap hh hg⟩
    show Uptr.swap h g m = _
    unfold Uptr.swap M.bind
    rw [read_some hh]
    simp only [read_some hg, write_some q hh]
    by_cases e : g = h
    · subst e; exact write_some p (Mem.put_self ..)
    · exact write_some p (by rw [Mem.put_ne _ e]; exact hg)
  | swap h g =>
    obtain ⟨p, hh⟩ := some_of hf.1
    obtain ⟨q, hg⟩ := some_of hf.2
    refine ⟨(m.put h (some q)).put g (some p), ?_, hs.swap hh hg⟩
    show Uptr.swap h g m = _
    unfold Uptr.swap M.bind
    rw [read_some hh]
    simp only [read_some hg, write_some q hh]
    by_cases e : g = h
    · subst e; exact write_some p (Mem.put_self ..)
    · exact write_some p (by rw [Mem.put_ne _ e]; exact hg)
  | reset h =>
    obtain ⟨p, hh⟩ := some_of hf
    obtain ⟨m', h1, h2, _⟩ := hs.reset hh
    exact ⟨m', h1, h2⟩
  | resetNew h =>
    obtain ⟨p, hh⟩ := some_of hf
    obtain ⟨m', h1, h2⟩ := hs.new.resetRaw (l' := l) (h := h) (a := m.next) hh List.mem_cons_self
      (fun b => by
        simp only [List.mem_cons]
        constructor
        · intro hb; exact ⟨Or.inr hb, fun e => Nat.lt_irrefl _ (e ▸ (hs.raw b hb).1)⟩
        · rintro ⟨rfl | hb, hne⟩
          · exact absurd rfl hne
          · exact hb)
    exact ⟨m', h1, h2⟩
  | resetRaw h a =>
    obtain ⟨p, hh⟩ := some_of hf.1
    exact hs.resetRaw hh hf.2 fun b => mem_filter_ne
  | release h =>
    obtain ⟨p, hh⟩ := some_of hf
    refine ⟨m.put h (some none), ?_, ?_⟩
    · show M.bind (release h) _ m = _
      unfold release M.bind
      simp only [read_some hh, write_some none hh]
    · simp only [owned, hh]
      cases p with
      | none => exact hs.null (Or.inr hh) (Or.inr rfl)
      | some a => exact hs.give hh
  | delete a =>
    obtain ⟨h1, h2⟩ := hs.delete hf (l' := l.filter (· ≠ a)) (fun b => mem_filter_ne)
    exact ⟨_, h2, h1⟩
  | destroy h =>
    obtain ⟨p, hh⟩ := some_of hf
    obtain ⟨m', h1, h2, h3, _⟩ := hs.reset hh
    refine ⟨m'.put h none, ?_, h2.null (Or.inr h3) (Or.inl rfl)⟩
    show dtor h m = _
    unfold dtor M.bind
    rw [h1]
    simp [end_, h3]

/-! ## C36 -/

/-- C36: fair operations are always defined (in particular nothing is deleted twice and no
handle ever points to a deleted object), and at all times everything allocated is owned by one
handle, or by the program, or was deleted once. -/
theorem C36_sound {ops : List Op} {l : List Nat} {m : Mem} (h : Runs ops l m) :
    Sound l m ∧ ∀ op, Fair l m op → ∃ m', exec op m = .ok ((), m') := by
  have hs : Sound l m := by
    induction h with
    | nil => exact ⟨.nil, by simp [Mem.start], by simp [Mem.start], by simp [Mem.start], by simp,
        by simp [Mem.start]⟩
    | snoc h hf hs ih =>
      obtain ⟨m'', h1, h2⟩ := ih.step hf
      rw [h1] at hs
      cases hs
      exact h2
  exact ⟨hs, fun op hf => (hs.step hf).imp fun m' h => h.1⟩

/-- C36: when all handles are gone, every object has been deleted, or is the program's, which
got it from `release`. -/
theorem C36_no_leak {ops : List Op} {l : List Nat} {m : Mem} (h : Runs ops l m)
    (hall : ∀ k, m.handle k = none) : ∀ a, a < m.next → a ∈ m.freed ∨ a ∈ l := by
  intro a ha
  rcases (C36_sound h).1.kept a ha with h | h | ⟨k, hk⟩
  · exact Or.inl h
  · exact Or.inr h
  · rw [hall k] at hk; cases hk

/-- C36: without `release`, the program owns nothing, so in the end everything has been
deleted. -/
theorem C36_all_deleted {ops : List Op} {l : List Nat} {m : Mem} (h : Runs ops l m)
    (hr : ∀ k, Op.release k ∉ ops) (hall : ∀ k, m.handle k = none) :
    ∀ a, a < m.next → a ∈ m.freed := by
  have hl : l = [] := by
    clear hall
    induction h with
    | nil => rfl
    | @snoc ops l m m' op h hf hs ih =>
      have hl : l = [] := ih fun k hk => hr k (List.mem_append_left _ hk)
      subst hl
      cases op with
      | release k => exact absurd (List.mem_append_right _ (List.mem_singleton.2 rfl)) (hr k)
      | _ => rfl
  intro a ha
  rcases C36_no_leak h hall a ha with h | h
  · exact h
  · rw [hl] at h; cases h

/-- Assignment deletes nothing: the old object of the left side lives on in the right side. -/
theorem C36_assign {ops : List Op} {l : List Nat} {m m' : Mem} (_h : Runs ops l m) {h g : Nat}
    (hs : exec (.assign h g) m = .ok ((), m')) :
    m'.freed = m.freed ∧ m'.handle h = m.handle g ∧ m'.handle g = m.handle h := by
  change Uptr.swap h g m = _ at hs
  match hh : m.handle h, hg : m.handle g with
  | none, _ => simp [Uptr.swap, M.bind, read, hh] at hs
  | some p, none => simp [Uptr.swap, M.bind, read, hh, hg] at hs
  | some p, some q =>
    unfold Uptr.swap M.bind at hs
    rw [read_some hh] at hs
    simp only [read_some hg, write_some q hh] at hs
    by_cases e : g = h
    · subst e
      rw [write_some p (Mem.put_self ..)] at hs
      cases hs
      rw [hh] at hg
      cases hg
      exact ⟨rfl, Mem.put_self .., Mem.put_self ..⟩
    · rw [write_some p (by rw [Mem.put_ne _ e]; exact hg)] at hs
      cases hs
      exact ⟨rfl, by rw [Mem.put_ne _ (Ne.symm e), Mem.put_self], Mem.put_self ..⟩

/-! ## Programs to which this applies -/

/-- Run a list of operations. -/
def execAll : List Op → Mem → Except Ub Mem
  | [], m => .ok m
  | op :: ops, m => match exec op m with
    | .error e => .error e
    | .ok (_, m') => execAll ops m'

/-- A program with moves, assignments between the same and different handles, resets, and a
pointer that is released and adopted again. -/
def sample : List Op :=
  [.makeNew 1, .make 2, .assign 2 1, .assign 2 2, .move 3 2, .resetNew 2, .swap 2 3, .release 3,
   .resetRaw 1 1, .reset 2, .destroy 1, .destroy 2, .destroy 3]

example : (match execAll sample Mem.start with
    | .ok m => (m.next, m.freed, [1, 2, 3].map m.handle)
    | .error _ => (0, [], [])) = (2, [0, 1], [none, none, none]) := by decide

/-- It is fair. -/
example : ∃ l m, Runs sample l m ∧ m.freed = [0, 1] := by
  have h0 := Runs.nil
  have h1 := Runs.snoc (op := .makeNew 1) h0 rfl rfl
  have h2 := Runs.snoc (op := .make 2) h1 rfl rfl
  have h3 := Runs.snoc (op := .assign 2 1) h2 ⟨by decide, by decide⟩ rfl
  have h4 := Runs.snoc (op := .assign 2 2) h3 ⟨by decide, by decide⟩ rfl
  have h5 := Runs.snoc (op := .move 3 2) h4 ⟨by decide, by decide⟩ rfl
  have h6 := Runs.snoc (op := .resetNew 2) h5 (by show _ ≠ _; decide) rfl
  have h7 := Runs.snoc (op := .swap 2 3) h6 ⟨by decide, by decide⟩ rfl
  have h8 := Runs.snoc (op := .release 3) h7 (by show _ ≠ _; decide) rfl
  have h9 := Runs.snoc (op := .resetRaw 1 1) h8 ⟨by decide, by decide⟩ rfl
  have h10 := Runs.snoc (op := .reset 2) h9 (by show _ ≠ _; decide) rfl
  have h11 := Runs.snoc (op := .destroy 1) h10 (by show _ ≠ _; decide) rfl
  have h12 := Runs.snoc (op := .destroy 2) h11 (by show _ ≠ _; decide) rfl
  have h13 := Runs.snoc (op := .destroy 3) h12 (by show _ ≠ _; decide) rfl
  exact ⟨_, _, h13, rfl⟩

/-- Why `Fair` asks for pointers the program owns: `p.reset(p.get())` deletes the object and
keeps the pointer; the destructor then deletes it again. -/
example : execAll [.makeNew 1, .resetRaw 1 0, .destroy 1] Mem.start = .error .badDelete := rfl

end Hsm.Uptr
