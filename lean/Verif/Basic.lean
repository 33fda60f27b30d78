/-!
# List utilities of the library

Models `include/hsm/details/remove_duplicates.h` and
`include/hsm/details/index_map.h`.
-/

namespace Hsm

/-- `remove_duplicates` (remove_duplicates.h:19-22): `boost::mp11::mp_unique`,
which walks the list and appends an element to the result unless it is already
there.  Types are modelled by values with decidable equality. -/
def uniq {α : Type} [DecidableEq α] (l : List α) : List α :=
  l.foldl (fun acc x => if x ∈ acc then acc else acc ++ [x]) []

/-- The fold expression of `GetIdx::find_idx` (index_map.h:20 and :31):
`((is_same<X,T> ? idx - seq.size() : 0) + ...)`, in `std::size_t` arithmetic,
i.e. modulo 2^64.  `i` is the index of the head, `n` is `seq.size()`. -/
def matchSum {α : Type} [DecidableEq α] (x : α) (n : BitVec 64) : Nat → List α → BitVec 64
  | _, [] => 0
  | i, y :: l => (if y = x then BitVec.ofNat 64 i - n else 0) + matchSum x n (i + 1) l

/-- `index_of` (index_map.h:46-49): `seq.size() + (... + ...)` modulo 2^64. -/
def indexOf {α : Type} [DecidableEq α] (l : List α) (x : α) : Nat :=
  (BitVec.ofNat 64 l.length + matchSum x (BitVec.ofNat 64 l.length) 0 l).toNat

/-- `boost::hana::cartesian_product` of two lists; the last component varies
fastest (used by idx.h:44-45). -/
def product {α β : Type} (l : List α) (m : List β) : List (α × β) :=
  l.flatMap fun a => m.map fun b => (a, b)

end Hsm
