import Verif.MatchR
import Verif.Systems

/-!
# Programs of several machines no client can tell apart

What a client sees of several machines, for the check of MatchR.lean applied to every one.  This file is specification.  PropsMatchS.lean
proves that it is right about the model of the code (C121, C122).
-/

namespace Hsm

section
variable {ι P W : Type}

/-- The client `sem`, for machines whose states it sees through `v`. -/
def SemS.seen (v : ι → StTy → StTy) (sem : SemS ι P W) : SemS ι P W where
  guard i g a p w := sem.guard i g (a.seen (v i)) p w
  action i f a p w := sem.action i f (a.seen (v i)) p w
  handler i h e st d p w := sem.handler i h e (v i st) d p w
  alive i st w := sem.alive i (v i st) w
  nonePayload := sem.nonePayload

end
end Hsm
