import Verif.Py.Core

/-!
# Threads (specification)
-/

namespace Spec
open Py

/-- Of a list of bytes, each with the number of a thread (that wrote it, that it was delivered to): those of thread `i`. -/
def ofThread (i : Nat) (w : List (Nat × UInt8)) : Bytes := (w.filter fun x => x.1 = i).map Prod.snd

end Spec
