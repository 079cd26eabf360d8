import Verif.Model.Cache
/-!
What a bounded least-recently-used cache should hold.
-/
namespace Yargy.Spec
open Yargy

variable {K : Type} [DecidableEq K]

/-- The different keys of a history, the most recently used first. -/
def recent (ks : List K) : List K := ks.reverse.eraseDups

end Yargy.Spec
