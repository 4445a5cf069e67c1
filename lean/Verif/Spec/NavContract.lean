import Verif.Spec.CursorContract
import Verif.Spec.Columnar
import Verif.Model.NavChunk

/-!
# What a navigable chunk promises

The chunk has some contents, not empty; its cursors behave as positions in these contents, a fresh one at their start; its bounds are the key, value and time of its
first and last update.
-/

namespace DD
variable {I C K V T R : Type*} [LinearOrder K] [LinearOrder V]

/-- The key, value and time of an update. -/
def triple (u : (K ×ₗ V) × T × R) : K × V × T := ((ofLex u.1).1, (ofLex u.1).2, u.2.1)

/-- The contract of the chunk `c`, with `contents`; `Rel` relates its cursors to the positions they stand for. -/
structure NavContract (nav : NavOps I C K V T R) (contents : C → Contents K V T R) (Rel : C → I → Pos K V T R → Prop) (c : C) : Prop where
  sorted : ContentsSorted (contents c)
  noEmpty : NoEmpty (contents c)
  nonempty : contents c ≠ []
  presents : Presents nav.cur c (contents c) (Rel c)
  seeks : SeeksVals nav.cur c (Rel c)
  cursor : Rel c (nav.cursor c) (Pos.start (contents c))
  bounds : ∃ first last, (contents c).upds.head? = some first ∧ (contents c).upds.getLast? = some last ∧ nav.bounds c = some (triple first, triple last)

end DD
