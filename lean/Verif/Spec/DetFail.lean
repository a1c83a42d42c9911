import Verif.Model.Det
/-!
# What it means that `JsonUnmarshal` swallows no failure

`Ext.Le`: wherever the first version of `encoding/json` does not fail to decode a value, the second does the same.  A call that
succeeds with the first must give the same with every such second; otherwise it passed over a failure.
-/
namespace Verif.Det

/-- The second decodes as the first, except where the first fails. -/
structure Ext.Le (ext ext' : Ext) : Prop where
  zero : ext'.zero = ext.zero
  fold : ext'.fold = ext.fold
  structOf : ext'.structOf = ext.structOf
  ord : ext'.ord = ext.ord
  leaf : ∀ f v j x, ext.leaf f v j = some x → ext'.leaf f v j = some x
  plain : ∀ i j fs, ext.plain i j = (fs, false) → ext'.plain i j = (fs, false)

end Verif.Det
