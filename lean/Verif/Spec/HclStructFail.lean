import Verif.Model.OwnStruct
/-!
# What it means that no failure is swallowed

A part of a program that fails says nothing about a result.  So if a call succeeds, its result must be the same whatever
the parts that failed would have given: only then none of their failures was passed over.  `Le` says of two versions of the parts
outside of the model that the second gives the same wherever the first does not fail.
-/
namespace Verif.HclS
open Hcl (Cty)

/-- The second gives what the first gives, unless the first fails. -/
def OkLe {α : Type} (r r' : Except Fail α) : Prop := ∀ a, r = .ok a → r' = .ok a

/-- The external parts that can fail when a document is decoded: values of fields, generic data, and the text of objects. -/
structure Ext.Le (ext ext' : Ext) : Prop where
  nfc : ext'.nfc = ext.nfc
  eval : ext'.eval = ext.eval
  zero : ext'.zero = ext.zero
  ord : ext'.ord = ext.ord
  leaf : ∀ f cv, OkLe (ext.leaf f cv) (ext'.leaf f cv)
  dynAttr : ∀ s h n src, OkLe (ext.dynAttr s h n src) (ext'.dynAttr s h n src)
  dynBlock : ∀ s h n body, OkLe (ext.dynBlock s h n body) (ext'.dynBlock s h n body)
  parse : ∀ s x, ext.parse s = some x → ext'.parse s = some x

/-- The external parts that can fail when a value is written. -/
structure PExt.Le (pe pe' : PExt) : Prop where
  anon : pe'.anon = pe.anon
  expr : pe'.expr = pe.expr
  pad : pe'.pad = pe.pad
  raw : pe'.raw = pe.raw
  ord : pe'.ord = pe.ord
  ord2 : pe'.ord2 = pe.ord2
  embedded : pe'.embedded = pe.embedded
  enc : ∀ v level, OkLe (pe.enc v level) (pe'.enc v level)

/-- The same types have methods, and these give the same where the first do not fail. -/
structure Methods.Le (ms ms' : Methods) : Prop where
  marshal : ∀ a c, match ms.marshal a c, ms'.marshal a c with
    | .none, .none => True
    | some m, some m' => ∀ fs, OkLe (m fs) (m' fs)
    | _, _ => False
  unmarshal : ∀ c, match ms.unmarshal c, ms'.unmarshal c with
    | .none, .none => True
    | some u, some u' => ∀ fs labels body, OkLe (u fs labels body) (u' fs labels body)
    | _, _ => False

end Verif.HclS
