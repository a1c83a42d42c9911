import Verif.Check.RefsDemo
import Verif.Model.HclTree
/-!
# Documents for the examples about references in generic data
-/

namespace Verif.HclS.TreeDemo
open Verif.Tree (Heap)
open Hcl (Cty Expr GV)

def ext : Ext := Demo.ext

def str (k v : String) : Bytes × Expr := (b k, .str (b v))
def ref (k n : String) : Bytes × Expr := (b k, .ident (b n))

/-- Decodes a document into an empty map. -/
def run (ext : Ext) (doc : Hcl.Body) : Except Fail (List (Bytes × GV)) := (unmarshalBody ext [] none doc []).map Prod.fst

/-- A host with an address, a list of tags and two ports; the second port has a reference, and there is a block with labels. -/
def zone (v1 v2 v3 : Expr) : Hcl.Body :=
  .mk [str "name" "z"]
    [(b "host", [], .mk [str "addr" "1.2.3.4"] [(b "port", [], .mk [(b "val", .num 80)] []), (b "port", [], .mk [(b "val", v1)] [])]),
     (b "disk", [b "a", b "b"], .mk [(b "size", .num 7), (b "l", .tuple [v2, .str (b "x")])] [(b "part", [b "p"], .mk [(b "val", v3)] [])])]

def doc : Hcl.Body := zone (.ident (b "host.0.addr")) (.ident (b "var.name")) (.ident (b "disk.a.b.size"))
def doc' : Hcl.Body := zone (.str (b "1.2.3.4")) (.str (b "z")) (.num 7)

end Verif.HclS.TreeDemo

namespace Verif.HclS.RefsDemo
open Hcl (GV)
open Verif.HclS.Demo (str)

/-- Generic fields are decoded by `decodeMap`, in the tree that starts at 0. -/
def extG : Ext :=
  { ext with dynAttr := fun slice h node src =>
      if slice then .error .unsupported
      else (mapT ext 0 node src h).map fun r =>
        (.map (r.1.map fun e => (e.1, match e.2 with | .str s => .str s | _ => .leaf 1)), r.2) }

/-- A zone with a name and a generic field that has a `name` too. -/
def generic (port : Bytes × Attr) : Body :=
  .mk [str "name" "outer", (b "conf", ⟨.object [(.ident (b "name"), .str (b "inner"))], b " { name = \"inner\" }"⟩)]
    [(b "host", [b "a"], .mk [] [(b "port", [], .mk [port] [])])]

end Verif.HclS.RefsDemo
