import Verif.Model.HclStruct
/-!
# A small set of struct types for the examples about decoding HCL
-/

namespace Verif.HclS
open Tree (Heap)
open Hcl (Cty)
open Det (Cls CVal)

namespace Demo

def fld (name tag : String) (ty : Ty) : Fld := ⟨b name, true, b "hcl:\"" ++ b tag ++ b "\"", ty⟩

def fItems := fld "Items" "items,block" (.slice (.ptr (.struct 1)))
def fTable := fld "Table" "table,block" (.map .str .any)
def fPairs := fld "Pairs" "pairs,block" (.map .str2 (.ptr (.struct 2)))
def fOne := fld "One" "one,block" (.ptr (.struct 1))
def fMap := fld "Map" "map,block" (.map .str (.struct 2))
def fName := fld "Name" "name,optional" .str
def fAlt := fld "Alt" "alt,optional" .str
def fId := fld "Id" "id,label" .str
def fVal := fld "Val" "val,optional" .str
def fBase := fld "Item" "" (.struct 1)

/-- `Root`, `Item` (with a label), `Other`, `Doc` (like `Root` without generic fields), `Embeds` (embeds an `Item`), and types without fields. -/
def env : Env where
  struct
    | 0 => ⟨b "main.Root", [fName, fAlt, fItems, fTable, fPairs, fOne],
        [(b "Name", .str), (b "Alt", .str), (b "Items", fItems.ty), (b "Table", fTable.ty), (b "Pairs", fPairs.ty), (b "One", fOne.ty)]⟩
    | 1 => ⟨b "main.Item", [fId, fVal], [(b "Id", .str), (b "Val", .str)]⟩
    | 2 => ⟨b "main.Other", [fVal], [(b "Val", .str)]⟩
    | 3 => ⟨b "main.Doc", [fName, fItems, fMap, fPairs, fOne],
        [(b "Name", .str), (b "Items", fItems.ty), (b "Map", fMap.ty), (b "Pairs", fPairs.ty), (b "One", fOne.ty)]⟩
    | 4 => ⟨b "main.Embeds", [fName, fBase, fMap], [(b "Name", .str), (b "Id", .str), (b "Val", .str), (b "Map", fMap.ty)]⟩
    | n + 5 => ⟨b "main.T" ++ List.replicate n 120, [], []⟩
  impl _ _ := false
  name _ := b "?"

def ext : Ext where
  nfc := id
  eval _ _ := .error .err
  leaf _ v := match v with | .str s => .ok (.str s) | _ => .error .err
  zero
    | .str => .str []
    | _ => .leaf 0
  dynAttr _ _ _ _ := .error .unsupported
  dynBlock _ _ _ _ := .error .unsupported
  parse _ := none
  ord _ l := l

def item : Fields := [(b "Id", .str []), (b "Val", .str [])]
def other : Fields := [(b "Val", .str [])]
def blank : Fields :=
  [(b "Name", .str []), (b "Alt", .str []), (b "Items", .leaf 0), (b "Table", .leaf 0), (b "Pairs", .leaf 0), (b "One", .leaf 0)]

def str (k v : String) : Bytes × Attr := (b k, ⟨.str (b v), []⟩)
def leaf (v : String) : Body := .mk [str "val" v] []

def heap0 : Heap Cty := [⟨Tree.VAR, [], none, []⟩]
def ref0 : GoMap Bytes Tmpl := [(b "Item", .ptr 1 item), (b "Other", .ptr 2 other)]

/-- The decoded fields and how it ended. -/
def run (ext : Ext) (spec : List (Bytes × CVal)) (body : Body) : Fields × Except Fail St :=
  decode env ext 0 2 [] ⟨heap0, ref0⟩ 0 0 blank spec [] body

/-- Forgets the state. -/
def outcome (r : Fields × Except Fail St) : Fields × Option Fail :=
  (r.1, match r.2 with | .ok _ => none | .error e => some e)

def doc : Body := .mk [str "name" "n"]
  [(b "items", [b "a"], leaf "1"), (b "items", [b "c"], leaf "2"), (b "items", [b "d"], leaf "3")]

end Demo

end Verif.HclS
