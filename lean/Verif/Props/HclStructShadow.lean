import Verif.Props.HclStructMem
/-!
# Fields of different levels with one name (C57, C68, C161, C164)

Go takes `Name` of a struct for its own field, though a struct that it embeds may have a field `Name`, too.  `loopFields` has one entry for both (dethcl/unmarshal.go L593,
L621): the entry that it makes for the embedded field is that of the other one when the specification is used again.  `C161_partial` and `C164_partial` exclude this by
`NamesOnce`.
-/
namespace Verif.HclS
open Tree (Heap)
open Hcl (Cty)
open Det (Cls CVal)

namespace Demo

/-- `type Shadow struct { Name string; Base; Extra *Other }` with `type Base struct { Name *Item }`, and `type Shadows struct { Docs []*Shadow }`. -/
def shadowEnv : Env where
  struct
    | 0 => ⟨b "main.Shadows", [fld "Docs" "docs,block" (.slice (.ptr (.struct 4)))], [(b "Docs", .slice (.ptr (.struct 4)))]⟩
    | 3 => ⟨b "main.Base", [fld "Name" "base,block" (.ptr (.struct 1))], [(b "Name", .ptr (.struct 1))]⟩
    | 4 => ⟨b "main.Shadow", [fName, fld "Base" "" (.struct 3), fld "Extra" "extra,block" (.ptr (.struct 2))], [(b "Name", .str), (b "Extra", .ptr (.struct 2))]⟩
    | n => Demo.env.struct n
  impl _ _ := false
  name _ := b "?"

def shadow : Fields := [(b "Name", .str []), (b "Extra", .leaf 0)]

/-- `Shadow` is registered. -/
def shadowRef : GoMap Bytes Tmpl := [(b "Shadow", .ptr 4 shadow), (b "Other", .ptr 2 other)]

/-- The specification for `Docs`: a `Shadow` whose `Extra` is an `Other`. -/
def shadowSpec : List (Bytes × CVal) := [(b "Docs", .list [.mk (b "Shadow") [(b "Extra", .single (.mk (b "Other") []))]])]

/-- The two blocks `docs { name = "n" }` and `docs { name = "m" }`. -/
def shadowDoc : Body := .mk [] [(b "docs", [], .mk [str "name" "n"] []), (b "docs", [], .mk [str "name" "m"] [])]

/-- The memory: the first block for a `Shadow` adds the entry for `Name`, and registers the class that it names; later blocks find both. -/
def shadowMem : SpecMem := fun _ st cls obj =>
  if cls = 4 ∧ GoMap.get? obj (b "Name") = none then
    match GoMap.get? st.ref (b "main.Item") with
    | some (.ptr 1 [(k1, .str []), (k2, .str [])]) => if k1 = b "Id" ∧ k2 = b "Val" then GoMap.set obj (b "Name") (.single (.mk (b "main.Item") [])) else obj
    | _ => obj
  else obj

theorem shadowMem_honest : Honest shadowEnv Demo.ext 2 shadowMem := by
  intro path st cls obj
  simp only [shadowMem]
  split
  · rename_i h
    obtain ⟨rfl, hno⟩ := h
    split
    · rename_i k1 k2 hr
      split
      · rename_i hk
        obtain ⟨rfl, rfl⟩ := hk
        constructor
        · intro k v hk
          rw [GoMap.get?_set]
          split
          · rename_i he; subst he; rw [hno] at hk; cases hk
          · exact hk
        · intro k v hk
          rw [GoMap.get?_set] at hk
          split at hk
          · rename_i he
            subst he
            cases hk
            exact Or.inr ⟨fld "Name" "base,block" (.ptr (.struct 1)), by
              have e : whole shadowEnv 2 (shadowEnv.struct 4).fields = [fName, fld "Base" "" (.struct 3), fld "Name" "base,block" (.ptr (.struct 1)), fld "Extra" "extra,block" (.ptr (.struct 2))] := rfl
              rw [e]; simp, rfl, by decide +kernel, _, _, rfl, hr⟩
          · exact Or.inl hk
      · exact C164_start _ _ _ _
    · exact C164_start _ _ _ _
  · exact C164_start _ _ _ _

end Demo

/-- **C161 is violated** with one `ref` for all calls, too: the first call decodes `name = "n"`, and adds an entry for the field `Name` of the embedded struct.  In the second call for the
same document this is the specification of the other `Name`, a string, for which the attribute is refused. -/
theorem C161_violated_names :
    let call spec st root := unmarshalSpec Demo.shadowEnv Demo.ext 2 (some (.mk [Demo.str "name" "n"] [])) 4 Demo.shadow spec st root []
    let first := call (some []) ⟨[], Demo.ref0⟩ none
    let second := call first.spec ⟨first.heap, first.ref⟩ (some first.root)
    first.outcome = .ok () ∧ GoMap.get? first.target (b "Name") = some (.str (b "n")) ∧
    second.outcome = .error .err ∧ GoMap.get? second.target (b "Name") = some (.str []) := ⟨rfl, rfl, rfl, rfl⟩

/-- **C164 is violated** if fields of different levels share a name: the second block of one document is refused because of what the first one left in the specification of
both; with specifications that nobody changes it is decoded. -/
theorem C164_violated :
    let a := unmarshalSpec Demo.shadowEnv Demo.ext 2 (some Demo.shadowDoc) 0 [(b "Docs", .leaf 0)] (some Demo.shadowSpec) ⟨[], Demo.shadowRef⟩ none []
    Honest Demo.shadowEnv Demo.ext 2 Demo.shadowMem ∧ a.outcome = .ok () ∧
    GoMap.get? a.target (b "Docs") = some (.slice [.ref 4 [(b "Name", .str (b "n")), (b "Extra", .leaf 0)], .ref 4 [(b "Name", .str (b "m")), (b "Extra", .leaf 0)]]) ∧
    unmarshalMem Demo.shadowEnv Demo.ext Demo.shadowMem 2 (some Demo.shadowDoc) 0 [(b "Docs", .leaf 0)] (some Demo.shadowSpec) ⟨[], Demo.shadowRef⟩ none [] =
      ([(b "Docs", .leaf 0)], .error .err) := ⟨Demo.shadowMem_honest, rfl, rfl, rfl⟩

-- The first of the blocks alone is decoded with this memory.
example : (unmarshalMem Demo.shadowEnv Demo.ext Demo.shadowMem 2 (some (.mk [] [(b "docs", [], .mk [Demo.str "name" "n"] [])])) 0 [(b "Docs", .leaf 0)] (some Demo.shadowSpec)
      ⟨[], Demo.shadowRef⟩ none []).1 = [(b "Docs", .slice [.ref 4 [(b "Name", .str (b "n")), (b "Extra", .leaf 0)]])] := rfl

namespace Demo

/-- `type More struct { Items []*Item; One *Item; Name string }`, where `Name` is a label, and `type Hides struct { Items []*Item; One *Item; Name string; More }`, with other tags. -/
def hideEnv : Env where
  struct
    | 3 => ⟨b "main.More", [fld "Items" "more,block" fItems.ty, fld "One" "other,block" fOne.ty, fId'],
        [(b "Items", fItems.ty), (b "One", fOne.ty), (b "Name", .str)]⟩
    | 4 => ⟨b "main.Hides", [fItems, fOne, fName, fld "More" "" (.struct 3)], [(b "Items", fItems.ty), (b "One", fOne.ty), (b "Name", .str)]⟩
    | n => Demo.env.struct n
  impl _ _ := false
  name _ := b "?"
where fId' := fld "Name" "id,label" .str

/-- The target after a document, and how it ended. -/
def hide (labels : List Bytes) (body : Body) : Fields × Option Fail :=
  outcome (decode hideEnv Demo.ext 0 3 [] ⟨heap0, ref0⟩ 0 4 [(b "Items", .leaf 0), (b "One", .leaf 0), (b "Name", .str [])] [] labels body)

end Demo

/-- **C57 is violated** if the struct hides a field of a struct that it embeds: the blocks of both are stored in the same field, and the block `items` is lost. -/
theorem C57_violated :
    Demo.hide [] (.mk [] [(b "items", [b "a"], Demo.leaf "1"), (b "more", [b "c"], Demo.leaf "2")]) =
      ([(b "Items", .slice [.ref 1 [(b "Id", .str (b "c")), (b "Val", .str (b "2"))]]), (b "One", .leaf 0), (b "Name", .str [])], none) := rfl

/-- **C68 is violated** for such a struct: without a block `one` the field `One` gets the block `other`, and without an attribute `name` the field `Name` gets the label, both of which belong to
hidden fields. -/
theorem C68_violated :
    Demo.hide [b "x"] (.mk [] [(b "other", [b "c"], Demo.leaf "2")]) =
      ([(b "Items", .leaf 0), (b "One", .ref 1 [(b "Id", .str (b "c")), (b "Val", .str (b "2"))]), (b "Name", .str (b "x"))], none) := rfl

end Verif.HclS
