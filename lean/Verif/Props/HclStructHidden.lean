import Verif.Lemmas.HclStructHidden
import Verif.Props.HclStructMarshal
/-!
# Hidden fields when structs are written
-/
set_option linter.unusedSimpArgs false

namespace Verif.HclS

/-- **C75, if hidden fields do not make a struct zero.** The outcome of `Marshal` does not depend on unexported fields and on fields
marked with `-`, at any depth, for the same iteration order.  What is external (`gohcl`, and `encoding` for generic data) is
assumed not to depend on them either.  Missing for the full claim: structs that are zero but for hidden fields, for which it
is false. -/
theorem C75_partial {env : Env} {pe : PExt} (hb : Blind env pe) {v v' : Val} (h : v.agrees env pe v') :
    marshalVal env pe v = marshalVal env pe v' :=
  levelText_agrees hb (d := v.depth) (d' := v'.depth)
    (fun path level keys addr c fs fs' => marshalN_agrees hb v.depth v'.depth path level keys addr c fs fs') h (Nat.le_refl _) (Nat.le_refl _)

namespace Demo

def fNote := { fld "note" "note" .str with upper := false }
def fSkip := fld "Skip" "-" (.struct 2)
def fList := fld "List" "list,block" (.slice (.struct 12))

/-- With hidden fields. -/
def env5 : Env where
  struct
    | 12 => ⟨b "main.Hidden", [fVal, fNote, fSkip], [(b "Val", .str), (b "note", .str), (b "Skip", .struct 2)]⟩
    | 13 => ⟨b "main.Holder", [fName, fList], [(b "Name", .str), (b "List", fList.ty)]⟩
    | n => env3.struct n
  impl _ _ := false
  name _ := b "?"

def hidden (val note skip : String) : Val :=
  .inst 12 [(b "Val", .str (b val)), (b "note", .str (b note)), (b "Skip", .inst 2 [(b "Val", .str (b skip))])]
def holder (x : Val) : Val := .ref 13 [(b "Name", .str (b "n")), (b "List", .slice [x])]

theorem visible12 {k : Bytes} (h : Visible env5 pe 12 k) : k = b "Val" := by
  obtain ⟨f, hf, hu, ht, rfl⟩ := h
  have hf' : f = fVal ∨ f = fNote ∨ f = fSkip := by simpa [env5, written, pe] using hf
  rcases hf' with rfl | rfl | rfl
  · rfl
  · exact absurd hu (by decide +kernel)
  · exact absurd (by decide +kernel) ht

theorem holder_agrees : (holder (hidden "1" "x" "y")).agrees env5 pe (holder (hidden "1" "" "z")) := by
  refine ⟨_, rfl, _, _, rfl, fun _ => rfl, _, _, rfl, fun _ => ⟨_, rfl, _, _, rfl, ?_, rfl⟩, rfl⟩
  refine ⟨_, rfl, by rw [← allZero_iff, ← allZero_iff]; decide +kernel, _, _, rfl, fun _ => rfl, _, _, rfl, fun h => ?_, _, _, rfl, fun h => ?_, rfl⟩
  · exact absurd (visible12 h) (by decide +kernel)
  · exact absurd (visible12 h) (by decide +kernel)

theorem blind5 : Blind env5 pe := by
  refine fun v v' h => ⟨fun _ => rfl, fun f => ?_⟩
  cases v with
  | str s => rw [show v' = .str s from h]
  | leaf n => rw [show v' = .leaf n from h]
  | ref c fs => obtain ⟨fs', rfl, _⟩ := h; rfl
  | inst c fs => obtain ⟨fs', rfl, _, _⟩ := h; rfl
  | slice l => obtain ⟨l', rfl, _⟩ := h; rfl
  | map m => obtain ⟨m', rfl, _⟩ := h; rfl
  | map2 m => obtain ⟨m', rfl, _⟩ := h; rfl

end Demo

-- `C75_partial` for a struct in a slice.
example : marshalVal Demo.env5 Demo.pe (Demo.holder (Demo.hidden "1" "x" "y")) = marshalVal Demo.env5 Demo.pe (Demo.holder (Demo.hidden "1" "" "z")) :=
  C75_partial Demo.blind5 Demo.holder_agrees

-- What is written.
example : marshalVal Demo.env5 Demo.pe (Demo.holder (Demo.hidden "1" "x" "y")) = .ok (b "  name = \"n\"\n  list {\n    val = \"1\"\n  }") := rfl

/-- **C75 is violated.** A struct in a slice that is zero but for a hidden field is written as an empty block; without the hidden
content it is left out. -/
theorem C75_violated :
    marshalVal Demo.env5 Demo.pe (Demo.holder (Demo.hidden "" "x" "")) = .ok (b "  name = \"n\"\n  list {\n\n  }") ∧
    marshalVal Demo.env5 Demo.pe (Demo.holder (Demo.hidden "" "" "")) = .ok (b "  name = \"n\"") :=
  ⟨rfl, rfl⟩

end Verif.HclS
