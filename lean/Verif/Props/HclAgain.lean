import Verif.Lemmas.HclAgain
import Verif.Lemmas.HclEq
/-!
# Property C157: lists and objects that are parsed again read the same

The specification is `Model/HclDecode`, which takes the values from the syntax tree of the whole document and knows no ranges.
-/
namespace Verif.HclAgain
open Hcl

namespace Demo

def ext : Ext := { nfc := id, eval := fun _ => .err, ord := fun _ ks => ks }

/-- Lists and objects in one another, strings with brackets in them, newlines. -/
def doc : Bytes := b "k = [1, {a = [\"]\", true],\n  \"b}\" : []\n}]\nblk \"l\" {\n  m = { n = [[2]] }\n}\n"
def list : Bytes := b "[1,\n [2, [3]], {a = [\"[\"]}]"
def object : Bytes := b " {a = [1, [2]], c = {d = \"}\"}} "

def res : List (Bytes × GV) :=
  [(b "blk", .map [(b "l", .map [(b "m", .map [(b "n", .list [.list [.int 2]])])])]),
   (b "k", .list [.int 1, .map [(b "a", .list [.str (b "]"), .bool true]), (b "b}", .nilList)]])]

mutual
/-- The ranges of the lists and objects inside of an expression. -/
def ranges : PExpr → List (Nat × Nat)
  | .tuple lo hi l => (lo, hi) :: rangesL l
  | .object lo hi m => (lo, hi) :: rangesM m
  | _ => []
def rangesL : List PExpr → List (Nat × Nat)
  | [] => []
  | e :: l => ranges e ++ rangesL l
def rangesM : List (PExpr × PExpr) → List (Nat × Nat)
  | [] => []
  | (_, e) :: m => ranges e ++ rangesM m
end

end Demo

/-- C157 for maps: parsing the text of each list and object again ends, and gives what the syntax tree of the document says; also for texts that are refused. -/
theorem C157_map (bs : Bytes) : ∃ N, ∀ (ext : Ext) (n : Nat) (target : List (Bytes × GV)), N ≤ n → unmarshalMap ext n bs target = Hcl.unmarshalMap ext bs target := by
  obtain ⟨N, h⟩ := map_again bs
  refine ⟨N, fun ext n target hn => ?_⟩
  unfold unmarshalMap Hcl.unmarshalMap
  rw [h ext n hn]

example : unmarshalMap Demo.ext 5 Demo.doc [] = .ok Demo.res := by decide +kernel
example : unmarshalMap Demo.ext 3 Demo.object [] = .ok [(b "a", .list [.int 1, .list [.int 2]]), (b "c", .map [(b "d", .str (b "}"))])] := by decide +kernel

/-- C157 for slices. -/
theorem C157_slice (bs : Bytes) : ∃ N, ∀ (ext : Ext) (n : Nat) (target : List GV), N ≤ n → unmarshalSlice ext n bs target = Hcl.unmarshalSlice ext bs target := by
  obtain ⟨N, h⟩ := slice_again bs
  refine ⟨N, fun ext n target hn => ?_⟩
  unfold unmarshalSlice Hcl.unmarshalSlice
  rw [h ext n hn]

example : unmarshalSlice Demo.ext 3 Demo.list [] = .ok [.int 1, .list [.int 2, .list [.int 3]], .map [(b "a", .list [.str (b "[")])]] := by decide +kernel

/-- C157, the pieces: the text of each list in a document, however deep in blocks, lists and objects, is itself a text of a slice, with the elements that the list has in
the document. -/
theorem C157_list_text (ext : Ext) {file : Bytes} {body : PBody} (h : parseConfigP file = .ok body) {e : PExpr} (he : e ∈ exprs body) {lo hi : Nat} {l : List PExpr}
    (hin : Inside (.tuple lo hi l) e) : Hcl.unmarshalSlice ext (cut file lo hi) [] = nativeL ext (eraseL l) := by
  unfold Hcl.unmarshalSlice decodeSlice
  rw [again_tuple (hin.parsed (config_parsed h e he))]
  show (nativeL ext (eraseL l)).map _ = _
  cases nativeL ext (eraseL l) <;> rfl

/-- C157, the pieces: the text of each object is itself a text of a map, with its members. -/
theorem C157_object_text (ext : Ext) {file : Bytes} {body : PBody} (h : parseConfigP file = .ok body) {e : PExpr} (he : e ∈ exprs body) {lo hi : Nat}
    {m : List (PExpr × PExpr)} (hin : Inside (.object lo hi m) e) : decodeMap ext (cut file lo hi) = nativeO ext (eraseM m) [] := by
  obtain ⟨⟨w, hw⟩, hx⟩ := again_object (hin.parsed (config_parsed h e he))
  unfold decodeMap
  rw [hw, trimSpace_braces, if_neg (by intro h; cases h), if_pos ⟨rfl, by rw [← List.cons_append, List.getLast?_append]; rfl⟩, ← hw, hx]
  rfl

/-- The hypotheses are met by all lists and objects of the example. -/
example : (parseConfigP Demo.doc).toOption.map (fun body => (exprs body).map Demo.ranges) = some [[(4, 40), (8, 39), (13, 24), (35, 37)], [(57, 70), (63, 68), (64, 67)]] := by
  decide +kernel
example : cut Demo.doc 4 40 = b "[1, {a = [\"]\", true],\n  \"b}\" : []\n}]" ∧ cut Demo.doc 13 24 = b "[\"]\", true]" ∧ cut Demo.doc 64 67 = b "[2]" := by decide +kernel
example : Hcl.unmarshalSlice Demo.ext (cut Demo.doc 13 24) [] = .ok [.str (b "]"), .bool true] := by decide +kernel

end Verif.HclAgain
