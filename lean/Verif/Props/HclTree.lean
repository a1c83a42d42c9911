import Verif.Lemmas.HclTreePlain
import Verif.Check.HclTreeDemo
import Verif.Props.HclText
import Verif.Props.Refs
/-!
# References in generic data
-/

namespace Verif.HclS
open Verif.Tree (Heap Walk Stored Named)
open Hcl (Cty Expr GV)
open Det (insertK ltB)

theorem saneR_default {N : Bytes → Prop} {h : Heap Cty} {root : Option Nat} (hi : Tree.Inv h)
    (hr : ∀ r, root = some r → Named h r Tree.VAR ∧ FreeFrom N h r) :
    SaneR N (defaultTree h root).2 (defaultTree h root).1 ∧ Named (defaultTree h root).1 (defaultTree h root).2 Tree.VAR := by
  cases root with
  | some r => exact ⟨⟨hi, (hr r rfl).2⟩, (hr r rfl).1⟩
  | none =>
    have hi' := hi.newTree Tree.VAR
    have hget : (Tree.newTree h Tree.VAR).1[h.length]? = some ⟨Tree.VAR, [], none, []⟩ := by simp [Tree.newTree]
    refine ⟨⟨hi', ?_⟩, ⟨⟨Tree.VAR, [], none, []⟩, hget, rfl⟩⟩
    have hroot : ∀ q j, Walk (Tree.newTree h Tree.VAR).1 h.length q j → j = h.length := by
      intro q j hw
      cases hw with
      | nil => rfl
      | cons hc _ =>
        obtain ⟨⟨nd, h1, h2⟩, _⟩ := hc
        rw [hget] at h1; cases h1; cases h2
    intro q j hw _ k v hs
    rw [hroot q j hw] at hs
    obtain ⟨nd, h1, h2⟩ := hs
    rw [show (defaultTree h none).1[h.length]? = _ from hget] at h1
    cases h1; cases h2

/-- **C135, proved part.** In generic data, a reference to an attribute of an enclosing body means the same as the value of that attribute:
the document in which such references are replaced by the literals gives exactly the same map or failure, and leaves the same tree.  The
reference is the names from the outermost block to the attribute, joined by dots, with or without `var.` in front; the names of a block are
its type and labels, or its type and its number among the blocks of that type without labels.  This holds for every iteration order.

Missing: references to lists, objects and `null()` and to attributes that stand beside the reference, where it is false (see below); attributes
whose names are also types, labels or numbers of blocks; references to attributes that are not literals after replacing. -/
theorem C135_partial {ext : Ext} {N : Bytes → Prop} {doc doc' : Hcl.Body} {h : Heap Cty} {root : Option Nat} {target : List (Bytes × GV)}
    (hord : ∀ p l, (ext.ord p l).Perm l) (hdoc : InnerG N (fun _ _ => False) [] doc doc') (hinv : Tree.Inv h)
    (hroot : ∀ r, root = some r → Named h r Tree.VAR ∧ FreeFrom N h r) :
    unmarshalBody ext h root doc target = unmarshalBody ext h root doc' target := by
  obtain ⟨hs, hr⟩ := saneR_default (N := N) hinv hroot
  have c : Ctx ext N (fun _ _ => False) (defaultTree h root).2 0 [] (defaultTree h root).2 (defaultTree h root).1 :=
    ⟨hs, hr, .nil _, (fun x hx => by cases hx), (fun _ _ h => h.elim)⟩
  have := (Run.map (bodyT_in hord hdoc (fun _ _ h => h.elim) 0 []) (fun obj => obj.foldl (fun t e => insertK ltB e.1 e.2 t) target) _ _ c (Nat.zero_le _)).1
  exact this

namespace TreeDemo

def names : Bytes → Prop := fun k => k ∈ [b "host", b "port", b "disk", b "part", b "a", b "b", b "p", b "0", b "1"]

instance (k : Bytes) : Decidable (names k) := by unfold names; infer_instance

theorem words {l : List Bytes} (h : (l.all fun x => decide (46 ∉ x) && decide (x ≠ Tree.VAR)) = true) : ∀ x ∈ l, Word x := by
  intro x hx
  have := List.all_eq_true.1 h x hx
  simp only [Bool.and_eq_true, decide_eq_true_eq] at this
  exact ⟨this.1, this.2⟩

theorem same_in {σ : Scope} : ∀ l : List (Bytes × Expr), List.Forall₂ (fun a a' => a.1 = a'.1 ∧ Repl σ a.2 a'.2) l l
  | [] => .nil
  | _ :: l => .cons ⟨rfl, .same⟩ (same_in l)

theorem names_of {l : List (Bytes × Expr)} (h : (l.all fun a => decide (¬ names a.1)) = true) : ∀ a ∈ l, ¬ names a.1 := by
  intro a ha
  simpa using List.all_eq_true.1 h a ha

/-- A block with one attribute. -/
theorem leaf_in {σ : Scope} {p : List Bytes} {e e' : Expr} (h : Repl σ e e') : InnerG names σ p (.mk [(b "val", e)] []) (.mk [(b "val", e')] []) :=
  .mk (.cons ⟨rfl, h⟩ .nil) (by simp only [List.mem_singleton]; rintro a rfl; show ¬ names (b "val"); decide +kernel) rfl (fun i x hx => by cases hx) (fun i x x' hx => by cases hx)

theorem doc_in : InnerG names (fun _ _ => False) [] doc doc' := by
  refine .mk (same_in _) (names_of (by decide +kernel)) rfl ?_ ?_
  · intro i x hx
    rcases i with _ | _ | i
    · cases hx; decide +kernel
    · cases hx; decide +kernel
    · cases hx
  · intro i x x' hx hx'
    rcases i with _ | _ | i
    · cases hx; cases hx'
      refine .mk (same_in _) (names_of (by decide +kernel)) rfl ?_ ?_
      · intro i x hx
        rcases i with _ | _ | i
        · cases hx; decide +kernel
        · cases hx; decide +kernel
        · cases hx
      · intro i x x' hx hx'
        rcases i with _ | _ | i
        · cases hx; cases hx'; exact leaf_in .same
        · cases hx; cases hx'
          exact leaf_in (.ref (Or.inr ⟨b "addr", rfl, .str, .plain (k := b "host") (ks := [b "0", b "addr"]) (words (by decide +kernel)) (by decide +kernel)⟩))
        · cases hx
    · cases hx; cases hx'
      refine .mk (.cons ⟨rfl, .same⟩ (.cons ⟨rfl, .tuple rfl ?_⟩ .nil)) (names_of (by decide +kernel)) rfl ?_ ?_
      · intro i e e' he he'
        rcases i with _ | _ | i
        · cases he; cases he'
          exact .ref (Or.inr ⟨b "name", rfl, .str, .var (k := b "name") (ks := []) (words (by decide +kernel))⟩)
        · cases he; cases he'; exact .same
        · cases he
      · intro i x hx
        rcases i with _ | i
        · cases hx; decide +kernel
        · cases hx
      · intro i x x' hx hx'
        rcases i with _ | i
        · cases hx; cases hx'
          exact leaf_in (.ref (Or.inr ⟨b "size", rfl, .num,
            .plain (k := b "disk") (ks := [b "a", b "b", b "size"]) (words (by decide +kernel)) (by decide +kernel)⟩))
        · cases hx
    · cases hx

end TreeDemo

-- References to the address of the first host, to the name of the zone from inside a list, and to a block with two labels.
example : unmarshalBody TreeDemo.ext [] none TreeDemo.doc [] = unmarshalBody TreeDemo.ext [] none TreeDemo.doc' [] :=
  C135_partial (fun _ l => .refl l) TreeDemo.doc_in RefsDemo.empty_inv (fun r h => by cases h)

/-- **C135 is violated** for a reference to a list: it gives an object with the numbers as keys. -/
theorem C135_violated_list :
    TreeDemo.run TreeDemo.ext (.mk [(b "l", .tuple [.num 1, .num 2])] [(b "host", [], .mk [TreeDemo.ref "m" "l"] [])]) =
      .ok [(b "host", .map [(b "m", .map [(b "0", .int 1), (b "1", .int 2)])]), (b "l", .list [.int 1, .int 2])] ∧
    TreeDemo.run TreeDemo.ext (.mk [(b "l", .tuple [.num 1, .num 2])] [(b "host", [], .mk [(b "m", .tuple [.num 1, .num 2])] [])]) =
      .ok [(b "host", .map [(b "m", .list [.int 1, .int 2])]), (b "l", .list [.int 1, .int 2])] := by
  refine ⟨?_, ?_⟩ <;> rfl

/-- **C135 is violated** for a reference to an attribute that is `null()`: it fails, although the attribute is there. -/
theorem C135_violated_null :
    TreeDemo.run TreeDemo.ext (.mk [(b "l", .call (b "null"))] [(b "host", [], .mk [TreeDemo.ref "m" "l"] [])]) = .error .err ∧
    TreeDemo.run TreeDemo.ext (.mk [(b "l", .call (b "null"))] [(b "host", [], .mk [(b "m", .call (b "null"))] [])]) =
      .ok [(b "host", .map [(b "m", .nil)]), (b "l", .nil)] := by
  refine ⟨?_, ?_⟩ <;> rfl

/-- **C135 is violated** for a reference to an attribute beside it: whether it can be resolved depends on the iteration order of a map. -/
theorem C135_violated_sibling :
    TreeDemo.run TreeDemo.ext (.mk [TreeDemo.str "k" "v", TreeDemo.ref "m" "k"] []) = .ok [(b "k", .str (b "v")), (b "m", .str (b "v"))] ∧
    TreeDemo.run { TreeDemo.ext with ord := fun _ l => l.reverse } (.mk [TreeDemo.str "k" "v", TreeDemo.ref "m" "k"] []) = .error .err := by
  refine ⟨?_, ?_⟩ <;> rfl

/-- **C136.** Generic data without references, from text: the tree that is given does not matter, and what is decoded is what
`Model/HclDecode` says, which has no tree.  So all that is proved there (C47-C51) is also true with a tree. -/
theorem C136 {ext : Ext} {h : Heap Cty} {root : Option Nat} {text : Bytes} {target : List (Bytes × GV)} (hlit : LitText text)
    (hinv : Tree.Inv h) (hroot : ∀ r, root = some r → r < h.length) :
    (unmarshalMapT ext h root text target).map Prod.fst = outE (Hcl.unmarshalMap ext.plain text target) := by
  have hd : Tree.Inv (defaultTree h root).1 ∧ (defaultTree h root).2 < (defaultTree h root).1.length := by
    cases root with
    | some r => exact ⟨hinv, hroot r rfl⟩
    | none => exact ⟨hinv.newTree _, by simp [defaultTree, Tree.newTree]⟩
  exact (Plain.map (fun obj => obj.foldl (fun t e => insertK ltB e.1 e.2 t) target)
    (mapT_plain (ext := ext) (root := (defaultTree h root).2) hlit (defaultTree h root).2) _ hd.1 hd.2 hd.2).1

/-- **C136**, for lists. -/
theorem C136_slice {ext : Ext} {h : Heap Cty} {root : Option Nat} {text : Bytes} {target : List GV} (hlit : ∀ e, Hcl.parseX text = .ok e → Lit e)
    (hinv : Tree.Inv h) (hroot : ∀ r, root = some r → r < h.length) :
    (unmarshalSliceT ext h root text target).map Prod.fst = outE (Hcl.unmarshalSlice ext.plain text target) := by
  have hd : Tree.Inv (defaultTree h root).1 ∧ (defaultTree h root).2 < (defaultTree h root).1.length := by
    cases root with
    | some r => exact ⟨hinv, hroot r rfl⟩
    | none => exact ⟨hinv.newTree _, by simp [defaultTree, Tree.newTree]⟩
  exact (Plain.map (fun l => target ++ l) (sliceT_plain (ext := ext) (root := (defaultTree h root).2) hlit (defaultTree h root).2) _ hd.1 hd.2 hd.2).1

/-- **C136.** Two trees give the same. -/
theorem C136_trees {ext : Ext} {h h' : Heap Cty} {root root' : Option Nat} {text : Bytes} {target : List (Bytes × GV)} (hlit : LitText text)
    (hinv : Tree.Inv h) (hroot : ∀ r, root = some r → r < h.length) (hinv' : Tree.Inv h') (hroot' : ∀ r, root' = some r → r < h'.length) :
    (unmarshalMapT ext h root text target).map Prod.fst = (unmarshalMapT ext h' root' text target).map Prod.fst := by
  rw [C136 hlit hinv hroot, C136 hlit hinv' hroot']

/-- **C47 with a tree, proved part.** What `Marshal` writes for such data comes back equal, whatever tree is given. -/
theorem C47_tree {ext : Ext} (ho : ∀ p ks, (ext.ord p ks).Perm ks) {m : List (Bytes × GV)} (hne : m ≠ []) (hok : Hcl.okBody m)
    (hex : Hcl.exactM ext.nfc m) (hun : Hcl.uniformM m) {h : Heap Cty} {root : Option Nat} (hinv : Tree.Inv h) (hroot : ∀ r, root = some r → r < h.length) :
    ∃ t m', Hcl.marshal (.map m) = .ok (some t) ∧ (unmarshalMapT ext h root t []).map Prod.fst = .ok m' ∧ Hcl.Same (.map m) (.map m') := by
  obtain ⟨t, m', h1, h2, h3⟩ := Hcl.C47_partial (ext := ext.plain) ho hne hok hex hun
  obtain ⟨t', h4, hp⟩ := Hcl.marshal_body hok h1
  cases h4
  refine ⟨t, m', h1, ?_, h3⟩
  rw [C136 ⟨fun hb => absurd hb (Hcl.parse_brace hp), fun body hb => ?_⟩ hinv hroot, h2]
  · rfl
  · rw [hp] at hb; cases hb; exact bodyOf_lit m

/-- A document with a list and a block. -/
def TreeDemo.text : Bytes := b "a = [1, \"x\"]\nblk \"l\" {\n  c = true\n}\n"

theorem TreeDemo.text_lit : LitText TreeDemo.text := by
  refine ⟨fun h => absurd h (by decide +kernel), fun body hb => ?_⟩
  rw [show Hcl.parseConfig TreeDemo.text = .ok (.mk [(b "a", .tuple [.num 1, .str (b "x")])] [(b "blk", [b "l"], .mk [(b "c", .ident (b "true"))] [])]) by
    decide +kernel] at hb
  cases hb
  refine .mk ?_ ?_
  · simp only [List.mem_singleton]; rintro a rfl
    refine .tuple ?_
    simp only [List.mem_cons, List.not_mem_nil, or_false]
    rintro e (rfl | rfl)
    · exact .num
    · exact .str
  · simp only [List.mem_singleton]; rintro a rfl
    refine .mk ?_ (fun x hx => by cases hx)
    simp only [List.mem_singleton]; rintro a rfl
    exact .tru

/-- A tree with a variable of the same name. -/
def TreeDemo.tree : Heap Cty := [⟨Tree.VAR, [(b "a", .num 5)], none, []⟩]

theorem TreeDemo.tree_inv : Tree.Inv TreeDemo.tree := by
  refine ⟨?_, ?_, ?_⟩ <;> intro i nd h
  all_goals
    rcases i with _ | i
    · cases h
      first
        | exact .nil
        | exact List.nodup_singleton _
        | (intro c hc; cases hc)
    · cases h

example : (unmarshalMapT TreeDemo.ext TreeDemo.tree (some 0) TreeDemo.text []).map Prod.fst =
      outE (Hcl.unmarshalMap TreeDemo.ext.plain TreeDemo.text []) ∧
    (unmarshalMapT TreeDemo.ext TreeDemo.tree (some 0) TreeDemo.text []).map Prod.fst = (unmarshalMapT TreeDemo.ext [] none TreeDemo.text []).map Prod.fst :=
  ⟨C136 TreeDemo.text_lit TreeDemo.tree_inv (fun r h => by cases h; decide),
    C136_trees TreeDemo.text_lit TreeDemo.tree_inv (fun r h => by cases h; decide) RefsDemo.empty_inv (fun r h => by cases h)⟩

example : (unmarshalMapT TreeDemo.ext TreeDemo.tree (some 0) TreeDemo.text []).map Prod.fst =
    .ok [(b "a", .list [.int 1, .str (b "x")]), (b "blk", .map [(b "l", .map [(b "c", .bool true)])])] := by
  decide +kernel

example : (unmarshalSliceT TreeDemo.ext TreeDemo.tree (some 0) (b "[1, null()]") []).map Prod.fst =
    outE (Hcl.unmarshalSlice TreeDemo.ext.plain (b "[1, null()]") []) := by
  refine C136_slice (fun e he => ?_) TreeDemo.tree_inv (fun r h => by cases h; decide)
  have : Hcl.parseX (b "[1, null()]") = .ok (.tuple [.num 1, .call (b "null")]) := by
    have h : Hcl.parseConfig (b "x = " ++ b "[1, null()]") = .ok (.mk [(b "x", .tuple [.num 1, .call (b "null")])] []) := by decide +kernel
    rw [Hcl.parseX, h]
    rfl
  rw [this] at he
  cases he
  refine .tuple ?_
  simp only [List.mem_cons, List.not_mem_nil, or_false]
  rintro e (rfl | rfl)
  · exact .num
  · exact .nullCall

example : ∃ t m', Hcl.marshal (.map Hcl.exData) = .ok (some t) ∧
    (unmarshalMapT { TreeDemo.ext with ord := fun _ l => l.reverse } TreeDemo.tree (some 0) t []).map Prod.fst = .ok m' ∧ Hcl.Same (.map Hcl.exData) (.map m') :=
  C47_tree (fun _ _ => List.reverse_perm _) (by decide) Hcl.exOk Hcl.exExact Hcl.exUniform TreeDemo.tree_inv (fun r h => by cases h; decide)

/-- The value of the only port. -/
def RefsDemo.portOf (a : After) : Option Val :=
  match GoMap.get? a.target (b "Hosts") with
  | some (.map [(_, .ref _ [_, _, (_, .slice [.ref _ [(_, v)]])])]) => some v
  | _ => none

/-- **C134 is violated** for documents with a generic field: its members are stored as if they were attributes of the enclosing body, so that
`var.name` is the `name` inside the field, and not the attribute `name`. -/
theorem C134_violated_generic :
    RefsDemo.portOf (RefsDemo.run RefsDemo.extG (RefsDemo.generic (RefsDemo.ref "val" "var.name"))) = some (.str (b "inner")) ∧
    GoMap.get? (RefsDemo.run RefsDemo.extG (RefsDemo.generic (RefsDemo.ref "val" "var.name"))).target (b "Name") = some (.str (b "outer")) ∧
    RefsDemo.portOf (RefsDemo.run RefsDemo.extG (RefsDemo.generic (Demo.str "val" "outer"))) = some (.str (b "outer")) := by
  refine ⟨?_, ?_, ?_⟩ <;> rfl

end Verif.HclS
