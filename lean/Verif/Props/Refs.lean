import Verif.Lemmas.Refs
import Verif.Check.RefsDemo
/-!
# References in documents that are decoded into structs
-/

namespace Verif.HclS
open Verif.Tree (Heap Walk Stored Named)
open Hcl (Cty Expr)
open Det (Cls CVal KeyTy insertK ltB)

theorem sane_default {N : Bytes → Prop} {h : Heap Cty} {root : Option Nat} (hi : Tree.Inv h) (hf : Free N h) (hr : ∀ r, root = some r → Named h r Tree.VAR) :
    Sane N (defaultTree h root).1 ∧ Named (defaultTree h root).1 (defaultTree h root).2 Tree.VAR := by
  cases root with
  | some r => exact ⟨⟨hi, hf⟩, hr r rfl⟩
  | none =>
    refine ⟨⟨hi.newTree _, ?_⟩, ⟨⟨Tree.VAR, [], none, []⟩, by simp [defaultTree, Tree.newTree], rfl⟩⟩
    rintro i k v ⟨nd, h1, h2⟩
    simp only [defaultTree, Tree.newTree] at h1
    by_cases hlt : i < h.length
    · rw [List.getElem?_append_left hlt] at h1
      exact hf i k v ⟨nd, h1, h2⟩
    · rw [List.getElem?_append_right (by omega)] at h1
      rw [List.getElem?_singleton] at h1
      split at h1
      · cases h1; cases h2
      · cases h1

/-- **C134, proved part.** A reference to an attribute of an enclosing body - by the types and labels of the blocks from the outermost
one and the name of the attribute, joined by dots, with or without `var.` in front - means the same as the value of that attribute: the
document in which such references are replaced by the literals leads to exactly the same call, with the same target, outcome, tree,
`ref` and specification.  This holds for every iteration order.

Missing: references to attributes that stand beside the reference, and documents with blocks or attributes for generic fields, where
it is false (see below); attributes whose names are also types or labels of blocks; references to attributes that are not literals after
replacing (function calls); references in text that is parsed again (attributes that stand for blocks). -/
theorem C134_partial {env : Env} {ext : Ext} {N G : Bytes → Prop} {doc doc' : Body} {n cls : Nat} {target : Fields}
    {spec : Option (List (Bytes × CVal))} {st : St} {root : Option Nat} {labels : List Bytes}
    (hord : ∀ p l, (ext.ord p l).Perm l) (hG : GenericTags env ext G) (hdoc : Inner ext N G (fun _ _ => False) (some []) doc doc')
    (hinv : Tree.Inv st.heap) (hfree : Free N st.heap) (hroot : ∀ r, root = some r → Named st.heap r Tree.VAR) :
    unmarshalSpec env ext n (some doc) cls target spec st root labels = unmarshalSpec env ext n (some doc') cls target spec st root labels := by
  obtain ⟨hs, hr⟩ := sane_default (root := root) hinv hfree hroot
  have hlt : (defaultTree st.heap root).2 < (defaultTree st.heap root).1.length := by
    obtain ⟨nd, hnd, _⟩ := hr
    exact Tree.lt_of_get hnd
  have hk : Known ext N (fun _ _ => False) (defaultTree st.heap root).2 (defaultTree st.heap root).2 (defaultTree st.heap root).1 :=
    fun _ _ h => h.elim
  have hw : ∀ q, some ([] : List Bytes) = some q → Walk (defaultTree st.heap root).1 (defaultTree st.heap root).2 q (defaultTree st.heap root).2 ∧
      ∀ x ∈ q, N x := by
    intro q hq
    cases hq
    exact ⟨.nil _, fun x hx => by cases hx⟩
  have h1 := (decode_in hord hG (n + 1) _ _ _ _ hdoc ⟨(defaultTree st.heap root).1, st.ref⟩ _ hs hr hlt hk hw [] cls target (spec.getD []) labels).1
  have h2 : specAfter env ext n (defaultTree st.heap root).2 ⟨(defaultTree st.heap root).1, st.ref⟩ cls spec doc =
      specAfter env ext n (defaultTree st.heap root).2 ⟨(defaultTree st.heap root).1, st.ref⟩ cls spec doc' := by
    cases spec with
    | none => rfl
    | some obj =>
      simp only [specAfter, Option.map_some]
      rw [(prelude_in (st := ⟨(defaultTree st.heap root).1, st.ref⟩) hord hG hdoc hs hr hk hw n cls obj []).1]
  simp only [unmarshalSpec, h1, h2]

namespace RefsDemo
open Verif.HclS.Demo (str)

def names : Bytes → Prop := fun k => k ∈ [b "host", b "a", b "port"]

theorem attr_same {σ : Scope} (a : Bytes × Attr) : AttrIn σ a a := ⟨rfl, rfl, .same⟩

theorem val_free : ¬ names (b "val") ∧ ¬ b "val" = b "conf" ∧ b "val" ≠ [] := by unfold names; decide +kernel

/-- One port of the host: a reference is replaced. -/
theorem port_in {σ : Scope} {p : Option (List Bytes)} {r v : String} (h : σ (b r) (.str (b v))) :
    Inner ext names (fun k => k = b "conf") σ p (.mk [ref "val" r] []) (.mk [str "val" v] []) :=
  .mk (.cons ⟨rfl, rfl, .ref h⟩ .nil) (by simp only [List.mem_singleton]; rintro a rfl; exact val_free)
    rfl (fun x hx => by cases hx) (fun i x x' hx => by cases hx)
    (by simp only [List.mem_singleton]; rintro a rfl blk hb; cases hb)

theorem doc_in : Inner ext names (fun k => k = b "conf") (fun _ _ => False) (some []) doc doc' := by
  refine .mk (.cons (attr_same _) .nil) ?_ rfl ?_ ?_ ?_
  · simp only [List.mem_singleton]; rintro a rfl; exact ⟨by unfold names; decide +kernel, by decide +kernel, by decide +kernel⟩
  · simp only [List.mem_singleton]; rintro x rfl
    exact ⟨by decide +kernel, by decide +kernel, by unfold names; decide +kernel, by unfold names; decide +kernel⟩
  · intro i x x' hx hx'
    rcases i with _ | i
    · cases hx; cases hx'
      refine .mk (.cons (attr_same _) .nil) ?_ rfl ?_ ?_ ?_
      · simp only [List.mem_singleton]; rintro a rfl; exact ⟨by unfold names; decide +kernel, by decide +kernel, by decide +kernel⟩
      · intro x hx
        simp only [List.mem_cons, List.not_mem_nil, or_false] at hx
        rcases hx with rfl | rfl | rfl <;>
          exact ⟨by decide +kernel, by decide +kernel, by unfold names; decide +kernel, by unfold names; decide +kernel⟩
      · have own : ∀ r, RefTo [b "host", b "a", b "addr"] r →
            enter (enter (fun _ _ => False) (some []) [str "name" "z"]) (some ([] ++ b "host" :: [b "a"])) [str "addr" "1.2.3.4"] r (.str (b "1.2.3.4")) :=
          fun r hr => Or.inr ⟨_, b "addr", _, rfl, rfl, .str, rfl, hr⟩
        have words : ∀ x ∈ [b "host", b "a", b "addr"], Word x := by
          intro x hx
          simp only [List.mem_cons, List.not_mem_nil, or_false] at hx
          rcases hx with rfl | rfl | rfl <;> exact ⟨by decide +kernel, by decide +kernel⟩
        intro i x x' hx hx'
        rcases i with _ | _ | _ | i
        · cases hx; cases hx'
          exact port_in (own _ (.plain words (by decide +kernel)))
        · cases hx; cases hx'
          refine port_in (Or.inl (Or.inr ⟨[], b "name", _, rfl, rfl, .str, rfl, .var (ks := []) ?_⟩))
          intro x hx
          rw [List.mem_singleton.1 hx]
          exact ⟨by decide +kernel, by decide +kernel⟩
        · cases hx; cases hx'
          exact port_in (own _ (.var words))
        · cases hx
      · simp only [List.mem_singleton]; rintro a rfl blk hb; cases hb
    · cases hx
  · simp only [List.mem_singleton]; rintro a rfl blk hb; cases hb

theorem generic_tags : GenericTags env ext fun k => k = b "conf" := by
  intro c f hf e he hk
  rcases c with _ | _ | _ | c
  · simp only [env, List.mem_cons, List.not_mem_nil, or_false] at hf
    rcases hf with rfl | rfl | rfl
    · rcases he with he | ⟨k, he⟩ <;> cases he
    · decide +kernel
    · rcases he with he | ⟨k, he⟩ <;> cases he
      cases hk
  · simp only [env, List.mem_cons, List.not_mem_nil, or_false] at hf
    rcases hf with rfl | rfl | rfl
    · rcases he with he | ⟨k, he⟩ <;> cases he
    · rcases he with he | ⟨k, he⟩ <;> cases he
    · rcases he with he | ⟨k, he⟩ <;> cases he
      cases hk
  · simp only [env, List.mem_singleton] at hf
    subst hf
    rcases he with he | ⟨k, he⟩ <;> cases he
  · simp [env] at hf

theorem empty_inv : Tree.Inv ([] : Heap Cty) := by
  refine ⟨?_, ?_, ?_⟩ <;> intro i nd h <;> cases h

end RefsDemo

-- The references to the attributes of the zone and of the host.
example : RefsDemo.run RefsDemo.ext RefsDemo.doc = RefsDemo.run RefsDemo.ext RefsDemo.doc' :=
  C134_partial (fun _ l => .refl l) RefsDemo.generic_tags RefsDemo.doc_in RefsDemo.empty_inv (by rintro i k v ⟨nd, h, _⟩; cases h)
    (fun r h => by cases h)

example : (RefsDemo.run RefsDemo.ext RefsDemo.doc).target =
    [(b "Name", .str (b "z")), (b "Conf", .leaf 0), (b "Hosts", .map [(b "a", .ref 1 [(b "Addr", .str (b "1.2.3.4")), (b "Alias", .str []),
      (b "Ports", .slice [.ref 2 [(b "Val", .str (b "1.2.3.4"))], .ref 2 [(b "Val", .str (b "z"))], .ref 2 [(b "Val", .str (b "1.2.3.4"))]])])])] := rfl

/-- A host whose alias is its address. -/
def RefsDemo.siblings (other : Bytes × Attr) : Body :=
  .mk [] [(b "host", [b "a"], .mk [Demo.str "addr" "1.2.3.4", other] [])]

/-- **C134 is violated** for references to attributes of the same body: whether they can be resolved depends on the iteration order of a
map. -/
theorem C134_violated_sibling :
    (RefsDemo.run RefsDemo.ext (RefsDemo.siblings (RefsDemo.ref "alias" "host.a.addr"))).target =
      (RefsDemo.run RefsDemo.ext (RefsDemo.siblings (Demo.str "alias" "1.2.3.4"))).target ∧
    (RefsDemo.run { RefsDemo.ext with ord := fun _ l => l.reverse } (RefsDemo.siblings (RefsDemo.ref "alias" "host.a.addr"))).outcome = .error .err ∧
    (RefsDemo.run { RefsDemo.ext with ord := fun _ l => l.reverse } (RefsDemo.siblings (Demo.str "alias" "1.2.3.4"))).outcome = .ok () :=
  ⟨rfl, rfl, rfl⟩

end Verif.HclS
