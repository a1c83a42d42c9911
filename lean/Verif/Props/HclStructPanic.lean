import Verif.Props.HclStructTotal
import Verif.Lemmas.HclStructPanic
/-!
# Decoding HCL into a struct: when it does not panic
-/
set_option linter.unusedSimpArgs false

namespace Verif.HclS
open Tree (Heap)
open Hcl (Cty Expr)
open Det (Cls CVal KeyTy insertK ltB)

/-- **C62, partial.** Decoding does not panic if: fields have distinct names, those of untagged structs are promoted, and labels
are strings; `ref` contains pointers to structs (or nil), type names standing for their types; keys of objects are names or
quoted texts, and labels given as attributes are strings; for each field that is given by blocks the specification (its own or
the given one) has a class that can be stored in it, maps get a label, and the same holds in the blocks.  What is external
(`Quiet`, `DynAdds`, the map orders) must not panic either. -/
theorem C62_partial {env : Env} {ext : Ext} {names : Bytes → Option Nat} {n cls : Nat} {body : Option Body} {target : Fields}
    {spec : Option (List (Bytes × CVal))} {st : St} {root : Option Nat} {labels : List Bytes}
    (hord : ∀ p l, (ext.ord p l).Perm l) (hcalm : Quiet ext) (hdyn : DynAdds ext) (htypes : TypesOk env names)
    (hinv : Tree.Inv st.heap) (hroot : ∀ r, root = some r → r < st.heap.length) (href : RefOk env names st.ref)
    (htarget : HasFields env cls target) (hbody : ∀ x, body = some x → Fine env ext names cls (spec.getD []) x) :
    (unmarshalSpec env ext n body cls target spec st root labels).outcome ≠ .error .panic := by
  obtain ⟨hi, hle⟩ := defaultTree_step st.heap root hinv
  have hr := defaultTree_root hroot
  generalize hd : defaultTree st.heap root = t at hi hr
  obtain ⟨h, r⟩ := t
  simp only [unmarshalSpec, hd]
  cases body with
  | none => simp
  | some x =>
    have := (decode_safe (root := r) hord hcalm hdyn htypes (n + 1) [] ⟨h, st.ref⟩ r cls target (spec.getD []) labels x hi href hr hr
      htarget (hbody x rfl)).1
    simp only
    generalize decode env ext r (n + 1) [] ⟨h, st.ref⟩ r cls target (spec.getD []) labels x = res at this
    obtain ⟨fs, out⟩ := res
    cases out with
    | ok st1 => simp
    | error e =>
      intro hh
      apply this
      cases hh
      rfl

/-! An example: blocks for a slice, for a map with a class per label, and for a map with two labels. -/

def Demo.names (s : Bytes) : Option Nat :=
  GoMap.get? [(b "Item", 1), (b "Other", 2), (b "main.Item", 1), (b "*main.Item", 1), (b "main.Other", 2), (b "*main.Other", 2)] s

def Demo.flatOf : Nat → List Fld
  | 4 => [Demo.fName, Demo.fId, Demo.fVal, Demo.fMap]
  | c => (Demo.env.struct c).fields

theorem Demo.flat_of (c n : Nat) : flat Demo.env n (Demo.env.struct c).fields = Demo.flatOf c ∨
    flat Demo.env n (Demo.env.struct c).fields = [Demo.fName, Demo.fMap] ∧ c = 4 := by
  rcases c with _ | _ | _ | _ | _ | c
  · exact Or.inl (by cases n <;> rfl)
  · exact Or.inl (by cases n <;> rfl)
  · exact Or.inl (by cases n <;> rfl)
  · exact Or.inl (by cases n <;> rfl)
  · rcases n with _ | n
    · exact Or.inr ⟨rfl, rfl⟩
    · exact Or.inl (by cases n <;> rfl)
  · exact Or.inl (by cases n <;> rfl)

theorem Demo.fieldOf {c : Nat} {f : Fld} (h : FieldOf Demo.env c f) : f ∈ Demo.flatOf c := by
  obtain ⟨n, h⟩ := h
  rcases Demo.flat_of c n with hf | ⟨hf, rfl⟩
  · rwa [hf] at h
  · rw [hf] at h
    simp only [Demo.flatOf, List.mem_cons, List.not_mem_nil, or_false] at h ⊢
    rcases h with h | h <;> simp [h]

theorem Demo.typesOk : TypesOk Demo.env Demo.names where
  distinct n c := by
    unfold DistinctNames
    rcases Demo.flat_of c n with hf | ⟨hf, _⟩ <;> rw [hf]
    · rcases c with _ | _ | _ | _ | _ | c
      all_goals first | decide +kernel | exact List.nodup_nil
    · decide +kernel
  here c f h _ := by
    have h := Demo.fieldOf h
    have key : ∀ c : Fin 5, ∀ f ∈ Demo.flatOf c, f.name ∈ (Demo.env.struct c).promoted.map Prod.fst := by decide +kernel
    by_cases hc : c < 5
    · exact key ⟨c, hc⟩ f h
    · obtain ⟨n, rfl⟩ : ∃ n, c = n + 5 := ⟨c - 5, by omega⟩
      cases h
  label c f h hl := by
    have h := Demo.fieldOf h
    have key : ∀ c : Fin 5, ∀ f ∈ Demo.flatOf c, lower f.what = b "label" → f.ty = .str := by decide +kernel
    by_cases hc : c < 5
    · exact key ⟨c, hc⟩ f h hl
    · obtain ⟨n, rfl⟩ : ∃ n, c = n + 5 := ⟨c - 5, by omega⟩
      cases h
  named c f h s c' v ho := by
    have h := Demo.fieldOf h
    have key : ∀ c : Fin 5, ∀ f ∈ Demo.flatOf c,
        f.ty = .str ∨ f.ty = Demo.fItems.ty ∨ f.ty = Demo.fTable.ty ∨ f.ty = Demo.fPairs.ty ∨ f.ty = Demo.fOne.ty ∨ f.ty = Demo.fMap.ty := by
      decide +kernel
    by_cases hc : c < 5
    · rcases key ⟨c, hc⟩ f h with h | h | h | h | h | h <;> rw [h] at ho
      · cases ho
      · cases ho with | slice h => cases h; decide +kernel
      · cases ho with | map _ h => cases h
      · cases ho with
        | map2 h => cases h; decide +kernel
        | map hk _ => exact absurd rfl hk
      · cases ho; decide +kernel
      · cases ho with | map _ h => cases h; decide +kernel
    · obtain ⟨n, rfl⟩ : ∃ n, c = n + 5 := ⟨c - 5, by omega⟩
      cases h

theorem Demo.refOk : RefOk Demo.env Demo.names Demo.ref0 := by
  intro s t h
  have hm := GoMap.get?_mem h
  simp only [Demo.ref0, List.mem_cons, Prod.mk.injEq, List.not_mem_nil, or_false] at hm
  have h1 : HasFields Demo.env 1 Demo.item := by unfold HasFields; decide +kernel
  have h2 : HasFields Demo.env 2 Demo.other := by unfold HasFields; decide +kernel
  rcases hm with ⟨rfl, rfl⟩ | ⟨rfl, rfl⟩
  · exact Or.inr ⟨1, Demo.item, rfl, by decide +kernel, h1⟩
  · exact Or.inr ⟨2, Demo.other, rfl, by decide +kernel, h2⟩

theorem Demo.quiet : Quiet Demo.ext where
  eval _ _ h := by cases h
  leaf _ v h := by cases v <;> cases h

theorem Demo.usual {c : Nat} {f : Fld} (h : FieldOf Demo.env c f) : Usual f.ty := by
  have h := Demo.fieldOf h
  have key : ∀ c : Fin 5, ∀ f ∈ Demo.flatOf c,
      f.ty = .str ∨ f.ty = Demo.fItems.ty ∨ f.ty = Demo.fTable.ty ∨ f.ty = Demo.fPairs.ty ∨ f.ty = Demo.fOne.ty ∨ f.ty = Demo.fMap.ty := by
    decide +kernel
  by_cases hc : c < 5
  · rcases key ⟨c, hc⟩ f h with h | h | h | h | h | h <;> rw [h]
    · exact .str
    · exact .slice .ptr
    · exact .generic (Or.inr rfl)
    · exact .map .ptr
    · exact .ptr (by simp) (by simp)
    · exact .map .struct
  · obtain ⟨n, rfl⟩ : ∃ n, c = n + 5 := ⟨c - 5, by omega⟩
    cases h

/-- Texts as attributes, without blocks: of the types with a label only if it is not among the attributes. -/
theorem Demo.fine_leaf (v : String) {c : Nat} (hc : c = 1 ∨ c = 2) : Fine Demo.env Demo.ext Demo.names c [] (Demo.leaf v) := by
  have hty : ∀ f, FieldOf Demo.env c f → f.ty = .str := by
    intro f h
    have h := Demo.fieldOf h
    have k1 : ∀ f ∈ Demo.flatOf 1, f.ty = .str := by decide +kernel
    have k2 : ∀ f ∈ Demo.flatOf 2, f.ty = .str := by decide +kernel
    rcases hc with rfl | rfl
    · exact k1 f h
    · exact k2 f h
  have hblk : ∀ {tag blk}, ¬ BlockFor Demo.ext [Demo.str "val" v] [] tag blk := by
    intro tag blk h
    cases h with
    | block h => cases h
    | attr h h' =>
      have hm := GoMap.get?_mem h
      simp only [Demo.str, List.mem_singleton, Prod.mk.injEq] at hm
      rw [hm.2] at h'
      cases h'
  refine .mk ?_ ?_ ?_ ?_ ?_ ?_ ?_ ?_
  · intro a ha
    rw [List.mem_singleton.1 ha]
    exact .str
  · intro f hf hl a ha vars w hw
    have hm := GoMap.get?_mem ha
    simp only [Demo.str, List.mem_singleton, Prod.mk.injEq] at hm
    rw [hm.2] at hw
    simp only [evalE] at hw
    cases hw
    exact Or.inr ⟨_, rfl⟩
  · intro f hf _ _ _
    exact Demo.usual hf
  · intro f hf hg
    rw [hty f hf] at hg
    rcases hg with hg | hg <;> cases hg
  · intro f hf hg
    rw [hty f hf] at hg
    rcases hg with hg | hg <;> cases hg
  · intro f w blk _ _ _ h; exact absurd h hblk
  · intro f w blk ety cls c' _ _ _ h; exact absurd h hblk
  · intro f w blk ety cls c' body _ _ _ h; exact absurd h hblk

/-- A document with blocks for a slice, for a map and for a map with two labels. -/
def Demo.severalBlocks : Body := .mk [Demo.str "name" "n"]
  [(b "items", [b "a"], Demo.leaf "1"), (b "table", [b "x"], Demo.leaf "2"), (b "table", [b "q"], Demo.leaf "3"),
   (b "pairs", [b "a", b "w"], Demo.leaf "4")]

theorem Demo.fine_severalBlocks : Fine Demo.env Demo.ext Demo.names 0 Demo.twoClasses Demo.severalBlocks := by
  have hmem : ∀ f, FieldOf Demo.env 0 f → f = Demo.fName ∨ f = Demo.fAlt ∨ f = Demo.fItems ∨ f = Demo.fTable ∨ f = Demo.fPairs ∨ f = Demo.fOne := by
    intro f h
    have h := Demo.fieldOf h
    simpa [Demo.flatOf, Demo.env] using h
  have hspec : ∀ f v, FieldOf Demo.env 0 f → SpecOf Demo.env Demo.twoClasses f v →
      f = Demo.fItems ∧ v = .list [.mk (b "*main.Item") []] ∨
      f = Demo.fTable ∧ v = .map [(b "x", .mk (b "Item") []), (b "w", .mk (b "Other") [])] ∨
      f = Demo.fPairs ∧ v = .map2 [([], [([], .mk (b "*main.Other") [])])] ∨
      f = Demo.fOne ∧ v = .single (.mk (b "main.Item") []) := by
    intro f v hf hs
    rcases hmem f hf with rfl | rfl | rfl | rfl | rfl | rfl
    · rcases hs with h | ⟨_, h⟩ <;> cases h
    · rcases hs with h | ⟨_, h⟩ <;> cases h
    · rcases hs with h | ⟨_, h⟩
      · cases h
      · cases h with | slice h => cases h; exact Or.inl ⟨rfl, rfl⟩
    · rcases hs with h | ⟨h, _⟩
      · cases h; exact Or.inr (Or.inl ⟨rfl, rfl⟩)
      · cases h
    · rcases hs with h | ⟨_, h⟩
      · cases h
      · cases h with
        | map2 h => cases h; exact Or.inr (Or.inr (Or.inl ⟨rfl, rfl⟩))
        | map hk _ => exact absurd rfl hk
    · rcases hs with h | ⟨_, h⟩
      · cases h
      · cases h; exact Or.inr (Or.inr (Or.inr ⟨rfl, rfl⟩))
  have hblk : ∀ {tag blk}, BlockFor Demo.ext Demo.severalBlocks.attrs Demo.severalBlocks.blocks tag blk → ∃ l v, blk = ⟨l, some (Demo.leaf v)⟩ ∧ l ≠ [] := by
    intro tag blk h
    cases h with
    | block h =>
      simp only [Demo.severalBlocks, Body.blocks, List.mem_cons, Prod.mk.injEq, List.not_mem_nil, or_false] at h
      rcases h with ⟨_, rfl, rfl⟩ | ⟨_, rfl, rfl⟩ | ⟨_, rfl, rfl⟩ | ⟨_, rfl, rfl⟩ <;> exact ⟨_, _, rfl, by simp⟩
    | attr h h' =>
      have hm := GoMap.get?_mem h
      simp only [Demo.severalBlocks, Body.attrs, Demo.str, List.mem_singleton, Prod.mk.injEq] at hm
      rw [hm.2] at h'
      cases h'
  have hinto : ∀ {f v l ety cls c'}, FieldOf Demo.env 0 f → SpecOf Demo.env Demo.twoClasses f v → Into f.ty v l ety cls →
      Demo.names cls.name = some c' → (c' = 1 ∨ c' = 2) ∧ cls.fields = [] ∧ Storable Demo.env ety c' := by
    intro f v l ety cls c' hf hs hi hn
    have n1 : Demo.names (b "*main.Item") = some 1 := by decide +kernel
    have n2 : Demo.names (b "Item") = some 1 := by decide +kernel
    have n3 : Demo.names (b "Other") = some 2 := by decide +kernel
    have n4 : Demo.names (b "*main.Other") = some 2 := by decide +kernel
    have n5 : Demo.names (b "main.Item") = some 1 := by decide +kernel
    have anyc : ∀ c, Storable Demo.env .any c := fun c fs => ⟨_, .any⟩
    have ptrc : ∀ c, Storable Demo.env (.ptr (.struct c)) c := fun c fs => ⟨_, .ptr⟩
    rcases hspec f v hf hs with ⟨rfl, rfl⟩ | ⟨rfl, rfl⟩ | ⟨rfl, rfl⟩ | ⟨rfl, rfl⟩
    · cases hi with
      | slice h =>
        simp only [List.mem_singleton] at h
        subst h
        cases n1.symm.trans hn
        exact ⟨Or.inl rfl, rfl, ptrc 1⟩
    · have hcls : cls = .mk (b "Item") [] ∨ cls = .mk (b "Other") [] := by
        cases hi with
        | map h =>
          have hm := GoMap.get?_mem h
          simp only [List.mem_cons, Prod.mk.injEq, List.not_mem_nil, or_false] at hm
          rcases hm with hm | hm
          · exact Or.inl hm.2
          · exact Or.inr hm.2
        | mapOther _ hm =>
          simp only [List.mem_cons, Prod.mk.injEq, List.not_mem_nil, or_false] at hm
          rcases hm with hm | hm
          · exact Or.inl hm.2
          · exact Or.inr hm.2
      have hety : ety = .any := by cases hi <;> rfl
      subst hety
      rcases hcls with rfl | rfl
      · cases n2.symm.trans hn
        exact ⟨Or.inl rfl, rfl, anyc 1⟩
      · cases n3.symm.trans hn
        exact ⟨Or.inr rfl, rfl, anyc 2⟩
    · cases hi with
      | map2 hx hc =>
        simp only [List.mem_singleton] at hx
        subst hx
        simp only [List.mem_singleton] at hc
        subst hc
        cases n4.symm.trans hn
        exact ⟨Or.inr rfl, rfl, ptrc 2⟩
    · cases hi with
      | single =>
        cases n5.symm.trans hn
        exact ⟨Or.inl rfl, rfl, ptrc 1⟩
  refine .mk ?_ ?_ ?_ ?_ ?_ ?_ ?_ ?_
  · intro a ha
    rw [List.mem_singleton.1 ha]
    exact .str
  · intro f hf hl
    have : ∀ f ∈ Demo.flatOf 0, lower f.what ≠ b "label" := by decide +kernel
    exact absurd hl (this f (Demo.fieldOf hf))
  · intro f hf _ _ _
    exact Demo.usual hf
  · intro f hf _ a _ s h n _ _ hh; cases hh
  · intro f hf _ x _ _ s h n _ _ hh; cases hh
  · intro f v blk hf _ hs h
    obtain ⟨l, w, rfl, hl⟩ := hblk h
    obtain ⟨x, l, rfl⟩ : ∃ x l', l = x :: l' := by cases l with | nil => exact absurd rfl hl | cons x l => exact ⟨x, l, rfl⟩
    rcases hspec f v hf hs with ⟨rfl, rfl⟩ | ⟨rfl, rfl⟩ | ⟨rfl, rfl⟩ | ⟨rfl, rfl⟩
    · exact .slice
    · exact .map (by simp)
    · exact .map2 (by simp) (by simp)
    · exact .single
  · intro f v blk ety cls c' hf _ hs h hi hn
    exact (hinto hf hs hi hn).2.2
  · intro f v blk ety cls c' body hf _ hs h hi hn hb
    obtain ⟨l, w, rfl, hl⟩ := hblk h
    cases hb
    obtain ⟨h1, h2, _⟩ := hinto hf hs hi hn
    rw [h2]
    exact Demo.fine_leaf w h1

example : (Demo.call (some Demo.twoClasses) ⟨Demo.heap0, Demo.ref0⟩ (some 0) Demo.severalBlocks).outcome ≠ .error .panic :=
  C62_partial Demo.orders.1 Demo.quiet Demo.dynAdds Demo.typesOk Demo.heap0_inv (fun r hr => by cases hr; exact Nat.zero_lt_one) Demo.refOk
    (by unfold HasFields; decide +kernel) (fun x hx => by cases hx; exact Demo.fine_severalBlocks)

/-- That document is read. -/
example : (Demo.outcome (Demo.run Demo.ext Demo.twoClasses Demo.severalBlocks)).2 = none := by decide +kernel

/-- **C62 is violated**: five documents and specifications outside the conditions of
`C62_partial`, each with a panic. A key that is a number; an object as attribute for a map with a class
per label; a class of another type than the field's; an empty list of classes; a list of classes for a text. -/
theorem C62_violated_conditions :
    (Demo.outcome (Demo.run Demo.ext [] (.mk [(b "name", ⟨.object [(.num 1, .str (b "x"))], []⟩)] []))).2 = some .panic ∧
    (Demo.outcome (Demo.run Demo.ext Demo.twoClasses (.mk [(b "table", ⟨.object [], b " {a}"⟩)] []))).2 = some .panic ∧
    (Demo.outcome (Demo.run Demo.ext [(b "One", .single (.mk (b "Other") []))] (.mk [] [(b "one", [], Demo.leaf "1")]))).2 = some .panic ∧
    (Demo.outcome (Demo.run Demo.ext [(b "Items", .list [])] (.mk [] [(b "items", [], Demo.leaf "1")]))).2 = some .panic ∧
    (Demo.outcome (Demo.run Demo.ext [(b "Name", .list [.mk (b "Item") []])] (.mk [] [(b "name", [], Demo.leaf "1")]))).2 = some .panic :=
  ⟨rfl, rfl, rfl, rfl, rfl⟩

end Verif.HclS
