import Verif.Props.HclStructMore
import Verif.Lemmas.HclStructRef
/-!
# C165, C166: which entries of `ref` count, and what classes stand for
-/
namespace Verif.HclS
open Tree (Heap)
open Hcl (Cty)
open Det (Cls CVal)

variable {env : Env} {ext : Ext}

/-- **C165**: of the classes in `ref` only those count that the specification names, at some level.  With another `ref` that has the same values for these, `UnmarshalSpec`
gives the same target and outcome, the same tree and specification; afterwards the two still differ only where they did, each being as it was there. -/
theorem C165 {n cls : Nat} {body : Option Body} {target : Fields} {spec : Option (List (Bytes × CVal))} {h : Heap Cty} {ref ref' : GoMap Bytes Tmpl}
    {root : Option Nat} {labels : List Bytes} (hagree : ∀ x, NamesIn (spec.getD []) x → GoMap.get? ref' x = GoMap.get? ref x)
    (a a' : After) (ha : a = unmarshalSpec env ext n body cls target spec ⟨h, ref⟩ root labels)
    (ha' : a' = unmarshalSpec env ext n body cls target spec ⟨h, ref'⟩ root labels) :
    a'.target = a.target ∧ a'.outcome = a.outcome ∧ a'.heap = a.heap ∧ a'.root = a.root ∧ a'.spec = a.spec ∧
    ∀ k, GoMap.get? a'.ref k = GoMap.get? a.ref k ∨ GoMap.get? a.ref k = GoMap.get? ref k ∧ GoMap.get? a'.ref k = GoMap.get? ref' k := by
  subst ha ha'
  have hsim : RegSim ref ref' (fun x => NamesIn (spec.getD []) x) ref ref' := ⟨hagree, fun k => Or.inr ⟨rfl, rfl⟩⟩
  cases body with
  | none => exact ⟨rfl, rfl, rfl, rfl, rfl, fun k => Or.inr ⟨rfl, rfl⟩⟩
  | some body =>
    generalize hd : defaultTree h root = d
    obtain ⟨h1, r⟩ := d
    simp only [unmarshalSpec, hd]
    have hspec : specAfter env ext n r ⟨h1, ref'⟩ cls spec body = specAfter env ext n r ⟨h1, ref⟩ cls spec body := by
      cases spec with
      | none => rfl
      | some obj =>
        simp only [specAfter, Option.map_some, prelude, Option.some.injEq]
        cases evalAttrs ext r r body.attrs (ext.ord ([] ++ [b "attributes"]) (GoMap.keys body.attrs)) h1 with
        | error e => rfl
        | ok w =>
          obtain ⟨vals, h2⟩ := w
          dsimp only
          cases addBlockNodes r body.blocks h2 with
          | error e => rfl
          | ok h3 =>
            dsimp only
            have hb := loopFields_sim2 (env := env) (ext := ext) (nulls := nullKeys vals) n (env.struct cls).fields _ ⟨[], [], [], [], obj, ref⟩ ref' hsim (fun x hx => hx)
            revert hb
            generalize loopFields env ext (nullKeys vals) n (env.struct cls).fields ⟨[], [], [], [], obj, ref⟩ = r1
            generalize loopFields env ext (nullKeys vals) n (env.struct cls).fields ⟨[], [], [], [], obj, ref'⟩ = r2
            intro hb
            cases hb <;> rfl
    rw [hspec]
    have hb := decode_sim2 (env := env) (ext := ext) (root := r) (n + 1) _ [] ⟨h1, ref⟩ ⟨h1, ref'⟩ r cls target (spec.getD []) labels body ⟨rfl, hsim⟩ (fun x hx => hx)
    revert hb
    generalize decode env ext r (n + 1) [] ⟨h1, ref⟩ r cls target (spec.getD []) labels body = r1
    generalize decode env ext r (n + 1) [] ⟨h1, ref'⟩ r cls target (spec.getD []) labels body = r2
    intro hb
    cases hb with
    | err => exact ⟨rfl, rfl, rfl, rfl, rfl, fun k => Or.inr ⟨rfl, rfl⟩⟩
    | ok hs => exact ⟨rfl, rfl, hs.heap, rfl, rfl, hs.ref.rest⟩

/-- Without a specification the classes in `ref` do not count at all. -/
theorem C165_none {n cls : Nat} {body : Option Body} {target : Fields} {h : Heap Cty} {ref ref' : GoMap Bytes Tmpl}
    {root : Option Nat} {labels : List Bytes}
    (a a' : After) (ha : a = unmarshalSpec env ext n body cls target none ⟨h, ref⟩ root labels)
    (ha' : a' = unmarshalSpec env ext n body cls target none ⟨h, ref'⟩ root labels) :
    a'.target = a.target ∧ a'.outcome = a.outcome ∧ a'.heap = a.heap := by
  obtain ⟨h1, h2, h3, _⟩ := C165 (fun x ⟨k, v, c, hk, _⟩ => by cases hk) a a' ha ha'
  exact ⟨h1, h2, h3⟩

/-! ## What a class stands for -/

/-- A block that is decoded as a class whose name is not the name of a type begins as a copy of what the caller registered under that name. -/
theorem C166_block {root n node : Nat} {base : St} {tag : Bytes} {cls : Cls} {labels : List Bytes} {body : Body} {st st' : St} {c : Nat} {out : Fields}
    (h : BlockAs env ext root n node base tag cls labels body st st' c out) (hn : ∀ t, ¬ TypeEntry env ext cls.name t) :
    ∃ content path sub, GoMap.get? base.ref cls.name = some (.ptr c content) ∧
      decode env ext root n path st sub c content cls.fields labels body = (out, .ok st') := by
  obtain ⟨hl, content, path, sub, hc, _, hd⟩ := h
  refine ⟨content, path, sub, ?_, hd⟩
  rcases hl.ref cls.name with h1 | ⟨t, ht, _⟩
  · exact h1 ▸ hc
  · exact absurd ht (hn t)

/-- **C166** for lists, if the names of the classes are not names of types: each element is what its block makes of the value that the caller registered under the name of
its class. -/
theorem C166_partial {root n node cls : Nat} {path : List Bytes} {st st' : St} {fs fs' : Fields} {obj : List (Bytes × CVal)} {labels : List Bytes} {body : Body} {f : Fld}
    {ety : Ty} {c0 : Cls} {cs : List Cls} (hord : ∀ p l, (ext.ord p l).Perm l) (hd : DistinctNames env n cls)
    (hrun : decode env ext root (n + 1) path st node cls fs obj labels body = (fs', .ok st'))
    (hm : f ∈ (env.struct cls).fields) (hf : Decodes f) (hty : f.ty = .slice ety)
    (hspec : GoMap.get? obj f.name = some (.list (c0 :: cs))) (hn : ∀ c ∈ c0 :: cs, ∀ t, ¬ TypeEntry env ext c.name t) (ha : f.tag ∉ GoMap.keys body.attrs)
    (h0 : blocksOf body f.tag ≠ []) :
    ∃ vs : List Val, GoMap.get? fs' f.name = some (.slice vs) ∧ vs.length = (blocksOf body f.tag).length ∧
      ∀ k ls inner v, (blocksOf body f.tag)[k]? = some (ls, inner) → vs[k]? = some v →
        ∃ c content out p s s' sub, GoMap.get? st.ref ((c0 :: cs).getD k c0).name = some (.ptr c content) ∧
          decode env ext root n p s sub c content ((c0 :: cs).getD k c0).fields ls inner = (out, .ok s') ∧ Holds env ety c out v := by
  obtain ⟨vs, s, h1, h2, h3⟩ := (C57_partial hord hd hrun hm hf hty hspec ha).2 h0
  refine ⟨vs, h1, h2, fun k ls inner v hb hv => ?_⟩
  obtain ⟨c, out, hba, hh⟩ := h3 k ls inner v hb hv
  have hmem : (c0 :: cs).getD k c0 ∈ c0 :: cs := by
    rw [List.getD_eq_getElem?_getD]
    cases hg : (c0 :: cs)[k]? with
    | none => simp
    | some x => exact List.mem_of_getElem? hg
  obtain ⟨content, p, sub, hc, hdec⟩ := C166_block hba (hn _ hmem)
  exact ⟨c, content, out, p, s k, s (k + 1), sub, hc, hdec, hh⟩

namespace Demo

/-- A prototype with a default. -/
def proto : Fields := [(b "Id", .str []), (b "Val", .str (b "default"))]

/-- A document with one block without attributes, for the given class and registry. -/
def proto1 (name : String) : After :=
  unmarshalSpec Demo.env Demo.ext 1 (some (.mk [] [(b "items", [b "a"], .mk [] [])])) 0 Demo.blank (some [(b "Items", .list [.mk (b name) []])])
    ⟨Demo.heap0, [(b name, .ptr 1 proto)]⟩ (some 0) []

/-- Two types, from packages of the same name if `same`, and a struct with a field of each. -/
def packages (same : Bool) : Env where
  struct
    | 0 => ⟨b "main.Root", [fld "A" "a,block" (.ptr (.struct 1)), fld "B" "b,block" (.ptr (.struct 2))], [(b "A", .ptr (.struct 1)), (b "B", .ptr (.struct 2))]⟩
    | 1 => ⟨b "config.T", [fVal], [(b "Val", .str)]⟩
    | 2 => ⟨if same then b "config.T" else b "config2.T", [fVal], [(b "Val", .str)]⟩
    | n + 3 => ⟨b "main.T" ++ List.replicate n 120, [], []⟩
  impl _ _ := false
  name _ := b "?"

/-- A block for the first field. -/
def twoPackages (same : Bool) : After :=
  unmarshalSpec (packages same) Demo.ext 1 (some (.mk [] [(b "a", [], leaf "1")])) 0 [(b "A", .leaf 0), (b "B", .leaf 0)] none ⟨Demo.heap0, []⟩ (some 0) []

end Demo

/-- **C166 is violated**: the value registered under the name of a type is replaced by a new value if the struct has a field of that type without specification (here `One`,
of type `*Item`); the default is lost.  Under any other name it is kept. -/
theorem C166_violated :
    ((Demo.proto1 "main.Item").outcome = .ok () ∧
      GoMap.get? (Demo.proto1 "main.Item").target (b "Items") = some (.slice [.ref 1 [(b "Id", .str (b "a")), (b "Val", .str [])]])) ∧
    (Demo.proto1 "Proto").outcome = .ok () ∧
    GoMap.get? (Demo.proto1 "Proto").target (b "Items") = some (.slice [.ref 1 [(b "Id", .str (b "a")), (b "Val", .str (b "default"))]]) :=
  ⟨⟨rfl, rfl⟩, rfl, rfl⟩

/-- **C166 is violated** for types of one name from different packages: the field of the first gets the class of the second, and `reflect` panics. -/
theorem C166_violated_packages :
    (Demo.twoPackages true).outcome = .error .panic ∧ (Demo.twoPackages false).outcome = .ok () ∧
    GoMap.get? (Demo.twoPackages false).target (b "A") = some (.ref 1 [(b "Val", .str (b "1"))]) := ⟨rfl, rfl, rfl⟩

-- Two registries that differ in a class which the specification does not name, and in one under the name of a type.
example :
    let spec : List (Bytes × CVal) := [(b "Items", .list [.mk (b "Item") []])]
    let ref' : GoMap Bytes Tmpl := [(b "Item", .ptr 1 Demo.item), (b "Other", .nil), (b "main.Item", .bad)]
    (∀ x, NamesIn spec x → GoMap.get? ref' x = GoMap.get? Demo.ref0 x) ∧
    (unmarshalSpec Demo.env Demo.ext 1 (some Demo.doc) 0 Demo.blank (some spec) ⟨Demo.heap0, ref'⟩ (some 0) []).outcome = .ok () := by
  refine ⟨?_, rfl⟩
  rintro x ⟨k, v, c, hk, hc, hx⟩
  simp only [GoMap.get?] at hk
  split at hk
  · cases hk
    simp only [classesOf, List.mem_singleton] at hc
    subst hc
    cases hx with
    | self => rfl
    | field hk _ _ => cases hk
  · cases hk

-- A class whose name is not the name of a type, and a run that uses it.
example : (∀ t, ¬ TypeEntry Demo.env Demo.ext (b "Item") t) ∧ DistinctNames Demo.env 1 0 ∧ Decodes Demo.fItems ∧
    ∃ fs st, decode Demo.env Demo.ext 0 2 [] ⟨Demo.heap0, Demo.ref0⟩ 0 0 Demo.blank [(b "Items", .list [.mk (b "Item") []])] [] Demo.doc = (fs, .ok st) := by
  refine ⟨?_, (by unfold DistinctNames; decide +kernel), ⟨rfl, by decide +kernel, by decide +kernel, by decide +kernel⟩, _, _, rfl⟩
  intro t ht
  generalize hk : b "Item" = k at ht
  cases ht with
  | struct c =>
    obtain ⟨r, hr⟩ := Demo.struct_head c
    have h : (b "Item").head? = some 109 := by rw [hk]; simp only [Env.tyStr, hr]; rfl
    exact absurd h (by decide +kernel)
  | ptr t =>
    have h : (b "Item").head? = some 42 := by rw [hk]; rfl
    exact absurd h (by decide +kernel)

end Verif.HclS
