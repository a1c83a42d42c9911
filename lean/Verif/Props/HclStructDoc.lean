import Verif.Lemmas.HclStructDoc
import Verif.Props.HclStructMore
/-!
# Decoding a document that writes a struct out
-/
set_option linter.unusedSimpArgs false

namespace Verif.HclS
open Tree (Heap)
open Hcl (Cty Expr)
open Det (Cls CVal KeyTy ltB ltB2)

/-- **C71.** A document that writes a struct out — every field given by its attribute, its blocks or the labels, or absent and
zero — is decoded without error, to exactly this struct, whatever is in `ref` and in the tree of variables, in every iteration
order. -/
theorem C71_decodes_struct {env : Env} {ext : Ext} {emb n m c : Nat} {body : Body} {fs : Fields} {labels : List Bytes} {st : St}
    {root : Option Nat} (hord : ∀ p l, (ext.ord p l).Perm l) (hz : ext.zero .str = .str []) (hinv : Tree.Inv st.heap)
    (hroot : ∀ r, root = some r → r < st.heap.length) (hcan : Canonical env ext st.ref)
    (hs : Shows env emb ext n body c fs) (hl : LabelsAre (env.flat emb c) fs labels) (hn : n + emb ≤ m + 1) :
    let after := unmarshalSpec env ext m (some body) c (newFields env ext c) none st root labels
    after.outcome = .ok () ∧ after.target = fs := by
  have hlt := defaultTree_root hroot
  obtain ⟨hi0, _⟩ := defaultTree_step st.heap root hinv
  generalize hd : defaultTree st.heap root = d at hlt hi0
  obtain ⟨h, r⟩ := d
  obtain ⟨st', hrun, _⟩ := decode_shows (env := env) (root := r) hord hz n (m + 1) hn [] ⟨h, st.ref⟩ r c fs labels body hi0 hlt hlt hcan hs hl
  simp only [unmarshalSpec, hd, Option.getD_none, hrun]
  exact ⟨trivial, trivial⟩

/-- **C71: order.** The order of the attributes does not matter, and of the blocks only the order among those of the same
field. -/
theorem C71_order {env : Env} {ext : Ext} {emb n m c : Nat} {body body' : Body} {fs : Fields} {labels : List Bytes} {st : St}
    {root : Option Nat} (hord : ∀ p l, (ext.ord p l).Perm l) (hz : ext.zero .str = .str []) (hinv : Tree.Inv st.heap)
    (hroot : ∀ r, root = some r → r < st.heap.length) (hcan : Canonical env ext st.ref)
    (hs : Shows env emb ext n body c fs) (hl : LabelsAre (env.flat emb c) fs labels) (hn : n + emb ≤ m + 1)
    (ha : body'.attrs.Perm body.attrs) (hb : ∀ tag, body'.blocks.filter (·.1 = tag) = body.blocks.filter (·.1 = tag)) :
    let after := unmarshalSpec env ext m (some body') c (newFields env ext c) none st root labels
    after.outcome = .ok () ∧ after.target = fs := by
  refine C71_decodes_struct hord hz hinv hroot hcan (n := n) ?_ hl hn
  cases n with
  | zero => exact hs.elim
  | succ n =>
    obtain ⟨h1, h2, h3, h4, h5, h6⟩ := hs
    have hk : (body'.attrs.map Prod.fst).Nodup := (ha.map _).nodup_iff.2 h4
    have hget : ∀ k, GoMap.get? body'.attrs k = GoMap.get? body.attrs k := by
      intro k
      cases hg : GoMap.get? body.attrs k with
      | none =>
        rw [GoMap.get?_eq_none] at hg ⊢
        exact fun h => hg ((ha.map _).mem_iff.1 h)
      | some a => exact GoMap.mem_get? hk (ha.mem_iff.2 (GoMap.get?_mem hg))
    have hblk : ∀ tag, blocksOf body' tag = blocksOf body tag := by
      intro tag
      simp only [blocksOf]
      rw [hb]
    refine ⟨h1, h2, fun a h => h3 a (ha.mem_iff.1 h), hk, fun x h => h5 x ?_, fun f hf => ?_⟩
    · have : x ∈ body'.blocks.filter (·.1 = x.1) := List.mem_filter.2 ⟨h, by simp⟩
      rw [hb] at this
      exact (List.mem_filter.1 this).1
    · obtain ⟨v, h7, h8⟩ := h6 f hf
      refine ⟨v, h7, ⟨h8.label, fun hp => ?_, fun hp => ?_⟩⟩
      · have := h8.plain hp
        simpa only [AttrShows, hget] using this
      · rw [hblk]
        exact h8.block hp

/-- **C71: at most one.** A document writes at most one struct out. -/
theorem C71_unique {env : Env} {ext : Ext} {emb n n' c : Nat} {body : Body} {fs fs' : Fields} {labels : List Bytes}
    (hord : ∀ p l, (ext.ord p l).Perm l) (hz : ext.zero .str = .str []) (hcan : Canonical env ext [])
    (hs : Shows env emb ext n body c fs) (hl : LabelsAre (env.flat emb c) fs labels)
    (hs' : Shows env emb ext n' body c fs') (hl' : LabelsAre (env.flat emb c) fs' labels) : fs = fs' := by
  have hi : Tree.Inv ([] : Heap Cty) := ⟨by simp, by simp, by simp⟩
  have h1 := C71_decodes_struct (m := max n n' + emb) (st := ⟨[], []⟩) (root := none) hord hz hi (by simp) hcan hs hl (by omega)
  have h2 := C71_decodes_struct (m := max n n' + emb) (st := ⟨[], []⟩) (root := none) hord hz hi (by simp) hcan hs' hl' (by omega)
  exact h1.2.symm.trans h2.2

namespace Demo

theorem label_fId : LabelFld fId := ⟨rfl, by decide +kernel, rfl⟩

theorem decodes_of {f : Fld} (h : f ∈ [fVal, fName, fItems, fMap, fPairs, fOne]) : Decodes f := by
  simp only [List.mem_cons, List.not_mem_nil, or_false] at h
  rcases h with rfl | rfl | rfl | rfl | rfl | rfl <;>
    exact ⟨rfl, by decide +kernel, by decide +kernel, by decide +kernel⟩

theorem plain_of {f : Fld} (h : f ∈ [fVal, fName]) : PlainFld f := by
  refine ⟨decodes_of (by simp only [List.mem_cons, List.not_mem_nil, or_false] at h ⊢; tauto), ?_, ?_⟩ <;>
    simp only [List.mem_cons, List.not_mem_nil, or_false] at h <;> rcases h with rfl | rfl <;> decide +kernel

theorem block_of {f : Fld} (h : f ∈ [fItems, fMap, fPairs, fOne]) : BlockFld f := by
  refine ⟨decodes_of (by simp only [List.mem_cons, List.not_mem_nil, or_false] at h ⊢; tauto), ?_⟩
  simp only [List.mem_cons, List.not_mem_nil, or_false] at h
  rcases h with rfl | rfl | rfl | rfl <;> rfl

theorem show_label {shows : Body → Nat → Fields → Prop} {body : Body} {s : Bytes} : FieldShows env 0 ext shows body fId (.str s) :=
  ⟨fun _ => ⟨s, rfl⟩, fun h => absurd label_fId.what h.decodes.notLabel, fun h => absurd label_fId.what h.decodes.notLabel⟩

theorem show_plain {shows : Body → Nat → Fields → Prop} {body : Body} {f : Fld} {v : Val} (h : f ∈ [fVal, fName])
    (ha : AttrShows ext body f v) : FieldShows env 0 ext shows body f v :=
  ⟨fun hl => absurd hl.what (plain_of h).decodes.notLabel, fun _ => ha, fun hb => by
    have h1 := (plain_of h).ty
    have h2 := hb.ty
    simp only [List.mem_cons, List.not_mem_nil, or_false] at h
    rcases h with rfl | rfl <;> cases h2⟩

theorem show_block {shows : Body → Nat → Fields → Prop} {body : Body} {f : Fld} {v : Val} (h : f ∈ [fItems, fMap, fPairs, fOne])
    (ha : BlocksShow env 0 ext shows f.ty (blocksOf body f.tag) v) : FieldShows env 0 ext shows body f v :=
  ⟨fun hl => absurd hl.what (block_of h).decodes.notLabel, fun hb => by
    have h2 := hb.ty
    simp only [List.mem_cons, List.not_mem_nil, or_false] at h
    (rcases h with rfl | rfl | rfl | rfl <;> cases h2), fun _ => ha⟩

theorem regular1 : Regular env 0 1 where
  kinds := by
    intro f hf
    rcases List.mem_cons.1 hf with rfl | hf
    · exact Or.inl label_fId
    · exact Or.inr (Or.inl (plain_of (by rw [List.mem_singleton.1 hf]; simp)))
  names := by decide +kernel
  tags := by decide +kernel
  promoted := rfl
  apart := by simp [embeddedIn]

theorem regular2 : Regular env 0 2 where
  kinds := fun f hf => Or.inr (Or.inl (plain_of (by rw [List.mem_singleton.1 hf]; simp)))
  names := by decide +kernel
  tags := by decide +kernel
  promoted := rfl
  apart := by simp [embeddedIn]

theorem regular3 : Regular env 0 3 where
  kinds := by
    intro f hf
    rcases List.mem_cons.1 hf with rfl | hf
    · exact Or.inr (Or.inl (plain_of (by simp)))
    · exact Or.inr (Or.inr (block_of hf))
  names := by decide +kernel
  tags := by decide +kernel
  promoted := rfl
  apart := by simp [embeddedIn]

theorem attr_val (v : String) : AttrShows ext (leaf v) fVal (.str (b v)) := by
  have h : GoMap.get? (leaf v).attrs fVal.tag = some ⟨.str (b v), []⟩ := rfl
  simp only [AttrShows, h]
  exact ⟨.str, .str (b v), rfl, by simp, rfl⟩

theorem shows1 (i v : String) : Shows env 0 ext 1 (leaf v) 1 [(b "Id", .str (b i)), (b "Val", .str (b v))] := by
  refine ⟨regular1, rfl, ?_, by simp [leaf, Body.attrs], by simp [leaf, Body.blocks], ?_⟩
  · intro a ha
    simp only [leaf, Body.attrs, List.mem_singleton] at ha
    exact ⟨fVal, by simp [env, Env.flat, flatten], plain_of (by simp), by rw [ha]; rfl⟩
  · intro f hf
    rcases List.mem_cons.1 hf with rfl | hf
    · exact ⟨_, rfl, show_label⟩
    · rw [List.mem_singleton.1 hf]
      exact ⟨_, rfl, show_plain (by simp) (attr_val v)⟩

theorem shows2 (v : String) : Shows env 0 ext 1 (leaf v) 2 [(b "Val", .str (b v))] := by
  refine ⟨regular2, rfl, ?_, by simp [leaf, Body.attrs], by simp [leaf, Body.blocks], ?_⟩
  · intro a ha
    simp only [leaf, Body.attrs, List.mem_singleton] at ha
    exact ⟨fVal, by simp [env, Env.flat, flatten], plain_of (by simp), by rw [ha]; rfl⟩
  · intro f hf
    rw [List.mem_singleton.1 hf]
    exact ⟨_, rfl, show_plain (by simp) (attr_val v)⟩

theorem labels1 (i v : String) : LabelsAre (env.flat 0 1) [(b "Id", .str (b i)), (b "Val", .str (b v))] [b i] :=
  ⟨fun _ => rfl, fun h => absurd rfl h⟩

theorem labels2 (fs : Fields) (l : List Bytes) : LabelsAre (env.flat 0 2) fs l := by
  have h : (env.flat 0 2).fields.filter (fun f => lower f.what = b "label") = [] := by rfl
  refine ⟨fun h' => ?_, fun _ f hf => ?_⟩
  · rw [h] at h' ⊢
    rw [List.length_eq_zero_iff.1 h']
    rfl
  · rw [h] at hf
    cases hf

def one (i v : String) : Val := .ref 1 [(b "Id", .str (b i)), (b "Val", .str (b v))]

/-- A document with all kinds of fields, and the struct. -/
def full : Body := .mk [str "name" "n"]
  [(b "items", [b "a"], leaf "1"), (b "map", [b "l"], leaf "5"), (b "items", [b "c"], leaf "2"), (b "pairs", [b "p", b "q"], leaf "3"),
   (b "map", [b "k"], leaf "4")]
def fullStruct : Fields :=
  [(b "Name", .str (b "n")), (b "Items", .slice [one "a" "1", one "c" "2"]),
   (b "Map", .map [(b "k", .inst 2 [(b "Val", .str (b "4"))]), (b "l", .inst 2 [(b "Val", .str (b "5"))])]),
   (b "Pairs", .map2 [((b "p", b "q"), .ref 2 [(b "Val", .str (b "3"))])]), (b "One", .leaf 0)]

theorem full_shows : Shows env 0 ext 2 full 3 fullStruct := by
  have h1 : ∀ i v, BlockShows env 0 (Shows env 0 ext 1) (.ptr (.struct 1)) ([b i], leaf v) (one i v) :=
    fun i v => ⟨1, _, rfl, .ptr, shows1 i v, labels1 i v⟩
  have h2 : ∀ l v, BlockShows env 0 (Shows env 0 ext 1) (.ptr (.struct 2)) (l, leaf v) (.ref 2 [(b "Val", .str (b v))]) :=
    fun l v => ⟨2, _, rfl, .ptr, shows2 v, labels2 _ _⟩
  have h3 : ∀ l v, BlockShows env 0 (Shows env 0 ext 1) (.struct 2) (l, leaf v) (.inst 2 [(b "Val", .str (b v))]) :=
    fun l v => ⟨2, _, rfl, .struct, shows2 v, labels2 _ _⟩
  refine ⟨regular3, rfl, ?_, by simp [full, Body.attrs], ?_, ?_⟩
  · intro a ha
    simp only [full, Body.attrs, List.mem_singleton] at ha
    exact ⟨fName, by simp [env, Env.flat, flatten], plain_of (by simp), by rw [ha]; rfl⟩
  · intro x hx
    simp only [full, Body.blocks, List.mem_cons, List.not_mem_nil, or_false] at hx
    rcases hx with rfl | rfl | rfl | rfl | rfl
    · exact ⟨fItems, by simp [env, Env.flat, flatten], block_of (by simp), rfl⟩
    · exact ⟨fMap, by simp [env, Env.flat, flatten], block_of (by simp), rfl⟩
    · exact ⟨fItems, by simp [env, Env.flat, flatten], block_of (by simp), rfl⟩
    · exact ⟨fPairs, by simp [env, Env.flat, flatten], block_of (by simp), rfl⟩
    · exact ⟨fMap, by simp [env, Env.flat, flatten], block_of (by simp), rfl⟩
  · intro f hf
    have hf' : f = fName ∨ f = fItems ∨ f = fMap ∨ f = fPairs ∨ f = fOne := by simpa [env, Env.flat, flatten] using hf
    rcases hf' with rfl | rfl | rfl | rfl | rfl
    · refine ⟨_, rfl, show_plain (by simp) ?_⟩
      have h : GoMap.get? full.attrs fName.tag = some ⟨.str (b "n"), []⟩ := rfl
      simp only [AttrShows, h]
      exact ⟨.str, .str (b "n"), rfl, by simp, rfl⟩
    · refine ⟨_, rfl, show_block (by simp) (Or.inr ⟨by rw [show blocksOf full fItems.tag = [([b "a"], leaf "1"), ([b "c"], leaf "2")] from rfl]; simp, ?_⟩)⟩
      exact ⟨_, rfl, .cons (h1 "a" "1") (.cons (h1 "c" "2") .nil)⟩
    · refine ⟨_, rfl, show_block (by simp) (Or.inr ⟨by rw [show blocksOf full fMap.tag = [([b "l"], leaf "5"), ([b "k"], leaf "4")] from rfl]; simp, ?_⟩)⟩
      refine ⟨_, [(b "l", .inst 2 [(b "Val", .str (b "5"))]), (b "k", .inst 2 [(b "Val", .str (b "4"))])], rfl, ?_, List.Perm.swap _ _ _, ?_⟩
      · refine .cons ?_ (.cons (by simp) .nil)
        intro y hy
        rw [List.mem_singleton.1 hy]
        decide +kernel
      · exact .cons ⟨rfl, h3 _ "5"⟩ (.cons ⟨rfl, h3 _ "4"⟩ .nil)
    · refine ⟨_, rfl, show_block (by simp) (Or.inr ⟨by rw [show blocksOf full fPairs.tag = [([b "p", b "q"], leaf "3")] from rfl]; simp, ?_⟩)⟩
      refine ⟨_, [((b "p", b "q"), .ref 2 [(b "Val", .str (b "3"))])], rfl, .cons (by simp) .nil, .refl _, ?_⟩
      exact .cons ⟨⟨by decide +kernel, Or.inl ⟨by decide +kernel, rfl⟩⟩, h2 _ "3"⟩ .nil
    · exact ⟨_, rfl, show_block (by simp) (Or.inl ⟨rfl, rfl⟩)⟩

end Demo

namespace Demo

theorem flat4 : (env.flat 1 4).fields = [fName, fId, fVal, fMap] := rfl

theorem embedded4 : embeddedIn env 1 (env.struct 4).fields = [fBase] := rfl

theorem regular4 : Regular env 1 4 where
  kinds := by
    intro f hf
    rw [flat4] at hf
    simp only [List.mem_cons, List.not_mem_nil, or_false] at hf
    rcases hf with rfl | rfl | rfl | rfl
    · exact .inr (.inl (plain_of (by simp)))
    · exact .inl label_fId
    · exact .inr (.inl (plain_of (by simp)))
    · exact .inr (.inr (block_of (by simp)))
  names := by decide +kernel
  tags := by decide +kernel
  promoted := rfl
  apart := by
    intro g hg
    rw [embedded4, List.mem_singleton] at hg
    subst hg
    decide +kernel

theorem regular2' : Regular env 1 2 where
  kinds := fun f hf => Or.inr (Or.inl (plain_of (by rw [List.mem_singleton.1 hf]; simp)))
  names := by decide +kernel
  tags := by decide +kernel
  promoted := rfl
  apart := by
    intro g hg
    rw [show embeddedIn env 1 (env.struct 2).fields = [] from rfl] at hg
    cases hg

/-- A document for a struct that embeds an `Item`. -/
def embeds : Body := .mk [str "val" "v", str "name" "n"] [(b "map", [b "k"], leaf "4")]
def embedsStruct : Fields :=
  [(b "Name", .str (b "n")), (b "Id", .str (b "i")), (b "Val", .str (b "v")), (b "Map", .map [(b "k", .inst 2 [(b "Val", .str (b "4"))])])]

theorem embeds_shows : Shows env 1 ext 2 embeds 4 embedsStruct := by
  refine ⟨regular4, rfl, ?_, by decide +kernel, ?_, ?_⟩
  · intro a ha
    rw [flat4]
    simp only [embeds, Body.attrs, List.mem_cons, List.not_mem_nil, or_false] at ha
    rcases ha with rfl | rfl
    · exact ⟨fVal, by simp, plain_of (by simp), rfl⟩
    · exact ⟨fName, by simp, plain_of (by simp), rfl⟩
  · intro x hx
    rw [flat4]
    simp only [embeds, Body.blocks, List.mem_singleton] at hx
    subst hx
    exact ⟨fMap, by simp, block_of (by simp), rfl⟩
  · intro f hf
    rw [flat4] at hf
    simp only [List.mem_cons, List.not_mem_nil, or_false] at hf
    rcases hf with rfl | rfl | rfl | rfl
    · refine ⟨_, rfl, fun h => absurd h.what (plain_of (by simp)).decodes.notLabel, fun _ => ?_, fun h => (by cases h.ty)⟩
      have h : GoMap.get? embeds.attrs fName.tag = some ⟨.str (b "n"), []⟩ := rfl
      simp only [AttrShows, h]
      exact ⟨.str, .str (b "n"), rfl, by simp, rfl⟩
    · exact ⟨_, rfl, fun _ => ⟨_, rfl⟩, fun h => absurd label_fId.what h.decodes.notLabel, fun h => absurd label_fId.what h.decodes.notLabel⟩
    · refine ⟨_, rfl, fun h => absurd h.what (plain_of (by simp)).decodes.notLabel, fun _ => ?_, fun h => (by cases h.ty)⟩
      have h : GoMap.get? embeds.attrs fVal.tag = some ⟨.str (b "v"), []⟩ := rfl
      simp only [AttrShows, h]
      exact ⟨.str, .str (b "v"), rfl, by simp, rfl⟩
    · refine ⟨_, rfl, fun h => absurd h.what (block_of (by simp)).decodes.notLabel, fun h => (by cases h.ty), fun _ => .inr ⟨?_, ?_⟩⟩
      · rw [show blocksOf embeds fMap.tag = [([b "k"], leaf "4")] from rfl]; simp
      · refine ⟨_, _, rfl, .cons (by simp) .nil, .refl _, .cons ⟨rfl, 2, _, rfl, .struct, ?_, labels2 _ _⟩ .nil⟩
        refine ⟨regular2', rfl, ?_, by decide +kernel, by simp [leaf, Body.blocks], ?_⟩
        · intro a ha
          simp only [leaf, Body.attrs, List.mem_singleton] at ha
          exact ⟨fVal, by rw [show (env.flat 1 2).fields = [fVal] from rfl]; simp, plain_of (by simp), by rw [ha]; rfl⟩
        · intro f hf
          rw [List.mem_singleton.1 hf]
          refine ⟨_, rfl, fun h => absurd h.what (plain_of (by simp)).decodes.notLabel, fun _ => attr_val "4", fun h => (by cases h.ty)⟩

end Demo

-- The same for a struct that embeds another: its fields, with a label among them, are those of the outer struct.
example : let after := unmarshalSpec Demo.env Demo.ext 2 (some Demo.embeds) 4 (newFields Demo.env Demo.ext 4) none ⟨[], Demo.ref0⟩ none [b "i"]
    after.outcome = .ok () ∧ after.target = Demo.embedsStruct :=
  C71_decodes_struct (fun _ _ => .refl _) rfl ⟨by simp, by simp, by simp⟩ (by simp) Demo.canonical Demo.embeds_shows
    ⟨fun _ => rfl, fun h => absurd rfl h⟩ (by omega)

-- `C71_decodes_struct` for this document.
example : let after := unmarshalSpec Demo.env Demo.ext 1 (some Demo.full) 3 (newFields Demo.env Demo.ext 3) none ⟨[], Demo.ref0⟩ none []
    after.outcome = .ok () ∧ after.target = Demo.fullStruct :=
  C71_decodes_struct (fun _ _ => .refl _) rfl ⟨by simp, by simp, by simp⟩ (by simp) Demo.canonical Demo.full_shows
    ⟨fun _ => rfl, fun h => absurd rfl h⟩ (by omega)

end Verif.HclS
