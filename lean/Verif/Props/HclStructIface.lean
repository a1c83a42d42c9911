import Verif.Lemmas.HclStructIface
import Verif.Props.HclStructDoc
/-!
# Structs with interfaces are decoded as the document and the specification say
-/
set_option linter.unusedSimpArgs false

namespace Verif.HclS
open Tree (Heap)
open Hcl (Cty Expr)
open Det (Cls CVal KeyTy ltB ltB2)

/-- **C106.** A document that, with the specification, writes a struct out — the class of every block given by the specification
or by the type of the field — is decoded without error, to exactly this struct, whatever else is in `ref` and in the tree of
variables, in every iteration order. -/
theorem C106_decodes_interfaces {env : Env} {ext : Ext} {emb n m c : Nat} {body : Body} {fs : Fields} {obj : List (Bytes × CVal)}
    {labels : List Bytes} {st : St} {root : Option Nat} (hord : ∀ p l, (ext.ord p l).Perm l) (hz : ext.zero .str = .str [])
    (hinv : Tree.Inv st.heap) (hroot : ∀ r, root = some r → r < st.heap.length) (hcan : Canonical env ext st.ref)
    (hs : Displays env emb ext st.ref n obj body c fs) (hl : LabelsAre (env.flat emb c) fs labels) (hn : n + emb ≤ m + 1) :
    let after := unmarshalSpec env ext m (some body) c (newFields env ext c) (some obj) st root labels
    after.outcome = .ok () ∧ after.target = fs := by
  have hlt := defaultTree_root hroot
  obtain ⟨hi0, _⟩ := defaultTree_step st.heap root hinv
  generalize hd : defaultTree st.heap root = d at hlt hi0
  obtain ⟨h, r⟩ := d
  obtain ⟨st', hrun, _⟩ := decode_displays (env := env) (root := r) (ref := st.ref) hord hz n (m + 1) hn [] ⟨h, st.ref⟩ r c fs obj labels body hi0 hlt hlt hcan
    (RefLe.refl _) ⟨hs, hl⟩
  simp only [unmarshalSpec, hd, Option.getD_some, hrun]
  exact ⟨trivial, trivial⟩

/-- **C106: order.** The order of the attributes does not matter, and of the blocks only the order among those of the same
field. -/
theorem C106_order {env : Env} {ext : Ext} {emb n m c : Nat} {body body' : Body} {fs : Fields} {obj : List (Bytes × CVal)}
    {labels : List Bytes} {st : St} {root : Option Nat} (hord : ∀ p l, (ext.ord p l).Perm l) (hz : ext.zero .str = .str [])
    (hinv : Tree.Inv st.heap) (hroot : ∀ r, root = some r → r < st.heap.length) (hcan : Canonical env ext st.ref)
    (hs : Displays env emb ext st.ref n obj body c fs) (hl : LabelsAre (env.flat emb c) fs labels) (hn : n + emb ≤ m + 1)
    (ha : body'.attrs.Perm body.attrs) (hb : ∀ tag, body'.blocks.filter (·.1 = tag) = body.blocks.filter (·.1 = tag)) :
    let after := unmarshalSpec env ext m (some body') c (newFields env ext c) (some obj) st root labels
    after.outcome = .ok () ∧ after.target = fs := by
  refine C106_decodes_interfaces hord hz hinv hroot hcan (n := n) ?_ hl hn
  cases n with
  | zero => exact hs.elim
  | succ n =>
    obtain ⟨h1, h2, h3, h4, h5, h6⟩ := hs
    have hk : (body'.attrs.map Prod.fst).Nodup := (ha.map _).nodup_iff.2 h4
    have hget : ∀ k, GoMap.get? body'.attrs k = GoMap.get? body.attrs k := by
      intro k
      cases hg : GoMap.get? body.attrs k with
      | none =>
        rw [GoMap.get?_eq_none] at hg ⊢
        exact fun h => hg ((ha.map _).mem_iff.1 h)
      | some a => exact GoMap.mem_get? hk (ha.mem_iff.2 (GoMap.get?_mem hg))
    have hblk : ∀ tag, blocksOf body' tag = blocksOf body tag := by
      intro tag
      simp only [blocksOf]
      rw [hb]
    refine ⟨h1, h2, fun a h => h3 a (ha.mem_iff.1 h), hk, fun x h => h5 x ?_, fun f hf => ?_⟩
    · have : x ∈ body'.blocks.filter (·.1 = x.1) := List.mem_filter.2 ⟨h, by simp⟩
      rw [hb] at this
      exact (List.mem_filter.1 this).1
    · obtain ⟨v, h7, h8⟩ := h6 f hf
      refine ⟨v, h7, ⟨h8.label, fun hp => ?_, fun hp => ?_, fun hp => ?_⟩⟩
      · have := h8.plain hp
        simpa only [AttrShows, hget] using this
      · rw [hblk]
        exact h8.block hp
      · have := h8.generic hp
        simpa only [AnyShows, hget, hblk] using this

/-- **C106: at most one.** A document and a specification write at most one struct out. -/
theorem C106_unique {env : Env} {ext : Ext} {emb n n' c : Nat} {body : Body} {fs fs' : Fields} {obj : List (Bytes × CVal)}
    {labels : List Bytes} {ref : GoMap Bytes Tmpl} (hord : ∀ p l, (ext.ord p l).Perm l) (hz : ext.zero .str = .str [])
    (hcan : Canonical env ext ref)
    (hs : Displays env emb ext ref n obj body c fs) (hl : LabelsAre (env.flat emb c) fs labels)
    (hs' : Displays env emb ext ref n' obj body c fs') (hl' : LabelsAre (env.flat emb c) fs' labels) : fs = fs' := by
  have hi : Tree.Inv ([] : Heap Cty) := ⟨by simp, by simp, by simp⟩
  have h1 := C106_decodes_interfaces (m := max n n' + emb) (st := ⟨[], ref⟩) (root := none) hord hz hi (by simp) hcan hs hl (by omega)
  have h2 := C106_decodes_interfaces (m := max n n' + emb) (st := ⟨[], ref⟩) (root := none) hord hz hi (by simp) hcan hs' hl' (by omega)
  exact h1.2.symm.trans h2.2

theorem forall2_zipIdx {α β : Type} {R : α → β → Prop} {S : α × Nat → β → Prop} (h : ∀ a x k, R a x → S (a, k) x) {l : List α} {l' : List β}
    (hl : List.Forall₂ R l l') : ∀ j, List.Forall₂ S (l.zipIdx j) l' := by
  induction hl with
  | nil => exact fun _ => .nil
  | cons h1 _ ih => exact fun j => by rw [List.zipIdx_cons]; exact .cons (h _ _ _ h1) (ih (j + 1))

/-- **C106: without specification.** The documents of C71 are among these. -/
theorem C106_extends_C71 {env : Env} {ext : Ext} {emb : Nat} (ref : GoMap Bytes Tmpl) : ∀ {n : Nat} {body : Body} {c : Nat} {fs : Fields},
    Shows env emb ext n body c fs → Displays env emb ext ref n [] body c fs
  | 0, _, _, _, h => h.elim
  | n + 1, body, c, fs, h => by
    obtain ⟨h1, h2, h3, h4, h5, h6⟩ := h
    have hspec : ∀ {f}, BlockFld f → SpecFld [] f := fun h => ⟨h.decodes, .inr h.ty⟩
    have hfree : ∀ {f}, PlainFld f → FreeFld [] f := fun h => ⟨h, rfl⟩
    refine ⟨⟨fun f hf => ?_, h1.names, h1.tags, h1.promoted, h1.apart, fun _ _ => rfl⟩, h2, fun a ha => ?_, h4, fun x hx => ?_, fun f hf => ?_⟩
    · rcases h1.kinds f hf with h | h | h
      · exact .inl h
      · exact .inr (.inl (hfree h))
      · exact .inr (.inr (.inl (hspec h)))
    · obtain ⟨f, hf, h, e⟩ := h3 a ha
      exact ⟨f, hf, .inl (hfree h), e⟩
    · obtain ⟨f, hf, h, e⟩ := h5 x hx
      exact ⟨f, hf, .inl (hspec h), e⟩
    · obtain ⟨v, hg, hv⟩ := h6 f hf
      have hblk : ∀ {ty e ok k blk v}, BlockShows env emb (Shows env emb ext n) e blk v →
          (∀ c, e.structOf = some c → ok blk.1 c) → BlockDisplays env ext ref (AndLabels env emb (Displays env emb ext ref n)) ty e none ok k blk v := by
        rintro ty e ok k blk v ⟨c, fs, h7, h8, h9, h10⟩ hok
        exact ⟨c, fs, [], .own h7, hok c h7, h8, C106_extends_C71 ref h9, h10⟩
      have hno : ¬ AnyFld [] f := by
        intro h
        rcases h1.kinds f hf with h' | h' | h'
        · exact h.decodes.notLabel h'.what
        · exact not_plain_any h' h
        · exact not_block_any h' h
      refine ⟨v, hg, hv.label, fun h => hv.plain h.1, fun h => ?_, fun h => absurd h hno⟩
      have hb : BlockFld f := ⟨h.decodes, h.ty.resolve_left (by simp [GoMap.get?])⟩
      have hv := hv.block hb
      have hty := hb.ty
      show BlocksDisplay env ext ref _ f.ty none (blocksOf body f.tag) v
      generalize blocksOf body f.tag = blks at hv
      generalize f.ty = ty at hv hty
      rcases hv with h | ⟨hne, hv⟩
      · exact .inl h
      · refine .inr ⟨hne, ?_⟩
        match ty, hty, hv with
        | .struct _, _, ⟨blk, e, hv⟩ => exact ⟨blk, e, hblk hv fun _ _ => trivial⟩
        | .ptr (.struct _), _, ⟨blk, e, hv⟩ => exact ⟨blk, e, hblk hv fun _ _ => trivial⟩
        | .slice e, _, ⟨l, hv, hl⟩ =>
          exact ⟨l, hv, forall2_zipIdx (fun _ _ _ h => hblk h fun _ _ => trivial) hl 0⟩
        | .map .str e, _, ⟨m, l, hv, hs, hp, hl⟩ =>
          exact ⟨m, l, hv, hs, hp, hl.imp fun _ _ h => hblk h.2 fun _ _ => h.1⟩
        | .map .str2 e, _, ⟨m, l, hv, hs, hp, hl⟩ =>
          refine ⟨m, l, hv, hs, hp, hl.imp fun _ _ h => hblk h.2 fun c hc => ⟨h.1.1, ?_⟩⟩
          rcases h.1.2 with h' | ⟨h1, h2, h3⟩
          · exact .inl h'
          · exact .inr ⟨h1, h2, h3 c hc⟩

/-! ## An example -/

theorem canonical_of {env : Env} {ext : Ext} {ref : GoMap Bytes Tmpl} (hinj : ∀ c c', (env.struct c).str = (env.struct c').str → c = c')
    (hh : ∀ c, ∃ r, (env.struct c).str = 109 :: r) (hname : ∀ t, env.name t = b "?")
    (href : ∀ x ∈ ref, x.1.head? ≠ some 109 ∧ x.1.head? ≠ some 42) : Canonical env ext ref := by
  have hty : ∀ {t t' : Ty}, env.tyStr t = env.tyStr t' → newOf env ext t = newOf env ext t' := by
    intro t t' h
    have other : ∀ (t : Ty) c, env.tyStr t = (env.struct c).str → ∃ d, t = .struct d := by
      intro t c h
      obtain ⟨r, hr⟩ := hh c
      rw [hr] at h
      cases t with
      | struct d => exact ⟨d, rfl⟩
      | ptr t => simp only [Env.tyStr, List.cons.injEq] at h; exact absurd h.1 (by decide)
      | _ =>
        rw [Env.tyStr, hname] at h
        · have hq : (b "?").head? = some 109 := congrArg List.head? h
          exact absurd hq (by decide +kernel)
        all_goals simp
    by_cases hs : ∃ c, t = .struct c
    · obtain ⟨c, rfl⟩ := hs
      obtain ⟨d, rfl⟩ := other t' c h.symm
      rw [hinj c d h]
    · by_cases hs' : ∃ c, t' = .struct c
      · obtain ⟨c, rfl⟩ := hs'
        exact absurd (other t c h) hs
      · have bad : ∀ t : Ty, (¬ ∃ c, t = .struct c) → newOf env ext t = .bad := by
          intro t ht
          cases t <;> first | rfl | exact absurd ⟨_, rfl⟩ ht
        rw [bad t hs, bad t' hs']
  have hno : ∀ k t, TypeEntry env ext k t → k.head? = some 109 ∨ k.head? = some 42 := by
    intro k t h
    cases h with
    | struct c => obtain ⟨r, hr⟩ := hh c; exact .inl (by rw [Env.tyStr, hr]; rfl)
    | ptr t => exact .inr rfl
  intro k t h
  constructor
  · intro t' ht'
    have hm := href _ (GoMap.get?_mem ht')
    rcases hno k t h with h | h
    · exact absurd h hm.1
    · exact absurd h hm.2
  · intro t' h'
    cases h with
    | struct c =>
      generalize hk : env.tyStr (.struct c) = k at h'
      cases h' with
      | struct d => exact (hty hk).symm
      | ptr d =>
        obtain ⟨r, hr⟩ := hh c
        have : (env.struct c).str = 42 :: env.tyStr d := hk
        rw [hr] at this
        exact absurd (List.cons.inj this).1 (by decide)
    | ptr t =>
      generalize hk : env.tyStr (.ptr t) = k at h'
      cases h' with
      | struct d =>
        obtain ⟨r, hr⟩ := hh d
        have : 42 :: env.tyStr t = (env.struct d).str := hk
        rw [hr] at this
        exact absurd (List.cons.inj this).1 (by decide)
      | ptr d => exact (hty (List.cons.inj hk).2).symm

namespace Demo

def fShapes := fld "Shapes" "shapes,block" (.slice (.iface 0))
def fNamed := fld "Named" "named,block" (.map .str (.iface 0))
def fMain := fld "Main" "main,block" (.iface 0)

/-- An interface, a struct `Picture` with fields of this interface, and three structs that implement it: `Item` (with a label),
`Other`, and `Frame` (with a label and a field of the interface). -/
def envI : Env where
  struct
    | 0 => ⟨b "main.Picture", [fName, fShapes, fNamed, fMain], [(b "Name", .str), (b "Shapes", fShapes.ty), (b "Named", fNamed.ty), (b "Main", .iface 0)]⟩
    | 1 => ⟨b "main.Item", [fId, fVal], [(b "Id", .str), (b "Val", .str)]⟩
    | 2 => ⟨b "main.Other", [fVal], [(b "Val", .str)]⟩
    | 3 => ⟨b "main.Frame", [fId, fMain], [(b "Id", .str), (b "Main", .iface 0)]⟩
    | n + 4 => ⟨b "main.T" ++ List.replicate n 120, [], []⟩
  impl _ c := c = 1 || c = 2 || c = 3
  name _ := b "?"

def refI : GoMap Bytes Tmpl :=
  [(b "Item", .ptr 1 item), (b "Other", .ptr 2 other), (b "Frame", .ptr 3 [(b "Id", .str []), (b "Main", .leaf 0)])]

theorem canonicalI : Canonical envI ext refI := by
  have ht : ∀ n, (envI.struct (n + 4)).str = b "main.T" ++ List.replicate n 120 := fun _ => rfl
  have h6 : ∀ n, ((envI.struct (n + 4)).str).take 6 = b "main.T" := by
    intro n; rw [ht, List.take_append_of_le_length (by decide +kernel)]; decide +kernel
  have h3 : ∀ c, c < 4 → ((envI.struct c).str).take 6 ≠ b "main.T" := by decide +kernel
  have h0 : ∀ c c', c < 4 → c' < 4 → (envI.struct c).str = (envI.struct c').str → c = c' := by
    intro c c' hc hc'
    have : ∀ c : Fin 4, ∀ c' : Fin 4, (envI.struct c).str = (envI.struct c').str → c = c' := by decide +kernel
    intro h; exact congrArg Fin.val (this ⟨c, hc⟩ ⟨c', hc'⟩ h)
  refine canonical_of (fun c c' h => ?_) (fun c => ?_) (fun _ => rfl) (by decide +kernel)
  · by_cases hc : c < 4 <;> by_cases hc' : c' < 4
    · exact h0 c c' hc hc' h
    · obtain ⟨n, rfl⟩ : ∃ n, c' = n + 4 := ⟨c' - 4, by omega⟩
      exact absurd (h ▸ h6 n) (h3 c hc)
    · obtain ⟨n, rfl⟩ : ∃ n, c = n + 4 := ⟨c - 4, by omega⟩
      exact absurd (h ▸ h6 n) (h3 c' hc')
    · obtain ⟨n, rfl⟩ : ∃ n, c = n + 4 := ⟨c - 4, by omega⟩
      obtain ⟨n', rfl⟩ : ∃ n, c' = n + 4 := ⟨c' - 4, by omega⟩
      rw [ht, ht] at h
      have := congrArg List.length h
      simp only [List.length_append, List.length_replicate] at this
      omega
  · rcases c with _ | _ | _ | _ | n <;> exact ⟨_, rfl⟩

/-- The specification: classes for the first three shapes, for the named shapes and for the main one, which is a frame around an
`Other`; the frame among the shapes is around an `Item`. -/
def specI : List (Bytes × CVal) :=
  [(b "Shapes", .list [.mk (b "Item") [], .mk (b "Frame") [(b "Main", .single (.mk (b "Item") []))], .mk (b "Other") []]),
   (b "Named", .map [(b "a", .mk (b "Item") []), (b "k", .mk (b "Other") [])]),
   (b "Main", .single (.mk (b "Frame") [(b "Main", .single (.mk (b "Other") []))]))]

def two (v : String) : Val := .ref 2 [(b "Val", .str (b v))]

def picture : Body := .mk [str "name" "n"]
  [(b "shapes", [b "i"], leaf "1"), (b "named", [b "k"], leaf "2"), (b "shapes", [b "f"], .mk [] [(b "main", [b "j"], leaf "3")]),
   (b "main", [b "g"], .mk [] [(b "main", [], leaf "4")]), (b "shapes", [], leaf "5"), (b "named", [b "a"], leaf "6")]

def pictureStruct : Fields :=
  [(b "Name", .str (b "n")),
   (b "Shapes", .slice [one "i" "1", .ref 3 [(b "Id", .str (b "f")), (b "Main", one "j" "3")], two "5"]),
   (b "Named", .map [(b "a", one "a" "6"), (b "k", two "2")]),
   (b "Main", .ref 3 [(b "Id", .str (b "g")), (b "Main", two "4")])]

theorem specI_of {f : Fld} (h : f ∈ [fShapes, fNamed, fMain]) : Decodes f := by
  simp only [List.mem_cons, List.not_mem_nil, or_false] at h
  rcases h with rfl | rfl | rfl <;> exact ⟨rfl, by decide +kernel, by decide +kernel, by decide +kernel⟩

theorem orderly1 : Orderly envI 0 [] 1 where
  kinds := by
    intro f hf
    rcases List.mem_cons.1 hf with rfl | hf
    · exact .inl label_fId
    · exact .inr (.inl ⟨plain_of (by rw [List.mem_singleton.1 hf]; simp), rfl⟩)
  names := by decide +kernel
  tags := by decide +kernel
  promoted := rfl
  apart := by simp [embeddedIn]
  free := fun _ _ => rfl

theorem orderly2 : Orderly envI 0 [] 2 where
  kinds := fun f hf => .inr (.inl ⟨plain_of (by rw [List.mem_singleton.1 hf]; simp), rfl⟩)
  names := by decide +kernel
  tags := by decide +kernel
  promoted := rfl
  apart := by simp [embeddedIn]
  free := fun _ _ => rfl

theorem orderly3 (s : CVal) : Orderly envI 0 [(b "Main", s)] 3 where
  kinds := by
    intro f hf
    rcases List.mem_cons.1 hf with rfl | hf
    · exact .inl label_fId
    · rw [List.mem_singleton.1 hf]
      exact .inr (.inr (.inl ⟨specI_of (by simp), .inl rfl⟩))
  names := by decide +kernel
  tags := by decide +kernel
  promoted := rfl
  apart := by simp [embeddedIn]
  free := by simp [embeddedIn]

theorem orderly0 : Orderly envI 0 specI 0 where
  kinds := by
    intro f hf
    rcases List.mem_cons.1 hf with rfl | hf
    · exact .inr (.inl ⟨plain_of (by simp), rfl⟩)
    · refine .inr (.inr (.inl ⟨specI_of hf, .inl ?_⟩))
      simp only [List.mem_cons, List.not_mem_nil, or_false] at hf
      rcases hf with rfl | rfl | rfl <;> rfl
  names := by decide +kernel
  tags := by decide +kernel
  promoted := rfl
  apart := by simp [embeddedIn]
  free := by simp [embeddedIn]

section
variable {shows : List (Bytes × CVal) → List Bytes → Body → Nat → Fields → Prop} {obj : List (Bytes × CVal)} {body : Body} {f : Fld} {v : Val}

theorem displays_label (h : LabelFld f) (hv : ∃ s, v = .str s) : FieldDisplays envI ext refI shows obj body f v :=
  ⟨fun _ => hv, fun h' => absurd h.what h'.1.decodes.notLabel, fun h' => absurd h.what h'.decodes.notLabel,
    fun h' => absurd h.what h'.decodes.notLabel⟩

theorem displays_plain (h : FreeFld obj f) (hv : AttrShows ext body f v) : FieldDisplays envI ext refI shows obj body f v :=
  ⟨fun h' => absurd h'.what h.1.decodes.notLabel, fun _ => hv, fun h' => (by
    have := h.isO.2.2.1
    rw [h'.isO.2.2.1] at this
    cases this), fun h' => by
    have := h.isO.2.2.2
    rw [h'.isO.2.2.2] at this
    cases this⟩

theorem displays_block (h : SpecFld obj f) (hv : BlocksDisplay envI ext refI shows f.ty (GoMap.get? obj f.name) (blocksOf body f.tag) v) :
    FieldDisplays envI ext refI shows obj body f v :=
  ⟨fun h' => absurd h'.what h.decodes.notLabel, fun h' => (by
    have := h'.isO.2.2.1
    rw [h.isO.2.2.1] at this
    exact absurd this (by decide)), fun _ => hv, fun h' => by
    have := h.isO.2.2.2
    rw [h'.isO.2.2.2] at this
    cases this⟩

end

theorem displays1 (n : Nat) (i v : String) : Displays envI 0 ext refI (n + 1) [] (leaf v) 1 [(b "Id", .str (b i)), (b "Val", .str (b v))] := by
  refine ⟨orderly1, rfl, ?_, by simp [leaf, Body.attrs], by simp [leaf, Body.blocks], ?_⟩
  · intro a ha
    simp only [leaf, Body.attrs, List.mem_singleton] at ha
    exact ⟨fVal, by simp [envI, Env.flat, flatten], .inl ⟨plain_of (by simp), rfl⟩, by rw [ha]; rfl⟩
  · intro f hf
    rcases List.mem_cons.1 hf with rfl | hf
    · exact ⟨_, rfl, displays_label label_fId ⟨_, rfl⟩⟩
    · rw [List.mem_singleton.1 hf]
      exact ⟨_, rfl, displays_plain ⟨plain_of (by simp), rfl⟩ (attr_val v)⟩

theorem displays2 (n : Nat) (v : String) : Displays envI 0 ext refI (n + 1) [] (leaf v) 2 [(b "Val", .str (b v))] := by
  refine ⟨orderly2, rfl, ?_, by simp [leaf, Body.attrs], by simp [leaf, Body.blocks], ?_⟩
  · intro a ha
    simp only [leaf, Body.attrs, List.mem_singleton] at ha
    exact ⟨fVal, by simp [envI, Env.flat, flatten], .inl ⟨plain_of (by simp), rfl⟩, by rw [ha]; rfl⟩
  · intro f hf
    rw [List.mem_singleton.1 hf]
    exact ⟨_, rfl, displays_plain ⟨plain_of (by simp), rfl⟩ (attr_val v)⟩

theorem labelsI1 (i : String) (v : Val) : LabelsAre (envI.flat 0 1) [(b "Id", .str (b i)), (b "Val", v)] [b i] :=
  ⟨fun _ => rfl, fun h => absurd rfl h⟩

theorem labelsI3 (i : String) (v : Val) : LabelsAre (envI.flat 0 3) [(b "Id", .str (b i)), (b "Main", v)] [b i] :=
  ⟨fun _ => rfl, fun h => absurd rfl h⟩

theorem labelsI2 (fs : Fields) (l : List Bytes) : LabelsAre (envI.flat 0 2) fs l := by
  have h : (envI.flat 0 2).fields.filter (fun f => lower f.what = b "label") = [] := by rfl
  refine ⟨fun h' => ?_, fun _ f hf => ?_⟩
  · rw [h] at h' ⊢
    rw [List.length_eq_zero_iff.1 h']
    rfl
  · rw [h] at hf
    cases hf

theorem block1 {n : Nat} {ty : Ty} {spec : CVal} {ok : List Bytes → Nat → Prop} {k : Nat} (i v : String)
    (h : Given spec ty k [b i] (.mk (b "Item") [])) (hok : ok [b i] 1) :
    BlockDisplays envI ext refI (AndLabels envI 0 (Displays envI 0 ext refI (n + 1))) ty (.iface 0) (some spec) ok k ([b i], leaf v) (one i v) :=
  ⟨1, _, [], .given h rfl, hok, .iface rfl, displays1 n i v, labelsI1 i _⟩

theorem block2 {n : Nat} {ty : Ty} {spec : CVal} {ok : List Bytes → Nat → Prop} {k : Nat} {l : List Bytes} (v : String)
    (h : Given spec ty k l (.mk (b "Other") [])) (hok : ok l 2) :
    BlockDisplays envI ext refI (AndLabels envI 0 (Displays envI 0 ext refI (n + 1))) ty (.iface 0) (some spec) ok k (l, leaf v) (two v) :=
  ⟨2, _, [], .given h rfl, hok, .iface rfl, displays2 n v, labelsI2 _ _⟩

theorem block3 {n : Nat} {ty : Ty} {spec : CVal} {s : CVal} {ok : List Bytes → Nat → Prop} {k : Nat} {blk : List Bytes × Body} {v : Val} (i : String)
    (h : Given spec ty k [b i] (.mk (b "Frame") [(b "Main", s)])) (hok : ok [b i] 3)
    (hv : BlockDisplays envI ext refI (AndLabels envI 0 (Displays envI 0 ext refI n)) (.iface 0) (.iface 0) (some s) (fun _ _ => True) 0 blk v) :
    BlockDisplays envI ext refI (AndLabels envI 0 (Displays envI 0 ext refI (n + 1))) ty (.iface 0) (some spec) ok k
      ([b i], .mk [] [(b "main", blk)]) (.ref 3 [(b "Id", .str (b i)), (b "Main", v)]) := by
  have hs : SpecFld [(b "Main", s)] fMain := ⟨specI_of (by simp), .inl rfl⟩
  refine ⟨3, _, [(b "Main", s)], .given h rfl, hok, .iface rfl, ⟨orderly3 s, rfl, by simp [Body.attrs], by simp [Body.attrs], ?_, ?_⟩, labelsI3 i _⟩
  · intro x hx
    simp only [Body.blocks, List.mem_singleton] at hx
    exact ⟨fMain, by simp [envI, Env.flat, flatten], .inl hs, by rw [hx]; rfl⟩
  · intro f hf
    rcases List.mem_cons.1 hf with rfl | hf
    · exact ⟨_, rfl, displays_label label_fId ⟨_, rfl⟩⟩
    · rw [List.mem_singleton.1 hf]
      exact ⟨_, rfl, displays_block hs (.inr ⟨by simp [blocksOf, Body.blocks, show fMain.tag = b "main" from rfl], blk, rfl, hv⟩)⟩

theorem picture_displays : Displays envI 0 ext refI 3 specI picture 0 pictureStruct := by
  have hs : ∀ {f}, f ∈ [fShapes, fNamed, fMain] → SpecFld specI f := by
    intro f hf
    refine ⟨specI_of hf, .inl ?_⟩
    simp only [List.mem_cons, List.not_mem_nil, or_false] at hf
    rcases hf with rfl | rfl | rfl <;> rfl
  refine ⟨orderly0, rfl, ?_, by simp [picture, Body.attrs], ?_, ?_⟩
  · intro a ha
    simp only [picture, Body.attrs, List.mem_singleton] at ha
    exact ⟨fName, by simp [envI, Env.flat, flatten], .inl ⟨plain_of (by simp), rfl⟩, by rw [ha]; rfl⟩
  · intro x hx
    simp only [picture, Body.blocks, List.mem_cons, List.not_mem_nil, or_false] at hx
    rcases hx with rfl | rfl | rfl | rfl | rfl | rfl
    · exact ⟨fShapes, by simp [envI, Env.flat, flatten], .inl (hs (by simp)), rfl⟩
    · exact ⟨fNamed, by simp [envI, Env.flat, flatten], .inl (hs (by simp)), rfl⟩
    · exact ⟨fShapes, by simp [envI, Env.flat, flatten], .inl (hs (by simp)), rfl⟩
    · exact ⟨fMain, by simp [envI, Env.flat, flatten], .inl (hs (by simp)), rfl⟩
    · exact ⟨fShapes, by simp [envI, Env.flat, flatten], .inl (hs (by simp)), rfl⟩
    · exact ⟨fNamed, by simp [envI, Env.flat, flatten], .inl (hs (by simp)), rfl⟩
  · intro f hf
    have hf' : f = fName ∨ f = fShapes ∨ f = fNamed ∨ f = fMain := by simpa [envI, Env.flat, flatten] using hf
    rcases hf' with rfl | rfl | rfl | rfl
    · refine ⟨_, rfl, displays_plain ⟨plain_of (by simp), rfl⟩ ?_⟩
      have h : GoMap.get? picture.attrs fName.tag = some ⟨.str (b "n"), []⟩ := rfl
      simp only [AttrShows, h]
      exact ⟨.str, .str (b "n"), rfl, by simp, rfl⟩
    · refine ⟨_, rfl, displays_block (hs (by simp)) ?_⟩
      rw [show blocksOf picture fShapes.tag = [([b "i"], leaf "1"), ([b "f"], .mk [] [(b "main", [b "j"], leaf "3")]), ([], leaf "5")] from rfl]
      refine .inr ⟨by simp, _, rfl, .cons ?_ (.cons ?_ (.cons ?_ .nil))⟩
      · exact block1 "i" "1" (.nth rfl) trivial
      · exact block3 "f" (.nth rfl) trivial (block1 "j" "3" (.single (by simp) (by simp)) trivial)
      · exact block2 "5" (.nth rfl) trivial
    · refine ⟨_, rfl, displays_block (hs (by simp)) ?_⟩
      rw [show blocksOf picture fNamed.tag = [([b "k"], leaf "2"), ([b "a"], leaf "6")] from rfl]
      refine .inr ⟨by simp, _, [(b "k", two "2"), (b "a", one "a" "6")], rfl, ?_, List.Perm.swap _ _ _, .cons ?_ (.cons ?_ .nil)⟩
      · refine .cons ?_ (.cons (by simp) .nil)
        intro y hy
        rw [List.mem_singleton.1 hy]
        decide +kernel
      · exact block2 "2" (.key (by rfl)) rfl
      · exact block1 "a" "6" (.key (by rfl)) rfl
    · refine ⟨_, rfl, displays_block (hs (by simp)) ?_⟩
      rw [show blocksOf picture fMain.tag = [([b "g"], .mk [] [(b "main", [], leaf "4")])] from rfl]
      exact .inr ⟨by simp, _, rfl, block3 "g" (.single (by simp [fMain, fld]) (by simp [fMain, fld])) trivial
        (block2 "4" (.single (by simp) (by simp)) trivial)⟩

end Demo

-- `C106_decodes_interfaces` for this document and this specification.
example : let after := unmarshalSpec Demo.envI Demo.ext 2 (some Demo.picture) 0 (newFields Demo.envI Demo.ext 0) (some Demo.specI) ⟨[], Demo.refI⟩ none []
    after.outcome = .ok () ∧ after.target = Demo.pictureStruct :=
  C106_decodes_interfaces (fun _ _ => .refl _) rfl ⟨by simp, by simp, by simp⟩ (by simp) Demo.canonicalI Demo.picture_displays
    ⟨fun _ => rfl, fun h => absurd rfl h⟩ (by omega)

end Verif.HclS
