import Verif.Props.HclStruct
import Verif.Lemmas.HclStructState
/-!
# Decoding HCL into a struct: determinism, effects on the arguments, failures
-/
set_option linter.unusedSimpArgs false

namespace Verif.HclS
open Tree (Heap)
open Hcl (Cty Expr)
open Det (Cls CVal KeyTy insertK ltB)

/-! ## Determinism -/

/-- The same, with maps iterated from the end. -/
def Demo.ext' : Ext := { Demo.ext with ord := fun _ l => l.reverse }

theorem Demo.orders : (∀ p l, (Demo.ext.ord p l).Perm l) ∧ (∀ p l, (Demo.ext'.ord p l).Perm l) :=
  ⟨fun _ _ => List.Perm.refl _, fun _ l => List.reverse_perm l⟩

/-- A specification with two classes. -/
def Demo.twoClasses : List (Bytes × CVal) := [(b "Table", .map [(b "x", .mk (b "Item") []), (b "w", .mk (b "Other") [])])]

/-- **C59 is violated**: the class of a block whose label is not in the specification is chosen at random. -/
theorem C59_violated_class :
    GoMap.get? (Demo.run Demo.ext Demo.twoClasses (.mk [] [(b "table", [b "a"], Demo.leaf "1")])).1 (b "Table") =
      some (.map [(b "a", .ref 1 [(b "Id", .str (b "a")), (b "Val", .str (b "1"))])]) ∧
    GoMap.get? (Demo.run Demo.ext' Demo.twoClasses (.mk [] [(b "table", [b "a"], Demo.leaf "1")])).1 (b "Table") =
      some (.map [(b "a", .ref 2 [(b "Val", .str (b "1"))])]) := ⟨rfl, rfl⟩

/-- `alt = "v"` and `name = alt`. -/
def Demo.refers : Body := .mk [Demo.str "alt" "v", (b "name", ⟨.ident (b "alt"), []⟩)] []

/-- **C59 is violated**: whether an attribute can refer to another one of the same body is decided at random. -/
theorem C59_violated_reference :
    (Demo.outcome (Demo.run Demo.ext [] Demo.refers)).2 = none ∧
    (Demo.outcome (Demo.run Demo.ext' [] Demo.refers)).2 = some .err := ⟨rfl, rfl⟩

/-- If a call succeeds, then so it does with every other map order, after other calls, and with the same result. -/
theorem unmarshalSpec_sim {env : Env} {ext : Ext} {o : List Bytes → List Bytes → List Bytes} {n cls : Nat} {body : Option Body}
    {target : Fields} {spec : Option (List (Bytes × CVal))} {st st' : St} {root root' : Option Nat} {labels : List Bytes}
    (ho1 : ∀ p l, (ext.ord p l).Perm l) (ho2 : ∀ p l, (o p l).Perm l)
    (hlit : ∀ x, body = some x → Literal ext x) (hspec : ∀ x, spec = some x → UniSpec x)
    (href : RefLe st.ref st'.ref) (hinv : Tree.Inv st'.heap) (hroot : ∀ r, root' = some r → r < st'.heap.length)
    (hok : (unmarshalSpec env ext n body cls target spec st root labels).outcome = .ok ()) :
    (unmarshalSpec env (ext.reorder o) n body cls target spec st' root' labels).outcome = .ok () ∧
    (unmarshalSpec env (ext.reorder o) n body cls target spec st' root' labels).target =
      (unmarshalSpec env ext n body cls target spec st root labels).target ∧
    (unmarshalSpec env (ext.reorder o) n body cls target spec st' root' labels).spec =
      (unmarshalSpec env ext n body cls target spec st root labels).spec ∧
    RefLe (unmarshalSpec env ext n body cls target spec st root labels).ref
      (unmarshalSpec env (ext.reorder o) n body cls target spec st' root' labels).ref := by
  cases body with
  | none => cases hok
  | some body =>
    have hl := hlit body rfl
    have hu : UniSpec (spec.getD []) := by
      cases spec with
      | none => intro k v hv; cases hv
      | some x => exact hspec x rfl
    have hlt := defaultTree_root hroot
    have hinv' := (defaultTree_step st'.heap root' hinv).1
    generalize hd' : defaultTree st'.heap root' = d' at hlt hinv'
    obtain ⟨h', r'⟩ := d'
    generalize hd : defaultTree st.heap root = d
    obtain ⟨h, r⟩ := d
    simp only [unmarshalSpec, hd, hd'] at hok ⊢
    cases hrun : decode env ext r (n + 1) [] ⟨h, st.ref⟩ r cls target (spec.getD []) labels body with
    | mk fs out =>
      rw [hrun] at hok
      cases out with
      | error e => cases hok
      | ok st1 =>
        obtain ⟨st1', h1, h2, _⟩ := decode_sim ho1 ho2 (n + 1) [] [] ⟨h, st.ref⟩ ⟨h', st'.ref⟩ r r' cls target (spec.getD []) labels
          body fs st1 hl hu ⟨href, hinv', hlt⟩ hlt hrun
        simp only [h1]
        refine ⟨trivial, trivial, ?_, h2.ref⟩
        cases spec with
        | none => rfl
        | some obj =>
          obtain ⟨p, hp, _⟩ := decode_ok hrun
          obtain ⟨_, _, hpre, _, _, _⟩ := prepare_ok hp
          have hl' : ∀ a ∈ body.attrs, Lit a.2.expr := by cases hl with | mk h0 => exact h0
          obtain ⟨p', hp', hps⟩ := prepare_sim (st := ⟨h, st.ref⟩) (st' := ⟨h', st'.ref⟩) (path' := []) (o := o) ho1 ho2 hl' hu href hinv' hlt hlt hp
          obtain ⟨_, _, hpre', _, _, _⟩ := prepare_ok hp'
          simp only [Option.getD_some] at hpre hpre'
          have hobj : p'.lf.obj = p.lf.obj := by rw [hps.lf]; rfl
          simp only [specAfter, Option.map_some, hpre, hpre', hobj]

/-- **C59, partial.** For documents of literals and specifications in which every default is determined the result does not
depend on the map order: either both calls succeed, with equal targets and specifications and the same classes in `ref`, or both
fail. -/
theorem C59_partial {env : Env} {ext : Ext} {o : List Bytes → List Bytes → List Bytes} {n cls : Nat} {body : Option Body}
    {target : Fields} {spec : Option (List (Bytes × CVal))} {st : St} {root : Option Nat} {labels : List Bytes}
    (ho1 : ∀ p l, (ext.ord p l).Perm l) (ho2 : ∀ p l, (o p l).Perm l)
    (hlit : ∀ x, body = some x → Literal ext x) (hspec : ∀ x, spec = some x → UniSpec x)
    (hinv : Tree.Inv st.heap) (hroot : ∀ r, root = some r → r < st.heap.length)
    (a a' : After) (ha : a = unmarshalSpec env ext n body cls target spec st root labels)
    (ha' : a' = unmarshalSpec env { ext with ord := o } n body cls target spec st root labels) :
    (a.outcome = .ok () ↔ a'.outcome = .ok ()) ∧
    (a.outcome = .ok () → a'.target = a.target ∧ a'.spec = a.spec ∧ ∀ k, GoMap.get? a'.ref k = GoMap.get? a.ref k) := by
  have fwd := unmarshalSpec_sim (env := env) (n := n) (cls := cls) (target := target) (labels := labels) (root := root)
    ho1 ho2 hlit hspec (RefLe.refl st.ref) hinv hroot
  have bwd := unmarshalSpec_sim (env := env) (n := n) (cls := cls) (target := target) (labels := labels) (root := root)
    (ext := ext.reorder o) (o := ext.ord) ho2 ho1 (fun x hx => literal_reorder o (hlit x hx)) hspec (RefLe.refl st.ref) hinv hroot
  subst ha ha'
  refine ⟨⟨fun h => (fwd h).1, fun h => (bwd h).1⟩, fun h => ?_⟩
  obtain ⟨h1, h2, h3, h4⟩ := fwd h
  refine ⟨h2, h3, fun k => ?_⟩
  have h5 := (bwd h1).2.2.2
  cases hk : GoMap.get? (unmarshalSpec env ext n body cls target spec st root labels).ref k with
  | some t => exact h4 k t hk
  | none =>
    cases hk' : GoMap.get? (unmarshalSpec env { ext with ord := o } n body cls target spec st root labels).ref k with
    | none => rfl
    | some t =>
      have h6 : GoMap.get? (unmarshalSpec env ext n body cls target spec st root labels).ref k = some t := h5 k t hk'
      rw [hk] at h6; cases h6

theorem Demo.heap0_inv : Tree.Inv Demo.heap0 := by
  refine ⟨?_, ?_, ?_⟩ <;> intro i nd h <;> rcases i with _ | i <;> simp [Demo.heap0] at h <;> subst h <;> simp

theorem Demo.literal_str {ks : List (String × String)} {blocks : List (Bytes × List Bytes × Body)} (hb : ∀ x ∈ blocks, Literal Demo.ext x.2.2) :
    Literal Demo.ext (.mk (ks.map fun x => Demo.str x.1 x.2) blocks) := by
  refine .mk ?_ ?_ ?_ ?_ hb
  · intro a ha
    obtain ⟨x, _, rfl⟩ := List.mem_map.1 ha
    exact .str
  · intro a _ s h n v h' he; cases he
  · intro x _ s h n v h' he; cases he
  · intro a ha blk hblk
    obtain ⟨x, _, rfl⟩ := List.mem_map.1 ha
    cases hblk

theorem Demo.literal_leaf (v : String) : Literal Demo.ext (Demo.leaf v) :=
  Demo.literal_str (ks := [("val", v)]) (fun x hx => by cases hx)

theorem Demo.literal_doc : Literal Demo.ext Demo.doc :=
  Demo.literal_str (ks := [("name", "n")]) (fun x hx => by
    simp only [List.mem_cons, List.not_mem_nil, or_false] at hx
    rcases hx with rfl | rfl | rfl <;> exact Demo.literal_leaf _)

/-- Both classes of a map the same, for labels that are in it and for others. -/
def Demo.oneClass : List (Bytes × CVal) := [(b "Table", .map [(b "x", .mk (b "Item") []), (b "w", .mk (b "Item") [])])]

theorem Demo.oneClass_uni : UniSpec Demo.oneClass := by
  intro k v hv
  have hm := GoMap.get?_mem hv
  simp only [Demo.oneClass, List.mem_singleton, Prod.mk.injEq] at hm
  rw [hm.2]
  refine .map ?_ ?_
  · intro e he
    simp only [List.mem_cons, List.not_mem_nil, or_false] at he
    rcases he with rfl | rfl <;> exact uniC_plain _
  · intro e he e' he'
    simp only [List.mem_cons, List.not_mem_nil, or_false] at he he'
    rcases he with rfl | rfl <;> rcases he' with rfl | rfl <;> rfl

-- A document to which it applies: two attributes and two blocks.
def Demo.big : Body := .mk [Demo.str "name" "n", Demo.str "alt" "a"]
  [(b "table", [b "q"], Demo.leaf "4"), (b "table", [b "w"], Demo.leaf "5")]

theorem Demo.literal_big : Literal Demo.ext Demo.big :=
  Demo.literal_str (ks := [("name", "n"), ("alt", "a")]) (fun x hx => by
    simp only [List.mem_cons, List.not_mem_nil, or_false] at hx
    rcases hx with rfl | rfl <;> exact Demo.literal_leaf _)

example : Demo.outcome (Demo.run Demo.ext Demo.oneClass Demo.big) =
    ([(b "Name", .str (b "n")), (b "Alt", .str (b "a")),
      (b "Items", .leaf 0),
      (b "Table", .map [(b "q", .ref 1 [(b "Id", .str (b "q")), (b "Val", .str (b "4"))]),
        (b "w", .ref 1 [(b "Id", .str (b "w")), (b "Val", .str (b "5"))])]),
      (b "Pairs", .leaf 0), (b "One", .leaf 0)], none) := by rfl

/-! ## The arguments -/

/-- **C60, partial.** What a successful call does to its arguments: in `ref` only names of struct and pointer types are set,
to new values of these types; the entries of the specification stay, new ones are for exported fields that it did not name;
a nil specification stays nil; the tree only grows. -/
theorem C60_partial {env : Env} {ext : Ext} {n cls : Nat} {body : Option Body} {target : Fields}
    {spec : Option (List (Bytes × CVal))} {st : St} {root : Option Nat} {labels : List Bytes} (hdyn : DynAdds ext)
    (hinv : Tree.Inv st.heap) (a : After) (ha : a = unmarshalSpec env ext n body cls target spec st root labels)
    (hok : a.outcome = .ok ()) :
    (∀ k, GoMap.get? a.ref k = GoMap.get? st.ref k ∨ ∃ t, TypeEntry env ext k t ∧ GoMap.get? a.ref k = some t) ∧
    (spec = none → a.spec = none) ∧
    (∀ obj, spec = some obj → ∃ obj', a.spec = some obj' ∧
      (∀ k v, GoMap.get? obj k = some v → GoMap.get? obj' k = some v) ∧
      ∀ k v, GoMap.get? obj' k = some v → GoMap.get? obj k = some v ∨
        (GoMap.get? obj k = none ∧ ∃ f ∈ flat env n (env.struct cls).fields, f.name = k)) ∧
    Tree.Inv a.heap ∧ Tree.Le st.heap a.heap := by
  subst ha
  cases body with
  | none => cases hok
  | some body =>
    obtain ⟨hi, hle⟩ := defaultTree_step st.heap root hinv
    generalize hd : defaultTree st.heap root = d at hi hle
    obtain ⟨h, r⟩ := d
    simp only [unmarshalSpec, hd] at hok ⊢
    cases hrun : decode env ext r (n + 1) [] ⟨h, st.ref⟩ r cls target (spec.getD []) labels body with
    | mk fs out =>
      rw [hrun] at hok
      cases out with
      | error e => cases hok
      | ok st1 =>
        obtain ⟨hi1, hl1⟩ := decode_rel (heapRel hdyn env r) _ _ _ _ _ _ _ _ _ _ _ hrun hi
        refine ⟨decode_rel (refRel env ext r) _ _ ⟨h, st.ref⟩ _ _ _ _ _ _ _ _ hrun, ?_, ?_, hi1, hle.trans hl1⟩
        · rintro rfl; rfl
        · rintro obj rfl
          obtain ⟨p, hp, _⟩ := decode_ok hrun
          obtain ⟨_, _, hpre, _, _, _⟩ := prepare_ok hp
          obtain ⟨_, _, _, hl⟩ := prelude_ok hpre
          simp only [Option.getD_some] at hpre hl
          refine ⟨p.lf.obj, by simp only [specAfter, Option.map_some, hpre], (loopFields_grows _ _ _ _ hl).obj, ?_⟩
          intro k v hk
          cases hg : GoMap.get? obj k with
          | some w =>
            have := (loopFields_grows _ _ _ _ hl).obj k w hg
            rw [hk] at this; cases this; exact Or.inl rfl
          | none =>
            refine Or.inr ⟨rfl, ?_⟩
            rcases (deep_loopFields n).keys _ _ _ hl k (by rw [hk]; rfl) with h1 | h1
            · simp only at h1; rw [hg] at h1; cases h1
            · obtain ⟨f, hf, hn⟩ := List.mem_map.1 h1
              obtain ⟨l, h2, h3⟩ := loopFields_found n _ _ _ hl
              have h2 : p.lf.all.Perm l := by simpa [LF.all] using h2
              exact ⟨f, h3.subset (h2.mem_iff.1 (by simp [LF.all, hf])), hn⟩

theorem Demo.dynAdds : DynAdds Demo.ext := ⟨(fun _ _ _ _ _ _ _ h => by cases h), (fun _ _ _ _ _ _ _ h => by cases h)⟩

/-- **C60, partial: history.** After a successful call with an arbitrary document, the call that would have succeeded without it
succeeds with the same target, if its document consists of literals, its specification determines every default, and
names of types stand for these types in `ref`. -/
theorem C60_history_partial {env : Env} {ext : Ext} {n n' cls cls' : Nat} {body body' : Option Body} {target target' : Fields}
    {spec spec' : Option (List (Bytes × CVal))} {st : St} {root : Option Nat} {labels labels' : List Bytes}
    (hord : ∀ p l, (ext.ord p l).Perm l) (hdyn : DynAdds ext) (hinv : Tree.Inv st.heap)
    (hroot : ∀ r, root = some r → r < st.heap.length) (hcan : Canonical env ext st.ref)
    (first : After) (hfirst : first = unmarshalSpec env ext n' body' cls' target' spec' st root labels') (hok' : first.outcome = .ok ())
    (hlit : ∀ x, body = some x → Literal ext x) (hspec : ∀ x, spec = some x → UniSpec x)
    (alone after : After) (halone : alone = unmarshalSpec env ext n body cls target spec st root labels)
    (hafter : after = unmarshalSpec env ext n body cls target spec ⟨first.heap, first.ref⟩ (some first.root) labels)
    (hok : alone.outcome = .ok ()) :
    after.outcome = .ok () ∧ after.target = alone.target ∧ after.spec = alone.spec := by
  obtain ⟨hr, _, _, hi, hle⟩ := C60_partial hdyn hinv first hfirst hok'
  have hrs : RefStep env ext st.ref first.ref := hr
  have hlen : first.root < first.heap.length := by
    have hlt := defaultTree_root hroot
    obtain ⟨hi0, hle0⟩ := defaultTree_step st.heap root hinv
    generalize hd : defaultTree st.heap root = d at hlt hi0
    obtain ⟨h, r⟩ := d
    subst hfirst
    cases body' with
    | none => cases hok'
    | some body' =>
      simp only [unmarshalSpec, hd] at hok' ⊢
      cases hrun : decode env ext r (n' + 1) [] ⟨h, st.ref⟩ r cls' target' (spec'.getD []) labels' body' with
      | mk fs out =>
        cases out with
        | error e => exact hlt
        | ok st1 =>
          obtain ⟨_, hl1⟩ := decode_rel (heapRel hdyn env r) _ _ _ _ _ _ _ _ _ _ _ hrun hi0
          exact Nat.lt_of_lt_of_le hlt hl1.length
  subst halone hafter
  obtain ⟨h1, h2, h3, _⟩ := unmarshalSpec_sim (o := ext.ord) (st' := ⟨first.heap, first.ref⟩) (root' := some first.root) hord hord hlit hspec
    (hrs.le hcan) hi (fun r hr => by cases hr; exact hlen) hok
  exact ⟨h1, h2, h3⟩

theorem Demo.struct_inj : ∀ c c', (Demo.env.struct c).str = (Demo.env.struct c').str → c = c' := by
  have ht : ∀ n, (Demo.env.struct (n + 5)).str = b "main.T" ++ List.replicate n 120 := fun _ => rfl
  have h6 : ∀ n, ((Demo.env.struct (n + 5)).str).take 6 = b "main.T" := by
    intro n; rw [ht, List.take_append_of_le_length (by decide +kernel)]; decide +kernel
  have h3 : ∀ c, c < 5 → ((Demo.env.struct c).str).take 6 ≠ b "main.T" := by decide +kernel
  have h0 : ∀ c c', c < 5 → c' < 5 → (Demo.env.struct c).str = (Demo.env.struct c').str → c = c' := by
    intro c c' hc hc'
    have : ∀ c : Fin 5, ∀ c' : Fin 5, (Demo.env.struct c).str = (Demo.env.struct c').str → c = c' := by decide +kernel
    intro h; exact congrArg Fin.val (this ⟨c, hc⟩ ⟨c', hc'⟩ h)
  intro c c' h
  by_cases hc : c < 5 <;> by_cases hc' : c' < 5
  · exact h0 c c' hc hc' h
  · obtain ⟨n, rfl⟩ : ∃ n, c' = n + 5 := ⟨c' - 5, by omega⟩
    exact absurd (h ▸ h6 n) (h3 c hc)
  · obtain ⟨n, rfl⟩ : ∃ n, c = n + 5 := ⟨c - 5, by omega⟩
    exact absurd (h ▸ h6 n) (h3 c' hc')
  · obtain ⟨n, rfl⟩ : ∃ n, c = n + 5 := ⟨c - 5, by omega⟩
    obtain ⟨n', rfl⟩ : ∃ n, c' = n + 5 := ⟨c' - 5, by omega⟩
    rw [ht, ht] at h
    have := congrArg List.length h
    simp only [List.length_append, List.length_replicate] at this
    omega

theorem Demo.struct_head (c : Nat) : ∃ r, (Demo.env.struct c).str = 109 :: r := by
  rcases c with _ | _ | _ | _ | _ | n <;> exact ⟨_, rfl⟩

theorem Demo.tyStr_new {t t' : Ty} (h : Demo.env.tyStr t = Demo.env.tyStr t') : newOf Demo.env Demo.ext t = newOf Demo.env Demo.ext t' := by
  have other : ∀ (t : Ty) c, Demo.env.tyStr t = (Demo.env.struct c).str → ∃ d, t = .struct d := by
    intro t c h
    obtain ⟨r, hr⟩ := Demo.struct_head c
    rw [hr] at h
    cases t with
    | struct d => exact ⟨d, rfl⟩
    | ptr t => simp only [Env.tyStr, List.cons.injEq] at h; exact absurd h.1 (by decide)
    | _ =>
      have hq : (b "?").head? = some 109 := congrArg List.head? h
      exact absurd hq (by decide +kernel)
  by_cases hs : ∃ c, t = .struct c
  · obtain ⟨c, rfl⟩ := hs
    obtain ⟨d, rfl⟩ := other t' c h.symm
    rw [Demo.struct_inj c d h]
  · by_cases hs' : ∃ c, t' = .struct c
    · obtain ⟨c, rfl⟩ := hs'
      exact absurd (other t c h) hs
    · have bad : ∀ t : Ty, (¬ ∃ c, t = .struct c) → newOf Demo.env Demo.ext t = .bad := by
        intro t ht
        cases t <;> first | rfl | exact absurd ⟨_, rfl⟩ ht
      rw [bad t hs, bad t' hs']

theorem Demo.canonical : Canonical Demo.env Demo.ext Demo.ref0 := by
  have hno : ∀ k t, TypeEntry Demo.env Demo.ext k t → ∃ c r, k = c :: r ∧ (c = 109 ∨ c = 42) := by
    intro k t h
    cases h with
    | struct c => obtain ⟨r, hr⟩ := Demo.struct_head c; exact ⟨_, r, hr, Or.inl rfl⟩
    | ptr t => exact ⟨42, _, rfl, Or.inr rfl⟩
  intro k t h
  constructor
  · intro t' ht'
    obtain ⟨c, r, hk, hc⟩ := hno k t h
    have hm := GoMap.get?_mem ht'
    simp only [Demo.ref0, List.mem_cons, Prod.mk.injEq, List.not_mem_nil, or_false] at hm
    have hh : k.head? = some 109 ∨ k.head? = some 42 := by
      rw [hk]; rcases hc with rfl | rfl
      · exact Or.inl rfl
      · exact Or.inr rfl
    rcases hm with ⟨h1, _⟩ | ⟨h1, _⟩ <;> rw [h1] at hh <;> exact absurd hh (by decide +kernel)
  · intro t' ht'
    have key : ∀ {k t}, TypeEntry Demo.env Demo.ext k t → ∀ {t'}, TypeEntry Demo.env Demo.ext k t' → t' = t := by
      intro k t h t' h'
      cases h with
      | struct c =>
        generalize hk : Demo.env.tyStr (.struct c) = k at h'
        cases h' with
        | struct d => exact (Demo.tyStr_new hk).symm
        | ptr d =>
          obtain ⟨r, hr⟩ := Demo.struct_head c
          have : (Demo.env.struct c).str = 42 :: Demo.env.tyStr d := hk
          rw [hr] at this
          exact absurd (List.cons.inj this).1 (by decide)
      | ptr t =>
        generalize hk : Demo.env.tyStr (.ptr t) = k at h'
        cases h' with
        | struct d =>
          obtain ⟨r, hr⟩ := Demo.struct_head d
          have : 42 :: Demo.env.tyStr t = (Demo.env.struct d).str := hk
          rw [hr] at this
          exact absurd (List.cons.inj this).1 (by decide)
        | ptr d => exact (Demo.tyStr_new (List.cons.inj hk).2).symm
    exact key h ht'

def Demo.call (spec : Option (List (Bytes × CVal))) (st : St) (root : Option Nat) (body : Body) : After :=
  unmarshalSpec Demo.env Demo.ext 1 (some body) 0 Demo.blank spec st root []

/-- **C60 is violated**: the specification has entries for three more fields, `ref` two more classes. -/
theorem C60_violated_arguments :
    (Demo.call (some []) ⟨[], Demo.ref0⟩ none (.mk [] [])).spec =
      some [(b "Items", .list [.mk (b "*main.Item") []]), (b "Pairs", .map2 [([], [([], .mk (b "*main.Other") [])])]),
        (b "One", .single (.mk (b "main.Item") []))] ∧
    (Demo.call (some []) ⟨[], Demo.ref0⟩ none (.mk [] [])).ref.map Prod.fst =
      [b "Item", b "Other", b "*main.Item", b "*main.Other", b "main.Item"] := ⟨rfl, rfl⟩

/-- **C60 is violated**: a second call with the same `ref` sees the variables of the first document. -/
theorem C60_violated_history :
    let first := Demo.call none ⟨[], Demo.ref0⟩ none (.mk [Demo.str "alt" "v"] [])
    let doc := Body.mk [(b "name", ⟨.ident (b "alt"), []⟩)] []
    (Demo.call none ⟨[], Demo.ref0⟩ none doc).outcome = .error .err ∧
    (Demo.call none ⟨first.heap, first.ref⟩ (some first.root) doc).outcome = .ok () ∧
    GoMap.get? (Demo.call none ⟨first.heap, first.ref⟩ (some first.root) doc).target (b "Name") = some (.str (b "v")) :=
  ⟨rfl, rfl, rfl⟩

-- A history to which `C60_history_partial` applies, with the hypotheses about the environment.
example :
    let first := Demo.call none ⟨Demo.heap0, Demo.ref0⟩ (some 0) (.mk [Demo.str "alt" "v"] [])
    first.outcome = .ok () ∧ Canonical Demo.env Demo.ext Demo.ref0 ∧ DynAdds Demo.ext ∧ Tree.Inv Demo.heap0 ∧
    (Demo.call none ⟨Demo.heap0, Demo.ref0⟩ (some 0) (.mk [] [(b "items", [b "a"], Demo.leaf "1")])).outcome = .ok () ∧
    GoMap.get? (Demo.call none ⟨first.heap, first.ref⟩ (some first.root) (.mk [] [(b "items", [b "a"], Demo.leaf "1")])).target (b "Items") =
      some (.slice [.ref 1 [(b "Id", .str (b "a")), (b "Val", .str (b "1"))]]) :=
  ⟨rfl, Demo.canonical, Demo.dynAdds, Demo.heap0_inv, rfl, rfl⟩

/-! ## Failures -/

/-- **C62 is violated**: documents for which decoding panics. A block without label for a map field; a label given as
attribute that is not a string. -/
theorem C62_violated :
    (Demo.outcome (Demo.run Demo.ext [(b "Table", .list [.mk (b "Item") []])] (.mk [] [(b "table", [], Demo.leaf "1")]))).2 =
      some .panic ∧
    (Demo.outcome (Demo.run Demo.ext [] (.mk [] [(b "items", [], .mk [(b "id", ⟨.ident (b "true"), []⟩)] [])]))).2 =
      some .panic := ⟨rfl, rfl⟩

/-- **C63 is violated**: decoding fails at a block, but the fields before it have been changed. -/
theorem C63_violated :
    Demo.outcome (Demo.run Demo.ext [] (.mk [Demo.str "name" "n"] [(b "items", [b "a"], .mk [Demo.str "zzz" "1"] [])])) =
      ((b "Name", .str (b "n")) :: Demo.blank.tail, some .err) := rfl

/-- **C64 is violated**: of several blocks for a field that holds one struct only the first is looked at; the second
here is wrong. -/
theorem C64_violated :
    Demo.outcome (Demo.run Demo.ext [] (.mk [] [(b "one", [b "a"], Demo.leaf "1"), (b "one", [], .mk [Demo.str "zzz" "1"] [])])) =
    Demo.outcome (Demo.run Demo.ext [] (.mk [] [(b "one", [b "a"], Demo.leaf "1")])) ∧
    (Demo.outcome (Demo.run Demo.ext [] (.mk [] [(b "one", [b "a"], Demo.leaf "1")]))).2 = none ∧
    (Demo.outcome (Demo.run Demo.ext [] (.mk [] [(b "one", [], .mk [Demo.str "zzz" "1"] [])]))).2 = some .err := ⟨rfl, rfl, rfl⟩

end Verif.HclS
