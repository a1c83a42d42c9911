import Verif.Lemmas.DetGraph
import Verif.Props.DetGlobal
/-!
# C159, C160: specifications that refer to themselves

`C159`: a specification in memory, shared or in cycles, is as good as one that is written out to the depth of the document, and `JsonUnmarshal` returns.

`C160`: a recursive type can be decoded with a specification that refers to itself.  This is so for lists and maps, which end where the document leaves them out
(`C160_partial`), but not for single fields: there is no document at all that is decoded (`C160_violated`).
-/
namespace Verif.Det

/-- A type that is a list of itself (0), one that points to itself (1), and one with two fields of another (2, 3). -/
def knotEnv : Env where
  struct
    | 0 => ⟨b "Node", b "t", [.mk (b "V") true (b "v") (.leaf 0) none, .mk (b "Kids") true (b "kids") (.slice (.ptr (.struct 0))) none]⟩
    | 1 => ⟨b "Chain", b "t", [.mk (b "Next") true (b "next") (.ptr (.struct 1)) none]⟩
    | 2 => ⟨b "Two", b "t", [.mk (b "A") true (b "a") (.ptr (.struct 3)) none, .mk (b "B") true (b "b") (.ptr (.struct 3)) none]⟩
    | 3 => ⟨b "Leaf", b "t", []⟩
    | _ => ⟨[], [], []⟩
  iface _ := ⟨[], fun _ => false⟩
  under _ := .leaf 0

/-- Their specifications in memory: 0 and 1 refer to themselves, 2 twice to the same struct. -/
def knot : Graph
  | 0 => ⟨b "Node", [(b "Kids", .list [0])]⟩
  | 1 => ⟨b "Chain", [(b "Next", .single 1)]⟩
  | 2 => ⟨b "Two", [(b "A", .single 3), (b "B", .single 3)]⟩
  | _ => ⟨b "Leaf", []⟩

theorem knot_collect (c : Nat) : collectN knotEnv (fresh knotEnv pairExt) [] 9 (.ptr (.struct c)) [] ≠ none := by
  match c with
  | 0 => decide
  | 1 => decide
  | 2 => decide
  | 3 => decide
  | _ + 4 => simp [collectN, Env.deref, Env.resolve, knotEnv]

/-- **C159: `JsonUnmarshal` returns** whatever cycles are in the specification, if it finds all types: a document needs no more than `calls` nested calls. -/
theorem C159_ends {env ext fuel} {g : Graph} {n : Nat} {ref path} {tgt : Inst} {a : Nat} {dat : Doc} (hn : dat.calls ≤ n)
    (hc : ∀ c, collectN env (fresh env ext) [] fuel (.ptr (.struct c)) [] ≠ none) (hm : mergeReg env ext fuel ref tgt.cls ≠ none) :
    unmarshalAt env ext fuel g n ref path tgt a dat ≠ .hang :=
  (levels_same n n n n hn hn hn hn path tgt a).2 ⟨hc, hm⟩

example (n : Nat) (a : Nat) (dat : Doc) (hn : dat.calls ≤ n) : unmarshalAt knotEnv pairExt 9 knot n [] [] ⟨0, []⟩ a dat ≠ .hang :=
  C159_ends hn knot_collect (by decide)

/-- **C159: a specification in memory is as good as one that is written out** to the depth of the document. -/
theorem C159_written_out {env ext fuel} {g : Graph} {n k : Nat} {ref path} {tgt : Inst} {a : Nat} {dat : Doc} (hn : dat.calls ≤ n) (hk : dat.calls ≤ k) :
    unmarshalAt env ext fuel g n ref path tgt a dat = decode env ext fuel ref path tgt (g.spec k a) dat := by
  rw [decode_eqN (max n (g.spec k a).depth) (Nat.le_max_right _ _)]
  exact (levels_same n _ n k hn (Nat.le_trans hn (Nat.le_max_left _ _)) hn hk path tgt a).1

/-- A tree of three nodes decoded with the specification that refers to itself. -/
example : unmarshalAt knotEnv pairExt 9 knot 7 [] [] ⟨0, []⟩ 0
    (some (.obj [(b "v", .atom (b "1")), (b "kids", .arr [.obj [(b "v", .atom (b "22"))], .obj [(b "kids", .arr [])]])])) =
    .ret ⟨0, [(b "V", .leaf 1), (b "Kids", .slice [.ref 0 [(b "V", .leaf 2), (b "Kids", .slice [])], .ref 0 [(b "V", .leaf 0), (b "Kids", .slice [])]])]⟩ false := by
  rfl

/-- **C159: sharing does not matter.** A specification that stands in memory for a tree, whatever is shared, does what the tree does. -/
theorem C159_tree {env ext fuel} {g : Graph} {n : Nat} {ref path} {tgt : Inst} {a : Nat} {s : Cls} {dat : Doc} (hs : Stands g a s) (hn : dat.calls ≤ n) :
    unmarshalAt env ext fuel g n ref path tgt a dat = decode env ext fuel ref path tgt s dat := by
  obtain ⟨k, hk⟩ := hs
  rw [← hk (max k dat.calls) (Nat.le_max_left _ _)]
  exact C159_written_out hn (Nat.le_max_right _ _)

example : Stands knot 2 (.mk (b "Two") [(b "A", .single (.mk (b "Leaf") [])), (b "B", .single (.mk (b "Leaf") []))]) := by
  refine ⟨2, fun m hm => ?_⟩
  obtain ⟨m, rfl⟩ := Nat.exists_eq_add_of_le hm
  rw [Nat.add_comm]
  rfl

/-- The structs of a specification that ask for another one of them in a single field, that of the type which the registry has for them. -/
structure Ring (env : Env) (reg : Reg) (g : Graph) (S : Nat → Prop) (cls : Nat → Nat) : Prop where
  next : ∀ a, S a → ∃ f ∈ loopFields (env.struct (cls a)).fields, ∃ a', GoMap.get? (g a).fields f.name = some (.single a') ∧ S a'
  types : ∀ a, S a → ∃ content, GoMap.get? reg (g a).name = some (.ptr (cls a) content)

/-- **C160 is violated**: with a specification that refers to itself by single fields no document is decoded, however deep: the innermost object would have to leave
the field out, and this is an error. -/
theorem C160_violated {env : Env} {ext : Ext} {fuel : Nat} {g : Graph} {S : Nat → Prop} {cls : Nat → Nat} (n : Nat) {ref : Ref} (hn : ref.keys.Nodup)
    {path} {tgt : Inst} {reg : Reg} (hm : mergeReg env ext fuel ref tgt.cls = some reg) (hr : Ring env reg g S cls) {a : Nat} (ha : S a) (ht : tgt.cls = cls a)
    (dat : Doc) (t' : Inst) : unmarshalAt env ext fuel g n ref path tgt a dat ≠ .ret t' false := by
  induction n generalizing ref path tgt reg a dat t' with
  | zero => simp [unmarshalAt, jsonUnmarshalN]
  | succ n ih =>
    intro h
    obtain ⟨f, hf, a', hs, ha'⟩ := hr.next a ha
    obtain ⟨reg', hreg, hx⟩ := at_single h (ht ▸ hf) hs
    rw [hm] at hreg
    cases hreg
    obtain ⟨content, hc⟩ := hr.types a' ha'
    obtain ⟨p, d, t, h'⟩ := hx (cls a') content hc
    cases n with
    | zero => simp [unmarshalAt, jsonUnmarshalN] at h'
    | succ n =>
      have hnd := toRef_nodup (mergeReg_spec hn hm).1
      obtain ⟨f', hf', b', hs', _⟩ := hr.next a' ha'
      obtain ⟨reg', hreg', _⟩ := at_single h' hf' hs'
      refine ih hnd hreg' ⟨hr.next, fun x hx => ?_⟩ ha' rfl d t h'
      obtain ⟨content, hc⟩ := hr.types x hx
      exact ⟨content, mergeReg_keeps hnd hreg' (by rw [toRef_get, hc]; rfl)⟩

/-- The chain: every document is refused, although `encoding/json` decodes `{}` and `{"next":{}}` into the type. -/
example (n : Nat) (dat : Doc) (t' : Inst) : unmarshalAt knotEnv pairExt 9 knot n [] [] ⟨1, []⟩ 1 dat ≠ .ret t' false := by
  refine C160_violated (S := fun a => a = 1) (cls := fun _ => 1) (reg := [(b "Chain", .ptr 1 _), (b "t.Chain", .ptr 1 _)]) n (by decide) rfl ⟨?_, ?_⟩ rfl rfl dat t'
  · rintro a rfl
    exact ⟨.mk (b "Next") true (b "next") (.ptr (.struct 1)) none, List.mem_of_getElem? (i := 0) rfl, 1, rfl, rfl⟩
  · rintro a rfl
    exact ⟨_, rfl⟩

/-- The fields that a document may leave out: not specified, or lists and maps of some struct for a field of that kind. -/
def MayMiss (env : Env) (f : Fld) : Option GVal → Prop
  | none => True
  | some .none => True
  | some (.single _) => False
  | some (.list l) => l ≠ [] ∧ ((∃ et, env.resolve f.ty = .slice et) ∨ ∃ kt et, env.resolve f.ty = .map kt et)
  | some (.map m) => m ≠ [] ∧ ∃ kt et, env.resolve f.ty = .map kt et
  | some (.map2 m) => (∃ e, getFirst m = some e ∧ e ≠ []) ∧ ∃ kt et, env.resolve f.ty = .map kt et

theorem getFirst_isSome {α : Type} {m : List (Bytes × α)} (h : m ≠ []) : ∃ v, getFirst m = some v := by
  cases m with
  | nil => exact absurd rfl h
  | cons e m => exact ⟨_, rfl⟩

theorem fieldValue_miss {env ext ord el path} {om : List (Bytes × GVal)} {s : Nat → Cls} {f : Fld} (hord : ∀ p, ord p [] = [])
    (h : MayMiss env f (GoMap.get? om f.name)) :
    ∃ o, fieldValue env ord el path (om.map fun e => (e.1, e.2.view s)) f (rawZero ext (rawKind env (om.map fun e => (e.1, e.2.view s)) f) f) = .ok o := by
  unfold fieldValue rawKind
  simp only [GoMap.get?_map om (GVal.view s)]
  cases hg : GoMap.get? om f.name with
  | none => exact ⟨_, rfl⟩
  | some v =>
    rw [hg] at h
    cases v with
    | none => exact ⟨none, rfl⟩
    | single a => exact h.elim
    | list l =>
      obtain ⟨hl, h⟩ := h
      cases l with
      | nil => exact absurd rfl hl
      | cons a l =>
        rcases h with ⟨et, h⟩ | ⟨kt, et, h⟩
        · exact ⟨some (.slice []), by simp [GVal.view, h, rawZero, handleListOrMapStruct, sliceLoop, Out.bind]⟩
        · exact ⟨some (.map []), by simp [GVal.view, h, rawZero, handleListOrMapStruct, GoMap.keys, hord, listMapLoop, Out.bind]⟩
    | map m =>
      obtain ⟨hm, kt, et, h⟩ := h
      obtain ⟨v, hv⟩ := getFirst_isSome (m := m.map fun e => (e.1, s e.2)) (by simpa using hm)
      exact ⟨some (.map []), by simp [GVal.view, rawZero, handleMapStruct, hv, h, GoMap.keys, hord, mapLoop, Out.bind]⟩
    | map2 m =>
      obtain ⟨⟨fm, hfm, hne⟩, kt, et, h⟩ := h
      have h1 := getFirst_map (List.map fun e : Bytes × Nat => (e.1, s e.2)) m
      rw [hfm] at h1
      obtain ⟨v, hv⟩ := getFirst_isSome (m := fm.map fun e => (e.1, s e.2)) (by simpa using hne)
      exact ⟨some (.map2 []), by simp [GVal.view, rawZero, handleMap2Struct, h1, hv, h, GoMap.keys, hord, map2Outer, Out.bind]⟩

theorem fieldLoop_ok_all {env ord el path} {om : List (Bytes × CVal)} : ∀ (l : List (Fld × Raw)) (tgt : Inst),
    (∀ x ∈ l, ∃ o, fieldValue env ord el path om x.1 x.2 = .ok o) → ∃ t, fieldLoop env ord el path om l tgt = .ret t false
  | [], tgt, _ => ⟨tgt, rfl⟩
  | (f, raw) :: l, tgt, h => by
    obtain ⟨o, ho⟩ := h (f, raw) (by simp)
    unfold fieldLoop
    simp only at ho
    rw [ho]
    cases o with
    | none => exact fieldLoop_ok_all l _ fun x hx => h x (by simp [hx])
    | some v => exact fieldLoop_ok_all l _ fun x hx => h x (by simp [hx])

/-- C160, the part that holds (missing: single fields, see `C160_violated`): by lists and maps a specification may refer to itself, an object that leaves all of
them out is decoded. -/
theorem C160_partial {env : Env} {ext : Ext} {fuel : Nat} {g : Graph} {n : Nat} {ref : Ref} {path} {tgt : Inst} {a : Nat} {reg : Reg}
    (hord : ∀ p ks, (ext.ord p ks).Perm ks) (h0 : (g a).fields ≠ []) (hreg : mergeReg env ext fuel ref tgt.cls = some reg)
    (hd : ((loopFields (env.struct tgt.cls).fields).map Fld.name).Nodup) (hst : ext.structOf (loopFields (env.struct tgt.cls).fields) = true)
    (hf : ∀ f ∈ loopFields (env.struct tgt.cls).fields, MayMiss env f (GoMap.get? (g a).fields f.name)) (hn : 1 ≤ n) :
    ∃ t', unmarshalAt env ext fuel g n ref path tgt a (some (.obj [])) = .ret t' false := by
  obtain ⟨n, rfl⟩ := Nat.exists_eq_add_of_le hn
  rw [Nat.add_comm]
  unfold unmarshalAt
  simp only [jsonUnmarshalN]
  unfold jsonUnmarshalStep
  simp only [Graph.spec, Cls.fields, List.map_eq_nil_iff, if_neg h0, hreg]
  rw [if_neg (by simp [hd, hst])]
  simp only [rawDecode, List.foldlM_nil, Option.pure_def]
  refine fieldLoop_ok_all _ _ fun x hx => ?_
  rw [List.zip_map_right] at hx
  obtain ⟨⟨f, f'⟩, hz, rfl⟩ := List.mem_map.1 hx
  obtain ⟨i, hi⟩ := List.mem_iff_getElem?.1 hz
  rw [List.getElem?_zip_eq_some] at hi
  have he : f = f' := by simpa [hi.1] using hi.2
  subst he
  exact fieldValue_miss (fun p => List.perm_nil.1 (hord p [])) (hf f (List.mem_of_getElem? hi.1))

/-- The node that is a list of itself. -/
example : ∃ t', unmarshalAt knotEnv pairExt 9 knot 1 [] [] ⟨0, []⟩ 0 (some (.obj [])) = .ret t' false := by
  refine C160_partial (reg := [(b "Node", .ptr 0 _), (b "t.Node", .ptr 0 _)]) (fun _ _ => .refl _) (by simp [knot]) rfl
    (by decide) rfl (fun f hf => ?_) (Nat.le_refl _)
  replace hf : f ∈ [Fld.mk (b "V") true (b "v") (.leaf 0) none, .mk (b "Kids") true (b "kids") (.slice (.ptr (.struct 0))) none] := hf
  simp only [List.mem_cons, List.not_mem_nil, or_false] at hf
  rcases hf with rfl | rfl
  · trivial
  · exact ⟨by simp, .inl ⟨_, rfl⟩⟩

end Verif.Det
