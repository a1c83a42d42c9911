import Verif.Lemmas.HclStructFail
import Verif.Props.OwnStruct
/-!
# C115, C116: no failure of a part is swallowed
-/
namespace Verif.HclS
open Hcl (Cty)
open Det (CVal)

theorem Methods.none_le : Methods.none.Le Methods.none := ⟨fun _ _ => trivial, fun _ => trivial⟩

theorem doneOk {rec rec' : Rec} (hr : RecLe rec rec') {path st node c fs obj labels body}
    (h : (Done.of (rec path st node c fs obj labels body)).outcome = .ok ()) :
    Done.of (rec' path st node c fs obj labels body) = Done.of (rec path st node c fs obj labels body) := by
  cases h1 : rec path st node c fs obj labels body with
  | mk fs' o =>
    rw [h1] at h
    cases o with
    | error e => cases h
    | ok st' => rw [hr _ _ _ _ _ _ _ _ _ _ h1]

/-- **C115: `UnmarshalSpec`.** If the call succeeds, no method, field decoder, decoder of generic data or text of an object has failed on the way: whatever
the failing ones would have given instead, the target is the same.  The bounds on the recursion do not matter either. -/
theorem C115_spec {ms ms' : Methods} {env : Env} {ext ext' : Ext} {n m : Nat} (hm : ms.Le ms') (hx : ext.Le ext') (hn : n ≤ m)
    {body : Option Body} {c : Nat} {target : Fields} {spec : Option (List (Bytes × CVal))} {st : St} {root : Option Nat} {labels : List Bytes}
    (h : (unmarshalSpecOwn ms env ext n body c target spec st root labels).outcome = .ok ()) :
    unmarshalSpecOwn ms' env ext' m body c target spec st root labels = unmarshalSpecOwn ms env ext n body c target spec st root labels := by
  cases body with
  | none => cases h
  | some body => exact doneOk (decodeOwn_le hm hx _ (Nat.succ_le_succ hn)) h

/-- **C115: `Unmarshal`.** The same, with the method of the target itself. -/
theorem C115_unmarshal {ms ms' : Methods} {env : Env} {ext ext' : Ext} {n m : Nat} (hm : ms.Le ms') (hx : ext.Le ext') (hn : n ≤ m)
    {body : Option Body} {c : Nat} {target : Fields} {labels : List Bytes}
    (h : (unmarshalOwn ms env ext n body c target labels).outcome = .ok ()) :
    unmarshalOwn ms' env ext' m body c target labels = unmarshalOwn ms env ext n body c target labels := by
  have hu := hm.unmarshal c
  unfold unmarshalOwn at h ⊢
  cases h1 : ms.unmarshal c with
  | none =>
    cases h2 : ms'.unmarshal c with
    | some u' => rw [h1, h2] at hu; exact hu.elim
    | none => rw [h1] at h; exact C115_spec hm hx hn h
  | some u =>
    cases h2 : ms'.unmarshal c with
    | none => rw [h1, h2] at hu; exact hu.elim
    | some u' =>
      rw [h1, h2] at hu
      rw [h1] at h
      cases body with
      | none => cases h
      | some body =>
        dsimp only at h hu ⊢
        cases h3 : u target labels body with
        | error e => rw [h3] at h; cases h
        | ok z => rw [hu _ _ _ _ h3]

/-- **C115: failures are reported.** If two ways to complete the failing methods lead to different results, then the call fails. -/
theorem C115_reported {ms ms₁ ms₂ : Methods} {env : Env} {ext ext₁ ext₂ : Ext} {n : Nat} (h₁ : ms.Le ms₁) (h₂ : ms.Le ms₂)
    (x₁ : ext.Le ext₁) (x₂ : ext.Le ext₂) {body : Option Body} {c : Nat} {target : Fields} {labels : List Bytes}
    (h : unmarshalOwn ms₁ env ext₁ n body c target labels ≠ unmarshalOwn ms₂ env ext₂ n body c target labels) :
    ∃ e, (unmarshalOwn ms env ext n body c target labels).outcome = .error e := by
  cases ho : (unmarshalOwn ms env ext n body c target labels).outcome with
  | error e => exact ⟨e, rfl⟩
  | ok u => exact absurd ((C115_unmarshal h₁ x₁ (Nat.le_refl n) ho).trans (C115_unmarshal h₂ x₂ (Nat.le_refl n) ho).symm) h

/-- **C115: everything that the caller sees.** Without methods, also `ref`, its tree and the specification are the same. -/
theorem C115_after {env : Env} {ext ext' : Ext} {n m : Nat} (hx : ext.Le ext') (hn : n ≤ m) {body : Option Body} {c : Nat} {target : Fields}
    {spec : Option (List (Bytes × CVal))} {st : St} {root : Option Nat} {labels : List Bytes}
    (h : (unmarshalSpec env ext n body c target spec st root labels).outcome = .ok ()) :
    unmarshalSpec env ext' m body c target spec st root labels = unmarshalSpec env ext n body c target spec st root labels := by
  unfold unmarshalSpec at h ⊢
  dsimp only at h ⊢
  cases body with
  | none => cases h
  | some body =>
    dsimp only at h ⊢
    cases h1 : decode env ext (defaultTree st.heap root).2 (n + 1) [] ⟨(defaultTree st.heap root).1, st.ref⟩ (defaultTree st.heap root).2 c
        target (spec.getD []) labels body with
    | mk fs o =>
      rw [h1] at h
      cases o with
      | error e => cases h
      | ok st' =>
        have h2 := decodeOwn_le (env := env) Methods.none_le hx (defaultTree st.heap root).2 (Nat.succ_le_succ hn)
        rw [decodeOwn_none, decodeOwn_none] at h2
        rw [h2 _ _ _ _ _ _ _ _ _ _ h1]
        dsimp only
        have h3 : specAfter env ext' m (defaultTree st.heap root).2 ⟨(defaultTree st.heap root).1, st.ref⟩ c spec body =
            specAfter env ext n (defaultTree st.heap root).2 ⟨(defaultTree st.heap root).1, st.ref⟩ c spec body := by
          cases spec with
          | none => rfl
          | some obj =>
            simp only [specAfter, Option.map_some, Option.some.injEq]
            rw [decode] at h1
            unfold decodeStruct prepare at h1
            cases h4 : prelude env ext n (defaultTree st.heap root).2 ⟨(defaultTree st.heap root).1, st.ref⟩ (defaultTree st.heap root).2 c
                obj [] body with
            | error e => simp only [Option.getD_some, h4] at h1; cases h1
            | ok z => rw [prelude_le hx hn _ _ _ _ _ _ _ _ h4]
        rw [h3]

/-- **C116: `Marshal`.** If it succeeds, neither a method nor the encoder of generic data has failed on the way: whatever the failing
ones would have given instead, the text is the same. -/
theorem C116_marshal {ms ms' : Methods} {env : Env} {pe pe' : PExt} (hm : ms.Le ms') (hp : pe.Le pe') {v : Val} {text : Bytes}
    (h : marshalOwn ms env pe v = .ok text) : marshalOwn ms' env pe' v = .ok text :=
  levelText_le hp (marshalOwnN_le hm hp (Nat.le_refl _)) _ _ _ _ _ h

/-- **C116: failures are reported.** -/
theorem C116_reported {ms ms₁ ms₂ : Methods} {env : Env} {pe pe₁ pe₂ : PExt} (h₁ : ms.Le ms₁) (h₂ : ms.Le ms₂) (p₁ : pe.Le pe₁) (p₂ : pe.Le pe₂)
    {v : Val} (h : marshalOwn ms₁ env pe₁ v ≠ marshalOwn ms₂ env pe₂ v) : ∃ e, marshalOwn ms env pe v = .error e := by
  cases ho : marshalOwn ms env pe v with
  | error e => exact ⟨e, rfl⟩
  | ok t => exact absurd ((C116_marshal h₁ p₁ ho).trans (C116_marshal h₂ p₂ ho).symm) h

/-! ## Examples -/

theorem Ext.Le.refl (ext : Ext) : ext.Le ext :=
  ⟨rfl, rfl, rfl, rfl, fun _ _ => .refl _, fun _ _ _ _ => .refl _, fun _ _ _ _ => .refl _, fun _ _ h => h⟩

theorem PExt.Le.refl (pe : PExt) : pe.Le pe := ⟨rfl, rfl, rfl, rfl, rfl, rfl, rfl, fun _ _ => .refl _⟩

namespace Demo

/-- The methods of `Item`, given those for a pointer. -/
def itemMs (w : Fields → Except Fail Bytes) (r : Fields → List Bytes → Body → Except Fail Fields) : Methods :=
  ⟨fun ptr c => if ptr = true ∧ c = 1 then some w else none, fun c => if c = 1 then some r else none⟩

theorem itemMs_le {w w' r r'} (hw : ∀ fs, OkLe (w fs) (w' fs)) (hr : ∀ fs l x, OkLe (r fs l x) (r' fs l x)) : (itemMs w r).Le (itemMs w' r') := by
  constructor
  · intro a c
    by_cases h : a = true ∧ c = 1
    · simp only [itemMs, h, and_self, if_true]; exact hw
    · simp only [itemMs, h, if_false]
  · intro c
    by_cases h : c = 1
    · simp only [itemMs, h, if_true]; exact hr
    · simp only [itemMs, h, if_false]

/-- `UnmarshalHCL` that refuses a second label. -/
def readStrict (fs : Fields) (labels : List Bytes) (body : Body) : Except Fail Fields :=
  if labels.length > 1 then .error .err else readItem fs labels body

theorem strict_le : (itemMs writeItem readStrict).Le msItem :=
  itemMs_le (fun _ => .refl _) fun fs l x => by
    intro a h
    unfold readStrict at h
    split at h
    · cases h
    · exact h

/-- The same, which gives an empty item instead of failing. -/
def readLax (fs : Fields) (labels : List Bytes) (body : Body) : Except Fail Fields :=
  if labels.length > 1 then .ok [(b "Id", .str []), (b "Val", .str [])] else readItem fs labels body

theorem lax_le : (itemMs writeItem readStrict).Le (itemMs writeItem readLax) :=
  itemMs_le (fun _ => .refl _) fun fs l x => by
    intro a h
    unfold readStrict at h
    unfold readLax
    split at h
    · cases h
    · rw [if_neg (by assumption)]; exact h

/-- The document without the block that has two labels. -/
def fewDoc : Body := .mk [str "name" "n"] [(b "items", [b "a"], leafV "1"), (b "items", [], leafV "2")]

/-- `MarshalHCL` that refuses the value 2. -/
def writeStrict (fs : Fields) : Except Fail Bytes :=
  match GoMap.get? fs (b "Val") with
  | some (.str [50]) => .error .err
  | _ => writeItem fs

/-- The same with a text instead of the failure. -/
def writeLax (t : String) (fs : Fields) : Except Fail Bytes :=
  match GoMap.get? fs (b "Val") with
  | some (.str [50]) => .ok (b t)
  | _ => writeItem fs

theorem strictW_le (t : String) : (itemMs writeStrict readItem).Le (itemMs (writeLax t) readItem) :=
  itemMs_le (fun fs => by
    intro a h
    unfold writeStrict at h
    unfold writeLax
    split at h
    · cases h
    · exact h) (fun _ _ _ => .refl _)

end Demo

set_option maxRecDepth 20000 in
-- `C115_unmarshal`: the call that succeeds with the strict method.
example : (unmarshalOwn (Demo.itemMs Demo.writeItem Demo.readStrict) Demo.env Demo.ext 1 (some Demo.fewDoc) 3 (newFields Demo.env Demo.ext 3) []).outcome =
    .ok () := by rfl

set_option maxRecDepth 20000 in
-- `C115_reported`: a block with two labels, which the strict method refuses.
example : ∃ e, (unmarshalOwn (Demo.itemMs Demo.writeItem Demo.readStrict) Demo.env Demo.ext 1 (some Demo.mixedDoc) 3 (newFields Demo.env Demo.ext 3) []).outcome =
    .error e := by
  refine C115_reported Demo.strict_le Demo.lax_le (.refl _) (.refl _) fun h => ?_
  have h1 : (unmarshalOwn Demo.msItem Demo.env Demo.ext 1 (some Demo.mixedDoc) 3 (newFields Demo.env Demo.ext 3) []).target = Demo.mixedStruct := by rfl
  have h2 : (unmarshalOwn (Demo.itemMs Demo.writeItem Demo.readLax) Demo.env Demo.ext 1 (some Demo.mixedDoc) 3 (newFields Demo.env Demo.ext 3) []).target =
    [(b "Name", .str (b "n")), (b "Items", .slice [Demo.one "a" "1", Demo.one "" "2"]), (b "Map", .map [(b "k", .inst 2 [(b "Val", .str (b "4"))])]),
     (b "Pairs", .leaf 0), (b "One", Demo.one "" "")] := by rfl
  rw [h, h2] at h1
  simp only [Demo.mixedStruct, Demo.one, List.cons.injEq, Prod.mk.injEq, Val.ref.injEq, Val.str.injEq, true_and, and_true] at h1
  exact absurd h1.1 (by decide +kernel)

set_option maxRecDepth 20000 in
-- `C115_after`
example : (unmarshalSpec Demo.env Demo.ext 1 (some (.mk [Demo.str "name" "n"] [])) 3 (newFields Demo.env Demo.ext 3) (some []) ⟨[], Demo.ref0⟩ none []).outcome =
    .ok () := by rfl

set_option maxRecDepth 20000 in
-- `C116_marshal` and `C116_reported`
example : (∃ t, marshalOwn (Demo.itemMs Demo.writeStrict Demo.readItem) Demo.env Demo.pe (.ref 3 (Demo.items [Demo.one "" "1"])) = .ok t) ∧
    ∃ e, marshalOwn (Demo.itemMs Demo.writeStrict Demo.readItem) Demo.env Demo.pe (.ref 3 (Demo.items [Demo.one "" "1", Demo.one "" "2"])) = .error e := by
  refine ⟨⟨_, by rfl⟩, C116_reported (Demo.strictW_le "v = 1") (Demo.strictW_le "v = 2") (.refl _) (.refl _) fun h => ?_⟩
  have h1 : marshalOwn (Demo.itemMs (Demo.writeLax "v = 1") Demo.readItem) Demo.env Demo.pe (.ref 3 (Demo.items [Demo.one "" "1", Demo.one "" "2"])) =
    .ok (b "  items {    \n  v = \"1\"\n  }\n  items {    \n  v = 1\n  }") := by rfl
  have h2 : marshalOwn (Demo.itemMs (Demo.writeLax "v = 2") Demo.readItem) Demo.env Demo.pe (.ref 3 (Demo.items [Demo.one "" "1", Demo.one "" "2"])) =
    .ok (b "  items {    \n  v = \"1\"\n  }\n  items {    \n  v = 2\n  }") := by rfl
  rw [h1, h2, Except.ok.injEq] at h
  exact absurd h (by decide +kernel)

end Verif.HclS
