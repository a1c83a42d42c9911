import Verif.Lemmas.HclParse
import Verif.Lemmas.HclDecode
set_option linter.unusedSimpArgs false
/-! What `Marshal` writes for valid data is the syntax tree of the specification. -/
namespace Verif.Hcl

theorem hashAll_eq : hashAll = byLabels := by
  funext d m
  have : (fun e : Bytes × GV => e.2.isMap) = fun e => match e.2 with | .map _ | .nilMap => true | _ => false := by
    funext e; obtain ⟨k, v⟩ := e; cases v <;> rfl
  simp only [hashAll, byLabels, this]; rfl

theorem Except.map_ok' {ε α β : Type} {x : Except ε α} {f : α → β} {y : β} (h : x.map f = .ok y) :
    ∃ a, x = .ok a ∧ f a = y := by
  cases x with
  | error e => cases h
  | ok a => exact ⟨a, rfl, by simpa [Except.map] using h⟩

theorem Except.bind_ok' {ε α β : Type} {x : Except ε α} {f : α → Except ε β} {y : β} (h : x.bind f = .ok y) :
    ∃ a, x = .ok a ∧ f a = .ok y := by
  cases x with
  | error e => cases h
  | ok a => exact ⟨a, rfl, by simpa [Except.bind] using h⟩

/-- The items of a map. -/
def itemsA (k : Bytes) (v : GV) : List Item := [.attr k (exprOf false v)]

mutual
def itemsOf : List (Bytes × GV) → List Item
  | [] => []
  | (k, v) :: m => itemsV k [] v ++ itemsOf m
def itemsV (k : Bytes) (ls : List Bytes) : GV → List Item
  | .map m => if byLabels ls.length m then itemsH k ls m
    else [.block k ls (.mk (Item.attrs (itemsOf m)) (Item.blocks (itemsOf m)))]
  | .nilMap => []
  | .nil => [.attr k (exprOf false .nil)]
  | .nilList => [.attr k (exprOf false .nilList)]
  | .list l => [.attr k (exprOf false (.list l))]
  | .str s => [.attr k (exprOf false (.str s))]
  | .bool v => [.attr k (exprOf false (.bool v))]
  | .int n => [.attr k (exprOf false (.int n))]
  | .flt q => [.attr k (exprOf false (.flt q))]
def itemsH (k : Bytes) (ls : List Bytes) : List (Bytes × GV) → List Item
  | [] => []
  | (l, v) :: m => itemsV k (ls ++ [l]) v ++ itemsH k ls m
end

theorem Item.attrs_append (x y : List Item) : Item.attrs (x ++ y) = Item.attrs x ++ Item.attrs y := by
  induction x with
  | nil => rfl
  | cons e x ih => cases e <;> simp [Item.attrs, ih]

theorem Item.blocks_append (x y : List Item) : Item.blocks (x ++ y) = Item.blocks x ++ Item.blocks y := by
  induction x with
  | nil => rfl
  | cons e x ih => cases e <;> simp [Item.blocks, ih]

mutual
theorem attrs_itemsH (k : Bytes) (ls : List Bytes) : ∀ m : List (Bytes × GV), (∀ e ∈ m, e.2.isMap = true) →
    Item.attrs (itemsH k ls m) = [] ∧ Item.blocks (itemsH k ls m) = blocksH k ls m
  | [], _ => ⟨rfl, rfl⟩
  | (l, v) :: m, h => by
    have h1 := items_V k (ls ++ [l]) v
    have h2 := attrs_itemsH k ls m fun e he => h e (by simp [he])
    have hv : v.isMap = true := h (l, v) (by simp)
    simp only [itemsH, blocksH, Item.attrs_append, Item.blocks_append, h1.1, h1.2, h2.1, h2.2, hv, if_true,
      List.append_nil, and_self]
theorem items_V (k : Bytes) (ls : List Bytes) : ∀ v : GV,
    Item.attrs (itemsV k ls v) = (if v.isMap then [] else [(k, exprOf false v)]) ∧
    Item.blocks (itemsV k ls v) = blocksV k ls v
  | .map m => by
    simp only [itemsV, blocksV, GV.isMap, if_true]
    split
    · rename_i h
      have : ∀ e ∈ m, e.2.isMap = true := by
        simp only [byLabels, Bool.and_eq_true, List.all_eq_true] at h
        exact h.1.2
      exact attrs_itemsH k ls m this
    · have := items_M m
      simp only [Item.attrs, Item.blocks, this.1, this.2, and_self]
  | .nilMap => ⟨rfl, rfl⟩
  | .nil => ⟨rfl, rfl⟩
  | .nilList => ⟨rfl, rfl⟩
  | .list _ => ⟨rfl, rfl⟩
  | .str _ => ⟨rfl, rfl⟩
  | .bool _ => ⟨rfl, rfl⟩
  | .int _ => ⟨rfl, rfl⟩
  | .flt _ => ⟨rfl, rfl⟩
theorem items_M : ∀ m : List (Bytes × GV), Item.attrs (itemsOf m) = attrsOf m ∧ Item.blocks (itemsOf m) = blocksOf m
  | [] => ⟨rfl, rfl⟩
  | (k, v) :: m => by
    have h1 := items_V k [] v
    have h2 := items_M m
    simp only [itemsOf, attrsOf, blocksOf, Item.attrs_append, Item.blocks_append, h1.1, h1.2, h2.1, h2.2]
    cases v.isMap <;> simp
end

theorem attrsOf_keys (m : List (Bytes × GV)) : List.Sublist ((attrsOf m).map Prod.fst) (m.map Prod.fst) := by
  induction m with
  | nil => exact List.Sublist.refl _
  | cons e m ih =>
    obtain ⟨k, v⟩ := e
    simp only [attrsOf]
    split
    · exact ih.cons _
    · exact ih.cons_cons _

theorem okBody_nodup {m : List (Bytes × GV)} (h : okBody m) : (m.map Prod.fst).Nodup := by
  induction m with
  | nil => exact List.nodup_nil
  | cons e m ih =>
    obtain ⟨k, v⟩ := e
    simp only [okBody] at h
    simp only [List.map_cons, List.nodup_cons]
    exact ⟨h.1.2.2, ih h.2.2⟩

/-- A list text has a space, the last word of a name does not. -/
theorem matchlast_list (k : Bytes) (level : Nat) (arr : List Bytes) : matchlast k (listText level arr) = false := by
  simp only [matchlast, decide_eq_false_iff_not]
  intro h
  have h1 : (32 : UInt8) ∈ listText level arr := by
    simp only [listText, indent, List.cons_append, List.mem_cons, List.mem_append, List.mem_replicate]
    exact .inr (.inr (.inl (.inl (.inl ⟨by omega, trivial⟩))))
  rw [← h, List.mem_reverse] at h1
  have := List.all_eq_true.1 (List.all_takeWhile (l := List.reverse k) (p := fun x => decide (x ≠ 32))) _ h1
  simp at this

/-- A scalar as a member. -/
theorem scalar_line {v : GV} {name t0 : Bytes} {x : Except Unit Bytes} (hs : ∀ s, v = .str s → SafeStr s)
    (hv : scalarText v = some x) (he : exprOf false v = scalarExpr v) {y : List Bytes}
    (h : (((scalarText v).getD (.error ())).map fun t => [assign name t]) = .ok y) (_ : t0 = t0) :
    ∃ t, y = [assign name t] ∧ ExprOk t (exprOf false v) := by
  rw [hv] at h
  obtain ⟨t, h1, h2⟩ := Except.map_ok' h
  rw [he]
  exact ⟨t, h2.symm, .scalar hs hv h1⟩

theorem exprOf_elem (v : GV) (h : (scalarText v).isSome = true) :
    exprOf true v = if v.zeroScalar = true then .tuple [] else scalarExpr v := by
  cases v <;> simp [scalarText] at h <;> simp [exprOf, GV.zeroScalar, scalarExpr]

mutual
/-- The elements of a list. -/
theorem encList_ok (level : Nat) : ∀ (l : List GV) (arr : List Bytes), okElems l → encList level l = .ok arr →
    List.Forall₂ ExprOk arr (exprsOf l)
  | [], arr, _, h => by
    simp only [encList] at h; cases h; exact List.Forall₂.nil
  | v :: l, arr, hok, h => by
    simp only [okElems] at hok
    simp only [encList] at h
    obtain ⟨o, h1, h2⟩ := Except.bind_ok' h
    obtain ⟨arr', h3, h4⟩ := Except.map_ok' h2
    subst h4
    simp only [exprsOf]
    exact List.Forall₂.cons (encV_ok level v o hok.1 h1) (encList_ok level l arr' hok.2 h3)
/-- An element of a list. -/
theorem encV_ok (level : Nat) : ∀ (v : GV) (o : Option Bytes), okElem v → encV (level + 1) (some nmr) v = .ok o →
    ExprOk (o.getD (b "[]")) (exprOf true v)
  | .nil, o, _, h => by simp only [encV] at h; cases h; simpa [exprOf] using ExprOk.emptyTuple
  | .nilList, o, _, h => by simp only [encV] at h; cases h; simpa [exprOf] using ExprOk.emptyTuple
  | .nilMap, o, _, h => by simp only [encV] at h; cases h; simpa [exprOf] using ExprOk.emptyTuple
  | .map m, o, hok, h => by
    simp only [encV] at h
    obtain ⟨arr, h1, h2⟩ := Except.map_ok' h
    subst h2
    simp only [okElem] at hok
    simp only [exprOf, Option.getD_some]
    exact .object (by omega) (encObj_ok level m arr hok h1)
  | .list l, o, hok, h => by
    simp only [encV] at h
    obtain ⟨arr, h1, h2⟩ := Except.map_ok' h
    subst h2
    simp only [okElem] at hok
    simp only [exprOf, Option.getD_some]
    exact .tuple _ (encList_ok (level + 1) l arr hok h1)
  | .str s, o, hok, h => by
    simp only [encV] at h
    rw [exprOf_elem _ rfl]
    by_cases hz : (GV.str s).zeroScalar = true
    · rw [if_pos hz] at h ⊢; cases h; exact .emptyTuple
    · rw [if_neg hz] at h ⊢
      obtain ⟨t, h1, h2⟩ := Except.map_ok' h
      subst h2
      simp only [okElem] at hok
      exact .scalar (v := .str s) (fun _ e => by cases e; exact hok) rfl h1
  | .bool v, o, hok, h => by
    simp only [encV] at h
    rw [exprOf_elem _ rfl]
    by_cases hz : (GV.bool v).zeroScalar = true
    · rw [if_pos hz] at h ⊢; cases h; exact .emptyTuple
    · rw [if_neg hz] at h ⊢
      obtain ⟨t, h1, h2⟩ := Except.map_ok' h
      subst h2
      exact .scalar (v := .bool v) (fun _ e => by cases e) rfl h1
  | .int n, o, hok, h => by
    simp only [encV] at h
    rw [exprOf_elem _ rfl]
    by_cases hz : (GV.int n).zeroScalar = true
    · rw [if_pos hz] at h ⊢; cases h; exact .emptyTuple
    · rw [if_neg hz] at h ⊢
      obtain ⟨t, h1, h2⟩ := Except.map_ok' h
      subst h2
      exact .scalar (v := .int n) (fun _ e => by cases e) rfl h1
  | .flt q, o, hok, h => by
    simp only [encV] at h
    rw [exprOf_elem _ rfl]
    by_cases hz : (GV.flt q).zeroScalar = true
    · rw [if_pos hz] at h ⊢; cases h; exact .emptyTuple
    · rw [if_neg hz] at h ⊢
      obtain ⟨t, h1, h2⟩ := Except.map_ok' h
      subst h2
      exact .scalar (v := .flt q) (fun _ e => by cases e) rfl h1
/-- The members of a map in a list. -/
theorem encObj_ok (level : Nat) : ∀ (m : List (Bytes × GV)) (arr : List Bytes), okObj m →
    encMap (level + 1) (some nmr) m = .ok arr → List.Forall₂ MemberOk arr (membersOf m)
  | [], arr, _, h => by
    simp only [encMap] at h; cases h; exact List.Forall₂.nil
  | (k, v) :: m, arr, hok, h => by
    simp only [okObj] at hok
    simp only [encMap] at h
    obtain ⟨x, h1, h2⟩ := Except.bind_ok' h
    obtain ⟨arr', h3, h4⟩ := Except.map_ok' h2
    subst h4
    have ih := encObj_ok level m arr' hok.2.2 h3
    have : ∃ t, x = [assign k t] ∧ ExprOk t (exprOf false v) := by
      by_cases hn : v.isNil = true
      · rw [if_pos hn] at h1
        cases h1
        cases v <;> simp [GV.isNil] at hn
        exact ⟨_, rfl, by simpa [exprOf] using ExprOk.null⟩
      · rw [if_neg hn, if_pos trivial] at h1
        exact encShort_ok k (level + 1) v x hok.2.1 (by simpa using hn) h1
    obtain ⟨t, rfl, ht⟩ := this
    simp only [membersOf, List.cons_append, List.nil_append]
    exact List.Forall₂.cons ⟨k, t, rfl, hok.1.1, hok.1.2, rfl, ht⟩ ih
theorem encShort_ok (name : Bytes) (level : Nat) : ∀ (v : GV) (x : List Bytes), okMember v → v.isNil = false →
    encShort name level v = .ok x → ∃ t, x = [assign name t] ∧ ExprOk t (exprOf false v)
  | .nil, _, _, hn, _ => by simp [GV.isNil] at hn
  | .nilList, _, hok, _, _ => by simp [okMember] at hok
  | .nilMap, _, hok, _, _ => by simp [okMember] at hok
  | .map m, x, hok, _, h => by
    simp only [encShort] at h
    obtain ⟨arr, h1, h2⟩ := Except.map_ok' h
    subst h2
    simp only [okMember] at hok
    refine ⟨_, rfl, ?_⟩
    simp only [exprOf]
    exact .object (by omega) (encFlat_ok (level + 1) m arr hok h1)
  | .list l, x, hok, _, h => by
    simp only [encShort] at h
    obtain ⟨arr, h1, h2⟩ := Except.map_ok' h
    subst h2
    simp only [okMember] at hok
    refine ⟨_, rfl, ?_⟩
    simp only [exprOf]
    exact .tuple _ (encList_ok (level + 1) l arr hok h1)
  | .str s, x, hok, _, h => by
    simp only [okMember] at hok
    simp only [encShort] at h
    exact scalar_line (t0 := []) (v := .str s) (fun _ e => by cases e; exact hok) rfl (by simp [exprOf, scalarExpr]) h rfl
  | .bool v, x, hok, _, h => by
    simp only [encShort] at h
    exact scalar_line (t0 := []) (v := .bool v) (fun _ e => by cases e) rfl (by simp [exprOf]) h rfl
  | .int n, x, hok, _, h => by
    simp only [encShort] at h
    exact scalar_line (t0 := []) (v := .int n) (fun _ e => by cases e) rfl (by simp [exprOf]) h rfl
  | .flt q, x, hok, _, h => by
    simp only [encShort] at h
    exact scalar_line (t0 := []) (v := .flt q) (fun _ e => by cases e) rfl (by simp [exprOf]) h rfl
/-- The members of a map in a map in a list. -/
theorem encFlat_ok (level : Nat) : ∀ (m : List (Bytes × GV)) (arr : List Bytes), okFlat m →
    encMap level none m = .ok arr → List.Forall₂ MemberOk arr (membersOf m)
  | [], arr, _, h => by
    simp only [encMap] at h; cases h; exact List.Forall₂.nil
  | (k, v) :: m, arr, hok, h => by
    simp only [okFlat] at hok
    simp only [encMap] at h
    obtain ⟨x, h1, h2⟩ := Except.bind_ok' h
    obtain ⟨arr', h3, h4⟩ := Except.map_ok' h2
    subst h4
    have ih := encFlat_ok level m arr' hok.2.2 h3
    have : ∃ t, x = [assign k t] ∧ ExprOk t (exprOf false v) := by
      by_cases hn : v.isNil = true
      · rw [if_pos hn] at h1
        cases h1
        cases v <;> simp [GV.isNil] at hn
        exact ⟨_, rfl, by simpa [exprOf] using ExprOk.null⟩
      · rw [if_neg hn, if_neg (by simp)] at h1
        exact encLeaf_ok k level v x hok.2.1 (by simpa using hn) h1
    obtain ⟨t, rfl, ht⟩ := this
    simp only [membersOf, List.cons_append, List.nil_append]
    exact List.Forall₂.cons ⟨k, t, rfl, hok.1.1, hok.1.2, rfl, ht⟩ ih
theorem encLeaf_ok (name : Bytes) (level : Nat) : ∀ (v : GV) (x : List Bytes), okLeaf v → v.isNil = false →
    encLine name 0 level none v = .ok x → ∃ t, x = [assign name t] ∧ ExprOk t (exprOf false v)
  | .nil, _, _, hn, _ => by simp [GV.isNil] at hn
  | .nilList, _, hok, _, _ => by simp [okLeaf] at hok
  | .nilMap, _, hok, _, _ => by simp [okLeaf] at hok
  | .map m, x, hok, _, h => by simp [okLeaf] at hok
  | .list l, x, hok, _, h => by
    simp only [encLine] at h
    obtain ⟨arr, h1, h2⟩ := Except.map_ok' h
    subst h2
    simp only [okLeaf] at hok
    refine ⟨_, rfl, ?_⟩
    simp only [exprOf]
    exact .tuple _ (encList_ok (level + 1) l arr hok h1)
  | .str s, x, hok, _, h => by
    simp only [okLeaf] at hok
    simp only [encLine] at h
    exact scalar_line (t0 := []) (v := .str s) (fun _ e => by cases e; exact hok) rfl (by simp [exprOf, scalarExpr]) h rfl
  | .bool v, x, hok, _, h => by
    simp only [encLine] at h
    exact scalar_line (t0 := []) (v := .bool v) (fun _ e => by cases e) rfl (by simp [exprOf]) h rfl
  | .int n, x, hok, _, h => by
    simp only [encLine] at h
    exact scalar_line (t0 := []) (v := .int n) (fun _ e => by cases e) rfl (by simp [exprOf]) h rfl
  | .flt q, x, hok, _, h => by
    simp only [encLine] at h
    exact scalar_line (t0 := []) (v := .flt q) (fun _ e => by cases e) rfl (by simp [exprOf]) h rfl
end

theorem NameOk.attr {name k : Bytes} (h : NameOk name k []) : LxD name [.ident k] := by simpa [NameOk] using h

theorem scalar_item {v : GV} {name k : Bytes} {x : Except Unit Bytes} (hs : ∀ s, v = .str s → SafeStr s)
    (hv : scalarText v = some x) (he : exprOf false v = scalarExpr v) {y : List Bytes} (hn : name = k)
    (hk : LxD k [.ident k])
    (h : (((scalarText v).getD (.error ())).map fun t => [assign name t]) = .ok y) :
    List.Forall₂ ItemOk y [.attr k (exprOf false v)] := by
  obtain ⟨t, rfl, ht⟩ := scalar_line (t0 := []) hs hv he h rfl
  subst hn
  exact List.Forall₂.cons (.attr hk ht) List.Forall₂.nil

theorem forall₂_append {α β : Type} {R : α → β → Prop} {a a' : List α} {c c' : List β} (h : List.Forall₂ R a c)
    (h' : List.Forall₂ R a' c') : List.Forall₂ R (a ++ a') (c ++ c') := by
  induction h with
  | nil => exact h'
  | cons h _ ih => exact List.Forall₂.cons h ih

mutual
/-- The lines of a map that is not in a list. -/
theorem encBody_ok (level : Nat) (keyname : Option Bytes) (hkn : keyname ≠ some nmr) :
    ∀ (m : List (Bytes × GV)) (arr : List Bytes), okBody m → encMap level keyname m = .ok arr →
      List.Forall₂ ItemOk arr (itemsOf m)
  | [], arr, _, h => by
    simp only [encMap] at h; cases h; exact List.Forall₂.nil
  | (k, v) :: m, arr, hok, h => by
    simp only [okBody] at hok
    simp only [encMap] at h
    obtain ⟨x, h1, h2⟩ := Except.bind_ok' h
    obtain ⟨arr', h3, h4⟩ := Except.map_ok' h2
    subst h4
    have ih := encBody_ok level keyname hkn m arr' hok.2.2 h3
    simp only [itemsOf]
    refine forall₂_append ?_ ih
    by_cases hn : v.isNil = true
    · rw [if_pos hn] at h1
      cases h1
      cases v <;> simp [GV.isNil] at hn
      simp only [itemsV, exprOf, Bool.false_eq_true, if_false]
      exact List.Forall₂.cons (.attr (.ident hok.1.1) .null) List.Forall₂.nil
    · rw [if_neg hn, if_neg hkn] at h1
      exact encLine_ok k k [] (LxD.ident hok.1.1) (fun _ => rfl) hok.1.2.1 level keyname v x hok.2.1 (by simpa using hn)
        (fun h => absurd rfl h) h1
theorem encLine_ok (name k : Bytes) (ls : List Bytes) (hname : NameOk name k ls) (hnk : ls = [] → name = k)
    (hnm : name ≠ nmr) (level : Nat) (keyname : Option Bytes) :
    ∀ (v : GV) (x : List Bytes), okLine ls.length v → v.isNil = false → (ls ≠ [] → v.isMap = true) →
      encLine name ls.length level keyname v = .ok x → List.Forall₂ ItemOk x (itemsV k ls v)
  | .nil, _, _, hn, _, _ => by simp [GV.isNil] at hn
  | .nilList, _, hok, _, _, _ => by simp [okLine] at hok
  | .nilMap, _, hok, _, _, _ => by simp [okLine] at hok
  | .map m, x, hok, _, _, h => by
    simp only [okLine] at hok
    simp only [encLine, hashAll_eq] at h
    simp only [itemsV]
    split at h
    · rename_i hh
      rw [if_pos hh]
      have hm : ∀ e ∈ m, e.2.isMap = true := by
        simp only [byLabels, Bool.and_eq_true, List.all_eq_true] at hh
        exact hh.1.2
      exact encHash_ok name k ls hname level m x (hok.1 hh) hm h
    · rename_i hh
      rw [if_neg hh]
      obtain ⟨arr, h1, h2⟩ := Except.map_ok' h
      subst h2
      have hb := hok.2 (by simpa using hh)
      have ih := encBody_ok (level + 1) (some name) (by simpa using hnm) m arr hb h1
      refine List.Forall₂.cons (.block (by omega) hname ih ?_) List.Forall₂.nil
      rw [(items_M m).1]
      exact (okBody_nodup hb).sublist (attrsOf_keys m)
  | .list l, x, hok, _, hls, h => by
    have hl0 : ls = [] := by
      by_contra h0; simpa [GV.isMap] using hls h0
    subst hl0
    simp only [okLine] at hok
    simp only [encLine] at h
    obtain ⟨arr, h1, h2⟩ := Except.map_ok' h
    have : x = [assign name (listText (level + 1) arr)] := by
      rw [← h2]
      cases keyname with
      | none => rfl
      | some k => simp [matchlast_list]
    subst this
    have hnk := hnk rfl; subst hnk
    simp only [itemsV, exprOf]
    exact List.Forall₂.cons (.attr hname.attr (.tuple _ (encList_ok _ l arr hok h1))) List.Forall₂.nil
  | .str s, x, hok, _, hls, h => by
    have hl0 : ls = [] := by
      by_contra h0; simpa [GV.isMap] using hls h0
    subst hl0
    simp only [okLine] at hok
    simp only [encLine] at h
    have hnk := hnk rfl; subst hnk
    exact scalar_item (v := .str s) (fun _ e => by cases e; exact hok) rfl (by simp [exprOf, scalarExpr]) rfl hname.attr h
  | .bool v, x, hok, _, hls, h => by
    have hl0 : ls = [] := by
      by_contra h0; simpa [GV.isMap] using hls h0
    subst hl0
    simp only [encLine] at h
    have hnk := hnk rfl; subst hnk
    exact scalar_item (v := .bool v) (fun _ e => by cases e) rfl (by simp [exprOf]) rfl hname.attr h
  | .int n, x, hok, _, hls, h => by
    have hl0 : ls = [] := by
      by_contra h0; simpa [GV.isMap] using hls h0
    subst hl0
    simp only [encLine] at h
    have hnk := hnk rfl; subst hnk
    exact scalar_item (v := .int n) (fun _ e => by cases e) rfl (by simp [exprOf]) rfl hname.attr h
  | .flt q, x, hok, _, hls, h => by
    have hl0 : ls = [] := by
      by_contra h0; simpa [GV.isMap] using hls h0
    subst hl0
    simp only [encLine] at h
    have hnk := hnk rfl; subst hnk
    exact scalar_item (v := .flt q) (fun _ e => by cases e) rfl (by simp [exprOf]) rfl hname.attr h
theorem encHash_ok (name k : Bytes) (ls : List Bytes) (hname : NameOk name k ls) (level : Nat) :
    ∀ (m : List (Bytes × GV)) (x : List Bytes), okLabels ls.length m → (∀ e ∈ m, e.2.isMap = true) →
      encHash name ls.length level m = .ok x → List.Forall₂ ItemOk x (itemsH k ls m)
  | [], x, _, _, h => by
    simp only [encHash] at h; cases h; exact List.Forall₂.nil
  | (l, v) :: m, x, hok, hm, h => by
    simp only [okLabels] at hok
    simp only [encHash] at h
    obtain ⟨y, h1, h2⟩ := Except.bind_ok' h
    obtain ⟨arr', h3, h4⟩ := Except.map_ok' h2
    subst h4
    simp only [itemsH]
    have hv : v.isMap = true := hm (l, v) (by simp)
    refine forall₂_append ?_ (encHash_ok name k ls hname level m arr' hok.2.2 (fun e he => hm e (by simp [he])) h3)
    have hne : name ++ 32 :: 34 :: l ++ [34] ≠ nmr := by
      intro e
      have : (32 : UInt8) ∈ nmr := by rw [← e]; simp
      revert this; decide
    exact encLine_ok _ k (ls ++ [l]) (hname.label hok.1) (by simp) hne level none v y (by simpa using hok.2.1)
      (by cases v <;> simp [GV.isMap] at hv <;> rfl) (fun _ => hv) (by simpa using h1)
end

/-- A valid map is written as the body of the specification. -/
theorem marshal_body {m : List (Bytes × GV)} {o : Option Bytes} (hok : okBody m) (h : marshal (.map m) = .ok o) :
    ∃ t, o = some t ∧ parseConfig t = .ok (bodyOf m) := by
  simp only [marshal, encV] at h
  obtain ⟨arr, h1, h2⟩ := Except.map_ok' h
  refine ⟨_, h2.symm, ?_⟩
  have := parseConfig_body (encBody_ok 0 none (by simp) m arr hok h1) (by
    rw [(items_M m).1]; exact (okBody_nodup hok).sublist (attrsOf_keys m))
  rw [this, (items_M m).1, (items_M m).2]
  rfl

end Verif.Hcl
